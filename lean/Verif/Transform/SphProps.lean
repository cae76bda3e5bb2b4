import Verif.Transform.Modified
import Mathlib.Analysis.SpecialFunctions.Complex.LogDeriv
import Mathlib.Analysis.SpecialFunctions.Trigonometric.InverseDeriv

/-!
# C37: spherical to Cartesian
-/
namespace Phoebus.Transform
open Finset Real

variable {eps : ℝ} {x y z : ℝ}

/-- Specification: the Cartesian coordinates of a spherical point. -/
noncomputable def cart (r th ph : ℝ) : Fin 3 → ℝ := ![r * sin th * cos ph, r * sin th * sin ph, r * cos th]

/-- off the axis, and neither so close to the origin nor to the axis that `make_positive` acts. -/
structure OffAxis (eps x y z : ℝ) : Prop where
  axis : 0 < x ^ 2 + y ^ 2
  origin : eps ≤ x * x + y * y + z * z
  angle : eps ≤ arccos (z / sqrt (x * x + y * y + z * z))

theorem sphCoords_eq (h : OffAxis eps x y z) :
    sphCoords 0 eps x y z = (sqrt (x * x + y * y + z * z), arccos (z / sqrt (x * x + y * y + z * z)), Complex.arg ⟨x, y⟩) := by
  unfold sphCoords Robust.makePositive
  simp only [max_eq_left h.origin, Rel.ratio_zero, max_eq_left h.angle]

theorem r_pos (h : 0 < x ^ 2 + y ^ 2) : 0 < sqrt (x * x + y * y + z * z) := sqrt_pos.2 (by nlinarith [sq_nonneg z])

theorem cos_th (h : 0 < x ^ 2 + y ^ 2) :
    cos (arccos (z / sqrt (x * x + y * y + z * z))) = z / sqrt (x * x + y * y + z * z) := by
  have hr := r_pos (z := z) h
  have h2 : z ^ 2 ≤ sqrt (x * x + y * y + z * z) ^ 2 := by rw [sq_sqrt (by nlinarith [sq_nonneg z])]; nlinarith
  have := abs_le_of_sq_le_sq' h2 hr.le
  refine cos_arccos ?_ ?_
  · rw [le_div_iff₀ hr]; linarith
  · rw [div_le_iff₀ hr]; linarith

theorem sin_th (h : 0 < x ^ 2 + y ^ 2) :
    sin (arccos (z / sqrt (x * x + y * y + z * z))) = sqrt (x ^ 2 + y ^ 2) / sqrt (x * x + y * y + z * z) := by
  have hr := r_pos (z := z) h
  have hr2 : sqrt (x * x + y * y + z * z) ^ 2 = x * x + y * y + z * z := sq_sqrt (by nlinarith [sq_nonneg z])
  rw [sin_arccos, ← sqrt_sq (div_nonneg (sqrt_nonneg (x ^ 2 + y ^ 2)) hr.le), div_pow, div_pow, sq_sqrt h.le, hr2]
  congr 1
  have : x * x + y * y + z * z ≠ 0 := by nlinarith [sq_nonneg z]
  field_simp; ring

theorem norm_xy : ‖(⟨x, y⟩ : ℂ)‖ = sqrt (x ^ 2 + y ^ 2) := by
  rw [Complex.norm_def, Complex.normSq_mk]; congr 1; ring

theorem ph_spec (h : 0 < x ^ 2 + y ^ 2) :
    sqrt (x ^ 2 + y ^ 2) * cos (Complex.arg ⟨x, y⟩) = x ∧ sqrt (x ^ 2 + y ^ 2) * sin (Complex.arg ⟨x, y⟩) = y := by
  rw [← norm_xy]
  exact ⟨Complex.norm_mul_cos_arg _, Complex.norm_mul_sin_arg _⟩

/-- **C37** The returned spherical coordinates are those of the point: converting back gives `(x, y, z)`. -/
theorem sphCoords_invert (h : OffAxis eps x y z) :
    cart (sphCoords 0 eps x y z).1 (sphCoords 0 eps x y z).2.1 (sphCoords 0 eps x y z).2.2 = ![x, y, z] ∧
    0 < (sphCoords 0 eps x y z).1 ∧ 0 < sin (sphCoords 0 eps x y z).2.1 := by
  rw [sphCoords_eq h]
  have hr := r_pos (z := z) h.axis
  obtain ⟨hx, hy⟩ := ph_spec h.axis
  refine ⟨?_, hr, ?_⟩
  · simp only [cart, sin_th h.axis, cos_th h.axis]
    rw [mul_div_cancel₀ _ hr.ne', mul_div_cancel₀ _ hr.ne', hx, hy]
  · simp only [sin_th h.axis]
    exact div_pos (sqrt_pos.2 h.axis) hr

/-- **C37** The Jacobians of the spherical-to-Cartesian transformation are mutually inverse. -/
theorem sph_jacobians_inverse (X : Fin 3 → ℝ) (h : OffAxis eps (X 0) (X 1) (X 2)) : (sph2cart 0 eps X).Inverse := by
  obtain ⟨-, hr, hs⟩ := sphCoords_invert h
  have h1 := sin_sq_add_cos_sq (sphCoords 0 eps (X 0) (X 1) (X 2)).2.1
  have h2 := sin_sq_add_cos_sq (sphCoords 0 eps (X 0) (X 1) (X 2)).2.2
  unfold sph2cart
  simp only [Rel.ratio_zero]
  intro i j
  generalize (sphCoords 0 eps (X 0) (X 1) (X 2)).1 = r at *
  generalize sin (sphCoords 0 eps (X 0) (X 1) (X 2)).2.1 = s at *
  generalize cos (sphCoords 0 eps (X 0) (X 1) (X 2)).2.1 = c at *
  generalize sin (sphCoords 0 eps (X 0) (X 1) (X 2)).2.2 = S at *
  generalize cos (sphCoords 0 eps (X 0) (X 1) (X 2)).2.2 = C at *
  have hr' := hr.ne'
  have hs' := hs.ne'
  fin_cases i <;> fin_cases j <;> simp [Fin.sum_univ_three]
  · linear_combination s ^ 2 * h2 + h1
  · linear_combination (r * s * c) * h2
  · ring
  · field_simp; linear_combination (c * s) * h2
  · field_simp; linear_combination c ^ 2 * h2 + h1
  · field_simp; ring
  · field_simp; ring
  · field_simp; ring
  · field_simp; linear_combination h2

/-- **C37** `Jcon` is the derivative of the Cartesian coordinates with respect to the spherical ones. -/
theorem sph_jcon_deriv (X : Fin 3 → ℝ) (i : Fin 3) :
    let C := (sph2cart 0 eps X).C
    HasDerivAt (fun t => cart t (C 1) (C 2) i) ((sph2cart 0 eps X).Jcon i 0) (C 0) ∧
    HasDerivAt (fun t => cart (C 0) t (C 2) i) ((sph2cart 0 eps X).Jcon i 1) (C 1) ∧
    HasDerivAt (fun t => cart (C 0) (C 1) t i) ((sph2cart 0 eps X).Jcon i 2) (C 2) := by
  unfold sph2cart
  simp only
  generalize (sphCoords 0 eps (X 0) (X 1) (X 2)).1 = r
  generalize (sphCoords 0 eps (X 0) (X 1) (X 2)).2.1 = th
  generalize (sphCoords 0 eps (X 0) (X 1) (X 2)).2.2 = ph
  have : i = 0 ∨ i = 1 ∨ i = 2 := by omega
  rcases this with rfl | rfl | rfl
  · refine ⟨?_, ?_, ?_⟩
    · exact (((hasDerivAt_id r).mul_const (sin th)).mul_const (cos ph)).congr_deriv (by simp)
    · exact (((hasDerivAt_sin th).const_mul r).mul_const (cos ph)).congr_deriv (by simp)
    · exact ((hasDerivAt_cos ph).const_mul (r * sin th)).congr_deriv (by simp)
  · refine ⟨?_, ?_, ?_⟩
    · exact (((hasDerivAt_id r).mul_const (sin th)).mul_const (sin ph)).congr_deriv (by simp)
    · exact (((hasDerivAt_sin th).const_mul r).mul_const (sin ph)).congr_deriv (by simp)
    · exact ((hasDerivAt_sin ph).const_mul (r * sin th)).congr_deriv (by simp)
  · refine ⟨?_, ?_, ?_⟩
    · exact ((hasDerivAt_id r).mul_const (cos th)).congr_deriv (by simp)
    · exact ((hasDerivAt_cos th).const_mul r).congr_deriv (by simp)
    · exact (hasDerivAt_const ph (r * cos th)).congr_deriv (by simp)

/-- the point `(x,y,z)` moving with velocity `d`. -/
def path (x y z : ℝ) (d : Fin 3 → ℝ) (t : ℝ) : Fin 3 → ℝ := ![x + t * d 0, y + t * d 1, z + t * d 2]

/-- **C37** Each row of `Jcov` is the gradient of the corresponding spherical coordinate: along any straight path through
the point, `r` and `θ` change at the rate `Jcov · d`, and so does `φ` away from the cut of `atan2`. -/
theorem sph_jcov_deriv (d : Fin 3 → ℝ) (h : OffAxis eps x y z) :
    HasDerivAt (fun t => sqrt (∑ i, path x y z d t i * path x y z d t i)) (∑ j, (sph2cart 0 eps ![x, y, z]).Jcov 0 j * d j) 0 ∧
    HasDerivAt (fun t => arccos (path x y z d t 2 / sqrt (∑ i, path x y z d t i * path x y z d t i)))
      (∑ j, (sph2cart 0 eps ![x, y, z]).Jcov 1 j * d j) 0 ∧
    ((0 < x ∨ y ≠ 0) → HasDerivAt (fun t => Complex.arg ⟨path x y z d t 0, path x y z d t 1⟩)
      (∑ j, (sph2cart 0 eps ![x, y, z]).Jcov 2 j * d j) 0) := by
  have hr := r_pos (z := z) h.axis
  have hr2 : sqrt (x * x + y * y + z * z) ^ 2 = x * x + y * y + z * z := sq_sqrt (by nlinarith [sq_nonneg z, h.axis])
  obtain ⟨hx, hy⟩ := ph_spec h.axis
  have hq := sqrt_pos.2 h.axis
  have hq2 : sqrt (x ^ 2 + y ^ 2) ^ 2 = x ^ 2 + y ^ 2 := sq_sqrt h.axis.le
  have hJ : (sph2cart 0 eps ![x, y, z]).Jcov = ![![x / sqrt (x * x + y * y + z * z), y / sqrt (x * x + y * y + z * z), z / sqrt (x * x + y * y + z * z)],
      ![z * x / (sqrt (x ^ 2 + y ^ 2) * (x * x + y * y + z * z)), z * y / (sqrt (x ^ 2 + y ^ 2) * (x * x + y * y + z * z)),
        -(sqrt (x ^ 2 + y ^ 2) / (x * x + y * y + z * z))],
      ![-(y / (x ^ 2 + y ^ 2)), x / (x ^ 2 + y ^ 2), 0]] := by
    unfold sph2cart
    simp only [Rel.ratio_zero, Matrix.cons_val_zero, Matrix.cons_val_one, Matrix.cons_val]
    rw [sphCoords_eq h]
    simp only [sin_th h.axis, cos_th h.axis]
    have e1 : cos (Complex.arg ⟨x, y⟩) = x / sqrt (x ^ 2 + y ^ 2) := by rw [eq_div_iff hq.ne']; linarith
    have e2 : sin (Complex.arg ⟨x, y⟩) = y / sqrt (x ^ 2 + y ^ 2) := by rw [eq_div_iff hq.ne']; linarith
    rw [e1, e2]
    generalize sqrt (x ^ 2 + y ^ 2) = q at *
    generalize sqrt (x * x + y * y + z * z) = r at *
    rw [← hr2, ← hq2]
    have hr' := hr.ne'
    have hq' := hq.ne'
    congr 1
    · congr 1
      · field_simp
      · congr 1; field_simp
    · congr 1
      · congr 1
        · field_simp
        · congr 1
          · field_simp
          · congr 1; field_simp
      · congr 1
        congr 1
        · field_simp
        · congr 1; field_simp
  rw [hJ]
  have hlin : ∀ a b : ℝ, HasDerivAt (fun t : ℝ => a + t * b) b 0 := fun a b => by
    simpa using ((hasDerivAt_id (0:ℝ)).mul_const b).const_add a
  have hR : HasDerivAt (fun t => sqrt (∑ i, path x y z d t i * path x y z d t i))
      (x / sqrt (x * x + y * y + z * z) * d 0 + y / sqrt (x * x + y * y + z * z) * d 1 + z / sqrt (x * x + y * y + z * z) * d 2) 0 := by
    have h1 := (((hlin x (d 0)).mul (hlin x (d 0))).add ((hlin y (d 1)).mul (hlin y (d 1)))).add ((hlin z (d 2)).mul (hlin z (d 2)))
    have h2 := h1.sqrt (by simp; nlinarith [sq_nonneg z, h.axis])
    have e : (fun t => sqrt (∑ i, path x y z d t i * path x y z d t i)) = fun t => sqrt ((x + t * d 0) * (x + t * d 0) + (y + t * d 1) * (y + t * d 1) + (z + t * d 2) * (z + t * d 2)) := by
      funext t; rw [Fin.sum_univ_three]; rfl
    rw [e]
    refine h2.congr_deriv ?_
    simp
    have hr' := hr.ne'
    field_simp
    ring
  have hs0 : sqrt (∑ i, path x y z d 0 i * path x y z d 0 i) = sqrt (x * x + y * y + z * z) := by
    rw [Fin.sum_univ_three]; simp [path]
  refine ⟨?_, ?_, ?_⟩
  · refine hR.congr_deriv ?_
    rw [Fin.sum_univ_three]; rfl
  · have hz : HasDerivAt (fun t => path x y z d t 2) (d 2) 0 := hlin z (d 2)
    have hquot := hz.div hR (by rw [hs0]; exact hr.ne')
    have hval : path x y z d 0 2 = z := by simp [path]
    have hz2 : z ^ 2 < sqrt (x * x + y * y + z * z) ^ 2 := by rw [hr2]; nlinarith [h.axis]
    have hab := abs_lt_of_sq_lt_sq' hz2 hr.le
    have n1 : z / sqrt (x * x + y * y + z * z) ≠ -1 := by
      have : -1 < z / sqrt (x * x + y * y + z * z) := by rw [lt_div_iff₀ hr]; linarith
      exact this.ne'
    have n2 : z / sqrt (x * x + y * y + z * z) ≠ 1 := by
      have : z / sqrt (x * x + y * y + z * z) < 1 := by rw [div_lt_iff₀ hr]; linarith
      exact this.ne
    have hac := (hasDerivAt_arccos n1 n2)
    have hcomp := HasDerivAt.comp (0:ℝ) (h₂ := arccos) (h := fun t => path x y z d t 2 / sqrt (∑ i, path x y z d t i * path x y z d t i))
      (by simpa only [hval, hs0] using hac) hquot
    refine hcomp.congr_deriv ?_
    have hsin := sin_th (z := z) h.axis
    rw [sin_arccos] at hsin
    rw [hsin]
    simp only [hval, hs0]
    simp only [Fin.sum_univ_three, Matrix.cons_val_zero, Matrix.cons_val_one, Matrix.cons_val]
    have hr2' : x * x + y * y = sqrt (x * x + y * y + z * z) ^ 2 - z ^ 2 := by rw [hr2]; ring
    have hq2' : sqrt (x ^ 2 + y ^ 2) ^ 2 = sqrt (x * x + y * y + z * z) ^ 2 - z ^ 2 := by rw [hq2, hr2]; ring
    generalize sqrt (x ^ 2 + y ^ 2) = q at *
    generalize sqrt (x * x + y * y + z * z) = r at *
    rw [← hr2]
    have hr' := hr.ne'
    have hq' := hq.ne'
    field_simp
    linear_combination (d 2) * hq2'
  · intro hcut
    have hslit : (⟨x, y⟩ : ℂ) ∈ Complex.slitPlane := hcut
    have hcx : HasDerivAt (fun t : ℝ => (⟨path x y z d t 0, path x y z d t 1⟩ : ℂ)) ⟨d 0, d 1⟩ 0 := by
      have e : (fun t : ℝ => (⟨path x y z d t 0, path x y z d t 1⟩ : ℂ)) = fun t : ℝ => (⟨x, y⟩ : ℂ) + (t : ℂ) * ⟨d 0, d 1⟩ := by
        funext t; apply Complex.ext <;> simp [path]
      rw [e]
      have := (((hasDerivAt_id (0:ℝ)).ofReal_comp).mul_const (⟨d 0, d 1⟩ : ℂ)).const_add (⟨x, y⟩ : ℂ)
      simpa using this
    have h0 : (⟨path x y z d 0 0, path x y z d 0 1⟩ : ℂ) = ⟨x, y⟩ := by simp [path]
    have hlog := hcx.clog_real (by rw [h0]; exact hslit)
    have him := Complex.imCLM.hasFDerivAt.comp_hasDerivAt (0:ℝ) hlog
    have e : (fun t => Complex.arg ⟨path x y z d t 0, path x y z d t 1⟩) =
        (Complex.imCLM ∘ fun t : ℝ => Complex.log ⟨path x y z d t 0, path x y z d t 1⟩) := by
      funext t; simp [Complex.log_im]
    rw [e]
    refine him.congr_deriv ?_
    rw [h0]
    simp [Fin.sum_univ_three, Complex.div_im, Complex.normSq_mk]
    have := h.axis.ne'
    rw [← pow_two, ← pow_two]
    field_simp
    ring

/-- **C37 fails for the Cartesian derivative helper**: `GetCoordsAndDerivatives` multiplies by the metric factor where it has
to divide: its angular rates are `r²` and `(r sinθ)²` times the true ones.  The radial rate is right. -/
theorem sphDerivs_relation (dx dy dz : ℝ) (h : OffAxis eps x y z) :
    let J := (sph2cart 0 eps ![x, y, z]).Jcov
    let r := (sphCoords 0 eps x y z).1
    let th := (sphCoords 0 eps x y z).2.1
    (sphDerivs 0 eps x y z dx dy dz).1 = J 0 0 * dx + J 0 1 * dy + J 0 2 * dz ∧
    (sphDerivs 0 eps x y z dx dy dz).2.1 = r ^ 2 * (J 1 0 * dx + J 1 1 * dy + J 1 2 * dz) ∧
    (sphDerivs 0 eps x y z dx dy dz).2.2 = (r * sin th) ^ 2 * (J 2 0 * dx + J 2 1 * dy + J 2 2 * dz) := by
  obtain ⟨-, hr, hs⟩ := sphCoords_invert h
  unfold sph2cart sphDerivs
  simp only [Rel.ratio_zero, Matrix.cons_val_zero, Matrix.cons_val_one, Matrix.cons_val]
  have hr' := hr.ne'
  have hs' := hs.ne'
  refine ⟨by ring, ?_, ?_⟩
  · field_simp; ring
  · field_simp; ring

theorem off_axis_example : OffAxis (1 / 100) 2 0 0 := by
  refine ⟨by norm_num, by norm_num, ?_⟩
  rw [zero_div, arccos_zero]
  have := two_le_pi
  linarith

/-- witness: at `(2,0,0)` a unit step in `y` turns the azimuth by `1/2`, the helper says `2`. -/
theorem sphDerivs_wrong :
    (sphDerivs 0 (1 / 100) 2 0 0 0 1 0).2.2 = 2 ∧
    HasDerivAt (fun t => Complex.arg ⟨path 2 0 0 ![0, 1, 0] t 0, path 2 0 0 ![0, 1, 0] t 1⟩) (1 / 2) 0 := by
  have h := off_axis_example
  have hc := sphCoords_eq h
  have hsq : sqrt (2 * 2 + 0 * 0 + 0 * 0) = 2 := by
    rw [show (2 * 2 + 0 * 0 + 0 * 0 : ℝ) = 2 ^ 2 by norm_num, sqrt_sq (by norm_num)]
  have harg : Complex.arg ⟨2, 0⟩ = 0 := by
    have := Complex.arg_ofReal_of_nonneg (x := 2) (by norm_num)
    exact this
  rw [hsq, harg, zero_div, arccos_zero] at hc
  constructor
  · unfold sphDerivs; rw [hc]; simp
  · have := (sph_jcov_deriv ![0, 1, 0] h).2.2 (Or.inl (by norm_num))
    refine this.congr_deriv ?_
    unfold sph2cart
    simp only [Matrix.cons_val_zero, Matrix.cons_val_one, Matrix.cons_val]
    rw [hc]
    simp [Fin.sum_univ_three, Rel.ratio_zero]

end Phoebus.Transform
