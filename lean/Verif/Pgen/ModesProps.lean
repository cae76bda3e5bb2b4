import Verif.Pgen.Modes
import Mathlib.Analysis.Real.Pi.Bounds

/-!
# C91: the linear-mode problem starts from eigenmodes of the equations the code evolves
-/
namespace Phoebus.Pgen
open Geom Finset Real

/-! ### Specification: conservation laws of ideal relativistic MHD -/

/-- mass current `ρ u^μ`. -/
noncomputable def massCurrent (X : Fin 4 → ℝ) (q : Rel.Prim) (μ : Fin 4) : ℝ := q.rho * Rel.tU 0 (Metrics.adm Metrics.minkowski X) q μ

/-- stress-energy tensor, as computed by the code. -/
noncomputable def stress (X : Fin 4 → ℝ) (q : Rel.Prim) : Fin 4 → Fin 4 → ℝ := Rel.tmunu 0 (Metrics.adm Metrics.minkowski X) q

/-- dual Faraday tensor `b^μ u^ν - b^ν u^μ`. -/
noncomputable def faraday (X : Fin 4 → ℝ) (q : Rel.Prim) (μ ν : Fin 4) : ℝ :=
  Rel.tB 0 (Metrics.adm Metrics.minkowski X) q μ * Rel.tU 0 (Metrics.adm Metrics.minkowski X) q ν -
    Rel.tB 0 (Metrics.adm Metrics.minkowski X) q ν * Rel.tU 0 (Metrics.adm Metrics.minkowski X) q μ

/-- The perturbation `q(A, t, x, y)` solves `∂_μ Q^μ = 0` to first order in the amplitude `A`, with residual at most `tol`:
`Q1 μ` is the first-order change of `Q^μ`, a function of spacetime, and its divergence is bounded by `tol`. -/
def LinearlyConserved (q : ℝ → ℝ → ℝ → ℝ → Rel.Prim) (Q : Rel.Prim → Fin 4 → ℝ) (tol : ℝ) : Prop :=
  ∃ Q1 : Fin 4 → ℝ → ℝ → ℝ → ℝ,
    (∀ μ t x y, HasDerivAt (fun A => Q (q A t x y) μ) (Q1 μ t x y) 0) ∧
    ∀ t x y, ∃ dt dx dy, HasDerivAt (fun s => Q1 0 s x y) dt t ∧ HasDerivAt (fun s => Q1 1 t s y) dx x ∧
      HasDerivAt (fun s => Q1 2 t x s) dy y ∧ |dt + dx + dy| ≤ tol

/-- all conservation laws: mass, energy, momentum, induction, divergence-free field. -/
structure LinearMHD (X : Fin 4 → ℝ) (q : ℝ → ℝ → ℝ → ℝ → Rel.Prim) (tol : ℝ) : Prop where
  mass : LinearlyConserved q (massCurrent X) tol
  energyMomentum : ∀ ν, LinearlyConserved q (fun p μ => stress X p μ ν) tol
  induction : ∀ ν, LinearlyConserved q (fun p μ => faraday X p μ ν) tol

/-- travelling wave with inertial frequency `s` and wavenumbers `k1`, `k2`; amplitude `A`. -/
noncomputable def travelling (gam B10 : ℝ) (m : Mode) (s k1 k2 c : ℝ) (A t x y : ℝ) : Rel.Prim :=
  wavePrim gam B10 m (A * cos (k1 * x + k2 * y + s * t + c))

/-! ### First-order change of the conserved currents about a uniform state at rest -/

theorem sum4 (f : Fin 4 → ℝ) : ∑ i, f i = f 0 + f 1 + f 2 + f 3 := Fin.sum_univ_four f

/-- first-order change of the Lorentz factor vanishes. -/
theorem gamma_deriv (a b c : ℝ) : HasDerivAt (fun e : ℝ => √(1 + (a * e * (a * e) + b * e * (b * e) + c * e * (c * e)))) 0 0 := by
  have h := fun a : ℝ => ((hasDerivAt_id (0:ℝ)).const_mul a).mul ((hasDerivAt_id (0:ℝ)).const_mul a)
  have h2 := (((h a).add (h b)).add (h c)).const_add 1
  have h3 := h2.sqrt (by simp)
  refine (h3.congr_deriv (by simp)).congr_of_eventuallyEq (Filter.Eventually.of_forall fun e => ?_)
  simp

variable (gam B0 : ℝ) (m : Mode) (X : Fin 4 → ℝ)

/-- velocity components of the wave state. -/
theorem wave_u (e : ℝ) : Rel.tU 0 (Metrics.adm Metrics.minkowski X) (wavePrim gam B0 m e) =
    ![√(1 + (m.du1 * e * (m.du1 * e) + m.du2 * e * (m.du2 * e) + m.du3 * e * (m.du3 * e))), m.du1 * e, m.du2 * e, m.du3 * e] := by
  rw [(flat_tU X _).1]
  funext i
  fin_cases i <;> simp [flatU, wavePrim]

theorem wave_b (e : ℝ) : let W := √(1 + (m.du1 * e * (m.du1 * e) + m.du2 * e * (m.du2 * e) + m.du3 * e * (m.du3 * e)))
    let b0 := (B0 + m.dB1 * e) * (m.du1 * e) + m.dB2 * e * (m.du2 * e) + m.dB3 * e * (m.du3 * e)
    Rel.tB 0 (Metrics.adm Metrics.minkowski X) (wavePrim gam B0 m e) =
    ![b0, (B0 + m.dB1 * e + b0 * (m.du1 * e)) / W, (m.dB2 * e + b0 * (m.du2 * e)) / W, (m.dB3 * e + b0 * (m.du3 * e)) / W] := by
  intro W b0
  have hU := wave_u gam B0 m X e
  rw [(flat_tU X _).1] at hU
  have hW : W ≠ 0 := by
    have : 0 < W := Real.sqrt_pos.2 (by nlinarith [mul_self_nonneg (m.du1 * e), mul_self_nonneg (m.du2 * e), mul_self_nonneg (m.du3 * e)])
    exact this.ne'
  have hb : W * ((B0 + m.dB1 * e) * (m.du1 * e) / W + (m.dB2 * e) * (m.du2 * e) / W + (m.dB3 * e) * (m.du3 * e) / W) = b0 := by
    simp only [b0]; field_simp
  rw [(flat_tU X _).2, hU]
  funext i
  fin_cases i
  · show W * ((B0 + m.dB1 * e) * (m.du1 * e) / W + (0 + m.dB2 * e) * (m.du2 * e) / W + (0 + m.dB3 * e) * (m.du3 * e) / W) = b0
    rw [zero_add, zero_add, hb]
  · show (B0 + m.dB1 * e + W * ((B0 + m.dB1 * e) * (m.du1 * e) / W + (0 + m.dB2 * e) * (m.du2 * e) / W + (0 + m.dB3 * e) * (m.du3 * e) / W) * (m.du1 * e)) / W = _
    rw [zero_add, zero_add, hb]; rfl
  · show (0 + m.dB2 * e + W * ((B0 + m.dB1 * e) * (m.du1 * e) / W + (0 + m.dB2 * e) * (m.du2 * e) / W + (0 + m.dB3 * e) * (m.du3 * e) / W) * (m.du2 * e)) / W = _
    rw [zero_add, zero_add, hb]; rfl
  · show (0 + m.dB3 * e + W * ((B0 + m.dB1 * e) * (m.du1 * e) / W + (0 + m.dB2 * e) * (m.du2 * e) / W + (0 + m.dB3 * e) * (m.du3 * e) / W) * (m.du3 * e)) / W = _
    rw [zero_add, zero_add, hb]; rfl

/-- first-order four-velocity. -/
def u1 (m : Mode) : Fin 4 → ℝ := ![0, m.du1, m.du2, m.du3]
/-- first-order magnetic vector. -/
def b1 (B0 : ℝ) (m : Mode) : Fin 4 → ℝ := ![B0 * m.du1, m.dB1, m.dB2, m.dB3]

theorem wave_u_deriv (μ : Fin 4) :
    HasDerivAt (fun e => Rel.tU 0 (Metrics.adm Metrics.minkowski X) (wavePrim gam B0 m e) μ) (u1 m μ) 0 ∧
      Rel.tU 0 (Metrics.adm Metrics.minkowski X) (wavePrim gam B0 m 0) μ = (![1, 0, 0, 0] : Fin 4 → ℝ) μ := by
  have hl : ∀ a : ℝ, HasDerivAt (fun e : ℝ => a * e) a 0 := fun a => by simpa using (hasDerivAt_id (0:ℝ)).const_mul a
  simp only [wave_u]
  fin_cases μ
  · exact ⟨gamma_deriv _ _ _, by simp⟩
  · exact ⟨hl _, by simp⟩
  · exact ⟨hl _, by simp⟩
  · exact ⟨hl _, by simp⟩

theorem wave_b_deriv (μ : Fin 4) :
    HasDerivAt (fun e => Rel.tB 0 (Metrics.adm Metrics.minkowski X) (wavePrim gam B0 m e) μ) (b1 B0 m μ) 0 ∧
      Rel.tB 0 (Metrics.adm Metrics.minkowski X) (wavePrim gam B0 m 0) μ = (![0, B0, 0, 0] : Fin 4 → ℝ) μ := by
  have hl : ∀ a : ℝ, HasDerivAt (fun e : ℝ => a * e) a 0 := fun a => by simpa using (hasDerivAt_id (0:ℝ)).const_mul a
  have hW := gamma_deriv m.du1 m.du2 m.du3
  have hb0 := ((((hl m.dB1).const_add B0).mul (hl m.du1)).add ((hl m.dB2).mul (hl m.du2))).add ((hl m.dB3).mul (hl m.du3))
  have hW0 : √(1 + (m.du1 * 0 * (m.du1 * 0) + m.du2 * 0 * (m.du2 * 0) + m.du3 * 0 * (m.du3 * 0))) ≠ 0 := by simp
  simp only [wave_b]
  fin_cases μ
  · exact ⟨hb0.congr_deriv (by simp [b1]), by simp⟩
  · refine ⟨((((hl m.dB1).const_add B0).add (hb0.mul (hl m.du1))).div hW hW0).congr_deriv (by simp [b1]), by simp⟩
  · refine ⟨(((hl m.dB2).add (hb0.mul (hl m.du2))).div hW hW0).congr_deriv (by simp [b1]), by simp⟩
  · refine ⟨(((hl m.dB3).add (hb0.mul (hl m.du3))).div hW hW0).congr_deriv (by simp [b1]), by simp⟩

theorem wave_bsq (e : ℝ) : Rel.tbsq 0 (Metrics.adm Metrics.minkowski X) (wavePrim gam B0 m e) =
    -(Rel.tB 0 (Metrics.adm Metrics.minkowski X) (wavePrim gam B0 m e) 0 * Rel.tB 0 (Metrics.adm Metrics.minkowski X) (wavePrim gam B0 m e) 0)
      + Rel.tB 0 (Metrics.adm Metrics.minkowski X) (wavePrim gam B0 m e) 1 * Rel.tB 0 (Metrics.adm Metrics.minkowski X) (wavePrim gam B0 m e) 1
      + Rel.tB 0 (Metrics.adm Metrics.minkowski X) (wavePrim gam B0 m e) 2 * Rel.tB 0 (Metrics.adm Metrics.minkowski X) (wavePrim gam B0 m e) 2
      + Rel.tB 0 (Metrics.adm Metrics.minkowski X) (wavePrim gam B0 m e) 3 * Rel.tB 0 (Metrics.adm Metrics.minkowski X) (wavePrim gam B0 m e) 3 := by
  have hP : Rel.PosDef (Metrics.adm Metrics.minkowski X) := by
    intro v; simp [ADM.dot3, Metrics.adm, Metrics.minkowski, Fin.sum_univ_three]
    nlinarith [mul_self_nonneg (v 0), mul_self_nonneg (v 1), mul_self_nonneg (v 2)]
  have hV : (Metrics.adm Metrics.minkowski X).Valid := by
    refine ⟨one_ne_zero, ?_, ?_, ?_⟩
    · intro i j; fin_cases i <;> fin_cases j <;> simp [Metrics.adm, Metrics.minkowski]
    · intro i j; fin_cases i <;> fin_cases j <;> simp [Metrics.adm, Metrics.minkowski]
    · exact (Metrics.minkowski_good X).inv3
  rw [← (Rel.magnetic_orthogonal _ _ hV one_pos hP).2]
  have : (Metrics.adm Metrics.minkowski X).g4 = eta := by
    rw [← (Metrics.minkowski_good X).assembles.2]; rfl
  rw [this, dot4_eta]

theorem wave_bsq_deriv : HasDerivAt (fun e => Rel.tbsq 0 (Metrics.adm Metrics.minkowski X) (wavePrim gam B0 m e)) (2 * B0 * m.dB1) 0 ∧
    Rel.tbsq 0 (Metrics.adm Metrics.minkowski X) (wavePrim gam B0 m 0) = B0 * B0 := by
  have h := fun μ => (wave_b_deriv gam B0 m X μ)
  simp only [wave_bsq]
  constructor
  · have := ((((h 0).1.mul (h 0).1).neg.add ((h 1).1.mul (h 1).1)).add ((h 2).1.mul (h 2).1)).add ((h 3).1.mul (h 3).1)
    refine this.congr_deriv ?_
    rw [(h 0).2, (h 1).2, (h 2).2, (h 3).2]
    simp [b1]; ring
  · rw [(h 0).2, (h 1).2, (h 2).2, (h 3).2]; simp

/-- first-order stress-energy of a perturbation of the uniform magnetised state. -/
noncomputable def T1 (gam B0 : ℝ) (m : Mode) (μ ν : Fin 4) : ℝ :=
  (m.drho + m.dug + (gam - 1) * m.dug + 2 * B0 * m.dB1) * (![1, 0, 0, 0] : Fin 4 → ℝ) μ * (![1, 0, 0, 0] : Fin 4 → ℝ) ν +
    (1 + 1 + (gam - 1) + B0 * B0) * (u1 m μ * (![1, 0, 0, 0] : Fin 4 → ℝ) ν + (![1, 0, 0, 0] : Fin 4 → ℝ) μ * u1 m ν) +
    ((gam - 1) * m.dug + B0 * m.dB1) * eta μ ν -
    (b1 B0 m μ * (![0, B0, 0, 0] : Fin 4 → ℝ) ν + (![0, B0, 0, 0] : Fin 4 → ℝ) μ * b1 B0 m ν)

theorem stress_deriv (μ ν : Fin 4) : HasDerivAt (fun e => stress X (wavePrim gam B0 m e) μ ν) (T1 gam B0 m μ ν) 0 := by
  have hl : ∀ a : ℝ, HasDerivAt (fun e : ℝ => a * e) a 0 := fun a => by simpa using (hasDerivAt_id (0:ℝ)).const_mul a
  have hg : ∀ μ ν, (Metrics.adm Metrics.minkowski X).g4Inv μ ν = eta μ ν := by
    intro μ ν; rw [← (Metrics.minkowski_good X).assemblesInv]; rfl
  have hr : HasDerivAt (fun e => (wavePrim gam B0 m e).rho) m.drho 0 := (hl m.drho).const_add 1
  have hu : HasDerivAt (fun e => (wavePrim gam B0 m e).u) m.dug 0 := (hl m.dug).const_add 1
  have hp : HasDerivAt (fun e => (wavePrim gam B0 m e).P) ((gam - 1) * m.dug) 0 := ((hl m.dug).const_add 1).const_mul (gam - 1)
  obtain ⟨hs, hs0⟩ := wave_bsq_deriv gam B0 m X
  obtain ⟨hu1, hu10⟩ := wave_u_deriv gam B0 m X μ
  obtain ⟨hu2, hu20⟩ := wave_u_deriv gam B0 m X ν
  obtain ⟨hb1, hb10⟩ := wave_b_deriv gam B0 m X μ
  obtain ⟨hb2, hb20⟩ := wave_b_deriv gam B0 m X ν
  have h := ((((((hr.add hu).add hp).add hs).mul hu1).mul hu2).add ((hp.add (hs.const_mul 0.5)).mul_const (eta μ ν))).sub (hb1.mul hb2)
  have hfun : (fun e => stress X (wavePrim gam B0 m e) μ ν) = fun e =>
      ((wavePrim gam B0 m e).rho + (wavePrim gam B0 m e).u + (wavePrim gam B0 m e).P + Rel.tbsq 0 (Metrics.adm Metrics.minkowski X) (wavePrim gam B0 m e)) *
        Rel.tU 0 (Metrics.adm Metrics.minkowski X) (wavePrim gam B0 m e) μ * Rel.tU 0 (Metrics.adm Metrics.minkowski X) (wavePrim gam B0 m e) ν +
      ((wavePrim gam B0 m e).P + 0.5 * Rel.tbsq 0 (Metrics.adm Metrics.minkowski X) (wavePrim gam B0 m e)) * eta μ ν -
      Rel.tB 0 (Metrics.adm Metrics.minkowski X) (wavePrim gam B0 m e) μ * Rel.tB 0 (Metrics.adm Metrics.minkowski X) (wavePrim gam B0 m e) ν := by
    funext e; simp only [stress, Rel.tmunu, hg]
  rw [hfun]
  refine h.congr_deriv ?_
  simp only [Pi.add_apply, Pi.mul_apply]
  rw [hs0, hu10, hu20, hb10, hb20]
  simp only [T1, wavePrim, mul_zero, add_zero]
  rw [show (0.5 : ℝ) = 1 / 2 by norm_num]
  ring

/-- first-order mass current. -/
def J1 (m : Mode) (μ : Fin 4) : ℝ := m.drho * (![1, 0, 0, 0] : Fin 4 → ℝ) μ + u1 m μ

theorem mass_deriv (μ : Fin 4) : HasDerivAt (fun e => massCurrent X (wavePrim gam B0 m e) μ) (J1 m μ) 0 := by
  have hl : ∀ a : ℝ, HasDerivAt (fun e : ℝ => a * e) a 0 := fun a => by simpa using (hasDerivAt_id (0:ℝ)).const_mul a
  have hr : HasDerivAt (fun e => (wavePrim gam B0 m e).rho) m.drho 0 := (hl m.drho).const_add 1
  obtain ⟨hu1, hu10⟩ := wave_u_deriv gam B0 m X μ
  refine (hr.mul hu1).congr_deriv ?_
  rw [hu10]; simp [J1, wavePrim]

/-- first-order dual Faraday tensor. -/
def F1 (B0 : ℝ) (m : Mode) (μ ν : Fin 4) : ℝ :=
  b1 B0 m μ * (![1, 0, 0, 0] : Fin 4 → ℝ) ν + (![0, B0, 0, 0] : Fin 4 → ℝ) μ * u1 m ν -
    (b1 B0 m ν * (![1, 0, 0, 0] : Fin 4 → ℝ) μ + (![0, B0, 0, 0] : Fin 4 → ℝ) ν * u1 m μ)

theorem faraday_deriv (μ ν : Fin 4) : HasDerivAt (fun e => faraday X (wavePrim gam B0 m e) μ ν) (F1 B0 m μ ν) 0 := by
  obtain ⟨hu1, hu10⟩ := wave_u_deriv gam B0 m X μ
  obtain ⟨hu2, hu20⟩ := wave_u_deriv gam B0 m X ν
  obtain ⟨hb1, hb10⟩ := wave_b_deriv gam B0 m X μ
  obtain ⟨hb2, hb20⟩ := wave_b_deriv gam B0 m X ν
  refine ((hb1.mul hu2).sub (hb2.mul hu1)).congr_deriv ?_
  rw [hu10, hu20, hb10, hb20]; simp only [F1]

/-- plane waves: the divergence is the contraction with the wave four-vector. -/
theorem plane_conserved {Q : Rel.Prim → Fin 4 → ℝ} {Q1 : Fin 4 → ℝ} (hQ : ∀ μ, HasDerivAt (fun e => Q (wavePrim gam B0 m e) μ) (Q1 μ) 0)
    (s k1 k2 c tol : ℝ) (h : |s * Q1 0 + k1 * Q1 1 + k2 * Q1 2| ≤ tol) :
    LinearlyConserved (travelling gam B0 m s k1 k2 c) Q tol := by
  refine ⟨fun μ t x y => Q1 μ * cos (k1 * x + k2 * y + s * t + c), ?_, ?_⟩
  · intro μ t x y
    have h1 : HasDerivAt (fun A : ℝ => A * cos (k1 * x + k2 * y + s * t + c)) (cos (k1 * x + k2 * y + s * t + c)) 0 := by
      simpa using (hasDerivAt_id (0:ℝ)).mul_const (cos (k1 * x + k2 * y + s * t + c))
    have h2 : HasDerivAt (fun e => Q (wavePrim gam B0 m e) μ) (Q1 μ) (0 * cos (k1 * x + k2 * y + s * t + c)) := by
      rw [zero_mul]; exact hQ μ
    exact h2.comp (0:ℝ) h1
  · intro t x y
    have hlin : ∀ a b z : ℝ, HasDerivAt (fun r : ℝ => b + a * r) a z := fun a b z => by
      simpa using ((hasDerivAt_id z).const_mul a).const_add b
    have ht := (((hlin s (k1 * x + k2 * y) t).add_const c).cos).const_mul (Q1 0)
    have hx' : HasDerivAt (fun r : ℝ => k1 * r + k2 * y + s * t + c) k1 x := by
      simpa using ((((hasDerivAt_id x).const_mul k1).add_const (k2 * y)).add_const (s * t)).add_const c
    have hy' : HasDerivAt (fun r : ℝ => k1 * x + k2 * r + s * t + c) k2 y := by
      simpa using ((((hasDerivAt_id y).const_mul k2).const_add (k1 * x)).add_const (s * t)).add_const c
    refine ⟨_, _, _, ht, hx'.cos.const_mul (Q1 1), hy'.cos.const_mul (Q1 2), ?_⟩
    have : Q1 0 * (-sin (k1 * x + k2 * y + s * t + c) * s) + Q1 1 * (-sin (k1 * x + k2 * y + s * t + c) * k1) +
        Q1 2 * (-sin (k1 * x + k2 * y + s * t + c) * k2) = (s * Q1 0 + k1 * Q1 1 + k2 * Q1 2) * (-sin (k1 * x + k2 * y + s * t + c)) := by ring
    rw [this, abs_mul, abs_neg]
    calc _ ≤ |s * Q1 0 + k1 * Q1 1 + k2 * Q1 2| * 1 := by
          apply mul_le_mul_of_nonneg_left (abs_sin_le_one _) (abs_nonneg _)
      _ ≤ tol := by rw [mul_one]; exact h

/-- a mode satisfies the linearised equations if the dispersion relations hold to `tol`. -/
theorem mode_of_dispersion (s k1 k2 c tol : ℝ)
    (hm : |s * m.drho + k1 * m.du1 + k2 * m.du2| ≤ tol)
    (h0 : |s * (m.drho + m.dug + B0 * m.dB1) + k1 * ((1 + gam) * m.du1) + k2 * ((1 + gam + B0 * B0) * m.du2)| ≤ tol)
    (h1 : |s * ((1 + gam) * m.du1) + k1 * ((gam - 1) * m.dug - B0 * m.dB1) - k2 * (B0 * m.dB2)| ≤ tol)
    (h2 : |s * ((1 + gam + B0 * B0) * m.du2) - k1 * (B0 * m.dB2) + k2 * ((gam - 1) * m.dug + B0 * m.dB1)| ≤ tol)
    (h3 : |s * ((1 + gam + B0 * B0) * m.du3) - k1 * (B0 * m.dB3)| ≤ tol)
    (hd : |k1 * m.dB1 + k2 * m.dB2| ≤ tol)
    (hi1 : |s * m.dB1 + k2 * (B0 * m.du2)| ≤ tol)
    (hi2 : |s * m.dB2 - k1 * (B0 * m.du2)| ≤ tol)
    (hi3 : |s * m.dB3 - k1 * (B0 * m.du3)| ≤ tol) :
    LinearMHD X (travelling gam B0 m s k1 k2 c) tol where
  mass := by
    refine plane_conserved gam B0 m (fun μ => mass_deriv gam B0 m X μ) s k1 k2 c tol (le_of_eq_of_le ?_ hm)
    congr 1; simp [J1, u1]
  energyMomentum ν := by
    refine plane_conserved gam B0 m (fun μ => stress_deriv gam B0 m X μ ν) s k1 k2 c tol ?_
    fin_cases ν
    · refine le_of_eq_of_le ?_ h0; congr 1; simp [T1, u1, b1, eta]; ring
    · refine le_of_eq_of_le ?_ h1; congr 1; simp [T1, u1, b1, eta]; ring
    · refine le_of_eq_of_le ?_ h2; congr 1; simp [T1, u1, b1, eta]; ring
    · refine le_of_eq_of_le ?_ h3; congr 1; simp [T1, u1, b1, eta]; ring
  induction ν := by
    refine plane_conserved gam B0 m (fun μ => faraday_deriv gam B0 m X μ ν) s k1 k2 c tol ?_
    fin_cases ν
    · refine le_of_eq_of_le ?_ hd; congr 1; simp [F1, u1, b1]
    · refine le_of_eq_of_le ?_ hi1; rw [← abs_neg]; congr 1; simp [F1, u1, b1]; ring
    · refine le_of_eq_of_le ?_ hi2; rw [← abs_neg]; congr 1; simp [F1, u1, b1]; ring
    · refine le_of_eq_of_le ?_ hi3; rw [← abs_neg]; congr 1; simp [F1, u1, b1]; ring

local macro "modes" : tactic => `(tactic|
  (have h1 : (314159265358979323846 / 10 ^ 20 : ℝ) < π := by have := Real.pi_gt_d20; norm_num at this ⊢; linarith
   have h2 : π < 314159265358979323847 / 10 ^ 20 := by have := Real.pi_lt_d20; norm_num at this ⊢; linarith
   simp only [kk, entropyMode, soundMode1, soundMode2, slowMode, alfvenMode, fastMode]
   rw [abs_le]
   constructor <;> norm_num <;> linarith))

/-- C91. Sound wave in one dimension: moves towards `-x`. -/
theorem sound1_eigenmode (c : ℝ) : LinearMHD X (travelling (4 / 3) 0 soundMode1 soundMode1.omega kk 0 c) 1e-12 := by
  apply mode_of_dispersion <;> modes

/-- C91. Sound wave in two dimensions: moves towards `+x`, `+y`. -/
theorem sound2_eigenmode (c : ℝ) : LinearMHD X (travelling (4 / 3) 0 soundMode2 (-soundMode2.omega) kk kk c) 1e-12 := by
  apply mode_of_dispersion <;> modes

/-- C91. Slow magnetosonic wave. -/
theorem slow_eigenmode (c : ℝ) : LinearMHD X (travelling (4 / 3) 1 slowMode slowMode.omega kk kk c) 1e-11 := by
  apply mode_of_dispersion <;> modes

/-- C91. Alfvén wave. -/
theorem alfven_eigenmode (c : ℝ) : LinearMHD X (travelling (4 / 3) 1 alfvenMode alfvenMode.omega kk kk c) 1e-11 := by
  apply mode_of_dispersion <;> modes

/-- C91. Fast magnetosonic wave. -/
theorem fast_eigenmode (c : ℝ) : LinearMHD X (travelling (4 / 3) 1 fastMode fastMode.omega kk kk c) 1e-11 := by
  apply mode_of_dispersion <;> modes

/-- C91. The entropy mode is a static solution, for every adiabatic index. -/
theorem entropy_eigenmode (c : ℝ) : LinearMHD X (travelling gam 0 entropyMode 0 kk kk c) 0 := by
  apply mode_of_dispersion <;> modes

/-- The generator never checks that the equation of state has `Γ = 4/3`: with `Γ = 5/3` the sound-wave data violate
momentum conservation at first order. -/
theorem sound1_needs_four_thirds : ¬ |soundMode1.omega * ((1 + 5 / 3) * soundMode1.du1) + kk * ((5 / 3 - 1) * soundMode1.dug)| ≤ 1 := by
  have h1 : (314159265358979323846 / 10 ^ 20 : ℝ) < π := by have := Real.pi_gt_d20; norm_num at this ⊢; linarith
  rw [abs_le]; rintro ⟨_, h⟩
  simp only [kk, soundMode1] at h
  norm_num at h
  linarith

/-- C91. The initial data of `linear_modes` is the travelling wave at inertial time zero, at the inertial position of the
cell, in the flat, snake and boosted charts.

Partial form of C91. Full property: The wave data solve the linearised equations of relativistic MHD (mass, energy,
momentum, induction, solenoidal constraint, all taken from the stress tensor the code evolves) at every point and time
up to rounding of the tabulated constants; at the final time the run sets, the exact solution equals the initial data
cell by cell when the coordinate drift is a whole number of wavelengths; the final time does not depend on the block
decomposition. Missing: Eigenmodes proved to 1e-11; the adiabatic index is not checked, the final time ignores drift
(boost_drift), rotor divides it once per block (rotor_tlim). -/
theorem initial_is_wave_partial (sg amp : ℝ) (Y : Fin 4 → ℝ) (hY : Y 0 = 0) :
    wavePrim gam B0 m (waveFactor amp (Y 1) (Y 2)) = travelling gam B0 m (sg * m.omega) kk kk 0 amp (Y 0) (Y 1) (Y 2) := by
  simp [travelling, waveFactor, hY]

theorem snake_initial_point (a k al vy : ℝ) (X : Fin 4 → ℝ) (hX : X 0 = 0) :
    snakeInertial a k al vy X 0 = 0 ∧ snakeInertial a k al vy X 1 = X 1 ∧
      snakeInertial a k al vy X 2 = X 2 - a * sin (k * X 1) := by
  simp [snakeInertial, hX]

/-- travelling wave as a field on a chart. -/
noncomputable def onChart (chart : (Fin 4 → ℝ) → Fin 4 → ℝ) (gam B0 : ℝ) (m : Mode) (s amp : ℝ) (X : Fin 4 → ℝ) : Rel.Prim :=
  travelling gam B0 m s kk kk 0 amp (chart X 0) (chart X 1) (chart X 2)

theorem cos_shift (p w : ℝ) (n : ℤ) (h : w = n * (2 * π)) : cos (p + w) = cos p := by
  rw [h, cos_add_int_mul_two_pi]

/-- C91. Snake chart: at the final time the solution is again the initial data, cell by cell, when the coordinate drift
`vy tlim` is a whole number of wavelengths (in particular without drift), whatever the lapse. -/
theorem snake_period (sg : ℝ) (hsg : sg = 1 ∨ sg = -1) (hm : m.omega ≠ 0) (amp a k al vy : ℝ) (hal : al ≠ 0) (n : ℤ)
    (hn : vy * (finalTime m / al) = n) (X : Fin 4 → ℝ) :
    onChart (snakeInertial a k al vy) gam B0 m (sg * m.omega) amp (Function.update X 0 (finalTime m / al)) =
      onChart (snakeInertial a k al vy) gam B0 m (sg * m.omega) amp (Function.update X 0 0) := by
  simp only [onChart, travelling]
  congr 2
  have e : ∀ T : ℝ, snakeInertial a k al vy (Function.update X 0 T) =
      ![al * T, X 1, X 2 - a * sin (k * X 1) + vy * T, X 3] := by
    intro T; simp [snakeInertial, Function.update]
  simp only [e]
  have hT : al * (finalTime m / al) * m.omega = 2 * π := by unfold finalTime; field_simp
  simp only [Matrix.cons_val_zero, Matrix.cons_val_one, Matrix.cons_val]
  rcases hsg with rfl | rfl
  · rw [show kk * X 1 + kk * (X 2 - a * sin (k * X 1) + vy * (finalTime m / al)) + 1 * m.omega * (al * (finalTime m / al)) + 0 =
      (kk * X 1 + kk * (X 2 - a * sin (k * X 1) + vy * 0) + 1 * m.omega * (al * 0) + 0) + (kk * (vy * (finalTime m / al)) + al * (finalTime m / al) * m.omega) by ring]
    apply cos_shift _ _ (n + 1)
    rw [hT, hn, kk]; push_cast; ring
  · rw [show kk * X 1 + kk * (X 2 - a * sin (k * X 1) + vy * (finalTime m / al)) + -1 * m.omega * (al * (finalTime m / al)) + 0 =
      (kk * X 1 + kk * (X 2 - a * sin (k * X 1) + vy * 0) + -1 * m.omega * (al * 0) + 0) + (kk * (vy * (finalTime m / al)) - al * (finalTime m / al) * m.omega) by ring]
    apply cos_shift _ _ (n - 1)
    rw [hT, hn, kk]; push_cast; ring

/-- C91. Boosted chart: the same, with the drift along both wavevector components. -/
theorem boost_period (sg : ℝ) (hsg : sg = 1 ∨ sg = -1) (hm : m.omega ≠ 0) (amp vx vy vz : ℝ) (n : ℤ)
    (hn : (vx + vy) * finalTime m = n) (X : Fin 4 → ℝ) :
    onChart (boostInertial vx vy vz) gam B0 m (sg * m.omega) amp (Function.update X 0 (finalTime m)) =
      onChart (boostInertial vx vy vz) gam B0 m (sg * m.omega) amp (Function.update X 0 0) := by
  simp only [onChart, travelling]
  congr 2
  have e : ∀ T : ℝ, boostInertial vx vy vz (Function.update X 0 T) =
      ![T, X 1 + vx * T, X 2 + vy * T, X 3 + vz * T] := by
    intro T; simp [boostInertial, Function.update]
  simp only [e]
  have hT : finalTime m * m.omega = 2 * π := by unfold finalTime; field_simp
  simp only [Matrix.cons_val_zero, Matrix.cons_val_one, Matrix.cons_val]
  rcases hsg with rfl | rfl
  · rw [show kk * (X 1 + vx * finalTime m) + kk * (X 2 + vy * finalTime m) + 1 * m.omega * finalTime m + 0 =
      (kk * (X 1 + vx * 0) + kk * (X 2 + vy * 0) + 1 * m.omega * 0 + 0) + (kk * ((vx + vy) * finalTime m) + finalTime m * m.omega) by ring]
    apply cos_shift _ _ (n + 1)
    rw [hT, hn, kk]; push_cast; ring
  · rw [show kk * (X 1 + vx * finalTime m) + kk * (X 2 + vy * finalTime m) + -1 * m.omega * finalTime m + 0 =
      (kk * (X 1 + vx * 0) + kk * (X 2 + vy * 0) + -1 * m.omega * 0 + 0) + (kk * ((vx + vy) * finalTime m) - finalTime m * m.omega) by ring]
    apply cos_shift _ _ (n - 1)
    rw [hT, hn, kk]; push_cast; ring

/-- The final time ignores the drift: when the chart drifts by half a wavelength in one period the wave ends up with the
opposite sign at the origin. -/
theorem boost_drift (amp vy : ℝ) (hd : soundMode2.omega ≠ 0) (h : vy * finalTime soundMode2 = 1 / 2) :
    (onChart (boostInertial 0 vy 0) gam 0 soundMode2 (-1 * soundMode2.omega) amp (Function.update 0 0 (finalTime soundMode2))).rho =
        1 - soundMode2.drho * amp ∧
      (onChart (boostInertial 0 vy 0) gam 0 soundMode2 (-1 * soundMode2.omega) amp (Function.update 0 0 0)).rho =
        1 + soundMode2.drho * amp := by
  have e : ∀ T : ℝ, boostInertial 0 vy 0 (Function.update 0 0 T) = ![T, 0, vy * T, 0] := by
    intro T; simp [boostInertial, Function.update]
  have hT : soundMode2.omega * finalTime soundMode2 = 2 * π := by unfold finalTime; field_simp
  constructor
  · simp only [onChart, travelling, wavePrim, e]
    simp only [Matrix.cons_val_zero, Matrix.cons_val_one, Matrix.cons_val]
    rw [show kk * 0 + kk * (vy * finalTime soundMode2) + -1 * soundMode2.omega * finalTime soundMode2 + 0 = -π by
      rw [h, show -1 * soundMode2.omega * finalTime soundMode2 = -(soundMode2.omega * finalTime soundMode2) by ring, hT, kk]; ring]
    rw [cos_neg, cos_pi]; ring
  · simp only [onChart, travelling, wavePrim, e]
    simp

/-- C91. The final time set by `linear_modes` does not depend on how many blocks the mesh has. -/
theorem modes_tlim (al t0 : ℝ) (n : ℕ) : modesTlim m al t0 (n + 1) = finalTime m / al := rfl

/-- The final time set by `rotor` does: it is divided by the lapse once per block. -/
theorem rotor_tlim (al t0 : ℝ) (n : ℕ) : rotorTlim al t0 n = t0 / al ^ n := by
  induction n with
  | zero => simp [rotorTlim]
  | succ n ih => rw [rotorTlim, ih, pow_succ, div_div]

/-- with lapse two and four blocks the rotor problem stops eight times too early. -/
theorem rotor_tlim_blocks : rotorTlim 2 1 4 = 1 / 16 ∧ rotorTlim 2 1 1 = 1 / 2 := by
  constructor <;> rw [rotor_tlim] <;> norm_num

/-- C91. The run time set for each mode is one period; the entropy mode, which does not move, is run for ten time units. -/
theorem entropy_runs_ten : finalTime entropyMode = 10 := by
  unfold finalTime entropyMode
  have := pi_pos
  simp only; field_simp

end Phoebus.Pgen
