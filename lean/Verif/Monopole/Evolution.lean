import Verif.Monopole.Props
import Mathlib.Analysis.SpecialFunctions.Sqrt
import Mathlib.Analysis.Calculus.Deriv.Inv
import Mathlib.Analysis.Calculus.Deriv.Pow

/-!
# C116: time derivatives of the monopole spacetime

Specification: the evolution equations of general relativity in 3+1 form for the metric `a² dr² + r² dΩ²`, shift `β ∂_r`, lapse `α`,
`K^r_r = k`, `K^θ_θ = K^φ_φ = -k/2` (maximal slicing).
-/
namespace Phoebus.Monopole

section Spec
variable {K : Type*} [Field K]

/-- `∂_t γ_rr = -2 α K_rr + (L_β γ)_rr`; `x` is `∂_t a`. -/
def MetricRate (a a' k al be be' x : K) : Prop := 2 * a * x = -2 * al * (a ^ 2 * k) + (be * (2 * a * a') + 2 * a ^ 2 * be')

/-- `∂_t γ_θθ = -2 α K_θθ + (L_β γ)_θθ` with `γ_θθ = r²` for all times. -/
def AreaRate (r k al be : K) : Prop := 0 = -2 * al * (r ^ 2 * -(k / 2)) + be * (2 * r)

/-- `D^r D_r α`. -/
def hessR (a a' al' al'' : K) : K := al'' / a ^ 2 - a' * al' / a ^ 3

/-- `D^θ D_θ α`. -/
def hessT (a r al' : K) : K := al' / (r * a ^ 2)

/-- `R^r_r`. -/
def ricR (a a' r : K) : K := 2 * a' / (r * a ^ 3)

/-- `R^θ_θ`. -/
def ricT (a a' r : K) : K := a' / (r * a ^ 3) + (1 - 1 / a ^ 2) / r ^ 2

/-- `∂_t K^r_r = β ∂_r K^r_r - D^r D_r α + α (R^r_r + (tr K) K^r_r) + 4 π α (S - ρ - 2 S^r_r)` with `tr K = 0`. -/
def rateKr (pi a a' r k' al al' al'' be rho S Srr : K) : K :=
  be * k' - hessR a a' al' al'' + al * ricR a a' r + 4 * pi * al * (S - rho - 2 * Srr)

/-- `∂_t K^θ_θ`, likewise, with `S^θ_θ = (S - S^r_r)/2`. -/
def rateKt (pi a a' r k' al al' be rho S Srr : K) : K :=
  be * -(k' / 2) - hessT a r al' + al * ricT a a' r + 4 * pi * al * (S - rho - 2 * ((S - Srr) / 2))

/-- the slicing equation `D² α = α (K_ij K^ij + 4 π (ρ + S))`. -/
def Slicing (pi a a' r k al al' al'' rho S : K) : Prop :=
  hessR a a' al' al'' + 2 * hessT a r al' = al * ((k ^ 2 + 2 * (k / 2) ^ 2) + 4 * pi * (rho + S))
end Spec

/-- the specification is self-consistent: given the Hamiltonian constraint, the trace of the extrinsic curvature stays zero exactly when the
lapse solves the slicing equation. -/
theorem maximal_slicing_preserved {K : Type*} [Field K] [CharZero K] (pi a a' r k k' al al' al'' be rho S Srr : K)
    (hH : Hamiltonian pi a a' k r rho) :
    rateKr pi a a' r k' al al' al'' be rho S Srr + 2 * rateKt pi a a' r k' al al' be rho S Srr = 0 ↔
      Slicing pi a a' r k al al' al'' rho S := by
  unfold Hamiltonian at hH
  unfold rateKr rateKt Slicing
  have hR : ricR a a' r + 2 * ricT a a' r = 4 * a' / (a ^ 3 * r) + 2 / r ^ 2 * (1 - 1 / a ^ 2) := by
    unfold ricR ricT
    rw [mul_comm r (a ^ 3)]
    ring
  constructor
  · intro h
    linear_combination (-1) * h + al * hR + al * hH
  · intro h
    linear_combination (-1) * h + al * hR + al * hH

section Code
variable {K : Type*} [Field K] [LinearOrder K] [IsStrictOrderedRing K]
variable (pi dr cut : K) (n : ℕ) (a kk al rho j S Srr : ℕ → K) (i : ℕ)

/-- **C116** the stored shift is the only one that keeps `r` the areal radius, and `∂_t a` is the evolution equation of the metric, for
every hypersurface, lapse and matter, at every point but the centre.

Partial form of C116. Full property: The time derivatives stored for the metric sources obey the 3+1 evolution
equations for the current hypersurface, lapse and matter. Missing: dK/dt is off by -4 alpha K^2 and dalpha/dt is
nonzero in a static spacetime; both proved. -/
theorem metric_rates_partial (hdr : 0 < dr) (hi : 0 < i) (ha : a i ≠ 0) (b : K) :
    let gr := toDevice 0 pi dr cut n false a kk al rho j S Srr i
    (AreaRate (rad dr i) (kk i) (al i) b ↔ b = gr.beta) ∧
    ∀ x, MetricRate (a i) gr.dadr (kk i) (al i) gr.beta gr.dbetadr x ↔ x = gr.dadt := by
  intro gr
  have hr : 0 < rad dr i := by
    unfold rad
    have : (0 : K) < i := by exact_mod_cast hi
    positivity
  have hbeta : gr.beta = -(al i * rad dr i * kk i) / 2 := (shift_consistent 0 pi dr cut n a kk al rho j S Srr i).1
  constructor
  · rw [hbeta]
    unfold AreaRate
    have hr' := hr.ne'
    constructor
    · intro h
      have : b * (2 * rad dr i) = (-(al i * rad dr i * kk i) / 2) * (2 * rad dr i) := by linear_combination -h
      exact mul_right_cancel₀ (by positivity) this
    · rintro rfl; ring
  · intro x
    have hd : gr.dadt = gr.dadr * gr.beta + a i * gr.dbetadr - al i * a i * kk i := by
      simp [gr, toDevice, hi.ne']
    rw [hd]
    unfold MetricRate
    constructor
    · intro h
      have : x * (2 * a i) = (gr.dadr * gr.beta + a i * gr.dbetadr - al i * a i * kk i) * (2 * a i) := by linear_combination h
      exact mul_right_cancel₀ (mul_ne_zero two_ne_zero ha) this
    · rintro rfl; ring

/-- the discrete first and second radial derivatives of the lapse used by the code. -/
def dAl (dr : K) (n : ℕ) (al : ℕ → K) (i : ℕ) : K :=
  if i = n - 1 then (al i - al (i - 1)) / dr else (al (i + 1) - al (i - 1)) / (2 * dr)
def ddAl (dr : K) (n : ℕ) (al : ℕ → K) (i : ℕ) : K :=
  if i = n - 1 then (al (i - 2) + al i - 2 * al (i - 1)) / (dr * dr) else (al (i - 1) + al (i + 1) - 2 * al i) / (dr * dr)

/-- **C116 fails for `K`**: away from the centre the stored `∂_t K` is the evolution equation *minus* `4 α K²`, for every hypersurface,
lapse and matter. -/
theorem curvature_rate_defect (hi : 0 < i) (hr : cut < rad dr i) :
    let gr := toDevice 0 pi dr cut n false a kk al rho j S Srr i
    gr.dKdt = rateKr pi (a i) gr.dadr (rad dr i) gr.dKdr (al i) (dAl dr n al i) (ddAl dr n al i) gr.beta (rho i) (S i) (Srr i)
      - 4 * al i * kk i ^ 2 := by
  intro gr
  simp only [gr, toDevice, hi.ne', if_false, Bool.false_eq_true, one_mul, gt_iff_lt, hr, if_true, rateKr, hessR, ricR, dAl, ddAl]
  ring

/-- so it is right exactly where the extrinsic curvature (or the lapse) vanishes. -/
theorem curvature_rate_iff (hi : 0 < i) (hr : cut < rad dr i) :
    let gr := toDevice 0 pi dr cut n false a kk al rho j S Srr i
    gr.dKdt = rateKr pi (a i) gr.dadr (rad dr i) gr.dKdr (al i) (dAl dr n al i) (ddAl dr n al i) gr.beta (rho i) (S i) (Srr i)
      ↔ al i = 0 ∨ kk i = 0 := by
  intro gr
  have h := curvature_rate_defect pi dr cut n a kk al rho j S Srr i hi hr
  simp only at h
  rw [h]
  constructor
  · intro h'
    have : al i * kk i ^ 2 = 0 := by linarith
    rcases mul_eq_zero.1 this with h1 | h1
    · exact .inl h1
    · exact .inr (by simpa using h1)
  · rintro (h1 | h1) <;> rw [h1] <;> ring

/-- **C116** the stored `∂_t β` is the product rule for `β = -α r K / 2` with the stored rates. -/
theorem shift_rate :
    let gr := toDevice 0 pi dr cut n false a kk al rho j S Srr i
    gr.dbetadt = -(rad dr i) / 2 * (al i * gr.dKdt + kk i * gr.dalphadt) := by
  intro gr
  simp only [gr, toDevice, Bool.false_eq_true, if_false, one_mul]
  ring

/-- the stored `∂_t α` as a formula of the stored radial quantities. -/
theorem lapse_rate_formula (hi : 0 < i) :
    let gr := toDevice 0 pi dr cut n false a kk al rho j S Srr i
    gr.dalphadt = gr.beta * (a i * gr.beta * gr.dadt / al i + a i ^ 2 * kk i * gr.beta + 2 * gr.dadr * (1 - gr.beta ^ 2)
      - 2 * (a i ^ 2 * gr.beta / al i) * gr.dbetadr) := by
  intro gr
  simp only [gr, toDevice, hi.ne', if_false, Bool.false_eq_true, one_mul]
  ring
end Code

/-! ### A static spacetime: maximal slices of Schwarzschild -/

section Schwarzschild
open Real

/-- `1/a²` on the maximal slice of mass `M` with `K^r_r = c/r³`. -/
noncomputable def fS (M c r : ℝ) : ℝ := 1 - 2 * M / r + c ^ 2 / (4 * r ^ 4)
/-- its derivative. -/
noncomputable def fS' (M c r : ℝ) : ℝ := 2 * M / r ^ 2 - c ^ 2 / r ^ 5
/-- its second derivative. -/
noncomputable def fS'' (M c r : ℝ) : ℝ := -4 * M / r ^ 3 + 5 * c ^ 2 / r ^ 6

theorem fS_deriv (M c r : ℝ) (hr : r ≠ 0) : HasDerivAt (fS M c) (fS' M c r) r := by
  have h1 := (hasDerivAt_const r (2 * M)).div (hasDerivAt_id r) hr
  have h2 := (hasDerivAt_const r (c ^ 2)).div ((hasDerivAt_pow 4 r).const_mul 4) (by positivity)
  refine ((h1.const_sub 1).add h2).congr_deriv ?_
  unfold fS'
  simp only [id_eq]
  field_simp
  ring

theorem fS'_deriv (M c r : ℝ) (hr : r ≠ 0) : HasDerivAt (fS' M c) (fS'' M c r) r := by
  have h1 := (hasDerivAt_const r (2 * M)).div (hasDerivAt_pow 2 r) (by positivity)
  have h2 := (hasDerivAt_const r (c ^ 2)).div (hasDerivAt_pow 5 r) (by positivity)
  refine (h1.sub h2).congr_deriv ?_
  unfold fS''
  field_simp
  ring

/-- lapse, radial metric, curvature and shift of the slice; all independent of time. -/
noncomputable def alS (M c r : ℝ) : ℝ := √(fS M c r)
noncomputable def aS (M c r : ℝ) : ℝ := 1 / √(fS M c r)
noncomputable def kS (c r : ℝ) : ℝ := c / r ^ 3
noncomputable def beS (M c r : ℝ) : ℝ := -(alS M c r * r * kS c r) / 2

noncomputable def alS' (M c r : ℝ) : ℝ := fS' M c r / (2 * alS M c r)
noncomputable def alS'' (M c r : ℝ) : ℝ := (fS'' M c r - 2 * alS' M c r ^ 2) / (2 * alS M c r)
noncomputable def aS' (M c r : ℝ) : ℝ := -alS' M c r / alS M c r ^ 2
noncomputable def kS' (c r : ℝ) : ℝ := -3 * c / r ^ 4
noncomputable def beS' (M c r : ℝ) : ℝ :=
  -(alS' M c r * r * kS c r + alS M c r * kS c r + alS M c r * r * kS' c r) / 2

/-- the primed functions are the radial derivatives. -/
theorem slice_derivs (M c r : ℝ) (hr : 0 < r) (hf : 0 < fS M c r) :
    HasDerivAt (alS M c) (alS' M c r) r ∧ HasDerivAt (alS' M c) (alS'' M c r) r ∧ HasDerivAt (aS M c) (aS' M c r) r ∧
    HasDerivAt (kS c) (kS' c r) r ∧ HasDerivAt (beS M c) (beS' M c r) r := by
  have h0 : 0 < alS M c r := sqrt_pos.2 hf
  have h1 : HasDerivAt (alS M c) (alS' M c r) r := (fS_deriv M c r hr.ne').sqrt hf.ne'
  have hk : HasDerivAt (kS c) (kS' c r) r := by
    refine ((hasDerivAt_const r c).div (hasDerivAt_pow 3 r) (by positivity)).congr_deriv ?_
    unfold kS'; field_simp; ring
  refine ⟨h1, ?_, ?_, hk, ?_⟩
  · have h2 := (fS'_deriv M c r hr.ne').div (h1.const_mul 2) (by positivity)
    refine h2.congr_deriv ?_
    unfold alS''
    have e : fS' M c r = 2 * alS M c r * alS' M c r := by unfold alS'; field_simp
    rw [e]; field_simp
  · have h2 := (hasDerivAt_const r (1:ℝ)).div h1 h0.ne'
    refine h2.congr_deriv ?_
    unfold aS'; ring
  · have h2 := ((h1.mul (hasDerivAt_id r)).mul hk).neg.div_const 2
    refine h2.congr_deriv ?_
    unfold beS'
    simp only [id_eq, mul_one, Pi.mul_apply]
    ring

/-- the slice is a vacuum solution: both constraints and the slicing equation hold. -/
theorem slice_vacuum (M c r : ℝ) (hr : 0 < r) (hf : 0 < fS M c r) :
    Hamiltonian π (aS M c r) (aS' M c r) (kS c r) r 0 ∧ Momentum π (aS M c r) (kS c r) (kS' c r) r 0 ∧
    Slicing π (aS M c r) (aS' M c r) r (kS c r) (alS M c r) (alS' M c r) (alS'' M c r) 0 0 ∧
    AreaRate r (kS c r) (alS M c r) (beS M c r) := by
  have h0 : 0 < alS M c r := sqrt_pos.2 hf
  have hsq : alS M c r ^ 2 = fS M c r := sq_sqrt hf.le
  have ha : aS M c r = 1 / alS M c r := rfl
  have hw := h0.ne'
  have hr' := hr.ne'
  refine ⟨?_, ?_, ?_, ?_⟩
  · unfold Hamiltonian
    rw [ha]
    unfold aS' alS' kS
    field_simp
    rw [hsq]
    unfold fS fS'
    field_simp
    ring
  · unfold Momentum kS kS'
    field_simp
    ring
  · unfold Slicing hessR hessT
    rw [ha]
    unfold aS' alS'' alS' kS
    field_simp
    rw [hsq]
    unfold fS fS' fS''
    field_simp
    ring
  · unfold AreaRate beS; ring

/-- in this spacetime nothing changes with time: the evolution equations give zero. -/
theorem slice_static (M c r : ℝ) (hr : 0 < r) (hf : 0 < fS M c r) :
    MetricRate (aS M c r) (aS' M c r) (kS c r) (alS M c r) (beS M c r) (beS' M c r) 0 ∧
    rateKr π (aS M c r) (aS' M c r) r (kS' c r) (alS M c r) (alS' M c r) (alS'' M c r) (beS M c r) 0 0 0 = 0 := by
  have h0 : 0 < alS M c r := sqrt_pos.2 hf
  have hsq : alS M c r ^ 2 = fS M c r := sq_sqrt hf.le
  have ha : aS M c r = 1 / alS M c r := rfl
  have hw := h0.ne'
  have hr' := hr.ne'
  constructor
  · unfold MetricRate
    rw [ha]
    unfold aS' beS beS' kS' kS
    field_simp
    ring
  · unfold rateKr hessR ricR
    rw [ha]
    unfold aS' alS'' beS alS' kS kS'
    field_simp
    rw [hsq]
    unfold fS fS' fS''
    field_simp
    ring
/-- on this static slice the formula the code evaluates for `∂_t K` (`curvature_rate_defect`) is `-4 α K²`: strictly negative wherever the
curvature does not vanish, although nothing changes. -/
theorem slice_code_curvature (M c r : ℝ) (hr : 0 < r) (hf : 0 < fS M c r) (hc : c ≠ 0) :
    rateKr π (aS M c r) (aS' M c r) r (kS' c r) (alS M c r) (alS' M c r) (alS'' M c r) (beS M c r) 0 0 0
      - 4 * alS M c r * kS c r ^ 2 < 0 := by
  rw [(slice_static M c r hr hf).2]
  have h0 : 0 < alS M c r := sqrt_pos.2 hf
  have hk : 0 < kS c r ^ 2 := by unfold kS; positivity
  nlinarith [mul_pos h0 hk]

/-- and the formula for `∂_t α` (`lapse_rate_formula`) is nonzero too: at `r = 2` for `M = 1/2`, `c = 2` (outside the horizon `f = 0`; here
`f = 9/16`). -/
theorem slice_code_lapse :
    0 < fS (1/2) 2 2 ∧
    beS (1/2) 2 2 * (aS (1/2) 2 2 * beS (1/2) 2 2 * 0 / alS (1/2) 2 2 + aS (1/2) 2 2 ^ 2 * kS 2 2 * beS (1/2) 2 2
      + 2 * aS' (1/2) 2 2 * (1 - beS (1/2) 2 2 ^ 2) - 2 * (aS (1/2) 2 2 ^ 2 * beS (1/2) 2 2 / alS (1/2) 2 2) * beS' (1/2) 2 2) ≠ 0 := by
  have e : fS (1/2) 2 2 = (3/4) ^ 2 := by unfold fS; norm_num
  have h : alS (1/2) 2 2 = 3/4 := by unfold alS; rw [e]; exact sqrt_sq (by norm_num)
  have ha : aS (1/2) 2 2 = 4/3 := by
    have : aS (1/2) 2 2 = 1 / alS (1/2) 2 2 := rfl
    rw [this, h]; norm_num
  refine ⟨by rw [e]; norm_num, ?_⟩
  rw [ha]
  unfold beS beS' aS' alS' kS kS' fS'
  rw [h]
  norm_num
end Schwarzschild

end Phoebus.Monopole
