import Verif.Output.Model
import Mathlib.Analysis.SpecialFunctions.Gaussian.GaussianIntegral
import Mathlib.Analysis.Real.Pi.Bounds

/-!
# C108: output diagnostics
-/
namespace Phoebus.Output
open Rel Metrics Finset

/-! ## Sound speed -/

/-- ideal gas with adiabatic index `G` and specific heat `cv` (textbook). -/
def ideal (G cv : ℝ) : Eos where
  P rho T := (G - 1) * rho * (cv * T)
  bmod rho T := G * ((G - 1) * rho * (cv * T))
  sie _ T := cv * T

/-- **C108** The stored sound speed is the relativistic one: `cs² = Γ₁ P / (ρ + ρ ε + P)`, for every equation of state, where
the bulk modulus is `Γ₁ P`.

Partial form of C108. Full property: The sound speed, the divergence of the velocity and the localisation weight
written to the output are the physical quantities. Missing: Sound speed proved; deviations of the divergence and the
weight proved with witnesses. -/
theorem cs_spec_partial (eos : Eos) (rho T G1 : ℝ) (hr : 0 < rho) (hP : 0 ≤ eos.P rho T) (he : 0 ≤ eos.sie rho T) (hG : 0 ≤ G1)
    (hb : eos.bmod rho T = G1 * eos.P rho T) :
    0 ≤ cs eos rho T ∧ cs eos rho T ^ 2 * (rho + rho * eos.sie rho T + eos.P rho T) = G1 * eos.P rho T := by
  have hh : 0 < eos.sie rho T + eos.P rho T / rho + 1 := by positivity
  have hq : 0 ≤ eos.bmod rho T / rho / (eos.sie rho T + eos.P rho T / rho + 1) := by rw [hb]; positivity
  refine ⟨Real.sqrt_nonneg _, ?_⟩
  unfold cs
  simp only
  rw [Real.sq_sqrt hq, hb]
  field_simp
  ring

/-- **C108** For an ideal gas with index at most two the stored sound speed is below the speed of light, and below
`√(Γ - 1)`. -/
theorem cs_subluminal (G cv rho T : ℝ) (hr : 0 < rho) (hG : 1 < G) (hc : 0 < cv) (hT : 0 < T) :
    cs (ideal G cv) rho T ^ 2 < G - 1 ∧ (G ≤ 2 → cs (ideal G cv) rho T < 1) := by
  have hg : 0 < G - 1 := by linarith
  obtain ⟨h0, h1⟩ := cs_spec_partial (ideal G cv) rho T G hr (by simp only [ideal]; positivity) (by simp only [ideal]; positivity)
    (by linarith) rfl
  have hx : 0 < cv * T := by positivity
  have h2 : cs (ideal G cv) rho T ^ 2 < G - 1 := by
    simp only [ideal] at h1
    change cs (ideal G cv) rho T ^ 2 * _ = _ at h1
    by_contra hcon
    push Not at hcon
    have : (G - 1) * (rho + rho * (cv * T) + (G - 1) * rho * (cv * T)) ≤ G * ((G - 1) * rho * (cv * T)) := by
      rw [← h1]
      exact mul_le_mul_of_nonneg_right hcon (by positivity)
    nlinarith [mul_pos hg hr]
  refine ⟨h2, fun hG2 => ?_⟩
  nlinarith

/-! ## Velocity divergence -/

/-- Cartesian coordinates of flat space: unit lapse, unit metric, velocity field `v`. -/
noncomputable def flat (v : ℤ → ℤ → ℤ → Fin 3 → ℝ) : Fields where
  v := v
  lapse _ _ _ := 1
  gdet _ _ _ := 1
  gam _ _ _ := fun a b => if a = b then 1 else 0

/-- coordinate velocity (textbook): `v / W`. -/
noncomputable def coordVel (v : Fin 3 → ℝ) (d : Fin 3) : ℝ := v d / Real.sqrt (1 + ∑ a, v a ^ 2)

theorem lorentz_flat (v : Fin 3 → ℝ) : lorentz (fun a b => if a = b then 1 else 0) v = Real.sqrt (1 + ∑ a, v a ^ 2) := by
  simp [lorentz, Finset.sum_ite_eq, Fin.sum_univ_three]
  congr 1; ring

/-- **C108** In one and two dimensions in flat space the stored divergence is the sum of the backward differences of the
coordinate velocity. -/
theorem divv_flat (ndim : ℕ) (hn : ndim ≤ 2) (junk : Fin 3 → Fin 3 → ℝ) (w : Fin 3 → ℝ) (v : ℤ → ℤ → ℤ → Fin 3 → ℝ)
    (k j i : ℤ) :
    divv 0 ndim junk w (flat v) k j i =
      (coordVel (v k j i) 0 - coordVel (v k j (i - 1)) 0) / w 0 +
        (if 2 ≤ ndim then (coordVel (v k j i) 1 - coordVel (v k (j - 1) i) 1) / w 1 else 0) := by
  have h3 : ¬ (3 ≤ ndim) := by omega
  simp only [divv, flat, lorentz_flat, if_neg h3, Rel.ratio_zero, coordVel]
  split_ifs <;> ring

/-- coordinate velocity density (textbook, without shift): `sqrt(-g) alpha v / W`. -/
noncomputable def fluxVel (F : Fields) (d : Fin 3) (k j i : ℤ) : ℝ := F.gdet k j i * (F.lapse k j i * (F.v k j i d / lorentz (F.gam k j i) (F.v k j i)))

/-- **C108** In any background, in one and two dimensions, the stored divergence is the backward difference of `sqrt(-g) alpha v / W` divided by `sqrt(-g)`
at the cell. -/
theorem divv_curved (ndim : ℕ) (hn : ndim ≤ 2) (junk : Fin 3 → Fin 3 → ℝ) (w : Fin 3 → ℝ) (F : Fields) (k j i : ℤ) :
    divv 0 ndim junk w F k j i =
      (fluxVel F 0 k j i - fluxVel F 0 k j (i - 1)) / w 0 / F.gdet k j i +
        (if 2 ≤ ndim then (fluxVel F 1 k j i - fluxVel F 1 k (j - 1) i) / w 1 / F.gdet k j i else 0) := by
  have h3 : ¬ (3 ≤ ndim) := by omega
  simp only [divv, if_neg h3, Rel.ratio_zero, fluxVel]
  split_ifs <;> ring

/-- **C108** A one-dimensional coordinate velocity linear in position gets its exact slope; a quadratic one gets the
derivative half a cell upstream: the difference is not centred. -/
theorem divv_one_dim (junk : Fin 3 → Fin 3 → ℝ) (w : Fin 3 → ℝ) (hw : w 0 ≠ 0) (v : ℤ → ℤ → ℤ → Fin 3 → ℝ) (p q r : ℝ)
    (k j i : ℤ) (hv : ∀ n, coordVel (v k j n) 0 = p + q * (n * w 0) + r * (n * w 0) ^ 2) :
    divv 0 1 junk w (flat v) k j i = q + 2 * r * ((i - 1 / 2) * w 0) := by
  rw [divv_flat 1 (by norm_num)]
  simp only [hv, show ¬ (2 ≤ 1) by norm_num, if_false]
  push_cast
  field_simp
  ring

/-- **C108** (finding) In three dimensions the result depends on memory that was never set: for every moving cell below the
current one there are two contents of that memory with different results. -/
theorem divv_depends_on_junk (w : Fin 3 → ℝ) (hw : w 2 ≠ 0) (v : ℤ → ℤ → ℤ → Fin 3 → ℝ) (k j i : ℤ)
    (hm : v (k - 1) j i 2 ≠ 0) :
    ∃ junk junk' : Fin 3 → Fin 3 → ℝ, divv 0 3 junk w (flat v) k j i ≠ divv 0 3 junk' w (flat v) k j i := by
  set x := v (k - 1) j i 2 with hx
  refine ⟨fun _ _ => 0, fun a b => if a = 2 ∧ b = 2 then 3 / x ^ 2 else 0, fun h => ?_⟩
  have l0 : lorentz (fun _ _ => (0:ℝ)) (v (k - 1) j i) = 1 := by simp [lorentz]
  have l1 : lorentz (fun a b : Fin 3 => if a = 2 ∧ b = 2 then 3 / x ^ 2 else 0) (v (k - 1) j i) = 2 := by
    simp only [lorentz, Fin.sum_univ_three]
    simp only [Fin.isValue, show ((0:Fin 3) = 2) = False by decide, show ((1:Fin 3) = 2) = False by decide, false_and,
      and_false, if_false, true_and, if_true, ← hx, zero_mul, zero_add]
    rw [show 1 + 3 / x ^ 2 * x * x = 2 ^ 2 by field_simp; norm_num]
    exact Real.sqrt_sq (by norm_num)
  simp only [divv, l0, l1, flat, le_refl, if_true, show 2 ≤ 3 by norm_num, Rel.ratio_zero] at h
  field_simp at h
  ring_nf at h
  have : x = 0 := by
    have e : v (-1 + k) j i 2 = x := by rw [hx, show k - 1 = -1 + k by ring]
    rw [e] at h
    linarith
  exact hm this

/-- the stored divergence ignores the expansion of the coordinates: in an expanding universe a fluid at rest has it zero, while
the volume of the fluid grows at the rate `3 ȧ/a`. -/
theorem divv_flrw (a0 dadt t : ℝ) (ndim : ℕ) (junk : Fin 3 → Fin 3 → ℝ) (w : Fin 3 → ℝ) (k j i : ℤ) :
    divv 0 ndim junk w ⟨fun _ _ _ _ => 0, fun _ _ _ => (flrw 0 a0 dadt).lapse (fun _ => t),
      fun _ _ _ => (flrw 0 a0 dadt).detGamma (fun _ => t), fun _ _ _ => (flrw 0 a0 dadt).gam (fun _ => t)⟩ k j i = 0 := by
  simp [divv]

/-- **C108** A uniform flow has zero divergence in one and two dimensions (and is an instance of `divv_one_dim`). -/
theorem divv_uniform (junk : Fin 3 → Fin 3 → ℝ) (w : Fin 3 → ℝ) (u : Fin 3 → ℝ) (k j i : ℤ) :
    divv 0 1 junk w (flat fun _ _ _ => u) k j i = 0 ∧ divv 0 2 junk w (flat fun _ _ _ => u) k j i = 0 := by
  constructor <;> rw [divv_flat _ (by norm_num)] <;> simp

/-- **C108** (finding) a uniform flow in three dimensions gets a non-zero divergence when the unset memory holds zeros. -/
theorem divv_uniform_wrong (w : Fin 3 → ℝ) (hw : 0 < w 2) (u : Fin 3 → ℝ) (hu : 0 < u 2) (k j i : ℤ) :
    divv 0 3 (fun _ _ => 0) w (flat fun _ _ _ => u) k j i < 0 := by
  have l0 : lorentz (fun _ _ => (0:ℝ)) u = 1 := by simp [lorentz]
  have hW : 1 < Real.sqrt (1 + ∑ a, u a ^ 2) := by
    rw [Real.lt_sqrt (by norm_num)]
    rw [Fin.sum_univ_three]
    nlinarith [sq_nonneg (u 0), sq_nonneg (u 1), pow_pos hu 2]
  simp only [divv, flat, l0, lorentz_flat, le_refl, if_true, show 2 ≤ 3 by norm_num, Rel.ratio_zero]
  set W := Real.sqrt (1 + ∑ a, u a ^ 2)
  have : u 2 / W < u 2 := by
    rw [div_lt_iff₀ (by linarith)]; nlinarith
  have h : 1 / 1 * (1 * u 2 * 1 / W - 1 * u 2 * 1 / 1) / w 2 < 0 := by
    apply div_neg_of_neg_of_pos _ hw
    simp only [one_mul, mul_one, div_one]
    linarith
  simpa using h

/-! ## Localised entropy -/

/-- **C108** The weight of the localised entropy integrates to `√(π/3.14)` over all heights, slightly more than one, for
every width. -/
theorem locWeight_integral (sigma : ℝ) (hs : 0 < sigma) :
    ∫ z, locWeight sigma z = Real.sqrt (Real.pi / 3.14) ∧ 1 < Real.sqrt (Real.pi / 3.14) ∧
      Real.sqrt (Real.pi / 3.14) < 1.001 := by
  refine ⟨?_, ?_, ?_⟩
  · have e : ∀ z, locWeight sigma z = (1 / (Real.sqrt 3.14 * sigma)) * Real.exp (-(1 / sigma ^ 2) * z ^ 2) := by
      intro z
      unfold locWeight
      rw [show -z * z / sigma / sigma = -(1 / sigma ^ 2) * z ^ 2 by field_simp]
      have : Real.sqrt 3.14 ≠ 0 := by positivity
      field_simp
    simp only [e]
    rw [MeasureTheory.integral_const_mul, integral_gaussian]
    rw [show Real.pi / (1 / sigma ^ 2) = Real.pi * sigma ^ 2 by field_simp,
      Real.sqrt_mul Real.pi_pos.le, Real.sqrt_sq hs.le, Real.sqrt_div Real.pi_pos.le]
    have : Real.sqrt 3.14 ≠ 0 := by positivity
    field_simp
  · rw [Real.lt_sqrt (by norm_num)]
    have := Real.pi_gt_d4
    rw [lt_div_iff₀ (by norm_num)]
    norm_num at this ⊢
    linarith
  · rw [Real.sqrt_lt' (by norm_num)]
    have := Real.pi_lt_d4
    rw [div_lt_iff₀ (by norm_num)]
    norm_num at this ⊢
    linarith

/-- **C108** (finding) The start-up test accepts a width of zero, for which the weight is not defined. -/
theorem sigma_zero_accepted : sigmaAccepted 0 = true ∧ ∀ s, sigmaAccepted s = true ↔ 0 ≤ s := by
  constructor
  · simp [sigmaAccepted]
  · intro s; simp [sigmaAccepted]

end Phoebus.Output
