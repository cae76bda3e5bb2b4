import Verif.Torus.Props

/-!
# C86: angular momentum of the pressure maximum, thermodynamics, code velocity
-/
namespace Phoebus.Torus
open Real Metrics Geom Finset

variable {r th a rin l : ℝ}

/-- stable-orbit regularity: a circular time-like geodesic exists at `r`. -/
structure Orbit (r a : ℝ) : Prop where
  r1 : 1 ≤ r
  a1 : |a| < 1
  d : 0 < r ^ 2 - 2 * r + a ^ 2
  q : 0 < 2 * a * √r + (-3 + r) * r

/-- time component of the circular equatorial geodesic (Bardeen, Press & Teukolsky 1972). -/
noncomputable def kepT (r a : ℝ) : ℝ := (r * √r + a) / (√r * √(2 * a * √r + (-3 + r) * r))

/-- azimuthal component of the circular equatorial geodesic. -/
noncomputable def kepP (r a : ℝ) : ℝ := 1 / (√r * √(2 * a * √r + (-3 + r) * r))

theorem Orbit.outside (h : Orbit r a) : Outside r (π / 2) a :=
  ⟨by have := h.r1; linarith, h.d, by simp⟩

theorem eq_components (h : Orbit r a) :
    blG 0 a r (π / 2) 0 0 = -(1 - 2 / r) ∧ blG 0 a r (π / 2) 0 3 = -(2 * a / r) ∧
      blG 0 a r (π / 2) 3 3 = r ^ 2 + a ^ 2 + 2 * a ^ 2 / r := by
  obtain ⟨h1, h2, h3⟩ := bl_components h.outside
  have hr : 0 < r := h.outside.rp
  rw [h1, h2, h3]
  simp only [SS, AA, DD, sin_pi_div_two, cos_pi_div_two]
  refine ⟨by simp; field_simp, by simp; field_simp, ?_⟩
  simp
  field_simp
  ring

/-- **C86** The Keplerian flow is normalised, future directed, rotates positively, and satisfies the radial geodesic
equation. -/
theorem kepler_geodesic (h : Orbit r a) :
    let t := kepT r a
    let p := kepP r a
    0 < t ∧ blG 0 a r (π / 2) 0 0 * t ^ 2 + 2 * blG 0 a r (π / 2) 0 3 * t * p + blG 0 a r (π / 2) 3 3 * p ^ 2 = -1 ∧
      0 ≤ blG 0 a r (π / 2) 0 3 * t + blG 0 a r (π / 2) 3 3 * p ∧ (t - a * p) ^ 2 = r ^ 3 * p ^ 2 ∧
      t * (blG 0 a r (π / 2) 0 3 * t + blG 0 a r (π / 2) 3 3 * p) = lfish r a := by
  intro t p
  obtain ⟨h1, h2, h3⟩ := eq_components h
  have hr : 0 < r := h.outside.rp
  obtain ⟨s, hs⟩ : ∃ s, s = √r := ⟨_, rfl⟩
  have hs0 : 0 < s := by rw [hs]; exact Real.sqrt_pos.2 hr
  have hrs : r = s ^ 2 := by rw [hs, Real.sq_sqrt hr.le]
  have hq := h.q
  obtain ⟨D, hD⟩ : ∃ D, D = √(2 * a * √r + (-3 + r) * r) := ⟨_, rfl⟩
  have hD0 : 0 < D := by rw [hD]; exact Real.sqrt_pos.2 hq
  have hD2 : D ^ 2 = 2 * a * s + (-3 + s ^ 2) * s ^ 2 := by
    rw [hD, Real.sq_sqrt hq.le, ← hs, ← hrs]
  have ha := abs_lt.1 h.a1
  have hs1 : 1 ≤ s := by
    rw [hs, Real.one_le_sqrt]; exact h.r1
  have ht : t = (s ^ 3 + a) / (s * D) := by
    show kepT r a = _
    unfold kepT; rw [← hD, ← hs, hrs]; ring
  have hp : p = 1 / (s * D) := by
    show kepP r a = _
    unfold kepP; rw [← hD, ← hs]
  have hDel : a ^ 2 + (-2 + s ^ 2) * s ^ 2 ≠ 0 := by
    have := h.d; rw [hrs] at this; nlinarith
  have hphi : blG 0 a r (π / 2) 0 3 * t + blG 0 a r (π / 2) 3 3 * p = (a ^ 2 - 2 * a * s + s ^ 4) / (s * D) := by
    rw [h2, h3, ht, hp, hrs]; field_simp; ring
  have hs3 : 1 ≤ s ^ 3 := one_le_pow₀ hs1
  refine ⟨?_, ?_, ?_, ?_, ?_⟩
  · rw [ht]
    have : 0 < s ^ 3 + a := by linarith
    positivity
  · rw [h1, h2, h3, ht, hp, hrs]; field_simp; rw [hD2]; ring
  · rw [hphi]
    have : 0 ≤ a ^ 2 - 2 * a * s + s ^ 4 := by
      have h5 : 1 ≤ s ^ 2 := one_le_pow₀ hs1
      nlinarith [sq_nonneg (a - s), mul_nonneg (sq_nonneg s) (sub_nonneg.2 h5)]
    positivity
  · rw [ht, hp, hrs]; field_simp; ring
  · rw [hphi, ht]
    have hroot : √(1 + (2 * a) / (r * √r) - 3 / r) = D / r := by
      have : 1 + (2 * a) / (r * √r) - 3 / r = (2 * a * √r + (-3 + r) * r) / r ^ 2 := by
        rw [← hs, hrs]; field_simp; ring
      rw [this, Real.sqrt_div hq.le, Real.sqrt_sq hr.le, hD]
    unfold lfish
    rw [hroot, ← hD, ← hs, hrs]
    obtain ⟨E, hE⟩ : ∃ E, E = a ^ 2 + (-2 + s ^ 2) * s ^ 2 := ⟨_, rfl⟩
    rw [← hE] at hDel ⊢
    field_simp
    rw [hE]
    ring

/-- **C86** The angular momentum parameter chosen by the code makes the pressure stationary at `rmax`: with
`l = lfish_calc(rmax, a)` the fluid at `(rmax, pi/2)` is on a geodesic and the enthalpy has a critical point there. -/
theorem enthalpy_stationary (h : Orbit r a) (hin : Outside rin (π / 2) a) :
    uphiRaw r (π / 2) a (lfish r a) = kepP r a ∧
      HasDerivAt (fun y => lnh y (π / 2) a rin (lfish r a)) 0 r ∧
      HasDerivAt (fun y => lnh r y a rin (lfish r a)) 0 (π / 2) := by
  obtain ⟨k1, k2, k3, k4, k5⟩ := kepler_geodesic h
  have ho := h.outside
  have hu := fm_unique (bl_gpp_pos ho) (bl_nu2_pos ho) k1 k2 k5 k3
  have hl : 0 ≤ lfish r a := by rw [← k5]; exact mul_nonneg k1.le k3
  have hr : 0 < r := ho.rp
  refine ⟨by rw [uphi_eq ho]; exact hu.2, ?_, ?_⟩
  · -- derivatives of the equatorial metric
    have hev : ∀ᶠ y in nhds r, Outside y (π / 2) a := outside_r_eventually ho
    have comp : ∀ y, Outside y (π / 2) a → blG 0 a y (π / 2) 0 0 = -(1 - 2 / y) ∧ blG 0 a y (π / 2) 0 3 = -(2 * a / y) ∧
        blG 0 a y (π / 2) 3 3 = y ^ 2 + a ^ 2 + 2 * a ^ 2 / y := by
      intro y hy
      obtain ⟨h1, h2, h3⟩ := bl_components hy
      have hy0 : 0 < y := hy.rp
      rw [h1, h2, h3]
      simp only [SS, AA, DD, sin_pi_div_two, cos_pi_div_two]
      refine ⟨by simp; field_simp, by simp; field_simp, ?_⟩
      simp
      field_simp
      ring
    have hinv : HasDerivAt (fun y : ℝ => y⁻¹) (-(r ^ 2)⁻¹) r := hasDerivAt_inv hr.ne'
    have d00 : HasDerivAt (fun y => blG 0 a y (π / 2) 0 0) (-(2 / r ^ 2)) r := by
      refine HasDerivAt.congr_of_eventuallyEq (((hinv.const_mul 2).const_sub 1).neg.congr_deriv ?_)
        (hev.mono fun y hy => (comp y hy).1.trans (by simp [div_eq_mul_inv]))
      field_simp
    have d03 : HasDerivAt (fun y => blG 0 a y (π / 2) 0 3) (2 * a / r ^ 2) r := by
      refine HasDerivAt.congr_of_eventuallyEq ((hinv.const_mul (2 * a)).neg.congr_deriv ?_)
        (hev.mono fun y hy => (comp y hy).2.1.trans (by simp [div_eq_mul_inv]))
      field_simp
    have d33 : HasDerivAt (fun y => blG 0 a y (π / 2) 3 3) (2 * r - 2 * a ^ 2 / r ^ 2) r := by
      refine HasDerivAt.congr_of_eventuallyEq
        ((((hasDerivAt_pow 2 r).add_const (a ^ 2)).add (hinv.const_mul (2 * a ^ 2))).congr_deriv ?_)
        (hev.mono fun y hy => (comp y hy).2.2.trans (by simp [div_eq_mul_inv]))
      field_simp; simp; ring
    refine (((fmPot_deriv d00 d03 d33 hl (bl_gpp_pos ho) (bl_nu2_pos ho)).sub_const
      (blPot rin (π / 2) a (lfish r a))).congr_of_eventuallyEq
        (hev.mono fun y hy => lnh_eq hy hin)).congr_deriv ?_
    rw [hu.1, hu.2]
    have e : -(2 / r ^ 2) * kepT r a ^ 2 + 2 * (2 * a / r ^ 2) * kepT r a * kepP r a +
        (2 * r - 2 * a ^ 2 / r ^ 2) * kepP r a ^ 2 = (-2 / r ^ 2) * ((kepT r a - a * kepP r a) ^ 2 - r ^ 3 * kepP r a ^ 2) := by
      field_simp; ring
    rw [e, k4]; ring
  · -- symmetry about the equator
    have hev : ∀ᶠ y in nhds (π / 2), Outside r y a := outside_th_eventually ho
    have hs1 : HasDerivAt sin 0 (π / 2) := (hasDerivAt_sin (π / 2)).congr_deriv cos_pi_div_two
    have hc1 : HasDerivAt cos (-1) (π / 2) := (hasDerivAt_cos (π / 2)).congr_deriv (by simp)
    have hs2 : HasDerivAt (fun y => sin y ^ 2) 0 (π / 2) := (hs1.pow 2).congr_deriv (by simp)
    have hSS : HasDerivAt (fun y => SS r y a) 0 (π / 2) := by
      refine (((hc1.mul hc1).const_mul (a * a)).const_add (r * r)).congr_deriv (by simp) |>.congr_of_eventuallyEq ?_
      exact Filter.Eventually.of_forall fun y => by simp only [SS, Pi.mul_apply]; ring
    have hAA : HasDerivAt (fun y => AA r y a) 0 (π / 2) := by
      refine ((hs2.const_mul (DD r a * a * a)).const_sub ((r * r + a * a) * (r * r + a * a))).congr_deriv (by simp)
        |>.congr_of_eventuallyEq ?_
      exact Filter.Eventually.of_forall fun y => by simp only [AA]; ring
    have hS0 := (SS_pos ho).ne'
    have d00 : HasDerivAt (fun y => blG 0 a r y 0 0) 0 (π / 2) := by
      refine HasDerivAt.congr_of_eventuallyEq (((((hasDerivAt_const (π / 2) (2 * r)).div hSS hS0)).const_sub 1).neg.congr_deriv ?_)
        (hev.mono fun y hy => (bl_components hy).1)
      simp
    have d03 : HasDerivAt (fun y => blG 0 a r y 0 3) 0 (π / 2) := by
      refine HasDerivAt.congr_of_eventuallyEq (((hs2.const_mul (2 * a * r)).div hSS hS0).neg.congr_deriv ?_)
        (hev.mono fun y hy => (bl_components hy).2.1)
      simp
    have d33 : HasDerivAt (fun y => blG 0 a r y 3 3) 0 (π / 2) := by
      refine HasDerivAt.congr_of_eventuallyEq (((hAA.mul hs2).div hSS hS0).congr_deriv ?_)
        (hev.mono fun y hy => (bl_components hy).2.2)
      simp
    refine (((fmPot_deriv d00 d03 d33 hl (bl_gpp_pos ho) (bl_nu2_pos ho)).sub_const
      (blPot rin (π / 2) a (lfish r a))).congr_of_eventuallyEq
        (hev.mono fun y hy => lnh_eq hy hin)).congr_deriv ?_
    simp

end Phoebus.Torus
