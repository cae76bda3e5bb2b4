import Verif.Metrics.Kerr

/-! # More of Boyer-Lindquist: shift, inverse 3-metric, volume element and metric derivatives -/
namespace Phoebus.Metrics
open Real Robust

private theorem ratio_zero (a b : ℝ) : Robust.ratio 0 a b = a / b := by simp [Robust.ratio]

/-- third component of `BoyerLindquist::ContravariantShift`, boyer_lindquist.hpp:59-70 (the others are zero). -/
noncomputable def blShift (small a r th : ℝ) : ℝ :=
  Robust.ratio small (-2 * a * r * sin th * sin th) ((r - 2) * r + a * a * cos th * cos th)

/-- `BoyerLindquist::MetricInverse`, boyer_lindquist.hpp:126-151. -/
noncomputable def blGamInv (small a r th : ℝ) : Fin 3 → Fin 3 → ℝ :=
  let DD := blDD small a r
  let mu := blMu small a r th
  let r2 := r * r
  let r3 := r2 * r
  let rm := r * mu
  let rm2 := rm - 2
  let sth2 := sin th * sin th
  let r3dm := r3 * DD * mu
  let denom := 2 * (a * a) * rm2 + r2 * (-4 + rm * (2 + DD * rm2)) + 4 * (a * a) * sth2
  let alpha := blLapse small a r th
  let beta := blShift small a r th
  ![![Robust.ratio small mu DD, 0, 0], ![0, r2 * mu, 0],
    ![0, 0, Robust.ratio small (r3dm * (2 * (a * a) + r2 * (2 + DD * rm)) * sth2) denom + Robust.ratio small (beta * beta) (alpha * alpha)]]

/-- `BoyerLindquist::DetGamma`, boyer_lindquist.hpp:152-166. -/
noncomputable def blDetGamma (small a r th : ℝ) : ℝ :=
  let mu := blMu small a r th
  let r2 := r * r
  let r3 := r2 * r
  √|Robust.ratio small (r * mu - 2) (r2 * r3 * (mu * mu * mu) * (sin th * sin th))|

/-- `BoyerLindquist::DetG`, boyer_lindquist.hpp:167-173. -/
noncomputable def blDetG (small a r th : ℝ) : ℝ := blLapse small a r th * blDetGamma small a r th

/-- `BoyerLindquist::MetricDerivative`, boyer_lindquist.hpp:180-236: the derivatives by `r` (`blDr`) of the components 00, 03, 11, 22, 33. -/
noncomputable def blDr (small a r th : ℝ) : Fin 4 → Fin 4 → ℝ :=
  let c2th := cos (2 * th)
  let cth2 := cos th * cos th
  let cth4 := cth2 * cth2
  let sth2 := sin th * sin th
  let a2 := a * a
  let a3 := a2 * a
  let a4 := a3 * a
  let a6 := a4 * a2
  let r2 := r * r
  let r3 := r2 * r
  let r6 := r3 * r3
  let rm2 := r - 2
  let r3m4 := 3 * r - 4
  let cd := r2 + a2 * cth2
  let denom1 := cd * cd
  let d2 := (a2 + r * (r - 2)) * cd
  let denom2 := d2 * d2
  let g03 := 2 * a * Robust.ratio small (r2 * (a2 + r * r3m4) + a2 * (r - a) * (r + a) * cth2) denom2
  ![![Robust.ratio small (-a6 + 2 * r6 + a2 * r3 * r3m4 + a2 * (-a4 - 2 * a2 * r2 + (4 - r) * r3) * c2th) denom2, 0, 0, g03],
    ![0, 2 * Robust.ratio small (r * (r - a2) + a2 * (r - 1) * cth2) denom1, 0, 0],
    ![0, 0, -Robust.ratio small (2 * r) denom1, 0],
    ![g03, 0, 0, Robust.ratio small (2 * r2 * (a2 - rm2 * rm2 * r) - 2 * a2 * (a2 + r2 * (2 * r - 3)) * cth2 - 2 * a4 * (r - 1) * cth4)
      (denom2 * sth2)]]

/-- the derivatives by `theta` of the same components, boyer_lindquist.hpp:217-235. -/
noncomputable def blDth (small a r th : ℝ) : Fin 4 → Fin 4 → ℝ :=
  let c2th := cos (2 * th)
  let s2th := sin (2 * th)
  let cth := cos th
  let sth := sin th
  let sth2 := sth * sth
  let a2 := a * a
  let a3 := a2 * a
  let a4 := a3 * a
  let r2 := r * r
  let r3 := r2 * r
  let rm2 := r - 2
  let cd := r2 + a2 * (cth * cth)
  let denom1 := cd * cd
  let d2 := (a2 + r * (r - 2)) * cd
  let denom2 := d2 * d2
  let a2pr2 := a2 + r2
  let num := -a2pr2 * cth * (3 * a4 + 8 * a2 * r2 + 8 * rm2 * r3 + 4 * a2 * (a2 + 2 * rm2 * r) * c2th + a4 * cos (4 * th)) * sth
  let den0 := (a2 + 2 * r2 + a2 * c2th) * sth2
  let den := den0 * den0 * ((a2 + rm2 * r) * a2pr2)
  let g03 := -Robust.ratio small (4 * a3 * r * cth * sth) denom2
  ![![-Robust.ratio small (4 * a2 * r * (a2 + r2) * cth * sth) denom2, 0, 0, g03],
    ![0, Robust.ratio small (a2 * (a2 + r * (r - 2)) * s2th) denom1, 0, 0],
    ![0, 0, Robust.ratio small (a2 * s2th) denom1, 0],
    ![g03, 0, 0, Robust.ratio small num den]]

/-- **C34 fails for Boyer-Lindquist**: without spin the square root of the determinant of the 3-metric is returned as its reciprocal, at every point outside the
horizon and off the axis. -/
theorem boyerLindquist_detGamma_reciprocal (th : ℝ) {r : ℝ} (hr : 2 < r) (hs : sin th ≠ 0) :
    blDetGamma 0 0 r th * √(blG 0 0 r th 1 1 * blG 0 0 r th 2 2 * blG 0 0 r th 3 3) = 1 := by
  have hr0 : (0:ℝ) < r := by linarith
  have hr2 : 0 < r - 2 := by linarith
  have hss : 0 < sin th * sin th := mul_self_pos.2 hs
  unfold blDetGamma
  rw [← sqrt_mul (abs_nonneg _), ← sqrt_one]
  congr 1
  have hDD : blDD 0 0 r = (r - 2) / r := by simp [blDD, ratio_zero]; field_simp
  have hmu : blMu 0 0 r th = 1 := by simp [blMu, ratio_zero]
  simp only [blG, hDD, hmu, ratio_zero]
  rw [abs_of_pos (by apply div_pos <;> [linarith; positivity])]
  simp
  field_simp

/-- **C34 fails for Boyer-Lindquist**: without spin the array returned as inverse 3-metric is the 3-metric itself. -/
theorem boyerLindquist_gamInv_swapped (th : ℝ) {r : ℝ} (hr : 2 < r) :
    blGamInv 0 0 r th 0 0 = blG 0 0 r th 1 1 ∧ blGamInv 0 0 r th 1 1 = blG 0 0 r th 2 2 ∧ blShift 0 0 r th = 0 ∧
    blGamInv 0 0 r th 2 2 = blG 0 0 r th 3 3 := by
  have hr0 : (0:ℝ) < r := by linarith
  have hr2 : 0 < r - 2 := by linarith
  have hDD : blDD 0 0 r = (r - 2) / r := by simp [blDD, ratio_zero]; field_simp
  have hmu : blMu 0 0 r th = 1 := by simp [blMu, ratio_zero]
  refine ⟨?_, ?_, ?_, ?_⟩
  · simp [blGamInv, blG, ratio_zero]
  · simp [blGamInv, blG]
  · simp [blShift, ratio_zero]
  · simp [blGamInv, blG, hDD, hmu, blShift, ratio_zero]
    have e : r * r * (-4 + r * (2 + (r - 2) / r * (r - 2))) = r * r * (r * (r - 2)) + r * r * (2 * (r - 2)) - r * r * (2 * (r - 2)) := by
      field_simp; ring
    rw [e]
    field_simp
    ring_nf
    field_simp

/-- **C35 fails for Boyer-Lindquist**: the `rr` and `thth` entries of the returned metric derivatives are the derivatives of the *inverse* metric (of
`1 / g_rr` and `1 / g_thth`), at every spin, radius and angle where these are defined. -/
theorem boyerLindquist_derivative_of_inverse (a th : ℝ) {r : ℝ} (hr : 0 < r) (hd : r ^ 2 - 2 * r + a ^ 2 ≠ 0) :
    HasDerivAt (fun x => (x ^ 2 - 2 * x + a ^ 2) / rho2 a x (cos th)) (blDr 0 a r th 1 1) r ∧
    HasDerivAt (fun x => 1 / rho2 a x (cos th)) (blDr 0 a r th 2 2) r ∧
    HasDerivAt (fun t => (r ^ 2 - 2 * r + a ^ 2) / rho2 a r (cos t)) (blDth 0 a r th 1 1) th ∧
    HasDerivAt (fun t => 1 / rho2 a r (cos t)) (blDth 0 a r th 2 2) th ∧
    (r ^ 2 - 2 * r + a ^ 2) / rho2 a r (cos th) * blG 0 a r th 1 1 = 1 ∧ 1 / rho2 a r (cos th) * blG 0 a r th 2 2 = 1 := by
  have hp := rho2_pos a (cos th) hr
  have hne := hp.ne'
  obtain ⟨_, h11, h22, _, _⟩ := boyerLindquist_metric a th hr hd
  have hrr := hasDerivAt_rho2_r a r (cos th)
  have hth := hasDerivAt_rho2_th a r th
  have hD : HasDerivAt (fun x : ℝ => x ^ 2 - 2 * x + a ^ 2) (2 * r - 2) r :=
    (((hasDerivAt_pow 2 r).sub ((hasDerivAt_id r).const_mul 2)).add_const (a ^ 2)).congr_deriv (by simp)
  have hS : r ^ 2 + a ^ 2 * cos th ^ 2 ≠ 0 := by intro h; apply hne; unfold rho2; linarith
  have hR : rho2 a r (cos th) = r ^ 2 + a ^ 2 * cos th ^ 2 := by unfold rho2; ring
  have e0 : r * r + a * a * (cos th * cos th) = r ^ 2 + a ^ 2 * cos th ^ 2 := by ring
  refine ⟨(hD.div hrr hne).congr_deriv ?_, ((hasDerivAt_const r (1:ℝ)).div hrr hne).congr_deriv ?_,
    ((hasDerivAt_const th (r ^ 2 - 2 * r + a ^ 2)).div hth hne).congr_deriv ?_, ((hasDerivAt_const th (1:ℝ)).div hth hne).congr_deriv ?_, ?_, ?_⟩
  · simp [blDr, ratio_zero]
    rw [hR, e0]; field_simp; ring
  · simp [blDr, ratio_zero]
    rw [hR, e0]; field_simp
  · simp [blDth, ratio_zero, sin_two_mul]
    rw [hR, e0]; field_simp; ring
  · simp [blDth, ratio_zero, sin_two_mul]
    rw [hR, e0]; field_simp
  · rw [h11]; exact div_mul_div_cancel₀' hd _ _ |>.trans (div_self hne)
  · rw [h22]; exact one_div_mul_cancel hne

/-- hence they are never the derivatives of the metric (radial derivative of `g_thth`). -/
theorem boyerLindquist_derivative_wrong (a th : ℝ) {r : ℝ} (hr : 0 < r) :
    ¬ HasDerivAt (fun x => rho2 a x (cos th)) (blDr 0 a r th 2 2) r := by
  intro h
  have hp := rho2_pos a (cos th) hr
  have hrr := hasDerivAt_rho2_r a r (cos th)
  have := h.unique hrr
  simp [blDr, ratio_zero] at this
  have hq : 0 < r * r + a * a * (cos th * cos th) := by nlinarith [mul_self_nonneg (a * cos th), mul_pos hr hr]
  have h2 : 0 ≤ 2 * r / ((r * r + a * a * (cos th * cos th)) * (r * r + a * a * (cos th * cos th))) := by positivity
  linarith

/-- without spin all of them are: the arrays are the derivatives of `-1/(1-2/r)`, `1-2/r`, `1/r^2`, `1/(r sin)^2`. -/
theorem boyerLindquist_derivative_schwarzschild (th : ℝ) {r : ℝ} (hr : 2 < r) (hs : sin th ≠ 0) :
    HasDerivAt (fun x => -(1 / (1 - 2 / x))) (blDr 0 0 r th 0 0) r ∧
    HasDerivAt (fun x => 1 / (x * sin th) ^ 2) (blDr 0 0 r th 3 3) r ∧
    HasDerivAt (fun t => 1 / (r * sin t) ^ 2) (blDth 0 0 r th 3 3) th ∧
    blDr 0 0 r th 0 3 = 0 ∧ blDth 0 0 r th 0 3 = 0 ∧ blDth 0 0 r th 0 0 = 0 := by
  have hr0 : r ≠ 0 := by linarith
  have hr2 : r - 2 ≠ 0 := by linarith
  have h1 : (1 - 2 / r) ≠ 0 := by rw [sub_ne_zero]; intro h; apply hr2; field_simp at h; linarith
  have hx1 : HasDerivAt (fun x : ℝ => 1 - 2 / x) (2 / r ^ 2) r :=
    (((hasDerivAt_const r (2:ℝ)).div (hasDerivAt_id r) hr0).const_sub 1).congr_deriv (by simp; ring)
  have hx2 : HasDerivAt (fun x : ℝ => (x * sin th) ^ 2) (2 * (r * sin th) * sin th) r :=
    (((hasDerivAt_id r).mul_const (sin th)).pow 2).congr_deriv (by simp)
  have hx3 : HasDerivAt (fun t : ℝ => (r * sin t) ^ 2) (2 * (r * sin th) * (r * cos th)) th :=
    (((hasDerivAt_sin th).const_mul r).pow 2).congr_deriv (by simp)
  have hn : (r * sin th) ^ 2 ≠ 0 := pow_ne_zero 2 (mul_ne_zero hr0 hs)
  refine ⟨(((hasDerivAt_const r (1:ℝ)).div hx1 h1).neg).congr_deriv ?_, ((hasDerivAt_const r (1:ℝ)).div hx2 hn).congr_deriv ?_,
    ((hasDerivAt_const th (1:ℝ)).div hx3 hn).congr_deriv ?_, ?_, ?_, ?_⟩
  · simp [blDr, ratio_zero]
    field_simp
  · simp [blDr, ratio_zero]
    field_simp
  · simp [blDth, ratio_zero]
    field_simp
    ring
  · simp [blDr]
  · simp [blDth, ratio_zero]
  · simp [blDth, ratio_zero]

end Phoebus.Metrics
