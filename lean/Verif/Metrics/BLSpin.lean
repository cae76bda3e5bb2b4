import Verif.Metrics.BL

/-! # Boyer-Lindquist at any spin: what the shift, the inverse 3-metric, the volume elements and the metric derivatives return -/
namespace Phoebus.Metrics
open Real Robust

private theorem ratio_zero (a b : ℝ) : Robust.ratio 0 a b = a / b := by simp [Robust.ratio]

/-- the contravariant Kerr metric in Boyer-Lindquist coordinates, components `tt`, `tφ`, `φφ` (textbook form). -/
noncomputable def kerrInvTT (a r th : ℝ) : ℝ :=
  -(((r ^ 2 + a ^ 2) ^ 2 - a ^ 2 * (r ^ 2 - 2 * r + a ^ 2) * (1 - cos th ^ 2)) / ((r ^ 2 + a ^ 2 * cos th ^ 2) * (r ^ 2 - 2 * r + a ^ 2)))
noncomputable def kerrInvTP (a r th : ℝ) : ℝ := -(2 * a * r / ((r ^ 2 + a ^ 2 * cos th ^ 2) * (r ^ 2 - 2 * r + a ^ 2)))
noncomputable def kerrInvPP (a r th : ℝ) : ℝ :=
  (r ^ 2 - 2 * r + a ^ 2 * cos th ^ 2) / ((r ^ 2 + a ^ 2 * cos th ^ 2) * (r ^ 2 - 2 * r + a ^ 2) * (1 - cos th ^ 2))

/-- they are the inverse of the covariant metric the module returns. -/
theorem kerrInv_inverse (a th : ℝ) {r : ℝ} (hr : 0 < r) (hd : r ^ 2 - 2 * r + a ^ 2 ≠ 0) (hs : sin th ≠ 0) :
    blG 0 a r th 0 0 * kerrInvTT a r th + blG 0 a r th 0 3 * kerrInvTP a r th = 1 ∧
    blG 0 a r th 0 0 * kerrInvTP a r th + blG 0 a r th 0 3 * kerrInvPP a r th = 0 ∧
    blG 0 a r th 3 0 * kerrInvTT a r th + blG 0 a r th 3 3 * kerrInvTP a r th = 0 ∧
    blG 0 a r th 3 0 * kerrInvTP a r th + blG 0 a r th 3 3 * kerrInvPP a r th = 1 := by
  have hp : r ^ 2 + a ^ 2 * cos th ^ 2 ≠ 0 := by positivity
  have hs2 : 1 - cos th ^ 2 ≠ 0 := by rw [← sin_sq]; exact pow_ne_zero 2 hs
  have hmu : blMu 0 a r th = (r ^ 2 + a ^ 2 * cos th ^ 2) / (r * r) := by unfold blMu; rw [ratio_zero]; field_simp
  have hs3 : sin th * sin th = 1 - cos th ^ 2 := by rw [← sin_sq]; ring
  have hr' := hr.ne'
  have hd1 : r * (r - 2) + a ^ 2 ≠ 0 := by intro h; apply hd; linarith
  refine ⟨?_, ?_, ?_, ?_⟩ <;>
  · simp [blG, hmu, ratio_zero, kerrInvTT, kerrInvTP, kerrInvPP, hs3]
    field_simp
    ring

/-- **C34 fails for Boyer-Lindquist** at any spin: the shift returned is `-g_{tφ} / g_{tt}`, i.e. covariant components in the place of contravariant ones; the volume
element of the spacetime is too small by the square of what it should be: `DetGamma^2 = |Σ - 2r| / (Σ^3 sin^2 θ)`; the last entry of the inverse 3-metric is
`g_φφ + β^2/α^2`. -/
theorem boyerLindquist_spin_arrays (a th : ℝ) {r : ℝ} (hr : 0 < r) (hd : r ^ 2 - 2 * r + a ^ 2 ≠ 0) (hm : rho2 a r (cos th) - 2 * r ≠ 0) :
    blShift 0 a r th = -(blG 0 a r th 0 3 / blG 0 a r th 0 0) ∧
    blDetGamma 0 a r th ^ 2 = |rho2 a r (cos th) - 2 * r| / (rho2 a r (cos th) ^ 3 * sin th ^ 2) ∧
    blGamInv 0 a r th 0 0 = blG 0 a r th 1 1 ∧ blGamInv 0 a r th 1 1 = blG 0 a r th 2 2 ∧
    blGamInv 0 a r th 2 2 = blGInv 0 a r th 3 3 + blShift 0 a r th ^ 2 / blLapse 0 a r th ^ 2 ∧
    blDetG 0 a r th ^ 2 = blLapse 0 a r th ^ 2 * (|rho2 a r (cos th) - 2 * r| / (rho2 a r (cos th) ^ 3 * sin th ^ 2)) ∧ 0 ≤ blDetG 0 a r th ∧
    0 ≤ blDetGamma 0 a r th := by
  have hp := rho2_pos a (cos th) hr
  have hr' := hr.ne'
  obtain ⟨_, h11, h22, h00, h03⟩ := boyerLindquist_metric a th hr hd
  have hmu : blMu 0 a r th = rho2 a r (cos th) / (r * r) := by unfold blMu rho2; rw [ratio_zero]; field_simp
  have hdg : blDetGamma 0 a r th ^ 2 = |rho2 a r (cos th) - 2 * r| / (rho2 a r (cos th) ^ 3 * sin th ^ 2) := by
    unfold blDetGamma
    simp only [hmu, ratio_zero]
    rw [sq_sqrt (abs_nonneg _), abs_div]
    have e1 : r * (rho2 a r (cos th) / (r * r)) - 2 = (rho2 a r (cos th) - 2 * r) / r := by field_simp
    have e2 : r * r * (r * r * r) * (rho2 a r (cos th) / (r * r) * (rho2 a r (cos th) / (r * r)) * (rho2 a r (cos th) / (r * r))) * (sin th * sin th)
        = rho2 a r (cos th) ^ 3 * sin th ^ 2 / r := by field_simp
    have hq : 0 ≤ rho2 a r (cos th) ^ 3 * sin th ^ 2 / r := div_nonneg (mul_nonneg (pow_nonneg hp.le 3) (sq_nonneg _)) hr.le
    rw [e1, e2, abs_div, abs_of_pos hr, abs_of_nonneg hq]
    rw [div_div_div_cancel_right₀ hr']
  refine ⟨?_, hdg, ?_, ?_, ?_, ?_, ?_, ?_⟩
  · rw [h00, h03]
    have e : (r - 2) * r + a * a * cos th * cos th = rho2 a r (cos th) - 2 * r := by unfold rho2; ring
    unfold blShift
    rw [ratio_zero, e]
    have h1 : 1 - 2 * r / rho2 a r (cos th) = (rho2 a r (cos th) - 2 * r) / rho2 a r (cos th) := by field_simp
    rw [h1]
    field_simp
  · rw [h11]
    have := (boyerLindquist_arrays a th hr hd).2.2.2.2.1
    rw [← this]; simp [blGamInv, blGInv]
  · rw [h22]
    have := (boyerLindquist_arrays a th hr hd).2.2.2.2.2.1
    rw [← this]; simp [blGamInv, blGInv]
  · simp [blGamInv, blGInv, ratio_zero]; ring
  · unfold blDetG; rw [mul_pow, hdg]
  · unfold blDetG blLapse blDetGamma; positivity
  · unfold blDetGamma; positivity

/-- **C35 fails for Boyer-Lindquist** at any spin: the radial derivatives of the remaining components, and the angular derivative of the `φφ` component, are those of the
*contravariant* metric. -/
theorem boyerLindquist_spin_derivative (a th : ℝ) {r : ℝ} (hr : 0 < r) (hd : r ^ 2 - 2 * r + a ^ 2 ≠ 0) (hs : sin th ≠ 0) :
    HasDerivAt (fun x => kerrInvTT a x th) (blDr 0 a r th 0 0) r ∧ HasDerivAt (fun x => kerrInvTP a x th) (blDr 0 a r th 0 3) r ∧
    HasDerivAt (fun x => kerrInvPP a x th) (blDr 0 a r th 3 3) r ∧ blDr 0 a r th 3 0 = blDr 0 a r th 0 3 := by
  have hp : r ^ 2 + a ^ 2 * cos th ^ 2 ≠ 0 := by positivity
  have hs2 : 1 - cos th ^ 2 ≠ 0 := by rw [← sin_sq]; exact pow_ne_zero 2 hs
  have hs3 : sin th * sin th = 1 - cos th ^ 2 := by rw [← sin_sq]; ring
  have hD : HasDerivAt (fun x : ℝ => x ^ 2 - 2 * x + a ^ 2) (2 * r - 2) r :=
    (((hasDerivAt_pow 2 r).sub ((hasDerivAt_id r).const_mul 2)).add_const (a ^ 2)).congr_deriv (by simp)
  have hD' : HasDerivAt (fun x : ℝ => x ^ 2 - 2 * x + a ^ 2 * cos th ^ 2) (2 * r - 2) r :=
    (((hasDerivAt_pow 2 r).sub ((hasDerivAt_id r).const_mul 2)).add_const _).congr_deriv (by simp)
  have hS : HasDerivAt (fun x : ℝ => x ^ 2 + a ^ 2 * cos th ^ 2) (2 * r) r := ((hasDerivAt_pow 2 r).add_const _).congr_deriv (by simp)
  have hA : HasDerivAt (fun x : ℝ => (x ^ 2 + a ^ 2) ^ 2) (2 * (r ^ 2 + a ^ 2) * (2 * r)) r :=
    (((hasDerivAt_pow 2 r).add_const (a ^ 2)).pow 2).congr_deriv (by simp)
  have hd1 : a * a + r * (r - 2) ≠ 0 := by intro h; apply hd; linarith
  have hp1 : r * r + a * a * (cos th * cos th) ≠ 0 := by intro h; apply hp; linarith
  refine ⟨?_, ?_, ?_, ?_⟩
  · refine (((hA.sub (((hD.const_mul (a ^ 2)).mul_const (1 - cos th ^ 2)))).div (hS.mul hD) (mul_ne_zero hp hd)).neg).congr_deriv ?_
    simp [blDr, ratio_zero, cos_two_mul]
    rw [show a * a + r * (r - 2) = r ^ 2 - 2 * r + a ^ 2 by ring, show r * r + a * a * (cos th * cos th) = r ^ 2 + a ^ 2 * cos th ^ 2 by ring]
    field_simp
    ring
  · refine ((((hasDerivAt_id r).const_mul (2 * a)).div (hS.mul hD) (mul_ne_zero hp hd)).neg).congr_deriv ?_
    simp [blDr, ratio_zero]
    rw [show a * a + r * (r - 2) = r ^ 2 - 2 * r + a ^ 2 by ring, show r * r + a * a * (cos th * cos th) = r ^ 2 + a ^ 2 * cos th ^ 2 by ring]
    field_simp
    ring
  · refine ((hD'.div ((hS.mul hD).mul_const (1 - cos th ^ 2)) (mul_ne_zero (mul_ne_zero hp hd) hs2))).congr_deriv ?_
    simp [blDr, ratio_zero, hs3]
    rw [show a * a + r * (r - 2) = r ^ 2 - 2 * r + a ^ 2 by ring, show r * r + a * a * (cos th * cos th) = r ^ 2 + a ^ 2 * cos th ^ 2 by ring]
    field_simp
    ring
  · simp [blDr]

/-- the angular derivatives of the `tt` and `tφ` components are those of the contravariant metric divided by `Δ` once more than they should be. -/
theorem boyerLindquist_spin_angular (a th : ℝ) {r : ℝ} (hr : 0 < r) (hd : r ^ 2 - 2 * r + a ^ 2 ≠ 0) (hs : sin th ≠ 0) :
    HasDerivAt (fun t => kerrInvTT a r t) ((r ^ 2 - 2 * r + a ^ 2) * blDth 0 a r th 0 0) th ∧
    HasDerivAt (fun t => kerrInvTP a r t) ((r ^ 2 - 2 * r + a ^ 2) * blDth 0 a r th 0 3) th ∧
    HasDerivAt (fun t => kerrInvPP a r t) (blDth 0 a r th 3 3) th ∧ blDth 0 a r th 3 0 = blDth 0 a r th 0 3 := by
  have hp : r ^ 2 + a ^ 2 * cos th ^ 2 ≠ 0 := by positivity
  have hs2 : 1 - cos th ^ 2 ≠ 0 := by rw [← sin_sq]; exact pow_ne_zero 2 hs
  have hs3 : sin th * sin th = 1 - cos th ^ 2 := by rw [← sin_sq]; ring
  have hc : HasDerivAt (fun t : ℝ => cos t ^ 2) (-(2 * cos th * sin th)) th := ((hasDerivAt_cos th).pow 2).congr_deriv (by simp)
  have hS : HasDerivAt (fun t : ℝ => r ^ 2 + a ^ 2 * cos t ^ 2) (a ^ 2 * -(2 * cos th * sin th)) th := (hc.const_mul (a ^ 2)).const_add _
  have hQ : HasDerivAt (fun t : ℝ => 1 - cos t ^ 2) (2 * cos th * sin th) th := (hc.const_sub 1).congr_deriv (by ring)
  have hE : HasDerivAt (fun t : ℝ => r ^ 2 - 2 * r + a ^ 2 * cos t ^ 2) (a ^ 2 * -(2 * cos th * sin th)) th := (hc.const_mul (a ^ 2)).const_add _
  have hA : a ^ 2 + r ^ 2 ≠ 0 := by positivity
  refine ⟨?_, ?_, ?_, ?_⟩
  · refine ((((hQ.const_mul (a ^ 2 * (r ^ 2 - 2 * r + a ^ 2))).const_sub ((r ^ 2 + a ^ 2) ^ 2)).div (hS.mul_const (r ^ 2 - 2 * r + a ^ 2)) (mul_ne_zero hp hd)).neg).congr_deriv ?_
    simp [blDth, ratio_zero]
    rw [show a * a + r * (r - 2) = r ^ 2 - 2 * r + a ^ 2 by ring, show r * r + a * a * (cos th * cos th) = r ^ 2 + a ^ 2 * cos th ^ 2 by ring]
    field_simp
    ring
  · refine (((hasDerivAt_const th (2 * a * r)).div (hS.mul_const (r ^ 2 - 2 * r + a ^ 2)) (mul_ne_zero hp hd)).neg).congr_deriv ?_
    simp [blDth, ratio_zero]
    rw [show a * a + r * (r - 2) = r ^ 2 - 2 * r + a ^ 2 by ring, show r * r + a * a * (cos th * cos th) = r ^ 2 + a ^ 2 * cos th ^ 2 by ring]
    field_simp
    ring
  · refine (hE.div ((hS.mul_const (r ^ 2 - 2 * r + a ^ 2)).mul hQ) (mul_ne_zero (mul_ne_zero hp hd) hs2)).congr_deriv ?_
    have h4 : cos (4 * th) = 2 * (2 * cos th ^ 2 - 1) ^ 2 - 1 := by rw [show 4 * th = 2 * (2 * th) by ring, cos_two_mul, cos_two_mul]
    simp [blDth, ratio_zero, cos_two_mul, hs3, h4]
    rw [show a * a + (r - 2) * r = r ^ 2 - 2 * r + a ^ 2 by ring,
      show a * a + 2 * (r * r) + a * a * (2 * cos th ^ 2 - 1) = 2 * (r ^ 2 + a ^ 2 * cos th ^ 2) by ring, show a * a + r * r = a ^ 2 + r ^ 2 by ring]
    field_simp
    ring
  · simp [blDth]

/-- so with spin, off the equator and the axis, and `Δ ≠ 1`, they are derivatives of neither. -/
theorem boyerLindquist_angular_wrong (a th : ℝ) {r : ℝ} (hr : 0 < r) (hd : r ^ 2 - 2 * r + a ^ 2 ≠ 0) (h1 : r ^ 2 - 2 * r + a ^ 2 ≠ 1) (ha : a ≠ 0)
    (hs : sin th ≠ 0) (hc : cos th ≠ 0) : ¬ HasDerivAt (fun t => kerrInvTT a r t) (blDth 0 a r th 0 0) th := by
  intro h
  have e := h.unique (boyerLindquist_spin_angular a th hr hd hs).1
  have hp : r ^ 2 + a ^ 2 * cos th ^ 2 ≠ 0 := by positivity
  have hne : blDth 0 a r th 0 0 ≠ 0 := by
    simp only [blDth, ratio_zero, Matrix.cons_val_zero]
    rw [show a * a + r * (r - 2) = r ^ 2 - 2 * r + a ^ 2 by ring, show r * r + a * a * (cos th * cos th) = r ^ 2 + a ^ 2 * cos th ^ 2 by ring]
    have hn : 4 * (a * a) * r * (a * a + r * r) * cos th * sin th ≠ 0 := by
      have : a * a + r * r ≠ 0 := by nlinarith [mul_self_nonneg a, mul_pos hr hr]
      simp [ha, hr.ne', hs, hc, this]
    exact neg_ne_zero.2 (div_ne_zero hn (mul_ne_zero (mul_ne_zero hd hp) (mul_ne_zero hd hp)))
  apply h1
  have : (r ^ 2 - 2 * r + a ^ 2 - 1) * blDth 0 a r th 0 0 = 0 := by linarith
  rcases mul_eq_zero.1 this with h | h
  · linarith
  · exact absurd h hne

/-- the hypotheses are met at spin 1/2, radius 3, angle 1. -/
example : (3:ℝ) ^ 2 - 2 * 3 + (1 / 2 : ℝ) ^ 2 ≠ 0 ∧ (3:ℝ) ^ 2 - 2 * 3 + (1 / 2 : ℝ) ^ 2 ≠ 1 ∧ sin 1 ≠ 0 ∧ cos 1 ≠ 0 ∧ rho2 (1/2) 3 (cos 1) - 2 * 3 ≠ 0 := by
  refine ⟨by norm_num, by norm_num, (sin_pos_of_pos_of_lt_pi one_pos (by linarith [Real.two_le_pi])).ne', Real.cos_one_pos.ne', ?_⟩
  unfold rho2; nlinarith [mul_self_nonneg (cos 1)]

end Phoebus.Metrics
