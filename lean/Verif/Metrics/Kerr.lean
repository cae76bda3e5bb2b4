import Verif.Metrics.Flat

/-! # C33-C35 for spherical Kerr-Schild, and what Boyer-Lindquist gets wrong -/
namespace Phoebus.Metrics
open Finset Geom Real

private theorem ratio_zero (a b : ℝ) : Robust.ratio 0 a b = a / b := by simp [Robust.ratio]

theorem rho2_pos (a : ℝ) {r : ℝ} (c : ℝ) (hr : 0 < r) : 0 < rho2 a r c := by
  unfold rho2; nlinarith [mul_self_nonneg (a * c), mul_pos hr hr]

theorem hasDerivAt_rho2_r (a r c : ℝ) : HasDerivAt (fun t => rho2 a t c) (2 * r) r := by
  unfold rho2
  exact (((hasDerivAt_id r).mul (hasDerivAt_id r)).add_const (a * a * c * c)).congr_deriv (by simp; ring)

theorem hasDerivAt_rho2_th (a r th : ℝ) :
    HasDerivAt (fun t => rho2 a r (cos t)) (-(2 * (a * a) * cos th * sin th)) th := by
  unfold rho2
  have h := hasDerivAt_cos th
  exact (((h.const_mul (a * a)).mul h).const_add (r * r)).congr_deriv (by ring)

/-- `∂_r (2r/ρ²)` -/
theorem hasDerivAt_B_r (a c : ℝ) {r : ℝ} (hr : 0 < r) :
    HasDerivAt (fun t => 2 * t / rho2 a t c) (2 * ((rho2 a r c - 2 * (r * r)) / (rho2 a r c * rho2 a r c))) r := by
  have hp := rho2_pos a c hr
  have h1 : HasDerivAt (fun t : ℝ => 2 * t) 2 r := ((hasDerivAt_id r).const_mul 2).congr_deriv (by simp)
  exact (h1.div (hasDerivAt_rho2_r a r c) hp.ne').congr_deriv (by field_simp)

/-- `∂_θ (2r/ρ²)` -/
theorem hasDerivAt_B_th (a th : ℝ) {r : ℝ} (hr : 0 < r) :
    HasDerivAt (fun t => 2 * r / rho2 a r (cos t))
      (4 * r * (a * a) * cos th * sin th / (rho2 a r (cos th) * rho2 a r (cos th))) th := by
  have hp := rho2_pos a (cos th) hr
  exact ((hasDerivAt_const th (2 * r)).div (hasDerivAt_rho2_th a r th) hp.ne').congr_deriv (by field_simp; ring)

theorem hasDerivAt_s2 (th : ℝ) : HasDerivAt (fun t => sin t * sin t) (2 * sin th * cos th) th :=
  ((hasDerivAt_sin th).mul (hasDerivAt_sin th)).congr_deriv (by ring)

/-- the Kerr-Schild metric derivative is the radial derivative of the metric. -/
theorem ks_deriv_r (a th : ℝ) {r : ℝ} (hr : 0 < r) (m n : Fin 4) :
    HasDerivAt (fun t => ksG 0 a t th m n) (ksDg 0 a r th m n 1) r := by
  have hp := rho2_pos a (cos th) hr
  have hne := hp.ne'
  have hB := hasDerivAt_B_r a (cos th) hr
  have hR := hasDerivAt_rho2_r a r (cos th)
  have h03 : HasDerivAt (fun t => -(2 * a * t * (sin th * sin th) / rho2 a t (cos th)))
      (2 * a * (r * r - a * a * (cos th * cos th)) * (sin th * sin th) / (rho2 a r (cos th) * rho2 a r (cos th))) r := by
    have h := (hB.const_mul (-(a * (sin th * sin th))))
    have e : (fun t => -(2 * a * t * (sin th * sin th) / rho2 a t (cos th)))
        = fun t => -(a * (sin th * sin th)) * (2 * t / rho2 a t (cos th)) := by funext t; ring
    rw [e]
    refine h.congr_deriv ?_
    field_simp; unfold rho2; ring
  have h13 : HasDerivAt (fun t => -(a * (1 + 2 * t / rho2 a t (cos th)) * (sin th * sin th)))
      (2 * a * (r * r - a * a * (cos th * cos th)) * (sin th * sin th) / (rho2 a r (cos th) * rho2 a r (cos th))) r := by
    have h := ((hB.const_add 1).const_mul (-(a * (sin th * sin th))))
    have e : (fun t => -(a * (1 + 2 * t / rho2 a t (cos th)) * (sin th * sin th)))
        = fun t => -(a * (sin th * sin th)) * (1 + 2 * t / rho2 a t (cos th)) := by funext t; ring
    rw [e]
    refine h.congr_deriv ?_
    field_simp; unfold rho2; ring
  have h33 : HasDerivAt (fun t => (rho2 a t (cos th) + a * a * (1 + 2 * t / rho2 a t (cos th)) * (sin th * sin th)) * (sin th * sin th))
      (2 * (sin th * sin th) * (r * r * (r * r) * r + a * a * (a * a) * r * (cos th * cos th) * (cos th * cos th) - a * a * (r * r) * (sin th * sin th) +
        cos th * cos th * (2 * (a * a) * (r * r * r) + a * a * (a * a) * (sin th * sin th))) / (rho2 a r (cos th) * rho2 a r (cos th))) r := by
    refine ((hR.add (((hB.const_add 1).const_mul (a * a)).mul_const (sin th * sin th))).mul_const (sin th * sin th)).congr_deriv ?_
    field_simp; unfold rho2; ring
  fin_cases m <;> fin_cases n <;> simp [ksG, ksDg, ratio_zero] <;>
    first
      | exact hasDerivAt_const _ _ | exact hR | exact hB | exact h03 | exact h13 | exact h33

/-- the Kerr-Schild metric derivative is the polar derivative of the metric. -/
theorem ks_deriv_th (a th : ℝ) {r : ℝ} (hr : 0 < r) (m n : Fin 4) :
    HasDerivAt (fun t => ksG 0 a r t m n) (ksDg 0 a r th m n 2) th := by
  have hp := rho2_pos a (cos th) hr
  have hne := hp.ne'
  have hB0 := hasDerivAt_B_th a th hr
  have hR := hasDerivAt_rho2_th a r th
  have hS := hasDerivAt_s2 th
  have hsc := sin_sq_add_cos_sq th
  have hB : HasDerivAt (fun t => 2 * r / rho2 a r (cos t))
      (4 * r * (rho2 a r (cos th) - r * r) * sin th / (rho2 a r (cos th) * rho2 a r (cos th) * cos th)) th := by
    refine hB0.congr_deriv ?_
    rcases eq_or_ne (cos th) 0 with h | h
    · simp [h]
    · field_simp; unfold rho2; ring
  have h22 : HasDerivAt (fun t => rho2 a r (cos t)) (-(a * a * sin (2 * th))) th := by
    refine hR.congr_deriv ?_
    rw [sin_two_mul]; ring
  have h03 : HasDerivAt (fun t => -(2 * a * r * (sin t * sin t) / rho2 a r (cos t)))
      (-(2 * a * r * (a * a + r * r) * sin (2 * th) / (rho2 a r (cos th) * rho2 a r (cos th)))) th := by
    refine (((hS.const_mul (2 * a * r)).div hR hne).neg).congr_deriv ?_
    rw [sin_two_mul]
    field_simp
    unfold rho2
    linear_combination (-(a ^ 3 * sin th * cos th)) * hsc
  have h13 : HasDerivAt (fun t => -(a * (1 + 2 * r / rho2 a r (cos t)) * (sin t * sin t)))
      (-(2 * a * cos th * (r * r * r * (2 + r) + a * a * (a * a) * (cos th * cos th) * (cos th * cos th)
        + a * a * r * (2 + r + r * cos (2 * th))) * sin th / (rho2 a r (cos th) * rho2 a r (cos th)))) th := by
    refine ((((hB0.const_add 1).const_mul a).mul hS).neg).congr_deriv ?_
    rw [cos_two_mul]
    field_simp
    unfold rho2
    linear_combination (-(4 * a ^ 3 * r * cos th * sin th)) * hsc
  have h33 : HasDerivAt (fun t => (rho2 a r (cos t) + a * a * (1 + 2 * r / rho2 a r (cos t)) * (sin t * sin t)) * (sin t * sin t))
      ((a * a + r * (r - 2) + 2 * r * (a * a + r * r) * (a * a + r * r) / (rho2 a r (cos th) * rho2 a r (cos th))) * sin (2 * th)) th := by
    refine ((hR.add (((hB0.const_add 1).const_mul (a * a)).mul hS)).mul hS).congr_deriv ?_
    simp only [Pi.add_apply, Pi.mul_apply]
    rw [sin_two_mul]
    field_simp
    have hc2 : cos th * cos th = 1 - sin th ^ 2 := by linarith
    unfold rho2
    rw [show a * a * cos th * cos th = a * a * (cos th * cos th) by ring, hc2]
    ring
  fin_cases m <;> fin_cases n <;> simp [ksG, ksDg, ratio_zero] <;>
    first
      | exact hasDerivAt_const _ _ | exact h22 | exact hB | exact h03 | exact h13 | exact h33

/-- the arrays of Kerr-Schild with the abbreviations `r`, `R = ρ²`, `S = sin²θ` made explicit. -/
theorem ks_arrays (a : ℝ) (X : Fin 4 → ℝ) (hr : 0 < X 1) :
    let r := X 1
    let R := rho2 a (X 1) (cos (X 2))
    let S := sin (X 2) * sin (X 2)
    (kerrSchild 0 a).g X = ![![-1 + 2 * r / R, 2 * r / R, 0, -(2 * a * r * S / R)],
        ![2 * r / R, 1 + 2 * r / R, 0, -a * (1 + 2 * r / R) * S], ![0, 0, R, 0],
        ![-(2 * a * r * S / R), -a * (1 + 2 * r / R) * S, 0, (R + a * a * (1 + 2 * r / R) * S) * S]] ∧
    (kerrSchild 0 a).gInv X = ![![-1 - 2 * r / R, 2 * r / R, 0, 0], ![2 * r / R, (-2 * r + R + a * a * S) / R, 0, a / R],
        ![0, 0, 1 / R, 0], ![0, a / R, 0, 1 / (R * S)]] ∧
    (kerrSchild 0 a).gam X = ![![1 + 2 * r / R, 0, -a * (1 + 2 * r / R) * S], ![0, R, 0],
        ![-a * (1 + 2 * r / R) * S, 0, (R + a * a * (1 + 2 * r / R) * S) * S]] ∧
    (kerrSchild 0 a).gamInv X = ![![R / (2 * r + R) + a * a * S / R, 0, a / R], ![0, 1 / R, 0], ![a / R, 0, 1 / (R * S)]] ∧
    (kerrSchild 0 a).lapse X = √(R / (2 * r + R)) ∧ (kerrSchild 0 a).shift X = ![2 * r / (2 * r + R), 0, 0] := by
  simp only [kerrSchild, ksG, ratio_zero, abs_of_pos hr, and_self]

/-- **C33, C34, C35** spherical Kerr-Schild for every spin, at every point with positive radius off the axis (including on
and inside the horizon). -/
theorem kerrSchild_good (a : ℝ) (X : Fin 4 → ℝ) (hX : SphRegular X) : Good (kerrSchild 0 a) X := by
  obtain ⟨hr, hsn⟩ := hX
  have hrabs : |X 1| = X 1 := abs_of_pos hr
  have hp := rho2_pos a (cos (X 2)) hr
  have hne := hp.ne'
  have hq : 0 < 2 * X 1 + rho2 a (X 1) (cos (X 2)) := by positivity
  have hqne := hq.ne'
  have hS : sin (X 2) * sin (X 2) ≠ 0 := mul_ne_zero hsn hsn
  have hl2 : √(rho2 a (X 1) (cos (X 2)) / (2 * X 1 + rho2 a (X 1) (cos (X 2)))) ^ 2
      = rho2 a (X 1) (cos (X 2)) / (2 * X 1 + rho2 a (X 1) (cos (X 2))) := sq_sqrt (by positivity)
  obtain ⟨e1, e2, e3, e4, e5, e6⟩ := ks_arrays a X hr
  have hs : Symm (kerrSchild 0 a) X := by
    unfold Symm
    rw [e1, e2, e3, e4]
    refine ⟨?_, ?_, ?_, ?_⟩ <;> intro m n <;> fin_cases m <;> fin_cases n <;> rfl
  have hlp : 0 < (kerrSchild 0 a).lapse X := by
    rw [e5]; positivity
  have h3 : Inverse3 (kerrSchild 0 a) X := by
    unfold Inverse3
    rw [e3, e4]
    generalize rho2 a (X 1) (cos (X 2)) = R at *
    generalize sin (X 2) * sin (X 2) = S at *
    intro m n
    fin_cases m <;> fin_cases n <;> simp [Fin.sum_univ_three] <;> field_simp <;> ring
  have ha : Assembles (kerrSchild 0 a) X := by
    refine ⟨hlp, ?_⟩
    unfold adm
    rw [e1, e3, e4, e5, e6]
    generalize rho2 a (X 1) (cos (X 2)) = R at *
    generalize sin (X 2) * sin (X 2) = S at *
    funext m n
    fin_cases m <;> fin_cases n <;> simp [ADM.dot3, ADM.betaCov, Fin.sum_univ_three, hl2] <;>
      (try field_simp) <;> (try ring)
  have hi : AssemblesInv (kerrSchild 0 a) X := by
    unfold AssemblesInv adm
    rw [e2, e3, e4, e5, e6]
    generalize rho2 a (X 1) (cos (X 2)) = R at *
    generalize sin (X 2) * sin (X 2) = S at *
    funext m n
    fin_cases m <;> fin_cases n <;> simp [hl2] <;> (try field_simp) <;> (try ring)
  refine ⟨hs, inverse4_of _ _ hs h3 ha hi, h3, ha, hi, detOk_of _ _ hs ha ?_ ?_ ?_, ?_, ?_, ?_⟩
  · simp only [kerrSchild]; positivity
  · rw [Matrix.det_fin_three]
    have ed : (kerrSchild 0 a).detGamma X = √|rho2 a (X 1) (cos (X 2)) * (2 * X 1 + rho2 a (X 1) (cos (X 2))) * (sin (X 2) * sin (X 2))| := by
      simp only [kerrSchild, hrabs]
    rw [ed, sq_sqrt (abs_nonneg _), abs_of_nonneg (mul_nonneg (mul_nonneg hp.le hq.le) (mul_self_nonneg _)), e3]
    generalize rho2 a (X 1) (cos (X 2)) = R at *
    generalize sin (X 2) * sin (X 2) = S at *
    simp
    field_simp
    ring
  · simp only [kerrSchild, hrabs, ratio_zero]
    rw [← sqrt_mul (by positivity)]
    congr 1
    rw [abs_of_nonneg (mul_nonneg (mul_nonneg hp.le hq.le) (mul_self_nonneg _)),
      abs_of_nonneg (mul_nonneg (mul_nonneg hp.le hp.le) (mul_self_nonneg _))]
    field_simp
  · refine derivOk_of _ _ (fun r th => ksG 0 a |r| th) (fun Y => rfl) ?_ ?_ ?_ ?_
    · intro m n
      have h := ks_deriv_r a (X 2) hr m n
      have e : (kerrSchild 0 a).dg X m n 1 = ksDg 0 a (X 1) (X 2) m n 1 := by simp only [kerrSchild, hrabs]
      rw [e]
      refine h.congr_of_eventuallyEq ?_
      filter_upwards [lt_mem_nhds hr] with t ht
      rw [abs_of_pos ht]
    · intro m n
      have h := ks_deriv_th a (X 2) hr m n
      simpa only [kerrSchild, hrabs] using h
    · intro m n; simp [kerrSchild, ksDg]
    · intro m n; simp [kerrSchild, ksDg]
  · refine lnAlphaOk_of _ _ (fun r th => √(rho2 a |r| (cos th) / (2 * |r| + rho2 a |r| (cos th))))
      (fun Y => by simp only [kerrSchild, ratio_zero]) ?_ ?_ ?_ ?_
    · have h1 : HasDerivAt (fun t => 1 / 2 * (log (rho2 a t (cos (X 2))) - log (2 * t + rho2 a t (cos (X 2)))))
          (X 1 / rho2 a (X 1) (cos (X 2)) - (1 + X 1) / (2 * X 1 + rho2 a (X 1) (cos (X 2)))) (X 1) := by
        have hR := hasDerivAt_rho2_r a (X 1) (cos (X 2))
        have h2 : HasDerivAt (fun t : ℝ => 2 * t) 2 (X 1) := ((hasDerivAt_id (X 1)).const_mul 2).congr_deriv (by simp)
        refine (((hR.log hne).sub ((h2.add hR).log hqne)).const_mul (1 / 2)).congr_deriv ?_
        simp only [Pi.add_apply]
        field_simp
      have e : (kerrSchild 0 a).gradLnAlpha X 1 = X 1 / rho2 a (X 1) (cos (X 2)) - (1 + X 1) / (2 * X 1 + rho2 a (X 1) (cos (X 2))) := by
        simp [kerrSchild, hrabs, ratio_zero]
      rw [e]
      refine h1.congr_of_eventuallyEq ?_
      filter_upwards [lt_mem_nhds hr] with t ht
      have hpt := rho2_pos a (cos (X 2)) ht
      rw [abs_of_pos ht, log_sqrt (by positivity), log_div hpt.ne' (by positivity)]
      ring
    · have h1 : HasDerivAt (fun t => 1 / 2 * (log (rho2 a (X 1) (cos t)) - log (2 * X 1 + rho2 a (X 1) (cos t))))
          (-(2 * (a * a) * X 1 * cos (X 2) * sin (X 2) / (2 * X 1 * rho2 a (X 1) (cos (X 2)) + rho2 a (X 1) (cos (X 2)) * rho2 a (X 1) (cos (X 2))))) (X 2) := by
        have hR := hasDerivAt_rho2_th a (X 1) (X 2)
        refine (((hR.log hne).sub ((hR.const_add (2 * X 1)).log hqne)).const_mul (1 / 2)).congr_deriv ?_
        rw [show 2 * X 1 * rho2 a (X 1) (cos (X 2)) + rho2 a (X 1) (cos (X 2)) * rho2 a (X 1) (cos (X 2))
          = rho2 a (X 1) (cos (X 2)) * (2 * X 1 + rho2 a (X 1) (cos (X 2))) by ring]
        field_simp
        ring
      have e : (kerrSchild 0 a).gradLnAlpha X 2 = -(2 * (a * a) * X 1 * cos (X 2) * sin (X 2) / (2 * X 1 * rho2 a (X 1) (cos (X 2)) + rho2 a (X 1) (cos (X 2)) * rho2 a (X 1) (cos (X 2)))) := by
        simp [kerrSchild, hrabs, ratio_zero]
      rw [e]
      refine h1.congr_of_eventuallyEq ?_
      filter_upwards with t
      have hpt := rho2_pos a (cos t) hr
      rw [hrabs, log_sqrt (by positivity), log_div hpt.ne' (by positivity)]
      ring
    · simp [kerrSchild]
    · simp [kerrSchild]
  · intro b c d
    simp only [kerrSchild]
    have hsym : ∀ m n sg, ksDg 0 a |X 1| (X 2) m n sg = ksDg 0 a |X 1| (X 2) n m sg := by
      intro m n sg; fin_cases m <;> fin_cases n <;> simp [ksDg]
    rw [hsym d c b]; ring

/-- the horizon is a regular point of Kerr-Schild: lapse and shift are finite and the lapse positive for every radius. -/
theorem kerrSchild_lapse_range (a : ℝ) (X : Fin 4 → ℝ) (hX : 0 < X 1) :
    0 < (kerrSchild 0 a).lapse X ∧ (kerrSchild 0 a).lapse X < 1 := by
  have hp := rho2_pos a (cos (X 2)) hX
  simp only [kerrSchild, ratio_zero, abs_of_pos hX]
  refine ⟨by positivity, ?_⟩
  rw [show (1:ℝ) = √1 by simp]
  apply sqrt_lt_sqrt (by positivity)
  rw [div_lt_one (by positivity)]; linarith

/-- **C35 fails for negative radius** in Kerr-Schild too. -/
theorem kerrSchild_deriv_negative (X : Fin 4 → ℝ) (hX : X 1 < 0) : ¬ DerivOk (kerrSchild 0 0) X := by
  intro h
  have h1 := h 2 2 1
  have h2 : HasDerivAt (fun t : ℝ => t * t) (2 * X 1) (X 1) :=
    ((hasDerivAt_id (X 1)).mul (hasDerivAt_id (X 1))).congr_deriv (by simp; ring)
  have h3 : HasDerivAt (fun t : ℝ => t * t) (2 * |X 1|) (X 1) := by
    simpa [kerrSchild, ksG, ksDg, rho2] using h1
  have := h2.unique h3
  rw [abs_of_neg hX] at this
  linarith

/-! ### Boyer-Lindquist -/

/-- the Boyer-Lindquist 4-metric is Kerr's: `g_tt g_φφ - g_tφ² = -(r² - 2r + a²) sin²θ` (a defining identity), and
`g_rr = ρ²/(r²-2r+a²)`, `g_θθ = ρ²`. -/
theorem boyerLindquist_metric (a th : ℝ) {r : ℝ} (hr : 0 < r) (hd : r ^ 2 - 2 * r + a ^ 2 ≠ 0) :
    blG 0 a r th 0 0 * blG 0 a r th 3 3 - blG 0 a r th 0 3 ^ 2 = -(r ^ 2 - 2 * r + a ^ 2) * sin th ^ 2 ∧
    blG 0 a r th 1 1 = rho2 a r (cos th) / (r ^ 2 - 2 * r + a ^ 2) ∧ blG 0 a r th 2 2 = rho2 a r (cos th) ∧
    blG 0 a r th 0 0 = -(1 - 2 * r / rho2 a r (cos th)) ∧
    blG 0 a r th 0 3 = -(2 * a * r * sin th ^ 2 / rho2 a r (cos th)) := by
  have hp := rho2_pos a (cos th) hr
  have hmu : blMu 0 a r th = rho2 a r (cos th) / (r * r) := by
    unfold blMu rho2; rw [ratio_zero]; field_simp
  have hDD : blDD 0 a r = (r ^ 2 - 2 * r + a ^ 2) / (r * r) := by
    unfold blDD; rw [ratio_zero, ratio_zero]; field_simp
  have hne := hp.ne'
  refine ⟨?_, ?_, ?_, ?_, ?_⟩
  · simp [blG, hmu, ratio_zero]
    field_simp
    have hc2 : cos th * cos th = 1 - sin th ^ 2 := by linarith [sin_sq_add_cos_sq th]
    unfold rho2
    rw [show a * a * cos th * cos th = a * a * (cos th * cos th) by ring, hc2]
    ring
  · simp [blG, hmu, hDD]; field_simp
  · simp [blG, hmu]; field_simp
  · simp [blG, hmu, ratio_zero]; field_simp
  · simp [blG, hmu, ratio_zero]; field_simp

/-- **C33 fails for Boyer-Lindquist**: the array returned as inverse 4-metric is not the inverse of the returned 4-metric at
any radius other than one (its `θθ` component is that of the metric itself), without spin. -/
theorem boyerLindquist_inverse_wrong (th : ℝ) {r : ℝ} (hr : 0 < r) (h1 : r ≠ 1) :
    ∑ l, blG 0 0 r th 2 l * blGInv 0 0 r th l 2 ≠ 1 := by
  have : ∑ l, blG 0 0 r th 2 l * blGInv 0 0 r th l 2 = r ^ 4 := by
    simp [Fin.sum_univ_four, blG, blGInv, blMu, ratio_zero]; ring
  rw [this]
  intro h
  apply h1
  exact (pow_eq_one_iff_of_nonneg hr.le (by norm_num)).1 h

/-- **C34 fails for Boyer-Lindquist**: the 3-metric is not the spatial block of the 4-metric; the two are inverse to each
other in the `rr` and `θθ` components. -/
theorem boyerLindquist_metric3_swapped (a th : ℝ) {r : ℝ} (hr : 0 < r) (hd : r ^ 2 - 2 * r + a ^ 2 ≠ 0) :
    blGam 0 a r th 0 0 * blG 0 a r th 1 1 = 1 ∧ blGam 0 a r th 1 1 * blG 0 a r th 2 2 = 1 := by
  have hp := (rho2_pos a (cos th) hr).ne'
  have hmu : blMu 0 a r th = rho2 a r (cos th) / (r * r) := by
    unfold blMu rho2; rw [ratio_zero]; field_simp
  have hDD : blDD 0 a r = (r ^ 2 - 2 * r + a ^ 2) / (r * r) := by
    unfold blDD; rw [ratio_zero, ratio_zero]; field_simp
  constructor
  · simp [blGam, blG, hmu, hDD, ratio_zero]
    have hd' : r * (r - 2) + a ^ 2 ≠ 0 := by intro h; apply hd; linarith
    field_simp
  · simp [blGam, blG, hmu, ratio_zero]; field_simp

/-- **C34 fails for Boyer-Lindquist**: without spin the returned lapse is the reciprocal of the true one
(`√(1 - 2/r)`), for every radius outside the horizon. -/
theorem boyerLindquist_lapse_reciprocal (th : ℝ) {r : ℝ} (hr : 2 < r) :
    blLapse 0 0 r th * √(1 - 2 / r) = 1 := by
  have hr0 : (0:ℝ) < r := by linarith
  have hr2 : 0 < r - 2 := by linarith
  unfold blLapse
  rw [← sqrt_mul', ← sqrt_one]
  · congr 1
    simp [blDD, blMu, ratio_zero]
    field_simp
    ring
  · rw [sub_nonneg, div_le_one hr0]; exact hr.le

/-- What the Boyer-Lindquist functions return at any spin, in terms of `Σ = r² + a² cos²θ`, `Δ = r² - 2r + a²`,
`m = Σ / r` and `N = (m - 2)(2(r² + a²) + Δ m) + 4 a² sin²θ`.  (For the true metric the last term of `N` is absent, the lapse is
the reciprocal square root, and `γ_φφ`-inverse has `sin²θ` in the denominator.) -/
theorem boyerLindquist_arrays (a th : ℝ) {r : ℝ} (hr : 0 < r) (hd : r ^ 2 - 2 * r + a ^ 2 ≠ 0) :
    let D := r ^ 2 - 2 * r + a ^ 2
    let S := rho2 a r (cos th)
    let m := S / r
    let N := (m - 2) * (2 * (r ^ 2 + a ^ 2) + D * m) + 4 * a ^ 2 * sin th ^ 2
    blLapse 0 a r th = √(N / (D * m * (m - 2))) ∧
    blGInv 0 a r th 0 0 = -(D * m * (m - 2)) / N ∧ blGInv 0 a r th 0 3 = -(a * D * m * sin th ^ 2 / (N / 2)) ∧
    blGInv 0 a r th 3 0 = blGInv 0 a r th 0 3 ∧ blGInv 0 a r th 1 1 = S / D ∧ blGInv 0 a r th 2 2 = S ∧
    blGInv 0 a r th 3 3 = D * m * (2 * (r ^ 2 + a ^ 2) + D * m) * sin th ^ 2 / N ∧
    (∀ i j : Fin 4, i ≠ j → ¬(i = 0 ∧ j = 3) → ¬(i = 3 ∧ j = 0) → blGInv 0 a r th i j = 0 ∧ blG 0 a r th i j = 0) ∧
    blGam 0 a r th 2 2 = (S - 2 * r) * sin th ^ 2 / (D * S) ∧
    (∀ i j : Fin 3, i ≠ j → blGam 0 a r th i j = 0) := by
  intro D S m N
  have hp := (rho2_pos a (cos th) hr).ne'
  have hr' := hr.ne'
  have hmu : blMu 0 a r th = S / (r * r) := by
    simp only [S]; unfold blMu rho2; rw [ratio_zero]; field_simp
  have hDD : blDD 0 a r = D / (r * r) := by
    simp only [D]; unfold blDD; rw [ratio_zero, ratio_zero]; field_simp
  have e1 : r * (S / (r * r)) = m := by simp only [m]; field_simp
  have e2 : r * r * r * (D / (r * r)) * (S / (r * r)) = D * m := by simp only [m]; field_simp
  have e3 : ∀ x, r * r * (D / (r * r) * x) = D * x := fun x => by field_simp
  refine ⟨?_, ?_, ?_, ?_, ?_, ?_, ?_, ?_, ?_, ?_⟩
  · unfold blLapse
    simp only [hmu, hDD, ratio_zero, e1, e2]
    congr 2
    simp only [N, m]; field_simp; ring
  · simp only [blGInv, hmu, hDD, ratio_zero, e1, e2, Matrix.cons_val_zero]
    congr 1
    · ring
    · simp only [N, m]; field_simp; ring
  · simp [blGInv, hmu, hDD, ratio_zero, e1, e2]
    congr 1
    · ring
    · simp only [N, m]; field_simp; ring
  · simp [blGInv]
  · simp [blGInv, hmu, hDD, ratio_zero]; field_simp
  · simp [blGInv, hmu]; field_simp
  · simp [blGInv, hmu, hDD, ratio_zero, e1, e2]
    congr 1
    · simp only [m]; field_simp; ring
    · simp only [N, m]; field_simp; ring
  · intro i j h1 h2 h3
    fin_cases i <;> fin_cases j <;> simp_all [blGInv, blG]
  · simp [blGam, hmu, hDD, ratio_zero, e1]
    simp only [m]; field_simp
  · intro i j h
    fin_cases i <;> fin_cases j <;> simp_all [blGam]

example : SphRegular ![0, 2, Real.pi / 2, 0] := by simp [SphRegular]

end Phoebus.Metrics
