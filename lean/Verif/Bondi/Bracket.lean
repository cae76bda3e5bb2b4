import Verif.Bondi.Flow

/-! # C89: the bracket around the transonic solution, for the supported `gamma = 1.4` (`n = 5/2`) -/
namespace Phoebus.Bondi
open Real

variable {rs r : ℝ}

/-- the residual of the supported gas. -/
noncomputable abbrev resid (rs r T : ℝ) : ℝ := Tfunc (5 / 2) (C1Of (5 / 2) rs) (C2Of (5 / 2) rs) r T

theorem Tguess_pos (h : Ok (5 / 2) rs) (hr : 0 < r) : 0 < Tguess (TcOf (5 / 2) rs) rs r := by
  have := Tc_pos h; have := h.rs0
  have : 0 < (rs / r) ^ (0.8 : ℝ) := Real.rpow_pos_of_pos (by positivity) _
  unfold Tguess; positivity

/-- residual at a multiple of the guess. -/
theorem resid_scaled (h : Ok (5 / 2) rs) (hr : 0 < r) {s : ℝ} (hs : 0 < s) :
    resid rs r (s * Tguess (TcOf (5 / 2) rs) rs r) =
      (1 + s * ((1 + 5 / 2) * TcOf (5 / 2) rs) * (rs / r) ^ (0.8 : ℝ)) ^ 2 *
        (1 - 4 * (1 / (2 * rs)) * (rs / r) + 1 / (2 * rs) / s ^ 5) -
      (1 + (1 + 5 / 2) * TcOf (5 / 2) rs) ^ 2 * (1 - 3 * (1 / (2 * rs))) := by
  have hT := Tc_pos h
  have h0 := h.rs0
  have hx : 0 < rs / r := by positivity
  have hX : 0 < (rs / r) ^ (0.8 : ℝ) := Real.rpow_pos_of_pos hx _
  have hTn := Real.rpow_pos_of_pos hT (5 / 2 : ℝ)
  have hsn := Real.rpow_pos_of_pos hs (5 / 2 : ℝ)
  unfold resid Tfunc
  rw [C2_eq h]
  congr 1
  have e1 : (s * Tguess (TcOf (5 / 2) rs) rs r) ^ (5 / 2 : ℝ) =
      s ^ (5 / 2 : ℝ) * (TcOf (5 / 2) rs ^ (5 / 2 : ℝ) * (rs / r) ^ 2) := by
    unfold Tguess
    rw [Real.mul_rpow hs.le (by positivity), Real.mul_rpow hT.le hX.le, ← Real.rpow_mul hx.le]
    congr 2
    rw [← Real.rpow_two]; norm_num
  have e2 : (s ^ (5 / 2 : ℝ)) ^ 2 = s ^ 5 := by
    rw [← Real.rpow_natCast, ← Real.rpow_mul hs.le, ← Real.rpow_natCast]; norm_num
  have e3 : C1Of (5 / 2) rs / (r * r * (s * Tguess (TcOf (5 / 2) rs) rs r) ^ (5 / 2 : ℝ)) =
      ucOf rs / s ^ (5 / 2 : ℝ) := by
    rw [e1]; unfold C1Of; field_simp
  rw [e3, div_pow, e2, uc_sq h0]
  have e4 : 2 / r = 4 * (1 / (2 * rs)) * (rs / r) := by field_simp; norm_num
  rw [e4]
  unfold Tguess; ring

theorem B_eq {q d : ℝ} (hd : d = 1 - 11 / 2 * q) (h0 : d ≠ 0) : 1 + 5 / 2 * q / d = (1 - 3 * q) / d := by
  rw [eq_div_iff h0, add_mul, div_mul_cancel₀ _ h0, hd]; ring

/-- **C89** The guess separates the two branches: with the hard-coded exponent `0.8` the residual at the guess is
negative at every radius except the sonic one. -/
theorem guess_between (h : Ok (5 / 2) rs) (hr : 0 < r) (hne : r ≠ rs) :
    resid rs r (Tguess (TcOf (5 / 2) rs) rs r) < 0 := by
  have h0 := h.rs0
  have hA := h.q
  have hx : 0 < rs / r := by positivity
  have hx1 : rs / r ≠ 1 := by rw [Ne, div_eq_one_iff_eq hr.ne']; exact fun e => hne e.symm
  have hq : 0 < 1 / (2 * rs) := by positivity
  have hs := resid_scaled h hr one_pos
  rw [one_mul] at hs
  rw [hs, Tc_eq h]
  have hX : (rs / r) ^ (0.8 : ℝ) ≤ 1 + 4 / 5 * (rs / r - 1) := by
    have h1 := rpow_one_add_le_one_add_mul_self (s := rs / r - 1) (p := 0.8) (by linarith) (by norm_num) (by norm_num)
    rw [show 1 + (rs / r - 1) = rs / r by ring] at h1
    norm_num at h1 ⊢; exact h1
  have hX0 : 0 < (rs / r) ^ (0.8 : ℝ) := Real.rpow_pos_of_pos hx _
  generalize (rs / r) ^ (0.8 : ℝ) = X at *
  generalize rs / r = x at *
  generalize 1 / (2 * rs) = q at *
  norm_num at hA ⊢
  have h3 : 0 < 1 - 3 * q := by linarith
  -- B
  obtain ⟨d, hd⟩ : ∃ d, d = 1 - 11 / 2 * q := ⟨_, rfl⟩
  have hd0 : 0 < d := by rw [hd]; linarith
  rw [← hd]
  have hB : 0 < 5 / 2 * q / d := by positivity
  have hB1 : 1 + 5 / 2 * q / d = (1 - 3 * q) / d := B_eq hd hd0.ne'
  have hC : 0 < (1 + 5 / 2 * q / d) ^ 2 * (1 - 3 * q) := by positivity
  by_cases hb : 1 - 4 * q * x + q ≤ 0
  · have : (1 + 5 / 2 * q / d * X) ^ 2 * (1 - 4 * q * x + q) ≤ 0 :=
      mul_nonpos_of_nonneg_of_nonpos (sq_nonneg _) hb
    linarith
  have hb := not_le.1 hb
  have hle : (1 + 5 / 2 * q / d * X) ^ 2 * (1 - 4 * q * x + q) ≤
      (1 + 5 / 2 * q / d * (1 + 4 / 5 * (x - 1))) ^ 2 * (1 - 4 * q * x + q) := by
    apply mul_le_mul_of_nonneg_right _ hb.le
    apply pow_le_pow_left₀ (by positivity)
    have := mul_le_mul_of_nonneg_left hX hB.le
    linarith
  -- w
  obtain ⟨w, hw⟩ : ∃ w, w = 2 * q * (x - 1) / (1 - 3 * q) := ⟨_, rfl⟩
  have hw' : w * (1 - 3 * q) = 2 * q * (x - 1) := by rw [hw]; exact div_mul_cancel₀ _ h3.ne'
  have hw0 : w ≠ 0 := by
    rw [hw]; exact div_ne_zero (mul_ne_zero (by positivity) (sub_ne_zero.2 hx1)) h3.ne'
  have ea : 1 + 5 / 2 * q / d * (1 + 4 / 5 * (x - 1)) = (1 - 3 * q) / d * (1 + w) := by
    linear_combination hB1 - hw' / d
  have eb : 1 - 4 * q * x + q = (1 - 3 * q) * (1 - 2 * w) := by linear_combination 2 * hw'
  rw [ea, eb] at hle
  have hfin : ((1 - 3 * q) / d * (1 + w)) ^ 2 * ((1 - 3 * q) * (1 - 2 * w)) =
      (1 + 5 / 2 * q / d) ^ 2 * (1 - 3 * q) * ((1 + w) ^ 2 * (1 - 2 * w)) := by rw [hB1]; ring
  rw [hfin] at hle
  have hwb : -1 < w := by
    have h5 : -(1 - 3 * q) < w * (1 - 3 * q) := by rw [hw']; nlinarith
    by_contra h6
    have h7 := mul_le_mul_of_nonneg_right (not_lt.1 h6) h3.le
    linarith
  have hlt : (1 + w) ^ 2 * (1 - 2 * w) < 1 := by
    have h7 : 0 < w ^ 2 * (3 + 2 * w) := mul_pos (by positivity) (by linarith)
    have h8 : (1 + w) ^ 2 * (1 - 2 * w) = 1 - w ^ 2 * (3 + 2 * w) := by ring
    linarith
  rw [← eb] at hle
  have hz := mul_lt_mul_of_pos_left hlt hC
  rw [mul_one] at hz
  exact hle.trans_lt hz

/-- range of sonic radii for which the search interval is proved to work. -/
structure Good (rs : ℝ) : Prop where
  lo : 3 ≤ rs
  hi : rs ≤ 40000

theorem Good.ok (h : Good rs) : Ok (5 / 2) rs :=
  ⟨by norm_num, by have := h.lo; linarith, by have := h.lo; norm_num; linarith⟩

theorem Good.q (h : Good rs) : 1 / 80000 ≤ 1 / (2 * rs) ∧ 1 / (2 * rs) ≤ 1 / 6 := by
  have h1 := h.lo; have h2 := h.hi
  constructor
  · apply one_div_le_one_div_of_le <;> linarith
  · apply one_div_le_one_div_of_le <;> linarith

/-- inside the sonic radius a tenth of the guess is below the supersonic root. -/
theorem bracket_inner (h : Good rs) (hr : 2 ≤ r) :
    0 < resid rs r (1 / 10 * Tguess (TcOf (5 / 2) rs) rs r) := by
  obtain ⟨q1, q2⟩ := h.q
  have h0 := h.ok.rs0
  have hx : 0 < rs / r := by have := h0; positivity
  have hX0 : 0 < (rs / r) ^ (0.8 : ℝ) := Real.rpow_pos_of_pos hx _
  have hxA : 4 * (1 / (2 * rs)) * (rs / r) ≤ 1 := by
    have : 4 * (1 / (2 * rs)) * (rs / r) = 2 / r := by field_simp; norm_num
    rw [this, div_le_one (by linarith)]; exact hr
  rw [resid_scaled h.ok (by linarith) (by norm_num), Tc_eq h.ok]
  generalize (rs / r) ^ (0.8 : ℝ) = X at *
  generalize rs / r = x at *
  generalize 1 / (2 * rs) = q at *
  norm_num
  obtain ⟨d, hd⟩ : ∃ d, d = 1 - 11 / 2 * q := ⟨_, rfl⟩
  have hd0 : 1 / 12 ≤ d := by rw [hd]; linarith
  rw [← hd]
  have hd1 : 0 < d := by linarith
  have hB1 : 1 + 5 / 2 * q / d = (1 - 3 * q) / d := B_eq hd hd1.ne'
  rw [hB1]
  have hC2 : ((1 - 3 * q) / d) ^ 2 * (1 - 3 * q) < q / (1 / 100000) := by
    rw [div_pow, div_mul_eq_mul_div, div_lt_iff₀ (by positivity), hd]
    by_cases hq : q ≤ 1 / 1000
    · have e1 : (1 - 3 * q) ^ 2 * (1 - 3 * q) ≤ 1 := by
        have : 0 ≤ 1 - 3 * q := by linarith
        have h2 : (1 - 3 * q) ^ 3 ≤ 1 := pow_le_one₀ this (by linarith)
        calc (1 - 3 * q) ^ 2 * (1 - 3 * q) = (1 - 3 * q) ^ 3 := by ring
          _ ≤ 1 := h2
      have e2 : (989 / 1000 : ℝ) ≤ (1 - 11 / 2 * q) ^ 2 := by nlinarith
      have e3 : 5 / 4 ≤ q / (1 / 100000) := by rw [le_div_iff₀ (by norm_num)]; linarith
      nlinarith
    · have hq := not_le.1 hq
      have e1 : (1 - 3 * q) ^ 2 * (1 - 3 * q) ≤ (1 - 3 * q) := by
        have : 0 ≤ 1 - 3 * q := by linarith
        have : (1 - 3 * q) ^ 2 ≤ 1 := by nlinarith
        nlinarith
      have e3 : 100 ≤ q / (1 / 100000) := by rw [le_div_iff₀ (by norm_num)]; linarith
      have e5 : q / (1 / 100000) = 100000 * q := by ring
      have e4 : (1 / 144 : ℝ) ≤ (1 - 11 / 2 * q) ^ 2 := by
        rw [← hd]; nlinarith
      rw [e5]
      -- (1-3q)^3 < 100000 q (1-5.5q)^2
      have e6 : (1 - 3 * q) ^ 2 * (1 - 3 * q) ≤ 1 := by nlinarith
      by_cases hq' : q ≤ 1 / 100
      · have : (8 / 10 : ℝ) ≤ (1 - 11 / 2 * q) ^ 2 := by nlinarith
        nlinarith
      · have hq' := not_le.1 hq'
        nlinarith
  have hl : q / (1 / 100000) ≤ (1 + 1 / 10 * (5 / 2 * q / d) * X) ^ 2 * (1 - 4 * q * x + q / (1 / 100000)) := by
    have hq0 : 0 < q := by linarith
    have e1 : 1 ≤ (1 + 1 / 10 * (5 / 2 * q / d) * X) ^ 2 := by
      have : 0 ≤ 1 / 10 * (5 / 2 * q / d) * X := by positivity
      nlinarith
    have e2 : q / (1 / 100000) ≤ 1 - 4 * q * x + q / (1 / 100000) := by linarith
    have e3 : 0 ≤ q / (1 / 100000) := by positivity
    nlinarith
  norm_num at hl hC2 ⊢
  linarith

theorem rpow_lower {x : ℝ} (hx : 0 < x) (h1 : x ≤ 1) : x ≤ x ^ (0.8 : ℝ) := by
  have := Real.rpow_le_rpow_of_exponent_ge hx h1 (show (0.8 : ℝ) ≤ 1 by norm_num)
  rwa [Real.rpow_one] at this

theorem rpow_twenty {x : ℝ} (hx : 1 / 20 ≤ x) : 1 / 11 ≤ x ^ (0.8 : ℝ) := by
  have h0 : 0 < x := by linarith
  have h1 : (1 / 20 : ℝ) ^ (0.8 : ℝ) ≤ x ^ (0.8 : ℝ) := Real.rpow_le_rpow (by norm_num) hx (by norm_num)
  refine le_trans ?_ h1
  have h2 : (1 / 11 : ℝ) = ((1 / 11 : ℝ) ^ (5 : ℝ)) ^ (1 / 5 : ℝ) := by
    rw [← Real.rpow_mul (by norm_num)]; norm_num
  have h3 : (1 / 20 : ℝ) ^ (0.8 : ℝ) = ((1 / 20 : ℝ) ^ (4 : ℝ)) ^ (1 / 5 : ℝ) := by
    rw [← Real.rpow_mul (by norm_num)]; norm_num
  rw [h2, h3]
  apply Real.rpow_le_rpow (by positivity) _ (by norm_num)
  rw [show (5 : ℝ) = ((5 : ℕ) : ℝ) by norm_num, show (4 : ℝ) = ((4 : ℕ) : ℝ) by norm_num, Real.rpow_natCast, Real.rpow_natCast]
  norm_num

/-- outside the sonic radius, up to twenty times it, ten times the guess is above the subsonic root. -/
theorem bracket_outer (h : Good rs) (hr : rs < r) (hr' : r ≤ 20 * rs) :
    0 < resid rs r (10 * Tguess (TcOf (5 / 2) rs) rs r) := by
  obtain ⟨q1, q2⟩ := h.q
  have h0 := h.ok.rs0
  have hr0 : 0 < r := by linarith
  have hx : 1 / 20 ≤ rs / r := by rw [le_div_iff₀ hr0]; linarith
  have hx1 : rs / r ≤ 1 := by rw [div_le_one hr0]; exact hr.le
  have hXa := rpow_lower (x := rs / r) (by linarith) hx1
  have hXb := rpow_twenty hx
  rw [resid_scaled h.ok hr0 (by norm_num), Tc_eq h.ok]
  generalize (rs / r) ^ (0.8 : ℝ) = X at *
  generalize rs / r = x at *
  generalize 1 / (2 * rs) = q at *
  norm_num
  obtain ⟨d, hd⟩ : ∃ d, d = 1 - 11 / 2 * q := ⟨_, rfl⟩
  have hd0 : 1 / 12 ≤ d := by rw [hd]; linarith
  rw [← hd]
  have hd1 : 0 < d := by linarith
  have hq0 : 0 < q := by linarith
  have hB1 : 1 + 5 / 2 * q / d = (1 - 3 * q) / d := B_eq hd hd1.ne'
  rw [hB1]
  have e : ∀ Y, 1 + 10 * (5 / 2 * q / d) * Y = (d + 25 * q * Y) / d := fun Y => by field_simp; ring
  rw [e]
  have h4 : 0 < 1 - 4 * q * x := by nlinarith
  have key : (1 - 3 * q) ^ 2 * (1 - 3 * q) < (d + 25 * q * X) ^ 2 * (1 - 4 * q * x) := by
    by_cases hxs : x ≤ 1 / 10
    · have h5 : (1 - 11 / 2 * q + 25 / 11 * q) ^ 2 * (1 - 2 / 5 * q) ≤ (d + 25 * q * X) ^ 2 * (1 - 4 * q * x) := by
        apply mul_le_mul
        · apply pow_le_pow_left₀ (by linarith)
          rw [hd]; nlinarith
        · nlinarith
        · linarith
        · positivity
      refine lt_of_lt_of_le ?_ h5
      nlinarith [mul_pos hq0 hq0, mul_pos hq0 (mul_pos hq0 hq0), mul_nonneg (mul_pos hq0 hq0).le (sub_nonneg.2 q2),
        mul_nonneg hq0.le (sub_nonneg.2 q2)]
    · have hxs := not_le.1 hxs
      have h6 : d + 25 * q * x ≤ d + 25 * q * X := by nlinarith
      have h7 : 1 - 3 * q ≤ d + 25 * q * x := by rw [hd]; nlinarith
      have h8 : (1 - 3 * q) * (1 - 3 * q) < (d + 25 * q * x) * (1 - 4 * q * x) := by
        rw [hd]
        -- concave in x
        nlinarith [mul_pos hq0 hq0, mul_nonneg (sub_nonneg.2 hxs.le) (sub_nonneg.2 hx1), mul_nonneg (mul_nonneg hq0.le (sub_nonneg.2 hxs.le)) (sub_nonneg.2 hx1),
          mul_nonneg (mul_nonneg (mul_pos hq0 hq0).le (sub_nonneg.2 hxs.le)) (sub_nonneg.2 hx1),
          mul_nonneg (mul_nonneg hq0.le (sub_nonneg.2 q2)) (sub_nonneg.2 hxs.le)]
      have h9 : 0 < 1 - 3 * q := by linarith
      calc (1 - 3 * q) ^ 2 * (1 - 3 * q) = (1 - 3 * q) * ((1 - 3 * q) * (1 - 3 * q)) := by ring
        _ < (1 - 3 * q) * ((d + 25 * q * x) * (1 - 4 * q * x)) := mul_lt_mul_of_pos_left h8 h9
        _ ≤ (d + 25 * q * x) * ((d + 25 * q * x) * (1 - 4 * q * x)) := by
            apply mul_le_mul_of_nonneg_right h7
            apply mul_nonneg (by linarith) h4.le
        _ = (d + 25 * q * x) ^ 2 * (1 - 4 * q * x) := by ring
        _ ≤ (d + 25 * q * X) ^ 2 * (1 - 4 * q * x) := by
            apply mul_le_mul_of_nonneg_right _ h4.le
            exact pow_le_pow_left₀ (by linarith) h6 2
  have hd2 : 0 < d ^ 2 := by positivity
  have k1 : ((1 - 3 * q) / d) ^ 2 * (1 - 3 * q) = (1 - 3 * q) ^ 2 * (1 - 3 * q) / d ^ 2 := by rw [div_pow]; ring
  have k2 : (d + 25 * q * X) ^ 2 * (1 - 4 * q * x) / d ^ 2 ≤
      ((d + 25 * q * X) / d) ^ 2 * (1 - 4 * q * x + q / 100000) := by
    rw [div_pow, div_mul_eq_mul_div]
    apply div_le_div_of_nonneg_right _ hd2.le
    apply mul_le_mul_of_nonneg_left _ (sq_nonneg _)
    have : 0 < q / 100000 := by positivity
    linarith
  rw [k1]
  have k3 := div_lt_div_of_pos_right key hd2
  linarith

end Phoebus.Bondi
