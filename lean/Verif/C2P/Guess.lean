import Verif.C2P.Sound

/-!
# The initial guess of the inversion

`solve` starts its search from the value stored in the cell by the previous inversion (con2prim_robust.hpp:374-376), a derived
field that is neither exchanged nor written to restart files (fluid.cpp:224).  Does the result depend on it?
-/
namespace Phoebus.C2P
open Finset Geom Robust Rel

variable {G : ADM ℝ}

/-- C138 (partial). When the residual has a single root in the search interval, two successful searches from any two guesses (and with any two iteration caps)
agree within twice the tolerance. -/
theorem guess_within_tolerance_partial (small eps : ℝ) (hs : 0 ≤ small) (eos : Eos) (b : Bnds) (hb : SearchOk eos b) (a : Aux)
    (ha : AuxOk a) (hcP : Continuous fun p : ℝ × ℝ => eos.pRE p.1 p.2 a.ye) (hcE : Continuous b.eFloor)
    (tol guess guess' : ℝ) (ht : 0 ≤ tol) (maxIter maxIter' : ℕ) (x x' : ℝ) (n n' : ℕ)
    (huniq : ∀ z z', 0 ≤ z → z ≤ 1 → 0 ≤ z' → z' ≤ 1 → residual small eps eos b a z = 0 → residual small eps eos b a z' = 0 → z = z')
    (h : findMu small eps eos b a tol guess maxIter = .ret x .success n)
    (h' : findMu small eps eos b a tol guess' maxIter' = .ret x' .success n') : |x - x'| ≤ 2 * tol := by
  obtain ⟨z, h0, h1, hz, hx⟩ := findMu_accurate small eps hs eos b hb a ha hcP hcE tol guess ht maxIter x n h
  obtain ⟨z', h0', h1', hz', hx'⟩ := findMu_accurate small eps hs eos b hb a ha hcP hcE tol guess' ht maxIter' x' n' h'
  have := huniq z z' h0 h1 h0' h1' hz hz'
  subst this
  rw [abs_le] at *
  constructor <;> linarith [hx.1, hx.2, hx'.1, hx'.2]

/-! ### It does depend on it -/

/-- Bounds of the example. -/
noncomputable def gB : Bnds := ⟨1 / 10, fun _ => 0, 10, 100⟩

/-- Conserved state of pressureless gas in flat space with Lorentz factor `W` and momentum `t = √(W² - 1)` per mass. -/
noncomputable def gC (W t : ℝ) : Cons := ⟨1, ![t, 0, 0], fun _ => 0, W - 1, 0⟩

theorem gC_aux (W t : ℝ) (hW : 1 ≤ W) (hW2 : W ≤ 2) (ht : t ^ 2 = W ^ 2 - 1) :
    (prep true true false 0 flat 1 gB (gC W t)).aux = ⟨1, W - 1, 0, 0, t ^ 2, 0, t ^ 2 / W ^ 2, 0.5⟩ := by
  have e : min (t ^ 2 / (1 + t ^ 2)) (1 - 1 / (10 * 10)) = t ^ 2 / W ^ 2 := by
    rw [ht, show (1:ℝ) + (W ^ 2 - 1) = W ^ 2 by ring]
    apply min_eq_left
    rw [div_le_iff₀ (by positivity)]
    nlinarith
  simp only [prep, tauOf, gC, gB, flat, ratio_zero, Fin.sum_univ_three]
  simp [← pow_two]
  rw [show ((10:ℝ) ^ 2)⁻¹ = 1 / (10 * 10) by norm_num, e]

theorem gC_root_side (eps W t : ℝ) (hW : 1 ≤ W) (ht : t ^ 2 = W ^ 2 - 1) (g : ℝ) (h0 : 0 ≤ g) (h1 : g ≤ 1 / W) :
    residual 0 eps dust gB ⟨1, W - 1, 0, 0, t ^ 2, 0, t ^ 2 / W ^ 2, 0.5⟩ g ≤ 0 := by
  set a : Aux := ⟨1, W - 1, 0, 0, t ^ 2, 0, t ^ 2 / W ^ 2, 0.5⟩ with ha
  have hWp : 0 < W := by linarith
  have hx : xMu 0 a g = 1 := by simp [xMu, ratio_zero, ha]
  have hrb : rbarsq a g 1 = t ^ 2 := by simp [rbarsq, ha]
  have hqb : qbar a g 1 = W - 1 := by simp [qbar, ha]
  -- the larger of the two candidates is at least the second
  unfold residual
  simp only [hx, hrb, hqb]
  have hP : ∀ r e y, dust.pRE r e y = 0 := fun _ _ _ => rfl
  simp only [hP, zero_div, add_zero, one_mul]
  set m := max (_ : ℝ) (_ : ℝ) with hm
  -- speed below the limit
  have hgW : g * W ≤ 1 := by rwa [le_div_iff₀ hWp] at h1
  have hts : 0 ≤ t ^ 2 := sq_nonneg t
  have hv : vhatsq a g (t ^ 2) = (g * g * t ^ 2, false) := by
    unfold vhatsq
    rw [if_neg]
    show ¬ g * g * t ^ 2 > t ^ 2 / W ^ 2
    rw [not_lt, le_div_iff₀ (by positivity)]
    have : (g * W) ^ 2 ≤ 1 := by
      have : 0 ≤ g * W := by positivity
      nlinarith
    nlinarith
  have hv1 : g * g * t ^ 2 < 1 := by
    have : (g * W) ^ 2 ≤ 1 := by
      have : 0 ≤ g * W := by positivity
      nlinarith
    rw [ht]
    rcases eq_or_lt_of_le h0 with h | h
    · rw [← h]; norm_num
    · nlinarith [mul_pos h h]
  set iW := iWhat (g * g * t ^ 2) with hiW
  have hip : 0 < iW := Real.sqrt_pos.2 (by linarith)
  have hisq : iW ^ 2 = 1 - g * g * t ^ 2 := Real.sq_sqrt (by linarith)
  have hi1 : iW ≤ 1 := by nlinarith
  have hpos : 0 < W - g * t ^ 2 := by
    rw [ht]
    have : g * (W ^ 2 - 1) ≤ W - 1 / W := by
      have h2 : 0 ≤ W ^ 2 - 1 := by nlinarith
      calc g * (W ^ 2 - 1) ≤ 1 / W * (W ^ 2 - 1) := mul_le_mul_of_nonneg_right h1 h2
        _ = W - 1 / W := by field_simp
    have : 0 < 1 / W := by positivity
    linarith
  have hcmp : iW ≤ W - g * t ^ 2 := by
    have : iW ^ 2 ≤ (W - g * t ^ 2) ^ 2 := by
      have e : (W - g * t ^ 2) ^ 2 - (1 - g * g * t ^ 2) = t ^ 2 * (1 - W * g) ^ 2 := by
        have : W ^ 2 = 1 + t ^ 2 := by linarith
        linear_combination (1 - t ^ 2 * g ^ 2) * this
      have : 0 ≤ t ^ 2 * (1 - W * g) ^ 2 := by positivity
      rw [hisq]; linarith
    exact (sq_le_sq₀ hip.le hpos.le).1 this
  have hb2 : 1 + (W - 1) - g * t ^ 2 = W - g * t ^ 2 := by ring
  -- the other candidate is not larger
  have hm2 : m = W - g * t ^ 2 := by
    rw [hm, hb2]
    apply max_eq_right
    rw [hv]
    simp only [← hiW, ratio_zero]
    have hWi : (1 / iW) * iW = 1 := by field_simp
    set e := (ehat 0 gB a g (W - 1) (t ^ 2) (g * g * t ^ 2) (1 / iW)).1 with he
    have het : 1 / iW * (W - 1 - g * t ^ 2) + g * g * t ^ 2 * (1 / iW) * (1 / iW / (1 + 1 / iW)) =
        (W - g * t ^ 2) / iW - 1 := by
      have : g * g * t ^ 2 = 1 - iW ^ 2 := by linarith
      rw [this]
      have : 1 + 1 / iW ≠ 0 := by positivity
      field_simp
      ring
    have hle : e ≤ (W - g * t ^ 2) / iW - 1 := by
      rw [he]
      unfold ehat
      simp only [ratio_zero, het]
      have h0' : 0 ≤ (W - g * t ^ 2) / iW - 1 := by
        rw [sub_nonneg, le_div_iff₀ hip]; linarith
      split_ifs with c1 c2
      · exact h0'
      · exact c2.le
      · exact le_rfl
    calc (1 + e) * iW ≤ ((W - g * t ^ 2) / iW) * iW := by
          apply mul_le_mul_of_nonneg_right _ hip.le; linarith
      _ = W - g * t ^ 2 := by field_simp
  rw [hm2]
  have : W - g * t ^ 2 + g * t ^ 2 = W := by ring
  rw [this]; linarith

/-- Starting the search at any point left of the root and within two tolerances of the end of the interval, the search does nothing and returns the midpoint. -/
theorem gC_search (eps : ℝ) (he0 : 0 ≤ eps) (W t : ℝ) (hW : 1 ≤ W) (ht : t ^ 2 = W ^ 2 - 1) (tol g : ℝ) (n : ℕ) (hn : 0 < n) (h0 : 0 ≤ g) (h1 : g ≤ 1 / W)
    (hg : 1 - g ≤ 2 * tol) :
    findMu 0 eps dust gB ⟨1, W - 1, 0, 0, t ^ 2, 0, t ^ 2 / W ^ 2, 0.5⟩ tol g n = .ret ((1 / 2) * (g + 1)) .success 0 := by
  set a : Aux := ⟨1, W - 1, 0, 0, t ^ 2, 0, t ^ 2 / W ^ 2, 0.5⟩ with ha
  have hWp : 0 < W := by linarith
  have hside := gC_root_side eps W t hW ht g h0 h1
  rw [← ha] at hside
  have haux : AuxOk a := ⟨le_rfl, sq_nonneg t, le_rfl, by simp only [ha]; positivity, by
    simp only [ha]; rw [div_lt_one (by positivity), ht]; linarith⟩
  have hS : SearchOk dust gB := ⟨by norm_num [gB], by intro r; simp [gB], by intro r; norm_num [gB], by intros; simp [dust]⟩
  have hend := (residual_bracketed 0 eps le_rfl he0 dust gB hS a haux).2
  have hg1 : g ≤ 1 := h1.trans (by rw [div_le_one hWp]; exact hW)
  have hprod : ¬ residual 0 eps dust gB a g * residual 0 eps dust gB a 1 > 0 := by
    have := mul_nonpos_of_nonpos_of_nonneg hside hend
    linarith
  have hr : RootFind.refineBracket (residual 0 eps dust gB a) g 0 1 = (g, 1, residual 0 eps dust gB a g, residual 0 eps dust gB a 1) := by
    unfold RootFind.refineBracket
    rw [if_pos ⟨h0, hg1⟩]
    simp only [if_neg hprod]
  unfold findMu RootFind.regulaFalsi
  simp only [hr, RootFind.checkBracket, if_neg hprod, Bool.not_true, Bool.false_eq_true, if_false]
  obtain ⟨k, rfl⟩ : ∃ k, n = k + 1 := ⟨n - 1, by omega⟩
  have hl : ∀ s y z, RootFind.falsiLoop (residual 0 eps dust gB a) s tol (k + 1 - 0) g 1 y z 0 0 = (some (g, 1), 0) := by
    intro s y z
    show RootFind.falsiLoop (residual 0 eps dust gB a) s tol (k + 1) g 1 y z 0 0 = _
    unfold RootFind.falsiLoop
    rw [if_neg (not_lt.2 hg)]
  simp only [hl, RootFind.finalStatus]
  simp

/-- C138, negation: for every tolerance there is a conserved state and two guesses for which the searches both report success and
the returned velocities differ.  (The state has a single root `1/W`; the guess equal to the root gives the less accurate result.) -/
theorem guess_matters (eps : ℝ) (he0 : 0 ≤ eps) (he1 : eps ≤ 1 / 2) (tol : ℝ) (htol : 0 < tol) (n : ℕ) (hn : 0 < n) :
    ∃ (c : Cons) (g g' x x' : ℝ), 0 ≤ g ∧ g ≤ 1 ∧ 0 ≤ g' ∧ g' ≤ 1 ∧ 0 < c.D ∧
      findMu 0 eps dust gB (prep true true false 0 flat 1 gB c).aux tol g n = .ret x .success 0 ∧
      findMu 0 eps dust gB (prep true true false 0 flat 1 gB c).aux tol g' n = .ret x' .success 0 ∧
      residual 0 eps dust gB (prep true true false 0 flat 1 gB c).aux x = 0 ∧
      (unwrap true true false false false 0 dust flat 1 gB c x).prim.v 0 <
        (unwrap true true false false false 0 dust flat 1 gB c x').prim.v 0 := by
  set z := max (3 / 4) (1 - tol / 2) with hz
  have z1 : z < 1 := by rw [hz]; apply max_lt (by norm_num); linarith
  have z0 : 3 / 4 ≤ z := le_max_left _ _
  have z2 : 1 - z ≤ tol / 2 := by have := le_max_right (3 / 4) (1 - tol / 2); rw [← hz] at this; linarith
  have zp : 0 < z := by linarith
  set W := 1 / z with hW
  have hWz : 1 / W = z := by rw [hW]; simp
  have W1 : 1 < W := by rw [hW, lt_div_iff₀ zp]; linarith
  have W2 : W ≤ 2 := by rw [hW, div_le_iff₀ zp]; linarith
  have hpos : 0 < W ^ 2 - 1 := by nlinarith
  set t := Real.sqrt (W ^ 2 - 1) with ht
  have ht2 : t ^ 2 = W ^ 2 - 1 := Real.sq_sqrt hpos.le
  have htp : 0 < t := Real.sqrt_pos.2 hpos
  have haux := gC_aux W t W1.le W2 ht2
  have s1 := gC_search eps he0 W t W1.le ht2 tol (2 * z - 1) n hn (by linarith) (by rw [hWz]; linarith) (by linarith)
  have s2 := gC_search eps he0 W t W1.le ht2 tol z n hn (by linarith) (by rw [hWz]) (by linarith)
  rw [show (1:ℝ) / 2 * (2 * z - 1 + 1) = z by ring] at s1
  have hvel : ∀ mu, z ≤ mu →
      (unwrap true true false false false 0 dust flat 1 gB (gC W t) mu).prim.v 0 = W * mu * t := by
    intro mu hmu
    set a := (prep true true false 0 flat 1 gB (gC W t)).aux with ha
    have hx : xMu 0 a mu = 1 := by rw [haux]; simp [xMu, ratio_zero]
    have hrb : rbarsq a mu 1 = t ^ 2 := by rw [haux]; simp [rbarsq]
    have hv : (vhatsq a mu (t ^ 2)).1 = t ^ 2 / W ^ 2 := by
      rw [vhatsq_eq, haux]
      apply min_eq_right
      show t ^ 2 / W ^ 2 ≤ mu * mu * t ^ 2
      have : t ^ 2 / W ^ 2 = z * z * t ^ 2 := by rw [← hWz]; field_simp
      rw [this]
      have : z * z ≤ mu * mu := mul_self_le_mul_self zp.le hmu
      exact mul_le_mul_of_nonneg_right this (sq_nonneg t)
    have hiW : iWhat (t ^ 2 / W ^ 2) = 1 / W := by
      unfold iWhat
      have : 1 - t ^ 2 / W ^ 2 = (1 / W) ^ 2 := by rw [ht2]; field_simp; ring
      rw [this, Real.sqrt_sq (by positivity)]
    show 1 / iWhat (vhatsq a mu (rbarsq a mu (xMu 0 a mu))).1 * mu * xMu 0 a mu *
      ((prep true true false 0 flat 1 gB (gC W t)).rcon 0 + mu * (prep true true false 0 flat 1 gB (gC W t)).bdotr *
        (prep true true false 0 flat 1 gB (gC W t)).bu 0) = _
    rw [hx, hrb, hv, hiW]
    have hr : (prep true true false 0 flat 1 gB (gC W t)).rcon 0 = t := by
      simp [prep, flat, gC, ratio_zero]
    have hbu : (prep true true false 0 flat 1 gB (gC W t)).bu 0 = 0 := by simp [prep, gC]
    rw [hr, hbu]; simp
  refine ⟨gC W t, 2 * z - 1, z, z, 1 / 2 * (z + 1), by linarith, by linarith, zp.le, z1.le, by simp [gC], ?_, ?_, ?_, ?_⟩
  · rw [haux]; exact s1
  · rw [haux]; exact s2
  · set q : Prim := ⟨z, 0, 0, ![t, 0, 0], fun _ => 0⟩ with hq
    have hl : lorentz flat.gam q.v = W := by
      have h1 := lorentz_sq flat flat_valid.2 q.v
      have h0 := lorentz_pos flat flat_valid.2 q.v
      have e : flat.dot3 q.v q.v = t ^ 2 := by simp [ADM.dot3, flat, Fin.sum_univ_three, hq]; ring
      rw [e, ht2] at h1
      nlinarith
    have hA : Admissible dust gB flat 0.5 q := by
      refine ⟨zp, by simp [gB, hq]; linarith, by simp [hq], by rw [hl]; simp [gB]; linarith, by simp [gB, hq], by simp [gB, hq],
        by simp [hq], rfl, rfl⟩
    obtain ⟨-, -, hres, -⟩ := c2p_recovers_state true false false false eps dust gB 1 0.5 q flat_valid.1 (by norm_num [flat]) flat_valid.2 one_pos
      (fun _ => rfl) hA (by simp only [hq]; linarith)
    have hmu : 1 / ((q.rho + q.u + q.P) / q.rho * lorentz flat.gam q.v) = z := by
      rw [hl]; simp [hq, zp.ne', hW]
    rw [hmu] at hres
    have hsame : (prep true true false 0 flat 1 gB (p2c true flat 1 0.5 q)).aux = (prep true true false 0 flat 1 gB (gC W t)).aux := by
      have hD : (p2c true flat 1 0.5 q).D = 1 := by
        show 1 * q.rho * lorentz flat.gam q.v = 1
        rw [hl]; simp only [hq, hW]; field_simp
      have hS : (p2c true flat 1 0.5 q).S = ![t, 0, 0] := by
        funext m
        rw [p2c_S true 1 _ _ flat_valid.1 (by norm_num [flat]) flat_valid.2, hl]
        have : z * W = 1 := by rw [hW]; field_simp
        fin_cases m <;> simp [flat, hq, ADM.dot3]
        calc z * W ^ 2 * (t / W) = z * W * t := by field_simp
          _ = t := by rw [this, one_mul]
      have hT := tauOf_p2c true 1 0.5 q flat_valid.1 (by norm_num [flat]) flat_valid.2 one_ne_zero
      have hT2 : (p2c true flat 1 0.5 q).tau = W - 1 := by
        have e : tauOf true flat 1 (p2c true flat 1 0.5 q) = (p2c true flat 1 0.5 q).tau := by simp [tauOf]
        rw [← e, hT, hl]
        have : z * W = 1 := by rw [hW]; field_simp
        simp [hq, ADM.dot3]
        linear_combination (W - 1) * this
      have hB : (p2c true flat 1 0.5 q).B = fun _ => 0 := by funext i; simp [p2c, hq]
      simp only [prep, tauOf, gC, hD, hS, hT2, hB]
      simp
    rw [hsame] at hres
    exact hres
  · rw [hvel z le_rfl, hvel _ (by linarith)]
    have hWt : 0 < W * t := by positivity
    nlinarith

end Phoebus.C2P
