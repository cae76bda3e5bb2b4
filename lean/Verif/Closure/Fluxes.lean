import Verif.Closure.M1

/-!
# Fluxes and checks of the radiation closure, against the stress-energy tensor
-/
namespace Phoebus.Closure
open Geom Robust LinAlg Finset Rel

/-- **C46** The inner product of two covectors is the pairing of one with the other raised. -/
theorem ccov_eq (G : ADM ℝ) (a b : Vec) : ccov G a b = cc a (raise G b) := by
  simp only [ccov, cc, raise, Fin.sum_univ_three]; ring

/-- **C46** The momentum fluxes are those of the stress-energy tensor: `alpha P^i_j - beta^i F_j = alpha T^i_j`, which is what makes the
evolved momentum equation the conservation law of `T`. -/
theorem momentum_flux_tensor {G : ADM ℝ} (hG : G.Valid) {v : Vec} (Pi : Tens2) (num : Bool) (J : ℝ) (H : Vec) (i j : Fin 3) :
    (fluxes num G v Pi J H).2 i j - G.beta i * (prim2con false G v Pi J H).2 j =
      G.alpha * ∑ n, radT G v Pi J H i.succ n * G.g4 n j.succ := by
  have ha := hG.alpha_ne
  have hgi : ∑ n, G.g4Inv i.succ n * G.g4 n j.succ = if i = j then 1 else 0 := by
    rw [ADM.g4Inv_mul hG]; simp
  have hn : ∑ n, normal G n * G.g4 n j.succ = 0 := by
    rw [Fin.sum_univ_succ]
    simp only [normal, Fin.cons_zero, Fin.cons_succ, ADM.g4_0s, ADM.g4_ss, ADM.betaCov]
    rw [mul_sum, ← sum_add_distrib]
    refine sum_eq_zero fun k _ => ?_
    rw [hG.symm k j]; field_simp; ring
  have hsp : ∀ x : Vec, ∑ n, spatial x n * G.g4 n j.succ = lower G x j := by
    intro x
    rw [Fin.sum_univ_succ]
    simp only [spatial, Fin.cons_zero, Fin.cons_succ, ADM.g4_ss, zero_mul, zero_add, lower]
    exact sum_congr rfl fun k _ => by rw [hG.symm k j]
  have hrow : ∀ n, radT G v Pi J H i.succ n =
      (J * 4 / 3 * W G v * W G v * (v i - G.beta i / G.alpha) + W G v * (raise G H i - cc v H * G.beta i / G.alpha)) * (normal G n + spatial v n)
        + W G v * (v i - G.beta i / G.alpha) * (cc v H * normal G n + spatial (raise G H) n)
        + J * (vvPi G v Pi * (-G.beta i / G.alpha) * normal G n + -G.beta i / G.alpha * spatial (conVPi G v Pi) n + conVPi G v Pi i * normal G n
          + spatial (Pi i) n) + J / 3 * G.g4Inv i.succ n := by
    intro n
    simp only [radT, fluidU, restVec, restTens, dot_raise hG]
    have h0 : normal G i.succ = -G.beta i / G.alpha := rfl
    have h1 : ∀ x : Vec, spatial x i.succ = x i := fun _ => rfl
    have h2 : (Fin.cons 0 (Pi i) : Fin 4 → ℝ) n = spatial (Pi i) n := rfl
    simp only [Fin.cons_succ, h0, h1, h2]
    ring
  have hsum : ∑ n, radT G v Pi J H i.succ n * G.g4 n j.succ =
      (J * 4 / 3 * W G v * W G v * (v i - G.beta i / G.alpha) + W G v * (raise G H i - cc v H * G.beta i / G.alpha)) *
        (∑ n, normal G n * G.g4 n j.succ + ∑ n, spatial v n * G.g4 n j.succ)
      + W G v * (v i - G.beta i / G.alpha) * (cc v H * ∑ n, normal G n * G.g4 n j.succ + ∑ n, spatial (raise G H) n * G.g4 n j.succ)
      + J * (vvPi G v Pi * (-G.beta i / G.alpha) * ∑ n, normal G n * G.g4 n j.succ
        + -G.beta i / G.alpha * ∑ n, spatial (conVPi G v Pi) n * G.g4 n j.succ + conVPi G v Pi i * ∑ n, normal G n * G.g4 n j.succ
        + ∑ n, spatial (Pi i) n * G.g4 n j.succ) + J / 3 * ∑ n, G.g4Inv i.succ n * G.g4 n j.succ := by
    simp only [hrow, Fin.sum_univ_four]; ring
  have hl : lower G (Pi i) j = ∑ k, Pi i k * G.gam k j := by
    unfold lower; exact sum_congr rfl fun k _ => by rw [hG.symm k j]
  rw [hsum, hn, hgi, hsp, hsp, hsp, hsp, lower_raise hG, hl]
  simp only [fluxes, concovP, prim2con, covVPi, W2]
  obtain ⟨q, hq⟩ : ∃ q, q = G.beta i / G.alpha := ⟨_, rfl⟩
  have hb : G.beta i = q * G.alpha := by rw [hq]; field_simp
  have hq2 : -G.beta i / G.alpha = -q := by rw [hq]; ring
  rw [hq2, ← hq]
  have hq3 : cc v H * G.beta i / G.alpha = cc v H * q := by rw [hq]; ring
  rw [hq3, hb]
  split_ifs <;> norm_num <;> ring

/-- **C46** The energy flux is that of the stress-energy tensor, `alpha F^i - beta^i E = alpha^2 T^{0i}`, `E` its Eulerian energy density. -/
theorem energy_flux_tensor {G : ADM ℝ} (hG : G.Valid) {v : Vec} (Pi : Tens2) (J : ℝ) (H : Vec) (i : Fin 3) :
    (fluxes false G v Pi J H).1 i - G.beta i * (G.alpha ^ 2 * radT G v Pi J H 0 0) = G.alpha ^ 2 * radT G v Pi J H 0 i.succ := by
  have ha := hG.alpha_ne
  have hrl : ∀ x : Vec, raise G (lower G x) i = x i := by
    intro x
    have : raise G (lower G x) i = ∑ k, (∑ j, G.gamInv i j * G.gam j k) * x k := by
      simp only [lower, raise, Fin.sum_univ_three]; ring
    rw [this]; simp only [hG.inv']; simp
  have hadd : raise G (prim2con false G v Pi J H).2 i = 4 * W2 G v / 3 * raise G (lower G v) i * J + W G v * raise G (lower G v) i * cc v H +
      W G v * raise G H i + J * raise G (covVPi G v Pi) i := by
    simp only [prim2con, raise, Fin.sum_univ_three]; ring
  simp only [fluxes, Bool.false_eq_true, if_false]
  rw [hadd]
  simp only [covVPi, hrl]
  simp only [radT, fluidU, restVec, restTens, normal, spatial, Fin.cons_zero, Fin.cons_succ, ADM.g4Inv_00, ADM.g4Inv_0s, dot_raise hG, W2]
  field_simp
  ring

/-- **C46** What the status of the inversion says: success exactly for a positive energy density and a subluminal flux … -/
theorem check_success_iff (rob : Bool) (SMALL : ℝ) (G : ADM ℝ) (v : Vec) (J : ℝ) (H : Vec) (hq : 0 ≤ hsq G v H) :
    (con2primCheck rob SMALL G v J H).1 = Status.success ↔ 0 < J ∧ Real.sqrt (hsq G v H) < J := by
  have h0 := Real.sqrt_nonneg (hsq G v H)
  rcases lt_trichotomy J 0 with hJ | hJ | hJ
  · have : con2primCheck rob SMALL G v J H = con2primCheck rob SMALL G v J H := rfl
    simp only [con2primCheck]
    rw [if_neg (by push Not; exact ⟨hq, fun h => absurd h hJ.ne⟩), if_pos (Or.inl hJ)]
    cases rob <;> simp <;> intro h <;> linarith
  · subst hJ
    simp only [con2primCheck]
    split_ifs <;> simp_all
  · simp only [con2primCheck]
    rw [if_neg (by push Not; exact ⟨hq, fun h => absurd h hJ.ne'⟩)]
    by_cases hx : 1 ≤ Real.sqrt (hsq G v H) / J
    · rw [if_pos (Or.inr (Or.inr hx))]
      rw [one_le_div hJ] at hx
      cases rob <;> simp <;> intro _ <;> linarith
    · rw [if_neg (by push Not; exact ⟨hJ.le, hJ.ne', not_le.1 hx⟩)]
      rw [one_le_div hJ] at hx
      simp [hJ]; linarith

/-- … failure exactly for vacuum (no energy, no flux: the flux factor is `0/0`) or, without the robust strategy, an inadmissible state; -/
theorem check_failure_iff (rob : Bool) (SMALL : ℝ) (G : ADM ℝ) (v : Vec) (J : ℝ) (H : Vec) (hq : 0 ≤ hsq G v H) :
    (con2primCheck rob SMALL G v J H).1 = Status.failure ↔
      (J = 0 ∧ hsq G v H = 0) ∨ (rob = false ∧ ¬ (0 < J ∧ Real.sqrt (hsq G v H) < J)) := by
  by_cases hv : J = 0 ∧ hsq G v H = 0
  · simp [con2primCheck, hv]
  · have hs := check_success_iff rob SMALL G v J H hq
    by_cases hok : 0 < J ∧ Real.sqrt (hsq G v H) < J
    · have := hs.2 hok
      rw [this]; simp [hv, hok]
    · have hne : (con2primCheck rob SMALL G v J H).1 ≠ Status.success := fun h => hok (hs.1 h)
      simp only [hv, hok, not_false_eq_true, and_true, false_or]
      simp only [con2primCheck] at hne ⊢
      rw [if_neg (by rw [not_or]; exact ⟨not_lt.2 hq, hv⟩)] at hne ⊢
      by_cases h1 : J < 0 ∨ J = 0 ∨ 1 ≤ Real.sqrt (hsq G v H) / J
      · rw [if_pos h1]
        cases rob <;> simp
      · rw [if_neg h1] at hne
        exact absurd rfl hne

/-- … and the state is altered only under the robust strategy: without it the result is the linear inversion itself; with it every
inadmissible state with a flux is altered. -/
theorem con2prim_strategy (small SMALL : ℝ) (num : Bool) (G : ADM ℝ) (v : Vec) (Pi : Tens2) (E0 : ℝ) (F : Vec) :
    (con2prim small num false SMALL G v Pi E0 F).1 ≠ Status.modified ∧
    (con2prim small num false SMALL G v Pi E0 F).2 = con2primRaw small num G v Pi E0 F ∧
    ((con2prim small num true SMALL G v Pi E0 F).1 ≠ Status.success → 0 < hsq G v (con2primRaw small num G v Pi E0 F).2 →
      (con2prim small num true SMALL G v Pi E0 F).1 = Status.modified) := by
  refine ⟨?_, ?_, ?_⟩
  · simp only [con2prim, con2primCheck]
    split_ifs <;> simp_all
  · simp only [con2prim, con2primCheck]
    split_ifs <;> simp_all
  · intro h hq
    by_contra hc
    have hf : (con2prim small num true SMALL G v Pi E0 F).1 = Status.failure := by
      cases hh : (con2prim small num true SMALL G v Pi E0 F).1 with
      | success => exact absurd hh h
      | failure => rfl
      | modified => exact absurd hh hc
    unfold con2prim at hf
    rw [check_failure_iff _ _ _ _ _ _ hq.le] at hf
    rcases hf with h1 | h1
    · exact hq.ne' h1.2
    · simp at h1

/-- **C48** The direction residual vanishes when the assumed direction is that of the recovered flux: `f` is the unit vector along `H`
and the projection of `H` on it is the magnitude of `H`. -/
theorem residual_direction {G : ADM ℝ} (hG : G.Valid) (v : Vec) (xi J : ℝ) (H : Vec) (hq : 0 < hsq G v H) :
    (m1ResidualOf 0 G v (fluxDir 0 G v H) xi J H).2 = 0 := by
  have e : cc H (raise G H) - cc H v ^ 2 = hsq G v H := by rw [hsq, ccov_eq, cc_comm H v]
  have hs := Real.sqrt_pos.2 hq
  have e1 : cc H (fluxDir 0 G v H) = cc H (raise G H) / Real.sqrt (hsq G v H) := by
    simp only [cc, fluxDir, ratio_zero, ← e, Fin.sum_univ_three]; ring
  have e2 : cc (lower G v) (fluxDir 0 G v H) = cc v H / Real.sqrt (hsq G v H) := by
    have : cc (lower G v) (raise G H) = cc v H := by
      rw [← cc_lower_symm hG, cc_lower, dot_raise hG]
    rw [← this, ← e]
    simp only [cc, fluxDir, ratio_zero, Fin.sum_univ_three]; ring
  simp only [m1ResidualOf]
  rw [e1, e2, show ccov G H H - cc v H ^ 2 = hsq G v H from rfl]
  have e3 : cc H (raise G H) = hsq G v H + cc v H ^ 2 := by rw [← e, cc_comm H v]; ring
  rw [e3]
  have h4 := Real.mul_self_sqrt hq.le
  field_simp
  nlinarith

end Phoebus.Closure
