import Verif.Bondi.Model
import Mathlib.Topology.Order.IntermediateValue
import Mathlib.Analysis.SpecificLimits.Basic

/-! # C89: the bisection of the Bondi solver -/
namespace Phoebus.Bondi
open Real

variable {F : ℝ → ℝ} {Tmin Tmax rtol ftol : ℝ}

/-- loop invariant. -/
structure Inv (F : ℝ → ℝ) (Tmin Tmax : ℝ) (s : Bis) : Prop where
  lo : Tmin ≤ s.T0
  hi : s.T1 ≤ Tmax
  lt : s.T0 < s.T1
  mid : s.Th = (s.T0 + s.T1) / 2
  e0 : s.f0 = F s.T0
  e1 : s.f1 = F s.T1
  eh : s.fh = F s.Th
  n0 : s.f0 ≠ 0
  sgn : s.f0 * s.f1 ≤ 0

theorem inv_start (hlt : Tmin < Tmax) (h0 : F Tmin ≠ 0) (hs : F Tmin * F Tmax ≤ 0) :
    Inv F Tmin Tmax (Bis.start F Tmin Tmax) :=
  ⟨le_refl _, le_refl _, hlt, by simp only [Bis.start]; norm_num; ring, rfl, rfl, rfl, h0, hs⟩

theorem inv_step {s : Bis} (h : Inv F Tmin Tmax s) (hh : s.fh ≠ 0) :
    Inv F Tmin Tmax (s.step F) ∧ (s.step F).T1 - (s.step F).T0 = (s.T1 - s.T0) / 2 := by
  have hm := h.mid
  have hl := h.lt
  by_cases hc : s.fh * s.f0 < 0
  · have e : s.step F = ⟨s.T0, s.f0, s.Th, s.fh, 0.5 * (s.T0 + s.Th), F (0.5 * (s.T0 + s.Th))⟩ := by
      simp only [Bis.step, if_pos hc]
    rw [e]
    refine ⟨⟨h.lo, ?_, ?_, ?_, h.e0, h.eh, rfl, h.n0, ?_⟩, ?_⟩
    · show s.Th ≤ Tmax; have := h.hi; linarith
    · show s.T0 < s.Th; linarith
    · show 0.5 * (s.T0 + s.Th) = (s.T0 + s.Th) / 2; norm_num; ring
    · show s.f0 * s.fh ≤ 0; linarith
    · show s.Th - s.T0 = _; linarith
  · have e : s.step F = ⟨s.Th, s.fh, s.T1, s.f1, 0.5 * (s.Th + s.T1), F (0.5 * (s.Th + s.T1))⟩ := by
      simp only [Bis.step, if_neg hc]
    rw [e]
    refine ⟨⟨?_, h.hi, ?_, ?_, h.eh, h.e1, rfl, hh, ?_⟩, ?_⟩
    · show Tmin ≤ s.Th; have := h.lo; linarith
    · show s.Th < s.T1; linarith
    · show 0.5 * (s.Th + s.T1) = (s.Th + s.T1) / 2; norm_num; ring
    · show s.fh * s.f1 ≤ 0
      have h1 := h.sgn
      have h2 : 0 ≤ s.fh * s.f0 := not_lt.1 hc
      rcases lt_or_gt_of_ne h.n0 with h3 | h3
      · have h4 : s.fh ≤ 0 := by by_contra h5; nlinarith [not_le.1 h5]
        have h6 : 0 ≤ s.f1 := by by_contra h5; nlinarith [not_le.1 h5]
        exact mul_nonpos_of_nonpos_of_nonneg h4 h6
      · have h4 : 0 ≤ s.fh := by by_contra h5; nlinarith [not_le.1 h5]
        have h6 : s.f1 ≤ 0 := by by_contra h5; nlinarith [not_le.1 h5]
        exact mul_nonpos_of_nonneg_of_nonpos h4 h6
    · show s.T1 - s.Th = _; linarith

theorem inv_iter (hf : 0 ≤ ftol) {s : Bis} (h : Inv F Tmin Tmax s) (k : ℕ)
    (hc : ∀ i < k, ((Bis.step F)^[i] s).cont rtol ftol) :
    Inv F Tmin Tmax ((Bis.step F)^[k] s) ∧
      ((Bis.step F)^[k] s).T1 - ((Bis.step F)^[k] s).T0 = (s.T1 - s.T0) / 2 ^ k := by
  induction k with
  | zero => exact ⟨h, by simp⟩
  | succ k ih =>
    obtain ⟨h1, h2⟩ := ih fun i hi => hc i (Nat.lt_succ_of_lt hi)
    have h3 := (hc k (Nat.lt_succ_self k)).2
    have h4 : ((Bis.step F)^[k] s).fh ≠ 0 := by
      intro h5; rw [h5, abs_zero] at h3; linarith
    obtain ⟨h5, h6⟩ := inv_step h1 h4
    rw [Function.iterate_succ_apply']
    exact ⟨h5, by rw [h6, h2, pow_succ]; field_simp⟩

/-- **C89** For every continuous function with a strict sign at the left end and opposite (or zero) sign at the right
end of a positive bracket, the bisection terminates, and returns a point of the bracket that either makes the residual
smaller than `ftol` or lies within half the relative tolerance of a genuine root. -/
theorem bisect_spec (hr : 0 < rtol) (hf : 0 ≤ ftol) (h0 : 0 < Tmin) (hlt : Tmin < Tmax)
    (hF : ContinuousOn F (Set.Icc Tmin Tmax)) (hn : F Tmin ≠ 0) (hs : F Tmin * F Tmax ≤ 0) :
    ∃ T, bisect rtol ftol F Tmin Tmax = .value T ∧ Tmin ≤ T ∧ T ≤ Tmax ∧
      (|F T| ≤ ftol ∨ ∃ R, Tmin ≤ R ∧ R ≤ Tmax ∧ F R = 0 ∧ |T - R| ≤ rtol * T / 2) := by
  classical
  set s := Bis.start F Tmin Tmax with hsdef
  have hinv : Inv F Tmin Tmax s := inv_start hlt hn hs
  have hex : ∃ k, ¬ ((Bis.step F)^[k] s).cont rtol ftol := by
    by_contra hcon
    push Not at hcon
    obtain ⟨k, hk⟩ := exists_pow_lt_of_lt_one (show (0 : ℝ) < rtol * Tmin / (Tmax - Tmin) by
      have : 0 < Tmax - Tmin := by linarith
      positivity) (show (1 / 2 : ℝ) < 1 by norm_num)
    obtain ⟨h1, h2⟩ := inv_iter (rtol := rtol) hf hinv k fun i _ => hcon i
    have h3 := (hcon k).1
    have h4 : 0 < Tmax - Tmin := by linarith
    have h5 : Tmin ≤ ((Bis.step F)^[k] s).Th := by have := h1.mid; have := h1.lo; have := h1.lt; linarith
    have h6 : s.T1 - s.T0 = Tmax - Tmin := rfl
    rw [h2, h6, gt_iff_lt, lt_div_iff₀ (by linarith)] at h3
    rw [one_div, inv_pow, lt_div_iff₀ h4] at hk
    have h7 : (2 ^ k : ℝ)⁻¹ * (Tmax - Tmin) = (Tmax - Tmin) / 2 ^ k := by field_simp
    rw [h7] at hk
    nlinarith
  have hb : bisect rtol ftol F Tmin Tmax = .value ((Bis.step F)^[Nat.find hex] s).Th := by
    unfold bisect
    rw [if_neg (not_lt.2 hs), dif_pos hex]
  obtain ⟨h1, -⟩ := inv_iter (rtol := rtol) hf hinv (Nat.find hex) fun i hi => not_not.1 (Nat.find_min hex hi)
  have hstop := Nat.find_spec hex
  set q := (Bis.step F)^[Nat.find hex] s with hq
  have hm := h1.mid
  have hlo := h1.lo
  have hhi := h1.hi
  have hl := h1.lt
  refine ⟨q.Th, hb, by linarith, by linarith, ?_⟩
  unfold Bis.cont at hstop
  rw [not_and_or] at hstop
  rcases hstop with h | h
  · right
    have hw : q.T1 - q.T0 ≤ rtol * q.Th := by
      rw [gt_iff_lt, not_lt, div_le_iff₀ (by linarith)] at h; exact h
    have hsg := h1.sgn
    rw [h1.e0, h1.e1] at hsg
    have hcont : ContinuousOn F (Set.Icc q.T0 q.T1) := hF.mono (Set.Icc_subset_Icc hlo hhi)
    have hroot : ∃ R ∈ Set.Icc q.T0 q.T1, F R = 0 := by
      rcases le_total (F q.T0) 0 with h3 | h3
      · rcases le_total 0 (F q.T1) with h4 | h4
        · obtain ⟨R, hR, hR'⟩ := intermediate_value_Icc hl.le hcont ⟨h3, h4⟩
          exact ⟨R, hR, hR'⟩
        · have h5 := h1.n0
          rw [h1.e0] at h5
          have h6 : F q.T0 < 0 := lt_of_le_of_ne h3 h5
          exact ⟨q.T1, ⟨hl.le, le_refl _⟩, by nlinarith⟩
      · rcases le_total (F q.T1) 0 with h4 | h4
        · obtain ⟨R, hR, hR'⟩ := intermediate_value_Icc' hl.le hcont ⟨h4, h3⟩
          exact ⟨R, hR, hR'⟩
        · have h5 := h1.n0
          rw [h1.e0] at h5
          have h6 : 0 < F q.T0 := lt_of_le_of_ne h3 h5.symm
          exact ⟨q.T1, ⟨hl.le, le_refl _⟩, by nlinarith⟩
    obtain ⟨R, ⟨hR1, hR2⟩, hR3⟩ := hroot
    refine ⟨R, by linarith, by linarith, hR3, ?_⟩
    rw [abs_le]; constructor <;> linarith
  · left
    rw [gt_iff_lt, not_lt, h1.eh] at h; exact h

/-- **C89** With equal strict signs at the ends the setup aborts. -/
theorem bisect_abort (hs : 0 < F Tmin * F Tmax) : bisect rtol ftol F Tmin Tmax = .abort := by
  unfold bisect; rw [if_pos hs]

/-- **C89** (defect) When the left end is itself the root and the function is positive to its right, the root is
discarded: the value returned is at least the first midpoint. -/
theorem bisect_left_root (hlt : Tmin < Tmax) (h0 : F Tmin = 0) (hpos : ∀ T, Tmin < T → T ≤ Tmax → 0 < F T) {T : ℝ}
    (h : bisect rtol ftol F Tmin Tmax = .value T) : (Tmin + Tmax) / 2 ≤ T := by
  classical
  have key : ∀ k, let q := (Bis.step F)^[k] (Bis.start F Tmin Tmax)
      q.T1 = Tmax ∧ Tmin ≤ q.T0 ∧ q.T0 < Tmax ∧ q.Th = (q.T0 + q.T1) / 2 ∧ q.f0 = F q.T0 ∧ q.fh = F q.Th := by
    intro k
    induction k with
    | zero => exact ⟨rfl, le_refl _, hlt, by simp [Bis.start]; norm_num; ring, rfl, rfl⟩
    | succ k ih =>
      simp only [Function.iterate_succ_apply'] at ih ⊢
      obtain ⟨h1, h2, h3, h4, h5, h6⟩ := ih
      generalize (Bis.step F)^[k] (Bis.start F Tmin Tmax) = q at *
      have hTh : Tmin < q.Th ∧ q.Th < Tmax := by rw [h4, h1]; constructor <;> linarith
      have hfh : 0 < q.fh := by rw [h6]; exact hpos _ hTh.1 hTh.2.le
      have hf0 : 0 ≤ q.f0 := by
        rw [h5]
        rcases eq_or_lt_of_le h2 with e | e
        · rw [← e, h0]
        · exact (hpos _ e h3.le).le
      have hc : ¬ q.fh * q.f0 < 0 := not_lt.2 (mul_nonneg hfh.le hf0)
      have e : q.step F = ⟨q.Th, q.fh, q.T1, q.f1, 0.5 * (q.Th + q.T1), F (0.5 * (q.Th + q.T1))⟩ := by
        simp only [Bis.step, if_neg hc]
      rw [e]
      exact ⟨h1, hTh.1.le, hTh.2, by norm_num; ring, h6, rfl⟩
  unfold bisect at h
  rw [if_neg (by rw [h0, zero_mul]; exact lt_irrefl _)] at h
  split at h
  · rename_i hex
    injection h with h
    obtain ⟨h1, h2, h3, h4, -, -⟩ := key (Nat.find hex)
    rw [← h, h4, h1]; linarith
  · exact absurd h (by simp)

end Phoebus.Bondi
