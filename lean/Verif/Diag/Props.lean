import Verif.Diag.Model

/-!
# C121, C122: the geometry self-check and the inversion statistics
-/
namespace Phoebus.Diag
variable {K : Type*} [Field K] [LinearOrder K] [IsStrictOrderedRing K]

/-! ### C121: the geometry self-check -/

/-- **C121 (what is detected)**: for a pair with nonnegative sum the error lies between zero and the difference and is zero exactly when the
two values agree.

Partial form of C121. Full property: The self-check of cached geometry reports the largest relative deviation between
cached and analytic geometry and reports zero only when they agree. Missing: Exact: the error measure sees only pairs
with positive sum (relErr_blind, check_blind_witness). -/
theorem relErr_detects_partial (small : K) (hs : 0 < small) (a b : K) (h : 0 ≤ a + b) :
    0 ≤ relErr small a b ∧ relErr small a b ≤ |a - b| ∧ (relErr small a b = 0 ↔ a = b) := by
  have hd : 0 < a + b + 1 * small := by linarith
  have hr : Robust.ratio small |a - b| (a + b) = |a - b| / (a + b + 1 * small) := by
    unfold Robust.ratio; rw [if_pos h]
  have hq : 0 ≤ |a - b| / (a + b + 1 * small) := div_nonneg (abs_nonneg _) hd.le
  unfold relErr
  rw [hr]
  refine ⟨le_min (by linarith) (abs_nonneg _), min_le_right _ _, ?_, ?_⟩
  · intro h0
    by_contra hne
    have hp : 0 < |a - b| := abs_pos.2 (sub_ne_zero.2 hne)
    have : 0 < min (2 * (|a - b| / (a + b + 1 * small))) |a - b| := lt_min (by positivity) hp
    linarith
  · rintro rfl; simp

/-- **C121 (deviation: what is missed)**: for a pair with negative sum - a negative metric component such as `g_tt` - the "error" is negative
whenever the values differ. -/
theorem relErr_blind (small : K) (hs : 0 < small) (a b : K) (h : a + b < 0) (hne : a ≠ b) : relErr small a b < 0 := by
  have hr : Robust.ratio small |a - b| (a + b) = |a - b| / (a + b + -1 * small) := by
    unfold Robust.ratio; rw [if_neg (not_le.2 h)]
  have hp : 0 < |a - b| := abs_pos.2 (sub_ne_zero.2 hne)
  unfold relErr
  rw [hr]
  apply min_lt_of_left_lt
  have : |a - b| / (a + b + -1 * small) < 0 := div_neg_of_pos_of_neg hp (by linarith)
  linarith

/-- exact agreement always gives zero. -/
theorem relErr_self (small a : K) : relErr small a a = 0 := by simp [relErr, Robust.ratio]

omit [IsStrictOrderedRing K] in
theorem report_foldl (small : K) (l : List (K × K)) (x : K) :
    l.foldl (accum small) (some x) = some (l.foldl (fun y p => max y (relErr small p.1 p.2)) x) := by
  induction l generalizing x with
  | nil => rfl
  | cons p l ih => rw [List.foldl_cons, List.foldl_cons]; exact ih _

omit [IsStrictOrderedRing K] in
theorem foldl_max_spec (small : K) (l : List (K × K)) (x : K) :
    x ≤ l.foldl (fun y p => max y (relErr small p.1 p.2)) x ∧
    (∀ p ∈ l, relErr small p.1 p.2 ≤ l.foldl (fun y p => max y (relErr small p.1 p.2)) x) ∧
    (l.foldl (fun y p => max y (relErr small p.1 p.2)) x = x ∨
      ∃ p ∈ l, l.foldl (fun y p => max y (relErr small p.1 p.2)) x = relErr small p.1 p.2) := by
  induction l generalizing x with
  | nil => simp
  | cons p l ih =>
    rw [List.foldl_cons]
    obtain ⟨h1, h2, h3⟩ := ih (max x (relErr small p.1 p.2))
    refine ⟨(le_max_left _ _).trans h1, ?_, ?_⟩
    · intro q hq
      rcases List.mem_cons.1 hq with rfl | hq
      · exact (le_max_right _ _).trans h1
      · exact h2 q hq
    · rcases h3 with h3 | ⟨q, hq, h3⟩
      · rcases max_choice x (relErr small p.1 p.2) with hm | hm
        · left; rw [h3, hm]
        · right; exact ⟨p, by simp, by rw [h3, hm]⟩
      · right; exact ⟨q, by simp [hq], h3⟩

omit [IsStrictOrderedRing K] in
/-- **C121 (reduction)**: the printed number is the largest of the individual errors. -/
theorem report_max (small : K) (p : K × K) (l : List (K × K)) :
    ∃ x, report small (p :: l) = some x ∧ (∀ q ∈ p :: l, relErr small q.1 q.2 ≤ x) ∧ ∃ q ∈ p :: l, x = relErr small q.1 q.2 := by
  refine ⟨l.foldl (fun y p => max y (relErr small p.1 p.2)) (relErr small p.1 p.2), ?_, ?_, ?_⟩
  · unfold report; rw [List.foldl_cons]; exact report_foldl small l _
  · obtain ⟨h1, h2, -⟩ := foldl_max_spec small l (relErr small p.1 p.2)
    intro q hq
    rcases List.mem_cons.1 hq with rfl | hq
    · exact h1
    · exact h2 q hq
  · obtain ⟨-, -, h3⟩ := foldl_max_spec small l (relErr small p.1 p.2)
    rcases h3 with h3 | ⟨q, hq, h3⟩
    · exact ⟨p, by simp, h3⟩
    · exact ⟨q, by simp [hq], h3⟩

/-- **C121**: if all compared pairs have nonnegative sums, the printed error is zero exactly when cached and analytic geometry agree everywhere. -/
theorem report_zero_iff (small : K) (hs : 0 < small) (p : K × K) (l : List (K × K)) (hpos : ∀ q ∈ p :: l, 0 ≤ q.1 + q.2) :
    report small (p :: l) = some 0 ↔ ∀ q ∈ p :: l, q.1 = q.2 := by
  obtain ⟨x, hx, hge, q, hq, hxe⟩ := report_max small p l
  rw [hx, Option.some.injEq]
  constructor
  · rintro rfl r hr
    have h1 := relErr_detects_partial small hs r.1 r.2 (hpos r hr)
    exact h1.2.2.1 (le_antisymm (hge r hr) h1.1)
  · intro h
    rw [hxe, h q hq, relErr_self]

/-- **C121 (deviation)**: pairs with negative sum never influence the printed error as soon as one compared pair agrees or has a nonnegative
sum: the report is the same as if they had not been compared at all - however large the disagreement. -/
theorem report_ignores (small : K) (hs : 0 < small) (p : K × K) (hp : 0 ≤ p.1 + p.2 ∨ p.1 = p.2) (l : List (K × K)) :
    report small (p :: l) = report small (p :: l.filter fun q => decide (0 ≤ q.1 + q.2 ∨ q.1 = q.2)) := by
  have h0 : 0 ≤ relErr small p.1 p.2 := by
    rcases hp with hp | hp
    · exact (relErr_detects_partial small hs _ _ hp).1
    · rw [hp, relErr_self]
  unfold report
  rw [List.foldl_cons, List.foldl_cons]
  simp only [accum]
  rw [report_foldl, report_foldl]
  congr 1
  generalize relErr small p.1 p.2 = x at h0 ⊢
  induction l generalizing x with
  | nil => rfl
  | cons q l ih =>
    rw [List.foldl_cons]
    by_cases hq : 0 ≤ q.1 + q.2 ∨ q.1 = q.2
    · rw [List.filter_cons_of_pos (by simpa using hq), List.foldl_cons]
      exact ih _ (h0.trans (le_max_left _ _))
    · rw [List.filter_cons_of_neg (by simpa using hq)]
      push Not at hq
      rw [max_eq_left ((relErr_blind small hs _ _ hq.1 hq.2).le.trans h0)]
      exact ih _ h0

/-- **C121 (witness)**: analytic `g_tt = -1`, cached `g_tt = -100`, everything else exact: the check prints zero. -/
theorem check_blind_witness : report (1/1000 : ℚ) [(-1, -100), (1, 1)] = some 0 ∧ exitStatus (some (0 : ℚ)) ≠ 0 := by
  refine ⟨by decide +kernel, by decide⟩

/-- the positive counterpart is detected. -/
theorem check_sees : report (1/1000 : ℚ) [(1, 100), (1, 1)] ≠ some 0 := by decide +kernel

/-! ### C122: inversion statistics -/

theorem add_hist (vals : List ℤ) (s : Stats) (k : ℤ) :
    ((vals.foldl Stats.add s).hist k).getD 0 = (s.hist k).getD 0 + vals.count k := by
  induction vals generalizing s with
  | nil => simp
  | cons v l ih =>
    rw [List.foldl_cons, ih, List.count_cons]
    by_cases h : k = v
    · subst h
      cases hk : s.hist k <;> simp [Stats.add, hk]
      · omega
      · omega
    · have h' : ¬ v = k := fun e => h e.symm
      simp [Stats.add, h, h']

theorem add_max (vals : List ℤ) (s : Stats) : (vals.foldl Stats.add s).maxVal = vals.foldl max s.maxVal := by
  induction vals generalizing s with
  | nil => rfl
  | cons v l ih =>
    rw [List.foldl_cons, List.foldl_cons, ih]
    congr 1
    simp only [Stats.add]
    split_ifs with h
    · rw [max_eq_right h.le]
    · rw [max_eq_left (not_lt.1 h)]

theorem foldl_max_ge (vals : List ℤ) (m : ℤ) : m ≤ vals.foldl max m ∧ ∀ v ∈ vals, v ≤ vals.foldl max m := by
  induction vals generalizing m with
  | nil => simp
  | cons v l ih =>
    rw [List.foldl_cons]
    obtain ⟨h1, h2⟩ := ih (max m v)
    refine ⟨(le_max_left _ _).trans h1, ?_⟩
    intro w hw
    rcases List.mem_cons.1 hw with rfl | hw
    · exact (le_max_right _ _).trans h1
    · exact h2 w hw

/-- **C122 (counts)**: every line `i n` of the statistics file is right: `n` of the inversions needed `i` iterations. -/
theorem stats_lines (vals : List ℤ) (i : ℤ) (n : ℕ) (h : (i, n) ∈ statsFile vals) : 0 ≤ i ∧ n = vals.count i := by
  unfold statsFile Stats.lines at h
  rw [List.mem_map] at h
  obtain ⟨j, -, hj⟩ := h
  rw [Prod.mk.injEq] at hj
  obtain ⟨rfl, rfl⟩ := hj
  refine ⟨by positivity, ?_⟩
  rw [add_hist]; simp [Stats.init]

/-- **C122 (completeness)**: every iteration count that occurred has its line.

Partial form of C122. Full property: The iteration histogram written by con2prim_statistics lists every used iteration
count once with its number of occurrences, independent of order. Missing: Right on one rank; several ranks overwrite
the file (stats_two_ranks). -/
theorem stats_complete_partial (vals : List ℤ) (i : ℤ) (hi : i ∈ vals) (h0 : 0 ≤ i) : (i, vals.count i) ∈ statsFile vals := by
  unfold statsFile Stats.lines
  rw [List.mem_map]
  refine ⟨i.toNat, ?_, ?_⟩
  · rw [List.mem_range, add_max]
    have := (foldl_max_ge vals Stats.init.maxVal).2 i hi
    omega
  · have : ((i.toNat : ℕ) : ℤ) = i := Int.toNat_of_nonneg h0
    rw [this, add_hist]; simp [Stats.init]

/-- **C122 (total)**: the counts add up to the number of inversions (iteration counts are never negative, C10). -/
theorem stats_total (vals : List ℤ) (hv : ∀ v ∈ vals, 0 ≤ v) : ((statsFile vals).map Prod.snd).sum = vals.length := by
  unfold statsFile Stats.lines
  rw [List.map_map]
  have hfun : (Prod.snd ∘ fun i : ℕ => ((i : ℤ), ((vals.foldl Stats.add Stats.init).hist i).getD 0)) = fun i : ℕ => vals.count (i : ℤ) := by
    funext i; simp only [Function.comp]; rw [add_hist]; simp [Stats.init]
  rw [hfun, add_max]
  have hb : ∀ v ∈ vals, v.toNat < (vals.foldl max Stats.init.maxVal + 1).toNat := by
    intro v h
    have := (foldl_max_ge vals Stats.init.maxVal).2 v h
    have := hv v h
    omega
  generalize (vals.foldl max Stats.init.maxVal + 1).toNat = M at hb
  clear hfun
  induction vals with
  | nil => simp
  | cons v l ih =>
    have hv0 : 0 ≤ v := hv v (by simp)
    have h1 : ∀ i : ℕ, (v :: l).count (i : ℤ) = l.count (i : ℤ) + if i = v.toNat then 1 else 0 := by
      intro i
      rw [List.count_cons]
      congr 1
      by_cases h : i = v.toNat
      · subst h; simp [Int.toNat_of_nonneg hv0, hv0]
      · have : ¬ v = (i : ℤ) := by omega
        simp [h, this]
    simp only [h1]
    have h2 : ∀ (f : ℕ → ℕ) (t M : ℕ), t < M → ((List.range M).map fun i => f i + if i = t then 1 else 0).sum = ((List.range M).map f).sum + 1 := by
      intro f t M
      induction M with
      | zero => intro h; omega
      | succ M ihM =>
        intro h
        rw [List.range_succ, List.map_append, List.map_append, List.sum_append, List.sum_append]
        by_cases hM : t = M
        · subst hM
          have : ((List.range t).map fun i => f i + if i = t then 1 else 0) = (List.range t).map f := by
            apply List.map_congr_left
            intro i hi
            have := List.mem_range.1 hi
            rw [if_neg (by omega)]; simp
          rw [this]; simp; omega
        · rw [ihM (by omega)]
          have : ¬ M = t := fun e => hM e.symm
          simp [this]; omega
    rw [h2 _ _ _ (hb v (by simp)), ih (fun w hw => hv w (by simp [hw])) (fun w hw => hb w (by simp [hw]))]
    simp

/-- **C122 (any order)**: the file does not depend on the order in which cells were processed. -/
theorem stats_perm (a b : List ℤ) (h : a.Perm b) : statsFile a = statsFile b := by
  unfold statsFile Stats.lines
  have hm : ∀ l : List ℤ, (l.foldl Stats.add Stats.init).maxVal = l.foldl max (-1) := fun l => add_max l _
  rw [hm, hm, h.foldl_eq (f := max) (b := (-1 : ℤ)) (rcomm := ⟨fun x y z => by omega⟩)]
  apply List.map_congr_left
  intro i _
  rw [add_hist, add_hist, h.count_eq]

/-- **C122 (deviation)**: with two ranks the file contains the statistics of one of them only. -/
theorem stats_two_ranks : statsFileRanks [[3, 3], [5]] = some (statsFile [5]) ∧ statsFile [5] ≠ statsFile ([3, 3] ++ [5]) := by
  constructor
  · rfl
  · decide

theorem ex_stats : statsFile [2, 0, 2, 3] = [(0, 1), (1, 0), (2, 2), (3, 1)] := by decide

end Phoebus.Diag
