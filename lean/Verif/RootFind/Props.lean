import Verif.RootFind.Lemmas

/-!
# Root finding (C08, C09, C10)

The specification is elementary: "returns a point of `[a,b]`", "there is a root within the tolerance",
"the recorded number of iterations does not exceed the cap".
-/
namespace Phoebus.RootFind
variable {K : Type*} [Field K] [LinearOrder K] [IsStrictOrderedRing K]

/-! ## C08: the returned value lies in the search interval -/

/-- C08 for `bisect`: every function, tolerance, cap and previous count. -/
theorem bisect_in_interval (f : K → K) (a b tol : K) (hasStatus : Bool) (n0 N : ℕ) (hab : a ≤ b)
    (x : K) (st : Status) (n : ℕ) (h : bisect f a b tol hasStatus n0 N = .ret x st n) :
    a ≤ x ∧ x ≤ b := by
  unfold bisect at h
  simp only at h
  split_ifs at h with h1 h2
  · simp only [Outcome.ret.injEq] at h
    constructor <;> linarith [h.1]
  · simp only [Outcome.ret.injEq] at h
    obtain ⟨e1, e2, e3, _, _⟩ := bisectLoop_geom f (signOf (f a)) tol (N - n0) a b hab
    constructor <;> linarith [h.1]

/-- C08 for `regula_falsi` with a guess inside the interval (any guess when no status pointer is passed). -/
theorem regulaFalsi_in_interval (f : K → K) (a b tol g : K) (hasStatus : Bool) (n0 N : ℕ)
    (hab : a ≤ b) (ht : 0 ≤ tol) (hg : hasStatus = true → a ≤ g ∧ g ≤ b) (x : K) (st : Status) (n : ℕ)
    (h : regulaFalsi f a b tol g hasStatus n0 N = .ret x st n) : a ≤ x ∧ x ≤ b := by
  obtain ⟨r1, r2, r3, r4, r5⟩ := refineBracket_spec f g a b hab
  unfold regulaFalsi at h
  simp only [r4, r5] at h
  set a1 := (refineBracket f g a b).1
  set b1 := (refineBracket f g a b).2.1
  split_ifs at h with h1 h2
  · simp only [Outcome.ret.injEq] at h; rw [← h.1]; exact hg (by simpa using h2)
  · have hp : ¬ f a1 * f b1 > 0 := (checkBracket_iff _ _).1 (by simpa using h1)
    by_cases h0 : f a1 = 0
    · simp only [h0, zero_mul] at h
      by_cases hb0 : f b1 * signOf (0:K) = 0
      · rw [hb0] at h
        generalize hN : N - n0 = fuel at h
        cases fuel with
        | zero =>
          simp only [falsiLoop, Outcome.ret.injEq] at h
          constructor <;> linarith [h.1]
        | succ m =>
          unfold falsiLoop at h
          by_cases hw : b1 - a1 > 2 * tol
          · simp [hw] at h
          · simp only [hw, if_false, Outcome.ret.injEq] at h
            constructor <;> linarith [h.1]
      · obtain ⟨_, hl | ⟨hl, _⟩⟩ := falsiLoop_left_root f (signOf (0:K)) tol ht (N - n0) a1 b1
          (f b1 * signOf (0:K)) 0 0 hb0 r2
        · rw [hl] at h; simp only [Outcome.ret.injEq] at h
          constructor <;> linarith [h.1]
        · rw [hl] at h; simp only [Outcome.ret.injEq] at h
          constructor <;> linarith [h.1]
    · obtain ⟨a', b', e0, e1, e2, e3, _, _, _⟩ := falsiLoop_spec f (signOf (f a1)) tol (signOf_sq _) ht
        (N - n0) a1 b1 _ _ 0 0 r2 (init_inv f h0 hp)
      rw [e0] at h; simp only [Outcome.ret.injEq] at h
      constructor <;> linarith [h.1]

/-- C08 for `itp` (partial): guess inside the interval and a nonzero function value at the left end of the
refined bracket.  The excluded case really can leave the interval: `itp_leaves_interval`. -/
theorem itp_in_interval_partial [FloorSemiring K] (f : K → K) (a b tol g : K) (hasStatus : Bool)
    (n0 N : ℕ) (hab : a ≤ b) (ht : 0 < tol) (hg : a ≤ g ∧ g ≤ b)
    (h0 : f (refineBracket f g a b).1 ≠ 0) (x : K) (st : Status) (n : ℕ)
    (h : itp f a b tol g hasStatus n0 N = .ret x st n) : a ≤ x ∧ x ≤ b := by
  obtain ⟨r1, r2, r3, r4, r5⟩ := refineBracket_spec f g a b hab
  unfold itp at h
  simp only [r4, r5] at h
  set a1 := (refineBracket f g a b).1
  set b1 := (refineBracket f g a b).2.1
  split_ifs at h with h1 h2
  · simp only [Outcome.ret.injEq] at h; rw [← h.1]; exact hg
  · have hp : ¬ f a1 * f b1 > 0 := (checkBracket_iff _ _).1 (by simpa using h1)
    obtain ⟨e1, e2, e3, _⟩ := itpLoop_spec f (signOf (f a1)) tol (signOf_sq _) ht (N - n0)
      (Int.clog 2 (1/2 * (b - a) / tol) - n0) a1 b1 _ _ r2 (init_inv f h0 hp)
    simp only [Outcome.ret.injEq] at h
    constructor <;> linarith [h.1]

/-- C08, negation for `itp` in general: when the initial guess `0.9` is itself a root, `itp` on `[0,1]` walks
past the right end and returns a value greater than one, reporting success. -/
theorem itp_leaves_interval :
    ∃ (f : ℚ → ℚ) (x : ℚ) (n : ℕ), f (9/10) = 0 ∧
      itp f 0 1 (1/64) (9/10) true 0 100 = .ret x .success n ∧ 1 < x := by
  refine ⟨fun x => if x = 901/1000 then 2 else (x - 9/10) * 10, 20980199/20000000, 2, ?_, ?_, ?_⟩ <;> decide +kernel

/-- C08, negation for `secant`: the secant iteration leaves its search interval. -/
theorem secant_leaves_interval :
    ∃ (f : ℚ → ℚ) (x : ℚ) (st : Status) (n : ℕ), f 0 * f 1 < 0 ∧
      secant f 0 1 (1/100) 0 0 2 = .ret x st n ∧ 1 < x := by
  refine ⟨fun x => -1 + x * (1/5) + x * (x - 1/2) * (18/5), 11/4, .failure, 2, ?_, ?_, ?_⟩ <;> decide +kernel

theorem secantLoop_affine (m r s tol x1 x2 : K) (k : ℕ) (hm : m ≠ 0) (hs : s ≠ 0) (ht : 0 ≤ tol) (hw : |x2 - x1| > 2 * tol) :
    ∃ p q n, secantLoop (fun x => m * (x - r)) s tol (k + 3) x1 x2 (m * (x1 - r) * s) (m * (x2 - r) * s) = (some (p, q), n) ∧
      |(1/2) * (p + q) - r| ≤ tol ∧ n ≤ 2 := by
  have hx : x2 - x1 ≠ 0 := by
    intro h; rw [h, abs_zero] at hw; linarith
  have hy : m * (x2 - r) * s - m * (x1 - r) * s ≠ 0 := by
    rw [show m * (x2 - r) * s - m * (x1 - r) * s = m * s * (x2 - x1) by ring]
    exact mul_ne_zero (mul_ne_zero hm hs) hx
  have e0 : (x1 * (m * (x2 - r) * s) - x2 * (m * (x1 - r) * s)) / (m * (x2 - r) * s - m * (x1 - r) * s) = r := by
    rw [div_eq_iff hy]; ring
  have hz : ¬ (|(0:K)| > 2 * tol) := by rw [abs_zero, gt_iff_lt, not_lt]; linarith
  have stop : ∀ (k : ℕ) (x y z : K), secantLoop (fun x => m * (x - r)) s tol (k + 1) x x y z = (some (x, x), 0) := by
    intro k x y z; unfold secantLoop; rw [sub_self, if_neg hz]
  have fin : ∀ x : K, x = r → |(1/2) * (x + x) - r| ≤ tol := by
    intro x h; rw [h, show (1/2) * (r + r) - r = (0:K) by ring, abs_zero]; exact ht
  unfold secantLoop
  rw [if_pos hw, if_neg hy]
  simp only [e0]
  by_cases h1 : r = x1
  · rw [if_pos h1, stop]
    exact ⟨x1, x1, 1, by simp, fin _ h1.symm, by omega⟩
  · rw [if_neg h1]
    by_cases h2 : r = x2
    · rw [if_pos h2, stop]
      exact ⟨x2, x2, 1, by simp, fin _ h2.symm, by omega⟩
    · rw [if_neg h2]
      unfold secantLoop
      by_cases h3 : |x1 - r| > 2 * tol
      · have hn : m * (x1 - r) * s - s * (m * (r - r)) ≠ 0 := by
          rw [show m * (x1 - r) * s - s * (m * (r - r)) = m * (x1 - r) * s by ring]
          exact mul_ne_zero (mul_ne_zero hm (sub_ne_zero.2 (Ne.symm h1))) hs
        have e1 : (r * (m * (x1 - r) * s) - x1 * (s * (m * (r - r)))) / (m * (x1 - r) * s - s * (m * (r - r))) = r := by
          rw [div_eq_iff hn]; ring
        rw [if_pos h3, if_neg hn]
        simp only [e1, if_true, stop]
        exact ⟨r, r, 2, by simp, fin _ rfl, by omega⟩
      · rw [if_neg h3]
        refine ⟨r, x1, 1, by simp, ?_, by omega⟩
        rw [show (1/2) * (r + x1) - r = (1/2) * (x1 - r) by ring, abs_mul, abs_of_pos (by norm_num : (0:K) < 1/2)]
        have := not_lt.1 h3
        linarith

/-- C08: on an affine function whose root is bracketed the secant search ends, after at most two iterations, within the tolerance of
the root and reports success, wherever in the bracket the guess lies. -/
theorem secant_affine (m r a b tol g : K) (n0 N : ℕ) (hm : m ≠ 0) (ht : 0 ≤ tol) (hag : a ≤ g) (hgb : g ≤ b)
    (ha : a < r) (hb : r < b) (hN : n0 + 3 ≤ N) :
    ∃ x n, secant (fun x => m * (x - r)) a b tol g n0 N = .ret x .success n ∧ |x - r| ≤ tol ∧ n ≤ n0 + 2 := by
  obtain ⟨k, hk⟩ : ∃ k, N - n0 = k + 3 := ⟨N - n0 - 3, by omega⟩
  have hs : ∀ y : K, signOf y ≠ 0 := by intro y; unfold signOf; split_ifs <;> simp
  have hm2 : 0 < m * m := mul_self_pos.2 hm
  have key : ∀ (x1 x2 s : K), s ≠ 0 → (x1 ≤ r ∧ r ≤ x2 ∨ x2 ≤ r ∧ r ≤ x1) →
      ∃ p q n, secantLoop (fun x => m * (x - r)) s tol (k + 3) x1 x2 (m * (x1 - r) * s) (m * (x2 - r) * s) = (some (p, q), n) ∧
      |(1/2) * (p + q) - r| ≤ tol ∧ n ≤ 2 := by
    intro x1 x2 s hs0 hbr
    by_cases hw : |x2 - x1| > 2 * tol
    · exact secantLoop_affine m r s tol x1 x2 k hm hs0 ht hw
    · refine ⟨x1, x2, 0, ?_, ?_, by omega⟩
      · unfold secantLoop; rw [if_neg hw]
      · have hw' := not_lt.1 hw
        rw [abs_le] at hw' ⊢
        rcases hbr with h | h <;> constructor <;> linarith [h.1, h.2, hw'.1, hw'.2]
  unfold secant refineBracket
  simp only [if_pos (show a ≤ g ∧ b ≥ g from ⟨hag, hgb⟩), hk]
  by_cases hp : m * (g - r) * (m * (b - r)) > 0
  · simp only [if_pos hp]
    have hgr : r < g := by
      rw [show m * (g - r) * (m * (b - r)) = (m * m * (b - r)) * (g - r) by ring] at hp
      have := pos_of_mul_pos_right hp (mul_pos hm2 (sub_pos.2 hb)).le
      linarith
    have hne : a ≠ g := by intro h; linarith
    simp only [hne, or_true, if_true, if_false]
    obtain ⟨p, q, n, h1, h2, h3⟩ := key g a (signOf (m * (g - r))) (hs _) (Or.inr ⟨ha.le, hgr.le⟩)
    rw [h1]
    refine ⟨_, n0 + n, by simp only [finalStatus, if_neg (show n0 + n ≠ N by omega)], h2, by omega⟩
  · simp only [if_neg hp, true_or, if_true]
    have hgr : g ≤ r := by
      by_contra h
      exact hp (by
        rw [show m * (g - r) * (m * (b - r)) = (m * m * (b - r)) * (g - r) by ring]
        exact mul_pos (mul_pos hm2 (sub_pos.2 hb)) (sub_pos.2 (not_le.1 h)))
    obtain ⟨p, q, n, h1, h2, h3⟩ := key g b (signOf (m * (g - r))) (hs _) (Or.inl ⟨hgr, hb.le⟩)
    rw [h1]
    refine ⟨_, n0 + n, by simp only [finalStatus, if_neg (show n0 + n ≠ N by omega)], h2, by omega⟩

/-- C08: `secant` reads uninitialised variables exactly when its guess is outside the interval. -/
theorem secant_undef_iff (f : K → K) (a b tol g : K) (n0 N : ℕ) :
    secant f a b tol g n0 N = .undef ↔ ¬ (a ≤ g ∧ g ≤ b) ∧ a ≠ g ∧ b ≠ g := by
  unfold secant
  by_cases h : a ≤ g ∧ b ≥ g
  · have hr : (refineBracket f g a b).1 = g ∨ (refineBracket f g a b).2.1 = g := by
      unfold refineBracket
      rw [if_pos h]
      dsimp only
      split_ifs <;> simp
    simp only [hr, if_true]
    constructor
    · intro hh
      split at hh <;> simp at hh
    · intro hh; exact absurd ⟨h.1, h.2⟩ hh.1
  · have e : refineBracket f g a b = (a, b, f a, f b) := by
      unfold refineBracket; rw [if_neg h]
    rw [e]
    dsimp only
    constructor
    · intro hh
      by_cases c : a = g ∨ b = g
      · simp only [c, if_true] at hh
        split at hh <;> simp at hh
      · exact ⟨h, fun e => c (Or.inl e), fun e => c (Or.inr e)⟩
    · intro hh
      have : ¬ (a = g ∨ b = g) := by rintro (e | e); exacts [hh.2.1 e, hh.2.2 e]
      simp only [this, if_false]

/-! ## C09: success means a root is within tolerance -/

/-- C09 for `regula_falsi`, full strength: for every continuous function, interval, tolerance and guess
(inside or outside), a reported success with a number `x` means a root within `tol` of `x`.
`n0 ≤ N` is the object invariant "count ≤ cap", which every call preserves (`iterations_le_cap`). -/
theorem regulaFalsi_success_near_root (f : ℝ → ℝ) (a b tol g : ℝ) (hasStatus : Bool) (n0 N : ℕ)
    (hn : n0 ≤ N) (hab : a ≤ b) (ht : 0 ≤ tol) (hf : ContinuousOn f (Set.Icc a b)) (x : ℝ) (n : ℕ)
    (h : regulaFalsi f a b tol g hasStatus n0 N = .ret x .success n) :
    ∃ z ∈ Set.Icc a b, f z = 0 ∧ |x - z| ≤ tol := by
  obtain ⟨r1, r2, r3, r4, r5⟩ := refineBracket_spec f g a b hab
  unfold regulaFalsi at h
  simp only [r4, r5] at h
  set a1 := (refineBracket f g a b).1
  set b1 := (refineBracket f g a b).2.1
  split_ifs at h with h1 h2
  · simp at h
  have hp : ¬ f a1 * f b1 > 0 := (checkBracket_iff _ _).1 (by simpa using h1)
  -- closing argument from a sign-changing bracket
  have fin : ∀ a' b' : ℝ, a1 ≤ a' → a' ≤ b' → b' ≤ b1 → f a' * f b' ≤ 0 → b' - a' ≤ 2 * tol →
      x = 1/2 * (a' + b') → ∃ z ∈ Set.Icc a b, f z = 0 ∧ |x - z| ≤ tol := by
    intro a' b' u1 u2 u3 u4 u5 u6
    obtain ⟨z, hz, hz0⟩ := exists_root_of_prod u2
      (hf.mono (Set.Icc_subset_Icc (by linarith) (by linarith))) u4
    refine ⟨z, ⟨by linarith [hz.1], by linarith [hz.2]⟩, hz0, ?_⟩
    rw [abs_le]; constructor <;> linarith [hz.1, hz.2]
  -- success means the loop stopped before exhausting its fuel
  have hN : ∀ m : ℕ, m ≤ N - n0 → finalStatus (n0 + m) N = .success → m < N - n0 := by
    intro m hm hs
    unfold finalStatus at hs
    split_ifs at hs with hh
    omega
  by_cases h0 : f a1 = 0
  · simp only [h0, zero_mul] at h
    by_cases hb0 : f b1 * signOf (0:ℝ) = 0
    · rw [hb0] at h
      -- both ends are roots
      have main : b1 - a1 ≤ 2 * tol ∧ x = 1/2 * (a1 + b1) := by
        generalize hN' : N - n0 = fuel at h
        cases fuel with
        | zero =>
          simp only [falsiLoop, Outcome.ret.injEq, finalStatus, add_zero] at h
          obtain ⟨hx, hs, _⟩ := h
          split_ifs at hs with hh
          omega
        | succ m =>
          unfold falsiLoop at h
          by_cases hw : b1 - a1 > 2 * tol
          · simp [hw] at h
          · simp only [hw, if_false, Outcome.ret.injEq] at h
            exact ⟨not_lt.1 hw, h.1.symm⟩
      exact fin a1 b1 le_rfl r2 le_rfl (by rw [h0]; simp) main.1 main.2
    · obtain ⟨hu, hl | ⟨hl, hl2⟩⟩ := falsiLoop_left_root f (signOf (0:ℝ)) tol ht (N - n0) a1 b1
        (f b1 * signOf (0:ℝ)) 0 0 hb0 r2
      · rw [hl] at h; simp only [Outcome.ret.injEq] at h
        exact fin a1 a1 le_rfl le_rfl r2 (by rw [h0]; simp) (by linarith) (by linarith [h.1])
      · rw [hl] at h; simp only [Outcome.ret.injEq] at h
        exact fin a1 b1 le_rfl r2 le_rfl (by rw [h0]; simp) (hl2 (hN _ hu h.2.1)) (by linarith [h.1])
  · obtain ⟨a', b', e0, e1, e2, e3, e4, e5, e6⟩ := falsiLoop_spec f (signOf (f a1)) tol (signOf_sq _) ht
        (N - n0) a1 b1 _ _ 0 0 r2 (init_inv f h0 hp)
    rw [e0] at h; simp only [Outcome.ret.injEq] at h
    exact fin a' b' e1 e2 e3 e4 (e6 (hN _ e5 h.2.1)) (by linarith [h.1])

example : regulaFalsi (fun x : ℚ => x * x - 2) 0 2 (1/10) 1 true 0 100 =
    .ret (367/260) .success 3 := by decide +kernel

/-- C09 for `bisect` (partial): requires that the left end is not itself a root; `tol` is twice the
error bound.  The excluded case fails: `bisect_loses_left_root`. -/
theorem bisect_success_near_root_partial (f : ℝ → ℝ) (a b tol : ℝ) (hasStatus : Bool) (n0 N : ℕ)
    (hn : n0 ≤ N) (hab : a ≤ b) (hf : ContinuousOn f (Set.Icc a b)) (hfa : f a ≠ 0) (x : ℝ) (n : ℕ)
    (h : bisect f a b tol hasStatus n0 N = .ret x .success n) :
    ∃ z ∈ Set.Icc a b, f z = 0 ∧ |x - z| ≤ tol / 2 := by
  unfold bisect at h
  simp only at h
  split_ifs at h with h1 h2
  · simp at h
  · have hp : ¬ f a * f b > 0 := (checkBracket_iff _ _).1 (by simpa using h1)
    obtain ⟨e1, e2, e3, e4, e5⟩ := bisectLoop_geom f (signOf (f a)) tol (N - n0) a b hab
    have hbr := bisectLoop_br f (signOf (f a)) tol (signOf_sq _) (N - n0) a b
      (Or.inl ⟨signOf_mul_neg hfa, signOf_mul_other hfa hp⟩)
    simp only [Outcome.ret.injEq] at h
    obtain ⟨hx, hs, _⟩ := h
    unfold finalStatus at hs
    split_ifs at hs with hh
    have hw := e5 (by omega)
    obtain ⟨z, hz, hz0⟩ := exists_root_of_prod e2
      (hf.mono (Set.Icc_subset_Icc e1 e3)) (hbr.prod (signOf_sq _))
    refine ⟨z, ⟨e1.trans hz.1, hz.2.trans e3⟩, hz0, ?_⟩
    rw [abs_le]; constructor <;> linarith [hz.1, hz.2]

/-- C09 for `itp` (partial): requires a nonzero value at the left end of the refined bracket. -/
theorem itp_success_near_root_partial (f : ℝ → ℝ) (a b tol g : ℝ) (hasStatus : Bool) (n0 N : ℕ)
    (hn : n0 ≤ N) (hab : a ≤ b) (ht : 0 < tol) (hf : ContinuousOn f (Set.Icc a b))
    (h0 : f (refineBracket f g a b).1 ≠ 0) (x : ℝ) (n : ℕ)
    (h : itp f a b tol g hasStatus n0 N = .ret x .success n) :
    ∃ z ∈ Set.Icc a b, f z = 0 ∧ |x - z| ≤ tol := by
  obtain ⟨r1, r2, r3, r4, r5⟩ := refineBracket_spec f g a b hab
  unfold itp at h
  simp only [r4, r5] at h
  set a1 := (refineBracket f g a b).1
  set b1 := (refineBracket f g a b).2.1
  split_ifs at h with h1 h2
  · simp at h
  · have hp : ¬ f a1 * f b1 > 0 := (checkBracket_iff _ _).1 (by simpa using h1)
    obtain ⟨e1, e2, e3, e4, e5, e6, _⟩ := itpLoop_spec f (signOf (f a1)) tol (signOf_sq _) ht (N - n0)
      (Int.clog 2 (1/2 * (b - a) / tol) - n0) a1 b1 _ _ r2 (init_inv f h0 hp)
    simp only [Outcome.ret.injEq] at h
    obtain ⟨hx, hs, _⟩ := h
    unfold finalStatus at hs
    split_ifs at hs with hh
    have hw := e6 (by omega)
    obtain ⟨z, hz, hz0⟩ := exists_root_of_prod e2
      (hf.mono (Set.Icc_subset_Icc (r1.trans e1) (e3.trans r3))) e4
    refine ⟨z, ⟨(r1.trans e1).trans hz.1, hz.2.trans (e3.trans r3)⟩, hz0, ?_⟩
    rw [abs_le]; constructor <;> linarith [hz.1, hz.2]

example : itp (fun x : ℚ => x * x - 2) 0 2 (1/10) 1 true 0 100 =
    .ret (1856363/1314000) .success 2 := by decide +kernel

/-- C09, negation: `bisect` on `f x = x`, `[0,1]` has its root at the left end, yet reports success at a
point near 1. -/
theorem bisect_loses_left_root :
    ∃ x n, bisect (fun x : ℚ => x) 0 1 (1/8) true 0 100 = .ret x .success n ∧ 7/8 ≤ x := by
  refine ⟨15/16, 3, ?_, ?_⟩ <;> decide +kernel

/-- C09, negation: the same for `itp` (no refinement because the guess is outside the interval). -/
theorem itp_loses_left_root :
    ∃ x n, itp (fun x : ℚ => x) 0 1 (1/8) (-1) true 0 100 = .ret x .success n ∧ 3/4 ≤ x := by
  refine ⟨7/8, 2, ?_, ?_⟩ <;> decide +kernel

/-- C09, a further failure: when both ends of the (refined) bracket are roots `regula_falsi` computes
`0/0`, returns NaN, and reports success. -/
theorem regulaFalsi_nan_success :
    regulaFalsi (fun x : ℚ => x * (1 - x)) 0 1 (1/8) (-1) true 0 100 = .nan .success 1 := by
  decide +kernel

/-- C09: after the loop the reported status is failure exactly when the count reached the limit, for numbers and for NaN. -/
theorem regulaFalsi_status (f : K → K) (a b tol g : K) (hasStatus : Bool) (n0 N : ℕ) (st : Status) (n : ℕ) :
    (regulaFalsi f a b tol g hasStatus n0 N = .nan st n → (st = .failure ↔ n = N)) ∧
    (∀ x, regulaFalsi f a b tol g hasStatus n0 N = .ret x st n → checkBracket (refineBracket f g a b).2.2.1 (refineBracket f g a b).2.2.2 = true →
      (st = .failure ↔ n = N)) := by
  have hs : ∀ m, finalStatus m N = .failure ↔ m = N := by intro m; unfold finalStatus; split_ifs <;> simp_all
  constructor
  · intro h
    unfold regulaFalsi at h
    simp only at h
    split_ifs at h
    split at h
    · simp at h
    · simp only [Outcome.nan.injEq] at h
      rw [← h.1, ← h.2]; exact hs _
  · intro x h hc
    unfold regulaFalsi at h
    simp only [hc] at h
    simp only [Bool.not_true, Bool.false_eq_true, if_false] at h
    split at h
    · simp only [Outcome.ret.injEq] at h
      rw [← h.2.1, ← h.2.2]; exact hs _
    · simp at h

/-- C09: NaN is returned only if both ends of the refined bracket are roots. -/
theorem regulaFalsi_nan_only_if (f : K → K) (a b tol g : K) (hasStatus : Bool) (n0 N : ℕ)
    (hab : a ≤ b) (ht : 0 ≤ tol) (st : Status) (n : ℕ)
    (h : regulaFalsi f a b tol g hasStatus n0 N = .nan st n) :
    ∃ z w, a ≤ z ∧ z < w ∧ w ≤ b ∧ f z = 0 ∧ f w = 0 := by
  obtain ⟨r1, r2, r3, r4, r5⟩ := refineBracket_spec f g a b hab
  unfold regulaFalsi at h
  simp only [r4, r5] at h
  set a1 := (refineBracket f g a b).1
  set b1 := (refineBracket f g a b).2.1
  split_ifs at h with h1 h2
  have hp : ¬ f a1 * f b1 > 0 := (checkBracket_iff _ _).1 (by simpa using h1)
  by_cases h0 : f a1 = 0
  · simp only [h0, zero_mul] at h
    by_cases hb0 : f b1 * signOf (0:K) = 0
    · have hb : f b1 = 0 := (mul_eq_zero.1 hb0).resolve_right (signOf_ne _)
      refine ⟨a1, b1, r1, lt_of_le_of_ne r2 ?_, r3, h0, hb⟩
      intro he
      rw [hb0] at h
      generalize N - n0 = fuel at h
      cases fuel with
      | zero => simp [falsiLoop] at h
      | succ m =>
        unfold falsiLoop at h
        have : ¬ (b1 - a1 > 2 * tol) := by rw [he, sub_self]; push Not; linarith
        simp [this] at h
    · obtain ⟨_, hl | ⟨hl, _⟩⟩ := falsiLoop_left_root f (signOf (0:K)) tol ht (N - n0) a1 b1
        (f b1 * signOf (0:K)) 0 0 hb0 r2 <;> rw [hl] at h <;> simp at h
  · obtain ⟨a', b', e0, _⟩ := falsiLoop_spec f (signOf (f a1)) tol (signOf_sq _) ht
        (N - n0) a1 b1 _ _ 0 0 r2 (init_inv f h0 hp)
    rw [e0] at h; simp at h

/-! ## C10: termination within the cap -/

/-- The iteration count recorded by an outcome. -/
def Outcome.count : Outcome K → Option ℕ
  | .ret _ _ n => some n
  | .nan _ n => some n
  | _ => none

theorem falsiLoop_le (f : K → K) (s tol : K) : ∀ (fuel : ℕ) (a b ya yb : K) (b1 b2 : ℕ),
    (falsiLoop f s tol fuel a b ya yb b1 b2).2 ≤ fuel := by
  intro fuel
  induction fuel with
  | zero => intros; simp [falsiLoop]
  | succ n ih =>
    intro a b ya yb b1 b2
    unfold falsiLoop
    split_ifs <;> first
      | exact Nat.zero_le _
      | omega
      | (apply Nat.add_le_add_right; first | apply ih | (split_ifs <;> first | apply ih | (dsimp only; split_ifs <;> apply ih)))

theorem itpLoop_le (f : K → K) (s tol : K) : ∀ (fuel : ℕ) (e : ℤ) (a b ya yb : K),
    (itpLoop f s tol fuel e a b ya yb).2.2 ≤ fuel := by
  intro fuel
  induction fuel with
  | zero => intros; simp [itpLoop]
  | succ n ih =>
    intro e a b ya yb
    unfold itpLoop
    split_ifs <;> first
      | exact Nat.zero_le _
      | omega
      | (apply Nat.add_le_add_right; first | apply ih | (split_ifs <;> first | apply ih | (dsimp only; split_ifs <;> apply ih)))

theorem bisectLoop_le (f : K → K) (s tol : K) : ∀ (fuel : ℕ) (a b : K),
    (bisectLoop f s tol fuel a b).2.2 ≤ fuel := by
  intro fuel
  induction fuel with
  | zero => intros; simp [bisectLoop]
  | succ n ih =>
    intro a b
    unfold bisectLoop
    split_ifs <;> first
      | exact Nat.zero_le _
      | omega
      | (apply Nat.add_le_add_right; first | apply ih | (split_ifs <;> first | apply ih | (dsimp only; split_ifs <;> apply ih)))

theorem secantLoop_le (f : K → K) (s tol : K) : ∀ (fuel : ℕ) (x1 x2 y1 y2 : K),
    (secantLoop f s tol fuel x1 x2 y1 y2).2 ≤ fuel := by
  intro fuel
  induction fuel with
  | zero => intros; simp [secantLoop]
  | succ n ih =>
    intro x1 x2 y1 y2
    unfold secantLoop
    split_ifs <;> first
      | exact Nat.zero_le _
      | omega
      | (apply Nat.add_le_add_right; first | apply ih | (split_ifs <;> first | apply ih | (dsimp only; split_ifs <;> apply ih)))

/-- C10. No finder ever records more iterations than the cap (given the object was within its cap), for
any function, interval, tolerance (even negative), guess. -/
theorem iterations_le_cap [FloorSemiring K] (f : K → K) (a b tol g : K) (hasStatus : Bool) (n0 N n : ℕ)
    (hn : n0 ≤ N)
    (h : (bisect f a b tol hasStatus n0 N).count = some n ∨
      (regulaFalsi f a b tol g hasStatus n0 N).count = some n ∨
      (itp f a b tol g hasStatus n0 N).count = some n ∨
      (secant f a b tol g n0 N).count = some n) : n0 ≤ n ∧ n ≤ N := by
  rcases h with h | h | h | h
  · unfold bisect at h
    simp only at h
    split_ifs at h
    · simp [Outcome.count] at h
    · simp [Outcome.count] at h; omega
    · simp [Outcome.count] at h
      have := bisectLoop_le f (signOf (f a)) tol (N - n0) a b; omega
  · unfold regulaFalsi at h
    simp only at h
    split_ifs at h
    · simp [Outcome.count] at h
    · simp [Outcome.count] at h; omega
    · have l := fun (s ya yb a b : K) => falsiLoop_le f s tol (N - n0) a b ya yb 0 0
      split at h <;> simp [Outcome.count] at h <;> rw [← h] <;>
        exact ⟨Nat.le_add_right _ _, le_trans (Nat.add_le_add_left (l _ _ _ _ _) n0) (by omega)⟩
  · unfold itp at h
    simp only at h
    split_ifs at h
    · simp [Outcome.count] at h
    · simp [Outcome.count] at h; omega
    · simp only [Outcome.count, Option.some.injEq] at h
      rw [← h]
      exact ⟨Nat.le_add_right _ _,
        le_trans (Nat.add_le_add_left (itpLoop_le f _ tol (N - n0) _ _ _ _ _) n0) (by omega)⟩
  · unfold secant at h
    simp only at h
    split_ifs at h
    on_goal 3 => simp [Outcome.count] at h
    all_goals
      have l := fun (s x1 x2 y1 y2 : K) => secantLoop_le f s tol (N - n0) x1 x2 y1 y2
      split at h <;> simp [Outcome.count] at h <;> rw [← h] <;>
        exact ⟨Nat.le_add_right _ _, le_trans (Nat.add_le_add_left (l _ _ _ _ _) n0) (by omega)⟩

/-- C10. `bisect` reports success on every sign-changing interval once the cap exceeds the number of
halvings needed: `b - a ≤ tol * 2^k` and `k` iterations left to spare. -/
theorem bisect_converges (f : K → K) (a b tol : K) (hasStatus : Bool) (n0 N k : ℕ) (ht : 0 ≤ tol)
    (hsc : f a * f b ≤ 0) (hk : b - a ≤ tol * 2 ^ k) (hcap : n0 + k < N) :
    ∃ x n, bisect f a b tol hasStatus n0 N = .ret x .success n ∧ n ≤ n0 + k := by
  have hb : checkBracket (f a) (f b) = true := (checkBracket_iff _ _).2 (not_lt.2 hsc)
  have hu := bisectLoop_fast f (signOf (f a)) tol ht (N - n0) k a b hk
  unfold bisect
  simp only [hb, Bool.not_true, Bool.false_eq_true, if_false]
  rw [show finalStatus (n0 + (bisectLoop f (signOf (f a)) tol (N - n0) a b).2.2) N = .success by
    unfold finalStatus; rw [if_neg (by omega)]]
  exact ⟨_, _, rfl, Nat.add_le_add_left hu n0⟩

/-- C10. A fresh `itp` never needs more than `ceil(log2((b-a)/(2 tol)))` iterations (as many as bisection),
for any function with a sign change and nonzero value at the left end of the refined bracket; with a larger cap it
therefore reports success. -/
theorem itp_worst_case [FloorSemiring K] (f : K → K) (a b tol g : K) (hasStatus : Bool) (N : ℕ)
    (hab : a < b) (ht : 0 < tol) (hsc : f a * f b ≤ 0) (h0 : f (refineBracket f g a b).1 ≠ 0)
    (hcap : (Int.clog 2 ((b - a) / (2 * tol))).toNat < N) :
    ∃ x n, itp f a b tol g hasStatus 0 N = .ret x .success n ∧
      n ≤ (Int.clog 2 ((b - a) / (2 * tol))).toNat := by
  obtain ⟨r1, r2, r3, r4, r5⟩ := refineBracket_spec f g a b hab.le
  have hk := refineBracket_keeps f g a b hsc
  have hb : checkBracket (refineBracket f g a b).2.2.1 (refineBracket f g a b).2.2.2 = true :=
    (checkBracket_iff _ _).2 (not_lt.2 hk)
  have ec : (1/2 * (b - a) / tol) = (b - a) / (2 * tol) := by field_simp
  rw [r4, r5] at hk hb
  obtain ⟨_, _, _, _, _, _, e7⟩ := itpLoop_spec f (signOf (f (refineBracket f g a b).1)) tol (signOf_sq _) ht
    (N - 0) (Int.clog 2 (1/2 * (b - a) / tol) - (0:ℕ)) _ _ _ _ r2 (init_inv f h0 (not_lt.2 hk))
  have hw : (refineBracket f g a b).2.1 - (refineBracket f g a b).1 ≤
      2 * tol * (2:K) ^ (Int.clog 2 (1/2 * (b - a) / tol) - (0:ℕ)) := by
    have := Int.self_le_zpow_clog (R := K) (b := 2) (by norm_num) (1/2 * (b - a) / tol)
    rw [div_le_iff₀ ht] at this
    simp only [Nat.cast_zero, sub_zero]
    have e : ((2:ℕ):K) = 2 := by norm_num
    rw [e] at this
    linarith
  have hu := e7 hw
  rw [ec] at hu
  simp only [Nat.cast_zero, sub_zero] at hu
  unfold itp
  simp only [r4, r5, hb, Bool.not_true, Bool.false_eq_true, if_false]
  rw [ec]
  simp only [Nat.cast_zero, sub_zero, Nat.sub_zero] at hu ⊢
  generalize itpLoop f (signOf (f (refineBracket f g a b).1)) tol N _ _ _ _ _ = L at hu ⊢
  rw [show finalStatus (0 + L.2.2) N = .success by unfold finalStatus; rw [if_neg (by omega)]]
  exact ⟨_, _, rfl, by omega⟩

/-- C10, negation of "failure is reported only if the tolerance was not met": convergence on
exactly the last permitted iteration is reported as failure even at an exact root. -/
theorem converged_on_last_iteration_fails :
    bisect (fun x : ℚ => x - 1/2) 0 1 (1/4) true 0 1 = .ret (1/2) .failure 1 := by
  decide +kernel

/-- C10. The budget belongs to the object, not the call: once exhausted, every later call on a bracketed
interval does nothing and reports failure, whatever the new interval and tolerance (this is what the
re-bracketing retries in moments_source.cpp:365-378 do after a first call that hit the cap). -/
theorem exhausted_object_always_fails [FloorSemiring K] (f : K → K) (a b tol g : K) (N : ℕ) :
    (∃ x, regulaFalsi f a b tol g true N N = .ret x .failure N) ∧
    (∃ x, itp f a b tol g true N N = .ret x .failure N) ∧
    (∃ x, bisect f a b tol true N N = .ret x .failure N) := by
  refine ⟨?_, ?_, ?_⟩
  · unfold regulaFalsi
    simp only [Nat.sub_self, falsiLoop, Bool.not_true, Bool.false_eq_true, if_false]
    split_ifs <;> exact ⟨_, by simp [finalStatus]; rfl⟩
  · unfold itp
    simp only [Nat.sub_self, itpLoop, Bool.not_true, Bool.false_eq_true, if_false]
    split_ifs <;> exact ⟨_, by simp [finalStatus]; rfl⟩
  · unfold bisect
    simp only [Nat.sub_self, bisectLoop, Bool.not_true, Bool.false_eq_true, if_false]
    split_ifs <;> exact ⟨_, by simp [finalStatus]; rfl⟩

/-- C10. When the end points do not bracket a sign change the call aborts without a status object, and with one it reports
failure having done no iterations: the counter keeps its value, and the value returned is the midpoint (`bisect`) or the guess. -/
theorem no_bracket [FloorSemiring K] (f : K → K) (a b tol g : K) (n0 N : ℕ) :
    (f a * f b > 0 → bisect f a b tol false n0 N = .abort ∧ bisect f a b tol true n0 N = .ret ((a + b) / 2) .failure n0) ∧
    ((refineBracket f g a b).2.2.1 * (refineBracket f g a b).2.2.2 > 0 →
      regulaFalsi f a b tol g false n0 N = .abort ∧ regulaFalsi f a b tol g true n0 N = .ret g .failure n0 ∧
      itp f a b tol g false n0 N = .abort ∧ itp f a b tol g true n0 N = .ret g .failure n0) := by
  have hb : ∀ y z : K, y * z > 0 → checkBracket y z = false := fun y z h => by
    by_contra hc
    exact (checkBracket_iff y z).1 (by simpa using hc) h
  refine ⟨fun h => ?_, fun h => ?_⟩
  · simp [bisect, hb _ _ h]
  · simp [regulaFalsi, itp, hb _ _ h]

end Phoebus.RootFind
