import Verif.Robust.Model
import Mathlib.Tactic.Ring
import Mathlib.Tactic.FieldSimp
import Mathlib.Tactic.Linarith
import Mathlib.Tactic.NormNum
import Mathlib.Data.Rat.Floor

/-! # C55: robust arithmetic helpers -/
namespace Phoebus.Robust

variable {K : Type*} [Field K] [LinearOrder K] [IsStrictOrderedRing K]

/-- C55. The denominator actually used by `ratio` is never zero (it is at least `SMALL` in absolute
value) and has the sign of `b` (positive for `b = 0`). -/
theorem ratio_denominator_nonzero (small a b : K) (hs : 0 < small) :
    ∃ d : K, ratio small a b = a / d ∧ small ≤ |d| ∧ (0 ≤ b → 0 < d) ∧ (b < 0 → d < 0) := by
  unfold ratio
  by_cases hb : 0 ≤ b
  · refine ⟨b + small, by simp [hb], ?_, fun _ => by linarith, fun h => absurd hb (not_le.2 h)⟩
    rw [abs_of_pos (by linarith)]; linarith
  · have hb' : b < 0 := not_le.1 hb
    refine ⟨b - small, ?_, ?_, fun h => absurd h hb, fun _ => by linarith⟩
    · simp only [hb, if_false]; congr 1; ring
    · rw [abs_of_neg (by linarith)]; linarith

/-- C55. `ratio` is total and bounded even for a zero denominator: `|ratio a b| ≤ |a| / SMALL`. -/
theorem ratio_bounded (small a b : K) (hs : 0 < small) : |ratio small a b| ≤ |a| / small := by
  obtain ⟨d, hd, hsd, -, -⟩ := ratio_denominator_nonzero small a b hs
  rw [hd, abs_div]
  exact div_le_div_of_nonneg_left (abs_nonneg a) hs hsd

/-- C55. `ratio` approximates the quotient with relative error at most `SMALL/|b|`, and never exceeds it in
absolute value. -/
theorem ratio_approximates (small a b : K) (hs : 0 < small) (hb : b ≠ 0) :
    |ratio small a b - a / b| ≤ |a / b| * (small / |b|) ∧ |ratio small a b| ≤ |a / b| := by
  unfold ratio
  rcases lt_or_gt_of_ne hb with h | h
  · have hn : ¬ (0 ≤ b) := not_le.2 h
    simp only [hn, if_false, neg_mul, one_mul]
    have h1 : b + -small < 0 := by linarith
    have e : a / (b + -small) - a / b = a / b * (small / (b + -small)) := by
      field_simp [h1.ne, hb]; ring
    constructor
    · rw [e, abs_mul, abs_div small]
      apply mul_le_mul_of_nonneg_left _ (abs_nonneg _)
      rw [abs_of_pos hs]
      apply div_le_div_of_nonneg_left hs.le (abs_pos.2 hb)
      rw [abs_of_neg h, abs_of_neg h1]; linarith
    · rw [abs_div, abs_div]
      apply div_le_div_of_nonneg_left (abs_nonneg _) (abs_pos.2 hb)
      rw [abs_of_neg h, abs_of_neg h1]; linarith
  · have hn : 0 ≤ b := h.le
    simp only [hn, if_true, one_mul]
    have h1 : 0 < b + small := by linarith
    have e : a / (b + small) - a / b = -(a / b * (small / (b + small))) := by
      field_simp [h1.ne', hb]; ring
    constructor
    · rw [e, abs_neg, abs_mul, abs_div small]
      apply mul_le_mul_of_nonneg_left _ (abs_nonneg _)
      rw [abs_of_pos hs]
      apply div_le_div_of_nonneg_left hs.le (abs_pos.2 hb)
      rw [abs_of_pos h, abs_of_pos h1]; linarith
    · rw [abs_div, abs_div]
      apply div_le_div_of_nonneg_left (abs_nonneg _) (abs_pos.2 hb)
      rw [abs_of_pos h, abs_of_pos h1]; linarith

/-- C55. `ratio` keeps the sign of the true quotient. -/
theorem ratio_sign (small a b : K) (hs : 0 < small) (hb : b ≠ 0) :
    (0 < a / b → 0 < ratio small a b) ∧ (a / b < 0 → ratio small a b < 0) := by
  obtain ⟨d, hd, -, hp, hn⟩ := ratio_denominator_nonzero small a b hs
  rw [hd]
  rcases lt_or_gt_of_ne hb with h | h
  · have := hn h
    constructor
    · intro q; rcases div_pos_iff.1 q with ⟨_, h2⟩ | ⟨h1, _⟩
      · linarith
      · exact div_pos_of_neg_of_neg h1 this
    · intro q; rcases div_neg_iff.1 q with ⟨h1, _⟩ | ⟨_, h2⟩
      · exact div_neg_of_pos_of_neg h1 this
      · linarith
  · have := hp h.le
    constructor
    · intro q; rcases div_pos_iff.1 q with ⟨h1, _⟩ | ⟨_, h2⟩
      · exact div_pos h1 this
      · linarith
    · intro q; rcases div_neg_iff.1 q with ⟨_, h2⟩ | ⟨h1, _⟩
      · linarith
      · exact div_neg_of_neg_of_pos h1 this

example : ratio (1/1000 : ℚ) 3 0 = 3000 ∧ ratio (1/1000 : ℚ) 3 (-1) < 0 := by
  constructor <;> norm_num [ratio]

/-- C55. `sgn` is never zero: `+1` on `[0,∞)`, `-1` on negatives. -/
theorem sgn_spec (v : K) : (0 ≤ v → sgn v = 1) ∧ (v < 0 → sgn v = -1) := by
  unfold sgn
  constructor
  · intro h; simp [h, not_lt.2 h]
  · intro h; simp [h, not_le.2 h]

/-- C55. `make_positive` returns a strictly positive value, not below its argument. -/
theorem makePositive_spec (eps v : K) (he : 0 < eps) :
    0 < makePositive eps v ∧ v ≤ makePositive eps v ∧ (eps ≤ v → makePositive eps v = v) :=
  ⟨lt_of_lt_of_le he (le_max_right _ _), le_max_left _ _, fun h => max_eq_left h⟩

/-- C55 (partial). `make_bounded` returns a value strictly between `vmin` and `vmax` provided
`vmax > 0` and there is room, `vmin + EPS ≤ vmax (1 - EPS)`.  Missing from the full claim: nonpositive
`vmax` and thin intervals, where the claim is false (`makeBounded_escapes`). -/
theorem makeBounded_spec_partial (eps v vmin vmax : K) (he : 0 < eps)
    (hmax : 0 < vmax) (room : vmin + eps ≤ vmax * (1 - eps)) :
    vmin < makeBounded eps v vmin vmax ∧ makeBounded eps v vmin vmax < vmax ∧
    (vmin + eps ≤ v → v ≤ vmax * (1 - eps) → makeBounded eps v vmin vmax = v) := by
  unfold makeBounded
  refine ⟨?_, ?_, ?_⟩
  · apply lt_min
    · exact lt_of_lt_of_le (by linarith) (le_max_right _ _)
    · linarith
  · apply lt_of_le_of_lt (min_le_right _ _)
    have := mul_pos hmax he
    linarith [mul_sub vmax 1 eps]
  · intro h1 h2
    rw [max_eq_left h1, min_eq_left h2]

/-- C55, negation of the unrestricted claim: with `vmax = 0` (or negative) the result is not below
`vmax`; e.g. bounds `[-1, 0]`. -/
theorem makeBounded_escapes : ¬ ∀ (eps v vmin vmax : ℚ), 0 < eps → eps < 1/10 → vmin < vmax →
    makeBounded eps v vmin vmax < vmax := by
  intro h
  have := h (1/100) 5 (-1) 0 (by norm_num) (by norm_num) (by norm_num)
  norm_num [makeBounded] at this

example : (0:ℚ) < 1/100 ∧ (0:ℚ) + 1/100 ≤ 1 * (1 - 1/100) := by norm_num

end Phoebus.Robust
