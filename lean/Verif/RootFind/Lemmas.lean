import Verif.RootFind.Model
import Verif.Common
import Mathlib.Topology.Order.IntermediateValue
import Mathlib.Topology.Instances.Real.Lemmas

namespace Phoebus.RootFind
variable {K : Type*} [Field K] [LinearOrder K] [IsStrictOrderedRing K]

theorem signOf_mul_neg {y : K} (h : y ≠ 0) : signOf y * y < 0 := by
  unfold signOf
  split_ifs with h1
  · linarith
  · have : 0 < y := lt_of_le_of_ne (not_lt.1 h1) (Ne.symm h)
    linarith

theorem signOf_mul_other {ya yb : K} (h : ya ≠ 0) (hp : ¬ ya * yb > 0) : 0 ≤ signOf ya * yb := by
  have hp' := not_lt.1 hp
  unfold signOf
  split_ifs with h1
  · rw [one_mul]; by_contra hc
    have := mul_pos_of_neg_of_neg h1 (not_le.1 hc); linarith
  · have : 0 < ya := lt_of_le_of_ne (not_lt.1 h1) (Ne.symm h)
    by_contra hc
    have h3 : 0 < yb := by linarith [not_le.1 hc]
    have := mul_pos this h3; linarith

theorem signOf_ne (y : K) : signOf y ≠ 0 := by
  unfold signOf; split_ifs <;> norm_num

theorem signOf_sq (y : K) : signOf y * signOf y = 1 := by
  unfold signOf; split_ifs <;> norm_num

theorem checkBracket_iff (ya yb : K) : checkBracket ya yb = true ↔ ¬ ya * yb > 0 := by
  unfold checkBracket; split_ifs with h <;> simp [h]

/-- geometric part of the bisection loop -/
theorem bisectLoop_geom (f : K → K) (s tol : K) : ∀ (fuel : ℕ) (a b : K), a ≤ b →
    a ≤ (bisectLoop f s tol fuel a b).1 ∧
    (bisectLoop f s tol fuel a b).1 ≤ (bisectLoop f s tol fuel a b).2.1 ∧
    (bisectLoop f s tol fuel a b).2.1 ≤ b ∧ (bisectLoop f s tol fuel a b).2.2 ≤ fuel ∧
    ((bisectLoop f s tol fuel a b).2.2 < fuel →
      (bisectLoop f s tol fuel a b).2.1 - (bisectLoop f s tol fuel a b).1 ≤ tol) := by
  intro fuel
  induction fuel with
  | zero => intro a b h; simp [bisectLoop, h]
  | succ n ih =>
    intro a b h
    unfold bisectLoop
    by_cases hw : b - a > tol
    · simp only [hw, if_true]
      have h1 : a ≤ 1/2 * (a + b) := by linarith
      have h2 : 1/2 * (a + b) ≤ b := by linarith
      split_ifs with c1 c2
      · obtain ⟨e1, e2, e3, e4, e5⟩ := ih a (1/2 * (a + b)) h1
        exact ⟨e1, e2, e3.trans h2, by omega, fun hh => e5 (by omega)⟩
      · obtain ⟨e1, e2, e3, e4, e5⟩ := ih (1/2 * (a + b)) b h2
        exact ⟨h1.trans e1, e2, e3, by omega, fun hh => e5 (by omega)⟩
      · obtain ⟨e1, e2, e3, e4, e5⟩ := ih (1/2 * (a + b)) (1/2 * (a + b)) le_rfl
        exact ⟨h1.trans e1, e2, e3.trans h2, by omega, fun hh => e5 (by omega)⟩
    · simp only [hw, if_false]
      exact ⟨le_rfl, h, le_rfl, by omega, fun _ => not_lt.1 hw⟩

/-- bracketing invariant -/
def Br (f : K → K) (s a b : K) : Prop := (s * f a < 0 ∧ 0 ≤ s * f b) ∨ (a = b ∧ f a = 0)

theorem Br.prod {f : K → K} {s a b : K} (hs : s * s = 1) (h : Br f s a b) : f a * f b ≤ 0 := by
  rcases h with ⟨h1, h2⟩ | ⟨_, h2⟩
  · have e : f a * f b = (s * f a) * (s * f b) := by linear_combination (-f a * f b) * hs
    rw [e]; exact mul_nonpos_of_nonpos_of_nonneg h1.le h2
  · rw [h2, zero_mul]

theorem bisectLoop_br (f : K → K) (s tol : K) (hs : s * s = 1) : ∀ (fuel : ℕ) (a b : K), Br f s a b →
    Br f s (bisectLoop f s tol fuel a b).1 (bisectLoop f s tol fuel a b).2.1 := by
  have hs0 : s ≠ 0 := by rintro rfl; simp at hs
  intro fuel
  induction fuel with
  | zero => intro a b h; simpa [bisectLoop] using h
  | succ n ih =>
    intro a b h
    unfold bisectLoop
    by_cases hw : b - a > tol
    · simp only [hw, if_true]
      split_ifs with c1 c2
      · apply ih
        rcases h with ⟨h1, _⟩ | ⟨h1, h2⟩
        · exact Or.inl ⟨h1, c1.le⟩
        · subst h1
          have e : 1/2 * (a + a) = a := by ring
          rw [e, h2] at c1; simp at c1
      · apply ih
        rcases h with ⟨_, h1⟩ | ⟨h1, h2⟩
        · exact Or.inl ⟨c2, h1⟩
        · subst h1
          have e : 1/2 * (a + a) = a := by ring
          rw [e, h2] at c2; simp at c2
      · apply ih
        have : s * f (1/2 * (a + b)) = 0 := le_antisymm (not_lt.1 c1) (not_lt.1 c2)
        exact Or.inr ⟨rfl, (mul_eq_zero.1 this).resolve_left hs0⟩
    · simpa only [hw, if_false] using h

theorem bisectLoop_fast (f : K → K) (s tol : K) (ht : 0 ≤ tol) : ∀ (fuel n : ℕ) (a b : K),
    b - a ≤ tol * 2 ^ n → (bisectLoop f s tol fuel a b).2.2 ≤ n := by
  intro fuel
  induction fuel with
  | zero => intro n a b _; simp [bisectLoop]
  | succ m ih =>
    intro n a b h
    unfold bisectLoop
    by_cases hw : b - a > tol
    · simp only [hw, if_true]
      cases n with
      | zero => simp at h; linarith
      | succ n =>
        have h' : (b - a) / 2 ≤ tol * 2 ^ n := by rw [pow_succ] at h; linarith
        have h0 : 0 ≤ tol * 2 ^ n := by positivity
        split_ifs with c1 c2
        · have := ih n a (1/2 * (a + b)) (by linarith); omega
        · have := ih n (1/2 * (a + b)) b (by linarith); omega
        · have := ih n (1/2 * (a + b)) (1/2 * (a + b)) (by linarith); omega
    · simp [hw]

/-- IVT in the form used here -/
theorem exists_root_of_prod {f : ℝ → ℝ} {a b : ℝ} (hab : a ≤ b) (hc : ContinuousOn f (Set.Icc a b))
    (h : f a * f b ≤ 0) : ∃ z ∈ Set.Icc a b, f z = 0 := by
  rcases mul_nonpos_iff.1 h with ⟨h1, h2⟩ | ⟨h1, h2⟩
  · exact intermediate_value_Icc' hab hc ⟨h2, h1⟩
  · exact intermediate_value_Icc hab hc ⟨h1, h2⟩

/-- refine_bracket stays inside and keeps a sign change -/
theorem refineBracket_spec (f : K → K) (g a b : K) (hab : a ≤ b) :
    a ≤ (refineBracket f g a b).1 ∧ (refineBracket f g a b).1 ≤ (refineBracket f g a b).2.1 ∧
    (refineBracket f g a b).2.1 ≤ b ∧
    (refineBracket f g a b).2.2.1 = f (refineBracket f g a b).1 ∧
    (refineBracket f g a b).2.2.2 = f (refineBracket f g a b).2.1 := by
  unfold refineBracket
  by_cases h : a ≤ g ∧ b ≥ g
  · simp only [h, and_self, if_true]
    split_ifs
    · exact ⟨le_rfl, h.1, h.2, rfl, rfl⟩
    · exact ⟨h.1, h.2, le_rfl, rfl, rfl⟩
  · simp only [h, if_false]
    exact ⟨le_rfl, hab, le_rfl, trivial, trivial⟩

/-- a sign change over the original interval survives refinement -/
theorem refineBracket_keeps (f : K → K) (g a b : K) (h : f a * f b ≤ 0) :
    (refineBracket f g a b).2.2.1 * (refineBracket f g a b).2.2.2 ≤ 0 := by
  unfold refineBracket
  by_cases h1 : a ≤ g ∧ b ≥ g
  swap
  · simpa only [h1, if_false] using h
  simp only [h1, and_self, if_true]
  split_ifs with h2
  · rcases mul_pos_iff.1 h2 with ⟨p, q⟩ | ⟨p, q⟩
    · have : f a ≤ 0 := by
        by_contra hc; have := mul_pos (not_le.1 hc) q; linarith
      exact mul_nonpos_of_nonpos_of_nonneg this p.le
    · have : 0 ≤ f a := by
        by_contra hc; have := mul_pos_of_neg_of_neg (not_le.1 hc) q; linarith
      exact mul_nonpos_of_nonneg_of_nonpos this p.le
  · exact not_lt.1 h2

/-- regula falsi invariant: `ya` is a positive multiple of `s f a`, likewise `yb`. -/
def RInv (f : K → K) (s a b ya yb : K) : Prop :=
  (ya < 0 ∧ s * f a < 0 ∧ 0 ≤ yb ∧ (0 < yb → 0 < s * f b) ∧ (yb = 0 → f b = 0)) ∨ (a = b ∧ f a = 0)

theorem RInv.prod {f : K → K} {s a b ya yb : K} (hs : s * s = 1) (h : RInv f s a b ya yb) :
    f a * f b ≤ 0 := by
  rcases h with ⟨_, h1, h2, h3, h4⟩ | ⟨_, h2⟩
  · rcases eq_or_lt_of_le h2 with h | h
    · rw [h4 h.symm, mul_zero]
    · have e : f a * f b = (s * f a) * (s * f b) := by linear_combination (-f a * f b) * hs
      rw [e]; exact mul_nonpos_of_nonpos_of_nonneg h1.le (h3 h).le
  · rw [h2, zero_mul]

theorem falsi_c_mem {a b ya yb : K} (hab : a ≤ b) (hya : ya ≤ 0) (hyb : 0 ≤ yb) (hne : yb - ya ≠ 0) :
    a ≤ (a * yb - b * ya) / (yb - ya) ∧ (a * yb - b * ya) / (yb - ya) ≤ b := by
  have hp : 0 < yb - ya := lt_of_le_of_ne (by linarith) (Ne.symm hne)
  constructor
  · rw [le_div_iff₀ hp]; nlinarith
  · rw [div_le_iff₀ hp]; nlinarith

theorem falsiLoop_spec (f : K → K) (s tol : K) (hs : s * s = 1) (ht : 0 ≤ tol) :
    ∀ (fuel : ℕ) (a b ya yb : K) (b1 b2 : ℕ), a ≤ b → RInv f s a b ya yb →
    ∃ a' b', (falsiLoop f s tol fuel a b ya yb b1 b2).1 = some (a', b') ∧ a ≤ a' ∧ a' ≤ b' ∧ b' ≤ b ∧
      f a' * f b' ≤ 0 ∧ (falsiLoop f s tol fuel a b ya yb b1 b2).2 ≤ fuel ∧
      ((falsiLoop f s tol fuel a b ya yb b1 b2).2 < fuel → b' - a' ≤ 2 * tol) := by
  have hs0 : s ≠ 0 := by rintro rfl; simp at hs
  intro fuel
  induction fuel with
  | zero => intro a b ya yb b1 b2 hab h; exact ⟨a, b, rfl, le_rfl, hab, le_rfl, h.prod hs, le_rfl, by simp⟩
  | succ n ih =>
    intro a b ya yb b1 b2 hab h
    unfold falsiLoop
    by_cases hw : b - a > 2 * tol
    · rcases h with ⟨h1, h2, h3, h4, h5⟩ | ⟨h1, _⟩
      · have hne : yb - ya ≠ 0 := by intro h0; linarith
        simp only [hw, if_true, hne, if_false]
        obtain ⟨m1, m2⟩ := falsi_c_mem hab h1.le h3 hne
        set c := (a * yb - b * ya) / (yb - ya) with hc
        have hba : a < b := by linarith
        have hca : c ≠ a := by
          intro hh
          have hp : 0 < yb - ya := lt_of_le_of_ne (by linarith) (Ne.symm hne)
          rw [hc, div_eq_iff hne] at hh
          nlinarith
        simp only [hca, if_false]
        by_cases hcb : c = b
        · simp only [hcb, if_true]
          have hyb : yb = 0 := by
            rw [hc, div_eq_iff hne] at hcb
            have : (a - b) * yb = 0 := by linear_combination hcb
            rcases mul_eq_zero.1 this with h0 | h0
            · linarith
            · exact h0
          obtain ⟨a', b', e0, e1, e2, e3, e4, e5, e6⟩ := ih b b ya yb b1 b2 le_rfl (Or.inr ⟨rfl, h5 hyb⟩)
          exact ⟨a', b', e0, hab.trans e1, e2, e3, e4, by omega, fun hh => e6 (by omega)⟩
        · simp only [hcb, if_false]
          have fac1 : (0:K) < (if b1 + 1 > 1 then 1/2 else 1) := by split_ifs <;> norm_num
          have fac2 : (0:K) < (if b2 + 1 > 1 then 1/2 else 1) := by split_ifs <;> norm_num
          by_cases c1 : s * f c > 0
          · simp only [c1, if_true]
            obtain ⟨a', b', e0, e1, e2, e3, e4, e5, e6⟩ := ih a c _ (s * f c) (b1 + 1) 0 m1
                (Or.inl ⟨mul_neg_of_neg_of_pos h1 fac1, h2, c1.le, id,
                  fun h0 => absurd h0 (ne_of_gt c1)⟩)
            exact ⟨a', b', e0, e1, e2, e3.trans m2, e4, by omega, fun hh => e6 (by omega)⟩
          · simp only [c1, if_false]
            by_cases c2 : s * f c < 0
            · simp only [c2, if_true]
              obtain ⟨a', b', e0, e1, e2, e3, e4, e5, e6⟩ := ih c b (s * f c) _ 0 (b2 + 1) m2
                (Or.inl ⟨c2, c2, mul_nonneg h3 fac2.le, fun hp => h4 (pos_of_mul_pos_left hp fac2.le),
                  fun h0 => h5 ((mul_eq_zero.1 h0).resolve_right fac2.ne')⟩)
              exact ⟨a', b', e0, m1.trans e1, e2, e3, e4, by omega, fun hh => e6 (by omega)⟩
            · simp only [c2, if_false]
              have h0 : s * f c = 0 := le_antisymm (not_lt.1 c1) (not_lt.1 c2)
              obtain ⟨a', b', e0, e1, e2, e3, e4, e5, e6⟩ := ih c c ya yb b1 b2 le_rfl
                (Or.inr ⟨rfl, (mul_eq_zero.1 h0).resolve_left hs0⟩)
              exact ⟨a', b', e0, m1.trans e1, e2, e3.trans m2, e4, by omega, fun hh => e6 (by omega)⟩
      · subst h1; exfalso; simp at hw; linarith
    · simp only [hw, if_false]
      exact ⟨a, b, rfl, le_rfl, hab, le_rfl, h.prod hs, by omega, fun _ => not_lt.1 hw⟩

/-- first step when the left end is already a root and the right is not -/
theorem falsiLoop_left_root (f : K → K) (s tol : K) (ht : 0 ≤ tol) (fuel : ℕ) (a b yb : K) (b1 b2 : ℕ)
    (hyb : yb ≠ 0) (hab : a ≤ b) :
    (falsiLoop f s tol fuel a b 0 yb b1 b2).2 ≤ fuel ∧
    ((falsiLoop f s tol fuel a b 0 yb b1 b2).1 = some (a, a) ∨
     (falsiLoop f s tol fuel a b 0 yb b1 b2).1 = some (a, b) ∧
      ((falsiLoop f s tol fuel a b 0 yb b1 b2).2 < fuel → b - a ≤ 2 * tol)) := by
  cases fuel with
  | zero => simp [falsiLoop]
  | succ n =>
    unfold falsiLoop
    by_cases hw : b - a > 2 * tol
    · have hne : yb - 0 ≠ 0 := by simpa using hyb
      have hc : (a * yb - b * 0) / (yb - 0) = a := by simp [hyb]
      simp only [hw, if_true, hne, if_false, hc]
      have : falsiLoop f s tol n a a 0 yb b1 b2 = (some (a, a), 0) := by
        cases n with
        | zero => rfl
        | succ m =>
          unfold falsiLoop
          have : ¬ (a - a > 2 * tol) := by rw [sub_self]; push Not; linarith
          simp only [this, if_false]
      rw [this]
      exact ⟨by omega, Or.inl rfl⟩
    · simp only [hw, if_false]
      exact ⟨by omega, Or.inr ⟨trivial, fun _ => not_lt.1 hw⟩⟩

/-- the ITP abscissa stays in the bracket -/
theorem itpPoint_mem {tol a b ya yb : K} {e : ℤ} (ht : 0 < tol) (hab : a ≤ b) (hya : ya ≤ 0)
    (hyb : 0 ≤ yb) : a ≤ itpPoint tol a b ya yb e ∧ itpPoint tol a b ya yb e ≤ b := by
  have hpow : 0 < tol * (2:K) ^ e := mul_pos ht (zpow_pos (by norm_num) e)
  unfold itpPoint
  simp only
  by_cases hd : yb - ya = 0
  · simp only [hd, if_true, sub_self, abs_zero]
    split_ifs with h
    · constructor <;> linarith
    · constructor <;> linarith
  · simp only [hd, if_false]
    obtain ⟨m1, m2⟩ := falsi_c_mem hab hya hyb hd
    have e0 : (yb * a - ya * b) / (yb - ya) = (a * yb - b * ya) / (yb - ya) := by ring
    rw [e0]
    set xf := (a * yb - b * ya) / (yb - ya)
    set del := min (1/10 * (b - a)^2) |1/2 * (a + b) - xf| with hdel
    have d0 : 0 ≤ del := le_min (by positivity) (abs_nonneg _)
    have d1 : del ≤ |1/2 * (a + b) - xf| := min_le_right _ _
    rcases le_or_gt (1/2 * (a + b) - xf) 0 with hx | hx
    · have hx' : ¬ (1/2 * (a + b) - xf > 0) := not_lt.2 hx
      simp only [hx', if_false]
      rw [abs_of_nonpos hx] at d1
      split_ifs with c1 c2 c3
      · rw [abs_of_nonneg (by linarith)] at c2
        constructor <;> linarith
      · constructor <;> linarith
      · simp only [sub_self, abs_zero] at c3
        constructor <;> linarith
      · constructor <;> linarith
    · simp only [hx, if_true]
      rw [abs_of_pos hx] at d1
      split_ifs with c1 c2 c3
      · rw [abs_of_nonpos (by linarith)] at c2
        constructor <;> linarith
      · constructor <;> linarith
      · simp only [sub_self, abs_zero] at c3
        constructor <;> linarith
      · constructor <;> linarith

/-- distance from the midpoint is at most `r` -/
theorem itpPoint_near {tol a b ya yb : K} {e : ℤ} (hr : 0 ≤ tol * (2:K) ^ e - 1/2 * (b - a)) :
    |itpPoint tol a b ya yb e - 1/2 * (a + b)| ≤ tol * (2:K) ^ e - 1/2 * (b - a) := by
  unfold itpPoint
  simp only
  by_cases hd : yb - ya = 0
  · simp only [hd, if_true, sub_self, abs_zero]
    rw [if_neg (not_lt.2 hr)]; simpa using hr
  · simp only [hd, if_false]
    generalize (yb * a - ya * b) / (yb - ya) = xf
    generalize min (1/10 * (b - a)^2) |1/2 * (a + b) - xf| = del
    have key : ∀ xt sig : K, sig = 1 ∨ sig = -1 →
        |(if |xt - 1/2 * (a + b)| > tol * (2:K) ^ e - 1/2 * (b - a) then
            1/2 * (a + b) - sig * (tol * (2:K) ^ e - 1/2 * (b - a)) else xt) - 1/2 * (a + b)|
          ≤ tol * (2:K) ^ e - 1/2 * (b - a) := by
      intro xt sig hsig
      split_ifs with c
      · have : 1/2 * (a + b) - sig * (tol * (2:K) ^ e - 1/2 * (b - a)) - 1/2 * (a + b)
            = -(sig * (tol * (2:K) ^ e - 1/2 * (b - a))) := by ring
        rw [this, abs_neg, abs_mul, abs_of_nonneg hr]
        rcases hsig with h | h <;> rw [h] <;> simp
      · exact not_lt.1 c
    apply key
    split_ifs <;> simp

theorem itpLoop_spec (f : K → K) (s tol : K) (hs : s * s = 1) (ht : 0 < tol) :
    ∀ (fuel : ℕ) (e : ℤ) (a b ya yb : K), a ≤ b → RInv f s a b ya yb →
    a ≤ (itpLoop f s tol fuel e a b ya yb).1 ∧
    (itpLoop f s tol fuel e a b ya yb).1 ≤ (itpLoop f s tol fuel e a b ya yb).2.1 ∧
    (itpLoop f s tol fuel e a b ya yb).2.1 ≤ b ∧
    f (itpLoop f s tol fuel e a b ya yb).1 * f (itpLoop f s tol fuel e a b ya yb).2.1 ≤ 0 ∧
    (itpLoop f s tol fuel e a b ya yb).2.2 ≤ fuel ∧
    ((itpLoop f s tol fuel e a b ya yb).2.2 < fuel →
      (itpLoop f s tol fuel e a b ya yb).2.1 - (itpLoop f s tol fuel e a b ya yb).1 ≤ 2 * tol) ∧
    (b - a ≤ 2 * tol * (2:K) ^ e → (itpLoop f s tol fuel e a b ya yb).2.2 ≤ e.toNat) := by
  have hs0 : s ≠ 0 := by rintro rfl; simp at hs
  intro fuel
  induction fuel with
  | zero => intro e a b ya yb hab h; simp [itpLoop, hab]; exact h.prod hs
  | succ n ih =>
    intro e a b ya yb hab h
    unfold itpLoop
    by_cases hw : b - a > 2 * tol
    · rcases h with ⟨h1, h2, h3, h4, h5⟩ | ⟨h1, _⟩
      · simp only [hw, if_true]
        obtain ⟨m1, m2⟩ := itpPoint_mem (e := e) ht hab h1.le h3
        set x := itpPoint tol a b ya yb e with hx
        -- width bookkeeping
        have hwid : b - a ≤ 2 * tol * (2:K) ^ e → 0 < e ∧ x - a ≤ 2 * tol * (2:K) ^ (e - 1) ∧
            b - x ≤ 2 * tol * (2:K) ^ (e - 1) := by
          intro hb
          have hpos : 0 < e := by
            by_contra hc
            have : (2:K) ^ e ≤ 1 := zpow_le_one_of_nonpos₀ (by norm_num) (not_lt.1 hc)
            have : 2 * tol * (2:K) ^ e ≤ 2 * tol := by nlinarith
            linarith
          have e1 : 2 * tol * (2:K) ^ (e - 1) = tol * (2:K) ^ e := by
            rw [zpow_sub_one₀ (by norm_num)]; field_simp
          have hn := itpPoint_near (a := a) (b := b) (ya := ya) (yb := yb) (e := e) (tol := tol) (by linarith)
          rw [← hx, abs_le] at hn
          rw [e1]
          exact ⟨hpos, by linarith, by linarith⟩
        split_ifs with c1 c2
        · obtain ⟨e1, e2, e3, e4, e5, e6, e7⟩ := ih (e - 1) a x ya (s * f x) m1
            (Or.inl ⟨h1, h2, c1.le, id, fun h0 => by rw [h0] at c1; simp at c1⟩)
          refine ⟨e1, e2, e3.trans m2, e4, by omega, fun hh => e6 (by omega), fun hb => ?_⟩
          obtain ⟨w1, w2, w3⟩ := hwid hb
          have := e7 w2; omega
        · obtain ⟨e1, e2, e3, e4, e5, e6, e7⟩ := ih (e - 1) x b (s * f x) yb m2
            (Or.inl ⟨c2, c2, h3, h4, h5⟩)
          refine ⟨m1.trans e1, e2, e3, e4, by omega, fun hh => e6 (by omega), fun hb => ?_⟩
          obtain ⟨w1, w2, w3⟩ := hwid hb
          have := e7 w3; omega
        · have h0 : s * f x = 0 := le_antisymm (not_lt.1 c1) (not_lt.1 c2)
          obtain ⟨e1, e2, e3, e4, e5, e6, e7⟩ := ih (e - 1) x x ya yb le_rfl
            (Or.inr ⟨rfl, (mul_eq_zero.1 h0).resolve_left hs0⟩)
          refine ⟨m1.trans e1, e2, e3.trans m2, e4, by omega, fun hh => e6 (by omega), fun hb => ?_⟩
          obtain ⟨w1, w2, w3⟩ := hwid hb
          have hz : x - x ≤ 2 * tol * (2:K) ^ (e - 1) := by
            rw [sub_self]; exact (mul_pos (by linarith) (zpow_pos (by norm_num) _)).le
          have := e7 hz; omega
      · subst h1; exfalso; simp at hw; linarith
    · simp only [hw, if_false]
      exact ⟨le_rfl, hab, le_rfl, h.prod hs, by omega, fun _ => not_lt.1 hw, fun _ => by omega⟩

/-- initial invariant after refinement and the bracket check, when the left value is nonzero -/
theorem init_inv (f : K → K) {a b : K} (h0 : f a ≠ 0) (hp : ¬ f a * f b > 0) :
    RInv f (signOf (f a)) a b (f a * signOf (f a)) (f b * signOf (f a)) := by
  left
  have h1 := signOf_mul_neg h0
  have h2 := signOf_mul_other h0 hp
  refine ⟨by rwa [mul_comm], h1, by rwa [mul_comm], fun h => by rwa [mul_comm], fun h => ?_⟩
  exact (mul_eq_zero.1 h).resolve_right (signOf_ne _)

end Phoebus.RootFind
