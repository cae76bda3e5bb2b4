import Verif.GeomUtils.Model
import Verif.Geom.ADM

namespace Phoebus.GeomUtils
open Finset

section Conn
variable {K : Type*} [Field K] [CharZero K]

/-- **C30** no torsion: symmetric in the last two indices, for every derivative array of a symmetric metric. -/
theorem connection_symm (dg : Fin 4 → Fin 4 → Fin 4 → K) (hs : ∀ m n s, dg m n s = dg n m s) (a b c : Fin 4) :
    connection dg a b c = connection dg a c b := by
  unfold connection; rw [hs b c a]; ring

/-- **C30** metric compatibility: `Γ_{abc} + Γ_{bac} = ∂_c g_{ab}`. -/
theorem connection_metric (dg : Fin 4 → Fin 4 → Fin 4 → K) (hs : ∀ m n s, dg m n s = dg n m s) (a b c : Fin 4) :
    connection dg a b c + connection dg b a c = dg a b c := by
  unfold connection; rw [hs b a c, hs c a b, hs b c a]; ring

/-- **C30** uniqueness: whatever array is torsion free and metric compatible is the one the code computes. -/
theorem connection_unique (dg G : Fin 4 → Fin 4 → Fin 4 → K) (hs : ∀ m n s, dg m n s = dg n m s)
    (ht : ∀ a b c, G a b c = G a c b) (hm : ∀ a b c, G a b c + G b a c = dg a b c) : G = connection dg := by
  funext a b c
  have h1 := hm b a c
  have h2 := hm c a b
  have h3 := hm b c a
  have e1 := ht a b c
  have e2 := ht b a c
  have e3 := ht c a b
  unfold connection
  rw [← h1, ← h2, ← h3, e1, e2, e3]
  ring

/-- the geodesic-type contraction `Γ_{abc} u^a u^b u^c = ½ ∂_u g(u,u)`: the connection does no work beyond the metric's own
change along the motion. -/
theorem connection_contract (dg : Fin 4 → Fin 4 → Fin 4 → K) (hs : ∀ m n s, dg m n s = dg n m s) (u : Fin 4 → K) :
    ∑ a, ∑ b, ∑ c, connection dg a b c * u a * u b * u c
      = 1 / 2 * ∑ a, ∑ b, ∑ c, dg a b c * u a * u b * u c := by
  have h : ∑ a, ∑ b, ∑ c, connection dg a b c * u a * u b * u c
      = ∑ a, ∑ b, ∑ c, connection dg b a c * u a * u b * u c := by
    rw [sum_comm]
    exact sum_congr rfl fun a _ => sum_congr rfl fun b _ => sum_congr rfl fun c _ => by ring
  have h2 : ∑ a, ∑ b, ∑ c, connection dg a b c * u a * u b * u c + ∑ a, ∑ b, ∑ c, connection dg b a c * u a * u b * u c
      = ∑ a, ∑ b, ∑ c, dg a b c * u a * u b * u c := by
    simp only [← sum_add_distrib]
    refine sum_congr rfl fun a _ => sum_congr rfl fun b _ => sum_congr rfl fun c _ => ?_
    rw [← connection_metric dg hs a b c]; ring
  rw [← h2, ← h]; ring

/-- constant metric: no connection. -/
theorem connection_zero (a b c : Fin 4) : connection (fun _ _ _ => (0:K)) a b c = 0 := by simp [connection]

/-- a symmetric derivative array with a nonzero connection (`g_{11}` linear in `x^1`). -/
example : ∃ dg : Fin 4 → Fin 4 → Fin 4 → ℚ, (∀ m n s, dg m n s = dg n m s) ∧ connection dg 1 1 1 ≠ 0 := by
  refine ⟨fun m n s => if m = 1 ∧ n = 1 ∧ s = 1 then 2 else 0, ?_, by simp [connection]⟩
  intro m n s; dsimp only; split_ifs <;> first | rfl | (exfalso; tauto)

/-- raising undoes lowering for every pair of mutually inverse metrics. -/
theorem raise_lower (gcov gcon : Fin 4 → Fin 4 → K)
    (hi : ∀ m n, ∑ l, gcon m l * gcov l n = if m = n then 1 else 0) (v : Fin 4 → K) :
    raise gcon (lower gcov v) = v := by
  funext m
  have h : raise gcon (lower gcov v) m = ∑ n, (∑ l, gcon m l * gcov l n) * v n := by
    unfold raise lower
    simp only [mul_sum, sum_mul]
    rw [sum_comm]
    exact sum_congr rfl fun n _ => sum_congr rfl fun l _ => by ring
  rw [h]; simp [hi]

/-- lowering then contracting is the metric inner product. -/
theorem lower_dot (gcov : Fin 4 → Fin 4 → K) (u v : Fin 4 → K) :
    ∑ m, u m * lower gcov v m = Geom.dot4 gcov u v := by
  unfold lower Geom.dot4
  simp only [mul_sum]
  exact sum_congr rfl fun m _ => sum_congr rfl fun n _ => by ring
end Conn

section Flat

/-- **C31** the flat index does not depend on the order of the pair. -/
theorem flatten2_symm (m n : Fin 4) : flatten2 m n = flatten2 n m := by
  revert m n; decide

/-- **C31** closed form, and range: for `m ≤ n < size` the index is below `SymSize<size>`, for every `size ≤ 4`. -/
theorem flatten2_formula (m n : Fin 4) (h : m ≤ n) : flatten2 m n = (n : ℕ) * (n + 1) / 2 + m := by
  revert m n; decide

theorem symSize_eq (n : ℕ) : symSize n = n * (n + 1) / 2 := by
  unfold symSize
  rcases n with _ | n
  · rfl
  · have h : (n + 1) * (n + 1 - 1) / 2 * 2 = (n + 1) * n := by
      simp only [Nat.add_sub_cancel]
      exact Nat.div_mul_cancel (by rw [mul_comm]; exact (Nat.even_mul_succ_self n).two_dvd)
    have h2 : (n + 1) * (n + 1 + 1) / 2 * 2 = (n + 1) * (n + 1 + 1) :=
      Nat.div_mul_cancel (Nat.even_mul_succ_self (n + 1)).two_dvd
    have h3 : (n + 1) * (n + 1 + 1) = (n + 1) * n + 2 * (n + 1) := by ring
    have h4 : (n + 1) * (n + 1) = (n + 1) * n + (n + 1) := by ring
    omega

theorem flatten2_lt (size : ℕ) (m n : Fin 4) (hm : (m : ℕ) < size) (hn : (n : ℕ) < size) :
    flatten2 m n < symSize size := by
  have key : ∀ m n : Fin 4, m ≤ n → (n : ℕ) < size → flatten2 m n < symSize size := by
    intro m n h hn
    have hmn : (m : ℕ) ≤ n := h
    have h1 : (n : ℕ) * (n + 1) / 2 + n + 1 ≤ symSize size := by
      rw [symSize_eq]
      have h2 : (n : ℕ) * (n + 1) / 2 + n + 1 = (n + 1) * (n + 2) / 2 := by
        have : (n + 1) * (n + 2) = (n : ℕ) * (n + 1) + 2 * (n + 1) := by ring
        omega
      rw [h2]
      exact Nat.div_le_div_right (Nat.mul_le_mul (by omega) (by omega))
    rw [flatten2_formula m n h]; omega
  rcases le_total m n with h | h
  · exact key m n h hn
  · rw [flatten2_symm]; exact key n m h hm

/-- **C31** injective on unordered pairs. -/
theorem flatten2_inj (m n p q : Fin 4) : flatten2 m n = flatten2 p q ↔ (m = p ∧ n = q) ∨ (m = q ∧ n = p) := by
  revert m n p q; decide

/-- **C31** onto the storage range, for 3- and 4-dimensional tensors (every slot below `SymSize<size>` is used by a pair of
indices below `size`). -/
theorem flatten2_onto (size : ℕ) (hs : size = 3 ∨ size = 4) (a : ℕ) (ha : a < symSize size) :
    ∃ m n : Fin 4, (m : ℕ) < size ∧ (n : ℕ) < size ∧ m ≤ n ∧ flatten2 m n = a := by
  rcases hs with rfl | rfl
  · have : a < 6 := ha
    interval_cases a
    exacts [⟨0, 0, by decide⟩, ⟨0, 1, by decide⟩, ⟨1, 1, by decide⟩, ⟨0, 2, by decide⟩, ⟨1, 2, by decide⟩, ⟨2, 2, by decide⟩]
  · have : a < 10 := ha
    interval_cases a
    exacts [⟨0, 0, by decide⟩, ⟨0, 1, by decide⟩, ⟨1, 1, by decide⟩, ⟨0, 2, by decide⟩, ⟨1, 2, by decide⟩, ⟨2, 2, by decide⟩,
      ⟨0, 3, by decide⟩, ⟨1, 3, by decide⟩, ⟨2, 3, by decide⟩, ⟨3, 3, by decide⟩]
end Flat

section FDProps
variable {K : Type*} [Field K] [LinearOrder K] [IsStrictOrderedRing K]

theorem fdStep_pos {EPS : K} (he : 0 < EPS) (X : Fin 4 → K) (d : Fin 4) : 0 < fdStep EPS X d :=
  mul_pos (lt_of_lt_of_le one_pos (le_max_right _ _)) he

private theorem ratio_zero (a b : K) : Robust.ratio 0 a b = a / b := by simp [Robust.ratio]

/-- The finite-difference metric gradient is symmetric in the metric indices, so **C30** applies to it: the connection built
from it is torsion free and compatible with it. -/
theorem metricGradientFD_symm (small EPS : K) (g : (Fin 4 → K) → Fin 4 → Fin 4 → K) (X : Fin 4 → K)
    (hs : ∀ Y m n, g Y m n = g Y n m) (m n d : Fin 4) :
    metricGradientFD small EPS g X m n d = metricGradientFD small EPS g X n m d := by
  unfold metricGradientFD
  simp only [hs _ m n]

/-- The finite-difference metric gradient is exact for metrics quadratic along the coordinate line
(`g = p + q h + r h²` at displacement `h`): it returns the linear coefficient. -/
theorem metricGradientFD_quadratic {EPS : K} (he : 0 < EPS) (g : (Fin 4 → K) → Fin 4 → Fin 4 → K) (X : Fin 4 → K)
    (m n d : Fin 4) (hd : d ≠ 0) (p q r : K) (hg : ∀ h, g (shift X d h) m n = p + q * h + r * h ^ 2) :
    metricGradientFD 0 EPS g X m n d = q := by
  have hp := fdStep_pos he X d
  simp only [metricGradientFD, hd, if_false, ratio_zero, hg]
  field_simp; ring

/-- The finite-difference lapse gradient is `α'/α` exactly for a lapse linear along the coordinate line. -/
theorem gradLnAlphaFD_linear {EPS : K} (he : 0 < EPS) (lapse : (Fin 4 → K) → K) (X : Fin 4 → K)
    (d : Fin 4) (hd : d ≠ 0) (p q : K) (hp0 : p ≠ 0) (hg : ∀ h, lapse (shift X d h) = p + q * h) :
    gradLnAlphaFD 0 EPS lapse X d = q / p := by
  have hp := fdStep_pos he X d
  simp only [gradLnAlphaFD, hd, if_false, ratio_zero, hg]
  have : (p + q * (0 - fdStep EPS X d) + (p + q * fdStep EPS X d)) = 2 * p := by ring
  rw [this]
  field_simp; ring

/-- constant metric and lapse give zero gradients whatever the regulariser and step, and the time component is always zero
(the code assumes a static metric). -/
theorem fd_const (small EPS : K) (X : Fin 4 → K) (g0 : Fin 4 → Fin 4 → K) (a0 : K) (m n d : Fin 4) :
    metricGradientFD small EPS (fun _ => g0) X m n d = 0 ∧ gradLnAlphaFD small EPS (fun _ => a0) X d = 0 := by
  simp [metricGradientFD, gradLnAlphaFD, Robust.ratio]

theorem fd_time (small EPS : K) (X : Fin 4 → K) (g : (Fin 4 → K) → Fin 4 → Fin 4 → K) (lapse : (Fin 4 → K) → K)
    (m n : Fin 4) : metricGradientFD small EPS g X m n 0 = 0 ∧ gradLnAlphaFD small EPS lapse X 0 = 0 := by
  simp [metricGradientFD, gradLnAlphaFD]

/-- the time component zero is wrong for a time-dependent metric: `g_{11} = t²` at `t = 1` has derivative 2. -/
theorem fd_time_wrong : ∃ (g : (Fin 4 → ℚ) → Fin 4 → Fin 4 → ℚ) (X : Fin 4 → ℚ),
    (∀ h : ℚ, g (fun mu => if mu = 0 then X 0 + h else X mu) 1 1 = 1 + 2 * h + h ^ 2) ∧
    metricGradientFD 0 (1/1000) g X 1 1 0 = 0 := by
  refine ⟨fun Y m n => if m = n then Y 0 ^ 2 else 0, fun _ => 1, ?_, by simp [metricGradientFD]⟩
  intro h; simp; ring

/-- hypotheses of the quadratic theorem are met by `g_{22} = (X1)²` at `X1 = 3`. -/
example : ∀ h : ℚ, (fun (Y : Fin 4 → ℚ) (_ _ : Fin 4) => Y 1 ^ 2) (shift ![0, 3, 1, 0] 1 h) 2 2 = 9 + 6 * h + 1 * h ^ 2 := by
  intro h; simp [shift]; ring
end FDProps
end Phoebus.GeomUtils
