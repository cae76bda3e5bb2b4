import Verif.Recon.Props
import Mathlib.Algebra.Order.Group.MinMax

/-!
# C04: changing the sign of the data changes the sign of the face states
-/
namespace Phoebus.Recon
variable {K : Type*} [Field K] [LinearOrder K] [IsStrictOrderedRing K]

theorem minmod2_neg (a b : K) : minmod2 (-a) (-b) = - minmod2 a b := by
  unfold minmod2
  simp only [abs_neg, neg_mul_neg]
  split_ifs <;> simp

theorem minmod2_comm (a b : K) : minmod2 a b = minmod2 b a := by
  unfold minmod2
  rw [mul_comm b a]
  split_ifs with h h1 h2 h2
  · exact absurd h2 (not_lt.2 h1.le)
  · rfl
  · rfl
  · have e : |a| = |b| := le_antisymm (not_lt.1 h2) (not_lt.1 h1)
    rcases abs_eq_abs.1 e with e | e
    · exact e.symm
    · rw [e] at h
      nlinarith [mul_self_nonneg b]
  · rfl

/-- **C04 (sign)**: all four methods are odd. -/
theorem recon_odd (eps epsm q0 q1 q2 q3 q4 : K) :
    piecewiseLinear (-q0) (-q1) (-q2) = -piecewiseLinear q0 q1 q2 ∧
    weno5z eps (-q0) (-q1) (-q2) (-q3) (-q4) = -weno5z eps q0 q1 q2 q3 q4 ∧
    mp5 epsm (-q0) (-q1) (-q2) (-q3) (-q4) = -mp5 epsm q0 q1 q2 q3 q4 := by
  have m : ∀ a b c al : K, 0 ≤ al → mc (-b - -a) (-c - -b) al = - mc (b - a) (c - b) al := by
    intro a b c al h
    rw [← mc_neg_neg _ _ _ h]; congr 1 <;> ring
  refine ⟨?_, ?_, ?_⟩
  · unfold piecewiseLinear
    simp only [m q0 q1 q2 (3/2) (by norm_num), Prod.neg_mk, Prod.mk.injEq]
    constructor <;> ring
  · have hb : wenoBeta eps (-q0) (-q1) (-q2) (-q3) (-q4) = wenoBeta eps q0 q1 q2 q3 q4 := by
      unfold wenoBeta; simp only [Prod.mk.injEq]; refine ⟨?_, ?_, ?_⟩ <;> ring
    unfold weno5z wenoBlend
    simp only [hb, m q1 q2 q3 2 (by norm_num), wenoHiL, wenoHiR, Prod.neg_mk, Prod.mk.injEq]
    constructor <;> ring
  · have sub : ∀ a b c d e : K, mp5Subcalc epsm (-a) (-b) (-c) (-d) (-e) = -mp5Subcalc epsm a b c d e := by
      intro a b c d e
      have hh : mp5High (-a) (-b) (-c) (-d) (-e) = -mp5High a b c d e := by unfold mp5High; ring
      have hp : mp5MP (-b) (-c) (-d) = -mp5MP b c d := by
        unfold mp5MP
        have : minmod2 (-d - -c) (4 * (-c - -b)) = -minmod2 (d - c) (4 * (c - b)) := by
          rw [← minmod2_neg]; congr 1 <;> ring
        rw [this]; ring
      have mn : ∀ x y : K, min (-x) (-y) = -max x y := fun x y => min_neg_neg x y
      have mx : ∀ x y : K, max (-x) (-y) = -min x y := fun x y => max_neg_neg x y
      have hB : mp5Bounds (-a) (-b) (-c) (-d) (-e) = (-(mp5Bounds a b c d e).2, -(mp5Bounds a b c d e).1) := by
        unfold mp5Bounds
        simp only
        have g1 : -a + -c - 2 * -b = -(a + c - 2 * b) := by ring
        have g2 : -b + -d - 2 * -c = -(b + d - 2 * c) := by ring
        have g3 : -c + -e - 2 * -d = -(c + e - 2 * d) := by ring
        have k : ∀ x y : K, 4 * -x - -y = -(4 * x - y) := by intro x y; ring
        have l1 : -c + 4 * (-c - -b) = -(c + 4 * (c - b)) := by ring
        have l2 : ∀ z : K, 1 / 2 * (-c + -d) - 1 / 2 * -z = -(1 / 2 * (c + d) - 1 / 2 * z) := by intro z; ring
        have l3 : ∀ z : K, 1 / 2 * (3 * -c - -b) + 4 / 3 * -z = -(1 / 2 * (3 * c - b) + 4 / 3 * z) := by intro z; ring
        simp only [g1, g2, g3, k, minmod2_neg, l1, l2, l3, mn, mx]
      unfold mp5Subcalc
      simp only [hh, hp, hB]
      have hc : (-mp5High a b c d e - -c) * (-mp5High a b c d e - -mp5MP b c d) = (mp5High a b c d e - c) * (mp5High a b c d e - mp5MP b c d) := by ring
      rw [hc]
      split_ifs
      · rfl
      · unfold median
        have : ∀ f x y : K, minmod2 (-y - -f) (-x - -f) = -minmod2 (x - f) (y - f) := by
          intro f x y
          rw [← minmod2_neg, minmod2_comm]; congr 1 <;> ring
        rw [this]; ring
    unfold mp5
    simp only [sub, Prod.neg_mk]

end Phoebus.Recon
