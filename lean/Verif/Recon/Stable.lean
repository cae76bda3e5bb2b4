import Verif.Recon.Props
import Verif.FluxSweep.Props

/-!
# Reconstruction of data close to linear

If the samples differ by at most `δ` from those of a linear function, the reconstructed edge values differ by at most a multiple of `δ` from its edge values
(for the piecewise constant method: from the value at the centre).
-/
namespace Phoebus.Recon
open FluxSweep
variable {K : Type*} [Field K] [LinearOrder K] [IsStrictOrderedRing K]

theorem mc_near (alpha dm dp B δ : K) (ha : 1 ≤ alpha) (h1 : |dm - B| ≤ δ) (h2 : |dp - B| ≤ δ) : |mc dm dp alpha - B| ≤ δ := by
  have pos : ∀ dm dp B : K, |dm - B| ≤ δ → |dp - B| ≤ δ → 0 < dm → 0 < dp → |mc dm dp alpha - B| ≤ δ := by
    intro dm dp B h1 h2 m p
    rw [abs_le] at h1 h2 ⊢
    rw [mc_pos (by linarith) m p]
    constructor
    · rw [le_sub_iff_add_le]
      refine le_min (by linarith) ?_
      have : min dm dp ≤ alpha * min dm dp := le_mul_of_one_le_left (le_min m.le p.le) ha
      refine le_trans (le_min ?_ ?_) this <;> linarith
    · have := min_le_left ((dm + dp) / 2) (alpha * min dm dp)
      linarith
  rcases le_or_gt (dm * dp) 0 with h | h
  · rw [mc_nonpos (by linarith) h]
    rw [abs_le] at h1 h2 ⊢
    rcases mul_nonpos_iff.1 h with ⟨a, b⟩ | ⟨a, b⟩ <;> constructor <;> linarith
  · rcases pos_and_pos_or_neg_and_neg_of_mul_pos h with ⟨a, b⟩ | ⟨a, b⟩
    · exact pos dm dp B h1 h2 a b
    · have := pos (-dm) (-dp) (-B) (by rwa [← abs_neg, show -(-dm - -B) = dm - B by ring]) (by rwa [← abs_neg, show -(-dp - -B) = dp - B by ring]) (by linarith) (by linarith)
      rw [mc_neg_neg _ _ _ (by linarith), ← abs_neg] at this
      rwa [show mc dm dp alpha - B = -(-mc dm dp alpha - -B) by ring]

theorem plm_near (qm q0 qp A B δ : K) (h1 : |qm - (A - B)| ≤ δ) (h2 : |q0 - A| ≤ δ) (h3 : |qp - (A + B)| ≤ δ) :
    |(piecewiseLinear qm q0 qp).1 - (A + B / 2)| ≤ 2 * δ ∧ |(piecewiseLinear qm q0 qp).2 - (A - B / 2)| ≤ 2 * δ := by
  have hm := mc_near (3/2) (q0 - qm) (qp - q0) B (2 * δ) (by norm_num) (by rw [abs_le] at *; constructor <;> linarith) (by rw [abs_le] at *; constructor <;> linarith)
  simp only [piecewiseLinear]
  rw [abs_le] at *
  rw [abs_le] at *
  constructor <;> constructor <;> linarith

theorem convex_near (a b c x y z δ : K) (ha : 0 < a) (hb : 0 < b) (hc : 0 < c) (hs : a + b + c = 1) (hx : |x| ≤ δ) (hy : |y| ≤ δ) (hz : |z| ≤ δ) :
    |a * x + b * y + c * z| ≤ δ := by
  rw [abs_le] at *
  have e : δ = a * δ + b * δ + c * δ := by rw [← add_mul, ← add_mul, hs, one_mul]
  constructor
  · nlinarith
  · nlinarith

theorem weno_near (eps q0 q1 q2 q3 q4 A B δ : K) (he : 0 < eps) (h0 : |q0 - (A - 2 * B)| ≤ δ) (h1 : |q1 - (A - B)| ≤ δ) (h2 : |q2 - A| ≤ δ)
    (h3 : |q3 - (A + B)| ≤ δ) (h4 : |q4 - (A + 2 * B)| ≤ δ) :
    |(weno5z eps q0 q1 q2 q3 q4).1 - (A + B / 2)| ≤ (14 + 6 * eps) * δ ∧ |(weno5z eps q0 q1 q2 q3 q4).2 - (A - B / 2)| ≤ (14 + 6 * eps) * δ := by
  obtain ⟨W, w0, w1, ⟨a, b, c, ha, hb, hc, hs, hl⟩, ⟨a', b', c', ha', hb', hc', hs', hr⟩⟩ := weno_blend_of_convex_partial eps q0 q1 q2 q3 q4 he
  have hδ : 0 ≤ δ := (abs_nonneg _).trans h2
  have hm := mc_near 2 (q2 - q1) (q3 - q2) B (2 * δ) (by norm_num) (by rw [abs_le] at *; constructor <;> linarith) (by rw [abs_le] at *; constructor <;> linarith)
  have comb : ∀ X Y : K, |X| ≤ 4 * δ → |Y| ≤ 2 * δ → |W * X + (1 - W) * Y| ≤ (14 + 6 * eps) * δ := by
    intro X Y hX hY
    have t1 : |W * X| ≤ W * (4 * δ) := by rw [abs_mul, abs_of_pos w0]; exact mul_le_mul_of_nonneg_left hX w0.le
    have t2 : |(1 - W) * Y| ≤ (1 + W) * (2 * δ) := by
      rw [abs_mul]
      exact mul_le_mul (by rw [abs_le]; constructor <;> linarith) hY (abs_nonneg _) (by linarith)
    have := abs_add_le (W * X) ((1 - W) * Y)
    have := mul_nonneg (sub_nonneg.2 w1) hδ
    nlinarith
  have Y1 : |q2 + mc (q2 - q1) (q3 - q2) 2 / 2 - (A + B / 2)| ≤ 2 * δ := by rw [abs_le] at *; constructor <;> linarith
  have Y2 : |q2 - mc (q2 - q1) (q3 - q2) 2 / 2 - (A - B / 2)| ≤ 2 * δ := by rw [abs_le] at *; constructor <;> linarith
  have X1 : |a * ((2 * q0 - 7 * q1 + 11 * q2) / 6 - (A + B / 2)) + b * ((-q1 + 5 * q2 + 2 * q3) / 6 - (A + B / 2)) + c * ((2 * q2 + 5 * q3 - q4) / 6 - (A + B / 2))| ≤ 4 * δ := by
    apply convex_near a b c _ _ _ _ ha hb hc hs <;> (rw [abs_le] at *; constructor <;> linarith)
  have X2 : |a' * ((2 * q4 - 7 * q3 + 11 * q2) / 6 - (A - B / 2)) + b' * ((-q3 + 5 * q2 + 2 * q1) / 6 - (A - B / 2)) + c' * ((2 * q2 + 5 * q1 - q0) / 6 - (A - B / 2))| ≤ 4 * δ := by
    apply convex_near a' b' c' _ _ _ _ ha' hb' hc' hs' <;> (rw [abs_le] at *; constructor <;> linarith)
  constructor
  · convert comb _ _ X1 Y1 using 2
    rw [hl]
    linear_combination W * (A + B / 2) * hs
  · convert comb _ _ X2 Y2 using 2
    rw [hr]
    linear_combination W * (A - B / 2) * hs'

theorem mp5_sub_near (epsm q0 q1 q2 q3 q4 A B δ : K) (h0 : |q0 - (A - 2 * B)| ≤ δ) (h1 : |q1 - (A - B)| ≤ δ) (h2 : |q2 - A| ≤ δ)
    (h3 : |q3 - (A + B)| ≤ δ) (h4 : |q4 - (A + 2 * B)| ≤ δ) :
    |mp5Subcalc epsm q0 q1 q2 q3 q4 - (A + B / 2)| ≤ 14 * δ := by
  have hδ : 0 ≤ δ := (abs_nonneg _).trans h2
  have hf : |mp5High q0 q1 q2 q3 q4 - (A + B / 2)| ≤ 2 * δ := by
    unfold mp5High
    rw [abs_le] at *; constructor <;> linarith
  unfold mp5Subcalc
  simp only
  split_ifs
  · linarith
  · set f := mp5High q0 q1 q2 q3 q4
    have b1 : (mp5Bounds q0 q1 q2 q3 q4).1 ≤ A + B / 2 + 9 * δ := by
      simp only [mp5Bounds]
      rw [abs_le] at *
      refine max_le ?_ ?_
      · refine (min_le_left _ _).trans ?_
        rcases le_total 0 B with hB | hB
        · exact (min_le_left _ _).trans (by linarith)
        · exact (min_le_right _ _).trans (by linarith)
      · refine (min_le_left _ _).trans ?_
        rcases le_total 0 B with hB | hB
        · exact (min_le_left _ _).trans (by linarith)
        · exact (min_le_right _ _).trans (by linarith)
    have b2 : A + B / 2 - 9 * δ ≤ (mp5Bounds q0 q1 q2 q3 q4).2 := by
      simp only [mp5Bounds]
      rw [abs_le] at *
      refine le_min ?_ ?_
      · refine le_trans ?_ (le_max_left _ _)
        rcases le_total 0 B with hB | hB
        · exact le_trans (by linarith) (le_max_right _ _)
        · exact le_trans (by linarith) (le_max_left _ _)
      · refine le_trans ?_ (le_max_left _ _)
        rcases le_total 0 B with hB | hB
        · exact le_trans (by linarith) (le_max_right _ _)
        · exact le_trans (by linarith) (le_max_left _ _)
    unfold median
    rw [abs_le] at hf ⊢
    rcases minmod2_cases ((mp5Bounds q0 q1 q2 q3 q4).1 - f) ((mp5Bounds q0 q1 q2 q3 q4).2 - f) with ⟨p1, p2, e⟩ | ⟨p1, p2, e⟩ | ⟨-, e⟩
    · rw [e]
      have := min_le_left ((mp5Bounds q0 q1 q2 q3 q4).1 - f) ((mp5Bounds q0 q1 q2 q3 q4).2 - f)
      have := lt_min p1 p2
      constructor <;> linarith
    · rw [e]
      have := le_max_right ((mp5Bounds q0 q1 q2 q3 q4).1 - f) ((mp5Bounds q0 q1 q2 q3 q4).2 - f)
      have := max_lt p1 p2
      constructor <;> linarith
    · rw [e]; constructor <;> linarith

/-- distance of the point a method reconstructs from the centre of the cell, in cell widths, on linear data. -/
def reach (K : Type*) [Field K] : Method → K
  | .constant => 0
  | .linear => 1/2
  | .mp5 => 1/2
  | .weno5z => 1/2

/-- how much a method amplifies deviations from linear data at most. -/
def gain (ew : K) : Method → K
  | .constant => 1
  | .linear => 2
  | .mp5 => 14
  | .weno5z => 14 + 6 * ew

/-- all methods of the code: samples within `δ` of a linear function give edge values within `gain · δ` of the values of that function at the edges (at the centre, for
the piecewise constant method). -/
theorem kernel_near {K : Type} [Field K] [LinearOrder K] [IsStrictOrderedRing K] (ew em : K) (he : 0 < ew) (rt : Method) (q : ℤ → K) (A B δ : K)
    (g : ∀ k : ℤ, |k| ≤ 2 → |q k - (A + k * B)| ≤ δ) :
    |(kernel ew em rt q).1 - (A + reach K rt * B)| ≤ gain ew rt * δ ∧ |(kernel ew em rt q).2 - (A - reach K rt * B)| ≤ gain ew rt * δ := by
  have g0 := g 0 (by norm_num)
  have g1 := g 1 (by norm_num)
  have g2 := g 2 (by norm_num)
  have g3 := g (-1) (by norm_num)
  have g4 := g (-2) (by norm_num)
  norm_num at g0 g1 g2 g3 g4
  rw [← sub_eq_add_neg] at g3 g4
  cases rt with
  | constant => simp only [kernel, piecewiseConstant, reach, gain, zero_mul, add_zero, sub_zero, one_mul]; exact ⟨g0, g0⟩
  | linear =>
    have := plm_near _ _ _ _ _ _ g3 g0 g1
    simp only [kernel, reach, gain]
    rw [show 1 / 2 * B = B / 2 by ring]
    exact this
  | mp5 =>
    have a := mp5_sub_near em _ _ _ _ _ _ _ _ g4 g3 g0 g1 g2
    have b := mp5_sub_near em (q 2) (q 1) (q 0) (q (-1)) (q (-2)) A (-B) δ (by simpa using g2) (by simpa using g1) g0 (by simpa [← sub_eq_add_neg] using g3)
      (by simpa [← sub_eq_add_neg] using g4)
    simp only [kernel, mp5, reach, gain]
    rw [show 1 / 2 * B = B / 2 by ring]
    exact ⟨a, by convert b using 3; ring⟩
  | weno5z =>
    have := weno_near ew _ _ _ _ _ _ _ _ he g4 g3 g0 g1 g2
    simp only [kernel, reach, gain]
    rw [show 1 / 2 * B = B / 2 by ring]
    exact this

end Phoebus.Recon
