import Verif.Recon.Model
import Mathlib.Tactic.Ring
import Mathlib.Tactic.FieldSimp
import Mathlib.Tactic.Linarith
import Mathlib.Tactic.NormNum
import Mathlib.Tactic.Positivity
import Mathlib.Order.Interval.Set.UnorderedInterval

namespace Phoebus.Recon
variable {K : Type*} [Field K] [LinearOrder K] [IsStrictOrderedRing K]

theorem mc_nonpos {dm dp alpha : K} (ha : 0 ≤ alpha) (h : dm * dp ≤ 0) : mc dm dp alpha = 0 := by
  have h' : ¬ (0 < dm * dp) := not_lt.2 h
  have : 0 ≤ alpha * min |dm| |dp| := mul_nonneg ha (le_min (abs_nonneg _) (abs_nonneg _))
  simp [mc, h', copysign, this]

theorem mc_pos {dm dp alpha : K} (ha : 0 ≤ alpha) (h1 : 0 < dm) (h2 : 0 < dp) :
    mc dm dp alpha = min ((dm + dp) / 2) (alpha * min dm dp) := by
  have hp : 0 < dm * dp := mul_pos h1 h2
  have hc : (0:K) ≤ 1 * (1/2) * (dm + dp) := by linarith
  have hm : 0 ≤ alpha * min dm dp := mul_nonneg ha (le_min h1.le h2.le)
  simp only [mc, hp, if_true, copysign, hc, abs_of_pos h1, abs_of_pos h2]
  rw [abs_of_nonneg hc, abs_of_nonneg (le_min hc hm)]
  congr 1; ring

theorem mc_neg_neg (dm dp alpha : K) (ha : 0 ≤ alpha) : mc (-dm) (-dp) alpha = - mc dm dp alpha := by
  rcases le_or_gt (dm * dp) 0 with h | h
  · rw [mc_nonpos ha h, mc_nonpos ha (by simpa using h)]; simp
  · unfold mc
    have hs : 0 < -dm * -dp := by simpa using h
    have hne : dm + dp ≠ 0 := by
      intro h0
      have : dp = -dm := by linarith
      rw [this] at h; nlinarith [mul_self_nonneg dm]
    simp only [hs, h, if_true, abs_neg]
    have e : (1:K) * (1/2) * (-dm + -dp) = -(1 * (1/2) * (dm + dp)) := by ring
    rw [e, abs_neg]
    unfold copysign
    rcases lt_or_gt_of_ne hne with hn | hn
    · have a1 : (0:K) ≤ -(1 * (1/2) * (dm + dp)) := by linarith
      have a2 : ¬ (0:K) ≤ 1 * (1/2) * (dm + dp) := by rw [not_le]; linarith
      rw [if_pos a1, if_neg a2, neg_neg]
    · have a1 : ¬ (0:K) ≤ -(1 * (1/2) * (dm + dp)) := by rw [not_le]; linarith
      have a2 : (0:K) ≤ 1 * (1/2) * (dm + dp) := by linarith
      rw [if_neg a1, if_pos a2]

theorem mc_neg {dm dp alpha : K} (ha : 0 ≤ alpha) (h1 : dm < 0) (h2 : dp < 0) :
    mc dm dp alpha = -(min ((-dm + -dp) / 2) (alpha * min (-dm) (-dp))) := by
  have := mc_neg_neg dm dp alpha ha
  rw [← mc_pos ha (by linarith) (by linarith), this, neg_neg]

theorem mc_comm (dm dp alpha : K) : mc dm dp alpha = mc dp dm alpha := by
  unfold mc
  rw [mul_comm dm dp, add_comm dm dp, min_comm |dm| |dp|]

theorem mc_self (s alpha : K) (ha : 1 ≤ alpha) : mc s s alpha = s := by
  have ha0 : 0 ≤ alpha := by linarith
  rcases lt_trichotomy s 0 with h | h | h
  · rw [mc_neg ha0 h h, min_self, min_eq_left]
    · ring
    · nlinarith
  · subst h; exact mc_nonpos ha0 (by simp)
  · rw [mc_pos ha0 h h, min_self, min_eq_left]
    · ring
    · nlinarith

theorem mc_smul (c dm dp alpha : K) (ha : 0 ≤ alpha) :
    mc (c * dm) (c * dp) alpha = c * mc dm dp alpha := by
  have key : ∀ c : K, 0 < c → mc (c * dm) (c * dp) alpha = c * mc dm dp alpha := by
    intro c hc
    rcases le_or_gt (dm * dp) 0 with h | h
    · rw [mc_nonpos ha h, mc_nonpos ha, mul_zero]
      have : c * dm * (c * dp) = c * c * (dm * dp) := by ring
      rw [this]; exact mul_nonpos_of_nonneg_of_nonpos (by positivity) h
    · rcases (mul_pos_iff.1 h) with ⟨h1, h2⟩ | ⟨h1, h2⟩
      · rw [mc_pos ha h1 h2, mc_pos ha (mul_pos hc h1) (mul_pos hc h2), mul_min_of_nonneg _ _ hc.le,
          ← mul_min_of_nonneg _ _ hc.le]
        congr 1 <;> ring
      · rw [mc_neg ha h1 h2, mc_neg ha (mul_neg_of_pos_of_neg hc h1) (mul_neg_of_pos_of_neg hc h2)]
        rw [mul_neg, mul_min_of_nonneg _ _ hc.le]
        have e : min (-(c * dm)) (-(c * dp)) = c * min (-dm) (-dp) := by
          rw [mul_min_of_nonneg _ _ hc.le]; congr 1 <;> ring
        rw [e]; congr 2 <;> ring
  rcases lt_trichotomy c 0 with h | h | h
  · have := key (-c) (by linarith)
    have e := mc_neg_neg (-c * dm) (-c * dp) alpha ha
    rw [this] at e
    simpa using e
  · subst h; simp [mc_nonpos ha (show (0:K) * 0 ≤ 0 by simp)]
  · exact key c h

theorem minmod2_cases (a b : K) :
    (0 < a ∧ 0 < b ∧ minmod2 a b = min a b) ∨ (a < 0 ∧ b < 0 ∧ minmod2 a b = max a b) ∨
    (a * b ≤ 0 ∧ minmod2 a b = 0) := by
  unfold minmod2
  rcases le_or_gt (a * b) 0 with h | h
  · right; right; exact ⟨h, by simp [not_lt.2 h]⟩
  · rcases (mul_pos_iff.1 h) with ⟨h1, h2⟩ | ⟨h1, h2⟩
    · left; refine ⟨h1, h2, ?_⟩
      simp only [h, if_true, abs_of_pos h1, abs_of_pos h2]
      split_ifs with h3
      · rw [min_eq_left h3.le]
      · rw [min_eq_right (not_lt.1 h3)]
    · right; left; refine ⟨h1, h2, ?_⟩
      simp only [h, if_true, abs_of_neg h1, abs_of_neg h2]
      split_ifs with h3
      · rw [max_eq_left (by linarith)]
      · rw [max_eq_right (by linarith)]

theorem median_clamp (f lo hi : K) (h : lo ≤ hi) : median f lo hi = max lo (min f hi) := by
  unfold median
  rcases minmod2_cases (lo - f) (hi - f) with ⟨h1, h2, e⟩ | ⟨h1, h2, e⟩ | ⟨h1, e⟩
  · rw [e, min_eq_left (by linarith), min_eq_left (by linarith), max_eq_left (by linarith)]; ring
  · rw [e, max_eq_right (by linarith), min_eq_right (by linarith), max_eq_right (by linarith)]; ring
  · rw [e, add_zero]
    rcases le_or_gt f hi with h2 | h2
    · rw [min_eq_left h2]
      rcases le_or_gt lo f with h3 | h3
      · rw [max_eq_right h3]
      · rcases eq_or_lt_of_le h2 with h4 | h4
        · subst h4; rw [max_eq_left h3.le]; exact absurd h (not_le.2 h3)
        · nlinarith [mul_pos (sub_pos.2 h3) (sub_pos.2 h4)]
    · exfalso
      nlinarith [mul_pos_of_neg_of_neg (sub_neg.2 h2) (by linarith : lo - f < 0)]

theorem mp5Bounds_mem (fjm2 fjm1 fj fjp1 fjp2 : K) :
    (mp5Bounds fjm2 fjm1 fj fjp1 fjp2).1 ≤ fj ∧ fj ≤ (mp5Bounds fjm2 fjm1 fj fjp1 fjp2).2 := by
  unfold mp5Bounds
  constructor
  · apply max_le
    · exact le_trans (min_le_left _ _) (min_le_left _ _)
    · exact le_trans (min_le_left _ _) (min_le_left _ _)
  · apply le_min
    · exact le_trans (le_max_left _ _) (le_max_left _ _)
    · exact le_trans (le_max_left _ _) (le_max_left _ _)

/-- positivity of the indicators -/
theorem wenoBeta_pos {eps : K} (he : 0 < eps) (q0 q1 q2 q3 q4 : K) :
    0 < (wenoBeta eps q0 q1 q2 q3 q4).1 ∧ 0 < (wenoBeta eps q0 q1 q2 q3 q4).2.1 ∧
    0 < (wenoBeta eps q0 q1 q2 q3 q4).2.2 := by
  unfold wenoBeta
  have key : ∀ a b : K, 0 < 13/3 * a * a + b * b + eps := by
    intro a b; nlinarith [mul_self_nonneg a, mul_self_nonneg b]
  exact ⟨key _ _, key _ _, key _ _⟩

theorem wenoZ_ge_one {be : K × K × K} (h : 0 < be.1 ∧ 0 < be.2.1 ∧ 0 < be.2.2) :
    1 ≤ (wenoZ be).1 ∧ 1 ≤ (wenoZ be).2.1 ∧ 1 ≤ (wenoZ be).2.2 := by
  have key : ∀ b t : K, 0 < b → 0 ≤ t → 1 ≤ (b + t) / b := by
    intro b t hb ht; rw [le_div_iff₀ hb]; linarith
  exact ⟨key _ _ h.1 (abs_nonneg _), key _ _ h.2.1 (abs_nonneg _), key _ _ h.2.2 (abs_nonneg _)⟩

theorem wenoWl_pos {eps : K} (he : 0 < eps) {z : K × K × K} (h : 1 ≤ z.1 ∧ 1 ≤ z.2.1 ∧ 1 ≤ z.2.2) :
    0 < (wenoWl eps z).1 ∧ 0 < (wenoWl eps z).2.1 ∧ 0 < (wenoWl eps z).2.2 := by
  obtain ⟨h1, h2, h3⟩ := h
  unfold wenoWl
  exact ⟨by simp only; linarith, by simp only; linarith, by simp only; linarith⟩

theorem wenoWr_pos {eps : K} (he : 0 < eps) {z : K × K × K} (h : 1 ≤ z.1 ∧ 1 ≤ z.2.1 ∧ 1 ≤ z.2.2) :
    0 < (wenoWr eps z).1 ∧ 0 < (wenoWr eps z).2.1 ∧ 0 < (wenoWr eps z).2.2 := by
  obtain ⟨h1, h2, h3⟩ := h
  unfold wenoWr
  exact ⟨by simp only; linarith, by simp only; linarith, by simp only; linarith⟩

theorem wenoHiL_convex (w : K × K × K) (h : 0 < w.1 ∧ 0 < w.2.1 ∧ 0 < w.2.2) (q0 q1 q2 q3 q4 : K) :
    ∃ a b c : K, 0 < a ∧ 0 < b ∧ 0 < c ∧ a + b + c = 1 ∧ wenoHiL w q0 q1 q2 q3 q4 =
      a * ((2 * q0 - 7 * q1 + 11 * q2) / 6) + b * ((-q1 + 5 * q2 + 2 * q3) / 6)
        + c * ((2 * q2 + 5 * q3 - q4) / 6) := by
  obtain ⟨h1, h2, h3⟩ := h
  have hs : 0 < w.1 + w.2.1 + w.2.2 := by linarith
  refine ⟨w.1 / (w.1 + w.2.1 + w.2.2), w.2.1 / (w.1 + w.2.1 + w.2.2), w.2.2 / (w.1 + w.2.1 + w.2.2),
    by positivity, by positivity, by positivity, ?_, ?_⟩
  · field_simp
  · unfold wenoHiL; field_simp; ring

theorem wenoHiR_eq (w : K × K × K) (q0 q1 q2 q3 q4 : K) :
    wenoHiR w q0 q1 q2 q3 q4 = wenoHiL w q4 q3 q2 q1 q0 := rfl

theorem wenoAlpha_bounds {eps : K} (he : 0 < eps) (w : K × K × K)
    (h : 0 < w.1 ∧ 0 < w.2.1 ∧ 0 < w.2.2) :
    eps < wenoAlpha eps w ∧ wenoAlpha eps w ≤ 28/25 + eps := by
  obtain ⟨x, y, z⟩ := w
  obtain ⟨h1, h2, h3⟩ := h
  simp only at h1 h2 h3
  unfold wenoAlpha
  simp only
  have hs : 0 < x + y + z := by linarith
  have hd : 0 < 3/10 * x * y + 6/10 * x * z + 1/10 * y * z := by positivity
  have hxyz : 0 < x * y * z := by positivity
  constructor
  · have : 0 < 3 * (1 / (x + y + z)) * x * y * z / (3/10 * x * y + 6/10 * x * z + 1/10 * y * z) := by
      positivity
    linarith
  · have : 3 * (1 / (x + y + z)) * x * y * z / (3/10 * x * y + 6/10 * x * z + 1/10 * y * z) ≤ 28/25 := by
      rw [div_le_iff₀ hd]
      have e : 3 * (1 / (x + y + z)) * x * y * z = 3 * (x * y * z) / (x + y + z) := by field_simp
      rw [e, div_le_iff₀ hs]
      -- weighted AM-GM with rational approximations of the roots
      have s1 : 0 ≤ z * (100 * x - 41 * y)^2 := by positivity
      have s2 : 0 ≤ y * (100 * x - 58 * z)^2 := by positivity
      have s3 : 0 ≤ x * (100 * z - 71 * y)^2 := by positivity
      have p1 : 0 < x*x*y := by positivity
      have p2 : 0 < x*x*z := by positivity
      have p3 : 0 < y*y*x := by positivity
      have p4 : 0 < y*y*z := by positivity
      have p5 : 0 < z*z*x := by positivity
      have p6 : 0 < z*z*y := by positivity
      nlinarith [s1, s2, s3, p1, p2, p3, p4, p5, p6, hxyz]
    linarith

end Phoebus.Recon
