import Verif.Recon.Lemmas
import Mathlib.Analysis.SpecialFunctions.Trigonometric.DerivHyp
import Mathlib.Analysis.Complex.ExponentialBounds
import Mathlib.Tactic.Linarith
import Mathlib.Tactic.FieldSimp
import Mathlib.Tactic.NormNum

/-!
# The limiter functions of `src/reconstruction.hpp` (C159)

`/repo/src/reconstruction.hpp:25-100`.  Each takes the difference to the left neighbour and the one to the right neighbour and returns the factor by which the latter is multiplied to give the slope in the cell.
-/
namespace Phoebus.Recon

/-! ### Model -/

/-- `r` of the limiters, with the value used when the right difference is zero, reconstruction.hpp:27, 33, 38, 51, 76. -/
noncomputable def diffRatio (dm dp dflt : ℝ) : ℝ := if 0 < |dp| then dm / dp else dflt

/-- `koren`, reconstruction.hpp:25-29. -/
noncomputable def koren (dm dp : ℝ) : ℝ :=
  let r := diffRatio dm dp 0
  max 0 (min (2 * r) (min ((1 + 2 * r) / 3) 2))

/-- `mc_lim`, reconstruction.hpp:31-35. -/
noncomputable def mcLim (dm dp : ℝ) : ℝ :=
  let r := diffRatio dm dp 0
  max 0 (min 2 (min (2 * r) (1/2 * (1 + r))))

/-- `minmod`, reconstruction.hpp:36-41. -/
noncomputable def minmod (dm dp : ℝ) : ℝ :=
  let r := diffRatio dm dp 0
  let t := 3/2
  max 0 (min t (min (t * r) (1/2 * (1 + r))))

/-- `ltanh`, reconstruction.hpp:43-47. -/
noncomputable def ltanh (dm dp : ℝ) : ℝ := if 0 < |dp| then 2 * Real.tanh (dm / dp) else 2

/-- `barth_jespersen`, reconstruction.hpp:49-53. -/
noncomputable def barthJespersen (dm dp : ℝ) : ℝ :=
  let r := diffRatio dm dp 3
  min (min 1 (4 / (1 + r))) (4 * r / (1 + r))

/-- `overbee_alpha`, reconstruction.hpp:55-67; `none` is the abort for `alpha` outside `[1, 2]`. -/
noncomputable def overbeeAlpha (dm dp alpha : ℝ) : Option ℝ :=
  if alpha < 1 ∨ alpha > 2 then none else
  let dc := |1/2 * (dp - dm)|
  let dcent := min dc (2 * min |dm| |dp|)
  let dmin := alpha * min |dm| |dp|
  let dmin := max dcent dmin
  some (if 0 < |dp| then dmin / |dp| else alpha)

/-- `overbee`, reconstruction.hpp:69-73. -/
noncomputable def overbee (dm dp : ℝ) : ℝ := if 0 < |dp| then 2 * min |dm| |dp| / |dp| else 2

/-- `superbee`, reconstruction.hpp:75-80. -/
noncomputable def superbee (dm dp : ℝ) : ℝ :=
  let r := diffRatio dm dp 2
  max (max 0 (min (2 * r) 1)) (min r 2)

/-- `nolim`, reconstruction.hpp:82-88. -/
noncomputable def nolim (dm dp : ℝ) : ℝ := if 0 < |dp| then 1/2 * (dp - dm) / dp else 1

/-- `phifunc`, reconstruction.hpp:90-100. -/
noncomputable def phifunc (mind maxd gx gy dx dy : ℝ) : ℝ :=
  let delta := gx * dx + gy * dy
  if 0 < delta then min 1 (maxd / delta) else if delta < 0 then min 1 (mind / delta) else 1

/-! ### Specification -/

/-- the two face values of a cell with value `q0` and slope `s` lie between the cell and its neighbours. -/
def Between (qm q0 qp s : ℝ) : Prop := (min q0 qp ≤ q0 + s / 2 ∧ q0 + s / 2 ≤ max q0 qp) ∧ min qm q0 ≤ q0 - s / 2 ∧ q0 - s / 2 ≤ max qm q0

/-- a limiter makes no new extrema. -/
def Bounding (φ : ℝ → ℝ → ℝ) : Prop := ∀ qm q0 qp, Between qm q0 qp (φ (q0 - qm) (qp - q0) * (qp - q0))

/-- a limiter makes no new extrema from data that are monotone around the cell. -/
def BoundingMonotone (φ : ℝ → ℝ → ℝ) : Prop := ∀ qm q0 qp, 0 < (q0 - qm) * (qp - q0) → Between qm q0 qp (φ (q0 - qm) (qp - q0) * (qp - q0))

/-- a limiter reproduces the slope of a straight line. -/
def LinearExact (φ : ℝ → ℝ → ℝ) : Prop := ∀ d, φ d d * d = d

/-- a limiter treats left and right alike. -/
def Even (φ : ℝ → ℝ → ℝ) : Prop := ∀ dm dp, φ dm dp * dp = φ dp dm * dm

/-! ### Proofs -/

theorem between_of {qm q0 qp s : ℝ} (h1 : ∃ t, 0 ≤ t ∧ t ≤ 1 ∧ s / 2 = t * (qp - q0)) (h2 : ∃ t, 0 ≤ t ∧ t ≤ 1 ∧ s / 2 = t * (q0 - qm)) : Between qm q0 qp s := by
  obtain ⟨t, a, b, e⟩ := h1
  obtain ⟨u, a', b', e'⟩ := h2
  refine ⟨?_, ?_⟩
  · rw [e]
    rcases le_total q0 qp with h | h
    · rw [min_eq_left h, max_eq_right h]; constructor <;> nlinarith
    · rw [min_eq_right h, max_eq_left h]; constructor <;> nlinarith
  · rw [e']
    rcases le_total qm q0 with h | h
    · rw [min_eq_left h, max_eq_right h]; constructor <;> nlinarith
    · rw [min_eq_right h, max_eq_left h]; constructor <;> nlinarith

theorem between_ratio {qm q0 qp ψ : ℝ} (hd : qp - q0 ≠ 0) (h0 : 0 ≤ ψ) (h2 : ψ ≤ 2) (hr : ψ ≤ max 0 (2 * ((q0 - qm) / (qp - q0)))) : Between qm q0 qp (ψ * (qp - q0)) := by
  set r := (q0 - qm) / (qp - q0) with hrd
  have e : q0 - qm = r * (qp - q0) := by rw [hrd]; field_simp
  refine between_of ⟨ψ / 2, by linarith, by linarith, by ring⟩ ?_
  rcases le_or_gt r 0 with h | h
  · rw [max_eq_left (by linarith)] at hr
    have : ψ = 0 := le_antisymm hr h0
    exact ⟨0, le_rfl, by norm_num, by rw [this]; ring⟩
  · rw [max_eq_right (by linarith)] at hr
    refine ⟨ψ / 2 / r, by positivity, by rw [div_le_one h]; linarith, ?_⟩
    rw [e]; field_simp

theorem between_zero (qm q0 qp : ℝ) : Between qm q0 qp 0 := between_of ⟨0, le_rfl, by norm_num, by ring⟩ ⟨0, le_rfl, by norm_num, by ring⟩

theorem bounding_of {φ : ℝ → ℝ → ℝ} {ψ : ℝ → ℝ} (h : ∀ dm dp, dp ≠ 0 → φ dm dp = ψ (dm / dp)) (hψ : ∀ r, 0 ≤ ψ r ∧ ψ r ≤ 2 ∧ ψ r ≤ max 0 (2 * r)) : Bounding φ := by
  intro qm q0 qp
  by_cases hd : qp - q0 = 0
  · rw [hd, mul_zero]; exact between_zero _ _ _
  · rw [h _ _ hd]
    exact between_ratio hd (hψ _).1 (hψ _).2.1 (hψ _).2.2

theorem diffRatio_ne {dm dp : ℝ} (c : ℝ) (h : dp ≠ 0) : diffRatio dm dp c = dm / dp := if_pos (abs_pos.2 h)

/-- **C159 (MC)**: the factor called `minmod` is not minmod but the monotonised central limiter of the linear reconstruction, with its factor 3/2; `mc_lim` is the same with factor 2. -/
theorem minmod_is_mc (dm dp : ℝ) : minmod dm dp * dp = mc dm dp (3/2) ∧ mcLim dm dp * dp = mc dm dp 2 := by
  have gen : ∀ al : ℝ, 1 ≤ al → ∀ r : ℝ, mc r 1 al = max 0 (min al (min (al * r) (1/2 * (1 + r)))) := by
    intro al hal r
    rcases le_or_gt r 0 with h | h
    · rw [mc_nonpos (by linarith) (by linarith), max_eq_left]
      exact (min_le_right _ _).trans ((min_le_left _ _).trans (by nlinarith))
    · have : 0 ≤ min al (min (al * r) (1/2 * (1 + r))) := le_min (by linarith) (le_min (by nlinarith) (by linarith))
      rw [mc_pos (by linarith) h one_pos, max_eq_right this]
      rcases le_total r 1 with h1 | h1
      · rw [min_eq_left h1, show (r + 1) / 2 = 1/2 * (1 + r) by ring, min_comm, min_eq_right (a := al)]
        exact (min_le_left _ _).trans (by nlinarith)
      · rw [min_eq_right h1, mul_one, show (r + 1) / 2 = 1/2 * (1 + r) by ring]
        rw [← min_assoc, min_eq_left (a := al) (b := al * r) (by nlinarith), min_comm]
  by_cases hd : dp = 0
  · subst hd
    rw [mc_nonpos (by norm_num) (by simp), mc_nonpos (by norm_num) (by simp)]; simp
  have sc : ∀ al : ℝ, 0 ≤ al → mc dm dp al = dp * mc (dm / dp) 1 al := fun al h => by
    rw [← mc_smul _ _ _ _ h, mul_one, mul_div_cancel₀ _ hd]
  unfold minmod mcLim
  simp only [diffRatio_ne _ hd]
  rw [sc _ (by norm_num), sc _ (by norm_num), gen _ (by norm_num), gen _ (by norm_num)]
  constructor <;> ring

/-- **C159 (limiters)**: `koren`, `mc_lim`, `minmod` and `superbee` make no new extrema and reproduce straight lines; the last three treat left and right alike. -/
theorem limiters_good : (Bounding koren ∧ Bounding mcLim ∧ Bounding minmod ∧ Bounding superbee) ∧ (LinearExact koren ∧ LinearExact mcLim ∧ LinearExact minmod ∧ LinearExact superbee) ∧
    (Even mcLim ∧ Even minmod ∧ Even superbee) := by
  refine ⟨⟨?_, ?_, ?_, ?_⟩, ⟨?_, ?_, ?_, ?_⟩, ?_, ?_, ?_⟩
  · refine bounding_of (ψ := fun r => max 0 (min (2 * r) (min ((1 + 2 * r) / 3) 2))) (fun dm dp h => by unfold koren; rw [diffRatio_ne _ h]) fun r => ⟨le_max_left _ _, ?_, ?_⟩
    · exact max_le (by norm_num) ((min_le_right _ _).trans (min_le_right _ _))
    · exact max_le_max le_rfl (min_le_left _ _)
  · refine bounding_of (ψ := fun r => max 0 (min 2 (min (2 * r) (1/2 * (1 + r))))) (fun dm dp h => by unfold mcLim; rw [diffRatio_ne _ h]) fun r => ⟨le_max_left _ _, ?_, ?_⟩
    · exact max_le (by norm_num) (min_le_left _ _)
    · exact max_le_max le_rfl ((min_le_right _ _).trans (min_le_left _ _))
  · refine bounding_of (ψ := fun r => max 0 (min (3/2) (min (3/2 * r) (1/2 * (1 + r))))) (fun dm dp h => by unfold minmod; rw [diffRatio_ne _ h]) fun r => ⟨le_max_left _ _, ?_, ?_⟩
    · exact max_le (by norm_num) ((min_le_left _ _).trans (by norm_num))
    · refine max_le (le_max_left _ _) (((min_le_right _ _).trans (min_le_left _ _)).trans ?_)
      rcases le_total 0 r with h | h
      · exact le_max_of_le_right (by linarith)
      · exact le_max_of_le_left (by linarith)
  · refine bounding_of (ψ := fun r => max (max 0 (min (2 * r) 1)) (min r 2)) (fun dm dp h => by unfold superbee; rw [diffRatio_ne _ h]) fun r => ⟨le_max_of_le_left (le_max_left _ _), ?_, ?_⟩
    · exact max_le (max_le (by norm_num) ((min_le_right _ _).trans (by norm_num))) (min_le_right _ _)
    · refine max_le (max_le_max le_rfl (min_le_left _ _)) ((min_le_left _ _).trans ?_)
      rcases le_total 0 r with h | h
      · exact le_max_of_le_right (by linarith)
      · exact le_max_of_le_left h
  · intro d
    by_cases h : d = 0
    · subst h; simp
    · unfold koren; rw [diffRatio_ne _ h, div_self h]; norm_num
  · intro d; rw [(minmod_is_mc d d).2]; exact mc_self _ _ (by norm_num)
  · intro d; rw [(minmod_is_mc d d).1]; exact mc_self _ _ (by norm_num)
  · intro d
    by_cases h : d = 0
    · subst h; simp
    · unfold superbee; rw [diffRatio_ne _ h, div_self h]; norm_num
  · intro dm dp; rw [(minmod_is_mc dm dp).2, (minmod_is_mc dp dm).2, mc_comm]
  · intro dm dp; rw [(minmod_is_mc dm dp).1, (minmod_is_mc dp dm).1, mc_comm]
  · intro dm dp
    by_cases h : dp = 0
    · subst h
      by_cases h' : dm = 0
      · subst h'; rfl
      · unfold superbee; rw [diffRatio_ne _ h']; simp
    by_cases h' : dm = 0
    · subst h'
      unfold superbee; rw [diffRatio_ne _ h]; simp
    unfold superbee
    rw [diffRatio_ne _ h, diffRatio_ne _ h']
    set r := dm / dp with hr
    have hr0 : r ≠ 0 := div_ne_zero h' h
    rw [show dp / dm = 1 / r by rw [hr]; field_simp, show dm = r * dp by rw [hr]; field_simp]
    have : max (max 0 (min (2 * r) 1)) (min r 2) = max (max 0 (min (2 * (1 / r)) 1)) (min (1 / r) 2) * r := by
      rcases lt_or_gt_of_ne hr0 with hn | hp
      · have hi : 1 / r < 0 := one_div_neg.2 hn
        rw [min_eq_left (by linarith), min_eq_left (by linarith), min_eq_left (by linarith), min_eq_left (by linarith), max_eq_left (by linarith : 2 * r ≤ 0), max_eq_left hn.le,
          max_eq_left (by linarith : 2 * (1 / r) ≤ 0), max_eq_left hi.le]
        simp
      · have hi : 0 < 1 / r := by positivity
        have hir : 1 / r * r = 1 := by field_simp
        have e1 : 0 ≤ min (2 * r) 1 := le_min (by linarith) (by norm_num)
        have e2 : 0 ≤ min (2 * (1 / r)) 1 := le_min (by linarith) (by norm_num)
        rw [max_eq_right e1, max_eq_right e2, max_mul_of_nonneg _ _ hp.le, min_mul_of_nonneg _ _ hp.le, min_mul_of_nonneg _ _ hp.le, mul_assoc, hir, one_mul, mul_one, max_comm, min_comm r 2, min_comm (2 * r) 1]
    rw [this]; ring

/-- **C159 (Koren)**: `koren` prefers one side: it is meant for the face on one side of the cell only. -/
theorem koren_not_even : ¬ Even koren := by
  intro h
  have := h 1 3
  unfold koren diffRatio at this
  norm_num at this

/-- **C159 (Barth-Jespersen)**: `barth_jespersen` multiplies the central slope, not the right difference: then it is the monotonised central limiter on monotone data. -/
theorem bj_central (dm dp : ℝ) (h : 0 < dm * dp) : barthJespersen dm dp * ((dm + dp) / 2) = mc dm dp 2 := by
  have hd : dp ≠ 0 := by rintro rfl; simp at h
  set r := dm / dp with hr
  have hr0 : 0 < r := by
    have : dm / dp = dm * dp / dp ^ 2 := by field_simp
    rw [hr, this]; positivity
  have e : dm = r * dp := by rw [hr]; field_simp
  have hm : mc dm dp 2 = dp * mc r 1 2 := by
    rw [← mc_smul _ _ _ _ (by norm_num), mul_one, mul_comm dp r, ← e]
  rw [hm, mc_pos (by norm_num) hr0 one_pos]
  unfold barthJespersen
  rw [diffRatio_ne _ hd, ← hr]
  have h1 : 0 < 1 + r := by linarith
  have : min (min 1 (4 / (1 + r))) (4 * r / (1 + r)) * ((1 + r) / 2) = min ((r + 1) / 2) (2 * min r 1) := by
    rw [min_mul_of_nonneg _ _ (by linarith), min_mul_of_nonneg _ _ (by linarith), min_assoc, mul_min_of_nonneg _ _ (by norm_num), min_comm (2 * r)]
    congr 1
    · ring
    · congr 1 <;> field_simp <;> norm_num
  rw [← this, e]; ring

/-- **C159 (defect)**: used with the right difference like the others, `barth_jespersen`, `ltanh`, `overbee`, `overbee_alpha` and `nolim` make new extrema. -/
theorem limiters_bad : ¬ Bounding barthJespersen ∧ ¬ Bounding ltanh ∧ ¬ Bounding overbee ∧ ¬ Bounding nolim ∧
    ∀ al, 1 ≤ al → al ≤ 2 → ∀ φ, (∀ dm dp, overbeeAlpha dm dp al = some (φ dm dp)) → ¬ Bounding φ := by
  refine ⟨fun h => ?_, fun h => ?_, fun h => ?_, fun h => ?_, fun al h1 h2 φ e h => ?_⟩
  · have := (h (-1) 0 4).2.1
    unfold barthJespersen diffRatio at this
    norm_num at this
  · have := (h 0 1 0).1.2
    unfold ltanh at this
    rw [if_pos (by norm_num)] at this
    norm_num [Real.tanh_neg] at this
    have t : 0 < Real.tanh 1 := by
      rw [Real.tanh_eq_sinh_div_cosh]
      exact div_pos (Real.sinh_pos_iff.2 one_pos) (Real.cosh_pos _)
    linarith
  · have := (h 0 1 0).2.2
    unfold overbee at this
    norm_num at this
  · have := (h 0 1 0).2.2
    unfold nolim at this
    norm_num at this
  · have := (h 0 1 0).2.2
    have e' := e (1 - 0) (0 - 1)
    unfold overbeeAlpha at e'
    rw [if_neg (by push Not; exact ⟨h1, h2⟩)] at e'
    have e'' := Option.some.inj e'
    rw [if_pos (by norm_num)] at e''
    rw [← e''] at this
    norm_num at this
    have := le_max_right (1:ℝ) al
    linarith

/-- **C159 (monotone data)**: on monotone data `overbee` and `overbee_alpha` make no new extrema. -/
theorem overbee_monotone : BoundingMonotone overbee ∧ ∀ al, 1 ≤ al → al ≤ 2 → ∀ φ, (∀ dm dp, overbeeAlpha dm dp al = some (φ dm dp)) → BoundingMonotone φ := by
  have gen : ∀ qm q0 qp c : ℝ, 0 < (q0 - qm) * (qp - q0) → 0 ≤ c → c ≤ 2 * min |q0 - qm| |qp - q0| → Between qm q0 qp (c / |qp - q0| * (qp - q0)) := by
    intro qm q0 qp c h hc0 hc
    have hd : qp - q0 ≠ 0 := by intro e; rw [e, mul_zero] at h; exact lt_irrefl _ h
    have hda := abs_pos.2 hd
    have hr : (q0 - qm) / (qp - q0) = |q0 - qm| / |qp - q0| := by
      rcases pos_and_pos_or_neg_and_neg_of_mul_pos h with ⟨a, b⟩ | ⟨a, b⟩
      · rw [abs_of_pos a, abs_of_pos b]
      · rw [abs_of_neg a, abs_of_neg b, neg_div_neg_eq]
    refine between_ratio hd (by positivity) ?_ (le_max_of_le_right ?_)
    · rw [div_le_iff₀ hda]
      exact hc.trans (by have := min_le_right |q0 - qm| |qp - q0|; linarith)
    · rw [hr, ← mul_div_assoc, div_le_div_iff_of_pos_right hda]
      exact hc.trans (by have := min_le_left |q0 - qm| |qp - q0|; linarith)
  have hda : ∀ qm q0 qp : ℝ, 0 < (q0 - qm) * (qp - q0) → 0 < |qp - q0| := fun qm q0 qp h => abs_pos.2 (by intro e; rw [e, mul_zero] at h; exact lt_irrefl _ h)
  refine ⟨fun qm q0 qp h => ?_, fun al h1 h2 φ e qm q0 qp h => ?_⟩
  · unfold overbee
    rw [if_pos (hda _ _ _ h)]
    exact gen _ _ _ _ h (mul_nonneg (by norm_num) (le_min (abs_nonneg _) (abs_nonneg _))) le_rfl
  · have e' := e (q0 - qm) (qp - q0)
    unfold overbeeAlpha at e'
    rw [if_neg (by push Not; exact ⟨h1, h2⟩)] at e'
    have e'' := Option.some.inj e'
    rw [if_pos (hda _ _ _ h)] at e''
    rw [← e'']
    have m0 : 0 ≤ min |q0 - qm| |qp - q0| := le_min (abs_nonneg _) (abs_nonneg _)
    refine gen _ _ _ _ h (le_max_of_le_right (mul_nonneg (by linarith) m0)) (max_le (min_le_right _ _) (mul_le_mul_of_nonneg_right h2 m0))

/-- **C159 (defect)**: `ltanh`, `overbee` and `nolim` do not reproduce straight lines; `overbee_alpha` does only for `alpha = 1`. -/
theorem limiters_inexact : ¬ LinearExact ltanh ∧ ¬ LinearExact overbee ∧ ¬ LinearExact nolim ∧
    ∀ al, 1 ≤ al → al ≤ 2 → ∀ φ, (∀ dm dp, overbeeAlpha dm dp al = some (φ dm dp)) → (LinearExact φ ↔ al = 1) := by
  refine ⟨fun h => ?_, fun h => ?_, fun h => ?_, fun al h1 h2 φ e => ?_⟩
  · have := h 1
    unfold ltanh at this
    rw [if_pos (by norm_num)] at this
    norm_num [Real.tanh_eq_sinh_div_cosh] at this
    have hc := Real.cosh_pos 1
    have : 2 * Real.sinh 1 = Real.cosh 1 := by field_simp at this; linarith
    rw [Real.sinh_eq, Real.cosh_eq] at this
    have e1 := Real.exp_one_gt_d9
    have e2 : Real.exp (-1) < 1 := Real.exp_lt_one_iff.2 (by norm_num)
    have e3 : Real.exp 1 * Real.exp (-1) = 1 := by rw [← Real.exp_add]; norm_num
    nlinarith
  · have := h 1
    unfold overbee at this
    norm_num at this
  · have := h 1
    unfold nolim at this
    norm_num at this
  · have val : ∀ d, d ≠ 0 → φ d d = al := by
      intro d hd
      have e' := e d d
      unfold overbeeAlpha at e'
      rw [if_neg (by push Not; exact ⟨h1, h2⟩)] at e'
      have e'' := Option.some.inj e'
      have hda := abs_pos.2 hd
      rw [if_pos hda, sub_self, mul_zero, abs_zero, min_self, min_eq_left (by positivity), max_eq_right (by positivity)] at e''
      rw [← e'']
      field_simp
    constructor
    · intro h
      have := h 1
      rw [val 1 one_ne_zero, mul_one] at this
      exact this
    · rintro rfl d
      by_cases hd : d = 0
      · subst hd; simp
      · rw [val d hd, one_mul]

/-- **C159 (other sign)**: `nolim` is the central slope when the left difference is passed with the opposite sign. -/
theorem nolim_other_sign (dm dp : ℝ) (h : dp ≠ 0) : nolim (-dm) dp * dp = (dm + dp) / 2 := by
  unfold nolim
  rw [if_pos (abs_pos.2 h)]
  field_simp
  ring

/-- **C159 (two dimensions)**: the factor of `phifunc` lies between zero and one and brings the increment into the range of the neighbours; an increment that is already there is kept. -/
theorem phifunc_bounds (mind maxd gx gy dx dy : ℝ) (h1 : mind ≤ 0) (h2 : 0 ≤ maxd) :
    let p := phifunc mind maxd gx gy dx dy
    let delta := gx * dx + gy * dy
    (0 ≤ p ∧ p ≤ 1) ∧ (mind ≤ p * delta ∧ p * delta ≤ maxd) ∧ (mind ≤ delta → delta ≤ maxd → p = 1) := by
  intro p delta
  have hp : p = if 0 < delta then min 1 (maxd / delta) else if delta < 0 then min 1 (mind / delta) else 1 := rfl
  rcases lt_trichotomy delta 0 with h | h | h
  · rw [if_neg (not_lt.2 h.le), if_pos h] at hp
    have hq : 0 ≤ mind / delta := div_nonneg_of_nonpos h1 h.le
    have a0 : 0 ≤ p := by rw [hp]; exact le_min (by norm_num) hq
    have a1 : p ≤ 1 := by rw [hp]; exact min_le_left _ _
    have a2 : p ≤ mind / delta := by rw [hp]; exact min_le_right _ _
    refine ⟨⟨a0, a1⟩, ⟨?_, by nlinarith⟩, fun h3 _ => ?_⟩
    · rwa [le_div_iff_of_neg h] at a2
    · rw [hp, min_eq_left]
      rw [le_div_iff_of_neg h]; linarith
  · rw [h] at hp ⊢
    simp only [lt_irrefl, if_false] at hp
    rw [hp]
    simp [h1, h2]
  · rw [if_pos h] at hp
    have hq : 0 ≤ maxd / delta := div_nonneg h2 h.le
    have a0 : 0 ≤ p := by rw [hp]; exact le_min (by norm_num) hq
    have a1 : p ≤ 1 := by rw [hp]; exact min_le_left _ _
    have a2 : p ≤ maxd / delta := by rw [hp]; exact min_le_right _ _
    refine ⟨⟨a0, a1⟩, ⟨by nlinarith, ?_⟩, fun _ h3 => ?_⟩
    · rwa [le_div_iff₀ h] at a2
    · rw [hp, min_eq_left]
      rw [le_div_iff₀ h]; linarith

/-- **C159 (concrete)**. -/
theorem ex_limiters : koren 1 2 = 2/3 ∧ mcLim 1 2 = 3/4 ∧ minmod 1 2 = 3/4 ∧ superbee 1 2 = 1 ∧ overbee 1 2 = 1 ∧ barthJespersen 1 2 = 1 ∧ nolim (-1) 2 = 3/4 ∧ overbeeAlpha 1 2 (3/2) = some (3/4) ∧
    phifunc (-1) 1 2 0 1 0 = 1/2 := by
  unfold koren mcLim minmod superbee overbee barthJespersen nolim overbeeAlpha phifunc diffRatio
  norm_num

end Phoebus.Recon
