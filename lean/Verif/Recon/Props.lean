import Verif.Recon.Lemmas
import Verif.Common

/-!
# Reconstruction properties (C01-C07)

`Set.uIcc a b` is Mathlib's closed interval with end points `a`, `b` in either order.
-/
namespace Phoebus.Recon
open Set
variable {K : Type*} [Field K] [LinearOrder K] [IsStrictOrderedRing K]

/-! ## C01 -/

/-- C01. Piecewise-linear face states never overshoot the adjacent cell value, average to the cell value,
and are flat at a local extremum. -/
theorem plm_no_overshoot (qm q0 qp : K) :
    (piecewiseLinear qm q0 qp).1 ∈ uIcc q0 qp ∧ (piecewiseLinear qm q0 qp).2 ∈ uIcc qm q0 ∧
    (piecewiseLinear qm q0 qp).1 + (piecewiseLinear qm q0 qp).2 = 2 * q0 ∧
    ((qm ≤ q0 ∧ qp ≤ q0) ∨ (q0 ≤ qm ∧ q0 ≤ qp) → piecewiseLinear qm q0 qp = (q0, q0)) := by
  have ha : (0:K) ≤ 3/2 := by norm_num
  have hsum : (piecewiseLinear qm q0 qp).1 + (piecewiseLinear qm q0 qp).2 = 2 * q0 := by
    unfold piecewiseLinear; ring
  have hflat : (q0 - qm) * (qp - q0) ≤ 0 → piecewiseLinear qm q0 qp = (q0, q0) := by
    intro h; unfold piecewiseLinear; simp [mc_nonpos ha h]
  refine ⟨?_, ?_, hsum, ?_⟩
  · rcases le_or_gt ((q0 - qm) * (qp - q0)) 0 with h | h
    · rw [hflat h]; exact left_mem_uIcc
    · rcases mul_pos_iff.1 h with ⟨h1, h2⟩ | ⟨h1, h2⟩
      · rw [uIcc_of_le (by linarith)]
        unfold piecewiseLinear
        simp only [mc_pos ha h1 h2, mem_Icc]
        have e1 : min ((q0 - qm + (qp - q0)) / 2) (3/2 * min (q0 - qm) (qp - q0)) ≤ 3/2 * (qp - q0) :=
          le_trans (min_le_right _ _) (mul_le_mul_of_nonneg_left (min_le_right _ _) ha)
        have e2 : 0 ≤ min ((q0 - qm + (qp - q0)) / 2) (3/2 * min (q0 - qm) (qp - q0)) :=
          le_min (by linarith) (mul_nonneg ha (le_min h1.le h2.le))
        constructor <;> linarith
      · rw [uIcc_of_ge (by linarith)]
        unfold piecewiseLinear
        simp only [mc_neg ha h1 h2, mem_Icc]
        have e1 : min ((-(q0 - qm) + -(qp - q0)) / 2) (3/2 * min (-(q0 - qm)) (-(qp - q0)))
            ≤ 3/2 * (-(qp - q0)) :=
          le_trans (min_le_right _ _) (mul_le_mul_of_nonneg_left (min_le_right _ _) ha)
        have e2 : 0 ≤ min ((-(q0 - qm) + -(qp - q0)) / 2) (3/2 * min (-(q0 - qm)) (-(qp - q0))) :=
          le_min (by linarith) (mul_nonneg ha (le_min (by linarith) (by linarith)))
        constructor <;> linarith
  · rcases le_or_gt ((q0 - qm) * (qp - q0)) 0 with h | h
    · rw [hflat h]; exact right_mem_uIcc
    · rcases mul_pos_iff.1 h with ⟨h1, h2⟩ | ⟨h1, h2⟩
      · rw [uIcc_of_le (by linarith)]
        unfold piecewiseLinear
        simp only [mc_pos ha h1 h2, mem_Icc]
        have e1 : min ((q0 - qm + (qp - q0)) / 2) (3/2 * min (q0 - qm) (qp - q0)) ≤ 3/2 * (q0 - qm) :=
          le_trans (min_le_right _ _) (mul_le_mul_of_nonneg_left (min_le_left _ _) ha)
        have e2 : 0 ≤ min ((q0 - qm + (qp - q0)) / 2) (3/2 * min (q0 - qm) (qp - q0)) :=
          le_min (by linarith) (mul_nonneg ha (le_min h1.le h2.le))
        constructor <;> linarith
      · rw [uIcc_of_ge (by linarith)]
        unfold piecewiseLinear
        simp only [mc_neg ha h1 h2, mem_Icc]
        have e1 : min ((-(q0 - qm) + -(qp - q0)) / 2) (3/2 * min (-(q0 - qm)) (-(qp - q0)))
            ≤ 3/2 * (-(q0 - qm)) :=
          le_trans (min_le_right _ _) (mul_le_mul_of_nonneg_left (min_le_left _ _) ha)
        have e2 : 0 ≤ min ((-(q0 - qm) + -(qp - q0)) / 2) (3/2 * min (-(q0 - qm)) (-(qp - q0))) :=
          le_min (by linarith) (mul_nonneg ha (le_min (by linarith) (by linarith)))
        constructor <;> linarith
  · intro h
    apply hflat
    rcases h with ⟨h1, h2⟩ | ⟨h1, h2⟩
    · exact mul_nonpos_of_nonneg_of_nonpos (by linarith) (by linarith)
    · exact mul_nonpos_of_nonpos_of_nonneg (by linarith) (by linarith)

example : piecewiseLinear (0:ℚ) 1 4 = (7/4, 1/4) := by
  norm_num [piecewiseLinear, mc, copysign]

/-- C01 on a whole line of cells: at every face with reconstructed cells on both sides, both the left and
the right state stored by the reconstruction loop lie between the two cell values adjacent to
that face; entries outside the requested range are untouched. -/
theorem plm_line_no_overshoot (s e : ℤ) (q lOld rOld : ℤ → K) (f : ℤ) :
    let out := reconLoop3 piecewiseLinear s e q lOld rOld
    (s + 1 ≤ f → f ≤ e → out.1 f ∈ uIcc (q (f - 1)) (q f) ∧ out.2 f ∈ uIcc (q (f - 1)) (q f)) ∧
    (f < s ∨ e + 1 < f → out.1 f = lOld f ∧ out.2 f = rOld f) := by
  intro out
  refine ⟨fun h1 h2 => ⟨?_, ?_⟩, fun h => ⟨?_, ?_⟩⟩
  · have hc : s ≤ f - 1 ∧ f - 1 ≤ e := ⟨by omega, by omega⟩
    have := (plm_no_overshoot (q (f - 1 - 1)) (q (f - 1)) (q (f - 1 + 1))).1
    simp only [out, reconLoop3, hc, and_self, if_true]
    rwa [show q (f - 1 + 1) = q f by rw [show f - 1 + 1 = f by ring]] at this ⊢
  · have hc : s ≤ f ∧ f ≤ e := ⟨by omega, by omega⟩
    have := (plm_no_overshoot (q (f - 1)) (q f) (q (f + 1))).2.1
    simpa only [out, reconLoop3, hc, and_self, if_true] using this
  · have hc : ¬ (s ≤ f - 1 ∧ f - 1 ≤ e) := by omega
    exact if_neg hc
  · have hc : ¬ (s ≤ f ∧ f ≤ e) := by omega
    exact if_neg hc

/-! ## C02 -/

/-- C02. Every reconstruction method returns a constant field unchanged. -/
theorem recon_preserves_constants (eps epsm q : K) (he : 0 < eps) (hm : 0 ≤ epsm) :
    piecewiseConstant q = (q, q) ∧ piecewiseLinear q q q = (q, q) ∧
    weno5z eps q q q q q = (q, q) ∧ mp5 epsm q q q q q = (q, q) := by
  refine ⟨rfl, ?_, ?_, ?_⟩
  · have : mc (0:K) 0 (3/2) = 0 := mc_nonpos (by norm_num) (by simp)
    simp [piecewiseLinear, this]
  · have hm : mc (0:K) 0 2 = 0 := mc_nonpos (by norm_num) (by simp)
    have hz := wenoZ_ge_one (wenoBeta_pos he q q q q q)
    obtain ⟨a, b, c, -, -, -, hs, hl⟩ := wenoHiL_convex _ (wenoWl_pos he hz) q q q q q
    obtain ⟨a', b', c', -, -, -, hs', hr⟩ := wenoHiL_convex _ (wenoWr_pos he hz) q q q q q
    have e1 : wenoHiL (wenoWl eps (wenoZ (wenoBeta eps q q q q q))) q q q q q = q := by
      rw [hl]; linear_combination q * hs
    have e2 : wenoHiR (wenoWr eps (wenoZ (wenoBeta eps q q q q q))) q q q q q = q := by
      rw [wenoHiR_eq, hr]; linear_combination q * hs'
    unfold weno5z
    simp only [e1, e2, sub_self, hm, Prod.mk.injEq]
    constructor <;> ring
  · have e : mp5High q q q q q = q := by unfold mp5High; ring
    have : mp5Subcalc epsm q q q q q = q := by
      unfold mp5Subcalc; simp [e, hm]
    simp [mp5, this]

/-! ## C03 -/

/-- C03. Affine data (value `c` at the cell centre, slope `s` per cell) are reconstructed
exactly at both faces by the linear, WENO5-Z and MP5 methods. -/
theorem recon_exact_on_affine (eps epsm c s : K) (he : 0 < eps) (hm : 0 ≤ epsm) :
    piecewiseLinear (c - s) c (c + s) = (c + s/2, c - s/2) ∧
    weno5z eps (c - 2*s) (c - s) c (c + s) (c + 2*s) = (c + s/2, c - s/2) ∧
    mp5 epsm (c - 2*s) (c - s) c (c + s) (c + 2*s) = (c + s/2, c - s/2) := by
  have d1 : c - (c - s) = s := by ring
  have d2 : c + s - c = s := by ring
  refine ⟨?_, ?_, ?_⟩
  · unfold piecewiseLinear
    simp only [d1, d2, mc_self s (3/2) (by norm_num), Prod.mk.injEq]
    constructor <;> ring
  · have hz := wenoZ_ge_one (wenoBeta_pos he (c - 2*s) (c - s) c (c + s) (c + 2*s))
    obtain ⟨a, b, d, -, -, -, hs, hl⟩ :=
      wenoHiL_convex _ (wenoWl_pos he hz) (c - 2*s) (c - s) c (c + s) (c + 2*s)
    obtain ⟨a', b', d', -, -, -, hs', hr⟩ :=
      wenoHiL_convex _ (wenoWr_pos he hz) (c + 2*s) (c + s) c (c - s) (c - 2*s)
    unfold weno5z
    simp only [hl, wenoHiR_eq, hr, d1, d2, mc_self s 2 (by norm_num), Prod.mk.injEq]
    generalize wenoBlend eps (c - 2*s) (c - s) c (c + s) (c + 2*s) = A
    constructor
    · linear_combination A * (c + s/2) * hs
    · linear_combination A * (c - s/2) * hs'
  · have key : ∀ c s : K, mp5Subcalc epsm (c - 2*s) (c - s) c (c + s) (c + 2*s) = c + s/2 := by
      intro c s
      have e : mp5High (c - 2*s) (c - s) c (c + s) (c + 2*s) = c + s/2 := by unfold mp5High; ring
      have e2 : mp5MP (c - s) c (c + s) = c + s := by
        unfold mp5MP
        rcases minmod2_cases (c + s - c) (4 * (c - (c - s))) with ⟨h1, _, e⟩ | ⟨h1, _, e⟩ | ⟨h, e⟩
        · rw [e, min_eq_left (by linarith)]; ring
        · rw [e, max_eq_left (by linarith)]; ring
        · rw [e]
          have : s = 0 := by
            have : s * s ≤ 0 := by nlinarith
            exact mul_self_eq_zero.1 (le_antisymm this (mul_self_nonneg s))
          rw [this]
      unfold mp5Subcalc
      simp only [e, e2]
      rw [if_pos]
      nlinarith [mul_self_nonneg s]
    have h1 := key c s
    have h2 := key c (-s)
    unfold mp5
    rw [h1]
    have e : mp5Subcalc epsm (c + 2*s) (c + s) c (c - s) (c - 2*s) = c - s/2 := by
      have := h2
      simp only [mul_neg, sub_neg_eq_add, ← sub_eq_add_neg] at this
      rw [this]; ring
    rw [e]

example : (0:ℚ) < 1/10^100 ∧ (0:ℚ) ≤ 1/10^12 := by norm_num

/-! ## C04 -/

/-- C04. Mirroring the stencil exchanges the two face states. -/
theorem recon_mirror (eps epsm q0 q1 q2 q3 q4 : K) :
    piecewiseLinear q2 q1 q0 = (piecewiseLinear q0 q1 q2).swap ∧
    weno5z eps q4 q3 q2 q1 q0 = (weno5z eps q0 q1 q2 q3 q4).swap ∧
    mp5 epsm q4 q3 q2 q1 q0 = (mp5 epsm q0 q1 q2 q3 q4).swap := by
  have m : ∀ a b c al : K, 0 ≤ al → mc (b - c) (a - b) al = - mc (b - a) (c - b) al := by
    intro a b c al h
    rw [mc_comm, ← mc_neg_neg _ _ _ h]; congr 1 <;> ring
  refine ⟨?_, ?_, rfl⟩
  · unfold piecewiseLinear
    simp only [Prod.swap, m q0 q1 q2 (3/2) (by norm_num), Prod.mk.injEq]
    constructor <;> ring
  · have hb : wenoBeta eps q4 q3 q2 q1 q0 =
        ((wenoBeta eps q0 q1 q2 q3 q4).2.2, (wenoBeta eps q0 q1 q2 q3 q4).2.1,
         (wenoBeta eps q0 q1 q2 q3 q4).1) := by
      unfold wenoBeta; simp only [Prod.mk.injEq]; refine ⟨?_, ?_, ?_⟩ <;> ring
    have hz : wenoZ (wenoBeta eps q4 q3 q2 q1 q0) =
        ((wenoZ (wenoBeta eps q0 q1 q2 q3 q4)).2.2, (wenoZ (wenoBeta eps q0 q1 q2 q3 q4)).2.1,
         (wenoZ (wenoBeta eps q0 q1 q2 q3 q4)).1) := by
      rw [hb]; unfold wenoZ; simp only [abs_sub_comm]
    have hl : wenoWl eps (wenoZ (wenoBeta eps q4 q3 q2 q1 q0)) =
        wenoWr eps (wenoZ (wenoBeta eps q0 q1 q2 q3 q4)) := by rw [hz]; rfl
    have hr : wenoWr eps (wenoZ (wenoBeta eps q4 q3 q2 q1 q0)) =
        wenoWl eps (wenoZ (wenoBeta eps q0 q1 q2 q3 q4)) := by rw [hz]; rfl
    have hbl : wenoBlend eps q4 q3 q2 q1 q0 = wenoBlend eps q0 q1 q2 q3 q4 := by
      unfold wenoBlend; simp only [hl, hr]
      rw [add_comm]; congr 1; ring
    unfold weno5z
    simp only [hl, hr, hbl, m q1 q2 q3 2 (by norm_num), wenoHiR_eq, Prod.swap, Prod.mk.injEq]
    constructor <;> ring

/-! ## C05 -/

/-- C05 (partial). Each WENO5-Z face state is `A * hi + (1 - A) * lin`, where `hi` is a convex combination
(positive weights summing to one) of the three third-order candidate interpolants, `lin` is the limited
linear state and the blend `A` satisfies `0 < A ≤ 1.12 + eps`.  What is missing from the full claim is
`A ≤ 1`: the code violates it, see `weno_blend_exceeds_one`. -/
theorem weno_blend_of_convex_partial (eps q0 q1 q2 q3 q4 : K) (he : 0 < eps) :
    ∃ A : K, 0 < A ∧ A ≤ 28/25 + eps ∧
    (∃ a b c : K, 0 < a ∧ 0 < b ∧ 0 < c ∧ a + b + c = 1 ∧
      (weno5z eps q0 q1 q2 q3 q4).1 =
        A * (a * ((2 * q0 - 7 * q1 + 11 * q2) / 6) + b * ((-q1 + 5 * q2 + 2 * q3) / 6)
          + c * ((2 * q2 + 5 * q3 - q4) / 6)) + (1 - A) * (q2 + mc (q2 - q1) (q3 - q2) 2 / 2)) ∧
    (∃ a b c : K, 0 < a ∧ 0 < b ∧ 0 < c ∧ a + b + c = 1 ∧
      (weno5z eps q0 q1 q2 q3 q4).2 =
        A * (a * ((2 * q4 - 7 * q3 + 11 * q2) / 6) + b * ((-q3 + 5 * q2 + 2 * q1) / 6)
          + c * ((2 * q2 + 5 * q1 - q0) / 6)) + (1 - A) * (q2 - mc (q2 - q1) (q3 - q2) 2 / 2)) := by
  have hz := wenoZ_ge_one (wenoBeta_pos he q0 q1 q2 q3 q4)
  obtain ⟨hl1, hl2⟩ := wenoAlpha_bounds he _ (wenoWl_pos he hz)
  obtain ⟨hr1, hr2⟩ := wenoAlpha_bounds he _ (wenoWr_pos he hz)
  obtain ⟨a, b, d, ha, hb, hd, hs, hl⟩ := wenoHiL_convex _ (wenoWl_pos he hz) q0 q1 q2 q3 q4
  obtain ⟨a', b', d', ha', hb', hd', hs', hr⟩ := wenoHiL_convex _ (wenoWr_pos he hz) q4 q3 q2 q1 q0
  refine ⟨wenoBlend eps q0 q1 q2 q3 q4, ?_, ?_, ⟨a, b, d, ha, hb, hd, hs, ?_⟩,
    ⟨a', b', d', ha', hb', hd', hs', ?_⟩⟩
  · unfold wenoBlend
    have h1 := lt_trans he hl1
    have h2 := lt_trans he hr1
    positivity
  · unfold wenoBlend
    simp only
    set x := wenoAlpha eps (wenoWl eps (wenoZ (wenoBeta eps q0 q1 q2 q3 q4)))
    set y := wenoAlpha eps (wenoWr eps (wenoZ (wenoBeta eps q0 q1 q2 q3 q4)))
    have h1 : 0 < x := lt_trans he hl1
    have h2 : 0 < y := lt_trans he hr1
    rw [div_le_iff₀ (by linarith)]
    nlinarith [mul_nonneg h1.le (sub_nonneg.2 hr2), mul_nonneg h2.le (sub_nonneg.2 hl2)]
  · rw [← hl]; unfold weno5z; ring
  · rw [← hr, ← wenoHiR_eq]; unfold weno5z; ring

/-- C05, negation of the full claim: the WENO5-Z blend factor exceeds one by a macroscopic amount
for the stencil `1,1,0,1,3`, so the code extrapolates away from the limited linear state. -/
theorem weno_blend_exceeds_one :
    ∃ q0 q1 q2 q3 q4 : ℚ, 1 + 1/50 < wenoBlend (1/10^100) q0 q1 q2 q3 q4 := by
  refine ⟨1, 1, 0, 1, 3, ?_⟩
  norm_num [wenoBlend, wenoAlpha, wenoWl, wenoWr, wenoZ, wenoBeta, abs_of_pos, abs_of_neg]

/-! ## C06 -/

/-- C06. Either the plain fifth-order interpolant passes the monotonicity test (it is, up to `epsm`, between
the cell value and the MP bound) and is returned unchanged, or the result is that interpolant clamped to
an interval containing the cell value. -/
theorem mp5_clamps (epsm a b c d e : K) :
    let hi := (2 * a - 13 * b + 47 * c + 27 * d - 3 * e) / 60
    ((hi - c) * (hi - mp5MP b c d) ≤ epsm → mp5Subcalc epsm a b c d e = hi) ∧
    (¬ (hi - c) * (hi - mp5MP b c d) ≤ epsm →
      ∃ lo up : K, lo ≤ c ∧ c ≤ up ∧ (lo, up) = mp5Bounds a b c d e ∧
        mp5Subcalc epsm a b c d e = max lo (min hi up) ∧ mp5Subcalc epsm a b c d e ∈ Icc lo up) := by
  intro hi
  refine ⟨fun h => ?_, fun h => ?_⟩
  · unfold mp5Subcalc mp5High; simp only; rw [if_pos h]
  · have hb := mp5Bounds_mem a b c d e
    refine ⟨_, _, hb.1, hb.2, rfl, ?_, ?_⟩
    · unfold mp5Subcalc mp5High; simp only; rw [if_neg h, median_clamp _ _ _ (hb.1.trans hb.2)]
    · unfold mp5Subcalc mp5High; simp only; rw [if_neg h, median_clamp _ _ _ (hb.1.trans hb.2)]
      exact ⟨le_max_left _ _, max_le (hb.1.trans hb.2) (min_le_right _ _)⟩

/-- Specification (Suresh-Huynh 1997): curvature of the data at cell `j`. -/
def curv (f : ℤ → K) (j : ℤ) : K := f (j + 1) - 2 * f j + f (j - 1)
/-- Specification: `M4` curvature of the interface between two cells. -/
def m4 (a b : K) : K := minmod2 (minmod2 (4 * a - b) (4 * b - a)) (minmod2 a b)

/-- C06. The limiting interval is the Suresh-Huynh one for the face between cells 0 and 1: between the most restrictive of the
bounds from (value, downwind value, median) and (value, upper limit, large curvature). -/
theorem mp5Bounds_spec (f : ℤ → K) :
    let fMD := (f 0 + f 1) / 2 - m4 (curv f 0) (curv f 1) / 2
    let fUL := f 0 + 4 * (f 0 - f (-1))
    let fLC := f 0 + (f 0 - f (-1)) / 2 + 4 / 3 * m4 (curv f (-1)) (curv f 0)
    mp5Bounds (f (-2)) (f (-1)) (f 0) (f 1) (f 2) =
      (max (min (f 0) (min (f 1) fMD)) (min (f 0) (min fUL fLC)), min (max (f 0) (max (f 1) fMD)) (max (f 0) (max fUL fLC))) := by
  intro fMD fUL fLC
  have e1 : (1/2) * (f 0 + f 1) - (1/2) * minmod2 (minmod2 (4 * (f (-1) + f 1 - 2 * f 0) - (f 0 + f 2 - 2 * f 1))
      (4 * (f 0 + f 2 - 2 * f 1) - (f (-1) + f 1 - 2 * f 0))) (minmod2 (f (-1) + f 1 - 2 * f 0) (f 0 + f 2 - 2 * f 1)) = fMD := by
    have a : f (-1) + f 1 - 2 * f 0 = curv f 0 := by unfold curv; norm_num; ring
    have b : f 0 + f 2 - 2 * f 1 = curv f 1 := by unfold curv; norm_num; ring
    rw [a, b]; simp only [fMD, m4]; ring
  have e2 : (1/2) * (3 * f 0 - f (-1)) + 4/3 * minmod2 (minmod2 (4 * (f (-2) + f 0 - 2 * f (-1)) - (f (-1) + f 1 - 2 * f 0))
      (4 * (f (-1) + f 1 - 2 * f 0) - (f (-2) + f 0 - 2 * f (-1)))) (minmod2 (f (-1) + f 1 - 2 * f 0) (f (-2) + f 0 - 2 * f (-1))) = fLC := by
    have a : f (-1) + f 1 - 2 * f 0 = curv f 0 := by unfold curv; norm_num; ring
    have b : f (-2) + f 0 - 2 * f (-1) = curv f (-1) := by unfold curv; norm_num; ring
    have c : minmod2 (curv f 0) (curv f (-1)) = minmod2 (curv f (-1)) (curv f 0) := by
      unfold minmod2
      rw [mul_comm (curv f 0)]
      split_ifs with h1 h2 h3 h3
      · exact absurd h2 (lt_asymm h3)
      · rfl
      · rfl
      · have := le_antisymm (not_lt.1 h2) (not_lt.1 h3)
        rcases abs_eq_abs.1 this with h | h
        · exact h
        · exfalso; rw [h] at h1; nlinarith [mul_self_nonneg (curv f 0)]
      · rfl
    rw [a, b, c]; simp only [fLC, m4]; ring
  simp only [mp5Bounds, e1, e2, min_assoc, max_assoc]
  rfl

/-- C06. The MP bound is between the cell value and the downwind neighbour, at most four upwind
differences away. -/
theorem mp5MP_spec (b c d : K) :
    mp5MP b c d ∈ uIcc c d ∧ |mp5MP b c d - c| ≤ 4 * |c - b| := by
  unfold mp5MP
  rcases minmod2_cases (d - c) (4 * (c - b)) with ⟨h1, h2, e⟩ | ⟨h1, h2, e⟩ | ⟨h, e⟩
  · rw [e, uIcc_of_le (by linarith)]
    have l := min_le_left (d - c) (4 * (c - b))
    have r := min_le_right (d - c) (4 * (c - b))
    have p : 0 < min (d - c) (4 * (c - b)) := lt_min h1 h2
    refine ⟨⟨by linarith, by linarith⟩, ?_⟩
    rw [add_sub_cancel_left, abs_of_pos p, abs_of_pos (by linarith : 0 < c - b)]; exact r
  · rw [e, uIcc_of_ge (by linarith)]
    have l := le_max_left (d - c) (4 * (c - b))
    have r := le_max_right (d - c) (4 * (c - b))
    have p : max (d - c) (4 * (c - b)) < 0 := max_lt h1 h2
    refine ⟨⟨by linarith, by linarith⟩, ?_⟩
    rw [add_sub_cancel_left, abs_of_neg p, abs_of_neg (by linarith : c - b < 0)]; linarith
  · rw [e, add_zero]
    exact ⟨left_mem_uIcc, by simp⟩

example : mp5Subcalc (1/10^12 : ℚ) 0 0 0 1 0 = 0 := by
  norm_num [mp5Subcalc, mp5High, mp5MP, minmod2, median, mp5Bounds]

/-! ## C07 -/

/-- C07. The linear reconstruction commutes with shifting and scaling the data, for scales of either sign. -/
theorem plm_affine_equivariant (a b qm q0 qp : K) :
    piecewiseLinear (a * qm + b) (a * q0 + b) (a * qp + b) =
      (a * (piecewiseLinear qm q0 qp).1 + b, a * (piecewiseLinear qm q0 qp).2 + b) := by
  unfold piecewiseLinear
  have e1 : a * q0 + b - (a * qm + b) = a * (q0 - qm) := by ring
  have e2 : a * qp + b - (a * q0 + b) = a * (qp - q0) := by ring
  simp only [e1, e2, mc_smul a _ _ _ (show (0:K) ≤ 3/2 by norm_num), Prod.mk.injEq]
  constructor <;> ring

/-- C07 does not extend to MP5: its acceptance test compares a squared difference with the
absolute constant `1e-12`, so scaling the data changes the limiting decision. -/
theorem mp5_not_scale_equivariant :
    ∃ a q0 q1 q2 q3 q4 : ℚ,
      (mp5 (1/10^12) (a*q0) (a*q1) (a*q2) (a*q3) (a*q4)).1 ≠ a * (mp5 (1/10^12) q0 q1 q2 q3 q4).1 := by
  refine ⟨1/10^7, 0, 0, 0, 1, 0, ?_⟩
  norm_num [mp5, mp5Subcalc, mp5High, mp5MP, minmod2, median, mp5Bounds]

/-- **C143, negation**: the threshold of the MP5 limiter is the absolute number `1e-12`: where the values differ from the middle one by at most `M` with
`21 M² ≤ 16 epsm` (about `8.7e-7` in code units) the limiter never acts, whatever the shape of the data ... -/
theorem mp5_limiter_off (epsm M a b c d e : K) (hM : 21 * M ^ 2 ≤ 16 * epsm) (ha : |a - c| ≤ M) (hb : |b - c| ≤ M) (hd : |d - c| ≤ M) (he : |e - c| ≤ M) :
    mp5Subcalc epsm a b c d e = (2 * a - 13 * b + 47 * c + 27 * d - 3 * e) / 60 := by
  refine (mp5_clamps epsm a b c d e).1 ?_
  rw [abs_le] at ha hb hd he
  have hm := (mp5MP_spec b c d).1
  have h0 : 0 ≤ M := by linarith [hd.1, hd.2]
  have hmp : |mp5MP b c d - c| ≤ M := by
    rw [Set.mem_uIcc] at hm
    rw [abs_le]
    rcases hm with h | h <;> constructor <;> linarith [h.1, h.2, hd.1, hd.2]
  rw [abs_le] at hmp
  set hi := (2 * a - 13 * b + 47 * c + 27 * d - 3 * e) / 60 with hhi
  have e1 : hi - c = (2 * (a - c) - 13 * (b - c) + 27 * (d - c) - 3 * (e - c)) / 60 := by rw [hhi]; ring
  have h1 : |hi - c| ≤ 3 / 4 * M := by
    rw [e1, abs_le]; constructor <;> linarith [ha.1, ha.2, hb.1, hb.2, hd.1, hd.2, he.1, he.2]
  have h2 : |hi - mp5MP b c d| ≤ 7 / 4 * M := by
    rw [abs_le] at h1 ⊢; constructor <;> linarith [h1.1, h1.2, hmp.1, hmp.2]
  calc (hi - c) * (hi - mp5MP b c d) ≤ |hi - c| * |hi - mp5MP b c d| := by rw [← abs_mul]; exact le_abs_self _
    _ ≤ (3 / 4 * M) * (7 / 4 * M) := mul_le_mul h1 h2 (abs_nonneg _) (by linarith)
    _ ≤ epsm := by nlinarith [hM]

/-- ... so small positive data are reconstructed to negative values, while the same data in a larger unit are not: in code units a density spike of up to `8e-7`
gives a negative density at the neighbouring face. -/
theorem mp5_negative (epsm t : K) (ht : 0 < t) (hs : 21 * t ^ 2 ≤ 16 * epsm) : (mp5 epsm 0 t 0 0 0).1 < 0 := by
  have h := mp5_limiter_off epsm t 0 t 0 0 0 hs (by simpa using ht.le) (by simp [abs_of_pos ht]) (by simpa using ht.le) (by simpa using ht.le)
  unfold mp5
  simp only
  rw [h]
  linarith

/-- with the limiter the same data give a value that is not negative. -/
example : 0 ≤ (mp5 (1/10^12 : ℚ) 0 1 0 0 0).1 := by norm_num [mp5, mp5Subcalc, mp5High, mp5MP, minmod2, median, mp5Bounds]

end Phoebus.Recon
