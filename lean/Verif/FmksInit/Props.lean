import Verif.FmksInit.Model

/-!
# C106: horizon radius, innermost stable orbit and inner reference radius of the FMKS coordinates
-/
namespace Phoebus.FmksInit
open Real Transform

/-! ## Specifications, independent of the code -/

/-- the horizon function of Kerr with unit mass. -/
def Delta (a r : ℝ) : ℝ := r ^ 2 - 2 * r + a ^ 2

/-- a circular equatorial orbit of Kerr at radius `r` is marginally stable: Bardeen, Press and Teukolsky's
condition `r² - 6 r ± 8 a √r - 3 a² = 0`, squared. -/
def Marginal (a r : ℝ) : Prop := (r ^ 2 - 6 * r - 3 * a ^ 2) ^ 2 = 64 * a ^ 2 * r

/-- **C106** `Rh` is the outer horizon: a root of the horizon function, which is positive at every larger
radius; so no root lies further out. -/
theorem horizon_radius (a : ℝ) (ha : |a| ≤ 1) :
    Delta a (Rh a) = 0 ∧ (∀ r, Rh a < r → 0 < Delta a r) ∧ 1 ≤ Rh a ∧ Rh a ≤ 2 := by
  have h2 : 0 ≤ 1 - a * a := by nlinarith [abs_le.1 ha]
  have hs := Real.sq_sqrt h2
  have hp := Real.sqrt_nonneg (1 - a * a)
  refine ⟨?_, fun r hr => ?_, ?_, ?_⟩
  · unfold Delta Rh; nlinarith
  · unfold Rh at hr; unfold Delta
    nlinarith
  · unfold Rh; linarith
  · unfold Rh
    have : sqrt (1 - a * a) ≤ 1 := by
      rw [Real.sqrt_le_left (by norm_num)]
      nlinarith [mul_self_nonneg a]
    linarith

/-- **C106** The stored code coordinate `xh` maps to the horizon, provided it lies below the break of the
hyper-exponential stretching.

Partial form of C106. Full property: The code coordinate xh of the horizon maps to the outer Kerr horizon for every
spin; the stored innermost stable orbit is that of the black hole; the smoothing reference x0 lies at or below every
ghost face so that the polar map is monotone on the whole grid. Missing: Horizon proved; stored ISCO too small for
every spin (stored_isco_too_small); x0 by exact iff. -/
theorem horizon_coordinate_partial (p : MGR) (a : ℝ) (hb : xh a ≤ p.br) : p.r (xh a) = Rh a := by
  have hp : 0 < Rh a := by unfold Rh; have := Real.sqrt_nonneg (1 - a * a); linarith
  have : ¬ (xh a - p.br > 0) := by linarith
  unfold MGR.r MGR.sw
  rw [if_neg this]
  simp [xh, Real.exp_log hp]

/-- the stored code coordinate is never negative, and at most `log 2`. -/
theorem xh_range (a : ℝ) (ha : |a| ≤ 1) : 0 ≤ xh a ∧ xh a ≤ log 2 := by
  obtain ⟨_, _, h1, h2⟩ := horizon_radius a ha
  exact ⟨Real.log_nonneg h1, Real.log_le_log (by linarith) h2⟩

/-! ## The innermost stable circular orbit -/

theorem cbrt_cube {x : ℝ} (hx : 0 ≤ x) : cbrt x ^ 3 = x := by
  unfold cbrt
  rw [← Real.rpow_natCast, ← Real.rpow_mul hx]
  norm_num

theorem cbrt_nonneg {x : ℝ} (hx : 0 ≤ x) : 0 ≤ cbrt x := Real.rpow_nonneg hx _

theorem cbrt_mul {x y : ℝ} (hx : 0 ≤ x) (hy : 0 ≤ y) : cbrt (x * y) = cbrt x * cbrt y := Real.mul_rpow hx hy

/-- the cubic satisfied by `Z1`. -/
theorem Z1_cubic (a : ℝ) (ha : |a| ≤ 1) : Z1 a ^ 3 - 3 * Z1 a ^ 2 + 3 * a ^ 2 * Z1 a - a ^ 2 = 0 := by
  obtain ⟨h1, h2⟩ := abs_le.1 ha
  have hp : 0 ≤ 1 + a := by linarith
  have hm : 0 ≤ 1 - a := by linarith
  have e : cbrt (1 - a * a) = cbrt (1 + a) * cbrt (1 - a) := by
    rw [← cbrt_mul hp hm]; ring_nf
  have cp := cbrt_cube hp
  have cm := cbrt_cube hm
  unfold Z1
  rw [e]
  set u := cbrt (1 + a)
  set v := cbrt (1 - a)
  have ha' : a = (u ^ 3 - v ^ 3) / 2 := by linarith
  have hs : u ^ 3 + v ^ 3 = 2 := by linarith
  have hpr : u ^ 3 * v ^ 3 = 1 - a ^ 2 := by rw [cp, cm]; ring
  have hw : (u * v * (u + v)) ^ 3 = (1 - a ^ 2) * (2 + 3 * (u * v * (u + v))) := by
    rw [← hpr, ← hs]; ring
  linear_combination hw

theorem Z1_range (a : ℝ) (ha : |a| < 1) : 1 < Z1 a ∧ Z1 a ≤ 3 := by
  obtain ⟨h1, h2⟩ := abs_lt.1 ha
  have hp : 0 < 1 + a := by linarith
  have hm : 0 < 1 - a := by linarith
  have ha2 : a ^ 2 < 1 := by nlinarith
  have c1 : 0 < cbrt (1 + a) := Real.rpow_pos_of_pos hp _
  have c2 : 0 < cbrt (1 - a) := Real.rpow_pos_of_pos hm _
  have c3 : 0 < cbrt (1 - a * a) := Real.rpow_pos_of_pos (by nlinarith) _
  have hz : 1 < Z1 a := by
    unfold Z1
    have := mul_pos c3 (add_pos c1 c2)
    linarith
  refine ⟨hz, ?_⟩
  have hc := Z1_cubic a ha.le
  by_contra hcon
  push Not at hcon
  have : Z1 a ^ 2 * (Z1 a - 3) + a ^ 2 * (3 * Z1 a - 1) = 0 := by linear_combination hc
  have h3 : 0 < Z1 a ^ 2 * (Z1 a - 3) := mul_pos (by positivity) (by linarith)
  have h4 : 0 ≤ a ^ 2 * (3 * Z1 a - 1) := mul_nonneg (sq_nonneg a) (by linarith)
  linarith

/-- the textbook second auxiliary, with the first one squared. -/
noncomputable def Z2true (a : ℝ) : ℝ := sqrt (3 * a ^ 2 + Z1 a ^ 2)

/-- the textbook innermost stable radius; `s = -1` prograde, `s = 1` retrograde. -/
noncomputable def iscoTrue (s a : ℝ) : ℝ := 3 + Z2true a + s * sqrt ((3 - Z1 a) * (3 + Z1 a + 2 * Z2true a))

/-- **C106** The textbook formula (with the code's own `Z1`) does solve the marginal-stability condition, for
every spin and both senses of rotation. -/
theorem textbook_isco (a s : ℝ) (ha : |a| < 1) (hs : s ^ 2 = 1) : Marginal a (iscoTrue s a) := by
  have hz := Z1_range a ha
  have hc := Z1_cubic a ha.le
  have h2 : 0 ≤ 3 * a ^ 2 + Z1 a ^ 2 := by positivity
  have hZ := Real.sq_sqrt h2
  have hZ0 := Real.sqrt_nonneg (3 * a ^ 2 + Z1 a ^ 2)
  change Z2true a ^ 2 = _ at hZ
  change 0 ≤ Z2true a at hZ0
  have hq : 0 ≤ (3 - Z1 a) * (3 + Z1 a + 2 * Z2true a) := mul_nonneg (by linarith) (by linarith)
  have hQ := Real.sq_sqrt hq
  set q := sqrt ((3 - Z1 a) * (3 + Z1 a + 2 * Z2true a))
  have hr : iscoTrue s a = 3 + Z2true a + s * q := rfl
  set r := iscoTrue s a
  set z := Z1 a
  set w := Z2true a
  have hquad : r ^ 2 - (6 + 2 * w) * r + (z + w) ^ 2 = 0 := by
    have : (r - 3 - w) ^ 2 = (3 - z) * (3 + z + 2 * w) := by
      rw [← hQ, hr]; linear_combination q ^ 2 * hs
    linear_combination this
  unfold Marginal
  linear_combination (r ^ 2 - (6 - 2 * w) * r + (z - w) ^ 2) * hquad - 8 * r * hc +
    (r * (12 - 8 * z) + 2 * r ^ 2 - (w ^ 2 - z ^ 2 + 3 * a ^ 2)) * hZ

/-- auxiliary: `w ↦ 3 + w - √((3 - z)(3 + z + 2 w))` is strictly increasing. -/
theorem isco_mono (z w w' : ℝ) (hz : 1 ≤ z) (hz3 : z ≤ 3) (hw : 0 ≤ w) (hww : w < w') :
    3 + w - sqrt ((3 - z) * (3 + z + 2 * w)) < 3 + w' - sqrt ((3 - z) * (3 + z + 2 * w')) := by
  have h1 : 0 ≤ (3 - z) * (3 + z + 2 * w) := mul_nonneg (by linarith) (by linarith)
  have h2 : 0 ≤ (3 - z) * (3 + z + 2 * w') := mul_nonneg (by linarith) (by linarith)
  have e1 := Real.sq_sqrt h1
  have e2 := Real.sq_sqrt h2
  have n1 := Real.sqrt_nonneg ((3 - z) * (3 + z + 2 * w))
  have n2 := Real.sqrt_nonneg ((3 - z) * (3 + z + 2 * w'))
  set p := sqrt ((3 - z) * (3 + z + 2 * w))
  set q := sqrt ((3 - z) * (3 + z + 2 * w'))
  have hp : 3 - z ≤ p := Real.le_sqrt_of_sq_le (by nlinarith)
  by_contra hcon
  push Not at hcon
  have hd : w' - w ≤ q - p := by linarith
  have hm : (q - p) * (q + p) = 2 * (3 - z) * (w' - w) := by linear_combination e2 - e1
  have hq : p < q := by linarith
  nlinarith

/-- **C106** (finding) For every spin below extremal the stored innermost stable radii are too small: `Z2` is
computed from `Z1` where the formula needs its square. -/
theorem stored_isco_too_small (a : ℝ) (ha : |a| < 1) :
    iscoP a < iscoTrue (-1) a ∧ iscoR a < iscoTrue 1 a := by
  obtain ⟨h1, h3⟩ := Z1_range a ha
  have hw : Z2 a < Z2true a := by
    unfold Z2 Z2true
    apply Real.sqrt_lt_sqrt
    · nlinarith [mul_self_nonneg a]
    · nlinarith
  have hw0 : 0 ≤ Z2 a := Real.sqrt_nonneg _
  constructor
  · have := isco_mono (Z1 a) (Z2 a) (Z2true a) h1.le h3 hw0 hw
    unfold iscoP iscoTrue
    linarith
  · unfold iscoR iscoTrue
    have : sqrt ((3 - Z1 a) * (3 + Z1 a + 2 * Z2 a)) ≤ sqrt ((3 - Z1 a) * (3 + Z1 a + 2 * Z2true a)) :=
      Real.sqrt_le_sqrt (mul_le_mul_of_nonneg_left (by linarith) (by linarith))
    linarith

/-- **C106** (finding) Without spin the code stores `3 + √3` for the innermost stable orbit, which is `6`; the stored
value is not marginally stable. -/
theorem schwarzschild_isco : iscoP 0 = 3 + sqrt 3 ∧ iscoTrue (-1) 0 = 6 ∧ Marginal 0 6 ∧ ¬ Marginal 0 (iscoP 0) := by
  have z : Z1 0 = 3 := by unfold Z1 cbrt; norm_num
  have p : iscoP 0 = 3 + sqrt 3 := by unfold iscoP Z2; rw [z]; norm_num
  refine ⟨p, ?_, by unfold Marginal; norm_num, ?_⟩
  · unfold iscoTrue Z2true; rw [z]
    have : sqrt (3 * (0:ℝ) ^ 2 + 3 ^ 2) = 3 := by
      rw [show (3 * (0:ℝ) ^ 2 + 3 ^ 2) = 3 ^ 2 by norm_num]; exact Real.sqrt_sq (by norm_num)
    rw [this]; norm_num
  · rw [p]; unfold Marginal
    have h := Real.sq_sqrt (show (0:ℝ) ≤ 3 by norm_num)
    have e : (3 + sqrt 3) ^ 2 - 6 * (3 + sqrt 3) - 3 * 0 ^ 2 = (-6 : ℝ) := by linear_combination h
    rw [e]; norm_num

/-! ## The inner reference radius -/

/-- **C106** The reference radius is at or inside the innermost ghost face of the mesh exactly when that face is at
a non-negative coordinate. -/
theorem x0_below_ghosts (x1min x1max : ℝ) (nx1 ng : ℕ) (hn : 0 < nx1) (hg : 0 < ng) (hx : x1min < x1max) :
    x0 x1min x1max nx1 ng ≤ x1min - ng * ((x1max - x1min) / nx1) ↔ 0 ≤ x1min - ng * ((x1max - x1min) / nx1) := by
  have hd : 0 < (ng : ℝ) * ((x1max - x1min) / nx1) := by
    have : (0:ℝ) < nx1 := by exact_mod_cast hn
    have : (0:ℝ) < ng := by exact_mod_cast hg
    have : 0 < x1max - x1min := by linarith
    positivity
  unfold x0 dx1
  set g := x1min - ng * ((x1max - x1min) / nx1) with hgdef
  have hlt : g < x1min := by linarith
  constructor
  · intro h
    rcases min_le_iff.1 h with h | h
    · linarith
    · exact le_trans (le_max_left _ _) h
  · intro h
    rw [max_eq_right h]
    exact min_le_right _ _

/-- it never exceeds the inner edge of the mesh, so the interior is always covered. -/
theorem x0_le_inner (x1min x1max : ℝ) (nx1 ng : ℕ) : x0 x1min x1max nx1 ng ≤ x1min := min_le_left _ _

/-- **C106** On a mesh whose ghost region lies at non-negative coordinates, the polar angle is a strictly increasing
function of `X2` at the radius of every point of every block at every refinement level `l`, ghost zones included. -/
theorem theta_monotone_everywhere (p : MGR) (hp : p.Ok) (x1min x1max : ℝ) (nx1 ng : ℕ) (hn : 0 < nx1) (hg : 0 < ng)
    (hx : x1min < x1max) (hpos : 0 ≤ x1min - ng * ((x1max - x1min) / nx1))
    (h0 : p.x0 = x0 x1min x1max nx1 ng) (l : ℕ) (X1 : ℝ)
    (hX : x1min - ng * ((x1max - x1min) / nx1 / 2 ^ l) ≤ X1) :
    StrictMono (p.thRaw X1) ∧ ∀ X2, 0 ≤ X2 → X2 ≤ 1 → 0 ≤ p.thRaw X1 X2 ∧ p.thRaw X1 X2 ≤ π := by
  apply mgr_theta_monotone hp
  intro _
  rw [h0]
  refine le_trans ((x0_below_ghosts x1min x1max nx1 ng hn hg hx).2 hpos) (le_trans ?_ hX)
  have hq : 0 ≤ (x1max - x1min) / nx1 := div_nonneg (by linarith) (Nat.cast_nonneg _)
  have : (x1max - x1min) / nx1 / 2 ^ l ≤ (x1max - x1min) / nx1 :=
    div_le_self hq (one_le_pow₀ (by norm_num))
  have hgp : (0:ℝ) ≤ ng := Nat.cast_nonneg _
  nlinarith [mul_le_mul_of_nonneg_left this hgp]

/-- **C106** (finding) A mesh reaching from `X1 = 1/10` to `X1 = 41/10` with 80 zones and 4 ghosts: the reference
radius stays at zero, outside the innermost ghost face. -/
theorem ex_x0_above : x0 (1 / 10) (41 / 10) 80 4 = 0 ∧ (1 / 10 : ℝ) - (4 : ℕ) * ((41 / 10 - 1 / 10) / (80 : ℕ)) < 0 := by
  unfold x0 dx1
  norm_num

/-- a mesh satisfying the hypotheses of `theta_monotone_everywhere`. -/
theorem ex_x0_ok : x0 (1 / 2) (9 / 2) 80 4 = 3 / 10 ∧ (0:ℝ) ≤ 1 / 2 - (4 : ℕ) * ((9 / 2 - 1 / 2) / (80 : ℕ)) := by
  unfold x0 dx1
  norm_num

end Phoebus.FmksInit
