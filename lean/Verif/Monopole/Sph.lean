import Verif.Monopole.Props
import Verif.Metrics.Flat

/-!
# The metric built from the monopole solution, `geometry/monopole.hpp`, and the continuum limit of the hypersurface equation
-/
namespace Phoebus.Monopole
open Real Metrics Geom
attribute [local simp] Function.update_apply

/-- the profiles the metric reads, as functions of coordinate time and radius: what `MonopoleGR::Interpolate` returns for
`alpha_`, `beta_`, `hypersurface_(A)` and the six rows of `gradients_` used by monopole.hpp:157-172.  The arrays are rebuilt
every time step; their dependence on the time coordinate is what `dadt` etc. are meant to describe. -/
structure Profiles where
  alpha : ℝ → ℝ → ℝ
  beta : ℝ → ℝ → ℝ
  a : ℝ → ℝ → ℝ
  dadr : ℝ → ℝ → ℝ
  dalphadr : ℝ → ℝ → ℝ
  dbetadr : ℝ → ℝ → ℝ
  dadt : ℝ → ℝ → ℝ
  dalphadt : ℝ → ℝ → ℝ
  dbetadt : ℝ → ℝ → ℝ

/-- `MetricDerivative`, monopole.hpp:151-189. -/
noncomputable def sphDg (P : Profiles) (X : Fin 4 → ℝ) (m n s : Fin 4) : ℝ :=
  let r := |X 1|
  let alpha := P.alpha (X 0) r
  let beta := P.beta (X 0) r
  let a := P.a (X 0) r
  let dadr := P.dadr (X 0) r
  let dalphadr := P.dalphadr (X 0) r
  let dbetadr := P.dbetadr (X 0) r
  let dadt := P.dadt (X 0) r
  let dalphadt := P.dalphadt (X 0) r
  let dbetadt := P.dbetadt (X 0) r
  if m = 0 ∧ n = 0 ∧ s = 0 then 2 * a * beta * beta * dadt - 2 * alpha * dalphadt + 2 * a * a * beta * dbetadt
  else if ((m = 1 ∧ n = 0) ∨ (m = 0 ∧ n = 1)) ∧ s = 0 then 2 * a * beta * dadt + a * a * dbetadt
  else if m = 1 ∧ n = 1 ∧ s = 0 then 2 * a * dadt
  else if m = 0 ∧ n = 0 ∧ s = 1 then -2 * alpha * dalphadr + 2 * a * beta * (beta * dadr + a * dbetadr)
  else if ((m = 1 ∧ n = 0) ∨ (m = 0 ∧ n = 1)) ∧ s = 1 then a * (2 * beta * dadr + a * dbetadr)
  else if m = 1 ∧ n = 1 ∧ s = 1 then 2 * a * dadr
  else if m = 2 ∧ n = 2 ∧ s = 1 then 2 * r
  else if m = 3 ∧ n = 3 ∧ s = 1 then 2 * r * sin (X 2) * sin (X 2)
  else if m = 3 ∧ n = 3 ∧ s = 2 then r * r * sin (2 * X 2) else 0

/-- `MonopoleSph`, monopole.hpp:45-231. -/
noncomputable def monopoleSph (small : ℝ) (P : Profiles) : CoordSys where
  lapse X := P.alpha (X 0) |X 1|
  shift X := ![P.beta (X 0) |X 1|, 0, 0]
  g X :=
    let r := |X 1|
    let a2 := P.a (X 0) r * P.a (X 0) r
    let al := P.alpha (X 0) r
    let be := P.beta (X 0) r
    ![![-al * al + a2 * be * be, a2 * be, 0, 0], ![a2 * be, a2, 0, 0], ![0, 0, r * r, 0],
      ![0, 0, 0, r * r * sin (X 2) * sin (X 2)]]
  gInv X :=
    let r := |X 1|
    let ir2 := Robust.ratio small 1 (r * r)
    let al := P.alpha (X 0) r
    let ia := Robust.ratio small 1 (al * al)
    let be := P.beta (X 0) r
    let a := P.a (X 0) r
    ![![-ia, be * ia, 0, 0], ![be * ia, Robust.ratio small 1 (a * a) - be * be * ia, 0, 0], ![0, 0, ir2, 0],
      ![0, 0, 0, ir2 * Robust.ratio small 1 (sin (X 2) * sin (X 2))]]
  gam X :=
    let r := |X 1|
    let a := P.a (X 0) r
    ![![a * a, 0, 0], ![0, r * r, 0], ![0, 0, r * r * sin (X 2) * sin (X 2)]]
  gamInv X :=
    let r := |X 1|
    let a := P.a (X 0) r
    let ir2 := Robust.ratio small 1 (r * r)
    ![![Robust.ratio small 1 (a * a), 0, 0], ![0, ir2, 0], ![0, 0, ir2 * Robust.ratio small 1 (sin (X 2) * sin (X 2))]]
  detGamma X := P.a (X 0) |X 1| * |X 1| * |X 1| * |sin (X 2)|
  detG X := P.alpha (X 0) |X 1| * (P.a (X 0) |X 1| * |X 1| * |X 1| * |sin (X 2)|)
  dg := sphDg P
  conn X := GeomUtils.connection (sphDg P X)
  gradLnAlpha X := ![P.dalphadt (X 0) |X 1| / P.alpha (X 0) |X 1|, P.dalphadr (X 0) |X 1| / P.alpha (X 0) |X 1|, 0, 0]

/-- Specification: the gradient rows are the partial derivatives of the profiles at `(t, r)`. -/
structure TrueGradients (P : Profiles) (t r : ℝ) : Prop where
  ar : HasDerivAt (fun s => P.a t s) (P.dadr t r) r
  alr : HasDerivAt (fun s => P.alpha t s) (P.dalphadr t r) r
  br : HasDerivAt (fun s => P.beta t s) (P.dbetadr t r) r
  at' : HasDerivAt (fun s => P.a s r) (P.dadt t r) t
  alt : HasDerivAt (fun s => P.alpha s r) (P.dalphadt t r) t
  bt : HasDerivAt (fun s => P.beta s r) (P.dbetadt t r) t

private theorem ratio_zero' (a b : ℝ) : Robust.ratio 0 a b = a / b := by simp [Robust.ratio]

/-- everything but the derivatives. -/
theorem monopoleSph_algebraic (P : Profiles) (X : Fin 4 → ℝ) (hX : X 1 ≠ 0 ∧ sin (X 2) ≠ 0)
    (ha : 0 < P.a (X 0) |X 1|) (hal : 0 < P.alpha (X 0) |X 1|) :
    Symm (monopoleSph 0 P) X ∧ Inverse4 (monopoleSph 0 P) X ∧ Inverse3 (monopoleSph 0 P) X ∧ Assembles (monopoleSph 0 P) X ∧
    AssemblesInv (monopoleSph 0 P) X ∧ DetOk (monopoleSph 0 P) X ∧ ConnOk (monopoleSph 0 P) X := by
  obtain ⟨hr, hsn⟩ := hX
  have hr0 : |X 1| ≠ 0 := abs_ne_zero.2 hr
  have ha0 := ha.ne'
  have hal0 := hal.ne'
  have hs : Symm (monopoleSph 0 P) X := by
    refine ⟨?_, ?_, ?_, ?_⟩ <;> intro m n <;> fin_cases m <;> fin_cases n <;> simp [monopoleSph]
  have h3 : Inverse3 (monopoleSph 0 P) X := by
    intro m n; fin_cases m <;> fin_cases n <;> simp [monopoleSph, Fin.sum_univ_three, ratio_zero'] <;> field_simp
  have has : Assembles (monopoleSph 0 P) X := by
    refine ⟨hal, ?_⟩
    funext m n
    fin_cases m <;> fin_cases n <;>
      simp [monopoleSph, adm, ADM.dot3, ADM.betaCov, ADM.g4_00, Fin.sum_univ_three] <;> (try field_simp) <;> (try ring)
  have hi : AssemblesInv (monopoleSph 0 P) X := by
    funext m n
    fin_cases m <;> fin_cases n <;>
      simp [monopoleSph, adm, ADM.dot3, ADM.betaCov, Fin.sum_univ_three, ratio_zero'] <;> (try field_simp) <;> (try ring)
  refine ⟨hs, inverse4_of _ _ hs h3 has hi, h3, has, hi, detOk_of _ _ hs has ?_ ?_ rfl, fun a b c => ?_⟩
  · simp only [monopoleSph]; positivity
  · rw [Matrix.det_fin_three]; simp [monopoleSph, mul_pow]; ring
  · have hsy : ∀ a b c, sphDg P X a b c = sphDg P X b a c := by
      intro a b c; fin_cases a <;> fin_cases b <;> simp [sphDg]
    simp only [monopoleSph, GeomUtils.connection, hsy b a, hsy c a]

/-- **C43** The monopole metric is a valid, consistently differentiated spherically symmetric metric wherever its lapse and
radial metric function are positive and the stored gradients are the derivatives of the stored profiles. -/
theorem monopoleSph_good (P : Profiles) (X : Fin 4 → ℝ) (hX : SphRegular X) (ha : 0 < P.a (X 0) (X 1))
    (hal : 0 < P.alpha (X 0) (X 1)) (hg : TrueGradients P (X 0) (X 1)) : Good (monopoleSph 0 P) X := by
  obtain ⟨hr, hsn⟩ := hX
  have habs : |X 1| = X 1 := abs_of_pos hr
  obtain ⟨g1, g2, g3, g4, g5, g6, g7⟩ := monopoleSph_algebraic P X ⟨hr.ne', hsn⟩ (by rwa [habs]) (by rwa [habs])
  obtain ⟨ar, alr, br, at', alt, bt⟩ := hg
  -- near X1 the absolute value is the identity
  have hev : ∀ᶠ t in nhds (X 1), |t| = t := (eventually_gt_nhds hr).mono fun t ht => abs_of_pos ht
  have lift : ∀ {f : ℝ → ℝ} {f' : ℝ}, HasDerivAt f f' (X 1) → HasDerivAt (fun t => f |t|) f' (X 1) := by
    intro f f' h
    exact h.congr_of_eventuallyEq (hev.mono fun t ht => by simp only [ht])
  have ar' := lift ar
  have alr' := lift alr
  have br' := lift br
  have id' := lift (hasDerivAt_id (X 1))
  have sq : HasDerivAt (fun t : ℝ => |t| * |t|) (2 * X 1) (X 1) := (id'.mul id').congr_deriv (by simp [habs]; ring)
  have ss : HasDerivAt (fun t : ℝ => sin t * sin t) (sin (2 * X 2)) (X 2) :=
    ((hasDerivAt_sin (X 2)).mul (hasDerivAt_sin (X 2))).congr_deriv (by rw [sin_two_mul]; ring)
  have t00 : HasDerivAt (fun t => -(P.alpha t (X 1) * P.alpha t (X 1)) + P.a t (X 1) * P.a t (X 1) * P.beta t (X 1) * P.beta t (X 1))
      (2 * P.a (X 0) (X 1) * P.beta (X 0) (X 1) * P.beta (X 0) (X 1) * P.dadt (X 0) (X 1) -
        2 * P.alpha (X 0) (X 1) * P.dalphadt (X 0) (X 1) +
        2 * P.a (X 0) (X 1) * P.a (X 0) (X 1) * P.beta (X 0) (X 1) * P.dbetadt (X 0) (X 1)) (X 0) :=
    (((alt.mul alt).neg).add (((at'.mul at').mul bt).mul bt)).congr_deriv (by simp; ring)
  have t01 : HasDerivAt (fun t => P.a t (X 1) * P.a t (X 1) * P.beta t (X 1))
      (2 * P.a (X 0) (X 1) * P.beta (X 0) (X 1) * P.dadt (X 0) (X 1) + P.a (X 0) (X 1) * P.a (X 0) (X 1) * P.dbetadt (X 0) (X 1)) (X 0) :=
    ((at'.mul at').mul bt).congr_deriv (by simp; ring)
  have t11 : HasDerivAt (fun t => P.a t (X 1) * P.a t (X 1)) (2 * P.a (X 0) (X 1) * P.dadt (X 0) (X 1)) (X 0) :=
    (at'.mul at').congr_deriv (by ring)
  have r00 : HasDerivAt (fun t => -(P.alpha (X 0) |t| * P.alpha (X 0) |t|) + P.a (X 0) |t| * P.a (X 0) |t| * P.beta (X 0) |t| * P.beta (X 0) |t|)
      (-(2 * P.alpha (X 0) (X 1) * P.dalphadr (X 0) (X 1)) + 2 * P.a (X 0) (X 1) * P.beta (X 0) (X 1) *
        (P.beta (X 0) (X 1) * P.dadr (X 0) (X 1) + P.a (X 0) (X 1) * P.dbetadr (X 0) (X 1))) (X 1) :=
    (((alr'.mul alr').neg).add (((ar'.mul ar').mul br').mul br')).congr_deriv (by simp [habs]; ring)
  have r01 : HasDerivAt (fun t => P.a (X 0) |t| * P.a (X 0) |t| * P.beta (X 0) |t|)
      (P.a (X 0) (X 1) * (2 * P.beta (X 0) (X 1) * P.dadr (X 0) (X 1) + P.a (X 0) (X 1) * P.dbetadr (X 0) (X 1))) (X 1) :=
    ((ar'.mul ar').mul br').congr_deriv (by simp [habs]; ring)
  have r11 : HasDerivAt (fun t => P.a (X 0) |t| * P.a (X 0) |t|) (2 * P.a (X 0) (X 1) * P.dadr (X 0) (X 1)) (X 1) :=
    (ar'.mul ar').congr_deriv (by simp [habs]; ring)
  have sq' : HasDerivAt (fun t : ℝ => t * t) (2 * X 1) (X 1) :=
    ((hasDerivAt_id (X 1)).mul (hasDerivAt_id (X 1))).congr_deriv (by simp; ring)
  have r33 : HasDerivAt (fun t : ℝ => t * t * sin (X 2) * sin (X 2)) (2 * X 1 * sin (X 2) * sin (X 2)) (X 1) :=
    (sq'.mul_const (sin (X 2))).mul_const (sin (X 2))
  have th33 : HasDerivAt (fun t : ℝ => X 1 * X 1 * sin t * sin t) (X 1 * X 1 * sin (2 * X 2)) (X 2) := by
    have := ss.const_mul (X 1 * X 1)
    simpa only [mul_assoc] using this
  refine ⟨g1, g2, g3, g4, g5, g6, ?_, ?_, g7⟩
  · intro m n sg
    have hsg : sg = 0 ∨ sg = 1 ∨ sg = 2 ∨ sg = 3 := by omega
    rcases hsg with rfl | rfl | rfl | rfl
    · fin_cases m <;> fin_cases n <;> simp [monopoleSph, sphDg, habs] <;>
        first | exact hasDerivAt_const _ _ | exact t00 | exact t01 | exact t11
    · fin_cases m <;> fin_cases n <;> simp [monopoleSph, sphDg, habs] <;>
        first | exact hasDerivAt_const _ _ | exact sq' | exact r00 | exact r01 | exact r11 | exact r33
    · fin_cases m <;> fin_cases n <;> simp [monopoleSph, sphDg, habs] <;>
        first | exact hasDerivAt_const _ _ | exact th33
    · fin_cases m <;> fin_cases n <;> simp [monopoleSph, sphDg, habs] <;> exact hasDerivAt_const _ _
  · intro sg
    have hsg : sg = 0 ∨ sg = 1 ∨ sg = 2 ∨ sg = 3 := by omega
    rcases hsg with rfl | rfl | rfl | rfl
    · simp [monopoleSph, habs]; exact alt.log hal.ne'
    · simp [monopoleSph, habs]
      exact (alr'.log (by rw [habs]; exact hal.ne')).congr_deriv (by rw [habs])
    · simp [monopoleSph]; exact hasDerivAt_const _ _
    · simp [monopoleSph]; exact hasDerivAt_const _ _

/-- **C43** With the flat profiles the metric is the spherical Minkowski metric. -/
theorem monopoleSph_flat (small : ℝ) (X : Fin 4 → ℝ) :
    (monopoleSph small ⟨fun _ _ => 1, fun _ _ => 0, fun _ _ => 1, fun _ _ => 0, fun _ _ => 0, fun _ _ => 0,
      fun _ _ => 0, fun _ _ => 0, fun _ _ => 0⟩).g X = (sphMinkowski small).g X := by
  funext m n
  fin_cases m <;> fin_cases n <;> simp [monopoleSph, sphMinkowski, mul_assoc]

/-- **C43** The radial constraint solved for `a` is the Misner–Sharp relation: for any mass function with `m' = 4 π r² ρ`, the
function `a = (1 - 2m/r)^(-1/2)` satisfies it at zero extrinsic curvature, outside its horizon. -/
theorem misner_sharp (m rho : ℝ → ℝ) (r : ℝ) (hr : 0 < r) (hm : HasDerivAt m (4 * π * r ^ 2 * rho r) r) (hh : 2 * m r < r) :
    HasDerivAt (fun s => 1 / √(1 - 2 * m s / s)) (aRHS 0 π (1 / √(1 - 2 * m r / r)) 0 r (rho r)) r := by
  have hr0 := hr.ne'
  have hpos : 0 < 1 - 2 * m r / r := by rw [sub_pos, div_lt_one hr]; exact hh
  have h1 : HasDerivAt (fun s => 1 - 2 * m s / s) (-((2 * (4 * π * r ^ 2 * rho r)) * r - 2 * m r * 1) / r ^ 2) r := by
    have := ((hm.const_mul 2).div (hasDerivAt_id r) hr0).const_sub 1
    exact this.congr_deriv (by simp; ring)
  have h2 := h1.sqrt hpos.ne'
  have hs : 0 < √(1 - 2 * m r / r) := sqrt_pos.2 hpos
  have h3 := (hasDerivAt_const r (1:ℝ)).div h2 hs.ne'
  refine h3.congr_deriv ?_
  have hsq : √(1 - 2 * m r / r) ^ 2 = 1 - 2 * m r / r := sq_sqrt hpos.le
  have hmr : m r = (1 - √(1 - 2 * m r / r) ^ 2) * r / 2 := by rw [hsq]; field_simp; ring
  generalize √(1 - 2 * m r / r) = w at *
  rw [hmr]
  unfold aRHS
  simp only [gt_iff_lt, hr, if_true, Robust.ratio]
  have hw := hs.ne'
  simp only [mul_zero, add_zero]
  field_simp
  ring

/-- a Schwarzschild exterior meets the hypotheses of the previous theorem. -/
example : HasDerivAt (fun s : ℝ => 1 / √(1 - 2 * 1 / s)) (aRHS 0 π (1 / √(1 - 2 * 1 / 4)) 0 4 0) 4 :=
  misner_sharp (fun _ => 1) (fun _ => 0) 4 (by norm_num) (by simpa using hasDerivAt_const (4:ℝ) (1:ℝ)) (by norm_num)

/-- a genuinely curved, time-dependent profile meets the hypotheses of `monopoleSph_good`. -/
example : Good (monopoleSph 0 ⟨fun t r => 1 + r ^ 2 + t, fun t _ => t, fun _ r => 1 + r, fun _ _ => 1, fun _ r => 2 * r, fun _ _ => 0,
    fun _ _ => 0, fun _ _ => 1, fun _ _ => 1⟩) ![1, 2, π / 2, 0] := by
  refine monopoleSph_good _ _ ⟨by simp, by simp⟩ (by simp; norm_num) (by simp; norm_num) ⟨?_, ?_, ?_, ?_, ?_, ?_⟩ <;> simp
  · exact (hasDerivAt_id _).const_add 1
  · exact (hasDerivAt_pow 2 (2:ℝ)).congr_deriv (show _ = (2:ℝ) * 2 by norm_num)
  · exact hasDerivAt_const _ _
  · exact hasDerivAt_const _ _
  · exact (hasDerivAt_id _).const_add _
  · exact hasDerivAt_id _

end Phoebus.Monopole
