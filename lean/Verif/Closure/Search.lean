import Verif.Closure.Axes
import Verif.Closure.M1

/-!
# The M1 closure from conserved moments (model), and C145 for it

`/repo/src/radiation/closure_m1.hpp:75-88, 180-295`: `GetConTilPiFromCon`, `SolveClosure`, `M1Residuals` with all their parts.
-/
namespace Phoebus.Closure
open Finset Geom Robust Rel LinAlg

/-! ### Model -/

/-- constants: `small` of `robust::ratio`, `tiny = 1.e3*min`, `eps10 = 10*epsilon`, `eps`, `delta`, `tol` of `SolveClosure` (closure_m1.hpp:185-188), `SMALL` of `Con2Prim`. -/
structure M1Const where
  small : ℝ
  tiny : ℝ
  eps10 : ℝ
  eps : ℝ
  delta : ℝ
  tol : ℝ
  SMALL : ℝ

/-- the normalised flux, closure_m1.hpp:190-193. -/
noncomputable def normFlux (C : M1Const) (E : ℝ) (F : Vec) : Vec := fun i => ratio C.small (F i) E + C.tiny * (sgn (F i) : ℝ)

/-- `M1Residuals`, closure_m1.hpp:270-295, with `E = 1` (line 194). -/
noncomputable def m1Residuals (C : M1Const) (num rob : Bool) (G : ADM ℝ) (v F g d : Vec) (xi phi : ℝ) : ℝ × ℝ :=
  let f := angleDir g d phi
  let r := con2prim C.small num rob C.SMALL G v (tilPi G v xi f) 1 F
  m1ResidualOf C.small G v f xi r.2.1 r.2.2

/-- the finite-difference Jacobian, closure_m1.hpp:213-226. -/
noncomputable def m1Jac (C : M1Const) (res : ℝ → ℝ → ℝ × ℝ) (xi phi : ℝ) : Fin 2 → Fin 2 → ℝ :=
  let xu := min (xi * (1 + C.eps) + C.delta) 1
  let xl := max (xi * (1 - C.eps) - C.delta) 0
  let pu := phi * (1 + C.eps) + C.delta
  let pl := phi * (1 - C.eps) - C.delta
  ![![((res xu phi).1 - (res xl phi).1) / (xu - xl), ((res xi pu).1 - (res xi pl).1) / (pu - pl)],
    ![((res xu phi).2 - (res xl phi).2) / (xu - xl), ((res xi pu).2 - (res xi pl).2) / (pu - pl)]]

/-- `GetConTilPiFromCon`, closure_m1.hpp:75-88: status, state of the search, pressure tensor.  The search works with the basis of the normalised flux (line 198), the
result is built with the basis of the flux itself (lines 86, 136-137). -/
noncomputable def tilPiFromCon (C : M1Const) (num rob : Bool) (G : ADM ℝ) (v : Vec) (E0 : ℝ) (F : Vec) (xi phi : ℝ) : Status × NR × Tens2 :=
  let E := if num = true then E0 / W G v + cc v F else E0
  let Fn := normFlux C E F
  let b := basis C.small C.eps10 G v Fn
  let res := m1Residuals C num rob G v Fn b.1 b.2
  let r := solveClosure C.small C.delta C.tol res (m1Jac C res) xi phi
  let b' := basis C.small C.eps10 G v F
  (r.1, r.2, tilPi G v r.2.xi (angleDir b'.1 b'.2 r.2.phi))

/-! ### the finite-difference Jacobian -/

/-- The Jacobian of the search is exact for residuals that are affine in the flux factor and the angle, and only looks at flux factors between zero and one (the
differences are one-sided at the ends). -/
theorem jac_secant (C : M1Const) (he : 0 ≤ C.eps) (hd : 0 < C.delta) {xi phi : ℝ} (h0 : 0 < xi) (h1 : xi < 1) (hp : 0 ≤ phi) :
    (∀ res : ℝ → ℝ → ℝ × ℝ, ∀ a b c a' b' c' : ℝ, (∀ x y, res x y = (a * x + b * y + c, a' * x + b' * y + c')) → m1Jac C res xi phi = ![![a, b], ![a', b']]) ∧
    ∀ res res' : ℝ → ℝ → ℝ × ℝ, (∀ x y, 0 ≤ x → x ≤ 1 → res x y = res' x y) → m1Jac C res xi phi = m1Jac C res' xi phi := by
  have hu : xi < min (xi * (1 + C.eps) + C.delta) 1 := lt_min (by nlinarith) h1
  have hl : max (xi * (1 - C.eps) - C.delta) 0 < xi := max_lt (by nlinarith) h0
  have hpp : (phi * (1 + C.eps) + C.delta) - (phi * (1 - C.eps) - C.delta) ≠ 0 := by nlinarith
  constructor
  · intro res a b c a' b' c' h
    simp only [m1Jac, h]
    set xu := min (xi * (1 + C.eps) + C.delta) 1
    set xl := max (xi * (1 - C.eps) - C.delta) 0
    have hx : xu - xl ≠ 0 := by linarith
    have e : ∀ k x y z : ℝ, y - x ≠ 0 → (k * y + z - (k * x + z)) / (y - x) = k := by
      intro k x y z hne; rw [div_eq_iff hne]; ring
    have e1 : ∀ A B c : ℝ, (A * xu + B * phi + c - (A * xl + B * phi + c)) / (xu - xl) = A := by
      intro A B c; rw [div_eq_iff hx]; ring
    have e2 : ∀ A B c : ℝ, (A * xi + B * (phi * (1 + C.eps) + C.delta) + c - (A * xi + B * (phi * (1 - C.eps) - C.delta) + c)) /
        ((phi * (1 + C.eps) + C.delta) - (phi * (1 - C.eps) - C.delta)) = B := by
      intro A B c; rw [div_eq_iff hpp]; ring
    rw [e1, e1, e2, e2]
  · intro res res' h
    simp only [m1Jac]
    rw [h _ _ (by linarith) (min_le_right _ _), h _ _ (le_max_right _ _) (by linarith), h xi _ h0.le h1.le, h xi _ h0.le h1.le]

/-! ### C145 -/

variable (A : Axes) (G : ADM ℝ)

/-- no axis along which the flux vanishes is reversed. -/
def Axes.Clear (F : Vec) : Prop := ∀ i, A.s i = 1 ∨ F (A.σ i) ≠ 0

theorem sgn_odd (x : ℝ) (h : x ≠ 0) : (sgn (-x) : ℝ) = -(sgn x : ℝ) := by
  unfold sgn
  rcases lt_or_gt_of_ne h with h | h
  · rw [if_pos (by linarith), if_neg (by linarith), if_neg (by linarith), if_pos h]; norm_num
  · rw [if_neg (by linarith), if_pos (by linarith), if_pos h.le, if_neg (by linarith)]; norm_num

theorem normFlux_axes (C : M1Const) (E : ℝ) (F : Vec) (hF : A.Clear F) : normFlux C E (A.vec F) = A.vec (normFlux C E F) := by
  funext i
  unfold normFlux Axes.vec
  rw [ratio_lin]
  have : (sgn (A.s i * F (A.σ i)) : ℝ) = A.s i * (sgn (F (A.σ i)) : ℝ) := by
    rcases A.sign i with e | e
    · rw [e, one_mul, one_mul]
    · rcases hF i with h | h
      · rw [h, one_mul, one_mul]
      · rw [e, neg_one_mul, neg_one_mul, sgn_odd _ h]
  rw [this]; ring

theorem m1Residuals_axes (C : M1Const) (num rob : Bool) (v F g d : Vec) :
    m1Residuals C num rob (A.geo G) (A.vec v) (A.vec F) (A.vec g) (A.vec d) = m1Residuals C num rob G v F g d := by
  funext xi phi
  unfold m1Residuals
  simp only [angleDir_axes, tilPi_axes, con2prim_axes]
  exact residual_axes A G _ _ _ _ _ _

/-- **C145** the M1 closure from the conserved moments: same status, same search, the tensor in the new description - unless an axis is reversed along which the flux vanishes. -/
theorem fromCon_axes (C : M1Const) (num rob : Bool) (v : Vec) (E : ℝ) (F : Vec) (hF : A.Clear F) (xi phi : ℝ) :
    tilPiFromCon C num rob (A.geo G) (A.vec v) E (A.vec F) xi phi =
      ((tilPiFromCon C num rob G v E F xi phi).1, (tilPiFromCon C num rob G v E F xi phi).2.1, A.ten (tilPiFromCon C num rob G v E F xi phi).2.2) := by
  unfold tilPiFromCon
  simp only [W_axes, cc_axes, normFlux_axes A C _ F hF, basis_axes, m1Residuals_axes, angleDir_axes, tilPi_axes]

/-- **C145** the condition is needed: with no flux at all in a gas moving along an axis the search of the reflected problem is not the reflected search.  Its trial direction (at
the angle `pi`, the only one used: `solve_closure_angle_fixed`) has a component across the motion - which is larger when the gas moves to the right - although nothing in the problem
singles out that direction; so has the trial pressure tensor. -/
theorem fromCon_not_mirror (C : M1Const) (hs : 0 < C.small) (ht : 0 < C.tiny) (E w : ℝ) (hw : 0 < w) (hw1 : w < 1) :
    let dir := fun v : Vec => let b := basis C.small C.eps10 C2P.flat v (normFlux C E 0); angleDir b.1 b.2 Real.pi
    let P := fun v : Vec => tilPi C2P.flat v 1 (dir v)
    0 < dir ![-w, 0, 0] 1 ∧ dir ![-w, 0, 0] 1 < dir ![w, 0, 0] 1 ∧ dir ![w, 0, 0] 1 = dir ![w, 0, 0] 2 ∧ P ![-w, 0, 0] 1 1 < P ![w, 0, 0] 1 1 := by
  intro dir P
  have hF : normFlux C E 0 = fun _ => C.tiny := by
    funext i; simp [normFlux, ratio, sgn]
  have hr : raise C2P.flat (fun _ => C.tiny) = fun _ => C.tiny := by
    funext i; simp [raise, C2P.flat]
  have hlow : ∀ v, lower C2P.flat v = v := by intro v; funext i; simp [lower, C2P.flat]
  set m := Real.sqrt (cc (fun _ => C.tiny) fun _ => C.tiny) with hm
  have hmt : C.tiny ≤ m := by
    rw [hm]
    apply Real.le_sqrt_of_sq_le
    simp only [cc, Fin.sum_univ_three]; nlinarith
  have hm0 : 0 < m := lt_of_lt_of_le ht hmt
  have hW : W C2P.flat ![-w, 0, 0] = W C2P.flat ![w, 0, 0] := by
    unfold W v2; rw [hlow, hlow]; simp [cc, Fin.sum_univ_three]
  have hWp : 0 < W C2P.flat ![w, 0, 0] := by
    unfold W
    apply one_div_pos.2
    apply Real.sqrt_pos.2
    have : v2 C2P.flat ![w, 0, 0] ≤ 0.9999 := min_le_right _ _
    norm_num at this ⊢; linarith
  set k := C.tiny / (m + C.small) with hk
  have hk0 : 0 < k := by positivity
  have hk1 : k < 1 := by rw [hk, div_lt_one (by positivity)]; linarith
  have hdir : ∀ x : ℝ, |x| < 1 → ∀ i : Fin 3, dir ![x, 0, 0] i = k * (1 / (W C2P.flat ![x, 0, 0] * (1 - k * x) + C.small)) - W C2P.flat ![x, 0, 0] * (![x, 0, 0] : Vec) i := by
    intro x hx i
    have hWx : 0 < W C2P.flat ![x, 0, 0] := by
      unfold W
      apply one_div_pos.2
      apply Real.sqrt_pos.2
      have : v2 C2P.flat ![x, 0, 0] ≤ 0.9999 := min_le_right _ _
      norm_num at this ⊢; linarith
    have hkx : 0 ≤ 1 - k * x := by
      have := (abs_lt.1 hx).2
      nlinarith [(abs_lt.1 hx).1]
    show angleDir _ _ Real.pi i = _
    simp only [angleDir, Real.cos_pi, Real.sin_pi, neg_neg, one_mul, zero_mul, add_zero, basis, hF, hr]
    rw [← hm]
    have e1 : ratio C.small (cc (fun _ => C.tiny) ![x, 0, 0]) m = k * x := by
      unfold ratio; rw [if_pos hm0.le, hk]; simp [cc, Fin.sum_univ_three]; ring
    rw [e1]
    have e2 : ratio C.small 1 (W C2P.flat ![x, 0, 0] * (1 - k * x)) = 1 / (W C2P.flat ![x, 0, 0] * (1 - k * x) + C.small) := by
      unfold ratio; rw [if_pos (by positivity)]; simp only [one_mul]
    rw [e2]
    have e3 : ∀ y, ratio C.small (C.tiny * y) m = k * y := by
      intro y; unfold ratio; rw [if_pos hm0.le, hk]; ring
    rw [e3]
  have ha : |w| < 1 := by rw [abs_of_pos hw]; exact hw1
  have ha' : |-w| < 1 := by rw [abs_neg]; exact ha
  have d1 : dir ![w, 0, 0] 1 = k * (1 / (W C2P.flat ![w, 0, 0] * (1 - k * w) + C.small)) := by rw [hdir w ha]; simp
  have d2 : dir ![w, 0, 0] 2 = k * (1 / (W C2P.flat ![w, 0, 0] * (1 - k * w) + C.small)) := by rw [hdir w ha]; simp
  have d3 : dir ![-w, 0, 0] 1 = k * (1 / (W C2P.flat ![w, 0, 0] * (1 + k * w) + C.small)) := by rw [hdir (-w) ha', hW]; simp
  have hkw : 0 < k * w := by positivity
  have hkw1 : k * w < 1 := by nlinarith
  have p1 : 0 < W C2P.flat ![w, 0, 0] * (1 - k * w) + C.small := by
    have : 0 < 1 - k * w := by linarith
    positivity
  have h1 : 0 < dir ![-w, 0, 0] 1 := by rw [d3]; positivity
  have h2 : dir ![-w, 0, 0] 1 < dir ![w, 0, 0] 1 := by
    rw [d1, d3]
    apply mul_lt_mul_of_pos_left _ hk0
    apply one_div_lt_one_div_of_lt p1
    nlinarith
  refine ⟨h1, h2, by rw [d1, d2], ?_⟩
  have hat : athin 1 = 1 := by unfold athin eddFactor; norm_num
  show (dir ![-w, 0, 0] 1 * dir ![-w, 0, 0] 1 - _) * athin 1 < (dir ![w, 0, 0] 1 * dir ![w, 0, 0] 1 - _) * athin 1
  rw [hat]
  simp only [mul_one, Matrix.cons_val_one, Matrix.cons_val_zero, mul_zero, zero_add]
  nlinarith

end Phoebus.Closure
