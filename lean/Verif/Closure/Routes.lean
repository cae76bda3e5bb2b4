import Verif.Closure.Search
import Verif.Closure.Fluxes

/-!
# The two routes to the M1 pressure tensor (C149)

The M1 closure gives a pressure tensor either from the rest-frame moments (`GetConTilPiFromPrim`) or, by a root search, from the conserved
moments (`GetConTilPiFromCon`).  Where do they agree?  Here the regularisers of the code (`robust::SMALL`, `1.e3*min`, `10*epsilon` under a root)
are zero, its step sizes and tolerances are arbitrary.
-/
namespace Phoebus.Closure
open Finset Geom Robust Rel LinAlg

/-- The constants of the search with the regularisers set to zero and positive step sizes. -/
structure Ideal (C : M1Const) : Prop where
  small : C.small = 0
  tiny : C.tiny = 0
  eps10 : C.eps10 = 0
  eps : 0 ≤ C.eps
  delta0 : 0 < C.delta
  delta1 : C.delta < 1 / 2
  tol : 0 ≤ C.tol

theorem hsq_scale (G : ADM ℝ) (v H : Vec) (t : ℝ) : hsq G v (fun i => H i * t) = t ^ 2 * hsq G v H := by
  simp only [hsq, ccov, cc, Fin.sum_univ_three]; ring

theorem sqrt_scale (G : ADM ℝ) (v H : Vec) {t : ℝ} (ht : 0 ≤ t) : Real.sqrt (hsq G v fun i => H i * t) = t * Real.sqrt (hsq G v H) := by
  rw [hsq_scale, Real.sqrt_mul (sq_nonneg _), Real.sqrt_sq ht]

/-- the linear part of the inversion is linear in the conserved moments (energy equation). -/
theorem raw_scale (G : ADM ℝ) (v : Vec) (Pi : Tens2) (E : ℝ) (F : Vec) (t : ℝ) :
    con2primRaw 0 false G v Pi (E * t) (fun i => F i * t) = ((con2primRaw 0 false G v Pi E F).1 * t, fun i => (con2primRaw 0 false G v Pi E F).2 i * t) := by
  have e : cc v (fun i => F i * t) = cc v F * t := by simp only [cc, Fin.sum_univ_three]; ring
  simp only [con2primRaw, ratio_zero, Bool.false_eq_true, if_false, e]
  refine Prod.ext (by ring) (funext fun i => ?_)
  dsimp only
  ring

/-- the basis of the search depends on the direction of the flux only. -/
theorem basis_scale (G : ADM ℝ) (v F : Vec) {t : ℝ} (ht : 0 < t) : basis 0 0 G v (fun i => F i * t) = basis 0 0 G v F := by
  have e1 : raise G (fun i => F i * t) = fun i => raise G F i * t := by
    funext i; simp only [raise, Fin.sum_univ_three]; ring
  have e2 : cc (fun i => F i * t) (fun i => raise G F i * t) = t ^ 2 * cc F (raise G F) := by simp only [cc, Fin.sum_univ_three]; ring
  have e3 : cc (fun i => F i * t) v = t * cc F v := by simp only [cc, Fin.sum_univ_three]; ring
  have e4 : Real.sqrt (t ^ 2 * cc F (raise G F)) = t * Real.sqrt (cc F (raise G F)) := by
    rw [Real.sqrt_mul (sq_nonneg _), Real.sqrt_sq ht.le]
  have e5 : ∀ x y : ℝ, x * t / (t * y) = x / y := fun x y => by rw [mul_comm x t]; exact mul_div_mul_left x y ht.ne'
  have e6 : ∀ x y : ℝ, t * x / (t * y) = x / y := fun x y => mul_div_mul_left x y ht.ne'
  unfold basis
  simp only [ratio_zero, e1, e2, e3, e4, e6]
  refine Prod.ext (funext fun i => ?_) (funext fun i => ?_)
  · dsimp only
    rw [mul_right_comm, e5]
  · dsimp only
    rw [e5]

theorem angle_pi (g d : Vec) : angleDir g d Real.pi = g := by
  funext i; simp [angleDir]

/-- the tensor does not see the sign of the direction. -/
theorem tilPi_sign (G : ADM ℝ) (v : Vec) (xi : ℝ) (f : Vec) {s : ℝ} (hs : s = 1 ∨ s = -1) : tilPi G v xi (fun i => s * f i) = tilPi G v xi f := by
  funext i j
  unfold tilPi
  rcases hs with rfl | rfl <;> ring

theorem check_ok (rob : Bool) (SMALL : ℝ) (G : ADM ℝ) (v : Vec) {J : ℝ} {H : Vec} (hq : 0 ≤ hsq G v H) (hJ : 0 < J) (hx : Real.sqrt (hsq G v H) < J) :
    con2primCheck rob SMALL G v J H = (Status.success, J, H) := by
  simp only [con2primCheck]
  rw [if_neg (by push Not; exact ⟨hq, fun h => absurd h hJ.ne'⟩),
    if_neg (by push Not; exact ⟨hJ.le, hJ.ne', by rw [div_lt_one hJ]; exact hx⟩)]

/-- a root given as guess is returned at once. -/
theorem search_at_root {C : M1Const} (hC : Ideal C) (res : ℝ → ℝ → ℝ × ℝ) (jac : ℝ → ℝ → Fin 2 → Fin 2 → ℝ) {xi : ℝ} (h0 : 0 < xi) (h1 : xi < 1)
    (hr : (res xi Real.pi).1 = 0) (phi : ℝ) :
    solveClosure C.small C.delta C.tol res jac xi phi = (Status.success, ⟨xi, Real.pi, 0, 0, 1⟩) := by
  have ht := hC.tol
  have hs : nrStep C.small C.delta 30 res jac ⟨xi, Real.pi, 1000, 1000, 0⟩ = ⟨xi, Real.pi, 0, 0, 1⟩ := by
    simp [nrStep, hr]
  have hl : nrLoop C.small C.delta C.tol 30 res jac 30 ⟨xi, Real.pi, 1000, 1000, 0⟩ = ⟨xi, Real.pi, 0, 0, 1⟩ := by
    rw [nrLoop]
    simp only [hs, abs_zero]
    rw [if_neg (by push Not; intro _; exact ⟨ht, ht⟩)]
  unfold solveClosure
  rw [hl]; simp

/-- **C149** (energy equation, partial) Take rest-frame moments with a positive energy and a flux factor strictly between 0 and 1 whose flux direction
is, up to its sign, the direction in which the search looks.  Then from their conserved moments, with their flux factor as first guess, the
search succeeds, keeps that flux factor and gives the pressure tensor which the other route gives.

Full property: for all admissible moments both routes give the same tensor.  Missing: the search looks in one direction only
(`routes_disagree_across`); and in the number equation the energy is converted twice (`number_route_wrong`). -/
theorem routes_agree_partial {C : M1Const} (hC : Ideal C) {G : ADM ℝ} (hG : G.Valid) (hp : PosDef G) {v : Vec} (hs : Slow G v) (rob : Bool) {J : ℝ} {H : Vec}
    (hJ : 0 < J) (hq : 0 < hsq G v H) (hx : Real.sqrt (hsq G v H) < J) (phi : ℝ) :
    let Pi := tilPiFromPrim 0 G v J H
    let E := (prim2con false G v Pi J H).1
    let F := (prim2con false G v Pi J H).2
    let xi := Real.sqrt (hsq G v H) / J
    0 < E → lam G v Pi ≠ 0 → (∃ s : ℝ, (s = 1 ∨ s = -1) ∧ (basis 0 0 G v F).1 = fun i => s * fluxDir 0 G v H i) →
      tilPiFromCon C false rob G v E F xi phi = (Status.success, ⟨xi, Real.pi, 0, 0, 1⟩, Pi) := by
  intro Pi E F xi hE hl ⟨s, hs1, hdir⟩
  have hq0 := Real.sqrt_pos.2 hq
  have hx0 : 0 < xi := div_pos hq0 hJ
  have hx1 : xi < 1 := (div_lt_one hJ).2 hx
  have hff : fluxFactor 0 G v J H = xi := (flux_factor_range hG v J H).2.1 hJ (by
    have := Real.sq_sqrt hq.le
    nlinarith)
  have hPi : ∀ d, tilPi G v xi (angleDir (basis 0 0 G v F).1 d Real.pi) = Pi := by
    intro d
    rw [angle_pi, hdir, tilPi_sign G v xi _ hs1, ← hff]
    rfl
  have hn : normFlux C E F = fun i => F i * (1 / E) := by
    funext i
    simp only [normFlux, hC.small, hC.tiny, ratio_zero]; ring
  have hb : basis 0 0 G v (fun i => F i * (1 / E)) = basis 0 0 G v F := basis_scale G v F (by positivity)
  have hraw : con2primRaw 0 false G v Pi 1 (fun i => F i * (1 / E)) = (J * (1 / E), fun i => H i * (1 / E)) := by
    have h1 := raw_scale G v Pi E F (1 / E)
    rw [mul_one_div_cancel hE.ne'] at h1
    rw [h1, con2prim_prim2con_raw hG hs Pi hl]
  have hroot : (m1Residuals C false rob G v (fun i => F i * (1 / E)) (basis 0 0 G v F).1 (basis 0 0 G v F).2 xi Real.pi).1 = 0 := by
    have e := sqrt_scale G v H (t := 1 / E) (by positivity)
    simp only [m1Residuals, hC.small, hPi, con2prim, hraw]
    rw [check_ok rob C.SMALL G v (by rw [hsq_scale]; positivity) (by positivity) (by
      rw [e]; rw [mul_comm]; exact mul_lt_mul_of_pos_right hx (by positivity))]
    simp only [m1ResidualOf, ratio_zero]
    rw [← hsq, e, sub_eq_zero]
    simp only [xi]
    field_simp
  unfold tilPiFromCon
  simp only [Bool.false_eq_true, if_false, hn]
  have hb1 : basis C.small C.eps10 G v F = basis 0 0 G v F := by rw [hC.small, hC.eps10]
  have hb2 : basis C.small C.eps10 G v (fun i => F i * (1 / E)) = basis 0 0 G v F := by rw [hC.small, hC.eps10, hb]
  rw [hb1, hb2, search_at_root hC _ _ hx0 hx1 hroot phi]
  simp only [hPi]

/-! ### flux along the motion -/

theorem lower_cc {G : ADM ℝ} (v : Vec) (h : ℝ) : cc v (fun i => h * lower G v i) = h * G.dot3 v v := by
  rw [← cc_lower]; simp only [cc, Fin.sum_univ_three]; ring

theorem raise_lower' {G : ADM ℝ} (hG : G.Valid) (v : Vec) : raise G (lower G v) = v := by
  funext i
  have : raise G (lower G v) i = ∑ k, (∑ j, G.gam k j * G.gamInv j i) * v k := by
    simp only [raise, lower, Fin.sum_univ_three, hG.symm 1 0, hG.symm 2 0, hG.symm 2 1, hG.symmInv i 0, hG.symmInv i 1, hG.symmInv i 2]
    ring
  rw [this]; simp only [hG.inv]; simp

theorem ccov_lower {G : ADM ℝ} (hG : G.Valid) (v : Vec) (h : ℝ) : ccov G (fun i => h * lower G v i) (fun i => h * lower G v i) = h ^ 2 * G.dot3 v v := by
  have e : ccov G (fun i => h * lower G v i) (fun i => h * lower G v i) = h ^ 2 * cc (lower G v) (raise G (lower G v)) := by
    rw [ccov_eq]; simp only [cc, raise, Fin.sum_univ_three]; ring
  rw [e, raise_lower' hG, cc_comm, cc_lower]

theorem hsq_along {G : ADM ℝ} (hG : G.Valid) {v : Vec} (hs : Slow G v) (h : ℝ) :
    hsq G v (fun i => h * lower G v i) = h ^ 2 * (G.dot3 v v / W G v ^ 2) := by
  have hw := (W_pos (G := G) (v := v)).ne'
  unfold hsq
  rw [ccov_lower hG, lower_cc, dot_W hs]
  field_simp
  ring

/-- the direction of a flux along the motion. -/
theorem dir_along {G : ADM ℝ} (hG : G.Valid) {v : Vec} (hs : Slow G v) (hv : 0 < G.dot3 v v) {h : ℝ} (hh : h ≠ 0) :
    fluxDir 0 G v (fun i => h * lower G v i) = fun i => h / |h| * (W G v * v i / Real.sqrt (G.dot3 v v)) := by
  have hw := W_pos (G := G) (v := v)
  have e : cc (fun i => h * lower G v i) (raise G fun i => h * lower G v i) - cc (fun i => h * lower G v i) v ^ 2 = hsq G v (fun i => h * lower G v i) := by
    rw [hsq, ccov_eq, cc_comm v]
  have er : raise G (fun i => h * lower G v i) = fun i => h * v i := by
    funext i
    have : raise G (fun i => h * lower G v i) i = h * raise G (lower G v) i := by simp only [raise, Fin.sum_univ_three]; ring
    rw [this, raise_lower' hG]
  rw [er] at e
  funext i
  simp only [fluxDir, ratio_zero, er, e]
  have hsr : Real.sqrt (hsq G v fun i => h * lower G v i) = |h| * (Real.sqrt (G.dot3 v v) / W G v) := by
    rw [hsq_along hG hs, Real.sqrt_mul (sq_nonneg _), Real.sqrt_sq_eq_abs, Real.sqrt_div hv.le, Real.sqrt_sq hw.le]
  rw [hsr]
  have h1 := abs_pos.2 hh
  have h2 := Real.sqrt_pos.2 hv
  field_simp

/-- the search direction for a conserved flux along the motion. -/
theorem basis_along {G : ADM ℝ} (hG : G.Valid) {v : Vec} (hs : Slow G v) (hv : 0 < G.dot3 v v) {l : ℝ} (hl : l ≠ 0) :
    (basis 0 0 G v (fun i => l * lower G v i)).1 = fun i => l / |l| * (W G v * v i / Real.sqrt (G.dot3 v v)) := by
  have hw := W_pos (G := G) (v := v)
  have h2 := Real.sqrt_pos.2 hv
  have hsq2 : Real.sqrt (G.dot3 v v) ^ 2 = G.dot3 v v := Real.sq_sqrt hv.le
  have hW := W_sq hs
  have er : raise G (fun i => l * lower G v i) = fun i => l * v i := by
    funext i
    have : raise G (fun i => l * lower G v i) i = l * raise G (lower G v) i := by simp only [raise, Fin.sum_univ_three]; ring
    rw [this, raise_lower' hG]
  have hm : Real.sqrt (cc (fun i => l * lower G v i) (raise G fun i => l * lower G v i)) = |l| * Real.sqrt (G.dot3 v v) := by
    rw [← ccov_eq, ccov_lower hG, Real.sqrt_mul (sq_nonneg _), Real.sqrt_sq_eq_abs]
  have hc : cc (fun i => l * lower G v i) v = l * G.dot3 v v := by rw [cc_comm, lower_cc]
  rw [er] at hm
  funext i
  simp only [basis, ratio_zero, er, hm, hc]
  set r := Real.sqrt (G.dot3 v v) with hr
  rw [← hsq2] at hW ⊢
  have hr1 : r < 1 := by
    have : r ^ 2 < 1 := by unfold Slow at hs; rw [hsq2]; norm_num at hs ⊢; linarith
    nlinarith
  have hla := abs_pos.2 hl
  rcases abs_cases l with ⟨e, _⟩ | ⟨e, _⟩
  · rw [e]
    have h1 : 1 - r ≠ 0 := by linarith
    field_simp
    linear_combination (-(v i)) * hW
  · rw [e]
    have h1 : 1 + r ≠ 0 := by linarith
    rw [show l * r ^ 2 / (-l * r) = -r by field_simp, sub_neg_eq_add]
    field_simp
    linear_combination (v i) * hW

/-- the projected pressure of a flux along the motion is along the motion. -/
theorem covVPi_along {G : ADM ℝ} (hG : G.Valid) {v : Vec} (hs : Slow G v) (hv : 0 < G.dot3 v v) (xi s : ℝ) (h1 : s = 1 ∨ s = -1) (i : Fin 3) :
    covVPi G v (tilPi G v xi fun i => s * (W G v * v i / Real.sqrt (G.dot3 v v))) i = 2 / 3 * W G v ^ 2 * athin xi * lower G v i := by
  have hw := W_pos (G := G) (v := v)
  have h2 := Real.sqrt_pos.2 hv
  have hsq2 : Real.sqrt (G.dot3 v v) ^ 2 = G.dot3 v v := Real.sq_sqrt hv.le
  have hW := W_sq hs
  rw [tilPi_sign G v xi _ h1]
  have hd : ∑ j, lower G v j * v j = G.dot3 v v := by rw [← cc_lower, cc_comm]; rfl
  have hr : ∀ j, ∑ k, lower G v k * G.gamInv j k = v j := by
    intro j
    have := congrFun (raise_lower' hG v) j
    simp only [raise] at this
    exact this
  have hc : ∀ j, conVPi G v (tilPi G v xi fun i => W G v * v i / Real.sqrt (G.dot3 v v)) j = 2 / 3 * W G v ^ 2 * athin xi * v j := by
    intro j
    have e : conVPi G v (tilPi G v xi fun i => W G v * v i / Real.sqrt (G.dot3 v v)) j =
        (W G v ^ 2 / Real.sqrt (G.dot3 v v) ^ 2 * v j * (∑ k, lower G v k * v k) -
          (W G v ^ 2 * v j * (∑ k, lower G v k * v k) + ∑ k, lower G v k * G.gamInv j k) / 3) * athin xi := by
      simp only [conVPi, tilPi, W2, Fin.sum_univ_three]
      ring
    rw [e, hd, hr, hsq2]
    have : W G v ^ 2 / G.dot3 v v * v j * G.dot3 v v = W G v ^ 2 * v j := by field_simp
    rw [this]
    linear_combination (1 / 3 * v j * athin xi) * hW
  unfold covVPi
  simp only [lower, hc, Fin.sum_univ_three]
  ring

/-- **C149** For a flux along the motion of the gas, forward or backward, the two routes agree in every metric, as soon as the conserved energy is
positive, the conserved flux and the determinant of the inversion do not vanish. -/
theorem routes_agree_along {C : M1Const} (hC : Ideal C) {G : ADM ℝ} (hG : G.Valid) (hp : PosDef G) {v : Vec} (hs : Slow G v) (hv : 0 < G.dot3 v v) (rob : Bool)
    {J h : ℝ} (hJ : 0 < J) (hh : h ≠ 0) (hx : Real.sqrt (hsq G v fun i => h * lower G v i) < J) (phi : ℝ) :
    let H : Vec := fun i => h * lower G v i
    let Pi := tilPiFromPrim 0 G v J H
    let E := (prim2con false G v Pi J H).1
    let F := (prim2con false G v Pi J H).2
    let xi := Real.sqrt (hsq G v H) / J
    0 < E → lam G v Pi ≠ 0 → F ≠ 0 → tilPiFromCon C false rob G v E F xi phi = (Status.success, ⟨xi, Real.pi, 0, 0, 1⟩, Pi) := by
  intro H Pi E F xi hE hl hF
  have hw := W_pos (G := G) (v := v)
  have hq : 0 < hsq G v H := by
    rw [hsq_along hG hs]
    have := sq_pos_of_ne_zero hh
    positivity
  have hsg : h / |h| = 1 ∨ h / |h| = -1 := by
    rcases abs_cases h with ⟨e, _⟩ | ⟨e, _⟩
    · left; rw [e]; exact div_self hh
    · right; rw [e, div_neg, div_self hh]
  have hPi : Pi = tilPi G v (fluxFactor 0 G v J H) (fun i => h / |h| * (W G v * v i / Real.sqrt (G.dot3 v v))) := by
    simp only [Pi, tilPiFromPrim, H, dir_along hG hs hv hh]
  obtain ⟨l, hFl⟩ : ∃ l : ℝ, F = fun i => l * lower G v i := by
    refine ⟨4 * W2 G v / 3 * J + W G v * cc v H + W G v * h + J * (2 / 3 * W G v ^ 2 * athin (fluxFactor 0 G v J H)), funext fun i => ?_⟩
    simp only [F, prim2con]
    rw [hPi, covVPi_along hG hs hv _ _ hsg]
    simp only [H]
    ring
  have hl0 : l ≠ 0 := by
    rintro rfl
    apply hF
    rw [hFl]; funext i; simp
  refine routes_agree_partial hC hG hp hs rob hJ hq hx phi hE hl ⟨l / |l| * (h / |h|), ?_, ?_⟩
  · have : l / |l| = 1 ∨ l / |l| = -1 := by
      rcases abs_cases l with ⟨e, _⟩ | ⟨e, _⟩
      · left; rw [e]; exact div_self hl0
      · right; rw [e, div_neg, div_self hl0]
    rcases this with e1 | e1 <;> rcases hsg with e2 | e2 <;> rw [e1, e2] <;> norm_num
  · show (basis 0 0 G v F).1 = _
    rw [hFl, basis_along hG hs hv hl0]
    simp only [H, dir_along hG hs hv hh]
    funext i
    have hone : h / |h| * (h / |h|) = 1 := by rcases hsg with e2 | e2 <;> rw [e2] <;> norm_num
    linear_combination (-(l / |l| * (W G v * v i / Real.sqrt (G.dot3 v v)))) * hone

/-! ### gas at rest -/

theorem rest_W (G : ADM ℝ) : W G 0 = 1 := by
  have : cc (0 : Vec) (lower G 0) = 0 := by simp [cc]
  unfold W v2
  rw [this, min_eq_left (by norm_num)]; norm_num

theorem rest_raw (num : Bool) (G : ADM ℝ) (Pi : Tens2) (E : ℝ) (F : Vec) : con2primRaw 0 num G 0 Pi E F = (E, F) := by
  have h1 : lower G 0 = 0 := by funext i; simp [lower]
  have h2 : vvPi G 0 Pi = 0 := by simp [vvPi, h1]
  have h3 : ∀ i, covVPi G 0 Pi i = 0 := by intro i; simp [covVPi, conVPi, lower]
  have h4 : cc (0 : Vec) F = 0 := by simp [cc]
  simp only [con2primRaw, ratio_zero, lam, h2, h3, h4, W2, rest_W, h1]
  cases num <;> refine Prod.ext ?_ (funext fun i => ?_) <;> norm_num

/-- the search in one dimension with a residual of slope one: it finds the root whatever the guess. -/
theorem search_linear {C : M1Const} (hC : Ideal C) (res : ℝ → ℝ → ℝ × ℝ) {x0 : ℝ} (hr : ∀ x, (res x Real.pi).1 = x - x0) (h0 : C.delta ≤ x0) (h1 : x0 ≤ 1 - C.delta)
    {xi : ℝ} (g0 : 0 < xi) (g1 : xi < 1) (phi : ℝ) :
    (solveClosure C.small C.delta C.tol res (m1Jac C res) xi phi).1 = Status.success ∧
    (solveClosure C.small C.delta C.tol res (m1Jac C res) xi phi).2.xi = x0 ∧
    (solveClosure C.small C.delta C.tol res (m1Jac C res) xi phi).2.phi = Real.pi := by
  have hd0 := hC.delta0
  have hd1 := hC.delta1
  have he := hC.eps
  have htol := hC.tol
  have hj : ∀ x, 0 < x → x < 1 → m1Jac C res x Real.pi 0 0 = 1 := by
    intro x hx0 hx1
    have hu : x < min (x * (1 + C.eps) + C.delta) 1 := lt_min (by nlinarith) hx1
    have hl : max (x * (1 - C.eps) - C.delta) 0 < x := max_lt (by nlinarith) hx0
    simp only [m1Jac, hr, Matrix.cons_val_zero]
    rw [div_eq_one_iff_eq (by linarith)]
    ring
  have step : ∀ s : NR, s.iter < 30 → s.phi = Real.pi → 0 < s.xi → s.xi < 1 →
      nrStep C.small C.delta 30 res (m1Jac C res) s = ⟨x0, Real.pi, s.xi - x0, 0, s.iter + 1⟩ := by
    intro s hi hp hx0 hx1
    have hc : max (min (s.xi - x0) (s.xi - C.delta * s.xi)) (s.xi - (1 - C.delta * (1 - s.xi))) = s.xi - x0 := by
      rw [min_eq_left (by nlinarith), max_eq_left (by nlinarith)]
    simp only [nrStep, if_pos hi, if_true, hp, hr, hj s.xi hx0 hx1, div_one, hc, hC.small, ratio_zero, mul_zero, sub_zero]
    congr 1
    by_cases hz : s.xi - x0 = 0
    · rw [hz]; linarith
    · rw [div_self hz]; ring
  have hx01 : 0 < x0 := by linarith
  have hx11 : x0 < 1 := by linarith
  have s1 := step ⟨xi, Real.pi, 1000, 1000, 0⟩ (by norm_num) rfl g0 g1
  have s2 := step ⟨x0, Real.pi, xi - x0, 0, 1⟩ (by norm_num) rfl hx01 hx11
  simp only [zero_add, sub_self] at s1 s2
  have hl : nrLoop C.small C.delta C.tol 30 res (m1Jac C res) 30 ⟨xi, Real.pi, 1000, 1000, 0⟩ =
      if |xi - x0| > C.tol then ⟨x0, Real.pi, 0, 0, 2⟩ else ⟨x0, Real.pi, xi - x0, 0, 1⟩ := by
    rw [nrLoop]
    simp only [s1, abs_zero]
    by_cases hb : |xi - x0| > C.tol
    · rw [if_pos ⟨by norm_num, Or.inl hb⟩, if_pos hb, nrLoop]
      simp only [s2, abs_zero]
      rw [if_neg (by push Not; intro _; exact ⟨htol, htol⟩)]
    · rw [if_neg (by push Not; intro _; exact ⟨not_lt.1 hb, htol⟩), if_neg hb]
  unfold solveClosure
  rw [hl]
  split_ifs <;> simp_all

/-- **C149** In a gas at rest the two routes agree for every direction of the flux, for both equations and from every guess: the search succeeds and finds
the flux factor exactly. -/
theorem routes_agree_rest {C : M1Const} (hC : Ideal C) {G : ADM ℝ} (hG : G.Valid) (hp : PosDef G) (num rob : Bool) {J : ℝ} {H : Vec} (hJ : 0 < J)
    (h0 : C.delta ≤ Real.sqrt (ccov G H H) / J) (h1 : Real.sqrt (ccov G H H) / J ≤ 1 - C.delta) {xi : ℝ} (g0 : 0 < xi) (g1 : xi < 1) (phi : ℝ) :
    let Pi := tilPiFromPrim 0 G 0 J H
    let r := tilPiFromCon C num rob G 0 (prim2con num G 0 Pi J H).1 (prim2con num G 0 Pi J H).2 xi phi
    r.1 = Status.success ∧ r.2.1.xi = Real.sqrt (ccov G H H) / J ∧ r.2.2 = Pi := by
  intro Pi r
  have hd0 := hC.delta0
  have hlow : lower G 0 = 0 := by funext i; simp [lower]
  have hq : hsq G 0 H = ccov G H H := by simp [hsq, cc]
  have hcon : prim2con num G 0 Pi J H = (J, H) := by
    have h2 : vvPi G 0 Pi = 0 := by simp [vvPi, hlow]
    have h3 : ∀ i, covVPi G 0 Pi i = 0 := by intro i; simp [covVPi, conVPi, lower]
    have h4 : cc (0 : Vec) H = 0 := by simp [cc]
    simp only [prim2con, h2, h3, h4, W2, rest_W, hlow]
    cases num <;> refine Prod.ext ?_ (funext fun i => ?_) <;> norm_num
  set x0 := Real.sqrt (ccov G H H) / J with hx0
  have hsp : 0 < Real.sqrt (ccov G H H) := by
    by_contra hc
    have : x0 ≤ 0 := div_nonpos_of_nonpos_of_nonneg (not_lt.1 hc) hJ.le
    linarith
  have hcp : 0 < ccov G H H := Real.sqrt_pos.1 hsp
  have hE : (if num = true then J / W G 0 + cc 0 H else J) = J := by
    have h4 : cc (0 : Vec) H = 0 := by simp [cc]
    rw [rest_W, h4]; cases num <;> norm_num
  have hn : normFlux C J H = fun i => H i * (1 / J) := by
    funext i
    simp only [normFlux, hC.small, hC.tiny, ratio_zero]; ring
  have hres : ∀ g d x, (m1Residuals C num rob G 0 (fun i => H i * (1 / J)) g d x Real.pi).1 = x - x0 := by
    intro g d x
    have e := sqrt_scale G 0 H (t := 1 / J) (by positivity)
    have e' : 1 / J * Real.sqrt (hsq G 0 H) = x0 := by rw [hq, hx0]; ring
    simp only [m1Residuals, hC.small, con2prim, rest_raw]
    rw [check_ok rob C.SMALL G 0 (by rw [hsq_scale, hq]; positivity) one_pos (by rw [e, e']; linarith)]
    simp only [m1ResidualOf, ratio_zero]
    rw [← hsq, e, e', div_one]
  have hff : fluxFactor 0 G 0 J H = x0 := by
    have := (flux_factor_range hG 0 J H).2.1 hJ (by
      rw [hq]
      have h2 := Real.sq_sqrt hcp.le
      have h3 : Real.sqrt (ccov G H H) ≤ J := by
        have : x0 ≤ 1 := by linarith
        exact (div_le_one hJ).1 this
      nlinarith)
    rw [this, hq]
  have hdir : (basis 0 0 G 0 H).1 = fluxDir 0 G 0 H := by
    have h4 : cc H (0 : Vec) = 0 := by simp [cc]
    funext i
    simp only [basis, fluxDir, ratio_zero, h4, rest_W]
    norm_num
  have hb1 : basis C.small C.eps10 G 0 H = basis 0 0 G 0 H := by rw [hC.small, hC.eps10]
  obtain ⟨k1, k2, k3⟩ := search_linear hC (m1Residuals C num rob G 0 (fun i => H i * (1 / J)) (basis C.small C.eps10 G 0 fun i => H i * (1 / J)).1
    (basis C.small C.eps10 G 0 fun i => H i * (1 / J)).2) (hres _ _) h0 h1 g0 g1 phi
  have hr : r = tilPiFromCon C num rob G 0 J H xi phi := by simp only [r, hcon]
  rw [hr]
  simp only [tilPiFromCon, hE, hn]
  refine ⟨k1, k2, ?_⟩
  rw [k2, k3, angle_pi, hb1, hdir]
  show _ = tilPi G 0 (fluxFactor 0 G 0 J H) (fluxDir 0 G 0 H)
  rw [hff]

/-! ### flux across the motion -/

/-- the tensor the search returns is built with one direction, whatever happens. -/
theorem fromCon_form {C : M1Const} (hC : Ideal C) (num rob : Bool) (G : ADM ℝ) (v : Vec) (E : ℝ) (F : Vec) {xi : ℝ} (g0 : 0 < xi) (g1 : xi < 1) (phi : ℝ) :
    (tilPiFromCon C num rob G v E F xi phi).2.2 = tilPi G v (tilPiFromCon C num rob G v E F xi phi).2.1.xi (basis 0 0 G v F).1 := by
  have h := fun res jac => (solve_closure_angle_fixed C.small C.delta C.tol hC.small.ge hC.delta0 (by linarith [hC.delta1]) hC.tol res jac xi phi g0 g1).1
  simp only [tilPiFromCon]
  rw [h, angle_pi, hC.small, hC.eps10]

/-- arithmetic of the next theorem: aberration would need a flux factor of one. -/
theorem across_core {Wv w J y a h F0 F1 m : ℝ} (hw0 : 0 < w) (_hw1 : w < 1) (hWp : 0 < Wv) (hW : Wv ^ 2 * (1 - w ^ 2) = 1) (hJ : 0 < J)
    (hF0 : F0 = Wv ^ 2 * w * J * (4 - a) / 3) (hF1 : F1 = Wv * h) (hhy : h = y * J) (hF0p : 0 < F0) (hF1p : 0 < F1) (hmp : 0 < m)
    (hm2 : m ^ 2 = F0 ^ 2 + F1 ^ 2) (hkey : 3 * y < 4 - a) (hlt : F0 * w / m < 1) : F0 * (1 / (Wv * (1 - F0 * w / m))) / m - Wv * w ≠ 0 := by
  intro hz
  have h1 : 0 < 1 - F0 * w / m := by linarith
  set l := 1 / (Wv * (1 - F0 * w / m)) with hl
  have hz' : F0 / m = Wv ^ 2 * w * (1 - F0 * w / m) := by
    have h2 : F0 * l / m = Wv * w := by linarith
    have h3 : l * (Wv * (1 - F0 * w / m)) = 1 := by rw [hl]; exact one_div_mul_cancel (by positivity)
    calc F0 / m = F0 * l / m * (Wv * (1 - F0 * w / m)) := by
          rw [show F0 * l / m * (Wv * (1 - F0 * w / m)) = F0 / m * (l * (Wv * (1 - F0 * w / m))) by ring, h3, mul_one]
      _ = _ := by rw [h2]; ring
  have hz2 : F0 / m = w := by
    have e1 : F0 * w / m = F0 / m * w := by ring
    rw [e1] at hz'
    have h4 : (1 - w ^ 2) * (F0 / m) = w * (1 - F0 / m * w) := by
      calc (1 - w ^ 2) * (F0 / m) = (1 - w ^ 2) * (Wv ^ 2 * w * (1 - F0 / m * w)) := by rw [← hz']
        _ = (Wv ^ 2 * (1 - w ^ 2)) * w * (1 - F0 / m * w) := by ring
        _ = _ := by rw [hW]; ring
    linarith
  have hz3 : F0 = w * m := by rw [div_eq_iff hmp.ne'] at hz2; exact hz2
  have hz4 : F0 ^ 2 * (1 - w ^ 2) = w ^ 2 * F1 ^ 2 := by
    have : F0 ^ 2 = w ^ 2 * (F0 ^ 2 + F1 ^ 2) := by rw [← hm2, hz3]; ring
    linarith
  have hz5 : F0 = Wv * w * F1 := by
    have : F0 ^ 2 = (Wv * w * F1) ^ 2 := by
      calc F0 ^ 2 = (Wv ^ 2 * (1 - w ^ 2)) * F0 ^ 2 := by rw [hW, one_mul]
        _ = Wv ^ 2 * (F0 ^ 2 * (1 - w ^ 2)) := by ring
        _ = _ := by rw [hz4]; ring
    exact (pow_left_inj₀ hF0p.le (by positivity) two_ne_zero).1 this
  rw [hF0, hF1, hhy] at hz5
  have h6 : Wv ^ 2 * w * J * (4 - a - 3 * y) = 0 := by linarith
  have h7 : 0 < 4 - a - 3 * y := by linarith
  have hpos : 0 < Wv ^ 2 * w * J * (4 - a - 3 * y) := by positivity
  linarith

set_option maxHeartbeats 800000 in
/-- **C149 fails across the motion**: in flat space, gas moving along the first axis, any flux along the second axis with a flux factor below one.  The tensor of the
moments has no component mixing the two axes; every tensor the search can return - whatever flux factor it ends with, unless the tensor vanishes altogether - has one.  So the
routes disagree for every such state. -/
theorem routes_disagree_across {C : M1Const} (hC : Ideal C) (rob : Bool) {w J h : ℝ} (hw0 : 0 < w) (hw1 : w ^ 2 ≤ 0.9999) (hJ : 0 < J) (hh : 0 < h) (hx : h < J)
    {xi : ℝ} (g0 : 0 < xi) (g1 : xi < 1) (phi : ℝ) :
    let v : Vec := ![w, 0, 0]
    let H : Vec := ![0, h, 0]
    let Pi := tilPiFromPrim 0 C2P.flat v J H
    let r := tilPiFromCon C false rob C2P.flat v (prim2con false C2P.flat v Pi J H).1 (prim2con false C2P.flat v Pi J H).2 xi phi
    Slow C2P.flat v ∧ hsq C2P.flat v H = h ^ 2 ∧ Pi 0 1 = 0 ∧ (athin r.2.1.xi ≠ 0 → r.2.2 0 1 ≠ 0) := by
  intro v H Pi r
  have hraise : ∀ U : Vec, raise C2P.flat U = U := by intro U; funext i; simp [raise, C2P.flat]
  have hlow : ∀ U : Vec, lower C2P.flat U = U := by intro U; funext i; simp [lower, C2P.flat]
  have hdv : C2P.flat.dot3 v v = w ^ 2 := by simp [ADM.dot3, C2P.flat, Fin.sum_univ_three, v]; ring
  have hs : Slow C2P.flat v := by unfold Slow; rw [hdv]; exact hw1
  have hWp := W_pos (G := C2P.flat) (v := v)
  set Wv := W C2P.flat v with hWv
  have hW : Wv ^ 2 * (1 - w ^ 2) = 1 := by have := W_sq hs; rwa [hdv] at this
  have hw11 : w < 1 := by norm_num at hw1; nlinarith
  have hcH : cc v H = 0 := by simp [cc, Fin.sum_univ_three, v, H]
  have hq : hsq C2P.flat v H = h ^ 2 := by
    unfold hsq
    rw [hcH, ccov_eq, hraise]; simp [cc, Fin.sum_univ_three, H]; ring
  have hsqr : Real.sqrt (cc H (raise C2P.flat H) - cc H v ^ 2) = h := by
    rw [hraise, cc_comm H v, hcH]
    have : cc H H - 0 ^ 2 = h ^ 2 := by simp [cc, Fin.sum_univ_three, H]; ring
    rw [this]; exact Real.sqrt_sq hh.le
  have hdir : fluxDir 0 C2P.flat v H = ![0, 1, 0] := by
    funext i
    unfold fluxDir
    rw [hsqr, hraise, ratio_zero]
    fin_cases i <;> simp [H, hh.ne']
  set a := athin (fluxFactor 0 C2P.flat v J H) with ha
  have hPi : ∀ i j, Pi i j = ((![0, 1, 0] : Vec) i * (![0, 1, 0] : Vec) j - (Wv ^ 2 * v i * v j + C2P.flat.gamInv i j) / 3) * a := by
    intro i j
    simp only [Pi, tilPiFromPrim, hdir, tilPi, W2, ← hWv]
    ring
  have h01 : Pi 0 1 = 0 := by rw [hPi]; simp [v, C2P.flat]
  -- the flux factor is below one, hence `a < 1`
  have hff : fluxFactor 0 C2P.flat v J H = h / J := by
    have := (flux_factor_range C2P.flat_valid.1 v J H).2.1 hJ (by rw [hq]; nlinarith)
    rw [this, hq, Real.sqrt_sq hh.le]
  have hy0 : 0 < h / J := div_pos hh hJ
  have hy1 : h / J < 1 := (div_lt_one hJ).2 hx
  have ha1 : a = -(h / J) ^ 2 + 2 * (h / J) ^ 3 := by
    rw [ha, hff]; unfold athin eddFactor; norm_num; ring
  set y := h / J with hy
  have hhy : h = y * J := by rw [hy]; field_simp
  have ha_lt : a < 1 := by rw [ha1]; nlinarith [mul_pos hy0 hy0, mul_pos (mul_pos hy0 hy0) (sub_pos.2 hy1)]
  have hkey : 3 * y < 4 - a := by nlinarith
  -- the conserved flux
  set F := (prim2con false C2P.flat v Pi J H).2 with hF
  have hcp : ∀ i, covVPi C2P.flat v Pi i = w * Pi i 0 := by
    intro i
    unfold covVPi
    rw [hlow]
    unfold conVPi
    rw [hlow]; simp [Fin.sum_univ_three, v]
  have hF0 : F 0 = Wv ^ 2 * w * J * (4 - a) / 3 := by
    simp only [hF, prim2con, hcp, hcH, hlow, hPi, W2, ← hWv]
    simp [v, H, C2P.flat]
    linear_combination (1 / 3 * J * w * a) * hW
  have hF1 : F 1 = Wv * h := by
    simp only [hF, prim2con, hcp, hcH, hlow, hPi, W2, ← hWv]
    simp [v, H, C2P.flat]
  have hF2 : F 2 = 0 := by
    simp only [hF, prim2con, hcp, hcH, hlow, hPi, W2, ← hWv]
    simp [v, H, C2P.flat]
  have hF0p : 0 < F 0 := by
    rw [hF0]
    have : 0 < 4 - a := by linarith
    positivity
  have hF1p : 0 < F 1 := by rw [hF1]; positivity
  -- the search direction
  set m := Real.sqrt (cc F (raise C2P.flat F)) with hm
  have hm2 : m ^ 2 = F 0 ^ 2 + F 1 ^ 2 := by
    rw [hm, Real.sq_sqrt]
    · rw [hraise]; simp [cc, Fin.sum_univ_three, hF2]; ring
    · rw [hraise]; simp [cc, Fin.sum_univ_three, hF2]; nlinarith
  have hmp : 0 < m := by
    have : 0 ≤ m := Real.sqrt_nonneg _
    rcases this.lt_or_eq with h' | h'
    · exact h'
    · rw [← h'] at hm2; nlinarith
  have hmF : F 0 < m := lt_of_pow_lt_pow_left₀ 2 hmp.le (by rw [hm2]; linarith [pow_pos hF1p 2])
  set l := 1 / (Wv * (1 - F 0 * w / m)) with hl
  have hlt : F 0 * w / m < 1 := by rw [div_lt_one hmp]; exact (mul_lt_of_lt_one_right hF0p hw11).trans hmF
  have hlp : 0 < l := by rw [hl]; have : 0 < 1 - F 0 * w / m := by linarith
                         positivity
  have hg : ∀ i, (basis 0 0 C2P.flat v F).1 i = F i * l / m - Wv * v i := by
    intro i
    have hFv : cc F v = F 0 * w := by simp [cc, Fin.sum_univ_three, v]
    simp only [basis, ratio_zero, hFv, ← hm, ← hWv, ← hl]
    rw [hraise]
  have hg1 : (basis 0 0 C2P.flat v F).1 1 ≠ 0 := by
    rw [hg]
    have : 0 < F 1 * l / m := by positivity
    simp [v]
    exact ⟨⟨hF1p.ne', hlp.ne'⟩, hmp.ne'⟩
  have hg0 : (basis 0 0 C2P.flat v F).1 0 ≠ 0 := by
    rw [hg]
    exact across_core hw0 hw11 hWp hW hJ hF0 hF1 hhy hF0p hF1p hmp hm2 hkey hlt
  refine ⟨hs, hq, h01, fun hat => ?_⟩
  have hr : r.2.2 = tilPi C2P.flat v r.2.1.xi (basis 0 0 C2P.flat v F).1 := fromCon_form hC false rob C2P.flat v _ F g0 g1 phi
  rw [hr]
  unfold tilPi
  refine mul_ne_zero ?_ hat
  have e2 : (v 1 : ℝ) = 0 := rfl
  have e3 : C2P.flat.gamInv 0 1 = 0 := by simp [C2P.flat]
  rw [e2, e3]
  simpa using ⟨hg0, hg1⟩

/-! ### the number equation -/

/-- **C149** (number equation) The flux handed to the search is the flux over the lab-frame *energy* of the moments (recovered from the number), as in the energy equation. -/
theorem number_route_energy {G : ADM ℝ} (hG : G.Valid) {v : Vec} (hs : Slow G v) (C : M1Const) (rob : Bool) (Pi : Tens2) (hpi : (W G v ^ 2 - 1) * vvPi G v Pi = 0) (J : ℝ) (H : Vec) (xi phi : ℝ) :
    let E := (prim2con false G v Pi J H).1
    let F := (prim2con false G v Pi J H).2
    let b := basis C.small C.eps10 G v (normFlux C E F)
    (tilPiFromCon C true rob G v (prim2con true G v Pi J H).1 (prim2con true G v Pi J H).2 xi phi).2.1 =
      (solveClosure C.small C.delta C.tol (m1Residuals C true rob G v (normFlux C E F) b.1 b.2) (m1Jac C (m1Residuals C true rob G v (normFlux C E F) b.1 b.2)) xi phi).2 := by
  intro E F b
  have hw := (W_pos (G := G) (v := v)).ne'
  have hE : (prim2con true G v Pi J H).1 / W G v + cc v (prim2con true G v Pi J H).2 = E := by
    rw [cc_F hG hs]; simp only [E, prim2con, if_true, Bool.false_eq_true, if_false, W2]
    field_simp
    linear_combination -3 * J * W G v * hpi
  simp only [tilPiFromCon, if_true]
  rw [hE]
  rfl

/-- **C149 fails for the number equation**: the residual converts the normalised energy, which is an energy already, as if it were a number.  For isotropic radiation in a moving
gas the energy equation has the exact root 0, the number equation has not: its residual there is negative - it sees a flux where there is none. -/
theorem number_route_wrong {C : M1Const} (hC : Ideal C) {G : ADM ℝ} (hG : G.Valid) (hp : PosDef G) {v : Vec} (hs : Slow G v) (hv : 0 < G.dot3 v v) (rob : Bool) {J : ℝ} (hJ : 0 < J) (g d : Vec) (phi : ℝ) :
    let E := (prim2con false G v 0 J 0).1
    let F := (prim2con false G v 0 J 0).2
    (m1Residuals C false rob G v (normFlux C E F) g d 0 phi).1 = 0 ∧ (m1Residuals C true rob G v (normFlux C E F) g d 0 phi).1 < 0 := by
  intro E F
  have hwp := W_pos (G := G) (v := v)
  have hw := hwp.ne'
  have hw1 : 1 < W G v := by
    have h1 := W_sq hs
    have h2 := W_ge_one hp hs
    rcases h2.lt_or_eq with h | h
    · exact h
    · rw [← h] at h1; norm_num at h1; linarith
  have hcc0 : cc v 0 = 0 := by simp [cc]
  have hE : E = (4 * W G v ^ 2 - 1) / 3 * J := by
    simp only [E, prim2con, Bool.false_eq_true, if_false, W2, vvPi_zero, hcc0]; ring
  have hEp : 0 < E := by
    rw [hE]
    have : 0 < 4 * W G v ^ 2 - 1 := by nlinarith
    positivity
  have hn : normFlux C E F = fun i => F i * (1 / E) := by
    funext i
    simp only [normFlux, hC.small, hC.tiny, ratio_zero]; ring
  have hPi : tilPi G v 0 (angleDir g d phi) = 0 := by
    funext i j; exact tilPi_diffusive G v _ i j
  have hl := lam_zero_pos G v
  have hraw : con2primRaw 0 false G v 0 1 (fun i => F i * (1 / E)) = (J * (1 / E), fun i => 0 * (1 / E)) := by
    have h1 := raw_scale G v 0 E F (1 / E)
    rw [mul_one_div_cancel hEp.ne'] at h1
    rw [h1, con2prim_prim2con_raw hG hs 0 hl.ne']
    rfl
  have hz : hsq G v (fun _ => (0:ℝ)) = 0 := by simp [hsq, ccov, cc]
  -- what the second conversion adds to the energy
  set t := 1 / W G v + cc v (fun i => F i * (1 / E)) - 1 with ht
  have htp : 0 < t := by
    have e1 : cc v (fun i => F i * (1 / E)) = cc v F * (1 / E) := by simp only [cc, Fin.sum_univ_three]; ring
    have e2 : cc v F = 4 / 3 * (W G v ^ 2 - 1) * J := by
      have := cc_F hG hs false 0 J 0
      rw [hcc0, vvPi_zero] at this
      simp only [F]; rw [this]; ring
    have h4 : 0 < 4 * W G v ^ 2 - 1 := by nlinarith
    have : t = (4 * W G v + 1) * (W G v - 1) / (W G v * (4 * W G v ^ 2 - 1)) := by
      rw [ht, e1, e2, hE]
      have h5 := h4.ne'
      obtain ⟨D, hD⟩ : ∃ D, D = 4 * W G v ^ 2 - 1 := ⟨_, rfl⟩
      rw [← hD] at h5 ⊢
      field_simp
      linear_combination (1 - W G v) * hD
    rw [this]
    have : 0 < W G v - 1 := by linarith
    positivity
  have hraw2 : con2primRaw 0 true G v 0 1 (fun i => F i * (1 / E)) =
      (J * (1 / E) + (2 * W G v ^ 2 - 1) * t / lam G v 0, fun i => lower G v i * (-(W G v ^ 2 / lam G v 0 * (4 * W G v ^ 2 / 3) * t / W G v))) := by
    have h1 := hraw
    simp only [con2primRaw, ratio_zero, Bool.false_eq_true, if_false, vvPi_zero, covVPi_zero, W2, Prod.mk.injEq] at h1
    have h1a := h1.1
    have h1b := fun i => congrFun h1.2 i
    simp only [con2primRaw, ratio_zero, if_true, vvPi_zero, covVPi_zero, W2]
    have et : 1 / W G v + cc v (fun i => F i * (1 / E)) = 1 + t := by rw [ht]; ring
    rw [et]
    refine Prod.ext ?_ (funext fun i => ?_)
    · dsimp only
      rw [← h1a]; ring
    · dsimp only
      have := h1b i
      simp only [mul_zero, sub_zero, zero_mul] at this ⊢
      have h5 : ∀ A B c k : ℝ, (A - c * B) / W G v = 0 → (A - c * (B + k)) / W G v = c * (-(k / W G v)) := by
        intro A B c k h
        have : (A - c * (B + k)) / W G v = (A - c * B) / W G v + c * (-(k / W G v)) := by ring
        rw [this, h, zero_add]
      rw [← h5 _ _ _ _ this]
      ring
  constructor
  · simp only [m1Residuals, hC.small, hPi, con2prim, hn, hraw]
    rw [check_ok rob C.SMALL G v (by rw [hsq_scale]; simp [hz]) (by positivity) (by
      simp only [zero_mul]; rw [hz, Real.sqrt_zero]; positivity)]
    simp only [m1ResidualOf, ratio_zero]
    rw [← hsq]
    simp [hz]
  · simp only [m1Residuals, hC.small, hPi, con2prim, hn, hraw2]
    set J' := J * (1 / E) + (2 * W G v ^ 2 - 1) * t / lam G v 0 with hJ'
    set k := -(W G v ^ 2 / lam G v 0 * (4 * W G v ^ 2 / 3) * t / W G v) with hk
    have hJp : 0 < J' := by
      have : 0 < 2 * W G v ^ 2 - 1 := by nlinarith
      positivity
    have hk0 : k ≠ 0 := by
      have : 0 < W G v ^ 2 / lam G v 0 * (4 * W G v ^ 2 / 3) * t / W G v := by positivity
      rw [hk]; linarith
    have hqp : 0 < hsq G v fun i => lower G v i * k := by
      have e : (fun i => lower G v i * k) = fun i => k * lower G v i := by funext i; ring
      rw [e, hsq_along hG hs]
      have := sq_pos_of_ne_zero hk0
      positivity
    have hsp := Real.sqrt_pos.2 hqp
    set Hn : Vec := fun i => lower G v i * k with hHn
    have hxp : 0 < Real.sqrt (hsq G v Hn) / J' := div_pos hsp hJp
    have out : ∃ m : ℝ, 0 < m ∧ (con2primCheck rob C.SMALL G v J' Hn).2 = (J', fun i => Hn i * m) := by
      simp only [con2primCheck]
      rw [if_neg (by push Not; exact ⟨hqp.le, fun h => absurd h hJp.ne'⟩)]
      by_cases hb : J' < 0 ∨ J' = 0 ∨ 1 ≤ Real.sqrt (hsq G v Hn) / J'
      · rw [if_pos hb]
        have hb' : J' = 0 ∨ 1 ≤ Real.sqrt (hsq G v Hn) / J' := hb.resolve_left (by linarith)
        cases rob
        · exact ⟨1, one_pos, by simp⟩
        · refine ⟨0.999 / (Real.sqrt (hsq G v Hn) / J'), by positivity, ?_⟩
          simp only [if_true, if_pos hb', if_neg (not_lt.2 hJp.le)]
      · rw [if_neg hb]
        exact ⟨1, one_pos, by simp⟩
    obtain ⟨m, hm, hout⟩ := out
    rw [hout]
    simp only [m1ResidualOf, ratio_zero]
    rw [← hsq, sqrt_scale G v Hn hm.le]
    have : 0 < m * Real.sqrt (hsq G v Hn) / J' := by positivity
    linarith

/-- C149 (case). Constants as in the code, with the regularisers dropped; a gas at rest with a flux factor of one half. -/
theorem ex_routes : ∃ (C : M1Const) (J : ℝ) (H : Vec), Ideal C ∧ 0 < J ∧ C.delta ≤ Real.sqrt (ccov C2P.flat H H) / J ∧ Real.sqrt (ccov C2P.flat H H) / J ≤ 1 - C.delta := by
  refine ⟨⟨0, 0, 0, 1 / 1000, 1 / 1000, 1 / 1000, 0⟩, 2, ![1, 0, 0], ⟨rfl, rfl, rfl, by norm_num, by norm_num, by norm_num, by norm_num⟩, by norm_num, ?_, ?_⟩ <;>
  · have : ccov C2P.flat ![1, 0, 0] ![1, 0, 0] = 1 := by simp [ccov, C2P.flat, Fin.sum_univ_three]
    rw [this]; norm_num

end Phoebus.Closure
