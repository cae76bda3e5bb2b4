import Verif.Riemann.Model

/-!
# Riemann solvers (C15, C16, C56, C57)
-/
namespace Phoebus.Riemann
open Finset Geom Robust Rel

/-- The state is within all floors and ceilings. -/
structure Inactive (G : ADM ℝ) (L : Limits) (q : Prim) : Prop where
  rho_pos : 0 < q.rho
  rho_floor : L.rhoFloor ≤ q.rho
  sie_lo : L.sieFloor < q.u / q.rho
  sie_hi : q.u / q.rho ≤ L.sieMax
  P_nonneg : 0 ≤ q.P
  gam : lorentz G.gam q.v ≤ L.gamMax

section
variable {G : ADM ℝ} {L : Limits} {q : Prim}

theorem fRho_eq (hi : Inactive G L q) : fRho L q = q.rho := max_eq_left hi.rho_floor
theorem fU_eq (hi : Inactive G L q) : fU L q = q.u := by
  unfold fU; rw [fRho_eq hi, if_pos hi.sie_lo, if_neg (not_lt.2 hi.sie_hi)]
theorem fP_eq (hi : Inactive G L q) : fP q = q.P := max_eq_left hi.P_nonneg
theorem fVp_eq (hi : Inactive G L q) : fVp G L q = q.v := by
  unfold fVp; simp only [if_neg (not_lt.2 hi.gam)]
theorem fV0_eq (hi : Inactive G L q) : fV0 G L q = fun i => q.v i / lorentz G.gam q.v := by
  unfold fV0; rw [fVp_eq hi]

theorem fVsq0_eq (hi : Inactive G L q) (hp : PosDef G) : fVsq0 G L q = 1 - 1 / lorentz G.gam q.v ^ 2 := by
  have hW := (lorentz_pos G hp q.v).ne'
  have h1 := lorentz_sq G hp q.v
  have e : fVsq0 G L q = G.dot3 q.v q.v / lorentz G.gam q.v ^ 2 := by
    simp only [fVsq0, fV0_eq hi, ADM.g4_ss, ADM.dot3, Finset.sum_div]
    exact sum_congr rfl fun i _ => sum_congr rfl fun j _ => by ring
  rw [e, show G.dot3 q.v q.v = lorentz G.gam q.v ^ 2 - 1 by linarith]
  field_simp

theorem not_clamped (hi : Inactive G L q) (hp : PosDef G) : ¬ fVsq0 G L q > vsqMax L := by
  have h1 := lorentz_ge_one G hp q.v
  have h2 := hi.gam
  rw [fVsq0_eq hi hp, vsqMax, gt_iff_lt, not_lt, ← sq]
  have : 1 / L.gamMax ^ 2 ≤ 1 / lorentz G.gam q.v ^ 2 :=
    one_div_le_one_div_of_le (by positivity) (pow_le_pow_left₀ (by linarith) h2 2)
  linarith

theorem fV_eq (hi : Inactive G L q) (hp : PosDef G) : fV G L q = fun i => q.v i / lorentz G.gam q.v := by
  unfold fV; rw [if_neg (not_clamped hi hp), fV0_eq hi]

theorem fVsq_eq (hi : Inactive G L q) (hp : PosDef G) : fVsq G L q = 1 - 1 / lorentz G.gam q.v ^ 2 := by
  unfold fVsq; rw [if_neg (not_clamped hi hp), fVsq0_eq hi hp]

theorem fW_eq (hi : Inactive G L q) (hp : PosDef G) : fW G L q = lorentz G.gam q.v := by
  have h1 := lorentz_pos G hp q.v
  unfold fW; rw [fVsq_eq hi hp, sub_sub_cancel, Real.sqrt_div' _ (by positivity), Real.sqrt_sq h1.le]
  simp

theorem fBdotv_eq (hi : Inactive G L q) (hp : PosDef G) : fBdotv G L q = tBdotv G q := by
  unfold fBdotv
  simp only [if_neg (not_clamped hi hp)]
  rw [tBdotv_eq, fV0_eq hi]
  simp only [ADM.g4_ss, ADM.dot3, Finset.sum_div]
  exact sum_congr rfl fun i _ => sum_congr rfl fun j _ => by ring

theorem fbsq_eq (hi : Inactive G L q) (hp : PosDef G) : fbsq G L q = tbsq 0 G q := by
  have hW := (lorentz_pos G hp q.v).ne'
  have e : fBdotB G q = tBsq G q := by
    simp only [fBdotB, tBsq, ADM.g4_ss]
    exact sum_congr rfl fun i _ => sum_congr rfl fun j _ => by ring
  simp only [fbsq, fb0, e, fW_eq hi hp, fBdotv_eq hi hp, tbsq, ratio_zero]
  field_simp

theorem fbcov_eq (hi : Inactive G L q) (hp : PosDef G) (h : G.Valid) (ha : 0 < G.alpha) (m : Fin 3) :
    fbcov G L q m = lower G.g4 (tB 0 G q) m.succ := by
  have hW := (lorentz_pos G hp q.v).ne'
  have ha' := ha.ne'
  rw [tB_split G q ha hp]
  simp only [fbcov, fb0, fW_eq hi hp, fBdotv_eq hi hp, fV_eq hi hp, lower, Fin.sum_univ_succ (n := 3),
    Fin.cons_zero, Fin.cons_succ, ADM.g4_s0, ADM.g4_0s, ADM.g4_ss, Fin.sum_univ_three]
  rw [h.symm m 0, h.symm m 1, h.symm m 2]
  field_simp; ring

theorem fucon_eq (hi : Inactive G L q) (hp : PosDef G) (ha : 0 < G.alpha) : fucon G L q = tU 0 G q := by
  rw [tU_split G q ha, fucon, fW_eq hi hp, fVp_eq hi, Fin.cons_inj]
  exact ⟨rfl, by funext i; ring⟩

theorem fbcon_eq (hi : Inactive G L q) (hp : PosDef G) (ha : 0 < G.alpha) : fbcon G L q = tB 0 G q := by
  have hW := (lorentz_pos G hp q.v).ne'
  have ha' := ha.ne'
  rw [tB_split G q ha hp, fbcon, fucon_eq hi hp ha, tU_split G q ha, fb0, fW_eq hi hp, fBdotv_eq hi hp,
    Fin.cons_inj]
  refine ⟨by ring, ?_⟩
  funext i
  simp only [Fin.cons_succ]
  field_simp; ring

end

/-- C57. Within floors and ceilings the conserved vector of the Riemann solver is the one of `p2c`
(per unit `sqrt(gamma)`): all slots in the Valencia formulation. -/
theorem flux_conserved_agree (G : ADM ℝ) (L : Limits) (ye : ℝ) (q : Prim) (h : G.Valid) (ha : 0 < G.alpha)
    (hp : PosDef G) (hi : Inactive G L q) :
    let U := fluxU true G L ye q
    let C := p2c true G 1 ye q
    U.rho = C.D ∧ U.mom = C.S ∧ U.eng = C.tau ∧ U.B = C.B ∧ U.ye = C.ye := by
  have hW := (lorentz_pos G hp q.v).ne'
  have hpb : ∀ m, pbcov G q m = lower G.g4 (tB 0 G q) m.succ := fun m => by
    simp only [pbcov, lower, pbcon_eq G q ha hp]
    exact sum_congr rfl fun n _ => by rw [g4_symm h]; ring
  simp only [fluxU, p2c, fRho_eq hi, fU_eq hi, fP_eq hi, fW_eq hi hp, frhohWsq, fbsq_eq hi hp, fvcov, fV_eq hi hp,
    fb0, fBdotv_eq hi hp, fbcov_eq hi hp h ha, pbsq_eq, pBdotv_eq, hpb, pv, if_true, one_mul, mul_one, true_and]
  refine ⟨?_, by ring, trivial⟩
  funext m
  simp only [Fin.sum_univ_three]
  field_simp

/-- C57. Covariant formulation: every slot except the energy agrees; the energy slot differs from the conserved
energy by exactly `(alpha - 1) b^0 b_0` (a missing factor `alpha`, riemann.hpp:186-187). -/
theorem flux_conserved_covariant_partial (G : ADM ℝ) (L : Limits) (ye : ℝ) (q : Prim) (h : G.Valid)
    (ha : 0 < G.alpha) (hp : PosDef G) (hi : Inactive G L q) :
    let U := fluxU false G L ye q
    let C := p2c false G 1 ye q
    U.rho = C.D ∧ U.mom = C.S ∧ U.B = C.B ∧ U.ye = C.ye ∧
      U.eng - C.tau = (G.alpha - 1) * (tB 0 G q 0 * lower G.g4 (tB 0 G q) 0) := by
  have hag := flux_conserved_agree G L ye q h ha hp hi
  simp only at hag
  refine ⟨hag.1, hag.2.1, hag.2.2.2.1, hag.2.2.2.2, ?_⟩
  have ebc : ∑ μ, G.g4 0 μ * tB 0 G q μ = lower G.g4 (tB 0 G q) 0 := by
    simp only [lower]; exact sum_congr rfl fun n _ => by rw [g4_symm h]; ring
  have euc : (Fin.cons (lorentz G.gam q.v / G.alpha) fun i => q.v i - G.beta i * lorentz G.gam q.v / G.alpha :
      Fin 4 → ℝ) = tU 0 G q := by
    rw [tU_split G q ha, Fin.cons_inj]; exact ⟨rfl, by funext i; ring⟩
  simp only [fluxU, p2c, Bool.false_eq_true, if_false, fRho_eq hi, fU_eq hi, fP_eq hi, fW_eq hi hp, fbsq_eq hi hp,
    fucon_eq hi hp ha, fbcon_eq hi hp ha, pbsq_eq, pbcon_eq G q ha hp, ebc, euc]
  ring

/-- C57. Within floors and ceilings the flux vector is the physical one: mass flux `rho u^d`, momentum flux
`T^d_m`, Valencia energy flux `alpha T^{0d} - rho u^d`, covariant energy flux `T^d_0 + rho u^d`, passive advection of
`ye`, and the ideal induction flux `B^m (v^d - beta^d/alpha) - B^d (v^m - beta^m/alpha)`. -/
theorem flux_physical (val : Bool) (G : ADM ℝ) (L : Limits) (ye : ℝ) (q : Prim) (dir : Fin 3) (h : G.Valid)
    (ha : 0 < G.alpha) (hp : PosDef G) (hi : Inactive G L q) :
    (fluxF val G L ye q dir).rho = q.rho * tU 0 G q dir.succ ∧
    (fluxF val G L ye q dir).ye = q.rho * tU 0 G q dir.succ * ye ∧
    (∀ m : Fin 3, (fluxF val G L ye q dir).mom m = mixed G.g4 (tmunu 0 G q) dir.succ m.succ) ∧
    (fluxF true G L ye q dir).eng = G.alpha * tmunu 0 G q 0 dir.succ - q.rho * tU 0 G q dir.succ ∧
    (fluxF false G L ye q dir).eng =
      mixed G.g4 (tmunu 0 G q) dir.succ 0 + q.rho * tU 0 G q dir.succ ∧
    (∀ m, (fluxF val G L ye q dir).B m =
      q.B m * (q.v dir / lorentz G.gam q.v - G.beta dir / G.alpha) -
      q.B dir * (q.v m / lorentz G.gam q.v - G.beta m / G.alpha)) := by
  have hW := (lorentz_pos G hp q.v).ne'
  have ha' := ha.ne'
  have hud : tU 0 G q dir.succ = q.v dir - lorentz G.gam q.v / G.alpha * G.beta dir := by
    rw [tU_split G q ha]; rfl
  have hu0 : tU 0 G q 0 = lorentz G.gam q.v / G.alpha := by rw [tU_split G q ha]; rfl
  have hb0 : tB 0 G q 0 = lorentz G.gam q.v / G.alpha * tBdotv G q := by rw [tB_split G q ha hp]; rfl
  have hbd : tB 0 G q dir.succ = (q.B dir / lorentz G.gam q.v + tBdotv G q * q.v dir) -
        lorentz G.gam q.v / G.alpha * tBdotv G q * G.beta dir := by rw [tB_split G q ha hp]; rfl
  refine ⟨?_, ?_, ?_, ?_, ?_, ?_⟩
  · simp only [fluxF, fluxU, fRho_eq hi, fW_eq hi hp, fVtil, fV_eq hi hp, hud]; field_simp
  · simp only [fluxF, fluxU, fRho_eq hi, fW_eq hi hp, fVtil, fV_eq hi hp, hud]; field_simp
  · intro m
    rw [tmunu_mixed 0 G q h, lower_tU_spatial G q h ha]
    simp only [fluxF, fluxU, fRho_eq hi, fU_eq hi, fP_eq hi, fW_eq hi hp, frhohWsq, fbsq_eq hi hp, fvcov,
      fV_eq hi hp, fb0, fBdotv_eq hi hp, fbcov_eq hi hp h ha, fVtil, hud, hbd, ADM.g4_ss, Fin.succ_inj,
      Fin.sum_univ_three]
    field_simp; ring
  · simp only [fluxF, fluxU, fRho_eq hi, fU_eq hi, fP_eq hi, fW_eq hi hp, frhohWsq, fbsq_eq hi hp, fvcov,
      fV_eq hi hp, fb0, fBdotv_eq hi hp, fVtil, tmunu, hud, hu0, hb0, hbd, if_true, ADM.g4Inv_0s]
    field_simp; ring
  · rw [tmunu_mixed 0 G q h]
    have ebc : ∑ μ, G.g4 0 μ * tB 0 G q μ = lower G.g4 (tB 0 G q) 0 := by
      simp only [lower]; exact sum_congr rfl fun n _ => by rw [g4_symm h]; ring
    have eul : ∑ μ, G.g4 0 μ * tU 0 G q μ = lower G.g4 (tU 0 G q) 0 := by
      simp only [lower]; exact sum_congr rfl fun n _ => by rw [g4_symm h]; ring
    simp only [fluxF, Bool.false_eq_true, if_false, fRho_eq hi, fU_eq hi, fP_eq hi, fbsq_eq hi hp,
      fucon_eq hi hp ha, fbcon_eq hi hp ha, ebc, eul, Fin.succ_ne_zero]
    ring
  · intro m
    simp only [fluxF, fluxU, fVtil, fV_eq hi hp]

/-- A state satisfying the hypotheses, with shift, off-diagonal metric, velocity and field. -/
theorem exState : ∃ (L : Limits) (q : Prim), Inactive exG L q ∧ q.v 0 ≠ 0 ∧ q.B 1 ≠ 0 ∧ 0 < exG.alpha := by
  refine ⟨⟨1/2, 1/10, 100, 50⟩, ⟨1, 2, 1, ![1, 0, 0], ![0, 1, 1]⟩, ⟨by norm_num, by norm_num, by norm_num,
    by norm_num, by norm_num, ?_⟩, by simp, by simp, by norm_num [exG]⟩
  unfold lorentz
  rw [Real.sqrt_le_left (by norm_num)]
  simp [exG, Fin.sum_univ_three]; norm_num

/-- C57. The normal component of the induction flux vanishes and the induction fluxes are antisymmetric: the flux
of `B^m` through faces normal to `d` is minus the flux of `B^d` through faces normal to `m`, at any common state -
this is the electromotive-force identity constrained transport relies on.  No floors assumption. -/
theorem flux_induction_antisymmetric (val : Bool) (G : ADM ℝ) (L : Limits) (ye : ℝ) (q : Prim) (d m : Fin 3) :
    (fluxF val G L ye q d).B d = 0 ∧ (fluxF val G L ye q d).B m = -(fluxF val G L ye q m).B d := by
  constructor <;> simp only [fluxF, fluxU, fVtil] <;> ring

/-- C22 (face states). Beyond the ceiling the code's face Lorentz factor is not the ceiling: it is
`W / sqrt(W² - gam_max² + 1)`. -/
theorem face_lorentz_over_ceiling (G : ADM ℝ) (L : Limits) (q : Prim) (hp : PosDef G) (hg : 1 ≤ L.gamMax)
    (hW : L.gamMax < lorentz G.gam q.v) :
    fW G L q = lorentz G.gam q.v / Real.sqrt (lorentz G.gam q.v ^ 2 - L.gamMax ^ 2 + 1) ∧
    1 ≤ fW G L q ∧ fW G L q ≤ L.gamMax := by
  have hs := lorentz_sq G hp q.v
  set W := lorentz G.gam q.v with hWd
  have hW0 : 0 < W := by linarith
  have hg2 : 0 ≤ L.gamMax ^ 2 - 1 := by nlinarith
  have hlt : L.gamMax ^ 2 < W ^ 2 := by nlinarith
  have hW2 : 0 < W ^ 2 - 1 := by linarith
  have e0 : fVsq0 G L q = (L.gamMax ^ 2 - 1) / W ^ 2 := by
    have : fVsq0 G L q = G.dot3 q.v q.v *
        (Real.sqrt ((L.gamMax * L.gamMax - 1) / (W * W - 1)) ^ 2) / W ^ 2 := by
      simp only [fVsq0, fV0, fVp, ← hWd, if_pos hW, ADM.g4_ss, ADM.dot3, Fin.sum_univ_three]
      ring
    rw [this, Real.sq_sqrt (div_nonneg (by nlinarith) (by nlinarith)),
      show G.dot3 q.v q.v = W ^ 2 - 1 by linarith, ← sq, ← sq]
    field_simp
  have hnc : ¬ fVsq0 G L q > vsqMax L := by
    rw [e0, vsqMax, gt_iff_lt, not_lt, ← sq]
    have hgm : 0 < L.gamMax := by linarith
    have : 1 - 1 / L.gamMax ^ 2 = (L.gamMax ^ 2 - 1) / L.gamMax ^ 2 := by field_simp
    rw [this]
    exact div_le_div_of_nonneg_left hg2 (by positivity) hlt.le
  have e1 : fVsq G L q = (L.gamMax ^ 2 - 1) / W ^ 2 := by unfold fVsq; rw [if_neg hnc, e0]
  have hr : 0 < W ^ 2 - L.gamMax ^ 2 + 1 := by linarith
  have e2 : fW G L q = W / Real.sqrt (W ^ 2 - L.gamMax ^ 2 + 1) := by
    unfold fW
    rw [e1, show 1 - (L.gamMax ^ 2 - 1) / W ^ 2 = (W ^ 2 - L.gamMax ^ 2 + 1) / W ^ 2 by field_simp; ring,
      Real.sqrt_div' _ (by positivity), Real.sqrt_sq hW0.le, one_div_div]
  refine ⟨e2, ?_, ?_⟩
  · rw [e2, le_div_iff₀ (Real.sqrt_pos.2 hr), one_mul, Real.sqrt_le_left hW0.le]
    linarith
  · rw [e2, div_le_iff₀ (Real.sqrt_pos.2 hr)]
    have hgm : 0 ≤ L.gamMax := by linarith
    rw [← Real.sqrt_sq hgm, ← Real.sqrt_mul (by positivity), Real.sqrt_sq hgm]
    apply Real.le_sqrt_of_sq_le
    nlinarith [mul_nonneg hg2 (by linarith : 0 ≤ W ^ 2 - L.gamMax ^ 2)]

/-- C22 (face states). For every reconstructed state, limited or not: the density, specific energy and pressure used in the flux
respect their bounds, values within the bounds are used as they are, a value outside is replaced by the bound it violates, and the scalars `v²` and
`B·v` are the contractions of the velocity actually used. -/
theorem face_limits (G : ADM ℝ) (L : Limits) (q : Prim) (hf : 0 < L.rhoFloor) (hs : L.sieFloor ≤ L.sieMax) (hg : 1 ≤ L.gamMax) :
    (L.rhoFloor ≤ fRho L q ∧ q.rho ≤ fRho L q ∧ (fRho L q = q.rho ∨ fRho L q = L.rhoFloor)) ∧
    (L.sieFloor ≤ fU L q / fRho L q ∧ fU L q / fRho L q ≤ L.sieMax) ∧
    (L.sieFloor ≤ q.u / fRho L q → q.u / fRho L q ≤ L.sieMax → fU L q = q.u) ∧
    (q.u / fRho L q < L.sieFloor → fU L q = L.sieFloor * fRho L q) ∧
    (L.sieMax < q.u / fRho L q → fU L q = L.sieMax * fRho L q) ∧ 0 ≤ fP q ∧
    fVsq G L q = G.dot3 (fV G L q) (fV G L q) ∧ fBdotv G L q = G.dot3 q.B (fV G L q) := by
  have hr : 0 < fRho L q := lt_of_lt_of_le hf (le_max_right _ _)
  have hv : 0 ≤ vsqMax L := by
    unfold vsqMax
    have : 1 / (L.gamMax * L.gamMax) ≤ 1 := by
      rw [div_le_one (by positivity)]; nlinarith
    linarith
  refine ⟨⟨le_max_right _ _, le_max_left _ _, ?_⟩, ⟨?_, ?_⟩, ?_, ?_, ?_, le_max_right _ _, ?_, ?_⟩
  · exact max_choice _ _
  · unfold fU; split_ifs with h1 h2
    · rw [mul_div_cancel_left₀ _ hr.ne']; exact hs
    · exact h1.le
    · rw [mul_div_cancel_left₀ _ hr.ne']
  · unfold fU; split_ifs with h1 h2
    · rw [mul_div_cancel_left₀ _ hr.ne']
    · exact not_lt.1 h2
    · rw [mul_div_cancel_left₀ _ hr.ne']; exact hs
  · intro a b
    unfold fU; split_ifs with h1 h2
    · exact absurd b (not_le.2 h2)
    · rfl
    · have := le_antisymm a (not_lt.1 h1)
      rw [this]; field_simp
  · intro a; unfold fU; rw [if_neg (not_lt.2 a.le), mul_comm]
  · intro a; unfold fU; rw [if_pos (lt_of_le_of_lt hs a), if_pos a, mul_comm]
  · unfold fVsq fV
    split_ifs with h
    · have h0 : 0 < fVsq0 G L q := lt_of_le_of_lt hv h
      have e : G.dot3 (fun i => fV0 G L q i * Real.sqrt (vsqMax L / fVsq0 G L q)) (fun i => fV0 G L q i * Real.sqrt (vsqMax L / fVsq0 G L q))
          = fVsq0 G L q * Real.sqrt (vsqMax L / fVsq0 G L q) ^ 2 := by
        simp only [fVsq0, ADM.g4_ss, ADM.dot3, Fin.sum_univ_three]; ring
      rw [e, Real.sq_sqrt (by positivity)]
    · simp only [fVsq0, ADM.g4_ss, ADM.dot3]
  · unfold fBdotv fV
    simp only []
    split_ifs with h
    · simp only [ADM.g4_ss, ADM.dot3, Fin.sum_univ_three]; ring
    · simp only [ADM.g4_ss, ADM.dot3]

/-! ## C56: signal speeds -/

/-- C56. For every lapse, shift, sub-light normal velocity and `0 ≤ cmsq < 1`: the outgoing and ingoing
speeds are ordered, bracket the coordinate velocity of the fluid, and exceed the coordinate speed of light by at most
the regulariser term (zero when `eps = 0`). -/
theorem char_speeds_light_cone (eps alpha beta gdd vsq vel cmsq : ℝ) (he : 0 ≤ eps) (ha : 0 < alpha)
    (hg : 0 ≤ gdd) (hv0 : 0 ≤ vsq) (hv1 : vsq < 1) (hvel : vel ^ 2 ≤ gdd * vsq) (hc0 : 0 ≤ cmsq) (hc1 : cmsq < 1) :
    let vp := charSpeed eps alpha beta gdd vsq vel cmsq 1
    let vm := charSpeed eps alpha beta gdd vsq vel cmsq (-1)
    let slack := alpha * Real.sqrt eps / (1 - vsq * cmsq)
    vm ≤ alpha * vel - beta ∧ alpha * vel - beta ≤ vp ∧
    vp ≤ alpha * Real.sqrt gdd - beta + slack ∧ -(alpha * Real.sqrt gdd) - beta - slack ≤ vm := by
  have hvc : vsq * cmsq < 1 := by nlinarith
  have hD : 0 < 1 - vsq * cmsq := by linarith
  set rad := cmsq * (1 - vsq) * (gdd * (1 - vsq * cmsq) - vel * (vel * (1 - cmsq))) with hrad
  have hin : 0 ≤ gdd * (1 - vsq * cmsq) - vel * (vel * (1 - cmsq)) := by nlinarith
  have hr0 : 0 ≤ rad := mul_nonneg (mul_nonneg hc0 (by linarith)) hin
  set s := Real.sqrt gdd
  have hs0 : 0 ≤ s := Real.sqrt_nonneg _
  have hs2 : s ^ 2 = gdd := Real.sq_sqrt hg
  have hvs : |vel| ≤ s := by
    apply abs_le_of_sq_le_sq _ hs0
    rw [hs2]; nlinarith
  have hvabs := abs_le.1 hvs
  set R := Real.sqrt (makePositive eps rad) with hR
  -- upper bound on R
  have hRu : R ≤ Real.sqrt rad + Real.sqrt eps := by
    rw [hR, makePositive]
    rcases max_choice rad eps with h | h <;> rw [h]
    · linarith [Real.sqrt_nonneg eps]
    · linarith [Real.sqrt_nonneg rad]
  have hRl : Real.sqrt rad ≤ R := Real.sqrt_le_sqrt (le_max_left _ _)
  have key : ∀ w : ℝ, w ^ 2 = vel ^ 2 → |w| ≤ s → w * (1 - cmsq) + Real.sqrt rad ≤ s * (1 - vsq * cmsq) := by
    intro w hw hws
    have hw' := abs_le.1 hws
    have h0 : 0 ≤ s * (1 - vsq * cmsq) - w * (1 - cmsq) := by
      have : w * (1 - cmsq) ≤ s * (1 - cmsq) := mul_le_mul_of_nonneg_right hw'.2 (by linarith)
      have : s * (1 - cmsq) ≤ s * (1 - vsq * cmsq) := mul_le_mul_of_nonneg_left (by nlinarith) hs0
      linarith
    have : Real.sqrt rad ≤ s * (1 - vsq * cmsq) - w * (1 - cmsq) := by
      apply Real.sqrt_le_iff.2 ⟨h0, ?_⟩
      have hn : 0 ≤ (1 - vsq * cmsq) * (1 - cmsq) * (s - w) ^ 2 :=
        mul_nonneg (mul_nonneg hD.le (by linarith)) (sq_nonneg _)
      have e : (s * (1 - vsq * cmsq) - w * (1 - cmsq)) ^ 2 - rad =
          (1 - vsq * cmsq) * (1 - cmsq) * (s - w) ^ 2 := by
        rw [hrad, ← hs2]
        rw [show vel * (vel * (1 - cmsq)) = w ^ 2 * (1 - cmsq) by rw [hw]; ring]
        ring
      linarith
    linarith
  have low : |vel| * (cmsq * (1 - vsq)) ≤ Real.sqrt rad := by
    apply Real.le_sqrt_of_sq_le
    rw [mul_pow, sq_abs, hrad]
    have hcv : 0 ≤ cmsq * (1 - vsq) := mul_nonneg hc0 (by linarith)
    have h1 : vel ^ 2 ≤ gdd := by nlinarith
    have : vel ^ 2 * (cmsq * (1 - vsq)) ≤ gdd * (1 - vsq * cmsq) - vel * (vel * (1 - cmsq)) := by
      have := mul_le_mul_of_nonneg_right h1 hD.le
      nlinarith
    calc vel ^ 2 * (cmsq * (1 - vsq)) ^ 2 = (cmsq * (1 - vsq)) * (vel ^ 2 * (cmsq * (1 - vsq))) := by ring
      _ ≤ _ := mul_le_mul_of_nonneg_left this hcv
  have hcv : 0 ≤ cmsq * (1 - vsq) := mul_nonneg hc0 (by linarith)
  have lowp : vel * (cmsq * (1 - vsq)) ≤ R :=
    (mul_le_mul_of_nonneg_right (le_abs_self vel) hcv).trans (low.trans hRl)
  have lown : -vel * (cmsq * (1 - vsq)) ≤ R :=
    (mul_le_mul_of_nonneg_right (neg_le_abs vel) hcv).trans (low.trans hRl)
  have kp := key vel rfl hvs
  have kn := key (-vel) (by ring) (by rwa [abs_neg])
  have fold : ∀ t : ℝ, charSpeed eps alpha beta gdd vsq vel cmsq t =
      alpha * ((vel * (1 - cmsq) + t * R) / (1 - vsq * cmsq)) - beta := by
    intro t; unfold charSpeed; simp only [hR, hrad]; ring
  simp only [fold]
  refine ⟨?_, ?_, ?_, ?_⟩
  · have : (vel * (1 - cmsq) + -1 * R) / (1 - vsq * cmsq) ≤ vel := by
      rw [div_le_iff₀ hD]; nlinarith
    nlinarith
  · have : vel ≤ (vel * (1 - cmsq) + 1 * R) / (1 - vsq * cmsq) := by
      rw [le_div_iff₀ hD]; nlinarith
    nlinarith
  · have : (vel * (1 - cmsq) + 1 * R) / (1 - vsq * cmsq) ≤ s + Real.sqrt eps / (1 - vsq * cmsq) := by
      rw [div_le_iff₀ hD, add_mul, div_mul_cancel₀ _ hD.ne']; linarith
    have h2 := mul_le_mul_of_nonneg_left this ha.le
    have h3 : alpha * (Real.sqrt eps / (1 - vsq * cmsq)) = alpha * Real.sqrt eps / (1 - vsq * cmsq) := by ring
    rw [mul_add, h3] at h2
    linarith
  · have : -(s + Real.sqrt eps / (1 - vsq * cmsq)) ≤ (vel * (1 - cmsq) + -1 * R) / (1 - vsq * cmsq) := by
      rw [le_div_iff₀ hD, neg_mul, add_mul, div_mul_cancel₀ _ hD.ne']; linarith
    have h2 := mul_le_mul_of_nonneg_left this ha.le
    have h3 : alpha * (Real.sqrt eps / (1 - vsq * cmsq)) = alpha * Real.sqrt eps / (1 - vsq * cmsq) := by ring
    rw [mul_neg, mul_add, h3] at h2
    linarith

example : ∃ gdd vsq vel cmsq : ℝ, 0 ≤ gdd ∧ 0 ≤ vsq ∧ vsq < 1 ∧ vel ^ 2 ≤ gdd * vsq ∧ 0 ≤ cmsq ∧ cmsq < 1 ∧ vel ≠ 0 :=
  ⟨4, 1/2, 1, 1/3, by norm_num⟩

/-- C56. `cmsq` is always strictly between 0 and 1 for any state (positive `eps < 1/2`). -/
theorem cmsq_bounds (eps : ℝ) (G : ADM ℝ) (L : Limits) (g1 : ℝ) (q : Prim) (he : 0 < eps) (he1 : eps < 1/2) :
    0 < fcmsq eps G L g1 q ∧ fcmsq eps G L g1 q < 1 := by
  unfold fcmsq makeBounded
  simp only [zero_add, one_mul]
  exact ⟨lt_min (lt_of_lt_of_le he (le_max_right _ _)) (by linarith),
    lt_of_le_of_lt (min_le_right _ _) (by linarith)⟩

/-! ## C16: LLF and HLL -/

/-- C16. Consistency: with identical states on both sides LLF returns the physical flux, for all speeds. -/
theorem llf_consistent (gdet gammadet vm vp F U : ℝ) : llf gdet gammadet vm vp vm vp F F U U = F * gdet := by
  unfold llf; ring

/-- C16. Consistency of HLL: relative error at most `small / (cr - cl)`; exact for `small = 0`. -/
theorem hll_consistent (small gdet gammadet vm vp F U : ℝ) (hs : 0 ≤ small) (hv : min vm 0 < max vp 0) :
    hll small gdet gammadet vm vp vm vp F F U U =
      F * gdet * ((max vp 0 - min vm 0) / (max vp 0 - min vm 0 + small)) := by
  unfold hll
  simp only [min_self, max_self, sub_self, mul_zero, zero_mul, add_zero]
  rw [ratio_nonneg_eq _ _ _ (by linarith)]
  ring

/-- C16, degenerate case: when no signal leaves the face in either direction HLL returns exactly zero (all four
speeds zero), instead of the physical flux. -/
theorem hll_no_signal (small gdet gammadet Fl Fr Ul Ur : ℝ) : hll small gdet gammadet 0 0 0 0 Fl Fr Ul Ur = 0 := by
  simp [hll]

/-- C16. Upwinding: if no signal travels left, HLL is the left flux (up to the regulariser); if none travels
right it is the right flux. -/
theorem hll_upwind (small gdet gammadet vml vpl vmr vpr Fl Fr Ul Ur : ℝ) (hs : 0 ≤ small) :
    (0 ≤ vml → 0 ≤ vmr → 0 < max vpl vpr →
      hll small gdet gammadet vml vpl vmr vpr Fl Fr Ul Ur =
        Fl * gdet * (max vpl vpr / (max vpl vpr + small))) ∧
    (vpl ≤ 0 → vpr ≤ 0 → min vml vmr < 0 →
      hll small gdet gammadet vml vpl vmr vpr Fl Fr Ul Ur =
        Fr * gdet * (-min vml vmr / (-min vml vmr + small))) := by
  constructor
  · intro h1 h2 h3
    have e1 : min (min vml vmr) 0 = 0 := min_eq_right (le_min h1 h2)
    have e2 : max (max vpl vpr) 0 = max vpl vpr := max_eq_left h3.le
    unfold hll
    simp only [e1, e2, sub_zero, mul_zero, zero_mul, add_zero]
    rw [ratio_nonneg_eq _ _ _ h3.le]; ring
  · intro h1 h2 h3
    have e1 : min (min vml vmr) 0 = min vml vmr := min_eq_left h3.le
    have e2 : max (max vpl vpr) 0 = 0 := max_eq_right (max_le h1 h2)
    unfold hll
    simp only [e1, e2, zero_sub, zero_mul, add_zero, zero_mul]
    rw [ratio_nonneg_eq _ _ _ (by linarith)]; ring

/-- C16. Reflection symmetry: mirroring a face (swap sides, reverse speeds and fluxes) reverses the numerical
flux, for LLF and for HLL. -/
theorem flux_mirror (small gdet gammadet vml vpl vmr vpr Fl Fr Ul Ur : ℝ) :
    llf gdet gammadet (-vpr) (-vmr) (-vpl) (-vml) (-Fr) (-Fl) Ur Ul =
      -llf gdet gammadet vml vpl vmr vpr Fl Fr Ul Ur ∧
    hll small gdet gammadet (-vpr) (-vmr) (-vpl) (-vml) (-Fr) (-Fl) Ur Ul =
      -hll small gdet gammadet vml vpl vmr vpr Fl Fr Ul Ur := by
  constructor
  · unfold llf
    have : max (max (- -vpr) (-vmr)) (max (- -vpl) (-vml)) = max (max (-vml) vpl) (max (-vmr) vpr) := by
      rw [neg_neg, neg_neg, max_comm vpr, max_comm vpl, max_comm (max (-vmr) vpr)]
    rw [this]; ring
  · unfold hll
    have e1 : min (min (-vpr) (-vpl)) 0 = -max (max vpl vpr) 0 := by
      rw [min_neg_neg, max_comm vpr, ← neg_zero (G := ℝ), min_neg_neg, neg_zero]
    have e2 : max (max (-vmr) (-vml)) 0 = -min (min vml vmr) 0 := by
      rw [max_neg_neg, min_comm vmr, ← neg_zero (G := ℝ), max_neg_neg, neg_zero]
    simp only [e1, e2]
    rw [show -min (min vml vmr) 0 - -max (max vpl vpr) 0 = max (max vpl vpr) 0 - min (min vml vmr) 0 by ring]
    ring

/-- C16. LLF is at least as dissipative as every signal speed: `cmax` bounds all four speeds in modulus
whenever each side's speeds are ordered. -/
theorem llf_speed_bounds (vml vpl vmr vpr : ℝ) (hl : vml ≤ vpl) (hr : vmr ≤ vpr) :
    let c := max (max (-vml) vpl) (max (-vmr) vpr)
    |vml| ≤ c ∧ |vpl| ≤ c ∧ |vmr| ≤ c ∧ |vpr| ≤ c ∧ 0 ≤ c := by
  intro c
  have a1 : -vml ≤ c := (le_max_left _ _).trans (le_max_left _ _)
  have a2 : vpl ≤ c := (le_max_right _ _).trans (le_max_left _ _)
  have a3 : -vmr ≤ c := (le_max_left _ _).trans (le_max_right _ _)
  have a4 : vpr ≤ c := (le_max_right _ _).trans (le_max_right _ _)
  refine ⟨abs_le.2 ⟨by linarith, by linarith⟩, abs_le.2 ⟨by linarith, by linarith⟩,
    abs_le.2 ⟨by linarith, by linarith⟩, abs_le.2 ⟨by linarith, by linarith⟩, by linarith⟩

/-- C16. LLF is a monotone flux with the right upwinding: for a quantity advected with a speed `a` bounded by every signal
speed, the numerical flux does not decrease with the left state and does not increase with the right state; and when all four
speeds are `±a` it is exactly the upwind flux. -/
theorem llf_monotone (g vml vpl vmr vpr a Ul Ul' Ur Ur' : ℝ) (hg : 0 ≤ g)
    (ha : |a| ≤ max (max (-vml) vpl) (max (-vmr) vpr)) (hl : Ul ≤ Ul') (hr : Ur' ≤ Ur) :
    llf g g vml vpl vmr vpr (a * Ul) (a * Ur) Ul Ur ≤ llf g g vml vpl vmr vpr (a * Ul') (a * Ur') Ul' Ur' := by
  unfold llf
  simp only []
  generalize max (max (-vml) vpl) (max (-vmr) vpr) = c at ha ⊢
  obtain ⟨h1, h2⟩ := abs_le.1 ha
  have k1 : 0 ≤ (a + c) * (Ul' - Ul) := mul_nonneg (by linarith) (by linarith)
  have k2 : 0 ≤ (c - a) * (Ur - Ur') := mul_nonneg (by linarith) (by linarith)
  nlinarith [mul_nonneg hg k1, mul_nonneg hg k2]

theorem llf_upwind (g a Ul Ur : ℝ) :
    (0 ≤ a → llf g g a a a a (a * Ul) (a * Ur) Ul Ur = a * Ul * g) ∧
    (a ≤ 0 → llf g g a a a a (a * Ul) (a * Ur) Ul Ur = a * Ur * g) := by
  constructor
  · intro h
    have : max (max (-a) a) (max (-a) a) = a := by rw [max_self]; exact max_eq_right (by linarith)
    unfold llf; simp only [this]; ring
  · intro h
    have : max (max (-a) a) (max (-a) a) = -a := by rw [max_self]; exact max_eq_left (by linarith)
    unfold llf; simp only [this]; ring

/-- C56. Away from the limiters the fast-speed bound is the textbook one: `c² = c_s² + v_A² (1 - c_s²)` with
`c_s² = Γ₁ P / (ρ + u + P)` and `v_A² = b² / (ρ + u + P + b²)`, `b²` the invariant field strength. -/
theorem cmsq_eq (eps : ℝ) (G : ADM ℝ) (L : Limits) (g1 : ℝ) (q : Prim) (hi : Inactive G L q) (hp : PosDef G)
    (hu : 0 ≤ q.u) (hb : 0 ≤ tbsq 0 G q) (he : 0 < eps)
    (h1 : eps ≤ q.rho + q.u + q.P)
    (h2 : eps ≤ g1 * q.P / (q.rho + q.u + q.P)) (h3 : g1 * q.P / (q.rho + q.u + q.P) ≤ 1 - eps)
    (h4 : g1 * q.P / (q.rho + q.u + q.P) +
      tbsq 0 G q / (q.rho + q.u + q.P + tbsq 0 G q) * (1 - g1 * q.P / (q.rho + q.u + q.P)) ≤ 1 - eps) :
    fcmsq eps G L g1 q = g1 * q.P / (q.rho + q.u + q.P) +
      tbsq 0 G q / (q.rho + q.u + q.P + tbsq 0 G q) * (1 - g1 * q.P / (q.rho + q.u + q.P)) := by
  have hW1 := lorentz_ge_one G hp q.v
  have hW : 0 < lorentz G.gam q.v := by linarith
  have hh : 0 < q.rho + q.u + q.P := by linarith
  set W := lorentz G.gam q.v with hWd
  have hWW : 1 ≤ W * W := by nlinarith
  have e1 : frhohWsq G L q = (q.rho + q.u + q.P) * W * W := by
    rw [frhohWsq, fRho_eq hi, fU_eq hi, fP_eq hi, fW_eq hi hp]
  have m1 : makePositive eps ((q.rho + q.u + q.P) * W * W) = (q.rho + q.u + q.P) * W * W :=
    max_eq_left (by nlinarith [mul_le_mul_of_nonneg_left hWW hh.le])
  have m2 : makePositive eps ((q.rho + q.u + q.P) * W * W + tbsq 0 G q * W * W) =
      (q.rho + q.u + q.P) * W * W + tbsq 0 G q * W * W :=
    max_eq_left (by
      have := mul_nonneg hb (by positivity : 0 ≤ W * W)
      nlinarith [mul_le_mul_of_nonneg_left hWW hh.le])
  have c1 : g1 * q.P * W * W / ((q.rho + q.u + q.P) * W * W) = g1 * q.P / (q.rho + q.u + q.P) := by
    field_simp
  have c2 : tbsq 0 G q * W * W / ((q.rho + q.u + q.P) * W * W + tbsq 0 G q * W * W) =
      tbsq 0 G q / (q.rho + q.u + q.P + tbsq 0 G q) := by
    have : q.rho + q.u + q.P + tbsq 0 G q ≠ 0 := by positivity
    rw [show (q.rho + q.u + q.P) * W * W + tbsq 0 G q * W * W = (q.rho + q.u + q.P + tbsq 0 G q) * (W * W) by ring,
      show tbsq 0 G q * W * W = tbsq 0 G q * (W * W) by ring]
    exact mul_div_mul_right _ _ (by positivity)
  unfold fcmsq
  simp only [e1, fW_eq hi hp, fbsq_eq hi hp, fP_eq hi, ← hWd, m1, m2, c1, c2]
  have b1 : makeBounded eps (g1 * q.P / (q.rho + q.u + q.P)) 0 1 = g1 * q.P / (q.rho + q.u + q.P) := by
    unfold makeBounded
    rw [zero_add, one_mul, max_eq_left h2, min_eq_left h3]
  rw [b1]
  unfold makeBounded
  rw [zero_add, one_mul, max_eq_left, min_eq_left h4]
  have : 0 ≤ tbsq 0 G q / (q.rho + q.u + q.P + tbsq 0 G q) := by positivity
  nlinarith [mul_nonneg this (by linarith : 0 ≤ 1 - g1 * q.P / (q.rho + q.u + q.P))]

end Phoebus.Riemann
