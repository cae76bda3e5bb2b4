import Verif.MeshRun.CompBounds

/-!
# C139 at the default CFL number: the electron number of a cell can become negative

A cold fluid of uniform density moves uniformly with velocity `4/5`; the electron fractions of the four cells are `0, 1/10, 3/10, 7/10`.  With the linear
reconstruction more electrons leave the second cell in a stage than it contains.
-/
namespace Phoebus.MeshRun
open FluxCT FixFlux FluxSweep Finset Riemann Geom

/-- electron fraction of cell `i` of four. -/
noncomputable def yYe (i : ℤ) : ℝ := if i = 0 then 0 else if i = 1 then 1/10 else if i = 2 then 3/10 else 7/10

/-- slot 0: density, slot 1: electron fraction, slot 2: velocity; a uniform flow. -/
noncomputable def yStage : StageData 3 := { wStage with others := fun _ _ n _ => if n = 0 then 1 else 4/3 }

/-- the conserved pair. -/
noncomputable def yU : Arr ℝ × Arr ℝ := (fun _ _ _ => 5/3, fun _ _ i => yYe i * (5/3))

theorem y_uniform : Uniform yStage (1/1000000) C2P.flat wLim 1 :=
  ⟨C2P.flat_valid.1, C2P.flat_valid.2, by norm_num [C2P.flat], fun _ _ => ⟨rfl, rfl, rfl, by norm_num [yStage, wStage, C2P.flat]⟩, one_pos, by norm_num,
    by norm_num [wLim], by norm_num [wLim], by norm_num [wLim], fun _ => 5/3, fun _ _ _ => rfl⟩

theorem y_background : Background yStage (1/1000000) := by
  obtain ⟨a, b, c, g, e, f, h, i, j, k⟩ := y_uniform
  refine ⟨fun _ _ => a, fun _ _ => b, fun _ _ => c, fun _ _ => ⟨e, (g 0 0).2.2.2⟩, f, fun _ _ => h, fun _ _ => i, fun _ _ => j, ?_⟩
  exact ⟨fun _ _ _ => 5/3, fun _ _ _ => rfl⟩

/-- velocity and mass of the uniform state. -/
theorem y_state : fVtil C2P.flat wLim (wPrim 1 (4/3)) 0 = 4/5 ∧ ∀ y, (fluxU true C2P.flat wLim y (wPrim 1 (4/3))).rho = 5/3 := by
  have hl : Rel.lorentz C2P.flat.gam (wPrim 1 (4/3)).v = 5/3 := by
    unfold Rel.lorentz
    rw [show (1 + ∑ i, ∑ j, C2P.flat.gam i j * (wPrim 1 (4/3)).v i * (wPrim 1 (4/3)).v j) = (5/3)^2 by
      simp [Fin.sum_univ_three, C2P.flat, wPrim]; norm_num]
    exact Real.sqrt_sq (by norm_num)
  have hp : fVp C2P.flat wLim (wPrim 1 (4/3)) = (wPrim 1 (4/3)).v := by
    unfold fVp; rw [hl]; rw [if_neg (by norm_num [wLim])]
  have h0 : fV0 C2P.flat wLim (wPrim 1 (4/3)) = ![4/5, 0, 0] := by
    unfold fV0; rw [hp, hl]; funext i; fin_cases i <;> simp [wPrim]; norm_num
  have hs : fVsq0 C2P.flat wLim (wPrim 1 (4/3)) = 16/25 := by
    unfold fVsq0; rw [h0]
    simp [Fin.sum_univ_three, ADM.g4, C2P.flat]; norm_num
  have hm : vsqMax wLim = 3/4 := by norm_num [vsqMax, wLim]
  have hV : fV C2P.flat wLim (wPrim 1 (4/3)) = ![4/5, 0, 0] := by
    unfold fV; rw [hs, hm, if_neg (by norm_num), h0]
  have hq : fVsq C2P.flat wLim (wPrim 1 (4/3)) = 16/25 := by
    unfold fVsq; rw [hs, hm, if_neg (by norm_num)]
  constructor
  · unfold fVtil; rw [hV]; simp [C2P.flat]
  · intro y
    show fRho _ _ * fW _ _ _ = _
    unfold fRho fW
    rw [hq, max_eq_left (by norm_num [wPrim, wLim])]
    rw [show (1 - 16/25 : ℝ) = (3/5)^2 by norm_num, Real.sqrt_sq (by norm_num)]
    norm_num [wPrim]

theorem y_prims (c : Pos) : prims exPer wSetup yStage yU 0 c = 1 ∧ prims exPer wSetup yStage yU 1 c = yYe (c 0 % 4) ∧ prims exPer wSetup yStage yU 2 c = 4/3 := by
  refine ⟨by simp [prims, wSetup, yStage], ?_, by simp [prims, wSetup, yStage]⟩
  have e : prims exPer wSetup yStage yU 1 c = recoverYe 0 (yYe (c 0 % 4) * (5/3)) (5/3) := by
    simp [prims, wSetup, yU, Mesh.wrap, exPer, exMesh]
  rw [e]; exact recover_exact _ _ (by norm_num)

/-- the face states: the uniform flow with the reconstructed electron fraction. -/
theorem y_face (f : Pos) : yStage.prim (below exPer wSetup yStage yU 0 f) = wPrim 1 (4/3) ∧ yStage.prim (above exPer wSetup yStage yU 0 f) = wPrim 1 (4/3) := by
  have k := kernel_const wSetup.ew wSetup.em (by norm_num [wSetup]) (by norm_num [wSetup]) wSetup.rt
  constructor
  · show wPrim (below exPer wSetup yStage yU 0 f 0) (below exPer wSetup yStage yU 0 f 2) = _
    rw [show below exPer wSetup yStage yU 0 f 0 = 1 from (k _ 1 fun m => (y_prims _).1).1,
      show below exPer wSetup yStage yU 0 f 2 = 4/3 from (k _ (4/3) fun m => (y_prims _).2.2).1]
  · show wPrim (above exPer wSetup yStage yU 0 f 0) (above exPer wSetup yStage yU 0 f 2) = _
    rw [show above exPer wSetup yStage yU 0 f 0 = 1 from (k _ 1 fun m => (y_prims _).1).2,
      show above exPer wSetup yStage yU 0 f 2 = 4/3 from (k _ (4/3) fun m => (y_prims _).2.2).2]

theorem y_sig (f : Pos) : faceSig exPer wSetup yStage yU 0 f ≤ 1.004 ∧ 4/5 ≤ faceSig exPer wSetup yStage yU 0 f := by
  constructor
  · unfold faceSig solverSpeed
    simp only [wSetup, Timestep.llfSpeed]
    exact max_le (max_le (w_speed _ _).2 (w_speed _ _).1) (max_le (w_speed _ _).2 (w_speed _ _).1)
  · obtain ⟨s1, -, -, -⟩ := solverSpeed_bounds wSetup (yStage.speeds 0 f (below exPer wSetup yStage yU 0 f)) (yStage.speeds 0 f (above exPer wSetup yStage yU 0 f))
    have br := (speeds_bracket (1/1000000) (by norm_num) (by norm_num) C2P.flat C2P.flat_valid.1 C2P.flat_valid.2 (by norm_num [C2P.flat]) wLim
      (by norm_num [wLim]) (by norm_num [wLim]) (by norm_num [wLim]) (5/3) (yStage.prim (below exPer wSetup yStage yU 0 f)) 0).2
    have e : C2P.flat.alpha * fVtil C2P.flat wLim (yStage.prim (below exPer wSetup yStage yU 0 f)) 0 = 4/5 := by
      rw [(y_face f).1, y_state.1]; simp [C2P.flat]
    rw [e] at br
    exact br.trans s1

theorem y_plm1 : Recon.piecewiseLinear (0 : ℝ) (1/10) (3/10) = (7/40, 1/40) := by
  norm_num [Recon.piecewiseLinear, Recon.mc, Recon.copysign]
theorem y_plm2 : Recon.piecewiseLinear (1/10 : ℝ) (3/10) (7/10) = (9/20, 3/20) := by
  norm_num [Recon.piecewiseLinear, Recon.mc, Recon.copysign]
theorem y_plm0 : Recon.piecewiseLinear (7/10 : ℝ) 0 (1/10) = (0, 0) := by
  norm_num [Recon.piecewiseLinear, Recon.mc, Recon.copysign]

/-- electron fractions at the two faces of cell `1`. -/
theorem y_edges : below exPer wSetup yStage yU 0 ![2, 0, 0] 1 = 7/40 ∧ above exPer wSetup yStage yU 0 ![2, 0, 0] 1 = 3/20 ∧
    below exPer wSetup yStage yU 0 ![1, 0, 0] 1 = 0 ∧ above exPer wSetup yStage yU 0 ![1, 0, 0] 1 = 1/40 := by
  have k : ∀ q : ℤ → ℝ, kernel wSetup.ew wSetup.em wSetup.rt q = Recon.piecewiseLinear (q (-1)) (q 0) (q 1) := fun _ => rfl
  have e1 := congrArg Prod.fst y_plm1
  have e2 := congrArg Prod.snd y_plm2
  have e3 := congrArg Prod.fst y_plm0
  have e4 := congrArg Prod.snd y_plm1
  refine ⟨?_, ?_, ?_, ?_⟩
  · unfold below stateL; rw [k]; simp only [(y_prims _).2.1]; norm_num [unit, yYe] at e1 ⊢; exact e1
  · unfold above stateR; rw [k]; simp only [(y_prims _).2.1]; norm_num [unit, yYe] at e2 ⊢; exact e2
  · unfold below stateL; rw [k]; simp only [(y_prims _).2.1]; norm_num [unit, yYe] at e3 ⊢; exact e3
  · unfold above stateR; rw [k]; simp only [(y_prims _).2.1]; norm_num [unit, yYe] at e4 ⊢; exact e4

/-- fluxes through a face of the example. -/
theorem y_fluxes (i : ℤ) : let f : Pos := ![i, 0, 0]
    stageFlux exPer wSetup yStage yU 0 .rho 0 0 i = 4/3 ∧
    stageFlux exPer wSetup yStage yU 0 yeVar 0 0 i = 5/6 * (4/5 * (below exPer wSetup yStage yU 0 f 1 + above exPer wSetup yStage yU 0 f 1)
      - faceSig exPer wSetup yStage yU 0 f * (above exPer wSetup yStage yU 0 f 1 - below exPer wSetup yStage yU 0 f 1)) := by
  intro f
  obtain ⟨h1, h2⟩ := y_face f
  have e1 : stageFlux exPer wSetup yStage yU 0 .rho 0 0 i = (faceFluxes wSetup yStage 0 f (below exPer wSetup yStage yU 0 f) (above exPer wSetup yStage yU 0 f)).1 := by
    unfold stageFlux; simp only [if_true]; rfl
  have e2 : stageFlux exPer wSetup yStage yU 0 yeVar 0 0 i = (faceFluxes wSetup yStage 0 f (below exPer wSetup yStage yU 0 f) (above exPer wSetup yStage yU 0 f)).2 := by
    unfold stageFlux
    have h1 : (yeVar = Var.rho) = False := by simp [yeVar]
    simp only [h1, if_false, if_true]; rfl
  have hs : faceSig exPer wSetup yStage yU 0 f =
    Timestep.llfSpeed (yStage.speeds 0 f (below exPer wSetup yStage yU 0 f)).1 (yStage.speeds 0 f (below exPer wSetup yStage yU 0 f)).2
      (yStage.speeds 0 f (above exPer wSetup yStage yU 0 f)).1 (yStage.speeds 0 f (above exPer wSetup yStage yU 0 f)).2 := rfl
  have hL : ∀ f, yStage.L 0 f = wLim := fun _ => rfl
  have hG : ∀ f, yStage.G 0 f = C2P.flat := fun _ => rfl
  have hd : ∀ f, yStage.gdet 0 f = 1 ∧ yStage.gammadet 0 f = 1 := fun _ => ⟨rfl, rfl⟩
  have hye : ∀ y, (fluxU true C2P.flat wLim y (wPrim 1 (4/3))).ye = 5/3 * y := by
    intro y; rw [← y_state.2 y]; rfl
  have hFr : ∀ y, (fluxF true C2P.flat wLim y (wPrim 1 (4/3)) 0).rho = 4/3 := by
    intro y
    show (fluxU true C2P.flat wLim y (wPrim 1 (4/3))).rho * fVtil C2P.flat wLim (wPrim 1 (4/3)) 0 = _
    rw [y_state.2, y_state.1]; norm_num
  have hFy : ∀ y, (fluxF true C2P.flat wLim y (wPrim 1 (4/3)) 0).ye = 4/3 * y := by
    intro y
    show (fluxU true C2P.flat wLim y (wPrim 1 (4/3))).ye * fVtil C2P.flat wLim (wPrim 1 (4/3)) 0 = _
    rw [hye, y_state.1]; ring
  have hv : wSetup.valencia = true := rfl
  have hn : wSetup.nye = 1 := rfl
  have hc : ∀ g g' a b c d e x, combine wSetup g g' a b c d e x = llf g g' a.1 a.2 b.1 b.2 c d e x := fun _ _ _ _ _ _ _ _ => rfl
  rw [e1, e2, hs]
  constructor
  · simp only [faceFluxes, h1, h2, hL, hG, (hd _).1, (hd _).2, hc, hv, hFr, y_state.2, llf]; norm_num
  · simp only [faceFluxes, h1, h2, hL, hG, (hd _).1, (hd _).2, hc, hv, hn, hFy, hye, llf, Timestep.llfSpeed]; ring

theorem y_rate (v : Var) (hv : v ≠ Var.B 1) : exPer.rate exOwn (fun _ => 1) (stageFlux exPer wSetup yStage yU) v 0 0 1 =
    -(stageFlux exPer wSetup yStage yU 0 v 0 0 2 - stageFlux exPer wSetup yStage yU 0 v 0 0 1) := by
  have hH : exPer.Has 0 0 1 := w_has.1
  have hw : exPer.whole.Has 0 0 1 := w_has.2
  rw [rate_whole exPer exOwn ex_per.1 _ _ v hv 0 0 1 hH]
  have nw := blk_nonempty exPer.whole hw
  have u1 : fixFluxes (exPer.cfg exPer.whole) exPer.whole.blk (stageFlux exPer wSetup yStage yU) 0 v 0 0 1 = stageFlux exPer wSetup yStage yU 0 v 0 0 1 := by
    refine interior_faces_untouched _ _ nw _ v 0 0 0 1 (face_used exPer.whole hw 0 0 0 1 (Or.inl ⟨rfl, rfl, rfl⟩)) ?_
    intro o _; rfl
  have u2 : fixFluxes (exPer.cfg exPer.whole) exPer.whole.blk (stageFlux exPer wSetup yStage yU) 0 v 0 0 2 = stageFlux exPer wSetup yStage yU 0 v 0 0 2 := by
    refine interior_faces_untouched _ _ nw _ v 0 0 0 2 (face_used exPer.whole hw 0 0 0 2 (by right; simp)) ?_
    intro o _; rfl
  have hn : exPer.ndim = 1 := rfl
  unfold fluxDiv mask
  rw [hn]
  simp only [show (1 + 1 : ℤ) = 2 from rfl, u1, u2]
  norm_num

theorem y_cfl (k j i : ℤ) : cflRate exPer (fun _ => 1) wSetup yStage yU k j i ≤ 1.004 := by
  have hd : Timestep.dirs exPer.ndim = {0} := by decide
  unfold cflRate
  rw [hd, sum_singleton, div_one]
  exact max_le (y_sig ![i, j, k]).1 (y_sig fun e => (![i, j, k] : Pos) e + unit 0 e).1

/-- **C139 fails with the linear reconstruction at the default CFL number**: a uniform flow in flat space, electron fractions in `[0, 7/10]`, a time step that
obeys the CFL condition with `cfl = 0.8` (fluid.cpp:63); after one stage the density of the cell is what it was and its electron fraction is below `-1/100`. -/
theorem ye_negative :
    wSetup.rt = .linear ∧ exPer.Tiled exOwn ∧ (∀ d, exPer.per d = true) ∧ Background yStage (1/1000000) ∧ exPer.DensityPos yU ∧ exPer.YeWithin 0 (7/10) yU ∧
    (∀ k j i, exPer.Has k j i → 0.79 * cflRate exPer (fun _ => 1) wSetup yStage yU k j i ≤ 0.8) ∧ exPer.Has 0 0 1 ∧
    (pairStage exPer exOwn (fun _ => 1) wSetup 0.79 yU yU yStage).1 0 0 1 = 5/3 ∧
    (pairStage exPer exOwn (fun _ => 1) wSetup 0.79 yU yU yStage).2 0 0 1 < -(1/100) * (5/3) := by
  have hy : ∀ i, 0 ≤ yYe i ∧ yYe i ≤ 7/10 := by intro i; unfold yYe; split_ifs <;> norm_num
  have hb : yStage.beta = 1 := rfl
  refine ⟨rfl, ex_per.1, ex_per.2.1, y_background, fun k j i _ => by norm_num [yU], ?_, ?_, w_has.1, ?_, ?_⟩
  · intro k j i _
    have := hy i
    simp only [yU]
    constructor
    · have := this.1; linarith
    · have := this.2; linarith
  · intro k j i _
    have := y_cfl k j i
    nlinarith
  · simp only [pairStage, stage]
    rw [y_rate _ (by decide), (y_fluxes 2).1, (y_fluxes 1).1, hb]
    norm_num [yU]
  · simp only [pairStage, stage]
    obtain ⟨b2, a2, b1, a1⟩ := y_edges
    obtain ⟨-, f2⟩ := y_fluxes 2
    obtain ⟨-, f1⟩ := y_fluxes 1
    rw [b2, a2] at f2
    rw [b1, a1] at f1
    rw [y_rate _ (by simp [yeVar]), f1, f2, hb]
    have s2 := (y_sig ![2, 0, 0]).2
    have s1 := (y_sig ![1, 0, 0]).2
    have hu : yU.2 0 0 1 = 1/6 := by norm_num [yU, yYe]
    rw [hu]
    norm_num
    linarith

/-- the same initial data with a smaller time step meet the hypotheses of `composition_bounds_partial` and of `electrons_nonneg_partial`. -/
theorem ex_bounds : RunOkGen exPer exOwn (fun _ => 1) wSetup (1/1000000) 1 (1/4) [(0.2, [yStage])] yU ∧ wSetup.small = 0 ∧ exPer.DensityPos yU ∧
    exPer.YeWithin 0 (7/10) yU ∧ 4 * 1 * (1/4 : ℝ) ≤ 1 := by
  refine ⟨⟨by norm_num, ⟨⟨y_background, by norm_num [yStage, wStage], ?_, ?_⟩, trivial⟩, trivial⟩, rfl, ye_negative.2.2.2.2.1, ye_negative.2.2.2.2.2.1, by norm_num⟩
  · intro k j i _
    refine ⟨by norm_num [yU], fun d hd => ?_⟩
    have hd0 : d = 0 := by
      have hn : exPer.ndim = 1 := rfl
      rw [hn] at hd
      exact Fin.ext (by simpa using hd)
    subst hd0
    have m : ∀ f q, yStage.prim q = wPrim 1 (4/3) → faceMass wSetup yStage 0 f q ≤ 1 * yU.1 k j i := by
      intro f q hq
      unfold faceMass
      rw [hq]
      show 1 * (fluxU true C2P.flat wLim 0 (wPrim 1 (4/3))).rho ≤ _
      rw [y_state.2]; simp [yU]
    exact ⟨m _ _ (y_face _).2, m _ _ (y_face _).1⟩
  · intro k j i _
    have := y_cfl k j i
    show 0.2 * _ ≤ _
    linarith

end Phoebus.MeshRun
