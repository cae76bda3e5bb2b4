import Verif.MeshRun.PositivityGen

/-!
# C125: with the piecewise linear reconstruction the density can become negative at the default CFL number

A single dense cell at rest between two thin cells that move away from it.  The linear reconstruction gives the two faces of the dense cell opposite
velocities, both outwards, so the two faces together drain up to `2 cfl` times the mass of the cell.
-/
namespace Phoebus.MeshRun
open FluxCT FixFlux FluxSweep Finset Riemann Geom

/-- density of cell `i` of four. -/
noncomputable def wRho (i : ℤ) : ℝ := if i = 1 then 1 else 1/100
/-- stored velocity `W v` of cell `i`: the thin neighbours of cell `1` move away from it. -/
noncomputable def wVel (i : ℤ) : ℝ := if i = 0 then -(3/2) else if i = 2 then 3/2 else 0
/-- limits. -/
noncomputable def wLim : Limits := ⟨1/100, 0, 10, 2⟩
/-- a cold fluid state. -/
noncomputable def wPrim (r v : ℝ) : Rel.Prim := ⟨r, 0, 0, ![v, 0, 0], fun _ => 0⟩

/-- slot 0: density, slot 1: electron fraction, slot 2: velocity. -/
noncomputable def wStage : StageData 3 :=
  { beta := 1
    others := fun _ _ n c => if n = 0 then wRho (exPer.wrap c 0) else wVel (exPer.wrap c 0)
    prim := fun q => wPrim (q 0) (q 2)
    G := fun _ _ => C2P.flat
    L := fun _ _ => wLim
    speeds := fun d _ q => codeSpeeds (1/1000000) C2P.flat wLim (5/3) (wPrim (q 0) (q 2)) d
    gdet := fun _ _ => 1
    gammadet := fun _ _ => 1 }

/-- piecewise linear reconstruction, LLF. -/
noncomputable def wSetup : Setup 3 := ⟨0, 1/1000, 1/1000, .linear, 1, .llf, true⟩

/-- conserved density of the states. -/
noncomputable def wU : Arr ℝ × Arr ℝ :=
  (fun _ _ i => (fluxU true C2P.flat wLim 0 (wPrim (wRho i) (wVel i))).rho,
   fun _ _ i => (fluxU true C2P.flat wLim 0 (wPrim (wRho i) (wVel i))).rho / 2)

theorem w_uniform : Uniform wStage (1/1000000) C2P.flat wLim 1 :=
  ⟨C2P.flat_valid.1, C2P.flat_valid.2, by norm_num [C2P.flat], fun _ _ => ⟨rfl, rfl, rfl, by norm_num [wStage, C2P.flat]⟩, one_pos, by norm_num,
    by norm_num [wLim], by norm_num [wLim], by norm_num [wLim], fun _ => 5/3, fun _ _ _ => rfl⟩

theorem w_background : Background wStage (1/1000000) := by
  obtain ⟨a, b, c, g, e, f, h, i, j, k⟩ := w_uniform
  refine ⟨fun _ _ => a, fun _ _ => b, fun _ _ => c, fun _ _ => ⟨e, (g 0 0).2.2.2⟩, f, fun _ _ => h, fun _ _ => i, fun _ _ => j, ?_⟩
  exact ⟨fun _ _ _ => 5/3, fun _ _ _ => rfl⟩

/-- no face speed exceeds the speed of light by more than 0.4 per cent. -/
theorem w_speed (r v : ℝ) :
    (codeSpeeds (1/1000000) C2P.flat wLim (5/3) (wPrim r v) 0).2 ≤ 1.004 ∧ -(codeSpeeds (1/1000000) C2P.flat wLim (5/3) (wPrim r v) 0).1 ≤ 1.004 := by
  set q := wPrim r v
  obtain ⟨c0, c1⟩ := Riemann.cmsq_bounds (1/1000000) C2P.flat wLim (5/3) q (by norm_num) (by norm_num)
  obtain ⟨-, -, -, -, -, -, hv, -⟩ := face_limits C2P.flat wLim q (by norm_num [wLim]) (by norm_num [wLim]) (by norm_num [wLim])
  have hv0 : 0 ≤ fVsq C2P.flat wLim q := by rw [hv]; exact C2P.flat_valid.2 _
  have hm : vsqMax wLim = 3/4 := by norm_num [vsqMax, wLim]
  have hv1 : fVsq C2P.flat wLim q ≤ 3/4 := by
    unfold fVsq
    rw [hm]
    split_ifs with hh
    · rw [mul_div_cancel₀ _ (by linarith)]
    · linarith
  obtain ⟨b1, b2⟩ := component_bound C2P.flat_valid.1 C2P.flat_valid.2 (fV C2P.flat wLim q) 0
  rw [← hv] at b1
  have hf : C2P.flat.alpha = 1 ∧ C2P.flat.beta 0 = 0 ∧ C2P.flat.gamInv 0 0 = 1 := by simp [C2P.flat]
  obtain ⟨-, -, r3, r4⟩ := char_speeds_light_cone (1/1000000) C2P.flat.alpha (C2P.flat.beta 0) (C2P.flat.gamInv 0 0) (fVsq C2P.flat wLim q)
    (fV C2P.flat wLim q 0) (fcmsq (1/1000000) C2P.flat wLim (5/3) q) (by norm_num) (by rw [hf.1]; norm_num) b2 hv0 (by linarith) b1 c0.le c1
  rw [hf.1, hf.2.1, hf.2.2] at r3 r4
  have hs : Real.sqrt (1/1000000) = 1/1000 := by
    rw [show (1/1000000 : ℝ) = (1/1000)^2 by norm_num]; exact Real.sqrt_sq (by norm_num)
  have hd : 1/4 ≤ 1 - fVsq C2P.flat wLim q * fcmsq (1/1000000) C2P.flat wLim (5/3) q := by nlinarith
  have hsl : 1 * Real.sqrt (1/1000000) / (1 - fVsq C2P.flat wLim q * fcmsq (1/1000000) C2P.flat wLim (5/3) q) ≤ 0.004 := by
    rw [hs, div_le_iff₀ (by linarith)]; linarith
  rw [Real.sqrt_one] at r3 r4
  unfold codeSpeeds
  rw [hf.1, hf.2.1, hf.2.2]
  constructor <;> linarith

/-- Lorentz factor, velocity and mass of a state with `W v = ±3/4`. -/
theorem w_state (r v : ℝ) (hr : 1/100 ≤ r) (hv : v ^ 2 = 9/16) :
    fVtil C2P.flat wLim (wPrim r v) 0 = v * (4/5) ∧ (fluxU true C2P.flat wLim 0 (wPrim r v)).rho = r * (5/4) := by
  have hl : Rel.lorentz C2P.flat.gam (wPrim r v).v = 5/4 := by
    unfold Rel.lorentz
    rw [show (1 + ∑ i, ∑ j, C2P.flat.gam i j * (wPrim r v).v i * (wPrim r v).v j) = (5/4)^2 by
      simp [Fin.sum_univ_three, C2P.flat, wPrim]; nlinarith]
    exact Real.sqrt_sq (by norm_num)
  have hp : fVp C2P.flat wLim (wPrim r v) = (wPrim r v).v := by
    unfold fVp; rw [hl]; rw [if_neg (by norm_num [wLim])]
  have h0 : fV0 C2P.flat wLim (wPrim r v) = ![v * (4/5), 0, 0] := by
    unfold fV0; rw [hp, hl]; funext i; fin_cases i <;> simp [wPrim]; ring
  have hs : fVsq0 C2P.flat wLim (wPrim r v) = 9/25 := by
    unfold fVsq0; rw [h0]
    simp [Fin.sum_univ_three, ADM.g4, C2P.flat]; nlinarith
  have hm : vsqMax wLim = 3/4 := by norm_num [vsqMax, wLim]
  have hV : fV C2P.flat wLim (wPrim r v) = ![v * (4/5), 0, 0] := by
    unfold fV; rw [hs, hm, if_neg (by norm_num), h0]
  have hq : fVsq C2P.flat wLim (wPrim r v) = 9/25 := by
    unfold fVsq; rw [hs, hm, if_neg (by norm_num)]
  constructor
  · unfold fVtil; rw [hV]; simp [C2P.flat]
  · show fRho _ _ * fW _ _ _ = _
    unfold fRho fW
    rw [hq, max_eq_left (by simpa [wPrim, wLim] using hr)]
    rw [show (1 - 9/25 : ℝ) = (4/5)^2 by norm_num, Real.sqrt_sq (by norm_num)]
    simp [wPrim]

/-- mass of a thin state, whatever its velocity. -/
theorem w_thin (v : ℝ) : 0 ≤ (fluxU true C2P.flat wLim 0 (wPrim (1/100) v)).rho ∧ (fluxU true C2P.flat wLim 0 (wPrim (1/100) v)).rho ≤ 1/50 := by
  obtain ⟨a, b⟩ := face_lorentz C2P.flat C2P.flat_valid.2 wLim (by norm_num [wLim]) (by norm_num [wLim]) (by norm_num [wLim]) (wPrim (1/100) v)
  have e : fRho wLim (wPrim (1/100) v) = 1/100 := by simp [fRho, wPrim, wLim]
  have hl : wLim.gamMax = 2 := rfl
  rw [hl] at b
  refine ⟨mass_nonneg _ _ _ _ _ (by norm_num [wLim]), ?_⟩
  show fRho _ _ * fW _ _ _ ≤ _
  rw [e]; linarith

theorem w_plm_ext : Recon.piecewiseLinear (1/100 : ℝ) 1 (1/100) = (1, 1) :=
  (Recon.plm_no_overshoot (1/100 : ℝ) 1 (1/100)).2.2.2 (Or.inl ⟨by norm_num, by norm_num⟩)

theorem w_plm_vel : Recon.piecewiseLinear (-(3/2) : ℝ) 0 (3/2) = (3/4, -(3/4)) := by
  unfold Recon.piecewiseLinear
  have : Recon.mc (0 - -(3/2) : ℝ) (3/2 - 0) (3/2) = 3/2 := by
    rw [show (0 - -(3/2) : ℝ) = 3/2 by norm_num, show (3/2 - 0 : ℝ) = 3/2 by norm_num]; exact Recon.mc_self _ _ (by norm_num)
  simp only [this]; norm_num

theorem w_plm_step : (Recon.piecewiseLinear (1 : ℝ) (1/100) (1/100)).2 = 1/100 ∧ (Recon.piecewiseLinear (1/100 : ℝ) (1/100) 1).1 = 1/100 := by
  have a := (Recon.plm_no_overshoot (1 : ℝ) (1/100) (1/100)).2.2.2 (Or.inr ⟨by norm_num, le_rfl⟩)
  have b := (Recon.plm_no_overshoot (1/100 : ℝ) (1/100) 1).2.2.2 (Or.inr ⟨le_rfl, by norm_num⟩)
  rw [a, b]; exact ⟨rfl, rfl⟩

/-- primitive variables of the example. -/
theorem w_prims (c : Pos) : prims exPer wSetup wStage wU 0 c = wRho (c 0 % 4) ∧ prims exPer wSetup wStage wU 2 c = wVel (c 0 % 4) := by
  constructor <;> simp [prims, wSetup, wStage, Mesh.wrap, exPer, exMesh]

/-- the four face states of the dense cell. -/
theorem w_faces :
    (wStage.prim (below exPer wSetup wStage wU 0 ![2, 0, 0]) = wPrim 1 (3/4)) ∧ (wStage.prim (above exPer wSetup wStage wU 0 ![1, 0, 0]) = wPrim 1 (-(3/4))) ∧
    (∃ v, wStage.prim (above exPer wSetup wStage wU 0 ![2, 0, 0]) = wPrim (1/100) v) ∧
    (∃ v, wStage.prim (below exPer wSetup wStage wU 0 ![1, 0, 0]) = wPrim (1/100) v) := by
  have k : ∀ q : ℤ → ℝ, kernel wSetup.ew wSetup.em wSetup.rt q = Recon.piecewiseLinear (q (-1)) (q 0) (q 1) := fun _ => rfl
  have b1 : below exPer wSetup wStage wU 0 ![2, 0, 0] 0 = 1 ∧ below exPer wSetup wStage wU 0 ![2, 0, 0] 2 = 3/4 := by
    unfold below stateL
    rw [k, k]
    simp only [(w_prims _).1, (w_prims _).2]
    have e1 := congrArg Prod.fst w_plm_ext
    have e2 := congrArg Prod.fst w_plm_vel
    constructor
    · norm_num [unit, wRho] at e1 ⊢; exact e1
    · norm_num [unit, wVel] at e2 ⊢; exact e2
  have b2 : above exPer wSetup wStage wU 0 ![1, 0, 0] 0 = 1 ∧ above exPer wSetup wStage wU 0 ![1, 0, 0] 2 = -(3/4) := by
    unfold above stateR
    rw [k, k]
    simp only [(w_prims _).1, (w_prims _).2]
    have e1 := congrArg Prod.snd w_plm_ext
    have e2 := congrArg Prod.snd w_plm_vel
    constructor
    · norm_num [unit, wRho] at e1 ⊢; exact e1
    · norm_num [unit, wVel] at e2 ⊢; exact e2
  have b3 : above exPer wSetup wStage wU 0 ![2, 0, 0] 0 = 1/100 := by
    unfold above stateR
    rw [k]
    simp only [(w_prims _).1]
    have e1 := w_plm_step.1
    norm_num [unit, wRho] at e1 ⊢; exact e1
  have b4 : below exPer wSetup wStage wU 0 ![1, 0, 0] 0 = 1/100 := by
    unfold below stateL
    rw [k]
    simp only [(w_prims _).1]
    have e1 := w_plm_step.2
    norm_num [unit, wRho] at e1 ⊢; exact e1
  refine ⟨?_, ?_, ⟨above exPer wSetup wStage wU 0 ![2, 0, 0] 2, ?_⟩, ⟨below exPer wSetup wStage wU 0 ![1, 0, 0] 2, ?_⟩⟩
  · show wPrim _ _ = _; rw [b1.1, b1.2]
  · show wPrim _ _ = _; rw [b2.1, b2.2]
  · show wPrim _ _ = _; rw [b3]
  · show wPrim _ _ = _; rw [b4]

/-- every face speed of the example is below 1.004. -/
theorem w_sig (f : Pos) : faceSig exPer wSetup wStage wU 0 f ≤ 1.004 := by
  unfold faceSig solverSpeed
  simp only [wSetup, Timestep.llfSpeed]
  exact max_le (max_le (w_speed _ _).2 (w_speed _ _).1) (max_le (w_speed _ _).2 (w_speed _ _).1)

/-- mass leaves the dense cell through both faces. -/
theorem w_flux : 0.72 ≤ stageFlux exPer wSetup wStage wU 0 .rho 0 0 2 ∧ stageFlux exPer wSetup wStage wU 0 .rho 0 0 1 ≤ -0.72 := by
  obtain ⟨hb2, ha1, ⟨v, ha2⟩, ⟨v', hb1⟩⟩ := w_faces
  have br := fun q => speeds_bracket (1/1000000) (by norm_num) (by norm_num) C2P.flat C2P.flat_valid.1 C2P.flat_valid.2 (by norm_num [C2P.flat]) wLim
    (by norm_num [wLim]) (by norm_num [wLim]) (by norm_num [wLim]) (5/3) q 0
  have key : ∀ f : Pos, ∀ i : ℤ, f = ![i, 0, 0] → ∃ c, c ≤ 1.004 ∧
      stageFlux exPer wSetup wStage wU 0 .rho 0 0 i = 0.5 *
        ((fluxU true C2P.flat wLim 0 (wStage.prim (below exPer wSetup wStage wU 0 f))).rho * fVtil C2P.flat wLim (wStage.prim (below exPer wSetup wStage wU 0 f)) 0
        + (fluxU true C2P.flat wLim 0 (wStage.prim (above exPer wSetup wStage wU 0 f))).rho * fVtil C2P.flat wLim (wStage.prim (above exPer wSetup wStage wU 0 f)) 0
        - c * ((fluxU true C2P.flat wLim 0 (wStage.prim (above exPer wSetup wStage wU 0 f))).rho
          - (fluxU true C2P.flat wLim 0 (wStage.prim (below exPer wSetup wStage wU 0 f))).rho)) ∧
      |fVtil C2P.flat wLim (wStage.prim (below exPer wSetup wStage wU 0 f)) 0| ≤ c ∧ |fVtil C2P.flat wLim (wStage.prim (above exPer wSetup wStage wU 0 f)) 0| ≤ c := by
    intro f i hf
    refine ⟨faceSig exPer wSetup wStage wU 0 f, w_sig f, ?_, ?_, ?_⟩
    · unfold stageFlux
      rw [← hf]
      simp only [if_true]
      change (faceFluxes wSetup wStage 0 f (below exPer wSetup wStage wU 0 f) (above exPer wSetup wStage wU 0 f)).1 = _
      simp only [faceFluxes, combine, wSetup, llf, wStage, mul_one]
      rfl
    · obtain ⟨s1, s2, -, -⟩ := solverSpeed_bounds wSetup (wStage.speeds 0 f (below exPer wSetup wStage wU 0 f)) (wStage.speeds 0 f (above exPer wSetup wStage wU 0 f))
      have := br (wStage.prim (below exPer wSetup wStage wU 0 f))
      have hα : C2P.flat.alpha = 1 := rfl
      rw [hα, one_mul] at this
      change (wStage.speeds 0 f (below exPer wSetup wStage wU 0 f)).1 ≤ _ ∧ _ ≤ (wStage.speeds 0 f (below exPer wSetup wStage wU 0 f)).2 at this
      change _ ≤ solverSpeed wSetup (wStage.speeds 0 f (below exPer wSetup wStage wU 0 f)) (wStage.speeds 0 f (above exPer wSetup wStage wU 0 f))
      rw [abs_le]; constructor
      · have := this.1; linarith
      · exact this.2.trans s1
    · obtain ⟨-, -, s1, s2⟩ := solverSpeed_bounds wSetup (wStage.speeds 0 f (below exPer wSetup wStage wU 0 f)) (wStage.speeds 0 f (above exPer wSetup wStage wU 0 f))
      have := br (wStage.prim (above exPer wSetup wStage wU 0 f))
      have hα : C2P.flat.alpha = 1 := rfl
      rw [hα, one_mul] at this
      change (wStage.speeds 0 f (above exPer wSetup wStage wU 0 f)).1 ≤ _ ∧ _ ≤ (wStage.speeds 0 f (above exPer wSetup wStage wU 0 f)).2 at this
      change _ ≤ solverSpeed wSetup (wStage.speeds 0 f (below exPer wSetup wStage wU 0 f)) (wStage.speeds 0 f (above exPer wSetup wStage wU 0 f))
      rw [abs_le]; constructor
      · have := this.1; linarith
      · exact this.2.trans s1
  constructor
  · obtain ⟨c, hc, hF, h1, h2⟩ := key ![2, 0, 0] 2 rfl
    rw [hF]
    rw [hb2, ha2] at *
    obtain ⟨e1, e2⟩ := w_state 1 (3/4) (by norm_num) (by norm_num)
    obtain ⟨t1, t2⟩ := w_thin v
    rw [e1] at h1 ⊢
    rw [e2]
    have a1 := (abs_le.1 h1).2
    have a2 := (abs_le.1 h2).1
    set D := (fluxU true C2P.flat wLim 0 (wPrim (1/100) v)).rho
    set w := fVtil C2P.flat wLim (wPrim (1/100) v) 0
    have : -(c * D) ≤ D * w := by nlinarith
    have : c * D ≤ 1.004 * (1/50) := mul_le_mul hc t2 t1 (by norm_num)
    norm_num at *
    linarith
  · obtain ⟨c, hc, hF, h1, h2⟩ := key ![1, 0, 0] 1 rfl
    rw [hF]
    rw [hb1, ha1] at *
    obtain ⟨e1, e2⟩ := w_state 1 (-(3/4)) (by norm_num) (by norm_num)
    obtain ⟨t1, t2⟩ := w_thin v'
    rw [e1] at h2 ⊢
    rw [e2]
    have a1 := (abs_le.1 h1).2
    have a2 := (abs_le.1 h2).1
    set D := (fluxU true C2P.flat wLim 0 (wPrim (1/100) v')).rho
    set w := fVtil C2P.flat wLim (wPrim (1/100) v') 0
    have : D * w ≤ c * D := by nlinarith
    have : c * D ≤ 1.004 * (1/50) := mul_le_mul hc t2 t1 (by norm_num)
    norm_num at *
    linarith

/-- the conserved densities of the example are those of the primitive state, and they are positive. -/
theorem w_consistent : Consistent exPer wSetup wStage C2P.flat wLim 1 wU ∧ (∀ k j i, 0 < wU.1 k j i) ∧ wU.1 0 0 1 = 1 := by
  refine ⟨?_, ?_, ?_⟩
  · intro k j i h
    have hi0 : 0 ≤ i := h.2.2.1
    have hi1 : i < 4 := h.2.2.2
    have hm : i % 4 = i := Int.emod_eq_of_lt hi0 hi1
    have hp : wStage.prim (cellState exPer wSetup wStage wU ![i, j, k]) = wPrim (wRho i) (wVel i) := by
      show wPrim (prims exPer wSetup wStage wU 0 _) (prims exPer wSetup wStage wU 2 _) = _
      rw [(w_prims _).1, (w_prims _).2]; simp [hm]
    rw [hp, one_mul]; rfl
  · intro k j i
    obtain ⟨a, -⟩ := face_lorentz C2P.flat C2P.flat_valid.2 wLim (by norm_num [wLim]) (by norm_num [wLim]) (by norm_num [wLim]) (wPrim (wRho i) (wVel i))
    refine mul_pos (lt_of_lt_of_le (by norm_num [wLim]) (le_max_right _ wLim.rhoFloor)) (by linarith)
  · show fRho _ _ * fW _ _ _ = 1
    have h0 : fVsq0 C2P.flat wLim (wPrim (wRho 1) (wVel 1)) = 0 := by
      have : (wPrim (wRho 1) (wVel 1)).v = 0 := by funext i; fin_cases i <;> simp [wPrim, wVel]
      have h0 : fV0 C2P.flat wLim (wPrim (wRho 1) (wVel 1)) = fun _ => 0 := by
        funext i; simp only [fV0, fVp, this]; split_ifs <;> simp
      simp [fVsq0, h0]
    have h1 : fVsq C2P.flat wLim (wPrim (wRho 1) (wVel 1)) = 0 := by
      unfold fVsq; rw [h0]; norm_num [vsqMax, wLim]
    unfold fW; rw [h1]
    norm_num [fRho, wPrim, wRho, wLim]

theorem w_has : exPer.Has 0 0 1 ∧ exPer.whole.Has 0 0 1 := by
  constructor <;> refine ⟨?_, ?_, ?_⟩ <;> simp [exPer, exMesh, Mesh.whole]

/-- **C125 fails with the piecewise linear reconstruction**: a regular state in flat space, all densities positive and consistent, a time step satisfying the
CFL condition with the default `cfl = 0.8` (fluid.cpp:63) for the speeds of the stage itself, and yet after one stage the density of the cell is negative. -/
theorem linear_negative :
    wSetup.rt = .linear ∧ exPer.Tiled exOwn ∧ Uniform wStage (1/1000000) C2P.flat wLim 1 ∧ Consistent exPer wSetup wStage C2P.flat wLim 1 wU ∧
    (∀ k j i, 0 < wU.1 k j i) ∧ (∀ k j i, exPer.Has k j i → 0.79 * cflRate exPer (fun _ => 1) wSetup wStage wU k j i ≤ 0.8) ∧ exPer.Has 0 0 1 ∧
    (pairStage exPer exOwn (fun _ => 1) wSetup 0.79 wU wU wStage).1 0 0 1 < 0 := by
  obtain ⟨hc, hp, h1⟩ := w_consistent
  refine ⟨rfl, ex_per.1, w_uniform, hc, hp, ?_, w_has.1, ?_⟩
  · intro k j i _
    have hd : Timestep.dirs exPer.ndim = {0} := by decide
    unfold cflRate
    rw [hd, sum_singleton, div_one]
    have := max_le (w_sig ![i, j, k]) (w_sig fun e => (![i, j, k] : Pos) e + unit 0 e)
    set m := max (faceSig exPer wSetup wStage wU 0 ![i, j, k]) (faceSig exPer wSetup wStage wU 0 fun e => (![i, j, k] : Pos) e + unit 0 e)
    calc 0.79 * m ≤ 0.79 * 1.004 := mul_le_mul_of_nonneg_left this (by norm_num)
      _ ≤ 0.8 := by norm_num
  · obtain ⟨f1, f2⟩ := w_flux
    have hrate : exPer.rate exOwn (fun _ => 1) (stageFlux exPer wSetup wStage wU) .rho 0 0 1 =
        -(stageFlux exPer wSetup wStage wU 0 .rho 0 0 2 - stageFlux exPer wSetup wStage wU 0 .rho 0 0 1) := by
      have hH : exPer.Has 0 0 1 := w_has.1
      have hw : exPer.whole.Has 0 0 1 := w_has.2
      rw [rate_whole exPer exOwn ex_per.1 _ _ .rho (by decide) 0 0 1 hH]
      have nw := blk_nonempty exPer.whole hw
      have u1 : fixFluxes (exPer.cfg exPer.whole) exPer.whole.blk (stageFlux exPer wSetup wStage wU) 0 .rho 0 0 1 = stageFlux exPer wSetup wStage wU 0 .rho 0 0 1 := by
        refine interior_faces_untouched _ _ nw _ .rho 0 0 0 1 (face_used exPer.whole hw 0 0 0 1 (Or.inl ⟨rfl, rfl, rfl⟩)) ?_
        intro o _; rfl
      have u2 : fixFluxes (exPer.cfg exPer.whole) exPer.whole.blk (stageFlux exPer wSetup wStage wU) 0 .rho 0 0 2 = stageFlux exPer wSetup wStage wU 0 .rho 0 0 2 := by
        refine interior_faces_untouched _ _ nw _ .rho 0 0 0 2 (face_used exPer.whole hw 0 0 0 2 (by right; simp)) ?_
        intro o _; rfl
      have hn : exPer.ndim = 1 := rfl
      unfold fluxDiv mask
      rw [hn]
      simp only [show (1 + 1 : ℤ) = 2 from rfl, u1, u2]
      norm_num
    simp only [pairStage, stage]
    rw [hrate, h1]
    have hb : wStage.beta = 1 := rfl
    rw [hb]
    norm_num at f1 f2 ⊢
    linarith

/-- the same state meets the hypotheses of `mass_ratio` (with `Γ = 2`, `κ = 1`) and, with a smaller time step, those of `run_positive_gen`. -/
theorem ex_run_gen : MassRatio exPer wSetup wStage wU (2 * 2 * 1) ∧
    RunOkGen exPer exOwn (fun _ => 1) wSetup (1/1000000) (2 * 2 * 1) (1/10) [(0.09, [wStage])] wU ∧ 2 * (2 * 2 * 1) * (1/10 : ℝ) < 1 ∧ 0 < wU.1 0 0 1 := by
  have hr : ∀ i, 1/100 ≤ wRho i := by intro i; unfold wRho; split_ifs <;> norm_num
  have hm : MassRatio exPer wSetup wStage wU (2 * 2 * 1) := by
    refine mass_ratio exPer wSetup (Or.inr rfl) wStage (1/1000000) w_background wU 0 (fun _ _ _ => 1) ⟨fun _ => rfl, ?_, fun _ _ _ => one_pos, ?_⟩ 2 1
      (fun _ _ => le_refl _) zero_le_one ?_ ?_
    · intro c; rw [(w_prims c).1]; have := hr (c 0 % 4); linarith
    · intro k j i h
      have hi0 : 0 ≤ i := h.2.2.1
      have hi1 : i < 4 := h.2.2.2
      have hm : i % 4 = i := Int.emod_eq_of_lt hi0 hi1
      obtain ⟨a, -⟩ := face_lorentz C2P.flat C2P.flat_valid.2 wLim (by norm_num [wLim]) (by norm_num [wLim]) (by norm_num [wLim]) (wPrim (wRho i) (wVel i))
      refine ⟨_, a, ?_⟩
      rw [(w_prims _).1]
      show fRho _ _ * fW _ _ _ = _
      have : fRho wLim (wPrim (wRho i) (wVel i)) = wRho i := max_eq_left (hr i)
      rw [this]; simp [hm]
    · intro k j i _ d _; simp [wStage]
    · intro k j i _ d _
      rw [(w_prims _).1]
      have := hr ((![i, j, k] : Pos) 0 % 4)
      have hl : ∀ f, (wStage.L d f).rhoFloor = 1/100 := fun _ => rfl
      rw [hl, hl]; constructor <;> linarith
  refine ⟨hm, ⟨by norm_num, ⟨⟨w_background, by norm_num [wStage], hm, ?_⟩, trivial⟩, trivial⟩, by norm_num, ?_⟩
  · intro k j i _
    have hd : Timestep.dirs exPer.ndim = {0} := by decide
    unfold cflRate
    rw [hd, sum_singleton, div_one]
    have := max_le (w_sig ![i, j, k]) (w_sig fun e => (![i, j, k] : Pos) e + unit 0 e)
    set m := max (faceSig exPer wSetup wStage wU 0 ![i, j, k]) (faceSig exPer wSetup wStage wU 0 fun e => (![i, j, k] : Pos) e + unit 0 e)
    calc (0.09, [wStage]).1 * m ≤ 0.09 * 1.004 := mul_le_mul_of_nonneg_left this (by norm_num)
      _ ≤ 1/10 := by norm_num
  · rw [w_consistent.2.2]; norm_num

end Phoebus.MeshRun
