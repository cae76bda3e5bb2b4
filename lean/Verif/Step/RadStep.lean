import Verif.Step.RadConsistency
import Verif.Closure.Relax

/-!
# Transport and exchange together: a step of the radiation follows the moment equations (C154)
-/
namespace Phoebus.Step
open FluxSweep Geom Filter Topology Set
open Closure (Vec Tens2 prim2con vvPi conVPi covVPi cc)
open Moments (Side Bounds Face)

variable {N nspec : ℕ} {tp : TilPi} {G : Event → ADM ℝ} {B : Coord → Bounds} {sel : Fin (4 * nspec + 3) → Fin N} {kap : Coord → (Fin N → ℝ) → Fin nspec → ℝ} {q : Event → Fin N → ℝ} {x0 : Coord} {t : ℝ}

/-- energy and momentum of a species before the exchange: old values, fluxes and geometric sources over the step, phoebus_driver.cpp:352-480 (one stage). -/
noncomputable def transported (old : Fin 4 → ℝ) (dt : ℝ) (r : Fin 4 → ℝ) : Fin 4 → ℝ := fun m => old m + dt * r m

/-- the exchange: `LinearSourceUpdate` with optical depths `α dt κ` on the undensitised moments, the increments densitised and added, moments_source.cpp:388-422, 790-796. -/
noncomputable def exchanged (G : ADM ℝ) (sdet : ℝ) (v : Vec) (Pi : Tens2) (JBB kJ kH dt : ℝ) (U : Fin 4 → ℝ) : Fin 4 → ℝ :=
  let d := Closure.linearSourceUpdate false G v (U 0 / sdet) (fun i => U i.succ / sdet) Pi JBB (G.alpha * dt * kJ) (G.alpha * dt * kH)
  fun m => U m + sdet * comp d m

/-- **C154, a whole step**: a smooth radiation field that solves the moment equations at an event, in any smooth flow and spacetime.  The cells hold the field at the cell centres.  Transport for a time `λ h` by the
fluxes and geometric sources of the program, then its implicit exchange, with the velocity, pressure tensor, opacities and emission it finds then, which tend to those of the field as the cells and the step shrink. The change
of energy and momentum of every species over the step, divided by its length, tends to the time derivative of the field. -/
theorem rad_step (s : Fin nspec) (hG : SmoothGeom G (at_ t x0)) (hV : ∀ Y, (G Y).Valid) (ha : ∀ Y, 0 < (G Y).alpha) (hp : ∀ Y, Rel.PosDef (G Y))
    (hS : SmoothRadAt tp (fun y => G (at_ t y)) B (fun y u => kap y u s) (radSide nspec sel s) (fun y => q (at_ t y)) x0)
    (hR : SmoothRad G (fieldOf tp G fun Y => radSide nspec sel s (q Y)) (at_ t x0))
    (hPi : ∀ Y i j, (fieldOf tp G fun Y => radSide nspec sel s (q Y)).Pi Y i j = (fieldOf tp G fun Y => radSide nspec sel s (q Y)).Pi Y j i)
    (h0 : ∀ Y, let R := fieldOf tp G fun Y => radSide nspec sel s (q Y); vvPi (G Y) (R.v Y) (R.Pi Y) = 0)
    {kJ kH JBB : ℝ} (hT : Transfer G (fieldOf tp G fun Y => radSide nspec sel s (q Y)) kJ kH JBB (at_ t x0)) {small : ℝ → ℝ} {SMALL kmin : ℝ}
    (hsm : ∀ h, 0 < h → 0 < small h ∧ small h ≤ h) (hSM : SMALL < rootGam (G (at_ t x0))) (hkm : 0 < kmin) (w : Coord) (hw : ∀ d, 0 < w d) (P : Phys ℝ N) (hew : 0 < P.ew)
    (hfix : ∀ d p F, P.fix d p F = F) (hmhd : ∀ b0 ∈ P.mhd, b0 + 3 ≤ 9) (hfl : ∀ d p u v k, 9 ≤ k → P.S d p u v k = 0)
    (b : Blk) (hg : 1 + radius P.rt ≤ b.g) (off c : Pos) (hc : b.Interior c) (M : ℝ → Mem ℝ N) (ho : ∀ h, Covers b (M h).order) (cur : ℝ → Fields ℝ N)
    (hcur : ∀ h, 0 < h → ∀ a, b.Entire a → (cur h a).2 = q (at_ t (centre x0 w c h a)))
    (hcon : ∀ h, 0 < h → ∀ m, (cur h c).1 (radSlot s m) = comp (radStored G (fieldOf tp G fun Y => radSide nspec sel s (q Y)) (at_ t x0)) m)
    (C : ℝ → CellGeom) (hCG : ∀ h, 0 < h → (C h).G (fun e => c e + off e) = G (at_ t x0))
    (hdg : ∀ a b s, Tendsto (fun h => (C h).dg (fun e => c e + off e) a b s) (𝓝[>] 0) (𝓝 (metricDeriv G (at_ t x0) a b s)))
    (hda : ∀ m, Tendsto (fun h => (C h).da (fun e => c e + off e) m) (𝓝[>] 0) (𝓝 (pd m (fun Y => Real.log (G Y).alpha) (at_ t x0))))
    (hsym : ∀ d : Fin 3, b.ndim ≤ d.val → ∀ m, pd d.succ (fun Y => comp (radPhys G (fieldOf tp G fun Y => radSide nspec sel s (q Y)) d Y) m) (at_ t x0) = 0)
    {lam : ℝ} (hlam : 0 < lam) {v : ℝ → Vec} {Pi : ℝ → Tens2} {B' kJ' kH' : ℝ → ℝ}
    (hv : Tendsto v (𝓝[>] 0) (𝓝 ((fieldOf tp G fun Y => radSide nspec sel s (q Y)).v (at_ t x0))))
    (hP : ∀ i j, Tendsto (fun h => Pi h i j) (𝓝[>] 0) (𝓝 ((fieldOf tp G fun Y => radSide nspec sel s (q Y)).Pi (at_ t x0) i j)))
    (hvv : ∀ᶠ h in 𝓝[>] 0, vvPi (G (at_ t x0)) (v h) (Pi h) = 0) (hB : Tendsto B' (𝓝[>] 0) (𝓝 JBB)) (hkJ : Tendsto kJ' (𝓝[>] 0) (𝓝 kJ)) (hkH : Tendsto kH' (𝓝[>] 0) (𝓝 kH))
    (hJ0 : ∀ᶠ h in 𝓝[>] 0, 0 ≤ kJ' h) (hH0 : ∀ᶠ h in 𝓝[>] 0, 0 ≤ kH' h) (m : Fin 4) :
    Tendsto (fun h =>
        let stage := radRefined (small h) SMALL kmin tp (fun y => G (at_ t y)) B nspec sel kap b.ndim x0 w (fun e => c e + off e) P h
        let old : Fin 4 → ℝ := fun m => (cur h c).1 (radSlot s m)
        let r : Fin 4 → ℝ := fun m => rate stage.dx b (blockFlux stage b off (M h) (cur h)) (radSlot s m) c +
          comp (radSrc nspec sel s tp (C h) (rootGam (G (at_ t x0))) (fun e => c e + off e) (cur h c).1 (cur h c).2) m
        (exchanged (G (at_ t x0)) (rootGam (G (at_ t x0))) (v h) (Pi h) (B' h) (kJ' h) (kH' h) (lam * h) (transported old (lam * h) r) m - old m) / (lam * h)) (𝓝[>] 0)
      (𝓝 (pd 0 (fun Y => comp (radStored G (fieldOf tp G fun Y => radSide nspec sel s (q Y)) Y) m) (at_ t x0))) := by
  set R := fieldOf tp G fun Y => radSide nspec sel s (q Y) with hRd
  set X := at_ t x0 with hX
  have hrate : ∀ m, Tendsto _ _ _ := fun m => rad_rate s hG hV ha hp hS hR hPi (fun Y => by
    have := h0 Y
    simp only at this ⊢
    rw [this]; ring) hT hsm hSM hkm w hw P hew hfix hmhd hfl b hg off c hc M ho cur hcur hcon C hCG hdg hda hsym m
  set r : ℝ → Fin 4 → ℝ := fun h m =>
    rate (radRefined (small h) SMALL kmin tp (fun y => G (at_ t y)) B nspec sel kap b.ndim x0 w (fun e => c e + off e) P h).dx b
        (blockFlux (radRefined (small h) SMALL kmin tp (fun y => G (at_ t y)) B nspec sel kap b.ndim x0 w (fun e => c e + off e) P h) b off (M h) (cur h)) (radSlot s m) c +
          comp (radSrc nspec sel s tp (C h) (rootGam (G X)) (fun e => c e + off e) (cur h c).1 (cur h c).2) m with hr
  set old : ℝ → Fin 4 → ℝ := fun h m => (cur h c).1 (radSlot s m) with hold
  have hrt : ∀ m, Tendsto (fun h => r h m) (𝓝[>] 0) (𝓝 (pd 0 (fun Y => comp (radStored G R Y) m) X - comp (exchangeRate (G X) (R.v X) (R.J X) (R.H X) kJ kH JBB) m)) := hrate
  have hg0 : 0 < rootGam (G X) := Real.sqrt_pos.2 (det_gam_pos (G X) (hV X) (hp X))
  have hdt : Tendsto (fun h : ℝ => lam * h) (𝓝[>] 0) (𝓝 0) := by
    have : Tendsto (fun h : ℝ => lam * h) (𝓝 0) (𝓝 (lam * 0)) := (continuous_const.mul continuous_id).tendsto 0
    rw [mul_zero] at this
    exact this.mono_left nhdsWithin_le_nhds
  have hdpos : ∀ᶠ h : ℝ in 𝓝[>] 0, 0 < lam * h := by
    filter_upwards [self_mem_nhdsWithin] with h hh
    exact mul_pos hlam hh
  have hU : ∀ m, Tendsto (fun h => transported (old h) (lam * h) (r h) m / rootGam (G X)) (𝓝[>] 0) (𝓝 (comp (prim2con false (G X) (R.v X) (R.Pi X) (R.J X) (R.H X)) m)) := fun m => by
    have e : comp (prim2con false (G X) (R.v X) (R.Pi X) (R.J X) (R.H X)) m = (comp (radStored G R X) m + 0 * (pd 0 (fun Y => comp (radStored G R Y) m) X -
        comp (exchangeRate (G X) (R.v X) (R.J X) (R.H X) kJ kH JBB) m)) / rootGam (G X) := by
      rw [zero_mul, add_zero, eq_div_iff hg0.ne']
      refine Fin.cases ?_ (fun i => ?_) m <;> simp [comp, radStored, mul_comm]
    rw [e]
    refine Tendsto.div_const ?_ _
    refine Tendsto.add ?_ (hdt.mul (hrt m))
    refine tendsto_const_nhds.congr' ?_
    filter_upwards [self_mem_nhdsWithin] with h hh
    exact (hcon h hh m).symm
  have slow0 : Closure.Slow (G X) (R.v X) := hR.slow.le
  have hslow : ∀ᶠ h in 𝓝[>] 0, Closure.Slow (G X) (v h) := by
    have hd : Tendsto (fun h => (G X).dot3 (v h) (v h)) (𝓝[>] 0) (𝓝 ((G X).dot3 (R.v X) (R.v X))) := by
      have hvi : ∀ i, Tendsto (fun h => v h i) (𝓝[>] 0) (𝓝 (R.v X i)) := fun i => (tendsto_pi_nhds.1 hv) i
      unfold ADM.dot3
      exact tendsto_finsetSum _ fun i _ => tendsto_finsetSum _ fun j _ => ((tendsto_const_nhds.mul (hvi i)).mul (hvi j))
    filter_upwards [hd.eventually (gt_mem_nhds hR.slow)] with h hh
    exact le_of_lt hh
  have up := Closure.update_rate (l := 𝓝[>] (0:ℝ)) (G := G X) (hV X) (hp X) (dt := fun h => lam * h) (Es := fun h => transported (old h) (lam * h) (r h) 0 / rootGam (G X))
    (Fs := fun h i => transported (old h) (lam * h) (r h) (Fin.succ i) / rootGam (G X)) (v := v) (Pi := Pi) (JBB := B') (aJ := fun h => (G X).alpha * kJ' h) (aH := fun h => (G X).alpha * kH' h)
    (Pi0 := R.Pi X) hdt hdpos (hU 0) (tendsto_pi_nhds.2 fun i => hU i.succ) hv hP hB (hkJ.const_mul _) (hkH.const_mul _)
    (by filter_upwards [hJ0] with h hh; exact mul_nonneg (ha X).le hh) (by filter_upwards [hH0] with h hh; exact mul_nonneg (ha X).le hh) hslow slow0 hvv (h0 X)
    (J := R.J X) (H := R.H X) (by
      unfold Closure.Comoving
      refine Prod.ext rfl (funext fun i => rfl))
  have hup : ∀ m, Tendsto (fun h => rootGam (G X) * (comp (Closure.linearSourceUpdate false (G X) (v h) (transported (old h) (lam * h) (r h) 0 / rootGam (G X))
      (fun i => transported (old h) (lam * h) (r h) (Fin.succ i) / rootGam (G X)) (Pi h) (B' h) (lam * h * ((G X).alpha * kJ' h)) (lam * h * ((G X).alpha * kH' h))) m / (lam * h))) (𝓝[>] 0)
      (𝓝 (comp (exchangeRate (G X) (R.v X) (R.J X) (R.H X) kJ kH JBB) m)) := fun m => by
    refine Fin.cases ?_ (fun i => ?_) m
    · exact up.1.const_mul _
    · exact (up.2 i).const_mul _
  have total := (hrt m).add (hup m)
  rw [sub_add_cancel] at total
  refine total.congr' ?_
  filter_upwards [hdpos] with h hh
  show _ = (exchanged (G X) (rootGam (G X)) (v h) (Pi h) (B' h) (kJ' h) (kH' h) (lam * h) (transported (old h) (lam * h) (r h)) m - old h m) / (lam * h)
  unfold exchanged
  have e1 : (G X).alpha * (lam * h) * kJ' h = lam * h * ((G X).alpha * kJ' h) := by ring
  have e2 : (G X).alpha * (lam * h) * kH' h = lam * h * ((G X).alpha * kH' h) := by ring
  simp only [e1, e2]
  rw [eq_div_iff hh.ne']
  have e3 : transported (old h) (lam * h) (r h) m = old h m + lam * h * r h m := rfl
  rw [e3, add_mul, mul_assoc, div_mul_cancel₀ _ hh.ne']
  ring

/-- **C154 (concrete)** the hypotheses are met by a steady flux of radiation attenuated by still gas: transport and exchange cancel to leading order, in any block and for every component. -/
theorem ex_glow_step (b : Blk) (hg : 2 ≤ b.g) (hnd : 0 < b.ndim) (off c : Pos) (hc : b.Interior c) (M : ℝ → Mem ℝ 13) (ho : ∀ h, Covers b (M h).order) (m : Fin 4) :
    Tendsto (fun h =>
        let stage := radRefined h (1/100) (1/100) eddTilPi (fun _ => C2P.flat) (fun _ => ⟨false, 0, 0, 0⟩) 1 exSel (fun _ _ _ => 1) b.ndim 0 (fun _ => 1) (fun e => c e + off e) exStill h
        let cur : Fields ℝ 13 := fun a => (fun k => comp (radStored (fun _ => C2P.flat) exGlowField (at_ 0 0)) (Fin.ofNat 4 (k - 9)), exGlow (at_ 0 (centre 0 (fun _ => 1) c h a)))
        let old : Fin 4 → ℝ := fun m => (cur c).1 (radSlot (0 : Fin 1) m)
        let r : Fin 4 → ℝ := fun m => rate stage.dx b (blockFlux stage b off (M h) cur) (radSlot (0 : Fin 1) m) c +
          comp (radSrc 1 exSel (0 : Fin 1) eddTilPi ⟨fun _ => C2P.flat, fun _ => 1, fun _ _ _ _ => 0, fun _ _ => 0⟩ (rootGam C2P.flat) (fun e => c e + off e) (cur c).1 (cur c).2) m
        (exchanged C2P.flat (rootGam C2P.flat) 0 0 0 (3/4) 1 (1/2 * h) (transported old (1/2 * h) r) m - old m) / (1/2 * h)) (𝓝[>] 0) (𝓝 0) := by
  have hz : (![0, 0, 0] : Vec) = 0 := by funext i; fin_cases i <;> rfl
  have hz2 : (![![0, 0, 0], ![0, 0, 0], ![0, 0, 0]] : Tens2) = 0 := by funext i j; fin_cases i <;> fin_cases j <;> rfl
  have key := rad_step (nspec := 1) (N := 13) (tp := eddTilPi) (G := fun _ => C2P.flat) (B := fun _ => ⟨false, 0, 0, 0⟩) (sel := exSel) (kap := fun _ _ _ => 1) (q := exGlow) (x0 := 0) (t := 0) 0
    (flat_smooth _) (fun _ => C2P.flat_valid.1) (fun _ => by norm_num [C2P.flat]) (fun _ => C2P.flat_valid.2) glow_at (glow_smooth _) (fun _ _ _ => rfl)
    (fun Y => by
      show vvPi C2P.flat (exGlowField.v Y) (exGlowField.Pi Y) = 0
      rw [exGlowField_eq]; simp only [hz2]; exact Closure.vvPi_zero _ _)
    (glow_transfer _) (small := fun h => h) (SMALL := 1/100) (kmin := 1/100) (fun h hh => ⟨hh, le_rfl⟩) (by rw [flat_rootGam]; norm_num) (by norm_num) (fun _ => 1) (fun _ => one_pos) exStill
    (by norm_num [exStill]) (fun _ _ _ => rfl) (fun b0 hb => by simp [exStill, exFlow] at hb) (fun _ _ _ _ _ _ => rfl) b (by simpa [exStill, exFlow, radius] using hg) off c hc M ho
    (fun h a => (fun k => comp (radStored (fun _ => C2P.flat) exGlowField (at_ 0 0)) (Fin.ofNat 4 (k - 9)), exGlow (at_ 0 (centre 0 (fun _ => 1) c h a)))) (fun _ _ _ _ => rfl)
    (fun h _ m => by
      have : Fin.ofNat 4 (radSlot 0 m - 9) = m := by fin_cases m <;> rfl
      show comp _ (Fin.ofNat 4 (radSlot 0 m - 9)) = _
      rw [this]; rfl)
    (fun _ => ⟨fun _ => C2P.flat, fun _ => 1, fun _ _ _ _ => 0, fun _ _ => 0⟩) (fun _ _ => rfl)
    (fun a b s => by simp [metricDeriv, pd]) (fun m => by simp [pd])
    (fun d hd m => by
      have hd0 : d.succ ≠ 1 := fun h => by
        have : d = 0 := Fin.succ_injective _ (h.trans rfl)
        rw [this] at hd; simp at hd; omega
      refine pd_blind fun Y r => ?_
      show comp (radPhys (fun _ => C2P.flat) exGlowField d _) m = comp (radPhys (fun _ => C2P.flat) exGlowField d _) m
      have e := glow_blind hd0 Y r
      simp only at e
      unfold radPhys
      rw [exGlowField_eq]
      simp only [e])
    (lam := 1/2) (by norm_num) (v := fun _ => 0) (Pi := fun _ => 0) (B' := fun _ => 0) (kJ' := fun _ => 3/4) (kH' := fun _ => 1)
    (by
      show Tendsto _ _ (𝓝 (exGlowField.v _))
      rw [exGlowField_eq]; simp only [hz]; exact tendsto_const_nhds)
    (fun i j => by
      show Tendsto _ _ (𝓝 (exGlowField.Pi _ i j))
      rw [exGlowField_eq]; simp only [hz2]; exact tendsto_const_nhds)
    (Eventually.of_forall fun _ => Closure.vvPi_zero _ _) tendsto_const_nhds tendsto_const_nhds tendsto_const_nhds (Eventually.of_forall fun _ => by norm_num) (Eventually.of_forall fun _ => by norm_num) m
  have e1 : pd 0 (fun Y => comp (radStored (fun _ => C2P.flat) exGlowField Y) m) (at_ 0 0) = 0 := by
    refine pd_blind fun Y r => ?_
    have e := glow_blind (μ := 0) (by decide) Y r
    simp only at e
    unfold radStored
    rw [exGlowField_eq]
    simp only [e]
  have key2 := key
  rw [show pd 0 (fun Y => comp (radStored (fun _ => C2P.flat) (fieldOf eddTilPi (fun _ => C2P.flat) fun Y => radSide 1 exSel (0 : Fin 1) (exGlow Y)) Y) m) (at_ 0 0) = 0 from e1] at key2
  exact key2

end Phoebus.Step
