import Verif.Step.Consistency
import Verif.Step.CodeBalance
import Verif.Geom.Calculus
import Mathlib.Analysis.SpecialFunctions.Log.Deriv

/-!
# Fluxes and geometric sources of the program are those of the GRMHD equations (C150)

If a smooth flow solves the equations of general relativistic magnetohydrodynamics, `∇_μ(ρ u^μ) = 0`, `∇_μ(ρ Y_e u^μ) = 0`, `∇_μ T^{μν} = 0`, `∇_μ *F^{μi} = 0`,
in any smooth spacetime, then the rate of change the program computes for a cell from its fluxes and its source terms tends to the time derivative of the variables it stores,
as the cells shrink.
-/
namespace Phoebus.Step
open FluxSweep Geom Riemann Rel Sources Filter Topology Set

/-! ### Specification -/

/-- a flow: the variables of the fluid at every event. -/
abbrev Flow := Event → Fin 11 → ℝ

/-- the fluid state at an event. -/
def Flow.fluid (q : Flow) (Y : Event) : Prim := (faceState (q Y)).q

/-- current of rest mass. -/
noncomputable def massCurrent (G : Event → ADM ℝ) (q : Flow) (Y : Event) (μ : Fin 4) : ℝ := q Y 0 * tU 0 (G Y) (q.fluid Y) μ

/-- the dual of the electromagnetic field tensor of a perfect conductor. -/
noncomputable def dualField (G : Event → ADM ℝ) (q : Flow) (Y : Event) (μ ν : Fin 4) : ℝ :=
  tB 0 (G Y) (q.fluid Y) μ * tU 0 (G Y) (q.fluid Y) ν - tB 0 (G Y) (q.fluid Y) ν * tU 0 (G Y) (q.fluid Y) μ

/-- the equations of general relativistic magnetohydrodynamics at an event. -/
structure Solves (G : Event → ADM ℝ) (q : Flow) (X : Event) : Prop where
  mass : divVec G (massCurrent G q) X = 0
  electrons : divVec G (fun Y μ => massCurrent G q Y μ * q Y 8) X = 0
  stress : ∀ ν, divTens G (fun Y => tmunu 0 (G Y) (q.fluid Y)) X ν = 0
  induction : ∀ i : Fin 3, divTens G (dualField G q) X i.succ = 0

/-- the conserved variables the program stores for a state: `p2c`, with the determinant of the spatial metric, in the slots of the fluxes. -/
noncomputable def stored (val : Bool) (G : ADM ℝ) (v : Fin 11 → ℝ) (k : ℕ) : ℝ :=
  let c := p2c val G (√(Matrix.of G.gam).det) (v 8) (faceState v).q
  slot ⟨c.D, c.S, c.tau, c.B, c.ye⟩ k

/-- the flow is differentiable, in a differentiable spacetime, and inside the floors and ceilings, which are continuous. -/
structure SmoothFlow (eps : ℝ) (G : Event → ADM ℝ) (L : Event → Limits) (q : Flow) (X : Event) : Prop where
  geom : SmoothGeom G X
  valid : ∀ Y, (G Y).Valid
  lapse : ∀ Y, 0 < (G Y).alpha
  pos : ∀ Y, PosDef (G Y)
  state : DifferentiableAt ℝ q X
  epsr : 0 < eps ∧ eps < 1/2
  rhoFloor : ContinuousAt (fun Y => (L Y).rhoFloor) X
  sieFloor : ContinuousAt (fun Y => (L Y).sieFloor) X
  sieMax : ContinuousAt (fun Y => (L Y).sieMax) X
  gamMax : ContinuousAt (fun Y => (L Y).gamMax) X
  inside : 0 < q X 0 ∧ (L X).rhoFloor < q X 0 ∧ (L X).sieFloor < q X 4 / q X 0 ∧ q X 4 / q X 0 < (L X).sieMax ∧ 0 < q X 9 ∧
    lorentz (G X).gam (q.fluid X).v < (L X).gamMax

/-- geometry at a cell centre when the metric derivatives are exact. -/
noncomputable def exactCell (G : Event → ADM ℝ) (X : Event) : CellGeom :=
  ⟨fun _ => G X, fun _ => rootDet (G X), fun _ => metricDeriv G X, fun _ m => pd m (fun Y => Real.log (G Y).alpha) X⟩

/-! ### The balance law -/

section
variable {G : Event → ADM ℝ} {q : Flow} {X : Event}

theorem flow_prim (hq : DifferentiableAt ℝ q X) : SmoothPrim q.fluid X := by
  have h : ∀ i : Fin 11, DifferentiableAt ℝ (fun Y => q Y i) X := fun i => differentiableAt_pi.1 hq i
  refine ⟨h 0, h 4, h 9, fun i => ?_, fun i => ?_⟩
  · fin_cases i
    exacts [h 1, h 2, h 3]
  · fin_cases i
    exacts [h 5, h 6, h 7]

theorem tmunu_diff (hG : SmoothGeom G X) (ha : ∀ Y, 0 < (G Y).alpha) (hp : ∀ Y, PosDef (G Y)) {s : Event → Prim} (hq : SmoothPrim s X) (μ ν : Fin 4) :
    DifferentiableAt ℝ (fun Y => tmunu 0 (G Y) (s Y) μ ν) X := by
  have hU := tU_diff hG hq ha (hp X)
  have hB := tB_diff hG hq ha (hp X)
  have hbsq := tbsq_diff hG hq (hp X)
  unfold tmunu
  exact (((((hq.rho.add hq.u).add hq.P).add hbsq).mul (hU μ)).mul (hU ν)).add ((hq.P.add (hbsq.const_mul _)).mul (g4Inv_diff hG (ha X) μ ν)) |>.sub ((hB μ).mul (hB ν))

theorem tmunu_comm (G : ADM ℝ) (h : G.Valid) (s : Prim) (μ ν : Fin 4) : tmunu 0 G s μ ν = tmunu 0 G s ν μ := by
  unfold tmunu
  simp only
  rw [g4Inv_comm h μ ν]; ring

theorem slot_mom (S : Slots) (m : Fin 3) : slot S (1 + m.val) = S.mom m := by fin_cases m <;> simp [slot]
theorem slot_B (S : Slots) (m : Fin 3) : slot S (5 + m.val) = S.B m := by fin_cases m <;> simp [slot]
theorem slot_eng (S : Slots) : slot S 4 = S.eng := by simp [slot]
theorem slot_ye (S : Slots) : slot S 8 = S.ye := by simp [slot]
theorem slot_rho (S : Slots) : slot S 0 = S.rho := by simp [slot]
theorem slot_high (S : Slots) (k : ℕ) (h : 9 ≤ k) : slot S k = 0 := by
  unfold slot
  simp only [show k ≠ 0 by omega, show k ≠ 1 by omega, show k ≠ 2 by omega, show k ≠ 3 by omega, show k ≠ 4 by omega, show k ≠ 5 by omega, show k ≠ 6 by omega,
    show k ≠ 7 by omega, show k ≠ 8 by omega, if_false]

/-- stored variables and fluxes are the components of the density of a current. -/
theorem as_current {f : Event → ℝ} {F : Fin 3 → Event → ℝ} (J : Event → Fin 4 → ℝ) (h0 : ∀ Y, f Y = rootDet (G Y) * J Y 0) (h1 : ∀ d Y, F d Y = rootDet (G Y) * J Y d.succ) (S : ℝ)
    (h : ∑ μ, pd μ (fun Y => rootDet (G Y) * J Y μ) X = S) : pd 0 f X = -∑ d, pd d.succ (F d) X + S := by
  have e0 : f = fun Y => rootDet (G Y) * J Y 0 := funext h0
  have e1 : ∀ d, F d = fun Y => rootDet (G Y) * J Y d.succ := fun d => funext (h1 d)
  rw [Fin.sum_univ_succ] at h
  simp only [e0, e1]
  linarith

variable (hG : SmoothGeom G X) (hV : ∀ Y, (G Y).Valid) (ha : ∀ Y, 0 < (G Y).alpha) (hp : ∀ Y, PosDef (G Y)) (hq : DifferentiableAt ℝ q X)
include hG hV ha hp

theorem flow_spacetime : Spacetime G X := ⟨hV, ha, hp, g4_diff hG⟩

include hq

theorem mass_diff (μ : Fin 4) : DifferentiableAt ℝ (fun Y => massCurrent G q Y μ) X :=
  (flow_prim hq).rho.mul (tU_diff hG (flow_prim hq) ha (hp X) μ)

/-- **C150** the balance laws of all variables the program stores, in the form it uses: for every smooth solution of the GRMHD equations in every smooth spacetime, the time
derivative of each stored variable is minus the divergence of its flux plus the geometric source. -/
theorem grmhd_balance (val : Bool) (hs : Solves G q X) (k : ℕ) :
    pd 0 (fun Y => stored val (G Y) (q Y) k) X =
      -∑ d : Fin 3, pd d.succ (fun Y => rootDet (G Y) * physFlux val (G Y) (q Y) d k) X + fluidSrc val 0 (exactCell G X) 0 (q X) k := by
  have st := flow_spacetime hG hV ha hp
  have hf := flow_prim hq
  have hM := mass_diff hG hV ha hp hq
  have hT := tmunu_diff hG ha hp hf
  have hr := rootDet_diff st
  have proj := fun Y => p2c_projections val (G Y) (√(Matrix.of (G Y).gam).det) (q Y 8) (q.fluid Y) (hV Y) (ha Y) (hp Y)
  have hroot : ∀ Y, rootDet (G Y) = (G Y).alpha * √(Matrix.of (G Y).gam).det := fun Y => sqrt_det_g4 _ (hV Y) (ha Y)
  by_cases k9 : 9 ≤ k
  · refine as_current (G := G) (fun _ _ => 0) (fun Y => ?_) (fun d Y => ?_) _ ?_
    · simp only [stored, mul_zero]; exact slot_high _ _ k9
    · simp only [physFlux, mul_zero]; rw [slot_high _ _ k9, mul_zero]
    · simp only [mul_zero, fluidSrc, show k ≠ 1 by omega, show k ≠ 2 by omega, show k ≠ 3 by omega, show k ≠ 4 by omega, if_false]
      exact Finset.sum_eq_zero fun μ _ => by simp [pd]
  by_cases k0 : k = 0
  · subst k0
    refine as_current (G := G) (massCurrent G q) (fun Y => ?_) (fun d Y => ?_) _ ?_
    · simp only [stored, slot_rho]
      rw [hroot]
      refine (proj Y).1.trans ?_
      unfold massCurrent
      have : (q.fluid Y).rho = q Y 0 := rfl
      rw [this]; ring
    · simp only [physFlux, slot_rho]; rfl
    · rw [density_vec st _ hM, hs.mass]; simp [fluidSrc]
  by_cases k8 : k = 8
  · subst k8
    refine as_current (G := G) (fun Y μ => massCurrent G q Y μ * q Y 8) (fun Y => ?_) (fun d Y => ?_) _ ?_
    · simp only [stored, slot_ye]
      rw [hroot]
      refine (proj Y).2.2.2.1.trans ?_
      rw [(proj Y).1]
      unfold massCurrent
      have : (q.fluid Y).rho = q Y 0 := rfl
      rw [this]; ring
    · simp only [physFlux, slot_ye]; rfl
    · rw [density_vec st (fun Y μ => massCurrent G q Y μ * q Y 8) fun μ => (hM μ).mul (differentiableAt_pi.1 hq 8), hs.electrons]; simp [fluidSrc]
  by_cases k1 : 1 ≤ k ∧ k ≤ 3
  · obtain ⟨m, rfl⟩ : ∃ m : Fin 3, k = 1 + m.val := ⟨⟨k - 1, by omega⟩, by simp only; omega⟩
    refine as_current (G := G) (fun Y μ => mixed (G Y).g4 (tmunu 0 (G Y) (q.fluid Y)) μ m.succ) (fun Y => ?_) (fun d Y => ?_) _ ?_
    · simp only [stored, slot_mom]
      rw [hroot]
      refine ((proj Y).2.1 m).trans ?_
      ring
    · simp only [physFlux, slot_mom]; rfl
    · rw [show (fun μ => pd μ (fun Y => rootDet (G Y) * mixed (G Y).g4 (tmunu 0 (G Y) (q.fluid Y)) μ m.succ) X) =
        fun μ => pd μ (fun Y => rootDet (G Y) * ∑ ν, tmunu 0 (G Y) (q.fluid Y) μ ν * (G Y).g4 ν m.succ) X from rfl]
      rw [density_mixed st (fun Y => tmunu 0 (G Y) (q.fluid Y)) hT]
      simp only [hs.stress, mul_zero, Finset.sum_const_zero, zero_add]
      have e : fluidSrc val 0 (exactCell G X) 0 (q X) (1 + m.val) = momentumSource (rootDet (G X)) (metricDeriv G X) (tmunu 0 (G X) (q.fluid X)) m := by
        fin_cases m <;> simp [fluidSrc, exactCell] <;> rfl
      rw [e]
      unfold momentumSource GeomUtils.connection
      congr 1
      refine Finset.sum_congr rfl fun a _ => Finset.sum_congr rfl fun b _ => ?_
      rw [metricDeriv_comm st m.succ b a, metricDeriv_comm st m.succ a b, metricDeriv_comm st a b m.succ]
      ring
  by_cases k4 : k = 4
  · subst k4
    have esrc : fluidSrc val 0 (exactCell G X) 0 (q X) 4 = if val then energySourceValencia 0 (G X) (rootDet (G X)) (metricDeriv G X)
        (fun m => pd m (fun Y => Real.log (G Y).alpha) X) (tmunu 0 (G X) (q.fluid X)) else energySourceCovariant (rootDet (G X)) (metricDeriv G X) (tmunu 0 (G X) (q.fluid X)) := by
      simp [fluidSrc, exactCell]; rfl
    rw [esrc]
    cases val
    · refine as_current (G := G) (fun Y μ => mixed (G Y).g4 (tmunu 0 (G Y) (q.fluid Y)) μ 0 + massCurrent G q Y μ) (fun Y => ?_) (fun d Y => ?_) _ ?_
      · simp only [stored, slot_eng]
        rw [hroot]
        refine (proj Y).2.2.2.2.trans ?_
        rw [(proj Y).1]
        unfold massCurrent
        have : (q.fluid Y).rho = q Y 0 := rfl
        rw [this]; ring
      · simp only [physFlux, slot_eng]; rfl
      · have hmix : ∀ μ, DifferentiableAt ℝ (fun Y => mixed (G Y).g4 (tmunu 0 (G Y) (q.fluid Y)) μ 0) X := fun μ =>
          DifferentiableAt.fun_sum fun l _ => (hT μ l).mul (g4_diff hG l 0)
        have e : ∀ μ, pd μ (fun Y => rootDet (G Y) * (mixed (G Y).g4 (tmunu 0 (G Y) (q.fluid Y)) μ 0 + massCurrent G q Y μ)) X =
            pd μ (fun Y => rootDet (G Y) * ∑ ν, tmunu 0 (G Y) (q.fluid Y) μ ν * (G Y).g4 ν 0) X + pd μ (fun Y => rootDet (G Y) * massCurrent G q Y μ) X := fun μ => by
          simp only [mul_add]
          exact pd_add (hr.fun_mul (hmix μ)) (hr.fun_mul (hM μ)) μ
        simp only [e, Finset.sum_add_distrib]
        rw [density_mixed st (fun Y => tmunu 0 (G Y) (q.fluid Y)) hT, density_vec st _ hM, hs.mass]
        simp only [hs.stress, mul_zero, Finset.sum_const_zero, zero_add, add_zero, Bool.false_eq_true, if_false]
        rw [(energy_source_covariant _ _ _ (metricDeriv_comm st) (tmunu_comm _ (hV X) _)).1,
          ← contract_half _ _ (metricDeriv_comm st) (tmunu_comm _ (hV X) _)]
        unfold GeomUtils.connection
        congr 1
        refine Finset.sum_congr rfl fun a _ => Finset.sum_congr rfl fun b _ => ?_
        rw [metricDeriv_comm st 0 b a, metricDeriv_comm st 0 a b, metricDeriv_comm st a b 0]
        ring
    · refine as_current (G := G) (fun Y μ => (G Y).alpha * tmunu 0 (G Y) (q.fluid Y) μ 0 - massCurrent G q Y μ) (fun Y => ?_) (fun d Y => ?_) _ ?_
      · simp only [stored, slot_eng]
        rw [hroot]
        refine (p2c_valencia_energy (G Y) _ (q Y 8) (q.fluid Y) (ha Y) (hp Y)).trans ?_
        rw [(proj Y).1]
        unfold massCurrent
        have : (q.fluid Y).rho = q Y 0 := rfl
        rw [this]; ring
      · simp only [physFlux, slot_eng, if_true]
        rw [tmunu_comm _ (hV Y) _ d.succ 0]; rfl
      · have e : ∀ μ, pd μ (fun Y => rootDet (G Y) * ((G Y).alpha * tmunu 0 (G Y) (q.fluid Y) μ 0 - massCurrent G q Y μ)) X =
            pd μ (fun Y => (G Y).alpha) X * (rootDet (G X) * tmunu 0 (G X) (q.fluid X) μ 0) + (G X).alpha * pd μ (fun Y => rootDet (G Y) * tmunu 0 (G Y) (q.fluid Y) μ 0) X
              - pd μ (fun Y => rootDet (G Y) * massCurrent G q Y μ) X := fun μ => by
          rw [← pd_mul (g := fun Y => rootDet (G Y) * tmunu 0 (G Y) (q.fluid Y) μ 0) hG.alpha (hr.fun_mul (hT μ 0)),
            ← pd_sub (hG.alpha.fun_mul (hr.fun_mul (hT μ 0))) (hr.fun_mul (hM μ))]
          congr 1
          funext Y; ring
        simp only [e, Finset.sum_add_distrib, Finset.sum_sub_distrib, ← Finset.mul_sum]
        rw [density_tens st (fun Y => tmunu 0 (G Y) (q.fluid Y)) hT, density_vec st _ hM, hs.mass, hs.stress]
        simp only [if_true, mul_zero, sub_zero, zero_sub]
        unfold energySourceValencia
        simp only [gcon0_eq]
        have ela : ∀ m, pd m (fun Y => (G Y).alpha) X = (G X).alpha * pd m (fun Y => Real.log (G Y).alpha) X := fun m => by
          unfold pd
          rw [(hG.alpha.hasFDerivAt.log (ha X).ne').fderiv]
          simp only [_root_.smul_apply, smul_eq_mul]
          rw [← mul_assoc, mul_inv_cancel₀ (ha X).ne', one_mul]
        have e1 : ∑ μ, pd μ (fun Y => (G Y).alpha) X * (rootDet (G X) * tmunu 0 (G X) (q.fluid X) μ 0) =
            rootDet (G X) * (G X).alpha * ∑ m, tmunu 0 (G X) (q.fluid X) m 0 * pd m (fun Y => Real.log (G Y).alpha) X := by
          rw [Finset.mul_sum]
          exact Finset.sum_congr rfl fun m _ => by rw [ela]; ring
        have e2 : ∑ μ, ∑ l, christoffel G X 0 μ l * tmunu 0 (G X) (q.fluid X) μ l =
            ∑ m, ∑ n, tmunu 0 (G X) (q.fluid X) m n * ∑ r, (G X).g4Inv 0 r * GeomUtils.connection (metricDeriv G X) r m n := by
          refine Finset.sum_congr rfl fun a _ => Finset.sum_congr rfl fun b _ => ?_
          rw [mul_comm]
          congr 1
          unfold christoffel GeomUtils.connection
          refine Finset.sum_congr rfl fun s _ => ?_
          rw [metricDeriv_comm st s b a, metricDeriv_comm st s a b]
          ring
        rw [e1, e2]
        ring
  · obtain ⟨m, rfl⟩ : ∃ m : Fin 3, k = 5 + m.val := ⟨⟨k - 5, by omega⟩, by simp only; omega⟩
    have hW := fun Y => (lorentz_pos (G Y) (hp Y) (q.fluid Y).v).ne'
    have ha' := fun Y => (ha Y).ne'
    have hUs := fun Y => tU_split (G Y) (q.fluid Y) (ha Y)
    have hBs := fun Y => tB_split (G Y) (q.fluid Y) (ha Y) (hp Y)
    refine as_current (G := G) (fun Y μ => -dualField G q Y μ m.succ) (fun Y => ?_) (fun d Y => ?_) _ ?_
    · simp only [stored, slot_B]
      rw [hroot]
      refine ((proj Y).2.2.1 m).trans ?_
      unfold dualField
      rw [hUs, hBs]
      simp only [Fin.cons_zero, Fin.cons_succ]
      have := hW Y
      have := ha' Y
      field_simp
      ring
    · simp only [physFlux, slot_B]
      congr 1
      unfold dualField
      rw [hUs, hBs]
      simp only [Fin.cons_succ]
      have := hW Y
      have := ha' Y
      show (q.fluid Y).B m * ((q.fluid Y).v d / lorentz (G Y).gam (q.fluid Y).v - (G Y).beta d / (G Y).alpha) -
        (q.fluid Y).B d * ((q.fluid Y).v m / lorentz (G Y).gam (q.fluid Y).v - (G Y).beta m / (G Y).alpha) = _
      field_simp
      ring
    · have hU := tU_diff hG hf ha (hp X)
      have hB := tB_diff hG hf ha (hp X)
      simp only [mul_neg, pd_neg, Finset.sum_neg_distrib]
      rw [density_anti st (dualField G q) (fun μ ν => ((hB μ).mul (hU ν)).sub ((hB ν).mul (hU μ))) (fun μ ν => by unfold dualField; ring), hs.induction]
      have : ∀ j : ℕ, 5 ≤ j → fluidSrc val 0 (exactCell G X) 0 (q X) j = 0 := fun j hj => by
        simp only [fluidSrc, show j ≠ 1 by omega, show j ≠ 2 by omega, show j ≠ 3 by omega, show j ≠ 4 by omega, if_false]
      rw [this _ (by omega)]
      ring

end

/-! ### The program -/

/-- the event with time `t` and coordinates `y`. -/
def at_ (t : ℝ) (y : Coord) : Event := Fin.cons t y

/-- coordinate displacements as displacements of events. -/
noncomputable def along : Coord →L[ℝ] Event := ContinuousLinearMap.pi (Fin.cons (0 : Coord →L[ℝ] ℝ) fun i => ContinuousLinearMap.proj (R := ℝ) (φ := fun _ : Fin 3 => ℝ) i)

theorem along_single (d : Fin 3) : along (Pi.single d 1) = Pi.single d.succ 1 := by
  funext μ
  refine Fin.cases ?_ (fun i => ?_) μ
  · simp [along]
  · simp [along, Pi.single_apply]

theorem slice_deriv (t : ℝ) (x0 : Coord) : HasFDerivAt (fun y => at_ t y) along x0 := by
  rw [hasFDerivAt_pi']
  intro μ
  refine Fin.cases ?_ (fun i => ?_) μ
  · exact (hasFDerivAt_const t x0).congr_fderiv (by ext; simp [along])
  · exact ((ContinuousLinearMap.proj (R := ℝ) (φ := fun _ : Fin 3 => ℝ) i).hasFDerivAt).congr_fderiv (by ext; simp [along])

theorem slice_fderiv {f : Event → ℝ} {t : ℝ} {x0 : Coord} (hf : DifferentiableAt ℝ f (at_ t x0)) (d : Fin 3) :
    fderiv ℝ (fun y => f (at_ t y)) x0 (Pi.single d 1) = pd d.succ f (at_ t x0) := by
  have h : HasFDerivAt (fun y => f (at_ t y)) _ x0 := HasFDerivAt.comp (f := fun y => at_ t y) x0 hf.hasFDerivAt (slice_deriv t x0)
  rw [h.fderiv]
  show fderiv ℝ f (at_ t x0) (along (Pi.single d 1)) = _
  rw [along_single]; rfl

theorem slice_diff {E : Type} [NormedAddCommGroup E] [NormedSpace ℝ E] {f : Event → E} {t : ℝ} {x0 : Coord} (hf : DifferentiableAt ℝ f (at_ t x0)) :
    DifferentiableAt ℝ (fun y => f (at_ t y)) x0 := DifferentiableAt.fun_comp' (f := fun y => at_ t y) x0 hf (slice_deriv t x0).differentiableAt

theorem slice_cont {E : Type} [TopologicalSpace E] {f : Event → E} {t : ℝ} {x0 : Coord} (hf : ContinuousAt f (at_ t x0)) :
    ContinuousAt (fun y => f (at_ t y)) x0 := ContinuousAt.comp (f := fun y => at_ t y) hf (slice_deriv t x0).continuousAt

section
variable {eps : ℝ} {G : Event → ADM ℝ} {L : Event → Limits} {q : Flow} {t : ℝ} {x0 : Coord}

theorem gamma_diff {X : Event} (hF : SmoothFlow eps G L q X) : DifferentiableAt ℝ (fun Y => √(Matrix.of (G Y).gam).det) X := by
  have e : (fun Y => √(Matrix.of (G Y).gam).det) = fun Y => rootDet (G Y) / (G Y).alpha := by
    funext Y
    have : rootDet (G Y) = _ := sqrt_det_g4 _ (hF.valid Y) (hF.lapse Y)
    rw [this, mul_div_assoc, mul_comm, div_mul_cancel₀ _ (hF.lapse Y).ne']
  rw [e]
  exact ddiv (rootDet_diff (flow_spacetime hF.geom hF.valid hF.lapse hF.pos)) hF.geom.alpha (hF.lapse X).ne'

theorem slice_smooth (hF : SmoothFlow eps G L q (at_ t x0)) : SmoothAt eps (fun y => G (at_ t y)) (fun y => L (at_ t y)) (fun y => rootDet (G (at_ t y)))
    (fun y => √(Matrix.of (G (at_ t y)).gam).det) (fun y => q (at_ t y)) x0 where
  geom := ⟨slice_diff (f := fun Y => (G Y).alpha) hF.geom.alpha, fun i => slice_diff (f := fun Y => (G Y).beta i) (hF.geom.beta i),
    fun i j => slice_diff (f := fun Y => (G Y).gam i j) (hF.geom.gam i j), fun i j => slice_diff (f := fun Y => (G Y).gamInv i j) (hF.geom.gamInv i j)⟩
  valid := fun y => hF.valid _
  lapse := fun y => hF.lapse _
  pos := fun y => hF.pos _
  gdet := slice_diff (f := fun Y => rootDet (G Y)) (rootDet_diff (flow_spacetime hF.geom hF.valid hF.lapse hF.pos))
  gammadet := slice_cont (f := fun Y => √(Matrix.of (G Y).gam).det) (gamma_diff hF).continuousAt
  state := slice_diff hF.state
  epsr := hF.epsr
  rhoFloor := slice_cont (f := fun Y => (L Y).rhoFloor) hF.rhoFloor
  sieFloor := slice_cont (f := fun Y => (L Y).sieFloor) hF.sieFloor
  sieMax := slice_cont (f := fun Y => (L Y).sieMax) hF.sieMax
  gamMax := slice_cont (f := fun Y => (L Y).gamMax) hF.gamMax
  inside := hF.inside

theorem physFlux_diff (val : Bool) {X : Event} (hF : SmoothFlow eps G L q X) (d : Fin 3) (k : ℕ) : DifferentiableAt ℝ (fun Y => physFlux val (G Y) (q Y) d k) X := by
  have hf := flow_prim hF.state
  have hU := tU_diff hF.geom hf hF.lapse (hF.pos X)
  have hT := tmunu_diff hF.geom hF.lapse hF.pos hf
  have hM := mass_diff hF.geom hF.valid hF.lapse hF.pos hF.state
  have hW := lorentz_diff hF.geom hf (hF.pos X)
  have hW0 := (lorentz_pos (G X) (hF.pos X) (q.fluid X).v).ne'
  have hdr : ∀ i, DifferentiableAt ℝ (fun Y => (q.fluid Y).v i / lorentz (G Y).gam (q.fluid Y).v - (G Y).beta i / (G Y).alpha) X := fun i =>
    (ddiv (hf.v i) hW hW0).sub (ddiv (hF.geom.beta i) hF.geom.alpha (hF.lapse X).ne')
  have hmix : ∀ μ ν, DifferentiableAt ℝ (fun Y => mixed (G Y).g4 (tmunu 0 (G Y) (q.fluid Y)) μ ν) X := fun μ ν =>
    DifferentiableAt.fun_sum fun l _ => (hT μ l).mul (g4_diff hF.geom l ν)
  unfold physFlux
  refine slot_diff _ (hM d.succ) (fun m => hmix _ _) ?_ (fun m => ((hf.B m).mul (hdr d)).sub ((hf.B d).mul (hdr m))) ((hM d.succ).mul (differentiableAt_pi.1 hF.state 8)) k
  cases val
  · exact (hmix _ _).add (hM d.succ)
  · exact (hF.geom.alpha.mul (hT 0 d.succ)).sub (hM d.succ)

theorem fluidSrc_limit (val : Bool) {X : Event} (C : ℝ → CellGeom) (p : Pos) (v : ℝ → Fin 11 → ℝ) (hv : ∀ h, 0 < h → v h = q X) (hG : ∀ h, 0 < h → (C h).G p = G X)
    (hg : ∀ h, 0 < h → (C h).gdet p = rootDet (G X))
    (hdg : ∀ a b s, Tendsto (fun h => (C h).dg p a b s) (𝓝[>] 0) (𝓝 (metricDeriv G X a b s)))
    (hda : ∀ m, Tendsto (fun h => (C h).da p m) (𝓝[>] 0) (𝓝 (pd m (fun Y => Real.log (G Y).alpha) X))) (k : ℕ) :
    Tendsto (fun h => fluidSrc val 0 (C h) p (v h) k) (𝓝[>] 0) (𝓝 (fluidSrc val 0 (exactCell G X) 0 (q X) k)) := by
  have e : (fun h => fluidSrc val 0 ⟨fun _ => G X, fun _ => rootDet (G X), fun _ => (C h).dg p, fun _ => (C h).da p⟩ 0 (q X) k) =ᶠ[𝓝[>] 0] fun h => fluidSrc val 0 (C h) p (v h) k := by
    filter_upwards [self_mem_nhdsWithin] with h hh
    unfold fluidSrc
    rw [hv h hh, hG h hh, hg h hh]
  refine Tendsto.congr' e ?_
  have hc : ∀ a b c, Tendsto (fun h => GeomUtils.connection ((C h).dg p) a b c) (𝓝[>] 0) (𝓝 (GeomUtils.connection (metricDeriv G X) a b c)) := fun a b c =>
    (((hdg b a c).add (hdg c a b)).sub (hdg b c a)).const_mul _
  have hm : ∀ g T l, Tendsto (fun h => momentumSource g ((C h).dg p) T l) (𝓝[>] 0) (𝓝 (momentumSource g (metricDeriv G X) T l)) := fun g T l =>
    (tendsto_finset_sum _ fun m _ => tendsto_finset_sum _ fun n _ => ((hdg _ _ _).sub (hc _ _ _)).const_mul _).const_mul _
  unfold fluidSrc exactCell
  simp only
  split_ifs
  · exact hm _ _ _
  · exact hm _ _ _
  · exact hm _ _ _
  · unfold energySourceValencia
    exact ((tendsto_finset_sum _ fun m _ => (hda m).const_mul _).sub (tendsto_finset_sum _ fun m _ => tendsto_finset_sum _ fun n _ =>
      (tendsto_finset_sum _ fun r _ => (hc _ _ _).const_mul _).const_mul _)).const_mul _
  · unfold energySourceCovariant
    exact (tendsto_finset_sum _ fun m _ => tendsto_finset_sum _ fun n _ => (hc _ _ _).const_mul _).const_mul _
  · exact tendsto_const_nhds

/-- **C150**: a smooth flow that solves the GRMHD equations at an event, in any smooth spacetime (which may depend on time); a cell of a block of a mesh, whatever the memory
contained and in whatever order the loop ran.  The primitive variables of the cells are those of the flow at the cell centres, the geometry is exact, and the metric derivatives
the program uses in the sources tend to the true ones as the cells shrink (they may be finite differences).  If the mesh has fewer than three dimensions, the fluxes do not vary
along the others.  Then the rate of change of every conserved variable from fluxes and geometric sources tends to the time derivative of the stored variable of the flow. -/
theorem grmhd_rate (sol : MeshRun.Solver) (small : ℝ) (hsol : sol = .llf ∨ small = 0) (val : Bool) (hF : SmoothFlow eps G L q (at_ t x0)) (hs : Solves G q (at_ t x0)) (w : Coord)
    (hw : ∀ d, 0 < w d) (P : Phys ℝ 11) (hew : 0 < P.ew) (hfix : ∀ d p F, P.fix d p F = F) (hrad : ∀ d p st m, P.rad d p st m = 0)
    (b : Blk) (hg : 1 + radius P.rt ≤ b.g) (off c : Pos) (hc : b.Interior c) (M : ℝ → Mem ℝ 11) (ho : ∀ h, Covers b (M h).order) (cur : ℝ → Fields ℝ 11)
    (hcur : ∀ h, 0 < h → ∀ a, b.Entire a → (cur h a).2 = q (at_ t (centre x0 w c h a)))
    (C : ℝ → CellGeom) (hCG : ∀ h, 0 < h → (C h).G (fun e => c e + off e) = G (at_ t x0)) (hCg : ∀ h, 0 < h → (C h).gdet (fun e => c e + off e) = rootDet (G (at_ t x0)))
    (hdg : ∀ a b s, Tendsto (fun h => (C h).dg (fun e => c e + off e) a b s) (𝓝[>] 0) (𝓝 (metricDeriv G (at_ t x0) a b s)))
    (hda : ∀ m, Tendsto (fun h => (C h).da (fun e => c e + off e) m) (𝓝[>] 0) (𝓝 (pd m (fun Y => Real.log (G Y).alpha) (at_ t x0))))
    (hsym : ∀ d : Fin 3, b.ndim ≤ d.val → ∀ k, pd d.succ (fun Y => rootDet (G Y) * physFlux val (G Y) (q Y) d k) (at_ t x0) = 0) (k : ℕ) :
    Tendsto (fun h =>
        let stage := refined sol small eps val (fun y => G (at_ t y)) (fun y => L (at_ t y)) (fun y => rootDet (G (at_ t y))) (fun y => √(Matrix.of (G (at_ t y)).gam).det) x0 w
          (fun e => c e + off e) P h
        rate stage.dx b (blockFlux stage b off (M h) (cur h)) k c + fluidSrc val 0 (C h) (fun e => c e + off e) (cur h c).2 k) (𝓝[>] 0)
      (𝓝 (pd 0 (fun Y => stored val (G Y) (q Y) k) (at_ t x0))) := by
  have hce : b.Entire c := interior_entire b (by
    have : 0 ≤ radius P.rt := by cases P.rt <;> decide
    omega) c hc
  have h1 := rate_consistent sol small hsol val (slice_smooth hF) w hw P hew hfix hrad b hg off c hc M ho cur hcur k
  have h2 := fluidSrc_limit (q := q) (G := G) val C (fun e => c e + off e) (fun h => (cur h c).2) (fun h hh => by
    have e : centre x0 w c h c = x0 := by funext e; simp [centre]
    rw [hcur h hh c hce, e]) hCG hCg hdg hda k
  have h3 := h1.add h2
  rw [grmhd_balance hF.geom hF.valid hF.lapse hF.pos hF.state val hs k]
  refine Eq.subst (motive := fun y => Tendsto _ _ (𝓝 (y + _))) ?_ h3
  congr 1
  refine Finset.sum_congr rfl fun d _ => ?_
  split_ifs with hd
  · exact slice_fderiv (f := fun Y => rootDet (G Y) * physFlux val (G Y) (q Y) d k)
      ((rootDet_diff (flow_spacetime hF.geom hF.valid hF.lapse hF.pos)).mul (physFlux_diff val hF d k)) d
  · exact (hsym d (by omega) k).symm

end

/-! ### Example: a density gradient carried along at three fifths of the speed of light -/

/-- the density `1 + x - 3/5 t`, with velocity, energy density, pressure and field of `exSur` everywhere. -/
noncomputable def exWave : Flow := fun Y => exSur.prims (1 + Y 1 - 3/5 * Y 0)

theorem exWave_diff (X : Event) : DifferentiableAt ℝ exWave X := by
  rw [differentiableAt_pi]
  intro i
  unfold exWave Surround.prims
  fin_cases i
  · show DifferentiableAt ℝ (fun Y : Event => 1 + Y 1 - 3/5 * Y 0) X
    fun_prop
  all_goals exact differentiableAt_const _

theorem exWave_smooth : SmoothFlow (1/1000) (fun _ => C2P.flat) (fun _ => exLim) exWave (at_ 0 0) := by
  have e : exWave (at_ 0 0) = exSur.prims 1 := by simp [exWave, at_]
  refine ⟨⟨differentiableAt_const _, fun _ => differentiableAt_const _, fun _ _ => differentiableAt_const _, fun _ _ => differentiableAt_const _⟩, fun _ => C2P.flat_valid.1,
    fun _ => by norm_num [C2P.flat], fun _ => C2P.flat_valid.2, exWave_diff _, by norm_num, continuousAt_const, continuousAt_const, continuousAt_const, continuousAt_const, ?_⟩
  have hl : lorentz C2P.flat.gam (exWave.fluid (at_ 0 0)).v = 5/4 := by unfold Flow.fluid; rw [e, faceState_prims]; exact ex_lorentz
  rw [hl, e]
  have a0 : exSur.prims 1 0 = 1 := rfl
  have a4 : exSur.prims 1 4 = 1 := rfl
  have a9 : exSur.prims 1 9 = 1/3 := rfl
  rw [a0, a4, a9]
  norm_num [exLim]

theorem flat_christoffel (X : Event) (l m n : Fin 4) : christoffel (fun _ => C2P.flat) X l m n = 0 := by
  simp [christoffel, metricDeriv, pd]

theorem exWave_u (Y : Event) : tU 0 C2P.flat (exWave.fluid Y) = ![5/4, 3/4, 0, 0] := by
  have hl : lorentz C2P.flat.gam (exWave.fluid Y).v = 5/4 := by unfold Flow.fluid exWave; rw [faceState_prims]; exact ex_lorentz
  rw [tU_split _ _ (by norm_num [C2P.flat]), hl]
  have hv : (exWave.fluid Y).v = ![3/4, 0, 0] := by unfold Flow.fluid exWave; rw [faceState_prims]; rfl
  rw [hv]
  funext μ
  fin_cases μ <;> simp [C2P.flat]

/-- the magnetic field four-vector of the example is the same at all events. -/
theorem exWave_b (Y Y' : Event) : tB 0 C2P.flat (exWave.fluid Y) = tB 0 C2P.flat (exWave.fluid Y') ∧ tbsq 0 C2P.flat (exWave.fluid Y) = tbsq 0 C2P.flat (exWave.fluid Y') := by
  have e : ∀ Y, (exWave.fluid Y).v = exSur.v ∧ (exWave.fluid Y).B = exSur.B := fun Y => by
    unfold Flow.fluid exWave; rw [faceState_prims]; exact ⟨rfl, rfl⟩
  constructor
  · unfold tB tU tBdotv; simp only [(e Y).1, (e Y).2, (e Y').1, (e Y').2]
  · unfold tbsq tBsq tBdotv; simp only [(e Y).1, (e Y).2, (e Y').1, (e Y').2]

theorem exRho (c : ℝ) (μ : Fin 4) (X : Event) : pd μ (fun Y => (1 + Y 1 - 3/5 * Y 0) * c) X = (if μ = 1 then 1 else if μ = 0 then -3/5 else 0) * c := by
  have h1 : HasFDerivAt (fun Y : Event => (1 + Y 1 - 3/5 * Y 0) * c) (c • (ContinuousLinearMap.proj (R := ℝ) (φ := fun _ : Fin 4 => ℝ) 1 -
      (3/5 : ℝ) • ContinuousLinearMap.proj (R := ℝ) (φ := fun _ : Fin 4 => ℝ) 0)) X :=
    (((ContinuousLinearMap.proj (R := ℝ) (φ := fun _ : Fin 4 => ℝ) 1).hasFDerivAt.const_add 1).sub
      ((ContinuousLinearMap.proj (R := ℝ) (φ := fun _ : Fin 4 => ℝ) 0).hasFDerivAt.const_mul (3/5 : ℝ))).mul_const c
  unfold pd
  rw [h1.fderiv]
  fin_cases μ <;> simp <;> ring

/-- **C150 (concrete)** the example solves the equations. -/
theorem exWave_solves (X : Event) : Solves (fun _ => C2P.flat) exWave X := by
  have hm : ∀ Y μ, massCurrent (fun _ => C2P.flat) exWave Y μ = (1 + Y 1 - 3/5 * Y 0) * (![5/4, 3/4, 0, 0] : Fin 4 → ℝ) μ := fun Y μ => by
    unfold massCurrent; rw [exWave_u]; rfl
  have hye : ∀ Y, exWave Y 8 = 1/2 := fun Y => rfl
  refine ⟨?_, ?_, fun ν => ?_, fun i => ?_⟩
  · unfold divVec
    simp only [flat_christoffel, zero_mul, Finset.sum_const_zero, add_zero, hm, exRho]
    simp [Fin.sum_univ_four]; norm_num
  · unfold divVec
    simp only [flat_christoffel, zero_mul, Finset.sum_const_zero, add_zero, hm, hye, mul_assoc, exRho]
    simp [Fin.sum_univ_four]; norm_num
  · unfold divTens
    simp only [flat_christoffel, zero_mul, Finset.sum_const_zero, add_zero]
    have ht : ∀ μ Y, tmunu 0 C2P.flat (exWave.fluid Y) μ ν = (1 + Y 1 - 3/5 * Y 0) * ((![5/4, 3/4, 0, 0] : Fin 4 → ℝ) μ * (![5/4, 3/4, 0, 0] : Fin 4 → ℝ) ν) +
        ((4/3 + tbsq 0 C2P.flat (exWave.fluid X)) * (![5/4, 3/4, 0, 0] : Fin 4 → ℝ) μ * (![5/4, 3/4, 0, 0] : Fin 4 → ℝ) ν +
          (1/3 + 0.5 * tbsq 0 C2P.flat (exWave.fluid X)) * C2P.flat.g4Inv μ ν - tB 0 C2P.flat (exWave.fluid X) μ * tB 0 C2P.flat (exWave.fluid X) ν) := fun μ Y => by
      unfold tmunu
      simp only
      rw [exWave_u, (exWave_b Y X).1, (exWave_b Y X).2]
      have h1 : (exWave.fluid Y).rho = 1 + Y 1 - 3/5 * Y 0 := rfl
      have h2 : (exWave.fluid Y).u = 1 := rfl
      have h3 : (exWave.fluid Y).P = 1/3 := rfl
      rw [h1, h2, h3]
      ring
    simp only [ht]
    have hd : ∀ c : ℝ, DifferentiableAt ℝ (fun Y : Event => (1 + Y 1 - 3/5 * Y 0) * c) X := fun c => by fun_prop
    have e : ∀ (μ : Fin 4) (c k : ℝ), pd μ (fun Y : Event => (1 + Y 1 - 3/5 * Y 0) * c + k) X = (if μ = 1 then 1 else if μ = 0 then -3/5 else 0) * c := fun μ c k => by
      rw [pd_add (hd c) (differentiableAt_const k), exRho]; simp [pd]
    simp only [e]
    simp [Fin.sum_univ_four]; ring
  · unfold divTens
    simp only [flat_christoffel, zero_mul, Finset.sum_const_zero, add_zero]
    refine Finset.sum_eq_zero fun μ _ => ?_
    have : (fun Y => dualField (fun _ => C2P.flat) exWave Y μ i.succ) = fun _ => dualField (fun _ => C2P.flat) exWave X μ i.succ := by
      funext Y
      unfold dualField
      rw [(exWave_b Y X).1, exWave_u, exWave_u]
    rw [this]; simp [pd]

end Phoebus.Step
