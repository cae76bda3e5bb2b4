import Verif.Step.Balance

/-!
# C140 with the fluxes and sources of the code
-/
namespace Phoebus.Step
open FluxSweep Geom Riemann Sources

/-- geometry of the cell centres: 3+1 data, `DetG`, `MetricDerivative`, `GradLnAlpha`, fluid.cpp:599-634. -/
structure CellGeom where
  G : Pos → ADM ℝ
  gdet : Pos → ℝ
  dg : Pos → Fin 4 → Fin 4 → Fin 4 → ℝ
  da : Pos → Fin 4 → ℝ

/-- `CalculateFluidSourceTerms`, fluid.cpp:594-646, in the slots of the conserved variables; the stress-energy tensor is that of the cell
(tmunu.hpp:63-78). -/
noncomputable def fluidSrc (val : Bool) (small : ℝ) (C : CellGeom) : Pos → (Fin 11 → ℝ) → ℕ → ℝ := fun p v m =>
  let T := Rel.tmunu small (C.G p) (faceState v).q
  if m = 1 then momentumSource (C.gdet p) (C.dg p) T 0 else if m = 2 then momentumSource (C.gdet p) (C.dg p) T 1
  else if m = 3 then momentumSource (C.gdet p) (C.dg p) T 2
  else if m = 4 then (if val then energySourceValencia small (C.G p) (C.gdet p) (C.dg p) (C.da p) T else energySourceCovariant (C.gdet p) (C.dg p) T)
  else 0

/-- a stage with the fluxes and the sources of the code. -/
noncomputable def fluidPhys (sol : MeshRun.Solver) (small eps : ℝ) (val : Bool) (L : Fin 3 → Pos → Limits) (Gf : Fin 3 → Pos → ADM ℝ) (gdet gammadet : Fin 3 → Pos → ℝ)
    (C : CellGeom) (P : Phys ℝ 11) : Phys ℝ 11 :=
  { codePhys sol small eps val L Gf gdet gammadet P with src := fluidSrc val small C }

/-! ### Specification -/

/-- the geometry repeats with the period of the domain; nothing is changed at faces; ghost cells hold copies. -/
structure PeriodicGeometry (n : Fin 3 → ℕ) (L : Fin 3 → Pos → Limits) (Gf : Fin 3 → Pos → ADM ℝ) (gdet gammadet : Fin 3 → Pos → ℝ) (C : CellGeom) (P : Phys ℝ 11) :
    Prop where
  L : ∀ d, Periodic n (L d)
  Gf : ∀ d, Periodic n (Gf d)
  gdet : ∀ d, Periodic n (gdet d)
  gammadet : ∀ d, Periodic n (gammadet d)
  cG : Periodic n C.G
  cdet : Periodic n C.gdet
  dg : Periodic n C.dg
  da : Periodic n C.da
  fix : ∀ d p F, P.fix d p F = F
  inv : Periodic n P.inv
  mid : Periodic n P.mid
  rad : ∀ d, Periodic n (P.rad d)
  bnd : ∀ p x, P.bnd p x = x

/-- slots of the conserved variables that the geometry leaves alone: mass, magnetic field and electrons always; momentum along a direction the metric does
not depend on; energy in the covariant formulation if the metric does not depend on time. -/
def Conserved (n : Fin 3 → ℕ) (val : Bool) (C : CellGeom) (m : ℕ) : Prop :=
  m = 0 ∨ m = 5 ∨ m = 6 ∨ m = 7 ∨ m = 8 ∨ (∃ l : Fin 3, m = l.val + 1 ∧ ∀ p ∈ boxSet n, ∀ a b, C.dg p a b l.succ = 0) ∨
    (m = 4 ∧ val = false ∧ ∀ p ∈ boxSet n, ∀ a b, C.dg p a b 0 = 0)

/-! ### Proof -/

theorem fluid_periodic (n : Fin 3 → ℕ) (sol : MeshRun.Solver) (small eps : ℝ) (val : Bool) (L : Fin 3 → Pos → Limits) (Gf : Fin 3 → Pos → ADM ℝ)
    (gdet gammadet : Fin 3 → Pos → ℝ) (C : CellGeom) (P : Phys ℝ 11) (h : PeriodicGeometry n L Gf gdet gammadet C P) :
    AllPeriodic n (fluidPhys sol small eps val L Gf gdet gammadet C P) := by
  refine ⟨⟨fun d p q hpq => ?_, fun d p q _ => ?_, h.rad, h.bnd⟩, h.inv, h.mid, fun p q hpq => ?_⟩
  · simp only [fluidPhys, codePhys, h.L d p q hpq, h.Gf d p q hpq, h.gdet d p q hpq, h.gammadet d p q hpq]
  · funext F; simp only [fluidPhys, codePhys, h.fix]
  · funext v m
    simp only [fluidPhys, fluidSrc, h.cG p q hpq, h.cdet p q hpq, h.dg p q hpq, h.da p q hpq]

/-- the sources of conserved slots vanish, for every state of the fluid. -/
theorem src_zero (n : Fin 3 → ℕ) (val : Bool) (small : ℝ) (C : CellGeom) (hG : ∀ p, (C.G p).Valid) (hd : ∀ p, SymmD (C.dg p)) (m : ℕ) (hm : Conserved n val C m)
    (p : Pos) (hp : p ∈ boxSet n) (v : Fin 11 → ℝ) : fluidSrc val small C p v m = 0 := by
  have hT : SymmT (Rel.tmunu small (C.G p) (faceState v).q) := fun a b => Rel.tmunu_symm small (C.G p) _ (hG p) a b
  unfold fluidSrc
  rcases hm with rfl | rfl | rfl | rfl | rfl | ⟨l, rfl, hl⟩ | ⟨rfl, rfl, h0⟩
  · simp
  · simp
  · simp
  · simp
  · simp
  · have key := fun l' (hs : ∀ a b, C.dg p a b (Fin.succ l') = 0) => momentum_source_symmetry (C.gdet p) (C.dg p) _ (hd p) hT l' hs
    have := key l (hl p hp)
    fin_cases l <;> simpa using this
  · simpa using (energy_source_covariant (C.gdet p) (C.dg p) _ (hd p) hT).2 (h0 p hp)

/-- **C140 (the code)**: the totals of mass, magnetic field and electron number, of the momentum along every direction on which the metric does not depend, and
(in the covariant formulation) of the energy in a stationary metric, are the same after any number of steps, with reconstruction, LLF or HLL fluxes, constrained
transport and geometric sources as in the code, on any decomposition of a periodic domain into blocks, provided inversions and exchange with radiation leave the variable alone. -/
theorem fluid_run_total {B : Type} (G : Grid B) (nd : ℕ) (g : ℤ) (hg0 : 0 ≤ g) (n : Fin 3 → ℕ) (hn : ∀ d, 0 < n d) (hT : Tiles G nd g (Box n))
    (hw : G.wrap = wrapPeriodic n) (est : Pos → (Fin 11 → ℝ) → (Fin 3 → ℝ × ℝ) → ℝ) (ctrl : ℕ → ℝ → Set ℝ → ℝ)
    (sol : MeshRun.Solver) (small eps : ℝ) (val : Bool) (L : Fin 3 → Pos → Limits) (Gf : Fin 3 → Pos → ADM ℝ) (gdet gammadet : Fin 3 → Pos → ℝ) (C : CellGeom)
    (hG : ∀ p, (C.G p).Valid) (hd : ∀ p, SymmD (C.dg p)) (prog : ℕ → ℝ → List (Phys ℝ 11)) (m : ℕ) (hm : Conserved n val C m)
    (hp : ∀ j dt, ∀ Q ∈ prog j dt, ∃ P, Q = fluidPhys sol small eps val L Gf gdet gammadet C P ∧ PeriodicGeometry n L Gf gdet gammadet C P ∧ 1 + radius P.rt ≤ g ∧
      (∀ p u, (P.inv p u).1 m = u m) ∧ ∀ p x, (P.mid p x).1 m = x.1 m)
    (mem : ℕ → ℕ → B → Mem ℝ 11) (ho : Complete G mem) (X : Mesh ℝ 11 B) (Y : Glob ℝ 11) (hY : Periodic n Y.1) (h : Holds G X Y) (dt : ℝ) (k : ℕ) :
    total G n m (run G est ctrl prog mem k (X, dt)).1 = total G n m X := by
  refine run_total G nd g hg0 n hn hT hw est ctrl prog ?_ ?_ mem ho X Y hY h dt m ?_ k
  · intro j dt Q hQ
    obtain ⟨P, rfl, -, hr, -⟩ := hp j dt Q hQ
    exact hr
  · intro j dt Q hQ
    obtain ⟨P, rfl, hP, -⟩ := hp j dt Q hQ
    exact fluid_periodic n sol small eps val L Gf gdet gammadet C P hP
  · intro j dt Q hQ
    obtain ⟨P, rfl, -, -, hi, hx⟩ := hp j dt Q hQ
    exact fun p hp => ⟨src_zero n val small C hG hd m hm p hp, fun u => hi p u, fun x => hx p x⟩

/-- **C140 (which total is which)**: between equal states the LLF flux of the run is `gdet` times the physical flux: slot 0 carries mass, slots 1 to 3 momentum, slot 4
energy, slots 5 to 7 the field and slot 8 electrons. -/
theorem code_flux_uniform (small eps : ℝ) (val : Bool) (L : Fin 3 → Pos → Limits) (Gf : Fin 3 → Pos → ADM ℝ) (gdet gammadet : Fin 3 → Pos → ℝ) (P : Phys ℝ 11)
    (d : Fin 3) (p : Pos) (v : Fin 11 → ℝ) :
    let S := (codePhys .llf small eps val L Gf gdet gammadet P).S d p v v
    let F := fluxF val (Gf d p) (L d p) (v 8) ⟨v 0, v 4, v 9, ![v 1, v 2, v 3], ![v 5, v 6, v 7]⟩ d
    S 0 = F.rho * gdet d p ∧ S 1 = F.mom 0 * gdet d p ∧ S 2 = F.mom 1 * gdet d p ∧ S 3 = F.mom 2 * gdet d p ∧ S 4 = F.eng * gdet d p ∧
      S 5 = F.B 0 * gdet d p ∧ S 6 = F.B 1 * gdet d p ∧ S 7 = F.B 2 * gdet d p ∧ S 8 = F.ye * gdet d p ∧ ∀ m, 8 < m → S m = 0 := by
  refine ⟨?_, ?_, ?_, ?_, ?_, ?_, ?_, ?_, ?_, fun m hm => ?_⟩
  iterate 9 · simp only [codePhys, numFlux, comb, slot, llf_consistent]; simp [faceState]
  · simp only [codePhys, slot]
    simp [show m ≠ 0 by omega, show m ≠ 1 by omega, show m ≠ 2 by omega, show m ≠ 3 by omega, show m ≠ 4 by omega, show m ≠ 5 by omega, show m ≠ 6 by omega,
      show m ≠ 7 by omega, show m ≠ 8 by omega]

/-! ### Example: a periodic gravitational potential -/

/-- metric derivatives of a potential that varies along the first direction with period four. -/
noncomputable def exCell : CellGeom :=
  { G := fun _ => C2P.flat
    gdet := fun _ => 1
    dg := fun p a b s => if a = 0 ∧ b = 0 ∧ s = 1 then (if p 0 % 4 < 2 then 1/5 else -1/5) else 0
    da := fun _ _ => 0 }

/-- everything but fluxes and sources of the example: exact inversion without floors. -/
noncomputable def exRest : Phys ℝ 11 :=
  ⟨1/2, 0, 0, .linear, fun _ _ _ _ _ => 0, fun _ _ _ _ => 0, fun _ _ F => F, fun _ _ _ => 0,
    fun _ u => (u, ![u 0, u 1, u 2, u 3, u 0, u 5, u 6, u 7, u 8, u 0, 4/3]), fun _ x => x, none, fun _ => 1, fun _ x => x, fun _ _ _ _ => 0⟩

/-- two blocks along the first direction. -/
instance exBlocks : ∀ d : Fin 3, NeZero ((![2, 1, 1] : Fin 3 → ℕ) d) := fun d => by fin_cases d <;> simp <;> infer_instance

/-- the example meets all hypotheses: mass, energy, the field, electrons and the second and third momentum are conserved; the source of the first momentum is not
zero. -/
theorem ex_balance :
    (∀ p, (exCell.G p).Valid) ∧ (∀ p, SymmD (exCell.dg p)) ∧
    PeriodicGeometry ![4, 4, 1] (fun _ _ => ⟨1/100, 0, 10, 10⟩) (fun _ _ => C2P.flat) (fun _ _ => 1) (fun _ _ => 1) exCell exRest ∧
    (∀ m, m = 0 ∨ m = 2 ∨ m = 3 ∨ m = 4 ∨ m = 8 → Conserved ![4, 4, 1] false exCell m) ∧ (∀ m p u, (exRest.inv p u).1 m = u m) ∧ (∀ m p x, (exRest.mid p x).1 m = x.1 m) ∧ 1 + radius exRest.rt ≤ 2 ∧
    Tiles (regular 2 2 ![2, 1, 1] ![2, 4, 1] (wrapPeriodic ![4, 4, 1])) 2 2 (Box ![4, 4, 1]) ∧
    fluidSrc false 0 exCell (fun _ => 0) (fun n => if n = 0 then 1 else 0) 1 ≠ 0 := by
  have hdg : ∀ p, SymmD (exCell.dg p) := by
    intro p a b s
    show (if a = 0 ∧ b = 0 ∧ s = 1 then _ else _) = if b = 0 ∧ a = 0 ∧ s = 1 then _ else _
    by_cases ha : a = 0 <;> by_cases hb : b = 0 <;> simp [ha, hb]
  refine ⟨fun _ => C2P.flat_valid.1, hdg, ?_, ?_, fun _ _ _ => rfl, fun _ _ _ => rfl, by decide, ?_, ?_⟩
  · refine ⟨fun _ _ _ _ => rfl, fun _ _ _ _ => rfl, fun _ _ _ _ => rfl, fun _ _ _ _ => rfl, fun _ _ _ => rfl, fun _ _ _ => rfl, ?_, fun _ _ _ => rfl,
      fun _ _ _ => rfl, fun _ _ _ => rfl, fun _ _ _ => rfl, fun _ _ _ _ => rfl, fun _ _ => rfl⟩
    intro p q hpq
    have h0 : p 0 % 4 = q 0 % 4 := by simpa [wrapPeriodic] using congrFun hpq 0
    simp only [exCell, h0]
  · intro m hm
    rcases hm with rfl | rfl | rfl | rfl | rfl
    · exact Or.inl rfl
    · refine Or.inr (Or.inr (Or.inr (Or.inr (Or.inr (Or.inl ⟨1, rfl, fun p _ a b => ?_⟩)))))
      have : ((1 : Fin 3).succ : Fin 4) ≠ 1 := by decide
      simp [exCell]
    · refine Or.inr (Or.inr (Or.inr (Or.inr (Or.inr (Or.inl ⟨2, rfl, fun p _ a b => ?_⟩)))))
      have : ((2 : Fin 3).succ : Fin 4) ≠ 1 := by decide
      simp [exCell, this]
    · exact Or.inr (Or.inr (Or.inr (Or.inr (Or.inr (Or.inr ⟨rfl, rfl, fun p _ a b => by simp [exCell]⟩)))))
    · exact Or.inr (Or.inr (Or.inr (Or.inr (Or.inl rfl))))
  · have hb := wrapPeriodic_box ![4, 4, 1] (by intro d; fin_cases d <;> simp)
    have e : (fun d => (![2, 1, 1] : Fin 3 → ℕ) d * (![2, 4, 1] : Fin 3 → ℕ) d) = ![4, 4, 1] := by funext d; fin_cases d <;> rfl
    have := regular_tiles 2 2 ![2, 1, 1] ![2, 4, 1] (by intro d; fin_cases d <;> simp)
      (by intro d hd; have : d = 2 := by omega
          subst this; exact ⟨rfl, rfl⟩) (wrapPeriodic ![4, 4, 1]) (by rw [e]; exact hb)
    rwa [e] at this
  · have hT : SymmT (Rel.tmunu 0 (exCell.G fun _ => 0) (faceState fun n => if n = 0 then 1 else 0).q) := fun a b =>
      Rel.tmunu_symm 0 _ _ C2P.flat_valid.1 a b
    have e : fluidSrc false 0 exCell (fun _ => 0) (fun n => if n = 0 then 1 else 0) 1 =
        momentumSource 1 (exCell.dg fun _ => 0) (Rel.tmunu 0 (exCell.G fun _ => 0) (faceState fun n => if n = 0 then 1 else 0).q) 0 := by
      simp [fluidSrc, exCell]
    rw [e, momentum_source_eq _ _ _ (hdg _) hT]
    have h00 : Rel.tmunu 0 (exCell.G fun _ => 0) (faceState fun n => if n = 0 then 1 else 0).q 0 0 = 1 := by
      simp [Rel.tmunu, Rel.tU, Rel.tB, Rel.tbsq, Rel.tBsq, Rel.tBdotv, Rel.lorentz, faceState, exCell, C2P.flat, Robust.ratio, ADM.g4Inv, Fin.sum_univ_three]
    have hs : ∑ a, ∑ b, Rel.tmunu 0 (exCell.G fun _ => 0) (faceState fun n => if n = 0 then 1 else 0).q a b * exCell.dg (fun _ => 0) a b (Fin.succ 0) = 1/5 := by
      rw [Finset.sum_eq_single 0, Finset.sum_eq_single 0, h00]
      · simp [exCell]
      · intro b _ hb; simp [exCell, hb]
      · simp
      · intro a _ ha; exact Finset.sum_eq_zero fun b _ => by simp [exCell, ha]
      · simp
    rw [hs]; norm_num

end Phoebus.Step
