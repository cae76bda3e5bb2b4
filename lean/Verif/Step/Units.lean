import Verif.Step.Change
import Verif.Step.CodeBalance
import Verif.C2P.Change

/-!
# C142, C143 with the fluxes, sources and inversion of the code
-/
namespace Phoebus.Step
open Finset FluxSweep Geom Riemann Sources GeomUtils Robust

/-! ### Inversion in the slots of a cell -/

/-- Data type: what the inversion of a cell needs besides the conserved variables: configuration (`fail_on_*`, tolerance, iterations), equation of state
with bulk modulus, geometry and bounds of the cell, con2prim_robust.hpp:225-298. -/
structure InvData where
  val : Bool
  failF : Bool
  failC : Bool
  small : ℝ
  eps : ℝ
  tol : ℝ
  guess : ℝ
  iter : ℕ
  eos : C2P.Eos
  bulk : ℝ → ℝ → ℝ → ℝ
  b : Pos → C2P.Bnds

/-- conserved variables of a cell from their slots (`crho`, `cmom_lo`, `ceng`, `cb_lo`, `cye`, con2prim_robust.hpp:225-240). -/
def consOf (u : ℕ → ℝ) : Rel.Cons := ⟨u 0, ![u 1, u 2, u 3], ![u 5, u 6, u 7], u 4, u 8⟩

/-- the slots written back; other slots are left alone. -/
def toSlots (c : Rel.Cons) (u : ℕ → ℝ) (m : ℕ) : ℝ :=
  if m = 0 then c.D else if m = 1 then c.S 0 else if m = 2 then c.S 1 else if m = 3 then c.S 2 else if m = 4 then c.tau
  else if m = 5 then c.B 0 else if m = 6 then c.B 1 else if m = 7 then c.B 2 else if m = 8 then c.ye else u m

/-- the value handed on by the root finder; a run that aborts has no value.
(con2prim_robust.hpp:374-377.) -/
def muOf : RootFind.Outcome ℝ → ℝ
  | .ret x _ _ => x
  | _ => 0

/-- `ConToPrim::solve` on the slots of a cell with magnetic field and electron fraction, con2prim_robust.hpp:299-452, with a fixed guess: conserved variables
and primitives (density, velocity, energy, field, electron fraction, pressure, adiabatic index). -/
noncomputable def codeInv (I : InvData) (C : CellGeom) (p : Pos) (u : ℕ → ℝ) : Cell ℝ 11 :=
  let c := consOf u
  let mu := muOf (C2P.findMu I.small I.eps I.eos (I.b p) (C2P.prep I.val true true I.small (C.G p) (C.gdet p) (I.b p) c).aux I.tol I.guess I.iter)
  let o := C2P.unwrap I.val true true I.failF I.failC I.small I.eos (C.G p) (C.gdet p) (I.b p) c mu
  let T := I.eos.tRE o.prim.rho (o.prim.u / o.prim.rho) o.ye
  (toSlots o.cons u, ![o.prim.rho, o.prim.v 0, o.prim.v 1, o.prim.v 2, o.prim.u, o.prim.B 0, o.prim.B 1, o.prim.B 2, o.ye, o.prim.P,
    I.bulk o.prim.rho T o.ye / o.prim.P])

/-- a stage with the fluxes, the sources and the inversion of the code. -/
noncomputable def wholePhys (sol : MeshRun.Solver) (small eps : ℝ) (val : Bool) (L : Fin 3 → Pos → Limits) (Gf : Fin 3 → Pos → ADM ℝ) (gdet gammadet : Fin 3 → Pos → ℝ)
    (C : CellGeom) (I : InvData) (P : Phys ℝ 11) : Phys ℝ 11 :=
  { fluidPhys sol small eps val L Gf gdet gammadet C P with inv := codeInv I C }

/-! ### Specification -/

/-- spacetime indices with renamed spatial axes. -/
def lift (σ : Equiv.Perm (Fin 3)) : Equiv.Perm (Fin 4) where
  toFun := Fin.cons 0 fun i => (σ i).succ
  invFun := Fin.cons 0 fun i => (σ.symm i).succ
  left_inv := by intro x; refine Fin.cases ?_ (fun i => ?_) x <;> simp
  right_inv := by intro x; refine Fin.cases ?_ (fun i => ?_) x <;> simp

/-- component `i` of a vector stored from slot `k`: its new slot. -/
def vecSlot (σ : Equiv.Perm (Fin 3)) (k m : ℕ) : ℕ := if m = k then k + (σ 0).val else if m = k + 1 then k + (σ 1).val else k + (σ 2).val

/-- the fluid in other coordinates and units: axes renamed by `σ`, lengths and times multiplied by `len`, densities, energies and pressures by `s²`, magnetic
fields by `s`; velocities, electron fraction and adiabatic index are pure numbers. -/
def fluidChange (σ : Equiv.Perm (Fin 3)) (s len : ℝ) : Change ℝ 11 where
  ax := σ
  len := len
  pv := ![0, ![1, 2, 3] (σ 0), ![1, 2, 3] (σ 1), ![1, 2, 3] (σ 2), 4, ![5, 6, 7] (σ 0), ![5, 6, 7] (σ 1), ![5, 6, 7] (σ 2), 8, 9, 10]
  eps := ![s ^ 2, 1, 1, 1, s ^ 2, s, s, s, 1, s ^ 2, 1]
  cv := fun m => if 1 ≤ m ∧ m ≤ 3 then vecSlot σ 1 m else if 5 ≤ m ∧ m ≤ 7 then vecSlot σ 5 m else m
  eta := fun m => if 5 ≤ m ∧ m ≤ 7 then s else s ^ 2

/-- the geometry of the cells in the new description: derivatives are taken along the new axes and per new length. -/
noncomputable def renCell (Z : Change ℝ 11) (C : CellGeom) : CellGeom where
  G := fun p => renG Z.ax (C.G (Z.cell p))
  gdet := fun p => C.gdet (Z.cell p)
  dg := fun p a b c => C.dg (Z.cell p) (lift Z.ax a) (lift Z.ax b) (lift Z.ax c) / Z.len
  da := fun p a => C.da (Z.cell p) (lift Z.ax a) / Z.len

/-- the inversion in the new description. -/
noncomputable def renInv (Z : Change ℝ 11) (s : ℝ) (I : InvData) : InvData :=
  { I with eos := C2P.renE s I.eos, bulk := fun r T y => s ^ 2 * I.bulk (r / s ^ 2) T y, b := fun p => C2P.renB s (I.b (Z.cell p)) }

/-! ### Proof -/

variable {σ : Equiv.Perm (Fin 3)} {s len : ℝ}

theorem lift_zero : lift σ 0 = 0 := rfl

theorem lift_succ (i : Fin 3) : lift σ i.succ = (σ i).succ := rfl

theorem eta_slot (m : ℕ) : (fluidChange σ s len).eta m = if m = 5 ∨ m = 6 ∨ m = 7 then s else s ^ 2 := by
  show (if 5 ≤ m ∧ m ≤ 7 then s else s ^ 2) = _
  congr 1
  apply propext; omega

theorem cv_vec (k : ℕ) (hk : k = 1 ∨ k = 5) (i : Fin 3) : (fluidChange σ s len).cv (k + i.val) = k + (σ i).val := by
  have := i.isLt
  show (if 1 ≤ k + i.val ∧ k + i.val ≤ 3 then _ else if 5 ≤ k + i.val ∧ k + i.val ≤ 7 then _ else _) = _
  rcases hk with rfl | rfl <;> fin_cases i <;> simp [vecSlot]

theorem cv_other (m : ℕ) (h1 : m < 1 ∨ 3 < m) (h2 : m < 5 ∨ 7 < m) : (fluidChange σ s len).cv m = m := by
  show (if 1 ≤ m ∧ m ≤ 3 then _ else if 5 ≤ m ∧ m ≤ 7 then _ else _) = _
  rw [if_neg (by omega), if_neg (by omega)]

/-- slots of renamed conserved variables. -/
theorem slot_ren (U : Slots) (m : ℕ) : slot (renU σ s U) m = (fluidChange σ s len).eta m * slot U ((fluidChange σ s len).cv m) := by
  have hm : ∀ i : Fin 3, slot U (1 + i.val) = U.mom i := by intro i; fin_cases i <;> simp [slot]
  have hB : ∀ i : Fin 3, slot U (5 + i.val) = U.B i := by intro i; fin_cases i <;> simp [slot]
  have a0 := cv_vec (σ := σ) (s := s) (len := len) 1 (Or.inl rfl)
  have b0 := cv_vec (σ := σ) (s := s) (len := len) 5 (Or.inr rfl)
  by_cases h : m ≤ 8
  · interval_cases m
    · rw [cv_other 0 (by omega) (by omega), eta_slot]; simp [slot, renU]
    · rw [show (1:ℕ) = 1 + (0 : Fin 3).val from rfl, a0, hm, eta_slot]; simp [slot, renU]
    · rw [show (2:ℕ) = 1 + (1 : Fin 3).val from rfl, a0, hm, eta_slot]; simp [slot, renU]
    · rw [show (3:ℕ) = 1 + (2 : Fin 3).val from rfl, a0, hm, eta_slot]; simp [slot, renU]
    · rw [cv_other 4 (by omega) (by omega), eta_slot]; simp [slot, renU]
    · rw [show (5:ℕ) = 5 + (0 : Fin 3).val from rfl, b0, hB, eta_slot]; simp [slot, renU]
    · rw [show (6:ℕ) = 5 + (1 : Fin 3).val from rfl, b0, hB, eta_slot]; simp [slot, renU]
    · rw [show (7:ℕ) = 5 + (2 : Fin 3).val from rfl, b0, hB, eta_slot]; simp [slot, renU]
    · rw [cv_other 8 (by omega) (by omega), eta_slot]; simp [slot, renU]
  · rw [cv_other m (by omega) (by omega)]
    simp [slot, show m ≠ 0 by omega, show m ≠ 1 by omega, show m ≠ 2 by omega, show m ≠ 3 by omega, show m ≠ 4 by omega, show m ≠ 5 by omega,
      show m ≠ 6 by omega, show m ≠ 7 by omega, show m ≠ 8 by omega]

theorem vec3 (v : Fin 11 → ℝ) (a b c : Fin 11) (i : Fin 3) : v ((![a, b, c] : Fin 3 → Fin 11) i) = (![v a, v b, v c] : Fin 3 → ℝ) i := by
  fin_cases i <;> rfl

theorem faceState_ren (v : Fin 11 → ℝ) : faceState ((fluidChange σ s len).prim v) = renS σ s (faceState v) := by
  unfold faceState renS renQ Change.prim fluidChange
  simp only [FaceState.mk.injEq, Rel.Prim.mk.injEq]
  refine ⟨?_, ?_, ?_, ?_, ?_, ?_, ?_⟩
  · simp [Matrix.cons_val]
  · simp [Matrix.cons_val]
  · simp [Matrix.cons_val]
  · simp [Matrix.cons_val]
  · simp [Matrix.cons_val]
  · funext i; rw [← vec3]; fin_cases i <;> simp [Matrix.cons_val]
  · funext i; rw [← vec3]; fin_cases i <;> simp [Matrix.cons_val]

/-! ### Sources -/

theorem g4Inv_ren (G : ADM ℝ) (a b : Fin 4) : (renG σ G).g4Inv a b = G.g4Inv (lift σ a) (lift σ b) := by
  refine Fin.cases ?_ (fun i => ?_) a <;> refine Fin.cases ?_ (fun j => ?_) b <;> rfl

/-- the stress-energy tensor in the new description. -/
theorem tmunu_ren (small : ℝ) (G : ADM ℝ) (q : Rel.Prim) (a b : Fin 4) :
    Rel.tmunu small (renG σ G) (renQ σ s q) a b = s ^ 2 * Rel.tmunu small G q (lift σ a) (lift σ b) := by
  have hW : Rel.lorentz (renG σ G).gam (renQ σ s q).v = Rel.lorentz G.gam q.v := lorentz_ren G q.v
  have hq : ∀ (x y : Fin 3 → ℝ), ∑ i, ∑ j, x (σ i) * y (σ j) * G.gam (σ i) (σ j) = ∑ i, ∑ j, x i * y j * G.gam i j := by
    intro x y
    rw [← Equiv.sum_comp σ fun i => ∑ j, x i * y j * G.gam i j]
    exact sum_congr rfl fun i _ => Equiv.sum_comp σ fun j => x (σ i) * y j * G.gam (σ i) j
  have hBv : Rel.tBdotv (renG σ G) (renQ σ s q) = s * Rel.tBdotv G q := by
    unfold Rel.tBdotv
    rw [hW, ← hq q.B (fun j => q.v j / Rel.lorentz G.gam q.v), mul_sum]
    refine sum_congr rfl fun i _ => ?_
    rw [mul_sum]
    exact sum_congr rfl fun j _ => by simp only [renG, renQ]; ring
  have hBB : Rel.tBsq (renG σ G) (renQ σ s q) = s ^ 2 * Rel.tBsq G q := by
    unfold Rel.tBsq
    rw [← hq q.B q.B, mul_sum]
    refine sum_congr rfl fun i _ => ?_
    rw [mul_sum]
    exact sum_congr rfl fun j _ => by simp only [renG, renQ]; ring
  have hU : ∀ c, Rel.tU small (renG σ G) (renQ σ s q) c = Rel.tU small G q (lift σ c) := by
    intro c
    unfold Rel.tU
    rw [hW]
    refine Fin.cases ?_ (fun i => ?_) c <;> rfl
  have hb : ∀ c, Rel.tB small (renG σ G) (renQ σ s q) c = s * Rel.tB small G q (lift σ c) := by
    intro c
    unfold Rel.tB
    simp only [hW, hU, hBv]
    refine Fin.cases ?_ (fun i => ?_) c
    · rw [lift_zero]; simp only [Fin.cons_zero]; ring
    · rw [lift_succ]; simp only [Fin.cons_succ, lift_zero, lift_succ]; simp only [renG, renQ]; ring
  have hb2 : Rel.tbsq small (renG σ G) (renQ σ s q) = s ^ 2 * Rel.tbsq small G q := by
    unfold Rel.tbsq
    rw [hW, hBv, hBB]; ring
  unfold Rel.tmunu
  simp only [hU, hb, hb2, g4Inv_ren]
  simp only [renQ]; ring

theorem connection_ren (dg : Fin 4 → Fin 4 → Fin 4 → ℝ) (a b c : Fin 4) :
    connection (fun a b c => dg (lift σ a) (lift σ b) (lift σ c) / len) a b c = connection dg (lift σ a) (lift σ b) (lift σ c) / len := by
  unfold connection
  ring

theorem sum2_lift (f : Fin 4 → Fin 4 → ℝ) : ∑ a, ∑ b, f (lift σ a) (lift σ b) = ∑ a, ∑ b, f a b := by
  rw [← Equiv.sum_comp (lift σ) fun a => ∑ b, f a b]
  exact sum_congr rfl fun a _ => Equiv.sum_comp (lift σ) fun b => f (lift σ a) b

/-- the geometric sources in the new description. -/
theorem fluidSrc_ren (hl : len ≠ 0) (val : Bool) (small : ℝ) (C : CellGeom) (p : Pos) (v : Fin 11 → ℝ) (m : ℕ) :
    len * fluidSrc val small (renCell (fluidChange σ s len) C) p ((fluidChange σ s len).prim v) m =
      (fluidChange σ s len).cons (fluidSrc val small C ((fluidChange σ s len).cell p) v) m := by
  set Z := fluidChange σ s len with hZ
  have hax : Z.ax = σ := rfl
  have hlen : Z.len = len := rfl
  set T := Rel.tmunu small (C.G (Z.cell p)) (faceState v).q with hT
  have hT' : Rel.tmunu small ((renCell Z C).G p) (faceState (Z.prim v)).q = fun a b => s ^ 2 * T (lift σ a) (lift σ b) := by
    funext a b
    rw [hZ, faceState_ren]
    exact tmunu_ren small _ _ a b
  have hmom : ∀ l : Fin 3, len * momentumSource ((renCell Z C).gdet p) ((renCell Z C).dg p) (fun a b => s ^ 2 * T (lift σ a) (lift σ b)) l =
      s ^ 2 * momentumSource (C.gdet (Z.cell p)) (C.dg (Z.cell p)) T (σ l) := by
    intro l
    unfold momentumSource
    simp only [renCell, hax, hlen, connection_ren]
    rw [← sum2_lift (σ := σ) (fun a b => T a b * (C.dg (Z.cell p) b (σ l).succ a - connection (C.dg (Z.cell p)) (σ l).succ b a)), mul_left_comm,
      mul_left_comm (s ^ 2)]
    congr 1
    rw [mul_sum, mul_sum]
    refine sum_congr rfl fun a _ => ?_
    rw [mul_sum, mul_sum]
    refine sum_congr rfl fun b _ => ?_
    rw [lift_succ]
    field_simp
  have hcov : len * energySourceCovariant ((renCell Z C).gdet p) ((renCell Z C).dg p) (fun a b => s ^ 2 * T (lift σ a) (lift σ b)) =
      s ^ 2 * energySourceCovariant (C.gdet (Z.cell p)) (C.dg (Z.cell p)) T := by
    unfold energySourceCovariant
    simp only [renCell, hax, hlen, connection_ren]
    rw [← sum2_lift (σ := σ) (fun a b => T a b * connection (C.dg (Z.cell p)) b 0 a), mul_left_comm, mul_left_comm (s ^ 2)]
    congr 1
    rw [mul_sum, mul_sum]
    refine sum_congr rfl fun a _ => ?_
    rw [mul_sum, mul_sum]
    refine sum_congr rfl fun b _ => ?_
    rw [lift_zero]
    field_simp
  have hg0 : ∀ r, gcon0 small ((renCell Z C).G p) r = gcon0 small (C.G (Z.cell p)) (lift σ r) := by
    intro r
    refine Fin.cases ?_ (fun i => ?_) r <;> rfl
  have hval : len * energySourceValencia small ((renCell Z C).G p) ((renCell Z C).gdet p) ((renCell Z C).dg p) ((renCell Z C).da p) (fun a b => s ^ 2 * T (lift σ a) (lift σ b)) =
      s ^ 2 * energySourceValencia small (C.G (Z.cell p)) (C.gdet (Z.cell p)) (C.dg (Z.cell p)) (C.da (Z.cell p)) T := by
    unfold energySourceValencia
    simp only [hg0]
    have h1 : ∑ m, ∑ n, s ^ 2 * T (lift σ m) (lift σ n) * ∑ r, gcon0 small (C.G (Z.cell p)) (lift σ r) * connection ((renCell Z C).dg p) r m n =
        s ^ 2 / len * ∑ m, ∑ n, T m n * ∑ r, gcon0 small (C.G (Z.cell p)) r * connection (C.dg (Z.cell p)) r m n := by
      rw [← sum2_lift (σ := σ) (fun m n => T m n * ∑ r, gcon0 small (C.G (Z.cell p)) r * connection (C.dg (Z.cell p)) r m n), mul_sum]
      refine sum_congr rfl fun m _ => ?_
      rw [mul_sum]
      refine sum_congr rfl fun n _ => ?_
      rw [← Equiv.sum_comp (lift σ) fun r => gcon0 small (C.G (Z.cell p)) r * connection (C.dg (Z.cell p)) r (lift σ m) (lift σ n)]
      simp only [renCell, hax, hlen, connection_ren]
      have : ∑ r, gcon0 small (C.G (Z.cell p)) (lift σ r) * (connection (C.dg (Z.cell p)) (lift σ r) (lift σ m) (lift σ n) / len) =
          (∑ r, gcon0 small (C.G (Z.cell p)) (lift σ r) * connection (C.dg (Z.cell p)) (lift σ r) (lift σ m) (lift σ n)) / len := by
        rw [sum_div]
        exact sum_congr rfl fun r _ => by ring
      rw [this]
      ring
    have h2 : ∑ m, s ^ 2 * T (lift σ m) (lift σ 0) * (renCell Z C).da p m = s ^ 2 / len * ∑ m, T m 0 * C.da (Z.cell p) m := by
      rw [← Equiv.sum_comp (lift σ) fun m => T m 0 * C.da (Z.cell p) m, mul_sum]
      refine sum_congr rfl fun m _ => ?_
      simp only [renCell, hax, hlen, lift_zero]
      ring
    rw [h1, h2]
    simp only [renCell, renG]
    field_simp
  have hv : ∀ i : Fin 3, fluidSrc val small C (Z.cell p) v (1 + i.val) = momentumSource (C.gdet (Z.cell p)) (C.dg (Z.cell p)) T i := by
    intro i
    fin_cases i <;> simp [fluidSrc, hT]
  have a0 := cv_vec (σ := σ) (s := s) (len := len) 1 (Or.inl rfl)
  unfold Change.cons
  by_cases h1 : m = 1
  · subst h1
    have e := a0 0
    simp only [Fin.val_zero, add_zero] at e
    rw [hZ, e, eta_slot, ← hZ, hv, fluidSrc, hT']
    simp only [if_true]
    rw [hmom]; simp
  by_cases h2 : m = 2
  · subst h2
    have e := a0 1
    rw [show 1 + (1 : Fin 3).val = 2 from rfl] at e
    rw [hZ, e, eta_slot, ← hZ, hv, fluidSrc, hT']
    simp only [if_true, if_neg (show ¬ (2:ℕ) = 1 by norm_num)]
    rw [hmom]; simp
  by_cases h3 : m = 3
  · subst h3
    have e := a0 2
    rw [show 1 + (2 : Fin 3).val = 3 from rfl] at e
    rw [hZ, e, eta_slot, ← hZ, hv, fluidSrc, hT']
    simp only [if_true, if_neg (show ¬ (3:ℕ) = 1 by norm_num), if_neg (show ¬ (3:ℕ) = 2 by norm_num)]
    rw [hmom]; simp
  by_cases h4 : m = 4
  · subst h4
    rw [hZ, cv_other 4 (by omega) (by omega), eta_slot, ← hZ]
    unfold fluidSrc
    rw [hT']
    simp only [if_neg (show ¬ (4:ℕ) = 1 by norm_num), if_neg (show ¬ (4:ℕ) = 2 by norm_num), if_neg (show ¬ (4:ℕ) = 3 by norm_num), if_true]
    by_cases hvl : val
    · simp only [hvl, if_true]
      rw [hval]; simp [hT]
    · simp only [hvl, Bool.false_eq_true, if_false]
      rw [hcov]; simp [hT]
  · have hz : ∀ (C : CellGeom) p v k, (k ≠ 1 ∧ k ≠ 2 ∧ k ≠ 3 ∧ k ≠ 4) → fluidSrc val small C p v k = 0 := by
      intro C p v k hk
      simp [fluidSrc, hk.1, hk.2.1, hk.2.2.1, hk.2.2.2]
    rw [hz _ _ _ m ⟨h1, h2, h3, h4⟩, hz, mul_zero, mul_zero]
    by_cases h5 : 5 ≤ m ∧ m ≤ 7
    · obtain ⟨i, hi⟩ : ∃ i : Fin 3, m = 5 + i.val := ⟨⟨m - 5, by omega⟩, by simp only; omega⟩
      rw [hi, hZ, cv_vec 5 (Or.inr rfl)]
      omega
    · rw [hZ, cv_other m (by omega) (by omega)]
      exact ⟨h1, h2, h3, h4⟩

/-! ### Inversion -/

theorem consOf_ren (u : ℕ → ℝ) : consOf ((fluidChange σ s len).cons u) = C2P.renC σ s (consOf u) := by
  have a0 := cv_vec (σ := σ) (s := s) (len := len) 1 (Or.inl rfl)
  have b0 := cv_vec (σ := σ) (s := s) (len := len) 5 (Or.inr rfl)
  have v1 : ∀ i : Fin 3, u (1 + i.val) = (![u 1, u 2, u 3] : Fin 3 → ℝ) i := by intro i; fin_cases i <;> rfl
  have v5 : ∀ i : Fin 3, u (5 + i.val) = (![u 5, u 6, u 7] : Fin 3 → ℝ) i := by intro i; fin_cases i <;> rfl
  have k1 : ∀ i : Fin 3, (fluidChange σ s len).cons u (1 + i.val) = s ^ 2 * (![u 1, u 2, u 3] : Fin 3 → ℝ) (σ i) := by
    intro i
    unfold Change.cons
    rw [a0, v1, eta_slot, if_neg (by have := i.isLt; omega)]
  have k5 : ∀ i : Fin 3, (fluidChange σ s len).cons u (5 + i.val) = s * (![u 5, u 6, u 7] : Fin 3 → ℝ) (σ i) := by
    intro i
    unfold Change.cons
    rw [b0, v5, eta_slot, if_pos (by have := i.isLt; omega)]
  have k : ∀ m, (m < 1 ∨ 3 < m) → (m < 5 ∨ 7 < m) → (fluidChange σ s len).cons u m = s ^ 2 * u m := by
    intro m h1 h2
    unfold Change.cons
    rw [cv_other m h1 h2, eta_slot, if_neg (by omega)]
  unfold consOf C2P.renC
  simp only [Rel.Cons.mk.injEq]
  refine ⟨k 0 (by omega) (by omega), ?_, ?_, k 4 (by omega) (by omega), k 8 (by omega) (by omega)⟩
  · funext i
    rw [← k1]
    fin_cases i <;> rfl
  · funext i
    rw [← k5]
    fin_cases i <;> rfl

theorem toSlots_ren (c : Rel.Cons) (u : ℕ → ℝ) : toSlots (C2P.renC σ s c) ((fluidChange σ s len).cons u) = (fluidChange σ s len).cons (toSlots c u) := by
  have a0 := cv_vec (σ := σ) (s := s) (len := len) 1 (Or.inl rfl)
  have b0 := cv_vec (σ := σ) (s := s) (len := len) 5 (Or.inr rfl)
  have hm : ∀ i : Fin 3, toSlots c u (1 + i.val) = c.S i := by intro i; fin_cases i <;> simp [toSlots]
  have hB : ∀ i : Fin 3, toSlots c u (5 + i.val) = c.B i := by intro i; fin_cases i <;> simp [toSlots]
  funext m
  unfold Change.cons
  by_cases h : m ≤ 8
  · interval_cases m
    · rw [cv_other 0 (by omega) (by omega), eta_slot]; simp [toSlots, C2P.renC]
    · rw [show (1:ℕ) = 1 + (0 : Fin 3).val from rfl, a0, hm, eta_slot]; simp [toSlots, C2P.renC]
    · rw [show (2:ℕ) = 1 + (1 : Fin 3).val from rfl, a0, hm, eta_slot]; simp [toSlots, C2P.renC]
    · rw [show (3:ℕ) = 1 + (2 : Fin 3).val from rfl, a0, hm, eta_slot]; simp [toSlots, C2P.renC]
    · rw [cv_other 4 (by omega) (by omega), eta_slot]; simp [toSlots, C2P.renC]
    · rw [show (5:ℕ) = 5 + (0 : Fin 3).val from rfl, b0, hB, eta_slot]; simp [toSlots, C2P.renC]
    · rw [show (6:ℕ) = 5 + (1 : Fin 3).val from rfl, b0, hB, eta_slot]; simp [toSlots, C2P.renC]
    · rw [show (7:ℕ) = 5 + (2 : Fin 3).val from rfl, b0, hB, eta_slot]; simp [toSlots, C2P.renC]
    · rw [cv_other 8 (by omega) (by omega), eta_slot]; simp [toSlots, C2P.renC]
  · rw [cv_other m (by omega) (by omega)]
    simp [toSlots, show m ≠ 0 by omega, show m ≠ 1 by omega, show m ≠ 2 by omega, show m ≠ 3 by omega, show m ≠ 4 by omega, show m ≠ 5 by omega,
      show m ≠ 6 by omega, show m ≠ 7 by omega, show m ≠ 8 by omega, cv_other m (show m < 1 ∨ 3 < m by omega) (show m < 5 ∨ 7 < m by omega)]

/-- the inversion of a cell in the new description. -/
theorem codeInv_ren (hs : 0 < s) (I : InvData) (C : CellGeom) (hu : ∀ p, C2P.Unitless s I.small I.eps (I.b p)) (p : Pos) (u : ℕ → ℝ) :
    codeInv (renInv (fluidChange σ s len) s I) (renCell (fluidChange σ s len) C) p ((fluidChange σ s len).cons u) =
      (fluidChange σ s len).val (codeInv I C ((fluidChange σ s len).cell p) u) := by
  set Z := fluidChange σ s len with hZ
  have hs2 : s ^ 2 ≠ 0 := by positivity
  have key := fun mu => C2P.c2p_ren (σ := σ) I.val true true I.failF I.failC I.small I.eps I.eos (C.G (Z.cell p)) (C.gdet (Z.cell p)) (I.b (Z.cell p)) (consOf u) hs
    (hu _) I.tol I.guess I.iter mu
  have hc : consOf (Z.cons u) = C2P.renC σ s (consOf u) := consOf_ren u
  unfold codeInv
  simp only [hc]
  have k1 : C2P.findMu (renInv Z s I).small (renInv Z s I).eps (renInv Z s I).eos ((renInv Z s I).b p)
      (C2P.prep (renInv Z s I).val true true (renInv Z s I).small ((renCell Z C).G p) ((renCell Z C).gdet p) ((renInv Z s I).b p) (C2P.renC σ s (consOf u))).aux
      (renInv Z s I).tol (renInv Z s I).guess (renInv Z s I).iter = _ := (key 0).1
  have k2 : ∀ mu, C2P.unwrap (renInv Z s I).val true true (renInv Z s I).failF (renInv Z s I).failC (renInv Z s I).small (renInv Z s I).eos ((renCell Z C).G p)
      ((renCell Z C).gdet p) ((renInv Z s I).b p) (C2P.renC σ s (consOf u)) mu = _ := fun mu => (key mu).2
  rw [k1]
  simp only [k2]
  generalize C2P.unwrap I.val true true I.failF I.failC I.small I.eos (C.G (Z.cell p)) (C.gdet (Z.cell p)) (I.b (Z.cell p)) (consOf u) _ = o
  have hT : (renInv Z s I).eos.tRE (s ^ 2 * o.prim.rho) (s ^ 2 * o.prim.u / (s ^ 2 * o.prim.rho)) o.ye = I.eos.tRE o.prim.rho (o.prim.u / o.prim.rho) o.ye := by
    show I.eos.tRE (s ^ 2 * o.prim.rho / s ^ 2) _ _ = _
    rw [mul_div_cancel_left₀ _ hs2, mul_div_mul_left _ _ hs2]
  have hbk : ∀ T, (renInv Z s I).bulk (s ^ 2 * o.prim.rho) T o.ye / (s ^ 2 * o.prim.P) = I.bulk o.prim.rho T o.ye / o.prim.P := by
    intro T
    show s ^ 2 * I.bulk (s ^ 2 * o.prim.rho / s ^ 2) T o.ye / _ = _
    rw [mul_div_cancel_left₀ _ hs2, mul_div_mul_left _ _ hs2]
  refine Prod.ext ?_ ?_
  · exact toSlots_ren o.cons u
  · show ![s ^ 2 * o.prim.rho, o.prim.v (σ 0), o.prim.v (σ 1), o.prim.v (σ 2), s ^ 2 * o.prim.u, s * o.prim.B (σ 0), s * o.prim.B (σ 1), s * o.prim.B (σ 2), o.ye,
      s ^ 2 * o.prim.P, (renInv Z s I).bulk (s ^ 2 * o.prim.rho) ((renInv Z s I).eos.tRE (s ^ 2 * o.prim.rho) (s ^ 2 * o.prim.u / (s ^ 2 * o.prim.rho)) o.ye) o.ye /
        (s ^ 2 * o.prim.P)] = Z.prim _
    rw [hT, hbk]
    have w1 : ∀ (x : Fin 11 → ℝ) (y : Fin 3 → ℝ) (i : Fin 3) (a b c : Fin 11), x a = y 0 → x b = y 1 → x c = y 2 → x ((![a, b, c] : Fin 3 → Fin 11) i) = y i := by
      intro x y i a b c h0 h1 h2
      fin_cases i <;> simpa
    funext n
    unfold Change.prim
    fin_cases n
    · simp [hZ, fluidChange]
    · simp only [hZ, fluidChange]; simp [Matrix.cons_val]; symm; apply w1 <;> simp [Matrix.cons_val]
    · simp only [hZ, fluidChange]; simp [Matrix.cons_val]; symm; apply w1 <;> simp [Matrix.cons_val]
    · simp only [hZ, fluidChange]; simp [Matrix.cons_val]; symm; apply w1 <;> simp [Matrix.cons_val]
    · simp [hZ, fluidChange, Matrix.cons_val]
    · simp only [hZ, fluidChange]; simp [Matrix.cons_val]; left; symm; apply w1 <;> simp [Matrix.cons_val]
    · simp only [hZ, fluidChange]; simp [Matrix.cons_val]; left; symm; apply w1 <;> simp [Matrix.cons_val]
    · simp only [hZ, fluidChange]; simp [Matrix.cons_val]; left; symm; apply w1 <;> simp [Matrix.cons_val]
    · simp [hZ, fluidChange, Matrix.cons_val]
    · simp [hZ, fluidChange, Matrix.cons_val]
    · simp [hZ, fluidChange, Matrix.cons_val]

/-! ### Stages -/

/-- the density floors at the faces are above the smallest positive number in both units (or the unit is not changed). -/
def FaceUnitless (s eps : ℝ) (L : Fin 3 → Pos → Limits) (Gf : Fin 3 → Pos → ADM ℝ) : Prop :=
  s = 1 ∨ ∀ d p, Rel.PosDef (Gf d p) ∧ 1 ≤ (L d p).gamMax ∧ 0 ≤ (L d p).sieFloor ∧ 0 ≤ (L d p).sieMax ∧ 0 < (L d p).rhoFloor ∧ eps ≤ (L d p).rhoFloor ∧
    eps ≤ s ^ 2 * (L d p).rhoFloor

/-- the stage in the new description. -/
noncomputable def renPhys (Z : Change ℝ 11) (s : ℝ) (sol : MeshRun.Solver) (small eps : ℝ) (val : Bool) (L : Fin 3 → Pos → Limits) (Gf : Fin 3 → Pos → ADM ℝ)
    (gdet gammadet : Fin 3 → Pos → ℝ) (C : CellGeom) (I : InvData) (P : Phys ℝ 11) : Phys ℝ 11 :=
  wholePhys sol small eps val (fun d p => renL s (L (Z.ax d) (Z.cell p))) (fun d p => renG Z.ax (Gf (Z.ax d) (Z.cell p))) (fun d p => gdet (Z.ax d) (Z.cell p))
    (fun d p => gammadet (Z.ax d) (Z.cell p)) (renCell Z C) (renInv Z s I) { P with dx := fun d => Z.len * P.dx (Z.ax d) }

/-- **C142, C143 (the code)**: reconstruction, LLF or HLL flux, constrained transport, geometric sources and inversion as in the code, in every geometry: the
stage built from the geometry, floors and equation of state in the new description is the original stage in the new description.  A change of the
unit of density needs constant or linear reconstruction and floors above the fixed small numbers of the code. -/
theorem whole_changed (sol : MeshRun.Solver) (small eps : ℝ) (val : Bool) (L : Fin 3 → Pos → Limits) (Gf : Fin 3 → Pos → ADM ℝ) (gdet gammadet : Fin 3 → Pos → ℝ)
    (C : CellGeom) (I : InvData) (P : Phys ℝ 11) (nd : ℕ) (hs : 0 < s) (hl : len ≠ 0) (hact : ∀ d, (σ d).val < nd ↔ d.val < nd)
    (hrt : s = 1 ∨ P.rt = .constant ∨ P.rt = .linear) (hF : FaceUnitless s eps L Gf) (hI : ∀ p, C2P.Unitless s I.small I.eps (I.b p))
    (hfix : ∀ d p F, P.fix d p F = F) (hmid : ∀ p x, P.mid p x = x) (hrad : ∀ d p st m, P.rad d p st m = 0)
    (hbnd : ∀ p x, P.bnd p x = x) :
    Changed (fluidChange σ s len) nd (wholePhys sol small eps val L Gf gdet gammadet C I P)
      (renPhys (fluidChange σ s len) s sol small eps val L Gf gdet gammadet C I P) := by
  have hfit : ∀ d p l, Fit s eps (Gf d p) (L d p) l := by
    intro d p l
    rcases hF with h | h
    · exact Or.inl h
    · obtain ⟨h1, h2, h3, h4, h5, h6, h7⟩ := h d p
      exact fit_of_floor _ _ h1 h2 h3 eps h5 h6 h7 h4 l
  refine ⟨hl, hact, rfl, rfl, ?_, ?_, ?_, ?_, ?_, ?_, ?_, ?_, ?_, fun d => rfl, rfl, ?_⟩
  · intro n q
    show kernel P.ew P.em P.rt _ = _
    rcases hrt with h | h
    · have : (fluidChange σ s len).eps n = 1 := by
        subst h
        fin_cases n <;> simp [fluidChange, Matrix.cons_val]
      simp only [this, one_mul]
      rfl
    · exact kernel_units P.ew P.em P.ew P.em P.rt h _ q
  · intro d p l r m
    show slot (numFlux sol small eps val (renG σ (Gf (σ d) _)) (renL s (L (σ d) _)) (gdet (σ d) _) (gammadet (σ d) _) d (faceState _) (faceState _)) m = _
    rw [faceState_ren, faceState_ren, numFlux_ren _ _ hs sol small eps val _ _ d _ _ (hfit _ _ _) (hfit _ _ _), slot_ren (len := len)]
    rfl
  · intro d p l r
    show numSpeed sol eps (renG σ (Gf (σ d) _)) (renL s (L (σ d) _)) d (faceState _) (faceState _) = _
    rw [faceState_ren, faceState_ren, numSpeed_ren _ _ hs sol eps d _ _ (hfit _ _ _) (hfit _ _ _)]
    rfl
  · intro d p F m
    show P.fix d p _ m = (fluidChange σ s len).cons (P.fix _ _ F) m
    rw [hfix, hfix]
  · intro p v m
    exact fluidSrc_ren hl val small C p v m
  · intro p u
    exact codeInv_ren hs I C hI p u
  · intro p x
    show P.mid p _ = (fluidChange σ s len).val (P.mid _ x)
    rw [hmid, hmid]
  · intro d p st m
    show P.rad d p _ m = (fluidChange σ s len).eta m * P.rad _ _ st _
    rw [hrad, hrad, mul_zero]
  · intro p x
    show P.bnd p _ = (fluidChange σ s len).val (P.bnd _ x)
    rw [hbnd, hbnd]
  · intro b0 hb
    have : b0 = 5 := by
      have : (some 5 : Option ℕ) = some b0 := hb
      simpa using this.symm
    subst this
    refine ⟨fun c => ⟨cv_vec 5 (Or.inr rfl) c, ?_⟩, fun m hm h' => ?_⟩
    · rw [eta_slot, eta_slot, if_pos (by have := c.isLt; omega), if_pos (by omega)]
    · by_cases h1 : 1 ≤ m ∧ m ≤ 3
      · obtain ⟨i, hi⟩ : ∃ i : Fin 3, m = 1 + i.val := ⟨⟨m - 1, by omega⟩, by simp only; omega⟩
        rw [hi, cv_vec 1 (Or.inl rfl)] at h'
        have := (σ i).isLt
        omega
      · rw [cv_other m (by omega) (by omega)] at h'
        exact hm h'

end Phoebus.Step
