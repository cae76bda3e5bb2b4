import Verif.Step.Units
import Verif.Timestep.Model
import Mathlib.Data.Real.Pointwise

/-!
# C142, C143 on meshes: time steps, runs, example
-/
namespace Phoebus.Step
open Finset FluxSweep Geom Riemann Sources GeomUtils Robust
open scoped Pointwise

/-! ### Model: the time step -/

/-- the stored cell speed of direction `d` as a function of the primitives, prim2con.hpp:53-67 and 25-46 (called at con2prim_robust.hpp:409-438). -/
noncomputable def cellSpeed (G : ADM ℝ) (v : Fin 11 → ℝ) (d : Fin 3) : ℝ :=
  let q := (faceState v).q
  let w := Rel.pv G q
  Timestep.signalSpeed G.alpha (G.beta d) (G.gamInv d d) (∑ i, ∑ j, G.gam i j * w i * w j) (w d) (Timestep.cmsq q.rho q.u q.P (Rel.pbsq G q) (v 10))

/-- the estimate of a cell, fluid.cpp:916-926; `tiny` is the literal `1e-50`. -/
noncomputable def codeEst (nd : ℕ) (tiny : ℝ) (dx : Fin 3 → ℝ) (G : Pos → ADM ℝ) (p : Pos) (v : Fin 11 → ℝ) (F : Fin 3 → ℝ × ℝ) : ℝ :=
  1 / ((∑ d ∈ Timestep.dirs nd, max (cellSpeed (G p) v d) (max (F d).1 (F d).2) / dx d) + tiny)

/-- the next time step: Courant factor times the smallest estimate (fluid.cpp:929, 943), but not more than `grow` times the last one.
(Contract: Parthenon limits the growth of the step.) -/
noncomputable def codeCtrl (cfl grow : ℝ) (_ : ℕ) (dt : ℝ) (S : Set ℝ) : ℝ := min (grow * dt) (cfl * sInf S)

/-! ### Proof -/

variable {σ : Equiv.Perm (Fin 3)} {s len : ℝ}

theorem pv_ren (G : ADM ℝ) (q : Rel.Prim) (i : Fin 3) : Rel.pv (renG σ G) (renQ σ s q) i = Rel.pv G q (σ i) := by
  unfold Rel.pv
  rw [show (renQ σ s q).v = fun i => q.v (σ i) from rfl, lorentz_ren]

theorem pbsq_ren (G : ADM ℝ) (q : Rel.Prim) : Rel.pbsq (renG σ G) (renQ σ s q) = s ^ 2 * Rel.pbsq G q := by
  have hW : Rel.lorentz (renG σ G).gam (renQ σ s q).v = Rel.lorentz G.gam q.v := lorentz_ren G q.v
  have hBv : Rel.pBdotv (renG σ G) (renQ σ s q) = s * Rel.pBdotv G q := by
    unfold Rel.pBdotv
    simp only [pv_ren, ADM.g4_ss]
    rw [← quad_ren (σ := σ) G.gam q.B (Rel.pv G q), mul_sum]
    refine sum_congr rfl fun m _ => ?_
    rw [mul_sum]
    refine sum_congr rfl fun n _ => ?_
    simp only [renG, renQ]; ring
  have hBB : Rel.pBsq (renG σ G) (renQ σ s q) = s ^ 2 * Rel.pBsq G q := by
    unfold Rel.pBsq
    simp only [ADM.g4_ss]
    rw [← quad_ren (σ := σ) G.gam q.B q.B, mul_sum]
    refine sum_congr rfl fun m _ => ?_
    rw [mul_sum]
    refine sum_congr rfl fun n _ => ?_
    simp only [renG, renQ]; ring
  unfold Rel.pbsq
  simp only [hW, hBv, hBB]; ring

theorem cmsq_ren (hs : 0 < s) (r u p b g : ℝ) : Timestep.cmsq (s ^ 2 * r) (s ^ 2 * u) (s ^ 2 * p) (s ^ 2 * b) g = Timestep.cmsq r u p b g := by
  have h2 : s ^ 2 ≠ 0 := pow_ne_zero _ hs.ne'
  unfold Timestep.cmsq
  simp only [← mul_add]
  rw [mul_div_mul_left _ _ h2, show g * (s ^ 2 * p) = s ^ 2 * (g * p) by ring, mul_div_mul_left _ _ h2]

theorem cellSpeed_ren (hs : 0 < s) (G : ADM ℝ) (v : Fin 11 → ℝ) (d : Fin 3) :
    cellSpeed (renG σ G) ((fluidChange σ s len).prim v) d = cellSpeed G v (σ d) := by
  unfold cellSpeed
  have h10 : (fluidChange σ s len).prim v 10 = v 10 := by simp [Change.prim, fluidChange, Matrix.cons_val]
  have hq : (faceState ((fluidChange σ s len).prim v)).q = renQ σ s (faceState v).q := by rw [faceState_ren]; rfl
  simp only [hq, pv_ren, pbsq_ren, h10]
  rw [show (renQ σ s (faceState v).q).rho = s ^ 2 * (faceState v).q.rho from rfl, show (renQ σ s (faceState v).q).u = s ^ 2 * (faceState v).q.u from rfl,
    show (renQ σ s (faceState v).q).P = s ^ 2 * (faceState v).q.P from rfl, cmsq_ren hs, ← quad_ren (σ := σ) G.gam (Rel.pv G (faceState v).q)]
  rfl

/-- the code's time step in the new description; a new unit of length needs that nothing is added to the rate. -/
theorem codeEst_changed (hs : 0 < s) (hl : len ≠ 0) (nd : ℕ) (hact : ∀ d, (σ d).val < nd ↔ d.val < nd) (tiny : ℝ) (ht : len = 1 ∨ tiny = 0) (dx : Fin 3 → ℝ)
    (G : Pos → ADM ℝ) :
    ChangedEst (fluidChange σ s len) (codeEst nd tiny dx G)
      (codeEst nd tiny (fun d => len * dx (σ d)) fun p => renG σ (G ((fluidChange σ s len).cell p))) := by
  intro p v F
  unfold codeEst
  simp only [cellSpeed_ren hs]
  have key : ∑ d ∈ Timestep.dirs nd, max (cellSpeed (G ((fluidChange σ s len).cell p)) v (σ d))
      (max (F ((fluidChange σ s len).ax d)).1 (F ((fluidChange σ s len).ax d)).2) / (len * dx (σ d)) =
      (∑ d ∈ Timestep.dirs nd, max (cellSpeed (G ((fluidChange σ s len).cell p)) v d) (max (F d).1 (F d).2) / dx d) / len := by
    rw [sum_div]
    refine sum_equiv σ (fun d => ?_) (fun d _ => ?_)
    · simp only [Timestep.dirs, mem_filter, mem_univ, true_and, hact]
    · show max _ (max (F (σ d)).1 (F (σ d)).2) / _ = _
      rw [div_div, mul_comm len]
  rw [key]
  rcases ht with rfl | rfl
  · simp [fluidChange]
  · simp only [add_zero, one_div_div]
    show len / _ = len * _
    rw [mul_one_div]

theorem codeCtrl_changed (hl : 0 < len) (cfl grow : ℝ) : ChangedCtrl (fluidChange σ s len) (codeCtrl cfl grow) (codeCtrl cfl grow) := by
  intro n dt S
  show min (grow * (len * dt)) (cfl * sInf {t | ∃ x ∈ S, t = len * x}) = len * min (grow * dt) (cfl * sInf S)
  have e : {t | ∃ x ∈ S, t = len * x} = len • S := by
    ext t
    simp only [Set.mem_setOf_eq, Set.mem_smul_set, smul_eq_mul, eq_comm]
  rw [e, Real.sInf_smul_of_nonneg hl.le, smul_eq_mul, mul_min_of_nonneg _ _ hl.le]
  congr 1 <;> ring

/-! ### Runs on meshes -/

/-- Data type: everything that describes the fluid: solver, small numbers, formulation, floors and geometry at faces, geometry at cells, inversion. -/
structure Setup where
  sol : MeshRun.Solver
  small : ℝ
  eps : ℝ
  val : Bool
  L : Fin 3 → Pos → Limits
  Gf : Fin 3 → Pos → ADM ℝ
  gdet : Fin 3 → Pos → ℝ
  gammadet : Fin 3 → Pos → ℝ
  C : CellGeom
  I : InvData

/-- the stages of a time step of the code. -/
noncomputable def Setup.stages (D : Setup) (base : List (Phys ℝ 11)) : List (Phys ℝ 11) :=
  base.map (wholePhys D.sol D.small D.eps D.val D.L D.Gf D.gdet D.gammadet D.C D.I)

/-- the fluid in the new description. -/
noncomputable def Setup.ren (D : Setup) (Z : Change ℝ 11) (s : ℝ) : Setup :=
  { D with
    L := fun d p => renL s (D.L (Z.ax d) (Z.cell p))
    Gf := fun d p => renG Z.ax (D.Gf (Z.ax d) (Z.cell p))
    gdet := fun d p => D.gdet (Z.ax d) (Z.cell p)
    gammadet := fun d p => D.gammadet (Z.ax d) (Z.cell p)
    C := renCell Z D.C
    I := renInv Z s D.I }

/-- contents of the blocks of a mesh. -/
def load {B : Type} (G : Grid B) (Y : Glob ℝ 11) : Mesh ℝ 11 B := (fun i c => Y.1 fun e => c e + G.off i e, fun i d f => Y.2 d fun e => f e + G.off i e)

/-- value of the cell with index `p` on a mesh. -/
def read {B : Type} (G : Grid B) (X : Mesh ℝ 11 B) (p : Pos) : Cell ℝ 11 := X.1 (G.own p) fun e => p e - G.off (G.own p) e

/-- **C142, C143**: a periodic or outflow domain in any geometry, cut into any two regular sets of blocks (the second one with the axes renamed): the code's run of
the renamed and rescaled data, with geometry, floors and equation of state in the new description, gives the original result in the new
description, after any number of steps, and the same time steps in the new unit. -/
theorem change_run (nd : ℕ) (hact : ∀ d, (σ d).val < nd ↔ d.val < nd) (g g' : ℕ) (nb nx nb' nx' : Fin 3 → ℕ) [∀ d, NeZero (nb d)] [∀ d, NeZero (nb' d)]
    (hx : ∀ d, 0 < nx d) (hx' : ∀ d, 0 < nx' d) (hd : ∀ d : Fin 3, nd ≤ d.val → nb d = 1 ∧ nx d = 1) (hd' : ∀ d : Fin 3, nd ≤ d.val → nb' d = 1 ∧ nx' d = 1)
    (hn : ∀ d, nb' d * nx' d = nb (σ d) * nx (σ d)) (per : Bool) (D : Setup) (base : List (Phys ℝ 11)) (dx : Fin 3 → ℝ) (tiny cfl grow : ℝ)
    (hs : 0 < s) (hl : 0 < len) (hrt : s = 1 ∨ ∀ P ∈ base, P.rt = .constant ∨ P.rt = .linear) (hF : FaceUnitless s D.eps D.L D.Gf)
    (hI : ∀ p, C2P.Unitless s D.I.small D.I.eps (D.I.b p)) (ht : len = 1 ∨ tiny = 0)
    (hb : ∀ P ∈ base, (∀ d p F, P.fix d p F = F) ∧ (∀ p x, P.mid p x = x) ∧ (∀ d p st m, P.rad d p st m = 0) ∧ (∀ p x, P.bnd p x = x) ∧ P.dx = dx ∧ 1 + radius P.rt ≤ g ∧ 1 + radius P.rt ≤ g')
    (mem : ℕ → ℕ → ((d : Fin 3) → Fin (nb d)) → Mem ℝ 11) (mem' : ℕ → ℕ → ((d : Fin 3) → Fin (nb' d)) → Mem ℝ 11) :
    let W := fun n : Fin 3 → ℕ => if per then wrapPeriodic n else wrapNearest n
    let G := regular nd g nb nx (W fun d => nb d * nx d)
    let G' := regular nd g' nb' nx' (W fun d => nb' d * nx' d)
    let Z := fluidChange σ s len
    Complete G mem → Complete G' mem' → ∀ (Y : Glob ℝ 11) (dt : ℝ) (k : ℕ),
    let R := run G (codeEst nd tiny dx D.C.G) (codeCtrl cfl grow) (fun _ _ => D.stages base) mem k (load G Y, dt)
    let R' := run G' (codeEst nd tiny (fun d => len * dx (σ d)) (D.ren Z s).C.G) (codeCtrl cfl grow)
      (fun _ _ => (D.ren Z s).stages (base.map fun P => { P with dx := fun d => len * dx (σ d) })) mem' k (load G' (Z.glob Y), len * dt)
    (∀ p, Box (fun d => nb' d * nx' d) p → read G' R'.1 p = Z.val (read G R.1 (Z.cell p))) ∧ R'.2 = len * R.2 := by
  intro W G G' Z ho ho' Y dt k R R'
  have hpos : ∀ d, 0 < nb d * nx d := fun d => Nat.mul_pos (Nat.pos_of_ne_zero (NeZero.ne _)) (hx d)
  have hpos' : ∀ d, 0 < nb' d * nx' d := fun d => Nat.mul_pos (Nat.pos_of_ne_zero (NeZero.ne _)) (hx' d)
  have hW : ∀ n : Fin 3 → ℕ, (∀ d, 0 < n d) → (∀ p, Box n (W n p)) ∧ ∀ p, Box n p → W n p = p := by
    intro n hn
    by_cases hp : per
    · simp only [W, hp, if_true]; exact wrapPeriodic_box n hn
    · simp only [W, hp, Bool.false_eq_true, if_false]; exact wrapNearest_box n hn
  have T := regular_tiles nd g nb nx hx hd _ (hW _ hpos)
  have T' := regular_tiles nd g' nb' nx' hx' hd' _ (hW _ hpos')
  have hc := fun p => wraps_change Z (fun d => nb d * nx d) (fun d => nb' d * nx' d) hn p
  have hP : List.Forall₂ (Changed Z nd) (D.stages base) ((D.ren Z s).stages (base.map fun P => { P with dx := fun d => len * dx (σ d) })) := by
    unfold Setup.stages
    rw [List.map_map, List.forall₂_map_left_iff, List.forall₂_map_right_iff, List.forall₂_same]
    intro P hP
    obtain ⟨h1, hm, hr, h2, h3, -, -⟩ := hb P hP
    have := whole_changed (σ := σ) (s := s) (len := len) D.sol D.small D.eps D.val D.L D.Gf D.gdet D.gammadet D.C D.I P nd hs hl.ne' hact
      (hrt.imp id fun h => h P hP) hF hI h1 hm hr h2
    unfold renPhys at this
    rw [h3] at this
    exact this
  have key := run_change G G' Z nd hact g g' _ _ (fun p => (hc p).1) T T'
    (fun p => by
      by_cases hp : per
      · show Z.cell (W _ p) = W _ (Z.cell p)
        simp only [W, hp, if_true]; exact (hc p).2.1
      · show Z.cell (W _ p) = W _ (Z.cell p)
        simp only [W, hp, Bool.false_eq_true, if_false]; exact (hc p).2.2)
    _ _ (codeEst_changed hs hl.ne' nd hact tiny ht dx D.C.G) _ _ (codeCtrl_changed hl cfl grow) (fun _ _ => D.stages base)
    (fun _ _ => (D.ren Z s).stages (base.map fun P => { P with dx := fun d => len * dx (σ d) })) (fun _ _ => hP) (by omega)
    (fun _ _ Q hQ => by
      obtain ⟨P, hP, rfl⟩ := List.mem_map.1 hQ
      exact (hb P hP).2.2.2.2.2.1) (by omega)
    (fun _ _ Q hQ => by
      obtain ⟨Q', hQ', rfl⟩ := List.mem_map.1 hQ
      obtain ⟨P, hP, rfl⟩ := List.mem_map.1 hQ'
      exact (hb P hP).2.2.2.2.2.2) mem ho mem' ho' (load G Y) (load G' (Z.glob Y)) Y dt ⟨fun i c _ => rfl, fun i d f _ => rfl⟩ ⟨fun i c _ => rfl, fun i d f _ => rfl⟩ k
  refine ⟨fun p hp => ?_, key.2⟩
  refine key.1 (G.own (Z.cell p)) (G'.own p) _ _ (T.owned _ ((hc p).1.1 hp)) (T'.owned p hp) ?_
  have e1 : (fun e => p e - G'.off (G'.own p) e + G'.off (G'.own p) e) = p := funext fun e => by ring
  have e2 : (fun e => Z.cell p e - G.off (G.own (Z.cell p)) e + G.off (G.own (Z.cell p)) e) = Z.cell p := funext fun e => by ring
  rw [e1, e2]

/-! ### Example -/

/-- flat space, LLF flux, an ideal gas, floors of `1/100` and a smallest positive number of `1/1000`. -/
noncomputable def exSetup : Setup where
  sol := .llf
  small := 0
  eps := 1/1000
  val := true
  L := fun _ _ => ⟨1/100, 0, 10, 10⟩
  Gf := fun _ _ => C2P.flat
  gdet := fun _ _ => 1
  gammadet := fun _ _ => 1
  C := exCell
  I := { val := true, failF := false, failC := false, small := 0, eps := 1/1000, tol := 1/10^8, guess := 0, iter := 100,
         eos := ⟨fun r e _ => r * e / 3, fun _ e _ => e, fun r T _ => r * T / 3⟩, bulk := fun r T _ => 4 * r * T / 9, b := fun _ => ⟨1/100, fun _ => 0, 10, 10⟩ }

/-- the gas law of the example is the same law in every unit, and exchanging the axes and changing units changes the data. -/
theorem ex_change (hs : 0 < s) : C2P.renE s exSetup.I.eos = exSetup.I.eos ∧
    ((fluidChange (Equiv.swap 0 1) 2 3).prim fun n => (n.val : ℝ)) = ![0, 2, 1, 3, 16, 12, 10, 14, 8, 36, 10] := by
  refine ⟨?_, ?_⟩
  · unfold C2P.renE exSetup
    simp only [C2P.Eos.mk.injEq]
    refine ⟨?_, trivial, ?_⟩ <;>
    · funext r x y
      have : s ≠ 0 := hs.ne'
      field_simp
  · funext n
    fin_cases n <;> simp [Change.prim, fluidChange, Matrix.cons_val, Equiv.swap_apply_def] <;> norm_num

/-- **C142, C143 (concrete)**: the hypotheses are met: two directions with a gravitational potential, two blocks against one block with exchanged axes, unit of
density and field `4` and `2`, unit of length `3`. -/
theorem ex_change_run (mem : ℕ → ℕ → ((d : Fin 3) → Fin ((![2, 1, 1] : Fin 3 → ℕ) d)) → Mem ℝ 11)
    (mem' : ℕ → ℕ → ((d : Fin 3) → Fin ((fun _ => 1 : Fin 3 → ℕ) d)) → Mem ℝ 11) :
    let G := regular 2 2 ![2, 1, 1] ![2, 3, 1] (wrapPeriodic fun d => (![2, 1, 1] : Fin 3 → ℕ) d * (![2, 3, 1] : Fin 3 → ℕ) d)
    let G' := regular 2 2 (fun _ => 1) ![3, 4, 1] (wrapPeriodic fun d => 1 * (![3, 4, 1] : Fin 3 → ℕ) d)
    let Z := fluidChange (Equiv.swap 0 1) 2 3
    Complete G mem → Complete G' mem' → ∀ (Y : Glob ℝ 11) (dt : ℝ) (k : ℕ),
    let R := run G (codeEst 2 0 (fun _ => 1) exSetup.C.G) (codeCtrl (1/4) 2) (fun _ _ => exSetup.stages [exRest, exRest]) mem k (load G Y, dt)
    let R' := run G' (codeEst 2 0 (fun _ => 3 * 1) (exSetup.ren Z 2).C.G) (codeCtrl (1/4) 2)
      (fun _ _ => (exSetup.ren Z 2).stages ([exRest, exRest].map fun P => { P with dx := fun _ => 3 * 1 })) mem' k (load G' (Z.glob Y), 3 * dt)
    (∀ p, Box (fun d => 1 * (![3, 4, 1] : Fin 3 → ℕ) d) p → read G' R'.1 p = Z.val (read G R.1 (Z.cell p))) ∧ R'.2 = 3 * R.2 := by
  have h := change_run (σ := Equiv.swap 0 1) (s := 2) (len := 3) 2 (by decide) 2 2 ![2, 1, 1] ![2, 3, 1] (fun _ => 1) ![3, 4, 1]
    (by intro d; fin_cases d <;> simp) (by intro d; fin_cases d <;> simp) (by decide) (by decide) (by decide) true exSetup [exRest, exRest] (fun _ => 1) 0 (1/4) 2
    (by norm_num) (by norm_num) (Or.inr (by intro P hP; have : P = exRest := by simpa using hP
                                            rw [this]; exact Or.inr rfl))
    (Or.inr fun d p => ⟨C2P.flat_valid.2, by norm_num [exSetup], by norm_num [exSetup], by norm_num [exSetup], by norm_num [exSetup], by norm_num [exSetup],
      by norm_num [exSetup]⟩)
    (fun p => Or.inr ⟨rfl, by norm_num [exSetup], by norm_num [exSetup], by norm_num [exSetup], fun r => le_rfl, by norm_num [exSetup]⟩) (Or.inr rfl)
    (by intro P hP; have : P = exRest := by simpa using hP
        rw [this]; exact ⟨fun _ _ _ => rfl, fun _ _ => rfl, fun _ _ _ _ => rfl, fun _ _ => rfl, rfl, by decide, by decide⟩) mem mem'
  exact h

end Phoebus.Step
