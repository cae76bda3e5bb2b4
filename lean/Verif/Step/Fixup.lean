import Verif.Step.Props

/-!
# Model of the run with failing inversions and their repair

`/repo/src/phoebus_driver.cpp:578-676`: after the update every block inverts to primitives (`FillDerived`, all cells of the block), repairs interior cells whose
inversion failed from their face neighbours (`ConservedToPrimitiveFixup`, model in `Verif/Repair`) and applies floors; then ghost cells are exchanged and the
same three tasks run again.  The inversion starts from what is stored in the cell (`c2p_mu`, temperature).

Before the exchange the ghost cells hold whatever the Runge-Kutta update left there (`ghost`): for Parthenon's update this is
the combination of older stages without the flux divergence.

Scope: conserved variables are exchanged (`bc_vars = conserved`, the default), one level, no radiation.
-/
namespace Phoebus.Step
open FluxSweep
variable {K : Type} [Field K] [LinearOrder K] {N : ℕ}

/-- Data type: inversion of conserved variables given the stored primitives, with success flag (con2prim_robust.hpp:299-470); repair from the
valid face neighbours (fixup_c2p.cpp:217-315; `none` stands for a failed neighbour, whose weight is zero); floors (fixup.cpp:286-540). -/
structure Fix (K : Type) (N : ℕ) where
  inv : Pos → (ℕ → K) → (Fin N → K) → Cell K N × Bool
  mend : Pos → Cell K N → (Fin 3 → Option (Cell K N) × Option (Cell K N)) → Cell K N
  floor : Pos → Cell K N → Cell K N

/-- what the repair uses of a neighbour, fixup_c2p.cpp:195-212 (weight `fail`). -/
def valid (r : Cell K N × Bool) : Option (Cell K N) := if r.2 then some r.1 else none

/-- the valid face neighbours of `c` (fixup_c2p.cpp:217-221, directions of the problem only). -/
def around (b : Blk) (R : Pos → Cell K N × Bool) (c : Pos) : Fin 3 → Option (Cell K N) × Option (Cell K N) := fun d =>
  if b.act d then (valid (R fun e => c e - unit d e), valid (R fun e => c e + unit d e)) else (none, none)

open Classical in
/-- inversion of all cells (fluid.cpp:469-475), repair of the interior (fixup_c2p.cpp:53-55, 170-217), floors in all cells (fixup.cpp:286);
tasks of phoebus_driver.cpp:587-597 and 667-676. -/
noncomputable def pass (F : Fix K N) (b : Blk) (off : Pos) (X : Fields K N) : Fields K N :=
  let R : Pos → Cell K N × Bool := fun c => F.inv (fun e => c e + off e) (X c).1 (X c).2
  fun c => F.floor (fun e => c e + off e) (if b.Interior c ∧ (R c).2 = false then F.mend (fun e => c e + off e) (R c).1 (around b R c) else (R c).1)

open Classical in
/-- update and first pass, phoebus_driver.cpp:559-597. -/
noncomputable def fixUpdate (P : Phys K N) (F : Fix K N) (dt : K) (b : Blk) (off : Pos) (M : Mem K N) (ghost : Pos → ℕ → K) (base cur : Fields K N) : Fields K N :=
  pass F b off fun c =>
    (if b.Interior c then fun m => P.beta * (cur c).1 m + (1 - P.beta) * (base c).1 m
        + P.beta * dt * (rate P.dx b (blockFlux P b off M cur) m c + P.src (fun e => c e + off e) (cur c).2 m)
      else ghost c, (cur c).2)

open Classical in
/-- exchange of conserved variables, boundary conditions and second pass, phoebus_driver.cpp:651-676. -/
noncomputable def fixExchange {B : Type} (G : Grid B) (P : Phys K N) (F : Fix K N) (A : B → Fields K N) (i : B) : Fields K N :=
  pass F (G.shape i) (G.off i) fun c =>
    let p : Pos := fun e => c e + G.off i e
    let received := A (G.own (G.wrap p)) fun e => G.wrap p e - G.off (G.own (G.wrap p)) e
    ((if (G.shape i).Interior c then A i c else if G.wrap p = p then received else P.bnd p received).1, (A i c).2)

/-- Data type: what a stage does and what it finds in memory. -/
structure FixStage (K : Type) (N : ℕ) (B : Type) where
  phys : Phys K N
  fix : Fix K N
  mem : B → Mem K N
  ghost : B → Pos → ℕ → K

/-- one stage on all blocks, phoebus_driver.cpp:335-370, 545-730. -/
noncomputable def fixStage {B : Type} (G : Grid B) (dt : K) (base : B → Fields K N) (cur : Mesh K N B) (s : FixStage K N B) : Mesh K N B :=
  (fixExchange G s.phys s.fix fun i => fixUpdate s.phys s.fix dt (G.shape i) (G.off i) (s.mem i) (s.ghost i) (base i) (cur.1 i),
   fun i => blockSpeed s.phys (G.shape i) (G.off i) (s.mem i) (cur.1 i) (cur.2 i))

/-- the stages of one step, phoebus_driver.cpp:134-138. -/
noncomputable def fixStep {B : Type} (G : Grid B) (dt : K) (sts : List (FixStage K N B)) (X : Mesh K N B) : Mesh K N B :=
  sts.foldl (fixStage G dt X.1) X

/-- a run of `n` steps, as `run`; memory contents differ in every step, stage and block
(phoebus_driver.cpp:121-142). -/
noncomputable def fixRun {B : Type} (G : Grid B) (est : Pos → (Fin N → K) → (Fin 3 → K × K) → K) (ctrl : ℕ → K → Set K → K)
    (prog : ℕ → K → List (Phys K N × Fix K N)) (mem : ℕ → ℕ → B → Mem K N) (ghost : ℕ → ℕ → B → Pos → ℕ → K) : ℕ → Mesh K N B × K → Mesh K N B × K
  | 0, s => s
  | n + 1, s =>
    let r := fixRun G est ctrl prog mem ghost n s
    let X := fixStep G r.2 ((prog n r.2).zipIdx.map fun x => ⟨x.1.1, x.1.2, mem n x.2, ghost n x.2⟩) r.1
    (X, ctrl n r.2 (estimates G est X))

end Phoebus.Step
