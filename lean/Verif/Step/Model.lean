import Verif.FluxSweep.Props

/-!
# Model of a whole fluid run on a mesh of blocks

`PhoebusDriver::Step` and `RungeKuttaStage`, `/repo/src/phoebus_driver.cpp:121-142, 335-370, 545-730`: in every stage each block computes its
face fluxes (`fluid::CalculateFluxes`, model in `Verif/FluxSweep`), applies constrained transport (`fluid::FluxCT`, model in `Verif/FluxCT`) and
`FixFluxes`, takes the flux divergence, adds the sources, combines with the state at the start of the step, inverts to primitives, receives its ghost cells from the
blocks that own them, applies the boundary conditions and inverts again.

The scratch arrays, the previous contents of the flux arrays and the order of the parallel loop are inputs (`Mem`), different in every block,
stage and step.

Simplifications: uniform spacing; one refinement level; the inversion with its local floors (`inv`) is any function of position and conserved
variables of the cell (the fixups that average over neighbours and the dependence on the previous primitives as initial guess are not part of it);
the sources are any function of position and primitives of the cell.
-/
namespace Phoebus.Step
open FluxSweep
variable {K : Type} [Field K] [LinearOrder K] {N : ℕ}

/-- Data type: conserved variables and primitives of one cell. -/
abbrev Cell (K : Type) (N : ℕ) := (ℕ → K) × (Fin N → K)

/-- Data type: conserved variables and primitives as functions of the cell index. -/
abbrev Fields (K : Type) (N : ℕ) := Pos → Cell K N

/-- Data type: what a stage does, apart from the mesh: Runge-Kutta weight, reconstruction, Riemann solver (with the geometry at the face),
signal speed at the face, change of the fluxes at a face by `FixFluxes` (identity except at physical boundaries, model in `Verif/FixFlux`),
sources, inversion (with the geometry of the cell), boundary conditions at positions outside the domain, first slot of the magnetic field if
there is one, cell widths, and what happens to a cell between the first inversion and the exchange of ghost cells
(exchange with radiation, `MomentFluidSource`, and floors, phoebus_driver.cpp:597-620; it may depend on the time step through the program), and the
radiation fluxes at a face as a function of the states of the cells around it (`near`; moments.cpp:281-742: reconstruction, gradients of the energy
density across and along the face, opacities of the two cells; that the block computes this function is `RadSweep.fluxes_fresh`). -/
structure Phys (K : Type) (N : ℕ) where
  beta : K
  ew : K
  em : K
  rt : Method
  S : Fin 3 → Pos → (Fin N → K) → (Fin N → K) → ℕ → K
  sig : Fin 3 → Pos → (Fin N → K) → (Fin N → K) → K
  fix : Fin 3 → Pos → (ℕ → K) → ℕ → K
  src : Pos → (Fin N → K) → ℕ → K
  inv : Pos → (ℕ → K) → Cell K N
  bnd : Pos → Cell K N → Cell K N
  mhd : Option ℕ
  dx : Fin 3 → K
  mid : Pos → Cell K N → Cell K N
  rad : Fin 3 → Pos → (Pos → Fin N → K) → ℕ → K

/-- offsets from a face of direction `d` of the cells the radiation flux reads: those of the reconstruction along `d`, and one cell to each side in the other
directions, moments.cpp:374-410, 424-473; nothing in directions the mesh does not have. -/
def Stencil (nd : ℕ) (rt : Method) (d : Fin 3) (r : Pos) : Prop :=
  ∀ e, if e.val < nd then if e = d then -(1 + radius rt) ≤ r e ∧ r e ≤ radius rt else -1 ≤ r e ∧ r e ≤ 1 else r e = 0

open Classical in
/-- primitives of the cells around face `f` of direction `d`; zero outside the stencil, so that nothing else can be read, moments.cpp:374-473. -/
noncomputable def near (nd : ℕ) (rt : Method) (d : Fin 3) (f : Pos) (X : Fields K N) : Pos → Fin N → K := fun r n =>
  if Stencil nd rt d r then (X fun e => f e + r e).2 n else 0

/-- Data type: what a block finds in memory, and the order in which its parallel loop is executed. -/
structure Mem (K : Type) (N : ℕ) where
  order : List (Fin N × Pos)
  scratch : Faces K N × Faces K N
  old : Fin 3 → Pos → ℕ → K
  emf2 : FluxCT.Arr K
  emf3 : Fin 3 → FluxCT.Arr K

/-- Data type: a mesh: blocks, their shapes and positions, the block owning each cell of the domain, and for every position the cell of the domain whose
values are used there (identity in the domain; periodic image or nearest or mirrored cell outside).
(Parthenon contract or helper, no code of its own.) -/
structure Grid (B : Type) where
  shape : B → Blk
  off : B → Pos
  own : Pos → B
  wrap : Pos → Pos

/-- fluxes of the magnetic field as indexed by `FluxCT`: the pack of fluid.cpp:789-792 holds the three slots from `b0`. -/
def toArr (F : Fin 3 → Pos → ℕ → K) (b0 : ℕ) : Fin 3 → Fin 3 → FluxCT.Arr K := fun d c k j i => F d ![i, j, k] (b0 + c.val)

/-- the flux array after `FluxCT`, fluid.cpp:775-837; `none` without magnetic field, nothing is done in one dimension. -/
def ctFlux (b : Blk) (mhd : Option ℕ) (M : Mem K N) (F : Fin 3 → Pos → ℕ → K) : Fin 3 → Pos → ℕ → K := fun d f m =>
  match mhd with
  | none => F d f m
  | some b0 =>
    if h : b0 ≤ m ∧ m < b0 + 3 then
      if b.ndim = 2 then FluxCT.fluxCT2D b.ct (toArr F b0) M.emf2 d ⟨m - b0, by omega⟩ (f 2) (f 1) (f 0)
      else if b.ndim = 3 then FluxCT.fluxCT3D b.ct (toArr F b0) M.emf3 d ⟨m - b0, by omega⟩ (f 2) (f 1) (f 0)
      else F d f m
    else F d f m

open Classical in
/-- all fluxes of a block after constrained transport, radiation fluxes (added, since the fluid leaves their slots zero and they leave the fluid's zero) and
`FixFluxes`, phoebus_driver.cpp:344-365. -/
noncomputable def blockFlux (P : Phys K N) (b : Blk) (off : Pos) (M : Mem K N) (X : Fields K N) : Fin 3 → Pos → ℕ → K := fun d f =>
  P.fix d (fun e => f e + off e) fun m => ctFlux b P.mhd M
    (calculateFluxes false (kernel P.ew P.em P.rt) (fun d f => P.S d fun e => f e + off e) b (fun n c => (X c).2 n) M.order M.scratch M.old) d f m
      + P.rad d (fun e => f e + off e) (near b.ndim P.rt d f X) m

open Classical in
/-- the array of face signal speeds after a stage (`sig(d, k, j, i) = ...`, fluid.cpp:757-771), when it contained `old`. -/
noncomputable def blockSpeed (P : Phys K N) (b : Blk) (off : Pos) (M : Mem K N) (X : Fields K N) (old : Fin 3 → Pos → K) : Fin 3 → Pos → K :=
  calculateFluxes false (kernel P.ew P.em P.rt) (fun d f => P.sig d fun e => f e + off e) b (fun n c => (X c).2 n) M.order M.scratch old

open Classical in
/-- conserved variables after `UpdateIndependentData`, phoebus_driver.cpp:559-576, in the interior; then the first `FillDerived`,
`ApplyFloors` and the exchange with radiation, phoebus_driver.cpp:587-620. -/
noncomputable def blockUpdate (P : Phys K N) (dt : K) (b : Blk) (off : Pos) (M : Mem K N) (base cur : Fields K N) : Fields K N := fun c =>
  if b.Interior c then
    P.mid (fun e => c e + off e) (P.inv (fun e => c e + off e) fun m =>
      P.beta * (cur c).1 m + (1 - P.beta) * (base c).1 m
        + P.beta * dt * (rate P.dx b (blockFlux P b off M cur) m c + P.src (fun e => c e + off e) (cur c).2 m))
  else cur c

open Classical in
/-- ghost cells are received from the owner (`AddBoundaryExchangeTasks`, phoebus_driver.cpp:651-652), outside the domain the boundary conditions
are applied (phoebus_driver.cpp:663-665); then the second `FillDerived` and `ApplyFloors` (phoebus_driver.cpp:667-676), everywhere. -/
noncomputable def exchange {B : Type} (G : Grid B) (P : Phys K N) (A : B → Fields K N) (i : B) : Fields K N := fun c =>
  let p : Pos := fun e => c e + G.off i e
  let received := A (G.own (G.wrap p)) fun e => G.wrap p e - G.off (G.own (G.wrap p)) e
  let x := if (G.shape i).Interior c then A i c else if G.wrap p = p then received else P.bnd p received
  P.inv p x.1

/-- Data type: state of a mesh: variables and face signal speeds of every block. -/
abbrev Mesh (K : Type) (N : ℕ) (B : Type) := (B → Fields K N) × (B → Fin 3 → Pos → K)

/-- one stage on all blocks, phoebus_driver.cpp:335-370, 545-730. -/
noncomputable def stage {B : Type} (G : Grid B) (dt : K) (base : B → Fields K N) (cur : Mesh K N B) (s : Phys K N × (B → Mem K N)) : Mesh K N B :=
  (exchange G s.1 fun i => blockUpdate s.1 dt (G.shape i) (G.off i) (s.2 i) (base i) (cur.1 i),
   fun i => blockSpeed s.1 (G.shape i) (G.off i) (s.2 i) (cur.1 i) (cur.2 i))

/-- the stages of one step, phoebus_driver.cpp:134-138. -/
noncomputable def step {B : Type} (G : Grid B) (dt : K) (sts : List (Phys K N × (B → Mem K N))) (X : Mesh K N B) : Mesh K N B :=
  sts.foldl (stage G dt X.1) X

/-- the local time step estimates of all interior cells of all blocks, from the primitives of the cell and the signal speeds at its faces, over
which `EstimateTimestepBlock` (fluid.cpp:899-944) and Parthenon take the minimum. -/
def estimates {B : Type} (G : Grid B) (est : Pos → (Fin N → K) → (Fin 3 → K × K) → K) (X : Mesh K N B) : Set K :=
  {t | ∃ i c, (G.shape i).Interior c ∧
    t = est (fun e => c e + G.off i e) (X.1 i c).2 fun d =>
      if (G.shape i).act d then (X.2 i d c, X.2 i d fun e => c e + unit d e) else (0, 0)}

/-- a run of `n` steps: the time step of the next step is any function (`ctrl`) of the step number, the previous time step and the estimates
(phoebus_driver.cpp:121-132, 719-724: first step, growth limit, end time); the stages may depend on the step number and the time step.
State is the pair of mesh and time step. -/
noncomputable def run {B : Type} (G : Grid B) (est : Pos → (Fin N → K) → (Fin 3 → K × K) → K) (ctrl : ℕ → K → Set K → K)
    (prog : ℕ → K → List (Phys K N)) (mem : ℕ → ℕ → B → Mem K N) : ℕ → Mesh K N B × K → Mesh K N B × K
  | 0, s => s
  | n + 1, s =>
    let r := run G est ctrl prog mem n s
    let X := step G r.2 ((prog n r.2).zipIdx.map fun x => (x.1, mem n x.2)) r.1
    (X, ctrl n r.2 (estimates G est X))

end Phoebus.Step
