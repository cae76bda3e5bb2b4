import Verif.FixFlux.Props
import Verif.History.Sums

/-!
# A run on a mesh of blocks

The fluid update of a mesh that is cut into blocks in any way and distributed over any number of partitions:
every block applies `FixFluxes` (`/repo/src/fixup/fixup.cpp:728-1078`, model in `Verif/FixFlux`) with *its own* boundary flags, takes the flux
divergence (`phoebus_driver.cpp:561`) and the Runge-Kutta combination (`phoebus_driver.cpp:572-576`), and the history file adds up the cells
of all blocks (`/repo/src/analysis/history.hpp:49-86`, model in `Verif/History/SumsModel`).

Cells carry global indices.  The face fluxes of a stage are one global array: that two blocks sharing a face compute the same flux is C120
(`FluxSweep.rate_decomposition`).  One refinement level (flux correction at level boundaries is Parthenon's).
-/
namespace Phoebus.MeshRun
open FluxCT FixFlux
variable {K : Type} [Field K] [LinearOrder K]

/-- a block: first global cell index and number of cells per direction (`0 = x1`).
(Helper or data type of the composed model: combines functions modelled and cited elsewhere; no code of its own.) -/
structure IBlk where
  off : Fin 3 → ℤ
  n : Fin 3 → ℕ

/-- a mesh: number of cells, dimension, boundary conditions; `per d`: periodic in direction `d`, otherwise the sides carry Parthenon's flag
`user`.
(Helper or data type of the composed model: combines functions modelled and cited elsewhere; no code of its own.) -/
structure Mesh where
  n : Fin 3 → ℕ
  ndim : ℕ
  enable : Bool
  per : Fin 3 → Bool
  bc : Fin 3 → Bool → BC
  nsp : ℕ
  momentsActive : Bool
  hasE : Bool
  blocks : List (List IBlk)

/-- index ranges of a block as used by `FixFluxes`.
(Helper or data type of the composed model: combines functions modelled and cited elsewhere; no code of its own.) -/
def IBlk.blk (b : IBlk) : Block := FixFlux.box (b.off 2) (b.off 1) (b.off 0) (b.n 2) (b.n 1) (b.n 0)

/-- the block lies at the given side of the domain.
(Helper or data type of the composed model: combines functions modelled and cited elsewhere; no code of its own.) -/
def Mesh.touches (M : Mesh) (b : IBlk) (d : Fin 3) (outer : Bool) : Bool :=
  if outer then decide (b.off d + b.n d = M.n d) else decide (b.off d = 0)

/-- `pmb->boundary_flag[...] == BoundaryFlag::user` (fixup.cpp:761, 772, ...): only blocks at the edge of a non-periodic domain. -/
def Mesh.cfg (M : Mesh) (b : IBlk) : Cfg :=
  { enable := M.enable, ndim := M.ndim, user := fun d o => !M.per d && M.touches b d o, bc := M.bc, nsp := M.nsp,
    momentsActive := M.momentsActive, hasE := M.hasE }

/-- fluxes of directions that do not exist do not enter the divergence.
(Helper or data type of the composed model: combines functions modelled and cited elsewhere; no code of its own.) -/
def mask (ndim : ℕ) (F : Flux K) : Flux K := fun d v k j i => if d.val < ndim then F d v k j i else 0

/-- right-hand side of a cell in the block that owns it.
(Helper or data type of the composed model: combines functions modelled and cited elsewhere; no code of its own.) -/
def Mesh.rate (M : Mesh) (own : ℤ → ℤ → ℤ → IBlk) (dx : Fin 3 → K) (F : Flux K) (v : Var) : Arr K := fun k j i =>
  fluxDiv dx (mask M.ndim (fixFluxes (M.cfg (own k j i)) (own k j i).blk F)) v k j i

/-- one step: the stages `(beta, face fluxes of that stage)`, phoebus_driver.cpp:134-138, 572-576. -/
def Mesh.step (M : Mesh) (own : ℤ → ℤ → ℤ → IBlk) (dx : Fin 3 → K) (v : Var) (dt : K) (st : List (K × Flux K)) (base : Arr K) : Arr K :=
  st.foldl (fun cur s => stage s.1 dt base cur (M.rate own dx s.2 v)) base

/-- a run.
(Helper or data type of the composed model: combines functions modelled and cited elsewhere; no code of its own.) -/
def Mesh.run (M : Mesh) (own : ℤ → ℤ → ℤ → IBlk) (dx : Fin 3 → K) (v : Var) (steps : List (K × List (K × Flux K))) (U : Arr K) : Arr K :=
  steps.foldl (fun U s => M.step own dx v s.1 s.2 U) U

/-- the block as the history reduction sees it: position and width of the cells; `x0` is the lower corner of the domain.
(Helper or data type of the composed model: combines functions modelled and cited elsewhere; no code of its own.) -/
noncomputable def IBlk.hist (x0 dx : Fin 3 → ℝ) (b : IBlk) : HistorySums.Block := ⟨fun d => x0 d + b.off d * dx d, dx, b.n⟩

/-- the history column of a conserved variable stored as `U`: `ReduceOneVar<Kokkos::Sum>` over all blocks of all partitions
(history.hpp:49-86), each cell read in its block. -/
noncomputable def Mesh.column (M : Mesh) (x0 dx : Fin 3 → ℝ) (U : Arr ℝ) : ℝ :=
  (M.blocks.map fun p => (p.map fun b => ∑ c ∈ (b.hist x0 dx).cells,
    HistorySums.contribution .sum (b.hist x0 dx) (U (b.off 2 + c 2) (b.off 1 + c 1) (b.off 0 + c 0))).sum).sum

end Phoebus.MeshRun
