import Verif.Common
import Mathlib.MeasureTheory.Integral.Bochner.Set
import Mathlib.MeasureTheory.Measure.Lebesgue.Basic

/-!
# Model of the volume sums and maxima of `/repo/src/analysis/history.hpp`

A mesh is a list of partitions (`MeshData`), a partition a list of blocks.  A block has a lower corner, a cell width per direction
and a number of cells per direction (Parthenon's uniform coordinates); fields are read through `val block k j i`.
-/
namespace Phoebus.HistorySums
open Finset MeasureTheory

/-- one mesh block: lower corner, cell widths, number of interior cells (Parthenon `Coordinates_t`, trusted).
(Parthenon contract or data type, no code of the repository.) -/
structure Block where
  lo : Fin 3 → ℝ
  dx : Fin 3 → ℝ
  n : Fin 3 → ℕ

/-- index of a cell of a block: one number per direction, `c 0 = i - ib.s`, `c 1 = j - jb.s`, `c 2 = k - kb.s`.
(Parthenon contract or data type, no code of the repository.) -/
abbrev Cell := Fin 3 → ℕ

/-- interior cells of a block (`kb.s..kb.e`, `jb.s..jb.e`, `ib.s..ib.e`).
(Parthenon contract or data type, no code of the repository.) -/
def Block.cells (b : Block) : Finset Cell := Fintype.piFinset fun d => range (b.n d)

/-- `coords.CellVolume(k, j, i)` (Parthenon, uniform Cartesian coordinates: product of the widths).
(Parthenon contract or data type, no code of the repository.) -/
def Block.vol (b : Block) : ℝ := b.dx 0 * b.dx 1 * b.dx 2

/-- which reduction `ReduceOneVar` was instantiated with.
(Parthenon contract or data type, no code of the repository.) -/
inductive Reducer | sum | max
  deriving DecidableEq

/-- `volume_weighting` of `ReduceOneVar`, history.hpp:68-71: true for the sum reducers only. -/
def volumeWeighting : Reducer → Bool
  | .sum => true
  | .max => false

/-- the two `PARTHENON_REQUIRE`s of `ReduceOneVar`, history.hpp:59-60; `first`, `second` is the index range of the variable in the
pack (`-1, -2` when it is absent, as in Parthenon's `PackIndexMap`). -/
def accepted (first second : ℤ) (idx : ℕ) : Bool := decide (first ≥ 0) && decide (second ≥ first + idx)

/-- value added by the kernel of `ReduceOneVar`, history.hpp:80-82, for cell `c` of block `b`. -/
noncomputable def contribution (r : Reducer) (b : Block) (q : ℝ) : ℝ := q * (if volumeWeighting r then b.vol else 1.0)

/-- result of `ReduceOneVar<Kokkos::Sum>` on one partition, history.hpp:65-85. -/
noncomputable def reduceSum (blocks : List Block) (val : Block → Cell → ℝ) : ℝ :=
  (blocks.map fun b => ∑ c ∈ b.cells, contribution .sum b (val b c)).sum

/-- the history column registered with `UserHistoryOperation::sum`, fluid.cpp:326-350: partitions (and ranks) are added. -/
noncomputable def historySum (mesh : List (List Block)) (val : Block → Cell → ℝ) : ℝ :=
  (mesh.map fun p => reduceSum p val).sum

/-- result of `ReduceOneVar<Kokkos::Max>` on one partition, history.hpp:65-85: the reducer is initialised with Kokkos' identity (here
bottom), not with `result = 0.0`. -/
noncomputable def reduceMax (blocks : List Block) (val : Block → Cell → ℝ) : WithBot ℝ :=
  (blocks.map fun b => b.cells.sup fun c => ((contribution .max b (val b c) : ℝ) : WithBot ℝ)).foldr (· ⊔ ·) ⊥

/-- the history column registered with `UserHistoryOperation::max`, fluid.cpp:332-336. -/
noncomputable def historyMax (mesh : List (List Block)) (val : Block → Cell → ℝ) : WithBot ℝ :=
  (mesh.map fun p => reduceMax p val).foldr (· ⊔ ·) ⊥

/-! ## Specification: the integral of the field over the domain -/

/-- the region of space occupied by a cell.
(Parthenon contract or data type, no code of the repository.) -/
def Block.region (b : Block) (c : Cell) : Set (Fin 3 → ℝ) :=
  Set.pi Set.univ fun d => Set.Ico (b.lo d + c d * b.dx d) (b.lo d + (c d + 1) * b.dx d)

/-- the region of a whole block.
(Parthenon contract or data type, no code of the repository.) -/
def Block.box (b : Block) : Set (Fin 3 → ℝ) :=
  Set.pi Set.univ fun d => Set.Ico (b.lo d) (b.lo d + b.n d * b.dx d)

/-- the blocks of a mesh, positive widths, occupy disjoint boxes that together make up the domain `D`.
(Parthenon contract or data type, no code of the repository.) -/
structure Tiles (blocks : List Block) (D : Set (Fin 3 → ℝ)) : Prop where
  pos : ∀ b ∈ blocks, ∀ d, 0 < b.dx d
  disj : blocks.Pairwise fun a b => Disjoint a.box b.box
  cover : ∀ x, x ∈ D ↔ ∃ b ∈ blocks, x ∈ b.box

/-- the field `f` on space is the one stored in the cells.
(Parthenon contract or data type, no code of the repository.) -/
def Stored (blocks : List Block) (val : Block → Cell → ℝ) (f : (Fin 3 → ℝ) → ℝ) : Prop :=
  ∀ b ∈ blocks, ∀ c ∈ b.cells, ∀ x ∈ b.region c, f x = val b c

end Phoebus.HistorySums
