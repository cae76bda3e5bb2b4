import Verif.Common

/-!
# Model of the grid lookups `/repo/src/geometry/analytic_system.hpp` and `/repo/src/phoebus_utils/grid_utils.hpp`

Parthenon's `Coordinates_t` (uniform Cartesian) is external: by contract `Xf<d>(i) = xmin_ + i dx` and `Xc<d>(i) = xmin_ + (i+1/2) dx`
with `xmin_ = region.xmin - istart dx`, `istart` the first interior index.
-/
namespace Phoebus.GridLookup
variable {K : Type*} [Field K] [LinearOrder K] [IsStrictOrderedRing K]

/-- `CellLocation`, cell_locations.hpp:20-24. -/
inductive Loc | Cent | Face1 | Face2 | Face3 | Corn
  deriving DecidableEq

/-- `parthenon::Coordinates_t` (contract).
(Parthenon contract or data type, no code of the repository.) -/
structure Coords (K : Type*) where
  xmin : Fin 3 → K
  dx : Fin 3 → K

/-- `coords.Xf<d+1>(i)` (contract).
(Parthenon contract or data type, no code of the repository.) -/
def Coords.xf (C : Coords K) (d : Fin 3) (i : ℤ) : K := C.xmin d + (i : K) * C.dx d

/-- `coords.Xc<d+1>(i)` (contract).
(Parthenon contract or data type, no code of the repository.) -/
def Coords.xc (C : Coords K) (d : Fin 3) (i : ℤ) : K := C.xmin d + ((i : K) + 1 / 2) * C.dx d

/-- a block: its physical extent, number of zones and ghosts per direction.
(Parthenon contract or data type, no code of the repository.) -/
structure Block (K : Type*) where
  lo : Fin 3 → K
  hi : Fin 3 → K
  nx : Fin 3 → ℕ
  ng : Fin 3 → ℕ

/-- the coordinates object of a block (contract).
(Parthenon contract or data type, no code of the repository.) -/
def Block.coords (B : Block K) : Coords K where
  dx d := (B.hi d - B.lo d) / (B.nx d : K)
  xmin d := B.lo d - (B.ng d : K) * ((B.hi d - B.lo d) / (B.nx d : K))

/-- `IndexerMeshBlock::GetX(loc, k, j, i)`, analytic_system.hpp:68-94. -/
def getX (C : Coords K) (loc : Loc) (k j i : ℤ) : Fin 3 → K :=
  match loc with
  | .Face1 => ![C.xf 0 i, C.xc 1 j, C.xc 2 k]
  | .Face2 => ![C.xc 0 i, C.xf 1 j, C.xc 2 k]
  | .Face3 => ![C.xc 0 i, C.xc 1 j, C.xf 2 k]
  | .Corn => ![C.xf 0 i, C.xf 1 j, C.xf 2 k]
  | .Cent => ![C.xc 0 i, C.xc 1 j, C.xc 2 k]

/-- `IndexerMeshBlock::GetX(loc, b, k, j, i)`, analytic_system.hpp:63-67: the block number is ignored. -/
def getXb (C : Coords K) (loc : Loc) (_b : ℤ) (k j i : ℤ) : Fin 3 → K := getX C loc k j i

/-- `GetIndexer(MeshData)`, analytic_system.hpp:145-155: the coordinates of the blocks in the order of the container. -/
def meshIndexer (bs : List (Block K)) : List (Coords K) := bs.map Block.coords

/-- `IndexerMesh::GetX(loc, b, k, j, i)`, analytic_system.hpp:113-140; `none` for a block number outside the container. -/
def getXMesh (cs : List (Coords K)) (loc : Loc) (b : ℕ) (k j i : ℤ) : Option (Fin 3 → K) :=
  (cs[b]?).map fun C =>
    match loc with
    | .Face1 => ![C.xf 0 i, C.xc 1 j, C.xc 2 k]
    | .Face2 => ![C.xc 0 i, C.xf 1 j, C.xc 2 k]
    | .Face3 => ![C.xc 0 i, C.xc 1 j, C.xf 2 k]
    | .Corn => ![C.xf 0 i, C.xf 1 j, C.xf 2 k]
    | .Cent => ![C.xc 0 i, C.xc 1 j, C.xc 2 k]

/-- `IndexerMesh::GetX(loc, k, j, i)`, analytic_system.hpp:109-112: aborts. -/
def getXMeshNoBlock (_cs : List (Coords K)) (_loc : Loc) (_k _j _i : ℤ) : Option (Fin 3 → K) := none

/-- `Coordinates::GetXv(i, dir, coord)`, grid_utils.hpp:42-54: aborts for a direction other than 1, 2, 3. -/
def getXv (C : Coords K) (i : ℤ) (dir : ℤ) : Option K :=
  if dir = 1 then some (C.xc 0 i) else if dir = 2 then some (C.xc 1 i) else if dir = 3 then some (C.xc 2 i) else none

/-- an analytic system: any function of time and position (lapse, metric, ...).
(Parthenon contract or data type, no code of the repository.) -/
abbrev System (K R : Type*) := K → (Fin 3 → K) → R

/-- `Analytic::Lapse(loc, k, j, i)` and all its siblings, analytic_system.hpp:167-440: the system at the stored time and the position. -/
def analytic {R : Type*} (X0 : K) (f : System K R) (C : Coords K) (loc : Loc) (k j i : ℤ) : R := f X0 (getX C loc k j i)

/-- `Analytic::Lapse(loc, b, k, j, i)` over a mesh container.
(Parthenon contract or data type, no code of the repository.) -/
def analyticMesh {R : Type*} (X0 : K) (f : System K R) (cs : List (Coords K)) (loc : Loc) (b : ℕ) (k j i : ℤ) : Option R :=
  (getXMesh cs loc b k j i).map (f X0)

/-- `Analytic(indexer, args...)`, analytic_system.hpp:161-163: without a time the stored time is zero. -/
def defaultTime : K := 0

end Phoebus.GridLookup
