import Verif.Common
import Verif.Robust.Props

/-!
# Model of `src/phoebus_utils/phoebus_interpolation.hpp` (`interpolation::Cent::Linear`) and `PiecewiseConstant`

A direction of a block is `(x0, dx, nx)`: the first cell centre `GetXv<DIR>(0)`, the cell width and the number of points.
Data are functions of the integer cell indices.  Integer overflow of the float-to-int cast is not modelled.
-/
namespace Phoebus.Interp
variable {K : Type*} [Field K] [LinearOrder K] [IsStrictOrderedRing K] [FloorRing K]

/-- One direction of the cell-centred grid of a block.
(Parthenon contract: uniform cell centres; used at phoebus_interpolation.hpp:123-133.) -/
structure Axis (K : Type*) where
  x0 : K
  dx : K
  nx : ℤ

/-- `static_cast<int>`: truncation towards zero.
(The conversion of phoebus_interpolation.hpp:127-129.) -/
def trunc (r : K) : ℤ := if 0 ≤ r then ⌊r⌋ else ⌈r⌉

/-- index chosen by `GetWeights`, phoebus_interpolation.hpp:127-129. -/
def index (small : K) (A : Axis K) (x : K) : ℤ :=
  min (max 0 (trunc (Robust.ratio small (x - A.x0) A.dx))) (A.nx - 2)

/-- `w[1]` of `GetWeights`, phoebus_interpolation.hpp:130-131. -/
def w1 (small : K) (A : Axis K) (x : K) : K :=
  Robust.ratio small (x - (A.x0 + (index small A x : K) * A.dx)) A.dx

/-- `w[0]` of `GetWeights`, phoebus_interpolation.hpp:132. -/
def w0 (small : K) (A : Axis K) (x : K) : K := 1 - w1 small A x

/-- `Do1D`, phoebus_interpolation.hpp:188-195. -/
def do1D (small : K) (A : Axis K) (x : K) (p : ℤ → K) : K :=
  w0 small A x * p (index small A x) + w1 small A x * p (index small A x + 1)

/-- `Do2D`, phoebus_interpolation.hpp:168-179 (`p j i`). -/
def do2D (small : K) (A1 A2 : Axis K) (x1 x2 : K) (p : ℤ → ℤ → K) : K :=
  let i := index small A1 x1
  let j := index small A2 x2
  w0 small A2 x2 * (w0 small A1 x1 * p j i + w1 small A1 x1 * p j (i + 1)) +
  w1 small A2 x2 * (w0 small A1 x1 * p (j + 1) i + w1 small A1 x1 * p (j + 1) (i + 1))

/-- `Do3D`, phoebus_interpolation.hpp:142-159 (`p k j i`). -/
def do3D (small : K) (A1 A2 A3 : Axis K) (x1 x2 x3 : K) (p : ℤ → ℤ → ℤ → K) : K :=
  let i := index small A1 x1
  let j := index small A2 x2
  let k := index small A3 x3
  w0 small A3 x3 * (w0 small A2 x2 * (w0 small A1 x1 * p k j i + w1 small A1 x1 * p k j (i + 1)) +
    w1 small A2 x2 * (w0 small A1 x1 * p k (j + 1) i + w1 small A1 x1 * p k (j + 1) (i + 1))) +
  w1 small A3 x3 * (w0 small A2 x2 * (w0 small A1 x1 * p (k + 1) j i + w1 small A1 x1 * p (k + 1) j (i + 1)) +
    w1 small A2 x2 * (w0 small A1 x1 * p (k + 1) (j + 1) i + w1 small A1 x1 * p (k + 1) (j + 1) (i + 1)))

/-- `Do`, phoebus_interpolation.hpp:210-220. -/
def doInterp (small : K) (A1 A2 A3 : Axis K) (x1 x2 x3 : K) (p : ℤ → ℤ → ℤ → K) : K :=
  if A3.nx > 1 then do3D small A1 A2 A3 x1 x2 x3 p
  else if A2.nx > 1 then do2D small A1 A2 x1 x2 (p 0)
  else do1D small A1 x1 (p 0 0)

/-- `PiecewiseConstant::GetIndicesAndWeights`, phoebus_interpolation.hpp:66-74; `ishift` is `round(shift)`. -/
def pcWeight (nSupport ishift i : ℤ) : ℤ × K :=
  if i + ishift < 0 ∨ i + ishift ≥ nSupport then (0, 0) else (i + ishift, 1)

end Phoebus.Interp
