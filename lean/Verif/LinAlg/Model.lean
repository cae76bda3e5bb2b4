import Verif.Common

/-!
# Model of `src/phoebus_utils/linear_algebra.hpp`

Exact field arithmetic: `std::fma(x, y, z)` is `x * y + z`.  A division by zero in the code (NaN/inf) shows up
as Lean's `x / 0 = 0`; every theorem below guards it with a nonvanishing determinant.
-/
namespace Phoebus.LinAlg
variable {K : Type*} [Field K]

/-- `Determinant`, linear_algebra.hpp:48-54. -/
def det3 (A : Fin 3 → Fin 3 → K) : K :=
  A 0 0 * A 1 1 * A 2 2 + A 0 1 * A 1 2 * A 2 0 +
  A 0 2 * A 1 0 * A 2 1 - A 0 2 * A 1 1 * A 2 0 -
  A 0 1 * A 1 0 * A 2 2 - A 0 0 * A 1 2 * A 2 1

/-- `DifferenceOfProducts`, linear_algebra.hpp:56-65. -/
def dop (a b c d : K) : K :=
  let cd := c * d
  let err := -c * d + cd
  let r := a * b + -cd
  r + err

/-- The cofactor table of `matrixInverse3x3`, linear_algebra.hpp:70-78. -/
def cof3 (A : Fin 3 → Fin 3 → K) : Fin 3 → Fin 3 → K :=
  ![![dop (A 1 1) (A 2 2) (A 1 2) (A 2 1), -dop (A 0 1) (A 2 2) (A 0 2) (A 2 1),
      dop (A 0 1) (A 1 2) (A 0 2) (A 1 1)],
    ![-dop (A 1 0) (A 2 2) (A 1 2) (A 2 0), dop (A 0 0) (A 2 2) (A 0 2) (A 2 0),
      -dop (A 0 0) (A 1 2) (A 0 2) (A 1 0)],
    ![dop (A 1 0) (A 2 1) (A 1 1) (A 2 0), -dop (A 0 0) (A 2 1) (A 0 1) (A 2 0),
      dop (A 0 0) (A 1 1) (A 0 1) (A 1 0)]]

/-- The determinant returned by `matrixInverse3x3`, linear_algebra.hpp:79-81, 88. -/
def invDet3 (A : Fin 3 → Fin 3 → K) : K :=
  A 0 0 * cof3 A 0 0 + dop (A 2 0) (cof3 A 2 0) (A 1 0) (-cof3 A 1 0)

/-- `matrixInverse3x3` (the output matrix), linear_algebra.hpp:67-89. -/
def inverse3 (A : Fin 3 → Fin 3 → K) : Fin 3 → Fin 3 → K :=
  fun i j => cof3 A i j * (1 / invDet3 A)

/-- `SolveAxb2x2`, linear_algebra.hpp:91-96. -/
def solve2 (A : Fin 2 → Fin 2 → K) (b : Fin 2 → K) : Fin 2 → K :=
  let invDet := 1 / dop (A 0 0) (A 1 1) (A 0 1) (A 1 0)
  ![invDet * dop (A 1 1) (b 0) (A 0 1) (b 1), invDet * dop (A 0 0) (b 1) (A 1 0) (b 0)]

/-- `MINOR`, linear_algebra.hpp:98-106; `m[4*r+c]` is `m r c` (row-major storage). -/
def minor (m : Fin 4 → Fin 4 → K) (r0 r1 r2 c0 c1 c2 : Fin 4) : K :=
  m r0 c0 * (m r1 c1 * m r2 c2 - m r2 c1 * m r1 c2) -
  m r0 c1 * (m r1 c0 * m r2 c2 - m r2 c0 * m r1 c2) +
  m r0 c2 * (m r1 c0 * m r2 c1 - m r2 c0 * m r1 c1)

/-- `adjoint`, linear_algebra.hpp:108-129. -/
def adjoint (m : Fin 4 → Fin 4 → K) : Fin 4 → Fin 4 → K :=
  ![![minor m 1 2 3 1 2 3, -minor m 0 2 3 1 2 3, minor m 0 1 3 1 2 3, -minor m 0 1 2 1 2 3],
    ![-minor m 1 2 3 0 2 3, minor m 0 2 3 0 2 3, -minor m 0 1 3 0 2 3, minor m 0 1 2 0 2 3],
    ![minor m 1 2 3 0 1 3, -minor m 0 2 3 0 1 3, minor m 0 1 3 0 1 3, -minor m 0 1 2 0 1 3],
    ![-minor m 1 2 3 0 1 2, minor m 0 2 3 0 1 2, -minor m 0 1 3 0 1 2, minor m 0 1 2 0 1 2]]

/-- `determinant` (4x4), linear_algebra.hpp:131-135. -/
def det4 (m : Fin 4 → Fin 4 → K) : K :=
  m 0 0 * minor m 1 2 3 1 2 3 - m 0 1 * minor m 1 2 3 0 2 3 +
  m 0 2 * minor m 1 2 3 0 1 3 - m 0 3 * minor m 1 2 3 0 1 2

/-- `matrixInverse4x4`, linear_algebra.hpp:137-147. -/
def inverse4 (m : Fin 4 → Fin 4 → K) : Fin 4 → Fin 4 → K :=
  fun i j => adjoint m i j / det4 m

end Phoebus.LinAlg
