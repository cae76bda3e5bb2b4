import Mathlib.Algebra.Order.Field.Basic

/-!
# Model of `src/phoebus_utils/robust.hpp`

`Real` is an arbitrary linearly ordered field `K`.  The machine constants `SMALL()`
(ten times the smallest normal double) and `EPS()` (ten times machine epsilon) are parameters, about
which theorems assume only positivity (and `eps < 1` where needed).
-/
namespace Phoebus.Robust

variable {K : Type*} [Field K] [LinearOrder K]

/-- `robust::make_positive`, robust.hpp:22-25. -/
def makePositive (eps val : K) : K := max val eps

/-- `robust::make_bounded`, robust.hpp:27-30. -/
def makeBounded (eps val vmin vmax : K) : K := min (max val (vmin + eps)) (vmax * (1 - eps))

/-- `robust::sgn`, robust.hpp:32-35: `(0 <= val) - (val < 0)`. -/
def sgn (val : K) : Int := (if 0 ≤ val then 1 else 0) - (if val < 0 then 1 else 0)

/-- `robust::ratio`, robust.hpp:36-40. -/
def ratio (small a b : K) : K :=
  let s : K := if 0 ≤ b then 1 else -1
  a / (b + s * small)

end Phoebus.Robust
