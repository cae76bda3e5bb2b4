import Verif.Common
import Verif.Robust.Model

/-!
# Model of the helpers in `/repo/src/geometry/geometry_utils.hpp`
-/
namespace Phoebus.GeomUtils
open Finset
variable {K : Type*} [Field K]

/-- `Utils::SetConnectionCoeffFromMetricDerivs`, geometry_utils.hpp:72-78.  `dg mu nu sigma` is `dg[mu][nu][sigma]`. -/
def connection (dg : Fin 4 → Fin 4 → Fin 4 → K) (a b c : Fin 4) : K :=
  1 / 2 * (dg b a c + dg c a b - dg b c a)

/-- `Utils::Lower`, geometry_utils.hpp:121-128 (loop written as a sum). -/
def lower (gcov : Fin 4 → Fin 4 → K) (v : Fin 4 → K) (mu : Fin 4) : K := ∑ nu, gcov mu nu * v nu

/-- `Utils::Raise`, geometry_utils.hpp:130-137. -/
def raise (gcon : Fin 4 → Fin 4 → K) (v : Fin 4 → K) (mu : Fin 4) : K := ∑ nu, gcon mu nu * v nu

/-- `Utils::KroneckerDelta`, geometry_utils.hpp:139-146. -/
def kronecker (a b : Fin 4) : K := if a = b then 1 else 0

/-- the table `ind` of `Utils::Flatten2`, geometry_utils.hpp:188-194.  The bounds check against `size` is debug only and
does not influence the result. -/
def flatten2 (m n : Fin 4) : ℕ :=
  (![![0, 1, 3, 6], ![1, 2, 4, 7], ![3, 4, 5, 8], ![6, 7, 8, 9]] : Fin 4 → Fin 4 → ℕ) m n

/-- `Utils::SymSize<size>`, geometry_utils.hpp:195-198. -/
def symSize (size : ℕ) : ℕ := size * size - size * (size - 1) / 2

section FD
variable [LinearOrder K]

/-- the point `(X1,X2,X3)` displaced by `h` in direction `d` (1,2,3); `X0` never moves, geometry_utils.hpp:96-114 and
162-187. -/
def shift (X : Fin 4 → K) (d : Fin 4) (h : K) : Fin 4 → K :=
  fun mu => if mu = d ∧ d ≠ 0 then X mu + h else X mu

/-- step `max(|X_d|, 1) * EPS`, geometry_utils.hpp:102-113. -/
def fdStep (EPS : K) (X : Fin 4 → K) (d : Fin 4) : K := max |X d| 1 * EPS

/-- `Utils::SetGradLnAlphaByFD`, geometry_utils.hpp:90-119; `EPS` is the cube root of machine epsilon, `small` the
regulariser of `robust::ratio`. -/
def gradLnAlphaFD (small EPS : K) (lapse : (Fin 4 → K) → K) (X : Fin 4 → K) (d : Fin 4) : K :=
  if d = 0 then 0 else
    let dx := fdStep EPS X d
    let ap := lapse (shift X d dx)
    let am := lapse (shift X d (0 - dx))
    Robust.ratio small (ap - am) (dx * (am + ap))

/-- `Utils::SetMetricGradientByFD`, geometry_utils.hpp:149-187. -/
def metricGradientFD (small EPS : K) (g : (Fin 4 → K) → Fin 4 → Fin 4 → K) (X : Fin 4 → K) (mu nu d : Fin 4) : K :=
  if d = 0 then 0 else
    let dx := fdStep EPS X d
    Robust.ratio small (g (shift X d dx) mu nu - g (shift X d (0 - dx)) mu nu) (2 * dx)
end FD

end Phoebus.GeomUtils
