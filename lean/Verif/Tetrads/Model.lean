import Verif.GeomUtils.Model
import Verif.Geom.ADM
import Mathlib.Analysis.SpecialFunctions.Sqrt

/-!
# Model of `/repo/src/geometry/tetrads.hpp`

A tetrad under construction is `E : Fin 4 → Fin 4 → ℝ`, `E a mu` being `Econ_[a][mu]`.  `SPACETIMELOOP` accumulations are
finite sums; in-place updates return the new vector.  Division is over the reals (`x / 0 = 0`; the theorems show that the
divisors are not zero).
-/
namespace Phoebus.Tetrads
open Finset GeomUtils

/-- contraction `V^mu W^nu g_mu_nu`, the loops at tetrads.hpp:87, 131, 141-146. -/
noncomputable def norm2 (g : Fin 4 → Fin 4 → ℝ) (v w : Fin 4 → ℝ) : ℝ := ∑ mu, ∑ nu, v mu * w nu * g mu nu

/-- `Normalize_`, tetrads.hpp:128-135. -/
noncomputable def normalize (g : Fin 4 → Fin 4 → ℝ) (v : Fin 4 → ℝ) : Fin 4 → ℝ :=
  fun mu => v mu / Real.sqrt |norm2 g v v|

/-- `ProjectOut_`, tetrads.hpp:137-149. -/
noncomputable def projectOut (g : Fin 4 → Fin 4 → ℝ) (a b : Fin 4 → ℝ) : Fin 4 → ℝ :=
  fun mu => a mu - b mu * norm2 g a b / norm2 g b b

/-- `X1ness`, `X2ness`, `X3ness`, tetrads.hpp:73-83; `i` is 1, 2 or 3. -/
noncomputable def ness (g : Fin 4 → Fin 4 → ℝ) (trial : Fin 4 → ℝ) (i : Fin 4) : ℝ :=
  abs (∑ mu, g i mu * trial mu / Real.sqrt (abs (g i i)))

/-- the basis before orthonormalisation, tetrads.hpp:85-110; `eps` is `robust::EPS()`. -/
noncomputable def initial (eps : ℝ) (g : Fin 4 → Fin 4 → ℝ) (ucon trial : Fin 4 → ℝ) : Fin 4 → Fin 4 → ℝ :=
  let E : Fin 4 → Fin 4 → ℝ := ![ucon, fun mu => kronecker mu 1, fun mu => kronecker mu 2, fun mu => kronecker mu 3]
  if norm2 g trial trial > eps then
    if ness g trial 1 > ness g trial 2 ∧ ness g trial 1 > ness g trial 3 then Function.update E 1 trial
    else if ness g trial 2 ≥ ness g trial 1 ∧ ness g trial 2 > ness g trial 3 then Function.update E 2 trial
    else Function.update E 3 trial
  else E

/-- Gram-Schmidt and normalisation, tetrads.hpp:112-122. -/
noncomputable def orthonormalize (g : Fin 4 → Fin 4 → ℝ) (E : Fin 4 → Fin 4 → ℝ) : Fin 4 → Fin 4 → ℝ :=
  let e0 := normalize g (E 0)
  let e1 := normalize g (projectOut g (E 1) e0)
  let e2 := normalize g (projectOut g (projectOut g (E 2) e0) e1)
  let e3 := normalize g (projectOut g (projectOut g (projectOut g (E 3) e0) e1) e2)
  ![e0, e1, e2, e3]

/-- `Econ_` after `ConstructTetrads_`, tetrads.hpp:69-122. -/
noncomputable def econ (eps : ℝ) (g : Fin 4 → Fin 4 → ℝ) (ucon trial : Fin 4 → ℝ) : Fin 4 → Fin 4 → ℝ :=
  orthonormalize g (initial eps g ucon trial)

/-- `Ecov_` from `Econ_`, tetrads.hpp:124-126. -/
noncomputable def ecov (g : Fin 4 → Fin 4 → ℝ) (E : Fin 4 → Fin 4 → ℝ) (a mu : Fin 4) : ℝ :=
  if a = 0 then lower g (E a) mu * -1 else lower g (E a) mu

/-- the default trial vector, tetrads.hpp:30-34. -/
noncomputable def defaultTrial : Fin 4 → ℝ := ![0, 1, 0, 0]

/-- `CoordToTetradCon`, tetrads.hpp:36-42, `CoordToTetradCov`, 44-50, `TetradToCoordCon`, 52-58 and `TetradToCoordCov`,
60-66, for a tetrad with arrays `Econ_ = E` and `Ecov_ = F`. -/
noncomputable def coordToTetradCon (F : Fin 4 → Fin 4 → ℝ) (v : Fin 4 → ℝ) (mu : Fin 4) : ℝ := ∑ nu, F mu nu * v nu
/-- see `coordToTetradCon`; tetrads.hpp:44-50. -/
noncomputable def coordToTetradCov (E : Fin 4 → Fin 4 → ℝ) (v : Fin 4 → ℝ) (mu : Fin 4) : ℝ := ∑ nu, E mu nu * v nu
/-- see `coordToTetradCon`; tetrads.hpp:52-58. -/
noncomputable def tetradToCoordCon (E : Fin 4 → Fin 4 → ℝ) (v : Fin 4 → ℝ) (mu : Fin 4) : ℝ := ∑ nu, E nu mu * v nu
/-- see `coordToTetradCon`; tetrads.hpp:60-66. -/
noncomputable def tetradToCoordCov (F : Fin 4 → Fin 4 → ℝ) (v : Fin 4 → ℝ) (mu : Fin 4) : ℝ := ∑ nu, F nu mu * v nu

end Phoebus.Tetrads
