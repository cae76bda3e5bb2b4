import Verif.Common
import Verif.GeomUtils.Model
import Mathlib.Analysis.SpecialFunctions.Trigonometric.Basic

/-!
# Model of `/repo/src/radiation/kd_grid.hpp`
-/
namespace Phoebus.KdGrid
open GeomUtils

/-- `integrate_ninj_domega_quad`, kd_grid.hpp:29-75: the six weights as written into the array `wgts` (`old` is its previous
content). -/
noncomputable def quad (xi0 xi1 phi0 phi1 : ℝ) (old : ℕ → ℝ) : ℕ → ℝ :=
  let cth0 := 1.0 - xi0
  let sth0 := Real.sqrt (1.0 - cth0 * cth0)
  let cth1 := 1.0 - xi1
  let sth1 := Real.sqrt (1.0 - cth1 * cth1)
  let sphi0 := Real.sin phi0
  let cphi0 := Real.cos phi0
  let sphi1 := Real.sin phi1
  let cphi1 := Real.cos phi1
  let sth03 := sth0 * sth0 * sth0
  let sth13 := sth1 * sth1 * sth1
  let cth03 := cth0 * cth0 * cth0
  let cth13 := cth1 * cth1 * cth1
  let c3th0 := 4.0 * cth03 - 3.0 * cth0
  let c3th1 := 4.0 * cth13 - 3.0 * cth1
  let c2phi0 := 2.0 * cphi0 * cphi0 - 1.0
  let c2phi1 := 2.0 * cphi1 * cphi1 - 1.0
  let s2phi0 := 2.0 * sphi0 * cphi0
  let s2phi1 := 2.0 * sphi1 * cphi1
  let term := 9.0 * (cth0 - cth1) - c3th0 + c3th1
  let w := Function.update old (flatten2 0 0) ((phi1 - phi0) * (3.0 * cth0 + c3th0 - 4.0 * cth13) / 12.0)
  let w := Function.update w (flatten2 0 1) ((sphi0 - sphi1) * (sth03 - sth13) / 3.0)
  let w := Function.update w (flatten2 0 2) ((cphi1 - cphi0) * (sth03 - sth13) / 3.0)
  let w := Function.update w (flatten2 1 1) (-term * (2.0 * (phi0 - phi1) + s2phi0 - s2phi1) / 48.0)
  let w := Function.update w (flatten2 1 2) ((9.0 * (cth0 - cth1) - c3th0 + c3th1) * (c2phi0 - c2phi1) / 48.0)
  Function.update w (flatten2 2 2) (term * (-2.0 * (phi0 - phi1) + s2phi0 - s2phi1) / 48.0)

end Phoebus.KdGrid
