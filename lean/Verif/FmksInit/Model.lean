import Verif.Transform.MGRProps

/-!
# Model of the derived parameters of the black-hole coordinate system (src/geometry/fmks.cpp)

Reals stand for `Real`; `std::cbrt` of the (non-negative) arguments met for `|a| ≤ 1` is `rpow (1/3)`.
-/
namespace Phoebus.FmksInit
open Real

/-- `std::cbrt`, fmks.cpp:58 (only for non-negative arguments). -/
noncomputable def cbrt (x : ℝ) : ℝ := x ^ (1 / 3 : ℝ)

/-- `Rh`, fmks.cpp:56. -/
noncomputable def Rh (a : ℝ) : ℝ := 1 + sqrt (1 - a * a)

/-- `xh`, fmks.cpp:57. -/
noncomputable def xh (a : ℝ) : ℝ := log (Rh a)

/-- `Z1`, fmks.cpp:58. -/
noncomputable def Z1 (a : ℝ) : ℝ := 1 + cbrt (1 - a * a) * (cbrt (1 + a) + cbrt (1 - a))

/-- `Z2`, fmks.cpp:59, exactly as written in the code (`Z1` is not squared). -/
noncomputable def Z2 (a : ℝ) : ℝ := sqrt (3 * a * a + Z1 a)

/-- `r_isco_p`, fmks.cpp:60. -/
noncomputable def iscoP (a : ℝ) : ℝ := 3 + Z2 a - sqrt ((3 - Z1 a) * (3 + Z1 a + 2 * Z2 a))

/-- `r_isco_r`, fmks.cpp:61. -/
noncomputable def iscoR (a : ℝ) : ℝ := 3 + Z2 a + sqrt ((3 - Z1 a) * (3 + Z1 a + 2 * Z2 a))

/-- `dx1`, fmks.cpp:76. -/
noncomputable def dx1 (x1min x1max : ℝ) (nx1 : ℕ) : ℝ := (x1max - x1min) / nx1

/-- `x0`, fmks.cpp:47, 78. -/
noncomputable def x0 (x1min x1max : ℝ) (nx1 nghost : ℕ) : ℝ :=
  min x1min (max 0 (x1min - nghost * dx1 x1min x1max nx1))

end Phoebus.FmksInit
