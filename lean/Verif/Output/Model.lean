import Verif.Rel.Props
import Verif.Metrics.Model

/-!
# Model of the diagnostics written before every output (`UserWorkBeforeOutput`, src/phoebus_driver.cpp:1058-1185)

A mesh function is a function of the cell indices `k j i`.
-/
namespace Phoebus.Output
open Rel Metrics

/-- the equation-of-state calls used, by their documented meaning (singularity-eos): pressure, bulk modulus and specific
internal energy at a density and a temperature.
(Data type of the model of analysis and history code.) -/
structure Eos where
  P : ℝ → ℝ → ℝ
  bmod : ℝ → ℝ → ℝ
  sie : ℝ → ℝ → ℝ

/-- sound speed, phoebus_driver.cpp:1102-1110. -/
noncomputable def cs (eos : Eos) (rho T : ℝ) : ℝ :=
  let h := eos.sie rho T + eos.P rho T / rho + 1
  Real.sqrt (eos.bmod rho T / rho / h)

/-- mesh functions read by the velocity divergence: 3-velocity (times Lorentz factor), lapse, `DetGamma` and the 3-metric.
(Data type of the model of analysis and history code.) -/
structure Fields where
  v : ℤ → ℤ → ℤ → Fin 3 → ℝ
  lapse : ℤ → ℤ → ℤ → ℝ
  gdet : ℤ → ℤ → ℤ → ℝ
  gam : ℤ → ℤ → ℤ → Fin 3 → Fin 3 → ℝ

/-- velocity divergence, phoebus_driver.cpp:1111-1171.  `junk` is the array `gam3`, which is declared at line 1115 and never
assigned; `w` are the cell widths. -/
noncomputable def divv (small : ℝ) (ndim : ℕ) (junk : Fin 3 → Fin 3 → ℝ) (w : Fin 3 → ℝ) (F : Fields) (k j i : ℤ) : ℝ :=
  let igdet := Robust.ratio small 1 (F.gdet k j i)
  let W := lorentz (F.gam k j i) (F.v k j i)
  let W1 := lorentz (F.gam k j (i - 1)) (F.v k j (i - 1))
  let d1 := igdet * (F.gdet k j i * F.v k j i 0 * F.lapse k j i / W -
    F.gdet k j (i - 1) * F.v k j (i - 1) 0 * F.lapse k j (i - 1) / W1) / w 0
  let W2 := lorentz (F.gam k (j - 1) i) (F.v k (j - 1) i)
  let d2 := if 2 ≤ ndim then igdet * (F.gdet k j i * F.v k j i 1 * F.lapse k j i / W -
    F.gdet k (j - 1) i * F.v k (j - 1) i 1 * F.lapse k (j - 1) i / W2) / w 1 else 0
  let W3 := lorentz junk (F.v (k - 1) j i)
  let d3 := if 3 ≤ ndim then igdet * (F.gdet k j i * F.v k j i 2 * F.lapse k j i / W -
    F.gdet (k - 1) j i * F.v (k - 1) j i 2 * F.lapse (k - 1) j i / W3) / w 2 else 0
  d1 + d2 + d3

/-- weight of the localised entropy, phoebus_driver.cpp:1116-1119 (`pi` is the literal 3.14). -/
noncomputable def locWeight (sigma z : ℝ) : ℝ := Real.exp (-z * z / sigma / sigma) / Real.sqrt 3.14 / sigma

/-- the test of `analysis::Initialize`, analysis.cpp:8-10: `true` when the run is accepted. -/
noncomputable def sigmaAccepted (sigma : ℝ) : Bool := decide (¬ sigma < 0)

end Phoebus.Output
