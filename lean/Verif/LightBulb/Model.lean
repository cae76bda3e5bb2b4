import Verif.Tetrads.Model
import Verif.Rel.Model
import Mathlib.Analysis.SpecialFunctions.Pow.Real
import Mathlib.Analysis.SpecialFunctions.Log.Base

/-!
# Model of `/repo/src/radiation/cooling_function.cpp`, `light_bulb_constants.hpp` and `ApplyRadiationFourForce`

One cell at a time (every loop body touches only its own cell).  `std::log10` is `Real.logb 10`, `std::pow(10, x)` is the real
power.  Mass fractions and emissivities, which come from tables, are arguments.
-/
namespace Phoebus.LightBulb
open Finset Geom

/-- `XL1` .. `YL4`, light_bulb_constants.hpp:33-40. -/
noncomputable def xl1 : ℝ := 8.35
/-- light_bulb_constants.hpp:34. -/
noncomputable def xl2 : ℝ := 8.8
/-- light_bulb_constants.hpp:35. -/
noncomputable def xl3 : ℝ := 14.15
/-- light_bulb_constants.hpp:36. -/
noncomputable def xl4 : ℝ := 14.5
/-- light_bulb_constants.hpp:37. -/
noncomputable def yl1 : ℝ := -4.0
/-- light_bulb_constants.hpp:38. -/
noncomputable def yl2 : ℝ := -1.8
/-- light_bulb_constants.hpp:39. -/
noncomputable def yl3 : ℝ := 2.4
/-- light_bulb_constants.hpp:40. -/
noncomputable def yl4 : ℝ := 3.4

/-- `LightBulbCalcTau`, cooling_function.cpp:54-74; `rho` is the density in CGS. -/
noncomputable def tau (rho : ℝ) : ℝ :=
  let lRho := Real.logb 10 rho
  if lRho < xl2 then (10 : ℝ) ^ ((yl2 - yl1) / (xl2 - xl1) * (lRho - xl1) + yl1)
  else if lRho > xl3 then (10 : ℝ) ^ ((yl4 - yl3) / (xl4 - xl3) * (lRho - xl3) + yl3)
  else (10 : ℝ) ^ ((yl3 - yl2) / (xl3 - xl2) * (lRho - xl2) + yl2)

/-- `CheckDoGain`, cooling_function.cpp:79-118: `taus` are the optical depths of the cells of the partition. -/
noncomputable def checkDoGain (taus : List ℝ) (doGain : Bool) : Bool :=
  if doGain then doGain
  else
    let doGainLocal : ℕ := taus.foldl (fun n t => n + if t > 100 then 1 else 0) 0
    max (decide (doGainLocal ≠ 0)) doGain

/-- the flag through a run: the partitions of a step run `CheckDoGain` on the same `do_gain_reducer->val`
(phoebus_driver.cpp:776-787; the reduction over ranks is a logical or). -/
noncomputable def gainHistory (steps : List (List ℝ)) (doGain : Bool) : Bool := steps.foldl (fun g taus => checkDoGain taus g) doGain

/-- the Liebendoerfer fit, cooling_function.cpp:213-217, 239-240 and light_bulb_constants.hpp:19-25. -/
noncomputable def yeFit (lRho : ℝ) : ℝ :=
  let lRho2 := lRho * lRho
  let lRho3 := lRho2 * lRho
  let lRho4 := lRho2 * lRho2
  let lRho5 := lRho4 * lRho
  let lRho6 := lRho3 * lRho3
  2.120282875020e+02 + -1.279083733386e+02 * lRho + 3.199984467460e+01 * lRho2 + -4.238440349145e+00 * lRho3 +
    3.133904196302e-01 * lRho4 + -1.226365543366e-02 * lRho5 + 1.983947360151e-04 * lRho6

/-- the electron fraction increment, cooling_function.cpp:227-252 (zero outside the density range of the fit). -/
noncomputable def dYe (rho Ye : ℝ) : ℝ :=
  let lRho := Real.logb 10 rho
  if 8 ≤ lRho ∧ lRho ≤ 13 then
    let d := max (-0.05 * Ye) (min 0.0 (yeFit lRho - Ye))
    let d := if rho < 3.0e8 then d * (rho - 1.0e8) / 2.0e8 else d
    if Ye < 0.27 then 0 else d
  else 0

/-- `Jye`, cooling_function.cpp:210, 248-251. -/
noncomputable def jYe (doLiebendorfer : Bool) (rho Ye dt cdensity : ℝ) : ℝ :=
  if doLiebendorfer then dYe rho Ye / dt * cdensity else 0

/-- `heat`, cooling_function.cpp:256, 264-265; `r` is the radius in CGS, `X` is `Xn + Xp`. -/
noncomputable def heat (doGain : Bool) (X lum tau r : ℝ) : ℝ :=
  (if doGain then 1 else 0) * X * (1.544e20 * lum) * Real.exp (-tau) * (1.0e7 / r) ^ 2

/-- `cool`, cooling_function.cpp:257, 266-269; `T` is the temperature in CGS. -/
noncomputable def cool (X tau T : ℝ) : ℝ :=
  X * 1.399e20 * Real.exp (-tau) * (T / (2.0 * 1.16040892301e10)) ^ 6

/-- the four-force of the light bulb, cooling_function.cpp:277-284, on a force field that starts at zero (168-177): `-Gcov_coord`
with `Gcov_tetrad = {J, 0, 0, 0}`, `J = cdensity (H - C)`. -/
noncomputable def bulbForce (eps : ℝ) (G : ADM ℝ) (ucon : Fin 4 → ℝ) (cdensity H C : ℝ) (mu : Fin 4) : ℝ :=
  let F := Tetrads.ecov G.g4 (Tetrads.econ eps G.g4 ucon Tetrads.defaultTrial)
  let J := cdensity * (H - C)
  0 + -Tetrads.tetradToCoordCov F ![J, 0, 0, 0] mu

/-- `LeptonSign`, radiation.hpp:66-70; the argument is the integer value of the species. -/
def leptonSign (s : ℤ) : ℤ := (if |s| < 2 then 1 else 0) * (-2 * s + 1)

/-- one species of the plain cooling function, cooling_function.cpp:302-328: the increments of `Gcov` and `Gye`. -/
noncomputable def speciesForce (eps : ℝ) (G : ADM ℝ) (ucon : Fin 4 → ℝ) (detG J Jye : ℝ) (s : ℤ) : (Fin 4 → ℝ) × ℝ :=
  let F := Tetrads.ecov G.g4 (Tetrads.econ eps G.g4 ucon Tetrads.defaultTrial)
  (fun mu => -detG * Tetrads.tetradToCoordCov F ![-J, 0, 0, 0] mu, -leptonSign s * detG * Jye)

/-- the loop over species, cooling_function.cpp:293-331: `sp` lists, for the active species, its number, `J` and
`Jye = mp * NumberEmissivity`. -/
noncomputable def coolingForce (eps : ℝ) (G : ADM ℝ) (ucon : Fin 4 → ℝ) (detG : ℝ) (sp : List (ℤ × ℝ × ℝ)) : (Fin 4 → ℝ) × ℝ :=
  sp.foldl (fun acc x =>
    let d := speciesForce eps G ucon detG x.2.1 x.2.2 x.1
    (fun mu => acc.1 mu + d.1 mu, acc.2 + d.2)) (fun _ => 0, 0)

/-- conserved state of a cell, as far as the four-force changes it.
(Data type of the model.) -/
structure Cell where
  energy : ℝ
  momentum : Fin 3 → ℝ
  ye : ℝ

/-- `ApplyRadiationFourForce`, radiation.cpp:573-581. -/
noncomputable def applyForce (dt : ℝ) (Gcov : Fin 4 → ℝ) (Gye : ℝ) (c : Cell) : Cell :=
  { energy := c.energy - Gcov 0 * dt
    momentum := fun i => c.momentum i + Gcov i.succ * dt
    ye := c.ye + Gye * dt }

end Phoebus.LightBulb
