import Verif.Metrics.Flat
import Verif.Rel.Props
import Verif.Sources.Props
import Verif.Driver.Model

/-!
# Model of a uniform fluid in the expanding coordinate system

The pieces are those of the other models: the FLRW metric (`Metrics.flrw`), conserved variables (`Rel.p2c`), the stress
tensor (`Rel.tmunu`), the geometric sources (`Sources`), the Runge-Kutta update (`Driver.rkStep`) and the time handed to the
geometry (`Driver.stageTime`).  Only their combination is defined here.
-/
namespace Phoebus.Cosmo
open Geom Metrics Rel Sources Driver

/-- a uniform fluid at rest: friedmann.cpp:65-85 with zero velocity and no field. -/
def atRest (rho u P : ℝ) : Prim := ⟨rho, u, P, fun _ => 0, fun _ => 0⟩

/-- energy source of `CalculateFluidSourceTerms` (fluid.cpp:613-640) in the FLRW metric. -/
noncomputable def energySource (a0 dadt : ℝ) (X : Fin 4 → ℝ) (q : Prim) : ℝ :=
  let s := flrw 0 a0 dadt
  energySourceValencia 0 (adm s X) (s.detG X) (s.dg X) (s.gradLnAlpha X) (tmunu 0 (adm s X) q)

/-- momentum source of `CalculateFluidSourceTerms` (fluid.cpp:604-611) in the FLRW metric. -/
noncomputable def momSource (a0 dadt : ℝ) (X : Fin 4 → ℝ) (q : Prim) (l : Fin 3) : ℝ :=
  let s := flrw 0 a0 dadt
  momentumSource (s.detG X) (s.dg X) (tmunu 0 (adm s X) q) l

/-- `PrimitiveToConserved` (prim2con.hpp:48-102) in the FLRW metric. -/
noncomputable def cons (a0 dadt : ℝ) (X : Fin 4 → ℝ) (q : Prim) : Cons :=
  let s := flrw 0 a0 dadt
  p2c true (adm s X) (s.detGamma X) 0 q

/-- mass of one cell: its conserved density and the density last recovered from it.
(Data type of the model.) -/
structure Cell where
  D : ℝ
  rho : ℝ

/-- The last stage of one step for the density of a uniform fluid at rest: the flux differences vanish, so the right-hand side
is zero (phoebus_driver.cpp:560-576), and the primitive recovery at the end of the last stage (phoebus_driver.cpp:665-668)
divides by the volume element of the time set by phoebus_driver.cpp:277-280.  Simplification: the recovery of a fluid at rest is
`D / √γ` (the exact inverse of `cons`, see `cons_rest`). -/
noncomputable def step (betas : List ℝ) (a0 dadt dt : ℝ) (time : ℝ) (c : Cell) : Cell :=
  let D := rkStep betas dt (fun _ => 0) c.D
  ⟨D, D / (flrw 0 a0 dadt).detGamma (fun _ => stageTime betas time dt betas.length)⟩

/-- `n` steps of equal length from time zero.
(Helper: the outer loop of the driver.) -/
noncomputable def run (betas : List ℝ) (a0 dadt dt : ℝ) : ℕ → Cell → Cell
  | 0, c => c
  | n + 1, c => step betas a0 dadt dt (n * dt) (run betas a0 dadt dt n c)

end Phoebus.Cosmo
