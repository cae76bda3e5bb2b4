import Verif.Floors.Model
import Verif.Closure.Model
import Verif.Moments.Model

/-!
# Model of the radiation part of `ApplyFloorsImpl` (`/repo/src/fixup/fixup.cpp:542-679`), of `RadiationFloors` and `RadiationCeilings`
(`/repo/src/fixup/fixup.hpp`) and of the dispatch `ApplyFloors` (`fixup.cpp:683-725`)

One cell, one species (the species are independent: each pass of the loop reads and writes only its own entries).  The closure is
`ClosureEdd` with `energy_conserve`, its default run-time strategy (`robust`), and a pressure tensor that is given by two functions:
`piCon E F` (used before `Con2Prim`) and `piPrim J H` (used before `Prim2Con`).  For the Eddington closure both are zero, for MOCMC both
return the stored tensor, for M1 they are the solutions of the closure equations (not modelled here).
`update_cons_vars` is the compile-time constant `true`, so the other branch (fixup.cpp:624-650) is dead.
-/
namespace Phoebus.RadFloors
open Geom Rel Robust Closure Finset

/-- `RadiationFloors`, fixup.hpp:154-181: a constant, or an exponential of the first coordinate. -/
inductive JFloor | constant (J0 : ℝ) | expX1 (J0 Jalpha : ℝ)

/-- `GetRadiationFloors`, fixup.hpp:163-176. -/
noncomputable def JFloor.at (f : JFloor) (x1 : ℝ) : ℝ :=
  match f with
  | .constant J0 => J0
  | .expX1 J0 Ja => J0 * Real.exp (Ja * x1)

/-- what the cell stores for one species: `J`, the ratio `H_i / J`, and the densitised `E`, `F_i`.
(The variables `pr::J`, `pr::H`, `cr::E`, `cr::F` of fixup.cpp:337-340.) -/
structure Cell where
  J : ℝ
  H : Vec
  E : ℝ
  F : Vec

/-- fixed data of the pass: regulariser of `ratio`, the constant `SMALL`, geometry of the cell, three-velocity `v^i / W`, pressure tensors.
(fixup.cpp:543-553.) -/
structure Env where
  small : ℝ
  SMALL : ℝ
  G : ADM ℝ
  sdet : ℝ
  v : Vec
  piCon : ℝ → Vec → Tens2
  piPrim : ℝ → Vec → Tens2

/-- `Con2Prim` of the stored densities, status ignored; the result still has `cov_H`, not the ratio.
(fixup.cpp:561-578 and 604-616.) -/
noncomputable def invert (e : Env) (E : ℝ) (F : Vec) : ℝ × Vec :=
  (con2prim e.small false true e.SMALL e.G e.v (e.piCon E F) E F).2

/-- storing the result of an inversion: `J` and `cov_H / J`, fixup.cpp:577-578, 618-619. -/
noncomputable def store (c : Cell) (r : ℝ × Vec) : Cell := { c with J := r.1, H := fun i => r.2 i / r.1 }

/-- rad c2p after a fluid floor or ceiling changed the velocity, fixup.cpp:557-580. -/
noncomputable def refresh (e : Env) (touched : Bool) (c : Cell) : Cell :=
  if touched then store c (invert e (c.E / e.sdet) fun i => c.F i / e.sdet) else c

/-- injection of the missing energy density at rest in the normal frame, fixup.cpp:583-619. -/
noncomputable def inject (e : Env) (Jfloor : ℝ) (c : Cell) : Cell :=
  let dJ := Jfloor - c.J
  if dJ > 0 then
    let d := prim2con false e.G (fun _ => 0) 0 dJ fun _ => 0
    let E := d.1 + c.E / e.sdet
    let F : Vec := fun i => d.2 i + c.F i / e.sdet
    let c' := { c with E := E * e.sdet, F := fun i => F i * e.sdet }
    store c' (invert e E F)
  else c

/-- flux-factor ceiling, fixup.cpp:651-676. -/
noncomputable def cap (e : Env) (ximax : ℝ) (c : Cell) : Cell :=
  let xi := Real.sqrt (hsq e.G e.v c.H)
  if xi > ximax then
    let covH : Vec := fun i => ximax / xi * c.H i * c.J
    let r := prim2con false e.G e.v (e.piPrim c.J covH) c.J covH
    ⟨c.J, fun i => covH i / c.J, r.1 * e.sdet, fun i => r.2 i * e.sdet⟩
  else c

/-- the body of the kernel for one species, fixup.cpp:557-676. -/
noncomputable def pass (e : Env) (touched : Bool) (Jfloor ximax : ℝ) (c : Cell) : Cell :=
  cap e ximax (inject e Jfloor (refresh e touched c))

/-! ### flags -/

/-- the input flags that decide whether the pass runs.
(Read in fixup.cpp:53-80.) -/
structure Flags where
  rad : Bool
  floors : Bool
  c2pFixup : Bool
  mhd : Bool
  mhdFloors : Bool
  radFloors : Bool
  radCeilings : Bool

/-- the flags stored by `Initialize`, fixup.cpp:102-143. -/
def Flags.stored (f : Flags) : Flags :=
  let mhdFloors := f.mhdFloors && f.mhd
  let radFloors := f.radFloors && f.rad
  let radCeilings := f.radCeilings && f.rad
  { f with mhdFloors := mhdFloors, radFloors := radFloors, radCeilings := radCeilings,
           floors := f.floors || f.c2pFixup || mhdFloors || radFloors }

/-- the closures `ApplyFloors` can select.
(fixup.cpp:692-713.) -/
inductive Kind | m1 | eddington | mocmc
  deriving DecidableEq

/-- `ApplyFloors`, fixup.cpp:683-714: `none` is the failed `PARTHENON_REQUIRE`. -/
def dispatch (f : Flags) (method : String) : Option Kind :=
  let m := if f.radFloors then method else ""
  if m = "moment_m1" then some .m1
  else if m = "moment_eddington" then some .eddington
  else if m = "mocmc" then some .mocmc
  else if f.radFloors then none else some .eddington

/-- what the whole kernel does to the radiation variables of a cell, fixup.cpp:303, 310, 347, 542-679, given the stored flags:
`active` is the parameter of the radiation package, `species` the number of species. -/
noncomputable def applyRad (f : Flags) (active : Bool) (species : ℕ) (e : Env) (touched : Bool) (Jfloor ximax : ℝ)
    (c : ℕ → Cell) : ℕ → Cell :=
  if f.floors && active then
    let n := if f.radFloors then species else 0
    fun s => if s < n then pass e touched Jfloor ximax (c s) else c s
  else c

end Phoebus.RadFloors
