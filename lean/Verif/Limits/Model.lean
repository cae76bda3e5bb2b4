import Verif.Floors.Model
import Verif.Units.Model

/-!
# Model of the configuration of floors, ceilings and EOS limits

`fixup::Initialize` (`fixup.cpp:48-280`), the evaluation of the bounds (`fixup.hpp`) and the limits stored by
`Microphysics::EOS::Initialize` (`eos_phoebus.cpp`).  An input file is a partial map from (section, key) to values; `GetOrAdd` is
"the value in the file, else the default" (the added default is what any later reader would use, too).  `none` is an abort.
-/
namespace Phoebus.Limits
open Floors

/-- An input file.
(Parthenon contract (`ParameterInput`): a finite map of parameters.) -/
structure Input where
  bool : String → String → Option Bool
  real : String → String → Option ℝ
  str : String → String → Option String

/-- `GetOrAddBoolean`.
(Parthenon contract.) -/
def Input.b (p : Input) (s k : String) (d : Bool) : Bool := (p.bool s k).getD d
/-- `GetOrAddReal`.
(Parthenon contract.) -/
noncomputable def Input.r (p : Input) (s k : String) (d : ℝ) : ℝ := (p.real s k).getD d
/-- `GetOrAddString`.
(Parthenon contract.) -/
def Input.s (p : Input) (s k : String) (d : String) : String := (p.str s k).getD d

/-- flags after the cross-checks, fixup.cpp:53-135. -/
structure Flags where
  floors : Bool
  mhdFloors : Bool
  radFloors : Bool
  radCeilings : Bool
  ceilings : Bool
deriving DecidableEq

/-- fixup.cpp:53-79 and 102-135. -/
def flags (p : Input) : Flags :=
  let mhd := p.b "fluid" "mhd" false
  let rad := p.b "physics" "rad" false
  let floors := p.b "fixup" "enable_floors" false
  let c2p := p.b "fixup" "enable_c2p_fixup" false
  let mf := p.b "fixup" "enable_mhd_floors" false
  let rf := p.b "fixup" "enable_rad_floors" false
  let rc := p.b "fixup" "enable_rad_ceilings" false
  let mf := if mf && !mhd then false else mf
  let rf := if rf && !rad then false else rf
  let rc := if rc && !rad then false else rc
  let floors := if c2p && !floors then true else floors
  let floors := if mf && !floors then true else floors
  let floors := if rf && !floors then true else floors
  ⟨floors, mf, rf, rc, p.b "fixup" "enable_ceilings" false⟩

/-- fixup.cpp:137-172; `big` is `numeric_limits<Real>::max()`.  The members set later by `SetEOSBnds` are the parameters `rmin`,
`smin` (fixup.hpp:136-142). -/
noncomputable def floorSpec (big rmin smin : ℝ) (p : Input) (on : Bool) : Option FloorSpec :=
  if on then
    match p.str "fixup" "floor_type" with
    | none => none
    | some t =>
      if t = "ConstantRhoSie" then
        some ⟨.constantRhoSie, p.r "fixup" "rho0_floor" 0, p.r "fixup" "sie0_floor" 0, 0, 0, rmin, smin, true⟩
      else if t = "ExpX1RhoSie" then
        some ⟨.expX1RhoSie, p.r "fixup" "rho0_floor" 0, p.r "fixup" "sie0_floor" 0, p.r "fixup" "rho_exp_floor" (-2),
          p.r "fixup" "sie_exp_floor" (-1), rmin, smin, true⟩
      else if t = "ExpX1RhoU" then
        some ⟨.expX1RhoU, p.r "fixup" "rho0_floor" 0, p.r "fixup" "u0_floor" 0, p.r "fixup" "rho_exp_floor" (-2),
          p.r "fixup" "u_exp_floor" (-3), rmin, smin, true⟩
      else if t = "X1RhoSie" then
        some ⟨.x1RhoSie, p.r "fixup" "rho0_floor" 0, p.r "fixup" "u0_floor" 0, p.r "fixup" "rho_exp_floor" (-2),
          p.r "fixup" "u_exp_floor" (-3), rmin, smin, true⟩
      else if t = "RRhoSie" then
        some ⟨.rRhoSie, p.r "fixup" "rho0_floor" 0, p.r "fixup" "u0_floor" 0, p.r "fixup" "rho_exp_floor" (-2),
          p.r "fixup" "u_exp_floor" (-3), rmin, smin, true⟩
      else none
  else some ⟨.constantRhoSie, -big, -big, 0, 0, rmin, smin, true⟩

/-- fixup.cpp:174-186 with `GetCeilings`, fixup.hpp:188-194: Lorentz factor and energy ceiling, the same everywhere. -/
noncomputable def ceilSpec (big : ℝ) (p : Input) (on : Bool) : Option (ℝ × ℝ) :=
  if on then
    if p.s "fixup" "ceiling_type" "ConstantGamSie" = "ConstantGamSie" then
      some (p.r "fixup" "gam0_ceiling" 1000, p.r "fixup" "sie0_ceiling" 100)
    else none
  else some (big, big)

/-- fixup.cpp:188-202 with `GetRadiationFloors`, fixup.hpp:157-164. -/
noncomputable def radFloorSpec (big : ℝ) (p : Input) (on : Bool) : Option (ℝ → ℝ) :=
  if on then
    match p.str "fixup" "rad_floor_type" with
    | none => none
    | some t =>
      if t = "ConstantJ" then some fun _ => p.r "fixup" "J0_floor" 0
      else if t = "ExpX1J" then some fun x1 => p.r "fixup" "J0_floor" 0 * Real.exp (p.r "fixup" "J_exp_floor" (-2) * x1)
      else none
  else some fun _ => -big

/-- fixup.cpp:204-215 with `GetRadiationCeilings`; an unknown type adds no parameter, so that line 277 throws. -/
noncomputable def radCeilSpec (big : ℝ) (p : Input) (on : Bool) : Option (ℝ × ℝ) :=
  if on then
    if p.s "fixup" "radiation_ceiling_type" "ConstantXi0" = "ConstantXi0" then
      some (p.r "fixup" "xi0_ceiling" (99 / 100), p.r "fixup" "tau0_ceiling" 100000)
    else none
  else some (big, big)

/-- fixup.cpp:217-230 with `GetMHDCeilings`. -/
noncomputable def mhdCeilSpec (big : ℝ) (p : Input) (on : Bool) : Option (ℝ × ℝ) :=
  if on then
    if p.s "fixup" "mhd_ceiling_type" "ConstantBsqRat" = "ConstantBsqRat" then
      some (p.r "fixup" "bsqorho0_ceiling" 50, p.r "fixup" "bsqou0_ceiling" 2500)
    else none
  else some (big, big)

/-- failure strategies, fixup.cpp:232-266: `true` is `floors`. -/
def strategy (p : Input) (key : String) : Option Bool :=
  if p.s "fixup" key "interpolate" = "interpolate" then some false
  else if p.s "fixup" key "interpolate" = "floors" then some true
  else none

/-- net-field enforcement parameters, fixup.cpp:77-100: target, time scale, cadence, start. `none` inside is "not enabled". -/
noncomputable def phiSpec (fmks : Bool) (p : Input) : Option (Option (ℝ × ℝ × ℝ × ℝ)) :=
  if p.b "fixup" "enable_phi_enforcement" false then
    if fmks then
      match p.real "fixup" "enforced_phi" with
      | none => none
      | some phi =>
        open Classical in
        if 0 ≤ p.r "fixup" "enforced_phi_start_time" 175 then
          some (some (phi, p.r "fixup" "enforced_phi_timescale" 1000, p.r "fixup" "enforced_phi_cadence" 10,
            p.r "fixup" "enforced_phi_start_time" 175))
        else none
    else none
  else some none

/-- what `fixup::Initialize` leaves behind.
(The parameters stored at fixup.cpp:44-280.) -/
structure Config where
  flags : Flags
  floor : FloorSpec
  ceil : ℝ × ℝ
  radFloor : ℝ → ℝ
  radCeil : ℝ × ℝ
  mhdCeil : ℝ × ℝ
  fluidStrategy : Bool
  radStrategy : Bool
  srcStrategy : Bool
  phi : Option (ℝ × ℝ × ℝ × ℝ)

/-- `fixup::Initialize`, fixup.cpp:48-280. -/
noncomputable def init (big rmin smin : ℝ) (fmks : Bool) (p : Input) : Option Config := do
  let ph ← phiSpec fmks p
  let f := flags p
  let fl ← floorSpec big rmin smin p f.floors
  let ce ← ceilSpec big p f.ceilings
  let rf ← radFloorSpec big p f.radFloors
  let rc ← radCeilSpec big p f.radCeilings
  let mc ← mhdCeilSpec big p f.mhdFloors
  let s1 ← strategy p "fluid_c2p_failure_strategy"
  let s2 ← strategy p "rad_c2p_failure_strategy"
  let s3 ← strategy p "src_failure_strategy"
  some ⟨f, fl, ce, rf, rc, mc, s1, s2, s3, ph⟩

/-! ## EOS limits -/

/-- limits stored by the EOS package.
(eos_phoebus.cpp:172-179.) -/
structure EosLimits where
  rhoMin : ℝ
  rhoMax : ℝ
  sieMin : ℝ
  sieMax : ℝ
  TMin : ℝ
  TMax : ℝ
  yeMin : ℝ
  yeMax : ℝ

/-- a tabulated EOS's own limits, in CGS.
(eos_phoebus.cpp:149-156.) -/
structure Table where
  rhoMin : ℝ
  rhoMax : ℝ
  sieMin : ℝ
  sieMax : ℝ
  TMin : ℝ
  TMax : ℝ
  yeMin : ℝ
  yeMax : ℝ

/-- ideal gas branch, eos_phoebus.cpp:73-95.  `temp rho sie` is the EOS object's temperature in code units. -/
noncomputable def idealLimits (temp : ℝ → ℝ → ℝ) (p : Input) : EosLimits :=
  let rmin := p.r "eos" "rho_min" 0
  let smin := p.r "eos" "sie_min" 0
  let rmax := p.r "eos" "rho_max" (10 ^ 18)
  let smax := p.r "eos" "sie_max" (10 ^ 35)
  ⟨rmin, rmax, smin, smax, temp rmin smin, temp rmax smax, 1 / 100, 1⟩

/-- tabulated branch, eos_phoebus.cpp:140-156: `u` the code units in CGS; `c` the speed of light
in CGS. -/
noncomputable def tableLimits (c : ℝ) (u : Units.Units ℝ) (t : Table) : EosLimits :=
  let rhoU := u.mass / u.length ^ 3
  let sieU := c ^ 2
  ⟨t.rhoMin / rhoU, t.rhoMax / rhoU, t.sieMin / sieU, t.sieMax / sieU, t.TMin / u.temperature, t.TMax / u.temperature, t.yeMin, t.yeMax⟩

/-- which EOS is built, eos_phoebus.cpp:59-179; `hdf` is `SPINER_USE_HDF`.  `none` is an abort. The Boolean is `needs_ye`. -/
noncomputable def eosInit (hdf : Bool) (temp : ℝ → ℝ → ℝ → ℝ → ℝ) (c : ℝ) (u : Units.Units ℝ) (t : Table) (p : Input) : Option (EosLimits × Bool) :=
  match p.str "eos" "type" with
  | none => none
  | some ty =>
    if ty = "IdealGas" then
      match p.real "eos" "Gamma", p.real "eos" "Cv" with
      | some g, some cv => some (idealLimits (temp (g - 1) cv) p, false)
      | _, _ => none
    else if hdf ∧ ty = "StellarCollapse" then
      if (p.str "eos" "filename").isSome ∧ p.b "fluid" "Ye" false = true then some (tableLimits c u t, true) else none
    else none

end Phoebus.Limits
