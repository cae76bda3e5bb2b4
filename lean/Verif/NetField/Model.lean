import Verif.FluxCT.Props
import Verif.Robust.Props

/-!
# Model of the net-field controller, `fixup_netfield.cpp`, and of the tuning region of the driver

Generic ordered field; `sqrtMdot` is the value of `std::sqrt(Mdot)`.
-/
namespace Phoebus.NetField
open Robust FluxCT
variable {K : Type} [Field K] [LinearOrder K] [IsStrictOrderedRing K]

/-- Mutable parameters of the controller, fixup.cpp:97-99. -/
structure Ctl (K : Type) where
  dphi : K
  phiFactor : K
  next : K

/-- Fixed parameters, fixup.cpp:80-94. -/
structure Cfg (K : Type) where
  enabled : Bool
  target : K
  timescale : K
  cadence : K
  start : K

/-- Initial controller, fixup.cpp:97-99. -/
def initCtl (cfg : Cfg K) : Ctl K := ⟨0, 0, cfg.start⟩

/-- Desired rate, fixup_netfield.cpp:131-132. -/
def fiducialRate (cfg : Cfg K) (phi sqrtMdot : K) : K := (cfg.target - phi / sqrtMdot) / cfg.timescale

/-- The new rate, fixup_netfield.cpp:133-141.  `clamp v lo hi` is `std::clamp`. -/
def newRate (clamp : K → K → K → K) (dphi fid : K) : K :=
  let change := fid - dphi
  let ref := (sgn change : K) * |dphi|
  if dphi ≠ 0 then dphi + clamp change (3 / 4 * ref) (4 / 3 * ref) else dphi + change

/-- `UpdateNetFieldScaleControls`, fixup_netfield.cpp:109-153.  `phi0`, `phi1` are the measured fluxes without and with the
trial field. -/
def update (clamp : K → K → K → K) (cfg : Cfg K) (stage : ℕ) (t phi0 phi1 sqrtMdot : K) (c : Ctl K) : Ctl K :=
  if stage ≠ 1 then c
  else if cfg.enabled then
    if t ≥ c.next then
      ⟨newRate clamp c.dphi (fiducialRate cfg phi0 sqrtMdot), phi1 - phi0, c.next + cfg.cadence⟩
    else c
  else c

/-- The amplitude added by `ModifyNetField`, fixup_netfield.cpp:155-203: `none` when it returns without touching the field. -/
def amplitude (cfg : Cfg K) (stage : ℕ) (fiducial : Bool) (factor t dt : K) (c : Ctl K) : Option K :=
  if stage ≠ 1 ∧ fiducial = true then none
  else if cfg.enabled then
    if fiducial = true ∧ ¬ (t ≥ c.next) then none
    else some (if fiducial then factor else c.phiFactor * c.dphi * dt)
  else none

/-- The unit field added, fixup_netfield.cpp:236-243: `B^1`, `B^2` from the corner potential `A`, `B^3` untouched. -/
def dB (dx1 dx2 : K) (A : ℤ → ℤ → K) (gdet : ℤ → ℤ → ℤ → K) : Fin 3 → ℤ → ℤ → ℤ → K
  | 0 => fun k j i => 0 - (A j i - A (j+1) i + A j (i+1) - A (j+1) (i+1)) / (2 * dx2 * gdet k j i)
  | 1 => fun k j i => (A j i + A (j+1) i - A j (i+1) - A (j+1) (i+1)) / (2 * dx1 * gdet k j i)
  | 2 => fun _ _ _ => 0

/-- New primitive field, fixup_netfield.cpp:236-243. -/
def modPrim (amp dx1 dx2 : K) (A : ℤ → ℤ → K) (gdet : ℤ → ℤ → ℤ → K) (B : Fin 3 → ℤ → ℤ → ℤ → K) :
    Fin 3 → ℤ → ℤ → ℤ → K := fun c k j i => B c k j i + amp * dB dx1 dx2 A gdet c k j i

/-- New conserved field, fixup_netfield.cpp:245-247. -/
def modCons (gdet : ℤ → ℤ → ℤ → K) (B : Fin 3 → ℤ → ℤ → ℤ → K) : Fin 3 → ℤ → ℤ → ℤ → K :=
  fun c k j i => B c k j i * gdet k j i

/-! ### The tuning region, phoebus_driver.cpp:413-463: per partition add the trial field, remove it, update the controls -/

/-- Tasks of partition `p`: `ModifyNetField(+1)`, `ModifyNetField(-1)`, `UpdateNetFieldScaleControls`.
(Tasks added in phoebus_driver.cpp:415-465.) -/
inductive Ev where
  | plus (p : ℕ)
  | minus (p : ℕ)
  | scale (p : ℕ)
deriving DecidableEq

/-- Controller (shared by all partitions) and field amplitude of each partition, in units of the trial field.
(Data type or helper of the model of fixup_netfield.cpp.) -/
structure St (K : Type) where
  ctl : Ctl K
  amp : ℕ → K

/-- Effect of one task (stage 1).
(Data type or helper of the model of fixup_netfield.cpp.) -/
def exec (clamp : K → K → K → K) (cfg : Cfg K) (t dt phi0 phi1 sqrtMdot : K) (s : St K) : Ev → St K
  | .plus p => match amplitude cfg 1 true 1 t dt s.ctl with
    | some a => { s with amp := Function.update s.amp p (s.amp p + a) }
    | none => s
  | .minus p => match amplitude cfg 1 true (-1) t dt s.ctl with
    | some a => { s with amp := Function.update s.amp p (s.amp p + a) }
    | none => s
  | .scale _ => { s with ctl := update clamp cfg 1 t phi0 phi1 sqrtMdot s.ctl }

/-- A schedule of the tasks.
(Data type or helper of the model of fixup_netfield.cpp.) -/
def run (clamp : K → K → K → K) (cfg : Cfg K) (t dt phi0 phi1 sqrtMdot : K) (s : St K) (evs : List Ev) : St K :=
  evs.foldl (exec clamp cfg t dt phi0 phi1 sqrtMdot) s

end Phoebus.NetField
