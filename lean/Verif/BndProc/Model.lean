import Verif.Limits.Model
import Verif.FixFlux.Model
import Verif.Boundary.Model

/-!
# Model of the selection of boundary conditions and of `ConvertBoundaryConditions`

`ProcessBoundaryConditions` and `ConvertBoundaryConditions` (`phoebus_boundaries.cpp`), the readers of the boundary names in
`fluid::Initialize` (`fluid.cpp:177-189`) and in the MOCMC part of `radiation::Initialize` (`radiation.cpp:168-196`).

Parthenon's contract: the condition of a face is the value of the key in `<parthenon/mesh>`; a name registered for the face selects the
registered function, other names are Parthenon's own (`periodic`) or an error.
-/
namespace Phoebus.BndProc
open Limits (Input)
open Boundary (Face)

/-- name of the key of a face, phoebus_boundaries.cpp:494-495. -/
def key : Face → String
  | (0, false) => "ix1_bc" | (0, true) => "ox1_bc"
  | (1, false) => "ix2_bc" | (1, true) => "ox2_bc"
  | (2, false) => "ix3_bc" | (2, true) => "ox3_bc"

/-- the ghost filling functions of the package.
(The names registered in phoebus_boundaries.cpp:450-543.) -/
inductive Fill where
  | outflow (f : Face) | reflect (f : Face) | polar (f : Face)
deriving DecidableEq

/-- registered functions, phoebus_boundaries.cpp:457-468 and 499-506: the function registered for a face under a name. -/
def registered (f : Face) (name : String) : Option Fill :=
  if name = "reflect" then some (.reflect f)
  else if name = "polar" then (if f.1 = 1 then some (.polar f) else none)
  else if name = "gr_outflow" then some (.outflow f)
  else none

/-- the condition Parthenon applies to the ghosts of a face.
(Data type or helper of the model of the boundary tasks of phoebus_driver.cpp:640-740 and phoebus_boundaries.cpp:303-448.) -/
def meshBC (p : Input) (f : Face) : Option String := p.str "parthenon/mesh" (key f)

/-- the value every later reader of `phoebus/<key>` sees: phoebus_boundaries.cpp:498 has added the default. -/
def phoebusBC (p : Input) (f : Face) : String := p.s "phoebus" (key f) "gr_outflow"

/-- does `ProcessBoundaryConditions` return?  phoebus_boundaries.cpp:474-487 (pole check, black-hole grid only) and line 496. -/
def accepts (fmks : Bool) (p : Input) : Bool :=
  (if fmks && p.b "coordinates" "derefine_poles" true then
    let i := phoebusBC p (1, false)
    let o := phoebusBC p (1, true)
    decide (i ≠ "reflect") && decide (i ≠ "polar") && decide (o ≠ "reflect") && decide (o ≠ "polar")
  else true) &&
  [((0 : Fin 3), false), (0, true), (1, false), (1, true), (2, false), (2, true)].all fun f => (meshBC p f).isSome

/-- condition used by the flux fix: parameters `ix1_bc`... of the fluid package, fluid.cpp:178-189, compared at fixup.cpp:761 ff. -/
def fluxBC (p : Input) (f : Face) : FixFlux.BC :=
  let s := phoebusBC p f
  if s = "gr_outflow" then .outflow else if s = "reflect" then .reflect else if s = "polar" ∧ f.1 = 1 then .polar else .other

/-- the flux treatment that belongs to a ghost condition.
(Specification: not code.) -/
def matching (name : String) (f : Face) : FixFlux.BC :=
  if name = "gr_outflow" then .outflow else if name = "reflect" then .reflect else if name = "polar" ∧ f.1 = 1 then .polar else .other

/-- sample boundaries of MOCMC, radiation.cpp:169-190. -/
inductive SampleBC where | outflow | fixedTemp | periodic
deriving DecidableEq

/-- radiation.cpp:169-190 (both X1 faces). -/
def sampleBC (p : Input) (outer : Bool) : SampleBC :=
  let s := phoebusBC p (0, outer)
  if s = "outflow" then .outflow else if s = "fixed_temp" then .fixedTemp else .periodic

/-! ## `ConvertBoundaryConditions` -/

variable {I P C R F : Type}

/-- one zone: fluid primitives and conserved, radiation primitives and conserved.
(Data type or helper of the model of the boundary tasks of phoebus_driver.cpp:640-740 and phoebus_boundaries.cpp:303-448.) -/
structure Zone (P C R F : Type) where
  prim : P
  cons : C
  rprim : R
  rcons : F

/-- the point-wise maps: inversions, evaluations and inflow checks (modelled in `Boundary`, `C2P`, `Moments`).
(Data type or helper of the model of the boundary tasks of phoebus_driver.cpp:640-740 and phoebus_boundaries.cpp:303-448.) -/
structure Maps (I P C R F : Type) where
  p2c : I → P → C
  c2p : I → C → P
  chk : I → P → P
  rchk : I → R → R
  rp2c : I → P → R → F
  rc2p : I → P → F → R

/-- block and run data: `phys n` is `boundary_flag[n] != block`; `ghost n` the index domain of side `n` (sides in the order
inner x1, outer x1, inner x2, ...).
(Data type or helper of the model of the boundary tasks of phoebus_driver.cpp:640-740 and phoebus_boundaries.cpp:303-448.) -/
structure Setup (I : Type) where
  ndim : ℕ
  phys : ℕ → Bool
  ghost : ℕ → I → Bool
  fmks : Bool
  check : Bool
  primBC : Bool
  fluid : Bool
  moments : Bool

/-- apply a zone update on a region.
(Data type or helper of the model of the boundary tasks of phoebus_driver.cpp:640-740 and phoebus_boundaries.cpp:303-448.) -/
def onRegion (g : I → Bool) (f : I → Zone P C R F → Zone P C R F) (s : I → Zone P C R F) : I → Zone P C R F :=
  fun c => if g c then f c (s c) else s c

/-- phoebus_boundaries.cpp:325-417, side 1 (outer x1).  `none`: `c2p_func` is only set when the fluid is active (fluid.cpp:68-75), and
line 336 throws otherwise. -/
def inflow (m : Maps I P C R F) (u : Setup I) (s : I → Zone P C R F) : Option (I → Zone P C R F) :=
  if u.fmks && u.check && u.phys 1 then
    if !u.primBC && !u.fluid then none
    else
      let s1 := if u.primBC then s else onRegion (u.ghost 1) (fun c z => { z with prim := m.c2p c z.cons }) s
      let s2 := onRegion (u.ghost 1) (fun c z => { z with prim := m.chk c z.prim, rprim := m.rchk c z.rprim }) s1
      some (onRegion (u.ghost 1) (fun c z => { z with cons := m.p2c c z.prim }) s2)
  else some s

/-- the loops over sides, phoebus_boundaries.cpp:419-448. -/
def overSides (u : Setup I) (f : I → Zone P C R F → Zone P C R F) (s : I → Zone P C R F) : I → Zone P C R F :=
  (List.range (2 * u.ndim)).foldl (fun s n => if u.phys n then onRegion (u.ghost n) f s else s) s

/-- `ConvertBoundaryConditions`, phoebus_boundaries.cpp:303-451. -/
def convert (m : Maps I P C R F) (u : Setup I) (s : I → Zone P C R F) : Option (I → Zone P C R F) :=
  (inflow m u s).map fun s1 =>
    let s2 := if u.fluid && u.primBC then overSides u (fun c z => { z with cons := m.p2c c z.prim }) s1 else s1
    if u.moments && u.primBC then overSides u (fun c z => { z with rcons := m.rp2c c z.prim z.rprim }) s2 else s2

/-- `FillDerived` after it, phoebus_driver.cpp:667-668: the fluid inversion on the whole block, then (post-fill) the moments. -/
def fillDerived (m : Maps I P C R F) (u : Setup I) (s : I → Zone P C R F) : I → Zone P C R F :=
  let s1 := if u.fluid then fun c => { s c with prim := m.c2p c (s c).cons } else s
  if u.moments then fun c => { s1 c with rprim := m.rc2p c (s1 c).prim (s1 c).rcons } else s1

end Phoebus.BndProc
