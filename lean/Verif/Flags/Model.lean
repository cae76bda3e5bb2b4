import Verif.Repair.Props

/-!
# Model of the inversion status flags (C54)
-/
namespace Phoebus.Flags
open Repair Geom Rel Floors

/-- `ConToPrimStatus`, con2prim.hpp:33, con2prim_robust.hpp:40. -/
inductive Status | success | failure
deriving DecidableEq

/-- Which inverter is configured (`c2p_func`, fluid.cpp).
(fluid.cpp:66-74.) -/
inductive Inverter | robust | classic
deriving DecidableEq

/-- `con2prim_robust::FailFlags` (con2prim_robust.hpp:41-44) and `con2prim::FailFlags` (con2prim.hpp:34-37). -/
noncomputable def flagOf : Inverter → Status → ℝ
  | .robust, .success => 1
  | .robust, .failure => 0
  | .classic, .success => 0
  | .classic, .failure => 1

/-- The flag array written by `ConservedToPrimitiveRobust` (fluid.cpp:506-514) or `ConservedToPrimitiveClassic`
(fluid.cpp:548-555). -/
noncomputable def writeFlags (inv : Inverter) (status : Idx → Status) : Idx → ℝ := fun c => flagOf inv (status c)

/-- The test made by the repair, fixup_c2p.cpp:217: equality with `con2prim_robust::FailFlags::fail` whatever the inverter. -/
def needsRepair (flag : Idx → ℝ) (c : Idx) : Prop := flag c = 0

end Phoebus.Flags
