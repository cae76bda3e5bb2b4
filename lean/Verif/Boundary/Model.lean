import Verif.C2P.Bounds

/-!
# Model of `phoebus_boundaries.cpp`

A block variable is a map from cell indices (component 0 is X1) to reals; a kernel visits the ghost cells of one side in the
order of a list.
-/
namespace Phoebus.Boundary
open Finset Geom Robust Rel

/-- Cell index, component `d` along direction `d + 1`.
(Index and data types used by the model of phoebus_boundaries.cpp:43-107.) -/
abbrev Idx := Fin 3 → ℤ

/-- phoebus_boundaries.cpp:42. -/
inductive BCType | outflow | reflect
deriving DecidableEq

/-- One side of a block: direction, inner or outer, interior range and ghost width in that direction.
(Index and data types used by the model of phoebus_boundaries.cpp:43-107.) -/
structure Side where
  dir : Fin 3
  inner : Bool
  s : ℤ
  e : ℤ
  ng : ℤ

/-- `ref`, phoebus_boundaries.cpp:60. -/
def Side.ref (S : Side) : ℤ := if S.inner then S.s else S.e

/-- `offset`, phoebus_boundaries.cpp:80. -/
def Side.offset (S : Side) : ℤ := 2 * S.ref + (if S.inner then -1 else 1)

/-- The index domain of the side (`inner_x1` ...), phoebus_boundaries.cpp:73-77. -/
def Side.ghost (S : Side) (c : Idx) : Prop :=
  if S.inner then S.s - S.ng ≤ c S.dir ∧ c S.dir < S.s else S.e < c S.dir ∧ c S.dir ≤ S.e + S.ng

instance (S : Side) (c : Idx) : Decidable (S.ghost c) := by unfold Side.ghost; infer_instance

/-- Source cell, phoebus_boundaries.cpp:94-104. -/
def source (S : Side) : BCType → Idx → Idx
  | .reflect, c => Function.update c S.dir (S.offset - c S.dir)
  | .outflow, c => Function.update c S.dir S.ref

/-- `sgn`, phoebus_boundaries.cpp:98, 103: `vec` is `q.VectorComponent(l)` (direction of the component, none for scalars). -/
def sign (S : Side) (T : BCType) (vec : Option (Fin 3)) : ℝ :=
  match T with
  | .reflect => if vec = some S.dir then -1 else 1
  | .outflow => 1

/-- Value written to a ghost cell, phoebus_boundaries.cpp:106-115 (`OutflowInnerX1`, `OutflowOuterX1` at 118-151, 222-261 have
the same effect).  `conserved` is `bc_vars == "conserved"`. -/
noncomputable def ghostValue (small : ℝ) (conserved : Bool) (S : Side) (T : BCType) (vec : Option (Fin 3)) (detg : Idx → ℝ)
    (q : Idx → ℝ) (c : Idx) : ℝ :=
  if conserved then sign S T vec * ratio small (detg c) (detg (source S T c)) * q (source S T c)
  else sign S T vec * q (source S T c)

/-- The kernel for one variable, visiting the cells of `order` (the loop covers ghost cells only).
(phoebus_boundaries.cpp:84-107.) -/
noncomputable def fillSeq (small : ℝ) (conserved : Bool) (S : Side) (T : BCType) (vec : Option (Fin 3)) (detg : Idx → ℝ)
    (order : List Idx) (q : Idx → ℝ) : Idx → ℝ :=
  order.foldl (fun q c => if S.ghost c then Function.update q c (ghostValue small conserved S T vec detg q c) else q) q

/-- All ghost cells of the side filled from the values before.
(Index and data types used by the model of phoebus_boundaries.cpp:43-107.) -/
noncomputable def fill (small : ℝ) (conserved : Bool) (S : Side) (T : BCType) (vec : Option (Fin 3)) (detg : Idx → ℝ)
    (q : Idx → ℝ) : Idx → ℝ :=
  fun c => if S.ghost c then ghostValue small conserved S T vec detg q c else q c

/-- Variables filled at a pole: velocity, field and flux components, and scalars.
(Index and data types used by the model of phoebus_boundaries.cpp:43-107.) -/
inductive PVar | vel (d : Fin 3) | bfield (d : Fin 3) | radH (d : Fin 3) | scalar
deriving DecidableEq

/-- `PolarInnerX2`, `PolarOuterX2`, phoebus_boundaries.cpp:153-220: value of a ghost cell `(k, j, i)` with `j0` the first
(last) interior index. -/
def polarValue (inner : Bool) (j0 : ℤ) (l : PVar) (q : ℤ → ℝ) (j : ℤ) : ℝ :=
  let jref := if inner then -j + 2 * j0 - 1 else -j + 2 * (j0 + 1) - 1
  if l = .vel 1 then -q jref else if l = .bfield 1 then -q jref else q jref

/-! ### Inflow check, phoebus_boundaries.cpp:322-417 -/

/-- `u^1` of the fluid as computed by the code, phoebus_boundaries.cpp:373. -/
noncomputable def ucon1 (G : ADM ℝ) (v : Fin 3 → ℝ) : ℝ := v 0 - lorentz G.gam v * G.beta 0 / G.alpha

/-- Square of the trial three-velocity, phoebus_boundaries.cpp:376-379. -/
noncomputable def trialVel (G : ADM ℝ) (v : Fin 3 → ℝ) : Fin 3 → ℝ :=
  Function.update (fun i => v i / lorentz G.gam v) 0 (G.beta 0 / G.alpha)

/-- Velocity after the check, phoebus_boundaries.cpp:363-383; `none` is the non-finite result of `1/sqrt(1-vsq)`. -/
noncomputable def inflowCheck (G : ADM ℝ) (v : Fin 3 → ℝ) : Option (Fin 3 → ℝ) :=
  if ucon1 G v < 0 then
    let w := trialVel G v
    let vsq := ∑ i, ∑ j, G.gam i j * w i * w j
    if vsq < 1 then some fun i => 1 / Real.sqrt (1 - vsq) * w i else none
  else some v

/-- Raised flux, phoebus_boundaries.cpp:391-393. -/
noncomputable def raise (G : ADM ℝ) (H : Fin 3 → ℝ) : Fin 3 → ℝ := fun i => ∑ j, G.gamInv i j * H j

/-- Flux after the check, phoebus_boundaries.cpp:390-411. -/
noncomputable def radInflowCheck (G : ADM ℝ) (H : Fin 3 → ℝ) : Fin 3 → ℝ :=
  let Hcon := raise G H
  if Hcon 0 < 0 then
    let h0 : Fin 3 → ℝ := Function.update Hcon 0 0
    let xi := Real.sqrt (∑ i, ∑ j, G.gam i j * h0 i * h0 j)
    let h : Fin 3 → ℝ := if xi > 0.99 then fun i => h0 i * (0.99 / xi) else h0
    fun i => ∑ j, G.gam i j * h j
  else H

/-! ### Swarm boundary functions, phoebus_boundaries.cpp:507-540 -/

/-- Face `(direction, outer?)` on which a particle outflow function acts.
(Index and data types used by the model of phoebus_boundaries.cpp:43-107.) -/
abbrev Face := Fin 3 × Bool

/-- Registered `swarm_outflow` function of a face (`none`: not registered).
(phoebus_boundaries.cpp:486-543.) -/
def swarmOutflow : Face → Option Face
  | (0, false) => some (0, false)
  | (0, true) => some (0, true)
  | (1, false) => some (0, false)
  | (1, true) => some (1, true)
  | (2, _) => none

/-- Parthenon's `SwarmOutflow*`: removes active particles beyond the face it was written for.
(Contract of Parthenon, not code of the repository.) -/
noncomputable def swarmApply (lo hi : Fin 3 → ℝ) (f : Face) (x : Fin 3 → ℝ) : Bool :=
  if f.2 then decide (x f.1 ≤ hi f.1) else decide (lo f.1 ≤ x f.1)

end Phoebus.Boundary
