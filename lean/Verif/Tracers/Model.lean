import Verif.Common
import Verif.Rel.Model

/-!
# Model of `/repo/src/tracers/tracers.{hpp,cpp}`

The fields are functions of a position: `geom x` is the 3+1 geometry there and `vel b x` what `LCInterp::Do(b, x, …)` returns
for the stored velocity `W v^i` of block `b` of the pack.
-/
namespace Phoebus.Tracers
open Geom Rel

/-- `tracers_rhs`, tracers.hpp:49-77; `block` is the first argument of `LCInterp::Do`. -/
noncomputable def rhs (geom : (Fin 3 → ℝ) → ADM ℝ) (vel : ℕ → (Fin 3 → ℝ) → Fin 3 → ℝ) (ndim block : ℕ) (x : Fin 3 → ℝ) : Fin 3 → ℝ :=
  let G := geom x
  let Wv := vel block x
  let W := lorentz G.gam Wv
  fun i => if i = 2 ∧ ¬ ndim > 2 then 0 else G.alpha * (Wv i / W) - G.beta i

/-- a tracer: the block holding it, whether it is active, and its position.
(Data type: the swarm fields of tracers.cpp.) -/
structure Tracer where
  block : ℕ
  active : Bool
  x : Fin 3 → ℝ

/-- the body of the loop of `AdvectTracers`, tracers.cpp:115-144.  The velocity is always read from block 0
(tracers.hpp:62-64). -/
noncomputable def advect (geom : (Fin 3 → ℝ) → ADM ℝ) (vel : ℕ → (Fin 3 → ℝ) → Fin 3 → ℝ) (ndim : ℕ) (dt : ℝ) (t : Tracer) : Tracer :=
  if t.active = true then
    let r1 := rhs geom vel ndim 0 t.x
    let k : Fin 3 → ℝ := fun i => t.x i + 0.5 * dt * r1 i
    let r2 := rhs geom vel ndim 0 k
    { t with x := fun i => t.x i + r2 i * dt }
  else t

/-- `AdvectTracers`: every particle of the pack.
(tracers.cpp:115-144.) -/
noncomputable def advectAll (geom : (Fin 3 → ℝ) → ADM ℝ) (vel : ℕ → (Fin 3 → ℝ) → Fin 3 → ℝ) (ndim : ℕ) (dt : ℝ) (ts : List Tracer) :
    List Tracer := ts.map (advect geom vel ndim dt)

/-- `bernoulli` of `FillTracers`, tracers.cpp:254-255. -/
noncomputable def bernoulli (G : ADM ℝ) (Wv : Fin 3 → ℝ) (rho energy pressure : ℝ) : ℝ :=
  let h := 1.0 + energy + pressure / rho;
  -(lorentz G.gam Wv / G.alpha) * h - (1.0 : ℝ)

/-- the variables packed by `FillTracers`, tracers.cpp:180-185. -/
def packed (mhd : Bool) : List String :=
  ["p.density", "p.temperature", "p.velocity", "p.energy", "pressure"] ++ (if mhd then ["p.bfield"] else [])

/-- the electron fraction stored by `FillTracers`, tracers.cpp:196, 242-249: the interpolated value if the variable is in the
pack, zero otherwise (the index of an absent variable is negative). -/
def storedYe (mhd : Bool) (ye : ℝ) : ℝ := if "p.ye" ∈ packed mhd then ye else 0

end Phoebus.Tracers
