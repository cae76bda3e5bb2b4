import Verif.Torus.State
import Verif.Metrics.Flat

/-!
# Model: carrying a flat-space state into a curvilinear chart

`/repo/src/pgen/linear_modes.cpp` and `/repo/src/pgen/rotor.cpp` set up a state in inertial Cartesian coordinates and
store it in whichever chart of Minkowski space the executable was built with.
-/
namespace Phoebus.Pgen
open Geom Finset Real

/-- the inertial four-velocity of a stored velocity, `Real ucon[NDFULL] = {Gamma, ...}` with
`Gamma = sqrt(1 + vsq)`, linear_modes.cpp:250-252, 261-263. -/
noncomputable def flatU (v : Fin 3 → ℝ) : Fin 4 → ℝ := Fin.cons (√(1 + (v 0 * v 0 + v 1 * v 1 + v 2 * v 2))) v

/-- the inertial magnetic four-vector, linear_modes.cpp:264-271 and rotor.cpp:123-126 (`u` is the inertial
four-velocity, `u 0` is `Gamma`). -/
noncomputable def flatB (u : Fin 4 → ℝ) (B : Fin 3 → ℝ) : Fin 4 → ℝ :=
  let W := u 0
  let Bdotv := B 0 * u 1 / W + B 1 * u 2 / W + B 2 * u 3 / W
  let b0 := W * Bdotv
  Fin.cons b0 fun d => (B d + b0 * u d.succ) / W

/-- Jacobian of the snake chart, linear_modes.cpp:273-277 and rotor.cpp:134-138; `x` is the first coordinate. -/
noncomputable def jSnake (a k al vy x : ℝ) : Fin 4 → Fin 4 → ℝ :=
  ![![1 / al, 0, 0, 0], ![0, 1, 0, 0], ![-vy / al, a * k * cos (k * x), 1, 0], ![0, 0, 0, 1]]

/-- Jacobian of the boosted chart, linear_modes.cpp:278-282. -/
def jBoost (vx vy vz : ℝ) : Fin 4 → Fin 4 → ℝ :=
  ![![1, 0, 0, 0], ![-vx, 1, 0, 0], ![-vy, 0, 1, 0], ![-vz, 0, 0, 1]]

/-- Jacobian used for the inchworm chart, linear_modes.cpp:283-285.  `x` has by then been overwritten with the inertial
abscissa (linear_modes.cpp:205-207). -/
noncomputable def jInch (a k x : ℝ) : Fin 4 → Fin 4 → ℝ :=
  ![![1, 0, 0, 0], ![0, 1 + a * k * cos (k * x), 0, 0], ![0, 0, 1, 0], ![0, 0, 0, 1]]

/-- `SPACETIMELOOP(mu) SPACETIMELOOP(nu) ucon_transformed[mu] += J[mu][nu] * ucon[nu]`, linear_modes.cpp:287-294. -/
def push (J : Fin 4 → Fin 4 → ℝ) (w : Fin 4 → ℝ) : Fin 4 → ℝ := fun μ => ∑ ν, J μ ν * w ν

/-- the stored velocity, linear_modes.cpp:296-299 and rotor.cpp:152-155. -/
noncomputable def storeV (alpha : ℝ) (shift : Fin 3 → ℝ) (u : Fin 4 → ℝ) : Fin 3 → ℝ := fun d =>
  let W := alpha * u 0
  u d.succ + W * shift d / alpha

/-- the stored magnetic field, linear_modes.cpp:300-303 and rotor.cpp:156-160. -/
def storeB (alpha : ℝ) (u b : Fin 4 → ℝ) : Fin 3 → ℝ := fun d =>
  let W := alpha * u 0
  b d.succ * W - alpha * b 0 * u d.succ

/-- The primitives written by linear_modes.cpp:250-304 for a flat state `q`, in a chart with Jacobian `J`, lapse `alpha`
and shift `shift`; thermodynamic variables are copied. -/
noncomputable def chartPrim (J : Fin 4 → Fin 4 → ℝ) (alpha : ℝ) (shift : Fin 3 → ℝ) (q : Rel.Prim) : Rel.Prim :=
  let u := push J (flatU q.v)
  let b := push J (flatB (flatU q.v) q.B)
  { q with v := storeV alpha shift u, B := storeB alpha u b }

end Phoebus.Pgen
