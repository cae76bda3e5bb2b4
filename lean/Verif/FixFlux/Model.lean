import Verif.FluxCT.Model
import Mathlib.Algebra.Order.BigOperators.Group.Finset
import Mathlib.Algebra.BigOperators.Field

/-!
# Model of `FixFluxes` (src/fixup/fixup.cpp:728-1078) and of the flux-form update of a whole domain

`Flux d v k j i` is `v.flux(d+1, v, k, j, i)`, the flux at the lower face of cell `(k,j,i)` in direction `d + 1`.
Line numbers are those of fixup.cpp.
-/
namespace Phoebus.FixFlux
open FluxCT
variable {K : Type} [Field K] [LinearOrder K]

/-- The conserved variables whose fluxes `FixFluxes` can touch.
(The variables packed at fixup.cpp:849-856.) -/
inductive Var where
  | rho | eng | mom (c : Fin 3) | B (c : Fin 3) | E (s : ℕ) | F (s : ℕ) (c : Fin 3) | other (n : ℕ)
deriving DecidableEq

/-- Value of the `ix?_bc`/`ox?_bc` parameter.
(The strings compared at fixup.cpp:761-1052.) -/
inductive BC where
  | outflow | reflect | polar | other
deriving DecidableEq

/-- Data type: a face flux of every variable and direction. -/
abbrev Flux (K : Type) := Fin 3 → Var → Arr K

/-- Block data read by `FixFluxes`: is the face a user boundary, which condition, radiation flags.
(fixup.cpp:736-748.) -/
structure Cfg where
  enable : Bool
  ndim : ℕ
  user : Fin 3 → Bool → Bool
  bc : Fin 3 → Bool → BC
  nsp : ℕ
  momentsActive : Bool
  hasE : Bool

/-- A `par_for` over a set of faces of direction `d`.
(Helper: a `par_for` of fixup.cpp:767-1073.) -/
def setFace (d : Fin 3) (on : ℤ → ℤ → ℤ → Bool) (f : Var → K → K) (F : Flux K) : Flux K := fun d' v k j i =>
  if d' = d ∧ on k j i = true then f v (F d' v k j i) else F d' v k j i

/-- The loop range of direction `d`, inner (`false`) or outer (`true`) face: e.g. fixup.cpp:768-769 and 804-805. -/
def onFace (b : Block) (d : Fin 3) (outer : Bool) (k j i : ℤ) : Bool :=
  match d with
  | 0 => decide ((b.ks ≤ k ∧ k ≤ b.ke) ∧ (b.js ≤ j ∧ j ≤ b.je) ∧ i = if outer then b.ie + 1 else b.is)
  | 1 => decide ((b.ks ≤ k ∧ k ≤ b.ke) ∧ (j = if outer then b.je + 1 else b.js) ∧ (b.is ≤ i ∧ i ≤ b.ie))
  | 2 => decide ((k = if outer then b.ke + 1 else b.ks) ∧ (b.js ≤ j ∧ j ≤ b.je) ∧ (b.is ≤ i ∧ i ≤ b.ie))

/-- gr_outflow: `min(flux, 0)` at inner faces, `max(flux, 0)` at outer faces (fixup.cpp:770, 806, 845, 928, 1014, 1050). -/
def outflowFix (outer : Bool) (v : Var) (x : K) : K :=
  match v with
  | .rho => if outer then max x 0 else min x 0
  | _ => x

/-- reflect in X1 and X3, fixup.cpp:786-792, 822-828, 1030-1036 and 1066-1072. -/
def reflect13 (c : Cfg) (v : Var) (x : K) : K :=
  match v with
  | .rho => 0
  | .eng => 0
  | .E s => if c.hasE && decide (s < c.nsp) then 0 else x
  | _ => x

/-- reflect in X2, fixup.cpp:902-913 (inner, guarded by `moments_active`) and 985-996 (outer, by `idx_E.IsValid()`). -/
def reflect2 (c : Cfg) (outer : Bool) (v : Var) (x : K) : K :=
  let rad := if outer then c.hasE else c.momentsActive
  match v with
  | .rho => 0
  | .eng => 0
  | .mom 0 => 0
  | .mom 2 => 0
  | .E s => if rad && decide (s < c.nsp) then 0 else x
  | .F s 0 => if rad && decide (s < c.nsp) then 0 else x
  | .F s 2 => if rad && decide (s < c.nsp) then 0 else x
  | _ => x

/-- polar, X2 fluxes, fixup.cpp:866-871, 877-883 and 949-954, 960-966. -/
def polar2 (c : Cfg) (v : Var) (x : K) : K :=
  match v with
  | .rho => 0
  | .eng => 0
  | .mom _ => 0
  | .B _ => 0
  | .E s => if c.hasE && decide (s < c.nsp) then 0 else x
  | .F s 0 => if c.hasE && decide (s < c.nsp) then 0 else x
  | .F s 2 => if c.hasE && decide (s < c.nsp) then 0 else x
  | _ => x

/-- polar, the reflection of the second magnetic component's fluxes into the ghost row, fixup.cpp:872-875 and 955-958. -/
def polarGhost (b : Block) (ndim : ℕ) (outer : Bool) (F : Flux K) : Flux K := fun d v k j i =>
  if v = Var.B 1 ∧ (d = 0 ∨ (d = 2 ∧ ndim = 3)) ∧ (b.ks ≤ k ∧ k ≤ b.ke) ∧ (b.is ≤ i ∧ i ≤ b.ie)
      ∧ j = (if outer then b.je + 1 else b.js - 1) then
    -F d v k (if outer then j - 1 else j + 1) i
  else F d v k j i

/-- The treatment of one boundary face.
(fixup.cpp:760-794 and its five repetitions.) -/
def fixFace (c : Cfg) (b : Block) (d : Fin 3) (outer : Bool) (F : Flux K) : Flux K :=
  if c.user d outer then
    match c.bc d outer with
    | .outflow => setFace d (onFace b d outer) (outflowFix outer) F
    | .reflect =>
      if d = 1 then setFace d (onFace b d outer) (reflect2 c outer) F
      else setFace d (onFace b d outer) (reflect13 c) F
    | .polar =>
      if d = 1 then polarGhost b c.ndim outer (setFace d (onFace b d outer) (polar2 c) F) else F
    | .other => F
  else F

/-- `FixFluxes`, fixup.cpp:728-1078. -/
def fixFluxes (c : Cfg) (b : Block) (F : Flux K) : Flux K :=
  if !c.enable then F else
  let F1 := fixFace c b 0 true (fixFace c b 0 false F)
  if c.ndim = 1 then F1 else
  let F2 := fixFace c b 1 true (fixFace c b 1 false F1)
  if c.ndim = 2 then F2 else
  fixFace c b 2 true (fixFace c b 2 false F2)

/-! ### Flux-form update -/

/-- `dUdt` of one variable (parthenon `FluxDivergence`, called at phoebus_driver.cpp:561), uniform Cartesian 3D mesh. -/
def fluxDiv (dx : Fin 3 → K) (F : Flux K) (v : Var) : Arr K := fun k j i =>
  -((F 0 v k j (i+1) - F 0 v k j i) / dx 0 + (F 1 v k (j+1) i - F 1 v k j i) / dx 1
    + (F 2 v (k+1) j i - F 2 v k j i) / dx 2)

/-- The block with interior `nk x nj x ni` cells starting at `(ks,js,is)`.
(Helper of the model: block, totals, steps; no code of its own.) -/
def box (ks js is : ℤ) (nk nj ni : ℕ) : Block := ⟨ks, ks + nk - 1, js, js + nj - 1, is, is + ni - 1⟩

/-- Domain total of a cell array.
(Helper of the model: block, totals, steps; no code of its own.) -/
def total (ks js is : ℤ) (nk nj ni : ℕ) (U : Arr K) : K :=
  ∑ k ∈ Finset.range nk, ∑ j ∈ Finset.range nj, ∑ i ∈ Finset.range ni, U (ks + k) (js + j) (is + i)

/-- One Runge-Kutta stage of one variable, phoebus_driver.cpp:572-576. -/
def stage (beta dt : K) (base cur rhs : Arr K) : Arr K := fun k j i =>
  beta * cur k j i + (1 - beta) * base k j i + beta * dt * rhs k j i

/-- A step: list of `(beta, fluxes computed in that stage)`, fluxes fixed by `FixFluxes` before use.
(Helper of the model: block, totals, steps; no code of its own.) -/
def step (c : Cfg) (b : Block) (dx : Fin 3 → K) (v : Var) (dt : K) (st : List (K × Flux K)) (base : Arr K) : Arr K :=
  st.foldl (fun cur s => stage s.1 dt base cur (fluxDiv dx (fixFluxes c b s.2) v)) base

/-- A run.
(Helper of the model: block, totals, steps; no code of its own.) -/
def run (c : Cfg) (b : Block) (dx : Fin 3 → K) (v : Var) (steps : List (K × List (K × Flux K))) (U : Arr K) : Arr K :=
  steps.foldl (fun U s => step c b dx v s.1 s.2 U) U

end Phoebus.FixFlux
