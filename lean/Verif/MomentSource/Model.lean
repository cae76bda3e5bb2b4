import Verif.Common
import Verif.Closure.Model

/-!
# Model of `/repo/src/radiation/moments_source.cpp`

Four-component arrays are (energy, three momenta).  The EOS, the opacities and the conserved-to-primitive inversion are
parameters.  Floating point NaN tests are not modelled (the model is over the reals); the solver `zerod` is disabled in the code.
-/
namespace Phoebus.MomentSource
open Geom Robust LinAlg Finset Closure

/-- Data type: the guess array `P_mhd_guess[4]` of the `fourd` solver. -/
abbrev V4 := Fin 4 → ℝ

/-! ### the fluid-frame temperature equation -/

/-- a radiation species as seen by `InteractionTResidual`: its rest-frame energy density, absorption coefficient and thermal
energy density as functions of temperature.
(moments_source.cpp:152-175.) -/
structure Species where
  J0 : ℝ
  kappa : ℝ → ℝ
  JBB : ℝ → ℝ

/-- the updated rest-frame energy density in `InteractionTResidual`, moments_source.cpp:176-182. -/
noncomputable def jNew (dtau alphaMax T : ℝ) (s : Species) : ℝ :=
  let k := min (s.kappa T) alphaMax
  (s.J0 + dtau * k * s.JBB T) / (1 + dtau * k)

/-- `InteractionTResidual::operator()`, moments_source.cpp:167-188; `ug T` is `rho * InternalEnergyFromDensityTemperature`. -/
noncomputable def tResidual (ug : ℝ → ℝ) (ug0 dtau alphaMax : ℝ) (sp : List Species) (T : ℝ) : ℝ :=
  ((ug T - ug0) + (sp.map fun s => jNew dtau alphaMax T s - s.J0).sum) / (ug0 + (sp.map fun s => s.J0).sum)

/-! ### the four-dimensional residual -/

/-- `CalculateRadConserved`, moments_source.cpp:70-75. -/
def radConserved (Urad0 Umhd0 Umhd : V4) : V4 := fun n => Urad0 n - (Umhd n - Umhd0 n)

/-- the fluid velocity lowered as `CalculateSource` lowers it, moments_source.cpp:117-118: the index of the velocity is `ii`,
not the summed `jj`. -/
noncomputable def srcCovV (gcov : Fin 4 → Fin 4 → ℝ) (P : V4) (W : ℝ) : Vec := fun i => ∑ j : Fin 3, gcov i.succ j.succ * P i.succ / W

/-- Lorentz factor in `CalculateSource`, moments_source.cpp:114-116. -/
noncomputable def srcW (gcov : Fin 4 → Fin 4 → ℝ) (P : V4) : ℝ :=
  Real.sqrt (1 + ∑ i : Fin 3, ∑ j : Fin 3, gcov i.succ j.succ * P i.succ * P j.succ)

/-- `CalculateSource`, moments_source.cpp:102-127; `kabs` is the absorption coefficient at the gas temperature.  The
"scattering" part of `kappaH` is the absorption coefficient again (line 108). -/
noncomputable def srcTerm (gcov : Fin 4 → Fin 4 → ℝ) (alpha sdetgam kabs JBB : ℝ) (P R : V4) : V4 :=
  let kH := min (kabs + kabs) 100000
  let kJ := min kabs 100000
  let W := srcW gcov P
  let cv := srcCovV gcov P W
  let vdH := ∑ i : Fin 3, P i.succ / W * R i.succ
  Fin.cons (alpha * sdetgam * (kJ * W * (JBB - R 0) - kH * vdH))
    fun i => alpha * sdetgam * (kJ * W * cv i * (JBB - R 0) - kH * R i.succ)

/-- what the Newton solver calls: conserved fluid variables of a guess, rest-frame moments of conserved radiation variables (with
a status), and the source.
(Data type or helper of the model of the `fourd` solver of moments_source.cpp.) -/
structure Solver4 where
  mhd : V4 → V4
  radPrim : V4 → V4 → Status × V4
  src : V4 → V4 → V4
  U0 : V4
  R0 : V4
  dt : ℝ

namespace Solver4
variable (m : Solver4)

/-- conserved radiation variables of a guess.
(Data type or helper of the model of the `fourd` solver of moments_source.cpp.) -/
def rad (P : V4) : V4 := radConserved m.R0 m.U0 (m.mhd P)

/-- source at a guess.
(Data type or helper of the model of the `fourd` solver of moments_source.cpp.) -/
def S (P : V4) : V4 := m.src P (m.radPrim P (m.rad P)).2

/-- residual, moments_source.cpp:554-556, 736-737. -/
def resid (P : V4) : V4 := fun n => m.mhd P n - m.U0 n + m.dt * m.S P n

/-- was the radiation inversion at this guess a failure?
(Data type or helper of the model of the `fourd` solver of moments_source.cpp.) -/
def bad (P : V4) : Prop := (m.radPrim P (m.rad P)).1 = Status.failure

/-- `P` with component `k` changed by `h`.
(Data type or helper of the model of the `fourd` solver of moments_source.cpp.) -/
def bump (P : V4) (k : Fin 4) (h : ℝ) : V4 := fun n => if n = k then P n + h else P n

/-- finite-difference step, moments_source.cpp:580-583 (`mag` is `P_mhd_mag_min`). -/
noncomputable def fdStep (eps mag : ℝ) (P : V4) (k : Fin 4) : ℝ := max (eps * mag) (eps * |P k|)

open Classical in
/-- `P_mhd_mag_min`, moments_source.cpp:565-571. -/
noncomputable def magMin (large : ℝ) (P : V4) : ℝ :=
  (List.finRange 4).foldl (fun a k => if |P k| > 0 then min a |P k| else a) large

open Classical in
/-- the Jacobian, moments_source.cpp:573-654: central differences, or one-sided ones if one side's inversion failed; none if both
failed. -/
noncomputable def jac (eps large : ℝ) (P : V4) : Option (Fin 4 → Fin 4 → ℝ) :=
  let h := fdStep eps (magMin large P) P
  let badM := ∃ k, m.bad (bump P k (-h k))
  let badP := ∃ k, m.bad (bump P k (h k))
  if badM ∧ badP then none
  else if badM then some fun n k => (m.resid (bump P k (h k)) n - m.resid P n) / (bump P k (h k) k - P k)
  else if badP then some fun n k => (m.resid P n - m.resid (bump P k (-h k)) n) / (P k - bump P k (-h k) k)
  else some fun n k => (m.resid (bump P k (h k)) n - m.resid (bump P k (-h k)) n) / (bump P k (h k) k - bump P k (-h k) k)

/-- the Newton step, moments_source.cpp:665-670. -/
def newton (ji : Fin 4 → Fin 4 → ℝ) (P : V4) : V4 := fun k => P k - ∑ n, ji k n * m.resid P n

open Classical in
/-- `scaling_factor`, moments_source.cpp:692-706: `xi` is the flux factor and `u1`, `J1` the energies after the step,
`u0`, `J0` those before. -/
noncomputable def scalingFactor (xi xiMax umin Jmin u0 u1 J0 J1 : ℝ) : ℝ :=
  let s0 : ℝ := 0
  let s1 := if xi > xiMax then max s0 (xiMax / xi) else s0
  let s2 := if u1 < umin then max s1 ((u0 - umin) / (u0 - u1)) else s1
  if J1 < Jmin then max s2 ((J0 - Jmin) / (J0 - J1)) else s2

open Classical in
/-- one pass of the loop, moments_source.cpp:561-742: the next guess, or `none` for `bad_guess`.  `flux P` is the flux factor
computed by the recovery attempt at the failed guess (any function). -/
noncomputable def pass (eps large SMALL xiMax : ℝ) (flux : V4 → ℝ) (P : V4) : Option V4 :=
  match m.jac eps large P with
  | none => none
  | some J =>
    let ji := inverse4 J
    let P1 := m.newton ji P
    if m.bad P1 then
      let s := scalingFactor (flux P1) xiMax (100 * SMALL) (100 * SMALL) (P 0) (P1 0) ((m.radPrim P (m.rad P)).2 0) ((m.radPrim P1 (m.rad P1)).2 0)
      if ¬ (s > SMALL ∧ s ≥ 1) then none
      else
        let P2 : V4 := fun k => P1 k + (1 - 0.5 * s) * ∑ n, ji k n * m.resid P n
        if (m.radPrim P2 (m.rad P2)).1 = Status.success then some P2 else none
    else some P1

/-- `max_divisor` and `err`, moments_source.cpp:749-754. -/
noncomputable def maxDiv (SMALL : ℝ) (P : V4) : ℝ :=
  (List.finRange 4).foldl (fun a n => max a (|m.mhd P n| + |m.U0 n| + |m.dt * m.S P n|)) SMALL

/-- `err`, moments_source.cpp:748, 755-760. -/
noncomputable def err (SMALL : ℝ) (P : V4) : ℝ :=
  (List.finRange 4).foldl (fun a n => let e := |m.resid P n| / m.maxDiv SMALL P
                                      if e > a then e else a) SMALL

open Classical in
/-- the loop, moments_source.cpp:561-766, with `maxiter - niter` as fuel: the final guess if it converged. -/
noncomputable def loop (eps large SMALL xiMax tol : ℝ) (flux : V4 → ℝ) : ℕ → V4 → Option V4
  | 0, _ => none
  | n + 1, P =>
    match m.pass eps large SMALL xiMax flux P with
    | none => none
    | some P1 =>
      if n = 0 then none
      else if m.err SMALL P1 > tol then loop eps large SMALL xiMax tol flux n P1
      else some P1

/-- the increments of the `fourd` solver, moments_source.cpp:768-779 (divided by `sdetgam`). -/
noncomputable def solve4 (eps large SMALL xiMax tol sdetgam : ℝ) (flux : V4 → ℝ) (maxiter : ℕ) (P0 : V4) : Option V4 :=
  (m.loop eps large SMALL xiMax tol flux maxiter P0).map fun P => fun n => (m.rad P n - m.R0 n) / sdetgam

end Solver4

/-! ### applying the increments -/

/-- the conserved variables of a cell: fluid energy and momentum, and those of every species.
(Data type or helper of the model of the `fourd` solver of moments_source.cpp.) -/
structure Cell where
  fluid : V4
  rad : ℕ → V4

/-- one pass of the species loop, moments_source.cpp:790-995.  `d` holds `dE, cov_dF` as the solver left them (never initialised
if the solver did not write them), `recov` says whether the primitive recovery succeeds in the updated cell, `floorF`, `floorR` are
the conserved variables of the floor state written when it does not. -/
def applySpecies (sdetgam : ℝ) (success updateFluid : Bool) (d : ℕ → V4) (recov : Cell → ℕ → Bool) (floorF floorR : V4) (s : Cell) (k : ℕ) : Cell :=
  let s1 : Cell := if success = true then { s with rad := fun q => if q = k then fun n => s.rad q n + sdetgam * d k n else s.rad q } else s
  let s2 : Cell := if updateFluid = true then { s1 with fluid := fun n => s1.fluid n - sdetgam * d k n } else s1
  if recov s2 k = true then s2
  else { fluid := if updateFluid = true then floorF else s2.fluid, rad := fun q => if q = k then floorR else s2.rad q }

/-- the species loop, moments_source.cpp:789-996. -/
def applyAll (sdetgam : ℝ) (success updateFluid : Bool) (d : ℕ → V4) (recov : Cell → ℕ → Bool) (floorF floorR : V4) (nspec : ℕ) (s : Cell) : Cell :=
  (List.range nspec).foldl (applySpecies sdetgam success updateFluid d recov floorF floorR) s

/-- what happened in the `oned` solver for the single species it supports (line 352): did the temperature search succeed, did the closure
accept the updated moments, and did it accept those of the retry.
(moments_source.cpp:345-488.) -/
structure OneD where
  rootOk : Bool
  closureOk : Bool
  retryOk : Bool

/-- `OneDFixupStrategy`, radiation.hpp.
(radiation.hpp:48-52.) -/
inductive FixupStrategy | none | ignoreDJ | ignoreAll
  deriving DecidableEq

/-- the control flow of the `oned` solver, moments_source.cpp:344-488, one species: `(success, increments)`; `dFull` and `dRetry` are
what `LinearSourceUpdate` returns in the two attempts, `garbage` the uninitialised memory. -/
def oned (strat : FixupStrategy) (o : OneD) (dFull dRetry garbage : V4) : Bool × V4 :=
  let first : Bool × V4 := if o.rootOk = true then (o.closureOk, dFull) else (false, garbage)
  if first.1 = true then first
  else match strat with
    | .ignoreDJ => (o.retryOk, dRetry)
    | .ignoreAll => (true, fun _ => 0)
    | .none => first

/-- the magnetic field handed to the solvers, moments_source.cpp:328-332: the assignment is to a variable of an inner scope. -/
def bprimUsed (_hasField : Bool) (_b : Vec) : Vec := fun _ => 0

end Phoebus.MomentSource
