import Verif.Rel.Props
import Verif.RootFind.Props

/-!
# Model of `con2prim_robust.hpp`

`Residual` (con2prim_robust.hpp:46-141) and `ConToPrim::solve` (con2prim_robust.hpp:299-453).  Real arithmetic; the NaN tests of lines 303-304 and
441-445 are outside the model.  `small` is the regulariser of `robust::ratio` (`SMALL()`), `eps` that of `make_positive` (`EPS()`).  The signal speeds
(modelled in `Riemann`) and the stored root-finder guess are left out of the result.
-/
namespace Phoebus.C2P
open Finset Geom Robust Rel

/-- Equation of state queried by the inverter (con2prim_robust.hpp:130, 393-395); the electron fraction (`lambda[0]`) is the last argument. -/
structure Eos where
  pRE : ℝ → ℝ → ℝ → ℝ
  tRE : ℝ → ℝ → ℝ → ℝ
  pRT : ℝ → ℝ → ℝ → ℝ

/-- Floors and ceilings at the cell, already multiplied by `floor_scale_fac_` (con2prim_robust.hpp:57-61, 307-313).  The energy floor
is a function of the density handed to `GetFloors` (con2prim_robust.hpp:103; one of the floor types reads it). -/
structure Bnds where
  rhoFloor : ℝ
  eFloor : ℝ → ℝ
  gmax : ℝ
  emax : ℝ

/-- The scalars stored in `Residual`, con2prim_robust.hpp:49-62. -/
structure Aux where
  D : ℝ
  q : ℝ
  bsq : ℝ
  bsqRpsq : ℝ
  rsq : ℝ
  rbsq : ℝ
  v0sq : ℝ
  ye : ℝ

/-- `x_mu`, con2prim_robust.hpp:65. -/
noncomputable def xMu (small : ℝ) (a : Aux) (mu : ℝ) : ℝ := ratio small 1 (1 + mu * a.bsq)

/-- `rbarsq_mu`, con2prim_robust.hpp:67-69. -/
def rbarsq (a : Aux) (mu x : ℝ) : ℝ := x * (x * a.rsq + mu * (1 + x) * a.rbsq)

/-- `qbar_mu`, con2prim_robust.hpp:71-74. -/
noncomputable def qbar (a : Aux) (mu x : ℝ) : ℝ := a.q - 0.5 * (a.bsq + mu * x * (mu * x) * a.bsqRpsq)

/-- `vhatsq_mu`, con2prim_robust.hpp:76-85 (value and `used_gamma_max_`). -/
noncomputable def vhatsq (a : Aux) (mu rb : ℝ) : ℝ × Bool :=
  if mu * mu * rb > a.v0sq then (a.v0sq, true) else (mu * mu * rb, false)

/-- `iWhat_mu`, con2prim_robust.hpp:87. -/
noncomputable def iWhat (vsq : ℝ) : ℝ := Real.sqrt (1 - vsq)

/-- `rhohat_mu`, con2prim_robust.hpp:89-98 (value and `used_density_floor_`). -/
noncomputable def rhohat (b : Bnds) (a : Aux) (iW : ℝ) : ℝ × Bool :=
  if a.D * iW ≤ b.rhoFloor then (b.rhoFloor, true) else (a.D * iW, false)

/-- `ehat_mu`, con2prim_robust.hpp:100-118 (value, `used_energy_floor_`, `used_energy_max_`). -/
noncomputable def ehat (small : ℝ) (b : Bnds) (a : Aux) (mu qb rb vsq W : ℝ) : ℝ × Bool × Bool :=
  let rho := (rhohat b a (ratio small 1 W)).1
  let ef := b.eFloor rho
  let et := W * (qb - mu * rb) + vsq * W * ratio small W (1 + W)
  if et ≤ ef then (ef, true, false) else if et > b.emax then (b.emax, false, true) else (et, false, false)

/-- `operator()`, con2prim_robust.hpp:121-141. -/
noncomputable def residual (small eps : ℝ) (eos : Eos) (b : Bnds) (a : Aux) (mu : ℝ) : ℝ :=
  let x := xMu small a mu
  let rb := rbarsq a mu x
  let qb := qbar a mu x
  let vsq := (vhatsq a mu rb).1
  let iW := iWhat vsq
  let W := ratio small 1 iW
  let rho := (rhohat b a iW).1
  let e := (ehat small b a mu qb rb vsq W).1
  let P := eos.pRE rho e a.ye
  let h := rho * (1 + e) + P
  let ah := P / makePositive eps (h - P)
  let nua := (1 + ah) * (1 + e) * iW
  let nub := (1 + ah) * (1 + qb - mu * rb)
  let nu := max nua nub
  mu - 1 / (nu + mu * rb)

/-- Everything `solve` computes before the root finder, con2prim_robust.hpp:305-364. -/
structure Prep where
  aux : Aux
  rcon : Fin 3 → ℝ
  bu : Fin 3 → ℝ
  bdotr : ℝ
  Bp : Fin 3 → ℝ

/-- `tau` of the normal observer, con2prim_robust.hpp:316-326.  In the covariant build it is obtained by projecting
`Qcov = (E - D, S)` on the normal. -/
noncomputable def tauOf (val : Bool) (G : ADM ℝ) (gdet : ℝ) (c : Cons) : ℝ :=
  if val then c.tau * (1 / gdet)
  else
    let Q : Fin 4 → ℝ := Fin.cons ((c.tau - c.D) * (1 / gdet)) fun i => c.S i * (1 / gdet)
    let n : Fin 4 → ℝ := Fin.cons (1 / G.alpha) fun i => -G.beta i / G.alpha
    (0 - ∑ μ, Q μ * n μ) - c.D * (1 / gdet)

/-- con2prim_robust.hpp:305-364.  `hasB` is `pb_hi > 0`, `hasYe` is `pye > 0`. -/
noncomputable def prep (val hasB hasYe : Bool) (small : ℝ) (G : ADM ℝ) (gdet : ℝ) (b : Bnds) (c : Cons) : Prep :=
  let D := c.D * (1 / gdet)
  let q := ratio small (tauOf val G gdet c) D
  let ye := if hasYe then ratio small c.ye c.D else 0.5
  let rcov : Fin 3 → ℝ := fun i => ratio small (c.S i) c.D
  let rcon : Fin 3 → ℝ := fun i => ∑ j, G.gamInv i j * rcov j
  let rsq := ∑ i, rcon i * rcov i
  let Bp : Fin 3 → ℝ := fun i => c.B i * (1 / gdet)
  let sD := 1 / Real.sqrt (max D b.rhoFloor)
  let bu : Fin 3 → ℝ := fun i => if hasB then Bp i * sD else 0
  let bdotr := if hasB then ∑ i, bu i * rcov i else 0
  let bsq := if hasB then max 0 (∑ i, ∑ j, G.gam i j * bu i * bu j) else 0
  let rbsq := bdotr * bdotr
  let bsqRpsq := if hasB then bsq * rsq - rbsq else 0
  let zsq := rsq / 1
  let v0sq := min (zsq / (1 + zsq)) (1 - 1 / (b.gmax * b.gmax))
  { aux := ⟨D, q, bsq, bsqRpsq, rsq, rbsq, v0sq, ye⟩, rcon := rcon, bu := bu, bdotr := bdotr, Bp := Bp }

/-- What `solve` leaves in the cell, con2prim_robust.hpp:381-452. -/
structure Out where
  prim : Prim
  ye : ℝ
  cons : Cons
  usedRhoFloor : Bool
  usedEFloor : Bool
  usedEMax : Bool
  usedGMax : Bool
  success : Bool

/-- con2prim_robust.hpp:381-452: unwrap a value `mu` into primitives, and, when a bound was used, overwrite the conserved
variables.  `failFloors`, `failCeil` are `fail_on_floors_`, `fail_on_ceilings_`.  (`bu` is the primitive field again from
line 404 on; without a field variable it stays zero.) -/
noncomputable def unwrap (val hasB hasYe failFloors failCeil : Bool) (small : ℝ) (eos : Eos) (G : ADM ℝ)
    (gdet : ℝ) (b : Bnds) (c : Cons) (mu : ℝ) : Out :=
  let p := prep val hasB hasYe small G gdet b c
  let a := p.aux
  let x := xMu small a mu
  let rb := rbarsq a mu x
  let vs := vhatsq a mu rb
  let iW := iWhat vs.1
  let rh := rhohat b a iW
  let qb := qbar a mu x
  let W := 1 / iW
  let eh := ehat small b a mu qb rb vs.1 W
  let T := eos.tRE rh.1 eh.1 a.ye
  let P := eos.pRT rh.1 T a.ye
  let vel : Fin 3 → ℝ := fun i => W * mu * x * (p.rcon i + mu * p.bdotr * p.bu i)
  let prim : Prim := ⟨rh.1, eh.1 * rh.1, P, vel, if hasB then p.Bp else fun _ => 0⟩
  let used := rh.2 || eh.2.1 || eh.2.2 || vs.2
  let cn := p2c val G gdet (if hasYe then a.ye else 0) prim
  let cons : Cons :=
    if used then { c with D := cn.D, S := cn.S, tau := cn.tau, ye := if hasYe then cn.ye else c.ye } else c
  { prim := prim, ye := a.ye, cons := cons, usedRhoFloor := rh.2, usedEFloor := eh.2.1, usedEMax := eh.2.2,
    usedGMax := vs.2, success := !((failFloors && (rh.2 || eh.2.1)) || (failCeil && vs.2)) }

/-- The root-finder call, con2prim_robust.hpp:374-376: regula falsi on `[0, 1]` with the stored guess and no status pointer (so a bracket without sign change
aborts the program).  Its success status is not consulted by the caller. -/
noncomputable def findMu (small eps : ℝ) (eos : Eos) (b : Bnds) (a : Aux) (tol guess : ℝ) (maxIter : ℕ) :
    RootFind.Outcome ℝ :=
  RootFind.regulaFalsi (residual small eps eos b a) 0 1 tol guess false 0 maxIter

end Phoebus.C2P
