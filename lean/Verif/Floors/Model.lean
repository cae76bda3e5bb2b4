import Verif.C2P.Bounds
import Mathlib.Analysis.SpecialFunctions.Pow.Real

/-!
# Model of floors and ceilings: `fixup.hpp` and the fluid part of `ApplyFloorsImpl` (`fixup.cpp`)

One cell.  The inverter is a parameter `invert` (it is modelled in `C2P`); it receives the conserved variables and returns
the primitives, or `none` on failure.  Derived quantities that are recomputed from the EOS at the end (temperature, gamma1)
are left out; the radiation part of the function is modelled in `RadFloors`.
-/
namespace Phoebus.Floors
open Finset Geom Robust Rel

/-- `FloorFlag`, fixup.hpp:70. -/
inductive FloorKind | constantRhoSie | expX1RhoSie | expX1RhoU | x1RhoSie | rRhoSie
deriving DecidableEq

/-- `Floors`, fixup.hpp:72-148.  `eosSet` is `eos_bnds_set_`, which no constructor initialises. -/
structure FloorSpec where
  kind : FloorKind
  r0 : ℝ
  s0 : ℝ
  ra : ℝ
  sa : ℝ
  rhoMinEos : ℝ
  sieMinEos : ℝ
  eosSet : Bool

/-- `GetFloors`, fixup.hpp:91-134; `rIn` is the value the caller's `rflr` holds on entry (it is an in/out parameter).
`none` is `PARTHENON_FAIL`. -/
noncomputable def getFloors (f : FloorSpec) (x1 x2 x3 rIn : ℝ) : Option (ℝ × ℝ) :=
  if !f.eosSet then none
  else
    let raw : ℝ × ℝ :=
      match f.kind with
      | .constantRhoSie => (f.r0, f.s0)
      | .expX1RhoSie => (f.r0 * Real.exp (f.ra * x1), f.s0 * Real.exp (f.sa * x1))
      | .expX1RhoU =>
        let scratch := f.r0 * Real.exp (f.ra * x1)
        (scratch, f.s0 * Real.exp (f.sa * x1) / max rIn scratch)
      | .x1RhoSie => (f.r0 * min 1 (x1 ^ f.ra), f.s0 * min 1 (x1 ^ f.sa))
      | .rRhoSie =>
        let r := Real.sqrt (x1 * x1 + x2 * x2 + x3 * x3)
        (f.r0 * min 1 (r ^ f.ra), f.s0 * min 1 (r ^ f.sa))
    some (max raw.1 f.rhoMinEos, max raw.2 f.sieMinEos)

/-- Values obtained from `Bounds` at the cell, fixup.cpp:379-394. -/
structure CellBounds where
  rhoFloor : ℝ
  sieFloor : ℝ
  gammaMax : ℝ
  eMax : ℝ
  bsqorhoMax : ℝ
  bsqouMax : ℝ

/-- Magnetic energy used by the MHD floors, fixup.cpp:412-425 (`vp` is the velocity primitive, i.e. `W` times the
three-velocity). -/
noncomputable def mhdBsq (G : ADM ℝ) (v B : Fin 3 → ℝ) : ℝ :=
  let W := lorentz G.gam v
  let iW := 1 / W
  let Bsq := ∑ i : Fin 3, ∑ j : Fin 3, G.g4 i.succ j.succ * B i * B j
  let Bdotv := ∑ i : Fin 3, ∑ j : Fin 3, G.g4 i.succ j.succ * B i * v j
  let bcon0 := W * Bdotv / G.alpha
  (Bsq + G.alpha * G.alpha * bcon0 * bcon0) * iW * iW

/-- `rho_floor_max`, `u_floor_max`, fixup.cpp:396-432. -/
noncomputable def effectiveFloors (mhd : Bool) (cb : CellBounds) (G : ADM ℝ) (q : Prim) : ℝ × ℝ :=
  let rf := cb.rhoFloor
  let uf := cb.rhoFloor * cb.sieFloor
  if mhd then
    let bsq := mhdBsq G q.v q.B
    let rf := max rf (bsq / cb.bsqorhoMax)
    let uf := max uf (bsq / cb.bsqouMax)
    (max rf (max q.u uf / cb.eMax), uf)
  else (rf, uf)

/-- The injected mass and energy, fixup.cpp:434-440: `none` when no floor applies. -/
noncomputable def deficits (rf uf sie rho u : ℝ) : Option (ℝ × ℝ) :=
  let drho := rf - rho
  let du := uf - u
  if drho > 0 ∨ du > 0 then
    let drho := max drho (du / sie)
    let du := max du (sie * drho)
    some (drho, du)
  else none

/-- The cell: primitives, electron fraction primitive and conserved variables.
(Data type of the model of fixup.cpp, `ApplyFloors`.) -/
structure Cell where
  prim : Prim
  ye : ℝ
  cons : Cons

/-- EOS pressure from density and specific energy.
(Data type of the model of fixup.cpp, `ApplyFloors`.) -/
abbrev Press := ℝ → ℝ → ℝ → ℝ

/-- Floor injection, fixup.cpp:442-499.  Mass and energy are added at rest in the normal frame; the field enters `p2c`
but the conserved field is not updated.  `yeC` is the *conserved* electron variable (line 452 reads `cye`); `yeMin` is the
value set after a failure.  `hasYe` is `pye > 0`. -/
noncomputable def inject (val hasYe : Bool) (P : Press) (yeMin : ℝ) (G : ADM ℝ) (gdet : ℝ)
    (invert : Cons → Option (Prim × ℝ)) (drho du : ℝ) (cell : Cell) : Cell :=
  let ye := if hasYe then cell.cons.ye else 0.5
  let dP := P drho (du / drho) ye
  let dq : Prim := ⟨drho, du, dP, fun _ => 0, cell.prim.B⟩
  let d := p2c val G gdet ye dq
  let c := cell.cons
  let c' : Cons := { c with D := c.D + d.D, S := fun i => c.S i + d.S i, tau := c.tau + d.tau,
                            ye := if hasYe then c.ye + d.ye else c.ye }
  match invert c' with
  | some (q, y) => ⟨q, y, c'⟩
  | none =>
    ⟨{ cell.prim with rho := drho, u := du, v := fun _ => 0 }, if hasYe then yeMin else cell.ye,
      { c' with D := d.D, S := d.S, tau := d.tau, ye := if hasYe then d.ye else c'.ye }⟩

/-- The factor applied to the velocity, fixup.cpp:510 (and, with the same formula, fixup_c2p.cpp, fixup_src.cpp). -/
noncomputable def rescale (gmax W : ℝ) : ℝ := Real.sqrt (gmax * gmax - 1) / (W * W - 1)

/-- Ceiling, fixup.cpp:501-526. -/
noncomputable def ceiling (val hasYe : Bool) (cb : CellBounds) (G : ADM ℝ) (gdet : ℝ) (cell : Cell) : Cell :=
  let W := lorentz G.gam cell.prim.v
  if W > cb.gammaMax ∨ cell.prim.u / cell.prim.rho > cb.eMax then
    let v : Fin 3 → ℝ := fun i => cell.prim.v i * rescale cb.gammaMax W
    let q := { cell.prim with v := v }
    let d := p2c val G gdet (if hasYe then cell.ye else 0) q
    ⟨q, cell.ye, { cell.cons with D := d.D, S := d.S, tau := d.tau, ye := if hasYe then d.ye else cell.cons.ye }⟩
  else cell

/-- Fluid part of `ApplyFloorsImpl`, fixup.cpp:370-540. -/
noncomputable def applyFloors (val hasYe mhd : Bool) (P : Press) (yeMin : ℝ) (cb : CellBounds) (G : ADM ℝ) (gdet : ℝ)
    (invert : Cons → Option (Prim × ℝ)) (cell : Cell) : Cell :=
  let f := effectiveFloors mhd cb G cell.prim
  let c1 := match deficits f.1 f.2 cb.sieFloor cell.prim.rho cell.prim.u with
    | some (drho, du) => inject val hasYe P yeMin G gdet invert drho du cell
    | none => cell
  ceiling val hasYe cb G gdet c1

end Phoebus.Floors
