import Verif.Geom.ADM
import Verif.Robust.Props
import Mathlib.Analysis.SpecialFunctions.Sqrt

/-!
# Model of `relativity_utils.hpp`, `tmunu.hpp` and `prim2con.hpp::p2c`

The geometry object queried by the code (`Metric`, `Lapse`, `ContravariantShift`, `SpacetimeMetric`,
`SpacetimeMetricInverse`) is a `Geom.ADM ℝ`; that the coordinate systems return such consistent 3+1 data is C33/C34.
`SPACELOOP2` accumulations are finite sums.  `small` is the regulariser of `robust::ratio`.
-/
namespace Phoebus.Rel
open Finset Geom Robust

/-- `GetLorentzFactor`, relativity_utils.hpp:37-43 (and 53-59 on the spatial block of `gcov`). -/
noncomputable def lorentz (gam : Fin 3 → Fin 3 → ℝ) (v : Fin 3 → ℝ) : ℝ :=
  Real.sqrt (1 + ∑ i, ∑ j, gam i j * v i * v j)

/-- `GetFourVelocity`, relativity_utils.hpp:101-114. -/
noncomputable def fourVelocity (small : ℝ) (G : ADM ℝ) (v : Fin 3 → ℝ) : Fin 4 → ℝ :=
  let W := lorentz G.gam v
  let u0 := ratio small W |G.alpha|
  Fin.cons u0 fun l => v l - u0 * G.beta l

/-- `GetMagneticFieldSquared`, relativity_utils.hpp:131-141. -/
noncomputable def magneticFieldSquared (small : ℝ) (gam : Fin 3 → Fin 3 → ℝ) (vp Bp : Fin 3 → ℝ) (W : ℝ) : ℝ :=
  let Bdotv := ∑ m, ∑ n, gam m n * ratio small (vp m) W * Bp n
  let Bsq := ∑ m, ∑ n, gam m n * Bp m * Bp n
  ratio small Bsq (W * W) + Bdotv * Bdotv

/-- Primitive state of a cell.
(Arguments of prim2con.hpp, `p2c`.) -/
structure Prim where
  rho : ℝ
  u : ℝ
  P : ℝ
  v : Fin 3 → ℝ
  B : Fin 3 → ℝ

/-- `Bdotv` of `GetTmunuTerms_`, tmunu.hpp:112-117. -/
noncomputable def tBdotv (G : ADM ℝ) (q : Prim) : ℝ :=
  let W := lorentz G.gam q.v
  ∑ i, ∑ j, q.B i * (q.v j / W) * G.gam i j

/-- `Bsq` of `GetTmunuTerms_`, tmunu.hpp:112-117. -/
def tBsq (G : ADM ℝ) (q : Prim) : ℝ := ∑ i, ∑ j, q.B i * q.B j * G.gam i j

/-- `u` of `GetTmunuTerms_`, tmunu.hpp:122-125. -/
noncomputable def tU (small : ℝ) (G : ADM ℝ) (q : Prim) : Fin 4 → ℝ :=
  let W := lorentz G.gam q.v
  let u0 := ratio small W |G.alpha|
  Fin.cons u0 fun l => q.v l - u0 * G.beta l

/-- `b` of `GetTmunuTerms_`, tmunu.hpp:118-127. -/
noncomputable def tB (small : ℝ) (G : ADM ℝ) (q : Prim) : Fin 4 → ℝ :=
  let W := lorentz G.gam q.v
  let iW := ratio small 1 W
  let b0 := tU small G q 0 * tBdotv G q
  Fin.cons b0 fun l => iW * (q.B l + G.alpha * b0 * tU small G q l.succ)

/-- `bsq` of `GetTmunuTerms_`, tmunu.hpp:129. -/
noncomputable def tbsq (small : ℝ) (G : ADM ℝ) (q : Prim) : ℝ :=
  let iW := ratio small 1 (lorentz G.gam q.v)
  tBsq G q * iW * iW + tBdotv G q * tBdotv G q

/-- `StressEnergyTensorCon::operator()`, tmunu.hpp:63-78. -/
noncomputable def tmunu (small : ℝ) (G : ADM ℝ) (q : Prim) : Fin 4 → Fin 4 → ℝ := fun μ ν =>
  let bsq := tbsq small G q
  let A := q.rho + q.u + q.P + bsq
  let B := q.P + 0.5 * bsq
  A * tU small G q μ * tU small G q ν + B * G.g4Inv μ ν - tB small G q μ * tB small G q ν

/-! ### `prim2con::p2c` -/

/-- Output of `p2c`: `D`, `S_i`, `bcons^i`, `tau`, `ye_cons`.
(Results of prim2con.hpp, `p2c`.) -/
structure Cons where
  D : ℝ
  S : Fin 3 → ℝ
  B : Fin 3 → ℝ
  tau : ℝ
  ye : ℝ

/-- coordinate three-velocity, prim2con.hpp:56-58. -/
noncomputable def pv (G : ADM ℝ) (q : Prim) : Fin 3 → ℝ := fun i => q.v i * (1 / lorentz G.gam q.v)

/-- `Bdotv`, prim2con.hpp:62. -/
noncomputable def pBdotv (G : ADM ℝ) (q : Prim) : ℝ := ∑ i, ∑ j, G.g4 i.succ j.succ * q.B i * pv G q j

/-- `Bsq`, prim2con.hpp:61. -/
noncomputable def pBsq (G : ADM ℝ) (q : Prim) : ℝ := ∑ i, ∑ j, G.g4 i.succ j.succ * q.B i * q.B j

/-- `bcon`, prim2con.hpp:65-66. -/
noncomputable def pbcon (G : ADM ℝ) (q : Prim) : Fin 4 → ℝ :=
  let W := lorentz G.gam q.v
  Fin.cons (W * pBdotv G q / G.alpha) fun m =>
    q.B m * (1 / W) + pBdotv G q * W * (pv G q m - G.beta m / G.alpha)

/-- `bsq`, prim2con.hpp:67. -/
noncomputable def pbsq (G : ADM ℝ) (q : Prim) : ℝ :=
  let iW := 1 / lorentz G.gam q.v
  pBsq G q * iW * iW + pBdotv G q * pBdotv G q

/-- `bcov`, prim2con.hpp:68-71. -/
noncomputable def pbcov (G : ADM ℝ) (q : Prim) (m : Fin 3) : ℝ := ∑ n, G.g4 m.succ n * pbcon G q n

/-- `p2c`, prim2con.hpp:48-102 (without the optional signal speeds).  `valencia` is `USE_VALENCIA`. -/
noncomputable def p2c (valencia : Bool) (G : ADM ℝ) (gdet : ℝ) (ye : ℝ) (q : Prim) : Cons :=
  let W := lorentz G.gam q.v
  let b0 := W * pBdotv G q
  let bsq := pbsq G q
  let D := gdet * q.rho * W
  let rhoRel := (q.rho + q.u + q.P + bsq) * W * W
  let S := fun m => gdet * (rhoRel * (∑ n : Fin 3, G.g4 m.succ n.succ * pv G q n) - b0 * pbcov G q m)
  let ucon : Fin 4 → ℝ := Fin.cons (W / G.alpha) fun i => q.v i - G.beta i * W / G.alpha
  let ucov : Fin 4 → ℝ := fun μ => ∑ ν, G.g4 μ ν * ucon ν
  let bcov0 := ∑ μ, G.g4 0 μ * pbcon G q μ
  let tau :=
    if valencia then gdet * (rhoRel - (q.P + 0.5 * bsq) - b0 * b0) - D
    else gdet * G.alpha *
        ((q.rho + q.u + q.P + bsq) * ucon 0 * ucov 0 + (q.P + 0.5 * bsq) - pbcon G q 0 * bcov0) + D
  { D := D, S := S, B := fun m => gdet * q.B m, tau := tau, ye := D * ye }

end Phoebus.Rel
