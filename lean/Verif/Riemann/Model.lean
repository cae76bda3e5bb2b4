import Verif.Rel.Props

/-!
# Model of `src/fluid/riemann.hpp`

`prim_to_flux` for one side of a face, and the `llf` and `hll` combinations.  The floors `rho_floor`, `sie_floor` and
ceilings `sie_max`, `gam_max` at the face are parameters.  `G` is the face geometry (`FaceGeom`), `dir : Fin 3` is
`d - 1`.  `small` (`SMALL()`) and `eps` (`EPS()`) are the constants of `robust.hpp`.
-/
namespace Phoebus.Riemann
open Finset Geom Robust Rel

/-- One set of conserved-variable slots (`crho`, `cmom_lo..`, `ceng`, `cb_lo..`, `cye`).
(The members of `FluxState` in riemann.hpp.) -/
structure Slots where
  rho : ℝ
  mom : Fin 3 → ℝ
  eng : ℝ
  B : Fin 3 → ℝ
  ye : ℝ

/-- Floors and ceilings at the face.
(riemann.hpp, floors and ceilings read at the face.) -/
structure Limits where
  rhoFloor : ℝ
  sieFloor : ℝ
  sieMax : ℝ
  gamMax : ℝ

/-- `rho`, riemann.hpp:92-95. -/
noncomputable def fRho (L : Limits) (q : Prim) : ℝ := max q.rho L.rhoFloor

/-- `u`, riemann.hpp:106-109. -/
noncomputable def fU (L : Limits) (q : Prim) : ℝ :=
  if q.u / fRho L q > L.sieFloor then
    (if q.u / fRho L q > L.sieMax then fRho L q * L.sieMax else q.u)
  else fRho L q * L.sieFloor

/-- `P`, riemann.hpp:110. -/
noncomputable def fP (q : Prim) : ℝ := max q.P 0

/-- `vpcon` after the first ceiling, riemann.hpp:96-102. -/
noncomputable def fVp (G : ADM ℝ) (L : Limits) (q : Prim) : Fin 3 → ℝ :=
  let W := lorentz G.gam q.v
  if W > L.gamMax then fun i => q.v i * Real.sqrt ((L.gamMax * L.gamMax - 1) / (W * W - 1)) else q.v

/-- `vcon` before the second ceiling, riemann.hpp:103: note that `W` is still the *unlimited* Lorentz factor. -/
noncomputable def fV0 (G : ADM ℝ) (L : Limits) (q : Prim) : Fin 3 → ℝ :=
  fun i => fVp G L q i / lorentz G.gam q.v

/-- `vsq` before the second ceiling, riemann.hpp:119-126. -/
noncomputable def fVsq0 (G : ADM ℝ) (L : Limits) (q : Prim) : ℝ :=
  ∑ m : Fin 3, ∑ n : Fin 3, G.g4 m.succ n.succ * fV0 G L q m * fV0 G L q n

/-- `vsq_max`, riemann.hpp:127. -/
noncomputable def vsqMax (L : Limits) : ℝ := 1 - 1 / (L.gamMax * L.gamMax)

/-- `vcon` after the second ceiling, riemann.hpp:128-135. -/
noncomputable def fV (G : ADM ℝ) (L : Limits) (q : Prim) : Fin 3 → ℝ :=
  if fVsq0 G L q > vsqMax L then fun i => fV0 G L q i * Real.sqrt (vsqMax L / fVsq0 G L q) else fV0 G L q

/-- `vsq` after the second ceiling, riemann.hpp:128-130. -/
noncomputable def fVsq (G : ADM ℝ) (L : Limits) (q : Prim) : ℝ :=
  if fVsq0 G L q > vsqMax L then fVsq0 G L q * (vsqMax L / fVsq0 G L q) else fVsq0 G L q

/-- `Bdotv`, riemann.hpp:123, 132. -/
noncomputable def fBdotv (G : ADM ℝ) (L : Limits) (q : Prim) : ℝ :=
  let s := ∑ m : Fin 3, ∑ n : Fin 3, G.g4 m.succ n.succ * q.B m * fV0 G L q n
  if fVsq0 G L q > vsqMax L then s * Real.sqrt (vsqMax L / fVsq0 G L q) else s

/-- `BdotB`, riemann.hpp:124. -/
noncomputable def fBdotB (G : ADM ℝ) (q : Prim) : ℝ :=
  ∑ m : Fin 3, ∑ n : Fin 3, G.g4 m.succ n.succ * q.B m * q.B n

/-- final `W`, riemann.hpp:136. -/
noncomputable def fW (G : ADM ℝ) (L : Limits) (q : Prim) : ℝ := 1 / Real.sqrt (1 - fVsq G L q)

/-- `vtil`, riemann.hpp:138. -/
noncomputable def fVtil (G : ADM ℝ) (L : Limits) (q : Prim) (dir : Fin 3) : ℝ :=
  fV G L q dir - G.beta dir / G.alpha

/-- `b0` ("really b0*alpha"), riemann.hpp:150. -/
noncomputable def fb0 (G : ADM ℝ) (L : Limits) (q : Prim) : ℝ := fW G L q * fBdotv G L q

/-- `bsq`, riemann.hpp:151. -/
noncomputable def fbsq (G : ADM ℝ) (L : Limits) (q : Prim) : ℝ :=
  (fBdotB G q + fb0 G L q * fb0 G L q) / (fW G L q * fW G L q)

/-- `bcovm`, riemann.hpp:158, 161-162. -/
noncomputable def fbcov (G : ADM ℝ) (L : Limits) (q : Prim) (m : Fin 3) : ℝ :=
  G.g4 m.succ 0 * fb0 G L q / G.alpha +
  ∑ n : Fin 3, G.g4 m.succ n.succ * (q.B n / fW G L q + fb0 G L q * (fV G L q n - G.beta n / G.alpha))

/-- `vcovm`, riemann.hpp:159, 163. -/
noncomputable def fvcov (G : ADM ℝ) (L : Limits) (q : Prim) (m : Fin 3) : ℝ :=
  ∑ n : Fin 3, G.g4 m.succ n.succ * fV G L q n

/-- `rhohWsq`, riemann.hpp:154. -/
noncomputable def frhohWsq (G : ADM ℝ) (L : Limits) (q : Prim) : ℝ :=
  (fRho L q + fU L q + fP q) * fW G L q * fW G L q

/-- covariant-formulation `ucon`, riemann.hpp:177-179. -/
noncomputable def fucon (G : ADM ℝ) (L : Limits) (q : Prim) : Fin 4 → ℝ :=
  Fin.cons (fW G L q / G.alpha) fun i => fVp G L q i - G.beta i * fW G L q / G.alpha

/-- covariant-formulation `bcon`, riemann.hpp:182-184. -/
noncomputable def fbcon (G : ADM ℝ) (L : Limits) (q : Prim) : Fin 4 → ℝ :=
  Fin.cons (fb0 G L q / G.alpha) fun i => (q.B i + fb0 G L q * fucon G L q i.succ) / fW G L q

/-- the conserved variables `U`, riemann.hpp:140-195. -/
noncomputable def fluxU (valencia : Bool) (G : ADM ℝ) (L : Limits) (ye : ℝ) (q : Prim) : Slots :=
  let W := fW G L q
  let bsq := fbsq G L q
  let bsqWsq := bsq * W * W
  let D := fRho L q * W
  { rho := D
    ye := D * ye
    mom := fun m => (frhohWsq G L q + bsqWsq) * fvcov G L q m - fb0 G L q * fbcov G L q m
    eng :=
      if valencia then frhohWsq G L q + bsqWsq - (fP q + 0.5 * bsq) - fb0 G L q * fb0 G L q - D
      else G.alpha * ((fRho L q + fU L q + fP q + bsq) * fucon G L q 0 * (∑ ν, G.g4 0 ν * fucon G L q ν) +
            fP q + 0.5 * bsq) -
          fbcon G L q 0 * (∑ μ, G.g4 0 μ * fbcon G L q μ) + D
    B := q.B }

/-- the fluxes `F`, riemann.hpp:140-195. -/
noncomputable def fluxF (valencia : Bool) (G : ADM ℝ) (L : Limits) (ye : ℝ) (q : Prim) (dir : Fin 3) : Slots :=
  let U := fluxU valencia G L ye q
  let W := fW G L q
  let bsq := fbsq G L q
  let vtil := fVtil G L q dir
  { rho := U.rho * vtil
    ye := U.ye * vtil
    mom := fun m => U.mom m * vtil + (fP q + 0.5 * bsq) * (if dir = m then 1 else 0) -
      fbcov G L q m * q.B dir / W
    eng :=
      if valencia then U.eng * vtil + (fP q + 0.5 * bsq) * fV G L q dir - fBdotv G L q * q.B dir
      else (fRho L q + fU L q + fP q + bsq) * fucon G L q dir.succ * (∑ ν, G.g4 0 ν * fucon G L q ν) -
          fbcon G L q dir.succ * (∑ μ, G.g4 0 μ * fbcon G L q μ) + fRho L q * fucon G L q dir.succ
    B := fun m => U.B m * vtil - q.B dir * (fV G L q m - G.beta m / G.alpha) }

/-- `cmsq`, riemann.hpp:198-201. -/
noncomputable def fcmsq (eps : ℝ) (G : ADM ℝ) (L : Limits) (gamma1 : ℝ) (q : Prim) : ℝ :=
  let W := fW G L q
  let bsqWsq := fbsq G L q * W * W
  let vasq := bsqWsq / makePositive eps (frhohWsq G L q + bsqWsq)
  let cssq := makeBounded eps (gamma1 * fP q * W * W / makePositive eps (frhohWsq G L q)) 0 1
  makeBounded eps (cssq + vasq * (1 - cssq)) 0 1

/-- characteristic speed formula, riemann.hpp:203-208, as a function of its inputs; `s = +1` gives `vp`, `s = -1`
gives `vm`. -/
noncomputable def charSpeed (eps alpha beta gdd vsq vel cmsq s : ℝ) : ℝ :=
  let vcoff := alpha / (1 - vsq * cmsq)
  let v0 := vel * (1 - cmsq)
  let vpm := Real.sqrt (makePositive eps (cmsq * (1 - vsq) * (gdd * (1 - vsq * cmsq) - vel * v0)))
  vcoff * (v0 + s * vpm) - beta

/-- `llf` combination for one conserved slot, riemann.hpp:269-275. -/
noncomputable def llf (gdet gammadet vml vpl vmr vpr Fl Fr Ul Ur : ℝ) : ℝ :=
  let cmax := max (max (-vml) vpl) (max (-vmr) vpr)
  0.5 * ((Fl + Fr) * gdet - cmax * ((Ur - Ul) * gammadet))

/-- `hll` combination for one conserved slot, riemann.hpp:291-300. -/
noncomputable def hll (small gdet gammadet vml vpl vmr vpr Fl Fr Ul Ur : ℝ) : ℝ :=
  let cl := min (min vml vmr) 0
  let cr := max (max vpl vpr) 0
  ((cr * Fl - cl * Fr) * gdet + cr * cl * (Ur - Ul) * gammadet) * ratio small 1 (cr - cl)

end Phoebus.Riemann
