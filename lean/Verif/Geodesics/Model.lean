import Verif.GeomUtils.Model

/-!
# Model of `/repo/src/radiation/geodesics.hpp`

The geometry object is the function `gcon` from a spacetime point to `SpacetimeMetricInverse` there.  Points and wave
vectors, which the code passes as four scalars, are functions on `Fin 4`.
-/
namespace Phoebus.Geodesics
open Finset GeomUtils
variable {K : Type*} [Field K]

/-- `GetXSource`, geodesics.hpp:30-36. -/
def xSource (kcon : Fin 4 → K) : Fin 4 → K := ![1, kcon 1 / kcon 0, kcon 2 / kcon 0, kcon 3 / kcon 0]

/-- `DELTA`, geodesics.hpp:53. -/
def delta : K := 1 / 1000000

/-- `GetKSource`, geodesics.hpp:38-77.  `minkowski` is the compile-time test at 43. -/
def kSource (minkowski : Bool) (gcon : (Fin 4 → K) → Fin 4 → Fin 4 → K) (X kcov : Fin 4 → K) (kcon0 : K) : Fin 4 → K :=
  if minkowski then fun _ => 0
  else fun mu =>
    let Xm := Function.update X mu (X mu - delta)
    let Xp := Function.update X mu (X mu + delta)
    let Gm := gcon Xm
    let Gp := gcon Xp
    (∑ nu, ∑ kap, kcov nu * kcov kap * ((Gp nu kap - Gm nu kap) / (Xp mu - Xm mu))) * (-1 / (2 * kcon0))

/-- position and covariant wave vector of a particle.
(The first eight arguments of `PushParticle`, geodesics.hpp:79-83.) -/
structure Ray (K : Type*) where
  X : Fin 4 → K
  k : Fin 4 → K

/-- `PushParticle`, geodesics.hpp:79-122. -/
def push (minkowski : Bool) (gcon : (Fin 4 → K) → Fin 4 → Fin 4 → K) (dt : K) (p : Ray K) : Ray K :=
  let kcon := raise (gcon p.X) p.k
  let c1 := xSource kcon
  let d1 := kSource minkowski gcon p.X p.k (kcon 0)
  let Xtmp : Fin 4 → K := fun mu => p.X mu + dt * c1 mu
  let ktmp : Fin 4 → K := fun mu => p.k mu + dt * d1 mu
  let kcon2 := raise (gcon Xtmp) ktmp
  let c2 := xSource kcon2
  let d2 := kSource minkowski gcon p.X ktmp (kcon2 0)
  { X := fun mu => p.X mu + 1 / 2 * dt * (c1 mu + c2 mu)
    k := fun mu => p.k mu + 1 / 2 * dt * (d1 mu + d2 mu) }

/-- a history of pushes (monte_carlo.cpp and mocmc.cpp call `PushParticle` once per step).
(Call sites: monte_carlo.cpp:530 and mocmc.cpp:508.) -/
def pushes (minkowski : Bool) (gcon : (Fin 4 → K) → Fin 4 → Fin 4 → K) (dts : List K) (p : Ray K) : Ray K :=
  dts.foldl (fun q dt => push minkowski gcon dt q) p

end Phoebus.Geodesics
