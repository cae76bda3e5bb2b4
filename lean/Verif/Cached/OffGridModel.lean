import Verif.Cached.Model
import Verif.Interp.Model

/-!
# Cached geometry at arbitrary positions, `/repo/src/geometry/cached_system.hpp`

The overloads that take coordinates interpolate the stored cell-centred values.  `ax b d` is direction `d` of block `b` as seen by the
pack: first centre, width and extent (`pack.GetDim(d+1)`, that of the first variable of the pack, so the extent of direction 3 is one
for an axisymmetric cache).
-/
namespace Phoebus.Cached
open GeomUtils
variable {K : Type*} [Field K] [LinearOrder K] [IsStrictOrderedRing K] [FloorRing K] {td : Bool}

/-- `LCInterp::Do(b, X1, X2, X3, pack_, v)`, phoebus_interpolation.hpp:210-220 on the pack. -/
def readAt (small : K) (ax : ℤ → Fin 3 → Interp.Axis K) (m : Mem K) (b : ℤ) (X : Fin 3 → K) (n : ℕ) : K :=
  Interp.doInterp small (ax b 0) (ax b 1) (ax b 2) (X 0) (X 1) (X 2) fun k j i => m ⟨b, k, j, i⟩ n

section
variable (L : Layout td) (small : K) (ax : ℤ → Fin 3 → Interp.Axis K) (m : Mem K)

/-- `Cached::Lapse(b, X0, X1, X2, X3)`, cached_system.hpp:132-135. -/
def lapseAt (b : ℤ) (X : Fin 3 → K) : K := readAt small ax m b X (L.base (.alpha .Cent))

/-- `Cached::Lapse(X0, X1, X2, X3)`, cached_system.hpp:136-139: block zero. The first argument is not used. -/
def lapseAt4 (_X0 : K) (X : Fin 3 → K) : K := lapseAt L small ax m 0 X

/-- `Cached::ContravariantShift(b, ...)`, cached_system.hpp:151-155. -/
def shiftAt (b : ℤ) (X : Fin 3 → K) (d : Fin 3) : K := readAt small ax m b X (L.base (.bcon .Cent) + d)

/-- `Cached::Metric(b, ...)`, cached_system.hpp:173-180. -/
def metricAt (b : ℤ) (X : Fin 3 → K) (p q : Fin 3) : K :=
  readAt small ax m b X (L.base (.gcov .Cent) + flatten2 p.succ q.succ)

/-- `Cached::MetricInverse(b, ...)`, cached_system.hpp:200-207. -/
def metricInverseAt (b : ℤ) (X : Fin 3 → K) (p q : Fin 3) : K :=
  readAt small ax m b X (L.base (.gamcon .Cent) + flatten2 p.castSucc q.castSucc)

/-- `Cached::SpacetimeMetric(b, ...)`, cached_system.hpp:229-236. -/
def metric4At (b : ℤ) (X : Fin 3 → K) (p q : Fin 4) : K :=
  readAt small ax m b X (L.base (.gcov .Cent) + flatten2 p q)

/-- `Cached::SpacetimeMetricInverse(b, ...)`, cached_system.hpp:257-274.  The call `Lapse(b, X1, X2, X3)` has four arguments, so it is
the overload `Lapse(X0, X1, X2, X3)` with the block number as the time: the lapse of block zero. -/
def metric4InverseAt (b : ℤ) (X : Fin 3 → K) : Fin 4 → Fin 4 → K :=
  let alpha2 := lapseAt4 L small ax m (b : K) X * lapseAt4 L small ax m (b : K) X
  let g0 : Fin 3 → K := fun d => Robust.ratio small (readAt small ax m b X (L.base (.bcon .Cent) + d)) alpha2
  Fin.cons (Fin.cons (0 - Robust.ratio small 1 alpha2) g0) fun p =>
    Fin.cons (g0 p) fun q =>
      readAt small ax m b X (L.base (.gamcon .Cent) + flatten2 p.castSucc q.castSucc) - g0 p * g0 q * alpha2

/-- `Cached::DetGamma(b, ...)`, cached_system.hpp:305-308. -/
def detGammaAt (b : ℤ) (X : Fin 3 → K) : K := readAt small ax m b X (L.base (.detgam .Cent))

/-- `Cached::DetG(b, ...)`, cached_system.hpp:324-327. -/
def detGAt (b : ℤ) (X : Fin 3 → K) : K := lapseAt L small ax m b X * detGammaAt L small ax m b X

/-- `Cached::MetricDerivative(b, ...)`, cached_system.hpp:356-368 (index re-associated as in `rDg`). -/
def dgAt (b : ℤ) (X : Fin 3 → K) (mu nu sg : Fin 4) : K :=
  if offset td ≤ (sg : ℕ) then readAt small ax m b X (nvarDeriv td * flatten2 mu nu + L.base .dg + sg - offset td) else 0

/-- `Cached::ConnectionCoefficient(b, ...)`, cached_system.hpp:328-334. -/
def connectionAt (b : ℤ) (X : Fin 3 → K) : Fin 4 → Fin 4 → Fin 4 → K := connection (dgAt L small ax m b X)

/-- `Cached::GradLnAlpha(b, ...)`, cached_system.hpp:395-402. -/
def gradLnAlphaAt (b : ℤ) (X : Fin 3 → K) (d : Fin 4) : K :=
  if offset td ≤ (d : ℕ) then readAt small ax m b X (L.base .dalpha + d - offset td) else 0

/-- `Cached::Coords(b, ...)`, cached_system.hpp:422-428: as on the grid, stored component `d` is returned as component `d+1`. -/
def coordsAt (b : ℤ) (X : Fin 3 → K) : Fin 4 → K := Fin.cons 0 fun d : Fin 3 => readAt small ax m b X (L.base .coordC + d)
end

end Phoebus.Cached
