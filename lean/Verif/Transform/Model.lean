import Verif.Metrics.Model
import Verif.LinAlg.Model
import Mathlib.Analysis.SpecialFunctions.Trigonometric.Inverse
import Mathlib.Analysis.SpecialFunctions.Complex.Arg
import Mathlib.Analysis.SpecialFunctions.Pow.Real

/-!
# Model of coordinate transformations

`/repo/src/geometry/modified_system.hpp`, `mckinney_gammie_ryan.hpp`, `sph2cart.hpp`.
-/
namespace Phoebus.Transform
open Finset GeomUtils Metrics

/-- what a transformation functor writes, modified_system.hpp:40-46: the coordinates of the underlying system and the two
Jacobians. -/
structure Map where
  C : Fin 3 → ℝ
  Jcov : Fin 3 → Fin 3 → ℝ
  Jcon : Fin 3 → Fin 3 → ℝ

/-- a transformation functor, called with `(X1,X2,X3)`.
(modified_system.hpp:40-46.) -/
abbrev Trafo := (Fin 3 → ℝ) → Map

/-- the spatial part of a point.
(Helper.) -/
def space (X : Fin 4 → ℝ) : Fin 3 → ℝ := fun i => X i.succ

/-- the point `(X0, C)` handed to the underlying system.
(Helper: the call arguments used throughout modified_system.hpp:64-234.) -/
def moved (T : Trafo) (X : Fin 4 → ℝ) : Fin 4 → ℝ := Fin.cons (X 0) (T (space X)).C

/-- `S2ST_`, modified_system.hpp:236-243. -/
def s2st (A : Fin 3 → Fin 3 → ℝ) : Fin 4 → Fin 4 → ℝ :=
  Fin.cons (Fin.cons 1 fun _ => 0) fun i => Fin.cons 0 (A i)

/-- `SpacetimeMetric`, modified_system.hpp:87-106. -/
def pullG (T : Trafo) (s : CoordSys) (X : Fin 4 → ℝ) (mu nu : Fin 4) : ℝ :=
  ∑ lam, ∑ kap, s.g (moved T X) lam kap * s2st (T (space X)).Jcov lam mu * s2st (T (space X)).Jcov kap nu

/-- `Lapse`, modified_system.hpp:64-71. -/
def pullLapse (T : Trafo) (s : CoordSys) (X : Fin 4 → ℝ) : ℝ := s.lapse (moved T X)

/-- `MetricDerivative`, modified_system.hpp:187-207. The time derivative comes from the underlying system when the metric
is time dependent; note which point and which Jacobian are used. -/
noncomputable def pullDg (small EPS : ℝ) (tdep : Bool) (T : Trafo) (s : CoordSys) (X : Fin 4 → ℝ) (mu nu sg : Fin 4) : ℝ :=
  if tdep = true ∧ sg = 0 then
    ∑ lam, ∑ kap, s.dg X lam kap 0 * s2st (T (space X)).Jcon mu lam * s2st (T (space X)).Jcon nu kap
  else metricGradientFD small EPS (pullG T s) X mu nu sg

/-- `Modified<System, Transformation, TIME_DEPENDENT>`, modified_system.hpp:52-252.  `EPS` is the finite-difference step
(cube root of machine epsilon), `small` the regulariser of `robust::ratio`. -/
noncomputable def modified (small EPS : ℝ) (tdep : Bool) (T : Trafo) (s : CoordSys) : CoordSys where
  lapse := pullLapse T s
  shift X i := ∑ j, (T (space X)).Jcon i j * s.shift (moved T X) j
  g := pullG T s
  gInv X mu nu := ∑ lam, ∑ kap,
    s.gInv (moved T X) lam kap * s2st (T (space X)).Jcon mu lam * s2st (T (space X)).Jcon nu kap
  gam X i j := ∑ k, ∑ l, s.gam (moved T X) k l * (T (space X)).Jcov k i * (T (space X)).Jcov l j
  gamInv X i j := ∑ k, ∑ l, s.gamInv (moved T X) k l * (T (space X)).Jcon i k * (T (space X)).Jcon j l
  detGamma X := |s.detGamma (moved T X) * LinAlg.det3 (T (space X)).Jcov|
  detG X := |s.detG (moved T X) * LinAlg.det3 (T (space X)).Jcov|
  conn X a b c := connection (pullDg small EPS tdep T s X) a b c
  dg := pullDg small EPS tdep T s
  gradLnAlpha X d := if tdep = true ∧ d = 0 then s.gradLnAlpha X 0 else gradLnAlphaFD small EPS (pullLapse T s) X d

/-! ### McKinney-Gammie-Ryan -/

/-- parameters, mckinney_gammie_ryan.hpp:47-62, 199-208.  The exponents `alpha_` and `hexp_nsq_` are reals in the code; here
natural numbers (the defaults are 14 and 4), so `std::pow` is the ordinary power. -/
structure MGR where
  derefine : Bool
  h : ℝ
  xt : ℝ
  alpha : ℕ
  x0 : ℝ
  smooth : ℝ
  br : ℝ
  nsq : ℕ
  csq : ℝ

variable (p : MGR)

/-- `GetNorm_`, mckinney_gammie_ryan.hpp:196-198. -/
noncomputable def MGR.norm : ℝ := 0.5 * Real.pi * 1 / (1 + 1 / ((p.alpha : ℝ) + 1) * 1 / p.xt ^ p.alpha)

/-- the hyperexponential switch `(hexp_dr > 0.)`.
(mckinney_gammie_ryan.hpp, the comparison used in the code cited below.) -/
noncomputable def MGR.sw (X1 : ℝ) : ℝ := if X1 - p.br > 0 then 1 else 0

/-- `r_`, mckinney_gammie_ryan.hpp:155-158. -/
noncomputable def MGR.r (X1 : ℝ) : ℝ := Real.exp (X1 + p.sw X1 * p.csq * (X1 - p.br) ^ p.nsq)

/-- `thG_`, mckinney_gammie_ryan.hpp:187-189. -/
noncomputable def MGR.thG (X2 : ℝ) : ℝ := Real.pi * X2 + ((1 - p.h) / 2) * Real.sin (2 * Real.pi * X2)

/-- `thJ_`, mckinney_gammie_ryan.hpp:191-194. -/
noncomputable def MGR.thJ (X2 : ℝ) : ℝ :=
  let y := 2 * X2 - 1
  p.norm * y * (1 + (y / p.xt) ^ p.alpha / ((p.alpha : ℝ) + 1)) + 0.5 * Real.pi

/-- `th_` before the pole fix, mckinney_gammie_ryan.hpp:160-170. -/
noncomputable def MGR.thRaw (X1 X2 : ℝ) : ℝ :=
  if p.derefine = true then p.thG X2 + Real.exp (p.smooth * (p.x0 - X1)) * (p.thJ X2 - p.thG X2) else p.thG X2

/-- the pole fix, mckinney_gammie_ryan.hpp:171-184; `ss` is `SINGSMALL`. -/
noncomputable def poleFix (ss th : ℝ) : ℝ :=
  let th := if |th| < ss then (if th ≥ 0 then ss else if th < 0 then -ss else th) else th
  if |Real.pi - th| < ss then (if th ≥ Real.pi then Real.pi + ss else if th < Real.pi then Real.pi - ss else th) else th

/-- `drdX1`, mckinney_gammie_ryan.hpp:76-79. -/
noncomputable def MGR.drdX1 (X1 : ℝ) : ℝ :=
  Real.exp (X1 + p.sw X1 * p.csq * (X1 - p.br) ^ p.nsq) *
    (1 + p.sw X1 * p.csq * (p.nsq : ℝ) * (X1 - p.br) ^ (p.nsq - 1))

/-- `dthGdX2`, mckinney_gammie_ryan.hpp:80. -/
noncomputable def MGR.dthG (X2 : ℝ) : ℝ := Real.pi + Real.pi * (1 - p.h) * Real.cos (2 * Real.pi * X2)

/-- `dthdX1`, mckinney_gammie_ryan.hpp:82-94. -/
noncomputable def MGR.dthdX1 (X1 X2 : ℝ) : ℝ :=
  if p.derefine = true then -p.smooth * (p.thJ X2 - p.thG X2) * Real.exp (p.smooth * (p.x0 - X1)) else 0

/-- `dthdX2`, mckinney_gammie_ryan.hpp:82-94. -/
noncomputable def MGR.dthdX2 (X1 X2 : ℝ) : ℝ :=
  if p.derefine = true then
    let dthJ := p.norm * (1 + ((2 * X2 - 1) / p.xt) ^ p.alpha) * 2
    p.dthG X2 + Real.exp (p.smooth * (p.x0 - X1)) * (dthJ - p.dthG X2)
  else p.dthG X2

/-- `operator()`, mckinney_gammie_ryan.hpp:64-108; `small` regularises `robust::ratio`, `ss` is `SINGSMALL`. -/
noncomputable def MGR.trafo (small ss : ℝ) : Trafo := fun X =>
  let drdX1 := p.drdX1 (X 0)
  let dthdX1 := p.dthdX1 (X 0) (X 1)
  let dthdX2 := p.dthdX2 (X 0) (X 1)
  { C := ![p.r (X 0), poleFix ss (p.thRaw (X 0) (X 1)), X 2]
    Jcov := ![![drdX1, 0, 0], ![dthdX1, dthdX2, 0], ![0, 0, 1]]
    Jcon := ![![Robust.ratio small 1 drdX1, 0, 0],
      ![-Robust.ratio small dthdX1 (drdX1 * dthdX2), Robust.ratio small 1 dthdX2, 0], ![0, 0, 1]] }

/-- `bl_to_ks`, mckinney_gammie_ryan.hpp:120-133. -/
noncomputable def MGR.blToKs (x1 a : ℝ) (u : Fin 4 → ℝ) : Fin 4 → ℝ :=
  let r := p.r x1
  let idenom := 1 / (r * r - 2 * r + a * a)
  let trans : Fin 4 → Fin 4 → ℝ := ![![1, 2 * r * idenom, 0, 0], ![0, 1, 0, 0], ![0, 0, 1, 0], ![0, a * idenom, 0, 1]]
  fun mu => ∑ nu, trans mu nu * u nu

/-- `bl_to_fmks`, mckinney_gammie_ryan.hpp:136-151. -/
noncomputable def MGR.blToFmks (small ss : ℝ) (X : Fin 3 → ℝ) (a : ℝ) (u : Fin 4 → ℝ) : Fin 4 → ℝ :=
  fun mu => ∑ nu, s2st (p.trafo small ss X).Jcon mu nu * p.blToKs (X 0) a u nu

/-! ### Spherical to Cartesian -/

/-- `GetCoordsAndTranscendentals`, sph2cart.hpp:107-120: `(r, th, ph)`; `small` regularises `robust::ratio`, `eps`
`make_positive`; `std::atan2(y,x)` is the argument of `x + iy`. -/
noncomputable def sphCoords (small eps : ℝ) (x y z : ℝ) : ℝ × ℝ × ℝ :=
  let r2 := Robust.makePositive eps (x * x + y * y + z * z)
  let r := Real.sqrt r2
  let th := Robust.makePositive eps (Real.arccos (Robust.ratio small z r))
  (r, th, Complex.arg ⟨x, y⟩)

/-- `operator()`, sph2cart.hpp:46-105. -/
noncomputable def sph2cart (small eps : ℝ) : Trafo := fun X =>
  let r := (sphCoords small eps (X 0) (X 1) (X 2)).1
  let th := (sphCoords small eps (X 0) (X 1) (X 2)).2.1
  let ph := (sphCoords small eps (X 0) (X 1) (X 2)).2.2
  let sth := Real.sin th
  let cth := Real.cos th
  let sph := Real.sin ph
  let cph := Real.cos ph
  { C := ![r, th, ph]
    Jcov := ![![sth * cph, sth * sph, cth],
      ![Robust.ratio small (cth * cph) r, Robust.ratio small (cth * sph) r, -Robust.ratio small sth r],
      ![-Robust.ratio small sph (r * sth), Robust.ratio small cph (r * sth), 0]]
    Jcon := ![![sth * cph, r * cth * cph, -r * sth * sph], ![sth * sph, r * cth * sph, r * sth * cph],
      ![cth, -r * sth, 0]] }

/-- `GetCoordsAndDerivatives`, sph2cart.hpp:122-131: returned `(dr, dth, dph)`. -/
noncomputable def sphDerivs (small eps : ℝ) (x y z dx dy dz : ℝ) : ℝ × ℝ × ℝ :=
  let r := (sphCoords small eps x y z).1
  let th := (sphCoords small eps x y z).2.1
  let ph := (sphCoords small eps x y z).2.2
  (dz * Real.cos th + Real.sin th * (dx * Real.cos ph + dy * Real.sin ph),
   r * (-dz * Real.sin th + Real.cos th * (dx * Real.cos ph + dy * Real.sin ph)),
   r * Real.sin th * (dy * Real.cos ph - dx * Real.sin ph))

end Phoebus.Transform
