import Verif.Metrics.Spec

/-!
# Models of the analytic coordinate systems

`/repo/src/geometry/{minkowski,spherical_minkowski,boosted_minkowski,snake,inchworm,flrw,spherical_kerr_schild,
boyer_lindquist}.hpp`.  Each record lists the bodies of the class's member functions over the reals; `small` is the
regulariser of `robust::ratio`.  Arrays filled by `SetZero` followed by assignments are written as literals.
-/
namespace Phoebus.Metrics
open Real

/-- arrays that are zero except for the listed entry.
(Helper: LinearAlgebra::SetZero followed by one store.) -/
def zero3 : Fin 4 → Fin 4 → Fin 4 → ℝ := fun _ _ _ => 0

/-- `Minkowski`, minkowski.hpp:35-112. -/
def minkowski : CoordSys where
  lapse _ := 1
  shift _ _ := 0
  g _ m n := if m = n then (if m = 0 then -1 else 1) else 0
  gInv _ m n := if m = n then (if m = 0 then -1 else 1) else 0
  gam _ i j := if i = j then 1 else 0
  gamInv _ i j := if i = j then 1 else 0
  detGamma _ := 1
  detG _ := 1
  conn _ := zero3
  dg _ := zero3
  gradLnAlpha _ _ := 0

/-- `BoostedMinkowski(vx,vy,vz)`, boosted_minkowski.hpp:42-117. -/
def boosted (vx vy vz : ℝ) : CoordSys where
  lapse _ := 1
  shift _ := ![vx, vy, vz]
  g _ := ![![-1 + vx * vx + vy * vy + vz * vz, vx, vy, vz], ![vx, 1, 0, 0], ![vy, 0, 1, 0], ![vz, 0, 0, 1]]
  gInv _ := ![![-1, vx, vy, vz], ![vx, 1 - vx * vx, -vx * vy, -vx * vz], ![vy, -vx * vy, 1 - vy * vy, -vy * vz],
    ![vz, -vx * vz, -vy * vz, 1 - vz * vz]]
  gam _ := ![![1, 0, 0], ![0, 1, 0], ![0, 0, 1]]
  gamInv _ := ![![1, 0, 0], ![0, 1, 0], ![0, 0, 1]]
  detGamma _ := 1
  detG _ := 1
  conn _ := zero3
  dg _ := zero3
  gradLnAlpha _ _ := 0

/-- `BoostedMinkowski::Coords`, boosted_minkowski.hpp:111-116: the inertial coordinates of the point. -/
def boostedCoords (vx vy vz : ℝ) (X : Fin 4 → ℝ) : Fin 4 → ℝ :=
  ![X 0, X 1 + vx * X 0, X 2 + vy * X 0, X 3 + vz * X 0]

/-- `SphericalMinkowski`, spherical_minkowski.hpp:36-125. -/
noncomputable def sphMinkowski (small : ℝ) : CoordSys where
  lapse _ := 1
  shift _ _ := 0
  g X := ![![-1, 0, 0, 0], ![0, 1, 0, 0], ![0, 0, X 1 * X 1, 0], ![0, 0, 0, X 1 * X 1 * (sin (X 2) * sin (X 2))]]
  gInv X := ![![-1, 0, 0, 0], ![0, 1, 0, 0], ![0, 0, Robust.ratio small 1 (X 1 * X 1), 0],
    ![0, 0, 0, Robust.ratio small 1 (X 1 * X 1 * sin (X 2) * sin (X 2))]]
  gam X := ![![1, 0, 0], ![0, X 1 * X 1, 0], ![0, 0, X 1 * sin (X 2) * (X 1 * sin (X 2))]]
  gamInv X := ![![1, 0, 0], ![0, Robust.ratio small 1 (X 1 * X 1), 0],
    ![0, 0, Robust.ratio small 1 (X 1 * X 1 * sin (X 2) * sin (X 2))]]
  detGamma X := X 1 * X 1 * |sin (X 2)|
  detG X := X 1 * X 1 * |sin (X 2)|
  dg X := fun m n sg =>
    let r := |X 1|
    if m = 2 ∧ n = 2 ∧ sg = 1 then 2 * r
    else if m = 3 ∧ n = 3 ∧ sg = 1 then 2 * r * sin (X 2) * sin (X 2)
    else if m = 3 ∧ n = 3 ∧ sg = 2 then r * r * sin (2 * X 2) else 0
  conn X := GeomUtils.connection fun m n sg =>
    let r := |X 1|
    if m = 2 ∧ n = 2 ∧ sg = 1 then 2 * r
    else if m = 3 ∧ n = 3 ∧ sg = 1 then 2 * r * sin (X 2) * sin (X 2)
    else if m = 3 ∧ n = 3 ∧ sg = 2 then r * r * sin (2 * X 2) else 0
  gradLnAlpha _ _ := 0

/-- `Snake::GetDelta` and `Inchworm::GetDelta`, snake.hpp:152 and inchworm.hpp:158-159. -/
noncomputable def delta (a k x : ℝ) : ℝ := a * k * cos (k * x)

/-- `Snake(a,k,alpha,vy)`, snake.hpp:35-143. -/
noncomputable def snake (a k al vy : ℝ) : CoordSys where
  lapse _ := al
  shift _ := ![0, vy, 0]
  g X := let d := delta a k (X 1)
    ![![(vy - al) * (vy + al), -d * vy, vy, 0], ![-d * vy, 1 + d * d, -d, 0], ![vy, -d, 1, 0], ![0, 0, 0, 1]]
  gInv X := let d := delta a k (X 1)
    let ialpha2 := 1 / (al * al)
    ![![-ialpha2, 0, vy * ialpha2, 0], ![0, 1, d, 0], ![vy * ialpha2, d, 1 - vy * vy * ialpha2 + d * d, 0], ![0, 0, 0, 1]]
  gam X := let d := delta a k (X 1)
    ![![d * d + 1, -d, 0], ![-d, 1, 0], ![0, 0, 1]]
  gamInv X := let d := delta a k (X 1)
    ![![1, d, 0], ![d, d * d + 1, 0], ![0, 0, 1]]
  detGamma _ := 1
  detG _ := al
  conn X := fun m n sg =>
    if m = 0 ∧ n = 1 ∧ sg = 1 then a * (k * k) * vy * sin (k * X 1)
    else if m = 1 ∧ n = 1 ∧ sg = 1 then -(a * a) * (k * k * k) * sin (2 * k * X 1) / 2
    else if m = 2 ∧ n = 1 ∧ sg = 1 then a * (k * k) * sin (k * X 1) else 0
  dg X := fun m n sg =>
    if sg = 1 ∧ ((m = 0 ∧ n = 1) ∨ (m = 1 ∧ n = 0)) then a * (k * k) * vy * sin (k * X 1)
    else if m = 1 ∧ n = 1 ∧ sg = 1 then -(a * a) * (k * k * k) * sin (2 * k * X 1)
    else if sg = 1 ∧ ((m = 2 ∧ n = 1) ∨ (m = 1 ∧ n = 2)) then a * (k * k) * sin (k * X 1) else 0
  gradLnAlpha _ _ := 0

/-- `Inchworm(a,k)`, inchworm.hpp:35-160. -/
noncomputable def inchworm (a k : ℝ) : CoordSys where
  lapse _ := 1
  shift _ _ := 0
  g X m n := if m = 1 ∧ n = 1 then (delta a k (X 1) - 1) ^ 2 else if m = n then (if m = 0 then -1 else 1) else 0
  gInv X m n := if m = 1 ∧ n = 1 then ((delta a k (X 1) - 1) ^ 2)⁻¹ else if m = n then (if m = 0 then -1 else 1) else 0
  gam X m n := if m = 0 ∧ n = 0 then (delta a k (X 1) - 1) ^ 2 else if m = n then 1 else 0
  gamInv X m n := if m = 0 ∧ n = 0 then ((delta a k (X 1) - 1) ^ 2)⁻¹ else if m = n then 1 else 0
  detGamma X := √(delta a k (X 1) ^ 2 - 2 * delta a k (X 1) + 1)
  detG X := √(delta a k (X 1) ^ 2 - 2 * delta a k (X 1) + 1)
  conn X := fun m n sg => if m = 1 ∧ n = 1 ∧ sg = 1 then a * (k * k) * (-delta a k (X 1) + 1) * sin (k * X 1) else 0
  dg X := fun m n sg => if m = 1 ∧ n = 1 ∧ sg = 1 then 2 * a * (k * k) * (-delta a k (X 1) + 1) * sin (k * X 1) else 0
  gradLnAlpha _ _ := 0

/-- `FLRW::a_`, flrw.hpp:122-123. -/
def scaleFactor (a0 dadt t : ℝ) : ℝ := a0 + dadt * t

/-- `FLRW(a0,dadt)`, flrw.hpp:41-126. -/
noncomputable def flrw (small a0 dadt : ℝ) : CoordSys where
  lapse _ := 1
  shift _ _ := 0
  g X := let a := scaleFactor a0 dadt (X 0)
    ![![-1, 0, 0, 0], ![0, a * a, 0, 0], ![0, 0, a * a, 0], ![0, 0, 0, a * a]]
  gInv X := let a := scaleFactor a0 dadt (X 0)
    ![![-1, 0, 0, 0], ![0, Robust.ratio small 1 (a * a), 0, 0], ![0, 0, Robust.ratio small 1 (a * a), 0],
      ![0, 0, 0, Robust.ratio small 1 (a * a)]]
  gam X := let a := scaleFactor a0 dadt (X 0)
    ![![a * a, 0, 0], ![0, a * a, 0], ![0, 0, a * a]]
  gamInv X := let a := scaleFactor a0 dadt (X 0)
    ![![Robust.ratio small 1 (a * a), 0, 0], ![0, Robust.ratio small 1 (a * a), 0], ![0, 0, Robust.ratio small 1 (a * a)]]
  detGamma X := let a := scaleFactor a0 dadt (X 0); a * a * a
  detG X := let a := scaleFactor a0 dadt (X 0); a * a * a
  conn X := fun m n sg => let aadot := scaleFactor a0 dadt (X 0) * dadt
    if m = 0 ∧ n = sg ∧ n ≠ 0 then -aadot
    else if m ≠ 0 ∧ ((n = 0 ∧ sg = m) ∨ (n = m ∧ sg = 0)) then aadot else 0
  dg X := fun m n sg => if m = n ∧ m ≠ 0 ∧ sg = 0 then 2 * scaleFactor a0 dadt (X 0) * dadt else 0
  gradLnAlpha _ _ := 0

section KerrSchild
/-- `rho2_`, spherical_kerr_schild.hpp:237-240. -/
noncomputable def rho2 (a r cth : ℝ) : ℝ := r * r + a * a * cth * cth

/-- the metric derivative of spherical Kerr-Schild, spherical_kerr_schild.hpp:154-194 (`r = |X1|`). -/
noncomputable def ksDg (small a r th : ℝ) : Fin 4 → Fin 4 → Fin 4 → ℝ :=
  let cth := cos th
  let sth := sin th
  let sth2 := sth * sth
  let a2 := a * a
  let rh := rho2 a r cth
  let rho4 := rh * rh
  let r2 := r * r
  let r3 := r2 * r
  let r4 := r2 * r2
  let r5 := r4 * r
  let a4 := a2 * a2
  let cth2 := cth * cth
  let s2th := sin (2 * th)
  let c2th := cos (2 * th)
  let d001 := 2 * Robust.ratio small (rh - 2 * r2) rho4
  let d031 := Robust.ratio small (2 * a * (r2 - a2 * cth2) * sth2) rho4
  let d331 := Robust.ratio small (2 * sth2 * (r5 + a4 * r * cth2 * cth2 - a2 * r2 * sth2 + cth2 * (2 * a2 * r3 + a4 * sth2))) rho4
  let d002 := Robust.ratio small (4 * r * (rh - r2) * sth) (rho4 * cth)
  let d032 := -Robust.ratio small (2 * a * r * (a2 + r2) * s2th) rho4
  let d132 := -Robust.ratio small (2 * a * cth * (r3 * (2 + r) + a4 * cth2 * cth2 + a2 * r * (2 + r + r * c2th)) * sth) rho4
  let d332 := (a2 + r * (r - 2) + Robust.ratio small (2 * r * (a2 + r2) * (a2 + r2)) rho4) * s2th
  fun m n sg =>
    if sg = 1 then
      (![![d001, d001, 0, d031], ![d001, d001, 0, d031], ![0, 0, 2 * r, 0], ![d031, d031, 0, d331]] : Fin 4 → Fin 4 → ℝ) m n
    else if sg = 2 then
      (![![d002, d002, 0, d032], ![d002, d002, 0, d132], ![0, 0, -a2 * s2th, 0], ![d032, d132, 0, d332]] : Fin 4 → Fin 4 → ℝ) m n
    else 0

/-- the 4-metric of spherical Kerr-Schild, spherical_kerr_schild.hpp:67-83. -/
noncomputable def ksG (small a r th : ℝ) : Fin 4 → Fin 4 → ℝ :=
  let cth := cos th
  let sth2 := sin th * sin th
  let rh := rho2 a r cth
  let g01 := Robust.ratio small (2 * r) rh
  let g03 := -Robust.ratio small (2 * a * r * sth2) rh
  let g13 := -a * (1 + g01) * sth2
  ![![-1 + g01, g01, 0, g03], ![g01, 1 + g01, 0, g13], ![0, 0, rh, 0], ![g03, g13, 0, (rh + a * a * (1 + g01) * sth2) * sth2]]

/-- `SphericalKerrSchild(a)`, spherical_kerr_schild.hpp:42-243. -/
noncomputable def kerrSchild (small a : ℝ) : CoordSys where
  lapse X := let r := |X 1|
    √(Robust.ratio small (rho2 a r (cos (X 2))) (2 * r + rho2 a r (cos (X 2))))
  shift X := let r := |X 1|
    ![Robust.ratio small (2 * r) (2 * r + rho2 a r (cos (X 2))), 0, 0]
  g X := ksG small a |X 1| (X 2)
  gInv X := let r := |X 1|
    let sth2 := sin (X 2) * sin (X 2)
    let rh := rho2 a r (cos (X 2))
    let g01 := Robust.ratio small (2 * r) rh
    let g13 := Robust.ratio small a rh
    ![![-1 - g01, g01, 0, 0], ![g01, Robust.ratio small (-2 * r + rh + a * a * sth2) rh, 0, g13],
      ![0, 0, Robust.ratio small 1 rh, 0], ![0, g13, 0, Robust.ratio small 1 (rh * sth2)]]
  gam X := let r := |X 1|
    let sth2 := sin (X 2) * sin (X 2)
    let rh := rho2 a r (cos (X 2))
    let br := Robust.ratio small (2 * r) rh
    ![![1 + br, 0, -a * (1 + br) * sth2], ![0, rh, 0], ![-a * (1 + br) * sth2, 0, (rh + a * a * (1 + br) * sth2) * sth2]]
  gamInv X := let r := |X 1|
    let sth2 := sin (X 2) * sin (X 2)
    let rh := rho2 a r (cos (X 2))
    ![![Robust.ratio small rh (2 * r + rh) + Robust.ratio small (a * a * sth2) rh, 0, Robust.ratio small a rh],
      ![0, Robust.ratio small 1 rh, 0], ![Robust.ratio small a rh, 0, Robust.ratio small 1 (rh * sth2)]]
  detGamma X := let r := |X 1|
    let rh := rho2 a r (cos (X 2))
    √|rh * (2 * r + rh) * (sin (X 2) * sin (X 2))|
  detG X := let rh := rho2 a |X 1| (cos (X 2))
    √|rh * rh * (sin (X 2) * sin (X 2))|
  dg X := ksDg small a |X 1| (X 2)
  conn X := fun c b e => let dg := ksDg small a |X 1| (X 2); 1 / 2 * (dg c e b + dg c b e - dg e b c)
  gradLnAlpha X := let r := |X 1|
    let rh := rho2 a r (cos (X 2))
    ![0, Robust.ratio small r rh - Robust.ratio small (1 + r) (2 * r + rh),
      -Robust.ratio small (2 * (a * a) * r * cos (X 2) * sin (X 2)) (2 * r * rh + rh * rh), 0]
end KerrSchild

section BoyerLindquist
/-- `DD` of `ComputeDeltaMu_`, boyer_lindquist.hpp:278. -/
noncomputable def blDD (small a r : ℝ) : ℝ := 1 - Robust.ratio small 2 r + Robust.ratio small (a * a) (r * r)

/-- `mu` of `ComputeDeltaMu_`, boyer_lindquist.hpp:279. -/
noncomputable def blMu (small a r th : ℝ) : ℝ := 1 + Robust.ratio small (a * a * cos th * cos th) (r * r)

/-- `BoyerLindquist::Lapse`, boyer_lindquist.hpp:45-58. -/
noncomputable def blLapse (small a r th : ℝ) : ℝ :=
  let DD := blDD small a r
  let mu := blMu small a r th
  let r2 := r * r
  let r3 := r2 * r
  let num := a * a * (2 * r * mu - 4) + r2 * (-4 + r * mu * (2 - 2 * DD + r * DD * mu)) + 4 * (a * a) * sin th * sin th
  let den := r3 * DD * mu * (r * mu - 2)
  √(Robust.ratio small num den)

/-- `BoyerLindquist::SpacetimeMetric`, boyer_lindquist.hpp:72-87. -/
noncomputable def blG (small a r th : ℝ) : Fin 4 → Fin 4 → ℝ :=
  let DD := blDD small a r
  let mu := blMu small a r th
  let r2 := r * r
  let r3 := r2 * r
  let sth2 := sin th * sin th
  let g03 := -Robust.ratio small (2 * a * sth2) (r * mu)
  ![![-(1 - Robust.ratio small 2 (r * mu)), 0, 0, g03], ![0, mu / DD, 0, 0], ![0, 0, r2 * mu, 0],
    ![g03, 0, 0, r2 * sth2 * (1 + Robust.ratio small (a * a) r2 + Robust.ratio small (2 * (a * a) * sth2) (r3 * mu))]]

/-- `BoyerLindquist::SpacetimeMetricInverse`, boyer_lindquist.hpp:88-111. -/
noncomputable def blGInv (small a r th : ℝ) : Fin 4 → Fin 4 → ℝ :=
  let DD := blDD small a r
  let mu := blMu small a r th
  let r2 := r * r
  let r3 := r2 * r
  let r3dm := r3 * DD * mu
  let rm := r * mu
  let rm2 := rm - 2
  let sth2 := sin th * sin th
  let cd := 2 * (a * a) * rm2 + r2 * (-4 + rm * (2 + DD * rm2)) + 4 * (a * a) * sth2
  let g03 := -Robust.ratio small (a * r3dm * sth2)
    (a * a * rm2 + r2 * (-2 + rm * (1 - DD + 1 / 2 * DD * rm)) + 2 * (a * a) * sth2)
  ![![Robust.ratio small (-r3dm * rm2) cd, 0, 0, g03], ![0, Robust.ratio small mu DD, 0, 0], ![0, 0, r2 * mu, 0],
    ![g03, 0, 0, Robust.ratio small (r3dm * (2 * (a * a) + r2 * (2 + DD * rm)) * sth2) cd]]

/-- `BoyerLindquist::Metric`, boyer_lindquist.hpp:112-125. -/
noncomputable def blGam (small a r th : ℝ) : Fin 3 → Fin 3 → ℝ :=
  let DD := blDD small a r
  let mu := blMu small a r th
  ![![Robust.ratio small DD mu, 0, 0], ![0, Robust.ratio small 1 (r * r * mu), 0],
    ![0, 0, Robust.ratio small ((r * mu - 2) * sin th * sin th) (r * r * r * DD * mu)]]
end BoyerLindquist

end Phoebus.Metrics
