import Verif.Rel.Model

/-!
# Model of `/repo/src/analysis/history.cpp`, `history.hpp` and `history_utils.hpp`

Parthenon's uniform coordinates are `xf i = x0 + i dx`, `xc i = x0 + (i + 1/2) dx`, with one `x0`, `dx` per block.  A
`par_reduce` is a sum over the index box (reduction order is Kokkos', outside the model).
-/
namespace Phoebus.History
open Finset Geom Robust

/-- coordinates of a block in the first direction.
(Parthenon contract or data type, no code of the repository.) -/
structure Coords (K : Type*) where
  x0 : K
  dx : K

section
variable {K : Type*} [Field K] [LinearOrder K]

/-- `coords.Xf<1>(i)` (Parthenon, trusted).
(Parthenon contract or data type, no code of the repository.) -/
def Coords.xf (c : Coords K) (i : ℤ) : K := c.x0 + i * c.dx
/-- `coords.Xc<1>(i)` (Parthenon, trusted).
(Parthenon contract or data type, no code of the repository.) -/
def Coords.xc (c : Coords K) (i : ℤ) : K := c.x0 + (i + 1 / 2) * c.dx

/-- body of the reduction of `ReduceMassAccretionRate`, history.cpp:50-69 (and, with `gate` the test `sigma > sigma_cutoff`, of
`ReduceJetEnergyFlux`, 104-128, and `ReduceJetMomentumFlux`, 164-188): `f i` is the flux of cell `i`, `area` is `dx2 dx3`. -/
def horizonCell (c : Coords K) (xh : K) (gate : ℤ → Bool) (area : K) (f : ℤ → K) (i : ℤ) : K :=
  if c.xf i ≤ xh ∧ xh < c.xf (i + 1) ∧ gate i = true then
    let m := (f (i + 1) - f (i - 1)) / (2.0 * c.dx)
    (f i + (xh - c.xc i) * m) * area
  else 0

/-- body of `ReduceMagneticFluxPhi`, history.cpp:217-236: everything one cell further out. -/
def phiCell (c : Coords K) (xh : K) (area : K) (f : ℤ → K) (i : ℤ) : K :=
  if c.xf i ≤ xh ∧ xh < c.xf (i + 1) then
    let m := (f (i + 1 + 1) - f (i - 1 + 1)) / (2.0 * c.dx)
    (f (i + 1) + (xh - c.xc (i + 1)) * m) * area
  else 0

/-- sum of a column over the interior `ib.s .. ib.e`.
(Helper: the loop of history.hpp:65-85 along one direction.) -/
noncomputable def column (s e : ℤ) (body : ℤ → K) : K := ∑ i ∈ Finset.Icc s e, body i

/-- `ComputeDivInPillbox`, history.hpp:140-157: `f d k j i` is the flux in direction `d + 1`, `A d k j i` is `FaceArea`. -/
def pillbox (ndim : ℕ) (A f : Fin 3 → ℤ → ℤ → ℤ → K) (k j i : ℤ) : K :=
  let r := (f 0 k j (i + 1) - f 0 k j i) * A 0 k j i
  let r := if ndim ≥ 2 then r + (f 1 k (j + 1) i - f 1 k j i) * A 1 k j i else r
  if ndim ≥ 3 then r + (f 2 (k + 1) j i - f 2 k j i) * A 2 k j i else r

/-- body of `CalculateMdot`, history.cpp:322-355; `r` is the radius of the cell. -/
def mdotCell (rc : K) (gain doGain : Bool) (insidePns netHeat : K) (r heat cool div : K) : K :=
  if r ≤ rc then
    if gain then (if doGain && (decide (r < insidePns) || decide (heat - cool > netHeat)) then -div else 0)
    else -div
  else 0

/-- body of `ReduceInGain`, history.hpp:119-134: `gdet b` is the metric determinant of block `b` at the cell; block 0 is
used whatever the block. -/
def gainCell (isConserved : Bool) (gdet : ℕ → K) (vol heat cool entropy netHeat outsidePns q : K) : K :=
  let isNetheat : K := if heat - cool > netHeat then 1 else 0
  let isOutside : K := if entropy > outsidePns then 1 else 0
  if isConserved then vol * isNetheat * isOutside * q else gdet 0 * vol * isNetheat * isOutside * q

end

/-- `CalcMassFlux`, history_utils.hpp:34-54. -/
noncomputable def massFlux (G : ADM ℝ) (gdet rho : ℝ) (v : Fin 3 → ℝ) : ℝ :=
  let W := Rel.lorentz (fun i j => G.g4 i.succ j.succ) v
  let ucon := v 0 - G.beta 0 * W / G.alpha;
  -G.alpha * gdet * rho * ucon

/-- `CalcMagnetization`, history_utils.hpp:56-74. -/
noncomputable def magnetization (small : ℝ) (G : ADM ℝ) (q : Rel.Prim) : ℝ :=
  Rel.magneticFieldSquared small G.gam q.v q.B (Rel.lorentz G.gam q.v) / q.rho

/-- `b0`, history_utils.hpp:93-101, 131-143. -/
noncomputable def hb0 (small : ℝ) (G : ADM ℝ) (q : Rel.Prim) : ℝ :=
  let W := Rel.lorentz G.gam q.v
  let Bdotv := ∑ m, ∑ n, G.gam m n * q.B m * ratio small (q.v n) W
  Bdotv * W / G.alpha

/-- `ucon1`, history_utils.hpp:103, 144. -/
noncomputable def hucon1 (G : ADM ℝ) (q : Rel.Prim) : ℝ := q.v 0 - G.beta 0 * Rel.lorentz G.gam q.v / G.alpha

/-- `bcon1`, history_utils.hpp:104, 146. -/
noncomputable def hbcon1 (small : ℝ) (G : ADM ℝ) (q : Rel.Prim) : ℝ :=
  ratio small (q.B 0 + G.alpha * hb0 small G q * hucon1 G q) (Rel.lorentz G.gam q.v)

/-- `CalcEMEnergyFlux`, history_utils.hpp:76-112. -/
noncomputable def emEnergyFlux (small : ℝ) (G : ADM ℝ) (gdet : ℝ) (q : Rel.Prim) : ℝ :=
  let W := Rel.lorentz G.gam q.v
  let ucov0 := -W * G.alpha
  let bsq := Rel.magneticFieldSquared small G.gam q.v q.B W
  let T10 := bsq * hucon1 G q * ucov0 - hbcon1 small G q * hb0 small G q
  T10 * G.alpha * gdet

/-- `CalcEMMomentumFlux`, history_utils.hpp:114-155. -/
noncomputable def emMomentumFlux (small : ℝ) (G : ADM ℝ) (gdet : ℝ) (q : Rel.Prim) : ℝ :=
  let W := Rel.lorentz G.gam q.v
  let vcov0 := ∑ n, G.gam 0 n * q.v n
  let Bcov0 := ∑ n, G.gam 0 n * q.B n
  let ucov1 := vcov0
  let bcov1 := ratio small (Bcov0 + G.alpha * hb0 small G q * ucov1) W
  let bsq := Rel.magneticFieldSquared small G.gam q.v q.B W
  let T11 := bsq * hucon1 G q * ucov1 - hbcon1 small G q * bcov1 + (1 / 2) * bsq;
  -T11 * G.alpha * gdet

end Phoebus.History
