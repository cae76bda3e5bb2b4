import Verif.Common
import Verif.Robust.Model
import Verif.Rel.Model
import Verif.Transform.Model

/-!
# Model of the monopole gravity solver

`/repo/src/monopole_gr/{monopole_gr_base,monopole_gr_utils,interp_3d_to_1d}.hpp` and `monopole_gr.cpp`.  Host arrays are
functions of the grid index; `pi` stands for `M_PI`, `small` for the regulariser of `robust::ratio`.  The radial grid starts
at `rin = 0` (monopole_gr.cpp:94), so `radius.x(i) = i * dr`.
-/
namespace Phoebus.Monopole
open Finset
variable {K : Type*} [Field K] [LinearOrder K]

/-- `radius.x(i)`.
(Contract: `radius` is a uniform `Spiner::RegularGrid1D` set in monopole_gr.cpp:119-148.) -/
def rad (dr : K) (i : ℕ) : K := (i : K) * dr

/-- `Interpolate`, monopole_gr_base.hpp:77-123, with the cell index `ix = rgrid.index(r)` as an argument (`Spiner`'s index
function is outside the repository). -/
def interpolate (npoints : ℕ) (min dx : K) (A : ℕ → K) (ix : ℕ) (r : K) : K :=
  let floor := (ix : K) * dx + min
  let c0 := A ix
  let c1 := if ix = 0 then -(3 * A ix - 4 * A (ix + 1) + A (ix + 2)) / (2 * dx)
    else if ix = npoints - 1 then (3 * A (ix - 2) - 4 * A (ix - 1) + 3 * A ix) / (2 * dx)
    else (A (ix + 1) - A (ix - 1)) / (2 * dx)
  let c2 := if ix = 0 then (A ix - 2 * A (ix + 1) + A (ix + 2)) / (2 * dx * dx)
    else if ix = npoints - 1 then (A (ix - 2) - 2 * A (ix - 1) + A ix) / (2 * dx * dx)
    else (A (ix + 1) - 2 * A ix + A (ix - 1)) / (2 * dx * dx)
  let xoffset := r - floor
  c0 + c1 * xoffset + c2 * xoffset * xoffset

/-! ### Right-hand sides -/

/-- `GetARHS`, monopole_gr_utils.hpp:31-37. -/
def aRHS (small pi a k r rho : K) : K :=
  (if r > 0 then 1 else 0) * Robust.ratio small (a * (4 + a * a * (-4 + r * r * (3 * k * k + 32 * pi * rho)))) (8 * r)

/-- `GetKRHS`, monopole_gr_utils.hpp:39-43. -/
def kRHS (small pi a k r j : K) : K :=
  (if r > 0 then 1 else 0) * (8 * pi * a * a * j - Robust.ratio small (3 * k) r)

/-- one step of the integration loop, monopole_gr.cpp:312-336: `(a, K)` at point `i+1` from the values at point `i`.  Both
stages are evaluated at the same radius `r = radius.x(i)`. -/
def hyperStep (small pi dr : K) (rho j : ℕ → K) (i : ℕ) (s : K × K) : K × K :=
  let r := rad dr i
  let half : K := 1 / 2
  let k1a := s.1 + half * dr * aRHS small pi s.1 s.2 r (rho i)
  let k1k := s.2 + half * dr * kRHS small pi s.1 s.2 r (j i)
  let rhoh := half * (rho i + rho (i + 1))
  let jh := half * (j i + j (i + 1))
  (s.1 + dr * aRHS small pi k1a k1k r rhoh, s.2 + dr * kRHS small pi k1a k1k r jh)

/-- `IntegrateHypersurface`, monopole_gr.cpp:279-398: `(hypersurface_h(A,i), hypersurface_h(K,i))`. -/
def hyper (small pi dr : K) (rho j : ℕ → K) : ℕ → K × K
  | 0 => (1, 0)
  | i + 1 => hyperStep small pi dr rho j i (hyper small pi dr rho j i)

/-! ### The lapse -/

/-- a tridiagonal system.
(monopole_gr.cpp:414-480.) -/
structure Tri (K : Type*) where
  l : ℕ → K
  d : ℕ → K
  u : ℕ → K
  b : ℕ → K

/-- the rows assembled by `LinearSolveForAlpha`, monopole_gr.cpp:442-464; `n` is `npoints`. -/
def rows (small pi dr : K) (n : ℕ) (a k rho S : ℕ → K) : Tri K where
  d i := if i = 0 then -1 else if i = n - 1 then -(rad dr i + dr) else
    -rad dr i * (4 + a i * a i * dr * dr * (3 * k i * k i + 8 * pi * (S i + rho i))) / (2 * dr)
  u i := if i = 0 then 1 else 1 - (aRHS small pi (a i) (k i) (rad dr i) (rho i) * rad dr i / (2 * a i)) + rad dr i * (1 / dr)
  l i := if i = n - 1 then rad dr i else
    -1 + (aRHS small pi (a i) (k i) (rad dr i) (rho i) * rad dr i) / (2 * a i) + rad dr i * (1 / dr)
  b i := if i = n - 1 ∧ i ≠ 0 then -dr else 0

/-- forward substitution, monopole_gr.cpp:466-471: the modified diagonal and right-hand side. -/
def forward (t : Tri K) : ℕ → K × K
  | 0 => (t.d 0, t.b 0)
  | i + 1 =>
    let w := t.l (i + 1) / (forward t i).1
    (t.d (i + 1) - w * t.u i, t.b (i + 1) - w * (forward t i).2)

/-- back substitution, monopole_gr.cpp:473-477: the value at index `n - 1 - m`. -/
def back (t : Tri K) (n : ℕ) : ℕ → K
  | 0 => (forward t (n - 1)).2 / (forward t (n - 1)).1
  | m + 1 => ((forward t (n - 1 - (m + 1))).2 - t.u (n - 1 - (m + 1)) * back t n m) / (forward t (n - 1 - (m + 1))).1

/-- the solution `alpha(i)`.
(monopole_gr.cpp:455-480.) -/
def thomas (t : Tri K) (n i : ℕ) : K := back t n (n - 1 - i)

/-- `LinearSolveForAlpha`.
(monopole_gr.cpp:400-480.) -/
def lapse (small pi dr : K) (n : ℕ) (a k rho S : ℕ → K) (i : ℕ) : K := thomas (rows small pi dr n a k rho S) n i

/-! ### Transfer to the device: shift and gradients -/

/-- the arrays filled by `SpacetimeToDevice` at one point.
(monopole_gr.cpp:511-582.) -/
structure Grads (K : Type*) where
  beta : K
  dadr : K
  dKdr : K
  dalphadr : K
  dbetadr : K
  dadt : K
  dalphadt : K
  dKdt : K
  dbetadt : K

/-- `SpacetimeToDevice`, monopole_gr.cpp:518-579, for the point `i`; `cut` is the literal `1e-2`. -/
def toDevice (small pi dr cut : K) (n : ℕ) (static : Bool) (a kk alpha rho j S Srr : ℕ → K) (i : ℕ) : Grads K :=
  let half : K := 1 / 2
  let dr2 := dr * dr
  let mask : K := if static = true then 0 else 1
  let r := rad dr i
  let a_ := a i
  let K_ := mask * (if static = true then 0 else kk i)
  let dadr := aRHS small pi a_ K_ r (rho i)
  let dKdr := mask * kRHS small pi a_ K_ r (j i)
  let a2 := a_ * a_
  let a3 := a2 * a_
  let dalphadr := if i = 0 then 0 else if i = n - 1 then (alpha i - alpha (i - 1)) / dr
    else (alpha (i + 1) - alpha (i - 1)) / (2 * dr)
  let d2 := if i = 0 then (alpha i + alpha (i + 2) - 2 * alpha (i + 1)) / dr2
    else if i = n - 1 then (alpha (i - 2) + alpha i - 2 * alpha (i - 1)) / dr2
    else (alpha (i - 1) + alpha (i + 1) - 2 * alpha i) / dr2
  let beta := mask * (-half * alpha i * r * K_)
  let dbetadr := mask * (-half * (r * K_ * dalphadr + alpha i * K_ + alpha i * r * dKdr))
  let beta2 := beta * beta
  let dadt := if i = 0 then 0 else dadr * beta + a_ * dbetadr - alpha i * a_ * K_
  let dalphadt := beta * ((a_ * beta * dadt / alpha i) + a2 * K_ * beta + 2 * dadr * (1 - beta2) -
    2 * (a2 * beta / alpha i) * dbetadr)
  let dadror := if r > cut then dadr / r else 1
  let dKdt := if i = 0 then 0 else beta * dKdr - (d2 / a2) + (dadr / a3) * dalphadr +
    alpha i * ((2 * dadror / a3) - 4 * K_ * K_) + 4 * pi * alpha i * (S i - rho i - 2 * Srr i)
  let dbetadt := -half * r * (alpha i * dKdt + K_ * dalphadt)
  { beta := beta, dadr := dadr, dKdr := dKdr, dalphadr := dalphadr, dbetadr := dbetadr
    dadt := mask * dadt, dalphadt := mask * dalphadt, dKdt := mask * dKdt, dbetadt := mask * dbetadt }

/-- the value reduced by `EstimateTimeStep`, monopole_gr.cpp:230-240, over `npoints = n + 1` points. -/
def minScale (small : K) (alpha dadt : ℕ → K) : ℕ → K
  | 0 => |Robust.ratio small (alpha 0) (dadt 0)|
  | i + 1 => min (minScale small alpha dadt i) |Robust.ratio small (alpha (i + 1)) (dadt (i + 1))|

/-! ### Matter: 3d to 1d -/

/-- `InBoundsHelper`, monopole_gr_utils.hpp:72-75. -/
def inBounds (a r dr : K) : Bool := decide (a ≥ r - 1 / 2 * dr) && decide (a < r + 1 / 2 * dr)

/-- `GetVolIntersectHelper`, monopole_gr_utils.hpp:77-97. -/
def volIntersect (rs drs rb drb : K) : K :=
  let left := inBounds (rs - 1 / 2 * drs) rb drb
  let right := inBounds (rs + 1 / 2 * drs) rb drb
  (if left && right then 1 else 0) * (drs / drb) +
  (if right && !left then 1 else 0) * (rs + 1 / 2 * drs - (rb - 1 / 2 * drb)) / drb +
  (if left && !right then 1 else 0) * (rb + 1 / 2 * drb - (rs - 1 / 2 * drs)) / drb

/-- `dv` of `GetCoordsAndDerivsSph`, monopole_gr_utils.hpp:99-111, with `sth = sin(th)`. -/
def sphVolume (r sth dr dth dph : K) : K := sth * dth * dph * (1 / 12 * (dr * dr * dr) + dr * (r * r))

/-- a cell of the 3d grid as seen by `InterpolateMatterTo1D`: radius, width, volume and matter content.
(Arguments of interp_3d_to_1d.hpp:178-250.) -/
structure Cell (K : Type*) where
  r : K
  dr : K
  dv : K
  m : K

/-- the range of 1d points visited, interp_3d_to_1d.hpp:150-151: `lo` and `hi` are `radius1d.index(r - dr)` and
`radius1d.index(r + dr)`. -/
def range1d (n lo hi : ℕ) : Finset ℕ := Finset.Icc (lo - 1) (min (hi + 1) (n - 1))

/-- `vols(i1d)` and `matter(v,i1d)` after `InterpolateMatterTo1D`, interp_3d_to_1d.hpp:126-165, over a list of cells
(atomic additions: the order does not matter over the reals).  `idx` is the index function of the grid. -/
def vols (dr1d : K) (n : ℕ) (idx : K → ℕ) (cells : List (Cell K)) (i : ℕ) : K :=
  (cells.map fun c => if i ∈ range1d n (idx (c.r - c.dr)) (idx (c.r + c.dr)) then
    volIntersect (rad dr1d i) dr1d c.r c.dr * c.dv else 0).sum

/-- see `vols`.
(interp_3d_to_1d.hpp:178-250.) -/
def matter1d (dr1d : K) (n : ℕ) (idx : K → ℕ) (cells : List (Cell K)) (i : ℕ) : K :=
  (cells.map fun c => if i ∈ range1d n (idx (c.r - c.dr)) (idx (c.r + c.dr)) then
    c.m * (volIntersect (rad dr1d i) dr1d c.r c.dr * c.dv) else 0).sum

/-- `DivideVols` for one matter component, monopole_gr.cpp:620-651, returning `matter_h(v, ·)`; `zeroed` says whether the
component is `J_R` or `Srr`, whose central value is set to zero. -/
def divideVols (small : K) (zeroed : Bool) (cells vol : ℕ → K) (i : ℕ) : K :=
  let c := fun i => Robust.ratio small (cells i) |vol i|
  if i = 0 then (if zeroed = true then 0 else c 0) else 1 / 2 * (c i + c (i - 1))

/-! ### ADM matter variables of a cell -/

/-- `GetMonopoleVarsHelper` in spherical coordinates, interp_3d_to_1d.hpp:201: `(rho0, Scon, S^i_j)`; `T` is the
contravariant stress-energy tensor. -/
def admRho (alpha : K) (T : Fin 4 → Fin 4 → K) : K := alpha * alpha * T 0 0
/-- `Scon`, interp_3d_to_1d.hpp:202. -/
def admS (alpha : K) (beta : Fin 3 → K) (T : Fin 4 → Fin 4 → K) (d : Fin 3) : K :=
  alpha * T 0 d.succ + alpha * beta d * T 0 0
/-- `TConCov`, interp_3d_to_1d.hpp:204-208. -/
def tConCov (g T : Fin 4 → Fin 4 → K) (mu nu : Fin 4) : K := ∑ nup, g nu nup * T mu nup
/-- the mixed spatial stress used at interp_3d_to_1d.hpp:239, 247-248. -/
def admStress (g : Fin 4 → Fin 4 → K) (beta : Fin 3 → K) (T : Fin 4 → Fin 4 → K) (l m : Fin 3) : K :=
  tConCov g T l.succ m.succ + beta l * tConCov g T 0 m.succ
/-- `ssph` in Cartesian coordinates, interp_3d_to_1d.hpp:235-241. -/
def admStressSph (c2s s2c : Fin 3 → Fin 3 → K) (S : Fin 3 → Fin 3 → K) (ip jp : Fin 3) : K :=
  ∑ l, ∑ m, c2s ip l * s2c m jp * S l m

end Phoebus.Monopole
