import Verif.Riemann.Model
import Mathlib.Analysis.SpecialFunctions.Trigonometric.DerivHyp

/-!
# Model of the time step controllers

`prim2con::signal_speeds` of `/repo/src/fluid/prim2con.hpp`, the speeds returned by `riemann::llf` and `riemann::hll`,
`fluid::EstimateTimestepBlock` of `/repo/src/fluid/fluid.cpp` and `radiation::EstimateTimestepBlock` of
`/repo/src/radiation/radiation.cpp`.  A cell is its index triple; the reduction visits the cells of a list in any order,
starting from `big`, the identity of `Kokkos::Min<Real>` (the largest double).
-/
namespace Phoebus.Timestep
open Geom Robust Finset

/-- zone index `(k, j, i)`.
(Data type of the model.) -/
structure Cell where
  k : ℤ
  j : ℤ
  i : ℤ

/-- `(k + dk, j + dj, i + di)` with `di = (d == 0)` etc., fluid.cpp:918-923. -/
def Cell.up (c : Cell) (d : Fin 3) : Cell :=
  ⟨c.k + (if d = 2 then 1 else 0), c.j + (if d = 1 then 1 else 0), c.i + (if d = 0 then 1 else 0)⟩

/-- `cssq` of `signal_speeds`, prim2con.hpp:28-36: fast magnetosonic speed squared. -/
noncomputable def cmsq (rho u p bsq gam1 : ℝ) : ℝ :=
  let rhoRel := rho + u + p
  let vasq := bsq / (rhoRel + bsq)
  let cssq := gam1 * p / rhoRel
  cssq + (vasq - cssq * vasq)

/-- `sig[m]` of `signal_speeds`, prim2con.hpp:37-45. -/
noncomputable def signalSpeed (alpha beta gmm vsq v cssq : ℝ) : ℝ :=
  let vcoff := alpha / (1.0 - vsq * cssq)
  let vpm := Real.sqrt (cssq * (1.0 - vsq) * (gmm * (1.0 - vsq * cssq) - v * v * (1.0 - cssq)))
  let vp := vcoff * (v * (1.0 - cssq) + vpm) - beta
  let vm := vcoff * (v * (1.0 - cssq) - vpm) - beta
  max |vp| |vm|

/-- value returned by `llf`, riemann.hpp:269 and 275. -/
noncomputable def llfSpeed (vml vpl vmr vpr : ℝ) : ℝ := max (max (-vml) vpl) (max (-vmr) vpr)

/-- value returned by `hll`, riemann.hpp:291-292 and 300. -/
noncomputable def hllSpeed (vml vpl vmr vpr : ℝ) : ℝ :=
  let cl := min (min vml vmr) 0
  let cr := max (max vpl vpr) 0
  max (-cl) cr

/-- fields `csig`, `fsig` (direction, cell) and cell widths of one block.
(Data type of the model.) -/
structure Block where
  csig : Fin 3 → Cell → ℝ
  fsig : Fin 3 → Cell → ℝ
  width : Fin 3 → Cell → ℝ
  cells : List Cell

/-- the active directions `d < ndim`.
(Helper: the range of the loops `d < ndim`.) -/
def dirs (ndim : ℕ) : Finset (Fin 3) := univ.filter fun d => (d : ℕ) < ndim

/-- `ldt` of the first kernel, fluid.cpp:916-926. -/
noncomputable def rateFace (ndim : ℕ) (B : Block) (c : Cell) : ℝ :=
  ∑ d ∈ dirs ndim, max (B.csig d c) (max (B.fsig d c) (B.fsig d (c.up d))) / B.width d c

/-- `ldt` of the second kernel, fluid.cpp:933-937. -/
noncomputable def rateCell (ndim : ℕ) (B : Block) (c : Cell) : ℝ := ∑ d ∈ dirs ndim, B.csig d c / B.width d c

/-- the minimum reduction, fluid.cpp:926-928; `tiny` is the literal `1e-50`. -/
noncomputable def minDt (big tiny : ℝ) (rate : Cell → ℝ) (cells : List Cell) : ℝ :=
  cells.foldl (fun m c => min m (1 / (rate c + tiny))) big

/-- `EstimateTimestepBlock`, fluid.cpp:899-944: the flag `has_face_speeds` is a parameter of the package, shared by all blocks. -/
noncomputable def fluidDt (big tiny cfl : ℝ) (ndim : ℕ) (hasFace : Bool) (B : Block) : ℝ × Bool :=
  if hasFace then (cfl * minDt big tiny (rateFace ndim B) B.cells, true)
  else (cfl * minDt big tiny (rateCell ndim B) B.cells, true)

/-- the blocks of a mesh one after the other, with the minimum over blocks Parthenon takes.
(Contract: Parthenon takes the minimum over blocks and ranks.) -/
noncomputable def meshDt (big tiny cfl : ℝ) (ndim : ℕ) (dt0 : ℝ) (hasFace : Bool) (Bs : List Block) : ℝ × Bool :=
  Bs.foldl (fun s B => let r := fluidDt big tiny cfl ndim s.2 B; (min s.1 r.1, r.2)) (dt0, hasFace)

/-! ### radiation -/

/-- `a`, radiation.cpp:639 and moments.cpp:663: `dx` is the proper cell width. -/
noncomputable def peclet (small kappaH dx : ℝ) : ℝ := Real.tanh (ratio small 1 (|kappaH * dx| ^ 1))

/-- `rad_speed`, radiation.cpp:629-634 and moments.cpp:618-619, 710. -/
noncomputable def radSpeed (alpha beta gdd : ℝ) : ℝ :=
  let sigp := alpha * Real.sqrt gdd - beta
  let sigm := -alpha * Real.sqrt gdd - beta
  max |sigm| |sigp|

/-- `csig`, radiation.cpp:628-640; `vp` is the primitive `p::velocity(d)`. -/
noncomputable def radSig (small alpha beta gdd vp kappaH dx : ℝ) : ℝ :=
  let asym := |alpha * vp - beta|
  let a := peclet small kappaH dx
  a * radSpeed alpha beta gdd + (1 - a) * asym

/-- the reduction of `radiation::EstimateTimestepBlock`, radiation.cpp:612-649: `sig s d c` is `csig` of species `s`, direction
`d`; the entries visited are listed as triples.  A vanishing speed gives `1/0 = inf` in C++, which the minimum ignores. -/
noncomputable def radDt (big cfl : ℝ) (sig : ℕ → Fin 3 → Cell → ℝ) (width : Fin 3 → Cell → ℝ) (xs : List (ℕ × Fin 3 × Cell)) : ℝ :=
  cfl * xs.foldl (fun m x => if sig x.1 x.2.1 x.2.2 = 0 then m else min m (1 / (sig x.1 x.2.1 x.2.2 / width x.2.1 x.2.2))) big

end Phoebus.Timestep
