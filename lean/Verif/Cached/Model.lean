import Verif.GeomUtils.Model

/-!
# Model of the geometry cache `/repo/src/geometry/cached_system.hpp`

The pack is one flat array of components per cell; each cached variable occupies a contiguous range starting at a base
offset chosen by the framework (`imap[...]`).  Nothing is assumed about the layout except that ranges of different variables
do not overlap (`Layout.disj`), with the sizes the code itself requests.  Kernels are lists of writes in an arbitrary order
over the cells of the loop range (any schedule, repetitions allowed).
-/
namespace Phoebus.Cached
open GeomUtils

/-- `CellLocation`, cell_locations.hpp:20-24. -/
inductive Loc | Cent | Face1 | Face2 | Face3 | Corn
  deriving DecidableEq

/-- block and zone indices.
(Data type or helper of the model of cached_system.hpp; no code of its own.) -/
structure Cell where
  b : ℤ
  k : ℤ
  j : ℤ
  i : ℤ
  deriving DecidableEq

/-- what the underlying coordinate system returns on the grid (`system.Lapse(loc, b, k, j, i)` etc.).
(Data type or helper of the model of cached_system.hpp; no code of its own.) -/
structure System (K : Type*) where
  lapse : Loc → Cell → K
  detGamma : Loc → Cell → K
  shift : Loc → Cell → Fin 3 → K
  metric4 : Loc → Cell → Fin 4 → Fin 4 → K
  gamInv : Loc → Cell → Fin 3 → Fin 3 → K
  gradLnAlpha : Cell → Fin 4 → K
  dg : Cell → Fin 4 → Fin 4 → Fin 4 → K
  coords : Loc → Cell → Fin 4 → K

/-- the cached variables, cached_system.hpp:47-57 (the location `Corn` of the first five is never used). -/
inductive Var
  | alpha (l : Loc) | bcon (l : Loc) | gcov (l : Loc) | gamcon (l : Loc) | detgam (l : Loc)
  | dalpha | dg | coordC | coordN
  deriving DecidableEq

/-- `nvar_deriv`, cached_system.hpp:94 and 489. -/
def nvarDeriv (timeDep : Bool) : ℕ := if timeDep then 4 else 3

/-- `offset = !time_dependent`, cached_system.hpp:359. -/
def offset (timeDep : Bool) : ℕ := if timeDep then 0 else 1

/-- sizes requested in `InitializeCachedCoordinateSystem`, cached_system.hpp:531-535 (coords: 4, geometry.cpp). -/
def Var.size (timeDep : Bool) : Var → ℕ
  | .alpha _ => 1
  | .bcon _ => 3
  | .gcov _ => symSize 4
  | .gamcon _ => symSize 3
  | .detgam _ => 1
  | .dalpha => nvarDeriv timeDep
  | .dg => nvarDeriv timeDep * symSize 4
  | .coordC => 4
  | .coordN => 4

/-- base offsets of the variables in the pack.
(Data type or helper of the model of cached_system.hpp; no code of its own.) -/
structure Layout (timeDep : Bool) where
  base : Var → ℕ
  disj : ∀ v w a c, a < v.size timeDep → c < w.size timeDep → base v + a = base w + c → v = w ∧ a = c

/-- pack contents: cell, flat component.
(Data type or helper of the model of cached_system.hpp; no code of its own.) -/
abbrev Mem (K : Type*) := Cell → ℕ → K

/-- one store to the pack.
(Data type or helper of the model of cached_system.hpp; no code of its own.) -/
structure Write (K : Type*) where
  cell : Cell
  comp : ℕ
  val : K

/-- Data type or helper of the model of cached_system.hpp; no code of its own. -/
def Mem.set {K : Type*} (m : Mem K) (w : Write K) : Mem K :=
  fun c n => if c = w.cell ∧ n = w.comp then w.val else m c n

/-- Data type or helper of the model of cached_system.hpp; no code of its own. -/
def Mem.run {K : Type*} (m : Mem K) (ws : List (Write K)) : Mem K := ws.foldl Mem.set m

section Writers
variable {K : Type*} {td : Bool}

/-- pairs `mu ≤ nu` below `n` in loop order, cached_system.hpp:638-639. -/
def symPairs4 : List (Fin 4 × Fin 4) :=
  (List.finRange 4).flatMap fun mu => ((List.finRange 4).filter fun nu => mu ≤ nu).map fun nu => (mu, nu)

/-- Data type or helper of the model of cached_system.hpp; no code of its own. -/
def symPairs3 : List (Fin 3 × Fin 3) :=
  (List.finRange 3).flatMap fun mu => ((List.finRange 3).filter fun nu => mu ≤ nu).map fun nu => (mu, nu)

/-- `lamb`, cached_system.hpp:626-653: fills lapse, determinant, shift, 4-metric and inverse 3-metric at one location. -/
def lamb (L : Layout td) (s : System K) (loc : Loc) (c : Cell) : List (Write K) :=
  [⟨c, L.base (.alpha loc), s.lapse loc c⟩, ⟨c, L.base (.detgam loc), s.detGamma loc c⟩]
  ++ ((List.finRange 3).map fun d => ⟨c, L.base (.bcon loc) + (d : ℕ), s.shift loc c d⟩)
  ++ (symPairs4.map fun p => ⟨c, L.base (.gcov loc) + flatten2 p.1 p.2, s.metric4 loc c p.1 p.2⟩)
  ++ (symPairs3.map fun p =>
      ⟨c, L.base (.gamcon loc) + flatten2 p.1.castSucc p.2.castSucc, s.gamInv loc c p.1 p.2⟩)

/-- the derivative indices `offset ≤ sigma < 4`.
(cached_system.hpp, `offset` of the derivative loops cited below.) -/
def sigmas (td : Bool) : List (Fin 4) := (List.finRange 4).filter fun sg => offset td ≤ (sg : ℕ)

/-- `lamb_derivs`, cached_system.hpp:655-680. -/
def lambDerivs (L : Layout td) (s : System K) (c : Cell) : List (Write K) :=
  ((sigmas td).map fun d => ⟨c, L.base .dalpha + d - offset td, s.gradLnAlpha c d⟩)
  ++ (sigmas td).flatMap fun sg => symPairs4.map fun p =>
      ⟨c, L.base .dg + nvarDeriv td * flatten2 p.1 p.2 + sg - offset td, s.dg c p.1 p.2 sg⟩

variable [Field K] [LinearOrder K]

/-- face location of direction `d`, cached_system.hpp:694-695. -/
def floc (d : Fin 3) : Loc := if d = 0 then .Face1 else if d = 1 then .Face2 else .Face3

/-- the neighbouring face index in direction `d`: `idx_fp = {k,j,i}; idx_fp[2-d] += 1`, cached_system.hpp:697-698. -/
def Cell.up (c : Cell) (d : Fin 3) : Cell :=
  if d = 0 then { c with i := c.i + 1 } else if d = 1 then { c with j := c.j + 1 } else { c with k := c.k + 1 }

/-- `lamb_derivs_fd`, cached_system.hpp:681-721; `width b d` is `coords.CellWidthFA(d+1)` of block `b`. -/
def lambDerivsFD (L : Layout td) (s : System K) (small : K) (width : ℤ → Fin 3 → K) (c : Cell) : List (Write K) :=
  (List.finRange 3).flatMap fun (d : Fin 3) =>
    ⟨c, L.base .dalpha + (d : ℕ) + (if td then 1 else 0),
      Robust.ratio small (s.lapse (floc d) (c.up d) - s.lapse (floc d) c) (s.lapse .Cent c * width c.b d)⟩
    :: symPairs4.map fun p =>
      ⟨c, L.base .dg + nvarDeriv td * flatten2 p.1 p.2 + ((d : ℕ) + (if td then 1 else 0)),
        Robust.ratio small (s.metric4 (floc d) (c.up d) p.1 p.2 - s.metric4 (floc d) c p.1 p.2) (width c.b d)⟩

/-- the coordinate kernel of `SetGeometryDefault`, geometry_utils.hpp:218-224: all four coordinates, component 0 is time. -/
def lambCoords (L : Layout td) (s : System K) (loc : Loc) (c : Cell) : List (Write K) :=
  (List.finRange 4).map fun (mu : Fin 4) =>
    ⟨c, (if loc = .Cent then L.base .coordC else L.base .coordN) + (mu : ℕ), s.coords loc c mu⟩

/-- zone ranges including ghosts (`IndexDomain::entire`).
(Data type or helper of the model of cached_system.hpp; no code of its own.) -/
structure Grid where
  nb : ℤ
  ks : ℤ
  ke : ℤ
  js : ℤ
  je : ℤ
  is : ℤ
  ie : ℤ

/-- loop range of the metric kernels, cached_system.hpp:723-771: `k = 0` only when axisymmetric, one extra face in the face
direction (but never in `k` when axisymmetric). -/
def Grid.dom (G : Grid) (axi : Bool) (loc : Loc) (c : Cell) : Prop :=
  0 ≤ c.b ∧ c.b < G.nb ∧
  (if axi then c.k = 0 else G.ks ≤ c.k ∧ c.k ≤ G.ke + (if loc = .Face3 then 1 else 0)) ∧
  (G.js ≤ c.j ∧ c.j ≤ G.je + (if loc = .Face2 then 1 else 0)) ∧
  (G.is ≤ c.i ∧ c.i ≤ G.ie + (if loc = .Face1 then 1 else 0))

/-- loop range of the coordinate kernels, geometry_utils.hpp:225-239: never reduced to one plane; corners have one extra
node in every direction. -/
def Grid.domCoord (G : Grid) (loc : Loc) (c : Cell) : Prop :=
  0 ≤ c.b ∧ c.b < G.nb ∧
  (G.ks ≤ c.k ∧ c.k ≤ G.ke + (if loc = .Corn then 1 else 0)) ∧
  (G.js ≤ c.j ∧ c.j ≤ G.je + (if loc = .Corn then 1 else 0)) ∧
  (G.is ≤ c.i ∧ c.i ≤ G.ie + (if loc = .Corn then 1 else 0))

/-- one order in which the parallel loops visit their cells.
(Data type or helper of the model of cached_system.hpp; no code of its own.) -/
structure Sched where
  loc : Loc → List Cell
  deriv : List Cell
  fd : List Cell
  coord : Loc → List Cell

/-- the schedule visits exactly the loop ranges.
(Specification of a parallel loop, not code.) -/
structure Sched.Ok (S : Sched) (G : Grid) (axi : Bool) : Prop where
  loc : ∀ l c, c ∈ S.loc l ↔ G.dom axi l c
  deriv : ∀ c, c ∈ S.deriv ↔ G.dom axi .Cent c
  fd : ∀ c, c ∈ S.fd ↔ G.dom axi .Cent c
  coord : ∀ l c, c ∈ S.coord l ↔ G.domCoord l c

/-- `SetCachedCoordinateSystem`, cached_system.hpp:592-774: the kernels in program order. -/
def setCached (L : Layout td) (s : System K) (small : K) (width : ℤ → Fin 3 → K) (doFD : Bool) (S : Sched) (m : Mem K) :
    Mem K :=
  let m := m.run ((S.loc .Cent).flatMap (lamb L s .Cent))
  let m := if td || !doFD then m.run (S.deriv.flatMap (lambDerivs L s)) else m
  let m := m.run ((S.loc .Face1).flatMap (lamb L s .Face1))
  let m := m.run ((S.loc .Face2).flatMap (lamb L s .Face2))
  let m := m.run ((S.loc .Face3).flatMap (lamb L s .Face3))
  let m := if doFD then m.run (S.fd.flatMap (lambDerivsFD L s small width)) else m
  let m := m.run ((S.coord .Cent).flatMap (lambCoords L s .Cent))
  m.run ((S.coord .Corn).flatMap (lambCoords L s .Corn))
end Writers

section Readers
variable {K : Type*} [Field K] [LinearOrder K] {td : Bool}

/-- `k *= (!axisymmetric_)`, e.g. cached_system.hpp:144. -/
def rd (axi : Bool) (c : Cell) : Cell := { c with k := if axi then 0 else c.k }

/-- `Cached::Lapse(loc,b,k,j,i)`, cached_system.hpp:141-146. -/
def rLapse (L : Layout td) (axi : Bool) (m : Mem K) (loc : Loc) (c : Cell) : K := m (rd axi c) (L.base (.alpha loc))

/-- `Cached::ContravariantShift`, cached_system.hpp:161-167. -/
def rShift (L : Layout td) (axi : Bool) (m : Mem K) (loc : Loc) (c : Cell) (d : Fin 3) : K :=
  m (rd axi c) (L.base (.bcon loc) + d)

/-- `Cached::Metric`, cached_system.hpp:186-195. -/
def rMetric (L : Layout td) (axi : Bool) (m : Mem K) (loc : Loc) (c : Cell) (p q : Fin 3) : K :=
  m (rd axi c) (L.base (.gcov loc) + flatten2 p.succ q.succ)

/-- `Cached::MetricInverse`, cached_system.hpp:214-223. -/
def rMetricInverse (L : Layout td) (axi : Bool) (m : Mem K) (loc : Loc) (c : Cell) (p q : Fin 3) : K :=
  m (rd axi c) (L.base (.gamcon loc) + flatten2 p.castSucc q.castSucc)

/-- `Cached::SpacetimeMetric`, cached_system.hpp:242-251. -/
def rMetric4 (L : Layout td) (axi : Bool) (m : Mem K) (loc : Loc) (c : Cell) (mu nu : Fin 4) : K :=
  m (rd axi c) (L.base (.gcov loc) + flatten2 mu nu)

/-- `Cached::SpacetimeMetricInverse`, cached_system.hpp:281-299 (the lapse is read with the already reduced `k`). -/
def rMetric4Inverse (L : Layout td) (axi : Bool) (small : K) (m : Mem K) (loc : Loc) (c : Cell) : Fin 4 → Fin 4 → K :=
  let alpha2 := rLapse L axi m loc (rd axi c) * rLapse L axi m loc (rd axi c)
  let g0 : Fin 3 → K := fun d => Robust.ratio small (m (rd axi c) (L.base (.bcon loc) + d)) alpha2
  Fin.cons (Fin.cons (0 - Robust.ratio small 1 alpha2) g0) fun p =>
    Fin.cons (g0 p) fun q =>
      m (rd axi c) (L.base (.gamcon loc) + flatten2 p.castSucc q.castSucc) - g0 p * g0 q * alpha2

/-- `Cached::DetGamma`, cached_system.hpp:314-319. -/
def rDetGamma (L : Layout td) (axi : Bool) (m : Mem K) (loc : Loc) (c : Cell) : K :=
  m (rd axi c) (L.base (.detgam loc))

/-- `Cached::DetG`, cached_system.hpp:324-327. -/
def rDetG (L : Layout td) (axi : Bool) (m : Mem K) (loc : Loc) (c : Cell) : K :=
  rLapse L axi m loc c * rDetGamma L axi m loc c

/-- `Cached::MetricDerivative(Cent,b,k,j,i)`, cached_system.hpp:375-389 (integer index `flat + sigma` with
`flat = nvar*Flatten2 + base - offset` re-associated so that natural-number subtraction does not truncate). -/
def rDg (L : Layout td) (axi : Bool) (m : Mem K) (c : Cell) (mu nu sg : Fin 4) : K :=
  if offset td ≤ (sg : ℕ) then m (rd axi c) (nvarDeriv td * flatten2 mu nu + L.base .dg + sg - offset td) else 0

/-- `Cached::GradLnAlpha(Cent,b,k,j,i)`, cached_system.hpp:408-417. -/
def rGradLnAlpha (L : Layout td) (axi : Bool) (m : Mem K) (c : Cell) (d : Fin 4) : K :=
  if offset td ≤ (d : ℕ) then m (rd axi c) (L.base .dalpha + d - offset td) else 0

/-- `Cached::ConnectionCoefficient(loc,b,k,j,i)`, cached_system.hpp:349-355 (both reductions of `k`). -/
def rConnection (L : Layout td) (axi : Bool) (m : Mem K) (c : Cell) : Fin 4 → Fin 4 → Fin 4 → K :=
  connection (rDg L axi m (rd axi c))

/-- `Cached::Coords(loc,b,k,j,i)` for cells and corners, cached_system.hpp:434-443: component `d+1` of the result is read
from stored component `d`; component 0 is the constant 0. -/
def rCoords (L : Layout td) (m : Mem K) (loc : Loc) (c : Cell) : Fin 4 → K :=
  Fin.cons 0 fun d : Fin 3 => m c ((if loc = .Cent then L.base .coordC else L.base .coordN) + d)
end Readers

end Phoebus.Cached
