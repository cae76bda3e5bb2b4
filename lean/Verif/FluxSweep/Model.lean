import Verif.Recon.Model
import Verif.FluxCT.Model

/-!
# Model of the flux sweep of one block: `fluid::CalculateFluxes` and the variable layout it relies on

`/repo/src/fluid/fluid.cpp:659-773` (`CalculateFluxes`), `fluid.cpp:96-117` (choice of reconstruction), `fluid.cpp:270-304` (registration of
the reconstructed and the evolved variables) and `/repo/src/fluid/riemann.hpp:219-254` (`FluxState`).

A position is `c : Fin 3 → ℤ` with `c 0 = i`, `c 1 = j`, `c 2 = k`.  `v n c` is slot `n` of the packed primitive variables of the block.
`ql d n f`, `qr d n f` are the scratch arrays of left and right face states; they are *not* cleared between calls, so their previous contents
are an input.  The Riemann solver at a face is a parameter `solver d f : (slots → K) → (slots → K) → ℕ → K`: the value is the flux of slot `m`
(`riemann.hpp:256-301` is modelled in `Verif/Riemann`); the geometry at the face is part of `solver d f`.
-/
namespace Phoebus.FluxSweep
variable {K : Type} [Field K] [LinearOrder K]

/-- Data type: cell index. -/
abbrev Pos := Fin 3 → ℤ

/-- unit step in direction `d`.
(Parthenon contract or helper, no code of its own.) -/
def unit (d : Fin 3) : Pos := fun e => if e = d then 1 else 0

/-- the reconstruction methods that can be selected, fluid.cpp:96-117. -/
inductive Method where
  | constant | linear | mp5 | weno5z
deriving DecidableEq

/-- `fluid/recon` as read from the input file: `none` is the exception of line 111.  `g` is the number of ghost cells.
(fluid.cpp:96-116.) -/
def selectMethod (name : String) (g : ℤ) : Option Method :=
  if name = "weno5" ∨ name = "weno5z" then (if 4 ≤ g then some .weno5z else none)
  else if name = "mp5" then (if 4 ≤ g then some .mp5 else none)
  else if name = "linear" then some .linear
  else if name = "constant" then some .constant
  else none

/-- one call of the reconstruction kernel: first component is the value at the upper edge of the cell, second at the lower edge
(`switch (rt)`, fluid.cpp:709-751, and the overloads of `ReconLoop`, reconstruction.hpp:246-271).  `q m` is the cell value at offset `m`;
`ew` and `em` are the small constants of WENO5-Z and MP5. -/
def kernel (ew em : K) (rt : Method) (q : ℤ → K) : K × K :=
  match rt with
  | .constant => Recon.piecewiseConstant (q 0)
  | .linear => Recon.piecewiseLinear (q (-1)) (q 0) (q 1)
  | .mp5 => Recon.mp5 em (q (-2)) (q (-1)) (q 0) (q 1) (q 2)
  | .weno5z => Recon.weno5z ew (q (-2)) (q (-1)) (q 0) (q 1) (q 2)

/-- Shape of a block: number of dimensions, ghost cells and interior cells.  Parthenon gives a block no ghost cells in the directions beyond `ndim`.
(Parthenon contract or helper, no code of its own.) -/
structure Blk where
  ndim : ℕ
  g : ℤ
  nx : Fin 3 → ℤ

/-- direction `d` is one of the `ndim` active ones.
(Parthenon contract or helper, no code of its own.) -/
def Blk.act (b : Blk) (d : Fin 3) : Prop := d.val < b.ndim

instance (b : Blk) (d : Fin 3) : Decidable (b.act d) := by unfold Blk.act; infer_instance

/-- first interior index (`ib.s`, `jb.s`, `kb.s`), fluid.cpp:669-671. -/
def Blk.s (b : Blk) (d : Fin 3) : ℤ := if b.act d then b.g else 0

/-- last interior index (`ib.e`, `jb.e`, `kb.e`), fluid.cpp:669-671. -/
def Blk.e (b : Blk) (d : Fin 3) : ℤ := if b.act d then b.g + b.nx d - 1 else 0

/-- `1`, `dj`, `dk`: fluid.cpp:674-675. -/
def Blk.ext (b : Blk) (d : Fin 3) : ℤ := if b.act d then 1 else 0

/-- interior cell.
(Parthenon contract or helper, no code of its own.) -/
def Blk.Interior (b : Blk) (c : Pos) : Prop := ∀ d, b.s d ≤ c d ∧ c d ≤ b.e d

/-- cell for which the block has storage.
(Parthenon contract or helper, no code of its own.) -/
def Blk.Entire (b : Blk) (c : Pos) : Prop := ∀ d, b.s d - (if b.act d then b.g else 0) ≤ c d ∧ c d ≤ b.e d + (if b.act d then b.g else 0)

/-- range of the reconstruction loop (fluid.cpp:683-684, 712 etc.) and of the flux loop (fluid.cpp:753-759). -/
def Blk.Loop (b : Blk) (c : Pos) : Prop := ∀ d, b.s d - b.ext d ≤ c d ∧ c d ≤ b.e d + b.ext d

/-- scratch array of face states of `N` reconstructed slots.
(Parthenon contract or helper, no code of its own.) -/
abbrev Faces (K : Type) (N : ℕ) := Fin 3 → Fin N → Pos → K

/-- line of cell values through `c` in direction `d`: the pointers `pvim2 ... pvkp2`, fluid.cpp:689-706. -/
def line (v : Fin N → Pos → K) (n : Fin N) (d : Fin 3) (c : Pos) : ℤ → K := fun m => v n (fun e => c e + m * unit d e)

/-- store one value.
(Helper: a store.) -/
def put (a : Faces K N) (d : Fin 3) (n : Fin N) (f : Pos) (x : K) : Faces K N :=
  fun d' n' f' => if d' = d ∧ n' = n ∧ f' = f then x else a d' n' f'

/-- the stores of one iteration `(n, k, j, i)` in direction `d`, if that direction is active: `vi_l = &ql(0, n, k, j, 1)` so that the upper
edge of cell `c` goes to the left state of face `c + e_d`, the lower edge to the right state of face `c`, fluid.cpp:693-708. -/
def writeDir (R : (ℤ → K) → K × K) (b : Blk) (v : Fin N → Pos → K) (n : Fin N) (c : Pos) (st : Faces K N × Faces K N) (d : Fin 3) :
    Faces K N × Faces K N :=
  if b.act d then
    (put st.1 d n (fun e => c e + unit d e) (R (line v n d c)).1, put st.2 d n c (R (line v n d c)).2)
  else st

/-- one iteration.
(Helper: one iteration of the kernel below.) -/
def iter (R : (ℤ → K) → K × K) (b : Blk) (v : Fin N → Pos → K) (st : Faces K N × Faces K N) (it : Fin N × Pos) : Faces K N × Faces K N :=
  [0, 1, 2].foldl (writeDir R b v it.1 it.2) st

/-- the kernel "Reconstruct", fluid.cpp:683-751, in the order `order` chosen by the execution space. -/
def reconstruct (R : (ℤ → K) → K × K) (b : Blk) (v : Fin N → Pos → K) (order : List (Fin N × Pos)) (st : Faces K N × Faces K N) :
    Faces K N × Faces K N :=
  order.foldl (iter R b v) st

/-- the flux of slot `m` and the signal speed at face `f` of direction `d`, fluid.cpp:753-759. -/
def faceFlux {O : Type} (solver : Fin 3 → Pos → (Fin N → K) → (Fin N → K) → O) (st : Faces K N × Faces K N) (d : Fin 3) (f : Pos) : O :=
  solver d f (fun n => st.1 d n f) (fun n => st.2 d n f)

/-- what `CalculateFluxes` leaves in the flux (or signal speed) array, fluid.cpp:659-773, when the flux array contained `old`.
`skip` is `!active || zero_fluxes`, fluid.cpp:663-664. -/
def calculateFluxes {O : Type} (skip : Bool) (R : (ℤ → K) → K × K) (solver : Fin 3 → Pos → (Fin N → K) → (Fin N → K) → O) (b : Blk)
    [DecidablePred b.Loop] (v : Fin N → Pos → K) (order : List (Fin N × Pos)) (st : Faces K N × Faces K N) (old : Fin 3 → Pos → O) :
    Fin 3 → Pos → O := fun d f =>
  if skip = false ∧ b.act d ∧ b.Loop f then faceFlux solver (reconstruct R b v order st) d f else old d f

/-- the right-hand side of slot `m` in cell `c`: Parthenon's `Update::FluxDivergence`, called at phoebus_driver.cpp:561, on a uniform grid
(as `FluxCT.fluxDiv3`).  Parthenon is not in the repository. -/
def rate (dx : Fin 3 → K) (b : Blk) (F : Fin 3 → Pos → ℕ → K) (m : ℕ) (c : Pos) : K :=
  -((if b.act 0 then (F 0 (fun e => c e + unit 0 e) m - F 0 c m) / dx 0 else 0)
    + (if b.act 1 then (F 1 (fun e => c e + unit 1 e) m - F 1 c m) / dx 1 else 0)
    + (if b.act 2 then (F 2 (fun e => c e + unit 2 e) m - F 2 c m) / dx 2 else 0))

/-! ### Variable layout -/

/-- names of the packed variables with their number of components.
(Argument of `PackVariables`.) -/
abbrev VarList := List (String × ℕ)

/-- variables to reconstruct in the order of registration, fluid.cpp:272-276 and 285-286. -/
def reconVars (mhd ye : Bool) : VarList :=
  [("p.density", 1), ("p.velocity", 3), ("p.energy", 1)] ++ (if mhd then [("p.bfield", 3)] else []) ++ (if ye then [("p.ye", 1)] else [])
    ++ [("pressure", 1), ("gamma1", 1)]

/-- evolved variables in the order of registration, fluid.cpp:278-282. -/
def fluxVars (mhd ye : Bool) : VarList :=
  [("c.density", 1), ("c.momentum", 3), ("c.energy", 1)] ++ (if mhd then [("c.bfield", 3)] else []) ++ (if ye then [("c.ye", 1)] else [])

/-- `PackIndexMap`: first and last slot of a variable, `(-1, -2)` for a variable that is not in the pack (Parthenon).
(Parthenon contract.) -/
def slots : VarList → ℤ → String → ℤ × ℤ
  | [], _, _ => (-1, -2)
  | (x, n) :: l, o, name => if x = name then (o, o + n - 1) else slots l (o + n) name

/-- total number of slots: `nrecon` of fluid.cpp:289-298. -/
def size (l : VarList) : ℤ := (l.map fun x => (x.2 : ℤ)).sum

/-- the index members of `FluxState`, riemann.hpp:219-245: *all* of them, also those of the conserved variables, are looked up under the
primitive names. -/
structure Idx where
  prho : ℤ
  pvel : ℤ
  peng : ℤ
  pbLo : ℤ
  pbHi : ℤ
  pye : ℤ
  prs : ℤ
  gm1 : ℤ
  cye : ℤ
  ncons : ℤ

/-- constructor of `FluxState`, riemann.hpp:219-250. -/
def fluxState (mhd ye : Bool) : Idx :=
  let m := slots (reconVars mhd ye) 0
  let pbLo := (m "p.bfield").1
  let pbHi := (m "p.bfield").2
  let cye := (m "p.ye").1
  { prho := (m "p.density").1, pvel := (m "p.velocity").1, peng := (m "p.energy").1, pbLo := pbLo, pbHi := pbHi, pye := (m "p.ye").2,
    prs := (m "pressure").1, gm1 := (m "gamma1").1, cye := cye, ncons := 5 + (pbHi - pbLo + 1) + (if cye > 0 then 1 else 0) }

/-- the slots of `U` and `F` assigned by `prim_to_flux`, riemann.hpp:140-195, with the quantity put there. -/
def written (x : Idx) : List (ℤ × String) :=
  [(x.prho, "c.density")] ++ (if x.cye > 0 then [(x.cye, "c.ye")] else []) ++
    [(x.pvel, "c.momentum"), (x.pvel + 1, "c.momentum"), (x.pvel + 2, "c.momentum"), (x.peng, "c.energy")] ++
    (if x.pbLo ≤ x.pbHi then [(x.pbLo, "c.bfield"), (x.pbLo + 1, "c.bfield"), (x.pbLo + 2, "c.bfield")] else [])

end Phoebus.FluxSweep
