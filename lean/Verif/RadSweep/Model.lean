import Verif.FluxSweep.Model
import Verif.Moments.Model

/-!
# Model of the radiation flux sweep of one block

`/repo/src/radiation/moments.cpp:281-478` (`ReconstructEdgeStates`), `moments.cpp:480-742` (`CalculateFluxesImpl`), `moments.cpp:927-1001`
(`MomentCalculateOpacities`), with the storage registered at `radiation.cpp:444-503` and the task order of `phoebus_driver.cpp:350-361`.

Positions as in `FluxSweep`.  The slots `0 .. nrecon-1` of the packed variables are the moments (slot `s + nspec*c` is component `c` of species
`s`, `Moments.packVar_eq`), slots `nrecon, nrecon+1, nrecon+2` the fluid velocities (`Moments.recon_vars`), so that one array `v` holds all that
is reconstructed.  The arrays of face states, of face gradients and of opacities keep their contents between calls; the previous contents are
inputs.  The stores of the parallel loops are modelled as a list of tasks in the order chosen by the execution space; they read only cell
data, which no task of the kernel writes.
-/
namespace Phoebus.RadSweep
open FluxSweep (Pos unit Method Blk Faces line put)
variable {N S : ℕ}

/-- scratch arrays: `ql`, `qr` (with `ql_v`, `qr_v`) and `dJ`, radiation.cpp:483-496.
`dJ d c s f` is `idx_dJ(s, c, d)`. -/
structure Scratch (N S : ℕ) where
  ql : Faces ℝ N
  qr : Faces ℝ N
  dJ : Fin 3 → Fin 3 → Fin S → Pos → ℝ

/-- one body of an inner loop: reconstruct slot `n` in direction `d` at cell `c`, or the gradients of species `s` on the lower face of direction
`d` of cell `c`.  (Granularity: one cell of one `ReconLoop`, moments.cpp:374-410, or of one `par_for_inner`, moments.cpp:445-472.) -/
inductive Task (N S : ℕ) where
  | recon (d : Fin 3) (n : Fin N) (c : Pos)
  | grad (d : Fin 3) (s : Fin S) (c : Pos)

/-- range of `i` in `ReconLoop`, moments.cpp:376-406: one extra cell on both sides in the first direction, and for MP5 in all. -/
def wide (rt : Method) (d : Fin 3) : Prop := d = 0 ∨ rt = .mp5

instance (rt : Method) (d : Fin 3) : Decidable (wide rt d) := by unfold wide; infer_instance

/-- cells of the reconstruction loops of direction `d`, moments.cpp:332-334 (outer) and 376-406 (inner; `if (ndim > 1)`, `if (ndim > 2)`). -/
def ReconCell (b : Blk) (rt : Method) (d : Fin 3) (c : Pos) : Prop :=
  b.act d ∧ (∀ e, e ≠ 0 → b.s e - b.ext e ≤ c e ∧ c e ≤ b.e e + b.ext e) ∧
    if wide rt d then b.s 0 - 1 ≤ c 0 ∧ c 0 ≤ b.e 0 + 1 else b.s 0 ≤ c 0 ∧ c 0 ≤ b.e 0

/-- cells of the gradient loops of direction `d`, moments.cpp:332-334 and 445-472. -/
def GradCell (b : Blk) (d : Fin 3) (c : Pos) : Prop :=
  b.act d ∧ (∀ e, e ≠ 0 → b.s e - b.ext e ≤ c e ∧ c e ≤ b.e e + b.ext e) ∧
    if d = 0 then b.s 0 ≤ c 0 ∧ c 0 ≤ b.e 0 + 1 else b.s 0 ≤ c 0 ∧ c 0 ≤ b.e 0

/-- the tasks of the kernel. -/
def Wanted (b : Blk) (rt : Method) : Task N S → Prop
  | .recon d _ c => ReconCell b rt d c
  | .grad d _ c => GradCell b d c

/-- the energy density of species `s` as `Moments.faceGrad` reads it; `js s` is its slot (`idx_J(s)`, moments.cpp:310). -/
def jField (v : Fin N → Pos → ℝ) (js : Fin S → Fin N) (s : Fin S) : ℤ → ℤ → ℤ → ℝ := fun k j i => v (js s) ![i, j, k]

/-- face gradient of species `s`: moments.cpp:424-473 with the offsets `dj`, `dk` of the block. -/
noncomputable def gradAt (b : Blk) (dx : Fin 3 → ℝ) (v : Fin N → Pos → ℝ) (js : Fin S → Fin N) (d c : Fin 3) (s : Fin S) (f : Pos) : ℝ :=
  Moments.faceGrad (jField v js s) (b.ext 1) (b.ext 2) dx d c (f 2) (f 1) (f 0)

/-- the stores of one task, moments.cpp:356-410 (targets of the reconstruction as in `FluxSweep.writeDir`) and 445-472. -/
noncomputable def exec (R : (ℤ → ℝ) → ℝ × ℝ) (b : Blk) (dx : Fin 3 → ℝ) (v : Fin N → Pos → ℝ) (js : Fin S → Fin N) (st : Scratch N S) :
    Task N S → Scratch N S
  | .recon d n c =>
    { st with
      ql := put st.ql d n (fun e => c e + unit d e) (R (line v n d c)).1
      qr := put st.qr d n c (R (line v n d c)).2 }
  | .grad d s c =>
    { st with dJ := fun d' c' s' f' => if d' = d ∧ s' = s ∧ f' = c then gradAt b dx v js d c' s c else st.dJ d' c' s' f' }

/-- `ReconstructEdgeStates`, moments.cpp:281-478. -/
noncomputable def reconstruct (R : (ℤ → ℝ) → ℝ × ℝ) (b : Blk) (dx : Fin 3 → ℝ) (v : Fin N → Pos → ℝ) (js : Fin S → Fin N)
    (order : List (Task N S)) (st : Scratch N S) : Scratch N S :=
  order.foldl (exec R b dx v js) st

/-- `MomentCalculateOpacities`, moments.cpp:927-1001: `kap s c` is the mean opacity of the fluid state of cell `c`; with MOCMC the task
returns at once (lines 933-937) and the array keeps what it contained. -/
def opacities (mocmc : Bool) (b : Blk) [DecidablePred b.Entire] (kap old : Fin S → Pos → ℝ) : Fin S → Pos → ℝ := fun s c =>
  if mocmc = false ∧ b.Entire c then kap s c else old s c

/-- what the kernel body reads at a face: both states, both opacities and the gradients, moments.cpp:588-662.
(Data type.) -/
structure FaceIn (N S : ℕ) where
  l : Fin N → ℝ
  r : Fin N → ℝ
  kl : Fin S → ℝ
  kr : Fin S → ℝ
  dJ : Fin S → Fin 3 → ℝ

/-- the reads at face `f` of direction `d`; `k` is the opacity array (lines 660-661: the zone above and the zone below the face). -/
def readFace (st : Scratch N S) (k : Fin S → Pos → ℝ) (d : Fin 3) (f : Pos) : FaceIn N S :=
  ⟨fun n => st.ql d n f, fun n => st.qr d n f, fun s => k s fun e => f e - unit d e, fun s => k s f, fun s c => st.dJ d c s f⟩

/-- `CalculateFluxesImpl`, moments.cpp:480-742, as a whole: the body at a face is the parameter `body` (see `momentBody`), `old` the previous
contents of the flux array. -/
def calculateFluxes {O : Type} (body : Fin 3 → Pos → FaceIn N S → O) (b : Blk) [DecidablePred b.Loop] (st : Scratch N S)
    (k : Fin S → Pos → ℝ) (old : Fin 3 → Pos → O) : Fin 3 → Pos → O := fun d f =>
  if b.act d ∧ b.Loop f then body d f (readFace st k d f) else old d f

/-- the three tasks in the order of phoebus_driver.cpp:350-357. -/
noncomputable def sweep {O : Type} (mocmc : Bool) (R : (ℤ → ℝ) → ℝ × ℝ) (body : Fin 3 → Pos → FaceIn N S → O) (b : Blk) [DecidablePred b.Loop]
    [DecidablePred b.Entire] (dx : Fin 3 → ℝ) (v : Fin N → Pos → ℝ) (js : Fin S → Fin N) (kap : Fin S → Pos → ℝ) (order : List (Task N S))
    (st : Scratch N S) (kold : Fin S → Pos → ℝ) (old : Fin 3 → Pos → O) : Fin 3 → Pos → O :=
  calculateFluxes body b (reconstruct R b dx v js order st) (opacities mocmc b kap kold) old

/-- what the flux needs besides cell data: geometry, proper width and bounds of a face, moments.cpp:548-590.
(Data type.) -/
structure FaceGeom where
  G : Geom.ADM ℝ
  sdet : ℝ
  dx : ℝ
  B : Moments.Bounds

/-- one side as the body reads it: velocity slots and moment slots, moments.cpp:593-598 and 625-636; `nspec` species, no pressure-tensor slots
(moment methods). -/
def sideOf (nspec : ℕ) (q : ℕ → ℝ) (s : ℕ) : Moments.Side :=
  ⟨fun i => q (4 * nspec + i), q (Moments.packVar nspec s 0), fun i => q (Moments.packVar nspec s (i + 1))⟩

/-- body of the kernel for species `s` with the moment methods, moments.cpp:545-737. -/
noncomputable def momentBody (small SMALL kmin : ℝ) (tp : Geom.ADM ℝ → (Fin 3 → ℝ) → ℝ → (Fin 3 → ℝ) → Fin 3 → Fin 3 → ℝ) (geo : Fin 3 → Pos → FaceGeom)
    (nspec : ℕ) (d : Fin 3) (f : Pos) (x : FaceIn (4 * nspec + 3) nspec) (s : Fin nspec) : ℝ × (Fin 3 → ℝ) :=
  let q := fun (y : Fin (4 * nspec + 3) → ℝ) (n : ℕ) => if h : n < 4 * nspec + 3 then y ⟨n, h⟩ else 0
  let g := geo d f
  Moments.faceFlux small SMALL kmin (tp g.G) ⟨g.G, g.sdet, g.dx, d, g.B, sideOf nspec (q x.l) s, sideOf nspec (q x.r) s, x.kl s, x.kr s, x.dJ s⟩

/-- the store of `MOCMCFluidSource`, mocmc.cpp:528-530 (interior only) and 703: the only place that writes the opacity array with MOCMC.  The array
has no `FillGhost` (radiation.cpp:497-501), so no communication writes it either. -/
def mocmcStore (b : Blk) [DecidablePred b.Interior] (old kap : Fin S → Pos → ℝ) : Fin S → Pos → ℝ := fun s c =>
  if b.Interior c then kap s c else old s c

/-- the opacity array after any number of stages; `z` is its content at allocation. -/
def mocmcHistory (b : Blk) [DecidablePred b.Interior] (z : Fin S → Pos → ℝ) (hist : List (Fin S → Pos → ℝ)) : Fin S → Pos → ℝ :=
  hist.foldl (mocmcStore b) z

/-- as `Moments.faceFlux`, with the reconstructed pressure tensors of both sides: moments.cpp:545-737 in the case `ClosureMOCMC` (lines 679-684
and 693). -/
noncomputable def mocmcFlux (small SMALL kmin : ℝ) (PL PR : Closure.Tens2) (f : Moments.Face) : ℝ × (Fin 3 → ℝ) :=
  let l := Moments.sideFlux small kmin (fun _ _ _ => PL) f f.L
  let r := Moments.sideFlux small kmin (fun _ _ _ => PR) f f.R
  let cl := Moments.sideCon (fun _ _ _ => PL) f f.L
  let cr := Moments.sideCon (fun _ _ _ => PR) f f.R
  let s := Moments.sig small f
  if f.sdet < SMALL then (0, fun _ => 0)
  else (Moments.llf f.sdet s l.1 r.1 cl.1 cr.1, fun j => Moments.llf f.sdet s (l.2 j) (r.2 j) (cl.2 j) (cr.2 j))

/-- one side with MOCMC: thirteen moment slots per species, then the velocities, moments.cpp:320-323, 593-598, 625-636. -/
def sideMocmc (nspec : ℕ) (q : ℕ → ℝ) (s : ℕ) : Moments.Side :=
  ⟨fun i => q (13 * nspec + i), q (Moments.packVar nspec s 0), fun i => q (Moments.packVar nspec s (i + 1))⟩

/-- body of the kernel for species `s` with MOCMC, moments.cpp:545-737. -/
noncomputable def mocmcBody (small SMALL kmin : ℝ) (geo : Fin 3 → Pos → FaceGeom) (nspec : ℕ) (d : Fin 3) (f : Pos)
    (x : FaceIn (13 * nspec + 3) nspec) (s : Fin nspec) : ℝ × (Fin 3 → ℝ) :=
  let q := fun (y : Fin (13 * nspec + 3) → ℝ) (n : ℕ) => if h : n < 13 * nspec + 3 then y ⟨n, h⟩ else 0
  let g := geo d f
  mocmcFlux small SMALL kmin (fun i j => q x.l (Moments.packVar nspec s (4 + i + 3 * j))) (fun i j => q x.r (Moments.packVar nspec s (4 + i + 3 * j)))
    ⟨g.G, g.sdet, g.dx, d, g.B, sideMocmc nspec (q x.l) s, sideMocmc nspec (q x.r) s, x.kl s, x.kr s, x.dJ s⟩

end Phoebus.RadSweep
