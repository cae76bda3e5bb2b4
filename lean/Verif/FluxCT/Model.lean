import Verif.Common

/-!
# Model of constrained transport: `FluxCT` and `CalculateDivB` (src/fluid/fluid.cpp:775-896)

Arrays are functions of the integer indices `k j i` of the *global* index space of one refinement level; a `Block` is
the interior index range of one mesh block.  `F d c k j i` is `v.flux(0, d+1, c, k, j, i)`, the flux in direction
`d + 1` of magnetic component `c`, at the lower face of cell `(k,j,i)`.  `old` is whatever the `emf` scratch array
contained before the call.  Simplification: uniform Cartesian widths `dx d` (`coords.CellWidthFA`).
-/
namespace Phoebus.FluxCT
variable {K : Type} [Field K]

/-- Data type: an array indexed by `(k, j, i)`. -/
abbrev Arr (K : Type) := ℤ → ℤ → ℤ → K

/-- Interior index ranges `kb`, `jb`, `ib` of a block.
(Helper of the model: the loop over blocks, stages and steps around the code of `FluxCT` and `FluxDivergence` cited above.) -/
structure Block where
  ks : ℤ
  ke : ℤ
  js : ℤ
  je : ℤ
  is : ℤ
  ie : ℤ

/-- `(k,j,i)` is an interior cell of the block.
(Helper of the model: the loop over blocks, stages and steps around the code of `FluxCT` and `FluxDivergence` cited above.) -/
def Block.Has (b : Block) (k j i : ℤ) : Prop :=
  (b.ks ≤ k ∧ k ≤ b.ke) ∧ (b.js ≤ j ∧ j ≤ b.je) ∧ (b.is ≤ i ∧ i ≤ b.ie)

/-- Range of the 2D loops of `FluxCT`, fluid.cpp:797-798 and 804-805. -/
def Block.loop2 (b : Block) (k j i : ℤ) : Prop :=
  (b.ks ≤ k ∧ k ≤ b.ke) ∧ (b.js ≤ j ∧ j ≤ b.je + 1) ∧ (b.is ≤ i ∧ i ≤ b.ie + 1)

/-- Range of the 3D loops of `FluxCT`, fluid.cpp:813-814 and 826-827. -/
def Block.loop3 (b : Block) (k j i : ℤ) : Prop :=
  (b.ks ≤ k ∧ k ≤ b.ke + 1) ∧ (b.js ≤ j ∧ j ≤ b.je + 1) ∧ (b.is ≤ i ∧ i ≤ b.ie + 1)

/-- Range over which `CalculateFluxes` computes face fluxes, fluid.cpp:753-759 (`dk = 0` in 2D). -/
def Block.fluxRange (b : Block) (dk : ℤ) (k j i : ℤ) : Prop :=
  (b.ks - dk ≤ k ∧ k ≤ b.ke + dk) ∧ (b.js - 1 ≤ j ∧ j ≤ b.je + 1) ∧ (b.is - 1 ≤ i ∧ i ≤ b.ie + 1)

instance (b : Block) (k j i : ℤ) : Decidable (b.Has k j i) := by unfold Block.Has; infer_instance
instance (b : Block) (k j i : ℤ) : Decidable (b.loop2 k j i) := by unfold Block.loop2; infer_instance
instance (b : Block) (k j i : ℤ) : Decidable (b.loop3 k j i) := by unfold Block.loop3; infer_instance

/-- `emf(k,j,i)` after the 2D EMF loop, fluid.cpp:796-802. -/
def emf2D (b : Block) (F : Fin 3 → Fin 3 → Arr K) (old : Arr K) : Arr K := fun k j i =>
  if b.loop2 k j i then (1/4) * (F 0 1 k j i + F 0 1 k (j-1) i - F 1 0 k j i - F 1 0 k j (i-1))
  else old k j i

/-- The fluxes after `FluxCT` in 2D, fluid.cpp:803-810. -/
def fluxCT2D (b : Block) (F : Fin 3 → Fin 3 → Arr K) (old : Arr K) : Fin 3 → Fin 3 → Arr K :=
  fun d c k j i =>
    if b.loop2 k j i then
      match d, c with
      | 0, 0 => 0
      | 0, 1 => (1/2) * (emf2D b F old k j i + emf2D b F old k (j+1) i)
      | 1, 0 => -(1/2) * (emf2D b F old k j i + emf2D b F old k j (i+1))
      | 1, 1 => 0
      | d, c => F d c k j i
    else F d c k j i

/-- `emf(n,k,j,i)` after the 3D EMF loop, fluid.cpp:812-824. -/
def emf3D (b : Block) (F : Fin 3 → Fin 3 → Arr K) (old : Fin 3 → Arr K) : Fin 3 → Arr K := fun n k j i =>
  if b.loop3 k j i then
    match n with
    | 0 => (1/4) * (F 1 2 k j i + F 1 2 (k-1) j i - F 2 1 k j i - F 2 1 k (j-1) i)
    | 1 => -(1/4) * (F 0 2 k j i + F 0 2 (k-1) j i - F 2 0 k j i - F 2 0 k j (i-1))
    | 2 => (1/4) * (F 0 1 k j i + F 0 1 k (j-1) i - F 1 0 k j i - F 1 0 k j (i-1))
  else old n k j i

/-- The fluxes after `FluxCT` in 3D, fluid.cpp:825-837. -/
def fluxCT3D (b : Block) (F : Fin 3 → Fin 3 → Arr K) (old : Fin 3 → Arr K) : Fin 3 → Fin 3 → Arr K :=
  fun d c k j i =>
    if b.loop3 k j i then
      match d, c with
      | 0, 0 => 0
      | 0, 1 => (1/2) * (emf3D b F old 2 k j i + emf3D b F old 2 k (j+1) i)
      | 0, 2 => -(1/2) * (emf3D b F old 1 k j i + emf3D b F old 1 (k+1) j i)
      | 1, 0 => -(1/2) * (emf3D b F old 2 k j i + emf3D b F old 2 k j (i+1))
      | 1, 1 => 0
      | 1, 2 => (1/2) * (emf3D b F old 0 k j i + emf3D b F old 0 (k+1) j i)
      | 2, 0 => (1/2) * (emf3D b F old 1 k j i + emf3D b F old 1 k j (i+1))
      | 2, 1 => -(1/2) * (emf3D b F old 0 k j i + emf3D b F old 0 k (j+1) i)
      | 2, 2 => 0
    else F d c k j i

/-- `dUdt` of one component on a uniform Cartesian grid in 2D: parthenon `Update::FluxDivergence`, called at
phoebus_driver.cpp:561.  (Parthenon is not in the repository; areas over volume reduce to `1/dx`.) -/
def fluxDiv2 (dx : Fin 3 → K) (F : Fin 3 → Fin 3 → Arr K) (c : Fin 3) : Arr K := fun k j i =>
  -((F 0 c k j (i+1) - F 0 c k j i) / dx 0 + (F 1 c k (j+1) i - F 1 c k j i) / dx 1)

/-- As `fluxDiv2` in 3D.
(Helper of the model: the loop over blocks, stages and steps around the code of `FluxCT` and `FluxDivergence` cited above.) -/
def fluxDiv3 (dx : Fin 3 → K) (F : Fin 3 → Fin 3 → Arr K) (c : Fin 3) : Arr K := fun k j i =>
  -((F 0 c k j (i+1) - F 0 c k j i) / dx 0 + (F 1 c k (j+1) i - F 1 c k j i) / dx 1
    + (F 2 c (k+1) j i - F 2 c k j i) / dx 2)

/-- `divb` in 2D, fluid.cpp:857-871. -/
def divB2 (dx : Fin 3 → K) (b : Fin 3 → Arr K) : Arr K := fun k j i =>
  (1/2) * (b 0 k j i + b 0 k (j-1) i - b 0 k j (i-1) - b 0 k (j-1) (i-1)) / dx 0 +
  (1/2) * (b 1 k j i + b 1 k j (i-1) - b 1 k (j-1) i - b 1 k (j-1) (i-1)) / dx 1

/-- `divb` in 3D, fluid.cpp:872-894. -/
def divB3 (dx : Fin 3 → K) (b : Fin 3 → Arr K) : Arr K := fun k j i =>
  (1/4) * (b 0 k j i + b 0 k (j-1) i + b 0 (k-1) j i + b 0 (k-1) (j-1) i
    - b 0 k j (i-1) - b 0 k (j-1) (i-1) - b 0 (k-1) j (i-1) - b 0 (k-1) (j-1) (i-1)) / dx 0 +
  (1/4) * (b 1 k j i + b 1 k j (i-1) + b 1 (k-1) j i + b 1 (k-1) j (i-1)
    - b 1 k (j-1) i - b 1 k (j-1) (i-1) - b 1 (k-1) (j-1) i - b 1 (k-1) (j-1) (i-1)) / dx 1 +
  (1/4) * (b 2 k j i + b 2 k j (i-1) + b 2 k (j-1) i + b 2 k (j-1) (i-1)
    - b 2 (k-1) j i - b 2 (k-1) j (i-1) - b 2 (k-1) (j-1) i - b 2 (k-1) (j-1) (i-1)) / dx 2

/-- One Runge-Kutta stage for the magnetic field, phoebus_driver.cpp:572-576:
`mc0 = beta mc0 + (1-beta) base; mc1 = mc0 + beta dt dUdt`. -/
def stageB (beta dt : K) (base cur rhs : Fin 3 → Arr K) : Fin 3 → Arr K := fun c k j i =>
  beta * cur c k j i + (1 - beta) * base c k j i + beta * dt * rhs c k j i

/-- What a mesh of blocks does in one stage: the block owning cell `(k,j,i)` applies its own `FluxCT` (2D) to the
face fluxes and takes the flux divergence.
(Helper of the model: the loop over blocks, stages and steps around the code of `FluxCT` and `FluxDivergence` cited above.) -/
def meshRhs2 (own : ℤ → ℤ → ℤ → Block) (old : ℤ → ℤ → ℤ → Arr K) (dx : Fin 3 → K) (F : Fin 3 → Fin 3 → Arr K)
    (c : Fin 3) : Arr K := fun k j i =>
  fluxDiv2 dx (fluxCT2D (own k j i) F (old k j i)) c k j i

/-- As `meshRhs2` in 3D.
(Helper of the model: the loop over blocks, stages and steps around the code of `FluxCT` and `FluxDivergence` cited above.) -/
def meshRhs3 (own : ℤ → ℤ → ℤ → Block) (old : ℤ → ℤ → ℤ → Fin 3 → Arr K) (dx : Fin 3 → K)
    (F : Fin 3 → Fin 3 → Arr K) (c : Fin 3) : Arr K := fun k j i =>
  fluxDiv3 dx (fluxCT3D (own k j i) F (old k j i)) c k j i

/-- Data of one stage: coefficient, block decomposition, stale scratch memory and the Riemann fluxes.
(Helper of the model: the loop over blocks, stages and steps around the code of `FluxCT` and `FluxDivergence` cited above.) -/
structure StageIn (K S : Type) where
  beta : K
  own : ℤ → ℤ → ℤ → Block
  old : ℤ → ℤ → ℤ → S
  F : Fin 3 → Fin 3 → Arr K

/-- One time step, phoebus_driver.cpp:134-138 and 572-576: stages in order, all relative to the same `base`. -/
def stepB {S : Type} (rhs : StageIn K S → Fin 3 → Arr K) (dt : K) (st : List (StageIn K S)) (base : Fin 3 → Arr K) :
    Fin 3 → Arr K :=
  st.foldl (fun cur s => stageB s.beta dt base cur (rhs s)) base

/-- A whole run: a list of steps.
(Helper of the model: the loop over blocks, stages and steps around the code of `FluxCT` and `FluxDivergence` cited above.) -/
def runB {S : Type} (rhs : StageIn K S → Fin 3 → Arr K) (steps : List (K × List (StageIn K S)))
    (B : Fin 3 → Arr K) : Fin 3 → Arr K :=
  steps.foldl (fun B s => stepB rhs s.1 s.2 B) B

/-- 2D right-hand side of a stage.
(Helper of the model: the loop over blocks, stages and steps around the code of `FluxCT` and `FluxDivergence` cited above.) -/
def rhs2 (dx : Fin 3 → K) (s : StageIn K (Arr K)) : Fin 3 → Arr K := fun c => meshRhs2 s.own s.old dx s.F c
/-- 3D right-hand side of a stage.
(Helper of the model: the loop over blocks, stages and steps around the code of `FluxCT` and `FluxDivergence` cited above.) -/
def rhs3 (dx : Fin 3 → K) (s : StageIn K (Fin 3 → Arr K)) : Fin 3 → Arr K := fun c => meshRhs3 s.own s.old dx s.F c

end Phoebus.FluxCT
