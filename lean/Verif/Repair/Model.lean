import Verif.Floors.Props

/-!
# Model of the failed-cell repairs: `fixup_c2p.cpp`, `fixup_radc2p.cpp`, `fixup_src.cpp` and `fixup_particles.cpp`

A block is a map from cell indices to cell contents; a kernel launch visits the cells of a list in its order (Kokkos
guarantees none, so the theorems quantify over it).  Flags are stored as reals, `1` for success and `0` for failure
(con2prim_robust.hpp `FailFlags`, radiation.hpp `FailFlags`).  The EOS enters as an exact function, so the temperature used
as its initial guess is not modelled.  `c2p_failure_force_fixup_both` is false (the code refuses to run otherwise,
fixup_c2p.cpp:167).
-/
namespace Phoebus.Repair
open Finset Geom Robust Rel Floors

/-- Cell index `(k, j, i)`.
(Data type of the model of fixup_c2p.cpp, fixup_radc2p.cpp and fixup_src.cpp.) -/
abbrev Idx := ℤ × ℤ × ℤ

/-- The lambda `fixup`, fixup_c2p.cpp:202-214 (same text in fixup_radc2p.cpp:138-150, fixup_src.cpp:164-176), without the
final multiplication by `inv_mask_sum`.  Generic in the number type so that it can also be read over floating point values
with a NaN. -/
def weighted {A : Type*} [Add A] [Mul A] (ndim : ℕ) (flag x : Idx → A) : Idx → A
  | (k, j, i) =>
    let s := flag (k, j, i - 1) * x (k, j, i - 1) + flag (k, j, i + 1) * x (k, j, i + 1)
    if ndim > 1 then
      let s := s + (flag (k, j - 1, i) * x (k, j - 1, i) + flag (k, j + 1, i) * x (k, j + 1, i))
      if ndim = 3 then
        s + (flag (k - 1, j, i) * x (k - 1, j, i) + flag (k + 1, j, i) * x (k + 1, j, i))
      else s
    else s

/-- `num_valid`, fixup_c2p.cpp:218-221. -/
def numValid {A : Type*} [Add A] (ndim : ℕ) (flag : Idx → A) : Idx → A
  | (k, j, i) =>
    let n := flag (k, j, i - 1) + flag (k, j, i + 1)
    let n := if ndim > 1 then n + (flag (k, j - 1, i) + flag (k, j + 1, i)) else n
    if ndim = 3 then n + (flag (k - 1, j, i) + flag (k + 1, j, i)) else n

/-- `fixup(iv, norm)` with `norm = 1 / num_valid`, fixup_c2p.cpp:213, 228. -/
noncomputable def average (ndim : ℕ) (flag x : Idx → ℝ) (c : Idx) : ℝ :=
  1 / numValid ndim flag c * weighted ndim flag x c

/-- `FAILURE_STRATEGY`, fixup.hpp.
(fixup.hpp:28-31.) -/
inductive Strategy | interpolate | floors
deriving DecidableEq

/-- Per-cell data that no repair changes: geometry, ceiling.
(Data type of the model of fixup_c2p.cpp, fixup_radc2p.cpp and fixup_src.cpp.) -/
structure Local where
  G : ADM ℝ
  gdet : ℝ
  gmax : ℝ

/-- The averaged (or fallback) primitives of a fluid repair, fixup_c2p.cpp:226-255: density, energy, velocity, Ye. -/
noncomputable def fluidFill (st : Strategy) (hasYe : Bool) (small : ℝ) (ndim : ℕ) (flag : Idx → ℝ) (f : Idx → Cell) (c : Idx) :
    Cell :=
  let q := (f c).prim
  if numValid ndim flag c > 0.5 ∧ st = .interpolate then
    let rho := average ndim flag (fun d => (f d).prim.rho) c
    let u := average ndim flag (fun d => (f d).prim.u) c
    let v : Fin 3 → ℝ := fun l => average ndim flag (fun d => (f d).prim.v l) c
    let ye := if hasYe then average ndim flag (fun d => (f d).ye) c else (f c).ye
    ⟨{ q with rho := max rho (100 * small), u := max u (100 * small), v := v }, ye, (f c).cons⟩
  else
    ⟨{ q with rho := 100 * small, u := 100 * small, v := fun _ => 0 }, if hasYe then 0.5 else (f c).ye, (f c).cons⟩

/-- Velocity clamp, fixup_c2p.cpp:267-275 (and fixup_src.cpp:251-259). -/
noncomputable def clampVel (L : Local) (v : Fin 3 → ℝ) : Fin 3 → ℝ :=
  let W := lorentz L.G.gam v
  if W > L.gmax then fun l => v l * rescale L.gmax W else v

/-- Dependent primitives and conserved variables, fixup_c2p.cpp:257-315.  The conserved field is not written. -/
noncomputable def finish (val hasYe : Bool) (P : Press) (L : Local) (cell : Cell) : Cell :=
  let v := clampVel L cell.prim.v
  let q : Prim := { cell.prim with
    v := v, P := P cell.prim.rho (cell.prim.u / cell.prim.rho) (if hasYe then cell.ye else 0.5) }
  let d := p2c val L.G L.gdet (if hasYe then cell.ye else 0.5) q
  ⟨q, cell.ye, { cell.cons with D := d.D, S := d.S, tau := d.tau, ye := if hasYe then d.ye else cell.cons.ye }⟩

/-- Repair of one failed cell by `ConservedToPrimitiveFixupImpl`, fixup_c2p.cpp:217-315. -/
noncomputable def repairCell (val hasYe : Bool) (st : Strategy) (small : ℝ) (ndim : ℕ) (P : Press) (L : Idx → Local)
    (flag : Idx → ℝ) (f : Idx → Cell) (c : Idx) : Cell :=
  finish val hasYe P (L c) (fluidFill st hasYe small ndim flag f c)

/-- One visit, fixup_c2p.cpp:170-350: only failed cells are written, and the flag is not reset. -/
noncomputable def visit (val hasYe : Bool) (st : Strategy) (small : ℝ) (ndim : ℕ) (P : Press) (L : Idx → Local)
    (flag : Idx → ℝ) (f : Idx → Cell) (c : Idx) : Idx → Cell :=
  if flag c = 0 then Function.update f c (repairCell val hasYe st small ndim P L flag f c) else f

/-- The kernel, visiting the cells in the order of `order`.
(Helper: the `par_for` of fixup_c2p.cpp around the kernel above.) -/
noncomputable def repair (val hasYe : Bool) (st : Strategy) (small : ℝ) (ndim : ℕ) (P : Press) (L : Idx → Local)
    (flag : Idx → ℝ) (order : List Idx) (f : Idx → Cell) : Idx → Cell :=
  order.foldl (visit val hasYe st small ndim P L flag) f

/-! ### Radiation -/

/-- Radiation moments of one species: `J` and `H_i / J`.
(Data type of the model of fixup_c2p.cpp, fixup_radc2p.cpp and fixup_src.cpp.) -/
structure Mom where
  J : ℝ
  H : Fin 3 → ℝ

/-- Square of the flux factor, fixup_radc2p.cpp:191-193: `gamma^ij H_i H_j - (v^i H_i)^2`. -/
noncomputable def xiSq (G : ADM ℝ) (w H : Fin 3 → ℝ) : ℝ :=
  (∑ i, ∑ j, G.gamInv i j * H i * H j) - (∑ i, w i * H i) ^ 2

/-- Averaged (or fallback) moments, fixup_radc2p.cpp:172-186. -/
noncomputable def radFill (st : Strategy) (small : ℝ) (ndim : ℕ) (flag : Idx → ℝ) (m : Idx → Mom) (c : Idx) : Mom :=
  if numValid ndim flag c > 0.5 ∧ st = .interpolate then
    ⟨average ndim flag (fun d => (m d).J) c, fun l => average ndim flag (fun d => (m d).H l) c⟩
  else ⟨10 * small, fun _ => 0⟩

/-- Flux-factor ceiling, fixup_radc2p.cpp:188-197. -/
noncomputable def xiCeiling (ximax : ℝ) (G : ADM ℝ) (w : Fin 3 → ℝ) (m : Mom) : Mom :=
  let xi := Real.sqrt (xiSq G w m.H)
  if xi > ximax then ⟨m.J, fun l => m.H l * (ximax / xi)⟩ else m

/-- One visit of `RadConservedToPrimitiveFixupImpl`, fixup_radc2p.cpp:125-221 (primitives of one species; the conserved
moments are recomputed from them by the closure, modelled in `Rad`).  `w c` is the three-velocity. -/
noncomputable def radVisit (st : Strategy) (small ximax : ℝ) (ndim : ℕ) (G : Idx → ADM ℝ) (w : Idx → Fin 3 → ℝ)
    (flag : Idx → ℝ) (m : Idx → Mom) (c : Idx) : Idx → Mom :=
  if flag c = 0 then Function.update m c (xiCeiling ximax (G c) (w c) (radFill st small ndim flag m c)) else m

/-- Helper: the `par_for` of fixup_radc2p.cpp around the kernel above. -/
noncomputable def radRepair (st : Strategy) (small ximax : ℝ) (ndim : ℕ) (G : Idx → ADM ℝ) (w : Idx → Fin 3 → ℝ)
    (flag : Idx → ℝ) (order : List Idx) (m : Idx → Mom) : Idx → Mom :=
  order.foldl (radVisit st small ximax ndim G w flag) m

/-- Flags seen by `SourceFixupImpl`: ghost cells are marked failed first, fixup_src.cpp:131-144. -/
def srcFlags (interior : Idx → Bool) (flag : Idx → ℝ) : Idx → ℝ := fun c => if interior c then flag c else 0

/-- Moments written by `SourceFixupImpl`, fixup_src.cpp:203-208, 234-238: no flux-factor ceiling is applied (the value computed
at 267-269 is unused). -/
noncomputable def srcRadVisit (st : Strategy) (small : ℝ) (ndim : ℕ) (flag : Idx → ℝ) (m : Idx → Mom) (c : Idx) : Idx → Mom :=
  if flag c = 0 then Function.update m c (radFill st small ndim flag m c) else m

/-! ### Particle purge -/

/-- `PurgeParticles`, fixup_particles.cpp:36-71: `par_for` bounds are inclusive and the loop runs to `max_active_index - 1`,
where `max_active_index` is the index of the last active particle (cf. monte_carlo.cpp:675-684).  Result: which slots are
still active. -/
noncomputable def purge (xh : ℝ) (maxActive : ℕ) (x : ℕ → ℝ) (active : ℕ → Bool) : ℕ → Bool :=
  fun n => if (n : ℤ) ≤ (maxActive : ℤ) - 1 ∧ active n = true ∧ x n ≤ xh then false else active n

end Phoebus.Repair
