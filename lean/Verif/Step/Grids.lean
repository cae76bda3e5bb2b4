import Verif.Step.Props
import Mathlib.Order.Interval.Finset.Basic
import Mathlib.Data.Pi.Interval
import Mathlib.Data.Int.Interval

/-!
# C130: meshes that meet the hypotheses

Regular grids of blocks, periodic or with copies of the outermost cells beyond the boundary.
-/
namespace Phoebus.Step
open FluxSweep
variable {K : Type} [Field K] [LinearOrder K] {N : ℕ}

/-- the domain with `n d` cells in direction `d`. -/
def Box (n : Fin 3 → ℕ) (p : Pos) : Prop := ∀ d, 0 ≤ p d ∧ p d < n d

/-- periodic images. -/
def wrapPeriodic (n : Fin 3 → ℕ) (p : Pos) : Pos := fun d => p d % n d

/-- nearest cell of the domain. -/
def wrapNearest (n : Fin 3 → ℕ) (p : Pos) : Pos := fun d => max 0 (min (n d - 1) (p d))

/-- `nb d` blocks of `nx d` cells in direction `d`, with `g` ghost cells in the first `nd` directions. -/
def regular (nd : ℕ) (g : ℤ) (nb nx : Fin 3 → ℕ) [∀ d, NeZero (nb d)] (wrap : Pos → Pos) : Grid ((d : Fin 3) → Fin (nb d)) where
  shape := fun _ => ⟨nd, g, fun d => nx d⟩
  off := fun i d => (i d).val * nx d - (if d.val < nd then g else 0)
  own := fun p d => Fin.ofNat (nb d) (p d / nx d).toNat
  wrap := wrap

theorem wrapPeriodic_box (n : Fin 3 → ℕ) (hn : ∀ d, 0 < n d) :
    (∀ p, Box n (wrapPeriodic n p)) ∧ ∀ p, Box n p → wrapPeriodic n p = p := by
  constructor
  · intro p d
    have := hn d
    exact ⟨Int.emod_nonneg _ (by omega), Int.emod_lt_of_pos _ (by omega)⟩
  · intro p h
    funext d
    exact Int.emod_eq_of_lt (h d).1 (h d).2

theorem wrapNearest_box (n : Fin 3 → ℕ) (hn : ∀ d, 0 < n d) :
    (∀ p, Box n (wrapNearest n p)) ∧ ∀ p, Box n p → wrapNearest n p = p := by
  constructor
  · intro p d
    have := hn d
    unfold wrapNearest
    omega
  · intro p h
    funext d
    have := h d
    unfold wrapNearest
    omega

/-- regular grids tile their domain; directions beyond `nd` have a single cell. -/
theorem regular_tiles (nd : ℕ) (g : ℤ) (nb nx : Fin 3 → ℕ) [∀ d, NeZero (nb d)] (hx : ∀ d, 0 < nx d) (h1 : ∀ d : Fin 3, nd ≤ d.val → nb d = 1 ∧ nx d = 1)
    (wrap : Pos → Pos) (hw : (∀ p, Box (fun d => nb d * nx d) (wrap p)) ∧ ∀ p, Box (fun d => nb d * nx d) p → wrap p = p) :
    Tiles (regular nd g nb nx wrap) nd g (Box fun d => nb d * nx d) where
  ndim := fun _ => rfl
  ghosts := fun _ => rfl
  inside := by
    intro i c h d
    have hd := h d
    have hi : (i d).val + 1 ≤ nb d := (i d).isLt
    have hi' : ((i d).val : ℤ) * nx d + nx d ≤ nb d * nx d := by exact_mod_cast (by nlinarith : (i d).val * nx d + nx d ≤ nb d * nx d)
    have h0 : (0 : ℤ) ≤ ((i d).val : ℤ) * nx d := by positivity
    simp only [regular, Blk.s, Blk.e, Blk.act] at hd ⊢
    push_cast
    by_cases ha : d.val < nd
    · simp only [ha, if_true] at hd ⊢; omega
    · simp only [ha, if_false] at hd ⊢
      have := hx d
      omega
  owned := by
    intro p hp d
    obtain ⟨h0, hlt⟩ := hp d
    have hxd : (0 : ℤ) < nx d := by exact_mod_cast hx d
    have hq0 : 0 ≤ p d / nx d := Int.ediv_nonneg h0 hxd.le
    have hq1 : p d / nx d < nb d := by
      apply Int.ediv_lt_of_lt_mul hxd
      push_cast at hlt; exact hlt
    have hv : ((Fin.ofNat (nb d) (p d / nx d).toNat).val : ℤ) = p d / nx d := by
      rw [Fin.val_ofNat, Nat.mod_eq_of_lt (by omega), Int.toNat_of_nonneg hq0]
    have hm := Int.emod_nonneg (p d) hxd.ne'
    have hm' := Int.emod_lt_of_pos (p d) hxd
    have he := Int.mul_ediv_add_emod (p d) (nx d)
    simp only [regular, Blk.s, Blk.e, Blk.act, hv]
    rw [mul_comm] at he
    by_cases ha : d.val < nd
    · simp only [ha, if_true]; omega
    · simp only [ha, if_false]
      have := (h1 d (by omega)).2
      rw [this] at hm' he ⊢
      push_cast at *
      omega
  wrapped := hw.1
  fixed := hw.2

/-- the iterations of a block can be listed. -/
theorem exists_covers (b : Blk) (N : ℕ) : ∃ order : List (Fin N × Pos), Covers b order := by
  classical
  let lo : Pos := fun d => b.s d - b.ext d
  let hi : Pos := fun d => b.e d + b.ext d
  refine ⟨((Finset.univ : Finset (Fin N)) ×ˢ Finset.Icc lo hi).toList, fun n c => ?_⟩
  rw [Finset.mem_toList, Finset.mem_product, Finset.mem_Icc, Pi.le_def, Pi.le_def]
  constructor
  · rintro ⟨-, h1, h2⟩ d
    exact ⟨h1 d, h2 d⟩
  · intro h
    exact ⟨Finset.mem_univ _, fun d => (h d).1, fun d => (h d).2⟩

/-- whatever memory contains, there is a schedule that executes every iteration. -/
theorem exists_complete {B : Type} (G : Grid B) (scratch : ℕ → ℕ → B → Faces K N × Faces K N) (old : ℕ → ℕ → B → Fin 3 → Pos → ℕ → K)
    (emf2 : ℕ → ℕ → B → FluxCT.Arr K) (emf3 : ℕ → ℕ → B → Fin 3 → FluxCT.Arr K) :
    ∃ mem : ℕ → ℕ → B → Mem K N, Complete G mem ∧ ∀ n k i, (mem n k i).scratch = scratch n k i ∧ (mem n k i).old = old n k i := by
  refine ⟨fun n k i => ⟨(exists_covers (G.shape i) N).choose, scratch n k i, old n k i, emf2 n k i, emf3 n k i⟩, fun n k i => ?_, fun n k i => ⟨rfl, rfl⟩⟩
  exact (exists_covers (G.shape i) N).choose_spec

/-- **C130 (regular meshes)**: the same domain of `n d` cells cut into blocks of `nx d` or of `nx' d` cells, with periodic or copied ghost cells:
started from the same data at every position, the runs agree in every cell of the domain. -/
theorem regular_decomposition (nd : ℕ) (g : ℤ) (nb nx nb' nx' : Fin 3 → ℕ) [∀ d, NeZero (nb d)] [∀ d, NeZero (nb' d)] (hx : ∀ d, 0 < nx d)
    (hx' : ∀ d, 0 < nx' d) (h1 : ∀ d : Fin 3, nd ≤ d.val → nb d = 1 ∧ nx d = 1) (h1' : ∀ d : Fin 3, nd ≤ d.val → nb' d = 1 ∧ nx' d = 1)
    (hn : ∀ d, nb d * nx d = nb' d * nx' d) (wrap : Pos → Pos) (hw : wrap = wrapPeriodic (fun d => nb d * nx d) ∨ wrap = wrapNearest fun d => nb d * nx d)
    (est : Pos → (Fin N → K) → (Fin 3 → K × K) → K) (ctrl : ℕ → K → Set K → K) (prog : ℕ → K → List (Phys K N)) (hg0 : 0 ≤ g)
    (hg : ∀ n dt, ∀ P ∈ prog n dt, 1 + radius P.rt ≤ g) (mem : ℕ → ℕ → ((d : Fin 3) → Fin (nb d)) → Mem K N)
    (ho : Complete (regular nd g nb nx wrap) mem) (mem' : ℕ → ℕ → ((d : Fin 3) → Fin (nb' d)) → Mem K N)
    (ho' : Complete (regular nd g nb' nx' wrap) mem') (Y : Glob K N) (dt : K) (n : ℕ) :
    let G := regular nd g nb nx wrap
    let G' := regular nd g nb' nx' wrap
    let R := run G est ctrl prog mem n ((fun i c => Y.1 fun e => c e + G.off i e, fun i d f => Y.2 d fun e => f e + G.off i e), dt)
    let R' := run G' est ctrl prog mem' n ((fun i c => Y.1 fun e => c e + G'.off i e, fun i d f => Y.2 d fun e => f e + G'.off i e), dt)
    (∀ p, Box (fun d => nb d * nx d) p →
      R.1.1 (G.own p) (fun e => p e - G.off (G.own p) e) = R'.1.1 (G'.own p) fun e => p e - G'.off (G'.own p) e) ∧ R.2 = R'.2 := by
  intro G G' R R'
  have hpos : ∀ d, 0 < nb d * nx d := fun d => Nat.mul_pos (Nat.pos_of_ne_zero (NeZero.ne _)) (hx d)
  have hwb : (∀ p, Box (fun d => nb d * nx d) (wrap p)) ∧ ∀ p, Box (fun d => nb d * nx d) p → wrap p = p := by
    rcases hw with rfl | rfl
    · exact wrapPeriodic_box _ hpos
    · exact wrapNearest_box _ hpos
  have T := regular_tiles nd g nb nx hx h1 wrap hwb
  have hnn : (fun d => nb' d * nx' d) = fun d => nb d * nx d := funext fun d => (hn d).symm
  have T' := regular_tiles nd g nb' nx' hx' h1' wrap (by rw [hnn]; exact hwb)
  rw [hnn] at T'
  obtain ⟨r1, r2⟩ := run_decomposition G G' nd g _ T T' rfl est ctrl prog hg0 hg mem ho mem' ho'
    (fun i c => Y.1 fun e => c e + G.off i e, fun i d f => Y.2 d fun e => f e + G.off i e)
    (fun i c => Y.1 fun e => c e + G'.off i e, fun i d f => Y.2 d fun e => f e + G'.off i e) Y dt
    ⟨fun _ _ _ => rfl, fun _ _ _ _ => rfl⟩ ⟨fun _ _ _ => rfl, fun _ _ _ _ => rfl⟩ n
  refine ⟨fun p hp => ?_, r2⟩
  exact r1 _ _ _ _ (T.owned p hp) (T'.owned p hp) fun e => by ring

/-- the hypotheses are met: a two-dimensional periodic domain of 16 x 8 cells as 4 x 2 blocks of 4 x 4 or as one block, WENO5-Z with four ghost cells. -/
theorem ex_regular : ∃ (nb nx nb' nx' : Fin 3 → ℕ), (∀ d, 0 < nb d) ∧ (∀ d, 0 < nx d) ∧ (∀ d : Fin 3, 2 ≤ d.val → nb d = 1 ∧ nx d = 1) ∧
    (∀ d : Fin 3, 2 ≤ d.val → nb' d = 1 ∧ nx' d = 1) ∧ (∀ d, nb d * nx d = nb' d * nx' d) ∧ nb 0 ≠ nb' 0 ∧ 1 + radius .weno5z ≤ 4 :=
  ⟨![4, 2, 1], ![4, 4, 1], ![1, 1, 1], ![16, 8, 1], by decide, by decide, by decide, by decide, by decide, by decide, by decide⟩

end Phoebus.Step
