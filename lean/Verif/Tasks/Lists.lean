import Verif.Tasks.Props
import Verif.Monopole.Model

/-!
# Partitions: what is executed once, per partition, per block
-/
namespace Phoebus.Tasks
open Relation

/-! ### one partition -/

section
variable {τ ρ : Type} [DecidableEq τ] [DecidableEq ρ]

/-- deterministic on a mesh with a single list. -/
def Region.DeterministicSingle (R : Region τ ρ) : Prop :=
  ∀ (V : Type) [AddCommMonoid V] (body : ∀ x : Inst τ 0, Body (V := V) (R.foot 0 x)) (s : ρ × Option (Fin 1) → V)
    (l l' : List (Inst τ 0)), Schedule (R.dep 0) l → Schedule (R.dep 0) l' →
    run (fun x => (body x).act) l s = run (fun x => (body x).act) l' s

/-- the finite check for one list. -/
def Region.check1 (R : Region τ ρ) (fuel : ℕ) : Bool :=
  R.tasks.all fun a => R.tasks.all fun b =>
    a == b || !R.hits (fun _ => true) true a true b || R.waits 1 fuel (0, a) (0, b) || R.waits 1 fuel (0, b) (0, a)

theorem Region.single_of_check (R : Region τ ρ) (fuel : ℕ) (hall : ∀ a, a ∈ R.tasks) (h : R.check1 fuel = true) : R.DeterministicSingle := by
  intro V _ body s l l' hl hl'
  refine race_free_deterministic _ _ ?_ body s l l' hl hl'
  intro ⟨p, a⟩ ⟨q, b⟩ hne hcol
  obtain rfl : p = 0 := Fin.ext (by omega)
  obtain rfl : q = 0 := Fin.ext (by omega)
  have hab : a ≠ b := fun e => hne (by rw [e])
  have hh : R.hits (fun _ => true) true a true b = true := by
    rcases R.hits_of _ _ hcol with ⟨-, h⟩ | h
    · exact h
    · simp only [Region.hits, Bool.or_eq_true, List.any_eq_true, Bool.and_eq_true] at h ⊢
      rcases h with (⟨r, h1, -, h2⟩ | ⟨r, h1, -, h2⟩) | (⟨r, h1, -, h2⟩ | ⟨r, h1, -, h2⟩)
      · exact Or.inl (Or.inl ⟨r, h1, trivial, h2⟩)
      · exact Or.inl (Or.inr ⟨r, h1, trivial, h2⟩)
      · exact Or.inr (Or.inl ⟨r, h1, trivial, h2⟩)
      · exact Or.inr (Or.inr ⟨r, h1, trivial, h2⟩)
  have := List.all_eq_true.1 h a (hall a)
  have := List.all_eq_true.1 this b (hall b)
  simp only [Bool.or_eq_true, Bool.not_eq_true', beq_iff_eq] at this
  rcases this with ((h | h) | h) | h
  · exact absurd h hab
  · rw [h] at hh; cases hh
  · exact Or.inl (R.waits_sound _ _ _ h)
  · exact Or.inr (R.waits_sound _ _ _ h)
end

/-- **C96** With one partition (one block for Monte Carlo) the net-field, monopole, light-bulb and Monte Carlo regions are deterministic: their
races are between lists.

Partial form of C96. Full property: All remaining regions should also be schedule independent. Missing: The property
is false of the code in these regions; each race is shown by two schedules, and the repaired graphs are proved
deterministic. -/
theorem single_partition_deterministic_partial : (netFieldRegion true false).DeterministicSingle ∧ (monopoleRegion false).DeterministicSingle ∧
    (bulbRegion true false).DeterministicSingle ∧ (mcRegion false).DeterministicSingle :=
  ⟨Region.single_of_check _ 10 (netField_all _ _) (by decide +kernel), Region.single_of_check _ 12 (monopole_all _) (by decide +kernel),
   Region.single_of_check _ 8 (bulb_all _ _) (by decide +kernel), Region.single_of_check _ 8 (mc_all _) (by decide +kernel)⟩

/-! ### shell matter of the monopole solver -/

section
variable {K : Type*} [Field K] [LinearOrder K]

/-- `InterpolateMatterTo1D` on a partition, interp_3d_to_1d.hpp:89-167: the shell array is set to zero, then the cells are accumulated. -/
def interpTo1D (dr1d : K) (n : ℕ) (idx : K → ℕ) (cells : List (Monopole.Cell K)) (M : ℕ → K) : ℕ → K :=
  let zeroed : ℕ → K := fun i => if i < n then 0 else M i
  fun i => zeroed i + Monopole.matter1d dr1d n idx cells i

/-- all partitions, in the order in which the runtime executes the tasks of line 499. -/
def interpAll (dr1d : K) (n : ℕ) (idx : K → ℕ) (parts : List (List (Monopole.Cell K))) (M : ℕ → K) : ℕ → K :=
  parts.foldl (fun M cells => interpTo1D dr1d n idx cells M) M

/-- **C99** With one partition the shells hold the matter of all its cells.

Partial form of C99. Full property: The shell density used by the monopole solver is the matter of all cells of the
mesh, however it is split into partitions. Missing: Holds for one partition; false otherwise (only_last_partition). -/
theorem single_partition_deposit_partial (dr1d : K) (n : ℕ) (idx : K → ℕ) (cells : List (Monopole.Cell K)) (M : ℕ → K) (i : ℕ) (hi : i < n) :
    interpAll dr1d n idx [cells] M i = Monopole.matter1d dr1d n idx cells i := by
  simp [interpAll, interpTo1D, hi]

/-- **C99** With several partitions they hold the matter of the partition deposited last, all others are forgotten. -/
theorem only_last_partition (dr1d : K) (n : ℕ) (idx : K → ℕ) (parts : List (List (Monopole.Cell K))) (cells : List (Monopole.Cell K)) (M : ℕ → K)
    (i : ℕ) (hi : i < n) : interpAll dr1d n idx (parts ++ [cells]) M i = Monopole.matter1d dr1d n idx cells i := by
  simp [interpAll, interpTo1D, hi]

/-- the shell sums are additive over cells: what they should be is the sum over partitions. -/
theorem matter1d_flatten (dr1d : K) (n : ℕ) (idx : K → ℕ) (parts : List (List (Monopole.Cell K))) (i : ℕ) :
    Monopole.matter1d dr1d n idx parts.flatten i = (parts.map fun c => Monopole.matter1d dr1d n idx c i).sum := by
  induction parts with
  | nil => simp [Monopole.matter1d]
  | cons c l ih => rw [List.flatten_cons, List.map_cons, List.sum_cons, ← ih]; simp [Monopole.matter1d]

/-- **C99** The deposit is that of the whole mesh exactly when the forgotten partitions contribute nothing to the shell. -/
theorem deposit_correct_iff (dr1d : K) (n : ℕ) (idx : K → ℕ) (parts : List (List (Monopole.Cell K))) (cells : List (Monopole.Cell K)) (M : ℕ → K)
    (i : ℕ) (hi : i < n) :
    interpAll dr1d n idx (parts ++ [cells]) M i = Monopole.matter1d dr1d n idx (parts ++ [cells]).flatten i ↔
      (parts.map fun c => Monopole.matter1d dr1d n idx c i).sum = 0 := by
  rw [only_last_partition _ _ _ _ _ _ _ hi, matter1d_flatten]
  simp
end

/-! ### tracers -/

section
variable {K : Type*}

/-- a slot of a swarm. -/
structure Slot (K : Type*) where
  x : K
  active : Bool

/-- `swarm->GetMaxActiveIndex()` of Parthenon: the largest active index, -1 for an empty swarm (monte_carlo.cpp:675-684 uses it as the inclusive
upper bound of a loop). -/
def maxActive : List (Slot K) → ℤ
  | [] => -1
  | s :: l => let m := maxActive l; if 0 ≤ m then m + 1 else if s.active then 0 else -1

variable [LinearOrder K]

/-- `fixup::PurgeParticles`, fixup_particles.cpp:36-71 (FMKS): loop over slots `0 … max_active_index - 1`. -/
def purge (xh : K) (sw : List (Slot K)) : List (Slot K) :=
  sw.mapIdx fun n s => if (n : ℤ) ≤ maxActive sw - 1 ∧ s.active = true ∧ s.x ≤ xh then { s with active := false } else s

/-- the purge tasks of `async_region_tr`, phoebus_driver.cpp:627-642: list `n` of `num_partitions` purges block `n`. -/
def purgeAll (xh : K) (parts : ℕ) (blocks : List (List (Slot K))) : List (List (Slot K)) :=
  blocks.mapIdx fun n sw => if n < parts then purge xh sw else sw

omit [LinearOrder K] in
theorem maxActive_spec (sw : List (Slot K)) (n : ℕ) (s : Slot K) (h : sw[n]? = some s) (ha : s.active = true) : (n : ℤ) ≤ maxActive sw := by
  induction sw generalizing n with
  | nil => simp at h
  | cons t l ih =>
    cases n with
    | zero =>
      simp at h; subst h
      simp only [maxActive, ha, if_true]; split_ifs <;> push_cast <;> omega
    | succ n =>
      rw [List.getElem?_cons_succ] at h
      have := ih n h
      simp only [maxActive]
      rw [if_pos (by omega)]; push_cast; omega

omit [LinearOrder K] in
theorem maxActive_active (sw : List (Slot K)) (n : ℕ) (h : maxActive sw = n) : ∃ s, sw[n]? = some s ∧ s.active = true := by
  induction sw generalizing n with
  | nil => simp [maxActive] at h
  | cons t l ih =>
    simp only [maxActive] at h
    split_ifs at h with h1 h2
    · obtain ⟨k, rfl⟩ : ∃ k, n = k + 1 := ⟨n - 1, by omega⟩
      obtain ⟨s, hs, ha⟩ := ih k (by push_cast at h; omega)
      exact ⟨s, by rw [List.getElem?_cons_succ]; exact hs, ha⟩
    · obtain rfl : n = 0 := by omega
      exact ⟨t, rfl, h2⟩

/-- **C100** Purging removes particles inside the horizon and no others …

Partial form of C100. Full property: At the end of a step the tracers inside the horizon are removed on every mesh
block, however the mesh is split into partitions, and no tracer outside is touched. Missing: The last active slot and
all blocks beyond the number of partitions are missed. -/
theorem purge_spec_partial (xh : K) (sw : List (Slot K)) (n : ℕ) (s : Slot K) (h : sw[n]? = some s) :
    (purge xh sw)[n]? = some (if (n : ℤ) < maxActive sw ∧ s.active = true ∧ s.x ≤ xh then { s with active := false } else s) := by
  simp only [purge, List.getElem?_mapIdx, h, Option.map_some, Int.le_sub_one_iff]

/-- **C100** … except that the particle in the last active slot is never looked at: after a purge a particle is left inside the horizon exactly
when it is that one. -/
theorem purge_leaves_last (xh : K) (sw : List (Slot K)) (n : ℕ) (s : Slot K) (h : sw[n]? = some s) (ha : s.active = true) (hx : s.x ≤ xh) :
    (∃ s', (purge xh sw)[n]? = some s' ∧ s'.active = true) ↔ (n : ℤ) = maxActive sw := by
  rw [purge_spec_partial xh sw n s h]
  have hle := maxActive_spec sw n s h ha
  constructor
  · rintro ⟨s', hs, ha'⟩
    by_contra hne
    rw [if_pos ⟨by omega, ha, hx⟩, Option.some.injEq] at hs
    subst hs; simp at ha'
  · intro he
    exact ⟨s, by rw [if_neg (by rintro ⟨h1, -⟩; omega)], ha⟩

/-- **C100** Only the first `num_partitions` blocks are purged. -/
theorem purge_blocks (xh : K) (parts : ℕ) (blocks : List (List (Slot K))) (b : ℕ) (sw : List (Slot K)) (h : blocks[b]? = some sw) :
    (purgeAll xh parts blocks)[b]? = some (if b < parts then purge xh sw else sw) := by
  simp [purgeAll, List.getElem?_mapIdx, h]

/-- **C100** With one partition (the default) tracers of all blocks but the first stay, however deep they fall. -/
theorem tracer_not_purged (xh : K) (blocks : List (List (Slot K))) (b : ℕ) (hb : 0 < b) : (purgeAll xh 1 blocks)[b]? = blocks[b]? := by
  by_cases h : b < blocks.length
  · rw [purge_blocks xh 1 blocks b blocks[b] (List.getElem?_eq_getElem h), if_neg (by omega), List.getElem?_eq_getElem h]
  · simp [purgeAll, List.getElem?_mapIdx, h]

/-- example: of three particles inside the horizon two are removed. -/
theorem ex_purge : (purge (K := ℚ) 1 [⟨0, true⟩, ⟨2, true⟩, ⟨1/2, true⟩, ⟨1, true⟩, ⟨0, false⟩]).map Slot.active = [false, true, false, true, false] := by
  decide +kernel
end

end Phoebus.Tasks
