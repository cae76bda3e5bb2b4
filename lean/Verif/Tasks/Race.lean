import Verif.Tasks.Theory

/-!
# Showing that a region is *not* deterministic

A counterexample is two schedules of the same region and concrete task bodies with the declared footprints.
-/
namespace Phoebus.Tasks

variable {τ ρ : Type} [DecidableEq τ] [DecidableEq ρ]

/-- concrete bodies: overwrite with a task number plus the sum of everything read; accumulate the same number. -/
def Region.sample (R : Region τ ρ) (code : τ → ℕ) (n : ℕ) (x : Inst τ n) (s : ρ × Option (Fin (n + 1)) → ℕ) :
    ρ × Option (Fin (n + 1)) → ℕ := fun y =>
  let v := code x.2 + x.1.val + ((R.reads (x.1 == 0) x.2).map fun r => s (R.at' x.1 r)).sum
  if y ∈ (R.writes (x.1 == 0) x.2).map (R.at' x.1) then v
  else if y ∈ (R.adds (x.1 == 0) x.2).map (R.at' x.1) then s y + v
  else s y

/-- they respect the footprints. -/
def Region.sampleBody (R : Region τ ρ) (code : τ → ℕ) (n : ℕ) (x : Inst τ n) : Body (V := ℕ) (R.foot n x) where
  act := R.sample code n x
  frame s y hw ha := by
    have h1 : y ∉ (R.writes (x.1 == 0) x.2).map (R.at' x.1) := fun h => by
      obtain ⟨r, hr, h⟩ := List.mem_map.1 h; exact hw ⟨r, hr, h.symm⟩
    have h2 : y ∉ (R.adds (x.1 == 0) x.2).map (R.at' x.1) := fun h => by
      obtain ⟨r, hr, h⟩ := List.mem_map.1 h; exact ha ⟨r, hr, h.symm⟩
    simp only [Region.sample]
    rw [if_neg h1, if_neg h2]
  written s s' h y hy := by
    have h1 : y ∈ (R.writes (x.1 == 0) x.2).map (R.at' x.1) := by
      obtain ⟨r, hr, h⟩ := hy; exact List.mem_map.2 ⟨r, hr, h.symm⟩
    have e : (R.reads (x.1 == 0) x.2).map (fun r => s (R.at' x.1 r)) = (R.reads (x.1 == 0) x.2).map (fun r => s' (R.at' x.1 r)) :=
      List.map_congr_left fun r hr => h _ ⟨r, hr, rfl⟩
    simp only [Region.sample]
    rw [if_pos h1, if_pos h1, e]
  added y hy hw := by
    have h1 : y ∉ (R.writes (x.1 == 0) x.2).map (R.at' x.1) := fun h => by
      obtain ⟨r, hr, h⟩ := List.mem_map.1 h; exact hw ⟨r, hr, h.symm⟩
    have h2 : y ∈ (R.adds (x.1 == 0) x.2).map (R.at' x.1) := by
      obtain ⟨r, hr, h⟩ := hy; exact List.mem_map.2 ⟨r, hr, h.symm⟩
    refine ⟨fun s => code x.2 + x.1.val + ((R.reads (x.1 == 0) x.2).map fun r => s (R.at' x.1 r)).sum, fun s => ?_, fun s s' h => ?_⟩
    · simp only [Region.sample]
      rw [if_neg h1, if_pos h2]
    · have e : (R.reads (x.1 == 0) x.2).map (fun r => s (R.at' x.1 r)) = (R.reads (x.1 == 0) x.2).map (fun r => s' (R.at' x.1 r)) :=
        List.map_congr_left fun r hr => h _ ⟨r, hr, rfl⟩
      simp only [e]

/-- a computed test that a list is a schedule. -/
def Region.isSchedule (R : Region τ ρ) (n : ℕ) (l : List (Inst τ n)) : Bool :=
  l.length == (n + 1) * R.tasks.length &&
  ((List.finRange (n + 1)).all fun p => R.tasks.all fun a => l.contains (p, a)) &&
  ((List.finRange (n + 1)).all fun q => R.tasks.all fun b => (R.deps (q == 0) b).all fun a =>
    (if R.sync a then List.finRange (n + 1) else [q]).all fun p => decide (@List.idxOf _ instBEqOfDecidableEq (p, a) l < @List.idxOf _ instBEqOfDecidableEq (q, b) l))

theorem Region.isSchedule_sound (R : Region τ ρ) (hall : ∀ a, a ∈ R.tasks) (hnd : R.tasks.Nodup) (n : ℕ) (l : List (Inst τ n)) (h : R.isSchedule n l = true) :
    Schedule (R.dep n) l := by
  simp only [Region.isSchedule, Bool.and_eq_true, beq_iff_eq, List.all_eq_true, List.contains_iff_mem, decide_eq_true_eq] at h
  obtain ⟨⟨h1, h2⟩, h3⟩ := h
  have hmem : ∀ i, i ∈ l := fun i => h2 i.1 (List.mem_finRange _) i.2 (hall _)
  refine ⟨?_, hmem, ?_⟩
  · have hp : ((List.finRange (n + 1)) ×ˢ R.tasks).Nodup := List.Nodup.product (List.nodup_finRange _) hnd
    have hs : ((List.finRange (n + 1)) ×ˢ R.tasks).Subperm l := List.Nodup.subperm hp fun i _ => hmem i
    have hl : ((List.finRange (n + 1)) ×ˢ R.tasks).length = l.length := by
      rw [List.length_product, List.length_finRange, h1]
    exact (hs.perm_of_length_le hl.ge).nodup_iff.1 hp
  · rintro ⟨p, a⟩ ⟨q, b⟩ ⟨ha, hpq⟩
    have := h3 q (List.mem_finRange _) b (hall _) a ha
    refine this p ?_
    by_cases hs : R.sync a = true
    · rw [if_pos hs]; exact List.mem_finRange _
    · rw [if_neg hs, List.mem_singleton]
      exact hpq.resolve_right hs

/-- two schedules with different outcomes. -/
theorem Region.not_deterministic (R : Region τ ρ) (hall : ∀ a, a ∈ R.tasks) (hnd : R.tasks.Nodup) (code : τ → ℕ) (n : ℕ) (l l' : List (Inst τ n))
    (y : ρ × Option (Fin (n + 1))) (h : R.isSchedule n l = true) (h' : R.isSchedule n l' = true)
    (hne : run (R.sample code n) l (fun _ => 0) y ≠ run (R.sample code n) l' (fun _ => 0) y) : ¬ R.Deterministic := by
  intro hd
  have := hd ℕ n (R.sampleBody code n) (fun _ => 0) l l' (R.isSchedule_sound hall hnd n l h) (R.isSchedule_sound hall hnd n l' h')
  exact hne (congrFun this y)

end Phoebus.Tasks
