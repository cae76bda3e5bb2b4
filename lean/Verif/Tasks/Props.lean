import Verif.Tasks.Regions

/-!
# Which regions are deterministic

"Deterministic" (`Region.Deterministic`): for every number of lists and all task bodies with the declared footprints, all schedules the
runtime may choose end in the same state.
-/
namespace Phoebus.Tasks

/-! ### every region can be executed -/

variable {τ ρ : Type} [DecidableEq τ]

/-- the tasks are listed in an order in which all dependencies come earlier. -/
def Region.topo (R : Region τ ρ) : List τ → List τ → Bool
  | _, [] => true
  | seen, b :: l => ((R.deps true b ++ R.deps false b).all fun a => seen.contains a) && R.topo (seen ++ [b]) l

/-- task by task, all lists. -/
def Region.rounds (R : Region τ ρ) (n : ℕ) (l : List τ) : List (Inst τ n) := l.flatMap fun a => (List.finRange (n + 1)).map fun p => (p, a)

theorem Region.mem_rounds (R : Region τ ρ) (n : ℕ) (l : List τ) (x : Inst τ n) : x ∈ R.rounds n l ↔ x.2 ∈ l := by
  simp only [Region.rounds, List.mem_flatMap, List.mem_map]
  constructor
  · rintro ⟨a, ha, p, -, rfl⟩; exact ha
  · intro h; exact ⟨x.2, h, x.1, List.mem_finRange _, rfl⟩

theorem Region.topo_spec (R : Region τ ρ) (seen l : List τ) (h : R.topo seen l = true) (l₁ l₂ : List τ) (b : τ) (e : l = l₁ ++ b :: l₂) (f : Bool) (a : τ)
    (ha : a ∈ R.deps f b) : a ∈ seen ++ l₁ := by
  induction l₁ generalizing seen l with
  | nil =>
    subst e
    rw [List.nil_append, Region.topo, Bool.and_eq_true, List.all_eq_true] at h
    have := h.1 a (by cases f <;> simp [ha])
    rw [List.contains_iff_mem] at this
    simpa using this
  | cons c l₁ ih =>
    subst e
    rw [List.cons_append, Region.topo, Bool.and_eq_true] at h
    have := ih (seen ++ [c]) _ h.2 rfl
    simpa using this

theorem idx_split {ι : Type*} [DecidableEq ι] (l₁ l₂ : List ι) (x y : ι) (hx : x ∈ l₁) (hy : y ∉ l₁) : (l₁ ++ l₂).idxOf x < (l₁ ++ l₂).idxOf y := by
  rw [List.idxOf_append_of_mem hx, List.idxOf_append_of_notMem hy]
  exact lt_of_lt_of_le (List.idxOf_lt_length_of_mem hx) (Nat.le_add_right _ _)

theorem Region.schedule_exists (R : Region τ ρ) (hall : ∀ a, a ∈ R.tasks) (hnd : R.tasks.Nodup) (ht : R.topo [] R.tasks = true) (n : ℕ) :
    Schedule (R.dep n) (R.rounds n R.tasks) := by
  refine ⟨?_, fun x => (R.mem_rounds n _ x).2 (hall _), ?_⟩
  · rw [Region.rounds, List.nodup_flatMap]
    refine ⟨fun a _ => (List.nodup_finRange _).map (fun p q h => (Prod.mk.inj h).1), ?_⟩
    refine hnd.imp fun {a b} hab => ?_
    intro x hx hy
    obtain ⟨p, -, rfl⟩ := List.mem_map.1 hx
    obtain ⟨q, -, h⟩ := List.mem_map.1 hy
    exact hab (Prod.mk.inj h).2.symm
  · rintro ⟨p, a⟩ ⟨q, b⟩ ⟨ha, -⟩
    obtain ⟨l₁, l₂, e⟩ := List.append_of_mem (hall b)
    have h1 : a ∈ l₁ := by have := R.topo_spec [] _ ht l₁ l₂ b e _ a ha; simpa using this
    have h2 : b ∉ l₁ := by
      intro hb; rw [e] at hnd
      exact (List.nodup_append.1 hnd).2.2 b hb b List.mem_cons_self rfl
    have e2 : R.rounds n R.tasks = R.rounds n l₁ ++ R.rounds n (b :: l₂) := by rw [e]; simp [Region.rounds]
    rw [e2]
    have h3 : (p, a) ∈ R.rounds n l₁ := (R.mem_rounds n _ _).2 h1
    have h4 : (q, b) ∉ R.rounds n l₁ := fun h => h2 ((R.mem_rounds n _ _).1 h)
    exact idx_split _ _ _ _ h3 h4

/-- the region can be completed, whatever the number of lists (no deadlock). -/
def Region.Completes (R : Region τ ρ) : Prop := ∀ n, ∃ l, Schedule (R.dep n) l

theorem Region.completes_of (R : Region τ ρ) (hall : ∀ a, a ∈ R.tasks) (hnd : R.tasks.Nodup) (ht : R.topo [] R.tasks = true) : R.Completes :=
  fun n => ⟨_, R.schedule_exists hall hnd ht n⟩

theorem sync1_all (fluid : Bool) : ∀ a, a ∈ (syncRegion1 fluid).tasks := by
  intro a; cases a <;> simp [syncRegion1]

theorem sync1_nodup (fluid : Bool) : (syncRegion1 fluid).tasks.Nodup := by
  have h : (syncRegion1 true).tasks.Nodup := by decide
  exact h

theorem flux_all (fluid rad : Bool) : ∀ a, a ∈ (asyncRegion1 fluid rad).tasks := by
  intro a; cases a <;> simp [asyncRegion1]

theorem flux_nodup (fluid rad : Bool) : (asyncRegion1 fluid rad).tasks.Nodup := by
  have h : (asyncRegion1 true true).tasks.Nodup := by decide
  exact h

theorem mocmc_all (fix : Bool) : ∀ a, a ∈ (mocmcRegion fix).tasks := by
  intro a; cases a <;> simp [mocmcRegion]

theorem mocmc_nodup (fix : Bool) : (mocmcRegion fix).tasks.Nodup := by
  have h : (mocmcRegion true).tasks.Nodup := by decide
  exact h

theorem netField_all (tune fix : Bool) : ∀ a, a ∈ (netFieldRegion tune fix).tasks := by
  intro a; cases a <;> simp [netFieldRegion]

theorem netField_nodup (tune fix : Bool) : (netFieldRegion tune fix).tasks.Nodup := by
  have h : (netFieldRegion true true).tasks.Nodup := by decide
  exact h

theorem monopole_all (fix : Bool) : ∀ a, a ∈ (monopoleRegion fix).tasks := by
  intro a; cases a <;> simp [monopoleRegion]

theorem monopole_nodup (fix : Bool) : (monopoleRegion fix).tasks.Nodup := by
  have h : (monopoleRegion true).tasks.Nodup := by decide
  exact h

theorem update_all (pos : StagePos) (diags fix : Bool) : ∀ a, a ∈ (updateRegion pos diags fix).tasks := by
  intro a; cases a <;> simp [updateRegion]

theorem update_nodup (pos : StagePos) (diags fix : Bool) : (updateRegion pos diags fix).tasks.Nodup := by
  have h : (updateRegion StagePos.first true true).tasks.Nodup := by decide
  exact h

theorem fixup_all (mocmc moments : Bool) : ∀ a, a ∈ (fixupRegion mocmc moments).tasks := by
  intro a; cases a <;> simp [fixupRegion]

theorem fixup_nodup (mocmc moments : Bool) : (fixupRegion mocmc moments).tasks.Nodup := by
  have h : (fixupRegion true true).tasks.Nodup := by decide
  exact h

theorem end_all (timeDep rad lastStage adaptive fix : Bool) : ∀ a, a ∈ (endRegion timeDep rad lastStage adaptive fix).tasks := by
  intro a; cases a <;> simp [endRegion]

theorem end_nodup (timeDep rad lastStage adaptive fix : Bool) : (endRegion timeDep rad lastStage adaptive fix).tasks.Nodup := by
  have h : (endRegion true true true true true).tasks.Nodup := by decide
  exact h

theorem bulb_all (bulb fix : Bool) : ∀ a, a ∈ (bulbRegion bulb fix).tasks := by
  intro a; cases a <;> simp [bulbRegion]

theorem bulb_nodup (bulb fix : Bool) : (bulbRegion bulb fix).tasks.Nodup := by
  have h : (bulbRegion true true).tasks.Nodup := by decide
  exact h

theorem mc_all (ownRng : Bool) : ∀ a, a ∈ (mcRegion ownRng).tasks := by
  intro a; cases a <;> simp [mcRegion]

theorem mc_nodup (ownRng : Bool) : (mcRegion ownRng).tasks.Nodup := by
  have h : (mcRegion true).tasks.Nodup := by decide
  exact h

/-- **C95** Dependencies never deadlock: in every configuration each region has a schedule, for every number of lists. -/
theorem regions_complete (b1 b2 b3 b4 b5 : Bool) (pos : StagePos) :
    (syncRegion1 b1).Completes ∧ (asyncRegion1 b1 b2).Completes ∧ (mocmcRegion b1).Completes ∧ (netFieldRegion b1 b2).Completes ∧
    (monopoleRegion b1).Completes ∧ (updateRegion pos b1 b2).Completes ∧ (fixupRegion b1 b2).Completes ∧
    (endRegion b1 b2 b3 b4 b5).Completes ∧ (bulbRegion b1 b2).Completes ∧ (mcRegion b1).Completes := by
  refine ⟨?_, ?_, ?_, ?_, ?_, ?_, ?_, ?_, ?_, ?_⟩
  · exact Region.completes_of _ (sync1_all b1) (sync1_nodup b1) (by cases b1 <;> decide +kernel)
  · exact Region.completes_of _ (flux_all b1 b2) (flux_nodup b1 b2) (by cases b1 <;> cases b2 <;> decide +kernel)
  · exact Region.completes_of _ (mocmc_all b1) (mocmc_nodup b1) (by cases b1 <;> decide +kernel)
  · exact Region.completes_of _ (netField_all b1 b2) (netField_nodup b1 b2) (by cases b1 <;> cases b2 <;> decide +kernel)
  · exact Region.completes_of _ (monopole_all b1) (monopole_nodup b1) (by cases b1 <;> decide +kernel)
  · exact Region.completes_of _ (update_all pos b1 b2) (update_nodup pos b1 b2) (by cases pos <;> cases b1 <;> cases b2 <;> decide +kernel)
  · exact Region.completes_of _ (fixup_all b1 b2) (fixup_nodup b1 b2) (by cases b1 <;> cases b2 <;> decide +kernel)
  · exact Region.completes_of _ (end_all b1 b2 b3 b4 b5) (end_nodup b1 b2 b3 b4 b5) (by cases b1 <;> cases b2 <;> cases b3 <;> cases b4 <;> cases b5 <;> decide +kernel)
  · exact Region.completes_of _ (bulb_all b1 b2) (bulb_nodup b1 b2) (by cases b1 <;> cases b2 <;> decide +kernel)
  · exact Region.completes_of _ (mc_all b1) (mc_nodup b1) (by cases b1 <;> decide +kernel)

/-! ### deterministic regions -/

/-- **C95** Start of the receives and the fluid source terms. -/
theorem sync1_deterministic (fluid : Bool) : (syncRegion1 fluid).Deterministic :=
  Region.deterministic_of_check _ 4 (sync1_all fluid) (by cases fluid <;> decide +kernel)

/-- **C95** Fluxes, constrained transport, radiation fluxes and sources, flux fix-up. -/
theorem flux_deterministic (fluid rad : Bool) : (asyncRegion1 fluid rad).Deterministic :=
  Region.deterministic_of_check _ 4 (flux_all fluid rad) (by cases fluid <;> cases rad <;> decide +kernel)

/-- **C95** Recovery, repair, floors and the implicit radiation source. -/
theorem fixup_deterministic (mocmc moments : Bool) : (fixupRegion mocmc moments).Deterministic :=
  Region.deterministic_of_check _ 8 (fixup_all mocmc moments) (by cases mocmc <;> cases moments <;> decide +kernel)

/-- **C95** Net-field control in a stage that does not retune. -/
theorem netField_deterministic (fix : Bool) : (netFieldRegion false fix).Deterministic :=
  Region.deterministic_of_check _ 10 (netField_all false fix) (by cases fix <;> decide +kernel)

/-- **C95** End of the stage, unless the geometry depends on time, radiation is on and the stage is the last. -/
theorem end_deterministic (timeDep rad lastStage adaptive : Bool) (h : (timeDep && rad && lastStage) = false) :
    (endRegion timeDep rad lastStage adaptive false).Deterministic := by
  refine Region.deterministic_of_check _ 8 (end_all _ _ _ _ _) ?_
  cases timeDep <;> cases rad <;> cases lastStage <;> cases adaptive <;> first | (exact absurd h (by decide)) | decide +kernel

/-- **C95** Cooling function without light bulb. -/
theorem cooling_deterministic (fix : Bool) : (bulbRegion false fix).Deterministic :=
  Region.deterministic_of_check _ 8 (bulb_all _ _) (by cases fix <;> decide +kernel)

/-! ### deterministic after repair: the missing dependencies are exactly the ones added by `fix` -/

/-- **C96** -/
theorem update_deterministic_fixed (pos : StagePos) (diags : Bool) : (updateRegion pos diags true).Deterministic :=
  Region.deterministic_of_check _ 8 (update_all _ _ _) (by cases pos <;> cases diags <;> decide +kernel)

/-- **C96** -/
theorem mocmc_deterministic_fixed : (mocmcRegion true).Deterministic :=
  Region.deterministic_of_check _ 8 (mocmc_all _) (by decide +kernel)

/-- **C96** -/
theorem netField_deterministic_fixed (tune : Bool) : (netFieldRegion tune true).Deterministic :=
  Region.deterministic_of_check _ 10 (netField_all _ _) (by cases tune <;> decide +kernel)

/-- **C96** -/
theorem monopole_deterministic_fixed : (monopoleRegion true).Deterministic :=
  Region.deterministic_of_check _ 12 (monopole_all _) (by decide +kernel)

/-- **C96** -/
theorem end_deterministic_fixed (timeDep rad lastStage adaptive : Bool) : (endRegion timeDep rad lastStage adaptive true).Deterministic :=
  Region.deterministic_of_check _ 8 (end_all _ _ _ _ _)
    (by cases timeDep <;> cases rad <;> cases lastStage <;> cases adaptive <;> decide +kernel)

/-- **C96** -/
theorem bulb_deterministic_fixed (bulb : Bool) : (bulbRegion bulb true).Deterministic :=
  Region.deterministic_of_check _ 8 (bulb_all _ _) (by cases bulb <;> decide +kernel)

/-- **C96** -/
theorem mc_deterministic_fixed : (mcRegion true).Deterministic :=
  Region.deterministic_of_check _ 8 (mc_all _) (by decide +kernel)

/-! ### races: two admissible schedules with different results -/

section
open UpdTask UpdRes

/-- **C96** The update may be computed before or after the sources are added to the right-hand side. -/
theorem update_race (pos : StagePos) (diags : Bool) : ¬ (updateRegion pos diags false).Deterministic := by
  refine Region.not_deterministic _ (update_all _ _ _) (update_nodup _ _ _) (fun _ => 1) 0
    ([sendFlux, recvFlux, setFlux, fluxDiv, copyDiv, addRhs, avg, update].map fun a => (0, a))
    ([sendFlux, recvFlux, setFlux, fluxDiv, copyDiv, avg, update, addRhs].map fun a => (0, a)) (cons pos.c1, some 0) ?_ ?_ ?_
  all_goals cases pos <;> cases diags <;> decide +kernel

/-- **C96** With `SET_FLUX_SRC_DIAGS` the saved flux divergence may or may not contain the sources, even if the update waits. -/
theorem diagnostic_race (pos : StagePos) :
    ¬ ({updateRegion pos true false with deps := fun f a => if a = update then [avg, addRhs] else (updateRegion pos true false).deps f a} :
        Region UpdTask UpdRes).Deterministic := by
  refine Region.not_deterministic _ (fun a => update_all pos true false a) (update_nodup pos true false) (fun _ => 1) 0
    ([sendFlux, recvFlux, setFlux, fluxDiv, copyDiv, addRhs, avg, update].map fun a => (0, a))
    ([sendFlux, recvFlux, setFlux, fluxDiv, addRhs, copyDiv, avg, update].map fun a => (0, a)) (diag, some 0) ?_ ?_ ?_
  all_goals cases pos <;> decide +kernel
end

section
open SampleTask SampleRes

/-- **C96** The boundary treatment of the samples may run before or after they are moved. -/
theorem mocmc_race : ¬ (mocmcRegion false).Deterministic := by
  refine Region.not_deterministic _ (mocmc_all _) (mocmc_nodup _) (fun _ => 1) 0
    ([resetComms, transport, send, receive, bounds, recon, eddington].map fun a => (0, a))
    ([bounds, recon, eddington, resetComms, transport, send, receive].map fun a => (0, a)) (tilPi, some 0) ?_ ?_ ?_
  all_goals decide +kernel
end

section
open NetTask NetRes

/-- **C96** When the controller is retuned on a mesh with at least two partitions, one partition may set the controls while the other still
has to remove the trial field. -/
theorem netField_race : ¬ (netFieldRegion true false).Deterministic := by
  refine Region.not_deterministic _ (netField_all _ _) (netField_nodup _ _) (fun _ => 1) 1
    ((netFieldRegion true false).rounds 1 (netFieldRegion true false).tasks)
    ((netFieldRegion true false).rounds 1 [sum1, start1, finish1, trial, sum2, start2, finish2] ++ [(0, undo), (0, setScale), (0, update), (1, undo), (1, setScale), (1, update)])
    (field, some 1) ?_ ?_ ?_
  all_goals decide +kernel
end

section
open MonoTask MonoRes

/-- **C96** With two partitions the shell matter depends on which partition is deposited last. -/
theorem monopole_race : ¬ (monopoleRegion false).Deterministic := by
  refine Region.not_deterministic _ (monopole_all _) (monopole_nodup _) (fun _ => 1) 1
    ([(0, zero), (1, zero), (0, interp), (1, interp)] ++ (monopoleRegion false).rounds 1 [toHost, startMat, startVol, finMat, finVol, divide, hyper, lapse, toDevice, checkDt])
    ([(0, zero), (1, zero), (1, interp), (0, interp)] ++ (monopoleRegion false).rounds 1 [toHost, startMat, startVol, finMat, finVol, divide, hyper, lapse, toDevice, checkDt])
    (spacetime, none) ?_ ?_ ?_
  all_goals decide +kernel
end

section
open EndTask EndRes

/-- **C96** With time-dependent geometry and radiation the next time step may use the old or the new metric. -/
theorem end_race (adaptive : Bool) : ¬ (endRegion true true true adaptive false).Deterministic := by
  refine Region.not_deterministic _ (end_all _ _ _ _ _) (end_nodup _ _ _ _ _) (fun _ => 1) 0
    ([setBC, convertBC, fill, fixup, radFixup, floors, source, eddington, floors2, updateGeom, newDt, divb, tag].map fun a => (0, a))
    ([setBC, convertBC, fill, fixup, radFixup, floors, source, eddington, floors2, newDt, updateGeom, divb, tag].map fun a => (0, a)) (dt, some 0) ?_ ?_ ?_
  all_goals cases adaptive <;> decide +kernel
end

section
open BulbTask BulbRes

/-- **C96** The reduction of the gain flag starts when the first partition has been checked, whatever the others find later. -/
theorem bulb_race : ¬ (bulbRegion true false).Deterministic := by
  refine Region.not_deterministic _ (bulb_all _ _) (bulb_nodup _ _) (fun _ => 1) 1
    ([(0, calcTau), (1, calcTau), (0, checkGain), (1, checkGain), (0, startGain), (1, startGain), (0, finishGain), (1, finishGain),
      (0, fourForce), (1, fourForce), (0, apply), (1, apply)])
    ([(0, calcTau), (1, calcTau), (0, checkGain), (0, startGain), (1, startGain), (0, finishGain), (1, finishGain),
      (0, fourForce), (1, checkGain), (1, fourForce), (0, apply), (1, apply)])
    (force, some 0) ?_ ?_ ?_
  all_goals decide +kernel
end

section
open MCTask MCRes

/-- **C96** Monte Carlo blocks draw from one pool of random states: the particles of a block depend on the order of the blocks. -/
theorem mc_race : ¬ (mcRegion false).Deterministic := by
  refine Region.not_deterministic _ (mc_all _) (mc_nodup _) (fun _ => 1) 1
    ((mcRegion false).rounds 1 [sample, transport, send, receive])
    ([(1, sample), (0, sample)] ++ (mcRegion false).rounds 1 [transport, send, receive])
    (particles, some 0) ?_ ?_ ?_
  all_goals decide +kernel
end

end Phoebus.Tasks
