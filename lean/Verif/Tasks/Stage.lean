import Verif.Driver.Model
import Mathlib.Algebra.Module.Basic
import Mathlib.Tactic.Module

/-!
# The data flow of one time step through the stage containers

`PhoebusDriver::RungeKuttaStage` of `/repo/src/phoebus_driver.cpp`.  Parthenon's integrator names the containers
`stage_name[0] = stage_name[nstages] = "base"`; the others are distinct.  Conserved variables exist once per container, primitive
variables only once (`OneCopy`).  `E` is the vector of fluid conserved variables on the whole mesh, `P` that of primitives.
-/
namespace Phoebus.Tasks
variable {K E P : Type*} [Field K] [AddCommGroup E] [Module K E]

/-- memory of a run: container 0 is "base". -/
structure Mem (E P : Type*) where
  cons : ℕ → E
  prim : P

/-- the physics of one stage: right-hand side from the primitives (fluxes and sources, lines 304-368); `fluid::PrimitiveToConserved`;
recovery, repair, floors, boundaries (lines 580-677) from a conserved state to an admissible pair; `ModifyNetField` with time increment. -/
structure Phys (K E P : Type*) where
  rhs : P → E
  p2c : P → E
  repair : E → E × P
  net : K → P → P

/-- container `stage_name[stage]` with `nstages = n`, stages counted from 1, phoebus_driver.cpp:309-313. -/
def container (n s : ℕ) : ℕ := if s = n then 0 else s

/-- one stage, phoebus_driver.cpp:204-736: fluxes and sources of the current primitives; with `enable_phi_enforcement` the net field is
changed (line 462) and `PrimitiveToConserved` rewrites the conserved variables of `stage_name[stage]` (lines 466-478); `avg_data` (572);
`update` (575); repair.  The update is taken after the sources were added (see `Tasks.update_race`). -/
def stage (ph : Phys K E P) (phi : Bool) (dt : K) (n s : ℕ) (β : K) (m : Mem E P) : Mem E P :=
  let r := ph.rhs m.prim
  let c0 := container n (s - 1)
  let c1 := container n s
  let w := if phi then ph.net (β * dt) m.prim else m.prim
  let cons1 := if phi then Function.update m.cons c1 (ph.p2c w) else m.cons
  let a := β • cons1 c0 + (1 - β) • cons1 0
  let cons2 := Function.update cons1 c0 a
  let u := cons2 c0 + (β * dt) • r
  { cons := Function.update cons2 c1 (ph.repair u).1, prim := (ph.repair u).2 }

/-- stages `s, s+1, …` of a step with `n` stages. -/
def stages (ph : Phys K E P) (phi : Bool) (dt : K) (n : ℕ) : ℕ → List K → Mem E P → Mem E P
  | _, [], m => m
  | s, β :: bs, m => stages ph phi dt n (s + 1) bs (stage ph phi dt n s β m)

/-- the loop over stages in `Step`, phoebus_driver.cpp:134-138. -/
def step (ph : Phys K E P) (phi : Bool) (dt : K) (betas : List K) (m : Mem E P) : Mem E P := stages ph phi dt betas.length 1 betas m

/-- specification: the low-storage Runge-Kutta scheme `u ← repair (β u + (1-β) u₀ + β dt F(u))`, without containers. -/
def rkSpec (rhs : P → E) (repair : E → E × P) (dt : K) (u0 : E) (x : E × P) (betas : List K) : E × P :=
  betas.foldl (fun x β => repair (β • x.1 + (1 - β) • u0 + (β * dt) • rhs x.2)) x

theorem stage_mid (ph : Phys K E P) (phi : Bool) (dt : K) (n s : ℕ) (β : K) (m : Mem E P) (hs : 0 < s) (hn : s < n) :
    (stage ph phi dt n s β m).cons 0 = (if s = 1 then β • m.cons 0 + (1 - β) • m.cons 0 else m.cons 0) ∧
    ((stage ph phi dt n s β m).cons s, (stage ph phi dt n s β m).prim) =
      ph.repair (β • m.cons (s - 1) + (1 - β) • m.cons 0 + (β * dt) • ph.rhs m.prim) := by
  have c1 : container n s = s := by simp [container, hn.ne]
  have c0 : container n (s - 1) = s - 1 := by unfold container; rw [if_neg]; omega
  have e1 : s - 1 ≠ s := by omega
  have e2 : (0 : ℕ) ≠ s := by omega
  cases phi
  · simp only [stage, c1, c0, Function.update_self, Bool.false_eq_true, if_false, Prod.mk.eta, and_true]
    rw [Function.update_of_ne e2]
    by_cases h1 : s = 1
    · subst h1; simp
    · rw [if_neg h1, Function.update_of_ne (by omega)]
  · simp only [stage, c1, c0, Function.update_self, if_true, Function.update_of_ne e1, Function.update_of_ne e2, Prod.mk.eta, and_true]
    by_cases h1 : s = 1
    · subst h1; simp
    · rw [if_neg h1, Function.update_of_ne (by omega), Function.update_of_ne e2]

theorem avg_self (β : K) (u : E) : β • u + (1 - β) • u = u := by rw [← add_smul]; simp

/-- the last stage, without flux enforcement. -/
theorem stage_last (ph : Phys K E P) (dt : K) (n : ℕ) (β : K) (m : Mem E P) (hn : 0 < n) :
    ((stage ph false dt n n β m).cons 0, (stage ph false dt n n β m).prim) =
      ph.repair (β • m.cons (n - 1) + (1 - β) • m.cons 0 + (β * dt) • ph.rhs m.prim) := by
  have c1 : container n n = 0 := by simp [container]
  have c0 : container n (n - 1) = n - 1 := by unfold container; rw [if_neg]; omega
  simp [stage, c1, c0]

/-- the last of several stages, with flux enforcement: the base state has been replaced before it is averaged. -/
theorem stage_last_phi (ph : Phys K E P) (dt : K) (n : ℕ) (β : K) (m : Mem E P) (hn : 1 < n) :
    ((stage ph true dt n n β m).cons 0, (stage ph true dt n n β m).prim) =
      ph.repair (β • m.cons (n - 1) + (1 - β) • ph.p2c (ph.net (β * dt) m.prim) + (β * dt) • ph.rhs m.prim) := by
  have c1 : container n n = 0 := by simp [container]
  have c0 : container n (n - 1) = n - 1 := by unfold container; rw [if_neg]; omega
  have e : n - 1 ≠ 0 := by omega
  simp [stage, c1, c0, Function.update_of_ne e]

/-- all stages but the last: the containers hold the base state and the current stage. -/
theorem stages_mid (ph : Phys K E P) (phi : Bool) (dt : K) (n : ℕ) (bs : List K) (s : ℕ) (hs : 0 < s) (hn : s + bs.length ≤ n) (m : Mem E P) (u0 : E)
    (h0 : m.cons 0 = u0) :
    (stages ph phi dt n s bs m).cons 0 = u0 ∧
    ((stages ph phi dt n s bs m).cons (s + bs.length - 1), (stages ph phi dt n s bs m).prim) =
      rkSpec ph.rhs ph.repair dt u0 (m.cons (s - 1), m.prim) bs := by
  induction bs generalizing s m with
  | nil => exact ⟨h0, rfl⟩
  | cons β bs ih =>
    simp only [List.length_cons] at hn
    obtain ⟨h1, h2⟩ := stage_mid ph phi dt n s β m hs (by omega)
    have h1' : (stage ph phi dt n s β m).cons 0 = u0 := by
      rw [h1, h0]; split_ifs
      · exact avg_self _ _
      · rfl
    have := ih (s + 1) (by omega) (by omega) (stage ph phi dt n s β m) h1'
    have e : s + 1 + bs.length - 1 = s + (β :: bs).length - 1 := by simp only [List.length_cons]; omega
    rw [e] at this
    refine ⟨this.1, ?_⟩
    rw [stages, this.2, show s + 1 - 1 = s from rfl, h2, h0]
    rfl

theorem stages_append (ph : Phys K E P) (phi : Bool) (dt : K) (n : ℕ) (bs cs : List K) (s : ℕ) (m : Mem E P) :
    stages ph phi dt n s (bs ++ cs) m = stages ph phi dt n (s + bs.length) cs (stages ph phi dt n s bs m) := by
  induction bs generalizing s m with
  | nil => rfl
  | cons β bs ih =>
    simp only [List.cons_append, stages, List.length_cons]
    rw [ih, show s + 1 + bs.length = s + (bs.length + 1) by omega]

/-- **C97** One step is the Runge-Kutta scheme: for every integrator, whatever the stage containers held before, the base container ends
with the state the low-storage scheme prescribes, and the primitives belong to it. -/
theorem step_is_rk (ph : Phys K E P) (dt : K) (betas : List K) (hb : betas ≠ []) (m : Mem E P) :
    ((step ph false dt betas m).cons 0, (step ph false dt betas m).prim) = rkSpec ph.rhs ph.repair dt (m.cons 0) (m.cons 0, m.prim) betas := by
  obtain ⟨bs, β, rfl⟩ := List.eq_nil_or_concat betas |>.resolve_left hb
  rw [List.concat_eq_append] at *
  rw [step, stages_append, List.length_append, List.length_singleton]
  obtain ⟨h1, h2⟩ := stages_mid ph false dt (bs.length + 1) bs 1 one_pos (by omega) m _ rfl
  rw [show 1 + bs.length - 1 = bs.length by omega] at h2
  rw [show 1 + bs.length = bs.length + 1 by omega]
  simp only [stages]
  rw [stage_last _ _ _ _ _ (by omega), h1, show bs.length + 1 - 1 = bs.length from rfl, rkSpec, List.foldl_append]
  have e := h2
  rw [show (1 : ℕ) - 1 = 0 from rfl, rkSpec] at e
  rw [← e]
  rfl

/-- **C97** Without repairs and with primitives equal to conserved variables this is the scheme of `Driver.rkStep`, variable by variable. -/
theorem step_is_rkStep {K : Type} [Field K] [LinearOrder K] (f : K → K) (dt : K) (betas : List K) (hb : betas ≠ []) (m : Mem K K) (hm : m.prim = m.cons 0) :
    (step (K := K) ⟨f, id, fun u => (u, u), fun _ w => w⟩ false dt betas m).cons 0 = Driver.rkStep betas dt f (m.cons 0) := by
  have h := step_is_rk (K := K) ⟨f, id, fun u => (u, u), fun _ w => w⟩ dt betas hb m
  have h' := congrArg Prod.fst h
  dsimp only at h'
  rw [h', hm]
  have : ∀ (x : K) (l : List K), rkSpec (K := K) f (fun u => (u, u)) dt (m.cons 0) (x, x) l =
      (l.foldl (fun cur b => Driver.rkStage b dt (m.cons 0) cur (f cur)) x, l.foldl (fun cur b => Driver.rkStage b dt (m.cons 0) cur (f cur)) x) := by
    intro x l
    induction l generalizing x with
    | nil => rfl
    | cons b l ih =>
      simp only [rkSpec, List.foldl_cons] at ih ⊢
      exact ih _
  rw [this]
  rfl

/-- **C98** With `enable_phi_enforcement` and more than one stage, all stages but the last ignore the net-field change, and the last one
averages with the *current* primitives instead of the state at the beginning of the step. -/
theorem phi_step (ph : Phys K E P) (dt : K) (bs : List K) (β : K) (hb : bs ≠ []) (m : Mem E P) :
    let x := rkSpec ph.rhs ph.repair dt (m.cons 0) (m.cons 0, m.prim) bs
    ((step ph true dt (bs ++ [β]) m).cons 0, (step ph true dt (bs ++ [β]) m).prim) =
      ph.repair (β • x.1 + (1 - β) • ph.p2c (ph.net (β * dt) x.2) + (β * dt) • ph.rhs x.2) := by
  intro x
  have hl : 0 < bs.length := List.length_pos_iff.2 hb
  rw [step, stages_append, List.length_append, List.length_singleton]
  obtain ⟨h1, h2⟩ := stages_mid ph true dt (bs.length + 1) bs 1 one_pos (by omega) m _ rfl
  rw [show 1 + bs.length - 1 = bs.length by omega] at h2
  rw [show 1 + bs.length = bs.length + 1 by omega]
  simp only [stages]
  rw [stage_last_phi _ _ _ _ _ (by omega), show bs.length + 1 - 1 = bs.length from rfl]
  have e : x = (_, _) := h2.symm
  rw [e]

/-- **C98** A single-stage integrator adds the net-field change and advances correctly.

Partial form of C98. Full property: Enabling phi enforcement should only add the requested net flux. Missing: Holds
for one stage (phi_step_single); false for more (phi_rk2_overshoots, phi_added_flux). -/
theorem phi_step_single_partial (ph : Phys K E P) (dt β : K) (m : Mem E P) :
    ((step ph true dt [β] m).cons 0, (step ph true dt [β] m).prim) =
      ph.repair (ph.p2c (ph.net (β * dt) m.prim) + (β * dt) • ph.rhs m.prim) := by
  simp [step, stages, stage, container, avg_self]

/-- **C98** Consequence: a consistent state (conserved variables of the primitives) loses its base value in the last stage — the average with
the beginning of the step is gone even if the net field is not changed at all. -/
theorem phi_loses_base (ph : Phys K E P) (dt : K) (bs : List K) (β : K) (hb : bs ≠ []) (m : Mem E P)
    (hc : ∀ u, ph.p2c (ph.repair u).2 = (ph.repair u).1) (hn : ∀ b w, ph.net b w = w) :
    let x := rkSpec ph.rhs ph.repair dt (m.cons 0) (m.cons 0, m.prim) bs
    ((step ph true dt (bs ++ [β]) m).cons 0, (step ph true dt (bs ++ [β]) m).prim) = ph.repair (x.1 + (β * dt) • ph.rhs x.2) := by
  intro x
  have h := phi_step ph dt bs β hb m
  dsimp only at h
  rw [h, hn]
  have hx : ph.p2c x.2 = x.1 := by
    obtain ⟨l, b, rfl⟩ := List.eq_nil_or_concat bs |>.resolve_left hb
    simp only [x, rkSpec, List.concat_eq_append, List.foldl_append, List.foldl_cons, List.foldl_nil]
    exact hc _
  show ph.repair (β • x.1 + (1 - β) • ph.p2c x.2 + (β * dt) • ph.rhs x.2) = _
  rw [hx, avg_self]

/-- **C98** With the two-stage integrator `rk2` (β = 1, 1/2) and a constant right-hand side the step advances by 3/2 of the time step; without
flux enforcement by exactly the time step. -/
theorem phi_rk2_overshoots [CharZero K] (dt : K) (R u : E) (c : ℕ → E) (hc : c 0 = u) :
    (step (K := K) ⟨fun _ => R, id, fun u => (u, u), fun _ w => w⟩ true dt [1, 1/2] ⟨c, u⟩).cons 0 = u + (3/2 * dt) • R ∧
    (step (K := K) ⟨fun _ => R, id, fun u => (u, u), fun _ w => w⟩ false dt [1, 1/2] ⟨c, u⟩).cons 0 = u + dt • R := by
  constructor
  · have h := congrArg Prod.fst (phi_step (K := K) ⟨fun _ => R, id, fun u => (u, u), fun _ w => w⟩ dt [1] (1/2) (by simp) ⟨c, u⟩)
    simp only [List.cons_append, List.nil_append] at h
    rw [h]
    simp only [rkSpec, List.foldl_cons, List.foldl_nil, hc, id]
    module
  · have h := congrArg Prod.fst (step_is_rk (K := K) ⟨fun _ => R, id, fun u => (u, u), fun _ w => w⟩ dt [1, 1/2] (by simp) ⟨c, u⟩)
    simp only at h
    rw [h]
    simp only [rkSpec, List.foldl_cons, List.foldl_nil, hc]
    module

/-- **C98** The net flux actually added: if the stages ask for `β_s dt` times `e`, a run at rest gains `(1 - β) β dt` times `e`, the last
stage's request times `1 - β`, instead of the sum of all requests. -/
theorem phi_added_flux (dt : K) (e u : E) (bs : List K) (β : K) (hb : bs ≠ []) (c : ℕ → E) (hc : c 0 = u) :
    (step (K := K) ⟨fun _ => 0, id, fun u => (u, u), fun b w => w + b • e⟩ true dt (bs ++ [β]) ⟨c, u⟩).cons 0 = u + ((1 - β) * (β * dt)) • e := by
  have h := congrArg Prod.fst (phi_step (K := K) ⟨fun _ => 0, id, fun u => (u, u), fun b w => w + b • e⟩ dt bs β hb ⟨c, u⟩)
  simp only at h
  rw [h, hc]
  have : ∀ l : List K, rkSpec (K := K) (fun _ => 0) (fun u : E => (u, u)) dt u (u, u) l = (u, u) := by
    intro l
    induction l with
    | nil => rfl
    | cons b l ih =>
      simp only [rkSpec, List.foldl_cons, smul_zero, add_zero, avg_self] at ih ⊢
      exact ih
  rw [this]
  simp only [id, smul_zero, add_zero]
  module

/-- example: `rk2` gains a quarter of the requested flux. -/
theorem ex_phi_quarter : (step (K := ℚ) (E := ℚ) ⟨fun _ => 0, id, fun u => (u, u), fun b w => w + b • 1⟩ true 1 [1, 1/2] ⟨fun _ => 7, 7⟩).cons 0 = 7 + 1/4 := by
  have h := phi_added_flux (K := ℚ) (E := ℚ) 1 1 7 [1] (1/2) (by simp) (fun _ => 7) rfl
  simp only [List.cons_append, List.nil_append] at h
  rw [h]
  norm_num

end Phoebus.Tasks
