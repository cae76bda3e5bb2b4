import Verif.Driver.Model

/-! # Properties of the driver (C27, C28, C29, C59, C60) -/
namespace Phoebus.Driver
variable {K : Type} [Field K] [LinearOrder K] [IsStrictOrderedRing K]

/-! ### C27: status of a step -/

/-- **C27, what holds**: after a failed stage no further stage is run, and otherwise all are. -/
theorem stages_stop_at_failure (st : List Status) :
    ((∀ s ∈ st, s = .complete) → (stageLoop st).2 = st.length)
    ∧ (∀ pre post, st = pre ++ .fail :: post → (∀ s ∈ pre, s = .complete) → (stageLoop st).2 = pre.length + 1
        ∧ (stageLoop st).1 = some .fail) := by
  constructor
  · intro h
    induction st with
    | nil => rfl
    | cons a r ih =>
      have ha := h a (by simp); subst ha
      have := ih (fun s hs => h s (by simp [hs]))
      simp only [stageLoop]
      cases hr : stageLoop r with
      | mk o n => rw [hr] at this; cases o <;> simp_all
  · intro pre
    induction pre generalizing st with
    | nil => intro post h _; subst h; simp [stageLoop]
    | cons a r ih =>
      intro post h hp; subst h
      have ha := hp a (by simp); subst ha
      have := ih (r ++ .fail :: post) post rfl (fun s hs => hp s (by simp [hs]))
      simp only [List.cons_append, stageLoop]
      cases hr : stageLoop (r ++ Status.fail :: post) with
      | mk o n => rw [hr] at this; simp_all

/-- **C27, disagreement**: a failed stage does not make the step fail: with radiation inactive the step reports
`complete` whatever the stages returned. -/
theorem failed_stage_reported_complete (st : List Status) (rad : Status) :
    stepStatus st false rad = .complete := rfl

/-- **C27, disagreement**: the claim "a failed stage makes the step fail" is false. -/
theorem step_status_wrong : ¬ ∀ (st : List Status) (active : Bool) (rad : Status), .fail ∈ st →
    stepStatus st active rad = .fail := by
  intro h
  have := h [.fail] false .complete (by simp)
  simp [stepStatus, radiationPostStep] at this

/-- **C27, partial**: the step reports failure exactly when radiation is active and the radiation post-step fails. -/
theorem step_status_partial (st : List Status) (active : Bool) (rad : Status) :
    stepStatus st active rad = .fail ↔ active = true ∧ rad = .fail := by
  cases active <;> cases rad <;> simp [stepStatus, radiationPostStep]

/-! ### C28: time steps -/

/-- **C28**: the step never passes `tlim`, never exceeds the proposed step (times the one-off factor), nor `dt_init`
(times the factor). -/
theorem chosen_dt_bounds (dtInit tlim : K) (restart : Bool) (s : DtState K) (dt : K) (hf : 0 ≤ s.fact) :
    s.time + chooseDt dtInit tlim restart s dt ≤ tlim
    ∧ chooseDt dtInit tlim restart s dt ≤ dt * (if restart then 1 else s.fact)
    ∧ chooseDt dtInit tlim restart s dt ≤ dtInit * (if restart then 1 else s.fact) := by
  have h1 : min dt dtInit * s.fact ≤ dt * s.fact := mul_le_mul_of_nonneg_right (min_le_left _ _) hf
  have h2 : min dt dtInit * s.fact ≤ dtInit * s.fact := mul_le_mul_of_nonneg_right (min_le_right _ _) hf
  have h3 := min_le_left dt dtInit
  have h4 := min_le_right dt dtInit
  cases restart <;> simp only [chooseDt, Bool.not_true, Bool.not_false, if_true, if_false, Bool.false_eq_true] <;>
    split <;> refine ⟨?_, ?_, ?_⟩ <;> linarith

/-- **C28**: the step is exactly what was proposed unless a cap applies, and lands exactly on `tlim` when it would pass
it. -/
theorem chosen_dt_exact (dtInit tlim : K) (s : DtState K) (dt : K) (hf : s.fact = 1) (hd : dt ≤ dtInit)
    (restart : Bool) :
    (s.time + dt ≤ tlim → chooseDt dtInit tlim restart s dt = dt)
    ∧ (tlim < s.time + dt → s.time + chooseDt dtInit tlim restart s dt = tlim) := by
  constructor <;> intro h <;> cases restart <;>
    simp only [chooseDt, hf, min_eq_left hd, mul_one, Bool.not_true, Bool.not_false, if_true, if_false,
      Bool.false_eq_true]
  · rw [if_neg (not_lt.2 h)]
  · rw [if_neg (not_lt.2 h)]
  · rw [if_pos h]; ring
  · rw [if_pos h]; ring

/-- **C28**: no run passes `tlim`, time never goes backwards, whatever the proposed (nonnegative) steps. -/
theorem run_never_passes_tlim (dtInit tlim : K) (restart : Bool) (s : DtState K) (dts : List K)
    (hd : 0 ≤ dtInit) (hdt : ∀ d ∈ dts, 0 ≤ d) (hf : 0 ≤ s.fact) (ht : s.time ≤ tlim) :
    s.time ≤ (dtRun dtInit tlim restart s dts).time ∧ (dtRun dtInit tlim restart s dts).time ≤ tlim := by
  induction dts generalizing s with
  | nil => exact ⟨le_rfl, ht⟩
  | cons d r ih =>
    have h1 := (chosen_dt_bounds dtInit tlim restart s d hf).1
    have h0 : 0 ≤ chooseDt dtInit tlim restart s d := by
      have hm : 0 ≤ min d dtInit := le_min (hdt d (by simp)) hd
      have hm2 := mul_nonneg hm hf
      cases restart <;> simp only [chooseDt, Bool.not_true, Bool.not_false, if_true, if_false, Bool.false_eq_true] <;>
        split <;> linarith
    have := ih (dtStep dtInit tlim restart s d) (fun x hx => hdt x (by simp [hx]))
      (by unfold dtStep; cases restart <;> simp [hf]) h1
    refine ⟨?_, this.2⟩
    have h2 : s.time ≤ (dtStep dtInit tlim restart s d).time := by unfold dtStep; simp only []; linarith
    exact h2.trans this.1

/-- **C28, progress**: if every proposed step, `dt_init`, and the first-step factor times them, are at least `δ > 0`,
then after `n` steps the run has reached `tlim` or advanced by at least `n δ`; so it reaches `tlim`. -/
theorem run_progress (dtInit tlim δ : K) (restart : Bool) (s : DtState K) (dts : List K) (hδ : 0 < δ)
    (hf : 1 ≤ s.fact) (hd : δ ≤ dtInit) (hdt : ∀ d ∈ dts, δ ≤ d) (ht : s.time ≤ tlim) :
    (dtRun dtInit tlim restart s dts).time = tlim
    ∨ s.time + dts.length * δ ≤ (dtRun dtInit tlim restart s dts).time := by
  induction dts generalizing s with
  | nil => right; simp [dtRun]
  | cons d r ih =>
    have hb := (chosen_dt_bounds dtInit tlim restart s d (by linarith)).1
    have hm : δ ≤ min d dtInit := le_min (hdt d (by simp)) hd
    have hm2 : δ ≤ min d dtInit * s.fact := by nlinarith
    have hf' : 1 ≤ (dtStep dtInit tlim restart s d).fact := by unfold dtStep; cases restart <;> simp [hf]
    have hcase : (dtStep dtInit tlim restart s d).time = tlim ∨ s.time + δ ≤ (dtStep dtInit tlim restart s d).time := by
      unfold dtStep
      simp only []
      cases restart <;> simp only [chooseDt, Bool.not_true, Bool.not_false, if_true, if_false, Bool.false_eq_true] <;>
        split
      · left; ring
      · right; linarith
      · left; ring
      · right; linarith
    have hb' : (dtStep dtInit tlim restart s d).time ≤ tlim := hb
    have := ih (dtStep dtInit tlim restart s d) hf' (fun x hx => hdt x (by simp [hx])) hb'
    change (dtRun dtInit tlim restart (dtStep dtInit tlim restart s d) r).time = tlim ∨
      _ ≤ (dtRun dtInit tlim restart (dtStep dtInit tlim restart s d) r).time
    have hle := (run_never_passes_tlim dtInit tlim restart (dtStep dtInit tlim restart s d) r (by linarith)
      (fun x hx => by have := hdt x (by simp [hx]); linarith) (by linarith) hb')
    rcases hcase with hc | hc
    · left; rw [hc] at hle; exact le_antisymm hle.2 hle.1
    · rcases this with h | h
      · left; exact h
      · right
        push_cast [List.length_cons]
        linarith

/-- **C28**: a run long enough reaches `tlim` exactly. -/
theorem run_reaches_tlim (dtInit tlim δ : K) (restart : Bool) (s : DtState K) (dts : List K) (hδ : 0 < δ)
    (hf : 1 ≤ s.fact) (hd : δ ≤ dtInit) (hdt : ∀ d ∈ dts, δ ≤ d) (ht : s.time ≤ tlim)
    (hn : tlim - s.time ≤ dts.length * δ) : (dtRun dtInit tlim restart s dts).time = tlim := by
  rcases run_progress dtInit tlim δ restart s dts hδ hf hd hdt ht with h | h
  · exact h
  · exact le_antisymm (run_never_passes_tlim dtInit tlim restart s dts (by linarith)
      (fun x hx => by have := hdt x hx; linarith) (by linarith) ht).2 (by linarith)

/-- **C28, disagreement**: `dt_init` is documented (and guarded by `first_call`) as the cap of the first step, but it
caps every step of the run, because `first_call` is never cleared. -/
theorem dt_init_caps_every_step (dtInit tlim : K) (s : DtState K) (dts : List K) (dt : K) (hf : s.fact = 1) :
    chooseDt dtInit tlim false (dtRun dtInit tlim false s dts) dt ≤ dtInit := by
  have h1 : (dtRun dtInit tlim false s dts).fact = 1 := by
    induction dts generalizing s with
    | nil => exact hf
    | cons d r ih => exact ih _ (by simp [dtStep])
  have := (chosen_dt_bounds dtInit tlim false (dtRun dtInit tlim false s dts) dt (by rw [h1]; norm_num)).2.2
  simpa [h1] using this

/-! ### C29: Runge-Kutta combination -/

/-- **C29**: the stage is the stated convex combination; in particular it is exact on constants and any linear
functional of the state that the right-hand side annihilates is preserved by it. -/
theorem rk_stage_linear (beta dt base cur rhs : K) (h : rhs = 0) (hc : cur = base) :
    rkStage beta dt base cur rhs = base := by
  subst h; subst hc; unfold rkStage; ring

/-- **C29**: bounds: for `0 ≤ beta ≤ 1` the averaged state lies between the two states combined. -/
theorem rk_stage_convex (beta dt base cur : K) (h0 : 0 ≤ beta) (h1 : beta ≤ 1) :
    min cur base ≤ rkStage beta dt base cur 0 ∧ rkStage beta dt base cur 0 ≤ max cur base := by
  unfold rkStage
  have a := min_le_left cur base; have b := min_le_right cur base
  have c := le_max_left cur base; have d := le_max_right cur base
  constructor <;> nlinarith

omit [IsStrictOrderedRing K] in
/-- Fraction of the step covered after each stage for a constant right-hand side. -/
theorem rk_constant (betas : List K) (dt R base : K) :
    rkStep betas dt (fun _ => R) base = base + betas.foldl (fun e b => b * (e + 1)) 0 * (dt * R) := by
  have : ∀ (l : List K) (e : K), l.foldl (fun cur b => rkStage b dt base cur R) (base + e * (dt * R))
      = base + l.foldl (fun e b => b * (e + 1)) e * (dt * R) := by
    intro l
    induction l with
    | nil => intro e; rfl
    | cons b l ih =>
      intro e
      simp only [List.foldl_cons]
      rw [← ih]
      congr 1
      unfold rkStage; ring
  have h := this betas 0
  simp only [zero_mul, add_zero] at h
  exact h

/-- **C29**: with the low-storage coefficients of `rk1`, `rk2` and `rk3` a constant right-hand side advances the state
by exactly `dt * rhs`, and a linear one by the Taylor polynomial of the exponential of the order of the method. -/
theorem rk_exact (dt R lam base : K) :
    rkStep [1] dt (fun _ => R) base = base + dt * R
    ∧ rkStep [1, 1/2] dt (fun _ => R) base = base + dt * R
    ∧ rkStep [1, 1/4, 2/3] dt (fun _ => R) base = base + dt * R
    ∧ rkStep [1] dt (fun u => lam * u) base = (1 + lam * dt) * base
    ∧ rkStep [1, 1/2] dt (fun u => lam * u) base = (1 + lam * dt + (lam * dt) ^ 2 / 2) * base
    ∧ rkStep [1, 1/4, 2/3] dt (fun u => lam * u) base
        = (1 + lam * dt + (lam * dt) ^ 2 / 2 + (lam * dt) ^ 3 / 6) * base := by
  refine ⟨?_, ?_, ?_, ?_, ?_, ?_⟩ <;> simp only [rkStep, List.foldl_cons, List.foldl_nil, rkStage] <;> ring

/-- **C29, disagreement**: with the `vl2` coefficients `[1/2, 1]` the averaging form used here advances a constant
right-hand side by one and a half steps. -/
theorem rk_vl2_wrong (dt R base : K) : rkStep [1/2, 1] dt (fun _ => R) base = base + 3/2 * (dt * R) := by
  simp only [rkStep, List.foldl_cons, List.foldl_nil, rkStage]; ring

/-- **C29, stage times**: the time given to a time-dependent geometry is the time the stage's state represents for
`rk1`/`rk2`, but not in the third stage of `rk3` (`t + dt/4` instead of `t + dt/2`). -/
theorem stage_times (time dt : K) :
    stageTime [1, 1/2] time dt 1 = time ∧ stageTime [1, 1/2] time dt 2 = time + dt
    ∧ stageTime [1, 1/4, 2/3] time dt 3 = time + dt / 4
    ∧ rkStep [1, 1/4] dt (fun _ => 1) time = time + dt / 2 := by
  refine ⟨by simp [stageTime], by simp [stageTime], ?_, ?_⟩
  · simp [stageTime]; ring
  · simp only [rkStep, List.foldl_cons, List.foldl_nil, rkStage]; ring

/-! ### C59: task schedules -/

/-- A legal schedule of the update list: every task once, each after its dependencies. -/
def Legal (sched : List Task) : Prop :=
  sched.Nodup ∧ (∀ t, t ∈ sched) ∧
  ∀ pre t post, sched = pre ++ t :: post → ∀ d ∈ deps t, d ∈ pre

instance (sched : List Task) (t : Task) : Decidable (t ∈ sched) := inferInstance

/-- The legal schedules are exactly these three. -/
theorem legal_cases (sched : List Task) (h : Legal sched) :
    sched = [.fluxDiv, .addRhs, .avg, .update] ∨ sched = [.fluxDiv, .avg, .addRhs, .update]
    ∨ sched = [.fluxDiv, .avg, .update, .addRhs] := by
  obtain ⟨hn, hall, hd⟩ := h
  match sched, hn, hall, hd with
  | [], _, hall, _ => have := hall .fluxDiv; simp at this
  | a :: r, hn, hall, hd =>
    have ha : a = .fluxDiv := by
      have := hd [] a r rfl
      cases a <;> simp [deps] at this ⊢
    subst ha
    match r, hn, hall, hd with
    | [], _, hall, _ => have := hall .avg; simp at this
    | b :: r, hn, hall, hd =>
      have hb := hd [.fluxDiv] b r rfl
      cases b with
      | fluxDiv => simp at hn
      | update => simp [deps] at hb
      | addRhs =>
        match r, hn, hall, hd with
        | [], _, hall, _ => have := hall .avg; simp at this
        | c :: r, hn, hall, hd =>
          have hc := hd [.fluxDiv, .addRhs] c r rfl
          cases c with
          | fluxDiv => simp at hn
          | addRhs => simp at hn
          | update => simp [deps] at hc
          | avg =>
            match r, hn, hall with
            | [], _, hall => have := hall .update; simp at this
            | d :: r, hn, hall =>
              cases d <;> simp at hn
              match r, hn with
              | [], _ => simp
              | e :: r, hn => cases e <;> simp at hn
      | avg =>
        match r, hn, hall, hd with
        | [], _, hall, _ => have := hall .update; simp at this
        | c :: r, hn, hall, hd =>
          cases c with
          | fluxDiv => simp at hn
          | avg => simp at hn
          | addRhs =>
            match r, hn, hall with
            | [], _, hall => have := hall .update; simp at this
            | d :: r, hn, hall =>
              cases d <;> simp at hn
              match r, hn with
              | [], _ => simp
              | e :: r, hn => cases e <;> simp at hn
          | update =>
            match r, hn, hall with
            | [], _, hall => have := hall .addRhs; simp at this
            | d :: r, hn, hall =>
              cases d <;> simp at hn
              match r, hn with
              | [], _ => simp
              | e :: r, hn => cases e <;> simp at hn

omit [LinearOrder K] [IsStrictOrderedRing K] in
/-- **C59, partial**: for a variable without a geometric source the new state is the same in every legal schedule. -/
theorem schedule_independent_partial (beta dt base div : K) (r : Regs K) (s : List Task) (h : Legal s) :
    (execAll beta dt base div 0 s r).mc1 = beta * r.mc0 + (1 - beta) * base + beta * dt * div := by
  rcases legal_cases s h with rfl | rfl | rfl <;> simp [execAll, exec]

omit [LinearOrder K] [IsStrictOrderedRing K] in
/-- **C59, disagreement**: `update` does not depend on `add_rhs`, so a legal schedule exists in which the geometric
source terms are lost, and the result depends on the schedule. -/
theorem source_lost_in_legal_schedule : ∃ s t : List Task, Legal s ∧ Legal t ∧
    ∀ (beta dt base div src : K) (r : Regs K),
      (execAll beta dt base div src s r).mc1 = beta * r.mc0 + (1 - beta) * base + beta * dt * (div + src)
      ∧ (execAll beta dt base div src t r).mc1 = beta * r.mc0 + (1 - beta) * base + beta * dt * div := by
  refine ⟨[.fluxDiv, .addRhs, .avg, .update], [.fluxDiv, .avg, .update, .addRhs], ⟨by simp, ?_, ?_⟩, ⟨by simp, ?_, ?_⟩,
    ?_⟩
  · intro t; cases t <;> simp
  · intro pre t post h
    match pre, h with
    | [], h => simp at h; obtain ⟨rfl, -⟩ := h; simp [deps]
    | [a], h => simp at h; obtain ⟨rfl, rfl, -⟩ := h; simp [deps]
    | [a, b], h => simp at h; obtain ⟨rfl, rfl, rfl, -⟩ := h; simp [deps]
    | [a, b, c], h => simp at h; obtain ⟨rfl, rfl, rfl, rfl, -⟩ := h; simp [deps]
    | a :: b :: c :: d :: e, h => simp at h
  · intro t; cases t <;> simp
  · intro pre t post h
    match pre, h with
    | [], h => simp at h; obtain ⟨rfl, -⟩ := h; simp [deps]
    | [a], h => simp at h; obtain ⟨rfl, rfl, -⟩ := h; simp [deps]
    | [a, b], h => simp at h; obtain ⟨rfl, rfl, rfl, -⟩ := h; simp [deps]
    | [a, b, c], h => simp at h; obtain ⟨rfl, rfl, rfl, rfl, -⟩ := h; simp [deps]
    | a :: b :: c :: d :: e, h => simp at h
  · intro beta dt base div src r
    constructor <;> simp [execAll, exec]

/-! ### C60: monopole cadence -/

/-- **C60**: with `run_n_times = n ≥ 0` the monopole solver runs in exactly the first `n + 1` stages (the documentation
says `n`), and with a negative value in all of them. -/
theorem monopole_runs (n N : ℕ) :
    monopoleRuns true false n 0 N = min N (n + 1) ∧ monopoleRuns true false (-1) 0 N = N := by
  have h1 : ∀ N (m : ℕ), monopoleRuns true false n m N = min N (n + 1 - m) := by
    intro N
    induction N with
    | zero => intro m; simp [monopoleRuns]
    | succ N ih =>
      intro m
      simp only [monopoleRuns, monopoleStage]
      by_cases h : m ≤ n
      · have : ¬ ((n : ℤ) < 0) := by omega
        have h' : ((m : ℤ) ≤ n) := by omega
        simp only [this, h', decide_true, Bool.or_true, Bool.and_true, Bool.not_false, if_true]
        have := ih (m + 1)
        push_cast at this
        rw [this]; omega
      · have h2 : ¬ ((n : ℤ) < 0) := by omega
        have h' : ¬ ((m : ℤ) ≤ n) := by omega
        simp only [h2, h', decide_false, Bool.or_false, Bool.and_false, Bool.false_and, Bool.false_eq_true, if_false]
        rw [ih m]; omega
  have h2 : ∀ N (m : ℤ), monopoleRuns true false (-1) m N = N := by
    intro N
    induction N with
    | zero => intro m; rfl
    | succ N ih => intro m; simp [monopoleRuns, monopoleStage, ih]; omega
  exact ⟨by simpa using h1 N 0, h2 N 0⟩

/-- A disabled or force-static monopole never runs. -/
theorem monopole_never (N : ℕ) (n m : ℤ) (e : Bool) :
    monopoleRuns false e n m N = 0 ∧ monopoleRuns true true n m N = 0 := by
  induction N generalizing m with
  | zero => exact ⟨rfl, rfl⟩
  | succ N ih => simp [monopoleRuns, monopoleStage, ih]

omit [LinearOrder K] [IsStrictOrderedRing K] in
/-- **C29, stage times in general**: for every integrator the first stage sees the start time of the step and stage `s + 2`
sees `time + beta[s] dt`, the weight of the previous stage. -/
theorem stage_time_spec (betas : List K) (time dt : K) :
    stageTime betas time dt 1 = time ∧ ∀ (s : ℕ) (h : s < betas.length), stageTime betas time dt (s + 2) = time + betas[s] * dt := by
  refine ⟨by simp [stageTime], fun s h => ?_⟩
  simp [stageTime, h]

end Phoebus.Driver
