import Verif.Startup.Model

/-!
# C110 (start-up), C111 (lapse of the previous cycle)
-/
namespace Phoebus.Startup
open Monopole

/-! ## Accepted configurations -/

/-- is the geometry one of the two monopole metrics? -/
def Geometry.isMonopole (g : Geometry) : Prop := g = .MonopoleSph ∨ g = .MonopoleCart

/-- a start is accepted exactly for the consistent configurations. -/
theorem check_iff (c : Config) : check c = .ok () ↔
    (c.tov = true → c.monopole = true) ∧ (c.monopole = true → c.tov = true ∨ c.progenitor = true) ∧
    (c.monopole = true ↔ c.geom.isMonopole) := by
  obtain ⟨t, m, p, g⟩ := c
  cases t <;> cases m <;> cases p <;> cases g <;> simp [check, Geometry.isMonopole, throw, throwThe, MonadExceptOf.throw, bind,
    Except.bind, pure, Except.pure]

/-- the error says what is missing. -/
theorem check_error (c : Config) (e : Err) (h : check c = .error e) : match e with
    | .tovNeedsMonopole => c.tov = true ∧ c.monopole = false
    | .monopoleNeedsMatter => c.monopole = true ∧ c.tov = false ∧ c.progenitor = false
    | .monopoleNeedsMetric => ¬ (c.monopole = true ↔ c.geom.isMonopole) := by
  obtain ⟨t, m, p, g⟩ := c
  cases t <;> cases m <;> cases p <;> cases g <;> simp [check, throw, throwThe, MonadExceptOf.throw, bind,
    Except.bind, pure, Except.pure] at h <;> subst h <;> simp [Geometry.isMonopole]

theorem ex_check : check ⟨true, true, false, .MonopoleSph⟩ = .ok () ∧ check ⟨false, false, false, .FMKS⟩ = .ok () ∧
    check ⟨false, false, false, .MonopoleCart⟩ = .error .monopoleNeedsMetric := by decide

/-! ## The spacetime set up at start -/

section
variable {K : Type*} [Field K] [LinearOrder K] [IsStrictOrderedRing K]

theorem solve_lapse {V : Type*} (al : Bool) (l : Lapse V) (v : V) : (l.solve al v).lapse = v := by
  obtain ⟨a, b, c, o⟩ := l
  cases al <;> cases c <;> simp [Lapse.solve, Lapse.setHost, Lapse.advance, Lapse.setCur, Lapse.host, Lapse.lapse]

/-- whatever the state before, after solving for the matter on the host, the device holds this matter, its hypersurface (with the curvature
erased when the run is forced static) and its lapse. -/
theorem solve_spec (p : Par K) (m : Mono K) :
    let m' := spacetimeToDevice p (linearSolve p (integrateHypersurface p m))
    let q := m.matter.host
    let h := Monopole.hyper p.small p.pi p.dr q.rho q.j
    m'.matter.dev = q ∧ m'.matter.host = q ∧ m'.hyper.dev = (fun i => ((h i).1, if p.static then 0 else (h i).2)) ∧
      m'.lapse.lapse = lapseOf p h q := by
  refine ⟨rfl, rfl, ?_, ?_⟩
  · funext i
    unfold spacetimeToDevice linearSolve integrateHypersurface
    cases hs : p.static <;> simp [Pair.toDev, Pair.setHost, Pair.setDev]
  · exact solve_lapse p.shared m.lapse _

/-- **C110** a TOV start: the device holds the star, the hypersurface integrated from it and the lapse solved from both, on every kind of
build, and the star was built with central potential `log 1`. -/
theorem startup_tov (p : Par K) (log : K → K) (star : K → Matter K) (c : Config) (hc : check c = .ok ()) (ht : c.tov = true) :
    let m := startup p log star c Mono.init
    let q := star (log 1)
    let h := Monopole.hyper p.small p.pi p.dr q.rho q.j
    m.matter.dev = q ∧ m.hyper.dev = (fun i => ((h i).1, if p.static then 0 else (h i).2)) ∧ m.lapse.lapse = lapseOf p h q := by
  have hm := ((check_iff c).1 hc).1 ht
  have hq : (matterToHost (integrateTov p log star Mono.init)).matter.host = star (log 1) := by
    cases ha : p.shared <;> simp [matterToHost, integrateTov, Pair.toHost, Pair.toDev, Pair.setHost, Lapse.host, Lapse.setHost,
      Mono.init, Lapse.init, Lapse.lapse, ha]
  have h := solve_spec p (matterToHost (integrateTov p log star Mono.init))
  simp only [hq] at h
  simp only [startup, ht, hm, if_true]
  exact ⟨h.1, h.2.2.1, h.2.2.2⟩

/-- **C110** the lapse so obtained satisfies the discretised slicing equation of the star. -/
theorem startup_lapse_equation (p : Par K) (hdr : p.dr ≠ 0) (hn : 2 ≤ p.n) (log : K → K) (star : K → Matter K) (c : Config)
    (hc : check c = .ok ()) (ht : c.tov = true) :
    let q := star (log 1)
    let h := Monopole.hyper p.small p.pi p.dr q.rho q.j
    (∀ i, i < p.n → (forward (rows p.small p.pi p.dr p.n (fun i => (h i).1) (fun i => (h i).2) q.rho q.trcS) i).1 ≠ 0) →
    LapseEq p.pi p.dr p.n (fun i => (h i).1) (fun i => (h i).2) q.rho q.trcS
      (fun i => aRHS p.small p.pi (h i).1 (h i).2 (rad p.dr i) (q.rho i)) (startup p log star c Mono.init).lapse.lapse := by
  intro q h hp
  rw [(startup_tov p log star c hc ht).2.2]
  exact lapse_equation hdr hn hp

/-- a start with the progenitor only: before the problem generator runs, the spacetime is flat, whatever the table. -/
theorem startup_progenitor (p : Par K) (hdr : 0 < p.dr) (hpi : 0 ≤ p.pi) (hn : 2 ≤ p.n) (log : K → K) (star : K → Matter K)
    (c : Config) (ht : c.tov = false) (hm : c.monopole = true) :
    let m := startup p log star c Mono.init
    m.hyper.dev = (fun _ => (1, 0)) ∧ ∀ i, i < p.n → m.lapse.lapse i = 1 := by
  have h := solve_spec p (matterToHost (Mono.init (K := K)))
  have hv : Monopole.hyper p.small p.pi p.dr (noMatter (K := K)).rho (noMatter (K := K)).j = fun _ => (1, 0) :=
    funext (vacuum_hypersurface p.small p.pi p.dr)
  have hq : (matterToHost (Mono.init (K := K))).matter.host = noMatter := rfl
  simp only [hq, hv] at h
  simp only [startup, ht, hm, if_true, Bool.false_eq_true, if_false]
  refine ⟨?_, fun i hi => ?_⟩
  · rw [h.2.2.1]
    simp
  · rw [h.2.2.2]
    exact vacuum_lapse p.small p.pi p.dr hdr hpi p.n hn i hi

/-- the generator `homologous` then replaces it by the spacetime of the table, whatever was there before. -/
theorem homologous_spec (p : Par K) (table : Matter K) (m : Mono K) :
    let m' := homologousSetup p table m
    let h := Monopole.hyper p.small p.pi p.dr table.rho table.j
    m'.matter.dev = table ∧ m'.hyper.dev = (fun i => ((h i).1, if p.static then 0 else (h i).2)) ∧
      m'.lapse.lapse = lapseOf p h table := by
  have h := solve_spec p { m with matter := (m.matter.setHost p.shared table).toDev }
  exact ⟨h.1, h.2.2.1, h.2.2.2⟩

/-- without the monopole package the arrays are not touched. -/
theorem startup_off (p : Par K) (log : K → K) (star : K → Matter K) (c : Config) (m : Mono K) (hc : check c = .ok ())
    (hm : c.monopole = false) : startup p log star c m = m := by
  have ht : c.tov = false := by
    by_contra h
    have := ((check_iff c).1 hc).1 (by simpa using h)
    simp [hm] at this
  simp [startup, ht, hm]

end

/-! ## The lapse of the previous cycle -/

section
variable {V : Type*} (one : V) (sol : ℕ → V)

/-- the sequence of published lapses: 1 before the first call. -/
def published (n : ℕ) : V := if n = 0 then one else sol n

/-- **C111** the current lapse is always the latest solution. -/
theorem run_lapse (al : Bool) (n : ℕ) : (Lapse.run al one sol n).lapse = published one sol n := by
  cases n with
  | zero => simp [Lapse.run, Lapse.init, Lapse.lapse, published]
  | succ n => simp [Lapse.run, solve_lapse, published]

theorem solve_cur (al : Bool) (l : Lapse V) (v : V) : (l.solve al v).cur = !l.cur := by
  obtain ⟨a, b, c, o⟩ := l
  cases al <;> cases c <;> simp [Lapse.solve, Lapse.setHost, Lapse.advance, Lapse.setCur]

theorem run_cur (al : Bool) (n : ℕ) : (Lapse.run al one sol n).cur = decide (n % 2 = 0) := by
  induction n with
  | zero => rfl
  | succ n ih =>
    rw [Lapse.run, solve_cur, ih]
    rcases Nat.mod_two_eq_zero_or_one n with h | h <;> simp [Nat.add_mod, h]

theorem solve_last_device (l : Lapse V) (v : V) : (l.solve false v).last = l.lapse := by
  obtain ⟨a, b, c, o⟩ := l
  cases c <;> simp [Lapse.solve, Lapse.setHost, Lapse.advance, Lapse.setCur, Lapse.host, Lapse.lapse, Lapse.last]

theorem solve_last_host (l : Lapse V) (v : V) : (l.solve true v).last = if l.cur then v else l.lapse := by
  obtain ⟨a, b, c, o⟩ := l
  cases c <;> simp [Lapse.solve, Lapse.setHost, Lapse.advance, Lapse.setCur, Lapse.host, Lapse.lapse, Lapse.last]

/-- **C111** on a device with its own memory, `lapse_last` is the lapse of the call before, for every number of calls.

Partial form of C111. Full property: The stored previous lapse is the lapse of the solve before the current one, on
every build; the warning is printed exactly when the lapse changes by more than the tolerance. Missing: Previous lapse
wrong on host builds after every odd call. -/
theorem last_device_partial (n : ℕ) : (Lapse.run false one sol (n + 1)).last = published one sol n := by
  rw [Lapse.run, solve_last_device, run_lapse]

/-- **C111 fails on the host**: when the mirror shares memory, after every odd call `lapse_last` is the *new* lapse; after every even
call it is the previous one. -/
theorem last_host (n : ℕ) : (Lapse.run true one sol (n + 1)).last = if n % 2 = 0 then sol (n + 1) else published one sol n := by
  rw [Lapse.run, solve_last_host, run_cur, run_lapse]
  simp

/-- the buffer is right on host builds exactly when the call count is even or the lapse did not change. -/
theorem last_host_iff (n : ℕ) : (Lapse.run true one sol (n + 1)).last = published one sol n ↔
    n % 2 = 1 ∨ sol (n + 1) = published one sol n := by
  rw [last_host]
  rcases Nat.mod_two_eq_zero_or_one n with h | h <;> simp [h]

/-- reads and writes of the solver never see the other build's difference: the published lapse is the same on both. -/
theorem lapse_build_independent (n : ℕ) : (Lapse.run true one sol n).lapse = (Lapse.run false one sol n).lapse := by
  rw [run_lapse, run_lapse]

end

section
variable {K : Type*} [Field K] [LinearOrder K] [IsStrictOrderedRing K]

/-- **C111** the warning is given exactly when at some point the rate of change of the lapse differs from the computed one by more than the
tolerance relative to the lapse. -/
theorem warns_iff (dt eps : K) (alpha last dadt : ℕ → K) (n : ℕ) (ha : ∀ i, i ≤ n → 0 < alpha i) :
    warns 0 dt eps alpha last dadt n = true ↔
      ∃ i, i ≤ n ∧ |(alpha i - last i) / dt - dadt i| > eps * alpha i := by
  have hr : ∀ i, i ≤ n → Robust.ratio 0 |(alpha i - last i) / dt - dadt i| (alpha i) =
      |(alpha i - last i) / dt - dadt i| / alpha i := by
    intro i hi
    simp [Robust.ratio]
  unfold warns
  rw [decide_eq_true_iff]
  have key : ∀ m, m ≤ n → (rateError 0 dt alpha last dadt m > eps ↔
      ∃ i, i ≤ m ∧ |(alpha i - last i) / dt - dadt i| > eps * alpha i) := by
    intro m
    induction m with
    | zero =>
      intro _
      simp only [rateError, hr 0 (by omega), gt_iff_lt, lt_div_iff₀ (ha 0 (by omega))]
      constructor
      · intro h; exact ⟨0, le_refl _, h⟩
      · rintro ⟨i, hi, h⟩
        obtain rfl : i = 0 := by omega
        exact h
    | succ m ih =>
      intro hm
      simp only [rateError, hr (m + 1) hm, gt_iff_lt, lt_max_iff, lt_div_iff₀ (ha (m + 1) hm)]
      have := ih (by omega)
      simp only [gt_iff_lt] at this
      rw [this]
      constructor
      · rintro (⟨i, hi, h⟩ | h)
        · exact ⟨i, by omega, h⟩
        · exact ⟨m + 1, le_refl _, h⟩
      · rintro ⟨i, hi, h⟩
        rcases Nat.lt_or_ge i (m + 1) with h' | h'
        · exact Or.inl ⟨i, by omega, h⟩
        · obtain rfl : i = m + 1 := by omega
          exact Or.inr h
  exact key n (le_refl n)

/-- a lapse that changes at exactly the computed rate is reported on host builds after an odd call, and not on device builds. -/
theorem false_alarm : ∃ (sol : ℕ → ℕ → ℚ) (dadt : ℕ → ℚ),
    let dt : ℚ := 1 / 10
    let hostL := Lapse.run true (fun _ => 1) sol 3
    let devL := Lapse.run false (fun _ => 1) sol 3
    warns 0 dt (1 / 100000) hostL.lapse hostL.last dadt 0 = true ∧
      warns 0 dt (1 / 100000) devL.lapse devL.last dadt 0 = false := by
  refine ⟨fun n _ => 1 - n / 100, fun _ => -1 / 10, ?_⟩
  constructor <;>
  · simp [warns, rateError, Lapse.run, Lapse.init, Lapse.solve, Lapse.setHost, Lapse.advance, Lapse.setCur, Lapse.host, Lapse.lapse,
      Lapse.last, Robust.ratio]
    norm_num [abs_of_pos, abs_of_neg]

end

/-! ## Problem dictionary -/

theorem lookup_mk (mk : String → Call) (names : List String) (key : String) :
    dict mk names key = if key ∈ names then some (mk key) else none := by
  unfold dict
  induction names with
  | nil => simp
  | cons a l ih =>
    by_cases h : key = a
    · subst h; simp
    · have : (key == a) = false := by simpa using h
      simp only [List.map_cons, List.lookup_cons, this, ih, List.mem_cons, h, false_or]

/-- **C110** the problem named in the input is the one that runs; other names (and the name of the project) are refused. -/
theorem generator_iff (name : String) (g : Call) :
    problemGenerator name = some g ↔ g = .generator name ∧ name ∈ problems ∧ name ≠ "phoebus" := by
  unfold problemGenerator
  rw [lookup_mk]
  by_cases h : name = "phoebus" <;> by_cases h' : name ∈ problems <;> simp [h, h', eq_comm]

/-- **C110** the whole start: a fresh start runs the problem's own input modifier, then its generator, then its own post-initialisation,
and nothing of another problem; it is refused exactly for unknown names. -/
theorem main_fresh (name : String) (l : List Call) : mainCalls false name = some l ↔
    name ∈ problems ∧ name ≠ "phoebus" ∧
    l = (if name ∈ modifiers then [.modifier name] else []) ++ [.generator name] ++ (if name ∈ postinit then [.post name] else []) := by
  unfold mainCalls problemModifier postInit
  rw [lookup_mk, lookup_mk]
  simp only [Bool.false_eq_true, if_false, Option.map_eq_some_iff, generator_iff]
  constructor
  · rintro ⟨g, ⟨rfl, h1, h2⟩, rfl⟩
    refine ⟨h1, h2, ?_⟩
    simp only [h2, if_false]
    by_cases a : name ∈ modifiers <;> by_cases b : name ∈ postinit <;> simp [a, b]
  · rintro ⟨h1, h2, rfl⟩
    refine ⟨_, ⟨rfl, h1, h2⟩, ?_⟩
    simp only [h2, if_false]
    by_cases a : name ∈ modifiers <;> by_cases b : name ∈ postinit <;> simp [a, b]

/-- a restart accepts every name. -/
theorem main_restart (name : String) : (mainCalls true name).isSome = true := by simp [mainCalls]

/-- the names are distinct, so the dictionaries lose no entry, and every modifier belongs to a problem. -/
theorem names_ok : problems.Nodup ∧ modifiers.Nodup ∧ postinit.Nodup ∧ modifiers ⊆ problems ∧ postinit ⊆ problems := by
  decide

/-- **C110** At the start the spacetime is flat on device and host alike: no matter, radial metric factor 1, no extrinsic curvature, lapse 1. -/
theorem init_flat {K : Type*} [Field K] [LinearOrder K] (shared : Bool) (i : ℕ) :
    let m : Mono K := Mono.init
    m.matter.dev = noMatter ∧ m.matter.host = noMatter ∧ m.hyper.dev i = (1, 0) ∧ m.hyper.host i = (1, 0) ∧
      m.lapse.lapse i = 1 ∧ m.lapse.last i = 1 ∧ m.lapse.host shared i = 1 := by
  cases shared <;> simp [Mono.init, Lapse.init, Lapse.lapse, Lapse.last, Lapse.host]

/-- **C110** The star is integrated with the central potential `log alpha(0)` of the current lapse, and both copies of the matter arrays hold it. -/
theorem tov_central {K : Type*} [Field K] [LinearOrder K] (p : Par K) (log : K → K) (star : K → Matter K) (m : Mono K) :
    (integrateTov p log star m).matter.dev = star (log (m.lapse.lapse 0)) ∧
      (integrateTov p log star m).matter.host = star (log (m.lapse.lapse 0)) := by
  rcases p with ⟨_, _, _, _, _, sh⟩
  cases sh <;> simp [integrateTov, Pair.setHost, Pair.toDev, Lapse.setHost, Lapse.host]

end Phoebus.Startup
