import Verif.Restart.Model
import Verif.NetField.Props
import Verif.LightBulb.Props
import Verif.Timestep.Props
import Verif.RadSweep.Props

/-!
# C129: a run that is stopped and restarted from a dump
-/
namespace Phoebus.Restart
open Phoebus

variable {σ I O : Type}

/-! ## Specification -/

/-- A restart in state `s` is not noticed: whatever steps follow, the rest of the code sees the same as without the restart. -/
def Transparent (p : Part σ I O) (s : σ) : Prop := ∀ h : List I, p.seen h (p.restore s) = p.seen h s

/-- The state after any history of steps (`some`) and restarts (`none`). -/
def reached (p : Part σ I O) (evs : List (Option I)) : σ :=
  evs.foldl (fun s e => match e with | some i => p.step s i | none => p.restore s) p.init

/-! ## General facts -/

theorem seen_append (p : Part σ I O) (h g : List I) (s : σ) : p.seen (h ++ g) s = p.seen h s ++ p.seen g (p.after h s) := by
  induction h generalizing s with
  | nil => rfl
  | cons i r ih => simp only [List.cons_append, Part.seen, ih]; rfl

theorem seen_congr (p : Part σ I O) (R : σ → σ → Prop) (h1 : ∀ s t i, R s t → p.see s i = p.see t i)
    (h2 : ∀ s t i, R s t → R (p.step s i) (p.step t i)) (h : List I) (s t : σ) (hR : R s t) : p.seen h s = p.seen h t := by
  induction h generalizing s t with
  | nil => rfl
  | cons i r ih => simp only [Part.seen, h1 s t i hR, ih _ _ (h2 s t i hR)]

/-- what is saved in the dump is transparent in every state. -/
theorem saved_transparent (p : Part σ I O) (hp : ∀ s, p.restore s = s) (s : σ) : Transparent p s := fun h => by rw [hp]

/-- what is not saved replays its beginning. -/
theorem rewind (p : Part σ I O) (hp : ∀ s, p.restore s = p.init) (s : σ) (h : List I) : p.seen h (p.restore s) = p.seen h p.init := by rw [hp]

/-! ## The driver -/
section
variable {K : Type} [Field K] [LinearOrder K] [IsStrictOrderedRing K]

theorem drv_reached (c : DrvCfg K) (evs : List (Option (K × K))) (he : evs ≠ []) :
    (reached (drvPart c) evs).1 = 1 ∧ (reached (drvPart c) evs).2 = false ∨ (reached (drvPart c) evs).2 = true := by
  induction evs using List.reverseRecOn with
  | nil => exact absurd rfl he
  | append_singleton l e ih =>
    unfold reached at ih ⊢
    rw [List.foldl_append]
    rcases e with _ | i
    · right; rfl
    · rcases eq_or_ne l [] with rfl | hl
      · left; exact ⟨rfl, rfl⟩
      · rcases ih hl with ⟨_, h2⟩ | h2
        · left
          simp only [List.foldl_cons, List.foldl_nil, drvPart, Driver.dtStep]
          simp only [drvPart, Driver.dtStep] at h2
          rw [h2]; exact ⟨rfl, rfl⟩
        · right
          simp only [List.foldl_cons, List.foldl_nil, drvPart]
          simpa only [drvPart] using h2

/-- **C129** the step size: once a step has been taken (or a restart has happened) another restart does not change any later step, whatever `dt_init_fact`
is. -/
theorem drv_transparent (c : DrvCfg K) (evs : List (Option (K × K))) (he : evs ≠ []) : Transparent (drvPart c) (reached (drvPart c) evs) := by
  intro h
  refine seen_congr (drvPart c) (fun s t => s.2 = true ∧ (t.1 = 1 ∧ t.2 = false ∨ t.2 = true)) ?_ ?_ h _ _ ⟨rfl, drv_reached c evs he⟩
  · rintro ⟨f, r⟩ ⟨g, q⟩ i ⟨h1, h2⟩
    simp only at h1 h2
    subst h1
    rcases h2 with ⟨rfl, rfl⟩ | rfl <;> simp [drvPart, Driver.chooseDt]
  · rintro ⟨f, r⟩ ⟨g, q⟩ i ⟨h1, h2⟩
    simp only at h1 h2
    subst h1
    rcases h2 with ⟨rfl, rfl⟩ | rfl <;> simp [drvPart, Driver.dtStep]

/-- the dump written before the first step is the exception: restarting from it drops the factor, and some (small enough) first step differs. -/
theorem drv_initial_dump (c : DrvCfg K) (h0 : 0 < c.dtInit) (hf : 0 < c.fact) (h1 : c.fact ≠ 1) :
    ∃ t d : K, 0 < d ∧ (drvPart c).see ((drvPart c).restore (drvPart c).init) (t, d) = d ∧
      (drvPart c).see (drvPart c).init (t, d) = d * c.fact ∧ ¬ Transparent (drvPart c) (drvPart c).init := by
  have hd : 0 < c.dtInit * c.fact := mul_pos h0 hf
  have e1 : (drvPart c).see ((drvPart c).restore (drvPart c).init) (c.tlim - c.dtInit - c.dtInit * c.fact, c.dtInit) = c.dtInit := by
    simp only [drvPart, Driver.chooseDt, min_self, Bool.not_true, Bool.false_eq_true, if_false]
    rw [if_neg (by simp only [gt_iff_lt, not_lt]; linarith)]
  have e2 : (drvPart c).see (drvPart c).init (c.tlim - c.dtInit - c.dtInit * c.fact, c.dtInit) = c.dtInit * c.fact := by
    simp only [drvPart, Driver.chooseDt, min_self, Bool.not_false, if_true]
    rw [if_neg (by simp only [gt_iff_lt, not_lt]; linarith)]
  refine ⟨c.tlim - c.dtInit - c.dtInit * c.fact, c.dtInit, h0, e1, e2, fun hT => ?_⟩
  have := hT [(c.tlim - c.dtInit - c.dtInit * c.fact, c.dtInit)]
  simp only [Part.seen, List.cons.injEq, and_true] at this
  rw [e1, e2] at this
  exact h1 (by field_simp at this; exact this.symm)

/-! ## The net field controller -/

/-- **C129** the net field: before its start time a restart is not noticed. -/
theorem nf_before (clamp : K → K → K → K) (cfg : NetField.Cfg K) (h : List (NfIn K)) (ht : ∀ i ∈ h, i.t < cfg.start) :
    (nfPart clamp cfg).after h (nfPart clamp cfg).init = (nfPart clamp cfg).init ∧
    Transparent (nfPart clamp cfg) ((nfPart clamp cfg).after h (nfPart clamp cfg).init) := by
  have e : (nfPart clamp cfg).after h (nfPart clamp cfg).init = (nfPart clamp cfg).init := by
    induction h with
    | nil => rfl
    | cons i r ih =>
      have hi := ht i (by simp)
      have : (nfPart clamp cfg).step (nfPart clamp cfg).init i = (nfPart clamp cfg).init :=
        (NetField.update_gated clamp cfg 1 i.t i.phi0 i.phi1 i.mdot _).1 (fun hh => not_lt.mpr hh.2.2 hi)
      rw [Part.after, List.foldl_cons, this]
      exact ih fun j hj => ht j (by simp [hj])
  exact ⟨e, fun g => by rw [e]; rfl⟩

/-- after it, the first step of the restarted run updates at once, whatever the time of the next update was, and takes the full desired rate: the limit on
its change is off because the rate is back at zero. -/
theorem nf_after (clamp : K → K → K → K) (cfg : NetField.Cfg K) (he : cfg.enabled = true) (s : NetField.Ctl K) (i : NfIn K) (ht : cfg.start ≤ i.t) :
    (nfPart clamp cfg).step ((nfPart clamp cfg).restore s) i
      = ⟨(cfg.target - i.phi0 / i.mdot) / cfg.timescale, i.phi1 - i.phi0, cfg.start + cfg.cadence⟩ ∧
    (nfPart clamp cfg).see ((nfPart clamp cfg).restore s) i
      = some ((i.phi1 - i.phi0) * ((cfg.target - i.phi0 / i.mdot) / cfg.timescale) * i.dt) ∧
    (i.t < s.next → (nfPart clamp cfg).see s i = some (s.phiFactor * s.dphi * i.dt)) := by
  have e : NetField.update clamp cfg 1 i.t i.phi0 i.phi1 i.mdot (NetField.initCtl cfg)
      = ⟨(cfg.target - i.phi0 / i.mdot) / cfg.timescale, i.phi1 - i.phi0, cfg.start + cfg.cadence⟩ := by
    simp [NetField.update, NetField.initCtl, he, ht, NetField.first_rate, NetField.fiducialRate]
  refine ⟨e, ?_, fun hn => ?_⟩
  · simp only [nfPart, e]; simp [NetField.amplitude, he]
  · have := (NetField.update_gated clamp cfg 1 i.t i.phi0 i.phi1 i.mdot s).1 (fun hh => not_lt.mpr hh.2.2 hn)
    simp only [nfPart, this]; simp [NetField.amplitude, he]

/-- it then updates in every single step, not once per cadence, until the stored time has caught up with the clock: after `n` steps, all at times at or after
`start + (n-1) cadence`, it has made `n` updates. -/
theorem nf_catchup (clamp : K → K → K → K) (cfg : NetField.Cfg K) (he : cfg.enabled = true) (hc : 0 ≤ cfg.cadence) (s : NetField.Ctl K) (h : List (NfIn K)) (T : K)
    (hT : cfg.start + (h.length - 1 : ℕ) * cfg.cadence ≤ T) (ht : ∀ i ∈ h, T ≤ i.t) :
    ((nfPart clamp cfg).after h ((nfPart clamp cfg).restore s)).next = cfg.start + h.length * cfg.cadence ∧
    ∀ g i, h = g ++ [i] → (nfPart clamp cfg).after h ((nfPart clamp cfg).restore s)
      = ⟨NetField.newRate clamp ((nfPart clamp cfg).after g ((nfPart clamp cfg).restore s)).dphi ((cfg.target - i.phi0 / i.mdot) / cfg.timescale),
          i.phi1 - i.phi0, cfg.start + h.length * cfg.cadence⟩ := by
  induction h using List.reverseRecOn with
  | nil => exact ⟨by simp [Part.after, nfPart, NetField.initCtl], fun g i hg => by simp at hg⟩
  | append_singleton l j ih =>
    have hle : cfg.start + (l.length - 1 : ℕ) * cfg.cadence ≤ T := by
      refine le_trans ?_ hT
      have : ((l.length - 1 : ℕ) : K) ≤ ((l ++ [j]).length - 1 : ℕ) := by exact_mod_cast (by simp)
      nlinarith
    have hn := (ih hle fun i hi => ht i (by simp [hi])).1
    have hj : ((nfPart clamp cfg).after l ((nfPart clamp cfg).restore s)).next ≤ j.t := by
      rw [hn]; refine le_trans ?_ (ht j (by simp)); simpa using hT
    have u := (NetField.update_gated clamp cfg 1 j.t j.phi0 j.phi1 j.mdot ((nfPart clamp cfg).after l ((nfPart clamp cfg).restore s))).2 ⟨rfl, he, hj⟩
    have ea : (nfPart clamp cfg).after (l ++ [j]) ((nfPart clamp cfg).restore s)
        = NetField.update clamp cfg 1 j.t j.phi0 j.phi1 j.mdot ((nfPart clamp cfg).after l ((nfPart clamp cfg).restore s)) := by
      simp only [Part.after, List.foldl_append, List.foldl_cons, List.foldl_nil]; rfl
    have enext : ((nfPart clamp cfg).after (l ++ [j]) ((nfPart clamp cfg).restore s)).next = cfg.start + (l ++ [j]).length * cfg.cadence := by
      rw [ea, u.1, hn]; push_cast [List.length_append, List.length_singleton]; ring
    refine ⟨enext, fun g i hg => ?_⟩
    obtain ⟨rfl, h2⟩ := List.append_inj' hg rfl
    obtain rfl : j = i := by simpa using h2
    rw [← enext, ea]
    have ext : ∀ c : NetField.Ctl K, c = ⟨c.dphi, c.phiFactor, c.next⟩ := fun c => rfl
    rw [ext (NetField.update clamp cfg 1 j.t j.phi0 j.phi1 j.mdot _), u.2.2, u.2.1]
    rfl

end

/-- a run in which the restart is noticed: after an update at time 0 the rate is zero on target, the dump is taken, and at the next step the measured flux is
off target; the uninterrupted run waits for the cadence, the restarted one reacts. -/
theorem nf_noticed (clamp : ℚ → ℚ → ℚ → ℚ) :
    let cfg : NetField.Cfg ℚ := ⟨true, 1, 1, 10, 0⟩
    let s := (nfPart clamp cfg).after [⟨0, 1, 1, 2, 1⟩] (nfPart clamp cfg).init
    (nfPart clamp cfg).seen [⟨1, 1, 0, 1, 1⟩] s = [some 0] ∧
    (nfPart clamp cfg).seen [⟨1, 1, 0, 1, 1⟩] ((nfPart clamp cfg).restore s) = [some 1] ∧ ¬ Transparent (nfPart clamp cfg) s := by
  intro cfg s
  have e1 : (nfPart clamp cfg).seen [⟨1, 1, 0, 1, 1⟩] s = [some 0] := by
    simp [s, cfg, Part.after, Part.seen, nfPart, NetField.update, NetField.amplitude, NetField.initCtl, NetField.newRate, NetField.fiducialRate]
  have e2 : (nfPart clamp cfg).seen [⟨1, 1, 0, 1, 1⟩] ((nfPart clamp cfg).restore s) = [some 1] := by
    simp [cfg, Part.seen, nfPart, NetField.update, NetField.amplitude, NetField.initCtl, NetField.newRate, NetField.fiducialRate]
  refine ⟨e1, e2, fun h => ?_⟩
  have := h [⟨1, 1, 0, 1, 1⟩]
  rw [e1, e2] at this
  simp at this

/-! ## The light bulb -/

/-- **C129** the gain flag: a restart is not noticed if and only if the flag has not been raised by the optical depth (or is on by request). -/
theorem gain_transparent_iff (always : Bool) (h : List (List ℝ)) :
    Transparent (gainPart always) ((gainPart always).after h (gainPart always).init) ↔ always = true ∨ ∀ taus ∈ h, ∀ t ∈ taus, t ≤ 100 := by
  have L : (gainPart always).after h (gainPart always).init = true ↔ always = true ∨ ∃ taus ∈ h, ∃ t ∈ taus, t > 100 := LightBulb.gain_latch h always
  have R : ∀ s, (gainPart always).restore s = always := fun _ => rfl
  have S : ∀ s, (gainPart always).see s [] = s := fun s => by
    have := LightBulb.checkDoGain_iff [] s
    simp only [List.not_mem_nil, false_and, exists_false, or_false] at this
    exact Bool.eq_iff_iff.2 this
  constructor
  · intro hT
    have h1 := hT [[]]
    simp only [Part.seen, List.cons.injEq, and_true, S, R] at h1
    rw [← h1] at L
    by_cases ha : always = true
    · exact Or.inl ha
    · right
      intro taus htaus t ht
      by_contra hc
      exact ha (L.2 (Or.inr ⟨taus, htaus, t, ht, not_le.mp hc⟩))
  · intro hh g
    rw [R]
    congr 1
    rw [Bool.eq_iff_iff, L]
    refine ⟨Or.inl, ?_⟩
    rintro (h1 | ⟨taus, h1, t, h2, h3⟩)
    · exact h1
    · rcases hh with hh | hh
      · exact hh
      · exact absurd (hh taus h1 t h2) (not_le.mpr h3)

/-! ## Monte Carlo -/

/-- **C129** Monte Carlo: the first step of a restarted run emits with the weight of the input file, whatever the tuning had reached. -/
theorem mc_reset (c : McCfg) (s : McState) (i : McIn) :
    (mcPart c).see ((mcPart c).restore s) i = c.wgt0 ∧ (mcPart c).see s i = s.vals.2.1 := ⟨rfl, rfl⟩

/-- and its tuning fires in every step until the stored time has caught up; with nothing emitted in these steps the rate is multiplied by 4/3 (up to rounding) in each. -/
theorem mc_catchup (c : McCfg) (hd : 0 ≤ c.dtTune) (s : McState) (h : List McIn) (T : ℝ) (hT : c.t0 + (h.length - 1 : ℕ) * c.dtTune < T)
    (ht : ∀ i ∈ h, T ≤ i.tEnd) :
    ((mcPart c).after h ((mcPart c).restore s)).vals.2.2 = c.t0 + h.length * c.dtTune ∧
    ((mcPart c).after h ((mcPart c).restore s)).em = 0 ∧ ((mcPart c).after h ((mcPart c).restore s)).ab = 0 ∧
    ((mcPart c).after h ((mcPart c).restore s)).vals.1
      = (h.map fun i => MonteCarlo.emissionCorrection c.eps i.emitted i.absorbed c.dtTune c.np).prod * c.tune0 ∧
    ((∀ i ∈ h, i.emitted = i.absorbed) →
      ((mcPart c).after h ((mcPart c).restore s)).vals.1 = (4 / 3 * (1 - c.eps)) ^ h.length * c.tune0) := by
  induction h using List.reverseRecOn with
  | nil => simp [Part.after, mcPart]
  | append_singleton l j ih =>
    have hle : c.t0 + (l.length - 1 : ℕ) * c.dtTune < T := by
      refine lt_of_le_of_lt ?_ hT
      have : ((l.length - 1 : ℕ) : ℝ) ≤ ((l ++ [j]).length - 1 : ℕ) := by exact_mod_cast (by simp)
      nlinarith
    obtain ⟨i1, i2, i3, i4, i5⟩ := ih hle fun i hi => ht i (by simp [hi])
    have hj : ((mcPart c).after l ((mcPart c).restore s)).vals.2.2 < j.tEnd := by
      rw [i1]; refine lt_of_lt_of_le ?_ (ht j (by simp)); simpa using hT
    have ea : (mcPart c).after (l ++ [j]) ((mcPart c).restore s) = (mcPart c).step ((mcPart c).after l ((mcPart c).restore s)) j := by
      simp only [Part.after, List.foldl_append, List.foldl_cons, List.foldl_nil]
    have ev : ((mcPart c).after (l ++ [j]) ((mcPart c).restore s)).vals.1
        = MonteCarlo.emissionCorrection c.eps j.emitted j.absorbed c.dtTune c.np * ((mcPart c).after l ((mcPart c).restore s)).vals.1 := by
      rw [ea]
      generalize (mcPart c).after l ((mcPart c).restore s) = q at *
      simp only [mcPart, MonteCarlo.updateTuning]
      rw [if_pos hj, i2, i3]; simp
    refine ⟨?_, ?_, ?_, ?_, fun h0 => ?_⟩
    · rw [ea]
      generalize (mcPart c).after l ((mcPart c).restore s) = q at *
      simp only [mcPart, MonteCarlo.updateTuning]
      rw [if_pos hj]
      show q.vals.2.2 + c.dtTune = _
      rw [i1]; push_cast [List.length_append, List.length_singleton]; ring
    · rw [ea]; exact if_pos hj
    · rw [ea]; exact if_pos hj
    · rw [ev, i4]; simp; ring
    · rw [ev, i5 (fun i hi => h0 i (by simp [hi]))]
      have : MonteCarlo.emissionCorrection c.eps j.emitted j.absorbed c.dtTune c.np = 4 / 3 * (1 - c.eps) := by
        simp [MonteCarlo.emissionCorrection, MonteCarlo.divC, h0 j (by simp)]
      rw [this, List.length_append, List.length_singleton, pow_succ]; ring

/-- a restarted run emits as a run begun from scratch would, with all counters at zero. -/
theorem mc_rewinds (c : McCfg) (s : McState) (h : List McIn) :
    (mcPart c).seen h ((mcPart c).restore s) = (mcPart c).seen h (mcPart c).init ∧
    (mcPart c).init.em = 0 ∧ (mcPart c).init.ab = 0 ∧ (∀ i, (mcPart c).see (mcPart c).init i = c.wgt0) := ⟨rfl, rfl, rfl, fun _ => rfl⟩

/-- so the restart is noticed exactly at once whenever the weight in use is not the one of the input. -/
theorem mc_noticed (c : McCfg) (s : McState) (h : s.vals.2.1 ≠ c.wgt0) : ¬ Transparent (mcPart c) s := fun hT => by
  have := hT [⟨0, 0, 0, 0⟩]
  simp only [Part.seen, List.cons.injEq, and_true] at this
  exact h this.symm

/-! ## Random numbers -/

theorem rng_seen (stream : ℕ → ℝ) (h : List ℕ) (n m : ℕ) (e : ∀ j, stream (n + j) = stream (m + j)) :
    (rngPart stream).seen h n = (rngPart stream).seen h m := by
  refine seen_congr (rngPart stream) (fun n m => ∀ j, stream (n + j) = stream (m + j)) ?_ ?_ h n m e
  · intro a b k hab; simp only [rngPart]; exact List.map_congr_left fun j _ => hab j
  · intro a b k hab j; simp only [rngPart]; rw [Nat.add_assoc, Nat.add_assoc]; exact hab (k + j)

/-- **C129** random numbers: a restarted run repeats the draws of the first steps of the run, and the restart goes unnoticed only if the generator has come back to its
beginning. -/
theorem rng_rewinds (stream : ℕ → ℝ) (n : ℕ) :
    (∀ h, (rngPart stream).seen h ((rngPart stream).restore n) = (rngPart stream).seen h (rngPart stream).init) ∧
    (Transparent (rngPart stream) n ↔ ∀ j, stream (n + j) = stream j) := by
  refine ⟨fun h => rfl, fun hT j => ?_, fun e h => (rng_seen stream h 0 n fun j => by rw [e, Nat.zero_add])⟩
  have := hT [j + 1]
  simp only [Part.seen, List.cons.injEq, and_true, rngPart] at this
  have := congrArg (fun l => l[j]?) this
  simpa using this.symm

/-- with a generator that never repeats a number every restart after the first draw is noticed. -/
theorem rng_noticed (stream : ℕ → ℝ) (hs : Function.Injective stream) (n : ℕ) (hn : n ≠ 0) : ¬ Transparent (rngPart stream) n := fun hT =>
  hn (by simpa using hs ((rng_rewinds stream n).2.1 hT 0))

/-! ## The step estimate -/

theorem minDt_anti (tiny : ℝ) (ht : 0 < tiny) (r q : Timestep.Cell → ℝ) (cells : List Timestep.Cell) (h : ∀ c ∈ cells, 0 ≤ r c ∧ r c ≤ q c) (a b : ℝ)
    (hab : a ≤ b) : cells.foldl (fun m c => min m (1 / (q c + tiny))) a ≤ cells.foldl (fun m c => min m (1 / (r c + tiny))) b := by
  induction cells generalizing a b with
  | nil => exact hab
  | cons c l ih =>
    refine ih (fun c' hc' => h c' (by simp [hc'])) _ _ (min_le_min hab ?_)
    have hc := h c (by simp)
    exact one_div_le_one_div_of_le (by linarith) (by linarith)

/-- **C129** the step estimate: the first estimate after a restart leaves out the speeds at the faces and is at least as large as the one of the
uninterrupted run; all later ones agree. -/
theorem speed_first (big tiny cfl : ℝ) (ht : 0 < tiny) (hc : 0 ≤ cfl) (ndim : ℕ) (s : Bool) (B : Timestep.Block) (h : List Timestep.Block)
    (hB : ∀ d, ∀ c ∈ B.cells, 0 ≤ B.csig d c ∧ 0 < B.width d c) :
    (speedPart big tiny cfl ndim).see s B ≤ (speedPart big tiny cfl ndim).see ((speedPart big tiny cfl ndim).restore s) B ∧
    (speedPart big tiny cfl ndim).seen (B :: h) ((speedPart big tiny cfl ndim).restore s)
      = (speedPart big tiny cfl ndim).see false B :: (speedPart big tiny cfl ndim).seen h true ∧
    (speedPart big tiny cfl ndim).seen (B :: h) s = (speedPart big tiny cfl ndim).see s B :: (speedPart big tiny cfl ndim).seen h true := by
  refine ⟨?_, ?_, ?_⟩
  · cases s
    · exact le_rfl
    · simp only [speedPart, Timestep.fluidDt, if_true, Bool.false_eq_true, if_false]
      refine mul_le_mul_of_nonneg_left (minDt_anti tiny ht _ _ _ (fun c hcc => ⟨?_, ?_⟩) _ _ le_rfl) hc
      · exact Finset.sum_nonneg fun d _ => div_nonneg (hB d c hcc).1 (hB d c hcc).2.le
      · exact Finset.sum_le_sum fun d _ => div_le_div_of_nonneg_right (le_max_left _ _) (hB d c hcc).2.le
  · simp [Part.seen, speedPart, Timestep.fluidDt]
  · cases s <;> simp [Part.seen, speedPart, Timestep.fluidDt]

/-- a fresh run starts like a restarted one: its first estimate uses the cell speeds alone, all later ones the face speeds as well. -/
theorem speed_fresh (big tiny cfl : ℝ) (ndim : ℕ) (B : Timestep.Block) (h : List Timestep.Block) (s : Bool) :
    (speedPart big tiny cfl ndim).seen (B :: h) (speedPart big tiny cfl ndim).init
      = (cfl * Timestep.minDt big tiny (Timestep.rateCell ndim B) B.cells) :: h.map (fun C => cfl * Timestep.minDt big tiny (Timestep.rateFace ndim C) C.cells) ∧
    (speedPart big tiny cfl ndim).seen (B :: h) ((speedPart big tiny cfl ndim).restore s) = (speedPart big tiny cfl ndim).seen (B :: h) (speedPart big tiny cfl ndim).init := by
  refine ⟨?_, rfl⟩
  have key : ∀ h : List Timestep.Block, (speedPart big tiny cfl ndim).seen h true = h.map fun C => cfl * Timestep.minDt big tiny (Timestep.rateFace ndim C) C.cells := by
    intro h
    induction h with
    | nil => rfl
    | cons C r ih => simpa [Part.seen, speedPart, Timestep.fluidDt] using ih
  have := key h
  simp only [Part.seen, List.cons.injEq]
  exact ⟨by simp [speedPart, Timestep.fluidDt], by simpa [speedPart, Timestep.fluidDt] using this⟩

/-- a block where it is four times as large (one cell, cell speed 1, face speed 7; `tiny` = 1 only to make the numbers round). -/
theorem speed_noticed : let B : Timestep.Block := ⟨fun _ _ => 1, fun _ _ => 7, fun _ _ => 1, [⟨0, 0, 0⟩]⟩
    (speedPart 100 1 1 1).see true B = 1 / 8 ∧ (speedPart 100 1 1 1).see false B = 1 / 2 ∧ ¬ Transparent (speedPart 100 1 1 1) true := by
  intro B
  have e : Timestep.dirs 1 = {0} := by decide
  have e1 : (speedPart 100 1 1 1).see true B = 1 / 8 := by norm_num [speedPart, Timestep.fluidDt, Timestep.minDt, Timestep.rateFace, e, B]
  have e2 : (speedPart 100 1 1 1).see false B = 1 / 2 := by norm_num [speedPart, Timestep.fluidDt, Timestep.minDt, Timestep.rateCell, e, B]
  refine ⟨e1, e2, fun h => ?_⟩
  have := h [B]
  simp only [Part.seen, List.cons.injEq, and_true] at this
  rw [show (speedPart 100 1 1 1).restore true = false from rfl, e1, e2] at this
  norm_num at this

/-! ## MOCMC -/
section
variable {N S : ℕ}
open FluxSweep RadSweep

/-- **C129** MOCMC: in the first stage after a restart every used face gets the flux of a transparent medium, whatever the opacity was. -/
theorem kappa_lost {F : Type} (R : (ℤ → ℝ) → ℝ × ℝ) (rt : Method) (body : Fin 3 → Pos → FaceIn N S → F) (b : Blk) [DecidablePred b.Loop]
    [DecidablePred b.Entire] [DecidablePred b.Interior] (dx : Fin 3 → ℝ) (v : Fin N → Pos → ℝ) (js : Fin S → Fin N) (kap : Fin S → Pos → ℝ)
    (order : List (Task N S)) (ho : Covers b rt order) (st : Scratch N S) (old : Fin 3 → Pos → F) (s i : Fin S → Pos → ℝ) (d : Fin 3) (f : Pos) (h : RadSweep.Used b d f) :
    let p := kappaPart b fun k => sweep true R body b dx v js kap order st k old
    p.see (p.restore s) i d f = body d f (ideal R b dx v js (fun _ _ => 0) d f) ∧ p.see s i d f = body d f (ideal R b dx v js s d f) :=
  ⟨mocmc_opacity_old R rt body b dx v js kap order ho st _ old d f h, mocmc_opacity_old R rt body b dx v js kap order ho st _ old d f h⟩

/-- a restarted run begins with the opacities of a fresh one, which are zero. -/
theorem kappa_rewinds {F : Type} (b : Blk) [DecidablePred b.Interior] (flux : (Fin S → Pos → ℝ) → F) (s : Fin S → Pos → ℝ) (h : List (Fin S → Pos → ℝ)) :
    (kappaPart b flux).seen h ((kappaPart b flux).restore s) = (kappaPart b flux).seen h (kappaPart b flux).init ∧ ∀ k p, (kappaPart b flux).init k p = 0 := ⟨rfl, fun _ _ => rfl⟩

end

/-! ## The monopole solver -/

/-- **C129** the monopole counter is saved: no restart is noticed. -/
theorem mono_transparent (enabled forceStatic : Bool) (runN : ℤ) (n : ℤ) : Transparent (monoPart enabled forceStatic runN) n :=
  saved_transparent _ (fun _ => rfl) n

/-- so the solver runs as often in the stages of an interrupted run as in an uninterrupted one, wherever the restarts are. -/
theorem mono_reached (enabled forceStatic : Bool) (runN : ℤ) (evs : List (Option Unit)) :
    reached (monoPart enabled forceStatic runN) evs
      = (monoPart enabled forceStatic runN).after (evs.filterMap id) (monoPart enabled forceStatic runN).init := by
  unfold reached Part.after
  generalize (monoPart enabled forceStatic runN).init = s
  induction evs generalizing s with
  | nil => rfl
  | cons e r ih =>
    rcases e with _ | i
    · exact ih _
    · exact ih _

/-- in a run with any restarts the solver runs in the next stage exactly if it is switched on, not forced static, and either unlimited or has run at most `run_n_times` times
before. -/
theorem mono_active (enabled forceStatic : Bool) (runN : ℤ) (evs : List (Option Unit)) :
    (monoPart enabled forceStatic runN).see (reached (monoPart enabled forceStatic runN) evs) () = true ↔
      enabled = true ∧ forceStatic = false ∧ (runN < 0 ∨ ((evs.filterMap id).length : ℤ) ≤ runN) := by
  rw [mono_reached]
  have key : ∀ (l : List Unit), (monoPart enabled forceStatic runN).after l (monoPart enabled forceStatic runN).init =
      if enabled = true ∧ forceStatic = false then (if runN < 0 then (l.length : ℤ) else min l.length (max (runN + 1) 0)) else 0 := by
    intro l
    induction l using List.reverseRecOn with
    | nil =>
      simp only [Part.after, List.foldl_nil, monoPart, List.length_nil]
      split_ifs <;> simp
    | append_singleton l x ih =>
      have e : (monoPart enabled forceStatic runN).after (l ++ [x]) (monoPart enabled forceStatic runN).init =
          (monoPart enabled forceStatic runN).step ((monoPart enabled forceStatic runN).after l (monoPart enabled forceStatic runN).init) x := by
        simp only [Part.after, List.foldl_append, List.foldl_cons, List.foldl_nil]
      rw [e, ih]
      simp only [monoPart, Driver.monopoleStage, List.length_append, List.length_singleton]
      cases enabled <;> cases forceStatic <;> simp
      by_cases hr : runN < 0
      · simp [hr]
      · simp only [hr, if_false, false_or]
        split_ifs with h1
        · omega
        · omega
  rw [key]
  simp only [monoPart, Driver.monopoleStage]
  cases enabled <;> cases forceStatic <;> simp
  by_cases hr : runN < 0
  · simp [hr]
  · simp only [hr, if_false, false_or]
    omega

/-! ## Examples -/

/-- the hypotheses are met: driver with a factor 1/10, a controller two cadences late, two Monte Carlo steps without packets. -/
theorem ex_restart :
    (drvPart (⟨1, 10, 1 / 10⟩ : DrvCfg ℚ)).seen [(0, 1), (1 / 10, 1)] (drvPart (⟨1, 10, 1 / 10⟩ : DrvCfg ℚ)).init = [1 / 10, 1] ∧
    (drvPart (⟨1, 10, 1 / 10⟩ : DrvCfg ℚ)).seen [(0, 1), (1 / 10, 1)] ((drvPart (⟨1, 10, 1 / 10⟩ : DrvCfg ℚ)).restore (1, false)) = [1, 1] ∧
    ((nfPart (fun v _ _ => v) (⟨true, 1, 1, 1, 0⟩ : NetField.Cfg ℚ)).after [⟨5, 1, 0, 1, 1⟩, ⟨6, 1, 0, 1, 1⟩]
      ((nfPart (fun v _ _ => v) (⟨true, 1, 1, 1, 0⟩ : NetField.Cfg ℚ)).restore ⟨3, 4, 7⟩)).next = 2 ∧
    ((mcPart ⟨0, 1, 1, 1, 1, 100, 1, 1, 1⟩).after [⟨1, 0, 0, 5⟩, ⟨1, 0, 0, 6⟩] ((mcPart ⟨0, 1, 1, 1, 1, 100, 1, 1, 1⟩).restore ⟨(9, 9, 9), 3, 2⟩)).vals.1 = (4 / 3 * (1 - 0)) ^ 2 * 1 := by
  refine ⟨by norm_num [Part.seen, drvPart, Driver.chooseDt, Driver.dtStep], by norm_num [Part.seen, drvPart, Driver.chooseDt, Driver.dtStep], ?_, ?_⟩
  · have := (nf_catchup (fun v _ _ => v) (⟨true, 1, 1, 1, 0⟩ : NetField.Cfg ℚ) rfl (by norm_num) ⟨3, 4, 7⟩ [⟨5, 1, 0, 1, 1⟩, ⟨6, 1, 0, 1, 1⟩] 5
      (by norm_num) (by simp; norm_num)).1
    rw [this]; norm_num
  · exact (mc_catchup ⟨0, 1, 1, 1, 1, 100, 1, 1, 1⟩ (by norm_num) ⟨(9, 9, 9), 3, 2⟩ [⟨1, 0, 0, 5⟩, ⟨1, 0, 0, 6⟩] 4 (by norm_num)
      (by simp; norm_num)).2.2.2.2 (by simp)

end Phoebus.Restart
