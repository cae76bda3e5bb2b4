import Verif.Step.Code
import Verif.Sources.Props

/-!
# C140: on a periodic domain only sources and floors change the total of a conserved quantity

Whole runs on blocks (model of `Verif/Step`): total of a conserved variable over all cells, each read in the block that owns it.  In particular angular
and linear momentum along a symmetry of the metric, and the energy of the covariant formulation in a stationary metric.
-/
namespace Phoebus.Step
open FluxSweep Geom
variable {K : Type} [Field K] [LinearOrder K] {N : ℕ}

/-! ### Specification -/

/-- the cells of the domain. -/
noncomputable def boxSet (n : Fin 3 → ℕ) : Finset Pos := Fintype.piFinset fun d => Finset.Ico (0:ℤ) (n d)

/-- total of conserved variable `m` over the domain, each cell read in the block that owns it. -/
noncomputable def total {B : Type} (G : Grid B) (n : Fin 3 → ℕ) (m : ℕ) (X : Mesh K N B) : K :=
  ∑ p ∈ boxSet n, (X.1 (G.own p) fun e => p e - G.off (G.own p) e).1 m

/-- geometry, sources, inversion repeat with the period of the domain; ghost cells hold copies. -/
structure PeriodicPhys (n : Fin 3 → ℕ) (P : Phys K N) : Prop where
  S : ∀ d, Periodic n (P.S d)
  fix : ∀ d, Periodic n (P.fix d)
  rad : ∀ d, Periodic n (P.rad d)
  bnd : ∀ p x, P.bnd p x = x

/-- the sources of variable `m` vanish and floors and exchange with radiation do not change it. -/
def Kept (n : Fin 3 → ℕ) (m : ℕ) (P : Phys K N) : Prop :=
  ∀ p ∈ boxSet n, (∀ v, P.src p v m = 0) ∧ (∀ u, (P.inv p u).1 m = u m) ∧ ∀ x, (P.mid p x).1 m = x.1 m

/-! ### Fluxes on a periodic domain -/

theorem mem_boxSet (n : Fin 3 → ℕ) (p : Pos) : p ∈ boxSet n ↔ Box n p := by
  unfold boxSet Box
  simp [Fintype.mem_piFinset]

/-- position shifted by a period. -/
theorem periodic_at {A : Type} (n : Fin 3 → ℕ) (X : Pos → A) (h : Periodic n X) (p q : Pos) (hpq : wrapPeriodic n p = wrapPeriodic n q) (t : Pos) :
    X (fun e => p e + t e) = X fun e => q e + t e := h _ _ (wrap_shift n p q t hpq)

theorem refFlux_period (n : Fin 3 → ℕ) (P : Phys K N) (hP : PeriodicPhys n P) (X : Fields K N) (hX : Periodic n X) (d : Fin 3) :
    Periodic n (refFlux P X d) := by
  intro p q hpq
  unfold refFlux
  rw [hP.S d p q hpq]
  congr 1
  · funext k; unfold stateL; congr 2; funext r
    exact congrArg (fun x => x.2 k) (periodic_at n X hX p q hpq fun e => (r - 1) * unit d e)
  · funext k; unfold stateR; congr 2; funext r
    exact congrArg (fun x => x.2 k) (periodic_at n X hX p q hpq fun e => r * unit d e)

omit [LinearOrder K] in
theorem refCT_period (n : Fin 3 → ℕ) (nd : ℕ) (mhd : Option ℕ) (Φ : Fin 3 → Pos → ℕ → K) (h : ∀ d, Periodic n (Φ d)) (d : Fin 3) :
    Periodic n (refCT nd mhd Φ d) := by
  have minus : ∀ (c : Fin 3) (p : Pos), (fun e => p e - unit c e) = fun e => p e + (fun e => - unit c e) e := by intro c p; funext e; ring
  have emf : ∀ b0 a c, Periodic n (emfAt Φ b0 a c) := by
    intro b0 a c p q hpq
    unfold emfAt
    simp only [minus]
    rw [h a p q hpq, h c p q hpq, periodic_at n _ (h a) p q hpq, periodic_at n _ (h c) p q hpq]
  intro p q hpq
  funext m
  unfold refCT
  cases mhd with
  | none => simp only [h d p q hpq]
  | some b0 =>
    simp only
    split_ifs with h1 h2
    · rfl
    · rw [emf _ _ _ p q hpq, periodic_at n _ (emf _ _ _) p q hpq]
    · rw [h d p q hpq]

theorem refAll_period (n : Fin 3 → ℕ) (nd : ℕ) (P : Phys K N) (hP : PeriodicPhys n P) (X : Fields K N) (hX : Periodic n X) (d : Fin 3) :
    Periodic n (refAll nd P X d) := by
  intro p q hpq
  unfold refAll
  have hn : near nd P.rt d p X = near nd P.rt d q X := by
    funext r k
    unfold near
    rw [periodic_at n X hX p q hpq r]
  rw [hP.fix d p q hpq, refCT_period n nd P.mhd _ (fun d => refFlux_period n P hP X hX d) d p q hpq, hP.rad d p q hpq, hn]

omit [LinearOrder K] in
/-- summing a periodic function over the domain or over the domain moved by one cell gives the same. -/
theorem sum_moved (n : Fin 3 → ℕ) (hn : ∀ d, 0 < n d) (f : Pos → K) (hf : Periodic n f) (d : Fin 3) :
    ∑ p ∈ boxSet n, f (fun e => p e + unit d e) = ∑ p ∈ boxSet n, f p := by
  obtain ⟨hb, hs⟩ := wrapPeriodic_box n hn
  refine Finset.sum_nbij' (fun p => wrapPeriodic n fun e => p e + unit d e) (fun p => wrapPeriodic n fun e => p e + -unit d e) ?_ ?_ ?_ ?_ ?_
  · intro p _; exact (mem_boxSet n _).2 (hb _)
  · intro p _; exact (mem_boxSet n _).2 (hb _)
  · intro p hp
    have h1 := wrap_shift n _ _ (fun e => -unit d e) (wrap_wrap n fun e => p e + unit d e)
    refine Eq.trans h1 ?_
    have e : (fun e => p e + unit d e + -unit d e) = p := by funext e; ring
    rw [e, hs p ((mem_boxSet n p).1 hp)]
  · intro p hp
    have h1 := wrap_shift n _ _ (unit d) (wrap_wrap n fun e => p e + -unit d e)
    refine Eq.trans h1 ?_
    have e : (fun e => p e + -unit d e + unit d e) = p := by funext e; ring
    rw [e, hs p ((mem_boxSet n p).1 hp)]
  · intro p _
    exact hf _ _ (wrap_wrap n _).symm

/-- **C140 (transport)**: reconstruction, Riemann solver, constrained transport and flux divergence change no total. -/
theorem div_total (n : Fin 3 → ℕ) (hn : ∀ d, 0 < n d) (nd : ℕ) (P : Phys K N) (hP : PeriodicPhys n P) (X : Fields K N) (hX : Periodic n X) (m : ℕ) :
    ∑ p ∈ boxSet n, refDiv nd P.dx (refAll nd P X) m p = 0 := by
  unfold refDiv
  rw [Finset.sum_neg_distrib, Finset.sum_comm, neg_eq_zero]
  refine Finset.sum_eq_zero fun d _ => ?_
  by_cases h : d.val < nd
  · simp only [h, if_true]
    rw [← Finset.sum_div, Finset.sum_sub_distrib,
      sum_moved n hn (fun p => refAll nd P X d p m) (fun p q hpq => congrFun (refAll_period n nd P hP X hX d p q hpq) m) d, sub_self, zero_div]
  · simp [h]

/-! ### Stages, steps and runs without blocks -/

/-- total on the global array. -/
noncomputable def refTotal (n : Fin 3 → ℕ) (m : ℕ) (X : Fields K N) : K := ∑ p ∈ boxSet n, (X p).1 m

/-- what sources and floors add to the total of variable `m` in a stage: the weighted sources, plus the change of the variable by the two inversions and what happens between them. -/
noncomputable def stageGain (n : Fin 3 → ℕ) (nd : ℕ) (m : ℕ) (P : Phys K N) (dt : K) (base cur : Fields K N) : K :=
  ∑ p ∈ boxSet n,
    let u := fun m => P.beta * (cur p).1 m + (1 - P.beta) * (base p).1 m + P.beta * dt * (refDiv nd P.dx (refAll nd P cur) m p + P.src p (cur p).2 m)
    P.beta * dt * P.src p (cur p).2 m + ((P.inv p (P.mid p (P.inv p u)).1).1 m - u m)

/-- **C140 (budget of a stage)**: the new total is the Runge-Kutta combination of the old ones plus what sources and floors add. -/
theorem stage_total (n : Fin 3 → ℕ) (hn : ∀ d, 0 < n d) (nd : ℕ) (P : Phys K N) (hP : PeriodicPhys n P) (dt : K) (base cur : Fields K N)
    (hc : Periodic n cur) (m : ℕ) :
    refTotal n m (refFields nd (wrapPeriodic n) dt base cur P) =
      P.beta * refTotal n m cur + (1 - P.beta) * refTotal n m base + stageGain n nd m P dt base cur := by
  obtain ⟨-, hs⟩ := wrapPeriodic_box n hn
  have hd := div_total n hn nd P hP cur hc m
  unfold refTotal stageGain
  rw [Finset.mul_sum, Finset.mul_sum, ← Finset.sum_add_distrib, ← Finset.sum_add_distrib]
  rw [← sub_eq_zero, ← Finset.sum_sub_distrib]
  refine Eq.trans (Finset.sum_congr rfl fun p hp => ?_) ((Finset.mul_sum _ _ (P.beta * dt)).symm.trans (by rw [hd, mul_zero]))
  unfold refFields
  simp only
  rw [if_pos (hs p ((mem_boxSet n p).1 hp))]
  unfold refUpdate
  ring

theorem fields_period (n : Fin 3 → ℕ) (nd : ℕ) (P : Phys K N) (hP : PeriodicPhys n P) (hinv : Periodic n P.inv) (hmid : Periodic n P.mid)
    (hsrc : Periodic n P.src) (dt : K)
    (base cur : Fields K N) (hb : Periodic n base) (hc : Periodic n cur) : Periodic n (refFields nd (wrapPeriodic n) dt base cur P) := by
  have hu : Periodic n (refUpdate nd P dt base cur) := by
    intro p q hpq
    have hall : ∀ d, refAll nd P cur d p = refAll nd P cur d q := fun d => refAll_period n nd P hP cur hc d p q hpq
    have hall' : ∀ d, refAll nd P cur d (fun e => p e + unit d e) = refAll nd P cur d fun e => q e + unit d e := fun d =>
      periodic_at n _ (refAll_period n nd P hP cur hc d) p q hpq (unit d)
    unfold refUpdate refDiv
    simp only [hall, hall', hinv p q hpq, hmid p q hpq, hsrc p q hpq, hb p q hpq, hc p q hpq]
  intro p q hpq
  unfold refFields
  simp only [hP.bnd]
  have e : ∀ p, (if wrapPeriodic n p = p then refUpdate nd P dt base cur p else refUpdate nd P dt base cur (wrapPeriodic n p)) = refUpdate nd P dt base cur p := by
    intro p
    rw [hu _ _ (wrap_wrap n p), ite_self]
  rw [e, e, hu p q hpq, hinv p q hpq]

/-- gains of the stages of a step. -/
noncomputable def stepGains (n : Fin 3 → ℕ) (nd : ℕ) (m : ℕ) (dt : K) (base : Fields K N) : List (Phys K N) → Fields K N → List K
  | [], _ => []
  | P :: l, cur => stageGain n nd m P dt base cur :: stepGains n nd m dt base l (refFields nd (wrapPeriodic n) dt base cur P)

/-- a stage whose geometry, sources and inversion repeat with the period of the domain. -/
def AllPeriodic (n : Fin 3 → ℕ) (P : Phys K N) : Prop := PeriodicPhys n P ∧ Periodic n P.inv ∧ Periodic n P.mid ∧ Periodic n P.src

theorem stage_fst (nd : ℕ) (wrap : Pos → Pos) (dt : K) (base : Fields K N) (sts : List (Phys K N)) (X : Glob K N) :
    (sts.foldl (refStage nd wrap dt base) X).1 = sts.foldl (refFields nd wrap dt base) X.1 := by
  induction sts generalizing X with
  | nil => rfl
  | cons P l ih => rw [List.foldl_cons, List.foldl_cons, ih]; rfl

/-- **C140 (budget of a step)**: the change of the total since the start of the step is the combination of the gains of the stages. -/
theorem step_total (n : Fin 3 → ℕ) (hn : ∀ d, 0 < n d) (nd : ℕ) (dt : K) (sts : List (Phys K N)) (hP : ∀ P ∈ sts, AllPeriodic n P) (base cur : Fields K N)
    (hb : Periodic n base) (hc : Periodic n cur) (m : ℕ) :
    refTotal n m (sts.foldl (refFields nd (wrapPeriodic n) dt base) cur) - refTotal n m base =
      (sts.zip (stepGains n nd m dt base sts cur)).foldl (fun D s => s.1.beta * D + s.2) (refTotal n m cur - refTotal n m base) ∧
    Periodic n (sts.foldl (refFields nd (wrapPeriodic n) dt base) cur) := by
  induction sts generalizing cur with
  | nil => exact ⟨rfl, hc⟩
  | cons P l ih =>
    obtain ⟨h1, h2, h3, h4⟩ := hP P (by simp)
    have hs := stage_total n hn nd P h1 dt base cur hc m
    obtain ⟨a, b⟩ := ih (fun Q hQ => hP Q (by simp [hQ])) (refFields nd (wrapPeriodic n) dt base cur P) (fields_period n nd P h1 h2 h3 h4 dt base cur hb hc)
    refine ⟨?_, by rw [List.foldl_cons]; exact b⟩
    rw [List.foldl_cons, a]
    simp only [stepGains, List.zip_cons_cons, List.foldl_cons]
    congr 1
    rw [hs]; ring

/-- all stage gains of a run. -/
noncomputable def runGains (n : Fin 3 → ℕ) (nd : ℕ) (m : ℕ) (Dom : Pos → Prop) (est : Pos → (Fin N → K) → (Fin 3 → K × K) → K) (ctrl : ℕ → K → Set K → K)
    (prog : ℕ → K → List (Phys K N)) (k : ℕ) (s : Glob K N × K) : List K :=
  (List.range k).flatMap fun j =>
    let r := refRun nd Dom (wrapPeriodic n) est ctrl prog j s
    stepGains n nd m r.2 r.1.1 (prog j r.2) r.1.1

omit [LinearOrder K] in
theorem foldl_zero (l : List (Phys K N)) (g : List K) (h : ∀ x ∈ g, x = 0) : (l.zip g).foldl (fun D s => s.1.beta * D + s.2) 0 = 0 := by
  induction l generalizing g with
  | nil => rfl
  | cons P l ih =>
    cases g with
    | nil => rfl
    | cons x g =>
      rw [List.zip_cons_cons, List.foldl_cons, h x (by simp), mul_zero, add_zero]
      exact ih g fun y hy => h y (by simp [hy])

theorem refRun_total (n : Fin 3 → ℕ) (hn : ∀ d, 0 < n d) (nd : ℕ) (m : ℕ) (Dom : Pos → Prop) (est : Pos → (Fin N → K) → (Fin 3 → K × K) → K)
    (ctrl : ℕ → K → Set K → K) (prog : ℕ → K → List (Phys K N)) (hP : ∀ j dt, ∀ P ∈ prog j dt, AllPeriodic n P) (Y : Glob K N) (hY : Periodic n Y.1) (dt : K)
    (k : ℕ) (hg : ∀ x ∈ runGains n nd m Dom est ctrl prog k (Y, dt), x = 0) :
    refTotal n m (refRun nd Dom (wrapPeriodic n) est ctrl prog k (Y, dt)).1.1 = refTotal n m Y.1 ∧
      Periodic n (refRun nd Dom (wrapPeriodic n) est ctrl prog k (Y, dt)).1.1 := by
  induction k with
  | zero => exact ⟨rfl, hY⟩
  | succ k ih =>
    obtain ⟨i1, i2⟩ := ih fun x hx => hg x (by
      unfold runGains at hx ⊢
      rw [List.range_succ, List.flatMap_append]
      exact List.mem_append_left _ hx)
    simp only [refRun, refStep, stage_fst]
    set r := refRun nd Dom (wrapPeriodic n) est ctrl prog k (Y, dt) with hr
    obtain ⟨a, b⟩ := step_total n hn nd r.2 (prog k r.2) (hP k r.2) r.1.1 r.1.1 i2 i2 m
    refine ⟨?_, b⟩
    rw [sub_self, foldl_zero] at a
    · rw [sub_eq_zero] at a; rw [a, i1]
    · intro x hx
      apply hg
      unfold runGains
      rw [List.range_succ, List.flatMap_append]
      exact List.mem_append_right _ (by simpa [← hr] using hx)

theorem gains_kept (n : Fin 3 → ℕ) (nd : ℕ) (m : ℕ) (dt : K) (base : Fields K N) (sts : List (Phys K N)) (h : ∀ P ∈ sts, Kept n m P) (cur : Fields K N) :
    ∀ x ∈ stepGains n nd m dt base sts cur, x = 0 := by
  induction sts generalizing cur with
  | nil => intro x hx; simp [stepGains] at hx
  | cons P l ih =>
    intro x hx
    simp only [stepGains, List.mem_cons] at hx
    rcases hx with rfl | hx
    · unfold stageGain
      refine Finset.sum_eq_zero fun p hp => ?_
      obtain ⟨h1, h2, h3⟩ := h P (by simp) p hp
      simp only [h1, h2, h3, mul_zero, zero_add, sub_self]
    · exact ih (fun Q hQ => h Q (by simp [hQ])) _ x hx

/-! ### Runs on blocks -/

theorem total_global {B : Type} (G : Grid B) (nd : ℕ) (g : ℤ) (hg : 0 ≤ g) (n : Fin 3 → ℕ) (hT : Tiles G nd g (Box n)) (X : Mesh K N B) (Y : Glob K N)
    (h : Holds G X Y) (m : ℕ) : total G n m X = refTotal n m Y.1 := by
  unfold total refTotal
  refine Finset.sum_congr rfl fun p hp => ?_
  rw [h.1 _ _ (interior_entire _ (by rw [hT.ghosts]; exact hg) _ (hT.owned p ((mem_boxSet n p).1 hp)))]
  have e : (fun e => p e - G.off (G.own p) e + G.off (G.own p) e) = p := by funext e; ring
  rw [e]

/-- **C140**: on a periodic domain, cut into blocks in any way, with any schedule and memory contents, after any number of steps: if in every stage of the run
sources and floors together add nothing to variable `m`, its total over all cells is what it was. -/
theorem run_total_gains {B : Type} (G : Grid B) (nd : ℕ) (g : ℤ) (hg0 : 0 ≤ g) (n : Fin 3 → ℕ) (hn : ∀ d, 0 < n d) (hT : Tiles G nd g (Box n))
    (hw : G.wrap = wrapPeriodic n) (est : Pos → (Fin N → K) → (Fin 3 → K × K) → K) (ctrl : ℕ → K → Set K → K) (prog : ℕ → K → List (Phys K N))
    (hg : ∀ n dt, ∀ P ∈ prog n dt, 1 + radius P.rt ≤ g) (hP : ∀ j dt, ∀ P ∈ prog j dt, AllPeriodic n P) (mem : ℕ → ℕ → B → Mem K N)
    (ho : Complete G mem) (X : Mesh K N B) (Y : Glob K N) (hY : Periodic n Y.1) (h : Holds G X Y) (dt : K) (m k : ℕ)
    (hgain : ∀ x ∈ runGains n nd m (Box n) est ctrl prog k (Y, dt), x = 0) :
    total G n m (run G est ctrl prog mem k (X, dt)).1 = total G n m X := by
  have hr := (run_holds G nd g (Box n) hT est ctrl prog hg0 hg mem ho X Y dt h k).1
  rw [hw] at hr
  rw [total_global G nd g hg0 n hT _ _ hr, total_global G nd g hg0 n hT X Y h,
    (refRun_total n hn nd m (Box n) est ctrl prog hP Y hY dt k hgain).1]

/-- **C140**: in particular if the variable has no source and is not touched by floors. -/
theorem run_total {B : Type} (G : Grid B) (nd : ℕ) (g : ℤ) (hg0 : 0 ≤ g) (n : Fin 3 → ℕ) (hn : ∀ d, 0 < n d) (hT : Tiles G nd g (Box n))
    (hw : G.wrap = wrapPeriodic n) (est : Pos → (Fin N → K) → (Fin 3 → K × K) → K) (ctrl : ℕ → K → Set K → K) (prog : ℕ → K → List (Phys K N))
    (hg : ∀ n dt, ∀ P ∈ prog n dt, 1 + radius P.rt ≤ g) (hP : ∀ j dt, ∀ P ∈ prog j dt, AllPeriodic n P) (mem : ℕ → ℕ → B → Mem K N)
    (ho : Complete G mem) (X : Mesh K N B) (Y : Glob K N) (hY : Periodic n Y.1) (h : Holds G X Y) (dt : K) (m : ℕ)
    (hk : ∀ j dt, ∀ P ∈ prog j dt, Kept n m P) (k : ℕ) : total G n m (run G est ctrl prog mem k (X, dt)).1 = total G n m X := by
  refine run_total_gains G nd g hg0 n hn hT hw est ctrl prog hg hP mem ho X Y hY h dt m k fun x hx => ?_
  unfold runGains at hx
  rw [List.mem_flatMap] at hx
  obtain ⟨j, -, hx⟩ := hx
  exact gains_kept n nd m _ _ _ (fun P hP => hk j _ P hP) _ x hx

end Phoebus.Step
