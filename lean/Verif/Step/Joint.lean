import Verif.Step.CodeBalance
import Verif.MomentSource.Props

/-!
# C144: total energy and momentum of gas and radiation

Whole runs on blocks: the total of several conserved variables together, where each of them alone may change by exchange between them.
-/
namespace Phoebus.Step
open FluxSweep Geom

section general
variable {K : Type} [Field K] [LinearOrder K] {N : ℕ}

/-! ### Specification -/

/-- the conserved variables of a cell before the first inversion of a stage: Runge-Kutta combination, fluxes and sources. -/
noncomputable def advanced (nd : ℕ) (P : Phys K N) (dt : K) (base cur : Fields K N) (p : Pos) : ℕ → K := fun m =>
  P.beta * (cur p).1 m + (1 - P.beta) * (base p).1 m + P.beta * dt * (refDiv nd P.dx (refAll nd P cur) m p + P.src p (cur p).2 m)

/-- in every cell of the domain neither the sources, nor the first inversion, nor the exchange with radiation, nor the second inversion of this stage changes the sum of the
variables `M`. -/
def Neutral (n : Fin 3 → ℕ) (nd : ℕ) (M : Finset ℕ) (P : Phys K N) (dt : K) (base cur : Fields K N) : Prop := ∀ p ∈ boxSet n,
  let u := advanced nd P dt base cur p
  let x := P.inv p u
  let y := P.mid p x
  ∑ m ∈ M, P.src p (cur p).2 m = 0 ∧ ∑ m ∈ M, x.1 m = ∑ m ∈ M, u m ∧ ∑ m ∈ M, y.1 m = ∑ m ∈ M, x.1 m ∧
    ∑ m ∈ M, (P.inv p y.1).1 m = ∑ m ∈ M, y.1 m

/-- stages of a step, each with the fields it starts from. -/
noncomputable def stepStages (nd : ℕ) (wrap : Pos → Pos) (dt : K) (base : Fields K N) : List (Phys K N) → Fields K N → List (Phys K N × Fields K N)
  | [], _ => []
  | P :: l, cur => (P, cur) :: stepStages nd wrap dt base l (refFields nd wrap dt base cur P)

/-- all stages of the first `k` steps of the run without blocks are neutral. -/
def RunNeutral (n : Fin 3 → ℕ) (nd : ℕ) (M : Finset ℕ) (est : Pos → (Fin N → K) → (Fin 3 → K × K) → K) (ctrl : ℕ → K → Set K → K)
    (prog : ℕ → K → List (Phys K N)) (k : ℕ) (s : Glob K N × K) : Prop := ∀ j < k,
  let r := refRun nd (Box n) (wrapPeriodic n) est ctrl prog j s
  ∀ q ∈ stepStages nd (wrapPeriodic n) r.2 r.1.1 (prog j r.2) r.1.1, Neutral n nd M q.1 r.2 r.1.1 q.2

/-! ### Proof -/

theorem neutral_gain (n : Fin 3 → ℕ) (nd : ℕ) (M : Finset ℕ) (P : Phys K N) (dt : K) (base cur : Fields K N) (h : Neutral n nd M P dt base cur) :
    ∑ m ∈ M, stageGain n nd m P dt base cur = 0 := by
  unfold stageGain
  rw [Finset.sum_comm]
  refine Finset.sum_eq_zero fun p hp => ?_
  obtain ⟨h1, h2, h3, h4⟩ := h p hp
  simp only
  rw [Finset.sum_add_distrib, ← Finset.mul_sum, h1, mul_zero, zero_add, Finset.sum_sub_distrib, sub_eq_zero]
  exact h4.trans (h3.trans h2)

theorem joint_stage (n : Fin 3 → ℕ) (hn : ∀ d, 0 < n d) (nd : ℕ) (M : Finset ℕ) (P : Phys K N) (hP : PeriodicPhys n P) (dt : K) (base cur : Fields K N)
    (hc : Periodic n cur) (h : Neutral n nd M P dt base cur) :
    ∑ m ∈ M, refTotal n m (refFields nd (wrapPeriodic n) dt base cur P) =
      P.beta * ∑ m ∈ M, refTotal n m cur + (1 - P.beta) * ∑ m ∈ M, refTotal n m base := by
  simp only [stage_total n hn nd P hP dt base cur hc]
  rw [Finset.sum_add_distrib, Finset.sum_add_distrib, neutral_gain n nd M P dt base cur h, add_zero, Finset.mul_sum, Finset.mul_sum]

theorem joint_step (n : Fin 3 → ℕ) (hn : ∀ d, 0 < n d) (nd : ℕ) (M : Finset ℕ) (dt : K) (sts : List (Phys K N)) (hP : ∀ P ∈ sts, AllPeriodic n P) (base cur : Fields K N)
    (hb : Periodic n base) (hc : Periodic n cur) (h : ∀ q ∈ stepStages nd (wrapPeriodic n) dt base sts cur, Neutral n nd M q.1 dt base q.2)
    (he : ∑ m ∈ M, refTotal n m cur = ∑ m ∈ M, refTotal n m base) :
    ∑ m ∈ M, refTotal n m (sts.foldl (refFields nd (wrapPeriodic n) dt base) cur) = ∑ m ∈ M, refTotal n m base := by
  induction sts generalizing cur with
  | nil => exact he
  | cons P l ih =>
    obtain ⟨h1, h2, h3, h4⟩ := hP P (by simp)
    rw [List.foldl_cons]
    refine ih (fun Q hQ => hP Q (by simp [hQ])) _ (fields_period n nd P h1 h2 h3 h4 dt base cur hb hc) (fun q hq => h q (by simp [stepStages, hq])) ?_
    rw [joint_stage n hn nd M P h1 dt base cur hc (h (P, cur) (by simp [stepStages])), he]
    ring

theorem joint_refRun (n : Fin 3 → ℕ) (hn : ∀ d, 0 < n d) (nd : ℕ) (M : Finset ℕ) (est : Pos → (Fin N → K) → (Fin 3 → K × K) → K)
    (ctrl : ℕ → K → Set K → K) (prog : ℕ → K → List (Phys K N)) (hP : ∀ j dt, ∀ P ∈ prog j dt, AllPeriodic n P) (Y : Glob K N) (hY : Periodic n Y.1) (dt : K)
    (k : ℕ) (h : RunNeutral n nd M est ctrl prog k (Y, dt)) :
    ∑ m ∈ M, refTotal n m (refRun nd (Box n) (wrapPeriodic n) est ctrl prog k (Y, dt)).1.1 = ∑ m ∈ M, refTotal n m Y.1 ∧
      Periodic n (refRun nd (Box n) (wrapPeriodic n) est ctrl prog k (Y, dt)).1.1 := by
  induction k with
  | zero => exact ⟨rfl, hY⟩
  | succ k ih =>
    obtain ⟨i1, i2⟩ := ih fun j hj => h j (by omega)
    have hk := h k (by omega)
    simp only [refRun, refStep, stage_fst]
    refine ⟨?_, (step_total n hn nd _ _ (hP k _) _ _ i2 i2 0).2⟩
    rw [← i1]
    exact joint_step n hn nd M _ _ (hP k _) _ _ i2 i2 hk rfl

/-- **C144**: on a periodic domain, cut into blocks in any way, with any schedule and memory contents, after any number of steps: if in every stage of the run sources,
inversions and exchange with radiation leave the sum of the variables `M` alone in every cell, the sum of their totals is what it was. -/
theorem run_joint_total {B : Type} (G : Grid B) (nd : ℕ) (g : ℤ) (hg0 : 0 ≤ g) (n : Fin 3 → ℕ) (hn : ∀ d, 0 < n d) (hT : Tiles G nd g (Box n))
    (hw : G.wrap = wrapPeriodic n) (est : Pos → (Fin N → K) → (Fin 3 → K × K) → K) (ctrl : ℕ → K → Set K → K) (prog : ℕ → K → List (Phys K N))
    (hg : ∀ n dt, ∀ P ∈ prog n dt, 1 + radius P.rt ≤ g) (hP : ∀ j dt, ∀ P ∈ prog j dt, AllPeriodic n P) (mem : ℕ → ℕ → B → Mem K N)
    (ho : Complete G mem) (X : Mesh K N B) (Y : Glob K N) (hY : Periodic n Y.1) (h : Holds G X Y) (dt : K) (M : Finset ℕ) (k : ℕ)
    (hN : RunNeutral n nd M est ctrl prog k (Y, dt)) :
    ∑ m ∈ M, total G n m (run G est ctrl prog mem k (X, dt)).1 = ∑ m ∈ M, total G n m X := by
  have hr := (run_holds G nd g (Box n) hT est ctrl prog hg0 hg mem ho X Y dt h k).1
  rw [hw] at hr
  simp only [total_global G nd g hg0 n hT _ _ hr, total_global G nd g hg0 n hT X Y h]
  exact (joint_refRun n hn nd M est ctrl prog hP Y hY dt k hN).1

end general

/-! ### Exchange with radiation as in the code -/

variable {N : ℕ}

/-- slot of fluid energy (`0`) and momentum (`1` to `3`); order of `Verif/Step/Code`. -/
def fluidSlot (n : Fin 4) : ℕ := if n = 0 then 4 else n.val

/-- slot of radiation energy and momentum of species `k`: after the variables of the fluid.
(Stands for `idx_E`, `idx_F` of moments_source.cpp:214-216.) -/
def radSlot (k : ℕ) (n : Fin 4) : ℕ := 9 + 4 * k + n.val

/-- energy and momentum of a cell as the exchange reads them. -/
def gather (u : ℕ → ℝ) : MomentSource.Cell := ⟨fun n => u (fluidSlot n), fun k n => u (radSlot k n)⟩

/-- … and writes them.  (`cye` is decremented by zero, line 812.) -/
def scatter (nspec : ℕ) (s : MomentSource.Cell) (u : ℕ → ℝ) : ℕ → ℝ := fun m =>
  if 1 ≤ m ∧ m ≤ 3 then s.fluid (Fin.ofNat 4 m) else if m = 4 then s.fluid 0
  else if 9 ≤ m ∧ m < 9 + 4 * nspec then s.rad ((m - 9) / 4) (Fin.ofNat 4 ((m - 9) % 4)) else u m

/-- Data type: what the exchange with radiation in a cell depends on: number of species, is the fluid updated, determinant, outcome and increments of the source
solver (functions of the cell, the time step is in them), success of the recovery of the primitive variables, conserved variables of the floor state,
primitive variables afterwards, and the floors. -/
structure Exchange (N : ℕ) where
  nspec : ℕ
  upd : Bool
  sdet : Pos → ℝ
  solve : Pos → Cell ℝ N → Bool × (ℕ → MomentSource.V4)
  recov : Pos → Cell ℝ N → MomentSource.Cell → ℕ → Bool
  floorF : Pos → Cell ℝ N → MomentSource.V4
  floorR : Pos → Cell ℝ N → MomentSource.V4
  prim : Pos → Cell ℝ N → (ℕ → ℝ) → Fin N → ℝ
  floor : Pos → Cell ℝ N → Cell ℝ N

/-- `MomentFluidSource` in a cell, moments_source.cpp:789-996.
(The mass, field and electron number written by the branch that resets the cell are not modelled.) -/
def Exchange.bare (E : Exchange N) (p : Pos) (x : Cell ℝ N) : Cell ℝ N :=
  let t := MomentSource.applyAll (E.sdet p) (E.solve p x).1 E.upd (E.solve p x).2 (E.recov p x) (E.floorF p x) (E.floorR p x) E.nspec (gather x.1)
  let u := scatter E.nspec t x.1
  (u, E.prim p x u)

/-- … followed by `ApplyFloors`, phoebus_driver.cpp:613-620. -/
def Exchange.mid (E : Exchange N) (p : Pos) (x : Cell ℝ N) : Cell ℝ N := E.floor p (E.bare p x)

/-- state of the cell when the recovery of species `k` is attempted: increments of the species up to `k` applied. -/
noncomputable def Exchange.partway (E : Exchange N) (p : Pos) (x : Cell ℝ N) (k : ℕ) : MomentSource.Cell :=
  ⟨fun n => x.1 (fluidSlot n) - ∑ j ∈ Finset.range (k + 1), E.sdet p * (E.solve p x).2 j n,
   fun q n => x.1 (radSlot q n) + if q < k + 1 then E.sdet p * (E.solve p x).2 q n else 0⟩

/-- the exchange in a cell succeeds: the fluid is updated, the solver succeeds, the recovery of every species succeeds and floors do not act. -/
structure Exchange.Good (E : Exchange N) (p : Pos) (x : Cell ℝ N) : Prop where
  upd : E.upd = true
  solved : (E.solve p x).1 = true
  recov : ∀ k < E.nspec, E.recov p x (E.partway p x k) k = true
  floor : (E.floor p (E.bare p x)).1 = (E.bare p x).1

/-- gas plus radiation: component `n` of energy (`0`) and momentum. -/
def jointSlots (nspec : ℕ) (n : Fin 4) : Finset ℕ := insert (fluidSlot n) ((Finset.range nspec).image fun k => radSlot k n)

theorem sum_joint {K : Type} [AddCommMonoid K] (nspec : ℕ) (n : Fin 4) (f : ℕ → K) :
    ∑ m ∈ jointSlots nspec n, f m = f (fluidSlot n) + ∑ k ∈ Finset.range nspec, f (radSlot k n) := by
  unfold jointSlots
  rw [Finset.sum_insert, Finset.sum_image]
  · intro a _ b _ h
    simp only [radSlot] at h; omega
  · intro h
    obtain ⟨k, -, hk⟩ := Finset.mem_image.1 h
    unfold radSlot fluidSlot at hk
    have := n.isLt
    split_ifs at hk <;> omega

theorem scatter_fluid (nspec : ℕ) (s : MomentSource.Cell) (u : ℕ → ℝ) (n : Fin 4) : scatter nspec s u (fluidSlot n) = s.fluid n := by
  fin_cases n <;> simp [scatter, fluidSlot] <;> rfl

theorem scatter_rad (nspec : ℕ) (s : MomentSource.Cell) (u : ℕ → ℝ) (k : ℕ) (hk : k < nspec) (n : Fin 4) : scatter nspec s u (radSlot k n) = s.rad k n := by
  have hn := n.isLt
  unfold scatter radSlot
  rw [if_neg (by omega), if_neg (by omega), if_pos (by omega)]
  have e1 : (9 + 4 * k + n.val - 9) / 4 = k := by omega
  have e2 : (9 + 4 * k + n.val - 9) % 4 = n.val := by omega
  rw [e1, e2]
  congr 1
  ext; simp

/-- the exchange changes nothing but energy and momentum of fluid and radiation. -/
theorem scatter_other (nspec : ℕ) (s : MomentSource.Cell) (u : ℕ → ℝ) (m : ℕ) (h1 : m = 0 ∨ 5 ≤ m) (h2 : m < 9 ∨ 9 + 4 * nspec ≤ m) : scatter nspec s u m = u m := by
  unfold scatter
  rw [if_neg (by omega), if_neg (by omega), if_neg (by omega)]

/-- energy and momentum after a successful exchange: the fluid loses what the species gain. -/
theorem exchange_good (E : Exchange N) (p : Pos) (x : Cell ℝ N) (h : E.Good p x) (n : Fin 4) :
    (E.mid p x).1 (fluidSlot n) = x.1 (fluidSlot n) - ∑ k ∈ Finset.range E.nspec, E.sdet p * (E.solve p x).2 k n ∧
    ∀ k < E.nspec, (E.mid p x).1 (radSlot k n) = x.1 (radSlot k n) + E.sdet p * (E.solve p x).2 k n := by
  set d := (E.solve p x).2 with hd
  have key : ∀ j ≤ E.nspec, MomentSource.applyAll (E.sdet p) true true d (E.recov p x) (E.floorF p x) (E.floorR p x) j (gather x.1) =
      ⟨fun n => x.1 (fluidSlot n) - ∑ k ∈ Finset.range j, E.sdet p * d k n, fun q n => x.1 (radSlot q n) + if q < j then E.sdet p * d q n else 0⟩ := by
    intro j
    induction j with
    | zero => intro _; simp [MomentSource.applyAll, gather]
    | succ j ih =>
      intro hj
      have e : ∀ s, MomentSource.applyAll (E.sdet p) true true d (E.recov p x) (E.floorF p x) (E.floorR p x) (j + 1) s =
          MomentSource.applySpecies (E.sdet p) true true d (E.recov p x) (E.floorF p x) (E.floorR p x)
            (MomentSource.applyAll (E.sdet p) true true d (E.recov p x) (E.floorF p x) (E.floorR p x) j s) j := by
        intro s; simp [MomentSource.applyAll, List.range_succ]
      rw [e, ih (by omega)]
      have hp : (⟨fun n => x.1 (fluidSlot n) - ∑ k ∈ Finset.range j, E.sdet p * d k n - E.sdet p * d j n,
          fun q => if q = j then fun n => (x.1 (radSlot q n) + if q < j then E.sdet p * d q n else 0) + E.sdet p * d j n else
            fun n => x.1 (radSlot q n) + if q < j then E.sdet p * d q n else 0⟩ : MomentSource.Cell) = E.partway p x j := by
        unfold Exchange.partway
        simp only [MomentSource.Cell.mk.injEq, ← hd]
        refine ⟨?_, ?_⟩
        · funext n; rw [Finset.sum_range_succ]; ring
        · funext q n
          by_cases hq : q = j
          · subst hq; simp
          · have : (q < j + 1) ↔ q < j := by omega
            simp [hq, this]
      unfold MomentSource.applySpecies
      simp only [if_true]
      rw [hp, if_pos (h.recov j (by omega))]
      rfl
  have hm : (E.mid p x).1 = scatter E.nspec _ x.1 := h.floor
  rw [hm, h.solved, h.upd, key _ le_rfl]
  refine ⟨scatter_fluid _ _ _ n, fun k hk => ?_⟩
  rw [scatter_rad _ _ _ k hk]
  simp [hk]

/-- **C144 (a cell)**: a successful exchange changes neither the energy nor the momentum of gas and radiation together, for any number of species. -/
theorem exchange_neutral (E : Exchange N) (p : Pos) (x : Cell ℝ N) (h : E.Good p x) (n : Fin 4) :
    ∑ m ∈ jointSlots E.nspec n, (E.mid p x).1 m = ∑ m ∈ jointSlots E.nspec n, x.1 m := by
  obtain ⟨h1, h2⟩ := exchange_good E p x h n
  rw [sum_joint, sum_joint, h1, Finset.sum_congr rfl fun k hk => h2 k (Finset.mem_range.1 hk), Finset.sum_add_distrib]
  ring

/-- every exchange of the first `k` steps succeeds, and neither sources nor inversions change component `n` of the energy-momentum of gas or radiation. -/
def RunGood (n : Fin 3 → ℕ) (nd : ℕ) (c : Fin 4) (est : Pos → (Fin N → ℝ) → (Fin 3 → ℝ × ℝ) → ℝ) (ctrl : ℕ → ℝ → Set ℝ → ℝ)
    (prog : ℕ → ℝ → List (Exchange N × Phys ℝ N)) (nspec : ℕ) (k : ℕ) (s : Glob ℝ N × ℝ) : Prop := ∀ j < k,
  let r := refRun nd (Box n) (wrapPeriodic n) est ctrl (fun j dt => (prog j dt).map fun q => { q.2 with mid := q.1.mid }) j s
  ∀ E Q cur, (E, Q) ∈ prog j r.2 → ({ Q with mid := E.mid }, cur) ∈ stepStages nd (wrapPeriodic n) r.2 r.1.1 ((prog j r.2).map fun q => { q.2 with mid := q.1.mid }) r.1.1 →
    ∀ p ∈ boxSet n, let P : Phys ℝ N := { Q with mid := E.mid }
      E.nspec = nspec ∧ E.Good p (P.inv p (advanced nd P r.2 r.1.1 cur p)) ∧
      ∀ m ∈ jointSlots nspec c, P.src p (cur p).2 m = 0 ∧ (P.inv p (advanced nd P r.2 r.1.1 cur p)).1 m = advanced nd P r.2 r.1.1 cur p m ∧
        (P.inv p (P.mid p (P.inv p (advanced nd P r.2 r.1.1 cur p))).1).1 m = (P.mid p (P.inv p (advanced nd P r.2 r.1.1 cur p))).1 m

theorem stages_mem {K : Type} [Field K] [LinearOrder K] (nd : ℕ) (wrap : Pos → Pos) (dt : K) (base : Fields K N) (l : List (Phys K N)) (cur : Fields K N)
    (q : Phys K N × Fields K N) (h : q ∈ stepStages nd wrap dt base l cur) : q.1 ∈ l := by
  induction l generalizing cur with
  | nil => simp [stepStages] at h
  | cons P l ih =>
    simp only [stepStages, List.mem_cons] at h
    rcases h with rfl | h
    · simp
    · exact List.mem_cons_of_mem _ (ih _ h)

/-- **C144 (the code)**: gas and radiation with the exchange of the code, on a periodic domain cut in any way: as long as the exchange succeeds in every cell and stage,
floors do not act and the geometry gives no source, every component of total energy and momentum of gas and all radiation species is what it was at the start. -/
theorem gas_radiation_total {B : Type} (G : Grid B) (nd : ℕ) (g : ℤ) (hg0 : 0 ≤ g) (n : Fin 3 → ℕ) (hn : ∀ d, 0 < n d) (hT : Tiles G nd g (Box n))
    (hw : G.wrap = wrapPeriodic n) (est : Pos → (Fin N → ℝ) → (Fin 3 → ℝ × ℝ) → ℝ) (ctrl : ℕ → ℝ → Set ℝ → ℝ) (prog : ℕ → ℝ → List (Exchange N × Phys ℝ N))
    (hg : ∀ n dt, ∀ q ∈ prog n dt, 1 + radius q.2.rt ≤ g) (hP : ∀ j dt, ∀ q ∈ prog j dt, AllPeriodic n { q.2 with mid := q.1.mid }) (mem : ℕ → ℕ → B → Mem ℝ N)
    (ho : Complete G mem) (X : Mesh ℝ N B) (Y : Glob ℝ N) (hY : Periodic n Y.1) (h : Holds G X Y) (dt : ℝ) (nspec : ℕ) (c : Fin 4) (k : ℕ)
    (hN : RunGood n nd c est ctrl prog nspec k (Y, dt)) :
    let R := run G est ctrl (fun j dt => (prog j dt).map fun q => { q.2 with mid := q.1.mid }) mem k (X, dt)
    total G n (fluidSlot c) R.1 + ∑ s ∈ Finset.range nspec, total G n (radSlot s c) R.1 =
      total G n (fluidSlot c) X + ∑ s ∈ Finset.range nspec, total G n (radSlot s c) X := by
  intro R
  rw [← sum_joint nspec c fun m => total G n m R.1, ← sum_joint nspec c fun m => total G n m X]
  refine run_joint_total G nd g hg0 n hn hT hw est ctrl _ ?_ ?_ mem ho X Y hY h dt _ k ?_
  · intro j dt Q hQ
    obtain ⟨q, hq, rfl⟩ := List.mem_map.1 hQ
    exact hg j dt q hq
  · intro j dt Q hQ
    obtain ⟨q, hq, rfl⟩ := List.mem_map.1 hQ
    exact hP j dt q hq
  · intro j hj r q hq p hp
    obtain ⟨⟨E, Q⟩, hm, e⟩ := List.mem_map.1 (stages_mem _ _ _ _ _ _ _ hq)
    obtain ⟨P, cur⟩ := q
    simp only at e
    subst e
    obtain ⟨rfl, hgood, hs⟩ := hN j hj E Q cur hm hq p hp
    refine ⟨Finset.sum_eq_zero fun m hm => (hs m hm).1, Finset.sum_congr rfl fun m hm => (hs m hm).2.1, exchange_neutral E p _ hgood c,
      Finset.sum_congr rfl fun m hm => (hs m hm).2.2⟩

/-! ### Geometric sources of gas and radiation -/

/-- Data type: where the stored primitive variables of the fluid and the fields of every species are found among the variables of a cell: fluid velocity, densitised
energy and flux, `J`, `H / J`, closure tensor. -/
structure Fields2 (N : ℕ) where
  fluid : (Fin N → ℝ) → Fin 11 → ℝ
  vel : (Fin N → ℝ) → Closure.Vec
  E : ℕ → (Fin N → ℝ) → ℝ
  F : ℕ → (Fin N → ℝ) → Closure.Vec
  J : ℕ → (Fin N → ℝ) → ℝ
  h : ℕ → (Fin N → ℝ) → Closure.Vec
  Pi : ℕ → (Fin N → ℝ) → Closure.Tens2

/-- geometric sources of fluid, fluid.cpp:594-646, and radiation, moments.cpp:838-887, in the slots of `fluidSlot` and `radSlot`; both tasks write to the same
container, phoebus_driver.cpp:249-259, 323, 358. -/
noncomputable def jointSrc (val : Bool) (small : ℝ) (C : CellGeom) (sdet : Pos → ℝ) (V : Fields2 N) (nspec : ℕ) : Pos → (Fin N → ℝ) → ℕ → ℝ := fun p v m =>
  if m < 9 then Step.fluidSrc val small C p (V.fluid v) m
  else if m < 9 + 4 * nspec then
    let k := (m - 9) / 4
    let R := Sources.radSources (C.G p) (V.vel v) (sdet p) (C.dg p) (C.da p) (V.E k v) (V.F k v) (V.J k v) (V.h k v) (V.Pi k v)
    if (m - 9) % 4 = 0 then R.1 else R.2 (Fin.ofNat 3 ((m - 9) % 4 - 1))
  else 0

/-- **C144 (sources)**: along a direction on which the metric does not depend neither gas nor radiation has a momentum source; in flat space in Cartesian coordinates
neither has an energy source. -/
theorem joint_src_zero (val : Bool) (small : ℝ) (C : CellGeom) (sdet : Pos → ℝ) (V : Fields2 N) (hPi : ∀ k v i j, V.Pi k v i j = V.Pi k v j i) (nspec : ℕ) (p : Pos)
    (hG : (C.G p).Valid) (hd : Sources.SymmD (C.dg p)) (v : Fin N → ℝ) (c : Fin 4)
    (hc : (∃ l : Fin 3, c = l.succ ∧ ∀ a b, C.dg p a b l.succ = 0) ∨ c = 0 ∧ C.dg p = (fun _ _ _ => 0) ∧ C.da p = fun _ => 0) :
    ∀ m ∈ jointSlots nspec c, jointSrc val small C sdet V nspec p v m = 0 := by
  have hrad : ∀ k < nspec, jointSrc val small C sdet V nspec p v (radSlot k c) =
      (let R := Sources.radSources (C.G p) (V.vel v) (sdet p) (C.dg p) (C.da p) (V.E k v) (V.F k v) (V.J k v) (V.h k v) (V.Pi k v)
       if c.val = 0 then R.1 else R.2 (Fin.ofNat 3 (c.val - 1))) := by
    intro k hk
    have hn := c.isLt
    unfold jointSrc radSlot
    have e1 : (9 + 4 * k + c.val - 9) / 4 = k := by omega
    have e2 : (9 + 4 * k + c.val - 9) % 4 = c.val := by omega
    rw [if_neg (by omega), if_pos (by omega), e1, e2]
  have hT : Sources.SymmT (Rel.tmunu small (C.G p) (faceState (V.fluid v)).q) := fun a b => Rel.tmunu_symm small (C.G p) _ hG a b
  intro m hm
  rcases Finset.mem_insert.1 hm with rfl | hm
  · rcases hc with ⟨l, rfl, hl⟩ | ⟨rfl, h0, h1⟩
    · have key := Sources.momentum_source_symmetry (C.gdet p) (C.dg p) _ hd hT l hl
      fin_cases l <;> simpa [jointSrc, fluidSlot, fluidSrc] using key
    · have key := Sources.sources_flat (C.G p) (C.gdet p) (Rel.tmunu small (C.G p) (faceState (V.fluid v)).q)
      unfold jointSrc fluidSlot fluidSrc
      simp only [if_true, h0, h1, key.2.1]
      have : Sources.energySourceValencia small (C.G p) (C.gdet p) (fun _ _ _ => 0) (fun _ => 0) (Rel.tmunu small (C.G p) (faceState (V.fluid v)).q) = 0 := by
        simp [Sources.energySourceValencia, GeomUtils.connection]
      rw [this]; simp
  · obtain ⟨k, hk, rfl⟩ := Finset.mem_image.1 hm
    rw [hrad k (Finset.mem_range.1 hk)]
    rcases hc with ⟨l, rfl, hl⟩ | ⟨rfl, h0, h1⟩
    · have key := (Sources.rad_momentum_symmetry (C.G p) hG (V.vel v) (sdet p) (C.dg p) (C.da p) (V.E k v) (V.F k v) (V.J k v) (V.h k v) (V.Pi k v)
        (hPi k v) hd l).2 hl
      have e : Fin.ofNat 3 (l.succ.val - 1) = l := by ext; simp
      simp only [e]
      rw [if_neg (by simp)]
      exact key
    · simp [Sources.radSources, Sources.radEnergySource, h0, h1, GeomUtils.connection]

/-! ### Example -/

/-- exchange of the example: the gas gives a tenth of its energy and momentum to the only species. -/
noncomputable def exExchange : Exchange 13 where
  nspec := 1
  upd := true
  sdet := fun _ => 2
  solve := fun _ x => (true, fun _ n => x.1 (fluidSlot n) / 20)
  recov := fun _ _ _ _ => true
  floorF := fun _ _ _ => 0
  floorR := fun _ _ _ => 0
  prim := fun _ _ u n => u n.val
  floor := fun _ x => x

/-- everything moves to the right, and the radiation energy flows against the gradient of the energy density as well; no sources; exact inversion. -/
noncomputable def exFlow : Phys ℝ 13 :=
  ⟨1/2, 0, 0, .linear, fun _ _ l _ m => if h : m < 13 then l ⟨m, h⟩ else 0, fun _ _ _ _ => 1, fun _ _ F => F, fun _ _ _ => 0, fun _ u => (u, fun n => u n.val),
    fun _ x => x, none, fun _ => 1, fun _ x => x, fun d _ st m => if m = radSlot 0 0 then (st (fun e => -unit d e) 9 - st (fun _ => 0) 9) / 100 else 0⟩

/-- the hypotheses are met by every run of the example; the energies of gas and radiation alone do change. -/
theorem ex_joint (n : Fin 3 → ℕ) (nd : ℕ) (c : Fin 4) (est : Pos → (Fin 13 → ℝ) → (Fin 3 → ℝ × ℝ) → ℝ) (ctrl : ℕ → ℝ → Set ℝ → ℝ) (k : ℕ) (s : Glob ℝ 13 × ℝ) :
    RunGood n nd c est ctrl (fun _ _ => [(exExchange, exFlow), (exExchange, exFlow)]) 1 k s ∧ AllPeriodic n { exFlow with mid := exExchange.mid } ∧
    (exExchange.mid (fun _ => 0) (fun _ => 1, fun _ => 0)).1 (fluidSlot c) = 9/10 ∧ (exExchange.mid (fun _ => 0) (fun _ => 1, fun _ => 0)).1 (radSlot 0 c) = 11/10 := by
  have hgood : ∀ p x, exExchange.Good p x := fun p x => ⟨rfl, rfl, fun _ _ => rfl, rfl⟩
  refine ⟨?_, ⟨⟨fun _ _ _ _ => rfl, fun _ _ _ _ => rfl, fun _ _ _ _ => rfl, fun _ _ => rfl⟩, fun _ _ _ => rfl, fun _ _ _ => rfl, fun _ _ _ => rfl⟩, ?_, ?_⟩
  · intro j _ r E Q cur hm _ p _
    have : E = exExchange ∧ Q = exFlow := by simpa using hm
    obtain ⟨rfl, rfl⟩ := this
    exact ⟨rfl, hgood _ _, fun m _ => ⟨rfl, rfl, rfl⟩⟩
  · rw [(exchange_good exExchange _ _ (hgood _ _) c).1]
    simp [exExchange]; norm_num
  · rw [(exchange_good exExchange _ _ (hgood _ _) c).2 0 (by simp [exExchange])]
    simp [exExchange]; norm_num

end Phoebus.Step
