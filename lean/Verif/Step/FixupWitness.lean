import Verif.Step.FixupProps

/-!
# C135: the repair of a failed cell does depend on the decomposition

Four cells in a row, all empty; a source puts 6 units into the cell at position 1 and 1 unit into every other; the inversion fails above 5; a failed cell is
repaired by the mean of its valid neighbours.  In one block of four cells the repaired value is 1.  In two blocks of two cells it is 1/2:
the right neighbour is a ghost cell which still holds the value of the previous stage.
-/
namespace Phoebus.Step
open FluxSweep

/-- no fluxes, a source.
(Example.) -/
def wPhys : Phys ℚ 1 :=
  ⟨1, 0, 0, .constant, fun _ _ _ _ _ => 0, fun _ _ _ _ => 0, fun _ _ F => F, fun p _ m => if m = 0 then (if p 0 = 1 then 6 else 1) else 0, fun _ u => (u, fun _ => 0),
    fun _ x => x, none, fun _ => 1, fun _ x => x, fun _ _ _ _ => 0⟩

/-- the conserved variable is the primitive one; inversion fails above 5; repair by the mean of the valid neighbours as in fixup_c2p.cpp:217-255.
(Example.) -/
def wFix : Fix ℚ 1 where
  inv := fun _ u _ => ((u, fun _ => u 0), decide (u 0 ≤ 5))
  mend := fun _ x nb => match nb 0 with
    | (some a, some b) => (fun m => if m = 0 then (a.2 0 + b.2 0) / 2 else x.1 m, fun _ => (a.2 0 + b.2 0) / 2)
    | (some a, none) => (fun m => if m = 0 then a.2 0 else x.1 m, a.2)
    | (none, some b) => (fun m => if m = 0 then b.2 0 else x.1 m, b.2)
    | (none, none) => (fun _ => 0, fun _ => 0)
  floor := fun _ x => x

theorem wFix_guessless : Guessless wFix := fun _ _ _ _ => rfl

/-- one block of four cells, or two of two: all in one row, one ghost cell. -/
def wGrid (nb w : ℕ) [NeZero nb] : Grid ((d : Fin 3) → Fin ((![nb, 1, 1] : Fin 3 → ℕ) d)) :=
  haveI : ∀ d, NeZero ((![nb, 1, 1] : Fin 3 → ℕ) d) := fun d => by fin_cases d <;> simp <;> infer_instance
  regular 1 1 ![nb, 1, 1] ![w, 1, 1] (wrapPeriodic ![4, 1, 1])

/-- the state before: empty. -/
def wEmpty {B : Type} : Mesh ℚ 1 B := (fun _ _ => (fun _ => 0, fun _ => 0), fun _ _ _ => 0)

/-- the stage: memory as in `M`, ghost cells as Parthenon's update leaves them (nothing added).
(Example.) -/
def wStage {B : Type} (M : B → Mem ℚ 1) : FixStage ℚ 1 B := ⟨wPhys, wFix, M, fun _ _ _ => 0⟩

theorem w_rate (b : Blk) (hb : b.g = 1) (off : Pos) (M : Mem ℚ 1) (ho : Covers b M.order) (m : ℕ) (c : Pos) (h : b.Interior c) :
    rate wPhys.dx b (blockFlux wPhys b off M fun _ => (fun _ => 0, fun _ => 0)) m c = 0 := by
  rw [rate_global wPhys b (by rw [hb]; decide) off M ho _ (fun _ => (fun _ => 0, fun _ => 0)) (fun _ _ => rfl) m c h]
  unfold refDiv refAll refCT refFlux
  simp [wPhys]

theorem w_interior (nb w : ℕ) [NeZero nb] (i) (c : Pos) : ((wGrid nb w).shape i).Interior c ↔ (1 ≤ c 0 ∧ c 0 ≤ w) ∧ c 1 = 0 ∧ c 2 = 0 := by
  unfold wGrid regular Blk.Interior Blk.s Blk.e Blk.act
  simp only [Fin.forall_fin_succ, Fin.val_zero, Fin.val_succ]
  simp
  omega

/-- conserved density after the update in an interior cell of block 0 and in a ghost cell. -/
theorem w_first (nb w : ℕ) [NeZero nb] (hw : 2 ≤ w) (M : ((d : Fin 3) → Fin ((![nb, 1, 1] : Fin 3 → ℕ) d)) → Mem ℚ 1)
    (ho : ∀ i, Covers ((wGrid nb w).shape i) (M i).order) (i) (hi : i 0 = ⟨0, Nat.pos_of_ne_zero (NeZero.ne nb)⟩) :
    (fixUpdate wPhys wFix 1 ((wGrid nb w).shape i) ((wGrid nb w).off i) (M i) (fun _ _ => 0) (fun _ => (fun _ => 0, fun _ => 0)) (fun _ => (fun _ => 0, fun _ => 0)) ![2, 0, 0]).1 0 =
      if w = 2 then 1/2 else 1 := by
  classical
  have hoff : (wGrid nb w).off i 0 = -1 := by
    simp [wGrid, regular, hi]
  have h2 : ((wGrid nb w).shape i).Interior ![2, 0, 0] := by rw [w_interior]; simp; omega
  have h1 : ((wGrid nb w).shape i).Interior ![1, 0, 0] := by rw [w_interior]; simp; omega
  have e1 : (fun e => (![2, 0, 0] : Pos) e - unit 0 e) = ![1, 0, 0] := by funext e; fin_cases e <;> simp [unit]
  have e3 : (fun e => (![2, 0, 0] : Pos) e + unit 0 e) = ![3, 0, 0] := by funext e; fin_cases e <;> simp [unit]
  have r : ∀ m c, ((wGrid nb w).shape i).Interior c → rate wPhys.dx ((wGrid nb w).shape i)
      (blockFlux wPhys ((wGrid nb w).shape i) ((wGrid nb w).off i) (M i) fun _ => (fun _ => 0, fun _ => 0)) m c = 0 :=
    fun m c h => w_rate _ rfl _ _ (ho i) m c h
  have ha : ((wGrid nb w).shape i).act 0 := by unfold wGrid regular Blk.act; simp
  unfold fixUpdate pass
  simp only [h2, if_true, true_and]
  have hf : (wFix.inv (fun e => (![2, 0, 0] : Pos) e + (wGrid nb w).off i e) (fun m => wPhys.beta * 0 + (1 - wPhys.beta) * 0 + wPhys.beta * 1 *
      (rate wPhys.dx ((wGrid nb w).shape i) (blockFlux wPhys ((wGrid nb w).shape i) ((wGrid nb w).off i) (M i) fun _ => (fun _ => 0, fun _ => 0)) m ![2, 0, 0] +
        wPhys.src (fun e => (![2, 0, 0] : Pos) e + (wGrid nb w).off i e) (fun _ => 0) m)) fun _ => 0).2 = false := by
    simp only [r _ _ h2, wFix]
    simp [wPhys, hoff]
    norm_num
  rw [if_pos hf]
  unfold around
  by_cases hw2 : w = 2
  · have h3 : ¬ ((wGrid nb w).shape i).Interior ![3, 0, 0] := by rw [w_interior]; simp; omega
    simp only [wFix, ha, if_true, e1, e3, h1, h3, if_false, r _ _ h1, r _ _ h2, valid]
    rw [if_pos hw2]
    have u0 : unit 0 0 = 1 := rfl
    simp [wPhys, hoff, u0]
  · have h3 : ((wGrid nb w).shape i).Interior ![3, 0, 0] := by rw [w_interior]; simp; omega
    simp only [wFix, ha, if_true, e1, e3, h1, h3, r _ _ h1, r _ _ h2, r _ _ h3, valid]
    rw [if_neg hw2]
    have u0 : unit 0 0 = 1 := rfl
    simp [wPhys, hoff, u0]

/-- after the whole stage. -/
theorem w_stage (nb w : ℕ) [NeZero nb] (hw : 2 ≤ w) (M : ((d : Fin 3) → Fin ((![nb, 1, 1] : Fin 3 → ℕ) d)) → Mem ℚ 1)
    (ho : ∀ i, Covers ((wGrid nb w).shape i) (M i).order) (i) (hi : i 0 = ⟨0, Nat.pos_of_ne_zero (NeZero.ne nb)⟩) :
    ((fixStage (wGrid nb w) 1 wEmpty.1 wEmpty (wStage M)).1 i ![2, 0, 0]).1 0 = if w = 2 then 1/2 else 1 := by
  classical
  have h2 : ((wGrid nb w).shape i).Interior ![2, 0, 0] := by rw [w_interior]; simp; omega
  have h := w_first nb w hw M ho i hi
  unfold fixStage fixExchange
  simp only [wStage, wEmpty]
  rw [pass_ok]
  · simp only [wFix, h2, if_true]
    exact h
  · simp only [h2, if_true]
    show decide (_ ≤ _) = true
    rw [decide_eq_true_iff, h]
    split_ifs <;> norm_num

/-- **C135 is false of the code**: the same data in the same domain, in one block and in two blocks, whatever the memory contents: the repaired cell at
position 1 holds 1 in the one and 1/2 in the other. -/
theorem repair_depends_on_blocks (M : ((d : Fin 3) → Fin ((![1, 1, 1] : Fin 3 → ℕ) d)) → Mem ℚ 1) (M' : ((d : Fin 3) → Fin ((![2, 1, 1] : Fin 3 → ℕ) d)) → Mem ℚ 1)
    (ho : ∀ i, Covers ((wGrid 1 4).shape i) (M i).order) (ho' : ∀ i, Covers ((wGrid 2 2).shape i) (M' i).order)
    (i) (i' : (d : Fin 3) → Fin ((![2, 1, 1] : Fin 3 → ℕ) d)) (hi' : i' 0 = ⟨0, by norm_num⟩) :
    (∀ e, (![2, 0, 0] : Pos) e + (wGrid 1 4).off i e = (![2, 0, 0] : Pos) e + (wGrid 2 2).off i' e) ∧
    ((fixStage (wGrid 1 4) 1 wEmpty.1 wEmpty (wStage M)).1 i ![2, 0, 0]).1 0 = 1 ∧
    ((fixStage (wGrid 2 2) 1 wEmpty.1 wEmpty (wStage M')).1 i' ![2, 0, 0]).1 0 = 1/2 := by
  have hi : i 0 = ⟨0, by norm_num⟩ := by
    have := (i 0).isLt
    simp at this
    exact Fin.ext this
  refine ⟨fun e => ?_, ?_, ?_⟩
  · fin_cases e
    · simp [wGrid, regular, hi, hi']
    · have a := (i 1).isLt; have b := (i' 1).isLt
      simp at a b
      simp [wGrid, regular, a, b]
    · have a := (i 2).isLt; have b := (i' 2).isLt
      simp at a b
      simp [wGrid, regular, a, b]
  · rw [w_stage 1 4 (by norm_num) M ho i hi]; norm_num
  · rw [w_stage 2 2 (by norm_num) M' ho' i' hi']; norm_num

/-! ### The hypotheses of the theorem can be met with a failing cell -/

theorem w_cons (p : Pos) : refCons 1 wPhys 1 (fun _ => (fun _ => 0, fun _ => 0)) (fun _ => (fun _ => 0, fun _ => 0)) p =
    fun m => if m = 0 then (if p 0 = 1 then 6 else 1) else 0 := by
  funext m
  unfold refCons refDiv refAll refCT refFlux
  simp [wPhys]

theorem w_refPass (p : Pos) : (refPass 1 (wrapPeriodic ![4, 1, 1]) wFix (refCons 1 wPhys 1 (fun _ => (fun _ => 0, fun _ => 0)) (fun _ => (fun _ => 0, fun _ => 0))) p).1 0 = 1 := by
  unfold refPass
  simp only [w_cons]
  by_cases h : p 0 = 1
  · have hf : (wFix.inv p (fun m => if m = 0 then (if p 0 = 1 then 6 else 1) else 0) fun _ => 0).2 = false := by
      simp [wFix, h]; norm_num
    rw [if_pos hf]
    have w1 : wrapPeriodic ![4, 1, 1] (fun e => p e - unit 0 e) 0 = 0 := by simp [wrapPeriodic, unit, h]
    have w2 : wrapPeriodic ![4, 1, 1] (fun e => p e + unit 0 e) 0 = 2 := by simp [wrapPeriodic, unit, h]
    have ha : refAround 1 (wrapPeriodic ![4, 1, 1]) (fun p => wFix.inv p (fun m => if m = 0 then (if p 0 = 1 then 6 else 1) else 0) fun _ => 0) p 0 =
        (some (fun m => if m = 0 then 1 else 0, fun _ => 1), some (fun m => if m = 0 then 1 else 0, fun _ => 1)) := by
      unfold refAround
      simp only [Fin.val_zero, Nat.lt_one_iff, if_true, valid, wFix, w1, w2]
      norm_num
    show (match refAround 1 (wrapPeriodic ![4, 1, 1]) (fun p => wFix.inv p (fun m => if m = 0 then (if p 0 = 1 then 6 else 1) else 0) fun _ => 0) p 0 with
      | (some a, some b) => ((fun m => if m = 0 then (a.2 0 + b.2 0) / 2 else (if m = 0 then (if p 0 = 1 then 6 else 1) else 0), fun _ => (a.2 0 + b.2 0) / 2) : Cell ℚ 1)
      | (some a, none) => (fun m => if m = 0 then a.2 0 else (if m = 0 then (if p 0 = 1 then 6 else 1) else 0), a.2)
      | (none, some b) => (fun m => if m = 0 then b.2 0 else (if m = 0 then (if p 0 = 1 then 6 else 1) else 0), b.2)
      | (none, none) => (fun _ => 0, fun _ => 0)).1 0 = 1
    rw [ha]
    norm_num
  · have hf : ¬ (wFix.inv p (fun m => if m = 0 then (if p 0 = 1 then 6 else 1) else 0) fun _ => 0).2 = false := by
      simp [wFix, h]
    rw [if_neg hf]
    simp [wFix, h]

/-- in one block of four cells the stage is calm although an inversion fails. -/
theorem ex_calm : Calm (wGrid 1 4) 1 (Box ![4, 1, 1]) 1 (fun _ => (fun _ => 0, fun _ => 0)) (fun _ => (fun _ => 0, fun _ => 0)) (wPhys, wFix) ∧
    Box ![4, 1, 1] ![1, 0, 0] ∧
    (wFix.inv ![1, 0, 0] (refCons 1 wPhys 1 (fun _ => (fun _ => 0, fun _ => 0)) (fun _ => (fun _ => 0, fun _ => 0)) ![1, 0, 0]) fun _ => 0).2 = false := by
  refine ⟨⟨fun p hp hf => ?_, fun p => ?_⟩, ?_, ?_⟩
  · simp only [w_cons, wFix] at hf
    have h1 : p 0 = 1 := by
      by_contra h
      simp [h] at hf
    intro i c hi hc d hd
    have hd0 : d = 0 := by
      unfold wGrid regular Blk.act at hd
      simp only at hd
      exact Fin.ext (by simpa using hd)
    subst hd0
    have hi0 : i 0 = ⟨0, by norm_num⟩ := by
      have := (i 0).isLt
      simp at this
      exact Fin.ext this
    have h0 := congrFun hc 0
    rw [h1] at h0
    have hoff : (wGrid 1 4).off i 0 = -1 := by simp [wGrid, regular, hi0]
    rw [hoff] at h0
    rw [w_interior] at hi ⊢
    rw [w_interior]
    simp [unit]
    push_cast at hi
    omega
  · show decide (_ ≤ _) = true
    rw [decide_eq_true_iff]
    have : refShared (wGrid 1 4).wrap wPhys (refPass 1 (wGrid 1 4).wrap wFix (refCons 1 wPhys 1 (fun _ => (fun _ => 0, fun _ => 0)) (fun _ => (fun _ => 0, fun _ => 0)))) p 0 = 1 := by
      unfold refShared
      split_ifs
      · exact w_refPass p
      · exact w_refPass _
    rw [this]; norm_num
  · intro d; fin_cases d <;> simp
  · rw [w_cons]; simp [wFix]; norm_num

end Phoebus.Step
