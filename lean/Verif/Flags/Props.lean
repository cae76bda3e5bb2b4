import Verif.Flags.Model

/-!
# Status flags (C54)
-/
namespace Phoebus.Flags
open Repair Geom Rel Floors

theorem writeFlags_isFlag (inv : Inverter) (status : Idx → Status) : IsFlag (writeFlags inv status) := by
  intro c; unfold writeFlags; cases inv <;> cases status c <;> simp [flagOf]

/-- C54. With the robust inverter a cell is repaired exactly when its inversion failed, and it is used as a source of data
exactly when it succeeded. -/
theorem robust_flags_partial (status : Idx → Status) (ndim : ℕ) (c d : Idx) :
    (needsRepair (writeFlags .robust status) c ↔ status c = .failure) ∧
    (d ∈ validNbrs ndim (writeFlags .robust status) c ↔ d ∈ nbrs ndim c ∧ status d = .success) := by
  unfold needsRepair validNbrs writeFlags
  constructor
  · cases status c <;> simp [flagOf]
  · rw [Finset.mem_filter]; cases status d <;> simp [flagOf]

/-- C54 fails for the classic inverter: the meaning is reversed. -/
theorem classic_flags_reversed (status : Idx → Status) (ndim : ℕ) (c d : Idx) :
    (needsRepair (writeFlags .classic status) c ↔ status c = .success) ∧
    (d ∈ validNbrs ndim (writeFlags .classic status) c ↔ d ∈ nbrs ndim c ∧ status d = .failure) := by
  unfold needsRepair validNbrs writeFlags
  constructor
  · cases status c <;> simp [flagOf]
  · rw [Finset.mem_filter]; cases status d <;> simp [flagOf]

/-- C54. With the robust inverter and no failure the repair changes nothing. -/
theorem robust_no_failure (val hasYe : Bool) (st : Strategy) (small : ℝ) (ndim : ℕ) (hd : ndim = 1 ∨ ndim = 2 ∨ ndim = 3)
    (P : Press) (L : Idx → Local) (status : Idx → Status) (hs : ∀ c, status c = .success) (order : List Idx) (f : Idx → Cell) :
    repair val hasYe st small ndim P L (writeFlags .robust status) order f = f := by
  funext c
  rw [repair_order_independent val hasYe st small ndim P L _ hd (writeFlags_isFlag _ _), if_neg]
  simp [writeFlags, hs, flagOf]

/-- C54. With the classic inverter and repairs enabled, a block in which *every* inversion succeeded is wiped: each visited
cell is replaced by the near-vacuum state at rest. -/
theorem classic_wipes_good_block (val hasYe : Bool) (st : Strategy) (small : ℝ) (ndim : ℕ)
    (hd : ndim = 1 ∨ ndim = 2 ∨ ndim = 3) (P : Press) (L : Idx → Local) (hg : ∀ c, 1 ≤ (L c).gmax)
    (status : Idx → Status) (hs : ∀ c, status c = .success) (order : List Idx) (f : Idx → Cell) (c : Idx) (hc : c ∈ order) :
    let r := repair val hasYe st small ndim P L (writeFlags .classic status) order f c
    r.prim.rho = 100 * small ∧ r.prim.u = 100 * small ∧ r.prim.v = fun _ => 0 := by
  intro r
  have hr : r = repairCell val hasYe st small ndim P L (writeFlags .classic status) f c := by
    simp only [r]
    rw [repair_order_independent val hasYe st small ndim P L _ hd (writeFlags_isFlag _ _), if_pos]
    exact ⟨hc, by simp [writeFlags, hs, flagOf]⟩
  have := repaired_fallback val hasYe st small ndim hd P L hg (writeFlags .classic status) (writeFlags_isFlag _ _) f c
    (Or.inl (by
      ext d
      simp [(classic_flags_reversed status ndim c d).2, hs]))
  rw [hr]
  exact ⟨this.1, this.2.1, this.2.2.1⟩

/-- C54. And a failed cell is left as it is (and feeds its neighbours). -/
theorem classic_keeps_failed (val hasYe : Bool) (st : Strategy) (small : ℝ) (ndim : ℕ) (hd : ndim = 1 ∨ ndim = 2 ∨ ndim = 3)
    (P : Press) (L : Idx → Local) (status : Idx → Status) (order : List Idx) (f : Idx → Cell) (c : Idx)
    (hc : status c = .failure) :
    repair val hasYe st small ndim P L (writeFlags .classic status) order f c = f c := by
  rw [repair_order_independent val hasYe st small ndim P L _ hd (writeFlags_isFlag _ _), if_neg]
  simp [writeFlags, hc, flagOf]

/-- The hypotheses are met. -/
example : (∀ c : Idx, (fun _ => Status.success : Idx → Status) c = .success) ∧
    (∀ c : Idx, 1 ≤ ((fun _ => ⟨C2P.flat, 1, 10⟩ : Idx → Local) c).gmax) := ⟨fun _ => rfl, fun _ => by norm_num⟩

end Phoebus.Flags
