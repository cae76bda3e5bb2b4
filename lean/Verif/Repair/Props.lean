import Verif.Repair.Model
import Verif.Floors.Props

/-!
# Failed-cell repair (C23) and particle purge
-/
namespace Phoebus.Repair
open Finset Geom Robust Rel Floors

/-- Specification: the face neighbours of a cell in `ndim` dimensions. -/
def nbrs (ndim : ℕ) : Idx → Finset Idx
  | (k, j, i) =>
    {(k, j, i - 1), (k, j, i + 1)} ∪ (if 1 < ndim then {(k, j - 1, i), (k, j + 1, i)} else ∅)
      ∪ (if ndim = 3 then {(k - 1, j, i), (k + 1, j, i)} else ∅)

/-- Specification: the neighbours whose inversion succeeded. -/
noncomputable def validNbrs (ndim : ℕ) (flag : Idx → ℝ) (c : Idx) : Finset Idx :=
  (nbrs ndim c).filter fun d => flag d = 1

/-- Flags are success (1) or failure (0). -/
def IsFlag (flag : Idx → ℝ) : Prop := ∀ c, flag c = 0 ∨ flag c = 1

theorem not_nbr_self (ndim : ℕ) (c : Idx) : c ∉ nbrs ndim c := by
  obtain ⟨k, j, i⟩ := c
  simp only [nbrs, mem_union, mem_insert, mem_singleton]
  split_ifs <;> simp [Prod.ext_iff] <;> omega

private theorem sum_nbrs (ndim : ℕ) (hd : ndim = 1 ∨ ndim = 2 ∨ ndim = 3) (g : Idx → ℝ) (k j i : ℤ) :
    ∑ d ∈ nbrs ndim (k, j, i), g d =
      (if ndim > 1 then
        (if ndim = 3 then
          g (k, j, i - 1) + g (k, j, i + 1) + (g (k, j - 1, i) + g (k, j + 1, i)) + (g (k - 1, j, i) + g (k + 1, j, i))
        else g (k, j, i - 1) + g (k, j, i + 1) + (g (k, j - 1, i) + g (k, j + 1, i)))
      else g (k, j, i - 1) + g (k, j, i + 1)) := by
  have e1 : i - 1 ≠ i + 1 := by omega
  have e2 : j - 1 ≠ j + 1 := by omega
  have e3 : k - 1 ≠ k + 1 := by omega
  have f1 : ∀ n : ℤ, n - 1 ≠ n := by intro n; omega
  have f2 : ∀ n : ℤ, n + 1 ≠ n := by intro n; omega
  have f3 : ∀ n : ℤ, n ≠ n - 1 := by intro n; omega
  have f4 : ∀ n : ℤ, n ≠ n + 1 := by intro n; omega
  rcases hd with rfl | rfl | rfl
  · simp only [nbrs, lt_irrefl, if_false, union_empty, show ¬ (1 = 3) by decide, gt_iff_lt]
    rw [sum_pair (by simp [e1])]
  · simp only [nbrs, show (1:ℕ) < 2 by decide, if_true, show ¬ (2 = 3) by decide, if_false, union_empty, gt_iff_lt]
    rw [sum_union (by
      rw [disjoint_left]; intro x; simp only [mem_insert, mem_singleton]
      rintro (rfl | rfl) <;> simp [Prod.ext_iff, f1, f2, f3, f4]), sum_pair (by simp [e1]), sum_pair (by simp [e2])]
  · simp only [nbrs, show (1:ℕ) < 3 by decide, if_true, gt_iff_lt]
    rw [sum_union (by
      rw [disjoint_left]; intro x; simp only [mem_union, mem_insert, mem_singleton]
      rintro ((rfl | rfl) | (rfl | rfl)) <;> simp [Prod.ext_iff, f1, f2, f3, f4]),
      sum_union (by
      rw [disjoint_left]; intro x; simp only [mem_insert, mem_singleton]
      rintro (rfl | rfl) <;> simp [Prod.ext_iff, f1, f2, f3, f4]), sum_pair (by simp [e1]), sum_pair (by simp [e2]),
      sum_pair (by simp [e3])]

private theorem sum_flag (ndim : ℕ) (flag : Idx → ℝ) (hf : IsFlag flag) (x : Idx → ℝ) (c : Idx) :
    ∑ d ∈ nbrs ndim c, flag d * x d = ∑ d ∈ validNbrs ndim flag c, x d := by
  unfold validNbrs
  rw [sum_filter]
  refine sum_congr rfl fun d _ => ?_
  rcases hf d with h | h <;> simp [h]

theorem weighted_eq (ndim : ℕ) (hd : ndim = 1 ∨ ndim = 2 ∨ ndim = 3) (flag x : Idx → ℝ) (c : Idx) :
    weighted ndim flag x c = ∑ d ∈ nbrs ndim c, flag d * x d := by
  obtain ⟨k, j, i⟩ := c
  rw [sum_nbrs ndim hd]
  simp only [weighted]

theorem numValid_eq_sum (ndim : ℕ) (hd : ndim = 1 ∨ ndim = 2 ∨ ndim = 3) (flag : Idx → ℝ) (c : Idx) :
    numValid ndim flag c = ∑ d ∈ nbrs ndim c, flag d := by
  obtain ⟨k, j, i⟩ := c
  rw [sum_nbrs ndim hd]
  simp only [numValid]
  rcases hd with rfl | rfl | rfl <;> simp

theorem numValid_eq (ndim : ℕ) (hd : ndim = 1 ∨ ndim = 2 ∨ ndim = 3) (flag : Idx → ℝ) (hf : IsFlag flag) (c : Idx) :
    numValid ndim flag c = (validNbrs ndim flag c).card := by
  rw [numValid_eq_sum ndim hd, ← mul_one (∑ d ∈ nbrs ndim c, flag d), sum_mul, sum_flag ndim flag hf (fun _ => 1) c]
  simp

/-- C23. The value given to a failed cell is the arithmetic mean over the successful neighbours. -/
theorem average_is_mean (ndim : ℕ) (hd : ndim = 1 ∨ ndim = 2 ∨ ndim = 3) (flag : Idx → ℝ) (hf : IsFlag flag) (x : Idx → ℝ)
    (c : Idx) :
    average ndim flag x c = (∑ d ∈ validNbrs ndim flag c, x d) / (validNbrs ndim flag c).card := by
  unfold average
  rw [numValid_eq ndim hd flag hf, weighted_eq ndim hd, sum_flag ndim flag hf, one_div, inv_mul_eq_div]

/-- C23. Hence it lies in the range of the successful neighbours. -/
theorem average_in_range (ndim : ℕ) (hd : ndim = 1 ∨ ndim = 2 ∨ ndim = 3) (flag : Idx → ℝ) (hf : IsFlag flag) (x : Idx → ℝ)
    (c : Idx) (lo hi : ℝ) (hne : (validNbrs ndim flag c).Nonempty)
    (h : ∀ d ∈ validNbrs ndim flag c, lo ≤ x d ∧ x d ≤ hi) :
    lo ≤ average ndim flag x c ∧ average ndim flag x c ≤ hi := by
  rw [average_is_mean ndim hd flag hf]
  have hc : (0:ℝ) < (validNbrs ndim flag c).card := by exact_mod_cast card_pos.mpr hne
  rw [le_div_iff₀ hc, div_le_iff₀ hc]
  constructor
  · rw [mul_comm, ← nsmul_eq_mul]
    exact card_nsmul_le_sum _ _ _ fun d hd => (h d hd).1
  · rw [mul_comm, ← nsmul_eq_mul]
    exact sum_le_card_nsmul _ _ _ fun d hd => (h d hd).2

/-- the averages only depend on the successful cells. -/
theorem average_congr (ndim : ℕ) (hd : ndim = 1 ∨ ndim = 2 ∨ ndim = 3) (flag : Idx → ℝ) (hf : IsFlag flag) (x y : Idx → ℝ)
    (h : ∀ d, flag d = 1 → x d = y d) (c : Idx) : average ndim flag x c = average ndim flag y c := by
  rw [average_is_mean ndim hd flag hf, average_is_mean ndim hd flag hf]
  congr 1
  exact sum_congr rfl fun d hd => h d (mem_filter.mp hd).2

/-! ## Order independence -/

section
variable (val hasYe : Bool) (st : Strategy) (small : ℝ) (ndim : ℕ) (P : Press) (L : Idx → Local) (flag : Idx → ℝ)

/-- what a repair keeps of the cell it overwrites: the field, and values it has no slot for. -/
structure SameKept (a b : Cell) : Prop where
  B : a.prim.B = b.prim.B
  consB : a.cons.B = b.cons.B
  ye : hasYe = false → a.ye = b.ye
  consYe : hasYe = false → a.cons.ye = b.cons.ye

theorem repairCell_congr (hd : ndim = 1 ∨ ndim = 2 ∨ ndim = 3) (hf : IsFlag flag) (f g : Idx → Cell)
    (h : ∀ d, flag d = 1 → f d = g d) (c : Idx) (hc : SameKept hasYe (f c) (g c)) :
    repairCell val hasYe st small ndim P L flag f c = repairCell val hasYe st small ndim P L flag g c := by
  unfold repairCell fluidFill
  rw [average_congr ndim hd flag hf (fun d => (f d).prim.rho) (fun d => (g d).prim.rho) (fun d e => by rw [h d e]) c,
    average_congr ndim hd flag hf (fun d => (f d).prim.u) (fun d => (g d).prim.u) (fun d e => by rw [h d e]) c,
    average_congr ndim hd flag hf (fun d => (f d).ye) (fun d => (g d).ye) (fun d e => by rw [h d e]) c]
  simp only [fun l => average_congr ndim hd flag hf (fun d => (f d).prim.v l) (fun d => (g d).prim.v l)
    (fun d e => by rw [h d e]) c]
  obtain ⟨h1, h2, h3, h4⟩ := hc
  cases hasYe
  · have h3 := h3 rfl
    have h4 := h4 rfl
    split_ifs <;> simp [finish, h1, h2, h3, h4]
  · split_ifs <;> simp_all [finish]

theorem repairCell_kept (f : Idx → Cell) (c : Idx) :
    SameKept hasYe (repairCell val hasYe st small ndim P L flag f c) (f c) := by
  unfold repairCell fluidFill
  constructor <;> (try intro hy; subst hy) <;> split_ifs <;> simp_all [finish]

/-- C23. Whatever the order of visits, and however often a cell is visited, every failed cell in the range gets the repair
computed from the block *before* the kernel, and every other cell is untouched. -/
theorem repair_order_independent (hd : ndim = 1 ∨ ndim = 2 ∨ ndim = 3) (hf : IsFlag flag) (order : List Idx) (f : Idx → Cell)
    (c : Idx) :
    repair val hasYe st small ndim P L flag order f c =
      if c ∈ order ∧ flag c = 0 then repairCell val hasYe st small ndim P L flag f c else f c := by
  unfold repair
  suffices H : ∀ (order : List Idx) (g : Idx → Cell), (∀ d, flag d = 1 → g d = f d) → (∀ d, SameKept hasYe (g d) (f d)) →
      List.foldl (visit val hasYe st small ndim P L flag) g order c =
        if c ∈ order ∧ flag c = 0 then repairCell val hasYe st small ndim P L flag f c else g c by
    exact H order f (fun _ _ => rfl) (fun d => ⟨rfl, rfl, fun _ => rfl, fun _ => rfl⟩)
  intro order
  induction order with
  | nil => intro g _ _; simp
  | cons a t ih =>
    intro g hg hk
    rw [List.foldl_cons]
    by_cases ha : flag a = 0
    · have hv : visit val hasYe st small ndim P L flag g a =
          Function.update g a (repairCell val hasYe st small ndim P L flag f a) := by
        unfold visit
        rw [if_pos ha, repairCell_congr val hasYe st small ndim P L flag hd hf g f hg a (hk a)]
      rw [hv, ih]
      · by_cases hca : c = a
        · subst hca; simp [ha]
        · simp [hca, Function.update_of_ne]
      · intro d e
        rw [Function.update_of_ne, hg d e]
        rintro rfl; rw [ha] at e; norm_num at e
      · intro d
        by_cases hda : d = a
        · subst hda
          rw [Function.update_self]
          exact repairCell_kept val hasYe st small ndim P L flag f d
        · rw [Function.update_of_ne hda]; exact hk d
    · have hv : visit val hasYe st small ndim P L flag g a = g := by unfold visit; rw [if_neg ha]
      rw [hv, ih g hg hk]
      by_cases hca : c = a
      · subst hca; simp [ha]
      · simp [hca]

/-- C23. Two schedules covering the same cells give the same block; running the repair twice changes nothing more.

Partial form of C23. Full property: A cell whose inversion failed receives the average of its successful neighbours
(hence values inside their range) or the fixed floor state when none is valid; successful cells are untouched; the
result does not depend on the order in which cells are visited. Missing: Proved in real arithmetic for every mask,
field, schedule and repeat; with a NaN in a failed neighbour the zero weight does not protect (proved), and the source
repair omits the flux ceiling (proved). -/
theorem repair_schedules_agree_partial (hd : ndim = 1 ∨ ndim = 2 ∨ ndim = 3) (hf : IsFlag flag) (o₁ o₂ : List Idx)
    (ho : ∀ c, c ∈ o₁ ↔ c ∈ o₂) (f : Idx → Cell) :
    repair val hasYe st small ndim P L flag o₁ f = repair val hasYe st small ndim P L flag o₂ f ∧
    repair val hasYe st small ndim P L flag o₁ (repair val hasYe st small ndim P L flag o₂ f) =
      repair val hasYe st small ndim P L flag o₂ f := by
  constructor
  · funext c
    rw [repair_order_independent val hasYe st small ndim P L flag hd hf,
      repair_order_independent val hasYe st small ndim P L flag hd hf]
    simp only [ho c]
  · funext c
    have hg : ∀ d, flag d = 1 → repair val hasYe st small ndim P L flag o₂ f d = f d := by
      intro d e
      rw [repair_order_independent val hasYe st small ndim P L flag hd hf, if_neg (by rw [e]; simp)]
    have hk : ∀ d, SameKept hasYe (repair val hasYe st small ndim P L flag o₂ f d) (f d) := by
      intro d
      rw [repair_order_independent val hasYe st small ndim P L flag hd hf]
      split_ifs
      · exact repairCell_kept val hasYe st small ndim P L flag f d
      · exact ⟨rfl, rfl, fun _ => rfl, fun _ => rfl⟩
    rw [repair_order_independent val hasYe st small ndim P L flag hd hf o₁,
      repairCell_congr val hasYe st small ndim P L flag hd hf _ f hg c (hk c),
      repair_order_independent val hasYe st small ndim P L flag hd hf o₂]
    simp only [ho c]
    split_ifs <;> rfl

end

/-- C23. What a repaired cell contains, when some neighbour succeeded: density and energy are the neighbour means limited
below, the velocity is the neighbour mean (clamped when too fast), Ye the neighbour mean, the pressure is the EOS pressure
and the conserved variables are those of the repaired primitives. -/
theorem repaired_from_neighbours (val : Bool) (small : ℝ) (ndim : ℕ) (hd : ndim = 1 ∨ ndim = 2 ∨ ndim = 3) (P : Press)
    (L : Idx → Local) (flag : Idx → ℝ) (hf : IsFlag flag) (f : Idx → Cell) (c : Idx)
    (hne : (validNbrs ndim flag c).Nonempty) :
    let mean := fun x : Idx → ℝ => (∑ d ∈ validNbrs ndim flag c, x d) / (validNbrs ndim flag c).card
    let r := repairCell val true .interpolate small ndim P L flag f c
    let vm : Fin 3 → ℝ := fun l => mean fun d => (f d).prim.v l
    r.prim.rho = max (mean fun d => (f d).prim.rho) (100 * small) ∧
    r.prim.u = max (mean fun d => (f d).prim.u) (100 * small) ∧
    r.ye = (mean fun d => (f d).ye) ∧
    (lorentz (L c).G.gam vm ≤ (L c).gmax → r.prim.v = vm) ∧
    r.prim.P = P r.prim.rho (r.prim.u / r.prim.rho) r.ye ∧ r.prim.B = (f c).prim.B ∧
    r.cons.B = (f c).cons.B ∧
    r.cons.D = (p2c val (L c).G (L c).gdet r.ye r.prim).D ∧ r.cons.S = (p2c val (L c).G (L c).gdet r.ye r.prim).S ∧
    r.cons.tau = (p2c val (L c).G (L c).gdet r.ye r.prim).tau ∧
    r.cons.ye = (p2c val (L c).G (L c).gdet r.ye r.prim).ye := by
  intro mean r vm
  have hn : numValid ndim flag c > 0.5 ∧ Strategy.interpolate = .interpolate := by
    refine ⟨?_, rfl⟩
    rw [numValid_eq ndim hd flag hf]
    have : 1 ≤ (validNbrs ndim flag c).card := card_pos.mpr hne
    have : (1:ℝ) ≤ (validNbrs ndim flag c).card := by exact_mod_cast this
    norm_num; linarith
  have hm : ∀ x, average ndim flag x c = mean x := fun x => average_is_mean ndim hd flag hf x c
  have hr : r = finish val true P (L c)
      ⟨⟨max (mean fun d => (f d).prim.rho) (100 * small), max (mean fun d => (f d).prim.u) (100 * small), (f c).prim.P, vm,
        (f c).prim.B⟩, mean fun d => (f d).ye, (f c).cons⟩ := by
    have hn' := hn.1
    simp only [r, repairCell, fluidFill, hm]
    simp [hn', vm]
  rw [hr]
  refine ⟨rfl, rfl, rfl, ?_, rfl, rfl, rfl, rfl, rfl, rfl, rfl⟩
  intro h
  simp only [finish, clampVel]
  rw [if_neg (not_lt.mpr h)]

/-- C23 (velocity above the ceiling). The mean velocity is rescaled along itself; the squared Lorentz factor becomes `1 + (gmax² - 1) / (W² - 1)`, so the
ceiling is respected exactly when the mean velocity had `W² ≥ 2` (the same formula as the ceiling of C22). -/
theorem repaired_velocity_rescaled (val : Bool) (small : ℝ) (ndim : ℕ) (hd : ndim = 1 ∨ ndim = 2 ∨ ndim = 3) (P : Press)
    (L : Idx → Local) (flag : Idx → ℝ) (hf : IsFlag flag) (f : Idx → Cell) (c : Idx) (hne : (validNbrs ndim flag c).Nonempty)
    (hp : PosDef (L c).G) (hg : 1 < (L c).gmax) :
    let mean := fun x : Idx → ℝ => (∑ d ∈ validNbrs ndim flag c, x d) / (validNbrs ndim flag c).card
    let r := repairCell val true .interpolate small ndim P L flag f c
    let vm : Fin 3 → ℝ := fun l => mean fun d => (f d).prim.v l
    let W := lorentz (L c).G.gam vm
    (L c).gmax < W → (∃ t : ℝ, 0 < t ∧ r.prim.v = fun l => t * vm l) ∧
      lorentz (L c).G.gam r.prim.v ^ 2 = 1 + ((L c).gmax ^ 2 - 1) / (W ^ 2 - 1) ∧ (lorentz (L c).G.gam r.prim.v ≤ (L c).gmax ↔ 2 ≤ W ^ 2) := by
  intro mean r vm W hW
  have hn : numValid ndim flag c > 0.5 := by
    rw [numValid_eq ndim hd flag hf]
    have : 1 ≤ (validNbrs ndim flag c).card := card_pos.mpr hne
    have : (1:ℝ) ≤ (validNbrs ndim flag c).card := by exact_mod_cast this
    norm_num; linarith
  have hv : r.prim.v = fun l => vm l * rescale (L c).gmax W := by
    have hm : ∀ x, average ndim flag x c = mean x := fun x => average_is_mean ndim hd flag hf x c
    simp only [r, repairCell, fluidFill, hn, and_self, if_true, finish, clampVel, hm]
    rw [if_pos hW]
  rw [hv]
  refine ⟨⟨rescale (L c).gmax W, ?_, funext fun l => mul_comm _ _⟩, rescaled_lorentz _ hp vm _ hg.le (by linarith),
    (ceiling_respected_iff_partial _ hp vm _ hg hW).1⟩
  unfold rescale
  exact div_pos (Real.sqrt_pos.2 (by nlinarith)) (by nlinarith)

/-- C23. With no successful neighbour (or with the `floor` strategy) the cell gets the fixed state at rest. -/
theorem repaired_fallback (val hasYe : Bool) (st : Strategy) (small : ℝ) (ndim : ℕ) (hd : ndim = 1 ∨ ndim = 2 ∨ ndim = 3)
    (P : Press) (L : Idx → Local) (hg : ∀ c, 1 ≤ (L c).gmax) (flag : Idx → ℝ) (hf : IsFlag flag) (f : Idx → Cell) (c : Idx)
    (h : validNbrs ndim flag c = ∅ ∨ st = .floors) :
    let r := repairCell val hasYe st small ndim P L flag f c
    r.prim.rho = 100 * small ∧ r.prim.u = 100 * small ∧ (r.prim.v = fun _ => 0) ∧ (hasYe = true → r.ye = 1 / 2) := by
  intro r
  have hn : ¬(numValid ndim flag c > 0.5 ∧ st = .interpolate) := by
    rintro ⟨h1, h2⟩
    rcases h with h | h
    · rw [numValid_eq ndim hd flag hf, h] at h1
      norm_num at h1
    · rw [h] at h2; cases h2
  have hr : r = finish val hasYe P (L c) ⟨{ (f c).prim with rho := 100 * small, u := 100 * small, v := fun _ => 0 },
      if hasYe then 0.5 else (f c).ye, (f c).cons⟩ := by
    simp only [r, repairCell, fluidFill, if_neg hn]
  rw [hr]
  refine ⟨rfl, rfl, ?_, ?_⟩
  · simp only [finish, clampVel]
    have : lorentz (L c).G.gam (fun _ => 0) = 1 := by simp [lorentz]
    rw [this, if_neg (not_lt.mpr (hg c))]
  · intro hy; simp only [finish, hy, if_true]; norm_num

/-- C23 (case). A mixed pattern: the middle cell of a row failed, its left neighbour succeeded and its right one did not. -/
example : IsFlag (fun c : Idx => if c = (0, 0, 0) then 1 else 0) ∧
    (validNbrs 1 (fun c : Idx => if c = (0, 0, 0) then 1 else 0) (0, 0, 1)).Nonempty ∧
    validNbrs 1 (fun c : Idx => if c = (0, 0, 0) then 1 else 0) (0, 0, 5) = ∅ := by
  refine ⟨fun c => by dsimp only; split_ifs <;> simp, ⟨(0, 0, 0), by simp [validNbrs, nbrs]⟩, ?_⟩
  ext d
  simp only [validNbrs, nbrs, mem_filter, mem_union, mem_insert, mem_singleton, notMem_empty, iff_false]
  norm_num
  rintro (rfl | rfl) <;> simp

/-! ## What weight zero does not protect against -/

/-- Floating point numbers with a NaN: any operation on a NaN gives NaN. -/
abbrev NanR := Option ℝ
instance : Add NanR := ⟨fun a b => a.bind fun x => b.map fun y => x + y⟩
instance : Mul NanR := ⟨fun a b => a.bind fun x => b.map fun y => x * y⟩

/-- C23. Failed cells are excluded only by a zero weight: if any neighbour's stored value is NaN (as an unsuccessful
inversion may leave it) the repaired value is NaN, however many successful neighbours there are. -/
theorem nan_neighbour_poisons (flag x : Idx → NanR) (k j i : ℤ) (h : x (k, j, i + 1) = none) (ndim : ℕ) :
    weighted ndim flag x (k, j, i) = none := by
  have hm : ∀ a : NanR, a * none = none := fun a => by cases a <;> rfl
  have ha : ∀ a : NanR, a + none = none := fun a => by cases a <;> rfl
  have hb : ∀ a : NanR, none + a = none := fun a => rfl
  have h1 : flag (k, j, i - 1) * x (k, j, i - 1) + flag (k, j, i + 1) * x (k, j, i + 1) = none := by rw [h, hm, ha]
  simp only [weighted, h1, hb]
  split_ifs <;> rfl

/-! ## Radiation -/

/-- C23. Radiation repair: order independent, successful cells untouched. -/
theorem rad_repair_order_independent (st : Strategy) (small ximax : ℝ) (ndim : ℕ) (hd : ndim = 1 ∨ ndim = 2 ∨ ndim = 3)
    (G : Idx → ADM ℝ) (w : Idx → Fin 3 → ℝ) (flag : Idx → ℝ) (hf : IsFlag flag) (order : List Idx) (m : Idx → Mom) (c : Idx) :
    radRepair st small ximax ndim G w flag order m c =
      if c ∈ order ∧ flag c = 0 then xiCeiling ximax (G c) (w c) (radFill st small ndim flag m c) else m c := by
  have hcong : ∀ (g : Idx → Mom), (∀ d, flag d = 1 → g d = m d) → ∀ a, radFill st small ndim flag g a =
      radFill st small ndim flag m a := by
    intro g hg a
    unfold radFill
    rw [average_congr ndim hd flag hf (fun d => (g d).J) (fun d => (m d).J) (fun d e => by rw [hg d e]) a]
    simp only [fun l => average_congr ndim hd flag hf (fun d => (g d).H l) (fun d => (m d).H l)
      (fun d e => by rw [hg d e]) a]
  suffices H : ∀ (order : List Idx) (g : Idx → Mom), (∀ d, flag d = 1 → g d = m d) →
      List.foldl (radVisit st small ximax ndim G w flag) g order c =
        if c ∈ order ∧ flag c = 0 then xiCeiling ximax (G c) (w c) (radFill st small ndim flag m c) else g c by
    exact H order m (fun _ _ => rfl)
  intro order
  induction order with
  | nil => intro g _; simp
  | cons a t ih =>
    intro g hg
    rw [List.foldl_cons]
    by_cases ha : flag a = 0
    · have hv : radVisit st small ximax ndim G w flag g a =
          Function.update g a (xiCeiling ximax (G a) (w a) (radFill st small ndim flag m a)) := by
        unfold radVisit
        rw [if_pos ha, hcong g hg a]
      rw [hv, ih]
      · by_cases hca : c = a
        · subst hca; simp [ha]
        · simp [hca, Function.update_of_ne]
      · intro d e
        rw [Function.update_of_ne, hg d e]
        rintro rfl; rw [ha] at e; norm_num at e
    · have hv : radVisit st small ximax ndim G w flag g a = g := by unfold radVisit; rw [if_neg ha]
      rw [hv, ih g hg]
      by_cases hca : c = a
      · subst hca; simp [ha]
      · simp [hca]

theorem xiSq_smul (G : ADM ℝ) (w H : Fin 3 → ℝ) (s : ℝ) : xiSq G w (fun l => H l * s) = s ^ 2 * xiSq G w H := by
  unfold xiSq
  simp only [Fin.sum_univ_three]
  ring

/-- C23. After the radiation repair the flux factor does not exceed its ceiling, the energy density is not changed by the
ceiling and the flux direction is kept. -/
theorem xi_ceiling (ximax : ℝ) (h0 : 0 < ximax) (G : ADM ℝ) (w : Fin 3 → ℝ) (m : Mom) :
    Real.sqrt (xiSq G w (xiCeiling ximax G w m).H) ≤ ximax ∧ (xiCeiling ximax G w m).J = m.J ∧
    (Real.sqrt (xiSq G w m.H) ≤ ximax → xiCeiling ximax G w m = m) ∧
    ∃ s, 0 < s ∧ s ≤ 1 ∧ (xiCeiling ximax G w m).H = fun l => m.H l * s := by
  unfold xiCeiling
  by_cases h : Real.sqrt (xiSq G w m.H) > ximax
  · simp only [if_pos h]
    have hpos : 0 < Real.sqrt (xiSq G w m.H) := lt_trans h0 h
    refine ⟨?_, trivial, fun h' => absurd h' (not_le.mpr h), ximax / Real.sqrt (xiSq G w m.H), by positivity,
      (div_le_one hpos).mpr h.le, rfl⟩
    rw [xiSq_smul, Real.sqrt_mul (sq_nonneg _), Real.sqrt_sq (by positivity), div_mul_cancel₀ _ hpos.ne']
  · simp only [if_neg h]
    exact ⟨not_lt.mp h, trivial, fun _ => trivial, 1, one_pos, le_rfl, by simp⟩

/-- C23. The source repair averages the flux the same way but applies no ceiling: a cell can end up above a ceiling which
each of the cells it is averaged from respects in its own geometry. -/
theorem src_repair_exceeds_ceiling :
    ∃ (G : Idx → ADM ℝ) (w : Idx → Fin 3 → ℝ) (flag : Idx → ℝ) (m : Idx → Mom) (ximax : ℝ) (c : Idx), IsFlag flag ∧
      (∀ d, (G d).Valid ∧ PosDef (G d)) ∧
      (∀ d, flag d = 1 → Real.sqrt (xiSq (G d) (w d) (m d).H) ≤ ximax) ∧
      ximax < Real.sqrt (xiSq (G c) (w c) (srcRadVisit .interpolate 0 1 flag m c c).H) := by
  let thin : ADM ℝ := ⟨1, fun _ => 0, fun i j => if i = j then 4 else 0, fun i j => if i = j then 1 / 4 else 0⟩
  have hthin : thin.Valid ∧ PosDef thin := by
    constructor
    · constructor
      · simp [thin]
      · intro i j; simp only [thin]; by_cases h : i = j <;> simp [h, eq_comm]
      · intro i j; simp only [thin]; by_cases h : i = j <;> simp [h, eq_comm]
      · intro i j; fin_cases i <;> fin_cases j <;> simp [thin]
    · intro v; simp [ADM.dot3, Fin.sum_univ_three, thin]
      nlinarith [sq_nonneg (v 0), sq_nonneg (v 1), sq_nonneg (v 2)]
  refine ⟨fun d => if d = (0, 0, 0) then C2P.flat else thin, fun _ _ => 0, fun d => if d = (0, 0, 0) then 0 else 1,
    fun _ => ⟨1, ![1, 0, 0]⟩, 1 / 2, (0, 0, 0), ?_, ?_, ?_, ?_⟩
  · intro c; by_cases h : c = (0, 0, 0) <;> simp [h]
  · intro d; by_cases h : d = (0, 0, 0)
    · simp only [h, if_true]; exact C2P.flat_valid
    · simp only [if_neg h]; exact hthin
  · intro d e
    have h : d ≠ (0, 0, 0) := by rintro rfl; norm_num at e
    simp only [if_neg h, thin, xiSq, Fin.sum_univ_three]
    rw [Real.sqrt_le_left (by norm_num)]
    simp
    norm_num
  · have hh : (srcRadVisit .interpolate 0 1 (fun d => if d = ((0, 0, 0) : Idx) then 0 else 1)
        (fun _ => ⟨1, ![1, 0, 0]⟩) (0, 0, 0) (0, 0, 0)).H = ![1, 0, 0] := by
      funext l
      have e1 : ((0 : ℤ), (0 : ℤ), (0 : ℤ) - 1) ≠ (0, 0, 0) := by simp
      have e2 : ((0 : ℤ), (0 : ℤ), (0 : ℤ) + 1) ≠ (0, 0, 0) := by simp
      simp only [srcRadVisit, if_true, Function.update_self, radFill, numValid, average, weighted, if_neg e1, if_neg e2]
      norm_num
      ring
    rw [hh]
    simp only [if_true, xiSq, C2P.flat, Fin.sum_univ_three]
    rw [show (1 / 2 : ℝ) = Real.sqrt (1 / 4) by
      rw [show (1 / 4 : ℝ) = (1 / 2) ^ 2 by norm_num, Real.sqrt_sq (by norm_num)]]
    apply Real.sqrt_lt_sqrt (by norm_num)
    simp
    norm_num

/-- C23. The source repair never takes data from ghost cells. -/
theorem src_ghosts_unused (interior : Idx → Bool) (flag : Idx → ℝ) (hf : IsFlag flag) (ndim : ℕ) (c : Idx) :
    IsFlag (srcFlags interior flag) ∧ ∀ d ∈ validNbrs ndim (srcFlags interior flag) c, interior d = true ∧ flag d = 1 := by
  constructor
  · intro d; unfold srcFlags; split_ifs; exacts [hf d, Or.inl rfl]
  · intro d hd
    have := (mem_filter.mp hd).2
    unfold srcFlags at this
    split_ifs at this with h
    · exact ⟨h, this⟩
    · norm_num at this

/-! ## Particle purge -/

/-- The purge removes exactly the active particles at or inside the horizon, except that the particle in the last active
slot is never looked at; everything else is kept.

Partial form of C64. Full property: After a purge no active particle lies at or inside the horizon radius and every
particle outside is kept. Missing: The last active slot is never examined. -/
theorem purge_spec_partial (xh : ℝ) (maxActive : ℕ) (x : ℕ → ℝ) (active : ℕ → Bool)
    (hmax : active maxActive = true) (hlast : ∀ n, active n = true → n ≤ maxActive) (n : ℕ) :
    purge xh maxActive x active n = true ↔ active n = true ∧ (xh < x n ∨ n = maxActive) := by
  unfold purge
  constructor
  · intro h
    split_ifs at h with hc
    refine ⟨h, ?_⟩
    by_contra hn
    rw [not_or, not_lt] at hn
    have := hlast n h
    exact hc ⟨by omega, h, hn.1⟩
  · rintro ⟨ha, hx⟩
    rw [if_neg, ha]
    rintro ⟨h1, -, h3⟩
    rcases hx with hx | hx
    · linarith
    · omega

/-- A particle inside the horizon survives the purge. -/
theorem purge_misses_last : ∃ (xh : ℝ) (x : ℕ → ℝ) (active : ℕ → Bool) (n : ℕ), active n = true ∧
    (∀ m, active m = true → m ≤ n) ∧ x n ≤ xh ∧ purge xh n x active n = true := by
  refine ⟨1, fun _ => 0, fun n => decide (n ≤ 3), 3, by simp, fun m h => by simpa using h, by norm_num, ?_⟩
  rw [purge_spec_partial 1 3 _ _ (by simp) (fun m h => by simpa using h)]
  simp

/-- C23. What a repaired radiation moment is before the flux-factor ceiling: the mean over the neighbours that succeeded, or,
when there is none or floors are requested, the fixed tiny isotropic state.  No other case. -/
theorem rad_repaired (st : Strategy) (small : ℝ) (ndim : ℕ) (hd : ndim = 1 ∨ ndim = 2 ∨ ndim = 3) (flag : Idx → ℝ)
    (hf : IsFlag flag) (m : Idx → Mom) (c : Idx) :
    ((validNbrs ndim flag c).Nonempty → st = .interpolate →
      (radFill st small ndim flag m c).J = (∑ d ∈ validNbrs ndim flag c, (m d).J) / (validNbrs ndim flag c).card ∧
      ∀ l, (radFill st small ndim flag m c).H l = (∑ d ∈ validNbrs ndim flag c, (m d).H l) / (validNbrs ndim flag c).card) ∧
    (validNbrs ndim flag c = ∅ ∨ st = .floors →
      (radFill st small ndim flag m c).J = 10 * small ∧ ∀ l, (radFill st small ndim flag m c).H l = 0) := by
  constructor
  · intro hne hst
    have hn : numValid ndim flag c > 0.5 ∧ st = .interpolate := by
      refine ⟨?_, hst⟩
      rw [numValid_eq ndim hd flag hf]
      have : 1 ≤ (validNbrs ndim flag c).card := card_pos.mpr hne
      have : (1:ℝ) ≤ (validNbrs ndim flag c).card := by exact_mod_cast this
      norm_num; linarith
    simp only [radFill, if_pos hn, average_is_mean ndim hd flag hf, implies_true, and_self]
  · intro h
    have hn : ¬(numValid ndim flag c > 0.5 ∧ st = .interpolate) := by
      rintro ⟨h1, h2⟩
      rcases h with h | h
      · rw [numValid_eq ndim hd flag hf, h] at h1
        norm_num at h1
      · rw [h] at h2; cases h2
    simp [radFill, if_neg hn]

/-- C23. Without an electron fraction the repaired cell's pressure is the EOS pressure at `Ye = 1/2`, its conserved variables
are those of the repaired primitives and the conserved `Ye` slot is not written. -/
theorem repaired_without_ye (val : Bool) (P : Press) (L : Local) (cell : Cell) :
    let r := finish val false P L cell
    r.prim.P = P cell.prim.rho (cell.prim.u / cell.prim.rho) (1 / 2) ∧ r.cons.ye = cell.cons.ye ∧ r.ye = cell.ye ∧
    r.cons.D = (p2c val L.G L.gdet (1 / 2) r.prim).D ∧ r.cons.S = (p2c val L.G L.gdet (1 / 2) r.prim).S ∧
    r.cons.tau = (p2c val L.G L.gdet (1 / 2) r.prim).tau := by
  have : (0.5:ℝ) = 1 / 2 := by norm_num
  simp [finish, this]

end Phoebus.Repair
