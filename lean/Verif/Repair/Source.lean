import Verif.Repair.Props
import Verif.Closure.Model

/-!
# The whole of `SourceFixupImpl` (fixup_src.cpp): gas, radiation and conserved variables of a cell whose source update failed (C148)

A block is a map from cell indices to cell contents with every variable the kernel touches except the signal speeds (they are
those `prim2con::p2c` returns with the conserved variables) and the temperature (an EOS function of density, energy and Ye).  The
species are the elements of a type `S`; `clo` is `GetConTilPiFromPrim` of the closure in use and `stored` is the optional field
`tilPi` (`iTilPi.IsValid()`), which the kernel reads and does not write.
-/
namespace Phoebus.Repair
open Finset Geom Robust Rel Floors

variable {S : Type*}

/-- Everything the kernel reads or writes in one cell.
(Data type of the model of fixup_src.cpp:74-107.) -/
structure SrcCell (S : Type*) where
  gas : Cell
  rad : S → Mom
  E : S → ℝ
  F : S → Fin 3 → ℝ

/-- Gas primitives of a repaired cell before the velocity clamp, fixup_src.cpp:186-203 (mean of the neighbours) and 213-232 (fixed
state).  Unlike the repair after a failed inversion, no lower limit is applied to the means. -/
noncomputable def srcGas (st : Strategy) (hasYe : Bool) (small : ℝ) (ndim : ℕ) (P : Press) (flag : Idx → ℝ) (f : Idx → SrcCell S) (c : Idx) : Cell :=
  let q := (f c).gas.prim
  let ok := numValid ndim flag c > 0.5 ∧ st = .interpolate
  open Classical in
  let rho := if ok then average ndim flag (fun d => (f d).gas.prim.rho) c else 10 * small
  let u := if ok then average ndim flag (fun d => (f d).gas.prim.u) c else 10 * small
  let v : Fin 3 → ℝ := if ok then fun l => average ndim flag (fun d => (f d).gas.prim.v l) c else fun _ => 0
  let ye := if hasYe then (if ok then average ndim flag (fun d => (f d).gas.ye) c else 0.5) else (f c).gas.ye
  ⟨{ q with rho := rho, u := u, v := v, P := P rho (ratio small u rho) ye }, ye, (f c).gas.cons⟩

/-- The clamp and the Lorentz factor used below it, fixup_src.cpp:252-261: after a clamp the variable `W` is *set* to the ceiling. -/
noncomputable def srcClamp (L : Local) (v : Fin 3 → ℝ) : (Fin 3 → ℝ) × ℝ :=
  let W := lorentz L.G.gam v
  if W > L.gmax then (fun l => v l * rescale L.gmax W, L.gmax) else (v, W)

/-- `con_v`, fixup_src.cpp:262. -/
noncomputable def srcConV (L : Local) (v : Fin 3 → ℝ) : Fin 3 → ℝ := fun l => (srcClamp L v).1 l / (srcClamp L v).2

/-- The conserved moments of one species, fixup_src.cpp:303-321. -/
noncomputable def srcRadCons (clo : ADM ℝ → (Fin 3 → ℝ) → ℝ → (Fin 3 → ℝ) → Closure.Tens2) (stored : Option Closure.Tens2) (L : Local)
    (w : Fin 3 → ℝ) (m : Mom) : ℝ × (Fin 3 → ℝ) :=
  let H : Fin 3 → ℝ := fun l => m.J * m.H l
  let Pi := match stored with
    | some p => p
    | none => clo L.G w m.J H
  let r := Closure.prim2con false L.G w Pi m.J H
  (L.gdet * r.1, fun l => L.gdet * r.2 l)

/-- Repair of one cell, fixup_src.cpp:178-322. -/
noncomputable def srcCell (val hasYe : Bool) (st : Strategy) (small : ℝ) (ndim : ℕ) (P : Press)
    (clo : ADM ℝ → (Fin 3 → ℝ) → ℝ → (Fin 3 → ℝ) → Closure.Tens2) (stored : Idx → Option (S → Closure.Tens2)) (L : Idx → Local)
    (flag : Idx → ℝ) (f : Idx → SrcCell S) (c : Idx) : SrcCell S :=
  let g := srcGas st hasYe small ndim P flag f c
  let q : Prim := { g.prim with v := (srcClamp (L c) g.prim.v).1 }
  let d := p2c val (L c).G (L c).gdet (if hasYe then g.ye else 0) q
  let w := srcConV (L c) g.prim.v
  let m : S → Mom := fun s => radFill st small ndim flag (fun d => (f d).rad s) c
  ⟨⟨q, g.ye, { g.cons with D := d.D, S := d.S, tau := d.tau, ye := if hasYe then d.ye else g.cons.ye }⟩, m,
    fun s => (srcRadCons clo ((stored c).map fun p => p s) (L c) w (m s)).1,
    fun s => (srcRadCons clo ((stored c).map fun p => p s) (L c) w (m s)).2⟩

/-- One visit, fixup_src.cpp:148-323: only failed cells are written. -/
noncomputable def srcVisit (val hasYe : Bool) (st : Strategy) (small : ℝ) (ndim : ℕ) (P : Press)
    (clo : ADM ℝ → (Fin 3 → ℝ) → ℝ → (Fin 3 → ℝ) → Closure.Tens2) (stored : Idx → Option (S → Closure.Tens2)) (L : Idx → Local)
    (flag : Idx → ℝ) (f : Idx → SrcCell S) (c : Idx) : Idx → SrcCell S :=
  open Classical in
  if flag c = 0 then Function.update f c (srcCell val hasYe st small ndim P clo stored L flag f c) else f

/-- The run-time switches, fixup_src.cpp:68-75, 326-350. -/
structure SrcSwitches where
  radActive : Bool
  enableSourceFixup : Bool
  enableRadFloors : Bool
  method : String

/-- `SourceFixup`, fixup_src.cpp:326-350 and 68-75: what must hold for the kernel to be launched. -/
def SrcSwitches.launches (w : SrcSwitches) : Bool :=
  w.enableRadFloors && (w.method == "moment_m1" || w.method == "moment_eddington" || w.method == "mocmc") && w.radActive && w.enableSourceFixup

/-- `SourceFixup` on one block: the flags of the ghost cells are set to failure, then the interior is visited in the order of `order`,
fixup_src.cpp:128-323, 326-350. -/
noncomputable def sourceFixup (w : SrcSwitches) (interior : Idx → Bool) (val hasYe : Bool) (st : Strategy) (small : ℝ) (ndim : ℕ) (P : Press)
    (clo : ADM ℝ → (Fin 3 → ℝ) → ℝ → (Fin 3 → ℝ) → Closure.Tens2) (stored : Idx → Option (S → Closure.Tens2)) (L : Idx → Local)
    (flag : Idx → ℝ) (order : List Idx) (f : Idx → SrcCell S) : Idx → SrcCell S :=
  if w.launches then order.foldl (srcVisit val hasYe st small ndim P clo stored L (srcFlags interior flag)) f else f

/-! ## Specification -/

/-- Mean of a quantity over the face neighbours that lie in the interior of the block and whose source update succeeded. -/
noncomputable def goodMean (interior : Idx → Bool) (ndim : ℕ) (flag : Idx → ℝ) (c : Idx) (x : Idx → ℝ) : ℝ :=
  (∑ d ∈ (nbrs ndim c).filter fun d => interior d = true ∧ flag d = 1, x d) / ((nbrs ndim c).filter fun d => interior d = true ∧ flag d = 1).card

/-- Three-velocity of a gas whose velocity primitive is `v` (four-velocity components relative to the normal observer). -/
noncomputable def threeVel (G : ADM ℝ) (v : Fin 3 → ℝ) : Fin 3 → ℝ := fun l => v l / lorentz G.gam v

/-! ## Proofs -/

theorem srcFlags_isFlag (interior : Idx → Bool) (flag : Idx → ℝ) (hf : IsFlag flag) : IsFlag (srcFlags interior flag) := by
  intro c
  unfold srcFlags
  split_ifs
  · exact hf c
  · exact Or.inl rfl

theorem valid_srcFlags (interior : Idx → Bool) (flag : Idx → ℝ) (ndim : ℕ) (c : Idx) :
    validNbrs ndim (srcFlags interior flag) c = (nbrs ndim c).filter fun d => interior d = true ∧ flag d = 1 := by
  unfold validNbrs
  apply filter_congr
  intro d _
  unfold srcFlags
  by_cases h : interior d = true <;> simp [h]

theorem srcCell_congr (val hasYe : Bool) (st : Strategy) (small : ℝ) (ndim : ℕ) (hd : ndim = 1 ∨ ndim = 2 ∨ ndim = 3) (P : Press)
    (clo : ADM ℝ → (Fin 3 → ℝ) → ℝ → (Fin 3 → ℝ) → Closure.Tens2) (stored : Idx → Option (S → Closure.Tens2)) (L : Idx → Local)
    (flag : Idx → ℝ) (hf : IsFlag flag) (f g : Idx → SrcCell S) (h : ∀ d, flag d = 1 → f d = g d) (c : Idx)
    (hc : SameKept hasYe (f c).gas (g c).gas) :
    srcCell val hasYe st small ndim P clo stored L flag f c = srcCell val hasYe st small ndim P clo stored L flag g c := by
  have key : ∀ x : SrcCell S → ℝ, average ndim flag (fun d => x (f d)) c = average ndim flag (fun d => x (g d)) c := fun x =>
    average_congr ndim hd flag hf _ _ (fun d e => by rw [h d e]) c
  have hm : ∀ s, radFill st small ndim flag (fun d => (f d).rad s) c = radFill st small ndim flag (fun d => (g d).rad s) c := by
    intro s
    unfold radFill
    rw [key fun d => (d.rad s).J]
    simp only [fun l => key fun d => (d.rad s).H l]
  have hg : srcGas st hasYe small ndim P flag f c = { srcGas st hasYe small ndim P flag g c with cons := (f c).gas.cons } := by
    unfold srcGas
    simp only [key fun d => d.gas.prim.rho, key fun d => d.gas.prim.u, key fun d => d.gas.ye, fun l => key fun d => d.gas.prim.v l, hc.B]
    cases hasYe
    · simp [hc.ye rfl]
    · simp
  unfold srcCell
  simp only [hm, hg]
  obtain ⟨h1, h2, h3, h4⟩ := hc
  cases hasYe
  · simp [srcGas, h2, h4 rfl]
  · simp [srcGas, h2]

theorem srcCell_kept (val hasYe : Bool) (st : Strategy) (small : ℝ) (ndim : ℕ) (P : Press)
    (clo : ADM ℝ → (Fin 3 → ℝ) → ℝ → (Fin 3 → ℝ) → Closure.Tens2) (stored : Idx → Option (S → Closure.Tens2)) (L : Idx → Local)
    (flag : Idx → ℝ) (f : Idx → SrcCell S) (c : Idx) :
    SameKept hasYe (srcCell val hasYe st small ndim P clo stored L flag f c).gas (f c).gas := by
  unfold srcCell srcGas
  constructor <;> (try intro hy; subst hy) <;> simp

/-- C148. The result of the repair does not depend on the order in which the cells are visited, nor on how often one is: an interior
cell that failed gets the repair computed from the block before the kernel, every other cell keeps all it had; and nothing at all
happens unless radiation is active with a moment method and both the source fixup *and the radiation floors* are switched on. -/
theorem source_fixup_schedule (w : SrcSwitches) (interior : Idx → Bool) (val hasYe : Bool) (st : Strategy) (small : ℝ) (ndim : ℕ)
    (hd : ndim = 1 ∨ ndim = 2 ∨ ndim = 3) (P : Press) (clo : ADM ℝ → (Fin 3 → ℝ) → ℝ → (Fin 3 → ℝ) → Closure.Tens2)
    (stored : Idx → Option (S → Closure.Tens2)) (L : Idx → Local) (flag : Idx → ℝ) (hf : IsFlag flag) (order : List Idx)
    (hi : ∀ c ∈ order, interior c = true) (f : Idx → SrcCell S) (c : Idx) :
    sourceFixup w interior val hasYe st small ndim P clo stored L flag order f c =
      open Classical in
      if (w.enableRadFloors = true ∧ w.method ∈ ["moment_m1", "moment_eddington", "mocmc"] ∧ w.radActive = true ∧ w.enableSourceFixup = true) ∧
        c ∈ order ∧ flag c = 0 then srcCell val hasYe st small ndim P clo stored L (srcFlags interior flag) f c else f c := by
  have hl : w.launches = true ↔ (w.enableRadFloors = true ∧ w.method ∈ ["moment_m1", "moment_eddington", "mocmc"] ∧ w.radActive = true ∧
      w.enableSourceFixup = true) := by
    unfold SrcSwitches.launches
    simp [and_assoc, or_assoc]
  unfold sourceFixup
  by_cases hw : w.launches = true
  swap
  · rw [if_neg hw, if_neg (by rw [← hl]; tauto)]
  rw [if_pos hw]
  have hw' := hl.1 hw
  simp only [hw', true_and]
  have hfi : ∀ d ∈ order, (srcFlags interior flag d = 0 ↔ flag d = 0) := by
    intro d hd'
    simp [srcFlags, hi d hd']
  have hF := srcFlags_isFlag interior flag hf
  set fl := srcFlags interior flag with hfl
  suffices H : ∀ (order : List Idx) (g : Idx → SrcCell S), (∀ d, fl d = 1 → g d = f d) → (∀ d, SameKept hasYe (g d).gas (f d).gas) →
      List.foldl (srcVisit val hasYe st small ndim P clo stored L fl) g order c =
        open Classical in if c ∈ order ∧ fl c = 0 then srcCell val hasYe st small ndim P clo stored L fl f c else g c by
    rw [H order f (fun _ _ => rfl) (fun d => ⟨rfl, rfl, fun _ => rfl, fun _ => rfl⟩)]
    by_cases hc : c ∈ order
    · simp only [hc, true_and, hfi c hc]
    · simp [hc]
  intro order
  induction order with
  | nil => intro g _ _; simp
  | cons a t ih =>
    intro g hg hk
    rw [List.foldl_cons]
    by_cases ha : fl a = 0
    · have hv : srcVisit val hasYe st small ndim P clo stored L fl g a =
          Function.update g a (srcCell val hasYe st small ndim P clo stored L fl f a) := by
        unfold srcVisit
        rw [if_pos ha, srcCell_congr val hasYe st small ndim hd P clo stored L fl hF g f hg a (hk a)]
      rw [hv, ih]
      · by_cases hca : c = a
        · subst hca; simp [ha]
        · simp [hca, Function.update_of_ne]
      · intro d e
        rw [Function.update_of_ne, hg d e]
        rintro rfl; rw [ha] at e; norm_num at e
      · intro d
        by_cases hda : d = a
        · subst hda
          rw [Function.update_self]
          exact srcCell_kept val hasYe st small ndim P clo stored L fl f d
        · rw [Function.update_of_ne hda]; exact hk d
    · have hv : srcVisit val hasYe st small ndim P clo stored L fl g a = g := by unfold srcVisit; rw [if_neg ha]
      rw [hv, ih g hg hk]
      by_cases hca : c = a
      · subst hca; simp [ha]
      · simp [hca]

variable (val hasYe : Bool) (st : Strategy) (small : ℝ) (ndim : ℕ) (P : Press)
  (clo : ADM ℝ → (Fin 3 → ℝ) → ℝ → (Fin 3 → ℝ) → Closure.Tens2) (stored : Idx → Option (S → Closure.Tens2)) (L : Idx → Local)
  (interior : Idx → Bool) (flag : Idx → ℝ) (f : Idx → SrcCell S) (c : Idx)

private theorem valid_pos (hd : ndim = 1 ∨ ndim = 2 ∨ ndim = 3) (hf : IsFlag flag)
    (hne : ∃ d ∈ nbrs ndim c, interior d = true ∧ flag d = 1) : numValid ndim (srcFlags interior flag) c > 0.5 := by
  obtain ⟨d, h1, h2, h3⟩ := hne
  rw [numValid_eq ndim hd _ (srcFlags_isFlag interior flag hf), valid_srcFlags]
  have : 0 < ((nbrs ndim c).filter fun d => interior d = true ∧ flag d = 1).card :=
    card_pos.mpr ⟨d, mem_filter.2 ⟨h1, h2, h3⟩⟩
  have : (1:ℝ) ≤ ((nbrs ndim c).filter fun d => interior d = true ∧ flag d = 1).card := by exact_mod_cast this
  norm_num; linarith

private theorem avg_eq (hd : ndim = 1 ∨ ndim = 2 ∨ ndim = 3) (hf : IsFlag flag) (x : Idx → ℝ) :
    average ndim (srcFlags interior flag) x c = goodMean interior ndim flag c x := by
  rw [average_is_mean ndim hd _ (srcFlags_isFlag interior flag hf), valid_srcFlags]
  rfl

/-- C148. A failed cell with a good interior neighbour gets the plain means of the good neighbours: density, energy, Ye, and for every species the
energy density and the flux over the energy density; the velocity is their mean unless it is above the ceiling; the pressure is the EOS
pressure; the conserved gas variables are those of the repaired primitives; the field, primitive and conserved, stays. -/
theorem source_fixup_means (hd : ndim = 1 ∨ ndim = 2 ∨ ndim = 3) (hf : IsFlag flag)
    (hne : ∃ d ∈ nbrs ndim c, interior d = true ∧ flag d = 1) :
    let mean := goodMean interior ndim flag c
    let r := srcCell val true .interpolate small ndim P clo stored L (srcFlags interior flag) f c
    let vm : Fin 3 → ℝ := fun l => mean fun d => (f d).gas.prim.v l
    (r.gas.prim.rho = mean fun d => (f d).gas.prim.rho) ∧ (r.gas.prim.u = mean fun d => (f d).gas.prim.u) ∧
    (r.gas.ye = mean fun d => (f d).gas.ye) ∧
    (lorentz (L c).G.gam vm ≤ (L c).gmax → r.gas.prim.v = vm) ∧
    (∀ s, ((r.rad s).J = mean fun d => ((f d).rad s).J) ∧ ∀ l, (r.rad s).H l = mean fun d => ((f d).rad s).H l) ∧
    r.gas.prim.P = P r.gas.prim.rho (ratio small r.gas.prim.u r.gas.prim.rho) r.gas.ye ∧
    r.gas.prim.B = (f c).gas.prim.B ∧ r.gas.cons = { p2c val (L c).G (L c).gdet r.gas.ye r.gas.prim with B := (f c).gas.cons.B } := by
  intro mean r vm
  have hn := valid_pos ndim interior flag c hd hf hne
  have ha := avg_eq ndim interior flag c hd hf
  have hg : srcGas .interpolate true small ndim P (srcFlags interior flag) f c =
      ⟨⟨mean fun d => (f d).gas.prim.rho, mean fun d => (f d).gas.prim.u,
        P (mean fun d => (f d).gas.prim.rho) (ratio small (mean fun d => (f d).gas.prim.u) (mean fun d => (f d).gas.prim.rho))
          (mean fun d => (f d).gas.ye), vm, (f c).gas.prim.B⟩, mean fun d => (f d).gas.ye, (f c).gas.cons⟩ := by
    simp only [srcGas, ha, hn, and_self, if_true]
    rfl
  have hm : ∀ s, r.rad s = ⟨mean fun d => ((f d).rad s).J, fun l => mean fun d => ((f d).rad s).H l⟩ := by
    intro s
    simp only [r, srcCell, radFill, ha, hn, and_self, if_true]
    rfl
  have hr : r.gas = ⟨⟨mean fun d => (f d).gas.prim.rho, mean fun d => (f d).gas.prim.u,
        P (mean fun d => (f d).gas.prim.rho) (ratio small (mean fun d => (f d).gas.prim.u) (mean fun d => (f d).gas.prim.rho))
          (mean fun d => (f d).gas.ye), (srcClamp (L c) vm).1, (f c).gas.prim.B⟩, mean fun d => (f d).gas.ye, r.gas.cons⟩ := by
    simp only [r, srcCell, hg]
  have hc : r.gas.cons = { p2c val (L c).G (L c).gdet r.gas.ye r.gas.prim with B := (f c).gas.cons.B } := by
    simp only [r, srcCell, hg, if_true]
  refine ⟨by rw [hr], by rw [hr], by rw [hr], ?_, fun s => ⟨by rw [hm], fun l => by rw [hm]⟩, by rw [hr], by rw [hr], hc⟩
  intro hW
  rw [hr]
  show (srcClamp (L c) vm).1 = vm
  simp only [srcClamp]
  rw [if_neg (not_lt.mpr hW)]

/-- C148. Without a good interior neighbour, or with the floor strategy, the cell gets the fixed state at rest with vanishing radiation flux. -/
theorem source_fixup_fallback (hd : ndim = 1 ∨ ndim = 2 ∨ ndim = 3) (hf : IsFlag flag) (hg : 1 ≤ (L c).gmax)
    (h : (∀ d ∈ nbrs ndim c, interior d = true → flag d = 0) ∨ st = .floors) :
    let r := srcCell val hasYe st small ndim P clo stored L (srcFlags interior flag) f c
    r.gas.prim.rho = 10 * small ∧ r.gas.prim.u = 10 * small ∧ (r.gas.prim.v = fun _ => 0) ∧ (hasYe = true → r.gas.ye = 1 / 2) ∧
    ∀ s, (r.rad s).J = 10 * small ∧ (r.rad s).H = fun _ => 0 := by
  intro r
  have hn : ¬(numValid ndim (srcFlags interior flag) c > 0.5 ∧ st = .interpolate) := by
    rintro ⟨h1, h2⟩
    rcases h with h | h
    · rw [numValid_eq ndim hd _ (srcFlags_isFlag interior flag hf), valid_srcFlags] at h1
      rw [filter_eq_empty_iff.2] at h1
      · norm_num at h1
      · rintro d hd' ⟨e1, e2⟩
        rw [h d hd' e1] at e2; norm_num at e2
    · rw [h] at h2; cases h2
  have hl : lorentz (L c).G.gam (fun _ => 0) = 1 := by simp [lorentz]
  refine ⟨?_, ?_, ?_, ?_, ?_⟩
  · simp only [r, srcCell, srcGas, if_neg hn]
  · simp only [r, srcCell, srcGas, if_neg hn]
  · simp only [r, srcCell, srcGas, if_neg hn, srcClamp]
    rw [hl, if_neg (not_lt.mpr hg)]
  · intro hy
    simp only [r, srcCell, srcGas, if_neg hn, hy, if_true]; norm_num
  · intro s
    simp only [r, srcCell, radFill, if_neg hn, true_and]

/-- C148. Positive densities, energies and radiation energy densities stay positive: either the means of positive numbers or the fixed state. -/
theorem source_fixup_positive (hd : ndim = 1 ∨ ndim = 2 ∨ ndim = 3) (hf : IsFlag flag) (hs : 0 < small)
    (hp : ∀ d ∈ nbrs ndim c, interior d = true → flag d = 1 → 0 < (f d).gas.prim.rho ∧ 0 < (f d).gas.prim.u ∧ ∀ s, 0 < ((f d).rad s).J) :
    let r := srcCell val hasYe st small ndim P clo stored L (srcFlags interior flag) f c
    0 < r.gas.prim.rho ∧ 0 < r.gas.prim.u ∧ ∀ s, 0 < (r.rad s).J := by
  intro r
  have ha := avg_eq ndim interior flag c hd hf
  by_cases hn : numValid ndim (srcFlags interior flag) c > 0.5 ∧ st = .interpolate
  · have h1 := hn.1
    rw [numValid_eq ndim hd _ (srcFlags_isFlag interior flag hf), valid_srcFlags] at h1
    have hne : ((nbrs ndim c).filter fun d => interior d = true ∧ flag d = 1).Nonempty := by
      rw [← card_pos]
      by_contra h0
      have : ((nbrs ndim c).filter fun d => interior d = true ∧ flag d = 1).card = 0 := by omega
      rw [this] at h1; norm_num at h1
    have pos : ∀ x : Idx → ℝ, (∀ d ∈ nbrs ndim c, interior d = true → flag d = 1 → 0 < x d) → 0 < goodMean interior ndim flag c x := by
      intro x hx
      unfold goodMean
      refine div_pos (sum_pos (fun d hd' => ?_) hne) (by exact_mod_cast card_pos.2 hne)
      obtain ⟨e0, e1, e2⟩ := mem_filter.1 hd'
      exact hx d e0 e1 e2
    simp only [r, srcCell, srcGas, radFill, if_pos hn, ha]
    exact ⟨pos _ fun d a b e => (hp d a b e).1, pos _ fun d a b e => (hp d a b e).2.1, fun s => pos _ fun d a b e => (hp d a b e).2.2 s⟩
  · simp only [r, srcCell, srcGas, radFill, if_neg hn]
    exact ⟨by positivity, by positivity, fun _ => by positivity⟩

/-- C148 (partial). When the repaired velocity is below the ceiling and no pressure tensor is stored, the conserved radiation moments
are the closure's moments of the repaired cell, in the frame of the repaired gas.

Full property: a repaired cell is consistent: its conserved gas and radiation variables are those of its repaired primitives.  Missing:
above the ceiling the radiation is converted in another frame (`source_fixup_wrong_frame`), and with a stored pressure tensor the one of
the failed state is used (`source_fixup_stale_tensor`). -/
theorem source_fixup_consistent_partial
    (hW : lorentz (L c).G.gam (srcGas st hasYe small ndim P (srcFlags interior flag) f c).prim.v ≤ (L c).gmax) (hs : stored c = none) :
    let r := srcCell val hasYe st small ndim P clo stored L (srcFlags interior flag) f c
    let w := threeVel (L c).G r.gas.prim.v
    ∀ s, let H : Fin 3 → ℝ := fun l => (r.rad s).J * (r.rad s).H l
      r.E s = (L c).gdet * (Closure.prim2con false (L c).G w (clo (L c).G w (r.rad s).J H) (r.rad s).J H).1 ∧
      ∀ l, r.F s l = (L c).gdet * (Closure.prim2con false (L c).G w (clo (L c).G w (r.rad s).J H) (r.rad s).J H).2 l := by
  intro r w s H
  have hcl : srcClamp (L c) (srcGas st hasYe small ndim P (srcFlags interior flag) f c).prim.v =
      ((srcGas st hasYe small ndim P (srcFlags interior flag) f c).prim.v,
        lorentz (L c).G.gam (srcGas st hasYe small ndim P (srcFlags interior flag) f c).prim.v) := by
    simp only [srcClamp]
    rw [if_neg (not_lt.mpr hW)]
  have hv : srcConV (L c) (srcGas st hasYe small ndim P (srcFlags interior flag) f c).prim.v = w := by
    simp only [w, r, srcCell, hcl]
    funext l
    rw [srcConV, threeVel, hcl]
  constructor
  · simp only [r, srcCell, srcRadCons, hv, hs, Option.map_none]
    rfl
  · intro l
    simp only [r, srcCell, srcRadCons, hv, hs, Option.map_none]
    rfl

/-- C148 fails above the ceiling: the velocity stored and the velocity in which the radiation is converted are two different ones.  The
stored velocity has squared speed `(g² - 1) / (W² + g² - 2)`, the one handed to the closure `(g² - 1) / (g² (W² - 1))` (`g` the ceiling, `W` the
Lorentz factor of the mean); both are below light speed, and they agree only if `W² = 2`. -/
theorem source_fixup_wrong_frame (K : Local) (hp : PosDef K.G) (hg : 1 < K.gmax) (v : Fin 3 → ℝ) (hW : K.gmax < lorentz K.G.gam v) :
    K.G.dot3 (threeVel K.G (srcClamp K v).1) (threeVel K.G (srcClamp K v).1) = (K.gmax ^ 2 - 1) / (lorentz K.G.gam v ^ 2 + K.gmax ^ 2 - 2) ∧
    K.G.dot3 (srcConV K v) (srcConV K v) = (K.gmax ^ 2 - 1) / (K.gmax ^ 2 * (lorentz K.G.gam v ^ 2 - 1)) ∧
    K.G.dot3 (srcConV K v) (srcConV K v) < 1 ∧
    (srcConV K v = threeVel K.G (srcClamp K v).1 ↔ lorentz K.G.gam v ^ 2 = 2) := by
  have hl := lorentz_sq K.G hp v
  set g := K.gmax with hgd
  set W := lorentz K.G.gam v with hWd
  have hW1 : 1 < W := by linarith
  have hW2 : 0 < W ^ 2 - 1 := by nlinarith
  have hg2 : 0 < g ^ 2 - 1 := by nlinarith
  have hgW : g ^ 2 < W ^ 2 := by nlinarith
  have hvv : K.G.dot3 v v = W ^ 2 - 1 := by linarith
  have e1 : (srcClamp K v).1 = fun l => v l * rescale g W := by
    simp only [srcClamp]; rw [if_pos hW]
  have e2 : (srcClamp K v).2 = g := by
    simp only [srcClamp]; rw [if_pos hW]
  have hr : rescale g W ^ 2 = (g ^ 2 - 1) / (W ^ 2 - 1) ^ 2 := by
    unfold rescale
    rw [div_pow, Real.sq_sqrt (by nlinarith)]
    congr 1 <;> ring
  have hrp : 0 < rescale g W := by
    unfold rescale
    exact div_pos (Real.sqrt_pos.2 (by nlinarith)) (by nlinarith)
  have hsc : ∀ t : ℝ, K.G.dot3 (fun l => v l * t) (fun l => v l * t) = t ^ 2 * (W ^ 2 - 1) := by
    intro t
    rw [← hvv]
    simp only [ADM.dot3, Fin.sum_univ_three]
    ring
  have hL2 : lorentz K.G.gam (fun l => v l * rescale g W) ^ 2 = (W ^ 2 + g ^ 2 - 2) / (W ^ 2 - 1) := by
    have := rescaled_lorentz K.G hp v g hg.le hW1
    rw [← hWd] at this
    rw [this]; field_simp; ring
  have hLp : 0 < lorentz K.G.gam (fun l => v l * rescale g W) := by
    have := lorentz_ge_one K.G hp (fun l => v l * rescale g W)
    linarith
  have ht : threeVel K.G (srcClamp K v).1 = fun l => v l * (rescale g W / lorentz K.G.gam (fun l => v l * rescale g W)) := by
    funext l
    rw [threeVel, e1]; ring
  have hc : srcConV K v = fun l => v l * (rescale g W / g) := by
    funext l
    rw [srcConV, e1, e2]; ring
  have s1 : K.G.dot3 (threeVel K.G (srcClamp K v).1) (threeVel K.G (srcClamp K v).1) = (g ^ 2 - 1) / (W ^ 2 + g ^ 2 - 2) := by
    rw [ht, hsc, div_pow, hr, hL2]
    have : 0 < W ^ 2 + g ^ 2 - 2 := by linarith
    field_simp
  have s2 : K.G.dot3 (srcConV K v) (srcConV K v) = (g ^ 2 - 1) / (g ^ 2 * (W ^ 2 - 1)) := by
    rw [hc, hsc, div_pow, hr]
    field_simp
  refine ⟨s1, s2, ?_, ?_⟩
  · rw [s2, div_lt_one (by positivity)]
    nlinarith
  · constructor
    · intro h
      rw [h, s1] at s2
      have hp1 : W ^ 2 + g ^ 2 - 2 ≠ 0 := by nlinarith
      rw [div_eq_div_iff hp1 (by positivity)] at s2
      have : g ^ 2 * (W ^ 2 - 1) = W ^ 2 + g ^ 2 - 2 := mul_left_cancel₀ hg2.ne' s2
      have : (g ^ 2 - 1) * (W ^ 2 - 2) = 0 := by linarith
      rcases mul_eq_zero.1 this with h | h
      · linarith
      · linarith
    · intro h
      have : lorentz K.G.gam (fun l => v l * rescale g W) = g := by
        have h2 : lorentz K.G.gam (fun l => v l * rescale g W) ^ 2 = g ^ 2 := by rw [hL2, h]; ring
        exact (pow_left_inj₀ hLp.le (by linarith) two_ne_zero).1 h2
      rw [hc, ht, this]

/-- C148 fails above the ceiling: an isotropic radiation field carried along by neighbours moving at Lorentz factor 3 under a ceiling of
2 is stored with the energy `33/29` where the repaired gas velocity demands `3/2`. -/
theorem source_fixup_inconsistent : ∃ (K : Local) (f : Idx → SrcCell Unit) (flag : Idx → ℝ) (c : Idx), K.G.Valid ∧ PosDef K.G ∧ 1 < K.gmax ∧
    IsFlag flag ∧ flag c = 0 ∧ (∃ d ∈ nbrs 1 c, flag d = 1) ∧
    let r := srcCell true true .interpolate 0 1 (fun rho e _ => rho * e / 3) (fun _ _ _ _ _ _ => 0) (fun _ => none) (fun _ => K) (srcFlags (fun _ => true) flag) f c
    r.E () = 33 / 29 ∧ K.gdet * (Closure.prim2con false K.G (threeVel K.G r.gas.prim.v) (fun _ _ => 0) (r.rad ()).J
      (fun l => (r.rad ()).J * (r.rad ()).H l)).1 = 3 / 2 := by
  let K : Local := ⟨C2P.flat, 1, 2⟩
  let v : Fin 3 → ℝ := ![Real.sqrt 8, 0, 0]
  let f : Idx → SrcCell Unit := fun _ => ⟨⟨⟨1, 1, 1, v, fun _ => 0⟩, 0, ⟨0, fun _ => 0, fun _ => 0, 0, 0⟩⟩, fun _ => ⟨1, fun _ => 0⟩, fun _ => 0, fun _ _ => 0⟩
  let flag : Idx → ℝ := fun d => if d = (0, 0, 0) then 0 else 1
  have hflag : IsFlag flag := by intro d; by_cases h : d = (0, 0, 0) <;> simp [flag, h]
  have hne : ∃ d ∈ nbrs 1 (0, 0, 0), flag d = 1 := ⟨(0, 0, 1), by simp [nbrs], by simp [flag]⟩
  refine ⟨K, f, flag, (0, 0, 0), C2P.flat_valid.1, C2P.flat_valid.2, by norm_num [K], hflag, by simp [flag], hne, ?_⟩
  intro r
  have hne' : ∃ d ∈ nbrs 1 (0, 0, 0), (fun _ : Idx => true) d = true ∧ flag d = 1 := by
    obtain ⟨d, h1, h2⟩ := hne; exact ⟨d, h1, rfl, h2⟩
  have hmean : ∀ x : ℝ, goodMean (fun _ => true) 1 flag (0, 0, 0) (fun _ => x) = x := by
    intro x
    unfold goodMean
    rw [sum_const, nsmul_eq_mul, mul_comm]
    obtain ⟨d, h1, h2, h3⟩ := hne'
    have : 0 < ((nbrs 1 (0, 0, 0)).filter fun d => (fun _ : Idx => true) d = true ∧ flag d = 1).card := card_pos.2 ⟨d, mem_filter.2 ⟨h1, h2, h3⟩⟩
    have : ((((nbrs 1 (0, 0, 0)).filter fun d => (fun _ : Idx => true) d = true ∧ flag d = 1).card : ℕ) : ℝ) ≠ 0 := by exact_mod_cast this.ne'
    exact mul_div_cancel_right₀ x this
  have hn := valid_pos 1 (fun _ => true) flag (0, 0, 0) (Or.inl rfl) hflag hne'
  have ha := avg_eq 1 (fun _ => true) flag (0, 0, 0) (Or.inl rfl) hflag
  have hgv : (srcGas .interpolate true 0 1 (fun rho e _ => rho * e / 3) (srcFlags (fun _ => true) flag) f (0, 0, 0)).prim.v = v := by
    simp only [srcGas, ha, hn, and_self, if_true, f]
    funext l; exact hmean _
  have hrad : r.rad () = ⟨1, fun _ => 0⟩ := by
    simp only [r, srcCell, radFill, ha, hn, and_self, if_true, f, hmean]
  have h8 : Real.sqrt 8 ^ 2 = 8 := Real.sq_sqrt (by norm_num)
  have hlv : lorentz K.G.gam v = 3 := by
    simp only [lorentz, K, C2P.flat, Fin.sum_univ_three, v]
    simp
    rw [show (1:ℝ) + 8 = 3 ^ 2 by norm_num]
    exact Real.sqrt_sq (by norm_num)
  have hcl : K.gmax < lorentz K.G.gam v := by rw [hlv]; norm_num [K]
  obtain ⟨q1, q2, -, -⟩ := source_fixup_wrong_frame K C2P.flat_valid.2 (by norm_num [K]) v hcl
  rw [hlv] at q1 q2
  have hE : ∀ w : Fin 3 → ℝ, (Closure.prim2con false K.G w (fun _ _ => 0) 1 (fun _ => 0)).1 = (4 * Closure.W2 K.G w - 1) / 3 := by
    intro w
    simp [Closure.prim2con, Closure.vvPi, Closure.conVPi, Closure.cc]
  have hW2 : ∀ w : Fin 3 → ℝ, K.G.dot3 w w ≤ 0.9999 → Closure.W2 K.G w = 1 / (1 - K.G.dot3 w w) := by
    intro w hw
    have e : Closure.v2 K.G w = K.G.dot3 w w := by
      have : Closure.cc w (Closure.lower K.G w) = K.G.dot3 w w := by
        simp only [Closure.cc, Closure.lower, ADM.dot3, Fin.sum_univ_three]; ring
      rw [Closure.v2, this]; exact min_eq_left hw
    rw [Closure.W2, Closure.W, e]
    rw [div_mul_div_comm, Real.mul_self_sqrt (by norm_num at hw; linarith)]
    norm_num
  constructor
  · have : r.E () = 1 * (Closure.prim2con false K.G (srcConV K v) (fun _ _ => 0) (r.rad ()).J (fun l => (r.rad ()).J * (r.rad ()).H l)).1 := by
      simp only [r, srcCell, srcRadCons, hgv, Option.map_none]
      rfl
    rw [this, hrad]
    simp only [mul_zero, one_mul]
    rw [hE, hW2 _ (by rw [q2]; norm_num [K]), q2]
    norm_num [K]
  · have hv' : r.gas.prim.v = (srcClamp K v).1 := by
      simp only [r, srcCell, hgv]
    rw [hv', hrad]
    simp only [mul_zero]
    rw [hE, hW2 _ (by rw [q1]; norm_num [K]), q1]
    norm_num [K]

/-- C148 fails with a stored pressure tensor: the tensor of the *failed* cell is kept and used, so two blocks which differ only in the tensor left
behind in the failed cell are repaired to different conserved energies, by `√γ W² J v_i v_j (π^ij - π'^ij)`. -/
theorem source_fixup_stale_tensor (p p' : S → Closure.Tens2) (s : S)
    (stored' : Idx → Option (S → Closure.Tens2)) (h : stored c = some p) (h' : stored' c = some p') :
    let r := srcCell val hasYe st small ndim P clo stored L (srcFlags interior flag) f c
    let r' := srcCell val hasYe st small ndim P clo stored' L (srcFlags interior flag) f c
    let w := srcConV (L c) (srcGas st hasYe small ndim P (srcFlags interior flag) f c).prim.v
    r.rad s = r'.rad s ∧ r.gas = r'.gas ∧
    r.E s - r'.E s = (L c).gdet * (Closure.W2 (L c).G w * (r.rad s).J *
      ∑ i, ∑ j, Closure.lower (L c).G w i * Closure.lower (L c).G w j * (p s i j - p' s i j)) := by
  intro r r' w
  refine ⟨rfl, rfl, ?_⟩
  have e : ∀ q : Closure.Tens2, (srcRadCons clo (some q) (L c) w (r.rad s)).1 = (L c).gdet * (Closure.prim2con false (L c).G w q (r.rad s).J
      (fun l => (r.rad s).J * (r.rad s).H l)).1 := fun q => rfl
  have e1 : r.E s = (srcRadCons clo (some (p s)) (L c) w (r.rad s)).1 := by
    simp only [r, srcCell, h, Option.map_some]; rfl
  have e2 : r'.E s = (srcRadCons clo (some (p' s)) (L c) w (r.rad s)).1 := by
    simp only [r', r, srcCell, h', Option.map_some]; rfl
  rw [e1, e2, e, e]
  simp only [Closure.prim2con, Closure.vvPi, Closure.conVPi, Fin.sum_univ_three, Bool.false_eq_true, if_false]
  ring

/-- C148 (case). A failed interior cell between a good interior cell and a ghost cell: the hypotheses of the theorems above are met. -/
theorem ex_source_fixup : ∃ (interior : Idx → Bool) (flag : Idx → ℝ) (c : Idx), IsFlag flag ∧ interior c = true ∧ flag c = 0 ∧
    (∃ d ∈ nbrs 1 c, interior d = true ∧ flag d = 1) ∧ (∃ d ∈ nbrs 1 c, interior d = false ∧ flag d = 1) ∧
    ∀ x : Idx → ℝ, goodMean interior 1 flag c x = x (0, 0, 1) := by
  refine ⟨fun d => decide (0 ≤ d.2.2), fun d => if d = (0, 0, 0) then 0 else 1, (0, 0, 0), ?_, by simp, by simp,
    ⟨(0, 0, 1), by simp [nbrs], by simp, by simp⟩, ⟨(0, 0, -1), by simp [nbrs], by simp, by simp⟩, ?_⟩
  · intro d; dsimp only; split_ifs <;> simp
  · intro x
    have : ((nbrs 1 (0, 0, 0)).filter fun d : Idx => decide (0 ≤ d.2.2) = true ∧ (if d = (0, 0, 0) then (0:ℝ) else 1) = 1) = {(0, 0, 1)} := by
      ext d
      simp only [nbrs, mem_filter, mem_union, mem_insert, mem_singleton]
      norm_num
      constructor
      · rintro ⟨rfl | rfl, h⟩
        · simp at h
        · rfl
      · rintro rfl; simp
    unfold goodMean
    rw [this]; simp

end Phoebus.Repair
