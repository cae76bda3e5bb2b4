import Verif.MonteCarlo.Model
import Verif.Tetrads.Props
import Mathlib.MeasureTheory.Integral.IntervalIntegral.Basic
import Mathlib.MeasureTheory.Integral.IntervalIntegral.FundThmCalculus
import Mathlib.Analysis.SpecialFunctions.Integrals.Basic

/-!
# Monte Carlo emission: how many packets, which frequencies, which directions, which slots (C65, C66, C67, C68)
-/
namespace Phoebus.MonteCarlo
open Finset Geom GeomUtils MeasureTheory

/-- Specification: `ν J(ν)` at the frequency samples. -/
noncomputable def nuJ (c : Cfg) (J : ℝ → ℝ) (n : ℕ) : ℝ := c.nusamp n * J (c.nusamp n)

/-- Specification: the trapezoidal rule for `∫ J dν = ∫ ν J dlnν` on the code's frequency grid. -/
noncomputable def trapezoid (c : Cfg) (J : ℝ → ℝ) : ℝ := ∑ n ∈ range c.bins, (nuJ c J n + nuJ c J (n + 1)) / 2 * c.dlnu

/-- Specification: sensible parameters. -/
structure Cfg.Ok (c : Cfg) : Prop where
  h : 0 < c.h
  w : 0 < c.wgtC
  nu : 0 < c.nuMin
  nu' : c.nuMin < c.nuMax
  bins : 0 < c.bins
  d3x : 0 < c.d3x
  detG : 0 < c.detG
  dt : 0 < c.dt

variable {c : Cfg} {J : ℝ → ℝ}

/-- **C67** The frequency grid is logarithmic and exactly spans the configured range: it starts at `nuMin`, ends at `nuMax`, and consecutive
samples have the same ratio. -/
theorem nusamp_grid (c : Cfg) (h0 : 0 < c.nuMin) (h1 : 0 < c.nuMax) (hb : 0 < c.bins) :
    c.nusamp 0 = c.nuMin ∧ c.nusamp c.bins = c.nuMax ∧ ∀ n, c.nusamp (n + 1) / c.nusamp n = c.nusamp 1 / c.nuMin := by
  have hb' : (c.bins : ℝ) ≠ 0 := by exact_mod_cast hb.ne'
  have e0 : c.nusamp 0 = c.nuMin := by unfold Cfg.nusamp; simp [Real.exp_log h0]
  refine ⟨e0, ?_, fun n => ?_⟩
  · unfold Cfg.nusamp Cfg.dlnu
    rw [mul_div_cancel₀ _ hb', add_sub_cancel, Real.exp_log h1]
  · have a : c.nusamp 1 / c.nuMin = Real.exp c.dlnu := by
      unfold Cfg.nusamp
      rw [Real.exp_add, Real.exp_log h0]; simp; field_simp
    have b : c.nusamp (n + 1) = c.nusamp n * Real.exp c.dlnu := by
      unfold Cfg.nusamp
      rw [← Real.exp_add]; push_cast; ring_nf
    rw [a, b]; have := Real.exp_pos (Real.log c.nuMin + n * c.dlnu); unfold Cfg.nusamp; field_simp

/-- non-vacuity: 4 bins between `1` and `16` are the powers of two. -/
example : let c : Cfg := ⟨1, 1, 1, 16, 4, 1, 1, 1⟩; c.nusamp 0 = 1 ∧ c.nusamp 4 = 16 := by
  intro c
  have := nusamp_grid c (by norm_num [c]) (by norm_num [c]) (by norm_num [c])
  exact ⟨this.1, this.2.1⟩

theorem nusamp_pos (c : Cfg) (n : ℕ) : 0 < c.nusamp n := Real.exp_pos _

theorem Cfg.Ok.dlnu_pos (h : c.Ok) : 0 < c.dlnu := by
  have := Real.log_lt_log h.nu h.nu'
  have hb : (0 : ℝ) < c.bins := by exact_mod_cast h.bins
  unfold Cfg.dlnu; exact div_pos (by linarith) hb

theorem Cfg.Ok.span (h : c.Ok) : c.lnuMax - c.lnuMin = c.bins * c.dlnu := by
  have hb : (c.bins : ℝ) ≠ 0 := by exact_mod_cast h.bins.ne'
  unfold Cfg.dlnu Cfg.lnuMax Cfg.lnuMin; field_simp

theorem raw_eq (h : c.Ok) (n : ℕ) : dNdlnuRaw c J n = c.d3x * c.detG / (c.h * c.wgtC) * nuJ c J n := by
  have h1 := h.h.ne'; have h2 := h.w.ne'; have h3 := (nusamp_pos c n).ne'
  unfold dNdlnuRaw getWeight nuJ; field_simp

theorem foldl_add_range (f : ℕ → ℝ) (n : ℕ) : (List.range n).foldl (fun s k => s + f k) 0 = ∑ k ∈ range n, f k := by
  induction n with
  | zero => simp
  | succ n ih => rw [List.range_succ, List.foldl_append, ih, sum_range_succ]; rfl

theorem trap_sum (f : ℕ → ℝ) (n : ℕ) :
    ∑ k ∈ range n, (f k + f (k + 1)) / 2 = ∑ k ∈ range (n + 1), f k - f 0 / 2 - f n / 2 := by
  induction n with
  | zero => simp; ring
  | succ n ih => rw [sum_range_succ, ih, sum_range_succ _ (n + 1)]; ring

/-- **C65** the mean packet number is the trapezoidal emission integral over the energy of a packet. -/
theorem dN_energy (h : c.Ok) : c.h * c.wgtC * dN c J = c.d3x * c.detG * c.dt * trapezoid c J := by
  have h1 := h.h.ne'; have h2 := h.w.ne'
  have e : ∀ n, J (c.nusamp n) / (c.h * c.nusamp n * getWeight c.wgtC (c.nusamp n)) * (c.nusamp n * c.dlnu)
      = c.dlnu / (c.h * c.wgtC) * nuJ c J n := fun n => by
    have h3 := (nusamp_pos c n).ne'
    unfold getWeight nuJ; field_simp
  have e2 : ∀ n, 1 / 2 * J (c.nusamp n) / (c.h * getWeight c.wgtC (c.nusamp n)) * c.dlnu
      = c.dlnu / (c.h * c.wgtC) * (nuJ c J n / 2) := fun n => by
    have h3 := (nusamp_pos c n).ne'
    unfold getWeight nuJ; field_simp
  unfold dN
  rw [foldl_add_range]
  simp only [e, e2, ← mul_sum]
  unfold trapezoid
  rw [← sum_mul, trap_sum]
  field_simp

theorem trunc_of_nonneg {x : ℝ} (h : 0 ≤ x) : trunc x = ⌊x⌋ := if_pos h

theorem roundNs_eq {x : ℝ} (h : 0 ≤ x) (u : ℝ) : (roundNs x u : ℝ) = ⌊x⌋ + if u < Int.fract x then 1 else 0 := by
  unfold roundNs
  rw [trunc_of_nonneg h]
  have : x - (⌊x⌋ : ℝ) = Int.fract x := rfl
  rw [this]
  by_cases hc : u < Int.fract x
  · rw [if_pos hc, if_pos hc]; push_cast; rfl
  · rw [if_neg hc, if_neg hc]; simp

/-- **C65** randomised rounding is never off by one packet or more, never negative, and gives nothing when nothing is due. -/
theorem roundNs_close {x : ℝ} (h : 0 ≤ x) {u : ℝ} (hu : 0 ≤ u) :
    |(roundNs x u : ℝ) - x| < 1 ∧ 0 ≤ roundNs x u ∧ (x = 0 → roundNs x u = 0) := by
  have h1 := Int.fract_nonneg x
  have h2 := Int.fract_lt_one x
  have h3 := Int.floor_add_fract x
  have hf : (0 : ℝ) ≤ ⌊x⌋ := by exact_mod_cast Int.floor_nonneg.2 h
  have he := roundNs_eq h u
  refine ⟨?_, ?_, ?_⟩
  · rw [he, abs_lt]
    split_ifs with hc
    · constructor <;> linarith
    · constructor <;> linarith
  · have : (0 : ℝ) ≤ roundNs x u := by rw [he]; split_ifs <;> linarith
    exact_mod_cast this
  · rintro rfl
    have : (roundNs 0 u : ℝ) = 0 := by rw [he]; simp [hu]
    exact_mod_cast this

/-- **C65** randomised rounding is unbiased: averaged over the uniform draw the number of packets is the real number due. -/
theorem roundNs_mean {x : ℝ} (h : 0 ≤ x) : ∫ u in (0 : ℝ)..1, (roundNs x u : ℝ) = x := by
  have h1 := Int.fract_nonneg x
  have h2 := Int.fract_lt_one x
  have e : (fun u => (roundNs x u : ℝ)) = fun u => (⌊x⌋ : ℝ) + (Set.Iio (Int.fract x)).indicator (fun _ => (1 : ℝ)) u := by
    funext u
    rw [roundNs_eq h]
    rfl
  rw [e, intervalIntegral.integral_add (by simp)]
  · rw [intervalIntegral.integral_const]
    have : ∫ u in (0 : ℝ)..1, (Set.Iio (Int.fract x)).indicator (fun _ => (1 : ℝ)) u = Int.fract x := by
      rw [intervalIntegral.integral_of_le zero_le_one, integral_indicator measurableSet_Iio,
        Measure.restrict_restrict measurableSet_Iio, setIntegral_const]
      have hs : Set.Iio (Int.fract x) ∩ Set.Ioc 0 1 = Set.Ioo 0 (Int.fract x) := by
        ext y; simp only [Set.mem_inter_iff, Set.mem_Iio, Set.mem_Ioc, Set.mem_Ioo]
        constructor
        · rintro ⟨a, b, _⟩; exact ⟨b, a⟩
        · rintro ⟨a, b⟩; exact ⟨b, a, by linarith⟩
      rw [hs]; simp [h1]
    rw [this]
    have := Int.floor_add_fract x
    simp
  · rw [intervalIntegrable_iff]
    refine IntegrableOn.indicator ?_ measurableSet_Iio
    simp [integrableOn_const_iff]

/-- the energy at rest of every packet, whatever its frequency. -/
theorem packet_energy (c : Cfg) (f : ℝ) {nu : ℝ} (hn : 0 < nu) :
    packetWeight c f nu * (c.h * nu) = c.h * c.wgtC / f := by
  unfold packetWeight getWeight; field_simp

/-- **C65** the energy emitted by a cell in a step, averaged over the rounding draw, is the emission integral of the cell
times its four-volume: neither the base weight nor the tuning factor matters. -/
theorem mean_emitted_energy (h : c.Ok) (hJ : ∀ nu, 0 ≤ J nu) {f : ℝ} (hf : 0 < f) {nu : ℝ} (hn : 0 < nu) :
    (∫ u in (0 : ℝ)..1, (numPackets c J f u : ℝ)) * (packetWeight c f nu * (c.h * nu)) =
      c.d3x * c.detG * c.dt * trapezoid c J := by
  have h0 : 0 ≤ dN c J := by
    have := dN_energy h (J := J)
    have ht : 0 ≤ trapezoid c J := sum_nonneg fun n _ => mul_nonneg (by
      have a := mul_nonneg (nusamp_pos c n).le (hJ (c.nusamp n))
      have b := mul_nonneg (nusamp_pos c (n + 1)).le (hJ (c.nusamp (n + 1)))
      unfold nuJ; linarith) h.dlnu_pos.le
    have hp := mul_pos h.h h.w
    have hv := mul_pos (mul_pos h.d3x h.detG) h.dt
    have : 0 ≤ c.h * c.wgtC * dN c J := by rw [this]; exact mul_nonneg hv.le ht
    exact nonneg_of_mul_nonneg_right this hp
  unfold numPackets
  rw [roundNs_mean (mul_nonneg hf.le h0), packet_energy c f hn, ← dN_energy h]
  field_simp

/-! ## C66: slots of new packets -/
section Index
variable {Z : Type*} [DecidableEq Z]

theorem fill_aux (cnt : Z → ℕ) (zones : List Z) (hn : zones.Nodup) (st : Z → ℕ) (i0 : ℕ) :
    let r := zones.foldl (fun (s : (Z → ℕ) × ℕ) z => (Function.update s.1 z s.2, s.2 + cnt z)) (st, i0)
    r.2 = i0 + (zones.map cnt).sum ∧ (∀ z, z ∉ zones → r.1 z = st z) ∧
    ∀ m, i0 ≤ m → m < i0 + (zones.map cnt).sum → ∃! p : Z × ℕ, p.1 ∈ zones ∧ p.2 < cnt p.1 ∧ r.1 p.1 + p.2 = m := by
  induction zones generalizing st i0 with
  | nil => refine ⟨by simp, by simp, fun m h1 h2 => ?_⟩; simp at h2; omega
  | cons z l ih =>
    have hl := (List.nodup_cons.1 hn)
    obtain ⟨a1, a2, a3⟩ := ih hl.2 (Function.update st z i0) (i0 + cnt z)
    simp only [List.foldl_cons, List.map_cons, List.sum_cons]
    refine ⟨by rw [a1]; omega, fun y hy => ?_, fun m h1 h2 => ?_⟩
    · rw [a2 y (fun h => hy (List.mem_cons_of_mem _ h)), Function.update_of_ne (fun h => hy (by rw [h]; exact List.mem_cons_self))]
    · have hz := a2 z hl.1
      rw [Function.update_self] at hz
      by_cases hm : m < i0 + cnt z
      · refine ⟨(z, m - i0), ⟨List.mem_cons_self, by simp; omega, by simp only [hz]; omega⟩, ?_⟩
        rintro ⟨y, n⟩ ⟨hy, hc, he⟩
        simp only at hy hc he
        rcases List.mem_cons.1 hy with rfl | hy
        · simp only [hz] at he; simp; omega
        · exfalso
          have hge : i0 + cnt z ≤ (l.foldl (fun (s : (Z → ℕ) × ℕ) z => (Function.update s.1 z s.2, s.2 + cnt z))
              (Function.update st z i0, i0 + cnt z)).1 y := fill_ge cnt l y hy _ _
          omega
      · obtain ⟨⟨y, n⟩, ⟨hy, hc, he⟩, hu⟩ := a3 m (by omega) (by omega)
        refine ⟨(y, n), ⟨List.mem_cons_of_mem _ hy, hc, he⟩, ?_⟩
        rintro ⟨y', n'⟩ ⟨hy', hc', he'⟩
        simp only at hy' hc' he'
        rcases List.mem_cons.1 hy' with rfl | hy'
        · rw [hz] at he'; omega
        · exact hu (y', n') ⟨hy', hc', he'⟩
where
  fill_ge (cnt : Z → ℕ) (l : List Z) (y : Z) (hy : y ∈ l) (st : Z → ℕ) (i : ℕ) :
      i ≤ (l.foldl (fun (s : (Z → ℕ) × ℕ) z => (Function.update s.1 z s.2, s.2 + cnt z)) (st, i)).1 y := by
    induction l generalizing st i with
    | nil => simp at hy
    | cons z l ih =>
      simp only [List.foldl_cons]
      by_cases h : y ∈ l
      · exact le_trans (Nat.le_add_right _ _) (ih h _ _)
      · have : y = z := by rcases List.mem_cons.1 hy with h' | h'; exacts [h', absurd h' h]
        subst this
        have key : ∀ (l : List Z), y ∉ l → ∀ (st : Z → ℕ) (i : ℕ),
            (l.foldl (fun (s : (Z → ℕ) × ℕ) z => (Function.update s.1 z s.2, s.2 + cnt z)) (st, i)).1 y = st y := by
          intro l
          induction l with
          | nil => intros; rfl
          | cons w l ih =>
            intro hw st i
            simp only [List.foldl_cons]
            rw [ih (fun h => hw (List.mem_cons_of_mem _ h)), Function.update_of_ne (fun h => hw (by rw [h]; exact List.mem_cons_self))]
        rw [key l h]; simp

theorem zoneList_mem (ns nk nj ni : ℕ) (z : Fin ns × Fin nk × Fin nj × Fin ni) : z ∈ zoneList ns nk nj ni := by
  obtain ⟨s, k, j, i⟩ := z
  simp [zoneList]

theorem nodup_flatMap_pair {A B : Type*} (l : List A) (hl : l.Nodup) (m : List B) (hm : m.Nodup) :
    (l.flatMap fun a => m.map fun b => (a, b)).Nodup := by
  rw [List.nodup_flatMap]
  refine ⟨fun a _ => hm.map fun x y h => (Prod.mk.inj h).2, ?_⟩
  refine hl.imp_of_mem fun {a b} _ _ hab => ?_
  intro x hx hy
  simp at hx hy
  obtain ⟨_, _, rfl⟩ := hx
  obtain ⟨_, _, h⟩ := hy
  exact hab (Prod.mk.inj h).1.symm

theorem zoneList_nodup (ns nk nj ni : ℕ) : (zoneList ns nk nj ni).Nodup := by
  have e : zoneList ns nk nj ni = (List.finRange ns).flatMap fun s =>
      ((List.finRange nk).flatMap fun k => ((List.finRange nj).flatMap fun j => (List.finRange ni).map fun i => (j, i)).map
        fun b => (k, b)).map fun b => (s, b) := by
    simp [zoneList, List.map_flatMap, Function.comp_def]
  rw [e]
  exact nodup_flatMap_pair _ (List.nodup_finRange _) _ (nodup_flatMap_pair _ (List.nodup_finRange _) _
    (nodup_flatMap_pair _ (List.nodup_finRange _) _ (List.nodup_finRange _)))

/-- **C66** the new packets of a block, over all species and cells, are numbered `0 … Nstot-1`: every slot is used by exactly
one packet, no packet falls outside, for every number of packets per cell. -/
theorem packet_slots (ns nk nj ni : ℕ) (cnt : Fin ns × Fin nk × Fin nj × Fin ni → ℕ) :
    (∀ z n, n < cnt z → packetIndex cnt (zoneList ns nk nj ni) z n < ∑ z, cnt z) ∧
    ∀ m < ∑ z, cnt z, ∃! p : (Fin ns × Fin nk × Fin nj × Fin ni) × ℕ, p.2 < cnt p.1 ∧
      packetIndex cnt (zoneList ns nk nj ni) p.1 p.2 = m := by
  obtain ⟨a1, -, a3⟩ := fill_aux cnt _ (zoneList_nodup ns nk nj ni) (fun _ => 0) 0
  have hsum : ((zoneList ns nk nj ni).map cnt).sum = ∑ z, cnt z := by
    rw [← List.sum_toFinset _ (zoneList_nodup ns nk nj ni)]
    refine Finset.sum_congr ?_ fun _ _ => rfl
    ext z; simp [zoneList_mem]
  have hall : ∀ m < ∑ z, cnt z, ∃! p : (Fin ns × Fin nk × Fin nj × Fin ni) × ℕ, p.2 < cnt p.1 ∧
      packetIndex cnt (zoneList ns nk nj ni) p.1 p.2 = m := fun m hm => by
    obtain ⟨p, ⟨_, h2, h3⟩, hu⟩ := a3 m (Nat.zero_le _) (by rw [hsum]; omega)
    exact ⟨p, ⟨h2, h3⟩, fun q hq => hu q ⟨zoneList_mem _ _ _ _ _, hq.1, hq.2⟩⟩
  refine ⟨?_, hall⟩
  -- counting: the slots below the total are already taken by as many packets as there are
  by_contra hne
  push Not at hne
  obtain ⟨z, n, hn, hge⟩ := hne
  classical
  let P : Finset ((Fin ns × Fin nk × Fin nj × Fin ni) × ℕ) :=
    (univ : Finset (Fin ns × Fin nk × Fin nj × Fin ni)).biUnion fun z => (range (cnt z)).map ⟨fun n => (z, n), fun a b h => (Prod.mk.inj h).2⟩
  have hP : ∀ p, p ∈ P ↔ p.2 < cnt p.1 := by
    rintro ⟨y, m⟩
    simp only [P, mem_biUnion, mem_univ, true_and, mem_map, mem_range]
    exact ⟨fun ⟨a, n, h, e⟩ => by cases e; exact h, fun h => ⟨y, m, h, rfl⟩⟩
  have hcard : P.card = ∑ z, cnt z := by
    rw [card_biUnion]
    · simp
    · intro a _ b _ hab
      rw [Function.onFun, disjoint_left]
      intro p hp hq
      simp at hp hq
      obtain ⟨_, _, rfl⟩ := hp
      obtain ⟨_, _, h⟩ := hq
      exact hab (Prod.mk.inj h).1.symm
  have hsub : range (∑ z, cnt z) ⊆ (P.erase (z, n)).image fun p => packetIndex cnt (zoneList ns nk nj ni) p.1 p.2 := by
    intro m hm
    rw [mem_range] at hm
    obtain ⟨p, ⟨h1, h2⟩, _⟩ := hall m hm
    refine mem_image.2 ⟨p, mem_erase.2 ⟨?_, (hP p).2 h1⟩, h2⟩
    rintro rfl
    simp only at h2
    omega
  have := card_le_card hsub
  have h2 := card_image_le (s := P.erase (z, n)) (f := fun p => packetIndex cnt (zoneList ns nk nj ni) p.1 p.2)
  rw [card_erase_of_mem ((hP (z, n)).2 hn), hcard] at h2
  rw [card_range] at this
  have : 0 < ∑ z, cnt z := by
    rw [← hcard]; exact card_pos.2 ⟨_, (hP (z, n)).2 hn⟩
  omega

end Index

/-! ## C67: the sampled spectrum -/

theorem max_fold (f : ℕ → ℝ) (n : ℕ) :
    let M := (List.range n).foldl (fun m k => if f k > m then f k else m) 0
    0 ≤ M ∧ (∀ k < n, f k ≤ M) ∧ (M = 0 ∨ ∃ k < n, M = f k) := by
  induction n with
  | zero => simp
  | succ n ih =>
    obtain ⟨h1, h2, h3⟩ := ih
    simp only [List.range_succ, List.foldl_append, List.foldl_cons, List.foldl_nil]
    set M := (List.range n).foldl (fun m k => if f k > m then f k else m) 0
    split_ifs with hc
    · refine ⟨by linarith, fun k hk => ?_, Or.inr ⟨n, by omega, rfl⟩⟩
      rcases Nat.lt_succ_iff_lt_or_eq.1 hk with h | rfl
      · linarith [h2 k h]
      · exact le_rfl
    · refine ⟨h1, fun k hk => ?_, h3.imp id fun ⟨k, h, e⟩ => ⟨k, by omega, e⟩⟩
      rcases Nat.lt_succ_iff_lt_or_eq.1 hk with h | rfl
      · exact h2 k h
      · exact not_lt.1 hc

theorem raw_nonneg (h : c.Ok) (hJ : ∀ nu, 0 ≤ J nu) (n : ℕ) : 0 ≤ dNdlnuRaw c J n := by
  rw [raw_eq h]
  exact mul_nonneg (div_nonneg (mul_pos h.d3x h.detG).le (mul_pos h.h h.w).le) (mul_nonneg (nusamp_pos c n).le (hJ _))

theorem dN_eq_raw (h : c.Ok) : dN c J = c.dt * ∑ n ∈ range c.bins, (dNdlnuRaw c J n + dNdlnuRaw c J (n + 1)) / 2 * c.dlnu := by
  have := dN_energy h (J := J)
  have hp := mul_pos h.h h.w
  have e : ∑ n ∈ range c.bins, (dNdlnuRaw c J n + dNdlnuRaw c J (n + 1)) / 2 * c.dlnu =
      c.d3x * c.detG / (c.h * c.wgtC) * trapezoid c J := by
    unfold trapezoid; rw [mul_sum]
    exact sum_congr rfl fun n _ => by rw [raw_eq h, raw_eq h]; ring
  rw [e]
  have h1 := h.h.ne'; have h2 := h.w.ne'
  field_simp
  linarith

/-- **C67** packets are only ever created in a cell that emits: if any is due, the normalisation of the spectrum is positive. -/
theorem max_pos_of_dN (h : c.Ok) (hJ : ∀ nu, 0 ≤ J nu) (hd : 0 < dN c J) : 0 < dNdlnuMax c J := by
  obtain ⟨h1, h2, -⟩ := max_fold (dNdlnuRaw c J) (c.bins + 1)
  have h1' : 0 ≤ dNdlnuMax c J := h1
  rcases h1'.lt_or_eq with h' | h'
  · exact h'
  · exfalso
    have hz : ∀ k < c.bins + 1, dNdlnuRaw c J k = 0 := fun k hk => by
      have a : dNdlnuRaw c J k ≤ dNdlnuMax c J := h2 k hk
      exact le_antisymm (by rw [h']; exact a) (raw_nonneg h hJ k)
    rw [dN_eq_raw h, sum_eq_zero] at hd
    · simp at hd
    · intro n hn
      rw [mem_range] at hn
      rw [hz n (by omega), hz (n + 1) (by omega)]; ring

theorem bin_eq (h : c.Ok) {n : ℕ} {x : ℝ} (h0 : 0 ≤ x) (h1 : x < 1) : bin c (c.lnuMin + (n + x) * c.dlnu) = n := by
  have hd := h.dlnu_pos.ne'
  unfold bin
  rw [show (c.lnuMin + (n + x) * c.dlnu - c.lnuMin) / c.dlnu = n + x by field_simp; ring]
  rw [trunc_of_nonneg (by positivity), Int.floor_eq_iff]
  constructor
  · push_cast; linarith
  · push_cast; linarith

/-- Specification: piecewise-linear interpolation (in `ln ν`) between the frequency samples. -/
theorem prob_eq (h : c.Ok) {n : ℕ} {x : ℝ} (h0 : 0 ≤ x) (h1 : x < 1) :
    prob c J (c.lnuMin + (n + x) * c.dlnu) = (1 - x) * dNdlnu c J n + x * dNdlnu c J (n + 1) := by
  have hd := h.dlnu_pos.ne'
  unfold prob
  rw [bin_eq h h0 h1]
  have : (c.lnuMin + (n + x) * c.dlnu - c.lnuMin) / c.dlnu - ((n : ℤ) : ℝ) = x := by push_cast; field_simp; ring
  rw [this]
  rfl

/-- every draw in `[0,1)` lands in a bin of the table. -/
theorem draw_bin (h : c.Ok) {u : ℝ} (hu : 0 ≤ u) (hu1 : u < 1) :
    ∃ n < c.bins, ∃ x, 0 ≤ x ∧ x < 1 ∧ drawLnu c u = c.lnuMin + (n + x) * c.dlnu ∧ u * c.bins = n + x := by
  have hb : (0 : ℝ) < c.bins := by exact_mod_cast h.bins
  have hn : 0 ≤ u * c.bins := by positivity
  refine ⟨⌊u * c.bins⌋₊, ?_, Int.fract (u * c.bins), Int.fract_nonneg _, Int.fract_lt_one _, ?_, ?_⟩
  · rw [Nat.floor_lt hn]; nlinarith
  · unfold drawLnu; rw [h.span]
    have := Int.floor_add_fract (u * c.bins)
    rw [show ((⌊u * c.bins⌋₊ : ℕ) : ℝ) = (⌊u * c.bins⌋ : ℝ) from natCast_floor_eq_intCast_floor hn, this]; ring
  · rw [show ((⌊u * c.bins⌋₊ : ℕ) : ℝ) = (⌊u * c.bins⌋ : ℝ) from natCast_floor_eq_intCast_floor hn]
    exact (Int.floor_add_fract _).symm

/-- **C67** the candidate frequency lies in the configured range, the table is read inside its `bins+1` entries and the
acceptance probability is a probability, whatever the draw and the emissivity. -/
theorem draw_ok (h : c.Ok) (hJ : ∀ nu, 0 ≤ J nu) {u : ℝ} (hu : 0 ≤ u) (hu1 : u < 1) :
    c.lnuMin ≤ drawLnu c u ∧ drawLnu c u < c.lnuMax ∧
    0 ≤ bin c (drawLnu c u) ∧ bin c (drawLnu c u) + 1 ≤ c.bins ∧
    0 ≤ prob c J (drawLnu c u) ∧ prob c J (drawLnu c u) ≤ 1 := by
  have hsp := h.span
  have hb : (0 : ℝ) < c.bins := by exact_mod_cast h.bins
  have hd := h.dlnu_pos
  have hpos : 0 < c.lnuMax - c.lnuMin := by rw [hsp]; positivity
  obtain ⟨n, hn, x, h0, h1, he, -⟩ := draw_bin h hu hu1
  have hM := max_fold (dNdlnuRaw c J) (c.bins + 1)
  have m0 : 0 ≤ dNdlnuMax c J := hM.1
  have in01 : ∀ k ≤ c.bins, 0 ≤ dNdlnu c J k ∧ dNdlnu c J k ≤ 1 := fun k hk =>
    ⟨div_nonneg (raw_nonneg h hJ k) m0, div_le_one_of_le₀ (hM.2.1 k (by omega)) m0⟩
  obtain ⟨a0, a1⟩ := in01 n hn.le
  obtain ⟨b0, b1⟩ := in01 (n + 1) hn
  refine ⟨by unfold drawLnu; nlinarith, by unfold drawLnu; nlinarith, ?_, ?_, ?_, ?_⟩
  · rw [he, bin_eq h h0 h1]; positivity
  · rw [he, bin_eq h h0 h1]; exact_mod_cast hn
  · rw [he, prob_eq h h0 h1]; have := mul_nonneg (sub_nonneg.2 h1.le) a0; have := mul_nonneg h0 b0; linarith
  · rw [he, prob_eq h h0 h1]; nlinarith

/-- **C67** whatever the stream of draws, the rejection loop returns a frequency of the configured range whose acceptance
test succeeded, or aborts. -/
theorem sampleLnu_ok (h : c.Ok) (hJ : ∀ nu, 0 ≤ J nu) (fuel : ℕ) (draws : ℕ → ℝ × ℝ)
    (hd : ∀ i, 0 ≤ (draws i).1 ∧ (draws i).1 < 1) {l : ℝ} (hr : sampleLnu c J fuel draws = some l) :
    c.nuMin ≤ Real.exp l ∧ Real.exp l < c.nuMax ∧ ∃ i < fuel, l = drawLnu c (draws i).1 ∧
      (draws i).2 ≤ prob c J l ∧ ∀ j < i, prob c J (drawLnu c (draws j).1) < (draws j).2 := by
  induction fuel generalizing draws with
  | zero => simp [sampleLnu] at hr
  | succ fuel ih =>
    unfold sampleLnu at hr
    split_ifs at hr with hc
    · obtain ⟨a, b, i, hi, e1, e2, e3⟩ := ih _ (fun i => hd (i + 1)) hr
      refine ⟨a, b, i + 1, by omega, e1, e2, fun j hj => ?_⟩
      rcases j with _ | j
      · exact hc
      · exact e3 j (by omega)
    · have e := Option.some.inj hr
      obtain ⟨a, b, -⟩ := draw_ok h hJ (hd 0).1 (hd 0).2
      rw [e] at a b
      refine ⟨?_, ?_, 0, by omega, e.symm, ?_, by simp⟩
      · rw [← Real.exp_log h.nu]; exact Real.exp_le_exp.2 a
      · rw [← Real.exp_log (h.nu.trans h.nu')]; exact Real.exp_lt_exp.2 b
      · rw [← e]; exact not_lt.1 hc

theorem bin_integral (h : c.Ok) (n : ℕ) :
    ∫ l in (c.lnuMin + n * c.dlnu)..(c.lnuMin + (n + 1 : ℕ) * c.dlnu), prob c J l =
      (dNdlnu c J n + dNdlnu c J (n + 1)) / 2 * c.dlnu ∧
    IntervalIntegrable (prob c J) volume (c.lnuMin + n * c.dlnu) (c.lnuMin + (n + 1 : ℕ) * c.dlnu) := by
  have hd := h.dlnu_pos
  have hle : c.lnuMin + n * c.dlnu ≤ c.lnuMin + (n + 1 : ℕ) * c.dlnu := by push_cast; nlinarith
  set a := dNdlnu c J n
  set b := dNdlnu c J (n + 1)
  set L := c.lnuMin + n * c.dlnu with hL
  let g : ℝ → ℝ := fun l => a + (b - a) / c.dlnu * (l - L)
  have hg : ∀ l ∈ Set.Ioo L (c.lnuMin + (n + 1 : ℕ) * c.dlnu), g l = prob c J l := fun l hl => by
    have hx : l = c.lnuMin + (n + (l - L) / c.dlnu) * c.dlnu := by rw [hL]; field_simp; ring
    have := prob_eq h (J := J) (n := n) (x := (l - L) / c.dlnu) (div_nonneg (by linarith [hl.1]) hd.le)
      (by rw [div_lt_one hd]; have := hl.2; push_cast at this; rw [hL]; linarith)
    rw [← hx] at this
    rw [this]; simp only [g]; field_simp; ring
  have hgc : Continuous g := by fun_prop
  have hae : ∀ᵐ l ∂volume, l ∈ Set.uIoc L (c.lnuMin + (n + 1 : ℕ) * c.dlnu) → g l = prob c J l := by
    have hne : ∀ᵐ l ∂(volume : Measure ℝ), l ≠ c.lnuMin + (n + 1 : ℕ) * c.dlnu := Measure.ae_ne volume _
    filter_upwards [hne] with l hl hm
    rw [Set.uIoc_of_le hle] at hm
    exact hg l ⟨hm.1, lt_of_le_of_ne hm.2 hl⟩
  constructor
  · rw [← intervalIntegral.integral_congr_ae hae]
    have hder : ∀ l ∈ Set.uIcc L (c.lnuMin + (n + 1 : ℕ) * c.dlnu),
        HasDerivAt (fun l => a * l + (b - a) / c.dlnu * (l - L) ^ 2 / 2) (g l) l := fun l _ => by
      have h1 := (hasDerivAt_id l).const_mul a
      have h2 := ((((hasDerivAt_id l).sub_const L).pow 2).const_mul ((b - a) / c.dlnu)).div_const 2
      exact (h1.add h2).congr_deriv (by simp [g]; ring)
    rw [intervalIntegral.integral_eq_sub_of_hasDerivAt hder (hgc.intervalIntegrable _ _)]
    rw [hL]; push_cast; field_simp; ring
  · exact (hgc.intervalIntegrable _ _).congr_ae ((ae_restrict_iff' measurableSet_uIoc).2 hae)

/-- **C67** the number of packets and their spectrum agree: the mean number due is the time step times the spectrum's
normalisation times the integral over `ln ν` of the acceptance probability.  Hence the mean number of packets per `ln ν`,
`dN · prob/∫prob`, is `dt · dNdlnu_max · prob`, see `spectrum_energy`. -/
theorem dN_eq_integral (h : c.Ok) (hJ : ∀ nu, 0 ≤ J nu) (hd : 0 < dN c J) :
    dN c J = c.dt * dNdlnuMax c J * ∫ l in c.lnuMin..c.lnuMax, prob c J l := by
  have hmax := (max_pos_of_dN h hJ hd).ne'
  have hs := intervalIntegral.sum_integral_adjacent_intervals (μ := volume) (f := prob c J)
    (a := fun n : ℕ => c.lnuMin + n * c.dlnu) (n := c.bins) fun n _ => (bin_integral h n).2
  have e : c.lnuMin + (c.bins : ℝ) * c.dlnu = c.lnuMax := by rw [← h.span]; ring
  simp only [e, Nat.cast_zero, zero_mul, add_zero] at hs
  rw [← hs, dN_eq_raw h, mul_assoc]
  congr 1
  rw [mul_sum]
  refine sum_congr rfl fun n _ => ?_
  rw [(bin_integral h n).1]
  unfold dNdlnu; field_simp

/-- **C67** the energy spectrum: packets of energy `h·wgtC/f`, due in number `f·dN` and distributed in `ln ν` with the
density `prob/∫prob` of the rejection loop, carry per `ln ν` the piecewise-linear interpolant of `ν J(ν)` times the cell's
four-volume; at a frequency sample it is `ν J(ν)` itself. -/
theorem spectrum_energy (h : c.Ok) (hJ : ∀ nu, 0 ≤ J nu) (hd : 0 < dN c J) {f : ℝ} (hf : 0 < f) {n : ℕ} {x : ℝ}
    (h0 : 0 ≤ x) (h1 : x < 1) :
    f * dN c J * (prob c J (c.lnuMin + (n + x) * c.dlnu) / ∫ l in c.lnuMin..c.lnuMax, prob c J l) * (c.h * c.wgtC / f) =
      c.d3x * c.detG * c.dt * ((1 - x) * nuJ c J n + x * nuJ c J (n + 1)) := by
  have hmax := (max_pos_of_dN h hJ hd).ne'
  have hi := dN_eq_integral h hJ hd
  have hI : (∫ l in c.lnuMin..c.lnuMax, prob c J l) ≠ 0 := fun h0 => by rw [h0, mul_zero] at hi; exact hd.ne' hi
  have h1' := h.h.ne'; have h2 := h.w.ne'
  rw [prob_eq h h0 h1, hi]
  unfold dNdlnu
  rw [raw_eq h, raw_eq h]
  field_simp

/-! ## C68: the emitted wave vector -/

theorem kTetrad_null (h nu u1 u2 : ℝ) :
    kTetrad h nu u1 u2 1 ^ 2 + kTetrad h nu u1 u2 2 ^ 2 + kTetrad h nu u1 u2 3 ^ 2 = kTetrad h nu u1 u2 0 ^ 2 := by
  simp only [kTetrad]
  simp only [Matrix.cons_val]
  have a := Real.sin_sq_add_cos_sq (Real.arccos (2 * u1 - 1))
  have b := Real.sin_sq_add_cos_sq (2 * Real.pi * u2)
  linear_combination (nu * h) ^ 2 * (Real.sin (Real.arccos (2 * u1 - 1)) ^ 2 * b + a)

variable {G : ADM ℝ}

/-- **C68** every emitted packet is null and has energy `hν` in the rest frame of the fluid that emits it, whatever the
metric, the fluid velocity, the frequency and the direction drawn. -/
theorem emitted_packet (eps : ℝ) (hG : G.Valid) (hp : Rel.PosDef G) (u : Fin 4 → ℝ) (hu : dot4 G.g4 u u = -1)
    (h nu u1 u2 : ℝ) :
    dot4 G.g4Inv (kCoord eps G.g4 u h nu u1 u2) (kCoord eps G.g4 u h nu u1 u2) = 0 ∧
    -∑ mu, kCoord eps G.g4 u h nu u1 u2 mu * u mu = h * nu := by
  have hlt : dot4 G.g4 u u < 0 := by rw [hu]; norm_num
  obtain ⟨hE, hE0⟩ := Tetrads.tetrad_orthonormal_partial eps hG hp u hlt
  have hE0 := hE0 hu
  set E := Tetrads.econ eps G.g4 u Tetrads.defaultTrial with hEdef
  set k := kTetrad h nu u1 u2 with hk
  have hkc : kCoord eps G.g4 u h nu u1 u2 = Tetrads.tetradToCoordCov (Tetrads.ecov G.g4 E) k := rfl
  let kc : Fin 4 → ℝ := ![-k 0, k 1, k 2, k 3]
  let v := Tetrads.tetradToCoordCon E kc
  have hlow : kCoord eps G.g4 u h nu u1 u2 = lower G.g4 v := by
    rw [hkc]
    funext mu
    simp only [Tetrads.tetradToCoordCov, Tetrads.ecov, lower, v, Tetrads.tetradToCoordCon, kc, Fin.sum_univ_four]
    simp
    ring
  have hnull : dot4 G.g4 v v = 0 := by
    rw [(Tetrads.frame_round_trip E hG hE kc kc).2.2.2.2]
    have := kTetrad_null h nu u1 u2
    rw [← hk] at this
    simp [Fin.sum_univ_four, Tetrads.eta, kc]
    linarith
  constructor
  · rw [hlow, ← hnull]
    have hr : ∀ m, ∑ n, G.g4Inv m n * lower G.g4 v n = v m := fun m => by
      unfold lower
      simp only [mul_sum]
      rw [sum_comm]
      have : ∀ l, ∑ n, G.g4Inv m n * (G.g4 n l * v l) = (if m = l then 1 else 0) * v l := fun l => by
        rw [← ADM.g4Inv_mul hG m l, sum_mul]; exact sum_congr rfl fun _ _ => by ring
      simp [this]
    have e1 : dot4 G.g4Inv (lower G.g4 v) (lower G.g4 v) = ∑ m, lower G.g4 v m * v m := by
      unfold dot4
      refine sum_congr rfl fun m _ => ?_
      rw [← hr m, mul_sum]; exact sum_congr rfl fun n _ => by ring
    rw [e1]; unfold dot4 lower
    refine sum_congr rfl fun m _ => ?_
    rw [sum_mul]; exact sum_congr rfl fun n _ => by ring
  · rw [hkc]
    have := congrFun (Tetrads.frame_round_trip E hG hE k k).2.2.2.1 0
    unfold Tetrads.coordToTetradCov at this
    rw [hE0] at this
    have e : ∑ mu, Tetrads.tetradToCoordCov (Tetrads.ecov G.g4 E) k mu * u mu = k 0 := by
      rw [← this]; exact sum_congr rfl fun _ _ => mul_comm _ _
    rw [e, hk]; simp [kTetrad]; ring

/-- **C68** directions: the cosine of the polar angle runs over `[-1,1]` uniformly with the first draw. -/
theorem direction_uniform (h nu u1 u2 : ℝ) (h0 : 0 ≤ u1) (h1 : u1 ≤ 1) :
    kTetrad h nu u1 u2 1 = nu * h * (2 * u1 - 1) := by
  simp [kTetrad, Real.cos_arccos (show -1 ≤ 2 * u1 - 1 by linarith) (show 2 * u1 - 1 ≤ 1 by linarith)]

/-- a concrete emitting cell: hypotheses of C65 and C67 are met, and packets are due. -/
theorem ex_cfg : (⟨1, 2, 1, Real.exp 2, 4, 1/2, 3, 1/10⟩ : Cfg).Ok ∧
    0 < dN ⟨1, 2, 1, Real.exp 2, 4, 1/2, 3, 1/10⟩ (fun nu => 1 + nu ^ 2) := by
  have ok : (⟨1, 2, 1, Real.exp 2, 4, 1/2, 3, 1/10⟩ : Cfg).Ok :=
    ⟨by norm_num, by norm_num, by norm_num, by simp, by norm_num, by norm_num, by norm_num, by norm_num⟩
  refine ⟨ok, ?_⟩
  rw [dN_eq_raw ok]
  refine mul_pos (by norm_num) (sum_pos (fun n _ => ?_) ⟨0, by simp⟩)
  have hp : ∀ n, 0 < dNdlnuRaw ⟨1, 2, 1, Real.exp 2, 4, 1/2, 3, 1/10⟩ (fun nu => 1 + nu ^ 2) n := fun n => by
    rw [raw_eq ok]
    exact mul_pos (by norm_num) (mul_pos (nusamp_pos _ _) (by positivity))
  have := hp n; have := hp (n + 1)
  exact mul_pos (by linarith) ok.dlnu_pos

/-- a concrete numbering: four cells of one species with 2, 0, 3 and 1 packets. -/
theorem ex_slots : (List.finRange 4).map (fun i => (fillStart (fun z : Fin 1 × Fin 1 × Fin 1 × Fin 4 => ![2, 0, 3, 1] z.2.2.2)
    (zoneList 1 1 1 4)).1 (0, 0, 0, i)) = [0, 2, 2, 5] := by decide

/-- a concrete emission: sheared metric with shift and moving fluid. -/
theorem ex_emit : -∑ mu, kCoord (1/1000) Rel.exG.g4 (Rel.fourVelocity 0 Rel.exG ![1, 0, 1/2]) 2 3 (1/4) (1/3) mu *
    Rel.fourVelocity 0 Rel.exG ![1, 0, 1/2] mu = 6 := by
  rw [(emitted_packet (1/1000) Rel.exG_valid.1 Rel.exG_valid.2 _
    (Rel.four_velocity_unit Rel.exG ![1, 0, 1/2] Rel.exG_valid.1 Rel.exG_valid.2) 2 3 (1/4) (1/3)).2]
  norm_num

end Phoebus.MonteCarlo
