import Verif.NetField.Model

/-!
# Net-field controller (C24)
-/
namespace Phoebus.NetField
open Robust FluxCT
variable {K : Type} [Field K] [LinearOrder K] [IsStrictOrderedRing K]

/-- What the C++ standard promises about `std::clamp`: nothing unless `lo ≤ hi`. -/
def IsClamp (clamp : K → K → K → K) : Prop :=
  ∀ v lo hi, lo ≤ hi → lo ≤ clamp v lo hi ∧ clamp v lo hi ≤ hi ∧ (lo ≤ v → v ≤ hi → clamp v lo hi = v)

/-- libstdc++'s and libc++'s definitions. -/
def clampMinMax (v lo hi : K) : K := min (max v lo) hi
def clampCond (v lo hi : K) : K := if v < lo then lo else if hi < v then hi else v

theorem clamps_ok : IsClamp (clampMinMax (K := K)) ∧ IsClamp (clampCond (K := K)) := by
  constructor
  · intro v lo hi h
    exact ⟨le_min (le_max_right _ _) h, min_le_right _ _, fun h1 h2 => by simp [clampMinMax, h1, h2]⟩
  · intro v lo hi h
    unfold clampCond
    refine ⟨?_, ?_, fun h1 h2 => by rw [if_neg (not_lt.mpr h1), if_neg (not_lt.mpr h2)]⟩
    · split_ifs with h1 h2
      exacts [le_rfl, h, not_lt.mp h1]
    · split_ifs with h1 h2
      exacts [h, le_rfl, not_lt.mp h2]

theorem sgn_nonneg {x : K} (h : 0 ≤ x) : ((sgn x : ℤ) : K) = 1 := by simp [sgn, h, not_lt.mpr h]
theorem sgn_neg {x : K} (h : x < 0) : ((sgn x : ℤ) : K) = -1 := by simp [sgn, h, not_le.mpr h]

/-- C24. While the desired rate is not below the current one, the change of the rate is limited to between 3/4 and 4/3 of
its size, and is exact when inside that band. -/
theorem increase_limited (clamp : K → K → K → K) (hc : IsClamp clamp) (dphi fid : K) (h : dphi ≤ fid) (h0 : dphi ≠ 0) :
    3 / 4 * |dphi| ≤ newRate clamp dphi fid - dphi ∧ newRate clamp dphi fid - dphi ≤ 4 / 3 * |dphi| ∧
    (3 / 4 * |dphi| ≤ fid - dphi → fid - dphi ≤ 4 / 3 * |dphi| → newRate clamp dphi fid = fid) := by
  have hs := sgn_nonneg (sub_nonneg.mpr h)
  have ha : 0 ≤ |dphi| := abs_nonneg _
  obtain ⟨h1, h2, h3⟩ := hc (fid - dphi) (3 / 4 * |dphi|) (4 / 3 * |dphi|) (by linarith)
  unfold newRate
  simp only [hs, one_mul, if_pos h0]
  refine ⟨by linarith, by linarith, fun a b => ?_⟩
  rw [h3 a b]; ring

/-- C24. From rest the controller takes the desired rate unlimited. -/
theorem first_rate (clamp : K → K → K → K) (fid : K) : newRate clamp 0 fid = fid := by simp [newRate]

/-- C24 fails for a decrease: `std::clamp` is then always called with `lo > hi`, outside its contract. -/
theorem decrease_breaks_clamp (dphi fid : K) (h : fid < dphi) (h0 : dphi ≠ 0) :
    4 / 3 * ((sgn (fid - dphi) : ℤ) * |dphi|) < 3 / 4 * (((sgn (fid - dphi) : ℤ) : K) * |dphi|) := by
  rw [sgn_neg (sub_neg.mpr h)]
  have : 0 < |dphi| := abs_pos.mpr h0
  linarith

/-- With libstdc++'s definition any decrease, however small, becomes `-4/3 |rate|`: the sign of a positive rate flips. -/
theorem decrease_minmax (dphi fid : K) (h : fid < dphi) (h0 : dphi ≠ 0) :
    newRate clampMinMax dphi fid = dphi - 4 / 3 * |dphi| := by
  unfold newRate clampMinMax
  have ha : 0 < |dphi| := abs_pos.mpr h0
  simp only [sgn_neg (sub_neg.mpr h), if_pos h0]
  rw [min_eq_right (le_trans (by linarith) (le_max_right _ _))]
  ring

/-- and the requested limit is violated: a request to lower the rate by a tiny amount lowers it by more than itself, and the
two standard libraries disagree. -/
theorem decrease_not_limited : newRate clampMinMax (1:ℚ) (99 / 100) = -1 / 3 ∧ newRate clampCond (1:ℚ) (-10) = 1 / 4 ∧
    newRate clampMinMax (1:ℚ) (-10) = -1 / 3 := by
  refine ⟨?_, ?_, ?_⟩ <;> norm_num [newRate, clampMinMax, clampCond, sgn]

/-- C24. The lower limit also applies when the controller is exactly on target: a nonzero rate that equals the desired rate
is moved away from it. -/
theorem leaves_target (clamp : K → K → K → K) (hc : IsClamp clamp) (dphi : K) (h0 : dphi ≠ 0) :
    newRate clamp dphi dphi ≠ dphi := by
  have h := (increase_limited clamp hc dphi dphi le_rfl h0).1
  have : 0 < |dphi| := abs_pos.mpr h0
  intro e
  rw [e] at h
  linarith

/-- C24. The controller only changes when enabled, in the first stage and when its time has come; then the next update is
one cadence later. -/
theorem update_gated (clamp : K → K → K → K) (cfg : Cfg K) (stage : ℕ) (t phi0 phi1 q : K) (c : Ctl K) :
    (¬(stage = 1 ∧ cfg.enabled = true ∧ c.next ≤ t) → update clamp cfg stage t phi0 phi1 q c = c) ∧
    (stage = 1 ∧ cfg.enabled = true ∧ c.next ≤ t →
      (update clamp cfg stage t phi0 phi1 q c).next = c.next + cfg.cadence ∧
      (update clamp cfg stage t phi0 phi1 q c).phiFactor = phi1 - phi0 ∧
      (update clamp cfg stage t phi0 phi1 q c).dphi = newRate clamp c.dphi (fiducialRate cfg phi0 q)) := by
  unfold update
  constructor
  · intro h
    split_ifs with h1 h2 h3
    · rfl
    · exact absurd ⟨not_not.mp h1, h2, h3⟩ h
    · rfl
    · rfl
  · rintro ⟨rfl, h2, h3⟩
    simp [h2, h3]

/-- C24. Over any history of steps the next update time is the start time plus a whole number of cadences, and nothing
happens before the start time. -/
theorem next_update_lattice (clamp : K → K → K → K) (cfg : Cfg K) (hist : List (ℕ × K × K × K × K)) :
    ∃ n : ℕ, n ≤ hist.length ∧
      (hist.foldl (fun c e => update clamp cfg e.1 e.2.1 e.2.2.1 e.2.2.2.1 e.2.2.2.2 c) (initCtl cfg)).next =
        cfg.start + n * cfg.cadence ∧
      (0 ≤ cfg.cadence → (∀ e ∈ hist, e.2.1 < cfg.start) →
        hist.foldl (fun c e => update clamp cfg e.1 e.2.1 e.2.2.1 e.2.2.2.1 e.2.2.2.2 c) (initCtl cfg) = initCtl cfg) := by
  induction hist using List.reverseRecOn with
  | nil => exact ⟨0, le_rfl, by simp [initCtl], fun _ _ => rfl⟩
  | append_singleton t e ih =>
    obtain ⟨n, hn, h1, h2⟩ := ih
    simp only [List.foldl_append, List.foldl_cons, List.foldl_nil, List.length_append, List.length_singleton]
    set c := t.foldl (fun c e => update clamp cfg e.1 e.2.1 e.2.2.1 e.2.2.2.1 e.2.2.2.2 c) (initCtl cfg)
    have hlate : 0 ≤ cfg.cadence → (∀ a ∈ t ++ [e], a.2.1 < cfg.start) →
        update clamp cfg e.1 e.2.1 e.2.2.1 e.2.2.2.1 e.2.2.2.2 c = initCtl cfg := by
      intro hcad hall
      have hc := h2 hcad fun a ha => hall a (by simp [ha])
      rw [(update_gated clamp cfg e.1 e.2.1 e.2.2.1 e.2.2.2.1 e.2.2.2.2 c).1, hc]
      rintro ⟨-, -, h⟩
      rw [hc] at h
      exact absurd h (not_le.mpr (hall e (by simp)))
    by_cases h : e.1 = 1 ∧ cfg.enabled = true ∧ c.next ≤ e.2.1
    · refine ⟨n + 1, by omega, ?_, hlate⟩
      rw [((update_gated clamp cfg e.1 e.2.1 e.2.2.1 e.2.2.2.1 e.2.2.2.2 c).2 h).1, h1]
      push_cast; ring
    · refine ⟨n, by omega, ?_, hlate⟩
      rw [(update_gated clamp cfg e.1 e.2.1 e.2.2.1 e.2.2.2.1 e.2.2.2.2 c).1 h, h1]

/-! ## The field modification -/

/-- The modification keeps the field divergence free (same discrete divergence as C18), in two and three dimensions, and the
conserved field consistent with the primitive one; undoing it restores the field. -/
theorem modification_divfree (amp dx1 dx2 dx3 : K) (h1 : dx1 ≠ 0) (h2 : dx2 ≠ 0) (A : ℤ → ℤ → K)
    (gdet : ℤ → ℤ → ℤ → K) (hg : ∀ k j i, gdet k j i ≠ 0) (B : Fin 3 → ℤ → ℤ → ℤ → K) (k j i : ℤ) :
    divB2 ![dx1, dx2, dx3] (modCons gdet (modPrim amp dx1 dx2 A gdet B)) k j i =
      divB2 ![dx1, dx2, dx3] (modCons gdet B) k j i ∧
    divB3 ![dx1, dx2, dx3] (modCons gdet (modPrim amp dx1 dx2 A gdet B)) k j i =
      divB3 ![dx1, dx2, dx3] (modCons gdet B) k j i := by
  have e0 : ∀ k j i, modCons gdet (modPrim amp dx1 dx2 A gdet B) 0 k j i = modCons gdet B 0 k j i
      - amp * ((A j i - A (j+1) i + A j (i+1) - A (j+1) (i+1)) / (2 * dx2)) := by
    intro k j i
    have := hg k j i
    simp only [modCons, modPrim, dB]
    field_simp
    ring
  have e1 : ∀ k j i, modCons gdet (modPrim amp dx1 dx2 A gdet B) 1 k j i = modCons gdet B 1 k j i
      + amp * ((A j i + A (j+1) i - A j (i+1) - A (j+1) (i+1)) / (2 * dx1)) := by
    intro k j i
    have := hg k j i
    simp only [modCons, modPrim, dB]
    field_simp
  have e2 : ∀ k j i, modCons gdet (modPrim amp dx1 dx2 A gdet B) 2 k j i = modCons gdet B 2 k j i := by
    intro k j i; simp [modCons, modPrim, dB]
  constructor
  · simp only [divB2, e0, e1, Matrix.cons_val_zero, Matrix.cons_val_one, sub_add_cancel]
    field_simp
    ring
  · simp only [divB3, e0, e1, e2, Matrix.cons_val_zero, Matrix.cons_val_one, sub_add_cancel]
    field_simp
    ring

theorem modification_undone (amp dx1 dx2 : K) (A : ℤ → ℤ → K) (gdet : ℤ → ℤ → ℤ → K) (B : Fin 3 → ℤ → ℤ → ℤ → K) :
    modPrim (-amp) dx1 dx2 A gdet (modPrim amp dx1 dx2 A gdet B) = B := by
  funext c k j i; simp [modPrim]

/-! ## The tuning region -/

/-- C24. As long as no controller update has run, every partition holds its old field plus the number of trial additions
minus the number of removals. -/
theorem tuning_counts (clamp : K → K → K → K) (cfg : Cfg K) (he : cfg.enabled = true) (t dt p0 p1 q : K) (s : St K)
    (ht : s.ctl.next ≤ t) (evs : List Ev) (hn : ∀ p, Ev.scale p ∉ evs) :
    (run clamp cfg t dt p0 p1 q s evs).ctl = s.ctl ∧
    ∀ p, (run clamp cfg t dt p0 p1 q s evs).amp p = s.amp p + evs.count (.plus p) - evs.count (.minus p) := by
  induction evs using List.reverseRecOn with
  | nil => simp [run]
  | append_singleton l e ih =>
    obtain ⟨h1, h2⟩ := ih fun p h => hn p (by simp [h])
    have hrun : run clamp cfg t dt p0 p1 q s (l ++ [e]) =
        exec clamp cfg t dt p0 p1 q (run clamp cfg t dt p0 p1 q s l) e := by simp [run]
    have hamp : ∀ f, amplitude cfg 1 true f t dt (run clamp cfg t dt p0 p1 q s l).ctl = some f := by
      intro f; rw [h1]; simp [amplitude, he, ht]
    rw [hrun]
    cases e with
    | plus r =>
      simp only [exec, hamp]
      refine ⟨h1, fun p => ?_⟩
      by_cases hp : p = r
      · subst hp; simp [h2]; ring
      · simp [Function.update_of_ne hp, h2, List.count_append, List.count_singleton, Ne.symm hp]
    | minus r =>
      simp only [exec, hamp]
      refine ⟨h1, fun p => ?_⟩
      by_cases hp : p = r
      · subst hp; simp [h2]; ring
      · simp [Function.update_of_ne hp, h2, List.count_append, List.count_singleton, Ne.symm hp]
    | scale r => exact absurd (by simp) (hn r)

/-- C24. Hence with every partition's trial field added once and removed once before the controls change, all fields are
restored, whatever the order. -/
theorem tuning_restores_partial (clamp : K → K → K → K) (cfg : Cfg K) (he : cfg.enabled = true) (t dt p0 p1 q : K) (s : St K)
    (ht : s.ctl.next ≤ t) (evs : List Ev) (hn : ∀ p, Ev.scale p ∉ evs)
    (hc : ∀ p, evs.count (.plus p) = evs.count (.minus p)) :
    (run clamp cfg t dt p0 p1 q s evs).amp = s.amp := by
  funext p
  rw [(tuning_counts clamp cfg he t dt p0 p1 q s ht evs hn).2 p, hc p]; ring

/-- Specification: the schedules the driver's dependencies allow for partitions `0 .. n-1`: every trial addition precedes every
removal (the removals wait for a reduction over all partitions); within a partition the removal precedes the update. -/
def Allowed (n : ℕ) (evs : List Ev) : Prop :=
  evs.Nodup ∧ (∀ p, p < n ↔ Ev.plus p ∈ evs) ∧ (∀ p, p < n ↔ Ev.minus p ∈ evs) ∧ (∀ p, p < n ↔ Ev.scale p ∈ evs) ∧
  (∀ p r, p < n → r < n → evs.idxOf (.plus p) < evs.idxOf (.minus r)) ∧
  ∀ p, p < n → evs.idxOf (.minus p) < evs.idxOf (.scale p)

/-- C24 fails with two partitions: when the first partition updates the controls before the second has removed its trial
field, the removal sees the new update time and is skipped, leaving the trial field in the second partition for good. -/
theorem trial_field_left_behind : ∃ (cfg : Cfg ℚ) (s : St ℚ) (evs : List Ev), Allowed 2 evs ∧ s.ctl = initCtl cfg ∧
    s.amp = (fun _ => 0) ∧ (run clampMinMax cfg 180 1 1 2 1 s evs).amp 1 = 1 := by
  refine ⟨⟨true, 1, 1, 10, 175⟩, ⟨⟨0, 0, 175⟩, fun _ => 0⟩,
    [.plus 0, .plus 1, .minus 0, .scale 0, .minus 1, .scale 1], ⟨by decide, ?_, ?_, ?_, ?_, ?_⟩, rfl, rfl, ?_⟩
  · intro p; simp only [List.mem_cons, Ev.plus.injEq, reduceCtorEq, List.not_mem_nil, or_false, false_or]; omega
  · intro p; simp only [List.mem_cons, Ev.minus.injEq, reduceCtorEq, List.not_mem_nil, or_false, false_or]; omega
  · intro p; simp only [List.mem_cons, Ev.scale.injEq, reduceCtorEq, List.not_mem_nil, or_false, false_or]; omega
  · intro p r hp hr
    interval_cases p <;> interval_cases r <;> decide
  · intro p hp
    interval_cases p <;> decide
  · norm_num [run, exec, amplitude, update, Function.update]

/-- C24. The controller drives the normalised flux `Φ/√Ṁ` to the target: the first rate it sets has the sign of the distance to
the target, and if the normalised flux grew at that rate for one `timescale` it would arrive exactly at the target. -/
theorem controller_aims_at_target (clamp : K → K → K → K) (cfg : Cfg K) (t phi0 phi1 q : K) (hq : 0 < q) (hT : 0 < cfg.timescale)
    (he : cfg.enabled = true) (ht : cfg.start ≤ t) :
    let c := update clamp cfg 1 t phi0 phi1 q (initCtl cfg)
    phi0 / q + c.dphi * cfg.timescale = cfg.target ∧ (0 < c.dphi ↔ phi0 < cfg.target * q) ∧
    (c.dphi < 0 ↔ cfg.target * q < phi0) ∧ c.phiFactor = phi1 - phi0 ∧ c.next = cfg.start + cfg.cadence := by
  have hc : update clamp cfg 1 t phi0 phi1 q (initCtl cfg) = ⟨(cfg.target - phi0 / q) / cfg.timescale, phi1 - phi0,
      cfg.start + cfg.cadence⟩ := by
    simp [update, he, ht, initCtl, first_rate, fiducialRate]
  simp only [hc]
  refine ⟨by field_simp; ring, ?_, ?_, trivial, trivial⟩
  · rw [div_pos_iff_of_pos_right hT, sub_pos, div_lt_iff₀ hq]
  · rw [div_lt_iff₀ hT, zero_mul, sub_neg, lt_div_iff₀ hq]

example : ∃ cfg : Cfg ℚ, cfg.enabled = true ∧ 0 < cfg.timescale ∧ cfg.start ≤ 180 := ⟨⟨true, 50, 10, 10, 175⟩, by norm_num⟩

omit [IsStrictOrderedRing K] in
/-- C24. A complete tuning pass of one partition at an update time: field restored, controls updated once from the two measured
fluxes. -/
theorem tuning_pass (clamp : K → K → K → K) (cfg : Cfg K) (he : cfg.enabled = true) (t dt p0 p1 q : K) (s : St K)
    (ht : s.ctl.next ≤ t) (p : ℕ) :
    let r := run clamp cfg t dt p0 p1 q s [.plus p, .minus p, .scale p]
    r.amp = s.amp ∧ r.ctl.phiFactor = p1 - p0 ∧ r.ctl.next = s.ctl.next + cfg.cadence ∧
    r.ctl.dphi = newRate clamp s.ctl.dphi ((cfg.target - p0 / q) / cfg.timescale) := by
  have ha : ∀ f, amplitude cfg 1 true f t dt s.ctl = some f := fun f => by simp [amplitude, he, ht]
  simp [run, exec, ha, update, he, ht, fiducialRate]

end Phoebus.NetField
