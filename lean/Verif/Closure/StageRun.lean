import Verif.Closure.RelaxRun
import Verif.Step.Truncation

/-!
# The implicit exchange inside the stages of the time integrator (C165)

Where radiation and gas are uniform the fluxes and sources of a stage vanish; a stage then mixes the current state with the one at the start of the step and applies the implicit exchange for the weighted step, phoebus_driver.cpp:572-576, 609-610.
-/
namespace Phoebus.Closure
open Geom Rel Robust LinAlg Finset Filter Topology
open Step (advance)

/-! ### Model -/

/-- the lab-frame moments after `MomentFluidSource` with the step `s`, moments_source.cpp:387-424 (Estar, LinearSourceUpdate) and 790-798: old values plus the result of `LinearSourceUpdate` with the optical depths `s aJ`, `s aH` (opacities times lapse; moments not densitised). -/
noncomputable def exUpdate (G : ADM ℝ) (v : Vec) (Pi : Tens2) (JBB aJ aH s : ℝ) (u : ℝ × Vec) : ℝ × Vec :=
  let d := linearSourceUpdate false G v u.1 u.2 Pi JBB (s * aJ) (s * aH)
  (u.1 + d.1, fun i => u.2 i + d.2 i)

/-- a stage with weight `β`, phoebus_driver.cpp:572-576 (`AverageIndependentData`, `UpdateIndependentData` with zero rates) and 609-610 (`MomentFluidSource` with `beta * dt`). -/
noncomputable def exStage (G : ADM ℝ) (v : Vec) (Pi : Tens2) (JBB aJ aH dt : ℝ) (base cur : ℝ × Vec) (β : ℝ) : ℝ × Vec :=
  exUpdate G v Pi JBB aJ aH (β * dt) (β • cur + (1 - β) • base)

/-- a step: the stages with the weights `l`, each mixing with the state at the start of the step, phoebus_driver.cpp:134-138. -/
noncomputable def exStep (G : ADM ℝ) (v : Vec) (Pi : Tens2) (JBB aJ aH : ℝ) (l : List ℝ) (dt : ℝ) (u : ℝ × Vec) : ℝ × Vec :=
  l.foldl (exStage G v Pi JBB aJ aH dt u) u

/-- the states of a run with the steps `s`.
(Helper: the outer loop of the driver.) -/
noncomputable def exRun (G : ADM ℝ) (v : Vec) (Pi : Tens2) (JBB aJ aH : ℝ) (l : List ℝ) (s : ℕ → ℝ) (u : ℝ × Vec) : ℕ → ℝ × Vec
  | 0 => u
  | n + 1 => exStep G v Pi JBB aJ aH l (s n) (exRun G v Pi JBB aJ aH l s u n)

/-! ### Weights -/

theorem advance_snoc (l : List ℝ) (β : ℝ) : advance (l ++ [β]) = β * (advance l + 1) := by simp [advance]

theorem advance_bounds {l : List ℝ} (hl : ∀ β ∈ l, 0 ≤ β ∧ β ≤ 1) : 0 ≤ advance l ∧ advance l ≤ l.length := by
  induction l using List.reverseRecOn with
  | nil => simp [advance]
  | append_singleton l β ih =>
    obtain ⟨i0, i1⟩ := ih fun b hb => hl b (by simp [hb])
    obtain ⟨b0, b1⟩ := hl β (by simp)
    rw [advance_snoc]
    refine ⟨mul_nonneg b0 (by linarith), ?_⟩
    push_cast [List.length_append, List.length_singleton]
    nlinarith

/-! ### Staged implicit steps converge -/

section
variable {V : Type*} [NormedAddCommGroup V] [NormedSpace ℝ V]

/-- defect of an exact solution in the forward-Euler step. -/
theorem fe_defect {f : V → V} {K B T : ℝ} (hK : 0 ≤ K) (hf : ∀ x y, ‖f x - f y‖ ≤ K * ‖x - y‖) {y : ℝ → V} (hy : ∀ t ∈ Set.Icc 0 T, HasDerivWithinAt y (f (y t)) (Set.Icc 0 T) t)
    (hB : ∀ t ∈ Set.Icc 0 T, ‖f (y t)‖ ≤ B) {t s : ℝ} (ht : 0 ≤ t) (hs : 0 ≤ s) (hT : t + s ≤ T) : ‖y (t + s) - y t - s • f (y t)‖ ≤ K * B * s ^ 2 := by
  have hsub : Set.Icc t (t + s) ⊆ Set.Icc 0 T := Set.Icc_subset_Icc ht hT
  have hB0 : 0 ≤ B := (norm_nonneg _).trans (hB t (hsub ⟨le_rfl, by linarith⟩))
  have step : ∀ a ∈ Set.Icc t (t + s), ‖y a - y t‖ ≤ B * s := fun a ha => by
    have := (convex_Icc t (t + s)).norm_image_sub_le_of_norm_hasDerivWithin_le (f := y) (f' := fun r => f (y r)) (C := B) (x := t) (y := a)
      (fun r hr => (hy r (hsub hr)).mono hsub) (fun r hr => hB r (hsub hr)) ⟨le_rfl, by linarith⟩ ha
    refine this.trans (mul_le_mul_of_nonneg_left ?_ hB0)
    rw [Real.norm_eq_abs, abs_of_nonneg (by linarith [ha.1])]
    linarith [ha.2]
  have := (convex_Icc t (t + s)).norm_image_sub_le_of_norm_hasDerivWithin_le (f := fun r => y r - r • f (y t)) (f' := fun r => f (y r) - (1:ℝ) • f (y t)) (C := K * (B * s)) (x := t) (y := t + s)
    (fun r hr => ((hy r (hsub hr)).mono hsub).sub ((hasDerivWithinAt_id r _).smul_const _)) (fun r hr => by
      rw [one_smul]
      exact (hf _ _).trans (mul_le_mul_of_nonneg_left (step r hr) hK)) ⟨le_rfl, by linarith⟩ ⟨by linarith, le_rfl⟩
  have e : (y (t + s) - (t + s) • f (y t)) - (y t - t • f (y t)) = y (t + s) - y t - s • f (y t) := by
    rw [add_smul]; abel
  refine ((congrArg norm e.symm).le.trans this).trans_eq ?_
  rw [add_sub_cancel_left, Real.norm_eq_abs, abs_of_nonneg hs]; ring

/-- after the stages `l` of a step the state is near the forward value with the advance of the weights. -/
theorem stages_near {f : V → V} {K B : ℝ} (hK : 0 ≤ K) (hB0 : 0 ≤ B) (hf : ∀ x y, ‖f x - f y‖ ≤ K * ‖x - y‖) {Φ : ℝ → V → V} (hΦ : ∀ s, 0 ≤ s → ∀ w, Φ s w = w + s • f (Φ s w)) {s : ℝ} (hs : 0 ≤ s) (hKs : K * s ≤ 1/2)
    (u p : V) (hp : ‖f p‖ ≤ B) {m : ℝ} (l : List ℝ) (hl : ∀ β ∈ l, 0 ≤ β ∧ β ≤ 1) (hm : (l.length : ℝ) ≤ m) :
    ‖l.foldl (fun c β => Φ (β * s) (β • c + (1 - β) • u)) u - p - (advance l * s) • f p‖ ≤ (1 + 2 * (K * s)) ^ l.length * (‖u - p‖ + l.length * (m * (K * B * s ^ 2))) := by
  induction l using List.reverseRecOn with
  | nil => simp [advance]
  | append_singleton l β ih =>
    obtain ⟨b0, b1⟩ := hl β (by simp)
    have hlen : ((l ++ [β]).length : ℝ) = l.length + 1 := by simp
    rw [hlen] at hm
    have i := ih (fun b hb => hl b (by simp [hb])) (by linarith)
    have hab := advance_bounds hl
    rw [hlen] at hab
    have hKs0 : 0 ≤ K * s := mul_nonneg hK hs
    have hm0 : 0 ≤ m := by have : (0:ℝ) ≤ l.length := Nat.cast_nonneg _; linarith
    rw [List.foldl_append, List.foldl_cons, List.foldl_nil]
    set c := l.foldl (fun c β => Φ (β * s) (β • c + (1 - β) • u)) u with hc
    set a := advance l with ha
    set a' := advance (l ++ [β]) with ha'
    have hrec : a' = β * (a + 1) := advance_snoc l β
    set w := β • c + (1 - β) • u with hw
    set z := Φ (β * s) w with hz
    have hzz : z = w + (β * s) • f z := hΦ _ (mul_nonneg b0 hs) w
    set D := m * (K * B * s ^ 2) with hD
    have hD0 : 0 ≤ D := by positivity
    set Q := (1 + 2 * (K * s)) ^ l.length * (‖u - p‖ + l.length * D) with hQ
    have one : 1 ≤ (1 + 2 * (K * s)) ^ l.length := one_le_pow₀ (by linarith)
    have hQe : ‖u - p‖ ≤ Q := by
      have h1 : ‖u - p‖ ≤ ‖u - p‖ + l.length * D := le_add_of_nonneg_right (by positivity)
      exact h1.trans (le_mul_of_one_le_left (by positivity) one)
    have hw1 : ‖w - p - (β * a * s) • f p‖ ≤ Q := by
      have e : w - p - (β * a * s) • f p = β • (c - p - (a * s) • f p) + (1 - β) • (u - p) := by
        rw [hw]; module
      rw [e]
      refine (norm_add_le _ _).trans ?_
      rw [norm_smul, norm_smul, Real.norm_eq_abs, Real.norm_eq_abs, abs_of_nonneg b0, abs_of_nonneg (by linarith : 0 ≤ 1 - β)]
      have := mul_le_mul_of_nonneg_left i b0
      have := mul_le_mul_of_nonneg_left hQe (by linarith : 0 ≤ 1 - β)
      linarith
    set q := ‖z - p - (a' * s) • f p‖ with hq
    have hq0 : 0 ≤ q := norm_nonneg _
    have near : ‖z - p‖ ≤ q + a' * s * B := by
      have e : z - p = (z - p - (a' * s) • f p) + (a' * s) • f p := by abel
      rw [e]
      refine (norm_add_le _ _).trans (add_le_add le_rfl ?_)
      rw [norm_smul, Real.norm_eq_abs, abs_of_nonneg (mul_nonneg hab.1 hs)]
      exact mul_le_mul_of_nonneg_left hp (mul_nonneg hab.1 hs)
    have key : q ≤ Q + (β * s) * (K * (q + a' * s * B)) := by
      have e : z - p - (a' * s) • f p = (w - p - (β * a * s) • f p) + (β * s) • (f z - f p) := by
        conv_lhs => rw [hzz]
        rw [hrec]; module
      have : q ≤ Q + ‖(β * s) • (f z - f p)‖ := (congrArg norm e).le.trans ((norm_add_le _ _).trans (add_le_add hw1 le_rfl))
      refine this.trans (add_le_add le_rfl ?_)
      rw [norm_smul, Real.norm_eq_abs, abs_of_nonneg (mul_nonneg b0 hs)]
      exact mul_le_mul_of_nonneg_left ((hf _ _).trans (mul_le_mul_of_nonneg_left near hK)) (mul_nonneg b0 hs)
    have key2 : q ≤ Q + K * s * q + D := by
      have h1 : (β * s) * (K * (q + a' * s * B)) ≤ s * (K * (q + a' * s * B)) := by
        refine mul_le_mul_of_nonneg_right ?_ (mul_nonneg hK (add_nonneg hq0 (mul_nonneg (mul_nonneg hab.1 hs) hB0)))
        nlinarith
      have h2 : a' * (K * B * s ^ 2) ≤ D := mul_le_mul_of_nonneg_right (hab.2.trans hm) (by positivity)
      have h3 : s * (K * (q + a' * s * B)) = K * s * q + a' * (K * B * s ^ 2) := by ring
      linarith
    have e1 : q ≤ (1 + 2 * (K * s)) * (Q + D) := by
      have k1 : (1 - K * s) * q ≤ Q + D := by linarith
      have k2 := mul_le_mul_of_nonneg_left k1 (by linarith : 0 ≤ 1 + 2 * (K * s))
      nlinarith [mul_nonneg (mul_nonneg hKs0 (by linarith : 0 ≤ 1 - 2 * (K * s))) hq0]
    refine e1.trans ?_
    have e2 : Q + D ≤ (1 + 2 * (K * s)) ^ l.length * (‖u - p‖ + (l.length + 1) * D) := by
      have : D ≤ (1 + 2 * (K * s)) ^ l.length * D := le_mul_of_one_le_left hD0 one
      rw [hQ]; linarith
    have := mul_le_mul_of_nonneg_left e2 (by linarith : 0 ≤ 1 + 2 * (K * s))
    rw [hlen, List.length_append, List.length_singleton, pow_succ]
    linarith

/-- staged steps of any lengths up to `δ` stay within a multiple of `δ` of the exact solution at the time elapsed times the advance of the weights. -/
theorem staged_converges {f : V → V} {K B T δ : ℝ} (hK : 0 ≤ K) (hf : ∀ x y, ‖f x - f y‖ ≤ K * ‖x - y‖) {y : ℝ → V} (hy : ∀ t ∈ Set.Icc 0 T, HasDerivWithinAt y (f (y t)) (Set.Icc 0 T) t)
    (hB : ∀ t ∈ Set.Icc 0 T, ‖f (y t)‖ ≤ B) (hB0 : 0 ≤ B) (hδ : K * δ ≤ 1/2) {Φ : ℝ → V → V} (hΦ : ∀ s, 0 ≤ s → ∀ w, Φ s w = w + s • f (Φ s w)) (l : List ℝ) (hl : ∀ β ∈ l, 0 ≤ β ∧ β ≤ 1) (s : ℕ → ℝ)
    (hs : ∀ k, 0 ≤ s k ∧ s k ≤ δ) (u : ℕ → V) (hu0 : u 0 = y 0) (hu : ∀ k, u (k + 1) = l.foldl (fun c β => Φ (β * s k) (β • c + (1 - β) • u k)) (u k)) (n : ℕ) (hn : advance l * ∑ k ∈ range n, s k ≤ T) :
    ‖u n - y (advance l * ∑ k ∈ range n, s k)‖ ≤ 2 * (l.length : ℝ) ^ 2 * K * B * δ * (∑ k ∈ range n, s k) * Real.exp (2 * l.length * K * ∑ k ∈ range n, s k) := by
  obtain ⟨A0, A1⟩ := advance_bounds hl
  set A := advance l
  set m : ℝ := (l.length : ℝ) with hm
  have m0 : 0 ≤ m := Nat.cast_nonneg _
  induction n with
  | zero => simp [hu0]
  | succ n ih =>
    rw [sum_range_succ] at hn ⊢
    set t := ∑ k ∈ range n, s k with ht
    have ht0 : 0 ≤ t := sum_nonneg fun k _ => (hs k).1
    obtain ⟨s0, s1⟩ := hs n
    have hδ0 : 0 ≤ δ := s0.trans s1
    have hAs : 0 ≤ A * s n := mul_nonneg A0 s0
    have hAt : 0 ≤ A * t := mul_nonneg A0 ht0
    have hn' : A * t + A * s n ≤ T := by rw [← mul_add]; exact hn
    have i := ih (by linarith)
    have d := fe_defect hK hf hy hB hAt hAs hn'
    have st := stages_near hK hB0 hf hΦ s0 ((mul_le_mul_of_nonneg_left s1 hK).trans hδ) (u n) (y (A * t)) (hB _ ⟨hAt, by linarith⟩) l hl le_rfl
    rw [← hu n, ← hm] at st
    have tri : ‖u (n + 1) - y (A * t + A * s n)‖ ≤ ‖u (n + 1) - y (A * t) - (A * s n) • f (y (A * t))‖ + ‖y (A * t + A * s n) - y (A * t) - (A * s n) • f (y (A * t))‖ := by
      have e : u (n + 1) - y (A * t + A * s n) = (u (n + 1) - y (A * t) - (A * s n) • f (y (A * t))) - (y (A * t + A * s n) - y (A * t) - (A * s n) • f (y (A * t))) := by abel
      rw [e]; exact norm_sub_le _ _
    have hKs0 : 0 ≤ K * s n := mul_nonneg hK s0
    have pw : (1 + 2 * (K * s n)) ^ l.length ≤ Real.exp (2 * m * K * s n) := by
      have h1 : 1 + 2 * (K * s n) ≤ Real.exp (2 * (K * s n)) := by have := Real.add_one_le_exp (2 * (K * s n)); linarith
      refine (pow_le_pow_left₀ (by linarith) h1 _).trans_eq ?_
      rw [← Real.exp_nat_mul, ← hm]; congr 1; ring
    have one : 1 ≤ Real.exp (2 * m * K * s n) := Real.one_le_exp (by positivity)
    set X := Real.exp (2 * m * K * s n)
    set e := ‖u n - y (A * t)‖
    have e0 : 0 ≤ e := norm_nonneg _
    have b1 : ‖u (n + 1) - y (A * t + A * s n)‖ ≤ X * (e + 2 * m ^ 2 * K * B * (s n) ^ 2) := by
      have c1 := st.trans (mul_le_mul_of_nonneg_right pw (by positivity))
      have c2 : K * B * (A * s n) ^ 2 ≤ X * (m ^ 2 * K * B * (s n) ^ 2) := by
        have : K * B * (A * s n) ^ 2 ≤ m ^ 2 * K * B * (s n) ^ 2 := by
          have : A ^ 2 ≤ m ^ 2 := pow_le_pow_left₀ A0 A1 2
          have := mul_le_mul_of_nonneg_right this (by positivity : 0 ≤ K * B * (s n) ^ 2)
          linarith
        exact this.trans (le_mul_of_one_le_left (by positivity) one)
      have := tri.trans (add_le_add c1 (d.trans c2))
      refine this.trans_eq ?_
      ring
    have b2 : e + 2 * m ^ 2 * K * B * (s n) ^ 2 ≤ 2 * m ^ 2 * K * B * δ * (t + s n) * Real.exp (2 * m * K * t) := by
      have a1 : 2 * m ^ 2 * K * B * (s n) ^ 2 ≤ 2 * m ^ 2 * K * B * δ * s n := by
        have := mul_le_mul_of_nonneg_left s1 (by positivity : 0 ≤ 2 * m ^ 2 * K * B * s n)
        linarith
      have a2 : 2 * m ^ 2 * K * B * δ * s n ≤ 2 * m ^ 2 * K * B * δ * s n * Real.exp (2 * m * K * t) := le_mul_of_one_le_right (by positivity) (Real.one_le_exp (by positivity))
      have : 2 * m ^ 2 * K * B * δ * (t + s n) * Real.exp (2 * m * K * t) = 2 * m ^ 2 * K * B * δ * t * Real.exp (2 * m * K * t) + 2 * m ^ 2 * K * B * δ * s n * Real.exp (2 * m * K * t) := by ring
      rw [this]; linarith
    rw [show A * (t + s n) = A * t + A * s n by ring]
    calc _ ≤ X * (2 * m ^ 2 * K * B * δ * (t + s n) * Real.exp (2 * m * K * t)) := b1.trans (mul_le_mul_of_nonneg_left b2 (Real.exp_pos _).le)
      _ = 2 * m ^ 2 * K * B * δ * (t + s n) * Real.exp (2 * m * K * (t + s n)) := by rw [show 2 * m * K * (t + s n) = 2 * m * K * s n + 2 * m * K * t by ring, Real.exp_add]; ring

end

/-! ### The code -/

/-- **C165** The time integrator with the implicit exchange in every stage follows the exact relaxation, at the time elapsed times the advance of its weights: for every metric, velocity, opacities, emission, weights between zero and one, and exact history there is a constant such that after any number of
steps of any lengths up to `δ` the energy and each flux component are within `C δ` of the exact ones. -/
theorem stage_run_converges {G : ADM ℝ} (hG : G.Valid) (hp : PosDef G) {v : Vec} (hs : Slow G v) {Pi : Tens2} (h0 : vvPi G v Pi = 0) (JBB : ℝ) {aJ aH : ℝ} (hJ : 0 ≤ aJ) (hH : 0 ≤ aH) (l : List ℝ) (hl : ∀ β ∈ l, 0 ≤ β ∧ β ≤ 1) (S T : ℝ)
    {E : ℝ → ℝ} {F : ℝ → Vec} (hx : ExactRelax G v Pi JBB aJ aH T E F) :
    ∃ C δ0, 0 < δ0 ∧ ∀ δ ≤ δ0, ∀ s : ℕ → ℝ, (∀ k, 0 ≤ s k ∧ s k ≤ δ) → ∀ n, ∑ k ∈ range n, s k ≤ S → advance l * ∑ k ∈ range n, s k ≤ T →
      |(exRun G v Pi JBB aJ aH l s (E 0, F 0) n).1 - E (advance l * ∑ k ∈ range n, s k)| ≤ C * δ ∧ ∀ i, |(exRun G v Pi JBB aJ aH l s (E 0, F 0) n).2 i - F (advance l * ∑ k ∈ range n, s k) i| ≤ C * δ := by
  set K := ‖relaxLin G v Pi aJ aH‖ with hK
  have hK0 : 0 ≤ K := norm_nonneg _
  have hlip := relaxRate_lip G v Pi JBB aJ aH
  set y : ℝ → ℝ × Vec := fun t => (E t, F t) with hy
  have hyd : ∀ t ∈ Set.Icc 0 T, HasDerivWithinAt y (relaxRate G v Pi JBB aJ aH (y t)) (Set.Icc 0 T) t := fun t ht => by
    obtain ⟨J, H, hc, hE, hF⟩ := hx t ht
    have : relaxRate G v Pi JBB aJ aH (y t) = exchangeTerm G v JBB aJ aH J H := by
      unfold relaxRate
      rw [show rawMap G v Pi (y t) = (J, H) from (comoving_iff hG hs h0).mp hc]
    rw [this]
    exact hE.prodMk (hasDerivWithinAt_pi.mpr hF)
  have hcont : Continuous (relaxRate G v Pi JBB aJ aH) := by
    refine (LipschitzWith.of_dist_le_mul (K := ⟨K, hK0⟩) fun x y => ?_).continuous
    rw [dist_eq_norm, dist_eq_norm]; exact hlip x y
  obtain ⟨B, hB⟩ := isCompact_Icc.exists_bound_of_continuousOn (f := fun t => relaxRate G v Pi JBB aJ aH (y t)) (s := Set.Icc 0 T) (hcont.comp_continuousOn fun t ht => (hyd t ht).continuousWithinAt)
  have hB' : ∀ t ∈ Set.Icc 0 T, ‖relaxRate G v Pi JBB aJ aH (y t)‖ ≤ max B 0 := fun t ht => (hB t ht).trans (le_max_left _ _)
  have hB0 : 0 ≤ max B 0 := le_max_right _ _
  refine ⟨2 * l.length ^ 2 * K * max B 0 * S * Real.exp (2 * l.length * K * S), 1 / (2 * (K + 1)), by positivity, fun δ hδ s hsk n hS hn => ?_⟩
  have hδ0 : 0 ≤ δ := (hsk 0).1.trans (hsk 0).2
  have hKδ : K * δ ≤ 1/2 := by
    have : K * δ ≤ K * (1 / (2 * (K + 1))) := mul_le_mul_of_nonneg_left hδ hK0
    refine this.trans ?_
    rw [mul_one_div, div_le_div_iff₀ (by positivity) (by norm_num)]; linarith
  have main := staged_converges hK0 hlip hyd hB' hB0 hKδ (Φ := fun r w => exUpdate G v Pi JBB aJ aH r w) (fun r hr w => update_be hG hp hs h0 JBB hJ hH hr w.1 _ w.2 _ rfl fun _ => rfl) l hl s hsk
    (fun k => exRun G v Pi JBB aJ aH l s (E 0, F 0) k) rfl (fun k => rfl) n hn
  set t := ∑ k ∈ range n, s k with ht
  have ht0 : 0 ≤ t := sum_nonneg fun k _ => (hsk k).1
  have b : 2 * (l.length : ℝ) ^ 2 * K * max B 0 * δ * t * Real.exp (2 * l.length * K * t) ≤ 2 * l.length ^ 2 * K * max B 0 * S * Real.exp (2 * l.length * K * S) * δ := by
    have e1 : Real.exp (2 * l.length * K * t) ≤ Real.exp (2 * l.length * K * S) := Real.exp_le_exp.mpr (mul_le_mul_of_nonneg_left hS (by positivity))
    have e2 : 2 * (l.length : ℝ) ^ 2 * K * max B 0 * δ * t ≤ 2 * l.length ^ 2 * K * max B 0 * δ * S := mul_le_mul_of_nonneg_left hS (by positivity)
    calc _ ≤ (2 * (l.length : ℝ) ^ 2 * K * max B 0 * δ * S) * Real.exp (2 * l.length * K * S) := mul_le_mul e2 e1 (Real.exp_pos _).le (by have := ht0.trans hS; positivity)
      _ = _ := by ring
  have mm := main.trans b
  refine ⟨?_, fun i => ?_⟩
  · exact (norm_fst_le (exRun G v Pi JBB aJ aH l s (E 0, F 0) n - y (advance l * t))).trans mm
  · exact ((norm_le_pi_norm (exRun G v Pi JBB aJ aH l s (E 0, F 0) n - y (advance l * t)).2 i).trans (norm_snd_le (exRun G v Pi JBB aJ aH l s (E 0, F 0) n - y (advance l * t)))).trans mm

/-- **C165** With `N + 1` equal steps over the time `S` the run tends to the exact value at `S` times the advance of the weights. -/
theorem stage_run_limit {G : ADM ℝ} (hG : G.Valid) (hp : PosDef G) {v : Vec} (hs : Slow G v) {Pi : Tens2} (h0 : vvPi G v Pi = 0) (JBB : ℝ) {aJ aH : ℝ} (hJ : 0 ≤ aJ) (hH : 0 ≤ aH) (l : List ℝ) (hl : ∀ β ∈ l, 0 ≤ β ∧ β ≤ 1) {S : ℝ} (hS : 0 ≤ S)
    {E : ℝ → ℝ} {F : ℝ → Vec} (hx : ExactRelax G v Pi JBB aJ aH (advance l * S) E F) :
    Tendsto (fun N : ℕ => (exRun G v Pi JBB aJ aH l (fun _ => S / ((N : ℝ) + 1)) (E 0, F 0) (N + 1)).1) atTop (𝓝 (E (advance l * S))) ∧
      ∀ i, Tendsto (fun N : ℕ => (exRun G v Pi JBB aJ aH l (fun _ => S / ((N : ℝ) + 1)) (E 0, F 0) (N + 1)).2 i) atTop (𝓝 (F (advance l * S) i)) := by
  obtain ⟨C, δ0, hδ0, h⟩ := stage_run_converges hG hp hs h0 JBB hJ hH l hl S _ hx
  have lim : Tendsto (fun N : ℕ => S / ((N : ℝ) + 1)) atTop (𝓝 0) := tendsto_const_nhds.div_atTop (tendsto_natCast_atTop_atTop.atTop_add tendsto_const_nhds)
  have ev : ∀ᶠ N : ℕ in atTop, S / ((N : ℝ) + 1) ≤ δ0 := lim.eventually (eventually_le_nhds hδ0)
  have sum : ∀ N : ℕ, ∑ _k ∈ range (N + 1), S / ((N : ℝ) + 1) = S := fun N => by
    rw [sum_const, card_range, nsmul_eq_mul]; push_cast; field_simp
  have hb := ev.mono fun N hN => by
    have := h _ hN (fun _ => S / ((N : ℝ) + 1)) (fun _ => ⟨by positivity, le_rfl⟩) (N + 1) (sum N).le (by rw [sum N])
    rwa [sum N] at this
  have l2 : Tendsto (fun N : ℕ => C * (S / ((N : ℝ) + 1))) atTop (𝓝 0) := by simpa using lim.const_mul C
  refine ⟨?_, fun i => ?_⟩
  · rw [tendsto_iff_dist_tendsto_zero]
    exact squeeze_zero' (Eventually.of_forall fun _ => dist_nonneg) (hb.mono fun N h => by rw [Real.dist_eq]; exact h.1) l2
  · rw [tendsto_iff_dist_tendsto_zero]
    exact squeeze_zero' (Eventually.of_forall fun _ => dist_nonneg) (hb.mono fun N h => by rw [Real.dist_eq]; exact h.2 i) l2

/-- gas at rest that absorbs: the energy decays exponentially. -/
theorem rest_exact (T : ℝ) : ExactRelax C2P.flat 0 0 0 1 1 T (fun t => Real.exp (-t)) (fun _ => 0) := fun t _ => by
  have hv := vvPi_zero C2P.flat 0
  have hl : lower C2P.flat 0 = 0 := funext fun i => by simp [lower]
  have hW : W C2P.flat 0 = 1 := by simp [W, v2, hl, cc]; norm_num
  have hc : covVPi C2P.flat 0 0 = 0 := funext fun i => by simp [covVPi, lower, conVPi]
  refine ⟨Real.exp (-t), 0, ?_, ?_, fun i => ?_⟩
  · unfold Comoving
    refine Prod.ext ?_ (funext fun i => ?_)
    · simp [prim2con, cc, W2, hW, hv]; norm_num
    · simp [prim2con, cc, hl, hc]
  · have : (exchangeTerm C2P.flat 0 0 1 1 (Real.exp (-t)) 0).1 = Real.exp (-t) * -1 := by simp [exchangeTerm, cc, hW]
    rw [this]
    exact ((hasDerivAt_id t).neg.exp).hasDerivWithinAt
  · have : (exchangeTerm C2P.flat 0 0 1 1 (Real.exp (-t)) 0).2 i = 0 := by simp [exchangeTerm, hl]
    rw [this]
    exact (hasDerivAt_const t (0:ℝ)).hasDerivWithinAt

/-- **C165 (concrete)** Radiation of energy one in absorbing gas at rest, run to the time one with ever shorter steps: with the weights of `rk1`, `rk2` and `rk3` the energy tends to the exact `e^{-1}`; with those of `vl2` it tends to `e^{-3/2}`. -/
theorem ex_stage_run :
    let lim (l : List ℝ) (x : ℝ) : Prop := Tendsto (fun N : ℕ => (exRun C2P.flat 0 0 0 1 1 l (fun _ => 1 / ((N : ℝ) + 1)) (1, 0) (N + 1)).1) atTop (𝓝 x)
    lim [1] (Real.exp (-1)) ∧ lim [1, 1/2] (Real.exp (-1)) ∧ lim [1, 1/4, 2/3] (Real.exp (-1)) ∧ lim [1/2, 1] (Real.exp (-(3/2))) ∧ Real.exp (-(3/2)) ≠ Real.exp (-1) := by
  intro lim
  have hs : Slow C2P.flat 0 := by simp [Slow, ADM.dot3]; norm_num
  have gen : ∀ l : List ℝ, (∀ β ∈ l, 0 ≤ β ∧ β ≤ 1) → ∀ a, advance l = a → lim l (Real.exp (-a)) := fun l hl a ha => by
    have := (stage_run_limit C2P.flat_valid.1 C2P.flat_valid.2 hs (vvPi_zero C2P.flat 0) 0 zero_le_one zero_le_one l hl zero_le_one (rest_exact _)).1
    simp only [neg_zero, Real.exp_zero, mul_one, ha] at this
    exact this
  obtain ⟨a1, a2, a3, a4⟩ := Step.advance_schemes
  refine ⟨gen _ ?_ _ a1, gen _ ?_ _ a2, gen _ ?_ _ a3, gen _ ?_ _ a4, fun h => ?_⟩
  · intro β hβ
    simp only [List.mem_cons, List.not_mem_nil, or_false] at hβ
    subst hβ; norm_num
  · intro β hβ
    simp only [List.mem_cons, List.not_mem_nil, or_false] at hβ
    rcases hβ with rfl | rfl <;> norm_num
  · intro β hβ
    simp only [List.mem_cons, List.not_mem_nil, or_false] at hβ
    rcases hβ with rfl | rfl | rfl <;> norm_num
  · intro β hβ
    simp only [List.mem_cons, List.not_mem_nil, or_false] at hβ
    rcases hβ with rfl | rfl <;> norm_num
  · have := Real.exp_injective h
    norm_num at this

end Phoebus.Closure
