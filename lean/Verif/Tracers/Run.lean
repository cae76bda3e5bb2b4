import Verif.Tracers.Props
import Mathlib.Analysis.Calculus.MeanValue
import Mathlib.Analysis.Calculus.Deriv.Pow
import Mathlib.Analysis.Calculus.Deriv.Prod
import Mathlib.Analysis.Calculus.Deriv.Pi
import Mathlib.Analysis.SpecialFunctions.ExpDeriv
import Mathlib.Analysis.Normed.Module.FiniteDimension

/-!
# Tracers over many steps (C166)

In each step the tracers are moved once, after the last stage, with the fields of the new state (`stage_name[nstages]` is "base"), phoebus_driver.cpp:622-642.
-/
namespace Phoebus.Tracers
open Geom Rel Finset

/-! ### Midpoint steps -/

section
variable {V : Type*} [NormedAddCommGroup V] [NormedSpace ℝ V]

/-- how much a midpoint step expands distances. -/
theorem mid_stable {f : V → V} {K s : ℝ} (hK : 0 ≤ K) (hs : 0 ≤ s) (hf : ∀ x y, ‖f x - f y‖ ≤ K * ‖x - y‖) (x y : V) :
    ‖(x + s • f (x + (s / 2) • f x)) - (y + s • f (y + (s / 2) • f y))‖ ≤ Real.exp (K * s) * ‖x - y‖ := by
  have h1 : ‖(x + (s / 2) • f x) - (y + (s / 2) • f y)‖ ≤ (1 + K * s / 2) * ‖x - y‖ := by
    have e : (x + (s / 2) • f x) - (y + (s / 2) • f y) = (x - y) + (s / 2) • (f x - f y) := by module
    rw [e]
    refine (norm_add_le _ _).trans ?_
    rw [norm_smul, Real.norm_eq_abs, abs_of_nonneg (by linarith : 0 ≤ s / 2)]
    have := mul_le_mul_of_nonneg_left (hf x y) (by linarith : 0 ≤ s / 2)
    linarith
  have e : (x + s • f (x + (s / 2) • f x)) - (y + s • f (y + (s / 2) • f y)) = (x - y) + s • (f (x + (s / 2) • f x) - f (y + (s / 2) • f y)) := by module
  rw [e]
  refine (norm_add_le _ _).trans ?_
  rw [norm_smul, Real.norm_eq_abs, abs_of_nonneg hs]
  have h2 := mul_le_mul_of_nonneg_left ((hf _ _).trans (mul_le_mul_of_nonneg_left h1 hK)) hs
  have h3 := mul_le_mul_of_nonneg_right (Real.quadratic_le_exp_of_nonneg (mul_nonneg hK hs)) (norm_nonneg (x - y))
  refine (add_le_add le_rfl h2).trans (le_trans (le_of_eq ?_) h3)
  ring

/-- a sequence of midpoint steps whose defects along `y` are at most `c s^(p+1)` stays within a multiple of `δ^p` of `y`. -/
theorem mid_gronwall {f : ℕ → V → V} {K c T δ : ℝ} {p : ℕ} (hK : 0 ≤ K) (hc : 0 ≤ c) (hf : ∀ k x y, ‖f k x - f k y‖ ≤ K * ‖x - y‖) {y : ℝ → V} (s : ℕ → ℝ) (hs : ∀ k, 0 ≤ s k ∧ s k ≤ δ)
    (hd : ∀ k, ∑ j ∈ range (k + 1), s j ≤ T → ‖y (∑ j ∈ range k, s j + s k) - y (∑ j ∈ range k, s j) - s k • f k (y (∑ j ∈ range k, s j) + (s k / 2) • f k (y (∑ j ∈ range k, s j)))‖ ≤ c * s k ^ (p + 1))
    (u : ℕ → V) (hu0 : u 0 = y 0) (hu : ∀ k, u (k + 1) = u k + s k • f k (u k + (s k / 2) • f k (u k))) (n : ℕ) (hn : ∑ k ∈ range n, s k ≤ T) :
    ‖u n - y (∑ k ∈ range n, s k)‖ ≤ c * δ ^ p * (∑ k ∈ range n, s k) * Real.exp (K * ∑ k ∈ range n, s k) := by
  induction n with
  | zero => simp [hu0]
  | succ n ih =>
    have d := hd n hn
    rw [sum_range_succ] at hn ⊢
    set t := ∑ k ∈ range n, s k with ht
    have ht0 : 0 ≤ t := sum_nonneg fun k _ => (hs k).1
    obtain ⟨s0, s1⟩ := hs n
    have hδ : 0 ≤ δ := s0.trans s1
    have i := ih (by linarith)
    have st := mid_stable hK s0 (hf n) (u n) (y t)
    rw [← hu n] at st
    have e : u (n + 1) - y (t + s n) = (u (n + 1) - (y t + s n • f n (y t + (s n / 2) • f n (y t)))) - (y (t + s n) - y t - s n • f n (y t + (s n / 2) • f n (y t))) := by abel
    have key := (congrArg norm e).le.trans ((norm_sub_le _ _).trans (add_le_add st d))
    have a1 : c * s n ^ (p + 1) ≤ c * δ ^ p * s n * Real.exp (K * (t + s n)) := by
      have b1 : c * s n ^ (p + 1) ≤ c * δ ^ p * s n := by
        rw [pow_succ, ← mul_assoc]
        exact mul_le_mul_of_nonneg_right (mul_le_mul_of_nonneg_left (pow_le_pow_left₀ s0 s1 p) hc) s0
      exact b1.trans (le_mul_of_one_le_right (by positivity) (Real.one_le_exp (by positivity)))
    have a2 := mul_le_mul_of_nonneg_left i (Real.exp_pos (K * s n)).le
    refine key.trans ((add_le_add a2 a1).trans_eq ?_)
    rw [show K * (t + s n) = K * s n + K * t by ring, Real.exp_add]; ring

/-- defect of an exact solution in a midpoint step with the field of a time within the step. -/
theorem mid_defect {f : ℝ → V → V} {K M B T : ℝ} (hK : 0 ≤ K) (hM : 0 ≤ M) (hf : ∀ t x y, ‖f t x - f t y‖ ≤ K * ‖x - y‖) (hft : ∀ t t' x, ‖f t x - f t' x‖ ≤ M * |t - t'|) {y : ℝ → V}
    (hy : ∀ t ∈ Set.Icc 0 T, HasDerivWithinAt y (f t (y t)) (Set.Icc 0 T) t) (hB : ∀ t ∈ Set.Icc 0 T, ‖f t (y t)‖ ≤ B) {t s τ : ℝ} (ht : 0 ≤ t) (hs : 0 ≤ s) (hs1 : s ≤ 1) (hT : t + s ≤ T) (h1 : t ≤ τ) (h2 : τ ≤ t + s) :
    ‖y (t + s) - y t - s • f τ (y t + (s / 2) • f τ (y t))‖ ≤ (M + K * (2 * B + M)) * s ^ (1 + 1) := by
  have hsub : Set.Icc t (t + s) ⊆ Set.Icc 0 T := Set.Icc_subset_Icc ht hT
  have ht' : t ∈ Set.Icc t (t + s) := ⟨le_rfl, by linarith⟩
  have hB0 : 0 ≤ B := (norm_nonneg _).trans (hB t (hsub ht'))
  have step : ∀ a ∈ Set.Icc t (t + s), ‖y a - y t‖ ≤ B * s := fun a ha => by
    have := (convex_Icc t (t + s)).norm_image_sub_le_of_norm_hasDerivWithin_le (f := y) (f' := fun r => f r (y r)) (C := B) (x := t) (y := a)
      (fun r hr => (hy r (hsub hr)).mono hsub) (fun r hr => hB r (hsub hr)) ht' ha
    refine this.trans (mul_le_mul_of_nonneg_left ?_ hB0)
    rw [Real.norm_eq_abs, abs_of_nonneg (by linarith [ha.1])]
    linarith [ha.2]
  have tt : ∀ a ∈ Set.Icc t (t + s), |a - τ| ≤ s := fun a ha => by
    rw [abs_le]; constructor <;> linarith [ha.1, ha.2]
  set p := y t + (s / 2) • f τ (y t) with hp
  have hfp : ‖f τ (y t)‖ ≤ B + M := by
    have a1 := hft τ t (y t)
    rw [abs_sub_comm] at a1
    have a2 := mul_le_mul_of_nonneg_left ((tt t ht').trans hs1) hM
    have a3 := norm_sub_norm_le (f τ (y t)) (f t (y t))
    have a4 := hB t (hsub ht')
    linarith
  have hpy : ‖p - y t‖ ≤ s * (B + M) := by
    rw [hp, add_sub_cancel_left, norm_smul, Real.norm_eq_abs, abs_of_nonneg (by linarith : 0 ≤ s / 2)]
    exact mul_le_mul (by linarith) hfp (norm_nonneg _) hs
  have := (convex_Icc t (t + s)).norm_image_sub_le_of_norm_hasDerivWithin_le (f := fun q => y q - q • f τ p) (f' := fun q => f q (y q) - (1:ℝ) • f τ p) (C := (M + K * (2 * B + M)) * s) (x := t) (y := t + s)
    (fun q hq => ((hy q (hsub hq)).mono hsub).sub ((hasDerivWithinAt_id q _).smul_const _)) (fun q hq => by
      rw [one_smul]
      have e : f q (y q) - f τ p = (f q (y q) - f τ (y q)) + (f τ (y q) - f τ p) := by abel
      rw [e]
      have c1 := (hft q τ (y q)).trans (mul_le_mul_of_nonneg_left (tt q hq) hM)
      have c3 : ‖y q - p‖ ≤ B * s + s * (B + M) := by
        have e : y q - p = (y q - y t) - (p - y t) := by abel
        rw [e]
        exact (norm_sub_le _ _).trans (add_le_add (step q hq) hpy)
      have c2 := (hf τ (y q) p).trans (mul_le_mul_of_nonneg_left c3 hK)
      refine (norm_add_le _ _).trans ((add_le_add c1 c2).trans_eq ?_)
      ring) ht' ⟨by linarith, le_rfl⟩
  have e : (y (t + s) - (t + s) • f τ p) - (y t - t • f τ p) = y (t + s) - y t - s • f τ p := by module
  refine ((congrArg norm e.symm).le.trans this).trans_eq ?_
  rw [add_sub_cancel_left, Real.norm_eq_abs, abs_of_nonneg hs]; ring

/-- in a steady smooth field the defect is of third order. -/
theorem mid_defect_steady {f : V → V} {f' : V → V →L[ℝ] V} {K M B T : ℝ} (hK : 0 ≤ K) (hM : 0 ≤ M) (hf' : ∀ x, HasFDerivAt f (f' x) x) (hfK : ∀ x, ‖f' x‖ ≤ K) (hfM : ∀ x y, ‖f' x - f' y‖ ≤ M * ‖x - y‖) (hf : ∀ x y, ‖f x - f y‖ ≤ K * ‖x - y‖)
    {y : ℝ → V} (hy : ∀ t ∈ Set.Icc 0 T, HasDerivWithinAt y (f (y t)) (Set.Icc 0 T) t) (hB : ∀ t ∈ Set.Icc 0 T, ‖f (y t)‖ ≤ B) {t s : ℝ} (ht : 0 ≤ t) (hs : 0 ≤ s) (hT : t + s ≤ T) :
    ‖y (t + s) - y t - s • f (y t + (s / 2) • f (y t))‖ ≤ ((M * B + K * K) * B + M * B ^ 2) * s ^ (2 + 1) := by
  have hsub : Set.Icc t (t + s) ⊆ Set.Icc 0 T := Set.Icc_subset_Icc ht hT
  have ht' : t ∈ Set.Icc t (t + s) := ⟨le_rfl, by linarith⟩
  have hB0 : 0 ≤ B := (norm_nonneg _).trans (hB t (hsub ht'))
  have near : ∀ a ∈ Set.Icc t (t + s), ‖a - t‖ ≤ s := fun a ha => by
    rw [Real.norm_eq_abs, abs_of_nonneg (by linarith [ha.1])]; linarith [ha.2]
  have step : ∀ a ∈ Set.Icc t (t + s), ‖y a - y t‖ ≤ B * s := fun a ha => by
    have := (convex_Icc t (t + s)).norm_image_sub_le_of_norm_hasDerivWithin_le (f := y) (f' := fun r => f (y r)) (C := B) (x := t) (y := a)
      (fun r hr => (hy r (hsub hr)).mono hsub) (fun r hr => hB r (hsub hr)) ht' ha
    exact this.trans (mul_le_mul_of_nonneg_left (near a ha) hB0)
  set D := f' (y t) (f (y t)) with hD
  set L := (M * B + K * K) * B with hL
  have hL0 : 0 ≤ L := by positivity
  -- the rate along the solution
  have hg : ∀ a ∈ Set.Icc t (t + s), HasDerivWithinAt (fun r => f (y r)) (f' (y a) (f (y a))) (Set.Icc t (t + s)) a := fun a ha => (hf' (y a)).comp_hasDerivWithinAt a ((hy a (hsub ha)).mono hsub)
  have hgL : ∀ a ∈ Set.Icc t (t + s), ‖f' (y a) (f (y a)) - D‖ ≤ L * s := fun a ha => by
    have e : f' (y a) (f (y a)) - D = (f' (y a) - f' (y t)) (f (y a)) + f' (y t) (f (y a) - f (y t)) := by
      rw [hD, map_sub, ContinuousLinearMap.sub_apply]; abel
    rw [e]
    have c1 : ‖(f' (y a) - f' (y t)) (f (y a))‖ ≤ M * (B * s) * B :=
      (ContinuousLinearMap.le_opNorm _ _).trans (mul_le_mul ((hfM _ _).trans (mul_le_mul_of_nonneg_left (step a ha) hM)) (hB a (hsub ha)) (norm_nonneg _) (by positivity))
    have c2 : ‖f' (y t) (f (y a) - f (y t))‖ ≤ K * (K * (B * s)) :=
      (ContinuousLinearMap.le_opNorm _ _).trans (mul_le_mul (hfK _) ((hf _ _).trans (mul_le_mul_of_nonneg_left (step a ha) hK)) (norm_nonneg _) hK)
    refine (norm_add_le _ _).trans ((add_le_add c1 c2).trans_eq ?_)
    rw [hL]; ring
  have hG : ∀ a ∈ Set.Icc t (t + s), ‖f (y a) - f (y t) - (a - t) • D‖ ≤ L * s * s := fun a ha => by
    have := (convex_Icc t (t + s)).norm_image_sub_le_of_norm_hasDerivWithin_le (f := fun q => f (y q) - q • D) (f' := fun q => f' (y q) (f (y q)) - (1:ℝ) • D) (C := L * s) (x := t) (y := a)
      (fun q hq => (hg q hq).sub ((hasDerivWithinAt_id q _).smul_const _)) (fun q hq => by rw [one_smul]; exact hgL q hq) ht' ha
    have e : (f (y a) - a • D) - (f (y t) - t • D) = f (y a) - f (y t) - (a - t) • D := by module
    rw [e] at this
    exact this.trans (mul_le_mul_of_nonneg_left (near a ha) (by positivity))
  have hH : ‖y (t + s) - y t - s • f (y t) - (s ^ 2 / 2) • D‖ ≤ L * s * s * s := by
    have hd2 : ∀ q, HasDerivAt (fun r : ℝ => (r - t) ^ 2 / 2) (q - t) q := fun q => by
      have := (((hasDerivAt_id q).sub_const t).pow 2).div_const 2
      refine this.congr_deriv ?_
      simp
    have := (convex_Icc t (t + s)).norm_image_sub_le_of_norm_hasDerivWithin_le (f := fun q => y q - q • f (y t) - ((q - t) ^ 2 / 2) • D) (f' := fun q => f (y q) - (1:ℝ) • f (y t) - (q - t) • D) (C := L * s * s) (x := t) (y := t + s)
      (fun q hq => (((hy q (hsub hq)).mono hsub).sub ((hasDerivWithinAt_id q _).smul_const _)).sub ((hd2 q).hasDerivWithinAt.smul_const _)) (fun q hq => by rw [one_smul]; exact hG q hq) ht' ⟨by linarith, le_rfl⟩
    have e : (y (t + s) - (t + s) • f (y t) - ((t + s - t) ^ 2 / 2) • D) - (y t - t • f (y t) - ((t - t) ^ 2 / 2) • D) = y (t + s) - y t - s • f (y t) - (s ^ 2 / 2) • D := by
      rw [add_sub_cancel_left, sub_self]; module
    rw [e] at this
    exact this.trans (mul_le_mul_of_nonneg_left (near _ ⟨by linarith, le_rfl⟩) (by positivity))
  -- the midpoint
  set w := (s / 2) • f (y t) with hw
  have hwn : ‖w‖ ≤ s * B := by
    rw [hw, norm_smul, Real.norm_eq_abs, abs_of_nonneg (by linarith : 0 ≤ s / 2)]
    exact mul_le_mul (by linarith) (hB t (hsub ht')) (norm_nonneg _) hs
  have hmid : ‖f (y t + w) - f (y t) - f' (y t) w‖ ≤ M * (s * B) * (s * B) := by
    have := (convex_segment (𝕜 := ℝ) (y t) (y t + w)).norm_image_sub_le_of_norm_hasFDerivWithin_le' (f := f) (f' := f') (φ := f' (y t)) (C := M * (s * B)) (x := y t) (y := y t + w)
      (fun x _ => (hf' x).hasFDerivWithinAt) (fun x hx => (hfM _ _).trans (mul_le_mul_of_nonneg_left (by
        obtain ⟨θ, ⟨θ0, θ1⟩, rfl⟩ := (segment_eq_image' ℝ (y t) (y t + w)).subset hx
        simp only [add_sub_cancel_left]
        rw [norm_smul, Real.norm_eq_abs, abs_of_nonneg θ0]
        exact (mul_le_of_le_one_left (norm_nonneg _) θ1).trans hwn) hM)) (left_mem_segment ℝ _ _) (right_mem_segment ℝ _ _)
    rw [add_sub_cancel_left] at this
    exact this.trans (mul_le_mul_of_nonneg_left hwn (by positivity))
  have e : y (t + s) - y t - s • f (y t + w) = (y (t + s) - y t - s • f (y t) - (s ^ 2 / 2) • D) - s • (f (y t + w) - f (y t) - f' (y t) w) := by
    have : f' (y t) w = (s / 2) • D := by rw [hw, map_smul]
    rw [this]; module
  rw [e]
  refine (norm_sub_le _ _).trans ?_
  rw [norm_smul, Real.norm_eq_abs, abs_of_nonneg hs]
  refine (add_le_add hH (mul_le_mul_of_nonneg_left hmid hs)).trans_eq ?_
  ring

end

/-! ### Specification -/

/-- coordinate velocity of the fluid at the time `t` and the place `x`. -/
noncomputable def speed (geom : ℝ → (Fin 3 → ℝ) → ADM ℝ) (vel : ℝ → (Fin 3 → ℝ) → Fin 3 → ℝ) (t : ℝ) (x : Fin 3 → ℝ) : Fin 3 → ℝ := coordVel (fourVelocity 0 (geom t x) (vel t x))

/-- `y` is the path of a fluid element over the times `0..T`. -/
def FlowLine (geom : ℝ → (Fin 3 → ℝ) → ADM ℝ) (vel : ℝ → (Fin 3 → ℝ) → Fin 3 → ℝ) (T : ℝ) (y : ℝ → Fin 3 → ℝ) : Prop :=
  ∀ t ∈ Set.Icc 0 T, ∀ i, HasDerivWithinAt (fun r => y r i) (speed geom vel t (y t) i) (Set.Icc 0 T) t

/-- the states of a tracer through steps of lengths `s`; step `k` uses the fields of the time `τ k`, phoebus_driver.cpp:622-642 (communication between blocks is not part of it; the interpolated velocity is one field for all blocks: that the code reads the one of the first block is C45). -/
noncomputable def tracerRun (geom : ℝ → (Fin 3 → ℝ) → ADM ℝ) (vel : ℝ → (Fin 3 → ℝ) → Fin 3 → ℝ) (s τ : ℕ → ℝ) (x : Tracer) : ℕ → Tracer
  | 0 => x
  | n + 1 => advect (geom (τ n)) (fun _ => vel (τ n)) 3 (s n) (tracerRun geom vel s τ x n)

/-! ### The code -/

theorem run_active (geom : ℝ → (Fin 3 → ℝ) → ADM ℝ) (vel : ℝ → (Fin 3 → ℝ) → Fin 3 → ℝ) (s τ : ℕ → ℝ) {x : Tracer} (h : x.active = true) (n : ℕ) : (tracerRun geom vel s τ x n).active = true := by
  induction n with
  | zero => exact h
  | succ n ih => simp only [tracerRun, advect]; rw [if_pos ih]; exact ih

theorem run_mid {geom : ℝ → (Fin 3 → ℝ) → ADM ℝ} (vel : ℝ → (Fin 3 → ℝ) → Fin 3 → ℝ) (ha : ∀ t x, 0 < (geom t x).alpha) (hp : ∀ t x, PosDef (geom t x)) (s τ : ℕ → ℝ) {x : Tracer} (h : x.active = true) (n : ℕ) :
    (tracerRun geom vel s τ x (n + 1)).x = (tracerRun geom vel s τ x n).x + s n • speed geom vel (τ n) ((tracerRun geom vel s τ x n).x + (s n / 2) • speed geom vel (τ n) (tracerRun geom vel s τ x n).x) := by
  have hr : ∀ z, rhs (geom (τ n)) (fun _ => vel (τ n)) 3 0 z = speed geom vel (τ n) z := fun z => funext fun i => rhs_coordVel _ _ 0 z (ha _ _) (hp _ _) i
  funext i
  have := advect_midpoint (geom (τ n)) (fun _ => vel (τ n)) 3 (s n) (tracerRun geom vel s τ x n) (run_active geom vel s τ h n) i
  simp only [hr] at this
  exact this

theorem flow_bounded {geom : ℝ → (Fin 3 → ℝ) → ADM ℝ} {vel : ℝ → (Fin 3 → ℝ) → Fin 3 → ℝ} {T : ℝ} {y : ℝ → Fin 3 → ℝ} (hy : FlowLine geom vel T y) {K M : ℝ} (hK : 0 ≤ K) (hM : 0 ≤ M)
    (hf : ∀ t x z, ‖speed geom vel t x - speed geom vel t z‖ ≤ K * ‖x - z‖) (hft : ∀ t t' x, ‖speed geom vel t x - speed geom vel t' x‖ ≤ M * |t - t'|) :
    (∀ t ∈ Set.Icc 0 T, HasDerivWithinAt y (speed geom vel t (y t)) (Set.Icc 0 T) t) ∧ ∃ B, 0 ≤ B ∧ ∀ t ∈ Set.Icc 0 T, ‖speed geom vel t (y t)‖ ≤ B := by
  have hd : ∀ t ∈ Set.Icc 0 T, HasDerivWithinAt y (speed geom vel t (y t)) (Set.Icc 0 T) t := fun t ht => hasDerivWithinAt_pi.mpr (hy t ht)
  refine ⟨hd, ?_⟩
  have hc : ContinuousOn y (Set.Icc 0 T) := fun t ht => (hd t ht).continuousWithinAt
  obtain ⟨R, hR⟩ := isCompact_Icc.exists_bound_of_continuousOn hc
  refine ⟨‖speed geom vel 0 0‖ + M * |T| + K * max R 0, by positivity, fun t ht => ?_⟩
  have a1 := hf t (y t) 0
  rw [sub_zero] at a1
  have a2 := hft t 0 0
  rw [sub_zero] at a2
  have a3 : ‖speed geom vel t (y t)‖ ≤ ‖speed geom vel t (y t) - speed geom vel t 0‖ + ‖speed geom vel t 0 - speed geom vel 0 0‖ + ‖speed geom vel 0 0‖ := by
    have e : speed geom vel t (y t) = (speed geom vel t (y t) - speed geom vel t 0) + (speed geom vel t 0 - speed geom vel 0 0) + speed geom vel 0 0 := by abel
    conv_lhs => rw [e]
    exact norm_add₃_le
  have a4 := mul_le_mul_of_nonneg_left ((hR t ht).trans (le_max_left R 0)) hK
  have a5 : |t| ≤ |T| := by rw [abs_of_nonneg ht.1]; exact ht.2.trans (le_abs_self T)
  have a6 := mul_le_mul_of_nonneg_left a5 hM
  linarith

theorem final_bound {c δ t T K : ℝ} {p : ℕ} (hc : 0 ≤ c) (hδ : 0 ≤ δ) (hK : 0 ≤ K) (h0 : 0 ≤ t) (h : t ≤ T) : c * δ ^ p * t * Real.exp (K * t) ≤ c * T * Real.exp (K * T) * δ ^ p := by
  have e1 : Real.exp (K * t) ≤ Real.exp (K * T) := Real.exp_le_exp.mpr (mul_le_mul_of_nonneg_left h hK)
  calc c * δ ^ p * t * Real.exp (K * t) ≤ c * δ ^ p * T * Real.exp (K * T) := mul_le_mul (mul_le_mul_of_nonneg_left h (by positivity)) e1 (Real.exp_pos _).le (by have := h0.trans h; positivity)
    _ = _ := by ring

/-- **C166** Tracers follow the fluid elements: over a finite time, in any flow whose coordinate velocity is Lipschitz in place and time, through any number of steps of any lengths up to `δ`, with the fields of any time within each step, a tracer stays within a constant times `δ` of the path of the
fluid element it started with. -/
theorem tracer_converges {geom : ℝ → (Fin 3 → ℝ) → ADM ℝ} {vel : ℝ → (Fin 3 → ℝ) → Fin 3 → ℝ} (ha : ∀ t x, 0 < (geom t x).alpha) (hp : ∀ t x, PosDef (geom t x)) {K M : ℝ} (hK : 0 ≤ K) (hM : 0 ≤ M)
    (hf : ∀ t x z, ‖speed geom vel t x - speed geom vel t z‖ ≤ K * ‖x - z‖) (hft : ∀ t t' x, ‖speed geom vel t x - speed geom vel t' x‖ ≤ M * |t - t'|) {T : ℝ} {y : ℝ → Fin 3 → ℝ} (hy : FlowLine geom vel T y) :
    ∃ C, ∀ δ ≤ 1, ∀ s τ : ℕ → ℝ, (∀ k, 0 ≤ s k ∧ s k ≤ δ) → (∀ k, ∑ j ∈ range k, s j ≤ τ k ∧ τ k ≤ ∑ j ∈ range (k + 1), s j) → ∀ x : Tracer, x.active = true → x.x = y 0 →
      ∀ n, ∑ k ∈ range n, s k ≤ T → ∀ i, |(tracerRun geom vel s τ x n).x i - y (∑ k ∈ range n, s k) i| ≤ C * δ := by
  obtain ⟨hd, B, hB0, hB⟩ := flow_bounded hy hK hM hf hft
  refine ⟨(M + K * (2 * B + M)) * T * Real.exp (K * T), fun δ hδ s τ hs hτ x hx hx0 n hn i => ?_⟩
  have hδ0 : 0 ≤ δ := (hs 0).1.trans (hs 0).2
  have t0 : ∀ n, 0 ≤ ∑ k ∈ range n, s k := fun n => sum_nonneg fun k _ => (hs k).1
  have main := mid_gronwall (f := fun k => speed geom vel (τ k)) (c := M + K * (2 * B + M)) (p := 1) hK (by positivity) (fun k => hf (τ k)) (y := y) s hs
    (fun k hk => by
      have h2 := (hτ k).2
      rw [sum_range_succ] at hk h2
      exact mid_defect hK hM hf hft hd hB (t0 k) (hs k).1 ((hs k).2.trans hδ) hk (hτ k).1 h2)
    (fun k => (tracerRun geom vel s τ x k).x) hx0 (fun k => run_mid vel ha hp s τ hx k) n hn
  have b := main.trans (final_bound (by positivity) hδ0 hK (t0 n) hn)
  rw [pow_one] at b
  exact (norm_le_pi_norm ((tracerRun geom vel s τ x n).x - y (∑ k ∈ range n, s k)) i).trans b

/-- **C166** In a steady smooth flow the distance is of second order. -/
theorem tracer_second_order {g : (Fin 3 → ℝ) → ADM ℝ} {v : (Fin 3 → ℝ) → Fin 3 → ℝ} (ha : ∀ x, 0 < (g x).alpha) (hp : ∀ x, PosDef (g x)) {K M : ℝ} (hK : 0 ≤ K) (hM : 0 ≤ M) {J : (Fin 3 → ℝ) → (Fin 3 → ℝ) →L[ℝ] (Fin 3 → ℝ)}
    (hJ : ∀ x, HasFDerivAt (fun z => coordVel (fourVelocity 0 (g z) (v z))) (J x) x) (hJK : ∀ x, ‖J x‖ ≤ K) (hJM : ∀ x z, ‖J x - J z‖ ≤ M * ‖x - z‖) {T : ℝ} {y : ℝ → Fin 3 → ℝ} (hy : FlowLine (fun _ => g) (fun _ => v) T y) :
    ∃ C, ∀ δ, ∀ s τ : ℕ → ℝ, (∀ k, 0 ≤ s k ∧ s k ≤ δ) → ∀ x : Tracer, x.active = true → x.x = y 0 →
      ∀ n, ∑ k ∈ range n, s k ≤ T → ∀ i, |(tracerRun (fun _ => g) (fun _ => v) s τ x n).x i - y (∑ k ∈ range n, s k) i| ≤ C * δ ^ 2 := by
  have hf : ∀ x z, ‖speed (fun _ => g) (fun _ => v) 0 x - speed (fun _ => g) (fun _ => v) 0 z‖ ≤ K * ‖x - z‖ := fun x z =>
    convex_univ.norm_image_sub_le_of_norm_hasFDerivWithin_le (fun q _ => (hJ q).hasFDerivWithinAt) (fun q _ => hJK q) (Set.mem_univ z) (Set.mem_univ x)
  obtain ⟨hd, B, hB0, hB⟩ := flow_bounded hy hK le_rfl (fun _ => hf) (fun _ _ x => by simp [speed])
  refine ⟨((M * B + K * K) * B + M * B ^ 2) * T * Real.exp (K * T), fun δ s τ hs x hx hx0 n hn i => ?_⟩
  have hδ0 : 0 ≤ δ := (hs 0).1.trans (hs 0).2
  have t0 : ∀ n, 0 ≤ ∑ k ∈ range n, s k := fun n => sum_nonneg fun k _ => (hs k).1
  have main := mid_gronwall (f := fun _ => speed (fun _ => g) (fun _ => v) 0) (c := (M * B + K * K) * B + M * B ^ 2) (p := 2) hK (by positivity) (fun _ => hf) (y := y) s hs
    (fun k hk => by
      rw [sum_range_succ] at hk
      exact mid_defect_steady hK hM hJ hJK hJM hf hd hB (t0 k) (hs k).1 hk)
    (fun k => (tracerRun (fun _ => g) (fun _ => v) s τ x k).x) hx0 (fun k => run_mid _ (fun _ => ha) (fun _ => hp) s τ hx k) n hn
  have b := main.trans (final_bound (by positivity) hδ0 hK (t0 n) hn)
  exact (norm_le_pi_norm ((tracerRun (fun _ => g) (fun _ => v) s τ x n).x - y (∑ k ∈ range n, s k)) i).trans b

/-! ### Examples -/

/-- flat space described by coordinates with a shift. -/
def shifted (b : Fin 3 → ℝ) : ADM ℝ := ⟨1, b, fun i j => if i = j then 1 else 0, fun i j => if i = j then 1 else 0⟩

theorem shifted_pos (b : Fin 3 → ℝ) : 0 < (shifted b).alpha ∧ PosDef (shifted b) := ⟨one_pos, flat_valid.2⟩

theorem shifted_speed (b : Fin 3 → ℝ) : coordVel (fourVelocity 0 (shifted b) 0) = -b := by
  funext i
  have := rhs_coordVel (fun _ => shifted b) (fun _ _ => 0) 0 0 (shifted_pos b).1 (shifted_pos b).2 i
  rw [← this]
  simp [rhs, shifted]

/-- **C166 (concrete)** Matter at rest in coordinates that stretch, `dx/dt = -x`: with steps up to `δ` the tracer is within a multiple of `δ²` of `e^{-t}`. -/
theorem ex_tracer_steady : ∃ C, ∀ δ, ∀ s τ : ℕ → ℝ, (∀ k, 0 ≤ s k ∧ s k ≤ δ) → ∀ n, ∑ k ∈ range n, s k ≤ 1 → ∀ i,
    |(tracerRun (fun _ => shifted) (fun _ _ => 0) s τ ⟨0, true, fun _ => 1⟩ n).x i - Real.exp (-∑ k ∈ range n, s k)| ≤ C * δ ^ 2 := by
  have hsp : (fun z => coordVel (fourVelocity 0 (shifted z) ((fun _ => (0 : Fin 3 → ℝ)) z))) = fun z => -z := funext fun z => shifted_speed z
  have hy : FlowLine (fun _ => shifted) (fun _ _ => 0) 1 (fun t _ => Real.exp (-t)) := fun t _ i => by
    have e : speed (fun _ => shifted) (fun _ _ => 0) t (fun _ => Real.exp (-t)) i = Real.exp (-t) * -1 := by
      unfold speed
      rw [shifted_speed]; simp
    rw [e]
    exact ((hasDerivAt_id t).neg.exp).hasDerivWithinAt
  obtain ⟨C, h⟩ := tracer_second_order (g := shifted) (v := fun _ => 0) (fun x => (shifted_pos x).1) (fun x => (shifted_pos x).2) (K := 1) (M := 0) zero_le_one le_rfl (J := fun _ => -ContinuousLinearMap.id ℝ (Fin 3 → ℝ))
    (fun x => by rw [hsp]; exact (hasFDerivAt_id x).neg) (fun x => by rw [norm_neg]; exact ContinuousLinearMap.norm_id_le) (fun x z => by simp) hy
  exact ⟨C, fun δ s τ hs n hn i => h δ s τ hs ⟨0, true, fun _ => 1⟩ rfl (by simp) n hn i⟩

/-- **C166 (concrete)** In a flow that changes with time the order is one and not more: fields of the new state, coordinate velocity `t`, `N + 1` equal steps over the time one. The tracer ends `1/(2(N+1))` beyond the fluid element. -/
theorem ex_tracer_unsteady (N : ℕ) : FlowLine (fun t _ => shifted fun _ => -t) (fun _ _ => 0) 1 (fun t _ => t ^ 2 / 2) ∧
    (tracerRun (fun t _ => shifted fun _ => -t) (fun _ _ => 0) (fun _ => 1 / ((N : ℝ) + 1)) (fun k => ((k : ℝ) + 1) / ((N : ℝ) + 1)) ⟨0, true, 0⟩ (N + 1)).x 0 = 1 ^ 2 / 2 + 1 / (2 * ((N : ℝ) + 1)) := by
  have sp : ∀ t x, speed (fun t _ => shifted fun _ => -t) (fun _ _ => 0) t x = fun _ => t := fun t x => by
    unfold speed
    rw [shifted_speed]; funext i; simp
  refine ⟨fun t _ i => ?_, ?_⟩
  · rw [sp]
    have := ((hasDerivAt_id t).pow 2).div_const 2
    refine (this.congr_deriv ?_).hasDerivWithinAt
    simp
  · have gen : ∀ n : ℕ, (tracerRun (fun t _ => shifted fun _ => -t) (fun _ _ => 0) (fun _ => 1 / ((N : ℝ) + 1)) (fun k => ((k : ℝ) + 1) / ((N : ℝ) + 1)) ⟨0, true, 0⟩ n).x 0 = (n : ℝ) * (n + 1) / 2 / ((N : ℝ) + 1) ^ 2 := fun n => by
      induction n with
      | zero => simp [tracerRun]
      | succ n ih =>
        rw [run_mid _ (fun _ _ => (shifted_pos _).1) (fun _ _ => (shifted_pos _).2) _ _ rfl n, Pi.add_apply, ih, sp]
        simp only [Pi.smul_apply, smul_eq_mul]
        push_cast
        field_simp
        ring
    rw [gen]
    push_cast
    field_simp

end Phoebus.Tracers
