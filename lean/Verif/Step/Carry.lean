import Verif.Common
import Mathlib.MeasureTheory.Integral.IntervalIntegral.Basic
import Mathlib.MeasureTheory.Integral.IntervalIntegral.Periodic

/-!
# Carrying a profile along: error of conservative, variation diminishing updates (C155)

Pure analysis on periodic sequences, used for the run of the code in `Verif/Step/Front.lean`.
-/
namespace Phoebus.Carry
open Finset

/-! ### Specification: a profile of bounded variation -/

/-- a periodic profile `f` with period `L`; `V` is its variation, `TV` the variation over a period.  Jumps are allowed. -/
structure Profile (f V : ℝ → ℝ) (L TV : ℝ) : Prop where
  mono : Monotone V
  var : ∀ x y, x ≤ y → |f y - f x| ≤ V y - V x
  per : ∀ x, f (x + L) = f x
  turn : ∀ x, V (x + L) = V x + TV

/-- amount between the origin and `x`. -/
noncomputable def amount (f : ℝ → ℝ) (x : ℝ) : ℝ := ∫ t in (0:ℝ)..x, f t

/-- sequence with period `N`. -/
def Per (N : ℕ) (f : ℤ → ℝ) : Prop := ∀ i, f (i + N) = f i

/-- sum over a period. -/
def total (N : ℕ) (f : ℤ → ℝ) : ℝ := ∑ i ∈ range N, f i

/-- variation over a period. -/
def tv (N : ℕ) (ρ : ℤ → ℝ) : ℝ := total N fun i => |ρ i - ρ (i - 1)|

section sums
variable {N : ℕ} {f g : ℤ → ℝ}

theorem total_le (h : ∀ i, f i ≤ g i) : total N f ≤ total N g := sum_le_sum fun i _ => h i
theorem total_add : total N (fun i => f i + g i) = total N f + total N g := sum_add_distrib
theorem total_mul (a : ℝ) : total N (fun i => a * f i) = a * total N f := by unfold total; rw [mul_sum]
theorem total_nonneg (h : ∀ i, 0 ≤ f i) : 0 ≤ total N f := sum_nonneg fun i _ => h i

theorem total_diff : total N (fun i => f (i + 1)) = total N f + (f N - f 0) := by
  have := sum_range_sub (fun n : ℕ => f n) N
  simp only [sum_sub_distrib, Nat.cast_add, Nat.cast_one, Nat.cast_zero] at this
  unfold total
  linarith

theorem total_shift (h : Per N f) : total N (fun i => f (i + 1)) = total N f := by
  have := h 0
  rw [zero_add] at this
  rw [total_diff, this, sub_self, add_zero]

theorem total_back (h : Per N f) : total N (fun i => f (i - 1)) = total N f := by
  have h' : Per N fun i => f (i - 1) := fun i => by
    show f (i + N - 1) = f (i - 1)
    rw [show i + N - 1 = i - 1 + N by ring, h]
  have := total_shift h'
  simp only [add_sub_cancel_right] at this
  exact this.symm

theorem total_back_le {D : ℤ → ℝ} {μ : ℝ} (h : ∀ i, |D (i + N) - D i| ≤ μ) : total N (fun i => |D (i - 1)|) ≤ total N (fun i => |D i|) + μ := by
  have := total_diff (N := N) (f := fun i => |D (i - 1)|)
  simp only [add_sub_cancel_right] at this
  have h1 := h (-1)
  rw [show (-1 : ℤ) + N = N - 1 by ring] at h1
  have h2 := abs_sub_abs_le_abs_sub (D (-1)) (D (N - 1))
  rw [abs_sub_comm] at h2
  have e : (0 : ℤ) - 1 = -1 := by norm_num
  rw [e] at this
  linarith

theorem total_forth_le {D : ℤ → ℝ} {μ : ℝ} (h : ∀ i, |D (i + N) - D i| ≤ μ) : total N (fun i => |D (i + 1)|) ≤ total N (fun i => |D i|) + μ := by
  have := total_diff (N := N) (f := fun i => |D i|)
  have h1 := h 0
  rw [zero_add] at h1
  have h2 := abs_sub_abs_le_abs_sub (D N) (D 0)
  linarith

end sums

/-! ### Variation does not grow -/

/-- if every difference hands parts of itself to its two neighbours, the variation does not grow. -/
theorem harten {N : ℕ} {ρ ρ' c d : ℤ → ℝ} (hc : Per N c) (hd : Per N d)
    (hs : ∀ i, ∃ θ φ, 0 ≤ θ ∧ 0 ≤ φ ∧ θ + φ ≤ 1 ∧ c i = θ * (ρ i - ρ (i - 1)) ∧ d i = φ * (ρ i - ρ (i - 1)))
    (hu : ∀ i, ρ' i = ρ i + d (i + 1) - c i) : tv N ρ' ≤ tv N ρ := by
  have key : ∀ i, |ρ' i - ρ' (i - 1)| ≤ |ρ i - ρ (i - 1)| + (|d (i + 1)| - |d i|) + (|c (i - 1)| - |c i|) := fun i => by
    obtain ⟨θ, φ, h1, h2, h3, e1, e2⟩ := hs i
    have u1 := hu i
    have u2 := hu (i - 1)
    rw [sub_add_cancel] at u2
    set δ := ρ i - ρ (i - 1)
    have e : ρ' i - ρ' (i - 1) = (1 - θ - φ) * δ + d (i + 1) + c (i - 1) := by rw [u1, u2, e1, e2]; ring
    have a1 : |c i| = θ * |δ| := by rw [e1, abs_mul, abs_of_nonneg h1]
    have a2 : |d i| = φ * |δ| := by rw [e2, abs_mul, abs_of_nonneg h2]
    have a3 : |(1 - θ - φ) * δ| = (1 - θ - φ) * |δ| := by rw [abs_mul, abs_of_nonneg (by linarith)]
    have a4 := abs_add_three ((1 - θ - φ) * δ) (d (i + 1)) (c (i - 1))
    rw [e]
    nlinarith
  have pc : Per N fun i => |c i| := fun i => by show |c (i + N)| = _; rw [hc]
  have pd : Per N fun i => |d i| := fun i => by show |d (i + N)| = _; rw [hd]
  have s1 := total_shift pd
  have s2 := total_back pc
  refine (total_le key).trans (le_of_eq ?_)
  unfold tv total at *
  simp only [sum_add_distrib, sum_sub_distrib]
  simp only at s1 s2
  linarith

/-- slopes that are the same part, between zero and `z`, of the differences to both sides. -/
def Limited (z : ℝ) (ρ s : ℤ → ℝ) : Prop := ∀ i, ∃ a b, 0 ≤ a ∧ a ≤ z ∧ 0 ≤ b ∧ b ≤ z ∧ s i = a * (ρ i - ρ (i - 1)) ∧ s i = b * (ρ (i + 1) - ρ i)

/-- flux through the left face of cell `i`: what crosses from either side. -/
noncomputable def sweep (w : ℝ) (σ ρ s : ℤ → ℝ) (i : ℤ) : ℝ := (w + σ i) * (ρ (i - 1) + s (i - 1) / 2) - σ i * (ρ i - s i / 2)

theorem sweep_per {N : ℕ} {w : ℝ} {σ ρ s : ℤ → ℝ} (h1 : Per N σ) (h2 : Per N ρ) (h3 : Per N s) : Per N (sweep w σ ρ s) := fun i => by
  unfold sweep
  rw [h1, h2, h3, show i + N - 1 = i - 1 + N by ring, h2, h3]

/-- **variation**: a step with limited slopes does not increase the variation, whatever the speeds at the faces. -/
theorem euler_tv {N : ℕ} {w z S lam : ℝ} {σ ρ s : ℤ → ℝ} (p1 : Per N σ) (p2 : Per N ρ) (p3 : Per N s) (hz : z ≤ 2) (hl : Limited z ρ s) (hlam : 0 ≤ lam)
    (hσ : ∀ i, 0 ≤ σ i ∧ 0 ≤ w + σ i ∧ σ i ≤ S ∧ w + σ i ≤ S) (hC : lam * S * (2 + 3 * z) ≤ 1) :
    tv N (fun i => ρ i - lam * (sweep w σ ρ s (i + 1) - sweep w σ ρ s i)) ≤ tv N ρ := by
  refine harten (c := fun i => lam * ((w + σ i) * (ρ i - ρ (i - 1) + s i / 2 - s (i - 1) / 2) + max (σ (i + 1) - σ i) 0 * s i))
    (d := fun i => lam * (σ i * (ρ i - ρ (i - 1) - s i / 2 + s (i - 1) / 2) + max (σ (i - 1) - σ i) 0 * s (i - 1))) ?_ ?_ ?_ ?_
  · intro i
    simp only
    rw [show i + (N:ℤ) - 1 = i - 1 + N by ring, show i + (N:ℤ) + 1 = i + 1 + N by ring, p1, p1, p2, p2, p3, p3]
  · intro i
    simp only
    rw [show i + (N:ℤ) - 1 = i - 1 + N by ring, p1, p1, p2, p2, p3, p3]
  · intro i
    obtain ⟨a, -, a0, a1, -, -, ea, -⟩ := hl i
    obtain ⟨-, b, -, -, b0, b1, -, eb⟩ := hl (i - 1)
    rw [sub_add_cancel] at eb
    obtain ⟨q1, q2, q3, q4⟩ := hσ i
    obtain ⟨r1, -, r3, -⟩ := hσ (i + 1)
    obtain ⟨t1, -, t3, -⟩ := hσ (i - 1)
    have hS : 0 ≤ S := q1.trans q3
    have hz0 : 0 ≤ z := a0.trans a1
    have m1 : 0 ≤ max (σ (i + 1) - σ i) 0 := le_max_right _ _
    have m2 : max (σ (i + 1) - σ i) 0 ≤ S := max_le (by linarith) hS
    have m3 : 0 ≤ max (σ (i - 1) - σ i) 0 := le_max_right _ _
    have m4 : max (σ (i - 1) - σ i) 0 ≤ S := max_le (by linarith) hS
    refine ⟨lam * ((w + σ i) * (1 + a / 2 - b / 2) + max (σ (i + 1) - σ i) 0 * a), lam * (σ i * (1 - a / 2 + b / 2) + max (σ (i - 1) - σ i) 0 * b), ?_, ?_, ?_, ?_, ?_⟩
    · exact mul_nonneg hlam (add_nonneg (mul_nonneg q2 (by linarith)) (mul_nonneg m1 a0))
    · exact mul_nonneg hlam (add_nonneg (mul_nonneg q1 (by linarith)) (mul_nonneg m3 b0))
    · have u1 : (w + σ i) * (1 + a / 2 - b / 2) ≤ S * (1 + z / 2) := mul_le_mul q4 (by linarith) (by linarith) hS
      have u2 : max (σ (i + 1) - σ i) 0 * a ≤ S * z := mul_le_mul m2 a1 a0 hS
      have u3 : σ i * (1 - a / 2 + b / 2) ≤ S * (1 + z / 2) := mul_le_mul q3 (by linarith) (by linarith) hS
      have u4 : max (σ (i - 1) - σ i) 0 * b ≤ S * z := mul_le_mul m4 b1 b0 hS
      rw [← mul_add]
      refine (mul_le_mul_of_nonneg_left (show _ ≤ S * (2 + 3 * z) by linarith) hlam).trans ?_
      linarith
    · rw [eb, ea]; ring
    · rw [eb, ea]; ring
  · intro i
    simp only [sweep, add_sub_cancel_right]
    have hm : σ (i + 1) - σ i = max (σ (i + 1) - σ i) 0 - max (σ i - σ (i + 1)) 0 := by
      rcases le_total (σ i) (σ (i + 1)) with h | h
      · rw [max_eq_left (by linarith), max_eq_right (by linarith)]; ring
      · rw [max_eq_right (by linarith), max_eq_left (by linarith)]; ring
    linear_combination (-lam * s i) * hm

theorem tv_comb {N : ℕ} {β : ℝ} (h0 : 0 ≤ β) (h1 : β ≤ 1) (f g : ℤ → ℝ) : tv N (fun i => β * f i + (1 - β) * g i) ≤ β * tv N f + (1 - β) * tv N g := by
  unfold tv
  rw [← total_mul, ← total_mul, ← total_add]
  refine total_le fun i => ?_
  rw [show β * f i + (1 - β) * g i - (β * f (i - 1) + (1 - β) * g (i - 1)) = β * (f i - f (i - 1)) + (1 - β) * (g i - g (i - 1)) by ring]
  refine (abs_add_le _ _).trans (le_of_eq ?_)
  rw [abs_mul, abs_mul, abs_of_nonneg h0, abs_of_nonneg (by linarith : 0 ≤ 1 - β)]

/-- flux of the simplest upwind method. -/
noncomputable def upFlux (w : ℝ) (ρ : ℤ → ℝ) (i : ℤ) : ℝ := max w 0 * ρ (i - 1) - max (-w) 0 * ρ i

/-- the flux differs from that of the upwind method by a multiple of the local difference. -/
theorem sweep_near {w z S : ℝ} {σ ρ s : ℤ → ℝ} (hl : Limited z ρ s) (hσ : ∀ i, 0 ≤ σ i ∧ 0 ≤ w + σ i ∧ σ i ≤ S ∧ w + σ i ≤ S) (i : ℤ) :
    |sweep w σ ρ s i - upFlux w ρ i| ≤ S * (1 + z) * |ρ i - ρ (i - 1)| := by
  obtain ⟨a, -, a0, a1, -, -, ea, -⟩ := hl i
  obtain ⟨-, b, -, -, b0, b1, -, eb⟩ := hl (i - 1)
  rw [sub_add_cancel] at eb
  obtain ⟨q1, q2, q3, q4⟩ := hσ i
  have hS : 0 ≤ S := q1.trans q3
  set δ := ρ i - ρ (i - 1) with hδ
  have hw : max w 0 = w + max (-w) 0 := by
    rcases le_total 0 w with h | h
    · rw [max_eq_left h, max_eq_right (by linarith)]; ring
    · rw [max_eq_right h, max_eq_left (by linarith)]; ring
  set n := max (-w) 0
  have n0 : 0 ≤ n := le_max_right _ _
  have n1 : n ≤ S := max_le (by linarith) hS
  have e : sweep w σ ρ s i - upFlux w ρ i = ((w + σ i) * (b / 2) + σ i * (a / 2) + (n - σ i)) * δ := by
    unfold sweep upFlux
    rw [hw, eb, ea, hδ]; ring
  rw [e, abs_mul]
  refine mul_le_mul_of_nonneg_right ?_ (abs_nonneg _)
  have u1 : (w + σ i) * (b / 2) ≤ S * (z / 2) := mul_le_mul q4 (by linarith) (by linarith) hS
  have u2 : σ i * (a / 2) ≤ S * (z / 2) := mul_le_mul q3 (by linarith) (by linarith) hS
  have u3 : 0 ≤ (w + σ i) * (b / 2) := mul_nonneg q2 (by linarith)
  have u4 : 0 ≤ σ i * (a / 2) := mul_nonneg q1 (by linarith)
  rw [abs_le]
  have : 0 ≤ S * z := mul_nonneg hS (a0.trans a1)
  constructor <;> nlinarith

/-! ### The exact solution -/

section exact
variable {f V : ℝ → ℝ} {L TV : ℝ}

theorem Profile.integrable (hf : Profile f V L TV) (x y : ℝ) : IntervalIntegrable f MeasureTheory.volume x y := by
  have h : Monotone fun t => V t - f t := fun a b hab => by
    have := (abs_le.1 (hf.var a b hab)).2
    simp only
    linarith
  have e : f = fun t => V t - (V t - f t) := by funext t; ring
  rw [e]
  exact (hf.mono.intervalIntegrable).sub h.intervalIntegrable

theorem Profile.amount_sub (hf : Profile f V L TV) (x y : ℝ) : amount f y - amount f x = ∫ t in x..y, f t :=
  intervalIntegral.integral_interval_sub_left (hf.integrable _ _) (hf.integrable _ _)

theorem Profile.near (hf : Profile f V L TV) (x y : ℝ) : |f y - f x| ≤ |V y - V x| := by
  rcases le_total x y with h | h
  · exact (hf.var x y h).trans (le_abs_self _)
  · rw [abs_sub_comm, abs_sub_comm (V y)]; exact (hf.var y x h).trans (le_abs_self _)

theorem Profile.linear (hf : Profile f V L TV) (y z : ℝ) : |amount f z - amount f y - f y * (z - y)| ≤ |V z - V y| * |z - y| := by
  have e : amount f z - amount f y - f y * (z - y) = ∫ t in y..z, (f t - f y) := by
    rw [intervalIntegral.integral_sub (hf.integrable _ _) intervalIntegrable_const, intervalIntegral.integral_const, hf.amount_sub]
    simp [mul_comm]
  rw [e, ← Real.norm_eq_abs]
  refine intervalIntegral.norm_integral_le_of_norm_le_const fun t ht => ?_
  rw [Real.norm_eq_abs]
  refine (hf.near y t).trans ?_
  rcases le_total y z with h | h
  · rw [Set.uIoc_of_le h] at ht
    have h1 := hf.mono ht.1.le
    have h2 := hf.mono ht.2
    rw [abs_of_nonneg (by linarith), abs_of_nonneg (by linarith)]; linarith
  · rw [Set.uIoc_of_ge h] at ht
    have h1 := hf.mono ht.1.le
    have h2 := hf.mono ht.2
    rw [abs_of_nonpos (by linarith), abs_of_nonpos (by linarith)]; linarith

theorem Profile.convex (hf : Profile f V L TV) {θ : ℝ} (h0 : 0 ≤ θ) (h1 : θ ≤ 1) (y b : ℝ) :
    |(1 - θ) * amount f y + θ * amount f (y + b) - amount f (y + θ * b)| ≤ 2 * θ * |b| * |V (y + b) - V y| := by
  have a1 := hf.linear y (y + b)
  have a2 := hf.linear y (y + θ * b)
  rw [add_sub_cancel_left] at a1 a2
  have hV : |V (y + θ * b) - V y| ≤ |V (y + b) - V y| := by
    rcases le_total 0 b with h | h
    · have q1 := hf.mono (show y ≤ y + θ * b by nlinarith)
      have q2 := hf.mono (show y + θ * b ≤ y + b by nlinarith)
      rw [abs_of_nonneg (by linarith), abs_of_nonneg (by linarith)]; linarith
    · have q1 := hf.mono (show y + θ * b ≤ y by nlinarith)
      have q2 := hf.mono (show y + b ≤ y + θ * b by nlinarith)
      rw [abs_of_nonpos (by linarith), abs_of_nonpos (by linarith)]; linarith
  have e : (1 - θ) * amount f y + θ * amount f (y + b) - amount f (y + θ * b) =
      θ * (amount f (y + b) - amount f y - f y * b) - (amount f (y + θ * b) - amount f y - f y * (θ * b)) := by ring
  rw [e]
  refine (abs_sub _ _).trans ?_
  rw [abs_mul, abs_of_nonneg h0]
  rw [abs_mul, abs_of_nonneg h0] at a2
  have a3 : |V (y + θ * b) - V y| * (θ * |b|) ≤ |V (y + b) - V y| * (θ * |b|) := mul_le_mul_of_nonneg_right hV (mul_nonneg h0 (abs_nonneg _))
  have a4 := mul_le_mul_of_nonneg_left a1 h0
  linarith

/-- the variations over distances of at most `K` cells, added up over a period. -/
theorem Profile.sum_var (hf : Profile f V L TV) {N : ℕ} {h : ℝ} (_h0 : 0 ≤ h) (hL : L = N * h) (K : ℕ) {b : ℝ} (hb : |b| ≤ K * h) (y : ℝ) :
    total N (fun i => |V (y + h * i + b) - V (y + h * i)|) ≤ K * TV := by
  have tel : ∀ (y : ℝ) (K : ℕ), total N (fun i => V (y + h * i + K * h) - V (y + h * i)) = K * TV := by
    intro y K
    induction K with
    | zero => simp [total]
    | succ K ih =>
      have := total_diff (N := N) (f := fun i => V (y + h * i + K * h))
      have e1 : ∀ i : ℤ, y + h * ((i + 1 : ℤ) : ℝ) + K * h = y + h * i + (K + 1 : ℕ) * h := fun i => by push_cast; ring
      simp only [e1] at this
      have e2 : y + h * ((N : ℤ) : ℝ) + K * h = y + h * ((0 : ℤ) : ℝ) + K * h + L := by push_cast; rw [hL]; ring
      rw [e2, hf.turn] at this
      unfold total at this ih ⊢
      rw [sum_sub_distrib] at ih ⊢
      simp only at this
      rw [this, show ((K + 1 : ℕ) : ℝ) = K + 1 by push_cast; ring]
      linarith
  rw [abs_le] at hb
  rcases le_total 0 b with hb0 | hb0
  · refine le_trans (total_le fun i => ?_) (tel y K).le
    have q1 := hf.mono (show y + h * i ≤ y + h * i + b by linarith)
    have q2 := hf.mono (show y + h * i + b ≤ y + h * i + K * h by linarith)
    rw [abs_of_nonneg (by linarith)]; linarith
  · refine le_trans (total_le fun i => ?_) (tel (y - K * h) K).le
    have e : y - K * h + h * (i:ℝ) + K * h = y + h * i := by ring
    rw [e]
    have q1 := hf.mono (show y + h * i + b ≤ y + h * i by linarith)
    have q2 := hf.mono (show y - K * h + h * (i:ℝ) ≤ y + h * i + b by linarith)
    rw [abs_of_nonpos (by linarith)]; linarith

theorem Profile.tv_nonneg (hf : Profile f V L TV) (hL : 0 ≤ L) : 0 ≤ TV := by
  have := hf.turn 0
  have := hf.mono (show (0:ℝ) ≤ 0 + L by linarith)
  linarith


/-! ### One stage -/

/-- the exact amount left of face `i` after a time `t`, when the profile moves with velocity `w`; face `i` is at `x0 + h i`. -/
noncomputable def moved (f : ℝ → ℝ) (x0 h w t : ℝ) (i : ℤ) : ℝ := amount f (x0 + h * i - w * t)

/-- sum of the errors over a period. -/
def nrm (N : ℕ) (D : ℤ → ℝ) : ℝ := total N fun i => |D i|

theorem nrm_add {N : ℕ} (a b : ℤ → ℝ) : nrm N (fun i => a i + b i) ≤ nrm N a + nrm N b := by
  unfold nrm
  rw [← total_add]
  exact total_le fun i => abs_add_le _ _

theorem nrm_mul {N : ℕ} (c : ℝ) (a : ℤ → ℝ) : nrm N (fun i => c * a i) = |c| * nrm N a := by
  unfold nrm
  rw [← total_mul]
  simp only [abs_mul]

/-- the upwind update of an amount. -/
noncomputable def up (lam w : ℝ) (D : ℤ → ℝ) (i : ℤ) : ℝ := D i - lam * (max w 0 * (D i - D (i - 1)) - max (-w) 0 * (D (i + 1) - D i))

theorem parts (w : ℝ) : max w 0 + max (-w) 0 = |w| := by
  rcases le_total 0 w with h | h
  · rw [max_eq_left h, max_eq_right (by linarith), abs_of_nonneg h]; ring
  · rw [max_eq_right h, max_eq_left (by linarith), abs_of_nonpos h]; ring

theorem up_nrm {N : ℕ} {lam w μ : ℝ} {D : ℤ → ℝ} (h0 : 0 ≤ lam) (h1 : lam * |w| ≤ 1) (hD : ∀ i, |D (i + N) - D i| ≤ μ) : nrm N (up lam w D) ≤ nrm N D + lam * |w| * μ := by
  have n1 : 0 ≤ max w 0 := le_max_right _ _
  have n2 : 0 ≤ max (-w) 0 := le_max_right _ _
  have hp := parts w
  have t1 := total_back_le hD
  have t2 := total_forth_le hD
  have key : ∀ i, |up lam w D i| ≤ (1 - lam * |w|) * |D i| + (lam * max w 0 * |D (i - 1)| + lam * max (-w) 0 * |D (i + 1)|) := fun i => by
    have e : up lam w D i = (1 - lam * |w|) * D i + lam * max w 0 * D (i - 1) + lam * max (-w) 0 * D (i + 1) := by
      unfold up; rw [← hp]; ring
    rw [e]
    refine (abs_add_three _ _ _).trans (le_of_eq ?_)
    rw [abs_mul, abs_mul (lam * _), abs_mul (lam * max (-w) 0), abs_of_nonneg (by linarith : 0 ≤ 1 - lam * |w|), abs_of_nonneg (mul_nonneg h0 n1), abs_of_nonneg (mul_nonneg h0 n2)]
    ring
  refine (total_le key).trans ?_
  rw [total_add, total_add, total_mul, total_mul, total_mul]
  have a1 := mul_le_mul_of_nonneg_left t1 (mul_nonneg h0 n1)
  have a2 := mul_le_mul_of_nonneg_left t2 (mul_nonneg h0 n2)
  unfold nrm
  have e : lam * |w| = lam * max w 0 + lam * max (-w) 0 := by rw [← mul_add, hp]
  rw [e]
  nlinarith

variable {N : ℕ} {h x0 w : ℝ}

/-- the upwind update moves the exact amounts to the exact ones of the next time, up to the variation inside a cell. -/
theorem Profile.up_exact (hf : Profile f V L TV) (hh : 0 < h) (hL : L = N * h) {dt : ℝ} (hdt : 0 ≤ dt) (hC : dt / h * |w| ≤ 1) (t : ℝ) :
    nrm N (fun i => up (dt / h) w (moved f x0 h w t) i - moved f x0 h w (t + dt) i) ≤ 2 * |w| * dt * TV := by
  set θ := dt / h * |w| with hθ
  have hθ0 : 0 ≤ θ := mul_nonneg (div_nonneg hdt hh.le) (abs_nonneg _)
  have key : ∀ b : ℝ, |b| = h → (∀ i : ℤ, up (dt / h) w (moved f x0 h w t) i = (1 - θ) * amount f (x0 - w * t + h * i) + θ * amount f (x0 - w * t + h * i + b)) →
      w * dt = -(θ * b) → nrm N (fun i => up (dt / h) w (moved f x0 h w t) i - moved f x0 h w (t + dt) i) ≤ 2 * |w| * dt * TV := by
    intro b hb hu hwd
    have hs := hf.sum_var hh.le hL 1 (b := b) (by rw [hb]; simp) (x0 - w * t)
    have e : ∀ i : ℤ, moved f x0 h w (t + dt) i = amount f (x0 - w * t + h * i + θ * b) := fun i => by
      unfold moved; congr 1; rw [show θ * b = -(w * dt) by linarith]; ring
    unfold nrm
    simp only [e, hu]
    refine (total_le fun i => hf.convex hθ0 hC _ b).trans ?_
    rw [total_mul (N := N) (f := fun i : ℤ => |V (x0 - w * t + h * i + b) - V (x0 - w * t + h * i)|) (2 * θ * |b|), hb]
    have h2 : 2 * θ * h = 2 * |w| * dt := by rw [hθ]; field_simp
    rw [h2]
    refine mul_le_mul_of_nonneg_left (hs.trans (by simp)) (mul_nonneg (by positivity) hdt)
  rcases le_total 0 w with hw | hw
  · refine key (-h) (by rw [abs_neg, abs_of_pos hh]) (fun i => ?_) ?_
    · unfold up moved
      rw [max_eq_left hw, max_eq_right (by linarith), hθ, abs_of_nonneg hw]
      have e1 : x0 + h * ((i - 1 : ℤ) : ℝ) - w * t = x0 - w * t + h * i + -h := by push_cast; ring
      have e2 : x0 + h * (i : ℝ) - w * t = x0 - w * t + h * i := by ring
      rw [e1, e2]; ring
    · rw [hθ, abs_of_nonneg hw]; field_simp
  · refine key h (abs_of_pos hh) (fun i => ?_) ?_
    · unfold up moved
      rw [max_eq_right hw, max_eq_left (by linarith), hθ, abs_of_nonpos hw]
      have e1 : x0 + h * ((i + 1 : ℤ) : ℝ) - w * t = x0 - w * t + h * i + h := by push_cast; ring
      have e2 : x0 + h * (i : ℝ) - w * t = x0 - w * t + h * i := by ring
      rw [e1, e2]; ring
    · rw [hθ, abs_of_nonpos hw]; field_simp

/-- mixing with the state at the beginning of the step moves the exact amounts back, up to the variation over the distance of a step. -/
theorem Profile.mix_exact (hf : Profile f V L TV) (hh : 0 < h) (hL : L = N * h) {β b : ℝ} (h0 : 0 ≤ β) (h1 : β ≤ 1) {K : ℕ} (hb : |w * b| ≤ K * h) (t : ℝ) :
    nrm N (fun i => β * moved f x0 h w (t + b) i + (1 - β) * moved f x0 h w t i - moved f x0 h w (t + β * b) i) ≤ 2 * |w * b| * (K * TV) := by
  have hTV := hf.tv_nonneg (by rw [hL]; positivity)
  have hs := hf.sum_var hh.le hL K (b := -(w * b)) (by rw [abs_neg]; exact hb) (x0 - w * t)
  have key : ∀ i : ℤ, |β * moved f x0 h w (t + b) i + (1 - β) * moved f x0 h w t i - moved f x0 h w (t + β * b) i| ≤
      2 * |w * b| * |V (x0 - w * t + h * i + -(w * b)) - V (x0 - w * t + h * i)| := fun i => by
    have := hf.convex h0 h1 (x0 - w * t + h * i) (-(w * b))
    have e1 : moved f x0 h w (t + b) i = amount f (x0 - w * t + h * i + -(w * b)) := by unfold moved; congr 1; ring
    have e2 : moved f x0 h w t i = amount f (x0 - w * t + h * i) := by unfold moved; congr 1; ring
    have e3 : moved f x0 h w (t + β * b) i = amount f (x0 - w * t + h * i + β * -(w * b)) := by unfold moved; congr 1; ring
    rw [e1, e2, e3, add_comm (β * _)]
    refine this.trans ?_
    rw [abs_neg]
    refine mul_le_mul_of_nonneg_right ?_ (abs_nonneg _)
    nlinarith [abs_nonneg (w * b)]
  refine (total_le key).trans ?_
  rw [total_mul (N := N) (f := fun i : ℤ => |V (x0 - w * t + h * i + -(w * b)) - V (x0 - w * t + h * i)|) (2 * |w * b|)]
  exact mul_le_mul_of_nonneg_left hs (by positivity)

/-- **error of a stage**: amounts `R` with densities `ρ`, updated by any flux near the upwind flux and mixed with the amounts `R0` at the start of the step. -/
theorem Profile.stage_error (hf : Profile f V L TV) (hh : 0 < h) (hL : L = N * h) {R R0 R' ρ F : ℤ → ℝ} {β dt t τ κ μ : ℝ} {K : ℕ} (hR : ∀ i, R i - R (i - 1) = h * ρ i)
    (h0 : 0 ≤ β) (h1 : β ≤ 1) (hdt : 0 ≤ dt) (hC : dt / h * |w| ≤ 1) (hF : ∀ i, |F i - upFlux w ρ i| ≤ κ * |ρ i - ρ (i - 1)|) (hκ : 0 ≤ κ) (hρ : Per N ρ) (hτ : |w * ((τ + 1) * dt)| ≤ K * h)
    (hμ : ∀ i, |(R (i + N) - moved f x0 h w (t + τ * dt) (i + N)) - (R i - moved f x0 h w (t + τ * dt) i)| ≤ μ)
    (hu : ∀ i, R' i = β * (R i - dt * F (i + 1)) + (1 - β) * R0 i) :
    nrm N (fun i => R' i - moved f x0 h w (t + β * (τ + 1) * dt) i) ≤
      β * nrm N (fun i => R i - moved f x0 h w (t + τ * dt) i) + (1 - β) * nrm N (fun i => R0 i - moved f x0 h w t i) +
        (dt / h * |w| * |μ| + dt * κ * tv N ρ + 2 * |w| * dt * TV + 2 * |w * ((τ + 1) * dt)| * (K * TV)) := by
  set Q := moved f x0 h w (t + τ * dt) with hQ
  have hlam : 0 ≤ dt / h := div_nonneg hdt hh.le
  have e : ∀ i, R' i - moved f x0 h w (t + β * (τ + 1) * dt) i =
      (β * (up (dt / h) w (fun j => R j - Q j) i) + (1 - β) * (R0 i - moved f x0 h w t i)) +
      ((-(β * dt)) * (F (i + 1) - upFlux w ρ (i + 1)) + (β * (up (dt / h) w Q i - moved f x0 h w (t + τ * dt + dt) i) +
        (β * moved f x0 h w (t + (τ + 1) * dt) i + (1 - β) * moved f x0 h w t i - moved f x0 h w (t + β * ((τ + 1) * dt)) i))) := fun i => by
    have q1 : t + τ * dt + dt = t + (τ + 1) * dt := by ring
    have q2 : t + β * (τ + 1) * dt = t + β * ((τ + 1) * dt) := by ring
    have r1 : R i - R (i - 1) = h * ρ i := hR i
    have r2 : R (i + 1) - R i = h * ρ (i + 1) := by have := hR (i + 1); rwa [add_sub_cancel_right] at this
    have q3 : dt * upFlux w ρ (i + 1) = dt / h * (max w 0 * (R i - R (i - 1)) - max (-w) 0 * (R (i + 1) - R i)) := by
      unfold upFlux
      rw [r1, r2, add_sub_cancel_right]
      field_simp
    rw [hu, q1, q2]
    unfold up
    linear_combination (-β) * q3
  simp only [e]
  refine (nrm_add _ _).trans (add_le_add ((nrm_add _ _).trans ?_) ((nrm_add _ _).trans ?_ ) |>.trans (le_of_eq (show
    (β * nrm N (fun i => R i - Q i) + β * (dt / h * |w| * |μ|) + (1 - β) * nrm N (fun i => R0 i - moved f x0 h w t i)) +
      (β * dt * (κ * tv N ρ) + (β * (2 * |w| * dt * TV) + 2 * |w * ((τ + 1) * dt)| * (K * TV))) = _ from rfl))|>.trans ?_)
  · rw [nrm_mul, nrm_mul, abs_of_nonneg h0, abs_of_nonneg (by linarith : 0 ≤ 1 - β)]
    have := up_nrm (N := N) (D := fun j => R j - Q j) (μ := |μ|) hlam hC (fun i => (hμ i).trans (le_abs_self _))
    nlinarith
  · refine add_le_add ?_ ((nrm_add _ _).trans (add_le_add ?_ ?_))
    · rw [nrm_mul (N := N) (-(β * dt)) fun i => F (i + 1) - upFlux w ρ (i + 1), abs_neg, abs_of_nonneg (mul_nonneg h0 hdt)]
      refine mul_le_mul_of_nonneg_left ?_ (mul_nonneg h0 hdt)
      unfold nrm tv
      rw [← total_mul]
      refine (total_le fun i => hF (i + 1)).trans (le_of_eq ?_)
      refine total_shift (f := fun i => κ * |ρ i - ρ (i - 1)|) fun i => ?_
      show κ * |ρ (i + N) - ρ (i + N - 1)| = _
      rw [show i + (N:ℤ) - 1 = i - 1 + N by ring, hρ, hρ]
    · rw [nrm_mul, abs_of_nonneg h0]
      exact mul_le_mul_of_nonneg_left (hf.up_exact hh hL hdt hC _) h0
    · exact hf.mix_exact hh hL h0 h1 hτ t
  · have hTV := hf.tv_nonneg (by rw [hL]; positivity)
    have htv : 0 ≤ tv N ρ := total_nonneg fun i => abs_nonneg _
    have b1 : β * (dt / h * |w| * |μ|) ≤ dt / h * |w| * |μ| := mul_le_of_le_one_left (by positivity) h1
    have b2 : β * dt * (κ * tv N ρ) ≤ dt * κ * tv N ρ := by
      have : β * (dt * (κ * tv N ρ)) ≤ dt * (κ * tv N ρ) := mul_le_of_le_one_left (by positivity) h1
      linarith
    have b3 : β * (2 * |w| * dt * TV) ≤ 2 * |w| * dt * TV := mul_le_of_le_one_left (by positivity) h1
    linarith

/-! ### Amounts that follow the exact solution -/

theorem Profile.turn_amount (hf : Profile f V L TV) (x : ℝ) : amount f (x + L) - amount f x = amount f L := by
  have hp : Function.Periodic f L := hf.per
  rw [hf.amount_sub, hp.intervalIntegral_add_eq x 0, zero_add]
  rfl

theorem Profile.turn_moved (hf : Profile f V L TV) (hL : L = N * h) (t : ℝ) (i : ℤ) : moved f x0 h w t (i + N) - moved f x0 h w t i = amount f L := by
  rw [← hf.turn_amount (x0 + h * i - w * t)]
  unfold moved
  congr 2
  push_cast
  rw [hL]; ring

/-- the densities `ρ`, of total amount `m`, follow the profile at time `t` with error `e`. -/
def Tracks (f : ℝ → ℝ) (N : ℕ) (h x0 w TV m t e : ℝ) (ρ : ℤ → ℝ) : Prop :=
  Per N ρ ∧ tv N ρ ≤ TV ∧ ∃ R : ℤ → ℝ, (∀ i, R i - R (i - 1) = h * ρ i) ∧ (∀ i, R (i + N) - R i = m) ∧ nrm N (fun i => R i - moved f x0 h w t i) ≤ e

/-- **a stage follows the profile.** -/
theorem Profile.stage_tracks (hf : Profile f V L TV) (hh : 0 < h) (hL : L = N * h) {m t τ e0 e β dt z S : ℝ} {K : ℕ} {ρ ρ0 σ s : ℤ → ℝ} (hm : |m - amount f L| ≤ h * TV)
    (T0 : Tracks f N h x0 w TV m t e0 ρ0) (T1 : Tracks f N h x0 w TV m (t + τ * dt) e ρ) (h0 : 0 ≤ β) (h1 : β ≤ 1) (hdt : 0 ≤ dt) (hτ0 : 0 ≤ τ) (hτ : τ + 1 ≤ K)
    (p1 : Per N σ) (p3 : Per N s) (hz0 : 0 ≤ z) (hz : z ≤ 2) (hl : Limited z ρ s)
    (hσ : ∀ i, 0 ≤ σ i ∧ 0 ≤ w + σ i ∧ σ i ≤ S ∧ w + σ i ≤ S) (hC : dt / h * S * (2 + 3 * z) ≤ 1) :
    Tracks f N h x0 w TV m (t + β * (τ + 1) * dt) (β * e + (1 - β) * e0 + 8 * K ^ 2 * (dt * S * TV))
      (fun i => β * (ρ i - dt / h * (sweep w σ ρ s (i + 1) - sweep w σ ρ s i)) + (1 - β) * ρ0 i) := by
  obtain ⟨q1, q2, R0, q3, q4, q5⟩ := T0
  obtain ⟨r1, r2, R, r3, r4, r5⟩ := T1
  have hFp := sweep_per (w := w) p1 r1 p3
  have hS : 0 ≤ S := (hσ 0).1.trans (hσ 0).2.2.1
  have hw : |w| ≤ S := by
    obtain ⟨a1, a2, a3, a4⟩ := hσ 0
    rw [abs_le]; constructor <;> linarith
  have hlam : 0 ≤ dt / h := div_nonneg hdt hh.le
  have hCS : dt / h * S ≤ 1 := by nlinarith [mul_nonneg (mul_nonneg hlam hS) hz0, mul_nonneg hlam hS]
  have hCw : dt / h * |w| ≤ 1 := (mul_le_mul_of_nonneg_left hw hlam).trans hCS
  have hTV := hf.tv_nonneg (by rw [hL]; positivity)
  refine ⟨fun i => ?_, ?_, fun i => β * (R i - dt * sweep w σ ρ s (i + 1)) + (1 - β) * R0 i, fun i => ?_, fun i => ?_, ?_⟩
  · simp only
    rw [show i + (N:ℤ) + 1 = i + 1 + N by ring, hFp, hFp, r1, q1]
  · refine (tv_comb h0 h1 _ _).trans ?_
    have := euler_tv p1 r1 p3 hz hl hlam hσ hC
    nlinarith
  · simp only
    rw [sub_add_cancel]
    have a1 := r3 i
    have a2 := q3 i
    field_simp
    linear_combination β * a1 + (1 - β) * a2
  · simp only
    rw [show i + (N:ℤ) + 1 = i + 1 + N by ring, hFp]
    linear_combination β * r4 i + (1 - β) * q4 i
  · have hτd : |w * ((τ + 1) * dt)| ≤ K * h := by
      rw [abs_mul, abs_of_nonneg (mul_nonneg (by linarith) hdt)]
      have : |w| * dt ≤ h := by
        rw [div_mul_eq_mul_div, div_le_one hh] at hCw; linarith
      calc |w| * ((τ + 1) * dt) = (τ + 1) * (|w| * dt) := by ring
        _ ≤ K * h := mul_le_mul hτ this (by positivity) (by positivity)
    refine (hf.stage_error hh hL (μ := h * TV) r3 h0 h1 hdt hCw (sweep_near hl hσ) (by positivity) r1 hτd (fun i => ?_) (R0 := R0) (fun i => rfl)).trans ?_
    · have b1 := r4 i
      have b2 := hf.turn_moved (x0 := x0) (w := w) hL (t + τ * dt) i
      rw [show R (i + N) - moved f x0 h w (t + τ * dt) (i + N) - (R i - moved f x0 h w (t + τ * dt) i) = m - amount f L by linarith]
      exact hm
    · have K1 : (1:ℝ) ≤ K := by linarith
      have K2 : (1:ℝ) ≤ K ^ 2 := one_le_pow₀ K1
      have c0 : 0 ≤ dt * TV := mul_nonneg hdt hTV
      have c1 : dt / h * |w| * |h * TV| ≤ S * (dt * TV) := by
        rw [abs_of_nonneg (a := h * TV) (by positivity), show dt / h * |w| * (h * TV) = |w| * (dt * TV) by field_simp]
        exact mul_le_mul_of_nonneg_right hw c0
      have c2 : dt * (S * (1 + z)) * tv N ρ ≤ 3 * S * (dt * TV) := by
        calc dt * (S * (1 + z)) * tv N ρ ≤ dt * (S * (1 + z)) * TV := mul_le_mul_of_nonneg_left r2 (by positivity)
          _ = S * (1 + z) * (dt * TV) := by ring
          _ ≤ 3 * S * (dt * TV) := mul_le_mul_of_nonneg_right (by nlinarith) c0
      have c3 : 2 * |w| * dt * TV ≤ 2 * S * (dt * TV) := by
        rw [show 2 * |w| * dt * TV = 2 * |w| * (dt * TV) by ring]
        exact mul_le_mul_of_nonneg_right (by linarith) c0
      have c4 : 2 * |w * ((τ + 1) * dt)| * (K * TV) ≤ 2 * K ^ 2 * S * (dt * TV) := by
        rw [abs_mul, abs_of_nonneg (mul_nonneg (by linarith) hdt)]
        calc 2 * (|w| * ((τ + 1) * dt)) * (K * TV) = (2 * K * (|w| * (τ + 1))) * (dt * TV) := by ring
          _ ≤ (2 * K * (S * K)) * (dt * TV) := by
            refine mul_le_mul_of_nonneg_right (mul_le_mul_of_nonneg_left (mul_le_mul hw hτ (by linarith) hS) (by positivity)) c0
          _ = _ := by ring
      have c5 : 0 ≤ S * (dt * TV) := mul_nonneg hS c0
      have c6 : S * (dt * TV) ≤ K ^ 2 * (S * (dt * TV)) := le_mul_of_one_le_left c5 K2
      have d1 := mul_le_mul_of_nonneg_left r5 h0
      have d2 := mul_le_mul_of_nonneg_left q5 (by linarith : 0 ≤ 1 - β)
      nlinarith

/-! ### The beginning -/

theorem exists_primitive (g : ℤ → ℝ) (c : ℝ) : ∃ R : ℤ → ℝ, R (-1) = c ∧ ∀ i, R i - R (i - 1) = g i := by
  refine ⟨fun i => match i with
    | .ofNat n => c + ∑ j ∈ range (n + 1), g j
    | .negSucc n => c - ∑ j ∈ range n, g (-1 - j), ?_, ?_⟩
  · show c - ∑ j ∈ range 0, _ = c
    simp
  · intro i
    match i with
    | .ofNat 0 =>
      show c + ∑ j ∈ range 1, g j - (c - ∑ j ∈ range 0, _) = g 0
      simp
    | .ofNat (n + 1) =>
      have e : Int.ofNat (n + 1) - 1 = Int.ofNat n := by simp
      rw [e]
      show c + ∑ j ∈ range (n + 1 + 1), g j - (c + ∑ j ∈ range (n + 1), g j) = g (n + 1 : ℕ)
      rw [sum_range_succ _ (n + 1)]; ring
    | .negSucc n =>
      have e : Int.negSucc n - 1 = Int.negSucc (n + 1) := by rw [Int.negSucc_eq, Int.negSucc_eq]; push_cast; ring
      rw [e]
      show c - ∑ j ∈ range n, g (-1 - j) - (c - ∑ j ∈ range (n + 1), g (-1 - j)) = g (Int.negSucc n)
      rw [sum_range_succ, Int.negSucc_eq]
      have : (-1 - (n:ℤ)) = -((n:ℤ) + 1) := by ring
      rw [this]; ring

/-- values at the cell centres. -/
noncomputable def sampled (f : ℝ → ℝ) (x0 h : ℝ) (i : ℤ) : ℝ := f (x0 + h * i - h / 2)

/-- **the beginning**: the values at the cell centres follow the profile. -/
theorem Profile.start (hf : Profile f V L TV) (hh : 0 < h) (hL : L = N * h) :
    ∃ m, |m - amount f L| ≤ h * TV ∧ Tracks f N h x0 w TV m 0 (L * TV) (sampled f x0 h) := by
  obtain ⟨R, hR0, hR⟩ := exists_primitive (fun i => h * sampled f x0 h i) (moved f x0 h w 0 (-1))
  have hper : Per N (sampled f x0 h) := fun i => by
    unfold sampled
    rw [show x0 + h * ((i + N : ℤ) : ℝ) - h / 2 = x0 + h * i - h / 2 + L by push_cast; rw [hL]; ring, hf.per]
  -- the amount in a period
  have hm : ∃ m, ∀ i, R (i + N) - R i = m := by
    refine ⟨R (0 + N) - R 0, fun i => ?_⟩
    have st : ∀ i, R (i + 1 + N) - R (i + 1) = R (i + N) - R i := fun i => by
      have a := hR (i + 1 + N)
      have b := hR (i + 1)
      rw [show i + 1 + (N:ℤ) - 1 = i + N by ring] at a
      rw [add_sub_cancel_right] at b
      rw [hper] at a
      linarith
    induction i using Int.induction_on with
    | zero => rfl
    | succ n ih => rw [st]; exact ih
    | pred n ih => rw [← st, show -(n:ℤ) - 1 + 1 = -n by ring]; exact ih
  obtain ⟨m, hm⟩ := hm
  set D : ℤ → ℝ := fun i => R i - moved f x0 h w 0 i with hD
  have cell : ∀ i, |D i - D (i - 1)| ≤ h * (V (x0 + h * i) - V (x0 + h * (i - 1 : ℤ))) := fun i => by
    have a := hR i
    have b1 := hf.linear (x0 + h * i - h / 2) (x0 + h * i)
    have b2 := hf.linear (x0 + h * i - h / 2) (x0 + h * (i - 1 : ℤ))
    have l1 : x0 + h * (i:ℝ) - (x0 + h * i - h / 2) = h / 2 := by ring
    have l2 : x0 + h * ((i - 1 : ℤ) : ℝ) - (x0 + h * i - h / 2) = -(h / 2) := by push_cast; ring
    rw [l1, abs_of_pos (by linarith : 0 < h / 2)] at b1
    rw [l2, abs_neg, abs_of_pos (by linarith : 0 < h / 2)] at b2
    have m1 := hf.mono (show x0 + h * (i:ℝ) - h / 2 ≤ x0 + h * i by linarith)
    have m2 := hf.mono (show x0 + h * ((i - 1 : ℤ) : ℝ) ≤ x0 + h * i - h / 2 by push_cast; linarith)
    rw [abs_of_nonneg (a := V (x0 + h * (i:ℝ)) - _) (by linarith)] at b1
    rw [abs_of_nonpos (a := V (x0 + h * ((i - 1 : ℤ) : ℝ)) - _) (by linarith)] at b2
    have e : D i - D (i - 1) = (amount f (x0 + h * (i - 1 : ℤ)) - amount f (x0 + h * i - h / 2) - f (x0 + h * i - h / 2) * -(h / 2)) -
        (amount f (x0 + h * i) - amount f (x0 + h * i - h / 2) - f (x0 + h * i - h / 2) * (h / 2)) := by
      simp only [hD, moved, mul_zero, sub_zero]
      unfold sampled at a
      linear_combination a
    rw [e]
    refine (abs_sub _ _).trans ?_
    have m3 : 0 ≤ (V (x0 + h * (i:ℝ)) - V (x0 + h * (i:ℝ) - h / 2)) * (h / 2) := mul_nonneg (by linarith) (by linarith)
    have m4 : 0 ≤ -(V (x0 + h * ((i - 1 : ℤ) : ℝ)) - V (x0 + h * (i:ℝ) - h / 2)) * (h / 2) := mul_nonneg (by linarith) (by linarith)
    linarith
  have far : ∀ (n : ℕ) (i : ℤ), |D (i + n) - D i| ≤ h * (V (x0 + h * (i + n : ℤ)) - V (x0 + h * i)) := fun n => by
    induction n with
    | zero => intro i; simp
    | succ n ih =>
      intro i
      have a := cell (i + (n + 1 : ℕ))
      have b := ih i
      have e : i + ((n + 1 : ℕ) : ℤ) - 1 = i + n := by push_cast; ring
      rw [e] at a
      have c := abs_add_le (D (i + (n + 1 : ℕ)) - D (i + n)) (D (i + n) - D i)
      rw [sub_add_sub_cancel] at c
      nlinarith
  have turnV : ∀ i : ℤ, V (x0 + h * (i + N : ℤ)) - V (x0 + h * i) = TV := fun i => by
    rw [show x0 + h * ((i + N : ℤ) : ℝ) = x0 + h * i + L by push_cast; rw [hL]; ring, hf.turn]; ring
  refine ⟨m, ?_, hper, ?_, R, hR, hm, ?_⟩
  · have a := far N 0
    rw [turnV] at a
    have b1 := hm 0
    have b2 := hf.turn_moved (x0 := x0) (w := w) hL 0 0
    rwa [show D (0 + N) - D 0 = m - amount f L by simp only [hD]; linarith] at a
  · have := hf.sum_var hh.le hL 1 (b := h) (by rw [abs_of_pos hh]; simp) (x0 - h / 2 - h)
    refine le_trans (total_le fun i => ?_) (this.trans (by simp))
    have a := hf.near (x0 - h / 2 - h + h * i) (x0 - h / 2 - h + h * i + h)
    unfold sampled
    rw [show x0 + h * (i:ℝ) - h / 2 = x0 - h / 2 - h + h * i + h by ring, show x0 + h * ((i - 1 : ℤ) : ℝ) - h / 2 = x0 - h / 2 - h + h * i by push_cast; ring]
    exact a
  · have hD1 : D (-1) = 0 := by simp only [hD, hR0, sub_self]
    unfold nrm total
    have each : ∀ i ∈ range N, |D (i:ℤ)| ≤ h * TV := fun i hi => by
      have a := far (i + 1) (-1)
      rw [show (-1 : ℤ) + ((i + 1 : ℕ) : ℤ) = i by push_cast; ring, hD1, sub_zero] at a
      refine a.trans (mul_le_mul_of_nonneg_left ?_ hh.le)
      have t := turnV (-1)
      have hi' : (i:ℤ) ≤ -1 + N := by have := mem_range.1 hi; omega
      have mm := hf.mono (show x0 + h * ((i:ℤ):ℝ) ≤ x0 + h * ((-1 + N : ℤ) : ℝ) by
        have : ((i:ℤ):ℝ) ≤ ((-1 + N : ℤ) : ℝ) := by exact_mod_cast hi'
        nlinarith)
      linarith
    refine (sum_le_sum each).trans (le_of_eq ?_)
    rw [sum_const, card_range, nsmul_eq_mul, hL]; ring

/-! ### From amounts to densities -/

theorem back_n {D : ℤ → ℝ} {μ : ℝ} (hD : ∀ i, |D (i + N) - D i| ≤ μ) (k : ℕ) : total N (fun i => |D (i - k)|) ≤ nrm N D + k * μ := by
  induction k with
  | zero => simp [nrm]
  | succ k ih =>
    have := total_back_le (N := N) (D := fun i => D (i - k)) (μ := μ) (fun i => by
      show |D (i + N - k) - D (i - k)| ≤ μ
      rw [show i + (N:ℤ) - k = i - k + N by ring]; exact hD _)
    have e : ∀ i : ℤ, i - 1 - (k:ℤ) = i - ((k + 1 : ℕ) : ℤ) := fun i => by push_cast; ring
    simp only [e] at this
    push_cast at this ⊢
    linarith

theorem step_n {e : ℤ → ℝ} (he : Per N e) (j : ℕ) : total N (fun i => |e i - e (i - j)|) ≤ j * tv N e := by
  induction j with
  | zero => simp [total]
  | succ j ih =>
    have p : ∀ k : ℕ, Per N fun i => |e (i - k) - e (i - k - 1)| := fun k i => by
      show |e (i + N - k) - e (i + N - k - 1)| = _
      rw [show i + (N:ℤ) - k - 1 = i - k - 1 + N by ring, show i + (N:ℤ) - k = i - k + N by ring, he, he]
    have sh : ∀ k : ℕ, total N (fun i => |e (i - k) - e (i - k - 1)|) = tv N e := fun k => by
      induction k with
      | zero => simp [tv]
      | succ k ih =>
        rw [← ih, ← total_back (p k)]
        congr 1; funext i
        rw [show i - ((k + 1 : ℕ) : ℤ) = i - 1 - k by push_cast; ring]
    have key : ∀ i : ℤ, |e i - e (i - (j + 1 : ℕ))| ≤ |e i - e (i - j)| + |e (i - j) - e (i - j - 1)| := fun i => by
      rw [show i - ((j + 1 : ℕ) : ℤ) = i - j - 1 by push_cast; ring]
      exact abs_sub_le _ _ _
    refine (total_le key).trans ?_
    rw [total_add, sh]
    push_cast
    linarith

/-- a sequence whose sums are small and whose variation is bounded is small. -/
theorem sharpen {D : ℤ → ℝ} {c A : ℝ} (hD : ∀ i, D (i + N) - D i = c) (hA : tv N (fun i => D i - D (i - 1)) ≤ A) (k : ℕ) (hk : 0 < k) :
    total N (fun i => |D i - D (i - 1)|) ≤ k * A + 2 * nrm N D / k + |c| := by
  set e : ℤ → ℝ := fun i => D i - D (i - 1) with he
  have hk' : (0:ℝ) < k := by exact_mod_cast hk
  have hp : Per N e := fun i => by
    have a := hD i
    have b := hD (i - 1)
    simp only [he]
    rw [show i + (N:ℤ) - 1 = i - 1 + N by ring]; linarith
  have tele : ∀ i : ℤ, ∑ j ∈ range k, e (i - j) = D i - D (i - k) := fun i => by
    clear hk hk'
    induction k with
    | zero => simp
    | succ k ih =>
      rw [sum_range_succ, ih]
      simp only [he]
      rw [show i - ((k + 1 : ℕ) : ℤ) = i - k - 1 by push_cast; ring]; ring
  have key : ∀ i : ℤ, k * |e i| ≤ ∑ j ∈ range k, |e i - e (i - j)| + (|D i| + |D (i - k)|) := fun i => by
    have e1 : (k:ℝ) * e i = ∑ j ∈ range k, (e i - e (i - j)) + (D i - D (i - k)) := by
      rw [sum_sub_distrib, tele, sum_const, card_range, nsmul_eq_mul]; ring
    have : k * |e i| = |(k:ℝ) * e i| := by rw [abs_mul, abs_of_pos hk']
    rw [this, e1]
    refine (abs_add_le _ _).trans (add_le_add (abs_sum_le_sum_abs _ _) (abs_sub _ _))
  have s1 : total N (fun i => ∑ j ∈ range k, |e i - e (i - j)|) ≤ k * (k * A) := by
    unfold total
    rw [sum_comm]
    have : ∀ j ∈ range k, ∑ i ∈ range N, |e (i:ℤ) - e (i - j)| ≤ k * A := fun j hj => by
      have a := step_n hp j
      have hA0 : 0 ≤ A := (total_nonneg fun i => abs_nonneg _).trans hA
      have hj' : (j:ℝ) ≤ k := by exact_mod_cast (mem_range.1 hj).le
      refine a.trans ?_
      exact mul_le_mul hj' hA (total_nonneg fun i => abs_nonneg _) hk'.le
    refine (sum_le_sum this).trans (le_of_eq ?_)
    rw [sum_const, card_range, nsmul_eq_mul]
  have s2 := back_n (N := N) (D := D) (μ := |c|) (fun i => by rw [hD]) k
  have s3 := total_le (N := N) key
  rw [total_mul, total_add, total_add] at s3
  have s4 : (k:ℝ) * total N (fun i => |e i|) ≤ k * (k * A + 2 * nrm N D / k + |c|) := by
    have : (k:ℝ) * (k * A + 2 * nrm N D / k + |c|) = k * (k * A) + (nrm N D + nrm N D + k * |c|) := by field_simp; ring
    rw [this]
    unfold nrm at s2 ⊢
    linarith
  exact le_of_mul_le_mul_left s4 hk'

/-- **densities**: followed amounts give densities close to the exact averages. -/
theorem Profile.close (hf : Profile f V L TV) (hh : 0 < h) (hL : L = N * h) {m t e : ℝ} {ρ : ℤ → ℝ} (hm : |m - amount f L| ≤ h * TV) (T : Tracks f N h x0 w TV m t e ρ) (k : ℕ) (hk : 0 < k) :
    total N (fun i => |h * ρ i - ∫ x in (x0 + h * (i - 1) - w * t)..(x0 + h * i - w * t), f x|) ≤ 3 * k * h * TV + 2 * e / k + h * TV := by
  obtain ⟨p, a, R, r1, r2, r3⟩ := T
  set D : ℤ → ℝ := fun i => R i - moved f x0 h w t i with hD
  have e1 : ∀ i : ℤ, h * ρ i - ∫ x in (x0 + h * (i - 1) - w * t)..(x0 + h * i - w * t), f x = D i - D (i - 1) := fun i => by
    rw [← hf.amount_sub, ← r1]
    simp only [hD, moved]
    push_cast
    ring
  have hDc : ∀ i, D (i + N) - D i = m - amount f L := fun i => by
    have b1 := r2 i
    have b2 := hf.turn_moved (x0 := x0) (w := w) hL t i
    simp only [hD]; linarith
  have hA : tv N (fun i => D i - D (i - 1)) ≤ 3 * h * TV := by
    have key : ∀ i : ℤ, |D i - D (i - 1) - (D (i - 1) - D (i - 1 - 1))| ≤ h * |ρ i - ρ (i - 1)| +
        (h * |V (x0 - w * t - h + h * i + h) - V (x0 - w * t - h + h * i)| + h * |V (x0 - w * t - h + h * i + -h) - V (x0 - w * t - h + h * i)|) := fun i => by
      have b1 := r1 i
      have b2 := r1 (i - 1)
      have l1 := hf.linear (x0 - w * t - h + h * i) (x0 - w * t - h + h * i + h)
      have l2 := hf.linear (x0 - w * t - h + h * i) (x0 - w * t - h + h * i + -h)
      rw [add_sub_cancel_left] at l1 l2
      rw [abs_of_pos hh] at l1
      rw [abs_neg, abs_of_pos hh] at l2
      have m0 : moved f x0 h w t i = amount f (x0 - w * t - h + h * i + h) := by unfold moved; congr 1; ring
      have m1 : moved f x0 h w t (i - 1) = amount f (x0 - w * t - h + h * i) := by unfold moved; congr 1; push_cast; ring
      have m2 : moved f x0 h w t (i - 1 - 1) = amount f (x0 - w * t - h + h * i + -h) := by unfold moved; congr 1; push_cast; ring
      have e : D i - D (i - 1) - (D (i - 1) - D (i - 1 - 1)) = h * (ρ i - ρ (i - 1)) -
          ((amount f (x0 - w * t - h + h * i + h) - amount f (x0 - w * t - h + h * i) - f (x0 - w * t - h + h * i) * h) +
          (amount f (x0 - w * t - h + h * i + -h) - amount f (x0 - w * t - h + h * i) - f (x0 - w * t - h + h * i) * -h)) := by
        simp only [hD, m0, m1, m2]
        linear_combination b1 - b2
      rw [e]
      refine (abs_sub _ _).trans (add_le_add ?_ ((abs_add_le _ _).trans (add_le_add ?_ ?_)))
      · rw [abs_mul, abs_of_pos hh]
      · linarith
      · linarith
    refine (total_le key).trans ?_
    have v1 := hf.sum_var hh.le hL 1 (b := h) (by rw [abs_of_pos hh]; simp) (x0 - w * t - h)
    have v2 := hf.sum_var hh.le hL 1 (b := -h) (by rw [abs_neg, abs_of_pos hh]; simp) (x0 - w * t - h)
    rw [total_add, total_add, total_mul (f := fun i : ℤ => |ρ i - ρ (i - 1)|), total_mul (f := fun i : ℤ => |V (x0 - w * t - h + h * i + h) - V (x0 - w * t - h + h * i)|),
      total_mul (f := fun i : ℤ => |V (x0 - w * t - h + h * i + -h) - V (x0 - w * t - h + h * i)|)]
    have c1 := mul_le_mul_of_nonneg_left a hh.le
    have c2 := mul_le_mul_of_nonneg_left v1 hh.le
    have c3 := mul_le_mul_of_nonneg_left v2 hh.le
    unfold tv at c1
    push_cast at c2 c3
    linarith
  simp only [e1]
  refine (sharpen hDc hA k hk).trans ?_
  have : 2 * nrm N D / k ≤ 2 * e / k := by
    refine div_le_div_of_nonneg_right ?_ (Nat.cast_nonneg k)
    linarith
  linarith

end exact
end Phoebus.Carry
