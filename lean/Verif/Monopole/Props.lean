import Verif.Monopole.Model
import Verif.Geom.ADM
import Verif.Rel.Props
import Verif.Robust.Props
import Mathlib.Algebra.Order.BigOperators.Group.Finset

/-!
# C41, C42, C43: the monopole solver
-/
namespace Phoebus.Monopole
open Finset
variable {K : Type*} [Field K] [LinearOrder K] [IsStrictOrderedRing K]

private theorem ratio0 (a b : K) : Robust.ratio 0 a b = a / b := by simp [Robust.ratio]

/-! ### C42: Thomas algorithm -/

/-- Specification: `x` solves the tridiagonal system of size `n` (the unused corner entries do not enter). -/
def Solves (t : Tri K) (n : ℕ) (x : ℕ → K) : Prop :=
  ∀ i, i < n → (if i = 0 then 0 else t.l i * x (i - 1)) + t.d i * x i + (if i = n - 1 then 0 else t.u i * x (i + 1)) = t.b i

theorem thomas_last (t : Tri K) (n : ℕ) : thomas t n (n - 1) = (forward t (n - 1)).2 / (forward t (n - 1)).1 := by
  simp [thomas, back]

theorem thomas_step (t : Tri K) (n i : ℕ) (hi : i + 1 < n) :
    thomas t n i = ((forward t i).2 - t.u i * thomas t n (i + 1)) / (forward t i).1 := by
  unfold thomas
  obtain ⟨m, hm⟩ : ∃ m, n - 1 - i = m + 1 := ⟨n - 1 - i - 1, by omega⟩
  rw [hm, back, show n - 1 - (m + 1) = i by omega, show n - 1 - (i + 1) = m by omega]

/-- **C42** The elimination returns a solution of every row, for any size and any coefficients with nonzero pivots. -/
theorem thomas_solves (t : Tri K) (n : ℕ) (hn : 0 < n) (hp : ∀ i, i < n → (forward t i).1 ≠ 0) :
    Solves t n (thomas t n) := by
  -- the eliminated row
  have elim : ∀ i, i < n → (forward t i).1 * thomas t n i + (if i = n - 1 then 0 else t.u i * thomas t n (i + 1)) =
      (forward t i).2 := by
    intro i hi
    have hpi := hp i hi
    by_cases hl : i = n - 1
    · subst hl; rw [thomas_last, if_pos rfl]; field_simp; ring
    · rw [if_neg hl, thomas_step t n i (by omega)]; field_simp; ring
  intro i hi
  rcases i with _ | i
  · have := elim 0 hi
    simpa [forward] using this
  · have h1 := elim (i + 1) hi
    have h0 := elim i (by omega)
    rw [if_neg (show i ≠ n - 1 by omega)] at h0
    have hpi := hp i (by omega)
    simp only [Nat.add_sub_cancel, if_neg (Nat.succ_ne_zero i)]
    simp only [forward] at h1
    have key : t.l (i + 1) * thomas t n i + t.l (i + 1) / (forward t i).1 * t.u i * thomas t n (i + 1) =
        t.l (i + 1) / (forward t i).1 * (forward t i).2 := by
      rw [← h0]; field_simp
    linear_combination h1 + key

/-- **C42** The solution is unique. -/
theorem solves_unique (t : Tri K) (n : ℕ) (hp : ∀ i, i < n → (forward t i).1 ≠ 0) (x : ℕ → K)
    (hx : Solves t n x) : ∀ i, i < n → x i = thomas t n i := by
  have elim : ∀ i, i < n → (forward t i).1 * x i + (if i = n - 1 then 0 else t.u i * x (i + 1)) = (forward t i).2 := by
    intro i
    induction i with
    | zero => intro hi; have := hx 0 hi; simpa [forward] using this
    | succ i ih =>
      intro hi
      have h0 := ih (by omega)
      rw [if_neg (show i ≠ n - 1 by omega)] at h0
      have h1 := hx (i + 1) hi
      simp only [Nat.add_sub_cancel, if_neg (Nat.succ_ne_zero i)] at h1
      have hpi := hp i (by omega)
      simp only [forward]
      have key : t.l (i + 1) * x i + t.l (i + 1) / (forward t i).1 * t.u i * x (i + 1) =
          t.l (i + 1) / (forward t i).1 * (forward t i).2 := by
        rw [← h0]; field_simp
      linear_combination h1 - key
  have down : ∀ m, ∀ i, i < n → n - 1 - i = m → x i = thomas t n i := by
    intro m
    induction m with
    | zero =>
      intro i hi hm
      have hl : i = n - 1 := by omega
      have := elim i hi
      rw [if_pos hl] at this
      rw [hl, thomas_last, ← hl, eq_div_iff (hp i hi)]; linarith
    | succ m ih =>
      intro i hi hm
      have h := elim i hi
      rw [if_neg (show i ≠ n - 1 by omega), ih (i + 1) (by omega) (by omega)] at h
      rw [thomas_step t n i (by omega), eq_div_iff (hp i hi)]; linarith
  exact fun i hi => down _ i hi rfl

/-- diagonal dominance with the signs of the lapse equation. -/
structure Dominant (t : Tri K) (n : ℕ) : Prop where
  l : ∀ i, 0 < i → i < n → 0 ≤ t.l i
  u : ∀ i, i + 1 < n → 0 < t.u i
  d : ∀ i, i + 1 < n → t.d i ≤ -((if i = 0 then 0 else t.l i) + t.u i)
  last : t.d (n - 1) < -(t.l (n - 1))

/-- pivots of a dominant system never vanish. -/
theorem dominant_pivots (t : Tri K) (n : ℕ) (hn : 1 < n) (h : Dominant t n) :
    (∀ i, i + 1 < n → (forward t i).1 ≤ -t.u i) ∧ (forward t (n - 1)).1 ≤ t.d (n - 1) + t.l (n - 1) ∧
    ∀ i, i < n → (forward t i).1 < 0 := by
  have h1 : ∀ i, i + 1 < n → (forward t i).1 ≤ -t.u i := by
    intro i
    induction i with
    | zero => intro hi; have := h.d 0 hi; simp [forward] at this ⊢; exact this
    | succ i ih =>
      intro hi
      have hu := h.u i (by omega)
      have h0 := ih (by omega)
      have hneg : (forward t i).1 < 0 := by linarith
      have hd := h.d (i + 1) hi
      rw [if_neg (Nat.succ_ne_zero i)] at hd
      have hl := h.l (i + 1) (by omega) (by omega)
      have hq : t.u i / (forward t i).1 ≥ -1 := by
        rw [ge_iff_le, le_div_iff_of_neg hneg]; linarith
      have : t.l (i + 1) / (forward t i).1 * t.u i ≥ -t.l (i + 1) := by
        rw [div_mul_eq_mul_div, mul_div_assoc]; nlinarith
      simp only [forward]; linarith
  have h2 : (forward t (n - 1)).1 ≤ t.d (n - 1) + t.l (n - 1) := by
    obtain ⟨k, hk⟩ : ∃ k, n - 1 = k + 1 := ⟨n - 2, by omega⟩
    have hu := h.u k (by omega)
    have h0 := h1 k (by omega)
    have hneg : (forward t k).1 < 0 := by linarith
    have hl := h.l (k + 1) (by omega) (by omega)
    have hq : t.u k / (forward t k).1 ≥ -1 := by
      rw [ge_iff_le, le_div_iff_of_neg hneg]; linarith
    have : t.l (k + 1) / (forward t k).1 * t.u k ≥ -t.l (k + 1) := by
      rw [div_mul_eq_mul_div, mul_div_assoc]; nlinarith
    rw [hk]; simp only [forward]; linarith
  refine ⟨h1, h2, fun i hi => ?_⟩
  by_cases hl : i + 1 < n
  · have := h1 i hl; have := h.u i hl; linarith
  · have : i = n - 1 := by omega
    rw [this]; have := h.last; linarith

/-! ### The rows of the lapse equation -/

section Rows
variable {small pi dr : K} {n : ℕ} {a k rho S : ℕ → K}

/-- Specification: the discretised lapse equation.  `alpha'' + 2 alpha'/r - (a'/a) alpha' = a² (3/2 K² + 4 pi (rho + S)) alpha`
with centred differences (multiplied by `r dr`), regularity at the centre and `alpha = 1 - dr alpha'...` (Robin) outside. -/
def LapseEq (pi dr : K) (n : ℕ) (a k rho S dadr alpha : ℕ → K) : Prop :=
  alpha 0 = alpha 1 ∧
  (∀ i, 0 < i → i < n - 1 →
    rad dr i * (alpha (i + 1) - 2 * alpha i + alpha (i - 1)) / dr + (alpha (i + 1) - alpha (i - 1))
      - dadr i * rad dr i / (2 * a i) * (alpha (i + 1) - alpha (i - 1))
      = rad dr i * dr * a i ^ 2 * (3 / 2 * k i ^ 2 + 4 * pi * (rho i + S i)) * alpha i) ∧
  rad dr (n - 1) * (alpha (n - 1) - alpha (n - 2)) = dr * (1 - alpha (n - 1))

/-- **C42** The lapse returned satisfies the discretised slicing equation at every interior point and the two boundary
conditions, whenever the pivots do not vanish. -/
theorem lapse_equation (hdr : dr ≠ 0) (hn : 2 ≤ n)
    (hp : ∀ i, i < n → (forward (rows small pi dr n a k rho S) i).1 ≠ 0) :
    LapseEq pi dr n a k rho S (fun i => aRHS small pi (a i) (k i) (rad dr i) (rho i)) (lapse small pi dr n a k rho S) := by
  have h := thomas_solves _ n (by omega) hp
  have hsolve := h
  refine ⟨?_, ?_, ?_⟩
  · have := hsolve 0 (by omega)
    have e : ∀ m, thomas (rows small pi dr n a k rho S) n m = lapse small pi dr n a k rho S m := fun _ => rfl
    simp only [e] at this
    rw [if_pos trivial, if_neg (by omega)] at this
    simp only [rows, if_true, if_neg (show ¬ ((0:ℕ) = n - 1 ∧ (0:ℕ) ≠ 0) by omega)] at this
    linarith
  · intro i hi0 hi1
    have := hsolve i (by omega)
    beta_reduce
    rw [if_neg (by omega), if_neg (by omega)] at this
    have e : ∀ m, thomas (rows small pi dr n a k rho S) n m = lapse small pi dr n a k rho S m := fun _ => rfl
    simp only [e] at this
    simp only [rows, if_neg (show i ≠ 0 by omega), if_neg (show i ≠ n - 1 by omega), if_neg (show ¬ (i = n - 1 ∧ i ≠ 0) by omega)] at this
    generalize lapse small pi dr n a k rho S (i - 1) = x at *
    generalize lapse small pi dr n a k rho S (i + 1) = y at *
    generalize lapse small pi dr n a k rho S i = z at *
    generalize aRHS small pi (a i) (k i) (rad dr i) (rho i) = q at *
    by_cases ha : a i = 0
    · rw [ha] at this ⊢
      simp only [mul_zero, div_zero, zero_mul] at this ⊢
      field_simp at this ⊢
      linear_combination this
    · field_simp at this ⊢
      linear_combination this
  · have := hsolve (n - 1) (by omega)
    rw [if_neg (by omega), if_pos rfl] at this
    have e : ∀ m, thomas (rows small pi dr n a k rho S) n m = lapse small pi dr n a k rho S m := fun _ => rfl
    simp only [e] at this
    simp only [rows, if_neg (show n - 1 ≠ 0 by omega), if_true] at this
    rw [if_pos ⟨trivial, by omega⟩] at this
    rw [show n - 2 = n - 1 - 1 by omega]
    linear_combination -this

/-- matter with nonnegative `rho + S`, and a radial metric function whose logarithmic slope is resolved by the grid, give a
dominant system. -/
theorem rows_dominant (hdr : 0 < dr) (hn : 2 ≤ n) (hpi : 0 ≤ pi) (hS : ∀ i, 0 ≤ S i + rho i)
    (hslope : ∀ i, 0 < i → i < n - 1 →
      1 - (i : K) ≤ aRHS small pi (a i) (k i) (rad dr i) (rho i) * rad dr i / (2 * a i) ∧
      aRHS small pi (a i) (k i) (rad dr i) (rho i) * rad dr i / (2 * a i) < 1 + (i : K)) :
    Dominant (rows small pi dr n a k rho S) n := by
  have hdr' := hdr.ne'
  have hr : ∀ i, rad dr i * (1 / dr) = (i : K) := fun i => by unfold rad; field_simp
  refine ⟨?_, ?_, ?_, ?_⟩
  · intro i h0 hi
    simp only [rows]
    split_ifs with hl
    · unfold rad; positivity
    · rw [hr]; linarith [(hslope i h0 (by omega)).1]
  · intro i hi
    simp only [rows]
    split_ifs with h0
    · exact one_pos
    · rw [hr]; linarith [(hslope i (by omega) (by omega)).2]
  · intro i hi
    simp only [rows]
    by_cases h0 : i = 0
    · simp [h0]
    · simp only [if_neg h0, if_neg (show i ≠ n - 1 by omega), hr]
      have : -rad dr i * (4 + a i * a i * dr * dr * (3 * k i * k i + 8 * pi * (S i + rho i))) / (2 * dr) =
          -(2 * (i : K)) - (i : K) * (a i * a i * dr * dr * (3 * (k i * k i) + 8 * pi * (S i + rho i))) / 2 := by
        unfold rad; field_simp; ring
      rw [this]
      have h1 : 0 ≤ (i : K) * (a i * a i * dr * dr * (3 * (k i * k i) + 8 * pi * (S i + rho i))) := by
        have := hS i
        have := mul_self_nonneg (k i)
        have := mul_self_nonneg (a i)
        have h8 : 0 ≤ a i * a i * dr * dr := by positivity
        have h9 : 0 ≤ 3 * (k i * k i) + 8 * pi * (S i + rho i) := by positivity
        positivity
      linarith
  · simp only [rows, if_neg (show n - 1 ≠ 0 by omega), if_true]
    linarith

/-- **C42** Under these conditions the lapse is between zero and one and never decreases outward. -/
theorem lapse_monotone (hdr : 0 < dr) (hn : 2 ≤ n) (hdom : Dominant (rows small pi dr n a k rho S) n) :
    (∀ i, i < n → 0 < lapse small pi dr n a k rho S i ∧ lapse small pi dr n a k rho S i ≤ 1) ∧
    ∀ i, i + 1 < n → lapse small pi dr n a k rho S i ≤ lapse small pi dr n a k rho S (i + 1) := by
  set t := rows small pi dr n a k rho S with ht
  obtain ⟨p1, p2, p3⟩ := dominant_pivots t n (by omega) hdom
  have hb : ∀ i, i + 1 < n → (forward t i).2 = 0 := by
    intro i
    induction i with
    | zero => intro hi; simp [forward, ht, rows]
    | succ i ih =>
      intro hi
      show t.b (i + 1) - _ * (forward t i).2 = 0
      rw [ih (by omega), mul_zero, sub_zero]
      simp only [ht, rows]
      rw [if_neg (by omega)]
  have hbl : (forward t (n - 1)).2 = -dr := by
    obtain ⟨m, hm⟩ : ∃ m, n - 1 = m + 1 := ⟨n - 2, by omega⟩
    rw [hm]
    show t.b (m + 1) - _ * (forward t m).2 = -dr
    rw [hb m (by omega), mul_zero, sub_zero]
    simp only [ht, rows]
    rw [if_pos (by omega)]
  have hlastd : t.d (n - 1) + t.l (n - 1) = -dr := by
    simp only [ht, rows, if_neg (show n - 1 ≠ 0 by omega), if_true]; ring
  have hlast : 0 < thomas t n (n - 1) ∧ thomas t n (n - 1) ≤ 1 := by
    rw [thomas_last, hbl]
    have hn1 := p3 (n - 1) (by omega)
    constructor
    · exact div_pos_of_neg_of_neg (by linarith) hn1
    · rw [div_le_iff_of_neg hn1]; linarith
  have hstep : ∀ i, i + 1 < n → 0 < thomas t n (i + 1) → 0 < thomas t n i ∧ thomas t n i ≤ thomas t n (i + 1) := by
    intro i hi hx
    have hn1 := p3 i (by omega)
    have hu := hdom.u i hi
    have h1 := p1 i hi
    rw [thomas_step t n i hi, hb i hi, zero_sub]
    constructor
    · exact div_pos_of_neg_of_neg (by have := mul_pos hu hx; linarith) hn1
    · rw [div_le_iff_of_neg hn1]; nlinarith
  have hall : ∀ m, ∀ i, i < n → n - 1 - i = m → 0 < thomas t n i ∧ thomas t n i ≤ 1 := by
    intro m
    induction m with
    | zero => intro i hi hm; rw [show i = n - 1 by omega]; exact hlast
    | succ m ih =>
      intro i hi hm
      have h1 := ih (i + 1) (by omega) (by omega)
      have h2 := hstep i (by omega) h1.1
      exact ⟨h2.1, h2.2.trans h1.2⟩
  exact ⟨fun i hi => hall _ i hi rfl, fun i hi => (hstep i hi (hall _ (i + 1) hi rfl).1).2⟩
end Rows

/-! ### C43: vacuum -/

theorem aRHS_flat (small pi r : K) : aRHS small pi 1 0 r 0 = 0 := by
  unfold aRHS Robust.ratio; simp

theorem kRHS_flat (small pi a r : K) : kRHS small pi a 0 r 0 = 0 := by
  unfold kRHS Robust.ratio; simp

/-- **C43** Without matter the hypersurface stays flat at every radius. -/
theorem vacuum_hypersurface (small pi dr : K) (i : ℕ) : hyper small pi dr (fun _ => 0) (fun _ => 0) i = (1, 0) := by
  induction i with
  | zero => rfl
  | succ i ih =>
    simp only [hyper, ih, hyperStep, aRHS_flat, kRHS_flat, mul_zero, add_zero]

/-- **C42, C43** Without matter the lapse is one at every point, for every grid. -/
theorem vacuum_lapse (small pi dr : K) (hdr : 0 < dr) (hpi : 0 ≤ pi) (n : ℕ) (hn : 2 ≤ n) (i : ℕ) (hi : i < n) :
    lapse small pi dr n (fun _ => 1) (fun _ => 0) (fun _ => 0) (fun _ => 0) i = 1 := by
  have hdom : Dominant (rows small pi dr n (fun _ => 1) (fun _ => 0) (fun _ => 0) (fun _ => 0)) n := by
    refine rows_dominant hdr hn hpi (fun _ => by simp) fun i h0 h1 => ?_
    rw [aRHS_flat]
    have : (1:K) ≤ i := by exact_mod_cast h0
    constructor
    · simp; exact_mod_cast h0
    · simp; linarith
  have hpv := (dominant_pivots _ n (by omega) hdom).2.2
  refine (solves_unique _ n (fun i hi => (hpv i hi).ne) (fun _ => 1) ?_ i hi).symm
  intro i hi
  have hr : rad dr i * (1 / dr) = (i : K) := by unfold rad; field_simp
  by_cases h0 : i = 0
  · subst h0; simp [rows, show (0:ℕ) ≠ n - 1 by omega]
  · by_cases hl : i = n - 1
    · simp only [rows, if_neg h0, if_pos hl, if_pos (show i = n - 1 ∧ i ≠ 0 from ⟨hl, h0⟩)]; ring
    · simp only [rows, if_neg h0, if_neg hl, if_neg (show ¬ (i = n - 1 ∧ i ≠ 0) by omega), aRHS_flat]
      unfold rad; field_simp; ring

/-- **C43 (partial)** Without matter, on the flat hypersurface, the shift and every gradient vanish at each point whose
radius exceeds the cut-off `1e-2` (and at the centre). -/
theorem vacuum_gradients_partial (small pi dr cut : K) (hdr : 0 < dr) (hcut : 0 ≤ cut) (n : ℕ) (static : Bool) (i : ℕ)
    (hi : i = 0 ∨ cut < rad dr i) :
    toDevice small pi dr cut n static (fun _ => 1) (fun _ => 0) (fun _ => 1) (fun _ => 0) (fun _ => 0) (fun _ => 0)
      (fun _ => 0) i = ⟨0, 0, 0, 0, 0, 0, 0, 0, 0⟩ := by
  have hd2 : (1:K) + 1 - 2 = 0 := by norm_num
  unfold toDevice
  simp only [mul_zero, ite_self, aRHS_flat, kRHS_flat, sub_self, zero_div, mul_one, zero_mul]
  rcases hi with rfl | hi
  · simp
  · have hne : i ≠ 0 := by rintro rfl; simp [rad] at hi; linarith
    simp [hi, hne, hd2]

/-- **C43 fails near the centre**: for a point with radius in `(0, 1e-2]` the code replaces `a'/r` by one, and flat vacuum
acquires `dK/dt = 2` and a nonzero time derivative of the shift. -/
theorem vacuum_not_static_near_center (small pi dr cut : K) (hdr : 0 < dr) (n i : ℕ) (hi : 0 < i) (hr : rad dr i ≤ cut) :
    let gr := toDevice small pi dr cut n false (fun _ => 1) (fun _ => 0) (fun _ => 1) (fun _ => 0) (fun _ => 0) (fun _ => 0)
      (fun _ => 0) i
    gr.dKdt = 2 ∧ gr.dbetadt = -rad dr i ∧ gr.dbetadt ≠ 0 := by
  have hd2 : (1:K) + 1 - 2 = 0 := by norm_num
  have hne : i ≠ 0 := hi.ne'
  have hrp : 0 < rad dr i := mul_pos (by exact_mod_cast hi) hdr
  unfold toDevice
  simp [aRHS_flat, kRHS_flat, hd2, hne, not_lt.2 hr]
  refine ⟨?_, ?_⟩
  · ring
  · exact hrp.ne'

/-- **C43** With `force_static` the shift and every time derivative vanish, for any matter and any hypersurface. -/
theorem static_no_time_derivative (small pi dr cut : K) (n : ℕ) (a k al rho j S Srr : ℕ → K) (i : ℕ) :
    let gr := toDevice small pi dr cut n true a k al rho j S Srr i
    gr.beta = 0 ∧ gr.dbetadr = 0 ∧ gr.dKdr = 0 ∧ gr.dadt = 0 ∧ gr.dalphadt = 0 ∧ gr.dKdt = 0 ∧ gr.dbetadt = 0 := by
  simp [toDevice]

/-- **C43** Maximal-slicing shift: the returned shift satisfies `beta = -alpha r K / 2`, and its returned radial derivative
is the product rule applied to the other returned derivatives. -/
theorem shift_consistent (small pi dr cut : K) (n : ℕ) (a k al rho j S Srr : ℕ → K) (i : ℕ) :
    let gr := toDevice small pi dr cut n false a k al rho j S Srr i
    gr.beta = -(al i * rad dr i * k i) / 2 ∧
    gr.dbetadr = -(gr.dalphadr * rad dr i * k i + al i * k i + al i * rad dr i * gr.dKdr) / 2 := by
  constructor <;> simp [toDevice] <;> ring_nf

/-- Both stages of each integration step use the radius of the left point, so at the centre nothing happens: whatever the
matter, the second grid point carries the flat values. -/
theorem first_step_flat (small pi dr : K) (rho j : ℕ → K) : hyper small pi dr rho j 1 = (1, 0) := by
  simp [hyper, hyperStep, rad, aRHS, kRHS]

/-- the time step limits the fractional change of the lapse at every point. -/
theorem timestep_limits (small dtfac : K) (hs : 0 ≤ small) (hf : 0 ≤ dtfac) (alpha dadt : ℕ → K) (n i : ℕ) (hi : i ≤ n) :
    dtfac * minScale small alpha dadt n * |dadt i| ≤ dtfac * |alpha i| := by
  have hmin : ∀ n i, i ≤ n → minScale small alpha dadt n ≤ |Robust.ratio small (alpha i) (dadt i)| := by
    intro n
    induction n with
    | zero => intro i hi; rw [Nat.le_zero.1 hi]; rfl
    | succ n ih =>
      intro i hi
      rcases Nat.lt_or_ge i (n + 1) with h | h
      · exact (min_le_left _ _).trans (ih i (by omega))
      · rw [show i = n + 1 by omega]; exact min_le_right _ _
  have h1 := hmin n i hi
  have h2 : |Robust.ratio small (alpha i) (dadt i)| * |dadt i| ≤ |alpha i| := by
    have h3 : |dadt i| ≤ |dadt i + (Robust.sgn (dadt i) : K) * small| := by
      unfold Robust.sgn
      by_cases h0 : 0 ≤ dadt i
      · simp [h0, not_lt.2 h0]
        rw [abs_of_nonneg h0, abs_of_nonneg (by linarith)]; linarith
      · have h0' := not_le.1 h0
        simp [h0, h0']
        rw [abs_of_neg h0', abs_of_neg (by linarith)]; linarith
    have hrat : Robust.ratio small (alpha i) (dadt i) = alpha i / (dadt i + (Robust.sgn (dadt i) : K) * small) := by
      by_cases h0 : 0 ≤ dadt i
      · simp [Robust.ratio, Robust.sgn, h0, not_lt.2 h0]
      · simp [Robust.ratio, Robust.sgn, h0, not_le.1 h0]
    rw [hrat, abs_div]
    rcases eq_or_lt_of_le (abs_nonneg (dadt i + (Robust.sgn (dadt i) : K) * small)) with h4 | h4
    · rw [← h4, div_zero, zero_mul]; exact abs_nonneg _
    · rw [div_mul_eq_mul_div, div_le_iff₀ h4]
      exact mul_le_mul_of_nonneg_left h3 (abs_nonneg _)
  calc dtfac * minScale small alpha dadt n * |dadt i| ≤ dtfac * (|Robust.ratio small (alpha i) (dadt i)| * |dadt i|) := by
        rw [mul_assoc]; exact mul_le_mul_of_nonneg_left (mul_le_mul_of_nonneg_right h1 (abs_nonneg _)) hf
    _ ≤ _ := mul_le_mul_of_nonneg_left h2 hf

/-! ### C41: volume weights -/

/-- Specification: length of the overlap of two intervals given by centre and width. -/
def overlap (r1 d1 r2 d2 : K) : K := max 0 (min (r1 + d1 / 2) (r2 + d2 / 2) - max (r1 - d1 / 2) (r2 - d2 / 2))

/-- **C41** If the shell is not wider than the cell, the weight is the overlap divided by the cell width. -/
theorem volIntersect_eq (rs drs rb drb : K) (h0 : 0 ≤ drs) (h : drs ≤ drb) (hb : 0 < drb) :
    volIntersect rs drs rb drb = overlap rs drs rb drb / drb := by
  unfold volIntersect inBounds overlap
  have e1 : (1:K) / 2 * drs = drs / 2 := by ring
  have e2 : (1:K) / 2 * drb = drb / 2 := by ring
  rw [e1, e2]
  by_cases l1 : rs - drs / 2 ≥ rb - drb / 2 <;> by_cases l2 : rs - drs / 2 < rb + drb / 2 <;>
    by_cases r1 : rs + drs / 2 ≥ rb - drb / 2 <;> by_cases r2 : rs + drs / 2 < rb + drb / 2 <;>
    simp only [l1, l2, r1, r2, decide_true, decide_false, Bool.and_true, Bool.and_false, Bool.false_and, Bool.true_and,
      Bool.not_true, Bool.not_false, if_true, if_false, one_mul, zero_mul, zero_add, add_zero, zero_div, Bool.and_self,
      Bool.false_eq_true] <;>
    simp only [ge_iff_le, not_le, not_lt] at l1 l2 r1 r2
  all_goals try (exfalso; linarith)
  · rw [min_eq_left r2.le, max_eq_left l1, max_eq_right (by linarith)]; ring_nf
  · rw [min_eq_right r2, max_eq_left l1, max_eq_right (by linarith)]
  · rw [max_eq_left]; · simp
    rw [max_eq_left l1]; have := min_le_right (rs + drs / 2) (rb + drb / 2); linarith
  · rw [min_eq_left r2.le, max_eq_right l1.le, max_eq_right (by linarith)]
  · rw [max_eq_left]; · simp
    rw [max_eq_right l1.le]; have := min_le_left (rs + drs / 2) (rb + drb / 2); linarith

/-- **C41** The weight lies between zero and one. -/
theorem volIntersect_range (rs drs rb drb : K) (h0 : 0 ≤ drs) (h : drs ≤ drb) (hb : 0 < drb) :
    0 ≤ volIntersect rs drs rb drb ∧ volIntersect rs drs rb drb ≤ 1 := by
  rw [volIntersect_eq rs drs rb drb h0 h hb]
  refine ⟨div_nonneg (le_max_left _ _) hb.le, ?_⟩
  rw [div_le_one hb]
  unfold overlap
  refine max_le hb.le ?_
  have h1 := min_le_right (rs + drs / 2) (rb + drb / 2)
  have h2 := le_max_right (rs - drs / 2) (rb - drb / 2)
  linarith

/-- clamped position of a face, used to telescope. -/
theorem overlap_clamp (c w lo hi : K) (hw : 0 ≤ w) (hlh : lo ≤ hi) :
    overlap c w ((lo + hi) / 2) (hi - lo) = max lo (min hi (c + w / 2)) - max lo (min hi (c - w / 2)) := by
  unfold overlap
  have e1 : (lo + hi) / 2 + (hi - lo) / 2 = hi := by ring
  have e2 : (lo + hi) / 2 - (hi - lo) / 2 = lo := by ring
  rw [e1, e2]
  rcases le_total (c + w / 2) hi with h1 | h1 <;> rcases le_total lo (c - w / 2) with h2 | h2
  · rw [min_eq_left h1, max_eq_left h2, min_eq_right h1, min_eq_right (by linarith), max_eq_right (by linarith),
      max_eq_right (by linarith), max_eq_right h2]
  · rw [min_eq_left h1, max_eq_right h2, min_eq_right h1, min_eq_right (by linarith), max_eq_left h2]
    rcases le_total lo (c + w / 2) with h3 | h3
    · rw [max_eq_right h3, max_eq_right (by linarith)]
    · rw [max_eq_left h3, max_eq_left (by linarith)]; ring
  · rw [min_eq_right h1, max_eq_left h2, min_eq_left h1, max_eq_right hlh]
    rcases le_total hi (c - w / 2) with h3 | h3
    · rw [min_eq_left h3, max_eq_right hlh, max_eq_left (by linarith)]; ring
    · rw [min_eq_right h3, max_eq_right h2, max_eq_right (by linarith)]
  · rw [min_eq_right h1, max_eq_right h2, min_eq_left h1, max_eq_right hlh, max_eq_right (by linarith)]
    rw [min_eq_right (by linarith), max_eq_left h2]

/-- **C41** Over consecutive shells that cover the cell, the weights add up to one, for any number of shells.

Partial form of C41. Full property: The fraction of a spherical shell covered by a cell equals overlap length over
cell width, is in [0,1], and over shells covering the cell the fractions sum to one. Missing: Holds when the shell is
not wider than the cell, the case the algorithm is written for; a wider shell gets weight zero (witness
wide_shell_weight_zero). -/
theorem volIntersect_sum_partial (dr1d r dr : K) (n : ℕ) (h0 : 0 < dr1d) (h : dr1d ≤ dr)
    (hlo : -(dr1d / 2) ≤ r - dr / 2) (hhi : r + dr / 2 ≤ (n : K) * dr1d - dr1d / 2) :
    ∑ i ∈ range n, volIntersect (rad dr1d i) dr1d r dr = 1 := by
  have hdr : 0 < dr := lt_of_lt_of_le h0 h
  have e : ∀ i, volIntersect (rad dr1d i) dr1d r dr =
      (max (r - dr / 2) (min (r + dr / 2) (((i + 1 : ℕ) : K) * dr1d - dr1d / 2)) -
        max (r - dr / 2) (min (r + dr / 2) ((i : K) * dr1d - dr1d / 2))) / dr := by
    intro i
    rw [volIntersect_eq _ _ _ _ h0.le h hdr]
    have := overlap_clamp (rad dr1d i) dr1d (r - dr / 2) (r + dr / 2) h0.le (by linarith)
    rw [show (r - dr / 2 + (r + dr / 2)) / 2 = r by ring, show r + dr / 2 - (r - dr / 2) = dr by ring] at this
    rw [this]
    unfold rad
    push_cast
    rw [show (i : K) * dr1d + dr1d / 2 = ((i : K) + 1) * dr1d - dr1d / 2 by ring]
  simp only [e]
  rw [← Finset.sum_div]
  rw [Finset.sum_range_sub (fun i : ℕ => max (r - dr / 2) (min (r + dr / 2) ((i : K) * dr1d - dr1d / 2)))]
  simp only [Nat.cast_zero, zero_mul, zero_sub]
  rw [min_eq_left hhi, max_eq_right (by linarith : r - dr / 2 ≤ r + dr / 2)]
  rw [min_eq_right (by linarith), max_eq_left hlo]
  field_simp; ring

/-- **C41 fails outside its domain**: a shell wider than the cell that contains it gets weight zero, although the
overlap is the whole cell (the guard is compiled out in release builds). -/
theorem wide_shell_weight_zero (rs drs rb drb : K) (hb : 0 < drb) (hl : rs - drs / 2 < rb - drb / 2)
    (hr : rb + drb / 2 ≤ rs + drs / 2) : volIntersect rs drs rb drb = 0 ∧ overlap rs drs rb drb = drb := by
  unfold volIntersect inBounds overlap
  have e1 : (1:K) / 2 * drs = drs / 2 := by ring
  have e2 : (1:K) / 2 * drb = drb / 2 := by ring
  rw [e1, e2]
  constructor
  · simp [not_le.2 hl, not_lt.2 hr]
  · rw [min_eq_right hr, max_eq_right hl.le, max_eq_right (by linarith)]; ring

/-- Specification of the grid index: the integer part, clamped to the grid (`Spiner::RegularGrid1D::index`). -/
def IsIndex (dr1d : K) (n : ℕ) (idx : K → ℕ) : Prop :=
  ∀ x, (0 ≤ x → (idx x : K) * dr1d ≤ x) ∧ (x < 0 → idx x = 0) ∧ idx x ≤ n - 2 ∧ (idx x < n - 2 → x < ((idx x : K) + 1) * dr1d)

/-- **C41** The visited range misses no shell that overlaps the cell. -/
theorem range_complete (dr1d : K) (n : ℕ) (idx : K → ℕ) (h : IsIndex dr1d n idx) (c : Cell K) (hn : 2 ≤ n) (h0 : 0 < dr1d)
    (hd : dr1d ≤ c.dr) (i : ℕ) (hi : i < n) (hnot : i ∉ range1d n (idx (c.r - c.dr)) (idx (c.r + c.dr))) :
    volIntersect (rad dr1d i) dr1d c.r c.dr = 0 := by
  have hdr : 0 < c.dr := lt_of_lt_of_le h0 hd
  rw [volIntersect_eq _ _ _ _ h0.le hd hdr]
  have : overlap (rad dr1d i) dr1d c.r c.dr = 0 := by
    unfold overlap
    rw [max_eq_left]
    simp only [range1d, mem_Icc, not_and_or, not_le] at hnot
    rcases hnot with hlt | hgt
    · -- left of the range
      obtain ⟨a1, a2, -, -⟩ := h (c.r - c.dr)
      have hpos : 0 ≤ c.r - c.dr := by
        by_contra hneg
        rw [a2 (not_le.1 hneg)] at hlt; omega
      have h1 := a1 hpos
      have h2 : ((i : K) + 2) * dr1d ≤ (idx (c.r - c.dr) : K) * dr1d := by
        apply mul_le_mul_of_nonneg_right _ h0.le
        have : i + 2 ≤ idx (c.r - c.dr) := by omega
        exact_mod_cast this
      have m1 := min_le_left (rad dr1d i + dr1d / 2) (c.r + c.dr / 2)
      have m2 := le_max_right (rad dr1d i - dr1d / 2) (c.r - c.dr / 2)
      unfold rad at *
      linarith
    · obtain ⟨-, -, b3, b4⟩ := h (c.r + c.dr)
      have h1 : idx (c.r + c.dr) + 1 < i := by omega
      have h2 := b4 (by omega)
      have h3 : ((idx (c.r + c.dr) : K) + 2) * dr1d ≤ (i : K) * dr1d := by
        apply mul_le_mul_of_nonneg_right _ h0.le
        have : idx (c.r + c.dr) + 2 ≤ i := by omega
        exact_mod_cast this
      have m1 := min_le_right (rad dr1d i + dr1d / 2) (c.r + c.dr / 2)
      have m2 := le_max_left (rad dr1d i - dr1d / 2) (c.r - c.dr / 2)
      unfold rad at *
      linarith
  rw [this, zero_div]

/-- **C41** The total volume deposited on the 1d grid is the total volume of the cells it covers, and the total of matter
times volume is deposited too: nothing is lost or counted twice, for any collection of cells. -/
theorem deposit_conserves (dr1d : K) (n : ℕ) (hn : 2 ≤ n) (idx : K → ℕ) (h : IsIndex dr1d n idx) (h0 : 0 < dr1d)
    (cells : List (Cell K)) (hc : ∀ c ∈ cells, dr1d ≤ c.dr ∧ -(dr1d / 2) ≤ c.r - c.dr / 2 ∧
      c.r + c.dr / 2 ≤ (n : K) * dr1d - dr1d / 2) :
    ∑ i ∈ range n, vols dr1d n idx cells i = (cells.map Cell.dv).sum ∧
    ∑ i ∈ range n, matter1d dr1d n idx cells i = (cells.map fun c => c.m * c.dv).sum := by
  induction cells with
  | nil => simp [vols, matter1d]
  | cons c cs ih =>
    obtain ⟨i1, i2⟩ := ih fun c hc' => hc c (List.mem_cons_of_mem _ hc')
    obtain ⟨c1, c2, c3⟩ := hc c List.mem_cons_self
    have hw : ∀ i ∈ range n, (if i ∈ range1d n (idx (c.r - c.dr)) (idx (c.r + c.dr)) then
        volIntersect (rad dr1d i) dr1d c.r c.dr * c.dv else 0) = volIntersect (rad dr1d i) dr1d c.r c.dr * c.dv := by
      intro i hi
      split_ifs with hm
      · rfl
      · rw [range_complete dr1d n idx h c hn h0 c1 i (mem_range.1 hi) hm, zero_mul]
    have hw2 : ∀ i ∈ range n, (if i ∈ range1d n (idx (c.r - c.dr)) (idx (c.r + c.dr)) then
        c.m * (volIntersect (rad dr1d i) dr1d c.r c.dr * c.dv) else 0) =
        volIntersect (rad dr1d i) dr1d c.r c.dr * (c.m * c.dv) := by
      intro i hi
      split_ifs with hm
      · ring
      · rw [range_complete dr1d n idx h c hn h0 c1 i (mem_range.1 hi) hm, zero_mul]
    have hs := volIntersect_sum_partial dr1d c.r c.dr n h0 c1 c2 c3
    constructor
    · simp only [vols, List.map_cons, List.sum_cons] at i1 ⊢
      rw [sum_add_distrib, i1, sum_congr rfl hw, ← sum_mul, hs, one_mul]
    · simp only [matter1d, List.map_cons, List.sum_cons] at i2 ⊢
      rw [sum_add_distrib, i2, sum_congr rfl hw2, ← sum_mul, hs, one_mul]

/-- **C41** The visited range stays inside the one-dimensional arrays. -/
theorem range_in_bounds (n lo hi i : ℕ) (hn : 0 < n) (h : i ∈ range1d n lo hi) : i < n := by
  simp only [range1d, mem_Icc] at h; omega

/-- **C41** The spherical cell volume uses the exact radial integral of `r²`. -/
theorem sphVolume_exact (r sth dr dth dph : K) :
    sphVolume r sth dr dth dph = sth * dth * dph * (((r + dr / 2) ^ 3 - (r - dr / 2) ^ 3) / 3) := by
  unfold sphVolume; ring

/-- **C41** Averages: if every cell carries the same matter `m`, each 1d point touched by some volume gets back `m`
(central current and stress excepted, which are zero by construction). -/
theorem uniform_matter (dr1d m : K) (n : ℕ) (idx : K → ℕ) (cells : List (Cell K)) (hm : ∀ c ∈ cells, c.m = m)
    (zeroed : Bool) (hv : ∀ i < n, 0 < vols dr1d n idx cells i) (i : ℕ) (hi : i < n) :
    divideVols 0 zeroed (matter1d dr1d n idx cells) (vols dr1d n idx cells) i = if i = 0 ∧ zeroed = true then 0 else m := by
  have e : ∀ i, matter1d dr1d n idx cells i = m * vols dr1d n idx cells i := by
    intro i
    unfold matter1d vols
    rw [← List.sum_map_mul_left]
    congr 1
    refine List.map_congr_left fun c hc => ?_
    rw [hm c hc]; split_ifs <;> simp
  have hcell : ∀ i < n, Robust.ratio 0 (matter1d dr1d n idx cells i) |vols dr1d n idx cells i| = m := fun i hi => by
    have := hv i hi
    rw [ratio0, e, abs_of_pos this]; field_simp
  unfold divideVols
  by_cases h0 : i = 0
  · subst h0
    cases zeroed <;> simp [hcell 0 hi]
  · simp only [h0, if_false, false_and]
    rw [hcell i hi, hcell (i - 1) (by omega)]; ring

/-! ### Interpolation to the fluid grid -/

/-- **C43** Interpolation of a stored profile returns the stored value at the grid points. -/
theorem interpolate_node (n : ℕ) (mn dx : K) (A : ℕ → K) (ix : ℕ) : interpolate n mn dx A ix ((ix : K) * dx + mn) = A ix := by
  simp [interpolate]

/-- and it reproduces every quadratic exactly in every cell but (if it were ever selected) the last point. -/
theorem interpolate_quadratic (n : ℕ) (mn dx : K) (hdx : dx ≠ 0) (p q s : K) (ix : ℕ) (r : K) (hix : ix = 0 ∨ ix ≠ n - 1) :
    interpolate n mn dx (fun i => p + q * ((i : K) * dx + mn) + s * ((i : K) * dx + mn) ^ 2) ix r = p + q * r + s * r ^ 2 := by
  unfold interpolate
  rcases Nat.eq_zero_or_pos ix with h0 | h0
  · subst h0
    simp only [if_true, Nat.cast_zero, zero_add, Nat.cast_one]
    push_cast
    field_simp
    ring
  · have hne : ix ≠ n - 1 := by rcases hix with h | h; · omega
                                · exact h
    obtain ⟨m, rfl⟩ : ∃ m, ix = m + 1 := ⟨ix - 1, by omega⟩
    simp only [if_neg (Nat.succ_ne_zero m), if_neg hne, Nat.add_sub_cancel]
    push_cast
    field_simp
    ring

/-- **C43 fails for the last branch**: were the last point selected, a constant profile would not be reproduced: the one-sided
difference has weight 3 instead of 1 on the third point. -/
theorem interpolate_last_wrong (n : ℕ) (hn : 1 < n) (mn dx c : K) (hdx : dx ≠ 0) (r : K) :
    interpolate n mn dx (fun _ => c) (n - 1) r = c + c / dx * (r - (((n - 1 : ℕ) : K) * dx + mn)) := by
  unfold interpolate
  simp only [if_neg (show n - 1 ≠ 0 by omega), if_true]
  field_simp
  ring

/-! ### ADM sources -/
section ADM
open Geom
variable {G : ADM K}

/-- Specification: the unit normal `n^μ = (1, -β)/α`, `n_μ = (-α, 0, 0, 0)`. -/
def nCov (alpha : K) : Fin 4 → K := Fin.cons (-alpha) fun _ => 0
/-- see `nCov`. -/
def nCon (alpha : K) (beta : Fin 3 → K) : Fin 4 → K := Fin.cons (1 / alpha) fun i => -beta i / alpha

/-- **C43** The sources handed to the solver are the Eulerian energy density `n_μ n_ν T^{μν}`, momentum density
`-(δ^i_μ + n^i n_μ) n_ν T^{μν}` and stress `(δ^i_μ + n^i n_μ) T^{μν} g_{νj}`. -/
theorem adm_sources (alpha : K) (ha : alpha ≠ 0) (beta : Fin 3 → K) (g T : Fin 4 → Fin 4 → K)
    (hT : ∀ m n, T m n = T n m) (i j : Fin 3) :
    admRho alpha T = ∑ m, ∑ n, nCov alpha m * nCov alpha n * T m n ∧
    admS alpha beta T i =
      -∑ m, ∑ n, ((if i.succ = m then 1 else 0) + nCon alpha beta i.succ * nCov alpha m) * nCov alpha n * T m n ∧
    admStress g beta T i j =
      ∑ m, ∑ n, ((if i.succ = m then 1 else 0) + nCon alpha beta i.succ * nCov alpha m) * T m n * g j.succ n := by
  refine ⟨?_, ?_, ?_⟩
  · simp [Fin.sum_univ_succ, nCov, admRho]
  · have h0 := hT i.succ 0
    simp only [admS, nCov, nCon, Fin.sum_univ_succ (n := 3), Fin.cons_zero, Fin.cons_succ, Fin.succ_inj, Fin.succ_ne_zero,
      if_false, mul_zero, zero_mul, sum_const_zero, add_zero]
    simp only [ite_mul, one_mul, zero_mul, sum_ite_eq, mem_univ, if_true]
    rw [h0]
    field_simp
    ring
  · simp only [admStress, tConCov, nCov, nCon]
    rw [Fin.sum_univ_succ (n := 3) (f := fun m => ∑ n, _)]
    simp only [Fin.cons_zero, Fin.cons_succ, Fin.succ_inj, Fin.succ_ne_zero, if_false, mul_zero, add_zero, zero_add]
    simp only [ite_mul, one_mul, zero_mul]
    have e1 : ∀ n, ∑ x : Fin 3, (if i = x then T x.succ n * g j.succ n else 0) = T i.succ n * g j.succ n := fun n => by simp
    rw [sum_comm (s := univ) (t := univ) (f := fun x n => if i = x then T x.succ n * g j.succ n else 0)]
    simp only [e1]
    rw [mul_sum, add_comm]
    congr 1
    · exact sum_congr rfl fun n _ => by field_simp
    · exact sum_congr rfl fun n _ => by ring

/-- **C43** Changing to spherical components leaves the trace of the stress alone. -/
theorem adm_trace_invariant (c2s s2c S : Fin 3 → Fin 3 → K) (h : ∀ i j, ∑ k, s2c i k * c2s k j = if i = j then 1 else 0) :
    ∑ d, admStressSph c2s s2c S d d = ∑ d, S d d := by
  unfold admStressSph
  have h' := h
  calc ∑ d, ∑ l, ∑ m, c2s d l * s2c m d * S l m = ∑ l, ∑ m, (∑ d, s2c m d * c2s d l) * S l m := by
        rw [sum_comm]; refine sum_congr rfl fun l _ => ?_
        rw [sum_comm]; refine sum_congr rfl fun m _ => ?_
        rw [sum_mul]; exact sum_congr rfl fun d _ => by ring
    _ = _ := by simp only [h']; simp

/-- **C43** Spherical components: for the stress `p ⊗ q` of a flow of momentum `q` in direction `p` they are the spherical components of `p` times those of `q`. -/
theorem adm_dyad (c2s s2c : Fin 3 → Fin 3 → K) (p q : Fin 3 → K) (i j : Fin 3) :
    admStressSph c2s s2c (fun l m => p l * q m) i j = (∑ l, c2s i l * p l) * ∑ m, s2c m j * q m := by
  unfold admStressSph
  rw [sum_mul_sum]
  exact sum_congr rfl fun l _ => sum_congr rfl fun m _ => by ring

end ADM

/-! ### a concrete star -/

/-- five points, some matter: hypotheses of `lapse_monotone` hold. -/
theorem ex_star : Dominant (rows (0:ℚ) (22/7) (1/10) 5 (fun _ => 1) (fun _ => 0) (fun _ => 1/100) (fun _ => 1/50)) 5 := by
  refine rows_dominant (by norm_num) (by norm_num) (by norm_num) (fun _ => by norm_num) fun i h0 h1 => ?_
  have : i = 1 ∨ i = 2 ∨ i = 3 := by omega
  rcases this with rfl | rfl | rfl <;> norm_num [aRHS, Robust.ratio, Robust.sgn, rad]

theorem ex_star_lapse : 0 < lapse (0:ℚ) (22/7) (1/10) 5 (fun _ => 1) (fun _ => 0) (fun _ => 1/100) (fun _ => 1/50) 0 ∧
    lapse (0:ℚ) (22/7) (1/10) 5 (fun _ => 1) (fun _ => 0) (fun _ => 1/100) (fun _ => 1/50) 0 ≤ 1 :=
  (lapse_monotone (by norm_num) (by norm_num) ex_star).1 0 (by norm_num)

/-! ## The constraint equations -/

/-- Specification: the Hamiltonian constraint `R - K_ij K^ij = 16 π ρ` of the metric `a² dr² + r² dΩ²` with extrinsic curvature
`K^r_r = k`, `K^θ_θ = K^φ_φ = -k/2`; `a'` is `da/dr`.  The scalar curvature is `4 a'/(a³ r) + (2/r²)(1 - 1/a²)`. -/
def Hamiltonian (pi a a' k r rho : K) : Prop :=
  (4 * a' / (a ^ 3 * r) + 2 / r ^ 2 * (1 - 1 / a ^ 2)) - (k ^ 2 + 2 * (k / 2) ^ 2) = 16 * pi * rho

/-- Specification: the momentum constraint `D_j K^j_r = 8 π j_r`, with `j_r = a² j`. -/
def Momentum (pi a k k' r j : K) : Prop := k' + 2 / r * (k - -(k / 2)) = 8 * pi * (a ^ 2 * j)

/-- **C80** The right-hand sides integrated outwards are the constraint equations of general relativity, solved for the
derivatives: they are the only derivatives satisfying the constraints. -/
theorem rhs_constraints (pi a k r rho j x y : K) (ha : a ≠ 0) (hr : 0 < r) :
    (Hamiltonian pi a x k r rho ↔ x = aRHS 0 pi a k r rho) ∧ (Momentum pi a k y r j ↔ y = kRHS 0 pi a k r j) := by
  have hr' := hr.ne'
  have h8 : (8:K) ≠ 0 := by norm_num
  constructor
  · unfold Hamiltonian aRHS
    rw [if_pos hr, one_mul, ratio0]
    constructor
    · intro h
      field_simp at h
      field_simp
      linarith
    · rintro rfl
      field_simp
      ring
  · unfold Momentum kRHS
    rw [if_pos hr, one_mul, ratio0]
    constructor
    · intro h
      have : y = 8 * pi * (a ^ 2 * j) - 2 / r * (k - -(k / 2)) := by linarith
      rw [this]; field_simp; ring
    · rintro rfl
      field_simp; ring

/-- **C80** One step of the outward integration is the midpoint rule for the constraint equations: the half-step values have the
slopes the constraints demand at the start, and the full step has the slopes the constraints demand of the half-step values
with the matter averaged over the step (at the radius of the start of the step). -/
theorem step_is_midpoint (pi dr : K) (hdr : 0 < dr) (rho j : ℕ → K) (i : ℕ) (hi : 0 < i) (s : K × K) (h0 : s.1 ≠ 0) :
    let t := hyperStep 0 pi dr rho j i s
    ∃ a k : K, Hamiltonian pi s.1 ((a - s.1) / (dr / 2)) s.2 (rad dr i) (rho i) ∧
      Momentum pi s.1 s.2 ((k - s.2) / (dr / 2)) (rad dr i) (j i) ∧
      (a ≠ 0 → Hamiltonian pi a ((t.1 - s.1) / dr) k (rad dr i) ((rho i + rho (i + 1)) / 2) ∧
        Momentum pi a k ((t.2 - s.2) / dr) (rad dr i) ((j i + j (i + 1)) / 2)) := by
  intro t
  have hr : 0 < rad dr i := by unfold rad; have : (0:K) < i := by exact_mod_cast hi
                               positivity
  have hd' := hdr.ne'
  refine ⟨s.1 + 1 / 2 * dr * aRHS 0 pi s.1 s.2 (rad dr i) (rho i), s.2 + 1 / 2 * dr * kRHS 0 pi s.1 s.2 (rad dr i) (j i),
    ?_, ?_, fun h => ⟨?_, ?_⟩⟩
  · rw [(rhs_constraints pi s.1 s.2 _ (rho i) 0 _ 0 h0 hr).1]; field_simp; ring
  · rw [(rhs_constraints pi s.1 s.2 _ 0 (j i) 0 _ h0 hr).2]; field_simp; ring
  · rw [(rhs_constraints pi _ _ _ _ 0 _ 0 h hr).1]
    simp only [t, hyperStep]
    rw [show (rho i + rho (i + 1)) / 2 = 1 / 2 * (rho i + rho (i + 1)) by ring]
    field_simp; ring
  · rw [(rhs_constraints pi _ _ _ 0 _ 0 _ h hr).2]
    simp only [t, hyperStep]
    rw [show (j i + j (i + 1)) / 2 = 1 / 2 * (j i + j (i + 1)) by ring]
    field_simp; ring

/-- **C80** the radial derivatives handed to the rest of the code are those the constraints demand, up to the regularisation of the divisions: a relative
error `small / (8 r)` of the first, and an absolute one of `small / r` times the term `3 K / r` of the second. -/
theorem device_constraints (small pi dr cut : K) (hs : 0 < small) (hdr : 0 < dr) (n : ℕ) (a k al rho j S Srr : ℕ → K) (i : ℕ) (hi : 0 < i) (ha : a i ≠ 0) (x y : K)
    (hx : Hamiltonian pi (a i) x (k i) (rad dr i) (rho i)) (hy : Momentum pi (a i) (k i) y (rad dr i) (j i)) :
    let gr := toDevice small pi dr cut n false a k al rho j S Srr i
    |gr.dadr - x| ≤ |x| * (small / (8 * rad dr i)) ∧ |gr.dKdr - y| ≤ |3 * k i / rad dr i| * (small / rad dr i) := by
  intro gr
  have hr : 0 < rad dr i := by
    unfold rad
    have : (0:K) < i := by exact_mod_cast hi
    positivity
  have h8 : 0 < 8 * rad dr i := by positivity
  rw [(rhs_constraints pi _ _ _ _ 0 _ 0 ha hr).1] at hx
  rw [(rhs_constraints pi _ _ _ 0 _ 0 _ ha hr).2] at hy
  constructor
  · have e : gr.dadr = aRHS small pi (a i) (k i) (rad dr i) (rho i) := by simp [gr, toDevice]
    have := (Robust.ratio_approximates small (a i * (4 + a i * a i * (-4 + rad dr i * rad dr i * (3 * k i * k i + 32 * pi * rho i)))) (8 * rad dr i) hs h8.ne').1
    rw [e, hx]
    unfold aRHS
    rw [if_pos hr, one_mul, one_mul, ratio0]
    rwa [abs_of_pos h8] at this
  · have e : gr.dKdr = kRHS small pi (a i) (k i) (rad dr i) (j i) := by simp [gr, toDevice]
    have := (Robust.ratio_approximates small (3 * k i) (rad dr i) hs hr.ne').1
    rw [e, hy]
    unfold kRHS
    rw [if_pos hr, one_mul, one_mul, ratio0, sub_sub_sub_cancel_left, abs_sub_comm]
    rwa [abs_of_pos hr] at this

example : (hyperStep (0:ℚ) 3 (1/10) (fun _ => 1) (fun _ => 1) 1 (1, 0)).1 ≠ 1 ∧
    (hyperStep (0:ℚ) 3 (1/10) (fun _ => 1) (fun _ => 1) 1 (1, 0)).2 ≠ 0 := by
  norm_num [hyperStep, aRHS, kRHS, rad, Robust.ratio, Robust.sgn]

end Phoebus.Monopole
