import Verif.KdGrid.Model
import Verif.GeomUtils.Props
import Mathlib.MeasureTheory.Integral.IntervalIntegral.FundThmCalculus
import Mathlib.Analysis.SpecialFunctions.Integrals.Basic

/-!
# C50: angular quadrature
-/
namespace Phoebus.KdGrid
open GeomUtils intervalIntegral

/-- Specification: the direction with polar cosine `1 - xi` about the first axis and azimuth `phi`. -/
noncomputable def dir (xi phi : ℝ) : Fin 3 → ℝ :=
  ![1 - xi, Real.sqrt (1 - (1 - xi) ^ 2) * Real.cos phi, Real.sqrt (1 - (1 - xi) ^ 2) * Real.sin phi]

/-- every direction is a unit vector. -/
theorem dir_unit (xi phi : ℝ) (h0 : 0 ≤ xi) (h2 : xi ≤ 2) : ∑ i, dir xi phi i ^ 2 = 1 := by
  have h : 0 ≤ 1 - (1 - xi) ^ 2 := by nlinarith
  have hs := Real.sin_sq_add_cos_sq phi
  simp only [dir, Fin.sum_univ_three, Matrix.cons_val_zero, Matrix.cons_val_one, Matrix.cons_val_two, Matrix.tail_cons, Matrix.head_cons]
  rw [mul_pow, mul_pow, Real.sq_sqrt h]
  linear_combination (1 - (1 - xi) ^ 2) * hs

/-- Specification: the integral of `n_i n_j` over the angular cell (`d Omega = d xi d phi`). -/
noncomputable def cellIntegral (xi0 xi1 phi0 phi1 : ℝ) (i j : Fin 3) : ℝ :=
  ∫ phi in phi0..phi1, ∫ xi in xi0..xi1, dir xi phi i * dir xi phi j

/-- the index of component `(i,j)` in the array. -/
def slot (i j : Fin 3) : ℕ := flatten2 i.castSucc j.castSucc

theorem quad_values (xi0 xi1 phi0 phi1 : ℝ) (old : ℕ → ℝ) :
    quad xi0 xi1 phi0 phi1 old (slot 0 0) = (phi1 - phi0) * (((1 - xi0) ^ 3 - (1 - xi1) ^ 3) / 3) ∧
    quad xi0 xi1 phi0 phi1 old (slot 0 1) = (Real.sin phi1 - Real.sin phi0) *
      ((Real.sqrt (1 - (1 - xi1) ^ 2) ^ 3 - Real.sqrt (1 - (1 - xi0) ^ 2) ^ 3) / 3) ∧
    quad xi0 xi1 phi0 phi1 old (slot 0 2) = (Real.cos phi0 - Real.cos phi1) *
      ((Real.sqrt (1 - (1 - xi1) ^ 2) ^ 3 - Real.sqrt (1 - (1 - xi0) ^ 2) ^ 3) / 3) ∧
    quad xi0 xi1 phi0 phi1 old (slot 1 1) = ((phi1 - phi0) + (Real.cos phi1 * Real.sin phi1 - Real.cos phi0 * Real.sin phi0)) / 2 *
      ((xi1 - xi0) - ((1 - xi0) ^ 3 - (1 - xi1) ^ 3) / 3) ∧
    quad xi0 xi1 phi0 phi1 old (slot 1 2) = (Real.cos phi0 ^ 2 - Real.cos phi1 ^ 2) / 2 *
      ((xi1 - xi0) - ((1 - xi0) ^ 3 - (1 - xi1) ^ 3) / 3) ∧
    quad xi0 xi1 phi0 phi1 old (slot 2 2) = ((phi1 - phi0) - (Real.cos phi1 * Real.sin phi1 - Real.cos phi0 * Real.sin phi0)) / 2 *
      ((xi1 - xi0) - ((1 - xi0) ^ 3 - (1 - xi1) ^ 3) / 3) := by
  have e : ∀ x : ℝ, (1.0 : ℝ) - (1.0 - x) * (1.0 - x) = 1 - (1 - x) ^ 2 := by intro x; norm_num; ring
  have s00 : flatten2 0 0 = 0 := by decide
  have s01 : flatten2 0 1 = 1 := by decide
  have s11 : flatten2 1 1 = 2 := by decide
  have s02 : flatten2 0 2 = 3 := by decide
  have s12 : flatten2 1 2 = 4 := by decide
  have s22 : flatten2 2 2 = 5 := by decide
  have t00 : slot 0 0 = 0 := by decide
  have t01 : slot 0 1 = 1 := by decide
  have t11 : slot 1 1 = 2 := by decide
  have t02 : slot 0 2 = 3 := by decide
  have t12 : slot 1 2 = 4 := by decide
  have t22 : slot 2 2 = 5 := by decide
  simp only [quad, e, s00, s01, s11, s02, s12, s22, t00, t01, t11, t02, t12, t22, Function.update_apply]
  norm_num
  refine ⟨by ring, by ring, by ring, by ring, by ring, by ring⟩

theorem int_sq (a b : ℝ) : ∫ x in a..b, (1 - x) ^ 2 = ((1 - a) ^ 3 - (1 - b) ^ 3) / 3 := by
  have h : ∀ x ∈ Set.uIcc a b, HasDerivAt (fun x : ℝ => -(1 - x) ^ 3 / 3) ((1 - x) ^ 2) x := by
    intro x _
    have h1 : HasDerivAt (fun x : ℝ => 1 - x) (-1) x := by simpa using (hasDerivAt_id x).const_sub 1
    exact ((h1.pow 3).neg.div_const 3).congr_deriv (by norm_num)
  rw [integral_eq_sub_of_hasDerivAt h (by apply Continuous.intervalIntegrable; fun_prop)]
  ring

theorem int_one_sub_sq (a b : ℝ) : ∫ x in a..b, (1 - (1 - x) ^ 2) = (b - a) - ((1 - a) ^ 3 - (1 - b) ^ 3) / 3 := by
  rw [integral_sub (by simp) (by apply Continuous.intervalIntegrable; fun_prop), int_sq]; simp

theorem int_cross (a b : ℝ) (h0 : 0 ≤ a) (hab : a ≤ b) (h2 : b ≤ 2) :
    ∫ x in a..b, (1 - x) * Real.sqrt (1 - (1 - x) ^ 2) = (Real.sqrt (1 - (1 - b) ^ 2) ^ 3 - Real.sqrt (1 - (1 - a) ^ 2) ^ 3) / 3 := by
  have hc : Continuous (fun x : ℝ => Real.sqrt (1 - (1 - x) ^ 2)) := by fun_prop
  have h : ∀ x ∈ Set.Ioo a b, HasDerivAt (fun x : ℝ => Real.sqrt (1 - (1 - x) ^ 2) ^ 3 / 3) ((1 - x) * Real.sqrt (1 - (1 - x) ^ 2)) x := by
    intro x hx
    have hpos : 0 < 1 - (1 - x) ^ 2 := by nlinarith [hx.1, hx.2]
    have h1 : HasDerivAt (fun x : ℝ => 1 - x) (-1) x := by simpa using (hasDerivAt_id x).const_sub 1
    have h3 : HasDerivAt (fun x : ℝ => 1 - (1 - x) ^ 2) (2 * (1 - x)) x := ((h1.pow 2).const_sub 1).congr_deriv (by norm_num)
    have h4 := h3.sqrt hpos.ne'
    have hs : Real.sqrt (1 - (1 - x) ^ 2) ≠ 0 := (Real.sqrt_pos.2 hpos).ne'
    refine ((h4.pow 3).div_const 3).congr_deriv ?_
    field_simp
    norm_num
    ring
  rw [integral_eq_sub_of_hasDerivAt_of_le hab (by fun_prop : Continuous (fun x : ℝ => Real.sqrt (1 - (1 - x) ^ 2) ^ 3 / 3)).continuousOn h
    (by apply Continuous.intervalIntegrable; fun_prop)]
  ring

theorem int_cos_sq (a b : ℝ) : ∫ x in a..b, Real.cos x ^ 2 = ((b - a) + (Real.cos b * Real.sin b - Real.cos a * Real.sin a)) / 2 := by
  rw [integral_cos_sq]; ring

theorem int_sin_sq (a b : ℝ) : ∫ x in a..b, Real.sin x ^ 2 = ((b - a) - (Real.cos b * Real.sin b - Real.cos a * Real.sin a)) / 2 := by
  rw [integral_sin_sq]; ring

theorem int_sin_cos (a b : ℝ) : ∫ x in a..b, Real.cos x * Real.sin x = (Real.cos a ^ 2 - Real.cos b ^ 2) / 2 := by
  have h : ∀ x ∈ Set.uIcc a b, HasDerivAt (fun x : ℝ => -Real.cos x ^ 2 / 2) (Real.cos x * Real.sin x) x := by
    intro x _
    exact (((Real.hasDerivAt_cos x).pow 2).neg.div_const 2).congr_deriv (by norm_num; ring)
  rw [integral_eq_sub_of_hasDerivAt h (by apply Continuous.intervalIntegrable; fun_prop)]
  ring

/-- **C50** Every weight is the exact integral of `n_i n_j` over the angular cell: for every cell, every component. -/
theorem quad_exact (xi0 xi1 phi0 phi1 : ℝ) (h0 : 0 ≤ xi0) (hab : xi0 ≤ xi1) (h2 : xi1 ≤ 2) (old : ℕ → ℝ) (i j : Fin 3) :
    quad xi0 xi1 phi0 phi1 old (slot i j) = cellIntegral xi0 xi1 phi0 phi1 i j := by
  obtain ⟨q00, q01, q02, q11, q12, q22⟩ := quad_values xi0 xi1 phi0 phi1 old
  have hsq : ∀ x ∈ Set.uIcc xi0 xi1, Real.sqrt (1 - (1 - x) ^ 2) * Real.sqrt (1 - (1 - x) ^ 2) = 1 - (1 - x) ^ 2 := by
    intro x hx
    rw [Set.uIcc_of_le hab] at hx
    exact Real.mul_self_sqrt (by nlinarith [hx.1, hx.2])
  have isq : ∫ x in xi0..xi1, Real.sqrt (1 - (1 - x) ^ 2) * Real.sqrt (1 - (1 - x) ^ 2) = (xi1 - xi0) - ((1 - xi0) ^ 3 - (1 - xi1) ^ 3) / 3 := by
    rw [integral_congr hsq, int_one_sub_sq]
  have c00 : cellIntegral xi0 xi1 phi0 phi1 0 0 = (phi1 - phi0) * (((1 - xi0) ^ 3 - (1 - xi1) ^ 3) / 3) := by
    simp only [cellIntegral, dir, Matrix.cons_val_zero, ← sq]
    rw [int_sq, integral_const, smul_eq_mul]
  have c01 : cellIntegral xi0 xi1 phi0 phi1 0 1 = (Real.sin phi1 - Real.sin phi0) *
      ((Real.sqrt (1 - (1 - xi1) ^ 2) ^ 3 - Real.sqrt (1 - (1 - xi0) ^ 2) ^ 3) / 3) := by
    have : ∀ phi, ∫ xi in xi0..xi1, dir xi phi 0 * dir xi phi 1 = Real.cos phi * ((Real.sqrt (1 - (1 - xi1) ^ 2) ^ 3 - Real.sqrt (1 - (1 - xi0) ^ 2) ^ 3) / 3) := by
      intro phi
      rw [← int_cross xi0 xi1 h0 hab h2, ← integral_const_mul]
      congr 1; funext x; simp [dir]; ring
    simp only [cellIntegral, this]
    rw [integral_mul_const, integral_cos]
  have c02 : cellIntegral xi0 xi1 phi0 phi1 0 2 = (Real.cos phi0 - Real.cos phi1) *
      ((Real.sqrt (1 - (1 - xi1) ^ 2) ^ 3 - Real.sqrt (1 - (1 - xi0) ^ 2) ^ 3) / 3) := by
    have : ∀ phi, ∫ xi in xi0..xi1, dir xi phi 0 * dir xi phi 2 = Real.sin phi * ((Real.sqrt (1 - (1 - xi1) ^ 2) ^ 3 - Real.sqrt (1 - (1 - xi0) ^ 2) ^ 3) / 3) := by
      intro phi
      rw [← int_cross xi0 xi1 h0 hab h2, ← integral_const_mul]
      congr 1; funext x; simp [dir]; ring
    simp only [cellIntegral, this]
    rw [integral_mul_const, integral_sin]
  have c11 : cellIntegral xi0 xi1 phi0 phi1 1 1 = ((phi1 - phi0) + (Real.cos phi1 * Real.sin phi1 - Real.cos phi0 * Real.sin phi0)) / 2 *
      ((xi1 - xi0) - ((1 - xi0) ^ 3 - (1 - xi1) ^ 3) / 3) := by
    have : ∀ phi, ∫ xi in xi0..xi1, dir xi phi 1 * dir xi phi 1 = Real.cos phi ^ 2 * ((xi1 - xi0) - ((1 - xi0) ^ 3 - (1 - xi1) ^ 3) / 3) := by
      intro phi
      rw [← isq, ← integral_const_mul]
      congr 1; funext x; simp only [dir, Matrix.cons_val_one, Matrix.cons_val_zero]; ring
    simp only [cellIntegral, this]
    rw [integral_mul_const, int_cos_sq]
  have c12 : cellIntegral xi0 xi1 phi0 phi1 1 2 = (Real.cos phi0 ^ 2 - Real.cos phi1 ^ 2) / 2 *
      ((xi1 - xi0) - ((1 - xi0) ^ 3 - (1 - xi1) ^ 3) / 3) := by
    have : ∀ phi, ∫ xi in xi0..xi1, dir xi phi 1 * dir xi phi 2 = (Real.cos phi * Real.sin phi) * ((xi1 - xi0) - ((1 - xi0) ^ 3 - (1 - xi1) ^ 3) / 3) := by
      intro phi
      rw [← isq, ← integral_const_mul]
      congr 1; funext x
      show Real.sqrt (1 - (1 - x) ^ 2) * Real.cos phi * (Real.sqrt (1 - (1 - x) ^ 2) * Real.sin phi) = _
      ring
    simp only [cellIntegral, this]
    rw [integral_mul_const, int_sin_cos]
  have c22 : cellIntegral xi0 xi1 phi0 phi1 2 2 = ((phi1 - phi0) - (Real.cos phi1 * Real.sin phi1 - Real.cos phi0 * Real.sin phi0)) / 2 *
      ((xi1 - xi0) - ((1 - xi0) ^ 3 - (1 - xi1) ^ 3) / 3) := by
    have : ∀ phi, ∫ xi in xi0..xi1, dir xi phi 2 * dir xi phi 2 = Real.sin phi ^ 2 * ((xi1 - xi0) - ((1 - xi0) ^ 3 - (1 - xi1) ^ 3) / 3) := by
      intro phi
      rw [← isq, ← integral_const_mul]
      congr 1; funext x
      show Real.sqrt (1 - (1 - x) ^ 2) * Real.sin phi * (Real.sqrt (1 - (1 - x) ^ 2) * Real.sin phi) = _
      ring
    simp only [cellIntegral, this]
    rw [integral_mul_const, int_sin_sq]
  have sym : ∀ a b, cellIntegral xi0 xi1 phi0 phi1 a b = cellIntegral xi0 xi1 phi0 phi1 b a := by
    intro a b; simp only [cellIntegral, mul_comm (dir _ _ a)]
  have ssym : ∀ a b : Fin 3, slot a b = slot b a := fun a b => flatten2_symm _ _
  have hall : ∀ a b : Fin 3, a ≤ b → quad xi0 xi1 phi0 phi1 old (slot a b) = cellIntegral xi0 xi1 phi0 phi1 a b := by
    intro a b hle
    have ha : a = 0 ∨ a = 1 ∨ a = 2 := by omega
    have hb : b = 0 ∨ b = 1 ∨ b = 2 := by omega
    rcases ha with rfl | rfl | rfl <;> rcases hb with rfl | rfl | rfl
    · rw [q00, c00]
    · rw [q01, c01]
    · rw [q02, c02]
    · exact absurd hle (by decide)
    · rw [q11, c11]
    · rw [q12, c12]
    · exact absurd hle (by decide)
    · exact absurd hle (by decide)
    · rw [q22, c22]
  rcases le_total i j with h | h
  · exact hall i j h
  · rw [ssym, sym]; exact hall j i h

/-- **C50** The trace of the weights is the solid angle of the cell. -/
theorem quad_trace (xi0 xi1 phi0 phi1 : ℝ) (old : ℕ → ℝ) :
    ∑ i, quad xi0 xi1 phi0 phi1 old (slot i i) = (xi1 - xi0) * (phi1 - phi0) := by
  obtain ⟨q00, _, _, q11, _, q22⟩ := quad_values xi0 xi1 phi0 phi1 old
  rw [Fin.sum_univ_three, q00, q11, q22]; ring

/-- **C50** The weights are additive under subdivision, in polar angle and in azimuth. -/
theorem quad_additive (xi0 xi1 xi2 phi0 phi1 phi2 : ℝ) (old old' old'' : ℕ → ℝ) (i j : Fin 3) :
    quad xi0 xi2 phi0 phi1 old (slot i j) = quad xi0 xi1 phi0 phi1 old' (slot i j) + quad xi1 xi2 phi0 phi1 old'' (slot i j) ∧
    quad xi0 xi1 phi0 phi2 old (slot i j) = quad xi0 xi1 phi0 phi1 old' (slot i j) + quad xi0 xi1 phi1 phi2 old'' (slot i j) := by
  have ssym : ∀ a b : Fin 3, slot a b = slot b a := fun a b => flatten2_symm _ _
  have hall : ∀ a b : Fin 3, a ≤ b → quad xi0 xi2 phi0 phi1 old (slot a b) = quad xi0 xi1 phi0 phi1 old' (slot a b) + quad xi1 xi2 phi0 phi1 old'' (slot a b) ∧
      quad xi0 xi1 phi0 phi2 old (slot a b) = quad xi0 xi1 phi0 phi1 old' (slot a b) + quad xi0 xi1 phi1 phi2 old'' (slot a b) := by
    intro a b hle
    obtain ⟨a00, a01, a02, a11, a12, a22⟩ := quad_values xi0 xi2 phi0 phi1 old
    obtain ⟨b00, b01, b02, b11, b12, b22⟩ := quad_values xi0 xi1 phi0 phi1 old'
    obtain ⟨c00, c01, c02, c11, c12, c22⟩ := quad_values xi1 xi2 phi0 phi1 old''
    obtain ⟨d00, d01, d02, d11, d12, d22⟩ := quad_values xi0 xi1 phi0 phi2 old
    obtain ⟨e00, e01, e02, e11, e12, e22⟩ := quad_values xi0 xi1 phi1 phi2 old''
    have ha : a = 0 ∨ a = 1 ∨ a = 2 := by omega
    have hb : b = 0 ∨ b = 1 ∨ b = 2 := by omega
    rcases ha with rfl | rfl | rfl <;> rcases hb with rfl | rfl | rfl
    · rw [a00, b00, c00, d00, e00]; constructor <;> ring
    · rw [a01, b01, c01, d01, e01]; constructor <;> ring
    · rw [a02, b02, c02, d02, e02]; constructor <;> ring
    · exact absurd hle (by decide)
    · rw [a11, b11, c11, d11, e11]; constructor <;> ring
    · rw [a12, b12, c12, d12, e12]; constructor <;> ring
    · exact absurd hle (by decide)
    · exact absurd hle (by decide)
    · rw [a22, b22, c22, d22, e22]; constructor <;> ring
  rcases le_total i j with h | h
  · exact hall i j h
  · rw [ssym]; exact hall j i h

/-- **C50** Any subdivision of the azimuth into `n` cells sums to the weight of the whole. -/
theorem quad_partition (xi0 xi1 : ℝ) (phi : ℕ → ℝ) (old : ℕ → ℝ) (n : ℕ) (i j : Fin 3) :
    ∑ k ∈ Finset.range n, quad xi0 xi1 (phi k) (phi (k + 1)) old (slot i j) = quad xi0 xi1 (phi 0) (phi n) old (slot i j) := by
  induction n with
  | zero =>
    have h := (quad_additive xi0 xi1 xi1 (phi 0) (phi 0) (phi 0) old old old i j).2
    simp only [Finset.range_zero, Finset.sum_empty]
    linarith
  | succ n ih =>
    rw [Finset.sum_range_succ, ih]
    exact ((quad_additive xi0 xi1 xi1 (phi 0) (phi n) (phi (n + 1)) old old old i j).2).symm

/-- **C50** Over the whole sphere the weights are `4 pi / 3` times the identity. -/
theorem quad_sphere (old : ℕ → ℝ) (i j : Fin 3) : quad 0 2 0 (2 * Real.pi) old (slot i j) = if i = j then 4 * Real.pi / 3 else 0 := by
  obtain ⟨q00, q01, q02, q11, q12, q22⟩ := quad_values 0 2 0 (2 * Real.pi) old
  have ssym : ∀ a b : Fin 3, slot a b = slot b a := fun a b => flatten2_symm _ _
  have hall : ∀ a b : Fin 3, a ≤ b → quad 0 2 0 (2 * Real.pi) old (slot a b) = if a = b then 4 * Real.pi / 3 else 0 := by
    intro a b hle
    have ha : a = 0 ∨ a = 1 ∨ a = 2 := by omega
    have hb : b = 0 ∨ b = 1 ∨ b = 2 := by omega
    rcases ha with rfl | rfl | rfl <;> rcases hb with rfl | rfl | rfl
    · rw [q00, if_pos rfl]; norm_num; ring
    · rw [q01, if_neg (by decide)]; simp
    · rw [q02, if_neg (by decide)]; simp
    · exact absurd hle (by decide)
    · rw [q11, if_pos rfl]; simp; norm_num; ring
    · rw [q12, if_neg (by decide)]; simp
    · exact absurd hle (by decide)
    · exact absurd hle (by decide)
    · rw [q22, if_pos rfl]; simp; norm_num; ring
  rcases le_total i j with h | h
  · exact hall i j h
  · rw [ssym, hall j i h]; simp only [eq_comm]

end Phoebus.KdGrid
