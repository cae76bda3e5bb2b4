import Verif.Geom.ADM
import Mathlib.LinearAlgebra.Matrix.NonsingularInverse
import Mathlib.Analysis.Calculus.FDeriv.Mul
import Mathlib.Analysis.Calculus.FDeriv.Add
import Mathlib.Analysis.SpecialFunctions.Sqrt
import Mathlib.Analysis.Matrix.PosDef

/-!
# Determinants of the metric

Textbook facts (no code is modelled here): the derivative of a determinant, `det g = -α² det γ`, and `∂√-g = ½ √-g g^{ab} ∂g_{ab}`.
-/
namespace Phoebus.Geom
open Finset Matrix

variable {Z : Type*} [NormedAddCommGroup Z] [NormedSpace ℝ Z] {z : Z}

theorem det_updateCol {n : ℕ} (A : Matrix (Fin n) (Fin n) ℝ) (j : Fin n) (c : Fin n → ℝ) : (A.updateCol j c).det = ∑ i, A.adjugate j i * c i := by
  rw [← cramer_apply, cramer_eq_adjugate_mulVec]
  rfl

/-- Jacobi's formula. -/
theorem det_deriv {n : ℕ} (A : Z → Matrix (Fin n) (Fin n) ℝ) (A' : Fin n → Fin n → Z →L[ℝ] ℝ) (h : ∀ i j, HasFDerivAt (fun x => A x i j) (A' i j) z) :
    HasFDerivAt (fun x => (A x).det) (∑ j, ∑ i, (A z).adjugate j i • A' i j) z := by
  have e : (fun x => (A x).det) = fun x => ∑ σ : Equiv.Perm (Fin n), ((Equiv.Perm.sign σ : ℤ) : ℝ) * ∏ i, A x (σ i) i := by
    funext x; rw [det_apply']
  rw [e]
  have h1 := HasFDerivAt.fun_sum (u := univ) fun (σ : Equiv.Perm (Fin n)) _ =>
    (HasFDerivAt.finsetProd (u := univ) fun i _ => h (σ i) i).const_mul ((Equiv.Perm.sign σ : ℤ) : ℝ)
  refine h1.congr_fderiv ?_
  ext v
  have key : ∀ j, ∑ i, (A z).adjugate j i * A' i j v = ∑ σ : Equiv.Perm (Fin n), ((Equiv.Perm.sign σ : ℤ) : ℝ) * ((∏ i ∈ univ.erase j, A z (σ i) i) * A' (σ j) j v) := by
    intro j
    rw [← det_updateCol (A z) j fun i => A' i j v, det_apply']
    refine sum_congr rfl fun σ _ => ?_
    congr 1
    rw [← mul_prod_erase univ _ (mem_univ j), updateCol_self, mul_comm]
    congr 1
    exact prod_congr rfl fun i hi => by rw [updateCol_ne (ne_of_mem_erase hi)]
  simp only [_root_.sum_apply, _root_.smul_apply, smul_eq_mul, key]
  rw [sum_comm]
  exact sum_congr rfl fun σ _ => by rw [mul_sum]

/-- `det g = -α² det γ`. -/
theorem det_g4 (G : ADM ℝ) (h : G.Valid) : (Matrix.of G.g4).det = -G.alpha ^ 2 * (Matrix.of G.gam).det := by
  have e : Matrix.of G.g4 = !![G.g4 0 0, G.betaCov 0, G.betaCov 1, G.betaCov 2; G.betaCov 0, G.gam 0 0, G.gam 0 1, G.gam 0 2; G.betaCov 1, G.gam 1 0, G.gam 1 1, G.gam 1 2;
      G.betaCov 2, G.gam 2 0, G.gam 2 1, G.gam 2 2] := by
    ext i j
    fin_cases i <;> fin_cases j <;> rfl
  rw [e, det_fin_three, det_succ_row_zero]
  simp only [Fin.sum_univ_succ, det_fin_three, submatrix_apply, of_apply, ADM.g4_00, ADM.betaCov, ADM.dot3, Fin.succAbove]
  have a := h.symm 1 0
  have b := h.symm 2 0
  have c := h.symm 2 1
  simp [Fin.sum_univ_three, a, b, c, Fin.lt_def]
  ring

theorem det_gam_pos (G : ADM ℝ) (h : G.Valid) (hp : ∀ v : Fin 3 → ℝ, 0 ≤ G.dot3 v v) : 0 < (Matrix.of G.gam).det := by
  have h0 : 0 ≤ (Matrix.of G.gam).det := by
    refine (PosSemidef.of_dotProduct_mulVec_nonneg (Matrix.IsHermitian.ext fun i j => ?_) fun v => ?_).det_nonneg
    · simp only [of_apply, star_trivial]; exact h.symm j i
    · refine le_of_le_of_eq (hp v) ?_
      simp only [ADM.dot3, dotProduct, mulVec, of_apply, Pi.star_apply, star_trivial, mul_sum]
      exact sum_congr rfl fun i _ => sum_congr rfl fun j _ => by ring
  refine lt_of_le_of_ne h0 fun hz => ?_
  have h1 : Matrix.of G.gam * Matrix.of G.gamInv = 1 := by
    ext i j
    rw [mul_apply, one_apply]
    exact h.inv i j
  have h2 := congrArg Matrix.det h1
  rw [det_mul, ← hz, zero_mul, det_one] at h2
  exact zero_ne_one h2

/-- `√-det g = α √det γ`. -/
theorem sqrt_det_g4 (G : ADM ℝ) (h : G.Valid) (ha : 0 < G.alpha) : √(-(Matrix.of G.g4).det) = G.alpha * √(Matrix.of G.gam).det := by
  rw [det_g4 G h, neg_mul, neg_neg, Real.sqrt_mul (sq_nonneg _), Real.sqrt_sq ha.le]

theorem adjugate_g4 (G : ADM ℝ) (h : G.Valid) (i j : Fin 4) : (Matrix.of G.g4).adjugate i j = (Matrix.of G.g4).det * G.g4Inv i j := by
  have h1 : Matrix.of G.g4Inv * Matrix.of G.g4 = 1 := by
    ext i j
    rw [mul_apply, one_apply]
    exact ADM.g4Inv_mul h i j
  have h2 : (Matrix.of G.g4).adjugate = (Matrix.of G.g4).det • Matrix.of G.g4Inv := by
    calc (Matrix.of G.g4).adjugate = Matrix.of G.g4Inv * Matrix.of G.g4 * (Matrix.of G.g4).adjugate := by rw [h1, Matrix.one_mul]
      _ = _ := by rw [Matrix.mul_assoc, mul_adjugate, Matrix.mul_smul, Matrix.mul_one]
  rw [h2]; rfl

/-- `∂√-g = ½ √-g g^{ba} ∂g_{ab}`. -/
theorem sqrt_det_deriv (G : Z → ADM ℝ) (g' : Fin 4 → Fin 4 → Z →L[ℝ] ℝ) (hV : (G z).Valid) (hp : ∀ v : Fin 3 → ℝ, 0 ≤ (G z).dot3 v v)
    (h : ∀ a b, HasFDerivAt (fun x => (G x).g4 a b) (g' a b) z) :
    HasFDerivAt (fun x => √(-(Matrix.of (G x).g4).det)) ((√(-(Matrix.of (G z).g4).det) / 2) • ∑ b, ∑ a, (G z).g4Inv b a • g' a b) z := by
  have h1 := det_deriv (fun x => Matrix.of (G x).g4) g' h
  have hneg : 0 < -(Matrix.of (G z).g4).det := by
    rw [det_g4 _ hV]
    have := mul_pos (pow_pos (abs_pos.2 hV.alpha_ne) 2) (det_gam_pos _ hV hp)
    rw [sq_abs] at this
    linarith
  have h2 := h1.neg.sqrt hneg.ne'
  refine h2.congr_fderiv ?_
  have hs := (Real.sqrt_pos.2 hneg).ne'
  have hsq : √(-(Matrix.of (G z).g4).det) * √(-(Matrix.of (G z).g4).det) = -(Matrix.of (G z).g4).det := Real.mul_self_sqrt hneg.le
  ext v
  simp only [adjugate_g4 _ hV, mul_smul, ← smul_sum, _root_.smul_apply, smul_eq_mul, _root_.neg_apply]
  generalize (∑ b, ∑ a, (G z).g4Inv b a • g' a b) v = y
  have e : (Matrix.of (G z).g4).det = -(√(-(Matrix.of (G z).g4).det) * √(-(Matrix.of (G z).g4).det)) := by rw [hsq, neg_neg]
  generalize √(-(Matrix.of (G z).g4).det) = s at *
  rw [e]
  field_simp

end Phoebus.Geom
