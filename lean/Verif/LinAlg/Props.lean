import Verif.LinAlg.Model
import Mathlib.LinearAlgebra.Matrix.Determinant.Basic
import Mathlib.LinearAlgebra.Matrix.NonsingularInverse

/-!
# Small linear algebra (C11)

The specification is Mathlib's: `Matrix.det` and the matrix product.
-/
namespace Phoebus.LinAlg
variable {K : Type*} [Field K]

/-- C11. The 3x3 determinant is the determinant. -/
theorem det3_eq_det (A : Fin 3 → Fin 3 → K) : det3 A = (Matrix.of A).det := by
  rw [Matrix.det_fin_three]; simp only [det3, Matrix.of_apply]; ring

/-- C11. The 4x4 determinant is the determinant. -/
theorem det4_eq_det (A : Fin 4 → Fin 4 → K) : det4 A = (Matrix.of A).det := by
  rw [Matrix.det_succ_row_zero]
  have e : ∀ (j : Fin 4) (i k : Fin 3), ((Matrix.of A).submatrix Fin.succ j.succAbove) i k =
      A i.succ (j.succAbove k) := fun _ _ _ => rfl
  simp only [Fin.sum_univ_four, Matrix.det_fin_three, e, det4, minor, Matrix.of_apply]
  have s0 : ((0:Fin 4).succAbove 0, (0:Fin 4).succAbove 1, (0:Fin 4).succAbove 2) = (1, 2, 3) := by decide
  have s1 : ((1:Fin 4).succAbove 0, (1:Fin 4).succAbove 1, (1:Fin 4).succAbove 2) = (0, 2, 3) := by decide
  have s2 : ((2:Fin 4).succAbove 0, (2:Fin 4).succAbove 1, (2:Fin 4).succAbove 2) = (0, 1, 3) := by decide
  have s3 : ((3:Fin 4).succAbove 0, (3:Fin 4).succAbove 1, (3:Fin 4).succAbove 2) = (0, 1, 2) := by decide
  have t : (Fin.succ (0:Fin 3), Fin.succ (1:Fin 3), Fin.succ (2:Fin 3)) = ((1:Fin 4), (2:Fin 4), (3:Fin 4)) := by
    decide
  have v : (((0:Fin 4):ℕ), ((1:Fin 4):ℕ), ((2:Fin 4):ℕ), ((3:Fin 4):ℕ)) = (0, 1, 2, 3) := by decide
  simp only [Prod.mk.injEq] at s0 s1 s2 s3 t v
  simp only [s0, s1, s2, s3, t, v]
  ring

/-- C11 for the 3x3 inverse (partial): for every *symmetric* matrix with nonzero determinant the result is the
two-sided inverse and the returned number is the determinant.  Without symmetry both fail:
`inverse3_nonsymmetric_wrong`. -/
theorem inverse3_symmetric_partial (A : Fin 3 → Fin 3 → K) (hsym : ∀ i j, A i j = A j i)
    (hdet : (Matrix.of A).det ≠ 0) :
    Matrix.of A * Matrix.of (inverse3 A) = 1 ∧ Matrix.of (inverse3 A) * Matrix.of A = 1 ∧
      invDet3 A = (Matrix.of A).det := by
  have hd : invDet3 A = (Matrix.of A).det := by
    rw [← det3_eq_det]
    simp only [invDet3, cof3, dop, det3, Matrix.cons_val]
    rw [hsym 1 0, hsym 2 0, hsym 2 1]; ring
  have h1 : Matrix.of A * Matrix.of (inverse3 A) = 1 := by
    rw [← hd] at hdet
    ext i j
    simp only [Matrix.mul_apply, Fin.sum_univ_three, Matrix.of_apply, inverse3]
    have e : invDet3 A = det3 A := by rw [hd, det3_eq_det]
    rw [e] at hdet ⊢
    fin_cases i <;> fin_cases j <;>
      simp [cof3, dop] <;> field_simp <;> simp only [det3] <;> ring
  exact ⟨h1, mul_eq_one_comm.1 h1, hd⟩

example : ∃ A : Fin 3 → Fin 3 → ℚ, (∀ i j, A i j = A j i) ∧ (Matrix.of A).det ≠ 0 ∧ A 0 1 ≠ 0 := by
  refine ⟨![![2, 1, 0], ![1, 3, 1], ![0, 1, 4]], by decide +kernel, ?_, by decide +kernel⟩
  rw [← det3_eq_det]; decide +kernel

/-- C11, negation for general matrices: an invertible nonsymmetric matrix whose computed "inverse" is wrong. -/
theorem inverse3_nonsymmetric_wrong : ∃ A : Fin 3 → Fin 3 → ℚ, (Matrix.of A).det = 1 ∧
    invDet3 A = -1 ∧ Matrix.of A * Matrix.of (inverse3 A) ≠ 1 := by
  refine ⟨![![1, 1, 0], ![-1, 0, 0], ![0, 0, 1]], ?_, ?_, ?_⟩
  · rw [← det3_eq_det]; decide +kernel
  · decide +kernel
  · intro h
    have := congrFun (congrFun h 2) 2
    revert this
    simp only [Matrix.mul_apply, Fin.sum_univ_three, Matrix.of_apply, Matrix.one_apply_eq]
    decide +kernel

/-- C11. The 2x2 solver solves `A x = b` for every nonsingular matrix and right-hand side. -/
theorem solve2_solves (A : Fin 2 → Fin 2 → K) (b : Fin 2 → K) (h : (Matrix.of A).det ≠ 0) :
    (Matrix.of A).mulVec (solve2 A b) = b := by
  rw [Matrix.det_fin_two] at h
  simp only [Matrix.of_apply] at h
  have e : ∀ a b c d : K, dop a b c d = a * b - c * d := by intros; simp only [dop]; ring
  funext i
  simp only [Matrix.mulVec, dotProduct, Fin.sum_univ_two, Matrix.of_apply, solve2, e]
  set D := A 0 0 * A 1 1 - A 0 1 * A 1 0 with hD
  fin_cases i <;> simp <;> field_simp <;> rw [hD] <;> ring

example : ∃ A : Fin 2 → Fin 2 → ℚ, (Matrix.of A).det ≠ 0 :=
  ⟨![![1, 2], ![3, 4]], by rw [Matrix.det_fin_two]; norm_num⟩

/-- C11. The 4x4 inverse is a two-sided inverse of every nonsingular matrix. -/
theorem inverse4_is_inverse (A : Fin 4 → Fin 4 → K) (h : (Matrix.of A).det ≠ 0) :
    Matrix.of A * Matrix.of (inverse4 A) = 1 ∧ Matrix.of (inverse4 A) * Matrix.of A = 1 := by
  rw [← det4_eq_det] at h
  have h1 : Matrix.of A * Matrix.of (inverse4 A) = 1 := by
    ext i j
    simp only [Matrix.mul_apply, Fin.sum_univ_four, Matrix.of_apply, inverse4]
    rw [show ∀ a b c d : K, A i 0 * (a / det4 A) + A i 1 * (b / det4 A) + A i 2 * (c / det4 A) +
      A i 3 * (d / det4 A) = (A i 0 * a + A i 1 * b + A i 2 * c + A i 3 * d) / det4 A by intros; ring]
    rw [div_eq_iff h]
    fin_cases i <;> fin_cases j <;> simp [adjoint, minor, det4] <;> ring
  exact ⟨h1, mul_eq_one_comm.1 h1⟩

example : ∃ A : Fin 4 → Fin 4 → ℚ, (Matrix.of A).det ≠ 0 ∧ A 0 3 ≠ 0 :=
  ⟨![![1, 0, 0, 2], ![0, 1, 0, 0], ![0, 0, 1, 0], ![3, 0, 0, 1]], by
    rw [← det4_eq_det]; decide +kernel, by decide +kernel⟩

end Phoebus.LinAlg
