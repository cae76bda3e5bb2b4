import Verif.Transform.Model
import Verif.LinAlg.Props
import Verif.Metrics.Flat
import Mathlib.LinearAlgebra.Matrix.NonsingularInverse
import Mathlib.Analysis.Calculus.Deriv.Slope
import Mathlib.Algebra.BigOperators.Field
import Verif.Rel.Props

/-!
# C36: transformed coordinate systems obey the tensor law
-/
namespace Phoebus.Transform
open Finset GeomUtils Metrics Geom Matrix

/-- Specification: the two Jacobians returned at a point are inverse matrices. -/
def Map.Inverse (m : Map) : Prop := ∀ i j, ∑ k, m.Jcov i k * m.Jcon k j = if i = j then 1 else 0

@[simp] theorem s2st_00 (A) : s2st A 0 0 = 1 := rfl
@[simp] theorem s2st_0s (A) (i : Fin 3) : s2st A 0 i.succ = 0 := rfl
@[simp] theorem s2st_s0 (A) (i : Fin 3) : s2st A i.succ 0 = 0 := rfl
@[simp] theorem s2st_ss (A) (i j : Fin 3) : s2st A i.succ j.succ = A i j := rfl

/-- Specification: the part of `Good` that does not involve derivatives. -/
structure Algebraic (s : CoordSys) (X : Fin 4 → ℝ) : Prop where
  symm : Symm s X
  inv4 : Inverse4 s X
  inv3 : Inverse3 s X
  assembles : Assembles s X
  assemblesInv : AssemblesInv s X
  det : DetOk s X

theorem Algebraic.of_good {s : CoordSys} {X} (h : Good s X) : Algebraic s X :=
  ⟨h.symm, h.inv4, h.inv3, h.assembles, h.assemblesInv, h.det⟩

variable {small EPS : ℝ} {tdep : Bool} {T : Trafo} {s : CoordSys} {X : Fin 4 → ℝ}

theorem Map.Inverse.right {m : Map} (h : m.Inverse) : Matrix.of m.Jcov * Matrix.of m.Jcon = 1 := by
  ext i j; rw [Matrix.mul_apply, Matrix.one_apply]; exact h i j

theorem Map.Inverse.left {m : Map} (h : m.Inverse) : Matrix.of m.Jcon * Matrix.of m.Jcov = 1 :=
  mul_eq_one_comm.1 h.right

theorem s2st_mul (A B : Fin 3 → Fin 3 → ℝ) (h : Matrix.of A * Matrix.of B = 1) :
    Matrix.of (s2st A) * Matrix.of (s2st B) = 1 := by
  ext m n
  rw [Matrix.mul_apply, Fin.sum_univ_succ]
  refine Fin.cases ?_ (fun i => ?_) m <;> refine Fin.cases ?_ (fun j => ?_) n
  · simp
  · simp [Matrix.one_apply, (Fin.succ_ne_zero j).symm]
  · simp [Matrix.one_apply]
  · have := congrFun (congrFun h i) j
    rw [Matrix.mul_apply] at this
    simpa [Matrix.one_apply] using this

/-- the pulled-back metric as a matrix product. -/
theorem pull_matrix {n : ℕ} (A B : Fin n → Fin n → ℝ) :
    (Matrix.of fun mu nu => ∑ lam, ∑ kap, A lam kap * B lam mu * B kap nu) =
      (Matrix.of B).transpose * Matrix.of A * Matrix.of B := by
  ext m k
  simp only [Matrix.mul_apply, Matrix.transpose_apply, Matrix.of_apply, sum_mul]
  rw [sum_comm]
  exact sum_congr rfl fun _ _ => sum_congr rfl fun _ _ => by ring

theorem push_matrix {n : ℕ} (A B : Fin n → Fin n → ℝ) :
    (Matrix.of fun mu nu => ∑ lam, ∑ kap, A lam kap * B mu lam * B nu kap) =
      Matrix.of B * Matrix.of A * (Matrix.of B).transpose := by
  ext m k
  simp only [Matrix.mul_apply, Matrix.transpose_apply, Matrix.of_apply, sum_mul]
  rw [sum_comm]
  exact sum_congr rfl fun _ _ => sum_congr rfl fun _ _ => by ring

theorem inverse_of_matrix {n : ℕ} {A B : Fin n → Fin n → ℝ} :
    (∀ m k, ∑ l, A m l * B l k = if m = k then 1 else 0) ↔ Matrix.of A * Matrix.of B = 1 := by
  constructor
  · intro h; ext m k; rw [Matrix.mul_apply, Matrix.one_apply]; exact h m k
  · intro h m k
    have := congrFun (congrFun h m) k
    rw [Matrix.mul_apply, Matrix.one_apply] at this; exact this

theorem pull_inverse {n : ℕ} (A Ai B Bi : Matrix (Fin n) (Fin n) ℝ) (h : A * Ai = 1) (hB : B * Bi = 1) :
    (B.transpose * A * B) * (Bi * Ai * Bi.transpose) = 1 := by
  have hB' : Bi * B = 1 := mul_eq_one_comm.1 hB
  calc _ = B.transpose * (A * (B * Bi) * Ai) * Bi.transpose := by simp only [Matrix.mul_assoc]
    _ = B.transpose * Bi.transpose := by rw [hB, Matrix.mul_one, h, Matrix.mul_one]
    _ = 1 := by rw [← Matrix.transpose_mul, hB', Matrix.transpose_one]

theorem det_s2st (A : Fin 3 → Fin 3 → ℝ) : (Matrix.of (s2st A)).det = (Matrix.of A).det := by
  rw [Matrix.det_succ_row_zero, Fin.sum_univ_succ]
  simp only [Matrix.of_apply, s2st_00, s2st_0s]
  simp
  congr 1

/-- **C36** Tensor law.  If the underlying system is consistent at the image point and the transformation's Jacobians are
mutually inverse there, the transformed system is consistent at the point: metric and inverse stay inverse (3d and 4d), the
transformed lapse, shift and 3-metric reassemble to the transformed 4-metric, and the determinants are those of the
transformed metrics.

Partial form of C36. Full property: For a modified system whose Jacobians are mutually inverse the transformed metric
and inverse metric stay inverse, contraction of transformed vectors is invariant, and the determinant scales by |det
J|. Missing: Algebraic tensor law for every invertible Jacobian pair and limits of the finite-difference derivatives;
the time component for time-dependent metrics is wrong (witness modified_time_wrong). -/
theorem modified_algebraic_partial (h : Algebraic s (moved T X)) (hJ : (T (space X)).Inverse) :
    Algebraic (modified small EPS tdep T s) X := by
  obtain ⟨⟨hs1, hs2, hs3, hs4⟩, hi4, hi3, ha, hai, hd⟩ := h
  set m := T (space X) with hm
  have hJ3 := hJ.right
  have hJ4 := s2st_mul _ _ hJ3
  have hsymm : Symm (modified small EPS tdep T s) X := by
    refine ⟨?_, ?_, ?_, ?_⟩ <;> intro a b <;> simp only [modified, pullG] <;> rw [sum_comm] <;>
      refine sum_congr rfl fun l _ => sum_congr rfl fun k _ => ?_
    · rw [hs1]; ring
    · rw [hs2]; ring
    · rw [hs3]; ring
    · rw [hs4]; ring
  have h4 : Inverse4 (modified small EPS tdep T s) X := by
    unfold Inverse4
    rw [inverse_of_matrix]
    simp only [modified]
    have e1 := pull_matrix (s.g (moved T X)) (s2st m.Jcov)
    have e2 := push_matrix (s.gInv (moved T X)) (s2st m.Jcon)
    have e3 : Matrix.of (pullG T s X) = (Matrix.of (s2st m.Jcov)).transpose * Matrix.of (s.g (moved T X)) * Matrix.of (s2st m.Jcov) := by
      rw [← e1]; rfl
    rw [e3, e2]
    exact pull_inverse _ _ _ _ (inverse_of_matrix.1 hi4) hJ4
  have h3 : Inverse3 (modified small EPS tdep T s) X := by
    unfold Inverse3
    rw [inverse_of_matrix]
    simp only [modified]
    rw [pull_matrix (s.gam (moved T X)) m.Jcov, push_matrix (s.gamInv (moved T X)) m.Jcon]
    exact pull_inverse _ _ _ _ (inverse_of_matrix.1 hi3) hJ3
  have hcon : ∀ k (b : Fin 3 → ℝ), ∑ i, m.Jcov k i * ∑ j, m.Jcon i j * b j = b k := fun k b => by
    simp only [mul_sum]
    rw [sum_comm]
    have : ∀ j, ∑ i, m.Jcov k i * (m.Jcon i j * b j) = (if k = j then 1 else 0) * b j := fun j => by
      rw [← hJ k j, sum_mul]; exact sum_congr rfl fun _ _ => by ring
    simp [this]
  have hass : Assembles (modified small EPS tdep T s) X := by
    refine ⟨ha.1, ?_⟩
    funext a b
    have hg := ha.2
    have lowb : ∀ i : Fin 3, (adm (modified small EPS tdep T s) X).betaCov i =
        ∑ k, (adm s (moved T X)).betaCov k * m.Jcov k i := fun i => by
      simp only [ADM.betaCov, adm, modified]
      rw [← hm]
      have : ∀ j, (∑ k, ∑ l, s.gam (moved T X) k l * m.Jcov k i * m.Jcov l j) * ∑ j', m.Jcon j j' * s.shift (moved T X) j' =
          ∑ k, ∑ l, s.gam (moved T X) k l * m.Jcov k i * (m.Jcov l j * ∑ j', m.Jcon j j' * s.shift (moved T X) j') := fun j => by
        rw [sum_mul]; refine sum_congr rfl fun k _ => ?_
        rw [sum_mul]; exact sum_congr rfl fun l _ => by ring
      simp only [this]
      rw [sum_comm]
      refine sum_congr rfl fun k _ => ?_
      rw [sum_comm, sum_mul]
      refine sum_congr rfl fun l _ => ?_
      rw [← mul_sum, hcon]; ring
    refine Fin.cases ?_ (fun i => ?_) a <;> refine Fin.cases ?_ (fun j => ?_) b
    · have e : (adm (modified small EPS tdep T s) X).dot3 (adm (modified small EPS tdep T s) X).beta
          (adm (modified small EPS tdep T s) X).beta = (adm s (moved T X)).dot3 (adm s (moved T X)).beta (adm s (moved T X)).beta := by
        have d : ∀ A : ADM ℝ, A.dot3 A.beta A.beta = ∑ i, A.betaCov i * A.beta i := fun A => by
          unfold ADM.dot3 ADM.betaCov
          refine sum_congr rfl fun i _ => ?_
          rw [sum_mul]; exact sum_congr rfl fun _ _ => by ring
        rw [d, d]
        simp only [lowb, sum_mul]
        rw [sum_comm]
        refine sum_congr rfl fun k _ => ?_
        have : ∑ x, (adm s (moved T X)).betaCov k * m.Jcov k x * (adm (modified small EPS tdep T s) X).beta x =
          (adm s (moved T X)).betaCov k * ∑ x, m.Jcov k x * ∑ j, m.Jcon x j * s.shift (moved T X) j := by
          rw [mul_sum]; exact sum_congr rfl fun x _ => by rw [mul_assoc]; rfl
        rw [this, hcon]; rfl
      rw [ADM.g4_00, e]
      simp only [modified, pullG, Fin.sum_univ_succ (n := 3), s2st_00, s2st_s0]
      simp [hg]
      rfl
    · rw [ADM.g4_0s, lowb]
      simp only [modified, pullG, Fin.sum_univ_succ (n := 3), s2st_00, s2st_s0, s2st_0s, s2st_ss, hg, ADM.g4_0s]
      simp [hm]
    · rw [ADM.g4_s0, lowb]
      simp only [modified, pullG, Fin.sum_univ_succ (n := 3), s2st_00, s2st_s0, s2st_0s, s2st_ss, hg, ADM.g4_s0]
      simp [hm]
    · rw [ADM.g4_ss]
      simp only [modified, pullG, Fin.sum_univ_succ (n := 3), s2st_00, s2st_s0, s2st_0s, s2st_ss, hg, ADM.g4_ss]
      simp [adm]
  have hassI : AssemblesInv (modified small EPS tdep T s) X := by
    unfold AssemblesInv at *
    funext a b
    refine Fin.cases ?_ (fun i => ?_) a <;> refine Fin.cases ?_ (fun j => ?_) b
    · rw [ADM.g4Inv_00]
      simp only [modified, Fin.sum_univ_succ (n := 3), s2st_00, s2st_s0, s2st_0s, s2st_ss, hai, ADM.g4Inv_00]
      simp [adm, pullLapse]
    · rw [ADM.g4Inv_0s]
      simp only [modified, Fin.sum_univ_succ (n := 3), s2st_00, s2st_s0, s2st_0s, s2st_ss, hai, ADM.g4Inv_0s]
      simp [adm, pullLapse, Finset.sum_div]
      exact sum_congr rfl fun k _ => by ring
    · rw [ADM.g4Inv_s0]
      simp only [modified, Fin.sum_univ_succ (n := 3), s2st_00, s2st_s0, s2st_0s, s2st_ss, hai, ADM.g4Inv_s0]
      simp [adm, pullLapse, Finset.sum_div]
      exact sum_congr rfl fun k _ => by ring
    · rw [ADM.g4Inv_ss]
      simp only [modified, Fin.sum_univ_succ (n := 3), s2st_00, s2st_s0, s2st_0s, s2st_ss, hai, ADM.g4Inv_ss]
      simp [adm, pullLapse, Fin.sum_univ_three]
      ring
  refine ⟨hsymm, h4, h3, hass, hassI, ?_⟩
  obtain ⟨hd1, hd2, hd3, hd4⟩ := hd
  have e1 := pull_matrix (s.g (moved T X)) (s2st m.Jcov)
  have e2 := pull_matrix (s.gam (moved T X)) m.Jcov
  refine ⟨abs_nonneg _, ?_, abs_nonneg _, ?_⟩
  · simp only [modified]
    rw [sq_abs, mul_pow, hd2, LinAlg.det3_eq_det, ← hm, e2, det_mul, det_mul, det_transpose]; ring
  · simp only [modified]
    have e3 : Matrix.of (pullG T s X) = (Matrix.of (s2st m.Jcov)).transpose * Matrix.of (s.g (moved T X)) * Matrix.of (s2st m.Jcov) := by
      rw [← e1]; rfl
    rw [e3, sq_abs, mul_pow, hd4, LinAlg.det3_eq_det, ← hm, det_mul, det_mul, det_transpose, det_s2st]; ring

/-- **C36** Invariance: contracting vectors whose components are transformed with the contravariant Jacobian gives the same
number in both systems. -/
theorem modified_contraction (hJ : (T (space X)).Inverse) (v w : Fin 4 → ℝ) :
    dot4 ((modified small EPS tdep T s).g X) (fun mu => ∑ a, s2st (T (space X)).Jcon mu a * v a)
      (fun mu => ∑ a, s2st (T (space X)).Jcon mu a * w a) = dot4 (s.g (moved T X)) v w := by
  have hJ4 := inverse_of_matrix.2 (s2st_mul _ _ hJ.right)
  simp only [modified]
  set B := s2st (T (space X)).Jcov
  set K := s2st (T (space X)).Jcon
  have hcon : ∀ k (b : Fin 4 → ℝ), ∑ i, B k i * ∑ j, K i j * b j = b k := fun k b => by
    simp only [mul_sum]
    rw [sum_comm]
    have : ∀ j, ∑ i, B k i * (K i j * b j) = (if k = j then 1 else 0) * b j := fun j => by
      rw [← hJ4 k j, sum_mul]; exact sum_congr rfl fun _ _ => by ring
    simp [this]
  have hL : ∀ V W : Fin 4 → ℝ, dot4 (fun mu nu => ∑ lam, ∑ kap, s.g (moved T X) lam kap * B lam mu * B kap nu) V W =
      dot4 (s.g (moved T X)) (fun l => ∑ i, B l i * V i) (fun l => ∑ i, B l i * W i) := fun V W => by
    simp only [dot4, Fin.sum_univ_four]; ring
  have hp : pullG T s X = fun mu nu => ∑ lam, ∑ kap, s.g (moved T X) lam kap * B lam mu * B kap nu := rfl
  rw [hp, hL]
  simp only [hcon]

/-! ### Derivatives -/

/-- a symmetric difference quotient converges to the derivative as the step goes to zero. -/
theorem symmetric_quotient_tendsto {f : ℝ → ℝ} {f' x c : ℝ} (hc : 0 < c) (hf : HasDerivAt f f' x) :
    Filter.Tendsto (fun e => (f (x + c * e) - f (x + (0 - c * e))) / (2 * (c * e))) (nhdsWithin 0 (Set.Ioi 0)) (nhds f') := by
  have h := hasDerivAt_iff_tendsto_slope_zero.1 hf
  have t1 : Filter.Tendsto (fun e : ℝ => c * e) (nhdsWithin 0 (Set.Ioi 0)) (nhdsWithin 0 {0}ᶜ) := by
    refine tendsto_nhdsWithin_iff.2 ⟨?_, ?_⟩
    · have : Filter.Tendsto (fun e : ℝ => c * e) (nhds 0) (nhds (c * 0)) := Filter.tendsto_id.const_mul c
      rw [mul_zero] at this
      exact this.mono_left nhdsWithin_le_nhds
    · filter_upwards [self_mem_nhdsWithin] with e he
      exact (mul_pos hc he).ne'
  have t2 : Filter.Tendsto (fun e : ℝ => 0 - c * e) (nhdsWithin 0 (Set.Ioi 0)) (nhdsWithin 0 {0}ᶜ) := by
    refine tendsto_nhdsWithin_iff.2 ⟨?_, ?_⟩
    · have : Filter.Tendsto (fun e : ℝ => 0 - c * e) (nhds 0) (nhds (0 - c * 0)) := (Filter.tendsto_id.const_mul c).const_sub 0
      rw [mul_zero, sub_zero] at this
      exact this.mono_left nhdsWithin_le_nhds
    · filter_upwards [self_mem_nhdsWithin] with e he
      have := (mul_pos hc he)
      simp only [Set.mem_compl_iff, Set.mem_singleton_iff]; linarith
  have s1 := h.comp t1
  have s2 := h.comp t2
  have s3 := (s1.add s2).div_const 2
  rw [show (f' + f') / 2 = f' by ring] at s3
  refine s3.congr' ?_
  filter_upwards [self_mem_nhdsWithin] with e he
  have hne : c * e ≠ 0 := (mul_pos hc he).ne'
  simp only [Function.comp_apply, smul_eq_mul]
  rw [zero_sub, inv_neg]
  field_simp
  ring

/-- **C35/C36** The finite-difference gradient converges to the true spatial derivative of the transformed metric when the
step goes to zero (this is what the returned `MetricDerivative` of a transformed system is; likewise for the metric of any
system handled by `SetMetricGradientByFD`). -/
theorem metricGradientFD_tendsto (g : (Fin 4 → ℝ) → Fin 4 → Fin 4 → ℝ) (X : Fin 4 → ℝ) (mu nu d : Fin 4) (hd : d ≠ 0)
    (g' : ℝ) (hg : HasDerivAt (fun t => g (Function.update X d t) mu nu) g' (X d)) :
    Filter.Tendsto (fun EPS => metricGradientFD 0 EPS g X mu nu d) (nhdsWithin 0 (Set.Ioi 0)) (nhds g') := by
  have hsh : ∀ h, GeomUtils.shift X d h = Function.update X d (X d + h) := fun h => by
    funext k; unfold GeomUtils.shift Function.update
    by_cases hk : k = d
    · subst hk; simp [hd]
    · simp [hk]
  have hc : 0 < max |X d| 1 := lt_max_of_lt_right one_pos
  have := symmetric_quotient_tendsto hc hg
  refine this.congr fun e => ?_
  unfold metricGradientFD fdStep
  simp only [if_neg hd, hsh, Rel.ratio_zero]

/-- **C36** spatial part of `MetricDerivative` of a transformed system. -/
theorem modified_deriv_tendsto (mu nu d : Fin 4) (hd : d ≠ 0) (g' : ℝ)
    (hg : HasDerivAt (fun t => (modified 0 EPS tdep T s).g (Function.update X d t) mu nu) g' (X d)) :
    Filter.Tendsto (fun e => (modified 0 e tdep T s).dg X mu nu d) (nhdsWithin 0 (Set.Ioi 0)) (nhds g') := by
  have := metricGradientFD_tendsto (pullG T s) X mu nu d hd g' hg
  refine this.congr fun e => ?_
  simp only [modified, pullDg, hd, and_false, if_false]

/-- **C36** For a static metric the returned time derivative is zero, which is right. -/
theorem modified_static_time (mu nu : Fin 4) (hstat : ∀ Y t, s.g (Function.update Y 0 t) = s.g Y) :
    (modified small EPS false T s).dg X mu nu 0 = 0 ∧
    HasDerivAt (fun t => (modified small EPS false T s).g (Function.update X 0 t) mu nu) 0 (X 0) := by
  constructor
  · simp [modified, pullDg, metricGradientFD]
  · have : (fun t => (modified small EPS false T s).g (Function.update X 0 t) mu nu) =
        fun _ => (modified small EPS false T s).g X mu nu := by
      funext t
      have hsp : space (Function.update X 0 t) = space X := by
        funext i; simp [space, Function.update]
      have hmv : moved T (Function.update X 0 t) = Function.update (moved T X) 0 t := by
        funext a; unfold moved; rw [hsp]
        refine Fin.cases ?_ (fun i => ?_) a <;> simp [Function.update]
      simp only [modified, pullG, hsp, hmv, hstat]
    rw [this]
    exact hasDerivAt_const _ _

/-- The uniform rescaling `C = c X` with its Jacobians. -/
noncomputable def scaling (c : ℝ) : Trafo := fun X =>
  ⟨fun i => c * X i, fun i j => if i = j then c else 0, fun i j => if i = j then 1 / c else 0⟩

theorem scaling_inverse {c : ℝ} (hc : c ≠ 0) (X : Fin 3 → ℝ) : (scaling c X).Inverse := by
  intro i j; fin_cases i <;> fin_cases j <;> simp [scaling, hc]

/-- **C36 fails for time-dependent metrics**: an expanding universe in coordinates stretched by a factor of two.  The
transformed metric is right, but the returned time derivative of `g_11` is `(1/4)` of the underlying one instead of four
times it: it is not the derivative of the returned metric. -/
theorem modified_time_wrong (EPS : ℝ) :
    let m := modified 0 EPS true (scaling 2) (flrw 0 1 1)
    (∀ t, m.g (Function.update 0 0 t) 1 1 = 4 * (1 + t) ^ 2) ∧ m.dg 0 1 1 0 = 1 / 2 ∧
    HasDerivAt (fun t => m.g (Function.update 0 0 t) 1 1) 8 0 := by
  have hg : ∀ t : ℝ, (modified 0 EPS true (scaling 2) (flrw 0 1 1)).g (Function.update 0 0 t) 1 1 = 4 * (1 + t) ^ 2 := by
    intro t
    have e1 : (1 : Fin 4) = Fin.succ 0 := rfl
    simp only [modified, pullG, e1, Fin.sum_univ_succ (n := 3), s2st_0s, s2st_ss]
    simp [scaling, flrw, scaleFactor, moved, Fin.sum_univ_three, Matrix.vecHead, Matrix.vecTail]
    ring
  refine ⟨hg, ?_, ?_⟩
  · have e1 : (1 : Fin 4) = Fin.succ 0 := rfl
    simp only [modified, pullDg, e1, Fin.sum_univ_succ (n := 3), s2st_0s, s2st_ss, and_self, if_true, s2st_s0]
    simp [scaling, flrw, scaleFactor, Fin.sum_univ_three]
  · simp only [hg]
    have := ((hasDerivAt_id (0:ℝ)).const_add 1).pow 2 |>.const_mul 4
    refine this.congr_deriv ?_
    norm_num

/-- a concrete instance of the tensor law: the stretched expanding universe is consistent at every point. -/
theorem ex_modified (EPS : ℝ) (X : Fin 4 → ℝ) (hX : 0 ≤ X 0) : Algebraic (modified 0 EPS true (scaling 2) (flrw 0 1 1)) X :=
  modified_algebraic_partial (.of_good (flrw_good 1 1 _ (by simp [moved, scaleFactor]; linarith))) (scaling_inverse two_ne_zero _)

/-- **C36** The spatial part of `GradLnAlpha` of a transformed system converges to the derivative of the logarithm of the
returned lapse as the finite-difference step goes to zero; the time part is that of the underlying system at the *untransformed*
point when the metric is time dependent, and zero otherwise. -/
theorem modified_gradLnAlpha (d : Fin 4) :
    (∀ a', d ≠ 0 → (modified 0 EPS tdep T s).lapse X ≠ 0 → HasDerivAt (fun t => (modified 0 EPS tdep T s).lapse (Function.update X d t)) a' (X d) →
      Filter.Tendsto (fun e => (modified 0 e tdep T s).gradLnAlpha X d) (nhdsWithin 0 (Set.Ioi 0))
        (nhds (a' / (modified 0 EPS tdep T s).lapse X))) ∧
    (modified small EPS true T s).gradLnAlpha X 0 = s.gradLnAlpha X 0 ∧
    (modified small EPS false T s).gradLnAlpha X 0 = 0 := by
  refine ⟨fun a' hd h0 ha => ?_, by simp [modified], ?_⟩
  · have hsh : ∀ h, GeomUtils.shift X d h = Function.update X d (X d + h) := fun h => by
      funext k; unfold GeomUtils.shift Function.update
      by_cases hk : k = d
      · subst hk; simp [hd]
      · simp [hk]
    have hc : 0 < max |X d| 1 := lt_max_of_lt_right one_pos
    have hcont : ∀ c' : ℝ, Filter.Tendsto (fun e : ℝ => (modified 0 EPS tdep T s).lapse (Function.update X d (X d + c' * e)))
        (nhdsWithin 0 (Set.Ioi 0)) (nhds ((modified 0 EPS tdep T s).lapse X)) := by
      intro c'
      have t : Filter.Tendsto (fun e : ℝ => X d + c' * e) (nhdsWithin 0 (Set.Ioi 0)) (nhds (X d)) := by
        have : Filter.Tendsto (fun e : ℝ => X d + c' * e) (nhds 0) (nhds (X d + c' * 0)) :=
          (Filter.tendsto_id.const_mul c').const_add _
        rw [mul_zero, add_zero] at this
        exact this.mono_left nhdsWithin_le_nhds
      have := ha.continuousAt.tendsto.comp t
      rw [Function.update_eq_self] at this
      exact this
    have hmean := ((hcont (-(max |X d| 1))).add (hcont (max |X d| 1))).div_const 2
    rw [show ∀ x : ℝ, (x + x) / 2 = x from fun x => by ring] at hmean
    have := (symmetric_quotient_tendsto hc ha).div hmean h0
    refine this.congr fun e => ?_
    simp only [modified, hd, and_false, if_false, gradLnAlphaFD, fdStep, hsh, Rel.ratio_zero, Pi.div_apply,
      show ∀ x : ℝ, -x * e = 0 - x * e from fun x => by ring]
    rw [div_div]
    congr 1
    ring
  · simp [modified, gradLnAlphaFD]

end Phoebus.Transform
