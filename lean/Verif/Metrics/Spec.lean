import Verif.Geom.ADM
import Verif.GeomUtils.Model
import Mathlib.LinearAlgebra.Matrix.Determinant.Basic
import Mathlib.Analysis.SpecialFunctions.Trigonometric.Deriv
import Mathlib.Analysis.SpecialFunctions.Log.Deriv
import Mathlib.Analysis.SpecialFunctions.Sqrt

/-!
# Specification: what a coordinate system must satisfy at a point

No code is modelled here.  `CoordSys` lists the functions every coordinate system offers (the static polymorphic interface
of `/repo/src/geometry/analytic_system.hpp`); the predicates say, in textbook terms, what they have to satisfy.
Points are `X : Fin 4 → ℝ`, `X 0` the time.
-/
namespace Phoebus.Metrics
open Finset Geom

/-- the interface of a coordinate system. -/
structure CoordSys where
  lapse : (Fin 4 → ℝ) → ℝ
  shift : (Fin 4 → ℝ) → Fin 3 → ℝ
  g : (Fin 4 → ℝ) → Fin 4 → Fin 4 → ℝ
  gInv : (Fin 4 → ℝ) → Fin 4 → Fin 4 → ℝ
  gam : (Fin 4 → ℝ) → Fin 3 → Fin 3 → ℝ
  gamInv : (Fin 4 → ℝ) → Fin 3 → Fin 3 → ℝ
  detGamma : (Fin 4 → ℝ) → ℝ
  detG : (Fin 4 → ℝ) → ℝ
  conn : (Fin 4 → ℝ) → Fin 4 → Fin 4 → Fin 4 → ℝ
  dg : (Fin 4 → ℝ) → Fin 4 → Fin 4 → Fin 4 → ℝ
  gradLnAlpha : (Fin 4 → ℝ) → Fin 4 → ℝ

variable (s : CoordSys) (X : Fin 4 → ℝ)

/-- the 4-metric and its inverse are inverse. -/
def Inverse4 : Prop := ∀ m n, ∑ l, s.g X m l * s.gInv X l n = if m = n then 1 else 0

/-- the 3-metric and its inverse are inverse. -/
def Inverse3 : Prop := ∀ m n, ∑ l, s.gam X m l * s.gamInv X l n = if m = n then 1 else 0

/-- the metrics are symmetric. -/
def Symm : Prop := (∀ m n, s.g X m n = s.g X n m) ∧ (∀ m n, s.gInv X m n = s.gInv X n m) ∧
  (∀ m n, s.gam X m n = s.gam X n m) ∧ ∀ m n, s.gamInv X m n = s.gamInv X n m

/-- the 3+1 pieces. -/
def adm : ADM ℝ := ⟨s.lapse X, s.shift X, s.gam X, s.gamInv X⟩

/-- lapse, shift and 3-metric reassemble to the 4-metric, with a positive lapse. -/
def Assembles : Prop := 0 < s.lapse X ∧ s.g X = (adm s X).g4

/-- the same for the inverse 4-metric. -/
def AssemblesInv : Prop := s.gInv X = (adm s X).g4Inv

/-- `DetGamma` is the positive root of the determinant of the 3-metric, `DetG` of minus that of the 4-metric. -/
def DetOk : Prop := 0 ≤ s.detGamma X ∧ s.detGamma X ^ 2 = Matrix.det (Matrix.of (s.gam X)) ∧
  0 ≤ s.detG X ∧ s.detG X ^ 2 = - Matrix.det (Matrix.of (s.g X))

/-- `MetricDerivative` is the partial derivative of the metric. -/
def DerivOk : Prop := ∀ m n sg, HasDerivAt (fun t => s.g (Function.update X sg t) m n) (s.dg X m n sg) (X sg)

/-- `GradLnAlpha` is the partial derivative of the logarithm of the lapse. -/
def LnAlphaOk : Prop := ∀ sg, HasDerivAt (fun t => Real.log (s.lapse (Function.update X sg t))) (s.gradLnAlpha X sg) (X sg)

/-- `ConnectionCoefficient` is the Levi-Civita connection (all indices down) of the returned derivatives. -/
def ConnOk : Prop := ∀ a b c, s.conn X a b c = 1 / 2 * (s.dg X a b c + s.dg X a c b - s.dg X b c a)

/-- everything a caller relies on. -/
structure Good : Prop where
  symm : Symm s X
  inv4 : Inverse4 s X
  inv3 : Inverse3 s X
  assembles : Assembles s X
  assemblesInv : AssemblesInv s X
  det : DetOk s X
  deriv : DerivOk s X
  lnAlpha : LnAlphaOk s X
  conn : ConnOk s X

/-! ### Components by number -/

@[simp] theorem g4_01 (A : ADM ℝ) : A.g4 0 1 = A.betaCov 0 := rfl
@[simp] theorem g4Inv_01 (A : ADM ℝ) : A.g4Inv 0 1 = A.beta 0 / A.alpha ^ 2 := rfl
@[simp] theorem g4_02 (A : ADM ℝ) : A.g4 0 2 = A.betaCov 1 := rfl
@[simp] theorem g4Inv_02 (A : ADM ℝ) : A.g4Inv 0 2 = A.beta 1 / A.alpha ^ 2 := rfl
@[simp] theorem g4_03 (A : ADM ℝ) : A.g4 0 3 = A.betaCov 2 := rfl
@[simp] theorem g4Inv_03 (A : ADM ℝ) : A.g4Inv 0 3 = A.beta 2 / A.alpha ^ 2 := rfl
@[simp] theorem g4_10 (A : ADM ℝ) : A.g4 1 0 = A.betaCov 0 := rfl
@[simp] theorem g4Inv_10 (A : ADM ℝ) : A.g4Inv 1 0 = A.beta 0 / A.alpha ^ 2 := rfl
@[simp] theorem g4_11 (A : ADM ℝ) : A.g4 1 1 = A.gam 0 0 := rfl
@[simp] theorem g4Inv_11 (A : ADM ℝ) : A.g4Inv 1 1 = A.gamInv 0 0 - A.beta 0 * A.beta 0 / A.alpha ^ 2 := rfl
@[simp] theorem g4_12 (A : ADM ℝ) : A.g4 1 2 = A.gam 0 1 := rfl
@[simp] theorem g4Inv_12 (A : ADM ℝ) : A.g4Inv 1 2 = A.gamInv 0 1 - A.beta 0 * A.beta 1 / A.alpha ^ 2 := rfl
@[simp] theorem g4_13 (A : ADM ℝ) : A.g4 1 3 = A.gam 0 2 := rfl
@[simp] theorem g4Inv_13 (A : ADM ℝ) : A.g4Inv 1 3 = A.gamInv 0 2 - A.beta 0 * A.beta 2 / A.alpha ^ 2 := rfl
@[simp] theorem g4_20 (A : ADM ℝ) : A.g4 2 0 = A.betaCov 1 := rfl
@[simp] theorem g4Inv_20 (A : ADM ℝ) : A.g4Inv 2 0 = A.beta 1 / A.alpha ^ 2 := rfl
@[simp] theorem g4_21 (A : ADM ℝ) : A.g4 2 1 = A.gam 1 0 := rfl
@[simp] theorem g4Inv_21 (A : ADM ℝ) : A.g4Inv 2 1 = A.gamInv 1 0 - A.beta 1 * A.beta 0 / A.alpha ^ 2 := rfl
@[simp] theorem g4_22 (A : ADM ℝ) : A.g4 2 2 = A.gam 1 1 := rfl
@[simp] theorem g4Inv_22 (A : ADM ℝ) : A.g4Inv 2 2 = A.gamInv 1 1 - A.beta 1 * A.beta 1 / A.alpha ^ 2 := rfl
@[simp] theorem g4_23 (A : ADM ℝ) : A.g4 2 3 = A.gam 1 2 := rfl
@[simp] theorem g4Inv_23 (A : ADM ℝ) : A.g4Inv 2 3 = A.gamInv 1 2 - A.beta 1 * A.beta 2 / A.alpha ^ 2 := rfl
@[simp] theorem g4_30 (A : ADM ℝ) : A.g4 3 0 = A.betaCov 2 := rfl
@[simp] theorem g4Inv_30 (A : ADM ℝ) : A.g4Inv 3 0 = A.beta 2 / A.alpha ^ 2 := rfl
@[simp] theorem g4_31 (A : ADM ℝ) : A.g4 3 1 = A.gam 2 0 := rfl
@[simp] theorem g4Inv_31 (A : ADM ℝ) : A.g4Inv 3 1 = A.gamInv 2 0 - A.beta 2 * A.beta 0 / A.alpha ^ 2 := rfl
@[simp] theorem g4_32 (A : ADM ℝ) : A.g4 3 2 = A.gam 2 1 := rfl
@[simp] theorem g4Inv_32 (A : ADM ℝ) : A.g4Inv 3 2 = A.gamInv 2 1 - A.beta 2 * A.beta 1 / A.alpha ^ 2 := rfl
@[simp] theorem g4_33 (A : ADM ℝ) : A.g4 3 3 = A.gam 2 2 := rfl
@[simp] theorem g4Inv_33 (A : ADM ℝ) : A.g4Inv 3 3 = A.gamInv 2 2 - A.beta 2 * A.beta 2 / A.alpha ^ 2 := rfl

/-! ### Consequences of the definitions used by all systems -/

/-- determinant of a 4-metric in 3+1 form: `det g = -α² det γ`. -/
theorem det_g4 (A : ADM ℝ) (hs : ∀ i j, A.gam i j = A.gam j i) :
    Matrix.det (Matrix.of A.g4) = - (A.alpha ^ 2 * Matrix.det (Matrix.of A.gam)) := by
  have e0 : (0 : Fin 4) = 0 := rfl
  have e1 : (1 : Fin 4) = Fin.succ 0 := rfl
  have e2 : (2 : Fin 4) = Fin.succ 1 := rfl
  have e3 : (3 : Fin 4) = Fin.succ 2 := rfl
  have h10 := hs 1 0
  have h20 := hs 2 0
  have h21 := hs 2 1
  rw [Matrix.det_fin_three, Matrix.det_succ_row_zero]
  simp only [Matrix.det_fin_three, Fin.sum_univ_four, Matrix.submatrix_apply, Matrix.of_apply, e1, e2, e3]
  simp only [show (Fin.succ (0:Fin 3)).succAbove 0 = 0 from rfl, show (Fin.succ (0:Fin 3)).succAbove 1 = Fin.succ 1 from rfl,
    show (Fin.succ (0:Fin 3)).succAbove 2 = Fin.succ 2 from rfl, show (Fin.succ (1:Fin 3)).succAbove 0 = 0 from rfl,
    show (Fin.succ (1:Fin 3)).succAbove 1 = Fin.succ 0 from rfl, show (Fin.succ (1:Fin 3)).succAbove 2 = Fin.succ 2 from rfl,
    show (Fin.succ (2:Fin 3)).succAbove 0 = 0 from rfl, show (Fin.succ (2:Fin 3)).succAbove 1 = Fin.succ 0 from rfl,
    show (Fin.succ (2:Fin 3)).succAbove 2 = Fin.succ 1 from rfl, show (0:Fin 4).succAbove 0 = Fin.succ 0 from rfl,
    show (0:Fin 4).succAbove 1 = Fin.succ 1 from rfl, show (0:Fin 4).succAbove 2 = Fin.succ 2 from rfl,
    ADM.g4_00, ADM.g4_0s, ADM.g4_s0, ADM.g4_ss, ADM.betaCov, ADM.dot3, Fin.sum_univ_three, h10, h20, h21]
  simp only [Fin.val_zero, Fin.val_succ]
  norm_num
  ring

/-- with the pieces assembled, the inverse 4-metric identity and the determinant identity for `DetG` follow from the
3-dimensional ones. -/
theorem inverse4_of (hsym : Symm s X) (h3 : Inverse3 s X) (ha : Assembles s X) (hi : AssemblesInv s X) : Inverse4 s X := by
  have hv : (adm s X).Valid := ⟨ha.1.ne', hsym.2.2.1, hsym.2.2.2, h3⟩
  intro m n
  have h := (adm s X).g4Inv_mul hv n m
  rw [← ha.2, ← hi] at h
  rw [show (if m = n then (1:ℝ) else 0) = if n = m then 1 else 0 by simp only [eq_comm], ← h]
  exact sum_congr rfl fun l _ => by rw [hsym.1 m l, hsym.2.1 l n]; ring

theorem detOk_of (hsym : Symm s X) (ha : Assembles s X) (h0 : 0 ≤ s.detGamma X)
    (h1 : s.detGamma X ^ 2 = Matrix.det (Matrix.of (s.gam X))) (hG : s.detG X = s.lapse X * s.detGamma X) : DetOk s X := by
  refine ⟨h0, h1, by rw [hG]; exact mul_nonneg ha.1.le h0, ?_⟩
  have := det_g4 (adm s X) hsym.2.2.1
  rw [← ha.2] at this
  rw [this, hG, mul_pow, h1]
  simp [adm]

/-- a metric depending on `X1` and `X2` only: it is enough to differentiate in these two. -/
theorem derivOk_of (G : ℝ → ℝ → Fin 4 → Fin 4 → ℝ) (hG : ∀ Y, s.g Y = G (Y 1) (Y 2))
    (h1 : ∀ m n, HasDerivAt (fun t => G t (X 2) m n) (s.dg X m n 1) (X 1))
    (h2 : ∀ m n, HasDerivAt (fun t => G (X 1) t m n) (s.dg X m n 2) (X 2))
    (h0 : ∀ m n, s.dg X m n 0 = 0) (h3 : ∀ m n, s.dg X m n 3 = 0) : DerivOk s X := by
  intro m n sg
  simp only [hG]
  fin_cases sg
  · simp only [Fin.zero_eta, Function.update_apply, show (1:Fin 4) ≠ 0 by decide, show (2:Fin 4) ≠ 0 by decide, if_false, h0]
    exact hasDerivAt_const _ _
  · simp only [Fin.mk_one, Function.update_apply, show (2:Fin 4) ≠ 1 by decide, if_false, if_true]
    exact h1 m n
  · simp only [Fin.reduceFinMk, Function.update_apply, show (1:Fin 4) ≠ 2 by decide, if_false, if_true]
    exact h2 m n
  · simp only [Fin.reduceFinMk, Function.update_apply, show (1:Fin 4) ≠ 3 by decide, show (2:Fin 4) ≠ 3 by decide, if_false, h3]
    exact hasDerivAt_const _ _

theorem lnAlphaOk_of (A : ℝ → ℝ → ℝ) (hA : ∀ Y, s.lapse Y = A (Y 1) (Y 2))
    (h1 : HasDerivAt (fun t => Real.log (A t (X 2))) (s.gradLnAlpha X 1) (X 1))
    (h2 : HasDerivAt (fun t => Real.log (A (X 1) t)) (s.gradLnAlpha X 2) (X 2))
    (h0 : s.gradLnAlpha X 0 = 0) (h3 : s.gradLnAlpha X 3 = 0) : LnAlphaOk s X := by
  intro sg
  simp only [hA]
  fin_cases sg
  · simp only [Fin.zero_eta, Function.update_apply, show (1:Fin 4) ≠ 0 by decide, show (2:Fin 4) ≠ 0 by decide, if_false, h0]
    exact hasDerivAt_const _ _
  · simp only [Fin.mk_one, Function.update_apply, show (2:Fin 4) ≠ 1 by decide, if_false, if_true]
    exact h1
  · simp only [Fin.reduceFinMk, Function.update_apply, show (1:Fin 4) ≠ 2 by decide, if_false, if_true]
    exact h2
  · simp only [Fin.reduceFinMk, Function.update_apply, show (1:Fin 4) ≠ 3 by decide, show (2:Fin 4) ≠ 3 by decide, if_false, h3]
    exact hasDerivAt_const _ _

/-- unit lapse. -/
theorem lnAlphaOk_const (c : ℝ) (h : ∀ Y, s.lapse Y = c) (h0 : ∀ m, s.gradLnAlpha X m = 0) : LnAlphaOk s X := by
  intro sg
  simp only [h, h0]
  exact hasDerivAt_const _ _

end Phoebus.Metrics
