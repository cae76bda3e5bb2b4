import Verif.Geom.Jacobi
import Mathlib.Analysis.Calculus.FDeriv.Pi

/-!
# Specification: covariant divergences

Textbook definitions only (no code is modelled here): partial derivatives, Christoffel symbols, and the covariant divergences of a vector and of a tensor, in a spacetime
whose metric is given in 3+1 form; and the textbook rules that turn them into divergences of densities.
-/
namespace Phoebus.Geom
open Finset Matrix

/-- events: time and three coordinates. -/
abbrev Event := Fin 4 → ℝ

/-- partial derivative. -/
noncomputable def pd (μ : Fin 4) (f : Event → ℝ) (X : Event) : ℝ := fderiv ℝ f X (Pi.single μ 1)

/-- `∂_s g_{ab}`. -/
noncomputable def metricDeriv (G : Event → ADM ℝ) (X : Event) (a b s : Fin 4) : ℝ := pd s (fun Y => (G Y).g4 a b) X

/-- `√-det g`. -/
noncomputable def rootDet (G : ADM ℝ) : ℝ := √(-(Matrix.of G.g4).det)

/-- `Γ^l_{mn}`. -/
noncomputable def christoffel (G : Event → ADM ℝ) (X : Event) (l m n : Fin 4) : ℝ :=
  ∑ s, (G X).g4Inv l s * ((metricDeriv G X s n m + metricDeriv G X s m n - metricDeriv G X m n s) / 2)

/-- `∇_μ V^μ`. -/
noncomputable def divVec (G : Event → ADM ℝ) (V : Event → Fin 4 → ℝ) (X : Event) : ℝ :=
  ∑ μ, (pd μ (fun Y => V Y μ) X + ∑ ν, christoffel G X μ μ ν * V X ν)

/-- `∇_μ T^{μν}`. -/
noncomputable def divTens (G : Event → ADM ℝ) (T : Event → Fin 4 → Fin 4 → ℝ) (X : Event) (ν : Fin 4) : ℝ :=
  ∑ μ, (pd μ (fun Y => T Y μ ν) X + ∑ l, christoffel G X μ μ l * T X l ν + ∑ l, christoffel G X ν μ l * T X μ l)

theorem pd_mul {f g : Event → ℝ} {X : Event} (hf : DifferentiableAt ℝ f X) (hg : DifferentiableAt ℝ g X) (μ : Fin 4) :
    pd μ (fun Y => f Y * g Y) X = pd μ f X * g X + f X * pd μ g X := by
  unfold pd
  rw [fderiv_fun_mul hf hg]
  simp only [_root_.add_apply, _root_.smul_apply, smul_eq_mul]
  ring

theorem pd_add {f g : Event → ℝ} {X : Event} (hf : DifferentiableAt ℝ f X) (hg : DifferentiableAt ℝ g X) (μ : Fin 4) :
    pd μ (fun Y => f Y + g Y) X = pd μ f X + pd μ g X := by
  unfold pd
  rw [fderiv_fun_add hf hg]; rfl

theorem pd_sub {f g : Event → ℝ} {X : Event} (hf : DifferentiableAt ℝ f X) (hg : DifferentiableAt ℝ g X) (μ : Fin 4) :
    pd μ (fun Y => f Y - g Y) X = pd μ f X - pd μ g X := by
  unfold pd
  rw [fderiv_fun_sub hf hg]; rfl

theorem pd_neg {f : Event → ℝ} {X : Event} (μ : Fin 4) : pd μ (fun Y => -f Y) X = -pd μ f X := by
  unfold pd
  rw [fderiv_fun_neg]; rfl

theorem pd_sum {ι : Type*} (s : Finset ι) {f : ι → Event → ℝ} {X : Event} (hf : ∀ i, DifferentiableAt ℝ (f i) X) (μ : Fin 4) :
    pd μ (fun Y => ∑ i ∈ s, f i Y) X = ∑ i ∈ s, pd μ (f i) X := by
  unfold pd
  rw [fderiv_fun_sum fun i _ => hf i]
  simp only [_root_.sum_apply]

section
variable {G : Event → ADM ℝ} {X : Event}

/-- a spacetime: valid 3+1 data at every event, with differentiable metric at `X`. -/
structure Spacetime (G : Event → ADM ℝ) (X : Event) : Prop where
  valid : ∀ Y, (G Y).Valid
  lapse : ∀ Y, 0 < (G Y).alpha
  pos : ∀ Y, ∀ v : Fin 3 → ℝ, 0 ≤ (G Y).dot3 v v
  metric : ∀ a b, DifferentiableAt ℝ (fun Y => (G Y).g4 a b) X

theorem g4_comm {G : ADM ℝ} (h : G.Valid) (μ ν : Fin 4) : G.g4 μ ν = G.g4 ν μ := by
  refine Fin.cases ?_ (fun i => ?_) μ <;> refine Fin.cases ?_ (fun j => ?_) ν <;>
    simp only [ADM.g4_00, ADM.g4_0s, ADM.g4_s0, ADM.g4_ss]
  exact h.symm i j

theorem g4Inv_comm {G : ADM ℝ} (h : G.Valid) (μ ν : Fin 4) : G.g4Inv μ ν = G.g4Inv ν μ := by
  refine Fin.cases ?_ (fun i => ?_) μ <;> refine Fin.cases ?_ (fun j => ?_) ν <;>
    simp only [ADM.g4Inv_00, ADM.g4Inv_0s, ADM.g4Inv_s0, ADM.g4Inv_ss]
  rw [h.symmInv i j]; ring

theorem metricDeriv_comm (h : Spacetime G X) (a b s : Fin 4) : metricDeriv G X a b s = metricDeriv G X b a s := by
  unfold metricDeriv
  congr 1
  funext Y
  exact g4_comm (h.valid Y) a b

theorem christoffel_comm (h : Spacetime G X) (l m n : Fin 4) : christoffel G X l m n = christoffel G X l n m := by
  unfold christoffel
  refine sum_congr rfl fun s _ => ?_
  rw [metricDeriv_comm h m n]
  ring

/-- `Γ^μ_{μν} = ½ g^{ba} ∂_ν g_{ab}`. -/
theorem christoffel_trace (h : Spacetime G X) (ν : Fin 4) : ∑ μ, christoffel G X μ μ ν = 1/2 * ∑ b, ∑ a, (G X).g4Inv b a * metricDeriv G X a b ν := by
  unfold christoffel
  have e : ∑ μ, ∑ s, (G X).g4Inv μ s * metricDeriv G X s ν μ = ∑ μ, ∑ s, (G X).g4Inv μ s * metricDeriv G X μ ν s := by
    rw [sum_comm]
    exact sum_congr rfl fun a _ => sum_congr rfl fun b _ => by rw [g4Inv_comm (h.valid X)]
  have e2 : ∀ μ s, (G X).g4Inv μ s * ((metricDeriv G X s ν μ + metricDeriv G X s μ ν - metricDeriv G X μ ν s) / 2) =
      1/2 * ((G X).g4Inv μ s * metricDeriv G X s ν μ) + 1/2 * ((G X).g4Inv μ s * metricDeriv G X s μ ν) - 1/2 * ((G X).g4Inv μ s * metricDeriv G X μ ν s) := fun μ s => by ring
  simp only [e2, sum_add_distrib, sum_sub_distrib, ← mul_sum, e]
  ring

theorem rootDet_diff (h : Spacetime G X) : DifferentiableAt ℝ (fun Y => rootDet (G Y)) X :=
  (sqrt_det_deriv G (fun a b => fderiv ℝ (fun Y => (G Y).g4 a b) X) (h.valid X) (h.pos X) fun a b => (h.metric a b).hasFDerivAt).differentiableAt

/-- `∂_ν √-g = √-g Γ^μ_{μν}`. -/
theorem rootDet_deriv (h : Spacetime G X) (ν : Fin 4) : pd ν (fun Y => rootDet (G Y)) X = rootDet (G X) * ∑ μ, christoffel G X μ μ ν := by
  have h1 := (sqrt_det_deriv G (fun a b => fderiv ℝ (fun Y => (G Y).g4 a b) X) (h.valid X) (h.pos X) fun a b => (h.metric a b).hasFDerivAt).fderiv
  unfold pd rootDet
  rw [h1, christoffel_trace h]
  simp only [_root_.smul_apply, _root_.sum_apply, smul_eq_mul, metricDeriv, pd]
  ring

/-- `∂_μ (√-g V^μ) = √-g ∇_μ V^μ`. -/
theorem density_vec (h : Spacetime G X) (V : Event → Fin 4 → ℝ) (hV : ∀ μ, DifferentiableAt ℝ (fun Y => V Y μ) X) :
    ∑ μ, pd μ (fun Y => rootDet (G Y) * V Y μ) X = rootDet (G X) * divVec G V X := by
  have e : ∀ μ, pd μ (fun Y => rootDet (G Y) * V Y μ) X = rootDet (G X) * pd μ (fun Y => V Y μ) X + rootDet (G X) * ∑ l, christoffel G X l l μ * V X μ := fun μ => by
    rw [pd_mul (rootDet_diff h) (hV μ), rootDet_deriv h, ← sum_mul]; ring
  unfold divVec
  simp only [e, sum_add_distrib, ← mul_sum]
  rw [mul_add]
  congr 2
  exact sum_comm

/-- `∂_μ (√-g T^{μν}) = √-g (∇_μ T^{μν} - Γ^ν_{μl} T^{μl})`. -/
theorem density_tens (h : Spacetime G X) (T : Event → Fin 4 → Fin 4 → ℝ) (hT : ∀ μ ν, DifferentiableAt ℝ (fun Y => T Y μ ν) X) (ν : Fin 4) :
    ∑ μ, pd μ (fun Y => rootDet (G Y) * T Y μ ν) X = rootDet (G X) * (divTens G T X ν - ∑ μ, ∑ l, christoffel G X ν μ l * T X μ l) := by
  rw [density_vec h (fun Y μ => T Y μ ν) fun μ => hT μ ν]
  unfold divVec divTens
  congr 1
  rw [eq_sub_iff_add_eq, ← sum_add_distrib]

/-- the lowered Christoffel symbol. -/
theorem christoffel_lower (h : Spacetime G X) (l m n : Fin 4) : ∑ ν, (G X).g4 ν l * christoffel G X ν m n =
    (metricDeriv G X l n m + metricDeriv G X l m n - metricDeriv G X m n l) / 2 := by
  unfold christoffel
  simp only [mul_sum]
  rw [sum_comm]
  have e : ∀ s, ∑ ν, (G X).g4 ν l * ((G X).g4Inv ν s * ((metricDeriv G X s n m + metricDeriv G X s m n - metricDeriv G X m n s) / 2)) =
      (if s = l then 1 else 0) * ((metricDeriv G X s n m + metricDeriv G X s m n - metricDeriv G X m n s) / 2) := fun s => by
    rw [← ADM.g4Inv_mul (h.valid X) s l, sum_mul]
    exact sum_congr rfl fun ν _ => by rw [g4Inv_comm (h.valid X) ν s]; ring
  simp only [e, ite_mul, one_mul, zero_mul, sum_ite_eq', mem_univ, if_true]

/-- `∂_μ (√-g T^μ_l) = √-g (g_{νl} ∇_μ T^{μν} + T^{mn} (∂_m g_{nl} - Γ_{l mn}))`. -/
theorem density_mixed (h : Spacetime G X) (T : Event → Fin 4 → Fin 4 → ℝ) (hT : ∀ μ ν, DifferentiableAt ℝ (fun Y => T Y μ ν) X) (l : Fin 4) :
    ∑ μ, pd μ (fun Y => rootDet (G Y) * ∑ ν, T Y μ ν * (G Y).g4 ν l) X = rootDet (G X) * (∑ ν, (G X).g4 ν l * divTens G T X ν +
      ∑ m, ∑ n, T X m n * (metricDeriv G X n l m - (metricDeriv G X l n m + metricDeriv G X l m n - metricDeriv G X m n l) / 2)) := by
  have hr := rootDet_diff h
  have e : ∀ μ, pd μ (fun Y => rootDet (G Y) * ∑ ν, T Y μ ν * (G Y).g4 ν l) X =
      ∑ ν, (G X).g4 ν l * pd μ (fun Y => rootDet (G Y) * T Y μ ν) X + rootDet (G X) * ∑ ν, T X μ ν * metricDeriv G X ν l μ := fun μ => by
    have e1 : (fun Y => rootDet (G Y) * ∑ ν, T Y μ ν * (G Y).g4 ν l) = fun Y => ∑ ν, rootDet (G Y) * T Y μ ν * (G Y).g4 ν l := by
      funext Y; rw [mul_sum]; exact sum_congr rfl fun _ _ => by ring
    rw [e1, pd_sum univ (f := fun ν Y => rootDet (G Y) * T Y μ ν * (G Y).g4 ν l) fun ν => (hr.mul (hT μ ν)).mul (h.metric ν l)]
    rw [mul_sum, ← sum_add_distrib]
    refine sum_congr rfl fun ν _ => ?_
    rw [pd_mul (f := fun Y => rootDet (G Y) * T Y μ ν) (hr.fun_mul (hT μ ν)) (h.metric ν l)]
    unfold metricDeriv
    ring
  simp only [e, sum_add_distrib, ← mul_sum]
  rw [sum_comm]
  simp only [← mul_sum, density_tens h T hT]
  have e3 : ∑ ν, (G X).g4 ν l * ∑ μ, ∑ k, christoffel G X ν μ k * T X μ k =
      ∑ m, ∑ n, T X m n * ((metricDeriv G X l n m + metricDeriv G X l m n - metricDeriv G X m n l) / 2) := by
    simp only [mul_sum]
    rw [sum_comm]
    refine sum_congr rfl fun m _ => ?_
    rw [sum_comm]
    refine sum_congr rfl fun n _ => ?_
    rw [← christoffel_lower h, mul_sum]
    exact sum_congr rfl fun _ _ => by ring
  have e4 : ∑ ν, (G X).g4 ν l * (rootDet (G X) * (divTens G T X ν - ∑ μ, ∑ k, christoffel G X ν μ k * T X μ k)) =
      rootDet (G X) * (∑ ν, (G X).g4 ν l * divTens G T X ν - ∑ ν, (G X).g4 ν l * ∑ μ, ∑ k, christoffel G X ν μ k * T X μ k) := by
    rw [← sum_sub_distrib, mul_sum]
    exact sum_congr rfl fun _ _ => by ring
  rw [e4, e3]
  simp only [mul_sub, sum_sub_distrib]
  ring

/-- `∂_μ (√-g F^{μν}) = √-g ∇_μ F^{μν}` for antisymmetric `F`. -/
theorem density_anti (h : Spacetime G X) (F : Event → Fin 4 → Fin 4 → ℝ) (hF : ∀ μ ν, DifferentiableAt ℝ (fun Y => F Y μ ν) X) (ha : ∀ μ ν, F X μ ν = -F X ν μ) (ν : Fin 4) :
    ∑ μ, pd μ (fun Y => rootDet (G Y) * F Y μ ν) X = rootDet (G X) * divTens G F X ν := by
  rw [density_tens h F hF]
  have e : ∑ μ, ∑ l, christoffel G X ν μ l * F X μ l = -∑ μ, ∑ l, christoffel G X ν μ l * F X μ l := by
    rw [← sum_neg_distrib]
    rw [sum_comm]
    refine sum_congr rfl fun a _ => ?_
    rw [← sum_neg_distrib]
    exact sum_congr rfl fun b _ => by rw [ha b a, christoffel_comm h ν b a]; ring
  have e0 : ∑ μ, ∑ l, christoffel G X ν μ l * F X μ l = 0 := by linarith
  rw [e0, sub_zero]

end

end Phoebus.Geom
