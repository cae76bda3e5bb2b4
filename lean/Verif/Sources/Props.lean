import Verif.Sources.Model
import Verif.GeomUtils.Props
import Verif.Closure.Props
import Verif.Rel.Props
import Verif.Tracers.Props

/-!
# Geometric source terms: covariance, symmetry, conservation (C73, C74)
-/
namespace Phoebus.Sources
open Finset Geom GeomUtils

/-- Specification: the metric is symmetric, hence so are its derivatives. -/
def SymmD {K : Type*} (dg : Fin 4 → Fin 4 → Fin 4 → K) : Prop := ∀ m n s, dg m n s = dg n m s
/-- Specification: symmetric tensor. -/
def SymmT {K : Type*} (T : Fin 4 → Fin 4 → K) : Prop := ∀ m n, T m n = T n m

section Fluid
variable {K : Type*} [Field K] [CharZero K]

/-- contraction of a symmetric tensor with the connection in the form both sources use. -/
theorem contract_half (dg : Fin 4 → Fin 4 → Fin 4 → K) (T : Fin 4 → Fin 4 → K) (hd : SymmD dg) (hT : SymmT T) (l : Fin 4) :
    ∑ m, ∑ n, T m n * (dg n l m - connection dg l n m) = 1 / 2 * ∑ m, ∑ n, T m n * dg m n l := by
  have e : ∀ m n, T m n * (dg n l m - connection dg l n m) =
      1 / 2 * (T m n * dg m n l) + (1 / 2 * (T m n * dg n l m) - 1 / 2 * (T m n * dg m l n)) := fun m n => by
    unfold connection; rw [hd n m l]; ring
  have e2 : ∑ m, ∑ n, T m n * dg n l m = ∑ m, ∑ n, T m n * dg m l n := by
    rw [sum_comm]
    exact sum_congr rfl fun m _ => sum_congr rfl fun n _ => by rw [hT]
  simp only [e, sum_add_distrib, sum_sub_distrib, ← mul_sum]
  rw [e2]; ring

theorem contract_zero (dg : Fin 4 → Fin 4 → Fin 4 → K) (T : Fin 4 → Fin 4 → K) (hd : SymmD dg) (hT : SymmT T) (l : Fin 4) :
    ∑ m, ∑ n, T m n * connection dg n l m = 1 / 2 * ∑ m, ∑ n, T m n * dg m n l := by
  have e : ∀ m n, T m n * connection dg n l m =
      1 / 2 * (T m n * dg m n l) + (1 / 2 * (T m n * dg l n m) - 1 / 2 * (T m n * dg l m n)) := fun m n => by
    unfold connection; ring
  have e2 : ∑ m, ∑ n, T m n * dg l n m = ∑ m, ∑ n, T m n * dg l m n := by
    rw [sum_comm]
    exact sum_congr rfl fun m _ => sum_congr rfl fun n _ => by rw [hT]
  simp only [e, sum_add_distrib, sum_sub_distrib, ← mul_sum]
  rw [e2]; ring

variable [LinearOrder K]

/-- **C73** the momentum source is `√-g ½ T^{mn} ∂_l g_{mn}` for every symmetric stress-energy tensor. -/
theorem momentum_source_eq (gdet : K) (dg : Fin 4 → Fin 4 → Fin 4 → K) (T : Fin 4 → Fin 4 → K) (hd : SymmD dg) (hT : SymmT T)
    (l : Fin 3) : momentumSource gdet dg T l = gdet * (1 / 2 * ∑ m, ∑ n, T m n * dg m n l.succ) := by
  unfold momentumSource; rw [contract_half dg T hd hT]

/-- **C73** no momentum is created along a coordinate the metric does not depend on (angular momentum, linear momentum). -/
theorem momentum_source_symmetry (gdet : K) (dg : Fin 4 → Fin 4 → Fin 4 → K) (T : Fin 4 → Fin 4 → K) (hd : SymmD dg)
    (hT : SymmT T) (l : Fin 3) (hs : ∀ m n, dg m n l.succ = 0) : momentumSource gdet dg T l = 0 := by
  rw [momentum_source_eq gdet dg T hd hT]; simp [hs]

/-- **C73** covariant formulation: the energy source is `√-g ½ T^{mn} ∂_t g_{mn}`; it vanishes in a stationary spacetime. -/
theorem energy_source_covariant (gdet : K) (dg : Fin 4 → Fin 4 → Fin 4 → K) (T : Fin 4 → Fin 4 → K) (hd : SymmD dg) (hT : SymmT T) :
    energySourceCovariant gdet dg T = gdet * (1 / 2 * ∑ m, ∑ n, T m n * dg m n 0) ∧
    ((∀ m n, dg m n 0 = 0) → energySourceCovariant gdet dg T = 0) := by
  have h : energySourceCovariant gdet dg T = gdet * (1 / 2 * ∑ m, ∑ n, T m n * dg m n 0) := by
    unfold energySourceCovariant; rw [contract_zero dg T hd hT]
  exact ⟨h, fun hz => by rw [h]; simp [hz]⟩

end Fluid

section Valencia
variable {K : Type*} [Field K] [LinearOrder K]

theorem gcon0_eq (G : ADM K) : gcon0 0 G = G.g4Inv 0 := by
  funext r
  refine Fin.cases ?_ (fun i => ?_) r
  · simp [gcon0, Robust.ratio]; ring
  · simp [gcon0, Robust.ratio]; ring

/-- Specification: covariant derivative `∇_m n_n` of the unit normal `n_μ = (-α,0,0,0)`, from `∂_m α = α ∂_m lnα` and
`Γ^0_{mn} = g^{0r} Γ_{r m n}`. -/
def nablaN (G : ADM K) (dg : Fin 4 → Fin 4 → Fin 4 → K) (da : Fin 4 → K) (m n : Fin 4) : K :=
  (if n = 0 then -(G.alpha * da m) else 0) - (∑ r, G.g4Inv 0 r * connection dg r m n) * (-G.alpha)

/-- **C73** Valencia formulation: the energy source is `-√-g T^{mn} ∇_m n_n`, the work done on the normal observers, for
every metric and stress-energy tensor. -/
theorem energy_source_valencia (G : ADM K) (gdet : K) (dg : Fin 4 → Fin 4 → Fin 4 → K) (da : Fin 4 → K) (T : Fin 4 → Fin 4 → K) :
    energySourceValencia 0 G gdet dg da T = -(gdet * ∑ m, ∑ n, T m n * nablaN G dg da m n) := by
  unfold energySourceValencia nablaN
  rw [gcon0_eq]
  simp only [mul_sub, sum_sub_distrib, mul_ite, mul_zero, sum_ite_eq', mem_univ, if_true]
  have e1 : ∑ m, T m 0 * -(G.alpha * da m) = -(G.alpha * ∑ m, T m 0 * da m) := by
    rw [mul_sum, ← sum_neg_distrib]; exact sum_congr rfl fun _ _ => by ring
  have e2 : ∑ m, ∑ n, T m n * ((∑ r, G.g4Inv 0 r * connection dg r m n) * -G.alpha) =
      -(G.alpha * ∑ m, ∑ n, T m n * ∑ r, G.g4Inv 0 r * connection dg r m n) := by
    rw [mul_sum, ← sum_neg_distrib]
    refine sum_congr rfl fun m _ => ?_
    rw [mul_sum, ← sum_neg_distrib]
    exact sum_congr rfl fun n _ => by ring
  rw [e1, e2]; ring

end Valencia

/-- **C73** static metric without shift: the energy source is minus the momentum density times the gradient of `ln α`
(work of gravity), exactly. -/
theorem energy_source_static (G : ADM ℝ) (ha : G.alpha ≠ 0) (hb : G.beta = 0) (gdet : ℝ) (dg : Fin 4 → Fin 4 → Fin 4 → ℝ)
    (da : Fin 4 → ℝ) (T : Fin 4 → Fin 4 → ℝ) (hd : SymmD dg) (hT : SymmT T) (hstat : ∀ m n, dg m n 0 = 0)
    (hmix : ∀ i : Fin 3, ∀ s, dg 0 i.succ s = 0) (h00 : ∀ i : Fin 3, dg 0 0 i.succ = -2 * G.alpha ^ 2 * da i.succ) (ht : da 0 = 0) :
    energySourceValencia 0 G gdet dg da T = -(gdet * G.alpha * ∑ i : Fin 3, T 0 i.succ * da i.succ) := by
  have g0 : ∀ r : Fin 3, G.g4Inv 0 r.succ = 0 := fun r => by rw [ADM.g4Inv_0s, hb]; simp
  have hG : ∀ m n, ∑ r, G.g4Inv 0 r * connection dg r m n = -1 / G.alpha ^ 2 * connection dg 0 m n := fun m n => by
    rw [Fin.sum_univ_succ]; simp [g0]
  have c00 : connection dg 0 0 0 = 0 := by simp [connection, hstat]
  have c0i : ∀ i : Fin 3, connection dg 0 0 i.succ = 1 / 2 * dg 0 0 i.succ := fun i => by
    simp [connection, hstat]
  have ci0 : ∀ i : Fin 3, connection dg 0 i.succ 0 = 1 / 2 * dg 0 0 i.succ := fun i => by
    simp [connection, hstat]
  have cij : ∀ i j : Fin 3, connection dg 0 i.succ j.succ = 0 := fun i j => by
    simp only [connection, hstat]; rw [hd i.succ 0, hd j.succ 0, hmix, hmix]; ring
  unfold energySourceValencia
  rw [gcon0_eq]
  simp only [hG]
  have e1 : ∑ m, ∑ n, T m n * (-1 / G.alpha ^ 2 * connection dg 0 m n) = 2 * ∑ i : Fin 3, T 0 i.succ * da i.succ := by
    rw [Fin.sum_univ_succ, Fin.sum_univ_succ]
    have : ∀ i : Fin 3, ∑ n, T i.succ n * (-1 / G.alpha ^ 2 * connection dg 0 i.succ n) = T 0 i.succ * da i.succ := fun i => by
      rw [Fin.sum_univ_succ]
      simp only [cij, ci0, h00]
      rw [hT i.succ 0]
      field_simp
      simp
    simp only [this, c00, c0i, h00]
    rw [mul_zero, mul_zero, zero_add, two_mul]
    congr 1
    refine sum_congr rfl fun i _ => ?_
    field_simp
  rw [e1, Fin.sum_univ_succ (f := fun m => T m 0 * da m), ht]
  have e2 : ∑ i : Fin 3, T i.succ 0 * da i.succ = ∑ i : Fin 3, T 0 i.succ * da i.succ :=
    sum_congr rfl fun i _ => by rw [hT]
  rw [e2]; ring

/-- **C73** in flat spacetime in Cartesian coordinates all sources vanish. -/
theorem sources_flat (G : ADM ℝ) (gdet : ℝ) (T : Fin 4 → Fin 4 → ℝ) :
    (∀ l, momentumSource gdet (fun _ _ _ => 0) T l = 0) ∧ energySourceCovariant gdet (fun _ _ _ => 0) T = 0 ∧
    energySourceValencia 0 G gdet (fun _ _ _ => 0) (fun _ => 0) T = 0 := by
  simp [momentumSource, energySourceCovariant, energySourceValencia, connection]

/-! ## C74: radiation -/

theorem conT_symm (G : ADM ℝ) (E : ℝ) (F : Fin 3 → ℝ) (P : Fin 3 → Fin 3 → ℝ) (hP : ∀ i j, P i j = P j i) : SymmT (conT G E F P) := by
  intro m n
  unfold conT
  have : (Fin.cons (fun _ => 0) (fun i => spatial (P i)) : Fin 4 → Fin 4 → ℝ) m n =
      (Fin.cons (fun _ => 0) (fun i => spatial (P i)) : Fin 4 → Fin 4 → ℝ) n m := by
    refine Fin.cases ?_ (fun i => ?_) m <;> refine Fin.cases ?_ (fun j => ?_) n
    · rfl
    · simp [spatial]
    · simp [spatial]
    · simp [spatial, hP]
  rw [this]; ring

/-- Specification: lower index of the normal. -/
def covN (G : ADM ℝ) : Fin 4 → ℝ := ![-G.alpha, 0, 0, 0]

/-- **C74** the assembled tensor is the radiation stress-energy tensor: the normal observer measures the energy density `E`,
the flux `F` and the pressure `P` (`n_μ n_ν T^{μν} = E`, `-n_μ T^{μν} = E n^ν + F^ν`, and what is left is `P`). -/
theorem conT_projections (G : ADM ℝ) (ha : G.alpha ≠ 0) (E : ℝ) (F : Fin 3 → ℝ) (P : Fin 3 → Fin 3 → ℝ) :
    ∑ m, ∑ n, covN G m * covN G n * conT G E F P m n = E ∧
    (∀ n, -∑ m, covN G m * conT G E F P m n = E * conN G n + spatial F n) ∧
    ∀ i j : Fin 3, conT G E F P i.succ j.succ - conN G i.succ * conN G j.succ * E - conN G i.succ * F j - conN G j.succ * F i = P i j := by
  have h2 : ∀ n, -∑ m, covN G m * conT G E F P m n = E * conN G n + spatial F n := fun n => by
    rw [Fin.sum_univ_succ]
    have : ∀ i : Fin 3, covN G i.succ = 0 := fun i => by fin_cases i <;> rfl
    simp only [this, zero_mul, sum_const_zero, add_zero]
    have h0 : covN G 0 = -G.alpha := rfl
    have hn : conN G 0 = 1 / G.alpha := rfl
    rw [h0]
    unfold conT
    rw [hn]
    have hs : spatial F 0 = 0 := rfl
    rw [hs]
    simp only [Fin.cons_zero]
    field_simp
    ring
  refine ⟨?_, h2, ?_⟩
  · have e : ∑ m, ∑ n, covN G m * covN G n * conT G E F P m n = ∑ n, covN G n * ∑ m, covN G m * conT G E F P m n := by
      rw [sum_comm]
      refine sum_congr rfl fun n _ => ?_
      rw [mul_sum]; exact sum_congr rfl fun m _ => by ring
    rw [e, Fin.sum_univ_succ]
    have : ∀ i : Fin 3, covN G i.succ = 0 := fun i => by fin_cases i <;> rfl
    simp only [this, zero_mul, sum_const_zero, add_zero]
    have h0 : covN G 0 = -G.alpha := rfl
    have hn : conN G 0 = 1 / G.alpha := rfl
    have hs : spatial F 0 = 0 := rfl
    have := h2 0
    rw [hn, hs] at this
    rw [h0]
    field_simp at this ⊢
    linarith
  · intro i j
    unfold conT
    simp [spatial]
    ring

/-- **C74** radiation and fluid use the same geometric source: for the same tensor and `√-g = α √γ` the radiation energy and
momentum sources are those of the fluid in the Valencia formulation. -/
theorem rad_eq_fluid (G : ADM ℝ) (sdetgam : ℝ) (dg : Fin 4 → Fin 4 → Fin 4 → ℝ) (da : Fin 4 → ℝ) (T : Fin 4 → Fin 4 → ℝ) :
    radEnergySource G sdetgam dg da T = energySourceValencia 0 G (G.alpha * sdetgam) dg da T ∧
    radMomentumSource G sdetgam dg T = momentumSource (G.alpha * sdetgam) dg T := by
  constructor
  · unfold radEnergySource energySourceValencia; rw [gcon0_eq]; rw [mul_comm sdetgam G.alpha]
  · rfl

theorem conP_symm (G : ADM ℝ) (hG : G.Valid) (v : Closure.Vec) (Pi : Closure.Tens2) (hPi : ∀ i j, Pi i j = Pi j i) (J : ℝ) (H : Closure.Vec)
    (i j : Fin 3) : Closure.conP G v Pi J H i j = Closure.conP G v Pi J H j i := by
  unfold Closure.conP; rw [hPi i j, hG.symmInv i j]
  have hc : ∀ a b c : ℝ, a + b + c = a + c + b := fun a b c => add_right_comm a b c
  simp only [mul_comm, mul_left_comm, add_comm, add_left_comm, mul_assoc]

/-- **C74** the momentum source of the stored radiation fields vanishes along every symmetry of the metric and is
`α√γ ½ T^{mn}∂_l g_{mn}` in general, for every state and symmetric closure tensor. -/
theorem rad_momentum_symmetry (G : ADM ℝ) (hG : G.Valid) (v : Closure.Vec) (sdetgam : ℝ) (dg : Fin 4 → Fin 4 → Fin 4 → ℝ) (da : Fin 4 → ℝ)
    (Ec : ℝ) (Fc : Closure.Vec) (J : ℝ) (h : Closure.Vec) (Pi : Closure.Tens2) (hPi : ∀ i j, Pi i j = Pi j i) (hd : SymmD dg) (l : Fin 3) :
    (radSources G v sdetgam dg da Ec Fc J h Pi).2 l = G.alpha * sdetgam * (1 / 2 * ∑ m, ∑ n,
      conT G (Ec / sdetgam) (Closure.raise G fun i => Fc i / sdetgam) (Closure.conP G v Pi J fun i => J * h i) m n * dg m n l.succ) ∧
    ((∀ m n, dg m n l.succ = 0) → (radSources G v sdetgam dg da Ec Fc J h Pi).2 l = 0) := by
  have hT := conT_symm G (Ec / sdetgam) (Closure.raise G fun i => Fc i / sdetgam) _ (conP_symm G hG v Pi hPi J fun i => J * h i)
  have e : (radSources G v sdetgam dg da Ec Fc J h Pi).2 l = momentumSource (G.alpha * sdetgam) dg
      (conT G (Ec / sdetgam) (Closure.raise G fun i => Fc i / sdetgam) (Closure.conP G v Pi J fun i => J * h i)) l := rfl
  constructor
  · rw [e, momentum_source_eq _ dg _ hd hT]
  · intro hs; rw [e, momentum_source_symmetry _ dg _ hd hT l hs]

/-- **C74** the energy source of the stored radiation fields is `-α√γ T^{mn}∇_m n_n` for the tensor assembled from them. -/
theorem rad_energy_source (G : ADM ℝ) (v : Closure.Vec) (sdetgam : ℝ) (dg : Fin 4 → Fin 4 → Fin 4 → ℝ) (da : Fin 4 → ℝ)
    (Ec : ℝ) (Fc : Closure.Vec) (J : ℝ) (h : Closure.Vec) (Pi : Closure.Tens2) :
    (radSources G v sdetgam dg da Ec Fc J h Pi).1 = -(G.alpha * sdetgam * ∑ m, ∑ n,
      conT G (Ec / sdetgam) (Closure.raise G fun i => Fc i / sdetgam) (Closure.conP G v Pi J fun i => J * h i) m n * nablaN G dg da m n) := by
  rw [← energy_source_valencia, ← (rad_eq_fluid G sdetgam dg da _).1]; rfl

/-- concrete case: a dust column at rest in the metric `-(1+2Φ)dt² + dx²` with `Φ' = 1/10` at `Φ = 0`: the force is `-ρ Φ'`. -/
theorem ex_sources : momentumSource (1 : ℚ) (fun m n s => if m = 0 ∧ n = 0 ∧ s = 1 then -1/5 else 0)
    (fun m n => if m = 0 ∧ n = 0 then 3 else 0) 0 = -3/10 := by decide +kernel

end Phoebus.Sources
