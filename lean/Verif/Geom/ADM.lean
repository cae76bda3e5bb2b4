import Verif.Common

/-!
# Specification: a spacetime metric in 3+1 form

Textbook definitions only (no code is modelled here).  `alpha` is the lapse, `beta` the contravariant shift, `gam` the
spatial metric, `gamInv` its inverse.
-/
namespace Phoebus.Geom
open Finset
variable {K : Type*} [Field K]

/-- 3+1 data at one point. -/
structure ADM (K : Type*) where
  alpha : K
  beta : Fin 3 → K
  gam : Fin 3 → Fin 3 → K
  gamInv : Fin 3 → Fin 3 → K

/-- spatial inner product `γ_ij x^i y^j`. -/
def ADM.dot3 (G : ADM K) (x y : Fin 3 → K) : K := ∑ i, ∑ j, G.gam i j * x i * y j

/-- covariant shift. -/
def ADM.betaCov (G : ADM K) (i : Fin 3) : K := ∑ j, G.gam i j * G.beta j

/-- the covariant 4-metric `g_{μν}`. -/
def ADM.g4 (G : ADM K) : Fin 4 → Fin 4 → K :=
  Fin.cons (Fin.cons (-G.alpha ^ 2 + G.dot3 G.beta G.beta) G.betaCov)
    fun i => Fin.cons (G.betaCov i) (G.gam i)

/-- the contravariant 4-metric `g^{μν}`. -/
def ADM.g4Inv (G : ADM K) : Fin 4 → Fin 4 → K :=
  Fin.cons (Fin.cons (-1 / G.alpha ^ 2) fun i => G.beta i / G.alpha ^ 2)
    fun i => Fin.cons (G.beta i / G.alpha ^ 2) fun j => G.gamInv i j - G.beta i * G.beta j / G.alpha ^ 2

/-- contraction of two contravariant vectors with a covariant metric. -/
def dot4 (g : Fin 4 → Fin 4 → K) (x y : Fin 4 → K) : K := ∑ μ, ∑ ν, g μ ν * x μ * y ν

/-- nondegenerate, symmetric 3+1 data. -/
structure ADM.Valid (G : ADM K) : Prop where
  alpha_ne : G.alpha ≠ 0
  symm : ∀ i j, G.gam i j = G.gam j i
  symmInv : ∀ i j, G.gamInv i j = G.gamInv j i
  inv : ∀ i j, ∑ k, G.gam i k * G.gamInv k j = if i = j then 1 else 0

@[simp] theorem ADM.g4_00 (G : ADM K) : G.g4 0 0 = -G.alpha ^ 2 + G.dot3 G.beta G.beta := rfl
@[simp] theorem ADM.g4_0s (G : ADM K) (i : Fin 3) : G.g4 0 i.succ = G.betaCov i := rfl
@[simp] theorem ADM.g4_s0 (G : ADM K) (i : Fin 3) : G.g4 i.succ 0 = G.betaCov i := rfl
@[simp] theorem ADM.g4_ss (G : ADM K) (i j : Fin 3) : G.g4 i.succ j.succ = G.gam i j := rfl
@[simp] theorem ADM.g4Inv_00 (G : ADM K) : G.g4Inv 0 0 = -1 / G.alpha ^ 2 := rfl
@[simp] theorem ADM.g4Inv_0s (G : ADM K) (i : Fin 3) : G.g4Inv 0 i.succ = G.beta i / G.alpha ^ 2 := rfl
@[simp] theorem ADM.g4Inv_s0 (G : ADM K) (i : Fin 3) : G.g4Inv i.succ 0 = G.beta i / G.alpha ^ 2 := rfl
@[simp] theorem ADM.g4Inv_ss (G : ADM K) (i j : Fin 3) :
    G.g4Inv i.succ j.succ = G.gamInv i j - G.beta i * G.beta j / G.alpha ^ 2 := rfl

theorem ADM.Valid.inv' {G : ADM K} (h : G.Valid) (i j : Fin 3) :
    ∑ k, G.gamInv i k * G.gam k j = if i = j then 1 else 0 := by
  rw [← show (if j = i then (1:K) else 0) = if i = j then 1 else 0 by simp only [eq_comm], ← h.inv j i]
  exact sum_congr rfl fun k _ => by rw [h.symmInv i k, h.symm k j]; ring

theorem ADM.dot3_comm {G : ADM K} (h : G.Valid) (x y : Fin 3 → K) : G.dot3 x y = G.dot3 y x := by
  unfold ADM.dot3; rw [sum_comm]
  exact sum_congr rfl fun i _ => sum_congr rfl fun j _ => by rw [h.symm j i]; ring

/-- `g^{μλ} g_{λν} = δ^μ_ν`. -/
theorem ADM.g4Inv_mul {G : ADM K} (h : G.Valid) (μ ν : Fin 4) :
    ∑ l, G.g4Inv μ l * G.g4 l ν = if μ = ν then 1 else 0 := by
  have ha := h.alpha_ne
  have hi := h.inv'
  simp only [Fin.sum_univ_three] at hi
  rw [Fin.sum_univ_succ]
  refine Fin.cases ?_ (fun i => ?_) μ <;> refine Fin.cases ?_ (fun j => ?_) ν
  · simp only [ADM.g4Inv_00, ADM.g4_00, ADM.g4Inv_0s, ADM.g4_s0, Fin.sum_univ_three, ADM.betaCov, ADM.dot3,
      if_true]
    field_simp; ring
  · simp only [ADM.g4Inv_00, ADM.g4_0s, ADM.g4Inv_0s, ADM.g4_ss, Fin.sum_univ_three, ADM.betaCov,
      (Fin.succ_ne_zero j).symm, if_false]
    rw [h.symm j 0, h.symm j 1, h.symm j 2]
    field_simp; ring
  · simp only [ADM.g4Inv_s0, ADM.g4_00, ADM.g4Inv_ss, ADM.g4_s0, Fin.sum_univ_three, ADM.betaCov, ADM.dot3,
      Fin.succ_ne_zero i, if_false]
    have e0 := hi i 0
    have e1 := hi i 1
    have e2 := hi i 2
    have : G.gamInv i 0 * (G.gam 0 0 * G.beta 0 + G.gam 0 1 * G.beta 1 + G.gam 0 2 * G.beta 2) +
        G.gamInv i 1 * (G.gam 1 0 * G.beta 0 + G.gam 1 1 * G.beta 1 + G.gam 1 2 * G.beta 2) +
        G.gamInv i 2 * (G.gam 2 0 * G.beta 0 + G.gam 2 1 * G.beta 1 + G.gam 2 2 * G.beta 2) = G.beta i := by
      have : ∀ k : Fin 3, G.gamInv i 0 * G.gam 0 k + G.gamInv i 1 * G.gam 1 k + G.gamInv i 2 * G.gam 2 k =
        if i = k then 1 else 0 := hi i
      calc _ = (if i = 0 then 1 else 0) * G.beta 0 + (if i = 1 then 1 else 0) * G.beta 1 +
            (if i = 2 then 1 else 0) * G.beta 2 := by rw [← e0, ← e1, ← e2]; ring
        _ = _ := by fin_cases i <;> simp
    linear_combination this - G.beta i * (mul_inv_cancel₀ (pow_ne_zero 2 ha))
  · simp only [ADM.g4Inv_s0, ADM.g4_0s, ADM.g4Inv_ss, ADM.g4_ss, Fin.sum_univ_three, ADM.betaCov,
      Fin.succ_inj]
    rw [← hi i j, h.symm j 0, h.symm j 1, h.symm j 2]
    ring

/-- Contraction of vectors written as `(x0, X - x0 β)`: the 3+1 split of the inner product. -/
theorem ADM.dot4_split {G : ADM K} (h : G.Valid) (x0 y0 : K) (X Y : Fin 3 → K) :
    dot4 G.g4 (Fin.cons x0 fun i => X i - x0 * G.beta i) (Fin.cons y0 fun i => Y i - y0 * G.beta i) =
      -G.alpha ^ 2 * x0 * y0 + G.dot3 X Y := by
  simp only [dot4, Fin.sum_univ_succ (n := 3), ADM.g4_00, ADM.g4_0s, ADM.g4_s0, ADM.g4_ss, Fin.cons_zero,
    Fin.cons_succ, Fin.sum_univ_three, ADM.betaCov, ADM.dot3]
  rw [h.symm 1 0, h.symm 2 0, h.symm 2 1]; ring

end Phoebus.Geom
