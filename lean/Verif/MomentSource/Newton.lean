import Verif.MomentSource.Props
import Verif.LinAlg.Props

/-!
# The Newton solver of the radiation source: Jacobian, steps, recovery, floors
-/
namespace Phoebus.MomentSource
open Geom Robust LinAlg Finset Closure

/-- **C49** The Lorentz factor used by the source is that of the fluid velocity primitives. -/
theorem srcW_eq (G : ADM ℝ) (P : V4) : srcW G.g4 P = Real.sqrt (1 + G.dot3 (fun i => P i.succ) (fun i => P i.succ)) := by
  unfold srcW
  congr 2

namespace Solver4

theorem bump_self (P : V4) (k : Fin 4) (h : ℝ) : bump P k h k = P k + h := by simp [bump]

theorem bump_sum (A : Fin 4 → ℝ) (P : V4) (k : Fin 4) (h : ℝ) : ∑ j, A j * bump P k h j = ∑ j, A j * P j + A k * h := by
  have : ∀ j, A j * bump P k h j = A j * P j + if j = k then A k * h else 0 := by
    intro j; unfold bump; split_ifs with e
    · subst e; ring
    · ring
  simp only [this, sum_add_distrib, Finset.sum_ite_eq', mem_univ, if_true]

/-- **C49** The Jacobian is built from states whose radiation inversion succeeded only: if the residual is affine with matrix `A` on those
states (whatever it is elsewhere), any Jacobian the solver builds at an invertible guess is `A`. -/
theorem jac_exact (m : Solver4) (eps large : ℝ) (P : V4) (A : Fin 4 → Fin 4 → ℝ) (b : V4) (hP : ¬ m.bad P)
    (hA : ∀ Q, ¬ m.bad Q → ∀ n, m.resid Q n = b n + ∑ j, A n j * Q j) (hh : ∀ k, fdStep eps (magMin large P) P k ≠ 0)
    (J : Fin 4 → Fin 4 → ℝ) (hJ : m.jac eps large P = some J) : J = A := by
  simp only [jac] at hJ
  by_cases hM : ∃ k, m.bad (bump P k (-fdStep eps (magMin large P) P k))
  · by_cases hp : ∃ k, m.bad (bump P k (fdStep eps (magMin large P) P k))
    · rw [if_pos ⟨hM, hp⟩] at hJ; exact absurd hJ (by simp)
    · rw [if_neg (fun h => hp h.2), if_pos hM] at hJ
      simp only [Option.some.injEq] at hJ
      rw [← hJ]; funext n k
      push Not at hp
      rw [hA _ (hp k), hA _ hP, bump_sum, bump_self]
      have := hh k
      rw [show P k + fdStep eps (magMin large P) P k - P k = fdStep eps (magMin large P) P k by ring]
      field_simp; ring
  · by_cases hp : ∃ k, m.bad (bump P k (fdStep eps (magMin large P) P k))
    · rw [if_neg (fun h => hM h.1), if_neg hM, if_pos hp] at hJ
      simp only [Option.some.injEq] at hJ
      rw [← hJ]; funext n k
      push Not at hM
      rw [hA _ (hM k), hA _ hP, bump_sum, bump_self]
      have := hh k
      rw [show P k - (P k + -fdStep eps (magMin large P) P k) = fdStep eps (magMin large P) P k by ring]
      field_simp; ring
    · rw [if_neg (fun h => hM h.1), if_neg hM, if_neg hp] at hJ
      simp only [Option.some.injEq] at hJ
      rw [← hJ]; funext n k
      push Not at hM hp
      rw [hA _ (hM k), hA _ (hp k), bump_sum, bump_sum, bump_self, bump_self]
      have := hh k
      rw [show P k + fdStep eps (magMin large P) P k - (P k + -fdStep eps (magMin large P) P k) = 2 * fdStep eps (magMin large P) P k by ring]
      field_simp; ring

theorem magMin_spec (large : ℝ) (P : V4) (hl : 0 < large) : 0 < magMin large P ∧ magMin large P ≤ large ∧
    (∀ j, P j ≠ 0 → magMin large P ≤ |P j|) ∧ (magMin large P = large ∨ ∃ j, P j ≠ 0 ∧ magMin large P = |P j|) := by
  classical
  have key : ∀ (l : List (Fin 4)) (a : ℝ), 0 < a → let r := l.foldl (fun a k => if |P k| > 0 then min a |P k| else a) a
      0 < r ∧ r ≤ a ∧ (∀ j ∈ l, P j ≠ 0 → r ≤ |P j|) ∧ (r = a ∨ ∃ j, P j ≠ 0 ∧ r = |P j|) := by
    intro l
    induction l with
    | nil => intro a ha; simp [ha]
    | cons x l ih =>
      intro a ha
      simp only [List.foldl_cons]
      by_cases hx : |P x| > 0
      · rw [if_pos hx]
        obtain ⟨h1, h2, h3, h4⟩ := ih (min a |P x|) (lt_min ha hx)
        refine ⟨h1, h2.trans (min_le_left _ _), ?_, ?_⟩
        · intro j hj hPj
          rcases List.mem_cons.1 hj with rfl | hj
          · exact h2.trans (min_le_right _ _)
          · exact h3 j hj hPj
        · rcases h4 with h4 | h4
          · rcases min_choice a |P x| with h5 | h5
            · left; rw [h4, h5]
            · right; exact ⟨x, abs_pos.1 hx, by rw [h4, h5]⟩
          · exact Or.inr h4
      · rw [if_neg hx]
        obtain ⟨h1, h2, h3, h4⟩ := ih a ha
        refine ⟨h1, h2, ?_, h4⟩
        intro j hj hPj
        rcases List.mem_cons.1 hj with rfl | hj
        · exact absurd (abs_pos.2 hPj) hx
        · exact h3 j hj hPj
  have := key (List.finRange 4) large hl
  refine ⟨this.1, this.2.1, fun j hj => this.2.2.1 j (List.mem_finRange j) hj, this.2.2.2⟩

/-- **C49** The finite-difference steps: always positive, relative `eps` for a component that is not zero, and for a component that is zero
`eps` times the smallest nonzero component. -/
theorem step_spec (eps large : ℝ) (P : V4) (he : 0 < eps) (hl : 0 < large) (k : Fin 4) :
    0 < fdStep eps (magMin large P) P k ∧ (P k ≠ 0 → fdStep eps (magMin large P) P k = eps * |P k|) ∧
    (P k = 0 → (∀ j, P j ≠ 0 → fdStep eps (magMin large P) P k ≤ eps * |P j|) ∧ fdStep eps (magMin large P) P k ≤ eps * large) := by
  obtain ⟨h1, h2, h3, _⟩ := magMin_spec large P hl
  refine ⟨lt_max_of_lt_left (mul_pos he h1), ?_, ?_⟩
  · intro hk; unfold fdStep; exact max_eq_right (mul_le_mul_of_nonneg_left (h3 k hk) he.le)
  · intro hk
    have e : fdStep eps (magMin large P) P k = eps * magMin large P := by
      unfold fdStep; rw [hk, abs_zero, mul_zero]; exact max_eq_left (mul_pos he h1).le
    rw [e]
    exact ⟨fun j hj => mul_le_mul_of_nonneg_left (h3 j hj) he.le, mul_le_mul_of_nonneg_left h2 he.le⟩

/-- **C49** For an affine residual with invertible matrix one pass of the solver lands on the root, provided the step stays in invertible states. -/
theorem pass_affine (m : Solver4) (eps large SMALL xiMax : ℝ) (flux : V4 → ℝ) (P : V4) (A : Fin 4 → Fin 4 → ℝ) (b : V4) (he : 0 < eps) (hl : 0 < large)
    (hgood : ∀ Q, ¬ m.bad Q) (hA : ∀ Q n, m.resid Q n = b n + ∑ j, A n j * Q j) (hdet : (Matrix.of A).det ≠ 0) :
    ∃ Q, m.pass eps large SMALL xiMax flux P = some Q ∧ ∀ n, m.resid Q n = 0 := by
  have hsome : ∃ J, m.jac eps large P = some J := by
    simp only [jac]
    rw [if_neg (fun h => (h.1.elim fun k hk => hgood _ hk)), if_neg (fun h => h.elim fun k hk => hgood _ hk), if_neg (fun h => h.elim fun k hk => hgood _ hk)]
    exact ⟨_, rfl⟩
  obtain ⟨J, hJ⟩ := hsome
  have hJA : J = A := m.jac_exact eps large P A b (hgood P) (fun Q _ => hA Q) (fun k => (step_spec eps large P he hl k).1.ne') J hJ
  refine ⟨m.newton (inverse4 J) P, ?_, ?_⟩
  · unfold pass; rw [hJ]; simp only [hgood, if_false]
  · intro n
    rw [hA, hJA]
    have hinv : ∀ n k, ∑ j, A n j * inverse4 A j k = if n = k then 1 else 0 := by
      intro n k
      have h := congrFun (congrFun (inverse4_is_inverse A hdet).1 n) k
      rw [Matrix.mul_apply, Matrix.one_apply] at h
      simpa using h
    have : ∑ j, A n j * m.newton (inverse4 A) P j = ∑ j, A n j * P j - ∑ k, (∑ j, A n j * inverse4 A j k) * m.resid P k := by
      simp only [newton, Fin.sum_univ_four]; ring
    rw [this]
    simp only [hinv, ite_mul, one_mul, zero_mul, Finset.sum_ite_eq, mem_univ, if_true]
    rw [hA]; ring

/-- **C49** The rescue is attempted in one situation only: the old guess was already below a floor and the step moved it up, but not above
the floor.  Stated for the rest-frame energy density. -/
theorem pass_rescue (m : Solver4) (eps large SMALL xiMax : ℝ) (hS : 0 < SMALL) (hS1 : SMALL < 1) (flux : V4 → ℝ) (P : V4) (J : Fin 4 → Fin 4 → ℝ)
    (hJ : m.jac eps large P = some J) (hbad : m.bad (m.newton (inverse4 J) P)) (hu : 100 * SMALL ≤ m.newton (inverse4 J) P 0) (hx : 0 < xiMax) :
    let P1 := m.newton (inverse4 J) P
    let J0 := (m.radPrim P (m.rad P)).2 0
    let J1 := (m.radPrim P1 (m.rad P1)).2 0
    let s := (J0 - 100 * SMALL) / (J0 - J1)
    let P2 : V4 := fun k => P1 k + (1 - 0.5 * s) * ∑ n, inverse4 J k n * m.resid P n
    (J0 < J1 → J1 < 100 * SMALL → (m.radPrim P2 (m.rad P2)).1 = Status.success → m.pass eps large SMALL xiMax flux P = some P2) ∧
    (100 * SMALL ≤ J0 ∨ 100 * SMALL ≤ J1 ∨ J1 < J0 → m.pass eps large SMALL xiMax flux P = none) := by
  intro P1 J0 J1 s P2
  have ha : flux P1 > xiMax → xiMax / flux P1 < 1 := fun h => by rw [div_lt_one (by linarith)]; exact h
  have ha0 : flux P1 > xiMax → 0 < xiMax / flux P1 := fun h => div_pos hx (by linarith)
  constructor
  · intro h01 h1 hok
    have hs1 : 1 < s := by
      show 1 < (J0 - 100 * SMALL) / (J0 - J1)
      rw [← neg_div_neg_eq, one_lt_div (by linarith)]; linarith
    have hsc : scalingFactor (flux P1) xiMax (100 * SMALL) (100 * SMALL) (P 0) (P1 0) J0 J1 = s := by
      simp only [scalingFactor]
      rw [if_neg (not_lt.2 hu), if_pos h1]
      split_ifs with h2
      · apply max_eq_right
        have := ha h2
        exact (max_le (by linarith) this.le).trans hs1.le
      · exact max_eq_right (by linarith)
    unfold pass
    rw [hJ]
    simp only [hbad, if_true]
    rw [show scalingFactor (flux (m.newton (inverse4 J) P)) xiMax (100 * SMALL) (100 * SMALL) (P 0) (m.newton (inverse4 J) P 0)
        ((m.radPrim P (m.rad P)).2 0) ((m.radPrim (m.newton (inverse4 J) P) (m.rad (m.newton (inverse4 J) P))).2 0) = s from hsc]
    rw [if_neg (by rw [not_not]; exact ⟨by linarith, hs1.le⟩)]
    exact if_pos hok
  · intro h
    have hsc : ¬ (scalingFactor (flux P1) xiMax (100 * SMALL) (100 * SMALL) (P 0) (P1 0) J0 J1 ≥ 1) := by
      rw [ge_iff_le, not_le]
      simp only [scalingFactor]
      rw [if_neg (not_lt.2 hu)]
      have h3 : J1 < 100 * SMALL → (J0 - 100 * SMALL) / (J0 - J1) < 1 := by
        intro h1
        rcases h with h | h | h
        · rw [div_lt_one (by linarith)]; linarith
        · linarith
        · rw [div_lt_one (by linarith)]; linarith
      split_ifs with h1 h2 h2 <;> simp_all
    unfold pass
    rw [hJ]
    simp only [hbad, if_true]
    exact if_pos (fun h => hsc h.2)

/-- **C49** The scaling factor is the largest of the fractions that apply, and zero if none applies or all are negative: the fraction of the flux-factor ceiling,
and the fractions of the step that would end on the floor of the gas energy or of the radiation energy. -/
theorem scaling_spec (xi xiMax umin Jmin u0 u1 J0 J1 : ℝ) :
    let s := scalingFactor xi xiMax umin Jmin u0 u1 J0 J1
    0 ≤ s ∧ (xi > xiMax → xiMax / xi ≤ s) ∧ (u1 < umin → (u0 - umin) / (u0 - u1) ≤ s) ∧ (J1 < Jmin → (J0 - Jmin) / (J0 - J1) ≤ s) ∧
    (s = 0 ∨ (xi > xiMax ∧ s = xiMax / xi) ∨ (u1 < umin ∧ s = (u0 - umin) / (u0 - u1)) ∨ (J1 < Jmin ∧ s = (J0 - Jmin) / (J0 - J1))) := by
  intro s
  have hs : s = scalingFactor xi xiMax umin Jmin u0 u1 J0 J1 := rfl
  simp only [scalingFactor] at hs
  set a := xiMax / xi
  set b := (u0 - umin) / (u0 - u1)
  set c := (J0 - Jmin) / (J0 - J1)
  by_cases h1 : xi > xiMax <;> by_cases h2 : u1 < umin <;> by_cases h3 : J1 < Jmin <;>
    simp only [h1, h2, h3, if_true, if_false, true_and, false_and, true_implies, false_implies, false_or, or_false] at hs ⊢ <;> rw [hs]
  · refine ⟨by simp, by simp, by simp, by simp, ?_⟩
    rcases max_choice (max (max 0 a) b) c with h | h <;> rw [h]
    · rcases max_choice (max 0 a) b with h | h <;> rw [h]
      · rcases max_choice 0 a with h | h <;> rw [h] <;> simp
      · simp
    · simp
  · refine ⟨by simp, by simp, by simp, ?_⟩
    rcases max_choice (max 0 a) b with h | h <;> rw [h]
    · rcases max_choice 0 a with h | h <;> rw [h] <;> simp
    · simp
  · refine ⟨by simp, by simp, by simp, ?_⟩
    rcases max_choice (max 0 a) c with h | h <;> rw [h]
    · rcases max_choice 0 a with h | h <;> rw [h] <;> simp
    · simp
  · refine ⟨by simp, by simp, ?_⟩
    rcases max_choice 0 a with h | h <;> rw [h] <;> simp
  · refine ⟨by simp, by simp, by simp, ?_⟩
    rcases max_choice (max 0 b) c with h | h <;> rw [h]
    · rcases max_choice 0 b with h | h <;> rw [h] <;> simp
    · simp
  · refine ⟨by simp, by simp, ?_⟩
    rcases max_choice 0 b with h | h <;> rw [h] <;> simp
  · refine ⟨by simp, by simp, ?_⟩
    rcases max_choice 0 c with h | h <;> rw [h] <;> simp
  · simp

end Solver4

/-- **C49** When the primitive recovery fails the species (and, if the fluid is updated, the fluid) get the floor state, and nothing else changes. -/
theorem recovery_failure_floor (sdetgam : ℝ) (success updateFluid : Bool) (d : ℕ → V4) (recov : Cell → ℕ → Bool) (hrec : ∀ s k, recov s k = false)
    (floorF floorR : V4) (s : Cell) (k : ℕ) :
    let r := applySpecies sdetgam success updateFluid d recov floorF floorR s k
    r.rad k = floorR ∧ r.fluid = (if updateFluid = true then floorF else s.fluid) ∧ ∀ q, q ≠ k → r.rad q = s.rad q := by
  intro r
  have hr : r = applySpecies sdetgam success updateFluid d recov floorF floorR s k := rfl
  simp only [applySpecies, hrec] at hr
  rw [hr]
  refine ⟨by simp, ?_, ?_⟩
  · cases updateFluid <;> cases success <;> simp
  · intro q hq; cases updateFluid <;> cases success <;> simp [hq]

/-- concrete case: the solver of `ex_fourd` has an affine residual. -/
theorem ex_pass_affine : ∃ Q, exSolver.pass (1 / 100) 1000 (1 / 1000) 1 (fun _ => 0) (fun _ => 2) = some Q ∧ ∀ n, exSolver.resid Q n = 0 :=
  exSolver.pass_affine _ _ _ _ _ _ (fun i j => if i = j then 1 else 0) (fun _ => -1) (by norm_num) (by norm_num)
    (fun Q h => by simp [Solver4.bad, exSolver] at h)
    (fun Q n => by simp [Solver4.resid, Solver4.S, exSolver]; ring)
    (by have : (Matrix.of fun i j : Fin 4 => if i = j then (1:ℝ) else 0) = 1 := by ext i j; simp [Matrix.one_apply]
        rw [this]; simp)

end Phoebus.MomentSource
