import Verif.C2P.Props
import Verif.Riemann.Change

/-!
# C142, C143: the inversion with other names of the axes and another unit of density
-/
namespace Phoebus.C2P
open Finset Geom Robust Rel Riemann

/-! ### Specification -/

/-- conserved variables with renamed axes and rescaled matter. -/
def renC (σ : Equiv.Perm (Fin 3)) (s : ℝ) (c : Cons) : Cons :=
  ⟨s ^ 2 * c.D, fun i => s ^ 2 * c.S (σ i), fun i => s * c.B (σ i), s ^ 2 * c.tau, s ^ 2 * c.ye⟩

/-- floors and ceilings with rescaled matter. -/
noncomputable def renB (s : ℝ) (b : Bnds) : Bnds := ⟨s ^ 2 * b.rhoFloor, fun r => b.eFloor (r / s ^ 2), b.gmax, b.emax⟩

/-- the equation of state in the new unit. -/
noncomputable def renE (s : ℝ) (e : Eos) : Eos := ⟨fun r x y => s ^ 2 * e.pRE (r / s ^ 2) x y, fun r x y => e.tRE (r / s ^ 2) x y, fun r x y => s ^ 2 * e.pRT (r / s ^ 2) x y⟩

/-- the result in the new description. -/
def renO (σ : Equiv.Perm (Fin 3)) (s : ℝ) (o : Out) : Out := { o with prim := renQ σ s o.prim, cons := renC σ s o.cons }

/-- the regularisers of `robust.hpp` do not matter (or the unit is not changed): no smallest number is added to divisors, and densities above the floor
exceed the smallest positive number in both units. -/
def Unitless (s small eps : ℝ) (b : Bnds) : Prop :=
  s = 1 ∨ (small = 0 ∧ 0 ≤ b.rhoFloor ∧ eps ≤ b.rhoFloor ∧ eps ≤ s ^ 2 * b.rhoFloor ∧ (∀ r, 0 ≤ b.eFloor r) ∧ 0 ≤ b.emax)

/-! ### Proof -/

variable {σ : Equiv.Perm (Fin 3)} {s : ℝ}

theorem ratio_ren {small eps : ℝ} {b : Bnds} (hs : 0 < s) (hu : Unitless s small eps b) (x y : ℝ) : ratio small (s ^ 2 * x) (s ^ 2 * y) = ratio small x y := by
  rcases hu with rfl | ⟨rfl, -⟩
  · simp
  · unfold ratio
    simp only [mul_zero, add_zero]
    rw [mul_div_mul_left _ _ (by positivity)]

/-- conserved variables of the new state in the new geometry. -/
theorem p2c_ren (val : Bool) (G : ADM ℝ) (gdet ye : ℝ) (q : Prim) : p2c val (renG σ G) gdet ye (renQ σ s q) = renC σ s (p2c val G gdet ye q) := by
  have hW : lorentz (renG σ G).gam (renQ σ s q).v = lorentz G.gam q.v := lorentz_ren G q.v
  have hpv : pv (renG σ G) (renQ σ s q) = fun i => pv G q (σ i) := by
    funext i; unfold pv; rw [hW]; rfl
  have hBv : pBdotv (renG σ G) (renQ σ s q) = s * pBdotv G q := by
    unfold pBdotv
    simp only [hpv, ADM.g4_ss]
    rw [← quad_ren (σ := σ) G.gam q.B (pv G q), mul_sum]
    refine sum_congr rfl fun m _ => ?_
    rw [mul_sum]
    refine sum_congr rfl fun n _ => ?_
    simp only [renG, renQ]; ring
  have hBB : pBsq (renG σ G) (renQ σ s q) = s ^ 2 * pBsq G q := by
    unfold pBsq
    simp only [ADM.g4_ss]
    rw [← quad_ren (σ := σ) G.gam q.B q.B, mul_sum]
    refine sum_congr rfl fun m _ => ?_
    rw [mul_sum]
    refine sum_congr rfl fun n _ => ?_
    simp only [renG, renQ]; ring
  have hb2 : pbsq (renG σ G) (renQ σ s q) = s ^ 2 * pbsq G q := by
    unfold pbsq
    simp only [hW, hBv, hBB]; ring
  have hbc0 : pbcon (renG σ G) (renQ σ s q) 0 = s * pbcon G q 0 := by
    unfold pbcon
    simp only [hW, hBv, Fin.cons_zero]
    simp only [renG]; ring
  have hbci : ∀ i : Fin 3, pbcon (renG σ G) (renQ σ s q) i.succ = s * pbcon G q (σ i).succ := by
    intro i
    unfold pbcon
    simp only [hW, hBv, hpv, Fin.cons_succ]
    simp only [renG, renQ]; ring
  have hbcov : ∀ m, pbcov (renG σ G) (renQ σ s q) m = s * pbcov G q (σ m) := by
    intro m
    unfold pbcov
    rw [Fin.sum_univ_succ, Fin.sum_univ_succ (f := fun n => G.g4 (σ m).succ n * pbcon G q n)]
    simp only [hbc0, hbci, ADM.g4_s0, ADM.g4_ss, betaCov_ren]
    rw [← Equiv.sum_comp σ fun n => G.gam (σ m) n * pbcon G q n.succ, mul_add, mul_sum]
    congr 1
    · ring
    · exact sum_congr rfl fun n _ => by simp only [renG]; ring
  have l2 := lower0_ren (σ := σ) G s (pbcon (renG σ G) (renQ σ s q)) (pbcon G q) hbc0 hbci
  have l1 := lower0_ren (σ := σ) G 1 (Fin.cons (lorentz G.gam q.v / G.alpha) fun i => q.v (σ i) - G.beta (σ i) * lorentz G.gam q.v / G.alpha)
    (Fin.cons (lorentz G.gam q.v / G.alpha) fun i => q.v i - G.beta i * lorentz G.gam q.v / G.alpha) (by simp) (fun i => by simp)
  have hvc : ∀ m, ∑ n : Fin 3, (renG σ G).g4 m.succ n.succ * pv G q (σ n) = ∑ n : Fin 3, G.g4 (σ m).succ n.succ * pv G q n := by
    intro m
    simp only [ADM.g4_ss]
    exact lin_ren G.gam (pv G q) m
  have ha : (renG σ G).alpha = G.alpha := rfl
  unfold p2c renC
  simp only [hW, hpv, hBv, hb2, hbcov, hbc0, l2, hvc, Fin.cons_zero, ha, Cons.mk.injEq]
  refine ⟨?_, ?_, ?_, ?_, ?_⟩
  · simp only [renQ]; ring
  · funext m; simp only [renQ]; ring
  · funext m; simp only [renQ]; ring
  · by_cases hv : val
    · simp only [hv, if_true]; simp only [renQ]; ring
    · simp only [hv]
      have l1' : ∑ ν, (renG σ G).g4 0 ν * (Fin.cons (lorentz G.gam q.v / G.alpha) fun i => (renQ σ s q).v i - (renG σ G).beta i * lorentz G.gam q.v / G.alpha : Fin 4 → ℝ) ν =
        1 * ∑ ν, G.g4 0 ν * (Fin.cons (lorentz G.gam q.v / G.alpha) fun i => q.v i - G.beta i * lorentz G.gam q.v / G.alpha : Fin 4 → ℝ) ν := l1
      simp only [l1']
      simp only [renQ, Bool.false_eq_true, if_false]; ring
  · simp only [renQ]; ring

theorem tauOf_ren (val : Bool) (G : ADM ℝ) (gdet : ℝ) (c : Cons) : tauOf val (renG σ G) gdet (renC σ s c) = s ^ 2 * tauOf val G gdet c := by
  unfold tauOf
  by_cases hv : val
  · simp only [hv, if_true, renC]; ring
  · simp only [hv]
    rw [Fin.sum_univ_succ (n := 3), Fin.sum_univ_succ (n := 3) (f := fun μ => (Fin.cons ((c.tau - c.D) * (1 / gdet)) (fun i => c.S i * (1 / gdet)) : Fin 4 → ℝ) μ *
      (Fin.cons (1 / G.alpha) (fun i => -G.beta i / G.alpha) : Fin 4 → ℝ) μ)]
    simp only [Fin.cons_zero, Fin.cons_succ, renC, renG, Bool.false_eq_true, if_false]
    have : ∑ i : Fin 3, s ^ 2 * c.S (σ i) * (1 / gdet) * (-G.beta (σ i) / G.alpha) = s ^ 2 * ∑ i : Fin 3, c.S i * (1 / gdet) * (-G.beta i / G.alpha) := by
      rw [← Equiv.sum_comp σ fun i => c.S i * (1 / gdet) * (-G.beta i / G.alpha), mul_sum]
      exact sum_congr rfl fun i _ => by ring
    rw [this]; ring

theorem prep_ren (val hasB hasYe : Bool) (small eps : ℝ) (G : ADM ℝ) (gdet : ℝ) (b : Bnds) (c : Cons) (hs : 0 < s) (hu : Unitless s small eps b) :
    let p := prep val hasB hasYe small G gdet b c
    prep val hasB hasYe small (renG σ G) gdet (renB s b) (renC σ s c) =
      ⟨{ p.aux with D := s ^ 2 * p.aux.D }, fun i => p.rcon (σ i), fun i => p.bu (σ i), p.bdotr, fun i => s * p.Bp (σ i)⟩ := by
  intro p
  have hD : (renC σ s c).D * (1 / gdet) = s ^ 2 * (c.D * (1 / gdet)) := by simp only [renC]; ring
  have hq : ratio small (tauOf val (renG σ G) gdet (renC σ s c)) (s ^ 2 * (c.D * (1 / gdet))) = ratio small (tauOf val G gdet c) (c.D * (1 / gdet)) := by
    rw [tauOf_ren, ratio_ren hs hu]
  have hye : ratio small (renC σ s c).ye (renC σ s c).D = ratio small c.ye c.D := ratio_ren hs hu _ _
  have hr : ∀ i, ratio small ((renC σ s c).S i) (renC σ s c).D = ratio small (c.S (σ i)) c.D := fun i => ratio_ren hs hu _ _
  have hrcon : ∀ i, ∑ j, (renG σ G).gamInv i j * ratio small (c.S (σ j)) c.D = ∑ j, G.gamInv (σ i) j * ratio small (c.S j) c.D := fun i =>
    lin_ren G.gamInv (fun j => ratio small (c.S j) c.D) i
  have hsD : 1 / Real.sqrt (max (s ^ 2 * (c.D * (1 / gdet))) (renB s b).rhoFloor) = 1 / s * (1 / Real.sqrt (max (c.D * (1 / gdet)) b.rhoFloor)) := by
    show 1 / Real.sqrt (max _ (s ^ 2 * b.rhoFloor)) = _
    rw [← mul_max_of_nonneg _ _ (by positivity), Real.sqrt_mul (by positivity), Real.sqrt_sq hs.le]
    rw [div_mul_div_comm, one_mul]
  have hbu : ∀ i, (renC σ s c).B i * (1 / gdet) * (1 / s * (1 / Real.sqrt (max (c.D * (1 / gdet)) b.rhoFloor))) =
      c.B (σ i) * (1 / gdet) * (1 / Real.sqrt (max (c.D * (1 / gdet)) b.rhoFloor)) := by
    intro i
    have := hs.ne'
    simp only [renC]
    rw [show s * c.B (σ i) * (1 / gdet) * (1 / s * (1 / Real.sqrt (max (c.D * (1 / gdet)) b.rhoFloor))) =
      (s * (1 / s)) * (c.B (σ i) * (1 / gdet) * (1 / Real.sqrt (max (c.D * (1 / gdet)) b.rhoFloor))) by ring, mul_one_div_cancel this, one_mul]
  have sr : ∀ x y : Fin 3 → ℝ, ∑ i, x (σ i) * y (σ i) = ∑ i, x i * y i := fun x y => Equiv.sum_comp σ fun i => x i * y i
  have hg : (renB s b).gmax = b.gmax := rfl
  simp only [p, prep, hD, hq, hye, hr, hrcon, hsD, hbu, hg]
  cases hasB
  · simp only [Bool.false_eq_true, if_false]
    rw [sr (fun i => ∑ j, G.gamInv i j * ratio small (c.S j) c.D) fun i => ratio small (c.S i) c.D]
    congr 1
    funext i
    simp only [renC]; ring
  · simp only [if_true]
    rw [sr (fun i => ∑ j, G.gamInv i j * ratio small (c.S j) c.D) fun i => ratio small (c.S i) c.D]
    rw [sr (fun i => c.B i * (1 / gdet) * (1 / Real.sqrt (max (c.D * (1 / gdet)) b.rhoFloor))) fun i => ratio small (c.S i) c.D]
    have e2 : ∑ i, ∑ j, (renG σ G).gam i j * (c.B (σ i) * (1 / gdet) * (1 / Real.sqrt (max (c.D * (1 / gdet)) b.rhoFloor))) *
          (c.B (σ j) * (1 / gdet) * (1 / Real.sqrt (max (c.D * (1 / gdet)) b.rhoFloor))) =
        ∑ i, ∑ j, G.gam i j * (c.B i * (1 / gdet) * (1 / Real.sqrt (max (c.D * (1 / gdet)) b.rhoFloor))) *
          (c.B j * (1 / gdet) * (1 / Real.sqrt (max (c.D * (1 / gdet)) b.rhoFloor))) :=
      quad_ren G.gam (fun i => c.B i * (1 / gdet) * (1 / Real.sqrt (max (c.D * (1 / gdet)) b.rhoFloor)))
        (fun i => c.B i * (1 / gdet) * (1 / Real.sqrt (max (c.D * (1 / gdet)) b.rhoFloor)))
    rw [e2]
    congr 1
    funext i
    simp only [renC]; ring

theorem rhohat_ren (b : Bnds) (a : Aux) (iW : ℝ) (hs : 0 < s) :
    rhohat (renB s b) { a with D := s ^ 2 * a.D } iW = (s ^ 2 * (rhohat b a iW).1, (rhohat b a iW).2) := by
  unfold rhohat
  simp only [renB]
  have hp : 0 < s ^ 2 := by positivity
  have : s ^ 2 * a.D * iW ≤ s ^ 2 * b.rhoFloor ↔ a.D * iW ≤ b.rhoFloor := by
    rw [mul_assoc]
    exact mul_le_mul_iff_right₀ hp
  simp only [this]
  split_ifs
  · rfl
  · rw [mul_assoc]

theorem ehat_ren (small : ℝ) (b : Bnds) (a : Aux) (mu qb rb vsq W : ℝ) (hs : 0 < s) :
    ehat small (renB s b) { a with D := s ^ 2 * a.D } mu qb rb vsq W = ehat small b a mu qb rb vsq W := by
  unfold ehat
  rw [rhohat_ren b a _ hs]
  have : ∀ r, (renB s b).eFloor (s ^ 2 * r) = b.eFloor r := by
    intro r
    show b.eFloor _ = _
    rw [mul_div_cancel_left₀ _ (by positivity)]
  simp only [this]
  rfl

theorem residual_ren (small eps : ℝ) (eos : Eos) (b : Bnds) (a : Aux) (hs : 0 < s) (hu : Unitless s small eps b) (mu : ℝ) :
    residual small eps (renE s eos) (renB s b) { a with D := s ^ 2 * a.D } mu = residual small eps eos b a mu := by
  have hx : xMu small { a with D := s ^ 2 * a.D } mu = xMu small a mu := rfl
  have hrb : ∀ x, rbarsq { a with D := s ^ 2 * a.D } mu x = rbarsq a mu x := fun _ => rfl
  have hqb : ∀ x, qbar { a with D := s ^ 2 * a.D } mu x = qbar a mu x := fun _ => rfl
  have hv : ∀ rb, vhatsq { a with D := s ^ 2 * a.D } mu rb = vhatsq a mu rb := fun _ => rfl
  have hs2 : 0 < s ^ 2 := by positivity
  have hP : ∀ r e y, (renE s eos).pRE (s ^ 2 * r) e y = s ^ 2 * eos.pRE r e y := by
    intro r e y
    show s ^ 2 * eos.pRE _ e y = _
    rw [mul_div_cancel_left₀ _ hs2.ne']
  unfold residual
  simp only [hx, hrb, hqb, hv, rhohat_ren b a _ hs, ehat_ren small b a _ _ _ _ _ hs, hP]
  generalize hr : (rhohat b a _).1 = r
  generalize he : (ehat small b a mu _ _ _ _).1 = e
  have hr0 : b.rhoFloor ≤ r := by
    rw [← hr, rhohat_eq]; exact le_max_left _ _
  have hah : s ^ 2 * eos.pRE r e a.ye / makePositive eps (s ^ 2 * r * (1 + e) + s ^ 2 * eos.pRE r e a.ye - s ^ 2 * eos.pRE r e a.ye) =
      eos.pRE r e a.ye / makePositive eps (r * (1 + e) + eos.pRE r e a.ye - eos.pRE r e a.ye) := by
    rw [add_sub_cancel_right, add_sub_cancel_right]
    have key := makePositive_ren (s := s) (eps := eps) (w := r * (1 + e)) (b := 0) hs ?_ (eos.pRE r e a.ye)
    · rw [add_zero] at key
      rw [← key, mul_assoc]
    · rcases hu with h1 | ⟨-, hf0, h2, h3, h4, h5⟩
      · exact Or.inl h1
      · have he0 : 0 ≤ e := by
          rw [← he]
          unfold ehat
          simp only
          split_ifs with c1 c2
          · exact h4 _
          · exact h5
          · simp only
            push Not at c1
            exact (h4 _).trans c1.le
        have h6 : b.rhoFloor ≤ r * (1 + e) := by nlinarith
        exact Or.inr ⟨le_rfl, by linarith, by nlinarith⟩
  have : ({ a with D := s ^ 2 * a.D } : Aux).ye = a.ye := rfl
  simp only [this, hah]

/-- **C142, C143 (inversion)**: the root and the state found for the new conserved variables are the old ones in the new description; the same bounds
are applied and the conserved variables are rewritten in the same way. -/
theorem c2p_ren (val hasB hasYe failF failC : Bool) (small eps : ℝ) (eos : Eos) (G : ADM ℝ) (gdet : ℝ) (b : Bnds) (c : Cons) (hs : 0 < s)
    (hu : Unitless s small eps b) (tol guess : ℝ) (n : ℕ) (mu : ℝ) :
    findMu small eps (renE s eos) (renB s b) (prep val hasB hasYe small (renG σ G) gdet (renB s b) (renC σ s c)).aux tol guess n =
      findMu small eps eos b (prep val hasB hasYe small G gdet b c).aux tol guess n ∧
    unwrap val hasB hasYe failF failC small (renE s eos) (renG σ G) gdet (renB s b) (renC σ s c) mu =
      renO σ s (unwrap val hasB hasYe failF failC small eos G gdet b c mu) := by
  have hp := prep_ren (σ := σ) val hasB hasYe small eps G gdet b c hs hu
  constructor
  · rw [hp]
    unfold findMu
    rw [funext (residual_ren small eps eos b _ hs hu)]
  · have hs2 : 0 < s ^ 2 := by positivity
    have hT : ∀ r e y, (renE s eos).tRE (s ^ 2 * r) e y = eos.tRE r e y := by
      intro r e y
      show eos.tRE _ e y = _
      rw [mul_div_cancel_left₀ _ hs2.ne']
    have hP : ∀ r e y, (renE s eos).pRT (s ^ 2 * r) e y = s ^ 2 * eos.pRT r e y := by
      intro r e y
      show s ^ 2 * eos.pRT _ e y = _
      rw [mul_div_cancel_left₀ _ hs2.ne']
    obtain ⟨p, hpp⟩ : ∃ p, prep val hasB hasYe small G gdet b c = p := ⟨_, rfl⟩
    simp only [hpp] at hp
    have hx : xMu small { p.aux with D := s ^ 2 * p.aux.D } mu = xMu small p.aux mu := rfl
    have hrb : ∀ x, rbarsq { p.aux with D := s ^ 2 * p.aux.D } mu x = rbarsq p.aux mu x := fun _ => rfl
    have hqb : ∀ x, qbar { p.aux with D := s ^ 2 * p.aux.D } mu x = qbar p.aux mu x := fun _ => rfl
    have hv : ∀ rb, vhatsq { p.aux with D := s ^ 2 * p.aux.D } mu rb = vhatsq p.aux mu rb := fun _ => rfl
    have hprim : (unwrap val hasB hasYe failF failC small (renE s eos) (renG σ G) gdet (renB s b) (renC σ s c) mu).prim =
        renQ σ s (unwrap val hasB hasYe failF failC small eos G gdet b c mu).prim := by
      simp only [unwrap, hp, hpp, hx, hrb, hqb, hv, rhohat_ren b p.aux _ hs, ehat_ren small b p.aux _ _ _ _ _ hs, hT, hP, renQ, Prim.mk.injEq, true_and]
      refine ⟨by ring, ?_⟩
      cases hasB <;> simp
    have hye : (unwrap val hasB hasYe failF failC small (renE s eos) (renG σ G) gdet (renB s b) (renC σ s c) mu).ye =
        (unwrap val hasB hasYe failF failC small eos G gdet b c mu).ye := by
      simp only [unwrap, hp, hpp]
    have h1 : (unwrap val hasB hasYe failF failC small (renE s eos) (renG σ G) gdet (renB s b) (renC σ s c) mu).usedRhoFloor =
        (unwrap val hasB hasYe failF failC small eos G gdet b c mu).usedRhoFloor := by
      simp only [unwrap, hp, hpp, hx, hrb, hv, rhohat_ren b p.aux _ hs]
    have h2 : (unwrap val hasB hasYe failF failC small (renE s eos) (renG σ G) gdet (renB s b) (renC σ s c) mu).usedEFloor =
        (unwrap val hasB hasYe failF failC small eos G gdet b c mu).usedEFloor := by
      simp only [unwrap, hp, hpp, hx, hrb, hqb, hv, ehat_ren small b p.aux _ _ _ _ _ hs]
    have h3 : (unwrap val hasB hasYe failF failC small (renE s eos) (renG σ G) gdet (renB s b) (renC σ s c) mu).usedEMax =
        (unwrap val hasB hasYe failF failC small eos G gdet b c mu).usedEMax := by
      simp only [unwrap, hp, hpp, hx, hrb, hqb, hv, ehat_ren small b p.aux _ _ _ _ _ hs]
    have h4 : (unwrap val hasB hasYe failF failC small (renE s eos) (renG σ G) gdet (renB s b) (renC σ s c) mu).usedGMax =
        (unwrap val hasB hasYe failF failC small eos G gdet b c mu).usedGMax := by
      simp only [unwrap, hp, hpp, hx, hrb, hv]
    have form : ∀ (E : Eos) (H : ADM ℝ) (B : Bnds) (C : Cons), let o := unwrap val hasB hasYe failF failC small E H gdet B C mu
        o = ⟨o.prim, o.ye,
          if (o.usedRhoFloor || o.usedEFloor || o.usedEMax || o.usedGMax) = true then
            { C with D := (p2c val H gdet (if hasYe then o.ye else 0) o.prim).D, S := (p2c val H gdet (if hasYe then o.ye else 0) o.prim).S,
                     tau := (p2c val H gdet (if hasYe then o.ye else 0) o.prim).tau, ye := if hasYe then (p2c val H gdet (if hasYe then o.ye else 0) o.prim).ye else C.ye }
          else C, o.usedRhoFloor, o.usedEFloor, o.usedEMax, o.usedGMax, !((failF && (o.usedRhoFloor || o.usedEFloor)) || (failC && o.usedGMax))⟩ := fun _ _ _ _ => rfl
    have f1 := form (renE s eos) (renG σ G) (renB s b) (renC σ s c)
    have f2 := form eos G b c
    simp only [hprim, hye, h1, h2, h3, h4, p2c_ren] at f1
    rw [f1]
    simp only at f2
    generalize unwrap val hasB hasYe failF failC small eos G gdet b c mu = o at f2 ⊢
    rw [f2]
    simp only [renO, Out.mk.injEq, true_and, and_true]
    cases (o.usedRhoFloor || o.usedEFloor || o.usedEMax || o.usedGMax) <;> cases hasYe <;> simp [renC]

end Phoebus.C2P
