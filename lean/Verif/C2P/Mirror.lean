import Verif.Riemann.Mirror
import Verif.C2P.Change

/-!
# C134: the inversion under reflections

Signs `e i = 1` or `-1` of the components of vectors, as in `Verif/Riemann/Mirror.lean`.
-/
namespace Phoebus.C2P
open Finset Geom Robust Rel Riemann

/-! ### Specification -/

/-- reflected conserved variables. -/
def mirC (e : Fin 3 → ℝ) (c : Cons) : Cons := ⟨c.D, fun i => e i * c.S i, fun i => e i * c.B i, c.tau, c.ye⟩

/-- the reflected result. -/
def mirO (e : Fin 3 → ℝ) (o : Out) : Out := { o with prim := mirQ e o.prim, cons := mirC e o.cons }

/-! ### Proof -/

variable {e : Fin 3 → ℝ} (h : Signs e)
include h

theorem pv_mir (G : ADM ℝ) (q : Prim) (i : Fin 3) : pv (mirG e G) (mirQ e q) i = e i * pv G q i := by
  unfold pv
  rw [show (mirQ e q).v = fun i => e i * q.v i from rfl, lorentz_mir h]
  ring

theorem pBdotv_mir (G : ADM ℝ) (q : Prim) : pBdotv (mirG e G) (mirQ e q) = pBdotv G q := by
  unfold pBdotv
  simp only [pv_mir h, ADM.g4_ss]
  exact quad_mir h G.gam q.B (pv G q)

theorem pbsq_mir (G : ADM ℝ) (q : Prim) : pbsq (mirG e G) (mirQ e q) = pbsq G q := by
  have hBB : pBsq (mirG e G) (mirQ e q) = pBsq G q := by
    unfold pBsq
    simp only [ADM.g4_ss]
    exact quad_mir h G.gam q.B q.B
  unfold pbsq
  rw [show (mirQ e q).v = fun i => e i * q.v i from rfl, lorentz_mir h, pBdotv_mir h, hBB]

theorem p2c_mir (val : Bool) (G : ADM ℝ) (gdet ye : ℝ) (q : Prim) : p2c val (mirG e G) gdet ye (mirQ e q) = mirC e (p2c val G gdet ye q) := by
  have hW : lorentz (mirG e G).gam (mirQ e q).v = lorentz G.gam q.v := lorentz_mir h G q.v
  have hbc0 : pbcon (mirG e G) (mirQ e q) 0 = pbcon G q 0 := by
    unfold pbcon
    simp only [hW, pBdotv_mir h, Fin.cons_zero]
    rfl
  have hbci : ∀ i : Fin 3, pbcon (mirG e G) (mirQ e q) i.succ = e i * pbcon G q i.succ := by
    intro i
    unfold pbcon
    simp only [hW, pBdotv_mir h, pv_mir h, Fin.cons_succ]
    simp only [mirG, mirQ]; ring
  have hbcov : ∀ m, pbcov (mirG e G) (mirQ e q) m = e m * pbcov G q m := by
    intro m
    unfold pbcov
    rw [Fin.sum_univ_succ, Fin.sum_univ_succ (f := fun n => G.g4 m.succ n * pbcon G q n)]
    simp only [hbc0, hbci, ADM.g4_s0, ADM.g4_ss, betaCov_mir h]
    have := lin_mir h G.gam (fun n => pbcon G q n.succ) m
    rw [show ∑ x : Fin 3, (mirG e G).gam m x * (e x * pbcon G q x.succ) = e m * ∑ j, G.gam m j * pbcon G q j.succ from this]
    ring
  have l2 := lower0_mir h G (pbcon (mirG e G) (mirQ e q)) (pbcon G q) hbc0 hbci
  have l1 := lower0_mir h G (Fin.cons (lorentz G.gam q.v / G.alpha) fun i => e i * q.v i - e i * G.beta i * lorentz G.gam q.v / G.alpha)
    (Fin.cons (lorentz G.gam q.v / G.alpha) fun i => q.v i - G.beta i * lorentz G.gam q.v / G.alpha) (by simp) (fun i => by simp only [Fin.cons_succ]; ring)
  have hvc : ∀ m, ∑ n : Fin 3, (mirG e G).g4 m.succ n.succ * (e n * pv G q n) = e m * ∑ n : Fin 3, G.g4 m.succ n.succ * pv G q n := by
    intro m
    simp only [ADM.g4_ss]
    exact lin_mir h G.gam (pv G q) m
  have ha : (mirG e G).alpha = G.alpha := rfl
  unfold p2c mirC
  simp only [hW, pv_mir h, pBdotv_mir h, pbsq_mir h, hbcov, hbc0, l2, hvc, Fin.cons_zero, ha, Cons.mk.injEq]
  refine ⟨?_, ?_, ?_, ?_, ?_⟩
  · simp only [mirQ]
  · funext m; simp only [mirQ]; ring
  · funext m; simp only [mirQ]; ring
  · by_cases hv : val
    · simp only [hv, if_true]; simp only [mirQ]
    · simp only [hv]
      have l1' : ∑ ν, (mirG e G).g4 0 ν * (Fin.cons (lorentz G.gam q.v / G.alpha) fun i => (mirQ e q).v i - (mirG e G).beta i * lorentz G.gam q.v / G.alpha : Fin 4 → ℝ) ν =
        ∑ ν, G.g4 0 ν * (Fin.cons (lorentz G.gam q.v / G.alpha) fun i => q.v i - G.beta i * lorentz G.gam q.v / G.alpha : Fin 4 → ℝ) ν := l1
      simp only [l1']
      simp only [mirQ, Bool.false_eq_true, if_false]
  · simp only [mirQ]

theorem tauOf_mir (val : Bool) (G : ADM ℝ) (gdet : ℝ) (c : Cons) : tauOf val (mirG e G) gdet (mirC e c) = tauOf val G gdet c := by
  unfold tauOf
  by_cases hv : val
  · simp only [hv, if_true, mirC]
  · simp only [hv]
    rw [Fin.sum_univ_succ (n := 3), Fin.sum_univ_succ (n := 3) (f := fun μ => (Fin.cons ((c.tau - c.D) * (1 / gdet)) (fun i => c.S i * (1 / gdet)) : Fin 4 → ℝ) μ *
      (Fin.cons (1 / G.alpha) (fun i => -G.beta i / G.alpha) : Fin 4 → ℝ) μ)]
    simp only [Fin.cons_zero, Fin.cons_succ, mirC, mirG, Bool.false_eq_true, if_false]
    have : ∑ i : Fin 3, e i * c.S i * (1 / gdet) * (-(e i * G.beta i) / G.alpha) = ∑ i : Fin 3, c.S i * (1 / gdet) * (-G.beta i / G.alpha) :=
      sum_congr rfl fun i _ => by linear_combination (c.S i * (1 / gdet) * (-G.beta i / G.alpha)) * h.sq i
    rw [this]

theorem prep_mir (val hasB hasYe : Bool) (small : ℝ) (G : ADM ℝ) (gdet : ℝ) (b : Bnds) (c : Cons) :
    let p := prep val hasB hasYe small G gdet b c
    prep val hasB hasYe small (mirG e G) gdet b (mirC e c) = ⟨p.aux, fun i => e i * p.rcon i, fun i => e i * p.bu i, p.bdotr, fun i => e i * p.Bp i⟩ := by
  intro p
  have hr : ∀ i, ratio small ((mirC e c).S i) (mirC e c).D = e i * ratio small (c.S i) c.D := fun i => by
    show ratio small (e i * c.S i) c.D = _
    unfold ratio
    rw [mul_div_assoc]
  have hrcon : ∀ i, ∑ j, (mirG e G).gamInv i j * (e j * ratio small (c.S j) c.D) = e i * ∑ j, G.gamInv i j * ratio small (c.S j) c.D := fun i =>
    lin_mir h G.gamInv (fun j => ratio small (c.S j) c.D) i
  have hD : (mirC e c).D = c.D := rfl
  have hye : (mirC e c).ye = c.ye := rfl
  have hB : ∀ i, (mirC e c).B i = e i * c.B i := fun _ => rfl
  have hr' : ∀ i, ratio small ((mirC e c).S i) c.D = e i * ratio small (c.S i) c.D := hr
  simp only [p, prep, hD, hye, hr', hrcon, tauOf_mir h, hB]
  cases hasB
  · simp only [Bool.false_eq_true, if_false]
    rw [dual_mir h (fun i => ∑ j, G.gamInv i j * ratio small (c.S j) c.D) fun i => ratio small (c.S i) c.D]
    congr 1
    · funext i; simp
    · funext i; ring
  · simp only [if_true]
    set q := 1 / Real.sqrt (max (c.D * (1 / gdet)) b.rhoFloor)
    have e0 : ∀ i, e i * c.B i * (1 / gdet) * q = e i * (c.B i * (1 / gdet) * q) := fun i => by ring
    simp only [e0]
    rw [dual_mir h (fun i => ∑ j, G.gamInv i j * ratio small (c.S j) c.D) fun i => ratio small (c.S i) c.D,
      dual_mir h (fun i => c.B i * (1 / gdet) * q) fun i => ratio small (c.S i) c.D]
    have e2 : ∑ i, ∑ j, (mirG e G).gam i j * (e i * (c.B i * (1 / gdet) * q)) * (e j * (c.B j * (1 / gdet) * q)) =
        ∑ i, ∑ j, G.gam i j * (c.B i * (1 / gdet) * q) * (c.B j * (1 / gdet) * q) :=
      quad_mir h G.gam (fun i => c.B i * (1 / gdet) * q) (fun i => c.B i * (1 / gdet) * q)
    rw [e2]
    congr 1
    funext i; ring

/-- **C134 (inversion)**: the inversion of reflected conserved variables is the reflected inversion, with the same root, bounds and rewriting of conserved variables. -/
theorem c2p_mir (val hasB hasYe failF failC : Bool) (small eps : ℝ) (eos : Eos) (G : ADM ℝ) (gdet : ℝ) (b : Bnds) (c : Cons) (tol guess : ℝ) (n : ℕ) (mu : ℝ) :
    findMu small eps eos b (prep val hasB hasYe small (mirG e G) gdet b (mirC e c)).aux tol guess n =
      findMu small eps eos b (prep val hasB hasYe small G gdet b c).aux tol guess n ∧
    unwrap val hasB hasYe failF failC small eos (mirG e G) gdet b (mirC e c) mu = mirO e (unwrap val hasB hasYe failF failC small eos G gdet b c mu) := by
  have hp := prep_mir h val hasB hasYe small G gdet b c
  constructor
  · rw [hp]
  · obtain ⟨p, hpp⟩ : ∃ p, prep val hasB hasYe small G gdet b c = p := ⟨_, rfl⟩
    simp only [hpp] at hp
    have hprim : (unwrap val hasB hasYe failF failC small eos (mirG e G) gdet b (mirC e c) mu).prim =
        mirQ e (unwrap val hasB hasYe failF failC small eos G gdet b c mu).prim := by
      simp only [unwrap, hp, hpp, mirQ, Prim.mk.injEq, true_and]
      refine ⟨?_, ?_⟩
      · funext i; ring
      · cases hasB <;> simp
    have hye : (unwrap val hasB hasYe failF failC small eos (mirG e G) gdet b (mirC e c) mu).ye =
        (unwrap val hasB hasYe failF failC small eos G gdet b c mu).ye := by
      simp only [unwrap, hp, hpp]
    have h1 : (unwrap val hasB hasYe failF failC small eos (mirG e G) gdet b (mirC e c) mu).usedRhoFloor =
        (unwrap val hasB hasYe failF failC small eos G gdet b c mu).usedRhoFloor := by
      simp only [unwrap, hp, hpp]
    have h2 : (unwrap val hasB hasYe failF failC small eos (mirG e G) gdet b (mirC e c) mu).usedEFloor =
        (unwrap val hasB hasYe failF failC small eos G gdet b c mu).usedEFloor := by
      simp only [unwrap, hp, hpp]
    have h3 : (unwrap val hasB hasYe failF failC small eos (mirG e G) gdet b (mirC e c) mu).usedEMax =
        (unwrap val hasB hasYe failF failC small eos G gdet b c mu).usedEMax := by
      simp only [unwrap, hp, hpp]
    have h4 : (unwrap val hasB hasYe failF failC small eos (mirG e G) gdet b (mirC e c) mu).usedGMax =
        (unwrap val hasB hasYe failF failC small eos G gdet b c mu).usedGMax := by
      simp only [unwrap, hp, hpp]
    have form : ∀ (H : ADM ℝ) (C : Cons), let o := unwrap val hasB hasYe failF failC small eos H gdet b C mu
        o = ⟨o.prim, o.ye,
          if (o.usedRhoFloor || o.usedEFloor || o.usedEMax || o.usedGMax) = true then
            { C with D := (p2c val H gdet (if hasYe then o.ye else 0) o.prim).D, S := (p2c val H gdet (if hasYe then o.ye else 0) o.prim).S,
                     tau := (p2c val H gdet (if hasYe then o.ye else 0) o.prim).tau, ye := if hasYe then (p2c val H gdet (if hasYe then o.ye else 0) o.prim).ye else C.ye }
          else C, o.usedRhoFloor, o.usedEFloor, o.usedEMax, o.usedGMax, !((failF && (o.usedRhoFloor || o.usedEFloor)) || (failC && o.usedGMax))⟩ := fun _ _ => rfl
    have f1 := form (mirG e G) (mirC e c)
    have f2 := form G c
    simp only [hprim, hye, h1, h2, h3, h4, p2c_mir h] at f1
    rw [f1]
    simp only at f2
    generalize unwrap val hasB hasYe failF failC small eos G gdet b c mu = o at f2 ⊢
    rw [f2]
    simp only [mirO, Out.mk.injEq, true_and, and_true]
    cases (o.usedRhoFloor || o.usedEFloor || o.usedEMax || o.usedGMax) <;> cases hasYe <;> simp [mirC]

end Phoebus.C2P
