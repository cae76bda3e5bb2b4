import Verif.Riemann.Props
import Verif.MeshRun.Positivity

/-!
# C134: the fluxes under reflections

A reflection changes the sign of some components of vectors: `s i = 1` or `-1`.
-/
namespace Phoebus.Riemann
open Finset Geom Robust Rel

/-! ### Specification -/

/-- every component keeps or changes its sign. -/
def Signs (s : Fin 3 → ℝ) : Prop := ∀ i, s i = 1 ∨ s i = -1

/-- the reflected geometry. -/
def mirG (s : Fin 3 → ℝ) (G : ADM ℝ) : ADM ℝ :=
  ⟨G.alpha, fun i => s i * G.beta i, fun i j => s i * s j * G.gam i j, fun i j => s i * s j * G.gamInv i j⟩

/-- the reflected fluid state. -/
def mirQ (s : Fin 3 → ℝ) (q : Prim) : Prim := ⟨q.rho, q.u, q.P, fun i => s i * q.v i, fun i => s i * q.B i⟩

/-- reflected conserved variables. -/
def mirU (s : Fin 3 → ℝ) (U : Slots) : Slots := ⟨U.rho, fun i => s i * U.mom i, U.eng, fun i => s i * U.B i, U.ye⟩

/-- slots times a number. -/
def Slots.scale (a : ℝ) (U : Slots) : Slots := ⟨a * U.rho, fun i => a * U.mom i, a * U.eng, fun i => a * U.B i, a * U.ye⟩

/-! ### Proof -/

variable {s : Fin 3 → ℝ}

theorem Signs.sq (h : Signs s) (i : Fin 3) : s i * s i = 1 := by rcases h i with e | e <;> rw [e] <;> norm_num

theorem quad_mir (h : Signs s) (g : Fin 3 → Fin 3 → ℝ) (x y : Fin 3 → ℝ) :
    ∑ i, ∑ j, s i * s j * g i j * (s i * x i) * (s j * y j) = ∑ i, ∑ j, g i j * x i * y j := by
  refine sum_congr rfl fun i _ => sum_congr rfl fun j _ => ?_
  linear_combination (g i j * x i * y j * (s j * s j)) * h.sq i + (g i j * x i * y j) * h.sq j

theorem lin_mir (h : Signs s) (g : Fin 3 → Fin 3 → ℝ) (x : Fin 3 → ℝ) (i : Fin 3) :
    ∑ j, s i * s j * g i j * (s j * x j) = s i * ∑ j, g i j * x j := by
  rw [mul_sum]
  refine sum_congr rfl fun j _ => ?_
  linear_combination (s i * g i j * x j) * h.sq j

theorem dual_mir (h : Signs s) (x y : Fin 3 → ℝ) : ∑ j, s j * x j * (s j * y j) = ∑ j, x j * y j := by
  refine sum_congr rfl fun j _ => ?_
  linear_combination (x j * y j) * h.sq j

theorem lorentz_mir (h : Signs s) (G : ADM ℝ) (v : Fin 3 → ℝ) : lorentz (mirG s G).gam (fun i => s i * v i) = lorentz G.gam v := by
  unfold lorentz mirG
  rw [quad_mir h]

variable (h : Signs s) (G : ADM ℝ) (L : Limits) (q : Prim)
include h

theorem betaCov_mir (i : Fin 3) : (mirG s G).betaCov i = s i * G.betaCov i := lin_mir h G.gam G.beta i

theorem g400_mir : (mirG s G).g4 0 0 = G.g4 0 0 := by
  rw [ADM.g4_00, ADM.g4_00]
  unfold ADM.dot3 mirG
  simp only
  rw [quad_mir h]

theorem fVp_mir : fVp (mirG s G) L (mirQ s q) = fun i => s i * fVp G L q i := by
  unfold fVp
  simp only [show (mirQ s q).v = fun i => s i * q.v i from rfl, lorentz_mir h]
  split_ifs
  · funext i; ring
  · rfl

theorem fV0_mir : fV0 (mirG s G) L (mirQ s q) = fun i => s i * fV0 G L q i := by
  unfold fV0
  funext i
  rw [fVp_mir h, show (mirQ s q).v = fun i => s i * q.v i from rfl, lorentz_mir h]
  ring

theorem fVsq0_mir : fVsq0 (mirG s G) L (mirQ s q) = fVsq0 G L q := by
  unfold fVsq0
  simp only [fV0_mir h, ADM.g4_ss]
  exact quad_mir h _ _ _

theorem fV_mir : fV (mirG s G) L (mirQ s q) = fun i => s i * fV G L q i := by
  unfold fV
  rw [fVsq0_mir h, fV0_mir h]
  split_ifs
  · funext i; ring
  · rfl

theorem fVsq_mir : fVsq (mirG s G) L (mirQ s q) = fVsq G L q := by
  unfold fVsq
  rw [fVsq0_mir h]

theorem fBdotv_mir : fBdotv (mirG s G) L (mirQ s q) = fBdotv G L q := by
  unfold fBdotv
  simp only [fVsq0_mir h, fV0_mir h, ADM.g4_ss]
  have : ∑ m : Fin 3, ∑ n : Fin 3, (mirG s G).gam m n * (mirQ s q).B m * (s n * fV0 G L q n) = ∑ m, ∑ n, G.gam m n * q.B m * fV0 G L q n := quad_mir h _ _ _
  rw [this]

theorem fBdotB_mir : fBdotB (mirG s G) (mirQ s q) = fBdotB G q := by
  unfold fBdotB
  simp only [ADM.g4_ss]
  exact quad_mir h _ _ _

theorem fW_mir : fW (mirG s G) L (mirQ s q) = fW G L q := by unfold fW; rw [fVsq_mir h]

theorem fb0_mir : fb0 (mirG s G) L (mirQ s q) = fb0 G L q := by unfold fb0; rw [fW_mir h, fBdotv_mir h]

theorem fbsq_mir : fbsq (mirG s G) L (mirQ s q) = fbsq G L q := by unfold fbsq; rw [fW_mir h, fb0_mir h, fBdotB_mir h]

theorem fVtil_mir (d : Fin 3) : fVtil (mirG s G) L (mirQ s q) d = s d * fVtil G L q d := by
  unfold fVtil
  rw [fV_mir h]
  show s d * fV G L q d - s d * G.beta d / G.alpha = _
  ring

theorem fbcov_mir (m : Fin 3) : fbcov (mirG s G) L (mirQ s q) m = s m * fbcov G L q m := by
  unfold fbcov
  simp only [fb0_mir h, fW_mir h, fV_mir h, ADM.g4_s0, ADM.g4_ss, betaCov_mir h]
  have : ∑ n, (mirG s G).gam m n * ((mirQ s q).B n / fW G L q + fb0 G L q * (s n * fV G L q n - (mirG s G).beta n / (mirG s G).alpha)) =
      ∑ n, s m * s n * G.gam m n * (s n * (q.B n / fW G L q + fb0 G L q * (fV G L q n - G.beta n / G.alpha))) := by
    refine sum_congr rfl fun n _ => ?_
    simp only [mirG, mirQ]; ring
  rw [this, lin_mir h]
  show s m * G.betaCov m * fb0 G L q / G.alpha + _ = _
  ring

theorem fvcov_mir (m : Fin 3) : fvcov (mirG s G) L (mirQ s q) m = s m * fvcov G L q m := by
  unfold fvcov
  simp only [fV_mir h, ADM.g4_ss]
  exact lin_mir h _ _ _

theorem frhohWsq_mir : frhohWsq (mirG s G) L (mirQ s q) = frhohWsq G L q := by
  unfold frhohWsq
  rw [fW_mir h]; rfl

theorem fucon_mir : fucon (mirG s G) L (mirQ s q) 0 = fucon G L q 0 ∧ ∀ i : Fin 3, fucon (mirG s G) L (mirQ s q) i.succ = s i * fucon G L q i.succ := by
  unfold fucon
  simp only [fW_mir h, fVp_mir h, Fin.cons_zero, Fin.cons_succ]
  refine ⟨rfl, fun i => ?_⟩
  simp only [mirG]; ring

theorem fbcon_mir : fbcon (mirG s G) L (mirQ s q) 0 = fbcon G L q 0 ∧ ∀ i : Fin 3, fbcon (mirG s G) L (mirQ s q) i.succ = s i * fbcon G L q i.succ := by
  unfold fbcon
  simp only [fW_mir h, fb0_mir h, (fucon_mir h G L q).2, Fin.cons_zero, Fin.cons_succ]
  refine ⟨rfl, fun i => ?_⟩
  simp only [mirQ]; ring

theorem lower0_mir (x y : Fin 4 → ℝ) (h0 : x 0 = y 0) (hi : ∀ i : Fin 3, x i.succ = s i * y i.succ) :
    ∑ ν, (mirG s G).g4 0 ν * x ν = ∑ ν, G.g4 0 ν * y ν := by
  rw [Fin.sum_univ_succ, Fin.sum_univ_succ (f := fun ν => G.g4 0 ν * y ν), g400_mir h, h0]
  simp only [ADM.g4_0s, betaCov_mir h, hi]
  rw [dual_mir h]

/-- conserved variables of the reflected state in the reflected geometry are the reflected ones. -/
theorem fluxU_mir (val : Bool) (ye : ℝ) : fluxU val (mirG s G) L ye (mirQ s q) = mirU s (fluxU val G L ye q) := by
  have hr : fRho L (mirQ s q) = fRho L q := rfl
  have hu : fU L (mirQ s q) = fU L q := rfl
  have hp : fP (mirQ s q) = fP q := rfl
  have ha : (mirG s G).alpha = G.alpha := rfl
  have l1 := lower0_mir h G _ _ (fucon_mir h G L q).1 (fucon_mir h G L q).2
  have l2 := lower0_mir h G _ _ (fbcon_mir h G L q).1 (fbcon_mir h G L q).2
  unfold fluxU mirU
  simp only [fW_mir h, fbsq_mir h, frhohWsq_mir h, fb0_mir h, fvcov_mir h, fbcov_mir h, hr, hu, hp, ha, l1, l2, (fucon_mir h G L q).1, (fbcon_mir h G L q).1,
    Slots.mk.injEq, true_and, and_true]
  refine ⟨?_, rfl⟩
  funext m; ring

/-- **C134 (physical flux)**: the flux of the reflected state through a face of direction `d` is the reflected flux, with the sign of the normal. -/
theorem fluxF_mir (val : Bool) (ye : ℝ) (d : Fin 3) : fluxF val (mirG s G) L ye (mirQ s q) d = (mirU s (fluxF val G L ye q d)).scale (s d) := by
  have hr : fRho L (mirQ s q) = fRho L q := rfl
  have hu : fU L (mirQ s q) = fU L q := rfl
  have hp : fP (mirQ s q) = fP q := rfl
  have l1 := lower0_mir h G _ _ (fucon_mir h G L q).1 (fucon_mir h G L q).2
  have l2 := lower0_mir h G _ _ (fbcon_mir h G L q).1 (fbcon_mir h G L q).2
  unfold fluxF
  simp only [fluxU_mir h, fW_mir h, fbsq_mir h, fVtil_mir h, fbcov_mir h, fBdotv_mir h, fV_mir h, hr, hu, hp, l1, l2, (fucon_mir h G L q).2, (fbcon_mir h G L q).2]
  simp only [mirU, Slots.scale, mirQ, mirG, Slots.mk.injEq]
  refine ⟨by ring, ?_, ?_, ?_, by ring⟩
  · funext m
    by_cases e : d = m
    · subst e
      simp only [if_true]
      linear_combination (-(fP q + 0.5 * fbsq G L q)) * h.sq d
    · simp only [e, if_false]; ring
  · split_ifs <;> ring
  · funext m; ring

/-- signal speed of the cell state in the two directions. -/
theorem fcmsq_mir (eps g1 : ℝ) : fcmsq eps (mirG s G) L g1 (mirQ s q) = fcmsq eps G L g1 q := by
  unfold fcmsq
  simp only [fW_mir h, fbsq_mir h, frhohWsq_mir h]
  rfl

omit h in
theorem charSpeed_neg (eps alpha beta gdd vsq vel cmsq t : ℝ) :
    charSpeed eps alpha (-beta) gdd vsq (-vel) cmsq t = -charSpeed eps alpha beta gdd vsq vel cmsq (-t) := by
  unfold charSpeed
  have : -vel * (-vel * (1 - cmsq)) = vel * (vel * (1 - cmsq)) := by ring
  simp only [this]
  ring

/-- one slot of the numerical flux, riemann.hpp:269-275 and 291-300. -/
noncomputable def comb (sol : MeshRun.Solver) (small gdet gammadet : ℝ) (sl sr : ℝ × ℝ) (Fl Fr Ul Ur : ℝ) : ℝ :=
  match sol with
  | .llf => llf gdet gammadet sl.1 sl.2 sr.1 sr.2 Fl Fr Ul Ur
  | .hll => hll small gdet gammadet sl.1 sl.2 sr.1 sr.2 Fl Fr Ul Ur

/-- a face state: electron fraction, adiabatic index and fluid state.
(Data type.) -/
structure FaceState where
  ye : ℝ
  g1 : ℝ
  q : Prim

/-- the whole flux at a face from the two states, `llf` and `hll`, riemann.hpp:256-301. -/
noncomputable def numFlux (sol : MeshRun.Solver) (small eps : ℝ) (val : Bool) (G : ADM ℝ) (L : Limits) (gdet gammadet : ℝ) (d : Fin 3) (l r : FaceState) : Slots :=
  let sl := MeshRun.codeSpeeds eps G L l.g1 l.q d
  let sr := MeshRun.codeSpeeds eps G L r.g1 r.q d
  let Fl := fluxF val G L l.ye l.q d
  let Fr := fluxF val G L r.ye r.q d
  let Ul := fluxU val G L l.ye l.q
  let Ur := fluxU val G L r.ye r.q
  let c := comb sol small gdet gammadet sl sr
  ⟨c Fl.rho Fr.rho Ul.rho Ur.rho, fun m => c (Fl.mom m) (Fr.mom m) (Ul.mom m) (Ur.mom m), c Fl.eng Fr.eng Ul.eng Ur.eng,
    fun m => c (Fl.B m) (Fr.B m) (Ul.B m) (Ur.B m), c Fl.ye Fr.ye Ul.ye Ur.ye⟩

/-- the signal speed returned by the solver, riemann.hpp:269-275 and 291-300. -/
noncomputable def numSpeed (sol : MeshRun.Solver) (eps : ℝ) (G : ADM ℝ) (L : Limits) (d : Fin 3) (l r : FaceState) : ℝ :=
  let sl := MeshRun.codeSpeeds eps G L l.g1 l.q d
  let sr := MeshRun.codeSpeeds eps G L r.g1 r.q d
  match sol with
  | .llf => Timestep.llfSpeed sl.1 sl.2 sr.1 sr.2
  | .hll => Timestep.hllSpeed sl.1 sl.2 sr.1 sr.2

/-- reflected face state. -/
def mirS (s : Fin 3 → ℝ) (l : FaceState) : FaceState := ⟨l.ye, l.g1, mirQ s l.q⟩

/-- the characteristic speeds of the reflected state: exchanged and reversed along a reflected direction. -/
theorem codeSpeeds_mir (eps g1 : ℝ) (d : Fin 3) :
    MeshRun.codeSpeeds eps (mirG s G) L g1 (mirQ s q) d =
      if s d = -1 then (-(MeshRun.codeSpeeds eps G L g1 q d).2, -(MeshRun.codeSpeeds eps G L g1 q d).1) else MeshRun.codeSpeeds eps G L g1 q d := by
  unfold MeshRun.codeSpeeds
  simp only [fVsq_mir h, fV_mir h, fcmsq_mir h]
  have hg : (mirG s G).gamInv d d = G.gamInv d d := by
    show s d * s d * G.gamInv d d = _
    rw [h.sq, one_mul]
  have hb : (mirG s G).beta d = s d * G.beta d := rfl
  have ha : (mirG s G).alpha = G.alpha := rfl
  rw [hg, hb, ha]
  rcases h d with e | e
  · rw [if_neg (by rw [e]; norm_num), e]; simp only [one_mul]
  · rw [if_pos e, e]
    simp only [neg_one_mul, charSpeed_neg, neg_neg]

omit h in
theorem comb_mir (sol : MeshRun.Solver) (small gdet gammadet : ℝ) (sl sr : ℝ × ℝ) (Fl Fr Ul Ur : ℝ) :
    comb sol small gdet gammadet (-sr.2, -sr.1) (-sl.2, -sl.1) (-Fr) (-Fl) Ur Ul = -comb sol small gdet gammadet sl sr Fl Fr Ul Ur := by
  unfold comb
  cases sol
  · exact (flux_mirror small gdet gammadet sl.1 sl.2 sr.1 sr.2 Fl Fr Ul Ur).1
  · exact (flux_mirror small gdet gammadet sl.1 sl.2 sr.1 sr.2 Fl Fr Ul Ur).2

omit h in
theorem comb_scale (sol : MeshRun.Solver) (small gdet gammadet : ℝ) (sl sr : ℝ × ℝ) (a Fl Fr Ul Ur : ℝ) :
    comb sol small gdet gammadet sl sr (a * Fl) (a * Fr) (a * Ul) (a * Ur) = a * comb sol small gdet gammadet sl sr Fl Fr Ul Ur := by
  unfold comb
  cases sol
  · simp only [llf]; ring
  · simp only [hll]; ring

/-- **C134 (numerical flux)**: at a face whose normal is not reflected the flux of the reflected states is the reflected flux; at a face whose
normal is reflected the two states change place and the flux is reversed. -/
theorem numFlux_mir (sol : MeshRun.Solver) (small eps : ℝ) (val : Bool) (gdet gammadet : ℝ) (d : Fin 3) (l r : FaceState) :
    (s d = 1 → numFlux sol small eps val (mirG s G) L gdet gammadet d (mirS s l) (mirS s r) = mirU s (numFlux sol small eps val G L gdet gammadet d l r)) ∧
    (s d = -1 → numFlux sol small eps val (mirG s G) L gdet gammadet d (mirS s r) (mirS s l) =
      (mirU s (numFlux sol small eps val G L gdet gammadet d l r)).scale (-1)) := by
  constructor
  · intro e
    unfold numFlux
    simp only [mirS, codeSpeeds_mir h, fluxF_mir h, fluxU_mir h, e, show ¬ ((1:ℝ) = -1) by norm_num, if_false]
    simp only [mirU, Slots.scale, one_mul, comb_scale]
  · intro e
    unfold numFlux
    simp only [mirS, codeSpeeds_mir h, fluxF_mir h, fluxU_mir h, e, if_true]
    simp only [mirU, Slots.scale, Slots.mk.injEq, neg_one_mul]
    refine ⟨comb_mir .., ?_, comb_mir .., ?_, comb_mir ..⟩
    · funext m
      rw [comb_mir, comb_scale]
    · funext m
      rw [comb_mir, comb_scale]

/-- **C134 (signal speed of a face)**: the same for the reflected states. -/
theorem numSpeed_mir (sol : MeshRun.Solver) (eps : ℝ) (d : Fin 3) (l r : FaceState) :
    (s d = 1 → numSpeed sol eps (mirG s G) L d (mirS s l) (mirS s r) = numSpeed sol eps G L d l r) ∧
    (s d = -1 → numSpeed sol eps (mirG s G) L d (mirS s r) (mirS s l) = numSpeed sol eps G L d l r) := by
  constructor
  · intro e
    unfold numSpeed
    simp only [mirS, codeSpeeds_mir h, e, show ¬ ((1:ℝ) = -1) by norm_num, if_false]
  · intro e
    unfold numSpeed
    simp only [mirS, codeSpeeds_mir h, e, if_true]
    cases sol
    · simp only [Timestep.llfSpeed, neg_neg]
      rw [max_comm (MeshRun.codeSpeeds eps G L r.g1 r.q d).2, max_comm (MeshRun.codeSpeeds eps G L l.g1 l.q d).2]
      exact max_comm _ _
    · simp only [Timestep.hllSpeed]
      have e1 : ∀ a b : ℝ, -min (min (-a) (-b)) 0 = max (max b a) 0 := by
        intro a b
        rw [min_neg_neg, max_comm b, ← neg_zero (G := ℝ), min_neg_neg, neg_zero, neg_neg]
      have e2 : ∀ a b : ℝ, max (max (-a) (-b)) 0 = -min (min b a) 0 := by
        intro a b
        rw [max_neg_neg, min_comm b, ← neg_zero (G := ℝ), max_neg_neg, neg_zero]
      rw [e1, e2]
      exact max_comm _ _

end Phoebus.Riemann
