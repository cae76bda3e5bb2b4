import Verif.Geodesics.Props
import Mathlib.Analysis.Calculus.MeanValue
import Mathlib.Analysis.Calculus.Deriv.Pow
import Mathlib.Analysis.Calculus.Deriv.Prod
import Mathlib.Analysis.Calculus.Deriv.Pi
import Mathlib.Analysis.SpecialFunctions.ExpDeriv
import Mathlib.Analysis.SpecialFunctions.Sqrt
import Mathlib.Analysis.Normed.Module.FiniteDimension
import Mathlib.Analysis.Calculus.ContDiff.RCLike

/-!
# Rays over many pushes (C167)
-/
namespace Phoebus.Geodesics
open Finset GeomUtils

/-! ### Two-stage steps near a solution -/

section
variable {V : Type*} [NormedAddCommGroup V] [NormedSpace ℝ V]

/-- steps `u + s/2 (h(u,u) + h(u, u + s h(u,u)))` of any lengths up to `δ` follow a path whose velocity is `h(y,y)` up to `ε`, as long as `h` is Lipschitz in a tube around the path. -/
theorem twostage_near {h : V → V → V} {D : Set V} {F y : ℝ → V} {K B T r ε δ : ℝ} (hK : 0 ≤ K) (hB0 : 0 ≤ B) (hε0 : 0 ≤ ε) (hε1 : ε ≤ 1) (hδ1 : δ ≤ 1)
    (hL : ∀ a ∈ D, ∀ a' ∈ D, ∀ b ∈ D, ∀ b' ∈ D, ‖h a b - h a' b'‖ ≤ K * (‖a - a'‖ + ‖b - b'‖)) (tube : ∀ t ∈ Set.Icc 0 T, ∀ z, ‖z - y t‖ ≤ r → z ∈ D) (hy : ∀ t ∈ Set.Icc 0 T, HasDerivWithinAt y (F t) (Set.Icc 0 T) t)
    (hF : ∀ t ∈ Set.Icc 0 T, ‖F t - h (y t) (y t)‖ ≤ ε) (hB : ∀ t ∈ Set.Icc 0 T, ‖F t‖ ≤ B) (hr : 0 ≤ r) (small1 : ((K * (B + 1) + 2 * K * B) * δ + ε) * T * Real.exp ((2 * K + K ^ 2) * T) ≤ r / 2) (small2 : δ * (B + 1 + 2 * K * r) ≤ r / 2)
    (s : ℕ → ℝ) (hs : ∀ k, 0 ≤ s k ∧ s k ≤ δ) (u : ℕ → V) (hu0 : u 0 = y 0) (hu : ∀ k, u (k + 1) = u k + (s k / 2) • (h (u k) (u k) + h (u k) (u k + s k • h (u k) (u k)))) (n : ℕ) (hn : ∑ k ∈ range n, s k ≤ T) :
    ‖u n - y (∑ k ∈ range n, s k)‖ ≤ ((K * (B + 1) + 2 * K * B) * δ + ε) * (∑ k ∈ range n, s k) * Real.exp ((2 * K + K ^ 2) * ∑ k ∈ range n, s k) := by
  set c := (K * (B + 1) + 2 * K * B) * δ + ε with hc
  set L := 2 * K + K ^ 2 with hLd
  have hδ0 : 0 ≤ δ := (hs 0).1.trans (hs 0).2
  have hc0 : 0 ≤ c := by positivity
  have hL0 : 0 ≤ L := by positivity
  induction n with
  | zero => simp [hu0]
  | succ n ih =>
    rw [sum_range_succ] at hn ⊢
    set t := ∑ k ∈ range n, s k with ht
    have ht0 : 0 ≤ t := sum_nonneg fun k _ => (hs k).1
    obtain ⟨s0, s1⟩ := hs n
    have htT : t ≤ T := by linarith
    have i := ih htT
    have htm : t ∈ Set.Icc 0 T := ⟨ht0, htT⟩
    set e := ‖u n - y t‖ with he
    have he0 : 0 ≤ e := norm_nonneg _
    have her : e ≤ r / 2 := by
      refine i.trans (le_trans ?_ small1)
      exact mul_le_mul (mul_le_mul_of_nonneg_left htT hc0) (Real.exp_le_exp.mpr (mul_le_mul_of_nonneg_left htT hL0)) (Real.exp_pos _).le (by have := ht0.trans htT; positivity)
    have yD : ∀ a ∈ Set.Icc 0 T, y a ∈ D := fun a ha => tube a ha _ (by rw [sub_self, norm_zero]; exact hr)
    have uD : u n ∈ D := tube t htm _ (by linarith)
    have hff : ‖h (u n) (u n) - h (y t) (y t)‖ ≤ 2 * K * e := by
      refine (hL _ uD _ (yD t htm) _ uD _ (yD t htm)).trans_eq ?_
      ring
    have hfu : ‖h (u n) (u n)‖ ≤ B + 1 + 2 * K * e := by
      have a1 := norm_sub_norm_le (h (u n) (u n)) (h (y t) (y t))
      have a2 := norm_sub_norm_le (h (y t) (y t)) (F t)
      rw [norm_sub_rev] at a2
      have := hF t htm
      have := hB t htm
      linarith
    set w := u n + s n • h (u n) (u n) with hw
    have hwu : ‖w - u n‖ ≤ s n * (B + 1 + 2 * K * e) := by
      rw [hw, add_sub_cancel_left, norm_smul, Real.norm_eq_abs, abs_of_nonneg s0]
      exact mul_le_mul_of_nonneg_left hfu s0
    have wD : w ∈ D := by
      refine tube t htm _ ?_
      have a1 : ‖w - y t‖ ≤ ‖w - u n‖ + e := by
        have : w - y t = (w - u n) + (u n - y t) := by abel
        rw [this]; exact norm_add_le _ _
      have a2 : s n * (B + 1 + 2 * K * e) ≤ δ * (B + 1 + 2 * K * r) := by
        refine mul_le_mul s1 ?_ (by positivity) hδ0
        have := mul_le_mul_of_nonneg_left (her.trans (by linarith : r / 2 ≤ r)) (by positivity : 0 ≤ 2 * K)
        linarith
      linarith
    have hsec : ‖h (u n) w - h (u n) (u n)‖ ≤ K * (s n * (B + 1 + 2 * K * e)) := by
      have := hL _ uD _ uD _ wD _ uD
      rw [sub_self, norm_zero, zero_add] at this
      exact this.trans (mul_le_mul_of_nonneg_left hwu hK)
    -- defect of the path
    have hsub : Set.Icc t (t + s n) ⊆ Set.Icc 0 T := Set.Icc_subset_Icc ht0 hn
    have ht' : t ∈ Set.Icc t (t + s n) := ⟨le_rfl, by linarith⟩
    have step : ∀ a ∈ Set.Icc t (t + s n), ‖y a - y t‖ ≤ B * s n := fun a ha => by
      have := (convex_Icc t (t + s n)).norm_image_sub_le_of_norm_hasDerivWithin_le (f := y) (f' := F) (C := B) (x := t) (y := a)
        (fun q hq => (hy q (hsub hq)).mono hsub) (fun q hq => hB q (hsub hq)) ht' ha
      refine this.trans (mul_le_mul_of_nonneg_left ?_ hB0)
      rw [Real.norm_eq_abs, abs_of_nonneg (by linarith [ha.1])]
      linarith [ha.2]
    have d : ‖y (t + s n) - y t - s n • h (y t) (y t)‖ ≤ (ε + 2 * K * (B * s n)) * s n := by
      have := (convex_Icc t (t + s n)).norm_image_sub_le_of_norm_hasDerivWithin_le (f := fun q => y q - q • h (y t) (y t)) (f' := fun q => F q - (1:ℝ) • h (y t) (y t)) (C := ε + 2 * K * (B * s n)) (x := t) (y := t + s n)
        (fun q hq => ((hy q (hsub hq)).mono hsub).sub ((hasDerivWithinAt_id q _).smul_const _)) (fun q hq => by
          rw [one_smul]
          have e1 : F q - h (y t) (y t) = (F q - h (y q) (y q)) + (h (y q) (y q) - h (y t) (y t)) := by abel
          rw [e1]
          refine (norm_add_le _ _).trans (add_le_add (hF q (hsub hq)) ?_)
          refine (hL _ (yD q (hsub hq)) _ (yD t htm) _ (yD q (hsub hq)) _ (yD t htm)).trans ?_
          have := mul_le_mul_of_nonneg_left (step q hq) hK
          linarith) ht' ⟨by linarith, le_rfl⟩
      have e1 : (y (t + s n) - (t + s n) • h (y t) (y t)) - (y t - t • h (y t) (y t)) = y (t + s n) - y t - s n • h (y t) (y t) := by module
      rw [e1] at this
      refine this.trans_eq ?_
      rw [add_sub_cancel_left, Real.norm_eq_abs, abs_of_nonneg s0]
    have key : ‖u (n + 1) - y (t + s n)‖ ≤ e + s n * (2 * K * e) + s n / 2 * (K * (s n * (B + 1 + 2 * K * e))) + (ε + 2 * K * (B * s n)) * s n := by
      have e1 : u (n + 1) - y (t + s n) = (u n - y t) + s n • (h (u n) (u n) - h (y t) (y t)) + (s n / 2) • (h (u n) w - h (u n) (u n)) - (y (t + s n) - y t - s n • h (y t) (y t)) := by
        rw [hu n]; module
      rw [e1]
      refine (norm_sub_le _ _).trans (add_le_add ((norm_add_le _ _).trans (add_le_add ((norm_add_le _ _).trans (add_le_add le_rfl ?_)) ?_)) d)
      · rw [norm_smul, Real.norm_eq_abs, abs_of_nonneg s0]; exact mul_le_mul_of_nonneg_left hff s0
      · rw [norm_smul, Real.norm_eq_abs, abs_of_nonneg (by linarith : 0 ≤ s n / 2)]; exact mul_le_mul_of_nonneg_left hsec (by linarith)
    have key2 : ‖u (n + 1) - y (t + s n)‖ ≤ (1 + L * s n) * e + c * s n := by
      refine key.trans ?_
      have b1 : s n * s n ≤ δ * s n := mul_le_mul_of_nonneg_right s1 s0
      have b2 : s n * s n ≤ s n := by nlinarith
      have b3 := mul_le_mul_of_nonneg_left b1 (by positivity : 0 ≤ K * (B + 1))
      have b4 := mul_le_mul_of_nonneg_left b1 (by positivity : 0 ≤ 2 * K * B)
      have b5 := mul_le_mul_of_nonneg_left b2 (by positivity : 0 ≤ K ^ 2 * e)
      have b6 : 0 ≤ K * (B + 1) * (s n * s n) := by positivity
      rw [hc, hLd]
      nlinarith
    have g1 : 1 + L * s n ≤ Real.exp (L * s n) := by have := Real.add_one_le_exp (L * s n); linarith
    have g2 : c * s n ≤ c * s n * Real.exp (L * (t + s n)) := le_mul_of_one_le_right (by positivity) (Real.one_le_exp (by positivity))
    have g3 : (1 + L * s n) * e ≤ Real.exp (L * s n) * (c * t * Real.exp (L * t)) := mul_le_mul g1 i he0 (Real.exp_pos _).le
    refine key2.trans ((add_le_add g3 g2).trans_eq ?_)
    rw [show L * (t + s n) = L * s n + L * t by ring, Real.exp_add]; ring

end

/-! ### Specification -/

/-- the ray `(X, k)` obeys Hamilton's equations with the coordinate time as parameter over the times `0..T`: `dX^μ/dt = k^μ/k^0` and `dk_μ/dt = -(∂_μ g^{νκ}) k_ν k_κ / (2 k^0)`; `dg x μ ν κ` is the derivative `∂_μ g^{νκ}` at `x`. -/
def IsRay (gcon : (Fin 4 → ℝ) → Fin 4 → Fin 4 → ℝ) (dg : (Fin 4 → ℝ) → Fin 4 → Fin 4 → Fin 4 → ℝ) (T : ℝ) (X k : ℝ → Fin 4 → ℝ) : Prop :=
  ∀ t ∈ Set.Icc 0 T, ∀ mu, (∀ nu kap, HasDerivAt (fun x => gcon (Function.update (X t) mu x) nu kap) (dg (X t) mu nu kap) (X t mu)) ∧
    HasDerivWithinAt (fun r => X r mu) (raise (gcon (X t)) (k t) mu / raise (gcon (X t)) (k t) 0) (Set.Icc 0 T) t ∧
    HasDerivWithinAt (fun r => k r mu) (-(∑ nu, ∑ kap, dg (X t) mu nu kap * k t nu * k t kap) / (2 * raise (gcon (X t)) (k t) 0)) (Set.Icc 0 T) t

/-- the differences of the metric over the fixed distance used by the code give the forces on the ray up to `ε`. -/
def ForceError (gcon : (Fin 4 → ℝ) → Fin 4 → Fin 4 → ℝ) (dg : (Fin 4 → ℝ) → Fin 4 → Fin 4 → Fin 4 → ℝ) (T : ℝ) (X k : ℝ → Fin 4 → ℝ) (ε : ℝ) : Prop :=
  ∀ t ∈ Set.Icc 0 T, ∀ mu, |-(∑ nu, ∑ kap, dg (X t) mu nu kap * k t nu * k t kap) / (2 * raise (gcon (X t)) (k t) 0) - kSource false gcon (X t) (k t) (raise (gcon (X t)) (k t) 0) mu| ≤ ε

/-- the points at which the code evaluates the metric around `x` are in `U`, and the ray moves forward or backward in time there. -/
def Regular (gcon : (Fin 4 → ℝ) → Fin 4 → Fin 4 → ℝ) (U : Set (Fin 4 → ℝ)) (x k : Fin 4 → ℝ) : Prop :=
  x ∈ U ∧ (∀ mu, x + Pi.single mu delta ∈ U ∧ x - Pi.single mu delta ∈ U) ∧ raise (gcon x) k 0 ≠ 0

/-- the states of a ray through pushes of lengths `s`, monte_carlo.cpp:530, mocmc.cpp:508. -/
noncomputable def rayRun (gcon : (Fin 4 → ℝ) → Fin 4 → Fin 4 → ℝ) (s : ℕ → ℝ) (p : Ray ℝ) : ℕ → Ray ℝ
  | 0 => p
  | n + 1 => push false gcon (s n) (rayRun gcon s p n)

/-! ### The push as a two-stage step -/

/-- position and wave vector.
(Helper.) -/
abbrev Phase := (Fin 4 → ℝ) × (Fin 4 → ℝ)

/-- rates of the second stage of the push: the position rate at `b`, the force with the metric differences at `a`.
(Helper: geodesics.hpp:103-111.) -/
noncomputable def rate (gcon : (Fin 4 → ℝ) → Fin 4 → Fin 4 → ℝ) (a b : Phase) : Phase :=
  (xSource (raise (gcon b.1) b.2), kSource false gcon a.1 b.2 (raise (gcon b.1) b.2 0))

theorem push_rate (gcon : (Fin 4 → ℝ) → Fin 4 → Fin 4 → ℝ) (dt : ℝ) (p : Ray ℝ) : let u : Phase := (p.X, p.k)
    (((push false gcon dt p).X, (push false gcon dt p).k) : Phase) = u + (dt / 2) • (rate gcon u u + rate gcon u (u + dt • rate gcon u u)) := by
  intro u
  refine Prod.ext (funext fun mu => ?_) (funext fun mu => ?_)
  · show p.X mu + 1 / 2 * dt * (_ + _) = p.X mu + dt / 2 * (_ + _)
    rw [show (1:ℝ) / 2 * dt = dt / 2 by ring]; rfl
  · show p.k mu + 1 / 2 * dt * (_ + _) = p.k mu + dt / 2 * (_ + _)
    rw [show (1:ℝ) / 2 * dt = dt / 2 by ring]; rfl

theorem kSource_eq (gcon : (Fin 4 → ℝ) → Fin 4 → Fin 4 → ℝ) (X k : Fin 4 → ℝ) (c : ℝ) (mu : Fin 4) :
    kSource false gcon X k c mu = (∑ nu, ∑ kap, k nu * k kap * ((gcon (X + Pi.single mu delta) nu kap - gcon (X - Pi.single mu delta) nu kap) / (2 * delta))) * (-1 / (2 * c)) := by
  have e1 : Function.update X mu (X mu + delta) = X + Pi.single mu delta := by
    funext i
    by_cases h : i = mu
    · subst h; simp
    · simp [h]
  have e2 : Function.update X mu (X mu - delta) = X - Pi.single mu delta := by
    funext i
    by_cases h : i = mu
    · subst h; simp
    · simp [h]
  have e3 : (X + (Pi.single mu (delta : ℝ) : Fin 4 → ℝ)) mu - (X - (Pi.single mu (delta : ℝ) : Fin 4 → ℝ)) mu = 2 * (delta : ℝ) := by simp; ring
  simp only [kSource, Bool.false_eq_true, if_false, e1, e2, e3]

section smooth
variable {U : Set (Fin 4 → ℝ)} (hU : IsOpen U) {gcon : (Fin 4 → ℝ) → Fin 4 → Fin 4 → ℝ} (hg : ∀ nu kap, ContDiffOn ℝ 1 (fun X => gcon X nu kap) U)
include hU hg

theorem raise_smooth {b : Phase} (hb : b.1 ∈ U) (mu : Fin 4) : ContDiffAt ℝ 1 (fun z : Phase => raise (gcon z.1) z.2 mu) b := by
  unfold raise
  refine ContDiffAt.sum fun nu _ => ?_
  have h1 : ContDiffAt ℝ 1 (fun z : Phase => gcon z.1 mu nu) b := ((hg mu nu).contDiffAt (hU.mem_nhds hb)).comp b contDiff_fst.contDiffAt
  have h2 : ContDiffAt ℝ 1 (fun z : Phase => z.2 nu) b := ((contDiff_apply ℝ ℝ nu).comp contDiff_snd).contDiffAt
  exact h1.mul h2

theorem rate_smooth {a b : Phase} (ha : ∀ mu, a.1 + Pi.single mu delta ∈ U ∧ a.1 - Pi.single mu delta ∈ U) (hb : b.1 ∈ U) (h0 : raise (gcon b.1) b.2 0 ≠ 0) :
    ContDiffAt ℝ 1 (fun z : Phase × Phase => rate gcon z.1 z.2) (a, b) := by
  have hr : ∀ mu, ContDiffAt ℝ 1 (fun z : Phase × Phase => raise (gcon z.2.1) z.2.2 mu) (a, b) := fun mu =>
    ContDiffAt.comp (g := fun z : Phase => raise (gcon z.1) z.2 mu) (a, b) (raise_smooth hU hg hb mu) contDiff_snd.contDiffAt
  have hk : ∀ mu, ContDiffAt ℝ 1 (fun z : Phase × Phase => z.2.2 mu) (a, b) := fun mu => ((contDiff_apply ℝ ℝ mu).comp (contDiff_snd.comp contDiff_snd)).contDiffAt
  have hX : ContDiffAt ℝ 1 (fun z : Phase × Phase => z.1.1) (a, b) := (contDiff_fst.comp contDiff_fst).contDiffAt
  have hp : ∀ mu nu kap, ContDiffAt ℝ 1 (fun z : Phase × Phase => gcon (z.1.1 + (Pi.single mu (delta : ℝ) : Fin 4 → ℝ)) nu kap) (a, b) := fun mu nu kap =>
    ContDiffAt.comp (g := fun X => gcon X nu kap) (f := fun z : Phase × Phase => z.1.1 + (Pi.single mu (delta : ℝ) : Fin 4 → ℝ)) (a, b) ((hg nu kap).contDiffAt (hU.mem_nhds (ha mu).1)) (hX.add contDiffAt_const)
  have hm : ∀ mu nu kap, ContDiffAt ℝ 1 (fun z : Phase × Phase => gcon (z.1.1 - (Pi.single mu (delta : ℝ) : Fin 4 → ℝ)) nu kap) (a, b) := fun mu nu kap =>
    ContDiffAt.comp (g := fun X => gcon X nu kap) (f := fun z : Phase × Phase => z.1.1 - (Pi.single mu (delta : ℝ) : Fin 4 → ℝ)) (a, b) ((hg nu kap).contDiffAt (hU.mem_nhds (ha mu).2)) (hX.sub contDiffAt_const)
  refine ContDiffAt.prodMk (contDiffAt_pi.mpr fun mu => ?_) (contDiffAt_pi.mpr fun mu => ?_)
  · have q : ∀ nu, ContDiffAt ℝ 1 (fun z : Phase × Phase => raise (gcon z.2.1) z.2.2 nu / raise (gcon z.2.1) z.2.2 0) (a, b) := fun nu => (hr nu).div (hr 0) h0
    fin_cases mu
    · exact contDiffAt_const
    · exact q 1
    · exact q 2
    · exact q 3
  · simp only [kSource_eq]
    refine ContDiffAt.mul (ContDiffAt.sum fun nu _ => ContDiffAt.sum fun kap _ => ((hk nu).mul (hk kap)).mul (((hp mu nu kap).sub (hm mu nu kap)).div_const _)) ?_
    exact contDiffAt_const.div (contDiffAt_const.mul (hr 0)) (mul_ne_zero two_ne_zero h0)

theorem regular_open : IsOpen {z : Phase | Regular gcon U z.1 z.2} := by
  have h1 : IsOpen {z : Phase | z.1 ∈ U} := hU.preimage continuous_fst
  have h2 : IsOpen {z : Phase | ∀ mu, z.1 + Pi.single mu delta ∈ U ∧ z.1 - Pi.single mu delta ∈ U} := by
    simp only [Set.ofPred_forall]
    refine isOpen_iInter_of_finite fun mu => ?_
    exact (hU.preimage (continuous_fst.add continuous_const)).inter (hU.preimage (continuous_fst.sub continuous_const))
  have h3 : IsOpen ({z : Phase | z.1 ∈ U} ∩ (fun z : Phase => raise (gcon z.1) z.2 0) ⁻¹' {0}ᶜ) :=
    ContinuousOn.isOpen_inter_preimage (fun z hz => (raise_smooth hU hg hz 0).continuousAt.continuousWithinAt) h1 isOpen_compl_singleton
  have e : {z : Phase | Regular gcon U z.1 z.2} = ({z : Phase | z.1 ∈ U} ∩ (fun z : Phase => raise (gcon z.1) z.2 0) ⁻¹' {0}ᶜ) ∩ {z : Phase | ∀ mu, z.1 + Pi.single mu delta ∈ U ∧ z.1 - Pi.single mu delta ∈ U} := by
    ext z
    simp only [Regular, Set.mem_ofPred_eq, Set.mem_inter_iff, Set.mem_preimage, Set.mem_compl_iff, Set.mem_singleton_iff]
    tauto
  rw [e]
  exact h3.inter h2

/-- **C167** Pushed rays follow the null and timelike geodesics: for every continuously differentiable metric and every solution of Hamilton's equations over a finite time there are constants such that, through any number of pushes of any lengths up to `δ`, position and wave vector stay within
`C (δ + ε)` of the solution, where `ε` is the error of the forces from the fixed distance of the metric differences. -/
theorem rays_converge {dg : (Fin 4 → ℝ) → Fin 4 → Fin 4 → Fin 4 → ℝ} {T : ℝ} (hT : 0 ≤ T) {X k : ℝ → Fin 4 → ℝ} (hray : IsRay gcon dg T X k) (hreg : ∀ t ∈ Set.Icc 0 T, Regular gcon U (X t) (k t)) :
    ∃ C η, 0 < η ∧ ∀ ε δ, 0 ≤ ε → ForceError gcon dg T X k ε → δ + ε ≤ η → ∀ s : ℕ → ℝ, (∀ j, 0 ≤ s j ∧ s j ≤ δ) → ∀ n, ∑ j ∈ range n, s j ≤ T → ∀ mu,
      |(rayRun gcon s ⟨X 0, k 0⟩ n).X mu - X (∑ j ∈ range n, s j) mu| ≤ C * (δ + ε) ∧ |(rayRun gcon s ⟨X 0, k 0⟩ n).k mu - k (∑ j ∈ range n, s j) mu| ≤ C * (δ + ε) := by
  set y : ℝ → Phase := fun t => (X t, k t) with hy
  set F : ℝ → Phase := fun t => (fun mu => raise (gcon (X t)) (k t) mu / raise (gcon (X t)) (k t) 0, fun mu => -(∑ nu, ∑ kap, dg (X t) mu nu kap * k t nu * k t kap) / (2 * raise (gcon (X t)) (k t) 0)) with hF
  have hyd : ∀ t ∈ Set.Icc 0 T, HasDerivWithinAt y (F t) (Set.Icc 0 T) t := fun t ht =>
    (hasDerivWithinAt_pi.mpr fun mu => (hray t ht mu).2.1).prodMk (hasDerivWithinAt_pi.mpr fun mu => (hray t ht mu).2.2)
  have hyc : ContinuousOn y (Set.Icc 0 T) := fun t ht => (hyd t ht).continuousWithinAt
  have hS : IsCompact (y '' Set.Icc 0 T) := isCompact_Icc.image_of_continuousOn hyc
  obtain ⟨r, hr, hsub⟩ := hS.exists_cthickening_subset_open (regular_open hU hg) (by rintro _ ⟨t, ht, rfl⟩; exact hreg t ht)
  set D := Metric.cthickening r (y '' Set.Icc 0 T) with hD
  have hDc : IsCompact D := hS.cthickening
  have sm : ∀ z ∈ D ×ˢ D, ContDiffAt ℝ 1 (fun z : Phase × Phase => rate gcon z.1 z.2) z := fun z hz => rate_smooth hU hg (hsub hz.1).2.1 (hsub hz.2).1 (hsub hz.2).2.2
  have ll : LocallyLipschitzOn (D ×ˢ D) (fun z : Phase × Phase => rate gcon z.1 z.2) := fun z hz => by
    obtain ⟨K, t, ht, h⟩ := (sm z hz).exists_lipschitzOnWith
    exact ⟨K, t, mem_nhdsWithin_of_mem_nhds ht, h⟩
  obtain ⟨K, hK⟩ := ll.exists_lipschitzOnWith_of_compact (hDc.prod hDc)
  have hL : ∀ a ∈ D, ∀ a' ∈ D, ∀ b ∈ D, ∀ b' ∈ D, ‖rate gcon a b - rate gcon a' b'‖ ≤ K * (‖a - a'‖ + ‖b - b'‖) := fun a ha a' ha' b hb b' hb' => by
    have := hK.dist_le_mul (a, b) ⟨ha, hb⟩ (a', b') ⟨ha', hb'⟩
    rw [dist_eq_norm, Prod.dist_eq, dist_eq_norm, dist_eq_norm] at this
    exact this.trans (mul_le_mul_of_nonneg_left (max_le_add_of_nonneg (norm_nonneg _) (norm_nonneg _)) K.2)
  obtain ⟨B, hB⟩ := (hDc.prod hDc).exists_bound_of_continuousOn (f := fun z : Phase × Phase => rate gcon z.1 z.2) fun z hz => (sm z hz).continuousAt.continuousWithinAt
  have tube : ∀ t ∈ Set.Icc 0 T, ∀ z, ‖z - y t‖ ≤ r → z ∈ D := fun t ht z hz => Metric.mem_cthickening_of_dist_le z (y t) r _ ⟨t, ht, rfl⟩ (by rw [dist_eq_norm]; exact hz)
  have yD : ∀ t ∈ Set.Icc 0 T, y t ∈ D := fun t ht => tube t ht _ (by rw [sub_self, norm_zero]; exact hr.le)
  set B' := max B 0 + 1 with hB'
  have hB0 : 0 ≤ B' := by positivity
  have hK0 : (0:ℝ) ≤ K := K.2
  set A := K * (B' + 1) + 2 * K * B' + 1 with hA
  have hA0 : 0 ≤ A := by positivity
  set E := Real.exp ((2 * K + (K:ℝ) ^ 2) * T) with hE
  have hE0 : 0 < E := Real.exp_pos _
  refine ⟨A * T * E, min 1 (min (r / 2 / (A * T * E + 1)) (r / 2 / (B' + 1 + 2 * K * r))), by positivity, fun ε δ hε0 hfe hη s hs n hn => ?_⟩
  have hδ0 : 0 ≤ δ := (hs 0).1.trans (hs 0).2
  have η1 := hη.trans (min_le_left _ _)
  have η2 := hη.trans ((min_le_right _ _).trans (min_le_left _ _))
  have η3 := hη.trans ((min_le_right _ _).trans (min_le_right _ _))
  rw [le_div_iff₀ (by positivity)] at η2 η3
  have hcA : (K * (B' + 1) + 2 * K * B') * δ + ε ≤ A * (δ + ε) := by
    have : 0 ≤ (K * (B' + 1) + 2 * K * B') * ε := by positivity
    rw [hA]; nlinarith
  have hfr : ∀ t ∈ Set.Icc 0 T, ‖F t - rate gcon (y t) (y t)‖ ≤ ε := fun t ht => by
    refine (Prod.norm_def _).le.trans (max_le ?_ ?_)
    · have : (F t - rate gcon (y t) (y t)).1 = 0 := by
        funext mu
        show raise (gcon (X t)) (k t) mu / raise (gcon (X t)) (k t) 0 - xSource (raise (gcon (X t)) (k t)) mu = 0
        have h0 := (hreg t ht).2.2
        fin_cases mu
        · simp [xSource, div_self h0]
        · simp [xSource]
        · simp [xSource]
        · simp [xSource]
      rw [this, norm_zero]; exact hε0
    · exact (pi_norm_le_iff_of_nonneg hε0).mpr fun mu => hfe t ht mu
  have hFB : ∀ t ∈ Set.Icc 0 T, ‖F t‖ ≤ B' := fun t ht => by
    have a1 := norm_sub_norm_le (F t) (rate gcon (y t) (y t))
    have a2 := hfr t ht
    have a3 := (hB (y t, y t) ⟨yD t ht, yD t ht⟩).trans (le_max_left B 0)
    simp only at a3
    rw [hB']; linarith
  have main := twostage_near (h := rate gcon) (y := y) hK0 hB0 hε0 (by linarith) (by linarith) hL tube hyd hfr hFB hr.le
    (by
      have a1 : ((K * (B' + 1) + 2 * K * B') * δ + ε) * T * E ≤ A * (δ + ε) * T * E := mul_le_mul_of_nonneg_right (mul_le_mul_of_nonneg_right hcA hT) hE0.le
      refine a1.trans ?_
      nlinarith)
    (by
      have : 0 ≤ ε * (B' + 1 + 2 * K * r) := by positivity
      linarith) s hs (fun j => ((rayRun gcon s ⟨X 0, k 0⟩ j).X, (rayRun gcon s ⟨X 0, k 0⟩ j).k)) rfl (fun j => push_rate gcon (s j) (rayRun gcon s ⟨X 0, k 0⟩ j)) n hn
  set t := ∑ j ∈ range n, s j with ht
  have t0 : 0 ≤ t := sum_nonneg fun j _ => (hs j).1
  have fin : ‖(((rayRun gcon s ⟨X 0, k 0⟩ n).X, (rayRun gcon s ⟨X 0, k 0⟩ n).k) : Phase) - y t‖ ≤ A * T * E * (δ + ε) := by
    refine main.trans ?_
    have a1 : Real.exp ((2 * K + (K:ℝ) ^ 2) * t) ≤ E := Real.exp_le_exp.mpr (mul_le_mul_of_nonneg_left hn (by positivity))
    calc _ ≤ A * (δ + ε) * T * E := mul_le_mul (mul_le_mul hcA hn t0 (by positivity)) a1 (Real.exp_pos _).le (by positivity)
      _ = _ := by ring
  intro mu
  exact ⟨((norm_le_pi_norm ((((rayRun gcon s ⟨X 0, k 0⟩ n).X, (rayRun gcon s ⟨X 0, k 0⟩ n).k) : Phase) - y t).1 mu).trans (norm_fst_le _)).trans fin,
    ((norm_le_pi_norm ((((rayRun gcon s ⟨X 0, k 0⟩ n).X, (rayRun gcon s ⟨X 0, k 0⟩ n).k) : Phase) - y t).2 mu).trans (norm_snd_le _)).trans fin⟩

end smooth

/-! ### The error of the forces -/

/-- where the derivatives `dg` of the metric change by at most `M` per unit of coordinate and `k` is bounded by `κ` with `|k^0| ≥ c`, the forces are right up to `8 M κ² / c` times the distance of the metric differences. -/
theorem force_error {gcon : (Fin 4 → ℝ) → Fin 4 → Fin 4 → ℝ} {dg : (Fin 4 → ℝ) → Fin 4 → Fin 4 → Fin 4 → ℝ} {T : ℝ} {X k : ℝ → Fin 4 → ℝ} {M κ c : ℝ} (hM : 0 ≤ M) (hc : 0 < c) (hκ : ∀ t ∈ Set.Icc 0 T, ∀ nu, |k t nu| ≤ κ) (hk : ∀ t ∈ Set.Icc 0 T, c ≤ |raise (gcon (X t)) (k t) 0|)
    (hd : ∀ t ∈ Set.Icc 0 T, ∀ mu nu kap, ∀ x ∈ Set.Icc (X t mu - delta) (X t mu + delta), HasDerivAt (fun x => gcon (Function.update (X t) mu x) nu kap) (dg (Function.update (X t) mu x) mu nu kap) x ∧ |dg (Function.update (X t) mu x) mu nu kap - dg (X t) mu nu kap| ≤ M * |x - X t mu|) :
    ForceError gcon dg T X k (8 * M * κ ^ 2 / c * delta) := fun t ht mu => by
  have δ0 : (0:ℝ) < delta := by norm_num [delta]
  have κ0 : 0 ≤ κ := (abs_nonneg _).trans (hκ t ht 0)
  set q := raise (gcon (X t)) (k t) 0 with hq
  have hqc := hk t ht
  have hq0 : q ≠ 0 := fun h => by rw [← hq, h, abs_zero] at hqc; linarith
  set Δ : Fin 4 → Fin 4 → ℝ := fun nu kap => (gcon (Function.update (X t) mu (X t mu + delta)) nu kap - gcon (Function.update (X t) mu (X t mu - delta)) nu kap) / (2 * delta) with hΔ
  have dq : ∀ nu kap, |Δ nu kap - dg (X t) mu nu kap| ≤ M * delta := fun nu kap => by
    have hm : X t mu - delta ∈ Set.Icc (X t mu - delta) (X t mu + delta) := ⟨le_rfl, by linarith⟩
    have hp : X t mu + delta ∈ Set.Icc (X t mu - delta) (X t mu + delta) := ⟨by linarith, le_rfl⟩
    have := (convex_Icc (X t mu - delta) (X t mu + delta)).norm_image_sub_le_of_norm_hasDerivWithin_le
      (f := fun x => gcon (Function.update (X t) mu x) nu kap - x * dg (X t) mu nu kap) (f' := fun x => dg (Function.update (X t) mu x) mu nu kap - 1 * dg (X t) mu nu kap) (C := M * delta)
      (fun x hx => ((hd t ht mu nu kap x hx).1.sub ((hasDerivAt_id x).mul_const _)).hasDerivWithinAt) (fun x hx => by
        rw [one_mul]
        refine (hd t ht mu nu kap x hx).2.trans (mul_le_mul_of_nonneg_left (abs_le.mpr ⟨by linarith [hx.1], by linarith [hx.2]⟩) hM)) hm hp
    rw [Real.norm_eq_abs, Real.norm_eq_abs, show X t mu + delta - (X t mu - delta) = 2 * (delta : ℝ) by ring, abs_of_pos (by linarith : (0:ℝ) < 2 * delta)] at this
    have e : Δ nu kap - dg (X t) mu nu kap = ((gcon (Function.update (X t) mu (X t mu + delta)) nu kap - (X t mu + delta) * dg (X t) mu nu kap) - (gcon (Function.update (X t) mu (X t mu - delta)) nu kap - (X t mu - delta) * dg (X t) mu nu kap)) / (2 * delta) := by
      rw [hΔ]; field_simp; ring
    rw [e, abs_div, abs_of_pos (by linarith : (0:ℝ) < 2 * delta), div_le_iff₀ (by linarith)]
    exact this
  have hks : kSource false gcon (X t) (k t) q mu = (∑ nu, ∑ kap, k t nu * k t kap * Δ nu kap) * (-1 / (2 * q)) := by
    have e3 : X t mu + delta - (X t mu - delta) = 2 * (delta : ℝ) := by ring
    simp only [kSource, Bool.false_eq_true, if_false, Function.update_self, e3, hΔ]
  have e : -(∑ nu, ∑ kap, dg (X t) mu nu kap * k t nu * k t kap) / (2 * q) - kSource false gcon (X t) (k t) q mu = (∑ nu, ∑ kap, k t nu * k t kap * (Δ nu kap - dg (X t) mu nu kap)) / (2 * q) := by
    rw [hks]
    have : ∑ nu, ∑ kap, k t nu * k t kap * (Δ nu kap - dg (X t) mu nu kap) = (∑ nu, ∑ kap, k t nu * k t kap * Δ nu kap) - ∑ nu, ∑ kap, dg (X t) mu nu kap * k t nu * k t kap := by
      rw [← sum_sub_distrib]
      refine sum_congr rfl fun nu _ => ?_
      rw [← sum_sub_distrib]
      exact sum_congr rfl fun kap _ => by ring
    rw [this]; ring
  rw [e, abs_div, abs_mul, abs_two]
  have num : |∑ nu, ∑ kap, k t nu * k t kap * (Δ nu kap - dg (X t) mu nu kap)| ≤ 16 * (κ * κ * (M * delta)) := by
    have t1 : ∀ nu kap, |k t nu * k t kap * (Δ nu kap - dg (X t) mu nu kap)| ≤ κ * κ * (M * delta) := fun nu kap => by
      rw [abs_mul, abs_mul]
      exact mul_le_mul (mul_le_mul (hκ t ht nu) (hκ t ht kap) (abs_nonneg _) κ0) (dq nu kap) (abs_nonneg _) (by positivity)
    refine (abs_sum_le_sum_abs _ _).trans ((sum_le_sum fun nu _ => (abs_sum_le_sum_abs _ _).trans (sum_le_sum fun kap _ => t1 nu kap)).trans_eq ?_)
    simp only [sum_const, card_univ, Fintype.card_fin, nsmul_eq_mul]
    norm_num
    ring
  calc _ ≤ 16 * (κ * κ * (M * delta)) / (2 * c) := div_le_div₀ (by positivity) num (by linarith) (by linarith)
    _ = _ := by ring

/-! ### A ray in a metric that changes with time -/

/-- a metric that changes with time: `g^{tt} = -1`, `g^{xx} = 1 + t`.
(Example.) -/
def exG : (Fin 4 → ℝ) → Fin 4 → Fin 4 → ℝ := fun X => ![![-1, 0, 0, 0], ![0, 1 + X 0, 0, 0], ![0, 0, 1, 0], ![0, 0, 0, 1]]

/-- its derivatives.
(Example.) -/
def exDg : (Fin 4 → ℝ) → Fin 4 → Fin 4 → Fin 4 → ℝ := fun _ mu nu kap => if mu = 0 ∧ nu = 1 ∧ kap = 1 then 1 else 0

/-- position along the null ray.
(Example.) -/
noncomputable def exX (t : ℝ) : Fin 4 → ℝ := ![t, 2 / 3 * ((1 + t) * Real.sqrt (1 + t) - 1), 0, 0]

/-- wave vector along the null ray.
(Example.) -/
noncomputable def exK (t : ℝ) : Fin 4 → ℝ := ![-Real.sqrt (1 + t), 1, 0, 0]

theorem exG_raise (t : ℝ) : raise (exG (exX t)) (exK t) = ![Real.sqrt (1 + t), 1 + t, 0, 0] := by
  funext mu
  fin_cases mu <;> simp [raise, exG, exX, exK, Fin.sum_univ_four]

theorem exRay : IsRay exG exDg 1 exX exK := fun t ht mu => by
  have h1 : 0 < 1 + t := by linarith [ht.1]
  have hs := Real.sqrt_pos.mpr h1
  have hd : HasDerivAt (fun r : ℝ => 1 + r) 1 t := (hasDerivAt_id t).const_add 1
  have hq : HasDerivAt (fun r : ℝ => Real.sqrt (1 + r)) (1 / (2 * Real.sqrt (1 + t))) t := hd.sqrt h1.ne'
  have sq := Real.mul_self_sqrt h1.le
  refine ⟨fun nu kap => ?_, ?_, ?_⟩
  · by_cases hm : mu = 0
    · subst hm
      fin_cases nu <;> fin_cases kap <;> simp [exG, exDg, hasDerivAt_const]
      exact (hasDerivAt_id _).const_add 1
    · have e : (fun x => exG (Function.update (exX t) mu x) nu kap) = fun _ => exG (exX t) nu kap := by
        funext x
        simp [exG, Function.update_of_ne (Ne.symm hm)]
      rw [e]
      simp [exDg, hm, hasDerivAt_const]
  · rw [exG_raise]
    fin_cases mu
    · simp [exX, div_self hs.ne']
      exact (hasDerivAt_id t).hasDerivWithinAt
    · have := (((hd.mul hq).sub_const 1).const_mul (2 / 3 : ℝ)).hasDerivWithinAt (s := Set.Icc 0 1)
      refine this.congr_deriv ?_
      show 2 / 3 * (1 * Real.sqrt (1 + t) + (1 + t) * (1 / (2 * Real.sqrt (1 + t)))) = (1 + t) / Real.sqrt (1 + t)
      field_simp
      nlinarith
    · simp [exX, hasDerivWithinAt_const]
    · simp [exX, hasDerivWithinAt_const]
  · rw [exG_raise]
    fin_cases mu
    · refine hq.neg.hasDerivWithinAt.congr_deriv ?_
      simp [Fin.sum_univ_four, exDg, exK]
      ring
    · simp [exK, exDg, hasDerivWithinAt_const]
    · simp [exK, exDg, hasDerivWithinAt_const]
    · simp [exK, exDg, hasDerivWithinAt_const]

theorem exForce : ForceError exG exDg 1 exX exK 0 := fun t _ mu => by
  rw [exG_raise, kSource_eq]
  have hd : (delta : ℝ) ≠ 0 := by norm_num [delta]
  fin_cases mu <;> simp [Fin.sum_univ_four, exDg, exK, exG]
  field_simp
  ring_nf

/-- the bound of `force_error` holds for the null ray with `M = 0`, `κ = 2`, `c = 1`. -/
example : ForceError exG exDg 1 exX exK (8 * 0 * 2 ^ 2 / 1 * delta) := force_error le_rfl one_pos (fun t ht nu => by
    have h : Real.sqrt (1 + t) ≤ 2 := Real.sqrt_le_iff.mpr ⟨by norm_num, by linarith [ht.2]⟩
    have h0 := Real.sqrt_nonneg (1 + t)
    fin_cases nu <;> simp [exK, abs_of_nonneg h0, h])
  (fun t ht => by
    have h : 1 ≤ Real.sqrt (1 + t) := Real.one_le_sqrt.mpr (by linarith [ht.1])
    rw [exG_raise]
    exact h.trans (le_abs_self _))
  (fun t ht mu nu kap x _ => by
    refine ⟨?_, by simp [exDg]⟩
    by_cases hm : mu = 0
    · subst hm
      fin_cases nu <;> fin_cases kap <;> simp [exG, exDg, hasDerivAt_const]
      exact (hasDerivAt_id _).const_add 1
    · have e : (fun x => exG (Function.update (exX t) mu x) nu kap) = fun _ => exG (exX t) nu kap := by
        funext x
        simp [exG, Function.update_of_ne (Ne.symm hm)]
      rw [e]
      simp [exDg, hm, hasDerivAt_const])

/-- pushes along the null ray `x(t) = 2/3 ((1+t)^{3/2} - 1)` stay within a multiple of the step of it. -/
theorem exRay_converges : ∃ C η, 0 < η ∧ ∀ δ ≤ η, ∀ s : ℕ → ℝ, (∀ j, 0 ≤ s j ∧ s j ≤ δ) → ∀ n, ∑ j ∈ range n, s j ≤ 1 →
    |(rayRun exG s ⟨exX 0, exK 0⟩ n).X 1 - 2 / 3 * ((1 + ∑ j ∈ range n, s j) * Real.sqrt (1 + ∑ j ∈ range n, s j) - 1)| ≤ C * δ := by
  obtain ⟨C, η, hη, h⟩ := rays_converge (U := Set.univ) isOpen_univ (gcon := exG) (fun nu kap => by
    refine ContDiff.contDiffOn ?_
    have h0 : ContDiff ℝ 1 (fun X : Fin 4 → ℝ => 1 + X 0) := contDiff_const.add (contDiff_apply ℝ ℝ 0)
    fin_cases nu <;> fin_cases kap <;> simp [exG, contDiff_const]
    exact h0) (T := 1) zero_le_one exRay (fun t ht => ⟨trivial, fun _ => ⟨trivial, trivial⟩, by
      rw [exG_raise]; exact (Real.sqrt_pos.mpr (by linarith [ht.1])).ne'⟩)
  refine ⟨C, η, hη, fun δ hδ s hs n hn => ?_⟩
  have := (h 0 δ le_rfl exForce (by linarith) s hs n hn 1).1
  rw [add_zero] at this
  exact this

end Phoebus.Geodesics
