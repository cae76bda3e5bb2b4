import Verif.Closure.Relax
import Mathlib.Analysis.Calculus.MeanValue
import Mathlib.Analysis.Normed.Module.FiniteDimension
import Mathlib.Analysis.SpecialFunctions.ExpDeriv
import Mathlib.Analysis.SpecialFunctions.Exponential
import Mathlib.Analysis.Calculus.Deriv.Prod
import Mathlib.Analysis.Calculus.Deriv.Mul

/-!
# Many steps of the implicit exchange converge to the exact relaxation (C162)
-/
namespace Phoebus.Closure
open Geom Rel Robust LinAlg Finset Filter Topology

/-! ### Backward Euler converges -/

section
variable {V : Type*} [NormedAddCommGroup V] [NormedSpace ℝ V]

/-- defect of an exact solution in the backward-Euler step. -/
theorem be_defect {f : V → V} {K B T : ℝ} (hK : 0 ≤ K) (hf : ∀ x y, ‖f x - f y‖ ≤ K * ‖x - y‖) {y : ℝ → V} (hy : ∀ t ∈ Set.Icc 0 T, HasDerivWithinAt y (f (y t)) (Set.Icc 0 T) t)
    (hB : ∀ t ∈ Set.Icc 0 T, ‖f (y t)‖ ≤ B) {t s : ℝ} (ht : 0 ≤ t) (hs : 0 ≤ s) (hT : t + s ≤ T) : ‖y (t + s) - y t - s • f (y (t + s))‖ ≤ K * B * s ^ 2 := by
  have hsub : Set.Icc t (t + s) ⊆ Set.Icc 0 T := Set.Icc_subset_Icc ht hT
  have hB0 : 0 ≤ B := (norm_nonneg _).trans (hB t (hsub ⟨le_rfl, by linarith⟩))
  have step : ∀ a ∈ Set.Icc t (t + s), ‖y (t + s) - y a‖ ≤ B * s := fun a ha => by
    have := (convex_Icc t (t + s)).norm_image_sub_le_of_norm_hasDerivWithin_le (f := y) (f' := fun r => f (y r)) (C := B) (x := a) (y := t + s)
      (fun r hr => (hy r (hsub hr)).mono hsub) (fun r hr => hB r (hsub hr)) ha ⟨by linarith, le_rfl⟩
    refine this.trans (mul_le_mul_of_nonneg_left ?_ hB0)
    rw [Real.norm_eq_abs, abs_of_nonneg (by linarith [ha.2])]
    linarith [ha.1]
  have := (convex_Icc t (t + s)).norm_image_sub_le_of_norm_hasDerivWithin_le (f := fun r => y r - r • f (y (t + s))) (f' := fun r => f (y r) - (1:ℝ) • f (y (t + s))) (C := K * (B * s)) (x := t) (y := t + s)
    (fun r hr => ((hy r (hsub hr)).mono hsub).sub ((hasDerivWithinAt_id r _).smul_const _)) (fun r hr => by
      rw [one_smul]
      refine (hf _ _).trans (mul_le_mul_of_nonneg_left ?_ hK)
      rw [norm_sub_rev]; exact step r hr) ⟨le_rfl, by linarith⟩ ⟨by linarith, le_rfl⟩
  have e : (y (t + s) - (t + s) • f (y (t + s))) - (y t - t • f (y (t + s))) = y (t + s) - y t - s • f (y (t + s)) := by
    rw [add_smul]; abel
  refine ((congrArg norm e.symm).le.trans this).trans_eq ?_
  rw [add_sub_cancel_left, Real.norm_eq_abs, abs_of_nonneg hs]; ring

/-- backward-Euler steps of any lengths up to `δ` stay within a multiple of `δ` of the exact solution. -/
theorem be_converges {f : V → V} {K B T δ : ℝ} (hK : 0 ≤ K) (hf : ∀ x y, ‖f x - f y‖ ≤ K * ‖x - y‖) {y : ℝ → V} (hy : ∀ t ∈ Set.Icc 0 T, HasDerivWithinAt y (f (y t)) (Set.Icc 0 T) t)
    (hB : ∀ t ∈ Set.Icc 0 T, ‖f (y t)‖ ≤ B) (hB0 : 0 ≤ B) (hδ : K * δ ≤ 1/2) (s : ℕ → ℝ) (hs : ∀ k, 0 ≤ s k ∧ s k ≤ δ) (u : ℕ → V) (hu0 : u 0 = y 0) (hu : ∀ k, u (k + 1) = u k + s k • f (u (k + 1)))
    (n : ℕ) (hn : ∑ k ∈ range n, s k ≤ T) : ‖u n - y (∑ k ∈ range n, s k)‖ ≤ K * B * δ * (∑ k ∈ range n, s k) * Real.exp (2 * K * ∑ k ∈ range n, s k) := by
  induction n with
  | zero => simp [hu0]
  | succ n ih =>
    rw [sum_range_succ] at hn ⊢
    set t := ∑ k ∈ range n, s k with ht
    have ht0 : 0 ≤ t := sum_nonneg fun k _ => (hs k).1
    obtain ⟨s0, s1⟩ := hs n
    have i := ih (by linarith)
    have d := be_defect hK hf hy hB ht0 s0 hn
    set e := ‖u (n + 1) - y (t + s n)‖ with he
    have key : e ≤ ‖u n - y t‖ + s n * (K * e) + K * B * (s n) ^ 2 := by
      have eq : u (n + 1) - y (t + s n) = (u n - y t) + s n • (f (u (n + 1)) - f (y (t + s n))) - (y (t + s n) - y t - s n • f (y (t + s n))) := by
        conv_lhs => rw [hu n]
        rw [smul_sub]; abel
      have b2 : ‖s n • (f (u (n + 1)) - f (y (t + s n)))‖ ≤ s n * (K * e) := by
        rw [norm_smul, Real.norm_eq_abs, abs_of_nonneg s0]
        exact mul_le_mul_of_nonneg_left (hf _ _) s0
      refine (congrArg norm eq).le.trans ?_
      exact (norm_sub_le _ _).trans (add_le_add ((norm_add_le _ _).trans (add_le_add le_rfl b2)) d)
    have hx : K * s n ≤ 1/2 := (mul_le_mul_of_nonneg_left s1 hK).trans hδ
    have hx0 : 0 ≤ K * s n := mul_nonneg hK s0
    have he0 : 0 ≤ e := norm_nonneg _
    set Q := ‖u n - y t‖ + K * B * (s n) ^ 2 with hQ
    have hQ0 : 0 ≤ Q := by positivity
    have e1 : e ≤ (1 + 2 * (K * s n)) * Q := by
      have k1 : (1 - K * s n) * e ≤ Q := by linarith
      have k2 : (1 + 2 * (K * s n)) * ((1 - K * s n) * e) ≤ (1 + 2 * (K * s n)) * Q := mul_le_mul_of_nonneg_left k1 (by linarith)
      nlinarith [mul_nonneg (mul_nonneg hx0 (by linarith : 0 ≤ 1 - 2 * (K * s n))) he0]
    have e2 : (1 + 2 * (K * s n)) ≤ Real.exp (2 * K * s n) := by
      have := Real.add_one_le_exp (2 * K * s n); linarith
    have e3 : Q ≤ K * B * δ * (t + s n) * Real.exp (2 * K * t) := by
      have a1 : K * B * (s n) ^ 2 ≤ K * B * δ * s n := by
        have : 0 ≤ K * B * s n := by positivity
        nlinarith
      have a2 : K * B * δ * s n ≤ K * B * δ * s n * Real.exp (2 * K * t) := by
        refine le_mul_of_one_le_right ?_ (Real.one_le_exp (by positivity))
        have : 0 ≤ δ := s0.trans s1
        positivity
      have : K * B * δ * (t + s n) * Real.exp (2 * K * t) = K * B * δ * t * Real.exp (2 * K * t) + K * B * δ * s n * Real.exp (2 * K * t) := by ring
      rw [this]
      linarith
    calc e ≤ Real.exp (2 * K * s n) * Q := e1.trans (mul_le_mul_of_nonneg_right e2 hQ0)
      _ ≤ Real.exp (2 * K * s n) * (K * B * δ * (t + s n) * Real.exp (2 * K * t)) := mul_le_mul_of_nonneg_left e3 (Real.exp_pos _).le
      _ = K * B * δ * (t + s n) * Real.exp (2 * K * (t + s n)) := by rw [show 2 * K * (t + s n) = 2 * K * s n + 2 * K * t by ring, Real.exp_add]; ring

end

/-! ### The rate of exchange as a function of the state -/

/-- the passage to comoving moments as a linear map. -/
noncomputable def rawMap (G : ADM ℝ) (v : Vec) (Pi : Tens2) : (ℝ × Vec) →ₗ[ℝ] (ℝ × Vec) where
  toFun u := con2primRaw 0 false G v Pi u.1 u.2
  map_add' x y := by
    simp only [con2primRaw, ratio_zero, Bool.false_eq_true, if_false, Prod.fst_add, Prod.snd_add, cc, Fin.sum_univ_three, _root_.Pi.add_apply]
    refine Prod.ext ?_ (funext fun i => ?_)
    · simp only [Prod.fst_add]; ring
    · simp only [Prod.snd_add, _root_.Pi.add_apply]; ring
  map_smul' c x := by
    simp only [con2primRaw, ratio_zero, Bool.false_eq_true, if_false, Prod.smul_fst, Prod.smul_snd, cc, Fin.sum_univ_three, _root_.Pi.smul_apply, smul_eq_mul, RingHom.id_apply]
    refine Prod.ext ?_ (funext fun i => ?_)
    · simp only [Prod.smul_fst, smul_eq_mul]; ring
    · simp only [Prod.smul_snd, _root_.Pi.smul_apply, smul_eq_mul]; ring

/-- the passage to lab-frame moments as a linear map. -/
noncomputable def labMap (G : ADM ℝ) (v : Vec) (Pi : Tens2) : (ℝ × Vec) →ₗ[ℝ] (ℝ × Vec) where
  toFun u := prim2con false G v Pi u.1 u.2
  map_add' x y := by
    simp only [prim2con, Bool.false_eq_true, if_false, Prod.fst_add, Prod.snd_add, cc, Fin.sum_univ_three, _root_.Pi.add_apply]
    refine Prod.ext ?_ (funext fun i => ?_)
    · simp only [Prod.fst_add]; ring
    · simp only [Prod.snd_add, _root_.Pi.add_apply]; ring
  map_smul' c x := by
    simp only [prim2con, Bool.false_eq_true, if_false, Prod.smul_fst, Prod.smul_snd, cc, Fin.sum_univ_three, _root_.Pi.smul_apply, smul_eq_mul, RingHom.id_apply]
    refine Prod.ext ?_ (funext fun i => ?_)
    · simp only [Prod.smul_fst, smul_eq_mul]; ring
    · simp only [Prod.smul_snd, _root_.Pi.smul_apply, smul_eq_mul]; ring

/-- the exchange with nothing emitted, as a linear map of the comoving moments. -/
noncomputable def exMap (G : ADM ℝ) (v : Vec) (aJ aH : ℝ) : (ℝ × Vec) →ₗ[ℝ] (ℝ × Vec) where
  toFun u := exchangeTerm G v 0 aJ aH u.1 u.2
  map_add' x y := by
    simp only [exchangeTerm, Prod.fst_add, Prod.snd_add, cc, Fin.sum_univ_three, _root_.Pi.add_apply]
    refine Prod.ext ?_ (funext fun i => ?_)
    · simp only [Prod.fst_add]; ring
    · simp only [Prod.snd_add, _root_.Pi.add_apply]; ring
  map_smul' c x := by
    simp only [exchangeTerm, Prod.smul_fst, Prod.smul_snd, cc, Fin.sum_univ_three, _root_.Pi.smul_apply, smul_eq_mul, RingHom.id_apply]
    refine Prod.ext ?_ (funext fun i => ?_)
    · simp only [Prod.smul_fst, smul_eq_mul]; ring
    · simp only [Prod.smul_snd, _root_.Pi.smul_apply, smul_eq_mul]; ring

theorem lam_ne {G : ADM ℝ} {v : Vec} {Pi : Tens2} (h0 : vvPi G v Pi = 0) : lam G v Pi ≠ 0 := by
  have := W_pos (G := G) (v := v)
  unfold lam W2
  rw [h0, mul_zero, add_zero]; positivity

theorem raw_lab {G : ADM ℝ} (hG : G.Valid) {v : Vec} (hs : Slow G v) {Pi : Tens2} (h0 : vvPi G v Pi = 0) : rawMap G v Pi * labMap G v Pi = 1 :=
  LinearMap.ext fun u => con2prim_prim2con_raw hG hs Pi (lam_ne h0) u.1 u.2

theorem lab_raw {G : ADM ℝ} (hG : G.Valid) {v : Vec} (hs : Slow G v) {Pi : Tens2} (h0 : vvPi G v Pi = 0) : labMap G v Pi * rawMap G v Pi = 1 :=
  mul_eq_one_comm.mp (raw_lab hG hs h0)

/-- comoving moments of a state exist and are unique. -/
theorem comoving_iff {G : ADM ℝ} (hG : G.Valid) {v : Vec} (hs : Slow G v) {Pi : Tens2} (h0 : vvPi G v Pi = 0) {E J : ℝ} {F H : Vec} : Comoving G v Pi E F J H ↔ rawMap G v Pi (E, F) = (J, H) := by
  constructor
  · intro h
    rw [← show labMap G v Pi (J, H) = (E, F) from h]
    exact LinearMap.congr_fun (raw_lab hG hs h0) (J, H)
  · intro h
    show labMap G v Pi (J, H) = (E, F)
    rw [← h]
    exact LinearMap.congr_fun (lab_raw hG hs h0) (E, F)

/-- the rate of change of the lab-frame moments. -/
noncomputable def relaxRate (G : ADM ℝ) (v : Vec) (Pi : Tens2) (JBB aJ aH : ℝ) (u : ℝ × Vec) : ℝ × Vec := exchangeTerm G v JBB aJ aH (rawMap G v Pi u).1 (rawMap G v Pi u).2

/-- its linear part. -/
noncomputable def relaxLin (G : ADM ℝ) (v : Vec) (Pi : Tens2) (aJ aH : ℝ) : (ℝ × Vec) →L[ℝ] (ℝ × Vec) := LinearMap.toContinuousLinearMap (exMap G v aJ aH * rawMap G v Pi)

theorem exchange_diff (G : ADM ℝ) (v : Vec) (JBB aJ aH : ℝ) (x y : ℝ × Vec) : exchangeTerm G v JBB aJ aH x.1 x.2 - exchangeTerm G v JBB aJ aH y.1 y.2 = exMap G v aJ aH (x - y) := by
  show _ = exchangeTerm G v 0 aJ aH (x - y).1 (x - y).2
  refine Prod.ext ?_ (funext fun i => ?_)
  · simp only [exchangeTerm, Prod.fst_sub, Prod.snd_sub, cc, Fin.sum_univ_three, _root_.Pi.sub_apply]; ring
  · simp only [exchangeTerm, Prod.fst_sub, Prod.snd_sub, _root_.Pi.sub_apply]; ring

theorem relaxRate_diff (G : ADM ℝ) (v : Vec) (Pi : Tens2) (JBB aJ aH : ℝ) (x y : ℝ × Vec) : relaxRate G v Pi JBB aJ aH x - relaxRate G v Pi JBB aJ aH y = relaxLin G v Pi aJ aH (x - y) := by
  show _ = exMap G v aJ aH (rawMap G v Pi (x - y))
  rw [map_sub, ← exchange_diff G v JBB aJ aH (rawMap G v Pi x) (rawMap G v Pi y)]; rfl

theorem relaxRate_lip (G : ADM ℝ) (v : Vec) (Pi : Tens2) (JBB aJ aH : ℝ) (x y : ℝ × Vec) : ‖relaxRate G v Pi JBB aJ aH x - relaxRate G v Pi JBB aJ aH y‖ ≤ ‖relaxLin G v Pi aJ aH‖ * ‖x - y‖ := by
  rw [relaxRate_diff]; exact ContinuousLinearMap.le_opNorm _ _

/-- each update of the code is a backward-Euler step. -/
theorem update_be {G : ADM ℝ} (hG : G.Valid) (hp : PosDef G) {v : Vec} (hs : Slow G v) {Pi : Tens2} (h0 : vvPi G v Pi = 0) (JBB : ℝ) {aJ aH s : ℝ} (hJ : 0 ≤ aJ) (hH : 0 ≤ aH) (h : 0 ≤ s) (E E' : ℝ) (F F' : Vec)
    (hE : E' = E + (linearSourceUpdate false G v E F Pi JBB (s * aJ) (s * aH)).1) (hF : ∀ i, F' i = F i + (linearSourceUpdate false G v E F Pi JBB (s * aJ) (s * aH)).2 i) :
    (E', F') = (E, F) + s • relaxRate G v Pi JBB aJ aH (E', F') := by
  obtain ⟨J, H, hb, h1, h2⟩ := source_update_solves_partial false hG hp hs E F Pi h0 JBB (s * aJ) (s * aH) (mul_nonneg h hJ) (mul_nonneg h hH)
  have hc : Comoving G v Pi E' F' J H := Prod.ext (h1.trans hE.symm) (funext fun i => (h2 i).trans (hF i).symm)
  have hr := (comoving_iff hG hs h0).mp hc
  unfold relaxRate
  rw [hr]
  unfold Comoving at hc
  refine Prod.ext ?_ (funext fun i => ?_)
  · have := hb.1
    rw [hc] at this
    simp only [Bool.false_eq_true, if_false] at this
    simp only [exchangeTerm, Prod.fst_add, Prod.smul_fst, smul_eq_mul]
    rw [this]; ring
  · have := hb.2 i
    rw [hc] at this
    simp only at this
    simp only [exchangeTerm, Prod.snd_add, Prod.smul_snd, _root_.Pi.add_apply, _root_.Pi.smul_apply, smul_eq_mul]
    rw [this]; ring

/-! ### Specification -/

/-- `(E, F)` is an exact history of the lab-frame moments over the times `0..T`: at each time the energy and the momentum change at the rate of the exchange with the gas, evaluated with the comoving moments of that time. -/
def ExactRelax (G : ADM ℝ) (v : Vec) (Pi : Tens2) (JBB aJ aH T : ℝ) (E : ℝ → ℝ) (F : ℝ → Vec) : Prop :=
  ∀ t ∈ Set.Icc 0 T, ∃ J H, Comoving G v Pi (E t) (F t) J H ∧ HasDerivWithinAt E (exchangeTerm G v JBB aJ aH J H).1 (Set.Icc 0 T) t ∧
    ∀ i, HasDerivWithinAt (fun r => F r i) ((exchangeTerm G v JBB aJ aH J H).2 i) (Set.Icc 0 T) t

/-- `(E, F)` is a run of the code's implicit update from `(E0, F0)` with the steps `s`. -/
def CodeRelax (G : ADM ℝ) (v : Vec) (Pi : Tens2) (JBB aJ aH : ℝ) (s : ℕ → ℝ) (E0 : ℝ) (F0 : Vec) (E : ℕ → ℝ) (F : ℕ → Vec) : Prop :=
  E 0 = E0 ∧ F 0 = F0 ∧ ∀ k, let d := linearSourceUpdate false G v (E k) (F k) Pi JBB (s k * aJ) (s k * aH)
    E (k + 1) = E k + d.1 ∧ ∀ i, F (k + 1) i = F k i + d.2 i

/-! ### Convergence -/

/-- **C162** Over any finite time the implicit exchange converges with first order to the exact one: for every metric, velocity below light, opacities, emission, and every exact history, there is a constant such that after any number of updates, of any lengths up to `δ`, the
energy and each flux component are within `C δ` of the exact ones. -/
theorem exchange_converges {G : ADM ℝ} (hG : G.Valid) (hp : PosDef G) {v : Vec} (hs : Slow G v) {Pi : Tens2} (h0 : vvPi G v Pi = 0) (JBB : ℝ) {aJ aH : ℝ} (hJ : 0 ≤ aJ) (hH : 0 ≤ aH) (T : ℝ) {E : ℝ → ℝ} {F : ℝ → Vec}
    (hx : ExactRelax G v Pi JBB aJ aH T E F) :
    ∃ C δ0, 0 < δ0 ∧ ∀ δ ≤ δ0, ∀ s : ℕ → ℝ, (∀ k, 0 ≤ s k ∧ s k ≤ δ) → ∀ Ec Fc, CodeRelax G v Pi JBB aJ aH s (E 0) (F 0) Ec Fc →
      ∀ n, ∑ k ∈ range n, s k ≤ T → |Ec n - E (∑ k ∈ range n, s k)| ≤ C * δ ∧ ∀ i, |Fc n i - F (∑ k ∈ range n, s k) i| ≤ C * δ := by
  set K := ‖relaxLin G v Pi aJ aH‖ with hK
  have hK0 : 0 ≤ K := norm_nonneg _
  have hlip := relaxRate_lip G v Pi JBB aJ aH
  set y : ℝ → ℝ × Vec := fun t => (E t, F t) with hy
  have hyd : ∀ t ∈ Set.Icc 0 T, HasDerivWithinAt y (relaxRate G v Pi JBB aJ aH (y t)) (Set.Icc 0 T) t := fun t ht => by
    obtain ⟨J, H, hc, hE, hF⟩ := hx t ht
    have : relaxRate G v Pi JBB aJ aH (y t) = exchangeTerm G v JBB aJ aH J H := by
      unfold relaxRate
      rw [show rawMap G v Pi (y t) = (J, H) from (comoving_iff hG hs h0).mp hc]
    rw [this]
    exact hE.prodMk (hasDerivWithinAt_pi.mpr hF)
  have hcont : Continuous (relaxRate G v Pi JBB aJ aH) := by
    refine (LipschitzWith.of_dist_le_mul (K := ⟨K, hK0⟩) fun x y => ?_).continuous
    rw [dist_eq_norm, dist_eq_norm]; exact hlip x y
  obtain ⟨B, hB⟩ := isCompact_Icc.exists_bound_of_continuousOn (f := fun t => relaxRate G v Pi JBB aJ aH (y t)) (s := Set.Icc 0 T) (hcont.comp_continuousOn fun t ht => (hyd t ht).continuousWithinAt)
  have hB' : ∀ t ∈ Set.Icc 0 T, ‖relaxRate G v Pi JBB aJ aH (y t)‖ ≤ max B 0 := fun t ht => (hB t ht).trans (le_max_left _ _)
  have hB0 : 0 ≤ max B 0 := le_max_right _ _
  refine ⟨K * max B 0 * T * Real.exp (2 * K * T), 1 / (2 * (K + 1)), by positivity, fun δ hδ s hsk Ec Fc hc n hn => ?_⟩
  have hδ0 : 0 ≤ δ := (hsk 0).1.trans (hsk 0).2
  have hKδ : K * δ ≤ 1/2 := by
    have : K * δ ≤ K * (1 / (2 * (K + 1))) := mul_le_mul_of_nonneg_left hδ hK0
    refine this.trans ?_
    rw [mul_one_div, div_le_div_iff₀ (by positivity) (by norm_num)]; linarith
  have main := be_converges hK0 hlip hyd hB' hB0 hKδ s hsk (fun k => (Ec k, Fc k)) (by rw [hy]; exact Prod.ext hc.1 hc.2.1)
    (fun k => update_be hG hp hs h0 JBB hJ hH (hsk k).1 _ _ _ _ (hc.2.2 k).1 (hc.2.2 k).2) n hn
  set t := ∑ k ∈ range n, s k with ht
  have ht0 : 0 ≤ t := sum_nonneg fun k _ => (hsk k).1
  have b : K * max B 0 * δ * t * Real.exp (2 * K * t) ≤ K * max B 0 * T * Real.exp (2 * K * T) * δ := by
    have e1 : Real.exp (2 * K * t) ≤ Real.exp (2 * K * T) := Real.exp_le_exp.mpr (mul_le_mul_of_nonneg_left hn (by positivity))
    have e2 : K * max B 0 * δ * t ≤ K * max B 0 * δ * T := mul_le_mul_of_nonneg_left hn (by positivity)
    calc _ ≤ (K * max B 0 * δ * T) * Real.exp (2 * K * T) := mul_le_mul e2 e1 (Real.exp_pos _).le (by have := ht0.trans hn; positivity)
      _ = _ := by ring
  have m := main.trans b
  refine ⟨?_, fun i => ?_⟩
  · exact (norm_fst_le ((Ec n, Fc n) - y t)).trans m
  · exact ((norm_le_pi_norm ((Ec n, Fc n) - y t).2 i).trans (norm_snd_le ((Ec n, Fc n) - y t))).trans m

/-! ### Existence and uniqueness of the exact history -/

/-- **C162** the exact history exists from every state, for all times. -/
theorem exact_exists {G : ADM ℝ} (hG : G.Valid) {v : Vec} (hs : Slow G v) {Pi : Tens2} (h0 : vvPi G v Pi = 0) (JBB aJ aH : ℝ) (E0 : ℝ) (F0 : Vec) :
    ∃ E F, E 0 = E0 ∧ F 0 = F0 ∧ ∀ T, ExactRelax G v Pi JBB aJ aH T E F := by
  set L := relaxLin G v Pi aJ aH with hL
  set q : ℝ × Vec := labMap G v Pi (JBB, 0) with hq
  have hq0 : relaxRate G v Pi JBB aJ aH q = 0 := by
    unfold relaxRate
    rw [show rawMap G v Pi q = (JBB, 0) from LinearMap.congr_fun (raw_lab hG hs h0) (JBB, 0)]
    refine Prod.ext ?_ (funext fun i => ?_)
    · simp [exchangeTerm, cc]
    · simp [exchangeTerm]
  set y : ℝ → ℝ × Vec := fun t => q + NormedSpace.exp (t • L) ((E0, F0) - q) with hy
  have hd : ∀ t, HasDerivAt y (relaxRate G v Pi JBB aJ aH (y t)) t := fun t => by
    have h1 : HasDerivAt (fun r : ℝ => NormedSpace.exp (r • L)) (L * NormedSpace.exp (t • L)) t := hasDerivAt_exp_smul_const' L t
    have h2 := (h1.clm_apply (hasDerivAt_const t ((E0, F0) - q))).const_add q
    refine h2.congr_deriv ?_
    rw [map_zero, add_zero]
    have := relaxRate_diff G v Pi JBB aJ aH (y t) q
    rw [hq0, sub_zero] at this
    rw [this, hy]
    simp only [add_sub_cancel_left]; rfl
  refine ⟨fun t => (y t).1, fun t => (y t).2, by simp [hy], by simp [hy], fun T t _ => ⟨(rawMap G v Pi (y t)).1, (rawMap G v Pi (y t)).2, (comoving_iff hG hs h0).mpr rfl, ?_, fun i => ?_⟩⟩
  · exact ((ContinuousLinearMap.fst ℝ ℝ Vec).hasFDerivAt.comp_hasDerivAt t (hd t)).hasDerivWithinAt
  · exact (hasDerivAt_pi.mp ((ContinuousLinearMap.snd ℝ ℝ Vec).hasFDerivAt.comp_hasDerivAt t (hd t)) i).hasDerivWithinAt

/-- a run of the code exists for any steps. -/
theorem code_exists (G : ADM ℝ) (v : Vec) (Pi : Tens2) (JBB aJ aH : ℝ) (s : ℕ → ℝ) (E0 : ℝ) (F0 : Vec) : ∃ E F, CodeRelax G v Pi JBB aJ aH s E0 F0 E F := by
  let r : ℕ → ℝ × Vec := fun n => Nat.rec (E0, F0) (fun k u => (u.1 + (linearSourceUpdate false G v u.1 u.2 Pi JBB (s k * aJ) (s k * aH)).1, fun i => u.2 i + (linearSourceUpdate false G v u.1 u.2 Pi JBB (s k * aJ) (s k * aH)).2 i)) n
  exact ⟨fun n => (r n).1, fun n => (r n).2, rfl, rfl, fun k => ⟨rfl, fun i => rfl⟩⟩

/-- **C162** Refining the steps, the run of the code tends to the exact value at the time `T`, which is therefore the same for every exact history from that state. -/
theorem exchange_limit {G : ADM ℝ} (hG : G.Valid) (hp : PosDef G) {v : Vec} (hs : Slow G v) {Pi : Tens2} (h0 : vvPi G v Pi = 0) (JBB : ℝ) {aJ aH : ℝ} (hJ : 0 ≤ aJ) (hH : 0 ≤ aH) {T : ℝ} (hT : 0 ≤ T) {E : ℝ → ℝ} {F : ℝ → Vec}
    (hx : ExactRelax G v Pi JBB aJ aH T E F) (Ec : ℕ → ℕ → ℝ) (Fc : ℕ → ℕ → Vec) (hc : ∀ N : ℕ, CodeRelax G v Pi JBB aJ aH (fun _ => T / ((N : ℝ) + 1)) (E 0) (F 0) (Ec N) (Fc N)) :
    Tendsto (fun N => Ec N (N + 1)) atTop (𝓝 (E T)) ∧ ∀ i, Tendsto (fun N => Fc N (N + 1) i) atTop (𝓝 (F T i)) := by
  obtain ⟨C, δ0, hδ0, h⟩ := exchange_converges hG hp hs h0 JBB hJ hH T hx
  have lim : Tendsto (fun N : ℕ => T / ((N : ℝ) + 1)) atTop (𝓝 0) := tendsto_const_nhds.div_atTop (tendsto_natCast_atTop_atTop.atTop_add tendsto_const_nhds)
  have ev : ∀ᶠ N : ℕ in atTop, T / ((N : ℝ) + 1) ≤ δ0 := lim.eventually (eventually_le_nhds hδ0)
  have sum : ∀ N : ℕ, ∑ _k ∈ range (N + 1), T / ((N : ℝ) + 1) = T := fun N => by
    rw [sum_const, card_range, nsmul_eq_mul]; push_cast; field_simp
  have hb : ∀ᶠ N : ℕ in atTop, |Ec N (N + 1) - E T| ≤ C * (T / ((N : ℝ) + 1)) ∧ ∀ i, |Fc N (N + 1) i - F T i| ≤ C * (T / ((N : ℝ) + 1)) := by
    filter_upwards [ev] with N hN
    have := h _ hN (fun _ => T / ((N : ℝ) + 1)) (fun _ => ⟨by positivity, le_rfl⟩) _ _ (hc N) (N + 1) (sum N).le
    rwa [sum N] at this
  have l2 : Tendsto (fun N : ℕ => C * (T / ((N : ℝ) + 1))) atTop (𝓝 0) := by simpa using lim.const_mul C
  refine ⟨?_, fun i => ?_⟩
  · rw [tendsto_iff_dist_tendsto_zero]
    exact squeeze_zero' (Eventually.of_forall fun _ => dist_nonneg) (hb.mono fun N h => by rw [Real.dist_eq]; exact h.1) l2
  · rw [tendsto_iff_dist_tendsto_zero]
    exact squeeze_zero' (Eventually.of_forall fun _ => dist_nonneg) (hb.mono fun N h => by rw [Real.dist_eq]; exact h.2 i) l2

/-- **C162** the exact history is unique. -/
theorem exact_unique {G : ADM ℝ} (hG : G.Valid) (hp : PosDef G) {v : Vec} (hs : Slow G v) {Pi : Tens2} (h0 : vvPi G v Pi = 0) (JBB : ℝ) {aJ aH : ℝ} (hJ : 0 ≤ aJ) (hH : 0 ≤ aH) {T : ℝ} {E E' : ℝ → ℝ} {F F' : ℝ → Vec}
    (hx : ExactRelax G v Pi JBB aJ aH T E F) (hx' : ExactRelax G v Pi JBB aJ aH T E' F') (hE : E 0 = E' 0) (hF : F 0 = F' 0) {t : ℝ} (ht0 : 0 ≤ t) (ht : t ≤ T) : E t = E' t ∧ F t = F' t := by
  have cut : ∀ {E : ℝ → ℝ} {F : ℝ → Vec}, ExactRelax G v Pi JBB aJ aH T E F → ExactRelax G v Pi JBB aJ aH t E F := fun h r hr => by
    have sub : Set.Icc 0 t ⊆ Set.Icc 0 T := Set.Icc_subset_Icc_right ht
    obtain ⟨J, H, a, b, c⟩ := h r (sub hr)
    exact ⟨J, H, a, b.mono sub, fun i => (c i).mono sub⟩
  choose Ec Fc hc using fun N : ℕ => code_exists G v Pi JBB aJ aH (fun _ => t / ((N : ℝ) + 1)) (E 0) (F 0)
  have l1 := exchange_limit hG hp hs h0 JBB hJ hH ht0 (cut hx) Ec Fc hc
  have l2 := exchange_limit hG hp hs h0 JBB hJ hH ht0 (cut hx') Ec Fc (fun N => by rw [← hE, ← hF]; exact hc N)
  exact ⟨tendsto_nhds_unique l1.1 l2.1, funext fun i => tendsto_nhds_unique (l1.2 i) (l2.2 i)⟩

/-- **C162 (concrete)** the hypotheses are met by gas at three fifths of the speed of light in flat space with Eddington closure: a beam of energy one has an exact history, and the runs of the code with `N + 1` equal steps tend to its energy at the time one. -/
theorem ex_exchange_run : ∃ E F, E 0 = 1 ∧ F 0 = ![1, 0, 0] ∧ ExactRelax C2P.flat ![3/5, 0, 0] 0 2 1 3 1 E F ∧ ∃ Ec : ℕ → ℕ → ℝ, ∃ Fc : ℕ → ℕ → Vec,
    (∀ N : ℕ, CodeRelax C2P.flat ![3/5, 0, 0] 0 2 1 3 (fun _ => 1 / ((N : ℝ) + 1)) 1 ![1, 0, 0] (Ec N) (Fc N)) ∧ Tendsto (fun N => Ec N (N + 1)) atTop (𝓝 (E 1)) := by
  have hs : Slow C2P.flat ![3/5, 0, 0] := by simp [Slow, ADM.dot3, C2P.flat, Fin.sum_univ_three]; norm_num
  have hv := vvPi_zero C2P.flat ![3/5, 0, 0]
  obtain ⟨E, F, hE, hF, hx⟩ := exact_exists C2P.flat_valid.1 hs hv 2 1 3 1 ![1, 0, 0]
  choose Ec Fc hc using fun N : ℕ => code_exists C2P.flat ![3/5, 0, 0] 0 2 1 3 (fun _ => 1 / ((N : ℝ) + 1)) 1 ![1, 0, 0]
  exact ⟨E, F, hE, hF, hx 1, Ec, Fc, hc, (exchange_limit C2P.flat_valid.1 C2P.flat_valid.2 hs hv 2 (by norm_num) (by norm_num) (by norm_num) (hx 1) Ec Fc (fun N => by rw [hE, hF]; exact hc N)).1⟩

end Phoebus.Closure
