import Verif.Transform.Modified
import Verif.Metrics.Kerr

/-!
# C37: the McKinney-Gammie-Ryan map and its Jacobians
-/
namespace Phoebus.Transform
open Finset GeomUtils Metrics Geom Real

variable (p : MGR)

/-- admissible parameters (the defaults of mckinney_gammie_ryan.hpp:47-49 satisfy them, see `ex_default`). -/
structure MGR.Ok : Prop where
  h0 : 0 < p.h
  h2 : p.h < 2
  xt : 0 < p.xt
  even : Even p.alpha
  smooth : 0 ≤ p.smooth
  csq : 0 ≤ p.csq
  nsq : 2 ≤ p.nsq

variable {p}

theorem MGR.Ok.norm_pos (hp : p.Ok) : 0 < p.norm := by
  unfold MGR.norm
  have := pi_pos
  have h1 := pow_pos hp.xt p.alpha
  positivity

theorem MGR.Ok.drdX1_pos (hp : p.Ok) (X1 : ℝ) : 0 < p.drdX1 X1 := by
  unfold MGR.drdX1 MGR.sw
  refine mul_pos (exp_pos _) ?_
  split_ifs with h
  · have := hp.csq
    have h3 : 0 < (X1 - p.br) ^ (p.nsq - 1) := pow_pos h _
    positivity
  · simp

theorem MGR.Ok.dthG_pos (hp : p.Ok) (X2 : ℝ) : 0 < p.dthG X2 := by
  unfold MGR.dthG
  have h1 := neg_one_le_cos (2 * π * X2)
  have h2 := cos_le_one (2 * π * X2)
  have h3 := hp.h0
  have h4 := hp.h2
  have : 0 < 1 + (1 - p.h) * cos (2 * π * X2) := by
    have ha : |1 - p.h| < 1 := by rw [abs_lt]; constructor <;> linarith
    have hc : |cos (2 * π * X2)| ≤ 1 := abs_cos_le_one _
    have := neg_abs_le ((1 - p.h) * cos (2 * π * X2))
    rw [abs_mul] at this
    nlinarith [abs_nonneg (1 - p.h), abs_nonneg (cos (2 * π * X2))]
  calc (0:ℝ) < π * (1 + (1 - p.h) * cos (2 * π * X2)) := mul_pos pi_pos this
    _ = _ := by ring

/-- **C37** The polar stretching is strictly increasing outside `x0`: `dθ/dX2 > 0`. -/
theorem MGR.Ok.dthdX2_pos (hp : p.Ok) (X1 X2 : ℝ) (hX : p.derefine = true → p.x0 ≤ X1) : 0 < p.dthdX2 X1 X2 := by
  unfold MGR.dthdX2
  split_ifs with hd
  · have hG := hp.dthG_pos X2
    have hn := hp.norm_pos
    have he : 0 ≤ ((2 * X2 - 1) / p.xt) ^ p.alpha := hp.even.pow_nonneg _
    have hJ : 0 < p.norm * (1 + ((2 * X2 - 1) / p.xt) ^ p.alpha) * 2 := by positivity
    set J := p.norm * (1 + ((2 * X2 - 1) / p.xt) ^ p.alpha) * 2
    have h1 : exp (p.smooth * (p.x0 - X1)) ≤ 1 := by
      rw [exp_le_one_iff]
      have := hp.smooth
      have := hX hd
      nlinarith
    have h0 := exp_pos (p.smooth * (p.x0 - X1))
    set e := exp (p.smooth * (p.x0 - X1))
    simp only
    nlinarith
  · exact hp.dthG_pos X2

/-- **C37** The returned Jacobians are mutually inverse at every point outside `x0`.

Partial form of C37. Full property: McKinney-Gammie-Ryan and spherical-to-Cartesian transformations return Jacobians
that are mutually inverse and are the derivative of the map. Missing: Jacobians inverse and equal to the derivatives
of the maps at regular points; the helper GetCoordsAndDerivatives has wrong powers of r (witness sphDerivs_wrong). -/
theorem mgr_jacobians_inverse_partial (hp : p.Ok) (ss : ℝ) (X : Fin 3 → ℝ) (hX : p.derefine = true → p.x0 ≤ X 0) :
    (p.trafo 0 ss X).Inverse := by
  have h1 := (hp.drdX1_pos (X 0)).ne'
  have h2 := (hp.dthdX2_pos (X 0) (X 1) hX).ne'
  intro i j
  fin_cases i <;> fin_cases j <;> simp [MGR.trafo, Fin.sum_univ_three, Rel.ratio_zero, h1, h2]
  field_simp
  ring

/-- the hyperexponential term and its derivative. -/
theorem hexp_deriv (c br : ℝ) (n : ℕ) (hn : 2 ≤ n) (x : ℝ) :
    HasDerivAt (fun t => (if t - br > 0 then (1:ℝ) else 0) * c * (t - br) ^ n)
      ((if x - br > 0 then (1:ℝ) else 0) * c * n * (x - br) ^ (n - 1)) x := by
  have hpoly : HasDerivAt (fun t => c * (t - br) ^ n) (c * n * (x - br) ^ (n - 1)) x := by
    have := (((hasDerivAt_id x).sub_const br).pow n).const_mul c
    refine this.congr_deriv ?_
    simp; ring
  rcases lt_trichotomy x br with h | h | h
  · have e : (fun t => (if t - br > 0 then (1:ℝ) else 0) * c * (t - br) ^ n) =ᶠ[nhds x] fun _ => 0 := by
      filter_upwards [eventually_lt_nhds h] with t ht
      rw [if_neg (by linarith)]; ring
    rw [if_neg (by linarith), zero_mul, zero_mul, zero_mul]
    exact (hasDerivAt_const x (0:ℝ)).congr_of_eventuallyEq e
  · subst h
    have h0 : (0:ℝ) ^ (n - 1) = 0 := zero_pow (by omega)
    simp only [sub_self, gt_iff_lt, lt_irrefl, if_false, zero_mul]
    rw [sub_self, h0, mul_zero] at hpoly
    rw [← hasDerivWithinAt_univ, ← Set.Iic_union_Ici (a := x)]
    refine HasDerivWithinAt.union ?_ ?_
    · refine (hasDerivWithinAt_const x (Set.Iic x) (0:ℝ)).congr ?_ ?_
      · intro t ht; rw [if_neg (by simpa using ht)]; ring
      · simp
    · refine (hpoly.hasDerivWithinAt (s := Set.Ici x)).congr ?_ ?_
      · intro t ht
        rcases eq_or_lt_of_le (show x ≤ t from ht) with e | e
        · subst e; simp; right; omega
        · rw [if_pos (by linarith)]; ring
      · simp; right; omega
  · have e : (fun t => (if t - br > 0 then (1:ℝ) else 0) * c * (t - br) ^ n) =ᶠ[nhds x] fun t => c * (t - br) ^ n := by
      filter_upwards [eventually_gt_nhds h] with t ht
      rw [if_pos (by linarith)]; ring
    rw [if_pos (by linarith), one_mul]
    exact hpoly.congr_of_eventuallyEq e

/-- **C37** `drdX1` is the derivative of the radius, at every `X1` including the hyperexponential break. -/
theorem mgr_dr (hn : 2 ≤ p.nsq) (X1 : ℝ) : HasDerivAt p.r (p.drdX1 X1) X1 := by
  have h := ((hasDerivAt_id X1).add (hexp_deriv p.csq p.br p.nsq hn X1)).exp
  refine h.congr_deriv ?_
  simp [MGR.drdX1, MGR.sw]

theorem mgr_dthG (X2 : ℝ) : HasDerivAt p.thG (p.dthG X2) X2 := by
  have h1 := (hasDerivAt_id X2).const_mul π
  have h2 := (((hasDerivAt_id X2).const_mul (2 * π)).sin).const_mul ((1 - p.h) / 2)
  refine (h1.add h2).congr_deriv ?_
  simp [MGR.dthG]; ring

theorem mgr_dthJ (hx : p.xt ≠ 0) (X2 : ℝ) :
    HasDerivAt p.thJ (p.norm * (1 + ((2 * X2 - 1) / p.xt) ^ p.alpha) * 2) X2 := by
  have hy : HasDerivAt (fun t : ℝ => 2 * t - 1) 2 X2 := by
    simpa using ((hasDerivAt_id X2).const_mul 2).sub_const 1
  have h1 := ((hy.div_const p.xt).pow p.alpha).div_const ((p.alpha : ℝ) + 1)
  have h2 := ((hy.const_mul p.norm).mul (h1.const_add 1)).add_const (0.5 * π)
  refine h2.congr_deriv ?_
  have hne : ((p.alpha : ℝ) + 1) ≠ 0 := by positivity
  simp only [Pi.add_apply, Pi.pow_apply]
  rcases Nat.eq_zero_or_pos p.alpha with h0 | h0
  · simp [h0]; ring
  · obtain ⟨k, hk⟩ : ∃ k, p.alpha = k + 1 := ⟨p.alpha - 1, by omega⟩
    rw [hk]
    rw [hk] at hne
    simp only [Nat.add_sub_cancel, pow_succ]
    push_cast at hne ⊢
    field_simp
    ring

/-- **C37** The second row of the returned Jacobian is the derivative of the polar angle (before the `1e-20` pole fix). -/
theorem mgr_dth (hx : p.xt ≠ 0) (X1 X2 : ℝ) :
    HasDerivAt (fun t => p.thRaw t X2) (p.dthdX1 X1 X2) X1 ∧ HasDerivAt (fun t => p.thRaw X1 t) (p.dthdX2 X1 X2) X2 := by
  unfold MGR.thRaw MGR.dthdX1 MGR.dthdX2
  by_cases hd : p.derefine = true
  · simp only [hd, if_true]
    constructor
    · have h := (((((hasDerivAt_id X1).const_sub p.x0).const_mul p.smooth).exp).mul_const (p.thJ X2 - p.thG X2)).const_add (p.thG X2)
      refine h.congr_deriv ?_
      simp; ring
    · exact (mgr_dthG X2).add (((mgr_dthJ hx X2).sub (mgr_dthG X2)).const_mul _)
  · simp only [hd]
    exact ⟨hasDerivAt_const _ _, mgr_dthG X2⟩

/-- **C37** The polar axis and the equator: `X2 = 0, 1/2, 1` are mapped to `θ = 0, π/2, π` at every radius, and the map is
symmetric about the equator. -/
theorem mgr_poles (hp : p.Ok) (X1 X2 : ℝ) :
    p.thRaw X1 0 = 0 ∧ p.thRaw X1 (1 / 2) = π / 2 ∧ p.thRaw X1 1 = π ∧ p.thRaw X1 (1 - X2) = π - p.thRaw X1 X2 := by
  have hG : ∀ x, p.thG (1 - x) = π - p.thG x := fun x => by
    unfold MGR.thG
    rw [show 2 * π * (1 - x) = 2 * π - 2 * π * x by ring, sin_two_pi_sub]; ring
  have hJ : ∀ x, p.thJ (1 - x) = π - p.thJ x := fun x => by
    unfold MGR.thJ
    simp only
    rw [show 2 * (1 - x) - 1 = -(2 * x - 1) by ring, neg_div, hp.even.neg_pow]; ring
  have hn : p.norm * (1 + 1 / p.xt ^ p.alpha / ((p.alpha : ℝ) + 1)) = π / 2 := by
    unfold MGR.norm
    have h1 := pow_pos hp.xt p.alpha
    have h2 : (0:ℝ) < (p.alpha : ℝ) + 1 := by positivity
    have h3 : (1 + 1 / ((p.alpha : ℝ) + 1) * 1 / p.xt ^ p.alpha) ≠ 0 := by positivity
    rw [show 1 / p.xt ^ p.alpha / ((p.alpha : ℝ) + 1) = 1 / ((p.alpha : ℝ) + 1) * 1 / p.xt ^ p.alpha by field_simp]
    rw [div_mul_cancel₀ _ h3]; norm_num; ring
  have hG0 : p.thG 0 = 0 := by simp [MGR.thG]
  have hJ0 : p.thJ 0 = 0 := by
    unfold MGR.thJ
    simp only [mul_zero, zero_sub]
    rw [neg_div, hp.even.neg_pow, div_pow, one_pow]
    linear_combination -hn
  have hGh : p.thG (1 / 2) = π / 2 := by have := hG (1/2); norm_num at this ⊢; linarith
  have hJh : p.thJ (1 / 2) = π / 2 := by have := hJ (1/2); norm_num at this ⊢; linarith
  have hG1 : p.thG 1 = π := by have := hG 0; rw [hG0] at this; simpa using this
  have hJ1 : p.thJ 1 = π := by have := hJ 0; rw [hJ0] at this; simpa using this
  unfold MGR.thRaw
  refine ⟨?_, ?_, ?_, ?_⟩
  · split_ifs <;> simp [hG0, hJ0]
  · split_ifs <;> simp only [hGh, hJh] <;> ring
  · split_ifs <;> simp only [hG1, hJ1] <;> ring
  · split_ifs <;> simp only [hG, hJ] <;> ring

/-- **C37** On `0 ≤ X2 ≤ 1` the polar angle stays in `[0, π]` and increases strictly, at every radius outside `x0`. -/
theorem mgr_theta_monotone (hp : p.Ok) (X1 : ℝ) (hX : p.derefine = true → p.x0 ≤ X1) :
    StrictMono (fun t => p.thRaw X1 t) ∧ ∀ X2, 0 ≤ X2 → X2 ≤ 1 → 0 ≤ p.thRaw X1 X2 ∧ p.thRaw X1 X2 ≤ π := by
  have hm : StrictMono (fun t => p.thRaw X1 t) := by
    refine strictMono_of_deriv_pos fun x => ?_
    rw [(mgr_dth hp.xt.ne' X1 x).2.deriv]
    exact hp.dthdX2_pos X1 x hX
  have hpole := mgr_poles hp X1 0
  refine ⟨hm, fun X2 h0 h1 => ⟨?_, ?_⟩⟩
  · rw [← hpole.1]; exact hm.monotone h0
  · rw [← hpole.2.2.1]; exact hm.monotone h1

/-- **C37** The pole fix moves the angle by at most twice `SINGSMALL`, leaves it alone away from the poles, and never
returns a pole. -/
theorem poleFix_spec (ss th : ℝ) (hs : 0 < ss) (hs' : ss < 1) :
    |poleFix ss th - th| ≤ ss ∧ (ss ≤ |th| → ss ≤ |π - th| → poleFix ss th = th) ∧ poleFix ss th ≠ 0 ∧ poleFix ss th ≠ π := by
  have hpi := two_le_pi
  unfold poleFix
  by_cases h : |th| < ss
  · rw [abs_lt] at h
    by_cases h0 : th ≥ 0
    · have e : ¬ |π - ss| < ss := by rw [abs_of_pos (by linarith)]; linarith
      have h' : |th| < ss := abs_lt.2 h
      simp only [h', if_true, h0, e, if_false]
      refine ⟨?_, fun h1 => absurd h1 (not_le.2 h'), hs.ne', by intro h; linarith⟩
      rw [abs_le]; constructor <;> linarith
    · have e : ¬ |π - -ss| < ss := by rw [abs_of_pos (by linarith)]; linarith
      have h' : |th| < ss := abs_lt.2 h
      have h0' : th < 0 := not_le.1 h0
      simp only [h', if_true, h0, h0', e, if_false]
      refine ⟨?_, fun h1 => absurd h1 (not_le.2 h'), by intro h; linarith, by intro h; linarith⟩
      rw [abs_le]; constructor <;> linarith
  · simp only [h, if_false]
    by_cases h2 : |π - th| < ss
    · simp only [h2, if_true]
      rw [abs_lt] at h2
      have h2' : |π - th| < ss := abs_lt.2 h2
      by_cases h3 : th ≥ π
      · simp only [h3, if_true]
        refine ⟨?_, fun _ h1 => absurd h1 (not_le.2 h2'), by intro h; linarith, by intro h; linarith⟩
        rw [abs_le]; constructor <;> linarith
      · have h3' : th < π := not_le.1 h3
        simp only [h3, h3', if_true, if_false]
        refine ⟨?_, fun _ h1 => absurd h1 (not_le.2 h2'), by intro h; linarith, by intro h; linarith⟩
        rw [abs_le]; constructor <;> linarith
    · simp only [h2, if_false]
      refine ⟨by simp [hs.le], by intros; trivial, ?_, ?_⟩
      · rintro rfl; exact h (by simpa using hs)
      · rintro rfl; exact h2 (by simpa using hs)

/-- **C36, C37** Modified Kerr-Schild (FMKS): the transformed system is consistent at every point off the axis. -/
theorem fmks_consistent (hp : p.Ok) (a ss EPS : ℝ) (X : Fin 4 → ℝ) (hX : p.derefine = true → p.x0 ≤ X 1)
    (hreg : SphRegular (moved (p.trafo 0 ss) X)) : Algebraic (modified 0 EPS false (p.trafo 0 ss) (kerrSchild 0 a)) X :=
  modified_algebraic_partial (.of_good (kerrSchild_good a _ hreg)) (mgr_jacobians_inverse_partial hp ss (space X) hX)

/-- **C37** `bl_to_ks` is an isometry from the Boyer-Lindquist to the Kerr-Schild metric (outside the horizon). -/
theorem blToKs_isometry (x1 a th : ℝ) (hd : p.r x1 ^ 2 - 2 * p.r x1 + a ^ 2 ≠ 0) (u v : Fin 4 → ℝ) :
    dot4 (ksG 0 a (p.r x1) th) (p.blToKs x1 a u) (p.blToKs x1 a v) = dot4 (blG 0 a (p.r x1) th) u v := by
  have hr : 0 < p.r x1 := exp_pos _
  unfold MGR.blToKs
  simp only
  generalize p.r x1 = r at *
  have hp := rho2_pos a (cos th) hr
  have hDD : blDD 0 a r = (r ^ 2 - 2 * r + a ^ 2) / (r * r) := by
    unfold blDD; rw [Rel.ratio_zero, Rel.ratio_zero]; field_simp
  have hmu : blMu 0 a r th = rho2 a r (cos th) / (r * r) := by
    unfold blMu rho2; rw [Rel.ratio_zero]; field_simp
  have hR : rho2 a r (cos th) = r ^ 2 + a ^ 2 * (1 - sin th ^ 2) := by
    unfold rho2; have := sin_sq_add_cos_sq th; linear_combination a ^ 2 * this
  have hd' : r * r - 2 * r + a * a ≠ 0 := by rw [← pow_two, ← pow_two]; exact hd
  have hD0 : ∃ D, D = r ^ 2 - 2 * r + a ^ 2 := ⟨_, rfl⟩
  obtain ⟨D, hD⟩ := hD0
  rw [← hD] at hd hDD
  have hDD' : r * r - 2 * r + a * a = D := by rw [hD]; ring
  rw [hDD'] at hd' ⊢
  unfold blG ksG
  simp only [hDD, hmu, Rel.ratio_zero]
  generalize rho2 a r (cos th) = R at *
  generalize hS : sin th = S at *
  have hRne := hp.ne'
  have hrne := hr.ne'
  simp only [dot4, Fin.sum_univ_four]
  simp
  field_simp
  rw [hR, hD]
  ring

/-- **C37** `bl_to_fmks` is an isometry from Boyer-Lindquist to the modified Kerr-Schild system. -/
theorem blToFmks_isometry (hp : p.Ok) (ss EPS a : ℝ) (X : Fin 4 → ℝ) (hX : p.derefine = true → p.x0 ≤ X 1)
    (hd : p.r (X 1) ^ 2 - 2 * p.r (X 1) + a ^ 2 ≠ 0) (u v : Fin 4 → ℝ) :
    dot4 ((modified 0 EPS false (p.trafo 0 ss) (kerrSchild 0 a)).g X) (p.blToFmks 0 ss (space X) a u)
      (p.blToFmks 0 ss (space X) a v) = dot4 (blG 0 a (p.r (X 1)) (moved (p.trafo 0 ss) X 2)) u v := by
  have hJ := mgr_jacobians_inverse_partial hp ss (space X) hX
  have h := modified_contraction (small := 0) (EPS := EPS) (tdep := false) (s := kerrSchild 0 a) hJ
    (p.blToKs (X 1) a u) (p.blToKs (X 1) a v)
  have hr : 0 < p.r (X 1) := exp_pos _
  have hg : (kerrSchild 0 a).g (moved (p.trafo 0 ss) X) = ksG 0 a (p.r (X 1)) (moved (p.trafo 0 ss) X 2) := by
    have : moved (p.trafo 0 ss) X 1 = p.r (X 1) := rfl
    simp only [kerrSchild, this, abs_of_pos hr]
  rw [hg, blToKs_isometry (X 1) a _ hd] at h
  exact h

/-- the default parameters, mckinney_gammie_ryan.hpp:47-49. -/
noncomputable def mgrDefault : MGR := ⟨true, 0.3, 0.82, 14, 0, 0.5, 1000, 4, 4⟩

theorem ex_default : mgrDefault.Ok :=
  ⟨by norm_num [mgrDefault], by norm_num [mgrDefault], by norm_num [mgrDefault], ⟨7, rfl⟩, by norm_num [mgrDefault],
    by norm_num [mgrDefault], by simp [mgrDefault]⟩

end Phoebus.Transform
