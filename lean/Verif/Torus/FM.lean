import Verif.Torus.Model

/-!
# Fishbone-Moncrief solution for a general stationary axisymmetric metric
-/
namespace Phoebus.Torus
open Real Metrics Geom Finset

/-- squared time-like norm `e^{2 nu}` of the zero angular momentum frame. -/
noncomputable def nu2 (gtt gtp gpp : ℝ) : ℝ := gtp ^ 2 / gpp - gtt

/-- frame dragging rate. -/
noncomputable def om (gtp gpp : ℝ) : ℝ := -gtp / gpp

/-- `sqrt(1 + 4 l^2 e^{-2 chi})`. -/
noncomputable def fmS (gtt gtp gpp l : ℝ) : ℝ := √(1 + 4 * l ^ 2 * (nu2 gtt gtp gpp / gpp))

/-- the Fishbone-Moncrief potential. -/
noncomputable def fmPot (gtt gtp gpp l : ℝ) : ℝ :=
  1 / 2 * log ((1 + fmS gtt gtp gpp l) / nu2 gtt gtp gpp) - 1 / 2 * fmS gtt gtp gpp l - om gtp gpp * l

/-- time component of the velocity of the flow. -/
noncomputable def fmUt (gtt gtp gpp l : ℝ) : ℝ := √((1 + fmS gtt gtp gpp l) / 2) / √(nu2 gtt gtp gpp)

/-- azimuthal component of the velocity of the flow. -/
noncomputable def fmUp (gtt gtp gpp l : ℝ) : ℝ :=
  om gtp gpp * fmUt gtt gtp gpp l + √((fmS gtt gtp gpp l - 1) / 2) / √gpp

theorem fmS_sq {gtt gtp gpp : ℝ} (l : ℝ) (hp : 0 < gpp) (hn : 0 < nu2 gtt gtp gpp) :
    1 ≤ fmS gtt gtp gpp l ∧ fmS gtt gtp gpp l ^ 2 = 1 + 4 * l ^ 2 * (nu2 gtt gtp gpp / gpp) := by
  have h0 : 0 ≤ 4 * l ^ 2 * (nu2 gtt gtp gpp / gpp) := by positivity
  unfold fmS
  exact ⟨by rw [Real.one_le_sqrt]; linarith, Real.sq_sqrt (by linarith)⟩

/-- atoms used by the algebra. -/
theorem fm_atoms {gtt gtp gpp l : ℝ} (hl : 0 ≤ l) (hp : 0 < gpp) (hn : 0 < nu2 gtt gtp gpp) :
    ∃ p q n w : ℝ, 0 ≤ p ∧ 0 < q ∧ 0 < n ∧ 0 < w ∧ q ^ 2 = p ^ 2 + 1 ∧ fmS gtt gtp gpp l = 2 * p ^ 2 + 1 ∧
      nu2 gtt gtp gpp = n ^ 2 ∧ gpp = w ^ 2 ∧ l = p * q * w / n ∧
      fmUt gtt gtp gpp l = q / n ∧ fmUp gtt gtp gpp l = om gtp gpp * (q / n) + p / w := by
  obtain ⟨hs1, hs2⟩ := fmS_sq l hp hn
  set s := fmS gtt gtp gpp l with hs
  have hN := Real.sq_sqrt hn.le
  have hP := Real.sq_sqrt hp.le
  have hpq : √((s - 1) / 2) ^ 2 = (s - 1) / 2 := Real.sq_sqrt (by linarith)
  have hqq : √((1 + s) / 2) ^ 2 = (1 + s) / 2 := Real.sq_sqrt (by linarith)
  have hn0 : 0 < √(nu2 gtt gtp gpp) := Real.sqrt_pos.2 hn
  have hw0 : 0 < √gpp := Real.sqrt_pos.2 hp
  have hq0 : 0 < √((1 + s) / 2) := Real.sqrt_pos.2 (by linarith)
  refine ⟨√((s - 1) / 2), √((1 + s) / 2), √(nu2 gtt gtp gpp), √gpp, Real.sqrt_nonneg _, hq0, hn0, hw0, ?_, ?_,
    hN.symm, hP.symm, ?_, by simp only [fmUt, ← hs], by simp only [fmUp, fmUt, ← hs]⟩
  · rw [hpq, hqq]; ring
  · rw [hpq]; ring
  · have hsq : l ^ 2 = (√((s - 1) / 2) * √((1 + s) / 2) * √gpp / √(nu2 gtt gtp gpp)) ^ 2 := by
      rw [div_pow, mul_pow, mul_pow, hpq, hqq, hN, hP]
      have := hp.ne'
      have := hn.ne'
      field_simp
      field_simp at hs2
      linear_combination -hs2
    exact (sq_eq_sq₀ hl (by positivity)).1 hsq

/-- the flow is normalised, its covariant time component is negative when dragging and rotation agree, and
`u^t u_phi = l`. -/
theorem fm_velocity {gtt gtp gpp l : ℝ} (hl : 0 ≤ l) (hp : 0 < gpp) (hn : 0 < nu2 gtt gtp gpp) :
    let ut := fmUt gtt gtp gpp l
    let up := fmUp gtt gtp gpp l
    0 < ut ∧ gtt * ut ^ 2 + 2 * gtp * ut * up + gpp * up ^ 2 = -1 ∧ ut * (gtp * ut + gpp * up) = l ∧
      0 ≤ gtp * ut + gpp * up ∧ gtt * ut + gtp * up = -(nu2 gtt gtp gpp * ut) - om gtp gpp * (gtp * ut + gpp * up) := by
  obtain ⟨p, q, n, w, hp0, hq0, hn0, hw0, hpq, -, hN, hP, hlv, hut, hup⟩ := fm_atoms hl hp hn
  intro ut up
  have hut' : ut = q / n := hut
  have hup' : up = om gtp gpp * (q / n) + p / w := hup
  have htt : gtt = gtp ^ 2 / w ^ 2 - n ^ 2 := by
    have := hN; unfold nu2 at this; rw [hP] at this; linarith
  have hom : om gtp gpp = -gtp / w ^ 2 := by unfold om; rw [hP]
  have hphi : gtp * ut + gpp * up = p * w := by rw [hut', hup', hom, hP]; field_simp; ring
  refine ⟨by rw [hut']; positivity, ?_, ?_, ?_, ?_⟩
  · rw [hut', hup', hom, htt, hP]; field_simp; linear_combination (-(n ^ 2 * w ^ 2)) * hpq
  · rw [hphi, hut', hlv]; ring
  · rw [hphi]; positivity
  · rw [hphi, hN, hut', hup', hom, htt]; field_simp; ring

/-- a normalised, future-directed circular flow with `u^t u_phi = l`, `u_phi >= 0` is the Fishbone-Moncrief flow. -/
theorem fm_unique {gtt gtp gpp l ut up : ℝ} (hp : 0 < gpp) (hn : 0 < nu2 gtt gtp gpp)
    (hut : 0 < ut) (hnorm : gtt * ut ^ 2 + 2 * gtp * ut * up + gpp * up ^ 2 = -1)
    (hlu : ut * (gtp * ut + gpp * up) = l) (hphi : 0 ≤ gtp * ut + gpp * up) :
    fmUt gtt gtp gpp l = ut ∧ fmUp gtt gtp gpp l = up := by
  have hl : 0 ≤ l := by rw [← hlu]; positivity
  obtain ⟨p, q, n, w, hp0, hq0, hn0, hw0, hpq, -, hN, hP, hlv, hut', hup'⟩ := fm_atoms hl hp hn
  have htt : gtt = gtp ^ 2 / w ^ 2 - n ^ 2 := by
    have := hN; unfold nu2 at this; rw [hP] at this; linarith
  have hom : om gtp gpp = -gtp / w ^ 2 := by unfold om; rw [hP]
  -- orthonormal components of the given flow
  obtain ⟨P, hPdef⟩ : ∃ P, P = (gtp * ut + gpp * up) / w := ⟨_, rfl⟩
  obtain ⟨Q, hQdef⟩ : ∃ Q, Q = n * ut := ⟨_, rfl⟩
  have hP0 : 0 ≤ P := by rw [hPdef]; positivity
  have hQ0 : 0 < Q := by rw [hQdef]; positivity
  have hPQ : Q ^ 2 = P ^ 2 + 1 := by
    rw [hPdef, hQdef]; rw [htt, hP] at hnorm; rw [hP]; field_simp; field_simp at hnorm
    linear_combination -hnorm
  have hprod : P * Q = p * q := by
    have h1 : P * Q = n * l / w := by rw [hPdef, hQdef, ← hlu]; ring
    rw [h1, hlv]; field_simp
  have hpP : p = P := by
    have h2 : p ^ 2 * (p ^ 2 + 1) = P ^ 2 * (P ^ 2 + 1) := by
      rw [← hpq, ← hPQ, ← mul_pow, ← mul_pow, hprod]
    have h3 : (p ^ 2 - P ^ 2) * (p ^ 2 + P ^ 2 + 1) = 0 := by linear_combination h2
    have h4 : p ^ 2 + P ^ 2 + 1 ≠ 0 := by positivity
    have h5 : p ^ 2 = P ^ 2 := by
      have := (mul_eq_zero.1 h3).resolve_right h4; linarith
    exact (sq_eq_sq₀ hp0 hP0).1 h5
  have hqQ : q = Q := (sq_eq_sq₀ hq0.le hQ0.le).1 (by rw [hpq, hPQ, hpP])
  have e1 : fmUt gtt gtp gpp l = ut := by rw [hut', hqQ, hQdef]; field_simp
  refine ⟨e1, ?_⟩
  rw [hup', hqQ, hpP, hPdef, hQdef, hom, hP]; field_simp; ring

/-- **C86** The potential balances gravity and inertia: its derivative along any coordinate is half of
`u^mu u^nu d g_{mu nu}`, the relativistic Euler equation of stationary rotation. -/
theorem fmPot_deriv {gtt gtp gpp : ℝ → ℝ} {x dtt dtp dpp l : ℝ} (htt : HasDerivAt gtt dtt x)
    (htp : HasDerivAt gtp dtp x) (hpp : HasDerivAt gpp dpp x) (hl : 0 ≤ l) (hp : 0 < gpp x)
    (hn : 0 < nu2 (gtt x) (gtp x) (gpp x)) :
    HasDerivAt (fun y => fmPot (gtt y) (gtp y) (gpp y) l)
      (1 / 2 * (dtt * fmUt (gtt x) (gtp x) (gpp x) l ^ 2 +
        2 * dtp * fmUt (gtt x) (gtp x) (gpp x) l * fmUp (gtt x) (gtp x) (gpp x) l +
        dpp * fmUp (gtt x) (gtp x) (gpp x) l ^ 2)) x := by
  have hnu : HasDerivAt (fun y => nu2 (gtt y) (gtp y) (gpp y))
      (2 * gtp x * dtp / gpp x - gtp x ^ 2 * dpp / gpp x ^ 2 - dtt) x := by
    refine (((htp.pow 2).div hpp hp.ne').sub htt).congr_deriv ?_
    have := hp.ne'; field_simp; simp; ring
  have hom : HasDerivAt (fun y => om (gtp y) (gpp y)) (-(dtp / gpp x) + gtp x * dpp / gpp x ^ 2) x := by
    refine ((htp.neg).div hpp hp.ne').congr_deriv ?_
    have := hp.ne'; simp only [Pi.neg_apply]; field_simp; ring
  obtain ⟨hs1, hs2⟩ := fmS_sq l hp hn
  obtain ⟨p, q, n, w, hp0, hq0, hn0, hw0, hpq, hS, hN, hP, hlv, hut, hup⟩ := fm_atoms hl hp hn
  have hs : HasDerivAt (fun y => fmS (gtt y) (gtp y) (gpp y) l)
      (4 * l ^ 2 * (((2 * gtp x * dtp / gpp x - gtp x ^ 2 * dpp / gpp x ^ 2 - dtt) * gpp x -
        nu2 (gtt x) (gtp x) (gpp x) * dpp) / gpp x ^ 2) / (2 * fmS (gtt x) (gtp x) (gpp x) l)) x := by
    refine ((((hnu.div hpp hp.ne').const_mul (4 * l ^ 2)).const_add 1).sqrt ?_)
    have : 0 ≤ 4 * l ^ 2 * (nu2 (gtt x) (gtp x) (gpp x) / gpp x) := by positivity
    simp only [Pi.div_apply]
    linarith
  have hlog := (((hs.const_add 1).div hnu hn.ne').log (by
    simp only [Pi.div_apply]
    have : 0 < 1 + fmS (gtt x) (gtp x) (gpp x) l := by linarith
    positivity)).const_mul (1 / 2 : ℝ)
  refine ((hlog.sub (hs.const_mul (1 / 2 : ℝ))).sub (hom.mul_const l)).congr_deriv ?_
  simp only [Pi.div_apply]
  rw [hut, hup]
  rw [hS, hN]
  have homx : om (gtp x) (gpp x) = -gtp x / w ^ 2 := by unfold om; rw [hP]
  rw [homx, hP, hlv]
  have h1 : (2 * p ^ 2 + 1) ≠ 0 := by positivity
  have h2 : 1 + (2 * p ^ 2 + 1) ≠ 0 := by positivity
  have h3 : p ^ 2 + 1 ≠ 0 := by positivity
  have e : 1 + (2 * p ^ 2 + 1) = 2 * q ^ 2 := by rw [hpq]; ring
  rw [e]
  have hp2 : p ^ 2 = q ^ 2 - 1 := by linarith
  field_simp
  linear_combination (-8 * p ^ 2 * (gtp x * (2 * w ^ 2 * dtp - gtp x * dpp) - w ^ 4 * dtt - w ^ 2 * n ^ 2 * dpp) +
    4 * (2 * p ^ 2 + 1) * (gtp x * (2 * w ^ 2 * dtp - gtp x * dpp) - w ^ 4 * dtt)) * hpq

end Phoebus.Torus
