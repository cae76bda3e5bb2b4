import Verif.Classic.Props

/-!
# The Newton step of the classic inversion is Newton's method
-/
namespace Phoebus.Classic
open Robust

/-- **C82** The size of the finite difference is the relative step `df * x`, but never below a positive limit, and it keeps the sign. -/
theorem fdStep_spec (p : Par) (df x : ℝ) (he : 0 < p.eps ∨ 0 < p.tol) :
    |fdStep p df x| = max |df * x| (max (p.tol * 1e-6) p.eps) ∧ 0 < |fdStep p df x| ∧ (0 ≤ df * x ↔ 0 ≤ fdStep p df x) := by
  have hpos : 0 < max (p.tol * 1e-6) p.eps := by
    rcases he with h | h
    · exact lt_max_of_lt_right h
    · exact lt_max_of_lt_left (by positivity)
  have e : fdStep p df x = if |df * x| < max (p.tol * 1e-6) p.eps then ((sgn (df * x) : ℤ) : ℝ) * max (p.tol * 1e-6) p.eps else df * x := rfl
  have key : |fdStep p df x| = max |df * x| (max (p.tol * 1e-6) p.eps) := by
    rw [e]
    by_cases h : |df * x| < max (p.tol * 1e-6) p.eps
    · rw [if_pos h, max_eq_right h.le, abs_mul, abs_of_pos hpos]
      have : |((sgn (df * x) : ℤ) : ℝ)| = 1 := by
        unfold sgn
        by_cases h0 : 0 ≤ df * x
        · rw [if_pos h0, if_neg (not_lt.2 h0)]; norm_num
        · rw [if_neg h0, if_pos (not_le.1 h0)]; norm_num
      rw [this, one_mul]
    · rw [if_neg h, max_eq_left (not_lt.1 h)]
  refine ⟨key, ?_, ?_⟩
  · rw [key]; exact lt_max_of_lt_right hpos
  · rw [e]
    by_cases h : |df * x| < max (p.tol * 1e-6) p.eps
    · rw [if_pos h]
      unfold sgn
      by_cases h0 : 0 ≤ df * x
      · rw [if_pos h0, if_neg (not_lt.2 h0)]
        exact ⟨fun _ => by norm_num; exact (lt_max_iff.1 hpos).imp le_of_lt le_of_lt |>.elim (fun h => Or.inl (by linarith)) Or.inr, fun _ => h0⟩
      · rw [if_neg h0, if_pos (not_le.1 h0)]
        refine ⟨fun h1 => absurd h1 h0, fun h1 => ?_⟩
        exfalso
        push_cast at h1
        nlinarith [hpos]
    · rw [if_neg h]

/-- the norm used by the line search is the Euclidean one. -/
theorem normSq_spec (r : ℝ × ℝ) : 0 ≤ normSq r ∧ (normSq r = 0 ↔ r.1 = 0 ∧ r.2 = 0) ∧ r.1 ^ 2 ≤ normSq r ∧ r.2 ^ 2 ≤ normSq r := by
  unfold normSq
  refine ⟨add_nonneg (mul_self_nonneg _) (mul_self_nonneg _), ⟨fun h => ?_, fun h => by rw [h.1, h.2]; ring⟩, by nlinarith [mul_self_nonneg r.2], by nlinarith [mul_self_nonneg r.1]⟩
  have h1 := mul_self_nonneg r.1
  have h2 := mul_self_nonneg r.2
  exact ⟨mul_self_eq_zero.1 (by linarith), mul_self_eq_zero.1 (by linarith)⟩

/-- **C82** For residuals that are affine in density and temperature one pass finds the root, provided the Newton step stays in the admissible
range: the differences are the exact derivatives and the step is Newton's. (`small = 0`: the regulariser of the quotient is dropped.) -/
theorem newton_affine (p : Par) (hs : p.small = 0) (he : 0 < p.eps ∨ 0 < p.tol) (D a b c d e g : ℝ) (s : St)
    (hdet : (1e-16 : ℝ) ≤ |a * d - b * c|)
    (hres : s.res = (a * s.rho + b * s.T - e, c * s.rho + d * s.T - g))
    (rho' T' : ℝ) (h1 : a * rho' + b * T' = e) (h2 : c * rho' + d * T' = g) (hr0 : 0 ≤ rho') (hrD : rho' ≤ D) (hT0 : 0 ≤ T') (hne : normSq s.res ≠ 0) :
    let t := body p D (fun r T => (a * r + b * T - e, c * r + d * T - g)) s
    t.rho = rho' ∧ t.T = T' ∧ t.res = (0, 0) := by
  intro t
  obtain ⟨-, hn1, -⟩ := fdStep_spec p s.df s.rho he
  obtain ⟨-, hn2, -⟩ := fdStep_spec p s.df s.T he
  have hd1 : fdStep p s.df s.rho ≠ 0 := abs_pos.1 hn1
  have hd2 : fdStep p s.df s.T ≠ 0 := abs_pos.1 hn2
  have hD0 : a * d - b * c ≠ 0 := by
    intro h; rw [h] at hdet; norm_num at hdet
  have q1 : ∀ x : ℝ, ratio p.small 1 x = 1 / x := fun x => by unfold ratio; simp [hs]
  have j00 : ((a * (s.rho + fdStep p s.df s.rho) + b * s.T - e) - (a * s.rho + b * s.T - e)) * (1 / fdStep p s.df s.rho) = a := by field_simp; ring
  have j10 : ((c * (s.rho + fdStep p s.df s.rho) + d * s.T - g) - (c * s.rho + d * s.T - g)) * (1 / fdStep p s.df s.rho) = c := by field_simp; ring
  have j01 : ((a * s.rho + b * (s.T + fdStep p s.df s.T) - e) - (a * s.rho + b * s.T - e)) * (1 / fdStep p s.df s.T) = b := by field_simp; ring
  have j11 : ((c * s.rho + d * (s.T + fdStep p s.df s.T) - g) - (c * s.rho + d * s.T - g)) * (1 / fdStep p s.df s.T) = d := by field_simp; ring
  have D1 : -((a * s.rho + b * s.T - e) * d - b * (c * s.rho + d * s.T - g)) * (1 / (a * d - b * c)) = rho' - s.rho := by
    rw [mul_one_div, div_eq_iff hD0]; linear_combination b * h2 - d * h1
  have D2 : -(a * (c * s.rho + d * s.T - g) - c * (a * s.rho + b * s.T - e)) * (1 / (a * d - b * c)) = T' - s.T := by
    rw [mul_one_div, div_eq_iff hD0]; linear_combination c * h1 - a * h2
  have e1 : dampRho D s.rho (rho' - s.rho) = rho' - s.rho := by
    unfold dampRho; rw [if_neg (by linarith), if_neg (by linarith), one_mul]
  have e2 : dampT s.T (T' - s.T) = T' - s.T := by unfold dampT; rw [if_neg (by linarith)]
  have hz : normSq ((0 : ℝ), (0 : ℝ)) = 0 := by unfold normSq; ring
  have hpos : ¬ (normSq ((0 : ℝ), (0 : ℝ)) ≥ normSq s.res) := by
    rw [hz]; exact not_le.2 (lt_of_le_of_ne (normSq_spec _).1 (Ne.symm hne))
  have hf : ((a * (s.rho + (rho' - s.rho)) + b * (s.T + (T' - s.T)) - e), (c * (s.rho + (rho' - s.rho)) + d * (s.T + (T' - s.T)) - g)) = ((0 : ℝ), (0 : ℝ)) := by
    ext
    · show _ = (0 : ℝ); linear_combination h1
    · show _ = (0 : ℝ); linear_combination h2
  have hr1 : s.res.1 = a * s.rho + b * s.T - e := by rw [hres]
  have hr2 : s.res.2 = c * s.rho + d * s.T - g := by rw [hres]
  have ht : t = ⟨rho', T', (0, 0), t.df, t.conv⟩ := by
    have hb : backtrack (fun r T => (a * r + b * T - e, c * r + d * T - g)) s.rho s.T (rho' - s.rho) (T' - s.T) (normSq s.res) 5 1 (0, 0) = (1, (0, 0)) := by
      rw [backtrack, if_neg hpos]
    simp only [t, body, q1, hr1, hr2, j00, j10, j01, j11]
    rw [if_neg (not_lt.2 hdet)]
    simp only [D1, D2, e1, e2, hf, hb]
    congr 1 <;> ring
  rw [ht]; exact ⟨rfl, rfl, rfl⟩

/-- the hypotheses are met: two coupled equations with root (1, 2). -/
theorem ex_newton_affine : (body ⟨0, 0, 1e-8⟩ 5 (fun r T => (2 * r + 1 * T - 4, 1 * r + 3 * T - 7)) ⟨3, 1, (3, -1), 1e-6, false⟩).rho = 1 :=
  (newton_affine ⟨0, 0, 1e-8⟩ rfl (Or.inr (by norm_num)) 5 2 1 1 3 4 7 ⟨3, 1, (3, -1), 1e-6, false⟩ (by norm_num) (by norm_num) 1 2 (by norm_num)
    (by norm_num) (by norm_num) (by norm_num) (by norm_num) (by norm_num [normSq])).1

/-- **C82** For the solver as called: success is only reported after a pass whose correction was within the tolerance. -/
theorem solve_success (p : Par) (eos : EosT) (s : Scr) (maxIter : ℕ) (rho T : ℝ) (h0 : 0 ≤ rho) (h1 : rho ≤ s.D) (hT : 0 ≤ T)
    (hs : (solve p eos s maxIter rho T).conv = true) :
    ∃ u : St, 0 ≤ u.rho ∧ u.rho ≤ s.D ∧ 0 ≤ u.T ∧ (0 < u.rho → 0 < u.T →
      |(solve p eos s maxIter rho T).rho - u.rho| < p.tol * u.rho ∧ |(solve p eos s maxIter rho T).T - u.T| < p.tol * u.T) := by
  obtain ⟨u, a, b, c, -, d⟩ := success_small_step p s.D (resid eos s 0) (maxIter - 1) ⟨rho, T, resid eos s 0 rho T, 1e-6, false⟩ h0 h1 hT rfl hs
  exact ⟨u, a, b, c, d⟩

/-- **C82** The residual kept with the iterate is always the residual function at the iterate. -/
theorem solve_residual (p : Par) (eos : EosT) (s : Scr) (maxIter : ℕ) (rho T : ℝ) :
    (solve p eos s maxIter rho T).res = resid eos s 0 (solve p eos s maxIter rho T).rho (solve p eos s maxIter rho T).T := by
  set f := resid eos s 0 with hf
  have hbt : ∀ r T dr dt r0 : ℝ, (backtrack f r T dr dt r0 5 1 (f (r + dr) (T + dt))).2 =
      f (r + (backtrack f r T dr dt r0 5 1 (f (r + dr) (T + dt))).1 * dr) (T + (backtrack f r T dr dt r0 5 1 (f (r + dr) (T + dt))).1 * dt) := by
    intro r T dr dt r0
    have := (backtrack_decreases f r T dr dt r0 5 1).1
    simpa only [one_mul] using this
  have hb : ∀ t : St, t.res = f t.rho t.T → (body p s.D f t).res = f (body p s.D f t).rho (body p s.D f t).T := by
    intro t ht
    simp only [body]
    split_ifs
    · exact ht
    all_goals exact hbt t.rho t.T _ _ _
  have hl : ∀ n (t : St), t.res = f t.rho t.T → (loop p s.D f n t).res = f (loop p s.D f n t).rho (loop p s.D f n t).T := by
    intro n
    induction n with
    | zero => exact hb
    | succ n ih =>
      intro t ht
      simp only [loop]
      split_ifs
      · exact hb t ht
      · exact ih _ (hb t ht)
  exact hl _ _ rfl

end Phoebus.Classic
