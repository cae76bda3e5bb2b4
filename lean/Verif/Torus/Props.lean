import Verif.Torus.FM

/-!
# C86: the torus is in equilibrium
-/
namespace Phoebus.Torus
open Real Metrics Geom Finset

/-- outside the horizon and off the axis. -/
structure Outside (r th a : ℝ) : Prop where
  rp : 0 < r
  d : 0 < r ^ 2 - 2 * r + a ^ 2
  sp : 0 < sin th

variable {r th a rin l : ℝ}

theorem SS_pos (h : Outside r th a) : 0 < SS r th a := by
  have := h.rp; have h2 : SS r th a = r ^ 2 + (a * cos th) ^ 2 := by unfold SS; ring
  rw [h2]; positivity

theorem DD_pos (h : Outside r th a) : 0 < DD r a := by
  unfold DD; have := h.d; nlinarith

theorem AA_pos (h : Outside r th a) : 0 < AA r th a := by
  have h1 := DD_pos h
  have hr := h.rp
  have h2 := sin_sq_le_one th
  unfold AA
  have h3 : DD r a * a * a * sin th * sin th ≤ DD r a * a ^ 2 := by
    have : DD r a * a * a * sin th * sin th = DD r a * a ^ 2 * sin th ^ 2 := by ring
    rw [this]
    have : 0 ≤ DD r a * a ^ 2 := by positivity
    nlinarith
  have h4 : DD r a * a ^ 2 ≤ (r * r + a * a) * (a * a) := by
    have : DD r a ≤ r * r + a * a := by unfold DD; linarith
    have := mul_le_mul_of_nonneg_right this (sq_nonneg a)
    nlinarith
  have h5 : (r * r + a * a) * (a * a) < (r * r + a * a) * (r * r + a * a) := by
    apply mul_lt_mul_of_pos_left <;> nlinarith
  linarith

theorem cos_eq (th : ℝ) : cos th ^ 2 = 1 - sin th ^ 2 := by have := sin_sq_add_cos_sq th; linarith

theorem mu_eq (hr : 0 < r) : r * r * blMu 0 a r th = SS r th a := by
  unfold blMu SS; rw [Rel.ratio_zero]; field_simp

theorem mu_pos (h : Outside r th a) : 0 < blMu 0 a r th := by
  have h1 := SS_pos h
  rw [← mu_eq h.rp] at h1
  have := h.rp
  by_contra h2
  have : r * r * blMu 0 a r th ≤ 0 := mul_nonpos_of_nonneg_of_nonpos (by positivity) (not_lt.1 h2)
  linarith

/-- components of the Boyer-Lindquist metric in the textbook form. -/
theorem bl_components (h : Outside r th a) :
    blG 0 a r th 0 0 = -(1 - 2 * r / SS r th a) ∧ blG 0 a r th 0 3 = -(2 * a * r * sin th ^ 2 / SS r th a) ∧
      blG 0 a r th 3 3 = AA r th a * sin th ^ 2 / SS r th a := by
  have hm := mu_eq (a := a) (th := th) h.rp
  have hm0 := mu_pos h
  have hr := h.rp
  refine ⟨?_, ?_, ?_⟩
  · simp only [blG, Rel.ratio_zero, ← hm]; simp; field_simp
  · simp only [blG, Rel.ratio_zero, ← hm]; simp; field_simp
  · have h1 : blG 0 a r th 3 3 = r * r * (sin th * sin th) * (1 + a * a / (r * r) + 2 * (a * a) * (sin th * sin th) /
        (r * r * r * blMu 0 a r th)) := by
      simp [blG, Rel.ratio_zero]
    have hS := SS_pos h
    have h2 : r * r * r * blMu 0 a r th = r * SS r th a := by rw [← hm]; ring
    rw [h1, h2]
    have hc := cos_eq th
    have hSS : SS r th a = r ^ 2 + a ^ 2 * (1 - sin th ^ 2) := by unfold SS; rw [← hc]; ring
    field_simp
    rw [hSS]; unfold AA DD; ring

theorem bl_gpp_pos (h : Outside r th a) : 0 < blG 0 a r th 3 3 := by
  rw [(bl_components h).2.2]
  have := AA_pos h; have := SS_pos h; have := h.sp
  positivity

theorem bl_nu2 (h : Outside r th a) :
    nu2 (blG 0 a r th 0 0) (blG 0 a r th 0 3) (blG 0 a r th 3 3) = SS r th a * DD r a / AA r th a := by
  obtain ⟨h1, h2, h3⟩ := bl_components h
  rw [h1, h2, h3]
  have hA := AA_pos h; have hS := SS_pos h; have ht := h.sp
  have hc := cos_eq th
  have hSS : SS r th a = r ^ 2 + a ^ 2 * (1 - sin th ^ 2) := by unfold SS; rw [← hc]; ring
  unfold nu2
  field_simp
  have hAA : AA r th a = (r ^ 2 + a ^ 2) ^ 2 - (r ^ 2 - 2 * r + a ^ 2) * a ^ 2 * sin th ^ 2 := by unfold AA DD; ring
  rw [hSS, hAA]; unfold DD; ring

theorem bl_nu2_pos (h : Outside r th a) : 0 < nu2 (blG 0 a r th 0 0) (blG 0 a r th 0 3) (blG 0 a r th 3 3) := by
  rw [bl_nu2 h]
  have hA := AA_pos h; have hS := SS_pos h; have hD := DD_pos h
  positivity

theorem bl_om (h : Outside r th a) : om (blG 0 a r th 0 3) (blG 0 a r th 3 3) = 2 * a * r / AA r th a := by
  obtain ⟨h1, h2, h3⟩ := bl_components h
  rw [h2, h3]
  have hA := AA_pos h; have hS := SS_pos h; have ht := h.sp
  unfold om; field_simp

/-- the potential evaluated on the Boyer-Lindquist metric. -/
noncomputable def blPot (r th a l : ℝ) : ℝ := fmPot (blG 0 a r th 0 0) (blG 0 a r th 0 3) (blG 0 a r th 3 3) l

theorem bl_chi (h : Outside r th a) :
    4 * l ^ 2 * (nu2 (blG 0 a r th 0 0) (blG 0 a r th 0 3) (blG 0 a r th 3 3) / blG 0 a r th 3 3) =
      4 * (l * l * SS r th a * SS r th a) * DD r a / (AA r th a * AA r th a * sin th * sin th) := by
  rw [bl_nu2 h, (bl_components h).2.2]
  have hA := AA_pos h; have hS := SS_pos h; have ht := h.sp
  field_simp

theorem lnh_eq (h : Outside r th a) (hin : Outside rin (π / 2) a) :
    lnh r th a rin l = blPot r th a l - blPot rin (π / 2) a l := by
  unfold blPot fmPot fmS
  rw [bl_chi h, bl_chi hin, bl_nu2 h, bl_nu2 hin, bl_om h, bl_om hin]
  simp only [lnh]
  norm_num
  ring

theorem uphi_eq (h : Outside r th a) :
    uphiRaw r th a l = fmUp (blG 0 a r th 0 0) (blG 0 a r th 0 3) (blG 0 a r th 3 3) l := by
  obtain ⟨hs1, hs2⟩ := fmS_sq l (bl_gpp_pos h) (bl_nu2_pos h)
  have hA := AA_pos h; have hS := SS_pos h; have hD := DD_pos h; have ht := h.sp
  have hS' : √(1 + 4 * l * l * (SS r th a * SS r th a * DD r a / (AA r th a * AA r th a * sin th * sin th))) =
      fmS (blG 0 a r th 0 0) (blG 0 a r th 0 3) (blG 0 a r th 3 3) l := by
    unfold fmS; rw [bl_chi h]; congr 1; ring
  simp only [uphiRaw, fmUp, fmUt]
  rw [hS', bl_om h, bl_nu2 h]
  generalize fmS (blG 0 a r th 0 0) (blG 0 a r th 0 3) (blG 0 a r th 3 3) l = s at *
  rw [(bl_components h).2.2]
  have e1 : √((-1 + s) / 2) * √((-1 + s) / 2) = (-1 + s) / 2 := Real.mul_self_sqrt (by linarith)
  have e2 : 1 + (-1 + s) / 2 = (1 + s) / 2 := by ring
  have e3 : √(AA r th a * SS r th a * DD r a) = AA r th a * √(SS r th a * DD r a / AA r th a) := by
    have : AA r th a * SS r th a * DD r a = AA r th a ^ 2 * (SS r th a * DD r a / AA r th a) := by field_simp
    rw [this, Real.sqrt_mul (sq_nonneg _), Real.sqrt_sq hA.le]
  have e4 : √(AA r th a * sin th ^ 2 / SS r th a) = sin th * √(AA r th a / SS r th a) := by
    have : AA r th a * sin th ^ 2 / SS r th a = sin th ^ 2 * (AA r th a / SS r th a) := by ring
    rw [this, Real.sqrt_mul (sq_nonneg _), Real.sqrt_sq ht.le]
  have e5 : √(SS r th a / AA r th a) = 1 / √(AA r th a / SS r th a) := by
    rw [← Real.sqrt_one, ← Real.sqrt_div zero_le_one]; congr 1; field_simp
  have h6 : 0 < √(SS r th a * DD r a / AA r th a) := Real.sqrt_pos.2 (by positivity)
  have h7 : 0 < √(AA r th a / SS r th a) := Real.sqrt_pos.2 (by positivity)
  have e8 : (-1 + s) / 2 = (s - 1) / 2 := by ring
  rw [e1, e2, e3, e4, e5, e8]
  field_simp

/-! ### Normalisation -/

theorem dot4_expand (g : Fin 4 → Fin 4 → ℝ) (hg : ∀ μ ν, g μ ν = g ν μ) (u : Fin 4 → ℝ) :
    dot4 g u u = g 0 0 * u 0 ^ 2 + 2 * (g 0 1 * u 1 + g 0 2 * u 2 + g 0 3 * u 3) * u 0 +
      (g 1 1 * u 1 * u 1 + g 2 2 * u 2 * u 2 + g 3 3 * u 3 * u 3 +
        2 * (g 1 2 * u 1 * u 2 + g 1 3 * u 1 * u 3 + g 2 3 * u 2 * u 3)) := by
  simp only [dot4, Fin.sum_univ_four]
  rw [hg 1 0, hg 2 0, hg 3 0, hg 2 1, hg 3 1, hg 3 2]; ring

/-- **C86** `ucon_norm` returns the time component of the unit vector with the given spatial components whose energy
`-u_t` is not negative. -/
theorem uconNorm_unique (g : Fin 4 → Fin 4 → ℝ) (hg : ∀ μ ν, g μ ν = g ν μ) (h0 : g 0 0 ≠ 0) (u : Fin 4 → ℝ)
    (hu : dot4 g u u = -1) (ht : ∑ ν, g 0 ν * u ν ≤ 0) : uconNorm u g = u 0 := by
  rw [dot4_expand g hg] at hu
  rw [Fin.sum_univ_four] at ht
  simp only [uconNorm]
  have hd : 2 * (g 0 1 * u 1 + g 0 2 * u 2 + g 0 3 * u 3) * (2 * (g 0 1 * u 1 + g 0 2 * u 2 + g 0 3 * u 3)) -
      4 * g 0 0 * (1 + g 1 1 * u 1 * u 1 + g 2 2 * u 2 * u 2 + g 3 3 * u 3 * u 3 +
        2 * (g 1 2 * u 1 * u 2 + g 1 3 * u 1 * u 3 + g 2 3 * u 2 * u 3)) =
      (-2 * (g 0 0 * u 0 + g 0 1 * u 1 + g 0 2 * u 2 + g 0 3 * u 3)) ^ 2 := by
    linear_combination (-4 * g 0 0) * hu
  rw [hd, Real.sqrt_sq (by linarith)]
  field_simp
  ring

/-- **C86** whenever the discriminant requirement holds, the completed vector is a unit vector with `u_t <= 0`. -/
theorem uconNorm_unit (g : Fin 4 → Fin 4 → ℝ) (hg : ∀ μ ν, g μ ν = g ν μ) (h0 : g 0 0 ≠ 0) (u : Fin 4 → ℝ)
    (hd : g 0 0 * (1 + dot4 g (Function.update u 0 0) (Function.update u 0 0)) ≤
      (g 0 1 * u 1 + g 0 2 * u 2 + g 0 3 * u 3) ^ 2) :
    dot4 g (Function.update u 0 (uconNorm u g)) (Function.update u 0 (uconNorm u g)) = -1 ∧
      ∑ ν, g 0 ν * Function.update u 0 (uconNorm u g) ν ≤ 0 := by
  rw [dot4_expand g hg] at hd
  simp at hd
  rw [dot4_expand g hg, Fin.sum_univ_four]
  have e1 : ∀ t : ℝ, Function.update u 0 t 1 = u 1 := fun t => by simp
  have e2 : ∀ t : ℝ, Function.update u 0 t 2 = u 2 := fun t => by simp
  have e3 : ∀ t : ℝ, Function.update u 0 t 3 = u 3 := fun t => by simp
  simp only [e1, e2, e3, Function.update_self]
  generalize hB : g 0 1 * u 1 + g 0 2 * u 2 + g 0 3 * u 3 = B at *
  generalize hC : g 1 1 * u 1 * u 1 + g 2 2 * u 2 * u 2 + g 3 3 * u 3 * u 3 +
    2 * (g 1 2 * u 1 * u 2 + g 1 3 * u 1 * u 3 + g 2 3 * u 2 * u 3) = C at *
  have hU : uconNorm u g = (-(2 * B) - √((2 * B) * (2 * B) - 4 * g 0 0 * (1 + C))) / (2 * g 0 0) := by
    simp only [uconNorm, ← hB, ← hC, ← add_assoc]
  have hs : √((2 * B) * (2 * B) - 4 * g 0 0 * (1 + C)) ^ 2 = (2 * B) * (2 * B) - 4 * g 0 0 * (1 + C) :=
    Real.sq_sqrt (by nlinarith)
  have hs0 := Real.sqrt_nonneg ((2 * B) * (2 * B) - 4 * g 0 0 * (1 + C))
  rw [hU]
  generalize √((2 * B) * (2 * B) - 4 * g 0 0 * (1 + C)) = s at *
  constructor
  · field_simp; linear_combination hs
  · have : g 0 0 * ((-(2 * B) - s) / (2 * g 0 0)) = -B - s / 2 := by field_simp
    linarith

/-- the four-velocity of the torus fluid in Boyer-Lindquist coordinates. -/
noncomputable def blVel (r th a l : ℝ) : Fin 4 → ℝ :=
  ![uconNorm ![0, 0, 0, uphiRaw r th a l] (blG 0 a r th), 0, 0, uphiRaw r th a l]

theorem bl_symm (r th a : ℝ) (μ ν : Fin 4) : blG 0 a r th μ ν = blG 0 a r th ν μ := by
  fin_cases μ <;> fin_cases ν <;> simp [blG]

theorem dot4_circ (g : Fin 4 → Fin 4 → ℝ) (hg : ∀ μ ν, g μ ν = g ν μ) (t p : ℝ) :
    dot4 g ![t, 0, 0, p] ![t, 0, 0, p] = g 0 0 * t ^ 2 + 2 * g 0 3 * t * p + g 3 3 * p ^ 2 := by
  rw [dot4_expand g hg]; simp; ring

/-- outside the ergosphere the energy of a unit circular flow is positive. -/
theorem circ_energy {gtt gtp gpp ut up : ℝ} (hg : 0 < gpp) (hN : 0 < nu2 gtt gtp gpp) (hneg : gtt < 0) (hu : 0 < ut)
    (hn : gtt * ut ^ 2 + 2 * gtp * ut * up + gpp * up ^ 2 = -1) :
    -(nu2 gtt gtp gpp * ut) - om gtp gpp * (gtp * ut + gpp * up) ≤ 0 := by
  have e : -(nu2 gtt gtp gpp * ut) - om gtp gpp * (gtp * ut + gpp * up) = gtt * ut + gtp * up := by
    unfold nu2 om; field_simp; ring
  rw [e]
  by_contra hc
  have hc := not_le.1 hc
  nlinarith [mul_pos hc hu, mul_pos hg hu, sq_nonneg up, mul_nonneg hg.le (sq_nonneg up), mul_pos (neg_pos.2 hneg) (mul_pos hu hu)]

theorem blVel_eq (h : Outside r th a) (hl : 0 ≤ l) (hal : 0 ≤ a ∨ 2 * r < SS r th a) (h0 : SS r th a ≠ 2 * r) :
    blVel r th a l = ![fmUt (blG 0 a r th 0 0) (blG 0 a r th 0 3) (blG 0 a r th 3 3) l, 0, 0,
      fmUp (blG 0 a r th 0 0) (blG 0 a r th 0 3) (blG 0 a r th 3 3) l] := by
  obtain ⟨hu0, hn, -, hphi, htt⟩ := fm_velocity hl (bl_gpp_pos h) (bl_nu2_pos h)
  have hS := SS_pos h
  have hA := AA_pos h
  have hr := h.rp
  have h00 : blG 0 a r th 0 0 ≠ 0 := by
    rw [(bl_components h).1]
    intro hc
    apply h0
    field_simp at hc
    linarith
  have key : uconNorm ![fmUt (blG 0 a r th 0 0) (blG 0 a r th 0 3) (blG 0 a r th 3 3) l, 0, 0,
      fmUp (blG 0 a r th 0 0) (blG 0 a r th 0 3) (blG 0 a r th 3 3) l] (blG 0 a r th) =
      fmUt (blG 0 a r th 0 0) (blG 0 a r th 0 3) (blG 0 a r th 3 3) l := by
    refine uconNorm_unique _ (bl_symm r th a) h00 _ ?_ ?_
    · rw [dot4_circ _ (bl_symm r th a)]; exact hn
    · have e : ∑ ν, blG 0 a r th 0 ν * (![fmUt (blG 0 a r th 0 0) (blG 0 a r th 0 3) (blG 0 a r th 3 3) l, 0, 0,
          fmUp (blG 0 a r th 0 0) (blG 0 a r th 0 3) (blG 0 a r th 3 3) l] : Fin 4 → ℝ) ν =
          blG 0 a r th 0 0 * fmUt (blG 0 a r th 0 0) (blG 0 a r th 0 3) (blG 0 a r th 3 3) l +
          blG 0 a r th 0 3 * fmUp (blG 0 a r th 0 0) (blG 0 a r th 0 3) (blG 0 a r th 3 3) l := by
        simp [Fin.sum_univ_four]
      rw [e, htt]
      have h1 := mul_nonneg (bl_nu2_pos h).le hu0.le
      rcases hal with hal | hal
      · rw [bl_om h]
        have h2 : 0 ≤ 2 * a * r / AA r th a := by positivity
        have h3 := mul_nonneg h2 hphi
        linarith
      · have hneg : blG 0 a r th 0 0 < 0 := by
          rw [(bl_components h).1]
          have : 2 * r / SS r th a < 1 := by rw [div_lt_one hS]; exact hal
          linarith
        have hg := bl_gpp_pos h
        have hN := bl_nu2_pos h
        exact circ_energy hg hN hneg hu0 hn
  unfold blVel
  rw [uphi_eq h]
  have e : uconNorm ![0, 0, 0, fmUp (blG 0 a r th 0 0) (blG 0 a r th 0 3) (blG 0 a r th 3 3) l] (blG 0 a r th) =
      uconNorm ![fmUt (blG 0 a r th 0 0) (blG 0 a r th 0 3) (blG 0 a r th 3 3) l, 0, 0,
      fmUp (blG 0 a r th 0 0) (blG 0 a r th 0 3) (blG 0 a r th 3 3) l] (blG 0 a r th) := by
    simp [uconNorm]
  rw [e, key]

theorem bl_energy (h : Outside r th a) (hl : 0 ≤ l) (hal : 0 ≤ a ∨ 2 * r < SS r th a) (h0 : SS r th a ≠ 2 * r) :
    ∑ ν, blG 0 a r th 0 ν * blVel r th a l ν ≤ 0 := by
  obtain ⟨hu0, hn, -, hphi, htt⟩ := fm_velocity hl (bl_gpp_pos h) (bl_nu2_pos h)
  have hS := SS_pos h
  have hA := AA_pos h
  have hr := h.rp
  rw [blVel_eq h hl hal h0]
  have e : ∑ ν, blG 0 a r th 0 ν * (![fmUt (blG 0 a r th 0 0) (blG 0 a r th 0 3) (blG 0 a r th 3 3) l, 0, 0,
      fmUp (blG 0 a r th 0 0) (blG 0 a r th 0 3) (blG 0 a r th 3 3) l] : Fin 4 → ℝ) ν =
      blG 0 a r th 0 0 * fmUt (blG 0 a r th 0 0) (blG 0 a r th 0 3) (blG 0 a r th 3 3) l +
      blG 0 a r th 0 3 * fmUp (blG 0 a r th 0 0) (blG 0 a r th 0 3) (blG 0 a r th 3 3) l := by
    simp [Fin.sum_univ_four]
  rw [e, htt]
  have h1 := mul_nonneg (bl_nu2_pos h).le hu0.le
  rcases hal with hal | hal
  · rw [bl_om h]
    have h2 : 0 ≤ 2 * a * r / AA r th a := by positivity
    have h3 := mul_nonneg h2 hphi
    linarith
  · have hneg : blG 0 a r th 0 0 < 0 := by
      rw [(bl_components h).1]
      have : 2 * r / SS r th a < 1 := by rw [div_lt_one hS]; exact hal
      linarith
    exact circ_energy (bl_gpp_pos h) (bl_nu2_pos h) hneg hu0 hn

/-- **C86** The fluid velocity is a future-directed unit vector on circular orbits with the angular momentum parameter
`u^t u_phi = l` at every point. -/
theorem torus_velocity (h : Outside r th a) (hl : 0 ≤ l) (hal : 0 ≤ a ∨ 2 * r < SS r th a) (h0 : SS r th a ≠ 2 * r) :
    let u := blVel r th a l
    dot4 (blG 0 a r th) u u = -1 ∧ 0 < u 0 ∧ u 1 = 0 ∧ u 2 = 0 ∧ u 0 * (∑ ν, blG 0 a r th 3 ν * u ν) = l := by
  intro u
  have hu : u = _ := blVel_eq h hl hal h0
  obtain ⟨hu0, hn, hlu, -, -⟩ := fm_velocity hl (bl_gpp_pos h) (bl_nu2_pos h)
  rw [hu, dot4_circ _ (bl_symm r th a)]
  refine ⟨hn, hu0, rfl, rfl, ?_⟩
  rw [Fin.sum_univ_four, bl_symm r th a 3 0]
  simp only [Matrix.cons_val]
  linear_combination hlu

/-- **C86** The angular velocity handed back together with the enthalpy: inside the torus the circular orbit with `u^t u_phi = l`, outside none. -/
theorem enthalpy_orbit (h : Outside r th a) (hl : 0 ≤ l) (hal : 0 ≤ a ∨ 2 * r < SS r th a) (h0 : SS r th a ≠ 2 * r) (rin : ℝ) :
    let e := logEnthalpy r th a rin l
    let u : Fin 4 → ℝ := ![uconNorm ![0, 0, 0, e.2] (blG 0 a r th), 0, 0, e.2]
    (0 < e.1 → dot4 (blG 0 a r th) u u = -1 ∧ 0 < u 0 ∧ u 0 * (∑ ν, blG 0 a r th 3 ν * u ν) = l) ∧ (e.1 ≤ 0 → e.2 = 0) := by
  intro e u
  constructor
  · intro he
    have h2 : e.2 = uphiRaw r th a l := if_pos he
    have hu : u = blVel r th a l := by simp only [u, h2, blVel]
    obtain ⟨a1, a2, -, -, a3⟩ := torus_velocity h hl hal h0
    rw [hu]; exact ⟨a1, a2, a3⟩
  · intro he
    exact if_neg (not_lt.2 he)

/-- circular contraction with a symmetric array. -/
theorem circ_sum (d : Fin 4 → Fin 4 → ℝ) (hd : d 3 0 = d 0 3) (t p : ℝ) :
    ∑ μ, ∑ ν, d μ ν * (![t, 0, 0, p] : Fin 4 → ℝ) μ * (![t, 0, 0, p] : Fin 4 → ℝ) ν =
      d 0 0 * t ^ 2 + 2 * d 0 3 * t * p + d 3 3 * p ^ 2 := by
  simp only [Fin.sum_univ_four, Matrix.cons_val]
  rw [hd]; ring

theorem outside_r_eventually (h : Outside r th a) : ∀ᶠ y in nhds r, Outside y th a := by
  have h1 : ∀ᶠ y in nhds r, 0 < y := lt_mem_nhds h.rp
  have h2 : ∀ᶠ y in nhds r, 0 < y ^ 2 - 2 * y + a ^ 2 :=
    (show ContinuousAt (fun y : ℝ => y ^ 2 - 2 * y + a ^ 2) r by fun_prop).eventually (lt_mem_nhds h.d)
  filter_upwards [h1, h2] with y hy1 hy2
  exact ⟨hy1, hy2, h.sp⟩

theorem outside_th_eventually (h : Outside r th a) : ∀ᶠ y in nhds th, Outside r y a := by
  have h2 : ∀ᶠ y in nhds th, 0 < sin y := (continuous_sin.continuousAt).eventually (lt_mem_nhds h.sp)
  filter_upwards [h2] with y hy
  exact ⟨h.rp, h.d, hy⟩

/-- **C86** Radial balance: the radial derivative of the log enthalpy is the gravitational plus centrifugal term
`1/2 u^mu u^nu d_r g_{mu nu}`. -/
theorem torus_euler_r (h : Outside r th a) (hin : Outside rin (π / 2) a) (hl : 0 ≤ l) (hal : 0 ≤ a ∨ 2 * r < SS r th a)
    (h0 : SS r th a ≠ 2 * r) (dg : Fin 4 → Fin 4 → ℝ)
    (hd : ∀ μ ν, HasDerivAt (fun y => blG 0 a y th μ ν) (dg μ ν) r) :
    HasDerivAt (fun y => lnh y th a rin l)
      (1 / 2 * ∑ μ, ∑ ν, dg μ ν * blVel r th a l μ * blVel r th a l ν) r := by
  have hsy : dg 3 0 = dg 0 3 := by
    have := hd 3 0
    simp only [fun y => bl_symm y th a 3 0] at this
    exact this.unique (hd 0 3)
  rw [blVel_eq h hl hal h0, circ_sum dg hsy]
  refine ((fmPot_deriv (hd 0 0) (hd 0 3) (hd 3 3) hl (bl_gpp_pos h) (bl_nu2_pos h)).sub_const
    (blPot rin (π / 2) a l)).congr_of_eventuallyEq ?_
  filter_upwards [outside_r_eventually h] with y hy
  exact lnh_eq hy hin

/-- **C86** Polar balance. -/
theorem torus_euler_th (h : Outside r th a) (hin : Outside rin (π / 2) a) (hl : 0 ≤ l) (hal : 0 ≤ a ∨ 2 * r < SS r th a)
    (h0 : SS r th a ≠ 2 * r) (dg : Fin 4 → Fin 4 → ℝ)
    (hd : ∀ μ ν, HasDerivAt (fun y => blG 0 a r y μ ν) (dg μ ν) th) :
    HasDerivAt (fun y => lnh r y a rin l)
      (1 / 2 * ∑ μ, ∑ ν, dg μ ν * blVel r th a l μ * blVel r th a l ν) th := by
  have hsy : dg 3 0 = dg 0 3 := by
    have := hd 3 0
    simp only [fun y => bl_symm r y a 3 0] at this
    exact this.unique (hd 0 3)
  rw [blVel_eq h hl hal h0, circ_sum dg hsy]
  refine ((fmPot_deriv (hd 0 0) (hd 0 3) (hd 3 3) hl (bl_gpp_pos h) (bl_nu2_pos h)).sub_const
    (blPot rin (π / 2) a l)).congr_of_eventuallyEq ?_
  filter_upwards [outside_th_eventually h] with y hy
  exact lnh_eq hy hin

/-- **C86** The enthalpy is one (`lnh = 0`) at the inner edge and symmetric about the equator. -/
theorem lnh_edge (a rin l : ℝ) : lnh rin (π / 2) a rin l = 0 := by
  simp only [lnh]; ring

theorem lnh_mirror (r th a rin l : ℝ) : lnh r (π - th) a rin l = lnh r th a rin l := by
  simp [lnh, AA, SS, sin_pi_sub, cos_pi_sub]

end Phoebus.Torus
