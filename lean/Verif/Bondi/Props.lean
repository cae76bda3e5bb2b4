import Verif.Bondi.Bracket
import Mathlib.Analysis.SpecialFunctions.Pow.Asymptotics
import Mathlib.Analysis.Complex.ExponentialBounds

/-! # C89: the Bondi initial data -/
namespace Phoebus.Bondi
open Real Metrics Geom Finset

variable {rs r rtol ftol : ℝ}

/-- call of `get_bondi_temp` made by the generator, bondi.cpp:175. -/
noncomputable abbrev bondiTemp (rtol ftol rs r : ℝ) : Outcome :=
  getBondiTemp rtol ftol r (5 / 2) (C1Of (5 / 2) rs) (C2Of (5 / 2) rs) (TcOf (5 / 2) rs) rs

/-- **C89** The solver finds the transonic solution: for every sonic radius in `[3, 40000]` and every radius between
`2` and twenty sonic radii other than the sonic radius itself, there is exactly one temperature that solves the Bernoulli
equation on the branch that is supersonic inside and subsonic outside the sonic radius, and the call terminates without
aborting and returns it up to the stated tolerances.

Partial form of C89. Full property: The spherical accretion state created at start is the steady transonic Bondi-
Michel solution: the temperature search terminates, does not abort and returns (to its tolerances) the unique solution
that is supersonic inside and subsonic outside the sonic radius; mass flux and specific energy are the same at every
radius; the flow passes the sonic radius at the local sound speed; and the velocity stored in code coordinates
reproduces the infall. Missing: Proved for 2 <= r <= 20 rs except r = rs, where the bisection discards the root at its
left end (bondi_temp_sonic_defect); far outside the run aborts (bondi_temp_far_abort). Non-rotating hole only: the
constants assume spin zero. -/
theorem bondi_temp_partial (h : Good rs) (hr : 2 ≤ r) (hr' : r ≤ 20 * rs) (hne : r ≠ rs) (hrt : 0 < rtol) (hft : 0 ≤ ftol) :
    ∃ R, 0 < R ∧ resid rs r R = 0 ∧
      (r < rs → cs2 (5 / 2) R < flow2 (5 / 2) (C1Of (5 / 2) rs) r R) ∧
      (rs < r → flow2 (5 / 2) (C1Of (5 / 2) rs) r R < cs2 (5 / 2) R) ∧
      (∀ R', 0 < R' → resid rs r R' = 0 →
        (r < rs → cs2 (5 / 2) R' < flow2 (5 / 2) (C1Of (5 / 2) rs) r R') →
        (rs < r → flow2 (5 / 2) (C1Of (5 / 2) rs) r R' < cs2 (5 / 2) R') → R' = R) ∧
      ∃ T, bondiTemp rtol ftol rs r = .value T ∧ 0 < T ∧ (|resid rs r T| ≤ ftol ∨ |T - R| ≤ rtol * T / 2) := by
  have hok := h.ok
  have hr0 : 0 < r := by linarith
  have hC := C1_pos hok
  have hn1 : (1 : ℝ) ≤ 5 / 2 := by norm_num
  have hA : 0 ≤ 1 - 2 / r := by rw [sub_nonneg, div_le_one hr0]; exact hr
  have hG := Tguess_pos hok hr0
  have hneg := guess_between hok hr0 hne
  rcases lt_or_gt_of_ne hne with hlt | hgt
  · have hin := bracket_inner h hr
    have hs : bondiTemp rtol ftol rs r = bisect rtol ftol (resid rs r) (1 / 10 * Tguess (TcOf (5 / 2) rs) rs r)
        (Tguess (TcOf (5 / 2) rs) rs r) := by
      simp only [bondiTemp, getBondiTemp, if_pos hlt]; norm_num
    generalize Tguess (TcOf (5 / 2) rs) rs r = G at *
    have hcont : ContinuousOn (resid rs r) (Set.Icc (1 / 10 * G) G) :=
      Tfunc_cont hr0 fun x hx => lt_of_lt_of_le (by linarith) hx.1
    obtain ⟨T, hT, hT1, hT2, hT3⟩ := bisect_spec hrt hft (by linarith : 0 < 1 / 10 * G) (by linarith) hcont hin.ne'
      (mul_nonpos_of_nonneg_of_nonpos hin.le hneg.le)
    obtain ⟨R, hR, hR0⟩ := intermediate_value_Icc' (by linarith : 1 / 10 * G ≤ G) hcont ⟨hneg.le, hin.le⟩
    have hRp : 0 < R := lt_of_lt_of_le (by linarith) hR.1
    have hRG : R < G := lt_of_le_of_ne hR.2 (by rintro rfl; exact hneg.ne hR0)
    have hb := (branch hn1 hC hr0 hRp hG hR0 hneg).1 hRG
    refine ⟨R, hRp, hR0, fun _ => (sonic_iff hn1 hr0 hRp hC hA).2.2 hb, fun hc => absurd hc (not_lt.2 hlt.le), ?_, ?_⟩
    · intro R' hR' hR0' hsup _
      have h1 := (sonic_iff hn1 hr0 hR' hC hA).2.1 (hsup hlt)
      refine root_unique hn1 hC hr0 hR' hRp hG hR0' hR0 hneg (Or.inl ⟨?_, hRG⟩)
      by_contra hc
      rcases eq_or_lt_of_le (not_lt.1 hc) with e | e
      · rw [← e] at hR0'; linarith
      · have := (branch hn1 hC hr0 hR' hG hR0' hneg).2 e; linarith
    · refine ⟨T, by rw [hs, hT], by linarith, ?_⟩
      rcases hT3 with h3 | ⟨R', h4, h5, h6, h7⟩
      · exact Or.inl h3
      · right
        have h8 : R' < G := lt_of_le_of_ne h5 (by rintro rfl; exact hneg.ne h6)
        have := root_unique hn1 hC hr0 (by linarith : 0 < R') hRp hG h6 hR0 hneg (Or.inl ⟨h8, hRG⟩)
        rw [← this]; exact h7
  · have hout := bracket_outer h hgt hr'
    have hs : bondiTemp rtol ftol rs r = bisect rtol ftol (resid rs r) (Tguess (TcOf (5 / 2) rs) rs r)
        (10 * Tguess (TcOf (5 / 2) rs) rs r) := by
      simp only [bondiTemp, getBondiTemp, if_neg (not_lt.2 (le_of_lt hgt))]
    generalize Tguess (TcOf (5 / 2) rs) rs r = G at *
    have hcont : ContinuousOn (resid rs r) (Set.Icc G (10 * G)) :=
      Tfunc_cont hr0 fun x hx => hG.trans_le hx.1
    obtain ⟨T, hT, hT1, hT2, hT3⟩ := bisect_spec hrt hft hG (by linarith) hcont hneg.ne
      (mul_nonpos_of_nonpos_of_nonneg hneg.le hout.le)
    obtain ⟨R, hR, hR0⟩ := intermediate_value_Icc (by linarith : G ≤ 10 * G) hcont ⟨hneg.le, hout.le⟩
    have hRp : 0 < R := lt_of_lt_of_le (by linarith) hR.1
    have hRG : G < R := lt_of_le_of_ne hR.1 (by rintro rfl; exact hneg.ne hR0)
    have hb := (branch hn1 hC hr0 hRp hG hR0 hneg).2 hRG
    refine ⟨R, hRp, hR0, fun hc => absurd hc (not_lt.2 (le_of_lt hgt)),
      fun _ => (sonic_iff hn1 hr0 hRp hC hA).1.2 hb, ?_, ?_⟩
    · intro R' hR' hR0' _ hsub
      have h1 := (sonic_iff hn1 hr0 hR' hC hA).1.1 (hsub hgt)
      refine root_unique hn1 hC hr0 hR' hRp hG hR0' hR0 hneg (Or.inr ⟨?_, hRG⟩)
      by_contra hc
      rcases eq_or_lt_of_le (not_lt.1 hc) with e | e
      · rw [e] at hR0'; linarith
      · have := (branch hn1 hC hr0 hR' hG hR0' hneg).1 e; linarith
    · refine ⟨T, by rw [hs, hT], by linarith, ?_⟩
      rcases hT3 with h3 | ⟨R', h4, h5, h6, h7⟩
      · exact Or.inl h3
      · right
        have h8 : G < R' := lt_of_le_of_ne h4 (by rintro rfl; exact hneg.ne h6)
        have := root_unique hn1 hC hr0 (by linarith : 0 < R') hRp hG h6 hR0 hneg (Or.inr ⟨h8, hRG⟩)
        rw [← this]; exact h7

/-- **C89** (defect) A cell centred exactly at the sonic radius: the exact solution there is `Tc`, but the solver can only
return a temperature at least `5.5 Tc`. -/
theorem bondi_temp_sonic_defect (h : Ok (5 / 2) rs) (h2 : 2 ≤ rs) {T : ℝ} (hT : bondiTemp rtol ftol rs rs = .value T) :
    resid rs rs (TcOf (5 / 2) rs) = 0 ∧ 11 / 2 * TcOf (5 / 2) rs ≤ T := by
  have h0 := h.rs0
  have hTc := Tc_pos h
  obtain ⟨hz, -, hson⟩ := bondi_sonic h
  have hn1 : (1 : ℝ) ≤ 5 / 2 := by norm_num
  have hA : 0 ≤ 1 - 2 / rs := by rw [sub_nonneg, div_le_one h0]; exact h2
  have hsl : slopeTerm (5 / 2) (C1Of (5 / 2) rs) rs (TcOf (5 / 2) rs) ≤ (1 + 5 / 2) * (1 - 2 / rs) := by
    by_contra hc
    have := (sonic_iff hn1 h0 hTc (C1_pos h) hA).2.2 (not_le.1 hc)
    linarith
  have hg : Tguess (TcOf (5 / 2) rs) rs rs = TcOf (5 / 2) rs := by
    unfold Tguess; rw [div_self h0.ne', Real.one_rpow, mul_one]
  refine ⟨hz, ?_⟩
  simp only [bondiTemp, getBondiTemp, lt_irrefl, if_false, hg] at hT
  have := bisect_left_root (by linarith) hz (fun x hx _ => by
    have := Tfunc_strictMono (C2 := C2Of (5 / 2) rs) hn1 (C1_pos h) h0 hTc hx hsl
    rw [hz] at this; exact this) hT
  linarith

/-- **C89** (defect) Far from the hole the search interval misses the solution and the run aborts, for every sonic
radius. -/
theorem bondi_temp_far_abort (h : Ok (5 / 2) rs) : ∃ R0, ∀ r, R0 < r → bondiTemp rtol ftol rs r = .abort := by
  have h0 := h.rs0
  have hA := h.q
  have hq : 0 < 1 / (2 * rs) := by positivity
  have hlim : Filter.Tendsto (fun r : ℝ => resid rs r (10 * Tguess (TcOf (5 / 2) rs) rs r)) Filter.atTop
      (nhds ((1 + 10 * ((1 + 5 / 2) * TcOf (5 / 2) rs) * 0) ^ 2 *
        (1 - 4 * (1 / (2 * rs)) * 0 + 1 / (2 * rs) / 10 ^ 5) -
      (1 + (1 + 5 / 2) * TcOf (5 / 2) rs) ^ 2 * (1 - 3 * (1 / (2 * rs))))) := by
    have hx : Filter.Tendsto (fun r : ℝ => rs / r) Filter.atTop (nhds 0) := Filter.Tendsto.const_div_atTop Filter.tendsto_id rs
    have hX : Filter.Tendsto (fun r : ℝ => (rs / r) ^ (0.8 : ℝ)) Filter.atTop (nhds 0) := by
      have := hx.rpow_const (p := 0.8) (Or.inr (by norm_num))
      rwa [Real.zero_rpow (by norm_num)] at this
    have := ((((hX.const_mul (10 * ((1 + 5 / 2) * TcOf (5 / 2) rs))).const_add 1).pow 2).mul
      (((hx.const_mul (4 * (1 / (2 * rs)))).const_sub 1).add_const (1 / (2 * rs) / 10 ^ 5))).sub_const
      ((1 + (1 + 5 / 2) * TcOf (5 / 2) rs) ^ 2 * (1 - 3 * (1 / (2 * rs))))
    refine this.congr' ?_
    filter_upwards [Filter.eventually_gt_atTop 0] with r hr
    rw [resid_scaled h hr (by norm_num)]
  have hneg : (1 + 10 * ((1 + 5 / 2) * TcOf (5 / 2) rs) * 0) ^ 2 *
        (1 - 4 * (1 / (2 * rs)) * 0 + 1 / (2 * rs) / 10 ^ 5) -
      (1 + (1 + 5 / 2) * TcOf (5 / 2) rs) ^ 2 * (1 - 3 * (1 / (2 * rs))) < 0 := by
    rw [Tc_eq h]
    generalize 1 / (2 * rs) = q at *
    norm_num at hA ⊢
    obtain ⟨d, hd⟩ : ∃ d, d = 1 - 11 / 2 * q := ⟨_, rfl⟩
    have hd0 : 0 < d := by rw [hd]; linarith
    rw [← hd, B_eq hd hd0.ne', div_pow, div_mul_eq_mul_div, lt_div_iff₀ (by positivity), hd]
    nlinarith [mul_pos hq hq, mul_pos hq (mul_pos hq hq)]
  have h1 : ∀ᶠ r in Filter.atTop, resid rs r (10 * Tguess (TcOf (5 / 2) rs) rs r) < 0 := hlim.eventually (gt_mem_nhds hneg)
  have h2 := (h1.and (Filter.eventually_gt_atTop rs))
  obtain ⟨R0, hR0⟩ := Filter.eventually_atTop.1 h2
  refine ⟨R0, fun r hr => ?_⟩
  obtain ⟨h3, h4⟩ := hR0 r hr.le
  have hr0 : 0 < r := h0.trans h4
  have h5 := guess_between h hr0 h4.ne'
  have hs : bondiTemp rtol ftol rs r = bisect rtol ftol (resid rs r) (Tguess (TcOf (5 / 2) rs) rs r)
      (10 * Tguess (TcOf (5 / 2) rs) rs r) := by
    simp only [bondiTemp, getBondiTemp, if_neg (not_lt.2 h4.le)]
  rw [hs]
  exact bisect_abort (mul_pos_of_neg_of_neg h5 h3)

/-! ### Cells inside the horizon, velocities -/

/-- **C89** Cells whose centre lies inside `Rhor` take the coordinate of the first cell outside it: the loop ends, the
result is a whole number of cells away, lies outside and every earlier cell lies inside. -/
theorem shifted_x1 (p : Transform.MGR) (hp : 0 ≤ p.csq) (Rhor x1 dx : ℝ) (hdx : 0 < dx) :
    ∃ k : ℕ, shiftedX1 p.r Rhor x1 dx = some (x1 + k * dx) ∧ Rhor ≤ p.r (x1 + k * dx) ∧
      ∀ i < k, p.r (x1 + i * dx) < Rhor := by
  classical
  have hex : ∃ k : ℕ, ¬ p.r (x1 + k * dx) < Rhor := by
    obtain ⟨k, hk⟩ := exists_nat_ge ((max Rhor p.br - x1) / dx)
    rw [div_le_iff₀ hdx] at hk
    have hbr : p.br ≤ x1 + k * dx := by have := le_max_right Rhor p.br; linarith
    refine ⟨k, not_lt.2 ?_⟩
    have h1 : x1 + k * dx ≤ x1 + k * dx + p.sw (x1 + k * dx) * p.csq * (x1 + k * dx - p.br) ^ p.nsq := by
      have h2 : 0 ≤ p.sw (x1 + k * dx) := by unfold Transform.MGR.sw; split <;> norm_num
      have h3 : 0 ≤ x1 + k * dx - p.br := by linarith
      have : 0 ≤ p.sw (x1 + k * dx) * p.csq * (x1 + k * dx - p.br) ^ p.nsq := by positivity
      linarith
    have h4 : Rhor ≤ x1 + k * dx := by have := le_max_left Rhor p.br; linarith
    unfold Transform.MGR.r
    have := Real.add_one_le_exp (x1 + k * dx + p.sw (x1 + k * dx) * p.csq * (x1 + k * dx - p.br) ^ p.nsq)
    linarith
  refine ⟨Nat.find hex, ?_, not_lt.1 (Nat.find_spec hex), fun i hi => not_not.1 (Nat.find_min hex hi)⟩
  unfold shiftedX1; rw [dif_pos hex]

/-- the radial infall in Boyer-Lindquist coordinates, as the code completes it. -/
noncomputable def blVel (r th a ur : ℝ) : Fin 4 → ℝ := ![Torus.uconNorm ![0, ur, 0, 0] (blG 0 a r th), ur, 0, 0]

theorem bl_radial {th : ℝ} (hr : 2 < r) (hs : 0 < sin th) :
    blG 0 0 r th 0 0 = -(1 - 2 / r) ∧ blG 0 0 r th 1 1 = 1 / (1 - 2 / r) ∧ blG 0 0 r th 0 1 = 0 := by
  have hr0 : r ≠ 0 := by positivity
  have h2 : r - 2 ≠ 0 := by have : 0 < r - 2 := by linarith
                            exact this.ne'
  refine ⟨?_, ?_, ?_⟩
  · simp [blG, blMu, Rel.ratio_zero]
  · simp [blG, blMu, blDD, Rel.ratio_zero]
  · simp [blG]

/-- **C89** Around a non-rotating hole the completed vector is the future-directed unit four-velocity of radial infall,
and minus its conserved energy per mass, `u_t`, squares to `1 - 2/r + (u^r)^2`: the Bernoulli function is `(h u_t)^2`. -/
theorem bondi_velocity {th ur : ℝ} (hr : 2 < r) (hs : 0 < sin th) :
    let u := blVel r th 0 ur
    dot4 (blG 0 0 r th) u u = -1 ∧ 0 < u 0 ∧ u 1 = ur ∧ u 2 = 0 ∧ u 3 = 0 ∧
      (∑ ν, blG 0 0 r th 0 ν * u ν) < 0 ∧ (∑ ν, blG 0 0 r th 0 ν * u ν) ^ 2 = 1 - 2 / r + ur ^ 2 := by
  intro u
  obtain ⟨g0, g1, g01⟩ := bl_radial hr hs
  have hA : 0 < 1 - 2 / r := by rw [sub_pos, div_lt_one (by linarith)]; exact hr
  have hsq : √(1 - 2 / r + ur ^ 2) ^ 2 = 1 - 2 / r + ur ^ 2 := Real.sq_sqrt (by positivity)
  have hsp : 0 < √(1 - 2 / r + ur ^ 2) := Real.sqrt_pos.2 (by positivity)
  have hu0 : u 0 = √(1 - 2 / r + ur ^ 2) / (1 - 2 / r) := by
    show Torus.uconNorm ![0, ur, 0, 0] (blG 0 0 r th) = _
    have e : Torus.uconNorm ![0, ur, 0, 0] (blG 0 0 r th) =
        Torus.uconNorm ![√(1 - 2 / r + ur ^ 2) / (1 - 2 / r), ur, 0, 0] (blG 0 0 r th) := by
      simp [Torus.uconNorm]
    rw [e]
    refine Torus.uconNorm_unique _ (Torus.bl_symm r th 0) (by rw [g0]; linarith) _ ?_ ?_
    · rw [Torus.dot4_expand _ (Torus.bl_symm r th 0)]
      simp only [Matrix.cons_val, g0, g1, g01]
      generalize √(1 - 2 / r + ur ^ 2) = s at *
      generalize 1 - 2 / r = A at *
      field_simp
      linear_combination -hsq
    · simp only [Fin.sum_univ_four, Matrix.cons_val, g0, g01]
      have : 0 < √(1 - 2 / r + ur ^ 2) / (1 - 2 / r) := by positivity
      nlinarith
  have hue : u = ![√(1 - 2 / r + ur ^ 2) / (1 - 2 / r), ur, 0, 0] := by
    rw [← hu0]; rfl
  have hsum : ∑ ν, blG 0 0 r th 0 ν * u ν = -√(1 - 2 / r + ur ^ 2) := by
    rw [hue]; simp only [Fin.sum_univ_four, Matrix.cons_val, g0, g01]
    generalize √(1 - 2 / r + ur ^ 2) = s at *
    generalize 1 - 2 / r = A at *
    field_simp; ring
  refine ⟨?_, by rw [hu0]; positivity, rfl, rfl, rfl, by rw [hsum]; linarith, by rw [hsum, neg_sq, hsq]⟩
  rw [hue, Torus.dot4_expand _ (Torus.bl_symm r th 0)]
  simp only [Matrix.cons_val, g0, g1, g01]
  generalize √(1 - 2 / r + ur ^ 2) = s at *
  generalize 1 - 2 / r = A at *
  field_simp
  linear_combination -hsq

/-- **C89** Bernoulli and mass conservation of the stored state: where the temperature solves the solver's equation, the
specific energy `h u_t` and the mass flux `r^2 rho u^r` take the same values at all radii: the state is the steady flow. -/
theorem bondi_steady {n C1 C2 T th gam : ℝ} (hr : 2 < r) (hs : 0 < sin th) (hT : 0 < T)
    (hroot : Tfunc n C1 C2 r T = 0) :
    let u := blVel r th 0 (uconR n C1 r T)
    (enthalpy n T * ∑ ν, blG 0 0 r th 0 ν * u ν) ^ 2 = C2 ∧ r ^ 2 * (gasState n gam T).1 * u 1 = -C1 := by
  intro u
  obtain ⟨-, -, -, -, -, -, h⟩ := bondi_velocity (ur := uconR n C1 r T) hr hs
  refine ⟨?_, bondi_mass_flux gam (by linarith) hT⟩
  rw [mul_pow, h]
  rw [Tfunc_eq] at hroot
  linarith

/-- **C89** End to end: for a cell outside the horizon of a non-rotating hole the stored velocity primitives reproduce, in
the FMKS coordinates of the run, the image of the Boyer-Lindquist infall. -/
theorem bondi_code_velocity (p : Transform.MGR) (hp : p.Ok) (ss EPS : ℝ) (X : Fin 4 → ℝ)
    (hX : p.derefine = true → p.x0 ≤ X 1) (G : ADM ℝ) (hG : G.Valid) (hpd : Rel.PosDef G) (ha : 0 < G.alpha)
    (hg : G.g4 = (Transform.modified 0 EPS false (p.trafo 0 ss) (kerrSchild 0 0)).g X)
    (hr : 2 < p.r (X 1)) (hs : 0 < sin (Transform.moved (p.trafo 0 ss) X 2)) (ur : ℝ) :
    let r := p.r (X 1)
    let th := Transform.moved (p.trafo 0 ss) X 2
    let u := cellU p 0 ss 0 (Transform.space X) G.g4 r th ur
    u = p.blToFmks 0 ss (Transform.space X) 0 (blVel r th 0 ur) ∧ dot4 G.g4 u u = -1 ∧
      Rel.fourVelocity 0 G (primVel G.alpha G.beta u) = u := by
  intro r th u
  obtain ⟨hu, hu0, hu1, -, -, hE0, hE1⟩ := bondi_velocity (ur := ur) hr hs
  have hd : p.r (X 1) ^ 2 - 2 * p.r (X 1) + 0 ^ 2 ≠ 0 := by
    have : 0 < p.r (X 1) ^ 2 - 2 * p.r (X 1) + 0 ^ 2 := by nlinarith
    exact this.ne'
  have iso := fun v w => Transform.blToFmks_isometry (p := p) hp ss EPS 0 X hX hd v w
  have hn : dot4 G.g4 (p.blToFmks 0 ss (Transform.space X) 0 (blVel r th 0 ur))
      (p.blToFmks 0 ss (Transform.space X) 0 (blVel r th 0 ur)) = -1 := by
    rw [hg, iso]; exact hu
  have hE : ∑ ν, G.g4 0 ν * p.blToFmks 0 ss (Transform.space X) 0 (blVel r th 0 ur) ν ≤ 0 := by
    have h1 := iso ![1, 0, 0, 0] (blVel r th 0 ur)
    rw [Torus.blToFmks_time, Torus.dot4_time, Torus.dot4_time, ← hg] at h1
    rw [h1]
    exact hE0.le
  have hg0 : G.g4 0 0 ≠ 0 := by
    have h1 := iso ![1, 0, 0, 0] ![1, 0, 0, 0]
    rw [Torus.blToFmks_time, Torus.dot4_time, Torus.dot4_time, ← hg] at h1
    simp only [Fin.sum_univ_four, Matrix.cons_val, mul_one, mul_zero, add_zero] at h1
    rw [h1, (bl_radial hr hs).1]
    have : 0 < 1 - 2 / p.r (X 1) := by rw [sub_pos, div_lt_one (by linarith)]; exact hr
    linarith
  have hub : Function.update (![0, ur, 0, 0] : Fin 4 → ℝ) 0
      (Torus.uconNorm ![0, ur, 0, 0] (blG 0 0 r th)) = blVel r th 0 ur := by
    funext i; fin_cases i <;> simp [blVel]
  have key := Torus.uconNorm_unique G.g4 (Rel.g4_symm hG) hg0 _ hn hE
  have hue : u = p.blToFmks 0 ss (Transform.space X) 0 (blVel r th 0 ur) := by
    show cellU p 0 ss 0 (Transform.space X) G.g4 r th ur = _
    simp only [cellU]
    rw [hub, key, Function.update_eq_self]
  refine ⟨hue, by rw [hue]; exact hn, ?_⟩
  have hA : 0 < 1 - 2 / r := by rw [sub_pos, div_lt_one (by linarith)]; exact hr
  have ht : p.blToFmks 0 ss (Transform.space X) 0 (blVel r th 0 ur) 0 =
      blVel r th 0 ur 0 + 2 / r / (1 - 2 / r) * ur := by
    have hk : p.blToKs (X 1) 0 (blVel r th 0 ur) 0 = blVel r th 0 ur 0 + 2 / r / (1 - 2 / r) * ur := by
      have hc : 2 * r * (1 / (r * r - 2 * r + 0 * 0)) = 2 / r / (1 - 2 / r) := by
        have hr0 : r ≠ 0 := by show p.r (X 1) ≠ 0; positivity
        have h2 : 1 - 2 / r ≠ 0 := hA.ne'
        have e : r * r - 2 * r + 0 * 0 = r * r * (1 - 2 / r) := by field_simp; ring
        rw [e]; generalize 1 - 2 / r = A at *; field_simp
      simp only [Transform.MGR.blToKs, Fin.sum_univ_four, Matrix.cons_val]
      rw [show blVel r th 0 ur 1 = ur from rfl, show p.r (X 1) = r from rfl, hc]; ring
    unfold Transform.MGR.blToFmks
    rw [show Transform.space X 0 = X 1 from rfl]
    simp only [Fin.sum_univ_four]
    rw [hk]
    have e0 : Transform.s2st ((p.trafo 0 ss) (Transform.space X)).Jcon 0 0 = 1 := rfl
    have e1 : Transform.s2st ((p.trafo 0 ss) (Transform.space X)).Jcon 0 1 = 0 := rfl
    have e2 : Transform.s2st ((p.trafo 0 ss) (Transform.space X)).Jcon 0 2 = 0 := rfl
    have e3 : Transform.s2st ((p.trafo 0 ss) (Transform.space X)).Jcon 0 3 = 0 := rfl
    rw [e0, e1, e2, e3]; ring
  have hpos : 0 < u 0 := by
    rw [hue, ht]
    obtain ⟨g0, -, g01⟩ := bl_radial hr hs
    have hsum : ∑ ν, blG 0 0 r th 0 ν * blVel r th 0 ur ν = -(1 - 2 / r) * blVel r th 0 ur 0 := by
      simp only [Fin.sum_univ_four]
      rw [show blVel r th 0 ur 2 = 0 from rfl, show blVel r th 0 ur 3 = 0 from rfl]
      rw [show blG 0 0 r th 0 0 = -(1 - 2 / r) from g0, show blG 0 0 r th 0 1 = 0 from g01]; ring
    have h1 : (-(1 - 2 / r) * blVel r th 0 ur 0) ^ 2 = 1 - 2 / r + ur ^ 2 := by rw [← hsum]; exact hE1
    have h2 : 0 < blVel r th 0 ur 0 := hu0
    have hr0 : 0 < 2 / r := by have : 0 < r := by show 0 < p.r (X 1); linarith
                               positivity
    have h3 : (2 / r * ur) ^ 2 < ((1 - 2 / r) * blVel r th 0 ur 0) ^ 2 := by
      have e : ((1 - 2 / r) * blVel r th 0 ur 0) ^ 2 = 1 - 2 / r + ur ^ 2 := by rw [← h1]; ring
      rw [e]
      generalize 2 / r = w at *
      nlinarith [mul_nonneg (mul_nonneg hA.le (sq_nonneg ur)) (by linarith : 0 ≤ 1 + w)]
    have h4 := abs_lt_of_sq_lt_sq h3 (by positivity)
    have h5 := (abs_lt.1 h4).1
    have : blVel r th 0 ur 0 + 2 / r / (1 - 2 / r) * ur =
        ((1 - 2 / r) * blVel r th 0 ur 0 + 2 / r * ur) / (1 - 2 / r) := by
      generalize 2 / r = w at *
      field_simp
    rw [this]
    exact div_pos (by linarith) hA
  have hpv : primVel G.alpha G.beta u = Torus.primVel G.alpha G.beta u := by
    funext d; simp only [primVel, Torus.primVel]; field_simp
  rw [hpv]
  exact Torus.primVel_fourVelocity G hG hpd ha u (by rw [hue]; exact hn) hpos

/-- The shipped input (`rs = 8`, radii up to `e^5 < 160`) lies in the proved range. -/
example : Good 8 ∧ Ok (5 / 2) 8 ∧ (160 : ℝ) ≤ 20 * 8 ∧ Real.exp 5 < 160 := by
  refine ⟨⟨by norm_num, by norm_num⟩, ⟨by norm_num, by norm_num, by norm_num⟩, by norm_num, ?_⟩
  have h := Real.exp_one_lt_d9
  have : Real.exp 5 = Real.exp 1 ^ 5 := by rw [← Real.exp_nat_mul]; norm_num
  rw [this]
  calc Real.exp 1 ^ 5 < (2.7182818286 : ℝ) ^ 5 := pow_lt_pow_left₀ h (Real.exp_pos 1).le (by norm_num)
    _ < 160 := by norm_num

end Phoebus.Bondi
