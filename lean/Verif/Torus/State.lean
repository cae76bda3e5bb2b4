import Verif.Torus.Kepler

/-!
# C86: thermodynamic state, hydrostatic balance, velocity stored by the code
-/
namespace Phoebus.Torus
open Real Metrics Geom Finset

variable {r th a rin l : ℝ}

theorem gas_raw {hm1 kappa gam : ℝ} (hk : 0 < kappa) (hg : 1 < gam) (hh : 0 < hm1) :
    let rho := (hm1 * (gam - 1) / (kappa * gam)) ^ (1 / (gam - 1))
    0 < rho ∧ rho ^ gam = hm1 * (gam - 1) / (kappa * gam) * rho := by
  intro rho
  have hg1 : 0 < gam - 1 := by linarith
  have hy : 0 < hm1 * (gam - 1) / (kappa * gam) := by positivity
  have hr : 0 < rho := Real.rpow_pos_of_pos hy _
  refine ⟨hr, ?_⟩
  have h1 : rho ^ gam = rho ^ (gam - 1) * rho := by
    rw [← Real.rpow_add_one hr.ne']; congr 1; ring
  have h2 : rho ^ (gam - 1) = hm1 * (gam - 1) / (kappa * gam) := by
    show ((hm1 * (gam - 1) / (kappa * gam)) ^ (1 / (gam - 1))) ^ (gam - 1) = _
    rw [← Real.rpow_mul hy.le, one_div, inv_mul_cancel₀ hg1.ne', Real.rpow_one]
  rw [h1, h2]

/-- **C86** The gas state has the requested specific enthalpy `h = 1 + (u + P)/rho`, and lies on one adiabat
`P = K rho^gam` with the same `K` everywhere. -/
theorem gas_state {hm1 kappa gam R : ℝ} (hk : 0 < kappa) (hg : 1 < gam) (hh : 0 < hm1) (hR : 0 < R) :
    let q := gasState hm1 kappa gam R
    0 < q.1 ∧ 0 < q.2 ∧ 1 + (q.2 + (gam - 1) * q.2) / q.1 = 1 + hm1 ∧
      (gam - 1) * q.2 = kappa * R ^ (gam - 1) * q.1 ^ gam := by
  intro q
  obtain ⟨hr, hp⟩ := gas_raw hk hg hh
  have hg1 : 0 < gam - 1 := by linarith
  have hg0 : 0 < gam := by linarith
  have e1 : q.1 = (hm1 * (gam - 1) / (kappa * gam)) ^ (1 / (gam - 1)) / R := rfl
  have e2 : q.2 = kappa * ((hm1 * (gam - 1) / (kappa * gam)) ^ (1 / (gam - 1))) ^ gam / (gam - 1) / R := rfl
  rw [hp] at e2
  have e3 : q.1 ^ gam = ((hm1 * (gam - 1) / (kappa * gam)) ^ (1 / (gam - 1))) ^ gam / R ^ gam := by
    rw [e1, Real.div_rpow hr.le hR.le]
  rw [hp] at e3
  have e4 : R ^ gam = R ^ (gam - 1) * R := by
    rw [← Real.rpow_add_one hR.ne']; congr 1; ring
  have hR' : 0 < R ^ (gam - 1) := Real.rpow_pos_of_pos hR _
  rw [e4] at e3
  generalize (hm1 * (gam - 1) / (kappa * gam)) ^ (1 / (gam - 1)) = rho at *
  refine ⟨by rw [e1]; positivity, by rw [e2]; positivity, ?_, ?_⟩
  · rw [e1, e2]; field_simp; ring
  · rw [e3, e2]; field_simp

/-- **C86** The density is one at the pressure maximum. -/
theorem density_normalised {rmax kappa gam : ℝ} (hk : 0 < kappa) (hg : 1 < gam)
    (hh : 0 < lnh rmax (π / 2) a rin (lfish rmax a)) :
    (gasState (exp (lnh rmax (π / 2) a rin (lfish rmax a)) - 1) kappa gam (rhoRmax a rin rmax kappa gam)).1 = 1 := by
  have h1 : 0 < exp (lnh rmax (π / 2) a rin (lfish rmax a)) - 1 := by
    have := Real.add_one_lt_exp hh.ne'; linarith
  obtain ⟨hr, -⟩ := gas_raw hk hg h1
  have e : (0.5 : ℝ) * π = π / 2 := by norm_num; ring
  simp only [rhoRmax, gasState, logEnthalpy, e, div_one]
  exact div_self hr.ne'

/-- pressure of the ideal gas as a function of the log enthalpy. -/
theorem pressure_deriv {kappa gam R H H' x : ℝ} {f : ℝ → ℝ} (hk : 0 < kappa) (hg : 1 < gam) (hR : 0 < R)
    (hf : HasDerivAt f H' x) (hx : f x = H) (hH : 0 < H) :
    let q := gasState (exp H - 1) kappa gam R
    HasDerivAt (fun y => (gam - 1) * (gasState (exp (f y) - 1) kappa gam R).2)
      ((q.1 + q.2 + (gam - 1) * q.2) * H') x := by
  intro q
  have hg1 : 0 < gam - 1 := by linarith
  have hg0 : 0 < gam := by linarith
  have hh : 0 < exp H - 1 := by have := Real.add_one_lt_exp hH.ne'; linarith
  have hy : 0 < (exp H - 1) * (gam - 1) / (kappa * gam) := by positivity
  obtain ⟨hr, hp⟩ := gas_raw hk hg hh
  have hs := gas_state hk hg hh hR
  obtain ⟨q1, q2, q3, -⟩ := hs
  have hq : q.1 + q.2 + (gam - 1) * q.2 = q.1 * exp H := by
    have q3' : 1 + (q.2 + (gam - 1) * q.2) / q.1 = 1 + (exp H - 1) := q3
    have q1' : 0 < q.1 := q1
    field_simp at q3'
    linear_combination q3'
  have hin : HasDerivAt (fun y => (exp (f y) - 1) * (gam - 1) / (kappa * gam))
      (exp H * H' * (gam - 1) / (kappa * gam)) x := by
    have := ((hf.exp.sub_const 1).mul_const (gam - 1)).div_const (kappa * gam)
    rwa [hx] at this
  have h1 := hin.rpow_const (p := 1 / (gam - 1)) (Or.inl (by simp only [hx]; exact hy.ne'))
  have h2 := h1.rpow_const (p := gam) (Or.inl (by simp only [hx]; exact hr.ne'))
  have h3 := (((h2.const_mul kappa).div_const (gam - 1)).div_const R).const_mul (gam - 1)
  refine h3.congr_deriv ?_
  rw [hq, hx]
  have e1 : q.1 = ((exp H - 1) * (gam - 1) / (kappa * gam)) ^ (1 / (gam - 1)) / R := rfl
  rw [e1]
  have e2 : ((exp H - 1) * (gam - 1) / (kappa * gam)) ^ (1 / (gam - 1) - 1) =
      ((exp H - 1) * (gam - 1) / (kappa * gam)) ^ (1 / (gam - 1)) / ((exp H - 1) * (gam - 1) / (kappa * gam)) :=
    Real.rpow_sub_one hy.ne' _
  have e3 : (((exp H - 1) * (gam - 1) / (kappa * gam)) ^ (1 / (gam - 1))) ^ (gam - 1) =
      (exp H - 1) * (gam - 1) / (kappa * gam) := by
    rw [← Real.rpow_mul hy.le, one_div, inv_mul_cancel₀ hg1.ne', Real.rpow_one]
  rw [e2, e3]
  generalize ((exp H - 1) * (gam - 1) / (kappa * gam)) ^ (1 / (gam - 1)) = rho at *
  field_simp

/-- **C86** Hydrostatic balance in radius: inside the torus `d_r P = (rho + u + P) (1/2) u^mu u^nu d_r g_{mu nu}`. -/
theorem hydrostatic_r {kappa gam R : ℝ} (hk : 0 < kappa) (hg : 1 < gam) (hR : 0 < R) (h : Outside r th a)
    (hin : Outside rin (π / 2) a) (hl : 0 ≤ l) (hal : 0 ≤ a ∨ 2 * r < SS r th a) (h0 : SS r th a ≠ 2 * r)
    (hpos : 0 < lnh r th a rin l) (dg : Fin 4 → Fin 4 → ℝ)
    (hd : ∀ μ ν, HasDerivAt (fun y => blG 0 a y th μ ν) (dg μ ν) r) :
    let q := gasState (exp (lnh r th a rin l) - 1) kappa gam R
    HasDerivAt (fun y => (gam - 1) * (gasState (exp (lnh y th a rin l) - 1) kappa gam R).2)
      ((q.1 + q.2 + (gam - 1) * q.2) * (1 / 2 * ∑ μ, ∑ ν, dg μ ν * blVel r th a l μ * blVel r th a l ν)) r :=
  pressure_deriv hk hg hR (torus_euler_r h hin hl hal h0 dg hd) rfl hpos

/-- **C86** Hydrostatic balance in the polar direction. -/
theorem hydrostatic_th {kappa gam R : ℝ} (hk : 0 < kappa) (hg : 1 < gam) (hR : 0 < R) (h : Outside r th a)
    (hin : Outside rin (π / 2) a) (hl : 0 ≤ l) (hal : 0 ≤ a ∨ 2 * r < SS r th a) (h0 : SS r th a ≠ 2 * r)
    (hpos : 0 < lnh r th a rin l) (dg : Fin 4 → Fin 4 → ℝ)
    (hd : ∀ μ ν, HasDerivAt (fun y => blG 0 a r y μ ν) (dg μ ν) th) :
    let q := gasState (exp (lnh r th a rin l) - 1) kappa gam R
    HasDerivAt (fun y => (gam - 1) * (gasState (exp (lnh r y a rin l) - 1) kappa gam R).2)
      ((q.1 + q.2 + (gam - 1) * q.2) * (1 / 2 * ∑ μ, ∑ ν, dg μ ν * blVel r th a l μ * blVel r th a l ν)) th :=
  pressure_deriv hk hg hR (torus_euler_th h hin hl hal h0 dg hd) rfl hpos

/-- **C86** The stored three-velocity reproduces the four-velocity it was computed from. -/
theorem primVel_fourVelocity (G : ADM ℝ) (hG : G.Valid) (hp : Rel.PosDef G) (ha : 0 < G.alpha) (u : Fin 4 → ℝ)
    (hu : dot4 G.g4 u u = -1) (hu0 : 0 < u 0) :
    Rel.fourVelocity 0 G (primVel G.alpha G.beta u) = u := by
  have hv : primVel G.alpha G.beta u = fun d => u d.succ + u 0 * G.beta d := by
    funext d; simp only [primVel]; field_simp
  have hW : Rel.lorentz G.gam (primVel G.alpha G.beta u) = G.alpha * u 0 := by
    have h1 := Rel.lorentz_sq G hp (primVel G.alpha G.beta u)
    have h2 := Rel.lorentz_pos G hp (primVel G.alpha G.beta u)
    have h3 : u = Fin.cons (u 0) (fun d => u d.succ + u 0 * G.beta d - u 0 * G.beta d) := by
      funext i; refine Fin.cases rfl (fun d => ?_) i; simp
    have h4 := ADM.dot4_split hG (u 0) (u 0) (fun d => u d.succ + u 0 * G.beta d) (fun d => u d.succ + u 0 * G.beta d)
    rw [← h3, hu] at h4
    refine (sq_eq_sq₀ h2.le (by positivity)).1 ?_
    rw [h1, hv]
    linear_combination -h4
  funext i
  refine Fin.cases ?_ (fun d => ?_) i
  · simp only [Rel.fourVelocity, Fin.cons_zero, Rel.ratio_zero]
    rw [hW, abs_of_pos ha]; field_simp
  · simp only [Rel.fourVelocity, Fin.cons_succ, Rel.ratio_zero]
    rw [hW, abs_of_pos ha, hv]; field_simp; ring

/-- `bl_to_fmks` leaves the time direction alone. -/
theorem blToFmks_time (p : Transform.MGR) (ss : ℝ) (X : Fin 3 → ℝ) :
    p.blToFmks 0 ss X a ![1, 0, 0, 0] = ![1, 0, 0, 0] := by
  funext i
  have hk : p.blToKs (X 0) a ![1, 0, 0, 0] = ![1, 0, 0, 0] := by
    funext j
    fin_cases j <;> simp [Transform.MGR.blToKs, Fin.sum_univ_four]
  unfold Transform.MGR.blToFmks
  rw [hk]
  fin_cases i <;> simp [Transform.s2st, Fin.sum_univ_four, Transform.MGR.trafo] <;> rfl

theorem dot4_time (g : Fin 4 → Fin 4 → ℝ) (u : Fin 4 → ℝ) : dot4 g ![1, 0, 0, 0] u = ∑ ν, g 0 ν * u ν := by
  simp [dot4, Fin.sum_univ_four]

theorem blToFmks_u0 (p : Transform.MGR) (ss : ℝ) (X : Fin 3 → ℝ) (t ph : ℝ) :
    p.blToFmks 0 ss X a ![t, 0, 0, ph] 0 = t := by
  have hk : p.blToKs (X 0) a ![t, 0, 0, ph] = ![t, 0, 0, ph] := by
    funext j
    fin_cases j <;> simp [Transform.MGR.blToKs, Fin.sum_univ_four]
  unfold Transform.MGR.blToFmks
  rw [hk]
  simp [Transform.s2st, Fin.sum_univ_four]
  exact Or.inl rfl

/-- **C86** End to end: in the FMKS coordinates of the run, the velocity primitives stored for a sample reproduce the
image of the Boyer-Lindquist equilibrium flow. -/
theorem torus_code_velocity (p : Transform.MGR) (hp : p.Ok) (ss EPS : ℝ) (X : Fin 4 → ℝ)
    (hX : p.derefine = true → p.x0 ≤ X 1) (G : ADM ℝ) (hG : G.Valid) (hpd : Rel.PosDef G) (ha : 0 < G.alpha)
    (hg : G.g4 = (Transform.modified 0 EPS false (p.trafo 0 ss) (kerrSchild 0 a)).g X)
    (h : Outside (p.r (X 1)) (Transform.moved (p.trafo 0 ss) X 2) a) (hl : 0 ≤ l)
    (hal : 0 ≤ a ∨ 2 * p.r (X 1) < SS (p.r (X 1)) (Transform.moved (p.trafo 0 ss) X 2) a)
    (h0 : SS (p.r (X 1)) (Transform.moved (p.trafo 0 ss) X 2) a ≠ 2 * p.r (X 1)) (hg0 : G.g4 0 0 ≠ 0) :
    let r := p.r (X 1)
    let th := Transform.moved (p.trafo 0 ss) X 2
    let u := sampleU p 0 ss a (Transform.space X) G.g4 r th (uphiRaw r th a l)
    u = p.blToFmks 0 ss (Transform.space X) a (blVel r th a l) ∧ dot4 G.g4 u u = -1 ∧
      Rel.fourVelocity 0 G (primVel G.alpha G.beta u) = u := by
  intro r th u
  obtain ⟨hu, hu0, -, -, -⟩ := torus_velocity h hl hal h0
  have hd : p.r (X 1) ^ 2 - 2 * p.r (X 1) + a ^ 2 ≠ 0 := h.d.ne'
  have iso := fun v w => Transform.blToFmks_isometry (p := p) hp ss EPS a X hX hd v w
  have hn : dot4 G.g4 (p.blToFmks 0 ss (Transform.space X) a (blVel r th a l))
      (p.blToFmks 0 ss (Transform.space X) a (blVel r th a l)) = -1 := by
    rw [hg, iso]; exact hu
  have hE : ∑ ν, G.g4 0 ν * p.blToFmks 0 ss (Transform.space X) a (blVel r th a l) ν ≤ 0 := by
    have h1 := iso ![1, 0, 0, 0] (blVel r th a l)
    rw [blToFmks_time, dot4_time, dot4_time, ← hg] at h1
    rw [h1]
    exact bl_energy h hl hal h0
  have hub : Function.update (![0, 0, 0, uphiRaw r th a l] : Fin 4 → ℝ) 0
      (uconNorm ![0, 0, 0, uphiRaw r th a l] (blG 0 a r th)) = blVel r th a l := by
    funext i; fin_cases i <;> simp [blVel]
  have key := uconNorm_unique G.g4 (Rel.g4_symm hG) hg0 _ hn hE
  have hue : u = p.blToFmks 0 ss (Transform.space X) a (blVel r th a l) := by
    show sampleU p 0 ss a (Transform.space X) G.g4 r th (uphiRaw r th a l) = _
    simp only [sampleU]
    rw [hub, key, Function.update_eq_self]
  refine ⟨hue, by rw [hue]; exact hn, ?_⟩
  rw [hue]
  refine primVel_fourVelocity G hG hpd ha _ hn ?_
  rw [show blVel r th a l = ![blVel r th a l 0, 0, 0, uphiRaw r th a l] from rfl, blToFmks_u0]
  exact hu0

/-! ### Concrete torus -/

/-- The default torus (`rin = 6`, `rmax = 12`) around a non-rotating hole meets the hypotheses. -/
theorem ex_orbit : Orbit 12 0 ∧ Outside 6 (π / 2) 0 ∧ SS 12 (π / 2) 0 ≠ 2 * 12 := by
  refine ⟨⟨by norm_num, by norm_num, by norm_num, by norm_num⟩, ⟨by norm_num, by norm_num, by simp⟩, ?_⟩
  simp [SS]

/-- spinning hole, `a = 1/2`. -/
theorem ex_orbit_spin : Orbit 12 (1 / 2) ∧ Outside 6 (π / 2) (1 / 2) ∧ 2 * 12 < SS 12 (π / 2) (1 / 2) := by
  refine ⟨⟨by norm_num, by rw [abs_of_pos] <;> norm_num, by norm_num, ?_⟩, ⟨by norm_num, by norm_num, by simp⟩, ?_⟩
  · have : 0 ≤ √(12 : ℝ) := Real.sqrt_nonneg _
    nlinarith
  · simp [SS]; norm_num

end Phoebus.Torus
