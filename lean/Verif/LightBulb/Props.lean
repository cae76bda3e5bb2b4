import Verif.LightBulb.Model
import Verif.Tetrads.Props
import Mathlib.Analysis.SpecialFunctions.Pow.Continuity

import Mathlib.Analysis.Calculus.Deriv.MeanValue
import Mathlib.Analysis.Calculus.Deriv.Pow

/-!
# C52: the light bulb and the cooling function
-/
namespace Phoebus.LightBulb
open Finset Geom
open Rel (PosDef fourVelocity four_velocity_unit exG exG_valid)

/-! ### optical depth -/

/-- the exponent of the fit as a function of `log10 rho`. -/
noncomputable def expo (l : ℝ) : ℝ :=
  if l < 8.8 then 44 / 9 * (l - 8.35) - 4 else if 14.15 < l then 20 / 7 * (l - 14.15) + 2.4 else 84 / 107 * (l - 8.8) - 1.8

theorem tau_expo (rho : ℝ) : tau rho = (10 : ℝ) ^ expo (Real.logb 10 rho) := by
  simp only [tau, expo, xl1, xl2, xl3, xl4, yl1, yl2, yl3, yl4, gt_iff_lt]
  split_ifs <;> norm_num <;> rfl

theorem expo_strictMono : StrictMono expo := by
  intro a b hab
  simp only [expo]
  split_ifs <;> norm_num at * <;> linarith

theorem expo_continuous : Continuous expo := by
  have e : expo = fun l => if l ≤ 8.8 then 44 / 9 * (l - 8.35) - 4 else (if l ≤ 14.15 then 84 / 107 * (l - 8.8) - 1.8 else 20 / 7 * (l - 14.15) + 2.4) := by
    funext l; simp only [expo]
    split_ifs <;> first | rfl | (exfalso; linarith) | skip
    all_goals
      have : l = 8.8 := by linarith
      subst this; norm_num at *
  rw [e]
  refine Continuous.if_le (by fun_prop) (Continuous.if_le (by fun_prop) (by fun_prop) continuous_id continuous_const ?_) continuous_id continuous_const ?_
  · intro x hx; subst hx; norm_num
  · intro x hx; subst hx; norm_num

/-- **C52** The optical depth is positive, continuous and strictly increasing in the density. -/
theorem tau_mono : (∀ rho, 0 < tau rho) ∧ StrictMonoOn tau (Set.Ioi 0) ∧ ContinuousOn tau (Set.Ioi 0) := by
  refine ⟨fun rho => ?_, ?_, ?_⟩
  · rw [tau_expo]; positivity
  · intro a ha b hb hab
    simp only [Set.mem_Ioi] at ha hb
    rw [tau_expo, tau_expo]
    apply Real.rpow_lt_rpow_of_exponent_lt (by norm_num)
    exact expo_strictMono (Real.logb_lt_logb (by norm_num) ha hab)
  · have : tau = fun rho => (10 : ℝ) ^ expo (Real.logb 10 rho) := funext tau_expo
    rw [this]
    apply ContinuousOn.rpow continuousOn_const
    · apply expo_continuous.comp_continuousOn
      unfold Real.logb
      exact (Real.continuousOn_log.mono (fun x hx => by simp only [Set.mem_Ioi] at hx; simp [hx.ne'])).div_const _
    · intro x _; left; norm_num

/-- the optical depth exceeds 100 exactly above `log10 rho = 8.8 + 107 * 3.8 / 84` (about 13.64). -/
theorem tau_gt_hundred (rho : ℝ) : tau rho > 100 ↔ Real.logb 10 rho > 8.8 + 107 * 3.8 / 84 := by
  rw [tau_expo]
  have h : (100 : ℝ) = (10 : ℝ) ^ expo (8.8 + 107 * 3.8 / 84) := by
    have : expo (8.8 + 107 * 3.8 / 84) = 2 := by
      unfold expo; norm_num
    rw [this]; norm_num
  rw [h, gt_iff_lt, Real.rpow_lt_rpow_left_iff (by norm_num), expo_strictMono.lt_iff_lt]

/-! ### gain -/

theorem count_ne (taus : List ℝ) (n : ℕ) :
    taus.foldl (fun n t => n + if t > 100 then 1 else 0) n = 0 ↔ n = 0 ∧ ∀ t ∈ taus, ¬ t > 100 := by
  induction taus generalizing n with
  | nil => simp
  | cons t l ih =>
    rw [List.foldl_cons, ih]
    by_cases h : t > 100
    · simp [h]
    · simp [h]
      intro _ _
      exact not_lt.1 h

theorem checkDoGain_iff (taus : List ℝ) (g : Bool) : checkDoGain taus g = true ↔ g = true ∨ ∃ t ∈ taus, t > 100 := by
  cases g
  · have h := count_ne taus 0
    simp only [true_and] at h
    simp only [checkDoGain, Bool.false_eq_true, if_false, false_or]
    generalize taus.foldl (fun n t => n + if t > 100 then 1 else 0) 0 = n at *
    by_cases hz : n = 0
    · have := h.1 hz
      subst hz
      simpa using this
    · have : ¬ ∀ t ∈ taus, ¬ t > 100 := fun hh => hz (h.2 hh)
      push Not at this
      simpa [hz] using this
  · simp [checkDoGain]

/-- **C52** Gain is on after a history exactly if it was on at the start or some cell of some step had optical depth above 100;
in particular once on it stays on. -/
theorem gain_latch (steps : List (List ℝ)) (g : Bool) :
    gainHistory steps g = true ↔ g = true ∨ ∃ taus ∈ steps, ∃ t ∈ taus, t > 100 := by
  induction steps generalizing g with
  | nil => simp [gainHistory]
  | cons s l ih =>
    have : gainHistory (s :: l) g = gainHistory l (checkDoGain s g) := rfl
    rw [this, ih, checkDoGain_iff]
    simp [or_assoc]

/-- **C52** once on it stays on. -/
theorem gain_stays (s t : List (List ℝ)) (g : Bool) (h : gainHistory s g = true) : gainHistory (s ++ t) g = true := by
  rw [gain_latch] at h ⊢
  rcases h with h | ⟨x, hx, h⟩
  · exact Or.inl h
  · exact Or.inr ⟨x, List.mem_append_left _ hx, h⟩

/-! ### electron fraction -/

/-- **C52** For every density and electron fraction the update lowers `Ye` by at most five per cent, never raises it, never
carries it below the fit (or below itself), and does nothing outside the range of the fit or below 0.27. -/
theorem dYe_bounds (rho Ye : ℝ) (hr : 0 < rho) (hY : 0 ≤ Ye) :
    -0.05 * Ye ≤ dYe rho Ye ∧ dYe rho Ye ≤ 0 ∧
    min Ye (yeFit (Real.logb 10 rho)) ≤ Ye + dYe rho Ye ∧
    (¬ (8 ≤ Real.logb 10 rho ∧ Real.logb 10 rho ≤ 13) → dYe rho Ye = 0) ∧ (Ye < 0.27 → dYe rho Ye = 0) := by
  have hrho : 8 ≤ Real.logb 10 rho → rho < 3.0e8 → 0 ≤ (rho - 1.0e8) / 2.0e8 ∧ (rho - 1.0e8) / 2.0e8 ≤ 1 := by
    intro h8 h3
    have hlb : (1.0e8 : ℝ) ≤ rho := by
      rw [Real.le_logb_iff_rpow_le (by norm_num) hr] at h8
      refine le_trans (le_of_eq ?_) h8
      norm_num
    exact ⟨by apply div_nonneg <;> [linarith; norm_num], by rw [div_le_one (by norm_num)]; linarith⟩
  have hd : -0.05 * Ye ≤ max (-0.05 * Ye) (min 0.0 (yeFit (Real.logb 10 rho) - Ye)) ∧
      max (-0.05 * Ye) (min 0.0 (yeFit (Real.logb 10 rho) - Ye)) ≤ 0 ∧
      min Ye (yeFit (Real.logb 10 rho)) ≤ Ye + max (-0.05 * Ye) (min 0.0 (yeFit (Real.logb 10 rho) - Ye)) := by
    refine ⟨le_max_left _ _, max_le (by linarith) ((min_le_left _ _).trans (by norm_num)), ?_⟩
    have h1 : min 0.0 (yeFit (Real.logb 10 rho) - Ye) ≤ max (-0.05 * Ye) (min 0.0 (yeFit (Real.logb 10 rho) - Ye)) := le_max_right _ _
    have h2 : min Ye (yeFit (Real.logb 10 rho)) = Ye + min 0.0 (yeFit (Real.logb 10 rho) - Ye) := by
      rw [← min_add_add_left]; norm_num
    linarith
  generalize hD : max (-0.05 * Ye) (min 0.0 (yeFit (Real.logb 10 rho) - Ye)) = D at hd
  obtain ⟨d1, d2, d3⟩ := hd
  have hmin : min Ye (yeFit (Real.logb 10 rho)) ≤ Ye := min_le_left _ _
  simp only [dYe, hD]
  refine ⟨?_, ?_, ?_, ?_, ?_⟩
  · split_ifs with a b c
    · linarith
    · obtain ⟨s0, s1⟩ := hrho a.1 c
      rw [mul_div_assoc]; nlinarith
    · exact d1
    · linarith
  · split_ifs with a b c
    · exact le_rfl
    · obtain ⟨s0, s1⟩ := hrho a.1 c
      rw [mul_div_assoc]; nlinarith
    · exact d2
    · exact le_rfl
  · split_ifs with a b c
    · linarith
    · obtain ⟨s0, s1⟩ := hrho a.1 c
      rw [mul_div_assoc]; nlinarith
    · exact d3
    · linarith
  · intro h; rw [if_neg h]
  · intro h; simp [h]

/-- in the range of the fit, at high density and electron fraction, the update is the clipped difference to the fit. -/
theorem dYe_fit (rho Ye : ℝ) (h8 : 8 ≤ Real.logb 10 rho) (h13 : Real.logb 10 rho ≤ 13) (h3 : 3.0e8 ≤ rho) (hY : 0.27 ≤ Ye)
    (hlo : 0.95 * Ye ≤ yeFit (Real.logb 10 rho)) (hhi : yeFit (Real.logb 10 rho) ≤ Ye) :
    Ye + dYe rho Ye = yeFit (Real.logb 10 rho) := by
  simp only [dYe]
  rw [if_pos ⟨h8, h13⟩, if_neg (not_lt.2 hY), if_neg (not_lt.2 h3), min_eq_right (by linarith), max_eq_right (by linarith)]
  ring

/-- one light-bulb update of the conserved lepton number `D Ye` (cooling_function.cpp:248 and 287, radiation.cpp:579) changes
the electron fraction by exactly the increment, whatever the step. -/
theorem ye_update (rho Ye dt D : ℝ) (hdt : dt ≠ 0) (hD : D ≠ 0) (Gcov : Fin 4 → ℝ) (c : Cell) (hc : c.ye = D * Ye) :
    (applyForce dt Gcov (jYe true rho Ye dt D) c).ye / D = Ye + dYe rho Ye ∧
    (applyForce dt Gcov (jYe false rho Ye dt D) c).ye / D = Ye := by
  constructor
  · simp only [applyForce, jYe, hc, if_true]; field_simp
  · simp only [applyForce, jYe, hc, Bool.false_eq_true, if_false]; field_simp; ring

/-- **C52** Through any history of densities the electron fraction never rises and never falls below the smaller of its starting
value and 0.2565. -/
theorem ye_history (rhos : List ℝ) (hr : ∀ r ∈ rhos, 0 < r) (Ye : ℝ) (hY : 0 ≤ Ye) :
    rhos.foldl (fun y r => y + dYe r y) Ye ≤ Ye ∧ min Ye 0.2565 ≤ rhos.foldl (fun y r => y + dYe r y) Ye := by
  induction rhos generalizing Ye with
  | nil => simp
  | cons r l ih =>
    have hr0 := hr r (by simp)
    obtain ⟨b1, b2, -, -, b5⟩ := dYe_bounds r Ye hr0 hY
    have hY' : 0 ≤ Ye + dYe r Ye := by linarith
    obtain ⟨i1, i2⟩ := ih (fun x hx => hr x (by simp [hx])) _ hY'
    rw [List.foldl_cons]
    refine ⟨by linarith, le_trans ?_ i2⟩
    by_cases h : Ye < 0.27
    · rw [b5 h, add_zero]
    · push Not at h
      refine le_min ?_ (min_le_right _ _)
      refine (min_le_right _ _).trans ?_
      norm_num at *; linarith

/-! ### energy and momentum -/

/-- **C52** Heating and cooling are nonnegative, and there is no heating before gain has switched on. -/
theorem heat_cool (g : Bool) (X lum t r T : ℝ) (hX : 0 ≤ X) (hl : 0 ≤ lum) :
    0 ≤ heat g X lum t r ∧ 0 ≤ cool X t T ∧ heat false X lum t r = 0 := by
  refine ⟨?_, ?_, by simp [heat]⟩
  · unfold heat; cases g <;> simp <;> positivity
  · unfold cool; positivity

theorem tetrad_force (eps : ℝ) {G : ADM ℝ} (h : G.Valid) (hp : PosDef G) (v : Fin 3 → ℝ) (J : ℝ) (mu : Fin 4) :
    Tetrads.tetradToCoordCov (Tetrads.ecov G.g4 (Tetrads.econ eps G.g4 (fourVelocity 0 G v) Tetrads.defaultTrial)) ![J, 0, 0, 0] mu =
      -J * GeomUtils.lower G.g4 (fourVelocity 0 G v) mu := by
  have hu := four_velocity_unit G v h hp
  have h1 := (Tetrads.tetrad_orthonormal_partial eps h hp (fourVelocity 0 G v) (by rw [hu]; norm_num)).2 hu
  simp [Tetrads.tetradToCoordCov, Fin.sum_univ_four, Tetrads.ecov, h1, mul_comm]

theorem lower_contract (g : Fin 4 → Fin 4 → ℝ) (u : Fin 4 → ℝ) : ∑ mu, GeomUtils.lower g u mu * u mu = dot4 g u u := by
  simp only [GeomUtils.lower, dot4, Fin.sum_univ_four]; ring

/-- **C52** The light-bulb force is along the four-velocity, `G_mu = D (H - C) u_mu`: in the fluid frame pure heating `D (H - C)`
and no momentum. -/
theorem bulb_force (eps : ℝ) {G : ADM ℝ} (h : G.Valid) (hp : PosDef G) (v : Fin 3 → ℝ) (D H C : ℝ) :
    (∀ mu, bulbForce eps G (fourVelocity 0 G v) D H C mu = D * (H - C) * GeomUtils.lower G.g4 (fourVelocity 0 G v) mu) ∧
    ∑ mu, bulbForce eps G (fourVelocity 0 G v) D H C mu * fourVelocity 0 G v mu = -(D * (H - C)) := by
  have e : ∀ mu, bulbForce eps G (fourVelocity 0 G v) D H C mu = D * (H - C) * GeomUtils.lower G.g4 (fourVelocity 0 G v) mu := by
    intro mu; simp only [bulbForce, tetrad_force eps h hp]; ring
  refine ⟨e, ?_⟩
  simp only [e, mul_assoc]
  rw [← Finset.mul_sum, ← Finset.mul_sum, lower_contract, four_velocity_unit G v h hp]; ring

/-- **C52** The force of each species is emission in the fluid frame: it removes `detG J` and lepton number `detG * Jye` with the
lepton sign of the species. -/
theorem species_force (eps : ℝ) {G : ADM ℝ} (h : G.Valid) (hp : PosDef G) (v : Fin 3 → ℝ) (detG J Jye : ℝ) (s : ℤ) :
    (∀ mu, (speciesForce eps G (fourVelocity 0 G v) detG J Jye s).1 mu = -(detG * J) * GeomUtils.lower G.g4 (fourVelocity 0 G v) mu) ∧
    ∑ mu, (speciesForce eps G (fourVelocity 0 G v) detG J Jye s).1 mu * fourVelocity 0 G v mu = detG * J ∧
    (speciesForce eps G (fourVelocity 0 G v) detG J Jye s).2 = -(leptonSign s) * detG * Jye := by
  have e : ∀ mu, (speciesForce eps G (fourVelocity 0 G v) detG J Jye s).1 mu = -(detG * J) * GeomUtils.lower G.g4 (fourVelocity 0 G v) mu := by
    intro mu; simp only [speciesForce, tetrad_force eps h hp]; ring
  refine ⟨e, ?_, rfl⟩
  simp only [e, mul_assoc]
  rw [← Finset.mul_sum, lower_contract, four_velocity_unit G v h hp]; ring

/-- the lepton number of electron neutrinos, electron antineutrinos and heavy neutrinos. -/
theorem lepton_sign : leptonSign 0 = 1 ∧ leptonSign 1 = -1 ∧ leptonSign 2 = 0 := by decide

theorem cooling_fold (eps : ℝ) (G : ADM ℝ) (u : Fin 4 → ℝ) (detG : ℝ) (sp : List (ℤ × ℝ × ℝ)) (acc : (Fin 4 → ℝ) × ℝ) :
    sp.foldl (fun (acc : (Fin 4 → ℝ) × ℝ) x =>
      let d := speciesForce eps G u detG x.2.1 x.2.2 x.1
      (fun mu => acc.1 mu + d.1 mu, acc.2 + d.2)) acc =
    (fun mu => acc.1 mu + (sp.map fun x => (speciesForce eps G u detG x.2.1 x.2.2 x.1).1 mu).sum,
      acc.2 + (sp.map fun x => (speciesForce eps G u detG x.2.1 x.2.2 x.1).2).sum) := by
  induction sp generalizing acc with
  | nil => simp
  | cons x l ih => rw [List.foldl_cons, ih]; simp [add_assoc]

/-- **C52** The total over any list of species: energy loss in the fluid frame is the sum of the emissivities, and the electron
fraction source is minus the net lepton emission; the order of the species does not matter. -/
theorem cooling_total (eps : ℝ) {G : ADM ℝ} (h : G.Valid) (hp : PosDef G) (v : Fin 3 → ℝ) (detG : ℝ) (sp : List (ℤ × ℝ × ℝ)) :
    (∀ mu, (coolingForce eps G (fourVelocity 0 G v) detG sp).1 mu =
      -(detG * (sp.map fun x => x.2.1).sum) * GeomUtils.lower G.g4 (fourVelocity 0 G v) mu) ∧
    (coolingForce eps G (fourVelocity 0 G v) detG sp).2 = -detG * (sp.map fun x => (leptonSign x.1 : ℝ) * x.2.2).sum := by
  unfold coolingForce
  rw [cooling_fold]
  simp only [zero_add, (species_force eps h hp v detG _ _ _).1, (species_force eps h hp v detG _ _ _).2.2]
  constructor
  · intro mu
    induction sp with
    | nil => simp
    | cons x l ih => simp only [List.map_cons, List.sum_cons, ih]; ring
  · induction sp with
    | nil => simp
    | cons x l ih => simp only [List.map_cons, List.sum_cons, ih]; ring

/-- **C52** In Minkowski space a fluid at rest gains exactly `dt D (H - C)` of energy, and no momentum. -/
theorem bulb_at_rest (eps dt D H C Gye : ℝ) (G : ADM ℝ) (h : G.Valid) (hp : PosDef G) (ha : G.alpha = 1) (hb : G.beta = 0) (c : Cell) :
    (applyForce dt (bulbForce eps G (fourVelocity 0 G 0) D H C) Gye c).energy = c.energy + dt * (D * (H - C)) ∧
    (applyForce dt (bulbForce eps G (fourVelocity 0 G 0) D H C) Gye c).momentum = c.momentum := by
  have hu : fourVelocity 0 G 0 = Fin.cons 1 fun _ => 0 := by
    simp only [fourVelocity, Rel.lorentz, Rel.ratio_zero, ha, hb]
    congr 1
    · simp
    · funext i; simp
  have hl : GeomUtils.lower G.g4 (fourVelocity 0 G 0) = Fin.cons (-1) fun _ => 0 := by
    funext mu
    rw [hu]
    refine Fin.cases ?_ (fun i => ?_) mu
    · simp [GeomUtils.lower, Fin.sum_univ_succ, ADM.dot3, hb, ha]
    · simp [GeomUtils.lower, Fin.sum_univ_succ, ADM.betaCov, hb]
  simp only [applyForce, (bulb_force eps h hp 0 D H C).1, hl]
  constructor
  · simp; ring
  · funext i; simp

/-! ### the fit itself -/

/-- derivative of the fit polynomial. -/
noncomputable def yeFitDeriv (x : ℝ) : ℝ :=
  -1.279083733386e+02 + 2 * 3.199984467460e+01 * x + 3 * -4.238440349145e+00 * x ^ 2 + 4 * 3.133904196302e-01 * x ^ 3 +
    5 * -1.226365543366e-02 * x ^ 4 + 6 * 1.983947360151e-04 * x ^ 5

theorem yeFit_hasDeriv (x : ℝ) : HasDerivAt yeFit (yeFitDeriv x) x := by
  have hp : ∀ n : ℕ, HasDerivAt (fun y : ℝ => y ^ (n + 1)) ((n + 1 : ℕ) * x ^ n) x := fun n => by
    simpa using hasDerivAt_pow (n + 1) x
  have e : yeFit = fun y => 2.120282875020e+02 + -1.279083733386e+02 * y ^ 1 + 3.199984467460e+01 * y ^ 2 + -4.238440349145e+00 * y ^ 3 +
      3.133904196302e-01 * y ^ 4 + -1.226365543366e-02 * y ^ 5 + 1.983947360151e-04 * y ^ 6 := by
    funext y; unfold yeFit; ring
  rw [e]
  refine ((((((((hasDerivAt_const x (2.120282875020e+02 : ℝ))).add ((hp 0).const_mul _)).add ((hp 1).const_mul _)).add
    ((hp 2).const_mul _)).add ((hp 3).const_mul _)).add ((hp 4).const_mul _)).add ((hp 5).const_mul _)).congr_deriv ?_
  unfold yeFitDeriv; push_cast; ring

theorem yeFitDeriv_neg (x : ℝ) (h0 : 8 ≤ x) (h1 : x ≤ 13) : yeFitDeriv x < 0 := by
  rcases le_or_gt x (21/2) with h | h
  · have e : -yeFitDeriv x = (1679468835189/7629394531250000) * (x - (8/1)) ^ 0 * ((21/2) - x) ^ 5 + (222109964459/1525878906250000) * (x - (8/1)) ^ 1 * ((21/2) - x) ^ 4 + (175234398683431/48828125000000000) * (x - (8/1)) ^ 2 * ((21/2) - x) ^ 3 + (174820686504511/48828125000000000) * (x - (8/1)) ^ 3 * ((21/2) - x) ^ 2 + (530180204448089/390625000000000000) * (x - (8/1)) ^ 4 * ((21/2) - x) ^ 1 + (3905235712169247/15625000000000000000) * (x - (8/1)) ^ 5 * ((21/2) - x) ^ 0 := by unfold yeFitDeriv; ring
    have ha : 0 ≤ x - 8 / 1 := by linarith
    have hb : 0 ≤ 21 / 2 - x := by linarith
    rcases ha.eq_or_lt with h' | h'
    · have : x = 8 := by linarith
      subst this; norm_num [yeFitDeriv]
    have : 0 < -yeFitDeriv x := by rw [e]; positivity
    linarith
  · have e : -yeFitDeriv x = (3905235712169247/15625000000000000000) * (x - (21/2)) ^ 0 * ((13/1) - x) ^ 5 + (1784514894376891/1562500000000000000) * (x - (21/2)) ^ 1 * ((13/1) - x) ^ 4 + (1062359568620623/390625000000000000) * (x - (21/2)) ^ 2 * ((13/1) - x) ^ 3 + (1037832140166719/195312500000000000) * (x - (21/2)) ^ 3 * ((13/1) - x) ^ 2 + (1038425089732207/195312500000000000) * (x - (21/2)) ^ 4 * ((13/1) - x) ^ 1 + (312574968032771/488281250000000000) * (x - (21/2)) ^ 5 * ((13/1) - x) ^ 0 := by unfold yeFitDeriv; ring
    have ha : 0 < x - 21 / 2 := by linarith
    have hb : 0 ≤ 13 / 1 - x := by linarith
    have : 0 < -yeFitDeriv x := by rw [e]; positivity
    linarith

/-- **C52** On the density range where it is used the fit is strictly decreasing and takes values between 0.2875 and 0.4696: a
physical electron fraction, above the cut-off 0.27. -/
theorem yeFit_spec : StrictAntiOn yeFit (Set.Icc 8 13) ∧ ∀ x ∈ Set.Icc (8:ℝ) 13, 0.2875 < yeFit x ∧ yeFit x < 0.4696 := by
  have hanti : StrictAntiOn yeFit (Set.Icc 8 13) := by
    refine strictAntiOn_of_deriv_neg (convex_Icc 8 13) (fun x _ => (yeFit_hasDeriv x).continuousAt.continuousWithinAt) fun x hx => ?_
    rw [interior_Icc] at hx
    rw [(yeFit_hasDeriv x).deriv]; exact yeFitDeriv_neg x hx.1.le hx.2.le
  refine ⟨hanti, fun x hx => ⟨?_, ?_⟩⟩
  · have h := hanti.antitoneOn hx (Set.right_mem_Icc.2 (by norm_num)) hx.2
    have : (0.2875:ℝ) < yeFit 13 := by norm_num [yeFit]
    linarith
  · have h := hanti.antitoneOn (Set.left_mem_Icc.2 (by norm_num)) hx hx.1
    have : yeFit 8 < (0.4696:ℝ) := by norm_num [yeFit]
    linarith

/-- **C52** Hence deleptonisation alone never takes the electron fraction below 0.2875 (or its initial value if that is lower). -/
theorem ye_history_fit (rhos : List ℝ) (hr : ∀ r ∈ rhos, 0 < r) (Ye : ℝ) (hY : 0 ≤ Ye) :
    min Ye 0.2875 ≤ rhos.foldl (fun y r => y + dYe r y) Ye := by
  induction rhos generalizing Ye with
  | nil => simp
  | cons r l ih =>
    have hr0 := hr r (by simp)
    obtain ⟨b1, b2, b3, b4, b5⟩ := dYe_bounds r Ye hr0 hY
    rw [List.foldl_cons]
    have hs : min Ye 0.2875 ≤ Ye + dYe r Ye := by
      by_cases hd : 8 ≤ Real.logb 10 r ∧ Real.logb 10 r ≤ 13
      · refine le_trans (min_le_min le_rfl (yeFit_spec.2 _ hd).1.le) b3
      · rw [b4 hd, add_zero]; exact min_le_left _ _
    have := ih (fun r hr' => hr r (by simp [hr'])) (Ye + dYe r Ye) (by linarith)
    exact le_trans (le_min hs (min_le_right _ _)) this

/-- **C52** Heating obeys the inverse-square law, is attenuated as `exp(-τ)`, is linear in luminosity and free-nucleon fraction and is
`1.544e20` per unit luminosity at `1e7`; cooling is linear in the free-nucleon fraction, attenuated likewise, goes as the
sixth power of the temperature and is `1.399e20` at 2 MeV. -/
theorem heat_cool_laws (X lum t dt r T k : ℝ) :
    heat true X lum t (k * r) = heat true X lum t r / k ^ 2 ∧ heat true X lum (t + dt) r = Real.exp (-dt) * heat true X lum t r ∧
    heat true (k * X) lum t r = k * heat true X lum t r ∧ heat true X (k * lum) t r = k * heat true X lum t r ∧
    heat true 1 1 0 1.0e7 = 1.544e20 ∧
    cool X t (k * T) = k ^ 6 * cool X t T ∧ cool X (t + dt) T = Real.exp (-dt) * cool X t T ∧ cool (k * X) t T = k * cool X t T ∧
    cool 1 0 (2 * 1.16040892301e10) = 1.399e20 := by
  have he : Real.exp (-(t + dt)) = Real.exp (-dt) * Real.exp (-t) := by rw [← Real.exp_add]; congr 1; ring
  refine ⟨?_, ?_, ?_, ?_, ?_, ?_, ?_, ?_, ?_⟩
  · unfold heat; generalize (1.544e20 : ℝ) = a; generalize (1.0e7 : ℝ) = b
    rw [mul_comm k r, ← div_div, div_pow _ k, mul_div_assoc]
  · unfold heat; rw [he]; generalize (1.544e20 : ℝ) = a; generalize (1.0e7 : ℝ) = b; ring
  · unfold heat; generalize (1.544e20 : ℝ) = a; generalize (1.0e7 : ℝ) = b; ring
  · unfold heat; generalize (1.544e20 : ℝ) = a; generalize (1.0e7 : ℝ) = b; ring
  · norm_num [heat]
  · unfold cool; generalize (1.399e20 : ℝ) = a; generalize (2.0 * 1.16040892301e10 : ℝ) = b; ring
  · unfold cool; rw [he]; generalize (1.399e20 : ℝ) = a; generalize (2.0 * 1.16040892301e10 : ℝ) = b; ring
  · unfold cool; generalize (1.399e20 : ℝ) = a; generalize (2.0 * 1.16040892301e10 : ℝ) = b; ring
  · norm_num [cool]

/-- **C52** The momentum a moving fluid gains is the heat times its covariant four-velocity, and the energy `-u_0` times it: what is added
is `dt D (H - C) u_mu`, with the sign of the conserved energy slot `-T^0_0`. -/
theorem bulb_applied (eps dt D H C Gye : ℝ) {G : ADM ℝ} (h : G.Valid) (hp : PosDef G) (v : Fin 3 → ℝ) (c : Cell) :
    (∀ i, (applyForce dt (bulbForce eps G (fourVelocity 0 G v) D H C) Gye c).momentum i =
      c.momentum i + dt * (D * (H - C)) * GeomUtils.lower G.g4 (fourVelocity 0 G v) i.succ) ∧
    (applyForce dt (bulbForce eps G (fourVelocity 0 G v) D H C) Gye c).energy =
      c.energy - dt * (D * (H - C)) * GeomUtils.lower G.g4 (fourVelocity 0 G v) 0 := by
  simp only [applyForce, (bulb_force eps h hp v D H C).1]
  exact ⟨fun i => by ring, by ring⟩

/-- A concrete case: the electron fraction of a collapsing core follows the fit. -/
theorem ex_ye : dYe 1 0.4 = 0 ∧ (0 : ℝ) < tau 1 ∧ checkDoGain [1, 150] false = true := by
  refine ⟨?_, tau_mono.1 1, ?_⟩
  · simp [dYe]
  · rw [checkDoGain_iff]; right; exact ⟨150, by simp, by norm_num⟩

end Phoebus.LightBulb
