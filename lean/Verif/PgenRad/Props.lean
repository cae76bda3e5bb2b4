import Verif.PgenRad.Model

/-!
# C112 (radiation pulse), C113 (small test problems)
-/
namespace Phoebus.PgenRad
open Real

/-! ## Optical depth -/

/-- **C112** the optical depth of the mesh in code units (density one, opacity of the run, length of the mesh) is the requested one, for every
choice of units. -/
theorem optical_depth (u : Units.Units ℝ) (hL : u.length ≠ 0) (hM : u.mass ≠ 0) (hd : u.massDensity = u.mass / u.length ^ 3)
    (x1min x1max tau : ℝ) (hx : x1min < x1max) :
    codeKappa u (grayKappa u x1min x1max tau) * 1 * (x1max - x1min) = tau := by
  unfold codeKappa grayKappa
  simp only [hd]
  have : x1max - x1min ≠ 0 := by linarith
  field_simp

theorem ex_units (G c kb msun l m : ℝ) :
    (Units.mk G c kb msun (.lengthCm l) (.massG m)).massDensity =
      (Units.mk G c kb msun (.lengthCm l) (.massG m)).mass / (Units.mk G c kb msun (.lengthCm l) (.massG m)).length ^ 3 := by
  simp [Units.mk, Units.lengthOf, Units.massOf, div_eq_mul_inv]

/-! ## The pulse -/

theorem W_sq (p : Pulse) (hv : |p.vx| < 1) : p.W ^ 2 * (1 - p.vx ^ 2) = 1 ∧ 0 < p.W := by
  have h : 0 < 1 - p.vx * p.vx := by nlinarith [abs_lt.1 hv, (abs_lt.1 hv).1, (abs_lt.1 hv).2]
  unfold Pulse.W
  constructor
  · rw [div_pow, sq_sqrt h.le]
    have : 1 - p.vx ^ 2 = 1 - p.vx * p.vx := by ring
    rw [this, one_pow, one_div_mul_cancel h.ne']
  · positivity

/-- **C112** the stored velocity is that of a fluid moving with `vx`: four-velocity components of a unit timelike vector.

Partial form of C112. Full property: The initial pulse is a diffusing Gaussian in the comoving frame moving with the
given velocity, of the given optical depth, and is a realisable radiation state. Missing: Realisability and positive
comoving time are not ensured by the code. -/
theorem pulse_velocity_partial (p : Pulse) (hv : |p.vx| < 1) :
    p.W ^ 2 - p.vel 0 ^ 2 = 1 ∧ p.vel 0 / p.W = p.vx ∧ p.vel 1 = 0 ∧ p.vel 2 = 0 := by
  obtain ⟨h, hW⟩ := W_sq p hv
  refine ⟨?_, ?_, rfl, rfl⟩
  · simp only [Pulse.vel, Matrix.cons_val_zero]
    linear_combination h
  · simp only [Pulse.vel, Matrix.cons_val_zero]
    field_simp

/-- **C112** `(tp, xp)` are the Lorentz transform of the event `(t0, x)`: the interval is preserved and a comoving worldline has constant `xp`. -/
theorem pulse_lorentz (p : Pulse) (hv : |p.vx| < 1) (x : ℝ) :
    p.tp x ^ 2 - p.xp x ^ 2 = p.t0 ^ 2 - x ^ 2 ∧ p.W * (p.tp x + p.vx * p.xp x) = p.t0 ∧ p.W * (p.xp x + p.vx * p.tp x) = x := by
  obtain ⟨h, hW⟩ := W_sq p hv
  unfold Pulse.tp Pulse.xp
  refine ⟨?_, ?_, ?_⟩
  · linear_combination (p.t0 ^ 2 - x ^ 2) * h
  · linear_combination p.t0 * h
  · linear_combination x * h

/-- the centre of the pulse, `xp = x0p`, is the event with lab position one half. -/
theorem pulse_centre (p : Pulse) : p.xp 0.5 = p.x0p := by
  unfold Pulse.xp Pulse.x0p
  ring

/-- **C112** as a function of comoving time and position the profile solves the diffusion equation with diffusion coefficient `1 / (3 kappa)`,
at every time after zero. -/
theorem pulse_diffusion (p : Pulse) (hk : 0 < p.kappa) (hw : p.width ≠ 0) (t x : ℝ) (ht : 0 < t) :
    ∃ Jt Jx Jxx : ℝ, HasDerivAt (fun s => p.comoving s x) Jt t ∧ (∀ y, ∃ D, HasDerivAt (fun y => p.comoving t y) D y) ∧
      HasDerivAt (fun y => p.comoving t y) Jx x ∧ HasDerivAt (fun y => deriv (fun y => p.comoving t y) y) Jxx x ∧
      Jt = 1 / (3 * p.kappa) * Jxx := by
  have ht0 : 0 < p.t0 := by
    have h2 : 0 < p.width ^ 2 := by positivity
    have : p.t0 = 1.5 * p.kappa * p.width ^ 2 := by unfold Pulse.t0; ring
    rw [this]
    positivity
  set k := p.kappa
  set x0 := p.x0p
  set F := fun s y : ℝ => √(p.t0 / s) * exp (-3 * k * (y - x0) ^ 2 / (4 * s)) with hF
  have hx1 : ∀ y, HasDerivAt (fun y => p.comoving t y) (F t y * (-3 * k * (y - x0) / (2 * t))) y := by
    intro y
    have e : HasDerivAt (fun y => -3 * k * (y - x0) ^ 2 / (4 * t)) (-3 * k * (y - x0) / (2 * t)) y := by
      have := ((((hasDerivAt_id y).sub_const x0).fun_pow 2).const_mul (-3 * k)).div_const (4 * t)
      refine this.congr_deriv ?_
      simp
      field_simp
      ring
    have := (e.exp).const_mul (√(p.t0 / t))
    refine this.congr_deriv ?_
    simp only [hF]
    ring
  have hderiv : (fun y => deriv (fun y => p.comoving t y) y) = fun y => F t y * (-3 * k * (y - x0) / (2 * t)) :=
    funext fun y => (hx1 y).deriv
  have hxx : HasDerivAt (fun y => F t y * (-3 * k * (y - x0) / (2 * t)))
      (F t x * (-3 * k * (x - x0) / (2 * t)) * (-3 * k * (x - x0) / (2 * t)) + F t x * (-3 * k / (2 * t))) x := by
    have l : HasDerivAt (fun y => -3 * k * (y - x0) / (2 * t)) (-3 * k / (2 * t)) x := by
      have := (((hasDerivAt_id x).sub_const x0).const_mul (-3 * k)).div_const (2 * t)
      refine this.congr_deriv ?_
      simp
    have h1 : HasDerivAt (fun y => F t y) (F t x * (-3 * k * (x - x0) / (2 * t))) x := hx1 x
    exact h1.mul l
  have htt : HasDerivAt (fun s => p.comoving s x) (F t x * (-1 / (2 * t) + 3 * k * (x - x0) ^ 2 / (4 * t ^ 2))) t := by
    have hd : HasDerivAt (fun s => p.t0 / s) (-(p.t0 / t ^ 2)) t := by
      have := (hasDerivAt_inv ht.ne').const_mul p.t0
      refine (this.congr_deriv ?_)
      field_simp
    have hs := hd.sqrt (by positivity : p.t0 / t ≠ 0)
    have he : HasDerivAt (fun s => -3 * k * (x - x0) ^ 2 / (4 * s)) (3 * k * (x - x0) ^ 2 / (4 * t ^ 2)) t := by
      have := (hasDerivAt_inv ht.ne').const_mul (-3 * k * (x - x0) ^ 2 / 4)
      refine (this.congr_of_eventuallyEq ?_).congr_deriv ?_
      · filter_upwards with s
        rw [div_eq_mul_inv, mul_inv]
        ring
      · field_simp
    have := hs.mul he.exp
    refine this.congr_deriv ?_
    have hq : √(p.t0 / t) * √(p.t0 / t) = p.t0 / t := mul_self_sqrt (by positivity)
    have hq0 : √(p.t0 / t) ≠ 0 := by positivity
    have : -(p.t0 / t ^ 2) / (2 * √(p.t0 / t)) = √(p.t0 / t) * (-1 / (2 * t)) := by
      rw [div_eq_iff (by positivity)]
      calc -(p.t0 / t ^ 2) = -(1 / t) * (p.t0 / t) := by field_simp
        _ = -(1 / t) * (√(p.t0 / t) * √(p.t0 / t)) := by rw [hq]
        _ = _ := by field_simp
    rw [this]
    simp only [hF]
    ring
  refine ⟨_, _, _, htt, fun y => ⟨_, hx1 y⟩, hx1 x, by rw [hderiv]; exact hxx, ?_⟩
  field_simp
  ring

/-- **C112** for a fluid at rest the boosted and the plain profile are the same. -/
theorem boost_at_rest (p : Pulse) (hv : p.vx = 0) (hk : 0 < p.kappa) (hw : p.width ≠ 0) (x : ℝ) : p.J true x = p.J false x := by
  have hW : p.W = 1 := by simp [Pulse.W, hv]
  have ht0 : 0 < p.t0 := by
    have h2 : 0 < p.width ^ 2 := by positivity
    have : p.t0 = 1.5 * p.kappa * p.width ^ 2 := by unfold Pulse.t0; ring
    rw [this]
    positivity
  have e : -3 * p.kappa * (x - 0.5) ^ 2 / (4 * p.t0) = -((x - 0.5) / p.width) ^ 2 / 2.0 := by
    have h4 : 4 * p.t0 = 6 * (p.kappa * p.width ^ 2) := by unfold Pulse.t0; ring
    rw [h4, show (2.0:ℝ) = 2 by norm_num]
    field_simp
    ring
  simp only [Pulse.J, if_true, Bool.false_eq_true, if_false, Pulse.comoving, Pulse.tp, Pulse.xp, Pulse.x0p, hW, hv, zero_mul, sub_zero, mul_one,
    one_mul, div_self ht0.ne', sqrt_one, e]

/-- the stored energy density is at least the floor and at most the amplitude for the plain profile. -/
theorem plain_range (p : Pulse) (hJ : 0 ≤ p.J0) (x : ℝ) : p.J0 * 1e-10 ≤ p.J false x ∧ p.J false x ≤ p.J0 := by
  simp only [Pulse.J, Bool.false_eq_true, if_false]
  constructor
  · exact mul_le_mul_of_nonneg_left (le_max_right _ _) hJ
  · have : max (exp (-((x - 0.5) / p.width) ^ 2 / 2.0)) 1e-10 ≤ 1 := by
      refine max_le ?_ (by norm_num)
      rw [exp_le_one_iff]
      have := sq_nonneg ((x - 0.5) / p.width)
      norm_num
      linarith
    nlinarith

/-- the boosted profile is meaningful exactly where the comoving time is positive. -/
theorem tp_pos_iff (p : Pulse) (hv : |p.vx| < 1) (x : ℝ) : 0 < p.tp x ↔ p.vx * x < p.t0 := by
  obtain ⟨_, hW⟩ := W_sq p hv
  unfold Pulse.tp
  constructor
  · intro h
    have := (mul_pos_iff_of_pos_left hW).1 h
    linarith
  · intro h
    exact mul_pos hW (by linarith)

/-- nothing checks it: a pulse accepted by the generator has cells with negative comoving time (and the code evaluates the square root of a
negative number there). -/
theorem boost_unchecked : ∃ p : Pulse, |p.vx| < 1 ∧ 0 < p.kappa ∧ 0 < p.width ∧ p.tp 1 < 0 := by
  refine ⟨⟨1, 1 / 2, 1 / 10, 1⟩, by norm_num [abs_of_pos], by norm_num, by norm_num, ?_⟩
  have hW : 0 < Pulse.W ⟨1, 1 / 2, 1 / 10, 1⟩ := (W_sq _ (by norm_num [abs_of_pos])).2
  unfold Pulse.tp
  refine mul_neg_of_pos_of_neg hW ?_
  norm_num [Pulse.t0]

/-- **C112 fails**: the flux is compared with the amplitude, component by component, not with the local energy density: the accepted data contain
cells with more flux than energy, as soon as any flux component exceeds the floor. -/
theorem flux_unrealisable (p : Pulse) (hw : p.width ≠ 0) (Hx Hy Hz : ℝ) (_hc : fluxCheck p.J0 Hx Hy Hz)
    (hH : p.J0 * 1e-10 < |Hx|) : ∃ x, p.J false x < √(Hx ^ 2 + Hy ^ 2 + Hz ^ 2) := by
  have hH1 : |Hx| ≤ √(Hx ^ 2 + Hy ^ 2 + Hz ^ 2) := by
    rw [← sqrt_sq_eq_abs]
    exact sqrt_le_sqrt (by nlinarith [sq_nonneg Hy, sq_nonneg Hz])
  -- choose x so far out that the Gaussian is below 1e-10
  refine ⟨0.5 + p.width * 10, lt_of_lt_of_le ?_ hH1⟩
  simp only [Pulse.J, Bool.false_eq_true, if_false]
  have e : ((0.5 + p.width * 10 - 0.5) / p.width) = 10 := by field_simp; ring
  rw [e]
  have hexp : exp (-(10:ℝ) ^ 2 / 2.0) ≤ 1e-10 := by
    have h1 : exp (-(10:ℝ) ^ 2 / 2.0) = (exp 1 ^ 50)⁻¹ := by
      rw [← exp_nat_mul, ← exp_neg]
      norm_num
    rw [h1]
    have h2 : (2:ℝ) ≤ exp 1 := by linarith [add_one_le_exp (1:ℝ)]
    have h3 : (2:ℝ) ^ 50 ≤ exp 1 ^ 50 := pow_le_pow_left₀ (by norm_num) h2 50
    rw [inv_le_comm₀ (by positivity) (by norm_num)]
    refine le_trans ?_ h3
    norm_num
  rw [max_eq_right hexp]
  exact hH

theorem ex_flux : fluxCheck 1 0.9 0.9 0.9 ∧ (1:ℝ) < √(0.9 ^ 2 + 0.9 ^ 2 + 0.9 ^ 2) := by
  refine ⟨by norm_num [fluxCheck, abs_of_pos], ?_⟩
  rw [lt_sqrt (by norm_num)]
  norm_num

/-! ## Storing parameters from a generator -/

theorem storeAll_mem (ks : List String) : ∀ keys keys', storeAll ks keys = some keys' → ∀ k, k ∈ ks ∨ k ∈ keys → k ∈ keys' := by
  induction ks with
  | nil =>
    intro keys keys' h k hk
    simp only [storeAll, List.foldlM_nil, pure, Option.some.injEq] at h
    subst h
    simpa using hk
  | cons a l ih =>
    intro keys keys' h k hk
    simp only [storeAll, List.foldlM_cons, paramsAdd] at h ih
    by_cases ha : a ∈ keys
    · simp [ha] at h
    · simp only [ha, if_false, Option.bind_eq_bind, Option.bind_some] at h
      refine ih _ _ h k ?_
      rcases hk with hk | hk
      · rcases List.mem_cons.1 hk with rfl | hk
        · right; simp
        · left; exact hk
      · right; simp [hk]

/-- **C112** the debug check is strict in every component: a flux equal to the energy density along any axis is refused. -/
theorem flux_check_iff (J0 Hx Hy Hz : ℝ) : fluxCheck J0 Hx Hy Hz ↔ max (max |Hx| |Hy|) |Hz| < J0 := by
  simp [fluxCheck, and_assoc]

/-- **C113 fails**: the generators that store parameters abort the run as soon as a rank owns two blocks. -/
theorem store_aborts (a : String) (l : List String) (n : ℕ) (keys : List String) : runBlocks (a :: l) (n + 2) keys = none := by
  simp only [runBlocks]
  cases h : storeAll (a :: l) keys with
  | none => rfl
  | some keys' =>
    have hm := storeAll_mem _ _ _ h a (Or.inl (by simp))
    simp only [Option.bind_some]
    have : storeAll (a :: l) keys' = none := by
      simp [storeAll, List.foldlM_cons, paramsAdd, hm]
    rw [this]
    rfl

/-- with one block per rank (or none) they run. -/
theorem store_one : (runBlocks advKeys 1 []).isSome = true ∧ (runBlocks eqKeys 1 []).isSome = true ∧
    (runBlocks advKeys 0 []).isSome = true := by decide

/-- so the two radiation tests start exactly on ranks with at most one block. -/
theorem store_iff (n : ℕ) : ((runBlocks advKeys n []).isSome = true ↔ n ≤ 1) ∧ ((runBlocks eqKeys n []).isSome = true ↔ n ≤ 1) := by
  rcases n with _ | _ | n
  · decide
  · decide
  · have h1 : runBlocks advKeys (n + 2) [] = none := store_aborts _ _ n []
    have h2 : runBlocks eqKeys (n + 2) [] = none := store_aborts _ _ n []
    rw [h1, h2]
    simp

/-! ## Homogeneous sphere -/

/-- in spherical coordinates the dense region is the ball of the requested radius.

Partial form of C113. Full property: The equilibration, homogeneous sphere, thin cooling, lepton transport and round-
trip problems set up what they describe on every decomposition. Missing: Abort with two blocks per rank and half-space
sphere proved. -/
theorem sphere_spherical_partial (R rhoMin r th ph : ℝ) (h : rhoMin ≠ 1) : sphereRho R rhoMin ![r, th, ph] = 1 ↔ r < R := by
  unfold sphereRho
  by_cases hr : r < R
  · simp [hr]; norm_num
  · simp [hr, h]

/-- **C113 fails**: in Cartesian coordinates, which the generator accepts, it is a half space: it contains points arbitrarily far from the
origin, for every radius. -/
theorem sphere_cartesian (R rhoMin D : ℝ) : ∃ X : Fin 3 → ℝ, sphereRho R rhoMin X = 1 ∧ D < √(X 0 ^ 2 + X 1 ^ 2 + X 2 ^ 2) := by
  refine ⟨![R - 1, |D| + 1, 0], ?_, ?_⟩
  · simp [sphereRho]; norm_num
  · refine lt_of_lt_of_le (by linarith [le_abs_self D] : D < |D| + 1) ?_
    rw [le_sqrt (by positivity) (by positivity)]
    simp
    positivity

/-! ## Thin cooling -/

/-- **C113** the state is `10^6 g/cm^3` and `10^20 erg/cm^3` in every system of units. -/
theorem thin_units (u : Units.Units ℝ) (hm : u.massDensity ≠ 0) (he : u.energy ≠ 0) (hn : u.numberDensity ≠ 0) (a b : Bool)
    (rho u0 ye : ℝ) (h : thinCooling u a b = some (rho, u0, ye)) :
    rho * u.massDensity = 1e6 ∧ u0 * (u.energy * u.numberDensity) = 1e20 ∧ (ye = 0.5 ↔ a = true) := by
  unfold thinCooling at h
  split_ifs at h with h1 h2
  · simp only [Option.some.injEq, Prod.mk.injEq] at h
    obtain ⟨rfl, rfl, rfl⟩ := h
    refine ⟨by field_simp, by field_simp, by simp [h2]⟩
  · simp only [Option.some.injEq, Prod.mk.injEq] at h
    obtain ⟨rfl, rfl, rfl⟩ := h
    refine ⟨by field_simp, by field_simp, ?_⟩
    simp [h2]
    norm_num

/-- it starts exactly with one of the two neutrino types. -/
theorem thin_starts (u : Units.Units ℝ) (a b : Bool) : (thinCooling u a b).isSome = true ↔ a ≠ b := by
  unfold thinCooling
  by_cases h : a = b <;> simp [h]

/-- **C113 fails**: without the electron fraction among the fields (slot `-2`) it writes outside the pack; with it, never. -/
theorem thin_writes (irho ieng itmp iprs igm1 iye ivlo : ℤ) (h : 0 ≤ irho ∧ 0 ≤ ieng ∧ 0 ≤ itmp ∧ 0 ≤ iprs ∧ 0 ≤ igm1 ∧ 0 ≤ ivlo) :
    (∀ s ∈ thinWrites irho ieng itmp iprs igm1 iye ivlo, 0 ≤ s) ↔ 0 ≤ iye := by
  unfold thinWrites
  obtain ⟨h1, h2, h3, h4, h5, h6⟩ := h
  constructor
  · intro hh
    exact hh iye (by simp)
  · intro hy s hs
    simp only [List.mem_append, List.mem_cons, List.not_mem_nil, or_false] at hs
    rcases hs with hs | hs
    · split_ifs at hs with hp
      · simp at hs; omega
      · simp at hs
    · rcases hs with rfl | rfl | rfl | rfl | rfl | rfl | rfl | rfl | rfl <;> omega

/-! ## Lepton equilibration -/

/-- with an electron fraction (a slot different from the others) it is written twice, every other slot as often as it is named. -/
theorem thin_ye_twice (irho ieng itmp iprs igm1 iye ivlo : ℤ) (h : 0 < iye)
    (hd : iye ∉ [irho, ieng, itmp, iprs, igm1, ivlo, ivlo + 1, ivlo + 2]) :
    (thinWrites irho ieng itmp iprs igm1 iye ivlo).count iye = 2 := by
  simp only [List.mem_cons, not_or] at hd
  obtain ⟨h1, h2, h3, h4, h5, h6, h7, h8, _⟩ := hd
  simp [thinWrites, h, List.count_cons, Ne.symm h1, Ne.symm h2, Ne.symm h3, Ne.symm h4, Ne.symm h5, Ne.symm h6, Ne.symm h7, Ne.symm h8]

/-- **C113** the electron fraction pattern is odd about its mean under reflection through the origin. -/
theorem lepton_odd (x y : ℝ) : leptonYe (-x) (-y) - 0.225 = -(leptonYe x y - 0.225) := by
  unfold leptonYe
  by_cases h1 : x ≥ -0.75 ∧ x ≤ -0.25 ∧ y ≥ -0.75 ∧ y ≤ -0.25
  · have h2 : ¬ (-x ≥ -0.75 ∧ -x ≤ -0.25 ∧ -y ≥ -0.75 ∧ -y ≤ -0.25) := by
      rintro ⟨_, h, _⟩
      norm_num at h h1
      linarith [h1.2.1]
    have h3 : -x ≥ 0.25 ∧ -x ≤ 0.75 ∧ -y ≥ 0.25 ∧ -y ≤ 0.75 := by
      norm_num at h1 ⊢
      exact ⟨by linarith [h1.2.1], by linarith [h1.1], by linarith [h1.2.2.2], by linarith [h1.2.2.1]⟩
    rw [if_neg h2, if_pos h3, if_pos h1]
    norm_num
  · by_cases h2 : x ≥ 0.25 ∧ x ≤ 0.75 ∧ y ≥ 0.25 ∧ y ≤ 0.75
    · have h3 : -x ≥ -0.75 ∧ -x ≤ -0.25 ∧ -y ≥ -0.75 ∧ -y ≤ -0.25 := by
        norm_num at h2 ⊢
        exact ⟨by linarith [h2.2.1], by linarith [h2.1], by linarith [h2.2.2.2], by linarith [h2.2.2.1]⟩
      rw [if_pos h3, if_neg h1, if_pos h2]
      norm_num
    · have h3 : ¬ (-x ≥ -0.75 ∧ -x ≤ -0.25 ∧ -y ≥ -0.75 ∧ -y ≤ -0.25) := by
        rintro ⟨a, b, c, d⟩
        apply h2
        norm_num at a b c d ⊢
        exact ⟨by linarith, by linarith, by linarith, by linarith⟩
      have h4 : ¬ (-x ≥ 0.25 ∧ -x ≤ 0.75 ∧ -y ≥ 0.25 ∧ -y ≤ 0.75) := by
        rintro ⟨a, b, c, d⟩
        apply h1
        norm_num at a b c d ⊢
        exact ⟨by linarith, by linarith, by linarith, by linarith⟩
      rw [if_neg h3, if_neg h4, if_neg h1, if_neg h2]
      norm_num

/-- so on every set of cells symmetric about the origin the mean electron fraction is 0.225, the value the problem relaxes to. -/
theorem lepton_mean (s : Finset (ℝ × ℝ)) (hs : ∀ c ∈ s, (-c.1, -c.2) ∈ s) :
    ∑ c ∈ s, leptonYe c.1 c.2 = s.card * 0.225 := by
  have h : ∑ c ∈ s, (leptonYe c.1 c.2 - 0.225) = ∑ c ∈ s, -(leptonYe c.1 c.2 - 0.225) := by
    refine Finset.sum_bij' (fun c _ => (-c.1, -c.2)) (fun c _ => (-c.1, -c.2)) (fun c hc => hs c hc) (fun c hc => hs c hc)
      (by simp) (by simp) ?_
    intro c _
    have := lepton_odd c.1 c.2
    simp only
    linarith
  rw [Finset.sum_neg_distrib, Finset.sum_sub_distrib, Finset.sum_const, nsmul_eq_mul] at h
  linarith

theorem ex_lepton : leptonYe (-0.5) (-0.5) = 0.1 ∧ leptonYe 0.5 0.5 = 0.35 ∧ leptonYe 0 0 = 0.225 := by
  refine ⟨?_, ?_, ?_⟩ <;> norm_num [leptonYe]

/-! ## p2c2p -/

/-- the reported error bounds the relative error of every cell when the exact values are positive. -/
theorem report_bound (l : List (ℝ × ℝ)) (hp : ∀ c ∈ l, 0 < c.1) (m : ℝ) :
    m ≤ reportMax l m ∧ ∀ c ∈ l, |c.1 - c.2| ≤ reportMax l m * c.1 := by
  induction l generalizing m with
  | nil => simp [reportMax]
  | cons a l ih =>
    obtain ⟨i1, i2⟩ := ih (fun c hc => hp c (by simp [hc])) (if |a.1 - a.2| / a.1 > m then |a.1 - a.2| / a.1 else m)
    have hm : m ≤ (if |a.1 - a.2| / a.1 > m then |a.1 - a.2| / a.1 else m) ∧
        |a.1 - a.2| / a.1 ≤ (if |a.1 - a.2| / a.1 > m then |a.1 - a.2| / a.1 else m) := by
      split_ifs with h
      · exact ⟨h.le, le_refl _⟩
      · exact ⟨le_refl _, not_lt.1 h⟩
    have e : reportMax (a :: l) m = reportMax l (if |a.1 - a.2| / a.1 > m then |a.1 - a.2| / a.1 else m) := rfl
    rw [e]
    refine ⟨hm.1.trans i1, ?_⟩
    intro c hc
    rcases List.mem_cons.1 hc with rfl | hc
    · have := hm.2.trans i1
      rwa [div_le_iff₀ (hp c (by simp))] at this
    · exact i2 c hc

/-- and is attained. -/
theorem report_attained (l : List (ℝ × ℝ)) (m : ℝ) : reportMax l m = m ∨ ∃ c ∈ l, reportMax l m = |c.1 - c.2| / c.1 := by
  induction l generalizing m with
  | nil => simp [reportMax]
  | cons a l ih =>
    have e : reportMax (a :: l) m = reportMax l (if |a.1 - a.2| / a.1 > m then |a.1 - a.2| / a.1 else m) := rfl
    rw [e]
    rcases ih (if |a.1 - a.2| / a.1 > m then |a.1 - a.2| / a.1 else m) with h | ⟨c, hc, h⟩
    · rw [h]
      split_ifs
      · right; exact ⟨a, by simp, rfl⟩
      · left; rfl
    · right; exact ⟨c, by simp [hc], h⟩

end Phoebus.PgenRad
