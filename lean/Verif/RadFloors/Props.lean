import Verif.RadFloors.Model
import Verif.Closure.Props

/-!
# C127: radiation floors and flux ceilings
-/
namespace Phoebus.RadFloors
open Geom Rel Robust Closure Finset

/-- the Eddington closure with exact division. -/
structure Edd (e : Env) : Prop where
  small : e.small = 0
  SMALL : 0 ≤ e.SMALL
  con : ∀ E F, e.piCon E F = 0
  prim : ∀ J H, e.piPrim J H = 0

/-- specification: the stored densities are `sqrt(gamma)` times the lab-frame moments of the stored rest-frame moments. -/
def Consistent (e : Env) (c : Cell) : Prop :=
  let m := prim2con false e.G e.v 0 c.J (fun i => c.J * c.H i)
  c.E = e.sdet * m.1 ∧ ∀ i, c.F i = e.sdet * m.2 i

/-- specification: the flux factor, i.e. the length of the stored ratio `H/J` in the rest frame of the gas. -/
noncomputable def fluxFac (e : Env) (c : Cell) : ℝ := Real.sqrt (hsq e.G e.v c.H)

theorem hsq_smul (G : ADM ℝ) (v H : Vec) (s : ℝ) : hsq G v (fun i => s * H i) = s ^ 2 * hsq G v H := by
  simp only [hsq, ccov, cc, Fin.sum_univ_three]; ring

theorem sqrt_hsq_smul (G : ADM ℝ) (v H : Vec) (s : ℝ) (hs : 0 ≤ s) :
    Real.sqrt (hsq G v (fun i => s * H i)) = s * Real.sqrt (hsq G v H) := by
  rw [hsq_smul, Real.sqrt_mul (sq_nonneg s), Real.sqrt_sq hs]

/-- the energy density computed by the inversion is never altered by its repairs. -/
theorem check_J (SMALL : ℝ) (hS : 0 ≤ SMALL) (G : ADM ℝ) (v : Vec) (J : ℝ) (H : Vec) :
    (con2primCheck true SMALL G v J H).2.1 = J := by
  simp only [con2primCheck]
  split_ifs <;> simp_all <;> linarith

theorem invert_J {e : Env} (he : Edd e) (E : ℝ) (F : Vec) :
    (invert e E F).1 = (con2primRaw 0 false e.G e.v 0 E F).1 := by
  simp only [invert, con2prim, he.con, he.small]
  exact check_J _ he.SMALL _ _ _ _

/-- with positive energy density the inversion either returns the exact moments or scales the flux to the factor 0.999. -/
theorem check_H {G : ADM ℝ} (hG : G.Valid) (hp : PosDef G) {v : Vec} (hs : Slow G v) (SMALL J : ℝ) (hJ : 0 < J) (H : Vec) :
    (con2primCheck true SMALL G v J H).2.2 = H ∨ Real.sqrt (hsq G v (con2primCheck true SMALL G v J H).2.2) = 0.999 * J := by
  have hq := hsq_nonneg hG hp hs H
  simp only [con2primCheck]
  rw [if_neg (by push Not; exact ⟨hq, fun h => absurd h hJ.ne'⟩)]
  by_cases hb : J = 0 ∨ 1 ≤ Real.sqrt (hsq G v H) / J
  · right
    rw [if_pos (Or.inr hb)]
    rw [if_pos trivial]
    simp only [if_pos hb]
    have h1 : 1 ≤ Real.sqrt (hsq G v H) / J := hb.resolve_left hJ.ne'
    have hx : 0 < Real.sqrt (hsq G v H) := by
      by_contra hc
      have : Real.sqrt (hsq G v H) = 0 := le_antisymm (not_lt.1 hc) (Real.sqrt_nonneg _)
      rw [this] at h1; norm_num at h1
    have e1 : (fun i => H i * (0.999 / (Real.sqrt (hsq G v H) / J))) = fun i => (0.999 / (Real.sqrt (hsq G v H) / J)) * H i := by
      funext i; ring
    rw [e1, sqrt_hsq_smul _ _ _ _ (by positivity)]
    field_simp
  · left
    rw [if_neg]
    rintro (h | h)
    · linarith
    · exact hb h

/-- state after the refresh: the stored energy density is the exact one, and with positive energy density the cell is consistent or its
flux factor is 0.999. -/
def Exact (e : Env) (c : Cell) : Prop :=
  c.J = (con2primRaw 0 false e.G e.v 0 (c.E / e.sdet) fun i => c.F i / e.sdet).1 ∧
    (0 < c.J → Consistent e c ∨ fluxFac e c = 0.999)

theorem store_exact {e : Env} (he : Edd e) (hG : e.G.Valid) (hp : PosDef e.G) (hs : Slow e.G e.v) (hd : 0 < e.sdet) (c : Cell) :
    Exact e (store c (invert e (c.E / e.sdet) fun i => c.F i / e.sdet)) := by
  set E := c.E / e.sdet with hE
  set F : Vec := fun i => c.F i / e.sdet with hF
  set r := con2primRaw 0 false e.G e.v 0 E F with hr
  have hJ1 : (invert e E F).1 = r.1 := invert_J he E F
  refine ⟨by simp only [store]; exact hJ1, fun hJ => ?_⟩
  have hJr : 0 < r.1 := by simpa only [store, hJ1] using hJ
  have hinv := eddington_raw_inverse hG hs false E r.1 F r.2 hr.symm
  have hH2 : (invert e E F).2 = (con2primCheck true e.SMALL e.G e.v r.1 r.2).2.2 := by
    simp only [invert, con2prim, he.con, he.small]; rfl
  rcases check_H hG hp hs e.SMALL r.1 hJr r.2 with h | h
  · left
    have e1 : (fun i => (store c (invert e E F)).J * (store c (invert e E F)).H i) = r.2 := by
      funext i; simp only [store, hJ1, hH2, h]; field_simp
    simp only [Consistent]
    rw [e1]
    simp only [store, hJ1, hinv]
    refine ⟨by rw [hE]; field_simp, fun i => by simp only [hF]; field_simp⟩
  · right
    simp only [fluxFac, store, hJ1, hH2]
    have e1 : (fun i => (con2primCheck true e.SMALL e.G e.v r.1 r.2).2.2 i / r.1) =
        fun i => (1 / r.1) * (con2primCheck true e.SMALL e.G e.v r.1 r.2).2.2 i := by funext i; ring
    rw [e1, sqrt_hsq_smul _ _ _ _ (by positivity), h]; field_simp

theorem refresh_exact {e : Env} (he : Edd e) (hG : e.G.Valid) (hp : PosDef e.G) (hs : Slow e.G e.v) (hd : 0 < e.sdet) (t : Bool) (c : Cell)
    (hc : t = true ∨ Consistent e c) : Exact e (refresh e t c) := by
  cases t with
  | true => simp only [refresh, if_true]; exact store_exact he hG hp hs hd c
  | false =>
    have hc' : Consistent e c := hc.resolve_left (by simp)
    simp only [refresh, Bool.false_eq_true, if_false]
    refine ⟨?_, fun _ => Or.inl hc'⟩
    obtain ⟨h1, h2⟩ := hc'
    have e1 : c.E / e.sdet = (prim2con false e.G e.v 0 c.J (fun i => c.J * c.H i)).1 := by rw [h1]; field_simp
    have e2 : (fun i => c.F i / e.sdet) = (prim2con false e.G e.v 0 c.J (fun i => c.J * c.H i)).2 := by
      funext i; rw [h2]; field_simp
    rw [e1, e2, con2prim_prim2con_raw hG hs 0 (lam_zero_pos _ _).ne']

/-- radiation at rest in the normal frame with energy density `d` and no flux: lab-frame energy `d`, no momentum. -/
theorem iso (G : ADM ℝ) (d : ℝ) : prim2con false G (fun _ => 0) 0 d (fun _ => 0) = (d, fun _ => 0) := by
  have hv : cc (fun _ : Fin 3 => (0:ℝ)) (Closure.lower G fun _ => 0) = 0 := by simp [cc]
  have hW : W G (fun _ => 0) = 1 := by
    unfold W v2; rw [hv, min_eq_left (by norm_num)]; simp
  have hl : ∀ i, Closure.lower G (fun _ => 0) i = 0 := by intro i; simp [Closure.lower]
  refine Prod.ext ?_ (funext fun i => ?_)
  · simp only [prim2con, vvPi_zero, W2, hW, cc, Bool.false_eq_true, if_false]; simp
    ring
  · simp only [prim2con, covVPi_zero, hl, cc]; simp

/-- energy added in the normal frame raises the rest-frame energy density by at least as much. -/
theorem raw_J_add {G : ADM ℝ} (hp : PosDef G) {v : Vec} (hs : Slow G v) (E d : ℝ) (F : Vec) (hd : 0 ≤ d) :
    (con2primRaw 0 false G v 0 E F).1 + d ≤ (con2primRaw 0 false G v 0 (d + E) F).1 := by
  have hw := W_ge_one hp hs
  have h2 : 1 ≤ W2 G v := by unfold W2; nlinarith
  simp only [con2primRaw, ratio_zero, lam_zero, Bool.false_eq_true, if_false]
  have hl : (0:ℝ) < (2 * W2 G v + 1) / 3 := by linarith
  rw [div_add' _ _ _ hl.ne', div_le_div_iff_of_pos_right hl]
  nlinarith

theorem inject_spec {e : Env} (he : Edd e) (hG : e.G.Valid) (hp : PosDef e.G) (hs : Slow e.G e.v) (hd : 0 < e.sdet) (Jf : ℝ) (c : Cell)
    (hc : Exact e c) : Jf ≤ (inject e Jf c).J ∧ Exact e (inject e Jf c) := by
  unfold inject
  by_cases h : Jf - c.J > 0
  · simp only [if_pos h, iso, zero_add]
    set c' : Cell := { c with E := (Jf - c.J + c.E / e.sdet) * e.sdet, F := fun i => c.F i / e.sdet * e.sdet } with hc'
    have e1 : c'.E / e.sdet = Jf - c.J + c.E / e.sdet := by simp only [hc']; field_simp
    have e2 : (fun i => c'.F i / e.sdet) = fun i => c.F i / e.sdet := by funext i; simp only [hc']; field_simp
    have hx := store_exact he hG hp hs hd c'
    rw [e1, e2] at hx
    refine ⟨?_, hx⟩
    have hJ := raw_J_add hp hs (c.E / e.sdet) (Jf - c.J) (fun i => c.F i / e.sdet) h.le
    rw [← hc.1] at hJ
    have : (store c' (invert e (Jf - c.J + c.E / e.sdet) fun i => c.F i / e.sdet)).J =
        (con2primRaw 0 false e.G e.v 0 (Jf - c.J + c.E / e.sdet) fun i => c.F i / e.sdet).1 := by
      simp only [store]; exact invert_J he _ _
    rw [this]; linarith
  · simp only [if_neg h]; exact ⟨by linarith, hc⟩

/-- **C127** After the radiation part of the floor pass, for every metric, velocity with `v^2 <= 0.9999`, positive energy floor and flux
ceiling below 0.999 (the default is 0.99), and whatever the stored moments were (arbitrary when a fluid floor or ceiling changed the velocity,
consistent otherwise): the energy density is at least the floor, the flux factor is at most the ceiling, and the stored lab-frame moments
are those of the stored rest-frame moments (Eddington closure).

Partial form of C127. Full property: with radiation floors enabled, after the pass every species of every cell has at least the floor energy density, a flux
factor at most the ceiling, and consistent moments. Missing: a zero floor (default `J0_floor`, division by zero), a ceiling of at least 0.999
or none (inconsistent moments) and closures with a pressure tensor (floor not reached): each is false of the code, with a witness below. -/
theorem pass_enforces_partial {e : Env} (he : Edd e) (hG : e.G.Valid) (hp : PosDef e.G) (hs : Slow e.G e.v) (hd : 0 < e.sdet) (touched : Bool)
    (Jf ximax : ℝ) (hJ : 0 < Jf) (hx0 : 0 ≤ ximax) (hx1 : ximax < 0.999) (c : Cell) (hc : touched = true ∨ Consistent e c) :
    Jf ≤ (pass e touched Jf ximax c).J ∧ fluxFac e (pass e touched Jf ximax c) ≤ ximax ∧ Consistent e (pass e touched Jf ximax c) := by
  obtain ⟨h1, h2⟩ := inject_spec he hG hp hs hd Jf _ (refresh_exact he hG hp hs hd touched c hc)
  unfold pass
  set c1 := inject e Jf (refresh e touched c) with hc1
  have hJ1 : 0 < c1.J := lt_of_lt_of_le hJ h1
  unfold cap
  by_cases h : Real.sqrt (hsq e.G e.v c1.H) > ximax
  · simp only [if_pos h, he.prim]
    have hpos : 0 < Real.sqrt (hsq e.G e.v c1.H) := lt_of_le_of_lt hx0 h
    refine ⟨h1, ?_, ?_⟩
    · simp only [fluxFac]
      have e1 : (fun i => ximax / Real.sqrt (hsq e.G e.v c1.H) * c1.H i * c1.J / c1.J) =
          fun i => ximax / Real.sqrt (hsq e.G e.v c1.H) * c1.H i := by funext i; field_simp
      rw [e1, sqrt_hsq_smul _ _ _ _ (by positivity), div_mul_cancel₀ _ hpos.ne']
    · simp only [Consistent]
      have e1 : (fun i => c1.J * (ximax / Real.sqrt (hsq e.G e.v c1.H) * c1.H i * c1.J / c1.J)) =
          fun i => ximax / Real.sqrt (hsq e.G e.v c1.H) * c1.H i * c1.J := by funext i; field_simp
      rw [e1]
      exact ⟨mul_comm _ _, fun i => mul_comm _ _⟩
  · simp only [if_neg h]
    refine ⟨h1, not_lt.1 h, ?_⟩
    rcases h2.2 hJ1 with h3 | h3
    · exact h3
    · exact absurd (show Real.sqrt (hsq e.G e.v c1.H) > ximax by have : Real.sqrt (hsq e.G e.v c1.H) = 0.999 := h3
                                                                 rw [this]; exact hx1) h

/-- **C127** A cell that satisfies both limits and whose velocity was not changed is left exactly as it is (any closure). -/
theorem pass_id (e : Env) (Jf ximax : ℝ) (c : Cell) (hJ : Jf ≤ c.J) (hx : fluxFac e c ≤ ximax) : pass e false Jf ximax c = c := by
  have h1 : inject e Jf (refresh e false c) = c := by
    simp only [refresh, inject, Bool.false_eq_true, if_false]; rw [if_neg (by simp; exact hJ)]
  unfold pass cap
  rw [h1]
  exact if_neg (not_lt.2 hx)

/-- **C127** Hence the pass is idempotent. -/
theorem pass_idempotent {e : Env} (he : Edd e) (hG : e.G.Valid) (hp : PosDef e.G) (hs : Slow e.G e.v) (hd : 0 < e.sdet) (touched : Bool)
    (Jf ximax : ℝ) (hJ : 0 < Jf) (hx0 : 0 ≤ ximax) (hx1 : ximax < 0.999) (c : Cell) (hc : touched = true ∨ Consistent e c) :
    pass e false Jf ximax (pass e touched Jf ximax c) = pass e touched Jf ximax c := by
  obtain ⟨h1, h2, _⟩ := pass_enforces_partial he hG hp hs hd touched Jf ximax hJ hx0 hx1 c hc
  exact pass_id e Jf ximax _ h1 h2

/-- **C127** What the floor adds: exactly `sqrt(gamma) (J_floor - J)` of lab-frame energy and no momentum (any closure), and only in cells
below the floor. -/
theorem inject_amount (e : Env) (hd : 0 < e.sdet) (Jf : ℝ) (c : Cell) :
    (inject e Jf c).E = c.E + e.sdet * max (Jf - c.J) 0 ∧ (inject e Jf c).F = c.F := by
  unfold inject
  by_cases h : Jf - c.J > 0
  · simp only [if_pos h, iso, store, zero_add]
    rw [max_eq_left h.le]
    exact ⟨by field_simp; ring, by funext i; field_simp⟩
  · simp only [if_neg h]
    rw [max_eq_right (not_lt.1 h)]; simp

/-- **C127** The flux ceiling keeps the energy density and the direction of the flux. -/
theorem cap_direction (e : Env) (ximax : ℝ) (c : Cell) (hJ : c.J ≠ 0) (hx : 0 < ximax) :
    (cap e ximax c).J = c.J ∧ ∃ s, 0 < s ∧ s ≤ 1 ∧ (cap e ximax c).H = fun i => s * c.H i := by
  unfold cap
  by_cases h : Real.sqrt (hsq e.G e.v c.H) > ximax
  · simp only [if_pos h]
    have hpos := lt_trans hx h
    exact ⟨trivial, ximax / Real.sqrt (hsq e.G e.v c.H), by positivity, by rw [div_le_one hpos]; exact h.le, by funext i; field_simp⟩
  · simp only [if_neg h]
    exact ⟨trivial, 1, one_pos, le_rfl, by simp⟩

/-- **C127** The floor itself: positive if and only if `J0` is; the exponential floor with a negative exponent decreases outwards. -/
theorem floor_sign (J0 a x1 : ℝ) : (0 < (JFloor.constant J0).at x1 ↔ 0 < J0) ∧ (0 < (JFloor.expX1 J0 a).at x1 ↔ 0 < J0) := by
  simp [JFloor.at, Real.exp_pos]

theorem floor_decreasing (J0 a x y : ℝ) (h0 : 0 < J0) (ha : a < 0) (hxy : x < y) : (JFloor.expX1 J0 a).at y < (JFloor.expX1 J0 a).at x := by
  simp only [JFloor.at]
  exact mul_lt_mul_of_pos_left (Real.exp_lt_exp.2 (by nlinarith)) h0

/-! ### flags -/

/-- **C127** Radiation floors in the input switch the whole floor pass on exactly when radiation is on; a run with radiation floors needs one of
the three moment methods, and then the closure is the one named. -/
theorem flags_spec (f : Flags) (m : String) :
    (f.stored.radFloors = (f.radFloors && f.rad)) ∧ (f.stored.radFloors = true → f.stored.floors = true) ∧
    (dispatch f.stored m = none ↔ f.stored.radFloors = true ∧ m ≠ "moment_m1" ∧ m ≠ "moment_eddington" ∧ m ≠ "mocmc") ∧
    (f.stored.radFloors = true → (dispatch f.stored m = some .m1 ↔ m = "moment_m1") ∧
      (dispatch f.stored m = some .eddington ↔ m = "moment_eddington") ∧ (dispatch f.stored m = some .mocmc ↔ m = "mocmc")) := by
  refine ⟨rfl, ?_, ?_, ?_⟩
  · intro h; simp only [Flags.stored] at h ⊢; rw [h]; simp
  · unfold dispatch
    by_cases hr : f.stored.radFloors = true
    · simp only [hr, if_true, true_and]
      split_ifs with h1 h2 h3 <;> simp_all
    · simp [hr]
  · intro hr
    unfold dispatch
    simp only [hr, if_true]
    refine ⟨?_, ?_, ?_⟩ <;> split_ifs with h1 h2 h3 <;> simp_all

/-- **C127** the stored switches: floors run if requested, or needed by the repair of failed inversions, or by one of the two ceilings or floors of an active package. -/
theorem flags_all (f : Flags) :
    (f.stored.floors = true ↔ f.floors = true ∨ f.c2pFixup = true ∨ (f.mhdFloors = true ∧ f.mhd = true) ∨ (f.radFloors = true ∧ f.rad = true)) ∧
    (f.stored.mhdFloors = true ↔ f.mhdFloors = true ∧ f.mhd = true) ∧ (f.stored.radCeilings = true ↔ f.radCeilings = true ∧ f.rad = true) ∧
    f.stored.c2pFixup = f.c2pFixup ∧ f.stored.mhd = f.mhd ∧ f.stored.rad = f.rad := by
  simp [Flags.stored, or_assoc]

/-- **C127** With radiation floors enabled the pass is applied to every species of an active radiation package. -/
theorem applied (f : Flags) (hf : f.stored.radFloors = true) (n : ℕ) (e : Env) (t : Bool) (Jf xm : ℝ) (c : ℕ → Cell) (s : ℕ) (hs : s < n) :
    applyRad f.stored true n e t Jf xm c s = pass e t Jf xm (c s) := by
  have h := (flags_spec f "").2.1 hf
  simp [applyRad, hf, h, hs]

/-- **C127 (finding)** Without radiation floors the radiation variables are never touched: the flux ceiling requested by
`enable_rad_ceilings` is not applied by this pass, and the moments are not refreshed after a fluid floor changed the velocity. -/
theorem not_applied (f : Flags) (hf : f.stored.radFloors = false) (a : Bool) (n : ℕ) (e : Env) (t : Bool) (Jf xm : ℝ) (c : ℕ → Cell) :
    applyRad f.stored a n e t Jf xm c = c := by
  unfold applyRad
  cases h : f.stored.floors && a
  · simp
  · simp [hf]

/-! ### witnesses -/

/-- flat space. -/
noncomputable def flat : ADM ℝ := ⟨1, fun _ => 0, fun i j => if i = j then 1 else 0, fun i j => if i = j then 1 else 0⟩

theorem flat_valid : flat.Valid := by
  refine ⟨by simp [flat], ?_, ?_, ?_⟩ <;> intro i j <;> simp [flat, eq_comm]

theorem flat_pos : PosDef flat := by
  intro v; simp [flat, ADM.dot3, Fin.sum_univ_three]; nlinarith [sq_nonneg (v 0), sq_nonneg (v 1), sq_nonneg (v 2)]

/-- velocity 3/5 along the first axis: Lorentz factor 5/4. -/
noncomputable def v35 : Vec := ![3 / 5, 0, 0]

theorem v35_slow : Slow flat v35 := by
  simp [Slow, flat, v35, ADM.dot3, Fin.sum_univ_three]; norm_num

theorem v35_W : W flat v35 = 5 / 4 := by
  have h : cc v35 (Closure.lower flat v35) = 9 / 25 := by
    simp [cc, Closure.lower, flat, v35, Fin.sum_univ_three]; norm_num
  unfold W v2
  rw [h, min_eq_left (by norm_num), show (1:ℝ) - 9 / 25 = (4 / 5) ^ 2 by norm_num, Real.sqrt_sq (by norm_num)]
  norm_num

/-- Eddington environment in flat space. -/
noncomputable def env (v : Vec) : Env := ⟨0, 0, flat, 1, v, fun _ _ => 0, fun _ _ => 0⟩

theorem env_edd (v : Vec) : Edd (env v) := ⟨rfl, le_rfl, fun _ _ => rfl, fun _ _ => rfl⟩

/-- the hypotheses of `pass_enforces_partial` are met by gas at three fifths of the speed of light whose radiation was erased (`E = F = 0`, refreshed
because a fluid floor moved the gas): the floor 1 is enforced by injecting unit energy. -/
theorem ex_pass : 1 ≤ (pass (env v35) true 1 (99 / 100) ⟨5, fun _ => 2, 0, fun _ => 0⟩).J ∧
    fluxFac (env v35) (pass (env v35) true 1 (99 / 100) ⟨5, fun _ => 2, 0, fun _ => 0⟩) ≤ 99 / 100 ∧
    Consistent (env v35) (pass (env v35) true 1 (99 / 100) ⟨5, fun _ => 2, 0, fun _ => 0⟩) :=
  pass_enforces_partial (env_edd _) flat_valid flat_pos v35_slow one_pos true 1 (99 / 100) one_pos (by norm_num) (by norm_num) _ (Or.inl rfl)

/-- and the injected energy is seen boosted: the rest-frame energy density becomes 51/33, more than the floor 1. -/
theorem ex_boosted : (inject (env v35) 1 (refresh (env v35) true ⟨5, fun _ => 2, 0, fun _ => 0⟩)).J = 17 / 11 := by
  have h0 : (refresh (env v35) true ⟨5, fun _ => 2, 0, fun _ => 0⟩).J = 0 := by
    simp only [refresh, if_true, store]
    rw [invert_J (env_edd _)]
    simp [con2primRaw, env, cc, ratio_zero]
  have hE : (refresh (env v35) true ⟨5, fun _ => 2, 0, fun _ => 0⟩).E = 0 := by simp [refresh, store]
  have hF : (refresh (env v35) true ⟨5, fun _ => 2, 0, fun _ => 0⟩).F = fun _ => 0 := by simp [refresh, store]
  unfold inject
  rw [h0, hE, hF]
  simp only [sub_zero, gt_iff_lt, one_pos, if_true, iso, store]
  rw [invert_J (env_edd _)]
  simp only [con2primRaw, ratio_zero, env, lam_zero, W2, v35_W, cc, Bool.false_eq_true, if_false]
  norm_num

theorem rest_W : W flat (fun _ => 0) = 1 := by
  have h : cc (fun _ : Fin 3 => (0:ℝ)) (Closure.lower flat fun _ => 0) = 0 := by simp [cc]
  unfold W v2; rw [h, min_eq_left (by norm_num)]; simp

theorem rest_prim2con (J : ℝ) (H : Vec) : prim2con false flat (fun _ => 0) 0 J H = (J, H) := by
  refine Prod.ext ?_ (funext fun i => ?_)
  · simp only [prim2con, vvPi_zero, W2, rest_W, cc, Bool.false_eq_true, if_false]; simp; ring
  · simp only [prim2con, covVPi_zero, rest_W, cc]; simp [Closure.lower]

theorem rest_raw (E : ℝ) (F : Vec) : con2primRaw 0 false flat (fun _ => 0) 0 E F = (E, F) := by
  have h := con2prim_prim2con_raw flat_valid (v := fun _ => 0) (by simp [Slow, ADM.dot3]; norm_num) 0 (lam_zero_pos _ _).ne' E F
  rwa [rest_prim2con] at h

theorem rest_consistent (c : Cell) : Consistent (env fun _ => 0) c ↔ c.E = c.J ∧ ∀ i, c.F i = c.J * c.H i := by
  simp only [Consistent, env, rest_prim2con, one_mul]

/-- **C127 (finding)** With the default floor `J0_floor = 0` and gas at rest, a cell with negative energy density is brought to exactly `J = 0` while
its flux is kept: the ratio `H_i / J` the pass stores is a division by zero, and no value of it represents the stored flux. -/
theorem zero_floor_divides_by_zero : ∃ (c : Cell), Consistent (env fun _ => 0) c ∧ c.J < 0 ∧
    (inject (env fun _ => 0) ((JFloor.constant 0).at 0) c).J = 0 ∧
    ∀ H : Vec, ¬ Consistent (env fun _ => 0) { inject (env fun _ => 0) ((JFloor.constant 0).at 0) c with H := H } := by
  have h0 : (JFloor.constant 0).at 0 = 0 := rfl
  rw [h0]
  have hJ : (inject (env fun _ => 0) 0 ⟨-1, fun _ => 1, -1, fun _ => -1⟩).J = 0 := by
    unfold inject
    rw [if_pos (show (0:ℝ) - -1 > 0 by norm_num)]
    simp only [store]
    rw [invert_J (env_edd _)]
    simp only [env, rest_raw, iso]; norm_num
  refine ⟨⟨-1, fun _ => 1, -1, fun _ => -1⟩, ?_, by norm_num, hJ, ?_⟩
  · rw [rest_consistent]; simp
  · intro H h
    rw [rest_consistent] at h
    have h2 := h.2 0
    simp only [hJ, (inject_amount (env fun _ => 0) one_pos 0 ⟨-1, fun _ => 1, -1, fun _ => -1⟩).2] at h2
    norm_num at h2

/-- **C127 (finding)** Without a flux ceiling below 0.999 the pass can leave primitive and conserved moments inconsistent: the inversion scales the flux
down to the factor 0.999 and reports `modified`, which is ignored. -/
theorem no_ceiling_inconsistent : ∃ (c : Cell), ∀ ximax : ℝ, 1 ≤ ximax → ¬ Consistent (env fun _ => 0) (pass (env fun _ => 0) true 1 ximax c) := by
  have hq : hsq flat (fun _ => 0) ![2, 0, 0] = 4 := by simp [hsq, ccov, cc, flat, Fin.sum_univ_three]; norm_num
  have hsq4 : Real.sqrt 4 = 2 := by rw [show (4:ℝ) = 2 ^ 2 by norm_num, Real.sqrt_sq (by norm_num)]
  set c : Cell := ⟨0, fun _ => 0, 1, ![2, 0, 0]⟩ with hc
  have hF : (fun i => c.F i / 1) = ![2, 0, 0] := by funext i; simp [hc]
  have hinv : invert (env fun _ => 0) (c.E / 1) (fun i => c.F i / 1) = (1, fun i => (![2, 0, 0] : Vec) i * (0.999 / (2 / 1))) := by
    rw [hF]
    simp only [invert, con2prim, env]
    rw [show c.E / 1 = 1 by simp [hc], rest_raw]
    simp only [con2primCheck, hq, hsq4]
    norm_num
  have href : refresh (env fun _ => 0) true c = ⟨1, ![0.999, 0, 0], 1, ![2, 0, 0]⟩ := by
    have h1 : (env fun _ => 0).sdet = 1 := rfl
    simp only [refresh, if_true, h1, hinv, store]
    simp only [hc, Cell.mk.injEq, true_and, and_true]
    funext i; fin_cases i <;> norm_num
  refine ⟨c, fun xm hx => ?_⟩
  have hq2 : hsq flat (fun _ => 0) ![0.999, 0, 0] = 0.999 ^ 2 := by simp [hsq, ccov, cc, flat, Fin.sum_univ_three]; norm_num
  have hp : pass (env fun _ => 0) true 1 xm c = ⟨1, ![0.999, 0, 0], 1, ![2, 0, 0]⟩ := by
    unfold pass
    rw [href]
    simp only [inject, sub_self, gt_iff_lt, lt_irrefl, if_false, cap]
    rw [if_neg]
    simp only [env, hq2]
    rw [Real.sqrt_sq (by norm_num), not_lt]; linarith
  rw [hp, rest_consistent]
  intro h
  have := h.2 0
  norm_num at this

/-- **C127 (finding)** Stale moments without radiation floors: a cell that was consistent for gas moving at 3/5 is not consistent for the gas at rest
that a fluid floor failure leaves behind, and the pass (radiation floors off) does not change it. -/
theorem stale_without_floors : ∃ (c : Cell), Consistent (env v35) c ∧ ∀ (f : Flags), f.stored.radFloors = false → ∀ n Jf xm,
    ¬ Consistent (env fun _ => 0) (applyRad f.stored true n (env fun _ => 0) true Jf xm (fun _ => c) 0) := by
  refine ⟨⟨1, fun _ => 0, (prim2con false flat v35 0 1 fun _ => 0).1, (prim2con false flat v35 0 1 fun _ => 0).2⟩, ?_, ?_⟩
  · simp [Consistent, env]
  · intro f hf n Jf xm
    rw [not_applied f hf, rest_consistent]
    intro h
    have := h.2 0
    simp only [prim2con, covVPi_zero, W2, v35_W, cc] at this
    simp [Closure.lower, flat, v35, Fin.sum_univ_three] at this

/-- **C127 (finding)** With a pressure tensor (here that of radiation streaming along gas moving at 4/5 of the speed of light, as the closures build or
store it) the injected energy does not reach the floor. -/
theorem stored_pressure_below_floor : ∃ (e : Env), e.G.Valid ∧ PosDef e.G ∧ Slow e.G e.v ∧ e.sdet = 1 ∧ e.small = 0 ∧ 0 ≤ e.SMALL ∧
    (∀ E F, e.piCon E F = tilPi e.G e.v 1 ![5 / 3, 0, 0]) ∧
    (inject e 1 ⟨0, fun _ => 0, 0, fun _ => 0⟩).J < 1 := by
  set v : Vec := ![4 / 5, 0, 0] with hv
  have hW : W flat v = 5 / 3 := by
    have h : cc v (Closure.lower flat v) = 16 / 25 := by
      simp [cc, Closure.lower, flat, hv, Fin.sum_univ_three]; norm_num
    unfold W v2
    rw [h, min_eq_left (by norm_num), show (1:ℝ) - 16 / 25 = (3 / 5) ^ 2 by norm_num, Real.sqrt_sq (by norm_num)]
    norm_num
  have hp : vvPi flat v (tilPi flat v 1 ![5 / 3, 0, 0]) = 32 / 27 := by
    simp only [vvPi, conVPi, tilPi, Closure.lower, W2, hW, athin, eddFactor, Fin.sum_univ_three]
    simp [flat, hv]; norm_num
  refine ⟨⟨0, 0, flat, 1, v, fun _ _ => tilPi flat v 1 ![5 / 3, 0, 0], fun _ _ => 0⟩, flat_valid, flat_pos, ?_, rfl, rfl, le_rfl, fun _ _ => rfl, ?_⟩
  · simp [Slow, flat, hv, ADM.dot3, Fin.sum_univ_three]; norm_num
  · simp only [inject, sub_zero, gt_iff_lt, one_pos, if_true, iso, store, invert, con2prim]
    rw [check_J _ le_rfl]
    simp only [con2primRaw, ratio_zero, lam, W2, hW, hp, cc, Bool.false_eq_true, if_false]
    norm_num

end Phoebus.RadFloors
