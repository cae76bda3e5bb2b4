import Verif.Pgen.Flows
import Mathlib.MeasureTheory.Measure.Lebesgue.VolumeOfBalls

/-!
# C92-C94: the fluid test problems start from the state they describe
-/
namespace Phoebus.Pgen
open Geom Finset Real

/-! ### C92: velocities -/

/-- C92. Kelvin-Helmholtz and advection: the stored velocity has Lorentz factor `1/√(1-v²)` and the evolution code
recovers exactly the three-velocity requested, for every subluminal velocity.

Partial form of C92. Full property: The three-velocity recovered from the stored variables is the velocity requested
in the input, for every subluminal input (Kelvin-Helmholtz, advection, rotor). Missing: Proved for Kelvin-Helmholtz,
advection and rotor; false for the shock tube (shockStore_slow). -/
theorem boostStore_recovers_partial (G : ADM ℝ) (hp : Rel.PosDef G) (v : Fin 3 → ℝ) (hv : G.dot3 v v < 1) :
    Rel.lorentz G.gam (boostStore G.gam v) = 1 / √(1 - G.dot3 v v) ∧ Rel.pv G ⟨0, 0, 0, boostStore G.gam v, 0⟩ = v := by
  have h0 : 0 < 1 - G.dot3 v v := by linarith
  have hs : 0 < √(1 - G.dot3 v v) := Real.sqrt_pos.2 h0
  have hsq : √(1 - G.dot3 v v) ^ 2 = 1 - G.dot3 v v := Real.sq_sqrt h0.le
  have hbs : boostStore G.gam v = fun i => 1 / √(1 - G.dot3 v v) * v i + 0 * v i := by
    funext i; simp only [boostStore, ADM.dot3]; ring
  have hl : Rel.lorentz G.gam (boostStore G.gam v) = 1 / √(1 - G.dot3 v v) := by
    have h1 := Rel.lorentz_sq G hp (boostStore G.gam v)
    have h2 := Rel.lorentz_pos G hp (boostStore G.gam v)
    refine (sq_eq_sq₀ h2.le (by positivity)).1 ?_
    rw [h1, hbs, Rel.dot3_add_left, Rel.dot3_add_right]
    field_simp
    rw [hsq]; ring
  refine ⟨hl, ?_⟩
  funext i
  simp only [Rel.pv, hl]
  rw [hbs]
  field_simp
  ring

/-- C92. Rotor: the four-velocity handed to the chart transformation is that of the rigidly rotating disc. -/
theorem rotorU_eq (r0 omega x y : ℝ) (hsub : r0 * |omega| < 1) (h0 : 0 < r0) :
    let w := if √(x * x + y * y) < r0 then omega else 0
    let u := rotorU r0 omega x y
    u = flatU ![u 1, u 2, u 3] ∧ 1 ≤ u 0 ∧ u 1 / u 0 = -y * w ∧ u 2 / u 0 = x * w ∧ u 3 = 0 := by
  intro w u
  have hv : (-y * w) * (-y * w) + (x * w) * (x * w) < 1 := by
    by_cases h : √(x * x + y * y) < r0
    · have hw : w = omega := if_pos h
      rw [hw]
      have hr := Real.sq_sqrt (show 0 ≤ x * x + y * y by nlinarith [mul_self_nonneg x, mul_self_nonneg y])
      have hrn := Real.sqrt_nonneg (x * x + y * y)
      have e : (-y * omega) * (-y * omega) + (x * omega) * (x * omega) = (√(x * x + y * y) * |omega|) ^ 2 := by
        rw [mul_pow, hr, sq_abs]; ring
      rw [e]
      have h1 : √(x * x + y * y) * |omega| ≤ r0 * |omega| := mul_le_mul_of_nonneg_right h.le (abs_nonneg _)
      have h2 : 0 ≤ √(x * x + y * y) * |omega| := by positivity
      nlinarith
    · have hw : w = 0 := if_neg h
      rw [hw]; norm_num
  have h0' : 0 < 1 - (-y * w) * (-y * w) - (x * w) * (x * w) := by linarith
  have hs : 0 < √(1 - (-y * w) * (-y * w) - (x * w) * (x * w)) := Real.sqrt_pos.2 h0'
  have hsq := Real.sq_sqrt h0'.le
  have hu : u = ![1 / √(1 - (-y * w) * (-y * w) - (x * w) * (x * w)), 1 / √(1 - (-y * w) * (-y * w) - (x * w) * (x * w)) * (-y * w),
      1 / √(1 - (-y * w) * (-y * w) - (x * w) * (x * w)) * (x * w), 0] := rfl
  obtain ⟨S, hS⟩ : ∃ S, S = √(1 - (-y * w) * (-y * w) - (x * w) * (x * w)) := ⟨_, rfl⟩
  rw [← hS] at hs hsq hu
  have h1 : S ≤ 1 := by nlinarith [mul_self_nonneg (-y * w), mul_self_nonneg (x * w)]
  rw [hu]
  refine ⟨?_, ?_, ?_, ?_, rfl⟩
  · have e : √(1 + (1 / S * (-y * w) * (1 / S * (-y * w)) + 1 / S * (x * w) * (1 / S * (x * w)) + 0 * 0)) = 1 / S := by
      rw [show 1 + (1 / S * (-y * w) * (1 / S * (-y * w)) + 1 / S * (x * w) * (1 / S * (x * w)) + 0 * 0) = (1 / S) ^ 2 by
        field_simp; linear_combination hsq]
      exact Real.sqrt_sq (by positivity)
    funext i
    refine Fin.cases ?_ (fun d => ?_) i
    · show 1 / S = √(1 + (1 / S * (-y * w) * (1 / S * (-y * w)) + 1 / S * (x * w) * (1 / S * (x * w)) + 0 * 0))
      rw [e]
    · fin_cases d <;> rfl
  · show 1 ≤ 1 / S
    rw [le_div_iff₀ hs]; linarith
  · show 1 / S * (-y * w) / (1 / S) = _
    field_simp
  · show 1 / S * (x * w) / (1 / S) = _
    field_simp

/-- C92, shock tube: the velocity actually set up is `v √(1+v²) / √(1+v²+v⁴)`, not `v`. -/
theorem shockStore_velocity (vel : ℝ) (X : Fin 4 → ℝ) :
    Rel.pv (Metrics.adm Metrics.minkowski X) ⟨0, 0, 0, shockStore (Metrics.adm Metrics.minkowski X).gam vel, 0⟩ 0 =
      vel * √(1 + vel ^ 2) / √(1 + vel ^ 2 + vel ^ 4) := by
  have hl : ∀ v : Fin 3 → ℝ, Rel.lorentz (Metrics.adm Metrics.minkowski X).gam v = √(1 + (v 0 * v 0 + v 1 * v 1 + v 2 * v 2)) := by
    intro v; simp [Rel.lorentz, Metrics.adm, Metrics.minkowski, Fin.sum_univ_three]
  have hs : shockStore (Metrics.adm Metrics.minkowski X).gam vel = ![vel * √(1 + vel ^ 2), 0, 0] := by
    simp only [shockStore, hl]
    simp; left; congr 1; ring
  simp only [Rel.pv, hl, hs]
  have h : √(1 + vel ^ 2) ^ 2 = 1 + vel ^ 2 := Real.sq_sqrt (by positivity)
  have e : 1 + (vel * √(1 + vel ^ 2) * (vel * √(1 + vel ^ 2)) + 0 * 0 + 0 * 0) = 1 + vel ^ 2 + vel ^ 4 := by
    linear_combination vel ^ 2 * h
  simp only [Matrix.cons_val_zero, Matrix.cons_val_one, Matrix.cons_val]
  rw [e]; ring

/-- C92, shock tube: for every non-zero input velocity the state set up is strictly slower than requested; only a tube
at rest is set up as described. -/
theorem shockStore_slow (vel : ℝ) (h : vel ≠ 0) : |vel * √(1 + vel ^ 2) / √(1 + vel ^ 2 + vel ^ 4)| < |vel| := by
  rw [abs_div, abs_mul, abs_of_nonneg (Real.sqrt_nonneg _), abs_of_nonneg (Real.sqrt_nonneg _), mul_div_assoc]
  have h4 : 0 < vel ^ 4 := by positivity
  have h1 : 0 < √(1 + vel ^ 2 + vel ^ 4) := Real.sqrt_pos.2 (by positivity)
  have h2 : √(1 + vel ^ 2) < √(1 + vel ^ 2 + vel ^ 4) := Real.sqrt_lt_sqrt (by positivity) (by linarith)
  have : √(1 + vel ^ 2) / √(1 + vel ^ 2 + vel ^ 4) < 1 := (div_lt_one h1).2 h2
  nlinarith [abs_pos.2 h]

/-- and an input velocity above the speed of light is accepted: the state is subluminal. -/
theorem shockStore_subluminal (vel : ℝ) : |vel * √(1 + vel ^ 2) / √(1 + vel ^ 2 + vel ^ 4)| < 1 := by
  have h1 : 0 < √(1 + vel ^ 2 + vel ^ 4) := Real.sqrt_pos.2 (by positivity)
  rw [abs_div, abs_of_pos h1, div_lt_one h1]
  apply Real.lt_sqrt_of_sq_lt
  rw [sq_abs, mul_pow, Real.sq_sqrt (by positivity)]
  nlinarith

/-- non-trivial instance: half light speed along each of two axes. -/
example : ADM.dot3 (Metrics.adm Metrics.minkowski 0) ![1 / 2, 1 / 2, 0] ![1 / 2, 1 / 2, 0] < 1 := by
  simp [ADM.dot3, Metrics.adm, Metrics.minkowski, Fin.sum_univ_three]; norm_num

/-- the defaults of the rotor problem. -/
example : (0.1 : ℝ) * |9.95| < 1 := by rw [abs_of_pos] <;> norm_num

/-! ### C93: Blandford-McKee data -/

/-- Spherically symmetric special-relativistic hydrodynamics with `e = ρ + 3P`, at `(t, r)`. -/
structure SphericalEuler (rho P v : ℝ → ℝ → ℝ) (t r : ℝ) : Prop where
  mass : ∃ a b, HasDerivAt (fun s => rho s r * (1 / √(1 - v s r ^ 2))) a t ∧
    HasDerivAt (fun s => s ^ 2 * (rho t s * (1 / √(1 - v t s ^ 2)) * v t s)) b r ∧ a + b / r ^ 2 = 0
  energy : ∃ a b, HasDerivAt (fun s => (rho s r + 4 * P s r) * (1 / (1 - v s r ^ 2)) - P s r) a t ∧
    HasDerivAt (fun s => s ^ 2 * ((rho t s + 4 * P t s) * (1 / (1 - v t s ^ 2)) * v t s)) b r ∧ a + b / r ^ 2 = 0
  momentum : ∃ a b c, HasDerivAt (fun s => (rho s r + 4 * P s r) * (1 / (1 - v s r ^ 2)) * v s r) a t ∧
    HasDerivAt (fun s => s ^ 2 * ((rho t s + 4 * P t s) * (1 / (1 - v t s ^ 2)) * v t s ^ 2)) b r ∧
    HasDerivAt (fun s => P t s) c r ∧ a + b / r ^ 2 + c = 0

/-- homologous expansion: `v = r/t`, `ρ = C τ⁻³`, `P = D τ⁻⁴`, `τ² = t² - r²`. -/
noncomputable def homRho (C t r : ℝ) : ℝ := C / √(t ^ 2 - r ^ 2) ^ 3
noncomputable def homP (D t r : ℝ) : ℝ := D / (t ^ 2 - r ^ 2) ^ 2
noncomputable def homV (t r : ℝ) : ℝ := r / t

/-- C93. Homologous expansion solves the equations. -/
theorem hom_solves (C D t r : ℝ) (ht : 0 < t) (hr : r ≠ 0) (hrt : |r| < t) :
    SphericalEuler (homRho C) (homP D) homV t r := by
  have hpos : ∀ {a b : ℝ}, 0 < a → |b| < a → 0 < a ^ 2 - b ^ 2 := by
    intro a b ha hb
    have : b ^ 2 < a ^ 2 := by rw [← sq_abs b]; exact pow_lt_pow_left₀ hb (abs_nonneg _) (by norm_num)
    linarith
  have hq := hpos ht hrt
  have hS : 0 < √(t ^ 2 - r ^ 2) := Real.sqrt_pos.2 hq
  have hSq : √(t ^ 2 - r ^ 2) ^ 2 = t ^ 2 - r ^ 2 := Real.sq_sqrt hq.le
  have ht' := ht.ne'
  -- neighbourhoods
  have hevt : ∀ᶠ s in nhds t, 0 < s ∧ |r| < s :=
    (lt_mem_nhds ht).and (lt_mem_nhds hrt)
  have hevr : ∀ᶠ s in nhds r, |s| < t := (continuous_abs.continuousAt).eventually (gt_mem_nhds hrt)
  -- Lorentz factor
  have hW : ∀ {a b : ℝ}, 0 < a → |b| < a → 1 / √(1 - (b / a) ^ 2) = a / √(a ^ 2 - b ^ 2) := by
    intro a b ha hb
    rw [show 1 - (b / a) ^ 2 = (a ^ 2 - b ^ 2) / a ^ 2 by field_simp, Real.sqrt_div (hpos ha hb).le, Real.sqrt_sq ha.le]
    have := (Real.sqrt_pos.2 (hpos ha hb)).ne'
    field_simp
  have hW2 : ∀ {a b : ℝ}, 0 < a → |b| < a → 1 / (1 - (b / a) ^ 2) = a ^ 2 / (a ^ 2 - b ^ 2) := by
    intro a b ha hb
    rw [show 1 - (b / a) ^ 2 = (a ^ 2 - b ^ 2) / a ^ 2 by field_simp]
    field_simp
  -- derivatives
  have dq_t : HasDerivAt (fun s : ℝ => s ^ 2 - r ^ 2) (2 * t) t := by
    simpa using (hasDerivAt_pow 2 t).sub_const (r ^ 2)
  have dq_r : HasDerivAt (fun s : ℝ => t ^ 2 - s ^ 2) (-(2 * r)) r := by
    simpa using (hasDerivAt_pow 2 r).const_sub (t ^ 2)
  have dS_t : HasDerivAt (fun s : ℝ => √(s ^ 2 - r ^ 2)) (t / √(t ^ 2 - r ^ 2)) t :=
    (dq_t.sqrt hq.ne').congr_deriv (by field_simp)
  have dS_r : HasDerivAt (fun s : ℝ => √(t ^ 2 - s ^ 2)) (-r / √(t ^ 2 - r ^ 2)) r :=
    (dq_r.sqrt hq.ne').congr_deriv (by field_simp)
  have did : ∀ z : ℝ, HasDerivAt (fun s : ℝ => s) 1 z := fun z => hasDerivAt_id z
  have hSx : ∀ {a b : ℝ}, 0 < a → |b| < a → √(a ^ 2 - b ^ 2) ^ 2 = a ^ 2 - b ^ 2 := fun ha hb => Real.sq_sqrt (hpos ha hb).le
  refine ⟨?_, ?_, ?_⟩
  · -- mass: C t / (t²-r²)²  and  C r³ / (t²-r²)²
    have d1 : HasDerivAt (fun s : ℝ => C * s / (s ^ 2 - r ^ 2) ^ 2) _ t := ((did t).const_mul C).div (dq_t.pow 2) (pow_ne_zero 2 hq.ne')
    have d2 : HasDerivAt (fun s : ℝ => s ^ 2 * (C * s / (t ^ 2 - s ^ 2) ^ 2)) _ r :=
      (hasDerivAt_pow 2 r).mul (((did r).const_mul C).div (dq_r.pow 2) (pow_ne_zero 2 hq.ne'))
    refine ⟨_, _, d1.congr_of_eventuallyEq ?_, d2.congr_of_eventuallyEq ?_, ?_⟩
    · filter_upwards [hevt] with s hs
      have h1 := (Real.sqrt_pos.2 (hpos hs.1 hs.2)).ne'
      simp only [homRho, homV]
      rw [hW hs.1 hs.2, ← hSx hs.1 hs.2]
      rw [Real.sqrt_sq (Real.sqrt_nonneg _)]
      field_simp
    · filter_upwards [hevr] with s hs
      have h1 := (Real.sqrt_pos.2 (hpos ht hs)).ne'
      simp only [homRho, homV]
      rw [hW ht hs, ← hSx ht hs]
      rw [Real.sqrt_sq (Real.sqrt_nonneg _)]
      field_simp
    · have hq' := hq.ne'
      norm_num
      obtain ⟨Q, hQ⟩ : ∃ Q, Q = t ^ 2 - r ^ 2 := ⟨_, rfl⟩
      rw [← hQ] at hq' ⊢
      field_simp
      rw [hQ]; ring
  · have d1 : HasDerivAt (fun s : ℝ => (C / √(s ^ 2 - r ^ 2) ^ 3 + 4 * (D / (s ^ 2 - r ^ 2) ^ 2)) * (s ^ 2 / (s ^ 2 - r ^ 2)) - D / (s ^ 2 - r ^ 2) ^ 2) _ t :=
      ((((hasDerivAt_const t C).div (dS_t.pow 3) (pow_ne_zero 3 hS.ne')).add
        (((hasDerivAt_const t D).div (dq_t.pow 2) (pow_ne_zero 2 hq.ne')).const_mul 4)).mul ((hasDerivAt_pow 2 t).div dq_t hq.ne')).sub
        ((hasDerivAt_const t D).div (dq_t.pow 2) (pow_ne_zero 2 hq.ne'))
    have d2 : HasDerivAt (fun s : ℝ => s ^ 2 * ((C / √(t ^ 2 - s ^ 2) ^ 3 + 4 * (D / (t ^ 2 - s ^ 2) ^ 2)) * (t ^ 2 / (t ^ 2 - s ^ 2)) * (s / t))) _ r :=
      (hasDerivAt_pow 2 r).mul (((((hasDerivAt_const r C).div (dS_r.pow 3) (pow_ne_zero 3 hS.ne')).add
        (((hasDerivAt_const r D).div (dq_r.pow 2) (pow_ne_zero 2 hq.ne')).const_mul 4)).mul ((hasDerivAt_const r (t ^ 2)).div dq_r hq.ne')).mul ((did r).div_const t))
    refine ⟨_, _, d1.congr_of_eventuallyEq ?_, d2.congr_of_eventuallyEq ?_, ?_⟩
    · filter_upwards [hevt] with s hs
      simp only [homRho, homV, homP]; rw [hW2 hs.1 hs.2]
    · filter_upwards [hevr] with s hs
      simp only [homRho, homV, homP]; rw [hW2 ht hs]
    · simp only [Pi.pow_apply]
      norm_num
      obtain ⟨S, hSe⟩ : ∃ S, S = √(t ^ 2 - r ^ 2) := ⟨_, rfl⟩
      rw [← hSe, ← hSq, ← hSe]
      rw [← hSe] at hS hSq
      have hS' := hS.ne'
      field_simp
      have e : t ^ 2 = S ^ 2 + r ^ 2 := by linarith
      rw [e]
      ring
  · have d1 : HasDerivAt (fun s : ℝ => (C / √(s ^ 2 - r ^ 2) ^ 3 + 4 * (D / (s ^ 2 - r ^ 2) ^ 2)) * (s ^ 2 / (s ^ 2 - r ^ 2)) * (r / s)) _ t :=
      ((((hasDerivAt_const t C).div (dS_t.pow 3) (pow_ne_zero 3 hS.ne')).add
        (((hasDerivAt_const t D).div (dq_t.pow 2) (pow_ne_zero 2 hq.ne')).const_mul 4)).mul ((hasDerivAt_pow 2 t).div dq_t hq.ne')).mul
        ((hasDerivAt_const t r).div (did t) ht')
    have d2 : HasDerivAt (fun s : ℝ => s ^ 2 * ((C / √(t ^ 2 - s ^ 2) ^ 3 + 4 * (D / (t ^ 2 - s ^ 2) ^ 2)) * (t ^ 2 / (t ^ 2 - s ^ 2)) * (s / t) ^ 2)) _ r :=
      (hasDerivAt_pow 2 r).mul (((((hasDerivAt_const r C).div (dS_r.pow 3) (pow_ne_zero 3 hS.ne')).add
        (((hasDerivAt_const r D).div (dq_r.pow 2) (pow_ne_zero 2 hq.ne')).const_mul 4)).mul ((hasDerivAt_const r (t ^ 2)).div dq_r hq.ne')).mul (((did r).div_const t).pow 2))
    have d3 : HasDerivAt (fun s : ℝ => homP D t s) _ r := (hasDerivAt_const r D).div (dq_r.pow 2) (pow_ne_zero 2 hq.ne')
    refine ⟨_, _, _, d1.congr_of_eventuallyEq ?_, d2.congr_of_eventuallyEq ?_, d3, ?_⟩
    · filter_upwards [hevt] with s hs
      simp only [homRho, homV, homP]; rw [hW2 hs.1 hs.2]
    · filter_upwards [hevr] with s hs
      simp only [homRho, homV, homP]; rw [hW2 ht hs]
    · simp only [Pi.pow_apply]
      norm_num
      obtain ⟨S, hSe⟩ : ∃ S, S = √(t ^ 2 - r ^ 2) := ⟨_, rfl⟩
      rw [← hSe, ← hSq, ← hSe]
      rw [← hSe] at hS hSq
      have hS' := hS.ne'
      field_simp
      have e : t ^ 2 = S ^ 2 + r ^ 2 := by linarith
      rw [e]
      ring

/-- C93. What the generator writes inside the shock is the slice `t = tshock / rescale` of a homologous expansion. -/
theorem bm_is_homologous (wshock tshock rho0 P0 r : ℝ) (hw : 1 < wshock) (ht : 0 < tshock) (hr : |r| < tshock) :
    let s := bmRescale wshock
    bmVel s tshock r = homV (tshock / s) r ∧
      bmRho s tshock rho0 r = homRho (rho0 / s ^ 3) (tshock / s) r ∧
      bmP s tshock P0 r = homP (P0 / s ^ 2) (tshock / s) r := by
  intro s
  have hin : 0 < 1 - 1 / (wshock * wshock) := by
    have : 1 / (wshock * wshock) < 1 := by rw [div_lt_one (by positivity)]; nlinarith
    linarith
  have hs : 0 < s := Real.sqrt_pos.2 hin
  have hs2 : s ^ 2 = 1 - 1 / (wshock * wshock) := Real.sq_sqrt hin.le
  have hs1 : s < 1 := by
    have : 0 < 1 / (wshock * wshock) := by positivity
    nlinarith
  have hv : bmVel s tshock r = s * r / tshock := if_pos hr
  have hQ : 0 < (tshock / s) ^ 2 - r ^ 2 := by
    have h1 : r ^ 2 < tshock ^ 2 := by rw [← sq_abs r]; exact pow_lt_pow_left₀ hr (abs_nonneg _) (by norm_num)
    have h2 : tshock ^ 2 ≤ (tshock / s) ^ 2 := by
      apply pow_le_pow_left₀ ht.le
      rw [le_div_iff₀ hs]; nlinarith
    linarith
  have hW : bmW s tshock r / tshock = 1 / (s * √((tshock / s) ^ 2 - r ^ 2)) := by
    simp only [bmW, hv]
    rw [show 1 - s * r / tshock * (s * r / tshock) = ((tshock / s) ^ 2 - r ^ 2) * (s / tshock) ^ 2 by field_simp,
      Real.sqrt_mul hQ.le, Real.sqrt_sq (by positivity)]
    have := (Real.sqrt_pos.2 hQ).ne'
    field_simp
  have hS := (Real.sqrt_pos.2 hQ).ne'
  have hS4 : √((tshock / s) ^ 2 - r ^ 2) ^ 4 = ((tshock / s) ^ 2 - r ^ 2) ^ 2 := by
    rw [show √((tshock / s) ^ 2 - r ^ 2) ^ 4 = (√((tshock / s) ^ 2 - r ^ 2) ^ 2) ^ 2 by ring, Real.sq_sqrt hQ.le]
  refine ⟨?_, ?_, ?_⟩
  · rw [hv, homV]; field_simp
  · simp only [bmRho, hW, homRho]
    rw [div_pow, mul_pow]
    field_simp
  · simp only [bmP, hW, homP]
    rw [div_pow, mul_pow, hS4]
    have := hQ.ne'
    obtain ⟨Q, hQe⟩ : ∃ Q, Q = (tshock / s) ^ 2 - r ^ 2 := ⟨_, rfl⟩
    rw [← hQe] at this ⊢
    field_simp

/-- C93. The data inside the shock solve the equations of relativistic hydrodynamics at that instant (`Γ = 4/3` gas). -/
theorem bm_solves (wshock tshock rho0 P0 r : ℝ) (hw : 1 < wshock) (ht : 0 < tshock) (hr : |r| < tshock) (hr0 : r ≠ 0) :
    let s := bmRescale wshock
    ∃ rho P v : ℝ → ℝ → ℝ,
      (∀ x, |x| < tshock → rho (tshock / s) x = bmRho s tshock rho0 x ∧ P (tshock / s) x = bmP s tshock P0 x ∧
        v (tshock / s) x = bmVel s tshock x) ∧
      SphericalEuler rho P v (tshock / s) r := by
  intro s
  have hin : 0 < 1 - 1 / (wshock * wshock) := by
    have : 1 / (wshock * wshock) < 1 := by rw [div_lt_one (by positivity)]; nlinarith
    linarith
  have hs : 0 < s := Real.sqrt_pos.2 hin
  have hs2 : s ^ 2 = 1 - 1 / (wshock * wshock) := Real.sq_sqrt hin.le
  have hs1 : s < 1 := by
    have : 0 < 1 / (wshock * wshock) := by positivity
    nlinarith
  refine ⟨homRho (rho0 / s ^ 3), homP (P0 / s ^ 2), homV, fun x hx => ?_, ?_⟩
  · obtain ⟨h1, h2, h3⟩ := bm_is_homologous wshock tshock rho0 P0 x hw ht hx
    exact ⟨h2.symm, h3.symm, h1.symm⟩
  · refine hom_solves _ _ _ _ (by positivity) hr0 (lt_of_lt_of_le hr ?_)
    rw [le_div_iff₀ hs]; nlinarith

/-- C93. Towards the shock front the Lorentz factor tends to the requested one; every cell is slower, and gas outside is
at rest. -/
theorem bm_lorentz (wshock tshock r : ℝ) (hw : 1 < wshock) (ht : 0 < tshock) :
    bmW (bmRescale wshock) tshock r < wshock ∧ (tshock ≤ |r| → bmW (bmRescale wshock) tshock r = 1) ∧
      1 / √(1 - bmRescale wshock * bmRescale wshock) = wshock := by
  have hin : 0 < 1 - 1 / (wshock * wshock) := by
    have : 1 / (wshock * wshock) < 1 := by rw [div_lt_one (by positivity)]; nlinarith
    linarith
  have hs2 : bmRescale wshock * bmRescale wshock = 1 - 1 / (wshock * wshock) := Real.mul_self_sqrt hin.le
  have hw0 : (0:ℝ) < wshock := by linarith
  have hfin : 1 / √(1 - bmRescale wshock * bmRescale wshock) = wshock := by
    rw [hs2, show 1 - (1 - 1 / (wshock * wshock)) = (1 / wshock) ^ 2 by field_simp; ring, Real.sqrt_sq (by positivity)]
    field_simp
  refine ⟨?_, ?_, hfin⟩
  · by_cases hr : |r| < tshock
    · have hv : bmVel (bmRescale wshock) tshock r = bmRescale wshock * r / tshock := if_pos hr
      simp only [bmW, hv]
      refine lt_of_lt_of_eq ?_ hfin
      have hr2 : (r / tshock) ^ 2 < 1 := by
        rw [div_pow, div_lt_one (by positivity), ← sq_abs r]
        exact pow_lt_pow_left₀ hr (abs_nonneg _) (by norm_num)
      have e : bmRescale wshock * r / tshock * (bmRescale wshock * r / tshock) = (1 - 1 / (wshock * wshock)) * (r / tshock) ^ 2 := by
        rw [← hs2]; ring
      rw [e, hs2]
      apply one_div_lt_one_div_of_lt
      · apply Real.sqrt_pos.2
        have : 0 < 1 / (wshock * wshock) := by positivity
        linarith
      · apply Real.sqrt_lt_sqrt
        · have : 0 < 1 / (wshock * wshock) := by positivity
          linarith
        · nlinarith
    · have hv : bmVel (bmRescale wshock) tshock r = 0 := if_neg hr
      simp [bmW, hv, hw]
  · intro hr
    have hv : bmVel (bmRescale wshock) tshock r = 0 := if_neg (not_lt.2 hr)
    simp [bmW, hv]

/-- defaults: Lorentz factor 7 at radius 1/4. -/
example : (1:ℝ) < 7 ∧ (0:ℝ) < 0.25 ∧ |(0.1:ℝ)| < 0.25 ∧ (0.1:ℝ) ≠ 0 := by
  refine ⟨by norm_num, by norm_num, by rw [abs_of_pos] <;> norm_num, by norm_num⟩

/-! ### C94: energies and electron fractions -/

/-- C94. Whenever the search returns, the energy density is `ρ` times a specific energy inside the table that is within
`1e-10 P` of a solution of `P(ρ, e) = P`. -/
theorem energyFromRhoP_near (p : ℝ → ℝ) (rho P emin emax u : ℝ) (hab : emin ≤ emax) (hc : ContinuousOn p (Set.Icc emin emax))
    (h : energyFromRhoP p rho P emin emax = some u) :
    0 ≤ P ∧ ∃ e ∈ Set.Icc emin emax, u = rho * e ∧
      (∀ n, RootFind.regulaFalsi (pressResidual p P) emin emax (1e-10 * P) (emin - 1e10) false 0 intMax = .ret e .success n →
        ∃ z ∈ Set.Icc emin emax, p z = P ∧ |e - z| ≤ 1e-10 * P) := by
  unfold energyFromRhoP at h
  split_ifs at h with hP
  refine ⟨hP, ?_⟩
  have ht : (0:ℝ) ≤ 1e-10 * P := by positivity
  cases hr : RootFind.regulaFalsi (pressResidual p P) emin emax (1e-10 * P) (emin - 1e10) false 0 intMax with
  | ret e st n =>
    rw [hr] at h
    simp only [Option.some.injEq] at h
    refine ⟨e, RootFind.regulaFalsi_in_interval _ _ _ _ _ _ _ _ hab ht (by simp) _ _ _ hr, h.symm, fun n' h' => ?_⟩
    have h2 : (RootFind.Outcome.ret e st n : RootFind.Outcome ℝ) = .ret e .success n' := h'
    obtain ⟨z, hz, hz0, hz1⟩ := RootFind.regulaFalsi_success_near_root (pressResidual p P) emin emax (1e-10 * P) (emin - 1e10) false 0 intMax
      (by simp [intMax]) hab ht (hc.sub continuousOn_const) e n' (by rw [hr, h2])
    exact ⟨z, hz, by simpa [pressResidual, sub_eq_zero] using hz0, hz1⟩
  | nan _ _ => rw [hr] at h; simp at h
  | abort => rw [hr] at h; simp at h
  | undef => rw [hr] at h; simp at h

/-- C94. Ideal gas: the energy is exact (one false-position step), for every pressure strictly inside the table. -/
theorem energyFromRhoP_ideal (g rho P emin emax : ℝ) (hg : 1 < g) (hrho : 0 < rho) (hP : 0 ≤ P)
    (h1 : (g - 1) * rho * emin < P) (h2 : P < (g - 1) * rho * emax)
    (htol : 2 * (1e-10 * P) < emax - emin) :
    energyFromRhoP (fun e => (g - 1) * rho * e) rho P emin emax = some (P / (g - 1)) := by
  have hk : 0 < (g - 1) * rho := mul_pos (by linarith) hrho
  have hr : RootFind.regulaFalsi (pressResidual (fun e => (g - 1) * rho * e) P) emin emax (1e-10 * P) (emin - 1e10) false 0 intMax =
      .ret (P / ((g - 1) * rho)) .success 1 := by
    have hrb : RootFind.refineBracket (pressResidual (fun e => (g - 1) * rho * e) P) (emin - 1e10) emin emax =
        (emin, emax, pressResidual (fun e => (g - 1) * rho * e) P emin, pressResidual (fun e => (g - 1) * rho * e) P emax) := by
      unfold RootFind.refineBracket
      have hno : ¬ (emin ≤ emin - 1e10 ∧ emax ≥ emin - 1e10) := by
        rintro ⟨h, -⟩; norm_num at h
      rw [if_neg hno]
    unfold RootFind.regulaFalsi
    rw [hrb]
    simp only []
    have hya : pressResidual (fun e => (g - 1) * rho * e) P emin < 0 := by simp only [pressResidual]; linarith
    have hyb : 0 < pressResidual (fun e => (g - 1) * rho * e) P emax := by simp only [pressResidual]; linarith
    have hcb : RootFind.checkBracket (pressResidual (fun e => (g - 1) * rho * e) P emin) (pressResidual (fun e => (g - 1) * rho * e) P emax) = true := by
      unfold RootFind.checkBracket
      rw [if_neg]; exact not_lt.2 (mul_neg_of_neg_of_pos hya hyb).le
    rw [hcb]
    have hsg : RootFind.signOf (pressResidual (fun e => (g - 1) * rho * e) P emin) = 1 := if_pos hya
    rw [hsg]
    simp only [mul_one, Bool.not_true, Bool.false_eq_true, if_false]
    have hint : intMax - 0 = 2147483645 + 1 + 1 := rfl
    rw [hint]
    have hloop : RootFind.falsiLoop (pressResidual (fun e => (g - 1) * rho * e) P) 1 (1e-10 * P) (2147483645 + 1 + 1) emin emax
        (pressResidual (fun e => (g - 1) * rho * e) P emin) (pressResidual (fun e => (g - 1) * rho * e) P emax) 0 0 =
        (some (P / ((g - 1) * rho), P / ((g - 1) * rho)), 1) := by
      rw [RootFind.falsiLoop]
      rw [if_pos (by linarith), if_neg (by linarith)]
      have hc : (emin * pressResidual (fun e => (g - 1) * rho * e) P emax - emax * pressResidual (fun e => (g - 1) * rho * e) P emin) /
          (pressResidual (fun e => (g - 1) * rho * e) P emax - pressResidual (fun e => (g - 1) * rho * e) P emin) = P / ((g - 1) * rho) := by
        have hne : pressResidual (fun e => (g - 1) * rho * e) P emax - pressResidual (fun e => (g - 1) * rho * e) P emin ≠ 0 := by linarith
        rw [div_eq_div_iff hne hk.ne']
        simp only [pressResidual]; ring
      rw [hc]
      have hca : P / ((g - 1) * rho) ≠ emin := by
        intro h; rw [div_eq_iff hk.ne'] at h; linarith
      have hcb : P / ((g - 1) * rho) ≠ emax := by
        intro h; rw [div_eq_iff hk.ne'] at h; linarith
      simp only []
      rw [if_neg hca, if_neg hcb]
      have hy0 : pressResidual (fun e => (g - 1) * rho * e) P (P / ((g - 1) * rho)) = 0 := by
        simp only [pressResidual]; rw [mul_div_cancel₀ _ hk.ne', sub_self]
      rw [hy0]
      have hz : ¬ (P / ((g - 1) * rho) - P / ((g - 1) * rho) > 2 * (1e-10 * P)) := by
        rw [sub_self]; push Not; positivity
      simp only [mul_zero, gt_iff_lt, lt_irrefl, if_false]
      rw [RootFind.falsiLoop, if_neg hz]
    rw [hloop]
    simp only [RootFind.finalStatus, intMax]
    norm_num
    ring
  unfold energyFromRhoP
  rw [if_pos hP, hr]
  simp only [Option.some.injEq]
  field_simp

/-- C94. Outside the range of the table the run stops instead of inventing a state. -/
theorem energyFromRhoP_abort (p : ℝ → ℝ) (rho P emin emax : ℝ)
    (h : P < 0 ∨ (P < p emin ∧ P < p emax) ∨ (p emin < P ∧ p emax < P)) : energyFromRhoP p rho P emin emax = none := by
  unfold energyFromRhoP
  split_ifs with hP
  · have hb : RootFind.regulaFalsi (pressResidual p P) emin emax (1e-10 * P) (emin - 1e10) false 0 intMax = .abort := by
      have hrb : RootFind.refineBracket (pressResidual p P) (emin - 1e10) emin emax =
          (emin, emax, pressResidual p P emin, pressResidual p P emax) := by
        unfold RootFind.refineBracket
        have hno : ¬ (emin ≤ emin - 1e10 ∧ emax ≥ emin - 1e10) := by
          rintro ⟨h, -⟩; norm_num at h
        rw [if_neg hno]
      unfold RootFind.regulaFalsi
      rw [hrb]
      simp only []
      have hcb : RootFind.checkBracket (pressResidual p P emin) (pressResidual p P emax) = false := by
        unfold RootFind.checkBracket
        rw [if_pos]
        simp only [pressResidual]
        rcases h with h | h | h
        · linarith
        · exact mul_pos (by linarith) (by linarith)
        · exact mul_pos_of_neg_of_neg (by linarith) (by linarith)
      rw [hcb]; simp
    rw [hb]
  · rfl

/-- non-trivial instance of `energyFromRhoP_ideal`. -/
example : energyFromRhoP (fun e => (5 / 3 - 1) * 2 * e) 2 1 0 10 = some (1 / (5 / 3 - 1)) :=
  energyFromRhoP_ideal (5 / 3) 2 1 0 10 (by norm_num) (by norm_num) (by norm_num) (by norm_num) (by norm_num) (by norm_num)

/-- C94. Friedmann: whatever the loop does, it clears component `c` of cell `c` for the first three cells and nothing
else; so the fluid is at rest afterwards exactly if all other velocities were zero before. -/
theorem friedmannRow_eq (n : ℕ) (vel : ℕ → ℕ → ℝ) (hn : 0 < n) :
    friedmannRow n vel = fun c i => if c < 3 ∧ i = c then 0 else vel c i := by
  induction n with
  | zero => omega
  | succ k ih =>
    simp only [friedmannRow, List.range_succ, List.foldl_append, List.foldl_cons, List.foldl_nil]
    rcases Nat.eq_zero_or_pos k with hk | hk
    · subst hk; rfl
    · have := ih hk
      simp only [friedmannRow] at this
      rw [this]
      funext c i
      simp only [friedmannCell]
      split_ifs <;> rfl

/-- The Friedmann generator leaves the fluid at rest exactly when the velocity arrays were zero already (apart from the three
entries it clears).

Partial form of C94. Full property: the generator sets the fluid at rest (and the statements on the energy search, the Sedov
explosion and the tracers proved in this file). Missing: the generator relies on the arrays being zero; in one dimension the
tracer count is doubled (`adv_one_dim`). -/
theorem friedmann_rest_iff_partial (n : ℕ) (vel : ℕ → ℕ → ℝ) (hn : 0 < n) :
    (∀ c < 3, ∀ i < n, friedmannRow n vel c i = 0) ↔ ∀ c < 3, ∀ i < n, i ≠ c → vel c i = 0 := by
  rw [friedmannRow_eq n vel hn]
  constructor
  · intro h c hc i hi hne
    have := h c hc i hi
    simpa [hne] using this
  · intro h c hc i hi
    by_cases hic : i = c
    · simp [hic, hc]
    · simp [hic, h c hc i hi hic]

/-- C94. Sedov: when a whole number of spherical shells tiles the inner region exactly, the internal energy deposited is
the requested explosion energy. -/
theorem sedov_energy (Eexp rinner ua : ℝ) (face ctr : ℕ → ℝ) (n : ℕ) (h0 : face 0 = 0) (hn : face n = rinner) (hr : 0 < rinner)
    (hc : ∀ i < n, ctr i ≤ rinner) :
    ∑ i ∈ range n, sedovU Eexp rinner ua (ctr i) * (4 / 3 * π * (face (i + 1) ^ 3 - face i ^ 3)) = Eexp := by
  have h1 : ∑ i ∈ range n, sedovU Eexp rinner ua (ctr i) * (4 / 3 * π * (face (i + 1) ^ 3 - face i ^ 3)) =
      ∑ i ∈ range n, (sedovInner Eexp rinner * (4 / 3 * π) * face (i + 1) ^ 3 - sedovInner Eexp rinner * (4 / 3 * π) * face i ^ 3) := by
    refine sum_congr rfl fun i hi => ?_
    rw [sedovU, if_pos (hc i (mem_range.1 hi))]; ring
  rw [h1, Finset.sum_range_sub (fun i => sedovInner Eexp rinner * (4 / 3 * π) * face i ^ 3), h0, hn]
  simp only [sedovInner]
  have := pi_ne_zero
  field_simp
  ring

/-- If the first cell centre is outside the inner radius no explosion energy is deposited at all. -/
theorem sedov_none (Eexp rinner ua : ℝ) (ctr : ℕ → ℝ) (i : ℕ) (h : rinner < ctr i) : sedovU Eexp rinner ua (ctr i) = ua :=
  if_neg (not_le.2 h)

/-- C94. Tracers of the advection problem: identifiers are distinct as long as no block holds more than the requested
total. -/
theorem adv_ids_distinct (total g1 g2 n1 n2 : ℕ) (h1 : n1 < total) (h2 : n2 < total) (h : advId total g1 n1 = advId total g2 n2) :
    g1 = g2 ∧ n1 = n2 := by
  unfold advId at h
  have a : (total * g1 + n1) / total = g1 := by rw [Nat.mul_add_div (by omega), Nat.div_eq_of_lt h1]; simp
  have b : (total * g2 + n2) / total = g2 := by rw [Nat.mul_add_div (by omega), Nat.div_eq_of_lt h2]; simp
  have hg : g1 = g2 := by rw [← a, ← b, h]
  subst hg
  exact ⟨rfl, by omega⟩

/-- C94. The number of tracers over all blocks never exceeds the volume fraction times the total, and falls short of it by
less than one per block. -/
theorem adv_total (ndim : ℕ) (rin : ℝ) (hr : 0 < rin) (total nb : ℕ) (vol : ℕ → ℝ) (hv : ∀ b, 0 ≤ vol b) :
    (∑ b ∈ range nb, (advCount ndim rin total (vol b) : ℝ)) ≤ (∑ b ∈ range nb, vol b) / advVInner ndim rin * total ∧
      (∑ b ∈ range nb, vol b) / advVInner ndim rin * total - nb ≤ ∑ b ∈ range nb, (advCount ndim rin total (vol b) : ℝ) := by
  have hV : 0 < advVInner ndim rin := by
    have := pi_pos
    unfold advVInner; split_ifs <;> positivity
  have e : (∑ b ∈ range nb, vol b) / advVInner ndim rin * total = ∑ b ∈ range nb, vol b / advVInner ndim rin * total := by
    rw [Finset.sum_div, Finset.sum_mul]
  rw [e]
  constructor
  · refine sum_le_sum fun b _ => ?_
    exact Nat.floor_le (by have := hv b; positivity)
  · have : (nb : ℝ) = ∑ b ∈ range nb, (1:ℝ) := by simp
    rw [this, ← sum_sub_distrib]
    refine sum_le_sum fun b _ => ?_
    have := Nat.lt_floor_add_one (vol b / advVInner ndim rin * total)
    unfold advCount; linarith

/-- In one dimension the ball `[-rin, rin]` has measure `2 rin` but `v_inner = rin`: twice the requested tracers are made,
and then identifiers of neighbouring blocks collide. -/
theorem adv_one_dim (rin : ℝ) (hr : 0 < rin) (total : ℕ) : advCount 1 rin total (2 * rin) = 2 * total := by
  unfold advCount advVInner
  rw [if_neg (by norm_num), if_neg (by norm_num)]
  rw [show 2 * rin / rin * (total : ℝ) = ((2 * total : ℕ) : ℝ) by push_cast; field_simp]
  exact Nat.floor_natCast _

theorem adv_id_collision (total g n : ℕ) : advId total g (total + n) = advId total (g + 1) n := by
  unfold advId; ring

/-- C94. `v_inner` is the volume of the ball in three dimensions and the area of the disc in two. -/
theorem adv_volume (rin : ℝ) (h : 0 ≤ rin) :
    advVInner 3 rin = (MeasureTheory.volume (Metric.ball (0 : EuclideanSpace ℝ (Fin 3)) rin)).toReal ∧
      advVInner 2 rin = (MeasureTheory.volume (Metric.ball (0 : EuclideanSpace ℝ (Fin 2)) rin)).toReal := by
  constructor
  · rw [EuclideanSpace.volume_ball_fin_three]
    rw [ENNReal.toReal_mul, ENNReal.toReal_pow, ENNReal.toReal_ofReal h, ENNReal.toReal_ofReal (by positivity)]
    unfold advVInner; simp; ring
  · rw [EuclideanSpace.volume_ball_fin_two]
    rw [ENNReal.toReal_mul, ENNReal.toReal_pow, ENNReal.toReal_ofReal h]
    unfold advVInner; simp [NNReal.coe_real_pi, ENNReal.toReal_ofReal pi_pos.le]; ring

end Phoebus.Pgen
