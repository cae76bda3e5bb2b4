import Verif.Rel.Model
import Mathlib.Algebra.BigOperators.Field

/-!
# Relativistic kinematics, stress tensor and conserved variables (C13, C14, C15)

Specification: `Geom.ADM` (3+1 metric), `Geom.dot4` (inner product).  `robust::ratio` is used with `small = 0`
where an exact identity is claimed: with `small = 10 * DBL_MIN` the addition in its denominator is absorbed in double
precision unless the denominator is below about 1e-290.  `four_velocity_norm` quantifies it for all `small`.
-/
namespace Phoebus.Rel
open Finset Geom Robust

/-- positive definiteness, as far as needed. -/
def PosDef (G : ADM ℝ) : Prop := ∀ v : Fin 3 → ℝ, 0 ≤ G.dot3 v v

theorem lorentz_sq (G : ADM ℝ) (hp : PosDef G) (v : Fin 3 → ℝ) :
    lorentz G.gam v ^ 2 = 1 + G.dot3 v v := by
  unfold lorentz; rw [Real.sq_sqrt]; · rfl
  have := hp v; unfold ADM.dot3 at this; linarith

/-- C13. The Lorentz factor is at least one. -/
theorem lorentz_ge_one (G : ADM ℝ) (hp : PosDef G) (v : Fin 3 → ℝ) : 1 ≤ lorentz G.gam v := by
  unfold lorentz; rw [Real.one_le_sqrt]
  have := hp v; unfold ADM.dot3 at this; linarith

theorem lorentz_pos (G : ADM ℝ) (hp : PosDef G) (v : Fin 3 → ℝ) : 0 < lorentz G.gam v :=
  lt_of_lt_of_le one_pos (lorentz_ge_one G hp v)

theorem ratio_zero (a b : ℝ) : ratio 0 a b = a / b := by simp [ratio]

theorem ratio_nonneg_eq (small a b : ℝ) (hb : 0 ≤ b) : ratio small a b = a / (b + small) := by
  simp [ratio, hb]

/-- C13. For every 3+1 geometry, velocity and regulariser: `u·u = -1` up to `2 W² small/|alpha|` (exactly
`-1` for `small = 0`), and never below `-1`. -/
theorem four_velocity_norm (small : ℝ) (G : ADM ℝ) (v : Fin 3 → ℝ) (h : G.Valid) (hp : PosDef G)
    (hs : 0 ≤ small) :
    -1 ≤ dot4 G.g4 (fourVelocity small G v) (fourVelocity small G v) ∧
    dot4 G.g4 (fourVelocity small G v) (fourVelocity small G v) ≤
      -1 + 2 * lorentz G.gam v ^ 2 * (small / |G.alpha|) := by
  unfold fourVelocity
  simp only [ADM.dot4_split h, ratio_nonneg_eq _ _ _ (abs_nonneg _)]
  have hW := lorentz_sq G hp v
  set W := lorentz G.gam v
  rw [show G.dot3 v v = W ^ 2 - 1 by linarith, ← sq_abs G.alpha]
  have ha : 0 < |G.alpha| := abs_pos.2 h.alpha_ne
  set a := |G.alpha|
  have e : -a ^ 2 * (W / (a + small)) * (W / (a + small)) + (W ^ 2 - 1) =
      -1 + W ^ 2 * (small * (2 * a + small) / (a + small) ^ 2) := by
    have : a + small ≠ 0 := by positivity
    field_simp; ring
  rw [e]
  constructor
  · have : 0 ≤ W ^ 2 * (small * (2 * a + small) / (a + small) ^ 2) := by positivity
    linarith
  · have : small * (2 * a + small) / (a + small) ^ 2 ≤ 2 * (small / a) := by
      rw [← mul_div_assoc, div_le_div_iff₀ (by positivity) ha]
      nlinarith [mul_nonneg hs (sq_nonneg small), mul_nonneg (mul_nonneg hs hs) ha.le]
    nlinarith [sq_nonneg W]

/-- C13, exact reading. -/
theorem four_velocity_unit (G : ADM ℝ) (v : Fin 3 → ℝ) (h : G.Valid) (hp : PosDef G) :
    dot4 G.g4 (fourVelocity 0 G v) (fourVelocity 0 G v) = -1 := by
  have := four_velocity_norm 0 G v h hp le_rfl
  simp only [zero_div, mul_zero, add_zero] at this
  linarith [this.1, this.2]

/-- C13. `alpha u^0` is the Lorentz factor, and `u` projected on space is the velocity primitive. -/
theorem four_velocity_components (G : ADM ℝ) (v : Fin 3 → ℝ) (ha : 0 < G.alpha) :
    G.alpha * fourVelocity 0 G v 0 = lorentz G.gam v ∧
    ∀ i, fourVelocity 0 G v i.succ + G.beta i * fourVelocity 0 G v 0 = v i := by
  have ha' := ha.ne'
  unfold fourVelocity
  simp only [Fin.cons_zero, Fin.cons_succ, ratio_zero, abs_of_pos ha]
  constructor
  · field_simp
  · intro i; ring

/-- A non-trivial valid geometry: lapse 2, shift (1,0,0), `gamma = diag(1,4,9)` with an off-diagonal term. -/
noncomputable def exG : ADM ℝ where
  alpha := 2
  beta := ![1, 0, 3]
  gam := ![![2, 1, 0], ![1, 1, 0], ![0, 0, 4]]
  gamInv := ![![1, -1, 0], ![-1, 2, 0], ![0, 0, 1/4]]

theorem exG_valid : exG.Valid ∧ PosDef exG := by
  refine ⟨⟨by norm_num [exG], ?_, ?_, ?_⟩, ?_⟩
  · intro i j; fin_cases i <;> fin_cases j <;> simp [exG]
  · intro i j; fin_cases i <;> fin_cases j <;> simp [exG]
  · intro i j; fin_cases i <;> fin_cases j <;> simp [exG, Fin.sum_univ_three] <;> norm_num
  · intro v
    simp [ADM.dot3, Fin.sum_univ_three, exG]
    nlinarith [sq_nonneg (v 0 + v 1), sq_nonneg (v 0), sq_nonneg (v 2)]

/-! ## C14 -/

/-- `u` of the stress tensor is the four-velocity (same formula in the two files). -/
theorem tU_eq (small : ℝ) (G : ADM ℝ) (q : Prim) : tU small G q = fourVelocity small G q.v := rfl

theorem tBdotv_eq (G : ADM ℝ) (q : Prim) : tBdotv G q = G.dot3 q.B q.v / lorentz G.gam q.v := by
  simp only [tBdotv, ADM.dot3, Finset.sum_div]
  exact sum_congr rfl fun i _ => sum_congr rfl fun j _ => by ring

theorem tBsq_eq (G : ADM ℝ) (q : Prim) : tBsq G q = G.dot3 q.B q.B := by
  simp only [tBsq, ADM.dot3]
  exact sum_congr rfl fun i _ => sum_congr rfl fun j _ => by ring

/-- `b` in split form. -/
theorem tB_split (G : ADM ℝ) (q : Prim) (ha : 0 < G.alpha) (hp : PosDef G) :
    tB 0 G q = Fin.cons (lorentz G.gam q.v / G.alpha * tBdotv G q)
      (fun i => (q.B i / lorentz G.gam q.v + tBdotv G q * q.v i) -
        lorentz G.gam q.v / G.alpha * tBdotv G q * G.beta i) := by
  have hW := (lorentz_pos G hp q.v).ne'
  have ha' := ha.ne'
  unfold tB tU
  simp only [Fin.cons_zero, Fin.cons_succ, ratio_zero, abs_of_pos ha]
  congr 1
  funext i
  field_simp; ring

theorem tU_split (G : ADM ℝ) (q : Prim) (ha : 0 < G.alpha) :
    tU 0 G q = Fin.cons (lorentz G.gam q.v / G.alpha)
      (fun i => q.v i - lorentz G.gam q.v / G.alpha * G.beta i) := by
  unfold tU
  simp only [ratio_zero, abs_of_pos ha]

theorem dot3_add_right (G : ADM ℝ) (x y z : Fin 3 → ℝ) (a b : ℝ) :
    G.dot3 x (fun i => a * y i + b * z i) = a * G.dot3 x y + b * G.dot3 x z := by
  simp only [ADM.dot3, Fin.sum_univ_three]; ring

theorem dot3_add_left (G : ADM ℝ) (x y z : Fin 3 → ℝ) (a b : ℝ) :
    G.dot3 (fun i => a * y i + b * z i) x = a * G.dot3 y x + b * G.dot3 z x := by
  simp only [ADM.dot3, Fin.sum_univ_three]; ring

/-- C14. The magnetic four-vector is orthogonal to the flow and has the stated square. -/
theorem magnetic_orthogonal (G : ADM ℝ) (q : Prim) (h : G.Valid) (ha : 0 < G.alpha) (hp : PosDef G) :
    dot4 G.g4 (tU 0 G q) (tB 0 G q) = 0 ∧ dot4 G.g4 (tB 0 G q) (tB 0 G q) = tbsq 0 G q := by
  have hW := (lorentz_pos G hp q.v).ne'
  have hsq := lorentz_sq G hp q.v
  have ha' := ha.ne'
  have hX : (fun i => q.B i / lorentz G.gam q.v + tBdotv G q * q.v i) =
      fun i => (1 / lorentz G.gam q.v) * q.B i + tBdotv G q * q.v i := by funext i; ring
  rw [tB_split G q ha hp, tU_split G q ha, ADM.dot4_split h, ADM.dot4_split h, hX]
  simp only [dot3_add_right, dot3_add_left, tbsq, tBsq_eq, ratio_zero]
  rw [ADM.dot3_comm h q.v q.B]
  have hv : G.dot3 q.v q.v = lorentz G.gam q.v ^ 2 - 1 := by linarith
  have hb : G.dot3 q.B q.v = tBdotv G q * lorentz G.gam q.v := by rw [tBdotv_eq]; field_simp
  rw [hv, hb]
  constructor <;> field_simp <;> ring

/-- C14. The stress tensor is symmetric. -/
theorem tmunu_symm (small : ℝ) (G : ADM ℝ) (q : Prim) (h : G.Valid) (μ ν : Fin 4) :
    tmunu small G q μ ν = tmunu small G q ν μ := by
  have : G.g4Inv μ ν = G.g4Inv ν μ := by
    refine Fin.cases ?_ (fun i => ?_) μ <;> refine Fin.cases ?_ (fun j => ?_) ν <;>
      simp only [ADM.g4Inv_00, ADM.g4Inv_0s, ADM.g4Inv_s0, ADM.g4Inv_ss]
    rw [h.symmInv]; ring
  unfold tmunu; simp only [this]; ring

theorem g4_symm {G : ADM ℝ} (h : G.Valid) (μ ν : Fin 4) : G.g4 μ ν = G.g4 ν μ := by
  refine Fin.cases ?_ (fun i => ?_) μ <;> refine Fin.cases ?_ (fun j => ?_) ν <;>
    simp only [ADM.g4_00, ADM.g4_0s, ADM.g4_s0, ADM.g4_ss]
  exact h.symm i j

/-- Mixed components `T^μ_ν` of a contravariant tensor (specification). -/
def mixed (g : Fin 4 → Fin 4 → ℝ) (T : Fin 4 → Fin 4 → ℝ) (μ ν : Fin 4) : ℝ := ∑ l, T μ l * g l ν

/-- Lowering an index (specification). -/
def lower (g : Fin 4 → Fin 4 → ℝ) (x : Fin 4 → ℝ) (ν : Fin 4) : ℝ := ∑ l, x l * g l ν

/-- C14. The mixed stress tensor is `(rho+u+P+b²) u^μ u_ν + (P + b²/2) δ - b^μ b_ν`. -/
theorem tmunu_mixed (small : ℝ) (G : ADM ℝ) (q : Prim) (h : G.Valid) (μ ν : Fin 4) :
    mixed G.g4 (tmunu small G q) μ ν =
      (q.rho + q.u + q.P + tbsq small G q) * tU small G q μ * lower G.g4 (tU small G q) ν +
      (q.P + tbsq small G q / 2) * (if μ = ν then 1 else 0) -
      tB small G q μ * lower G.g4 (tB small G q) ν := by
  rw [← ADM.g4Inv_mul h μ ν]
  simp only [mixed, lower, tmunu, mul_sum, ← sum_add_distrib, ← sum_sub_distrib]
  exact sum_congr rfl fun l _ => by ring

theorem lower_contract (g : Fin 4 → Fin 4 → ℝ) (x y : Fin 4 → ℝ) :
    ∑ ν, lower g x ν * y ν = dot4 g x y := by
  simp only [lower, dot4, Fin.sum_univ_four]; ring

/-- C14. Energy density measured in the fluid frame, `T_{μν} u^μ u^ν = rho + u + b²/2`, and the trace
`T^μ_μ = -(rho + u) + 3 P`, for every state. -/
theorem tmunu_energy_and_trace (G : ADM ℝ) (q : Prim) (h : G.Valid) (ha : 0 < G.alpha) (hp : PosDef G) :
    (∑ μ, ∑ ν, tmunu 0 G q μ ν * lower G.g4 (tU 0 G q) μ * lower G.g4 (tU 0 G q) ν =
      q.rho + q.u + tbsq 0 G q / 2) ∧
    ∑ μ, mixed G.g4 (tmunu 0 G q) μ μ = -(q.rho + q.u) + 3 * q.P := by
  have huu : dot4 G.g4 (tU 0 G q) (tU 0 G q) = -1 := by rw [tU_eq]; exact four_velocity_unit G q.v h hp
  obtain ⟨hub, hbb⟩ := magnetic_orthogonal G q h ha hp
  have hbu : dot4 G.g4 (tB 0 G q) (tU 0 G q) = 0 := by
    refine Eq.trans ?_ hub
    unfold dot4; rw [sum_comm]
    exact sum_congr rfl fun μ _ => sum_congr rfl fun ν _ => by rw [g4_symm h]; ring
  constructor
  · have e : ∀ μ, ∑ ν, tmunu 0 G q μ ν * lower G.g4 (tU 0 G q) μ * lower G.g4 (tU 0 G q) ν =
        lower G.g4 (tU 0 G q) μ * ∑ ν, mixed G.g4 (tmunu 0 G q) μ ν * tU 0 G q ν := by
      intro μ
      have e2 : ∑ ν, mixed G.g4 (tmunu 0 G q) μ ν * tU 0 G q ν =
          ∑ ν, tmunu 0 G q μ ν * lower G.g4 (tU 0 G q) ν := by
        simp only [mixed, lower, sum_mul, mul_sum]
        rw [sum_comm]
        exact sum_congr rfl fun a _ => sum_congr rfl fun b _ => by rw [g4_symm h]; ring
      rw [e2, mul_sum]
      exact sum_congr rfl fun ν _ => by ring
    simp only [e]
    have e3 : ∀ μ, ∑ ν, mixed G.g4 (tmunu 0 G q) μ ν * tU 0 G q ν =
        -(q.rho + q.u + tbsq 0 G q / 2) * tU 0 G q μ := by
      intro μ
      have s1 := lower_contract G.g4 (tU 0 G q) (tU 0 G q)
      have s2 := lower_contract G.g4 (tB 0 G q) (tU 0 G q)
      rw [huu] at s1; rw [hbu] at s2
      simp only [tmunu_mixed 0 G q h]
      have : ∑ ν, (if μ = ν then (1:ℝ) else 0) * tU 0 G q ν = tU 0 G q μ := by simp
      calc _ = (q.rho + q.u + q.P + tbsq 0 G q) * tU 0 G q μ * (∑ ν, lower G.g4 (tU 0 G q) ν * tU 0 G q ν) +
            (q.P + tbsq 0 G q / 2) * (∑ ν, (if μ = ν then (1:ℝ) else 0) * tU 0 G q ν) -
            tB 0 G q μ * (∑ ν, lower G.g4 (tB 0 G q) ν * tU 0 G q ν) := by
              simp only [mul_sum, ← sum_add_distrib, ← sum_sub_distrib]
              exact sum_congr rfl fun ν _ => by ring
        _ = _ := by rw [s1, s2, this]; ring
    simp only [e3]
    have s1 := lower_contract G.g4 (tU 0 G q) (tU 0 G q)
    rw [huu] at s1
    calc _ = -(q.rho + q.u + tbsq 0 G q / 2) * ∑ ν, lower G.g4 (tU 0 G q) ν * tU 0 G q ν := by
          rw [mul_sum]; exact sum_congr rfl fun ν _ => by ring
      _ = _ := by rw [s1]; ring
  · have s1 := lower_contract G.g4 (tU 0 G q) (tU 0 G q)
    have s2 := lower_contract G.g4 (tB 0 G q) (tB 0 G q)
    rw [huu] at s1; rw [hbb] at s2
    simp only [tmunu_mixed 0 G q h, if_true]
    calc _ = (q.rho + q.u + q.P + tbsq 0 G q) * (∑ ν, lower G.g4 (tU 0 G q) ν * tU 0 G q ν) +
            4 * (q.P + tbsq 0 G q / 2) - (∑ ν, lower G.g4 (tB 0 G q) ν * tB 0 G q ν) := by
              simp only [Fin.sum_univ_four]; ring
      _ = _ := by rw [s1, s2]; ring

/-- C14. The cheap formula used for diagnostics and floors gives the same `b²`. -/
theorem magneticFieldSquared_eq (G : ADM ℝ) (q : Prim) (h : G.Valid) (hp : PosDef G) :
    magneticFieldSquared 0 G.gam q.v q.B (lorentz G.gam q.v) = tbsq 0 G q := by
  have hW := lorentz_pos G hp q.v
  have e1 : ∑ m, ∑ n, G.gam m n * ratio 0 (q.v m) (lorentz G.gam q.v) * q.B n = tBdotv G q := by
    rw [tBdotv_eq, ADM.dot3_comm h]
    simp only [ratio_zero, ADM.dot3, Finset.sum_div]
    exact sum_congr rfl fun i _ => sum_congr rfl fun j _ => by ring
  simp only [ratio_zero] at e1
  simp only [magneticFieldSquared, tbsq, tBsq, ratio_zero]
  rw [e1]
  have e2 : ∑ m, ∑ n, G.gam m n * q.B m * q.B n = ∑ i, ∑ j, q.B i * q.B j * G.gam i j :=
    sum_congr rfl fun i _ => sum_congr rfl fun j _ => by ring
  rw [e2]
  have := hW.ne'
  field_simp

/-! ## C15 -/

theorem pBdotv_eq (G : ADM ℝ) (q : Prim) : pBdotv G q = tBdotv G q := by
  rw [tBdotv_eq]
  simp only [pBdotv, pv, ADM.g4_ss, ADM.dot3, Finset.sum_div]
  exact sum_congr rfl fun i _ => sum_congr rfl fun j _ => by ring

theorem pbcon_eq (G : ADM ℝ) (q : Prim) (ha : 0 < G.alpha) (hp : PosDef G) : pbcon G q = tB 0 G q := by
  have hW := (lorentz_pos G hp q.v).ne'
  have ha' := ha.ne'
  rw [tB_split G q ha hp]
  unfold pbcon
  simp only [pBdotv_eq, pv]
  rw [Fin.cons_inj]
  refine ⟨by ring, ?_⟩
  funext i; field_simp; ring

theorem pbsq_eq (G : ADM ℝ) (q : Prim) : pbsq G q = tbsq 0 G q := by
  have e : pBsq G q = tBsq G q := by
    simp only [pBsq, tBsq, ADM.g4_ss]
    exact sum_congr rfl fun i _ => sum_congr rfl fun j _ => by ring
  simp only [pbsq, tbsq, e, pBdotv_eq, ratio_zero]

theorem lower_tU_spatial (G : ADM ℝ) (q : Prim) (h : G.Valid) (ha : 0 < G.alpha) (m : Fin 3) :
    lower G.g4 (tU 0 G q) m.succ = ∑ n, G.gam m n * q.v n := by
  rw [tU_split G q ha]
  simp only [lower, Fin.sum_univ_succ (n := 3), Fin.cons_zero, Fin.cons_succ, ADM.g4_0s, ADM.g4_ss,
    Fin.sum_univ_three, ADM.betaCov]
  rw [h.symm m 0, h.symm m 1, h.symm m 2]; ring

/-- C15. Every conserved quantity is `gdet` times the normal-observer projection of the mass current
`rho u^μ` and of the (independently coded) stress tensor: `D = gdet alpha rho u^0`,
`S_m = gdet alpha T^0_m`, and, in the covariant formulation, `tau = gdet alpha T^0_0 + D`; the field is densitised
and `ye` advected with `D`. -/
theorem p2c_projections (val : Bool) (G : ADM ℝ) (gdet ye : ℝ) (q : Prim) (h : G.Valid) (ha : 0 < G.alpha)
    (hp : PosDef G) :
    (p2c val G gdet ye q).D = gdet * (G.alpha * (q.rho * tU 0 G q 0)) ∧
    (∀ m : Fin 3, (p2c val G gdet ye q).S m = gdet * (G.alpha * mixed G.g4 (tmunu 0 G q) 0 m.succ)) ∧
    (∀ m, (p2c val G gdet ye q).B m = gdet * q.B m) ∧
    (p2c val G gdet ye q).ye = (p2c val G gdet ye q).D * ye ∧
    (p2c false G gdet ye q).tau =
      gdet * (G.alpha * mixed G.g4 (tmunu 0 G q) 0 0) + (p2c val G gdet ye q).D := by
  have hW := (lorentz_pos G hp q.v).ne'
  have ha' := ha.ne'
  have hu0 : tU 0 G q 0 = lorentz G.gam q.v / G.alpha := by rw [tU_split G q ha]; rfl
  have hb0 : tB 0 G q 0 = lorentz G.gam q.v / G.alpha * tBdotv G q := by rw [tB_split G q ha hp]; rfl
  refine ⟨?_, ?_, fun m => rfl, rfl, ?_⟩
  · simp only [p2c, hu0]; field_simp
  · intro m
    rw [tmunu_mixed 0 G q h, lower_tU_spatial G q h ha]
    have ebc : pbcov G q m = lower G.g4 (tB 0 G q) m.succ := by
      simp only [pbcov, lower, pbcon_eq G q ha hp]
      exact sum_congr rfl fun n _ => by rw [g4_symm h]; ring
    simp only [p2c, pbsq_eq G q, pBdotv_eq, ebc, hu0, hb0, ADM.g4_ss, (Fin.succ_ne_zero m).symm, if_false,
      pv, Fin.sum_univ_three]
    field_simp; ring
  · rw [tmunu_mixed 0 G q h]
    have ebc : ∑ μ, G.g4 0 μ * tB 0 G q μ = lower G.g4 (tB 0 G q) 0 := by
      simp only [lower]
      exact sum_congr rfl fun n _ => by rw [g4_symm h]; ring
    have euc : (Fin.cons (lorentz G.gam q.v / G.alpha) fun i => q.v i - G.beta i * lorentz G.gam q.v / G.alpha :
        Fin 4 → ℝ) = tU 0 G q := by
      rw [tU_split G q ha, Fin.cons_inj]; exact ⟨rfl, by funext i; ring⟩
    have eul : ∑ ν, G.g4 0 ν * tU 0 G q ν = lower G.g4 (tU 0 G q) 0 := by
      simp only [lower]; exact sum_congr rfl fun n _ => by rw [g4_symm h]; ring
    simp only [p2c, Bool.false_eq_true, if_false, pbsq_eq G q, pbcon_eq G q ha hp, ebc, euc, eul, if_true]
    ring

/-- C15, Valencia formulation: `tau = gdet (T^{μν} n_μ n_ν) - D`, where `n_μ = (-alpha, 0, 0, 0)`. -/
theorem p2c_valencia_energy (G : ADM ℝ) (gdet ye : ℝ) (q : Prim) (ha : 0 < G.alpha) (hp : PosDef G) :
    (p2c true G gdet ye q).tau =
      gdet * (G.alpha ^ 2 * tmunu 0 G q 0 0) - (p2c true G gdet ye q).D := by
  have hW := (lorentz_pos G hp q.v).ne'
  have ha' := ha.ne'
  have hu0 : tU 0 G q 0 = lorentz G.gam q.v / G.alpha := by rw [tU_split G q ha]; rfl
  have hb0 : tB 0 G q 0 = lorentz G.gam q.v / G.alpha * tBdotv G q := by rw [tB_split G q ha hp]; rfl
  simp only [p2c, if_true, tmunu, pbsq_eq G q, pBdotv_eq, hu0, hb0, ADM.g4Inv_00]
  field_simp; ring

/-- C15. With positive determinant and `rho > 0`: `D ≥ gdet rho > 0`. -/
theorem p2c_density_bound (val : Bool) (G : ADM ℝ) (gdet ye : ℝ) (q : Prim) (hp : PosDef G) (hg : 0 < gdet)
    (hr : 0 < q.rho) : gdet * q.rho ≤ (p2c val G gdet ye q).D := by
  simp only [p2c]
  exact le_mul_of_one_le_right (mul_pos hg hr).le (lorentz_ge_one G hp q.v)

end Phoebus.Rel
