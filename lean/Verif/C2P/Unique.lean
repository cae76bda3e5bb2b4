import Verif.C2P.Bounds

/-!
# The conserved variables determine the primitive state, and a root of the residual reproduces them

Two results about `p2c` (prim2con.hpp:48-102) and the inverter (con2prim_robust.hpp:46-141, 299-453).  Nothing new is
modelled here.
-/
namespace Phoebus.C2P
open Finset Geom Robust Rel

variable {G : ADM ℝ}

/-! ### Specification -/

/-- The pressure does not rise faster than the energy density between thermodynamic states whose density and enthalpy both grow (a
causality condition on the equation of state); `dom` is the set of (density, internal energy density) in which the EOS is used. -/
def Causal (eos : Eos) (dom : ℝ → ℝ → Prop) (ye : ℝ) : Prop :=
  ∀ r₁ u₁ r₂ u₂, 0 < r₁ → dom r₁ u₁ → dom r₂ u₂ → r₁ ≤ r₂ →
    r₁ + u₁ + eos.pRE r₁ (u₁ / r₁) ye ≤ r₂ + u₂ + eos.pRE r₂ (u₂ / r₂) ye →
    eos.pRE r₂ (u₂ / r₂) ye - eos.pRE r₁ (u₁ / r₁) ye ≤ (r₂ + u₂) - (r₁ + u₁)

/-- A state of matter: positive density, positive enthalpy, pressure from the EOS. -/
structure Matter (eos : Eos) (dom : ℝ → ℝ → Prop) (ye : ℝ) (q : Prim) : Prop where
  rho_pos : 0 < q.rho
  enthalpy : 0 < q.rho + q.u + q.P
  inside : dom q.rho q.u
  pressure : q.P = eos.pRE q.rho (q.u / q.rho) ye

/-! ### The scalar equation -/

/-- The energy is strictly increasing in the enthalpy times the squared Lorentz factor. -/
theorem energy_strict {β a b Z₁ Z₂ P₁ P₂ : ℝ} (hβ : 0 ≤ β) (ha : 0 ≤ a) (hb : 0 ≤ b) (h1 : 0 < Z₁) (h12 : Z₁ < Z₂)
    (hv1 : a / Z₁ ^ 2 + b / (Z₁ + β) ^ 2 < 1) (hv2 : a / Z₂ ^ 2 + b / (Z₂ + β) ^ 2 < 1)
    (hP : P₂ - P₁ ≤ (Z₂ * (1 - (a / Z₂ ^ 2 + b / (Z₂ + β) ^ 2)) - Z₁ * (1 - (a / Z₁ ^ 2 + b / (Z₁ + β) ^ 2))) / 2) :
    Z₁ - P₁ + β * b / (2 * (Z₁ + β) ^ 2) < Z₂ - P₂ + β * b / (2 * (Z₂ + β) ^ 2) := by
  have h2 : 0 < Z₂ := h1.trans h12
  have y1 : 0 < Z₁ + β := by linarith
  have y2 : 0 < Z₂ + β := by linarith
  -- arithmetic-geometric mean
  have amgm : ∀ c s t : ℝ, 0 ≤ c → 0 < s → 0 < t → c / (s * t) ≤ (c / s ^ 2 + c / t ^ 2) / 2 := by
    intro c s t hc hs ht
    have : (c / s ^ 2 + c / t ^ 2) / 2 - c / (s * t) = c * (1 / s - 1 / t) ^ 2 / 2 := by field_simp; ring
    have : 0 ≤ c * (1 / s - 1 / t) ^ 2 / 2 := by positivity
    linarith
  have m1 := amgm a Z₁ Z₂ ha h1 h2
  have m2 := amgm b (Z₁ + β) (Z₂ + β) hb y1 y2
  have key : (Z₂ + β * b / (2 * (Z₂ + β) ^ 2)) - (Z₁ + β * b / (2 * (Z₁ + β) ^ 2))
      - (Z₂ * (1 - (a / Z₂ ^ 2 + b / (Z₂ + β) ^ 2)) - Z₁ * (1 - (a / Z₁ ^ 2 + b / (Z₁ + β) ^ 2))) / 2
      = (Z₂ - Z₁) / 2 * (1 - a / (Z₁ * Z₂) - b / ((Z₁ + β) * (Z₂ + β))) := by
    field_simp; ring
  have pos : 0 < (Z₂ - Z₁) / 2 * (1 - a / (Z₁ * Z₂) - b / ((Z₁ + β) * (Z₂ + β))) := by
    apply mul_pos (by linarith)
    linarith
  linarith

/-- The squared velocity decreases with that variable. -/
theorem speed_decreases {β a b Z₁ Z₂ : ℝ} (hβ : 0 ≤ β) (ha : 0 ≤ a) (hb : 0 ≤ b) (h1 : 0 < Z₁) (h12 : Z₁ ≤ Z₂) :
    a / Z₂ ^ 2 + b / (Z₂ + β) ^ 2 ≤ a / Z₁ ^ 2 + b / (Z₁ + β) ^ 2 := by
  have y1 : 0 < Z₁ + β := by linarith
  gcongr

/-! ### The invariants of the conserved variables -/

/-- Square of the momentum, its component along the field and the square of the field, in terms of the state: the raised momentum per volume is
`(w W² + B²) v - (v·B) B`. -/
noncomputable def mom (G : ADM ℝ) (q : Prim) : Fin 3 → ℝ := fun n =>
  (((q.rho + q.u + q.P) * lorentz G.gam q.v ^ 2 + G.dot3 q.B q.B) / lorentz G.gam q.v) * q.v n
    + (-(G.dot3 q.B q.v / lorentz G.gam q.v)) * q.B n

/-- The momentum per volume is a function of the conserved variables alone. -/
theorem mom_eq (val : Bool) (gdet ye : ℝ) (q : Prim) (h : G.Valid) (ha : 0 < G.alpha) (hp : PosDef G) (hg : gdet ≠ 0) :
    mom G q = fun i => ∑ j, G.gamInv i j * ((p2c val G gdet ye q).S j / gdet) := by
  funext i
  have : ∀ j, (p2c val G gdet ye q).S j / gdet = ∑ n, G.gam j n * mom G q n := by
    intro j
    rw [p2c_S val gdet ye q h ha hp, mul_div_cancel_left₀ _ hg]
    refine sum_congr rfl fun n _ => ?_
    simp only [mom]; ring
  simp only [this]
  exact (raise_lower h (mom G q) i).symm

/-- What the conserved variables say about a state, in scalar form. -/
theorem invariants (q : Prim) (h : G.Valid) (hp : PosDef G) :
    let W := lorentz G.gam q.v
    let Z := (q.rho + q.u + q.P) * W ^ 2
    let β := G.dot3 q.B q.B
    G.dot3 q.B (mom G q) = Z * (G.dot3 q.B q.v / W) ∧
    G.dot3 (mom G q) (mom G q) = (Z + β) ^ 2 * (1 - 1 / W ^ 2) - (2 * Z + β) * (G.dot3 q.B q.v / W) ^ 2 := by
  intro W Z β
  have hW : 0 < W := lorentz_pos G hp q.v
  have hvv : G.dot3 q.v q.v = W ^ 2 - 1 := by
    have := lorentz_sq G hp q.v; change W ^ 2 = _ at this; linarith
  have hvB : G.dot3 q.v q.B = G.dot3 q.B q.v := ADM.dot3_comm h _ _
  have e : mom G q = fun n => ((Z + β) / W) * q.v n + (-(G.dot3 q.B q.v / W)) * q.B n := rfl
  have e1 : G.dot3 q.B (mom G q) = Z * (G.dot3 q.B q.v / W) := by
    rw [e, dot3_add_right]; change _ + _ * β = _; ring
  have e2 : G.dot3 q.v (mom G q) = (Z + β) / W * (W ^ 2 - 1) - G.dot3 q.B q.v ^ 2 / W := by
    rw [e, dot3_add_right, hvv, hvB]; ring
  refine ⟨e1, ?_⟩
  have : G.dot3 (mom G q) (mom G q) = (Z + β) / W * G.dot3 q.v (mom G q) + (-(G.dot3 q.B q.v / W)) * G.dot3 q.B (mom G q) := by
    conv_lhs => rw [e]
    rw [dot3_add_left, ← e]
  rw [this, e1, e2]; field_simp; ring

/-- Splitting the momentum along and across the field: squared velocity and energy as functions of `Z`. -/
theorem split (q : Prim) (h : G.Valid) (hp : PosDef G) (hw : 0 < q.rho + q.u + q.P) :
    let W := lorentz G.gam q.v
    let Z := (q.rho + q.u + q.P) * W ^ 2
    let β := G.dot3 q.B q.B
    let s := G.dot3 q.B (mom G q)
    let m := G.dot3 (mom G q) (mom G q)
    let a := if β = 0 then m else s ^ 2 / β
    let b := if β = 0 then 0 else m - s ^ 2 / β
    0 ≤ a ∧ 0 ≤ b ∧ 1 - 1 / W ^ 2 = a / Z ^ 2 + b / (Z + β) ^ 2 ∧
      β * (1 - 1 / W ^ 2) - (G.dot3 q.B q.v / W) ^ 2 = β * b / (Z + β) ^ 2 := by
  intro W Z β s m a b
  have hW : 0 < W := lorentz_pos G hp q.v
  have hZ : 0 < Z := by positivity
  obtain ⟨i1, i2⟩ := invariants q h hp
  change s = Z * (G.dot3 q.B q.v / W) at i1
  change m = (Z + β) ^ 2 * (1 - 1 / W ^ 2) - (2 * Z + β) * (G.dot3 q.B q.v / W) ^ 2 at i2
  have hβ : 0 ≤ β := hp q.B
  have hm : 0 ≤ m := hp _
  have hcs : s ^ 2 ≤ β * m := cauchy_schwarz h hp q.B (mom G q)
  set t := G.dot3 q.B q.v / W with ht
  set V := 1 - 1 / W ^ 2 with hV
  have hy : Z + β ≠ 0 := by positivity
  by_cases h0 : β = 0
  · have hs : s = 0 := by
      have : s ^ 2 ≤ 0 := by rw [h0, zero_mul] at hcs; exact hcs
      exact pow_eq_zero_iff (two_ne_zero) |>.1 (le_antisymm this (sq_nonneg s))
    have ht0 : t = 0 := by
      rw [hs] at i1; rcases mul_eq_zero.1 i1.symm with h1 | h1
      · exact absurd h1 hZ.ne'
      · exact h1
    have ea : a = m := if_pos h0
    have eb : b = 0 := if_pos h0
    rw [ea, eb]
    refine ⟨hm, le_rfl, ?_, ?_⟩
    · rw [i2, ht0, h0]; field_simp; ring
    · rw [h0, ht0]; simp
  · have hβ' : 0 < β := lt_of_le_of_ne hβ (Ne.symm h0)
    have ea : a = s ^ 2 / β := if_neg h0
    have eb : b = m - s ^ 2 / β := if_neg h0
    have hb0 : 0 ≤ b := by
      rw [eb, sub_nonneg, div_le_iff₀ hβ']; linarith
    refine ⟨by rw [ea]; positivity, hb0, ?_, ?_⟩
    · rw [ea, eb, i1, i2]; field_simp; ring
    · rw [eb, i1, i2]; field_simp; ring

/-- The conserved energy in terms of `Z`. -/
theorem energy_form (q : Prim) (h : G.Valid) (hp : PosDef G) :
    let W := lorentz G.gam q.v
    let Z := (q.rho + q.u + q.P) * W ^ 2
    let β := G.dot3 q.B q.B
    (q.rho + q.u + q.P) * W ^ 2 - q.P - q.rho * W + G.dot3 q.B q.B
        - (G.dot3 q.B q.B / W ^ 2 + (G.dot3 q.B q.v / W) ^ 2) / 2
      = Z - q.P - q.rho * W + β / 2 + (β * (1 - 1 / W ^ 2) - (G.dot3 q.B q.v / W) ^ 2) / 2 := by
  intro W Z β
  ring

/-- Two states of matter with the same conserved variables have the same `Z` order (one direction of the argument). -/
theorem not_lt_Z (eos : Eos) (dom : ℝ → ℝ → Prop) (ye : ℝ) (hc : Causal eos dom ye) (q₁ q₂ : Prim) (h : G.Valid)
    (hp : PosDef G) (m₁ : Matter eos dom ye q₁) (m₂ : Matter eos dom ye q₂)
    (hB : q₁.B = q₂.B) (hM : mom G q₁ = mom G q₂)
    (hD : q₁.rho * lorentz G.gam q₁.v = q₂.rho * lorentz G.gam q₂.v)
    (hE : (q₁.rho + q₁.u + q₁.P) * lorentz G.gam q₁.v ^ 2 - q₁.P - q₁.rho * lorentz G.gam q₁.v + G.dot3 q₁.B q₁.B
        - (G.dot3 q₁.B q₁.B / lorentz G.gam q₁.v ^ 2 + (G.dot3 q₁.B q₁.v / lorentz G.gam q₁.v) ^ 2) / 2
      = (q₂.rho + q₂.u + q₂.P) * lorentz G.gam q₂.v ^ 2 - q₂.P - q₂.rho * lorentz G.gam q₂.v + G.dot3 q₂.B q₂.B
        - (G.dot3 q₂.B q₂.B / lorentz G.gam q₂.v ^ 2 + (G.dot3 q₂.B q₂.v / lorentz G.gam q₂.v) ^ 2) / 2) :
    ¬ (q₁.rho + q₁.u + q₁.P) * lorentz G.gam q₁.v ^ 2 < (q₂.rho + q₂.u + q₂.P) * lorentz G.gam q₂.v ^ 2 := by
  intro hlt
  obtain ⟨a1, b1, s1, e1⟩ := split q₁ h hp m₁.enthalpy
  obtain ⟨-, -, s2, e2⟩ := split q₂ h hp m₂.enthalpy
  rw [energy_form q₁ h hp, energy_form q₂ h hp, e1, e2] at hE
  rw [← hM, ← hB] at s2
  rw [← hM, ← hB] at hE
  have hβ : 0 ≤ G.dot3 q₁.B q₁.B := hp _
  have hw1 := m₁.enthalpy
  have hw2 := m₂.enthalpy
  have hW1 : 0 < lorentz G.gam q₁.v := lorentz_pos G hp q₁.v
  have hW2 : 0 < lorentz G.gam q₂.v := lorentz_pos G hp q₂.v
  generalize hβd : G.dot3 q₁.B q₁.B = β at *
  generalize ha : (if β = 0 then G.dot3 (mom G q₁) (mom G q₁) else G.dot3 q₁.B (mom G q₁) ^ 2 / β) = a at *
  generalize hb : (if β = 0 then 0 else G.dot3 (mom G q₁) (mom G q₁) - G.dot3 q₁.B (mom G q₁) ^ 2 / β) = b at *
  generalize lorentz G.gam q₁.v = W₁ at *
  generalize lorentz G.gam q₂.v = W₂ at *
  have hZ1 : 0 < (q₁.rho + q₁.u + q₁.P) * W₁ ^ 2 := by positivity
  have ew1 : q₁.rho + q₁.u + q₁.P = (q₁.rho + q₁.u + q₁.P) * W₁ ^ 2 * (1 - (1 - 1 / W₁ ^ 2)) := by field_simp; ring
  have ew2 : q₂.rho + q₂.u + q₂.P = (q₂.rho + q₂.u + q₂.P) * W₂ ^ 2 * (1 - (1 - 1 / W₂ ^ 2)) := by field_simp; ring
  have hvd := speed_decreases hβ a1 b1 hZ1 hlt.le
  rw [← s1, ← s2] at hvd
  have hinv : 1 / W₁ ^ 2 ≤ 1 / W₂ ^ 2 := by linarith
  have hWW : W₂ ≤ W₁ := by
    have : W₂ ^ 2 ≤ W₁ ^ 2 := by
      rwa [one_div_le_one_div (by positivity) (by positivity)] at hinv
    exact (sq_le_sq₀ hW2.le hW1.le).1 this
  have hrho : q₁.rho ≤ q₂.rho := by
    by_contra hcon
    push Not at hcon
    have : q₂.rho * W₂ < q₁.rho * W₁ := by
      calc q₂.rho * W₂ ≤ q₂.rho * W₁ := mul_le_mul_of_nonneg_left hWW m₂.rho_pos.le
        _ < q₁.rho * W₁ := mul_lt_mul_of_pos_right hcon hW1
    linarith
  have hww : q₁.rho + q₁.u + q₁.P ≤ q₂.rho + q₂.u + q₂.P := by
    have p1 : 0 < 1 / W₁ ^ 2 := by positivity
    rw [ew1, ew2]
    nlinarith [hlt.le]
  have hcaus := hc q₁.rho q₁.u q₂.rho q₂.u m₁.rho_pos m₁.inside m₂.inside hrho
    (by rw [← m₁.pressure, ← m₂.pressure]; exact hww)
  rw [← m₁.pressure, ← m₂.pressure] at hcaus
  have hfin := energy_strict (P₁ := q₁.P) (P₂ := q₂.P) hβ a1 b1 hZ1 hlt
    (by rw [← s1]; have : 0 < 1 / W₁ ^ 2 := by positivity
        linarith)
    (by rw [← s2]; have : 0 < 1 / W₂ ^ 2 := by positivity
        linarith)
    (by rw [← s1, ← s2, ← ew1, ← ew2]; linarith)
  have k1 : β * b / ((q₁.rho + q₁.u + q₁.P) * W₁ ^ 2 + β) ^ 2 / 2 = β * b / (2 * ((q₁.rho + q₁.u + q₁.P) * W₁ ^ 2 + β) ^ 2) := by
    rw [div_div, mul_comm _ (2:ℝ)]
  have k2 : β * b / ((q₂.rho + q₂.u + q₂.P) * W₂ ^ 2 + β) ^ 2 / 2 = β * b / (2 * ((q₂.rho + q₂.u + q₂.P) * W₂ ^ 2 + β) ^ 2) := by
    rw [div_div, mul_comm _ (2:ℝ)]
  rw [k1, k2] at hE
  linarith

/-- C136. The conserved variables determine the state: two states of matter (any metric, shift, field, velocity; a causal equation of state)
with the same conserved variables are the same state and have the same electron fraction. -/
theorem p2c_injective (val : Bool) (eos : Eos) (dom : ℝ → ℝ → Prop) (gdet : ℝ) (ye₁ ye₂ : ℝ) (q₁ q₂ : Prim) (h : G.Valid)
    (ha : 0 < G.alpha) (hp : PosDef G) (hg : 0 < gdet) (hc : Causal eos dom ye₁)
    (m₁ : Matter eos dom ye₁ q₁) (m₂ : Matter eos dom ye₂ q₂)
    (hcons : p2c val G gdet ye₁ q₁ = p2c val G gdet ye₂ q₂) : q₁ = q₂ ∧ ye₁ = ye₂ := by
  have hW1 : 0 < lorentz G.gam q₁.v := lorentz_pos G hp q₁.v
  have hW2 : 0 < lorentz G.gam q₂.v := lorentz_pos G hp q₂.v
  have cD : gdet * q₁.rho * lorentz G.gam q₁.v = gdet * q₂.rho * lorentz G.gam q₂.v := congrArg Cons.D hcons
  have hD : q₁.rho * lorentz G.gam q₁.v = q₂.rho * lorentz G.gam q₂.v :=
    mul_left_cancel₀ hg.ne' (by rw [← mul_assoc, ← mul_assoc]; exact cD)
  have hB : q₁.B = q₂.B := by
    funext i
    have : gdet * q₁.B i = gdet * q₂.B i := congrFun (congrArg Cons.B hcons) i
    exact mul_left_cancel₀ hg.ne' this
  have hM : mom G q₁ = mom G q₂ := by
    rw [mom_eq val gdet ye₁ q₁ h ha hp hg.ne', mom_eq val gdet ye₂ q₂ h ha hp hg.ne', hcons]
  have hE : _ = _ := congrArg (tauOf val G gdet) hcons
  rw [tauOf_p2c val gdet ye₁ q₁ h ha hp hg.ne', tauOf_p2c val gdet ye₂ q₂ h ha hp hg.ne'] at hE
  have hye : ye₁ = ye₂ := by
    have c : (p2c val G gdet ye₁ q₁).D * ye₁ = (p2c val G gdet ye₂ q₂).D * ye₂ := congrArg Cons.ye hcons
    rw [← hcons] at c
    refine mul_left_cancel₀ ?_ c
    have : 0 < gdet * q₁.rho * lorentz G.gam q₁.v := mul_pos (mul_pos hg m₁.rho_pos) hW1
    exact this.ne'
  refine ⟨?_, hye⟩
  subst hye
  have hZ := le_antisymm
    (not_lt.1 (not_lt_Z eos dom ye₁ hc q₂ q₁ h hp m₂ m₁ hB.symm hM.symm hD.symm hE.symm))
    (not_lt.1 (not_lt_Z eos dom ye₁ hc q₁ q₂ h hp m₁ m₂ hB hM hD hE))
  obtain ⟨-, -, s1, -⟩ := split q₁ h hp m₁.enthalpy
  obtain ⟨-, -, s2, -⟩ := split q₂ h hp m₂.enthalpy
  rw [← hM, ← hB, ← hZ, ← s1] at s2
  have hWsq : lorentz G.gam q₁.v ^ 2 = lorentz G.gam q₂.v ^ 2 := by
    have : 1 / lorentz G.gam q₁.v ^ 2 = 1 / lorentz G.gam q₂.v ^ 2 := by linarith
    have := congrArg (fun t => 1 / t) this
    simpa using this
  have hW : lorentz G.gam q₁.v = lorentz G.gam q₂.v := by
    rcases sq_eq_sq_iff_eq_or_eq_neg.1 hWsq with e | e
    · exact e
    · linarith
  have hrho : q₁.rho = q₂.rho := by
    rw [← hW] at hD; exact mul_right_cancel₀ hW1.ne' hD
  have hw : q₁.rho + q₁.u + q₁.P = q₂.rho + q₂.u + q₂.P := by
    rw [← hWsq] at hZ; exact mul_right_cancel₀ (by positivity) hZ
  have c1 := hc q₁.rho q₁.u q₂.rho q₂.u m₁.rho_pos m₁.inside m₂.inside hrho.le
    (by rw [← m₁.pressure, ← m₂.pressure]; exact hw.le)
  have c2 := hc q₂.rho q₂.u q₁.rho q₁.u m₂.rho_pos m₂.inside m₁.inside hrho.ge
    (by rw [← m₁.pressure, ← m₂.pressure]; exact hw.ge)
  rw [← m₁.pressure, ← m₂.pressure] at c1 c2
  have hP : q₁.P = q₂.P := by linarith
  have hu : q₁.u = q₂.u := by linarith
  have hv : q₁.v = q₂.v := by
    obtain ⟨j1, -⟩ := invariants q₁ h hp
    obtain ⟨j2, -⟩ := invariants q₂ h hp
    rw [← hM, ← hB, ← hZ, ← hW] at j2
    have hZ1 : 0 < (q₁.rho + q₁.u + q₁.P) * lorentz G.gam q₁.v ^ 2 := by have := m₁.enthalpy; positivity
    have ht : G.dot3 q₁.B q₁.v / lorentz G.gam q₁.v = G.dot3 q₁.B q₂.v / lorentz G.gam q₁.v :=
      mul_left_cancel₀ hZ1.ne' (j1.symm.trans j2)
    funext i
    have e := congrFun hM i
    simp only [mom] at e
    rw [← hZ, ← hW, ← hB, ← ht] at e
    have e' := add_right_cancel e
    have hβ : 0 ≤ G.dot3 q₁.B q₁.B := hp _
    refine mul_left_cancel₀ ?_ e'
    positivity
  cases q₁; cases q₂
  simp only [Prim.mk.injEq]
  exact ⟨hrho, hu, hP, hv, hB⟩

/-- The ideal gas with an adiabatic index in `(1, 2]` is causal in the sense used. -/
theorem ideal_causal (eos : Eos) (Γ : ℝ) (h1 : 1 < Γ) (h2 : Γ ≤ 2) (ye : ℝ)
    (he : ∀ r e, eos.pRE r e ye = (Γ - 1) * r * e) (dom : ℝ → ℝ → Prop) (hd : ∀ r u, dom r u → 0 < r) :
    Causal eos dom ye := by
  intro r₁ u₁ r₂ u₂ hr1 d1 d2 hr hw
  have hr2 := hd _ _ d2
  have e1 : eos.pRE r₁ (u₁ / r₁) ye = (Γ - 1) * u₁ := by rw [he]; field_simp
  have e2 : eos.pRE r₂ (u₂ / r₂) ye = (Γ - 1) * u₂ := by rw [he]; field_simp
  rw [e1, e2] at hw ⊢
  by_cases hu : u₁ ≤ u₂
  · nlinarith
  · push Not at hu
    nlinarith

/-- The stored energy is determined by the energy of the normal observer together with density and momentum. -/
theorem tau_of_tauOf (val : Bool) (G : ADM ℝ) (gdet : ℝ) (c c' : Cons) (ha : G.alpha ≠ 0) (hg : gdet ≠ 0) (hD : c.D = c'.D)
    (hS : c.S = c'.S) (ht : tauOf val G gdet c = tauOf val G gdet c') : c.tau = c'.tau := by
  cases val with
  | true =>
    simp only [tauOf, if_true] at ht
    exact mul_right_cancel₀ (one_div_ne_zero hg) ht
  | false =>
    simp only [tauOf, Bool.false_eq_true, if_false, Fin.sum_univ_succ (n := 3), Fin.cons_zero, Fin.cons_succ, hD, hS] at ht
    have h1 : (c.tau - c'.D) * (1 / gdet) * (1 / G.alpha) = (c'.tau - c'.D) * (1 / gdet) * (1 / G.alpha) := by linarith
    have h2 := mul_right_cancel₀ (one_div_ne_zero hg) (mul_right_cancel₀ (one_div_ne_zero ha) h1)
    linarith

/-! ### A stiff gas has two states with the same conserved variables -/

/-- Ideal gas with adiabatic index 3, for the example below. -/
noncomputable def stiffGas : Eos := ⟨fun r e _ => 2 * r * e, fun _ e _ => e, fun r T _ => 2 * r * T⟩

/-- First state: three-velocity 4/5. -/
noncomputable def stiff₁ : Prim := ⟨93 / 5, 19, 38, ![4 / 3, 0, 0], fun _ => 0⟩
/-- Second state: three-velocity 12/13. -/
noncomputable def stiff₂ : Prim := ⟨155 / 13, 5, 10, ![12 / 5, 0, 0], fun _ => 0⟩

/-- C136. Causality is needed: with an adiabatic index of 3 (nothing in the program forbids it) two different states of matter, with positive density, energy
and pressure, have the same conserved variables in flat space. -/
theorem stiff_not_unique (val : Bool) :
    p2c val flat 1 (1 / 2) stiff₁ = p2c val flat 1 (1 / 2) stiff₂ ∧ stiff₁ ≠ stiff₂ ∧
      Matter stiffGas (fun r u => 0 < r ∧ 0 < u) (1 / 2) stiff₁ ∧
      Matter stiffGas (fun r u => 0 < r ∧ 0 < u) (1 / 2) stiff₂ := by
  have hp := flat_valid.2
  have hsq : ∀ v : Fin 3 → ℝ, flat.dot3 v v = v 0 ^ 2 + v 1 ^ 2 + v 2 ^ 2 := by
    intro v; simp [ADM.dot3, flat, Fin.sum_univ_three]; ring
  have l1 : lorentz flat.gam stiff₁.v = 5 / 3 := by
    have h1 := lorentz_sq flat hp stiff₁.v
    have h0 := lorentz_pos flat hp stiff₁.v
    rw [hsq] at h1
    simp [stiff₁] at h1 h0 ⊢
    norm_num at h1
    nlinarith
  have l2 : lorentz flat.gam stiff₂.v = 13 / 5 := by
    have h1 := lorentz_sq flat hp stiff₂.v
    have h0 := lorentz_pos flat hp stiff₂.v
    rw [hsq] at h1
    simp [stiff₂] at h1 h0 ⊢
    norm_num at h1
    nlinarith
  refine ⟨?_, ?_, ⟨by norm_num [stiff₁], by norm_num [stiff₁], by norm_num [stiff₁], by norm_num [stiff₁, stiffGas]⟩,
    ⟨by norm_num [stiff₂], by norm_num [stiff₂], by norm_num [stiff₂], by norm_num [stiff₂, stiffGas]⟩⟩
  · have hD : (p2c val flat 1 (1 / 2) stiff₁).D = (p2c val flat 1 (1 / 2) stiff₂).D := by
      show 1 * stiff₁.rho * lorentz flat.gam stiff₁.v = 1 * stiff₂.rho * lorentz flat.gam stiff₂.v
      rw [l1, l2]; norm_num [stiff₁, stiff₂]
    have hS : (p2c val flat 1 (1 / 2) stiff₁).S = (p2c val flat 1 (1 / 2) stiff₂).S := by
      funext m
      rw [p2c_S val 1 _ _ flat_valid.1 (by norm_num [flat]) hp, p2c_S val 1 _ _ flat_valid.1 (by norm_num [flat]) hp, l1, l2]
      fin_cases m <;> simp [flat, stiff₁, stiff₂, ADM.dot3] <;> norm_num
    have hT := tauOf_p2c val 1 (1 / 2) stiff₁ flat_valid.1 (by norm_num [flat]) hp one_ne_zero
    have hT' := tauOf_p2c val 1 (1 / 2) stiff₂ flat_valid.1 (by norm_num [flat]) hp one_ne_zero
    rw [l1] at hT
    rw [l2] at hT'
    have h12 : tauOf val flat 1 (p2c val flat 1 (1 / 2) stiff₁) = tauOf val flat 1 (p2c val flat 1 (1 / 2) stiff₂) := by
      rw [hT, hT']; simp [stiff₁, stiff₂, ADM.dot3]; norm_num
    have ht := tau_of_tauOf val flat 1 _ _ (by norm_num [flat]) one_ne_zero hD hS h12
    have hye : (p2c val flat 1 (1 / 2) stiff₁).ye = (p2c val flat 1 (1 / 2) stiff₂).ye := by
      show (p2c val flat 1 (1 / 2) stiff₁).D * _ = (p2c val flat 1 (1 / 2) stiff₂).D * _
      rw [hD]
    have hB : (p2c val flat 1 (1 / 2) stiff₁).B = (p2c val flat 1 (1 / 2) stiff₂).B := rfl
    generalize p2c val flat 1 (1 / 2) stiff₁ = c₁ at *
    generalize p2c val flat 1 (1 / 2) stiff₂ = c₂ at *
    cases c₁; cases c₂
    simp only [Cons.mk.injEq]
    exact ⟨hD, hS, hB, ht, hye⟩
  · intro hcon
    have := congrArg Prim.u hcon
    norm_num [stiff₁, stiff₂] at this

example : Matter gas (fun r _ => 0 < r) (1 / 4) exQ ∧ Causal gas (fun r _ => 0 < r) (1 / 4) := by
  refine ⟨⟨by norm_num [exQ], by norm_num [exQ], by norm_num [exQ], by norm_num [exQ, gas]⟩, ?_⟩
  exact ideal_causal gas (5 / 3) (by norm_num) (by norm_num) _ (fun r e => by norm_num [gas]) _ (fun r u h => h)

end Phoebus.C2P
