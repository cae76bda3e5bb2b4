import Verif.TOV.Model
import Mathlib.Analysis.SpecialFunctions.Pow.Deriv
import Mathlib.Analysis.SpecialFunctions.Log.Deriv

/-!
# C44: TOV integration
-/
namespace Phoebus.TOV
open Real

section
variable {K : Type*} [Field K] [LinearOrder K] [IsStrictOrderedRing K]
variable {pi Pmin dr pc phi0 : K} {thermo : K → K × K}

/-- Specification: an equation of state with nonnegative density and energy, empty at zero pressure. -/
structure EosOk (thermo : K → K × K) : Prop where
  rho : ∀ P, 0 ≤ P → 0 ≤ (thermo P).1
  eps : ∀ P, 0 ≤ P → 0 ≤ (thermo P).2
  zero : (thermo 0).1 = 0

theorem rhoAdm_nonneg (h : EosOk thermo) {P : K} (hP : 0 ≤ P) : 0 ≤ (thermo P).1 * (1 + (thermo P).2) :=
  mul_nonneg (h.rho P hP) (by have := h.eps P hP; linarith)

theorem clip_nonneg {P : K} (hPm : 0 ≤ Pmin) : 0 ≤ (if P < Pmin then 0 else P) := by
  split_ifs with h
  · exact le_rfl
  · exact hPm.trans (not_lt.1 h)

theorem tovRHS_m_nonneg (h : EosOk thermo) (hpi : 0 ≤ pi) (hPm : 0 ≤ Pmin) (r : K) (s : State K) :
    0 ≤ (tovRHS pi thermo Pmin r s).m := by
  have := rhoAdm_nonneg h (clip_nonneg (P := s.P) hPm)
  have hr := mul_self_nonneg r
  simp only [tovRHS, mRHS]
  rw [mul_assoc (4 * pi)]
  positivity

/-- **C44** The enclosed mass starts at zero and never decreases outward: any grid, any equation of state. -/
theorem mass_monotone (h : EosOk thermo) (hpi : 0 ≤ pi) (hPm : 0 ≤ Pmin) (hdr : 0 ≤ dr) :
    (∀ i, (tov pi thermo Pmin dr pc phi0 i).m ≤ (tov pi thermo Pmin dr pc phi0 (i + 1)).m) ∧
    ∀ i, 0 ≤ (tov pi thermo Pmin dr pc phi0 i).m := by
  have h1 : ∀ i, (tov pi thermo Pmin dr pc phi0 i).m ≤ (tov pi thermo Pmin dr pc phi0 (i + 1)).m := by
    intro i
    simp only [tov, step]
    have := mul_nonneg hdr (tovRHS_m_nonneg (r := (i:K) * dr) h hpi hPm (stage pi thermo Pmin dr (i * dr) (tov pi thermo Pmin dr pc phi0 i)))
    linarith
  refine ⟨h1, fun i => ?_⟩
  induction i with
  | zero => exact le_rfl
  | succ i ih => exact ih.trans (h1 i)

theorem phiRHS_nonneg (hpi : 0 ≤ pi) {r m P : K} (hr : 0 ≤ r) (hm : 0 ≤ m) (hP : 0 ≤ P) (hh : r = 0 ∨ 2 * m < r) :
    0 ≤ phiRHS pi r m P := by
  unfold phiRHS
  split_ifs with h0
  · exact le_rfl
  · have hr' : 0 < r := lt_of_le_of_ne hr (Ne.symm h0)
    have h2 : 2 * m < r := by rcases hh with h | h; · exact absurd h h0
                              · exact h
    have : 0 < r - 2 * m := by linarith
    positivity

/-- **C44** The pressure never increases and the potential never decreases across a step whose half-step state lies outside
its own Schwarzschild radius. -/
theorem pressure_monotone (h : EosOk thermo) (hpi : 0 ≤ pi) (hPm : 0 ≤ Pmin) (hdr : 0 ≤ dr) (i : ℕ)
    (hphys : i = 0 ∨ 2 * (stage pi thermo Pmin dr (i * dr) (tov pi thermo Pmin dr pc phi0 i)).m < i * dr) :
    (tov pi thermo Pmin dr pc phi0 (i + 1)).P ≤ (tov pi thermo Pmin dr pc phi0 i).P ∧
    (tov pi thermo Pmin dr pc phi0 i).phi ≤ (tov pi thermo Pmin dr pc phi0 (i + 1)).phi := by
  set s := tov pi thermo Pmin dr pc phi0 i with hs
  set k := stage pi thermo Pmin dr (i * dr) s with hk
  have hr : (0:K) ≤ i * dr := mul_nonneg (Nat.cast_nonneg i) hdr
  have hm : 0 ≤ k.m := by
    have h1 := (mass_monotone (pc := pc) (phi0 := phi0) h hpi hPm hdr).2 i
    have h2 := mul_nonneg hdr (tovRHS_m_nonneg h hpi hPm ((i:K) * dr) s)
    rw [← hs] at h1
    simp only [hk, stage]; linarith
  have hclip := clip_nonneg (P := k.P) hPm
  have hphi : 0 ≤ phiRHS pi (i * dr) k.m (if k.P < Pmin then 0 else k.P) := by
    refine phiRHS_nonneg hpi hr hm hclip ?_
    rcases hphys with rfl | hphys
    · left; simp
    · right; exact hphys
  have e : tov pi thermo Pmin dr pc phi0 (i + 1) = step pi thermo Pmin dr (i * dr) s := rfl
  rw [e]
  simp only [step, tovRHS, ← hk]
  constructor
  · have : pRHS pi (i * dr) ((thermo (if k.P < Pmin then 0 else k.P)).1 * (1 + (thermo (if k.P < Pmin then 0 else k.P)).2)) k.m
        (if k.P < Pmin then 0 else k.P) Pmin ≤ 0 := by
      have h1 := rhoAdm_nonneg h hclip
      generalize (if k.P < Pmin then 0 else k.P) = Q at *
      have h2 := mul_nonneg (add_nonneg h1 hclip) hphi
      unfold pRHS
      split_ifs
      · exact le_rfl
      · rw [neg_mul]; linarith
    have := mul_nonneg hdr (neg_nonneg.2 this)
    linarith
  · have := mul_nonneg hdr hphi
    linarith

/-- below the pressure floor nothing but the potential changes. -/
theorem step_frozen (h : EosOk thermo) (hPm : 0 < Pmin) (r : K) (s : State K) (hP : s.P < Pmin) :
    (step pi thermo Pmin dr r s).P = s.P ∧ (step pi thermo Pmin dr r s).m = s.m ∧
    (step pi thermo Pmin dr r s).phi = s.phi + dr * phiRHS pi r s.m 0 := by
  have h1 : tovRHS pi thermo Pmin r s = ⟨0, 0, phiRHS pi r s.m 0⟩ := by
    simp [tovRHS, hP, mRHS, pRHS, hPm, h.zero]
  have h2 : (stage pi thermo Pmin dr r s).P < Pmin ∧ (stage pi thermo Pmin dr r s).m = s.m := by
    simp [stage, h1, hP]
  have h3 : tovRHS pi thermo Pmin r (stage pi thermo Pmin dr r s) = ⟨0, 0, phiRHS pi r s.m 0⟩ := by
    simp [tovRHS, h2.1, mRHS, pRHS, hPm, h.zero, h2.2]
  simp [step, h3]

/-- **C44** Once the pressure has fallen below the floor, mass and pressure stay what they are at every larger radius, and the
potential grows like the Schwarzschild one with that mass. -/
theorem frozen_outside (h : EosOk thermo) (hPm : 0 < Pmin) (i : ℕ) (hP : (tov pi thermo Pmin dr pc phi0 i).P < Pmin) (j : ℕ)
    (hj : i ≤ j) :
    (tov pi thermo Pmin dr pc phi0 j).P = (tov pi thermo Pmin dr pc phi0 i).P ∧
    (tov pi thermo Pmin dr pc phi0 j).m = (tov pi thermo Pmin dr pc phi0 i).m ∧
    (tov pi thermo Pmin dr pc phi0 (j + 1)).phi = (tov pi thermo Pmin dr pc phi0 j).phi +
      dr * phiRHS pi (j * dr) (tov pi thermo Pmin dr pc phi0 i).m 0 := by
  have key : (tov pi thermo Pmin dr pc phi0 j).P = (tov pi thermo Pmin dr pc phi0 i).P ∧
      (tov pi thermo Pmin dr pc phi0 j).m = (tov pi thermo Pmin dr pc phi0 i).m := by
    induction j with
    | zero => rw [show i = 0 by omega]; exact ⟨rfl, rfl⟩
    | succ j ih =>
      rcases Nat.lt_or_ge j i with h1 | h1
      · rw [show i = j + 1 by omega]; exact ⟨rfl, rfl⟩
      · obtain ⟨e1, e2⟩ := ih h1
        obtain ⟨f1, f2, -⟩ := step_frozen (pi := pi) (dr := dr) h hPm (j * dr) (tov pi thermo Pmin dr pc phi0 j) (by rw [e1]; exact hP)
        exact ⟨f1.trans e1, f2.trans e2⟩
  refine ⟨key.1, key.2, ?_⟩
  have := (step_frozen (pi := pi) (dr := dr) h hPm (j * dr) (tov pi thermo Pmin dr pc phi0 j) (by rw [key.1]; exact hP)).2.2
  rw [key.2] at this
  exact this

/-- the first step never changes the state: both stages sit at zero radius. -/
theorem first_step (i : ℕ) (hi : i = 0) : tov pi thermo Pmin dr pc phi0 (i + 1) = tov pi thermo Pmin dr pc phi0 i := by
  subst hi
  simp only [tov, step, tovRHS, mRHS, phiRHS, pRHS, Nat.cast_zero, zero_mul, mul_zero, if_true]
  simp

/-- **C44** The matter handed on: vacuum below `1.1 Pmin`, otherwise the equation of state's energy density at rest, with
isotropic stress `trc S = 3 S^r_r = 3 P` and no momentum. -/
theorem matter_spec (fac press : K) (h : EosOk thermo) (hf : 0 ≤ fac * Pmin) :
    let M := matter thermo fac Pmin press
    M.J = 0 ∧ M.trcS = 3 * M.Srr ∧ 0 ≤ M.rhoAdm ∧ 0 ≤ M.Srr ∧
    (press ≤ fac * Pmin → M = ⟨0, 0, 0, 0, 0, 0⟩) ∧
    (fac * Pmin < press → M.Srr = press ∧ M.rhoAdm = (thermo press).1 * (1 + (thermo press).2)) := by
  by_cases hv : press ≤ fac * Pmin
  · simp [matter, hv, not_lt.2 hv]
  · have hp : 0 ≤ press := hf.trans (not_le.1 hv).le
    have := rhoAdm_nonneg h hp
    simp [matter, hv, this, hp]
end

/-! ### The polytrope -/

/-- **C44** The polytropic state reproduces both laws: `P = K rho^Γ` and `P = (Γ-1) rho eps`. -/
theorem polytrope_laws (k gamma P : ℝ) (hk : 0 < k) (hg : 1 < gamma) (hP : 0 < P) :
    P = k * (polytrope k gamma P).1 ^ gamma ∧ P = (gamma - 1) * (polytrope k gamma P).1 * (polytrope k gamma P).2 := by
  have hx : 0 < P / k := div_pos hP hk
  have hg0 : gamma ≠ 0 := by linarith
  have hg1 : gamma - 1 ≠ 0 := by linarith
  unfold polytrope
  constructor
  · rw [← rpow_mul hx.le, one_div, inv_mul_cancel₀ hg0, rpow_one]; field_simp
  · have : (P / k) ^ (1 / gamma) * (P / k) ^ ((gamma - 1) / gamma) = P / k := by
      rw [← rpow_add hx, show 1 / gamma + (gamma - 1) / gamma = 1 by field_simp; ring, rpow_one]
    calc P = k * (P / k) := by field_simp
      _ = k * ((P / k) ^ (1 / gamma) * (P / k) ^ ((gamma - 1) / gamma)) := by rw [this]
      _ = _ := by simp only; field_simp

theorem polytrope_eosOk (k gamma : ℝ) (hk : 0 < k) (hg : 1 < gamma) : EosOk (polytrope k gamma) := by
  refine ⟨fun P hP => ?_, fun P hP => ?_, ?_⟩
  · exact rpow_nonneg (div_nonneg hP hk.le) _
  · exact mul_nonneg (div_nonneg hk.le (by linarith)) (rpow_nonneg (div_nonneg hP hk.le) _)
  · simp only [polytrope, zero_div]
    exact zero_rpow (by rw [one_div]; exact inv_ne_zero (by linarith))

/-- specific enthalpy. -/
noncomputable def enthalpy (k gamma P : ℝ) : ℝ := 1 + (polytrope k gamma P).2 + P / (polytrope k gamma P).1

/-- `dh = dP / rho` along the polytrope. -/
theorem enthalpy_deriv (k gamma P : ℝ) (hk : 0 < k) (hg : 1 < gamma) (hP : 0 < P) :
    HasDerivAt (enthalpy k gamma) (1 / (polytrope k gamma P).1) P := by
  have hx : 0 < P / k := div_pos hP hk
  have hg0 : gamma ≠ 0 := by linarith
  have hg1 : gamma - 1 ≠ 0 := by linarith
  -- h = 1 + Γ k/(Γ-1) (P/k)^((Γ-1)/Γ)
  have e : ∀ᶠ Q in nhds P, enthalpy k gamma Q = 1 + gamma * k / (gamma - 1) * (Q / k) ^ ((gamma - 1) / gamma) := by
    refine (eventually_gt_nhds hP).mono fun Q hQ => ?_
    have hy : 0 < Q / k := div_pos hQ hk
    have h1 : Q / (Q / k) ^ (1 / gamma) = k * (Q / k) ^ ((gamma - 1) / gamma) := by
      rw [show (gamma - 1) / gamma = 1 - 1 / gamma by field_simp, rpow_sub hy, rpow_one]
      field_simp
    simp only [enthalpy, polytrope, h1]
    field_simp
    ring
  have hd : HasDerivAt (fun Q => 1 + gamma * k / (gamma - 1) * (Q / k) ^ ((gamma - 1) / gamma))
      (gamma * k / (gamma - 1) * ((1 / k) * ((gamma - 1) / gamma) * (P / k) ^ ((gamma - 1) / gamma - 1))) P := by
    have h0 : HasDerivAt (fun Q : ℝ => Q / k) (1 / k) P := (hasDerivAt_id P).div_const k
    exact ((h0.rpow_const (p := (gamma - 1) / gamma) (Or.inl hx.ne')).const_mul _).const_add 1
  refine (hd.congr_of_eventuallyEq e).congr_deriv ?_
  have : (gamma - 1) / gamma - 1 = -(1 / gamma) := by field_simp; ring
  rw [this, rpow_neg hx.le]
  simp only [polytrope]
  have := (rpow_pos_of_pos hx (1 / gamma)).ne'
  field_simp

/-- **C44** Hydrostatic equilibrium: along any solution of the differential equations the code integrates, above the pressure
floor, `h exp(phi)` is constant (the relativistic Bernoulli integral of a star at rest). -/
theorem hydrostatic (k gamma Pmin : ℝ) (hk : 0 < k) (hg : 1 < gamma) (m P phi : ℝ → ℝ) (r : ℝ) (hPr : 0 < P r) (hfl : Pmin ≤ P r)
    (hP : HasDerivAt P (tovRHS π (polytrope k gamma) Pmin r ⟨m r, P r, phi r⟩).P r)
    (hphi : HasDerivAt phi (tovRHS π (polytrope k gamma) Pmin r ⟨m r, P r, phi r⟩).phi r) :
    HasDerivAt (fun s => enthalpy k gamma (P s) * exp (phi s)) 0 r := by
  simp only [tovRHS, not_lt.2 hfl, if_false, pRHS] at hP hphi
  have hx : 0 < P r / k := div_pos hPr hk
  have hrho : 0 < (polytrope k gamma (P r)).1 := rpow_pos_of_pos hx _
  have hh := (enthalpy_deriv k gamma (P r) hk hg hPr).comp r hP
  refine (hh.mul hphi.exp).congr_deriv ?_
  simp only [Function.comp, enthalpy]
  field_simp
  ring

/-- mass equation: `m' = 4 π r² rho (1 + eps)`, so that with `Monopole.misner_sharp` the metric function is that of the star. -/
theorem mass_equation (k gamma Pmin r : ℝ) (s : State ℝ) (hfl : Pmin ≤ s.P) :
    (tovRHS π (polytrope k gamma) Pmin r s).m = 4 * π * r ^ 2 * ((polytrope k gamma s.P).1 * (1 + (polytrope k gamma s.P).2)) := by
  simp only [tovRHS, not_lt.2 hfl, if_false, mRHS]; ring

/-- `K` from entropy: `log (P / rho^Γ) / (Γ - 1)` is the entropy asked for. -/
theorem polytropeK_entropy (s gamma rho : ℝ) (hg : 1 < gamma) (hr : 0 < rho) :
    log (polytropeK s gamma * rho ^ gamma / rho ^ gamma) / (gamma - 1) = s := by
  have := (rpow_pos_of_pos hr gamma).ne'
  have hg1 : gamma - 1 ≠ 0 := by linarith
  rw [mul_div_assoc, div_self this, mul_one, polytropeK, log_exp]; field_simp

/-- Specification: one explicit midpoint step of `y' = f y` on three components. -/
def midpoint {K : Type*} [Field K] (f : (Fin 3 → K) → Fin 3 → K) (dr : K) (y : Fin 3 → K) : Fin 3 → K :=
  fun a => y a + dr * f (fun b => y b + dr / 2 * f y b) a

/-- the components of a state. -/
def State.vec {K : Type*} (s : State K) : Fin 3 → K := ![s.m, s.P, s.phi]

/-- **C44** Each step is the explicit midpoint rule for the right-hand side at the radius of the left point. -/
theorem step_midpoint {K : Type*} [Field K] [LinearOrder K] (pi : K) (thermo : K → K × K) (Pmin dr r : K) (s : State K) :
    (step pi thermo Pmin dr r s).vec = midpoint (fun y => (tovRHS pi thermo Pmin r ⟨y 0, y 1, y 2⟩).vec) dr s.vec := by
  have e : (⟨s.m + dr / 2 * (tovRHS pi thermo Pmin r s).m, s.P + dr / 2 * (tovRHS pi thermo Pmin r s).P,
      s.phi + dr / 2 * (tovRHS pi thermo Pmin r s).phi⟩ : State K) = stage pi thermo Pmin dr r s := by
    simp only [stage, State.mk.injEq]
    refine ⟨by ring, by ring, by ring⟩
  funext a
  fin_cases a <;> simp [step, midpoint, State.vec] <;> rw [← e] <;> exact Or.inl rfl

/-- a star with a linear equation of state meets the hypotheses of the monotonicity theorems, also at the second point. -/
example : EosOk (fun P : ℚ => (P, 0)) := ⟨fun _ h => h, fun _ _ => le_rfl, rfl⟩
example : 2 * (stage (3:ℚ) (fun P => (P, 0)) (1/1000) (1/10) (1 * (1/10)) (tov 3 (fun P => (P, 0)) (1/1000) (1/10) 1 0 1)).m < 1 * (1/10) ∧
    (tov (3:ℚ) (fun P => (P, 0)) (1/1000) (1/10) 1 0 2).P < (tov (3:ℚ) (fun P => (P, 0)) (1/1000) (1/10) 1 0 1).P := by
  decide +kernel

end Phoebus.TOV
