import Verif.Cosmo.Model
import Mathlib.Analysis.SpecialFunctions.Pow.Deriv
import Mathlib.Analysis.Calculus.MeanValue

/-!
# C107: adiabatic expansion in the FLRW coordinate system
-/
namespace Phoebus.Cosmo
open Geom Metrics Rel Sources Driver Finset

variable {a0 dadt : ℝ}

theorem lorentz_rest (gam : Fin 3 → Fin 3 → ℝ) : lorentz gam (fun _ => 0) = 1 := by simp [lorentz]

/-- the stress tensor of the fluid at rest: `diag (ρ + u, P/a², P/a², P/a²)`. -/
theorem tmunu_rest (X : Fin 4 → ℝ) (rho u P : ℝ) (h : 0 < scaleFactor a0 dadt (X 0)) (m n : Fin 4) :
    tmunu 0 (adm (flrw 0 a0 dadt) X) (atRest rho u P) m n =
      if m = n then (if m = 0 then rho + u else P / (scaleFactor a0 dadt (X 0)) ^ 2) else 0 := by
  have h2 := h.ne'
  have e0 : tBdotv (adm (flrw 0 a0 dadt) X) (atRest rho u P) = 0 := by simp [tBdotv, atRest]
  have e1 : tBsq (adm (flrw 0 a0 dadt) X) (atRest rho u P) = 0 := by simp [tBsq, atRest]
  have e2 : tbsq 0 (adm (flrw 0 a0 dadt) X) (atRest rho u P) = 0 := by simp [tbsq, e0, e1]
  have eu : tU 0 (adm (flrw 0 a0 dadt) X) (atRest rho u P) = Fin.cons 1 (fun _ => 0) := by
    have : lorentz (adm (flrw 0 a0 dadt) X).gam (atRest rho u P).v = 1 := lorentz_rest _
    simp only [tU, this]
    congr 1
    · simp [ratio_zero, adm, flrw]
    · funext l; simp [atRest, adm, flrw]
  have eb : tB 0 (adm (flrw 0 a0 dadt) X) (atRest rho u P) = fun _ => 0 := by
    funext l
    simp only [tB, e0]
    refine Fin.cases ?_ (fun i => ?_) l
    · simp
    · simp [atRest]
  simp only [tmunu, e2, eu, eb]
  have c2 : ∀ (a : ℝ) (f : Fin 3 → ℝ), (Fin.cons a f : Fin 4 → ℝ) 2 = f 1 := fun a f => rfl
  have c3 : ∀ (a : ℝ) (f : Fin 3 → ℝ), (Fin.cons a f : Fin 4 → ℝ) 3 = f 2 := fun a f => rfl
  have c2' : ∀ (a : Fin 4 → ℝ) (f : Fin 3 → Fin 4 → ℝ), (Fin.cons a f : Fin 4 → Fin 4 → ℝ) 2 = f 1 := fun a f => rfl
  have c3' : ∀ (a : Fin 4 → ℝ) (f : Fin 3 → Fin 4 → ℝ), (Fin.cons a f : Fin 4 → Fin 4 → ℝ) 3 = f 2 := fun a f => rfl
  fin_cases m <;> fin_cases n <;>
    simp [ADM.g4Inv_00, adm, flrw, atRest, ratio_zero, ADM.g4Inv, c2, c3, c2', c3'] <;> (try field_simp) <;> (try ring)

/-- **C107** The conserved state of a fluid at rest: rest mass and internal energy per coordinate volume. -/
theorem cons_rest (X : Fin 4 → ℝ) (rho u P : ℝ) :
    (cons a0 dadt X (atRest rho u P)).D = scaleFactor a0 dadt (X 0) ^ 3 * rho ∧
    (cons a0 dadt X (atRest rho u P)).tau = scaleFactor a0 dadt (X 0) ^ 3 * u ∧
    (cons a0 dadt X (atRest rho u P)).S = fun _ => 0 := by
  set G := adm (flrw 0 a0 dadt) X with hG
  have hW : lorentz G.gam (atRest rho u P).v = 1 := lorentz_rest _
  have h1 : pBdotv G (atRest rho u P) = 0 := by simp [pBdotv, atRest]
  have h2 : pBsq G (atRest rho u P) = 0 := by simp [pBsq, atRest]
  have h3 : pbsq G (atRest rho u P) = 0 := by simp [pbsq, h1, h2]
  have hv : pv G (atRest rho u P) = fun _ => 0 := by funext i; simp [pv, atRest]
  refine ⟨?_, ?_, ?_⟩
  · simp only [cons, p2c, ← hG, hW]
    simp only [flrw, atRest]; ring
  · simp only [cons, p2c, ← hG, hW, h1, h3]
    simp only [flrw, atRest, if_true]; ring
  · funext m
    simp only [cons, p2c, ← hG, hW, h1, h3, hv]
    simp

/-- **C107** The geometric sources of a uniform fluid at rest are the work done against the expansion, and no force: the
code's energy equation is `d(a³ u)/dt = - P d(a³)/dt`. -/
theorem sources_rest (X : Fin 4 → ℝ) (rho u P : ℝ) (h : 0 < scaleFactor a0 dadt (X 0)) :
    HasDerivAt (fun t => scaleFactor a0 dadt t ^ 3) (3 * scaleFactor a0 dadt (X 0) ^ 2 * dadt) (X 0) ∧
    energySource a0 dadt X (atRest rho u P) = -P * (3 * scaleFactor a0 dadt (X 0) ^ 2 * dadt) ∧
    ∀ l, momSource a0 dadt X (atRest rho u P) l = 0 := by
  have h2 := h.ne'
  have hdg : ∀ m n sg, (flrw 0 a0 dadt).dg X m n sg =
      if m = n ∧ m ≠ 0 ∧ sg = 0 then 2 * scaleFactor a0 dadt (X 0) * dadt else 0 := fun m n sg => rfl
  refine ⟨?_, ?_, fun l => ?_⟩
  · have : HasDerivAt (fun t => scaleFactor a0 dadt t) dadt (X 0) := by
      unfold scaleFactor
      simpa using ((hasDerivAt_id (X 0)).const_mul dadt).const_add a0
    have := this.fun_pow 3
    simpa using this
  · simp only [energySource, energySourceValencia, tmunu_rest X rho u P h, gcon0]
    have hg : ∀ i : Fin 3, (adm (flrw 0 a0 dadt) X).beta i = 0 := fun i => rfl
    have hal : (adm (flrw 0 a0 dadt) X).alpha = 1 := rfl
    have hda : ∀ m, (flrw 0 a0 dadt).gradLnAlpha X m = 0 := fun m => rfl
    have hdet : (flrw 0 a0 dadt).detG X = scaleFactor a0 dadt (X 0) ^ 3 := by simp only [flrw]; ring
    have c2 : ∀ (a : ℝ) (f : Fin 3 → ℝ), (Fin.cons a f : Fin 4 → ℝ) 2 = f 1 := fun a f => rfl
    have c3 : ∀ (a : ℝ) (f : Fin 3 → ℝ), (Fin.cons a f : Fin 4 → ℝ) 3 = f 2 := fun a f => rfl
    simp only [hal, hda, hdet, hg, mul_zero, Finset.sum_const_zero, GeomUtils.connection, hdg]
    simp [Fin.sum_univ_four, ratio_zero, Robust.ratio, c2, c3]
    field_simp
    ring
  · simp only [momSource, momentumSource, tmunu_rest X rho u P h]
    simp only [GeomUtils.connection, hdg]
    fin_cases l <;> simp [Fin.sum_univ_four]

/-- **C107** Adiabatic law: for a gamma-law gas, any internal energy evolved by the code's energy equation (conserved
internal energy changing at the rate of the geometric source) keeps `u a^{3Γ}` constant for all time, at every real `Γ`.

Partial form of C107. Full property: A homogeneous fluid at rest in an expanding universe dilutes as the inverse cube
of the scale factor and its energy obeys dU = -P dV, also after every step of the integrator. Missing: Source terms
proved; the dilution law is exact only with the two-stage integrator. -/
theorem adiabatic_law_partial (rho Gam t0 t1 : ℝ) (u : ℝ → ℝ) (h01 : t0 ≤ t1)
    (hpos : ∀ t ∈ Set.Icc t0 t1, 0 < scaleFactor a0 dadt t)
    (hu : ∀ t ∈ Set.Icc t0 t1, HasDerivAt (fun s => (cons a0 dadt (fun _ => s) (atRest rho (u s) ((Gam - 1) * u s))).tau)
      (energySource a0 dadt (fun _ => t) (atRest rho (u t) ((Gam - 1) * u t))) t) :
    u t1 * scaleFactor a0 dadt t1 ^ (3 * Gam) = u t0 * scaleFactor a0 dadt t0 ^ (3 * Gam) := by
  have ha : ∀ t, HasDerivAt (fun s => scaleFactor a0 dadt s) dadt t := by
    intro t
    unfold scaleFactor
    simpa using ((hasDerivAt_id t).const_mul dadt).const_add a0
  -- E = a^3 u
  have hE : ∀ t ∈ Set.Icc t0 t1, HasDerivAt (fun s => scaleFactor a0 dadt s ^ 3 * u s)
      (-((Gam - 1) * u t) * (3 * scaleFactor a0 dadt t ^ 2 * dadt)) t := by
    intro t ht
    have h1 := hu t ht
    rw [(sources_rest (fun _ => t) rho (u t) _ (hpos t ht)).2.1] at h1
    have e : (fun s => (cons a0 dadt (fun _ => s) (atRest rho (u s) ((Gam - 1) * u s))).tau) =
        fun s => scaleFactor a0 dadt s ^ 3 * u s := by
      funext s; exact (cons_rest (fun _ => s) rho (u s) _).2.1
    rw [e] at h1
    exact h1
  set F : ℝ → ℝ := fun s => scaleFactor a0 dadt s ^ 3 * u s * scaleFactor a0 dadt s ^ (3 * Gam - 3) with hF
  have hF' : ∀ t ∈ Set.Icc t0 t1, HasDerivAt F 0 t := by
    intro t ht
    have hp := hpos t ht
    have h2 := (ha t).rpow_const (p := 3 * Gam - 3) (Or.inl hp.ne')
    have h3 := (hE t ht).mul h2
    have e : (3 * Gam - 3 - 1 : ℝ) = (3 * Gam - 3) + (-1) := by ring
    rw [e, Real.rpow_add hp, Real.rpow_neg_one] at h3
    refine h3.congr_deriv ?_
    field_simp
    ring
  have hval : ∀ t ∈ Set.Icc t0 t1, F t = u t * scaleFactor a0 dadt t ^ (3 * Gam) := by
    intro t ht
    have hp := hpos t ht
    have e : (3 * Gam : ℝ) = (3:ℕ) + (3 * Gam - 3) := by push_cast; ring
    rw [hF]
    conv_rhs => rw [e, Real.rpow_add hp, Real.rpow_natCast]
    ring
  have hconst : F t1 = F t0 := by
    have hd : DifferentiableOn ℝ F (Set.Icc t0 t1) := fun t ht => (hF' t ht).differentiableAt.differentiableWithinAt
    have hc := constant_of_has_deriv_right_zero (f := F) (a := t0) (b := t1) hd.continuousOn
      (fun t ht => (hF' t ⟨ht.1, ht.2.le⟩).hasDerivWithinAt)
    exact hc t1 ⟨h01, le_refl _⟩
  rw [← hval t1 ⟨h01, le_refl _⟩, ← hval t0 ⟨le_refl _, h01⟩, hconst]

/-- A solution exists: the hypotheses of `adiabatic_law_partial` are met by `u = a^{-3Γ}`, shown for `Γ = 4/3`, `a = 1 + t`. -/
theorem ex_adiabatic (t : ℝ) (ht : 0 ≤ t) :
    HasDerivAt (fun s => (cons 1 1 (fun _ => s) (atRest 1 ((1 + s) ^ (-4 : ℤ)) ((4 / 3 - 1) * (1 + s) ^ (-4 : ℤ)))).tau)
      (energySource 1 1 (fun _ => t) (atRest 1 ((1 + t) ^ (-4 : ℤ)) ((4 / 3 - 1) * (1 + t) ^ (-4 : ℤ)))) t := by
  have hp : 0 < scaleFactor 1 1 t := by unfold scaleFactor; linarith
  rw [(sources_rest (fun _ => t) 1 _ _ hp).2.1]
  have e : (fun s => (cons 1 1 (fun _ => s) (atRest 1 ((1 + s) ^ (-4 : ℤ)) ((4 / 3 - 1) * (1 + s) ^ (-4 : ℤ)))).tau) =
      fun s : ℝ => (1 + s) ^ 3 * (1 + s) ^ (-4 : ℤ) := by
    funext s
    rw [(cons_rest (fun _ => s) 1 _ _).2.1]
    simp [scaleFactor]
  rw [e]
  have h1 : HasDerivAt (fun s : ℝ => 1 + s) 1 t := by simpa using (hasDerivAt_id t).const_add 1
  have hne : (1 + t : ℝ) ≠ 0 := by linarith
  have h3 := (h1.pow 3).mul ((hasDerivAt_zpow (-4) (1 + t) (Or.inl hne)).comp t h1)
  refine h3.congr_deriv ?_
  simp only [scaleFactor, one_mul]
  have e1 : (1 + t : ℝ) ^ (-4 : ℤ) = ((1 + t) ^ 4)⁻¹ := by rw [zpow_neg]; norm_cast
  have e2 : (1 + t : ℝ) ^ (-4 - 1 : ℤ) = ((1 + t) ^ 5)⁻¹ := by
    rw [show (-4 - 1 : ℤ) = -(5 : ℕ) by norm_num, zpow_neg, zpow_natCast]
  simp [e1, e2]
  field_simp
  ring

/-! ## Discrete dilution -/

theorem rkStep_zero (betas : List ℝ) (dt D : ℝ) : rkStep betas dt (fun _ => 0) D = D := by
  unfold rkStep
  suffices h : ∀ cur, cur = D → betas.foldl (fun cur b => rkStage b dt D cur 0) cur = D from h D rfl
  induction betas with
  | nil => intro cur h; simpa using h
  | cons b l ih =>
    intro cur h
    rw [List.foldl_cons]
    apply ih
    rw [h]; unfold rkStage; ring

/-- **C107** Rest mass per coordinate volume is constant over any number of steps, and the recovered density is that mass over
the volume element of the time of the last stage. -/
theorem run_density (betas : List ℝ) (dt : ℝ) (n : ℕ) (c : Cell) :
    (run betas a0 dadt dt n c).D = c.D ∧
    (run betas a0 dadt dt (n + 1) c).rho =
      c.D / scaleFactor a0 dadt (stageTime betas (n * dt) dt betas.length) ^ 3 := by
  have hD : ∀ n, (run betas a0 dadt dt n c).D = c.D := by
    intro n
    induction n with
    | zero => rfl
    | succ n ih => simp only [run, step]; rw [rkStep_zero, ih]
  refine ⟨hD n, ?_⟩
  simp only [run, step]
  rw [rkStep_zero, hD n]
  simp [flrw, pow_succ]

/-- **C107** The density after a step follows the dilution law `ρ a³ = const` at the new time exactly when the last stage's
geometry is at the new time. -/
theorem dilution_iff (betas : List ℝ) (dt rho0 : ℝ) (n : ℕ) (hr : 0 < rho0) (h0 : 0 < a0) (hd : dadt ≠ 0)
    (hs : 0 < scaleFactor a0 dadt (stageTime betas (n * dt) dt betas.length))
    (he : 0 < scaleFactor a0 dadt ((n + 1 : ℕ) * dt)) :
    (run betas a0 dadt dt (n + 1) ⟨a0 ^ 3 * rho0, rho0⟩).rho * scaleFactor a0 dadt ((n + 1 : ℕ) * dt) ^ 3 = rho0 * a0 ^ 3 ↔
      stageTime betas (n * dt) dt betas.length = (n + 1 : ℕ) * dt := by
  rw [(run_density betas dt n _).2]
  simp only
  set s := stageTime betas (n * dt) dt betas.length
  set e := ((n + 1 : ℕ) : ℝ) * dt
  have hc : 0 < a0 ^ 3 * rho0 := by positivity
  constructor
  · intro h
    have h3 : scaleFactor a0 dadt e ^ 3 = scaleFactor a0 dadt s ^ 3 := by
      rw [div_mul_eq_mul_div, div_eq_iff (by positivity)] at h
      have : a0 ^ 3 * rho0 * scaleFactor a0 dadt e ^ 3 = a0 ^ 3 * rho0 * scaleFactor a0 dadt s ^ 3 := by linarith
      exact mul_left_cancel₀ hc.ne' this
    have h1 : scaleFactor a0 dadt e = scaleFactor a0 dadt s := by
      exact (pow_left_inj₀ he.le hs.le (by norm_num)).1 h3
    unfold scaleFactor at h1
    have : dadt * s = dadt * e := by linarith
    exact mul_left_cancel₀ hd this
  · intro h
    rw [h] at hs ⊢
    field_simp

/-- **C107** The second-order integrator dilutes correctly; the first- and third-order ones leave the density of an expanding
universe too high (the geometry of their last stage is at an earlier time). -/
theorem dilution_by_integrator (dt rho0 : ℝ) (n : ℕ) (hr : 0 < rho0) (h0 : 0 < a0) (hd : 0 < dadt) (hdt : 0 < dt) :
    (run [1, 1/2] a0 dadt dt (n + 1) ⟨a0 ^ 3 * rho0, rho0⟩).rho * scaleFactor a0 dadt ((n + 1 : ℕ) * dt) ^ 3 = rho0 * a0 ^ 3 ∧
    rho0 * a0 ^ 3 < (run [1] a0 dadt dt (n + 1) ⟨a0 ^ 3 * rho0, rho0⟩).rho * scaleFactor a0 dadt ((n + 1 : ℕ) * dt) ^ 3 ∧
    rho0 * a0 ^ 3 <
      (run [1, 1/4, 2/3] a0 dadt dt (n + 1) ⟨a0 ^ 3 * rho0, rho0⟩).rho * scaleFactor a0 dadt ((n + 1 : ℕ) * dt) ^ 3 := by
  have hn : (0:ℝ) ≤ n := Nat.cast_nonneg n
  have hnd : 0 ≤ n * dt := by positivity
  have hsf : ∀ t, 0 ≤ t → 0 < scaleFactor a0 dadt t := by
    intro t ht; unfold scaleFactor; positivity
  have key : ∀ s e : ℝ, 0 ≤ s → s < e →
      rho0 * a0 ^ 3 < a0 ^ 3 * rho0 / scaleFactor a0 dadt s ^ 3 * scaleFactor a0 dadt e ^ 3 := by
    intro s e hs hse
    have p1 := hsf s hs
    have hlt : scaleFactor a0 dadt s < scaleFactor a0 dadt e := by unfold scaleFactor; nlinarith
    have h3 : scaleFactor a0 dadt s ^ 3 < scaleFactor a0 dadt e ^ 3 := pow_lt_pow_left₀ hlt p1.le (by norm_num)
    rw [div_mul_eq_mul_div, lt_div_iff₀ (by positivity)]
    have : 0 < a0 ^ 3 * rho0 := by positivity
    nlinarith
  refine ⟨?_, ?_, ?_⟩
  · rw [dilution_iff _ dt rho0 n hr h0 hd.ne']
    · simp [stageTime]; ring
    · apply hsf; simp [stageTime]; positivity
    · apply hsf; positivity
  · rw [(run_density _ dt n _).2]
    apply key
    · simp [stageTime]; positivity
    · simp [stageTime]; nlinarith
  · rw [(run_density _ dt n _).2]
    apply key
    · simp [stageTime]; positivity
    · simp [stageTime]; nlinarith

end Phoebus.Cosmo
