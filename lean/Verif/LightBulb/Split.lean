import Verif.LightBulb.Props
import Verif.C2P.Bounds
import Mathlib.Analysis.Calculus.MeanValue
import Mathlib.Analysis.Calculus.Deriv.Prod
import Mathlib.Analysis.SpecialFunctions.ExpDeriv

/-!
# Cooling applied after the step (C164)

A step is the Runge-Kutta stages followed by `RadiationPostStep`, phoebus_driver.cpp:121-143, 740-797.  Where everything is uniform the stages leave the conserved
variables alone (C131) and recompute the primitives from them; the four-force is then computed from these primitives and added to the conserved variables only.
-/
namespace Phoebus.LightBulb
open Geom GeomUtils Rel Finset

variable {P : Type}

/-- what the cooling step uses: geometry, the recovery of the primitives, their velocity, and species, emissivity and number emissivity as functions of the primitives (the arguments of cooling_function.cpp:293-331).
(Data type of the model.) -/
structure CoolCfg (P : Type) where
  eps : ℝ
  G : ADM ℝ
  detG : ℝ
  recover : Cell → P
  vel : P → Fin 3 → ℝ
  em : P → List (ℤ × ℝ × ℝ)

/-- `PhoebusDriver::Step` for a uniform gas with the cooling function, phoebus_driver.cpp:121-143 and 760-793: the stages (primitives recovered, conserved variables unchanged), `CoolingFunctionCalculateFourForce`,
`ApplyRadiationFourForce`.  The state is what a dump shows: conserved and primitive variables. -/
noncomputable def coolStep (c : CoolCfg P) (s : Cell × P) (dt : ℝ) : Cell × P :=
  let p := c.recover s.1
  let f := coolingForce c.eps c.G (fourVelocity 0 c.G (c.vel p)) c.detG (c.em p)
  (applyForce dt f.1 f.2 s.1, p)

/-! ### Specification -/

/-- the conserved variables as a vector. -/
def cellVec (u : Cell) : ℝ × (Fin 3 → ℝ) × ℝ := (u.energy, u.momentum, u.ye)

/-- rate of change by emission of gas with primitives `p`: energy and momentum are lost along the four-velocity with the summed emissivity, lepton number with the summed signed number emissivity. -/
noncomputable def lossRate (c : CoolCfg P) (p : P) : ℝ × (Fin 3 → ℝ) × ℝ :=
  let J := c.detG * ((c.em p).map fun x => x.2.1).sum
  let u := GeomUtils.lower c.G.g4 (fourVelocity 0 c.G (c.vel p))
  (J * u 0, fun i => -J * u i.succ, -c.detG * ((c.em p).map fun x => (leptonSign x.1 : ℝ) * x.2.2).sum)

/-! ### The steps -/

/-- one step changes the conserved variables by the step times the loss rate of the primitives it shows. -/
theorem coolStep_rate (c : CoolCfg P) (hG : c.G.Valid) (hp : PosDef c.G) (s : Cell × P) (dt : ℝ) : (coolStep c s dt).2 = c.recover s.1 ∧ cellVec (coolStep c s dt).1 = cellVec s.1 + dt • lossRate c (coolStep c s dt).2 := by
  refine ⟨rfl, ?_⟩
  obtain ⟨h1, h2⟩ := cooling_total c.eps hG hp (c.vel (c.recover s.1)) c.detG (c.em (c.recover s.1))
  simp only [coolStep, cellVec, applyForce, lossRate, h1, h2]
  refine Prod.ext ?_ (Prod.ext (funext fun i => ?_) ?_)
  · simp; ring
  · simp; ring
  · simp; ring

/-- the states of a run with the steps `dt`.
(Helper: the outer loop of the driver.) -/
noncomputable def coolRun (c : CoolCfg P) (s : Cell × P) (dt : ℕ → ℝ) : ℕ → Cell × P
  | 0 => s
  | n + 1 => coolStep c (coolRun c s dt n) (dt n)

/-- **C164** Budget: through any number of steps of any lengths the change of energy, momentum and lepton number of the gas is the sum of the steps times the loss rates of the primitives shown after each step. -/
theorem cool_budget (c : CoolCfg P) (hG : c.G.Valid) (hp : PosDef c.G) (s : Cell × P) (dt : ℕ → ℝ) (n : ℕ) : cellVec (coolRun c s dt n).1 = cellVec s.1 + ∑ k ∈ range n, dt k • lossRate c (coolRun c s dt (k + 1)).2 := by
  induction n with
  | zero => simp [coolRun]
  | succ n ih =>
    rw [sum_range_succ, ← add_assoc, ← ih]
    exact (coolStep_rate c hG hp (coolRun c s dt n) (dt n)).2

/-- **C164** The primitives shown are one step behind the conserved variables shown with them. -/
theorem primitives_lag (c : CoolCfg P) (s : Cell × P) (dt : ℕ → ℝ) (n : ℕ) : (coolRun c s dt (n + 1)).2 = c.recover (coolRun c s dt n).1 := rfl

/-- so they agree only if the gas lost nothing that the recovery would notice. -/
theorem primitives_differ (c : CoolCfg P) (hi : Function.Injective c.recover) (hG : c.G.Valid) (hp : PosDef c.G) (s : Cell × P) (dt : ℕ → ℝ) (n : ℕ) :
    (coolRun c s dt (n + 1)).2 = c.recover (coolRun c s dt (n + 1)).1 ↔ dt n • lossRate c (coolRun c s dt (n + 1)).2 = 0 := by
  rw [primitives_lag, hi.eq_iff]
  have h := (coolStep_rate c hG hp (coolRun c s dt n) (dt n)).2
  have h' : cellVec (coolRun c s dt (n + 1)).1 = cellVec (coolRun c s dt n).1 + dt n • lossRate c (coolRun c s dt (n + 1)).2 := h
  rw [← primitives_lag]
  constructor
  · intro e
    rw [← e] at h'
    simpa using h'
  · intro e
    rw [e, add_zero] at h'
    generalize (coolRun c s dt n).1 = a at h'
    generalize (coolRun c s dt (n + 1)).1 = b at h'
    cases a; cases b
    simp only [cellVec, Prod.mk.injEq] at h'
    obtain ⟨h1, h2, h3⟩ := h'
    rw [h1, h2, h3]

/-! ### Convergence -/

section
variable {V : Type*} [NormedAddCommGroup V] [NormedSpace ℝ V]

/-- forward-Euler steps of any lengths up to `δ` stay within a multiple of `δ` of the exact solution. -/
theorem fe_converges {f : V → V} {D : Set V} {K B T δ : ℝ} (hK : 0 ≤ K) (hB0 : 0 ≤ B) (hf : ∀ x ∈ D, ∀ y ∈ D, ‖f x - f y‖ ≤ K * ‖x - y‖) {y : ℝ → V} (hyD : ∀ t ∈ Set.Icc 0 T, y t ∈ D)
    (hy : ∀ t ∈ Set.Icc 0 T, HasDerivWithinAt y (f (y t)) (Set.Icc 0 T) t) (hB : ∀ t ∈ Set.Icc 0 T, ‖f (y t)‖ ≤ B) (s : ℕ → ℝ) (hs : ∀ k, 0 ≤ s k ∧ s k ≤ δ) (u : ℕ → V) (huD : ∀ k, u k ∈ D) (hu0 : u 0 = y 0)
    (hu : ∀ k, u (k + 1) = u k + s k • f (u k)) (n : ℕ) (hn : ∑ k ∈ range n, s k ≤ T) : ‖u n - y (∑ k ∈ range n, s k)‖ ≤ K * B * δ * (∑ k ∈ range n, s k) * Real.exp (K * ∑ k ∈ range n, s k) := by
  have defect : ∀ {t r : ℝ}, 0 ≤ t → 0 ≤ r → t + r ≤ T → ‖y (t + r) - y t - r • f (y t)‖ ≤ K * B * r ^ 2 := fun {t r} ht hr hT => by
    have hsub : Set.Icc t (t + r) ⊆ Set.Icc 0 T := Set.Icc_subset_Icc ht hT
    have step : ∀ a ∈ Set.Icc t (t + r), ‖y a - y t‖ ≤ B * r := fun a ha => by
      have := (convex_Icc t (t + r)).norm_image_sub_le_of_norm_hasDerivWithin_le (f := y) (f' := fun q => f (y q)) (C := B) (x := t) (y := a)
        (fun q hq => (hy q (hsub hq)).mono hsub) (fun q hq => hB q (hsub hq)) ⟨le_rfl, by linarith⟩ ha
      refine this.trans (mul_le_mul_of_nonneg_left ?_ hB0)
      rw [Real.norm_eq_abs, abs_of_nonneg (by linarith [ha.1])]
      linarith [ha.2]
    have := (convex_Icc t (t + r)).norm_image_sub_le_of_norm_hasDerivWithin_le (f := fun q => y q - q • f (y t)) (f' := fun q => f (y q) - (1:ℝ) • f (y t)) (C := K * (B * r)) (x := t) (y := t + r)
      (fun q hq => ((hy q (hsub hq)).mono hsub).sub ((hasDerivWithinAt_id q _).smul_const _)) (fun q hq => by
        rw [one_smul]
        exact (hf _ (hyD q (hsub hq)) _ (hyD t (hsub ⟨le_rfl, by linarith⟩))).trans (mul_le_mul_of_nonneg_left (step q hq) hK)) ⟨le_rfl, by linarith⟩ ⟨by linarith, le_rfl⟩
    have e : (y (t + r) - (t + r) • f (y t)) - (y t - t • f (y t)) = y (t + r) - y t - r • f (y t) := by
      rw [add_smul]; abel
    refine ((congrArg norm e.symm).le.trans this).trans_eq ?_
    rw [add_sub_cancel_left, Real.norm_eq_abs, abs_of_nonneg hr]; ring
  induction n with
  | zero => simp [hu0]
  | succ n ih =>
    rw [sum_range_succ] at hn ⊢
    set t := ∑ k ∈ range n, s k with ht
    have ht0 : 0 ≤ t := sum_nonneg fun k _ => (hs k).1
    obtain ⟨s0, s1⟩ := hs n
    have htT : t ≤ T := by linarith
    have i := ih htT
    have d := defect ht0 s0 hn
    have key : ‖u (n + 1) - y (t + s n)‖ ≤ (1 + K * s n) * ‖u n - y t‖ + K * B * (s n) ^ 2 := by
      have eq : u (n + 1) - y (t + s n) = (u n - y t) + s n • (f (u n) - f (y t)) - (y (t + s n) - y t - s n • f (y t)) := by
        rw [hu n, smul_sub]; abel
      have b2 : ‖s n • (f (u n) - f (y t))‖ ≤ s n * (K * ‖u n - y t‖) := by
        rw [norm_smul, Real.norm_eq_abs, abs_of_nonneg s0]
        exact mul_le_mul_of_nonneg_left (hf _ (huD n) _ (hyD t ⟨ht0, htT⟩)) s0
      refine (congrArg norm eq).le.trans (((norm_sub_le _ _).trans (add_le_add ((norm_add_le _ _).trans (add_le_add le_rfl b2)) d)).trans_eq ?_)
      ring
    have x0 : 0 ≤ K * s n := mul_nonneg hK s0
    have e2 : 1 + K * s n ≤ Real.exp (K * s n) := by have := Real.add_one_le_exp (K * s n); linarith
    have hδ : 0 ≤ δ := s0.trans s1
    have a1 : K * B * (s n) ^ 2 ≤ K * B * δ * s n * Real.exp (K * (t + s n)) := by
      have b1 : K * B * (s n) ^ 2 ≤ K * B * δ * s n := by
        have : 0 ≤ K * B * s n := by positivity
        nlinarith
      exact b1.trans (le_mul_of_one_le_right (by positivity) (Real.one_le_exp (by positivity)))
    calc ‖u (n + 1) - y (t + s n)‖ ≤ Real.exp (K * s n) * (K * B * δ * t * Real.exp (K * t)) + K * B * δ * s n * Real.exp (K * (t + s n)) :=
          key.trans (add_le_add (mul_le_mul e2 i (norm_nonneg _) (Real.exp_pos _).le) a1)
      _ = K * B * δ * (t + s n) * Real.exp (K * (t + s n)) := by rw [show K * (t + s n) = K * s n + K * t by ring, Real.exp_add]; ring

end

/-- **C164** The gas follows the exact loss law: over a finite time the conserved variables of the run stay within a constant times the largest step of any exact solution, if the loss rate is Lipschitz on the states met. -/
theorem cool_converges (c : CoolCfg P) (hG : c.G.Valid) (hp : PosDef c.G) (D : Set Cell) {K B T : ℝ} (hK : 0 ≤ K) (hB0 : 0 ≤ B)
    (hf : ∀ a ∈ D, ∀ b ∈ D, ‖lossRate c (c.recover a) - lossRate c (c.recover b)‖ ≤ K * ‖cellVec a - cellVec b‖) {y : ℝ → Cell} (hyD : ∀ t ∈ Set.Icc 0 T, y t ∈ D)
    (hy : ∀ t ∈ Set.Icc 0 T, HasDerivWithinAt (fun r => cellVec (y r)) (lossRate c (c.recover (y t))) (Set.Icc 0 T) t) (hB : ∀ t ∈ Set.Icc 0 T, ‖lossRate c (c.recover (y t))‖ ≤ B) :
    ∃ C, ∀ δ (s : ℕ → ℝ), (∀ k, 0 ≤ s k ∧ s k ≤ δ) → ∀ p0, (∀ k, (coolRun c (y 0, p0) s k).1 ∈ D) → ∀ n, ∑ k ∈ range n, s k ≤ T →
      ‖cellVec (coolRun c (y 0, p0) s n).1 - cellVec (y (∑ k ∈ range n, s k))‖ ≤ C * δ := by
  refine ⟨K * B * T * Real.exp (K * T), fun δ s hs p0 hD n hn => ?_⟩
  let mk : ℝ × (Fin 3 → ℝ) × ℝ → Cell := fun x => ⟨x.1, x.2.1, x.2.2⟩
  have hmk : ∀ a, mk (cellVec a) = a := fun a => rfl
  have main := fe_converges (f := fun x => lossRate c (c.recover (mk x))) (D := {x | mk x ∈ D}) hK hB0 (fun x hx y hy => hf _ hx _ hy) (y := fun t => cellVec (y t)) hyD hy hB s hs
    (fun k => cellVec (coolRun c (y 0, p0) s k).1) hD rfl (fun k => (coolStep_rate c hG hp (coolRun c (y 0, p0) s k) (s k)).2) n hn
  refine main.trans ?_
  have t0 : 0 ≤ ∑ k ∈ range n, s k := sum_nonneg fun k _ => (hs k).1
  have hδ : 0 ≤ δ := (hs 0).1.trans (hs 0).2
  have e1 : Real.exp (K * ∑ k ∈ range n, s k) ≤ Real.exp (K * T) := Real.exp_le_exp.mpr (mul_le_mul_of_nonneg_left hn hK)
  calc K * B * δ * (∑ k ∈ range n, s k) * Real.exp (K * ∑ k ∈ range n, s k) ≤ K * B * δ * T * Real.exp (K * T) :=
        mul_le_mul (mul_le_mul_of_nonneg_left hn (by positivity)) e1 (Real.exp_pos _).le (by have := t0.trans hn; positivity)
    _ = K * B * T * Real.exp (K * T) * δ := by ring

/-! ### Gas at rest -/

theorem rest_lower {G : ADM ℝ} (ha : G.alpha = 1) (hb : G.beta = 0) : GeomUtils.lower G.g4 (fourVelocity 0 G 0) = Fin.cons (-1) fun _ => 0 := by
  have hu : fourVelocity 0 G 0 = Fin.cons 1 fun _ => 0 := by
    simp only [fourVelocity, Rel.lorentz, Rel.ratio_zero, ha, hb]
    congr 1
    · simp
    · funext i; simp
  funext mu
  rw [hu]
  refine Fin.cases ?_ (fun i => ?_) mu
  · simp [GeomUtils.lower, Fin.sum_univ_succ, ADM.dot3, hb, ha]
  · simp [GeomUtils.lower, Fin.sum_univ_succ, ADM.betaCov, hb]

/-- **C164** Gas at rest in flat space loses exactly its emitted power and no momentum; the step is explicit and has no limit of its own: the energy stays positive exactly if the step is shorter than energy over power. -/
theorem rest_cooling (c : CoolCfg P) (hG : c.G.Valid) (hp : PosDef c.G) (ha : c.G.alpha = 1) (hb : c.G.beta = 0) (hd : c.detG = 1) (s : Cell × P) (hv : c.vel (c.recover s.1) = 0) (dt : ℝ) :
    let J := ((c.em (c.recover s.1)).map fun x => x.2.1).sum
    (coolStep c s dt).1.energy = s.1.energy - dt * J ∧ (coolStep c s dt).1.momentum = s.1.momentum ∧ (0 < J → (0 < (coolStep c s dt).1.energy ↔ dt < s.1.energy / J)) := by
  intro J
  have h := (coolStep_rate c hG hp s dt).2
  have hl := rest_lower ha hb
  simp only [cellVec, lossRate, (coolStep_rate c hG hp s dt).1, hv, hl, hd] at h
  have h1 := congrArg Prod.fst h
  have h2 := congrArg (fun x => x.2.1) h
  simp at h1 h2
  have e : (coolStep c s dt).1.energy = s.1.energy - dt * J := by rw [h1]; ring
  refine ⟨e, ?_, fun hJ => ?_⟩
  · rw [h2]; funext i; simp
  · rw [e, lt_div_iff₀ hJ, sub_pos]

/-- a concrete gas: the primitive is the energy, one heavy species emits half of it per unit time. -/
noncomputable def exCool : CoolCfg ℝ := ⟨0, C2P.flat, 1, fun u => u.energy, fun _ => 0, fun e => [(2, e / 2, 0)]⟩

/-- **C164 (concrete)** Energy one, steps of one: the energies shown are 1, 1/2, 1/4, the primitives shown with them are one step behind; a step of three makes the energy negative. -/
theorem ex_cool : (coolRun exCool (⟨1, 0, 0⟩, 1) (fun _ => 1) 2).1.energy = 1/4 ∧ (coolRun exCool (⟨1, 0, 0⟩, 1) (fun _ => 1) 2).2 = 1/2 ∧ (coolStep exCool (⟨1, 0, 0⟩, 1) 3).1.energy = -(1/2) ∧
    ∃ C, ∀ δ (s : ℕ → ℝ), (∀ k, 0 ≤ s k ∧ s k ≤ δ) → ∀ n, ∑ k ∈ range n, s k ≤ 1 → |(coolRun exCool (⟨1, 0, 0⟩, 1) s n).1.energy - Real.exp (-(∑ k ∈ range n, s k) / 2)| ≤ C * δ := by
  have hG := C2P.flat_valid
  have st : ∀ (u : Cell) (p d : ℝ), (coolStep exCool (u, p) d).1.energy = u.energy - d * (u.energy / 2) := fun u p d => by
    have := (rest_cooling exCool hG.1 hG.2 rfl rfl rfl (u, p) rfl d).1
    simpa [exCool] using this
  have lr : ∀ p : ℝ, lossRate exCool p = (-(p / 2), 0, 0) := fun p => by
    have hl : GeomUtils.lower C2P.flat.g4 (fourVelocity 0 C2P.flat 0) = Fin.cons (-1) fun _ => 0 := rest_lower rfl rfl
    have e0 : exCool.vel p = 0 := rfl
    have e1 : exCool.G = C2P.flat := rfl
    simp only [lossRate, e0, e1, hl]
    refine Prod.ext ?_ (Prod.ext (funext fun i => ?_) ?_)
    · simp [exCool]
    · simp
    · simp [exCool]
  refine ⟨?_, ?_, ?_, ?_⟩
  · show (coolStep exCool ((coolStep exCool (⟨1, 0, 0⟩, 1) 1).1, _) 1).1.energy = _
    rw [st, st]; norm_num
  · show (coolStep exCool (⟨1, 0, 0⟩, 1) 1).1.energy = _
    rw [st]; norm_num
  · rw [st]; norm_num
  · have nrm : ∀ a : ℝ, ‖((a, 0, 0) : ℝ × (Fin 3 → ℝ) × ℝ)‖ = |a| := fun a => by
      simp [Prod.norm_def]
    have hd : ∀ t : ℝ, HasDerivAt (fun r : ℝ => Real.exp (-r / 2)) (-(Real.exp (-t / 2) / 2)) t := fun t => by
      have := (((hasDerivAt_id t).neg).div_const 2).exp
      have e : -(Real.exp (-t / 2) / 2) = Real.exp (-t / 2) * (-1 / 2) := by ring
      rw [e]
      exact this
    obtain ⟨C, hC⟩ := cool_converges exCool hG.1 hG.2 Set.univ (K := 1) (B := 1) (T := 1) zero_le_one zero_le_one
      (fun a _ b _ => by
        rw [lr, lr]
        have : (-(exCool.recover a / 2), (0 : Fin 3 → ℝ), (0:ℝ)) - (-(exCool.recover b / 2), 0, 0) = (-((a.energy - b.energy) / 2), 0, 0) := by
          refine Prod.ext ?_ (Prod.ext ?_ ?_)
          · simp [exCool]; ring
          · simp
          · simp
        rw [this, nrm, abs_neg, abs_div, one_mul]
        have h1 : |a.energy - b.energy| ≤ ‖cellVec a - cellVec b‖ := by
          have := norm_fst_le (cellVec a - cellVec b)
          simpa [cellVec] using this
        have := abs_nonneg (a.energy - b.energy)
        norm_num
        linarith) (y := fun t => ⟨Real.exp (-t / 2), 0, 0⟩) (fun _ _ => trivial)
      (fun t _ => by
        rw [lr]
        exact ((hd t).prodMk ((hasDerivAt_const t (0 : Fin 3 → ℝ)).prodMk (hasDerivAt_const t (0:ℝ)))).hasDerivWithinAt)
      (fun t ht => by
        rw [lr, nrm, abs_neg]
        have : Real.exp (-t / 2) ≤ 1 := Real.exp_le_one_iff.mpr (by linarith [ht.1])
        have p := Real.exp_pos (-t / 2)
        show |Real.exp (-t / 2) / 2| ≤ 1
        rw [abs_of_pos (by linarith)]; linarith)
    refine ⟨C, fun δ s hs n hn => ?_⟩
    have h := hC δ s hs 1 (fun _ => trivial) n hn
    have e : ((⟨Real.exp (-0 / 2), 0, 0⟩ : Cell)) = ⟨1, 0, 0⟩ := by simp
    simp only [e] at h
    refine le_trans ?_ h
    have := norm_fst_le (cellVec (coolRun exCool (⟨1, 0, 0⟩, 1) s n).1 - cellVec ⟨Real.exp (-(∑ k ∈ range n, s k) / 2), 0, 0⟩)
    simpa [cellVec] using this

end Phoebus.LightBulb
