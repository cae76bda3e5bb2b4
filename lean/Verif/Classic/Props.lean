import Verif.Classic.Model
import Verif.C2P.Bounds
import Verif.Timestep.Props

/-!
# The classic inversion (C81, C82)
-/
namespace Phoebus.Classic
open Finset Geom Robust Rel

variable {G : ADM ℝ}

/-- The scalars of a primitive state's conserved image, in textbook form (`z = ρ h W²`). -/
theorem setup_p2c (gdet ye : ℝ) (q : Prim) (h : G.Valid) (ha : 0 < G.alpha) (hp : PosDef G) (hg : 0 < gdet) :
    let s := setup G gdet (p2c true G gdet ye q)
    let W := lorentz G.gam q.v
    let z := (q.rho + q.u + q.P) * W ^ 2
    let B2 := G.dot3 q.B q.B
    let Bv := G.dot3 q.B q.v / W
    s.D = q.rho * W ∧ s.Bsq = B2 ∧ s.BdotS = z * Bv ∧
    s.Ssq = (z + B2) ^ 2 * (1 - 1 / W ^ 2) - (2 * z + B2) * Bv ^ 2 ∧
    s.tau = z - q.P - q.rho * W + B2 - (B2 / W ^ 2 + Bv ^ 2) / 2 := by
  intro s W z B2 Bv
  have hW : 0 < W := lorentz_pos G hp q.v
  have hW' := hW.ne'
  have hg' := hg.ne'
  have hW2 : G.dot3 q.v q.v = W ^ 2 - 1 := by have := lorentz_sq G hp q.v; linarith
  set R : Fin 3 → ℝ := fun n => (z + B2) * (q.v n / W) - Bv * q.B n with hR
  have hS : ∀ m, (p2c true G gdet ye q).S m = gdet * ∑ n, G.gam m n * R n := fun m => C2P.p2c_S true gdet ye q h ha hp m
  have hB : ∀ i, (p2c true G gdet ye q).B i * (1 / gdet) = q.B i := fun i => by
    show gdet * q.B i * (1 / gdet) = _; field_simp
  have hsc : ∀ i, ∑ j, G.gamInv i j * (p2c true G gdet ye q).S j = gdet * R i := by
    intro i
    rw [← C2P.raise_lower h R i, mul_sum]
    exact sum_congr rfl fun j _ => by rw [hS]; ring
  have hBR : G.dot3 q.B R = (z + B2) * (G.dot3 q.B q.v / W) - Bv * B2 := by
    simp only [hR, ADM.dot3, Fin.sum_univ_three, B2]; field_simp; ring
  have hRR : G.dot3 R R = (z + B2) ^ 2 * (G.dot3 q.v q.v / W ^ 2) - 2 * (z + B2) * Bv * (G.dot3 q.B q.v / W) + Bv ^ 2 * B2 := by
    have hs := h.symm
    simp only [hR, ADM.dot3, Fin.sum_univ_three, B2]
    rw [hs 1 0, hs 2 0, hs 2 1]; field_simp; ring
  refine ⟨?_, ?_, ?_, ?_, ?_⟩
  · show (p2c true G gdet ye q).D * (1 / gdet) = _
    simp only [p2c]; field_simp; rfl
  · show ∑ i, ∑ j, G.gam i j * ((p2c true G gdet ye q).B i * (1 / gdet)) * ((p2c true G gdet ye q).B j * (1 / gdet)) = _
    simp only [hB]; simp only [B2, ADM.dot3]
  · show (∑ i, (p2c true G gdet ye q).B i * (1 / gdet) * (p2c true G gdet ye q).S i) * (1 / gdet) = _
    simp only [hB, hS]
    have : ∑ i, q.B i * (gdet * ∑ n, G.gam i n * R n) = gdet * G.dot3 q.B R := by
      rw [← C2P.sum_mul_lower, mul_sum]; exact sum_congr rfl fun i _ => by ring
    rw [this, hBR]
    simp only [Bv]; field_simp; ring
  · show (∑ i, ∑ j, G.gamInv i j * (p2c true G gdet ye q).S i * (p2c true G gdet ye q).S j) * (1 / gdet * (1 / gdet)) = _
    have : ∑ i, ∑ j, G.gamInv i j * (p2c true G gdet ye q).S i * (p2c true G gdet ye q).S j = gdet ^ 2 * G.dot3 R R := by
      calc _ = ∑ i, (p2c true G gdet ye q).S i * ∑ j, G.gamInv i j * (p2c true G gdet ye q).S j :=
            sum_congr rfl fun i _ => by rw [mul_sum]; exact sum_congr rfl fun j _ => by ring
        _ = ∑ i, gdet ^ 2 * (R i * ∑ n, G.gam i n * R n) := sum_congr rfl fun i _ => by rw [hsc, hS]; ring
        _ = _ := by rw [← mul_sum, C2P.sum_mul_lower]
    rw [this, hRR, hW2]
    simp only [Bv]; field_simp; ring
  · have := C2P.tauOf_p2c true gdet ye q h ha hp hg'
    simp only [C2P.tauOf, if_true] at this
    show (p2c true G gdet ye q).tau * (1 / gdet) = _
    exact this

/-- **C81** The original density and temperature are an exact root of the two residual equations, for every metric and every
magnetised moving state, if the EOS does not depend on the electron fraction (the residual is evaluated with `lambda = 0`). -/
theorem exact_root_partial (eos : EosT) (gdet ye T : ℝ) (q : Prim) (h : G.Valid) (ha : 0 < G.alpha) (hp : PosDef G)
    (hg : 0 < gdet) (hr : 0 < q.rho) (hu : 0 ≤ q.u) (hP : 0 ≤ q.P) (eP : eos.P q.rho T 0 = q.P)
    (eu : q.rho * eos.sie q.rho T 0 = q.u) :
    resid eos (setup G gdet (p2c true G gdet ye q)) 0 q.rho T = (0, 0) := by
  obtain ⟨h1, h2, h3, h4, h5⟩ := setup_p2c gdet ye q h ha hp hg
  have hW : 0 < lorentz G.gam q.v := lorentz_pos G hp q.v
  set W := lorentz G.gam q.v with hWd
  have hW' := hW.ne'
  have hr' := hr.ne'
  have hH : 0 < q.rho + q.u + q.P := by linarith
  have hH' := hH.ne'
  set s := setup G gdet (p2c true G gdet ye q) with hs
  have hWp : s.D / q.rho = W := by rw [h1]; field_simp
  have hz : (q.rho * (1 + eos.sie q.rho T 0) + eos.P q.rho T 0) * W * W = (q.rho + q.u + q.P) * W ^ 2 := by
    rw [eP, ← eu]; ring
  unfold resid
  simp only [hWp, hz]
  rw [Prod.mk.injEq]
  constructor
  · unfold sfunc
    simp only [h2, h3, h4]
    field_simp; ring
  · unfold taufunc
    simp only [h1, h2, h3, h5, eP]
    rw [show (0.5:ℝ) = 1 / 2 by norm_num]
    field_simp; ring

/-- **C81** From the exact density and temperature the remaining primitives come out exactly: pressure, energy and velocity. -/
theorem finalize_exact (eos : EosT) (gdet ye T : ℝ) (q : Prim) (h : G.Valid) (ha : 0 < G.alpha) (hp : PosDef G)
    (hg : 0 < gdet) (hr : 0 < q.rho) (hu : 0 ≤ q.u) (hP : 0 ≤ q.P) (eP : eos.P q.rho T ye = q.P)
    (eu : q.rho * eos.sie q.rho T ye = q.u) :
    let c := p2c true G gdet ye q
    let o := finalize eos G gdet c (setup G gdet c) ye q.rho T
    o.P = q.P ∧ o.u = q.u ∧ o.v = q.v := by
  intro c o
  refine ⟨eP, eu, ?_⟩
  obtain ⟨h1, h2, h3, h4, h5⟩ := setup_p2c gdet ye q h ha hp hg
  have hW : 0 < lorentz G.gam q.v := lorentz_pos G hp q.v
  set W := lorentz G.gam q.v with hWd
  have hW' := hW.ne'
  have hg' := hg.ne'
  have hr' := hr.ne'
  have hH : 0 < q.rho + q.u + q.P := by linarith
  have hB2 := hp q.B
  have hWp : (setup G gdet c).D / q.rho = W := by rw [h1]; field_simp
  funext i
  show (setup G gdet c).D / q.rho * vel3 G gdet c (setup G gdet c) ((q.rho + q.rho * eos.sie q.rho T ye + eos.P q.rho T ye) *
    ((setup G gdet c).D / q.rho * ((setup G gdet c).D / q.rho))) i = _
  rw [hWp, eP, eu]
  set R : Fin 3 → ℝ := fun n => ((q.rho + q.u + q.P) * W ^ 2 + G.dot3 q.B q.B) * (q.v n / W) - G.dot3 q.B q.v / W * q.B n with hR
  have hsc : ∑ j, G.gamInv i j * c.S j = gdet * R i := by
    rw [← C2P.raise_lower h R i, mul_sum]
    exact sum_congr rfl fun j _ => by rw [C2P.p2c_S true gdet ye q h ha hp]; ring
  have hB : c.B i * (1 / gdet) = q.B i := by show gdet * q.B i * (1 / gdet) = _; field_simp
  unfold vel3
  have h2' : (setup G gdet c).Bsq = _ := h2
  have h3' : (setup G gdet c).BdotS = _ := h3
  simp only [hsc, hB, h2', h3', hR]
  have hz : 0 < (q.rho + q.u + q.P) * W ^ 2 := by positivity
  have hz2 : (q.rho + q.u + q.P) * W ^ 2 + G.dot3 q.B q.B ≠ 0 := by positivity
  have hH' := hH.ne'
  rw [show (q.rho + q.u + q.P) * (W * W) = (q.rho + q.u + q.P) * W ^ 2 by ring]
  generalize (q.rho + q.u + q.P) * W ^ 2 = z at hz hz2 ⊢
  generalize G.dot3 q.B q.B = b at hz2 ⊢
  have hzne := hz.ne'
  have e1 : gdet * ((z + b) * (q.v i / W) - G.dot3 q.B q.v / W * q.B i) * (1 / gdet) + z * (G.dot3 q.B q.v / W) * q.B i / z =
      (z + b) * (q.v i / W) := by
    field_simp; ring
  rw [e1]
  field_simp

/-- a gas whose energy depends on the electron fraction. -/
def yeGas : EosT := ⟨fun r T y => r * T * y, fun _ T y => T * y, fun r T y => 2 * r * T * y⟩

/-- **C81 fails with an electron fraction**: the solver evaluates the EOS with `lambda = 0` although the state has `Ye = 1/2`,
so the true state is not a root of the residual, even at rest in flat space. -/
theorem ye_ignored : resid yeGas (setup C2P.flat 1 (p2c true C2P.flat 1 (1 / 2) ⟨1, 1 / 2, 1 / 2, fun _ => 0, fun _ => 0⟩)) 0 1 1 ≠ (0, 0)
    ∧ resid yeGas (setup C2P.flat 1 (p2c true C2P.flat 1 (1 / 2) ⟨1, 1 / 2, 1 / 2, fun _ => 0, fun _ => 0⟩)) (1 / 2) 1 1 = (0, 0) := by
  obtain ⟨h1, h2, h3, h4, h5⟩ := setup_p2c (G := C2P.flat) 1 (1 / 2) ⟨1, 1 / 2, 1 / 2, fun _ => 0, fun _ => 0⟩ C2P.flat_valid.1
    (by norm_num [C2P.flat]) C2P.flat_valid.2 one_pos
  have hW : lorentz C2P.flat.gam (fun _ => 0) = 1 := by simp [lorentz]
  have hd : ∀ x : Fin 3 → ℝ, C2P.flat.dot3 (fun _ => 0) x = 0 := fun x => by simp [ADM.dot3]
  simp only [hW, hd] at h1 h2 h3 h4 h5
  constructor <;> simp only [resid, sfunc, taufunc, yeGas, h1, h2, h3, h4, h5, ne_eq, Prod.mk.injEq] <;> norm_num

/-- **C81, initial guess**: the guess treats the stored velocity (`W` times the three-velocity) as the three-velocity.  For the
exact velocity it is a NaN precisely when `W² > 2`; otherwise it is at most the true density, and equal to it only at rest. -/
theorem guess_spec (gdet ye : ℝ) (q : Prim) (h : G.Valid) (ha : 0 < G.alpha) (hp : PosDef G) (hg : 0 < gdet) (hr : 0 < q.rho) :
    let g := guess G (setup G gdet (p2c true G gdet ye q)).D q.v
    (g = none ↔ 2 < lorentz G.gam q.v ^ 2) ∧
    ∀ r, g = some r → r = q.rho * lorentz G.gam q.v * Real.sqrt (2 - lorentz G.gam q.v ^ 2) ∧ 0 ≤ r ∧ r ≤ q.rho ∧
      (r = q.rho → lorentz G.gam q.v = 1) := by
  intro g
  obtain ⟨h1, -⟩ := setup_p2c gdet ye q h ha hp hg
  have hW1 : 1 ≤ lorentz G.gam q.v := lorentz_ge_one G hp q.v
  have hsq := lorentz_sq G hp q.v
  set W := lorentz G.gam q.v with hWd
  have hv : (∑ i, ∑ j, G.gam i j * q.v i * q.v j) = W ^ 2 - 1 := by
    rw [hsq]; simp only [ADM.dot3]; ring
  have hg : g = if 1 - (W ^ 2 - 1) < 0 then none else if 1 - (W ^ 2 - 1) = 0 then some 0
      else some (q.rho * W / Real.sqrt (1 / (1 - (W ^ 2 - 1)))) := by
    simp only [g, guess, hv, h1]
  constructor
  · rw [hg]
    split_ifs with a b
    · simp; linarith
    · simp; linarith
    · simp; linarith
  · intro r hr'
    rw [hg] at hr'
    have key : ∀ x : ℝ, 0 ≤ x → x = 2 - W ^ 2 → 0 ≤ q.rho * W * Real.sqrt x ∧ q.rho * W * Real.sqrt x ≤ q.rho ∧
        (q.rho * W * Real.sqrt x = q.rho → W = 1) := by
      intro x hx hxe
      have hs := Real.sq_sqrt hx
      have hs0 := Real.sqrt_nonneg x
      have hws : (W * Real.sqrt x) ^ 2 = 1 - (W ^ 2 - 1) ^ 2 := by rw [mul_pow, hs, hxe]; ring
      have h0 : 0 ≤ W * Real.sqrt x := by positivity
      have hle : W * Real.sqrt x ≤ 1 := by nlinarith [sq_nonneg (W ^ 2 - 1)]
      refine ⟨by positivity, ?_, ?_⟩
      · rw [mul_assoc]; exact mul_le_of_le_one_right hr.le hle
      · intro he
        have : W * Real.sqrt x = 1 := by
          rw [mul_assoc] at he
          have := mul_right_eq_self₀.1 he
          rcases this with h | h
          · exact h
          · exact absurd h hr.ne'
        rw [this] at hws
        have : W ^ 2 - 1 = 0 := by nlinarith [sq_nonneg (W ^ 2 - 1)]
        nlinarith
    split_ifs at hr' with a b
    · have e : 2 - W ^ 2 = 0 := by linarith
      obtain ⟨k1, k2, k3⟩ := key 0 le_rfl e.symm
      simp only [Option.some.injEq] at hr'
      subst hr'
      refine ⟨by rw [e]; simp, le_rfl, hr.le, fun h => absurd h hr.ne⟩
    · simp only [Option.some.injEq] at hr'
      have e : 1 - (W ^ 2 - 1) = 2 - W ^ 2 := by ring
      have h2 : 0 < 2 - W ^ 2 := lt_of_le_of_ne (by linarith) (by rw [← e]; exact Ne.symm b)
      have hre : r = q.rho * W * Real.sqrt (2 - W ^ 2) := by
        rw [← hr', e, Real.sqrt_div' _ h2.le, Real.sqrt_one, div_div_eq_mul_div, div_one]
      obtain ⟨k1, k2, k3⟩ := key (2 - W ^ 2) h2.le rfl
      rw [hre]
      exact ⟨rfl, k1, k2, k3⟩

/-! ## The Newton iteration -/

/-- the backtracking factor is a power of one half between 1/32 and 1. -/
theorem backtrack_range (f : ℝ → ℝ → ℝ × ℝ) (rho T dr dt r0 : ℝ) (n : ℕ) (a : ℝ) (res : ℝ × ℝ) (ha : 0 ≤ a) :
    0 ≤ (backtrack f rho T dr dt r0 n a res).1 ∧ (backtrack f rho T dr dt r0 n a res).1 ≤ a ∧
    a / 2 ^ n ≤ (backtrack f rho T dr dt r0 n a res).1 := by
  induction n generalizing a res with
  | zero => simp [backtrack, ha]
  | succ n ih =>
    unfold backtrack
    split_ifs
    · have h5 : (0.5:ℝ) = 1 / 2 := by norm_num
      obtain ⟨h1, h2, h3⟩ := ih (a * 0.5) (f (rho + a * 0.5 * dr) (T + a * 0.5 * dt)) (by rw [h5]; positivity)
      refine ⟨h1, h2.trans (by rw [h5]; linarith), le_trans (le_of_eq ?_) h3⟩
      rw [pow_succ, h5]; field_simp
    · exact ⟨ha, le_rfl, div_le_self ha (one_le_pow₀ (by norm_num))⟩

/-- **C82** backtracking either finds a strictly smaller residual or stops at the smallest factor. -/
theorem backtrack_decreases (f : ℝ → ℝ → ℝ × ℝ) (rho T dr dt r0 : ℝ) (n : ℕ) (a : ℝ) :
    let b := backtrack f rho T dr dt r0 n a (f (rho + a * dr) (T + a * dt))
    b.2 = f (rho + b.1 * dr) (T + b.1 * dt) ∧ (normSq b.2 < r0 ∨ b.1 = a / 2 ^ n) := by
  induction n generalizing a with
  | zero => exact ⟨rfl, Or.inr (by simp [backtrack])⟩
  | succ n ih =>
    intro b
    by_cases hge : normSq (f (rho + a * dr) (T + a * dt)) ≥ r0
    · have hb : b = backtrack f rho T dr dt r0 n (a * 0.5) (f (rho + a * 0.5 * dr) (T + a * 0.5 * dt)) := by
        simp only [b, backtrack, if_pos hge]
      rw [hb]
      obtain ⟨h1, h2⟩ := ih (a * 0.5)
      refine ⟨h1, h2.imp id fun h => ?_⟩
      rw [h, pow_succ, show (0.5:ℝ) = 1 / 2 by norm_num]; field_simp
    · have hb : b = (a, f (rho + a * dr) (T + a * dt)) := by simp only [b, backtrack, if_neg hge]
      rw [hb]
      exact ⟨rfl, Or.inl (not_le.mp hge)⟩

theorem dampRho_range (D rho d : ℝ) (h0 : 0 ≤ rho) (h1 : rho ≤ D) :
    0 ≤ rho + dampRho D rho d ∧ rho + dampRho D rho d ≤ D ∧ |dampRho D rho d| ≤ |d| := by
  unfold dampRho
  have e1 : (-0.1:ℝ) = -(1 / 10) := by norm_num
  split_ifs with a b
  · have hd : d ≠ 0 := by rintro rfl; linarith
    rw [div_mul_cancel₀ _ hd, e1]
    refine ⟨by linarith, by linarith, ?_⟩
    rw [abs_of_neg (by linarith : d < 0), abs_le]; constructor <;> linarith
  · have hd : d ≠ 0 := by rintro rfl; linarith
    rw [div_mul_cancel₀ _ hd]
    refine ⟨by linarith, by linarith, ?_⟩
    rw [abs_of_nonneg (by linarith : 0 ≤ D - rho), abs_of_pos (by linarith : 0 < d)]; linarith
  · rw [one_mul]; exact ⟨by linarith, by linarith, le_rfl⟩

theorem dampT_range (T d : ℝ) (h0 : 0 ≤ T) : 0 ≤ T + dampT T d ∧ |dampT T d| ≤ |d| := by
  unfold dampT
  have e1 : (-0.1:ℝ) = -(1 / 10) := by norm_num
  split_ifs with a
  · rw [e1]
    refine ⟨by linarith, ?_⟩
    rw [abs_of_neg (by linarith : d < 0), abs_le]; constructor <;> linarith
  · exact ⟨by linarith, le_rfl⟩

/-- One pass keeps the guesses in range, and a pass that declares convergence moves them by less than the tolerance. -/
theorem body_range (p : Par) (D : ℝ) (f : ℝ → ℝ → ℝ × ℝ) (s : St) (h0 : 0 ≤ s.rho) (h1 : s.rho ≤ D) (hT : 0 ≤ s.T) :
    let t := body p D f s
    0 ≤ t.rho ∧ t.rho ≤ D ∧ 0 ≤ t.T ∧
    (s.conv = false → t.conv = true → 0 < s.rho → 0 < s.T → |t.rho - s.rho| < p.tol * s.rho ∧ |t.T - s.T| < p.tol * s.T) := by
  intro t
  simp only [t, body]
  generalize hdet : |(_ : ℝ) - (_ : ℝ)| = det
  by_cases hd : det < 1e-16
  · simp only [if_pos hd]
    exact ⟨h0, h1, hT, fun a b => by rw [a] at b; cases b⟩
  · simp only [if_neg hd]
    · generalize hdR : -(s.res.1 * _ - _ * s.res.2) * _ = dR
      generalize hdT : -(_ * s.res.2 - _ * s.res.1) * _ = dTT
      generalize hb : backtrack f s.rho s.T (dampRho D s.rho dR) (dampT s.T dTT) (normSq s.res) 5 1 _ = b
      obtain ⟨a1, a2, a3⟩ := dampRho_range D s.rho dR h0 h1
      obtain ⟨c1, c2⟩ := dampT_range s.T dTT hT
      obtain ⟨b1, b2, -⟩ := backtrack_range f s.rho s.T (dampRho D s.rho dR) (dampT s.T dTT) (normSq s.res) 5 1
        (f (s.rho + dampRho D s.rho dR) (s.T + dampT s.T dTT)) zero_le_one
      rw [hb] at b1 b2
      refine ⟨by nlinarith, by nlinarith, by nlinarith, ?_⟩
      intro hc hconv hr ht
      rw [hc, Bool.false_or, decide_eq_true_eq, div_lt_iff₀ hr, div_lt_iff₀ ht] at hconv
      have key : ∀ x : ℝ, |b.1 * x| ≤ |x| := fun x => by
        rw [abs_mul, abs_of_nonneg b1]; exact mul_le_of_le_one_left (abs_nonneg _) b2
      refine ⟨?_, ?_⟩
      · rw [add_sub_cancel_left]; exact ((key _).trans a3).trans_lt hconv.1
      · rw [add_sub_cancel_left]; exact ((key _).trans c2).trans_lt hconv.2

/-- **C82** For every residual function, tolerance and number of iterations the density guess stays between zero and `D` and
the temperature guess stays nonnegative. -/
theorem loop_range (p : Par) (D : ℝ) (f : ℝ → ℝ → ℝ × ℝ) (n : ℕ) (s : St) (h0 : 0 ≤ s.rho) (h1 : s.rho ≤ D) (hT : 0 ≤ s.T) :
    0 ≤ (loop p D f n s).rho ∧ (loop p D f n s).rho ≤ D ∧ 0 ≤ (loop p D f n s).T := by
  induction n generalizing s with
  | zero => obtain ⟨a, b, c, -⟩ := body_range p D f s h0 h1 hT; exact ⟨a, b, c⟩
  | succ n ih =>
    obtain ⟨a, b, c, -⟩ := body_range p D f s h0 h1 hT
    unfold loop
    simp only []
    split_ifs
    · exact ⟨a, b, c⟩
    · exact ih _ a b c

theorem solve_range (p : Par) (eos : EosT) (s : Scr) (maxIter : ℕ) (rho T : ℝ) (h0 : 0 ≤ rho) (h1 : rho ≤ s.D) (hT : 0 ≤ T) :
    let t := solve p eos s maxIter rho T
    0 ≤ t.rho ∧ t.rho ≤ s.D ∧ 0 ≤ t.T :=
  loop_range p s.D _ _ _ h0 h1 hT

/-- **C82** Success means that the last Newton correction was below the relative tolerance in both variables: there is a
guess (the last but one) within `tol` of the returned one. -/
theorem success_small_step (p : Par) (D : ℝ) (f : ℝ → ℝ → ℝ × ℝ) (n : ℕ) (s : St) (h0 : 0 ≤ s.rho) (h1 : s.rho ≤ D)
    (hT : 0 ≤ s.T) (hc : s.conv = false) (hs : (loop p D f n s).conv = true) :
    ∃ u : St, 0 ≤ u.rho ∧ u.rho ≤ D ∧ 0 ≤ u.T ∧ loop p D f n s = body p D f u ∧
      (0 < u.rho → 0 < u.T →
        |(loop p D f n s).rho - u.rho| < p.tol * u.rho ∧ |(loop p D f n s).T - u.T| < p.tol * u.T) := by
  induction n generalizing s with
  | zero =>
    obtain ⟨-, -, -, d⟩ := body_range p D f s h0 h1 hT
    exact ⟨s, h0, h1, hT, rfl, d hc hs⟩
  | succ n ih =>
    obtain ⟨a, b, c, d⟩ := body_range p D f s h0 h1 hT
    unfold loop at hs ⊢
    simp only [] at hs ⊢
    by_cases hb : (body p D f s).conv = true
    · rw [if_pos hb] at hs ⊢
      exact ⟨s, h0, h1, hT, rfl, d hc hs⟩
    · rw [if_neg hb] at hs ⊢
      exact ih _ a b c (by simpa using hb) hs

/-- **C82** An exact root is recognised: started at a root with a nonsingular difference Jacobian, the solver succeeds after one
pass and returns it unchanged. -/
theorem root_is_fixed (p : Par) (D : ℝ) (f : ℝ → ℝ → ℝ × ℝ) (n : ℕ) (rho T df : ℝ) (hr : 0 ≤ rho) (hD : rho ≤ D)
    (hT : 0 ≤ T) (htol : 0 < p.tol) (hroot : f rho T = (0, 0))
    (hdet : (1e-16 : ℝ) ≤ |((f (rho + fdStep p df rho) T).1 * ratio p.small 1 (fdStep p df rho)) *
        ((f rho (T + fdStep p df T)).2 * ratio p.small 1 (fdStep p df T)) -
      ((f rho (T + fdStep p df T)).1 * ratio p.small 1 (fdStep p df T)) *
        ((f (rho + fdStep p df rho) T).2 * ratio p.small 1 (fdStep p df rho))|) :
    let t := loop p D f n ⟨rho, T, f rho T, df, false⟩
    t.conv = true ∧ t.rho = rho ∧ t.T = T ∧ t.res = (0, 0) := by
  intro t
  have hdamp : dampRho D rho 0 = 0 := by
    unfold dampRho
    rw [if_neg (by linarith), if_neg (by linarith)]; ring
  have hdT : dampT T 0 = 0 := by unfold dampT; rw [if_neg (by linarith)]
  have hbt : ∀ m a, (backtrack f rho T 0 0 (normSq (0, 0)) m a (0, 0)).2 = (0, 0) := by
    intro m
    induction m with
    | zero => intro a; rfl
    | succ m ih =>
      intro a
      simp only [backtrack, mul_zero, add_zero, hroot]
      split_ifs
      · exact ih _
      · rfl
  have hbody : body p D f ⟨rho, T, f rho T, df, false⟩ =
      ⟨rho, T, (0, 0), df * (if df > 1e-6 then 1 / 1.2 else 1), true⟩ := by
    simp only [body, hroot, sub_zero, zero_mul, mul_zero, neg_zero]
    rw [if_neg (not_lt.mpr hdet)]
    simp only [hdamp, hdT, abs_zero, zero_div, htol, and_self, decide_true, Bool.or_true, mul_zero, add_zero, hroot, hbt]
  have : t = body p D f ⟨rho, T, f rho T, df, false⟩ := by
    simp only [t]
    cases n with
    | zero => rfl
    | succ n => simp only [loop]; rw [hbody]; simp
  rw [this, hbody]
  exact ⟨rfl, rfl, rfl, rfl⟩

/-! ## Signal speeds -/

/-- **C81** The fast speed stored with the inversion uses `b²W²/(ρh + b²W²)` for the Alfvén speed: it is in `[0,1)`, at least the
true fast speed `c_s² + v_A²(1 - c_s²)` and equal to it for fluid at rest or without field. -/
theorem fast_safe (gdet ye : ℝ) (q : Prim) (h : G.Valid) (ha : 0 < G.alpha) (hp : PosDef G) (hg : 0 < gdet)
    (hr : 0 < q.rho) (hu : 0 ≤ q.u) (hP : 0 ≤ q.P) (gm1 : ℝ) (hc0 : 0 ≤ gm1 * q.P / (q.rho + q.u + q.P))
    (hc1 : gm1 * q.P / (q.rho + q.u + q.P) < 1) :
    let H := q.rho + q.u + q.P
    let W := lorentz G.gam q.v
    let c := gm1 * q.P / H
    let b2 := G.dot3 q.B q.B / W ^ 2 + (G.dot3 q.B q.v / W) ^ 2
    let F := fast (setup G gdet (p2c true G gdet ye q)) H W gm1 q.P
    b2 = tbsq 0 G q ∧ 0 ≤ F ∧ F < 1 ∧ c + b2 / (H + b2) * (1 - c) ≤ F ∧
    (W = 1 ∨ b2 = 0 → F = c + b2 / (H + b2) * (1 - c)) := by
  intro H W c b2 F
  obtain ⟨-, h2, h3, -, -⟩ := setup_p2c gdet ye q h ha hp hg
  have hW1 : 1 ≤ W := lorentz_ge_one G hp q.v
  have hW : 0 < W := by linarith
  have hW' := hW.ne'
  have hH : 0 < H := by simp only [H]; linarith
  have hH' := hH.ne'
  have hB2 := hp q.B
  have hb0 : 0 ≤ b2 := by simp only [b2]; positivity
  have hx : (setup G gdet (p2c true G gdet ye q)).Bsq + (setup G gdet (p2c true G gdet ye q)).BdotS / (H * W) *
      ((setup G gdet (p2c true G gdet ye q)).BdotS / (H * W)) = b2 * W ^ 2 := by
    rw [h2, h3]
    simp only [b2]
    show G.dot3 q.B q.B + H * W ^ 2 * (G.dot3 q.B q.v / W) / (H * W) * (H * W ^ 2 * (G.dot3 q.B q.v / W) / (H * W)) = _
    field_simp
  have hF : F = c + (b2 * W ^ 2 / (H + b2 * W ^ 2) - c * (b2 * W ^ 2 / (H + b2 * W ^ 2))) := by
    simp only [F, fast, hx]
    rfl
  have hbW : b2 ≤ b2 * W ^ 2 := le_mul_of_one_le_right hb0 (one_le_pow₀ hW1)
  have hA0 : 0 ≤ b2 * W ^ 2 / (H + b2 * W ^ 2) := by positivity
  have hA1 : b2 * W ^ 2 / (H + b2 * W ^ 2) < 1 := by rw [div_lt_one (by positivity)]; linarith
  have hAle : b2 / (H + b2) ≤ b2 * W ^ 2 / (H + b2 * W ^ 2) := by
    rw [div_le_div_iff₀ (by positivity) (by positivity)]; nlinarith
  have hc0' : 0 ≤ c := hc0
  have hc1' : c < 1 := hc1
  refine ⟨?_, ?_, ?_, ?_, ?_⟩
  · simp only [b2, W, tbsq, tBsq_eq, tBdotv_eq, ratio_zero]; field_simp
  · rw [hF]; nlinarith
  · rw [hF]; nlinarith
  · rw [hF]; nlinarith
  · rintro (h | h)
    · rw [hF, h]; ring
    · rw [hF, h]; ring

/-- **C81** The stored signal speeds of an exactly inverted state lie between the fluid's coordinate speed and the coordinate
speed of light. -/
theorem signal_bounded (eos : EosT) (gdet ye T : ℝ) (q : Prim) (h : G.Valid) (ha : 0 < G.alpha) (hp : PosDef G)
    (hg : 0 < gdet) (hr : 0 < q.rho) (hu : 0 ≤ q.u) (hP : 0 < q.P) (eP : eos.P q.rho T ye = q.P)
    (eu : q.rho * eos.sie q.rho T ye = q.u) (hk0 : 0 ≤ eos.bulk q.rho T ye) (hk1 : eos.bulk q.rho T ye < q.rho + q.u + q.P)
    (i : Fin 3) :
    let c := p2c true G gdet ye q
    let o := finalize eos G gdet c (setup G gdet c) ye q.rho T
    |G.alpha * (q.v i / lorentz G.gam q.v) - G.beta i| ≤ o.sig i ∧
    o.sig i ≤ max |G.alpha * Real.sqrt (G.gamInv i i) - G.beta i| |-(G.alpha * Real.sqrt (G.gamInv i i)) - G.beta i| := by
  intro c o
  have hex := finalize_exact eos gdet ye T q h ha hp hg hr hu hP.le eP eu
  have hov : o.v = q.v := hex.2.2
  obtain ⟨h1, -⟩ := setup_p2c gdet ye q h ha hp hg
  have hW1 : 1 ≤ lorentz G.gam q.v := lorentz_ge_one G hp q.v
  have hsq := lorentz_sq G hp q.v
  have hWp : (setup G gdet c).D / q.rho = lorentz G.gam q.v := by rw [h1]; field_simp
  have hW : 0 < lorentz G.gam q.v := by linarith
  have hH : 0 < q.rho + q.u + q.P := by linarith
  have hcs : eos.bulk q.rho T ye / q.P * q.P / (q.rho + q.u + q.P) = eos.bulk q.rho T ye / (q.rho + q.u + q.P) := by
    rw [div_mul_cancel₀ _ hP.ne']
  obtain ⟨-, f0, f1, -, -⟩ := fast_safe gdet ye q h ha hp hg hr hu hP.le (eos.bulk q.rho T ye / q.P)
    (by rw [hcs]; positivity) (by rw [hcs, div_lt_one hH]; exact hk1)
  have hvi : vel3 G gdet c (setup G gdet c) ((q.rho + q.rho * eos.sie q.rho T ye + eos.P q.rho T ye) *
      ((setup G gdet c).D / q.rho * ((setup G gdet c).D / q.rho))) i = q.v i / lorentz G.gam q.v := by
    have := congrFun hov i
    have e : o.v i = (setup G gdet c).D / q.rho * vel3 G gdet c (setup G gdet c) ((q.rho + q.rho * eos.sie q.rho T ye +
      eos.P q.rho T ye) * ((setup G gdet c).D / q.rho * ((setup G gdet c).D / q.rho))) i := rfl
    rw [e, hWp] at this
    rw [hWp, eq_div_iff hW.ne', mul_comm]; exact this
  have hsig : o.sig i = Timestep.signalSpeed G.alpha (G.beta i) (G.gamInv i i)
      (1 - 1 / (lorentz G.gam q.v * lorentz G.gam q.v)) (q.v i / lorentz G.gam q.v)
      (fast (setup G gdet c) (q.rho + q.u + q.P) (lorentz G.gam q.v) (eos.bulk q.rho T ye / q.P) q.P) := by
    show Timestep.signalSpeed G.alpha (G.beta i) (G.gamInv i i) (1 - 1 / ((setup G gdet c).D / q.rho * ((setup G gdet c).D / q.rho)))
      (vel3 G gdet c (setup G gdet c) ((q.rho + q.rho * eos.sie q.rho T ye + eos.P q.rho T ye) *
        ((setup G gdet c).D / q.rho * ((setup G gdet c).D / q.rho))) i)
      (fast (setup G gdet c) (q.rho + q.rho * eos.sie q.rho T ye + eos.P q.rho T ye) ((setup G gdet c).D / q.rho)
        (eos.bulk q.rho T ye / eos.P q.rho T ye) (eos.P q.rho T ye)) = _
    rw [hvi, hWp, eP, eu]
  rw [hsig]
  -- Cauchy-Schwarz with the i-th coordinate covector
  have hcsv : (q.v i) ^ 2 ≤ G.gamInv i i * G.dot3 q.v q.v := by
    have := C2P.cauchy_schwarz h hp (fun j => G.gamInv j i) q.v
    have e1 : G.dot3 (fun j => G.gamInv j i) q.v = q.v i := by
      have hl := C2P.raise_lower h q.v i
      rw [← hl, ← C2P.sum_mul_lower]
      exact sum_congr rfl fun j _ => by rw [h.symmInv i j]
    have e2 : G.dot3 (fun j => G.gamInv j i) (fun j => G.gamInv j i) = G.gamInv i i := by
      have hl := C2P.raise_lower h (fun j => G.gamInv j i) i
      rw [← C2P.sum_mul_lower]
      conv_rhs => rw [← hl]
      exact sum_congr rfl fun j _ => by rw [h.symmInv i j]
    rw [e1, e2] at this
    exact this
  have hgii : 0 ≤ G.gamInv i i := by
    have hl := C2P.raise_lower h (fun j => G.gamInv j i) i
    have := hp (fun j => G.gamInv j i)
    rw [← C2P.sum_mul_lower] at this
    have e : ∑ j, G.gamInv j i * (∑ n, G.gam j n * G.gamInv n i) = G.gamInv i i := by
      conv_rhs => rw [← hl]
      exact sum_congr rfl fun j _ => by rw [h.symmInv i j]
    linarith
  have hdv : G.dot3 q.v q.v = lorentz G.gam q.v ^ 2 - 1 := by linarith
  have hWW : 1 ≤ lorentz G.gam q.v * lorentz G.gam q.v := by nlinarith
  apply Timestep.signal_light _ _ _ _ _ _ ha hgii
  · rw [sub_nonneg, div_le_one (by positivity)]; exact hWW
  · have : 0 < 1 / (lorentz G.gam q.v * lorentz G.gam q.v) := by positivity
    linarith
  · rw [div_pow, div_le_iff₀ (by positivity)]
    have : G.gamInv i i * (1 - 1 / (lorentz G.gam q.v * lorentz G.gam q.v)) * lorentz G.gam q.v ^ 2 =
        G.gamInv i i * (lorentz G.gam q.v ^ 2 - 1) := by field_simp
    rw [this, ← hdv]; exact hcsv
  · exact f0
  · exact f1

/-! ## Concrete cases -/

/-- an ideal gas, `P = rho T`, `sie = T`, without dependence on the electron fraction. -/
noncomputable def idGas : EosT := ⟨fun r T _ => r * T, fun _ T _ => T, fun r T _ => 3 / 2 * r * T⟩

/-- a moving magnetised state. -/
noncomputable def exQ : Prim := { rho := 2, u := 6, P := 6, v := fun i => if i = 0 then 3 / 4 else 0, B := fun i => if i = 1 then 1 else 2 }

/-- the hypotheses of `exact_root_partial`, `finalize_exact` and `signal_bounded` hold for a moving magnetised gas with `T = 3`. -/
example : resid idGas (setup C2P.flat 1 (p2c true C2P.flat 1 (1 / 2) exQ)) 0 2 3 = (0, 0) :=
  exact_root_partial (G := C2P.flat) idGas 1 (1 / 2) 3 exQ C2P.flat_valid.1 (by norm_num [C2P.flat]) C2P.flat_valid.2 one_pos
    (by norm_num [exQ]) (by norm_num [exQ]) (by norm_num [exQ]) (by norm_num [exQ, idGas]) (by norm_num [exQ, idGas])

example (i : Fin 3) := signal_bounded (G := C2P.flat) idGas 1 (1 / 2) 3 exQ C2P.flat_valid.1 (by norm_num [C2P.flat]) C2P.flat_valid.2 one_pos
    (by norm_num [exQ]) (by norm_num [exQ]) (by norm_num [exQ]) (by norm_num [exQ, idGas]) (by norm_num [exQ, idGas])
    (by norm_num [exQ, idGas]) (by norm_num [exQ, idGas]) i

/-- the hypotheses of `root_is_fixed` hold for the linear residual `(rho - 1, T - 1)`. -/
example : (loop ⟨0, 0, 1e-8⟩ 2 (fun r T => (r - 1, T - 1)) 7 ⟨1, 1, (1 - 1, 1 - 1), 1e-6, false⟩).conv = true := by
  have hf : fdStep ⟨0, 0, 1e-8⟩ 1e-6 1 = 1e-6 := by
    unfold fdStep makePositive
    norm_num
  refine (root_is_fixed ⟨0, 0, 1e-8⟩ 2 (fun r T => (r - 1, T - 1)) 7 1 1 1e-6 (by norm_num) (by norm_num) (by norm_num) (by norm_num)
    (by norm_num) ?_).1
  rw [hf, ratio_zero]
  norm_num

end Phoebus.Classic
