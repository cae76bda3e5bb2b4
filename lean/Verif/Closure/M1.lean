import Verif.Closure.Props

/-!
# C48: the M1 closure
-/
namespace Phoebus.Closure
open Geom Rel Robust LinAlg Finset

/-- **C48** The Eddington factor is `1/3` for isotropic radiation and `1` for free streaming. -/
theorem eddFactor_limits : eddFactor 0 = 1 / 3 ∧ eddFactor 1 = 1 ∧ athin 0 = 0 ∧ athin 1 = 1 := by
  norm_num [eddFactor, athin]

/-- **C48** It never exceeds one on the admissible range, and is at least `1/3` for flux factors of one half and above. -/
theorem eddFactor_le_one (xi : ℝ) (h0 : 0 ≤ xi) (h1 : xi ≤ 1) : eddFactor xi ≤ 1 ∧ (1 / 2 ≤ xi → 1 / 3 ≤ eddFactor xi) := by
  have e : eddFactor xi = 1 / 3 + 2 / 3 * xi ^ 2 * (2 * xi - 1) := by unfold eddFactor; norm_num; ring
  have h2 : xi ^ 2 ≤ 1 := by nlinarith
  constructor
  · rw [e]; nlinarith [mul_nonneg (sq_nonneg xi) (sub_nonneg.2 h1)]
  · intro h; rw [e]; nlinarith [mul_nonneg (sq_nonneg xi) (by linarith : (0:ℝ) ≤ 2 * xi - 1)]

/-- the sharp range on `[0,1]`: the minimum `25/81` is attained at `1/3`.

Partial form of C48. Full property: The variable Eddington factor is 1/3 in the diffusive limit, 1 when free
streaming, and lies between over the admissible range as documented. Missing: Limits hold; between 0 and 1/2 the
factor is below 1/3 (proved for every such flux factor), and the angular equation is never solved (witness). -/
theorem eddFactor_range_partial (xi : ℝ) (h0 : 0 ≤ xi) (h1 : xi ≤ 1) : 25 / 81 ≤ eddFactor xi ∧ eddFactor (1 / 3) = 25 / 81 := by
  have e : ∀ x, eddFactor x = 1 / 3 + 2 / 3 * x ^ 2 * (2 * x - 1) := by intro x; unfold eddFactor; norm_num; ring
  constructor
  · rw [e]; nlinarith [mul_nonneg (by linarith : (0:ℝ) ≤ 6 * xi + 1) (sq_nonneg (3 * xi - 1))]
  · rw [e]; norm_num

/-- **C48 fails below one half**: the Eddington factor is smaller than in the diffusive limit, so the interpolation weight
is negative there, for every flux factor strictly between 0 and 1/2. -/
theorem eddFactor_below_third (xi : ℝ) (h0 : 0 < xi) (h1 : xi < 1 / 2) : eddFactor xi < 1 / 3 ∧ athin xi < 0 := by
  have e : eddFactor xi = 1 / 3 + 2 / 3 * xi ^ 2 * (2 * xi - 1) := by unfold eddFactor; norm_num; ring
  have hx : xi ^ 2 * (2 * xi - 1) < 0 := mul_neg_of_pos_of_neg (by positivity) (by linarith)
  constructor
  · rw [e]; nlinarith
  · unfold athin; rw [e]; norm_num; nlinarith

/-- Specification: inner product of vectors orthogonal to the fluid, in terms of their spatial parts. -/
noncomputable def hdot (G : ADM ℝ) (v x y : Vec) : ℝ := G.dot3 x y - G.dot3 v x * G.dot3 v y

/-- it is the four-dimensional inner product. -/
theorem hdot_dot4 {G : ADM ℝ} (hG : G.Valid) (v x y : Vec) : dot4 G.g4 (restVec G v x) (restVec G v y) = hdot G v x y := by
  have ha := hG.alpha_ne
  have c : ∀ x : Vec, restVec G v x = Fin.cons (G.dot3 v x / G.alpha) fun i => x i - G.dot3 v x / G.alpha * G.beta i := by
    intro x; funext m
    refine Fin.cases ?_ (fun i => ?_) m
    · simp [restVec, normal, spatial]; ring
    · simp [restVec, normal, spatial]; ring
  rw [c x, c y, ADM.dot4_split hG, hdot]; field_simp; ring

/-- the four-dimensional trace of the tensor with spatial part `Pi`. -/
noncomputable def htrace (G : ADM ℝ) (v : Vec) (Pi : Tens2) : ℝ := ∑ i, ∑ j, G.gam i j * Pi i j - vvPi G v Pi

theorem vvPi_tilPi {G : ADM ℝ} (hG : G.Valid) {v : Vec} (hs : Slow G v) (xi : ℝ) (f : Vec) :
    vvPi G v (tilPi G v xi f) = athin xi * (G.dot3 v f ^ 2 - (W G v ^ 2 - 1) / 3) := by
  have h1 : vvPi G v (tilPi G v xi f) = athin xi * (cc (lower G v) f ^ 2 - (W2 G v * cc (lower G v) v ^ 2 +
      ∑ i, lower G v i * raise G (lower G v) i) / 3) := by
    simp only [vvPi, conVPi, tilPi, cc, raise, Fin.sum_univ_three]; ring
  have h2 : ∑ i, lower G v i * raise G (lower G v) i = G.dot3 v v := by
    have : ∀ i, raise G (lower G v) i = v i := by
      intro i
      have : raise G (lower G v) i = ∑ k, (∑ j, G.gamInv i j * G.gam j k) * v k := by
        simp only [lower, raise, Fin.sum_univ_three]; ring
      rw [this]; simp only [hG.inv']; simp
    rw [← cc_lower, cc_comm]; unfold cc; exact sum_congr rfl fun i _ => by rw [this]
  have hw := (W_pos (G := G) (v := v)).ne'
  rw [h1, h2, cc_comm (lower G v) f, cc_lower, cc_comm (lower G v) v, cc_lower, ADM.dot3_comm hG f v, dot_W hs, W2]
  field_simp; ring

/-- **C48** The closure's pressure tensor is symmetric, and trace free whenever the direction it is built from is a unit
vector of the rest frame. -/
theorem tilPi_traceless {G : ADM ℝ} (hG : G.Valid) {v : Vec} (hs : Slow G v) (xi : ℝ) (f : Vec) (hf : hdot G v f f = 1) :
    (∀ i j, tilPi G v xi f i j = tilPi G v xi f j i) ∧ htrace G v (tilPi G v xi f) = 0 := by
  have hw := (W_pos (G := G) (v := v)).ne'
  refine ⟨fun i j => by simp only [tilPi, hG.symmInv i j]; ring, ?_⟩
  have h1 : ∑ i, ∑ j, G.gam i j * tilPi G v xi f i j = athin xi * (G.dot3 f f - (W2 G v * G.dot3 v v +
      ∑ i, ∑ j, G.gam i j * G.gamInv j i) / 3) := by
    simp only [tilPi, ADM.dot3, Fin.sum_univ_three]
    rw [hG.symmInv 1 0, hG.symmInv 2 0, hG.symmInv 2 1]; ring
  have h2 : ∑ i, ∑ j, G.gam i j * G.gamInv j i = 3 := by simp only [hG.inv]; simp
  rw [htrace, h1, vvPi_tilPi hG hs, h2]
  unfold hdot at hf
  have : G.dot3 f f = 1 + G.dot3 v f * G.dot3 v f := by linarith
  rw [this, dot_W hs, W2]; field_simp; ring

/-- **C48** In the diffusive limit the pressure is isotropic. -/
theorem tilPi_diffusive (G : ADM ℝ) (v f : Vec) (i j : Fin 3) : tilPi G v 0 f i j = 0 := by
  have := eddFactor_limits.2.2.1
  simp [tilPi, this]

/-- **C48** The flux factor used by the closure lies in `[0,1]` whatever the moments, and equals `|H|/J` when admissible; the
direction is a unit vector of the rest frame. -/
theorem flux_factor_range {G : ADM ℝ} (hG : G.Valid) (v : Vec) (J : ℝ) (H : Vec) :
    (∀ small, 0 ≤ fluxFactor small G v J H ∧ fluxFactor small G v J H ≤ 1) ∧
    (0 < J → hsq G v H ≤ J ^ 2 → fluxFactor 0 G v J H = Real.sqrt (hsq G v H) / J) ∧
    (0 < hsq G v H → hdot G v (fluxDir 0 G v H) (fluxDir 0 G v H) = 1) := by
  have e : cc H (raise G H) - cc H v ^ 2 = hsq G v H := by
    simp only [hsq, cc, ccov, raise, Fin.sum_univ_three]; ring
  refine ⟨fun small => ⟨le_max_right _ _, max_le (min_le_left _ _) zero_le_one⟩, fun hJ hq => ?_, fun hq => ?_⟩
  · unfold fluxFactor
    rw [e, ratio_zero, min_eq_right, max_eq_left (by positivity)]
    rw [div_le_one hJ]; exact (Real.sqrt_le_left hJ.le).2 hq
  · have hd : fluxDir 0 G v H = fun i => raise G H i / Real.sqrt (hsq G v H) := by
      funext i; simp only [fluxDir, e, ratio_zero]
    set s := Real.sqrt (hsq G v H) with hsd
    have hs2 : s ^ 2 = hsq G v H := Real.sq_sqrt hq.le
    have hs0 : s ≠ 0 := (Real.sqrt_pos.2 hq).ne'
    have h1 : hdot G v (fun i => raise G H i / s) (fun i => raise G H i / s) =
        (G.dot3 (raise G H) (raise G H) - G.dot3 v (raise G H) ^ 2) / s ^ 2 := by
      simp only [hdot, ADM.dot3, Fin.sum_univ_three]; ring
    have h2 : G.dot3 (raise G H) (raise G H) = ccov G H H := by
      rw [dot_raise hG]; simp only [cc, raise, ccov, Fin.sum_univ_three]; ring
    rw [hd, h1, h2, dot_raise hG, hs2, ← hsq]
    exact div_self hq.ne'

/-- **C48** The pressure tensor the closure assigns to any admissible moments with a nonzero flux is trace free. -/
theorem closure_traceless {G : ADM ℝ} (hG : G.Valid) {v : Vec} (hs : Slow G v) (J : ℝ) (H : Vec) (hq : 0 < hsq G v H) :
    htrace G v (tilPiFromPrim 0 G v J H) = 0 :=
  (tilPi_traceless hG hs _ _ ((flux_factor_range hG v J H).2.2 hq)).2

/-- **C48** The two basis vectors of the root search are orthonormal in the rest frame, for every lab-frame flux not along the
velocity (exactly, when the code's regularisers are zero). -/
theorem basis_orthonormal {G : ADM ℝ} (hG : G.Valid) {v F : Vec} (hs : Slow G v) (hF : 0 < ccov G F F)
    (hna : cc v F ^ 2 < G.dot3 v v * ccov G F F) :
    let b := basis 0 0 G v F
    hdot G v b.1 b.1 = 1 ∧ hdot G v b.2 b.2 = 1 ∧ hdot G v b.1 b.2 = 0 := by
  intro b
  have hw := W_pos (G := G) (v := v)
  have hw' := hw.ne'
  set m := Real.sqrt (ccov G F F) with hm
  have hm0 : m ≠ 0 := (Real.sqrt_pos.2 hF).ne'
  have hm2 : m ^ 2 = ccov G F F := Real.sq_sqrt hF.le
  set l : Vec := fun i => raise G F i / m with hl
  have hll : G.dot3 l l = 1 := by
    have : G.dot3 l l = G.dot3 (raise G F) (raise G F) / m ^ 2 := by
      simp only [hl, ADM.dot3, Fin.sum_univ_three]; ring
    have h2 : G.dot3 (raise G F) (raise G F) = ccov G F F := by
      rw [dot_raise hG]; simp only [cc, raise, ccov, Fin.sum_univ_three]; ring
    rw [this, h2, hm2]; exact div_self hF.ne'
  set c := G.dot3 v l with hc
  have hcv : c = cc v F / m := by
    have : c = G.dot3 v (raise G F) / m := by simp only [hc, hl, ADM.dot3, Fin.sum_univ_three]; ring
    rw [this, dot_raise hG]
  have hc2 : c ^ 2 < G.dot3 v v := by
    rw [hcv, div_pow, hm2, div_lt_iff₀ hF]; exact hna
  have hv1 : G.dot3 v v < 1 := by unfold Slow at hs; norm_num at hs ⊢; linarith
  have hc1 : 1 - c ≠ 0 := by nlinarith
  have hWs := W_sq hs
  set q := G.dot3 v v with hq
  set aa := Real.sqrt (q - c ^ 2) with haa
  have haa2 : aa ^ 2 = q - c ^ 2 := Real.sq_sqrt (by linarith)
  have haa0 : aa ≠ 0 := (Real.sqrt_pos.2 (by linarith)).ne'
  have e1 : cc F (raise G F) = ccov G F F := by simp only [cc, raise, ccov, Fin.sum_univ_three]; ring
  have e2 : cc F v / m = c := by rw [hcv, cc_comm F v]
  have e3 : cc (lower G v) v = q := by rw [cc_comm, cc_lower]
  have hb1 : b.1 = fun i => 1 / (W G v * (1 - c)) * l i + (-W G v) * v i := by
    funext i
    simp only [b, basis, ratio_zero, e1]
    rw [← hm, e2]; simp only [hl]; ring
  have hb2 : b.2 = fun i => (1 - 1 / (W G v * (1 - c)) / W G v) / aa * l i + (1 / aa) * v i := by
    funext i
    simp only [b, basis, ratio_zero, e1, e3]
    rw [← hm, e2, show q * (1 + 0) - c * c = q - c ^ 2 by ring, ← haa]; simp only [hl]; ring
  have hbil : ∀ s t s' t' : ℝ, hdot G v (fun i => s * l i + t * v i) (fun i => s' * l i + t' * v i) =
      s * s' + (s * t' + t * s') * c + t * t' * q - (s * c + t * q) * (s' * c + t' * q) := by
    intro s t s' t'
    have h1 : ∀ x y x' y' : ℝ, G.dot3 (fun i => x * l i + y * v i) (fun i => x' * l i + y' * v i) =
        x * x' * G.dot3 l l + x * y' * G.dot3 l v + y * x' * G.dot3 v l + y * y' * G.dot3 v v := by
      intros; simp only [ADM.dot3, Fin.sum_univ_three]; ring
    have h2 : ∀ x y : ℝ, G.dot3 v (fun i => x * l i + y * v i) = x * G.dot3 v l + y * G.dot3 v v := by
      intros; simp only [ADM.dot3, Fin.sum_univ_three]; ring
    rw [hdot, h1, h2, h2, hll, ADM.dot3_comm hG l v, ← hc, ← hq]; ring
  have hqW : q = (W G v ^ 2 - 1) / W G v ^ 2 := by rw [hq]; exact dot_W hs
  rw [hb1, hb2, hbil, hbil, hbil]
  refine ⟨?_, ?_, ?_⟩
  · rw [hqW]; field_simp; ring
  · have : (1 - 1 / (W G v * (1 - c)) / W G v) = (q - c) / (1 - c) := by
      rw [hqW]; field_simp; ring
    rw [this]
    have h3 : ((q - c) / (1 - c) / aa * ((q - c) / (1 - c) / aa) + ((q - c) / (1 - c) / aa * (1 / aa) + 1 / aa * ((q - c) / (1 - c) / aa)) * c + 1 / aa * (1 / aa) * q -
        ((q - c) / (1 - c) / aa * c + 1 / aa * q) * ((q - c) / (1 - c) / aa * c + 1 / aa * q)) = (q - c ^ 2) / aa ^ 2 := by
      field_simp; ring
    rw [h3, haa2]; exact div_self (by linarith)
  · have : (1 - 1 / (W G v * (1 - c)) / W G v) = (q - c) / (1 - c) := by
      rw [hqW]; field_simp; ring
    rw [this]
    clear_value aa
    rw [hqW]; field_simp; ring

/-- **C48** hence the trial direction is a unit vector for every angle, and the trial pressure tensor is trace free for
every flux factor and angle visited by the root search. -/
theorem trial_direction_unit {G : ADM ℝ} (hG : G.Valid) {v F : Vec} (hs : Slow G v) (hF : 0 < ccov G F F)
    (hna : cc v F ^ 2 < G.dot3 v v * ccov G F F) (xi phi : ℝ) :
    let f := angleDir (basis 0 0 G v F).1 (basis 0 0 G v F).2 phi
    hdot G v f f = 1 ∧ htrace G v (tilPi G v xi f) = 0 := by
  intro f
  obtain ⟨h1, h2, h3⟩ := basis_orthonormal hG hs hF hna
  have key : hdot G v f f = 1 := by
    have e : hdot G v f f = Real.cos phi ^ 2 * hdot G v (basis 0 0 G v F).1 (basis 0 0 G v F).1 +
        Real.sin phi ^ 2 * hdot G v (basis 0 0 G v F).2 (basis 0 0 G v F).2
        - 2 * Real.cos phi * Real.sin phi * hdot G v (basis 0 0 G v F).1 (basis 0 0 G v F).2 := by
      have hsym : ∀ x y, G.dot3 x y = G.dot3 y x := fun x y => ADM.dot3_comm hG x y
      have hf : f = fun i => -Real.cos phi * (basis 0 0 G v F).1 i + Real.sin phi * (basis 0 0 G v F).2 i := rfl
      simp only [hf, hdot]
      have hb : ∀ (x y : Vec) (s t s' t' : ℝ), G.dot3 (fun i => s * x i + t * y i) (fun i => s' * x i + t' * y i) =
          s * s' * G.dot3 x x + s * t' * G.dot3 x y + t * s' * G.dot3 y x + t * t' * G.dot3 y y := by
        intros; simp only [ADM.dot3, Fin.sum_univ_three]; ring
      have hv : ∀ (x y : Vec) (s t : ℝ), G.dot3 v (fun i => s * x i + t * y i) = s * G.dot3 v x + t * G.dot3 v y := by
        intros; simp only [ADM.dot3, Fin.sum_univ_three]; ring
      rw [hb, hv, hsym (basis 0 0 G v F).2 (basis 0 0 G v F).1]; ring
    rw [e, h1, h2, h3]
    have := Real.sin_sq_add_cos_sq phi
    linarith
  exact ⟨key, (tilPi_traceless hG hs xi f key).2⟩

/-! ### the root search -/

theorem nrStep_xi (small delta : ℝ) (hsm : 0 ≤ small) (hd0 : 0 < delta) (hd1 : delta < 1) (res : ℝ → ℝ → ℝ × ℝ)
    (jac : ℝ → ℝ → Fin 2 → Fin 2 → ℝ) (s : NR) (hi : s.iter < 30) (h0 : 0 < s.xi) (h1 : s.xi < 1) :
    0 < (nrStep small delta 30 res jac s).xi ∧ (nrStep small delta 30 res jac s).xi < 1 ∧ (nrStep small delta 30 res jac s).phi = s.phi ∧
    (nrStep small delta 30 res jac s).fPhi = 0 ∧ (nrStep small delta 30 res jac s).iter = s.iter + 1 := by
  simp only [nrStep, if_pos hi, if_true]
  set d := (res s.xi s.phi).1 / jac s.xi s.phi 0 0
  set c := max (min d (s.xi - delta * s.xi)) (s.xi - (1 - delta * (1 - s.xi))) with hc
  have hlo : s.xi - (1 - delta * (1 - s.xi)) < 0 := by nlinarith
  have hhi : 0 < s.xi - delta * s.xi := by nlinarith
  have hcub : c ≤ s.xi - delta * s.xi := max_le (min_le_right _ _) (by linarith)
  have hclb : s.xi - (1 - delta * (1 - s.xi)) ≤ c := le_max_right _ _
  have key : 0 < s.xi - ratio small c d * d ∧ s.xi - ratio small c d * d < 1 := by
    have hx : 0 < delta * s.xi := by positivity
    have hy : 0 < delta * (1 - s.xi) := mul_pos hd0 (by linarith)
    rcases lt_trichotomy d 0 with hd | hd | hd
    · -- negative step
      have hc0 : c ≤ 0 := max_le ((min_le_left _ _).trans hd.le) hlo.le
      have e : ratio small c d * d = c * (d / (d - small)) := by
        simp only [ratio, if_neg (not_le.2 hd)]; field_simp; ring_nf
      have hden : d - small < 0 := by linarith
      have ht0 : 0 ≤ d / (d - small) := div_nonneg_of_nonpos hd.le hden.le
      have ht1 : d / (d - small) ≤ 1 := by rw [div_le_one_of_neg hden]; linarith
      rw [e]
      constructor <;> nlinarith
    · rw [hd]; simp [h0, h1]
    · have hc0 : 0 ≤ c := le_max_of_le_left (le_min hd.le hhi.le)
      have e : ratio small c d * d = c * (d / (d + small)) := by
        simp only [ratio, if_pos hd.le]; rw [one_mul]; ring
      have ht0 : 0 ≤ d / (d + small) := by positivity
      have ht1 : d / (d + small) ≤ 1 := by rw [div_le_one (by linarith)]; linarith
      rw [e]
      constructor <;> nlinarith
  refine ⟨key.1, key.2, by ring, trivial, trivial⟩

/-- invariant of the loop. -/
theorem nrLoop_inv (small delta tol : ℝ) (hsm : 0 ≤ small) (hd0 : 0 < delta) (hd1 : delta < 1) (htol : 0 ≤ tol) (res : ℝ → ℝ → ℝ × ℝ)
    (jac : ℝ → ℝ → Fin 2 → Fin 2 → ℝ) (n : ℕ) (s : NR) (hn : s.iter + (n + 1) = 30) (h0 : 0 < s.xi) (h1 : s.xi < 1) :
    let r := nrLoop small delta tol 30 res jac (n + 1) s
    0 < r.xi ∧ r.xi < 1 ∧ r.phi = s.phi ∧ r.fPhi = 0 ∧ r.iter ≤ 30 ∧ (r.iter < 30 → |r.fXi| ≤ tol) ∧
    ∃ y, 0 < y ∧ y < 1 ∧ r.fXi = (res y s.phi).1 := by
  induction n generalizing s with
  | zero =>
    obtain ⟨a, b, c, d, e⟩ := nrStep_xi small delta hsm hd0 hd1 res jac s (by omega) h0 h1
    simp only [nrLoop]
    rw [if_neg (by rw [e]; omega)]
    refine ⟨a, b, c, d, by omega, by omega, s.xi, h0, h1, rfl⟩
  | succ n ih =>
    obtain ⟨a, b, c, d, e⟩ := nrStep_xi small delta hsm hd0 hd1 res jac s (by omega) h0 h1
    rw [nrLoop]
    by_cases hcond : (nrStep small delta 30 res jac s).iter < 30 ∧ (|(nrStep small delta 30 res jac s).fXi| > tol ∨ |(nrStep small delta 30 res jac s).fPhi| > tol)
    · simp only [if_pos hcond]
      have := ih (nrStep small delta 30 res jac s) (by omega) a b
      rw [c] at this
      exact this
    · simp only [if_neg hcond]
      refine ⟨a, b, c, d, by omega, fun hlt => ?_, s.xi, h0, h1, rfl⟩
      by_contra hgt
      exact hcond ⟨hlt, Or.inl (not_le.1 hgt)⟩

/-- **C48** Starting from a flux factor strictly inside `(0,1)` the root search ends strictly inside `(0,1)`, after at most
30 passes, whatever the residuals and Jacobians; if it reports success, the flux-factor residual at the last point it
evaluated is within tolerance. -/
theorem solve_closure_range (small delta tol : ℝ) (hsm : 0 ≤ small) (hd0 : 0 < delta) (hd1 : delta < 1) (htol : 0 ≤ tol)
    (res : ℝ → ℝ → ℝ × ℝ) (jac : ℝ → ℝ → Fin 2 → Fin 2 → ℝ) (xig phig : ℝ) (h0 : 0 < xig) (h1 : xig < 1) :
    let r := solveClosure small delta tol res jac xig phig
    0 < r.2.xi ∧ r.2.xi < 1 ∧ r.2.iter ≤ 30 ∧
    (r.1 = Status.success → ∃ y, 0 < y ∧ y < 1 ∧ |(res y Real.pi).1| ≤ tol) := by
  intro r
  have h := nrLoop_inv small delta tol hsm hd0 hd1 htol res jac 29 ⟨xig, Real.pi, 1000, 1000, 0⟩ (by norm_num) h0 h1
  obtain ⟨a, b, c, d, e, f, y, hy0, hy1, hy⟩ := h
  refine ⟨a, b, e, fun hs => ?_⟩
  have hlt : r.2.iter < 30 := by
    by_contra hc
    have : r.1 = Status.failure := by
      show (if 30 ≤ r.2.iter then Status.failure else Status.success) = _
      rw [if_pos (not_lt.1 hc)]
    rw [this] at hs; cases hs
  exact ⟨y, hy0, hy1, by rw [← hy]; exact f hlt⟩

/-- The turn of the angle is cut at a quarter turn: in a pass that does move the angle (one with `iter ≥ maxIter`, closure_m1.hpp:235-239
skipped), the angle moves against the Newton increment by exactly the smaller of the damped increment and `0.5 * 3.14159`
(closure_m1.hpp:243-245). -/
theorem nrStep_turn (small delta : ℝ) (maxIter : ℕ) (res : ℝ → ℝ → ℝ × ℝ) (jac : ℝ → ℝ → Fin 2 → Fin 2 → ℝ) (s : NR)
    (hi : maxIter ≤ s.iter) {dxi dphi : ℝ}
    (h0 : solve2 (jac s.xi s.phi) ![(res s.xi s.phi).1, (res s.xi s.phi).2] 0 = dxi)
    (h1 : solve2 (jac s.xi s.phi) ![(res s.xi s.phi).1, (res s.xi s.phi).2] 1 = dphi) (hp : 0 < dphi) :
    (nrStep small delta maxIter res jac s).phi =
      s.phi - min (ratio small (max (min dxi (s.xi - delta * s.xi)) (s.xi - (1 - delta * (1 - s.xi)))) dxi * dphi) (3.14159 / 2) ∧
    s.phi - (nrStep small delta maxIter res jac s).phi ≤ 3.14159 / 2 := by
  have hlt : ¬ s.iter < maxIter := by omega
  have key : (nrStep small delta maxIter res jac s).phi =
      s.phi - min (ratio small (max (min dxi (s.xi - delta * s.xi)) (s.xi - (1 - delta * (1 - s.xi)))) dxi * dphi) (3.14159 / 2) := by
    simp only [nrStep, if_neg hlt, h0, h1, if_neg hp.ne', abs_of_pos hp]
    rw [min_mul_of_nonneg _ _ hp.le]
    congr 2
    field_simp
    norm_num
  refine ⟨key, ?_⟩
  rw [key]
  have := min_le_right (ratio small (max (min dxi (s.xi - delta * s.xi)) (s.xi - (1 - delta * (1 - s.xi)))) dxi * dphi) (3.14159 / 2 : ℝ)
  linarith

/-- **C48 fails for the angle**: the search never moves the angle off its starting value, ignores the guess it is given, and
never tests the angular equation: the reported angle is always `pi`. -/
theorem solve_closure_angle_fixed (small delta tol : ℝ) (hsm : 0 ≤ small) (hd0 : 0 < delta) (hd1 : delta < 1) (htol : 0 ≤ tol)
    (res : ℝ → ℝ → ℝ × ℝ) (jac : ℝ → ℝ → Fin 2 → Fin 2 → ℝ) (xig phig : ℝ) (h0 : 0 < xig) (h1 : xig < 1) :
    (solveClosure small delta tol res jac xig phig).2.phi = Real.pi ∧ (solveClosure small delta tol res jac xig phig).2.fPhi = 0 := by
  have h := nrLoop_inv small delta tol hsm hd0 hd1 htol res jac 29 ⟨xig, Real.pi, 1000, 1000, 0⟩ (by norm_num) h0 h1
  exact ⟨h.2.2.1, h.2.2.2.1⟩

/-- … so success can be reported although the angular residual is as large as one likes. -/
theorem solve_closure_angle_wrong (B : ℝ) : ∃ (res : ℝ → ℝ → ℝ × ℝ) (jac : ℝ → ℝ → Fin 2 → Fin 2 → ℝ),
    (solveClosure 0 (1 / 100) (1 / 100) res jac (1 / 2) 0).1 = Status.success ∧ ∀ x y, (res x y).2 = B := by
  refine ⟨fun _ _ => (0, B), fun _ _ _ _ => 1, ?_, fun _ _ => rfl⟩
  simp [solveClosure, nrLoop, nrStep]
  norm_num

/-- **C48** A flux-factor residual of zero says the recovered moments have the flux factor the closure assumed. -/
theorem residual_zero_iff (G : ADM ℝ) (v f : Vec) (xi J : ℝ) (H : Vec) :
    (m1ResidualOf 0 G v f xi J H).1 = 0 ↔ xi = Real.sqrt (hsq G v H) / J := by
  simp only [m1ResidualOf, ratio_zero, hsq, sub_eq_zero]

/-- Robust conserved-to-primitive repair: fluxes above the limit are rescaled to `0.999 J`; a negative energy density is not
repaired (the `min` should be a `max`). -/
theorem con2prim_repair (SMALL : ℝ) (hS : 0 < SMALL) (G : ADM ℝ) (v : Vec) (J : ℝ) (H : Vec) (hq : 0 ≤ hsq G v H) :
    (0 < J → J ^ 2 ≤ hsq G v H → (con2primCheck true SMALL G v J H).1 = Status.modified ∧
      hsq G v (con2primCheck true SMALL G v J H).2.2 = (0.999 * J) ^ 2) ∧
    (J < 0 → (con2primCheck true SMALL G v J H).1 = Status.modified ∧ (con2primCheck true SMALL G v J H).2.1 = J) := by
  constructor
  · intro hJ hb
    have hpos : 0 < hsq G v H := lt_of_lt_of_le (by positivity) hb
    have hxi : 1 ≤ Real.sqrt (hsq G v H) / J := by
      rw [one_le_div hJ]; exact Real.le_sqrt_of_sq_le hb
    have e : con2primCheck true SMALL G v J H = (Status.modified, J, fun i => H i * (0.999 / (Real.sqrt (hsq G v H) / J))) := by
      simp only [con2primCheck, if_true]
      rw [if_neg (by push Not; exact ⟨hq, fun h => absurd h hJ.ne'⟩), if_pos (Or.inr (Or.inr hxi)), if_neg (not_lt.2 hJ.le),
        if_pos (Or.inr hxi)]
    rw [e]
    refine ⟨rfl, ?_⟩
    have hsc : ∀ t : ℝ, hsq G v (fun i => H i * t) = hsq G v H * t ^ 2 := by
      intro t; simp only [hsq, ccov, cc, Fin.sum_univ_three]; ring
    have hs0 := (Real.sqrt_pos.2 hpos).ne'
    show hsq G v (fun i => H i * (0.999 / (Real.sqrt (hsq G v H) / J))) = _
    rw [hsc, div_div_eq_mul_div, div_pow, Real.sq_sqrt hq]
    field_simp
  · intro hJ
    simp only [con2primCheck, if_true]
    rw [if_neg (by push Not; exact ⟨hq, fun h => absurd h hJ.ne⟩), if_pos (Or.inl hJ), if_pos hJ]
    exact ⟨rfl, min_eq_left (by linarith)⟩

/-- the number-conserving flux adds a covariant to a contravariant vector: in a metric that is not the identity it is not
the number flux `W v^i J + H^i`. -/
theorem number_flux_wrong : ∃ (G : ADM ℝ) (H : Vec) (i : Fin 3), G.Valid ∧ PosDef G ∧
    (fluxes true G 0 0 1 H).1 i ≠ G.alpha * (W G 0 * 0 * 1 + raise G H i) := by
  refine ⟨⟨1, fun _ => 0, fun i j => if i = j then 4 else 0, fun i j => if i = j then 1 / 4 else 0⟩, fun _ => 1, 0, ?_, ?_, ?_⟩
  · refine ⟨by simp, ?_, ?_, ?_⟩
    · intro i j; simp [eq_comm]
    · intro i j; simp [eq_comm]
    · intro i j; simp
  · intro v; simp [ADM.dot3, Fin.sum_univ_three]; nlinarith [sq_nonneg (v 0), sq_nonneg (v 1), sq_nonneg (v 2)]
  · simp [fluxes, raise]

end Phoebus.Closure
