import Verif.C2P.Model

/-! # Helper lemmas for the inversion -/
namespace Phoebus.C2P
open Finset Geom Robust Rel

variable {G : ADM ℝ}

/-- `S_i = gdet ((rho h W² + B²) v_i - (B·v) B_i)` with `v` the three-velocity: the momentum in textbook form. -/
theorem p2c_S (val : Bool) (gdet ye : ℝ) (q : Prim) (h : G.Valid) (ha : 0 < G.alpha) (hp : PosDef G) (m : Fin 3) :
    (p2c val G gdet ye q).S m = gdet * (∑ n, G.gam m n *
      (((q.rho + q.u + q.P) * lorentz G.gam q.v ^ 2 + G.dot3 q.B q.B) * (q.v n / lorentz G.gam q.v)
        - G.dot3 q.B q.v / lorentz G.gam q.v * q.B n)) := by
  have hW := (lorentz_pos G hp q.v).ne'
  have e1 : pbcov G q m = ∑ n, G.gam m n * (q.B n / lorentz G.gam q.v + tBdotv G q * q.v n) := by
    simp only [pbcov, pbcon_eq G q ha hp, tB_split G q ha hp, Fin.sum_univ_succ (n := 3), Fin.cons_zero, Fin.cons_succ,
      ADM.g4_s0, ADM.g4_ss, ADM.betaCov, Fin.sum_univ_three]
    ring
  simp only [p2c, e1, pbsq_eq, tbsq, tBsq_eq, pBdotv_eq, tBdotv_eq, pv, ADM.g4_ss, ratio_zero, Fin.sum_univ_three]
  field_simp
  ring

/-- `tau` in textbook form (both builds, as recovered by the inverter). -/
theorem tauOf_p2c (val : Bool) (gdet ye : ℝ) (q : Prim) (h : G.Valid) (ha : 0 < G.alpha) (hp : PosDef G)
    (hg : gdet ≠ 0) :
    tauOf val G gdet (p2c val G gdet ye q) =
      (q.rho + q.u + q.P) * lorentz G.gam q.v ^ 2 - q.P - q.rho * lorentz G.gam q.v + G.dot3 q.B q.B
        - (G.dot3 q.B q.B / lorentz G.gam q.v ^ 2 + (G.dot3 q.B q.v / lorentz G.gam q.v) ^ 2) / 2 := by
  have hW := (lorentz_pos G hp q.v).ne'
  have ha' := ha.ne'
  have hv : (p2c true G gdet ye q).tau = gdet * ((q.rho + q.u + q.P) * lorentz G.gam q.v ^ 2 - q.P
      - q.rho * lorentz G.gam q.v + G.dot3 q.B q.B
        - (G.dot3 q.B q.B / lorentz G.gam q.v ^ 2 + (G.dot3 q.B q.v / lorentz G.gam q.v) ^ 2) / 2) := by
    simp only [p2c, if_true, pbsq_eq, tbsq, tBsq_eq, pBdotv_eq, tBdotv_eq, ratio_zero]
    field_simp; ring
  cases val with
  | true => simp only [tauOf, if_true, hv]; field_simp
  | false =>
    obtain ⟨-, hS, -, -, ht⟩ := p2c_projections false G gdet ye q h ha hp
    have hE := p2c_valencia_energy G gdet ye q ha hp
    have hD : (p2c false G gdet ye q).D = (p2c true G gdet ye q).D := rfl
    -- n n T from the mixed components
    have key : G.alpha ^ 2 * tmunu 0 G q 0 0 =
        -mixed G.g4 (tmunu 0 G q) 0 0 + ∑ i : Fin 3, mixed G.g4 (tmunu 0 G q) 0 i.succ * G.beta i := by
      have := h.symm
      simp only [mixed, Fin.sum_univ_succ (n := 3), ADM.g4_00, ADM.g4_0s, ADM.g4_s0, ADM.g4_ss, ADM.betaCov, ADM.dot3,
        Fin.sum_univ_three]
      rw [this 1 0, this 2 0, this 2 1]; ring
    simp only [tauOf, Bool.false_eq_true, if_false, Fin.sum_univ_succ (n := 3), Fin.cons_zero, Fin.cons_succ]
    rw [ht, hD]
    simp only [hS]
    have h2 : gdet * (G.alpha ^ 2 * tmunu 0 G q 0 0) - (p2c true G gdet ye q).D = _ := hE.symm.trans hv
    have h3 : (p2c true G gdet ye q).D = gdet * (q.rho * lorentz G.gam q.v) := by simp only [p2c]; ring
    rw [key] at h2
    rw [h3] at h2 ⊢
    have h4 := mul_left_cancel₀ hg (show gdet * ((-mixed G.g4 (tmunu 0 G q) 0 0 +
        ∑ i : Fin 3, mixed G.g4 (tmunu 0 G q) 0 i.succ * G.beta i) - q.rho * lorentz G.gam q.v) = _ by
      rw [← h2]; ring)
    rw [← h4]
    simp only [Fin.sum_univ_three]
    field_simp; ring

theorem raise_lower (h : G.Valid) (R : Fin 3 → ℝ) (i : Fin 3) :
    ∑ j, G.gamInv i j * (∑ n, G.gam j n * R n) = R i := by
  have e := h.inv' i
  simp only [Fin.sum_univ_three] at e ⊢
  have e0 := e 0
  have e1 := e 1
  have e2 := e 2
  calc _ = (G.gamInv i 0 * G.gam 0 0 + G.gamInv i 1 * G.gam 1 0 + G.gamInv i 2 * G.gam 2 0) * R 0 +
      (G.gamInv i 0 * G.gam 0 1 + G.gamInv i 1 * G.gam 1 1 + G.gamInv i 2 * G.gam 2 1) * R 1 +
      (G.gamInv i 0 * G.gam 0 2 + G.gamInv i 1 * G.gam 1 2 + G.gamInv i 2 * G.gam 2 2) * R 2 := by ring
    _ = R i := by rw [e0, e1, e2]; fin_cases i <;> simp

/-- The vector `S^i/D` of a primitive state. -/
noncomputable def Rv (G : ADM ℝ) (q : Prim) : Fin 3 → ℝ := fun n =>
  (((q.rho + q.u + q.P) * lorentz G.gam q.v ^ 2 + G.dot3 q.B q.B) / (q.rho * lorentz G.gam q.v ^ 2)) * q.v n
    + (-(G.dot3 q.B q.v / (q.rho * lorentz G.gam q.v ^ 2))) * q.B n

theorem sum_mul_lower (X Y : Fin 3 → ℝ) : ∑ i, X i * (∑ n, G.gam i n * Y n) = G.dot3 X Y := by
  simp only [ADM.dot3, Fin.sum_univ_three]; ring

/-- All the scalars handed to the residual, for the conserved image of a primitive state. -/
theorem prep_p2c (val hasYe : Bool) (gdet ye : ℝ) (b : Bnds) (q : Prim) (h : G.Valid) (ha : 0 < G.alpha)
    (hp : PosDef G) (hg : 0 < gdet) (hr : 0 < q.rho) (hfl : b.rhoFloor ≤ q.rho) :
    let p := prep val true hasYe 0 G gdet b (p2c val G gdet ye q)
    let W := lorentz G.gam q.v
    let s := 1 / Real.sqrt (q.rho * W)
    p.aux.D = q.rho * W ∧ p.rcon = Rv G q ∧ p.bu = (fun i => q.B i * s) ∧ p.Bp = q.B ∧
    p.aux.rsq = G.dot3 (Rv G q) (Rv G q) ∧ p.bdotr = s * G.dot3 q.B (Rv G q) ∧
    p.aux.bsq = G.dot3 q.B q.B / (q.rho * W) ∧ p.aux.rbsq = p.bdotr * p.bdotr ∧
    p.aux.bsqRpsq = p.aux.bsq * p.aux.rsq - p.aux.rbsq ∧
    p.aux.q = ((q.rho + q.u + q.P) * W ^ 2 - q.P - q.rho * W + G.dot3 q.B q.B
        - (G.dot3 q.B q.B / W ^ 2 + (G.dot3 q.B q.v / W) ^ 2) / 2) / (q.rho * W) ∧
    p.aux.v0sq = min (p.aux.rsq / (1 + p.aux.rsq)) (1 - 1 / (b.gmax * b.gmax)) ∧
    p.aux.ye = if hasYe then ye else 0.5 := by
  intro p W s
  have hW1 : 1 ≤ W := lorentz_ge_one G hp q.v
  have hW : 0 < W := lt_of_lt_of_le one_pos hW1
  have hD : (p2c val G gdet ye q).D = gdet * (q.rho * W) := by simp only [p2c]; ring
  have hDp : 0 < q.rho * W := mul_pos hr hW
  have hD0 : p.aux.D = q.rho * W := by
    show (p2c val G gdet ye q).D * (1 / gdet) = _
    rw [hD]; field_simp
  have hrcov : ∀ i, ratio 0 ((p2c val G gdet ye q).S i) (p2c val G gdet ye q).D = ∑ n, G.gam i n * Rv G q n := by
    intro i
    rw [ratio_zero, p2c_S val gdet ye q h ha hp, hD]
    simp only [Rv, Fin.sum_univ_three]
    show _ / (gdet * (q.rho * lorentz G.gam q.v)) = _
    have : lorentz G.gam q.v ≠ 0 := hW.ne'
    field_simp; ring
  have hrcon : p.rcon = Rv G q := by
    funext i
    show ∑ j, G.gamInv i j * ratio 0 ((p2c val G gdet ye q).S j) (p2c val G gdet ye q).D = _
    simp only [hrcov]; exact raise_lower h _ i
  have hsD : 1 / Real.sqrt (max ((p2c val G gdet ye q).D * (1 / gdet)) b.rhoFloor) = s := by
    have : (p2c val G gdet ye q).D * (1 / gdet) = q.rho * W := hD0
    rw [this, max_eq_left]
    exact hfl.trans (le_mul_of_one_le_right hr.le hW1)
  have hBp : p.Bp = q.B := by
    funext i
    show gdet * q.B i * (1 / gdet) = _
    field_simp
  have hBp' : ∀ i, (p2c val G gdet ye q).B i * (1 / gdet) = q.B i := fun i => congrFun hBp i
  have hbu : p.bu = fun i => q.B i * s := by
    funext i
    show (if true = true then _ * (1 / Real.sqrt (max ((p2c val G gdet ye q).D * (1 / gdet)) b.rhoFloor)) else 0) = _
    rw [if_pos rfl, hsD]; beta_reduce; rw [hBp']
  have hss : s * s = 1 / (q.rho * W) := by
    show 1 / Real.sqrt (q.rho * W) * (1 / Real.sqrt (q.rho * W)) = _
    rw [div_mul_div_comm, Real.mul_self_sqrt hDp.le, one_mul]
  have hrsq : p.aux.rsq = G.dot3 (Rv G q) (Rv G q) := by
    show ∑ i, p.rcon i * ratio 0 ((p2c val G gdet ye q).S i) (p2c val G gdet ye q).D = _
    simp only [hrcov, hrcon]; exact sum_mul_lower _ _
  have hbdotr : p.bdotr = s * G.dot3 q.B (Rv G q) := by
    show (if true = true then ∑ i, p.bu i * ratio 0 ((p2c val G gdet ye q).S i) (p2c val G gdet ye q).D else 0) = _
    rw [if_pos rfl]
    simp only [hrcov, hbu]
    rw [sum_mul_lower]
    simp only [ADM.dot3, Fin.sum_univ_three]; ring
  have hbsq : p.aux.bsq = G.dot3 q.B q.B / (q.rho * W) := by
    show (if true = true then max 0 (∑ i, ∑ j, G.gam i j * p.bu i * p.bu j) else 0) = _
    rw [if_pos rfl, hbu]
    have : ∑ i, ∑ j, G.gam i j * (q.B i * s) * (q.B j * s) = G.dot3 q.B q.B / (q.rho * W) := by
      rw [div_eq_mul_one_div, ← hss]
      simp only [ADM.dot3, Fin.sum_univ_three]; ring
    beta_reduce
    rw [this, max_eq_right]
    exact div_nonneg (hp q.B) hDp.le
  refine ⟨hD0, hrcon, hbu, hBp, hrsq, hbdotr, hbsq, rfl, ?_, ?_, ?_, ?_⟩
  · show (if true = true then p.aux.bsq * p.aux.rsq - p.aux.rbsq else 0) = _
    rw [if_pos rfl]
  · show ratio 0 (tauOf val G gdet (p2c val G gdet ye q)) p.aux.D = _
    rw [ratio_zero, tauOf_p2c val gdet ye q h ha hp hg.ne', hD0]
  · show min (p.aux.rsq / 1 / (1 + p.aux.rsq / 1)) _ = _
    rw [div_one]
  · show (if hasYe = true then ratio 0 (p2c val G gdet ye q).ye (p2c val G gdet ye q).D else 0.5) = _
    cases hasYe
    · rfl
    · simp only [if_true, ratio_zero]
      show (p2c val G gdet ye q).D * ye / (p2c val G gdet ye q).D = ye
      rw [hD]
      exact mul_div_cancel_left₀ _ (mul_pos hg hDp).ne'

/-- Cauchy-Schwarz for a positive semidefinite spatial metric. -/
theorem cauchy_schwarz (h : G.Valid) (hp : PosDef G) (x y : Fin 3 → ℝ) :
    G.dot3 x y ^ 2 ≤ G.dot3 x x * G.dot3 y y := by
  have hyx : G.dot3 y x = G.dot3 x y := ADM.dot3_comm h _ _
  have expand : ∀ s t : ℝ, 0 ≤ s ^ 2 * G.dot3 y y + 2 * s * t * G.dot3 x y + t ^ 2 * G.dot3 x x := by
    intro s t
    have := hp (fun i => s * y i + t * x i)
    rw [dot3_add_left, dot3_add_right, dot3_add_right, hyx] at this
    linarith
  set a := G.dot3 x x
  set c := G.dot3 x y
  set d := G.dot3 y y
  have ha : 0 ≤ a := hp x
  rcases eq_or_lt_of_le ha with h0 | h0
  · by_contra hcon
    rw [← h0, zero_mul, not_le] at hcon
    have := expand c (-(d + 1) / 2)
    rw [← h0] at this
    nlinarith
  · have h1 := expand a (-c)
    have h2 : 0 ≤ a * (a * d - c ^ 2) := by linarith [h1]
    have := nonneg_of_mul_nonneg_right h2 h0
    linarith

set_option maxHeartbeats 800000 in
/-- At `mu = 1/(hW)` every intermediate quantity of the residual is the true one. -/
theorem exact_mu (val hasYe : Bool) (gdet ye : ℝ) (b : Bnds) (q : Prim) (h : G.Valid) (ha : 0 < G.alpha)
    (hp : PosDef G) (hg : 0 < gdet) (hr : 0 < q.rho) (hfl : b.rhoFloor ≤ q.rho) (hh : q.rho ≤ q.rho + q.u + q.P)
    (hgm : lorentz G.gam q.v ≤ b.gmax) :
    let p := prep val true hasYe 0 G gdet b (p2c val G gdet ye q)
    let W := lorentz G.gam q.v
    let H := q.rho + q.u + q.P
    let mu := q.rho / (H * W)
    let x := xMu 0 p.aux mu
    rbarsq p.aux mu x = (H / q.rho) ^ 2 * G.dot3 q.v q.v ∧
    mu * mu * rbarsq p.aux mu x = G.dot3 q.v q.v / W ^ 2 ∧
    G.dot3 q.v q.v / W ^ 2 ≤ p.aux.v0sq ∧
    qbar p.aux mu x = H * W / q.rho - q.P / (q.rho * W) - 1 ∧
    (∀ i, W * mu * x * (p.rcon i + mu * p.bdotr * p.bu i) = q.v i) := by
  intro p W H mu x
  obtain ⟨hD, hrcon, hbu, hBp, hrsq, hbdotr, hbsq, hrbsq, hbr, hq, hv0, hye⟩ :=
    prep_p2c val hasYe gdet ye b q h ha hp hg hr hfl
  change p.aux.D = q.rho * W at hD
  change p.rcon = Rv G q at hrcon
  change p.bu = (fun i => q.B i * (1 / Real.sqrt (q.rho * W))) at hbu
  change p.aux.rsq = _ at hrsq
  change p.bdotr = 1 / Real.sqrt (q.rho * W) * G.dot3 q.B (Rv G q) at hbdotr
  change p.aux.bsq = G.dot3 q.B q.B / (q.rho * W) at hbsq
  change p.aux.rbsq = p.bdotr * p.bdotr at hrbsq
  change p.aux.bsqRpsq = p.aux.bsq * p.aux.rsq - p.aux.rbsq at hbr
  change p.aux.q = (H * W ^ 2 - q.P - q.rho * W + G.dot3 q.B q.B
        - (G.dot3 q.B q.B / W ^ 2 + (G.dot3 q.B q.v / W) ^ 2) / 2) / (q.rho * W) at hq
  change p.aux.v0sq = min (p.aux.rsq / (1 + p.aux.rsq)) (1 - 1 / (b.gmax * b.gmax)) at hv0
  have hW1 : 1 ≤ W := lorentz_ge_one G hp q.v
  have hW : 0 < W := lt_of_lt_of_le one_pos hW1
  have hH : 0 < H := lt_of_lt_of_le hr hh
  have hDp : 0 < q.rho * W := mul_pos hr hW
  have hvv : G.dot3 q.v q.v = W ^ 2 - 1 := by
    have := lorentz_sq G hp q.v
    change W ^ 2 = _ at this
    linarith
  have hvB : G.dot3 q.v q.B = G.dot3 q.B q.v := ADM.dot3_comm h _ _
  set bb := G.dot3 q.B q.B with hbb
  set bv := G.dot3 q.B q.v with hbv
  have hbb0 : 0 ≤ bb := hp q.B
  set A := (H * W ^ 2 + bb) / (q.rho * W ^ 2) with hA
  set C := -(bv / (q.rho * W ^ 2)) with hC
  have hR : Rv G q = fun n => A * q.v n + C * q.B n := rfl
  have hBR : G.dot3 q.B (Rv G q) = bv * H / q.rho := by
    rw [hR, dot3_add_right, ← hbv, ← hbb, hA, hC]; field_simp; ring
  have hvR : G.dot3 q.v (Rv G q) = A * (W ^ 2 - 1) + C * bv := by
    rw [hR, dot3_add_right, hvB, hvv]
  have hRR : G.dot3 (Rv G q) (Rv G q) = A ^ 2 * (W ^ 2 - 1) + 2 * A * C * bv + C ^ 2 * bb := by
    have : G.dot3 (Rv G q) (Rv G q) = A * G.dot3 q.v (Rv G q) + C * G.dot3 q.B (Rv G q) := by
      conv_lhs => rw [hR]
      rw [dot3_add_left, ← hR]
    rw [this, hvR, hR, dot3_add_right]; ring
  have hx : x = H * W ^ 2 / (H * W ^ 2 + bb) := by
    show ratio 0 1 (1 + mu * p.aux.bsq) = _
    rw [ratio_zero, hbsq]
    have : H * W ^ 2 + bb ≠ 0 := by positivity
    show 1 / (1 + q.rho / (H * W) * (bb / (q.rho * W))) = _
    field_simp
  have hss : (1 / Real.sqrt (q.rho * W)) * (1 / Real.sqrt (q.rho * W)) = 1 / (q.rho * W) := by
    rw [div_mul_div_comm, Real.mul_self_sqrt hDp.le, one_mul]
  have hrb2 : p.aux.rbsq = (bv * H / q.rho) ^ 2 / (q.rho * W) := by
    rw [hrbsq, hbdotr, hBR, div_eq_mul_one_div _ (q.rho * W), ← hss]; ring
  have hne : H * W ^ 2 + bb ≠ 0 := by positivity
  have hrbar : rbarsq p.aux mu x = (H / q.rho) ^ 2 * (W ^ 2 - 1) := by
    unfold rbarsq
    rw [hrsq, hRR, hrb2, hx, hA, hC]
    show _ * (_ + q.rho / (H * W) * _ * _) = _
    field_simp; ring
  have hmu2 : mu * mu * rbarsq p.aux mu x = (W ^ 2 - 1) / W ^ 2 := by
    rw [hrbar]
    show q.rho / (H * W) * (q.rho / (H * W)) * _ = _
    field_simp
  refine ⟨by rw [hrbar, hvv], by rw [hmu2, hvv], ?_, ?_, ?_⟩
  · rw [hv0, hvv]
    apply le_min
    · -- r² ≥ rbar² ≥ W² v²
      have hr2 : W ^ 2 - 1 ≤ p.aux.rsq := by
        have h1 : (H / q.rho) ^ 2 * (W ^ 2 - 1) ≤ p.aux.rsq := by
          rw [hrsq, hRR]
          have hcs : bv ^ 2 ≤ bb * (W ^ 2 - 1) := by
            have := cauchy_schwarz h hp q.B q.v
            rw [hvv] at this; exact this
          have e : A ^ 2 * (W ^ 2 - 1) + 2 * A * C * bv + C ^ 2 * bb - (H / q.rho) ^ 2 * (W ^ 2 - 1)
              = (2 * H * W ^ 2 + bb) / (q.rho * W ^ 2) ^ 2 * (bb * (W ^ 2 - 1) - bv ^ 2) := by
            rw [hA, hC]; field_simp; ring
          have : 0 ≤ (2 * H * W ^ 2 + bb) / (q.rho * W ^ 2) ^ 2 * (bb * (W ^ 2 - 1) - bv ^ 2) :=
            mul_nonneg (by positivity) (by linarith)
          linarith
        have h2 : 1 ≤ H / q.rho := by rw [le_div_iff₀ hr]; linarith
        have h3 : 0 ≤ W ^ 2 - 1 := by nlinarith
        have h4 : (1:ℝ) ≤ (H / q.rho) ^ 2 := one_le_pow₀ h2
        nlinarith
      have h0 : 0 ≤ W ^ 2 - 1 := by nlinarith
      rw [div_le_div_iff₀ (by positivity) (by linarith)]
      nlinarith
    · have hgp : 0 < b.gmax := lt_of_lt_of_le hW hgm
      have : 1 / (b.gmax * b.gmax) ≤ 1 / (W * W) := by
        apply one_div_le_one_div_of_le (by positivity)
        exact mul_self_le_mul_self hW.le hgm
      have e : (W ^ 2 - 1) / W ^ 2 = 1 - 1 / (W * W) := by field_simp
      rw [e]; linarith
  · unfold qbar
    rw [hbr, hbsq, hrsq, hRR, hrb2, hq, hx, hA, hC]
    show _ - 0.5 * (_ + q.rho / (H * W) * _ * (q.rho / (H * W) * _) * _) = _
    field_simp
    ring
  · intro i
    rw [hrcon, hbu, hbdotr, hBR, hR, hx]
    beta_reduce
    have e : q.rho / (H * W) * (1 / Real.sqrt (q.rho * W) * (bv * H / q.rho)) * (q.B i * (1 / Real.sqrt (q.rho * W)))
        = bv / W * q.B i * (1 / Real.sqrt (q.rho * W) * (1 / Real.sqrt (q.rho * W))) := by
      field_simp
    show W * (q.rho / (H * W)) * _ * (_ + q.rho / (H * W) * _ * _) = _
    rw [e, hss, hA, hC]
    field_simp; ring

end Phoebus.C2P
