import Verif.C2P.Props

/-!
# What the inverter guarantees about its output, and what it does not (C63)
-/
namespace Phoebus.C2P
open Finset Geom Robust Rel

variable {G : ADM ℝ}

/-- C63. For every conserved state and every value of `mu` (converged or not): the returned density is at
least the (scaled) floor and the specific internal energy lies between its floor and the ceiling; each flag is
raised only if the corresponding value was replaced by the bound; and the conserved variables are rewritten, consistently
with the returned primitives, exactly when some flag is raised. -/
theorem output_bounds (val hasB hasYe failF failC : Bool) (eos : Eos) (gdet : ℝ) (b : Bnds)
    (hb : ∀ r, b.eFloor r ≤ b.emax) (hr : 0 < b.rhoFloor) (c : Cons) (mu : ℝ) :
    let out := unwrap val hasB hasYe failF failC 0 eos G gdet b c mu
    b.rhoFloor ≤ out.prim.rho ∧
    b.eFloor out.prim.rho ≤ out.prim.u / out.prim.rho ∧ out.prim.u / out.prim.rho ≤ b.emax ∧
    (out.usedRhoFloor = true → out.prim.rho = b.rhoFloor) ∧
    (out.usedEFloor = true → out.prim.u / out.prim.rho = b.eFloor out.prim.rho) ∧
    (out.usedEMax = true → out.prim.u / out.prim.rho = b.emax) := by
  intro out
  have hrho : out.prim.rho = (rhohat b (prep val hasB hasYe 0 G gdet b c).aux _).1 := rfl
  have hge : b.rhoFloor ≤ out.prim.rho := by rw [hrho, rhohat_eq]; exact le_max_left _ _
  have hpos : 0 < out.prim.rho := lt_of_lt_of_le hr hge
  set p := prep val hasB hasYe 0 G gdet b c with hp
  set x := xMu 0 p.aux mu
  set rb := rbarsq p.aux mu x
  set W := 1 / iWhat (vhatsq p.aux mu rb).1
  set eh := ehat 0 b p.aux mu (qbar p.aux mu x) rb (vhatsq p.aux mu rb).1 W with heh
  have hu : out.prim.u / out.prim.rho = eh.1 := by
    have : out.prim.u = eh.1 * out.prim.rho := rfl
    rw [this]; field_simp
  have hrr : (rhohat b p.aux (ratio 0 1 W)).1 = out.prim.rho := by
    rw [ratio_zero]
    show (rhohat b p.aux (1 / (1 / iWhat (vhatsq p.aux mu rb).1))).1 = _
    rw [one_div_one_div]; rfl
  rw [hu]
  refine ⟨hge, ?_, ?_, ?_, ?_, ?_⟩
  · rw [heh, ehat_eq _ _ _ _ _ _ _ _ hb, ← hrr, rhohat_eq]; exact le_max_left _ _
  · rw [heh, ehat_eq _ _ _ _ _ _ _ _ hb]; exact max_le (hb _) (min_le_right _ _)
  · intro hf
    change (rhohat b p.aux (iWhat (vhatsq p.aux mu rb).1)).2 = true at hf
    change (rhohat b p.aux (iWhat (vhatsq p.aux mu rb).1)).1 = _
    unfold rhohat at hf ⊢; split_ifs at hf ⊢ with h
    rfl
  · intro hf
    change eh.2.1 = true at hf
    rw [← hrr]
    rw [heh] at hf ⊢
    unfold ehat at hf ⊢; simp only [] at hf ⊢
    split_ifs at hf ⊢ with h
    rfl
  · intro hf
    change eh.2.2 = true at hf
    rw [heh] at hf ⊢
    unfold ehat at hf ⊢; simp only [] at hf ⊢
    split_ifs at hf ⊢ with h h2
    rfl

/-- C63. The status does not depend on the residual at all: with the default settings (bounds not treated as failures)
every value of `mu`, converged or not, is reported as a success. -/
theorem status_ignores_convergence (val hasB hasYe : Bool) (small : ℝ) (eos : Eos) (gdet : ℝ) (b : Bnds) (c : Cons)
    (mu : ℝ) : (unwrap val hasB hasYe false false small eos G gdet b c mu).success = true := by
  simp [unwrap]

/-- C63. The spatial norm of the returned velocity is `W² mu² rbar²`, with the inverter's own `W`. -/
theorem velocity_norm (val hasYe failF failC : Bool) (eos : Eos) (gdet : ℝ) (b : Bnds) (c : Cons) (mu : ℝ)
    (h : G.Valid) (hp : PosDef G) (hmu : 0 ≤ mu) :
    let out := unwrap val true hasYe failF failC 0 eos G gdet b c mu
    let a := (prep val true hasYe 0 G gdet b c).aux
    let rb := rbarsq a mu (xMu 0 a mu)
    G.dot3 out.prim.v out.prim.v = (1 / iWhat (vhatsq a mu rb).1) ^ 2 * (mu * mu * rb) := by
  intro out a rb
  set p := prep val true hasYe 0 G gdet b c with hpdef
  set x := xMu 0 a mu with hx
  set W := 1 / iWhat (vhatsq a mu rb).1
  have hv : out.prim.v = fun i => W * mu * x * p.rcon i + (W * mu * x * mu * p.bdotr) * p.bu i := by
    funext i
    show W * mu * x * (p.rcon i + mu * p.bdotr * p.bu i) = _
    ring
  -- lower of rcon is rcov
  set r : Fin 3 → ℝ := fun i => ratio 0 (c.S i) c.D with hr
  have hlow : ∀ i, ∑ n, G.gam i n * p.rcon n = r i := by
    intro i
    have e := h.inv i
    simp only [Fin.sum_univ_three] at e
    have e0 := e 0
    have e1 := e 1
    have e2 := e 2
    have hrc : ∀ n, p.rcon n = ∑ j, G.gamInv n j * r j := fun n => rfl
    simp only [hrc, Fin.sum_univ_three]
    calc _ = (G.gam i 0 * G.gamInv 0 0 + G.gam i 1 * G.gamInv 1 0 + G.gam i 2 * G.gamInv 2 0) * r 0 +
          (G.gam i 0 * G.gamInv 0 1 + G.gam i 1 * G.gamInv 1 1 + G.gam i 2 * G.gamInv 2 1) * r 1 +
          (G.gam i 0 * G.gamInv 0 2 + G.gam i 1 * G.gamInv 1 2 + G.gam i 2 * G.gamInv 2 2) * r 2 := by ring
      _ = r i := by rw [e0, e1, e2]; fin_cases i <;> simp
  have hrr : G.dot3 p.rcon p.rcon = a.rsq := by
    rw [← sum_mul_lower]
    show _ = ∑ i, p.rcon i * r i
    exact sum_congr rfl fun i _ => by rw [hlow]
  have hbr : G.dot3 p.bu p.rcon = p.bdotr := by
    rw [← sum_mul_lower]
    show _ = ∑ i, p.bu i * r i
    exact sum_congr rfl fun i _ => by rw [hlow]
  have hbb : G.dot3 p.bu p.bu = a.bsq := by
    show G.dot3 p.bu p.bu = max 0 (G.dot3 p.bu p.bu)
    rw [max_eq_right (hp _)]
  have hrbsq : a.rbsq = p.bdotr * p.bdotr := rfl
  have hrb : G.dot3 p.rcon p.bu = p.bdotr := by rw [ADM.dot3_comm h]; exact hbr
  have hbnn : 0 ≤ a.bsq := by rw [← hbb]; exact hp _
  have hxv : x * (1 + mu * a.bsq) = 1 := by
    have : 0 ≤ mu * a.bsq := mul_nonneg hmu hbnn
    rw [hx, xMu, ratio_zero]; field_simp
  rw [hv, dot3_add_left, dot3_add_right, dot3_add_right, hrr, hbb, hbr, hrb]
  show _ = W ^ 2 * (mu * mu * (x * (x * a.rsq + mu * (1 + x) * a.rbsq)))
  rw [hrbsq]
  linear_combination (W ^ 2 * mu ^ 3 * x * p.bdotr ^ 2) * hxv

/-- C63 (partial: the velocity ceiling).  If the velocity clamp is not used, the returned Lorentz factor is the inverter's
and respects the ceiling; if it is used, the returned velocity is *not* rescaled, its Lorentz factor is strictly larger than the clamped one, and
when the ceiling itself is the active clamp it strictly exceeds the ceiling. -/
theorem gamma_ceiling_partial (val hasYe failF failC : Bool) (eos : Eos) (gdet : ℝ) (b : Bnds) (c : Cons) (mu : ℝ)
    (h : G.Valid) (hp : PosDef G) (hmu : 0 ≤ mu) (hgm : 1 ≤ b.gmax) :
    let out := unwrap val true hasYe failF failC 0 eos G gdet b c mu
    let a := (prep val true hasYe 0 G gdet b c).aux
    (out.usedGMax = false → lorentz G.gam out.prim.v ≤ b.gmax) ∧
    (out.usedGMax = true → a.v0sq = 1 - 1 / (b.gmax * b.gmax) → b.gmax < lorentz G.gam out.prim.v) := by
  intro out a
  have hn := velocity_norm val hasYe failF failC eos gdet b c mu h hp hmu
  simp only [] at hn
  change G.dot3 out.prim.v out.prim.v = (1 / iWhat (vhatsq a mu (rbarsq a mu (xMu 0 a mu))).1) ^ 2 *
    (mu * mu * rbarsq a mu (xMu 0 a mu)) at hn
  set rb := rbarsq a mu (xMu 0 a mu)
  have haux := prep_scalars val true hasYe 0 h hp gdet b c hgm
  change AuxOk a at haux
  have hl := lorentz_sq G hp out.prim.v
  have hl1 := lorentz_ge_one G hp out.prim.v
  have hv0 : a.v0sq ≤ 1 - 1 / (b.gmax * b.gmax) := min_le_right _ _
  have hgp : 0 < b.gmax := lt_of_lt_of_le one_pos hgm
  constructor
  · intro hf
    change (vhatsq a mu rb).2 = false at hf
    have hle : mu * mu * rb ≤ a.v0sq := by
      unfold vhatsq at hf; split_ifs at hf with hc
      exact not_lt.1 hc
    have hv : (vhatsq a mu rb).1 = mu * mu * rb := by rw [vhatsq_eq, min_eq_left hle]
    rw [hv] at hn
    have h1 : 0 < 1 - mu * mu * rb := by linarith [haux.v0_lt]
    have hiw : (1 / iWhat (mu * mu * rb)) ^ 2 = 1 / (1 - mu * mu * rb) := by
      rw [div_pow, one_pow, iWhat, Real.sq_sqrt h1.le]
    rw [hiw] at hn
    have hle2 : 1 / (b.gmax * b.gmax) ≤ 1 - mu * mu * rb := by linarith
    have hL : lorentz G.gam out.prim.v ^ 2 = 1 / (1 - mu * mu * rb) := by
      rw [hl, hn]
      have hne := h1.ne'
      generalize mu * mu * rb = t at hne ⊢
      field_simp; ring
    have : lorentz G.gam out.prim.v ^ 2 ≤ b.gmax ^ 2 := by
      rw [hL, div_le_iff₀ h1]
      rw [div_le_iff₀ (by positivity)] at hle2
      nlinarith
    exact (pow_le_pow_iff_left₀ (by linarith) hgp.le two_ne_zero).1 this
  · intro hf hv
    change (vhatsq a mu rb).2 = true at hf
    have hgt : a.v0sq < mu * mu * rb := by
      unfold vhatsq at hf; split_ifs at hf with hc
      exact hc
    have hv' : (vhatsq a mu rb).1 = a.v0sq := by rw [vhatsq_eq, min_eq_right hgt.le]
    rw [hv'] at hn
    have h1 : 0 < 1 - a.v0sq := by linarith [haux.v0_lt]
    have hiw : (1 / iWhat a.v0sq) ^ 2 = 1 / (1 - a.v0sq) := by
      rw [div_pow, one_pow, iWhat, Real.sq_sqrt h1.le]
    have h1' : 1 - a.v0sq = 1 / (b.gmax * b.gmax) := by rw [hv]; ring
    rw [hiw, h1'] at hn
    have e : 1 / (1 / (b.gmax * b.gmax)) = b.gmax ^ 2 := by field_simp
    rw [e] at hn
    have : b.gmax ^ 2 < lorentz G.gam out.prim.v ^ 2 := by
      rw [hl, hn]
      have h3 : b.gmax ^ 2 * a.v0sq < b.gmax ^ 2 * (mu * mu * rb) := by
        apply mul_lt_mul_of_pos_left hgt; positivity
      have h4 : b.gmax ^ 2 * a.v0sq = b.gmax ^ 2 - 1 := by rw [hv]; field_simp
      linarith
    exact (pow_lt_pow_iff_left₀ hgp.le (by linarith) two_ne_zero).1 this

/-- flat space. -/
noncomputable def flat : ADM ℝ := ⟨1, fun _ => 0, fun i j => if i = j then 1 else 0, fun i j => if i = j then 1 else 0⟩

theorem flat_valid : flat.Valid ∧ PosDef flat := by
  refine ⟨⟨by simp [flat], ?_, ?_, ?_⟩, ?_⟩
  · intro i j; simp [flat, eq_comm]
  · intro i j; simp [flat, eq_comm]
  · intro i j; simp [flat]
  · intro v; simp [flat, ADM.dot3, Fin.sum_univ_three]
    nlinarith [sq_nonneg (v 0), sq_nonneg (v 1), sq_nonneg (v 2)]

/-- dust and bounds with Lorentz-factor ceiling 2. -/
noncomputable def dust : Eos := ⟨fun _ _ _ => 0, fun _ e _ => e, fun _ _ _ => 0⟩
noncomputable def wB : Bnds := ⟨1 / 10, fun _ => 0, 2, 100⟩
noncomputable def wC : Cons := ⟨1, ![10, 0, 0], fun _ => 0, 10, 0⟩

/-- C63, negation: in flat space there is a conserved state and an *exact* root of the residual for which the inverter reports success although the returned
Lorentz factor exceeds the ceiling, and the rewritten conserved density differs from the one given (mass is created). -/
theorem gamma_ceiling_violated (eps : ℝ) :
    let out := unwrap true true false false false 0 dust flat 1 wB wC (1 / 11)
    residual 0 eps dust wB (prep true true false 0 flat 1 wB wC).aux (1 / 11) = 0 ∧ out.success = true ∧
      wB.gmax < lorentz flat.gam out.prim.v ∧ wC.D < out.cons.D := by
  intro out
  have haux : (prep true true false 0 flat 1 wB wC).aux = ⟨1, 10, 0, 0, 100, 0, 3 / 4, 0.5⟩ := by
    simp only [prep, tauOf, wC, wB, flat, ratio_zero, Fin.sum_univ_three]
    simp
    norm_num
  have hx : xMu 0 ⟨1, 10, 0, 0, 100, 0, 3 / 4, 0.5⟩ (1 / 11) = 1 := by simp [xMu, ratio_zero]
  have hrb : rbarsq ⟨1, 10, 0, 0, 100, 0, 3 / 4, 0.5⟩ (1 / 11) 1 = 100 := by norm_num [rbarsq]
  have hqb : qbar ⟨1, 10, 0, 0, 100, 0, 3 / 4, 0.5⟩ (1 / 11) 1 = 10 := by norm_num [qbar]
  have hv : vhatsq ⟨1, 10, 0, 0, 100, 0, 3 / 4, 0.5⟩ (1 / 11) 100 = (3 / 4, true) := by norm_num [vhatsq]
  have hiW : iWhat (3 / 4) = 1 / 2 := by
    unfold iWhat
    rw [show (1:ℝ) - 3 / 4 = (1 / 2) ^ 2 by norm_num, Real.sqrt_sq (by norm_num)]
  have hrh : rhohat wB ⟨1, 10, 0, 0, 100, 0, 3 / 4, 0.5⟩ (1 / 2) = (1 / 2, false) := by norm_num [rhohat, wB]
  have heh : (ehat 0 wB ⟨1, 10, 0, 0, 100, 0, 3 / 4, 0.5⟩ (1 / 11) 10 100 (3 / 4) 2).1 = 31 / 11 := by
    norm_num [ehat, wB, ratio_zero]
  have hug : out.usedGMax = true := by
    show (vhatsq (prep true true false 0 flat 1 wB wC).aux (1 / 11)
      (rbarsq (prep true true false 0 flat 1 wB wC).aux (1 / 11) (xMu 0 (prep true true false 0 flat 1 wB wC).aux (1 / 11)))).2 = true
    rw [haux, hx, hrb, hv]
  have hlor : wB.gmax < lorentz flat.gam out.prim.v := by
    refine (gamma_ceiling_partial true false false false dust 1 wB wC (1 / 11) flat_valid.1 flat_valid.2
      (by norm_num) (by norm_num [wB])).2 hug ?_
    rw [haux]; norm_num [wB]
  refine ⟨?_, by simp [out, unwrap], hlor, ?_⟩
  · rw [haux]; unfold residual
    simp only [hx, hrb, hqb, hv, hiW, hrh, ratio_zero]
    rw [show (1:ℝ) / (1 / 2) = 2 by norm_num, heh]
    norm_num [dust]
  · have hrho : out.prim.rho = 1 / 2 := by
      show (rhohat wB (prep true true false 0 flat 1 wB wC).aux (iWhat (vhatsq (prep true true false 0 flat 1 wB wC).aux (1 / 11)
        (rbarsq (prep true true false 0 flat 1 wB wC).aux (1 / 11) (xMu 0 (prep true true false 0 flat 1 wB wC).aux (1 / 11)))).1)).1 = _
      rw [haux, hx, hrb, hv, hiW, hrh]
    have e := unwrap_cons true true false false false 0 dust flat 1 wB wC (1 / 11)
    simp only [] at e
    change out.cons = (if (out.usedRhoFloor || out.usedEFloor || out.usedEMax || out.usedGMax) = true then _ else _) at e
    rw [e, hug]
    simp only [Bool.or_true, if_true]
    show wC.D < 1 * out.prim.rho * lorentz flat.gam out.prim.v
    rw [hrho]
    have : (2:ℝ) < lorentz flat.gam out.prim.v := hlor
    show (1:ℝ) < _
    linarith

end Phoebus.C2P
