import Verif.C2P.Lemmas
import Mathlib.Topology.Order.IntermediateValue
import Mathlib.Topology.Algebra.Order.Field
import Mathlib.Topology.Algebra.Field

/-!
# Conserved-to-primitive inversion (C61, C62, C63)
-/
namespace Phoebus.C2P
open Finset Geom Robust Rel

/-- Admissible primitive state for given bounds and equation of state: what the floors and ceilings enforce, plus
`h ≥ 1` and consistency of its pressure with the EOS. -/
structure Admissible (eos : Eos) (b : Bnds) (G : ADM ℝ) (ye : ℝ) (q : Prim) : Prop where
  rho_pos : 0 < q.rho
  rho_floor : b.rhoFloor ≤ q.rho
  enthalpy : 0 ≤ q.u + q.P
  gamma : lorentz G.gam q.v ≤ b.gmax
  e_floor : b.eFloor q.rho ≤ q.u / q.rho
  e_max : q.u / q.rho ≤ b.emax
  e_pos : -1 < q.u / q.rho
  eos_P : eos.pRE q.rho (q.u / q.rho) ye = q.P
  eos_T : eos.pRT q.rho (eos.tRE q.rho (q.u / q.rho) ye) ye = q.P

variable {G : ADM ℝ}

theorem vhatsq_exact {a : Aux} {mu rb v : ℝ} (h : mu * mu * rb = v) (hv : v ≤ a.v0sq) : vhatsq a mu rb = (v, false) := by
  unfold vhatsq; rw [h, if_neg (not_lt.2 hv)]

theorem rhohat_exact {b : Bnds} {a : Aux} {iW r : ℝ} (h : a.D * iW = r) (hr : b.rhoFloor ≤ r) : (rhohat b a iW).1 = r := by
  unfold rhohat; rw [h]; split_ifs with hc
  · exact le_antisymm hr hc
  · rfl

theorem ehat_exact {b : Bnds} {a : Aux} {mu qb rb v W r e : ℝ} (hr : (rhohat b a (1 / W)).1 = r)
    (he : W * (qb - mu * rb) + v * W * (W / (1 + W)) = e) (h1 : b.eFloor r ≤ e) (h2 : e ≤ b.emax) :
    (ehat 0 b a mu qb rb v W).1 = e := by
  unfold ehat; simp only [ratio_zero]; rw [hr, he]
  split_ifs with hc hc'
  · exact le_antisymm h1 hc
  · exact absurd hc' (not_lt.2 h2)
  · rfl

/-- The conserved state is overwritten, by the image of the new primitives, exactly when a bound was used. -/
theorem unwrap_cons (val hasB hasYe failF failC : Bool) (small : ℝ) (eos : Eos) (G : ADM ℝ) (gdet : ℝ) (b : Bnds)
    (c : Cons) (mu : ℝ) :
    let out := unwrap val hasB hasYe failF failC small eos G gdet b c mu
    let cn := p2c val G gdet (if hasYe then out.ye else 0) out.prim
    out.cons = if out.usedRhoFloor || out.usedEFloor || out.usedEMax || out.usedGMax then
        { c with D := cn.D, S := cn.S, tau := cn.tau, ye := if hasYe then cn.ye else c.ye } else c := rfl

/-- C61. For every geometry, both energy formulations, and every admissible primitive state: the value
`mu = 1/(hW)` lies in the search interval `(0,1]`, is an exact root of the residual built from the state's conserved
variables, and unwrapping it returns exactly the original primitive state, leaves the conserved state
unchanged, and reports success when bounds are not treated as failures. -/
theorem c2p_recovers_state (val hasYe failF failC : Bool) (eps : ℝ) (eos : Eos) (b : Bnds) (gdet ye : ℝ) (q : Prim) (h : G.Valid)
    (ha : 0 < G.alpha) (hp : PosDef G) (hg : 0 < gdet) (hye : hasYe = false → ye = 0.5)
    (hq : Admissible eos b G ye q) (heps : eps ≤ q.rho + q.u) :
    let c := p2c val G gdet ye q
    let mu := 1 / ((q.rho + q.u + q.P) / q.rho * lorentz G.gam q.v)
    let out := unwrap val true hasYe failF failC 0 eos G gdet b c mu
    0 < mu ∧ mu ≤ 1 ∧ residual 0 eps eos b (prep val true hasYe 0 G gdet b c).aux mu = 0 ∧
      out.prim = q ∧ out.ye = ye ∧ out.cons = c ∧ out.usedGMax = false ∧ out.usedEMax = false ∧
      (b.rhoFloor < q.rho → b.eFloor q.rho < q.u / q.rho →
        out.usedRhoFloor = false ∧ out.usedEFloor = false ∧ out.success = true) := by
  intro c mu out
  have hr := hq.rho_pos
  set W := lorentz G.gam q.v with hWdef
  have hW1 : 1 ≤ W := lorentz_ge_one G hp q.v
  have hW : 0 < W := lt_of_lt_of_le one_pos hW1
  set H := q.rho + q.u + q.P with hHdef
  have hH1 : q.rho ≤ H := by have := hq.enthalpy; linarith
  have hH : 0 < H := lt_of_lt_of_le hr hH1
  have hmu : mu = q.rho / (H * W) := by show 1 / (H / q.rho * W) = _; field_simp
  obtain ⟨e1, e2, e3, e4, e5⟩ := exact_mu val hasYe gdet ye b q h ha hp hg hr hq.rho_floor hH1 hq.gamma
  obtain ⟨hD, -, -, hBp, -, -, -, -, -, -, -, hye'⟩ := prep_p2c val hasYe gdet ye b q h ha hp hg hr hq.rho_floor
  set p := prep val true hasYe 0 G gdet b (p2c val G gdet ye q) with hpdef
  have hyeq : p.aux.ye = ye := by
    change p.aux.ye = _ at hye'
    rw [hye']; cases hasYe
    · simpa using (hye rfl).symm
    · rfl
  rw [← hHdef, ← hWdef, ← hmu] at e1 e2 e4 e5
  set x := xMu 0 p.aux mu with hxdef
  have hvv : G.dot3 q.v q.v = W ^ 2 - 1 := by
    have := lorentz_sq G hp q.v
    rw [← hWdef] at this; linarith
  have hvs : vhatsq p.aux mu (rbarsq p.aux mu x) = ((W ^ 2 - 1) / W ^ 2, false) := by
    apply vhatsq_exact
    · rw [e2, hvv]
    · rw [← hvv]; exact e3
  have hiW : iWhat ((W ^ 2 - 1) / W ^ 2) = 1 / W := by
    unfold iWhat
    have : 1 - (W ^ 2 - 1) / W ^ 2 = (1 / W) ^ 2 := by field_simp; ring
    rw [this, Real.sqrt_sq (by positivity)]
  have hrho : (rhohat b p.aux (1 / W)).1 = q.rho := by
    apply rhohat_exact _ hq.rho_floor
    change p.aux.D = q.rho * W at hD
    rw [hD]; field_simp
  have hetrial : W * (qbar p.aux mu x - mu * rbarsq p.aux mu x) + (W ^ 2 - 1) / W ^ 2 * W * (W / (1 + W)) =
      q.u / q.rho := by
    rw [e4, e1, hvv, hmu]
    have : 1 + W ≠ 0 := by positivity
    field_simp
    rw [hHdef]; ring
  have he : (ehat 0 b p.aux mu (qbar p.aux mu x) (rbarsq p.aux mu x) ((W ^ 2 - 1) / W ^ 2) W).1 = q.u / q.rho :=
    ehat_exact hrho hetrial hq.e_floor hq.e_max
  have hW1W : (1:ℝ) / (1 / W) = W := by field_simp
  have hprim : out.prim = q := by
    show (⟨_, _, _, _, _⟩ : Prim) = q
    have := e5
    simp only [← hpdef, ← hxdef, c, hvs, hiW, hW1W, hrho, he, hyeq, hq.eos_T, if_true]
    have hu : q.u / q.rho * q.rho = q.u := by field_simp
    change p.Bp = q.B at hBp
    rw [hu, hBp]
    have hv : (fun i => W * mu * x * (p.rcon i + mu * p.bdotr * p.bu i)) = q.v := funext e5
    rw [hv]
  have hyeout : out.ye = ye := hyeq
  refine ⟨?_, ?_, ?_, hprim, hyeout, ?_, ?_, ?_, ?_⟩
  · rw [hmu]; positivity
  · rw [hmu, div_le_one (by positivity)]; nlinarith
  · show residual 0 eps eos b p.aux mu = 0
    unfold residual
    simp only [← hxdef, hvs, hiW, ratio_zero, hW1W, hrho, he, hyeq, hq.eos_P]
    have hpos : 0 < q.rho + q.u := by
      have := hq.e_pos; rw [lt_div_iff₀ hr] at this; linarith
    have hmp : makePositive eps (q.rho * (1 + q.u / q.rho) + q.P - q.P) = q.rho + q.u := by
      unfold makePositive
      have : q.rho * (1 + q.u / q.rho) + q.P - q.P = q.rho + q.u := by field_simp; ring
      rw [this, max_eq_left heps]
    rw [hmp]
    have hnua : (1 + q.P / (q.rho + q.u)) * (1 + q.u / q.rho) * (1 / W) = H / (q.rho * W) := by
      rw [hHdef]; field_simp
    have hnub : (1 + q.P / (q.rho + q.u)) * (1 + qbar p.aux mu x - mu * rbarsq p.aux mu x) = H / (q.rho * W) := by
      rw [e4, e1, hvv, hmu, hHdef]; field_simp; ring
    rw [hnua, hnub, max_self, e1, hvv, hmu]
    have : H / (q.rho * W) + q.rho / (H * W) * ((H / q.rho) ^ 2 * (W ^ 2 - 1)) = H * W / q.rho := by
      field_simp; ring
    rw [this]; field_simp; ring
  · have e := unwrap_cons val true hasYe failF failC 0 eos G gdet b c mu
    change out.cons = _ at e
    rw [e]
    simp only [show (unwrap val true hasYe failF failC 0 eos G gdet b c mu) = out from rfl, hprim, hyeout]
    split_ifs <;> rfl
  · show (vhatsq p.aux mu (rbarsq p.aux mu x)).2 = false
    rw [hvs]
  · show (ehat 0 b p.aux mu (qbar p.aux mu x) (rbarsq p.aux mu x) (vhatsq p.aux mu (rbarsq p.aux mu x)).1
      (1 / iWhat (vhatsq p.aux mu (rbarsq p.aux mu x)).1)).2.2 = false
    rw [hvs]; simp only []; rw [hiW, hW1W]
    unfold ehat
    simp only [ratio_zero]; rw [hetrial]
    split_ifs with h1 h2
    · rfl
    · exact absurd h2 (not_lt.2 hq.e_max)
    · rfl
  · intro f1 f2
    have u1 : out.usedRhoFloor = false := by
      show (rhohat b p.aux (iWhat (vhatsq p.aux mu (rbarsq p.aux mu x)).1)).2 = false
      rw [hvs]; simp only []; rw [hiW]
      unfold rhohat at hrho ⊢
      split_ifs with h1
      · rw [if_pos h1] at hrho; exact absurd hrho f1.ne
      · rfl
    have u2 : out.usedEFloor = false := by
      show (ehat 0 b p.aux mu (qbar p.aux mu x) (rbarsq p.aux mu x) (vhatsq p.aux mu (rbarsq p.aux mu x)).1
        (1 / iWhat (vhatsq p.aux mu (rbarsq p.aux mu x)).1)).2.1 = false
      rw [hvs]; simp only []; rw [hiW, hW1W]
      unfold ehat
      simp only [ratio_zero]; rw [hetrial, hrho]
      rw [if_neg (not_le.2 f2)]
      split_ifs <;> rfl
    refine ⟨u1, u2, ?_⟩
    have u3 : out.usedGMax = false := by
      show (vhatsq p.aux mu (rbarsq p.aux mu x)).2 = false
      rw [hvs]
    show (!((failF && (out.usedRhoFloor || out.usedEFloor)) || (failC && out.usedGMax))) = true
    rw [u1, u2, u3]; simp

/-- Without a magnetic field variable the same holds: the inverter's result does not depend on whether the field is
present when the field is zero. -/
theorem c2p_no_field (val hasYe failF failC : Bool) (small : ℝ) (eos : Eos) (b : Bnds) (gdet mu : ℝ) (c : Cons)
    (hB : c.B = fun _ => 0) :
    unwrap val false hasYe failF failC small eos G gdet b c mu =
      unwrap val true hasYe failF failC small eos G gdet b c mu ∧
    (prep val false hasYe small G gdet b c).aux = (prep val true hasYe small G gdet b c).aux := by
  have hp : prep val false hasYe small G gdet b c = prep val true hasYe small G gdet b c := by
    simp [prep, hB]
  refine ⟨?_, by rw [hp]⟩
  have hBp : (prep val true hasYe small G gdet b c).Bp = fun _ => 0 := by funext i; simp [prep, hB]
  unfold unwrap
  simp only [hp, hBp, Bool.false_eq_true, if_true, if_false]

/-- Ideal gas with adiabatic index 5/3, for the examples. -/
noncomputable def gas : Eos := ⟨fun r e _ => 2 / 3 * r * e, fun _ e _ => e, fun r T _ => 2 / 3 * r * T⟩

noncomputable def exB : Bnds := ⟨1 / 10, fun _ => 1 / 100, 10, 50⟩

noncomputable def exQ : Prim := ⟨1, 3, 2, ![1, 1, 1], ![1, -2, 3]⟩

/-- The hypotheses of `c2p_recovers_state` are met by a moving, magnetised, hot state in a curved geometry. -/
theorem exQ_admissible : Admissible gas exB exG (1 / 4) exQ ∧ exG.Valid ∧ PosDef exG := by
  refine ⟨⟨?_, ?_, ?_, ?_, ?_, ?_, ?_, ?_, ?_⟩, exG_valid⟩ <;> try norm_num [exQ, exB, gas]
  unfold lorentz
  rw [Real.sqrt_le_iff]
  simp [exG, Fin.sum_univ_three]
  norm_num

/-! ## C62: the root search is always well posed -/

/-- What the root search assumes about the scalars: true of every conserved state with `D > 0` (see `prep_scalars`). -/
structure AuxOk (a : Aux) : Prop where
  bsq_nonneg : 0 ≤ a.bsq
  rsq_nonneg : 0 ≤ a.rsq
  rbsq_nonneg : 0 ≤ a.rbsq
  v0_nonneg : 0 ≤ a.v0sq
  v0_lt : a.v0sq < 1

theorem prep_scalars (val hasB hasYe : Bool) (small : ℝ) (h : G.Valid) (hp : PosDef G) (gdet : ℝ) (b : Bnds) (c : Cons)
    (hgm : 1 ≤ b.gmax) : AuxOk (prep val hasB hasYe small G gdet b c).aux := by
  have hrsq : 0 ≤ (prep val hasB hasYe small G gdet b c).aux.rsq := by
    show 0 ≤ ∑ i, (∑ j, G.gamInv i j * ratio small (c.S j) c.D) * ratio small (c.S i) c.D
    set r : Fin 3 → ℝ := fun i => ratio small (c.S i) c.D
    set R : Fin 3 → ℝ := fun i => ∑ j, G.gamInv i j * r j
    have hlow : ∀ i, ∑ n, G.gam i n * R n = r i := by
      intro i
      have e := h.inv i
      simp only [Fin.sum_univ_three] at e
      have e0 := e 0
      have e1 := e 1
      have e2 := e 2
      simp only [R, Fin.sum_univ_three]
      calc _ = (G.gam i 0 * G.gamInv 0 0 + G.gam i 1 * G.gamInv 1 0 + G.gam i 2 * G.gamInv 2 0) * r 0 +
            (G.gam i 0 * G.gamInv 0 1 + G.gam i 1 * G.gamInv 1 1 + G.gam i 2 * G.gamInv 2 1) * r 1 +
            (G.gam i 0 * G.gamInv 0 2 + G.gam i 1 * G.gamInv 1 2 + G.gam i 2 * G.gamInv 2 2) * r 2 := by ring
        _ = r i := by rw [e0, e1, e2]; fin_cases i <;> simp
    have : ∑ i, R i * r i = G.dot3 R R := by
      rw [← sum_mul_lower]; exact sum_congr rfl fun i _ => by rw [hlow]
    have h2 := hp R
    rw [← this] at h2
    exact h2
  refine ⟨?_, hrsq, mul_self_nonneg _, ?_, ?_⟩
  · show 0 ≤ if hasB = true then _ else (0:ℝ)
    split_ifs
    · exact le_max_left _ _
    · exact le_rfl
  · show 0 ≤ min ((prep val hasB hasYe small G gdet b c).aux.rsq / 1 / (1 + (prep val hasB hasYe small G gdet b c).aux.rsq / 1))
      (1 - 1 / (b.gmax * b.gmax))
    apply le_min
    · rw [div_one]; positivity
    · have : 1 / (b.gmax * b.gmax) ≤ 1 := by
        rw [div_le_one (by positivity)]; nlinarith
      linarith
  · refine lt_of_le_of_lt (min_le_right _ _) ?_
    have : 0 < 1 / (b.gmax * b.gmax) := by positivity
    linarith

/-- Sanity of bounds and EOS used by the search: nonnegative energy floor not above the ceiling, positive density floor,
nonnegative pressure. -/
structure SearchOk (eos : Eos) (b : Bnds) : Prop where
  rho : 0 < b.rhoFloor
  e : ∀ r, 0 ≤ b.eFloor r
  emax : ∀ r, b.eFloor r ≤ b.emax
  P : ∀ r e ye, 0 < r → 0 ≤ e → 0 ≤ eos.pRE r e ye

theorem rhohat_eq (b : Bnds) (a : Aux) (iW : ℝ) : (rhohat b a iW).1 = max b.rhoFloor (a.D * iW) := by
  unfold rhohat; split_ifs with h
  · exact (max_eq_left h).symm
  · exact (max_eq_right (not_le.1 h).le).symm

theorem vhatsq_eq (a : Aux) (mu rb : ℝ) : (vhatsq a mu rb).1 = min (mu * mu * rb) a.v0sq := by
  unfold vhatsq; split_ifs with h
  · exact (min_eq_right h.le).symm
  · exact (min_eq_left (not_lt.1 h)).symm

theorem ehat_eq (small : ℝ) (b : Bnds) (a : Aux) (mu qb rb v W : ℝ) (hb : ∀ r, b.eFloor r ≤ b.emax) :
    (ehat small b a mu qb rb v W).1 = max (b.eFloor (max b.rhoFloor (a.D * ratio small 1 W)))
      (min (W * (qb - mu * rb) + v * W * ratio small W (1 + W)) b.emax) := by
  unfold ehat; simp only [rhohat_eq]
  set t := W * (qb - mu * rb) + v * W * ratio small W (1 + W)
  set f := b.eFloor (max b.rhoFloor (a.D * ratio small 1 W))
  have := hb (max b.rhoFloor (a.D * ratio small 1 W))
  split_ifs with h1 h2
  · exact (max_eq_left ((min_le_left _ _).trans h1)).symm
  · rw [min_eq_right h2.le, max_eq_right this]
  · rw [min_eq_left (not_lt.1 h2), max_eq_right (not_le.1 h1).le]

theorem xMu_pos {small mu : ℝ} {a : Aux} (hs : 0 ≤ small) (ha : 0 ≤ a.bsq) (hm : 0 ≤ mu) : 0 < xMu small a mu := by
  unfold xMu
  have : 0 ≤ mu * a.bsq := mul_nonneg hm ha
  rw [ratio_nonneg_eq _ _ _ (by linarith)]
  positivity

theorem rbarsq_nonneg {small mu : ℝ} {a : Aux} (hs : 0 ≤ small) (ha : AuxOk a) (hm : 0 ≤ mu) :
    0 ≤ rbarsq a mu (xMu small a mu) := by
  have hx := xMu_pos hs ha.bsq_nonneg hm
  unfold rbarsq
  have := ha.rsq_nonneg
  have := ha.rbsq_nonneg
  positivity

/-- C62. For every conserved state (any density, momentum, energy, field, however unphysical), every geometry,
nonnegative pressure EOS and sane bounds, the residual changes sign on the search interval: negative at 0 and
nonnegative at 1.  Hence the inverter's root finder never aborts on an unbracketed root. -/
theorem residual_bracketed (small eps : ℝ) (hs : 0 ≤ small) (he0 : 0 ≤ eps) (eos : Eos) (b : Bnds) (hb : SearchOk eos b) (a : Aux)
    (ha : AuxOk a) : residual small eps eos b a 0 < 0 ∧ 0 ≤ residual small eps eos b a 1 := by
  -- common bound on the enthalpy factor
  have hnua : ∀ mu qb rb v iW : ℝ, 0 ≤ iW →
      iW ≤ (1 + eos.pRE (rhohat b a iW).1 (ehat small b a mu qb rb v (ratio small 1 iW)).1 a.ye /
        makePositive eps ((rhohat b a iW).1 * (1 + (ehat small b a mu qb rb v (ratio small 1 iW)).1) +
          eos.pRE (rhohat b a iW).1 (ehat small b a mu qb rb v (ratio small 1 iW)).1 a.ye -
          eos.pRE (rhohat b a iW).1 (ehat small b a mu qb rb v (ratio small 1 iW)).1 a.ye)) *
        (1 + (ehat small b a mu qb rb v (ratio small 1 iW)).1) * iW := by
    intro mu qb rb v iW hiW
    have he : 0 ≤ (ehat small b a mu qb rb v (ratio small 1 iW)).1 := by
      rw [ehat_eq _ _ _ _ _ _ _ _ hb.emax]; exact le_max_of_le_left (hb.e _)
    set e := (ehat small b a mu qb rb v (ratio small 1 iW)).1
    have hr : 0 < (rhohat b a iW).1 := by rw [rhohat_eq]; exact lt_max_of_lt_left hb.rho
    set r := (rhohat b a iW).1
    have hP := hb.P r e a.ye hr he
    set P := eos.pRE r e a.ye
    have hm : 0 ≤ makePositive eps (r * (1 + e) + P - P) := le_max_of_le_right he0
    have h1 : (1:ℝ) ≤ 1 + P / makePositive eps (r * (1 + e) + P - P) := by
      have := div_nonneg hP hm; linarith
    have h2 : (1:ℝ) ≤ (1 + P / makePositive eps (r * (1 + e) + P - P)) * (1 + e) := by nlinarith
    exact le_mul_of_one_le_left hiW h2
  have hv0 := ha.v0_nonneg
  constructor
  · have hv : (vhatsq a 0 (rbarsq a 0 (xMu small a 0))).1 = 0 := by
      rw [vhatsq_eq]; simp [hv0]
    have hiW : iWhat 0 = 1 := by simp [iWhat]
    unfold residual
    simp only [hv, hiW, zero_mul, add_zero, zero_sub, neg_lt_zero]
    apply one_div_pos.2
    refine lt_of_lt_of_le one_pos (le_max_of_le_left ?_)
    simpa using hnua 0 (qbar a 0 (xMu small a 0)) (rbarsq a 0 (xMu small a 0)) 0 1 zero_le_one
  · unfold residual
    simp only []
    set x := xMu small a 1
    set rb := rbarsq a 1 x
    have hrb : 0 ≤ rb := rbarsq_nonneg hs ha zero_le_one
    set v := (vhatsq a 1 rb).1 with hv
    have hvle : v ≤ rb := by rw [hv, vhatsq_eq]; exact (min_le_left _ _).trans (by simp)
    have hv1 : v ≤ 1 := by rw [hv, vhatsq_eq]; exact (min_le_right _ _).trans ha.v0_lt.le
    have hvnn : 0 ≤ v := by rw [hv, vhatsq_eq]; exact le_min (by simpa using hrb) hv0
    have hiW : 1 - v ≤ iWhat v := by
      unfold iWhat; apply Real.le_sqrt_of_sq_le; nlinarith
    have h1 := hnua 1 (qbar a 1 x) rb v (iWhat v) (Real.sqrt_nonneg _)
    rw [one_mul]
    set nua := (1 + eos.pRE (rhohat b a (iWhat v)).1 (ehat small b a 1 (qbar a 1 x) rb v (ratio small 1 (iWhat v))).1 a.ye /
        makePositive eps ((rhohat b a (iWhat v)).1 * (1 + (ehat small b a 1 (qbar a 1 x) rb v (ratio small 1 (iWhat v))).1) +
          eos.pRE (rhohat b a (iWhat v)).1 (ehat small b a 1 (qbar a 1 x) rb v (ratio small 1 (iWhat v))).1 a.ye -
          eos.pRE (rhohat b a (iWhat v)).1 (ehat small b a 1 (qbar a 1 x) rb v (ratio small 1 (iWhat v))).1 a.ye)) *
        (1 + (ehat small b a 1 (qbar a 1 x) rb v (ratio small 1 (iWhat v))).1) * iWhat v with hnuadef
    have hge : 1 ≤ max nua ((1 + eos.pRE (rhohat b a (iWhat v)).1
        (ehat small b a 1 (qbar a 1 x) rb v (ratio small 1 (iWhat v))).1 a.ye /
        makePositive eps ((rhohat b a (iWhat v)).1 * (1 + (ehat small b a 1 (qbar a 1 x) rb v (ratio small 1 (iWhat v))).1) +
          eos.pRE (rhohat b a (iWhat v)).1 (ehat small b a 1 (qbar a 1 x) rb v (ratio small 1 (iWhat v))).1 a.ye -
          eos.pRE (rhohat b a (iWhat v)).1 (ehat small b a 1 (qbar a 1 x) rb v (ratio small 1 (iWhat v))).1 a.ye)) *
        (1 + qbar a 1 x - rb)) + rb := by
      have := le_max_left nua ((1 + eos.pRE (rhohat b a (iWhat v)).1
        (ehat small b a 1 (qbar a 1 x) rb v (ratio small 1 (iWhat v))).1 a.ye /
        makePositive eps ((rhohat b a (iWhat v)).1 * (1 + (ehat small b a 1 (qbar a 1 x) rb v (ratio small 1 (iWhat v))).1) +
          eos.pRE (rhohat b a (iWhat v)).1 (ehat small b a 1 (qbar a 1 x) rb v (ratio small 1 (iWhat v))).1 a.ye -
          eos.pRE (rhohat b a (iWhat v)).1 (ehat small b a 1 (qbar a 1 x) rb v (ratio small 1 (iWhat v))).1 a.ye)) *
        (1 + qbar a 1 x - rb))
      linarith
    rw [sub_nonneg, div_le_one (by linarith)]
    exact hge

/-- The residual is continuous on the search interval for a continuous EOS. -/
theorem residual_continuousOn (small eps : ℝ) (hs : 0 ≤ small) (eos : Eos) (b : Bnds) (hb : SearchOk eos b) (a : Aux)
    (ha : AuxOk a) (hcP : Continuous fun p : ℝ × ℝ => eos.pRE p.1 p.2 a.ye) (hcE : Continuous b.eFloor) :
    ContinuousOn (residual small eps eos b a) (Set.Icc 0 1) := by
  set I : Set ℝ := Set.Icc 0 1
  have cx : ContinuousOn (fun mu => xMu small a mu) I := by
    have : Set.EqOn (fun mu => xMu small a mu) (fun mu => 1 / (1 + mu * a.bsq + small)) I := by
      intro mu hm
      have : 0 ≤ mu * a.bsq := mul_nonneg hm.1 ha.bsq_nonneg
      exact ratio_nonneg_eq _ _ _ (by linarith)
    refine ContinuousOn.congr ?_ this
    refine ContinuousOn.div (by fun_prop) (by fun_prop) ?_
    intro mu hm
    have : 0 ≤ mu * a.bsq := mul_nonneg hm.1 ha.bsq_nonneg
    positivity
  have crb : ContinuousOn (fun mu => rbarsq a mu (xMu small a mu)) I := by
    unfold rbarsq; fun_prop
  have cqb : ContinuousOn (fun mu => qbar a mu (xMu small a mu)) I := by
    unfold qbar; fun_prop
  have cv : ContinuousOn (fun mu => (vhatsq a mu (rbarsq a mu (xMu small a mu))).1) I := by
    simp only [vhatsq_eq]; fun_prop
  have ciW : ContinuousOn (fun mu => iWhat (vhatsq a mu (rbarsq a mu (xMu small a mu))).1) I := by
    unfold iWhat; fun_prop
  have piW : ∀ mu, 0 < iWhat (vhatsq a mu (rbarsq a mu (xMu small a mu))).1 := by
    intro mu
    apply Real.sqrt_pos.2
    have : (vhatsq a mu (rbarsq a mu (xMu small a mu))).1 ≤ a.v0sq := by rw [vhatsq_eq]; exact min_le_right _ _
    linarith [ha.v0_lt]
  have eW : ∀ mu, ratio small 1 (iWhat (vhatsq a mu (rbarsq a mu (xMu small a mu))).1) =
      1 / (iWhat (vhatsq a mu (rbarsq a mu (xMu small a mu))).1 + small) := fun mu => ratio_nonneg_eq _ _ _ (piW mu).le
  have cW : ContinuousOn (fun mu => ratio small 1 (iWhat (vhatsq a mu (rbarsq a mu (xMu small a mu))).1)) I := by
    simp only [eW]
    refine ContinuousOn.div (by fun_prop) (by fun_prop) ?_
    intro mu _; have := piW mu; positivity
  have pW : ∀ mu, 0 < ratio small 1 (iWhat (vhatsq a mu (rbarsq a mu (xMu small a mu))).1) := by
    intro mu; rw [eW]; have := piW mu; positivity
  have cr : ContinuousOn (fun mu => (rhohat b a (iWhat (vhatsq a mu (rbarsq a mu (xMu small a mu))).1)).1) I := by
    simp only [rhohat_eq]; fun_prop
  have ce : ContinuousOn (fun mu => (ehat small b a mu (qbar a mu (xMu small a mu)) (rbarsq a mu (xMu small a mu))
      (vhatsq a mu (rbarsq a mu (xMu small a mu))).1
      (ratio small 1 (iWhat (vhatsq a mu (rbarsq a mu (xMu small a mu))).1))).1) I := by
    simp only [ehat_eq _ _ _ _ _ _ _ _ hb.emax]
    have c1 : ContinuousOn (fun mu => ratio small 1 (ratio small 1
        (iWhat (vhatsq a mu (rbarsq a mu (xMu small a mu))).1))) I := by
      simp only [fun mu => ratio_nonneg_eq small 1 _ (pW mu).le]
      refine ContinuousOn.div (by fun_prop) (by fun_prop) ?_
      intro mu _; have := pW mu; positivity
    have c2 : ContinuousOn (fun mu => ratio small (ratio small 1 (iWhat (vhatsq a mu (rbarsq a mu (xMu small a mu))).1))
        (1 + ratio small 1 (iWhat (vhatsq a mu (rbarsq a mu (xMu small a mu))).1))) I := by
      simp only [fun mu => ratio_nonneg_eq small
        (ratio small 1 (iWhat (vhatsq a mu (rbarsq a mu (xMu small a mu))).1)) _ (show
        (0:ℝ) ≤ 1 + ratio small 1 (iWhat (vhatsq a mu (rbarsq a mu (xMu small a mu))).1) by have := pW mu; linarith)]
      refine ContinuousOn.div (by fun_prop) (by fun_prop) ?_
      intro mu _; have := pW mu; positivity
    fun_prop
  have pr : ∀ mu, 0 < (rhohat b a (iWhat (vhatsq a mu (rbarsq a mu (xMu small a mu))).1)).1 := by
    intro mu; rw [rhohat_eq]; exact lt_max_of_lt_left hb.rho
  have pe : ∀ mu, 0 ≤ (ehat small b a mu (qbar a mu (xMu small a mu)) (rbarsq a mu (xMu small a mu))
      (vhatsq a mu (rbarsq a mu (xMu small a mu))).1
      (ratio small 1 (iWhat (vhatsq a mu (rbarsq a mu (xMu small a mu))).1))).1 := by
    intro mu; rw [ehat_eq _ _ _ _ _ _ _ _ hb.emax]; exact le_max_of_le_left (hb.e _)
  have prb : ∀ mu ∈ I, 0 ≤ rbarsq a mu (xMu small a mu) := fun mu hm => rbarsq_nonneg hs ha hm.1
  unfold residual
  simp only []
  generalize hfe : (fun mu => (ehat small b a mu (qbar a mu (xMu small a mu)) (rbarsq a mu (xMu small a mu))
      (vhatsq a mu (rbarsq a mu (xMu small a mu))).1
      (ratio small 1 (iWhat (vhatsq a mu (rbarsq a mu (xMu small a mu))).1))).1) = fe at ce
  generalize hfr : (fun mu => (rhohat b a (iWhat (vhatsq a mu (rbarsq a mu (xMu small a mu))).1)).1) = fr at cr
  generalize hfi : (fun mu => iWhat (vhatsq a mu (rbarsq a mu (xMu small a mu))).1) = fi at ciW
  generalize hfb : (fun mu => rbarsq a mu (xMu small a mu)) = fb at crb
  generalize hfq : (fun mu => qbar a mu (xMu small a mu)) = fq at cqb
  have pr' : ∀ mu, 0 < fr mu := by rw [← hfr]; exact pr
  have pe' : ∀ mu, 0 ≤ fe mu := by rw [← hfe]; exact pe
  have pi' : ∀ mu, 0 < fi mu := by rw [← hfi]; exact piW
  have pb' : ∀ mu ∈ I, 0 ≤ fb mu := by rw [← hfb]; exact prb
  have cP : ContinuousOn (fun mu => eos.pRE (fr mu) (fe mu) a.ye) I :=
    hcP.comp_continuousOn (cr.prodMk ce)
  have hgoal : ContinuousOn (fun mu => mu - 1 / (max ((1 + eos.pRE (fr mu) (fe mu) a.ye /
      makePositive eps (fr mu * (1 + fe mu) + eos.pRE (fr mu) (fe mu) a.ye - eos.pRE (fr mu) (fe mu) a.ye)) *
      (1 + fe mu) * fi mu) ((1 + eos.pRE (fr mu) (fe mu) a.ye /
      makePositive eps (fr mu * (1 + fe mu) + eos.pRE (fr mu) (fe mu) a.ye - eos.pRE (fr mu) (fe mu) a.ye)) *
      (1 + fq mu - mu * fb mu)) + mu * fb mu)) I := by
    have pmk : ∀ mu, 0 < makePositive eps
        (fr mu * (1 + fe mu) + eos.pRE (fr mu) (fe mu) a.ye - eos.pRE (fr mu) (fe mu) a.ye) := by
      intro mu
      have := pr' mu
      have := pe' mu
      refine lt_max_of_lt_left ?_
      rw [add_sub_cancel_right]; positivity
    have cah : ContinuousOn (fun mu => eos.pRE (fr mu) (fe mu) a.ye /
        makePositive eps (fr mu * (1 + fe mu) + eos.pRE (fr mu) (fe mu) a.ye - eos.pRE (fr mu) (fe mu) a.ye)) I := by
      refine ContinuousOn.div cP ?_ (fun mu _ => (pmk mu).ne')
      unfold makePositive; fun_prop
    refine ContinuousOn.sub continuousOn_id (ContinuousOn.div continuousOn_const (by fun_prop) ?_)
    intro mu hm
    have h1 : 0 < (1 + eos.pRE (fr mu) (fe mu) a.ye /
      makePositive eps (fr mu * (1 + fe mu) + eos.pRE (fr mu) (fe mu) a.ye - eos.pRE (fr mu) (fe mu) a.ye)) *
      (1 + fe mu) * fi mu := by
      have hP := hb.P _ _ a.ye (pr' mu) (pe' mu)
      have := div_nonneg hP (pmk mu).le
      have := pe' mu
      have := pi' mu
      positivity
    have h2 : 0 ≤ mu * fb mu := mul_nonneg hm.1 (pb' mu hm)
    have := lt_max_of_lt_left (c := (1 + eos.pRE (fr mu) (fe mu) a.ye /
      makePositive eps (fr mu * (1 + fe mu) + eos.pRE (fr mu) (fe mu) a.ye - eos.pRE (fr mu) (fe mu) a.ye)) *
      (1 + fq mu - mu * fb mu)) h1
    exact (by linarith : (0:ℝ) < _).ne'
  subst hfe hfr hfi hfb hfq
  exact hgoal

/-- C62. The residual has a root in the search interval, for every conserved state. -/
theorem root_exists (small eps : ℝ) (hs : 0 ≤ small) (he0 : 0 ≤ eps) (eos : Eos) (b : Bnds) (hb : SearchOk eos b) (a : Aux)
    (ha : AuxOk a) (hcP : Continuous fun p : ℝ × ℝ => eos.pRE p.1 p.2 a.ye) (hcE : Continuous b.eFloor) :
    ∃ mu, 0 < mu ∧ mu ≤ 1 ∧ residual small eps eos b a mu = 0 := by
  obtain ⟨h0, h1⟩ := residual_bracketed small eps hs he0 eos b hb a ha
  obtain ⟨mu, hm, hz⟩ := intermediate_value_Icc (zero_le_one' ℝ)
    (residual_continuousOn small eps hs eos b hb a ha hcP hcE) ⟨h0.le, h1⟩
  refine ⟨mu, lt_of_le_of_ne hm.1 ?_, hm.2, hz⟩
  rintro rfl; rw [hz] at h0; exact lt_irrefl _ h0

/-- C62. Whatever the stored guess and the iteration cap, the root search never aborts, and any number it returns lies
in `[0, 1]`.  (A NaN is possible only when the residual has two distinct roots, which the second clause records.) -/
theorem findMu_safe (small eps : ℝ) (hs : 0 ≤ small) (he0 : 0 ≤ eps) (eos : Eos) (b : Bnds) (hb : SearchOk eos b) (a : Aux)
    (ha : AuxOk a) (tol guess : ℝ) (ht : 0 ≤ tol) (maxIter : ℕ) :
    findMu small eps eos b a tol guess maxIter ≠ .abort ∧
    (∀ x st n, findMu small eps eos b a tol guess maxIter = .ret x st n → 0 ≤ x ∧ x ≤ 1) ∧
    (∀ st n, findMu small eps eos b a tol guess maxIter = .nan st n →
      ∃ z w, z < w ∧ residual small eps eos b a z = 0 ∧ residual small eps eos b a w = 0) := by
  obtain ⟨h0, h1⟩ := residual_bracketed small eps hs he0 eos b hb a ha
  refine ⟨?_, ?_, ?_⟩
  · unfold findMu RootFind.regulaFalsi
    have hbr : RootFind.checkBracket
        (RootFind.refineBracket (residual small eps eos b a) guess 0 1).2.2.1
        (RootFind.refineBracket (residual small eps eos b a) guess 0 1).2.2.2 = true := by
      unfold RootFind.checkBracket RootFind.refineBracket
      by_cases hg : (0:ℝ) ≤ guess ∧ (1:ℝ) ≥ guess
      · simp only [hg, and_self, if_true]
        by_cases hp : residual small eps eos b a guess * residual small eps eos b a 1 > 0
        · simp only [hp, if_true]
          have hgpos : 0 < residual small eps eos b a guess := by
            by_contra hc
            have := mul_nonpos_of_nonpos_of_nonneg (not_lt.1 hc) h1
            linarith
          rw [if_neg]
          have := mul_neg_of_neg_of_pos h0 hgpos
          linarith
        · simp only [hp, if_false]
      · simp only [hg, if_false]
        rw [if_neg]
        have := mul_nonpos_of_nonpos_of_nonneg h0.le h1
        linarith
    simp only [hbr]
    simp only [Bool.not_true, Bool.false_eq_true, if_false]
    split <;> simp
  · intro x st n h
    exact RootFind.regulaFalsi_in_interval _ _ _ _ _ _ _ _ zero_le_one ht (by simp) x st n h
  · intro st n h
    obtain ⟨z, w, -, hzw, -, hz, hw⟩ := RootFind.regulaFalsi_nan_only_if _ _ _ _ _ _ _ _ zero_le_one ht st n h
    exact ⟨z, w, hzw, hz, hw⟩

/-- C62. When the search reports convergence, an exact root is within the tolerance. -/
theorem findMu_accurate (small eps : ℝ) (hs : 0 ≤ small) (eos : Eos) (b : Bnds) (hb : SearchOk eos b) (a : Aux)
    (ha : AuxOk a) (hcP : Continuous fun p : ℝ × ℝ => eos.pRE p.1 p.2 a.ye) (hcE : Continuous b.eFloor)
    (tol guess : ℝ) (ht : 0 ≤ tol) (maxIter : ℕ) (x : ℝ) (n : ℕ)
    (h : findMu small eps eos b a tol guess maxIter = .ret x .success n) :
    ∃ z, 0 ≤ z ∧ z ≤ 1 ∧ residual small eps eos b a z = 0 ∧ |x - z| ≤ tol := by
  obtain ⟨z, hz, h2, h3⟩ := RootFind.regulaFalsi_success_near_root _ _ _ _ _ _ _ _ (Nat.zero_le _) zero_le_one ht
    (residual_continuousOn small eps hs eos b hb a ha hcP hcE) x n h
  exact ⟨z, hz.1, hz.2, h2, h3⟩

example : SearchOk gas exB ∧ Continuous (fun p : ℝ × ℝ => gas.pRE p.1 p.2 0) ∧ Continuous exB.eFloor := by
  refine ⟨⟨by norm_num [exB], by norm_num [exB], by norm_num [exB], ?_⟩, ?_, ?_⟩
  · intro r e ye hr he; simp only [gas]; positivity
  · simp only [gas]; fun_prop
  · simp only [exB]; fun_prop

end Phoebus.C2P
