import Verif.C2P.Unique

/-!
# A root of the residual, with no bound used, reproduces the conserved variables

About `Residual` and `ConToPrim::solve` (con2prim_robust.hpp:46-141, 299-453); nothing new is modelled.
-/
namespace Phoebus.C2P
open Finset Geom Robust Rel

variable {G : ADM ℝ}

/-- The scalars and vectors prepared from a conserved state with positive density, and their relations. -/
theorem prep_vectors (val hasYe : Bool) (gdet : ℝ) (b : Bnds) (c : Cons) (h : G.Valid) (hp : PosDef G) (hg : 0 < gdet)
    (hD : 0 < c.D) (hfl : b.rhoFloor ≤ c.D / gdet) :
    let p := prep val true hasYe 0 G gdet b c
    let a := p.aux
    a.D = c.D / gdet ∧ 0 < a.D ∧ a.q = tauOf val G gdet c / a.D ∧
    (∀ i, ∑ n, G.gam i n * p.rcon n = c.S i / c.D) ∧ G.dot3 p.rcon p.rcon = a.rsq ∧ G.dot3 p.bu p.rcon = p.bdotr ∧
    G.dot3 p.bu p.bu = a.bsq ∧ a.rbsq = p.bdotr * p.bdotr ∧ a.bsqRpsq = a.bsq * a.rsq - a.rbsq ∧
    (∀ i, p.Bp i = c.B i / gdet) ∧ (∀ i, p.Bp i = Real.sqrt a.D * p.bu i) ∧ 0 ≤ a.bsq ∧ 0 ≤ a.rsq ∧ a.v0sq < 1 ∧
    (hasYe = true → a.ye = c.ye / c.D) := by
  intro p a
  have eD : a.D = c.D / gdet := by show c.D * (1 / gdet) = _; ring
  have hDp : 0 < a.D := by rw [eD]; positivity
  set r : Fin 3 → ℝ := fun i => ratio 0 (c.S i) c.D with hr
  have hlow : ∀ i, ∑ n, G.gam i n * p.rcon n = r i := by
    intro i
    have e := h.inv i
    simp only [Fin.sum_univ_three] at e
    have e0 := e 0
    have e1 := e 1
    have e2 := e 2
    have hrc : ∀ n, p.rcon n = ∑ j, G.gamInv n j * r j := fun n => rfl
    simp only [hrc, Fin.sum_univ_three]
    calc _ = (G.gam i 0 * G.gamInv 0 0 + G.gam i 1 * G.gamInv 1 0 + G.gam i 2 * G.gamInv 2 0) * r 0 +
          (G.gam i 0 * G.gamInv 0 1 + G.gam i 1 * G.gamInv 1 1 + G.gam i 2 * G.gamInv 2 1) * r 1 +
          (G.gam i 0 * G.gamInv 0 2 + G.gam i 1 * G.gamInv 1 2 + G.gam i 2 * G.gamInv 2 2) * r 2 := by ring
      _ = r i := by rw [e0, e1, e2]; fin_cases i <;> simp
  have hrr : G.dot3 p.rcon p.rcon = a.rsq := by
    rw [← sum_mul_lower]
    show _ = ∑ i, p.rcon i * r i
    exact sum_congr rfl fun i _ => by rw [hlow]
  have hbr : G.dot3 p.bu p.rcon = p.bdotr := by
    rw [← sum_mul_lower]
    show _ = ∑ i, p.bu i * r i
    exact sum_congr rfl fun i _ => by rw [hlow]
  have hbb : G.dot3 p.bu p.bu = a.bsq := by
    show G.dot3 p.bu p.bu = max 0 (G.dot3 p.bu p.bu)
    rw [max_eq_right (hp _)]
  have hbnn : 0 ≤ a.bsq := by rw [← hbb]; exact hp _
  have hrnn : 0 ≤ a.rsq := by rw [← hrr]; exact hp _
  refine ⟨eD, hDp, ?_, ?_, hrr, hbr, hbb, rfl, rfl, ?_, ?_, hbnn, hrnn, ?_, ?_⟩
  · show ratio 0 (tauOf val G gdet c) (c.D * (1 / gdet)) = _
    rw [ratio_zero, eD, mul_one_div]
  · intro i; rw [hlow]; simp only [hr, ratio_zero]
  · intro i; show c.B i * (1 / gdet) = _; ring
  · intro i
    show c.B i * (1 / gdet) = Real.sqrt a.D * (c.B i * (1 / gdet) * (1 / Real.sqrt (max (c.D * (1 / gdet)) b.rhoFloor)))
    rw [mul_one_div c.D, max_eq_left hfl, ← eD]
    have := Real.sqrt_pos.2 hDp
    field_simp
  · have : a.v0sq ≤ a.rsq / 1 / (1 + a.rsq / 1) := min_le_left _ _
    rw [div_one] at this
    have h2 : a.rsq / (1 + a.rsq) < 1 := by rw [div_lt_one (by linarith)]; linarith
    linarith
  · intro hy
    show (if hasYe = true then ratio 0 c.ye c.D else 0.5) = _
    rw [if_pos hy, ratio_zero]

/-- At a root of the residual where no bound is active: the two expressions for the enthalpy coincide and the root is `1/(h W)` with the
enthalpy `h` and Lorentz factor `W` that the inverter returns. -/
theorem root_form (val hasYe failF failC : Bool) (eps : ℝ) (eos : Eos) (gdet : ℝ) (b : Bnds) (c : Cons) (mu : ℝ)
    (h : G.Valid) (hp : PosDef G) (hg : 0 < gdet) (hgm : 1 ≤ b.gmax) (hD : 0 < c.D) (hmu : 0 < mu)
    (hroot : residual 0 eps eos b (prep val true hasYe 0 G gdet b c).aux mu = 0)
    (heos : ∀ r e ye, eos.pRT r (eos.tRE r e ye) ye = eos.pRE r e ye) (hef : ∀ r, -1 ≤ b.eFloor r)
    (heps : ∀ r e, b.rhoFloor < r → b.eFloor r < e → eps ≤ r * (1 + e)) :
    let out := unwrap val true hasYe failF failC 0 eos G gdet b c mu
    let a := (prep val true hasYe 0 G gdet b c).aux
    let x := xMu 0 a mu
    let rb := rbarsq a mu x
    let W := lorentz G.gam out.prim.v
    out.usedRhoFloor = false → out.usedEFloor = false → out.usedEMax = false → out.usedGMax = false →
    b.rhoFloor ≤ c.D / gdet ∧ out.prim.rho * W = c.D / gdet ∧ 0 < out.prim.rho ∧ 1 - 1 / W ^ 2 = mu * mu * rb ∧
      mu * ((out.prim.rho + out.prim.u + out.prim.P) * W) = out.prim.rho ∧
      qbar a mu x = mu * rb + (1 + out.prim.u / out.prim.rho) / W - 1 ∧
      out.prim.P = eos.pRE out.prim.rho (out.prim.u / out.prim.rho) out.ye ∧
      b.eFloor out.prim.rho < out.prim.u / out.prim.rho ∧ out.prim.u / out.prim.rho ≤ b.emax ∧
      (∀ i, out.prim.v i = W * mu * x * ((prep val true hasYe 0 G gdet b c).rcon i +
        mu * (prep val true hasYe 0 G gdet b c).bdotr * (prep val true hasYe 0 G gdet b c).bu i)) := by
  intro out a x rb W f1 f2 f3 f4
  have hvn := velocity_norm val hasYe failF failC eos gdet b c mu h hp hmu.le
  change G.dot3 out.prim.v out.prim.v = (1 / iWhat (vhatsq a mu rb).1) ^ 2 * (mu * mu * rb) at hvn
  have ea : a.D = c.D / gdet := by show c.D * (1 / gdet) = _; ring
  have haD : 0 < a.D := by rw [ea]; positivity
  -- velocity clamp
  change (vhatsq a mu rb).2 = false at f4
  have hvle : ¬ mu * mu * rb > a.v0sq := by
    intro hc; unfold vhatsq at f4; rw [if_pos hc] at f4; exact absurd f4 (by simp)
  have hvs : vhatsq a mu rb = (mu * mu * rb, false) := by unfold vhatsq; rw [if_neg hvle]
  have hrs : 0 ≤ a.rsq := by
    have := prep_scalars val true hasYe 0 h hp gdet b c
    exact (this hgm).rsq_nonneg
  have hv1 : mu * mu * rb < 1 := by
    have h1 : a.v0sq ≤ a.rsq / 1 / (1 + a.rsq / 1) := min_le_left _ _
    rw [div_one] at h1
    have h2 : a.rsq / (1 + a.rsq) < 1 := by rw [div_lt_one (by linarith)]; linarith
    push Not at hvle
    linarith
  have hi : 0 < iWhat (mu * mu * rb) := Real.sqrt_pos.2 (by linarith)
  have hisq : iWhat (mu * mu * rb) ^ 2 = 1 - mu * mu * rb := Real.sq_sqrt (by linarith)
  rw [hvs] at hvn
  have hWsq : W ^ 2 = (1 / iWhat (mu * mu * rb)) ^ 2 := by
    have e := lorentz_sq G hp out.prim.v
    change W ^ 2 = _ at e
    have k : (1 / iWhat (mu * mu * rb)) ^ 2 = 1 / (1 - mu * mu * rb) := by rw [div_pow, hisq, one_pow]
    rw [e, hvn]
    simp only [k]
    have hne : 1 - mu * mu * rb ≠ 0 := by intro h0; linarith
    have gen : ∀ V : ℝ, 1 - V ≠ 0 → 1 + 1 / (1 - V) * V = 1 / (1 - V) := by intro V hV; field_simp; ring
    exact gen _ hne
  have hWp : 0 < W := lorentz_pos G hp _
  have hW : W = 1 / iWhat (mu * mu * rb) := by
    rcases sq_eq_sq_iff_eq_or_eq_neg.1 hWsq with e | e
    · exact e
    · have : 0 < 1 / iWhat (mu * mu * rb) := by positivity
      linarith
  have hiW : iWhat (mu * mu * rb) = 1 / W := by rw [hW]; simp
  have hvW : 1 - 1 / W ^ 2 = mu * mu * rb := by
    have : 1 / W ^ 2 = 1 - mu * mu * rb := by rw [← hisq, hiW]; field_simp
    linarith
  -- density floor
  change (rhohat b a (iWhat (vhatsq a mu rb).1)).2 = false at f1
  rw [hvs] at f1
  simp only [hiW] at f1
  have hrgt : ¬ a.D * (1 / W) ≤ b.rhoFloor := by
    intro hc; unfold rhohat at f1; rw [if_pos hc] at f1; exact absurd f1 (by simp)
  have hrh : rhohat b a (1 / W) = (a.D * (1 / W), false) := by unfold rhohat; rw [if_neg hrgt]
  have hrho : out.prim.rho = a.D / W := by
    show (rhohat b a (iWhat (vhatsq a mu rb).1)).1 = _
    rw [hvs]; simp only [hiW, hrh]; ring
  have hrpos : 0 < out.prim.rho := by rw [hrho]; positivity
  have hW1 : 1 ≤ W := lorentz_ge_one G hp _
  -- energy
  set et := W * (qbar a mu x - mu * rb) + mu * mu * rb * W * (W / (1 + W)) with het
  have hehat : ehat 0 b a mu (qbar a mu x) rb (mu * mu * rb) W =
      if et ≤ b.eFloor (a.D * (1 / W)) then (b.eFloor (a.D * (1 / W)), true, false) else
        if et > b.emax then (b.emax, false, true) else (et, false, false) := by
    unfold ehat
    simp only [ratio_zero, hrh, ← het]
  have h11 : 1 / (1 / W) = W := by simp
  change (ehat 0 b a mu (qbar a mu x) rb (vhatsq a mu rb).1 (1 / iWhat (vhatsq a mu rb).1)).2.1 = false at f2
  change (ehat 0 b a mu (qbar a mu x) rb (vhatsq a mu rb).1 (1 / iWhat (vhatsq a mu rb).1)).2.2 = false at f3
  rw [hvs] at f2 f3
  simp only [hiW, h11] at f2 f3
  rw [hehat] at f2 f3
  have g1 : ¬ et ≤ b.eFloor (a.D * (1 / W)) := by
    intro hc; rw [if_pos hc] at f2; exact absurd f2 (by simp)
  have g2 : ¬ et > b.emax := by
    intro hc; rw [if_neg g1, if_pos hc] at f3; exact absurd f3 (by simp)
  rw [if_neg g1, if_neg g2] at hehat
  have hu : out.prim.u / out.prim.rho = et := by
    have hu1 : out.prim.u = et * out.prim.rho := by
      show (ehat 0 b a mu (qbar a mu x) rb (vhatsq a mu rb).1 (1 / iWhat (vhatsq a mu rb).1)).1 * out.prim.rho = _
      rw [hvs]; simp only [hiW, h11, hehat]
    rw [hu1]; field_simp
  have hP : out.prim.P = eos.pRE out.prim.rho et out.ye := by
    show eos.pRT (rhohat b a (iWhat (vhatsq a mu rb).1)).1 (eos.tRE (rhohat b a (iWhat (vhatsq a mu rb).1)).1
      (ehat 0 b a mu (qbar a mu x) rb (vhatsq a mu rb).1 (1 / iWhat (vhatsq a mu rb).1)).1 a.ye) a.ye = _
    rw [heos, hrho, hvs]; simp only [hiW, h11, hehat, hrh]
    show eos.pRE (a.D * (1 / W)) et a.ye = eos.pRE (a.D / W) et a.ye
    rw [mul_one_div]
  have hrr' : a.D * (1 / W) = out.prim.rho := by rw [hrho, mul_one_div]
  have hqb : qbar a mu x = mu * rb + (1 + et) / W - 1 := by
    rw [het]
    have h1W : 1 + W ≠ 0 := by positivity
    have e2 : mu * mu * rb * W * (W / (1 + W)) = W - 1 := by
      rw [← hvW]; field_simp; ring
    rw [e2]; field_simp; ring
  -- the root
  have hpos : 0 < out.prim.rho * (1 + et) := by
    have := hef (a.D * (1 / W))
    push Not at g1
    have : 0 < 1 + et := by linarith
    positivity
  have hep : eps ≤ out.prim.rho * (1 + et) := by
    rw [← hrr']
    exact heps _ _ (not_le.1 hrgt) (not_le.1 g1)
  have hmain : mu * ((out.prim.rho + out.prim.u + out.prim.P) * W) = out.prim.rho := by
    have hr0 := hroot
    change residual 0 eps eos b a mu = 0 at hr0
    unfold residual at hr0
    change mu - 1 / (max ((1 + eos.pRE _ _ a.ye / makePositive eps _) * _ * _) _ + _) = 0 at hr0
    simp only [show xMu 0 a mu = x from rfl, show rbarsq a mu x = rb from rfl, hvs, hiW, ratio_zero, h11, hehat, hrh] at hr0
    rw [hrr'] at hr0
    have hPy : eos.pRE out.prim.rho et a.ye = out.prim.P := hP.symm
    rw [hPy] at hr0
    have hmp : makePositive eps (out.prim.rho * (1 + et) + out.prim.P - out.prim.P) = out.prim.rho * (1 + et) := by
      unfold makePositive
      rw [add_sub_cancel_right, max_eq_left hep]
    rw [hmp, hqb] at hr0
    have hne : 1 + et ≠ 0 := by
      intro h0; rw [h0, mul_zero] at hpos; exact absurd hpos (lt_irrefl _)
    have same : (1 + out.prim.P / (out.prim.rho * (1 + et))) * (1 + et) * (1 / W) =
        (1 + out.prim.P / (out.prim.rho * (1 + et))) * (1 + (mu * rb + (1 + et) / W - 1) - mu * rb) := by ring
    rw [← same, max_self] at hr0
    have e1 : mu * ((1 + out.prim.P / (out.prim.rho * (1 + et))) * (1 + et) * (1 / W) + mu * rb) = 1 := by
      have h1 : mu = 1 / ((1 + out.prim.P / (out.prim.rho * (1 + et))) * (1 + et) * (1 / W) + mu * rb) := by linarith
      have h2 : (1 + out.prim.P / (out.prim.rho * (1 + et))) * (1 + et) * (1 / W) + mu * rb ≠ 0 := by
        intro h0; rw [h0] at h1; simp at h1; exact absurd h1 hmu.ne'
      rw [eq_div_iff h2] at h1
      exact h1
    have e2 : mu * ((1 + out.prim.P / (out.prim.rho * (1 + et))) * (1 + et) * (1 / W)) = 1 / W ^ 2 := by
      have : mu * (mu * rb) = 1 - 1 / W ^ 2 := by rw [hvW]; ring
      rw [mul_add, this] at e1; linarith
    have e3 : (1 + out.prim.P / (out.prim.rho * (1 + et))) * (1 + et) * (1 / W) =
        (out.prim.rho + out.prim.u + out.prim.P) / (out.prim.rho * W) := by
      have hu2 : out.prim.u = et * out.prim.rho := by rw [← hu]; field_simp
      rw [hu2]; field_simp
    rw [e3] at e2
    field_simp at e2
    linarith
  refine ⟨?_, ?_, hrpos, hvW, hmain, by rw [hu]; exact hqb, by rw [hu]; exact hP, ?_, ?_, ?_⟩
  · push Not at hrgt
    rw [← ea]
    have : a.D * (1 / W) ≤ a.D := by
      rw [mul_one_div, div_le_iff₀ hWp]; nlinarith
    linarith
  · rw [hrho, ea]; field_simp
  · rw [hu, ← hrr']; exact not_le.1 g1
  · rw [hu]; exact not_lt.1 g2
  · intro i
    show 1 / iWhat (vhatsq a mu rb).1 * mu * x * _ = _
    rw [hvs]; simp only [hiW, h11]

/-- C137. Soundness of the inversion: for every conserved state with positive density, every geometry and both energy formulations, if the value
handed to the unwrapping is a root of the residual and no bound was used, the returned primitive state has exactly the given conserved
variables. -/
theorem root_reproduces (val hasYe failF failC : Bool) (eps : ℝ) (eos : Eos) (gdet : ℝ) (b : Bnds) (c : Cons) (mu : ℝ)
    (h : G.Valid) (ha : 0 < G.alpha) (hp : PosDef G) (hg : 0 < gdet) (hgm : 1 ≤ b.gmax) (hD : 0 < c.D) (hmu : 0 < mu)
    (hroot : residual 0 eps eos b (prep val true hasYe 0 G gdet b c).aux mu = 0)
    (heos : ∀ r e ye, eos.pRT r (eos.tRE r e ye) ye = eos.pRE r e ye) (hef : ∀ r, -1 ≤ b.eFloor r)
    (heps : ∀ r e, b.rhoFloor < r → b.eFloor r < e → eps ≤ r * (1 + e))
    (out : Out) (hout : out = unwrap val true hasYe failF failC 0 eos G gdet b c mu)
    (f1 : out.usedRhoFloor = false) (f2 : out.usedEFloor = false) (f3 : out.usedEMax = false) (f4 : out.usedGMax = false) :
    let c' := p2c val G gdet out.ye out.prim
    c'.D = c.D ∧ c'.S = c.S ∧ c'.B = c.B ∧ c'.tau = c.tau ∧ (hasYe = true → c'.ye = c.ye) := by
  subst hout
  set out := unwrap val true hasYe failF failC 0 eos G gdet b c mu with hout
  intro c'
  obtain ⟨hfl, hrW, hrpos, hvW, hmain, hqb, hP, -, -, hvel⟩ :=
    root_form val hasYe failF failC eps eos gdet b c mu h hp hg hgm hD hmu hroot heos hef heps f1 f2 f3 f4
  rw [← hout] at hrW hrpos hvW hmain hqb hP hvel
  obtain ⟨eD, hDp, hq, hlow, hrr, hbr, hbb, hrb, hbrp, hBc, hBb, hbnn, hrnn, -, hye⟩ :=
    prep_vectors val hasYe gdet b c h hp hg hD hfl
  set p := prep val true hasYe 0 G gdet b c with hpdef
  set a := p.aux with hadef
  set x := xMu 0 a mu with hx
  set rb := rbarsq a mu x with hrbd
  set W := lorentz G.gam out.prim.v with hWd
  have hWp : 0 < W := lorentz_pos G hp _
  have hxv : x * (1 + mu * a.bsq) = 1 := by
    have : 0 ≤ mu * a.bsq := mul_nonneg hmu.le hbnn
    rw [hx, xMu, ratio_zero]; field_simp
  have hDr : out.prim.rho = a.D / W := by rw [eD, ← hrW]; field_simp
  have hZ : (out.prim.rho + out.prim.u + out.prim.P) * W ^ 2 = a.D / mu := by
    rw [eq_div_iff hmu.ne']
    calc _ = mu * ((out.prim.rho + out.prim.u + out.prim.P) * W) * W := by ring
      _ = a.D := by rw [hmain, hDr]; field_simp
  have hsq : Real.sqrt a.D ^ 2 = a.D := Real.sq_sqrt hDp.le
  have hB : out.prim.B = fun i => Real.sqrt a.D * p.bu i + 0 * p.bu i := by
    funext i
    show p.Bp i = _
    rw [hBb]; ring
  have hv : out.prim.v = fun i => (W * mu * x) * p.rcon i + (W * mu * x * mu * p.bdotr) * p.bu i := by
    funext i; rw [hvel]; ring
  have hBB : G.dot3 out.prim.B out.prim.B = a.D * a.bsq := by
    rw [hB, dot3_add_left, dot3_add_right, hbb]; linear_combination a.bsq * hsq
  have hBv : G.dot3 out.prim.B out.prim.v / W = Real.sqrt a.D * mu * p.bdotr := by
    rw [hB, dot3_add_left, hv, dot3_add_right, hbr, hbb]
    rw [div_eq_iff hWp.ne']
    linear_combination (Real.sqrt a.D * W * mu * p.bdotr) * hxv
  have cD : c'.D = c.D := by
    show gdet * out.prim.rho * W = c.D
    rw [mul_assoc, hrW]; field_simp
  have cS : c'.S = c.S := by
    funext m
    show (p2c val G gdet out.ye out.prim).S m = c.S m
    rw [p2c_S val gdet out.ye out.prim h ha hp m]
    rw [← hWd, hBB, hBv, hZ]
    have e : ∀ n, (a.D / mu + a.D * a.bsq) * (out.prim.v n / W) - Real.sqrt a.D * mu * p.bdotr * out.prim.B n =
        a.D * p.rcon n := by
      intro n
      have eB : out.prim.B n = Real.sqrt a.D * p.bu n := by rw [hB]; ring
      rw [hvel n, eB]
      have e1 : (a.D / mu + a.D * a.bsq) * (W * mu * x * (p.rcon n + mu * p.bdotr * p.bu n) / W) =
          a.D * (x * (1 + mu * a.bsq)) * (p.rcon n + mu * p.bdotr * p.bu n) := by field_simp
      rw [e1, hxv]
      linear_combination (-(mu * p.bdotr * p.bu n)) * hsq
    simp only [e]
    have e2 : ∑ n, G.gam m n * (a.D * p.rcon n) = a.D * ∑ n, G.gam m n * p.rcon n := by
      rw [mul_sum]; exact sum_congr rfl fun n _ => by ring
    rw [e2, hlow, eD]; field_simp
  have cB : c'.B = c.B := by
    funext i
    show gdet * out.prim.B i = c.B i
    have : out.prim.B i = c.B i / gdet := hBc i
    rw [this]; field_simp
  refine ⟨cD, cS, cB, ?_, ?_⟩
  · apply tau_of_tauOf val G gdet c' c ha.ne' hg.ne' cD cS
    show tauOf val G gdet (p2c val G gdet out.ye out.prim) = _
    rw [tauOf_p2c val gdet out.ye out.prim h ha hp hg.ne', ← hWd, hBB, hBv, hZ]
    have et : tauOf val G gdet c = a.D * a.q := by rw [hq]; field_simp
    have eqq : a.q = qbar a mu x + 0.5 * (a.bsq + mu * x * (mu * x) * a.bsqRpsq) := by unfold qbar; ring
    -- pressure from the enthalpy
    have eP : out.prim.P = a.D * (1 / (mu * W ^ 2) - (1 + out.prim.u / out.prim.rho) / W) := by
      have : out.prim.rho * (1 + out.prim.u / out.prim.rho) = out.prim.rho + out.prim.u := by field_simp
      have e1 : a.D * ((1 + out.prim.u / out.prim.rho) / W) = out.prim.rho + out.prim.u := by
        rw [← this, hDr]; field_simp
      have e2 : a.D * (1 / (mu * W ^ 2)) = out.prim.rho + out.prim.u + out.prim.P := by
        rw [eq_div_iff hmu.ne'] at hZ
        field_simp
        linarith
      rw [mul_sub, e1, e2]; ring
    have hbxm : a.bsq * mu * x = 1 - x := by linarith
    have hrbx : a.bsq * rb - a.rbsq = x * x * a.bsqRpsq := by
      rw [hbrp, hrbd]; unfold rbarsq
      linear_combination (a.rbsq * (1 + x)) * hbxm
    have hiWW : 1 / W ^ 2 = 1 - mu * mu * rb := by linarith
    have hP2 : out.prim.P = a.D * ((1 - mu * mu * rb) / mu - (1 + out.prim.u / out.prim.rho) / W) := by
      rw [eP, ← hiWW]; field_simp
    have hbW : a.D * a.bsq / W ^ 2 = a.D * a.bsq * (1 - mu * mu * rb) := by rw [← hiWW]; ring
    have hsq2 : (Real.sqrt a.D * mu * p.bdotr) ^ 2 = a.D * mu ^ 2 * a.rbsq := by
      rw [hrb, mul_pow, mul_pow, hsq]; ring
    have hrw2 : out.prim.rho * W = a.D := by rw [hDr]; field_simp
    rw [et, eqq, hqb, hP2, hbW, hsq2, hrw2]
    have k : (1 - mu * mu * rb) / mu = 1 / mu - mu * rb := by field_simp
    rw [k]
    linear_combination (a.D * mu ^ 2 / 2) * hrbx
  · intro hy
    show c'.D * out.ye = c.ye
    have : out.ye = c.ye / c.D := hye hy
    rw [cD, this]; field_simp

/-- The densities and energies the inverter returns when no bound is used. -/
def withinBounds (b : Bnds) (r u : ℝ) : Prop := 0 < r ∧ b.eFloor r ≤ u / r ∧ u / r ≤ b.emax

/-- The state unwrapped from a root without using a bound is a state of matter in the sense of C136. -/
theorem root_matter (val hasYe failF failC : Bool) (eps : ℝ) (eos : Eos) (gdet : ℝ) (b : Bnds) (c : Cons) (mu : ℝ)
    (h : G.Valid) (hp : PosDef G) (hg : 0 < gdet) (hgm : 1 ≤ b.gmax) (hD : 0 < c.D) (hmu : 0 < mu)
    (hroot : residual 0 eps eos b (prep val true hasYe 0 G gdet b c).aux mu = 0)
    (heos : ∀ r e ye, eos.pRT r (eos.tRE r e ye) ye = eos.pRE r e ye) (hef : ∀ r, -1 ≤ b.eFloor r)
    (heps : ∀ r e, b.rhoFloor < r → b.eFloor r < e → eps ≤ r * (1 + e))
    (out : Out) (hout : out = unwrap val true hasYe failF failC 0 eos G gdet b c mu)
    (f1 : out.usedRhoFloor = false) (f2 : out.usedEFloor = false) (f3 : out.usedEMax = false) (f4 : out.usedGMax = false) :
    Matter eos (withinBounds b) out.ye out.prim ∧
      mu = out.prim.rho / ((out.prim.rho + out.prim.u + out.prim.P) * lorentz G.gam out.prim.v) := by
  subst hout
  obtain ⟨-, -, hrpos, -, hmain, -, hP, h1, h2, -⟩ :=
    root_form val hasYe failF failC eps eos gdet b c mu h hp hg hgm hD hmu hroot heos hef heps f1 f2 f3 f4
  set out := unwrap val true hasYe failF failC 0 eos G gdet b c mu
  have hW : 0 < lorentz G.gam out.prim.v := lorentz_pos G hp _
  have hw : 0 < out.prim.rho + out.prim.u + out.prim.P := by
    by_contra hc
    push Not at hc
    have : mu * ((out.prim.rho + out.prim.u + out.prim.P) * lorentz G.gam out.prim.v) ≤ 0 :=
      mul_nonpos_of_nonneg_of_nonpos hmu.le (mul_nonpos_of_nonpos_of_nonneg hc hW.le)
    linarith
  refine ⟨⟨hrpos, hw, ⟨hrpos, h1.le, h2⟩, hP⟩, ?_⟩
  rw [eq_div_iff (by positivity)]
  exact hmain

/-- C137. The inversion has one answer: for any conserved state with positive density, a causal EOS, any geometry and either energy formulation, two roots of the
residual that use no bound are the same number and give the same primitive state. -/
theorem root_unique (val hasYe failF failC : Bool) (eps : ℝ) (eos : Eos) (gdet : ℝ) (b : Bnds) (c : Cons) (mu mu' : ℝ)
    (h : G.Valid) (ha : 0 < G.alpha) (hp : PosDef G) (hg : 0 < gdet) (hgm : 1 ≤ b.gmax) (hD : 0 < c.D) (hmu : 0 < mu)
    (hmu' : 0 < mu')
    (hroot : residual 0 eps eos b (prep val true hasYe 0 G gdet b c).aux mu = 0)
    (hroot' : residual 0 eps eos b (prep val true hasYe 0 G gdet b c).aux mu' = 0)
    (heos : ∀ r e ye, eos.pRT r (eos.tRE r e ye) ye = eos.pRE r e ye) (hef : ∀ r, -1 ≤ b.eFloor r)
    (heps : ∀ r e, b.rhoFloor < r → b.eFloor r < e → eps ≤ r * (1 + e))
    (hc : ∀ ye, Causal eos (withinBounds b) ye)
    (out out' : Out) (hout : out = unwrap val true hasYe failF failC 0 eos G gdet b c mu)
    (hout' : out' = unwrap val true hasYe failF failC 0 eos G gdet b c mu')
    (f1 : out.usedRhoFloor = false) (f2 : out.usedEFloor = false) (f3 : out.usedEMax = false) (f4 : out.usedGMax = false)
    (f1' : out'.usedRhoFloor = false) (f2' : out'.usedEFloor = false) (f3' : out'.usedEMax = false)
    (f4' : out'.usedGMax = false) : mu = mu' ∧ out = out' := by
  obtain ⟨m, e⟩ := root_matter val hasYe failF failC eps eos gdet b c mu h hp hg hgm hD hmu hroot heos hef heps out hout f1 f2 f3 f4
  obtain ⟨m', e'⟩ :=
    root_matter val hasYe failF failC eps eos gdet b c mu' h hp hg hgm hD hmu' hroot' heos hef heps out' hout' f1' f2' f3' f4'
  obtain ⟨cD, cS, cB, ct, -⟩ :=
    root_reproduces val hasYe failF failC eps eos gdet b c mu h ha hp hg hgm hD hmu hroot heos hef heps out hout f1 f2 f3 f4
  obtain ⟨cD', cS', cB', ct', -⟩ :=
    root_reproduces val hasYe failF failC eps eos gdet b c mu' h ha hp hg hgm hD hmu' hroot' heos hef heps out' hout' f1' f2' f3' f4'
  have hy : out.ye = out'.ye := by rw [hout, hout']; rfl
  have hcc : p2c val G gdet out.ye out.prim = p2c val G gdet out'.ye out'.prim := by
    have hyy : (p2c val G gdet out.ye out.prim).ye = (p2c val G gdet out'.ye out'.prim).ye := by
      show (p2c val G gdet out.ye out.prim).D * out.ye = (p2c val G gdet out'.ye out'.prim).D * out'.ye
      rw [cD, cD', hy]
    generalize p2c val G gdet out.ye out.prim = k at *
    generalize p2c val G gdet out'.ye out'.prim = k' at *
    cases k; cases k'
    simp only [Cons.mk.injEq] at *
    exact ⟨cD.trans cD'.symm, cS.trans cS'.symm, cB.trans cB'.symm, ct.trans ct'.symm, hyy⟩
  obtain ⟨hq, -⟩ := p2c_injective val eos (withinBounds b) gdet out.ye out'.ye out.prim out'.prim h ha hp hg (hc _) m m' hcc
  have hmm : mu = mu' := by rw [e, e', hq]
  exact ⟨hmm, by rw [hout, hout', hmm]⟩

/-- C137. The inversion finds the state: if the conserved variables are those of a state of matter inside the bounds, then every root of the residual
that uses no bound unwraps to exactly that state, and equals `1/(h W)`. -/
theorem root_is_state (val hasYe failF failC : Bool) (eps : ℝ) (eos : Eos) (gdet ye : ℝ) (b : Bnds) (q : Prim) (mu : ℝ)
    (h : G.Valid) (ha : 0 < G.alpha) (hp : PosDef G) (hg : 0 < gdet) (hgm : 1 ≤ b.gmax) (hmu : 0 < mu)
    (hye : hasYe = false → ye = 0.5) (hq : Matter eos (withinBounds b) ye q)
    (hroot : residual 0 eps eos b (prep val true hasYe 0 G gdet b (p2c val G gdet ye q)).aux mu = 0)
    (heos : ∀ r e ye, eos.pRT r (eos.tRE r e ye) ye = eos.pRE r e ye) (hef : ∀ r, -1 ≤ b.eFloor r)
    (heps : ∀ r e, b.rhoFloor < r → b.eFloor r < e → eps ≤ r * (1 + e))
    (hc : Causal eos (withinBounds b) ye)
    (out : Out) (hout : out = unwrap val true hasYe failF failC 0 eos G gdet b (p2c val G gdet ye q) mu)
    (f1 : out.usedRhoFloor = false) (f2 : out.usedEFloor = false) (f3 : out.usedEMax = false) (f4 : out.usedGMax = false) :
    out.prim = q ∧ out.ye = ye ∧ mu = q.rho / ((q.rho + q.u + q.P) * lorentz G.gam q.v) := by
  have hD : 0 < (p2c val G gdet ye q).D := mul_pos (mul_pos hg hq.rho_pos) (lorentz_pos G hp _)
  obtain ⟨m, e⟩ := root_matter val hasYe failF failC eps eos gdet b _ mu h hp hg hgm hD hmu hroot heos hef heps out hout f1 f2 f3 f4
  obtain ⟨cD, cS, cB, ct, cy⟩ :=
    root_reproduces val hasYe failF failC eps eos gdet b _ mu h ha hp hg hgm hD hmu hroot heos hef heps out hout f1 f2 f3 f4
  have hyy : (p2c val G gdet out.ye out.prim).ye = (p2c val G gdet ye q).ye := by
    cases hasYe with
    | true => exact cy rfl
    | false =>
      show (p2c val G gdet out.ye out.prim).D * out.ye = (p2c val G gdet ye q).D * ye
      have : out.ye = 0.5 := by rw [hout]; rfl
      rw [cD, this, hye rfl]
  have hcc : p2c val G gdet ye q = p2c val G gdet out.ye out.prim := by
    generalize p2c val G gdet out.ye out.prim = k at *
    generalize p2c val G gdet ye q = k' at *
    cases k; cases k'
    simp only [Cons.mk.injEq] at *
    exact ⟨cD.symm, cS.symm, cB.symm, ct.symm, hyy.symm⟩
  obtain ⟨hqq, hyq⟩ := p2c_injective val eos (withinBounds b) gdet ye out.ye q out.prim h ha hp hg hc hq m hcc
  exact ⟨hqq.symm, hyq.symm, by rw [e, hqq]⟩

/-- The hypotheses of `root_is_state`, `root_reproduces` and `root_unique` are met by a hot, magnetised, moving state in a curved geometry, in both
formulations. -/
theorem ex_root (val : Bool) (eps : ℝ) (hε : eps ≤ 1 / 100) : ∃ mu, 0 < mu ∧ mu ≤ 1 ∧
    residual 0 eps gas exB (prep val true true 0 exG 1 exB (p2c val exG 1 (1 / 4) exQ)).aux mu = 0 ∧
    Matter gas (withinBounds exB) (1 / 4) exQ ∧ (∀ ye, Causal gas (withinBounds exB) ye) ∧
    (∀ r e ye, gas.pRT r (gas.tRE r e ye) ye = gas.pRE r e ye) ∧ (∀ r, -1 ≤ exB.eFloor r) ∧ (∀ r e, exB.rhoFloor < r → exB.eFloor r < e → eps ≤ r * (1 + e)) ∧ 1 ≤ exB.gmax ∧
    ∀ out, out = unwrap val true true false false 0 gas exG 1 exB (p2c val exG 1 (1 / 4) exQ) mu →
      out.usedRhoFloor = false ∧ out.usedEFloor = false ∧ out.usedEMax = false ∧ out.usedGMax = false := by
  obtain ⟨hA, hG, hp⟩ := exQ_admissible
  obtain ⟨h0, h1, hr, -, -, -, hg, he, hf⟩ := c2p_recovers_state val true false false eps gas exB 1 (1 / 4) exQ hG
    (by norm_num [exG]) hp one_pos (by simp) hA (by norm_num [exQ]; linarith)
  obtain ⟨f1, f2, -⟩ := hf (by norm_num [exB, exQ]) (by norm_num [exB, exQ])
  refine ⟨_, h0, h1, hr, ⟨by norm_num [exQ], by norm_num [exQ], ⟨by norm_num [exQ], by norm_num [exQ, exB], by norm_num [exQ, exB]⟩,
    by norm_num [exQ, gas]⟩, ?_, fun _ _ _ => rfl, by intro r; norm_num [exB], ?_, by norm_num [exB], ?_⟩
  · intro ye
    exact ideal_causal gas (5 / 3) (by norm_num) (by norm_num) _ (fun r e => by norm_num [gas]) _ (fun r u h => h.1)
  · intro r e hr he
    simp only [exB] at hr he
    nlinarith
  · rintro out rfl
    exact ⟨f1, f2, he, hg⟩

/-- state of the witness: a hot gas moving with Lorentz factor 5/4. -/
noncomputable def thinQ : Prim := ⟨1, 3, 2, ![3 / 4, 0, 0], fun _ => 0⟩

theorem thinQ_admissible : Admissible gas exB flat (1 / 4) thinQ ∧ lorentz flat.gam thinQ.v = 5 / 4 := by
  have hl : lorentz flat.gam thinQ.v = 5 / 4 := by
    have h1 := lorentz_sq flat flat_valid.2 thinQ.v
    have h0 := lorentz_pos flat flat_valid.2 thinQ.v
    have e : flat.dot3 thinQ.v thinQ.v = 9 / 16 := by simp [ADM.dot3, flat, Fin.sum_univ_three, thinQ]; norm_num
    rw [e] at h1
    nlinarith
  refine ⟨⟨?_, ?_, ?_, ?_, ?_, ?_, ?_, ?_, ?_⟩, hl⟩
  all_goals try rw [hl]
  all_goals norm_num [thinQ, exB, gas]

/-- C61 and C137 fail below the regulariser `EPS()` of `make_positive`: if the energy density of the state (here 4) is below `eps` (here 8), the state is
inside floors and ceilings, yet no root of the residual unwraps to it.  (`EPS()` is a fixed number, about `2e-15`, so this depends on the unit of density.) -/
theorem regulariser_matters :
    let c := p2c true flat 1 (1 / 4) thinQ
    ∀ mu, residual 0 8 gas exB (prep true true true 0 flat 1 exB c).aux mu = 0 →
      (unwrap true true true false false 0 gas flat 1 exB c mu).prim ≠ thinQ := by
  intro c mu hroot hprim
  obtain ⟨hA, hl⟩ := thinQ_admissible
  have hcD : c.D = 5 / 4 := by
    show 1 * thinQ.rho * lorentz flat.gam thinQ.v = _
    rw [hl]; norm_num [thinQ]
  have hcS : c.S = ![45 / 8, 0, 0] := by
    funext m
    rw [p2c_S true 1 _ _ flat_valid.1 (by norm_num [flat]) flat_valid.2, hl]
    fin_cases m <;> simp [flat, thinQ, ADM.dot3]
    norm_num
  have hcT : c.tau = 49 / 8 := by
    have e : tauOf true flat 1 c = c.tau := by simp [tauOf]
    have hT := tauOf_p2c true 1 (1 / 4) thinQ flat_valid.1 (by norm_num [flat]) flat_valid.2 one_ne_zero
    rw [← e, hT, hl]
    simp [thinQ, ADM.dot3]
    norm_num
  have hcB : c.B = fun _ => 0 := by funext i; simp [c, p2c, thinQ]
  have hcy : c.ye = 5 / 16 := by
    show c.D * (1 / 4) = _
    rw [hcD]; norm_num
  have haux : (prep true true true 0 flat 1 exB c).aux = ⟨5 / 4, 49 / 10, 0, 0, 81 / 4, 0, 81 / 85, 1 / 4⟩ := by
    simp only [prep, tauOf, hcD, hcS, hcT, hcB, hcy, exB, flat, ratio_zero, Fin.sum_univ_three]
    simp
    norm_num
  have hrc : (prep true true true 0 flat 1 exB c).rcon 0 = 9 / 2 ∧ (prep true true true 0 flat 1 exB c).bu 0 = 0 := by
    constructor
    · simp [prep, hcD, hcS, flat, ratio_zero, Fin.sum_univ_three]; norm_num
    · simp [prep, hcB]
  set a : Aux := ⟨5 / 4, 49 / 10, 0, 0, 81 / 4, 0, 81 / 85, 1 / 4⟩ with ha
  have hx : xMu 0 a mu = 1 := by simp [xMu, ratio_zero, ha]
  have hrb : rbarsq a mu 1 = 81 / 4 := by simp [rbarsq, ha]
  set iW := iWhat (vhatsq a mu (81 / 4)).1 with hiW
  have hr : (rhohat exB a iW).1 = 1 := by
    have := congrArg Prim.rho hprim
    change (rhohat exB (prep true true true 0 flat 1 exB c).aux (iWhat (vhatsq (prep true true true 0 flat 1 exB c).aux mu _).1)).1 = 1 at this
    rw [haux, hx, hrb] at this
    exact this
  have hiW2 : iW = 4 / 5 := by
    unfold rhohat at hr
    split_ifs at hr with h1
    · norm_num [exB] at hr
    · simp only [ha] at hr; linarith
  have hv : 5 / 4 * mu * (9 / 2) = 3 / 4 := by
    have := congrFun (congrArg Prim.v hprim) 0
    change 1 / iWhat (vhatsq (prep true true true 0 flat 1 exB c).aux mu _).1 * mu * xMu 0 (prep true true true 0 flat 1 exB c).aux mu *
      ((prep true true true 0 flat 1 exB c).rcon 0 + mu * _ * (prep true true true 0 flat 1 exB c).bu 0) = 3 / 4 at this
    rw [haux, hx, hrb, hrc.1, hrc.2, ← hiW, hiW2] at this
    linarith
  have hmu : mu = 2 / 15 := by linarith
  subst hmu
  rw [haux] at hroot
  unfold residual at hroot
  have hqb : qbar a (2 / 15) 1 = 49 / 10 := by simp [qbar, ha]
  have hvs : (vhatsq a (2 / 15) (81 / 4)).1 = 9 / 25 := by norm_num [vhatsq, ha]
  have hi : iWhat (9 / 25) = 4 / 5 := by rw [← hvs, ← hiW, hiW2]
  have hrh : (rhohat exB a (4 / 5)).1 = 1 := by norm_num [rhohat, exB, ha]
  have heh : (ehat 0 exB a (2 / 15) (49 / 10) (81 / 4) (9 / 25) (5 / 4)).1 = 3 := by
    norm_num [ehat, rhohat, exB, ha, ratio_zero]
  simp only [hx, hrb, hqb, hvs, hi, ratio_zero, hrh, show (1:ℝ) / (4 / 5) = 5 / 4 by norm_num, heh] at hroot
  norm_num [gas, makePositive] at hroot

end Phoebus.C2P
