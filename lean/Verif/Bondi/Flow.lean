import Verif.Bondi.Bisect
import Mathlib.Analysis.Calculus.Deriv.MeanValue
import Mathlib.Analysis.Convex.SpecificFunctions.Basic

/-! # C89: the spherical accretion solution -/
namespace Phoebus.Bondi
open Real

/-- specific enthalpy of the gas, `1 + (u + P)/rho` with `P = rho T`, `u = n rho T`. -/
noncomputable def enthalpy (n T : ℝ) : ℝ := 1 + (n * T + T)

/-- squared sound speed `gamma P / (rho h)` with `gamma = 1 + 1/n`. -/
noncomputable def cs2 (n T : ℝ) : ℝ := (1 + 1 / n) * T / enthalpy n T

/-- squared speed measured by a static observer: `u^r` over `sqrt(1 - 2/r + u^r^2)`. -/
noncomputable def flow2 (n C1 r T : ℝ) : ℝ := uconR n C1 r T ^ 2 / (1 - 2 / r + uconR n C1 r T ^ 2)

variable {n rs r T C1 C2 : ℝ}

/-- the sonic radius lies where the critical temperature is positive and finite. -/
structure Ok (n rs : ℝ) : Prop where
  n0 : 0 < n
  rs0 : 0 < rs
  big : (3 + n) / 2 < rs

theorem Ok.q (h : Ok n rs) : 0 < 1 - (3 + n) * (1 / (2 * rs)) := by
  have := h.rs0; have := h.big
  have : (3 + n) * (1 / (2 * rs)) < 1 := by rw [mul_one_div, div_lt_one (by positivity)]; linarith
  linarith

theorem uc_sq (h0 : 0 < rs) : ucOf rs ^ 2 = 1 / (2 * rs) := Real.sq_sqrt (by positivity)

theorem uc_pos (h0 : 0 < rs) : 0 < ucOf rs := Real.sqrt_pos.2 (by positivity)

theorem Vc_sq (h : Ok n rs) : VcOf rs ^ 2 = 1 / (2 * rs) / (1 - 3 * (1 / (2 * rs))) := by
  have h1 := h.q; have h0 := h.rs0; have hn := h.n0
  have hq : 0 < 1 / (2 * rs) := by positivity
  have h3 : 0 < 1 - 3 * (1 / (2 * rs)) := by nlinarith
  unfold VcOf
  rw [neg_sq, Real.sq_sqrt (by rw [uc_sq h0]; positivity), uc_sq h0]

/-- closed form of the critical temperature. -/
theorem Tc_eq (h : Ok n rs) :
    (1 + n) * TcOf n rs = n * (1 / (2 * rs)) / (1 - (3 + n) * (1 / (2 * rs))) := by
  have h1 := h.q; have h0 := h.rs0; have hn := h.n0
  have hq : 0 < 1 / (2 * rs) := by positivity
  have h3 : 0 < 1 - 3 * (1 / (2 * rs)) := by nlinarith
  unfold TcOf
  rw [Vc_sq h]
  generalize 1 / (2 * rs) = q at *
  have e : n * (q / (1 - 3 * q)) - 1 = -((1 - (3 + n) * q) / (1 - 3 * q)) := by
    rw [eq_neg_iff_add_eq_zero, mul_div_assoc', sub_add_eq_add_sub, ← add_div, div_sub_one h3.ne']
    rw [div_eq_zero_iff]; left; ring
  rw [e]
  have : n + 1 ≠ 0 := by positivity
  obtain ⟨a, ha⟩ : ∃ a, a = 1 - (3 + n) * q := ⟨_, rfl⟩
  obtain ⟨b, hb⟩ : ∃ b, b = 1 - 3 * q := ⟨_, rfl⟩
  have ha0 : a ≠ 0 := by rw [ha]; exact h1.ne'
  have hb0 : b ≠ 0 := by rw [hb]; exact h3.ne'
  rw [← ha, ← hb]
  field_simp
  ring

theorem Tc_pos (h : Ok n rs) : 0 < TcOf n rs := by
  have h1 := h.q; have h0 := h.rs0; have hn := h.n0
  have h2 : 0 < (1 + n) * TcOf n rs := by rw [Tc_eq h]; positivity
  by_contra h3
  nlinarith [not_lt.1 h3]

theorem C1_pos (h : Ok n rs) : 0 < C1Of n rs := by
  have := uc_pos h.rs0; have := Real.rpow_pos_of_pos (Tc_pos h) n; have := h.rs0
  unfold C1Of; positivity

theorem C2_eq (h : Ok n rs) : C2Of n rs = (1 + (1 + n) * TcOf n rs) ^ 2 * (1 - 3 * (1 / (2 * rs))) := by
  have h0 := h.rs0
  have hT := Real.rpow_pos_of_pos (Tc_pos h) n
  unfold C2Of C1Of
  rw [mul_comm 2 n, Real.rpow_mul (Tc_pos h).le, Real.rpow_two]
  congr 1
  rw [mul_pow, mul_pow, uc_sq h0]
  field_simp
  ring

/-- **C89** Mass accretion rate: with the stored density and radial velocity, `4 pi r^2 rho u^r` is the same at every
radius, for every temperature profile. -/
theorem bondi_mass_flux (gam : ℝ) (hr : 0 < r) (hT : 0 < T) :
    r ^ 2 * (gasState n gam T).1 * uconR n C1 r T = -C1 := by
  have := Real.rpow_pos_of_pos hT n
  simp only [gasState, uconR]; field_simp

/-- **C89** The stored gas has temperature `P/rho = T`, internal energy `n rho T` and the enthalpy used by the solver. -/
theorem bondi_gas {gam : ℝ} (hg : 1 < gam) (hn : n = 1 / (gam - 1)) (hT : 0 < T) :
    let q := gasState n gam T
    0 < q.1 ∧ 0 < q.2 ∧ (gam - 1) * q.2 / q.1 = T ∧ 1 + (q.2 + (gam - 1) * q.2) / q.1 = enthalpy n T ∧
      gam * ((gam - 1) * q.2) / (q.1 * enthalpy n T) = cs2 n T := by
  intro q
  have h1 := Real.rpow_pos_of_pos hT n
  have h2 : 0 < gam - 1 := by linarith
  have e1 : q.1 = T ^ n := rfl
  have e2 : q.2 = T ^ n * T / (gam - 1) := rfl
  have hgn : 1 + 1 / n = gam := by rw [hn]; field_simp; ring
  have hE : 0 < enthalpy n T := by
    unfold enthalpy
    have : 0 < n := by rw [hn]; positivity
    positivity
  refine ⟨by rw [e1]; positivity, by rw [e2]; positivity, by rw [e1, e2]; field_simp, ?_, ?_⟩
  · rw [e1, e2]; unfold enthalpy; rw [hn]; field_simp
  · unfold cs2; rw [hgn, e1, e2]; field_simp

/-- the residual is the Bernoulli function: `h^2 (1 - 2/r + (u^r)^2) - C2`. -/
theorem Tfunc_eq : Tfunc n C1 C2 r T = enthalpy n T ^ 2 * (1 - 2 / r + uconR n C1 r T ^ 2) - C2 := by
  unfold Tfunc enthalpy uconR
  have e : -C1 / (T ^ n * r ^ 2) = -(C1 / (r * r * T ^ n)) := by
    rw [neg_div]; congr 2; ring
  rw [e, neg_sq]; ring

/-- **C89** The sonic point belongs to the solution: at `rs` the critical temperature solves the equation and the flow
moves inward with exactly the local sound speed. -/
theorem bondi_sonic (h : Ok n rs) :
    Tfunc n (C1Of n rs) (C2Of n rs) rs (TcOf n rs) = 0 ∧ uconR n (C1Of n rs) rs (TcOf n rs) = -ucOf rs ∧
      flow2 n (C1Of n rs) rs (TcOf n rs) = cs2 n (TcOf n rs) := by
  have h0 := h.rs0
  have hn := h.n0
  have hT := Real.rpow_pos_of_pos (Tc_pos h) n
  have hu : uconR n (C1Of n rs) rs (TcOf n rs) = -ucOf rs := by
    unfold uconR C1Of; field_simp
  have hq : 0 < 1 / (2 * rs) := by positivity
  have hA := h.q
  refine ⟨?_, hu, ?_⟩
  · rw [Tfunc_eq, hu, neg_sq, uc_sq h0, C2_eq h]
    have : enthalpy n (TcOf n rs) = 1 + (1 + n) * TcOf n rs := by unfold enthalpy; ring
    rw [this]
    have : 2 / rs = 4 * (1 / (2 * rs)) := by field_simp; norm_num
    rw [this]; ring
  · unfold flow2 cs2
    rw [hu, neg_sq, uc_sq h0]
    have e1 : (1 + 1 / n) * TcOf n rs = (1 + n) * TcOf n rs / n := by field_simp; ring
    have e2 : enthalpy n (TcOf n rs) = 1 + (1 + n) * TcOf n rs := by unfold enthalpy; ring
    have e3 : 2 / rs = 4 * (1 / (2 * rs)) := by field_simp; norm_num
    rw [e1, e2, e3, Tc_eq h]
    generalize 1 / (2 * rs) = q at *
    have h3 : 0 < 1 - 3 * q := by nlinarith
    have e4 : 1 + n * q / (1 - (3 + n) * q) = (1 - 3 * q) / (1 - (3 + n) * q) := by
      rw [eq_div_iff hA.ne', add_mul, div_mul_cancel₀ _ hA.ne']; ring
    have e5 : 1 - 4 * q + q = 1 - 3 * q := by ring
    rw [e4, e5]
    obtain ⟨a, ha⟩ : ∃ a, a = 1 - (3 + n) * q := ⟨_, rfl⟩
    obtain ⟨b, hb⟩ : ∃ b, b = 1 - 3 * q := ⟨_, rfl⟩
    have ha0 : a ≠ 0 := by rw [ha]; exact hA.ne'
    have hb0 : b ≠ 0 := by rw [hb]; exact h3.ne'
    rw [← ha, ← hb]
    field_simp

/-! ### Shape of the residual -/

/-- `(u^r)^2 (n/T + n^2 - 1)`, whose comparison with `(1+n)(1-2/r)` decides the sign of the slope. -/
noncomputable def slopeTerm (n C1 r T : ℝ) : ℝ := (C1 / (r * r * T ^ n)) ^ 2 * (n / T + (n ^ 2 - 1))

theorem slopeTerm_anti (hn : 1 ≤ n) (hC : 0 < C1) (hr : 0 < r) {S T : ℝ} (hS : 0 < S) (hST : S < T) :
    slopeTerm n C1 r T < slopeTerm n C1 r S := by
  have hT : 0 < T := hS.trans hST
  have h1 := Real.rpow_pos_of_pos hS n
  have h2 : S ^ n < T ^ n := Real.rpow_lt_rpow hS.le hST (by linarith)
  have h3 : C1 / (r * r * T ^ n) < C1 / (r * r * S ^ n) := by
    apply div_lt_div_of_pos_left hC (by positivity)
    exact mul_lt_mul_of_pos_left h2 (by positivity)
  have h4 : 0 < C1 / (r * r * T ^ n) := by
    have := h1.trans h2
    positivity
  have h5 : n / T < n / S := div_lt_div_of_pos_left (by linarith) hS hST
  have h6 : 0 < n / T := by positivity
  have h7 : 0 ≤ n ^ 2 - 1 := by nlinarith
  unfold slopeTerm
  apply mul_lt_mul'' _ (by linarith) (by positivity) (by positivity)
  exact pow_lt_pow_left₀ h3 h4.le (by norm_num)

theorem Tfunc_deriv (hr : 0 < r) (hT : 0 < T) :
    HasDerivAt (Tfunc n C1 C2 r)
      (2 * enthalpy n T * ((1 + n) * (1 - 2 / r) - slopeTerm n C1 r T)) T := by
  have hp := Real.rpow_pos_of_pos hT n
  have h1 : HasDerivAt (fun y : ℝ => (1 + (1 + n) * y) ^ 2) (2 * (1 + (1 + n) * T) * (1 + n)) T := by
    refine ((((hasDerivAt_id T).const_mul (1 + n)).const_add 1).pow 2).congr_deriv ?_
    simp
  have h2 : HasDerivAt (fun y : ℝ => C1 / (r * r * y ^ n)) (-(n * (C1 / (r * r * T ^ n)) / T)) T := by
    have h3 := (Real.hasDerivAt_rpow_const (x := T) (p := n) (Or.inl hT.ne')).const_mul (r * r)
    refine ((hasDerivAt_const T C1).div h3 (by positivity)).congr_deriv ?_
    rw [Real.rpow_sub_one hT.ne']
    field_simp
    ring
  have h4 := (h1.mul ((h2.pow 2).const_add (1 - 2 / r))).sub_const C2
  refine h4.congr_deriv ?_
  unfold slopeTerm enthalpy
  simp
  generalize C1 / (r * r * T ^ n) = u
  generalize 2 / r = w
  field_simp
  ring

theorem Tfunc_cont (hr : 0 < r) {s : Set ℝ} (hs : ∀ T ∈ s, 0 < T) : ContinuousOn (Tfunc n C1 C2 r) s :=
  fun T hT => (Tfunc_deriv hr (hs T hT)).continuousAt.continuousWithinAt

/-- sub/supersonic in terms of the slope. -/
theorem sonic_iff (hn : 1 ≤ n) (hr : 0 < r) (hT : 0 < T) (hC : 0 < C1) (hA : 0 ≤ 1 - 2 / r) :
    (flow2 n C1 r T < cs2 n T ↔ slopeTerm n C1 r T < (1 + n) * (1 - 2 / r)) ∧
      (cs2 n T < flow2 n C1 r T ↔ (1 + n) * (1 - 2 / r) < slopeTerm n C1 r T) := by
  have hp := Real.rpow_pos_of_pos hT n
  have eu : uconR n C1 r T ^ 2 = (C1 / (r * r * T ^ n)) ^ 2 := by
    unfold uconR; rw [show -C1 / (T ^ n * r ^ 2) = -(C1 / (r * r * T ^ n)) by rw [neg_div]; congr 2; ring, neg_sq]
  have hu : 0 < (C1 / (r * r * T ^ n)) ^ 2 := by positivity
  have hE : 0 < enthalpy n T := by unfold enthalpy; positivity
  have hE' : enthalpy n T = 1 + (n * T + T) := rfl
  have hn0 : 0 < n := by linarith
  unfold flow2 cs2 slopeTerm
  rw [eu]
  generalize (C1 / (r * r * T ^ n)) ^ 2 = U at *
  generalize 1 - 2 / r = A at *
  generalize enthalpy n T = E at *
  have hAU : 0 < A + U := by linarith
  have e : U * (n / T + (n ^ 2 - 1)) = U * (n + (n ^ 2 - 1) * T) / T := by field_simp
  have e2 : (1 + 1 / n) * T / E = (n + 1) * T / (n * E) := by field_simp
  rw [e, e2]
  constructor
  · rw [div_lt_div_iff₀ hAU (by positivity), div_lt_iff₀ hT, hE']
    constructor <;> intro h <;> nlinarith
  · rw [div_lt_div_iff₀ (by positivity) hAU, lt_div_iff₀ hT, hE']
    constructor <;> intro h <;> nlinarith

/-- right of a subsonic (or sonic) point the residual increases strictly. -/
theorem Tfunc_strictMono (hn : 1 ≤ n) (hC : 0 < C1) (hr : 0 < r) {S T : ℝ} (hS : 0 < S) (hST : S < T)
    (hsub : slopeTerm n C1 r S ≤ (1 + n) * (1 - 2 / r)) : Tfunc n C1 C2 r S < Tfunc n C1 C2 r T := by
  have := strictMonoOn_of_deriv_pos (convex_Icc S T) (f := Tfunc n C1 C2 r)
    (Tfunc_cont hr fun x hx => hS.trans_le hx.1) (fun x hx => by
      rw [interior_Icc] at hx
      have hx0 : 0 < x := hS.trans hx.1
      rw [(Tfunc_deriv hr hx0).deriv]
      have h1 := slopeTerm_anti hn hC hr hS hx.1
      have hE : 0 < enthalpy n x := by unfold enthalpy; positivity
      have : 0 < (1 + n) * (1 - 2 / r) - slopeTerm n C1 r x := by linarith
      positivity)
  exact this ⟨le_refl _, hST.le⟩ ⟨hST.le, le_refl _⟩ hST

/-- left of a supersonic (or sonic) point it decreases strictly. -/
theorem Tfunc_strictAnti (hn : 1 ≤ n) (hC : 0 < C1) (hr : 0 < r) {S T : ℝ} (hS : 0 < S) (hST : S < T)
    (hsup : (1 + n) * (1 - 2 / r) ≤ slopeTerm n C1 r T) : Tfunc n C1 C2 r T < Tfunc n C1 C2 r S := by
  have := strictAntiOn_of_deriv_neg (convex_Icc S T) (f := Tfunc n C1 C2 r)
    (Tfunc_cont hr fun x hx => hS.trans_le hx.1) (fun x hx => by
      rw [interior_Icc] at hx
      have hx0 : 0 < x := hS.trans hx.1
      rw [(Tfunc_deriv hr hx0).deriv]
      have h1 := slopeTerm_anti hn hC hr hx0 hx.2
      have hE : 0 < enthalpy n x := by unfold enthalpy; positivity
      have : (1 + n) * (1 - 2 / r) - slopeTerm n C1 r x < 0 := by linarith
      exact mul_neg_of_pos_of_neg (by positivity) this)
  exact this ⟨le_refl _, hST.le⟩ ⟨hST.le, le_refl _⟩ hST

/-- a root to the left of a point with negative residual is supersonic, one to the right is subsonic; hence each side
has at most one root. -/
theorem branch (hn : 1 ≤ n) (hC : 0 < C1) (hr : 0 < r) {R G : ℝ} (hR : 0 < R) (hG : 0 < G)
    (hroot : Tfunc n C1 C2 r R = 0) (hneg : Tfunc n C1 C2 r G < 0) :
    (R < G → (1 + n) * (1 - 2 / r) < slopeTerm n C1 r R) ∧ (G < R → slopeTerm n C1 r R < (1 + n) * (1 - 2 / r)) := by
  constructor
  · intro h
    by_contra hc
    have := Tfunc_strictMono (C2 := C2) hn hC hr hR h (not_lt.1 hc)
    linarith
  · intro h
    by_contra hc
    have := Tfunc_strictAnti (C2 := C2) hn hC hr hG h (not_lt.1 hc)
    linarith

theorem root_unique (hn : 1 ≤ n) (hC : 0 < C1) (hr : 0 < r) {R R' G : ℝ} (hR : 0 < R) (hR' : 0 < R')
    (hG : 0 < G) (hroot : Tfunc n C1 C2 r R = 0) (hroot' : Tfunc n C1 C2 r R' = 0) (hneg : Tfunc n C1 C2 r G < 0)
    (hside : R < G ∧ R' < G ∨ G < R ∧ G < R') : R = R' := by
  by_contra hne
  rcases hside with ⟨h1, h2⟩ | ⟨h1, h2⟩
  · have b1 := (branch hn hC hr hR hG hroot hneg).1 h1
    have b2 := (branch hn hC hr hR' hG hroot' hneg).1 h2
    rcases lt_or_gt_of_ne hne with h | h
    · have := Tfunc_strictAnti (C2 := C2) hn hC hr hR h b2.le; linarith
    · have := Tfunc_strictAnti (C2 := C2) hn hC hr hR' h b1.le; linarith
  · have b1 := (branch hn hC hr hR hG hroot hneg).2 h1
    have b2 := (branch hn hC hr hR' hG hroot' hneg).2 h2
    rcases lt_or_gt_of_ne hne with h | h
    · have := Tfunc_strictMono (C2 := C2) hn hC hr hR h b1.le; linarith
    · have := Tfunc_strictMono (C2 := C2) hn hC hr hR' h b2.le; linarith

end Phoebus.Bondi
