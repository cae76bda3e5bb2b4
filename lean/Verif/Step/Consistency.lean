import Verif.Step.Smooth
import Mathlib.Analysis.Calculus.Deriv.Prod

/-!
# Where the state is smooth, the program solves the GRMHD equations (C147)

A state `q` that is a differentiable function of the coordinates is sampled at the centres of cells of widths `h·w_d`, the geometry at the centres of their faces.
As `h` tends to zero, the rate of change the program computes for a cell tends to minus the divergence of the physical fluxes.
-/
namespace Phoebus.Step
open FluxSweep Geom Riemann Rel Filter Topology Set

/-! ### Specification -/

/-- coordinates. -/
abbrev Coord := Fin 3 → ℝ

/-- coordinates of the centre of cell `p`, when cell `p0` is centred at `x0` and widths are `h·w`. -/
def centre (x0 w : Coord) (p0 : Pos) (h : ℝ) (p : Pos) : Coord := x0 + h • fun e => w e * ((p e : ℝ) - p0 e)

/-- coordinates of the centre of the lower face of direction `d` of cell `p`. -/
noncomputable def faceCentre (x0 w : Coord) (p0 : Pos) (h : ℝ) (d : Fin 3) (p : Pos) : Coord := centre x0 w p0 h p - (h * w d / 2) • Pi.single d 1

/-- the flux of the conserved variable `k` in direction `d`: rest mass, momentum, energy, field and electron number, from four-velocity and stress tensor. -/
noncomputable def physFlux (val : Bool) (G : ADM ℝ) (v : Fin 11 → ℝ) (d : Fin 3) (k : ℕ) : ℝ :=
  let q := (faceState v).q
  let ρu := q.rho * tU 0 G q d.succ
  let T := mixed G.g4 (tmunu 0 G q)
  let drag (i : Fin 3) := q.v i / lorentz G.gam q.v - G.beta i / G.alpha
  slot ⟨ρu, fun m => T d.succ m.succ, if val then G.alpha * tmunu 0 G q 0 d.succ - ρu else T d.succ 0 + ρu, fun m => q.B m * drag d - q.B d * drag m,
    ρu * (faceState v).ye⟩ k

/-- the setting at `x0`: geometry, determinants and state are differentiable, the state is inside all floors and ceilings, which are continuous. -/
structure SmoothAt (eps : ℝ) (G : Coord → ADM ℝ) (L : Coord → Limits) (gdet gammadet : Coord → ℝ) (q : Coord → Fin 11 → ℝ) (x0 : Coord) : Prop where
  geom : SmoothGeom G x0
  valid : ∀ x, (G x).Valid
  lapse : ∀ x, 0 < (G x).alpha
  pos : ∀ x, PosDef (G x)
  gdet : DifferentiableAt ℝ gdet x0
  gammadet : ContinuousAt gammadet x0
  state : DifferentiableAt ℝ q x0
  epsr : 0 < eps ∧ eps < 1/2
  rhoFloor : ContinuousAt (fun x => (L x).rhoFloor) x0
  sieFloor : ContinuousAt (fun x => (L x).sieFloor) x0
  sieMax : ContinuousAt (fun x => (L x).sieMax) x0
  gamMax : ContinuousAt (fun x => (L x).gamMax) x0
  inside : 0 < q x0 0 ∧ (L x0).rhoFloor < q x0 0 ∧ (L x0).sieFloor < q x0 4 / q x0 0 ∧ q x0 4 / q x0 0 < (L x0).sieMax ∧ 0 < q x0 9 ∧
    lorentz (G x0).gam (faceState (q x0)).q.v < (L x0).gamMax

/-- the stage of the program on cells of widths `h·w`. -/
noncomputable def refined (sol : MeshRun.Solver) (small eps : ℝ) (val : Bool) (G : Coord → ADM ℝ) (L : Coord → Limits) (gdet gammadet : Coord → ℝ) (x0 w : Coord) (p0 : Pos)
    (P : Phys ℝ 11) (h : ℝ) : Phys ℝ 11 :=
  codePhys sol small eps val (fun d p => L (faceCentre x0 w p0 h d p)) (fun d p => G (faceCentre x0 w p0 h d p)) (fun d p => gdet (faceCentre x0 w p0 h d p))
    (fun d p => gammadet (faceCentre x0 w p0 h d p)) { P with dx := fun d => h * w d }

/-! ### Derivatives along a path -/

theorem vanish_mul {b f : ℝ → ℝ} {b0 f' : ℝ} (hb : Tendsto b (𝓝[>] 0) (𝓝 b0)) (hf : HasDerivWithinAt f f' (Ioi 0) 0) (h0 : f 0 = 0) :
    HasDerivWithinAt (fun h => b h * f h) (b0 * f') (Ioi 0) 0 := by
  rw [hasDerivWithinAt_iff_tendsto_slope' (by simp)] at hf ⊢
  refine (hb.mul hf).congr fun h => ?_
  simp only [slope, h0, vsub_eq_sub, smul_eq_mul, mul_zero]
  ring

/-- weight of the flux from the upper side, for equal speeds on both sides. -/
noncomputable def upper (sol : MeshRun.Solver) (s : ℝ × ℝ) : ℝ :=
  match sol with
  | .llf => 1/2
  | .hll => -min s.1 0 / (max s.2 0 - min s.1 0)

/-- weight of the jump of the conserved variables, for equal speeds on both sides. -/
noncomputable def visc (sol : MeshRun.Solver) (s : ℝ × ℝ) : ℝ :=
  match sol with
  | .llf => -(1/2) * max (-s.1) s.2
  | .hll => max s.2 0 * min s.1 0 / (max s.2 0 - min s.1 0)

theorem comb_deriv (sol : MeshRun.Solver) (small : ℝ) (hsol : sol = .llf ∨ small = 0) {gd gm Fl Fr Ul Ur : ℝ → ℝ} {sl sr : ℝ → ℝ × ℝ} {gd' fl fr ul ur : ℝ} {s : ℝ × ℝ}
    (hs : s.1 < s.2) (hsl : Tendsto sl (𝓝[>] 0) (𝓝 s)) (hsr : Tendsto sr (𝓝[>] 0) (𝓝 s)) (hsl0 : sl 0 = s) (hsr0 : sr 0 = s)
    (hgd : HasDerivWithinAt gd gd' (Ioi 0) 0) (hgm : Tendsto gm (𝓝[>] 0) (𝓝 (gm 0))) (hFl : HasDerivWithinAt Fl fl (Ioi 0) 0) (hFr : HasDerivWithinAt Fr fr (Ioi 0) 0)
    (hF : Fl 0 = Fr 0) (hUl : HasDerivWithinAt Ul ul (Ioi 0) 0) (hUr : HasDerivWithinAt Ur ur (Ioi 0) 0) (hU : Ul 0 = Ur 0) :
    HasDerivWithinAt (fun h => comb sol small (gd h) (gm h) (sl h) (sr h) (Fl h) (Fr h) (Ul h) (Ur h))
      (gd' * Fl 0 + gd 0 * fl + gd 0 * upper sol s * (fr - fl) + visc sol s * gm 0 * (ur - ul)) (Ioi 0) 0 := by
  have hgd0 : Tendsto gd (𝓝[>] 0) (𝓝 (gd 0)) := hgd.continuousWithinAt
  have a1 := (continuous_fst.tendsto s).comp hsl
  have a2 := (continuous_snd.tendsto s).comp hsl
  have a3 := (continuous_fst.tendsto s).comp hsr
  have a4 := (continuous_snd.tendsto s).comp hsr
  have e1 := hgd.mul hFl
  have dF := hFr.sub hFl
  have dU := hUr.sub hUl
  cases sol with
  | llf =>
    have c1 : Tendsto (fun h => max (max (-(sl h).1) (sl h).2) (max (-(sr h).1) (sr h).2)) (𝓝[>] 0) (𝓝 (max (-s.1) s.2)) := by
      have := (a1.neg.max a2).max (a3.neg.max a4)
      rwa [max_self] at this
    have t1 := vanish_mul (hgd0.mul_const (1/2 : ℝ)) dF (by simp [hF])
    have t2 := vanish_mul ((c1.mul hgm).mul_const (-(1/2) : ℝ)) dU (by simp [hU])
    refine ((e1.add t1).add t2).congr_deriv ?_ |>.congr (fun h _ => ?_) ?_
    · simp only [upper, visc]; ring
    · simp only [comb, llf, Pi.add_apply, Pi.mul_apply, Pi.sub_apply]
      rw [show (0.5 : ℝ) = 1/2 by norm_num]; ring
    · simp only [comb, llf, Pi.add_apply, Pi.mul_apply, Pi.sub_apply]
      rw [show (0.5 : ℝ) = 1/2 by norm_num]; ring
  | hll =>
    have hsm : small = 0 := by simpa using hsol
    subst hsm
    have c1 : Tendsto (fun h => min (min (sl h).1 (sr h).1) 0) (𝓝[>] 0) (𝓝 (min s.1 0)) := by
      have := (a1.min a3).min (tendsto_const_nhds (x := (0 : ℝ)))
      rwa [min_self] at this
    have c2 : Tendsto (fun h => max (max (sl h).2 (sr h).2) 0) (𝓝[>] 0) (𝓝 (max s.2 0)) := by
      have := (a2.max a4).max (tendsto_const_nhds (x := (0 : ℝ)))
      rwa [max_self] at this
    have hd : 0 < max s.2 0 - min s.1 0 := by
      have b1 := le_max_left s.2 0
      have b2 := min_le_left s.1 0
      linarith
    have c3 := c2.sub c1
    have w1 := hgd0.mul (c1.neg.div c3 hd.ne')
    have w2 := ((c2.mul c1).div c3 hd.ne').mul hgm
    have t1 := vanish_mul w1 dF (by simp [hF])
    have t2 := vanish_mul w2 dU (by simp [hU])
    have ev : ∀ᶠ h in 𝓝[>] (0:ℝ), max (max (sl h).2 (sr h).2) 0 - min (min (sl h).1 (sr h).1) 0 ≠ 0 := (c3.eventually_ne hd.ne')
    refine ((e1.add t1).add t2).congr_deriv ?_ |>.congr_of_eventuallyEq (ev.mono fun h hne => ?_) ?_
    · simp only [upper, visc]
    · simp only [comb, hll, Pi.add_apply, Pi.mul_apply, Pi.sub_apply, Pi.div_apply, Rel.ratio_zero]
      generalize max (max (sl h).2 (sr h).2) 0 = cr at hne ⊢
      generalize min (min (sl h).1 (sr h).1) 0 = cl at hne ⊢
      field_simp
      ring
    · have hd' := hd.ne'
      simp only [comb, hll, Pi.add_apply, Pi.mul_apply, Pi.sub_apply, Pi.div_apply, Rel.ratio_zero, hsl0, hsr0, max_self, min_self, hF, hU, sub_self, mul_zero, add_zero]
      generalize max s.2 0 = cr at hd' ⊢
      generalize min s.1 0 = cl at hd' ⊢
      field_simp
      ring

/-- edge values along a path on which the samples are linear to first order. -/
theorem kernel_deriv (ew em : ℝ) (he : 0 < ew) (rt : Method) (s : ℤ → ℝ → ℝ) (c a b : ℝ) (hs : ∀ k : ℤ, |k| ≤ 2 → HasDerivWithinAt (s k) (a + k * b) (Ioi 0) 0)
    (h0 : ∀ k : ℤ, |k| ≤ 2 → s k 0 = c) :
    ((kernel ew em rt fun k => s k 0).1 = c ∧ (kernel ew em rt fun k => s k 0).2 = c) ∧
    HasDerivWithinAt (fun h => (kernel ew em rt fun k => s k h).1) (a + Recon.reach ℝ rt * b) (Ioi 0) 0 ∧
    HasDerivWithinAt (fun h => (kernel ew em rt fun k => s k h).2) (a - Recon.reach ℝ rt * b) (Ioi 0) 0 := by
  have z := Recon.kernel_near ew em he rt (fun k => s k 0) c 0 0 (fun k hk => by simp [h0 k hk])
  simp only [mul_zero, add_zero, sub_zero, abs_nonpos_iff, sub_eq_zero] at z
  have o : ∀ k : ℤ, |k| ≤ 2 → (fun h => s k h - (c + h * (a + k * b))) =o[𝓝[>] 0] fun h : ℝ => h := fun k hk => by
    have := (hasDerivWithinAt_iff_isLittleO.1 (hs k hk))
    simp only [h0 k hk, sub_zero, smul_eq_mul] at this
    exact this.congr_left fun h => by ring
  let δ : ℝ → ℝ := fun h => ∑ k ∈ Finset.Icc (-2 : ℤ) 2, |s k h - (c + h * (a + k * b))|
  have hδ : δ =o[𝓝[>] 0] fun h : ℝ => h := by
    have := Asymptotics.IsLittleO.sum (s := Finset.Icc (-2 : ℤ) 2) fun k hk => (o k (by rw [Finset.mem_Icc] at hk; exact abs_le.2 hk)).norm_left
    refine this.congr_left fun h => ?_
    simp [δ, Finset.sum_apply]
  have near := fun h => Recon.kernel_near ew em he rt (fun k => s k h) (c + h * a) (h * b) (δ h) (fun k hk => by
    have hm : k ∈ Finset.Icc (-2 : ℤ) 2 := by rw [Finset.mem_Icc]; rw [abs_le] at hk; exact hk
    have := Finset.single_le_sum (f := fun k : ℤ => |s k h - (c + h * (a + k * b))|) (fun i _ => abs_nonneg _) hm
    refine le_trans (le_of_eq ?_) this
    congr 1; ring)
  refine ⟨z, ?_, ?_⟩
  · rw [hasDerivWithinAt_iff_isLittleO]
    simp only [z.1, sub_zero, smul_eq_mul]
    refine Asymptotics.IsBigO.trans_isLittleO (Asymptotics.IsBigO.of_bound (Recon.gain ew rt) (Eventually.of_forall fun h => ?_)) hδ
    rw [Real.norm_eq_abs, Real.norm_of_nonneg (Finset.sum_nonneg fun _ _ => abs_nonneg _)]
    refine le_trans (le_of_eq ?_) (near h).1
    congr 1; ring
  · rw [hasDerivWithinAt_iff_isLittleO]
    simp only [z.2, sub_zero, smul_eq_mul]
    refine Asymptotics.IsBigO.trans_isLittleO (Asymptotics.IsBigO.of_bound (Recon.gain ew rt) (Eventually.of_forall fun h => ?_)) hδ
    rw [Real.norm_eq_abs, Real.norm_of_nonneg (Finset.sum_nonneg fun _ _ => abs_nonneg _)]
    refine le_trans (le_of_eq ?_) (near h).2
    congr 1; ring

theorem chain {W : Type} [NormedAddCommGroup W] [NormedSpace ℝ W] {f : W → ℝ} {γ : ℝ → W} {z γ' : W} (hf : DifferentiableAt ℝ f z) (h0 : γ 0 = z)
    (hγ : HasDerivWithinAt γ γ' (Ioi 0) 0) : HasDerivWithinAt (fun h => f (γ h)) (fderiv ℝ f z γ') (Ioi 0) 0 :=
  HasFDerivAt.comp_hasDerivWithinAt (f := γ) 0 (by rw [h0]; exact hf.hasFDerivAt) hγ

/-! ### One face -/

/-- from coordinates per cell to coordinates. -/
def stretch (w : Coord) (x : Coord) : Coord := fun e => w e * x e

theorem centre_deriv (x0 w : Coord) (p0 p : Pos) : HasDerivWithinAt (fun h => centre x0 w p0 h p) (stretch w fun e => (p e : ℝ) - p0 e) (Ioi 0) 0 := by
  unfold centre
  have := ((hasDerivAt_id (0:ℝ)).smul_const (stretch w fun e => (p e : ℝ) - p0 e)).const_add x0
  rw [one_smul] at this
  exact this.hasDerivWithinAt

/-- the offset of a face of direction `d` from the centre of cell `p0`, in cell widths. -/
noncomputable def offset (p0 : Pos) (d : Fin 3) (p : Pos) : Coord := fun e => (p e : ℝ) - p0 e - if e = d then 1/2 else 0

theorem face_deriv (x0 w : Coord) (p0 : Pos) (d : Fin 3) (p : Pos) : HasDerivWithinAt (fun h => faceCentre x0 w p0 h d p) (stretch w (offset p0 d p)) (Ioi 0) 0 := by
  have e : (fun h => faceCentre x0 w p0 h d p) = fun h => x0 + h • stretch w (offset p0 d p) := by
    funext h e
    simp only [faceCentre, centre, stretch, offset, Pi.add_apply, Pi.sub_apply, Pi.smul_apply, smul_eq_mul, Pi.single_apply]
    split_ifs with hd
    · subst hd; ring
    · ring
  rw [e]
  have := ((hasDerivAt_id (0:ℝ)).smul_const (stretch w (offset p0 d p))).const_add x0
  rw [one_smul] at this
  exact this.hasDerivWithinAt

theorem stretch_add (w x y : Coord) : stretch w (x + y) = stretch w x + stretch w y := by funext e; simp [stretch]; ring
theorem stretch_smul (w x : Coord) (t : ℝ) : stretch w (t • x) = t • stretch w x := by funext e; simp [stretch]; ring

/-- to first order in the cell width, the primitive variables of the cells up to `r` cells from `p0` are those of a state with value `v0` and gradient `D`, plus `h` times the same
`ζ` in all cells. -/
def Samples {N : ℕ} (w : Coord) (p0 : Pos) (r : ℤ) (v0 ζ : Fin N → ℝ) (D : Coord →L[ℝ] Fin N → ℝ) (X : ℝ → Fields ℝ N) : Prop := ∀ p : Pos, (∀ e, |p e - p0 e| ≤ r) →
  (X 0 p).2 = v0 ∧ HasDerivWithinAt (fun h => (X h p).2) (D (stretch w fun e => (p e : ℝ) - p0 e) + ζ) (Ioi 0) 0

/-- a differentiable state at the cell centres. -/
theorem samples_state {N : ℕ} (x0 w : Coord) (p0 : Pos) (r : ℤ) (q : Coord → Fin N → ℝ) (hq : DifferentiableAt ℝ q x0) (X : ℝ → Fields ℝ N) (hX : ∀ h p, (X h p).2 = q (centre x0 w p0 h p)) :
    Samples w p0 r (q x0) 0 (fderiv ℝ q x0) X := by
  intro p _
  simp only [hX]
  have h0 : centre x0 w p0 0 p = x0 := by simp [centre]
  refine ⟨by rw [h0], ?_⟩
  rw [add_zero]
  exact HasFDerivAt.comp_hasDerivWithinAt (f := fun h => centre x0 w p0 h p) 0 (by rw [h0]; exact hq.hasFDerivAt) (centre_deriv x0 w p0 p)

/-- reconstructed states along the path. -/
theorem state_deriv {N : ℕ} (ew em : ℝ) (he : 0 < ew) (rt : Method) (w : Coord) (p0 : Pos) (r : ℤ) (v0 ζ : Fin N → ℝ) (D : Coord →L[ℝ] Fin N → ℝ) (X : ℝ → Fields ℝ N)
    (hX : Samples w p0 r v0 ζ D X) (d : Fin 3) (p : Pos) (hp : ∀ e, |p e - p0 e| ≤ r - 3) :
    let l := fun h => stateL (kernel ew em rt) (fun n c => (X h c).2 n) d p
    let r := fun h => stateR (kernel ew em rt) (fun n c => (X h c).2 n) d p
    let mid := D (stretch w (offset p0 d p)) + ζ
    let τ := (1/2 - Recon.reach ℝ rt) • D (stretch w (Pi.single d 1))
    l 0 = v0 ∧ r 0 = v0 ∧ HasDerivWithinAt l (mid - τ) (Ioi 0) 0 ∧ HasDerivWithinAt r (mid + τ) (Ioi 0) 0 := by
  intro l r' mid τ
  have lin : ∀ (t : ℝ) n, (D (stretch w (offset p0 d p + t • Pi.single d 1)) + ζ) n = mid n + t * D (stretch w (Pi.single d 1)) n := by
    intro t n
    rw [stretch_add, stretch_smul, map_add, map_smul]
    simp only [mid, Pi.add_apply, Pi.smul_apply, smul_eq_mul]
    ring
  have inL : ∀ m : ℤ, |m| ≤ 2 → ∀ e, |(fun e => p e + (m - 1) * unit d e) e - p0 e| ≤ r := fun m hm e => by
    have h1 := hp e
    rw [abs_le] at h1 hm ⊢
    simp only [unit]
    split_ifs <;> constructor <;> omega
  have inR : ∀ m : ℤ, |m| ≤ 2 → ∀ e, |(fun e => p e + m * unit d e) e - p0 e| ≤ r := fun m hm e => by
    have h1 := hp e
    rw [abs_le] at h1 hm ⊢
    simp only [unit]
    split_ifs <;> constructor <;> omega
  have hl := fun n => kernel_deriv ew em he rt (fun m h => (X h fun e => p e + (m - 1) * unit d e).2 n) (v0 n)
    (mid n - 1/2 * D (stretch w (Pi.single d 1)) n) (D (stretch w (Pi.single d 1)) n) (fun k hk => by
      refine ((hasDerivWithinAt_pi.1 (hX _ (inL k hk)).2) n).congr_deriv ?_
      rw [show mid n - 1/2 * D (stretch w (Pi.single d 1)) n + k * D (stretch w (Pi.single d 1)) n =
        mid n + (k - 1/2) * D (stretch w (Pi.single d 1)) n by ring, ← lin]
      refine congrArg (fun y => (D y + ζ) n) (congrArg (stretch w) (funext fun e => ?_))
      simp only [offset, Pi.add_apply, Pi.smul_apply, smul_eq_mul, Pi.single_apply, unit]
      split_ifs <;> push_cast <;> ring) (fun k hk => congrFun (hX _ (inL k hk)).1 n)
  have hr := fun n => kernel_deriv ew em he rt (fun m h => (X h fun e => p e + m * unit d e).2 n) (v0 n)
    (mid n + 1/2 * D (stretch w (Pi.single d 1)) n) (D (stretch w (Pi.single d 1)) n) (fun k hk => by
      refine ((hasDerivWithinAt_pi.1 (hX _ (inR k hk)).2) n).congr_deriv ?_
      rw [show mid n + 1/2 * D (stretch w (Pi.single d 1)) n + k * D (stretch w (Pi.single d 1)) n =
        mid n + (k + 1/2) * D (stretch w (Pi.single d 1)) n by ring, ← lin]
      refine congrArg (fun y => (D y + ζ) n) (congrArg (stretch w) (funext fun e => ?_))
      simp only [offset, Pi.add_apply, Pi.smul_apply, smul_eq_mul, Pi.single_apply, unit]
      split_ifs <;> push_cast <;> ring) (fun k hk => congrFun (hX _ (inR k hk)).1 n)
  refine ⟨funext fun n => (hl n).1.1, funext fun n => (hr n).1.2, hasDerivWithinAt_pi.2 fun n => ?_, hasDerivWithinAt_pi.2 fun n => ?_⟩
  · refine (hl n).2.1.congr_deriv ?_
    simp only [τ, Pi.sub_apply, Pi.smul_apply, smul_eq_mul]; ring
  · refine (hr n).2.2.congr_deriv ?_
    simp only [τ, Pi.add_apply, Pi.smul_apply, smul_eq_mul]; ring

section
variable {eps : ℝ} {G : Coord → ADM ℝ} {L : Coord → Limits} {gdet gammadet : Coord → ℝ} {q : Coord → Fin 11 → ℝ} {x0 : Coord}

theorem state_smooth (z : Coord × (Fin 11 → ℝ)) : SmoothPrim (fun x : Coord × (Fin 11 → ℝ) => (faceState x.2).q) z := by
  have h : ∀ i : Fin 11, DifferentiableAt ℝ (fun x : Coord × (Fin 11 → ℝ) => x.2 i) z := fun i => by fun_prop
  refine ⟨h 0, h 4, h 9, fun i => ?_, fun i => ?_⟩
  · fin_cases i
    exacts [h 1, h 2, h 3]
  · fin_cases i
    exacts [h 5, h 6, h 7]

theorem geom_smooth (hS : SmoothAt eps G L gdet gammadet q x0) (v : Fin 11 → ℝ) : SmoothGeom (fun x : Coord × (Fin 11 → ℝ) => G x.1) (x0, v) := by
  obtain ⟨a, b, c, d⟩ := hS.geom
  have f : DifferentiableAt ℝ (fun x : Coord × (Fin 11 → ℝ) => x.1) (x0, v) := differentiableAt_fst
  exact ⟨DifferentiableAt.fun_comp' (g := fun x => (G x).alpha) (x0, v) a f, fun i => DifferentiableAt.fun_comp' (g := fun x => (G x).beta i) (x0, v) (b i) f,
    fun i j => DifferentiableAt.fun_comp' (g := fun x => (G x).gam i j) (x0, v) (c i j) f, fun i j => DifferentiableAt.fun_comp' (g := fun x => (G x).gamInv i j) (x0, v) (d i j) f⟩

theorem inside_near (hS : SmoothAt eps G L gdet gammadet q x0) :
    ∀ᶠ x : Coord × (Fin 11 → ℝ) in 𝓝 (x0, q x0), Inactive (G x.1) (L x.1) (faceState x.2).q := by
  have f : Tendsto (fun x : Coord × (Fin 11 → ℝ) => x.1) (𝓝 (x0, q x0)) (𝓝 x0) := continuousAt_fst
  have c : ∀ i : Fin 11, ContinuousAt (fun x : Coord × (Fin 11 → ℝ) => x.2 i) (x0, q x0) := fun i => by fun_prop
  obtain ⟨i0, i1, i2, i3, i4, i5⟩ := hS.inside
  have cs : ContinuousAt (fun x : Coord × (Fin 11 → ℝ) => x.2 4 / x.2 0) (x0, q x0) := (c 4).div (c 0) i0.ne'
  have cl := (lorentz_diff (geom_smooth hS (q x0)) (state_smooth (x0, q x0)) (hS.pos x0)).continuousAt
  have e0 := (continuousAt_const (y := (0:ℝ))).eventually_lt (c 0) i0
  have e1 := ContinuousAt.eventually_lt (hS.rhoFloor.tendsto.comp f) (c 0) i1
  have e2 := ContinuousAt.eventually_lt (hS.sieFloor.tendsto.comp f) cs i2
  have e3 := cs.eventually_lt (hS.sieMax.tendsto.comp f : ContinuousAt (fun x : Coord × (Fin 11 → ℝ) => (L x.1).sieMax) _) i3
  have e4 := (continuousAt_const (y := (0:ℝ))).eventually_lt (c 9) i4
  have e5 := cl.eventually_lt (hS.gamMax.tendsto.comp f : ContinuousAt (fun x : Coord × (Fin 11 → ℝ) => (L x.1).gamMax) _) i5
  filter_upwards [e0, e1, e2, e3, e4, e5] with x h0 h1 h2 h3 h4 h5
  exact ⟨h0, h1.le, h2, h3.le, h4.le, h5.le⟩

/-- the flux of the program for equal states on both sides, without the determinant. -/
noncomputable def codeF (val : Bool) (G : Coord → ADM ℝ) (L : Coord → Limits) (d : Fin 3) (k : ℕ) (z : Coord × (Fin 11 → ℝ)) : ℝ :=
  slot (fluxF val (G z.1) (L z.1) (faceState z.2).ye (faceState z.2).q d) k

/-- the conserved variables of the program. -/
noncomputable def codeU (val : Bool) (G : Coord → ADM ℝ) (L : Coord → Limits) (k : ℕ) (z : Coord × (Fin 11 → ℝ)) : ℝ :=
  slot (fluxU val (G z.1) (L z.1) (faceState z.2).ye (faceState z.2).q) k

/-- the flux density of the program at a point. -/
noncomputable def density (val : Bool) (G : Coord → ADM ℝ) (L : Coord → Limits) (gdet : Coord → ℝ) (q : Coord → Fin 11 → ℝ) (d : Fin 3) (k : ℕ) (y : Coord) : ℝ :=
  gdet y * codeF val G L d k (y, q y)

theorem codeF_diff (val : Bool) (hS : SmoothAt eps G L gdet gammadet q x0) (d : Fin 3) (k : ℕ) : DifferentiableAt ℝ (codeF val G L d k) (x0, q x0) :=
  fluxF_diff (G := fun z : Coord × (Fin 11 → ℝ) => G z.1) (q := fun z => (faceState z.2).q) val (fun z => L z.1) (fun z => z.2 8) (by fun_prop) (geom_smooth hS _) (state_smooth _)
    (fun x => hS.lapse x.1) (fun x => hS.valid x.1) (fun x => hS.pos x.1) (inside_near hS) d k

theorem codeU_diff (val : Bool) (hS : SmoothAt eps G L gdet gammadet q x0) (k : ℕ) : DifferentiableAt ℝ (codeU val G L k) (x0, q x0) :=
  fluxU_diff (G := fun z : Coord × (Fin 11 → ℝ) => G z.1) (q := fun z => (faceState z.2).q) val (fun z => L z.1) (fun z => z.2 8) (by fun_prop) (geom_smooth hS _) (state_smooth _)
    (fun x => hS.lapse x.1) (fun x => hS.valid x.1) (fun x => hS.pos x.1) (inside_near hS) k

theorem density_deriv (val : Bool) (hS : SmoothAt eps G L gdet gammadet q x0) (d : Fin 3) (k : ℕ) :
    DifferentiableAt ℝ (density val G L gdet q d k) x0 ∧ ∀ η, fderiv ℝ (density val G L gdet q d k) x0 η =
      fderiv ℝ gdet x0 η * codeF val G L d k (x0, q x0) + gdet x0 * fderiv ℝ (codeF val G L d k) (x0, q x0) (η, fderiv ℝ q x0 η) := by
  have h1 : HasFDerivAt (fun y => (y, q y)) ((ContinuousLinearMap.id ℝ Coord).prod (fderiv ℝ q x0)) x0 := (hasFDerivAt_id x0).prodMk hS.state.hasFDerivAt
  have h2 : HasFDerivAt (fun y => codeF val G L d k (y, q y)) _ x0 := HasFDerivAt.comp (f := fun y => (y, q y)) x0 (codeF_diff val hS d k).hasFDerivAt h1
  have h3 := hS.gdet.hasFDerivAt.mul h2
  refine ⟨h3.differentiableAt, fun η => ?_⟩
  have : fderiv ℝ (density val G L gdet q d k) x0 = _ := h3.fderiv
  rw [this]
  simp only [_root_.add_apply, _root_.smul_apply, smul_eq_mul, ContinuousLinearMap.comp_apply, ContinuousLinearMap.prod_apply,
    ContinuousLinearMap.id_apply]
  ring

/-- the flux at a face to first order in the cell width: the flux density at the centre of the face, plus a term that is the same at all faces. -/
theorem flux_deriv (sol : MeshRun.Solver) (small : ℝ) (hsol : sol = .llf ∨ small = 0) (val : Bool) (hS : SmoothAt eps G L gdet gammadet q x0) (w : Coord) (p0 : Pos) (P : Phys ℝ 11)
    (hew : 0 < P.ew) (r : ℤ) (ζ : Fin 11 → ℝ) (X : ℝ → Fields ℝ 11) (hX : Samples w p0 r (q x0) ζ (fderiv ℝ q x0) X) (d : Fin 3) (k : ℕ) :
    ∃ R, ∀ p : Pos, (∀ e, |p e - p0 e| ≤ r - 3) → refFlux (refined sol small eps val G L gdet gammadet x0 w p0 P 0) (X 0) d p k = density val G L gdet q d k x0 ∧
      HasDerivWithinAt (fun h => refFlux (refined sol small eps val G L gdet gammadet x0 w p0 P h) (X h) d p k)
        (fderiv ℝ (density val G L gdet q d k) x0 (stretch w (offset p0 d p)) + R) (Ioi 0) 0 := by
  set τ := (1/2 - Recon.reach ℝ P.rt) • fderiv ℝ q x0 (stretch w (Pi.single d 1)) with hτ
  set DF := fderiv ℝ (codeF val G L d k) (x0, q x0)
  set DU := fderiv ℝ (codeU val G L k) (x0, q x0)
  set s := MeshRun.codeSpeeds eps (G x0) (L x0) (faceState (q x0)).g1 (faceState (q x0)).q d with hs
  refine ⟨gdet x0 * DF (0, ζ - τ) + gdet x0 * upper sol s * DF (0, (2:ℝ) • τ) + visc sol s * gammadet x0 * DU (0, (2:ℝ) • τ), fun p hp => ?_⟩
  obtain ⟨hl0, hr0, hl, hr⟩ := state_deriv P.ew P.em hew P.rt w p0 r (q x0) ζ (fderiv ℝ q x0) X hX d p hp
  set l := fun h => stateL (kernel P.ew P.em P.rt) (fun n c => (X h c).2 n) d p with hld
  set r := fun h => stateR (kernel P.ew P.em P.rt) (fun n c => (X h c).2 n) d p with hrd
  set y := fun h => faceCentre x0 w p0 h d p with hyd
  set η := stretch w (offset p0 d p) with hη
  have hy : HasDerivWithinAt y η (Ioi 0) 0 := face_deriv x0 w p0 d p
  have hy0 : y 0 = x0 := by simp [hyd, faceCentre, centre]
  have hflux : ∀ h, refFlux (refined sol small eps val G L gdet gammadet x0 w p0 P h) (X h) d p k =
      comb sol small (gdet (y h)) (gammadet (y h)) (MeshRun.codeSpeeds eps (G (y h)) (L (y h)) (faceState (l h)).g1 (faceState (l h)).q d)
        (MeshRun.codeSpeeds eps (G (y h)) (L (y h)) (faceState (r h)).g1 (faceState (r h)).q d) (codeF val G L d k (y h, l h)) (codeF val G L d k (y h, r h))
        (codeU val G L k (y h, l h)) (codeU val G L k (y h, r h)) := by
    intro h
    unfold refFlux
    exact numFlux_slot sol small eps val (G (y h)) (L (y h)) (gdet (y h)) (gammadet (y h)) d (faceState (l h)) (faceState (r h)) k
  have pathl : HasDerivWithinAt (fun h => (y h, l h)) (η, fderiv ℝ q x0 η + ζ - τ) (Ioi 0) 0 := hy.prodMk hl
  have pathr : HasDerivWithinAt (fun h => (y h, r h)) (η, fderiv ℝ q x0 η + ζ + τ) (Ioi 0) 0 := hy.prodMk hr
  have l00 : (y 0, l 0) = (x0, q x0) := by rw [hy0]; exact congrArg _ hl0
  have r00 : (y 0, r 0) = (x0, q x0) := by rw [hy0]; exact congrArg _ hr0
  have hFl := chain (codeF_diff val hS d k) l00 pathl
  have hFr := chain (codeF_diff val hS d k) r00 pathr
  have hUl := chain (codeU_diff val hS k) l00 pathl
  have hUr := chain (codeU_diff val hS k) r00 pathr
  have hgd := chain hS.gdet hy0 hy
  have hgm : Tendsto (fun h => gammadet (y h)) (𝓝[>] 0) (𝓝 (gammadet (y 0))) := by
    rw [hy0]
    have := hy.continuousWithinAt
    unfold ContinuousWithinAt at this
    rw [hy0] at this
    exact hS.gammadet.tendsto.comp this
  have hsp := speeds_cont eps hS.epsr.1 hS.epsr.2 (fun z : Coord × (Fin 11 → ℝ) => L z.1) (fun z => (faceState z.2).g1)
    (by show ContinuousAt (fun x : Coord × (Fin 11 → ℝ) => x.2 10) _; fun_prop) (geom_smooth hS (q x0)) (state_smooth (x0, q x0)) (fun z => hS.pos z.1) (inside_near hS) d
  have tl : Tendsto (fun h => (y h, l h)) (𝓝[>] 0) (𝓝 (x0, q x0)) := by
    have t : Tendsto (fun h => (y h, l h)) (𝓝[>] 0) (𝓝 (y 0, l 0)) := pathl.continuousWithinAt
    rwa [l00] at t
  have tr : Tendsto (fun h => (y h, r h)) (𝓝[>] 0) (𝓝 (x0, q x0)) := by
    have t : Tendsto (fun h => (y h, r h)) (𝓝[>] 0) (𝓝 (y 0, r 0)) := pathr.continuousWithinAt
    rwa [r00] at t
  have hlt := speeds_lt eps hS.epsr.1 hS.epsr.2 (hS.pos x0) (hS.lapse x0) (faceState (q x0)).g1 (faceState (q x0)).q (inside_near hS).self_of_nhds d
  have l0 : l 0 = q x0 := hl0
  have r0 : r 0 = q x0 := hr0
  have key := comb_deriv sol small hsol (s := s) hlt (hsp.tendsto.comp tl) (hsp.tendsto.comp tr) (by simp only [Function.comp, l0, hy0]; rfl)
    (by simp only [Function.comp, r0, hy0]; rfl) hgd hgm hFl hFr (by simp only [l0, r0]) hUl hUr (by simp only [l0, r0])
  constructor
  · rw [hflux, l0, r0, hy0]
    unfold density
    have hd : 0 < max s.2 0 - min s.1 0 := by
      have b1 := le_max_left s.2 0
      have b2 := min_le_left s.1 0
      linarith
    rw [← hs]
    cases sol with
    | llf => simp only [comb, llf]; rw [show (0.5 : ℝ) = 1/2 by norm_num]; ring
    | hll =>
      have hsm : small = 0 := by simpa using hsol
      subst hsm
      have hd' := hd.ne'
      simp only [comb, hll, Rel.ratio_zero, max_self, min_self, sub_self, mul_zero, zero_mul, add_zero]
      generalize max s.2 0 = cr at hd' ⊢
      generalize min s.1 0 = cl at hd' ⊢
      field_simp
  · refine (key.congr_deriv ?_).congr (fun h _ => hflux h) (hflux 0)
    rw [(density_deriv val hS d k).2 η]
    simp only [hy0, l0]
    have e1 : ((η, fderiv ℝ q x0 η + ζ - τ) : Coord × (Fin 11 → ℝ)) = (η, fderiv ℝ q x0 η) + (0, ζ - τ) := by
      rw [Prod.mk_add_mk, add_zero, add_sub_assoc]
    have e2 : ((η, fderiv ℝ q x0 η + ζ + τ) : Coord × (Fin 11 → ℝ)) = (η, fderiv ℝ q x0 η + ζ - τ) + (0, (2:ℝ) • τ) := by
      rw [Prod.mk_add_mk, add_zero, two_smul]; congr 1; abel
    rw [e2, map_add, map_add, e1, map_add, map_add]
    ring

/-! ### Constrained transport and divergence -/

theorem offset_up (w : Coord) (p0 : Pos) (a d : Fin 3) (p p' : Pos) (hp : p' = fun e => p e + unit d e) :
    stretch w (offset p0 a p') = stretch w (offset p0 a p) + w d • Pi.single d 1 := by
  subst hp
  funext e
  simp only [stretch, offset, unit, Pi.add_apply, Pi.smul_apply, smul_eq_mul, Pi.single_apply]
  by_cases h : e = d
  · rw [if_pos h, if_pos h, h]; push_cast; ring
  · rw [if_neg h, if_neg h]; push_cast; ring

theorem density_antisymm (val : Bool) (a c : Fin 3) : density val G L gdet q c (5 + a.val) = fun y => -density val G L gdet q a (5 + c.val) y := by
  funext y
  have e : ∀ (S : Slots) (i : Fin 3), slot S (5 + i.val) = S.B i := by intro S i; fin_cases i <;> simp [slot]
  simp only [density, codeF, e]
  rw [(flux_induction_antisymmetric val (G y) (L y) (faceState (q y)).ye (faceState (q y)).q c a).2]
  ring

/-- the difference of the fluxes through two opposite faces, to first order. -/
theorem diff_deriv (nd : ℕ) (sol : MeshRun.Solver) (small : ℝ) (hsol : sol = .llf ∨ small = 0) (val : Bool) (hS : SmoothAt eps G L gdet gammadet q x0) (w : Coord) (p0 : Pos)
    (P : Phys ℝ 11) (hew : 0 < P.ew) (hfix : ∀ d p F, P.fix d p F = F) (hrad : ∀ d p st m, P.rad d p st m = 0)
    (r : ℤ) (ζ : Fin 11 → ℝ) (X : ℝ → Fields ℝ 11) (hX : Samples w p0 r (q x0) ζ (fderiv ℝ q x0) X) (p1 : Pos) (hp1 : ∀ e, |p1 e - p0 e| ≤ r - 5) (d : Fin 3) (k : ℕ) :
    let F := fun h => refAll nd (refined sol small eps val G L gdet gammadet x0 w p0 P h) (X h) d
    F 0 (fun e => p1 e + unit d e) k = F 0 p1 k ∧
    HasDerivWithinAt (fun h => F h (fun e => p1 e + unit d e) k - F h p1 k) (w d * fderiv ℝ (density val G L gdet q d k) x0 (Pi.single d 1)) (Ioi 0) 0 := by
  intro F
  have u01 : ∀ a e : Fin 3, 0 ≤ unit a e ∧ unit a e ≤ 1 := fun a e => by unfold unit; split_ifs <;> simp
  have win : ∀ p : Pos, (∀ e, p1 e - 2 ≤ p e ∧ p e ≤ p1 e + 2) → ∀ e, |p e - p0 e| ≤ r - 3 := fun p h e => by
    have h1 := hp1 e
    have h2 := h e
    rw [abs_le] at h1 ⊢
    constructor <;> omega
  set Φ := fun h => refFlux (refined sol small eps val G L gdet gammadet x0 w p0 P h) (X h) with hΦ
  have hF : ∀ h p, F h p k = refCT nd (some 5) (Φ h) d p k := by
    intro h p
    show P.fix d p (fun m => refCT nd (some 5) (Φ h) d p m + P.rad d p (near nd P.rt d p (X h)) m) k = _
    rw [hfix, hrad, add_zero]
  simp only [hF]
  unfold refCT
  simp only
  split_ifs with h1 h2
  · refine ⟨rfl, ?_⟩
    have h0 : density val G L gdet q d k = fun _ => 0 := by
      have := density_antisymm (G := G) (L := L) (gdet := gdet) (q := q) val d d
      have hk : k = 5 + d.val := by have := congrArg Fin.val h2; simp only at this; omega
      rw [← hk] at this
      funext y
      have := congrFun this y
      linarith
    rw [h0]
    simp only [sub_self, fderiv_fun_const, Pi.zero_apply, _root_.zero_apply, mul_zero]
    exact hasDerivWithinAt_const _ _ _
  · set c : Fin 3 := ⟨k - 5, by omega⟩ with hc
    have hk : k = 5 + c.val := by simp only [hc]; omega
    obtain ⟨R1, f1⟩ := flux_deriv sol small hsol val hS w p0 P hew r ζ X hX d (5 + c.val)
    obtain ⟨R2, f2⟩ := flux_deriv sol small hsol val hS w p0 P hew r ζ X hX c (5 + d.val)
    have up : ∀ (a : Fin 3) (A : Coord →L[ℝ] ℝ) p p', (p' = fun e => p e + unit d e) → A (stretch w (offset p0 a p')) = A (stretch w (offset p0 a p)) + w d * A (Pi.single d 1) := by
      intro a A p p' h
      rw [offset_up w p0 a d p p' h, map_add, map_smul, smul_eq_mul]
    have anti : fderiv ℝ (density val G L gdet q c (5 + d.val)) x0 (Pi.single d 1) = -fderiv ℝ (density val G L gdet q d (5 + c.val)) x0 (Pi.single d 1) := by
      rw [density_antisymm val d c]
      rw [fderiv_fun_neg]; rfl
    unfold emfAt
    constructor
    · have g1 : ∀ p : Pos, (∀ e, p1 e - 2 ≤ p e ∧ p e ≤ p1 e + 2) → Φ 0 d p (5 + c.val) = density val G L gdet q d (5 + c.val) x0 := fun p h => (f1 p (win p h)).1
      have g2 : ∀ p : Pos, (∀ e, p1 e - 2 ≤ p e ∧ p e ≤ p1 e + 2) → Φ 0 c p (5 + d.val) = density val G L gdet q c (5 + d.val) x0 := fun p h => (f2 p (win p h)).1
      repeat rw [g1 _ (fun e => by have a1 := u01 c e; have a2 := u01 d e; constructor <;> (try dsimp only) <;> omega)]
      repeat rw [g2 _ (fun e => by have a1 := u01 c e; have a2 := u01 d e; constructor <;> (try dsimp only) <;> omega)]
    · have q1 := fun p h => (f1 p (win p h)).2
      have q2 := fun p h => (f2 p (win p h)).2
      have ct : ∀ p : Pos, (∀ e, p1 e ≤ p e ∧ p e ≤ p1 e + 1) → HasDerivWithinAt (fun h => 1/2 * (1/4 * (Φ h d p (5 + c.val) + Φ h d (fun e => p e - unit c e) (5 + c.val) - Φ h c p (5 + d.val) - Φ h c (fun e => p e - unit d e) (5 + d.val)) +
          1/4 * (Φ h d (fun e => p e + unit c e) (5 + c.val) + Φ h d (fun e => p e + unit c e - unit c e) (5 + c.val) - Φ h c (fun e => p e + unit c e) (5 + d.val) -
            Φ h c (fun e => p e + unit c e - unit d e) (5 + d.val)))) _ (Ioi 0) 0 := fun p hp =>
        ((((((q1 p (fun e => by have a1 := u01 c e; have a2 := u01 d e; have a3 := hp e; constructor <;> (try dsimp only) <;> omega)).add (q1 _ (fun e => by have a1 := u01 c e; have a2 := u01 d e; have a3 := hp e; constructor <;> (try dsimp only) <;> omega))).sub (q2 p (fun e => by have a1 := u01 c e; have a2 := u01 d e; have a3 := hp e; constructor <;> (try dsimp only) <;> omega))).sub (q2 _ (fun e => by have a1 := u01 c e; have a2 := u01 d e; have a3 := hp e; constructor <;> (try dsimp only) <;> omega))).const_mul (1/4 : ℝ)).add
          (((((q1 _ (fun e => by have a1 := u01 c e; have a2 := u01 d e; have a3 := hp e; constructor <;> (try dsimp only) <;> omega)).add (q1 _ (fun e => by have a1 := u01 c e; have a2 := u01 d e; have a3 := hp e; constructor <;> (try dsimp only) <;> omega))).sub (q2 _ (fun e => by have a1 := u01 c e; have a2 := u01 d e; have a3 := hp e; constructor <;> (try dsimp only) <;> omega))).sub (q2 _ (fun e => by have a1 := u01 c e; have a2 := u01 d e; have a3 := hp e; constructor <;> (try dsimp only) <;> omega))).const_mul (1/4 : ℝ))).const_mul (1/2 : ℝ)
      refine ((ct _ fun e => by have a2 := u01 d e; constructor <;> (try dsimp only) <;> omega).sub (ct p1 fun e => by constructor <;> omega)).congr_deriv ?_
      rw [up d _ p1 _ rfl, up d _ (fun e => p1 e - unit c e) (fun e => p1 e + unit d e - unit c e) (by funext e; ring), up c _ p1 _ rfl,
        up c _ (fun e => p1 e - unit d e) (fun e => p1 e + unit d e - unit d e) (by funext e; ring),
        up d _ (fun e => p1 e + unit c e) (fun e => p1 e + unit d e + unit c e) (by funext e; ring),
        up d _ (fun e => p1 e + unit c e - unit c e) (fun e => p1 e + unit d e + unit c e - unit c e) (by funext e; ring),
        up c _ (fun e => p1 e + unit c e) (fun e => p1 e + unit d e + unit c e) (by funext e; ring),
        up c _ (fun e => p1 e + unit c e - unit d e) (fun e => p1 e + unit d e + unit c e - unit d e) (by funext e; ring), anti, hk]
      ring
  · obtain ⟨R, f⟩ := flux_deriv sol small hsol val hS w p0 P hew r ζ X hX d k
    have b0 := win p1 fun e => by constructor <;> omega
    have b1 := win (fun e => p1 e + unit d e) fun e => by have a2 := u01 d e; constructor <;> omega
    refine ⟨((f _ b1).1).trans ((f _ b0).1).symm, ?_⟩
    refine ((f _ b1).2.sub (f p1 b0).2).congr_deriv ?_
    rw [offset_up w p0 d d p1 _ rfl, map_add, map_smul, smul_eq_mul]
    ring

/-- inside all floors and ceilings the flux of the program is the physical flux. -/
theorem density_physical (val : Bool) (hS : SmoothAt eps G L gdet gammadet q x0) (d : Fin 3) (k : ℕ) :
    density val G L gdet q d k =ᶠ[𝓝 x0] fun y => gdet y * physFlux val (G y) (q y) d k := by
  have path : Tendsto (fun y => (y, q y)) (𝓝 x0) (𝓝 (x0, q x0)) := continuousAt_id.prodMk hS.state.continuousAt
  filter_upwards [path.eventually (inside_near hS)] with y hy
  obtain ⟨a, b, c, e, f, g⟩ := flux_physical val (G y) (L y) (faceState (q y)).ye (faceState (q y)).q d (hS.valid y) (hS.lapse y) (hS.pos y) hy
  unfold density codeF physFlux
  simp only
  congr 2
  have : ∀ S T : Slots, S.rho = T.rho → S.mom = T.mom → S.eng = T.eng → S.B = T.B → S.ye = T.ye → S = T := by
    intro S T; cases S; cases T; simp only; rintro rfl rfl rfl rfl rfl; rfl
  refine this _ _ a (funext c) ?_ (funext g) b
  cases val
  · exact f
  · exact e

/-- the rate of change on the global array. -/
theorem div_consistent (nd : ℕ) (sol : MeshRun.Solver) (small : ℝ) (hsol : sol = .llf ∨ small = 0) (val : Bool) (hS : SmoothAt eps G L gdet gammadet q x0) (w : Coord)
    (hw : ∀ d, 0 < w d) (p0 : Pos) (P : Phys ℝ 11) (hew : 0 < P.ew) (hfix : ∀ d p F, P.fix d p F = F) (hrad : ∀ d p st m, P.rad d p st m = 0)
    (r : ℤ) (ζ : Fin 11 → ℝ) (X : ℝ → Fields ℝ 11) (hX : Samples w p0 r (q x0) ζ (fderiv ℝ q x0) X) (p1 : Pos) (hp1 : ∀ e, |p1 e - p0 e| ≤ r - 5) (k : ℕ) :
    Tendsto (fun h => refDiv nd (fun d => h * w d) (refAll nd (refined sol small eps val G L gdet gammadet x0 w p0 P h) (X h)) k p1) (𝓝[>] 0)
      (𝓝 (-∑ d : Fin 3, if d.val < nd then fderiv ℝ (fun y => gdet y * physFlux val (G y) (q y) d k) x0 (Pi.single d 1) else 0)) := by
  unfold refDiv
  refine Tendsto.neg (tendsto_finset_sum _ fun d _ => ?_)
  split_ifs
  · obtain ⟨h0, h1⟩ := diff_deriv nd sol small hsol val hS w p0 P hew hfix hrad r ζ X hX p1 hp1 d k
    rw [hasDerivWithinAt_iff_tendsto_slope' (by simp)] at h1
    have h2 := h1.div_const (w d)
    rw [mul_comm, mul_div_assoc, div_self (hw d).ne', mul_one, (density_physical val hS d k).fderiv_eq] at h2
    refine h2.congr fun h => ?_
    simp only at h0
    simp only [slope, vsub_eq_sub, smul_eq_mul, sub_zero]
    rw [h0, sub_self, sub_zero, inv_mul_eq_div, div_div]
  · exact tendsto_const_nhds

/-- **C147**: a cell of a block of a mesh, whatever the memory contained and in whatever order the loop ran.  The primitive variables of the cells are those of a
differentiable state at the cell centres, the geometry is differentiable, and the state at the cell is inside all floors and ceilings.  With any reconstruction method of
the program and the LLF or HLL solver, in one, two or three dimensions, with constrained transport: as the cells shrink, the rate of change of every conserved variable from the
fluxes tends to minus the divergence of the physical flux. -/
theorem rate_consistent (sol : MeshRun.Solver) (small : ℝ) (hsol : sol = .llf ∨ small = 0) (val : Bool) (hS : SmoothAt eps G L gdet gammadet q x0) (w : Coord)
    (hw : ∀ d, 0 < w d) (P : Phys ℝ 11) (hew : 0 < P.ew) (hfix : ∀ d p F, P.fix d p F = F) (hrad : ∀ d p st m, P.rad d p st m = 0)
    (b : Blk) (hg : 1 + radius P.rt ≤ b.g) (off c : Pos) (hc : b.Interior c) (M : ℝ → Mem ℝ 11) (ho : ∀ h, Covers b (M h).order) (cur : ℝ → Fields ℝ 11)
    (hcur : ∀ h, 0 < h → ∀ a, b.Entire a → (cur h a).2 = q (centre x0 w c h a)) (k : ℕ) :
    Tendsto (fun h =>
        let stage := refined sol small eps val G L gdet gammadet x0 w (fun e => c e + off e) P h
        rate stage.dx b (blockFlux stage b off (M h) (cur h)) k c) (𝓝[>] 0)
      (𝓝 (-∑ d : Fin 3, if d.val < b.ndim then fderiv ℝ (fun y => gdet y * physFlux val (G y) (q y) d k) x0 (Pi.single d 1) else 0)) := by
  set p0 : Pos := fun e => c e + off e with hp0
  set Y : ℝ → Fields ℝ 11 := fun h p => ((cur h fun e => p e - off e).1, q (centre x0 w p0 h p)) with hY
  have key := div_consistent b.ndim sol small hsol val hS w hw p0 P hew hfix hrad 5 0 Y (samples_state x0 w p0 5 q hS.state Y fun _ _ => rfl) p0 (by simp) k
  refine key.congr' ?_
  filter_upwards [self_mem_nhdsWithin] with h hh
  have hYc : ∀ a, b.Entire a → cur h a = Y h fun e => a e + off e := by
    intro a ha
    have e1 : (fun e => a e + off e - off e) = a := by funext e; ring
    have e2 : centre x0 w p0 h (fun e => a e + off e) = centre x0 w c h a := by
      unfold centre
      congr 2
      funext e
      simp only [hp0]
      push_cast
      ring
    refine Prod.ext ?_ ?_
    · simp only [hY, e1]
    · simp only [hY, e2]
      exact hcur h hh a ha
  exact (rate_global (refined sol small eps val G L gdet gammadet x0 w p0 P h) b hg off (M h) (ho h) (cur h) (Y h) hYc k c hc).symm

end

/-! ### Example: a density gradient carried along at three fifths of the speed of light -/

/-- the state of `exSur` with density `1 + x`. -/
noncomputable def exGrad : Coord → Fin 11 → ℝ := fun y => exSur.prims (1 + y 0)

theorem exGrad_diff (x : Coord) : DifferentiableAt ℝ exGrad x := by
  rw [differentiableAt_pi]
  intro i
  unfold exGrad Surround.prims
  fin_cases i
  · show DifferentiableAt ℝ (fun y : Coord => 1 + y 0) x
    fun_prop
  all_goals exact differentiableAt_const _

theorem ex_smooth : SmoothAt (1/1000) (fun _ => C2P.flat) (fun _ => exLim) (fun _ => 1) (fun _ => 1) exGrad 0 := by
  have e : exGrad 0 = exSur.prims 1 := by simp [exGrad]
  refine ⟨⟨differentiableAt_const _, fun _ => differentiableAt_const _, fun _ _ => differentiableAt_const _, fun _ _ => differentiableAt_const _⟩, fun _ => C2P.flat_valid.1,
    fun _ => by norm_num [C2P.flat], fun _ => C2P.flat_valid.2, differentiableAt_const _, continuousAt_const, exGrad_diff 0, by norm_num, continuousAt_const, continuousAt_const,
    continuousAt_const, continuousAt_const, ?_⟩
  rw [e]
  have hl : lorentz C2P.flat.gam (faceState (exSur.prims 1)).q.v = 5/4 := by rw [faceState_prims]; exact ex_lorentz
  rw [hl]
  have a0 : exSur.prims 1 0 = 1 := rfl
  have a4 : exSur.prims 1 4 = 1 := rfl
  have a9 : exSur.prims 1 9 = 1/3 := rfl
  rw [a0, a4, a9]
  norm_num [exLim]

theorem ex_mass_flux (y : Coord) (d : Fin 3) : physFlux true C2P.flat (exGrad y) d 0 = (1 + y 0) * if d = 0 then 3/4 else 0 := by
  have hu : tU 0 C2P.flat (exSur.prim (1 + y 0)) d.succ = if d = 0 then 3/4 else 0 := by
    rw [tU_split _ _ (by norm_num [C2P.flat])]
    simp only [Fin.cons_succ]
    fin_cases d <;> simp [C2P.flat, exSur, Surround.prim]
  unfold physFlux exGrad
  simp only [faceState_prims, slot, if_true]
  rw [hu]; rfl

/-- **C147 (concrete)**: a gradient of the density of 1 carried along with four-velocity 3/4: whatever the reconstruction method, in a block of any shape, the computed rate of change of
the density tends to -3/4. -/
theorem ex_rate (rt : Method) (b : Blk) (hnd : 0 < b.ndim) (hg : 1 + radius rt ≤ b.g) (off c : Pos) (hc : b.Interior c) (M : ℝ → Mem ℝ 11) (ho : ∀ h, Covers b (M h).order) :
    Tendsto (fun h =>
        let stage := refined .llf 0 (1/1000) true (fun _ => C2P.flat) (fun _ => exLim) (fun _ => 1) (fun _ => 1) 0 (fun _ => 1) (fun e => c e + off e) { exMove with rt := rt, ew := 1/10^20 } h
        rate stage.dx b (blockFlux stage b off (M h) fun a => (fun _ => 0, exGrad (centre 0 (fun _ => 1) c h a))) 0 c) (𝓝[>] 0) (𝓝 (-(3/4))) := by
  have := rate_consistent (q := exGrad) .llf 0 (Or.inl rfl) true ex_smooth (fun _ => 1) (fun _ => one_pos) { exMove with rt := rt, ew := 1/10^20 } (by norm_num) (fun _ _ _ => rfl)
    (fun _ _ _ _ => rfl) b hg off c hc M ho (fun h a => (fun _ => 0, exGrad (centre 0 (fun _ => 1) c h a))) (fun _ _ _ _ => rfl) 0
  convert this using 2
  have hd : ∀ d : Fin 3, fderiv ℝ (fun y : Coord => 1 * physFlux true C2P.flat (exGrad y) d 0) 0 (Pi.single d 1) = if d = 0 then 3/4 else 0 := by
    intro d
    simp only [ex_mass_flux, one_mul]
    have h1 : HasFDerivAt (fun y : Coord => (1 + y 0) * (if d = 0 then (3/4 : ℝ) else 0)) ((if d = 0 then (3/4 : ℝ) else 0) • ContinuousLinearMap.proj (R := ℝ) (φ := fun _ : Fin 3 => ℝ) 0) 0 :=
      ((ContinuousLinearMap.proj (R := ℝ) (φ := fun _ : Fin 3 => ℝ) 0).hasFDerivAt.const_add 1).mul_const _
    rw [h1.fderiv]
    by_cases h : d = 0
    · subst h; simp
    · simp [h]
  simp only [hd, Fin.sum_univ_three]
  simp [hnd]

end Phoebus.Step
