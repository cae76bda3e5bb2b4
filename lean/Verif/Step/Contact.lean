import Verif.Step.Code
import Verif.MeshRun.CompProps

/-!
# A moving contact (C146)

Velocity, pressure, energy density, field and electron fraction are the same everywhere, the density is not.  Physics then only carries the density along
with the flow.  For the run of the code in a geometry that does not depend on position: the uniform quantities stay exactly as they are and the density
stays within its initial bounds.
-/
namespace Phoebus.Step
open FluxSweep Geom Riemann Rel

/-! ### Specification -/

/-- everything but the density: velocity (times the Lorentz factor), internal energy density, pressure, field, electron fraction, adiabatic index. -/
structure Surround where
  v : Fin 3 → ℝ
  u : ℝ
  P : ℝ
  B : Fin 3 → ℝ
  ye : ℝ
  g1 : ℝ

/-- the state of matter with density `ρ`. -/
def Surround.prim (c : Surround) (ρ : ℝ) : Prim := ⟨ρ, c.u, c.P, c.v, c.B⟩

/-- its primitive variables in the order of the program. -/
def Surround.prims (c : Surround) (ρ : ℝ) : Fin 11 → ℝ :=
  ![ρ, c.v 0, c.v 1, c.v 2, c.u, c.B 0, c.B 1, c.B 2, c.ye, c.P, c.g1]

/-- conserved variables computed by `p2c`, in the order of the program. -/
def ofCons (C : Cons) : Slots := ⟨C.D, C.S, C.tau, C.B, C.ye⟩

/-- a cell with density `ρ`: primitives, and the conserved variables that belong to them. -/
noncomputable def Surround.cell (c : Surround) (val : Bool) (G : ADM ℝ) (g : ℝ) (ρ : ℝ) : Cell ℝ 11 :=
  (slot (ofCons (p2c val G g c.ye (c.prim ρ))), c.prims ρ)

/-- the data are a contact with densities between `m` and `M`. -/
def IsContact (c : Surround) (val : Bool) (G : ADM ℝ) (g m M : ℝ) (X : Fields ℝ 11) : Prop := ∀ p, ∃ ρ, m ≤ ρ ∧ ρ ≤ M ∧ X p = c.cell val G g ρ

/-- the setting: a geometry with positive lapse, the same at all faces and in all cells, no floor or ceiling reached by densities between `m` and `M`, and a
bound `S d` for the signal speed at faces of direction `d` between two such densities. -/
structure Background (c : Surround) (sol : MeshRun.Solver) (eps : ℝ) (G : ADM ℝ) (L : Limits) (m M : ℝ) (S : Fin 3 → ℝ) : Prop where
  valid : G.Valid
  lapse : 0 < G.alpha
  pos : PosDef G
  floor : 0 < L.rhoFloor
  epsr : 0 < eps ∧ eps < 1/2
  order : m ≤ M
  inactive : ∀ ρ, m ≤ ρ → ρ ≤ M → Inactive G L (c.prim ρ)
  speed : ∀ d x y, m ≤ x → x ≤ M → m ≤ y → y ≤ M → numSpeed sol eps G L d (faceState (c.prims x)) (faceState (c.prims y)) ≤ S d

/-- a stage: fluxes of the code with constant or linear reconstruction, no sources, no change of the fluxes at boundaries, ghost cells are copies (periodic or
outflow), and the inversion gives back the contact states it is applied to. -/
structure ContactStage (c : Surround) (sol : MeshRun.Solver) (small eps : ℝ) (val : Bool) (G : ADM ℝ) (g : ℝ) (L : Limits) (m M : ℝ) (P : Phys ℝ 11) : Prop where
  code : ∃ P0, P = codePhys sol small eps val (fun _ _ => L) (fun _ _ => G) (fun _ _ => G.alpha * g) (fun _ _ => g) P0
  solver : sol = .llf ∨ small = 0
  recon : P.rt = .constant ∨ P.rt = .linear
  weight : 0 ≤ P.beta ∧ P.beta ≤ 1
  width : ∀ d, 0 < P.dx d
  fix : ∀ d p F, P.fix d p F = F
  rad : ∀ d p st k, P.rad d p st k = 0
  src : ∀ p ρ k, m ≤ ρ → ρ ≤ M → P.src p (c.prims ρ) k = 0
  inv : ∀ p ρ, m ≤ ρ → ρ ≤ M → P.inv p (c.cell val G g ρ).1 = c.cell val G g ρ
  mid : ∀ p ρ, m ≤ ρ → ρ ≤ M → P.mid p (c.cell val G g ρ) = c.cell val G g ρ
  bnd : ∀ p ρ, m ≤ ρ → ρ ≤ M → P.bnd p (c.cell val G g ρ) = c.cell val G g ρ

/-- Courant condition with number one half: twice the time step times the sum of the speeds over the widths is at most one. -/
def HalfCourant (nd : ℕ) (S : Fin 3 → ℝ) (P : Phys ℝ 11) (dt : ℝ) : Prop := 0 ≤ dt ∧ 2 * dt * (∑ d : Fin 3, if d.val < nd then S d / P.dx d else 0) ≤ 1

/-! ### Affine dependence on the density -/

/-- sum of two sets of conserved variables. -/
def sumSlots (U V : Slots) : Slots := ⟨U.rho + V.rho, fun i => U.mom i + V.mom i, U.eng + V.eng, fun i => U.B i + V.B i, U.ye + V.ye⟩

theorem slot_sum (U V : Slots) (m : ℕ) : slot (sumSlots U V) m = slot U m + slot V m := by
  unfold slot sumSlots
  split_ifs <;> simp

/-- what one unit of density carries. -/
noncomputable def unitMass (val : Bool) (G : ADM ℝ) (c : Surround) : Slots :=
  let W := lorentz G.gam c.v
  ⟨W, fun i => W * W * ∑ n : Fin 3, G.g4 i.succ n.succ * (c.v n / W), if val then W * W - W else W * (∑ ν, G.g4 0 ν * tU 0 G (c.prim 1) ν) + W, fun _ => 0, W * c.ye⟩

/-- coordinate velocity over lapse. -/
noncomputable def drift (G : ADM ℝ) (c : Surround) (d : Fin 3) : ℝ := c.v d / lorentz G.gam c.v - G.beta d / G.alpha

section
variable {G : ADM ℝ} {L : Limits} {c : Surround}

theorem tU_prim (ρ ρ' : ℝ) : tU 0 G (c.prim ρ) = tU 0 G (c.prim ρ') := rfl
theorem tB_prim (ρ ρ' : ℝ) : tB 0 G (c.prim ρ) = tB 0 G (c.prim ρ') := rfl
theorem tbsq_prim (ρ ρ' : ℝ) : tbsq 0 G (c.prim ρ) = tbsq 0 G (c.prim ρ') := rfl
theorem tBdotv_prim (ρ ρ' : ℝ) : tBdotv G (c.prim ρ) = tBdotv G (c.prim ρ') := rfl

theorem tU0 (ha : 0 < G.alpha) (q : Prim) : tU 0 G q 0 = lorentz G.gam q.v / G.alpha := by
  rw [tU_split G q ha]; rfl

theorem fluxU_affine (val : Bool) (ρ ρ' : ℝ) (h : G.Valid) (ha : 0 < G.alpha) (hp : PosDef G) (hi : Inactive G L (c.prim ρ)) (hi' : Inactive G L (c.prim ρ')) :
    fluxU val G L c.ye (c.prim ρ) = sumSlots (fluxU val G L c.ye (c.prim ρ')) ((unitMass val G c).scale (ρ - ρ')) := by
  have ha' := ha.ne'
  simp only [fluxU, sumSlots, Slots.scale, unitMass, fRho_eq hi, fU_eq hi, fP_eq hi, fW_eq hi hp, frhohWsq, fbsq_eq hi hp, fvcov, fV_eq hi hp,
    fb0, fBdotv_eq hi hp, fbcov_eq hi hp h ha, fucon_eq hi hp ha, fbcon_eq hi hp ha, fRho_eq hi', fU_eq hi', fP_eq hi', fW_eq hi' hp, fbsq_eq hi' hp, fV_eq hi' hp,
    fBdotv_eq hi' hp, fbcov_eq hi' hp h ha, fucon_eq hi' hp ha, fbcon_eq hi' hp ha, tU_prim ρ 1, tU_prim ρ' 1, tB_prim ρ 1, tB_prim ρ' 1, tbsq_prim ρ 1, tbsq_prim ρ' 1,
    tBdotv_prim ρ 1, tBdotv_prim ρ' 1, tU0 ha, lower]
  generalize tU 0 G (c.prim 1) = U0
  simp only [Surround.prim, Slots.mk.injEq]
  refine ⟨by ring, by funext m; ring, ?_, by funext m; ring, by ring⟩
  cases val
  · simp only [Bool.false_eq_true, if_false]
    field_simp
    ring
  · simp only [if_true]; ring

theorem fluxF_affine (val : Bool) (ρ ρ' : ℝ) (d : Fin 3) (h : G.Valid) (ha : 0 < G.alpha) (hp : PosDef G) (hi : Inactive G L (c.prim ρ))
    (hi' : Inactive G L (c.prim ρ')) :
    fluxF val G L c.ye (c.prim ρ) d = sumSlots (fluxF val G L c.ye (c.prim ρ') d) ((unitMass val G c).scale ((ρ - ρ') * drift G c d)) := by
  have ha' := ha.ne'
  have hW := (lorentz_pos G hp c.v).ne'
  have hud : tU 0 G (c.prim 1) d.succ = lorentz G.gam c.v * drift G c d := by
    rw [tU_split G _ ha, Fin.cons_succ]
    simp only [Surround.prim, drift]
    field_simp
  simp only [fluxF, fluxU, sumSlots, Slots.scale, unitMass, fRho_eq hi, fU_eq hi, fP_eq hi, fW_eq hi hp, frhohWsq, fbsq_eq hi hp, fvcov, fV_eq hi hp, fVtil,
    fb0, fBdotv_eq hi hp, fbcov_eq hi hp h ha, fucon_eq hi hp ha, fbcon_eq hi hp ha, fRho_eq hi', fU_eq hi', fP_eq hi', fW_eq hi' hp, fbsq_eq hi' hp, fV_eq hi' hp,
    fBdotv_eq hi' hp, fbcov_eq hi' hp h ha, fucon_eq hi' hp ha, fbcon_eq hi' hp ha, tU_prim ρ 1, tU_prim ρ' 1, tB_prim ρ 1, tB_prim ρ' 1, tbsq_prim ρ 1, tbsq_prim ρ' 1,
    tBdotv_prim ρ 1, tBdotv_prim ρ' 1, hud, lower]
  clear hud
  generalize tU 0 G (c.prim 1) = U0
  simp only [Surround.prim, Slots.mk.injEq]
  unfold drift
  refine ⟨by ring, by funext m; ring, ?_, by funext m; ring, by ring⟩
  cases val
  · simp only [Bool.false_eq_true, if_false]; ring
  · simp only [if_true]; ring

theorem p2c_affine (val : Bool) (g ρ ρ' : ℝ) (ha : 0 < G.alpha) (hp : PosDef G) :
    ofCons (p2c val G g c.ye (c.prim ρ)) = sumSlots (ofCons (p2c val G g c.ye (c.prim ρ'))) ((unitMass val G c).scale (g * (ρ - ρ'))) := by
  have ha' := ha.ne'
  have hW := (lorentz_pos G hp c.v).ne'
  have e : ∀ r, (Fin.cons (lorentz G.gam (c.prim r).v / G.alpha) fun i => (c.prim r).v i - G.beta i * lorentz G.gam (c.prim r).v / G.alpha : Fin 4 → ℝ) = tU 0 G (c.prim 1) := by
    intro r; rw [tU_split G _ ha, Fin.cons_inj]; exact ⟨rfl, by funext i; simp only [Surround.prim]; ring⟩
  have e1 : ∀ r, pbsq G (c.prim r) = pbsq G (c.prim 1) := fun r => rfl
  have e2 : ∀ r, pBdotv G (c.prim r) = pBdotv G (c.prim 1) := fun r => rfl
  have e3 : ∀ r, pbcov G (c.prim r) = pbcov G (c.prim 1) := fun r => rfl
  have e4 : ∀ r, pbcon G (c.prim r) = pbcon G (c.prim 1) := fun r => rfl
  have e5 : ∀ r n, pv G (c.prim r) n = c.v n / lorentz G.gam c.v := fun r n => by simp only [pv, Surround.prim]; ring
  simp only [ofCons, p2c, sumSlots, Slots.scale, unitMass, e, e1 ρ, e1 ρ', e2 ρ, e2 ρ', e3 ρ, e3 ρ', e4 ρ, e4 ρ', e5, tU0 ha, lower]
  generalize tU 0 G (c.prim 1) = U0
  simp only [Surround.prim, Slots.mk.injEq]
  refine ⟨by ring, by funext m; ring, ?_, by funext m; ring, by ring⟩
  cases val
  · simp only [Bool.false_eq_true, if_false]
    field_simp
    ring
  · simp only [if_true]; ring

/-! ### One face -/

/-- the two characteristic speeds differ. -/
theorem speeds_lt (eps : ℝ) (he : 0 < eps) (he1 : eps < 1/2) (hp : PosDef G) (ha : 0 < G.alpha) (g1 : ℝ) (q : Prim) (hi : Inactive G L q) (d : Fin 3) :
    (MeshRun.codeSpeeds eps G L g1 q d).1 < (MeshRun.codeSpeeds eps G L g1 q d).2 := by
  obtain ⟨c0, c1⟩ := Riemann.cmsq_bounds eps G L g1 q he he1
  have hW := lorentz_ge_one G hp q.v
  have hv0 : 0 ≤ fVsq G L q := by
    rw [fVsq_eq hi hp, sub_nonneg, div_le_one (by positivity)]; nlinarith
  have hv1 : fVsq G L q < 1 := by
    rw [fVsq_eq hi hp]; have : 0 < 1 / lorentz G.gam q.v ^ 2 := by positivity
    linarith
  unfold MeshRun.codeSpeeds charSpeed
  simp only
  have hden : 0 < 1 - fVsq G L q * fcmsq eps G L g1 q := by nlinarith
  have hs : 0 < Real.sqrt (Robust.makePositive eps (fcmsq eps G L g1 q * (1 - fVsq G L q) * (G.gamInv d d * (1 - fVsq G L q * fcmsq eps G L g1 q) -
      fV G L q d * (fV G L q d * (1 - fcmsq eps G L g1 q))))) := by
    apply Real.sqrt_pos.2
    unfold Robust.makePositive
    exact lt_of_lt_of_le he (le_max_right _ _)
  have := mul_pos (div_pos ha hden) hs
  linarith

/-- the signal speed of a face from the characteristic speeds on its two sides, riemann.hpp:269-275 and 291-300. -/
noncomputable def pairSpeed (sol : MeshRun.Solver) (sl sr : ℝ × ℝ) : ℝ :=
  match sol with
  | .llf => Timestep.llfSpeed sl.1 sl.2 sr.1 sr.2
  | .hll => Timestep.hllSpeed sl.1 sl.2 sr.1 sr.2

/-- the numerical flux of a quantity that is carried along: what crosses the face from either side, with weights that add up to the drift and are not
larger than the signal speed of the face. -/
theorem comb_contact (sol : MeshRun.Solver) (small α g w : ℝ) (hsol : sol = .llf ∨ small = 0) (sl sr : ℝ × ℝ) (l1 : sl.1 ≤ w) (l2 : w ≤ sl.2) (l3 : sl.1 < sl.2)
    (r1 : sr.1 ≤ w) (r2 : w ≤ sr.2) (ha : 0 < α) :
    ∃ ap am, 0 ≤ ap ∧ 0 ≤ am ∧ ap - am = w ∧
      ap ≤ pairSpeed sol sl sr ∧
      am ≤ pairSpeed sol sl sr ∧
      ∀ F U b x y : ℝ, comb sol small (α * g) g sl sr (F + x * (w / α) * b) (F + y * (w / α) * b) (U + x * b) (U + y * b) = α * g * F + g * b * (ap * x - am * y) := by
  cases sol with
  | llf =>
    simp only [comb, llf, pairSpeed, Timestep.llfSpeed]
    set k := max (max (-sl.1) sl.2) (max (-sr.1) sr.2)
    have c1 : -sl.1 ≤ k := (le_max_left _ _).trans (le_max_left _ _)
    have c2 : sl.2 ≤ k := (le_max_right _ _).trans (le_max_left _ _)
    refine ⟨(k + w) / 2, (k - w) / 2, by linarith, by linarith, by ring, by linarith, by linarith, fun F U b x y => ?_⟩
    have h5 : (0.5 : ℝ) = 1 / 2 := by norm_num
    rw [h5]
    field_simp
    ring
  | hll =>
    have hs : small = 0 := by simpa using hsol
    subst hs
    simp only [comb, hll, pairSpeed, Timestep.hllSpeed, Rel.ratio_zero]
    set cl := min (min sl.1 sr.1) 0
    set cr := max (max sl.2 sr.2) 0
    have c1 : cl ≤ sl.1 := (min_le_left _ _).trans (min_le_left _ _)
    have c2 : sl.2 ≤ cr := (le_max_left _ _).trans (le_max_left _ _)
    have c3 : cl ≤ 0 := min_le_right _ _
    have c4 : 0 ≤ cr := le_max_right _ _
    have hd : 0 < cr - cl := by linarith
    refine ⟨cr * (w - cl) / (cr - cl), -cl * (cr - w) / (cr - cl), div_nonneg (mul_nonneg c4 (by linarith)) hd.le,
      div_nonneg (mul_nonneg (by linarith) (by linarith)) hd.le, ?_, ?_, ?_, fun F U b x y => ?_⟩
    · rw [← sub_div, div_eq_iff hd.ne']; ring
    · refine le_trans ?_ (le_max_right _ _)
      rw [div_le_iff₀ hd]; exact mul_le_mul_of_nonneg_left (by linarith) c4
    · refine le_trans ?_ (le_max_left _ _)
      rw [div_le_iff₀ hd]; exact mul_le_mul_of_nonneg_left (by linarith) (by linarith)
    · have := hd.ne'
      field_simp
      ring

end

/-! ### One stage -/

theorem kernel_edges (ew em : ℝ) (rt : Method) (hrt : rt = .constant ∨ rt = .linear) (q : ℤ → ℝ) (m M : ℝ) (hq : ∀ k, m ≤ q k ∧ q k ≤ M) :
    (m ≤ (kernel ew em rt q).1 ∧ (kernel ew em rt q).1 ≤ M) ∧ (m ≤ (kernel ew em rt q).2 ∧ (kernel ew em rt q).2 ≤ M) ∧
      (kernel ew em rt q).1 + (kernel ew em rt q).2 = 2 * q 0 := by
  rcases hrt with rfl | rfl
  · simp only [kernel, Recon.piecewiseConstant]
    exact ⟨hq 0, hq 0, by ring⟩
  · simp only [kernel]
    obtain ⟨h1, h2, h3, -⟩ := Recon.plm_no_overshoot (q (-1)) (q 0) (q 1)
    rw [Set.mem_uIcc] at h1 h2
    have a := hq 0
    have b := hq 1
    have e := hq (-1)
    refine ⟨?_, ?_, h3⟩
    · rcases h1 with h | h <;> constructor <;> linarith
    · rcases h2 with h | h <;> constructor <;> linarith

theorem kernel_same (ew em : ℝ) (rt : Method) (hrt : rt = .constant ∨ rt = .linear) (q : ℤ → ℝ) (Y : ℝ) (hq : ∀ k, q k = Y) :
    (kernel ew em rt q).1 = Y ∧ (kernel ew em rt q).2 = Y := by
  obtain ⟨h1, h2, -⟩ := kernel_edges ew em rt hrt q Y Y fun k => ⟨(hq k).ge, (hq k).le⟩
  exact ⟨le_antisymm h1.2 h1.1, le_antisymm h2.2 h2.1⟩

/-- constrained transport leaves a flux alone whose field part is the same at all faces of a direction. -/
theorem ct_uniform (nd : ℕ) (Φ : Fin 3 → Pos → ℕ → ℝ) (A : Fin 3 → ℕ → ℝ) (b : ℕ → ℝ) (φ : Fin 3 → Pos → ℝ) (h : ∀ d p k, Φ d p k = A d k + b k * φ d p)
    (hb : ∀ i : Fin 3, b (5 + i.val) = 0) (d : Fin 3) (p p' : Pos) (k : ℕ) :
    refCT nd (some 5) Φ d p k - refCT nd (some 5) Φ d p' k = b k * (φ d p - φ d p') := by
  have hB : ∀ a (i : Fin 3) q, Φ a q (5 + i.val) = A a (5 + i.val) := fun a i q => by rw [h, hb, zero_mul, add_zero]
  unfold refCT
  simp only
  split_ifs with h1 h2
  · have : b k = 0 := by
      have := hb ⟨k - 5, by omega⟩
      simp only at this
      rwa [show 5 + (k - 5) = k by omega] at this
    rw [this]; ring
  · have : b k = 0 := by
      have := hb ⟨k - 5, by omega⟩
      simp only at this
      rwa [show 5 + (k - 5) = k by omega] at this
    rw [this]
    have hB' : ∀ a q, Φ a q (5 + (k - 5)) = A a (5 + (k - 5)) := fun a q => hB a ⟨k - 5, by omega⟩ q
    unfold emfAt
    simp only [hB, hB']
    ring
  · rw [h, h]; ring

theorem faceState_prims (c : Surround) (x : ℝ) : faceState (c.prims x) = ⟨c.ye, c.g1, c.prim x⟩ := by
  unfold faceState Surround.prims Surround.prim
  simp only [FaceState.mk.injEq, Prim.mk.injEq]
  refine ⟨by simp [Matrix.cons_val], by simp [Matrix.cons_val], by simp, by simp [Matrix.cons_val], by simp [Matrix.cons_val], ?_, ?_⟩
  · funext i; fin_cases i <;> simp [Matrix.cons_val]
  · funext i; fin_cases i <;> simp [Matrix.cons_val]

theorem numFlux_slot (sol : MeshRun.Solver) (small eps : ℝ) (val : Bool) (G : ADM ℝ) (L : Limits) (gdet gammadet : ℝ) (d : Fin 3) (l r : FaceState) (k : ℕ) :
    slot (numFlux sol small eps val G L gdet gammadet d l r) k =
      comb sol small gdet gammadet (MeshRun.codeSpeeds eps G L l.g1 l.q d) (MeshRun.codeSpeeds eps G L r.g1 r.q d) (slot (fluxF val G L l.ye l.q d) k)
        (slot (fluxF val G L r.ye r.q d) k) (slot (fluxU val G L l.ye l.q) k) (slot (fluxU val G L r.ye r.q) k) := by
  have hz : ∀ sl sr, comb sol small gdet gammadet sl sr 0 0 0 0 = 0 := fun sl sr => by cases sol <;> simp [comb, llf, hll]
  unfold numFlux
  generalize MeshRun.codeSpeeds eps G L l.g1 l.q d = sl
  generalize MeshRun.codeSpeeds eps G L r.g1 r.q d = sr
  generalize fluxF val G L l.ye l.q d = Fl
  generalize fluxF val G L r.ye r.q d = Fr
  generalize fluxU val G L l.ye l.q = Ul
  generalize fluxU val G L r.ye r.q = Ur
  unfold slot
  by_cases h0 : k = 0
  · simp [h0]
  by_cases h1 : k = 1
  · simp [h1]
  by_cases h2 : k = 2
  · simp [h2]
  by_cases h3 : k = 3
  · simp [h3]
  by_cases h4 : k = 4
  · simp [h4]
  by_cases h5 : k = 5
  · simp [h5]
  by_cases h6 : k = 6
  · simp [h6]
  by_cases h7 : k = 7
  · simp [h7]
  by_cases h8 : k = 8
  · simp [h8]
  simp only [h0, h1, h2, h3, h4, h5, h6, h7, h8, if_false]
  exact (hz sl sr).symm

/-- the flux at a face between two densities. -/
theorem face_contact {c : Surround} {sol : MeshRun.Solver} {small eps : ℝ} {val : Bool} {G : ADM ℝ} {g : ℝ} {L : Limits} {m M : ℝ} {S : Fin 3 → ℝ}
    (hB : Background c sol eps G L m M S) (hsol : sol = .llf ∨ small = 0) (d : Fin 3) (x y : ℝ) (hx : m ≤ x ∧ x ≤ M) (hy : m ≤ y ∧ y ≤ M) :
    ∃ ap am, 0 ≤ ap ∧ 0 ≤ am ∧ ap - am = G.alpha * drift G c d ∧ ap ≤ S d ∧ am ≤ S d ∧
      ∀ k, slot (numFlux sol small eps val G L (G.alpha * g) g d (faceState (c.prims x)) (faceState (c.prims y))) k =
        G.alpha * g * slot (fluxF val G L c.ye (c.prim m) d) k + g * slot (unitMass val G c) k * (ap * (x - m) - am * (y - m)) := by
  have ix := hB.inactive x hx.1 hx.2
  have iy := hB.inactive y hy.1 hy.2
  have im := hB.inactive m le_rfl hB.order
  have hga : 1 ≤ L.gamMax := (lorentz_ge_one G hB.pos _).trans ix.gam
  have hsi : L.sieFloor ≤ L.sieMax := ix.sie_lo.le.trans ix.sie_hi
  have hdr : ∀ z, Inactive G L (c.prim z) → fVtil G L (c.prim z) d = drift G c d := fun z iz => by
    unfold fVtil drift; rw [fV_eq iz hB.pos]; rfl
  have bx := MeshRun.speeds_bracket eps hB.epsr.1 hB.epsr.2 G hB.valid hB.pos hB.lapse L hga hB.floor hsi c.g1 (c.prim x) d
  have by' := MeshRun.speeds_bracket eps hB.epsr.1 hB.epsr.2 G hB.valid hB.pos hB.lapse L hga hB.floor hsi c.g1 (c.prim y) d
  rw [hdr x ix] at bx
  rw [hdr y iy] at by'
  obtain ⟨ap, am, h1, h2, h3, h4, h5, h6⟩ := comb_contact sol small G.alpha g (G.alpha * drift G c d) hsol _ _ bx.1 bx.2
    (speeds_lt eps hB.epsr.1 hB.epsr.2 hB.pos hB.lapse c.g1 (c.prim x) ix d) by'.1 by'.2 hB.lapse
  have hsp := hB.speed d x y hx.1 hx.2 hy.1 hy.2
  rw [faceState_prims, faceState_prims] at hsp
  have hps : pairSpeed sol (MeshRun.codeSpeeds eps G L c.g1 (c.prim x) d) (MeshRun.codeSpeeds eps G L c.g1 (c.prim y) d) ≤ S d := hsp
  refine ⟨ap, am, h1, h2, h3, h4.trans hps, h5.trans hps, fun k => ?_⟩
  have hw : G.alpha * drift G c d / G.alpha = drift G c d := mul_div_cancel_left₀ _ hB.lapse.ne'
  rw [hw] at h6
  rw [faceState_prims, faceState_prims]
  have e : ∀ F U b, comb sol small (G.alpha * g) g (MeshRun.codeSpeeds eps G L c.g1 (c.prim x) d) (MeshRun.codeSpeeds eps G L c.g1 (c.prim y) d)
      (F + (x - m) * drift G c d * b) (F + (y - m) * drift G c d * b) (U + (x - m) * b) (U + (y - m) * b) =
      G.alpha * g * F + g * b * (ap * (x - m) - am * (y - m)) := fun F U b => h6 F U b (x - m) (y - m)
  rw [numFlux_slot]
  rw [fluxU_affine val x m hB.valid hB.lapse hB.pos ix im, fluxU_affine val y m hB.valid hB.lapse hB.pos iy im,
    fluxF_affine val x m d hB.valid hB.lapse hB.pos ix im, fluxF_affine val y m d hB.valid hB.lapse hB.pos iy im]
  simp only [slot_sum, slot_scale]
  exact e _ _ _

/-- the weights of `face_contact` as a function of the two densities. -/
theorem face_weights {c : Surround} {sol : MeshRun.Solver} {small eps : ℝ} {val : Bool} {G : ADM ℝ} {g : ℝ} {L : Limits} {m M : ℝ} {S : Fin 3 → ℝ}
    (hB : Background c sol eps G L m M S) (hsol : sol = .llf ∨ small = 0) :
    ∃ σ : Fin 3 → ℝ → ℝ → ℝ, ∀ d x y, m ≤ x ∧ x ≤ M → m ≤ y ∧ y ≤ M →
      (0 ≤ σ d x y ∧ 0 ≤ G.alpha * drift G c d + σ d x y ∧ σ d x y ≤ S d ∧ G.alpha * drift G c d + σ d x y ≤ S d) ∧
      ∀ k, slot (numFlux sol small eps val G L (G.alpha * g) g d (faceState (c.prims x)) (faceState (c.prims y))) k =
        G.alpha * g * slot (fluxF val G L c.ye (c.prim m) d) k + g * slot (unitMass val G c) k * ((G.alpha * drift G c d + σ d x y) * (x - m) - σ d x y * (y - m)) := by
  have h : ∀ d x y, ∃ a : ℝ, m ≤ x ∧ x ≤ M → m ≤ y ∧ y ≤ M →
      (0 ≤ a ∧ 0 ≤ G.alpha * drift G c d + a ∧ a ≤ S d ∧ G.alpha * drift G c d + a ≤ S d) ∧
      ∀ k, slot (numFlux sol small eps val G L (G.alpha * g) g d (faceState (c.prims x)) (faceState (c.prims y))) k =
        G.alpha * g * slot (fluxF val G L c.ye (c.prim m) d) k + g * slot (unitMass val G c) k * ((G.alpha * drift G c d + a) * (x - m) - a * (y - m)) := by
    intro d x y
    by_cases hx : m ≤ x ∧ x ≤ M
    · by_cases hy : m ≤ y ∧ y ≤ M
      · obtain ⟨ap, am, h1, h2, h3, h4, h5, h6⟩ := face_contact (small := small) (val := val) (g := g) hB hsol d x y hx hy
        have e : ap = G.alpha * drift G c d + am := by linarith
        subst e
        exact ⟨am, fun _ _ => ⟨⟨h2, h1, h5, h4⟩, h6⟩⟩
      · exact ⟨0, fun _ h => absurd h hy⟩
    · exact ⟨0, fun h => absurd h hx⟩
  choose σ hσ using h
  exact ⟨σ, hσ⟩

/-- density reconstructed on the left side of the face at `p`. -/
noncomputable def densL (P : Phys ℝ 11) (r : Pos → ℝ) (d : Fin 3) (p : Pos) : ℝ := (kernel P.ew P.em P.rt fun k => r fun e => p e + (k - 1) * unit d e).1

/-- density reconstructed on the right side of the face at `p`. -/
noncomputable def densR (P : Phys ℝ 11) (r : Pos → ℝ) (d : Fin 3) (p : Pos) : ℝ := (kernel P.ew P.em P.rt fun k => r fun e => p e + k * unit d e).2

/-- the density after a stage: it is carried by what crosses the faces from either side; `a` is the coordinate velocity, `σ` the excess that crosses both ways. -/
noncomputable def carried (P : Phys ℝ 11) (nd : ℕ) (dt : ℝ) (a : Fin 3 → ℝ) (σ : Fin 3 → ℝ → ℝ → ℝ) (r0 r : Pos → ℝ) (p : Pos) : ℝ :=
  let F : Fin 3 → Pos → ℝ := fun d p => (a d + σ d (densL P r d p) (densR P r d p)) * densL P r d p - σ d (densL P r d p) (densR P r d p) * densR P r d p
  P.beta * (r p - dt * ∑ d : Fin 3, if d.val < nd then (F d (fun e => p e + unit d e) - F d p) / P.dx d else 0) + (1 - P.beta) * r0 p

/-- **C146 (one stage)**: a contact stays a contact, with densities within the same bounds, and the new densities are the carried ones. -/
theorem stage_density {c : Surround} {sol : MeshRun.Solver} {small eps : ℝ} {val : Bool} {G : ADM ℝ} {g : ℝ} {L : Limits} {m M : ℝ} {S : Fin 3 → ℝ}
    (hB : Background c sol eps G L m M S) (P : Phys ℝ 11) (hP : ContactStage c sol small eps val G g L m M P) (nd : ℕ) (dt : ℝ) (hdt : HalfCourant nd S P dt)
    (wrap : Pos → Pos) (base cur : Fields ℝ 11) (hb : IsContact c val G g m M base) (hc : IsContact c val G g m M cur) :
    ∃ σ : Fin 3 → ℝ → ℝ → ℝ, (∀ d x y, m ≤ x ∧ x ≤ M → m ≤ y ∧ y ≤ M →
        0 ≤ σ d x y ∧ 0 ≤ G.alpha * drift G c d + σ d x y ∧ σ d x y ≤ S d ∧ G.alpha * drift G c d + σ d x y ≤ S d) ∧
      ∀ p, let ρ := carried P nd dt (fun d => G.alpha * drift G c d) σ (fun q => (base q).2 0) (fun q => (cur q).2 0) (wrap p)
        m ≤ ρ ∧ ρ ≤ M ∧ refFields nd wrap dt base cur P p = c.cell val G g ρ := by
  choose r0 h0a h0b h0 using hb
  choose r ha hb hr using hc
  -- face densities
  set R := kernel P.ew P.em P.rt with hR
  let rl : Fin 3 → Pos → ℝ := fun d p => (R fun k => r fun e => p e + (k - 1) * unit d e).1
  let rr : Fin 3 → Pos → ℝ := fun d p => (R fun k => r fun e => p e + k * unit d e).2
  have hrl : ∀ d p, m ≤ rl d p ∧ rl d p ≤ M := fun d p => (kernel_edges P.ew P.em P.rt hP.recon _ m M fun k => ⟨ha _, hb _⟩).1
  have hrr : ∀ d p, m ≤ rr d p ∧ rr d p ≤ M := fun d p => (kernel_edges P.ew P.em P.rt hP.recon _ m M fun k => ⟨ha _, hb _⟩).2.1
  have hmean : ∀ d p, rl d (fun e => p e + unit d e) + rr d p = 2 * r p := fun d p => by
    have := (kernel_edges P.ew P.em P.rt hP.recon (fun k => r fun e => p e + k * unit d e) m M fun k => ⟨ha _, hb _⟩).2.2
    simp only [zero_mul, add_zero] at this
    rw [← this]
    show (R fun k => r fun e => p e + unit d e + (k - 1) * unit d e).1 + _ = _
    congr 2
    have : (fun k : ℤ => r fun e => p e + unit d e + (k - 1) * unit d e) = fun k => r fun e => p e + k * unit d e := by
      funext k; congr 1; funext e; ring
    rw [this]
  have hv : (fun (n : Fin 11) (q : Pos) => (cur q).2 n) = fun n q => c.prims (r q) n := by funext n q; rw [hr q]; rfl
  have hL : ∀ d p, stateL R (fun n q => (cur q).2 n) d p = c.prims (rl d p) := by
    intro d p
    rw [hv]
    funext n
    by_cases hn : n = 0
    · subst hn; rfl
    · have : ∀ x y, c.prims x n = c.prims y n := fun x y => by
        unfold Surround.prims
        fin_cases n <;> first | exact absurd rfl hn | rfl
      exact (kernel_same P.ew P.em P.rt hP.recon _ (c.prims (rl d p) n) fun k => this _ _).1
  have hRt : ∀ d p, stateR R (fun n q => (cur q).2 n) d p = c.prims (rr d p) := by
    intro d p
    rw [hv]
    funext n
    by_cases hn : n = 0
    · subst hn; rfl
    · have : ∀ x y, c.prims x n = c.prims y n := fun x y => by
        unfold Surround.prims
        fin_cases n <;> first | exact absurd rfl hn | rfl
      exact (kernel_same P.ew P.em P.rt hP.recon _ (c.prims (rr d p) n) fun k => this _ _).2
  -- fluxes
  obtain ⟨σ, hσ⟩ := face_weights (small := small) (val := val) (g := g) hB hP.solver
  let am : Fin 3 → Pos → ℝ := fun d p => σ d (rl d p) (rr d p)
  let ap : Fin 3 → Pos → ℝ := fun d p => G.alpha * drift G c d + σ d (rl d p) (rr d p)
  have p1 : ∀ d p, 0 ≤ ap d p := fun d p => (hσ d _ _ (hrl d p) (hrr d p)).1.2.1
  have p2 : ∀ d p, 0 ≤ am d p := fun d p => (hσ d _ _ (hrl d p) (hrr d p)).1.1
  have p3 : ∀ d p, ap d p - am d p = G.alpha * drift G c d := fun d p => by simp only [ap, am]; ring
  have p4 : ∀ d p, ap d p ≤ S d := fun d p => (hσ d _ _ (hrl d p) (hrr d p)).1.2.2.2
  have p5 : ∀ d p, am d p ≤ S d := fun d p => (hσ d _ _ (hrl d p) (hrr d p)).1.2.2.1
  have p6 := fun d p => (hσ d _ _ (hrl d p) (hrr d p)).2
  let φ : Fin 3 → Pos → ℝ := fun d p => ap d p * (rl d p - m) - am d p * (rr d p - m)
  obtain ⟨P0, hcode⟩ := hP.code
  have hmhd : P.mhd = some 5 := by rw [hcode]; rfl
  have hS : ∀ d p x y, P.S d p x y = slot (numFlux sol small eps val G L (G.alpha * g) g d (faceState x) (faceState y)) := by rw [hcode]; intros; rfl
  have hflux : ∀ d p k, refFlux P cur d p k = G.alpha * g * slot (fluxF val G L c.ye (c.prim m) d) k + g * slot (unitMass val G c) k * φ d p := by
    intro d p k
    unfold refFlux
    rw [← hR, hL, hRt, hS]
    exact p6 d p k
  have hall : ∀ d p p' k, refAll nd P cur d p k - refAll nd P cur d p' k = g * slot (unitMass val G c) k * (φ d p - φ d p') := by
    intro d p p' k
    unfold refAll
    rw [hP.fix, hP.fix, hP.rad, hP.rad, hmhd, add_zero, add_zero]
    refine ct_uniform nd _ (fun d k => G.alpha * g * slot (fluxF val G L c.ye (c.prim m) d) k) (fun k => g * slot (unitMass val G c) k) φ hflux (fun i => ?_) d p p' k
    fin_cases i <;> simp [slot, unitMass]
  let Δ : Pos → ℝ := fun p => ∑ d : Fin 3, if d.val < nd then (φ d (fun e => p e + unit d e) - φ d p) / P.dx d else 0
  have hdiv : ∀ k p, refDiv nd P.dx (refAll nd P cur) k p = -(g * slot (unitMass val G c) k * Δ p) := by
    intro k p
    unfold refDiv
    rw [Finset.mul_sum]
    congr 1
    apply Finset.sum_congr rfl
    intro d _
    split_ifs
    · rw [hall]; ring
    · ring
  -- new density
  let r' : Pos → ℝ := fun p => P.beta * (r p - dt * Δ p) + (1 - P.beta) * r0 p
  have hcons : ∀ p, (fun k => P.beta * (cur p).1 k + (1 - P.beta) * (base p).1 k + P.beta * dt * (refDiv nd P.dx (refAll nd P cur) k p + P.src p (cur p).2 k)) =
      (c.cell val G g (r' p)).1 := by
    intro p
    funext k
    rw [hr p, h0 p, hdiv]
    have hsrc : P.src p (c.cell val G g (r p)).2 k = 0 := hP.src p (r p) k (ha p) (hb p)
    rw [hsrc]
    have haff : ∀ x, (c.cell val G g x).1 k = (c.cell val G g m).1 k + g * (x - m) * slot (unitMass val G c) k := fun x => by
      show slot (ofCons (p2c val G g c.ye (c.prim x))) k = slot (ofCons (p2c val G g c.ye (c.prim m))) k + _
      rw [p2c_affine val g x m hB.lapse hB.pos, slot_sum, slot_scale]
    rw [haff (r p), haff (r0 p), haff (r' p)]
    show _ = _ + g * (P.beta * (r p - dt * Δ p) + (1 - P.beta) * r0 p - m) * _
    ring
  -- bounds
  obtain ⟨hdt0, hdt1⟩ := hdt
  set sg := ∑ d : Fin 3, if d.val < nd then S d / P.dx d else 0 with hsg
  have hup : ∀ p, Δ p ≤ 2 * (r p - m) * sg := by
    intro p
    rw [hsg, Finset.mul_sum]
    apply Finset.sum_le_sum
    intro d _
    split_ifs
    · rw [mul_div_assoc']
      refine div_le_div_of_nonneg_right ?_ (hP.width d).le
      have a1 := mul_le_mul_of_nonneg_right (p4 d fun e => p e + unit d e) (by linarith [(hrl d fun e => p e + unit d e).1] : 0 ≤ rl d (fun e => p e + unit d e) - m)
      have a2 := mul_le_mul_of_nonneg_right (p5 d p) (by linarith [(hrr d p).1] : 0 ≤ rr d p - m)
      have a3 := mul_nonneg (p2 d fun e => p e + unit d e) (by linarith [(hrr d fun e => p e + unit d e).1] : 0 ≤ rr d (fun e => p e + unit d e) - m)
      have a4 := mul_nonneg (p1 d p) (by linarith [(hrl d p).1] : 0 ≤ rl d p - m)
      have a5 := hmean d p
      show (ap d (fun e => p e + unit d e) * (rl d (fun e => p e + unit d e) - m) - am d (fun e => p e + unit d e) * (rr d (fun e => p e + unit d e) - m)) -
        (ap d p * (rl d p - m) - am d p * (rr d p - m)) ≤ _
      have a6 : S d * (rl d (fun e => p e + unit d e) - m) + S d * (rr d p - m) = 2 * (r p - m) * S d := by rw [← mul_add, mul_comm]; congr 1; linarith
      linarith
    · simp
  have hlo : ∀ p, -(2 * (M - r p) * sg) ≤ Δ p := by
    intro p
    rw [hsg, Finset.mul_sum, ← Finset.sum_neg_distrib]
    apply Finset.sum_le_sum
    intro d _
    split_ifs
    · rw [mul_div_assoc', ← neg_div]
      refine div_le_div_of_nonneg_right ?_ (hP.width d).le
      have a1 := mul_le_mul_of_nonneg_right (p4 d fun e => p e + unit d e) (by linarith [(hrl d fun e => p e + unit d e).2] : 0 ≤ M - rl d (fun e => p e + unit d e))
      have a2 := mul_le_mul_of_nonneg_right (p5 d p) (by linarith [(hrr d p).2] : 0 ≤ M - rr d p)
      have a3 := mul_nonneg (p2 d fun e => p e + unit d e) (by linarith [(hrr d fun e => p e + unit d e).2] : 0 ≤ M - rr d (fun e => p e + unit d e))
      have a4 := mul_nonneg (p1 d p) (by linarith [(hrl d p).2] : 0 ≤ M - rl d p)
      have a5 := hmean d p
      have q1 := p3 d p
      have q2 := p3 d fun e => p e + unit d e
      show _ ≤ (ap d (fun e => p e + unit d e) * (rl d (fun e => p e + unit d e) - m) - am d (fun e => p e + unit d e) * (rr d (fun e => p e + unit d e) - m)) -
        (ap d p * (rl d p - m) - am d p * (rr d p - m))
      have e1 : ∀ a b x y : ℝ, a * (x - m) - b * (y - m) = (a - b) * (M - m) - (a * (M - x) - b * (M - y)) := by intros; ring
      rw [e1, e1 (ap d p), q1, q2]
      have a6 : S d * (M - rl d (fun e => p e + unit d e)) + S d * (M - rr d p) = 2 * (M - r p) * S d := by rw [← mul_add, mul_comm]; congr 1; linarith
      linarith
    · simp
  have hr' : ∀ p, m ≤ r' p ∧ r' p ≤ M := by
    intro p
    obtain ⟨b0, b1⟩ := hP.weight
    have A1 : m ≤ r p - dt * Δ p := by
      have := mul_le_mul_of_nonneg_left (hup p) hdt0
      nlinarith [mul_nonneg (by linarith [ha p] : 0 ≤ r p - m) (by linarith : 0 ≤ 1 - 2 * dt * sg)]
    have A2 : r p - dt * Δ p ≤ M := by
      have := mul_le_mul_of_nonneg_left (hlo p) hdt0
      nlinarith [mul_nonneg (by linarith [hb p] : 0 ≤ M - r p) (by linarith : 0 ≤ 1 - 2 * dt * sg)]
    constructor
    · show m ≤ P.beta * (r p - dt * Δ p) + (1 - P.beta) * r0 p
      nlinarith [mul_nonneg b0 (by linarith : 0 ≤ r p - dt * Δ p - m), mul_nonneg (by linarith : 0 ≤ 1 - P.beta) (by linarith [h0a p] : 0 ≤ r0 p - m)]
    · show P.beta * (r p - dt * Δ p) + (1 - P.beta) * r0 p ≤ M
      nlinarith [mul_nonneg b0 (by linarith : 0 ≤ M - (r p - dt * Δ p)), mul_nonneg (by linarith : 0 ≤ 1 - P.beta) (by linarith [h0b p] : 0 ≤ M - r0 p)]
  have hup' : ∀ p, refUpdate nd P dt base cur p = c.cell val G g (r' p) := by
    intro p
    unfold refUpdate
    rw [hcons, hP.inv p _ (hr' p).1 (hr' p).2, hP.mid p _ (hr' p).1 (hr' p).2]
  have hrc : (fun q => (cur q).2 0) = r := by funext q; rw [hr q]; rfl
  have hrb : (fun q => (base q).2 0) = r0 := by funext q; rw [h0 q]; rfl
  have hcar : ∀ p, carried P nd dt (fun d => G.alpha * drift G c d) σ (fun q => (base q).2 0) (fun q => (cur q).2 0) p = r' p := by
    intro p
    rw [hrc, hrb]
    unfold carried
    simp only [r', Δ, φ]
    congr 2
    congr 2
    refine Finset.sum_congr rfl fun d _ => ?_
    split_ifs
    · congr 1
      show (ap d _ * rl d _ - am d _ * rr d _) - (ap d p * rl d p - am d p * rr d p) = _
      have a1 := p3 d p
      have a2 := p3 d fun e => p e + unit d e
      linear_combination m * (a2 - a1)
    · rfl
  refine ⟨σ, fun d x y hx hy => (hσ d x y hx hy).1, fun p => ?_⟩
  simp only [hcar]
  refine ⟨(hr' _).1, (hr' _).2, ?_⟩
  unfold refFields
  simp only [hup']
  by_cases hw : wrap p = p
  · rw [if_pos hw, hP.inv p _ (hr' p).1 (hr' p).2, hw]
  · rw [if_neg hw, hP.bnd p _ (hr' _).1 (hr' _).2, hP.inv p _ (hr' _).1 (hr' _).2]

/-- **C146 (one stage)**: a contact stays a contact, with densities within the same bounds. -/
theorem stage_contact {c : Surround} {sol : MeshRun.Solver} {small eps : ℝ} {val : Bool} {G : ADM ℝ} {g : ℝ} {L : Limits} {m M : ℝ} {S : Fin 3 → ℝ}
    (hB : Background c sol eps G L m M S) (P : Phys ℝ 11) (hP : ContactStage c sol small eps val G g L m M P) (nd : ℕ) (dt : ℝ) (hdt : HalfCourant nd S P dt)
    (wrap : Pos → Pos) (base cur : Fields ℝ 11) (hb : IsContact c val G g m M base) (hc : IsContact c val G g m M cur) :
    IsContact c val G g m M (refFields nd wrap dt base cur P) := by
  obtain ⟨σ, -, h⟩ := stage_density hB P hP nd dt hdt wrap base cur hb hc
  exact fun p => ⟨_, h p⟩

/-- **C146**: on a mesh cut in any way, for any number of steps: if the data are a contact with densities between `m` and `M` at the start, they are at the end,
as long as every time step obeys the Courant condition with number one half. -/
theorem run_contact {B : Type} (Gr : Grid B) (nd : ℕ) (gh : ℤ) (Dom : Pos → Prop) (hT : Tiles Gr nd gh Dom) (est : Pos → (Fin 11 → ℝ) → (Fin 3 → ℝ × ℝ) → ℝ)
    (ctrl : ℕ → ℝ → Set ℝ → ℝ) (prog : ℕ → ℝ → List (Phys ℝ 11)) (hg0 : 0 ≤ gh) (hg : ∀ n dt, ∀ P ∈ prog n dt, 1 + radius P.rt ≤ gh)
    (mem : ℕ → ℕ → B → Mem ℝ 11) (ho : Complete Gr mem)
    (c : Surround) (sol : MeshRun.Solver) (small eps : ℝ) (val : Bool) (G : ADM ℝ) (g : ℝ) (L : Limits) (m M : ℝ) (S : Fin 3 → ℝ)
    (hB : Background c sol eps G L m M S) (hP : ∀ k dt, ∀ P ∈ prog k dt, ContactStage c sol small eps val G g L m M P)
    (X : Mesh ℝ 11 B) (Y : Glob ℝ 11) (dt : ℝ) (h : Holds Gr X Y) (hY : IsContact c val G g m M Y.1)
    (hdt : ∀ k, ∀ P ∈ prog k (run Gr est ctrl prog mem k (X, dt)).2, HalfCourant nd S P (run Gr est ctrl prog mem k (X, dt)).2)
    (n : ℕ) (i : B) (q : Pos) (hq : (Gr.shape i).Entire q) :
    ∃ ρ, m ≤ ρ ∧ ρ ≤ M ∧ (run Gr est ctrl prog mem n (X, dt)).1.1 i q = c.cell val G g ρ := by
  have a := run_holds Gr nd gh Dom hT est ctrl prog hg0 hg mem ho X Y dt h
  have key : ∀ k, IsContact c val G g m M (refRun nd Dom Gr.wrap est ctrl prog k (Y, dt)).1.1 := by
    intro k
    induction k with
    | zero => exact hY
    | succ k ih =>
      simp only [refRun]
      have hdk := hdt k
      rw [(a k).2] at hdk
      set Z := refRun nd Dom Gr.wrap est ctrl prog k (Y, dt)
      unfold refStep
      have fold : ∀ (l : List (Phys ℝ 11)) (cur : Glob ℝ 11), (∀ P ∈ l, P ∈ prog k Z.2) → IsContact c val G g m M cur.1 →
          IsContact c val G g m M (l.foldl (refStage nd Gr.wrap Z.2 Z.1.1) cur).1 := by
        intro l
        induction l with
        | nil => intro cur _ hc; exact hc
        | cons P l ih' =>
          intro cur hl hc
          rw [List.foldl_cons]
          exact ih' _ (fun P' h' => hl P' (List.mem_cons_of_mem _ h'))
            (stage_contact hB P (hP k _ P (hl P (by simp))) nd Z.2 (hdk P (hl P (by simp))) Gr.wrap Z.1.1 cur.1 ih hc)
      exact fold _ _ (fun _ h => h) ih
  rw [(a n).1.1 i q hq]
  exact key n _

/-! ### Example: a magnetised contact moving at three fifths of the speed of light through flat space -/

/-- velocity 3/5 (times Lorentz factor 5/4) along the first axis, internal energy density 1, pressure 1/3, a transverse field. -/
noncomputable def exSur : Surround := ⟨![3/4, 0, 0], 1, 1/3, ![0, 1/10, 0], 1/2, 4/3⟩

/-- limits of the example. -/
noncomputable def exLim : Limits := ⟨1/100, 0, 10, 10⟩

/-- a stage of the example: linear reconstruction, the inversion divides the mass by the Lorentz factor. -/
noncomputable def exMove : Phys ℝ 11 :=
  codePhys .llf 0 (1/1000) true (fun _ _ => exLim) (fun _ _ => C2P.flat) (fun _ _ => C2P.flat.alpha * 1) (fun _ _ => 1)
    ⟨1/2, 0, 0, .linear, fun _ _ _ _ _ => 0, fun _ _ _ _ => 0, fun _ _ F => F, fun _ _ _ => 0,
      fun _ u => (u, exSur.prims (u 0 / (1 * lorentz C2P.flat.gam exSur.v))), fun _ x => x, none, fun _ => 1, fun _ x => x, fun _ _ _ _ => 0⟩

theorem ex_lorentz : lorentz C2P.flat.gam exSur.v = 5/4 := by
  unfold lorentz
  rw [show (1 + ∑ i : Fin 3, ∑ j : Fin 3, C2P.flat.gam i j * exSur.v i * exSur.v j) = (5/4) ^ 2 by
    simp [C2P.flat, exSur, Fin.sum_univ_three]; norm_num]
  exact Real.sqrt_sq (by norm_num)

theorem ex_inactive (ρ : ℝ) (h1 : 1 ≤ ρ) (_ : ρ ≤ 2) : Inactive C2P.flat exLim (exSur.prim ρ) := by
  have h0 : 0 < ρ := by linarith
  have e1 : exSur.u = 1 := rfl
  have e2 : exSur.P = 1/3 := rfl
  refine ⟨h0, ?_, ?_, ?_, ?_, ?_⟩
  · simp only [exLim, Surround.prim]; linarith
  · simp only [exLim, Surround.prim, e1]; positivity
  · simp only [exLim, Surround.prim, e1]; rw [div_le_iff₀ h0]; linarith
  · simp only [Surround.prim, e2]; norm_num
  · have : lorentz C2P.flat.gam (exSur.prim ρ).v = 5/4 := ex_lorentz
    rw [this]; norm_num [exLim]

theorem ex_speeds (d : Fin 3) (ρ : ℝ) (h1 : 1 ≤ ρ) (h2 : ρ ≤ 2) :
    (MeshRun.codeSpeeds (1/1000) C2P.flat exLim exSur.g1 (exSur.prim ρ) d).2 ≤ 2 ∧ -2 ≤ (MeshRun.codeSpeeds (1/1000) C2P.flat exLim exSur.g1 (exSur.prim ρ) d).1 := by
  have hi := ex_inactive ρ h1 h2
  obtain ⟨c0, c1⟩ := Riemann.cmsq_bounds (1/1000) C2P.flat exLim exSur.g1 (exSur.prim ρ) (by norm_num) (by norm_num)
  have hv : fVsq C2P.flat exLim (exSur.prim ρ) = 9/25 := by
    rw [fVsq_eq hi C2P.flat_valid.2, show lorentz C2P.flat.gam (exSur.prim ρ).v = 5/4 from ex_lorentz]; norm_num
  have hV : fV C2P.flat exLim (exSur.prim ρ) d = exSur.v d / (5/4) := by
    rw [fV_eq hi C2P.flat_valid.2, show lorentz C2P.flat.gam (exSur.prim ρ).v = 5/4 from ex_lorentz]; rfl
  have hg : C2P.flat.gamInv d d = 1 := by simp [C2P.flat]
  have hvel : fV C2P.flat exLim (exSur.prim ρ) d ^ 2 ≤ C2P.flat.gamInv d d * fVsq C2P.flat exLim (exSur.prim ρ) := by
    rw [hV, hg, hv]
    fin_cases d <;> norm_num [exSur]
  have key := char_speeds_light_cone (1/1000) C2P.flat.alpha (C2P.flat.beta d) (C2P.flat.gamInv d d) (fVsq C2P.flat exLim (exSur.prim ρ))
    (fV C2P.flat exLim (exSur.prim ρ) d) (fcmsq (1/1000) C2P.flat exLim exSur.g1 (exSur.prim ρ)) (by norm_num) (by norm_num [C2P.flat]) (by rw [hg]; norm_num)
    (by rw [hv]; norm_num) (by rw [hv]; norm_num) hvel c0.le c1
  obtain ⟨-, -, k1, k2⟩ := key
  have hsl : C2P.flat.alpha * Real.sqrt (1/1000) / (1 - fVsq C2P.flat exLim (exSur.prim ρ) * fcmsq (1/1000) C2P.flat exLim exSur.g1 (exSur.prim ρ)) ≤ 1 := by
    rw [hv, div_le_one (by nlinarith)]
    have : Real.sqrt (1/1000) ≤ 1/2 := by rw [Real.sqrt_le_left (by norm_num)]; norm_num
    have ea : C2P.flat.alpha = 1 := rfl
    rw [ea]
    nlinarith
  have e1 : C2P.flat.alpha * Real.sqrt (C2P.flat.gamInv d d) = 1 := by rw [hg, Real.sqrt_one]; simp [C2P.flat]
  have e2 : C2P.flat.beta d = 0 := by simp [C2P.flat]
  rw [e1, e2] at k1 k2
  unfold MeshRun.codeSpeeds
  simp only
  rw [e2]
  constructor <;> linarith

theorem ex_background : Background exSur .llf (1/1000) C2P.flat exLim 1 2 fun _ => 2 := by
  refine ⟨C2P.flat_valid.1, by norm_num [C2P.flat], C2P.flat_valid.2, by norm_num [exLim], by norm_num, by norm_num, ex_inactive, ?_⟩
  intro d x y hx hx' hy hy'
  rw [faceState_prims, faceState_prims]
  have a := ex_speeds d x hx hx'
  have b := ex_speeds d y hy hy'
  unfold numSpeed
  simp only [Timestep.llfSpeed]
  exact max_le (max_le (by linarith) a.1) (max_le (by linarith) b.1)

theorem ex_stage : ContactStage exSur .llf 0 (1/1000) true C2P.flat 1 exLim 1 2 exMove := by
  refine ⟨⟨_, rfl⟩, Or.inl rfl, Or.inr rfl, ⟨by norm_num [exMove, codePhys], by norm_num [exMove, codePhys]⟩, fun d => by norm_num [exMove, codePhys],
    fun _ _ _ => rfl, fun _ _ _ _ => rfl, fun _ _ _ _ _ => rfl, ?_, fun _ _ _ _ => rfl, fun _ _ _ _ => rfl⟩
  intro p ρ _ _
  have hD : (exSur.cell true C2P.flat 1 ρ).1 0 = 1 * ρ * lorentz C2P.flat.gam exSur.v := rfl
  have hW : (1 : ℝ) * lorentz C2P.flat.gam exSur.v ≠ 0 := by rw [ex_lorentz]; norm_num
  show ((exSur.cell true C2P.flat 1 ρ).1, exSur.prims ((exSur.cell true C2P.flat 1 ρ).1 0 / (1 * lorentz C2P.flat.gam exSur.v))) = exSur.cell true C2P.flat 1 ρ
  rw [hD, show 1 * ρ * lorentz C2P.flat.gam exSur.v = ρ * (1 * lorentz C2P.flat.gam exSur.v) by ring, mul_div_cancel_right₀ _ hW]
  rfl

/-- **C146 (concrete)**: a periodic three-dimensional mesh of any size cut into blocks in any way, two-stage steps of length 1/20 with cells of width 1: any density
profile between 1 and 2 moves without changing velocity, pressure, energy density and field, and stays between 1 and 2, for ever. -/
theorem ex_contact_run (nb nx : Fin 3 → ℕ) [∀ d, NeZero (nb d)] (hx : ∀ d, 0 < nx d) (mem : ℕ → ℕ → ((d : Fin 3) → Fin (nb d)) → Mem ℝ 11)
    (ho : Complete (regular 3 2 nb nx (wrapPeriodic fun d => nb d * nx d)) mem) (ρ : Pos → ℝ) (hρ : ∀ p, 1 ≤ ρ p ∧ ρ p ≤ 2) (fs : Fin 3 → Pos → ℝ)
    (est : Pos → (Fin 11 → ℝ) → (Fin 3 → ℝ × ℝ) → ℝ) (n : ℕ) (i : (d : Fin 3) → Fin (nb d)) (q : Pos) :
    let Gr := regular 3 2 nb nx (wrapPeriodic fun d => nb d * nx d)
    (Gr.shape i).Entire q →
      ∃ r, 1 ≤ r ∧ r ≤ 2 ∧ ((run Gr est (fun _ _ _ => 1/20) (fun _ _ => [exMove, exMove]) mem n
        ((fun j c => exSur.cell true C2P.flat 1 (ρ fun e => c e + Gr.off j e), fun j d f => fs d fun e => f e + Gr.off j e), 1/20)).1.1 i q).2 = exSur.prims r := by
  intro Gr hq
  have hpos : ∀ d, 0 < nb d * nx d := fun d => Nat.mul_pos (Nat.pos_of_ne_zero (NeZero.ne _)) (hx d)
  have T := regular_tiles 3 2 nb nx hx (fun d hd => absurd hd (by have := d.isLt; omega)) _ (wrapPeriodic_box _ hpos)
  obtain ⟨r, r1, r2, hr⟩ := run_contact Gr 3 2 _ T est (fun _ _ _ => 1/20) (fun _ _ => [exMove, exMove]) (by norm_num)
    (fun _ _ P hP => by
      have : P = exMove := by simpa using hP
      rw [this]; decide) mem ho exSur .llf 0 (1/1000) true C2P.flat 1 exLim 1 2 (fun _ => 2) ex_background
    (fun _ _ P hP => by
      have : P = exMove := by simpa using hP
      rw [this]; exact ex_stage)
    (fun j c => exSur.cell true C2P.flat 1 (ρ fun e => c e + Gr.off j e), fun j d f => fs d fun e => f e + Gr.off j e)
    (fun p => exSur.cell true C2P.flat 1 (ρ p), fs) (1/20) ⟨fun _ _ _ => rfl, fun _ _ _ _ => rfl⟩ (fun p => ⟨_, (hρ p).1, (hρ p).2, rfl⟩)
    (fun k P hP => by
      have hPe : P = exMove := by simpa using hP
      have hdt : (run Gr est (fun _ _ _ => 1/20) (fun _ _ => [exMove, exMove]) mem k
        ((fun j c => exSur.cell true C2P.flat 1 (ρ fun e => c e + Gr.off j e), fun j d f => fs d fun e => f e + Gr.off j e), 1/20)).2 = 1/20 := by
        cases k <;> rfl
      rw [hdt, hPe]
      refine ⟨by norm_num, ?_⟩
      simp only [Fin.sum_univ_three, exMove, codePhys]
      norm_num) n i q hq
  exact ⟨r, r1, r2, by rw [hr]; rfl⟩

end Phoebus.Step
