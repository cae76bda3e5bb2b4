import Verif.MeshRun.CompProps
import Verif.Riemann.Props
import Verif.C2P.Lemmas
import Verif.Timestep.Props

/-!
# C125: the density stays positive

First-order (piecewise constant) reconstruction, either Riemann solver, any state, any decomposition and boundary treatment: a stage whose time step
satisfies the CFL condition of `EstimateTimestepBlock` (fluid.cpp:899-944) leaves at least the fraction `1 - cfl` of the mass of every cell.
-/
namespace Phoebus.MeshRun
open FluxCT FixFlux FluxSweep Finset Riemann Geom
variable {N : ℕ}

/-- the speeds `vm`, `vp` of a face state, riemann.hpp:197-208; `gdd` is the diagonal entry of the inverse spatial metric, riemann.hpp:38-40. -/
noncomputable def codeSpeeds (eps : ℝ) (G : ADM ℝ) (L : Limits) (g1 : ℝ) (q : Rel.Prim) (d : Fin 3) : ℝ × ℝ :=
  (charSpeed eps G.alpha (G.beta d) (G.gamInv d d) (fVsq G L q) (fV G L q d) (fcmsq eps G L g1 q) (-1),
   charSpeed eps G.alpha (G.beta d) (G.gamInv d d) (fVsq G L q) (fV G L q d) (fcmsq eps G L g1 q) 1)

/-- the value returned by the solver (`sig` of the face), riemann.hpp:269 and 300. -/
noncomputable def solverSpeed (s : Setup N) (sl sr : ℝ × ℝ) : ℝ :=
  match s.solver with
  | .llf => Timestep.llfSpeed sl.1 sl.2 sr.1 sr.2
  | .hll => Timestep.hllSpeed sl.1 sl.2 sr.1 sr.2

/-- the face signal speed of a stage. -/
noncomputable def faceSig (M : Mesh) (s : Setup N) (st : StageData N) (U : Arr ℝ × Arr ℝ) (d : Fin 3) (f : Pos) : ℝ :=
  let R := kernel s.ew s.em s.rt
  solverSpeed s (st.speeds d f (stateL R (prims M s st U) d f)) (st.speeds d f (stateR R (prims M s st U) d f))

/-! ### One face -/

/-- Cauchy-Schwarz with a coordinate direction. -/
theorem component_bound {G : ADM ℝ} (h : G.Valid) (hp : Rel.PosDef G) (v : Fin 3 → ℝ) (i : Fin 3) :
    v i ^ 2 ≤ G.gamInv i i * G.dot3 v v ∧ 0 ≤ G.gamInv i i := by
  have e2 : G.dot3 (fun j => G.gamInv j i) (fun j => G.gamInv j i) = G.gamInv i i := by
    have hl := C2P.raise_lower h (fun j => G.gamInv j i) i
    rw [← C2P.sum_mul_lower]
    conv_rhs => rw [← hl]
    exact sum_congr rfl fun j _ => by rw [h.symmInv i j]
  constructor
  · have := C2P.cauchy_schwarz h hp (fun j => G.gamInv j i) v
    have e1 : G.dot3 (fun j => G.gamInv j i) v = v i := by
      have hl := C2P.raise_lower h v i
      rw [← hl, ← C2P.sum_mul_lower]
      exact sum_congr rfl fun j _ => by rw [h.symmInv i j]
    rw [e1, e2] at this
    exact this
  · have := hp (fun j => G.gamInv j i)
    rwa [e2] at this

/-- the speeds bracket the coordinate velocity with which the mass is transported, for every state. -/
theorem speeds_bracket (eps : ℝ) (he : 0 < eps) (he1 : eps < 1/2) (G : ADM ℝ) (h : G.Valid) (hp : Rel.PosDef G) (ha : 0 < G.alpha) (L : Limits)
    (hg : 1 ≤ L.gamMax) (hf : 0 < L.rhoFloor) (hs : L.sieFloor ≤ L.sieMax) (g1 : ℝ) (q : Rel.Prim) (d : Fin 3) :
    (codeSpeeds eps G L g1 q d).1 ≤ G.alpha * fVtil G L q d ∧ G.alpha * fVtil G L q d ≤ (codeSpeeds eps G L g1 q d).2 := by
  obtain ⟨c0, c1⟩ := Riemann.cmsq_bounds eps G L g1 q he he1
  obtain ⟨-, -, -, -, -, -, hv, -⟩ := face_limits G L q hf hs hg
  have hv0 : 0 ≤ fVsq G L q := by rw [hv]; exact hp _
  have hm : vsqMax L < 1 := by unfold vsqMax; have : 0 < 1 / (L.gamMax * L.gamMax) := by positivity
                               linarith
  have hv1 : fVsq G L q < 1 := by
    unfold fVsq
    split_ifs with hh
    · have hpos : 0 < fVsq0 G L q := by
        have : 0 ≤ vsqMax L := by
          unfold vsqMax
          have : 1 / (L.gamMax * L.gamMax) ≤ 1 := by rw [div_le_one (by positivity)]; nlinarith
          linarith
        linarith
      rw [mul_div_cancel₀ _ hpos.ne']; exact hm
    · linarith
  obtain ⟨b1, b2⟩ := component_bound h hp (fV G L q) d
  rw [← hv] at b1
  obtain ⟨r1, r2, -, -⟩ := char_speeds_light_cone eps G.alpha (G.beta d) (G.gamInv d d) (fVsq G L q) (fV G L q d) (fcmsq eps G L g1 q) he.le ha b2 hv0
    hv1 b1 c0.le c1
  have e : G.alpha * fVtil G L q d = G.alpha * fV G L q d - G.beta d := by
    unfold fVtil; rw [mul_sub, mul_div_cancel₀ _ ha.ne']
  rw [e]
  exact ⟨r1, r2⟩

/-- the mass of a face state is not negative. -/
theorem mass_nonneg (val : Bool) (G : ADM ℝ) (L : Limits) (ye : ℝ) (q : Rel.Prim) (hf : 0 ≤ L.rhoFloor) : 0 ≤ (fluxU val G L ye q).rho := by
  show 0 ≤ fRho L q * fW G L q
  refine mul_nonneg (hf.trans (le_max_right _ _)) ?_
  unfold fW
  positivity

/-- elementary inequality behind HLL. -/
theorem hll_weight {cr m s w : ℝ} (h0 : 0 ≤ cr) (hm : 0 ≤ m) (hcs : cr ≤ s) (hms : m ≤ s) (hw : -m ≤ w) (hw' : w ≤ cr) :
    2 * (cr * (w + m)) ≤ (s + w) * (cr + m) := by
  rcases le_total cr m with h | h
  · nlinarith [mul_nonneg (by linarith : 0 ≤ s - m) (by linarith : 0 ≤ cr + m), mul_nonneg (by linarith : 0 ≤ m - cr) (by linarith : 0 ≤ w + m)]
  · nlinarith [mul_nonneg (by linarith : 0 ≤ s - cr) (by linarith : 0 ≤ cr + m), mul_nonneg (by linarith : 0 ≤ cr - m) (by linarith : 0 ≤ cr - w)]

/-- **C125 (one face)**: with masses `Dl, Dr ≥ 0` moving with `wl, wr` between the signal speeds of their states, at most `Dl (s + wl) / 2` leaves
upwards and at most `Dr (s - wr) / 2` downwards, `s` being the speed reported by the solver. -/
theorem face_bounds (s : Setup N) (hsm : 0 ≤ s.small) (g a : ℝ) (hg : 0 ≤ g) (ha : 0 < a) (sl sr : ℝ × ℝ) (Dl Dr wl wr : ℝ)
    (hDl : 0 ≤ Dl) (hDr : 0 ≤ Dr) (hl1 : sl.1 ≤ wl) (hl2 : wl ≤ sl.2) (hr1 : sr.1 ≤ wr) (hr2 : wr ≤ sr.2) :
    let F := combine s (a * g) g sl sr (Dl * (wl / a)) (Dr * (wr / a)) Dl Dr
    let c := solverSpeed s sl sr
    F ≤ g * Dl * ((c + wl) / 2) ∧ -(g * Dr * ((c - wr) / 2)) ≤ F ∧ 0 ≤ c + wl ∧ 0 ≤ c - wr := by
  have ea : ∀ D w : ℝ, D * (w / a) * (a * g) = D * w * g := by intro D w; field_simp
  obtain ⟨sl1, sl2⟩ := sl
  obtain ⟨sr1, sr2⟩ := sr
  simp only at hl1 hl2 hr1 hr2
  have hgl := mul_nonneg hg hDl
  have hgr := mul_nonneg hg hDr
  cases hsol : s.solver with
  | llf =>
    simp only [combine, solverSpeed, hsol, llf, Timestep.llfSpeed]
    set c := max (max (-sl1) sl2) (max (-sr1) sr2)
    have c1 : -sl1 ≤ c := (le_max_left _ _).trans (le_max_left _ _)
    have c2 : sl2 ≤ c := (le_max_right _ _).trans (le_max_left _ _)
    have c3 : -sr1 ≤ c := (le_max_left _ _).trans (le_max_right _ _)
    have c4 : sr2 ≤ c := (le_max_right _ _).trans (le_max_right _ _)
    rw [add_mul, ea, ea]
    have p1 := mul_nonneg hgr (by linarith : 0 ≤ c - wr)
    have p2 := mul_nonneg hgl (by linarith : 0 ≤ c + wl)
    refine ⟨?_, ?_, by linarith, by linarith⟩ <;> norm_num <;> nlinarith
  | hll =>
    simp only [combine, solverSpeed, hsol, hll, Timestep.hllSpeed, Robust.ratio]
    set cl := min (min sl1 sr1) 0 with hcl
    set cr := max (max sl2 sr2) 0 with hcr
    have m0 : cl ≤ 0 := min_le_right _ _
    have r0 : 0 ≤ cr := le_max_right _ _
    have k1 : cl ≤ wl := ((min_le_left _ _).trans (min_le_left _ _)).trans hl1
    have k2 : cl ≤ wr := ((min_le_left _ _).trans (min_le_right _ _)).trans hr1
    have k3 : wl ≤ cr := hl2.trans ((le_max_left _ _).trans (le_max_left _ _))
    have k4 : wr ≤ cr := hr2.trans ((le_max_right _ _).trans (le_max_left _ _))
    set c := max (-cl) cr
    have c1 : -cl ≤ c := le_max_left _ _
    have c2 : cr ≤ c := le_max_right _ _
    have hx : 0 ≤ cr - cl := by linarith
    rw [if_pos hx, one_mul]
    set t := 1 / (cr - cl + s.small) with ht
    have t0 : 0 ≤ t := by rw [ht]; positivity
    have t1 : t * (cr - cl) ≤ 1 := by
      rcases eq_or_lt_of_le hx with h | h
      · rw [← h, mul_zero]; exact zero_le_one
      · rw [ht, div_mul_eq_mul_div, one_mul, div_le_one (by linarith)]; linarith
    have e : ((cr * (Dl * (wl / a)) - cl * (Dr * (wr / a))) * (a * g) + cr * cl * (Dr - Dl) * g) * t =
        t * (g * Dl * (cr * (wl - cl)) - g * Dr * (-cl * (cr - wr))) := by
      have h1 := ea Dl wl
      have h2 := ea Dr wr
      have : (cr * (Dl * (wl / a)) - cl * (Dr * (wr / a))) * (a * g) = cr * (Dl * wl * g) - cl * (Dr * wr * g) := by
        rw [← h1, ← h2]; ring
      rw [this]; ring
    rw [e]
    have w1 := hll_weight r0 (by linarith : 0 ≤ -cl) c2 c1 (by linarith : -(-cl) ≤ wl) k3
    have w2 := hll_weight (by linarith : 0 ≤ -cl) r0 c1 c2 (by linarith : -cr ≤ -wr) (by linarith : -wr ≤ -cl)
    have u1 : t * (cr * (wl - cl)) ≤ (c + wl) / 2 := by
      have h1 : t * (2 * (cr * (wl + -cl))) ≤ t * ((c + wl) * (cr + -cl)) := mul_le_mul_of_nonneg_left w1 t0
      have h2 : (c + wl) * (t * (cr - cl)) ≤ (c + wl) * 1 := mul_le_mul_of_nonneg_left t1 (by linarith)
      nlinarith
    have u2 : t * (-cl * (cr - wr)) ≤ (c - wr) / 2 := by
      have h1 : t * (2 * (-cl * (-wr + cr))) ≤ t * ((c + -wr) * (-cl + cr)) := mul_le_mul_of_nonneg_left w2 t0
      have h2 : (c - wr) * (t * (cr - cl)) ≤ (c - wr) * 1 := mul_le_mul_of_nonneg_left t1 (by linarith)
      nlinarith
    have z1 : 0 ≤ t * (cr * (wl - cl)) := mul_nonneg t0 (mul_nonneg r0 (by linarith))
    have z2 : 0 ≤ t * (-cl * (cr - wr)) := mul_nonneg t0 (mul_nonneg (by linarith) (by linarith))
    have v1 := mul_le_mul_of_nonneg_left u1 hgl
    have v2 := mul_le_mul_of_nonneg_left u2 hgr
    have y1 := mul_nonneg hgl z1
    have y2 := mul_nonneg hgr z2
    refine ⟨?_, ?_, by linarith, by linarith⟩ <;> nlinarith

/-! ### One cell -/

/-- the geometry, the limits and the small constants of a stage on a uniform background (Cartesian, possibly boosted, Minkowski space): one metric,
limits that do not depend on position, `gdet = alpha gammadet`. -/
structure Uniform (st : StageData N) (eps : ℝ) (G0 : ADM ℝ) (L0 : Limits) (g0 : ℝ) : Prop where
  valid : G0.Valid
  pos : Rel.PosDef G0
  lapse : 0 < G0.alpha
  geom : ∀ d f, st.G d f = G0 ∧ st.L d f = L0 ∧ st.gammadet d f = g0 ∧ st.gdet d f = G0.alpha * g0
  g0 : 0 < g0
  epsr : 0 < eps ∧ eps < 1/2
  floor : 0 < L0.rhoFloor
  sie : L0.sieFloor ≤ L0.sieMax
  gam : 1 ≤ L0.gamMax
  speeds : ∃ g1 : (Fin N → ℝ) → ℝ, ∀ d f q, st.speeds d f q = codeSpeeds eps G0 L0 (g1 q) (st.prim q) d

/-- state of the cell at `c`. -/
noncomputable def cellState (M : Mesh) (s : Setup N) (st : StageData N) (U : Arr ℝ × Arr ℝ) (c : Pos) : Fin N → ℝ := fun n => prims M s st U n c

/-- the conserved density in the cells of the domain is the one of the primitive state. -/
def Consistent (M : Mesh) (s : Setup N) (st : StageData N) (G0 : ADM ℝ) (L0 : Limits) (g0 : ℝ) (U : Arr ℝ × Arr ℝ) : Prop :=
  ∀ k j i, M.Has k j i → U.1 k j i = g0 * (fluxU s.valencia G0 L0 0 (st.prim (cellState M s st U ![i, j, k]))).rho

theorem fluxU_rho_ye (val : Bool) (G : ADM ℝ) (L : Limits) (y y' : ℝ) (q : Rel.Prim) : (fluxU val G L y q).rho = (fluxU val G L y' q).rho := rfl

/-- bounds on the mass flux through a face between the cells `f - e_d` and `f`. -/
theorem stage_face (M : Mesh) (s : Setup N) (hrt : s.rt = .constant) (hsm : 0 ≤ s.small) (st : StageData N) (eps : ℝ) (G0 : ADM ℝ) (L0 : Limits)
    (g0 : ℝ) (hu : Uniform st eps G0 L0 g0) (U : Arr ℝ × Arr ℝ) (d : Fin 3) (k j i : ℤ) :
    let f : Pos := ![i, j, k]
    let ql := cellState M s st U fun e => f e - unit d e
    let qr := cellState M s st U f
    let c := faceSig M s st U d f
    let D := fun q => (fluxU s.valencia G0 L0 0 (st.prim q)).rho
    let w := fun q => G0.alpha * fVtil G0 L0 (st.prim q) d
    stageFlux M s st U d .rho k j i ≤ g0 * D ql * ((c + w ql) / 2) ∧ -(g0 * D qr * ((c - w qr) / 2)) ≤ stageFlux M s st U d .rho k j i ∧
      0 ≤ c + w ql ∧ 0 ≤ c - w qr := by
  intro f ql qr c D w
  obtain ⟨g1, hsp⟩ := hu.speeds
  have hL : stateL (kernel s.ew s.em s.rt) (prims M s st U) d f = ql := by
    funext n
    simp only [stateL, hrt, kernel, Recon.piecewiseConstant, ql, cellState]
    congr 1; funext e; ring
  have hR : stateR (kernel s.ew s.em s.rt) (prims M s st U) d f = qr := by
    funext n
    simp only [stateR, hrt, kernel, Recon.piecewiseConstant, qr, cellState]
    congr 1; funext e; ring
  obtain ⟨hG, hLim, hgm, hgd⟩ := hu.geom d f
  have bl := speeds_bracket eps hu.epsr.1 hu.epsr.2 G0 hu.valid hu.pos hu.lapse L0 hu.gam hu.floor hu.sie (g1 ql) (st.prim ql) d
  have br := speeds_bracket eps hu.epsr.1 hu.epsr.2 G0 hu.valid hu.pos hu.lapse L0 hu.gam hu.floor hu.sie (g1 qr) (st.prim qr) d
  have hF : stageFlux M s st U d .rho k j i = combine s (G0.alpha * g0) g0 (codeSpeeds eps G0 L0 (g1 ql) (st.prim ql) d)
      (codeSpeeds eps G0 L0 (g1 qr) (st.prim qr) d) (D ql * (w ql / G0.alpha)) (D qr * (w qr / G0.alpha)) (D ql) (D qr) := by
    have hw : ∀ q, w q / G0.alpha = fVtil G0 L0 (st.prim q) d := fun q => by
      show G0.alpha * _ / G0.alpha = _
      rw [mul_div_cancel_left₀ _ hu.lapse.ne']
    unfold stageFlux
    simp only [if_true]
    rw [show (![i, j, k] : Pos) = f from rfl, hL, hR]
    unfold faceFluxes
    simp only [hG, hLim, hgm, hgd, hsp, hw]
    rfl
  have hc : c = solverSpeed s (codeSpeeds eps G0 L0 (g1 ql) (st.prim ql) d) (codeSpeeds eps G0 L0 (g1 qr) (st.prim qr) d) := by
    show faceSig M s st U d f = _
    unfold faceSig
    simp only [hL, hR, hsp]
  have := face_bounds s hsm g0 G0.alpha hu.g0.le hu.lapse (codeSpeeds eps G0 L0 (g1 ql) (st.prim ql) d)
    (codeSpeeds eps G0 L0 (g1 qr) (st.prim qr) d) (D ql) (D qr) (w ql) (w qr) (mass_nonneg _ _ _ _ _ hu.floor.le) (mass_nonneg _ _ _ _ _ hu.floor.le)
    bl.1 bl.2 br.1 br.2
  rw [hF, hc]
  exact this

/-- the boundary treatment never increases what leaves a cell. -/
theorem faceFix_lower (c : Cfg) (d : Fin 3) (x A : ℝ) (hA : 0 ≤ A) (h : -A ≤ x) : -A ≤ faceFix c d false .rho x := by
  rcases eq_or_ne d 1 with rfl | hd
  · by_cases hu : c.user 1 false = true
    · cases hb : c.bc 1 false <;> simp only [faceFix, hu, hb, if_true, if_false, outflowFix, reflect2, reflect13, polar2]
      all_goals first | exact le_min h (by linarith) | exact h | (split_ifs <;> first | exact h | linarith) | linarith
    · simp only [faceFix, hu]; exact h
  · by_cases hu : c.user d false = true
    · cases hb : c.bc d false <;> simp only [faceFix, hu, hb, hd, if_true, if_false, outflowFix, reflect2, reflect13, polar2]
      all_goals first | exact le_min h (by linarith) | exact h | (split_ifs <;> first | exact h | linarith) | linarith
    · simp only [faceFix, hu]; exact h

theorem faceFix_upper (c : Cfg) (d : Fin 3) (x A : ℝ) (hA : 0 ≤ A) (h : x ≤ A) : faceFix c d true .rho x ≤ A := by
  rcases eq_or_ne d 1 with rfl | hd
  · by_cases hu : c.user 1 true = true
    · cases hb : c.bc 1 true <;> simp only [faceFix, hu, hb, if_true, if_false, outflowFix, reflect2, reflect13, polar2]
      all_goals first | exact max_le h hA | exact h | (split_ifs <;> first | exact h | linarith) | linarith
    · simp only [faceFix, hu]; exact h
  · by_cases hu : c.user d true = true
    · cases hb : c.bc d true <;> simp only [faceFix, hu, hb, hd, if_true, if_false, outflowFix, reflect2, reflect13, polar2]
      all_goals first | exact max_le h hA | exact h | (split_ifs <;> first | exact h | linarith) | linarith
    · simp only [faceFix, hu]; exact h

/-- upper face of a cell. -/
def upFace (d : Fin 3) (k j i : ℤ) : ℤ × ℤ × ℤ :=
  match d with
  | 0 => (k, j, i + 1)
  | 1 => (k, j + 1, i)
  | 2 => (k + 1, j, i)

theorem fix_cell (M : Mesh) (hdim : 1 ≤ M.ndim ∧ M.ndim ≤ 3) {k j i : ℤ} (h : M.Has k j i) (F : Flux ℝ) (d : Fin 3) (hd : d.val < M.ndim) (A B : ℝ)
    (hA : 0 ≤ A) (hB : 0 ≤ B) (h1 : -A ≤ F d .rho k j i) (h2 : F d .rho (upFace d k j i).1 (upFace d k j i).2.1 (upFace d k j i).2.2 ≤ B) :
    -A ≤ fixFluxes (M.cfg M.whole) M.whole.blk F d .rho k j i ∧
    fixFluxes (M.cfg M.whole) M.whole.blk F d .rho (upFace d k j i).1 (upFace d k j i).2.1 (upFace d k j i).2.2 ≤ B := by
  have hw : M.whole.Has k j i := by
    obtain ⟨a1, a2, a3⟩ := h
    refine ⟨?_, ?_, ?_⟩ <;> simp only [Mesh.whole] <;> omega
  have nw := blk_nonempty M.whole hw
  have hlow : FaceOf d k j i k j i := Or.inl ⟨rfl, rfl, rfl⟩
  have hup : FaceOf d k j i (upFace d k j i).1 (upFace d k j i).2.1 (upFace d k j i).2.2 := by
    right
    have hd' : d = 0 ∨ d = 1 ∨ d = 2 := by omega
    rcases hd' with rfl | rfl | rfl <;> simp [upFace]
  have no1 : ¬ BoundaryFace M.whole.blk d true k j i := by
    obtain ⟨a1, a2, a3⟩ := hw
    have hd' : d = 0 ∨ d = 1 ∨ d = 2 := by omega
    rcases hd' with rfl | rfl | rfl <;> simp [BoundaryFace, Block.Has, IBlk.blk, box] <;> omega
  have no2 : ¬ BoundaryFace M.whole.blk d false (upFace d k j i).1 (upFace d k j i).2.1 (upFace d k j i).2.2 := by
    obtain ⟨a1, a2, a3⟩ := hw
    have hd' : d = 0 ∨ d = 1 ∨ d = 2 := by omega
    rcases hd' with rfl | rfl | rfl <;> simp [BoundaryFace, Block.Has, IBlk.blk, box, upFace] <;> omega
  cases he : M.enable with
  | false => simp only [fixFluxes, Mesh.cfg, he, Bool.not_false, if_true]; exact ⟨h1, h2⟩
  | true =>
    constructor
    · by_cases hb : BoundaryFace M.whole.blk d false k j i
      · rw [fixFluxes_on (M.cfg M.whole) M.whole.blk nw d false ⟨he, hd, hdim.1, hdim.2⟩ F .rho (by decide) k j i hb]
        exact faceFix_lower _ d _ A hA h1
      · rw [interior_faces_untouched (M.cfg M.whole) M.whole.blk nw F .rho d k j i (face_used M.whole hw d k j i hlow)]
        · exact h1
        · intro o ho; cases o
          · exact absurd ho hb
          · exact absurd ho no1
    · by_cases hb : BoundaryFace M.whole.blk d true (upFace d k j i).1 (upFace d k j i).2.1 (upFace d k j i).2.2
      · rw [fixFluxes_on (M.cfg M.whole) M.whole.blk nw d true ⟨he, hd, hdim.1, hdim.2⟩ F .rho (by decide) _ _ _ hb]
        exact faceFix_upper _ d _ B hB h2
      · rw [interior_faces_untouched (M.cfg M.whole) M.whole.blk nw F .rho d _ _ _ (face_used M.whole hw d _ _ _ hup)]
        · exact h2
        · intro o ho; cases o
          · exact absurd ho no2
          · exact absurd ho hb

/-- the CFL sum of a cell, with the face speeds of the present stage: fluid.cpp:916-926 without the cell speeds. -/
noncomputable def cflRate (M : Mesh) (dx : Fin 3 → ℝ) (s : Setup N) (st : StageData N) (U : Arr ℝ × Arr ℝ) (k j i : ℤ) : ℝ :=
  ∑ d ∈ Timestep.dirs M.ndim, max (faceSig M s st U d ![i, j, k]) (faceSig M s st U d fun e => (![i, j, k] : Pos) e + unit d e) / dx d

theorem upPos (d : Fin 3) (k j i : ℤ) :
    (![(upFace d k j i).2.2, (upFace d k j i).2.1, (upFace d k j i).1] : Pos) = fun e => (![i, j, k] : Pos) e + unit d e := by
  have hd' : d = 0 ∨ d = 1 ∨ d = 2 := by omega
  rcases hd' with rfl | rfl | rfl <;> funext e <;> fin_cases e <;> simp [upFace, unit]

/-- **C125 (one cell)**: the rate of change of the mass of a cell is at least minus its mass times the CFL sum. -/
theorem rate_lower (M : Mesh) (own : ℤ → ℤ → ℤ → IBlk) (hM : M.Tiled own) (dx : Fin 3 → ℝ) (hdx : ∀ d, 0 < dx d) (s : Setup N)
    (hrt : s.rt = .constant) (hsm : 0 ≤ s.small) (st : StageData N) (eps : ℝ) (G0 : ADM ℝ) (L0 : Limits) (g0 : ℝ) (hu : Uniform st eps G0 L0 g0)
    (U : Arr ℝ × Arr ℝ) (hc : Consistent M s st G0 L0 g0 U) (k j i : ℤ) (h : M.Has k j i) :
    -(U.1 k j i * cflRate M dx s st U k j i) ≤ M.rate own dx (stageFlux M s st U) .rho k j i := by
  set D := (fluxU s.valencia G0 L0 0 (st.prim (cellState M s st U ![i, j, k]))).rho
  have hD : 0 ≤ D := mass_nonneg _ _ _ _ _ hu.floor.le
  have hUe : U.1 k j i = g0 * D := hc k j i h
  have hg := mul_nonneg hu.g0.le hD
  set F := fixFluxes (M.cfg M.whole) M.whole.blk (stageFlux M s st U) with hF
  -- contribution of a direction
  have dir : ∀ d : Fin 3, d.val < M.ndim →
      F d .rho (upFace d k j i).1 (upFace d k j i).2.1 (upFace d k j i).2.2 - F d .rho k j i ≤
        g0 * D * max (faceSig M s st U d ![i, j, k]) (faceSig M s st U d fun e => (![i, j, k] : Pos) e + unit d e) := by
    intro d hd
    set w := G0.alpha * fVtil G0 L0 (st.prim (cellState M s st U ![i, j, k])) d
    obtain ⟨-, l2, -, l4⟩ := stage_face M s hrt hsm st eps G0 L0 g0 hu U d k j i
    obtain ⟨u1, -, u3, -⟩ := stage_face M s hrt hsm st eps G0 L0 g0 hu U d (upFace d k j i).1 (upFace d k j i).2.1 (upFace d k j i).2.2
    have back : (fun e => (![(upFace d k j i).2.2, (upFace d k j i).2.1, (upFace d k j i).1] : Pos) e - unit d e) = ![i, j, k] := by
      rw [upPos]; funext e; simp
    rw [back, upPos] at u1 u3
    set c1 := faceSig M s st U d ![i, j, k]
    set c2 := faceSig M s st U d fun e => (![i, j, k] : Pos) e + unit d e
    have key := fix_cell M hM.dim h (stageFlux M s st U) d hd (g0 * D * ((c1 - w) / 2)) (g0 * D * ((c2 + w) / 2))
      (mul_nonneg hg (by linarith)) (mul_nonneg hg (by linarith)) l2 u1
    have m1 : c1 ≤ max c1 c2 := le_max_left _ _
    have m2 : c2 ≤ max c1 c2 := le_max_right _ _
    have : g0 * D * ((c2 + w) / 2) + g0 * D * ((c1 - w) / 2) ≤ g0 * D * max c1 c2 := by
      rw [← mul_add]; exact mul_le_mul_of_nonneg_left (by linarith) hg
    have k1 := key.1
    have k2 := key.2
    linarith
  rw [rate_whole M own hM dx _ .rho (by decide) k j i h]
  unfold fluxDiv cflRate Timestep.dirs
  rw [sum_filter, Fin.sum_univ_three, hUe, neg_le_neg_iff]
  have part : ∀ d : Fin 3,
      (mask M.ndim F d .rho (upFace d k j i).1 (upFace d k j i).2.1 (upFace d k j i).2.2 - mask M.ndim F d .rho k j i) / dx d ≤
        g0 * D * (if (d : ℕ) < M.ndim then
          max (faceSig M s st U d ![i, j, k]) (faceSig M s st U d fun e => (![i, j, k] : Pos) e + unit d e) / dx d else 0) := by
    intro d
    unfold mask
    split_ifs with hd
    · rw [mul_div_assoc', div_le_div_iff_of_pos_right (hdx d)]
      exact dir d hd
    · simp
  have p0 := part 0; have p1 := part 1; have p2 := part 2
  simp only [upFace] at p0 p1 p2
  rw [mul_add, mul_add]
  exact add_le_add (add_le_add p0 p1) p2

/-- **C125 (one stage)**: a stage with weight `beta` in `[0,1]` and `dt` times the CFL sum at most `cfl` keeps the density of every cell above
`beta (1 - cfl)` times its value plus `1 - beta` times the value at the start of the step; in particular it stays positive when `cfl < 1`. -/
theorem stage_positive (M : Mesh) (own : ℤ → ℤ → ℤ → IBlk) (hM : M.Tiled own) (dx : Fin 3 → ℝ) (hdx : ∀ d, 0 < dx d) (s : Setup N)
    (hrt : s.rt = .constant) (hsm : 0 ≤ s.small) (st : StageData N) (eps : ℝ) (G0 : ADM ℝ) (L0 : Limits) (g0 : ℝ) (hu : Uniform st eps G0 L0 g0)
    (dt cfl : ℝ) (hdt : 0 ≤ dt) (hb : 0 ≤ st.beta) (base U : Arr ℝ × Arr ℝ) (hc : Consistent M s st G0 L0 g0 U) (k j i : ℤ) (h : M.Has k j i)
    (hcfl : dt * cflRate M dx s st U k j i ≤ cfl) :
    st.beta * (1 - cfl) * U.1 k j i + (1 - st.beta) * base.1 k j i ≤ (pairStage M own dx s dt base U st).1 k j i := by
  have hr := rate_lower M own hM dx hdx s hrt hsm st eps G0 L0 g0 hu U hc k j i h
  have hU : 0 ≤ U.1 k j i := by
    rw [hc k j i h]; exact mul_nonneg hu.g0.le (mass_nonneg _ _ _ _ _ hu.floor.le)
  simp only [pairStage, stage]
  have h1 := mul_le_mul_of_nonneg_left hr (mul_nonneg hb hdt)
  have h2 := mul_le_mul_of_nonneg_left hcfl (mul_nonneg hb hU)
  nlinarith

/-! ### The time step of the code, and whole runs -/

/-- the fields `EstimateTimestepBlock` reads, for the face speeds of this stage; `csig` are the cell speeds. -/
noncomputable def speedBlock (M : Mesh) (dx : Fin 3 → ℝ) (s : Setup N) (st : StageData N) (U : Arr ℝ × Arr ℝ) (csig : Fin 3 → Timestep.Cell → ℝ)
    (cells : List Timestep.Cell) : Timestep.Block :=
  ⟨csig, fun d c => faceSig M s st U d ![c.i, c.j, c.k], fun d _ => dx d, cells⟩

/-- the time step `EstimateTimestepBlock` (fluid.cpp:899-944) returns from the speeds of a stage satisfies the hypothesis of `stage_positive`. -/
theorem estimate_suffices (M : Mesh) (dx : Fin 3 → ℝ) (hdx : ∀ d, 0 < dx d) (s : Setup N) (st : StageData N) (U : Arr ℝ × Arr ℝ)
    (csig : Fin 3 → Timestep.Cell → ℝ) (hcs : ∀ d c, 0 ≤ csig d c) (hfs : ∀ d f, 0 ≤ faceSig M s st U d f) (cells : List Timestep.Cell)
    (big tiny cfl dt : ℝ) (ht : 0 < tiny) (hc : 0 ≤ cfl) (hb : 0 ≤ big) (hdt0 : 0 ≤ dt)
    (hdt : dt ≤ (Timestep.fluidDt big tiny cfl M.ndim true (speedBlock M dx s st U csig cells)).1) (k j i : ℤ)
    (hmem : (⟨k, j, i⟩ : Timestep.Cell) ∈ cells) : dt * cflRate M dx s st U k j i ≤ cfl := by
  have hOk : (speedBlock M dx s st U csig cells).Ok := ⟨hcs, fun d c => hfs d _, fun d _ => hdx d⟩
  obtain ⟨h0, -, h2⟩ := Timestep.fluid_cfl big tiny cfl ht hc hb M.ndim true (speedBlock M dx s st U csig cells) hOk ⟨k, j, i⟩ hmem
  have h3 := (h2 rfl).1
  have hle : cflRate M dx s st U k j i ≤ Timestep.rateFace M.ndim (speedBlock M dx s st U csig cells) ⟨k, j, i⟩ := by
    unfold cflRate Timestep.rateFace
    refine sum_le_sum fun d _ => div_le_div_of_nonneg_right ?_ (hdx d).le
    have e : (fun e => (![i, j, k] : Pos) e + unit d e) =
        ![((⟨k, j, i⟩ : Timestep.Cell).up d).i, ((⟨k, j, i⟩ : Timestep.Cell).up d).j, ((⟨k, j, i⟩ : Timestep.Cell).up d).k] := by
      have hd' : d = 0 ∨ d = 1 ∨ d = 2 := by omega
      rcases hd' with rfl | rfl | rfl <;> funext e <;> fin_cases e <;> simp [Timestep.Cell.up, unit]
    rw [e]
    exact le_max_right _ _
  exact (mul_le_mul hdt hle (sum_nonneg fun d _ => div_nonneg ((hfs d _).trans (le_max_left _ _)) (hdx d).le) h0).trans h3

/-- the speeds reported by the solvers are not negative. -/
theorem faceSig_nonneg (M : Mesh) (s : Setup N) (hrt : s.rt = .constant) (hsm : 0 ≤ s.small) (st : StageData N) (eps : ℝ) (G0 : ADM ℝ) (L0 : Limits)
    (g0 : ℝ) (hu : Uniform st eps G0 L0 g0) (U : Arr ℝ × Arr ℝ) (d : Fin 3) (f : Pos) : 0 ≤ faceSig M s st U d f := by
  obtain ⟨g1, hsp⟩ := hu.speeds
  unfold faceSig
  simp only [hsp]
  set ql := stateL (kernel s.ew s.em s.rt) (prims M s st U) d f
  set qr := stateR (kernel s.ew s.em s.rt) (prims M s st U) d f
  have bl := speeds_bracket eps hu.epsr.1 hu.epsr.2 G0 hu.valid hu.pos hu.lapse L0 hu.gam hu.floor hu.sie (g1 ql) (st.prim ql) d
  cases hsol : s.solver with
  | llf =>
    simp only [solverSpeed, hsol, Timestep.llfSpeed]
    refine le_trans ?_ (le_max_left _ _)
    have := bl.1.trans bl.2
    rcases le_total 0 (codeSpeeds eps G0 L0 (g1 ql) (st.prim ql) d).2 with h | h
    · exact h.trans (le_max_right _ _)
    · exact (by linarith : (0:ℝ) ≤ _).trans (le_max_left _ _)
  | hll =>
    simp only [solverSpeed, hsol, Timestep.hllSpeed]
    exact (le_max_right _ _).trans (le_max_right _ _)

/-- a stage as the theorem needs it: uniform background, weight in `[0,1]`, primitive variables consistent with the conserved ones, and the CFL sum of
every cell at most `cfl / dt`. -/
structure StageOk (M : Mesh) (dx : Fin 3 → ℝ) (s : Setup N) (eps : ℝ) (G0 : ADM ℝ) (L0 : Limits) (g0 dt cfl : ℝ) (st : StageData N)
    (U : Arr ℝ × Arr ℝ) : Prop where
  uni : Uniform st eps G0 L0 g0
  beta : 0 ≤ st.beta ∧ st.beta ≤ 1
  cons : Consistent M s st G0 L0 g0 U
  cfl : ∀ k j i, M.Has k j i → dt * cflRate M dx s st U k j i ≤ cfl

/-- all stages of a step, each with the state it starts from. -/
def StepOk (M : Mesh) (own : ℤ → ℤ → ℤ → IBlk) (dx : Fin 3 → ℝ) (s : Setup N) (eps : ℝ) (G0 : ADM ℝ) (L0 : Limits) (g0 cfl dt : ℝ)
    (base : Arr ℝ × Arr ℝ) : List (StageData N) → Arr ℝ × Arr ℝ → Prop
  | [], _ => True
  | st :: l, cur => StageOk M dx s eps G0 L0 g0 dt cfl st cur ∧ StepOk M own dx s eps G0 L0 g0 cfl dt base l (pairStage M own dx s dt base cur st)

/-- all steps of a run. -/
def RunOk (M : Mesh) (own : ℤ → ℤ → ℤ → IBlk) (dx : Fin 3 → ℝ) (s : Setup N) (eps : ℝ) (G0 : ADM ℝ) (L0 : Limits) (g0 cfl : ℝ) :
    List (ℝ × List (StageData N)) → Arr ℝ × Arr ℝ → Prop
  | [], _ => True
  | t :: l, U => 0 ≤ t.1 ∧ StepOk M own dx s eps G0 L0 g0 cfl t.1 U t.2 U ∧ RunOk M own dx s eps G0 L0 g0 cfl l (pairStep M own dx s t.1 t.2 U)

theorem step_positive (M : Mesh) (own : ℤ → ℤ → ℤ → IBlk) (hM : M.Tiled own) (dx : Fin 3 → ℝ) (hdx : ∀ d, 0 < dx d) (s : Setup N)
    (hrt : s.rt = .constant) (hsm : 0 ≤ s.small) (eps : ℝ) (G0 : ADM ℝ) (L0 : Limits) (g0 dt cfl : ℝ) (h0 : 0 ≤ cfl) (h1 : cfl ≤ 1) (hdt : 0 ≤ dt)
    (base : Arr ℝ × Arr ℝ) (k j i : ℤ) (h : M.Has k j i) (hb : 0 ≤ base.1 k j i) (l : List (StageData N)) (m : ℕ) (cur : Arr ℝ × Arr ℝ)
    (hcur : (1 - cfl) ^ m * base.1 k j i ≤ cur.1 k j i) (hok : StepOk M own dx s eps G0 L0 g0 cfl dt base l cur) :
    (1 - cfl) ^ (m + l.length) * base.1 k j i ≤ (l.foldl (pairStage M own dx s dt base) cur).1 k j i := by
  induction l generalizing m cur with
  | nil => simpa using hcur
  | cons st l ih =>
    obtain ⟨ho, hl⟩ := hok
    have hs := stage_positive M own hM dx hdx s hrt hsm st eps G0 L0 g0 ho.uni dt cfl hdt ho.beta.1 base cur ho.cons k j i h (ho.cfl k j i h)
    have := ih (m + 1) (pairStage M own dx s dt base cur st) (le_trans ?_ hs) hl
    · rw [List.length_cons, List.foldl_cons, ← add_assoc, add_right_comm]; exact this
    · have c0 : 0 ≤ 1 - cfl := by linarith
      have p1 : (1 - cfl) ^ (m + 1) ≤ 1 := pow_le_one₀ c0 (by linarith)
      have a1 : st.beta * (1 - cfl) * ((1 - cfl) ^ m * base.1 k j i) ≤ st.beta * (1 - cfl) * cur.1 k j i :=
        mul_le_mul_of_nonneg_left hcur (mul_nonneg ho.beta.1 c0)
      have a2 : (1 - st.beta) * ((1 - cfl) ^ (m + 1) * base.1 k j i) ≤ (1 - st.beta) * base.1 k j i :=
        mul_le_mul_of_nonneg_left (mul_le_of_le_one_left hb p1) (by linarith [ho.beta.2])
      rw [pow_succ] at a2 ⊢
      nlinarith

/-- **C125**: over a run of any number of steps and stages, with first-order reconstruction and either Riemann solver, on a uniform background, with any
decomposition into blocks, periodic, outflow or reflecting boundaries, and time steps obeying the CFL condition with `cfl < 1` for the face speeds of the
stages, at least the fraction `(1 - cfl) ^ (number of stages)` of the density of every cell is left; in particular it stays positive. -/
theorem run_positive (M : Mesh) (own : ℤ → ℤ → ℤ → IBlk) (hM : M.Tiled own) (dx : Fin 3 → ℝ) (hdx : ∀ d, 0 < dx d) (s : Setup N)
    (hrt : s.rt = .constant) (hsm : 0 ≤ s.small) (eps : ℝ) (G0 : ADM ℝ) (L0 : Limits) (g0 cfl : ℝ) (h0 : 0 ≤ cfl) (h1 : cfl < 1)
    (steps : List (ℝ × List (StageData N))) (U : Arr ℝ × Arr ℝ) (hok : RunOk M own dx s eps G0 L0 g0 cfl steps U) (k j i : ℤ) (h : M.Has k j i)
    (hU : 0 < U.1 k j i) :
    (1 - cfl) ^ (steps.map fun t => t.2.length).sum * U.1 k j i ≤ (pairRun M own dx s steps U).1 k j i ∧ 0 < (pairRun M own dx s steps U).1 k j i := by
  have c0 : 0 < 1 - cfl := by linarith
  have main : (1 - cfl) ^ (steps.map fun t => t.2.length).sum * U.1 k j i ≤ (pairRun M own dx s steps U).1 k j i := by
    induction steps generalizing U with
    | nil => simp [pairRun]
    | cons t l ih =>
      obtain ⟨hdt, hs, hl⟩ := hok
      have st := step_positive M own hM dx hdx s hrt hsm eps G0 L0 g0 t.1 cfl h0 h1.le hdt U k j i h hU.le t.2 0 U (by simp) hs
      rw [zero_add] at st
      have hpos : 0 < (pairStep M own dx s t.1 t.2 U).1 k j i := (mul_pos (pow_pos c0 _) hU).trans_le st
      have := ih (pairStep M own dx s t.1 t.2 U) hl hpos
      rw [List.map_cons, List.sum_cons, pow_add]
      refine le_trans ?_ this
      have q := mul_le_mul_of_nonneg_left st (pow_pos c0 (l.map fun t => t.2.length).sum).le
      calc _ = (1 - cfl) ^ (l.map fun t => t.2.length).sum * ((1 - cfl) ^ t.2.length * U.1 k j i) := by ring
        _ ≤ _ := q
  exact ⟨main, (mul_pos (pow_pos c0 _) hU).trans_le main⟩

/-! ### Example: a fluid at rest with a density jump in flat space -/

/-- slot 0 is the density, slot 1 the electron fraction. -/
noncomputable def exStage : StageData 2 :=
  { beta := 1
    others := fun D _ _ c => D (exPer.wrap c 2) (exPer.wrap c 1) (exPer.wrap c 0)
    prim := fun q => ⟨q 0, q 0, q 0, fun _ => 0, fun _ => 0⟩
    G := fun _ _ => C2P.flat
    L := fun _ _ => ⟨1/100, 0, 10, 10⟩
    speeds := fun d _ q => codeSpeeds (1/1000) C2P.flat ⟨1/100, 0, 10, 10⟩ (4/3) ⟨q 0, q 0, q 0, fun _ => 0, fun _ => 0⟩ d
    gdet := fun _ _ => 1
    gammadet := fun _ _ => 1 }

noncomputable def exSetup : Setup 2 := ⟨0, 1/1000, 1/1000, .constant, 1, .hll, true⟩

/-- densities `1, 2, 3, 4`. -/
noncomputable def exU : Arr ℝ × Arr ℝ := (fun _ _ i => (i : ℝ) + 1, fun _ _ i => ((i : ℝ) + 1) / 2)

theorem ex_uniform : Uniform exStage (1/1000) C2P.flat ⟨1/100, 0, 10, 10⟩ 1 :=
  ⟨C2P.flat_valid.1, C2P.flat_valid.2, by norm_num [C2P.flat], fun _ _ => ⟨rfl, rfl, rfl, by norm_num [exStage, C2P.flat]⟩, one_pos, by norm_num,
    by norm_num, by norm_num, by norm_num, fun _ => 4/3, fun _ _ _ => rfl⟩

theorem ex_consistent : Consistent exPer exSetup exStage C2P.flat ⟨1/100, 0, 10, 10⟩ 1 exU := by
  intro k j i h
  have hi0 : 0 ≤ i := h.2.2.1
  have hi1 : i < 4 := h.2.2.2
  have hi : (0:ℝ) ≤ i := by exact_mod_cast hi0
  have hp : cellState exPer exSetup exStage exU ![i, j, k] 0 = (i : ℝ) + 1 := by
    have hm : i % 4 = i := Int.emod_eq_of_lt hi0 hi1
    simp [cellState, prims, exSetup, exStage, exU, Mesh.wrap, exPer, exMesh, hm]
  have hv : ∀ x : ℝ, fVsq C2P.flat ⟨1/100, 0, 10, 10⟩ ⟨x, x, x, fun _ => 0, fun _ => 0⟩ = 0 := by
    intro x
    have : fVsq0 C2P.flat ⟨1/100, 0, 10, 10⟩ ⟨x, x, x, fun _ => 0, fun _ => 0⟩ = 0 := by
      simp [fVsq0, fV0, fVp]
    unfold fVsq
    rw [this]
    norm_num [vsqMax]
  have hpr : exStage.prim (cellState exPer exSetup exStage exU ![i, j, k]) = ⟨i + 1, i + 1, i + 1, fun _ => 0, fun _ => 0⟩ := by
    show (⟨cellState exPer exSetup exStage exU ![i, j, k] 0, cellState exPer exSetup exStage exU ![i, j, k] 0,
      cellState exPer exSetup exStage exU ![i, j, k] 0, fun _ => 0, fun _ => 0⟩ : Rel.Prim) = _
    rw [hp]
  show exU.1 k j i = 1 * (fRho _ _ * fW _ _ _)
  rw [hpr]
  simp only [fW, hv, fRho]
  rw [max_eq_left (by linarith)]
  simp [exU]

/-- a step with `dt > 0` satisfying all hypotheses of `run_positive`. -/
theorem ex_run : ∃ dt : ℝ, 0 < dt ∧ RunOk exPer exOwn (fun _ => 1) exSetup (1/1000) C2P.flat ⟨1/100, 0, 10, 10⟩ 1 (1/2) [(dt, [exStage])] exU := by
  have nn : ∀ k j i, 0 ≤ cflRate exPer (fun _ => 1) exSetup exStage exU k j i := fun k j i =>
    sum_nonneg fun d _ => div_nonneg ((faceSig_nonneg exPer exSetup rfl le_rfl exStage _ _ _ _ ex_uniform exU d _).trans (le_max_left _ _)) zero_le_one
  set S := ∑ i ∈ range 4, cflRate exPer (fun _ => 1) exSetup exStage exU 0 0 (i : ℤ)
  have hS : 0 ≤ S := sum_nonneg fun i _ => nn _ _ _
  refine ⟨(1/2) / (S + 1), by positivity, by positivity, ⟨⟨ex_uniform, ⟨zero_le_one, le_rfl⟩, ex_consistent, ?_⟩, trivial⟩, trivial⟩
  intro k j i h
  obtain ⟨⟨k0, k1⟩, ⟨j0, j1⟩, i0, i1⟩ := h
  have hk : k = 0 := by have : k < 1 := k1
                        omega
  have hj : j = 0 := by have : j < 1 := j1
                        omega
  have hi : i < 4 := i1
  subst hk hj
  obtain ⟨m, rfl⟩ := Int.eq_ofNat_of_zero_le i0
  have hle : cflRate exPer (fun _ => 1) exSetup exStage exU 0 0 (m : ℤ) ≤ S :=
    single_le_sum (f := fun i : ℕ => cflRate exPer (fun _ => 1) exSetup exStage exU 0 0 (i : ℤ)) (fun i _ => nn _ _ _) (mem_range.2 (by omega))
  rw [div_mul_eq_mul_div, div_le_iff₀ (by positivity)]
  linarith

end Phoebus.MeshRun
