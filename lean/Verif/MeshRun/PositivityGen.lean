import Verif.MeshRun.Positivity
import Verif.Recon.Props

/-!
# C125 on any background and with any reconstruction

The sharp bound of `Positivity.lean` uses that both faces of a cell see the same state and the same metric.  Here nothing is assumed of the
reconstruction and of the background except a bound `θ` on the mass of the face states of a cell relative to the mass of the cell; the admissible
CFL number is then `1 / (2 θ)`.  For the piecewise linear reconstruction `θ = 2 Γ_max κ`, `κ` bounding the variation of `√γ` over a cell.
-/
namespace Phoebus.MeshRun
open FluxCT FixFlux FluxSweep Finset Riemann Geom
variable {N : ℕ}

/-- what is needed of geometry, limits and speeds at the faces: a regular metric, `gdet = alpha gammadet`, sane limits, and the speeds of the code. -/
structure Background (st : StageData N) (eps : ℝ) : Prop where
  valid : ∀ d f, (st.G d f).Valid
  pos : ∀ d f, Rel.PosDef (st.G d f)
  lapse : ∀ d f, 0 < (st.G d f).alpha
  det : ∀ d f, 0 < st.gammadet d f ∧ st.gdet d f = (st.G d f).alpha * st.gammadet d f
  epsr : 0 < eps ∧ eps < 1/2
  floor : ∀ d f, 0 < (st.L d f).rhoFloor
  sie : ∀ d f, (st.L d f).sieFloor ≤ (st.L d f).sieMax
  gam : ∀ d f, 1 ≤ (st.L d f).gamMax
  speeds : ∃ g1 : Fin 3 → Pos → (Fin N → ℝ) → ℝ, ∀ d f q, st.speeds d f q = codeSpeeds eps (st.G d f) (st.L d f) (g1 d f q) (st.prim q) d

/-- densitised mass of a state at a face. -/
noncomputable def faceMass (s : Setup N) (st : StageData N) (d : Fin 3) (f : Pos) (q : Fin N → ℝ) : ℝ :=
  st.gammadet d f * (fluxU s.valencia (st.G d f) (st.L d f) 0 (st.prim q)).rho

/-- state reconstructed on the lower side of a face (from the cell below). -/
noncomputable def below (M : Mesh) (s : Setup N) (st : StageData N) (U : Arr ℝ × Arr ℝ) (d : Fin 3) (f : Pos) : Fin N → ℝ :=
  stateL (kernel s.ew s.em s.rt) (prims M s st U) d f
/-- state reconstructed on the upper side of a face (from the cell above). -/
noncomputable def above (M : Mesh) (s : Setup N) (st : StageData N) (U : Arr ℝ × Arr ℝ) (d : Fin 3) (f : Pos) : Fin N → ℝ :=
  stateR (kernel s.ew s.em s.rt) (prims M s st U) d f

/-- the face states of every cell carry at most `θ` times the mass of the cell. -/
def MassRatio (M : Mesh) (s : Setup N) (st : StageData N) (U : Arr ℝ × Arr ℝ) (θ : ℝ) : Prop :=
  ∀ k j i, M.Has k j i → 0 ≤ U.1 k j i ∧ ∀ d : Fin 3, d.val < M.ndim →
    faceMass s st d ![i, j, k] (above M s st U d ![i, j, k]) ≤ θ * U.1 k j i ∧
    faceMass s st d (fun e => (![i, j, k] : Pos) e + unit d e) (below M s st U d fun e => (![i, j, k] : Pos) e + unit d e) ≤ θ * U.1 k j i

/-- the solver speed bounds the signal speeds of both sides. -/
theorem solverSpeed_bounds (s : Setup N) (sl sr : ℝ × ℝ) :
    sl.2 ≤ solverSpeed s sl sr ∧ -sl.1 ≤ solverSpeed s sl sr ∧ sr.2 ≤ solverSpeed s sl sr ∧ -sr.1 ≤ solverSpeed s sl sr := by
  unfold solverSpeed
  cases s.solver with
  | llf =>
    simp only [Timestep.llfSpeed]
    exact ⟨(le_max_right _ _).trans (le_max_left _ _), (le_max_left _ _).trans (le_max_left _ _), (le_max_right _ _).trans (le_max_right _ _),
      (le_max_left _ _).trans (le_max_right _ _)⟩
  | hll =>
    simp only [Timestep.hllSpeed]
    refine ⟨?_, ?_, ?_, ?_⟩
    · exact ((le_max_left _ _).trans (le_max_left _ _)).trans (le_max_right _ _)
    · exact (neg_le_neg ((min_le_left _ _).trans (min_le_left _ _))).trans (le_max_left _ _)
    · exact ((le_max_right _ _).trans (le_max_left _ _)).trans (le_max_right _ _)
    · exact (neg_le_neg ((min_le_left _ _).trans (min_le_right _ _))).trans (le_max_left _ _)

/-- bounds on the mass flux through a face by the masses of the two face states and the face speed. -/
theorem gen_face (M : Mesh) (s : Setup N) (hsm : 0 ≤ s.small) (st : StageData N) (eps : ℝ) (hu : Background st eps) (U : Arr ℝ × Arr ℝ) (d : Fin 3)
    (k j i : ℤ) :
    let f : Pos := ![i, j, k]
    let c := faceSig M s st U d f
    stageFlux M s st U d .rho k j i ≤ faceMass s st d f (below M s st U d f) * c ∧
      -(faceMass s st d f (above M s st U d f) * c) ≤ stageFlux M s st U d .rho k j i ∧ 0 ≤ c := by
  intro f c
  obtain ⟨g1, hsp⟩ := hu.speeds
  set ql := below M s st U d f with hql
  set qr := above M s st U d f with hqr
  set G := st.G d f with hG
  set L := st.L d f with hL
  set g := st.gammadet d f with hg
  set D := fun q => (fluxU s.valencia G L 0 (st.prim q)).rho with hD
  set w := fun q => G.alpha * fVtil G L (st.prim q) d with hw
  have ha : 0 < G.alpha := hu.lapse d f
  have bl := speeds_bracket eps hu.epsr.1 hu.epsr.2 G (hu.valid d f) (hu.pos d f) ha L (hu.gam d f) (hu.floor d f) (hu.sie d f) (g1 d f ql) (st.prim ql) d
  have br := speeds_bracket eps hu.epsr.1 hu.epsr.2 G (hu.valid d f) (hu.pos d f) ha L (hu.gam d f) (hu.floor d f) (hu.sie d f) (g1 d f qr) (st.prim qr) d
  have hc : c = solverSpeed s (st.speeds d f ql) (st.speeds d f qr) := rfl
  rw [hsp, hsp] at hc
  have hF : stageFlux M s st U d .rho k j i = combine s (G.alpha * g) g (codeSpeeds eps G L (g1 d f ql) (st.prim ql) d)
      (codeSpeeds eps G L (g1 d f qr) (st.prim qr) d) (D ql * (w ql / G.alpha)) (D qr * (w qr / G.alpha)) (D ql) (D qr) := by
    have hw : ∀ q, w q / G.alpha = fVtil G L (st.prim q) d := fun q => by
      show G.alpha * _ / G.alpha = _
      rw [mul_div_cancel_left₀ _ ha.ne']
    unfold stageFlux
    simp only [if_true]
    rw [show (![i, j, k] : Pos) = f from rfl]
    change (faceFluxes s st d f ql qr).1 = _
    unfold faceFluxes
    simp only [hsp, hw, (hu.det d f).2]
    rfl
  have hm : ∀ q, 0 ≤ g * D q := fun q => mul_nonneg (hu.det d f).1.le (mass_nonneg _ _ _ _ _ (hu.floor d f).le)
  have fb := face_bounds s hsm g G.alpha (hu.det d f).1.le ha (codeSpeeds eps G L (g1 d f ql) (st.prim ql) d)
    (codeSpeeds eps G L (g1 d f qr) (st.prim qr) d) (D ql) (D qr) (w ql) (w qr) (mass_nonneg _ _ _ _ _ (hu.floor d f).le)
    (mass_nonneg _ _ _ _ _ (hu.floor d f).le) bl.1 bl.2 br.1 br.2
  have sb := solverSpeed_bounds s (codeSpeeds eps G L (g1 d f ql) (st.prim ql) d) (codeSpeeds eps G L (g1 d f qr) (st.prim qr) d)
  simp only at fb
  rw [← hF, ← hc] at fb
  rw [← hc] at sb
  obtain ⟨f1, f2, f3, f4⟩ := fb
  obtain ⟨s1, s2, s3, s4⟩ := sb
  have e1 : w ql ≤ c := bl.2.trans s1
  have e2 : -w qr ≤ c := by have := br.1; linarith
  refine ⟨f1.trans (mul_le_mul_of_nonneg_left (by linarith) (hm ql)), le_trans (neg_le_neg (mul_le_mul_of_nonneg_left (by linarith) (hm qr))) f2, ?_⟩
  linarith

/-- **C125 (any reconstruction, any background)**: the rate of change of the mass of a cell is at least minus `2 θ` times its mass times the CFL sum. -/
theorem rate_lower_gen (M : Mesh) (own : ℤ → ℤ → ℤ → IBlk) (hM : M.Tiled own) (dx : Fin 3 → ℝ) (hdx : ∀ d, 0 < dx d) (s : Setup N)
    (hsm : 0 ≤ s.small) (st : StageData N) (eps : ℝ) (hu : Background st eps) (U : Arr ℝ × Arr ℝ) (θ : ℝ) (hθ : MassRatio M s st U θ) (h0 : 0 ≤ θ)
    (k j i : ℤ) (h : M.Has k j i) :
    -(2 * θ * U.1 k j i * cflRate M dx s st U k j i) ≤ M.rate own dx (stageFlux M s st U) .rho k j i := by
  obtain ⟨hU0, hr⟩ := hθ k j i h
  have hg : 0 ≤ θ * U.1 k j i := mul_nonneg h0 hU0
  set F := fixFluxes (M.cfg M.whole) M.whole.blk (stageFlux M s st U) with hF
  have dir : ∀ d : Fin 3, d.val < M.ndim →
      F d .rho (upFace d k j i).1 (upFace d k j i).2.1 (upFace d k j i).2.2 - F d .rho k j i ≤
        2 * θ * U.1 k j i * max (faceSig M s st U d ![i, j, k]) (faceSig M s st U d fun e => (![i, j, k] : Pos) e + unit d e) := by
    intro d hd
    obtain ⟨-, l2, l3⟩ := gen_face M s hsm st eps hu U d k j i
    obtain ⟨u1, -, u3⟩ := gen_face M s hsm st eps hu U d (upFace d k j i).1 (upFace d k j i).2.1 (upFace d k j i).2.2
    rw [upPos] at u1 u3
    obtain ⟨r1, r2⟩ := hr d hd
    set c1 := faceSig M s st U d ![i, j, k]
    set c2 := faceSig M s st U d fun e => (![i, j, k] : Pos) e + unit d e
    have key := fix_cell M hM.dim h (stageFlux M s st U) d hd (θ * U.1 k j i * c1) (θ * U.1 k j i * c2)
      (mul_nonneg hg l3) (mul_nonneg hg u3)
      (le_trans (neg_le_neg (mul_le_mul_of_nonneg_right r1 l3)) l2) (u1.trans (mul_le_mul_of_nonneg_right r2 u3))
    have m1 := mul_le_mul_of_nonneg_left (le_max_left c1 c2) hg
    have m2 := mul_le_mul_of_nonneg_left (le_max_right c1 c2) hg
    have k1 := key.1
    have k2 := key.2
    linarith
  rw [rate_whole M own hM dx _ .rho (by decide) k j i h]
  unfold fluxDiv cflRate Timestep.dirs
  rw [sum_filter, Fin.sum_univ_three, neg_le_neg_iff]
  have part : ∀ d : Fin 3,
      (mask M.ndim F d .rho (upFace d k j i).1 (upFace d k j i).2.1 (upFace d k j i).2.2 - mask M.ndim F d .rho k j i) / dx d ≤
        2 * θ * U.1 k j i * (if (d : ℕ) < M.ndim then
          max (faceSig M s st U d ![i, j, k]) (faceSig M s st U d fun e => (![i, j, k] : Pos) e + unit d e) / dx d else 0) := by
    intro d
    unfold mask
    split_ifs with hd
    · rw [mul_div_assoc', div_le_div_iff_of_pos_right (hdx d)]
      exact dir d hd
    · simp
  have p0 := part 0; have p1 := part 1; have p2 := part 2
  simp only [upFace] at p0 p1 p2
  rw [mul_add, mul_add]
  exact add_le_add (add_le_add p0 p1) p2

/-- a stage as the general theorem needs it. -/
structure StageOkGen (M : Mesh) (dx : Fin 3 → ℝ) (s : Setup N) (eps θ dt cfl : ℝ) (st : StageData N) (U : Arr ℝ × Arr ℝ) : Prop where
  bg : Background st eps
  beta : 0 ≤ st.beta ∧ st.beta ≤ 1
  ratio : MassRatio M s st U θ
  cfl : ∀ k j i, M.Has k j i → dt * cflRate M dx s st U k j i ≤ cfl

/-- all stages of a step, each with the state it starts from. -/
def StepOkGen (M : Mesh) (own : ℤ → ℤ → ℤ → IBlk) (dx : Fin 3 → ℝ) (s : Setup N) (eps θ cfl dt : ℝ) (base : Arr ℝ × Arr ℝ) :
    List (StageData N) → Arr ℝ × Arr ℝ → Prop
  | [], _ => True
  | st :: l, cur => StageOkGen M dx s eps θ dt cfl st cur ∧ StepOkGen M own dx s eps θ cfl dt base l (pairStage M own dx s dt base cur st)

/-- all steps of a run. -/
def RunOkGen (M : Mesh) (own : ℤ → ℤ → ℤ → IBlk) (dx : Fin 3 → ℝ) (s : Setup N) (eps θ cfl : ℝ) :
    List (ℝ × List (StageData N)) → Arr ℝ × Arr ℝ → Prop
  | [], _ => True
  | t :: l, U => 0 ≤ t.1 ∧ StepOkGen M own dx s eps θ cfl t.1 U t.2 U ∧ RunOkGen M own dx s eps θ cfl l (pairStep M own dx s t.1 t.2 U)

theorem stage_positive_gen (M : Mesh) (own : ℤ → ℤ → ℤ → IBlk) (hM : M.Tiled own) (dx : Fin 3 → ℝ) (hdx : ∀ d, 0 < dx d) (s : Setup N)
    (hsm : 0 ≤ s.small) (st : StageData N) (eps θ dt cfl : ℝ) (h0 : 0 ≤ θ) (hdt : 0 ≤ dt) (base U : Arr ℝ × Arr ℝ)
    (hok : StageOkGen M dx s eps θ dt cfl st U) (k j i : ℤ) (h : M.Has k j i) :
    st.beta * (1 - 2 * θ * cfl) * U.1 k j i + (1 - st.beta) * base.1 k j i ≤ (pairStage M own dx s dt base U st).1 k j i := by
  have hr := rate_lower_gen M own hM dx hdx s hsm st eps hok.bg U θ hok.ratio h0 k j i h
  have hU : 0 ≤ U.1 k j i := (hok.ratio k j i h).1
  simp only [pairStage, stage]
  have h1 := mul_le_mul_of_nonneg_left hr (mul_nonneg hok.beta.1 hdt)
  have h2 := mul_le_mul_of_nonneg_left (hok.cfl k j i h) (mul_nonneg (mul_nonneg hok.beta.1 hU) (mul_nonneg (by norm_num : (0:ℝ) ≤ 2) h0))
  nlinarith

theorem step_positive_gen (M : Mesh) (own : ℤ → ℤ → ℤ → IBlk) (hM : M.Tiled own) (dx : Fin 3 → ℝ) (hdx : ∀ d, 0 < dx d) (s : Setup N)
    (hsm : 0 ≤ s.small) (eps θ dt cfl : ℝ) (hθ : 0 ≤ θ) (h0 : 0 ≤ cfl) (h1 : 2 * θ * cfl ≤ 1) (hdt : 0 ≤ dt)
    (base : Arr ℝ × Arr ℝ) (k j i : ℤ) (h : M.Has k j i) (hb : 0 ≤ base.1 k j i) (l : List (StageData N)) (m : ℕ) (cur : Arr ℝ × Arr ℝ)
    (hcur : (1 - 2 * θ * cfl) ^ m * base.1 k j i ≤ cur.1 k j i) (hok : StepOkGen M own dx s eps θ cfl dt base l cur) :
    (1 - 2 * θ * cfl) ^ (m + l.length) * base.1 k j i ≤ (l.foldl (pairStage M own dx s dt base) cur).1 k j i := by
  have hp : 0 ≤ 2 * θ * cfl := by positivity
  induction l generalizing m cur with
  | nil => simpa using hcur
  | cons st l ih =>
    obtain ⟨ho, hl⟩ := hok
    have hs := stage_positive_gen M own hM dx hdx s hsm st eps θ dt cfl hθ hdt base cur ho k j i h
    have := ih (m + 1) (pairStage M own dx s dt base cur st) (le_trans ?_ hs) hl
    · rw [List.length_cons, List.foldl_cons, ← add_assoc, add_right_comm]; exact this
    · generalize 2 * θ * cfl = q at *
      have c0 : 0 ≤ 1 - q := by linarith
      have p1 : (1 - q) ^ (m + 1) ≤ 1 := pow_le_one₀ c0 (by linarith)
      have a1 : st.beta * (1 - q) * ((1 - q) ^ m * base.1 k j i) ≤ st.beta * (1 - q) * cur.1 k j i :=
        mul_le_mul_of_nonneg_left hcur (mul_nonneg ho.beta.1 c0)
      have a2 : (1 - st.beta) * ((1 - q) ^ (m + 1) * base.1 k j i) ≤ (1 - st.beta) * base.1 k j i :=
        mul_le_mul_of_nonneg_left (mul_le_of_le_one_left hb p1) (by linarith [ho.beta.2])
      rw [pow_succ] at a2 ⊢
      nlinarith

/-- **C125**: over a run of any number of steps and stages, with any of the reconstructions and either Riemann solver, on any background, any
decomposition into blocks, periodic, outflow or reflecting boundaries: if the face states carry at most `θ` times the mass of their cell and the time steps
obey the CFL condition for the face speeds of the stages with `2 θ cfl < 1`, then at least the fraction `(1 - 2 θ cfl) ^ (number of stages)` of the density of
every cell is left, and it stays positive. -/
theorem run_positive_gen (M : Mesh) (own : ℤ → ℤ → ℤ → IBlk) (hM : M.Tiled own) (dx : Fin 3 → ℝ) (hdx : ∀ d, 0 < dx d) (s : Setup N)
    (hsm : 0 ≤ s.small) (eps θ cfl : ℝ) (hθ : 0 ≤ θ) (h0 : 0 ≤ cfl) (h1 : 2 * θ * cfl < 1)
    (steps : List (ℝ × List (StageData N))) (U : Arr ℝ × Arr ℝ) (hok : RunOkGen M own dx s eps θ cfl steps U) (k j i : ℤ) (h : M.Has k j i)
    (hU : 0 < U.1 k j i) :
    (1 - 2 * θ * cfl) ^ (steps.map fun t => t.2.length).sum * U.1 k j i ≤ (pairRun M own dx s steps U).1 k j i ∧
      0 < (pairRun M own dx s steps U).1 k j i := by
  have c0 : 0 < 1 - 2 * θ * cfl := by linarith
  have main : (1 - 2 * θ * cfl) ^ (steps.map fun t => t.2.length).sum * U.1 k j i ≤ (pairRun M own dx s steps U).1 k j i := by
    induction steps generalizing U with
    | nil => simp [pairRun]
    | cons t l ih =>
      obtain ⟨hdt, hs, hl⟩ := hok
      have st := step_positive_gen M own hM dx hdx s hsm eps θ t.1 cfl hθ h0 h1.le hdt U k j i h hU.le t.2 0 U (by simp) hs
      rw [zero_add] at st
      have hpos : 0 < (pairStep M own dx s t.1 t.2 U).1 k j i := (mul_pos (pow_pos c0 _) hU).trans_le st
      have := ih (pairStep M own dx s t.1 t.2 U) hl hpos
      rw [List.map_cons, List.sum_cons, pow_add]
      refine le_trans ?_ this
      have q := mul_le_mul_of_nonneg_left st (pow_pos c0 (l.map fun t => t.2.length).sum).le
      calc _ = (1 - 2 * θ * cfl) ^ (l.map fun t => t.2.length).sum * ((1 - 2 * θ * cfl) ^ t.2.length * U.1 k j i) := by ring
        _ ≤ _ := q
  exact ⟨main, (mul_pos (pow_pos c0 _) hU).trans_le main⟩

/-! ### The mass ratio of the constant and the linear reconstruction -/

/-- the Lorentz factor of a face state lies between one and the ceiling. -/
theorem face_lorentz (G : ADM ℝ) (hp : Rel.PosDef G) (L : Limits) (hg : 1 ≤ L.gamMax) (hf : 0 < L.rhoFloor) (hs : L.sieFloor ≤ L.sieMax) (q : Rel.Prim) :
    1 ≤ fW G L q ∧ fW G L q ≤ L.gamMax := by
  obtain ⟨-, -, -, -, -, -, hv, -⟩ := face_limits G L q hf hs hg
  have hv0 : 0 ≤ fVsq G L q := by rw [hv]; exact hp _
  have hm0 : 0 ≤ vsqMax L := by
    unfold vsqMax
    have : 1 / (L.gamMax * L.gamMax) ≤ 1 := by rw [div_le_one (by positivity)]; nlinarith
    linarith
  have hvm : fVsq G L q ≤ vsqMax L := by
    unfold fVsq
    split_ifs with hh
    · rw [mul_div_cancel₀ _ (by linarith)]
    · linarith
  have hgp : 0 < L.gamMax := by linarith
  have e : 1 / (L.gamMax * L.gamMax) ≤ 1 - fVsq G L q := by unfold vsqMax at hvm; linarith
  have hpos : 0 < 1 - fVsq G L q := lt_of_lt_of_le (by positivity) e
  unfold fW
  constructor
  · rw [le_div_iff₀ (Real.sqrt_pos.2 hpos), one_mul, Real.sqrt_le_one]; linarith
  · rw [div_le_iff₀ (Real.sqrt_pos.2 hpos)]
    have : 1 / L.gamMax ≤ Real.sqrt (1 - fVsq G L q) := by
      apply Real.le_sqrt_of_sq_le
      calc (1 / L.gamMax) ^ 2 = 1 / (L.gamMax * L.gamMax) := by field_simp
        _ ≤ _ := e
    calc (1:ℝ) = L.gamMax * (1 / L.gamMax) := by field_simp
      _ ≤ _ := mul_le_mul_of_nonneg_left this hgp.le

/-- reconstructed edge values of non-negative cell values are at most twice the cell value. -/
theorem kernel_le_two (ew em : ℝ) (rt : Method) (hrt : rt = .constant ∨ rt = .linear) (q : ℤ → ℝ) (hq : ∀ m, 0 ≤ q m) :
    (kernel ew em rt q).1 ≤ 2 * q 0 ∧ (kernel ew em rt q).2 ≤ 2 * q 0 := by
  rcases hrt with rfl | rfl
  · simp only [kernel, Recon.piecewiseConstant]; have := hq 0; constructor <;> linarith
  · simp only [kernel]
    obtain ⟨a, b, c, -⟩ := Recon.plm_no_overshoot (q (-1)) (q 0) (q 1)
    have a0 : 0 ≤ (Recon.piecewiseLinear (q (-1)) (q 0) (q 1)).1 := (le_min (hq _) (hq _)).trans a.1
    have b0 : 0 ≤ (Recon.piecewiseLinear (q (-1)) (q 0) (q 1)).2 := (le_min (hq _) (hq _)).trans b.1
    constructor <;> linarith

/-- the conserved density is the one of primitive variables which respect density floor; `W ≥ 1` is their Lorentz factor, `gc` is `√γ` at the cell
centre. -/
structure CellMass (M : Mesh) (s : Setup N) (st : StageData N) (U : Arr ℝ × Arr ℝ) (nrho : Fin N) (gc : ℤ → ℤ → ℤ → ℝ) : Prop where
  slot : ∀ q, (st.prim q).rho = q nrho
  nonneg : ∀ c, 0 ≤ prims M s st U nrho c
  gpos : ∀ k j i, 0 < gc k j i
  cons : ∀ k j i, M.Has k j i → ∃ W, 1 ≤ W ∧ U.1 k j i = gc k j i * (prims M s st U nrho ![i, j, k] * W)

/-- **C125**: with the piecewise constant or the piecewise linear reconstruction the mass ratio is at most `2 Γ κ`: `Γ` bounds the Lorentz factor ceiling of
the faces, `κ` the variation of `√γ` between the centre and the faces of a cell; the density floors at the faces are at most twice the density. -/
theorem mass_ratio (M : Mesh) (s : Setup N) (hrt : s.rt = .constant ∨ s.rt = .linear) (st : StageData N) (eps : ℝ) (hu : Background st eps) (U : Arr ℝ × Arr ℝ)
    (nrho : Fin N) (gc : ℤ → ℤ → ℤ → ℝ) (hc : CellMass M s st U nrho gc) (Γ κ : ℝ) (hΓ : ∀ d f, (st.L d f).gamMax ≤ Γ) (hκ0 : 0 ≤ κ)
    (hκ : ∀ k j i, M.Has k j i → ∀ d : Fin 3, d.val < M.ndim → st.gammadet d ![i, j, k] ≤ κ * gc k j i ∧
      st.gammadet d (fun e => (![i, j, k] : Pos) e + unit d e) ≤ κ * gc k j i)
    (hfl : ∀ k j i, M.Has k j i → ∀ d : Fin 3, d.val < M.ndim → (st.L d ![i, j, k]).rhoFloor ≤ 2 * prims M s st U nrho ![i, j, k] ∧
      (st.L d (fun e => (![i, j, k] : Pos) e + unit d e)).rhoFloor ≤ 2 * prims M s st U nrho ![i, j, k]) :
    MassRatio M s st U (2 * Γ * κ) := by
  intro k j i h
  obtain ⟨W, hW, hUe⟩ := hc.cons k j i h
  have hr0 := hc.nonneg ![i, j, k]
  have hgc := hc.gpos k j i
  set r := prims M s st U nrho ![i, j, k]
  have hU : gc k j i * r ≤ U.1 k j i := by
    rw [hUe]; exact mul_le_mul_of_nonneg_left (le_mul_of_one_le_right hr0 hW) hgc.le
  have hgr : 0 ≤ gc k j i * r := mul_nonneg hgc.le hr0
  refine ⟨hgr.trans hU, fun d hd => ?_⟩
  have main : ∀ (f : Pos) (q : Fin N → ℝ), q nrho ≤ 2 * r → st.gammadet d f ≤ κ * gc k j i → (st.L d f).rhoFloor ≤ 2 * r →
      faceMass s st d f q ≤ 2 * Γ * κ * U.1 k j i := by
    intro f q h1 h2 h3
    obtain ⟨w1, w2⟩ := face_lorentz (st.G d f) (hu.pos d f) (st.L d f) (hu.gam d f) (hu.floor d f) (hu.sie d f) (st.prim q)
    have hΓ1 : 1 ≤ Γ := (hu.gam d f).trans (hΓ d f)
    have e1 : fRho (st.L d f) (st.prim q) ≤ 2 * r := by unfold fRho; rw [hc.slot]; exact max_le h1 h3
    have e2 : 0 ≤ fRho (st.L d f) (st.prim q) := (hu.floor d f).le.trans (le_max_right _ _)
    show st.gammadet d f * (fRho (st.L d f) (st.prim q) * fW (st.G d f) (st.L d f) (st.prim q)) ≤ _
    calc st.gammadet d f * (fRho (st.L d f) (st.prim q) * fW (st.G d f) (st.L d f) (st.prim q))
        ≤ (κ * gc k j i) * (2 * r * Γ) :=
          mul_le_mul h2 (mul_le_mul e1 (w2.trans (hΓ d f)) (by linarith) (by linarith)) (mul_nonneg e2 (by linarith)) (mul_nonneg hκ0 hgc.le)
      _ = 2 * Γ * κ * (gc k j i * r) := by ring
      _ ≤ _ := mul_le_mul_of_nonneg_left hU (by positivity)
  obtain ⟨k1, k2⟩ := hκ k j i h d hd
  obtain ⟨f1, f2⟩ := hfl k j i h d hd
  constructor
  · refine main _ _ ?_ k1 f1
    have := (kernel_le_two s.ew s.em s.rt hrt (fun m => prims M s st U nrho fun e => (![i, j, k] : Pos) e + m * unit d e) fun m => hc.nonneg _).2
    simp only [above, stateR]
    refine this.trans (le_of_eq ?_)
    simp only [zero_mul, add_zero, r]
  · refine main _ _ ?_ k2 f2
    have := (kernel_le_two s.ew s.em s.rt hrt
      (fun m => prims M s st U nrho fun e => (![i, j, k] : Pos) e + unit d e + (m - 1) * unit d e) fun m => hc.nonneg _).1
    simp only [below, stateL]
    refine this.trans (le_of_eq ?_)
    simp only [zero_sub, r]
    congr 2; funext e; ring

end Phoebus.MeshRun
