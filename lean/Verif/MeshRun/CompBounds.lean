import Verif.MeshRun.PositivityWit

/-!
# C139: the electron fraction keeps the bounds it starts with

Every statement about an upper or a lower bound is a statement about the sign of an affine combination `p y + r`, whose conserved counterpart is the
*excess* `p c.ye + r c.density`.  The flux of the excess is the solver applied to the excesses of the two face states, so that the argument of C125 applies to it.
-/
namespace Phoebus.MeshRun
open FluxCT FixFlux FluxSweep Finset Riemann Geom
variable {N : ℕ}

/-! ### Specification -/

/-- the electron fraction `c.ye / c.density` of every cell lies between `a` and `b`. -/
def Mesh.YeWithin (M : Mesh) (a b : ℝ) (U : Arr ℝ × Arr ℝ) : Prop :=
  ∀ k j i, M.Has k j i → a * U.1 k j i ≤ U.2 k j i ∧ U.2 k j i ≤ b * U.1 k j i

/-- what is left of a stage hypothesis when nothing is asked of the composition: see `StageOkGen`. -/
def Mesh.DensityPos (M : Mesh) (U : Arr ℝ × Arr ℝ) : Prop := ∀ k j i, M.Has k j i → 0 < U.1 k j i

/-! ### One face -/

/-- excess of a pair. -/
def excess (p r : ℝ) (U : Arr ℝ × Arr ℝ) (k j i : ℤ) : ℝ := p * U.2 k j i + r * U.1 k j i

/-- the solvers are linear in the states and fluxes of the two sides. -/
theorem combine_affine (s : Setup N) (gdet gammadet : ℝ) (sl sr : ℝ × ℝ) (p r Fl Fr Ul Ur Fl' Fr' Ul' Ur' : ℝ) :
    combine s gdet gammadet sl sr (p * Fl + r * Fl') (p * Fr + r * Fr') (p * Ul + r * Ul') (p * Ur + r * Ur') =
      p * combine s gdet gammadet sl sr Fl Fr Ul Ur + r * combine s gdet gammadet sl sr Fl' Fr' Ul' Ur' := by
  unfold combine
  cases s.solver
  · simp only [Riemann.llf]; ring
  · simp only [Riemann.hll]; ring

/-- bounds on the flux of the excess through a face. -/
theorem excess_face (M : Mesh) (s : Setup N) (hsm : 0 ≤ s.small) (st : StageData N) (eps : ℝ) (hu : Background st eps) (U : Arr ℝ × Arr ℝ) (d : Fin 3)
    (p r : ℝ) (k j i : ℤ) :
    let f : Pos := ![i, j, k]
    let c := faceSig M s st U d f
    let yl := p * below M s st U d f s.nye + r
    let yr := p * above M s st U d f s.nye + r
    let E := p * stageFlux M s st U d yeVar k j i + r * stageFlux M s st U d .rho k j i
    0 ≤ yl → 0 ≤ yr → E ≤ faceMass s st d f (below M s st U d f) * yl * c ∧ -(faceMass s st d f (above M s st U d f) * yr * c) ≤ E ∧ 0 ≤ c := by
  intro f c yl yr E hyl hyr
  obtain ⟨-, -, hc0⟩ := gen_face M s hsm st eps hu U d k j i
  obtain ⟨g1, hsp⟩ := hu.speeds
  set ql := below M s st U d f with hql
  set qr := above M s st U d f with hqr
  set G := st.G d f with hG
  set L := st.L d f with hL
  set g := st.gammadet d f with hg
  set D := fun q => (fluxU s.valencia G L 0 (st.prim q)).rho with hD
  set w := fun q => G.alpha * fVtil G L (st.prim q) d with hw
  have ha : 0 < G.alpha := hu.lapse d f
  have bl := speeds_bracket eps hu.epsr.1 hu.epsr.2 G (hu.valid d f) (hu.pos d f) ha L (hu.gam d f) (hu.floor d f) (hu.sie d f) (g1 d f ql) (st.prim ql) d
  have br := speeds_bracket eps hu.epsr.1 hu.epsr.2 G (hu.valid d f) (hu.pos d f) ha L (hu.gam d f) (hu.floor d f) (hu.sie d f) (g1 d f qr) (st.prim qr) d
  have hc : c = solverSpeed s (st.speeds d f ql) (st.speeds d f qr) := rfl
  rw [hsp, hsp] at hc
  have hF : E = combine s (G.alpha * g) g (codeSpeeds eps G L (g1 d f ql) (st.prim ql) d)
      (codeSpeeds eps G L (g1 d f qr) (st.prim qr) d) (D ql * yl * (w ql / G.alpha)) (D qr * yr * (w qr / G.alpha)) (D ql * yl) (D qr * yr) := by
    have hw : ∀ q, w q / G.alpha = fVtil G L (st.prim q) d := fun q => by
      show G.alpha * _ / G.alpha = _
      rw [mul_div_cancel_left₀ _ ha.ne']
    have e1 : stageFlux M s st U d .rho k j i = (faceFluxes s st d f ql qr).1 := by
      unfold stageFlux; simp only [if_true]; rfl
    have e2 : stageFlux M s st U d yeVar k j i = (faceFluxes s st d f ql qr).2 := by
      unfold stageFlux
      have h1 : (yeVar = Var.rho) = False := by simp [yeVar]
      simp only [h1, if_false, if_true]; rfl
    show p * _ + r * _ = _
    rw [e1, e2]
    unfold faceFluxes
    simp only [hsp, (hu.det d f).2]
    rw [← combine_affine]
    congr 1
    · simp only [hw, fluxF, fluxU, hD, yl]; ring
    · simp only [hw, fluxF, fluxU, hD, yr]; ring
    · simp only [fluxU, hD, yl]; ring
    · simp only [fluxU, hD, yr]; ring
  have hmass : ∀ q, 0 ≤ D q := fun q => mass_nonneg _ _ _ _ _ (hu.floor d f).le
  have hm : ∀ q y, 0 ≤ y → 0 ≤ g * (D q * y) := fun q y hy => mul_nonneg (hu.det d f).1.le (mul_nonneg (hmass q) hy)
  have fb := face_bounds s hsm g G.alpha (hu.det d f).1.le ha (codeSpeeds eps G L (g1 d f ql) (st.prim ql) d)
    (codeSpeeds eps G L (g1 d f qr) (st.prim qr) d) (D ql * yl) (D qr * yr) (w ql) (w qr) (mul_nonneg (hmass ql) hyl) (mul_nonneg (hmass qr) hyr)
    bl.1 bl.2 br.1 br.2
  have sb := solverSpeed_bounds s (codeSpeeds eps G L (g1 d f ql) (st.prim ql) d) (codeSpeeds eps G L (g1 d f qr) (st.prim qr) d)
  simp only at fb
  rw [← hF, ← hc] at fb
  rw [← hc] at sb
  obtain ⟨f1, f2, f3, f4⟩ := fb
  obtain ⟨s1, s2, s3, s4⟩ := sb
  have e1 : w ql ≤ c := bl.2.trans s1
  have e2 : -w qr ≤ c := by have := br.1; linarith
  have el : faceMass s st d f ql * yl * c = g * (D ql * yl) * c := by show g * D ql * yl * c = _; ring
  have er : faceMass s st d f qr * yr * c = g * (D qr * yr) * c := by show g * D qr * yr * c = _; ring
  rw [el, er]
  exact ⟨f1.trans (mul_le_mul_of_nonneg_left (by linarith) (hm ql yl hyl)),
    le_trans (neg_le_neg (mul_le_mul_of_nonneg_left (by linarith) (hm qr yr hyr))) f2, hc0⟩

/-! ### One cell -/

/-- the constant and the linear reconstruction commute with affine maps, and keep the sign of a non-negative affine combination; the edge values are at most
twice the cell value. -/
theorem kernel_affine (ew em : ℝ) (rt : Method) (hrt : rt = .constant ∨ rt = .linear) (q : ℤ → ℝ) (p r : ℝ) (hq : ∀ m, 0 ≤ p * q m + r) :
    (0 ≤ p * (kernel ew em rt q).1 + r ∧ p * (kernel ew em rt q).1 + r ≤ 2 * (p * q 0 + r)) ∧
    (0 ≤ p * (kernel ew em rt q).2 + r ∧ p * (kernel ew em rt q).2 + r ≤ 2 * (p * q 0 + r)) := by
  have hk := kernel_le_two ew em rt hrt (fun m => p * q m + r) hq
  have he : kernel ew em rt (fun m => p * q m + r) = (p * (kernel ew em rt q).1 + r, p * (kernel ew em rt q).2 + r) := by
    rcases hrt with rfl | rfl
    · rfl
    · simp only [kernel]; exact Recon.plm_affine_equivariant p r _ _ _
  rw [he] at hk
  refine ⟨⟨?_, hk.1⟩, ?_, hk.2⟩
  · rcases hrt with rfl | rfl
    · exact hq 0
    · have := (Recon.plm_no_overshoot (p * q (-1) + r) (p * q 0 + r) (p * q 1 + r)).1.1
      rw [Recon.plm_affine_equivariant p r] at this
      exact (le_min (hq _) (hq _)).trans this
  · rcases hrt with rfl | rfl
    · exact hq 0
    · have := (Recon.plm_no_overshoot (p * q (-1) + r) (p * q 0 + r) (p * q 1 + r)).2.1.1
      rw [Recon.plm_affine_equivariant p r] at this
      exact (le_min (hq _) (hq _)).trans this

/-- the recovered electron fraction of every cell makes the affine combination non-negative, and does not overestimate the excess. -/
def Recovered (M : Mesh) (s : Setup N) (p r : ℝ) (U : Arr ℝ × Arr ℝ) : Prop :=
  ∀ k j i, M.Has k j i → 0 ≤ p * recoverYe s.small (U.2 k j i) (U.1 k j i) + r ∧
    U.1 k j i * (p * recoverYe s.small (U.2 k j i) (U.1 k j i) + r) ≤ excess p r U k j i

theorem wrap_self (M : Mesh) {k j i : ℤ} (h : M.Has k j i) : M.wrap ![i, j, k] = ![i, j, k] := by
  obtain ⟨a, b, c⟩ := h
  funext e
  fin_cases e <;> simp [Mesh.wrap] <;> apply Int.emod_eq_of_lt <;> omega

/-- **C139 (one cell)**: the rate of change of the excess is at least minus `4 θ` times the excess times the CFL sum. -/
theorem excess_rate (M : Mesh) (own : ℤ → ℤ → ℤ → IBlk) (hM : M.Tiled own) (hper : ∀ d, M.per d = true) (dx : Fin 3 → ℝ) (hdx : ∀ d, 0 < dx d) (s : Setup N)
    (hsm : 0 ≤ s.small) (hrt : s.rt = .constant ∨ s.rt = .linear) (st : StageData N) (eps : ℝ) (hu : Background st eps) (U : Arr ℝ × Arr ℝ) (θ : ℝ)
    (hθ : MassRatio M s st U θ) (h0 : 0 ≤ θ) (p r : ℝ) (hrec : Recovered M s p r U) (k j i : ℤ) (h : M.Has k j i) :
    -(4 * θ * excess p r U k j i * cflRate M dx s st U k j i) ≤
      p * M.rate own dx (stageFlux M s st U) yeVar k j i + r * M.rate own dx (stageFlux M s st U) .rho k j i := by
  obtain ⟨hU0, hr⟩ := hθ k j i h
  obtain ⟨hy0, hyU⟩ := hrec k j i h
  set Y := p * recoverYe s.small (U.2 k j i) (U.1 k j i) + r with hY
  have hE : 0 ≤ excess p r U k j i := (mul_nonneg hU0 hy0).trans hyU
  have hall : ∀ c, 0 ≤ p * prims M s st U s.nye c + r := by
    intro c
    unfold prims
    rw [if_pos rfl]
    exact (hrec _ _ _ (wrap_has M hM.pos c)).1
  have hself : p * prims M s st U s.nye ![i, j, k] + r = Y := by
    unfold prims
    rw [if_pos rfl, wrap_self M h]
    rfl
  have hbelow : ∀ d f, 0 ≤ p * below M s st U d f s.nye + r ∧
      p * below M s st U d f s.nye + r ≤ 2 * (p * prims M s st U s.nye (fun e => f e - unit d e) + r) := by
    intro d f
    obtain ⟨a, -⟩ := kernel_affine s.ew s.em s.rt hrt (fun m => prims M s st U s.nye fun e => f e + (m - 1) * unit d e) p r fun m => hall _
    have e : (fun e => f e + ((0:ℤ) - 1) * unit d e) = fun e => f e - unit d e := by funext e; ring
    rw [e] at a
    exact a
  have habove : ∀ d f, 0 ≤ p * above M s st U d f s.nye + r ∧
      p * above M s st U d f s.nye + r ≤ 2 * (p * prims M s st U s.nye f + r) := by
    intro d f
    obtain ⟨-, a⟩ := kernel_affine s.ew s.em s.rt hrt (fun m => prims M s st U s.nye fun e => f e + m * unit d e) p r fun m => hall _
    have e : (fun e => f e + (0:ℤ) * unit d e) = f := by funext e; ring
    rw [e] at a
    exact a
  have untouched : ∀ (F : Flux ℝ), fixFluxes (M.cfg (own k j i)) (own k j i).blk F = F := by
    intro F
    have hu : ∀ d o, (M.cfg (own k j i)).user d o = false := by intro d o; simp [Mesh.cfg, hper d]
    simp [fixFluxes, fixFace, hu]
  set E : Fin 3 → ℤ → ℤ → ℤ → ℝ := fun d k j i => p * stageFlux M s st U d yeVar k j i + r * stageFlux M s st U d .rho k j i with hEdef
  have dir : ∀ d : Fin 3, d.val < M.ndim →
      E d (upFace d k j i).1 (upFace d k j i).2.1 (upFace d k j i).2.2 - E d k j i ≤
        4 * θ * excess p r U k j i * max (faceSig M s st U d ![i, j, k]) (faceSig M s st U d fun e => (![i, j, k] : Pos) e + unit d e) := by
    intro d hd
    obtain ⟨-, l2, l3⟩ := excess_face M s hsm st eps hu U d p r k j i (hbelow _ _).1 (habove _ _).1
    obtain ⟨u1, -, u3⟩ := excess_face M s hsm st eps hu U d p r (upFace d k j i).1 (upFace d k j i).2.1 (upFace d k j i).2.2 (hbelow _ _).1 (habove _ _).1
    rw [upPos] at u1 u3
    obtain ⟨r1, r2⟩ := hr d hd
    have ha := habove d ![i, j, k]
    rw [hself] at ha
    have hb := hbelow d fun e => (![i, j, k] : Pos) e + unit d e
    have e0 : (fun e => (![i, j, k] : Pos) e + unit d e - unit d e) = ![i, j, k] := by funext e; ring
    rw [e0, hself] at hb
    set c1 := faceSig M s st U d ![i, j, k]
    set c2 := faceSig M s st U d fun e => (![i, j, k] : Pos) e + unit d e
    have hθU : 0 ≤ θ * U.1 k j i := mul_nonneg h0 hU0
    have bound : ∀ m y c, 0 ≤ y → y ≤ 2 * Y → m ≤ θ * U.1 k j i → 0 ≤ c → m * y * c ≤ 2 * θ * excess p r U k j i * c := by
      intro m y c y0 y1 hm hc
      refine mul_le_mul_of_nonneg_right ?_ hc
      calc m * y ≤ θ * U.1 k j i * y := mul_le_mul_of_nonneg_right hm y0
        _ ≤ θ * U.1 k j i * (2 * Y) := mul_le_mul_of_nonneg_left y1 hθU
        _ = 2 * θ * (U.1 k j i * Y) := by ring
        _ ≤ _ := mul_le_mul_of_nonneg_left hyU (by positivity)
    have b1 := bound _ _ c1 ha.1 ha.2 r1 l3
    have b2 := bound _ _ c2 hb.1 hb.2 r2 u3
    have hg : 0 ≤ 2 * θ * excess p r U k j i := by positivity
    have m1 := mul_le_mul_of_nonneg_left (le_max_left c1 c2) hg
    have m2 := mul_le_mul_of_nonneg_left (le_max_right c1 c2) hg
    simp only [hEdef]
    linarith
  unfold Mesh.rate fluxDiv cflRate Timestep.dirs
  rw [sum_filter, Fin.sum_univ_three]
  simp only [untouched]
  have part : ∀ d : Fin 3,
      (mask M.ndim (fun d _ => E d) d .rho (upFace d k j i).1 (upFace d k j i).2.1 (upFace d k j i).2.2 - mask M.ndim (fun d _ => E d) d .rho k j i) / dx d ≤
        4 * θ * excess p r U k j i * (if (d : ℕ) < M.ndim then
          max (faceSig M s st U d ![i, j, k]) (faceSig M s st U d fun e => (![i, j, k] : Pos) e + unit d e) / dx d else 0) := by
    intro d
    unfold mask
    split_ifs with hd
    · rw [mul_div_assoc', div_le_div_iff_of_pos_right (hdx d)]
      exact dir d hd
    · simp
  have lin : ∀ d k j i, mask M.ndim (fun d _ => E d) d .rho k j i =
      p * mask M.ndim (stageFlux M s st U) d yeVar k j i + r * mask M.ndim (stageFlux M s st U) d .rho k j i := by
    intro d k j i; unfold mask; split_ifs <;> simp [hEdef]
  have p0 := part 0; have p1 := part 1; have p2 := part 2
  simp only [upFace, lin] at p0 p1 p2
  have := add_le_add (add_le_add p0 p1) p2
  rw [← mul_add, ← mul_add] at this
  refine le_trans (neg_le_neg this) (le_of_eq ?_)
  ring

/-! ### Stages, steps and runs -/

/-- **C139 (one stage)**: the excess after a stage. -/
theorem excess_stage (M : Mesh) (own : ℤ → ℤ → ℤ → IBlk) (hM : M.Tiled own) (hper : ∀ d, M.per d = true) (dx : Fin 3 → ℝ) (hdx : ∀ d, 0 < dx d) (s : Setup N)
    (hsm : 0 ≤ s.small) (hrt : s.rt = .constant ∨ s.rt = .linear) (st : StageData N) (eps θ dt cfl : ℝ) (h0 : 0 ≤ θ) (hdt : 0 ≤ dt) (h1 : 4 * θ * cfl ≤ 1)
    (base U : Arr ℝ × Arr ℝ) (hok : StageOkGen M dx s eps θ dt cfl st U) (p r : ℝ) (hrec : Recovered M s p r U) (k j i : ℤ) (h : M.Has k j i)
    (hb : 0 ≤ excess p r base k j i) : 0 ≤ excess p r (pairStage M own dx s dt base U st) k j i := by
  have hr := excess_rate M own hM hper dx hdx s hsm hrt st eps hok.bg U θ hok.ratio h0 p r hrec k j i h
  obtain ⟨hy0, hyU⟩ := hrec k j i h
  have hE : 0 ≤ excess p r U k j i := (mul_nonneg (hok.ratio k j i h).1 hy0).trans hyU
  have a1 := mul_le_mul_of_nonneg_left hr (mul_nonneg hok.beta.1 hdt)
  have a2 := mul_le_mul_of_nonneg_left (hok.cfl k j i h) (mul_nonneg (mul_nonneg hok.beta.1 hE) (mul_nonneg (by norm_num : (0:ℝ) ≤ 4) h0))
  have a3 := mul_nonneg (by linarith [hok.beta.2] : 0 ≤ 1 - st.beta) hb
  have a4 := mul_le_mul_of_nonneg_left h1 (mul_nonneg hok.beta.1 hE)
  set R1 := M.rate own dx (stageFlux M s st U) yeVar k j i with hR1
  set R2 := M.rate own dx (stageFlux M s st U) .rho k j i with hR2
  have e : excess p r (pairStage M own dx s dt base U st) k j i =
      st.beta * excess p r U k j i + (1 - st.beta) * excess p r base k j i + st.beta * dt * (p * R1 + r * R2) := by
    simp only [excess, pairStage, stage, ← hR1, ← hR2]; ring
  rw [e]
  nlinarith

/-- a run keeps a property of the excess that holds at the start of each step and makes the recovery exact enough. -/
theorem excess_run (M : Mesh) (own : ℤ → ℤ → ℤ → IBlk) (hM : M.Tiled own) (hper : ∀ d, M.per d = true) (dx : Fin 3 → ℝ) (hdx : ∀ d, 0 < dx d) (s : Setup N)
    (hsm : 0 ≤ s.small) (hrt : s.rt = .constant ∨ s.rt = .linear) (eps θ cfl : ℝ) (h0 : 0 ≤ θ) (hc0 : 0 ≤ cfl) (h1 : 4 * θ * cfl ≤ 1) (p r : ℝ)
    (hR : ∀ U : Arr ℝ × Arr ℝ, M.DensityPos U → (∀ k j i, M.Has k j i → 0 ≤ excess p r U k j i) → Recovered M s p r U)
    (steps : List (ℝ × List (StageData N))) (U : Arr ℝ × Arr ℝ) (hok : RunOkGen M own dx s eps θ cfl steps U) (hD : M.DensityPos U)
    (hE : ∀ k j i, M.Has k j i → 0 ≤ excess p r U k j i) :
    M.DensityPos (pairRun M own dx s steps U) ∧ ∀ k j i, M.Has k j i → 0 ≤ excess p r (pairRun M own dx s steps U) k j i := by
  have h2 : 2 * θ * cfl < 1 := by
    rcases eq_or_lt_of_le (mul_nonneg h0 hc0) with h | h <;> nlinarith
  have hstage : ∀ (dt : ℝ), 0 ≤ dt → ∀ (base : Arr ℝ × Arr ℝ), M.DensityPos base → (∀ k j i, M.Has k j i → 0 ≤ excess p r base k j i) →
      ∀ (l : List (StageData N)) (cur : Arr ℝ × Arr ℝ), M.DensityPos cur → (∀ k j i, M.Has k j i → 0 ≤ excess p r cur k j i) →
      StepOkGen M own dx s eps θ cfl dt base l cur →
      M.DensityPos (l.foldl (pairStage M own dx s dt base) cur) ∧
        ∀ k j i, M.Has k j i → 0 ≤ excess p r (l.foldl (pairStage M own dx s dt base) cur) k j i := by
    intro dt hdt base hb hbE l
    induction l with
    | nil => intro cur hc hcE _; exact ⟨hc, hcE⟩
    | cons st l ih =>
      intro cur hc hcE hok
      rw [List.foldl_cons]
      refine ih _ ?_ ?_ hok.2
      · intro k j i h
        have hs := stage_positive_gen M own hM dx hdx s hsm st eps θ dt cfl h0 hdt base cur hok.1 k j i h
        refine lt_of_lt_of_le ?_ hs
        have b0 := hok.1.beta.1
        have b1 := hok.1.beta.2
        have x1 := mul_pos (by linarith : 0 < 1 - 2 * θ * cfl) (hc k j i h)
        have x2 := hb k j i h
        rcases eq_or_lt_of_le b0 with h' | h'
        · rw [← h']; linarith
        · have := mul_pos h' x1
          have := mul_nonneg (by linarith : 0 ≤ 1 - st.beta) x2.le
          nlinarith
      · intro k j i h
        exact excess_stage M own hM hper dx hdx s hsm hrt st eps θ dt cfl h0 hdt h1 base cur hok.1 p r (hR cur hc hcE) k j i h (hbE k j i h)
  unfold pairRun
  induction steps generalizing U with
  | nil => exact ⟨hD, hE⟩
  | cons t l ih =>
    rw [List.foldl_cons]
    obtain ⟨hdt, hs, hl⟩ := hok
    obtain ⟨a, b⟩ := hstage t.1 hdt U hD hE t.2 U hD hE hs
    exact ih _ hl a b

/-- **C139 (bounds)**: on a periodic domain, with the constant or the linear reconstruction and either Riemann solver, on any background and any
decomposition: if the electron fractions of all cells lie between `a` and `b` they do so after any number of steps, provided that the density is positive,
that the face states carry at most `θ` times the mass of their cell, and that the time steps obey the CFL condition with `4 θ cfl ≤ 1`.

Partial form of C139. Full property: the electron fraction of every cell stays between the smallest and the largest electron fraction of the initial data.
Missing: the fifth order reconstructions; time steps up to the default CFL number (there it is false for the linear reconstruction: `ye_negative`); non-periodic sides;
the guard constant of `robust::ratio` is zero here (`electrons_nonneg_partial` covers the lower bound zero with the guard). -/
theorem composition_bounds_partial (M : Mesh) (own : ℤ → ℤ → ℤ → IBlk) (hM : M.Tiled own) (hper : ∀ d, M.per d = true) (dx : Fin 3 → ℝ)
    (hdx : ∀ d, 0 < dx d) (s : Setup N) (hsm : s.small = 0) (hrt : s.rt = .constant ∨ s.rt = .linear) (eps θ cfl : ℝ) (h0 : 0 ≤ θ) (hc0 : 0 ≤ cfl)
    (h1 : 4 * θ * cfl ≤ 1) (steps : List (ℝ × List (StageData N))) (U : Arr ℝ × Arr ℝ) (hok : RunOkGen M own dx s eps θ cfl steps U) (hD : M.DensityPos U)
    (a b : ℝ) (hY : M.YeWithin a b U) : M.DensityPos (pairRun M own dx s steps U) ∧ M.YeWithin a b (pairRun M own dx s steps U) := by
  have hR : ∀ p r : ℝ, ∀ U : Arr ℝ × Arr ℝ, M.DensityPos U → (∀ k j i, M.Has k j i → 0 ≤ excess p r U k j i) → Recovered M s p r U := by
    intro p r U hD hE k j i h
    have hd := hD k j i h
    have e : recoverYe s.small (U.2 k j i) (U.1 k j i) = U.2 k j i / U.1 k j i := by
      have := recover_exact (U.2 k j i / U.1 k j i) (U.1 k j i) hd.ne'
      rwa [div_mul_cancel₀ _ hd.ne', ← hsm] at this
    have e2 : U.1 k j i * (p * (U.2 k j i / U.1 k j i) + r) = excess p r U k j i := by
      unfold excess; field_simp
    rw [e, e2]
    refine ⟨?_, le_refl _⟩
    have := hE k j i h
    rw [← e2] at this
    exact nonneg_of_mul_nonneg_right this hd
  have lo := excess_run M own hM hper dx hdx s hsm.ge hrt eps θ cfl h0 hc0 h1 1 (-a) (hR 1 (-a)) steps U hok hD
    fun k j i h => by have := (hY k j i h).1; unfold excess; linarith
  have hi := excess_run M own hM hper dx hdx s hsm.ge hrt eps θ cfl h0 hc0 h1 (-1) b (hR (-1) b) steps U hok hD
    fun k j i h => by have := (hY k j i h).2; unfold excess; linarith
  refine ⟨lo.1, fun k j i h => ?_⟩
  have x := lo.2 k j i h
  have y := hi.2 k j i h
  unfold excess at x y
  constructor <;> linarith

/-- **C139 (electron number)**: with any non-negative guard constant the electron number of every cell stays non-negative.

Partial form of C139, see `composition_bounds_partial`: this is its lower bound `a = 0`, with the guard of `robust::ratio` included. -/
theorem electrons_nonneg_partial (M : Mesh) (own : ℤ → ℤ → ℤ → IBlk) (hM : M.Tiled own) (hper : ∀ d, M.per d = true) (dx : Fin 3 → ℝ)
    (hdx : ∀ d, 0 < dx d) (s : Setup N) (hsm : 0 ≤ s.small) (hrt : s.rt = .constant ∨ s.rt = .linear) (eps θ cfl : ℝ) (h0 : 0 ≤ θ) (hc0 : 0 ≤ cfl)
    (h1 : 4 * θ * cfl ≤ 1) (steps : List (ℝ × List (StageData N))) (U : Arr ℝ × Arr ℝ) (hok : RunOkGen M own dx s eps θ cfl steps U) (hD : M.DensityPos U)
    (hY : ∀ k j i, M.Has k j i → 0 ≤ U.2 k j i) : ∀ k j i, M.Has k j i → 0 ≤ (pairRun M own dx s steps U).2 k j i := by
  have := excess_run M own hM hper dx hdx s hsm hrt eps θ cfl h0 hc0 h1 1 0 ?_ steps U hok hD fun k j i h => by
    have := hY k j i h; unfold excess; linarith
  · intro k j i h
    have := this.2 k j i h
    unfold excess at this; linarith
  · intro U hD hE k j i h
    have hd := hD k j i h
    have hy : 0 ≤ U.2 k j i := by have := hE k j i h; unfold excess at this; linarith
    have e : recoverYe s.small (U.2 k j i) (U.1 k j i) = U.2 k j i / (U.1 k j i + s.small) := by
      unfold recoverYe Robust.ratio
      simp only [if_pos hd.le, one_mul]
    rw [e]
    unfold excess
    refine ⟨by positivity, ?_⟩
    rw [one_mul, one_mul, add_zero, zero_mul, add_zero, mul_div_assoc', div_le_iff₀ (by linarith)]
    nlinarith

end Phoebus.MeshRun
