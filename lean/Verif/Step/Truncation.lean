import Verif.Step.Solution

/-!
# The error of a whole time step (C151)

A smooth solution of the GRMHD equations in a stationary spacetime is advanced by one step of the program: all stages of the Runge-Kutta scheme, with the reconstruction, Riemann
solver, constrained transport, geometric sources and inversion, on a mesh of blocks.  As cells and time step shrink together, the change of every stored variable divided by the
time step tends to its true time derivative times the sum of the weights of the scheme: one for `rk1`, `rk2` and `rk3`, three halves for `vl2`.
-/
namespace Phoebus.Step
open FluxSweep Geom Riemann Rel Sources Filter Topology Set

/-! ### Specification -/

/-- coordinates of an event. -/
def place (Y : Event) : Coord := Fin.tail Y

/-- by how many time steps a scheme with these weights advances a constant rate of change. -/
def advance (l : List ℝ) : ℝ := l.foldl (fun a β => β * (a + 1)) 0

/-- the inversion recovers the flow from its stored variables, at all events near `X`, and is differentiable. -/
structure Inverts (val : Bool) (G : Coord → ADM ℝ) (q : Flow) (X : Event) (I : Coord × (Fin 9 → ℝ) → Fin 11 → ℝ) : Prop where
  diff : DifferentiableAt ℝ I (place X, fun k => stored val (G (place X)) (q X) k)
  recovers : ∀ᶠ Y in 𝓝 X, I (place Y, fun k => stored val (G (place Y)) (q Y) k) = q Y

/-- a stage of the program on cells of widths `h·w`: fluxes and sources of the code, inversion `I` at the cell centres. -/
noncomputable def flowStage (sol : MeshRun.Solver) (small eps : ℝ) (val : Bool) (G : Coord → ADM ℝ) (L : Coord → Limits) (x0 w : Coord) (p0 : Pos)
    (I : Coord × (Fin 9 → ℝ) → Fin 11 → ℝ) (C : ℝ → CellGeom) (h : ℝ) (P : Phys ℝ 11) : Phys ℝ 11 :=
  { refined sol small eps val G L (fun y => rootDet (G y)) (fun y => √(Matrix.of (G y).gam).det) x0 w p0 P h with
    src := fluidSrc val 0 (C h)
    inv := fun p u => (u, I (centre x0 w p0 h p, fun k => u k))
    mid := fun _ x => x }

/-- cells up to `r` cells away from `p0`. -/
def Within (p0 : Pos) (r : ℤ) (p : Pos) : Prop := ∀ e, |p e - p0 e| ≤ r

/-- at the cells up to `r` cells away the geometry of the cells is exact, and the metric derivatives tend to the true ones. -/
structure ExactCells (G : Coord → ADM ℝ) (X : Event) (w : Coord) (p0 : Pos) (r : ℤ) (C : ℝ → CellGeom) : Prop where
  geo : ∀ h p, 0 < h → Within p0 r p → (C h).G p = G (centre (place X) w p0 h p)
  det : ∀ h p, 0 < h → Within p0 r p → (C h).gdet p = rootDet (G (centre (place X) w p0 h p))
  dg : ∀ p, Within p0 r p → ∀ a b s, Tendsto (fun h => (C h).dg p a b s) (𝓝[>] 0) (𝓝 (metricDeriv (fun Y => G (place Y)) X a b s))
  da : ∀ p, Within p0 r p → ∀ m, Tendsto (fun h => (C h).da p m) (𝓝[>] 0) (𝓝 (pd m (fun Y => Real.log (G (place Y)).alpha) X))

/-! ### Sources -/

section
variable {eps : ℝ} {G : Coord → ADM ℝ} {L : Coord → Limits} {q : Flow} {t : ℝ} {x0 : Coord}

theorem tmunu_cont {Z : Type} [NormedAddCommGroup Z] [NormedSpace ℝ Z] {z : Z} {G : Z → ADM ℝ} (hG : SmoothGeom G z) (ha : ∀ Y, 0 < (G Y).alpha) (hp : ∀ Y, PosDef (G Y))
    {s : Z → Prim} (hq : SmoothPrim s z) (μ ν : Fin 4) : ContinuousAt (fun Y => tmunu 0 (G Y) (s Y) μ ν) z := by
  have hU := tU_diff hG hq ha (hp z)
  have hB := tB_diff hG hq ha (hp z)
  have hbsq := tbsq_diff hG hq (hp z)
  unfold tmunu
  exact ((((((hq.rho.add hq.u).add hq.P).add hbsq).mul (hU μ)).mul (hU ν)).add ((hq.P.add (hbsq.const_mul _)).mul (g4Inv_diff hG (ha z) μ ν)) |>.sub ((hB μ).mul (hB ν))).continuousAt

theorem place_at (t : ℝ) (y : Coord) : place (at_ t y) = y := rfl

/-- the setting of C147 at a moment of time. -/
theorem static_smooth (hF : SmoothFlow eps (fun Y => G (place Y)) (fun Y => L (place Y)) q (at_ t x0)) :
    SmoothAt eps G L (fun y => rootDet (G y)) (fun y => √(Matrix.of (G y).gam).det) (fun y => q (at_ t y)) x0 := by
  have := slice_smooth hF
  simp only [place_at] at this
  exact this

/-- the sources depend continuously on everything they are computed from. -/
theorem src_tendsto (val : Bool) {l : Filter ℝ} (C : ℝ → CellGeom) (p : Pos) (v : ℝ → Fin 11 → ℝ) (C0 : CellGeom) (p0 : Pos) (v0 : Fin 11 → ℝ)
    (hT : ∀ m n, Tendsto (fun h => tmunu 0 ((C h).G p) (faceState (v h)).q m n) l (𝓝 (tmunu 0 (C0.G p0) (faceState v0).q m n)))
    (hg : Tendsto (fun h => (C h).gdet p) l (𝓝 (C0.gdet p0))) (hal : Tendsto (fun h => ((C h).G p).alpha) l (𝓝 (C0.G p0).alpha))
    (hI : ∀ m, Tendsto (fun h => ((C h).G p).g4Inv 0 m) l (𝓝 ((C0.G p0).g4Inv 0 m))) (hdg : ∀ a b s, Tendsto (fun h => (C h).dg p a b s) l (𝓝 (C0.dg p0 a b s)))
    (hda : ∀ m, Tendsto (fun h => (C h).da p m) l (𝓝 (C0.da p0 m))) (k : ℕ) :
    Tendsto (fun h => fluidSrc val 0 (C h) p (v h) k) l (𝓝 (fluidSrc val 0 C0 p0 v0 k)) := by
  have hc : ∀ a b c, Tendsto (fun h => GeomUtils.connection ((C h).dg p) a b c) l (𝓝 (GeomUtils.connection (C0.dg p0) a b c)) := fun a b c =>
    (((hdg b a c).add (hdg c a b)).sub (hdg b c a)).const_mul _
  have hm : ∀ i, Tendsto (fun h => momentumSource ((C h).gdet p) ((C h).dg p) (tmunu 0 ((C h).G p) (faceState (v h)).q) i) l
      (𝓝 (momentumSource (C0.gdet p0) (C0.dg p0) (tmunu 0 (C0.G p0) (faceState v0).q) i)) := fun i =>
    hg.mul (tendsto_finset_sum _ fun m _ => tendsto_finset_sum _ fun n _ => (hT m n).mul ((hdg _ _ _).sub (hc _ _ _)))
  unfold fluidSrc
  simp only
  split_ifs
  · exact hm _
  · exact hm _
  · exact hm _
  · unfold energySourceValencia
    simp only [gcon0_eq]
    exact (hg.mul hal).mul ((tendsto_finset_sum _ fun m _ => (hT m 0).mul (hda m)).sub (tendsto_finset_sum _ fun m _ => tendsto_finset_sum _ fun n _ =>
      (hT m n).mul (tendsto_finset_sum _ fun r _ => (hI r).mul (hc _ _ _))))
  · unfold energySourceCovariant
    exact hg.mul (tendsto_finset_sum _ fun m _ => tendsto_finset_sum _ fun n _ => (hT m n).mul (hc _ _ _))
  · exact tendsto_const_nhds

/-- the sources at a cell that shrinks to the event. -/
theorem src_limit (val : Bool) (hF : SmoothFlow eps (fun Y => G (place Y)) (fun Y => L (place Y)) q (at_ t x0)) (w : Coord) (p0 : Pos) (r : ℤ) (C : ℝ → CellGeom)
    (hC : ExactCells G (at_ t x0) w p0 r C) (p : Pos) (hp : Within p0 r p) (v : ℝ → Fin 11 → ℝ) (hv : Tendsto v (𝓝[>] 0) (𝓝 (q (at_ t x0)))) (k : ℕ) :
    Tendsto (fun h => fluidSrc val 0 (C h) p (v h) k) (𝓝[>] 0) (𝓝 (fluidSrc val 0 (exactCell (fun Y => G (place Y)) (at_ t x0)) 0 (q (at_ t x0)) k)) := by
  have hS := static_smooth hF
  have hy : Tendsto (fun h => centre x0 w p0 h p) (𝓝[>] 0) (𝓝 x0) := by
    have h1 : Tendsto (fun h => centre x0 w p0 h p) (𝓝[>] 0) (𝓝 (centre x0 w p0 0 p)) := (centre_deriv x0 w p0 p).continuousWithinAt
    rwa [show centre x0 w p0 0 p = x0 by simp [centre]] at h1
  have hpath : Tendsto (fun h => (centre x0 w p0 h p, v h)) (𝓝[>] 0) (𝓝 (x0, q (at_ t x0))) := hy.prodMk_nhds hv
  have eG : ∀ h ∈ Ioi (0:ℝ), (C h).G p = G (centre x0 w p0 h p) := fun h hh => hC.geo h p hh hp
  refine src_tendsto val C p v (exactCell (fun Y => G (place Y)) (at_ t x0)) 0 (q (at_ t x0)) (fun m n => ?_) ?_ ?_ (fun m => ?_) (fun a b s => hC.dg p hp a b s) (fun m => hC.da p hp m) k
  · have c : ContinuousAt (fun z : Coord × (Fin 11 → ℝ) => tmunu 0 (G z.1) (faceState z.2).q m n) (x0, q (at_ t x0)) :=
      tmunu_cont (geom_smooth hS (q (at_ t x0))) (fun z => hS.lapse z.1) (fun z => hS.pos z.1) (state_smooth (x0, q (at_ t x0))) m n
    have h1 := Tendsto.comp c.tendsto hpath
    simp only [exactCell, place_at]
    refine Tendsto.congr' ?_ h1
    filter_upwards [self_mem_nhdsWithin] with h hh
    rw [eG h hh]; rfl
  · have h1 : Tendsto (fun h => rootDet (G (centre x0 w p0 h p))) (𝓝[>] 0) (𝓝 (rootDet (G x0))) := hS.gdet.continuousAt.tendsto.comp hy
    simp only [exactCell, place_at]
    exact h1.congr' (by filter_upwards [self_mem_nhdsWithin] with h hh; exact (hC.det h p hh hp).symm)
  · have h1 : Tendsto (fun h => (G (centre x0 w p0 h p)).alpha) (𝓝[>] 0) (𝓝 (G x0).alpha) := hS.geom.alpha.continuousAt.tendsto.comp hy
    simp only [exactCell, place_at]
    exact h1.congr' (by filter_upwards [self_mem_nhdsWithin] with h hh; rw [eG h hh])
  · have h1 : Tendsto (fun h => (G (centre x0 w p0 h p)).g4Inv 0 m) (𝓝[>] 0) (𝓝 ((G x0).g4Inv 0 m)) := (g4Inv_diff hS.geom (hS.lapse x0) 0 m).continuousAt.tendsto.comp hy
    simp only [exactCell, place_at]
    exact h1.congr' (by filter_upwards [self_mem_nhdsWithin] with h hh; rw [eG h hh])

/-! ### Stored variables -/

theorem stored_diff (val : Bool) {G : Event → ADM ℝ} {L : Event → Limits} {X : Event} (hF : SmoothFlow eps G L q X) (k : ℕ) : DifferentiableAt ℝ (fun Y => stored val (G Y) (q Y) k) X := by
  have hf := flow_prim hF.state
  have hT := tmunu_diff hF.geom hF.lapse hF.pos hf
  have hU := tU_diff hF.geom hf hF.lapse (hF.pos X)
  have hγ := gamma_diff hF
  have hmix : ∀ μ ν, DifferentiableAt ℝ (fun Y => mixed (G Y).g4 (tmunu 0 (G Y) (q.fluid Y)) μ ν) X := fun μ ν =>
    DifferentiableAt.fun_sum fun l _ => (hT μ l).mul (g4_diff hF.geom l ν)
  have proj := fun Y => p2c_projections val (G Y) (√(Matrix.of (G Y).gam).det) (q Y 8) (q.fluid Y) (hF.valid Y) (hF.lapse Y) (hF.pos Y)
  have hD : DifferentiableAt ℝ (fun Y => (p2c val (G Y) (√(Matrix.of (G Y).gam).det) (q Y 8) (q.fluid Y)).D) X := by
    simp only [fun Y => (proj Y).1]
    exact hγ.mul (hF.geom.alpha.mul (hf.rho.mul (hU 0)))
  unfold stored
  refine slot_diff _ hD (fun m => ?_) ?_ (fun m => ?_) ?_ k
  · show DifferentiableAt ℝ (fun Y => (p2c val (G Y) (√(Matrix.of (G Y).gam).det) (q Y 8) (q.fluid Y)).S m) X
    simp only [fun Y => (proj Y).2.1 m]
    exact hγ.mul (hF.geom.alpha.mul (hmix _ _))
  · show DifferentiableAt ℝ (fun Y => (p2c val (G Y) (√(Matrix.of (G Y).gam).det) (q Y 8) (q.fluid Y)).tau) X
    cases val
    · simp only [fun Y => (proj Y).2.2.2.2]
      exact (hγ.mul (hF.geom.alpha.mul (hmix _ _))).add hD
    · simp only [fun Y => p2c_valencia_energy (G Y) (√(Matrix.of (G Y).gam).det) (q Y 8) (q.fluid Y) (hF.lapse Y) (hF.pos Y)]
      exact (hγ.mul ((hF.geom.alpha.pow 2).mul (hT 0 0))).sub hD
  · show DifferentiableAt ℝ (fun Y => (p2c val (G Y) (√(Matrix.of (G Y).gam).det) (q Y 8) (q.fluid Y)).B m) X
    simp only [fun Y => (proj Y).2.2.1 m]
    exact hγ.mul (hf.B m)
  · show DifferentiableAt ℝ (fun Y => (p2c val (G Y) (√(Matrix.of (G Y).gam).det) (q Y 8) (q.fluid Y)).ye) X
    simp only [fun Y => (proj Y).2.2.2.1]
    exact hD.mul (differentiableAt_pi.1 hF.state 8)

/-! ### One stage -/

/-- unit displacement in time. -/
noncomputable def tick : Event := Pi.single 0 1

theorem place_along (y : Coord) : place (along y) = y := by
  funext i
  simp [place, along, Fin.tail]

theorem place_deriv (X : Event) : HasFDerivAt place (ContinuousLinearMap.pi fun i : Fin 3 => ContinuousLinearMap.proj (R := ℝ) (φ := fun _ : Fin 4 => ℝ) i.succ) X := by
  rw [hasFDerivAt_pi']
  intro i
  exact ((ContinuousLinearMap.proj (R := ℝ) (φ := fun _ : Fin 4 => ℝ) i.succ).hasFDerivAt).congr_fderiv (by ext; simp)

theorem place_tick : place tick = 0 := by
  funext i
  simp [place, tick, Fin.tail]

/-- to first order in the cell width, the cells up to `r` cells away hold the flow at their centres, `a` time steps of size `lam·h` later. -/
structure Track (val : Bool) (G : Coord → ADM ℝ) (q : Flow) (t : ℝ) (x0 w : Coord) (p0 : Pos) (lam : ℝ) (r : ℤ) (a : ℝ) (Y : ℝ → Fields ℝ 11) : Prop where
  start : ∀ p, Within p0 r p → ∀ k, (Y 0 p).1 k = stored val (G x0) (q (at_ t x0)) k
  cons : ∀ p, Within p0 r p → ∀ k, HasDerivWithinAt (fun h => (Y h p).1 k)
    (fderiv ℝ (fun Z => stored val (G (place Z)) (q Z) k) (at_ t x0) (along (stretch w fun e => (p e : ℝ) - p0 e) + (a * lam) • tick)) (Ioi 0) 0
  prim : Samples w p0 r (q (at_ t x0)) ((a * lam) • fderiv ℝ q (at_ t x0) tick) (fderiv ℝ (fun y => q (at_ t y)) x0) Y

theorem slice_along {E : Type} [NormedAddCommGroup E] [NormedSpace ℝ E] {f : Event → E} (hf : DifferentiableAt ℝ f (at_ t x0)) (y : Coord) :
    fderiv ℝ (fun y => f (at_ t y)) x0 y = fderiv ℝ f (at_ t x0) (along y) := by
  have h : HasFDerivAt (fun y => f (at_ t y)) _ x0 := HasFDerivAt.comp (f := fun y => at_ t y) x0 hf.hasFDerivAt (slice_deriv t x0)
  rw [h.fderiv]; rfl

/-- the inversion maps changes of the stored variables along the flow to changes of the flow. -/
theorem inverts_deriv (val : Bool) (hF : SmoothFlow eps (fun Y => G (place Y)) (fun Y => L (place Y)) q (at_ t x0)) {I : Coord × (Fin 9 → ℝ) → Fin 11 → ℝ}
    (hI : Inverts val G q (at_ t x0) I) (v : Event) :
    fderiv ℝ I (x0, fun k : Fin 9 => stored val (G x0) (q (at_ t x0)) k) (place v, fun k : Fin 9 => fderiv ℝ (fun Z => stored val (G (place Z)) (q Z) k) (at_ t x0) v) =
      fderiv ℝ q (at_ t x0) v := by
  have hU : HasFDerivAt (fun Z => fun k : Fin 9 => stored val (G (place Z)) (q Z) k)
      (ContinuousLinearMap.pi fun k : Fin 9 => fderiv ℝ (fun Z => stored val (G (place Z)) (q Z) k) (at_ t x0)) (at_ t x0) :=
    hasFDerivAt_pi.2 fun k => (stored_diff val hF k).hasFDerivAt
  have h1 := (place_deriv (at_ t x0)).prodMk hU
  have h2 : HasFDerivAt (fun Z => I (place Z, fun k : Fin 9 => stored val (G (place Z)) (q Z) k)) _ (at_ t x0) :=
    HasFDerivAt.comp (f := fun Z => (place Z, fun k : Fin 9 => stored val (G (place Z)) (q Z) k)) (at_ t x0) hI.diff.hasFDerivAt h1
  have h3 := h2.congr_of_eventuallyEq (hI.recovers.mono fun _ h => h.symm)
  rw [h3.fderiv]
  rfl

variable (hF : SmoothFlow eps (fun Y => G (place Y)) (fun Y => L (place Y)) q (at_ t x0))
include hF

/-- a stage: cells that track the flow `a` steps late go over into cells that track it `β(a + 1)` steps late. -/
theorem stage_track (nd : ℕ) (sol : MeshRun.Solver) (small : ℝ) (hsol : sol = .llf ∨ small = 0) (val : Bool) (hs : Solves (fun Y => G (place Y)) q (at_ t x0)) (w : Coord)
    (hw : ∀ d, 0 < w d) (p0 : Pos) (lam : ℝ) (I : Coord × (Fin 9 → ℝ) → Fin 11 → ℝ) (hI : Inverts val G q (at_ t x0) I) (C : ℝ → CellGeom) (r : ℤ)
    (hC : ExactCells G (at_ t x0) w p0 r C)
    (hsym : ∀ d : Fin 3, nd ≤ d.val → ∀ k, pd d.succ (fun Y => rootDet (G (place Y)) * physFlux val (G (place Y)) (q Y) d k) (at_ t x0) = 0)
    (P : Phys ℝ 11) (hew : 0 < P.ew) (hfix : ∀ d p F, P.fix d p F = F) (hrad : ∀ d p st m, P.rad d p st m = 0)
    (wrap : ℝ → Pos → Pos) (r' : ℤ) (hr : r' + 5 ≤ r) (hwrap : ∀ h p, Within p0 r' p → wrap h p = p)
    (base cur : ℝ → Fields ℝ 11) (a : ℝ) (hb : Track val G q t x0 w p0 lam r 0 base) (hc : Track val G q t x0 w p0 lam r a cur) :
    Track val G q t x0 w p0 lam r' (P.beta * (a + 1)) (fun h => refFields nd (wrap h) (lam * h) (base h) (cur h) (flowStage sol small eps val G L x0 w p0 I C h P)) := by
  set U : ℕ → Event → ℝ := fun k Z => stored val (G (place Z)) (q Z) k with hU
  set X := at_ t x0 with hX
  let D : ℝ → Pos → ℕ → ℝ := fun h p k => refDiv nd (fun d => h * w d)
    (refAll nd (refined sol small eps val G L (fun y => rootDet (G y)) (fun y => √(Matrix.of (G y).gam).det) x0 w p0 P h) (cur h)) k p + fluidSrc val 0 (C h) p (cur h p).2 k
  let u : ℝ → Pos → ℕ → ℝ := fun h p k => P.beta * (cur h p).1 k + (1 - P.beta) * (base h p).1 k + P.beta * (lam * h) * D h p k
  have sub : ∀ p, Within p0 r' p → Within p0 r p := fun p hp e => (hp e).trans (by omega)
  have form : ∀ h p, Within p0 r' p → refFields nd (wrap h) (lam * h) (base h) (cur h) (flowStage sol small eps val G L x0 w p0 I C h P) p =
      (u h p, I (centre x0 w p0 h p, fun k : Fin 9 => u h p k)) := by
    intro h p hp
    unfold refFields
    simp only [hwrap h p hp, if_true]
    rfl
  have hD : ∀ p, Within p0 r' p → ∀ k, Tendsto (fun h => D h p k) (𝓝[>] 0) (𝓝 (pd 0 (U k) X)) := by
    intro p hp k
    have h1 := div_consistent nd sol small hsol val (static_smooth hF) w hw p0 P hew hfix hrad r _ cur hc.prim p (fun e => (hp e).trans (by omega)) k
    have hv : Tendsto (fun h => (cur h p).2) (𝓝[>] 0) (𝓝 (q X)) := by
      have h := (hc.prim p (sub p hp)).2.continuousWithinAt
      rw [ContinuousWithinAt, (hc.prim p (sub p hp)).1] at h
      exact h
    have h2 := src_limit val hF w p0 r C hC p (sub p hp) _ hv k
    have h3 := h1.add h2
    have bal := grmhd_balance hF.geom hF.valid hF.lapse hF.pos hF.state val hs k
    have bal' : pd 0 (U k) X = -∑ d : Fin 3, pd d.succ (fun Y => rootDet (G (place Y)) * physFlux val (G (place Y)) (q Y) d k) X +
      fluidSrc val 0 (exactCell (fun Y => G (place Y)) X) 0 (q X) k := bal
    rw [bal']
    refine Eq.subst (motive := fun y => Tendsto _ _ (𝓝 (y + _))) ?_ h3
    congr 1
    refine Finset.sum_congr rfl fun d _ => ?_
    split_ifs with hd
    · exact slice_fderiv (f := fun Y => rootDet (G (place Y)) * physFlux val (G (place Y)) (q Y) d k)
        ((rootDet_diff (flow_spacetime hF.geom hF.valid hF.lapse hF.pos)).mul (physFlux_diff val hF d k)) d
    · exact (hsym d (by omega) k).symm
  have u0 : ∀ p, Within p0 r' p → ∀ k, u 0 p k = stored val (G x0) (q X) k := by
    intro p hp k
    simp only [u, hb.start p (sub p hp) k, hc.start p (sub p hp) k]
    ring
  have hu : ∀ p, Within p0 r' p → ∀ k, HasDerivWithinAt (fun h => u h p k)
      (fderiv ℝ (U k) X (along (stretch w fun e => (p e : ℝ) - p0 e) + (P.beta * (a + 1) * lam) • tick)) (Ioi 0) 0 := by
    intro p hp k
    have h1 := (hc.cons p (sub p hp) k).const_mul P.beta
    have h2 := (hb.cons p (sub p hp) k).const_mul (1 - P.beta)
    have h3 := vanish_mul (hD p hp k) (f := fun h => P.beta * (lam * h)) (f' := P.beta * (lam * 1)) (((hasDerivWithinAt_id _ _).const_mul lam).const_mul P.beta) (by simp)
    refine (((h1.add h2).add h3).congr_deriv ?_).congr (fun h _ => ?_) ?_
    · simp only [map_add, map_smul, smul_eq_mul]
      have : pd 0 (U k) X = fderiv ℝ (U k) X tick := rfl
      rw [this]
      ring
    · simp only [u, Pi.add_apply]; ring
    · simp only [u, Pi.add_apply]; ring
  refine ⟨fun p hp k => ?_, fun p hp k => ?_, fun p hp => ⟨?_, ?_⟩⟩
  · show (refFields _ _ _ _ _ _ p).1 k = _
    rw [form 0 p hp]; exact u0 p hp k
  · refine (hu p hp k).congr (fun h _ => ?_) ?_ <;> (show (refFields _ _ _ _ _ _ p).1 k = _; rw [form _ p hp])
  · show (refFields _ _ _ _ _ _ p).2 = _
    rw [form 0 p hp]
    simp only [u0 p hp]
    rw [show centre x0 w p0 0 p = x0 by simp [centre]]
    exact hI.recovers.self_of_nhds
  · have hpath : HasDerivWithinAt (fun h => (centre x0 w p0 h p, fun k : Fin 9 => u h p k)) (stretch w (fun e => (p e : ℝ) - p0 e),
        fun k : Fin 9 => fderiv ℝ (U k) X (along (stretch w fun e => (p e : ℝ) - p0 e) + (P.beta * (a + 1) * lam) • tick)) (Ioi 0) 0 :=
      (centre_deriv x0 w p0 p).prodMk (hasDerivWithinAt_pi.2 fun k => hu p hp k)
    have e0 : (centre x0 w p0 0 p, fun k : Fin 9 => u 0 p k) = (x0, fun k : Fin 9 => stored val (G x0) (q X) k) := by
      simp only [u0 p hp]
      rw [show centre x0 w p0 0 p = x0 by simp [centre]]
    have h1 : HasDerivWithinAt (fun h => I (centre x0 w p0 h p, fun k : Fin 9 => u h p k)) _ (Ioi 0) 0 :=
      HasFDerivAt.comp_hasDerivWithinAt (f := fun h => (centre x0 w p0 h p, fun k : Fin 9 => u h p k)) 0 (by rw [e0]; exact hI.diff.hasFDerivAt) hpath
    have e1 := inverts_deriv val hF hI (along (stretch w fun e => (p e : ℝ) - p0 e) + (P.beta * (a + 1) * lam) • tick)
    have e2 : place (along (stretch w fun e => (p e : ℝ) - p0 e) + (P.beta * (a + 1) * lam) • tick) = stretch w fun e => (p e : ℝ) - p0 e := by
      have : ∀ y z : Event, ∀ c : ℝ, place (y + c • z) = place y + c • place z := fun y z c => rfl
      rw [this, place_along, place_tick, smul_zero, add_zero]
    rw [e2] at e1
    refine (h1.congr_deriv (e1.trans ?_)).congr (fun h _ => ?_) ?_
    · rw [map_add, map_smul, slice_along hF.state]
    all_goals show (refFields _ _ _ _ _ _ p).2 = _; rw [form _ p hp]

/-! ### A whole step -/

omit hF in
theorem advance_cons (l : List ℝ) : ∀ a : ℝ, l.foldl (fun a β => β * (a + 1)) a = advance l + a * l.prod := by
  unfold advance
  induction l with
  | nil => intro a; simp
  | cons β l ih =>
    intro a
    simp only [List.foldl_cons, List.prod_cons]
    rw [ih (β * (a + 1)), ih (β * (0 + 1))]
    ring

/-- the cells hold the flow at their centres. -/
theorem sampled_track (val : Bool) (w : Coord) (p0 : Pos) (lam : ℝ) (r : ℤ) (Y : ℝ → Fields ℝ 11)
    (hY : ∀ h p, Within p0 r p → (∀ k, (Y h p).1 k = stored val (G (centre x0 w p0 h p)) (q (at_ t (centre x0 w p0 h p))) k) ∧ (Y h p).2 = q (at_ t (centre x0 w p0 h p))) :
    Track val G q t x0 w p0 lam r 0 Y := by
  have c0 : ∀ p, centre x0 w p0 0 p = x0 := fun p => by simp [centre]
  have path : ∀ p, HasDerivWithinAt (fun h => at_ t (centre x0 w p0 h p)) (along (stretch w fun e => (p e : ℝ) - p0 e)) (Ioi 0) 0 := fun p =>
    HasFDerivAt.comp_hasDerivWithinAt (f := fun h => centre x0 w p0 h p) 0 (by rw [c0 p]; exact slice_deriv t x0) (centre_deriv x0 w p0 p)
  refine ⟨fun p hp k => ?_, fun p hp k => ?_, fun p hp => ⟨?_, ?_⟩⟩
  · rw [(hY 0 p hp).1 k, c0]
  · simp only [fun h => (hY h p hp).1 k, zero_mul, zero_smul, add_zero]
    have := chain (f := fun Z => stored val (G (place Z)) (q Z) k) (γ := fun h => at_ t (centre x0 w p0 h p)) (stored_diff val hF k) (by rw [c0]) (path p)
    simp only [place_at] at this
    exact this
  · rw [(hY 0 p hp).2, c0]
  · simp only [fun h => (hY h p hp).2, zero_mul, zero_smul, add_zero]
    rw [slice_along hF.state]
    exact HasFDerivAt.comp_hasDerivWithinAt (f := fun h => at_ t (centre x0 w p0 h p)) 0 (by rw [c0]; exact hF.state.hasFDerivAt) (path p)

/-- all stages of a step. -/
theorem steps_track (nd : ℕ) (sol : MeshRun.Solver) (small : ℝ) (hsol : sol = .llf ∨ small = 0) (val : Bool) (hs : Solves (fun Y => G (place Y)) q (at_ t x0)) (w : Coord)
    (hw : ∀ d, 0 < w d) (p0 : Pos) (lam : ℝ) (I : Coord × (Fin 9 → ℝ) → Fin 11 → ℝ) (hI : Inverts val G q (at_ t x0) I) (C : ℝ → CellGeom)
    (hsym : ∀ d : Fin 3, nd ≤ d.val → ∀ k, pd d.succ (fun Y => rootDet (G (place Y)) * physFlux val (G (place Y)) (q Y) d k) (at_ t x0) = 0)
    (wrap : ℝ → Pos → Pos) (base : ℝ → Glob ℝ 11) (Ps : List (Phys ℝ 11)) :
    ∀ (r : ℤ), ExactCells G (at_ t x0) w p0 r C → (∀ P ∈ Ps, 0 < P.ew ∧ (∀ d p F, P.fix d p F = F) ∧ ∀ d p st m, P.rad d p st m = 0) → 5 * (Ps.length : ℤ) ≤ r →
    (∀ h p, Within p0 (r - 5) p → wrap h p = p) → Track val G q t x0 w p0 lam r 0 (fun h => (base h).1) →
    ∀ (cur : ℝ → Glob ℝ 11) (a : ℝ), Track val G q t x0 w p0 lam r a (fun h => (cur h).1) →
      Track val G q t x0 w p0 lam (r - 5 * Ps.length) ((Ps.map Phys.beta).foldl (fun a β => β * (a + 1)) a)
        (fun h => ((Ps.map (flowStage sol small eps val G L x0 w p0 I C h)).foldl (refStage nd (wrap h) (lam * h) (base h).1) (cur h)).1) := by
  induction Ps with
  | nil =>
    intro r _ _ _ _ _ cur a hc
    simpa using hc
  | cons P l ih =>
    intro r hC hP hr hwrap hb cur a hc
    simp only [List.map_cons, List.foldl_cons, List.length_cons] at hr ⊢
    push_cast at hr ⊢
    obtain ⟨h1, h2, h3⟩ := hP P (by simp)
    have narrow : ∀ {a : ℝ} {Y : ℝ → Fields ℝ 11}, Track val G q t x0 w p0 lam r a Y → Track val G q t x0 w p0 lam (r - 5) a Y := fun h =>
      ⟨fun p hp => h.start p fun e => (hp e).trans (by omega), fun p hp => h.cons p fun e => (hp e).trans (by omega), fun p hp => h.prim p fun e => (hp e).trans (by omega)⟩
    have st := stage_track hF nd sol small hsol val hs w hw p0 lam I hI C r hC hsym P h1 h2 h3 wrap (r - 5) (by omega) hwrap (fun h => (base h).1) (fun h => (cur h).1) a hb hc
    have hC' : ExactCells G (at_ t x0) w p0 (r - 5) C := ⟨fun h p hh hp => hC.geo h p hh fun e => (hp e).trans (by omega), fun h p hh hp => hC.det h p hh fun e => (hp e).trans (by omega),
      fun p hp => hC.dg p fun e => (hp e).trans (by omega), fun p hp => hC.da p fun e => (hp e).trans (by omega)⟩
    have := ih (r - 5) hC' (fun P hP' => hP P (List.mem_cons_of_mem _ hP')) (by omega) (fun h p hp => hwrap h p fun e => (hp e).trans (by omega)) (narrow hb)
      (fun h => refStage nd (wrap h) (lam * h) (base h).1 (cur h) (flowStage sol small eps val G L x0 w p0 I C h P)) (P.beta * (a + 1)) st
    rw [show r - 5 * ((l.length : ℤ) + 1) = r - 5 - 5 * l.length by ring]
    exact this

/-- the true rate of change over a step. -/
theorem true_rate (val : Bool) (lam : ℝ) (hl : 0 < lam) (k : ℕ) :
    Tendsto (fun h => (stored val (G (place (at_ (t + lam * h) x0))) (q (at_ (t + lam * h) x0)) k - stored val (G (place (at_ t x0))) (q (at_ t x0)) k) / (lam * h)) (𝓝[>] 0)
      (𝓝 (pd 0 (fun Z => stored val (G (place Z)) (q Z) k) (at_ t x0))) := by
  have e : ∀ h : ℝ, at_ (t + lam * h) x0 = at_ t x0 + h • (lam • tick) := by
    intro h
    funext μ
    refine Fin.cases ?_ (fun i => ?_) μ
    · simp [at_, tick]; ring
    · simp [at_, tick]
  have path : HasDerivWithinAt (fun h : ℝ => at_ (t + lam * h) x0) (lam • tick) (Ioi 0) 0 := by
    simp only [e]
    have := ((hasDerivAt_id (0:ℝ)).smul_const (lam • tick)).const_add (at_ t x0)
    rw [one_smul] at this
    exact this.hasDerivWithinAt
  have h1 := chain (f := fun Z => stored val (G (place Z)) (q Z) k) (γ := fun h : ℝ => at_ (t + lam * h) x0) (stored_diff val hF k) (by simp) path
  rw [map_smul, smul_eq_mul, hasDerivWithinAt_iff_tendsto_slope' (by simp)] at h1
  have h2 := h1.div_const lam
  rw [mul_comm, mul_div_assoc, div_self hl.ne', mul_one] at h2
  refine h2.congr fun h => ?_
  simp only [slope, vsub_eq_sub, smul_eq_mul, sub_zero, mul_zero, add_zero]
  rw [mul_comm lam h, ← div_div, inv_mul_eq_div]

/-- **C151**: a smooth flow that solves the GRMHD equations at the event `(t, x0)` in a stationary smooth spacetime, inside all floors and ceilings; a mesh of blocks in which
`p0` is the index of the cell centred at `x0` (the number of blocks and cells may grow as the cells shrink).  At the cells up to five cells per stage away from `p0` the initial data are the flow
at the cell centres, the inversion recovers the flow from its conserved variables, and the metric derivatives in the sources tend to the true ones.  One step of the program, of size `lam·h`
on cells of widths `h·w`, with any number of stages, whatever the memory contained and in whatever order the loops ran: the change of each conserved variable divided by the time
step tends to `advance` of the weights times the time derivative of the variable.  So the error made in one step, divided by the step, tends to zero where `advance` is one. -/
theorem step_rate {B : Type} (nd : ℕ) (g : ℤ) (hg : 0 ≤ g) (Gr : ℝ → Grid B) (Dom : ℝ → Pos → Prop) (hT : ∀ h, Tiles (Gr h) nd g (Dom h))
    (sol : MeshRun.Solver) (small : ℝ) (hsol : sol = .llf ∨ small = 0) (val : Bool) (hs : Solves (fun Y => G (place Y)) q (at_ t x0)) (w : Coord)
    (hw : ∀ d, 0 < w d) (p0 : Pos) (lam : ℝ) (hl : 0 < lam) (I : Coord × (Fin 9 → ℝ) → Fin 11 → ℝ) (hI : Inverts val G q (at_ t x0) I)
    (hsym : ∀ d : Fin 3, nd ≤ d.val → ∀ k, pd d.succ (fun Y => rootDet (G (place Y)) * physFlux val (G (place Y)) (q Y) d k) (at_ t x0) = 0)
    (Ps : List (Phys ℝ 11)) (hP : ∀ P ∈ Ps, 1 + radius P.rt ≤ g ∧ 0 < P.ew ∧ (∀ d p F, P.fix d p F = F) ∧ ∀ d p st m, P.rad d p st m = 0)
    (C : ℝ → CellGeom) (hC : ExactCells G (at_ t x0) w p0 (5 * Ps.length) C) (hdom : ∀ h p, Within p0 (5 * Ps.length) p → Dom h p)
    (mem : ℝ → ℕ → B → Mem ℝ 11) (ho : ∀ h n i, Covers ((Gr h).shape i) (mem h n i).order)
    (X : ℝ → Mesh ℝ 11 B) (Y : ℝ → Glob ℝ 11) (hX : ∀ h, 0 < h → Holds (Gr h) (X h) (Y h))
    (hY : ∀ h, 0 < h → ∀ p, Within p0 (5 * Ps.length) p →
      (Y h).1 p = (fun k => stored val (G (centre x0 w p0 h p)) (q (at_ t (centre x0 w p0 h p))) k, q (at_ t (centre x0 w p0 h p))))
    (i : ℝ → B) (c : ℝ → Pos) (hi : ∀ h, ((Gr h).shape (i h)).Interior (c h)) (hc : ∀ h, (fun e => c h e + (Gr h).off (i h) e) = p0) (k : ℕ) :
    let U := fun Z => stored val (G (place Z)) (q Z) k
    let V := fun h => ((step (Gr h) (lam * h) ((Ps.map (flowStage sol small eps val G L x0 w p0 I C h)).zipIdx.map fun x => (x.1, mem h x.2)) (X h)).1 (i h) (c h)).1 k
    Tendsto (fun h => (V h - ((X h).1 (i h) (c h)).1 k) / (lam * h)) (𝓝[>] 0) (𝓝 (advance (Ps.map Phys.beta) * pd 0 U (at_ t x0))) ∧
    Tendsto (fun h => (V h - U (at_ (t + lam * h) x0)) / (lam * h)) (𝓝[>] 0) (𝓝 ((advance (Ps.map Phys.beta) - 1) * pd 0 U (at_ t x0))) := by
  intro U V
  have hcell : ∀ h, 0 < h → ((X h).1 (i h) (c h)).1 k = U (at_ t x0) := by
    intro h hh
    rw [(hX h hh).1 (i h) (c h) (interior_entire _ (by rw [(hT h).ghosts]; exact hg) _ (hi h)), hc h, hY h hh p0 (fun e => by simp)]
    simp only
    rw [show centre x0 w p0 h p0 = x0 by funext e; simp [centre]]
    rfl
  suffices main : Tendsto (fun h => (V h - ((X h).1 (i h) (c h)).1 k) / (lam * h)) (𝓝[>] 0) (𝓝 (advance (Ps.map Phys.beta) * pd 0 U (at_ t x0))) by
    refine ⟨main, ?_⟩
    have h1 := main.sub (true_rate hF val lam hl k)
    rw [← sub_one_mul] at h1
    refine h1.congr' ?_
    filter_upwards [self_mem_nhdsWithin] with h hh
    rw [hcell h hh, ← sub_div]
    simp only [U]
    congr 1
    ring
  classical
  set R : ℤ := 5 * Ps.length with hR
  let Z : ℝ → Glob ℝ 11 := fun h => (fun p => if Within p0 R p then
    (fun k => stored val (G (centre x0 w p0 h p)) (q (at_ t (centre x0 w p0 h p))) k, q (at_ t (centre x0 w p0 h p))) else (Y h).1 p, (Y h).2)
  have hZ : ∀ h, 0 < h → Z h = Y h := by
    intro h hh
    refine Prod.ext (funext fun p => ?_) rfl
    show (if Within p0 R p then _ else (Y h).1 p) = (Y h).1 p
    split_ifs with hp
    · exact (hY h hh p hp).symm
    · rfl
  have tr : Track val G q t x0 w p0 lam R 0 (fun h => (Z h).1) := sampled_track hF val w p0 lam R _ fun h p hp => by
    simp only [Z, if_pos hp]
    simp
  have res := steps_track hF nd sol small hsol val hs w hw p0 lam I hI C hsym (fun h => (Gr h).wrap) Z Ps R hC (fun P h => (hP P h).2) le_rfl
    (fun h p hp => (hT h).fixed p (hdom h p fun e => (hp e).trans (by omega))) tr Z 0 tr
  have w0 : Within p0 (R - 5 * Ps.length) p0 := fun e => by simp [hR]
  have der := res.cons p0 w0 k
  have st0 := res.start p0 w0 k
  have e0 : (stretch w fun e => (p0 e : ℝ) - p0 e) = 0 := by funext e; simp [stretch]
  rw [e0, map_zero, zero_add, map_smul, smul_eq_mul, hasDerivWithinAt_iff_tendsto_slope' (by simp)] at der
  have lim := der.div_const lam
  have el : advance (Ps.map Phys.beta) * lam * fderiv ℝ (fun Z => stored val (G (place Z)) (q Z) k) (at_ t x0) tick / lam =
      advance (Ps.map Phys.beta) * pd 0 (fun Z => stored val (G (place Z)) (q Z) k) (at_ t x0) := by
    show advance (Ps.map Phys.beta) * lam * fderiv ℝ (fun Z => stored val (G (place Z)) (q Z) k) (at_ t x0) tick / lam =
      advance (Ps.map Phys.beta) * fderiv ℝ (fun Z => stored val (G (place Z)) (q Z) k) (at_ t x0) tick
    field_simp
  refine Eq.subst (motive := fun y => Tendsto _ _ (𝓝 y)) el (lim.congr' ?_)
  filter_upwards [self_mem_nhdsWithin] with h hh
  have hh : 0 < h := hh
  have hent : ((Gr h).shape (i h)).Entire (c h) := by
    exact interior_entire _ (by rw [(hT h).ghosts]; exact hg) _ (hi h)
  have sh := step_holds (Gr h) nd g (Dom h) (hT h) (lam * h) (X h) (Y h) ((Ps.map (flowStage sol small eps val G L x0 w p0 I C h)).zipIdx.map fun x => (x.1, mem h x.2))
    (fun s hs => by
      obtain ⟨x, hx, rfl⟩ := List.mem_map.1 hs
      have := List.fst_mem_of_mem_zipIdx hx
      obtain ⟨P, hPm, e⟩ := List.mem_map.1 this
      rw [← e]
      exact (hP P hPm).1)
    (fun s hs j => by
      obtain ⟨x, hx, rfl⟩ := List.mem_map.1 hs
      exact ho h _ j) (hX h hh)
  have em : ((Ps.map (flowStage sol small eps val G L x0 w p0 I C h)).zipIdx.map fun x => (x.1, mem h x.2)).map Prod.fst = Ps.map (flowStage sol small eps val G L x0 w p0 I C h) := by
    rw [List.map_map]
    show List.map Prod.fst _ = _
    exact List.zipIdx_map_fst _ _
  rw [em] at sh
  simp only [V]
  rw [sh.1 (i h) (c h) hent, (hX h hh).1 (i h) (c h) hent, hc h, hY h hh p0 (fun e => by simp [hR])]
  simp only [slope, vsub_eq_sub, smul_eq_mul, sub_zero]
  rw [st0]
  rw [show centre x0 w p0 h p0 = x0 by funext e; simp [centre]]
  unfold refStep
  rw [hZ h hh]
  rw [mul_comm lam h, ← div_div]
  congr 1
  rw [inv_mul_eq_div]

end

/-- **C151** the schemes of the program (weights set by Parthenon, phoebus_driver.cpp:88-92): one step of `rk1`, `rk2` and `rk3` advances by one time step, one of `vl2` by three halves. -/
theorem advance_schemes : advance [1] = 1 ∧ advance [1, 1/2] = 1 ∧ advance [1, 1/4, 2/3] = 1 ∧ advance [1/2, 1] = 3/2 := by
  unfold advance
  norm_num

/-! ### Example: the flow of C150 on every periodic mesh -/

theorem exWave_stored (Y : Event) : stored true C2P.flat (exWave Y) 0 = (1 + Y 1 - 3/5 * Y 0) * (5/4) := by
  unfold stored
  simp only [slot_rho]
  refine (p2c_projections true C2P.flat _ (exWave Y 8) (exWave.fluid Y) C2P.flat_valid.1 (by norm_num [C2P.flat]) C2P.flat_valid.2).1.trans ?_
  rw [exWave_u]
  have h : (Matrix.of C2P.flat.gam).det = 1 := by simp [C2P.flat, Matrix.det_fin_three]
  rw [h]
  have h1 : (exWave.fluid Y).rho = 1 + Y 1 - 3/5 * Y 0 := rfl
  rw [h1]
  simp [C2P.flat]

/-- inversion of the example. -/
noncomputable def exInv (z : Coord × (Fin 9 → ℝ)) : Fin 11 → ℝ := exSur.prims (z.2 0 / (5/4))

theorem exInv_inverts (X : Event) : Inverts true (fun _ => C2P.flat) exWave X exInv := by
  refine ⟨?_, Eventually.of_forall fun Y => ?_⟩
  · rw [differentiableAt_pi]
    intro i
    unfold exInv Surround.prims
    fin_cases i
    · show DifferentiableAt ℝ (fun z : Coord × (Fin 9 → ℝ) => z.2 0 / (5/4)) _
      fun_prop
    all_goals exact differentiableAt_const _
  · have : ((0 : Fin 9) : ℕ) = 0 := rfl
    simp only [exInv, this, exWave_stored, mul_div_assoc]
    norm_num [exWave]

/-- a stage with weight `β`. -/
noncomputable def exRK (rt : Method) (β : ℝ) : Phys ℝ 11 := { exMove with rt := rt, ew := 1/10^20, beta := β }

theorem exCells (x0 w : Coord) (t : ℝ) (p0 : Pos) (r : ℤ) : ExactCells (fun _ => C2P.flat) (at_ t x0) w p0 r fun _ => ⟨fun _ => C2P.flat, fun _ => rootDet C2P.flat, fun _ _ _ _ => 0, fun _ _ => 0⟩ := by
  refine ⟨fun _ _ _ _ => rfl, fun _ _ _ _ => rfl, fun _ _ a b s => ?_, fun _ _ m => ?_⟩
  · simp [metricDeriv, pd]
  · simp [pd]

/-- **C151 (concrete)**: density `1 + x - 3t/5` in flat space on a mesh of any number of blocks of any size, any reconstruction method, ghost cells enough for it: one step of a scheme with
weights `l` changes the conserved density per time step by `-3/4` times `advance l` in the limit: the true rate with `rk2`, three halves of it with `vl2`. -/
theorem ex_truncation (rt : Method) (g : ℤ) (hg : 1 + radius rt ≤ g) (nb nx : Fin 3 → ℕ) [∀ d, NeZero (nb d)] (hx : ∀ d, 0 < nx d) (l : List ℝ) (p0 : Pos)
    (hp : ∀ d, 5 * (l.length : ℤ) ≤ p0 d ∧ p0 d + 5 * l.length < (nb d * nx d : ℕ)) (lam : ℝ) (hl : 0 < lam) (mem : ℝ → ℕ → ((d : Fin 3) → Fin (nb d)) → Mem ℝ 11)
    (ho : ∀ h n i, Covers ((regular 3 g nb nx (wrapPeriodic fun d => nb d * nx d)).shape i) (mem h n i).order) (i : (d : Fin 3) → Fin (nb d)) (c : Pos)
    (hi : ((regular 3 g nb nx (wrapPeriodic fun d => nb d * nx d)).shape i).Interior c) (hc : (fun e => c e + (regular 3 g nb nx (wrapPeriodic fun d => nb d * nx d)).off i e) = p0) :
    let Gr := regular 3 g nb nx (wrapPeriodic fun d => nb d * nx d)
    let C : ℝ → CellGeom := fun _ => ⟨fun _ => C2P.flat, fun _ => rootDet C2P.flat, fun _ _ _ _ => 0, fun _ _ => 0⟩
    let Y : ℝ → Pos → (ℕ → ℝ) × (Fin 11 → ℝ) := fun h p => (fun k => stored true C2P.flat (exWave (at_ 0 (centre 0 (fun _ => 1) p0 h p))) k, exWave (at_ 0 (centre 0 (fun _ => 1) p0 h p)))
    let V := fun h => ((step Gr (lam * h) (((l.map (exRK rt)).map (flowStage .llf 0 (1/1000) true (fun _ => C2P.flat) (fun _ => exLim) 0 (fun _ => 1) p0 exInv C h)).zipIdx.map fun x => (x.1, mem h x.2))
      (fun j a => Y h fun e => a e + Gr.off j e, fun _ _ _ => 0)).1 i c).1 0
    Tendsto (fun h => (V h - 5/4) / (lam * h)) (𝓝[>] 0) (𝓝 (advance l * (-(3/4)))) := by
  intro Gr C Y V
  have hpos : ∀ d, 0 < nb d * nx d := fun d => Nat.mul_pos (Nat.pos_of_ne_zero (NeZero.ne _)) (hx d)
  have T := regular_tiles 3 g nb nx hx (fun d hd => absurd hd (by have := d.isLt; omega)) _ (wrapPeriodic_box _ hpos)
  have hg0 : 0 ≤ g := by
    have : 0 ≤ radius rt := by cases rt <;> decide
    omega
  have main := (step_rate (G := fun _ => C2P.flat) (L := fun _ => exLim) exWave_smooth 3 g hg0 (fun _ => Gr) (fun _ => _) (fun _ => T) .llf 0 (Or.inl rfl) true (exWave_solves _) (fun _ => 1)
    (fun _ => one_pos) p0 lam hl exInv (exInv_inverts _) (fun d hd => absurd hd (by have := d.isLt; omega)) (l.map (exRK rt))
    (fun P hP => by
      obtain ⟨β, _, rfl⟩ := List.mem_map.1 hP
      exact ⟨hg, by norm_num [exRK], fun _ _ _ => rfl, fun _ _ _ _ => rfl⟩)
    C (exCells _ _ _ _ _) (fun h p hpw => by
      rw [List.length_map] at hpw
      intro d
      have h1 := hpw d
      have h2 := hp d
      rw [abs_le] at h1
      push_cast at h2 ⊢
      constructor
      · omega
      · have := h1.2
        have := h2.2
        linarith)
    mem ho (fun h => (fun j a => Y h fun e => a e + Gr.off j e, fun _ _ _ => 0)) (fun h => (Y h, fun _ _ => 0)) (fun h _ => ⟨fun _ _ _ => rfl, fun _ _ _ _ => rfl⟩)
    (fun h _ p _ => rfl) (fun _ => i) (fun _ => c) (fun _ => hi) (fun _ => hc) 0).1
  have e1 : (l.map (exRK rt)).map Phys.beta = l := by
    rw [List.map_map]
    exact List.map_id' l
  have e2 : pd 0 (fun Z : Event => stored true C2P.flat (exWave Z) 0) (at_ 0 0) = -(3/4) := by
    simp only [exWave_stored]
    rw [exRho]
    norm_num
  rw [e1, e2] at main
  refine main.congr fun h => ?_
  have e3 : (Y h fun e => c e + Gr.off i e).1 0 = 5/4 := by
    have : (fun e => c e + Gr.off i e) = p0 := hc
    rw [this]
    simp only [Y, exWave_stored, show centre 0 (fun _ => (1:ℝ)) p0 h p0 = 0 by funext e; simp [centre]]
    simp [at_]
  rw [← e3]

end Phoebus.Step
