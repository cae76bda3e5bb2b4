import Verif.MeshRun.CompModel
import Verif.Recon.Props

/-!
# C124: a uniform composition stays uniform; periodic fluxes
-/
namespace Phoebus.FluxSweep
variable {K : Type} [Field K] [LinearOrder K] {N : ℕ}

/-- a field with period `p` in direction `d`. -/
def PeriodicField {A : Type} (d : Fin 3) (p : ℤ) (a : Pos → A) : Prop := ∀ c, a (fun e => c e + p * unit d e) = a c

omit [LinearOrder K] in
/-- **C120 (periodic domain)**: periodic primitives and a periodic geometry have periodic face fluxes. -/
theorem flux_periodic (R : (ℤ → K) → K × K) (S : Fin 3 → Pos → (Fin N → K) → (Fin N → K) → ℕ → K) (V : Fin N → Pos → K) (d' d : Fin 3) (p : ℤ)
    (hV : ∀ n, PeriodicField d' p (V n)) (hS : ∀ ql qr m, PeriodicField d' p (fun f => S d f ql qr m)) (m : ℕ) :
    PeriodicField d' p fun f => S d f (stateL R V d f) (stateR R V d f) m := by
  intro f
  have hL : stateL R V d (fun e => f e + p * unit d' e) = stateL R V d f := by
    funext n
    unfold stateL
    congr 2; funext q
    rw [← hV n fun e => f e + (q - 1) * unit d e]
    congr 1; funext e; ring
  have hR : stateR R V d (fun e => f e + p * unit d' e) = stateR R V d f := by
    funext n
    unfold stateR
    congr 2; funext q
    rw [← hV n fun e => f e + q * unit d e]
    congr 1; funext e; ring
  simp only [hL, hR]
  exact hS _ _ m f

end Phoebus.FluxSweep

namespace Phoebus.MeshRun
open FluxCT FixFlux FluxSweep
variable {N : ℕ}

/-! ### Specification -/

/-- in every cell of the domain the electron variable is `Y` times the density variable. -/
def Mesh.UniformYe (M : Mesh) (Y : ℝ) (U : Arr ℝ × Arr ℝ) : Prop := ∀ k j i, M.Has k j i → U.2 k j i = Y * U.1 k j i

/-! ### Steps of the argument -/

theorem combine_scale (s : Setup N) (gdet gammadet : ℝ) (sl sr : ℝ × ℝ) (Y Fl Fr Ul Ur : ℝ) :
    combine s gdet gammadet sl sr (Y * Fl) (Y * Fr) (Y * Ul) (Y * Ur) = Y * combine s gdet gammadet sl sr Fl Fr Ul Ur := by
  unfold combine
  cases s.solver
  · simp only [Riemann.llf]; ring
  · simp only [Riemann.hll]; ring

/-- **C124 (solvers)**: if both face states have electron fraction `Y`, the flux of electrons is `Y` times that of mass. -/
theorem faceFluxes_ye (s : Setup N) (st : StageData N) (d : Fin 3) (f : Pos) (ql qr : Fin N → ℝ) (Y : ℝ) (hl : ql s.nye = Y) (hr : qr s.nye = Y) :
    (faceFluxes s st d f ql qr).2 = Y * (faceFluxes s st d f ql qr).1 := by
  unfold faceFluxes
  simp only [hl, hr]
  rw [← combine_scale]
  congr 1 <;> simp only [Riemann.fluxF, Riemann.fluxU] <;> ring

/-- **C124 (recovery)**: exact recovery of the electron fraction from the conserved pair. -/
theorem recover_exact (Y D : ℝ) (hD : D ≠ 0) : recoverYe 0 (Y * D) D = Y := by
  unfold recoverYe Robust.ratio
  simp [mul_div_assoc, div_self hD]

/-- the guard of `robust::ratio` lowers the recovered fraction by the relative amount `small / (D + small)`. -/
theorem recover_small (small Y D : ℝ) (hs : 0 ≤ small) (hD : 0 < D) : recoverYe small (Y * D) D = Y * (1 - small / (D + small)) := by
  unfold recoverYe Robust.ratio
  simp only [if_pos hD.le, one_mul]
  have : D + small ≠ 0 := by positivity
  field_simp
  ring

/-- every reconstruction method keeps a uniform field. -/
theorem kernel_const (ew em : ℝ) (he : 0 < ew) (hm : 0 ≤ em) (rt : Method) (q : ℤ → ℝ) (Y : ℝ) (h : ∀ m, q m = Y) :
    (kernel ew em rt q).1 = Y ∧ (kernel ew em rt q).2 = Y := by
  have hc := Recon.recon_preserves_constants ew em Y he hm
  cases rt <;> simp only [kernel, h] <;> simp_all

theorem wrap_has (M : Mesh) (hpos : ∀ d, 0 < M.n d) (c : Pos) : M.Has (M.wrap c 2) (M.wrap c 1) (M.wrap c 0) := by
  have h : ∀ d, 0 ≤ M.wrap c d ∧ M.wrap c d < M.n d := fun d =>
    ⟨Int.emod_nonneg _ (by have := hpos d; omega), Int.emod_lt_of_pos _ (by have := hpos d; omega)⟩
  exact ⟨h 2, h 1, h 0⟩

theorem stage_flux_ye (M : Mesh) (hpos : ∀ d, 0 < M.n d) (s : Setup N) (hs : s.small = 0) (he : 0 < s.ew) (hm : 0 ≤ s.em) (st : StageData N)
    (U : Arr ℝ × Arr ℝ) (Y : ℝ) (hY : M.UniformYe Y U) (hD : ∀ k j i, M.Has k j i → U.1 k j i ≠ 0) (d : Fin 3) (k j i : ℤ) :
    stageFlux M s st U d yeVar k j i = Y * stageFlux M s st U d .rho k j i := by
  have hp : ∀ c, prims M s st U s.nye c = Y := by
    intro c
    have hw := wrap_has M hpos c
    unfold prims
    rw [if_pos rfl, hY _ _ _ hw, hs]
    exact recover_exact Y _ (hD _ _ _ hw)
  unfold stageFlux
  have h1 : (yeVar = Var.rho) = False := by simp [yeVar]
  simp only [h1, if_false, if_true]
  refine faceFluxes_ye s st d _ _ _ Y ?_ ?_
  · exact (kernel_const s.ew s.em he hm s.rt _ Y fun m => hp _).1
  · exact (kernel_const s.ew s.em he hm s.rt _ Y fun m => hp _).2

/-- **C124 (one stage)**: on a periodic mesh, cut into blocks in any way. -/
theorem stage_uniform (M : Mesh) (own : ℤ → ℤ → ℤ → IBlk) (hM : M.Tiled own) (hper : ∀ d, M.per d = true) (dx : Fin 3 → ℝ) (s : Setup N)
    (hs : s.small = 0) (he : 0 < s.ew) (hm : 0 ≤ s.em) (st : StageData N) (dt : ℝ) (base cur : Arr ℝ × Arr ℝ) (Y : ℝ)
    (hb : M.UniformYe Y base) (hc : M.UniformYe Y cur) (hD : ∀ k j i, M.Has k j i → cur.1 k j i ≠ 0) :
    M.UniformYe Y (pairStage M own dx s dt base cur st) := by
  intro k j i h
  have hF := stage_flux_ye M hM.pos s hs he hm st cur Y hc hD
  have untouched : ∀ (F : Flux ℝ), fixFluxes (M.cfg (own k j i)) (own k j i).blk F = F := by
    intro F
    have hu : ∀ d o, (M.cfg (own k j i)).user d o = false := by intro d o; simp [Mesh.cfg, hper d]
    simp [fixFluxes, fixFace, hu]
  have hr : M.rate own dx (stageFlux M s st cur) yeVar k j i = Y * M.rate own dx (stageFlux M s st cur) .rho k j i := by
    unfold Mesh.rate fluxDiv mask
    simp only [untouched, hF]
    split_ifs <;> ring
  simp only [pairStage, stage, hr, hb k j i h, hc k j i h]
  ring

/-- **C124**: on a periodic domain a uniform electron fraction stays uniform through any number of steps, for every decomposition, solver,
reconstruction method, geometry and evolution of all other variables, as long as the density does not vanish.

Partial form of C124. Full property: If the electron fraction is the same in all cells it stays so, whatever the flow
does: conserved electron number stays that multiple of the conserved mass through every run. Missing: Proved on
periodic domains with the guard constant of robust::ratio set to zero (recover_small gives its exact effect); false at
outflow sides (outflow_composition) and under density floors (floor_composition). -/
theorem composition_uniform_partial (M : Mesh) (own : ℤ → ℤ → ℤ → IBlk) (hM : M.Tiled own) (hper : ∀ d, M.per d = true) (dx : Fin 3 → ℝ) (s : Setup N)
    (hs : s.small = 0) (he : 0 < s.ew) (hm : 0 ≤ s.em) (steps : List (ℝ × List (StageData N))) (U : Arr ℝ × Arr ℝ) (Y : ℝ) (hY : M.UniformYe Y U)
    (hD : ∀ S ∈ runStates M own dx s steps U, ∀ k j i, M.Has k j i → S.1 k j i ≠ 0) : M.UniformYe Y (pairRun M own dx s steps U) := by
  have step : ∀ (dt : ℝ) (base : Arr ℝ × Arr ℝ), M.UniformYe Y base → ∀ (l : List (StageData N)) (cur : Arr ℝ × Arr ℝ), M.UniformYe Y cur →
      (∀ S ∈ stepStates M own dx s dt base l cur, ∀ k j i, M.Has k j i → S.1 k j i ≠ 0) →
      M.UniformYe Y (l.foldl (pairStage M own dx s dt base) cur) := by
    intro dt base hb l
    induction l with
    | nil => intro cur hc _; exact hc
    | cons st l ih =>
      intro cur hc hD
      rw [List.foldl_cons]
      exact ih _ (stage_uniform M own hM hper dx s hs he hm st dt base cur Y hb hc (hD cur (by simp [stepStates])))
        fun S hS => hD S (by simp [stepStates, hS])
  unfold pairRun
  induction steps generalizing U with
  | nil => exact hY
  | cons t l ih =>
    rw [List.foldl_cons]
    refine ih _ ?_ fun S hS => hD S (by simp [runStates, hS])
    exact step t.1 U hY t.2 U hY fun S hS => hD S (by simp [runStates, hS])

/-! ### Where it fails -/

/-- at an outflow side the mass flux is clipped and the electron flux is not. -/
theorem outflow_composition (M : Mesh) (hdim : 1 ≤ M.ndim ∧ M.ndim ≤ 3) (hpos : ∀ d, 0 < M.n d) (he : M.enable = true) (hp : M.per 0 = false)
    (hb : M.bc 0 false = BC.outflow) (F : Flux ℝ) (k j i : ℤ) (h : BoundaryFace M.whole.blk 0 false k j i) (Y : ℝ)
    (hF : F 0 yeVar k j i = Y * F 0 .rho k j i) :
    fixFluxes (M.cfg M.whole) M.whole.blk F 0 yeVar k j i = Y * fixFluxes (M.cfg M.whole) M.whole.blk F 0 .rho k j i ↔ Y = 0 ∨ F 0 .rho k j i ≤ 0 := by
  have hd : (0 : Fin 3).val < M.ndim := by have := hdim.1; simp; omega
  rw [(side_flux M hdim hpos F 0 hd yeVar (by simp [yeVar]) false k j i h).2 he, (side_flux M hdim hpos F 0 hd .rho (by decide) false k j i h).2 he]
  have hu : (M.cfg M.whole).user 0 false = true := by simp [Mesh.cfg, hp, whole_touches]
  have hbc : (M.cfg M.whole).bc 0 false = BC.outflow := hb
  simp only [faceFix, hu, hbc, if_true, outflowFix, yeVar, Bool.false_eq_true, if_false] at hF ⊢
  rw [hF]
  rcases le_or_gt (F 0 Var.rho k j i) 0 with hle | hgt
  · simp [min_eq_left hle, hle]
  · rw [min_eq_right hgt.le]
    simp only [mul_zero, mul_eq_zero, not_le.2 hgt, or_false]
    constructor
    · rintro (h | h)
      · exact h
      · exact absurd h hgt.ne'
    · exact Or.inl

/-- density floors: the injected mass carries the *conserved* electron variable as its electron fraction (fixup.cpp:452), so that a cell at rest
keeps its electron fraction only if nothing is injected, it has none, or the conserved density is exactly one. -/
theorem floor_composition (val : Bool) (P : Floors.Press) (G : Geom.ADM ℝ) (gdet rho u p Y dr du : ℝ) (B : Fin 3 → ℝ) (ha : 0 < G.alpha)
    (hD : gdet * rho ≠ 0) (hne : gdet * (rho + dr) ≠ 0) :
    let c := Floors.restCons val true P G gdet rho u p Y dr du B
    c.ye = Y * c.D ↔ dr = 0 ∨ Y = 0 ∨ gdet * rho = 1 := by
  intro c
  have hg : gdet ≠ 0 := fun h => hD (by rw [h, zero_mul])
  have h1 : c.D = gdet * rho + gdet * dr := by
    simp only [c, Floors.restCons, Floors.p2c_rest _ _ _ _ _ _ _ _ ha]
  have h2 : c.ye = gdet * rho * Y + gdet * dr * (gdet * rho * Y) := by
    simp only [c, Floors.restCons, Floors.p2c_rest _ _ _ _ _ _ _ _ ha, if_true]
  rw [h1, h2]
  constructor
  · intro h
    have : gdet * (dr * (Y * (gdet * rho - 1))) = 0 := by linear_combination h
    rcases mul_eq_zero.1 this with h | h
    · exact absurd h hg
    · rcases mul_eq_zero.1 h with h | h
      · exact Or.inl h
      · rcases mul_eq_zero.1 h with h | h
        · exact Or.inr (Or.inl h)
        · exact Or.inr (Or.inr (by linarith))
  · rintro (h | h | h)
    · rw [h]; ring
    · rw [h]; ring
    · rw [h]; ring

/-! ### Example -/

/-- a periodic mesh of two blocks. -/
def exPer : Mesh := { exMesh with per := fun _ => true }

theorem ex_per : exPer.Tiled exOwn ∧ (∀ d, exPer.per d = true) ∧ exPer.UniformYe (1/2) (fun _ _ i => (i : ℝ) + 1, fun _ _ i => ((i : ℝ) + 1) / 2) ∧
    (∀ k j i, exPer.Has k j i → ((i : ℝ) + 1) ≠ 0) := by
  obtain ⟨h, -, -⟩ := ex_tiled
  refine ⟨⟨h.dim, h.pos, h.inside, h.disj, h.mem⟩, fun _ => rfl, fun k j i _ => by simp only; ring, fun k j i hh => ?_⟩
  have : (0 : ℝ) ≤ i := by exact_mod_cast hh.2.2.1
  positivity

end Phoebus.MeshRun
