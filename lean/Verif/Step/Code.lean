import Verif.Step.Mirror
import Verif.Step.Grids

/-!
# The run with the numerical flux of the code

The run of `Verif/Step` with the fluxes and signal speeds of `Verif/Riemann`: mirror symmetry (C134) and translation (C132) of a fluid with
magnetic field and electron fraction.
-/
namespace Phoebus.Step
open FluxSweep Geom Riemann

/-- slots of the conserved variables in the order of `FluxState`, riemann.hpp:40-60: density, momentum, energy, field, electron fraction. -/
def slot (U : Slots) (m : ℕ) : ℝ :=
  if m = 0 then U.rho else if m = 1 then U.mom 0 else if m = 2 then U.mom 1 else if m = 3 then U.mom 2 else if m = 4 then U.eng
  else if m = 5 then U.B 0 else if m = 6 then U.B 1 else if m = 7 then U.B 2 else if m = 8 then U.ye else 0

/-- face state from the reconstructed primitives: density, velocity, energy, field, electron fraction, pressure, adiabatic index
(`ReconVars`, fluid.cpp:270-286; pressure and index are reconstructed as well). -/
def faceState (v : Fin 11 → ℝ) : FaceState := ⟨v 8, v 10, v 0, v 4, v 9, ![v 1, v 2, v 3], ![v 5, v 6, v 7]⟩

/-- a stage with the flux of the code; the geometry at a face (`geom.Metric` etc. at the face, riemann.hpp:66-80) is a function of the face.
(fluid.cpp:744-771.) -/
noncomputable def codePhys (sol : MeshRun.Solver) (small eps : ℝ) (val : Bool) (L : Fin 3 → Pos → Limits) (Gf : Fin 3 → Pos → ADM ℝ) (gdet gammadet : Fin 3 → Pos → ℝ)
    (P : Phys ℝ 11) : Phys ℝ 11 :=
  { P with
    S := fun d p l r => slot (numFlux sol small eps val (Gf d p) (L d p) (gdet d p) (gammadet d p) d (faceState l) (faceState r))
    sig := fun d p l r => numSpeed sol eps (Gf d p) (L d p) d (faceState l) (faceState r)
    mhd := some 5 }

/-! ### Specification -/

/-- reflection normal to `a`: sign of component `i` of a vector. -/
def refl (a : Fin 3) : Fin 3 → ℝ := fun i => if i = a then -1 else 1

/-- the mirror plane of a fluid: component `a` of velocity, momentum and field change sign. -/
def fluidPlane (a : Fin 3) (s : ℤ) : Plane ℝ 11 :=
  ⟨a, s, ![1, refl a 0, refl a 1, refl a 2, 1, refl a 0, refl a 1, refl a 2, 1, 1, 1],
    fun m => if m = 1 ∨ m = 5 then refl a 0 else if m = 2 ∨ m = 6 then refl a 1 else if m = 3 ∨ m = 7 then refl a 2 else 1⟩

/-- the geometry at mirrored faces is the reflected geometry, with the same floors and ceilings. -/
def MirrorGeometry (a : Fin 3) (s : ℤ) (L : Fin 3 → Pos → Limits) (Gf : Fin 3 → Pos → ADM ℝ) (gdet gammadet : Fin 3 → Pos → ℝ) : Prop :=
  ∀ d p, L d p = L d ((fluidPlane a s).face d p) ∧ Gf d p = mirG (refl a) (Gf d ((fluidPlane a s).face d p)) ∧ gdet d p = gdet d ((fluidPlane a s).face d p) ∧
    gammadet d p = gammadet d ((fluidPlane a s).face d p)

/-! ### Proof -/

theorem refl_signs (a : Fin 3) : Signs (refl a) := fun i => by unfold refl; split_ifs <;> simp

theorem slot_mir (a : Fin 3) (s : ℤ) (U : Slots) (m : ℕ) : slot (mirU (refl a) U) m = (fluidPlane a s).eta m * slot U m := by
  unfold slot mirU fluidPlane
  by_cases h0 : m = 0
  · simp [h0]
  by_cases h1 : m = 1
  · simp [h1]
  by_cases h2 : m = 2
  · simp [h2]
  by_cases h3 : m = 3
  · simp [h3]
  by_cases h4 : m = 4
  · simp [h4]
  by_cases h5 : m = 5
  · simp [h5]
  by_cases h6 : m = 6
  · simp [h6]
  by_cases h7 : m = 7
  · simp [h7]
  by_cases h8 : m = 8
  · simp [h8]
  simp [h0, h1, h2, h3, h4, h5, h6, h7, h8]

theorem slot_scale (t : ℝ) (U : Slots) (m : ℕ) : slot (U.scale t) m = t * slot U m := by
  unfold slot Slots.scale
  simp only [mul_ite, mul_zero]

theorem faceState_mir (a : Fin 3) (s : ℤ) (v : Fin 11 → ℝ) : faceState (fun n => (fluidPlane a s).eps n * v n) = mirS (refl a) (faceState v) := by
  unfold faceState mirS mirQ fluidPlane
  simp only [FaceState.mk.injEq, Rel.Prim.mk.injEq]
  refine ⟨?_, ?_, ?_, ?_, ?_, ?_, ?_⟩
  · simp [Fin.ext_iff, Matrix.cons_val]
  · simp [Matrix.cons_val]
  · simp
  · simp [Matrix.cons_val]
  · simp [Matrix.cons_val]
  · funext i; fin_cases i <;> simp [Matrix.cons_val]
  · funext i; fin_cases i <;> simp [Matrix.cons_val]

/-- **C134 (the code)**: with reconstruction, LLF or HLL flux and constrained transport as in the code, in every geometry that is its own mirror image,
a stage is mirror-symmetric whenever sources, inversion and boundary conditions are. -/
theorem code_symmetric (sol : MeshRun.Solver) (small eps : ℝ) (val : Bool) (L : Fin 3 → Pos → Limits) (Gf : Fin 3 → Pos → ADM ℝ) (gdet gammadet : Fin 3 → Pos → ℝ)
    (P : Phys ℝ 11) (a : Fin 3) (s : ℤ) (nd : ℕ) (ha : a.val < nd) (hG : MirrorGeometry a s L Gf gdet gammadet)
    (hfix : ∀ d p F, P.fix d p F = F)
    (hsrc : ∀ p v m, P.src p (fun n => (fluidPlane a s).eps n * v n) m = (fluidPlane a s).eta m * P.src ((fluidPlane a s).cell p) v m)
    (hinv : ∀ p u, P.inv p (fun m => (fluidPlane a s).eta m * u m) = (fluidPlane a s).val (P.inv ((fluidPlane a s).cell p) u))
    (hmid : ∀ p x, P.mid p ((fluidPlane a s).val x) = (fluidPlane a s).val (P.mid ((fluidPlane a s).cell p) x))
    (hrad : ∀ d p st m, P.rad d p ((fluidPlane a s).around d st) m = (if d = a then -1 else 1) * (fluidPlane a s).eta m * P.rad d ((fluidPlane a s).face d p) st m)
    (hbnd : ∀ p x, P.bnd p ((fluidPlane a s).val x) = (fluidPlane a s).val (P.bnd ((fluidPlane a s).cell p) x)) :
    Symmetric (fluidPlane a s) nd (codePhys sol small eps val L Gf gdet gammadet P) where
  eps := by
    intro n
    have := refl_signs a
    fin_cases n <;> first | exact Or.inl rfl | exact this 0 | exact this 1 | exact this 2
  act := ha
  S_t := by
    intro d hd p l r m
    simp only [codePhys, faceState_mir]
    obtain ⟨e0, e1, e2, e3⟩ := hG d p
    rw [e0, e1, e2, e3, (numFlux_mir (refl_signs a) _ _ sol small eps val _ _ d _ _).1 (if_neg hd), slot_mir a s]
  S_n := by
    intro p l r m
    simp only [codePhys, faceState_mir]
    obtain ⟨e0, e1, e2, e3⟩ := hG a p
    show slot (numFlux sol small eps val (Gf a p) (L a p) (gdet a p) (gammadet a p) a _ _) m = _
    rw [e0, e1, e2, e3, (numFlux_mir (refl_signs a) _ _ sol small eps val _ _ a _ _).2 (if_pos rfl), slot_scale, slot_mir a s, neg_one_mul]
    rfl
  sig_t := by
    intro d hd p l r
    simp only [codePhys, faceState_mir]
    rw [(hG d p).1, (hG d p).2.1, (numSpeed_mir (refl_signs a) _ _ sol eps d _ _).1 (if_neg hd)]
  sig_n := by
    intro p l r
    simp only [codePhys, faceState_mir]
    show numSpeed sol eps (Gf a p) (L a p) a _ _ = _
    rw [(hG a p).1, (hG a p).2.1, (numSpeed_mir (refl_signs a) _ _ sol eps a _ _).2 (if_pos rfl)]
    rfl
  fix_t := by intro d _ p F m; simp only [codePhys, hfix]
  fix_n := by intro p F m; simp only [codePhys, hfix]
  src := hsrc
  inv := hinv
  mid := hmid
  rad := hrad
  bnd := hbnd
  field := by
    intro b0 h c hc
    simp only [codePhys, Option.some.injEq] at h
    subst h
    unfold fluidPlane refl
    change c ≠ a at hc
    fin_cases a <;> fin_cases c <;> first | exact absurd rfl hc | simp

/-- **C132 (the code)**: in a geometry that does not depend on position the stages are homogeneous. -/
theorem code_homogeneous (sol : MeshRun.Solver) (small eps : ℝ) (val : Bool) (L : Fin 3 → Limits) (G0 : Fin 3 → ADM ℝ) (gdet gammadet : Fin 3 → ℝ)
    (P : Phys ℝ 11) (hfix : ∀ d p q F, P.fix d p F = P.fix d q F) (hsrc : ∀ p q v, P.src p v = P.src q v) (hinv : ∀ p q u, P.inv p u = P.inv q u)
    (hmid : ∀ p q x, P.mid p x = P.mid q x) (hrad : ∀ d p q st, P.rad d p st = P.rad d q st) (hbnd : ∀ p x, P.bnd p x = x) :
    Homogeneous (codePhys sol small eps val (fun d _ => L d) (fun d _ => G0 d) (fun d _ => gdet d) (fun d _ => gammadet d) P) :=
  ⟨fun _ _ _ => rfl, fun _ _ _ => rfl, fun d p q => funext fun F => hfix d p q F, fun p q => funext fun v => hsrc p q v, fun p q => funext fun u => hinv p q u,
    fun p q => funext fun x => hmid p q x, fun d p q => funext fun st => hrad d p q st, hbnd⟩

/-! ### Example: flat space -/

/-- a stage in flat space with piecewise linear reconstruction and the LLF flux; for the example pressure and energy follow the density. -/
noncomputable def exFlat : Phys ℝ 11 :=
  codePhys .llf 0 (1/1000) true (fun _ _ => ⟨1/100, 0, 10, 10⟩) (fun _ _ => C2P.flat) (fun _ _ => 1) (fun _ _ => 1)
    ⟨1/2, 0, 0, .linear, fun _ _ _ _ _ => 0, fun _ _ _ _ => 0, fun _ _ F => F, fun _ _ _ => 0,
      fun _ u => (u, ![u 0, u 1, u 2, u 3, u 0, u 5, u 6, u 7, u 8, u 0, 4/3]), fun _ x => x, none, fun _ => 1, fun _ x => x, fun _ _ _ _ => 0⟩

theorem flat_mirror (a : Fin 3) (s : ℤ) : MirrorGeometry a s (fun _ _ => ⟨1/100, 0, 10, 10⟩) (fun _ _ => C2P.flat) (fun _ _ => 1) (fun _ _ => 1) := by
  intro d p
  refine ⟨rfl, ?_, rfl, rfl⟩
  unfold mirG C2P.flat
  simp only [ADM.mk.injEq, mul_zero]
  refine ⟨trivial, trivial, ?_, ?_⟩ <;>
  · funext i j
    by_cases h : i = j
    · subst h
      simp only [if_true, mul_one]
      exact ((refl_signs a).sq i).symm
    · simp [h]

theorem exFlat_symmetric (a : Fin 3) (s : ℤ) : Symmetric (fluidPlane a s) 3 exFlat :=
  code_symmetric _ _ _ _ _ _ _ _ _ a s 3 a.isLt (flat_mirror a s) (fun _ _ _ => rfl) (fun _ _ _ => by simp)
    (fun p u => by
      refine Prod.ext rfl (funext fun n => ?_)
      unfold Plane.val fluidPlane
      fin_cases n <;> simp [Matrix.cons_val])
    (fun _ _ => rfl) (fun _ _ _ _ => by simp) (fun _ _ => rfl)

theorem exFlat_homogeneous : Homogeneous exFlat :=
  code_homogeneous _ _ _ _ _ (fun _ => C2P.flat) (fun _ => 1) (fun _ => 1) _ (fun _ _ _ _ => rfl) (fun _ _ _ => rfl) (fun _ _ _ => rfl) (fun _ _ _ => rfl) (fun _ _ _ _ => rfl) (fun _ _ => rfl)

/-- the local time step of the example does not distinguish the sides. -/
theorem ex_est (a : Fin 3) (s : ℤ) : SymmetricEst (fluidPlane a s) fun _ _ F => 1 / max (max (F 0).1 (F 0).2) 1 := by
  intro p v F
  simp only
  by_cases h : (0 : Fin 3) = (fluidPlane a s).a
  · rw [if_pos h, Prod.fst_swap, Prod.snd_swap, max_comm (F 0).2]
  · rw [if_neg h]

/-- **C134, C130 (concrete)**: a fluid in flat space on a periodic domain, cut into two different sets of blocks: the run of the mirrored data on
the second mesh is the mirror image of the run on the first, for all data, all numbers of steps and all memory contents. -/
theorem flat_mirror_run (nb nx nb' nx' : Fin 3 → ℕ) [∀ d, NeZero (nb d)] [∀ d, NeZero (nb' d)] (hx : ∀ d, 0 < nx d) (hx' : ∀ d, 0 < nx' d)
    (hn : ∀ d, nb d * nx d = nb' d * nx' d) (a : Fin 3) (mem : ℕ → ℕ → ((d : Fin 3) → Fin (nb d)) → Mem ℝ 11)
    (ho : Complete (regular 3 2 nb nx (wrapPeriodic fun d => nb d * nx d)) mem) (mem' : ℕ → ℕ → ((d : Fin 3) → Fin (nb' d)) → Mem ℝ 11)
    (ho' : Complete (regular 3 2 nb' nx' (wrapPeriodic fun d => nb d * nx d)) mem') (ctrl : ℕ → ℝ → Set ℝ → ℝ) (Y : Glob ℝ 11) (dt : ℝ) (k : ℕ) :
    let G := regular 3 2 nb nx (wrapPeriodic fun d => nb d * nx d)
    let G' := regular 3 2 nb' nx' (wrapPeriodic fun d => nb d * nx d)
    let Z := fluidPlane a (nb a * nx a : ℕ)
    let est : Pos → (Fin 11 → ℝ) → (Fin 3 → ℝ × ℝ) → ℝ := fun _ _ F => 1 / max (max (F 0).1 (F 0).2) 1
    let R := run G est ctrl (fun _ _ => [exFlat, exFlat]) mem k ((fun i c => Y.1 fun e => c e + G.off i e, fun i d f => Y.2 d fun e => f e + G.off i e), dt)
    let R' := run G' est ctrl (fun _ _ => [exFlat, exFlat]) mem' k
      ((fun i c => (Z.glob Y).1 fun e => c e + G'.off i e, fun i d f => (Z.glob Y).2 d fun e => f e + G'.off i e), dt)
    (∀ p, Box (fun d => nb d * nx d) p →
      R'.1.1 (G'.own p) (fun e => p e - G'.off (G'.own p) e) = Z.val (R.1.1 (G.own (Z.cell p)) fun e => Z.cell p e - G.off (G.own (Z.cell p)) e)) ∧ R'.2 = R.2 := by
  intro G G' Z est R R'
  have hpos : ∀ d, 0 < nb d * nx d := fun d => Nat.mul_pos (Nat.pos_of_ne_zero (NeZero.ne _)) (hx d)
  have hwb := wrapPeriodic_box _ hpos
  have T := regular_tiles 3 2 nb nx hx (fun d hd => absurd hd (by have := d.isLt; omega)) _ hwb
  have hnn : (fun d => nb' d * nx' d) = fun d => nb d * nx d := funext fun d => (hn d).symm
  have T' := regular_tiles 3 2 nb' nx' hx' (fun d hd => absurd hd (by have := d.isLt; omega)) (wrapPeriodic fun d => nb d * nx d) (by rw [hnn]; exact hwb)
  rw [hnn] at T'
  have hm := fun p => wraps_mirror (fun d => nb d * nx d) hpos a Z.eps Z.eta p
  have key := run_mirror G G' Z 3 a.isLt 2 _ (fun p => (hm p).1) T T' rfl (fun p => (hm p).2.1) est (ex_est a _) ctrl (fun _ _ => [exFlat, exFlat])
    (fun _ _ P hP => by
      have : P = exFlat := by simpa using hP
      rw [this]; exact exFlat_symmetric a _) (by norm_num)
    (fun _ _ P hP => by
      have : P = exFlat := by simpa using hP
      rw [this]; decide) mem ho mem' ho'
    (fun i c => Y.1 fun e => c e + G.off i e, fun i d f => Y.2 d fun e => f e + G.off i e)
    (fun i c => (Z.glob Y).1 fun e => c e + G'.off i e, fun i d f => (Z.glob Y).2 d fun e => f e + G'.off i e) Y dt ⟨fun i c _ => rfl, fun i d f _ => rfl⟩ ⟨fun i c _ => rfl, fun i d f _ => rfl⟩ k
  refine ⟨fun p hp => ?_, key.2⟩
  refine key.1 (G.own (Z.cell p)) (G'.own p) _ _ (T.owned _ ((hm p).1.2 hp)) (T'.owned p hp) ?_
  have e1 : (fun e => p e - G'.off (G'.own p) e + G'.off (G'.own p) e) = p := funext fun e => by ring
  have e2 : (fun e => Z.cell p e - G.off (G.own (Z.cell p)) e + G.off (G.own (Z.cell p)) e) = Z.cell p := funext fun e => by ring
  rw [e1, e2]

end Phoebus.Step
