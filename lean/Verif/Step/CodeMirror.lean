import Verif.Step.UnitsRun
import Verif.C2P.Mirror

/-!
# C134 with the fluxes, sources, inversion and time steps of the code
-/
namespace Phoebus.Step
open Finset FluxSweep Geom Riemann Sources GeomUtils Robust

/-! ### Specification -/

/-- signs of spacetime components under the reflection normal to `a`. -/
def refl4 (a : Fin 3) : Fin 4 → ℝ := Fin.cons 1 (refl a)

/-- the geometry of the cells and the bounds of the inversion are their own mirror images. -/
def MirrorCells (a : Fin 3) (s : ℤ) (C : CellGeom) (I : InvData) : Prop :=
  ∀ p, let p' := (fluidPlane a s).cell p
    C.G p = mirG (refl a) (C.G p') ∧ C.gdet p = C.gdet p' ∧ (∀ i j k, C.dg p i j k = refl4 a i * refl4 a j * refl4 a k * C.dg p' i j k) ∧
      (∀ i, C.da p i = refl4 a i * C.da p' i) ∧ I.b p = I.b p'

/-! ### Proof -/

theorem refl4_sq (a : Fin 3) (c : Fin 4) : refl4 a c * refl4 a c = 1 := by
  refine Fin.cases ?_ (fun i => ?_) c
  · simp [refl4]
  · exact (refl_signs a).sq i

theorem refl4_zero (a : Fin 3) : refl4 a 0 = 1 := rfl

theorem refl4_succ (a i : Fin 3) : refl4 a i.succ = refl a i := rfl

theorem g4Inv_mir (a : Fin 3) (G : ADM ℝ) (c d : Fin 4) : (mirG (refl a) G).g4Inv c d = refl4 a c * refl4 a d * G.g4Inv c d := by
  refine Fin.cases ?_ (fun i => ?_) c <;> refine Fin.cases ?_ (fun j => ?_) d
  · rw [refl4_zero, one_mul, one_mul]; rfl
  · rw [refl4_zero, refl4_succ, one_mul]
    show (mirG (refl a) G).beta j / _ = _ * (G.beta j / _)
    simp only [mirG]; ring
  · rw [refl4_zero, refl4_succ, mul_one]
    show (mirG (refl a) G).beta i / _ = _ * (G.beta i / _)
    simp only [mirG]; ring
  · rw [refl4_succ, refl4_succ]
    show (mirG (refl a) G).gamInv i j - (mirG (refl a) G).beta i * (mirG (refl a) G).beta j / _ = _ * (G.gamInv i j - G.beta i * G.beta j / _)
    simp only [mirG]; ring

/-- the stress-energy tensor of the reflected state. -/
theorem tmunu_mir (a : Fin 3) (small : ℝ) (G : ADM ℝ) (q : Rel.Prim) (c d : Fin 4) :
    Rel.tmunu small (mirG (refl a) G) (mirQ (refl a) q) c d = refl4 a c * refl4 a d * Rel.tmunu small G q c d := by
  have h := refl_signs a
  have hW : Rel.lorentz (mirG (refl a) G).gam (mirQ (refl a) q).v = Rel.lorentz G.gam q.v := lorentz_mir h G q.v
  have hq : ∀ (x y : Fin 3 → ℝ), ∑ i, ∑ j, refl a i * x i * (refl a j * y j) * (refl a i * refl a j * G.gam i j) = ∑ i, ∑ j, x i * y j * G.gam i j := by
    intro x y
    refine sum_congr rfl fun i _ => sum_congr rfl fun j _ => ?_
    linear_combination (G.gam i j * x i * y j * (refl a j * refl a j)) * h.sq i + (G.gam i j * x i * y j) * h.sq j
  have hBv : Rel.tBdotv (mirG (refl a) G) (mirQ (refl a) q) = Rel.tBdotv G q := by
    unfold Rel.tBdotv
    rw [hW, ← hq q.B (fun j => q.v j / Rel.lorentz G.gam q.v)]
    exact sum_congr rfl fun i _ => sum_congr rfl fun j _ => by simp only [mirG, mirQ]; ring
  have hBB : Rel.tBsq (mirG (refl a) G) (mirQ (refl a) q) = Rel.tBsq G q := by
    unfold Rel.tBsq
    rw [← hq q.B q.B]
    exact sum_congr rfl fun i _ => sum_congr rfl fun j _ => by simp only [mirG, mirQ]
  have hU : ∀ c, Rel.tU small (mirG (refl a) G) (mirQ (refl a) q) c = refl4 a c * Rel.tU small G q c := by
    intro c
    unfold Rel.tU
    rw [hW]
    refine Fin.cases ?_ (fun i => ?_) c
    · rw [refl4_zero, one_mul]; rfl
    · rw [refl4_succ]; simp only [Fin.cons_succ, mirG, mirQ]; ring
  have hb : ∀ c, Rel.tB small (mirG (refl a) G) (mirQ (refl a) q) c = refl4 a c * Rel.tB small G q c := by
    intro c
    unfold Rel.tB
    simp only [hW, hU, hBv, refl4_zero, one_mul]
    refine Fin.cases ?_ (fun i => ?_) c
    · simp only [Fin.cons_zero, refl4_zero, one_mul]
    · simp only [Fin.cons_succ, refl4_succ]; simp only [mirG, mirQ]; ring
  have hb2 : Rel.tbsq small (mirG (refl a) G) (mirQ (refl a) q) = Rel.tbsq small G q := by
    unfold Rel.tbsq
    rw [hW, hBv, hBB]
  unfold Rel.tmunu
  simp only [hU, hb, hb2, g4Inv_mir]
  simp only [mirQ]; ring

theorem connection_mir (a : Fin 3) (dg dg' : Fin 4 → Fin 4 → Fin 4 → ℝ) (h : ∀ i j k, dg i j k = refl4 a i * refl4 a j * refl4 a k * dg' i j k) (i j k : Fin 4) :
    connection dg i j k = refl4 a i * refl4 a j * refl4 a k * connection dg' i j k := by
  unfold connection
  simp only [h]
  ring

theorem fluidSrc_mir (a : Fin 3) (s : ℤ) (val : Bool) (small : ℝ) (C : CellGeom) (I : InvData) (hC : MirrorCells a s C I) (p : Pos) (v : Fin 11 → ℝ) (m : ℕ) :
    fluidSrc val small C p (fun n => (fluidPlane a s).eps n * v n) m = (fluidPlane a s).eta m * fluidSrc val small C ((fluidPlane a s).cell p) v m := by
  obtain ⟨hG, hg, hd, hda, -⟩ := hC p
  set p' := (fluidPlane a s).cell p with hp'
  set T := Rel.tmunu small (C.G p') (faceState v).q with hT
  have hT' : Rel.tmunu small (C.G p) (faceState fun n => (fluidPlane a s).eps n * v n).q = fun i j => refl4 a i * refl4 a j * T i j := by
    funext i j
    rw [faceState_mir, hG]
    exact tmunu_mir a small _ _ i j
  have hc := connection_mir a _ _ hd
  have sq := refl4_sq a
  have hmom : ∀ l : Fin 3, momentumSource (C.gdet p) (C.dg p) (fun i j => refl4 a i * refl4 a j * T i j) l = refl a l * momentumSource (C.gdet p') (C.dg p') T l := by
    intro l
    unfold momentumSource
    simp only [hc, hd, hg]
    rw [mul_left_comm]
    congr 1
    rw [mul_sum]
    refine sum_congr rfl fun i _ => ?_
    rw [mul_sum]
    refine sum_congr rfl fun j _ => ?_
    rw [refl4_succ]
    linear_combination (refl a l * T i j * (C.dg p' j l.succ i - connection (C.dg p') l.succ j i) * (refl4 a j * refl4 a j)) * sq i +
      (refl a l * T i j * (C.dg p' j l.succ i - connection (C.dg p') l.succ j i)) * sq j
  have hcov : energySourceCovariant (C.gdet p) (C.dg p) (fun i j => refl4 a i * refl4 a j * T i j) = energySourceCovariant (C.gdet p') (C.dg p') T := by
    unfold energySourceCovariant
    simp only [hc, hg]
    congr 1
    refine sum_congr rfl fun i _ => sum_congr rfl fun j _ => ?_
    rw [refl4_zero]
    linear_combination (T i j * connection (C.dg p') j 0 i * (refl4 a j * refl4 a j)) * sq i + (T i j * connection (C.dg p') j 0 i) * sq j
  have hg0 : ∀ r, gcon0 small (C.G p) r = refl4 a r * gcon0 small (C.G p') r := by
    intro r
    rw [hG]
    refine Fin.cases ?_ (fun i => ?_) r
    · rw [refl4_zero, one_mul]; rfl
    · rw [refl4_succ]
      simp only [gcon0, Fin.cons_succ, mirG, ratio]
      ring
  have hval : energySourceValencia small (C.G p) (C.gdet p) (C.dg p) (C.da p) (fun i j => refl4 a i * refl4 a j * T i j) =
      energySourceValencia small (C.G p') (C.gdet p') (C.dg p') (C.da p') T := by
    unfold energySourceValencia
    simp only [hg0]
    have h1 : ∑ m, ∑ n, refl4 a m * refl4 a n * T m n * ∑ r, refl4 a r * gcon0 small (C.G p') r * connection (C.dg p) r m n =
        ∑ m, ∑ n, T m n * ∑ r, gcon0 small (C.G p') r * connection (C.dg p') r m n := by
      refine sum_congr rfl fun i _ => sum_congr rfl fun j _ => ?_
      have : ∑ r, refl4 a r * gcon0 small (C.G p') r * connection (C.dg p) r i j = refl4 a i * refl4 a j * ∑ r, gcon0 small (C.G p') r * connection (C.dg p') r i j := by
        rw [mul_sum]
        refine sum_congr rfl fun r _ => ?_
        rw [hc]
        linear_combination (gcon0 small (C.G p') r * connection (C.dg p') r i j * refl4 a i * refl4 a j) * sq r
      rw [this]
      generalize ∑ r, gcon0 small (C.G p') r * connection (C.dg p') r i j = S
      linear_combination (T i j * S * (refl4 a j * refl4 a j)) * sq i + (T i j * S) * sq j
    have h2 : ∑ m, refl4 a m * refl4 a 0 * T m 0 * C.da p m = ∑ m, T m 0 * C.da p' m := by
      refine sum_congr rfl fun i _ => ?_
      rw [hda, refl4_zero]
      linear_combination (T i 0 * C.da p' i) * sq i
    rw [h1, h2, hG, hg]
    rfl
  unfold fluidSrc
  rw [hT']
  simp only [hmom, hcov, hval]
  unfold fluidPlane
  by_cases h1 : m = 1
  · subst h1; simp [hT]
  by_cases h2 : m = 2
  · subst h2; simp [hT]
  by_cases h3 : m = 3
  · subst h3; simp [hT]
  by_cases h4 : m = 4
  · subst h4; simp [hT]
  simp [h1, h2, h3, h4]

theorem codeInv_mir (a : Fin 3) (s : ℤ) (C : CellGeom) (I : InvData) (hC : MirrorCells a s C I) (p : Pos) (u : ℕ → ℝ) :
    codeInv I C p (fun m => (fluidPlane a s).eta m * u m) = (fluidPlane a s).val (codeInv I C ((fluidPlane a s).cell p) u) := by
  obtain ⟨hG, hg, -, -, hb⟩ := hC p
  set p' := (fluidPlane a s).cell p with hp'
  have key := fun mu => C2P.c2p_mir (refl_signs a) I.val true true I.failF I.failC I.small I.eps I.eos (C.G p') (C.gdet p') (I.b p') (consOf u) I.tol I.guess I.iter mu
  have hc : consOf (fun m => (fluidPlane a s).eta m * u m) = C2P.mirC (refl a) (consOf u) := by
    unfold consOf C2P.mirC fluidPlane
    simp only [Rel.Cons.mk.injEq]
    refine ⟨by simp, ?_, ?_, by simp, by simp⟩ <;>
    · funext i; fin_cases i <;> simp
  unfold codeInv
  simp only [hc, hG, hg, hb, (key 0).1, (key _).2]
  generalize C2P.unwrap I.val true true I.failF I.failC I.small I.eos (C.G p') (C.gdet p') (I.b p') (consOf u) _ = o
  refine Prod.ext ?_ ?_
  · funext m
    simp only [Plane.val, C2P.mirO]
    unfold toSlots C2P.mirC fluidPlane
    by_cases h0 : m = 0
    · simp [h0]
    by_cases h1 : m = 1
    · simp [h1]
    by_cases h2 : m = 2
    · simp [h2]
    by_cases h3 : m = 3
    · simp [h3]
    by_cases h4 : m = 4
    · simp [h4]
    by_cases h5 : m = 5
    · simp [h5]
    by_cases h6 : m = 6
    · simp [h6]
    by_cases h7 : m = 7
    · simp [h7]
    by_cases h8 : m = 8
    · simp [h8]
    simp [h0, h1, h2, h3, h4, h5, h6, h7, h8]
  · funext n
    unfold Plane.val fluidPlane
    fin_cases n <;> simp [C2P.mirO, mirQ, Matrix.cons_val]

/-- **C134 (the code)**: reconstruction, LLF or HLL flux, constrained transport, geometric sources and inversion as in the code are mirror-symmetric in every geometry
that is its own mirror image. -/
theorem whole_symmetric (D : Setup) (P : Phys ℝ 11) (a : Fin 3) (s : ℤ) (nd : ℕ) (ha : a.val < nd) (hG : MirrorGeometry a s D.L D.Gf D.gdet D.gammadet)
    (hC : MirrorCells a s D.C D.I) (hfix : ∀ d p F, P.fix d p F = F) (hmid : ∀ p x, P.mid p x = x) (hrad : ∀ d p st m, P.rad d p st m = 0)
    (hbnd : ∀ p x, P.bnd p x = x) :
    Symmetric (fluidPlane a s) nd (wholePhys D.sol D.small D.eps D.val D.L D.Gf D.gdet D.gammadet D.C D.I P) :=
  code_symmetric D.sol D.small D.eps D.val D.L D.Gf D.gdet D.gammadet { P with src := fluidSrc D.val D.small D.C, inv := codeInv D.I D.C } a s nd ha hG hfix
    (fluidSrc_mir a s D.val D.small D.C D.I hC) (codeInv_mir a s D.C D.I hC) (fun p x => by
      show P.mid p _ = (fluidPlane a s).val (P.mid _ x)
      rw [hmid, hmid]) (fun d p st m => by
      show P.rad d p _ m = _ * P.rad d _ st m
      rw [hrad, hrad, mul_zero]) (fun p x => by
      show P.bnd p _ = (fluidPlane a s).val (P.bnd _ x)
      rw [hbnd, hbnd])

theorem cellSpeed_mir (a : Fin 3) (s : ℤ) (G : ADM ℝ) (v : Fin 11 → ℝ) (d : Fin 3) :
    cellSpeed (mirG (refl a) G) (fun n => (fluidPlane a s).eps n * v n) d = cellSpeed G v d := by
  have h := refl_signs a
  unfold cellSpeed
  have h10 : (fluidPlane a s).eps 10 * v 10 = v 10 := by simp [fluidPlane, Matrix.cons_val]
  have hq : (faceState fun n => (fluidPlane a s).eps n * v n).q = mirQ (refl a) (faceState v).q := by rw [faceState_mir]; rfl
  simp only [hq, C2P.pv_mir h, C2P.pbsq_mir h, h10]
  have e1 : ∑ i, ∑ j, (mirG (refl a) G).gam i j * (refl a i * Rel.pv G (faceState v).q i) * (refl a j * Rel.pv G (faceState v).q j) =
      ∑ i, ∑ j, G.gam i j * Rel.pv G (faceState v).q i * Rel.pv G (faceState v).q j := quad_mir h _ _ _
  rw [e1]
  have e2 : ∀ vsq w c, Timestep.signalSpeed G.alpha (refl a d * G.beta d) (refl a d * refl a d * G.gamInv d d) vsq (refl a d * w) c =
      Timestep.signalSpeed G.alpha (G.beta d) (G.gamInv d d) vsq w c := by
    intro vsq w c
    rw [h.sq d, one_mul]
    rcases h d with e | e
    · rw [e, one_mul, one_mul]
    · rw [e]
      unfold Timestep.signalSpeed
      have one : (1.0 : ℝ) = 1 := by norm_num
      simp only [neg_one_mul, neg_mul_neg, one]
      rw [max_comm]
      congr 1
      · rw [← abs_neg]; refine congrArg _ ?_; ring
      · rw [← abs_neg]; refine congrArg _ ?_; ring
  exact e2 _ _ _

theorem codeEst_symmetric (a : Fin 3) (s : ℤ) (nd : ℕ) (tiny : ℝ) (dx : Fin 3 → ℝ) (C : CellGeom) (I : InvData) (hC : MirrorCells a s C I) :
    SymmetricEst (fluidPlane a s) (codeEst nd tiny dx C.G) := by
  intro p v F
  unfold codeEst
  rw [(hC p).1]
  simp only [cellSpeed_mir]
  congr 2
  refine sum_congr rfl fun d _ => ?_
  congr 2
  split_ifs
  · rw [Prod.fst_swap, Prod.snd_swap, max_comm]
  · rfl

/-- **C134**: a periodic or outflow domain in a mirror-symmetric geometry, cut into any two regular sets of blocks: the code's run of the mirrored data is the mirror
image of the code's run, after any number of steps and for all memory contents, with the same time steps. -/
theorem mirror_code_run (nd : ℕ) (a : Fin 3) (ha : a.val < nd) (g : ℕ) (nb nx nb' nx' : Fin 3 → ℕ) [∀ d, NeZero (nb d)] [∀ d, NeZero (nb' d)]
    (hx : ∀ d, 0 < nx d) (hx' : ∀ d, 0 < nx' d) (hd : ∀ d : Fin 3, nd ≤ d.val → nb d = 1 ∧ nx d = 1) (hd' : ∀ d : Fin 3, nd ≤ d.val → nb' d = 1 ∧ nx' d = 1)
    (hn : ∀ d, nb' d * nx' d = nb d * nx d) (per : Bool) (D : Setup) (base : List (Phys ℝ 11)) (dx : Fin 3 → ℝ) (tiny cfl grow : ℝ)
    (hG : MirrorGeometry a (nb a * nx a : ℕ) D.L D.Gf D.gdet D.gammadet) (hC : MirrorCells a (nb a * nx a : ℕ) D.C D.I)
    (hb : ∀ P ∈ base, (∀ d p F, P.fix d p F = F) ∧ (∀ p x, P.mid p x = x) ∧ (∀ d p st m, P.rad d p st m = 0) ∧ (∀ p x, P.bnd p x = x) ∧ 1 + radius P.rt ≤ g)
    (mem : ℕ → ℕ → ((d : Fin 3) → Fin (nb d)) → Mem ℝ 11) (mem' : ℕ → ℕ → ((d : Fin 3) → Fin (nb' d)) → Mem ℝ 11) :
    let W := fun n : Fin 3 → ℕ => if per then wrapPeriodic n else wrapNearest n
    let G := regular nd g nb nx (W fun d => nb d * nx d)
    let G' := regular nd g nb' nx' (W fun d => nb d * nx d)
    let Z := fluidPlane a (nb a * nx a : ℕ)
    Complete G mem → Complete G' mem' → ∀ (Y : Glob ℝ 11) (dt : ℝ) (k : ℕ),
    let R := run G (codeEst nd tiny dx D.C.G) (codeCtrl cfl grow) (fun _ _ => D.stages base) mem k (load G Y, dt)
    let R' := run G' (codeEst nd tiny dx D.C.G) (codeCtrl cfl grow) (fun _ _ => D.stages base) mem' k (load G' (Z.glob Y), dt)
    (∀ p, Box (fun d => nb d * nx d) p → read G' R'.1 p = Z.val (read G R.1 (Z.cell p))) ∧ R'.2 = R.2 := by
  intro W G G' Z ho ho' Y dt k R R'
  have hpos : ∀ d, 0 < nb d * nx d := fun d => Nat.mul_pos (Nat.pos_of_ne_zero (NeZero.ne _)) (hx d)
  have hW : (∀ p, Box (fun d => nb d * nx d) (W (fun d => nb d * nx d) p)) ∧ ∀ p, Box (fun d => nb d * nx d) p → W (fun d => nb d * nx d) p = p := by
    by_cases hp : per
    · simp only [W, hp, if_true]; exact wrapPeriodic_box _ hpos
    · simp only [W, hp, Bool.false_eq_true, if_false]; exact wrapNearest_box _ hpos
  have hnn : (fun d => nb' d * nx' d) = fun d => nb d * nx d := funext hn
  have T := regular_tiles nd g nb nx hx hd _ hW
  have T' := regular_tiles nd g nb' nx' hx' hd' (W fun d => nb d * nx d) (by rw [hnn]; exact hW)
  rw [hnn] at T'
  have hm := fun p => wraps_mirror (fun d => nb d * nx d) hpos a Z.eps Z.eta p
  have key := run_mirror G G' Z nd ha g _ (fun p => (hm p).1) T T' rfl
    (fun p => by
      show W _ (Z.cell p) = Z.cell (W _ p)
      by_cases hp : per
      · simp only [W, hp, if_true]; exact (hm p).2.1
      · simp only [W, hp, Bool.false_eq_true, if_false]; exact (hm p).2.2)
    (codeEst nd tiny dx D.C.G) (codeEst_symmetric a _ nd tiny dx D.C D.I hC) (codeCtrl cfl grow) (fun _ _ => D.stages base)
    (fun _ _ Q hQ => by
      obtain ⟨P, hP, rfl⟩ := List.mem_map.1 hQ
      exact whole_symmetric D P a _ nd ha hG hC (hb P hP).1 (hb P hP).2.1 (hb P hP).2.2.1 (hb P hP).2.2.2.1) (by omega)
    (fun _ _ Q hQ => by
      obtain ⟨P, hP, rfl⟩ := List.mem_map.1 hQ
      exact (hb P hP).2.2.2.2) mem ho mem' ho' (load G Y) (load G' (Z.glob Y)) Y dt ⟨fun i c _ => rfl, fun i d f _ => rfl⟩ ⟨fun i c _ => rfl, fun i d f _ => rfl⟩ k
  refine ⟨fun p hp => ?_, key.2⟩
  refine key.1 (G.own (Z.cell p)) (G'.own p) _ _ (T.owned _ ((hm p).1.2 hp)) (T'.owned p hp) ?_
  have e1 : (fun e => p e - G'.off (G'.own p) e + G'.off (G'.own p) e) = p := funext fun e => by ring
  have e2 : (fun e => Z.cell p e - G.off (G.own (Z.cell p)) e + G.off (G.own (Z.cell p)) e) = Z.cell p := funext fun e => by ring
  rw [e1, e2]

/-! ### Example -/

/-- the potential of the example is its own mirror image about the middle of four cells: it rises in the first two cells and falls in the last two. -/
theorem ex_mirror_cells : MirrorCells 0 4 exCell exSetup.I ∧ MirrorGeometry 0 4 exSetup.L exSetup.Gf exSetup.gdet exSetup.gammadet := by
  refine ⟨fun p => ⟨?_, rfl, ?_, ?_, rfl⟩, flat_mirror 0 4⟩
  · exact (flat_mirror 0 4 0 p).2.1
  · intro i j k
    simp only [exCell]
    by_cases h : i = 0 ∧ j = 0 ∧ k = 1
    · obtain ⟨rfl, rfl, rfl⟩ := h
      have e : refl4 0 1 = -1 := rfl
      have hh : (0 : Fin 4) = 0 ∧ (0 : Fin 4) = 0 ∧ (1 : Fin 4) = 1 := ⟨rfl, rfl, rfl⟩
      rw [if_pos hh, if_pos hh, refl4_zero, e]
      have : ((fluidPlane 0 4).cell p 0) = 3 - p 0 := by simp [Plane.cell, fluidPlane]
      rw [this]
      by_cases h2 : p 0 % 4 < 2
      · rw [if_pos h2, if_neg (by omega)]; norm_num
      · rw [if_neg h2, if_pos (by omega)]; norm_num
    · rw [if_neg h, if_neg h, mul_zero]
  · intro i; simp [exCell]

end Phoebus.Step
