import Verif.Step.Fixup
import Verif.Step.Grids

/-!
# C135: repaired cells and the decomposition of the mesh
-/
namespace Phoebus.Step
open FluxSweep
variable {K : Type} [Field K] [LinearOrder K] {N : ℕ}

/-! ### Specification: the scheme with repair on one global array -/

/-- the valid face neighbours of the cell at `p`; neighbours outside the domain are represented by the cells whose values are used there. -/
def refAround (nd : ℕ) (wrap : Pos → Pos) (R : Pos → Cell K N × Bool) (p : Pos) : Fin 3 → Option (Cell K N) × Option (Cell K N) := fun d =>
  if d.val < nd then (valid (R (wrap fun e => p e - unit d e)), valid (R (wrap fun e => p e + unit d e))) else (none, none)

/-- invert every cell, repair the failed ones from their neighbours, apply floors. -/
def refPass (nd : ℕ) (wrap : Pos → Pos) (F : Fix K N) (U : Pos → ℕ → K) : Fields K N := fun p =>
  let R : Pos → Cell K N × Bool := fun p => F.inv p (U p) fun _ => 0
  F.floor p (if (R p).2 = false then F.mend p (R p).1 (refAround nd wrap R p) else (R p).1)

/-- conserved variables after the update. -/
noncomputable def refCons (nd : ℕ) (P : Phys K N) (dt : K) (base cur : Fields K N) : Pos → ℕ → K := fun p m =>
  P.beta * (cur p).1 m + (1 - P.beta) * (base p).1 m + P.beta * dt * (refDiv nd P.dx (refAll nd P cur) m p + P.src p (cur p).2 m)

/-- conserved variables after exchange and boundary conditions. -/
def refShared (wrap : Pos → Pos) (P : Phys K N) (A : Fields K N) : Pos → ℕ → K := fun p => (if wrap p = p then A p else P.bnd p (A (wrap p))).1

/-- stage on the global array. -/
noncomputable def refFixStage (nd : ℕ) (wrap : Pos → Pos) (dt : K) (base : Fields K N) (cur : Glob K N) (s : Phys K N × Fix K N) : Glob K N :=
  (refPass nd wrap s.2 (refShared wrap s.1 (refPass nd wrap s.2 (refCons nd s.1 dt base cur.1))), refSpeed s.1 cur.1)

/-- step on the global array. -/
noncomputable def refFixStep (nd : ℕ) (wrap : Pos → Pos) (dt : K) (sts : List (Phys K N × Fix K N)) (X : Glob K N) : Glob K N :=
  sts.foldl (refFixStage nd wrap dt X.1) X

/-- run on the global array. -/
noncomputable def refFixRun (nd : ℕ) (Dom : Pos → Prop) (wrap : Pos → Pos) (est : Pos → (Fin N → K) → (Fin 3 → K × K) → K) (ctrl : ℕ → K → Set K → K)
    (prog : ℕ → K → List (Phys K N × Fix K N)) : ℕ → Glob K N × K → Glob K N × K
  | 0, s => s
  | n + 1, s =>
    let r := refFixRun nd Dom wrap est ctrl prog n s
    let X := refFixStep nd wrap r.2 (prog n r.2) r.1
    (X, ctrl n r.2 (refEstimates nd Dom est X))

/-- the result of the inversion does not depend on what was stored in the cell. -/
def Guessless (F : Fix K N) : Prop := ∀ p u v v', F.inv p u v = F.inv p u v'

/-- no face neighbour of the cell at `p` lies in another block. -/
def Deep {B : Type} (G : Grid B) (p : Pos) : Prop := ∀ i c, (G.shape i).Interior c → (fun e => c e + G.off i e) = p →
  ∀ d, (G.shape i).act d → (G.shape i).Interior (fun e => c e - unit d e) ∧ (G.shape i).Interior fun e => c e + unit d e

/-- in this stage the inversion fails after the update only in cells away from the sides of blocks, and after the exchange nowhere. -/
def Calm {B : Type} (G : Grid B) (nd : ℕ) (Dom : Pos → Prop) (dt : K) (base cur : Fields K N) (s : Phys K N × Fix K N) : Prop :=
  (∀ p, Dom p → (s.2.inv p (refCons nd s.1 dt base cur p) fun _ => 0).2 = false → Deep G p) ∧
  ∀ p, (s.2.inv p (refShared G.wrap s.1 (refPass nd G.wrap s.2 (refCons nd s.1 dt base cur)) p) fun _ => 0).2 = true

/-- all stages of a step are calm. -/
def CalmStep {B : Type} (G : Grid B) (nd : ℕ) (Dom : Pos → Prop) (dt : K) (base : Fields K N) : Glob K N → List (Phys K N × Fix K N) → Prop
  | _, [] => True
  | cur, s :: l => Calm G nd Dom dt base cur.1 s ∧ CalmStep G nd Dom dt base (refFixStage nd G.wrap dt base cur s) l

/-- all steps are calm. -/
def CalmRun {B : Type} (G : Grid B) (nd : ℕ) (Dom : Pos → Prop) (est : Pos → (Fin N → K) → (Fin 3 → K × K) → K) (ctrl : ℕ → K → Set K → K)
    (prog : ℕ → K → List (Phys K N × Fix K N)) (n : ℕ) (s : Glob K N × K) : Prop :=
  ∀ k < n, let r := refFixRun nd Dom G.wrap est ctrl prog k s
    CalmStep G nd Dom r.2 r.1.1 r.1 (prog k r.2)

/-! ### Proof -/

theorem pass_ok (F : Fix K N) (b : Blk) (off : Pos) (X : Fields K N) (c : Pos) (h : (F.inv (fun e => c e + off e) (X c).1 (X c).2).2 = true) :
    pass F b off X c = F.floor (fun e => c e + off e) (F.inv (fun e => c e + off e) (X c).1 (X c).2).1 := by
  unfold pass
  simp only [h, Bool.true_eq_false, and_false, if_false]

theorem refPass_ok (nd : ℕ) (wrap : Pos → Pos) (F : Fix K N) (U : Pos → ℕ → K) (p : Pos) (h : (F.inv p (U p) fun _ => 0).2 = true) :
    refPass nd wrap F U p = F.floor p (F.inv p (U p) fun _ => 0).1 := by
  unfold refPass
  simp only [h, Bool.true_eq_false, if_false]

/-- **C135 (one stage)**. -/
theorem fixStage_holds {B : Type} (G : Grid B) (nd : ℕ) (g : ℤ) (Dom : Pos → Prop) (hT : Tiles G nd g Dom) (dt : K) (base cur : Mesh K N B) (base' cur' : Glob K N)
    (s : FixStage K N B) (hF : Guessless s.fix) (hg : 1 + radius s.phys.rt ≤ g) (ho : ∀ i, Covers (G.shape i) (s.mem i).order)
    (hb : Holds G base base') (hc : Holds G cur cur') (hC : Calm G nd Dom dt base'.1 cur'.1 (s.phys, s.fix)) :
    Holds G (fixStage G dt base.1 cur s) (refFixStage nd G.wrap dt base'.1 cur' (s.phys, s.fix)) := by
  classical
  have hr : 0 ≤ radius s.phys.rt := by cases s.phys.rt <;> simp [radius]
  have cons : ∀ i c, (G.shape i).Interior c →
      (fun m => s.phys.beta * (cur.1 i c).1 m + (1 - s.phys.beta) * (base.1 i c).1 m + s.phys.beta * dt *
        (rate s.phys.dx (G.shape i) (blockFlux s.phys (G.shape i) (G.off i) (s.mem i) (cur.1 i)) m c + s.phys.src (fun e => c e + G.off i e) (cur.1 i c).2 m)) =
      refCons nd s.phys dt base'.1 cur'.1 fun e => c e + G.off i e := by
    intro i c h
    have he := interior_entire (G.shape i) (by rw [hT.ghosts]; omega) c h
    funext m
    unfold refCons
    rw [rate_global s.phys (G.shape i) (by rw [hT.ghosts]; exact hg) (G.off i) (s.mem i) (ho i) (cur.1 i) cur'.1 (hc.1 i) m c h, hb.1 i c he, hc.1 i c he, hT.ndim i]
  have upd : ∀ i c, (G.shape i).Interior c →
      fixUpdate s.phys s.fix dt (G.shape i) (G.off i) (s.mem i) (s.ghost i) (base.1 i) (cur.1 i) c =
        refPass nd G.wrap s.fix (refCons nd s.phys dt base'.1 cur'.1) fun e => c e + G.off i e := by
    intro i c h
    unfold fixUpdate pass refPass
    simp only [h, if_true, true_and]
    rw [cons i c h, hF _ _ (cur.1 i c).2 fun _ => 0]
    by_cases hf : (s.fix.inv (fun e => c e + G.off i e) (refCons nd s.phys dt base'.1 cur'.1 fun e => c e + G.off i e) fun _ => 0).2 = false
    · rw [if_pos hf, if_pos hf]
      have hd := hC.1 _ (hT.inside i c h) hf i c h rfl
      congr 2
      funext d
      unfold around refAround
      have hn := hT.ndim i
      by_cases ha : (G.shape i).act d
      · have ha' : d.val < nd := by rw [← hn]; exact ha
        obtain ⟨h1, h2⟩ := hd d ha
        rw [if_pos ha, if_pos ha']
        simp only [h1, h2, if_true]
        have e1 := hT.fixed _ (hT.inside i _ h1)
        have e2 := hT.fixed _ (hT.inside i _ h2)
        have p1 : (fun e => c e - unit d e + G.off i e) = fun e => c e + G.off i e - unit d e := by funext e; ring
        have p2 : (fun e => c e + unit d e + G.off i e) = fun e => c e + G.off i e + unit d e := by funext e; ring
        rw [p1] at e1; rw [p2] at e2
        rw [cons i _ h1, cons i _ h2, p1, p2, e1, e2, hF _ _ (cur.1 i fun e => c e - unit d e).2 fun _ => 0, hF _ _ (cur.1 i fun e => c e + unit d e).2 fun _ => 0]
      · have ha' : ¬ d.val < nd := by rw [← hn]; exact ha
        rw [if_neg ha, if_neg ha']
    · rw [if_neg hf, if_neg hf]
  refine ⟨fun i c h => ?_, fun i d f hu => ?_⟩
  · have hx : ((if (G.shape i).Interior c then fixUpdate s.phys s.fix dt (G.shape i) (G.off i) (s.mem i) (s.ghost i) (base.1 i) (cur.1 i) c
        else if G.wrap (fun e => c e + G.off i e) = fun e => c e + G.off i e then
          fixUpdate s.phys s.fix dt (G.shape (G.own (G.wrap fun e => c e + G.off i e))) (G.off (G.own (G.wrap fun e => c e + G.off i e)))
            (s.mem (G.own (G.wrap fun e => c e + G.off i e))) (s.ghost (G.own (G.wrap fun e => c e + G.off i e)))
            (base.1 (G.own (G.wrap fun e => c e + G.off i e))) (cur.1 (G.own (G.wrap fun e => c e + G.off i e)))
            fun e => G.wrap (fun e => c e + G.off i e) e - G.off (G.own (G.wrap fun e => c e + G.off i e)) e
        else s.phys.bnd (fun e => c e + G.off i e) (fixUpdate s.phys s.fix dt (G.shape (G.own (G.wrap fun e => c e + G.off i e))) (G.off (G.own (G.wrap fun e => c e + G.off i e)))
            (s.mem (G.own (G.wrap fun e => c e + G.off i e))) (s.ghost (G.own (G.wrap fun e => c e + G.off i e)))
            (base.1 (G.own (G.wrap fun e => c e + G.off i e))) (cur.1 (G.own (G.wrap fun e => c e + G.off i e)))
            fun e => G.wrap (fun e => c e + G.off i e) e - G.off (G.own (G.wrap fun e => c e + G.off i e)) e)).1) =
        refShared G.wrap s.phys (refPass nd G.wrap s.fix (refCons nd s.phys dt base'.1 cur'.1)) fun e => c e + G.off i e := by
      unfold refShared
      congr 1
      by_cases hi : (G.shape i).Interior c
      · rw [if_pos hi, if_pos (hT.fixed _ (hT.inside i c hi)), upd i c hi]
      · rw [if_neg hi]
        have hw := hT.wrapped fun e => c e + G.off i e
        have hown := hT.owned _ hw
        rw [upd _ _ hown]
        have hp : (fun e => G.wrap (fun e => c e + G.off i e) e - G.off (G.own (G.wrap fun e => c e + G.off i e)) e
            + G.off (G.own (G.wrap fun e => c e + G.off i e)) e) = G.wrap fun e => c e + G.off i e := by funext e; ring
        rw [hp]
        by_cases hwp : G.wrap (fun e => c e + G.off i e) = fun e => c e + G.off i e
        · rw [if_pos hwp, if_pos hwp, hwp]
        · rw [if_neg hwp, if_neg hwp]
    have h2 := hC.2 fun e => c e + G.off i e
    simp only [fixStage, refFixStage]
    unfold fixExchange
    rw [refPass_ok _ _ _ _ _ h2, pass_ok]
    · simp only
      rw [hx, hF _ _ _ fun _ => 0]
    · simp only
      rw [hx, hF _ _ _ fun _ => 0]
      exact h2
  · unfold fixStage refFixStage refSpeed blockSpeed
    simp only
    rw [fluxes_fresh _ _ _ _ _ (ho i) _ _ d f hu]
    obtain ⟨h1, h2⟩ := states_global s.phys (G.shape i) (by rw [hT.ghosts]; exact hg) (G.off i) (fun n c => (cur.1 i c).2 n) (fun n c => (cur'.1 c).2 n)
      (fun n c hcc => by simp only [hc.1 i c hcc]) d f hu
    rw [h1, h2]

/-- **C135 (one step)**. -/
theorem fixStep_holds {B : Type} (G : Grid B) (nd : ℕ) (g : ℤ) (Dom : Pos → Prop) (hT : Tiles G nd g Dom) (dt : K) (X : Mesh K N B) (Y : Glob K N)
    (sts : List (FixStage K N B)) (hF : ∀ s ∈ sts, Guessless s.fix) (hg : ∀ s ∈ sts, 1 + radius s.phys.rt ≤ g)
    (ho : ∀ s ∈ sts, ∀ i, Covers (G.shape i) (s.mem i).order) (h : Holds G X Y)
    (hC : CalmStep G nd Dom dt Y.1 Y (sts.map fun s => (s.phys, s.fix))) :
    Holds G (fixStep G dt sts X) (refFixStep nd G.wrap dt (sts.map fun s => (s.phys, s.fix)) Y) := by
  unfold fixStep refFixStep
  have : ∀ (cur : Mesh K N B) (cur' : Glob K N), Holds G cur cur' → CalmStep G nd Dom dt Y.1 cur' (sts.map fun s => (s.phys, s.fix)) →
      Holds G (sts.foldl (fixStage G dt X.1) cur) ((sts.map fun s => (s.phys, s.fix)).foldl (refFixStage nd G.wrap dt Y.1) cur') := by
    clear hC
    induction sts with
    | nil => intro cur cur' hc _; exact hc
    | cons s l ih =>
      intro cur cur' hc hC
      rw [List.foldl_cons, List.map_cons, List.foldl_cons]
      refine ih (fun s hs => hF s (List.mem_cons_of_mem _ hs)) (fun s hs => hg s (List.mem_cons_of_mem _ hs)) (fun s hs => ho s (List.mem_cons_of_mem _ hs)) _ _ ?_ hC.2
      exact fixStage_holds G nd g Dom hT dt X cur Y cur' s (hF s (by simp)) (hg s (by simp)) (ho s (by simp)) h hc hC.1
  exact this X Y h hC

omit [Field K] [LinearOrder K] in
theorem map_fix {A : Type} (l : List (Phys K N × Fix K N)) (f : ℕ → A → Mem K N) (g : ℕ → A → Pos → ℕ → K) :
    ((l.zipIdx.map fun x => (⟨x.1.1, x.1.2, f x.2, g x.2⟩ : FixStage K N A)).map fun s => (s.phys, s.fix)) = l := by
  rw [List.map_map]
  show List.map Prod.fst l.zipIdx = l
  exact List.zipIdx_map_fst 0 l

/-- **C135 (a run)**: as long as inversions fail only away from the sides of blocks, and not after the exchange, and the inversion does not depend on its
initial guess, every block holds the values of the scheme with repair on the undivided domain. -/
theorem fixRun_holds {B : Type} (G : Grid B) (nd : ℕ) (g : ℤ) (Dom : Pos → Prop) (hT : Tiles G nd g Dom) (est : Pos → (Fin N → K) → (Fin 3 → K × K) → K)
    (ctrl : ℕ → K → Set K → K) (prog : ℕ → K → List (Phys K N × Fix K N)) (hF : ∀ n dt, ∀ s ∈ prog n dt, Guessless s.2) (hg0 : 0 ≤ g)
    (hg : ∀ n dt, ∀ s ∈ prog n dt, 1 + radius s.1.rt ≤ g) (mem : ℕ → ℕ → B → Mem K N) (ho : Complete G mem) (ghost : ℕ → ℕ → B → Pos → ℕ → K)
    (X : Mesh K N B) (Y : Glob K N) (dt : K) (h : Holds G X Y) (n : ℕ) (hC : CalmRun G nd Dom est ctrl prog n (Y, dt)) :
    Holds G (fixRun G est ctrl prog mem ghost n (X, dt)).1 (refFixRun nd Dom G.wrap est ctrl prog n (Y, dt)).1 ∧
    (fixRun G est ctrl prog mem ghost n (X, dt)).2 = (refFixRun nd Dom G.wrap est ctrl prog n (Y, dt)).2 := by
  induction n with
  | zero => exact ⟨h, rfl⟩
  | succ n ih =>
    obtain ⟨i1, i2⟩ := ih fun k hk => hC k (by omega)
    have hc := hC n (by omega)
    have hs := fixStep_holds G nd g Dom hT (fixRun G est ctrl prog mem ghost n (X, dt)).2 _ _
      ((prog n (fixRun G est ctrl prog mem ghost n (X, dt)).2).zipIdx.map fun x => ⟨x.1.1, x.1.2, mem n x.2, ghost n x.2⟩)
      (by
        intro s hs
        obtain ⟨x, hx, rfl⟩ := List.mem_map.1 hs
        exact hF n _ x.1 (List.fst_mem_of_mem_zipIdx hx))
      (by
        intro s hs
        obtain ⟨x, hx, rfl⟩ := List.mem_map.1 hs
        exact hg n _ x.1 (List.fst_mem_of_mem_zipIdx hx))
      (by
        intro s hs i
        obtain ⟨x, hx, rfl⟩ := List.mem_map.1 hs
        exact ho n x.2 i) i1
      (by
        rw [map_fix, i2]; exact hc)
    rw [map_fix] at hs
    simp only [fixRun, refFixRun]
    rw [i2] at hs ⊢
    refine ⟨hs, ?_⟩
    rw [estimates_global G nd g hg0 Dom hT est _ _ hs]

/-- **C135**: two decompositions give the same result in a run in which inversions fail only in cells away from the block sides of both meshes. -/
theorem fixRun_decomposition_partial {B B' : Type} (G : Grid B) (G' : Grid B') (nd : ℕ) (g : ℤ) (Dom : Pos → Prop) (hT : Tiles G nd g Dom) (hT' : Tiles G' nd g Dom)
    (hw : G.wrap = G'.wrap) (est : Pos → (Fin N → K) → (Fin 3 → K × K) → K) (ctrl : ℕ → K → Set K → K) (prog : ℕ → K → List (Phys K N × Fix K N))
    (hF : ∀ n dt, ∀ s ∈ prog n dt, Guessless s.2) (hg0 : 0 ≤ g) (hg : ∀ n dt, ∀ s ∈ prog n dt, 1 + radius s.1.rt ≤ g)
    (mem : ℕ → ℕ → B → Mem K N) (ho : Complete G mem) (ghost : ℕ → ℕ → B → Pos → ℕ → K) (mem' : ℕ → ℕ → B' → Mem K N) (ho' : Complete G' mem')
    (ghost' : ℕ → ℕ → B' → Pos → ℕ → K) (X : Mesh K N B) (X' : Mesh K N B') (Y : Glob K N) (dt : K) (h : Holds G X Y) (h' : Holds G' X' Y) (n : ℕ)
    (hC : CalmRun G nd Dom est ctrl prog n (Y, dt)) (hC' : CalmRun G' nd Dom est ctrl prog n (Y, dt)) :
    (∀ i i' c c', (G.shape i).Interior c → (G'.shape i').Interior c' → (∀ e, c e + G.off i e = c' e + G'.off i' e) →
      (fixRun G est ctrl prog mem ghost n (X, dt)).1.1 i c = (fixRun G' est ctrl prog mem' ghost' n (X', dt)).1.1 i' c') ∧
    (fixRun G est ctrl prog mem ghost n (X, dt)).2 = (fixRun G' est ctrl prog mem' ghost' n (X', dt)).2 := by
  obtain ⟨a1, a2⟩ := fixRun_holds G nd g Dom hT est ctrl prog hF hg0 hg mem ho ghost X Y dt h n hC
  obtain ⟨b1, b2⟩ := fixRun_holds G' nd g Dom hT' est ctrl prog hF hg0 hg mem' ho' ghost' X' Y dt h' n hC'
  rw [← hw] at b1 b2
  refine ⟨fun i i' c c' hi hi' hc => ?_, a2.trans b2.symm⟩
  rw [a1.1 i c (interior_entire _ (by rw [hT.ghosts]; omega) c hi), b1.1 i' c' (interior_entire _ (by rw [hT'.ghosts]; omega) c' hi'), funext hc]

/-! ### What happens otherwise -/

/-- a ghost cell whose inversion fails after the exchange keeps the failed result, while its owner repairs the same cell: they hold different
primitives unless the repair reproduces the failed result. -/
theorem ghost_not_repaired (F : Fix K N) (hF : Guessless F) (b b' : Blk) (off off' : Pos) (X X' : Fields K N) (c c' : Pos) (hi : b.Interior c) (hi' : ¬ b'.Interior c')
    (hp : ∀ e, c e + off e = c' e + off' e) (hu : (X c).1 = (X' c').1) (hf : (F.inv (fun e => c e + off e) (X c).1 (X c).2).2 = false) :
    pass F b' off' X' c' = F.floor (fun e => c e + off e) (F.inv (fun e => c e + off e) (X c).1 (X c).2).1 ∧
    pass F b off X c = F.floor (fun e => c e + off e) (F.mend (fun e => c e + off e) (F.inv (fun e => c e + off e) (X c).1 (X c).2).1
      (around b (fun c => F.inv (fun e => c e + off e) (X c).1 (X c).2) c)) := by
  have hp' : (fun e => c' e + off' e) = fun e => c e + off e := funext fun e => (hp e).symm
  constructor
  · unfold pass
    simp only [hi', false_and, if_false, hp']
    rw [← hu, hF _ _ (X' c').2 (X c).2]
  · unfold pass
    simp only [hi, hf, and_self, if_true]

end Phoebus.Step
