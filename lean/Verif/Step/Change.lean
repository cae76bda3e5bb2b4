import Verif.Step.Mirror

/-!
# C142, C143: the run in other coordinates and other units

The names of the axes, the unit of length (and time) and the unit of every variable are changed; the run of the changed data with the changed
program is the changed run.
-/
namespace Phoebus.Step
open FluxSweep
variable {K : Type} [Field K] [LinearOrder K] {N : ℕ}

/-! ### Specification -/

/-- Data type: axis `d` of the new description is axis `ax d` of the old one; lengths and times are multiplied by `len`; variable `n` of the new description is
`eps n` times variable `pv n` of the old one, conserved variable `m` is `eta m` times conserved variable `cv m`. -/
structure Change (K : Type) (N : ℕ) where
  ax : Equiv.Perm (Fin 3)
  len : K
  pv : Fin N → Fin N
  eps : Fin N → K
  cv : ℕ → ℕ
  eta : ℕ → K

/-- the old index of the cell or face with new index `p`. -/
def Change.cell (Z : Change K N) (p : Pos) : Pos := fun e => p (Z.ax.symm e)

/-- the new primitives. -/
def Change.prim (Z : Change K N) (v : Fin N → K) : Fin N → K := fun n => Z.eps n * v (Z.pv n)

/-- the new conserved variables (also: fluxes, sources). -/
def Change.cons (Z : Change K N) (u : ℕ → K) : ℕ → K := fun m => Z.eta m * u (Z.cv m)

/-- the new contents of a cell. -/
def Change.val (Z : Change K N) (x : Cell K N) : Cell K N := (Z.cons x.1, Z.prim x.2)

/-- the new fields. -/
def Change.fields (Z : Change K N) (X : Fields K N) : Fields K N := fun p => Z.val (X (Z.cell p))

/-- the new state. -/
def Change.glob (Z : Change K N) (Y : Glob K N) : Glob K N := (Z.fields Y.1, fun d p => Y.2 (Z.ax d) (Z.cell p))

/-- `P'` is the stage `P` in the new description: every ingredient is the old one with renamed axes and rescaled variables.  Inactive directions stay
inactive, the components of the magnetic field are renamed like the axes and have a common unit. -/
structure Changed (Z : Change K N) (nd : ℕ) (P P' : Phys K N) : Prop where
  len : Z.len ≠ 0
  act : ∀ d, (Z.ax d).val < nd ↔ d.val < nd
  beta : P'.beta = P.beta
  rt : P'.rt = P.rt
  kern : ∀ n q, kernel P'.ew P'.em P'.rt (fun m => Z.eps n * q m) = (Z.eps n * (kernel P.ew P.em P.rt q).1, Z.eps n * (kernel P.ew P.em P.rt q).2)
  S : ∀ d p l r m, P'.S d p (Z.prim l) (Z.prim r) m = Z.cons (P.S (Z.ax d) (Z.cell p) l r) m
  sig : ∀ d p l r, P'.sig d p (Z.prim l) (Z.prim r) = P.sig (Z.ax d) (Z.cell p) l r
  fix : ∀ d p F m, P'.fix d p (Z.cons F) m = Z.cons (P.fix (Z.ax d) (Z.cell p) F) m
  src : ∀ p v m, Z.len * P'.src p (Z.prim v) m = Z.cons (P.src (Z.cell p) v) m
  inv : ∀ p u, P'.inv p (Z.cons u) = Z.val (P.inv (Z.cell p) u)
  mid : ∀ p x, P'.mid p (Z.val x) = Z.val (P.mid (Z.cell p) x)
  rad : ∀ d p st m, P'.rad d p (fun r => Z.prim (st (Z.cell r))) m = Z.cons (P.rad (Z.ax d) (Z.cell p) st) m
  bnd : ∀ p x, P'.bnd p (Z.val x) = Z.val (P.bnd (Z.cell p) x)
  dx : ∀ d, P'.dx d = Z.len * P.dx (Z.ax d)
  mhd : P'.mhd = P.mhd
  field : ∀ b0, P.mhd = some b0 → (∀ c : Fin 3, Z.cv (b0 + c.val) = b0 + (Z.ax c).val ∧ Z.eta (b0 + c.val) = Z.eta b0) ∧
    ∀ m, ¬(b0 ≤ m ∧ m < b0 + 3) → ¬(b0 ≤ Z.cv m ∧ Z.cv m < b0 + 3)

/-- the local time step in the new description. -/
def ChangedEst (Z : Change K N) (est est' : Pos → (Fin N → K) → (Fin 3 → K × K) → K) : Prop :=
  ∀ p v F, est' p (Z.prim v) (fun d => F (Z.ax d)) = Z.len * est (Z.cell p) v F

/-- the control of the time step in the new description. -/
def ChangedCtrl (Z : Change K N) (ctrl ctrl' : ℕ → K → Set K → K) : Prop :=
  ∀ n dt S, ctrl' n (Z.len * dt) {t | ∃ s ∈ S, t = Z.len * s} = Z.len * ctrl n dt S

/-! ### Proof -/

omit [LinearOrder K] in
theorem cell_shift (Z : Change K N) (p : Pos) (k : ℤ) (d : Fin 3) :
    Z.cell (fun e => p e + k * unit d e) = fun e => Z.cell p e + k * unit (Z.ax d) e := by
  funext e
  unfold Change.cell unit
  by_cases h : e = Z.ax d
  · subst h; simp
  · have : Z.ax.symm e ≠ d := fun h' => h (by rw [← h', Equiv.apply_symm_apply])
    simp only [h, this, if_false]

omit [LinearOrder K] in
theorem cell_up (Z : Change K N) (p : Pos) (d : Fin 3) : Z.cell (fun e => p e + unit d e) = fun e => Z.cell p e + unit (Z.ax d) e := by
  simpa using cell_shift Z p 1 d

omit [LinearOrder K] in
theorem cell_down (Z : Change K N) (p : Pos) (d : Fin 3) : Z.cell (fun e => p e - unit d e) = fun e => Z.cell p e - unit (Z.ax d) e := by
  simpa [sub_eq_add_neg] using cell_shift Z p (-1) d

omit [LinearOrder K] in
/-- the states around a face in the new description. -/
theorem near_change (Z : Change K N) (nd : ℕ) (hact : ∀ d, (Z.ax d).val < nd ↔ d.val < nd) (rt : Method) (X : Fields K N) (d : Fin 3) (p : Pos) :
    near nd rt d p (Z.fields X) = fun r => Z.prim (near nd rt (Z.ax d) (Z.cell p) X (Z.cell r)) := by
  funext r n
  have hs : Stencil nd rt (Z.ax d) (Z.cell r) ↔ Stencil nd rt d r := by
    unfold Stencil Change.cell
    constructor
    · intro h e
      have := h (Z.ax e)
      simpa only [hact, Equiv.symm_apply_apply, Z.ax.injective.eq_iff] using this
    · intro h e
      obtain ⟨e, rfl⟩ := Z.ax.surjective e
      simpa only [hact, Equiv.symm_apply_apply, Z.ax.injective.eq_iff] using h e
  unfold Change.prim near
  by_cases h : Stencil nd rt d r
  · rw [if_pos h, if_pos (hs.2 h)]
    rfl
  · rw [if_neg h, if_neg (fun h' => h (hs.1 h')), mul_zero]

theorem states_change (Z : Change K N) (P P' : Phys K N)
    (hk : ∀ n q, kernel P'.ew P'.em P'.rt (fun m => Z.eps n * q m) = (Z.eps n * (kernel P.ew P.em P.rt q).1, Z.eps n * (kernel P.ew P.em P.rt q).2))
    (X : Fields K N) (d : Fin 3) (p : Pos) :
    stateL (kernel P'.ew P'.em P'.rt) (fun n c => (Z.fields X c).2 n) d p = Z.prim (stateL (kernel P.ew P.em P.rt) (fun n c => (X c).2 n) (Z.ax d) (Z.cell p)) ∧
    stateR (kernel P'.ew P'.em P'.rt) (fun n c => (Z.fields X c).2 n) d p = Z.prim (stateR (kernel P.ew P.em P.rt) (fun n c => (X c).2 n) (Z.ax d) (Z.cell p)) := by
  constructor
  · funext n
    unfold stateL Change.fields Change.val Change.prim
    simp only [cell_shift, hk]
  · funext n
    unfold stateR Change.fields Change.val Change.prim
    simp only [cell_shift, hk]

variable {Z : Change K N} {nd : ℕ} {P P' : Phys K N} (hP : Changed Z nd P P')
include hP

theorem refFlux_change (X : Fields K N) (d : Fin 3) (p : Pos) (m : ℕ) :
    refFlux P' (Z.fields X) d p m = Z.eta m * refFlux P X (Z.ax d) (Z.cell p) (Z.cv m) := by
  obtain ⟨h1, h2⟩ := states_change Z P P' hP.kern X d p
  unfold refFlux
  rw [h1, h2, hP.S]; rfl

theorem refSpeed_change (X : Fields K N) (d : Fin 3) (p : Pos) : refSpeed P' (Z.fields X) d p = refSpeed P X (Z.ax d) (Z.cell p) := by
  obtain ⟨h1, h2⟩ := states_change Z P P' hP.kern X d p
  unfold refSpeed
  rw [h1, h2, hP.sig]

theorem refCT_change (Φ Φ' : Fin 3 → Pos → ℕ → K) (h : ∀ d p m, Φ' d p m = Z.eta m * Φ (Z.ax d) (Z.cell p) (Z.cv m)) (d : Fin 3) (p : Pos) (m : ℕ) :
    refCT nd P'.mhd Φ' d p m = Z.eta m * refCT nd P.mhd Φ (Z.ax d) (Z.cell p) (Z.cv m) := by
  rw [hP.mhd]
  cases hb : P.mhd with
  | none => simp only [refCT, h]
  | some b0 =>
    obtain ⟨hf, hf'⟩ := hP.field b0 hb
    have emf : ∀ (a c : Fin 3) (q : Pos), emfAt Φ' b0 a c q = Z.eta b0 * emfAt Φ b0 (Z.ax a) (Z.ax c) (Z.cell q) := by
      intro a c q
      unfold emfAt
      simp only [h, cell_down, (hf a).1, (hf a).2, (hf c).1, (hf c).2]
      ring
    unfold refCT
    simp only
    by_cases hm : b0 ≤ m ∧ m < b0 + 3
    · obtain ⟨c, hc⟩ : ∃ c : Fin 3, m = b0 + c.val := ⟨⟨m - b0, by omega⟩, by simp only; omega⟩
      subst hc
      have hcv := (hf c).1
      have hact := hP.act c
      have hc3 := c.isLt
      have hc3' := (Z.ax c).isLt
      by_cases hnd : (nd = 2 ∨ nd = 3) ∧ c.val < nd
      · have c1 : (nd = 2 ∨ nd = 3) ∧ b0 ≤ b0 + c.val ∧ b0 + c.val < b0 + nd ∧ b0 + c.val < b0 + 3 := by omega
        have c2 : (nd = 2 ∨ nd = 3) ∧ b0 ≤ Z.cv (b0 + c.val) ∧ Z.cv (b0 + c.val) < b0 + nd ∧ Z.cv (b0 + c.val) < b0 + 3 := by
          rw [hcv]; have := hact.2 hnd.2; omega
        rw [dif_pos c1, dif_pos c2]
        have e1 : (⟨b0 + c.val - b0, by omega⟩ : Fin 3) = c := Fin.ext (by simp)
        have e2 : (⟨Z.cv (b0 + c.val) - b0, by omega⟩ : Fin 3) = Z.ax c := Fin.ext (by simp [hcv])
        rw [e1, e2]
        by_cases hd : d = c
        · rw [if_pos hd, if_pos (by rw [hd]), mul_zero]
        · rw [if_neg hd, if_neg (fun h' => hd (Z.ax.injective h')), emf, emf, cell_up, (hf c).2]
          ring
      · have c1 : ¬((nd = 2 ∨ nd = 3) ∧ b0 ≤ b0 + c.val ∧ b0 + c.val < b0 + nd ∧ b0 + c.val < b0 + 3) := by omega
        have c2 : ¬((nd = 2 ∨ nd = 3) ∧ b0 ≤ Z.cv (b0 + c.val) ∧ Z.cv (b0 + c.val) < b0 + nd ∧ Z.cv (b0 + c.val) < b0 + 3) := by
          rw [hcv]
          intro h'
          exact hnd ⟨h'.1, hact.1 (by omega)⟩
        rw [dif_neg c1, dif_neg c2, h]
    · have := hf' m hm
      rw [dif_neg (by omega), dif_neg (by omega), h]

theorem refUpdate_change (dt : K) (base cur : Fields K N) :
    refUpdate nd P' (Z.len * dt) (Z.fields base) (Z.fields cur) = Z.fields (refUpdate nd P dt base cur) := by
  have hall : ∀ d p m, refAll nd P' (Z.fields cur) d p m = Z.eta m * refAll nd P cur (Z.ax d) (Z.cell p) (Z.cv m) := by
    intro d p m
    unfold refAll
    have : refCT nd P'.mhd (refFlux P' (Z.fields cur)) d p = Z.cons (refCT nd P.mhd (refFlux P cur) (Z.ax d) (Z.cell p)) :=
      funext fun m => refCT_change hP (refFlux P cur) _ (fun d p m => refFlux_change hP cur d p m) d p m
    have hr : (fun m => refCT nd P'.mhd (refFlux P' (Z.fields cur)) d p m + P'.rad d p (near nd P'.rt d p (Z.fields cur)) m) =
        Z.cons fun m => refCT nd P.mhd (refFlux P cur) (Z.ax d) (Z.cell p) m + P.rad (Z.ax d) (Z.cell p) (near nd P.rt (Z.ax d) (Z.cell p) cur) m := by
      funext m
      rw [this, hP.rt, near_change Z nd hP.act, hP.rad]
      unfold Change.cons
      ring
    rw [hr, hP.fix]; rfl
  funext p
  have hdiv : ∀ m, Z.len * refDiv nd P'.dx (refAll nd P' (Z.fields cur)) m p = Z.eta m * refDiv nd P.dx (refAll nd P cur) (Z.cv m) (Z.cell p) := by
    intro m
    unfold refDiv
    rw [mul_neg, mul_neg, Finset.mul_sum, Finset.mul_sum]
    congr 1
    refine Eq.trans (Finset.sum_congr rfl fun d _ => ?_) (Equiv.sum_comp Z.ax _)
    by_cases hn : d.val < nd
    · rw [if_pos hn, if_pos ((hP.act d).2 hn), hall, hall, cell_up, hP.dx]
      by_cases hx : P.dx (Z.ax d) = 0
      · simp [hx]
      · have := hP.len
        field_simp
    · rw [if_neg hn, if_neg (fun h' => hn ((hP.act d).1 h')), mul_zero, mul_zero]
  show P'.mid p (P'.inv p _) = Z.val (P.mid (Z.cell p) (P.inv (Z.cell p) _))
  rw [← hP.mid, ← hP.inv]
  congr 2; funext m
  have hs := hP.src p (cur (Z.cell p)).2 m
  have h1 : (Z.fields cur p).1 m = Z.eta m * (cur (Z.cell p)).1 (Z.cv m) := rfl
  have h2 : (Z.fields base p).1 m = Z.eta m * (base (Z.cell p)).1 (Z.cv m) := rfl
  have h3 : (Z.fields cur p).2 = Z.prim (cur (Z.cell p)).2 := rfl
  have h4 := hdiv m
  rw [h1, h2, h3, hP.beta]
  unfold Change.cons at hs ⊢
  linear_combination P.beta * dt * h4 + P.beta * dt * hs

omit hP [LinearOrder K] in
theorem cell_inj (Z : Change K N) (p q : Pos) (h : Z.cell p = Z.cell q) : p = q := by
  funext e
  have := congrFun h (Z.ax e)
  simpa [Change.cell] using this

theorem refStage_change (wrap wrap' : Pos → Pos) (hw : ∀ p, Z.cell (wrap' p) = wrap (Z.cell p)) (dt : K) (base cur : Glob K N) :
    refStage nd wrap' (Z.len * dt) (Z.glob base).1 (Z.glob cur) P' = Z.glob (refStage nd wrap dt base.1 cur P) := by
  unfold refStage Change.glob
  refine Prod.ext ?_ ?_
  · funext p
    show refFields nd wrap' (Z.len * dt) (Z.fields base.1) (Z.fields cur.1) P' p = Z.val (refFields nd wrap dt base.1 cur.1 P (Z.cell p))
    unfold refFields
    simp only [refUpdate_change hP]
    have hiff : wrap' p = p ↔ wrap (Z.cell p) = Z.cell p := by
      rw [← hw]
      exact ⟨fun h => by rw [h], fun h => cell_inj Z _ _ h⟩
    have e1 : ∀ x : Cell K N, P'.inv p (Z.val x).1 = Z.val (P.inv (Z.cell p) x.1) := fun x => hP.inv p x.1
    by_cases hp : wrap' p = p
    · rw [if_pos hp, if_pos (hiff.1 hp), ← e1]; rfl
    · rw [if_neg hp, if_neg (fun h => hp (hiff.2 h)), ← e1, ← hP.bnd]
      unfold Change.fields
      rw [hw]
  · funext d p
    exact refSpeed_change hP cur.1 d p

omit hP

theorem refStep_change (Z : Change K N) (nd : ℕ) (sts sts' : List (Phys K N)) (hP : List.Forall₂ (Changed Z nd) sts sts') (wrap wrap' : Pos → Pos)
    (hw : ∀ p, Z.cell (wrap' p) = wrap (Z.cell p)) (dt : K) (X : Glob K N) :
    refStep nd wrap' (Z.len * dt) sts' (Z.glob X) = Z.glob (refStep nd wrap dt sts X) := by
  unfold refStep
  have key : ∀ (cur : Glob K N), sts'.foldl (refStage nd wrap' (Z.len * dt) (Z.glob X).1) (Z.glob cur) = Z.glob (sts.foldl (refStage nd wrap dt X.1) cur) := by
    induction hP with
    | nil => intro cur; rfl
    | cons h _ ih =>
      intro cur
      rw [List.foldl_cons, List.foldl_cons, refStage_change h wrap wrap' hw]
      exact ih _
  exact key X

theorem estimates_change (Z : Change K N) (nd : ℕ) (Dom Dom' : Pos → Prop) (hD : ∀ p, Dom' p ↔ Dom (Z.cell p)) (ha : ∀ d, (Z.ax d).val < nd ↔ d.val < nd)
    (est est' : Pos → (Fin N → K) → (Fin 3 → K × K) → K) (he : ChangedEst Z est est') (X : Glob K N) :
    refEstimates nd Dom' est' (Z.glob X) = {t | ∃ s ∈ refEstimates nd Dom est X, t = Z.len * s} := by
  have key : ∀ p, (est' p ((Z.glob X).1 p).2 fun d => if d.val < nd then ((Z.glob X).2 d p, (Z.glob X).2 d fun e => p e + unit d e) else (0, 0)) =
      Z.len * est (Z.cell p) (X.1 (Z.cell p)).2 fun d => if d.val < nd then (X.2 d (Z.cell p), X.2 d fun e => Z.cell p e + unit d e) else (0, 0) := by
    intro p
    rw [← he]
    show est' p (Z.prim (X.1 (Z.cell p)).2) _ = _
    congr 1; funext d
    simp only [Change.glob, cell_up, ha]
  ext x
  constructor
  · rintro ⟨p, hp, rfl⟩
    exact ⟨_, ⟨Z.cell p, (hD p).1 hp, rfl⟩, key p⟩
  · rintro ⟨s, ⟨p, hp, rfl⟩, rfl⟩
    obtain ⟨q, rfl⟩ : ∃ q, Z.cell q = p := ⟨fun e => p (Z.ax e), funext fun e => by simp [Change.cell]⟩
    exact ⟨q, (hD q).2 hp, (key q).symm⟩

/-- **C142, C143 (without blocks)**. -/
theorem refRun_change (Z : Change K N) (nd : ℕ) (ha : ∀ d, (Z.ax d).val < nd ↔ d.val < nd) (Dom Dom' : Pos → Prop) (hD : ∀ p, Dom' p ↔ Dom (Z.cell p))
    (wrap wrap' : Pos → Pos) (hw : ∀ p, Z.cell (wrap' p) = wrap (Z.cell p)) (est est' : Pos → (Fin N → K) → (Fin 3 → K × K) → K)
    (he : ChangedEst Z est est') (ctrl ctrl' : ℕ → K → Set K → K) (hc : ChangedCtrl Z ctrl ctrl') (prog prog' : ℕ → K → List (Phys K N))
    (hP : ∀ k dt, List.Forall₂ (Changed Z nd) (prog k dt) (prog' k (Z.len * dt))) (Y : Glob K N) (dt : K) (k : ℕ) :
    (refRun nd Dom' wrap' est' ctrl' prog' k (Z.glob Y, Z.len * dt)).1 = Z.glob (refRun nd Dom wrap est ctrl prog k (Y, dt)).1 ∧
    (refRun nd Dom' wrap' est' ctrl' prog' k (Z.glob Y, Z.len * dt)).2 = Z.len * (refRun nd Dom wrap est ctrl prog k (Y, dt)).2 := by
  induction k with
  | zero => exact ⟨rfl, rfl⟩
  | succ k ih =>
    obtain ⟨i1, i2⟩ := ih
    simp only [refRun]
    rw [i1, i2, refStep_change Z nd _ _ (hP k _) wrap wrap' hw]
    exact ⟨rfl, by rw [estimates_change Z nd Dom Dom' hD ha est est' he, hc]⟩

/-- **C142, C143**: describe the initial data with other names of the axes, another unit of length and time, other units of the variables, and the
program likewise: after any number of steps the result is the original result in the new description, on any decomposition of the two domains into
blocks, and the time steps are the original time steps in the new unit. -/
theorem run_change {B B' : Type} (G : Grid B) (G' : Grid B') (Z : Change K N) (nd : ℕ) (ha : ∀ d, (Z.ax d).val < nd ↔ d.val < nd) (g g' : ℤ) (Dom Dom' : Pos → Prop)
    (hD : ∀ p, Dom' p ↔ Dom (Z.cell p)) (hT : Tiles G nd g Dom) (hT' : Tiles G' nd g' Dom')
    (hw : ∀ p, Z.cell (G'.wrap p) = G.wrap (Z.cell p)) (est est' : Pos → (Fin N → K) → (Fin 3 → K × K) → K) (he : ChangedEst Z est est')
    (ctrl ctrl' : ℕ → K → Set K → K) (hc : ChangedCtrl Z ctrl ctrl') (prog prog' : ℕ → K → List (Phys K N))
    (hP : ∀ k dt, List.Forall₂ (Changed Z nd) (prog k dt) (prog' k (Z.len * dt))) (hg0 : 0 ≤ g) (hg : ∀ n dt, ∀ P ∈ prog n dt, 1 + radius P.rt ≤ g)
    (hg0' : 0 ≤ g') (hg' : ∀ n dt, ∀ P ∈ prog' n dt, 1 + radius P.rt ≤ g') (mem : ℕ → ℕ → B → Mem K N) (ho : Complete G mem) (mem' : ℕ → ℕ → B' → Mem K N)
    (ho' : Complete G' mem') (X : Mesh K N B) (X' : Mesh K N B') (Y : Glob K N) (dt : K) (h : Holds G X Y) (h' : Holds G' X' (Z.glob Y)) (k : ℕ) :
    (∀ i i' c c', (G.shape i).Interior c → (G'.shape i').Interior c' → Z.cell (fun e => c' e + G'.off i' e) = (fun e => c e + G.off i e) →
      (run G' est' ctrl' prog' mem' k (X', Z.len * dt)).1.1 i' c' = Z.val ((run G est ctrl prog mem k (X, dt)).1.1 i c)) ∧
    (run G' est' ctrl' prog' mem' k (X', Z.len * dt)).2 = Z.len * (run G est ctrl prog mem k (X, dt)).2 := by
  obtain ⟨a1, a2⟩ := run_holds G nd g _ hT est ctrl prog hg0 hg mem ho X Y dt h k
  obtain ⟨b1, b2⟩ := run_holds G' nd g' _ hT' est' ctrl' prog' hg0' hg' mem' ho' X' _ (Z.len * dt) h' k
  obtain ⟨s1, s2⟩ := refRun_change Z nd ha Dom Dom' hD G.wrap G'.wrap hw est est' he ctrl ctrl' hc prog prog' hP Y dt k
  refine ⟨fun i i' c c' hi hi' hcc => ?_, by rw [b2, s2, a2]⟩
  rw [b1.1 i' c' (interior_entire _ (by rw [hT'.ghosts]; omega) c' hi'), a1.1 i c (interior_entire _ (by rw [hT.ghosts]; omega) c hi), s1, ← hcc]
  rfl

/-- boxes with permuted edges and the usual boundary treatments. -/
theorem wraps_change (Z : Change K N) (n n' : Fin 3 → ℕ) (hn : ∀ d, n' d = n (Z.ax d)) (p : Pos) :
    (Box n' p ↔ Box n (Z.cell p)) ∧ Z.cell (wrapPeriodic n' p) = wrapPeriodic n (Z.cell p) ∧ Z.cell (wrapNearest n' p) = wrapNearest n (Z.cell p) := by
  have hn' : ∀ e, n' (Z.ax.symm e) = n e := fun e => by rw [hn, Equiv.apply_symm_apply]
  refine ⟨⟨fun h d => ?_, fun h d => ?_⟩, ?_, ?_⟩
  · have := h (Z.ax.symm d)
    rw [hn'] at this
    exact this
  · have := h (Z.ax d)
    rw [← hn] at this
    simpa [Change.cell] using this
  · funext e
    simp only [Change.cell, wrapPeriodic, hn']
  · funext e
    simp only [Change.cell, wrapNearest, hn']

/-- reconstruction with constant or linear profiles does not depend on the unit of the variable. -/
theorem kernel_units [IsStrictOrderedRing K] (ew em ew' em' : K) (rt : Method) (hr : rt = .constant ∨ rt = .linear) (t : K) (q : ℤ → K) :
    kernel ew' em' rt (fun m => t * q m) = (t * (kernel ew em rt q).1, t * (kernel ew em rt q).2) := by
  rcases hr with rfl | rfl <;> simp only [kernel, Recon.piecewiseConstant, Recon.piecewiseLinear]
  have e : Recon.mc (t * q 0 - t * q (-1)) (t * q 1 - t * q 0) (3/2) = t * Recon.mc (q 0 - q (-1)) (q 1 - q 0) (3/2) := by
    rw [← Recon.mc_smul _ _ _ _ (by norm_num)]; congr 1 <;> ring
  rw [e]
  exact Prod.ext (by simp only; ring) (by simp only; ring)

end Phoebus.Step
