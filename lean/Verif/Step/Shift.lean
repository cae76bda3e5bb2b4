import Verif.Step.Dyn

/-!
# C131, C132: uniform data stay uniform, shifted data give the shifted run
-/
namespace Phoebus.Step
open FluxSweep
variable {K : Type} [Field K] [LinearOrder K] {N : ℕ}

/-! ### Specification -/

/-- the same geometry, equation of state, floors and sources everywhere, nothing special at the boundary: ghost cells hold copies. -/
structure Homogeneous (P : Phys K N) : Prop where
  S : ∀ d p q, P.S d p = P.S d q
  sig : ∀ d p q, P.sig d p = P.sig d q
  fix : ∀ d p q, P.fix d p = P.fix d q
  src : ∀ p q, P.src p = P.src q
  inv : ∀ p q, P.inv p = P.inv q
  mid : ∀ p q, P.mid p = P.mid q
  rad : ∀ d p q, P.rad d p = P.rad d q
  bnd : ∀ p x, P.bnd p x = x

/-- the data shifted by `t` cells: at `p` the values that were at `p + t`. -/
def shift {A : Type} (t : Pos) (X : Pos → A) : Pos → A := fun p => X fun e => p e + t e

/-- shifted state. -/
def shiftG (t : Pos) (Y : Glob K N) : Glob K N := (shift t Y.1, fun d => shift t (Y.2 d))

/-- equal at positions that are images of each other. -/
def Periodic {A : Type} (n : Fin 3 → ℕ) (X : Pos → A) : Prop := ∀ p q, wrapPeriodic n p = wrapPeriodic n q → X p = X q

/-- periodic state. -/
def PeriodicG (n : Fin 3 → ℕ) (Y : Glob K N) : Prop := Periodic n Y.1 ∧ ∀ d, Periodic n (Y.2 d)

/-! ### Shifts -/

omit [LinearOrder K] in
theorem states_shift (R : (ℤ → K) → K × K) (t : Pos) (V : Fin N → Pos → K) (d : Fin 3) (p : Pos) :
    stateL R (fun n => shift t (V n)) d p = stateL R V d (fun e => p e + t e) ∧
    stateR R (fun n => shift t (V n)) d p = stateR R V d (fun e => p e + t e) := by
  constructor
  · funext n; unfold stateL shift
    congr 2; funext m; beta_reduce; congr 1; funext e; ring
  · funext n; unfold stateR shift
    congr 2; funext m; beta_reduce; congr 1; funext e; ring

theorem refFlux_shift (P : Phys K N) (hP : Homogeneous P) (t : Pos) (X : Fields K N) (d : Fin 3) (p : Pos) :
    refFlux P (shift t X) d p = refFlux P X d fun e => p e + t e := by
  unfold refFlux
  obtain ⟨h1, h2⟩ := states_shift (kernel P.ew P.em P.rt) t (fun n c => (X c).2 n) d p
  rw [← h1, ← h2, hP.S d (fun e => p e + t e) p]
  rfl

theorem refSpeed_shift (P : Phys K N) (hP : Homogeneous P) (t : Pos) (X : Fields K N) (d : Fin 3) :
    refSpeed P (shift t X) d = shift t (refSpeed P X d) := by
  funext p
  unfold refSpeed
  obtain ⟨h1, h2⟩ := states_shift (kernel P.ew P.em P.rt) t (fun n c => (X c).2 n) d p
  show _ = P.sig d (fun e => p e + t e) _ _
  rw [← h1, ← h2, hP.sig d (fun e => p e + t e) p]
  rfl

theorem refCT_shift (nd : ℕ) (mhd : Option ℕ) (Φ Φ' : Fin 3 → Pos → ℕ → K) (t : Pos) (h : ∀ d p, Φ' d p = Φ d fun e => p e + t e) (d : Fin 3) (p : Pos) (m : ℕ) :
    refCT nd mhd Φ' d p m = refCT nd mhd Φ d (fun e => p e + t e) m := by
  have emf : ∀ b0 a c p, emfAt Φ' b0 a c p = emfAt Φ b0 a c fun e => p e + t e := by
    intro b0 a c p
    unfold emfAt
    simp only [h]
    have e1 : ∀ c : Fin 3, (fun e => p e - unit c e + t e) = fun e => p e + t e - unit c e := by intro c; funext e; ring
    simp only [e1]
  unfold refCT
  cases mhd with
  | none => simp only [h]
  | some b0 =>
    simp only
    split_ifs with h1 h2
    · rfl
    · rw [emf, emf]
      congr 3; funext e; ring
    · rw [h]

omit [LinearOrder K] in
theorem near_shift (nd : ℕ) (rt : Method) (t : Pos) (X : Fields K N) (d : Fin 3) (p : Pos) :
    near nd rt d p (shift t X) = near nd rt d (fun e => p e + t e) X := by
  funext r n
  unfold near shift
  have : (fun e => p e + r e + t e) = fun e => p e + t e + r e := by funext e; ring
  simp only [this]

theorem refUpdate_shift (nd : ℕ) (P : Phys K N) (hP : Homogeneous P) (dt : K) (t : Pos) (base cur : Fields K N) :
    refUpdate nd P dt (shift t base) (shift t cur) = shift t (refUpdate nd P dt base cur) := by
  funext p
  have hall : ∀ d p, refAll nd P (shift t cur) d p = refAll nd P cur d fun e => p e + t e := by
    intro d p
    unfold refAll
    rw [hP.fix d (fun e => p e + t e) p, hP.rad d (fun e => p e + t e) p, near_shift]
    congr 1; funext m
    congr 1
    exact refCT_shift nd P.mhd (refFlux P cur) _ t (fun d p => refFlux_shift P hP t cur d p) d p m
  show P.mid p (P.inv p _) = P.mid (fun e => p e + t e) (P.inv (fun e => p e + t e) _)
  rw [hP.inv (fun e => p e + t e) p, hP.mid (fun e => p e + t e) p]
  congr 2; funext m
  have hD : refDiv nd P.dx (refAll nd P (shift t cur)) m p = refDiv nd P.dx (refAll nd P cur) m fun e => p e + t e := by
    unfold refDiv
    congr 1
    apply Finset.sum_congr rfl
    intro d _
    rw [hall, hall]
    have e1 : (fun e => p e + unit d e + t e) = fun e => p e + t e + unit d e := by funext e; ring
    rw [e1]
  rw [hD, hP.src (fun e => p e + t e) p]
  rfl

theorem wrap_shift (n : Fin 3 → ℕ) (p q t : Pos) (h : wrapPeriodic n p = wrapPeriodic n q) :
    wrapPeriodic n (fun e => p e + t e) = wrapPeriodic n fun e => q e + t e := by
  funext e
  have := congrFun h e
  unfold wrapPeriodic at this ⊢
  rw [Int.add_emod, this, ← Int.add_emod]

theorem wrap_wrap (n : Fin 3 → ℕ) (p : Pos) : wrapPeriodic n (wrapPeriodic n p) = wrapPeriodic n p := by
  funext e; exact Int.emod_emod_of_dvd _ dvd_rfl

theorem periodic_shift {A : Type} (n : Fin 3 → ℕ) (X : Pos → A) (h : Periodic n X) (t : Pos) : Periodic n (shift t X) :=
  fun p q hpq => h _ _ (wrap_shift n p q t hpq)

theorem periodic_iff {A : Type} (n : Fin 3 → ℕ) (X : Pos → A) :
    Periodic n X ↔ ∀ t : Pos, wrapPeriodic n t = wrapPeriodic n (fun _ => 0) → shift t X = X := by
  constructor
  · intro h t ht
    funext p
    apply h
    have := wrap_shift n t (fun _ => 0) p ht
    simp only [zero_add] at this
    rw [← this]
    congr 1; funext e; ring
  · intro h p q hpq
    have ht : wrapPeriodic n (fun e => q e - p e) = wrapPeriodic n fun _ => 0 := by
      have := wrap_shift n q p (fun e => - p e) hpq.symm
      simpa [sub_eq_add_neg] using this
    have := congrFun (h _ ht) p
    unfold shift at this
    rw [← this]
    congr 1; funext e; ring

theorem refUpdate_periodic (nd : ℕ) (P : Phys K N) (hP : Homogeneous P) (dt : K) (n : Fin 3 → ℕ) (base cur : Fields K N) (hb : Periodic n base)
    (hc : Periodic n cur) : Periodic n (refUpdate nd P dt base cur) := by
  rw [periodic_iff] at hb hc ⊢
  intro t ht
  rw [← refUpdate_shift nd P hP, hb t ht, hc t ht]

/-- on periodic data of a homogeneous problem a stage is update and inversion, everywhere. -/
theorem refFields_periodic (nd : ℕ) (P : Phys K N) (hP : Homogeneous P) (dt : K) (n : Fin 3 → ℕ) (base cur : Fields K N) (hb : Periodic n base)
    (hc : Periodic n cur) : refFields nd (wrapPeriodic n) dt base cur P = fun p => P.inv (fun _ => 0) (refUpdate nd P dt base cur p).1 := by
  funext p
  unfold refFields
  simp only
  rw [hP.bnd, hP.inv p fun _ => 0, refUpdate_periodic nd P hP dt n base cur hb hc _ _ (wrap_wrap n p), ite_self]

theorem refStage_shift (nd : ℕ) (P : Phys K N) (hP : Homogeneous P) (dt : K) (n : Fin 3 → ℕ) (base cur : Glob K N) (hb : PeriodicG n base)
    (hc : PeriodicG n cur) (t : Pos) :
    refStage nd (wrapPeriodic n) dt (shiftG t base).1 (shiftG t cur) P = shiftG t (refStage nd (wrapPeriodic n) dt base.1 cur P) ∧
    PeriodicG n (refStage nd (wrapPeriodic n) dt base.1 cur P) := by
  have hF := refFields_periodic nd P hP dt n base.1 cur.1 hb.1 hc.1
  constructor
  · unfold refStage shiftG
    simp only
    rw [hF, refFields_periodic nd P hP dt n _ _ (periodic_shift n _ hb.1 t) (periodic_shift n _ hc.1 t), refUpdate_shift nd P hP]
    congr 1
    funext d; exact refSpeed_shift P hP t cur.1 d
  · refine ⟨?_, fun d => ?_⟩
    · show Periodic n (refFields nd (wrapPeriodic n) dt base.1 cur.1 P)
      rw [hF]
      intro p q hpq
      simp only [refUpdate_periodic nd P hP dt n base.1 cur.1 hb.1 hc.1 p q hpq]
    · show Periodic n (refSpeed P cur.1 d)
      have h1 := (periodic_iff n cur.1).1 hc.1
      rw [periodic_iff]
      intro s hs
      rw [← refSpeed_shift P hP, h1 s hs]

theorem refStep_shift (nd : ℕ) (sts : List (Phys K N)) (hP : ∀ P ∈ sts, Homogeneous P) (dt : K) (n : Fin 3 → ℕ) (X : Glob K N) (hX : PeriodicG n X) (t : Pos) :
    refStep nd (wrapPeriodic n) dt sts (shiftG t X) = shiftG t (refStep nd (wrapPeriodic n) dt sts X) ∧
    PeriodicG n (refStep nd (wrapPeriodic n) dt sts X) := by
  unfold refStep
  have key : ∀ (l : List (Phys K N)) (cur : Glob K N), (∀ P ∈ l, Homogeneous P) → PeriodicG n cur →
      l.foldl (refStage nd (wrapPeriodic n) dt (shiftG t X).1) (shiftG t cur) = shiftG t (l.foldl (refStage nd (wrapPeriodic n) dt X.1) cur) ∧
      PeriodicG n (l.foldl (refStage nd (wrapPeriodic n) dt X.1) cur) := by
    intro l
    induction l with
    | nil => intro cur _ hc; exact ⟨rfl, hc⟩
    | cons P l ih =>
      intro cur hl hc
      obtain ⟨h1, h2⟩ := refStage_shift nd P (hl P (by simp)) dt n X cur hX hc t
      rw [List.foldl_cons, List.foldl_cons, h1]
      exact ih _ (fun P' h' => hl P' (List.mem_cons_of_mem _ h')) h2
  exact key sts X hP hX

omit [LinearOrder K] in
/-- the estimates of a periodic state do not change under a shift. -/
theorem estimates_shift (nd : ℕ) (n : Fin 3 → ℕ) (hn : ∀ d, 0 < n d) (est : Pos → (Fin N → K) → (Fin 3 → K × K) → K) (he : ∀ p q, est p = est q)
    (X : Glob K N) (hX : PeriodicG n X) (t : Pos) : refEstimates nd (Box n) est (shiftG t X) = refEstimates nd (Box n) est X := by
  have hb := (wrapPeriodic_box n hn).1
  have any : ∀ Z : Glob K N, PeriodicG n Z → refEstimates nd (Box n) est Z =
      {x | ∃ p, x = est (fun _ => 0) (Z.1 p).2 fun d => if d.val < nd then (Z.2 d p, Z.2 d fun e => p e + unit d e) else (0, 0)} := by
    intro Z hZ
    ext x
    constructor
    · rintro ⟨p, -, rfl⟩
      exact ⟨p, by rw [he p fun _ => 0]⟩
    · rintro ⟨p, rfl⟩
      refine ⟨wrapPeriodic n p, hb p, ?_⟩
      rw [he (wrapPeriodic n p) fun _ => 0, hZ.1 _ _ (wrap_wrap n p)]
      congr 1; funext d
      rw [hZ.2 d _ _ (wrap_wrap n p), hZ.2 d _ _ (wrap_shift n _ p (unit d) (wrap_wrap n p))]
  rw [any X hX, any _ ⟨periodic_shift n _ hX.1 t, fun d => periodic_shift n _ (hX.2 d) t⟩]
  ext x
  constructor
  · rintro ⟨p, rfl⟩
    refine ⟨fun e => p e + t e, ?_⟩
    unfold shiftG shift
    have e1 : ∀ d : Fin 3, (fun e => p e + unit d e + t e) = fun e => p e + t e + unit d e := by intro d; funext e; ring
    simp only [e1]
  · rintro ⟨p, rfl⟩
    refine ⟨fun e => p e - t e, ?_⟩
    unfold shiftG shift
    have e1 : ∀ d : Fin 3, (fun e => p e - t e + unit d e + t e) = fun e => p e + unit d e := by intro d; funext e; ring
    simp only [e1, sub_add_cancel]

/-- **C132 (without blocks)**. -/
theorem refRun_shift (nd : ℕ) (n : Fin 3 → ℕ) (hn : ∀ d, 0 < n d) (est : Pos → (Fin N → K) → (Fin 3 → K × K) → K) (he : ∀ p q, est p = est q)
    (ctrl : ℕ → K → Set K → K) (prog : ℕ → K → List (Phys K N)) (hP : ∀ k dt, ∀ P ∈ prog k dt, Homogeneous P) (Y : Glob K N) (hY : PeriodicG n Y)
    (dt : K) (t : Pos) (k : ℕ) :
    (refRun nd (Box n) (wrapPeriodic n) est ctrl prog k (shiftG t Y, dt)).1 = shiftG t (refRun nd (Box n) (wrapPeriodic n) est ctrl prog k (Y, dt)).1 ∧
    (refRun nd (Box n) (wrapPeriodic n) est ctrl prog k (shiftG t Y, dt)).2 = (refRun nd (Box n) (wrapPeriodic n) est ctrl prog k (Y, dt)).2 ∧
    PeriodicG n (refRun nd (Box n) (wrapPeriodic n) est ctrl prog k (Y, dt)).1 := by
  induction k with
  | zero => exact ⟨rfl, rfl, hY⟩
  | succ k ih =>
    obtain ⟨i1, i2, i3⟩ := ih
    simp only [refRun]
    rw [i1, i2]
    obtain ⟨s1, s2⟩ := refStep_shift nd (prog k (refRun nd (Box n) (wrapPeriodic n) est ctrl prog k (Y, dt)).2) (hP k _)
      (refRun nd (Box n) (wrapPeriodic n) est ctrl prog k (Y, dt)).2 n _ i3 t
    refine ⟨s1, ?_, s2⟩
    rw [s1, estimates_shift nd n hn est he _ s2 t]

/-- **C132**: on a periodic domain with the same geometry everywhere, shift the initial data by any number of cells - across block boundaries, on
a mesh cut differently - and the result of the run, after any number of steps, is the result of the original run shifted by as much. -/
theorem run_shift {B B' : Type} (G : Grid B) (G' : Grid B') (nd : ℕ) (g : ℤ) (n : Fin 3 → ℕ) (hn : ∀ d, 0 < n d) (hT : Tiles G nd g (Box n))
    (hT' : Tiles G' nd g (Box n)) (hw : G.wrap = wrapPeriodic n) (hw' : G'.wrap = wrapPeriodic n) (est : Pos → (Fin N → K) → (Fin 3 → K × K) → K)
    (he : ∀ p q, est p = est q) (ctrl : ℕ → K → Set K → K) (prog : ℕ → K → List (Phys K N)) (hP : ∀ k dt, ∀ P ∈ prog k dt, Homogeneous P) (hg0 : 0 ≤ g)
    (hg : ∀ n dt, ∀ P ∈ prog n dt, 1 + radius P.rt ≤ g) (mem : ℕ → ℕ → B → Mem K N) (ho : Complete G mem) (mem' : ℕ → ℕ → B' → Mem K N)
    (ho' : Complete G' mem') (X : Mesh K N B) (X' : Mesh K N B') (Y : Glob K N) (hY : PeriodicG n Y) (t : Pos) (dt : K) (h : Holds G X Y)
    (h' : Holds G' X' (shiftG t Y)) (k : ℕ) :
    (∀ i i' c c', (G.shape i).Interior c → (G'.shape i').Interior c' → wrapPeriodic n (fun e => c' e + G'.off i' e + t e) = (fun e => c e + G.off i e) →
      (run G' est ctrl prog mem' k (X', dt)).1.1 i' c' = (run G est ctrl prog mem k (X, dt)).1.1 i c) ∧
    (run G' est ctrl prog mem' k (X', dt)).2 = (run G est ctrl prog mem k (X, dt)).2 := by
  obtain ⟨a1, a2⟩ := run_holds G nd g _ hT est ctrl prog hg0 hg mem ho X Y dt h k
  obtain ⟨b1, b2⟩ := run_holds G' nd g _ hT' est ctrl prog hg0 hg mem' ho' X' _ dt h' k
  rw [hw] at a1 a2
  rw [hw'] at b1 b2
  obtain ⟨s1, s2, s3⟩ := refRun_shift nd n hn est he ctrl prog hP Y hY dt t k
  refine ⟨fun i i' c c' hi hi' hcc => ?_, by rw [b2, s2, a2]⟩
  rw [b1.1 i' c' (interior_entire _ (by rw [hT'.ghosts]; omega) c' hi'), a1.1 i c (interior_entire _ (by rw [hT.ghosts]; omega) c hi), s1, ← hcc]
  exact s3.1 _ _ (wrap_wrap n _).symm

/-! ### Uniform data -/

/-- what a stage does to a uniform state: the sources, the two inversions and what happens between them. -/
def uniformStage (dt : K) (x0 x : Cell K N) (P : Phys K N) : Cell K N :=
  P.inv (fun _ => 0) (P.mid (fun _ => 0) (P.inv (fun _ => 0) fun m => P.beta * x.1 m + (1 - P.beta) * x0.1 m + P.beta * dt * P.src (fun _ => 0) x.2 m)).1

/-- the step. -/
def uniformStep (dt : K) (sts : List (Phys K N)) (x : Cell K N) : Cell K N := sts.foldl (uniformStage dt x) x

theorem refStage_uniform (nd : ℕ) (wrap : Pos → Pos) (P : Phys K N) (hP : Homogeneous P) (dt : K) (x0 x : Cell K N) :
    refFields nd wrap dt (fun _ => x0) (fun _ => x) P = fun _ => uniformStage dt x0 x P := by
  have hsh : ∀ p : Pos, refUpdate nd P dt (fun _ => x0) (fun _ => x) p = refUpdate nd P dt (fun _ => x0) (fun _ => x) fun _ => 0 := by
    intro p
    have := congrFun (refUpdate_shift nd P hP dt p (fun _ => x0) (fun _ => x)) fun _ => 0
    have e1 : shift p (fun _ : Pos => x0) = fun _ => x0 := rfl
    have e2 : shift p (fun _ : Pos => x) = fun _ => x := rfl
    rw [e1, e2] at this
    rw [this]
    unfold shift
    congr 1; funext e; ring
  have hall : ∀ d p, refAll nd P (fun _ => x) d p = refAll nd P (fun _ => x) d fun _ => 0 := by
    intro d p
    unfold refAll
    rw [hP.fix d p fun _ => 0, hP.rad d p fun _ => 0]
    have e0 : near nd P.rt d p (fun _ => x) = near nd P.rt d (fun _ => 0) fun _ => x := by funext r n; unfold near; rfl
    rw [e0]
    congr 1; funext m
    congr 1
    have := refCT_shift nd P.mhd (refFlux P fun _ => x) (refFlux P fun _ => x) p (fun d q => refFlux_shift P hP p (fun _ => x) d q) d (fun _ => 0) m
    simp only [zero_add] at this
    exact this.symm
  have hdiv : ∀ m p, refDiv nd P.dx (refAll nd P fun _ => x) m p = 0 := by
    intro m p
    unfold refDiv
    rw [neg_eq_zero]
    apply Finset.sum_eq_zero
    intro d _
    rw [hall d p, hall d fun e => p e + unit d e]
    simp
  funext p
  unfold refFields
  simp only
  rw [hP.bnd, hP.inv p fun _ => 0, hsh p, hsh (wrap p), ite_self]
  unfold uniformStage refUpdate
  simp only [hdiv, zero_add]

theorem refStep_uniform (nd : ℕ) (wrap : Pos → Pos) (sts : List (Phys K N)) (hP : ∀ P ∈ sts, Homogeneous P) (dt : K) (X : Glob K N) (x : Cell K N)
    (hX : X.1 = fun _ => x) : (refStep nd wrap dt sts X).1 = fun _ => uniformStep dt sts x := by
  unfold refStep uniformStep
  rw [hX]
  have key : ∀ (l : List (Phys K N)) (cur : Glob K N) (y : Cell K N), (∀ P ∈ l, Homogeneous P) → (cur.1 = fun _ => y) →
      (l.foldl (refStage nd wrap dt fun _ => x) cur).1 = fun _ => l.foldl (uniformStage dt x) y := by
    intro l
    induction l with
    | nil => intro cur y _ hc; exact hc
    | cons P l ih =>
      intro cur y hl hc
      rw [List.foldl_cons, List.foldl_cons]
      refine ih _ _ (fun P' h' => hl P' (List.mem_cons_of_mem _ h')) ?_
      show refFields nd wrap dt (fun _ => x) cur.1 P = _
      rw [hc, refStage_uniform nd wrap P (hl P (by simp))]
  exact key sts X x hP hX

/-- **C131**: on a mesh cut in any way, with the same geometry everywhere and ghost cells that are copies (periodic or outflow), a state that is the
same in all cells stays so for ever; from step to step it changes as a single cell with the sources would. -/
theorem run_uniform {B : Type} (G : Grid B) (nd : ℕ) (g : ℤ) (Dom : Pos → Prop) (hT : Tiles G nd g Dom) (est : Pos → (Fin N → K) → (Fin 3 → K × K) → K)
    (ctrl : ℕ → K → Set K → K) (prog : ℕ → K → List (Phys K N)) (hP : ∀ k dt, ∀ P ∈ prog k dt, Homogeneous P) (hg0 : 0 ≤ g)
    (hg : ∀ n dt, ∀ P ∈ prog n dt, 1 + radius P.rt ≤ g) (mem : ℕ → ℕ → B → Mem K N) (ho : Complete G mem) (X : Mesh K N B) (fs : Fin 3 → Pos → K)
    (x : Cell K N) (dt : K) (h : Holds G X (fun _ => x, fs)) (n : ℕ) :
    ∃ y : ℕ → Cell K N, y 0 = x ∧
      (∀ k, y (k + 1) = uniformStep (run G est ctrl prog mem k (X, dt)).2 (prog k (run G est ctrl prog mem k (X, dt)).2) (y k)) ∧
      ∀ i c, (G.shape i).Entire c → (run G est ctrl prog mem n (X, dt)).1.1 i c = y n := by
  have a := run_holds G nd g Dom hT est ctrl prog hg0 hg mem ho X (fun _ => x, fs) dt h
  let y : ℕ → Cell K N := fun k => Nat.rec x (fun k z => uniformStep (run G est ctrl prog mem k (X, dt)).2 (prog k (run G est ctrl prog mem k (X, dt)).2) z) k
  have hy : ∀ k, (refRun nd Dom G.wrap est ctrl prog k ((fun _ => x, fs), dt)).1.1 = fun _ => y k := by
    intro k
    induction k with
    | zero => rfl
    | succ k ih =>
      simp only [refRun]
      rw [refStep_uniform nd G.wrap _ (hP k _) _ _ (y k) ih, ← (a k).2]
  refine ⟨y, rfl, fun k => rfl, fun i c hc => ?_⟩
  rw [(a n).1.1 i c hc, hy n]

/-- **C131 (equilibrium)**: if moreover there are no sources and inversion and exchange with radiation leave the state as it is, a uniform state does not change at all. -/
theorem run_equilibrium {B : Type} (G : Grid B) (nd : ℕ) (g : ℤ) (Dom : Pos → Prop) (hT : Tiles G nd g Dom) (est : Pos → (Fin N → K) → (Fin 3 → K × K) → K)
    (ctrl : ℕ → K → Set K → K) (prog : ℕ → K → List (Phys K N)) (hP : ∀ k dt, ∀ P ∈ prog k dt, Homogeneous P) (hg0 : 0 ≤ g)
    (hg : ∀ n dt, ∀ P ∈ prog n dt, 1 + radius P.rt ≤ g) (mem : ℕ → ℕ → B → Mem K N) (ho : Complete G mem) (X : Mesh K N B) (fs : Fin 3 → Pos → K)
    (x : Cell K N) (dt : K) (h : Holds G X (fun _ => x, fs)) (hs : ∀ k dt, ∀ P ∈ prog k dt, ∀ p m, P.src p x.2 m = 0)
    (hi : ∀ k dt, ∀ P ∈ prog k dt, ∀ p, P.inv p x.1 = x) (hm : ∀ k dt, ∀ P ∈ prog k dt, ∀ p, P.mid p x = x) (n : ℕ) (i : B) (c : Pos) (hc : (G.shape i).Entire c) :
    (run G est ctrl prog mem n (X, dt)).1.1 i c = x := by
  obtain ⟨y, y0, ys, hy⟩ := run_uniform G nd g Dom hT est ctrl prog hP hg0 hg mem ho X fs x dt h n
  have stay : ∀ k, y k = x := by
    intro k
    induction k with
    | zero => exact y0
    | succ k ih =>
      rw [ys, ih]
      unfold uniformStep
      have : ∀ l : List (Phys K N), (∀ P ∈ l, P ∈ prog k (run G est ctrl prog mem k (X, dt)).2) →
          l.foldl (uniformStage (run G est ctrl prog mem k (X, dt)).2 x) x = x := by
        intro l
        induction l with
        | nil => intro _; rfl
        | cons P l ih =>
          intro hl
          have hP' := hl P (by simp)
          rw [List.foldl_cons]
          have : uniformStage (run G est ctrl prog mem k (X, dt)).2 x x P = x := by
            unfold uniformStage
            have e1 : (fun m => P.beta * x.1 m + (1 - P.beta) * x.1 m + P.beta * (run G est ctrl prog mem k (X, dt)).2 * P.src (fun _ => 0) x.2 m) = x.1 := by
              funext m; rw [hs k _ P hP']; ring
            rw [e1, hi k _ P hP', hm k _ P hP', hi k _ P hP']
          rw [this]
          exact ih fun P' h' => hl P' (List.mem_cons_of_mem _ h')
      exact this _ fun P h => h
  rw [hy i c hc, stay n]

/-! ### The hypotheses are met -/

/-- linear advection to the right of two fields (of which the second is a passive copy), first-order reconstruction. -/
def advect : Phys ℚ 2 where
  beta := 1
  ew := 0
  em := 0
  rt := .constant
  S := fun _ _ l _ m => if m = 0 then l 0 else if m = 1 then l 1 else 0
  sig := fun _ _ _ _ => 1
  fix := fun _ _ F => F
  src := fun _ _ _ => 0
  inv := fun _ u => (u, fun n => u n.val)
  bnd := fun _ x => x
  mhd := none
  dx := fun _ => 1
  mid := fun _ x => x
  rad := fun _ _ _ _ => 0

theorem advect_homogeneous : Homogeneous advect := ⟨fun _ _ _ => rfl, fun _ _ _ => rfl, fun _ _ _ => rfl, fun _ _ => rfl, fun _ _ => rfl, fun _ _ => rfl, fun _ _ _ => rfl, fun _ _ => rfl⟩

/-- data that are not uniform on a periodic domain of 4 cells, and their shift by one cell, which differs. -/
theorem ex_periodic : ∃ Y : Glob ℚ 2, PeriodicG ![4, 1, 1] Y ∧ shiftG (unit 0) Y ≠ Y := by
  refine ⟨(fun p => (fun m => if m = 0 then (wrapPeriodic ![4, 1, 1] p 0 : ℚ) else 1, ![(wrapPeriodic ![4, 1, 1] p 0 : ℚ), 1]), fun _ _ => 1), ⟨?_, ?_⟩, ?_⟩
  · intro p q h
    simp only [h]
  · intro d p q _; rfl
  · intro h
    have := congrFun (congrFun (congrArg (fun Z => fun p => (Z.1 p).1) h) fun _ => 0) 0
    simp [shiftG, shift, unit, wrapPeriodic] at this

/-- one step of the advection moves the data by one cell: the update is not trivial. -/
theorem advect_moves (Y : Glob ℚ 2) (hY : PeriodicG ![4, 1, 1] Y) (hc : ∀ p n, (Y.1 p).2 n = (Y.1 p).1 n.val) (p : Pos) :
    ((refStep 1 (wrapPeriodic ![4, 1, 1]) 1 [advect] Y).1 p).1 0 = (Y.1 fun e => p e - unit 0 e).1 0 := by
  have h := congrFun (refFields_periodic 1 advect advect_homogeneous 1 ![4, 1, 1] Y.1 Y.1 hY.1 hY.1) p
  show (refFields 1 (wrapPeriodic ![4, 1, 1]) 1 Y.1 Y.1 advect p).1 0 = _
  rw [h]
  have e1 : ∀ f : Pos, stateL (kernel (0:ℚ) 0 .constant) (fun n c => (Y.1 c).2 n) 0 f 0 = (Y.1 fun e => f e - unit 0 e).1 0 := by
    intro f
    unfold stateL kernel Recon.piecewiseConstant
    simp only
    rw [hc]
    simp only [zero_sub, neg_mul, one_mul, Fin.val_zero, ← sub_eq_add_neg]
  simp only [advect, refUpdate, refDiv, refAll, refCT, refFlux, Fin.sum_univ_three, e1]
  simp

end Phoebus.Step
