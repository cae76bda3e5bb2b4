import Verif.Step.Grids
import Verif.Recon.Props

/-!
# C131-C133: what a run does to uniform, shifted and locally changed data
-/
namespace Phoebus.Step
open FluxSweep
variable {K : Type} [Field K] [LinearOrder K] {N : ℕ}

/-! ### C133: domain of dependence -/

/-- `q` is at most `r` cells from `p` in every direction. -/
def Near (r : ℤ) (p q : Pos) : Prop := ∀ e, |q e - p e| ≤ r

theorem near_mono {r s : ℤ} (h : r ≤ s) {p q : Pos} (hn : Near r p q) : Near s p q := fun e => (hn e).trans h

theorem near_trans {r s : ℤ} {p q x : Pos} (h1 : Near r p q) (h2 : Near s q x) : Near (r + s) p x := by
  intro e
  have a := h1 e; have b := h2 e
  rw [abs_le] at a b ⊢
  omega

theorem near_self {r : ℤ} (h : 0 ≤ r) (p : Pos) : Near r p p := fun e => by simp [h]

theorem unit_le (d e : Fin 3) : 0 ≤ unit d e ∧ unit d e ≤ 1 := by unfold unit; split_ifs <;> omega

/-- the reconstructed states at a face look at most `radius + 1` cells below and `radius` cells above. -/
theorem states_congr (P : Phys K N) (V V' : Fin N → Pos → K) (d : Fin 3) (f : Pos)
    (h : ∀ n k, -(radius P.rt + 1) ≤ k → k ≤ radius P.rt → V n (fun e => f e + k * unit d e) = V' n fun e => f e + k * unit d e) :
    stateL (kernel P.ew P.em P.rt) V d f = stateL (kernel P.ew P.em P.rt) V' d f ∧
    stateR (kernel P.ew P.em P.rt) V d f = stateR (kernel P.ew P.em P.rt) V' d f := by
  constructor
  · funext n
    unfold stateL
    rw [kernel_congr P.ew P.em P.rt _ fun m => V' n fun e => f e + (m - 1) * unit d e]
    intro m hm
    rw [abs_le] at hm
    exact h n (m - 1) (by omega) (by omega)
  · funext n
    unfold stateR
    rw [kernel_congr P.ew P.em P.rt _ fun m => V' n fun e => f e + m * unit d e]
    intro m hm
    rw [abs_le] at hm
    exact h n m (by omega) (by omega)

/-- the flux at a face. -/
theorem refFlux_congr (P : Phys K N) (X X' : Fields K N) (d : Fin 3) (f : Pos)
    (h : ∀ k, -(radius P.rt + 1) ≤ k → k ≤ radius P.rt → X (fun e => f e + k * unit d e) = X' fun e => f e + k * unit d e) :
    refFlux P X d f = refFlux P X' d f := by
  obtain ⟨h1, h2⟩ := states_congr P (fun n c => (X c).2 n) (fun n c => (X' c).2 n) d f (fun n k a b => by simp only [h k a b])
  unfold refFlux
  rw [h1, h2]

/-- faces read by the constrained-transport flux at the faces of cell `p`: shifts between `-1` and `1` in all directions, not below `0` in
the normal direction. -/
theorem refCT_congr (nd : ℕ) (mhd : Option ℕ) (Φ Φ' : Fin 3 → Pos → ℕ → K) (p : Pos)
    (h : ∀ d (s : Pos), (∀ e, -1 ≤ s e ∧ s e ≤ 1) → 0 ≤ s d → Φ d (fun e => p e + s e) = Φ' d fun e => p e + s e) (d : Fin 3) (m : ℕ) :
    refCT nd mhd Φ d p m = refCT nd mhd Φ' d p m ∧
    refCT nd mhd Φ d (fun e => p e + unit d e) m = refCT nd mhd Φ' d (fun e => p e + unit d e) m := by
  have u := unit_le
  have hz : Φ d p = Φ' d p := by
    have := h d (fun _ => 0) (fun _ => by omega) (by omega)
    simpa using this
  have emf : ∀ (c : Fin 3), d ≠ c → ∀ s : Pos, (∀ e, 0 ≤ s e ∧ s e ≤ 1) → ∀ b0,
      emfAt Φ b0 d c (fun e => p e + s e) = emfAt Φ' b0 d c fun e => p e + s e := by
    intro c hdc s hs b0
    unfold emfAt
    have e1 : ∀ a b : Fin 3, a ≠ b → Φ a (fun e => p e + s e - unit b e) = Φ' a fun e => p e + s e - unit b e := by
      intro a b hab
      have := h a (fun e => s e - unit b e) (fun e => by have := hs e; have := u b e; omega) (by
        have := hs a
        simp only [unit, hab, if_false]; omega)
      simpa only [add_sub_assoc] using this
    rw [h d s (fun e => by have := hs e; omega) (hs d).1, h c s (fun e => by have := hs e; omega) (hs c).1, e1 d c hdc, e1 c d hdc.symm]
  constructor
  · unfold refCT
    cases mhd with
    | none => simp only [hz]
    | some b0 =>
      simp only
      split_ifs with h1 h2
      · rfl
      · have a1 := emf _ h2 (fun _ => 0) (fun _ => by omega) b0
        have a2 := emf _ h2 (unit ⟨m - b0, by omega⟩) (fun e => u _ e) b0
        simp only [add_zero] at a1
        rw [a1, a2]
      · rw [hz]
  · have hz' := h d (unit d) (fun e => by have := u d e; omega) (u d d).1
    unfold refCT
    cases mhd with
    | none => simp only [hz']
    | some b0 =>
      simp only
      split_ifs with h1 h2
      · rfl
      · have a1 := emf _ h2 (unit d) (fun e => u d e) b0
        have a2 := emf _ h2 (fun e => unit d e + unit ⟨m - b0, by omega⟩ e) (fun e => by
          have := u d e; have := u ⟨m - b0, by omega⟩ e
          refine ⟨by omega, ?_⟩
          unfold unit
          split_ifs with x y
          · exact absurd (x.symm.trans y) h2
          all_goals omega) b0
        simp only [← add_assoc] at a2
        rw [a1, a2]
      · rw [hz']

/-- the cells around a face. -/
theorem near_congr (nd : ℕ) (rt : Method) (X X' : Fields K N) (p : Pos) (hc : ∀ q, Near (1 + radius rt) p q → X q = X' q) (d : Fin 3) (t : ℤ)
    (ht : 0 ≤ t ∧ t ≤ 1) : near nd rt d (fun e => p e + t * unit d e) X = near nd rt d (fun e => p e + t * unit d e) X' := by
  have hr : 0 ≤ radius rt := by cases rt <;> simp [radius]
  funext r n
  unfold near
  split_ifs with hs
  · rw [hc]
    intro e
    have a := hs e
    rw [abs_le]
    by_cases he : e = d
    · subst he
      simp only [unit, if_true] at a ⊢
      split_ifs at a <;> omega
    · simp only [unit, he, if_false] at a ⊢
      split_ifs at a <;> omega
  · rfl

/-- the update of a cell reads cells at a distance of at most `radius + 1`. -/
theorem refUpdate_congr (nd : ℕ) (P : Phys K N) (dt : K) (base base' cur cur' : Fields K N) (p : Pos) (hb : base p = base' p)
    (hc : ∀ q, Near (1 + radius P.rt) p q → cur q = cur' q) : refUpdate nd P dt base cur p = refUpdate nd P dt base' cur' p := by
  have hr : 0 ≤ radius P.rt := by cases P.rt <;> simp [radius]
  have hF : ∀ d (s : Pos), (∀ e, -1 ≤ s e ∧ s e ≤ 1) → 0 ≤ s d → refFlux P cur d (fun e => p e + s e) = refFlux P cur' d fun e => p e + s e := by
    intro d s hs h0
    apply refFlux_congr
    intro k h1 h2
    apply hc
    intro e
    have := hs e
    rw [abs_le]
    by_cases he : e = d
    · subst he; simp only [unit, if_true]; constructor <;> linarith
    · simp only [unit, he, if_false]; constructor <;> linarith
  unfold refUpdate
  congr 2; funext m
  have hD : refDiv nd P.dx (refAll nd P cur) m p = refDiv nd P.dx (refAll nd P cur') m p := by
    unfold refDiv
    congr 1
    apply Finset.sum_congr rfl
    intro d _
    have n0 := near_congr nd P.rt cur cur' p hc d 0 (by omega)
    have n1 := near_congr nd P.rt cur cur' p hc d 1 (by omega)
    simp only [zero_mul, add_zero, one_mul] at n0 n1
    have h1 : refAll nd P cur d p = refAll nd P cur' d p := by
      unfold refAll; rw [n0]; congr 1; funext m'; congr 1; exact (refCT_congr nd P.mhd _ _ p hF d m').1
    have h2 : refAll nd P cur d (fun e => p e + unit d e) = refAll nd P cur' d fun e => p e + unit d e := by
      unfold refAll; rw [n1]; congr 1; funext m'; congr 1; exact (refCT_congr nd P.mhd _ _ p hF d m').2
    rw [h1, h2]
  rw [hD, hb, hc p (near_self (by omega) p)]

/-- boundary images do not lead away from `p` (up to distance `r`): true if all cells up to that distance lie in the domain, and everywhere for
boundaries that copy or mirror cells. -/
def Gathers (wrap : Pos → Pos) (p : Pos) (r : ℤ) : Prop := ∀ s, s ≤ r → ∀ q, Near s p q → Near s p (wrap q)

theorem gathers_inside (wrap : Pos → Pos) (Dom : Pos → Prop) (hf : ∀ p, Dom p → wrap p = p) (p : Pos) (r : ℤ) (h : ∀ q, Near r p q → Dom q) :
    Gathers wrap p r := by
  intro s hs q hq
  rw [hf q (h q (near_mono hs hq))]
  exact hq

theorem gathers_nearest (n : Fin 3 → ℕ) (hn : ∀ d, 0 < n d) (p : Pos) (hp : Box n p) (r : ℤ) : Gathers (wrapNearest n) p r := by
  intro s hs q hq e
  have a := hq e; have b := hp e; have := hn e
  rw [abs_le] at a ⊢
  unfold wrapNearest
  omega

theorem stage_local (nd : ℕ) (wrap : Pos → Pos) (dt : K) (base base' cur cur' : Fields K N) (P : Phys K N) (p : Pos) (R r : ℤ)
    (hR : 1 + radius P.rt ≤ R) (hr : R ≤ r) (hG : Gathers wrap p r) (hb : ∀ q, Near r p q → base q = base' q) (hc : ∀ q, Near r p q → cur q = cur' q) :
    ∀ q, Near (r - R) p q → refFields nd wrap dt base cur P q = refFields nd wrap dt base' cur' P q := by
  have hrad : 0 ≤ radius P.rt := by cases P.rt <;> simp [radius]
  intro q hq
  have upd : ∀ x, Near (r - R) p x → refUpdate nd P dt base cur x = refUpdate nd P dt base' cur' x := by
    intro x hx
    refine refUpdate_congr nd P dt base base' cur cur' x (hb x (near_mono (by omega) hx)) fun y hy => hc y ?_
    exact near_mono (by omega) (near_trans hx hy)
  unfold refFields
  simp only
  rw [upd q hq, upd (wrap q) (hG (r - R) (by omega) q hq)]

/-- number of stages of the first `n` steps. -/
def stages (prog : ℕ → K → List (Phys K N)) (dt : ℕ → K) : ℕ → ℕ
  | 0 => 0
  | n + 1 => stages prog dt n + (prog n (dt n)).length

theorem step_local (nd : ℕ) (wrap : Pos → Pos) (dt : K) (sts : List (Phys K N)) (X X' : Glob K N) (p : Pos) (R r : ℤ) (hR0 : 0 ≤ R)
    (hR : ∀ P ∈ sts, 1 + radius P.rt ≤ R) (hr : R * sts.length ≤ r) (hG : Gathers wrap p r) (h : ∀ q, Near r p q → X.1 q = X'.1 q) :
    ∀ q, Near (r - R * sts.length) p q → (refStep nd wrap dt sts X).1 q = (refStep nd wrap dt sts X').1 q := by
  unfold refStep
  have key : ∀ (l : List (Phys K N)) (cur cur' : Glob K N) (s : ℤ), (∀ P ∈ l, 1 + radius P.rt ≤ R) → R * l.length ≤ s → s ≤ r →
      (∀ q, Near s p q → cur.1 q = cur'.1 q) → ∀ q, Near (s - R * l.length) p q →
      (l.foldl (refStage nd wrap dt X.1) cur).1 q = (l.foldl (refStage nd wrap dt X'.1) cur').1 q := by
    intro l
    induction l with
    | nil => intro cur cur' s _ _ _ hc q hq; exact hc q (by simpa using hq)
    | cons P l ih =>
      intro cur cur' s hP hs hsr hc q hq
      have hlen : R * ((P :: l).length : ℤ) = R * l.length + R := by rw [List.length_cons]; push_cast; ring
      have hl0 : 0 ≤ R * (l.length : ℤ) := by positivity
      rw [List.foldl_cons, List.foldl_cons]
      refine ih _ _ (s - R) (fun P' h' => hP P' (List.mem_cons_of_mem _ h')) (by omega) (by omega) ?_ q (by
        have : s - R - R * (l.length : ℤ) = s - R * ((P :: l).length : ℤ) := by omega
        rw [this]; exact hq)
      exact stage_local nd wrap dt X.1 X'.1 cur.1 cur'.1 P p R s (hP P (by simp)) (by omega) (fun t ht => hG t (by omega))
        (fun q hq => h q (near_mono hsr hq)) hc
  exact key sts X X' r hR hr le_rfl h

/-- **C133 (without blocks)**. -/
theorem ref_dependence (nd : ℕ) (Dom : Pos → Prop) (wrap : Pos → Pos) (est : Pos → (Fin N → K) → (Fin 3 → K × K) → K) (ctrl ctrl' : ℕ → K → Set K → K)
    (prog : ℕ → K → List (Phys K N)) (R : ℤ) (hR0 : 0 ≤ R) (hR : ∀ n dt, ∀ P ∈ prog n dt, 1 + radius P.rt ≤ R) (Y Y' : Glob K N) (dt0 : K) (n : ℕ)
    (hdt : ∀ k < n, (refRun nd Dom wrap est ctrl prog k (Y, dt0)).2 = (refRun nd Dom wrap est ctrl' prog k (Y', dt0)).2) (p : Pos) (r : ℤ)
    (hr : R * stages prog (fun k => (refRun nd Dom wrap est ctrl prog k (Y, dt0)).2) n ≤ r) (hG : Gathers wrap p r)
    (h : ∀ q, Near r p q → Y.1 q = Y'.1 q) :
    ∀ q, Near (r - R * stages prog (fun k => (refRun nd Dom wrap est ctrl prog k (Y, dt0)).2) n) p q →
      (refRun nd Dom wrap est ctrl prog n (Y, dt0)).1.1 q = (refRun nd Dom wrap est ctrl' prog n (Y', dt0)).1.1 q := by
  induction n with
  | zero => intro q hq; exact h q (by simpa [stages] using hq)
  | succ n ih =>
    intro q hq
    simp only [stages] at hr hq
    push_cast at hr hq
    rw [mul_add] at hr hq
    have hl0 : 0 ≤ R * ((prog n (refRun nd Dom wrap est ctrl prog n (Y, dt0)).2).length : ℤ) := by positivity
    have i := ih (fun k hk => hdt k (by omega)) (by omega)
    simp only [refRun]
    rw [← hdt n (by omega)]
    refine step_local nd wrap _ _ _ _ p R _ hR0 (hR n _) ?_ (fun s hs => hG s ?_) i q ?_
    · omega
    · have : 0 ≤ R * (stages prog (fun k => (refRun nd Dom wrap est ctrl prog k (Y, dt0)).2) n : ℤ) := by positivity
      omega
    · refine near_mono (le_of_eq ?_) hq
      ring

/-- **C133**: change the initial data of a run anywhere further than `1 + radius` cells per stage from a cell: if the two runs take the same time
steps, the cell has the same values at the end.  Only distances matter: neither the blocks nor the boundary conditions that copy or mirror
cells transmit anything faster. -/
theorem run_dependence {B B' : Type} (G : Grid B) (G' : Grid B') (nd : ℕ) (g : ℤ) (Dom : Pos → Prop) (hT : Tiles G nd g Dom) (hT' : Tiles G' nd g Dom)
    (hw : G.wrap = G'.wrap) (est : Pos → (Fin N → K) → (Fin 3 → K × K) → K) (ctrl : ℕ → K → Set K → K) (prog : ℕ → K → List (Phys K N)) (hg0 : 0 ≤ g)
    (hg : ∀ n dt, ∀ P ∈ prog n dt, 1 + radius P.rt ≤ g) (mem : ℕ → ℕ → B → Mem K N) (ho : Complete G mem) (mem' : ℕ → ℕ → B' → Mem K N)
    (ho' : Complete G' mem') (X : Mesh K N B) (X' : Mesh K N B') (Y Y' : Glob K N) (dt0 : K) (h : Holds G X Y) (h' : Holds G' X' Y')
    (R : ℤ) (hR0 : 0 ≤ R) (hR : ∀ n dt, ∀ P ∈ prog n dt, 1 + radius P.rt ≤ R) (n : ℕ)
    (hdt : ∀ k < n, (run G est ctrl prog mem k (X, dt0)).2 = (run G' est ctrl prog mem' k (X', dt0)).2)
    (i : B) (i' : B') (c c' : Pos) (hi : (G.shape i).Interior c) (hi' : (G'.shape i').Interior c') (hcc : ∀ e, c e + G.off i e = c' e + G'.off i' e)
    (hG : Gathers G.wrap (fun e => c e + G.off i e) (R * stages prog (fun k => (run G est ctrl prog mem k (X, dt0)).2) n))
    (hloc : ∀ q, Near (R * stages prog (fun k => (run G est ctrl prog mem k (X, dt0)).2) n) (fun e => c e + G.off i e) q → Y.1 q = Y'.1 q) :
    (run G est ctrl prog mem n (X, dt0)).1.1 i c = (run G' est ctrl prog mem' n (X', dt0)).1.1 i' c' := by
  have a := run_holds G nd g Dom hT est ctrl prog hg0 hg mem ho X Y dt0 h
  have b := run_holds G' nd g Dom hT' est ctrl prog hg0 hg mem' ho' X' Y' dt0 h'
  rw [← hw] at b
  have hst : (fun k => (run G est ctrl prog mem k (X, dt0)).2) = fun k => (refRun nd Dom G.wrap est ctrl prog k (Y, dt0)).2 := funext fun k => (a k).2
  rw [hst] at hG hloc
  rw [(a n).1.1 i c (interior_entire _ (by rw [hT.ghosts]; omega) c hi), (b n).1.1 i' c' (interior_entire _ (by rw [hT'.ghosts]; omega) c' hi'),
    ← funext hcc]
  refine ref_dependence nd Dom G.wrap est ctrl ctrl prog R hR0 hR Y Y' dt0 n (fun k hk => ?_) _ _ le_rfl hG hloc _ (near_self (by omega) _)
  rw [← (a k).2, ← (b k).2]
  exact hdt k hk

end Phoebus.Step
