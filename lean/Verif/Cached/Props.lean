import Mathlib.Order.Interval.Finset.Defs
import Mathlib.Data.Int.Interval
import Verif.Cached.Model
import Verif.GeomUtils.Props
import Verif.Geom.ADM

namespace Phoebus.Cached
open GeomUtils
variable {K : Type*}

/-! ### Stores -/

theorem run_append (m : Mem K) (a b : List (Write K)) : m.run (a ++ b) = (m.run a).run b := by
  simp [Mem.run, List.foldl_append]

/-- addresses that nobody writes keep their value. -/
theorem run_ne (ws : List (Write K)) (m : Mem K) (c : Cell) (n : ℕ)
    (h : ∀ w ∈ ws, w.cell = c → w.comp = n → False) : m.run ws c n = m c n := by
  induction ws generalizing m with
  | nil => rfl
  | cons w ws ih =>
    have h1 : (m.set w).run ws c n = m.set w c n := ih _ fun w' hw => h w' (List.mem_cons_of_mem _ hw)
    rw [show m.run (w :: ws) = (m.set w).run ws from rfl, h1]
    unfold Mem.set
    rw [if_neg]
    rintro ⟨rfl, rfl⟩
    exact h w List.mem_cons_self rfl rfl

/-- if everybody who writes an address writes the same value, and somebody does, that value is found there, in whatever
order the writes are executed. -/
theorem run_eq (ws : List (Write K)) (m : Mem K) (c : Cell) (n : ℕ) (x : K)
    (h : ∀ w ∈ ws, w.cell = c → w.comp = n → w.val = x) (he : ∃ w ∈ ws, w.cell = c ∧ w.comp = n) :
    m.run ws c n = x := by
  induction ws generalizing m with
  | nil => obtain ⟨w, hw, _⟩ := he; simp at hw
  | cons w ws ih =>
    rw [show m.run (w :: ws) = (m.set w).run ws from rfl]
    by_cases hex : ∃ w ∈ ws, w.cell = c ∧ w.comp = n
    · exact ih _ (fun w' hw => h w' (List.mem_cons_of_mem _ hw)) hex
    · rw [run_ne ws _ c n fun w' hw h1 h2 => hex ⟨w', hw, h1, h2⟩]
      obtain ⟨w', hw', h1, h2⟩ := he
      rcases List.mem_cons.1 hw' with rfl | hm
      · unfold Mem.set
        rw [if_pos ⟨h1.symm, h2.symm⟩]
        exact h w' List.mem_cons_self h1 h2
      · exact absurd ⟨w', hm, h1, h2⟩ hex

theorem mem_symPairs4 (p : Fin 4 × Fin 4) : p ∈ symPairs4 ↔ p.1 ≤ p.2 := by
  obtain ⟨a, b⟩ := p; revert a b; decide

theorem mem_symPairs3 (p : Fin 3 × Fin 3) : p ∈ symPairs3 ↔ p.1 ≤ p.2 := by
  obtain ⟨a, b⟩ := p; revert a b; decide

theorem mem_sigmas (td : Bool) (sg : Fin 4) : sg ∈ sigmas td ↔ offset td ≤ (sg : ℕ) := by
  simp [sigmas]

variable {td : Bool}

/-! ### What each kernel writes where -/

/-- what `lamb` at location `loc` may store in component `a` of variable `v`. -/
def LambSpec (s : System K) (loc : Loc) (c : Cell) : Var → ℕ → K → Prop
  | .alpha l, _, x => l = loc ∧ x = s.lapse loc c
  | .detgam l, _, x => l = loc ∧ x = s.detGamma loc c
  | .bcon l, a, x => l = loc ∧ ∃ d : Fin 3, a = d ∧ x = s.shift loc c d
  | .gcov l, a, x => l = loc ∧ ∃ p q, a = flatten2 p q ∧ x = s.metric4 loc c p q
  | .gamcon l, a, x => l = loc ∧ ∃ p q : Fin 3, a = flatten2 p.castSucc q.castSucc ∧ x = s.gamInv loc c p q
  | _, _, _ => False

theorem lamb_typed (L : Layout td) (s : System K) (loc : Loc) (c : Cell) (w : Write K) (hw : w ∈ lamb L s loc c) :
    w.cell = c ∧ ∃ v a, a < v.size td ∧ w.comp = L.base v + a ∧ LambSpec s loc c v a w.val := by
  unfold lamb at hw
  simp only [List.mem_append, List.mem_cons, List.not_mem_nil, or_false, List.mem_map] at hw
  rcases hw with (((rfl | rfl) | ⟨d, _, rfl⟩) | ⟨p, _, rfl⟩) | ⟨p, _, rfl⟩
  · exact ⟨rfl, .alpha loc, 0, by simp [Var.size], rfl, rfl, rfl⟩
  · exact ⟨rfl, .detgam loc, 0, by simp [Var.size], rfl, rfl, rfl⟩
  · exact ⟨rfl, .bcon loc, d, d.isLt, rfl, rfl, d, rfl, rfl⟩
  · exact ⟨rfl, .gcov loc, _, flatten2_lt 4 _ _ p.1.isLt p.2.isLt, rfl, rfl, _, _, rfl, rfl⟩
  · exact ⟨rfl, .gamcon loc, _, flatten2_lt 3 _ _ p.1.isLt p.2.isLt, rfl, rfl, _, _, rfl, rfl⟩

/-- what `lamb_derivs` may store. -/
def DerivSpec (td : Bool) (s : System K) (c : Cell) : Var → ℕ → K → Prop
  | .dalpha, a, x => ∃ d : Fin 4, offset td ≤ (d : ℕ) ∧ a = d - offset td ∧ x = s.gradLnAlpha c d
  | .dg, a, x => ∃ p q sg : Fin 4, offset td ≤ (sg : ℕ) ∧ a = nvarDeriv td * flatten2 p q + (sg - offset td) ∧
      x = s.dg c p q sg
  | _, _, _ => False

theorem slot_lt (td : Bool) (p q : Fin 4) (t : ℕ) (ht : t < nvarDeriv td) :
    nvarDeriv td * flatten2 p q + t < nvarDeriv td * symSize 4 := by
  have h := flatten2_lt 4 p q p.isLt q.isLt
  have h10 : symSize 4 = 10 := by decide
  rw [h10] at h ⊢
  cases td <;> simp only [nvarDeriv, if_true, Bool.false_eq_true, if_false] at ht ⊢ <;> omega

theorem slot_inj (td : Bool) (p q p' q' : Fin 4) (t t' : ℕ) (ht : t < nvarDeriv td) (ht' : t' < nvarDeriv td)
    (h : nvarDeriv td * flatten2 p q + t = nvarDeriv td * flatten2 p' q' + t') :
    flatten2 p q = flatten2 p' q' ∧ t = t' := by
  cases td <;> simp only [nvarDeriv, if_true, Bool.false_eq_true, if_false] at ht ht' h <;> omega

theorem sub_offset_lt (td : Bool) (sg : Fin 4) (h : offset td ≤ (sg : ℕ)) : (sg : ℕ) - offset td < nvarDeriv td := by
  have := sg.isLt
  cases td <;> simp only [offset, nvarDeriv, if_true, Bool.false_eq_true, if_false] at h ⊢ <;> omega

theorem derivs_typed (L : Layout td) (s : System K) (c : Cell) (w : Write K) (hw : w ∈ lambDerivs L s c) :
    w.cell = c ∧ ∃ v a, a < v.size td ∧ w.comp = L.base v + a ∧ DerivSpec td s c v a w.val := by
  unfold lambDerivs at hw
  simp only [List.mem_append, List.mem_map, List.mem_flatMap, mem_sigmas] at hw
  rcases hw with ⟨d, hd, rfl⟩ | ⟨sg, hs, p, _, rfl⟩
  · exact ⟨rfl, .dalpha, _, sub_offset_lt td d hd, by simp only; omega, d, hd, rfl, rfl⟩
  · exact ⟨rfl, .dg, _, slot_lt td p.1 p.2 _ (sub_offset_lt td sg hs), by simp only; omega, _, _, sg, hs, rfl, rfl⟩

section Ordered
variable [Field K] [LinearOrder K]

/-- the face-differenced lapse derivative: the specification of the on-grid finite difference. -/
def fdAlpha (s : System K) (small : K) (width : ℤ → Fin 3 → K) (c : Cell) (d : Fin 3) : K :=
  Robust.ratio small (s.lapse (floc d) (c.up d) - s.lapse (floc d) c) (s.lapse .Cent c * width c.b d)

/-- the face-differenced metric derivative. -/
def fdMetric (s : System K) (small : K) (width : ℤ → Fin 3 → K) (c : Cell) (p q : Fin 4) (d : Fin 3) : K :=
  Robust.ratio small (s.metric4 (floc d) (c.up d) p q - s.metric4 (floc d) c p q) (width c.b d)

/-- what `lamb_derivs_fd` may store. -/
def FDSpec (td : Bool) (s : System K) (small : K) (width : ℤ → Fin 3 → K) (c : Cell) : Var → ℕ → K → Prop
  | .dalpha, a, x => ∃ d : Fin 3, a = (d.succ : ℕ) - offset td ∧ x = fdAlpha s small width c d
  | .dg, a, x => ∃ (p q : Fin 4) (d : Fin 3), a = nvarDeriv td * flatten2 p q + ((d.succ : ℕ) - offset td) ∧
      x = fdMetric s small width c p q d
  | _, _, _ => False

theorem offset_le_succ (td : Bool) (d : Fin 3) : offset td ≤ (d.succ : ℕ) := by
  cases td <;> simp [offset]

theorem plus_td (td : Bool) (d : Fin 3) : (d : ℕ) + (if td then 1 else 0) = (d.succ : ℕ) - offset td := by
  cases td <;> simp [offset]

theorem fd_typed (L : Layout td) (s : System K) (small : K) (width : ℤ → Fin 3 → K) (c : Cell) (w : Write K)
    (hw : w ∈ lambDerivsFD L s small width c) :
    w.cell = c ∧ ∃ v a, a < v.size td ∧ w.comp = L.base v + a ∧ FDSpec td s small width c v a w.val := by
  unfold lambDerivsFD at hw
  simp only [List.mem_flatMap, List.mem_cons, List.mem_map] at hw
  obtain ⟨d, _, rfl | ⟨p, _, rfl⟩⟩ := hw
  · exact ⟨rfl, .dalpha, _, sub_offset_lt td d.succ (offset_le_succ td d),
      by rw [← plus_td]; simp only; ring, d, rfl, rfl⟩
  · exact ⟨rfl, .dg, _, slot_lt td p.1 p.2 _ (sub_offset_lt td d.succ (offset_le_succ td d)),
      by rw [← plus_td]; simp only; ring, _, _, d, rfl, rfl⟩

/-- what the coordinate kernel may store. -/
def CoordSpec (s : System K) (loc : Loc) (c : Cell) : Var → ℕ → K → Prop
  | .coordC, a, x => loc = .Cent ∧ ∃ mu : Fin 4, a = mu ∧ x = s.coords loc c mu
  | .coordN, a, x => loc ≠ .Cent ∧ ∃ mu : Fin 4, a = mu ∧ x = s.coords loc c mu
  | _, _, _ => False

theorem coords_typed (L : Layout td) (s : System K) (loc : Loc) (c : Cell) (w : Write K)
    (hw : w ∈ lambCoords L s loc c) :
    w.cell = c ∧ ∃ v a, a < v.size td ∧ w.comp = L.base v + a ∧ CoordSpec s loc c v a w.val := by
  unfold lambCoords at hw
  simp only [List.mem_map] at hw
  obtain ⟨mu, _, rfl⟩ := hw
  by_cases h : loc = .Cent
  · exact ⟨rfl, .coordC, mu, mu.isLt, by simp [h], h, mu, rfl, rfl⟩
  · exact ⟨rfl, .coordN, mu, mu.isLt, by simp [h], h, mu, rfl, rfl⟩

/-- generic: a phase over cells whose kernel is typed by `Spec`. -/
theorem phase_eq (L : Layout td) (kern : Cell → List (Write K)) (Spec : Cell → Var → ℕ → K → Prop)
    (ht : ∀ c w, w ∈ kern c → w.cell = c ∧ ∃ v a, a < v.size td ∧ w.comp = L.base v + a ∧ Spec c v a w.val)
    (order : List Cell) (m : Mem K) (c : Cell) (hc : c ∈ order) (v : Var) (a : ℕ) (ha : a < v.size td) (x : K)
    (hu : ∀ y, Spec c v a y → y = x) (hex : ∃ w ∈ kern c, w.comp = L.base v + a) :
    m.run (order.flatMap kern) c (L.base v + a) = x := by
  apply run_eq
  · intro w hw h1 h2
    obtain ⟨c', hc', hw⟩ := List.mem_flatMap.1 hw
    obtain ⟨h3, v', a', h4, h5, h6⟩ := ht c' w hw
    obtain rfl : c' = c := h3.symm.trans h1
    obtain ⟨rfl, rfl⟩ := L.disj v' v a' a h4 ha (h5.symm.trans h2)
    exact hu _ h6
  · obtain ⟨w, hw, h⟩ := hex
    exact ⟨w, List.mem_flatMap.2 ⟨c, hc, hw⟩, (ht c w hw).1, h⟩

theorem phase_ne (L : Layout td) (kern : Cell → List (Write K)) (Spec : Cell → Var → ℕ → K → Prop)
    (ht : ∀ c w, w ∈ kern c → w.cell = c ∧ ∃ v a, a < v.size td ∧ w.comp = L.base v + a ∧ Spec c v a w.val)
    (order : List Cell) (m : Mem K) (c : Cell) (v : Var) (a : ℕ) (ha : a < v.size td)
    (hu : ∀ y, ¬ Spec c v a y) :
    m.run (order.flatMap kern) c (L.base v + a) = m c (L.base v + a) := by
  apply run_ne
  intro w hw h1 h2
  obtain ⟨c', hc', hw⟩ := List.mem_flatMap.1 hw
  obtain ⟨h3, v', a', h4, h5, h6⟩ := ht c' w hw
  obtain rfl : c' = c := h3.symm.trans h1
  obtain ⟨rfl, rfl⟩ := L.disj v' v a' a h4 ha (h5.symm.trans h2)
  exact hu _ h6

/-- the location of a variable that `lamb` fills. -/
def Var.loc? : Var → Option Loc
  | .alpha l | .bcon l | .gcov l | .gamcon l | .detgam l => some l
  | _ => none

theorem lambSpec_loc {s : System K} {l : Loc} {c : Cell} {v : Var} {a : ℕ} {x : K} (h : LambSpec s l c v a x) :
    v.loc? = some l := by
  cases v <;> simp only [LambSpec] at h <;> first | exact h.elim | simp [Var.loc?, h.1]

/-- the contents of a metric variable after all kernels have run. -/
theorem setCached_loc (L : Layout td) (s : System K) (small : K) (width : ℤ → Fin 3 → K) (doFD : Bool) (S : Sched)
    (m : Mem K) (loc : Loc) (hloc : loc ≠ .Corn) (c : Cell) (hc : c ∈ S.loc loc) (v : Var) (hv : v.loc? = some loc)
    (a : ℕ) (ha : a < v.size td) (x : K) (hu : ∀ y, LambSpec s loc c v a y → y = x)
    (hex : ∃ w ∈ lamb L s loc c, w.comp = L.base v + a) :
    setCached L s small width doFD S m c (L.base v + a) = x := by
  have nL : ∀ l, l ≠ loc → ∀ m : Mem K, m.run ((S.loc l).flatMap (lamb L s l)) c (L.base v + a) = m c (L.base v + a) :=
    fun l hl m => phase_ne L _ (LambSpec s l) (lamb_typed L s l) _ m c v a ha fun y h => hl <| by
      have := lambSpec_loc h; rw [hv] at this; exact (Option.some.inj this).symm
  have nC : ∀ l, ∀ m : Mem K, m.run ((S.coord l).flatMap (lambCoords L s l)) c (L.base v + a) = m c (L.base v + a) :=
    fun l m => phase_ne L _ (CoordSpec s l) (coords_typed L s l) _ m c v a ha fun y h => by
      cases v <;> simp_all [Var.loc?, CoordSpec]
  have nF : ∀ m : Mem K, m.run (S.fd.flatMap (lambDerivsFD L s small width)) c (L.base v + a) = m c (L.base v + a) :=
    fun m => phase_ne L _ (FDSpec td s small width) (fd_typed L s small width) _ m c v a ha fun y h => by
      cases v <;> simp_all [Var.loc?, FDSpec]
  have nD : ∀ m : Mem K, m.run (S.deriv.flatMap (lambDerivs L s)) c (L.base v + a) = m c (L.base v + a) :=
    fun m => phase_ne L _ (DerivSpec td s) (derivs_typed L s) _ m c v a ha fun y h => by
      cases v <;> simp_all [Var.loc?, DerivSpec]
  have yes : ∀ m : Mem K, m.run ((S.loc loc).flatMap (lamb L s loc)) c (L.base v + a) = x :=
    fun m => phase_eq L _ (LambSpec s loc) (lamb_typed L s loc) _ m c hc v a ha x hu hex
  unfold setCached
  simp only [nC]
  have hFD : ∀ m : Mem K, (if doFD then m.run (S.fd.flatMap (lambDerivsFD L s small width)) else m) c (L.base v + a)
      = m c (L.base v + a) := by intro m; split_ifs <;> simp only [nF]
  have hD : ∀ m : Mem K, (if td || !doFD then m.run (S.deriv.flatMap (lambDerivs L s)) else m) c (L.base v + a)
      = m c (L.base v + a) := by intro m; split_ifs <;> simp only [nD]
  rw [hFD]
  cases loc
  · rw [nL .Face3 (by decide), nL .Face2 (by decide), nL .Face1 (by decide), hD, yes]
  · rw [nL .Face3 (by decide), nL .Face2 (by decide), yes]
  · rw [nL .Face3 (by decide), yes]
  · rw [yes]
  · exact absurd rfl hloc

/-- the contents of a derivative variable after all kernels: finite differences where requested, analytic otherwise. -/
theorem setCached_deriv (L : Layout td) (s : System K) (small : K) (width : ℤ → Fin 3 → K) (doFD : Bool) (S : Sched)
    (m : Mem K) (c : Cell) (v : Var) (hv : v = .dalpha ∨ v = .dg) (a : ℕ) (ha : a < v.size td) :
    setCached L s small width doFD S m c (L.base v + a)
      = (let m1 := if td || !doFD then ((m.run ((S.loc .Cent).flatMap (lamb L s .Cent))).run
          (S.deriv.flatMap (lambDerivs L s))) else m.run ((S.loc .Cent).flatMap (lamb L s .Cent))
        let m2 := ((m1.run ((S.loc .Face1).flatMap (lamb L s .Face1))).run ((S.loc .Face2).flatMap (lamb L s .Face2))).run
            ((S.loc .Face3).flatMap (lamb L s .Face3))
        if doFD then m2.run (S.fd.flatMap (lambDerivsFD L s small width)) c (L.base v + a)
        else m1 c (L.base v + a)) := by
  have nL : ∀ l, ∀ m : Mem K, m.run ((S.loc l).flatMap (lamb L s l)) c (L.base v + a) = m c (L.base v + a) :=
    fun l m => phase_ne L _ (LambSpec s l) (lamb_typed L s l) _ m c v a ha fun y h => by
      rcases hv with rfl | rfl <;> exact h.elim
  have nC : ∀ l, ∀ m : Mem K, m.run ((S.coord l).flatMap (lambCoords L s l)) c (L.base v + a) = m c (L.base v + a) :=
    fun l m => phase_ne L _ (CoordSpec s l) (coords_typed L s l) _ m c v a ha fun y h => by
      rcases hv with rfl | rfl <;> exact h.elim
  unfold setCached
  simp only [nC]
  cases doFD
  · simp only [Bool.false_eq_true, if_false, nL]
  · simp only [if_true]

theorem setCached_deriv_analytic (L : Layout td) (s : System K) (small : K) (width : ℤ → Fin 3 → K) (S : Sched)
    (m : Mem K) (c : Cell) (hc : c ∈ S.deriv) (v : Var) (hv : v = .dalpha ∨ v = .dg) (a : ℕ) (ha : a < v.size td)
    (doFD : Bool) (hno : doFD = true → td = true ∧ ∀ y, ¬ FDSpec td s small width c v a y) (x : K)
    (hu : ∀ y, DerivSpec td s c v a y → y = x) (hex : ∃ w ∈ lambDerivs L s c, w.comp = L.base v + a) :
    setCached L s small width doFD S m c (L.base v + a) = x := by
  have nL : ∀ l, ∀ m : Mem K, m.run ((S.loc l).flatMap (lamb L s l)) c (L.base v + a) = m c (L.base v + a) :=
    fun l m => phase_ne L _ (LambSpec s l) (lamb_typed L s l) _ m c v a ha fun y h => by
      rcases hv with rfl | rfl <;> exact h.elim
  rw [setCached_deriv L s small width doFD S m c v hv a ha]
  cases doFD
  · simp only [Bool.not_false, Bool.or_true, if_true, Bool.false_eq_true, if_false]
    exact phase_eq L _ (DerivSpec td s) (derivs_typed L s) _ _ c hc v a ha x hu hex
  · obtain ⟨h1, h2⟩ := hno rfl
    simp only [h1, Bool.true_or, if_true]
    rw [phase_ne L _ (FDSpec td s small width) (fd_typed L s small width) _ _ c v a ha h2, nL, nL, nL]
    exact phase_eq L _ (DerivSpec td s) (derivs_typed L s) _ _ c hc v a ha x hu hex

theorem setCached_deriv_fd (L : Layout td) (s : System K) (small : K) (width : ℤ → Fin 3 → K) (S : Sched)
    (m : Mem K) (c : Cell) (hc : c ∈ S.fd) (v : Var) (hv : v = .dalpha ∨ v = .dg) (a : ℕ) (ha : a < v.size td)
    (x : K) (hu : ∀ y, FDSpec td s small width c v a y → y = x)
    (hex : ∃ w ∈ lambDerivsFD L s small width c, w.comp = L.base v + a) :
    setCached L s small width true S m c (L.base v + a) = x := by
  rw [setCached_deriv L s small width true S m c v hv a ha]
  simp only [if_true]
  exact phase_eq L _ (FDSpec td s small width) (fd_typed L s small width) _ _ c hc v a ha x hu hex

/-! ### C32: what is read is what the system returned -/

variable (L : Layout td) (s : System K) (small : K) (width : ℤ → Fin 3 → K) (doFD axi : Bool) (S : Sched) (G : Grid)
  (m : Mem K)

/-- a cell a caller may ask about: in range before the axisymmetric reduction of `k`. -/
def Grid.req (G : Grid) (loc : Loc) (c : Cell) : Prop := G.dom false loc c

theorem rd_mem (hS : S.Ok G axi) {loc : Loc} {c : Cell} (hc : G.req loc c) : rd axi c ∈ S.loc loc := by
  rw [hS.loc]
  obtain ⟨h1, h2, h3, h4, h5⟩ := hc
  refine ⟨h1, h2, ?_, h4, h5⟩
  cases axi
  · exact h3
  · simp [rd]

/-- **C32** lapse, shift and determinant, at centres and at every face, for any memory contents before, any schedule, with
or without finite differences: what is read is the system's value at the cell (at `k = 0` for an axisymmetric cache). -/
theorem cached_scalars (hS : S.Ok G axi) (loc : Loc) (hloc : loc ≠ .Corn) (c : Cell) (hc : G.req loc c) (d : Fin 3) :
    let m' := setCached L s small width doFD S m
    rLapse L axi m' loc c = s.lapse loc (rd axi c) ∧ rDetGamma L axi m' loc c = s.detGamma loc (rd axi c) ∧
    rShift L axi m' loc c d = s.shift loc (rd axi c) d ∧
    rDetG L axi m' loc c = s.lapse loc (rd axi c) * s.detGamma loc (rd axi c) := by
  have hm := rd_mem axi S G hS hc
  have h1 : rLapse L axi (setCached L s small width doFD S m) loc c = s.lapse loc (rd axi c) := by
    refine setCached_loc L s small width doFD S m loc hloc _ hm (.alpha loc) rfl 0 (by simp [Var.size]) _
      (fun y h => h.2) ⟨⟨rd axi c, L.base (.alpha loc), s.lapse loc (rd axi c)⟩, ?_, rfl⟩
    simp [lamb]
  have h2 : rDetGamma L axi (setCached L s small width doFD S m) loc c = s.detGamma loc (rd axi c) := by
    refine setCached_loc L s small width doFD S m loc hloc _ hm (.detgam loc) rfl 0 (by simp [Var.size]) _
      (fun y h => h.2) ⟨⟨rd axi c, L.base (.detgam loc), s.detGamma loc (rd axi c)⟩, ?_, rfl⟩
    simp [lamb]
  refine ⟨h1, h2, ?_, by unfold rDetG; rw [h1, h2]⟩
  refine setCached_loc L s small width doFD S m loc hloc _ hm (.bcon loc) rfl d d.isLt _ ?_
    ⟨⟨rd axi c, L.base (.bcon loc) + d, s.shift loc (rd axi c) d⟩, ?_, rfl⟩
  · rintro y ⟨_, d', h, rfl⟩
    rw [Fin.ext h]
  · simp only [lamb, List.mem_append, List.mem_map]
    exact .inl (.inl (.inr ⟨d, List.mem_finRange d, rfl⟩))

/-- **C32** the 4-metric.

Partial form of C32. Full property: Reading the cached metric, lapse, shift, determinant or derivatives at a cell
returns the analytic values stored at the same cell and location, for every block and cell. Missing: Every quantity
but the coordinates, which are read one component off (proved with a witness). Off-grid readers: C114. -/
theorem cached_metric4_partial (hS : S.Ok G axi) (hsym : ∀ loc c p q, s.metric4 loc c p q = s.metric4 loc c q p)
    (loc : Loc) (hloc : loc ≠ .Corn) (c : Cell) (hc : G.req loc c) (p q : Fin 4) :
    rMetric4 L axi (setCached L s small width doFD S m) loc c p q = s.metric4 loc (rd axi c) p q := by
  refine setCached_loc L s small width doFD S m loc hloc _ (rd_mem axi S G hS hc) (.gcov loc) rfl _
    (flatten2_lt 4 p q p.isLt q.isLt) _ ?_ ?_
  · rintro y ⟨_, p', q', h, rfl⟩
    rcases (flatten2_inj p q p' q').1 h with ⟨rfl, rfl⟩ | ⟨rfl, rfl⟩
    · rfl
    · exact hsym _ _ _ _
  · rcases le_total p q with h | h
    · refine ⟨⟨rd axi c, _, s.metric4 loc (rd axi c) p q⟩, ?_, rfl⟩
      simp only [lamb, List.mem_append, List.mem_map]
      exact .inl (.inr ⟨(p, q), (mem_symPairs4 _).2 h, rfl⟩)
    · refine ⟨⟨rd axi c, L.base (.gcov loc) + flatten2 q p, s.metric4 loc (rd axi c) q p⟩, ?_, by rw [flatten2_symm]⟩
      simp only [lamb, List.mem_append, List.mem_map]
      exact .inl (.inr ⟨(q, p), (mem_symPairs4 _).2 h, rfl⟩)

/-- **C32** the 3-metric is the spatial block of the 4-metric. -/
theorem cached_metric3 (hS : S.Ok G axi) (hsym : ∀ loc c p q, s.metric4 loc c p q = s.metric4 loc c q p)
    (loc : Loc) (hloc : loc ≠ .Corn) (c : Cell) (hc : G.req loc c) (p q : Fin 3) :
    rMetric L axi (setCached L s small width doFD S m) loc c p q = s.metric4 loc (rd axi c) p.succ q.succ :=
  cached_metric4_partial L s small width doFD axi S G m hS hsym loc hloc c hc p.succ q.succ

/-- **C32** the inverse 3-metric. -/
theorem cached_gamInv (hS : S.Ok G axi) (hsym : ∀ loc c p q, s.gamInv loc c p q = s.gamInv loc c q p)
    (loc : Loc) (hloc : loc ≠ .Corn) (c : Cell) (hc : G.req loc c) (p q : Fin 3) :
    rMetricInverse L axi (setCached L s small width doFD S m) loc c p q = s.gamInv loc (rd axi c) p q := by
  refine setCached_loc L s small width doFD S m loc hloc _ (rd_mem axi S G hS hc) (.gamcon loc) rfl _
    (flatten2_lt 3 _ _ p.isLt q.isLt) _ ?_ ?_
  · rintro y ⟨_, p', q', h, rfl⟩
    rcases (flatten2_inj _ _ _ _).1 h with ⟨h1, h2⟩ | ⟨h1, h2⟩
    · rw [Fin.castSucc_inj.1 h1, Fin.castSucc_inj.1 h2]
    · rw [Fin.castSucc_inj.1 h1, Fin.castSucc_inj.1 h2]; exact hsym _ _ _ _
  · rcases le_total p q with h | h
    · refine ⟨⟨rd axi c, _, s.gamInv loc (rd axi c) p q⟩, ?_, rfl⟩
      simp only [lamb, List.mem_append, List.mem_map]
      exact .inr ⟨(p, q), (mem_symPairs3 _).2 h, rfl⟩
    · refine ⟨⟨rd axi c, L.base (.gamcon loc) + flatten2 q.castSucc p.castSucc, s.gamInv loc (rd axi c) q p⟩, ?_,
        by rw [flatten2_symm]⟩
      simp only [lamb, List.mem_append, List.mem_map]
      exact .inr ⟨(q, p), (mem_symPairs3 _).2 h, rfl⟩

theorem cent_req_mem (hS : S.Ok G axi) {c : Cell} (hc : G.req .Cent c) : rd axi c ∈ S.deriv ∧ rd axi c ∈ S.fd := by
  have := (hS.loc _ _).1 (rd_mem axi S G hS hc)
  exact ⟨(hS.deriv _).2 this, (hS.fd _).2 this⟩

/-- **C32** analytic derivatives: all components of the metric derivative and of the lapse derivative that the cache stores
are returned; the time derivative is reported as zero exactly when the cache is declared static. -/
theorem cached_derivs (hS : S.Ok G axi) (hsym : ∀ c p q sg, s.dg c p q sg = s.dg c q p sg) (c : Cell)
    (hc : G.req .Cent c) (p q sg : Fin 4) :
    let m' := setCached L s small width false S m
    rDg L axi m' c p q sg = (if sg = 0 ∧ td = false then 0 else s.dg (rd axi c) p q sg) ∧
    rGradLnAlpha L axi m' c sg = (if sg = 0 ∧ td = false then 0 else s.gradLnAlpha (rd axi c) sg) := by
  have hmem := (cent_req_mem axi S G hS hc).1
  have hoff : (offset td ≤ (sg : ℕ)) ↔ ¬ (sg = 0 ∧ td = false) := by
    cases td
    · simp only [offset, Bool.false_eq_true, if_false, and_true, ← Fin.val_eq_zero_iff]; omega
    · simp [offset]
  by_cases ho : offset td ≤ (sg : ℕ)
  · simp only [rDg, rGradLnAlpha, ho, if_true, if_neg (hoff.1 ho)]
    constructor
    · rw [show nvarDeriv td * flatten2 p q + L.base .dg + sg - offset td
        = L.base .dg + (nvarDeriv td * flatten2 p q + (sg - offset td)) by omega]
      refine setCached_deriv_analytic L s small width S m _ hmem .dg (.inr rfl) _
        (slot_lt td p q _ (sub_offset_lt td sg ho)) false (by simp) _ ?_ ?_
      · rintro y ⟨p', q', sg', h1, h2, rfl⟩
        obtain ⟨h3, h4⟩ := slot_inj td _ _ _ _ _ _ (sub_offset_lt td sg ho) (sub_offset_lt td sg' h1) h2
        obtain rfl : sg = sg' := Fin.ext (by omega)
        rcases (flatten2_inj p q p' q').1 h3 with ⟨rfl, rfl⟩ | ⟨rfl, rfl⟩
        · rfl
        · exact hsym _ _ _ _
      · rcases le_total p q with h | h
        · refine ⟨⟨rd axi c, L.base .dg + nvarDeriv td * flatten2 p q + sg - offset td, s.dg (rd axi c) p q sg⟩, ?_,
            by simp only; omega⟩
          simp only [lambDerivs, List.mem_append, List.mem_flatMap, List.mem_map, mem_sigmas]
          exact .inr ⟨sg, ho, (p, q), (mem_symPairs4 _).2 h, rfl⟩
        · refine ⟨⟨rd axi c, L.base .dg + nvarDeriv td * flatten2 q p + sg - offset td, s.dg (rd axi c) q p sg⟩, ?_,
            by simp only; rw [flatten2_symm q p]; omega⟩
          simp only [lambDerivs, List.mem_append, List.mem_flatMap, List.mem_map, mem_sigmas]
          exact .inr ⟨sg, ho, (q, p), (mem_symPairs4 _).2 h, rfl⟩
    · rw [show L.base .dalpha + sg - offset td = L.base .dalpha + (sg - offset td) by omega]
      refine setCached_deriv_analytic L s small width S m _ hmem .dalpha (.inl rfl) _
        (sub_offset_lt td sg ho) false (by simp) _ ?_ ?_
      · rintro y ⟨d, h1, h2, rfl⟩
        obtain rfl : sg = d := Fin.ext (by omega)
        rfl
      · refine ⟨⟨rd axi c, L.base .dalpha + sg - offset td, s.gradLnAlpha (rd axi c) sg⟩, ?_, by simp only; omega⟩
        simp only [lambDerivs, List.mem_append, List.mem_map, mem_sigmas]
        exact .inl ⟨sg, ho, rfl⟩
  · simp only [rDg, rGradLnAlpha, ho, if_false]
    have hh : sg = 0 ∧ td = false := by by_contra h; exact ho (hoff.2 h)
    simp only [hh, and_self, if_true]

/-- **C32** on-grid finite differences: every spatial derivative component is the difference of the two face values over the
cell width, and a time-dependent cache keeps the system's analytic time derivative. -/
theorem cached_derivs_fd (hS : S.Ok G axi) (hsym : ∀ loc c p q, s.metric4 loc c p q = s.metric4 loc c q p)
    (hsymd : ∀ c p q sg, s.dg c p q sg = s.dg c q p sg) (c : Cell) (hc : G.req .Cent c) (p q : Fin 4) :
    let m' := setCached L s small width true S m
    (∀ d : Fin 3, rDg L axi m' c p q d.succ = fdMetric s small width (rd axi c) p q d ∧
      rGradLnAlpha L axi m' c d.succ = fdAlpha s small width (rd axi c) d) ∧
    rDg L axi m' c p q 0 = (if td then s.dg (rd axi c) p q 0 else 0) ∧
    rGradLnAlpha L axi m' c 0 = (if td then s.gradLnAlpha (rd axi c) 0 else 0) := by
  obtain ⟨hmd, hmf⟩ := cent_req_mem axi S G hS hc
  refine ⟨fun d => ?_, ?_⟩
  · have ho := offset_le_succ td d
    simp only [rDg, rGradLnAlpha, ho, if_true]
    constructor
    · rw [show nvarDeriv td * flatten2 p q + L.base .dg + (d.succ : ℕ) - offset td
        = L.base .dg + (nvarDeriv td * flatten2 p q + ((d.succ : ℕ) - offset td)) by omega]
      refine setCached_deriv_fd L s small width S m _ hmf .dg (.inr rfl) _
        (slot_lt td p q _ (sub_offset_lt td d.succ ho)) _ ?_ ?_
      · rintro y ⟨p', q', d', h2, rfl⟩
        obtain ⟨h3, h4⟩ := slot_inj td _ _ _ _ _ _ (sub_offset_lt td d.succ ho)
          (sub_offset_lt td d'.succ (offset_le_succ td d')) h2
        have := offset_le_succ td d'
        obtain rfl : d = d' := Fin.succ_inj.1 (Fin.ext (by omega))
        rcases (flatten2_inj p q p' q').1 h3 with ⟨rfl, rfl⟩ | ⟨rfl, rfl⟩
        · rfl
        · unfold fdMetric; rw [hsym _ _ p q, hsym (floc d) (rd axi c) p q]
      · have key : ∀ p q : Fin 4, p ≤ q → ∃ w ∈ lambDerivsFD L s small width (rd axi c),
            w.comp = L.base .dg + (nvarDeriv td * flatten2 p q + ((d.succ : ℕ) - offset td)) := by
          intro p q h
          refine ⟨⟨rd axi c, L.base .dg + nvarDeriv td * flatten2 p q + ((d : ℕ) + (if td then 1 else 0)),
            fdMetric s small width (rd axi c) p q d⟩, ?_, by rw [← plus_td]; simp only; ring⟩
          simp only [lambDerivsFD, List.mem_flatMap, List.mem_cons, List.mem_map]
          exact ⟨d, List.mem_finRange d, .inr ⟨(p, q), (mem_symPairs4 _).2 h, rfl⟩⟩
        rcases le_total p q with h | h
        · exact key p q h
        · rw [flatten2_symm]; exact key q p h
    · rw [show L.base .dalpha + (d.succ : ℕ) - offset td = L.base .dalpha + ((d.succ : ℕ) - offset td) by omega]
      refine setCached_deriv_fd L s small width S m _ hmf .dalpha (.inl rfl) _ (sub_offset_lt td d.succ ho) _ ?_ ?_
      · rintro y ⟨d', h2, rfl⟩
        have := offset_le_succ td d'
        obtain rfl : d = d' := Fin.succ_inj.1 (Fin.ext (by omega))
        rfl
      · refine ⟨⟨rd axi c, L.base .dalpha + (d : ℕ) + (if td then 1 else 0), fdAlpha s small width (rd axi c) d⟩, ?_,
          by rw [← plus_td]; simp only; ring⟩
        simp only [lambDerivsFD, List.mem_flatMap, List.mem_cons, List.mem_map]
        exact ⟨d, List.mem_finRange d, .inl rfl⟩
  · cases td
    · simp [rDg, rGradLnAlpha, offset]
    · have ho : offset true ≤ ((0 : Fin 4) : ℕ) := by simp [offset]
      simp only [rDg, rGradLnAlpha, ho, if_true]
      constructor
      · rw [show nvarDeriv true * flatten2 p q + L.base .dg + ((0 : Fin 4) : ℕ) - offset true
          = L.base .dg + (nvarDeriv true * flatten2 p q + 0) by simp [offset, add_comm]]
        refine setCached_deriv_analytic L s small width S m _ hmd .dg (.inr rfl) _
          (slot_lt true p q 0 (by simp [nvarDeriv])) true (fun _ => ⟨rfl, ?_⟩) _ ?_ ?_
        · rintro y ⟨p', q', d', h, -⟩
          have := slot_inj true p q p' q' _ _ (by simp [nvarDeriv])
            (sub_offset_lt true d'.succ (offset_le_succ true d')) h
          simp [offset] at this
        · rintro y ⟨p', q', sg', h1, h2, rfl⟩
          obtain ⟨h3, h4⟩ := slot_inj true _ _ _ _ _ _ (by simp [nvarDeriv]) (sub_offset_lt true sg' h1) h2
          obtain rfl : (0 : Fin 4) = sg' := Fin.ext (by simp [offset] at h4 ⊢; omega)
          rcases (flatten2_inj p q p' q').1 h3 with ⟨rfl, rfl⟩ | ⟨rfl, rfl⟩
          · rfl
          · exact hsymd _ _ _ _
        · have key : ∀ p q : Fin 4, p ≤ q → ∃ w ∈ lambDerivs L s (rd axi c),
              w.comp = L.base .dg + (nvarDeriv true * flatten2 p q + 0) := by
            intro p q h
            refine ⟨⟨rd axi c, L.base .dg + nvarDeriv true * flatten2 p q + ((0 : Fin 4) : ℕ) - offset true,
              s.dg (rd axi c) p q 0⟩, ?_, by simp [offset]⟩
            simp only [lambDerivs, List.mem_append, List.mem_flatMap, List.mem_map, mem_sigmas]
            exact .inr ⟨0, ho, (p, q), (mem_symPairs4 _).2 h, rfl⟩
          rcases le_total p q with h | h
          · exact key p q h
          · rw [flatten2_symm]; exact key q p h
      · rw [show L.base .dalpha + ((0 : Fin 4) : ℕ) - offset true = L.base .dalpha + 0 by simp [offset]]
        refine setCached_deriv_analytic L s small width S m _ hmd .dalpha (.inl rfl) 0
          (by simp [Var.size, nvarDeriv]) true (fun _ => ⟨rfl, ?_⟩) _ ?_ ?_
        · rintro y ⟨d', h, -⟩
          simp [offset] at h
        · rintro y ⟨d, h1, h2, rfl⟩
          obtain rfl : (0 : Fin 4) = d := Fin.ext (by simp [offset] at h2 ⊢; omega)
          rfl
        · refine ⟨⟨rd axi c, L.base .dalpha + ((0 : Fin 4) : ℕ) - offset true, s.gradLnAlpha (rd axi c) 0⟩, ?_,
            by simp [offset]⟩
          simp only [lambDerivs, List.mem_append, List.mem_map, mem_sigmas]
          exact .inl ⟨0, ho, rfl⟩

/-- reading twice with the reduced index changes nothing. -/
theorem rd_rd (c : Cell) : rd axi (rd axi c) = rd axi c := by cases axi <;> simp [rd]

/-- **C32** the connection read from the cache is the connection of the stored derivatives. -/
theorem cached_connection (hS : S.Ok G axi) (hsym : ∀ c p q sg, s.dg c p q sg = s.dg c q p sg) (c : Cell)
    (hc : G.req .Cent c) (a b e : Fin 4) (hst : td = false → ∀ c p q, s.dg c p q 0 = 0) :
    rConnection L axi (setCached L s small width false S m) c a b e = connection (s.dg (rd axi c)) a b e := by
  have h : ∀ p q sg, rDg L axi (setCached L s small width false S m) (rd axi c) p q sg = s.dg (rd axi c) p q sg := by
    intro p q sg
    have h1 := (cached_derivs L s small width axi S G m hS hsym c hc p q sg).1
    have h2 : rDg L axi (setCached L s small width false S m) (rd axi c) p q sg
        = rDg L axi (setCached L s small width false S m) c p q sg := by unfold rDg; rw [rd_rd]
    rw [h2, h1]
    split_ifs with hh
    · rw [hh.1, hst hh.2]
    · rfl
  unfold rConnection connection
  simp only [h]

/-- **C32** the inverse 4-metric assembled from the cache is the true inverse of the 4-metric read from the cache, whenever
the system's 3+1 pieces fit together at the point (see C33, C34) and the regulariser is zero. -/
theorem cached_metric4_inverse (hS : S.Ok G axi) (hsym : ∀ loc c p q, s.metric4 loc c p q = s.metric4 loc c q p)
    (hsymi : ∀ loc c p q, s.gamInv loc c p q = s.gamInv loc c q p)
    (loc : Loc) (hloc : loc ≠ .Corn) (c : Cell) (hc : G.req loc c) (A : Geom.ADM K) (hA : A.Valid)
    (h4 : s.metric4 loc (rd axi c) = A.g4) (hl : s.lapse loc (rd axi c) = A.alpha)
    (hb : s.shift loc (rd axi c) = A.beta) (hg : s.gamInv loc (rd axi c) = A.gamInv) (p q : Fin 4) :
    let m' := setCached L s small width doFD S m
    ∑ l, rMetric4Inverse L axi 0 m' loc c p l * rMetric4 L axi m' loc c l q = if p = q then 1 else 0 := by
  intro m'
  have hcs : ∀ d, rShift L axi m' loc c d = A.beta d := fun d => by
    rw [(cached_scalars L s small width doFD axi S G m hS loc hloc c hc d).2.2.1, hb]
  have hcl : rLapse L axi m' loc (rd axi c) = A.alpha := by
    have : rLapse L axi m' loc (rd axi c) = rLapse L axi m' loc c := by unfold rLapse; rw [rd_rd]
    rw [this, (cached_scalars L s small width doFD axi S G m hS loc hloc c hc 0).1, hl]
  have hci : ∀ p q, rMetricInverse L axi m' loc c p q = A.gamInv p q := fun p q => by
    rw [cached_gamInv L s small width doFD axi S G m hS hsymi loc hloc c hc p q, hg]
  have hr : ∀ a b : K, Robust.ratio 0 a b = a / b := fun a b => by simp [Robust.ratio]
  have hcs' : ∀ d : Fin 3, m' (rd axi c) (L.base (.bcon loc) + d) = A.beta d := hcs
  have hci' : ∀ p q : Fin 3, m' (rd axi c) (L.base (.gamcon loc) + flatten2 p.castSucc q.castSucc) = A.gamInv p q := hci
  have hinv : rMetric4Inverse L axi 0 m' loc c = A.g4Inv := by
    have ha := hA.alpha_ne
    unfold rMetric4Inverse
    simp only [hcl, hr, hcs', hci']
    funext p q
    refine Fin.cases ?_ (fun i => ?_) p <;> refine Fin.cases ?_ (fun j => ?_) q
    · simp; ring
    · simp; ring
    · simp; ring
    · simp; field_simp
  have hm : ∀ l q, rMetric4 L axi m' loc c l q = A.g4 l q := fun l q => by
    rw [cached_metric4_partial L s small width doFD axi S G m hS hsym loc hloc c hc l q, h4]
  simp only [hinv, hm]
  exact A.g4Inv_mul hA p q

/-- **C32** with a metric that does not depend on `k`, the axisymmetric cache agrees with the system at the requested cell
itself. -/
theorem cached_axisymmetric (hS : S.Ok G axi) (hk : ∀ loc (c : Cell) k', s.lapse loc { c with k := k' } = s.lapse loc c)
    (loc : Loc) (hloc : loc ≠ .Corn) (c : Cell) (hc : G.req loc c) :
    rLapse L axi (setCached L s small width doFD S m) loc c = s.lapse loc c := by
  rw [(cached_scalars L s small width doFD axi S G m hS loc hloc c hc 0).1]
  exact hk loc c _

/-- **C32 fails for coordinates**: the coordinates read from the cache are the stored ones shifted by one component: the
first spatial coordinate read is the time, the second is `X1`, the third is `X2`; `X3` is never returned. -/
theorem cached_coords_shifted (hS : S.Ok G axi) (loc : Loc) (hloc : loc = .Cent ∨ loc = .Corn) (c : Cell)
    (hc : G.domCoord loc c) (d : Fin 3) :
    rCoords L (setCached L s small width doFD S m) loc c d.succ = s.coords loc c d.castSucc ∧
    rCoords L (setCached L s small width doFD S m) loc c 0 = 0 := by
  refine ⟨?_, rfl⟩
  unfold rCoords
  simp only [Fin.cons_succ]
  unfold setCached
  have hc' := (hS.coord loc c).2 hc
  rcases hloc with rfl | rfl
  · simp only [if_true]
    rw [phase_ne L _ (CoordSpec s .Corn) (coords_typed L s .Corn) _ _ c .coordC d
      (by have := d.isLt; simp only [Var.size]; omega) (by rintro y ⟨h, _⟩; exact absurd h (by decide))]
    refine phase_eq L _ (CoordSpec s .Cent) (coords_typed L s .Cent) _ _ c hc' .coordC d
      (by have := d.isLt; simp only [Var.size]; omega) _ ?_ ?_
    · rintro y ⟨_, mu, h, rfl⟩
      rw [show d.castSucc = mu from Fin.ext h]
    · refine ⟨⟨c, L.base .coordC + d, s.coords .Cent c d.castSucc⟩, ?_, rfl⟩
      simp only [lambCoords, List.mem_map, if_true]
      exact ⟨d.castSucc, List.mem_finRange _, rfl⟩
  · rw [if_neg (show ¬ Loc.Corn = Loc.Cent by decide)]
    refine phase_eq L _ (CoordSpec s .Corn) (coords_typed L s .Corn) _ _ c hc' .coordN d
      (by have := d.isLt; simp only [Var.size]; omega) _ ?_ ?_
    · rintro y ⟨_, mu, h, rfl⟩
      rw [show d.castSucc = mu from Fin.ext h]
    · refine ⟨⟨c, L.base .coordN + d, s.coords .Corn c d.castSucc⟩, ?_, rfl⟩
      simp only [lambCoords, List.mem_map]
      exact ⟨d.castSucc, List.mem_finRange _, by simp⟩

/-- **C32 coordinates, negation**: whatever the grid, schedule and layout, if the system's third coordinate at a cell differs
from its second (or its first from the time), the cached coordinates are not the system's. -/
theorem cached_coords_wrong (hS : S.Ok G axi) (c : Cell) (hc : G.domCoord .Cent c)
    (hne : s.coords .Cent c 1 ≠ s.coords .Cent c 0) :
    rCoords L (setCached L s small width doFD S m) .Cent c ≠ s.coords .Cent c := by
  intro h
  have h1 := (cached_coords_shifted L s small width doFD axi S G m hS .Cent (.inl rfl) c hc 0).1
  rw [h] at h1
  exact hne h1
/-- **C32** The on-grid finite differences are differences across the cell in the right direction: on data that vary linearly across
faces of one direction (and arbitrarily across the others) they return the slope, for the lapse the slope of its logarithm. -/
theorem fd_linear [CharZero K] (s : System K) (w : Fin 3 → K) (hw : ∀ d, w d ≠ 0) (c : Cell) (hc : s.lapse .Cent c ≠ 0)
    (A1 A2 A3 : ℤ → ℤ → K) (B1 B2 B3 : ℤ → ℤ → Fin 4 → Fin 4 → K) (sl : Fin 3 → K) (sg : Fin 3 → Fin 4 → Fin 4 → K)
    (h1 : ∀ c, s.lapse .Face1 c = A1 c.k c.j + sl 0 * (c.i * w 0)) (h2 : ∀ c, s.lapse .Face2 c = A2 c.k c.i + sl 1 * (c.j * w 1))
    (h3 : ∀ c, s.lapse .Face3 c = A3 c.j c.i + sl 2 * (c.k * w 2))
    (g1 : ∀ c p q, s.metric4 .Face1 c p q = B1 c.k c.j p q + sg 0 p q * (c.i * w 0))
    (g2 : ∀ c p q, s.metric4 .Face2 c p q = B2 c.k c.i p q + sg 1 p q * (c.j * w 1))
    (g3 : ∀ c p q, s.metric4 .Face3 c p q = B3 c.j c.i p q + sg 2 p q * (c.k * w 2)) (d : Fin 3) :
    fdAlpha s 0 (fun _ => w) c d = sl d / s.lapse .Cent c ∧ ∀ p q, fdMetric s 0 (fun _ => w) c p q d = sg d p q := by
  have hr : ∀ a b : K, Robust.ratio 0 a b = a / b := fun a b => by
    simp [Robust.ratio]
  have hd : d = 0 ∨ d = 1 ∨ d = 2 := by omega
  have := hw d
  unfold fdAlpha fdMetric
  rcases hd with rfl | rfl | rfl
  · refine ⟨?_, fun p q => ?_⟩
    · simp only [hr, floc, Cell.up, if_true, h1]; push_cast; field_simp; ring
    · simp only [hr, floc, Cell.up, if_true, g1]; push_cast; field_simp; ring
  · refine ⟨?_, fun p q => ?_⟩
    · simp only [hr, floc, Cell.up, if_true, Fin.reduceEq, if_false, h2]; push_cast; field_simp; ring
    · simp only [hr, floc, Cell.up, if_true, Fin.reduceEq, if_false, g2]; push_cast; field_simp; ring
  · refine ⟨?_, fun p q => ?_⟩
    · simp only [hr, floc, Cell.up, Fin.reduceEq, if_false, h3]; push_cast; field_simp; ring
    · simp only [hr, floc, Cell.up, Fin.reduceEq, if_false, g3]; push_cast; field_simp; ring

end Ordered

/-! ### The hypotheses are met -/

/-- number of a variable, for a concrete non-overlapping layout. -/
def Var.num : Var → ℕ
  | .alpha .Cent => 0 | .alpha .Face1 => 1 | .alpha .Face2 => 2 | .alpha .Face3 => 3 | .alpha .Corn => 4
  | .bcon .Cent => 5 | .bcon .Face1 => 6 | .bcon .Face2 => 7 | .bcon .Face3 => 8 | .bcon .Corn => 9
  | .gcov .Cent => 10 | .gcov .Face1 => 11 | .gcov .Face2 => 12 | .gcov .Face3 => 13 | .gcov .Corn => 14
  | .gamcon .Cent => 15 | .gamcon .Face1 => 16 | .gamcon .Face2 => 17 | .gamcon .Face3 => 18 | .gamcon .Corn => 19
  | .detgam .Cent => 20 | .detgam .Face1 => 21 | .detgam .Face2 => 22 | .detgam .Face3 => 23 | .detgam .Corn => 24
  | .dalpha => 25 | .dg => 26 | .coordC => 27 | .coordN => 28

theorem Var.num_inj (v w : Var) (h : v.num = w.num) : v = w := by
  cases v with
  | alpha l => cases l <;> (cases w with | alpha l | bcon l | gcov l | gamcon l | detgam l => cases l <;> simp_all [Var.num] | _ => simp_all [Var.num])
  | bcon l => cases l <;> (cases w with | alpha l | bcon l | gcov l | gamcon l | detgam l => cases l <;> simp_all [Var.num] | _ => simp_all [Var.num])
  | gcov l => cases l <;> (cases w with | alpha l | bcon l | gcov l | gamcon l | detgam l => cases l <;> simp_all [Var.num] | _ => simp_all [Var.num])
  | gamcon l => cases l <;> (cases w with | alpha l | bcon l | gcov l | gamcon l | detgam l => cases l <;> simp_all [Var.num] | _ => simp_all [Var.num])
  | detgam l => cases l <;> (cases w with | alpha l | bcon l | gcov l | gamcon l | detgam l => cases l <;> simp_all [Var.num] | _ => simp_all [Var.num])
  | dalpha => cases w with | alpha l | bcon l | gcov l | gamcon l | detgam l => cases l <;> simp_all [Var.num] | _ => simp_all [Var.num]
  | dg => cases w with | alpha l | bcon l | gcov l | gamcon l | detgam l => cases l <;> simp_all [Var.num] | _ => simp_all [Var.num]
  | coordC => cases w with | alpha l | bcon l | gcov l | gamcon l | detgam l => cases l <;> simp_all [Var.num] | _ => simp_all [Var.num]
  | coordN => cases w with | alpha l | bcon l | gcov l | gamcon l | detgam l => cases l <;> simp_all [Var.num] | _ => simp_all [Var.num]

theorem Var.size_le (td : Bool) (v : Var) : v.size td ≤ 40 := by
  cases td <;> cases v <;> simp only [Var.size] <;> decide

/-- a concrete layout: forty slots per variable. -/
def exLayout (td : Bool) : Layout td where
  base v := 40 * v.num
  disj v w a c ha hc h := by
    have h1 := v.size_le td
    have h2 := w.size_le td
    have h3 : v.num = w.num := by omega
    exact ⟨v.num_inj w h3, by omega⟩

/-- every cell of a box, in some order. -/
noncomputable def boxList (nb ks ke js je is ie : ℤ) : List Cell :=
  ((Finset.Ico 0 nb ×ˢ Finset.Icc ks ke) ×ˢ (Finset.Icc js je ×ˢ Finset.Icc is ie)).toList.map
    fun x => ⟨x.1.1, x.1.2, x.2.1, x.2.2⟩

theorem mem_boxList (nb ks ke js je is ie : ℤ) (c : Cell) :
    c ∈ boxList nb ks ke js je is ie ↔ 0 ≤ c.b ∧ c.b < nb ∧ (ks ≤ c.k ∧ c.k ≤ ke) ∧ (js ≤ c.j ∧ c.j ≤ je) ∧
      (is ≤ c.i ∧ c.i ≤ ie) := by
  obtain ⟨b, k, j, i⟩ := c
  simp only [boxList, List.mem_map, Finset.mem_toList, Finset.mem_product, Finset.mem_Ico, Finset.mem_Icc]
  constructor
  · rintro ⟨⟨⟨b', k'⟩, j', i'⟩, h, e⟩
    simp only [Cell.mk.injEq] at e
    obtain ⟨rfl, rfl, rfl, rfl⟩ := e
    exact ⟨h.1.1.1, h.1.1.2, h.1.2, h.2.1, h.2.2⟩
  · rintro ⟨h1, h2, h3, h4, h5⟩
    exact ⟨⟨⟨b, k⟩, j, i⟩, ⟨⟨⟨h1, h2⟩, h3⟩, h4, h5⟩, rfl⟩

/-- a schedule for any grid. -/
noncomputable def exSched (G : Grid) (axi : Bool) : Sched where
  loc l := boxList G.nb (if axi then 0 else G.ks) (if axi then 0 else G.ke + (if l = .Face3 then 1 else 0))
    G.js (G.je + (if l = .Face2 then 1 else 0)) G.is (G.ie + (if l = .Face1 then 1 else 0))
  deriv := boxList G.nb (if axi then 0 else G.ks) (if axi then 0 else G.ke) G.js G.je G.is G.ie
  fd := boxList G.nb (if axi then 0 else G.ks) (if axi then 0 else G.ke) G.js G.je G.is G.ie
  coord l := boxList G.nb G.ks (G.ke + (if l = .Corn then 1 else 0)) G.js (G.je + (if l = .Corn then 1 else 0))
    G.is (G.ie + (if l = .Corn then 1 else 0))

/-- every grid has an admissible schedule. -/
theorem exSched_ok (G : Grid) (axi : Bool) : (exSched G axi).Ok G axi where
  loc l c := by
    simp only [exSched, mem_boxList, Grid.dom]
    cases axi <;> simp <;> intros <;> omega
  deriv c := by
    simp only [exSched, mem_boxList, Grid.dom]
    cases axi <;> simp <;> intros <;> omega
  fd c := by
    simp only [exSched, mem_boxList, Grid.dom]
    cases axi <;> simp <;> intros <;> omega
  coord l c := by simp only [exSched, mem_boxList, Grid.domCoord]

/-- a two-block, 2×1×4-zone grid. -/
def exGrid : Grid := ⟨2, 0, 3, 0, 0, 0, 1⟩

/-- the theorems apply to it: a cell can be requested at every location. -/
example : exGrid.req .Face1 ⟨1, 3, 0, 2⟩ ∧ exGrid.req .Cent ⟨0, 0, 0, 1⟩ ∧ exGrid.domCoord .Corn ⟨0, 1, 1, 2⟩ := by
  simp [Grid.req, Grid.dom, Grid.domCoord, exGrid]

end Phoebus.Cached
