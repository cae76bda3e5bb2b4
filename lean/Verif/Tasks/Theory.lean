import Verif.Tasks.Model

/-!
# Race-free task graphs are schedule independent
-/
namespace Phoebus.Tasks
open Relation

section
variable {ρ V : Type*} [AddCommMonoid V]

/-- **C95** Two tasks that do not collide can be exchanged. -/
theorem Body.comm {f g : Foot ρ} (h : ¬ f.Collide g) (t : Body (V := V) f) (u : Body (V := V) g) (s : ρ → V) :
    t.act (u.act s) = u.act (t.act s) := by
  have hno : ∀ r, ¬ ((r ∈ f.writes ∧ (r ∈ g.reads ∨ r ∈ g.writes ∨ r ∈ g.adds)) ∨ (r ∈ g.writes ∧ (r ∈ f.reads ∨ r ∈ f.writes ∨ r ∈ f.adds)) ∨
    (r ∈ f.adds ∧ r ∈ g.reads) ∨ (r ∈ g.adds ∧ r ∈ f.reads)) := fun r hr => h ⟨r, hr⟩
  have hu : ∀ r ∈ f.reads, u.act s r = s r := fun r hr =>
    u.frame s r (fun hw => hno r (by tauto)) (fun hw => hno r (by tauto))
  have ht : ∀ r ∈ g.reads, t.act s r = s r := fun r hr =>
    t.frame s r (fun hw => hno r (by tauto)) (fun hw => hno r (by tauto))
  funext r
  have hr := hno r
  by_cases h1 : r ∈ f.writes
  · have h2 : r ∉ g.writes := by tauto
    have h3 : r ∉ g.adds := by tauto
    rw [u.frame _ r h2 h3]
    exact t.written _ _ hu r h1
  · by_cases h2 : r ∈ g.writes
    · have h3 : r ∉ f.adds := by tauto
      rw [t.frame _ r h1 h3]
      exact (u.written _ _ ht r h2).symm
    · by_cases h3 : r ∈ f.adds
      · obtain ⟨i, hi, hil⟩ := t.added r h3 h1
        by_cases h4 : r ∈ g.adds
        · obtain ⟨j, hj, hjl⟩ := u.added r h4 h2
          rw [hi, hj, hj, hi, hil _ _ hu, hjl _ _ ht]
          exact add_right_comm _ _ _
        · rw [hi, u.frame _ r h2 h4, u.frame _ r h2 h4, hi, hil _ _ hu]
      · rw [t.frame _ r h1 h3]
        by_cases h4 : r ∈ g.adds
        · obtain ⟨j, hj, hjl⟩ := u.added r h4 h2
          rw [hj, hj, hjl _ _ ht, t.frame _ r h1 h3]
        · rw [u.frame _ r h2 h4, u.frame _ r h2 h4, t.frame _ r h1 h3]
end

section
variable {ι S : Type*}

/-- a task that commutes with everything before it can be run first. -/
theorem run_front (act : ι → S → S) (a : ι) (l₁ l₂ : List ι) (h : ∀ b ∈ l₁, ∀ s, act a (act b s) = act b (act a s)) (s : S) :
    run act (l₁ ++ a :: l₂) s = run act (a :: (l₁ ++ l₂)) s := by
  have : ∀ s, act a (run act l₁ s) = run act l₁ (act a s) := by
    induction l₁ with
    | nil => intro s; rfl
    | cons b l ih =>
      intro s
      have h1 := ih (fun c hc => h c (List.mem_cons_of_mem _ hc)) (act b s)
      simp only [run, List.foldl_cons] at h1 ⊢
      rw [h1, h b List.mem_cons_self]
  simp only [run, List.foldl_append, List.foldl_cons] at this ⊢
  rw [this]

/-- two linearisations of the same partial order give the same result when unordered tasks commute. -/
theorem run_linear (act : ι → S → S) (lt : ι → ι → Prop)
    (hc : ∀ a b, a ≠ b → ¬ lt a b → ¬ lt b a → ∀ s, act a (act b s) = act b (act a s)) :
    ∀ l l' : List ι, l.Nodup → l.Perm l' → l.Pairwise (fun a b => ¬ lt b a) → l'.Pairwise (fun a b => ¬ lt b a) →
      ∀ s, run act l s = run act l' s := by
  intro l
  induction l with
  | nil => intro l' _ hp _ _ s; rw [hp.nil_eq]
  | cons a l ih =>
    intro l' hn hp h1 h2 s
    obtain ⟨l₁, l₂, rfl⟩ := List.append_of_mem (hp.mem_iff.1 List.mem_cons_self)
    have hp' : l.Perm (l₁ ++ l₂) := (List.perm_cons a).1 (hp.trans List.perm_middle)
    have hn' := List.nodup_cons.1 hn
    rw [run_front act a l₁ l₂ ?_ s]
    · simp only [run, List.foldl_cons]
      refine ih (l₁ ++ l₂) hn'.2 hp' (List.pairwise_cons.1 h1).2 ?_ (act a s)
      exact h2.sublist ((List.sublist_cons_self a l₂).append_left l₁)
    · intro b hb t
      have hbl : b ∈ l := hp'.mem_iff.2 (List.mem_append_left _ hb)
      refine hc a b (fun e => hn'.1 (e ▸ hbl)) ?_ ((List.pairwise_cons.1 h1).1 b hbl) t
      exact (List.pairwise_append.1 h2).2.2 b hb a List.mem_cons_self

theorem Schedule.lt_idx [DecidableEq ι] {dep : ι → ι → Prop} {l : List ι} (h : Schedule dep l) {a b : ι} (hab : TransGen dep a b) :
    l.idxOf a < l.idxOf b := by
  induction hab with
  | single h1 => exact h.order _ _ h1
  | tail _ h2 ih => exact ih.trans (h.order _ _ h2)

theorem Schedule.pairwise [DecidableEq ι] {dep : ι → ι → Prop} {l : List ι} (h : Schedule dep l) :
    l.Pairwise (fun a b => ¬ TransGen dep b a) := by
  rw [List.pairwise_iff_getElem]
  intro i j hi hj hij hlt
  have := h.lt_idx hlt
  rw [h.nodup.idxOf_getElem, h.nodup.idxOf_getElem] at this
  omega

theorem Schedule.perm [DecidableEq ι] {dep : ι → ι → Prop} {l l' : List ι} (h : Schedule dep l) (h' : Schedule dep l') : l.Perm l' :=
  (List.perm_ext_iff_of_nodup h.nodup h'.nodup).2 fun i => ⟨fun _ => h'.all i, fun _ => h.all i⟩
end

/-- **C95** The result of a race-free task graph does not depend on the order in which the scheduler runs the tasks. -/
theorem race_free_deterministic {ι ρ V : Type*} [AddCommMonoid V] [DecidableEq ι] (dep : ι → ι → Prop) (foot : ι → Foot ρ)
    (hrf : RaceFree dep foot) (body : ∀ i, Body (V := V) (foot i)) (s : ρ → V) (l l' : List ι) (h : Schedule dep l) (h' : Schedule dep l') :
    run (fun i => (body i).act) l s = run (fun i => (body i).act) l' s := by
  refine run_linear _ (TransGen dep) ?_ l l' h.nodup (h.perm h') h.pairwise h'.pairwise s
  intro a b hab h1 h2 t
  exact Body.comm (fun hcol => (hrf a b hab hcol).elim h1 h2) (body a) (body b) t

/-! ### soundness of the check -/

variable {τ ρ : Type}

/-- an abstract list map preserves dependencies. -/
theorem Region.dep_map (R : Region τ ρ) {k n : ℕ} (m : Fin (k + 1) → Fin (n + 1)) (hm : ∀ r, m r = 0 ↔ r = 0) (x y : Inst τ k) (h : R.dep k x y) :
    R.dep n (m x.1, x.2) (m y.1, y.2) := by
  have e : (m y.1 == 0) = (y.1 == 0) := by
    rw [Bool.eq_iff_iff, beq_iff_eq, beq_iff_eq]; exact hm _
  refine ⟨by rw [e]; exact h.1, h.2.imp (fun h => by rw [h]) id⟩

theorem Region.transGen_map (R : Region τ ρ) {k n : ℕ} (m : Fin (k + 1) → Fin (n + 1)) (hm : ∀ r, m r = 0 ↔ r = 0) {x y : Inst τ k}
    (h : TransGen (R.dep k) x y) : TransGen (R.dep n) (m x.1, x.2) (m y.1, y.2) := by
  induction h with
  | single h => exact .single (R.dep_map m hm _ _ h)
  | tail _ h ih => exact ih.tail (R.dep_map m hm _ _ h)

theorem val_beq_zero {k : ℕ} (p : Fin (k + 1)) : (p.val == 0) = (p == 0) := by
  rw [Bool.eq_iff_iff, beq_iff_eq, beq_iff_eq]; exact ⟨fun h => Fin.ext h, fun h => by rw [h]; rfl⟩

theorem Region.pred_dep [DecidableEq τ] (R : Region τ ρ) {k : ℕ} {y x : Inst τ k} {a : τ} (ha : a ∈ R.deps (y.1.val == 0) y.2)
    (hx : x ∈ (if R.sync a then (List.finRange (k + 1)).map (fun p => (p, a)) else [(y.1, a)])) : R.dep k x y := by
  rw [val_beq_zero] at ha
  by_cases hs : R.sync a = true
  · rw [if_pos hs, List.mem_map] at hx
    obtain ⟨p, -, rfl⟩ := hx
    exact ⟨ha, Or.inr hs⟩
  · rw [if_neg hs, List.mem_singleton] at hx
    subst hx
    exact ⟨ha, Or.inl rfl⟩

theorem Region.iter_sound [DecidableEq τ] (R : Region τ ρ) {k : ℕ} (fuel : ℕ) (c : Inst τ k) (xs : List (Inst τ k))
    (hxs : ∀ x ∈ xs, ReflTransGen (R.dep k) x c) : ∀ a ∈ Nat.iterate (R.back (k + 1)) fuel xs, ReflTransGen (R.dep k) a c := by
  induction fuel generalizing xs with
  | zero => exact hxs
  | succ f ih =>
    rw [Function.iterate_succ]
    refine ih _ fun x hx => ?_
    rw [Region.back, List.mem_eraseDups, List.mem_append] at hx
    rcases hx with hx | hx
    · exact hxs x hx
    · rw [List.mem_flatMap] at hx
      obtain ⟨y, hy, hx⟩ := hx
      rw [List.mem_flatMap] at hx
      obtain ⟨a, ha, hx⟩ := hx
      exact .head (R.pred_dep ha hx) (hxs y hy)

theorem Region.waits_sound [DecidableEq τ] (R : Region τ ρ) {k : ℕ} (fuel : ℕ) (a b : Inst τ k) (h : R.waits (k + 1) fuel a b = true) :
    TransGen (R.dep k) a b := by
  rw [Region.waits, List.any_eq_true] at h
  obtain ⟨c, hc, h⟩ := h
  rw [List.any_eq_true] at h
  obtain ⟨c', hc', h⟩ := h
  rw [List.contains_iff_mem] at h
  have := R.iter_sound fuel c' [c'] (fun x hx => by rw [List.mem_singleton] at hx; subst hx; exact .refl) a h
  exact TransGen.tail' this (R.pred_dep hc hc')

theorem Region.hits_of [DecidableEq ρ] (R : Region τ ρ) {n : ℕ} (x y : Inst τ n) (h : (R.foot n x).Collide (R.foot n y)) :
    (x.1 = y.1 ∧ R.hits (fun _ => true) (x.1 == 0) x.2 (y.1 == 0) y.2 = true) ∨ R.hits R.shared (x.1 == 0) x.2 (y.1 == 0) y.2 = true := by
  have key : ∀ (r r' : ρ), R.at' x.1 r = R.at' y.1 r' → r = r' ∧ (R.shared r = true ∨ x.1 = y.1) := by
    intro r r' h
    simp only [Region.at', Prod.mk.injEq] at h
    obtain ⟨rfl, h⟩ := h
    refine ⟨rfl, ?_⟩
    by_cases hs : R.shared r = true
    · exact Or.inl hs
    · simp [hs] at h; exact Or.inr h
  have key2 : ∀ r r', R.at' x.1 r = R.at' y.1 r' → ((∀ keep : ρ → Bool, keep r = true → R.hits keep (x.1 == 0) x.2 (y.1 == 0) y.2 = true) →
     (x.1 = y.1 ∧ R.hits (fun _ => true) (x.1 == 0) x.2 (y.1 == 0) y.2 = true) ∨ R.hits R.shared (x.1 == 0) x.2 (y.1 == 0) y.2 = true) := by
    intro r r' h hk
    rcases (key r r' h).2 with hs | hp
    · exact Or.inr (hk _ hs)
    · exact Or.inl ⟨hp, hk _ rfl⟩
  obtain ⟨z, h⟩ := h
  simp only [Region.foot, Set.mem_setOf_eq] at h
  rcases h with ⟨⟨r, hr, rfl⟩, h⟩ | ⟨⟨r, hr, rfl⟩, h⟩ | ⟨⟨r, hr, rfl⟩, r', hr', h⟩ | ⟨⟨r, hr, rfl⟩, r', hr', h⟩
  · rcases h with ⟨r', hr', h⟩ | ⟨r', hr', h⟩ | ⟨r', hr', h⟩ <;>
    · have e := (key _ _ h).1
      subst e
      refine key2 r r h fun keep hk => ?_
      simp only [Region.hits, Bool.or_eq_true, List.any_eq_true, Bool.and_eq_true, List.contains_iff_mem]
      exact Or.inl (Or.inl ⟨r, hr, hk, by tauto⟩)
  · rcases h with ⟨r', hr', h⟩ | ⟨r', hr', h⟩ | ⟨r', hr', h⟩ <;>
    · have e := (key _ _ h.symm).1
      subst e
      refine key2 r' r' h.symm fun keep hk => ?_
      simp only [Region.hits, Bool.or_eq_true, List.any_eq_true, Bool.and_eq_true, List.contains_iff_mem]
      exact Or.inr (Or.inl ⟨r', hr, hk, by tauto⟩)
  · have e := (key _ _ h).1
    subst e
    refine key2 r r h fun keep hk => ?_
    simp only [Region.hits, Bool.or_eq_true, List.any_eq_true, Bool.and_eq_true, List.contains_iff_mem]
    exact Or.inl (Or.inr ⟨r, hr, hk, hr'⟩)
  · have e := (key _ _ h.symm).1
    subst e
    refine key2 r' r' h.symm fun keep hk => ?_
    simp only [Region.hits, Bool.or_eq_true, List.any_eq_true, Bool.and_eq_true, List.contains_iff_mem]
    exact Or.inr (Or.inr ⟨r', hr, hk, hr'⟩)

/-- the finite check implies race freedom for every number of lists. -/
theorem Region.check_raceFree [DecidableEq τ] [DecidableEq ρ] (R : Region τ ρ) (fuel : ℕ) (hall : ∀ a, a ∈ R.tasks) (h : R.check fuel = true) (n : ℕ) :
    RaceFree (R.dep n) (R.foot n) := by
  have hsym : ∀ keep f a g b, R.hits keep f a g b = R.hits keep g b f a := by
    intro keep f a g b; simp only [Region.hits]; exact Bool.or_comm _ _
  have H : ∀ a b : τ, (a = b ∨ R.hits (fun _ => true) true a true b = false ∨ TransGen (R.dep 0) (0, a) (0, b) ∨ TransGen (R.dep 0) (0, b) (0, a)) ∧
      (a = b ∨ R.hits (fun _ => true) false a false b = false ∨ TransGen (R.dep 2) (1, a) (1, b) ∨ TransGen (R.dep 2) (1, b) (1, a)) ∧
      (R.hits R.shared true a false b = false ∨ TransGen (R.dep 2) (0, a) (1, b) ∨ TransGen (R.dep 2) (1, b) (0, a)) ∧
      (R.hits R.shared false a false b = false ∨ TransGen (R.dep 2) (1, a) (2, b) ∨ TransGen (R.dep 2) (2, b) (1, a)) := by
    intro a b
    have := List.all_eq_true.1 h a (hall a)
    have := List.all_eq_true.1 this b (hall b)
    simp only [Bool.and_eq_true, Bool.or_eq_true, Bool.not_eq_true', beq_iff_eq] at this
    obtain ⟨⟨⟨h1, h2⟩, h3⟩, h4⟩ := this
    refine ⟨?_, ?_, ?_, ?_⟩
    · rcases h1 with ((h | h) | h) | h
      · exact Or.inl h
      · exact Or.inr (Or.inl h)
      · exact Or.inr (Or.inr (Or.inl (R.waits_sound _ _ _ h)))
      · exact Or.inr (Or.inr (Or.inr (R.waits_sound _ _ _ h)))
    · rcases h2 with ((h | h) | h) | h
      · exact Or.inl h
      · exact Or.inr (Or.inl h)
      · exact Or.inr (Or.inr (Or.inl (R.waits_sound _ _ _ h)))
      · exact Or.inr (Or.inr (Or.inr (R.waits_sound _ _ _ h)))
    · rcases h3 with (h | h) | h
      · exact Or.inl h
      · exact Or.inr (Or.inl (R.waits_sound _ _ _ h))
      · exact Or.inr (Or.inr (R.waits_sound _ _ _ h))
    · rcases h4 with (h | h) | h
      · exact Or.inl h
      · exact Or.inr (Or.inl (R.waits_sound _ _ _ h))
      · exact Or.inr (Or.inr (R.waits_sound _ _ _ h))
  -- instances of lists `p` and `q`, neither of them the first, through roles 1 and 2
  have lift : ∀ (p q : Fin (n + 1)), p ≠ 0 → q ≠ 0 → ∃ m : Fin 3 → Fin (n + 1), (∀ r, m r = 0 ↔ r = 0) ∧ m 1 = p ∧ m 2 = q := by
    intro p q hp hq
    refine ⟨![0, p, q], fun r => ?_, rfl, rfl⟩
    fin_cases r <;> simp [hp, hq]
  intro ⟨p, a⟩ ⟨q, b⟩ hne hcol
  have hh := R.hits_of _ _ hcol
  -- collisions through shared resources between lists, in either order of the pair
  have cross0 : ∀ (a b : τ) (q : Fin (n + 1)), q ≠ 0 → R.hits R.shared true a false b = true →
      TransGen (R.dep n) (0, a) (q, b) ∨ TransGen (R.dep n) (q, b) (0, a) := by
    intro a b q hq hs
    obtain ⟨m, hm, h1, -⟩ := lift q q hq hq
    have h0 : m 0 = 0 := (hm 0).2 rfl
    rcases (H a b).2.2.1 with h | h | h
    · rw [h] at hs; cases hs
    · have := R.transGen_map m hm h; rw [h0, h1] at this; exact Or.inl this
    · have := R.transGen_map m hm h; rw [h0, h1] at this; exact Or.inr this
  have cross : ∀ (a b : τ) (p q : Fin (n + 1)), p ≠ 0 → q ≠ 0 → R.hits R.shared false a false b = true →
      TransGen (R.dep n) (p, a) (q, b) ∨ TransGen (R.dep n) (q, b) (p, a) := by
    intro a b p q hp hq hs
    obtain ⟨m, hm, h1, h2⟩ := lift p q hp hq
    rcases (H a b).2.2.2 with h | h | h
    · rw [h] at hs; cases hs
    · have := R.transGen_map m hm h; rw [h1, h2] at this; exact Or.inl this
    · have := R.transGen_map m hm h; rw [h1, h2] at this; exact Or.inr this
  have same : ∀ (a b : τ) (p : Fin (n + 1)), a ≠ b → R.hits (fun _ => true) (p == 0) a (p == 0) b = true →
      TransGen (R.dep n) (p, a) (p, b) ∨ TransGen (R.dep n) (p, b) (p, a) := by
    intro a b p hab hs
    by_cases hp : p = 0
    · subst hp
      let m : Fin 1 → Fin (n + 1) := fun _ => 0
      have hm : ∀ r, m r = 0 ↔ r = 0 := fun r => ⟨fun _ => Subsingleton.elim _ _, fun _ => rfl⟩
      rcases (H a b).1 with h | h | h | h
      · exact absurd h hab
      · simp at hs; rw [h] at hs; cases hs
      · exact Or.inl (R.transGen_map m hm h)
      · exact Or.inr (R.transGen_map m hm h)
    · obtain ⟨m, hm, h1, -⟩ := lift p p hp hp
      have e : (p == 0) = false := by simpa using hp
      rw [e] at hs
      rcases (H a b).2.1 with h | h | h | h
      · exact absurd h hab
      · rw [h] at hs; cases hs
      · have := R.transGen_map m hm h; rw [h1] at this; exact Or.inl this
      · have := R.transGen_map m hm h; rw [h1] at this; exact Or.inr this
  have mono : ∀ f a g b, R.hits R.shared f a g b = true → R.hits (fun _ => true) f a g b = true := by
    intro f a g b
    simp only [Region.hits, Bool.or_eq_true, List.any_eq_true, Bool.and_eq_true]
    rintro ((⟨r, h1, -, h2⟩ | ⟨r, h1, -, h2⟩) | (⟨r, h1, -, h2⟩ | ⟨r, h1, -, h2⟩))
    · exact Or.inl (Or.inl ⟨r, h1, trivial, h2⟩)
    · exact Or.inl (Or.inr ⟨r, h1, trivial, h2⟩)
    · exact Or.inr (Or.inl ⟨r, h1, trivial, h2⟩)
    · exact Or.inr (Or.inr ⟨r, h1, trivial, h2⟩)
  by_cases hpq : p = q
  · subst hpq
    have hab : a ≠ b := fun e => hne (by rw [e])
    refine same a b p hab ?_
    rcases hh with ⟨-, h⟩ | h
    · exact h
    · exact mono _ _ _ _ h
  · rcases hh with ⟨e, -⟩ | hs
    · exact absurd e hpq
    · by_cases hp : p = 0
      · subst hp
        have hq : q ≠ 0 := fun e => hpq e.symm
        have e : (q == 0) = false := by simpa using hq
        simp only [e] at hs
        exact cross0 a b q hq (by simpa using hs)
      · have ep : (p == 0) = false := by simpa using hp
        by_cases hq : q = 0
        · subst hq
          rw [hsym] at hs
          simp only [ep] at hs
          exact (cross0 b a p hp (by simpa using hs)).symm
        · have eq : (q == 0) = false := by simpa using hq
          simp only [ep, eq] at hs
          exact cross a b p q hp hq hs

/-- **C95** Criterion used for every region of the driver. -/
theorem Region.deterministic_of_check [DecidableEq τ] [DecidableEq ρ] (R : Region τ ρ) (fuel : ℕ) (hall : ∀ a, a ∈ R.tasks) (h : R.check fuel = true) :
    R.Deterministic := by
  intro V _ n body s l l' hl hl'
  exact race_free_deterministic _ _ (R.check_raceFree fuel hall h n) body s l l' hl hl'

end Phoebus.Tasks
