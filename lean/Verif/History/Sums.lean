import Verif.History.SumsModel

/-!
# C109: totals and maxima in the history file
-/
namespace Phoebus.HistorySums
open Finset MeasureTheory

theorem region_volume (b : Block) (hp : ∀ d, 0 < b.dx d) (c : Cell) : (volume (b.region c)).toReal = b.vol := by
  unfold Block.region
  rw [Real.volume_pi_Ico_toReal (fun d => by nlinarith [hp d])]
  simp only [Fin.prod_univ_three, Block.vol]
  ring

theorem region_measurable (b : Block) (c : Cell) : MeasurableSet (b.region c) :=
  MeasurableSet.univ_pi fun _ => measurableSet_Ico

theorem box_measurable (b : Block) : MeasurableSet b.box := MeasurableSet.univ_pi fun _ => measurableSet_Ico

theorem region_finite (b : Block) (c : Cell) : volume (b.region c) ≠ ⊤ := by
  unfold Block.region
  rw [Real.volume_pi_Ico]
  exact ENNReal.prod_ne_top fun _ _ => ENNReal.ofReal_ne_top

/-- a point of the box lies in exactly one cell, and cells lie in the box. -/
theorem box_cells (b : Block) (hp : ∀ d, 0 < b.dx d) : b.box = ⋃ c ∈ b.cells, b.region c := by
  ext x
  simp only [Block.box, Block.region, Block.cells, Set.mem_pi, Set.mem_univ, true_implies, Set.mem_Ico, Set.mem_iUnion,
    Fintype.mem_piFinset, mem_range, exists_prop]
  constructor
  · intro h
    refine ⟨fun d => ⌊(x d - b.lo d) / b.dx d⌋₊, fun d => ?_, fun d => ?_⟩
    · have h1 := h d
      rw [Nat.floor_lt (div_nonneg (by linarith [h1.1]) (hp d).le), div_lt_iff₀ (hp d)]
      linarith [h1.2]
    · have h1 := h d
      have h0 : 0 ≤ (x d - b.lo d) / b.dx d := div_nonneg (by linarith [h1.1]) (hp d).le
      have h2 := Nat.floor_le h0
      have h3 := Nat.lt_floor_add_one ((x d - b.lo d) / b.dx d)
      rw [le_div_iff₀ (hp d)] at h2
      rw [div_lt_iff₀ (hp d)] at h3
      constructor <;> linarith
  · rintro ⟨c, hc, h⟩ d
    have h1 := h d
    have hn : (c d : ℝ) + 1 ≤ b.n d := by exact_mod_cast hc d
    have := mul_le_mul_of_nonneg_right hn (hp d).le
    have h4 : 0 ≤ (c d : ℝ) * b.dx d := mul_nonneg (Nat.cast_nonneg _) (hp d).le
    constructor <;> linarith

theorem regions_disjoint (b : Block) (hp : ∀ d, 0 < b.dx d) : Set.PairwiseDisjoint (b.cells : Set Cell) b.region := by
  intro c _ c' _ hne
  rw [Function.onFun, Set.disjoint_left]
  intro x h h'
  apply hne
  funext d
  simp only [Block.region, Set.mem_pi, Set.mem_univ, true_implies, Set.mem_Ico] at h h'
  have h1 := h d
  have h2 := h' d
  have a1 : (c d : ℝ) < c' d + 1 := by
    by_contra hh
    push Not at hh
    nlinarith [hp d]
  have a2 : (c' d : ℝ) < c d + 1 := by
    by_contra hh
    push Not at hh
    nlinarith [hp d]
  have b1 : c d < c' d + 1 := by exact_mod_cast a1
  have b2 : c' d < c d + 1 := by exact_mod_cast a2
  omega

/-- a field that is constant on the cells is integrable over a cell. -/
theorem region_integrable (b : Block) (c : Cell) (f : (Fin 3 → ℝ) → ℝ) (v : ℝ) (h : ∀ x ∈ b.region c, f x = v) :
    IntegrableOn f (b.region c) := by
  have : IntegrableOn (fun _ => v) (b.region c) := integrableOn_const (region_finite b c)
  exact this.congr_fun (fun x hx => (h x hx).symm) (region_measurable b c)

theorem block_integrable (b : Block) (hp : ∀ d, 0 < b.dx d) (val : Cell → ℝ) (f : (Fin 3 → ℝ) → ℝ)
    (h : ∀ c ∈ b.cells, ∀ x ∈ b.region c, f x = val c) : IntegrableOn f b.box := by
  rw [box_cells b hp]
  exact (integrableOn_finset_iUnion).2 fun c hc => region_integrable b c f (val c) (h c hc)

/-- the contribution of a block is the integral over its box. -/
theorem block_integral (b : Block) (hp : ∀ d, 0 < b.dx d) (val : Cell → ℝ) (f : (Fin 3 → ℝ) → ℝ)
    (h : ∀ c ∈ b.cells, ∀ x ∈ b.region c, f x = val c) :
    ∑ c ∈ b.cells, contribution .sum b (val c) = ∫ x in b.box, f x := by
  rw [box_cells b hp, integral_biUnion_finset _ (fun c _ => region_measurable b c) (regions_disjoint b hp)
    (fun c hc => region_integrable b c f (val c) (h c hc))]
  refine sum_congr rfl fun c hc => ?_
  rw [setIntegral_congr_fun (region_measurable b c) (h c hc), setIntegral_const, Measure.real, region_volume b hp c]
  simp [contribution, volumeWeighting, mul_comm]

theorem list_integral (blocks : List Block) (val : Block → Cell → ℝ) (f : (Fin 3 → ℝ) → ℝ) :
    ∀ D, Tiles blocks D → Stored blocks val f → reduceSum blocks val = ∫ x in D, f x ∧ IntegrableOn f D := by
  induction blocks with
  | nil =>
    intro D hT _
    have : D = ∅ := by
      ext x
      simp [hT.cover x]
    subst this
    simp [reduceSum]
  | cons b bs ih =>
    intro D hT hS
    have hd := List.pairwise_cons.1 hT.disj
    have hpb := hT.pos b (by simp)
    obtain ⟨i1, i2⟩ := ih {x | ∃ b ∈ bs, x ∈ b.box}
      ⟨fun b' hb' => hT.pos b' (by simp [hb']), hd.2, fun x => Iff.rfl⟩ (fun b' hb' => hS b' (by simp [hb']))
    have hD : D = b.box ∪ {x | ∃ b ∈ bs, x ∈ b.box} := by
      ext x
      simp [hT.cover x]
    have hI := block_integrable b hpb (val b) f (hS b (by simp))
    have hdis : Disjoint b.box {x | ∃ b ∈ bs, x ∈ b.box} := by
      rw [Set.disjoint_left]
      rintro x hx ⟨b', hb', hx'⟩
      exact Set.disjoint_left.1 (hd.1 b' hb') hx hx'
    have hm : MeasurableSet {x | ∃ b ∈ bs, x ∈ b.box} := by
      have : {x | ∃ b ∈ bs, x ∈ b.box} = ⋃ b ∈ {b | b ∈ bs}, b.box := by
        ext x
        simp
      rw [this]
      exact MeasurableSet.biUnion (List.finite_toSet bs).countable fun b _ => box_measurable b
    refine ⟨?_, by rw [hD]; exact hI.union i2⟩
    rw [hD, setIntegral_union hdis hm hI i2, ← i1, ← block_integral b hpb (val b) f (hS b (by simp))]
    simp [reduceSum]

theorem historySum_flat (mesh : List (List Block)) (val : Block → Cell → ℝ) :
    historySum mesh val = reduceSum mesh.flatten val := by
  induction mesh with
  | nil => simp [historySum, reduceSum]
  | cons p ps ih =>
    simp only [historySum, List.map_cons, List.sum_cons, List.flatten_cons] at ih ⊢
    rw [ih]
    simp [reduceSum]

/-- the recorded total is the integral of the stored field over the domain, however the domain is cut into blocks and cells (any
refinement) and the blocks are spread over partitions. -/
theorem history_total (mesh : List (List Block)) (val : Block → Cell → ℝ) (f : (Fin 3 → ℝ) → ℝ) (D : Set (Fin 3 → ℝ))
    (hT : Tiles mesh.flatten D) (hS : Stored mesh.flatten val f) : historySum mesh val = ∫ x in D, f x := by
  rw [historySum_flat]
  exact (list_integral _ _ _ D hT hS).1

/-- two meshes of the same domain that store the same field record the same total. -/
theorem history_decomposition (m m' : List (List Block)) (val val' : Block → Cell → ℝ) (f : (Fin 3 → ℝ) → ℝ)
    (D : Set (Fin 3 → ℝ)) (hT : Tiles m.flatten D) (hT' : Tiles m'.flatten D) (hS : Stored m.flatten val f)
    (hS' : Stored m'.flatten val' f) : historySum m val = historySum m' val' := by
  rw [history_total m val f D hT hS, history_total m' val' f D hT' hS']

/-- the recorded maximum is an upper bound of every cell value. -/
theorem history_max_ge (mesh : List (List Block)) (val : Block → Cell → ℝ) (p : List Block) (hp : p ∈ mesh) (b : Block)
    (hb : b ∈ p) (c : Cell) (hc : c ∈ b.cells) : ((val b c : ℝ) : WithBot ℝ) ≤ historyMax mesh val := by
  have fold_ge : ∀ (l : List (WithBot ℝ)) (x), x ∈ l → x ≤ l.foldr (· ⊔ ·) ⊥ := by
    intro l x hx
    induction l with
    | nil => simp at hx
    | cons a l ih =>
      rcases List.mem_cons.1 hx with rfl | h
      · exact le_sup_left
      · exact (ih h).trans le_sup_right
  have h1 : ((val b c : ℝ) : WithBot ℝ) ≤ b.cells.sup fun c => ((contribution .max b (val b c) : ℝ) : WithBot ℝ) := by
    refine le_trans ?_ (Finset.le_sup hc)
    simp [contribution, volumeWeighting]
    norm_num
  have h2 : (b.cells.sup fun c => ((contribution .max b (val b c) : ℝ) : WithBot ℝ)) ≤ reduceMax p val :=
    fold_ge _ _ (List.mem_map.2 ⟨b, hb, rfl⟩)
  have h3 : reduceMax p val ≤ historyMax mesh val := fold_ge _ _ (List.mem_map.2 ⟨p, hp, rfl⟩)
  exact h1.trans (h2.trans h3)

/-- and it is the value of some cell, whatever the sign of the field, unless there is no cell. -/
theorem history_max_attained (mesh : List (List Block)) (val : Block → Cell → ℝ) :
    historyMax mesh val = ⊥ ∨ ∃ p ∈ mesh, ∃ b ∈ p, ∃ c ∈ b.cells, historyMax mesh val = ((val b c : ℝ) : WithBot ℝ) := by
  have fold_at : ∀ (l : List (WithBot ℝ)), l.foldr (· ⊔ ·) ⊥ = ⊥ ∨ l.foldr (· ⊔ ·) ⊥ ∈ l := by
    intro l
    induction l with
    | nil => simp
    | cons a l ih =>
      simp only [List.foldr_cons, List.mem_cons]
      rcases le_total a (l.foldr (· ⊔ ·) ⊥) with h | h
      · rw [sup_eq_right.2 h]
        rcases ih with h' | h'
        · exact Or.inl h'
        · exact Or.inr (Or.inr h')
      · rw [sup_eq_left.2 h]
        exact Or.inr (Or.inl rfl)
  rcases fold_at (mesh.map fun p => reduceMax p val) with h | h
  · exact Or.inl h
  · obtain ⟨p, hp, he⟩ := List.mem_map.1 h
    rcases fold_at (p.map fun b => b.cells.sup fun c => ((contribution .max b (val b c) : ℝ) : WithBot ℝ)) with h2 | h2
    · left
      unfold historyMax
      rw [← he]
      exact h2
    · obtain ⟨b, hb, hbe⟩ := List.mem_map.1 h2
      rcases b.cells.eq_empty_or_nonempty with hc | hc
      · left
        unfold historyMax
        rw [← he]
        unfold reduceMax
        rw [← hbe, hc]
        simp
      · right
        obtain ⟨c, hc1, hc2⟩ := Finset.exists_mem_eq_sup b.cells hc
          fun c => ((contribution .max b (val b c) : ℝ) : WithBot ℝ)
        refine ⟨p, hp, b, hb, c, hc1, ?_⟩
        unfold historyMax
        rw [← he]
        unfold reduceMax
        rw [← hbe]
        rw [hc2]
        simp [contribution, volumeWeighting]
        norm_num

/-- a request is accepted exactly for the components the variable has. -/
theorem accepted_iff (first : ℤ) (ncomp idx : ℕ) (hf : 0 ≤ first) (hn : 0 < ncomp) :
    accepted first (first + ncomp - 1) idx = true ↔ idx < ncomp := by
  unfold accepted
  simp [hf]

/-- an absent variable is refused. -/
theorem accepted_absent (idx : ℕ) : accepted (-1) (-2) idx = false := by simp [accepted]

/-! ## A concrete mesh: one coarse block next to one refined block -/

def coarse : Block := ⟨![0, 0, 0], ![1, 1, 1], ![1, 1, 1]⟩
noncomputable def fine : Block := ⟨![1, 0, 0], ![1 / 2, 1 / 2, 1 / 2], ![2, 2, 2]⟩

theorem ex_tiles : Tiles [coarse, fine] (Set.pi Set.univ ![Set.Ico 0 2, Set.Ico 0 1, Set.Ico 0 1]) := by
  refine ⟨?_, ?_, ?_⟩
  · intro b hb d
    have hd : d = 0 ∨ d = 1 ∨ d = 2 := by omega
    simp only [List.mem_cons, List.not_mem_nil, or_false] at hb
    rcases hb with rfl | rfl <;> rcases hd with rfl | rfl | rfl <;> simp [coarse, fine]
  · simp only [List.pairwise_cons, List.mem_cons, List.not_mem_nil, or_false, forall_eq, List.Pairwise.nil, and_true,
      IsEmpty.forall_iff, implies_true]
    rw [Set.disjoint_left]
    intro x h h'
    have h1 := h 0 trivial
    have h2 := h' 0 trivial
    simp [coarse, fine] at h1 h2
    linarith [h1.2, h2.1]
  · intro x
    simp only [List.mem_cons, List.not_mem_nil, or_false, exists_eq_or_imp, exists_eq_left, Block.box, coarse, fine, Set.mem_pi,
      Set.mem_univ, true_implies, Fin.forall_fin_succ, Set.mem_Ico]
    simp
    constructor
    · rintro ⟨⟨a, b⟩, c, d⟩
      rcases lt_or_ge (x 0) 1 with h | h
      · exact Or.inl ⟨⟨a, h⟩, c, d⟩
      · exact Or.inr ⟨⟨h, by linarith⟩, c, d⟩
    · rintro (⟨⟨a, b⟩, c, d⟩ | ⟨⟨a, b⟩, c, d⟩)
      · exact ⟨⟨a, by linarith⟩, c, d⟩
      · exact ⟨⟨by linarith, by linarith⟩, c, d⟩

/-- a uniform density 3 in the two-block mesh gives the total 6. -/
theorem ex_total : historySum [[coarse], [fine]] (fun _ _ => 3) = 6 := by
  simp [historySum, reduceSum, contribution, volumeWeighting, Block.vol, coarse, fine, Block.cells, Fintype.card_piFinset,
    Fin.prod_univ_three]
  norm_num

end Phoebus.HistorySums
