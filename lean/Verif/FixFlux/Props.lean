import Verif.FixFlux.Model

/-! # Properties of the flux fix and of the flux-form update (C19, C20) -/
namespace Phoebus.FixFlux
open FluxCT Finset
variable {K : Type} [Field K] [LinearOrder K] [IsStrictOrderedRing K]

/-- `(d,k,j,i)` is a face of the block lying on its inner (`false`) or outer side in direction `d` -- stated
independently of the loops: the cell on the interior side of the face is an interior cell. -/
def BoundaryFace (b : Block) (d : Fin 3) (outer : Bool) (k j i : ℤ) : Prop :=
  let o : ℤ := if outer then 1 else 0
  match d with
  | 0 => b.Has k j (i - o) ∧ (if outer then i = b.ie + 1 else i = b.is)
  | 1 => b.Has k (j - o) i ∧ (if outer then j = b.je + 1 else j = b.js)
  | 2 => b.Has (k - o) j i ∧ (if outer then k = b.ke + 1 else k = b.ks)

/-- `(d,k,j,i)` is the lower or upper face of an interior cell. -/
def UsedFace (b : Block) (d : Fin 3) (k j i : ℤ) : Prop :=
  match d with
  | 0 => b.Has k j i ∨ b.Has k j (i - 1)
  | 1 => b.Has k j i ∨ b.Has k (j - 1) i
  | 2 => b.Has k j i ∨ b.Has (k - 1) j i

/-- a block with at least one cell -/
def Nonempty (b : Block) : Prop := b.ks ≤ b.ke ∧ b.js ≤ b.je ∧ b.is ≤ b.ie

/-- `FixFluxes` reaches direction `d`. -/
def Reached (c : Cfg) (d : Fin 3) : Prop := c.enable = true ∧ d.val < c.ndim ∧ 1 ≤ c.ndim ∧ c.ndim ≤ 3

theorem onFace_iff (b : Block) (d : Fin 3) (o : Bool) (k j i : ℤ) (hb : Nonempty b) :
    onFace b d o k j i = true ↔ BoundaryFace b d o k j i := by
  obtain ⟨h1, h2, h3⟩ := hb
  fin_cases d <;> cases o <;> simp [onFace, BoundaryFace, Block.Has] <;> omega

/-- The effect at a face, for a variable other than the magnetic field. -/
def faceFix (c : Cfg) (d : Fin 3) (o : Bool) (v : Var) (x : K) : K :=
  if c.user d o then
    match c.bc d o with
    | .outflow => outflowFix o v x
    | .reflect => if d = 1 then reflect2 c o v x else reflect13 c v x
    | .polar => if d = 1 then polar2 c v x else x
    | .other => x
  else x

omit [IsStrictOrderedRing K] in
theorem fixFace_other (c : Cfg) (b : Block) (d d' : Fin 3) (o : Bool) (F : Flux K) (v : Var) (k j i : ℤ)
    (hB : v ≠ Var.B 1) (h : d' ≠ d ∨ onFace b d o k j i = false) :
    fixFace c b d o F d' v k j i = F d' v k j i := by
  have key : ∀ f, setFace d (onFace b d o) f F d' v k j i = F d' v k j i := by
    intro f; unfold setFace
    rcases h with h | h <;> simp [h]
  cases hu : c.user d o
  · simp [fixFace, hu]
  · cases hc : c.bc d o <;> by_cases hd : d = 1 <;> simp only [fixFace, hu, hc, if_true] <;>
      (try simp only [if_pos hd]) <;> (try simp only [if_neg hd]) <;>
      try simp only [polarGhost, hB, false_and, if_false]
    all_goals first | rfl | exact key _

omit [IsStrictOrderedRing K] in
theorem fixFace_on (c : Cfg) (b : Block) (d : Fin 3) (o : Bool) (F : Flux K) (v : Var) (k j i : ℤ)
    (hB : v ≠ Var.B 1) (h : onFace b d o k j i = true) :
    fixFace c b d o F d v k j i = faceFix c d o v (F d v k j i) := by
  have key : ∀ f, setFace d (onFace b d o) f F d v k j i = f v (F d v k j i) := by
    intro f; simp [setFace, h]
  cases hu : c.user d o
  · simp [fixFace, faceFix, hu]
  · cases hc : c.bc d o <;> by_cases hd : d = 1 <;> simp only [fixFace, faceFix, hu, hc, if_true] <;>
      (try simp only [if_pos hd]) <;> (try simp only [if_neg hd]) <;>
      try simp only [polarGhost, hB, false_and, if_false]
    all_goals first | rfl | exact key _

theorem onFace_excl (b : Block) (d : Fin 3) (o : Bool) (k j i : ℤ) (hb : Nonempty b)
    (h : onFace b d o k j i = true) : onFace b d (!o) k j i = false := by
  obtain ⟨h1, h2, h3⟩ := hb
  fin_cases d <;> cases o <;> simp [onFace] at * <;> omega

omit [IsStrictOrderedRing K] in
/-- Value of any non-magnetic flux after `FixFluxes` at a physical face of the block. -/
theorem fixFluxes_on (c : Cfg) (b : Block) (hb : Nonempty b) (d : Fin 3) (o : Bool) (hr : Reached c d) (F : Flux K)
    (v : Var) (hB : v ≠ Var.B 1) (k j i : ℤ) (h : BoundaryFace b d o k j i) :
    fixFluxes c b F d v k j i = faceFix c d o v (F d v k j i) := by
  rw [← onFace_iff b d o k j i hb] at h
  have hx := onFace_excl b d o k j i hb h
  obtain ⟨he, hd, h1, h3⟩ := hr
  have n1 : c.ndim = 1 ∨ c.ndim = 2 ∨ c.ndim = 3 := by omega
  unfold fixFluxes
  simp only [he, Bool.not_true, Bool.false_eq_true, if_false]
  have pair : ∀ G : Flux K, fixFace c b d true (fixFace c b d false G) d v k j i = faceFix c d o v (G d v k j i) := by
    intro G
    cases o
    · rw [fixFace_other c b d d true _ v k j i hB (Or.inr hx), fixFace_on _ _ _ _ _ _ _ _ _ hB h]
    · rw [fixFace_on _ _ _ _ _ _ _ _ _ hB h, fixFace_other c b d d false _ v k j i hB (Or.inr hx)]
  have skip : ∀ (d' : Fin 3) (G : Flux K), d ≠ d' →
      fixFace c b d' true (fixFace c b d' false G) d v k j i = G d v k j i := by
    intro d' G hne
    rw [fixFace_other _ _ _ _ _ _ _ _ _ _ hB (Or.inl hne), fixFace_other _ _ _ _ _ _ _ _ _ _ hB (Or.inl hne)]
  have dd : d = 0 ∨ d = 1 ∨ d = 2 := by omega
  rcases dd with rfl | rfl | rfl <;> rcases n1 with n | n | n <;> simp [n] at hd ⊢
  · exact pair F
  · rw [skip 1 _ (by decide)]; exact pair F
  · rw [skip 2 _ (by decide), skip 1 _ (by decide)]; exact pair F
  · rw [pair, skip 0 _ (by decide)]
  · rw [skip 2 _ (by decide), pair, skip 0 _ (by decide)]
  · rw [pair, skip 1 _ (by decide), skip 0 _ (by decide)]

omit [IsStrictOrderedRing K] in
/-- **C20**: at an outflow boundary the mass flux after the fix never points into the domain, and an already outgoing
(or zero) mass flux is unchanged; no other flux is changed there. -/
theorem outflow_mass (c : Cfg) (b : Block) (hb : Nonempty b) (d : Fin 3) (o : Bool) (hr : Reached c d) (F : Flux K)
    (hu : c.user d o = true) (hbc : c.bc d o = BC.outflow) (k j i : ℤ) (h : BoundaryFace b d o k j i) :
    (o = false → fixFluxes c b F d .rho k j i ≤ 0 ∧ (F d .rho k j i ≤ 0 → fixFluxes c b F d .rho k j i = F d .rho k j i))
    ∧ (o = true → 0 ≤ fixFluxes c b F d .rho k j i ∧ (0 ≤ F d .rho k j i → fixFluxes c b F d .rho k j i = F d .rho k j i))
    ∧ (∀ v, v ≠ Var.B 1 → v ≠ Var.rho → fixFluxes c b F d v k j i = F d v k j i) := by
  refine ⟨?_, ?_, ?_⟩
  · intro ho; subst ho
    rw [fixFluxes_on c b hb d false hr F _ (by decide) k j i h]
    simp only [faceFix, hu, hbc, if_true, outflowFix, Bool.false_eq_true, if_false]
    exact ⟨min_le_right _ _, fun h => min_eq_left h⟩
  · intro ho; subst ho
    rw [fixFluxes_on c b hb d true hr F _ (by decide) k j i h]
    simp only [faceFix, hu, hbc, if_true, outflowFix]
    exact ⟨le_max_right _ _, fun h => max_eq_left h⟩
  · intro v hB hv
    rw [fixFluxes_on c b hb d o hr F _ hB k j i h]
    simp only [faceFix, hu, hbc, if_true]
    cases v <;> simp_all [outflowFix]

omit [IsStrictOrderedRing K] in
/-- **C20**: at reflecting boundaries (any direction) and at polar boundaries (X2) nothing of the mass, energy or
radiation energy crosses the face. -/
theorem wall_zero (c : Cfg) (b : Block) (hb : Nonempty b) (d : Fin 3) (o : Bool) (hr : Reached c d) (F : Flux K)
    (hu : c.user d o = true) (hbc : c.bc d o = BC.reflect ∨ (c.bc d o = BC.polar ∧ d = 1)) (k j i : ℤ)
    (h : BoundaryFace b d o k j i) :
    fixFluxes c b F d .rho k j i = 0 ∧ fixFluxes c b F d .eng k j i = 0
    ∧ (c.momentsActive = true → c.hasE = true → ∀ s < c.nsp, fixFluxes c b F d (.E s) k j i = 0)
    ∧ (d = 1 → fixFluxes c b F d (.mom 0) k j i = 0 ∧ fixFluxes c b F d (.mom 2) k j i = 0) := by
  rw [fixFluxes_on c b hb d o hr F _ (by decide) k j i h, fixFluxes_on c b hb d o hr F _ (by decide) k j i h,
    fixFluxes_on c b hb d o hr F _ (by decide) k j i h, fixFluxes_on c b hb d o hr F _ (by decide) k j i h]
  have hE : ∀ s, fixFluxes c b F d (.E s) k j i = faceFix c d o (.E s) (F d (.E s) k j i) :=
    fun s => fixFluxes_on c b hb d o hr F _ (by simp) k j i h
  simp only [hE]
  rcases hbc with hbc | ⟨hbc, hd⟩
  · simp only [faceFix, hu, hbc, if_true]
    refine ⟨?_, ?_, ?_, ?_⟩
    · split <;> rfl
    · split <;> rfl
    · intro hm hE' s hs
      split <;> cases o <;> simp [reflect2, reflect13, hm, hE', hs]
    · intro hd; simp [hd, reflect2]
  · subst hd
    simp only [faceFix, hu, hbc, if_true]
    refine ⟨rfl, rfl, ?_, fun _ => ⟨rfl, rfl⟩⟩
    intro hm hE' s hs
    simp [polar2, hE', hs]

omit [IsStrictOrderedRing K] in
/-- **C20**: reflecting walls change no other flux (besides the magnetic one of `B 1`, see C58): not that of radiation slots without a species, and across X1 and X3 walls
not those of momentum. -/
theorem wall_rest (c : Cfg) (b : Block) (hb : Nonempty b) (d : Fin 3) (o : Bool) (hr : Reached c d) (F : Flux K)
    (hbc : c.bc d o = BC.reflect) (k j i : ℤ) (h : BoundaryFace b d o k j i) (v : Var) (hB : v ≠ .B 1) (h1 : v ≠ .rho) (h2 : v ≠ .eng)
    (h3 : ∀ s, v = .E s → ¬(c.hasE = true ∧ s < c.nsp) ∧ (d = 1 → ¬(c.momentsActive = true ∧ s < c.nsp)))
    (h4 : d = 1 → v ≠ .mom 0 ∧ v ≠ .mom 2 ∧ ∀ s l, v = .F s l → l = 1 ∨ c.nsp ≤ s ∨ (c.hasE = false ∧ c.momentsActive = false)) :
    fixFluxes c b F d v k j i = F d v k j i := by
  rw [fixFluxes_on c b hb d o hr F _ hB k j i h]
  unfold faceFix
  rw [hbc]
  by_cases hu : c.user d o = true
  swap
  · rw [if_neg hu]
  rw [if_pos hu]
  by_cases hd : d = 1
  · simp only [if_pos hd]
    obtain ⟨h5, h6, h7⟩ := h4 hd
    cases v with
    | rho => exact absurd rfl h1
    | eng => exact absurd rfl h2
    | E s =>
      have := h3 s rfl
      unfold reflect2
      cases o <;> simp_all
    | mom l => fin_cases l <;> simp_all [reflect2]
    | F s l =>
      have := h7 s l rfl
      rcases this with rfl | h | ⟨h, h'⟩
      · rfl
      · have hn : decide (s < c.nsp) = false := by simpa using h
        unfold reflect2
        fin_cases l <;> simp [hn]
      · unfold reflect2; simp only [h, h', ite_self, Bool.false_and]
        fin_cases l <;> rfl
    | _ => rfl
  · simp only [if_neg hd]
    cases v with
    | rho => exact absurd rfl h1
    | eng => exact absurd rfl h2
    | E s =>
      have := (h3 s rfl).1
      simp only [reflect13]
      rw [if_neg]
      simpa using this
    | _ => rfl

omit [IsStrictOrderedRing K] in
/-- **C20**: no flux through a face used by an interior cell changes unless the face lies on a side of the block where a
user boundary condition `outflow`, `reflect` or (X2) `polar` is set -- including all magnetic fluxes. -/
theorem interior_faces_untouched (c : Cfg) (b : Block) (hb : Nonempty b) (F : Flux K) (v : Var) (d : Fin 3)
    (k j i : ℤ) (huse : UsedFace b d k j i)
    (h : ∀ o, BoundaryFace b d o k j i → c.user d o = false) :
    fixFluxes c b F d v k j i = F d v k j i := by
  have hset : ∀ (d' : Fin 3) (o : Bool) (f : Var → K → K) (G : Flux K), c.user d' o = true →
      setFace d' (onFace b d' o) f G d v k j i = G d v k j i := by
    intro d' o f G hu
    unfold setFace
    by_cases hd : d = d'
    · subst hd
      by_cases hon : onFace b d o k j i = true
      · have := h o ((onFace_iff b d o k j i hb).1 hon)
        simp [hu] at this
      · simp [hon]
    · simp [hd]
  have hghost : ∀ (o : Bool) (G : Flux K), polarGhost b c.ndim o G d v k j i = G d v k j i := by
    intro o G
    unfold polarGhost
    rw [if_neg]
    rintro ⟨-, hd, -, -, hj⟩
    rcases hd with hd | ⟨hd, -⟩ <;> subst hd <;> simp only [UsedFace, Block.Has] at huse <;> cases o <;>
      simp at hj <;> omega
  have hface : ∀ (d' : Fin 3) (o : Bool) (G : Flux K), fixFace c b d' o G d v k j i = G d v k j i := by
    intro d' o G
    cases hu : c.user d' o
    · simp [fixFace, hu]
    · cases hc : c.bc d' o <;> by_cases hd : d' = 1 <;> simp only [fixFace, hu, hc, if_true] <;>
      (try simp only [if_pos hd]) <;> (try simp only [if_neg hd]) <;>
        try rw [hghost]
      all_goals first | rfl | exact hset _ _ _ _ hu

  unfold fixFluxes
  split
  · rfl
  · simp only []
    split
    · rw [hface, hface]
    · split
      · rw [hface, hface, hface, hface]
      · rw [hface, hface, hface, hface, hface, hface]

/-! ### Conservation -/

omit [LinearOrder K] [IsStrictOrderedRing K] in
theorem sum_tele (f : ℤ → K) (s : ℤ) (n : ℕ) :
    ∑ i ∈ range n, (f (s + i + 1) - f (s + i)) = f (s + n) - f s := by
  have := Finset.sum_range_sub (fun m : ℕ => f (s + m)) n
  simp only [Nat.cast_add, Nat.cast_one, ← add_assoc, Nat.cast_zero, add_zero] at this
  exact this

omit [LinearOrder K] [IsStrictOrderedRing K] in
/-- **C19 (divergence theorem)**: for every box of cells and every flux field, the rate of change of the domain total is
minus the net flux through the six sides; interior faces cancel exactly. -/
theorem total_fluxDiv (ks js is : ℤ) (nk nj ni : ℕ) (dx : Fin 3 → K) (F : Flux K) (v : Var) :
    total ks js is nk nj ni (fluxDiv dx F v)
      = -((∑ k ∈ range nk, ∑ j ∈ range nj, (F 0 v (ks + k) (js + j) (is + ni) - F 0 v (ks + k) (js + j) is)) / dx 0
        + (∑ k ∈ range nk, ∑ i ∈ range ni, (F 1 v (ks + k) (js + nj) (is + i) - F 1 v (ks + k) js (is + i))) / dx 1
        + (∑ j ∈ range nj, ∑ i ∈ range ni, (F 2 v (ks + nk) (js + j) (is + i) - F 2 v ks (js + j) (is + i))) / dx 2) := by
  unfold total fluxDiv
  simp only [sum_neg_distrib, sum_add_distrib, ← sum_div]
  have h0 : ∀ k j : ℕ, ∑ i ∈ range ni, (F 0 v (ks + k) (js + j) (is + i + 1) - F 0 v (ks + k) (js + j) (is + i))
      = F 0 v (ks + k) (js + j) (is + ni) - F 0 v (ks + k) (js + j) is :=
    fun k j => sum_tele (fun i => F 0 v (ks + k) (js + j) i) is ni
  have h1 : ∀ k : ℕ, ∑ j ∈ range nj, ∑ i ∈ range ni, (F 1 v (ks + k) (js + j + 1) (is + i) - F 1 v (ks + k) (js + j) (is + i))
      = ∑ i ∈ range ni, (F 1 v (ks + k) (js + nj) (is + i) - F 1 v (ks + k) js (is + i)) := by
    intro k
    rw [sum_comm]
    exact sum_congr rfl fun i _ => sum_tele (fun j => F 1 v (ks + k) j (is + i)) js nj
  have h2 : ∑ k ∈ range nk, ∑ j ∈ range nj, ∑ i ∈ range ni, (F 2 v (ks + k + 1) (js + j) (is + i) - F 2 v (ks + k) (js + j) (is + i))
      = ∑ j ∈ range nj, ∑ i ∈ range ni, (F 2 v (ks + nk) (js + j) (is + i) - F 2 v ks (js + j) (is + i)) := by
    rw [sum_comm]
    refine sum_congr rfl fun j _ => ?_
    rw [sum_comm]
    exact sum_congr rfl fun i _ => sum_tele (fun k => F 2 v k (js + j) (is + i)) ks nk
  simp only [h0, h1, h2]

/-- All six sides of the domain are walls. -/
def AllWalls (c : Cfg) : Prop := ∀ d o, c.user d o = true ∧ (c.bc d o = BC.reflect ∨ (c.bc d o = BC.polar ∧ d = 1))

/-- All six sides are walls or outflow. -/
def NoInflow (c : Cfg) : Prop := ∀ d o, c.user d o = true ∧
  (c.bc d o = BC.outflow ∨ c.bc d o = BC.reflect ∨ (c.bc d o = BC.polar ∧ d = 1))

theorem box_faces (ks js is : ℤ) (nk nj ni : ℕ) (hk : 0 < nk) (hj : 0 < nj) (hi : 0 < ni) :
    Nonempty (box ks js is nk nj ni)
    ∧ (∀ k ∈ range nk, ∀ j ∈ range nj, BoundaryFace (box ks js is nk nj ni) 0 false (ks + k) (js + j) is
        ∧ BoundaryFace (box ks js is nk nj ni) 0 true (ks + k) (js + j) (is + ni))
    ∧ (∀ k ∈ range nk, ∀ i ∈ range ni, BoundaryFace (box ks js is nk nj ni) 1 false (ks + k) js (is + i)
        ∧ BoundaryFace (box ks js is nk nj ni) 1 true (ks + k) (js + nj) (is + i))
    ∧ (∀ j ∈ range nj, ∀ i ∈ range ni, BoundaryFace (box ks js is nk nj ni) 2 false ks (js + j) (is + i)
        ∧ BoundaryFace (box ks js is nk nj ni) 2 true (ks + nk) (js + j) (is + i)) := by
  refine ⟨⟨by simp [box]; omega, by simp [box]; omega, by simp [box]; omega⟩, ?_, ?_, ?_⟩ <;>
  · intro a ha b hb
    simp only [mem_range] at ha hb
    constructor <;> simp [BoundaryFace, Block.Has, box] <;> omega

omit [IsStrictOrderedRing K] in
/-- **C19**: with walls on all sides the domain totals of mass and energy have exactly zero rate of change. -/
theorem closed_box_rate (c : Cfg) (hc : c.enable = true ∧ c.ndim = 3) (hw : AllWalls c) (ks js is : ℤ) (nk nj ni : ℕ)
    (hk : 0 < nk) (hj : 0 < nj) (hi : 0 < ni) (dx : Fin 3 → K) (F : Flux K) (v : Var) (hv : v = .rho ∨ v = .eng) :
    total ks js is nk nj ni (fluxDiv dx (fixFluxes c (box ks js is nk nj ni) F) v) = 0 := by
  obtain ⟨hb, h0, h1, h2⟩ := box_faces ks js is nk nj ni hk hj hi
  have z : ∀ d o k j i, BoundaryFace (box ks js is nk nj ni) d o k j i →
      fixFluxes c (box ks js is nk nj ni) F d v k j i = 0 := by
    intro d o k j i hf
    have := wall_zero c _ hb d o ⟨hc.1, by omega, by omega, by omega⟩ F (hw d o).1 (hw d o).2 k j i hf
    rcases hv with rfl | rfl
    · exact this.1
    · exact this.2.1
  rw [total_fluxDiv]
  have e0 : ∑ k ∈ range nk, ∑ j ∈ range nj, (fixFluxes c (box ks js is nk nj ni) F 0 v (ks + k) (js + j) (is + ni)
      - fixFluxes c (box ks js is nk nj ni) F 0 v (ks + k) (js + j) is) = 0 :=
    sum_eq_zero fun k hk => sum_eq_zero fun j hj => by
      rw [z _ _ _ _ _ (h0 k hk j hj).1, z _ _ _ _ _ (h0 k hk j hj).2, sub_zero]
  have e1 : ∑ k ∈ range nk, ∑ i ∈ range ni, (fixFluxes c (box ks js is nk nj ni) F 1 v (ks + k) (js + nj) (is + i)
      - fixFluxes c (box ks js is nk nj ni) F 1 v (ks + k) js (is + i)) = 0 :=
    sum_eq_zero fun k hk => sum_eq_zero fun j hj => by
      rw [z _ _ _ _ _ (h1 k hk j hj).1, z _ _ _ _ _ (h1 k hk j hj).2, sub_zero]
  have e2 : ∑ j ∈ range nj, ∑ i ∈ range ni, (fixFluxes c (box ks js is nk nj ni) F 2 v (ks + nk) (js + j) (is + i)
      - fixFluxes c (box ks js is nk nj ni) F 2 v ks (js + j) (is + i)) = 0 :=
    sum_eq_zero fun k hk => sum_eq_zero fun j hj => by
      rw [z _ _ _ _ _ (h2 k hk j hj).1, z _ _ _ _ _ (h2 k hk j hj).2, sub_zero]
  rw [e0, e1, e2]; simp

/-- **C19/C20**: with outflow or wall conditions on all sides the domain mass never increases. -/
theorem open_box_rate (c : Cfg) (hc : c.enable = true ∧ c.ndim = 3) (hw : NoInflow c) (ks js is : ℤ) (nk nj ni : ℕ)
    (hk : 0 < nk) (hj : 0 < nj) (hi : 0 < ni) (dx : Fin 3 → K) (hdx : ∀ d, 0 < dx d) (F : Flux K) :
    total ks js is nk nj ni (fluxDiv dx (fixFluxes c (box ks js is nk nj ni) F) .rho) ≤ 0 := by
  obtain ⟨hb, h0, h1, h2⟩ := box_faces ks js is nk nj ni hk hj hi
  have z : ∀ d k j i, (BoundaryFace (box ks js is nk nj ni) d false k j i →
      fixFluxes c (box ks js is nk nj ni) F d .rho k j i ≤ 0) ∧ (BoundaryFace (box ks js is nk nj ni) d true k j i →
      0 ≤ fixFluxes c (box ks js is nk nj ni) F d .rho k j i) := by
    intro d k j i
    constructor <;> intro hf
    · obtain ⟨hu, h | h⟩ := hw d false
      · exact ((outflow_mass c _ hb d false ⟨hc.1, by omega, by omega, by omega⟩ F hu h k j i hf).1 rfl).1
      · exact (wall_zero c _ hb d false ⟨hc.1, by omega, by omega, by omega⟩ F hu h k j i hf).1.le
    · obtain ⟨hu, h | h⟩ := hw d true
      · exact ((outflow_mass c _ hb d true ⟨hc.1, by omega, by omega, by omega⟩ F hu h k j i hf).2.1 rfl).1
      · exact (wall_zero c _ hb d true ⟨hc.1, by omega, by omega, by omega⟩ F hu h k j i hf).1.ge
  rw [total_fluxDiv]
  have e0 : 0 ≤ ∑ k ∈ range nk, ∑ j ∈ range nj, (fixFluxes c (box ks js is nk nj ni) F 0 .rho (ks + k) (js + j) (is + ni)
      - fixFluxes c (box ks js is nk nj ni) F 0 .rho (ks + k) (js + j) is) :=
    sum_nonneg fun k hk => sum_nonneg fun j hj => by
      have a := (z 0 _ _ _).1 (h0 k hk j hj).1
      have b := (z 0 _ _ _).2 (h0 k hk j hj).2
      linarith
  have e1 : 0 ≤ ∑ k ∈ range nk, ∑ i ∈ range ni, (fixFluxes c (box ks js is nk nj ni) F 1 .rho (ks + k) (js + nj) (is + i)
      - fixFluxes c (box ks js is nk nj ni) F 1 .rho (ks + k) js (is + i)) :=
    sum_nonneg fun k hk => sum_nonneg fun j hj => by
      have a := (z 1 _ _ _).1 (h1 k hk j hj).1
      have b := (z 1 _ _ _).2 (h1 k hk j hj).2
      linarith
  have e2 : 0 ≤ ∑ j ∈ range nj, ∑ i ∈ range ni, (fixFluxes c (box ks js is nk nj ni) F 2 .rho (ks + nk) (js + j) (is + i)
      - fixFluxes c (box ks js is nk nj ni) F 2 .rho ks (js + j) (is + i)) :=
    sum_nonneg fun k hk => sum_nonneg fun j hj => by
      have a := (z 2 _ _ _).1 (h2 k hk j hj).1
      have b := (z 2 _ _ _).2 (h2 k hk j hj).2
      linarith
  have := div_nonneg e0 (hdx 0).le
  have := div_nonneg e1 (hdx 1).le
  have := div_nonneg e2 (hdx 2).le
  linarith

omit [LinearOrder K] [IsStrictOrderedRing K] in
theorem total_stage (ks js is : ℤ) (nk nj ni : ℕ) (beta dt : K) (base cur rhs : Arr K) :
    total ks js is nk nj ni (stage beta dt base cur rhs) = beta * total ks js is nk nj ni cur
      + (1 - beta) * total ks js is nk nj ni base + beta * dt * total ks js is nk nj ni rhs := by
  simp only [total, stage, sum_add_distrib, mul_sum]

omit [IsStrictOrderedRing K] in
/-- **C19**: through any whole run (any number of steps and stages, any coefficients, any Riemann fluxes) in a closed
box, total mass and total energy (without geometric sources) are exactly constant. -/
theorem closed_box_run (c : Cfg) (hc : c.enable = true ∧ c.ndim = 3) (hw : AllWalls c) (ks js is : ℤ) (nk nj ni : ℕ)
    (hk : 0 < nk) (hj : 0 < nj) (hi : 0 < ni) (dx : Fin 3 → K) (v : Var) (hv : v = .rho ∨ v = .eng)
    (steps : List (K × List (K × Flux K))) (U : Arr K) :
    total ks js is nk nj ni (run c (box ks js is nk nj ni) dx v steps U) = total ks js is nk nj ni U := by
  have st : ∀ (dt : K) (base : Arr K) (l : List (K × Flux K)) (cur : Arr K),
      total ks js is nk nj ni cur = total ks js is nk nj ni base →
      total ks js is nk nj ni (l.foldl (fun cur s => stage s.1 dt base cur
        (fluxDiv dx (fixFluxes c (box ks js is nk nj ni) s.2) v)) cur) = total ks js is nk nj ni base := by
    intro dt base l
    induction l with
    | nil => intro cur h; exact h
    | cons s l ih =>
      intro cur h
      apply ih
      rw [total_stage, closed_box_rate c hc hw ks js is nk nj ni hk hj hi dx s.2 v hv, h]; ring
  unfold run
  induction steps generalizing U with
  | nil => rfl
  | cons s steps ih => rw [List.foldl_cons, ih]; exact st s.1 U s.2 U rfl

/-- **C19/C20**: through any run with outflow or wall boundaries, `dt ≥ 0` and Runge-Kutta coefficients in `[0,1]`,
the total mass never increases. -/
theorem open_box_run (c : Cfg) (hc : c.enable = true ∧ c.ndim = 3) (hw : NoInflow c) (ks js is : ℤ) (nk nj ni : ℕ)
    (hk : 0 < nk) (hj : 0 < nj) (hi : 0 < ni) (dx : Fin 3 → K) (hdx : ∀ d, 0 < dx d)
    (steps : List (K × List (K × Flux K))) (hst : ∀ s ∈ steps, 0 ≤ s.1 ∧ ∀ t ∈ s.2, 0 ≤ t.1 ∧ t.1 ≤ 1) (U : Arr K) :
    total ks js is nk nj ni (run c (box ks js is nk nj ni) dx .rho steps U) ≤ total ks js is nk nj ni U := by
  have st : ∀ (dt : K), 0 ≤ dt → ∀ (base : Arr K) (l : List (K × Flux K)), (∀ t ∈ l, 0 ≤ t.1 ∧ t.1 ≤ 1) →
      ∀ (cur : Arr K), total ks js is nk nj ni cur ≤ total ks js is nk nj ni base →
      total ks js is nk nj ni (l.foldl (fun cur s => stage s.1 dt base cur
        (fluxDiv dx (fixFluxes c (box ks js is nk nj ni) s.2) .rho)) cur) ≤ total ks js is nk nj ni base := by
    intro dt hdt base l
    induction l with
    | nil => intro _ cur h; exact h
    | cons s l ih =>
      intro hl cur h
      apply ih (fun t ht => hl t (by simp [ht]))
      obtain ⟨b0, b1⟩ := hl s (by simp)
      have hr := open_box_rate c hc hw ks js is nk nj ni hk hj hi dx hdx s.2
      rw [total_stage]
      have := mul_nonneg b0 hdt
      nlinarith [mul_le_mul_of_nonneg_left h b0, mul_nonneg this (neg_nonneg.2 hr)]
  unfold run
  induction steps generalizing U with
  | nil => exact le_rfl
  | cons s steps ih =>
    rw [List.foldl_cons]
    exact (ih (fun t ht => hst t (by simp [ht])) _).trans (st s.1 (hst s (by simp)).1 U s.2 (hst s (by simp)).2 U le_rfl)

/-- The hypotheses are met by a closed box, and by an outflow box. -/
example : ∃ c : Cfg, (c.enable = true ∧ c.ndim = 3) ∧ AllWalls c :=
  ⟨⟨true, 3, fun _ _ => true, fun _ _ => .reflect, 0, false, false⟩, ⟨rfl, rfl⟩, fun _ _ => ⟨rfl, Or.inl rfl⟩⟩
example : ∃ c : Cfg, (c.enable = true ∧ c.ndim = 3) ∧ NoInflow c ∧ Reached c 2 :=
  ⟨⟨true, 3, fun _ _ => true, fun _ _ => .outflow, 0, false, false⟩, ⟨rfl, rfl⟩, fun _ _ => ⟨rfl, Or.inl rfl⟩,
    rfl, by decide, by decide, by decide⟩

/-- **C20, disagreement**: at a reflecting X1 boundary the code leaves the transverse momentum flux (and the magnetic
fluxes) as computed, unlike at X2: a wall can exchange transverse momentum. -/
theorem reflect_x1_leaves_transverse : ∃ (c : Cfg) (b : Block) (F : Flux ℚ), Nonempty b ∧ Reached c 0 ∧
    c.user 0 false = true ∧ c.bc 0 false = BC.reflect ∧ BoundaryFace b 0 false b.ks b.js b.is ∧
    fixFluxes c b F 0 (.mom 1) b.ks b.js b.is ≠ 0 := by
  refine ⟨⟨true, 1, fun _ _ => true, fun _ _ => .reflect, 0, false, false⟩, ⟨0, 3, 0, 3, 0, 3⟩, fun _ _ _ _ _ => 1,
    ⟨by decide, by decide, by decide⟩, ⟨rfl, by decide, by decide, by decide⟩, rfl, rfl, ?_, ?_⟩
  · simp [BoundaryFace, Block.Has]
  · simp [fixFluxes, fixFace, setFace, reflect13]

omit [IsStrictOrderedRing K] in
/-- **C20, radiation**: exactly which radiation fluxes the X2 walls stop.  The energy and the X1 and X3 momenta of every evolved
species are stopped (at the inner reflecting wall only when moments are active, at the others whenever the energy field
exists); the X2 momentum, and anything belonging to a species index that is not evolved, is left alone. -/
theorem x2_wall_radiation (c : Cfg) (b : Block) (hb : Nonempty b) (o : Bool) (hr : Reached c 1) (F : Flux K)
    (hu : c.user 1 o = true) (hbc : c.bc 1 o = BC.reflect ∨ c.bc 1 o = BC.polar) (k j i : ℤ)
    (h : BoundaryFace b 1 o k j i) (s : ℕ) :
    let on := if c.bc 1 o = BC.reflect ∧ o = false then c.momentsActive else c.hasE
    (∀ v, v = Var.E s ∨ v = Var.F s 0 ∨ v = Var.F s 2 →
      fixFluxes c b F 1 v k j i = if on = true ∧ s < c.nsp then 0 else F 1 v k j i) ∧
    fixFluxes c b F 1 (.F s 1) k j i = F 1 (.F s 1) k j i := by
  intro on
  constructor
  · intro v hv
    have hB : v ≠ Var.B 1 := by rcases hv with rfl | rfl | rfl <;> simp
    rw [fixFluxes_on c b hb 1 o hr F _ hB k j i h]
    rcases hbc with hbc | hbc <;> rcases hv with rfl | rfl | rfl <;> cases o <;>
      simp [faceFix, hu, hbc, reflect2, polar2, on]
  · rw [fixFluxes_on c b hb 1 o hr F _ (by simp) k j i h]
    rcases hbc with hbc | hbc <;> simp [faceFix, hu, hbc, reflect2, polar2]

omit [IsStrictOrderedRing K] in
/-- **C20, polar axis**: the X1 fluxes (and in 3D the X3 fluxes) of the second magnetic component in the ghost row just outside
the pole are minus those of the mirror row just inside, so the electromotive force averaged onto the axis vanishes. -/
theorem polar_ghost_antisymmetric (b : Block) (ndim : ℕ) (o : Bool) (F : Flux K) (d : Fin 3) (hd : d = 0 ∨ (d = 2 ∧ ndim = 3))
    (k i : ℤ) (hk : b.ks ≤ k ∧ k ≤ b.ke) (hi : b.is ≤ i ∧ i ≤ b.ie) (hb : Nonempty b) :
    let ghost := if o then b.je + 1 else b.js - 1
    let inside := if o then b.je else b.js
    polarGhost b ndim o F d (.B 1) k inside i = F d (.B 1) k inside i ∧
    polarGhost b ndim o F d (.B 1) k ghost i = -F d (.B 1) k inside i ∧
    polarGhost b ndim o F d (.B 1) k ghost i + polarGhost b ndim o F d (.B 1) k inside i = 0 := by
  intro ghost inside
  have h1 : polarGhost b ndim o F d (.B 1) k inside i = F d (.B 1) k inside i := by
    cases o <;> simp [polarGhost, inside]
    intros; omega
  have h2 : polarGhost b ndim o F d (.B 1) k ghost i = -F d (.B 1) k inside i := by
    cases o <;> simp [polarGhost, inside, ghost, hd, hk, hi]
  exact ⟨h1, h2, by rw [h1, h2]; ring⟩

end Phoebus.FixFlux
