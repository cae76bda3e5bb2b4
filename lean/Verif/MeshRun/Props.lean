import Verif.MeshRun.Model

/-!
# C123: totals of a run on a mesh of blocks; C124: composition
-/
namespace Phoebus.MeshRun
open FluxCT FixFlux Finset
variable {K : Type} [Field K] [LinearOrder K] [IsStrictOrderedRing K]

/-! ### Specification -/

/-- cell of a block. -/
def IBlk.Has (b : IBlk) (k j i : ℤ) : Prop :=
  (b.off 2 ≤ k ∧ k < b.off 2 + b.n 2) ∧ (b.off 1 ≤ j ∧ j < b.off 1 + b.n 1) ∧ (b.off 0 ≤ i ∧ i < b.off 0 + b.n 0)

/-- cell of the domain. -/
def Mesh.Has (M : Mesh) (k j i : ℤ) : Prop := (0 ≤ k ∧ k < M.n 2) ∧ (0 ≤ j ∧ j < M.n 1) ∧ (0 ≤ i ∧ i < M.n 0)

/-- the blocks of all partitions tile the domain, and `own` says which block owns a cell. -/
structure Mesh.Tiled (M : Mesh) (own : ℤ → ℤ → ℤ → IBlk) : Prop where
  dim : 1 ≤ M.ndim ∧ M.ndim ≤ 3
  pos : ∀ d, 0 < M.n d
  inside : ∀ b ∈ M.blocks.flatten, ∀ d, 0 ≤ b.off d ∧ b.off d + b.n d ≤ M.n d
  disj : M.blocks.flatten.Pairwise fun a b => ∀ k j i, a.Has k j i → ¬ b.Has k j i
  mem : ∀ k j i, M.Has k j i → own k j i ∈ M.blocks.flatten ∧ (own k j i).Has k j i

/-- in a periodic direction the fluxes through the two ends of the domain coincide. -/
def Mesh.PeriodicFlux (M : Mesh) (F : Flux K) : Prop :=
  (M.per 0 = true → ∀ v k j, F 0 v k j (M.n 0) = F 0 v k j 0) ∧ (M.per 1 = true → ∀ v k i, F 1 v k (M.n 1) i = F 1 v k 0 i) ∧
  (M.per 2 = true → ∀ v j i, F 2 v (M.n 2) j i = F 2 v 0 j i)

/-- every side of an active direction is periodic or a wall. -/
def Mesh.Closed (M : Mesh) : Prop := ∀ d : Fin 3, d.val < M.ndim → M.per d = true ∨
  (M.enable = true ∧ ∀ o, M.bc d o = BC.reflect ∨ (M.bc d o = BC.polar ∧ d = 1))

/-- every side of an active direction is periodic, a wall or outflow. -/
def Mesh.NoInflow (M : Mesh) : Prop := ∀ d : Fin 3, d.val < M.ndim → M.per d = true ∨
  (M.enable = true ∧ ∀ o, M.bc d o = BC.outflow ∨ M.bc d o = BC.reflect ∨ (M.bc d o = BC.polar ∧ d = 1))

/-- the whole domain as a single block. -/
def Mesh.whole (M : Mesh) : IBlk := ⟨fun _ => 0, M.n⟩

/-! ### Decomposition of the boundary treatment -/

theorem blk_has (b : IBlk) (k j i : ℤ) : b.blk.Has k j i ↔ b.Has k j i := by
  simp only [IBlk.blk, box, Block.Has, IBlk.Has]; omega

theorem blk_nonempty (b : IBlk) {k j i : ℤ} (h : b.Has k j i) : FixFlux.Nonempty b.blk := by
  obtain ⟨h1, h2, h3⟩ := h
  refine ⟨?_, ?_, ?_⟩ <;> simp only [IBlk.blk, box] <;> omega

/-- faces of a cell. -/
def FaceOf (d : Fin 3) (k j i fk fj fi : ℤ) : Prop :=
  (fk = k ∧ fj = j ∧ fi = i) ∨ (match d with
    | 0 => fk = k ∧ fj = j ∧ fi = i + 1
    | 1 => fk = k ∧ fj = j + 1 ∧ fi = i
    | 2 => fk = k + 1 ∧ fj = j ∧ fi = i)

/-- a face of a cell of `b` lies on side `o` of the domain iff it lies on side `o` of `b` and `b` touches that side. -/
theorem boundary_iff (M : Mesh) (b : IBlk) (hin : ∀ d, 0 ≤ b.off d ∧ b.off d + b.n d ≤ M.n d) {k j i : ℤ} (h : b.Has k j i) (d : Fin 3)
    (o : Bool) (fk fj fi : ℤ) (hf : FaceOf d k j i fk fj fi) :
    BoundaryFace M.whole.blk d o fk fj fi ↔ BoundaryFace b.blk d o fk fj fi ∧ M.touches b d o = true := by
  obtain ⟨⟨h1, h2⟩, ⟨h3, h4⟩, h5, h6⟩ := h
  have a0 := hin 0; have a1 := hin 1; have a2 := hin 2
  have hd : d = 0 ∨ d = 1 ∨ d = 2 := by omega
  rcases hd with rfl | rfl | rfl <;> cases o <;>
    rcases hf with ⟨rfl, rfl, rfl⟩ | ⟨rfl, rfl, rfl⟩ <;>
    simp [BoundaryFace, Block.Has, IBlk.blk, box, Mesh.whole, Mesh.touches] <;> omega

theorem face_used (b : IBlk) {k j i : ℤ} (h : b.Has k j i) (d : Fin 3) (fk fj fi : ℤ) (hf : FaceOf d k j i fk fj fi) :
    UsedFace b.blk d fk fj fi := by
  have hd : d = 0 ∨ d = 1 ∨ d = 2 := by omega
  rcases hd with rfl | rfl | rfl <;> rcases hf with ⟨rfl, rfl, rfl⟩ | ⟨rfl, rfl, rfl⟩ <;> simp only [UsedFace, blk_has] <;>
    first
    | exact Or.inl h
    | (right; simpa using h)

omit [IsStrictOrderedRing K] in
/-- `FixFluxes` acts on the faces of the active directions only. -/
theorem whole_touches (M : Mesh) (d : Fin 3) (o : Bool) : M.touches M.whole d o = true := by
  cases o <;> simp [Mesh.touches, Mesh.whole]

omit [IsStrictOrderedRing K] in
/-- **C123 (boundary treatment)**: whatever block a cell belongs to, the fluxes through its faces after the boundary treatment are those of a
run with a single block. -/
theorem fix_decomposition (M : Mesh) (hdim : 1 ≤ M.ndim ∧ M.ndim ≤ 3) (b : IBlk)
    (hin : ∀ d, 0 ≤ b.off d ∧ b.off d + b.n d ≤ M.n d) {k j i : ℤ} (h : b.Has k j i) (F : Flux K) (d : Fin 3) (hd : d.val < M.ndim)
    (v : Var) (hv : v ≠ Var.B 1) (fk fj fi : ℤ) (hf : FaceOf d k j i fk fj fi) :
    fixFluxes (M.cfg b) b.blk F d v fk fj fi = fixFluxes (M.cfg M.whole) M.whole.blk F d v fk fj fi := by
  have hw : M.whole.Has k j i := by
    have a0 := hin 0; have a1 := hin 1; have a2 := hin 2
    obtain ⟨⟨h1, h2⟩, ⟨h3, h4⟩, h5, h6⟩ := h
    refine ⟨⟨?_, ?_⟩, ⟨?_, ?_⟩, ?_, ?_⟩ <;> simp only [Mesh.whole] <;> omega
  have nb := blk_nonempty b h
  have nw := blk_nonempty M.whole hw
  cases he : M.enable with
  | false => simp [fixFluxes, Mesh.cfg, he]
  | true =>
    by_cases hex : ∃ o, BoundaryFace M.whole.blk d o fk fj fi
    · obtain ⟨o, ho⟩ := hex
      obtain ⟨hbb, ht⟩ := (boundary_iff M b hin h d o fk fj fi hf).1 ho
      rw [fixFluxes_on (M.cfg b) b.blk nb d o ⟨he, hd, hdim.1, hdim.2⟩ F v hv fk fj fi hbb,
        fixFluxes_on (M.cfg M.whole) M.whole.blk nw d o ⟨he, hd, hdim.1, hdim.2⟩ F v hv fk fj fi ho]
      have hu : (M.cfg b).user d o = (M.cfg M.whole).user d o := by simp [Mesh.cfg, ht, whole_touches]
      unfold faceFix
      rw [hu]
      rfl
    · push Not at hex
      rw [interior_faces_untouched (M.cfg b) b.blk nb F v d fk fj fi (face_used b h d fk fj fi hf),
        interior_faces_untouched (M.cfg M.whole) M.whole.blk nw F v d fk fj fi (face_used M.whole hw d fk fj fi hf)]
      · intro o ho; exact absurd ho (hex o)
      · intro o ho
        have : M.touches b d o = false := by
          by_contra hne
          exact hex o ((boundary_iff M b hin h d o fk fj fi hf).2 ⟨ho, by simpa using hne⟩)
        simp [Mesh.cfg, this]

omit [IsStrictOrderedRing K] in
/-- **C123 (decomposition independence)**: the rate of change of every cell of the domain is that of a run with a single block. -/
theorem rate_whole (M : Mesh) (own : ℤ → ℤ → ℤ → IBlk) (hM : M.Tiled own) (dx : Fin 3 → K) (F : Flux K) (v : Var) (hv : v ≠ Var.B 1)
    (k j i : ℤ) (h : M.Has k j i) :
    M.rate own dx F v k j i = fluxDiv dx (mask M.ndim (fixFluxes (M.cfg M.whole) M.whole.blk F)) v k j i := by
  obtain ⟨hb, hc⟩ := hM.mem k j i h
  have key : ∀ d fk fj fi, FaceOf d k j i fk fj fi →
      mask M.ndim (fixFluxes (M.cfg (own k j i)) (own k j i).blk F) d v fk fj fi =
        mask M.ndim (fixFluxes (M.cfg M.whole) M.whole.blk F) d v fk fj fi := by
    intro d fk fj fi hf
    unfold mask
    by_cases hd : d.val < M.ndim
    · rw [if_pos hd, if_pos hd, fix_decomposition M hM.dim _ (hM.inside _ hb) hc F d hd v hv fk fj fi hf]
    · rw [if_neg hd, if_neg hd]
  unfold Mesh.rate fluxDiv
  rw [key 0 _ _ _ (Or.inr ⟨rfl, rfl, rfl⟩), key 0 _ _ _ (Or.inl ⟨rfl, rfl, rfl⟩), key 1 _ _ _ (Or.inr ⟨rfl, rfl, rfl⟩),
    key 1 _ _ _ (Or.inl ⟨rfl, rfl, rfl⟩), key 2 _ _ _ (Or.inr ⟨rfl, rfl, rfl⟩), key 2 _ _ _ (Or.inl ⟨rfl, rfl, rfl⟩)]

/-! ### Totals -/

/-- domain total. -/
def Mesh.total (M : Mesh) (U : Arr K) : K := FixFlux.total 0 0 0 (M.n 2) (M.n 1) (M.n 0) U

omit [LinearOrder K] [IsStrictOrderedRing K] in
theorem total_congr (M : Mesh) (U V : Arr K) (h : ∀ k j i, M.Has k j i → U k j i = V k j i) : M.total U = M.total V := by
  unfold Mesh.total FixFlux.total
  refine sum_congr rfl fun k hk => sum_congr rfl fun j hj => sum_congr rfl fun i hi => ?_
  rw [mem_range] at hk hj hi
  exact h _ _ _ ⟨by omega, by omega, by omega⟩

omit [IsStrictOrderedRing K] in
/-- the rate of the total, as a sum over the sides of the domain. -/
theorem total_rate (M : Mesh) (own : ℤ → ℤ → ℤ → IBlk) (hM : M.Tiled own) (dx : Fin 3 → K) (F : Flux K) (v : Var) (hv : v ≠ Var.B 1) :
    M.total (M.rate own dx F v) = FixFlux.total 0 0 0 (M.n 2) (M.n 1) (M.n 0)
      (fluxDiv dx (mask M.ndim (fixFluxes (M.cfg M.whole) M.whole.blk F)) v) :=
  total_congr M _ _ fun k j i h => rate_whole M own hM dx F v hv k j i h

omit [IsStrictOrderedRing K] in
/-- value of a flux through a side of the domain after the boundary treatment. -/
theorem side_flux (M : Mesh) (hdim : 1 ≤ M.ndim ∧ M.ndim ≤ 3) (hpos : ∀ d, 0 < M.n d) (F : Flux K) (d : Fin 3) (hd : d.val < M.ndim) (v : Var)
    (hv : v ≠ Var.B 1) (o : Bool) (fk fj fi : ℤ) (h : BoundaryFace M.whole.blk d o fk fj fi) :
    (M.per d = true → fixFluxes (M.cfg M.whole) M.whole.blk F d v fk fj fi = F d v fk fj fi) ∧
    (M.enable = true → fixFluxes (M.cfg M.whole) M.whole.blk F d v fk fj fi = faceFix (M.cfg M.whole) d o v (F d v fk fj fi)) := by
  have nw : FixFlux.Nonempty M.whole.blk := by
    have h0 := hpos 0; have h1 := hpos 1; have h2 := hpos 2
    refine ⟨?_, ?_, ?_⟩ <;> simp only [IBlk.blk, box, Mesh.whole] <;> omega
  refine ⟨fun hp => ?_, fun he => ?_⟩
  · cases he : M.enable with
    | false => simp [fixFluxes, Mesh.cfg, he]
    | true =>
      rw [fixFluxes_on (M.cfg M.whole) M.whole.blk nw d o ⟨he, hd, hdim.1, hdim.2⟩ F v hv fk fj fi h]
      simp [faceFix, Mesh.cfg, hp]
  · exact fixFluxes_on (M.cfg M.whole) M.whole.blk nw d o ⟨he, hd, hdim.1, hdim.2⟩ F v hv fk fj fi h

omit [IsStrictOrderedRing K] in
theorem wall_faceFix (M : Mesh) (d : Fin 3) (o : Bool) (v : Var) (x : K) (hp : M.per d = false)
    (hb : M.bc d o = BC.reflect ∨ (M.bc d o = BC.polar ∧ d = 1)) (hv : v = .rho ∨ v = .eng) : faceFix (M.cfg M.whole) d o v x = 0 := by
  have hu : (M.cfg M.whole).user d o = true := by simp [Mesh.cfg, hp, whole_touches]
  have hbc : (M.cfg M.whole).bc d o = M.bc d o := rfl
  unfold faceFix
  rw [if_pos hu, hbc]
  rcases hb with hb | ⟨hb, rfl⟩ <;> rw [hb] <;> rcases hv with rfl | rfl <;> simp [reflect2, reflect13, polar2]

omit [IsStrictOrderedRing K] in
/-- the flux through the upper end of a line of cells equals the one through the lower end. -/
theorem ends_closed (M : Mesh) (hdim : 1 ≤ M.ndim ∧ M.ndim ≤ 3) (hpos : ∀ d, 0 < M.n d) (hcl : M.Closed) (F : Flux K) (hF : M.PeriodicFlux F)
    (v : Var) (hv : v = .rho ∨ v = .eng) :
    (∀ k ∈ range (M.n 2), ∀ j ∈ range (M.n 1),
      mask M.ndim (fixFluxes (M.cfg M.whole) M.whole.blk F) 0 v (0 + k) (0 + j) (0 + M.n 0) =
        mask M.ndim (fixFluxes (M.cfg M.whole) M.whole.blk F) 0 v (0 + k) (0 + j) 0) ∧
    (∀ k ∈ range (M.n 2), ∀ i ∈ range (M.n 0),
      mask M.ndim (fixFluxes (M.cfg M.whole) M.whole.blk F) 1 v (0 + k) (0 + M.n 1) (0 + i) =
        mask M.ndim (fixFluxes (M.cfg M.whole) M.whole.blk F) 1 v (0 + k) 0 (0 + i)) ∧
    (∀ j ∈ range (M.n 1), ∀ i ∈ range (M.n 0),
      mask M.ndim (fixFluxes (M.cfg M.whole) M.whole.blk F) 2 v (0 + M.n 2) (0 + j) (0 + i) =
        mask M.ndim (fixFluxes (M.cfg M.whole) M.whole.blk F) 2 v 0 (0 + j) (0 + i)) := by
  have hB : v ≠ Var.B 1 := by rcases hv with rfl | rfl <;> decide
  obtain ⟨-, b0, b1, b2⟩ := box_faces 0 0 0 (M.n 2) (M.n 1) (M.n 0) (hpos 2) (hpos 1) (hpos 0)
  have gen : ∀ (d : Fin 3) fk fj fi gk gj gi, d.val < M.ndim → BoundaryFace M.whole.blk d false gk gj gi →
      BoundaryFace M.whole.blk d true fk fj fi → (M.per d = true → F d v fk fj fi = F d v gk gj gi) →
      fixFluxes (M.cfg M.whole) M.whole.blk F d v fk fj fi = fixFluxes (M.cfg M.whole) M.whole.blk F d v gk gj gi := by
    intro d fk fj fi gk gj gi hd hg hf hper
    obtain ⟨p1, w1⟩ := side_flux M hdim hpos F d hd v hB true fk fj fi hf
    obtain ⟨p2, w2⟩ := side_flux M hdim hpos F d hd v hB false gk gj gi hg
    cases hp : M.per d with
    | true => rw [p1 hp, p2 hp, hper hp]
    | false =>
      rcases hcl d hd with h | ⟨he, hw⟩
      · rw [hp] at h; exact absurd h (by decide)
      · rw [w1 he, w2 he, wall_faceFix M d true v _ hp (hw true) hv, wall_faceFix M d false v _ hp (hw false) hv]
  obtain ⟨q0, q1, q2⟩ := hF
  refine ⟨fun k hk j hj => ?_, fun k hk i hi => ?_, fun j hj i hi => ?_⟩
  · unfold mask
    split_ifs with hd
    · exact gen 0 _ _ _ _ _ _ hd (b0 k hk j hj).1 (b0 k hk j hj).2 fun hp => by rw [zero_add ((M.n 0 : ℕ) : ℤ)]; exact q0 hp v _ _
    · rfl
  · unfold mask
    split_ifs with hd
    · exact gen 1 _ _ _ _ _ _ hd (b1 k hk i hi).1 (b1 k hk i hi).2 fun hp => by rw [zero_add ((M.n 1 : ℕ) : ℤ)]; exact q1 hp v _ _
    · rfl
  · unfold mask
    split_ifs with hd
    · exact gen 2 _ _ _ _ _ _ hd (b2 j hj i hi).1 (b2 j hj i hi).2 fun hp => by rw [zero_add ((M.n 2 : ℕ) : ℤ)]; exact q2 hp v _ _
    · rfl

omit [IsStrictOrderedRing K] in
/-- **C123**: on a closed domain the total of mass and of energy has zero rate of change, for every decomposition. -/
theorem closed_rate (M : Mesh) (own : ℤ → ℤ → ℤ → IBlk) (hM : M.Tiled own) (hcl : M.Closed) (dx : Fin 3 → K) (F : Flux K)
    (hF : M.PeriodicFlux F) (v : Var) (hv : v = .rho ∨ v = .eng) : M.total (M.rate own dx F v) = 0 := by
  have hB : v ≠ Var.B 1 := by rcases hv with rfl | rfl <;> decide
  obtain ⟨e0, e1, e2⟩ := ends_closed M hM.dim hM.pos hcl F hF v hv
  rw [total_rate M own hM dx F v hB, total_fluxDiv]
  rw [sum_eq_zero fun k hk => sum_eq_zero fun j hj => by rw [e0 k hk j hj, sub_self],
    sum_eq_zero fun k hk => sum_eq_zero fun i hi => by rw [e1 k hk i hi, sub_self],
    sum_eq_zero fun j hj => sum_eq_zero fun i hi => by rw [e2 j hj i hi, sub_self]]
  simp

omit [IsStrictOrderedRing K] in
/-- **C123 (fully periodic)**: without physical boundaries this holds for every variable that is evolved by fluxes only. -/
theorem periodic_rate (M : Mesh) (own : ℤ → ℤ → ℤ → IBlk) (hM : M.Tiled own) (hper : ∀ d, M.per d = true) (dx : Fin 3 → K) (F : Flux K)
    (hF : M.PeriodicFlux F) (v : Var) (hB : v ≠ Var.B 1) : M.total (M.rate own dx F v) = 0 := by
  obtain ⟨-, b0, b1, b2⟩ := box_faces 0 0 0 (M.n 2) (M.n 1) (M.n 0) (hM.pos 2) (hM.pos 1) (hM.pos 0)
  obtain ⟨q0, q1, q2⟩ := hF
  have s := fun (d : Fin 3) hd o fk fj fi h => (side_flux M hM.dim hM.pos F d hd v hB o fk fj fi h).1 (hper d)
  rw [total_rate M own hM dx F v hB, total_fluxDiv]
  rw [sum_eq_zero fun k hk => sum_eq_zero fun j hj => ?_, sum_eq_zero fun k hk => sum_eq_zero fun i hi => ?_,
    sum_eq_zero fun j hj => sum_eq_zero fun i hi => ?_]
  · simp
  · unfold mask
    split_ifs with hd
    · rw [s 2 hd _ _ _ _ (b2 j hj i hi).1, s 2 hd _ _ _ _ (b2 j hj i hi).2, zero_add ((M.n 2 : ℕ) : ℤ), q2 (hper 2), sub_self]
    · simp
  · unfold mask
    split_ifs with hd
    · rw [s 1 hd _ _ _ _ (b1 k hk i hi).1, s 1 hd _ _ _ _ (b1 k hk i hi).2, zero_add ((M.n 1 : ℕ) : ℤ), q1 (hper 1), sub_self]
    · simp
  · unfold mask
    split_ifs with hd
    · rw [s 0 hd _ _ _ _ (b0 k hk j hj).1, s 0 hd _ _ _ _ (b0 k hk j hj).2, zero_add ((M.n 0 : ℕ) : ℤ), q0 (hper 0), sub_self]
    · simp

omit [LinearOrder K] [IsStrictOrderedRing K] in
theorem mesh_total_stage (M : Mesh) (beta dt : K) (base cur rhs : Arr K) :
    M.total (stage beta dt base cur rhs) = beta * M.total cur + (1 - beta) * M.total base + beta * dt * M.total rhs :=
  total_stage 0 0 0 _ _ _ beta dt base cur rhs

omit [IsStrictOrderedRing K] in
/-- if every stage has zero total rate, the total is constant through a run. -/
theorem run_total (M : Mesh) (own : ℤ → ℤ → ℤ → IBlk) (dx : Fin 3 → K) (v : Var) (steps : List (K × List (K × Flux K)))
    (hz : ∀ s ∈ steps, ∀ t ∈ s.2, M.total (M.rate own dx t.2 v) = 0) (U : Arr K) : M.total (M.run own dx v steps U) = M.total U := by
  have st : ∀ (dt : K) (base : Arr K) (l : List (K × Flux K)), (∀ t ∈ l, M.total (M.rate own dx t.2 v) = 0) → ∀ cur : Arr K,
      M.total cur = M.total base →
      M.total (l.foldl (fun cur s => stage s.1 dt base cur (M.rate own dx s.2 v)) cur) = M.total base := by
    intro dt base l
    induction l with
    | nil => intro _ cur h; exact h
    | cons s l ih =>
      intro hl cur h
      rw [List.foldl_cons]
      apply ih (fun t ht => hl t (by simp [ht]))
      rw [mesh_total_stage, hl s (by simp), h]; ring
  unfold Mesh.run
  induction steps generalizing U with
  | nil => rfl
  | cons s steps ih =>
    rw [List.foldl_cons, ih (fun t ht => hz t (by simp [ht]))]
    exact st s.1 U s.2 (hz s (by simp)) U rfl

omit [IsStrictOrderedRing K] in
/-- **C123**: on a closed domain, with any decomposition into blocks and partitions and any number of steps and stages, the total mass and the
total energy at the end of a run are those at its start. -/
theorem closed_run (M : Mesh) (own : ℤ → ℤ → ℤ → IBlk) (hM : M.Tiled own) (hcl : M.Closed) (dx : Fin 3 → K)
    (steps : List (K × List (K × Flux K))) (hF : ∀ s ∈ steps, ∀ t ∈ s.2, M.PeriodicFlux t.2) (v : Var) (hv : v = .rho ∨ v = .eng) (U : Arr K) :
    M.total (M.run own dx v steps U) = M.total U :=
  run_total M own dx v steps (fun s hs t ht => closed_rate M own hM hcl dx t.2 (hF s hs t ht) v hv) U

omit [IsStrictOrderedRing K] in
/-- **C123**: on a fully periodic domain this holds for every evolved variable without source terms. -/
theorem periodic_run (M : Mesh) (own : ℤ → ℤ → ℤ → IBlk) (hM : M.Tiled own) (hper : ∀ d, M.per d = true) (dx : Fin 3 → K)
    (steps : List (K × List (K × Flux K))) (hF : ∀ s ∈ steps, ∀ t ∈ s.2, M.PeriodicFlux t.2) (v : Var) (hB : v ≠ Var.B 1) (U : Arr K) :
    M.total (M.run own dx v steps U) = M.total U :=
  run_total M own dx v steps (fun s hs t ht => periodic_rate M own hM hper dx t.2 (hF s hs t ht) v hB) U

/-! ### Outflow -/

/-- with outflow sides (and walls, and periodic directions) the flux of mass through the lower end of a line of cells minus that through the
upper end is not positive. -/
theorem ends_open (M : Mesh) (hdim : 1 ≤ M.ndim ∧ M.ndim ≤ 3) (hpos : ∀ d, 0 < M.n d) (hno : M.NoInflow) (F : Flux K)
    (d : Fin 3) (fk fj fi gk gj gi : ℤ) (hg : BoundaryFace M.whole.blk d false gk gj gi) (hf : BoundaryFace M.whole.blk d true fk fj fi)
    (hper : M.per d = true → F d .rho fk fj fi = F d .rho gk gj gi) :
    0 ≤ mask M.ndim (fixFluxes (M.cfg M.whole) M.whole.blk F) d .rho fk fj fi -
      mask M.ndim (fixFluxes (M.cfg M.whole) M.whole.blk F) d .rho gk gj gi := by
  unfold mask
  split_ifs with hd
  · obtain ⟨p1, w1⟩ := side_flux M hdim hpos F d hd .rho (by decide) true fk fj fi hf
    obtain ⟨p2, w2⟩ := side_flux M hdim hpos F d hd .rho (by decide) false gk gj gi hg
    cases hp : M.per d with
    | true => rw [p1 hp, p2 hp, hper hp, sub_self]
    | false =>
      rcases hno d hd with h | ⟨he, hw⟩
      · rw [hp] at h; exact absurd h (by decide)
      · have side : ∀ (o : Bool) (x : K), (o = true → 0 ≤ faceFix (M.cfg M.whole) d o .rho x) ∧
            (o = false → faceFix (M.cfg M.whole) d o .rho x ≤ 0) := by
          intro o x
          rcases hw o with hb | hb | hb
          · have hu : (M.cfg M.whole).user d o = true := by simp [Mesh.cfg, hp, whole_touches]
            have hbc : (M.cfg M.whole).bc d o = BC.outflow := hb
            unfold faceFix
            rw [if_pos hu, hbc]
            constructor <;> rintro rfl <;> simp [outflowFix]
          · rw [wall_faceFix M d o .rho x hp (Or.inl hb) (Or.inl rfl)]; simp
          · rw [wall_faceFix M d o .rho x hp (Or.inr hb) (Or.inl rfl)]; simp
        rw [w1 he, w2 he]
        have a := (side true (F d .rho fk fj fi)).1 rfl
        have b := (side false (F d .rho gk gj gi)).2 rfl
        linarith
  · simp

/-- **C123**: with outflow sides the rate of change of the total mass is not positive. -/
theorem open_rate (M : Mesh) (own : ℤ → ℤ → ℤ → IBlk) (hM : M.Tiled own) (hno : M.NoInflow) (dx : Fin 3 → K) (hdx : ∀ d, 0 < dx d) (F : Flux K)
    (hF : M.PeriodicFlux F) : M.total (M.rate own dx F .rho) ≤ 0 := by
  obtain ⟨-, b0, b1, b2⟩ := box_faces 0 0 0 (M.n 2) (M.n 1) (M.n 0) (hM.pos 2) (hM.pos 1) (hM.pos 0)
  obtain ⟨q0, q1, q2⟩ := hF
  have key := fun (d : Fin 3) fk fj fi gk gj gi => ends_open M hM.dim hM.pos hno F d fk fj fi gk gj gi
  rw [total_rate M own hM dx F .rho (by decide), total_fluxDiv, neg_nonpos]
  refine add_nonneg (add_nonneg (div_nonneg ?_ (hdx 0).le) (div_nonneg ?_ (hdx 1).le)) (div_nonneg ?_ (hdx 2).le)
  · exact sum_nonneg fun k hk => sum_nonneg fun j hj => key 0 _ _ _ _ _ _ (b0 k hk j hj).1 (b0 k hk j hj).2
      fun hp => by rw [zero_add ((M.n 0 : ℕ) : ℤ)]; exact q0 hp _ _ _
  · exact sum_nonneg fun k hk => sum_nonneg fun i hi => key 1 _ _ _ _ _ _ (b1 k hk i hi).1 (b1 k hk i hi).2
      fun hp => by rw [zero_add ((M.n 1 : ℕ) : ℤ)]; exact q1 hp _ _ _
  · exact sum_nonneg fun j hj => sum_nonneg fun i hi => key 2 _ _ _ _ _ _ (b2 j hj i hi).1 (b2 j hj i hi).2
      fun hp => by rw [zero_add ((M.n 2 : ℕ) : ℤ)]; exact q2 hp _ _ _

/-- **C123**: with outflow sides the total mass never grows in a run whose integrator weights lie in `[0,1]`. -/
theorem open_run (M : Mesh) (own : ℤ → ℤ → ℤ → IBlk) (hM : M.Tiled own) (hno : M.NoInflow) (dx : Fin 3 → K) (hdx : ∀ d, 0 < dx d)
    (steps : List (K × List (K × Flux K))) (hdt : ∀ s ∈ steps, 0 ≤ s.1)
    (hF : ∀ s ∈ steps, ∀ t ∈ s.2, M.PeriodicFlux t.2 ∧ 0 ≤ t.1 ∧ t.1 ≤ 1) (U : Arr K) :
    M.total (M.run own dx .rho steps U) ≤ M.total U := by
  have st : ∀ (dt : K), 0 ≤ dt → ∀ (base : Arr K) (l : List (K × Flux K)), (∀ t ∈ l, M.PeriodicFlux t.2 ∧ 0 ≤ t.1 ∧ t.1 ≤ 1) → ∀ cur : Arr K,
      M.total cur ≤ M.total base →
      M.total (l.foldl (fun cur s => stage s.1 dt base cur (M.rate own dx s.2 .rho)) cur) ≤ M.total base := by
    intro dt hdt base l
    induction l with
    | nil => intro _ cur h; exact h
    | cons s l ih =>
      intro hl cur h
      rw [List.foldl_cons]
      apply ih (fun t ht => hl t (by simp [ht]))
      obtain ⟨hp, h0, h1⟩ := hl s (by simp)
      rw [mesh_total_stage]
      have hr := open_rate M own hM hno dx hdx s.2 hp
      have a := mul_le_mul_of_nonneg_left h h0
      have b := mul_nonpos_of_nonneg_of_nonpos (mul_nonneg h0 hdt) hr
      linarith
  unfold Mesh.run
  induction steps generalizing U with
  | nil => exact le_refl _
  | cons s steps ih =>
    rw [List.foldl_cons]
    refine (ih (fun t ht => hdt t (by simp [ht])) (fun t ht => hF t (by simp [ht])) _).trans ?_
    exact st s.1 (hdt s (by simp)) U s.2 (hF s (by simp)) U le_rfl

/-! ### The history column -/

/-- the cells of a block as a finite set. -/
noncomputable def IBlk.set (b : IBlk) : Finset (ℤ × ℤ × ℤ) :=
  Ico (b.off 2) (b.off 2 + b.n 2) ×ˢ Ico (b.off 1) (b.off 1 + b.n 1) ×ˢ Ico (b.off 0) (b.off 0 + b.n 0)

theorem mem_set (b : IBlk) (k j i : ℤ) : (k, j, i) ∈ b.set ↔ b.Has k j i := by
  simp [IBlk.set, IBlk.Has]

theorem sum_set {A : Type} [AddCommMonoid A] (b : IBlk) (f : ℤ → ℤ → ℤ → A) :
    ∑ x ∈ b.set, f x.1 x.2.1 x.2.2 =
      ∑ k ∈ range (b.n 2), ∑ j ∈ range (b.n 1), ∑ i ∈ range (b.n 0), f (b.off 2 + k) (b.off 1 + j) (b.off 0 + i) := by
  have sh : ∀ (o : ℤ) (n : ℕ) (g : ℤ → A), ∑ x ∈ Ico o (o + n), g x = ∑ x ∈ range n, g (o + x) := by
    intro o n g
    symm
    refine sum_nbij (fun x : ℕ => o + (x : ℤ)) ?_ ?_ ?_ ?_
    · intro x hx; rw [mem_range] at hx; rw [mem_Ico]; omega
    · intro x _ y _ h; simpa using h
    · intro y hy
      rw [mem_coe, mem_Ico] at hy
      exact ⟨(y - o).toNat, by rw [mem_coe, mem_range]; omega, by simp only; omega⟩
    · intro x _; rfl
  unfold IBlk.set
  rw [sum_product, sh]
  refine sum_congr rfl fun k _ => ?_
  rw [sum_product, sh]
  refine sum_congr rfl fun j _ => ?_
  rw [sh]

theorem sum_cells (n : Fin 3 → ℕ) (f : (Fin 3 → ℕ) → ℝ) :
    ∑ c ∈ Fintype.piFinset (fun d => range (n d)), f c =
      ∑ k ∈ range (n 2), ∑ j ∈ range (n 1), ∑ i ∈ range (n 0), f ![i, j, k] := by
  rw [← sum_product', ← sum_product']
  symm
  refine sum_nbij (fun x : (ℕ × ℕ) × ℕ => ![x.2, x.1.2, x.1.1]) ?_ ?_ ?_ ?_
  · rintro ⟨⟨k, j⟩, i⟩ h
    simp only [mem_product, mem_range] at h
    rw [Fintype.mem_piFinset]
    intro d
    have hd : d = 0 ∨ d = 1 ∨ d = 2 := by omega
    rcases hd with rfl | rfl | rfl <;> simp [h]
  · rintro ⟨⟨k, j⟩, i⟩ _ ⟨⟨k', j'⟩, i'⟩ _ h
    have h0 := congrFun h 0; have h1 := congrFun h 1; have h2 := congrFun h 2
    simp at h0 h1 h2
    simp [h0, h1, h2]
  · intro c hc
    rw [mem_coe, Fintype.mem_piFinset] at hc
    refine ⟨((c 2, c 1), c 0), ?_, ?_⟩
    · have h0 := hc 0; have h1 := hc 1; have h2 := hc 2
      simp only [mem_range] at h0 h1 h2
      simp [h0, h1, h2]
    · funext d
      fin_cases d <;> rfl
  · intro x _; rfl

/-- sums over disjoint finite sets add up to the sum over their union. -/
theorem sum_list_disj (l : List IBlk) (hd : l.Pairwise fun a b => ∀ k j i, a.Has k j i → ¬ b.Has k j i) (f : ℤ × ℤ × ℤ → ℝ) :
    (l.map fun b => ∑ x ∈ b.set, f x).sum = ∑ x ∈ l.foldr (fun b s => b.set ∪ s) ∅, f x := by
  induction l with
  | nil => simp
  | cons b l ih =>
    rw [List.pairwise_cons] at hd
    rw [List.map_cons, List.sum_cons, List.foldr_cons, ih hd.2, sum_union]
    rw [disjoint_left]
    rintro ⟨k, j, i⟩ hb hl
    have : ∀ m : List IBlk, (k, j, i) ∈ m.foldr (fun b s => b.set ∪ s) ∅ → ∃ c ∈ m, c.Has k j i := by
      intro m
      induction m with
      | nil => simp
      | cons c m ihm =>
        intro h
        rw [List.foldr_cons, mem_union] at h
        rcases h with h | h
        · exact ⟨c, by simp, (mem_set c k j i).1 h⟩
        · obtain ⟨e, he, hh⟩ := ihm h
          exact ⟨e, by simp [he], hh⟩
    obtain ⟨c, hc, hh⟩ := this l hl
    exact hd.1 c hc k j i ((mem_set b k j i).1 hb) hh

/-- the region of cell `c` of block `b` is that of its mesh cell, so the blocks of the reduction are laid out as the mesh is. -/
theorem hist_region (x0 dx : Fin 3 → ℝ) (b : IBlk) (c : HistorySums.Cell) :
    (b.hist x0 dx).region c = Set.pi Set.univ fun d => Set.Ico (x0 d + (b.off d + c d) * dx d) (x0 d + (b.off d + c d + 1) * dx d) := by
  unfold HistorySums.Block.region IBlk.hist
  congr 1
  funext d
  congr 1 <;> simp only <;> ring

/-- **C123 (history)**: the number the history file adds up over cells, blocks and partitions is the domain total times the cell volume. -/
theorem column_total (M : Mesh) (own : ℤ → ℤ → ℤ → IBlk) (hM : M.Tiled own) (x0 dx : Fin 3 → ℝ) (U : Arr ℝ) :
    M.column x0 dx U = dx 0 * dx 1 * dx 2 * M.total U := by
  have hblk : ∀ b : IBlk, (∑ c ∈ (b.hist x0 dx).cells,
      HistorySums.contribution .sum (b.hist x0 dx) (U (b.off 2 + c 2) (b.off 1 + c 1) (b.off 0 + c 0))) =
      dx 0 * dx 1 * dx 2 * ∑ x ∈ b.set, U x.1 x.2.1 x.2.2 := by
    intro b
    rw [sum_set b fun k j i => U k j i]
    unfold HistorySums.Block.cells
    rw [sum_cells]
    simp only [mul_sum]
    refine sum_congr rfl fun k _ => sum_congr rfl fun j _ => sum_congr rfl fun i _ => ?_
    simp [HistorySums.contribution, HistorySums.volumeWeighting, HistorySums.Block.vol, IBlk.hist]
    ring
  have flat : ∀ L : List (List IBlk), (L.map fun p => (p.map fun b => ∑ c ∈ (b.hist x0 dx).cells,
      HistorySums.contribution .sum (b.hist x0 dx) (U (b.off 2 + c 2) (b.off 1 + c 1) (b.off 0 + c 0))).sum).sum =
      dx 0 * dx 1 * dx 2 * (L.flatten.map fun b => ∑ x ∈ b.set, U x.1 x.2.1 x.2.2).sum := by
    intro L
    induction L with
    | nil => simp
    | cons p L ih =>
      rw [List.map_cons, List.sum_cons, ih, List.flatten_cons, List.map_append, List.sum_append, mul_add]
      congr 1
      rw [← List.sum_map_mul_left]
      congr 1
      exact List.map_congr_left fun b _ => hblk b
  unfold Mesh.column
  rw [flat, sum_list_disj _ hM.disj]
  congr 1
  have hdom : M.blocks.flatten.foldr (fun b s => b.set ∪ s) ∅ = M.whole.set := by
    have hmem : ∀ (m : List IBlk) k j i, (k, j, i) ∈ m.foldr (fun b s => b.set ∪ s) ∅ ↔ ∃ c ∈ m, c.Has k j i := by
      intro m k j i
      induction m with
      | nil => simp
      | cons c m ihm => rw [List.foldr_cons, mem_union, ihm, mem_set]; simp
    ext ⟨k, j, i⟩
    rw [hmem, mem_set]
    constructor
    · rintro ⟨c, hc, h⟩
      have a0 := hM.inside c hc 0; have a1 := hM.inside c hc 1; have a2 := hM.inside c hc 2
      obtain ⟨h1, h2, h3⟩ := h
      refine ⟨?_, ?_, ?_⟩ <;> simp only [Mesh.whole] <;> omega
    · intro h
      have hh : M.Has k j i := by
        obtain ⟨h1, h2, h3⟩ := h
        simp only [Mesh.whole] at h1 h2 h3
        refine ⟨?_, ?_, ?_⟩ <;> omega
      exact ⟨_, (hM.mem k j i hh).1, (hM.mem k j i hh).2⟩
  rw [hdom, sum_set M.whole fun k j i => U k j i]
  rfl

/-- **C123**: the history column of the conserved density (or energy) is the same number at every output of a run on a closed domain. -/
theorem history_constant (M : Mesh) (own : ℤ → ℤ → ℤ → IBlk) (hM : M.Tiled own) (hcl : M.Closed) (x0 dx : Fin 3 → ℝ)
    (steps : List (ℝ × List (ℝ × Flux ℝ))) (hF : ∀ s ∈ steps, ∀ t ∈ s.2, M.PeriodicFlux t.2) (v : Var) (hv : v = .rho ∨ v = .eng) (U : Arr ℝ) :
    M.column x0 dx (M.run own dx v steps U) = M.column x0 dx U := by
  rw [column_total M own hM, column_total M own hM, closed_run M own hM hcl dx steps hF v hv]

/-- **C123**: and it never grows when there are outflow sides. -/
theorem history_decreasing (M : Mesh) (own : ℤ → ℤ → ℤ → IBlk) (hM : M.Tiled own) (hno : M.NoInflow) (x0 dx : Fin 3 → ℝ) (hdx : ∀ d, 0 < dx d)
    (steps : List (ℝ × List (ℝ × Flux ℝ))) (hdt : ∀ s ∈ steps, 0 ≤ s.1)
    (hF : ∀ s ∈ steps, ∀ t ∈ s.2, M.PeriodicFlux t.2 ∧ 0 ≤ t.1 ∧ t.1 ≤ 1) (U : Arr ℝ) :
    M.column x0 dx (M.run own dx .rho steps U) ≤ M.column x0 dx U := by
  rw [column_total M own hM, column_total M own hM]
  exact mul_le_mul_of_nonneg_left (open_run M own hM hno dx hdx steps hdt hF U)
    (mul_pos (mul_pos (hdx 0) (hdx 1)) (hdx 2)).le

/-! ### Example: two blocks on two partitions -/

/-- a one-dimensional mesh of four cells between two walls, cut into blocks of three cells and one cell on different partitions. -/
def exMesh : Mesh :=
  { n := ![4, 1, 1], ndim := 1, enable := true, per := fun _ => false, bc := fun _ _ => .reflect, nsp := 0, momentsActive := false, hasE := false,
    blocks := [[⟨fun _ => 0, ![3, 1, 1]⟩], [⟨![3, 0, 0], fun _ => 1⟩]] }

/-- owner of a cell. -/
def exOwn : ℤ → ℤ → ℤ → IBlk := fun _ _ i => if i < 3 then ⟨fun _ => 0, ![3, 1, 1]⟩ else ⟨![3, 0, 0], fun _ => 1⟩

theorem ex_tiled : exMesh.Tiled exOwn ∧ exMesh.Closed ∧ exMesh.NoInflow := by
  refine ⟨⟨by decide, by decide, ?_, ?_, ?_⟩, ?_, ?_⟩
  · decide
  · simp only [exMesh, List.flatten_cons, List.flatten_nil, List.cons_append, List.nil_append, List.append_nil, List.pairwise_cons, List.mem_singleton,
      forall_eq, List.not_mem_nil, IBlk.Has]
    refine ⟨fun k j i h h' => ?_, by simp, List.Pairwise.nil⟩
    simp at h h'
    omega
  · intro k j i h
    simp [Mesh.Has, exMesh] at h
    unfold exOwn
    split_ifs with hi
    · refine ⟨by simp [exMesh], ?_⟩
      simp [IBlk.Has]; omega
    · refine ⟨by simp [exMesh], ?_⟩
      simp [IBlk.Has]; omega
  · intro d _; right; exact ⟨rfl, fun o => Or.inl rfl⟩
  · intro d _; right; exact ⟨rfl, fun o => Or.inr (Or.inl rfl)⟩

end Phoebus.MeshRun
