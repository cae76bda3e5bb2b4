import Verif.FluxSweep.Model
import Verif.FluxCT.Props

/-!
# C120: the face fluxes of a block

Fluxes that influence interior cells are computed from freshly reconstructed states, for every order of the parallel loops and every previous
contents of the scratch arrays; the update of a cell is the same in every block decomposition; the slots of the state vector line up.
-/
namespace Phoebus.FluxSweep
variable {K : Type} [Field K] [LinearOrder K] {N : ℕ}

/-! ### Specification -/

/-- the two states at face `f` of direction `d`: extrapolated from the cell below and from the cell above the face. -/
def stateL (R : (ℤ → K) → K × K) (v : Fin N → Pos → K) (d : Fin 3) (f : Pos) (n : Fin N) : K :=
  (R fun m => v n fun e => f e + (m - 1) * unit d e).1

/-- see `stateL`. -/
def stateR (R : (ℤ → K) → K × K) (v : Fin N → Pos → K) (d : Fin 3) (f : Pos) (n : Fin N) : K :=
  (R fun m => v n fun e => f e + m * unit d e).2

/-- faces whose fluxes influence interior cells: all faces of interior cells, and in the transverse directions one layer more (constrained
transport averages over it). -/
def Used (b : Blk) (d : Fin 3) (f : Pos) : Prop :=
  b.act d ∧ (b.s d ≤ f d ∧ f d ≤ b.e d + 1) ∧ ∀ e, e ≠ d → b.s e - b.ext e ≤ f e ∧ f e ≤ b.e e + b.ext e

/-- the schedule executes every iteration of the loop and no other. -/
def Covers (b : Blk) (order : List (Fin N × Pos)) : Prop := ∀ n c, (n, c) ∈ order ↔ b.Loop c

/-- a flux divergence taken directly with the states at the faces. -/
def refRate (dx : Fin 3 → K) (act : Fin 3 → Prop) [DecidablePred act] (R : (ℤ → K) → K × K)
    (solver : Fin 3 → Pos → (Fin N → K) → (Fin N → K) → ℕ → K) (v : Fin N → Pos → K) (m : ℕ) (c : Pos) : K :=
  -∑ d : Fin 3, if act d then
    (solver d (fun e => c e + unit d e) (stateL R v d fun e => c e + unit d e) (stateR R v d fun e => c e + unit d e) m
      - solver d c (stateL R v d c) (stateR R v d c) m) / dx d else 0

/-- number of cells on each side that a method looks at. -/
def radius : Method → ℤ
  | .constant => 0
  | .linear => 1
  | .mp5 => 2
  | .weno5z => 2

/-! ### The reconstruction kernel -/

theorem pos_shift (f c : Pos) (d : Fin 3) : (f = fun e => c e + unit d e) ↔ c = fun e => f e - unit d e := by
  constructor
  · rintro rfl; funext e; ring
  · rintro rfl; funext e; ring

/-- one iteration, direction by direction. -/
theorem iter_left (R : (ℤ → K) → K × K) (b : Blk) (v : Fin N → Pos → K) (st : Faces K N × Faces K N) (it : Fin N × Pos) (d : Fin 3)
    (n : Fin N) (f : Pos) :
    (iter R b v st it).1 d n f = if b.act d ∧ n = it.1 ∧ f = (fun e => it.2 e + unit d e) then (R (line v n d it.2)).1 else st.1 d n f := by
  have hd : d = 0 ∨ d = 1 ∨ d = 2 := by omega
  unfold iter writeDir put
  simp only [List.foldl_cons, List.foldl_nil]
  rcases hd with rfl | rfl | rfl <;> by_cases h0 : b.act 0 <;> by_cases h1 : b.act 1 <;> by_cases h2 : b.act 2 <;>
    simp [h0, h1, h2] <;> split_ifs with h <;> simp_all

/-- see `iter_left`. -/
theorem iter_right (R : (ℤ → K) → K × K) (b : Blk) (v : Fin N → Pos → K) (st : Faces K N × Faces K N) (it : Fin N × Pos) (d : Fin 3)
    (n : Fin N) (f : Pos) :
    (iter R b v st it).2 d n f = if b.act d ∧ n = it.1 ∧ f = it.2 then (R (line v n d it.2)).2 else st.2 d n f := by
  have hd : d = 0 ∨ d = 1 ∨ d = 2 := by omega
  unfold iter writeDir put
  simp only [List.foldl_cons, List.foldl_nil]
  rcases hd with rfl | rfl | rfl <;> by_cases h0 : b.act 0 <;> by_cases h1 : b.act 1 <;> by_cases h2 : b.act 2 <;>
    simp [h0, h1, h2] <;> split_ifs with h <;> simp_all

theorem line_shift (R : (ℤ → K) → K × K) (v : Fin N → Pos → K) (n : Fin N) (d : Fin 3) (f : Pos) :
    (R (line v n d fun e => f e - unit d e)).1 = stateL R v d f n := by
  unfold stateL line
  congr 2; funext m; congr 1; funext e; ring

open Classical in
/-- left states after the kernel: fresh exactly where the cell below the face was visited, otherwise the previous contents. -/
theorem recon_left (R : (ℤ → K) → K × K) (b : Blk) (v : Fin N → Pos → K) (order : List (Fin N × Pos)) (st : Faces K N × Faces K N)
    (d : Fin 3) (n : Fin N) (f : Pos) :
    (reconstruct R b v order st).1 d n f =
      if b.act d ∧ (n, fun e => f e - unit d e) ∈ order then stateL R v d f n else st.1 d n f := by
  unfold reconstruct
  induction order generalizing st with
  | nil => simp
  | cons it l ih =>
    rw [List.foldl_cons, ih, iter_left]
    by_cases ha : b.act d
    · by_cases hl : (n, fun e => f e - unit d e) ∈ l
      · simp [ha, hl]
      · by_cases hi : n = it.1 ∧ f = (fun e => it.2 e + unit d e)
        · have h2 := (pos_shift _ _ _).1 hi.2
          have : it = (n, fun e => f e - unit d e) := by
            rw [← h2]; exact Prod.ext hi.1.symm rfl
          rw [if_neg (by simp [hl]), if_pos ⟨ha, hi⟩, if_pos ⟨ha, by rw [← this]; simp⟩, h2, line_shift]
        · rw [if_neg (by simp [hl]), if_neg (by tauto), if_neg]
          rintro ⟨-, h⟩
          rcases List.mem_cons.1 h with h | h
          · apply hi
            refine ⟨by rw [← h], ?_⟩
            rw [pos_shift, ← h]
          · exact hl h
    · simp [ha]

open Classical in
/-- right states after the kernel. -/
theorem recon_right (R : (ℤ → K) → K × K) (b : Blk) (v : Fin N → Pos → K) (order : List (Fin N × Pos)) (st : Faces K N × Faces K N)
    (d : Fin 3) (n : Fin N) (f : Pos) :
    (reconstruct R b v order st).2 d n f = if b.act d ∧ (n, f) ∈ order then stateR R v d f n else st.2 d n f := by
  unfold reconstruct
  induction order generalizing st with
  | nil => simp
  | cons it l ih =>
    rw [List.foldl_cons, ih, iter_right]
    by_cases ha : b.act d
    · by_cases hl : (n, f) ∈ l
      · simp [ha, hl]
      · by_cases hi : n = it.1 ∧ f = it.2
        · have : it = (n, f) := Prod.ext hi.1.symm hi.2.symm
          rw [if_neg (by simp [hl]), if_pos ⟨ha, hi⟩, if_pos ⟨ha, by rw [← this]; simp⟩, ← hi.2]
          rfl
        · rw [if_neg (by simp [hl]), if_neg (by tauto), if_neg]
          rintro ⟨-, h⟩
          rcases List.mem_cons.1 h with h | h
          · apply hi; rw [← h]; exact ⟨rfl, rfl⟩
          · exact hl h
    · simp [ha]

/-- both cells adjacent to a used face are visited by the loop. -/
theorem used_loop (b : Blk) (d : Fin 3) (f : Pos) (h : Used b d f) : b.Loop f ∧ b.Loop fun e => f e - unit d e := by
  obtain ⟨ha, h1, h2⟩ := h
  have hx : b.ext d = 1 := by simp [Blk.ext, ha]
  constructor <;> intro e <;> by_cases he : e = d
  · subst he; rw [hx]; omega
  · exact h2 e he
  · subst he; simp only [unit, if_true]; rw [hx]; omega
  · simpa [unit, he] using h2 e he

/-- **C120**: every flux that influences an interior cell is the Riemann flux of the states reconstructed from the current primitives in the
two adjacent cells - in every schedule of the loop and whatever the scratch arrays contained. -/
theorem fluxes_fresh {O : Type} (R : (ℤ → K) → K × K) (solver : Fin 3 → Pos → (Fin N → K) → (Fin N → K) → O) (b : Blk)
    [DecidablePred b.Loop] (v : Fin N → Pos → K) (order : List (Fin N × Pos)) (ho : Covers b order) (st : Faces K N × Faces K N)
    (old : Fin 3 → Pos → O) (d : Fin 3) (f : Pos) (h : Used b d f) :
    calculateFluxes false R solver b v order st old d f = solver d f (stateL R v d f) (stateR R v d f) := by
  obtain ⟨hl, hr⟩ := used_loop b d f h
  unfold calculateFluxes faceFlux
  rw [if_pos ⟨rfl, h.1, hl⟩]
  congr 1
  · funext n; rw [recon_left, if_pos ⟨h.1, (ho n _).2 hr⟩]
  · funext n; rw [recon_right, if_pos ⟨h.1, (ho n _).2 hl⟩]

/-- **C120 (the layer below the block)**: the flux loop also computes the fluxes of the faces just below the block, and there the left state is
whatever the scratch array contained; those fluxes are not `Used`. -/
theorem lowest_face_stale {O : Type} (R : (ℤ → K) → K × K) (solver : Fin 3 → Pos → (Fin N → K) → (Fin N → K) → O) (b : Blk)
    [DecidablePred b.Loop] (v : Fin N → Pos → K) (order : List (Fin N × Pos)) (ho : Covers b order) (st : Faces K N × Faces K N)
    (old : Fin 3 → Pos → O) (d : Fin 3) (f : Pos) (ha : b.act d) (hf : b.Loop f) (hlow : f d = b.s d - 1) :
    calculateFluxes false R solver b v order st old d f = solver d f (fun n => st.1 d n f) (stateR R v d f) ∧ ¬ Used b d f := by
  constructor
  · unfold calculateFluxes faceFlux
    rw [if_pos ⟨rfl, ha, hf⟩]
    congr 1
    · funext n
      rw [recon_left, if_neg]
      rintro ⟨-, h⟩
      have := ((ho n _).1 h d).1
      simp only [unit, if_true, Blk.ext, ha] at this
      omega
    · funext n; rw [recon_right, if_pos ⟨ha, (ho n _).2 hf⟩]
  · rintro ⟨-, h, -⟩; omega

/-- **C120**: with the fluid frozen (`zero_fluxes`) or inactive the flux array keeps its contents. -/
theorem skip_keeps {O : Type} (R : (ℤ → K) → K × K) (solver : Fin 3 → Pos → (Fin N → K) → (Fin N → K) → O) (b : Blk)
    [DecidablePred b.Loop] (v : Fin N → Pos → K) (order : List (Fin N × Pos)) (st : Faces K N × Faces K N) (old : Fin 3 → Pos → O) :
    calculateFluxes true R solver b v order st old = old := by
  funext d f; simp [calculateFluxes]

theorem interior_used (b : Blk) (c : Pos) (h : b.Interior c) (d : Fin 3) (ha : b.act d) :
    Used b d c ∧ Used b d fun e => c e + unit d e := by
  have hx : ∀ e, 0 ≤ b.ext e := by intro e; unfold Blk.ext; split_ifs <;> omega
  refine ⟨⟨ha, ?_, fun e _ => ?_⟩, ha, ?_, fun e he => ?_⟩
  · have := h d; omega
  · have := h e; have := hx e; omega
  · have := h d; simp only [unit, if_true]; omega
  · have := h e; have := hx e; simp only [unit, he, if_false]; omega

/-- **C120 (update of a cell)**: the rate of change of an interior cell is the flux divergence of the Riemann fluxes of the reconstructed
states, independent of schedule and scratch memory. -/
theorem rate_spec (dx : Fin 3 → K) (R : (ℤ → K) → K × K) (solver : Fin 3 → Pos → (Fin N → K) → (Fin N → K) → ℕ → K) (b : Blk)
    [DecidablePred b.Loop] (v : Fin N → Pos → K) (order : List (Fin N × Pos)) (ho : Covers b order) (st : Faces K N × Faces K N)
    (old : Fin 3 → Pos → ℕ → K) (m : ℕ) (c : Pos) (h : b.Interior c) :
    rate dx b (calculateFluxes false R solver b v order st old) m c = refRate dx b.act R solver v m c := by
  unfold rate refRate
  rw [Fin.sum_univ_three]
  have key : ∀ d, b.act d →
      calculateFluxes false R solver b v order st old d c = solver d c (stateL R v d c) (stateR R v d c) ∧
      calculateFluxes false R solver b v order st old d (fun e => c e + unit d e) =
        solver d (fun e => c e + unit d e) (stateL R v d fun e => c e + unit d e) (stateR R v d fun e => c e + unit d e) := by
    intro d ha
    obtain ⟨u1, u2⟩ := interior_used b c h d ha
    exact ⟨fluxes_fresh R solver b v order ho st old d c u1, fluxes_fresh R solver b v order ho st old d _ u2⟩
  congr 1
  congr 1
  · congr 1
    · by_cases a : b.act 0
      · rw [if_pos a, if_pos a, (key 0 a).1, (key 0 a).2]
      · rw [if_neg a, if_neg a]
    · by_cases a : b.act 1
      · rw [if_pos a, if_pos a, (key 1 a).1, (key 1 a).2]
      · rw [if_neg a, if_neg a]
  · by_cases a : b.act 2
    · rw [if_pos a, if_pos a, (key 2 a).1, (key 2 a).2]
    · rw [if_neg a, if_neg a]

/-! ### Ghost cells and block decomposition -/

/-- **C120 (choice of method)**: exactly which method is used for which input. -/
theorem selectMethod_spec (name : String) (g : ℤ) (rt : Method) :
    selectMethod name g = some rt ↔
      (rt = .weno5z ∧ 4 ≤ g ∧ (name = "weno5" ∨ name = "weno5z")) ∨ (rt = .mp5 ∧ 4 ≤ g ∧ name = "mp5") ∨
      (rt = .linear ∧ name = "linear") ∨ (rt = .constant ∧ name = "constant") := by
  unfold selectMethod
  by_cases h1 : name = "weno5"
  · subst h1; by_cases hg : 4 ≤ g <;> simp [hg, eq_comm]
  by_cases h2 : name = "weno5z"
  · subst h2; by_cases hg : 4 ≤ g <;> simp [hg, eq_comm]
  by_cases h3 : name = "mp5"
  · subst h3; by_cases hg : 4 ≤ g <;> simp [hg, eq_comm]
  by_cases h4 : name = "linear"
  · subst h4; simp [eq_comm]
  by_cases h5 : name = "constant"
  · subst h5; simp [eq_comm]
  simp [h1, h2, h3, h4, h5]

/-- a method looks no further than its radius. -/
theorem kernel_congr (ew em : K) (rt : Method) (q q' : ℤ → K) (h : ∀ m, |m| ≤ radius rt → q m = q' m) :
    kernel ew em rt q = kernel ew em rt q' := by
  cases rt <;> simp only [kernel, radius] at h ⊢
  · rw [h 0 (by norm_num)]
  · rw [h 0 (by norm_num), h 1 (by norm_num), h (-1) (by norm_num)]
  · rw [h 0 (by norm_num), h 1 (by norm_num), h (-1) (by norm_num), h 2 (by norm_num), h (-2) (by norm_num)]
  · rw [h 0 (by norm_num), h 1 (by norm_num), h (-1) (by norm_num), h 2 (by norm_num), h (-2) (by norm_num)]

/-- **C120 (stencils)**: with at least `1 + radius` ghost cells no cell outside the block is read. -/
theorem stencil_inside (b : Blk) (rt : Method) (hg : 1 + radius rt ≤ b.g) (c : Pos) (hc : b.Loop c) (d : Fin 3) (ha : b.act d) (m : ℤ)
    (hm : |m| ≤ radius rt) : b.Entire fun e => c e + m * unit d e := by
  intro e
  have h := hc e
  rw [abs_le] at hm
  have hr : 0 ≤ radius rt := by cases rt <;> simp [radius]
  by_cases he : e = d
  · subst he
    simp only [unit, Blk.ext, ha, if_true, mul_one] at h ⊢
    omega
  · simp only [unit, he, if_false, mul_zero, add_zero]
    by_cases hae : b.act e
    · simp only [Blk.ext, hae, if_true] at h ⊢; omega
    · simp only [Blk.ext, hae, if_false] at h ⊢; omega

/-- ghost cells needed by the accepted configurations: the checks at start-up suffice for the high-order methods; the linear method needs two
ghost cells, which is not checked. -/
def Enough (rt : Method) (g : ℤ) : Prop := (rt = .linear → 2 ≤ g) ∧ (rt = .constant → 1 ≤ g)

theorem enough_radius (name : String) (g : ℤ) (rt : Method) (h : selectMethod name g = some rt) (he : Enough rt g) : 1 + radius rt ≤ g := by
  rw [selectMethod_spec] at h
  rcases h with ⟨rfl, h, -⟩ | ⟨rfl, h, -⟩ | ⟨rfl, h⟩ | ⟨rfl, h⟩
  · simp only [radius]; omega
  · simp only [radius]; omega
  · have := he.1 rfl; simp only [radius]; omega
  · have := he.2 rfl; simp only [radius]; omega

/-- **C120 (decomposition independence)**: let the primitives of a block, ghost cells included, be those of a global array `V` shifted by `off`,
and the face geometry that of the global position.  Then the update of every interior cell equals the flux divergence of the global arrays at
that cell: it depends neither on the block the cell belongs to nor on the position of the cell in it. -/
theorem rate_decomposition (ew em : K) (name : String) (rt : Method) (dx : Fin 3 → K)
    (S : Fin 3 → Pos → (Fin N → K) → (Fin N → K) → ℕ → K) (V : Fin N → Pos → K) (b : Blk) [DecidablePred b.Loop]
    (hsel : selectMethod name b.g = some rt) (hen : Enough rt b.g) (off : Pos) (v : Fin N → Pos → K)
    (hv : ∀ n c, b.Entire c → v n c = V n fun e => c e + off e)
    (order : List (Fin N × Pos)) (ho : Covers b order) (st : Faces K N × Faces K N) (old : Fin 3 → Pos → ℕ → K) (m : ℕ) (c : Pos)
    (h : b.Interior c) :
    rate dx b (calculateFluxes false (kernel ew em rt) (fun d f => S d fun e => f e + off e) b v order st old) m c
      = refRate dx b.act (kernel ew em rt) S V m fun e => c e + off e := by
  have hg := enough_radius name b.g rt hsel hen
  have sL : ∀ d f, Used b d f → stateL (kernel ew em rt) v d f = stateL (kernel ew em rt) V d fun e => f e + off e := by
    intro d f hu
    funext n
    unfold stateL
    rw [kernel_congr ew em rt _ (fun m => V n fun e => (f e + off e) + (m - 1) * unit d e)]
    intro k hk
    have hin := stencil_inside b rt hg _ (used_loop b d f hu).2 d hu.1 k hk
    have hp : (fun e => f e + (k - 1) * unit d e) = fun e => f e - unit d e + k * unit d e := by funext e; ring
    rw [hp, hv n _ hin]
    congr 1; funext e; ring
  have sR : ∀ d f, Used b d f → stateR (kernel ew em rt) v d f = stateR (kernel ew em rt) V d fun e => f e + off e := by
    intro d f hu
    funext n
    unfold stateR
    rw [kernel_congr ew em rt _ (fun m => V n fun e => (f e + off e) + m * unit d e)]
    intro k hk
    rw [hv n _ (stencil_inside b rt hg _ (used_loop b d f hu).1 d hu.1 k hk)]
    congr 1; funext e; ring
  rw [rate_spec dx _ _ b v order ho st old m c h]
  unfold refRate
  congr 1
  apply Finset.sum_congr rfl
  intro d _
  by_cases ha : b.act d
  · obtain ⟨u1, u2⟩ := interior_used b c h d ha
    rw [if_pos ha, if_pos ha, sL d c u1, sR d c u1, sL d _ u2, sR d _ u2]
    have hp : (fun e => c e + unit d e + off e) = fun e => c e + off e + unit d e := by funext e; ring
    simp only [hp]
  · rw [if_neg ha, if_neg ha]

/-- **C120 (two decompositions agree)**. -/
theorem rate_two_blocks (ew em : K) (name : String) (rt : Method) (dx : Fin 3 → K)
    (S : Fin 3 → Pos → (Fin N → K) → (Fin N → K) → ℕ → K) (V : Fin N → Pos → K) (b b' : Blk) [DecidablePred b.Loop] [DecidablePred b'.Loop]
    (hnd : b.ndim = b'.ndim) (hgg : b.g = b'.g) (hsel : selectMethod name b.g = some rt) (hen : Enough rt b.g) (off off' : Pos)
    (v v' : Fin N → Pos → K) (hv : ∀ n c, b.Entire c → v n c = V n fun e => c e + off e)
    (hv' : ∀ n c, b'.Entire c → v' n c = V n fun e => c e + off' e)
    (order order' : List (Fin N × Pos)) (ho : Covers b order) (ho' : Covers b' order') (st st' : Faces K N × Faces K N)
    (old old' : Fin 3 → Pos → ℕ → K) (m : ℕ) (c c' : Pos) (h : b.Interior c) (h' : b'.Interior c') (hc : ∀ e, c e + off e = c' e + off' e) :
    rate dx b (calculateFluxes false (kernel ew em rt) (fun d f => S d fun e => f e + off e) b v order st old) m c
      = rate dx b' (calculateFluxes false (kernel ew em rt) (fun d f => S d fun e => f e + off' e) b' v' order' st' old') m c' := by
  rw [rate_decomposition ew em name rt dx S V b hsel hen off v hv order ho st old m c h,
    rate_decomposition ew em name rt dx S V b' (hgg ▸ hsel) (hgg ▸ hen) off' v' hv' order' ho' st' old' m c' h']
  have : (fun e => c e + off e) = fun e => c' e + off' e := funext hc
  rw [this]
  unfold refRate Blk.act
  simp only [hnd]

/-! ### One ghost cell with the linear method -/

/-- a one-dimensional block with one ghost cell and two interior cells. -/
def thin : Blk := ⟨1, 1, fun _ => 2⟩

instance : DecidablePred thin.Loop := fun c => by unfold Blk.Loop; infer_instance

/-- upwind fluxes: the left state. -/
def upwind : Fin 3 → Pos → (Fin 1 → ℚ) → (Fin 1 → ℚ) → ℕ → ℚ := fun _ _ l _ _ => l 0

/-- all iterations of `thin`. -/
def thinOrder : List (Fin 1 × Pos) := [(0, ![0, 0, 0]), (0, ![1, 0, 0]), (0, ![2, 0, 0]), (0, ![3, 0, 0])]

theorem thin_covers : Covers thin thinOrder := by
  intro n c
  have hn : n = 0 := by omega
  subst hn
  have hl : thin.Loop c ↔ (0 ≤ c 0 ∧ c 0 ≤ 3) ∧ c 1 = 0 ∧ c 2 = 0 := by
    constructor
    · intro h
      have h0 := h 0; have h1 := h 1; have h2 := h 2
      simp [thin, Blk.s, Blk.e, Blk.ext, Blk.act] at h0 h1 h2
      omega
    · rintro ⟨h0, h1, h2⟩ d
      have hd : d = 0 ∨ d = 1 ∨ d = 2 := by omega
      rcases hd with rfl | rfl | rfl <;> simp [thin, Blk.s, Blk.e, Blk.ext, Blk.act] <;> omega
  have hc : c = ![c 0, c 1, c 2] := by
    funext d
    have hd : d = 0 ∨ d = 1 ∨ d = 2 := by omega
    rcases hd with rfl | rfl | rfl <;> rfl
  rw [hl]
  constructor
  · intro h
    simp only [thinOrder, List.mem_cons, List.not_mem_nil, or_false, Prod.mk.injEq, true_and] at h
    rcases h with rfl | rfl | rfl | rfl <;> simp
  · rintro ⟨⟨h0, h0'⟩, h1, h2⟩
    rw [hc, h1, h2]
    have : c 0 = 0 ∨ c 0 = 1 ∨ c 0 = 2 ∨ c 0 = 3 := by omega
    rcases this with h | h | h | h <;> rw [h] <;> simp [thinOrder]

/-- **C120 (deviation)**: the linear method is accepted with one ghost cell, and then the update of an interior cell depends on a value that
lies outside the storage of the block: two arrays that agree in all cells of the block give different updates. -/
theorem linear_one_ghost :
    selectMethod "linear" thin.g = some .linear ∧
    ∃ v v' : Fin 1 → Pos → ℚ, (∀ n c, thin.Entire c → v n c = v' n c) ∧ thin.Interior ![1, 0, 0] ∧
      ∀ order, Covers thin order → ∀ st old,
      rate (fun _ => 1) thin (calculateFluxes false (kernel 0 0 .linear) upwind thin v order st old) 0 ![1, 0, 0] ≠
        rate (fun _ => 1) thin (calculateFluxes false (kernel 0 0 .linear) upwind thin v' order st old) 0 ![1, 0, 0] := by
  refine ⟨by decide, fun _ c => c 0, fun _ c => if c 0 = -1 then 0 else c 0, ?_, ?_, ?_⟩
  · intro n c h
    have h0 := (h 0).1
    simp [thin, Blk.s, Blk.act] at h0
    show ((c 0 : ℤ) : ℚ) = if c 0 = -1 then 0 else ((c 0 : ℤ) : ℚ)
    rw [if_neg (by omega)]
  · intro d
    have hd : d = 0 ∨ d = 1 ∨ d = 2 := by omega
    rcases hd with rfl | rfl | rfl <;> simp [thin, Blk.s, Blk.e, Blk.act]
  · intro order ho st old
    have hi : thin.Interior ![1, 0, 0] := by
      intro d
      have hd : d = 0 ∨ d = 1 ∨ d = 2 := by omega
      rcases hd with rfl | rfl | rfl <;> simp [thin, Blk.s, Blk.e, Blk.act]
    rw [rate_spec _ _ _ _ _ _ ho _ _ _ _ hi, rate_spec _ _ _ _ _ _ ho _ _ _ _ hi]
    unfold refRate
    rw [Fin.sum_univ_three, Fin.sum_univ_three]
    simp only [upwind, stateL, kernel, Blk.act, thin, unit]
    decide +kernel

/-- with two ghost cells the hypotheses of `rate_decomposition` are met. -/
theorem ex_config : selectMethod "linear" 2 = some .linear ∧ Enough .linear 2 ∧ selectMethod "weno5" 4 = some .weno5z ∧ Enough .weno5z 4 ∧
    selectMethod "weno5" 3 = none ∧ selectMethod "ppm" 4 = none := by
  refine ⟨by decide, ⟨by decide, by decide⟩, by decide, ⟨by decide, by decide⟩, by decide, by decide⟩

/-! ### Constrained transport reads fresh fluxes only -/

/-- the block as seen by `FluxCT`. -/
def Blk.ct (b : Blk) : FluxCT.Block := ⟨b.s 2, b.e 2, b.s 1, b.e 1, b.s 0, b.e 0⟩

omit [LinearOrder K] in
/-- **C120 (constrained transport, 2D)**: after constrained transport the update of an interior cell depends on `Used` fluxes only - so not on
the stale layer below the block - and not on the electromotive-force scratch array. -/
theorem ct_fresh_2D [CharZero K] (b : Blk) (hb : b.ndim = 2) (dx : Fin 3 → K) (F G : Fin 3 → Fin 3 → FluxCT.Arr K) (old old' : FluxCT.Arr K)
    (hFG : ∀ d c k j i, Used b d ![i, j, k] → F d c k j i = G d c k j i)
    (c : Fin 3) (hc : c ≠ 2) {k j i : ℤ} (h : b.ct.Has k j i) :
    FluxCT.fluxDiv2 dx (FluxCT.fluxCT2D b.ct F old) c k j i = FluxCT.fluxDiv2 dx (FluxCT.fluxCT2D b.ct G old') c k j i := by
  obtain ⟨⟨h1, h2⟩, ⟨h3, h4⟩, h5, h6⟩ := h
  simp only [Blk.ct] at h1 h2 h3 h4 h5 h6
  have u0 : ∀ j' i', b.s 1 - 1 ≤ j' → j' ≤ b.e 1 + 1 → b.s 0 ≤ i' → i' ≤ b.e 0 + 1 → Used b 0 ![i', j', k] := by
    intro j' i' a1 a2 a3 a4
    refine ⟨by simp [Blk.act, hb], ⟨a3, a4⟩, fun e he => ?_⟩
    have : e = 1 ∨ e = 2 := by omega
    rcases this with rfl | rfl
    · simp [Blk.ext, Blk.act, hb]; omega
    · simp [Blk.ext, Blk.act, hb]; omega
  have u1 : ∀ j' i', b.s 1 ≤ j' → j' ≤ b.e 1 + 1 → b.s 0 - 1 ≤ i' → i' ≤ b.e 0 + 1 → Used b 1 ![i', j', k] := by
    intro j' i' a1 a2 a3 a4
    refine ⟨by simp [Blk.act, hb], ⟨a1, a2⟩, fun e he => ?_⟩
    have : e = 0 ∨ e = 2 := by omega
    rcases this with rfl | rfl
    · simp [Blk.ext, Blk.act, hb]; omega
    · simp [Blk.ext, Blk.act, hb]; omega
  have em : ∀ p q, (p = 0 ∨ p = 1) → (q = 0 ∨ q = 1) → FluxCT.gEmf F k (j + p) (i + q) = FluxCT.gEmf G k (j + p) (i + q) := by
    intro p q hp hq
    unfold FluxCT.gEmf
    rw [hFG 0 1 _ _ _ (u0 _ _ (by omega) (by omega) (by omega) (by omega)), hFG 0 1 _ _ _ (u0 _ _ (by omega) (by omega) (by omega) (by omega)),
      hFG 1 0 _ _ _ (u1 _ _ (by omega) (by omega) (by omega) (by omega)), hFG 1 0 _ _ _ (u1 _ _ (by omega) (by omega) (by omega) (by omega))]
  have e00 := em 0 0 (by simp) (by simp)
  have e10 := em 1 0 (by simp) (by simp)
  have e01 := em 0 1 (by simp) (by simp)
  have e11 := em 1 1 (by simp) (by simp)
  simp only [add_zero] at e00 e10 e01
  have hh : b.ct.Has k j i := ⟨⟨h1, h2⟩, ⟨h3, h4⟩, h5, h6⟩
  fin_cases c
  · simp [(FluxCT.rhs_eq2 hh dx F old).1, (FluxCT.rhs_eq2 hh dx G old').1, e00, e10, e01, e11]
  · simp [(FluxCT.rhs_eq2 hh dx F old).2, (FluxCT.rhs_eq2 hh dx G old').2, e00, e10, e01, e11]
  · exact absurd rfl hc

omit [LinearOrder K] in
/-- **C120 (constrained transport, 3D)**. -/
theorem ct_fresh_3D [CharZero K] (b : Blk) (hb : b.ndim = 3) (dx : Fin 3 → K) (F G : Fin 3 → Fin 3 → FluxCT.Arr K)
    (old old' : Fin 3 → FluxCT.Arr K) (hFG : ∀ d c k j i, Used b d ![i, j, k] → F d c k j i = G d c k j i)
    (c : Fin 3) {k j i : ℤ} (h : b.ct.Has k j i) :
    FluxCT.fluxDiv3 dx (FluxCT.fluxCT3D b.ct F old) c k j i = FluxCT.fluxDiv3 dx (FluxCT.fluxCT3D b.ct G old') c k j i := by
  obtain ⟨⟨h1, h2⟩, ⟨h3, h4⟩, h5, h6⟩ := h
  simp only [Blk.ct] at h1 h2 h3 h4 h5 h6
  have u : ∀ (d : Fin 3) k' j' i', (if d = 2 then b.s 2 else b.s 2 - 1) ≤ k' → k' ≤ b.e 2 + 1 → (if d = 1 then b.s 1 else b.s 1 - 1) ≤ j' →
      j' ≤ b.e 1 + 1 → (if d = 0 then b.s 0 else b.s 0 - 1) ≤ i' → i' ≤ b.e 0 + 1 → Used b d ![i', j', k'] := by
    intro d k' j' i' a1 a2 a3 a4 a5 a6
    have hd : d = 0 ∨ d = 1 ∨ d = 2 := by omega
    refine ⟨by simp [Blk.act, hb], ?_, fun e he => ?_⟩
    · rcases hd with rfl | rfl | rfl <;> simp at a1 a3 a5 ⊢ <;> omega
    · have hx : b.ext e = 1 := by simp [Blk.ext, Blk.act, hb]
      have hee : e = 0 ∨ e = 1 ∨ e = 2 := by omega
      rw [hx]
      rcases hd with rfl | rfl | rfl <;> rcases hee with rfl | rfl | rfl <;> simp at a1 a3 a5 he ⊢ <;> omega
  have em : ∀ n m p q, (m = 0 ∨ m = 1) → (p = 0 ∨ p = 1) → (q = 0 ∨ q = 1) →
      FluxCT.gEmf3 F n (k + m) (j + p) (i + q) = FluxCT.gEmf3 G n (k + m) (j + p) (i + q) := by
    intro n m p q hm hp hq
    fin_cases n <;> simp only [FluxCT.gEmf3] <;>
    · rw [hFG, hFG, hFG, hFG] <;> apply u <;> (try simp) <;> omega
  have e000 := fun n => em n 0 0 0 (by simp) (by simp) (by simp)
  have e010 := fun n => em n 0 1 0 (by simp) (by simp) (by simp)
  have e001 := fun n => em n 0 0 1 (by simp) (by simp) (by simp)
  have e011 := fun n => em n 0 1 1 (by simp) (by simp) (by simp)
  have e100 := fun n => em n 1 0 0 (by simp) (by simp) (by simp)
  have e110 := fun n => em n 1 1 0 (by simp) (by simp) (by simp)
  have e101 := fun n => em n 1 0 1 (by simp) (by simp) (by simp)
  simp only [add_zero] at e000 e010 e001 e011 e100 e110 e101
  have hh : b.ct.Has k j i := ⟨⟨h1, h2⟩, ⟨h3, h4⟩, h5, h6⟩
  fin_cases c
  · simp [(FluxCT.rhs_eq3 hh dx F old).1, (FluxCT.rhs_eq3 hh dx G old').1, *]
  · simp [(FluxCT.rhs_eq3 hh dx F old).2.1, (FluxCT.rhs_eq3 hh dx G old').2.1, *]
  · simp [(FluxCT.rhs_eq3 hh dx F old).2.2, (FluxCT.rhs_eq3 hh dx G old').2.2, *]

/-! ### Layout -/

/-- **C120 (layout)**: in all four configurations the slots of the flux pack coincide with the slots of the reconstructed primitives under which
`FluxState` looks them up, their number fits the default size of the work arrays, and `nrecon` leaves room for pressure and `gamma1`. -/
theorem layout_aligned : ∀ mhd ye : Bool,
    slots (reconVars mhd ye) 0 "p.density" = slots (fluxVars mhd ye) 0 "c.density" ∧
    slots (reconVars mhd ye) 0 "p.velocity" = slots (fluxVars mhd ye) 0 "c.momentum" ∧
    slots (reconVars mhd ye) 0 "p.energy" = slots (fluxVars mhd ye) 0 "c.energy" ∧
    slots (reconVars mhd ye) 0 "p.bfield" = slots (fluxVars mhd ye) 0 "c.bfield" ∧
    slots (reconVars mhd ye) 0 "p.ye" = slots (fluxVars mhd ye) 0 "c.ye" ∧
    (fluxState mhd ye).ncons = size (fluxVars mhd ye) ∧ size (reconVars mhd ye) = (fluxState mhd ye).ncons + 2 ∧
    (fluxState mhd ye).ncons ≤ 9 ∧ (fluxState mhd ye).prs = (fluxState mhd ye).ncons ∧ (fluxState mhd ye).gm1 = (fluxState mhd ye).ncons + 1 := by
  decide

/-- name of the variable that owns slot `m`. -/
def owner : VarList → ℤ → ℤ → Option String
  | [], _, _ => none
  | (x, n) :: l, o, m => if o ≤ m ∧ m < o + n then some x else owner l (o + n) m

/-- **C120 (no slot is left unset)**: in all four configurations `prim_to_flux` assigns each of the slots `0 .. ncons-1` exactly once, and the
quantity it puts there belongs to the evolved variable that owns the slot. -/
theorem slots_written : ∀ mhd ye : Bool,
    ((written (fluxState mhd ye)).map Prod.fst).Nodup ∧
    (∀ x ∈ written (fluxState mhd ye), owner (fluxVars mhd ye) 0 x.1 = some x.2) ∧
    (∀ m ∈ List.range (fluxState mhd ye).ncons.toNat, (m : ℤ) ∈ (written (fluxState mhd ye)).map Prod.fst) ∧
    ((written (fluxState mhd ye)).length : ℤ) = (fluxState mhd ye).ncons := by
  decide

end Phoebus.FluxSweep
