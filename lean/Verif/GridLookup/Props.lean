import Mathlib.Algebra.Order.Floor.Ring
import Mathlib.Data.Rat.Floor
import Verif.GridLookup.Model

/-!
# C115: positions and geometry at cells, faces and corners
-/
namespace Phoebus.GridLookup
variable {K : Type*} [Field K] [LinearOrder K] [IsStrictOrderedRing K]

/-! ### Specification -/

/-- the location lies on the lower face of the cell in direction `d`. -/
def onFace : Loc → Fin 3 → Prop
  | .Cent, _ => False
  | .Face1, d => d = 0
  | .Face2, d => d = 1
  | .Face3, d => d = 2
  | .Corn, _ => True

instance (l : Loc) (d : Fin 3) : Decidable (onFace l d) := by cases l <;> unfold onFace <;> infer_instance

/-- the index in direction `d` of the triple `(k, j, i)`. -/
def idx (k j i : ℤ) (d : Fin 3) : ℤ := ![i, j, k] d

/-- a block of positive size. -/
structure Block.Ok (B : Block K) : Prop where
  size : ∀ d, B.lo d < B.hi d
  zones : ∀ d, 0 < B.nx d

/-- the interval of zone `n` (zero for the first interior zone, negative for ghosts) in direction `d`. -/
def zoneLo (B : Block K) (d : Fin 3) (n : ℤ) : K := B.lo d + (n : K) * ((B.hi d - B.lo d) / B.nx d)

/-! ### Positions -/

theorem coords_xf (B : Block K) (d : Fin 3) (i : ℤ) : B.coords.xf d i = zoneLo B d (i - B.ng d) := by
  simp only [Block.coords, Coords.xf, zoneLo]; push_cast; ring

theorem coords_xc (B : Block K) (d : Fin 3) (i : ℤ) :
    B.coords.xc d i = (zoneLo B d (i - B.ng d) + zoneLo B d (i - B.ng d + 1)) / 2 := by
  simp only [Block.coords, Coords.xc, zoneLo]; push_cast; ring

/-- **C115** component `d` of the position of a location is the lower face of the zone if the location lies on that face and the middle
of the zone otherwise; for every block, location and index triple. -/
theorem getX_spec (B : Block K) (loc : Loc) (k j i : ℤ) (d : Fin 3) :
    getX B.coords loc k j i d =
      let n := idx k j i d - B.ng d
      if onFace loc d then zoneLo B d n else (zoneLo B d n + zoneLo B d (n + 1)) / 2 := by
  have hd : d = 0 ∨ d = 1 ∨ d = 2 := by omega
  rcases hd with rfl | rfl | rfl <;> cases loc <;>
    simp [getX, onFace, idx, coords_xf, coords_xc]

/-- the zones `0 .. nx-1` tile the block: the first starts at its lower end and the last ends at its upper end. -/
theorem zone_ends (B : Block K) (hB : B.Ok) (d : Fin 3) : zoneLo B d 0 = B.lo d ∧ zoneLo B d (B.nx d) = B.hi d := by
  have : (B.nx d : K) ≠ 0 := by exact_mod_cast (hB.zones d).ne'
  constructor
  · simp [zoneLo]
  · simp only [zoneLo]; push_cast; field_simp; ring

theorem zone_step_pos (B : Block K) (hB : B.Ok) (d : Fin 3) : 0 < (B.hi d - B.lo d) / (B.nx d : K) :=
  div_pos (sub_pos.2 (hB.size d)) (by exact_mod_cast hB.zones d)

/-- zones are ordered. -/
theorem zone_lt (B : Block K) (hB : B.Ok) (d : Fin 3) (n n' : ℤ) : zoneLo B d n < zoneLo B d n' ↔ n < n' := by
  have h := zone_step_pos B hB d
  simp only [zoneLo, add_lt_add_iff_left]
  rw [mul_lt_mul_iff_left₀ h]
  exact_mod_cast Iff.rfl

/-- **C115** every point of a block lies in exactly one of its zones. -/
theorem zone_unique [FloorRing K] (B : Block K) (hB : B.Ok) (d : Fin 3) (x : K) (h0 : B.lo d ≤ x) (h1 : x < B.hi d) :
    ∃! n : ℤ, (0 ≤ n ∧ n < B.nx d) ∧ zoneLo B d n ≤ x ∧ x < zoneLo B d (n + 1) := by
  have h := zone_step_pos B hB d
  obtain ⟨e0, e1⟩ := zone_ends B hB d
  have char : ∀ n : ℤ, (zoneLo B d n ≤ x ∧ x < zoneLo B d (n + 1)) ↔ ⌊(x - B.lo d) / ((B.hi d - B.lo d) / B.nx d)⌋ = n := by
    intro n
    rw [Int.floor_eq_iff, le_div_iff₀ h, div_lt_iff₀ h]
    simp only [zoneLo]
    push_cast
    constructor
    · rintro ⟨a, b⟩; exact ⟨by linarith, by linarith⟩
    · rintro ⟨a, b⟩; exact ⟨by linarith, by linarith⟩
  refine ⟨⌊(x - B.lo d) / ((B.hi d - B.lo d) / B.nx d)⌋, ⟨?_, (char _).2 rfl⟩, fun n hn => ((char n).1 hn.2).symm⟩
  obtain ⟨a, b⟩ := (char _).2 rfl
  constructor
  · have : zoneLo B d 0 < zoneLo B d (⌊(x - B.lo d) / ((B.hi d - B.lo d) / B.nx d)⌋ + 1) := by rw [e0]; linarith
    rw [zone_lt B hB] at this; omega
  · have : zoneLo B d ⌊(x - B.lo d) / ((B.hi d - B.lo d) / B.nx d)⌋ < zoneLo B d (B.nx d) := by rw [e1]; linarith
    rw [zone_lt B hB] at this; exact this

/-- the centre of a zone lies strictly inside it. -/
theorem centre_inside (B : Block K) (hB : B.Ok) (k j i : ℤ) (d : Fin 3) :
    getX B.coords .Corn k j i d < getX B.coords .Cent k j i d ∧
    getX B.coords .Cent k j i d < getX B.coords .Corn (k + 1) (j + 1) (i + 1) d := by
  have h1 : ∀ d n, zoneLo B d n < zoneLo B d (n + 1) := fun d n => (zone_lt B hB d _ _).2 (by omega)
  have hidx : idx (k + 1) (j + 1) (i + 1) d = idx k j i d + 1 := by
    have hd : d = 0 ∨ d = 1 ∨ d = 2 := by omega
    rcases hd with rfl | rfl | rfl <;> rfl
  rw [getX_spec, getX_spec, getX_spec, hidx]
  have := h1 d (idx k j i d - B.ng d)
  dsimp only
  rw [if_pos (show onFace .Corn d from trivial), if_pos (show onFace .Corn d from trivial), if_neg (show ¬ onFace .Cent d from id)]
  rw [show idx k j i d + 1 - (B.ng d : ℤ) = idx k j i d - B.ng d + 1 by ring]
  constructor <;> linarith

/-! ### Neighbouring blocks -/

/-- `A` lies directly below `B` in direction `d`, at the same level and aligned in the other directions. -/
structure Below (A B : Block K) (d : Fin 3) : Prop where
  touch : A.hi d = B.lo d
  other : ∀ e, e ≠ d → A.lo e = B.lo e ∧ A.hi e = B.hi e
  zones : A.nx = B.nx
  ghosts : A.ng = B.ng
  width : A.hi d - A.lo d = B.hi d - B.lo d

/-- shift of an index in direction `d`. -/
def shiftIdx (d : Fin 3) (n : ℤ) (v : ℤ × ℤ × ℤ) : ℤ × ℤ × ℤ :=
  if d = 0 then (v.1, v.2.1, v.2.2 + n) else if d = 1 then (v.1, v.2.1 + n, v.2.2) else (v.1 + n, v.2.1, v.2.2)

/-- **C115** neighbouring blocks agree on every position they share, faces, centres and corners, interior and ghost: index `n` of the
upper block is index `n + nx` of the lower one. -/
theorem neighbour_positions (A B : Block K) (hA : A.Ok) (d : Fin 3) (h : Below A B d) (loc : Loc) (k j i : ℤ) :
    let v := shiftIdx d (A.nx d) (k, j, i)
    getX A.coords loc v.1 v.2.1 v.2.2 = getX B.coords loc k j i := by
  intro v
  have hz : ∀ n : ℤ, zoneLo A d (n + A.nx d) = zoneLo B d n := by
    intro n
    have : (B.nx d : K) ≠ 0 := by rw [← h.zones]; exact_mod_cast (hA.zones d).ne'
    simp only [zoneLo]
    rw [h.width, ← h.touch, h.zones]
    push_cast
    have hw := h.width
    field_simp
    linear_combination - (B.nx d : K) * hw - (B.nx d : K) * h.touch
  have ho : ∀ e, e ≠ d → ∀ n, zoneLo A e n = zoneLo B e n := by
    intro e he n
    obtain ⟨h1, h2⟩ := h.other e he
    simp only [zoneLo]; rw [h1, h2, h.zones]
  funext e
  rw [getX_spec, getX_spec]
  by_cases he : e = d
  · subst he
    have hi : idx v.1 v.2.1 v.2.2 e = idx k j i e + A.nx e := by
      have hd : e = 0 ∨ e = 1 ∨ e = 2 := by omega
      rcases hd with rfl | rfl | rfl <;> simp [v, shiftIdx, idx]
    simp only [hi, h.ghosts]
    rw [show idx k j i e + (A.nx e : ℤ) - (B.ng e : ℤ) = (idx k j i e - B.ng e) + A.nx e by ring, hz,
      show idx k j i e - (B.ng e : ℤ) + (A.nx e : ℤ) + 1 = (idx k j i e - B.ng e + 1) + A.nx e by ring, hz]
  · have hi : idx v.1 v.2.1 v.2.2 e = idx k j i e := by
      have hd : e = 0 ∨ e = 1 ∨ e = 2 := by omega
      have hd' : d = 0 ∨ d = 1 ∨ d = 2 := by omega
      rcases hd with rfl | rfl | rfl <;> rcases hd' with rfl | rfl | rfl <;> first | (exact absurd rfl he) | simp [v, shiftIdx, idx]
    simp only [hi, h.ghosts, ho e he]

/-- **C115** the geometry of an analytic system on a face shared by two blocks, and in ghost zones, is the same seen from both blocks:
for every system, time and location. -/
theorem neighbour_geometry {R : Type*} (X0 : K) (f : System K R) (A B : Block K) (hA : A.Ok) (d : Fin 3) (h : Below A B d)
    (loc : Loc) (k j i : ℤ) :
    let v := shiftIdx d (A.nx d) (k, j, i)
    analytic X0 f A.coords loc v.1 v.2.1 v.2.2 = analytic X0 f B.coords loc k j i := by
  intro v
  unfold analytic
  rw [neighbour_positions A B hA d h loc k j i]

/-- **C115** refinement: the faces of a block refined by two include every face of the coarse block (in the half it covers), so fine and
coarse fluxes live at the same positions. -/
theorem refined_faces (A F : Block K) (hA : A.Ok) (d : Fin 3) (up : Bool) (hz : F.nx d = A.nx d)
    (hlo : F.lo d = if up then (A.lo d + A.hi d) / 2 else A.lo d)
    (hhi : F.hi d = if up then A.hi d else (A.lo d + A.hi d) / 2) (heven : Even (A.nx d)) (n : ℤ) :
    F.coords.xf d (F.ng d + 2 * n) = A.coords.xf d (A.ng d + n + if up then (A.nx d : ℤ) / 2 else 0) := by
  rw [coords_xf, coords_xf]
  have : (A.nx d : K) ≠ 0 := by exact_mod_cast (hA.zones d).ne'
  obtain ⟨q, hq⟩ := heven
  have hq2 : (A.nx d : ℤ) / 2 = q := by omega
  have hqK : (A.nx d : K) = q + q := by exact_mod_cast hq
  have hq0 : (q : K) ≠ 0 := by intro h0; rw [hqK, h0, add_zero] at this; exact this rfl
  simp only [zoneLo, hz]
  rw [hlo, hhi]
  cases up
  · simp only [Bool.false_eq_true, if_false]; push_cast; field_simp; ring
  · simp only [if_true, hq2]
    push_cast
    rw [hqK]
    field_simp
    ring

/-! ### The mesh indexer -/

/-- **C115** a mesh container indexed by block agrees with the block's own indexer, for every block, location and index; a block number
outside the container has no position. -/
theorem mesh_agrees (bs : List (Block K)) (loc : Loc) (b : ℕ) (k j i : ℤ) :
    getXMesh (meshIndexer bs) loc b k j i = (bs[b]?).map fun B => getXb B.coords loc (b : ℤ) k j i := by
  unfold getXMesh meshIndexer getXb
  rw [List.getElem?_map, Option.map_map]
  rfl

/-- the geometry of the mesh container is that of the blocks. -/
theorem mesh_geometry {R : Type*} (X0 : K) (f : System K R) (bs : List (Block K)) (loc : Loc) (b : ℕ) (k j i : ℤ) :
    analyticMesh X0 f (meshIndexer bs) loc b k j i = (bs[b]?).map fun B => analytic X0 f B.coords loc k j i := by
  unfold analyticMesh
  rw [mesh_agrees, Option.map_map]
  rfl

/-- without a block number the mesh indexer always aborts; directions other than 1, 2, 3 abort, and the others give the centre. -/
theorem aborts (cs : List (Coords K)) (loc : Loc) (C : Coords K) (k j i dir : ℤ) :
    getXMeshNoBlock cs loc k j i = none ∧
    ((∃ x, getXv C i dir = some x) ↔ 1 ≤ dir ∧ dir ≤ 3) ∧
    (∀ d : Fin 3, getXv C i (d + 1) = some (C.xc d i)) := by
  refine ⟨rfl, ?_, fun d => ?_⟩
  · unfold getXv
    split_ifs with h1 h2 h3
    · subst h1; simp
    · subst h2; simp
    · subst h3; simp
    · constructor
      · rintro ⟨x, hx⟩; cases hx
      · omega
  · have hd : d = 0 ∨ d = 1 ∨ d = 2 := by omega
    rcases hd with rfl | rfl | rfl <;> simp [getXv]

/-- systems built without a time are evaluated at time zero. -/
theorem default_time {R : Type*} (f : System K R) (C : Coords K) (loc : Loc) (k j i : ℤ) :
    analytic defaultTime f C loc k j i = f 0 (getX C loc k j i) := rfl

/-! ### The hypotheses are met -/

/-- two unit blocks of eight zones with two ghosts, side by side. -/
def exA : Block ℚ := ⟨fun _ => 0, fun _ => 1, fun _ => 8, fun _ => 2⟩
def exB : Block ℚ := ⟨fun d => if d = 0 then 1 else 0, fun d => if d = 0 then 2 else 1, fun _ => 8, fun _ => 2⟩

theorem exA_ok : exA.Ok := ⟨fun _ => by norm_num [exA], fun _ => by simp [exA]⟩
theorem ex_below : Below exA exB 0 := ⟨rfl, fun e he => by simp [exA, exB, he], rfl, rfl, by norm_num [exA, exB]⟩

/-- the first face of the second block is the last face of the first. -/
theorem ex_face : getX exA.coords .Face1 2 2 10 = getX exB.coords .Face1 2 2 2 ∧ getX exA.coords .Face1 2 2 10 0 = 1 := by
  refine ⟨by simpa [shiftIdx, exA] using neighbour_positions exA exB exA_ok 0 ex_below .Face1 2 2 2, ?_⟩
  norm_num [getX, Block.coords, Coords.xf, exA]

end Phoebus.GridLookup
