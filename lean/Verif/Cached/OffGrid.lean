import Verif.Cached.OffGridModel
import Verif.Cached.Props
import Verif.Interp.Props

/-!
# C114: cached geometry at arbitrary positions
-/
namespace Phoebus.Cached
open GeomUtils
variable {K : Type*} [Field K] [LinearOrder K] [IsStrictOrderedRing K] [FloorRing K] {td : Bool}

/-! ### Specification -/

/-- centre of zone `n` of a direction. -/
def centre (A : Interp.Axis K) (n : ℤ) : K := A.x0 + (n : K) * A.dx

/-- relative size of the regulariser. -/
def theta (small : K) (A : Interp.Axis K) : K := small / (A.dx + small)

/-- lower support point of the interpolation. -/
def lower (small : K) (A : Interp.Axis K) (x : K) : K := centre A (Interp.index small A x)

/-- the cells of block `b`. -/
def InBlock (ax : ℤ → Fin 3 → Interp.Axis K) (c : Cell) : Prop :=
  (0 ≤ c.k ∧ c.k < (ax c.b 2).nx) ∧ (0 ≤ c.j ∧ c.j < (ax c.b 1).nx) ∧ (0 ≤ c.i ∧ c.i < (ax c.b 0).nx)

/-- extents the framework allows: at least two zones in the first direction, and a third direction only with a second one. -/
def GoodExtent (ax : ℤ → Fin 3 → Interp.Axis K) (b : ℤ) : Prop :=
  2 ≤ (ax b 0).nx ∧ 1 ≤ (ax b 1).nx ∧ 1 ≤ (ax b 2).nx ∧ (1 < (ax b 2).nx → 1 < (ax b 1).nx)

/-- a quantity stored in block `b` that is an affine function `a + sum s_d X_d` of the cell centres. -/
def AffineOn (ax : ℤ → Fin 3 → Interp.Axis K) (b : ℤ) (f : Cell → K) (a : K) (s : Fin 3 → K) : Prop :=
  ∀ k j i, InBlock ax ⟨b, k, j, i⟩ → f ⟨b, k, j, i⟩ = a + s 0 * centre (ax b 0) i + s 1 * centre (ax b 1) j + s 2 * centre (ax b 2) k

/-! ### One direction -/

theorem do2D_nested (small : K) (A1 A2 : Interp.Axis K) (x1 x2 : K) (p : ℤ → ℤ → K) :
    Interp.do2D small A1 A2 x1 x2 p = Interp.do1D small A2 x2 fun j => Interp.do1D small A1 x1 (p j) := rfl

theorem do3D_nested (small : K) (A1 A2 A3 : Interp.Axis K) (x1 x2 x3 : K) (p : ℤ → ℤ → ℤ → K) :
    Interp.do3D small A1 A2 A3 x1 x2 x3 p =
      Interp.do1D small A3 x3 fun k => Interp.do1D small A2 x2 fun j => Interp.do1D small A1 x1 (p k j) := rfl

/-- only in-range values are used. -/
theorem do1D_congr (small : K) (A : Interp.Axis K) (x : K) (p p' : ℤ → K) (hn : 2 ≤ A.nx)
    (h : ∀ i, 0 ≤ i → i < A.nx → p i = p' i) : Interp.do1D small A x p = Interp.do1D small A x p' := by
  have r := Interp.index_in_range small A x hn
  unfold Interp.do1D
  rw [h _ r.1 (by omega), h _ (by omega) (by omega)]

/-- at the centre of zone `n` the support is `n` itself, reached with weight one up to the regulariser. -/
theorem do1D_at_centre (small : K) (A : Interp.Axis K) (n : ℤ) (p : ℤ → K) (hs : 0 < small) (hd : 0 < A.dx) (hn : 2 ≤ A.nx)
    (h0 : 0 ≤ n) (h1 : n ≤ A.nx - 1) (hb : (n : K) * small < A.dx + small) :
    Interp.do1D small A (centre A n) p = if n = 0 then p 0 else theta small A * p (n - 1) + (1 - theta small A) * p n := by
  have hp : 0 < A.dx + small := by linarith
  have hl : A.x0 ≤ centre A n := by
    have : (0 : K) ≤ n := by exact_mod_cast h0
    unfold centre; nlinarith
  have hi := Interp.index_eq small A (centre A n) hs hd hl
  have hr : (centre A n - A.x0) / (A.dx + small) = (n : K) * A.dx / (A.dx + small) := by unfold centre; ring
  rw [hr] at hi
  by_cases hn0 : n = 0
  · subst hn0
    simp only [Int.cast_zero, zero_mul, zero_div, Int.floor_zero] at hi
    have hi0 : Interp.index small A (centre A 0) = 0 := by rw [hi]; omega
    have : Interp.w1 small A (centre A 0) = 0 := by
      rw [Interp.w1_eq _ _ _ hd, hi0]; simp [centre]
    rw [if_pos rfl]
    unfold Interp.do1D Interp.w0
    rw [this, hi0]; ring
  · have hf : ⌊(n : K) * A.dx / (A.dx + small)⌋ = n - 1 := by
      rw [Int.floor_eq_iff]
      push_cast
      constructor
      · rw [le_div_iff₀ hp]; nlinarith
      · rw [sub_add_cancel, div_lt_iff₀ hp]
        have : (0 : K) < n := by exact_mod_cast (by omega : 0 < n)
        nlinarith [mul_pos this hs]
    rw [hf] at hi
    have hi0 : Interp.index small A (centre A n) = n - 1 := by rw [hi]; omega
    have hw : Interp.w1 small A (centre A n) = 1 - theta small A := by
      rw [Interp.w1_eq _ _ _ hd, hi0]
      unfold centre theta
      push_cast
      field_simp
      ring
    rw [if_neg hn0]
    unfold Interp.do1D Interp.w0
    rw [hw, hi0, sub_add_cancel]; ring

theorem theta_range (small : K) (A : Interp.Axis K) (hs : 0 < small) (hd : 0 < A.dx) :
    0 < theta small A ∧ theta small A < 1 := by
  have hp : 0 < A.dx + small := by linarith
  exact ⟨div_pos hs hp, (div_lt_one hp).2 (by linarith)⟩

/-- nested estimate at a centre. -/
theorem do1D_centre_bound (small : K) (A : Interp.Axis K) (n : ℤ) (p : ℤ → K) (c e M : K) (hs : 0 < small) (hd : 0 < A.dx)
    (hn : 2 ≤ A.nx) (h0 : 0 ≤ n) (h1 : n ≤ A.nx - 1) (hb : (n : K) * small < A.dx + small) (he : |p n - c| ≤ e)
    (hM : ∀ i, 0 ≤ i → i < A.nx → |p i - c| ≤ M) :
    |Interp.do1D small A (centre A n) p - c| ≤ e + theta small A * M ∧ |Interp.do1D small A (centre A n) p - c| ≤ M := by
  obtain ⟨t0, t1⟩ := theta_range small A hs hd
  have hMn := hM n h0 (by omega)
  have hM0 : 0 ≤ M := (abs_nonneg _).trans hMn
  rw [do1D_at_centre small A n p hs hd hn h0 h1 hb]
  split_ifs with h
  · subst h
    exact ⟨he.trans (by nlinarith), hMn⟩
  · have hm := hM (n - 1) (by omega) (by omega)
    have e1 : theta small A * p (n - 1) + (1 - theta small A) * p n - c =
        theta small A * (p (n - 1) - c) + (1 - theta small A) * (p n - c) := by ring
    rw [e1]
    have h2 := abs_add_le (theta small A * (p (n - 1) - c)) ((1 - theta small A) * (p n - c))
    rw [abs_mul, abs_mul, abs_of_pos t0, abs_of_pos (by linarith : 0 < 1 - theta small A)] at h2
    have e0 : 0 ≤ e := (abs_nonneg _).trans he
    constructor
    · refine h2.trans ?_
      nlinarith [mul_le_mul_of_nonneg_left hm t0.le, mul_le_mul_of_nonneg_left he (by linarith : (0:K) ≤ 1 - theta small A)]
    · refine h2.trans ?_
      nlinarith [mul_le_mul_of_nonneg_left hm t0.le, mul_le_mul_of_nonneg_left hMn (by linarith : (0:K) ≤ 1 - theta small A)]

/-- affine data in one direction, with the exact defect. -/
theorem do1D_affine (small : K) (A : Interp.Axis K) (x a s : K) (hs : 0 ≤ small) (hd : 0 < A.dx) :
    Interp.do1D small A x (fun i => a + s * centre A i) = a + s * x - s * (x - lower small A x) * theta small A := by
  have hp : 0 < A.dx + small := by linarith
  unfold Interp.do1D Interp.w0 theta lower
  rw [Interp.w1_eq _ _ _ hd]
  unfold centre
  push_cast
  field_simp
  ring

/-! ### Three directions -/

section
variable (L : Layout td) (small : K) (ax : ℤ → Fin 3 → Interp.Axis K) (m : Mem K)

/-- the position at which direction `d` is effectively evaluated: collapsed directions are read at their only zone. -/
def effX (b : ℤ) (X : Fin 3 → K) (d : Fin 3) : K :=
  if d = 0 then X 0
  else if 1 < (ax b 2).nx then X d
  else if d = 1 ∧ 1 < (ax b 1).nx then X 1
  else centre (ax b d) 0

/-- only cells of the block are read. -/
theorem offgrid_local (m' : Mem K) (b : ℤ) (hg : GoodExtent ax b) (X : Fin 3 → K) (n : ℕ)
    (h : ∀ c : Cell, c.b = b → InBlock ax c → m c n = m' c n) : readAt small ax m b X n = readAt small ax m' b X n := by
  obtain ⟨g1, g2, g3, g4⟩ := hg
  have row : ∀ k j, 0 ≤ k → k < (ax b 2).nx → 0 ≤ j → j < (ax b 1).nx →
      Interp.do1D small (ax b 0) (X 0) (fun i => m ⟨b, k, j, i⟩ n) = Interp.do1D small (ax b 0) (X 0) (fun i => m' ⟨b, k, j, i⟩ n) :=
    fun k j k0 k1 j0 j1 => do1D_congr _ _ _ _ _ g1 fun i i0 i1 => h _ rfl ⟨⟨k0, k1⟩, ⟨j0, j1⟩, ⟨i0, i1⟩⟩
  unfold readAt Interp.doInterp
  simp only [gt_iff_lt]
  by_cases h3 : 1 < (ax b 2).nx
  · rw [if_pos h3, if_pos h3, do3D_nested, do3D_nested]
    refine do1D_congr _ _ _ _ _ (by omega) fun k k0 k1 => do1D_congr _ _ _ _ _ (by have := g4 h3; omega) fun j j0 j1 => ?_
    exact row k j k0 k1 j0 j1
  · rw [if_neg h3, if_neg h3]
    by_cases h2 : 1 < (ax b 1).nx
    · rw [if_pos h2, if_pos h2, do2D_nested, do2D_nested]
      exact do1D_congr _ _ _ _ _ (by omega) fun j j0 j1 => row 0 j le_rfl (by omega) j0 j1
    · rw [if_neg h2, if_neg h2]
      exact row 0 0 le_rfl (by omega) le_rfl (by omega)

/-- **C114** a stored quantity that is affine in the cell centres is returned exactly, up to the regulariser of the division: the
defect is explicit and at most `sum |slope_d| |X_d - lower_d| small/(dx_d+small)`.  In collapsed directions the value of the only zone
is used.  This holds for every position, every block and every grid.

Partial form of C114. Full property: Asked for the geometry at a point that is not a zone centre, the cached system
returns a value interpolated from the neighbouring cached zones of the same block: exact for fields linear in the
coordinates, exact at zone centres, keeping symmetry, the torsion-free connection and axisymmetry. Missing: Every
reader but the inverse 4-metric (lapse of block 0) and the coordinates (shifted), both with witnesses. -/
theorem offgrid_affine_partial (hs : 0 ≤ small) (b : ℤ) (hg : GoodExtent ax b) (hd : ∀ d, 0 < (ax b d).dx) (X : Fin 3 → K) (n : ℕ) (a : K) (s : Fin 3 → K)
    (h : AffineOn ax b (fun c => m c n) a s) :
    |readAt small ax m b X n - (a + ∑ d, s d * effX ax b X d)| ≤
      ∑ d, |s d| * |X d - lower small (ax b d) (X d)| * theta small (ax b d) := by
  have ht : ∀ d, 0 ≤ theta small (ax b d) := fun d => div_nonneg hs (by linarith [hd d])
  rw [offgrid_local small ax m (fun c _ => a + s 0 * centre (ax b 0) c.i + s 1 * centre (ax b 1) c.j + s 2 * centre (ax b 2) c.k)
    b hg X n (by rintro ⟨b', k, j, i⟩ rfl hc; exact h k j i hc)]
  clear h
  have key : ∃ t1 t2 t3 : K, (t1 = 1) ∧ (t2 = 0 ∨ t2 = 1) ∧ (t3 = 0 ∨ t3 = 1) ∧
      readAt small ax (fun c _ => a + s 0 * centre (ax b 0) c.i + s 1 * centre (ax b 1) c.j + s 2 * centre (ax b 2) c.k) b X n - (a + ∑ d, s d * effX ax b X d) =
        - (t1 * (s 0 * (X 0 - lower small (ax b 0) (X 0)) * theta small (ax b 0))
          + t2 * (s 1 * (X 1 - lower small (ax b 1) (X 1)) * theta small (ax b 1))
          + t3 * (s 2 * (X 2 - lower small (ax b 2) (X 2)) * theta small (ax b 2))) := by
    unfold readAt Interp.doInterp
    simp only [Fin.sum_univ_three, effX, gt_iff_lt]
    have e1 : ∀ k j : ℤ, (fun i : ℤ => a + s 0 * centre (ax b 0) i + s 1 * centre (ax b 1) j + s 2 * centre (ax b 2) k) =
        fun i => (a + s 1 * centre (ax b 1) j + s 2 * centre (ax b 2) k) + s 0 * centre (ax b 0) i := by
      intro k j; funext i; ring
    by_cases h3 : 1 < (ax b 2).nx
    · refine ⟨1, 1, 1, rfl, .inr rfl, .inr rfl, ?_⟩
      rw [if_pos h3, do3D_nested]
      simp only [e1, do1D_affine small _ _ _ _ hs (hd 0)]
      have e2 : ∀ k : ℤ, (fun j => a + s 1 * centre (ax b 1) j + s 2 * centre (ax b 2) k + s 0 * X 0 -
          s 0 * (X 0 - lower small (ax b 0) (X 0)) * theta small (ax b 0)) =
          fun j => (a + s 2 * centre (ax b 2) k + s 0 * X 0 -
          s 0 * (X 0 - lower small (ax b 0) (X 0)) * theta small (ax b 0)) + s 1 * centre (ax b 1) j := by
        intro k; funext j; ring
      simp only [e2, do1D_affine small _ _ _ _ hs (hd 1)]
      have e3 : (fun k => a + s 2 * centre (ax b 2) k + s 0 * X 0 -
          s 0 * (X 0 - lower small (ax b 0) (X 0)) * theta small (ax b 0) + s 1 * X 1 -
          s 1 * (X 1 - lower small (ax b 1) (X 1)) * theta small (ax b 1)) =
          fun k => (a + s 0 * X 0 -
          s 0 * (X 0 - lower small (ax b 0) (X 0)) * theta small (ax b 0) + s 1 * X 1 -
          s 1 * (X 1 - lower small (ax b 1) (X 1)) * theta small (ax b 1)) + s 2 * centre (ax b 2) k := by
        funext k; ring
      rw [e3, do1D_affine small _ _ _ _ hs (hd 2)]
      simp only [h3, if_true, Fin.reduceEq, if_false]
      ring
    · by_cases h2 : 1 < (ax b 1).nx
      · refine ⟨1, 1, 0, rfl, .inr rfl, .inl rfl, ?_⟩
        rw [if_neg h3, if_pos h2, do2D_nested]
        simp only [e1, do1D_affine small _ _ _ _ hs (hd 0)]
        have e2 : (fun j => a + s 1 * centre (ax b 1) j + s 2 * centre (ax b 2) 0 + s 0 * X 0 -
            s 0 * (X 0 - lower small (ax b 0) (X 0)) * theta small (ax b 0)) =
            fun j => (a + s 2 * centre (ax b 2) 0 + s 0 * X 0 -
            s 0 * (X 0 - lower small (ax b 0) (X 0)) * theta small (ax b 0)) + s 1 * centre (ax b 1) j := by
          funext j; ring
        rw [e2, do1D_affine small _ _ _ _ hs (hd 1)]
        simp only [h3, h2, if_true, Fin.reduceEq, if_false, and_true, false_and]
        ring
      · refine ⟨1, 0, 0, rfl, .inl rfl, .inl rfl, ?_⟩
        rw [if_neg h3, if_neg h2]
        simp only [e1, do1D_affine small _ _ _ _ hs (hd 0)]
        simp only [h3, h2, if_true, Fin.reduceEq, if_false, and_false]
        ring
  obtain ⟨t1, t2, t3, rfl, h2, h3, e⟩ := key
  rw [e, abs_neg, Fin.sum_univ_three]
  have ab : ∀ (t : K) (d : Fin 3), (t = 0 ∨ t = 1) → |t * (s d * (X d - lower small (ax b d) (X d)) * theta small (ax b d))| ≤
      |s d| * |X d - lower small (ax b d) (X d)| * theta small (ax b d) := by
    intro t d ht'
    have p : 0 ≤ |s d| * |X d - lower small (ax b d) (X d)| * theta small (ax b d) := by
      have := ht d; positivity
    rcases ht' with rfl | rfl
    · simpa using p
    · rw [one_mul, abs_mul, abs_mul, abs_of_nonneg (ht d)]
  refine (abs_add_le _ _).trans (add_le_add ((abs_add_le _ _).trans (add_le_add ?_ ?_)) ?_)
  · exact ab 1 0 (.inr rfl)
  · exact ab t2 1 h2
  · exact ab t3 2 h3

/-- **C114** at a cell centre the interpolation returns the stored value up to the regulariser: the difference is at most
`(sum of small/(dx+small)) * M` where `M` bounds the variation of the quantity over the block (three dimensions). -/
theorem offgrid_centre (hs : 0 < small) (c : Cell) (hd : ∀ d, 0 < (ax c.b d).dx) (hn : ∀ d, 2 ≤ (ax c.b d).nx)
    (hi : 0 ≤ c.i ∧ c.i ≤ (ax c.b 0).nx - 1) (hj : 0 ≤ c.j ∧ c.j ≤ (ax c.b 1).nx - 1) (hk : 0 ≤ c.k ∧ c.k ≤ (ax c.b 2).nx - 1)
    (hbi : (c.i : K) * small < (ax c.b 0).dx + small) (hbj : (c.j : K) * small < (ax c.b 1).dx + small)
    (hbk : (c.k : K) * small < (ax c.b 2).dx + small) (n : ℕ) (M : K)
    (hM : ∀ k j i, 0 ≤ k → k < (ax c.b 2).nx → 0 ≤ j → j < (ax c.b 1).nx → 0 ≤ i → i < (ax c.b 0).nx →
      |m ⟨c.b, k, j, i⟩ n - m c n| ≤ M) :
    |readAt small ax m c.b ![centre (ax c.b 0) c.i, centre (ax c.b 1) c.j, centre (ax c.b 2) c.k] n - m c n| ≤
      (∑ d, theta small (ax c.b d)) * M := by
  unfold readAt Interp.doInterp
  rw [if_pos (by have := hn 2; omega), do3D_nested, Fin.sum_univ_three]
  simp only [Matrix.cons_val_zero, Matrix.cons_val_one, Matrix.cons_val_two, Matrix.tail_cons, Matrix.head_cons]
  have row : ∀ k j, 0 ≤ k → k < (ax c.b 2).nx → 0 ≤ j → j < (ax c.b 1).nx →
      |Interp.do1D small (ax c.b 0) (centre (ax c.b 0) c.i) (fun i => m ⟨c.b, k, j, i⟩ n) - m c n| ≤ M := fun k j hk0 hk1 hj0 hj1 =>
    (do1D_centre_bound small _ c.i (fun i => m ⟨c.b, k, j, i⟩ n) (m c n) M M hs (hd 0) (hn 0) hi.1 hi.2 hbi
      (hM k j c.i hk0 hk1 hj0 hj1 hi.1 (by omega)) (fun i a b => hM k j i hk0 hk1 hj0 hj1 a b)).2
  have row0 := (do1D_centre_bound small _ c.i (fun i => m ⟨c.b, c.k, c.j, i⟩ n) (m c n) 0 M hs (hd 0) (hn 0) hi.1 hi.2 hbi
      (by simp) (fun i a b => hM c.k c.j i hk.1 (by omega) hj.1 (by omega) a b)).1
  have pl : ∀ k, 0 ≤ k → k < (ax c.b 2).nx → |Interp.do1D small (ax c.b 1) (centre (ax c.b 1) c.j)
      (fun j => Interp.do1D small (ax c.b 0) (centre (ax c.b 0) c.i) (fun i => m ⟨c.b, k, j, i⟩ n)) - m c n| ≤ M :=
    fun k hk0 hk1 => (do1D_centre_bound small _ c.j _ (m c n) M M hs (hd 1) (hn 1) hj.1 hj.2 hbj
      (row k c.j hk0 hk1 hj.1 (by omega)) (fun j a b => row k j hk0 hk1 a b)).2
  have pl0 := (do1D_centre_bound small (ax c.b 1) c.j
      (fun j => Interp.do1D small (ax c.b 0) (centre (ax c.b 0) c.i) (fun i => m ⟨c.b, c.k, j, i⟩ n)) (m c n) _ M hs (hd 1) (hn 1)
      hj.1 hj.2 hbj row0 (fun j a b => row c.k j hk.1 (by omega) a b)).1
  have v := (do1D_centre_bound small (ax c.b 2) c.k
      (fun k => Interp.do1D small (ax c.b 1) (centre (ax c.b 1) c.j)
        (fun j => Interp.do1D small (ax c.b 0) (centre (ax c.b 0) c.i) (fun i => m ⟨c.b, k, j, i⟩ n))) (m c n) _ M hs (hd 2) (hn 2)
      hk.1 hk.2 hbk pl0 (fun k a b => pl k a b)).1
  refine v.trans (le_of_eq ?_)
  ring

/-- a quantity uniform over the block is returned exactly everywhere. -/
theorem offgrid_uniform (b : ℤ) (hg : GoodExtent ax b) (X : Fin 3 → K) (n : ℕ) (v : K)
    (h : ∀ c : Cell, c.b = b → InBlock ax c → m c n = v) : readAt small ax m b X n = v := by
  rw [offgrid_local small ax m (fun _ _ => v) b hg X n h]
  unfold readAt
  exact (Interp.interp_constants small _ _ _ _ _ _ v).2.2.2

/-! ### The readers -/

/-- symmetry of the metrics returned off the grid, whatever is stored. -/
theorem offgrid_symmetric (b : ℤ) (X : Fin 3 → K) : (∀ p q, metric4At L small ax m b X p q = metric4At L small ax m b X q p) ∧
    (∀ p q, metricAt L small ax m b X p q = metricAt L small ax m b X q p) ∧
    (∀ p q, metricInverseAt L small ax m b X p q = metricInverseAt L small ax m b X q p) ∧
    (∀ p q s, dgAt L small ax m b X p q s = dgAt L small ax m b X q p s) := by
  refine ⟨fun p q => ?_, fun p q => ?_, fun p q => ?_, fun p q s => ?_⟩
  · unfold metric4At; rw [flatten2_symm]
  · unfold metricAt; rw [flatten2_symm]
  · unfold metricInverseAt; rw [flatten2_symm]
  · unfold dgAt; rw [flatten2_symm]

/-- the connection returned off the grid is torsion free in its last two indices. -/
theorem offgrid_torsion_free (b : ℤ) (X : Fin 3 → K) (p q r : Fin 4) :
    connectionAt L small ax m b X p q r = connectionAt L small ax m b X p r q := by
  have h := (offgrid_symmetric L small ax m b X).2.2.2
  unfold connectionAt connection
  rw [h q r p]
  ring

end

/-! ### After the cache was filled -/

section Filled
variable (L : Layout td) (s : System K) (small : K) (width : ℤ → Fin 3 → K) (doFD axi : Bool) (S : Sched) (G : Grid) (m : Mem K)
  (ax : ℤ → Fin 3 → Interp.Axis K)

/-- the cells the interpolation reads are cells that were filled. -/
def Covers (G : Grid) (axi : Bool) (ax : ℤ → Fin 3 → Interp.Axis K) : Prop :=
  ∀ c, 0 ≤ c.b → c.b < G.nb → InBlock ax c → G.dom axi .Cent c

/-- **C114** each reader uses the component that was stored for it.  For every filled cache (any schedule, any previous contents) whose
system is affine in the cell centres of block `b`, the scalar, vector and tensor readers return the system's affine function at the
given position, within the explicit bound of the regulariser, whatever the other blocks hold. -/
theorem offgrid_system (hS : S.Ok G axi) (hcov : Covers G axi ax) (b : ℤ) (hb : 0 ≤ b ∧ b < G.nb) (hg : GoodExtent ax b)
    (hs : 0 ≤ small) (hd : ∀ d, 0 < (ax b d).dx) (X : Fin 3 → K)
    (hsym : ∀ loc c p q, s.metric4 loc c p q = s.metric4 loc c q p) (hsymi : ∀ loc c p q, s.gamInv loc c p q = s.gamInv loc c q p)
    (f : Fin 3 → K) (a : K) :
    let m' := setCached L s small width doFD S m
    let bound := ∑ d, |f d| * |X d - lower small (ax b d) (X d)| * theta small (ax b d)
    let val := a + ∑ d, f d * effX ax b X d
    (AffineOn ax b (s.lapse .Cent) a f → |lapseAt L small ax m' b X - val| ≤ bound) ∧
    (AffineOn ax b (s.detGamma .Cent) a f → |detGammaAt L small ax m' b X - val| ≤ bound) ∧
    (∀ d, AffineOn ax b (fun c => s.shift .Cent c d) a f → |shiftAt L small ax m' b X d - val| ≤ bound) ∧
    (∀ p q, AffineOn ax b (fun c => s.metric4 .Cent c p q) a f → |metric4At L small ax m' b X p q - val| ≤ bound) ∧
    (∀ p q : Fin 3, AffineOn ax b (fun c => s.metric4 .Cent c p.succ q.succ) a f → |metricAt L small ax m' b X p q - val| ≤ bound) ∧
    (∀ p q, AffineOn ax b (fun c => s.gamInv .Cent c p q) a f → |metricInverseAt L small ax m' b X p q - val| ≤ bound) := by
  intro m' bound val
  have fill : ∀ (n : ℕ) (h : Cell → K), (∀ c, G.dom axi .Cent c → m' c n = h c) → AffineOn ax b h a f →
      |readAt small ax m' b X n - val| ≤ bound := by
    intro n h e ha
    refine offgrid_affine_partial small ax m' hs b hg hd X n a f ?_
    intro k j i hc
    simp only
    rw [e _ (hcov _ hb.1 hb.2 hc)]
    exact ha k j i hc
  have mem : ∀ c, G.dom axi .Cent c → c ∈ S.loc .Cent := fun c h => (hS.loc .Cent c).2 h
  have hm4 : ∀ p q c, G.dom axi .Cent c → m' c (L.base (.gcov .Cent) + flatten2 p q) = s.metric4 .Cent c p q := by
    intro p q c hc
    refine setCached_loc L s small width doFD S m .Cent (by decide) _ (mem c hc) (.gcov .Cent) rfl _
      (flatten2_lt 4 p q p.isLt q.isLt) _ ?_ ?_
    · rintro y ⟨_, p', q', h, rfl⟩
      rcases (flatten2_inj p q p' q').1 h with ⟨rfl, rfl⟩ | ⟨rfl, rfl⟩
      · rfl
      · exact hsym _ _ _ _
    · rcases le_total p q with h | h
      · refine ⟨⟨c, _, s.metric4 .Cent c p q⟩, ?_, rfl⟩
        simp only [lamb, List.mem_append, List.mem_map]
        exact .inl (.inr ⟨(p, q), (mem_symPairs4 _).2 h, rfl⟩)
      · refine ⟨⟨c, L.base (.gcov .Cent) + flatten2 q p, s.metric4 .Cent c q p⟩, ?_, by rw [flatten2_symm]⟩
        simp only [lamb, List.mem_append, List.mem_map]
        exact .inl (.inr ⟨(q, p), (mem_symPairs4 _).2 h, rfl⟩)
  refine ⟨fill _ _ fun c hc => ?_, fill _ _ fun c hc => ?_, fun d => fill _ _ fun c hc => ?_, fun p q => fill _ _ (hm4 p q),
    fun p q => fill _ _ (hm4 p.succ q.succ), fun p q => fill _ _ fun c hc => ?_⟩
  · refine setCached_loc L s small width doFD S m .Cent (by decide) _ (mem c hc) (.alpha .Cent) rfl 0 (by simp [Var.size]) _
      (fun y h => h.2) ⟨⟨c, L.base (.alpha .Cent), s.lapse .Cent c⟩, ?_, rfl⟩
    simp [lamb]
  · refine setCached_loc L s small width doFD S m .Cent (by decide) _ (mem c hc) (.detgam .Cent) rfl 0 (by simp [Var.size]) _
      (fun y h => h.2) ⟨⟨c, L.base (.detgam .Cent), s.detGamma .Cent c⟩, ?_, rfl⟩
    simp [lamb]
  · refine setCached_loc L s small width doFD S m .Cent (by decide) _ (mem c hc) (.bcon .Cent) rfl d d.isLt _ ?_
      ⟨⟨c, L.base (.bcon .Cent) + d, s.shift .Cent c d⟩, ?_, rfl⟩
    · rintro y ⟨_, d', h, rfl⟩
      rw [Fin.ext h]
    · simp only [lamb, List.mem_append, List.mem_map]
      exact .inl (.inl (.inr ⟨d, List.mem_finRange d, rfl⟩))
  · refine setCached_loc L s small width doFD S m .Cent (by decide) _ (mem c hc) (.gamcon .Cent) rfl _
      (flatten2_lt 3 p.castSucc q.castSucc (by simp) (by simp)) _ ?_ ?_
    · rintro y ⟨_, p', q', h, rfl⟩
      rcases (flatten2_inj p.castSucc q.castSucc p'.castSucc q'.castSucc).1 h with ⟨h1, h2⟩ | ⟨h1, h2⟩
      · rw [Fin.castSucc_inj.1 h1, Fin.castSucc_inj.1 h2]
      · rw [Fin.castSucc_inj.1 h1, Fin.castSucc_inj.1 h2]; exact hsymi _ _ _ _
    · rcases le_total p q with h | h
      · refine ⟨⟨c, _, s.gamInv .Cent c p q⟩, ?_, rfl⟩
        simp only [lamb, List.mem_append, List.mem_map]
        exact .inr ⟨(p, q), (mem_symPairs3 _).2 h, rfl⟩
      · refine ⟨⟨c, L.base (.gamcon .Cent) + flatten2 q.castSucc p.castSucc, s.gamInv .Cent c q p⟩, ?_, by rw [flatten2_symm]⟩
        simp only [lamb, List.mem_append, List.mem_map]
        exact .inr ⟨(q, p), (mem_symPairs3 _).2 h, rfl⟩

/-- contents of the derivative variables of a filled cell (analytic derivatives). -/
theorem stored_derivs (hsym : ∀ c p q sg, s.dg c p q sg = s.dg c q p sg) (c : Cell) (hmem : c ∈ S.deriv) (p q sg : Fin 4) (ho : offset td ≤ (sg : ℕ)) :
    setCached L s small width false S m c (nvarDeriv td * flatten2 p q + L.base .dg + sg - offset td) = s.dg c p q sg ∧
    setCached L s small width false S m c (L.base .dalpha + sg - offset td) = s.gradLnAlpha c sg := by
  constructor
  · rw [show nvarDeriv td * flatten2 p q + L.base .dg + sg - offset td
      = L.base .dg + (nvarDeriv td * flatten2 p q + (sg - offset td)) by omega]
    refine setCached_deriv_analytic L s small width S m _ hmem .dg (.inr rfl) _
      (slot_lt td p q _ (sub_offset_lt td sg ho)) false (by simp) _ ?_ ?_
    · rintro y ⟨p', q', sg', h1, h2, rfl⟩
      obtain ⟨h3, h4⟩ := slot_inj td _ _ _ _ _ _ (sub_offset_lt td sg ho) (sub_offset_lt td sg' h1) h2
      obtain rfl : sg = sg' := Fin.ext (by omega)
      rcases (flatten2_inj p q p' q').1 h3 with ⟨rfl, rfl⟩ | ⟨rfl, rfl⟩
      · rfl
      · exact hsym _ _ _ _
    · rcases le_total p q with h | h
      · refine ⟨⟨c, L.base .dg + nvarDeriv td * flatten2 p q + sg - offset td, s.dg c p q sg⟩, ?_,
          by simp only; omega⟩
        simp only [lambDerivs, List.mem_append, List.mem_flatMap, List.mem_map, mem_sigmas]
        exact .inr ⟨sg, ho, (p, q), (mem_symPairs4 _).2 h, rfl⟩
      · refine ⟨⟨c, L.base .dg + nvarDeriv td * flatten2 q p + sg - offset td, s.dg c q p sg⟩, ?_,
          by simp only; rw [flatten2_symm q p]; omega⟩
        simp only [lambDerivs, List.mem_append, List.mem_flatMap, List.mem_map, mem_sigmas]
        exact .inr ⟨sg, ho, (q, p), (mem_symPairs4 _).2 h, rfl⟩
  · rw [show L.base .dalpha + sg - offset td = L.base .dalpha + (sg - offset td) by omega]
    refine setCached_deriv_analytic L s small width S m _ hmem .dalpha (.inl rfl) _
      (sub_offset_lt td sg ho) false (by simp) _ ?_ ?_
    · rintro y ⟨d, h1, h2, rfl⟩
      obtain rfl : sg = d := Fin.ext (by omega)
      rfl
    · refine ⟨⟨c, L.base .dalpha + sg - offset td, s.gradLnAlpha c sg⟩, ?_, by simp only; omega⟩
      simp only [lambDerivs, List.mem_append, List.mem_map, mem_sigmas]
      exact .inl ⟨sg, ho, rfl⟩

/-- **C114** derivatives and the spacetime determinant off the grid: each stored derivative component that is affine over the block is
returned at the given position within the bound of the regulariser; the time derivatives are zero exactly for a cache declared static;
the determinant of the spacetime metric is lapse times spatial determinant (shown for uniform values). -/
theorem offgrid_derivs (hS : S.Ok G axi) (hcov : Covers G axi ax) (b : ℤ) (hb : 0 ≤ b ∧ b < G.nb) (hg : GoodExtent ax b)
    (hs : 0 ≤ small) (hd : ∀ d, 0 < (ax b d).dx) (X : Fin 3 → K) (hsym : ∀ c p q sg, s.dg c p q sg = s.dg c q p sg)
    (hsym4 : ∀ loc c p q, s.metric4 loc c p q = s.metric4 loc c q p) (hsymi : ∀ loc c p q, s.gamInv loc c p q = s.gamInv loc c q p)
    (f : Fin 3 → K) (a : K) (p q sg : Fin 4) :
    let m' := setCached L s small width false S m
    let bound := ∑ d, |f d| * |X d - lower small (ax b d) (X d)| * theta small (ax b d)
    let val := a + ∑ d, f d * effX ax b X d
    (¬(sg = 0 ∧ td = false) → AffineOn ax b (fun c => s.dg c p q sg) a f → |dgAt L small ax m' b X p q sg - val| ≤ bound) ∧
    (¬(sg = 0 ∧ td = false) → AffineOn ax b (fun c => s.gradLnAlpha c sg) a f → |gradLnAlphaAt L small ax m' b X sg - val| ≤ bound) ∧
    (td = false → dgAt L small ax m' b X p q 0 = 0 ∧ gradLnAlphaAt L small ax m' b X 0 = 0) ∧
    (∀ u w, AffineOn ax b (s.lapse .Cent) u (fun _ => 0) → AffineOn ax b (s.detGamma .Cent) w (fun _ => 0) →
      detGAt L small ax m' b X = u * w) := by
  intro m' bound val
  have hoff : (offset td ≤ (sg : ℕ)) ↔ ¬ (sg = 0 ∧ td = false) := by
    cases td
    · simp only [offset, Bool.false_eq_true, if_false, and_true, ← Fin.val_eq_zero_iff]; omega
    · simp [offset]
  have fill : ∀ (n : ℕ) (h : Cell → K), (∀ c, G.dom axi .Cent c → m' c n = h c) → AffineOn ax b h a f →
      |readAt small ax m' b X n - val| ≤ bound := by
    intro n h e ha
    refine offgrid_affine_partial small ax m' hs b hg hd X n a f ?_
    intro k j i hc
    simp only
    rw [e _ (hcov _ hb.1 hb.2 hc)]
    exact ha k j i hc
  refine ⟨fun h ha => ?_, fun h ha => ?_, fun h => ?_, fun u w hu hw => ?_⟩
  · rw [dgAt, if_pos (hoff.2 h)]
    exact fill _ _ (fun c hc => (stored_derivs L s small width S m hsym c ((hS.deriv c).2 hc) p q sg (hoff.2 h)).1) ha
  · rw [gradLnAlphaAt, if_pos (hoff.2 h)]
    exact fill _ _ (fun c hc => (stored_derivs L s small width S m hsym c ((hS.deriv c).2 hc) p q sg (hoff.2 h)).2) ha
  · subst h; simp [dgAt, gradLnAlphaAt, offset]
  · have sys := fun u => offgrid_system L s small width false axi S G m ax hS hcov b hb hg hs hd X hsym4 hsymi (fun _ => 0) u
    have h1 := (sys u).1 hu
    have h2 := (sys w).2.1 hw
    simp only [abs_zero, zero_mul, Finset.sum_const_zero, add_zero] at h1 h2
    rw [detGAt, sub_eq_zero.1 (abs_nonpos_iff.1 h1), sub_eq_zero.1 (abs_nonpos_iff.1 h2)]

end Filled

/-! ### The inverse spacetime metric -/

section Inverse
variable (L : Layout td) (small : K) (ax : ℤ → Fin 3 → Interp.Axis K) (m : Mem K)

/-- **C114** in block zero the inverse 4-metric is assembled from the interpolated lapse, shift and inverse 3-metric; if those fit together
it is the inverse of the 4-metric built from them (regulariser zero). -/
theorem offgrid_inverse_block_zero (X : Fin 3 → K) (A : Geom.ADM K) (hA : A.Valid) (hl : lapseAt L 0 ax m 0 X = A.alpha)
    (hb : ∀ d, shiftAt L 0 ax m 0 X d = A.beta d) (hg : ∀ p q, metricInverseAt L 0 ax m 0 X p q = A.gamInv p q)
    (h4 : ∀ p q, metric4At L 0 ax m 0 X p q = A.g4 p q) (p q : Fin 4) :
    ∑ l, metric4InverseAt L 0 ax m 0 X p l * metric4At L 0 ax m 0 X l q = if p = q then 1 else 0 := by
  have hr : ∀ a b : K, Robust.ratio 0 a b = a / b := fun a b => by simp [Robust.ratio]
  have ha := hA.alpha_ne
  have hb' : ∀ d : Fin 3, readAt 0 ax m 0 X (L.base (.bcon .Cent) + d) = A.beta d := hb
  have hg' : ∀ p q : Fin 3, readAt 0 ax m 0 X (L.base (.gamcon .Cent) + flatten2 p.castSucc q.castSucc) = A.gamInv p q := hg
  have hinv : metric4InverseAt L 0 ax m 0 X = A.g4Inv := by
    unfold metric4InverseAt lapseAt4
    simp only [hl, hr, hb', hg']
    funext p q
    refine Fin.cases ?_ (fun i => ?_) p <;> refine Fin.cases ?_ (fun j => ?_) q
    · simp; ring
    · simp; ring
    · simp; ring
    · simp; field_simp
  simp only [hinv, h4]
  exact A.g4Inv_mul hA p q

/-- **C114 fails for the inverse spacetime metric of other blocks**: its time-time component is that of the lapse of block *zero*
extrapolated to the position, whatever the block asked for. -/
theorem offgrid_inverse_lapse (b : ℤ) (X : Fin 3 → K) :
    metric4InverseAt L small ax m b X 0 0 =
      - (1 / (lapseAt L small ax m 0 X ^ 2 + small)) := by
  unfold metric4InverseAt lapseAt4
  simp only [Fin.cons_zero, Robust.ratio, mul_self_nonneg, if_true, one_mul, zero_sub, pow_two]

/-- exact condition for the time-time component to be that of block `b`. -/
theorem offgrid_inverse_iff (hs : 0 < small) (b : ℤ) (X : Fin 3 → K) :
    metric4InverseAt L small ax m b X 0 0 = - (1 / (lapseAt L small ax m b X ^ 2 + small)) ↔
      lapseAt L small ax m 0 X ^ 2 = lapseAt L small ax m b X ^ 2 := by
  rw [offgrid_inverse_lapse, neg_inj, one_div, one_div, inv_inj, add_left_inj]

/-- **C114 fails for coordinates**: as on the grid, the stored time comes back as the first coordinate. -/
theorem offgrid_coords_shifted (b : ℤ) (hg : GoodExtent ax b) (X : Fin 3 → K) (x : Fin 4 → K)
    (h : ∀ c : Cell, c.b = b → InBlock ax c → ∀ mu : Fin 4, m c (L.base .coordC + mu) = x mu) (d : Fin 3) :
    coordsAt L small ax m b X 0 = 0 ∧ coordsAt L small ax m b X d.succ = x d.castSucc := by
  refine ⟨rfl, ?_⟩
  unfold coordsAt
  simp only [Fin.cons_succ]
  exact offgrid_uniform small ax m b hg X _ _ fun c hc hi => h c hc hi d.castSucc

end Inverse

/-! ### The hypotheses are met -/

/-- two blocks of four by one by one zones of width one, side by side. -/
def exAx : ℤ → Fin 3 → Interp.Axis ℚ := fun b d => if d = 0 then ⟨4 * b, 1, 4⟩ else ⟨0, 1, 1⟩

theorem exAx_good (b : ℤ) : GoodExtent exAx b := by
  refine ⟨?_, ?_, ?_, ?_⟩ <;> simp [exAx]

/-- lapse one in block zero and two in block one. -/
def exMem : Mem ℚ := fun c n => if n = (exLayout false).base (.alpha .Cent) then (if c.b = 0 then 1 else 2) else 0

/-- the lapse of block one is two, the inverse metric uses one. -/
theorem ex_inverse_wrong (X : Fin 3 → ℚ) : lapseAt (exLayout false) (1/10^9) exAx exMem 1 X = 2 ∧
    lapseAt (exLayout false) (1/10^9) exAx exMem 0 X = 1 ∧
    metric4InverseAt (exLayout false) (1/10^9) exAx exMem 1 X 0 0 ≠
      - (1 / (lapseAt (exLayout false) (1/10^9) exAx exMem 1 X ^ 2 + 1/10^9)) := by
  have h1 : lapseAt (exLayout false) (1/10^9) exAx exMem 1 X = 2 :=
    offgrid_uniform _ exAx exMem 1 (exAx_good 1) X _ 2 fun c hc _ => by simp [exMem, hc]
  have h0 : lapseAt (exLayout false) (1/10^9) exAx exMem 0 X = 1 :=
    offgrid_uniform _ exAx exMem 0 (exAx_good 0) X _ 1 fun c hc _ => by simp [exMem, hc]
  refine ⟨h1, h0, ?_⟩
  rw [Ne, offgrid_inverse_iff _ _ _ _ (by norm_num), h1, h0]
  norm_num

/-- the grid of those blocks is covered by the filled cells. -/
example : Covers (K := ℚ) ⟨2, 0, 0, 0, 0, 0, 3⟩ false exAx := by
  rintro ⟨b, k, j, i⟩ h0 h1 ⟨hk, hj, hi⟩
  simp only [exAx, Fin.reduceEq, if_false, if_true] at hk hj hi
  refine ⟨h0, h1, ?_, ?_, ?_⟩ <;> simp <;> omega

end Phoebus.Cached
