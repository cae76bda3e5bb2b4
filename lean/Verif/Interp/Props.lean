import Verif.Interp.Model

/-!
# Grid interpolation (C12)

`small` is the regulariser inside `robust::ratio` (`10 * DBL_MIN`).  The theorems hold for every positive `small`,
and their error terms vanish linearly with it.
-/
namespace Phoebus.Interp
variable {K : Type*} [Field K] [LinearOrder K] [IsStrictOrderedRing K] [FloorRing K]

/-- C12. With at least two points in a direction, both indices read are inside the array, whatever the position
(inside or outside the grid). -/
theorem index_in_range (small : K) (A : Axis K) (x : K) (hn : 2 ≤ A.nx) :
    0 ≤ index small A x ∧ index small A x + 1 ≤ A.nx - 1 := by
  unfold index; omega

/-- C12. With a single point the index is -1: the read is out of bounds (this is why `Do` dispatches on the
extent of directions 2 and 3; direction 1 is never checked). -/
theorem index_single_point (small : K) (A : Axis K) (x : K) (hn : A.nx = 1) : index small A x = -1 := by
  unfold index; omega

/-- C12. The weights sum to one for every position. -/
theorem weights_sum (small : K) (A : Axis K) (x : K) : w0 small A x + w1 small A x = 1 := by
  unfold w0; ring

theorem ratio_pos_eq (small a b : K) (hb : 0 < b) : Robust.ratio small a b = a / (b + small) := by
  simp [Robust.ratio, hb.le]

theorem w1_eq (small : K) (A : Axis K) (x : K) (hd : 0 < A.dx) :
    w1 small A x = (x - (A.x0 + (index small A x : K) * A.dx)) / (A.dx + small) := by
  unfold w1; rw [ratio_pos_eq _ _ _ hd]

theorem index_eq (small : K) (A : Axis K) (x : K) (hs : 0 < small) (hd : 0 < A.dx) (hl : A.x0 ≤ x) :
    index small A x = min ⌊(x - A.x0) / (A.dx + small)⌋ (A.nx - 2) := by
  have hp : 0 < A.dx + small := by linarith
  have hr0 : 0 ≤ (x - A.x0) / (A.dx + small) := div_nonneg (by linarith) hp.le
  unfold index trunc
  rw [ratio_pos_eq _ _ _ hd, if_pos hr0, max_eq_right (Int.floor_nonneg.2 hr0)]

/-- C12. The upper weight is nonnegative and exceeds one at most by the regulariser: every position in
the grid, every grid. -/
theorem weight_bounds (small : K) (A : Axis K) (x : K) (hs : 0 < small) (hd : 0 < A.dx) (hn : 2 ≤ A.nx)
    (hl : A.x0 ≤ x) (hr : x ≤ A.x0 + ((A.nx : K) - 1) * A.dx) :
    0 ≤ w1 small A x ∧ w1 small A x ≤ 1 + (A.nx : K) * (small / (A.dx + small)) := by
  have hp : 0 < A.dx + small := by linarith
  have hfl := Int.floor_le ((x - A.x0) / (A.dx + small))
  have hfu := Int.lt_floor_add_one ((x - A.x0) / (A.dx + small))
  rw [le_div_iff₀ hp] at hfl
  rw [div_lt_iff₀ hp] at hfu
  have hi := index_eq small A x hs hd hl
  have hir := index_in_range small A x hn
  rw [w1_eq _ _ _ hd]
  set i := index small A x
  set F := ⌊(x - A.x0) / (A.dx + small)⌋
  have hi0 : (0:K) ≤ (i:K) := by exact_mod_cast hir.1
  have hin : (i:K) + 2 ≤ (A.nx:K) := by exact_mod_cast (by omega : i + 2 ≤ A.nx)
  have hiF : (i:K) ≤ (F:K) := by exact_mod_cast (by omega : i ≤ F)
  constructor
  · apply div_nonneg _ hp.le
    have h1 : (i:K) * (A.dx + small) ≤ (F:K) * (A.dx + small) := mul_le_mul_of_nonneg_right hiF hp.le
    nlinarith [mul_nonneg hi0 hs.le]
  · rw [div_le_iff₀ hp, add_mul, mul_assoc, div_mul_cancel₀ _ hp.ne']
    have hsn : ((i:K) + 2) * small ≤ (A.nx:K) * small := mul_le_mul_of_nonneg_right hin hs.le
    rcases min_choice F (A.nx - 2) with h | h
    · have e : (i:K) = (F:K) := by exact_mod_cast (hi.trans h)
      rw [e] at hsn ⊢
      nlinarith
    · have e : (A.nx:K) = (i:K) + 2 := by
        have : A.nx = i + 2 := by rw [hi, h]; ring
        rw [this]; push_cast; ring
      rw [e] at hr ⊢
      nlinarith [mul_nonneg hi0 hs.le]

example : ∃ (A : Axis ℚ) (x : ℚ), 0 < A.dx ∧ 2 ≤ A.nx ∧ A.x0 ≤ x ∧ x ≤ A.x0 + ((A.nx : ℚ) - 1) * A.dx :=
  ⟨⟨0, 1, 5⟩, 5/2, by norm_num⟩

/-- C12. Constants are reproduced exactly, by each of the three interpolators and at any position. -/
theorem interp_constants (small : K) (A1 A2 A3 : Axis K) (x1 x2 x3 c : K) :
    do1D small A1 x1 (fun _ => c) = c ∧ do2D small A1 A2 x1 x2 (fun _ _ => c) = c ∧
    do3D small A1 A2 A3 x1 x2 x3 (fun _ _ _ => c) = c ∧
    doInterp small A1 A2 A3 x1 x2 x3 (fun _ _ _ => c) = c := by
  have h1 : do1D small A1 x1 (fun _ => c) = c := by simp only [do1D, w0]; ring
  have h2 : do2D small A1 A2 x1 x2 (fun _ _ => c) = c := by simp only [do2D, w0]; ring
  have h3 : do3D small A1 A2 A3 x1 x2 x3 (fun _ _ _ => c) = c := by simp only [do3D, w0]; ring
  refine ⟨h1, h2, h3, ?_⟩
  unfold doInterp; split_ifs <;> assumption

/-- C12. Linear data are reproduced to within the regulariser: for cell values
`c + m * (centre of cell i)` the error at any position (even outside, where this is linear extrapolation) is at most
`|m| * small / dx` times the distance to the lower support point. -/
theorem do1D_linear (small : K) (A : Axis K) (x c m : K) (hs : 0 < small) (hd : 0 < A.dx) :
    |do1D small A x (fun i => c + m * (A.x0 + (i:K) * A.dx)) - (c + m * x)| ≤
      |m| * |x - (A.x0 + (index small A x : K) * A.dx)| * (small / A.dx) := by
  have hp : 0 < A.dx + small := by linarith
  have e : do1D small A x (fun i => c + m * (A.x0 + (i:K) * A.dx)) - (c + m * x) =
      -(m * (x - (A.x0 + (index small A x : K) * A.dx)) * (small / (A.dx + small))) := by
    simp only [do1D, w0, w1_eq _ _ _ hd]; push_cast; field_simp; ring
  rw [e, abs_neg, abs_mul, abs_mul]
  apply mul_le_mul_of_nonneg_left _ (by positivity)
  rw [abs_of_pos (by positivity)]
  exact div_le_div_of_nonneg_left hs.le hd (by linarith)

/-- C12. The multi-dimensional interpolators are the tensor product of the one-dimensional ones: on
product data they return the product of the one-dimensional interpolants (with the arguments in the right order). -/
theorem interp_product (small : K) (A1 A2 A3 : Axis K) (x1 x2 x3 : K) (f g h : ℤ → K) :
    do2D small A1 A2 x1 x2 (fun j i => g j * h i) = do1D small A2 x2 g * do1D small A1 x1 h ∧
    do3D small A1 A2 A3 x1 x2 x3 (fun k j i => f k * g j * h i) =
      do1D small A3 x3 f * do1D small A2 x2 g * do1D small A1 x1 h := by
  constructor
  · simp only [do2D, do1D]; ring
  · simp only [do3D, do1D]; ring

/-- C12. In fewer dimensions the collapsed directions are read at their only index: on product data the result is the product of the
one-dimensional interpolants of the directions that exist and of the values at index 0 of the others. -/
theorem interp_dims (small : K) (A1 A2 A3 : Axis K) (x1 x2 x3 : K) (f g h : ℤ → K) :
    doInterp small A1 A2 A3 x1 x2 x3 (fun k j i => f k * g j * h i) =
      if 1 < A3.nx then do1D small A3 x3 f * do1D small A2 x2 g * do1D small A1 x1 h
      else if 1 < A2.nx then f 0 * do1D small A2 x2 g * do1D small A1 x1 h
      else f 0 * g 0 * do1D small A1 x1 h := by
  unfold doInterp
  simp only [gt_iff_lt]
  split_ifs
  · simp only [do3D, do1D]; ring
  · simp only [do2D, do1D]; ring
  · simp only [do1D]; ring

/-- C12. Interpolation is linear in the data (so `interp_product` determines it on all data). -/
theorem interp_linear (small : K) (A1 A2 A3 : Axis K) (x1 x2 x3 a b : K) (p q : ℤ → ℤ → ℤ → K) :
    doInterp small A1 A2 A3 x1 x2 x3 (fun k j i => a * p k j i + b * q k j i) =
      a * doInterp small A1 A2 A3 x1 x2 x3 p + b * doInterp small A1 A2 A3 x1 x2 x3 q := by
  unfold doInterp
  split_ifs
  · simp only [do3D]; ring
  · simp only [do2D]; ring
  · simp only [do1D]; ring

theorem mix_bound (w c e M u v : K) (hw : 0 ≤ w) (hw1 : w ≤ 1 + e) (he : 0 ≤ e) (hu : |u - c| ≤ M)
    (hv : |v - c| ≤ M) : |((1 - w) * u + w * v) - c| ≤ (1 + 2 * e) * M := by
  have hM : 0 ≤ M := (abs_nonneg _).trans hu
  have e1 : ((1 - w) * u + w * v) - c = (1 - w) * (u - c) + w * (v - c) := by ring
  rw [e1]
  refine (abs_add_le _ _).trans ?_
  rw [abs_mul, abs_mul, abs_of_nonneg hw]
  have h2 : |1 - w| * |u - c| ≤ |1 - w| * M := mul_le_mul_of_nonneg_left hu (abs_nonneg _)
  have h3 : w * |v - c| ≤ w * M := mul_le_mul_of_nonneg_left hv hw
  have h4 : |1 - w| + w ≤ 1 + 2 * e := by
    rcases abs_cases (1 - w) with ⟨h, _⟩ | ⟨h, _⟩ <;> rw [h] <;> linarith
  nlinarith

/-- C12. No new extrema beyond the regulariser: if the supporting cell values lie within `M` of a centre
value `c`, the three-dimensional interpolant at a position inside the grid lies within `(1+2e)^3 M` of `c`, where
`e = max nx * small/(dx+small)` over the directions. -/
theorem do3D_range (small : K) (A1 A2 A3 : Axis K) (x1 x2 x3 c M e : K) (p : ℤ → ℤ → ℤ → K) (hs : 0 < small)
    (hd1 : 0 < A1.dx) (hd2 : 0 < A2.dx) (hd3 : 0 < A3.dx) (hn1 : 2 ≤ A1.nx) (hn2 : 2 ≤ A2.nx) (hn3 : 2 ≤ A3.nx)
    (hx1 : A1.x0 ≤ x1 ∧ x1 ≤ A1.x0 + ((A1.nx : K) - 1) * A1.dx)
    (hx2 : A2.x0 ≤ x2 ∧ x2 ≤ A2.x0 + ((A2.nx : K) - 1) * A2.dx)
    (hx3 : A3.x0 ≤ x3 ∧ x3 ≤ A3.x0 + ((A3.nx : K) - 1) * A3.dx)
    (he1 : (A1.nx : K) * (small / (A1.dx + small)) ≤ e) (he2 : (A2.nx : K) * (small / (A2.dx + small)) ≤ e)
    (he3 : (A3.nx : K) * (small / (A3.dx + small)) ≤ e)
    (hp : ∀ k j i, 0 ≤ k → k < A3.nx → 0 ≤ j → j < A2.nx → 0 ≤ i → i < A1.nx → |p k j i - c| ≤ M) :
    |do3D small A1 A2 A3 x1 x2 x3 p - c| ≤ (1 + 2 * e) ^ 3 * M := by
  obtain ⟨a1, a2⟩ := weight_bounds small A1 x1 hs hd1 hn1 hx1.1 hx1.2
  obtain ⟨b1, b2⟩ := weight_bounds small A2 x2 hs hd2 hn2 hx2.1 hx2.2
  obtain ⟨c1, c2⟩ := weight_bounds small A3 x3 hs hd3 hn3 hx3.1 hx3.2
  obtain ⟨i1, i2⟩ := index_in_range small A1 x1 hn1
  obtain ⟨j1, j2⟩ := index_in_range small A2 x2 hn2
  obtain ⟨k1, k2⟩ := index_in_range small A3 x3 hn3
  have he : 0 ≤ e := le_trans (by
    have : (0:K) ≤ A1.nx := by exact_mod_cast (by omega : 0 ≤ A1.nx)
    have : 0 < A1.dx + small := by linarith
    positivity) he1
  unfold do3D w0
  have hx : ∀ k j : ℤ, 0 ≤ k → k < A3.nx → 0 ≤ j → j < A2.nx →
      |((1 - w1 small A1 x1) * p k j (index small A1 x1) + w1 small A1 x1 * p k j (index small A1 x1 + 1)) - c| ≤
        (1 + 2 * e) * M := fun k j q1 q2 q3 q4 =>
    mix_bound _ c e M _ _ a1 (a2.trans (by linarith)) he (hp _ _ _ q1 q2 q3 q4 i1 (by omega))
      (hp _ _ _ q1 q2 q3 q4 (by omega) (by omega))
  have hy := fun (k : ℤ) (q1 : 0 ≤ k) (q2 : k < A3.nx) =>
    mix_bound (w1 small A2 x2) c e ((1 + 2 * e) * M) _ _ b1 (b2.trans (by linarith)) he
      (hx k (index small A2 x2) q1 q2 j1 (by omega)) (hx k (index small A2 x2 + 1) q1 q2 (by omega) (by omega))
  have hz := mix_bound (w1 small A3 x3) c e ((1 + 2 * e) * ((1 + 2 * e) * M)) _ _ c1 (c2.trans (by linarith)) he
      (hy (index small A3 x3) k1 (by omega)) (hy (index small A3 x3 + 1) (by omega) (by omega))
  calc _ ≤ _ := hz
    _ = _ := by ring

/-- C12. `PiecewiseConstant`: a shifted index inside the support gets weight one, outside it weight zero; the
index is always safe to read. -/
theorem pcWeight_spec (n s i : ℤ) (hn : 0 < n) :
    0 ≤ (pcWeight (K := K) n s i).1 ∧ (pcWeight (K := K) n s i).1 < n ∧
    ((0 ≤ i + s ∧ i + s < n) → pcWeight (K := K) n s i = (i + s, 1)) ∧
    (¬ (0 ≤ i + s ∧ i + s < n) → (pcWeight (K := K) n s i).2 = 0) := by
  unfold pcWeight
  split_ifs with h
  · refine ⟨le_rfl, hn, fun hh => ?_, fun _ => rfl⟩; omega
  · refine ⟨by dsimp only; omega, by dsimp only; omega, fun _ => rfl, fun hh => ?_⟩; omega

end Phoebus.Interp
