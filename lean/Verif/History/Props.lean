import Verif.History.Model
import Verif.Rel.Props
import Verif.Tracers.Props
import Mathlib.Algebra.Order.Floor.Ring

/-!
# C53: history diagnostics
-/
namespace Phoebus.History
open Finset Geom Robust
open Rel (PosDef)

section Horizon
variable {K : Type*} [Field K] [LinearOrder K] [IsStrictOrderedRing K]

/-- Specification: cell `i` contains the point `x`. -/
def Contains (c : Coords K) (x : K) (i : ℤ) : Prop := c.xf i ≤ x ∧ x < c.xf (i + 1)

theorem contains_unique (c : Coords K) (hd : 0 < c.dx) (x : K) (i j : ℤ) (hi : Contains c x i) (hj : Contains c x j) : i = j := by
  obtain ⟨a, b⟩ := hi
  obtain ⟨a', b'⟩ := hj
  simp only [Coords.xf, Int.cast_add, Int.cast_one] at *
  have h1 : (i : K) * c.dx < (j + 1) * c.dx := by linarith
  have h2 : (j : K) * c.dx < (i + 1) * c.dx := by linarith
  have h1' := lt_of_mul_lt_mul_right h1 hd.le
  have h2' := lt_of_mul_lt_mul_right h2 hd.le
  have h1'' : i < j + 1 := by exact_mod_cast h1'
  have h2'' : j < i + 1 := by exact_mod_cast h2'
  omega

/-- **C53** Whenever the horizon lies in the face range of the block (last face excluded) exactly one interior cell contains
it. -/
theorem horizon_unique [FloorRing K] (c : Coords K) (hd : 0 < c.dx) (xh : K) (s e : ℤ) (hs : c.xf s ≤ xh) (he : xh < c.xf (e + 1)) :
    ∃! i, (s ≤ i ∧ i ≤ e) ∧ Contains c xh i := by
  have hc : Contains c xh ⌊(xh - c.x0) / c.dx⌋ := by
    constructor
    · have := Int.floor_le ((xh - c.x0) / c.dx)
      rw [le_div_iff₀ hd] at this
      simp only [Coords.xf]; linarith
    · have := Int.lt_floor_add_one ((xh - c.x0) / c.dx)
      rw [div_lt_iff₀ hd] at this
      simp only [Coords.xf, Int.cast_add, Int.cast_one]; linarith
  refine ⟨⌊(xh - c.x0) / c.dx⌋, ⟨⟨?_, ?_⟩, hc⟩, fun j hj => contains_unique c hd xh j _ hj.2 hc⟩
  · rw [Int.le_floor, le_div_iff₀ hd]
    simp only [Coords.xf] at hs; linarith
  · have : ⌊(xh - c.x0) / c.dx⌋ < e + 1 := by
      rw [Int.floor_lt, div_lt_iff₀ hd]
      simp only [Coords.xf] at he; linarith
    omega

/-- no cell is selected when the horizon is outside the interior. -/
theorem horizon_none (c : Coords K) (hd : 0 < c.dx) (xh : K) (s e : ℤ) (gate : ℤ → Bool) (area : K) (f : ℤ → K)
    (h : xh < c.xf s ∨ c.xf (e + 1) ≤ xh) : column s e (horizonCell c xh gate area f) = 0 ∧ column s e (phiCell c xh area f) = 0 := by
  have hno : ∀ i ∈ Finset.Icc s e, ¬ (c.xf i ≤ xh ∧ xh < c.xf (i + 1)) := by
    intro i hi hc
    rw [Finset.mem_Icc] at hi
    simp only [Coords.xf, Int.cast_add, Int.cast_one] at *
    have h1 : (s : K) ≤ i := by exact_mod_cast hi.1
    have h2 : (i : K) ≤ e := by exact_mod_cast hi.2
    rcases h with h | h <;> nlinarith
  constructor <;> refine Finset.sum_eq_zero fun i hi => ?_
  · have := hno i hi
    simp only [horizonCell]
    rw [if_neg (fun hh => this ⟨hh.1, hh.2.1⟩)]
  · have := hno i hi
    simp only [phiCell]
    rw [if_neg this]

/-- **C53** The reduction over a column is the value of the one cell that contains the horizon, or nothing if that cell fails the
magnetisation cut. -/
theorem column_value (c : Coords K) (hd : 0 < c.dx) (xh : K) (s e i : ℤ) (hi : s ≤ i ∧ i ≤ e) (hc : Contains c xh i)
    (gate : ℤ → Bool) (area : K) (f : ℤ → K) :
    column s e (horizonCell c xh gate area f) =
      if gate i = true then (f i + (xh - c.xc i) * ((f (i + 1) - f (i - 1)) / (2 * c.dx))) * area else 0 := by
  unfold column
  rw [Finset.sum_eq_single i]
  · simp only [horizonCell]
    by_cases hg : gate i = true
    · rw [if_pos ⟨hc.1, hc.2, hg⟩, if_pos hg]; norm_num
    · rw [if_neg (fun h => hg h.2.2), if_neg hg]
  · intro j _ hne
    simp only [horizonCell]
    rw [if_neg (fun h => hne (contains_unique c hd xh j i ⟨h.1, h.2.1⟩ hc))]
  · intro h; exact absurd (Finset.mem_Icc.2 hi) h

theorem phi_value (c : Coords K) (hd : 0 < c.dx) (xh : K) (s e i : ℤ) (hi : s ≤ i ∧ i ≤ e) (hc : Contains c xh i)
    (area : K) (f : ℤ → K) :
    column s e (phiCell c xh area f) = (f (i + 1) + (xh - c.xc (i + 1)) * ((f (i + 2) - f i) / (2 * c.dx))) * area := by
  unfold column
  rw [Finset.sum_eq_single i]
  · simp only [phiCell]
    rw [if_pos ⟨hc.1, hc.2⟩, show i + 1 + 1 = i + 2 by ring, show i - 1 + 1 = i by ring]; norm_num
  · intro j _ hne
    simp only [phiCell]
    exact if_neg (fun h => hne (contains_unique c hd xh j i h hc))
  · intro h; exact absurd (Finset.mem_Icc.2 hi) h

/-- **C53** For a flux that varies linearly the reported value is exactly the flux at the horizon, for both interpolation
stencils. -/
theorem column_linear [FloorRing K] (c : Coords K) (hd : 0 < c.dx) (xh : K) (s e : ℤ) (hs : c.xf s ≤ xh) (he : xh < c.xf (e + 1))
    (area a b : K) :
    column s e (horizonCell c xh (fun _ => true) area fun i => a + b * c.xc i) = (a + b * xh) * area ∧
    column s e (phiCell c xh area fun i => a + b * c.xc i) = (a + b * xh) * area := by
  obtain ⟨i, ⟨hi, hc⟩, -⟩ := horizon_unique c hd xh s e hs he
  have hd' := hd.ne'
  rw [column_value c hd xh s e i hi hc, phi_value c hd xh s e i hi hc, if_pos rfl]
  simp only [Coords.xc]
  push_cast
  constructor <;> field_simp <;> ring

/-- **C53** The reported value differs from the value of the selected cell by at most a quarter of the change across its
neighbours.

Partial form of C53. Full property: In each column the flux-through-horizon reduction selects exactly one cell
whenever the horizon is inside the block's face range, and interpolation to the horizon is between the two values
used. Missing: Exactly one cell is selected, for any block decomposition, and linear profiles are exact; the
interpolated value may overshoot the values used (witness), and the jet energy flux is wrong by 2 b^1 b^0 (proved). -/
theorem column_bound_partial (c : Coords K) (hd : 0 < c.dx) (xh : K) (s e i : ℤ) (hi : s ≤ i ∧ i ≤ e) (hc : Contains c xh i) (area : K) (f : ℤ → K) :
    |column s e (horizonCell c xh (fun _ => true) area f) - f i * area| ≤ |f (i + 1) - f (i - 1)| / 4 * |area| := by
  rw [column_value c hd xh s e i hi hc, if_pos rfl]
  have e1 : (f i + (xh - c.xc i) * ((f (i + 1) - f (i - 1)) / (2 * c.dx))) * area - f i * area =
      (xh - c.xc i) / c.dx * ((f (i + 1) - f (i - 1)) / 2) * area := by
    have := hd.ne'; field_simp; ring
  have h2 : |(xh - c.xc i) / c.dx| ≤ 1 / 2 := by
    obtain ⟨a, b⟩ := hc
    simp only [Coords.xf, Coords.xc, Int.cast_add, Int.cast_one] at *
    rw [abs_le]
    constructor
    · rw [le_div_iff₀ hd]; linarith
    · rw [div_le_iff₀ hd]; linarith
  rw [e1, abs_mul, abs_mul, abs_div (f (i + 1) - f (i - 1)), abs_two]
  have := abs_nonneg (f (i + 1) - f (i - 1))
  have h4 := abs_nonneg area
  have : |(xh - c.xc i) / c.dx| * (|f (i + 1) - f (i - 1)| / 2) ≤ 1 / 2 * (|f (i + 1) - f (i - 1)| / 2) := by
    apply mul_le_mul_of_nonneg_right h2; linarith
  calc _ ≤ 1 / 2 * (|f (i + 1) - f (i - 1)| / 2) * |area| := mul_le_mul_of_nonneg_right this h4
    _ = _ := by ring

/-- **C53 fails for the interpolated value**: it need not lie between the values used, even for monotone data. -/
theorem column_overshoot : ∃ (c : Coords ℚ) (xh : ℚ) (f : ℤ → ℚ), 0 < c.dx ∧ Monotone f ∧ Contains c xh 0 ∧
    column 0 0 (horizonCell c xh (fun _ => true) 1 f) > f 1 ∧ ∀ i, f i ≤ f 1 := by
  refine ⟨⟨0, 1⟩, 9 / 10, fun i => if i < 0 then 0 else 1, by norm_num, ?_, ?_, ?_, ?_⟩
  · intro a b hab; dsimp only; split_ifs <;> first | omega | norm_num
  · constructor <;> norm_num [Coords.xf]
  · rw [column_value ⟨0, 1⟩ (by norm_num) _ 0 0 0 (by norm_num) (by constructor <;> norm_num [Coords.xf])]
    norm_num [Coords.xc]
  · intro i; simp only [show ¬ ((1 : ℤ) < 0) by decide, if_false]; split_ifs <;> norm_num

/-- the blocks of a row: `n` cells each, block `b` starting `b n` cells further. -/
def rowBlock (c : Coords K) (n : ℕ) (b : ℕ) : Coords K := ⟨c.x0 + (b * n : ℕ) * c.dx, c.dx⟩

/-- **C53** The decomposition into blocks does not matter: the sum over the blocks of a row is the reduction over the undivided
row, for any number of blocks. -/
theorem column_blocks (c : Coords K) (xh : K) (n N : ℕ) (gate : ℤ → Bool) (area : K) (f : ℤ → K) :
    ∑ b ∈ Finset.range N, column 0 (n - 1) (horizonCell (rowBlock c n b) xh (fun i => gate (i + (b * n : ℕ))) area fun i => f (i + (b * n : ℕ))) =
      column 0 ((N * n : ℕ) - 1) (horizonCell c xh gate area f) := by
  have key : ∀ (a : ℕ) (m : ℕ) (g : ℤ → K), column 0 ((a : ℤ) - 1) (fun i => g (i + m)) + column 0 ((m : ℤ) - 1) g = column 0 (((a + m : ℕ) : ℤ) - 1) g := by
    intro a m g
    induction a with
    | zero => simp [column]
    | succ a ih =>
      have e : ∀ (k : ℕ) (g : ℤ → K), column 0 (((k + 1 : ℕ) : ℤ) - 1) g = column 0 ((k : ℤ) - 1) g + g k := by
        intro k g
        unfold column
        have : Finset.Icc (0 : ℤ) (((k + 1 : ℕ) : ℤ) - 1) = insert (k : ℤ) (Finset.Icc 0 ((k : ℤ) - 1)) := by
          ext x; simp only [Finset.mem_insert, Finset.mem_Icc]; omega
        rw [this, Finset.sum_insert (by simp), add_comm]
      rw [e, show a + 1 + m = (a + m) + 1 by ring, e, ← ih]
      push_cast; ring
  induction N with
  | zero => simp [column]
  | succ N ih =>
    rw [Finset.sum_range_succ, ih, show (N + 1) * n = n + N * n by ring, ← key n (N * n), add_comm]
    congr 1
    unfold column
    refine Finset.sum_congr rfl fun i _ => ?_
    have x1 : ∀ j : ℤ, (rowBlock c n N).xf j = c.xf (j + (N * n : ℕ)) := by
      intro j; simp only [rowBlock, Coords.xf]; push_cast; ring
    have x2 : (rowBlock c n N).xc i = c.xc (i + (N * n : ℕ)) := by
      simp only [rowBlock, Coords.xc]; push_cast; ring
    simp only [horizonCell, x1, x2, show i + 1 + ((N * n : ℕ) : ℤ) = i + (N * n : ℕ) + 1 by ring,
      show i - 1 + ((N * n : ℕ) : ℤ) = i + (N * n : ℕ) - 1 by ring]
    rfl

/-! ### net flux through a box -/

theorem telescope (s e : ℤ) (h : s ≤ e + 1) (g : ℤ → K) : ∑ i ∈ Finset.Icc s e, (g (i + 1) - g i) = g (e + 1) - g s := by
  obtain ⟨n, hn⟩ := Int.eq_ofNat_of_zero_le (by omega : 0 ≤ e + 1 - s)
  have he : e = s + n - 1 := by omega
  subst he
  clear hn h
  induction n with
  | zero => simp
  | succ n ih =>
    have : Finset.Icc s (s + ((n + 1 : ℕ) : ℤ) - 1) = insert (s + n) (Finset.Icc s (s + n - 1)) := by
      ext x; simp only [Finset.mem_insert, Finset.mem_Icc]; omega
    rw [this, Finset.sum_insert (by simp), ih]
    push_cast
    rw [show s + (n : ℤ) - 1 + 1 = s + n by ring, show s + ((n : ℤ) + 1) - 1 + 1 = s + n + 1 by ring]
    ring

/-- **C53** The mass accretion rate over any box of cells is the net flux through its surface: interior faces cancel exactly (face
areas uniform, as for Parthenon's uniform coordinates). -/
theorem mdot_surface (A f : Fin 3 → ℤ → ℤ → ℤ → K) (a : Fin 3 → K) (hA : ∀ d k j i, A d k j i = a d)
    (is ie js je ks ke : ℤ) (hi : is ≤ ie + 1) (hj : js ≤ je + 1) (hk : ks ≤ ke + 1) :
    ∑ k ∈ Finset.Icc ks ke, ∑ j ∈ Finset.Icc js je, ∑ i ∈ Finset.Icc is ie, pillbox 3 A f k j i =
      (∑ k ∈ Finset.Icc ks ke, ∑ j ∈ Finset.Icc js je, (f 0 k j (ie + 1) - f 0 k j is) * a 0) +
      (∑ k ∈ Finset.Icc ks ke, ∑ i ∈ Finset.Icc is ie, (f 1 k (je + 1) i - f 1 k js i) * a 1) +
      (∑ j ∈ Finset.Icc js je, ∑ i ∈ Finset.Icc is ie, (f 2 (ke + 1) j i - f 2 ks j i) * a 2) := by
  simp only [pillbox, hA, ge_iff_le, Nat.reduceLeDiff, le_refl, if_true, Finset.sum_add_distrib]
  congr 1
  · congr 1
    · refine Finset.sum_congr rfl fun k _ => Finset.sum_congr rfl fun j _ => ?_
      rw [← Finset.sum_mul, telescope is ie hi (fun i => f 0 k j i)]
    · refine Finset.sum_congr rfl fun k _ => ?_
      rw [Finset.sum_comm]
      refine Finset.sum_congr rfl fun i _ => ?_
      rw [← Finset.sum_mul, telescope js je hj (fun j => f 1 k j i)]
  · rw [Finset.sum_comm]
    refine Finset.sum_congr rfl fun j _ => ?_
    rw [Finset.sum_comm]
    refine Finset.sum_congr rfl fun i _ => ?_
    rw [← Finset.sum_mul, telescope ks ke hk (fun k => f 2 k j i)]

/-- in one and two dimensions the absent directions do not contribute. -/
theorem pillbox_lowdim (A f : Fin 3 → ℤ → ℤ → ℤ → K) (k j i : ℤ) :
    pillbox 1 A f k j i = (f 0 k j (i + 1) - f 0 k j i) * A 0 k j i ∧
    pillbox 2 A f k j i = pillbox 1 A f k j i + (f 1 k (j + 1) i - f 1 k j i) * A 1 k j i := by
  simp [pillbox]

/-- which cells count in the accretion rate. -/
theorem mdot_cell (rc : K) (gain doGain : Bool) (ip nh r h c div : K) :
    mdotCell rc gain doGain ip nh r h c div =
      if r ≤ rc ∧ (gain = true → doGain = true ∧ (r < ip ∨ h - c > nh)) then -div else 0 := by
  unfold mdotCell
  cases gain <;> cases doGain <;> simp
  by_cases h1 : r ≤ rc <;> simp [h1]

/-- **C53 fails for volume integrals in the gain region** of non-densitised quantities on a pack of several blocks: the
determinant of block 0 is used (history.hpp:120). -/
theorem gain_block_zero : ∃ (gdet : ℕ → ℚ), gainCell false gdet 1 2 1 5 0 0 1 ≠ gdet 1 * 1 := by
  refine ⟨fun b => b, ?_⟩
  norm_num [gainCell]

/-- for densitised quantities the integral is right for every block. -/
theorem gain_conserved (gdet : ℕ → K) (vol h c s nh op q : K) :
    gainCell true gdet vol h c s nh op q = if h - c > nh ∧ s > op then vol * q else 0 := by
  unfold gainCell
  by_cases h1 : h - c > nh <;> by_cases h2 : s > op <;> simp [h1, h2]

end Horizon

/-! ### fluxes -/

/-- **C53** The mass flux is `-sqrt(-g) rho u^1` with the four-velocity of the fluid. -/
theorem massFlux_eq (G : ADM ℝ) (ha : 0 < G.alpha) (gdet rho : ℝ) (v : Fin 3 → ℝ) :
    massFlux G gdet rho v = -(G.alpha * gdet) * rho * Rel.fourVelocity 0 G v 1 := by
  have e : (fun i j : Fin 3 => G.g4 i.succ j.succ) = G.gam := rfl
  have : Rel.fourVelocity 0 G v 1 = v 0 - Rel.lorentz G.gam v / G.alpha * G.beta 0 := by
    show v 0 - ratio 0 (Rel.lorentz G.gam v) |G.alpha| * G.beta 0 = _
    rw [Rel.ratio_zero, abs_of_pos ha]
  rw [this]; simp only [massFlux, e]; ring

/-- the electromagnetic part of a state. -/
def emPart (q : Rel.Prim) : Rel.Prim := { q with rho := 0, u := 0, P := 0 }

theorem hb0_eq (G : ADM ℝ) (q : Rel.Prim) (h : G.Valid) (ha : 0 < G.alpha) : hb0 0 G q = Rel.tB 0 G q 0 := by
  show _ = Rel.tU 0 G q 0 * Rel.tBdotv G q
  rw [Rel.tU_split G q ha, Rel.tBdotv_eq]
  simp only [hb0, Rel.ratio_zero, Fin.cons_zero]
  have : ∑ m, ∑ n, G.gam m n * q.B m * (q.v n / Rel.lorentz G.gam q.v) = G.dot3 q.B q.v / Rel.lorentz G.gam q.v := by
    simp only [ADM.dot3, Fin.sum_univ_three]; ring
  rw [this]; ring

theorem hucon1_eq (G : ADM ℝ) (q : Rel.Prim) (ha : 0 < G.alpha) : hucon1 G q = Rel.tU 0 G q 1 := by
  rw [Rel.tU_split G q ha]
  show _ = q.v 0 - Rel.lorentz G.gam q.v / G.alpha * G.beta 0
  simp only [hucon1]; ring

theorem hbcon1_eq (G : ADM ℝ) (q : Rel.Prim) (h : G.Valid) (ha : 0 < G.alpha) : hbcon1 0 G q = Rel.tB 0 G q 1 := by
  show _ = ratio 0 1 (Rel.lorentz G.gam q.v) * (q.B 0 + G.alpha * Rel.tB 0 G q 0 * Rel.tU 0 G q 1)
  simp only [hbcon1, Rel.ratio_zero, hb0_eq G q h ha, hucon1_eq G q ha]; ring

theorem lower_split (G : ADM ℝ) (h : G.Valid) (x0 : ℝ) (X : Fin 3 → ℝ) (i : Fin 3) :
    Rel.lower G.g4 (Fin.cons x0 fun j => X j - x0 * G.beta j) i.succ = ∑ j, G.gam i j * X j := by
  simp only [Rel.lower, Fin.sum_univ_succ (n := 3), Fin.cons_zero, Fin.cons_succ, ADM.g4_0s, ADM.g4_ss, ADM.betaCov, Fin.sum_univ_three]
  rw [h.symm 0 i, h.symm 1 i, h.symm 2 i]
  ring

/-- **C53** The momentum flux is `-sqrt(-g) T^1_1` of the electromagnetic stress tensor, in every 3+1 metric. -/
theorem emMomentumFlux_eq (G : ADM ℝ) (h : G.Valid) (ha : 0 < G.alpha) (hp : PosDef G) (gdet : ℝ) (q : Rel.Prim) :
    emMomentumFlux 0 G gdet q = -(G.alpha * gdet) * Rel.mixed G.g4 (Rel.tmunu 0 G (emPart q)) 1 1 := by
  have hb : Rel.tbsq 0 G (emPart q) = Rel.tbsq 0 G q := rfl
  have hu : Rel.tU 0 G (emPart q) = Rel.tU 0 G q := rfl
  have hB : Rel.tB 0 G (emPart q) = Rel.tB 0 G q := rfl
  rw [Rel.tmunu_mixed 0 G (emPart q) h, hb, hu, hB, if_pos rfl]
  have l1 : Rel.lower G.g4 (Rel.tU 0 G q) 1 = ∑ n, G.gam 0 n * q.v n := by
    rw [Rel.tU_split G q ha]; exact lower_split G h _ _ 0
  have l2 : Rel.lower G.g4 (Rel.tB 0 G q) 1 = ∑ n, G.gam 0 n * (q.B n / Rel.lorentz G.gam q.v + Rel.tBdotv G q * q.v n) := by
    rw [Rel.tB_split G q ha hp]; exact lower_split G h _ _ 0
  have hW := (Rel.lorentz_pos G hp q.v).ne'
  have l3 : ratio 0 ((∑ n, G.gam 0 n * q.B n) + G.alpha * hb0 0 G q * ∑ n, G.gam 0 n * q.v n) (Rel.lorentz G.gam q.v) =
      Rel.lower G.g4 (Rel.tB 0 G q) 1 := by
    rw [l2, hb0_eq G q h ha, Rel.tB_split G q ha hp, Rel.ratio_zero, Fin.cons_zero]
    simp only [Fin.sum_univ_three]
    have := ha.ne'
    field_simp
    ring
  simp only [emMomentumFlux, l3, hucon1_eq G q ha, hbcon1_eq G q h ha, Rel.magneticFieldSquared_eq G q h hp]
  rw [← l1]
  simp only [emPart]
  ring

/-- **C53** The magnetisation used for the cut is `b^2 / rho`. -/
theorem magnetization_eq (G : ADM ℝ) (h : G.Valid) (ha : 0 < G.alpha) (hp : PosDef G) (q : Rel.Prim) :
    magnetization 0 G q = dot4 G.g4 (Rel.tB 0 G q) (Rel.tB 0 G q) / q.rho := by
  rw [magnetization, Rel.magneticFieldSquared_eq G q h hp, (Rel.magnetic_orthogonal G q h ha hp).2]

theorem lower_zero (G : ADM ℝ) (ha : G.alpha = 1) (hb : G.beta = 0) (x : Fin 4 → ℝ) : Rel.lower G.g4 x 0 = -x 0 := by
  simp only [Rel.lower, Fin.sum_univ_succ (n := 3), ADM.g4_00, ADM.g4_s0, ADM.betaCov, ADM.dot3, hb, ha]
  simp

/-- **C53 fails for the jet energy flux**: in a metric with unit lapse and no shift it differs from `sqrt(-g) T^1_0` of the
electromagnetic field by `2 b^1 b^0` (history_utils.hpp:109 uses the contravariant `b^0` for the covariant `b_0`). -/
theorem emEnergyFlux_error (G : ADM ℝ) (h : G.Valid) (ha : G.alpha = 1) (hb : G.beta = 0) (hp : PosDef G) (gdet : ℝ) (q : Rel.Prim) :
    emEnergyFlux 0 G gdet q = G.alpha * gdet * Rel.mixed G.g4 (Rel.tmunu 0 G (emPart q)) 1 0 -
      2 * G.alpha * gdet * Rel.tB 0 G q 1 * Rel.tB 0 G q 0 := by
  have ha0 : 0 < G.alpha := by rw [ha]; norm_num
  have e1 : Rel.tbsq 0 G (emPart q) = Rel.tbsq 0 G q := rfl
  have e2 : Rel.tU 0 G (emPart q) = Rel.tU 0 G q := rfl
  have e3 : Rel.tB 0 G (emPart q) = Rel.tB 0 G q := rfl
  rw [Rel.tmunu_mixed 0 G (emPart q) h, e1, e2, e3, if_neg (by decide)]
  have l := lower_zero G ha hb
  have u0 : Rel.tU 0 G q 0 = Rel.lorentz G.gam q.v := by
    rw [Rel.tU_split G q ha0, Fin.cons_zero, ha, div_one]
  simp only [emEnergyFlux, hucon1_eq G q ha0, hbcon1_eq G q h ha0, hb0_eq G q h ha0, Rel.magneticFieldSquared_eq G q h hp, l, u0]
  simp only [emPart, ha]
  ring

/-- witness: a fluid moving along its field carries no electromagnetic energy flux, but a nonzero one is reported. -/
theorem emEnergyFlux_wrong : ∃ q : Rel.Prim, Rel.mixed Tracers.flat.g4 (Rel.tmunu 0 Tracers.flat (emPart q)) 1 0 = 0 ∧
    emEnergyFlux 0 Tracers.flat 1 q ≠ 0 := by
  have hv := Tracers.flat_valid
  have hW : Rel.lorentz Tracers.flat.gam ![3 / 4, 0, 0] = 5 / 4 := by
    unfold Rel.lorentz
    rw [show (1 : ℝ) + ∑ i, ∑ j, Tracers.flat.gam i j * (![3 / 4, 0, 0] : Fin 3 → ℝ) i * (![3 / 4, 0, 0] : Fin 3 → ℝ) j = (5 / 4) ^ 2 by
      simp [Tracers.flat, Fin.sum_univ_three]; norm_num]
    exact Real.sqrt_sq (by norm_num)
  let q : Rel.Prim := ⟨1, 1, 1, ![3 / 4, 0, 0], ![1, 0, 0]⟩
  have hT : Rel.mixed Tracers.flat.g4 (Rel.tmunu 0 Tracers.flat (emPart q)) 1 0 = 0 := by
    have hpos : 0 < Tracers.flat.alpha := by simp [Tracers.flat]
    have e1 : Rel.tbsq 0 Tracers.flat (emPart q) = Rel.tbsq 0 Tracers.flat q := rfl
    have e2 : Rel.tU 0 Tracers.flat (emPart q) = Rel.tU 0 Tracers.flat q := rfl
    have e3 : Rel.tB 0 Tracers.flat (emPart q) = Rel.tB 0 Tracers.flat q := rfl
    rw [Rel.tmunu_mixed 0 _ _ hv.1, if_neg (by decide), lower_zero _ rfl rfl, lower_zero _ rfl rfl, e1, e2, e3, Rel.tU_split _ _ hpos,
      Rel.tB_split _ _ hpos hv.2]
    show _ * (_ - _) * _ + _ - (_ - _) * _ = (0 : ℝ)
    rw [Fin.cons_zero, Fin.cons_zero]
    simp only [Rel.tbsq, Rel.tBdotv_eq, Rel.tBsq_eq, Rel.ratio_zero, q, hW, emPart]
    simp [Tracers.flat, ADM.dot3, Fin.sum_univ_three]
    norm_num
  refine ⟨q, hT, ?_⟩
  rw [emEnergyFlux_error _ hv.1 rfl rfl hv.2, hT, Rel.tB_split _ _ (by simp [Tracers.flat]) hv.2, Rel.tBdotv_eq]
  show _ - _ * (_ - _) * _ ≠ _
  rw [Fin.cons_zero]
  simp only [q, hW]
  simp [Tracers.flat, ADM.dot3, Fin.sum_univ_three]
  norm_num

end Phoebus.History
