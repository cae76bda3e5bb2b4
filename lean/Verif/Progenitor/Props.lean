import Verif.Progenitor.Model
import Verif.Transform.SphProps

/-!
# C101-C103: the progenitor table and the collapsing star
-/
namespace Phoebus.Progenitor
open Finset

section Reader
variable {K : Type*}

/-! ## Reading -/

theorem readtable_spec (ls : List (Line K)) (d : Table K) :
    (readtable ls d = none ↔ ∃ l ∈ ls, 11 < l.row.length) ∧
    ∀ d', readtable ls d = some d' → ∀ c, d' c = d c ++ ls.flatMap fun l => (l.row[c.val]?).toList := by
  induction ls generalizing d with
  | nil => exact ⟨by simp [readtable], fun d' h c => by simp [readtable] at h; simp [← h]⟩
  | cons l ls ih =>
    by_cases hl : l.row.length ≤ 11
    · have hp : pushRow d l.row = some fun c => d c ++ (l.row[c.val]?).toList := by unfold pushRow; rw [if_pos hl]
      constructor
      · simp only [readtable, hp, Option.bind_some, (ih _).1, List.mem_cons, exists_eq_or_imp]
        constructor
        · exact Or.inr
        · rintro (h | h)
          · omega
          · exact h
      · intro d' h c
        simp only [readtable, hp, Option.bind_some] at h
        rw [(ih _).2 d' h c, List.flatMap_cons, List.append_assoc]
    · have hp : pushRow d l.row = none := by unfold pushRow; rw [if_neg hl]
      constructor
      · simp only [readtable, hp, Option.bind_none, true_iff]
        exact ⟨l, by simp, by omega⟩
      · intro d' h
        simp [readtable, hp] at h

theorem column_length (ls : List (Line K)) (c : ℕ) :
    (ls.flatMap fun l => (l.row[c]?).toList).length = (ls.filter fun l => decide (c < l.row.length)).length := by
  induction ls with
  | nil => rfl
  | cons l ls ih =>
    rw [List.flatMap_cons, List.length_append, ih, List.filter_cons]
    by_cases h : c < l.row.length
    · simp [h]; omega
    · simp [h, List.getElem?_eq_none (not_lt.1 h)]

/-- **C101** The table loads without reading or writing outside an array exactly when every line that is not a comment has no numbers or exactly
eleven: any other file is accepted without a message and read out of bounds. -/
theorem load_defined_iff (ls : List (Line K)) :
    (load ls).isSome ↔ ∀ l ∈ ls, l.row.length = 0 ∨ l.row.length = 11 := by
  obtain ⟨h1, h2⟩ := readtable_spec ls (fun _ => [])
  unfold load
  cases hr : readtable ls (fun _ => []) with
  | none =>
    obtain ⟨l, hl, hlen⟩ := h1.1 hr
    simp only [Option.bind_none, Option.isSome_none, Bool.false_eq_true, false_iff]
    intro h
    rcases h l hl with h | h <;> omega
  | some d =>
    have hno : ∀ l ∈ ls, l.row.length ≤ 11 := by
      intro l hl
      by_contra hc
      have := h1.2 ⟨l, hl, by omega⟩
      rw [hr] at this; simp at this
    have hlen : ∀ c, (d c).length = (ls.filter fun l => decide (c.val < l.row.length)).length := by
      intro c
      rw [h2 d hr c, List.nil_append, column_length]
    have hmono : ∀ c : Fin 11, (d 10).length ≤ (d c).length := by
      intro c
      rw [hlen, hlen]
      refine (List.monotone_filter_right ls ?_).length_le
      intro l h
      simp only [decide_eq_true_eq] at h ⊢
      have := c.isLt
      exact lt_of_le_of_lt (by show c.val ≤ 10; omega) h
    have hfill : (fill d).isSome ↔ (d 0).length ≤ (d 10).length := by
      unfold fill
      split_ifs with h
      · simp [h 10]
      · simp only [Option.isSome_none, Bool.false_eq_true, false_iff]
        intro hc
        exact h fun c => hc.trans (hmono c)
    simp only [Option.bind_some, hfill]
    rw [hlen, hlen, ← List.countP_eq_length_filter, ← List.countP_eq_length_filter]
    show List.countP (fun l => decide (0 < l.row.length)) ls ≤ List.countP (fun l => decide (10 < l.row.length)) ls ↔ _
    clear hr h1 h2 hlen hmono hfill
    induction ls with
    | nil => simp
    | cons l ls ih =>
      have ih' := ih fun l hl => hno l (List.mem_cons_of_mem _ hl)
      have hl := hno l (by simp)
      have hle : List.countP (fun l : Line K => decide (10 < l.row.length)) ls ≤ List.countP (fun l : Line K => decide (0 < l.row.length)) ls := by
        refine List.countP_mono_left fun l _ h => ?_
        simp only [decide_eq_true_eq] at h ⊢; omega
      rw [List.countP_cons, List.countP_cons]
      simp only [List.mem_cons, forall_eq_or_imp, ← ih', decide_eq_true_eq]
      by_cases h0 : l.row.length = 0
      · simp [h0]
      · by_cases h11 : l.row.length = 11
        · simp [h11]
        · rw [if_pos (by omega), if_neg (by omega)]
          constructor
          · intro h; omega
          · rintro ⟨h | h, -⟩ <;> omega

/-- the lines that carry data. -/
def dataRows (ls : List (Line K)) : List (List K) := (ls.map Line.row).filter fun r => !r.isEmpty

/-- **C101** For a well-formed file (every line a comment, without numbers, or with eleven numbers) comments, blank lines and text are skipped, the number
of points is the number of data lines, and sample `i` of every column is the number in that column of the `i`-th data line.

Partial form of C101. Full property: For a file whose lines are comments, carry no numbers, or carry eleven numbers,
the number of points is the number of data lines and sample i of every column is the number in that column of the i-th
data line. Missing: Well-formed files proved; malformed files are read out of bounds (load_defined_iff), and the mass
function always is. -/
theorem load_spec_partial (ls : List (Line K)) (h : ∀ l ∈ ls, l.row.length = 0 ∨ l.row.length = 11) :
    ∃ f, load ls = some ((dataRows ls).length, f) ∧ ∀ (c : Fin 11) (i : ℕ) (r : List K), (dataRows ls)[i]? = some r → f c i = r[c.val]? ∧ (f c i).isSome := by
  obtain ⟨h1, h2⟩ := readtable_spec ls (fun _ => [])
  obtain ⟨d, hd⟩ : ∃ d, readtable ls (fun _ => []) = some d := by
    rw [← Option.ne_none_iff_exists']
    intro hc
    obtain ⟨l, hl, hlt⟩ := h1.1 hc
    rcases h l hl with h | h <;> omega
  have hcol : ∀ c : Fin 11, (ls.flatMap fun l => (l.row[c.val]?).toList).map some = (dataRows ls).map fun r => r[c.val]? := by
    intro c
    unfold dataRows
    clear hd h1 h2
    induction ls with
    | nil => rfl
    | cons l ls ih =>
      have ih' := ih fun l hl => h l (List.mem_cons_of_mem _ hl)
      rw [List.flatMap_cons, List.map_append, ih', List.map_cons, List.filter_cons]
      rcases h l (by simp) with h0 | h11
      · have : l.row = [] := List.length_eq_zero_iff.1 h0
        simp [this]
      · have hne : l.row ≠ [] := by intro hc; rw [hc] at h11; simp at h11
        have hlt : c.val < l.row.length := by rw [h11]; exact c.isLt
        simp [hne, hlt]
  have hdc : ∀ c, (d c).map some = (dataRows ls).map fun r => r[c.val]? := by
    intro c; rw [h2 d hd c, List.nil_append, hcol]
  have hlen : ∀ c, (d c).length = (dataRows ls).length := by
    intro c
    have := congrArg List.length (hdc c)
    simpa using this
  refine ⟨fun c i => (d c)[i]?, ?_, ?_⟩
  · unfold load
    rw [hd, Option.bind_some]
    unfold fill
    rw [if_pos fun c => by rw [hlen, hlen], hlen]
  · intro c i r hr
    have h3 := congrArg (fun l : List (Option K) => l[i]?) (hdc c)
    simp only [List.getElem?_map, hr, Option.map_some] at h3
    obtain ⟨x, hx, hx'⟩ := Option.map_eq_some_iff.1 h3
    exact ⟨by simp only [hx, hx'], by simp [hx]⟩

/-- a file with a comment, a blank line, and two data lines, the second followed by text. -/
def exFile : List (Line ℚ) :=
  [⟨true, [none, some 5]⟩, ⟨false, [0, 1, 2, 3, 4, 5, 6, 7, 8, 9, 10].map some⟩, ⟨false, []⟩,
    ⟨false, ([1, 1, 2, 3, 4, 5, 6, 7, 8, 9, 20].map some) ++ [none, some 7]⟩]

theorem ex_load : (∀ l ∈ exFile, l.row.length = 0 ∨ l.row.length = 11) ∧ (load exFile).map (fun p => (p.1, p.2 10 0, p.2 10 1)) = some (2, some 10, some 20) := by
  decide +kernel

/-- a line with a missing entry makes the load read past the end of the last column. -/
theorem ragged_undefined : load (exFile ++ [⟨false, [some 2, some 3]⟩]) = none := by decide +kernel

end Reader

section Mass
variable {K : Type*} [Field K]

/-- **C101** The mass of the table cannot be computed: every call reads past the end of the columns (for a table of any size, and an empty one). -/
theorem calculatemass_undefined (d : Table K) : calculatemass d = none := by
  have key : ∀ n i (m : K), n + i = (d 0).length → 0 < n → massLoop d n i m = none := by
    intro n
    induction n with
    | zero => intro i m _ h; omega
    | succ n ih =>
      intro i m hn _
      rw [massLoop]
      by_cases h0 : n = 0
      · have hb : (d 0)[i + 1]? = none := List.getElem?_eq_none (by omega)
        have : massPass d i m = none := by
          unfold massPass
          rw [hb]
          cases (d 1)[i + 1]? <;> rfl
        rw [this]; rfl
      · cases massPass d i m with
        | none => rfl
        | some m' => exact ih (i + 1) m' (by omega) (by omega)
  unfold calculatemass
  by_cases h0 : (d 0).length = 0
  · rw [if_pos h0, massLoop]
    have hb : (d 0)[0 + 1]? = none := List.getElem?_eq_none (by omega)
    have : massPass d 0 (0 : K) = none := by
      unfold massPass
      rw [hb]
      cases (d 1)[0 + 1]? <;> rfl
    rw [this]; rfl
  · rw [if_neg h0]; exact key _ _ _ (by omega) (by omega)

/-- As long as the passes stay inside the table they add up the trapezoidal shell masses `4 · 3.14 · (ρ r²)` between the radii: the loop bound is the only
thing wrong with `calculatemass` (apart from the value of π). -/
theorem massLoop_value (d : Table K) (rho r : ℕ → K) (L : ℕ) (hr : ∀ i < L, (d 0)[i]? = some (r i)) (hd : ∀ i < L, (d 1)[i]? = some (rho i)) (n i : ℕ) (m : K)
    (h : n + i < L) :
    massLoop d n i m = some (m + ∑ j ∈ Finset.range n, 4 * 3.14 * (rho (i + j + 1) * r (i + j + 1) ^ 2 + rho (i + j) * r (i + j) ^ 2) / 2 *
      (r (i + j + 1) - r (i + j))) := by
  induction n generalizing i m with
  | zero => simp [massLoop]
  | succ n ih =>
    have hp : massPass d i m = some (m + 4 * 3.14 * (rho (i + 1) * r (i + 1) ^ 2 + rho i * r i ^ 2) / 2 * (r (i + 1) - r i)) := by
      unfold massPass
      rw [hd (i + 1) (by omega), hr (i + 1) (by omega), hd i (by omega), hr i (by omega)]; rfl
    rw [massLoop, hp, Option.bind_some, ih (i + 1) _ (by omega), Finset.sum_range_succ', add_zero, add_assoc, add_comm (Finset.sum _ _)]
    congr 3
    refine Finset.sum_congr rfl fun j _ => ?_
    rw [show i + 1 + j = i + (j + 1) by ring]

/-- a table of three radii. -/
example : massLoop (fun c : Fin 11 => if c = 0 then [0, 1, 2] else [1, 1, 1] : Table ℚ) 2 0 0 = some (4 * 3.14 * (1 / 2 + 5 / 2)) := by
  rw [massLoop_value _ (fun _ => (1 : ℚ)) (fun i => (i : ℚ)) 3] <;> norm_num [Finset.sum_range_succ]
  all_goals intro i hi; interval_cases i <;> simp

end Mass

section Lookup
variable {K : Type*} [Field K] [LinearOrder K] [IsStrictOrderedRing K] [FloorRing K]

/-! ## Looking up -/

/-- the radii of the table are evenly spaced. -/
def Even (n : ℕ) (r : ℕ → K) : Prop := ∀ i < n, r i = r 0 + i * ((r (n - 1) - r 0) / ((n : K) - 1))

/-- an affine profile is reproduced at every radius as a function of the position on the *regular* grid. -/
theorem lookup_affine (n : ℕ) (r : ℕ → K) (h : spacing n r ≠ 0) (x a b : K) :
    lookup n r (fun i => a + b * i) x = a + b * ((x - r 0) / spacing n r) := by
  unfold lookup
  push_cast
  field_simp
  ring

theorem lookup_node (n : ℕ) (hn : 2 ≤ n) (r y : ℕ → K) (h : 0 < spacing n r) (i : ℕ) (hi : i < n) :
    lookup n r y (r 0 + i * spacing n r) = y i := by
  have hfl : ⌊(r 0 + i * spacing n r - r 0) / spacing n r⌋.toNat = i := by
    have : (r 0 + i * spacing n r - r 0) / spacing n r = (i : K) := by field_simp; ring
    rw [this, Int.floor_natCast, Int.toNat_natCast]
  unfold lookup cellIndex
  rw [hfl]
  by_cases hl : i ≤ n - 2
  · rw [min_eq_left hl]; simp
  · have : i = n - 2 + 1 := by omega
    rw [min_eq_right (by omega)]
    have hw : (r 0 + (i : K) * spacing n r - (r 0 + ((n - 2 : ℕ) : K) * spacing n r)) / spacing n r = 1 := by
      rw [this]; push_cast; field_simp; ring
    simp only [hw]
    rw [this]; ring

/-- **C102** The profiles of the star are reproduced at the tabulated radii, for every profile, exactly when the radii are evenly spaced.  (The code does not
check this; a table with another grid is silently stretched.)

Partial form of C102. Full property: Looking a profile up at a tabulated radius returns the tabulated value, and in
between a value between the two neighbouring samples. Missing: Exact condition: evenly spaced radii. -/
theorem lookup_correct_iff_partial (n : ℕ) (hn : 2 ≤ n) (r : ℕ → K) (hr : r 0 < r (n - 1)) :
    (∀ (y : ℕ → K) (i : ℕ), i < n → lookup n r y (r i) = y i) ↔ Even n r := by
  have hn1 : (0:K) < (n : K) - 1 := by
    have : (2:K) ≤ n := by exact_mod_cast hn
    linarith
  have hs : 0 < spacing n r := div_pos (by linarith) hn1
  constructor
  · intro h i hi
    have := h (fun j => 0 + 1 * (j : K)) i hi
    rw [lookup_affine n r hs.ne'] at this
    simp only [zero_add, one_mul] at this
    rw [div_eq_iff hs.ne'] at this
    show r i = r 0 + i * spacing n r
    linarith
  · intro h y i hi
    rw [h i hi]
    exact lookup_node n hn r y hs i hi

/-- **C102** Inside the range the value looked up lies between two neighbouring samples, so no profile is over- or undershot; a non-negative table gives a non-negative density. -/
theorem lookup_between (n : ℕ) (hn : 2 ≤ n) (r y : ℕ → K) (hr : r 0 < r (n - 1)) (x : K) (h0 : r 0 ≤ x) (h1 : x ≤ r (n - 1)) :
    ∃ i, i + 1 < n ∧ min (y i) (y (i + 1)) ≤ lookup n r y x ∧ lookup n r y x ≤ max (y i) (y (i + 1)) := by
  have hn1 : (0:K) < (n : K) - 1 := by
    have : (2:K) ≤ n := by exact_mod_cast hn
    linarith
  have hs : 0 < spacing n r := div_pos (by linarith) hn1
  have hend : r (n - 1) = r 0 + ((n : K) - 1) * spacing n r := by
    unfold spacing; field_simp; ring
  set q := (x - r 0) / spacing n r with hq
  have hq0 : 0 ≤ q := div_nonneg (by linarith) hs.le
  have hx : x = r 0 + q * spacing n r := by rw [hq]; field_simp; ring
  set m := ⌊q⌋.toNat with hm
  have hmq : (m : K) ≤ q := by
    have h2 : ((⌊q⌋.toNat : ℤ) : K) = ((⌊q⌋ : ℤ) : K) := by rw [Int.toNat_of_nonneg (Int.floor_nonneg.2 hq0)]
    have := Int.floor_le q
    rw [← h2] at this; exact_mod_cast this
  have hqm : q < m + 1 := by
    have h2 : ((⌊q⌋.toNat : ℤ) : K) = ((⌊q⌋ : ℤ) : K) := by rw [Int.toNat_of_nonneg (Int.floor_nonneg.2 hq0)]
    have := Int.lt_floor_add_one q
    rw [← h2] at this; exact_mod_cast this
  have hqn : q ≤ (n : K) - 1 := by
    rw [hq, div_le_iff₀ hs]; linarith
  have hi : cellIndex n r x = min m (n - 2) := rfl
  refine ⟨cellIndex n r x, by rw [hi]; omega, ?_⟩
  have hw : ∀ i : ℕ, (x - (r 0 + i * spacing n r)) / spacing n r = q - i := by
    intro i; rw [hx]; field_simp; ring
  have hw01 : 0 ≤ q - (cellIndex n r x : K) ∧ q - (cellIndex n r x : K) ≤ 1 := by
    rw [hi]
    rcases le_total m (n - 2) with hle | hle
    · rw [min_eq_left hle]; exact ⟨by linarith, by linarith⟩
    · rw [min_eq_right hle]
      have hc : ((n - 2 : ℕ) : K) = (n : K) - 2 := by push_cast [hn]; ring
      have : ((n - 2 : ℕ) : K) ≤ m := by exact_mod_cast hle
      exact ⟨by linarith, by linarith⟩
  have hl : lookup n r y x = (1 - (q - (cellIndex n r x : K))) * y (cellIndex n r x) + (q - (cellIndex n r x : K)) * y (cellIndex n r x + 1) := by
    unfold lookup; simp only [hw]
  rw [hl]
  obtain ⟨w0, w1⟩ := hw01
  generalize q - (cellIndex n r x : K) = w at *
  generalize y (cellIndex n r x) = a
  generalize y (cellIndex n r x + 1) = b
  constructor
  · nlinarith [min_le_left a b, min_le_right a b]
  · nlinarith [le_max_left a b, le_max_right a b]

/-- a table with logarithmic radii: the density at the second tabulated radius is not the tabulated one. -/
theorem ex_stretched : lookup 3 (fun i => (10:ℚ) ^ i) (fun i => 100 / 10 ^ i) 10 ≠ 10 := by decide +kernel

end Lookup

/-! ## The collapsing star -/

/-- the length of a vector in the three-metric, squared. -/
def normSq (gam : Fin 3 → Fin 3 → ℝ) (v : Fin 3 → ℝ) : ℝ := ∑ i, ∑ j, gam i j * v i * v j

/-- the three-velocity measured by the normal observer that a stored velocity stands for. -/
noncomputable def measured (gam : Fin 3 → Fin 3 → ℝ) (w : Fin 3 → ℝ) : Fin 3 → ℝ := fun i => w i / Rel.lorentz gam w

theorem normSq_smul (gam : Fin 3 → Fin 3 → ℝ) (v : Fin 3 → ℝ) (c : ℝ) : normSq gam (fun i => c * v i) = c ^ 2 * normSq gam v := by
  unfold normSq
  rw [mul_sum]
  refine sum_congr rfl fun i _ => ?_
  rw [mul_sum]
  exact sum_congr rfl fun j _ => by ring

/-- **C103** Velocity set up from a tabulated velocity `v`: the direction is kept, but the speed is `v√(1+v²)/√(1+v²+v⁴)` instead of `v` (in the
three-metric), because the Lorentz factor is computed as if `v` were already multiplied by it. -/
theorem hom_speed (gam : Fin 3 → Fin 3 → ℝ) (v : Fin 3 → ℝ) (hs : 0 ≤ normSq gam v) :
    let s := normSq gam v
    let p := measured gam (homStore gam v)
    (∃ c, 0 < c ∧ c ≤ 1 ∧ (0 < s → c < 1) ∧ p = fun i => c * v i) ∧ normSq gam p = s * (1 + s) / (1 + s + s ^ 2) ∧ normSq gam p < 1 := by
  intro s p
  have hL : Rel.lorentz gam v = Real.sqrt (1 + s) := rfl
  have hst : homStore gam v = fun i => Real.sqrt (1 + s) * v i := by
    funext d; simp only [homStore, hL]; ring
  have hsq : Real.sqrt (1 + s) ^ 2 = 1 + s := Real.sq_sqrt (by simp only [s]; linarith)
  have hW : Rel.lorentz gam (homStore gam v) = Real.sqrt (1 + s + s ^ 2) := by
    show Real.sqrt (1 + normSq gam (homStore gam v)) = _
    rw [hst, normSq_smul, hsq]
    congr 1; simp only [s]; ring
  have hpos : 0 < 1 + s + s ^ 2 := by simp only [s]; positivity
  have hp : p = fun i => (Real.sqrt (1 + s) / Real.sqrt (1 + s + s ^ 2)) * v i := by
    funext i
    simp only [p, measured, hW]
    rw [hst]; ring
  have hn : normSq gam p = s * (1 + s) / (1 + s + s ^ 2) := by
    rw [hp, normSq_smul, div_pow, hsq, Real.sq_sqrt hpos.le]; simp only [s]; ring
  have h1 : 0 < Real.sqrt (1 + s) := Real.sqrt_pos.2 (by simp only [s]; linarith)
  refine ⟨⟨_, div_pos h1 (Real.sqrt_pos.2 hpos), ?_, ?_, hp⟩, hn, ?_⟩
  · exact (div_le_one (Real.sqrt_pos.2 hpos)).2 (Real.sqrt_le_sqrt (by nlinarith [sq_nonneg s]))
  · intro h
    exact (div_lt_one (Real.sqrt_pos.2 hpos)).2 (Real.sqrt_lt_sqrt (by linarith) (by nlinarith))
  · rw [hn, div_lt_one hpos]; nlinarith

/-- **C103** The measured speed is the tabulated one only for matter at rest: otherwise the star collapses too slowly. -/
theorem hom_speed_slow (gam : Fin 3 → Fin 3 → ℝ) (v : Fin 3 → ℝ) (hs : 0 ≤ normSq gam v) :
    normSq gam (measured gam (homStore gam v)) ≤ normSq gam v ∧
    (normSq gam (measured gam (homStore gam v)) = normSq gam v ↔ normSq gam v = 0) := by
  obtain ⟨-, h, -⟩ := hom_speed gam v hs
  rw [h]
  generalize normSq gam v = s at *
  have hpos : 0 < 1 + s + s ^ 2 := by positivity
  refine ⟨by rw [div_le_iff₀ hpos]; nlinarith [pow_nonneg hs 3], ?_⟩
  rw [div_eq_iff hpos.ne']
  constructor
  · intro h
    have : s ^ 3 = 0 := by nlinarith
    exact pow_eq_zero_iff (by norm_num) |>.1 this
  · rintro rfl; ring

/-- **C103** Away from the axis the velocity handed to the Cartesian grid is the tabulated radial velocity along the radius vector of the cell, and the
profiles are looked up at the length of that vector.

Partial form of C103. Full property: The velocity set up on the grid is the tabulated radial velocity, along the
radius vector of the cell. Missing: Direction proved; the speed is wrong (hom_speed_slow). -/
theorem hom_radial_partial (eps : ℝ) (X : Fin 3 → ℝ) (h : Transform.OffAxis eps (X 0) (X 1) (X 2)) (vr : ℝ) (i : Fin 3) :
    homVel true 0 eps X vr i * homRadius true X = vr * X i := by
  obtain ⟨hc, hr, hs⟩ := Transform.sphCoords_invert h
  have e := Transform.sphCoords_eq h
  have hrad : homRadius true X = (Transform.sphCoords 0 eps (X 0) (X 1) (X 2)).1 := by rw [e]; rfl
  have h0 := congrFun hc 0
  have h1 := congrFun hc 1
  have h2 := congrFun hc 2
  simp only [Transform.cart, Matrix.cons_val_zero, Matrix.cons_val_one, Matrix.cons_val] at h0 h1 h2
  rw [hrad]
  have hi : i = 0 ∨ i = 1 ∨ i = 2 := by omega
  rcases hi with rfl | rfl | rfl <;>
    simp [homVel, Transform.sph2cart, Fin.sum_univ_three] <;> [linear_combination vr * h0; linear_combination vr * h1; linear_combination vr * h2]

/-- On spherical coordinates the velocity has a radial component only, the tabulated one, looked up at the radius. -/
theorem hom_radial_spherical (small eps : ℝ) (X : Fin 3 → ℝ) (vr : ℝ) :
    homVel false small eps X vr 0 = vr ∧ homVel false small eps X vr 1 = 0 ∧ homVel false small eps X vr 2 = 0 ∧ (0 ≤ X 0 → homRadius false X = X 0) := by
  refine ⟨rfl, rfl, rfl, fun h => ?_⟩
  simp [homRadius, abs_of_nonneg h]

/-- a point off the axis, velocity 1/2: the hypotheses are met and the speed squared set up is 5/21, not 1/4. -/
theorem ex_hom : normSq (fun i j => if i = j then 1 else 0) (measured (fun i j => if i = j then 1 else 0) (homStore (fun i j => if i = j then 1 else 0) ![1 / 2, 0, 0])) = 5 / 21 := by
  have e : normSq (fun i j => if i = j then 1 else 0) ![1 / 2, 0, 0] = 1 / 4 := by
    simp [normSq, Fin.sum_univ_three]; norm_num
  rw [(hom_speed _ _ (by rw [e]; norm_num)).2.1, e]; norm_num

end Phoebus.Progenitor
