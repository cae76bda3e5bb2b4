import Verif.Monopole.Props
import Mathlib.Analysis.SpecialFunctions.Sqrt

/-!
# Output of the monopole solver (C160)

`InterpMetricToGrid`, `DumpToTxt` and `DumpHypersurface` of `/repo/src/monopole_gr/monopole_gr.cpp:653-787`.
-/
namespace Phoebus.Monopole

/-! ### Model -/

/-- the arrays of the package: matter on points and in shells, shell volumes, hypersurface, lapse, gradients; the first index is that of the enums of monopole_gr_base.hpp:38-75. -/
structure Arrays where
  matter : Fin 4 → ℕ → ℝ
  cells : Fin 4 → ℕ → ℝ
  vols : ℕ → ℝ
  hyper : Fin 2 → ℕ → ℝ
  alpha : ℕ → ℝ
  grad : Fin 8 → ℕ → ℝ

/-- the radial grid: number of points, smallest radius, spacing, and the index function of `Spiner` (a contract). (Data of monopole_gr.cpp:190.) -/
structure Radial where
  npoints : ℕ
  min : ℝ
  dx : ℝ
  index : ℝ → ℕ

/-- `radius.x(i)`. (Contract of `Spiner`, used in monopole_gr.cpp:688, 710.) -/
def Radial.x (R : Radial) (i : ℕ) : ℝ := (i : ℝ) * R.dx + R.min

/-- radius of a zone, monopole_gr.cpp:764-770; `sph` is `is_monopole_sph`. -/
noncomputable def zoneRadius (sph : Bool) (x : Fin 3 → ℝ) : ℝ := if sph then |x 0| else Real.sqrt (x 0 * x 0 + x 1 * x 1 + x 2 * x 2)

/-- the seven fields `a, Krr, alpha, rho_ADM, j_ADM, TrcS_ADM, Srr_ADM` of a zone, monopole_gr.cpp:758-783. -/
noncomputable def gridFields (R : Radial) (sph : Bool) (s : Arrays) (x : Fin 3 → ℝ) : Fin 7 → ℝ :=
  let r := zoneRadius sph x
  let I := fun A => interpolate R.npoints R.min R.dx A (R.index r) r
  ![I (s.hyper 0), I (s.hyper 1), I s.alpha, I (s.matter 0), I (s.matter 1), I (s.matter 2), I (s.matter 3)]

/-- a line of `DumpToTxt`, monopole_gr.cpp:687-702. -/
def dumpLine (R : Radial) (s : Arrays) (i : ℕ) : List ℝ :=
  [R.x i, s.hyper 0 i, s.hyper 1 i, s.alpha i, s.matter 0 i, s.matter 1 i, s.matter 2 i, s.matter 3 i, s.grad 0 i, s.grad 1 i, s.grad 2 i, s.grad 3 i, s.grad 4 i, s.grad 5 i, s.grad 1 i, s.grad 7 i,
    s.cells 0 i, s.cells 1 i, s.cells 2 i, s.cells 3 i, s.vols i]

/-- the names in the first line of `DumpToTxt`, monopole_gr.cpp:685. -/
def dumpHeader : List String := ["r", "a", "K", "alpha", "rho", "j", "S"]

/-- the file written by `DumpToTxt`, monopole_gr.cpp:686-703. -/
def dumpFile (R : Radial) (s : Arrays) : List (List ℝ) := (List.range R.npoints).map (dumpLine R s)

/-- a line of `DumpHypersurface`, monopole_gr.cpp:709-715. -/
def hyperLine (R : Radial) (s : Arrays) (i : ℕ) : ℕ × List ℝ := (i, [R.x i, s.matter 0 i, s.matter 1 i, s.matter 2 i, s.matter 3 i, s.hyper 0 i, s.hyper 1 i])

/-- the names in the first line of `DumpHypersurface`, monopole_gr.cpp:708. -/
def hyperHeader : List String := ["it", "r", "rho", "J_r", "trcS", "Srr", "A", "K"]

/-! ### Specification -/

/-- what a column of a file is meant to be: a radial profile of the state. -/
abbrev Quantity := Radial → Arrays → ℕ → ℝ

/-- a file shows a quantity: some column holds it, in every file. -/
def Shows (line : Radial → Arrays → ℕ → List ℝ) (Q : Quantity) : Prop := ∃ c : ℕ, ∀ R s i, (line R s i)[c]? = some (Q R s i)

/-! ### Proofs -/

/-- **C160 (fields)**: zones at the same radius hold the same seven values, whatever block they are in; a zone on a point of the radial grid holds the values of that point; and profiles that are quadratic in
the radius are shown exactly, away from the last point of the radial grid. -/
theorem grid_fields (R : Radial) (sph : Bool) (s : Arrays) :
    (∀ x y, zoneRadius sph x = zoneRadius sph y → gridFields R sph s x = gridFields R sph s y) ∧
    (∀ x i, R.index (zoneRadius sph x) = i → zoneRadius sph x = R.x i →
      gridFields R sph s x = ![s.hyper 0 i, s.hyper 1 i, s.alpha i, s.matter 0 i, s.matter 1 i, s.matter 2 i, s.matter 3 i]) ∧
    (R.dx ≠ 0 → ∀ P : Fin 7 → ℝ × ℝ × ℝ, (∀ i, (![s.hyper 0 i, s.hyper 1 i, s.alpha i, s.matter 0 i, s.matter 1 i, s.matter 2 i, s.matter 3 i] : Fin 7 → ℝ) =
        fun n => (P n).1 + (P n).2.1 * R.x i + (P n).2.2 * R.x i ^ 2) →
      ∀ x, R.index (zoneRadius sph x) ≠ R.npoints - 1 → ∀ n, gridFields R sph s x n = (P n).1 + (P n).2.1 * zoneRadius sph x + (P n).2.2 * zoneRadius sph x ^ 2) := by
  refine ⟨fun x y h => by unfold gridFields; rw [h], fun x i h1 h2 => ?_, fun hd P hP x hx n => ?_⟩
  · unfold gridFields
    have h3 : R.index (R.x i) = i := by rw [← h2]; exact h1
    simp only [h2, h3]
    unfold Radial.x
    simp only [interpolate_node]
  · have key : ∀ (A : ℕ → ℝ) (p : ℝ × ℝ × ℝ), (∀ i, A i = p.1 + p.2.1 * R.x i + p.2.2 * R.x i ^ 2) →
        interpolate R.npoints R.min R.dx A (R.index (zoneRadius sph x)) (zoneRadius sph x) = p.1 + p.2.1 * zoneRadius sph x + p.2.2 * zoneRadius sph x ^ 2 := by
      intro A p hA
      have : A = fun i : ℕ => p.1 + p.2.1 * ((i : ℝ) * R.dx + R.min) + p.2.2 * ((i : ℝ) * R.dx + R.min) ^ 2 := by funext i; rw [hA]; rfl
      rw [this]
      exact interpolate_quadratic R.npoints R.min R.dx hd _ _ _ _ _ (Or.inr hx)
    have hn := fun i => congrFun (hP i) n
    fin_cases n <;> exact key _ _ fun i => hn i

/-- **C160 (fields, defect)**: beyond the last point of the radial grid a constant lapse is shown as one that grows with the radius. -/
theorem grid_last_wrong (R : Radial) (s : Arrays) (c : ℝ) (hc : c ≠ 0) (hn : 1 < R.npoints) (hd : R.dx ≠ 0) (ha : s.alpha = fun _ => c) (sph : Bool) (x : Fin 3 → ℝ)
    (hx : R.index (zoneRadius sph x) = R.npoints - 1) (hr : zoneRadius sph x ≠ R.x (R.npoints - 1)) : gridFields R sph s x 2 ≠ c := by
  show interpolate R.npoints R.min R.dx s.alpha _ _ ≠ c
  rw [ha, hx, interpolate_last_wrong _ hn _ _ _ hd]
  intro h
  have h0 : c / R.dx * (zoneRadius sph x - (((R.npoints - 1 : ℕ) : ℝ) * R.dx + R.min)) = 0 := by linarith
  rcases mul_eq_zero.1 h0 with h1 | h1
  · exact (div_ne_zero hc hd) h1
  · exact hr (by unfold Radial.x; linarith)

/-- **C160 (files)**: the dump shows the radius, hypersurface, lapse, matter on points and in shells, volumes and every gradient but `dK/dt`; the hypersurface file shows radius, matter and hypersurface. -/
theorem dump_shows : (Shows dumpLine fun R _ i => R.x i) ∧ (∀ n, Shows dumpLine fun _ s i => s.hyper n i) ∧ (Shows dumpLine fun _ s i => s.alpha i) ∧ (∀ n, Shows dumpLine fun _ s i => s.matter n i) ∧
    (∀ n, Shows dumpLine fun _ s i => s.cells n i) ∧ (Shows dumpLine fun _ s i => s.vols i) ∧ (∀ n, n ≠ 6 → Shows dumpLine fun _ s i => s.grad n i) ∧
    (Shows (fun R s i => (hyperLine R s i).2) fun R _ i => R.x i) ∧ (∀ n, Shows (fun R s i => (hyperLine R s i).2) fun _ s i => s.matter n i) ∧ (∀ n, Shows (fun R s i => (hyperLine R s i).2) fun _ s i => s.hyper n i) := by
  refine ⟨⟨0, fun _ _ _ => rfl⟩, fun n => ?_, ⟨3, fun _ _ _ => rfl⟩, fun n => ⟨4 + n, fun R s i => ?_⟩, fun n => ⟨16 + n, fun R s i => ?_⟩, ⟨20, fun _ _ _ => rfl⟩, fun n hn => ⟨8 + n, fun R s i => ?_⟩,
    ⟨0, fun _ _ _ => rfl⟩, fun n => ⟨1 + n, fun R s i => ?_⟩, fun n => ⟨5 + n, fun R s i => ?_⟩⟩
  · refine ⟨1 + n, fun R s i => ?_⟩
    fin_cases n <;> rfl
  · fin_cases n <;> rfl
  · fin_cases n <;> rfl
  · fin_cases n <;> first | rfl | exact absurd rfl hn
  · fin_cases n <;> rfl
  · fin_cases n <;> rfl

/-- **C160 (files, defect)**: no column shows `dK/dt`: two states that differ in it give the same file. Its column holds `dK/dr`. The header names a third of the columns, and the one it calls `S` is the
seventh. -/
theorem dump_misses_rate : (∀ R (s : Arrays) (g : ℕ → ℝ), dumpFile R { s with grad := fun n => if n = 6 then g else s.grad n } = dumpFile R s) ∧ (¬ Shows dumpLine fun _ s i => s.grad 6 i) ∧
    (∀ R s i, (dumpLine R s i)[14]? = some (s.grad 1 i)) ∧ (∀ R s i, (dumpLine R s i).length = 3 * dumpHeader.length) ∧ ∀ R s i, (hyperLine R s i).2.length + 1 = hyperHeader.length := by
  have same : ∀ R (s : Arrays) (g : ℕ → ℝ) i, dumpLine R { s with grad := fun n => if n = 6 then g else s.grad n } i = dumpLine R s i := by
    intro R s g i
    simp [dumpLine]
  refine ⟨fun R s g => ?_, ?_, fun _ _ _ => rfl, fun _ _ _ => rfl, fun _ _ _ => rfl⟩
  · unfold dumpFile
    exact List.map_congr_left fun i _ => same R s g i
  · rintro ⟨c, hc⟩
    let R : Radial := ⟨1, 0, 1, fun _ => 0⟩
    let s : Arrays := ⟨fun _ _ => 0, fun _ _ => 0, fun _ => 0, fun _ _ => 0, fun _ => 0, fun _ _ => 0⟩
    have h1 := hc R s 0
    have h2 := hc R { s with grad := fun n => if n = 6 then fun _ => 1 else s.grad n } 0
    rw [same, h1] at h2
    simp [s] at h2

/-- **C160 (concrete)**: two zones at radius 5 in Cartesian coordinates, a table of squares. -/
theorem ex_grid : let R : Radial := ⟨6, 0, 1, fun _ => 3⟩
    let s : Arrays := ⟨fun _ _ => 0, fun _ _ => 0, fun _ => 0, fun _ _ => 0, fun i => (i : ℝ) ^ 2, fun _ _ => 0⟩
    gridFields R false s ![3, 4, 0] 2 = 25 ∧ gridFields R false s ![0, 3, 4] 2 = 25 := by
  have e1 : zoneRadius false ![3, 4, 0] = 5 := by
    simp [zoneRadius]
    rw [show (3:ℝ) * 3 + 4 * 4 = 5 ^ 2 by norm_num]; exact Real.sqrt_sq (by norm_num)
  have e2 : zoneRadius false ![0, 3, 4] = 5 := by
    simp [zoneRadius]
    rw [show (3:ℝ) * 3 + 4 * 4 = 5 ^ 2 by norm_num]; exact Real.sqrt_sq (by norm_num)
  simp only [gridFields, e1, e2]
  constructor <;> (simp [interpolate]; norm_num)

end Phoebus.Monopole
