import Verif.Closure.Props
import Verif.Riemann.Change

/-!
# C145: the closure prefers no axis and no side

Axis `i` of the new description is axis `σ i` of the old one, pointing the same way (`s i = 1`) or the opposite way (`s i = -1`).
-/
namespace Phoebus.Closure
open Finset Geom Robust Rel LinAlg

/-! ### Specification -/

/-- Data type: renamed and possibly reversed axes. -/
structure Axes where
  σ : Equiv.Perm (Fin 3)
  s : Fin 3 → ℝ
  sign : ∀ i, s i = 1 ∨ s i = -1

/-- a vector in the new description. -/
def Axes.vec (A : Axes) (v : Vec) : Vec := fun i => A.s i * v (A.σ i)

/-- a tensor in the new description. -/
def Axes.ten (A : Axes) (T : Tens2) : Tens2 := fun i j => A.s i * A.s j * T (A.σ i) (A.σ j)

/-- the geometry in the new description. -/
def Axes.geo (A : Axes) (G : ADM ℝ) : ADM ℝ := ⟨G.alpha, A.vec G.beta, A.ten G.gam, A.ten G.gamInv⟩

/-- an energy and a vector in the new description. -/
def Axes.pair (A : Axes) (x : ℝ × Vec) : ℝ × Vec := (x.1, A.vec x.2)

/-! ### Proof -/

variable (A : Axes) (G : ADM ℝ)

theorem Axes.sq (i : Fin 3) : A.s i * A.s i = 1 := by rcases A.sign i with e | e <;> rw [e] <;> norm_num

theorem cc_axes (a b : Vec) : cc (A.vec a) (A.vec b) = cc a b := by
  unfold cc Axes.vec
  rw [← Equiv.sum_comp A.σ fun i => a i * b i]
  exact sum_congr rfl fun i _ => by linear_combination a (A.σ i) * b (A.σ i) * A.sq i

theorem lower_axes (U : Vec) : lower (A.geo G) (A.vec U) = A.vec (lower G U) := by
  funext i
  unfold lower Axes.vec Axes.geo Axes.ten
  beta_reduce
  rw [← Equiv.sum_comp A.σ fun j => U j * G.gam (A.σ i) j, mul_sum]
  exact sum_congr rfl fun j _ => by linear_combination A.s i * U (A.σ j) * G.gam (A.σ i) (A.σ j) * A.sq j

theorem raise_axes (U : Vec) : raise (A.geo G) (A.vec U) = A.vec (raise G U) := by
  funext i
  unfold raise Axes.vec Axes.geo Axes.ten
  beta_reduce
  rw [← Equiv.sum_comp A.σ fun j => U j * G.gamInv (A.σ i) j, mul_sum]
  exact sum_congr rfl fun j _ => by linear_combination A.s i * U (A.σ j) * G.gamInv (A.σ i) (A.σ j) * A.sq j

theorem ccov_axes (a b : Vec) : ccov (A.geo G) (A.vec a) (A.vec b) = ccov G a b := by
  unfold ccov Axes.vec Axes.geo Axes.ten
  rw [← Equiv.sum_comp A.σ fun i => ∑ j, G.gamInv i j * a i * b j]
  refine sum_congr rfl fun i _ => ?_
  rw [← Equiv.sum_comp A.σ fun j => G.gamInv (A.σ i) j * a (A.σ i) * b j]
  refine sum_congr rfl fun j _ => ?_
  linear_combination G.gamInv (A.σ i) (A.σ j) * a (A.σ i) * b (A.σ j) * (A.s j * A.s j * A.sq i + A.sq j)

theorem v2_axes (v : Vec) : v2 (A.geo G) (A.vec v) = v2 G v := by unfold v2; rw [lower_axes, cc_axes]

theorem W_axes (v : Vec) : W (A.geo G) (A.vec v) = W G v := by unfold W; rw [v2_axes]

theorem W2_axes (v : Vec) : W2 (A.geo G) (A.vec v) = W2 G v := by unfold W2; rw [W_axes]

theorem conVPi_axes (v : Vec) (Pi : Tens2) : conVPi (A.geo G) (A.vec v) (A.ten Pi) = A.vec (conVPi G v Pi) := by
  unfold conVPi
  rw [lower_axes]
  funext i
  unfold Axes.vec Axes.ten
  beta_reduce
  rw [← Equiv.sum_comp A.σ fun j => lower G v j * Pi (A.σ i) j, mul_sum]
  exact sum_congr rfl fun j _ => by linear_combination A.s i * lower G v (A.σ j) * Pi (A.σ i) (A.σ j) * A.sq j

theorem covVPi_axes (v : Vec) (Pi : Tens2) : covVPi (A.geo G) (A.vec v) (A.ten Pi) = A.vec (covVPi G v Pi) := by
  unfold covVPi; rw [conVPi_axes, lower_axes]

theorem vvPi_axes (v : Vec) (Pi : Tens2) : vvPi (A.geo G) (A.vec v) (A.ten Pi) = vvPi G v Pi := by
  unfold vvPi; rw [conVPi_axes, lower_axes]; exact cc_axes A _ _

/-- **C145** conserved moments. -/
theorem prim2con_axes (num : Bool) (v : Vec) (Pi : Tens2) (J : ℝ) (H : Vec) :
    prim2con num (A.geo G) (A.vec v) (A.ten Pi) J (A.vec H) = A.pair (prim2con num G v Pi J H) := by
  unfold prim2con Axes.pair
  simp only [vvPi_axes, cc_axes, W_axes, W2_axes, lower_axes, covVPi_axes]
  refine Prod.ext rfl ?_
  funext i
  simp only [Axes.vec]; ring

theorem lam_axes (v : Vec) (Pi : Tens2) : lam (A.geo G) (A.vec v) (A.ten Pi) = lam G v Pi := by unfold lam; rw [W2_axes, vvPi_axes]

theorem con2primRaw_axes (small : ℝ) (num : Bool) (v : Vec) (Pi : Tens2) (E : ℝ) (F : Vec) :
    con2primRaw small num (A.geo G) (A.vec v) (A.ten Pi) E (A.vec F) = A.pair (con2primRaw small num G v Pi E F) := by
  unfold con2primRaw Axes.pair
  simp only [vvPi_axes, cc_axes, W_axes, W2_axes, lower_axes, covVPi_axes, lam_axes]
  refine Prod.ext rfl ?_
  funext i
  simp only [Axes.vec]; ring

theorem hsq_axes (v H : Vec) : hsq (A.geo G) (A.vec v) (A.vec H) = hsq G v H := by unfold hsq; rw [ccov_axes, cc_axes]

/-- **C145** primitive moments, with the status. -/
theorem con2prim_axes (small : ℝ) (num rob : Bool) (SMALL : ℝ) (v : Vec) (Pi : Tens2) (E : ℝ) (F : Vec) :
    con2prim small num rob SMALL (A.geo G) (A.vec v) (A.ten Pi) E (A.vec F) =
      ((con2prim small num rob SMALL G v Pi E F).1, A.pair (con2prim small num rob SMALL G v Pi E F).2) := by
  unfold con2prim con2primCheck
  rw [con2primRaw_axes]
  simp only [show (A.pair (con2primRaw small num G v Pi E F)).1 = (con2primRaw small num G v Pi E F).1 from rfl,
    show (A.pair (con2primRaw small num G v Pi E F)).2 = A.vec (con2primRaw small num G v Pi E F).2 from rfl, hsq_axes]
  have e : ∀ (H : Vec) (k : ℝ), (fun i => A.vec H i * k) = A.vec fun i => H i * k := by intro H k; funext i; simp only [Axes.vec]; ring
  simp only [e]
  split_ifs <;> rfl

theorem conP_axes (v : Vec) (Pi : Tens2) (J : ℝ) (H : Vec) : conP (A.geo G) (A.vec v) (A.ten Pi) J (A.vec H) = A.ten (conP G v Pi J H) := by
  unfold conP
  simp only [W_axes, W2_axes, raise_axes]
  funext i j
  have h3 : (3.0:ℝ) = 3 := by norm_num
  have h4 : (4.0:ℝ) = 4 := by norm_num
  simp only [Axes.vec, Axes.ten, Axes.geo, h3, h4]; ring

theorem concovP_axes (v : Vec) (Pi : Tens2) (J : ℝ) (H : Vec) :
    concovP (A.geo G) (A.vec v) (A.ten Pi) J (A.vec H) = A.ten (concovP G v Pi J H) := by
  unfold concovP
  simp only [W_axes, W2_axes, raise_axes, lower_axes]
  funext i j
  have e1 : ∑ k, A.ten Pi i k * (A.geo G).gam k j = A.s i * A.s j * ∑ k, Pi (A.σ i) k * G.gam k (A.σ j) := by
    unfold Axes.ten Axes.geo Axes.ten
    rw [← Equiv.sum_comp A.σ fun k => Pi (A.σ i) k * G.gam k (A.σ j), mul_sum]
    exact sum_congr rfl fun k _ => by linear_combination A.s i * A.s j * Pi (A.σ i) (A.σ k) * G.gam (A.σ k) (A.σ j) * A.sq k
  have e2 : (if i = j then J / 3.0 else 0) = A.s i * A.s j * if A.σ i = A.σ j then J / 3.0 else 0 := by
    by_cases h : i = j
    · subst h; rw [if_pos rfl, if_pos rfl, A.sq, one_mul]
    · rw [if_neg h, if_neg (fun h' => h (A.σ.injective h')), mul_zero]
  rw [e1, e2]
  have h3 : (3.0:ℝ) = 3 := by norm_num
  have h4 : (4.0:ℝ) = 4 := by norm_num
  simp only [Axes.vec, Axes.ten, h3, h4]; ring

/-- **C145** physical fluxes. -/
theorem fluxes_axes (num : Bool) (v : Vec) (Pi : Tens2) (J : ℝ) (H : Vec) :
    fluxes num (A.geo G) (A.vec v) (A.ten Pi) J (A.vec H) = (A.vec (fluxes num G v Pi J H).1, A.ten (fluxes num G v Pi J H).2) := by
  unfold fluxes
  rw [prim2con_axes, concovP_axes]
  refine Prod.ext ?_ ?_
  · funext i
    simp only [show (A.pair (prim2con num G v Pi J H)).2 = A.vec (prim2con num G v Pi J H).2 from rfl, raise_axes, W_axes]
    simp only [Axes.vec, show (A.geo G).alpha = G.alpha from rfl]
    split_ifs <;> ring
  · funext i j
    simp only [Axes.ten, show (A.geo G).alpha = G.alpha from rfl]; ring

/-- **C145** implicit exchange with the gas. -/
theorem update_axes (num : Bool) (v : Vec) (E : ℝ) (F : Vec) (Pi : Tens2) (JBB tauJ tauH : ℝ) :
    linearSourceUpdate num (A.geo G) (A.vec v) E (A.vec F) (A.ten Pi) JBB tauJ tauH = A.pair (linearSourceUpdate num G v E F Pi JBB tauJ tauH) := by
  have hA : lsuA num (A.geo G) (A.vec v) (A.ten Pi) tauJ tauH = lsuA num G v Pi tauJ tauH := by
    unfold lsuA; simp only [W_axes, W2_axes, vvPi_axes]
  have hB : lsuB num (A.geo G) (A.vec v) E (A.vec F) JBB tauJ = lsuB num G v E F JBB tauJ := by
    unfold lsuB; simp only [W_axes, W2_axes, cc_axes]
  unfold linearSourceUpdate Axes.pair
  simp only [hA, hB, W_axes, W2_axes, vvPi_axes, lower_axes, covVPi_axes]
  refine Prod.ext rfl ?_
  funext i
  simp only [Axes.vec]; ring

theorem ratio_lin (small t x y : ℝ) : ratio small (t * x) y = t * ratio small x y := by unfold ratio; ring

theorem tilPi_axes (v : Vec) (xi : ℝ) (f : Vec) : tilPi (A.geo G) (A.vec v) xi (A.vec f) = A.ten (tilPi G v xi f) := by
  unfold tilPi
  simp only [W2_axes]
  funext i j
  simp only [Axes.vec, Axes.ten, Axes.geo]; ring

/-- **C145** the pressure tensor from the primitive moments. -/
theorem fromPrim_axes (small : ℝ) (v : Vec) (J : ℝ) (H : Vec) :
    tilPiFromPrim small (A.geo G) (A.vec v) J (A.vec H) = A.ten (tilPiFromPrim small G v J H) := by
  unfold tilPiFromPrim
  have e1 : fluxFactor small (A.geo G) (A.vec v) J (A.vec H) = fluxFactor small G v J H := by
    unfold fluxFactor; simp only [raise_axes, cc_axes]
  have e2 : fluxDir small (A.geo G) (A.vec v) (A.vec H) = A.vec (fluxDir small G v H) := by
    unfold fluxDir
    simp only [raise_axes, cc_axes]
    funext i
    simp only [Axes.vec, ratio_lin]
  rw [e1, e2, tilPi_axes]

theorem basis_axes (small eps10 : ℝ) (v F : Vec) :
    basis small eps10 (A.geo G) (A.vec v) (A.vec F) = (A.vec (basis small eps10 G v F).1, A.vec (basis small eps10 G v F).2) := by
  unfold basis
  simp only [raise_axes, lower_axes, cc_axes, W_axes]
  have e : ∀ (t x y z : ℝ), ratio small (t * x * y) z = t * ratio small (x * y) z := by intro t x y z; rw [mul_assoc, ratio_lin]
  refine Prod.ext ?_ ?_
  · funext i
    simp only [Axes.vec, e]; ring
  · funext i
    simp only [Axes.vec]
    rw [ratio_lin small (A.s i) (raise G F (A.σ i))]
    generalize ratio small (raise G F (A.σ i)) _ = a
    generalize (1 - _ / W G v : ℝ) = b
    rw [show A.s i * a * b + A.s i * v (A.σ i) = A.s i * (a * b + v (A.σ i)) by ring]
    exact ratio_lin _ _ _ _

theorem angleDir_axes (g d : Vec) (phi : ℝ) : angleDir (A.vec g) (A.vec d) phi = A.vec (angleDir g d phi) := by
  funext i; simp only [angleDir, Axes.vec]; ring

theorem residual_axes (small : ℝ) (v f : Vec) (xi J : ℝ) (H : Vec) :
    m1ResidualOf small (A.geo G) (A.vec v) (A.vec f) xi J (A.vec H) = m1ResidualOf small G v f xi J H := by
  unfold m1ResidualOf; simp only [ccov_axes, cc_axes, lower_axes]

end Phoebus.Closure
