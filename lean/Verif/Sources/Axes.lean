import Verif.Sources.Props
import Verif.Closure.Axes

/-!
# C145: the geometric sources of the radiation prefer no axis and no side
-/
namespace Phoebus.Sources
open Finset Geom GeomUtils Closure

/-! ### Specification -/

/-- spacetime indices with renamed spatial axes. -/
def idx (A : Axes) : Equiv.Perm (Fin 4) where
  toFun := Fin.cons 0 fun i => (A.σ i).succ
  invFun := Fin.cons 0 fun i => (A.σ.symm i).succ
  left_inv := by intro x; refine Fin.cases ?_ (fun i => ?_) x <;> simp
  right_inv := by intro x; refine Fin.cases ?_ (fun i => ?_) x <;> simp

/-- signs of spacetime components: time is not reversed. -/
def sgn4 (A : Axes) : Fin 4 → ℝ := Fin.cons 1 A.s

/-- the derivatives of the metric along the new axes. -/
def dgNew (A : Axes) (dg : Fin 4 → Fin 4 → Fin 4 → ℝ) : Fin 4 → Fin 4 → Fin 4 → ℝ := fun m n k =>
  sgn4 A m * sgn4 A n * sgn4 A k * dg (idx A m) (idx A n) (idx A k)

/-- the derivatives of the lapse along the new axes. -/
def daNew (A : Axes) (da : Fin 4 → ℝ) : Fin 4 → ℝ := fun m => sgn4 A m * da (idx A m)

/-! ### Proof -/

variable (A : Axes)

theorem sgn4_sq (m : Fin 4) : sgn4 A m * sgn4 A m = 1 := by
  refine Fin.cases ?_ (fun i => ?_) m
  · simp [sgn4]
  · simpa [sgn4] using A.sq i

theorem idx_zero : idx A 0 = 0 := rfl
theorem idx_succ (i : Fin 3) : idx A i.succ = (A.σ i).succ := rfl
theorem sgn4_zero : sgn4 A 0 = 1 := rfl
theorem sgn4_succ (i : Fin 3) : sgn4 A i.succ = A.s i := rfl

theorem conN_axes (G : ADM ℝ) (m : Fin 4) : conN (A.geo G) m = sgn4 A m * conN G (idx A m) := by
  refine Fin.cases ?_ (fun i => ?_) m
  · simp [conN, sgn4_zero, idx_zero, Axes.geo]
  · simp only [conN, sgn4_succ, idx_succ, Axes.geo, Fin.cons_succ, Axes.vec]; ring

theorem spatial_axes (F : Vec) (m : Fin 4) : spatial (A.vec F) m = sgn4 A m * spatial F (idx A m) := by
  refine Fin.cases ?_ (fun i => ?_) m
  · simp [spatial, idx_zero]
  · simp [spatial, sgn4_succ, idx_succ, Axes.vec]

theorem conT_axes (G : ADM ℝ) (E : ℝ) (F : Vec) (P : Tens2) (m n : Fin 4) :
    conT (A.geo G) E (A.vec F) (A.ten P) m n = sgn4 A m * sgn4 A n * conT G E F P (idx A m) (idx A n) := by
  have hP : (Fin.cons (fun _ => 0) (fun i => spatial (A.ten P i)) : Fin 4 → Fin 4 → ℝ) m n =
      sgn4 A m * sgn4 A n * (Fin.cons (fun _ => 0) (fun i => spatial (P i)) : Fin 4 → Fin 4 → ℝ) (idx A m) (idx A n) := by
    refine Fin.cases ?_ (fun i => ?_) m
    · simp [idx_zero]
    · simp only [Fin.cons_succ, idx_succ, sgn4_succ]
      rw [show A.ten P i = A.vec fun j => A.s i * P (A.σ i) j by funext j; simp only [Axes.ten, Axes.vec]; ring, spatial_axes]
      refine Fin.cases ?_ (fun j => ?_) n
      · simp [spatial, idx_zero]
      · simp only [spatial, idx_succ, sgn4_succ, Fin.cons_succ]; ring
  unfold conT
  rw [hP, conN_axes, conN_axes, spatial_axes, spatial_axes]
  ring

theorem connection_axes (dg : Fin 4 → Fin 4 → Fin 4 → ℝ) (a b c : Fin 4) :
    connection (dgNew A dg) a b c = sgn4 A a * sgn4 A b * sgn4 A c * connection dg (idx A a) (idx A b) (idx A c) := by
  unfold connection dgNew; ring

theorem g4Inv_axes (G : ADM ℝ) (a b : Fin 4) : (A.geo G).g4Inv a b = sgn4 A a * sgn4 A b * G.g4Inv (idx A a) (idx A b) := by
  refine Fin.cases ?_ (fun i => ?_) a <;> refine Fin.cases ?_ (fun j => ?_) b <;>
    simp only [idx_zero, idx_succ, sgn4_zero, sgn4_succ] <;> simp [ADM.g4Inv, Axes.geo, Axes.vec, Axes.ten] <;> ring

theorem sum_idx (f g : Fin 4 → ℝ) (h : ∀ m, f m = g (idx A m)) : ∑ m, f m = ∑ m, g m := by
  rw [← Equiv.sum_comp (idx A) g]; exact sum_congr rfl fun m _ => h m

theorem radEnergy_axes (G : ADM ℝ) (sd : ℝ) (dg : Fin 4 → Fin 4 → Fin 4 → ℝ) (da : Fin 4 → ℝ) (T T' : Fin 4 → Fin 4 → ℝ)
    (hT : ∀ m n, T' m n = sgn4 A m * sgn4 A n * T (idx A m) (idx A n)) :
    radEnergySource (A.geo G) sd (dgNew A dg) (daNew A da) T' = radEnergySource G sd dg da T := by
  unfold radEnergySource
  have h1 : ∑ m, ∑ n, T' m n * ∑ r, (A.geo G).g4Inv 0 r * connection (dgNew A dg) r m n = ∑ m, ∑ n, T m n * ∑ r, G.g4Inv 0 r * connection dg r m n := by
    refine sum_idx A _ _ fun m => sum_idx A _ _ fun n => ?_
    have : ∑ r, (A.geo G).g4Inv 0 r * connection (dgNew A dg) r m n = sgn4 A m * sgn4 A n * ∑ r, G.g4Inv 0 r * connection dg r (idx A m) (idx A n) := by
      rw [mul_sum]
      refine sum_idx A _ _ fun r => ?_
      rw [g4Inv_axes, connection_axes, sgn4_zero, idx_zero]
      linear_combination sgn4 A m * sgn4 A n * G.g4Inv 0 (idx A r) * connection dg (idx A r) (idx A m) (idx A n) * sgn4_sq A r
    rw [this, hT]
    linear_combination T (idx A m) (idx A n) * (∑ r, G.g4Inv 0 r * connection dg r (idx A m) (idx A n)) * (sgn4_sq A m * (sgn4 A n * sgn4 A n) + sgn4_sq A n)
  have h2 : ∑ m, T' m 0 * daNew A da m = ∑ m, T m 0 * da m := by
    refine sum_idx A _ _ fun m => ?_
    rw [hT, sgn4_zero, idx_zero]
    unfold daNew
    linear_combination T (idx A m) 0 * da (idx A m) * sgn4_sq A m
  simp only [h1, h2]
  rfl

theorem radMomentum_axes (G : ADM ℝ) (sd : ℝ) (dg : Fin 4 → Fin 4 → Fin 4 → ℝ) (T T' : Fin 4 → Fin 4 → ℝ)
    (hT : ∀ m n, T' m n = sgn4 A m * sgn4 A n * T (idx A m) (idx A n)) :
    radMomentumSource (A.geo G) sd (dgNew A dg) T' = A.vec (radMomentumSource G sd dg T) := by
  funext l
  unfold radMomentumSource
  have h1 : ∑ m, ∑ n, T' m n * (dgNew A dg n l.succ m - connection (dgNew A dg) l.succ n m) =
      A.s l * ∑ m, ∑ n, T m n * (dg n (A.σ l).succ m - connection dg (A.σ l).succ n m) := by
    rw [mul_sum]
    refine sum_idx A _ _ fun m => ?_
    rw [mul_sum]
    refine sum_idx A _ _ fun n => ?_
    rw [hT, connection_axes]
    unfold dgNew
    rw [sgn4_succ, idx_succ]
    linear_combination A.s l * T (idx A m) (idx A n) * (dg (idx A n) (A.σ l).succ (idx A m) - connection dg (A.σ l).succ (idx A n) (idx A m)) *
      (sgn4_sq A m * (sgn4 A n * sgn4 A n) + sgn4_sq A n)
  rw [h1]
  simp only [Axes.vec, Axes.geo]
  ring

/-- **C145** the sources of energy and momentum of one species. -/
theorem radSources_axes (G : ADM ℝ) (v : Vec) (sd : ℝ) (dg : Fin 4 → Fin 4 → Fin 4 → ℝ) (da : Fin 4 → ℝ) (Ec : ℝ) (Fc : Vec) (J : ℝ) (h : Vec) (Pi : Tens2) :
    radSources (A.geo G) (A.vec v) sd (dgNew A dg) (daNew A da) Ec (A.vec Fc) J (A.vec h) (A.ten Pi) = A.pair (radSources G v sd dg da Ec Fc J h Pi) := by
  unfold radSources
  have e1 : (fun i => A.vec Fc i / sd) = A.vec fun i => Fc i / sd := by funext i; simp only [Axes.vec]; ring
  have e2 : (fun i => J * A.vec h i) = A.vec fun i => J * h i := by funext i; simp only [Axes.vec]; ring
  simp only [e1, e2, raise_axes, conP_axes]
  refine Prod.ext ?_ ?_
  · exact radEnergy_axes A G sd dg da _ _ fun m n => conT_axes A G _ _ _ m n
  · exact radMomentum_axes A G sd dg _ _ fun m n => conT_axes A G _ _ _ m n

end Phoebus.Sources
