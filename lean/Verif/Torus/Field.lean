import Verif.Torus.State
import Verif.FluxCT.Model
import Verif.RootFind.Props
import Verif.Tracers.Props

/-!
# Model of the field, grid and tracer parts of `pgen/torus.cpp` and their properties (C87, C88)
-/
namespace Phoebus.Torus
open Real Metrics Geom Finset FluxCT

/-! ### Model -/

/-- vector potential at the corner `(j,i)`, torus.cpp:432-449, from the density at `kb.s`. -/
noncomputable def vecPot (rho : ℤ → ℤ → ℝ) (j i : ℤ) : ℝ :=
  let av := 1 / 4 * (rho j i + rho j (i - 1) + rho (j - 1) i + rho (j - 1) (i - 1))
  let q := av - 2 / 10
  if q > 0 then q else 0

/-- primitive magnetic field from the potential, torus.cpp:451-465; `dx` are the cell widths, `gamdet` the volume
element. -/
noncomputable def bField (dx : Fin 3 → ℝ) (gamdet : Arr ℝ) (A : ℤ → ℤ → ℝ) : Fin 3 → Arr ℝ :=
  ![fun k j i => -(A j i - A (j + 1) i + A j (i + 1) - A (j + 1) (i + 1)) / (2 * dx 1 * gamdet k j i),
    fun k j i => (A j i + A (j + 1) i - A j (i + 1) - A (j + 1) (i + 1)) / (2 * dx 0 * gamdet k j i),
    fun _ _ _ => 0]

/-- what `ComputeBetas` reads in one cell. -/
structure Cell where
  G : ADM ℝ
  rho : ℝ
  prs : ℝ
  v : Fin 3 → ℝ
  B : Fin 3 → ℝ

/-- `bsq` of a cell, torus.cpp:879 and 898. -/
noncomputable def Cell.bsq (small : ℝ) (c : Cell) : ℝ :=
  Rel.magneticFieldSquared small c.G.gam c.v c.B (Rel.lorentz c.G.gam c.v)

/-- `beta_pmax`, torus.cpp:893-919: maximum pressure over maximum magnetic pressure; the two maxima are separate. -/
noncomputable def betaPmax (small : ℝ) (cells : Finset ℕ) (h : cells.Nonempty) (c : ℕ → Cell) : ℝ :=
  Robust.ratio small (cells.sup' h fun n => (c n).prs) (0.5 * cells.sup' h fun n => (c n).bsq small)

/-- `beta_min_global`, torus.cpp:874-891: minimum over the cells denser than `rho_min_bnorm`.  `h` says there is one
(otherwise the code's result is infinite).  `Ptot` is computed by the code but not used. -/
noncomputable def betaMin (small rhoMin : ℝ) (cells : Finset ℕ) (c : ℕ → Cell)
    (h : (cells.filter fun n => rhoMin < (c n).rho).Nonempty) : ℝ :=
  (cells.filter fun n => rhoMin < (c n).rho).inf' h fun n => Robust.ratio small (c n).prs (0.5 * (c n).bsq small)

/-- `B_field_fac`, torus.cpp:545. -/
noncomputable def bFac (magnetized : Bool) (betaNorm betaTarget : ℝ) : ℝ :=
  if magnetized then √(betaNorm / betaTarget) else 0

/-- the normalisation kernel, torus.cpp:724-730. -/
def scaleB (fac : ℝ) (c : Cell) : Cell := { c with B := fun i => c.B i * fac }

/-- `ProblemModifier`, torus.cpp:476-497: the radial range `(x1min, x1max)` from the horizon coordinate `xh`. -/
noncomputable def radialRange (x1max xh : ℝ) (ninside nx1 : ℕ) (target : Option ℕ) : ℝ × ℝ :=
  match target with
  | some t => let dx := (x1max - xh) / ((t : ℝ) - ninside); (x1max - nx1 * dx, x1max)
  | none => let dx := (x1max - xh) / ((nx1 : ℝ) - ninside); (xh - (ninside + 0.5) * dx, x1max)

/-- `num_tracers` of each block on one rank, torus.cpp:550-599 and 644-667.  `vol` are the disk volumes of the blocks in
loop order.  Each block's reduction overwrites `number_mesh` (a `Kokkos::Sum` reducer stores its result, it does not
accumulate), so the normalisation left after the loop is the last block's.  `rnd` is `std::round`.  The two reductions
differ by the `x1 > xh` test, taken to be always true here (the disk lies outside the horizon). -/
noncomputable def tracerCounts (rnd : ℝ → ℤ) (total : ℤ) (vol : List ℝ) : List ℤ :=
  let mesh := vol.getLastD 0
  vol.map fun v => rnd (total * v / mesh)

/-- tracer `id`, torus.cpp:689. -/
def tracerId (total gid n : ℤ) : ℤ := total * gid + n

/-- tracer masses of one block, torus.cpp:708-721: `cellMass` is `detgamma * rho * vol` of the cell containing the final
position, `count` the particle count of that cell as known to the swarm, which was sorted before the positions were
drawn (torus.cpp:677). -/
noncomputable def tracerMass (cellMass : ℕ → ℝ) (count : ℕ → ℕ) (cellOf : ℕ → ℕ) (n : ℕ) : ℝ :=
  cellMass (cellOf n) / count (cellOf n)

/-- `GasRadTemperatureResidual::operator()`, torus.cpp:59-63. -/
noncomputable def gasRad (Ptot : ℝ) (erad pgas : ℝ → ℝ) (T : ℝ) : ℝ := Ptot - (4 / 3 - 1) * erad T - pgas T

/-- zeroing of the comoving fluxes, torus.cpp:411 and 419: the loop variable is not used in the index. -/
def zeroH (H : Fin 3 → ℝ) : Fin 3 → ℝ := Function.update H 0 0

/-- the kernel's floors, torus.cpp:339-352, after the jitter `(1 + u_jitter (xi - 0.5))`. -/
noncomputable def flooredState (rho u jitter xi rhoflr epsflr : ℝ) : ℝ × ℝ :=
  let u := u * (1 + jitter * (xi - 0.5))
  let rho := if rho < rhoflr then rhoflr else rho
  (rho, if u / rho < epsflr then rho * epsflr else u)

/-! ### C87: the initial field -/

/-- **C87** The initial field has exactly zero divergence in the sense the evolution preserves, for every potential,
every positive volume element, in two and three dimensions. -/
theorem field_divergence_free (dx : Fin 3 → ℝ) (hdx : ∀ d, dx d ≠ 0) (gamdet : Arr ℝ) (hg : ∀ k j i, gamdet k j i ≠ 0)
    (A : ℤ → ℤ → ℝ) (k j i : ℤ) :
    divB2 dx (fun c k j i => gamdet k j i * bField dx gamdet A c k j i) k j i = 0 ∧
      divB3 dx (fun c k j i => gamdet k j i * bField dx gamdet A c k j i) k j i = 0 := by
  have h0 := hdx 0
  have h1 := hdx 1
  have e0 : ∀ k j i, gamdet k j i * bField dx gamdet A 0 k j i =
      -(A j i - A (j + 1) i + A j (i + 1) - A (j + 1) (i + 1)) / (2 * dx 1) := by
    intro k j i; have := hg k j i
    simp only [bField, Matrix.cons_val_zero]; field_simp
  have e1 : ∀ k j i, gamdet k j i * bField dx gamdet A 1 k j i =
      (A j i + A (j + 1) i - A j (i + 1) - A (j + 1) (i + 1)) / (2 * dx 0) := by
    intro k j i; have := hg k j i
    simp only [bField, Matrix.cons_val_one, Matrix.cons_val_zero]; field_simp
  have e2 : ∀ k j i, gamdet k j i * bField dx gamdet A 2 k j i = 0 := by
    intro k j i; simp [bField]
  simp only [divB2, divB3]
  simp only [e0, e1, e2, sub_add_cancel]
  constructor
  · field_simp; ring
  · field_simp; ring

/-- **C87** the field is confined: away from cells where the averaged density exceeds 0.2 it vanishes. -/
theorem field_confined (dx : Fin 3 → ℝ) (gamdet : Arr ℝ) (rho : ℤ → ℤ → ℝ) (k j i : ℤ)
    (h : ∀ j' i', (j' = j - 1 ∨ j' = j ∨ j' = j + 1) → (i' = i - 1 ∨ i' = i ∨ i' = i + 1) → rho j' i' ≤ 2 / 10) (c : Fin 3) :
    bField dx gamdet (vecPot rho) c k j i = 0 := by
  have z : ∀ j' i', (j' = j ∨ j' = j + 1) → (i' = i ∨ i' = i + 1) → vecPot rho j' i' = 0 := by
    intro j' i' hj hi
    have a1 := h j' i' (by omega) (by omega)
    have a2 := h j' (i' - 1) (by omega) (by omega)
    have a3 := h (j' - 1) i' (by omega) (by omega)
    have a4 := h (j' - 1) (i' - 1) (by omega) (by omega)
    simp only [vecPot]
    rw [if_neg]; linarith
  have c1 := z j i (by simp) (by simp)
  have c2 := z (j + 1) i (by simp) (by simp)
  have c3 := z j (i + 1) (by simp) (by simp)
  have c4 := z (j + 1) (i + 1) (by simp) (by simp)
  have hc : c = 0 ∨ c = 1 ∨ c = 2 := by omega
  rcases hc with rfl | rfl | rfl <;> simp [bField, c1, c2, c3, c4]

/-- **C87** the potential is a potential of the density at the corner: for a density affine in the zone centres `(j + 1/2, i + 1/2)` it is
the excess over 0.2 of the density at the corner `(j, i)`, and a density mirrored in a corner line gives the mirrored potential. -/
theorem vecPot_corner (a b c : ℝ) (rho : ℤ → ℤ → ℝ) (j i : ℤ) :
    vecPot (fun j i => a + b * ((j : ℝ) + 1 / 2) + c * ((i : ℝ) + 1 / 2)) j i = max (a + b * j + c * i - 2 / 10) 0 ∧
    vecPot (fun j i => rho (-1 - j) i) j i = vecPot rho (-j) i ∧
    vecPot (fun j i => rho j (-1 - i)) j i = vecPot rho j (-i) := by
  refine ⟨?_, ?_, ?_⟩
  · simp only [vecPot]
    push_cast
    rw [show (1 / 4 * (a + b * ((j : ℝ) + 1 / 2) + c * ((i : ℝ) + 1 / 2) + (a + b * ((j : ℝ) + 1 / 2) + c * ((i : ℝ) - 1 + 1 / 2)) +
      (a + b * ((j : ℝ) - 1 + 1 / 2) + c * ((i : ℝ) + 1 / 2)) + (a + b * ((j : ℝ) - 1 + 1 / 2) + c * ((i : ℝ) - 1 + 1 / 2))) - 2 / 10)
      = a + b * j + c * i - 2 / 10 by ring]
    split_ifs with h
    · exact (max_eq_left h.le).symm
    · exact (max_eq_right (not_lt.1 h)).symm
  · simp only [vecPot, show -1 - j = -j - 1 by ring, show -1 - (j - 1) = -j by ring]
    congr 2 <;> ring_nf
  · simp only [vecPot, show -1 - i = -i - 1 by ring, show -1 - (i - 1) = -i by ring]
    congr 2 <;> ring_nf

theorem scaleB_bsq (small fac : ℝ) (c : Cell) : (scaleB fac c).bsq small = fac ^ 2 * c.bsq small := by
  have e1 : ∀ x : ℝ, ∑ m, ∑ n, c.G.gam m n * Robust.ratio small (c.v m) x * (c.B n * fac) =
      fac * ∑ m, ∑ n, c.G.gam m n * Robust.ratio small (c.v m) x * c.B n := by
    intro x
    simp only [Finset.mul_sum]
    exact sum_congr rfl fun i _ => sum_congr rfl fun j _ => by ring
  have e2 : ∑ m, ∑ n, c.G.gam m n * (c.B m * fac) * (c.B n * fac) = fac ^ 2 * ∑ m, ∑ n, c.G.gam m n * c.B m * c.B n := by
    simp only [Finset.mul_sum]
    exact sum_congr rfl fun i _ => sum_congr rfl fun j _ => by ring
  simp only [Cell.bsq, Rel.magneticFieldSquared, scaleB]
  rw [e1, e2]
  unfold Robust.ratio
  ring

theorem sup'_mul (cells : Finset ℕ) (h : cells.Nonempty) (f : ℕ → ℝ) (x : ℝ) (hx : 0 ≤ x) :
    cells.sup' h (fun n => x * f n) = x * cells.sup' h f := by
  apply le_antisymm
  · rw [Finset.sup'_le_iff]
    intro b hb
    exact mul_le_mul_of_nonneg_left (Finset.le_sup' f hb) hx
  · obtain ⟨b, hb, he⟩ := Finset.exists_mem_eq_sup' h f
    rw [he]
    exact Finset.le_sup' (fun n => x * f n) hb

/-- **C87** HARM-style normalisation reaches the requested plasma beta. -/
theorem beta_pmax_target (cells : Finset ℕ) (h : cells.Nonempty) (c : ℕ → Cell) (target : ℝ) (ht : 0 < target)
    (hP : 0 < cells.sup' h fun n => (c n).prs) (hb : 0 < cells.sup' h fun n => (c n).bsq 0) :
    betaPmax 0 cells h (fun n => scaleB (bFac true (betaPmax 0 cells h c) target) (c n)) = target := by
  have hbp : betaPmax 0 cells h c = (cells.sup' h fun n => (c n).prs) / (0.5 * cells.sup' h fun n => (c n).bsq 0) := by
    unfold betaPmax; rw [Rel.ratio_zero]
  set B := cells.sup' h fun n => (c n).bsq 0
  set P := cells.sup' h fun n => (c n).prs with hPd
  have h5 : (0.5 : ℝ) = 1 / 2 := by norm_num
  rw [h5] at hbp
  have hf2 : bFac true (betaPmax 0 cells h c) target ^ 2 = betaPmax 0 cells h c / target := by
    simp only [bFac, if_true]
    rw [Real.sq_sqrt]; rw [hbp]; positivity
  generalize bFac true (betaPmax 0 cells h c) target = fac at *
  unfold betaPmax
  rw [Rel.ratio_zero]
  have e1 : (cells.sup' h fun n => (scaleB fac (c n)).prs) = P := rfl
  have e2 : (cells.sup' h fun n => (scaleB fac (c n)).bsq 0) = fac ^ 2 * B := by
    simp only [scaleB_bsq]
    exact sup'_mul cells h _ _ (sq_nonneg _)
  rw [e1, e2, hf2, hbp, h5]
  field_simp

/-- **C87** The alternative normalisation makes the smallest beta of the dense cells equal to the target. -/
theorem beta_min_target (rhoMin : ℝ) (cells : Finset ℕ) (c : ℕ → Cell)
    (h : (cells.filter fun n => rhoMin < (c n).rho).Nonempty) (target : ℝ) (ht : 0 < target)
    (hpos : 0 < betaMin 0 rhoMin cells c h) :
    betaMin 0 rhoMin cells (fun n => scaleB (bFac true (betaMin 0 rhoMin cells c h) target) (c n)) h = target := by
  have hf2 : bFac true (betaMin 0 rhoMin cells c h) target ^ 2 = betaMin 0 rhoMin cells c h / target := by
    simp only [bFac, if_true]
    rw [Real.sq_sqrt]; positivity
  generalize bFac true (betaMin 0 rhoMin cells c h) target = fac at *
  have hfac : fac ^ 2 ≠ 0 := by rw [hf2]; positivity
  have e : ∀ n, Robust.ratio 0 (scaleB fac (c n)).prs (0.5 * (scaleB fac (c n)).bsq 0) =
      (target / betaMin 0 rhoMin cells c h) * Robust.ratio 0 (c n).prs (0.5 * (c n).bsq 0) := by
    intro n
    rw [scaleB_bsq, Rel.ratio_zero, Rel.ratio_zero]
    have e1 : target / betaMin 0 rhoMin cells c h = 1 / fac ^ 2 := by rw [hf2]; field_simp
    rw [e1, show (scaleB fac (c n)).prs = (c n).prs from rfl]
    rw [show (0.5 : ℝ) * (fac ^ 2 * (c n).bsq 0) = fac ^ 2 * (0.5 * (c n).bsq 0) by ring]
    rw [div_mul_div_comm, one_mul]
  have hx : 0 ≤ target / betaMin 0 rhoMin cells c h := by positivity
  have hxb : target / betaMin 0 rhoMin cells c h * betaMin 0 rhoMin cells c h = target := by field_simp
  generalize target / betaMin 0 rhoMin cells c h = x at e hx hxb
  rw [← hxb]
  show (cells.filter fun n => rhoMin < (c n).rho).inf' h
    (fun n => Robust.ratio 0 (scaleB fac (c n)).prs (0.5 * (scaleB fac (c n)).bsq 0)) = _
  simp only [e]
  unfold betaMin
  apply le_antisymm
  · obtain ⟨b, hb, he⟩ := Finset.exists_mem_eq_inf' h (fun n => Robust.ratio 0 (c n).prs (0.5 * (c n).bsq 0))
    rw [he]
    exact Finset.inf'_le (fun n => x * Robust.ratio 0 (c n).prs (0.5 * (c n).bsq 0)) hb
  · rw [Finset.le_inf'_iff]
    intro b hb
    exact mul_le_mul_of_nonneg_left (Finset.inf'_le (fun n => Robust.ratio 0 (c n).prs (0.5 * (c n).bsq 0)) hb) hx

/-- **C87** Without magnetisation the field is removed; scaling keeps it divergence free. -/
theorem scaled_field (dx : Fin 3 → ℝ) (b : Fin 3 → Arr ℝ) (fac betaNorm target : ℝ) (c : Cell) (k j i : ℤ)
    (h : divB2 dx b k j i = 0) :
    divB2 dx (fun c k j i => b c k j i * fac) k j i = 0 ∧ ∀ d, (scaleB (bFac false betaNorm target) c).B d = 0 := by
  refine ⟨?_, fun d => by simp [scaleB, bFac]⟩
  have : divB2 dx (fun c k j i => b c k j i * fac) k j i = divB2 dx b k j i * fac := by
    simp only [divB2]; ring
  rw [this, h, zero_mul]

/-- a cell with unit field at rest in flat space: the hypotheses of the normalisation theorems are met. -/
noncomputable def exCell : Cell := ⟨Tracers.flat, 1, 1, fun _ => 0, ![1, 0, 0]⟩

theorem ex_beta : betaPmax 0 {0} ⟨0, by simp⟩ (fun _ => exCell) = 2 ∧
    betaPmax 0 {0} ⟨0, by simp⟩ (fun n => scaleB (bFac true 2 100) exCell) = 100 := by
  have hb : exCell.bsq 0 = 1 := by
    have hW : Rel.lorentz exCell.G.gam exCell.v = 1 := by simp [Rel.lorentz, exCell]
    simp only [Cell.bsq, Rel.magneticFieldSquared, Rel.ratio_zero]
    rw [hW]
    simp [exCell, Tracers.flat, Fin.sum_univ_three]
  have h1 : betaPmax 0 {0} ⟨0, by simp⟩ (fun _ => exCell) = 2 := by
    simp only [betaPmax, Rel.ratio_zero, Finset.sup'_singleton, hb]
    norm_num [exCell]
  refine ⟨h1, ?_⟩
  have := beta_pmax_target {0} ⟨0, by simp⟩ (fun _ => exCell) 100 (by norm_num) (by simp [exCell])
    (by simp [hb])
  rwa [h1] at this

/-! ### C88: grid, tracers, radiation -/

/-- **C88** Exactly `n_inside_horizon` cell centres lie inside the horizon on the grid built from the chosen range, in
both modes (the cutout mode with the full target resolution). -/
theorem zones_inside (x1max xh : ℝ) (hx : xh < x1max) (ninside nx1 : ℕ) (hn : ninside < nx1) (tgt : Option ℕ)
    (ht : tgt = none ∨ tgt = some nx1) (i : ℕ) (hi : i < nx1) :
    let R := radialRange x1max xh ninside nx1 tgt
    let dx := (R.2 - R.1) / nx1
    0 < dx ∧ (R.1 + (i + 1 / 2) * dx < xh ↔ i < ninside) := by
  have hn' : (ninside : ℝ) < nx1 := by exact_mod_cast hn
  have hi' : (i : ℝ) + 1 ≤ nx1 := by exact_mod_cast hi
  have hpos : (0 : ℝ) < nx1 := by have : (0 : ℝ) ≤ ninside := by positivity
                                  linarith
  have hnn : (0 : ℝ) ≤ ninside := by positivity
  intro R dx
  obtain ⟨w, hw⟩ : ∃ w, w = (x1max - xh) / ((nx1 : ℝ) - ninside) := ⟨_, rfl⟩
  have hw0 : 0 < w := by rw [hw]; exact div_pos (by linarith) (by linarith)
  have hmax : x1max = xh + w * ((nx1 : ℝ) - ninside) := by
    rw [hw]; have : (nx1 : ℝ) - ninside ≠ 0 := by linarith
    field_simp; ring
  rcases ht with rfl | rfl
  · have hR1 : R.1 = xh - (ninside + 0.5) * w := by rw [hw]; rfl
    have hR2 : R.2 = x1max := rfl
    have hdx : dx = w * (nx1 + 1 / 2) / nx1 := by
      show (R.2 - R.1) / nx1 = _
      rw [hR1, hR2, hmax]; norm_num; ring
    have hdx0 : 0 < dx := by rw [hdx]; positivity
    refine ⟨hdx0, ?_⟩
    have e : R.1 + (i + 1 / 2) * dx - xh = w * (((i + 1 / 2) * (nx1 + 1 / 2) - (ninside + 1 / 2) * nx1) / nx1) := by
      rw [hR1, hdx]; norm_num; field_simp; ring
    have : R.1 + (i + 1 / 2) * dx < xh ↔ (i + 1 / 2 : ℝ) * (nx1 + 1 / 2) - (ninside + 1 / 2) * nx1 < 0 := by
      rw [← sub_neg, e]
      constructor
      · intro h
        have := (pos_iff_neg_of_mul_neg h).1 hw0
        by_contra hc
        have := div_nonneg (not_lt.1 hc) hpos.le
        linarith
      · intro h
        exact mul_neg_of_pos_of_neg hw0 (div_neg_of_neg_of_pos h hpos)
    rw [this]
    constructor
    · intro h
      by_contra hc
      have hc' : (ninside : ℝ) ≤ i := by exact_mod_cast not_lt.1 hc
      nlinarith
    · intro h
      have h' : (i : ℝ) + 1 ≤ ninside := by exact_mod_cast h
      nlinarith
  · have hR1 : R.1 = x1max - nx1 * w := by rw [hw]; rfl
    have hR2 : R.2 = x1max := rfl
    have hdx : dx = w := by
      show (R.2 - R.1) / nx1 = _
      rw [hR1, hR2]; field_simp; ring
    rw [hdx]
    refine ⟨hw0, ?_⟩
    have e : R.1 + (i + 1 / 2) * w - xh = w * (i + 1 / 2 - ninside) := by rw [hR1, hmax]; ring
    rw [← sub_neg, e]
    constructor
    · intro h
      by_contra hc
      have hc' : (ninside : ℝ) ≤ i := by exact_mod_cast not_lt.1 hc
      have : 0 ≤ w * ((i : ℝ) + 1 / 2 - ninside) := mul_nonneg hw0.le (by linarith)
      linarith
    · intro h
      have h' : (i : ℝ) + 1 ≤ ninside := by exact_mod_cast h
      exact mul_neg_of_pos_of_neg hw0 (by linarith)

/-- the defaults (5 zones inside, 64 cells) meet the hypotheses. -/
theorem ex_zones : (5 : ℕ) < 64 ∧ (0 : ℝ) < 1 := by norm_num

/-- **C88** With one block per rank the requested number of tracers is created. -/
theorem tracers_single_block (rnd : ℝ → ℤ) (hr : ∀ z : ℤ, rnd z = z) (total : ℤ) (v : ℝ) (hv : v ≠ 0) :
    tracerCounts rnd total [v] = [total] := by
  simp [tracerCounts, hv, hr]

/-- **C88** With several equal blocks on a rank each block creates the full number: the total is multiplied by the
number of blocks. -/
theorem tracers_overcount (rnd : ℝ → ℤ) (hr : ∀ z : ℤ, rnd z = z) (total : ℤ) (v : ℝ) (hv : v ≠ 0) (n : ℕ) :
    (tracerCounts rnd total (List.replicate (n + 1) v)).sum = (n + 1) * total := by
  have h1 : (List.replicate (n + 1) v).getLastD 0 = v := by
    rw [List.getLastD_eq_getLast?, List.getLast?_replicate]; simp
  simp only [tracerCounts, h1, List.map_replicate, List.sum_replicate]
  rw [mul_div_assoc, div_self hv, mul_one, hr]
  simp

/-- **C88** Tracer identifiers are unique when every block holds at most the requested number. -/
theorem tracer_ids_unique (total g g' n n' : ℤ) (hn : 0 ≤ n ∧ n < total) (hn' : 0 ≤ n' ∧ n' < total)
    (h : tracerId total g n = tracerId total g' n') : g = g' ∧ n = n' := by
  unfold tracerId at h
  have h1 : (total * g + n) / total = g := by
    rw [Int.add_comm, Int.add_mul_ediv_left _ _ (by omega), Int.ediv_eq_zero_of_lt hn.1 hn.2]; omega
  have h2 : (total * g' + n') / total = g' := by
    rw [Int.add_comm, Int.add_mul_ediv_left _ _ (by omega), Int.ediv_eq_zero_of_lt hn'.1 hn'.2]; omega
  have hg : g = g' := by rw [← h1, ← h2, h]
  subst hg
  exact ⟨rfl, by omega⟩

/-- otherwise two blocks can hand out the same identifier. -/
theorem tracer_ids_collide : tracerId 10 0 12 = tracerId 10 1 2 := by decide

/-- **C88** With up-to-date counts the tracers of an occupied cell carry exactly its mass. -/
theorem tracer_mass_total (cellMass : ℕ → ℝ) (cellOf : ℕ → ℕ) (ps : Finset ℕ) (c : ℕ)
    (hc : (ps.filter fun n => cellOf n = c).Nonempty) :
    ∑ n ∈ ps.filter (fun n => cellOf n = c), tracerMass cellMass (fun c => (ps.filter fun n => cellOf n = c).card) cellOf n =
      cellMass c := by
  have hcard : ((ps.filter fun n => cellOf n = c).card : ℝ) ≠ 0 := by
    exact_mod_cast (Finset.card_pos.2 hc).ne'
  rw [Finset.sum_congr rfl (g := fun _ => cellMass c / (ps.filter fun n => cellOf n = c).card)
    (fun n hn => by simp only [tracerMass, (Finset.mem_filter.1 hn).2])]
  rw [Finset.sum_const, nsmul_eq_mul]
  field_simp

/-- **C88** The code uses counts taken before the positions were drawn (all new particles still at their initial
position): then the masses of a cell need not add up to its mass. -/
theorem tracer_mass_stale : ∃ (cellMass : ℕ → ℝ) (old new : ℕ → ℕ) (ps : Finset ℕ),
    (∑ n ∈ ps.filter (fun n => new n = 1), tracerMass cellMass (fun c => (ps.filter fun n => old n = c).card) new n) ≠
      cellMass 1 := by
  refine ⟨fun _ => 1, fun _ => 0, fun _ => 1, {0, 1}, ?_⟩
  simp [tracerMass]

/-- **C88** The temperature search for a radiation-supported torus is always bracketed by `[0, T]`, and at a root gas
and radiation pressure add up to the equilibrium pressure. -/
theorem gasRad_bracket (erad pgas : ℝ → ℝ) (T : ℝ) (hT : 0 < T) (h0 : erad 0 = 0 ∧ pgas 0 = 0) (he : 0 ≤ erad T)
    (hp : 0 ≤ pgas T) (hc : Continuous erad) (hd : Continuous pgas) :
    gasRad (pgas T) erad pgas T ≤ 0 ∧ 0 ≤ gasRad (pgas T) erad pgas 0 ∧
      ∃ x ∈ Set.Icc 0 T, pgas x + erad x / 3 = pgas T ∧ gasRad (pgas T) erad pgas x = 0 := by
  have h1 : gasRad (pgas T) erad pgas T ≤ 0 := by unfold gasRad; linarith
  have h2 : 0 ≤ gasRad (pgas T) erad pgas 0 := by unfold gasRad; rw [h0.1, h0.2]; linarith
  refine ⟨h1, h2, ?_⟩
  have hcont : ContinuousOn (gasRad (pgas T) erad pgas) (Set.Icc 0 T) := by
    unfold gasRad; fun_prop
  obtain ⟨x, hx, hx0⟩ := intermediate_value_Icc' hT.le hcont ⟨h1, h2⟩
  refine ⟨x, hx, ?_, hx0⟩
  unfold gasRad at hx0; linarith

/-- **C88** Only the first flux component is reset: the others keep their previous contents. -/
theorem zeroH_partial (H : Fin 3 → ℝ) : zeroH H 0 = 0 ∧ zeroH H 1 = H 1 ∧ zeroH H 2 = H 2 := by
  simp [zeroH]

/-- **C88** After jitter and floors the state is above the floors; inside the disk (above the floors) the jitter changes
the energy by at most half the jitter amplitude. -/
theorem floored_bounds (rho u jitter xi rhoflr epsflr : ℝ) (hr : 0 < rhoflr) (hj : 0 ≤ jitter) (hx : 0 ≤ xi ∧ xi ≤ 1)
    (hu : 0 ≤ u) :
    let q := flooredState rho u jitter xi rhoflr epsflr
    rhoflr ≤ q.1 ∧ epsflr ≤ q.2 / q.1 ∧
      (rhoflr ≤ rho → epsflr ≤ u * (1 + jitter * (xi - 0.5)) / rho → q.1 = rho ∧ |q.2 - u| ≤ jitter / 2 * u) := by
  intro q
  have h5 : (0.5 : ℝ) = 1 / 2 := by norm_num
  have hq1 : q.1 = if rho < rhoflr then rhoflr else rho := rfl
  have hq2 : q.2 = if u * (1 + jitter * (xi - 0.5)) / q.1 < epsflr then q.1 * epsflr else u * (1 + jitter * (xi - 0.5)) :=
    rfl
  have hge : rhoflr ≤ q.1 := by rw [hq1]; split_ifs with h <;> linarith
  have hpos : 0 < q.1 := by linarith
  refine ⟨hge, ?_, ?_⟩
  · rw [hq2]; split_ifs with h
    · rw [mul_div_cancel_left₀ _ hpos.ne']
    · exact not_lt.1 h
  · intro h1 h2
    have e1 : q.1 = rho := by rw [hq1, if_neg (not_lt.2 h1)]
    refine ⟨e1, ?_⟩
    rw [hq2, e1, if_neg (not_lt.2 h2), h5]
    have : u * (1 + jitter * (xi - 1 / 2)) - u = jitter * u * (xi - 1 / 2) := by ring
    rw [this, abs_mul, abs_of_nonneg (by positivity)]
    have h3 : |xi - 1 / 2| ≤ 1 / 2 := by rw [abs_le]; constructor <;> linarith [hx.1, hx.2]
    have h4 : 0 ≤ jitter * u := by positivity
    nlinarith

/-- **C88** Averaging over subsamples: a uniform interior is reproduced, and the average lies between the extremes. -/
theorem cellAverage_bounds (nsub : ℕ) (hn : 0 < nsub) (f : ℕ → ℕ → ℝ) (lo hi : ℝ)
    (hf : ∀ m n, m < nsub → n < nsub → lo ≤ f m n ∧ f m n ≤ hi) :
    lo ≤ cellAverage nsub (fun _ _ => True) f ∧ cellAverage nsub (fun _ _ => True) f ≤ hi := by
  have hpos : (0 : ℝ) < nsub := by exact_mod_cast hn
  have hc : ∀ c : ℝ, ∑ _m ∈ range nsub, ∑ _n ∈ range nsub, c / ((nsub : ℝ) * nsub) = c := by
    intro c; simp only [Finset.sum_const, Finset.card_range, nsmul_eq_mul]; field_simp
  simp only [cellAverage, if_true]
  constructor
  · rw [← hc lo]
    exact Finset.sum_le_sum fun m hm => Finset.sum_le_sum fun n hn =>
      div_le_div_of_nonneg_right (hf m n (Finset.mem_range.1 hm) (Finset.mem_range.1 hn)).1 (by positivity)
  · rw [← hc hi]
    exact Finset.sum_le_sum fun m hm => Finset.sum_le_sum fun n hn =>
      div_le_div_of_nonneg_right (hf m n (Finset.mem_range.1 hm) (Finset.mem_range.1 hn)).2 (by positivity)

end Phoebus.Torus
