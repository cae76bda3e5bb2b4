import Verif.TOV.Props
import Verif.Monopole.Props

/-!
# The TOV star on the grid

`tov::ProblemGenerator` of `/repo/src/pgen/tov.cpp`.  `idx` is `rgrid.index` (Spiner, outside the repository); the equation of state is three functions.
-/
namespace Phoebus.TOV
open Real

/-- parameters and the radial profile the generator reads, pgen/tov.cpp:36-65. -/
structure Star where
  n : ℕ
  dr : ℝ
  idx : ℝ → ℕ
  rho0 : ℕ → ℝ
  eps : ℕ → ℝ
  pmin : ℝ
  rhomin : ℝ
  epsmin : ℝ
  press : ℝ → ℝ → ℝ
  temp : ℝ → ℝ → ℝ
  bmod : ℝ → ℝ → ℝ
  amp : ℝ
  mu : ℝ
  sigma : ℝ

/-- what is stored in a cell, pgen/tov.cpp:111-126.  The electron fraction and the magnetic field are not touched. -/
structure Cell where
  rho : ℝ
  P : ℝ
  u : ℝ
  T : ℝ
  g1 : ℝ
  v : Fin 3 → ℝ

/-- `r` of the kernel, pgen/tov.cpp:95-103; `X` are the cell centre coordinates. -/
noncomputable def cellRadius (sph : Bool) (X : Fin 3 → ℝ) : ℝ :=
  if sph then X 0 else sqrt (X 0 * X 0 + X 1 * X 1 + X 2 * X 2)

/-- the density and specific energy at radius `r`, pgen/tov.cpp:104-107. -/
noncomputable def starRho (S : Star) (r : ℝ) : ℝ := max S.rhomin (Monopole.interpolate S.n 0 S.dr S.rho0 (S.idx r) r)
noncomputable def starEps (S : Star) (r : ℝ) : ℝ := max S.epsmin (Monopole.interpolate S.n 0 S.dr S.eps (S.idx r) r)

/-- one cell, pgen/tov.cpp:94-127. -/
noncomputable def starCell (S : Star) (sph : Bool) (X : Fin 3 → ℝ) : Cell :=
  let r := cellRadius sph X
  let rho := starRho S r
  let eps := starEps S r
  let P := max S.pmin (S.press rho eps)
  let T := S.temp rho eps
  let v0 : ℝ := if 0 < S.amp then S.amp * r * exp (-(r - S.mu) * (r - S.mu) / (4 * S.sigma * S.sigma)) else 0
  ⟨rho, P, eps * rho, T, S.bmod rho T / P, ![v0, 0, 0]⟩

/-! ### Bounds and shape -/

/-- **C126 (floors)**: every cell, whatever the profile, index function and equation of state, has density, pressure and specific energy at or above their
floors, and energy density consistent with them. -/
theorem star_floors (S : Star) (sph : Bool) (X : Fin 3 → ℝ) :
    S.rhomin ≤ (starCell S sph X).rho ∧ S.pmin ≤ (starCell S sph X).P ∧
    (0 < S.rhomin → S.epsmin ≤ (starCell S sph X).u / (starCell S sph X).rho) ∧
    (starCell S sph X).T = S.temp (starCell S sph X).rho (starEps S (cellRadius sph X)) := by
  refine ⟨le_max_left _ _, le_max_left _ _, fun h => ?_, rfl⟩
  have hr : 0 < starRho S (cellRadius sph X) := h.trans_le (le_max_left _ _)
  show S.epsmin ≤ starEps S _ * starRho S _ / starRho S _
  rw [mul_div_cancel_right₀ _ hr.ne']
  exact le_max_left _ _

/-- **C126 (spherical symmetry)**: cells at the same radius get the same density, pressure, energy, temperature and `gamma1`, in particular cells that are
related by a rotation or reflection of Cartesian space, and all cells of a spherical shell.

Partial form of C126. Full property: Every cell holds at least the floor density, energy and pressure; cells at equal
radius get equal states (invariance under rotations); at profile nodes inside the star density, energy and pressure
are those of the hydrostatic solution; outside the star exactly the floor values; the velocity perturbation is a
radial pulse. Missing: False as stated for the perturbation on Cartesian grids (perturbation_radial_iff,
perturbation_pushes), the atmosphere pressure and ghost zones at negative radius. -/
theorem star_symmetric_partial (S : Star) (sph : Bool) (X Y : Fin 3 → ℝ) (h : cellRadius sph X = cellRadius sph Y) : starCell S sph X = starCell S sph Y := by
  unfold starCell; rw [h]

theorem radius_rotation (Rm : Fin 3 → Fin 3 → ℝ) (hR : ∀ i j, ∑ k, Rm k i * Rm k j = if i = j then 1 else 0) (X : Fin 3 → ℝ) :
    cellRadius false (fun i => ∑ j, Rm i j * X j) = cellRadius false X := by
  have h := fun i j => hR i j
  simp only [Fin.sum_univ_three] at h
  have h00 := h 0 0; have h11 := h 1 1; have h22 := h 2 2; have h01 := h 0 1; have h02 := h 0 2; have h12 := h 1 2
  simp at h00 h11 h22 h01 h02 h12
  simp only [cellRadius, Bool.false_eq_true, if_false, Fin.sum_univ_three]
  congr 1
  linear_combination X 0 * X 0 * h00 + X 1 * X 1 * h11 + X 2 * X 2 * h22 + 2 * X 0 * X 1 * h01 + 2 * X 0 * X 2 * h02 + 2 * X 1 * X 2 * h12

/-- **C126 (nodes)**: at a radius that is a node of the profile with values above the floors the stored density and energy are those of the profile. -/
theorem star_node (S : Star) (sph : Bool) (X : Fin 3 → ℝ) (i : ℕ) (hr : cellRadius sph X = i * S.dr) (hi : S.idx (i * S.dr) = i)
    (h1 : S.rhomin ≤ S.rho0 i) (h2 : S.epsmin ≤ S.eps i) :
    (starCell S sph X).rho = S.rho0 i ∧ (starCell S sph X).u = S.eps i * S.rho0 i ∧
    (starCell S sph X).P = max S.pmin (S.press (S.rho0 i) (S.eps i)) := by
  have n1 : ∀ A : ℕ → ℝ, Monopole.interpolate S.n 0 S.dr A i (i * S.dr) = A i := fun A => by
    have := Monopole.interpolate_node S.n 0 S.dr A i
    rwa [add_zero] at this
  have e1 : starRho S (i * S.dr) = S.rho0 i := by unfold starRho; rw [hi, n1, max_eq_right h1]
  have e2 : starEps S (i * S.dr) = S.eps i := by unfold starEps; rw [hi, n1, max_eq_right h2]
  simp only [starCell, hr, e1, e2]
  exact ⟨trivial, trivial, trivial⟩

/-- **C126 (the pressure of the star)**: with the ideal gas law of the run and the polytrope of the integrator, at every node inside the star the stored
pressure is the pressure `IntegrateTov` computed. -/
theorem star_pressure (S : Star) (sph : Bool) (X : Fin 3 → ℝ) (i : ℕ) (k gamma fac p : ℝ) (hk : 0 < k) (hg : 1 < gamma) (hfac : 1 ≤ fac)
    (hpm : 0 < S.pmin) (hp : fac * S.pmin < p) (hpr : ∀ r e, S.press r e = (gamma - 1) * r * e)
    (hrho : S.rho0 i = (matter (polytrope k gamma) fac S.pmin p).rho0) (heps : S.eps i = (matter (polytrope k gamma) fac S.pmin p).eps)
    (hr : cellRadius sph X = i * S.dr) (hi : S.idx (i * S.dr) = i) (h1 : S.rhomin ≤ S.rho0 i) (h2 : S.epsmin ≤ S.eps i) :
    (starCell S sph X).P = p ∧ (starCell S sph X).P = (gamma - 1) * (starCell S sph X).u := by
  obtain ⟨a, b, c⟩ := star_node S sph X i hr hi h1 h2
  have hpp : S.pmin ≤ p := by nlinarith
  obtain ⟨-, l2⟩ := polytrope_laws k gamma p hk hg (hpm.trans_le hpp)
  simp only [matter, not_le.2 hp, if_false] at hrho heps
  have : S.press (S.rho0 i) (S.eps i) = p := by rw [hpr, hrho, heps]; exact l2.symm
  rw [c, b, this, max_eq_right hpp]
  refine ⟨rfl, ?_⟩
  rw [← this, hpr]; ring

/-! ### The atmosphere -/

/-- **C126 (atmosphere)**: where the profile vanishes at the three nodes used, the cell holds exactly the floor values. -/
theorem star_atmosphere (S : Star) (sph : Bool) (X : Fin 3 → ℝ) (h0 : 0 ≤ S.rhomin) (h0' : 0 ≤ S.epsmin)
    (hz : ∀ m : ℕ, (m : ℤ) - (S.idx (cellRadius sph X) : ℤ) ≤ 2 ∧ (S.idx (cellRadius sph X) : ℤ) - m ≤ 2 → S.rho0 m = 0 ∧ S.eps m = 0) :
    (starCell S sph X).rho = S.rhomin ∧ (starCell S sph X).u = S.epsmin * S.rhomin ∧
    (starCell S sph X).P = max S.pmin (S.press S.rhomin S.epsmin) := by
  set ix := S.idx (cellRadius sph X) with hix
  have z : ∀ A : ℕ → ℝ, (∀ m : ℕ, (m : ℤ) - (ix : ℤ) ≤ 2 ∧ (ix : ℤ) - m ≤ 2 → A m = 0) → Monopole.interpolate S.n 0 S.dr A ix (cellRadius sph X) = 0 := by
    intro A hA
    have a0 := hA ix (by omega); have a1 := hA (ix + 1) (by omega); have a2 := hA (ix + 2) (by omega)
    have b1 := hA (ix - 1) (by omega); have b2 := hA (ix - 2) (by omega)
    simp [Monopole.interpolate, a0, a1, a2, b1, b2]
  have e1 : starRho S (cellRadius sph X) = S.rhomin := by
    unfold starRho; rw [← hix, z _ fun m hm => (hz m hm).1, max_eq_left h0]
  have e2 : starEps S (cellRadius sph X) = S.epsmin := by
    unfold starEps; rw [← hix, z _ fun m hm => (hz m hm).2, max_eq_left h0']
  simp only [starCell, e1, e2]
  exact ⟨trivial, trivial, trivial⟩

/-- **C126 (negation: atmosphere out of the equation of state)**: with the default floors (`rhomin = epsmin = 1e-12`, `Pmin = 1e-9`) and an ideal gas with
`1 < Gamma < 10^10` the pressure stored in the atmosphere is not the pressure of the stored density and energy, but more than `10^5` times larger. -/
theorem atmosphere_pressure_inconsistent (S : Star) (sph : Bool) (X : Fin 3 → ℝ) (gamma : ℝ) (hg : 1 < gamma) (hg2 : gamma < 10 ^ 10)
    (hr : S.rhomin = 1e-12) (he : S.epsmin = 1e-12) (hp : S.pmin = 1e-9) (hpr : ∀ r e, S.press r e = (gamma - 1) * r * e)
    (hz : ∀ m : ℕ, (m : ℤ) - (S.idx (cellRadius sph X) : ℤ) ≤ 2 ∧ (S.idx (cellRadius sph X) : ℤ) - m ≤ 2 → S.rho0 m = 0 ∧ S.eps m = 0) :
    (starCell S sph X).P = 1e-9 ∧ 10 ^ 5 * ((gamma - 1) * (starCell S sph X).u) < (starCell S sph X).P := by
  obtain ⟨-, b, c⟩ := star_atmosphere S sph X (by rw [hr]; norm_num) (by rw [he]; norm_num) hz
  have : (gamma - 1) * (1e-12 : ℝ) * 1e-12 ≤ 1e-9 := by
    norm_num; linarith
  rw [c, b, hpr, hr, he, hp, max_eq_left this]
  refine ⟨rfl, ?_⟩
  norm_num
  linarith

/-! ### The velocity perturbation -/

/-- **C126 (perturbation)**: the velocity has a first component only; it vanishes for amplitudes that are not positive. -/
theorem perturbation_shape (S : Star) (sph : Bool) (X : Fin 3 → ℝ) :
    (starCell S sph X).v 1 = 0 ∧ (starCell S sph X).v 2 = 0 ∧ (S.amp ≤ 0 → (starCell S sph X).v 0 = 0) ∧
    (0 < S.amp → S.sigma ≠ 0 →
      (starCell S sph X).v 0 = S.amp * cellRadius sph X * exp (-((cellRadius sph X - S.mu) / (2 * S.sigma)) ^ 2)) := by
  refine ⟨rfl, rfl, fun h => ?_, fun h hs => ?_⟩
  · show (if 0 < S.amp then _ else (0:ℝ)) = 0
    rw [if_neg (not_lt.2 h)]
  · show (if 0 < S.amp then _ else (0:ℝ)) = _
    rw [if_pos h]
    congr 2
    field_simp
    ring

/-- **C126 (negation: not radial on Cartesian grids)**: with a positive amplitude, the perturbation on a Cartesian grid is along the radius exactly on the
`x1` axis (or at the centre); reflecting `x1` does not reverse it, so the star is pushed towards `+x1` as a whole. -/
theorem perturbation_radial_iff (S : Star) (ha : 0 < S.amp) (X : Fin 3 → ℝ) :
    (∃ c : ℝ, ∀ i, (starCell S false X).v i = c * X i) ↔ X 1 = 0 ∧ X 2 = 0 := by
  have hv0 : (starCell S false X).v 0 =
      S.amp * cellRadius false X * exp (-(cellRadius false X - S.mu) * (cellRadius false X - S.mu) / (4 * S.sigma * S.sigma)) := by
    show (if 0 < S.amp then _ else (0:ℝ)) = _
    rw [if_pos ha]
  have hv1 : (starCell S false X).v 1 = 0 := rfl
  have hv2 : (starCell S false X).v 2 = 0 := rfl
  have hrad : cellRadius false X = sqrt (X 0 * X 0 + X 1 * X 1 + X 2 * X 2) := by simp [cellRadius]
  constructor
  · rintro ⟨c, hc⟩
    by_contra hne
    have hpos : 0 < X 0 * X 0 + X 1 * X 1 + X 2 * X 2 := by
      by_contra hle
      have h1 : X 1 = 0 := by nlinarith [mul_self_nonneg (X 0), mul_self_nonneg (X 1), mul_self_nonneg (X 2)]
      have h2 : X 2 = 0 := by nlinarith [mul_self_nonneg (X 0), mul_self_nonneg (X 1), mul_self_nonneg (X 2)]
      exact hne ⟨h1, h2⟩
    have hr : 0 < cellRadius false X := by rw [hrad]; exact sqrt_pos.2 hpos
    have hv : 0 < (starCell S false X).v 0 := by rw [hv0]; positivity
    have hcne : c ≠ 0 := by
      rintro rfl
      have := hc 0
      rw [zero_mul] at this; linarith
    have e1 := hc 1; have e2 := hc 2
    rw [hv1] at e1; rw [hv2] at e2
    exact hne ⟨(mul_eq_zero.1 e1.symm).resolve_left hcne, (mul_eq_zero.1 e2.symm).resolve_left hcne⟩
  · rintro ⟨h1, h2⟩
    by_cases h0 : X 0 = 0
    · refine ⟨0, fun i => ?_⟩
      have hr : cellRadius false X = 0 := by rw [hrad, h0, h1, h2]; simp
      have hi : i = 0 ∨ i = 1 ∨ i = 2 := by omega
      rcases hi with rfl | rfl | rfl
      · rw [hv0, hr]; simp
      · rw [hv1]; simp
      · rw [hv2]; simp
    · refine ⟨(starCell S false X).v 0 / X 0, fun i => ?_⟩
      have hi : i = 0 ∨ i = 1 ∨ i = 2 := by omega
      rcases hi with rfl | rfl | rfl
      · field_simp
      · rw [hv1, h1]; simp
      · rw [hv2, h2]; simp

theorem perturbation_pushes (S : Star) (ha : 0 < S.amp) (X : Fin 3 → ℝ) (hX : X ≠ 0) :
    0 < (starCell S false X).v 0 ∧ (starCell S false X).v 0 = (starCell S false fun i => -X i).v 0 := by
  have hrad : cellRadius false X = sqrt (X 0 * X 0 + X 1 * X 1 + X 2 * X 2) := by simp [cellRadius]
  have hpos : 0 < X 0 * X 0 + X 1 * X 1 + X 2 * X 2 := by
    by_contra hle
    apply hX
    funext i
    have hi : i = 0 ∨ i = 1 ∨ i = 2 := by omega
    rcases hi with rfl | rfl | rfl <;>
      simp only [Pi.zero_apply] <;> nlinarith [mul_self_nonneg (X 0), mul_self_nonneg (X 1), mul_self_nonneg (X 2)]
  have hr : 0 < cellRadius false X := by rw [hrad]; exact sqrt_pos.2 hpos
  constructor
  · show 0 < (if 0 < S.amp then _ else (0:ℝ))
    rw [if_pos ha]; positivity
  · rw [star_symmetric_partial S false X (fun i => -X i) (by simp [cellRadius])]

/-! ### Ghost zones through the centre -/

/-- **C126 (negation: ghost zones of spherical runs)**: cells at negative radius get the extrapolated parabola.  With nodes `A 0, A 1, A 2` its value at `-r`
equals the one at `r` exactly when the one-sided slope at the centre vanishes, i.e. `3 A 0 + A 2 = 4 A 1`. -/
theorem center_parity (n : ℕ) (dr : ℝ) (hd : 0 < dr) (A : ℕ → ℝ) (r : ℝ) (hr : r ≠ 0) :
    Monopole.interpolate n 0 dr A 0 (-r) = Monopole.interpolate n 0 dr A 0 r ↔ 3 * A 0 + A 2 = 4 * A 1 := by
  simp only [Monopole.interpolate, if_true, Nat.cast_zero, zero_mul, zero_add, add_zero, sub_zero]
  constructor
  · intro h
    have : -(3 * A 0 - 4 * A 1 + A 2) / (2 * dr) * r = 0 := by linarith
    have h2 := (mul_eq_zero.1 this).resolve_right hr
    have h3 := (div_eq_zero_iff.1 h2).resolve_right (by positivity)
    linarith
  · intro h
    have : -(3 * A 0 - 4 * A 1 + A 2) = 0 := by linarith
    rw [this]; ring

/-- the integrator's first step leaves the pressure unchanged, so the slope at the centre vanishes only if the second step does, too. -/
theorem center_slope (pi : ℝ) (thermo : ℝ → ℝ × ℝ) (Pmin dr pc phi0 : ℝ) :
    let A := fun i => (tov pi thermo Pmin dr pc phi0 i).P
    3 * A 0 + A 2 = 4 * A 1 ↔ A 2 = A 1 := by
  intro A
  have : A 1 = A 0 := by
    show (tov pi thermo Pmin dr pc phi0 1).P = _
    rw [first_step 0 rfl]
  rw [this]
  constructor <;> intro h <;> linarith

/-! ### Example -/

/-- five nodes, a gamma = 2 polytrope with values above the floors inside. -/
noncomputable def exStar : Star :=
  { n := 5, dr := 1, idx := fun r => ⌊r⌋₊, rho0 := ![1, 1, 1/2, 0, 0] ∘ fun i => if h : i < 5 then ⟨i, h⟩ else 4, eps := fun i => if i < 3 then 1 else 0,
    pmin := 1/1000, rhomin := 1/100, epsmin := 1/100, press := fun r e => r * e, temp := fun _ e => e, bmod := fun r e => 2 * r * e, amp := 1/10, mu := 2,
    sigma := 1 }

theorem ex_star_cell : (starCell exStar false ![1, 0, 0]).rho = 1 ∧ (starCell exStar false ![0, 2, 0]).rho = 1/2 ∧
    (starCell exStar false ![0, 2, 0]).P = 1/2 ∧ ¬ (∃ c : ℝ, ∀ i, (starCell exStar false ![0, 2, 0]).v i = c * (![0, 2, 0] : Fin 3 → ℝ) i) := by
  have r1 : cellRadius false ![1, 0, 0] = (1 : ℕ) * exStar.dr := by simp [cellRadius, exStar]
  have r2 : cellRadius false ![0, 2, 0] = (2 : ℕ) * exStar.dr := by
    simp [cellRadius, exStar]
  have n1 := star_node exStar false ![1, 0, 0] 1 r1 (by simp [exStar]) (by norm_num [exStar]) (by norm_num [exStar])
  have n2 := star_node exStar false ![0, 2, 0] 2 r2 (by simp [exStar]) (by norm_num [exStar]) (by norm_num [exStar])
  refine ⟨by rw [n1.1]; simp [exStar], by rw [n2.1]; simp [exStar], by rw [n2.2.2]; norm_num [exStar], ?_⟩
  rw [perturbation_radial_iff exStar (by norm_num [exStar])]
  simp

end Phoebus.TOV
