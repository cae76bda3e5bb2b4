import Verif.Pgen.ModesProps
import Verif.RootFind.Props

/-!
# Model: state set-up in the fluid test problems

`/repo/src/pgen/{kh,advection,rotor,shock_tube,blandford_mckee,friedmann,sedov}.cpp` and `energy_from_rho_P` of
`/repo/src/pgen/pgen.hpp`.  Thermodynamic look-ups are functions of the equation of state; Kokkos loops over cells are
functions of the cell.
-/
namespace Phoebus.Pgen
open Geom Finset Real

/-- `W = 1 / sqrt(1 - vsq)` and the scaling of the three-velocity, kh.cpp:107-112 and advection.cpp:96-103 (`gam` is
the spatial block of the metric the loop contracts with). -/
noncomputable def boostStore (gam : Fin 3 → Fin 3 → ℝ) (v : Fin 3 → ℝ) : Fin 3 → ℝ :=
  let vsq := ∑ i, ∑ j, gam i j * v i * v j
  let W := 1 / √(1 - vsq)
  fun i => v i * W

/-- `v(ivlo) *= Gamma` with `Gamma = GetLorentzFactor(vcon, gammacov)`, shock_tube.cpp:102-109. -/
noncomputable def shockStore (gam : Fin 3 → Fin 3 → ℝ) (vel : ℝ) : Fin 3 → ℝ :=
  let vcon : Fin 3 → ℝ := ![vel, 0, 0]
  ![vel * Rel.lorentz gam vcon, 0, 0]

/-- inertial four-velocity of the rotor, rotor.cpp:94-101, 120. -/
noncomputable def rotorU (r0 omega x y : ℝ) : Fin 4 → ℝ :=
  let r := √(x * x + y * y)
  let w := if r < r0 then omega else 0
  let vx := -y * w
  let vy := x * w
  let W := 1 / √(1 - vx * vx - vy * vy)
  ![W, W * vx, W * vy, 0]

/-! ### Blandford-McKee, blandford_mckee.cpp:52-83 -/

/-- `rescale`, blandford_mckee.cpp:53. -/
noncomputable def bmRescale (wshock : ℝ) : ℝ := √(1 - 1 / (wshock * wshock))

/-- `vel`, blandford_mckee.cpp:74. -/
noncomputable def bmVel (rescale tshock r : ℝ) : ℝ := if |r| < tshock then rescale * r / tshock else 0

/-- `W`, blandford_mckee.cpp:76. -/
noncomputable def bmW (rescale tshock r : ℝ) : ℝ := 1 / √(1 - bmVel rescale tshock r * bmVel rescale tshock r)

/-- `P`, blandford_mckee.cpp:77. -/
noncomputable def bmP (rescale tshock P0 r : ℝ) : ℝ := rescale * rescale * P0 * (bmW rescale tshock r / tshock) ^ 4

/-- `rho`, blandford_mckee.cpp:78. -/
noncomputable def bmRho (rescale tshock rho0 r : ℝ) : ℝ := rho0 * (bmW rescale tshock r / tshock) ^ 3

/-! ### Sedov, sedov.cpp:52-110 -/

/-- `uinner`, sedov.cpp:63-64. -/
noncomputable def sedovInner (Eexp rinner : ℝ) : ℝ := Eexp / (4 / 3 * π * rinner ^ 3)

/-- internal energy density of a cell at radius `r`, sedov.cpp:95. -/
noncomputable def sedovU (Eexp rinner ua r : ℝ) : ℝ := if r ≤ rinner then sedovInner Eexp rinner else ua

/-! ### Friedmann, friedmann.cpp:80-84 -/

/-- `SPACELOOP(i) { v(ivlo + i, k, j, i) = 0; }` executed by the cell `(k, j, cell)`: the loop variable shadows the cell
index, so component `i` of cell `i` is cleared, `i = 0, 1, 2`, whichever cell runs the body. -/
def friedmannCell (_cell : ℕ) (vel : ℕ → ℕ → ℝ) : ℕ → ℕ → ℝ := fun c i => if c < 3 ∧ i = c then 0 else vel c i

/-- the loop over cells `0 .. n-1` of one row. -/
def friedmannRow (n : ℕ) (vel : ℕ → ℕ → ℝ) : ℕ → ℕ → ℝ := (List.range n).foldl (fun v i => friedmannCell i v) vel

/-! ### `energy_from_rho_P`, pgen.hpp:122-149 -/

/-- `PressResidual::operator()`, pgen.hpp:131-133; `p e` is the pressure at the fixed density and electron fraction. -/
def pressResidual (p : ℝ → ℝ) (P e : ℝ) : ℝ := p e - P

/-- iteration limit of a default-constructed `RootFind`, root_find.hpp:23-24. -/
def intMax : ℕ := 2147483647

/-- `energy_from_rho_P`, pgen.hpp:141-149: `none` when the run aborts (negative pressure, or no sign change) or the
search returns NaN. -/
noncomputable def energyFromRhoP (p : ℝ → ℝ) (rho P emin emax : ℝ) : Option ℝ :=
  if P ≥ 0 then
    match RootFind.regulaFalsi (pressResidual p P) emin emax (1e-10 * P) (emin - 1e10) false 0 intMax with
    | .ret e _ _ => some (rho * e)
    | _ => none
  else none

/-! ### Tracers of the advection problem, advection.cpp:109-191 -/

/-- `v_inner`, advection.cpp:117-119. -/
noncomputable def advVInner (ndim : ℕ) (rin : ℝ) : ℝ :=
  if ndim = 3 then 4 / 3 * π * rin ^ 3 else if ndim = 2 then π * rin * rin else rin

/-- number of tracers created in a block whose cells inside the ball have volume `vol`, advection.cpp:152-157
(conversion to `int` truncates). -/
noncomputable def advCount (ndim : ℕ) (rin : ℝ) (total : ℕ) (vol : ℝ) : ℕ := ⌊vol / advVInner ndim rin * total⌋₊

/-- `id(n)`, advection.cpp:182. -/
def advId (total gid n : ℕ) : ℕ := total * gid + n

end Phoebus.Pgen
