import Verif.Common
import Mathlib.Analysis.SpecialFunctions.Pow.Real

/-!
# Model of `/repo/src/tov/tov.{hpp,cpp}`

`pi` stands for `M_PI`; the equation of state enters as `thermo : P ↦ (rho, eps)`, of which `polytrope` is the one in the code.
-/
namespace Phoebus.TOV

section
variable {K : Type*} [Field K] [LinearOrder K]

/-- the integrated state, tov.hpp:28-30. -/
structure State (K : Type*) where
  m : K
  P : K
  phi : K

/-- `GetMRHS`, tov.hpp:51. -/
def mRHS (pi r rhoAdm : K) : K := 4 * pi * r * r * rhoAdm

/-- `GetPhiRHS`, tov.hpp:54-57. -/
def phiRHS (pi r m P : K) : K := if r = 0 then 0 else (m + 4 * pi * r * r * r * P) / (r * (r - 2 * m))

/-- `GetPRHS`, tov.hpp:60-65. -/
def pRHS (pi r rhoAdm m P Pmin : K) : K := if P < Pmin then 0 else -(rhoAdm + P) * phiRHS pi r m P

/-- `TovRHS`, tov.hpp:68-83. -/
def tovRHS (pi : K) (thermo : K → K × K) (Pmin r : K) (s : State K) : State K :=
  let P := if s.P < Pmin then 0 else s.P
  let rho := (thermo P).1
  let eps := (thermo P).2
  let rhoAdm := rho * (1 + eps)
  ⟨mRHS pi r rhoAdm, pRHS pi r rhoAdm s.m P Pmin, phiRHS pi r s.m P⟩

/-- the half step `k1`, tov.cpp:164-168. -/
def stage (pi : K) (thermo : K → K × K) (Pmin dr r : K) (s : State K) : State K :=
  let rhs := tovRHS pi thermo Pmin r s
  ⟨s.m + 1 / 2 * dr * rhs.m, s.P + 1 / 2 * dr * rhs.P, s.phi + 1 / 2 * dr * rhs.phi⟩

/-- one step of the first loop, tov.cpp:158-174; both stages use the radius of the left point. -/
def step (pi : K) (thermo : K → K × K) (Pmin dr r : K) (s : State K) : State K :=
  let rhs := tovRHS pi thermo Pmin r (stage pi thermo Pmin dr r s)
  ⟨s.m + dr * rhs.m, s.P + dr * rhs.P, s.phi + dr * rhs.phi⟩

/-- `state_h(·, i)`, tov.cpp:148-174; `radius.x(i) = i dr`. -/
def tov (pi : K) (thermo : K → K × K) (Pmin dr pc phi0 : K) : ℕ → State K
  | 0 => ⟨0, pc, phi0⟩
  | i + 1 => step pi thermo Pmin dr (i * dr) (tov pi thermo Pmin dr pc phi0 i)

/-- the matter handed to the monopole solver, tov.cpp:183-208. -/
structure Matter (K : Type*) where
  rho0 : K
  eps : K
  rhoAdm : K
  J : K
  trcS : K
  Srr : K

/-- second loop, tov.cpp:183-208; `fac` is the literal `1.1`. -/
def matter (thermo : K → K × K) (fac Pmin press : K) : Matter K :=
  let vac := press ≤ fac * Pmin
  let rho := if vac then 0 else (thermo press).1
  let eps := if vac then 0 else (thermo press).2
  let p := if vac then 0 else press
  ⟨rho, eps, rho * (1 + eps), 0, 3 * p, p⟩
end

/-- `PolytropeThermoFromP`, tov.hpp:41-45. -/
noncomputable def polytrope (k gamma P : ℝ) : ℝ × ℝ :=
  ((P / k) ^ (1 / gamma), k / (gamma - 1) * (P / k) ^ ((gamma - 1) / gamma))

/-- `PolytropeK`, tov.hpp:48. -/
noncomputable def polytropeK (s gamma : ℝ) : ℝ := Real.exp (s * (gamma - 1))

end Phoebus.TOV
