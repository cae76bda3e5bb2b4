import Verif.Common
import Verif.Units.Model
import Mathlib.Analysis.SpecialFunctions.Pow.Deriv
import Mathlib.Analysis.SpecialFunctions.Sqrt
import Mathlib.Analysis.SpecialFunctions.ExpDeriv

/-!
# Model of `/repo/src/pgen/{radiation_advection,radiation_equilibration,homogeneous_sphere,thin_cooling,leptoneq,rhs_tester,p2c2p}.cpp`
-/
namespace Phoebus.PgenRad
open Real

/-! ### radiation_advection -/

/-- `ProblemModifier`, radiation_advection.cpp:150-164: the opacity (CGS) written to `s_opacity/gray_kappa`.  `u` are the unit conversions,
`x1min`, `x1max` the extent of the mesh in code units. -/
noncomputable def grayKappa (u : Units.Units ℝ) (x1min x1max tau : ℝ) : ℝ :=
  let rho0 := 1 * u.massDensity
  let dx1 := (x1max - x1min) * u.length
  tau / (rho0 * dx1)

/-- `kappa` of the generator, radiation_advection.cpp:68: CGS to code. -/
noncomputable def codeKappa (u : Units.Units ℝ) (grayKappa : ℝ) : ℝ :=
  let LENGTH := 1 / u.length
  let MASS := 1 / u.mass
  grayKappa * LENGTH * LENGTH / MASS

/-- the parameters of the pulse, radiation_advection.cpp:58-71 and 93-96. -/
structure Pulse where
  J0 : ℝ
  vx : ℝ
  width : ℝ
  kappa : ℝ

/-- `W`, radiation_advection.cpp:93. -/
noncomputable def Pulse.W (p : Pulse) : ℝ := 1 / √(1 - p.vx * p.vx)
/-- `t0p` (and `t0`), radiation_advection.cpp:94-95. -/
noncomputable def Pulse.t0 (p : Pulse) : ℝ := 1.5 * p.kappa * p.width * p.width
/-- `x0p`, radiation_advection.cpp:96. -/
noncomputable def Pulse.x0p (p : Pulse) : ℝ := (0.5 - p.vx * p.t0) * p.W
/-- `tp`, radiation_advection.cpp:117. -/
noncomputable def Pulse.tp (p : Pulse) (x : ℝ) : ℝ := p.W * (p.t0 - p.vx * x)
/-- `xp`, radiation_advection.cpp:118. -/
noncomputable def Pulse.xp (p : Pulse) (x : ℝ) : ℝ := p.W * (x - p.vx * p.t0)

/-- the unfloored boosted profile as a function of comoving time and position, radiation_advection.cpp:125-126. -/
noncomputable def Pulse.comoving (p : Pulse) (tp xp : ℝ) : ℝ :=
  √(p.t0 / tp) * exp (-3 * p.kappa * (xp - p.x0p) ^ 2 / (4 * tp))

/-- the energy density stored in a cell, radiation_advection.cpp:123-132; only the first coordinate enters, whatever `shapedim`. -/
noncomputable def Pulse.J (p : Pulse) (boost : Bool) (x : ℝ) : ℝ :=
  if boost then p.J0 * max (p.comoving (p.tp x) (p.xp x)) 1e-10
  else p.J0 * max (exp (-((x - 0.5) / p.width) ^ 2 / 2.0)) 1e-10

/-- the fluid velocity stored in a cell, radiation_advection.cpp:112-114. -/
noncomputable def Pulse.vel (p : Pulse) : Fin 3 → ℝ := ![p.W * p.vx, 0, 0]

/-- the check of the flux against the energy, radiation_advection.cpp:62-63 (debug builds). -/
def fluxCheck (J0 Hx Hy Hz : ℝ) : Prop := |Hx| < J0 ∧ |Hy| < J0 ∧ |Hz| < J0

/-! ### parameters stored by the generators -/

/-- `Params::Add` of a new key; Parthenon throws (`none`) when the key exists.
(Parthenon contract.) -/
def paramsAdd (keys : List String) (k : String) : Option (List String) := if k ∈ keys then none else some (k :: keys)

/-- the keys a generator stores, radiation_advection.cpp:84-87 and radiation_equilibration.cpp:73-76. -/
def storeAll (ks : List String) (keys : List String) : Option (List String) := ks.foldlM paramsAdd keys

/-- Parthenon calls the generator once per block of the rank.
(Parthenon contract.) -/
def runBlocks (ks : List String) : ℕ → List String → Option (List String)
  | 0, keys => some keys
  | n + 1, keys => (storeAll ks keys).bind (runBlocks ks n)

/-- keys of radiation_advection.
(radiation_advection.cpp, `params.Add` calls cited below.) -/
def advKeys : List String :=
  ["radiation_advection/J0", "radiation_advection/Hx", "radiation_advection/Hy", "radiation_advection/Hz"]
/-- keys of radiation_equilibration.
(radiation_equilibration.cpp, `params.Add` calls cited below.) -/
def eqKeys : List String :=
  ["radiation_equilibration/rho0", "radiation_equilibration/Tg0", "radiation_equilibration/Tr0", "radiation_equilibration/Ye0"]

/-! ### homogeneous_sphere -/

/-- density, homogeneous_sphere.cpp:64-70: the "radius" is the first coordinate in either geometry. -/
noncomputable def sphereRho (R rhoMin : ℝ) (X : Fin 3 → ℝ) : ℝ := if X 0 < R then 1.0 else rhoMin

/-! ### thin_cooling -/

/-- `rho0` and `u0`, thin_cooling.cpp:57-59, and `Ye0`, 70; `none` when both or neither neutrino type is on (64-67). -/
noncomputable def thinCooling (u : Units.Units ℝ) (nue nuebar : Bool) : Option (ℝ × ℝ × ℝ) :=
  if nue = nuebar then none
  else some (1e6 * (1 / u.massDensity), 1e20 * (1 / u.energy) * (1 / u.numberDensity), if nue then 0.5 else 0.0)

/-- the pack slots written by thin_cooling.cpp:77-98, in order; slots are those of the pack (`ye` is `-2` when the field does not exist). -/
def thinWrites (irho ieng itmp iprs igm1 iye ivlo : ℤ) : List ℤ :=
  (if iye > 0 then [iye] else []) ++ [irho, ieng, itmp, iprs, igm1, iye, ivlo, ivlo + 1, ivlo + 2]

/-! ### leptoneq -/

/-- `Ye`, leptoneq.cpp:67-73. -/
noncomputable def leptonYe (x y : ℝ) : ℝ :=
  if x ≥ -0.75 ∧ x ≤ -0.25 ∧ y ≥ -0.75 ∧ y ≤ -0.25 then 0.1
  else if x ≥ 0.25 ∧ x ≤ 0.75 ∧ y ≥ 0.25 ∧ y ≤ 0.75 then 0.35
  else 0.225

/-! ### p2c2p -/

/-- `ReportError`, p2c2p.cpp:46-70: the reported maximum over the cells (`val` exact, `v` recovered). -/
noncomputable def reportMax : List (ℝ × ℝ) → ℝ → ℝ
  | [], m => m
  | (val, v) :: l, m => let err := |val - v| / val; reportMax l (if err > m then err else m)

end Phoebus.PgenRad
