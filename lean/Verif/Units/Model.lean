import Verif.Common

/-!
# Model of `/repo/src/phoebus_utils/unit_conversions.{hpp,cpp}`

`G`, `c`, `kb`, `h`, `mp`, `msun` are the CGS constants (Parthenon's `PhysicalConstants` and `solar_mass`), kept symbolic.
-/
namespace Phoebus.Units
variable {K : Type*} [Field K]

/-- the members of `UnitConversions`, unit_conversions.hpp:56-64. -/
structure Units (K : Type*) where
  mass : K
  length : K
  time : K
  energy : K
  numberDensity : K
  massDensity : K
  temperature : K

/-- exactly one of the three geometry inputs, unit_conversions.cpp:41-44. -/
inductive GeomInput (K : Type*)
  | massG (m : K)
  | massMsun (m : K)
  | lengthCm (l : K)

/-- exactly one of the two fluid inputs, unit_conversions.cpp:46-47. -/
inductive FluidInput (K : Type*)
  | massG (m : K)
  | densityCgs (d : K)

/-- unit_conversions.cpp:49-61. -/
def lengthOf (G c msun : K) : GeomInput K → K
  | .massG m => G * m / c ^ 2
  | .massMsun m => G * (m * msun) / c ^ 2
  | .lengthCm l => l

/-- unit_conversions.cpp:63-69. -/
def massOf (length : K) : FluidInput K → K
  | .massG m => m
  | .densityCgs d => length * length * length * d

/-- the constructor for dimensional runs, unit_conversions.cpp:34-81. -/
def mk (G c kb msun : K) (gi : GeomInput K) (fi : FluidInput K) : Units K :=
  let length := lengthOf G c msun gi
  let mass := massOf length fi
  let nd := (length ^ 3)⁻¹
  { mass := mass, length := length, time := length / c, energy := mass * c ^ 2, numberDensity := nd,
    massDensity := mass * nd, temperature := 1 / kb }

/-- the constructor for scale-free runs, unit_conversions.cpp:25-33. -/
def scaleFree : Units K := ⟨1, 1, 1, 1, 1, 1, 1⟩

/-- the sixteen getters, unit_conversions.hpp:32-54, as pairs `(CodeToCGS, CGSToCode)`. -/
def getters (u : Units K) : List (K × K) :=
  [(u.mass, 1 / u.mass), (u.length, 1 / u.length), (u.time, 1 / u.time), (u.energy, 1 / u.energy),
   (u.numberDensity, 1 / u.numberDensity), (u.massDensity, 1 / u.massDensity), (u.temperature, 1 / u.temperature),
   ((u.energy / u.mass) / u.temperature, u.mass * u.temperature / u.energy)]

/-- `CodeConstants`, unit_conversions.hpp:68-97. -/
structure CodeConstants (K : Type*) where
  h : K
  c : K
  kb : K
  mp : K

/-- `MakeCodeConstants`, unit_conversions.hpp:88-96. -/
def codeConstants (h c kb mp : K) (u : Units K) : CodeConstants K :=
  let TIME := 1 / u.time
  let MASS := 1 / u.mass
  let LENGTH := 1 / u.length
  let ENERGY := MASS * LENGTH * LENGTH / (TIME * TIME)
  let TEMPERATURE := 1 / u.temperature
  ⟨h * MASS * LENGTH * LENGTH / TIME, c * LENGTH / TIME, kb * ENERGY / TEMPERATURE, mp * MASS⟩

end Phoebus.Units
