import Verif.Units.Model

/-!
# Model of the opacity set-up and of the species tables

`/repo/src/microphysics/opac_phoebus/opac_phoebus.{hpp,cpp}`, `/repo/src/radiation/radiation.{hpp,cpp}` and the places that pick the species of a slot.

singularity-opac is not part of the repository.  Its wrappers are modelled by their contract: a unit wrapper multiplies density, temperature and frequency by
the unit before the call and the returned inverse length by the length unit; the mean opacity is tabulated as opacity per density, averaged over frequency with
weights of total one, and multiplied by the density in the call.  Interpolation in the table is exact here.
-/
namespace Phoebus.Opac
variable {K : Type*} [Field K]

/-- An absorption or scattering opacity: coefficient (inverse length) as a function of density, temperature and frequency.
(Contract of singularity-opac or data type, no code of the repository.) -/
abbrev Opacity (K : Type*) := K → K → K → K

/-- A mean opacity: coefficient as a function of density and temperature.
(Contract of singularity-opac or data type, no code of the repository.) -/
abbrev Mean (K : Type*) := K → K → K

/-- Frequency average used for the tables, by temperature: the weight on every frequency function.
(Contract of singularity-opac or data type, no code of the repository.) -/
abbrev Average (K : Type*) := K → (K → K) → K

/-- `Gray(kappa)`, `ScaleFree(kappa)`: opac_phoebus.cpp:75-90, 109-126. -/
def gray (kappa : K) : Opacity K := fun rho _ _ => kappa * rho

/-- `GrayS(kappa * avg_particle_mass, avg_particle_mass)`, opac_phoebus.cpp:208-247: cross section per particle, particles per volume. -/
def grayS (mp kappa : K) : Opacity K := fun rho _ _ => rho / mp * (kappa * mp)

/-- `NonCGSUnits<...>(op, time_unit, mass_unit, length_unit, temp_unit)`, opac_phoebus.cpp:84, 101, 120, 134, 217, 238. -/
def nonCGS (u : Units.Units K) (op : Opacity K) : Opacity K := fun rho T nu =>
  op (u.mass / u.length ^ 3 * rho) (u.temperature * T) (nu / u.time) * u.length

/-- `MeanOpacityBase(op, ...)` / `MeanSOpacityCGS(op, ...)`, opac_phoebus.cpp:162, 179, 275. -/
def mean (avg : Average K) (op : Opacity K) : Mean K := fun rho T => rho * avg T (fun nu => op rho T nu / rho)

/-- `MeanNonCGSUnits<...>(m, ...)`, opac_phoebus.cpp:181, 277. -/
def meanNonCGS (u : Units.Units K) (m : Mean K) : Mean K := fun rho T =>
  m (u.mass / u.length ^ 3 * rho) (u.temperature * T) * u.length

/-- `h.opacity` / `h.s_opacity`: what the transport codes use, opac_phoebus.cpp:71-144, 207-247. -/
def hostOpacity (scaleFree : Bool) (u : Units.Units K) (op : Opacity K) : Opacity K := if scaleFree then op else nonCGS u op

/-- `d.mean_opacity`, opac_phoebus.cpp:146-188: the table is built from `h.opacity` (line 147), which already converts units, and wrapped again. -/
def meanAbsorption (scaleFree : Bool) (avg : Average K) (u : Units.Units K) (op : Opacity K) : Mean K :=
  if scaleFree then mean avg (hostOpacity scaleFree u op) else meanNonCGS u (mean avg (hostOpacity scaleFree u op))

/-- `d.mean_s_opacity`, opac_phoebus.cpp:249-284: the table is built from `h.s_opacity_baseunits`. -/
def meanScattering (scaleFree : Bool) (avg : Average K) (u : Units.Units K) (op : Opacity K) : Mean K :=
  if scaleFree then mean avg op else meanNonCGS u (mean avg op)

/-! ## Species -/

/-- `RadiationType`.
(microphysics/opac_phoebus; used at radiation.hpp:62-64.) -/
inductive Species | electron | electronAnti | heavy
  deriving DecidableEq, Repr

/-- The build options `DO_NU_ELECTRON`, `DO_NU_ELECTRON_ANTI`, `DO_NU_HEAVY`, compile_constants.hpp.in:20-22.
(Contract of singularity-opac or data type, no code of the repository.) -/
structure Options where
  electron : Bool
  anti : Bool
  heavy : Bool
  deriving DecidableEq, Repr

/-- The parameter `species` of the radiation package, radiation.cpp:98-111; its length is `PHOEBUS_NUM_SPECIES`. -/
def activeSpecies (o : Options) : List Species :=
  (if o.electron then [Species.electron] else []) ++ (if o.anti then [Species.electronAnti] else []) ++ (if o.heavy then [Species.heavy] else [])

/-- The constant `radiation::species`, radiation.hpp:62-64. -/
def allSpecies : List Species := [.electron, .electronAnti, .heavy]

/-- Species of slot `s` in `MomentFluidSource`, the Monte Carlo and MOCMC transport and the torus, moments_source.cpp:265-270, monte_carlo.cpp:39-44,
mocmc.cpp:106-111: from the parameter. -/
def slotTransport (o : Options) (s : ℕ) : Option Species := (activeSpecies o)[s]?

/-- Species of slot `s` in `MomentCalculateOpacities` and `radiation_equilibration`, moments.cpp:973, 987-991, radiation_equilibration.cpp:79, 100: from the constant. -/
def slotOpacity (_o : Options) (s : ℕ) : Option Species := allSpecies[s]?

/-- Species of the cooling function, cooling_function.cpp:154-156, 293-297: the constant, filtered by the options. -/
def coolingSpecies (o : Options) : List Species :=
  (List.zip allSpecies [o.electron, o.anti, o.heavy]).filterMap fun p => if p.2 then some p.1 else none

end Phoebus.Opac
