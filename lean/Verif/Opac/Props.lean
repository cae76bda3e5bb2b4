import Verif.Opac.Model
import Verif.Units.Props

/-!
# C104, C105: opacity units and species
-/
namespace Phoebus.Opac
variable {K : Type*} [Field K]

/-- Specification: `m` is the physical coefficient `phys` (CGS) expressed in code units: at a state given in code units it is the CGS coefficient of the
same state, per code length instead of per centimetre. -/
def InCodeUnits (u : Units.Units K) (phys m : Mean K) : Prop :=
  ∀ rho T, m rho T = phys (u.mass / u.length ^ 3 * rho) (u.temperature * T) * u.length

/-- **C104** The mean scattering opacity is the physical one in code units, for every opacity model, frequency average and unit system.

Partial form of C104. Full property: The absorption and scattering coefficients used by the evolution are the physical
ones (CGS) expressed in code units, for every choice of mass and length unit. Missing: Mean absorption converts units
twice (absorption_correct_iff). singularity-opac by contract. -/
theorem scattering_units_partial (avg : Average K) (u : Units.Units K) (op : Opacity K) : InCodeUnits u (mean avg op) (meanScattering false avg u op) :=
  fun _ _ => rfl

/-- **C104** The frequency-dependent coefficients too. -/
theorem spectral_units (u : Units.Units K) (op : Opacity K) (rho T nu : K) :
    hostOpacity false u op rho T nu = op (u.mass / u.length ^ 3 * rho) (u.temperature * T) (nu / u.time) * u.length := rfl

/-- a gray scattering opacity has the coefficient `kappa rho`, whatever the particle mass. -/
theorem grayS_eq (mp kappa rho T nu : K) (h : mp ≠ 0) : grayS mp kappa rho T nu = kappa * rho := by
  unfold grayS; field_simp

/-- **C104** The mean absorption opacity converts twice: density and temperature are multiplied by the square of their unit and the result by the square
of the length unit. -/
theorem absorption_double (avg : Average K) (u : Units.Units K) (op : Opacity K) (rho T : K) :
    meanAbsorption false avg u op rho T =
      (u.mass / u.length ^ 3 * rho) * avg (u.temperature * T) (fun nu =>
        op (u.mass / u.length ^ 3 * (u.mass / u.length ^ 3 * rho)) (u.temperature * (u.temperature * T)) (nu / u.time) * u.length /
          (u.mass / u.length ^ 3 * rho)) * u.length := rfl

/-- **C104** For a gray opacity the mean absorption coefficient is too large by the factor mass unit over length unit squared. -/
theorem absorption_gray (avg : Average K) (havg : ∀ T c, avg T (fun _ => c) = c) (u : Units.Units K) (hm : u.mass ≠ 0) (hl : u.length ≠ 0)
    (kappa rho T : K) :
    meanAbsorption false avg u (gray kappa) rho T =
      (u.mass / u.length ^ 2) * (mean avg (gray kappa) (u.mass / u.length ^ 3 * rho) (u.temperature * T) * u.length) := by
  by_cases hr : rho = 0
  · simp [hr, absorption_double, mean]
  have h0 : u.mass / u.length ^ 3 * rho ≠ 0 := mul_ne_zero (div_ne_zero hm (pow_ne_zero _ hl)) hr
  rw [absorption_double]
  have e1 : (fun nu => gray kappa (u.mass / u.length ^ 3 * (u.mass / u.length ^ 3 * rho)) (u.temperature * (u.temperature * T)) (nu / u.time) * u.length /
      (u.mass / u.length ^ 3 * rho)) = fun _ : K => kappa * u.mass / u.length ^ 2 := by
    funext nu; unfold gray; field_simp
  have e2 : mean avg (gray kappa) (u.mass / u.length ^ 3 * rho) (u.temperature * T) = u.mass / u.length ^ 3 * rho * kappa := by
    unfold mean
    have : (fun nu => gray kappa (u.mass / u.length ^ 3 * rho) (u.temperature * T) nu / (u.mass / u.length ^ 3 * rho)) = fun _ : K => kappa := by
      funext nu; unfold gray; field_simp
    rw [this, havg]
  rw [e1, havg, e2]; ring

/-- **C104** So for a non-zero gray opacity the absorption used by the moment evolution is the physical one exactly when mass unit = length unit squared (in g and cm). -/
theorem absorption_correct_iff (avg : Average K) (havg : ∀ T c, avg T (fun _ => c) = c) (u : Units.Units K) (hm : u.mass ≠ 0) (hl : u.length ≠ 0)
    (kappa : K) (hk : kappa ≠ 0) :
    InCodeUnits u (mean avg (gray kappa)) (meanAbsorption false avg u (gray kappa)) ↔ u.mass = u.length ^ 2 := by
  have h2 : u.length ^ 2 ≠ 0 := pow_ne_zero _ hl
  constructor
  · intro h
    have h1 := h 1 1
    rw [absorption_gray avg havg u hm hl] at h1
    have hne : mean avg (gray kappa) (u.mass / u.length ^ 3 * 1) (u.temperature * 1) * u.length ≠ 0 := by
      have h0 : u.mass / u.length ^ 3 * 1 ≠ 0 := mul_ne_zero (div_ne_zero hm (pow_ne_zero _ hl)) one_ne_zero
      have : mean avg (gray kappa) (u.mass / u.length ^ 3 * 1) (u.temperature * 1) = u.mass / u.length ^ 3 * 1 * kappa := by
        unfold mean
        have : (fun nu => gray kappa (u.mass / u.length ^ 3 * 1) (u.temperature * 1) nu / (u.mass / u.length ^ 3 * 1)) = fun _ : K => kappa := by
          funext nu; unfold gray; field_simp
        rw [this, havg]
      rw [this]
      exact mul_ne_zero (mul_ne_zero h0 hk) hl
    have := mul_right_cancel₀ hne (h1.trans (one_mul _).symm)
    rwa [div_eq_one_iff_eq h2] at this
  · intro h rho T
    rw [absorption_gray avg havg u hm hl, h, div_self h2, one_mul, ← h]

/-- **C104** A scale-free run is not affected. -/
theorem scale_free_opacity (avg : Average K) (u : Units.Units K) (op : Opacity K) :
    meanAbsorption true avg u op = mean avg op ∧ meanScattering true avg u op = mean avg op := ⟨rfl, rfl⟩

/-- lengths in kilometres and mass in solar masses, gray opacity: the hypotheses are met and the coefficient is wrong. -/
theorem ex_absorption : ¬ InCodeUnits (⟨1989 * 10 ^ 30, 10 ^ 5, 1, 1, 1, 1, 1⟩ : Units.Units ℚ) (mean (fun _ f => f 1) (gray 1))
    (meanAbsorption false (fun _ f => f 1) ⟨1989 * 10 ^ 30, 10 ^ 5, 1, 1, 1, 1, 1⟩ (gray 1)) := by
  rw [absorption_correct_iff _ (fun _ _ => rfl) _ (by norm_num) (by norm_num) _ one_ne_zero]
  norm_num

/-! ## Species -/

/-- **C105** A slot carries the species of the same number in every enabled list: there are as many slots as enabled species, without repetition. -/
theorem active_spec (o : Options) : (activeSpecies o).Nodup ∧ (∀ s, s ∈ activeSpecies o ↔ (s = .electron ∧ o.electron = true) ∨ (s = .electronAnti ∧ o.anti = true) ∨
    (s = .heavy ∧ o.heavy = true)) ∧ (activeSpecies o).length = o.electron.toNat + o.anti.toNat + o.heavy.toNat ∧ coolingSpecies o = activeSpecies o := by
  obtain ⟨a, b, c⟩ := o
  refine ⟨?_, ?_, ?_, ?_⟩
  · cases a <;> cases b <;> cases c <;> decide
  · intro s; cases s <;> cases a <;> cases b <;> cases c <;> decide
  · cases a <;> cases b <;> cases c <;> rfl
  · cases a <;> cases b <;> cases c <;> rfl

/-- **C105** The opacity of every slot is that of the species the transport uses for the slot, exactly when no species is enabled after a disabled one.

Partial form of C105. Full property: Every stage of the radiation evolution uses the same neutrino species for a slot
of the radiation fields. Missing: Exact condition on the build options. -/
theorem opacity_species_iff_partial (o : Options) :
    (∀ s < (activeSpecies o).length, slotOpacity o s = slotTransport o s) ↔ (o.anti = true → o.electron = true) ∧ (o.heavy = true → o.electron = true ∧ o.anti = true) := by
  obtain ⟨a, b, c⟩ := o
  cases a <;> cases b <;> cases c <;> decide

/-- electron neutrinos and heavy neutrinos only: the second slot is evolved as heavy neutrinos with the opacity of electron antineutrinos. -/
theorem ex_species : slotTransport ⟨true, false, true⟩ 1 = some .heavy ∧ slotOpacity ⟨true, false, true⟩ 1 = some .electronAnti := by decide

end Phoebus.Opac
