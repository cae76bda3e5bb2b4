import Verif.Units.Model

/-!
# C39: unit conversions
-/
namespace Phoebus.Units
variable {K : Type*} [Field K] [LinearOrder K] [IsStrictOrderedRing K]

/-- admissible inputs: positive constants and positive user scales. -/
structure Ok (G c kb msun : K) (gi : GeomInput K) (fi : FluidInput K) : Prop where
  G : 0 < G
  c : 0 < c
  kb : 0 < kb
  msun : 0 < msun
  geom : match gi with | .massG m => 0 < m | .massMsun m => 0 < m | .lengthCm l => 0 < l
  fluid : match fi with | .massG m => 0 < m | .densityCgs d => 0 < d

variable {G c kb msun : K} {gi : GeomInput K} {fi : FluidInput K}

theorem length_pos (h : Ok G c kb msun gi fi) : 0 < (mk G c kb msun gi fi).length := by
  obtain ⟨hG, hc, -, hm, hg, -⟩ := h
  show 0 < lengthOf G c msun gi
  cases gi <;> simp only [lengthOf] <;> simp at hg <;> positivity

theorem mass_pos (h : Ok G c kb msun gi fi) : 0 < (mk G c kb msun gi fi).mass := by
  have hl : 0 < lengthOf G c msun gi := length_pos h
  obtain ⟨-, -, -, -, -, hf⟩ := h
  show 0 < massOf (lengthOf G c msun gi) fi
  cases fi <;> simp only [massOf] <;> simp at hf <;> positivity

/-- **C39** Every pair of conversion factors multiplies to one, for every admissible choice of units and for scale-free runs. -/
theorem getters_inverse (u : Units K) (hu : (∃ G c kb msun gi fi, Ok G c kb msun gi fi ∧ u = mk G c kb msun gi fi) ∨ u = scaleFree) :
    ∀ p ∈ getters u, p.1 * p.2 = 1 := by
  intro p hp
  rcases hu with ⟨G, c, kb, msun, gi, fi, h, rfl⟩ | rfl
  · have hl := (length_pos h).ne'
    have hm := (mass_pos h).ne'
    have hc := h.c.ne'
    have hk := h.kb.ne'
    simp only [mk] at hl hm
    simp only [getters, List.mem_cons, List.not_mem_nil, or_false, mk] at hp
    rcases hp with rfl | rfl | rfl | rfl | rfl | rfl | rfl | rfl <;> field_simp
  · simp only [getters, List.mem_cons, List.not_mem_nil, or_false, scaleFree] at hp
    rcases hp with rfl | rfl | rfl | rfl | rfl | rfl | rfl | rfl <;> simp

/-- **C39** Dimensional consistency: the derived units are the products of mass, length and time they should be, and light
travels one code length in one code time. -/
theorem units_consistent (h : Ok G c kb msun gi fi) :
    let u := mk G c kb msun gi fi
    u.energy = u.mass * u.length ^ 2 / u.time ^ 2 ∧ u.numberDensity * u.length ^ 3 = 1 ∧
    u.massDensity * u.length ^ 3 = u.mass ∧ c * u.time = u.length ∧ kb * u.temperature = 1 := by
  have hl := (length_pos h).ne'
  have hm := (mass_pos h).ne'
  have hc := h.c.ne'
  have hk := h.kb.ne'
  simp only [mk] at hl hm ⊢
  refine ⟨?_, ?_, ?_, ?_, ?_⟩ <;> field_simp

/-- **C39** The user's scale is respected: the given mass is one gravitational radius, the given length is the code length, the
given density is the code density, the given fluid mass is the code mass. -/
theorem units_input (h : Ok G c kb msun gi fi) :
    let u := mk G c kb msun gi fi
    (∀ m, gi = .massG m → u.length * c ^ 2 = G * m) ∧ (∀ m, gi = .massMsun m → u.length * c ^ 2 = G * (m * msun)) ∧
    (∀ l, gi = .lengthCm l → u.length = l) ∧ (∀ m, fi = .massG m → u.mass = m) ∧
    (∀ d, fi = .densityCgs d → u.massDensity = d) := by
  have hl := (length_pos h).ne'
  have hc := h.c.ne'
  refine ⟨?_, ?_, ?_, ?_, ?_⟩
  · rintro m rfl; simp only [mk, lengthOf]; field_simp
  · rintro m rfl; simp only [mk, lengthOf]; field_simp
  · rintro m rfl; rfl
  · rintro m rfl; rfl
  · rintro m rfl; simp only [mk, massOf] at hl ⊢; field_simp

/-- **C39** In code units `c = 1`; Planck's constant and the proton mass convert with the matching factors; a thermal energy
`kb T` is the same computed on either side. -/
theorem code_constants (hP mp : K) (h : Ok G c kb msun gi fi) (T : K) :
    let u := mk G c kb msun gi fi
    let k := codeConstants hP c kb mp u
    k.c = 1 ∧ k.h * (u.energy * u.time) = hP ∧ k.mp * u.mass = mp ∧ (k.kb * T) * u.energy = kb * (T * u.temperature) := by
  have hl := (length_pos h).ne'
  have hm := (mass_pos h).ne'
  have hc := h.c.ne'
  have hk := h.kb.ne'
  simp only [mk] at hl hm
  simp only [mk, codeConstants]
  refine ⟨?_, ?_, ?_, ?_⟩ <;> field_simp

/-- **C39, comment contradicted**: unit_conversions.cpp:21 says "assume kb = 1 in code units"; the constant built is the
reciprocal of the energy unit, which is one only by accident. -/
theorem kb_code (hP mp : K) (h : Ok G c kb msun gi fi) :
    (codeConstants hP c kb mp (mk G c kb msun gi fi)).kb = 1 / (mk G c kb msun gi fi).energy ∧
    ((codeConstants hP c kb mp (mk G c kb msun gi fi)).kb = 1 ↔ (mk G c kb msun gi fi).energy = 1) := by
  have hl := (length_pos h).ne'
  have hm := (mass_pos h).ne'
  have hc := h.c.ne'
  have hk := h.kb.ne'
  have e : (codeConstants hP c kb mp (mk G c kb msun gi fi)).kb = 1 / (mk G c kb msun gi fi).energy := by
    simp only [mk] at hl hm
    simp only [mk, codeConstants]
    field_simp
  have he : (mk G c kb msun gi fi).energy ≠ 0 := mul_ne_zero hm (pow_ne_zero 2 hc)
  refine ⟨e, ?_⟩
  rw [e, div_eq_one_iff_eq he, eq_comm]

/-- in a scale-free run the "code" constants are the CGS values (in particular `c ≠ 1`). -/
theorem scaleFree_constants (hP c kb mp : K) : codeConstants hP c kb mp scaleFree = ⟨hP, c, kb, mp⟩ := by
  simp [codeConstants, scaleFree]

example : Ok (1:ℚ) 3 2 5 (.massMsun 7) (.densityCgs 11) := ⟨by norm_num, by norm_num, by norm_num, by norm_num, by norm_num, by norm_num⟩
example : (codeConstants (1:ℚ) 3 2 1 (mk 1 3 2 5 (.massMsun 7) (.densityCgs 11))).kb ≠ 1 := by decide +kernel

end Phoebus.Units
