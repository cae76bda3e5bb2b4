import Verif.Limits.Model

/-!
# C117: floors, ceilings and EOS limits are the ones asked for
-/
namespace Phoebus.Limits
open Floors

/-- the switch `k` of the `<fixup>` section is on. -/
def On (p : Input) (k : String) : Prop := p.bool "fixup" k = some true

theorem b_false_iff (p : Input) (s k : String) : p.b s k false = true ↔ p.bool s k = some true := by
  unfold Input.b
  cases p.bool s k <;> simp

/-- **C117** floors act exactly when asked for, when the repair of failed inversions is asked for, or when magnetic (radiation) floors are
asked for in a run with magnetic fields (radiation); the magnetic and radiation limits exactly when asked for in such a run. -/
theorem flags_spec (p : Input) :
    ((flags p).floors = true ↔ On p "enable_floors" ∨ On p "enable_c2p_fixup" ∨
      (On p "enable_mhd_floors" ∧ p.bool "fluid" "mhd" = some true) ∨ (On p "enable_rad_floors" ∧ p.bool "physics" "rad" = some true)) ∧
    ((flags p).mhdFloors = true ↔ On p "enable_mhd_floors" ∧ p.bool "fluid" "mhd" = some true) ∧
    ((flags p).radFloors = true ↔ On p "enable_rad_floors" ∧ p.bool "physics" "rad" = some true) ∧
    ((flags p).radCeilings = true ↔ On p "enable_rad_ceilings" ∧ p.bool "physics" "rad" = some true) ∧
    ((flags p).ceilings = true ↔ On p "enable_ceilings") := by
  unfold On
  simp only [← b_false_iff, flags]
  generalize p.b "fluid" "mhd" false = m
  generalize p.b "physics" "rad" false = r
  generalize p.b "fixup" "enable_floors" false = a1
  generalize p.b "fixup" "enable_c2p_fixup" false = a2
  generalize p.b "fixup" "enable_mhd_floors" false = a3
  generalize p.b "fixup" "enable_rad_floors" false = a4
  generalize p.b "fixup" "enable_rad_ceilings" false = a5
  generalize p.b "fixup" "enable_ceilings" false = a6
  clear p
  cases m <;> cases r <;> cases a1 <;> cases a2 <;> cases a3 <;> cases a4 <;> simp

/-- **C117** the run starts exactly when every enabled limit names a known type (the fluid and radiation floors must name one), every
failure strategy is known, and net-field enforcement is only asked for on a black-hole grid, with a target and a start that is not negative. -/
theorem accepted_iff (big rmin smin : ℝ) (fmks : Bool) (p : Input) :
    (init big rmin smin fmks p).isSome ↔
      (On p "enable_phi_enforcement" → fmks = true ∧ (p.real "fixup" "enforced_phi").isSome ∧
        0 ≤ p.r "fixup" "enforced_phi_start_time" 175) ∧
      ((flags p).floors = true → ∃ t ∈ ["ConstantRhoSie", "ExpX1RhoSie", "ExpX1RhoU", "X1RhoSie", "RRhoSie"],
        p.str "fixup" "floor_type" = some t) ∧
      ((flags p).ceilings = true → p.s "fixup" "ceiling_type" "ConstantGamSie" = "ConstantGamSie") ∧
      ((flags p).radFloors = true → ∃ t ∈ ["ConstantJ", "ExpX1J"], p.str "fixup" "rad_floor_type" = some t) ∧
      ((flags p).radCeilings = true → p.s "fixup" "radiation_ceiling_type" "ConstantXi0" = "ConstantXi0") ∧
      ((flags p).mhdFloors = true → p.s "fixup" "mhd_ceiling_type" "ConstantBsqRat" = "ConstantBsqRat") ∧
      ∀ k ∈ ["fluid_c2p_failure_strategy", "rad_c2p_failure_strategy", "src_failure_strategy"],
        p.s "fixup" k "interpolate" ∈ ["interpolate", "floors"] := by
  have e1 : (phiSpec fmks p).isSome ↔ (On p "enable_phi_enforcement" → fmks = true ∧ (p.real "fixup" "enforced_phi").isSome ∧
        0 ≤ p.r "fixup" "enforced_phi_start_time" 175) := by
    unfold On phiSpec
    rw [← b_false_iff]
    by_cases h1 : p.b "fixup" "enable_phi_enforcement" false = true <;> simp only [h1, if_true, Bool.false_eq_true, if_false]
    · cases fmks
      · simp
      · cases p.real "fixup" "enforced_phi" with
        | none => simp
        | some x =>
          simp only [if_true]
          split_ifs with h2 <;> simp [h2]
    · simp
  have e2 : (floorSpec big rmin smin p (flags p).floors).isSome ↔ ((flags p).floors = true →
      ∃ t ∈ ["ConstantRhoSie", "ExpX1RhoSie", "ExpX1RhoU", "X1RhoSie", "RRhoSie"], p.str "fixup" "floor_type" = some t) := by
    unfold floorSpec
    cases (flags p).floors
    · simp
    · cases p.str "fixup" "floor_type" with
      | none => simp
      | some t =>
        simp only [if_true, List.mem_cons, List.not_mem_nil, or_false, Option.some.injEq, forall_const, exists_eq_right']
        split_ifs <;> simp_all
  have e3 : (ceilSpec big p (flags p).ceilings).isSome ↔
      ((flags p).ceilings = true → p.s "fixup" "ceiling_type" "ConstantGamSie" = "ConstantGamSie") := by
    unfold ceilSpec
    split_ifs <;> simp_all
  have e4 : (radFloorSpec big p (flags p).radFloors).isSome ↔
      ((flags p).radFloors = true → ∃ t ∈ ["ConstantJ", "ExpX1J"], p.str "fixup" "rad_floor_type" = some t) := by
    unfold radFloorSpec
    cases (flags p).radFloors
    · simp
    · cases p.str "fixup" "rad_floor_type" with
      | none => simp
      | some t =>
        simp only [if_true, List.mem_cons, List.not_mem_nil, or_false, Option.some.injEq, forall_const, exists_eq_right']
        split_ifs <;> simp_all
  have e5 : (radCeilSpec big p (flags p).radCeilings).isSome ↔
      ((flags p).radCeilings = true → p.s "fixup" "radiation_ceiling_type" "ConstantXi0" = "ConstantXi0") := by
    unfold radCeilSpec
    split_ifs <;> simp_all
  have e6 : (mhdCeilSpec big p (flags p).mhdFloors).isSome ↔
      ((flags p).mhdFloors = true → p.s "fixup" "mhd_ceiling_type" "ConstantBsqRat" = "ConstantBsqRat") := by
    unfold mhdCeilSpec
    split_ifs <;> simp_all
  have e7 : ∀ k, (strategy p k).isSome ↔ p.s "fixup" k "interpolate" ∈ ["interpolate", "floors"] := by
    intro k
    unfold strategy
    simp only [List.mem_cons, List.not_mem_nil, or_false]
    split_ifs <;> simp_all
  rw [← e1, ← e2, ← e3, ← e4, ← e5, ← e6]
  simp only [← e7, List.mem_cons, List.not_mem_nil, or_false, forall_eq_or_imp, forall_eq]
  simp only [init, Option.bind_eq_bind, Option.isSome_iff_exists, Option.bind_eq_some_iff, Option.some.injEq]
  constructor
  · rintro ⟨c, a1, h1, a2, h2, a3, h3, a4, h4, a5, h5, a6, h6, a7, h7, a8, h8, a9, h9, -⟩
    exact ⟨⟨_, h1⟩, ⟨_, h2⟩, ⟨_, h3⟩, ⟨_, h4⟩, ⟨_, h5⟩, ⟨_, h6⟩, ⟨_, h7⟩, ⟨_, h8⟩, ⟨_, h9⟩⟩
  · rintro ⟨⟨_, h1⟩, ⟨_, h2⟩, ⟨_, h3⟩, ⟨_, h4⟩, ⟨_, h5⟩, ⟨_, h6⟩, ⟨_, h7⟩, ⟨_, h8⟩, ⟨_, h9⟩⟩
    exact ⟨_, _, h1, _, h2, _, h3, _, h4, _, h5, _, h6, _, h7, _, h8, _, h9, rfl⟩

/-- the parts of an accepted configuration. -/
theorem init_parts {big rmin smin : ℝ} {fmks : Bool} {p : Input} {c : Config} (h : init big rmin smin fmks p = some c) :
    c.flags = flags p ∧ floorSpec big rmin smin p (flags p).floors = some c.floor ∧ ceilSpec big p (flags p).ceilings = some c.ceil ∧
    radFloorSpec big p (flags p).radFloors = some c.radFloor ∧ radCeilSpec big p (flags p).radCeilings = some c.radCeil ∧
    mhdCeilSpec big p (flags p).mhdFloors = some c.mhdCeil ∧ phiSpec fmks p = some c.phi ∧
    strategy p "fluid_c2p_failure_strategy" = some c.fluidStrategy ∧ strategy p "rad_c2p_failure_strategy" = some c.radStrategy ∧
    strategy p "src_failure_strategy" = some c.srcStrategy := by
  unfold init at h
  simp only [Option.bind_eq_bind, Option.bind_eq_some_iff, Option.some.injEq] at h
  obtain ⟨a1, h1, a2, h2, a3, h3, a4, h4, a5, h5, a6, h6, a7, h7, a8, h8, a9, h9, rfl⟩ := h
  exact ⟨rfl, h2, h3, h4, h5, h6, h1, h7, h8, h9⟩

/-- **C117** the floors of the constant and exponential types are, at every position, the values and slopes of the input file, never below
the EOS limits.

Partial form of C117. Full property: For every input file: the run starts exactly when the named limits, strategies
and EOS are known; floors, ceilings and net-field enforcement act exactly when asked for (or implied by other
switches) with the values of the file at every position, never below the EOS limits; limits that are off have no
effect; tabulated limits are converted to code units. Missing: Power-law floors ignore the specific-energy keys;
scale-free table energies and crossed limits: proved deviations. -/
theorem floors_asked_partial {big rmin smin : ℝ} {fmks : Bool} {p : Input} {c : Config} (h : init big rmin smin fmks p = some c)
    (hon : (flags p).floors = true) (x1 x2 x3 rIn : ℝ) :
    (p.str "fixup" "floor_type" = some "ConstantRhoSie" → getFloors c.floor x1 x2 x3 rIn =
      some (max (p.r "fixup" "rho0_floor" 0) rmin, max (p.r "fixup" "sie0_floor" 0) smin)) ∧
    (p.str "fixup" "floor_type" = some "ExpX1RhoSie" → getFloors c.floor x1 x2 x3 rIn =
      some (max (p.r "fixup" "rho0_floor" 0 * Real.exp (p.r "fixup" "rho_exp_floor" (-2) * x1)) rmin,
        max (p.r "fixup" "sie0_floor" 0 * Real.exp (p.r "fixup" "sie_exp_floor" (-1) * x1)) smin)) := by
  obtain ⟨-, hf, -⟩ := init_parts h
  rw [hon] at hf
  constructor
  · intro ht
    simp only [floorSpec, if_true, ht, Option.some.injEq] at hf
    rw [← hf]; simp [getFloors]
  · intro ht
    simp [floorSpec, ht] at hf
    rw [← hf]; simp [getFloors]

/-- **C117 fails for the power-law types**: with `X1RhoSie` and `RRhoSie` the keys of the specific energy floor are not read; the floor uses
the keys of the energy *density* floor. -/
theorem power_law_floor {big rmin smin : ℝ} {fmks : Bool} {p : Input} {c : Config} (h : init big rmin smin fmks p = some c)
    (hon : (flags p).floors = true) (x1 x2 x3 rIn : ℝ) :
    (p.str "fixup" "floor_type" = some "X1RhoSie" → getFloors c.floor x1 x2 x3 rIn =
      some (max (p.r "fixup" "rho0_floor" 0 * min 1 (x1 ^ p.r "fixup" "rho_exp_floor" (-2))) rmin,
        max (p.r "fixup" "u0_floor" 0 * min 1 (x1 ^ p.r "fixup" "u_exp_floor" (-3))) smin)) ∧
    (p.str "fixup" "floor_type" = some "RRhoSie" → getFloors c.floor x1 x2 x3 rIn =
      some (max (p.r "fixup" "rho0_floor" 0 * min 1 (√(x1 * x1 + x2 * x2 + x3 * x3) ^ p.r "fixup" "rho_exp_floor" (-2))) rmin,
        max (p.r "fixup" "u0_floor" 0 * min 1 (√(x1 * x1 + x2 * x2 + x3 * x3) ^ p.r "fixup" "u_exp_floor" (-3))) smin)) := by
  obtain ⟨-, hf, -⟩ := init_parts h
  rw [hon] at hf
  constructor
  · intro ht
    simp [floorSpec, ht] at hf
    rw [← hf]; simp [getFloors]
  · intro ht
    simp [floorSpec, ht] at hf
    rw [← hf]; simp [getFloors]

/-- so a specific energy floor `e > 0` asked for with these types has no effect: the floor in force is the EOS limit, at every position. -/
theorem power_law_sie_lost {big rmin smin : ℝ} {fmks : Bool} {p : Input} {c : Config} (h : init big rmin smin fmks p = some c)
    (hon : (flags p).floors = true) (ht : p.str "fixup" "floor_type" = some "X1RhoSie" ∨ p.str "fixup" "floor_type" = some "RRhoSie")
    (e : ℝ) (_he : p.real "fixup" "sie0_floor" = some e) (hu : p.real "fixup" "u0_floor" = none) (hs : 0 ≤ smin) (x1 x2 x3 rIn : ℝ) :
    ∃ r, getFloors c.floor x1 x2 x3 rIn = some (r, smin) := by
  have h0 : p.r "fixup" "u0_floor" 0 = 0 := by simp [Input.r, hu]
  obtain ⟨a, b⟩ := power_law_floor h hon x1 x2 x3 rIn
  rcases ht with ht | ht
  · have := a ht
    rw [h0, zero_mul, max_eq_right hs] at this
    exact ⟨_, this⟩
  · have := b ht
    rw [h0, zero_mul, max_eq_right hs] at this
    exact ⟨_, this⟩

/-- the energy density type: the specific floor is the energy floor over the density floor, when the caller passes no density. -/
theorem energy_floor {big rmin smin : ℝ} {fmks : Bool} {p : Input} {c : Config} (h : init big rmin smin fmks p = some c)
    (hon : (flags p).floors = true) (x1 x2 x3 rIn : ℝ) (ht : p.str "fixup" "floor_type" = some "ExpX1RhoU") :
    let rf := p.r "fixup" "rho0_floor" 0 * Real.exp (p.r "fixup" "rho_exp_floor" (-2) * x1)
    getFloors c.floor x1 x2 x3 rIn = some (max rf rmin,
      max (p.r "fixup" "u0_floor" 0 * Real.exp (p.r "fixup" "u_exp_floor" (-3) * x1) / max rIn rf) smin) := by
  obtain ⟨-, hf, -⟩ := init_parts h
  rw [hon] at hf
  simp [floorSpec, ht] at hf
  rw [← hf]; simp [getFloors]

/-- **C117** whatever the configuration, the floors in force never lie below the EOS limits. -/
theorem floors_respect_eos {big rmin smin : ℝ} {fmks : Bool} {p : Input} {c : Config} (h : init big rmin smin fmks p = some c)
    (x1 x2 x3 rIn : ℝ) : ∃ r s, getFloors c.floor x1 x2 x3 rIn = some (r, s) ∧ rmin ≤ r ∧ smin ≤ s := by
  obtain ⟨-, hf, -⟩ := init_parts h
  have h1 : c.floor.eosSet = true ∧ c.floor.rhoMinEos = rmin ∧ c.floor.sieMinEos = smin := by
    cases hon : (flags p).floors with
    | false =>
      rw [hon] at hf
      simp only [floorSpec, Bool.false_eq_true, if_false, Option.some.injEq] at hf
      rw [← hf]; exact ⟨rfl, rfl, rfl⟩
    | true =>
      rw [hon] at hf
      simp only [floorSpec, if_true] at hf
      cases ht : p.str "fixup" "floor_type" with
      | none => rw [ht] at hf; simp at hf
      | some t =>
        rw [ht] at hf
        simp only at hf
        split_ifs at hf <;> simp only [Option.some.injEq] at hf <;> rw [← hf] <;> exact ⟨rfl, rfl, rfl⟩
  obtain ⟨a, b, d⟩ := h1
  refine ⟨_, _, by simp only [getFloors, a]; rfl, ?_, ?_⟩
  · rw [b]; exact le_max_right _ _
  · rw [d]; exact le_max_right _ _

/-- **C117** limits that are off have no effect: the floor is the EOS limit and the ceilings are the largest number. -/
theorem off_no_effect {big rmin smin : ℝ} {fmks : Bool} {p : Input} {c : Config} (h : init big rmin smin fmks p = some c)
    (hr : -big ≤ rmin) (hs : -big ≤ smin) (x1 x2 x3 rIn : ℝ) :
    ((flags p).floors = false → getFloors c.floor x1 x2 x3 rIn = some (rmin, smin)) ∧
    ((flags p).ceilings = false → c.ceil = (big, big)) ∧ ((flags p).mhdFloors = false → c.mhdCeil = (big, big)) ∧
    ((flags p).radFloors = false → ∀ x, c.radFloor x = -big) ∧ ((flags p).radCeilings = false → c.radCeil = (big, big)) := by
  obtain ⟨-, hf, hc, hrf, hrc, hm, -⟩ := init_parts h
  refine ⟨?_, ?_, ?_, ?_, ?_⟩ <;> intro hoff
  · rw [hoff] at hf
    simp only [floorSpec, Bool.false_eq_true, if_false, Option.some.injEq] at hf
    rw [← hf]; simp [getFloors, hr, hs]
  · rw [hoff] at hc; simpa [ceilSpec, eq_comm] using hc
  · rw [hoff] at hm; simpa [mhdCeilSpec, eq_comm] using hm
  · rw [hoff] at hrf
    simp only [radFloorSpec, Bool.false_eq_true, if_false, Option.some.injEq] at hrf
    intro x; rw [← hrf]
  · rw [hoff] at hrc; simpa [radCeilSpec, eq_comm] using hrc

/-- **C117** limits that are on have the values of the input file. -/
theorem ceilings_asked {big rmin smin : ℝ} {fmks : Bool} {p : Input} {c : Config} (h : init big rmin smin fmks p = some c) :
    ((flags p).ceilings = true → c.ceil = (p.r "fixup" "gam0_ceiling" 1000, p.r "fixup" "sie0_ceiling" 100)) ∧
    ((flags p).mhdFloors = true → c.mhdCeil = (p.r "fixup" "bsqorho0_ceiling" 50, p.r "fixup" "bsqou0_ceiling" 2500)) ∧
    ((flags p).radCeilings = true → c.radCeil = (p.r "fixup" "xi0_ceiling" (99 / 100), p.r "fixup" "tau0_ceiling" 100000)) ∧
    ((flags p).radFloors = true → ∀ x,
      (p.str "fixup" "rad_floor_type" = some "ConstantJ" → c.radFloor x = p.r "fixup" "J0_floor" 0) ∧
      (p.str "fixup" "rad_floor_type" = some "ExpX1J" →
        c.radFloor x = p.r "fixup" "J0_floor" 0 * Real.exp (p.r "fixup" "J_exp_floor" (-2) * x))) := by
  obtain ⟨-, -, hc, hrf, hrc, hm, -⟩ := init_parts h
  refine ⟨?_, ?_, ?_, ?_⟩ <;> intro hon
  · rw [hon] at hc
    simp only [ceilSpec, if_true] at hc
    split_ifs at hc; simpa [eq_comm] using hc
  · rw [hon] at hm
    simp only [mhdCeilSpec, if_true] at hm
    split_ifs at hm; simpa [eq_comm] using hm
  · rw [hon] at hrc
    simp only [radCeilSpec, if_true] at hrc
    split_ifs at hrc; simpa [eq_comm] using hrc
  · intro x
    rw [hon] at hrf
    constructor <;> intro ht <;> simp [radFloorSpec, ht] at hrf <;> rw [← hrf]

/-- the strategies are the named ones. -/
theorem strategies_asked {big rmin smin : ℝ} {fmks : Bool} {p : Input} {c : Config} (h : init big rmin smin fmks p = some c) :
    (c.fluidStrategy = true ↔ p.s "fixup" "fluid_c2p_failure_strategy" "interpolate" = "floors") ∧
    (c.radStrategy = true ↔ p.s "fixup" "rad_c2p_failure_strategy" "interpolate" = "floors") ∧
    (c.srcStrategy = true ↔ p.s "fixup" "src_failure_strategy" "interpolate" = "floors") := by
  obtain ⟨-, -, -, -, -, -, -, h1, h2, h3⟩ := init_parts h
  have e : ∀ k b, strategy p k = some b → (b = true ↔ p.s "fixup" k "interpolate" = "floors") := by
    intro k b hb
    unfold strategy at hb
    split_ifs at hb with h1 h2
    · simp only [Option.some.injEq] at hb; subst hb; rw [h1]; simp
    · simp only [Option.some.injEq] at hb; subst hb; simp [h2]
  exact ⟨e _ _ h1, e _ _ h2, e _ _ h3⟩

/-- **C117** a positive density floor asked for is positive at every position (off the centre), with every type. -/
theorem density_floor_pos {big rmin smin : ℝ} {fmks : Bool} {p : Input} {c : Config} (h : init big rmin smin fmks p = some c)
    (hon : (flags p).floors = true) (hr : 0 < p.r "fixup" "rho0_floor" 0) (x1 x2 x3 rIn : ℝ) (hx : 0 < x1) :
    ∃ r s, getFloors c.floor x1 x2 x3 rIn = some (r, s) ∧ 0 < r := by
  have hacc := (accepted_iff big rmin smin fmks p).1 (by rw [h]; rfl)
  obtain ⟨t, ht, hT⟩ := hacc.2.1 hon
  obtain ⟨a, b⟩ := floors_asked_partial h hon x1 x2 x3 rIn
  obtain ⟨c1, c2⟩ := power_law_floor h hon x1 x2 x3 rIn
  have d := energy_floor h hon x1 x2 x3 rIn
  have hq : 0 < √(x1 * x1 + x2 * x2 + x3 * x3) := Real.sqrt_pos.2 (by nlinarith [mul_pos hx hx, mul_self_nonneg x2, mul_self_nonneg x3])
  simp only [List.mem_cons, List.not_mem_nil, or_false] at ht
  rcases ht with rfl | rfl | rfl | rfl | rfl
  · exact ⟨_, _, a hT, lt_max_of_lt_left hr⟩
  · exact ⟨_, _, b hT, lt_max_of_lt_left (mul_pos hr (Real.exp_pos _))⟩
  · exact ⟨_, _, d hT, lt_max_of_lt_left (mul_pos hr (Real.exp_pos _))⟩
  · exact ⟨_, _, c1 hT, lt_max_of_lt_left (mul_pos hr (lt_min one_pos (Real.rpow_pos_of_pos hx _)))⟩
  · exact ⟨_, _, c2 hT, lt_max_of_lt_left (mul_pos hr (lt_min one_pos (Real.rpow_pos_of_pos hq _)))⟩

/-- enabling floors without giving values enables nothing: with the default EOS limits both floors are zero, whatever the type. -/
theorem default_floors_zero {big : ℝ} {fmks : Bool} {p : Input} {c : Config} (h : init big 0 0 fmks p = some c)
    (hon : (flags p).floors = true) (hr : p.real "fixup" "rho0_floor" = none) (hs : p.real "fixup" "sie0_floor" = none)
    (hu : p.real "fixup" "u0_floor" = none) (x1 x2 x3 rIn : ℝ) : getFloors c.floor x1 x2 x3 rIn = some (0, 0) := by
  have hacc := (accepted_iff big 0 0 fmks p).1 (by rw [h]; rfl)
  obtain ⟨t, ht, hT⟩ := hacc.2.1 hon
  have r0 : p.r "fixup" "rho0_floor" 0 = 0 := by simp [Input.r, hr]
  have s0 : p.r "fixup" "sie0_floor" 0 = 0 := by simp [Input.r, hs]
  have u0 : p.r "fixup" "u0_floor" 0 = 0 := by simp [Input.r, hu]
  obtain ⟨a, b⟩ := floors_asked_partial h hon x1 x2 x3 rIn
  obtain ⟨c1, c2⟩ := power_law_floor h hon x1 x2 x3 rIn
  have d := energy_floor h hon x1 x2 x3 rIn
  rw [r0] at a b c1 c2 d
  rw [s0] at a b
  rw [u0] at c1 c2 d
  simp only [zero_mul, zero_div, max_self] at a b c1 c2 d
  simp only [List.mem_cons, List.not_mem_nil, or_false] at ht
  rcases ht with rfl | rfl | rfl | rfl | rfl
  exacts [a hT, b hT, d hT, c1 hT, c2 hT]

/-- net-field enforcement, when on, has the parameters asked for. -/
theorem phi_asked {big rmin smin : ℝ} {fmks : Bool} {p : Input} {c : Config} (h : init big rmin smin fmks p = some c) :
    (c.phi.isSome ↔ On p "enable_phi_enforcement") ∧
    ∀ phi ts cad st, c.phi = some (phi, ts, cad, st) → p.real "fixup" "enforced_phi" = some phi ∧ 0 ≤ st ∧
      ts = p.r "fixup" "enforced_phi_timescale" 1000 ∧ cad = p.r "fixup" "enforced_phi_cadence" 10 ∧
      st = p.r "fixup" "enforced_phi_start_time" 175 := by
  obtain ⟨-, -, -, -, -, -, hp, -⟩ := init_parts h
  unfold phiSpec at hp
  unfold On
  rw [← b_false_iff]
  by_cases h1 : p.b "fixup" "enable_phi_enforcement" false = true
  · rw [if_pos h1] at hp
    by_cases h2 : fmks = true
    · rw [if_pos h2] at hp
      cases hx : p.real "fixup" "enforced_phi" with
      | none => rw [hx] at hp; simp at hp
      | some x =>
        rw [hx] at hp
        by_cases h3 : 0 ≤ p.r "fixup" "enforced_phi_start_time" 175
        · simp only [if_pos h3, Option.some.injEq] at hp
          rw [← hp]
          refine ⟨by simp [h1], ?_⟩
          intro phi ts cad st he
          simp only [Option.some.injEq, Prod.mk.injEq] at he
          obtain ⟨rfl, rfl, rfl, rfl⟩ := he
          exact ⟨rfl, h3, rfl, rfl, rfl⟩
        · simp [if_neg h3] at hp
    · rw [if_neg h2] at hp; simp at hp
  · rw [if_neg h1] at hp
    simp only [Option.some.injEq] at hp
    rw [← hp]
    exact ⟨by simp [h1], by intro _ _ _ _ he; simp at he⟩

/-! ### EOS limits -/

/-- **C117** an EOS is built exactly when its type is known to the build and its mandatory keys are given; the tabulated EOS needs the
electron fraction. -/
theorem eos_accepted_iff (hdf : Bool) (temp : ℝ → ℝ → ℝ → ℝ → ℝ) (c : ℝ) (u : Units.Units ℝ) (t : Table) (p : Input) :
    (eosInit hdf temp c u t p).isSome ↔
      (p.str "eos" "type" = some "IdealGas" ∧ (p.real "eos" "Gamma").isSome ∧ (p.real "eos" "Cv").isSome) ∨
      (p.str "eos" "type" = some "StellarCollapse" ∧ hdf = true ∧ (p.str "eos" "filename").isSome ∧ p.bool "fluid" "Ye" = some true) := by
  unfold eosInit
  rw [← b_false_iff]
  cases p.str "eos" "type" with
  | none => simp
  | some ty =>
    simp only [Option.some.injEq]
    by_cases h1 : ty = "IdealGas"
    · subst h1
      cases p.real "eos" "Gamma" <;> cases p.real "eos" "Cv" <;> simp
    · simp only [h1, if_false, false_and, false_or]
      by_cases h2 : ty = "StellarCollapse"
      · subst h2
        cases hdf
        · simp
        · simp only [true_and, and_self, if_true]
          split_ifs with h3
          · simpa using h3
          · simpa using h3
      · simp [h2]

/-- with a physical unit system, the limits of a tabulated EOS are those of the table, in code units: a quantity in code units times its unit
(density mass/length³, specific energy length²/time²) is the table's CGS value. -/
theorem table_limits (G c kb msun : ℝ) (gi : Units.GeomInput ℝ) (fi : Units.FluidInput ℝ) (hc : c ≠ 0) (hkb : kb ≠ 0)
    (hL : (Units.mk G c kb msun gi fi).length ≠ 0) (hM : (Units.mk G c kb msun gi fi).mass ≠ 0) (t : Table) :
    let u := Units.mk G c kb msun gi fi
    let l := tableLimits c u t
    l.rhoMin * (u.mass / u.length ^ 3) = t.rhoMin ∧ l.rhoMax * (u.mass / u.length ^ 3) = t.rhoMax ∧
    l.sieMin * (u.length ^ 2 / u.time ^ 2) = t.sieMin ∧ l.sieMax * (u.length ^ 2 / u.time ^ 2) = t.sieMax ∧
    l.TMin * u.temperature = t.TMin ∧ l.TMax * u.temperature = t.TMax ∧ l.yeMin = t.yeMin ∧ l.yeMax = t.yeMax := by
  intro u l
  have h1 : u.mass / u.length ^ 3 ≠ 0 := div_ne_zero hM (pow_ne_zero _ hL)
  have h2 : u.length ^ 2 / u.time ^ 2 = c ^ 2 := by
    have : u.time = u.length / c := rfl
    have hL' : u.length ≠ 0 := hL
    rw [this]; field_simp
  have h3 : u.temperature ≠ 0 := by
    have : u.temperature = 1 / kb := rfl
    rw [this]; exact one_div_ne_zero hkb
  have h4 : c ^ 2 ≠ 0 := pow_ne_zero _ hc
  rw [h2]
  refine ⟨?_, ?_, ?_, ?_, ?_, ?_, rfl, rfl⟩
  exacts [div_mul_cancel₀ _ h1, div_mul_cancel₀ _ h1, div_mul_cancel₀ _ h4, div_mul_cancel₀ _ h4, div_mul_cancel₀ _ h3, div_mul_cancel₀ _ h3]

/-- in a scale-free run (all units one) the energy limits of a table come out divided by `c²`. -/
theorem table_limits_scale_free (c : ℝ) (t : Table) :
    let l := tableLimits c Units.scaleFree t
    l.rhoMin = t.rhoMin ∧ l.sieMin = t.sieMin / c ^ 2 ∧ (1 < c → 0 < t.sieMax → l.sieMax < t.sieMax) := by
  refine ⟨by simp [tableLimits, Units.scaleFree], rfl, fun h1 h2 => ?_⟩
  simp only [tableLimits]
  exact div_lt_self h2 (by nlinarith)

/-- the ideal gas limits are the ones of the input file, the temperatures those of the limiting states. -/
theorem ideal_limits (temp : ℝ → ℝ → ℝ) (p : Input) :
    let l := idealLimits temp p
    l.rhoMin = p.r "eos" "rho_min" 0 ∧ l.sieMin = p.r "eos" "sie_min" 0 ∧ l.TMin = temp l.rhoMin l.sieMin ∧ l.TMax = temp l.rhoMax l.sieMax ∧
    l.yeMin < l.yeMax ∧
    ((p.real "eos" "rho_min" = none ∧ p.real "eos" "rho_max" = none → l.rhoMin < l.rhoMax) ∧
     (p.real "eos" "sie_min" = none ∧ p.real "eos" "sie_max" = none → l.sieMin < l.sieMax)) ∧
    (∀ x, p.real "eos" "rho_max" = some x → l.rhoMax = x) ∧ (∀ x, p.real "eos" "sie_max" = some x → l.sieMax = x) := by
  refine ⟨rfl, rfl, rfl, rfl, by simp [idealLimits]; norm_num, ⟨?_, ?_⟩, ?_, ?_⟩
  · rintro ⟨h1, h2⟩; simp [idealLimits, Input.r, h1, h2]
  · rintro ⟨h1, h2⟩; simp [idealLimits, Input.r, h1, h2]
  · intro x h; simp [idealLimits, Input.r, h]
  · intro x h; simp [idealLimits, Input.r, h]

/-- the limits are not checked: crossed limits are accepted and stored. -/
theorem ideal_limits_unchecked : ∃ p : Input, (eosInit false (fun _ _ _ s => s) 1 Units.scaleFree ⟨0, 0, 0, 0, 0, 0, 0, 0⟩ p).isSome ∧
    (idealLimits (fun _ s => s) p).rhoMax < (idealLimits (fun _ s => s) p).rhoMin := by
  refine ⟨⟨fun _ _ => none, fun _ k => if k = "rho_min" then some 2 else some 1, fun _ _ => some "IdealGas"⟩, ?_, ?_⟩
  · simp [eosInit]
  · simp [idealLimits, Input.r]

/-! ### Concrete cases -/

/-- a black-hole run with repair, magnetic floors, ceilings and exponential floors. -/
noncomputable def exIn : Input where
  bool s k := if k ∈ ["mhd", "enable_c2p_fixup", "enable_mhd_floors", "enable_ceilings"] then some true else none
  real s k := if k = "rho0_floor" then some (1 / 100) else if k = "sie0_floor" then some (1 / 10) else none
  str s k := if k = "floor_type" then some "ExpX1RhoSie" else none

/-- it is accepted, floors are on though not asked for directly, and the floor at `x1 = 0` is the one given. -/
theorem ex_accepted : (flags exIn).floors = true ∧ On exIn "enable_c2p_fixup" ∧ ¬ On exIn "enable_floors" ∧
    ∃ c, init 1000 0 0 true exIn = some c ∧ getFloors c.floor 0 0 0 0 = some (1 / 100, 1 / 10) ∧ c.ceil = (1000, 100) := by
  have hf : flags exIn = ⟨true, true, false, false, true⟩ := by
    simp [flags, Input.b, exIn]
  have hsome : (init 1000 0 0 true exIn).isSome := by
    rw [accepted_iff, hf]
    simp [On, exIn, Input.s]
  obtain ⟨c, hc⟩ := Option.isSome_iff_exists.1 hsome
  have hon : (flags exIn).floors = true := by rw [hf]
  refine ⟨hon, by simp [On, exIn], by simp [On, exIn], c, hc, ?_, ?_⟩
  · rw [(floors_asked_partial hc hon 0 0 0 0).2 (by simp [exIn])]
    simp [exIn, Input.r]
  · rw [(ceilings_asked hc).1 (by rw [hf])]
    simp [exIn, Input.r]

end Phoebus.Limits
