import Verif.BndProc.Model
import Verif.Boundary.Props

/-!
# C118: the boundary condition asked for is used everywhere;  C119: ghost zones are consistent after boundary processing
-/
namespace Phoebus.BndProc
open Limits (Input)
open Boundary (Face)

/-! ## C118 -/

/-- the keys of the six faces differ. -/
theorem key_injective : Function.Injective key := by
  intro a b h
  obtain ⟨a1, a2⟩ := a
  obtain ⟨b1, b2⟩ := b
  have ha : a1 = 0 ∨ a1 = 1 ∨ a1 = 2 := by omega
  have hb : b1 = 0 ∨ b1 = 1 ∨ b1 = 2 := by omega
  rcases ha with rfl | rfl | rfl <;> rcases hb with rfl | rfl | rfl <;> cases a2 <;> cases b2 <;> simp_all [key]

/-- **C118** a condition named in `<parthenon/mesh>` fills the ghosts of that face with the package's function for that face and that
condition; `polar` exists for X2 only. -/
theorem registered_spec (f : Face) (name : String) (g : Fill) :
    registered f name = some g ↔ (name = "reflect" ∧ g = .reflect f) ∨ (name = "polar" ∧ f.1 = 1 ∧ g = .polar f) ∨
      (name = "gr_outflow" ∧ g = .outflow f) := by
  unfold registered
  split_ifs with h1 h2 h3 h4
  · subst h1; simp [eq_comm]
  · subst h2; simp [h3, eq_comm]
  · subst h2; simp [h3]
  · subst h4; simp [eq_comm]
  · simp [h1, h2, h4]

/-- every input names a condition for every face, or the run stops. -/
theorem accepts_names {fmks : Bool} {p : Input} (h : accepts fmks p = true) (f : Face) : (meshBC p f).isSome := by
  unfold accepts at h
  rw [Bool.and_eq_true, List.all_eq_true] at h
  refine h.2 f ?_
  obtain ⟨a1, a2⟩ := f
  have ha : a1 = 0 ∨ a1 = 1 ∨ a1 = 2 := by omega
  rcases ha with rfl | rfl | rfl <;> cases a2 <;> simp

/-- **C118, exact condition**: the ghosts and the fluxes of a face are treated by the same condition for every registered name exactly when
the `<phoebus>` section repeats the `<parthenon/mesh>` value; an absent value counts as `gr_outflow`.

Partial form of C118. Full property: For every input file and face the ghost zones, the flux fix, the pole check and
the sample boundaries treat the face by the same boundary condition. Missing: Two input sections are read and never
compared; exact condition and consequences proved. -/
theorem flux_matches_ghosts_iff_partial (p : Input) (f : Face) (name : String) (hm : meshBC p f = some name) (g : Fill)
    (hr : registered f name = some g) :
    fluxBC p f = matching name f ↔
      p.str "phoebus" (key f) = some name ∨ (p.str "phoebus" (key f) = none ∧ name = "gr_outflow") := by
  have hn : name = "reflect" ∨ (name = "polar" ∧ f.1 = 1) ∨ name = "gr_outflow" := by
    rw [registered_spec] at hr
    rcases hr with ⟨h, _⟩ | ⟨h, h', _⟩ | ⟨h, _⟩
    · exact .inl h
    · exact .inr (.inl ⟨h, h'⟩)
    · exact .inr (.inr h)
  have hs : p.str "phoebus" (key f) = some name ∨ (p.str "phoebus" (key f) = none ∧ name = "gr_outflow") ↔ phoebusBC p f = name := by
    unfold phoebusBC Input.s
    cases p.str "phoebus" (key f) <;> simp [eq_comm]
  rw [hs]
  unfold fluxBC matching
  generalize phoebusBC p f = s
  constructor
  · intro h
    rcases hn with rfl | ⟨rfl, h1⟩ | rfl
    · simp only [String.reduceEq, if_false, if_true] at h
      split_ifs at h; assumption
    · simp only [String.reduceEq, if_false, h1, and_self, if_true] at h
      split_ifs at h with _ _ h4; exact h4.1
    · simp only [if_true] at h
      split_ifs at h; assumption
  · rintro rfl; rfl

/-- **C118 fails** for an input that, as nearly all shipped ones, names its conditions in `<parthenon/mesh>` only: the fluxes of every face are
treated as outflow, whatever the condition. -/
theorem flux_always_outflow (p : Input) (h : ∀ f, p.str "phoebus" (key f) = none) (f : Face) : fluxBC p f = .outflow := by
  simp [fluxBC, phoebusBC, Input.s, h f]

/-- the boundary keys of bondi.pin (`gr_outflow` in X1, `reflect` in X2, `periodic` in X3), everything else left at its default. -/
def bondiIn : Input where
  bool _ _ := none
  real _ _ := none
  str s k := if s = "parthenon/mesh" then
      (if k = "ix1_bc" ∨ k = "ox1_bc" then some "gr_outflow" else if k = "ix2_bc" ∨ k = "ox2_bc" then some "reflect"
       else if k = "ix3_bc" ∨ k = "ox3_bc" then some "periodic" else none)
    else none

/-- it is accepted although reflecting poles are "not supported" with the default `derefine_poles = true`: the check reads the other
section. -/
theorem pole_check_bypassed : accepts true bondiIn = true ∧ meshBC bondiIn (1, false) = some "reflect" ∧
    meshBC bondiIn (1, true) = some "reflect" ∧ registered (1, false) "reflect" = some (.reflect (1, false)) := by
  decide

/-- what the pole check really rejects. -/
theorem pole_check_iff (p : Input) (hm : ∀ f, (meshBC p f).isSome) :
    accepts true p = false ↔ p.bool "coordinates" "derefine_poles" ≠ some false ∧
      ∃ o v, p.str "phoebus" (key (1, o)) = some v ∧ (v = "reflect" ∨ v = "polar") := by
  have h1 : ([((0 : Fin 3), false), (0, true), (1, false), (1, true), (2, false), (2, true)].all fun f => (meshBC p f).isSome) = true := by
    rw [List.all_eq_true]; intro f _; exact hm f
  have h2 : p.b "coordinates" "derefine_poles" true = true ↔ p.bool "coordinates" "derefine_poles" ≠ some false := by
    unfold Input.b
    cases hb : p.bool "coordinates" "derefine_poles" with
    | none => simp
    | some b => cases b <;> simp
  have h3 : ∀ o, (phoebusBC p (1, o) = "reflect" ∨ phoebusBC p (1, o) = "polar") ↔
      ∃ v, p.str "phoebus" (key (1, o)) = some v ∧ (v = "reflect" ∨ v = "polar") := by
    intro o
    unfold phoebusBC Input.s
    cases p.str "phoebus" (key (1, o)) <;> simp
  unfold accepts
  rw [h1, Bool.and_true, ← h2]
  simp only [← h3]
  by_cases hd : p.b "coordinates" "derefine_poles" true = true
  · simp only [hd, Bool.and_true, if_true, true_and]
    simp only [Bool.and_eq_false_iff, decide_eq_false_iff_not, not_not, Bool.exists_bool]
    tauto
  · simp [hd]

/-- and the wall lets mass through: with `bondiIn` a flux that leaves the domain through the inner X2 wall is left as it is by the flux
fix, for every block, although a reflecting wall is asked for; with the section repeated it is set to zero. -/
theorem reflecting_wall_leaks (b : FluxCT.Block) (c : FixFlux.Cfg) (hen : c.enable = true) (hnd : c.ndim = 2) (hu : c.user 1 false = true)
    (F : FixFlux.Flux ℚ) (k i : ℤ) (hk : b.ks ≤ k ∧ k ≤ b.ke) (hi : b.is ≤ i ∧ i ≤ b.ie) (hj : b.js ≤ b.je) (hneg : F 1 .rho k b.js i < 0) :
    (c.bc = (fun d o => fluxBC bondiIn (d, o)) → FixFlux.fixFluxes c b F 1 .rho k b.js i = F 1 .rho k b.js i) ∧
    (c.bc 1 false = .reflect → FixFlux.fixFluxes c b F 1 .rho k b.js i = 0) := by
  have hne : ∀ f : FixFlux.Var → ℚ → ℚ, ∀ G : FixFlux.Flux ℚ, FixFlux.setFace 1 (FixFlux.onFace b 1 true) f G 1 .rho k b.js i = G 1 .rho k b.js i := by
    intro f G
    unfold FixFlux.setFace
    rw [if_neg]
    rintro ⟨-, h⟩
    simp only [FixFlux.onFace, if_true, decide_eq_true_eq] at h
    omega
  have hpg : ∀ o, ∀ G : FixFlux.Flux ℚ, FixFlux.polarGhost b c.ndim o G 1 .rho k b.js i = G 1 .rho k b.js i := by
    intro o G; simp [FixFlux.polarGhost]
  have hout : ∀ G : FixFlux.Flux ℚ, FixFlux.fixFace c b 1 true G 1 .rho k b.js i = G 1 .rho k b.js i := by
    intro G
    unfold FixFlux.fixFace
    by_cases hu' : c.user 1 true = true
    · rw [if_pos hu']
      cases c.bc 1 true <;> simp [hne, hpg]
    · rw [if_neg hu']
  have hx1 : ∀ o, ∀ G : FixFlux.Flux ℚ, FixFlux.fixFace c b 0 o G 1 .rho k b.js i = G 1 .rho k b.js i := by
    intro o G
    unfold FixFlux.fixFace
    by_cases hu' : c.user 0 o = true
    · rw [if_pos hu']
      cases c.bc 0 o <;> simp [FixFlux.setFace]
    · rw [if_neg hu']
  have hon : FixFlux.onFace b 1 false k b.js i = true := by
    simp [FixFlux.onFace, hk, hi]
  constructor
  · intro hbc
    have h1 : c.bc 1 false = .outflow := by rw [hbc]; decide
    simp only [FixFlux.fixFluxes, hen, hnd, Bool.not_true, Bool.false_eq_true, if_false, if_true]
    rw [if_neg (by norm_num)]
    rw [hout]
    rw [FixFlux.fixFace, if_pos hu, h1]
    simp only [FixFlux.setFace, hon, and_self, if_true, FixFlux.outflowFix, Bool.false_eq_true, if_false]
    rw [hx1, hx1]
    exact min_eq_left hneg.le
  · intro hbc
    simp only [FixFlux.fixFluxes, hen, hnd, Bool.not_true, Bool.false_eq_true, if_false, if_true]
    rw [if_neg (by norm_num)]
    rw [hout]
    rw [FixFlux.fixFace, if_pos hu, hbc]
    simp only [FixFlux.setFace, hon, and_self, if_true, FixFlux.reflect2]

/-- **C118 fails for samples**: their X1 boundaries are periodic whenever the run uses one of the names the fluid understands. -/
theorem samples_periodic (p : Input) (o : Bool) (h : ∀ v, p.str "phoebus" (key (0, o)) = some v → v = "gr_outflow" ∨ v = "reflect") :
    sampleBC p o = .periodic ∧ (fluxBC p (0, o) = .outflow ∨ fluxBC p (0, o) = .reflect) := by
  unfold sampleBC fluxBC phoebusBC Input.s
  cases hp : p.str "phoebus" (key (0, o)) with
  | none => simp
  | some v => rcases h v hp with rfl | rfl <;> simp

/-- and when they leave the domain freely, the fluid's fluxes are not treated at all. -/
theorem samples_outflow_flux (p : Input) (o : Bool) (h : sampleBC p o = .outflow) : fluxBC p (0, o) = .other := by
  unfold sampleBC at h
  unfold fluxBC
  generalize phoebusBC p (0, o) = s at *
  simp only at h
  split_ifs at h with h1
  subst h1; simp

/-! ## C119 -/

variable {I P C R F : Type}

theorem overSides_out (u : Setup I) (f : I → Zone P C R F → Zone P C R F) (s : I → Zone P C R F) (c : I)
    (h : ∀ n < 2 * u.ndim, u.phys n = true → u.ghost n c = false) : overSides u f s c = s c := by
  unfold overSides
  have : ∀ (l : List ℕ) (s : I → Zone P C R F), (∀ n ∈ l, u.phys n = true → u.ghost n c = false) →
      l.foldl (fun s n => if u.phys n then onRegion (u.ghost n) f s else s) s c = s c := by
    intro l
    induction l with
    | nil => intro s _; rfl
    | cons n l ih =>
      intro s hl
      rw [List.foldl_cons, ih _ fun m hm => hl m (List.mem_cons_of_mem _ hm)]
      split_ifs with hp
      · simp [onRegion, hl n (List.mem_cons_self ..) hp]
      · rfl
  exact this _ s fun n hn => h n (List.mem_range.1 hn)

/-- inside some physical side, an idempotent update is applied exactly once in effect. -/
theorem overSides_in (u : Setup I) (f : I → Zone P C R F → Zone P C R F) (hf : ∀ c z, f c (f c z) = f c z) (s : I → Zone P C R F) (c : I)
    (n : ℕ) (hn : n < 2 * u.ndim) (hp : u.phys n = true) (hg : u.ghost n c = true) : overSides u f s c = f c (s c) := by
  unfold overSides
  have key : ∀ (l : List ℕ) (s : I → Zone P C R F),
      (l.foldl (fun s n => if u.phys n then onRegion (u.ghost n) f s else s) s c = s c ∧ ¬ ∃ n ∈ l, u.phys n = true ∧ u.ghost n c = true) ∨
      l.foldl (fun s n => if u.phys n then onRegion (u.ghost n) f s else s) s c = f c (s c) := by
    intro l
    induction l with
    | nil => intro s; left; simp
    | cons m l ih =>
      intro s
      rw [List.foldl_cons]
      by_cases hm : u.phys m = true ∧ u.ghost m c = true
      · right
        have e : (if u.phys m then onRegion (u.ghost m) f s else s) c = f c (s c) := by simp [hm.1, onRegion, hm.2]
        rcases ih (if u.phys m then onRegion (u.ghost m) f s else s) with ⟨h, -⟩ | h
        · rw [h, e]
        · rw [h, e, hf]
      · have e : (if u.phys m then onRegion (u.ghost m) f s else s) c = s c := by
          by_cases h1 : u.phys m = true
          · have : u.ghost m c = false := by
              cases hgm : u.ghost m c
              · rfl
              · exact absurd ⟨h1, hgm⟩ hm
            simp [h1, onRegion, this]
          · simp [h1]
        rcases ih (if u.phys m then onRegion (u.ghost m) f s else s) with ⟨h, h'⟩ | h
        · left
          refine ⟨by rw [h, e], ?_⟩
          rintro ⟨k, hk, hk'⟩
          rcases List.mem_cons.1 hk with rfl | hk
          · exact hm hk'
          · exact h' ⟨k, hk, hk'⟩
        · right; rw [h, e]
  rcases key (List.range (2 * u.ndim)) s with ⟨-, h⟩ | h
  · exact absurd ⟨n, List.mem_range.2 hn, hp, hg⟩ h
  · exact h

/-- the primitives the inflow check starts from, on the outer X1 ghosts. -/
def start (m : Maps I P C R F) (u : Setup I) (c : I) (z : Zone P C R F) : P := if u.primBC then z.prim else m.c2p c z.cons

theorem inflow_in {m : Maps I P C R F} {u : Setup I} {s t : I → Zone P C R F} (h : inflow m u s = some t) (hf : u.fmks = true)
    (hc : u.check = true) (hp : u.phys 1 = true) (c : I) (hg : u.ghost 1 c = true) :
    t c = { prim := m.chk c (start m u c (s c)), cons := m.p2c c (m.chk c (start m u c (s c))),
            rprim := m.rchk c (s c).rprim, rcons := (s c).rcons } := by
  unfold inflow at h
  simp only [hf, hc, hp, Bool.and_self, if_true] at h
  split_ifs at h with h1 h2
  · simp only [Option.some.injEq] at h
    rw [← h]; simp [onRegion, hg, start, h2]
  · simp only [Option.some.injEq] at h
    rw [← h]; simp [onRegion, hg, start, h2]

theorem inflow_out {m : Maps I P C R F} {u : Setup I} {s t : I → Zone P C R F} (h : inflow m u s = some t) (c : I)
    (hg : u.fmks = true ∧ u.check = true ∧ u.phys 1 = true → u.ghost 1 c = false) : t c = s c := by
  unfold inflow at h
  split_ifs at h with h1 h2 h3
  · have hg' := hg (by simpa [and_assoc] using h1)
    simp only [Option.some.injEq] at h
    rw [← h]; simp [onRegion, hg']
  · have hg' := hg (by simpa [and_assoc] using h1)
    simp only [Option.some.injEq] at h
    rw [← h]; simp [onRegion, hg']
  · simp only [Option.some.injEq] at h; rw [h]

/-- **C119** zones outside the physical ghost layers (the interior and ghosts received from other blocks) are not touched. -/
theorem convert_outside {m : Maps I P C R F} {u : Setup I} {s t : I → Zone P C R F} (h : convert m u s = some t) (hd : 1 ≤ u.ndim) (c : I)
    (hc : ∀ n < 2 * u.ndim, u.phys n = true → u.ghost n c = false) : t c = s c := by
  unfold convert at h
  rw [Option.map_eq_some_iff] at h
  obtain ⟨s1, h1, rfl⟩ := h
  have e : s1 c = s c := inflow_out h1 c fun hh => hc 1 (by omega) hh.2.2
  simp only
  split_ifs <;> simp [overSides_out _ _ _ _ hc, e]

/-- **C119** when boundary conditions are applied to primitives: in every physical ghost zone of a used direction the primitives are the ones filled in (after
the inflow check on the outer X1 side of a black-hole grid), and both sets of conserved variables are those of these primitives.

Partial form of C119. Full property: After boundary processing conserved and primitive variables agree in every
physical ghost zone, the inflow check has acted on fluid and radiation, and all other zones are untouched. Missing:
Radiation inflow check lost with conserved boundary variables. -/
theorem convert_primitive_partial {m : Maps I P C R F} {u : Setup I} {s t : I → Zone P C R F} (h : convert m u s = some t) (hprim : u.primBC = true)
    (hfl : u.fluid = true) (hmo : u.moments = true) (c : I) (n : ℕ) (hn : n < 2 * u.ndim) (hp : u.phys n = true) (hg : u.ghost n c = true) :
    (t c).cons = m.p2c c (t c).prim ∧ (t c).rcons = m.rp2c c (t c).prim (t c).rprim ∧
    (u.fmks = true ∧ u.check = true ∧ u.phys 1 = true ∧ u.ghost 1 c = true →
      (t c).prim = m.chk c (s c).prim ∧ (t c).rprim = m.rchk c (s c).rprim) ∧
    (¬ (u.fmks = true ∧ u.check = true ∧ u.phys 1 = true ∧ u.ghost 1 c = true) →
      (t c).prim = (s c).prim ∧ (t c).rprim = (s c).rprim) := by
  unfold convert at h
  rw [Option.map_eq_some_iff] at h
  obtain ⟨s1, h1, rfl⟩ := h
  simp only [hprim, hfl, hmo, Bool.and_self, if_true]
  have e : overSides u (fun c z => { z with rcons := m.rp2c c z.prim z.rprim }) (overSides u (fun c z => { z with cons := m.p2c c z.prim }) s1) c
      = { s1 c with cons := m.p2c c (s1 c).prim, rcons := m.rp2c c (s1 c).prim (s1 c).rprim } := by
    rw [overSides_in u (fun c z => { z with rcons := m.rp2c c z.prim z.rprim }) (fun _ _ => rfl) _ c n hn hp hg,
      overSides_in u (fun c z => { z with cons := m.p2c c z.prim }) (fun _ _ => rfl) _ c n hn hp hg]
  rw [e]
  refine ⟨rfl, rfl, ?_, ?_⟩
  · rintro ⟨a1, a2, a3, a4⟩
    have := inflow_in h1 a1 a2 a3 c a4
    rw [this]; simp [start, hprim]
  · intro hno
    have : s1 c = s c := inflow_out h1 c fun hh => by
      cases hgc : u.ghost 1 c
      · rfl
      · exact absurd ⟨hh.1, hh.2.1, hh.2.2, hgc⟩ hno
    rw [this]; exact ⟨rfl, rfl⟩

/-- **C119** when boundary conditions are applied to conserved variables: only the inflow check acts, and it leaves the fluid with the checked
primitives and their conserved variables. -/
theorem convert_conserved {m : Maps I P C R F} {u : Setup I} {s t : I → Zone P C R F} (h : convert m u s = some t) (hprim : u.primBC = false)
    (hf : u.fmks = true) (hc : u.check = true) (hp : u.phys 1 = true) (c : I) (hg : u.ghost 1 c = true) :
    (t c).prim = m.chk c (m.c2p c (s c).cons) ∧ (t c).cons = m.p2c c (t c).prim ∧ (t c).rcons = (s c).rcons := by
  unfold convert at h
  rw [Option.map_eq_some_iff] at h
  obtain ⟨s1, h1, rfl⟩ := h
  simp only [hprim, Bool.and_false, Bool.false_eq_true, if_false]
  rw [inflow_in h1 hf hc hp c hg]
  simp [start, hprim]

/-- **C119 fails for radiation** in that case: after the derived fields are filled the radiation primitives are those of the conserved moments
that were there before; the result of the radiation inflow check is lost, whatever the check is. -/
theorem radiation_check_lost {m : Maps I P C R F} {u : Setup I} {s t : I → Zone P C R F} (h : convert m u s = some t) (hprim : u.primBC = false)
    (hmo : u.moments = true) (hf : u.fmks = true) (hc : u.check = true) (hp : u.phys 1 = true) (c : I) (hg : u.ghost 1 c = true) :
    (fillDerived m u t c).rprim = m.rc2p c (fillDerived m u t c).prim (s c).rcons := by
  obtain ⟨-, -, h3⟩ := convert_conserved h hprim hf hc hp c hg
  simp only [fillDerived, hmo, if_true]
  split_ifs <;> simp [h3]

/-- while the fluid check survives when the inversion recovers checked states. -/
theorem fluid_check_kept {m : Maps I P C R F} {u : Setup I} {s t : I → Zone P C R F} (h : convert m u s = some t) (hprim : u.primBC = false)
    (hf : u.fmks = true) (hc : u.check = true) (hp : u.phys 1 = true) (c : I) (hg : u.ghost 1 c = true)
    (hrec : ∀ q, m.c2p c (m.p2c c (m.chk c q)) = m.chk c q) :
    (fillDerived m u t c).prim = m.chk c (m.c2p c (s c).cons) := by
  obtain ⟨h1, h2, -⟩ := convert_conserved h hprim hf hc hp c hg
  simp only [fillDerived]
  split_ifs <;> simp [h2, h1, hrec]

/-- the task stops exactly when a black-hole run without an evolved fluid uses conserved boundary variables and the inflow check. -/
theorem convert_aborts_iff (m : Maps I P C R F) (u : Setup I) (s : I → Zone P C R F) :
    convert m u s = none ↔ u.fmks = true ∧ u.check = true ∧ u.phys 1 = true ∧ u.primBC = false ∧ u.fluid = false := by
  unfold convert inflow
  rw [Option.map_eq_none_iff]
  cases u.fmks <;> cases u.check <;> cases u.phys 1 <;> cases u.primBC <;> cases u.fluid <;> simp

/-- after the derived fields are filled, with an evolved fluid the primitives of **every** zone of the block (ghost or not) are the inversion of
its conserved variables, and without one they are untouched; likewise the moments, evaluated on the fluid state just filled; conserved
variables never change. -/
theorem filled_from_conserved (m : Maps I P C R F) (u : Setup I) (s : I → Zone P C R F) (c : I) :
    (u.fluid = true → (fillDerived m u s c).prim = m.c2p c (s c).cons) ∧ (u.fluid = false → (fillDerived m u s c).prim = (s c).prim) ∧
    (u.moments = true → (fillDerived m u s c).rprim = m.rc2p c (fillDerived m u s c).prim (s c).rcons) ∧
    (u.moments = false → (fillDerived m u s c).rprim = (s c).rprim) ∧
    (fillDerived m u s c).cons = (s c).cons ∧ (fillDerived m u s c).rcons = (s c).rcons := by
  unfold fillDerived
  cases u.fluid <;> cases u.moments <;> simp

/-! ### Concrete case -/

/-- a block of zones `0..3` with one ghost (zone 3) on the outer X1 side; radiation primitive = radial flux, conserved = the same number;
the check removes negative fluxes. -/
def exMaps : Maps ℕ ℤ ℤ ℤ ℤ :=
  { p2c := fun _ q => q, c2p := fun _ q => q, chk := fun _ q => max q 0, rchk := fun _ q => max q 0, rp2c := fun _ _ r => r,
    rc2p := fun _ _ f => f }
def exSetup (prim : Bool) : Setup ℕ :=
  ⟨1, fun n => n == 1, fun n c => n == 1 && c == 3, true, true, prim, true, true⟩
def exState : ℕ → Zone ℤ ℤ ℤ ℤ := fun _ => ⟨-2, -2, -5, -5⟩

/-- with conserved boundary variables radiation still streams in through the outer boundary, with primitive ones it does not; the fluid does
not in either case. -/
theorem ex_radiation_inflow :
    (∃ t, convert exMaps (exSetup false) exState = some t ∧ (fillDerived exMaps (exSetup false) t 3).rprim = -5 ∧
      (fillDerived exMaps (exSetup false) t 3).prim = 0) ∧
    (∃ t, convert exMaps (exSetup true) exState = some t ∧ (fillDerived exMaps (exSetup true) t 3).rprim = 0 ∧
      (fillDerived exMaps (exSetup true) t 3).prim = 0 ∧ (fillDerived exMaps (exSetup true) t 2).prim = -2) := by
  refine ⟨⟨_, rfl, ?_, ?_⟩, ⟨_, rfl, ?_, ?_, ?_⟩⟩ <;> decide +kernel

end Phoebus.BndProc
