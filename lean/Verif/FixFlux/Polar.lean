import Verif.FixFlux.Props
import Verif.FluxCT.Props

/-!
# Order of constrained transport and flux fix (C58)

In `RungeKuttaStage` (phoebus_driver.cpp:343-347 and 364-367) `fluid::FluxCT` runs first and `fixup::FixFluxes` runs
on its output.
-/
namespace Phoebus.FixFlux
open FluxCT
variable {K : Type} [Field K] [LinearOrder K] [IsStrictOrderedRing K]

/-- Fluxes used by the update in 2D: `FluxCT` then `FixFluxes`, phoebus_driver.cpp:343-347, 364-367. -/
def driverFlux (c : Cfg) (b : Block) (old : Arr K) (F : Flux K) : Flux K :=
  fixFluxes c b fun d v =>
    match v with
    | .B m => fluxCT2D b (fun d m => F d (.B m)) old d m
    | v => F d v

/-- The magnetic update with the driver's fluxes. -/
def driverB (c : Cfg) (b : Block) (old : Arr K) (dx : Fin 3 → K) (dt : K) (F : Flux K) (B : Fin 3 → Arr K) :
    Fin 3 → Arr K := fun m k j i =>
  B m k j i + dt * fluxDiv2 dx (fun d m => driverFlux c b old F d (.B m)) m k j i

/-- Face `(d,k,j,i)` lies on a polar boundary of the block. -/
def OnPole (c : Cfg) (b : Block) (d : Fin 3) (k j i : ℤ) : Prop :=
  d = 1 ∧ ∃ o, BoundaryFace b 1 o k j i ∧ c.user 1 o = true ∧ c.bc 1 o = BC.polar

omit [IsStrictOrderedRing K] in
/-- Away from the poles `FixFluxes` changes no magnetic flux through a face of an interior cell. -/
theorem fix_B_untouched (c : Cfg) (b : Block) (hb : Nonempty b) (F : Flux K) (m : Fin 3) (d : Fin 3) (k j i : ℤ)
    (huse : UsedFace b d k j i) (h : ¬ OnPole c b d k j i) :
    fixFluxes c b F d (.B m) k j i = F d (.B m) k j i := by
  have hghost : ∀ (o : Bool) (G : Flux K), polarGhost b c.ndim o G d (.B m) k j i = G d (.B m) k j i := by
    intro o G
    unfold polarGhost
    rw [if_neg]
    rintro ⟨-, hd, -, -, hj⟩
    rcases hd with hd | ⟨hd, -⟩ <;> subst hd <;> simp only [UsedFace, Block.Has] at huse <;> cases o <;>
      simp at hj <;> omega
  have hface : ∀ (d' : Fin 3) (o : Bool) (G : Flux K), fixFace c b d' o G d (.B m) k j i = G d (.B m) k j i := by
    intro d' o G
    cases hu : c.user d' o
    · simp [fixFace, hu]
    · cases hc : c.bc d' o <;> by_cases hd : d' = 1 <;> simp only [fixFace, hu, hc, if_true] <;>
        (try simp only [if_pos hd]) <;> (try simp only [if_neg hd]) <;> (try rw [hghost]) <;>
        simp only [setFace, outflowFix, reflect2, reflect13, ite_self]
      subst hd
      rw [if_neg]
      rintro ⟨rfl, hon⟩
      exact h ⟨rfl, o, (onFace_iff b 1 o k j i hb).1 hon, hu, hc⟩
  unfold fixFluxes
  split
  · rfl
  · simp only []
    split
    · rw [hface, hface]
    · split
      · rw [hface, hface, hface, hface]
      · rw [hface, hface, hface, hface, hface, hface]

/-- **C58, partial**: with the driver's order, divB at a node all of whose four cells are interior and none of whose
cells touches a polar boundary is unchanged, for every flux, step and boundary configuration. -/
theorem divB_driver_partial (c : Cfg) (b : Block) (hb : Nonempty b) (old : Arr K) (dx : Fin 3 → K) (dt : K)
    (F : Flux K) (B : Fin 3 → Arr K) (k j i : ℤ)
    (hcells : b.Has k j i ∧ b.Has k (j-1) i ∧ b.Has k j (i-1) ∧ b.Has k (j-1) (i-1))
    (hpole : ∀ o, c.user 1 o = true → c.bc 1 o = BC.polar → b.js < j - 1 ∧ j < b.je) :
    divB2 dx (driverB c b old dx dt F B) k j i = divB2 dx B k j i := by
  have hp : ∀ d j' i', b.js ≤ j' → j - 1 ≤ j' → j' ≤ j + 1 → ¬ OnPole c b d k j' i' := by
    rintro d j' i' - h1 h2 ⟨rfl, o, hf, hu, hc⟩
    have := hpole o hu hc
    cases o <;> simp [BoundaryFace, Block.Has] at hf <;> omega
  have key : ∀ (m : Fin 3) (j' i' : ℤ), b.Has k j' i' → (j' = j ∨ j' = j - 1) →
      fluxDiv2 dx (fun d m => driverFlux c b old F d (.B m)) m k j' i'
        = fluxDiv2 dx (fluxCT2D b (fun d m => F d (.B m)) old) m k j' i' := by
    intro m j' i' h hj
    have hh := h
    obtain ⟨h1, h2, h3⟩ := hh
    unfold fluxDiv2 driverFlux
    beta_reduce
    rw [fix_B_untouched c b hb _ m 0 k j' (i'+1) (Or.inr (by simpa using h)) (hp _ _ _ (by omega) (by omega) (by omega)),
      fix_B_untouched c b hb _ m 0 k j' i' (Or.inl h) (hp _ _ _ (by omega) (by omega) (by omega)),
      fix_B_untouched c b hb _ m 1 k (j'+1) i' (Or.inr (by simpa using h)) (hp _ _ _ (by omega) (by omega) (by omega)),
      fix_B_untouched c b hb _ m 1 k j' i' (Or.inl h) (hp _ _ _ (by omega) (by omega) (by omega))]
  obtain ⟨c1, c2, c3, c4⟩ := hcells
  have e1 := fun m => key m j i c1 (Or.inl rfl)
  have e2 := fun m => key m (j-1) i c2 (Or.inr rfl)
  have e3 := fun m => key m j (i-1) c3 (Or.inl rfl)
  have e4 := fun m => key m (j-1) (i-1) c4 (Or.inr rfl)
  simp only [divB2, driverB, e1, e2, e3, e4, rhs_eq2 c1, rhs_eq2 c2, rhs_eq2 c3, rhs_eq2 c4, sub_add_cancel]
  ring

/-- **C58, disagreement**: next to a polar boundary the driver's order (transport first, then zeroing the fluxes at the
pole) does change divB, at a node all of whose cells are interior. -/
theorem divB_driver_pole_broken : ¬ ∀ (c : Cfg) (b : Block) (_ : Nonempty b) (old : Arr ℚ) (dx : Fin 3 → ℚ) (dt : ℚ)
    (F : Flux ℚ) (B : Fin 3 → Arr ℚ) (k j i : ℤ)
    (_ : b.Has k j i ∧ b.Has k (j-1) i ∧ b.Has k j (i-1) ∧ b.Has k (j-1) (i-1)),
    divB2 dx (driverB c b old dx dt F B) k j i = divB2 dx B k j i := by
  intro h
  have := h ⟨true, 2, fun d o => d = 1 && !o, fun _ _ => .polar, 0, false, false⟩ ⟨0, 0, 0, 3, 0, 3⟩
    ⟨by decide, by decide, by decide⟩ (fun _ _ _ => 0) (fun _ => 1) 1
    (fun d v _ _ i => if d = 0 ∧ v = .B 1 then (i : ℚ) else 0) (fun _ _ _ _ => 0) 0 1 1
    ⟨by decide, by decide, by decide, by decide⟩
  revert this
  norm_num [divB2, driverB, fluxDiv2, driverFlux, fixFluxes, fixFace, polarGhost, setFace, onFace, polar2, fluxCT2D,
    emf2D, Block.loop2]

end Phoebus.FixFlux
