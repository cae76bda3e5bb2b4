import Verif.FluxCT.Model

/-!
# Properties of constrained transport (C17, C18)

Specification: `divB2`/`divB3` are the code's own diagnostic; the claim is that its value at any node is unchanged by
the update with the fluxes returned by `FluxCT`.
-/
namespace Phoebus.FluxCT
variable {K : Type} [Field K] [CharZero K]

/-- Every cell belongs to the block said to own it. -/
def Owned (own : ℤ → ℤ → ℤ → Block) : Prop := ∀ k j i, (own k j i).Has k j i

/-- The global edge EMF that every block computes on its own edges (2D). -/
def gEmf (F : Fin 3 → Fin 3 → Arr K) : Arr K := fun k j i =>
  (1/4) * (F 0 1 k j i + F 0 1 k (j-1) i - F 1 0 k j i - F 1 0 k j (i-1))

/-- Global edge EMFs, 3D. -/
def gEmf3 (F : Fin 3 → Fin 3 → Arr K) : Fin 3 → Arr K := fun n k j i =>
  match n with
  | 0 => (1/4) * (F 1 2 k j i + F 1 2 (k-1) j i - F 2 1 k j i - F 2 1 k (j-1) i)
  | 1 => -(1/4) * (F 0 2 k j i + F 0 2 (k-1) j i - F 2 0 k j i - F 2 0 k j (i-1))
  | 2 => (1/4) * (F 0 1 k j i + F 0 1 k (j-1) i - F 1 0 k j i - F 1 0 k j (i-1))

omit [CharZero K] in
theorem rhs_eq2 {b : Block} {k j i : ℤ} (h : b.Has k j i) (dx : Fin 3 → K) (F : Fin 3 → Fin 3 → Arr K) (old : Arr K) :
    fluxDiv2 dx (fluxCT2D b F old) 0 k j i
      = -((-(1/2) * (gEmf F k (j+1) i + gEmf F k (j+1) (i+1)) - -(1/2) * (gEmf F k j i + gEmf F k j (i+1))) / dx 1)
    ∧ fluxDiv2 dx (fluxCT2D b F old) 1 k j i
      = -(((1/2) * (gEmf F k j (i+1) + gEmf F k (j+1) (i+1)) - (1/2) * (gEmf F k j i + gEmf F k (j+1) i)) / dx 0) := by
  obtain ⟨⟨h1, h2⟩, ⟨h3, h4⟩, h5, h6⟩ := h
  have a1 : b.loop2 k j i := ⟨⟨h1, h2⟩, ⟨h3, by omega⟩, h5, by omega⟩
  have a2 : b.loop2 k (j+1) i := ⟨⟨h1, h2⟩, ⟨by omega, by omega⟩, h5, by omega⟩
  have a3 : b.loop2 k j (i+1) := ⟨⟨h1, h2⟩, ⟨h3, by omega⟩, by omega, by omega⟩
  have a4 : b.loop2 k (j+1) (i+1) := ⟨⟨h1, h2⟩, ⟨by omega, by omega⟩, by omega, by omega⟩
  constructor <;> simp [fluxDiv2, fluxCT2D, emf2D, gEmf, a1, a2, a3, a4]

omit [CharZero K] in
theorem rhs_eq3 {b : Block} {k j i : ℤ} (h : b.Has k j i) (dx : Fin 3 → K) (F : Fin 3 → Fin 3 → Arr K)
    (old : Fin 3 → Arr K) :
    fluxDiv3 dx (fluxCT3D b F old) 0 k j i
      = -((-(1/2) * (gEmf3 F 2 k (j+1) i + gEmf3 F 2 k (j+1) (i+1)) - -(1/2) * (gEmf3 F 2 k j i + gEmf3 F 2 k j (i+1))) / dx 1
        + ((1/2) * (gEmf3 F 1 (k+1) j i + gEmf3 F 1 (k+1) j (i+1)) - (1/2) * (gEmf3 F 1 k j i + gEmf3 F 1 k j (i+1))) / dx 2)
    ∧ fluxDiv3 dx (fluxCT3D b F old) 1 k j i
      = -(((1/2) * (gEmf3 F 2 k j (i+1) + gEmf3 F 2 k (j+1) (i+1)) - (1/2) * (gEmf3 F 2 k j i + gEmf3 F 2 k (j+1) i)) / dx 0
        + (-(1/2) * (gEmf3 F 0 (k+1) j i + gEmf3 F 0 (k+1) (j+1) i) - -(1/2) * (gEmf3 F 0 k j i + gEmf3 F 0 k (j+1) i)) / dx 2)
    ∧ fluxDiv3 dx (fluxCT3D b F old) 2 k j i
      = -((-(1/2) * (gEmf3 F 1 k j (i+1) + gEmf3 F 1 (k+1) j (i+1)) - -(1/2) * (gEmf3 F 1 k j i + gEmf3 F 1 (k+1) j i)) / dx 0
        + ((1/2) * (gEmf3 F 0 k (j+1) i + gEmf3 F 0 (k+1) (j+1) i) - (1/2) * (gEmf3 F 0 k j i + gEmf3 F 0 (k+1) j i)) / dx 1) := by
  obtain ⟨⟨h1, h2⟩, ⟨h3, h4⟩, h5, h6⟩ := h
  have a (p q r : ℤ) (hp : p = 0 ∨ p = 1) (hq : q = 0 ∨ q = 1) (hr : r = 0 ∨ r = 1) :
      b.loop3 (k + p) (j + q) (i + r) := ⟨⟨by omega, by omega⟩, ⟨by omega, by omega⟩, by omega, by omega⟩
  have a000 := a 0 0 0 (by simp) (by simp) (by simp)
  have a100 := a 1 0 0 (by simp) (by simp) (by simp)
  have a010 := a 0 1 0 (by simp) (by simp) (by simp)
  have a001 := a 0 0 1 (by simp) (by simp) (by simp)
  have a110 := a 1 1 0 (by simp) (by simp) (by simp)
  have a011 := a 0 1 1 (by simp) (by simp) (by simp)
  have a101 := a 1 0 1 (by simp) (by simp) (by simp)
  simp only [add_zero] at *
  refine ⟨?_, ?_, ?_⟩ <;> simp [fluxDiv3, fluxCT3D, emf3D, gEmf3, *]

/-- **C17 (2D)**: whatever the face fluxes, the stale scratch memory, the step and the decomposition into blocks, the
divB of the updated field equals the divB of the old field at *every* node of the mesh. -/
theorem divB_preserved_2D (own : ℤ → ℤ → ℤ → Block) (hown : Owned own) (old : ℤ → ℤ → ℤ → Arr K) (dx : Fin 3 → K)
    (F : Fin 3 → Fin 3 → Arr K) (B : Fin 3 → Arr K) (dt : K) (k j i : ℤ) :
    divB2 dx (fun c k j i => B c k j i + dt * meshRhs2 own old dx F c k j i) k j i = divB2 dx B k j i := by
  unfold divB2 meshRhs2
  simp only [rhs_eq2 (hown _ _ _), sub_add_cancel]
  ring

/-- **C17 (3D)**. -/
theorem divB_preserved_3D (own : ℤ → ℤ → ℤ → Block) (hown : Owned own) (old : ℤ → ℤ → ℤ → Fin 3 → Arr K)
    (dx : Fin 3 → K) (F : Fin 3 → Fin 3 → Arr K) (B : Fin 3 → Arr K) (dt : K) (k j i : ℤ) :
    divB3 dx (fun c k j i => B c k j i + dt * meshRhs3 own old dx F c k j i) k j i = divB3 dx B k j i := by
  unfold divB3 meshRhs3
  simp only [rhs_eq3 (hown _ _ _), sub_add_cancel]
  ring

omit [CharZero K] in
/-- **C17, block locality (2D)**: the update of an interior cell reads only face fluxes that `CalculateFluxes`
computed for that block, and never the stale scratch memory. -/
theorem ct_local_2D (b : Block) (dx : Fin 3 → K) (F G : Fin 3 → Fin 3 → Arr K) (old old' : Arr K)
    (hFG : ∀ d c k j i, b.fluxRange 0 k j i → F d c k j i = G d c k j i)
    (c : Fin 3) (hc : c ≠ 2) {k j i : ℤ} (h : b.Has k j i) :
    fluxDiv2 dx (fluxCT2D b F old) c k j i = fluxDiv2 dx (fluxCT2D b G old') c k j i := by
  have e : ∀ p q, (p = 0 ∨ p = 1) → (q = 0 ∨ q = 1) → gEmf F k (j + p) (i + q) = gEmf G k (j + p) (i + q) := by
    intro p q hp hq
    obtain ⟨⟨h1, h2⟩, ⟨h3, h4⟩, h5, h6⟩ := h
    unfold gEmf
    rw [hFG, hFG, hFG, hFG] <;> exact ⟨⟨by omega, by omega⟩, ⟨by omega, by omega⟩, by omega, by omega⟩
  have e00 := e 0 0 (by simp) (by simp)
  have e10 := e 1 0 (by simp) (by simp)
  have e01 := e 0 1 (by simp) (by simp)
  have e11 := e 1 1 (by simp) (by simp)
  simp only [add_zero] at e00 e10 e01
  fin_cases c
  · simp [(rhs_eq2 h dx F old).1, (rhs_eq2 h dx G old').1, e00, e10, e01, e11]
  · simp [(rhs_eq2 h dx F old).2, (rhs_eq2 h dx G old').2, e00, e10, e01, e11]
  · exact absurd rfl hc

omit [CharZero K] in
/-- **C17, block locality (3D)**. -/
theorem ct_local_3D (b : Block) (dx : Fin 3 → K) (F G : Fin 3 → Fin 3 → Arr K) (old old' : Fin 3 → Arr K)
    (hFG : ∀ d c k j i, b.fluxRange 1 k j i → F d c k j i = G d c k j i)
    (c : Fin 3) {k j i : ℤ} (h : b.Has k j i) :
    fluxDiv3 dx (fluxCT3D b F old) c k j i = fluxDiv3 dx (fluxCT3D b G old') c k j i := by
  have e : ∀ n m p q, (m = 0 ∨ m = 1) → (p = 0 ∨ p = 1) → (q = 0 ∨ q = 1) →
      gEmf3 F n (k + m) (j + p) (i + q) = gEmf3 G n (k + m) (j + p) (i + q) := by
    intro n m p q hm hp hq
    obtain ⟨⟨h1, h2⟩, ⟨h3, h4⟩, h5, h6⟩ := h
    fin_cases n <;> simp only [gEmf3] <;>
    · rw [hFG, hFG, hFG, hFG] <;> exact ⟨⟨by omega, by omega⟩, ⟨by omega, by omega⟩, by omega, by omega⟩
  have e000 := fun n => e n 0 0 0 (by simp) (by simp) (by simp)
  have e010 := fun n => e n 0 1 0 (by simp) (by simp) (by simp)
  have e001 := fun n => e n 0 0 1 (by simp) (by simp) (by simp)
  have e011 := fun n => e n 0 1 1 (by simp) (by simp) (by simp)
  have e100 := fun n => e n 1 0 0 (by simp) (by simp) (by simp)
  have e110 := fun n => e n 1 1 0 (by simp) (by simp) (by simp)
  have e101 := fun n => e n 1 0 1 (by simp) (by simp) (by simp)
  simp only [add_zero] at e000 e010 e001 e011 e100 e110 e101
  fin_cases c
  · simp [(rhs_eq3 h dx F old).1, (rhs_eq3 h dx G old').1, *]
  · simp [(rhs_eq3 h dx F old).2.1, (rhs_eq3 h dx G old').2.1, *]
  · simp [(rhs_eq3 h dx F old).2.2, (rhs_eq3 h dx G old').2.2, *]

/-- **C17, consistency**: spatially uniform, antisymmetric induction fluxes are returned unchanged at the faces that
interior cells use (2D), so constrained transport does not alter a uniform electric field. -/
theorem ct_uniform_2D (b : Block) (F : Fin 3 → Fin 3 → Arr K) (old : Arr K) (e : K)
    (h01 : ∀ k j i, F 0 1 k j i = e) (h10 : ∀ k j i, F 1 0 k j i = -e) {k j i : ℤ} (h : b.Has k j i) :
    fluxCT2D b F old 0 1 k j i = e ∧ fluxCT2D b F old 1 0 k j i = -e
      ∧ fluxCT2D b F old 0 1 k j (i+1) = e ∧ fluxCT2D b F old 1 0 k (j+1) i = -e := by
  obtain ⟨⟨h1, h2⟩, ⟨h3, h4⟩, h5, h6⟩ := h
  have a1 : b.loop2 k j i := ⟨⟨h1, h2⟩, ⟨h3, by omega⟩, h5, by omega⟩
  have a2 : b.loop2 k (j+1) i := ⟨⟨h1, h2⟩, ⟨by omega, by omega⟩, h5, by omega⟩
  have a3 : b.loop2 k j (i+1) := ⟨⟨h1, h2⟩, ⟨h3, by omega⟩, by omega, by omega⟩
  have a4 : b.loop2 k (j+1) (i+1) := ⟨⟨h1, h2⟩, ⟨by omega, by omega⟩, by omega, by omega⟩
  refine ⟨?_, ?_, ?_, ?_⟩ <;> simp [fluxCT2D, emf2D, a1, a2, a3, a4, h01, h10] <;> ring

/-- **C17, consistency (3D)**: the uniform antisymmetric flux tensor `F d c = E d c` is returned unchanged. -/
theorem ct_uniform_3D (b : Block) (F : Fin 3 → Fin 3 → Arr K) (old : Fin 3 → Arr K) (E : Fin 3 → Fin 3 → K)
    (hE : ∀ d c, E d c = -E c d) (hF : ∀ d c k j i, F d c k j i = E d c) {k j i : ℤ} (h : b.Has k j i)
    (d c : Fin 3) : fluxCT3D b F old d c k j i = E d c := by
  obtain ⟨⟨h1, h2⟩, ⟨h3, h4⟩, h5, h6⟩ := h
  have a0 : b.loop3 k j i := ⟨⟨by omega, by omega⟩, ⟨by omega, by omega⟩, by omega, by omega⟩
  have a1 : b.loop3 (k+1) j i := ⟨⟨by omega, by omega⟩, ⟨by omega, by omega⟩, by omega, by omega⟩
  have a2 : b.loop3 k (j+1) i := ⟨⟨by omega, by omega⟩, ⟨by omega, by omega⟩, by omega, by omega⟩
  have a3 : b.loop3 k j (i+1) := ⟨⟨by omega, by omega⟩, ⟨by omega, by omega⟩, by omega, by omega⟩
  have z : ∀ d, E d d = 0 := fun d => by
    have := hE d d
    have h2 : (2 : K) * E d d = 0 := by linear_combination this
    simpa using h2
  have e10 := hE 1 0
  have e20 := hE 2 0
  have e21 := hE 2 1
  fin_cases d <;> fin_cases c <;> simp [fluxCT3D, emf3D, a0, a1, a2, a3, hF, z, e10, e20, e21] <;> ring

omit [CharZero K] in
theorem divB2_linear (dx : Fin 3 → K) (x y z : K) (A B C : Fin 3 → Arr K) (k j i : ℤ) :
    divB2 dx (fun c k j i => x * A c k j i + y * B c k j i + z * C c k j i) k j i
      = x * divB2 dx A k j i + y * divB2 dx B k j i + z * divB2 dx C k j i := by
  unfold divB2; ring

omit [CharZero K] in
theorem divB3_linear (dx : Fin 3 → K) (x y z : K) (A B C : Fin 3 → Arr K) (k j i : ℤ) :
    divB3 dx (fun c k j i => x * A c k j i + y * B c k j i + z * C c k j i) k j i
      = x * divB3 dx A k j i + y * divB3 dx B k j i + z * divB3 dx C k j i := by
  unfold divB3; ring

theorem divB2_rhs (dx : Fin 3 → K) (s : StageIn K (Arr K)) (h : Owned s.own) (k j i : ℤ) :
    divB2 dx (rhs2 dx s) k j i = 0 := by
  have := divB_preserved_2D s.own h s.old dx s.F (fun _ _ _ _ => 0) 1 k j i
  simpa [divB2, rhs2] using this

theorem divB3_rhs (dx : Fin 3 → K) (s : StageIn K (Fin 3 → Arr K)) (h : Owned s.own) (k j i : ℤ) :
    divB3 dx (rhs3 dx s) k j i = 0 := by
  have := divB_preserved_3D s.own h s.old dx s.F (fun _ _ _ _ => 0) 1 k j i
  simpa [divB3, rhs3] using this

omit [CharZero K] in
theorem run_invariant {S : Type} (D : (Fin 3 → Arr K) → K) (rhs : StageIn K S → Fin 3 → Arr K)
    (hlin : ∀ x y z A B C, D (fun c k j i => x * A c k j i + y * B c k j i + z * C c k j i)
      = x * D A + y * D B + z * D C)
    (steps : List (K × List (StageIn K S)))
    (hrhs : ∀ s ∈ steps, ∀ t ∈ s.2, D (rhs t) = 0) (B : Fin 3 → Arr K) :
    D (runB rhs steps B) = D B := by
  have stage : ∀ (dt : K) (base : Fin 3 → Arr K) (st : List (StageIn K S)), (∀ t ∈ st, D (rhs t) = 0) →
      ∀ cur, D cur = D base →
      D (st.foldl (fun cur s => stageB s.beta dt base cur (rhs s)) cur) = D base := by
    intro dt base st
    induction st with
    | nil => intro _ cur h; exact h
    | cons t st ih =>
      intro hz cur h
      simp only [List.foldl_cons]
      apply ih (fun t ht => hz t (by simp [ht]))
      unfold stageB
      rw [hlin, hz t (by simp), h]; ring
  unfold runB
  induction steps generalizing B with
  | nil => rfl
  | cons s steps ih =>
    simp only [List.foldl_cons]
    rw [ih (fun t ht => hrhs t (by simp [ht]))]
    exact stage s.1 B s.2 (hrhs s (by simp)) B rfl

omit [CharZero K] in
/-- the field at a point after a step whose stages all see the same rate: the old field plus the rate times `dt` times a number that depends only on the coefficients of the stages, `1` for rk1 (`1`), rk2 (`1, 1/2`) and rk3 (`1, 1/4, 2/3`). -/
theorem stage_rate_B {S : Type} (rhs : StageIn K S → Fin 3 → Arr K) (dt : K) (st : List (StageIn K S)) (base R : Fin 3 → Arr K) (hR : ∀ s ∈ st, rhs s = R) (c : Fin 3) (k j i : ℤ) :
    stepB rhs dt st base c k j i = base c k j i + (st.map StageIn.beta).foldl (fun w b => b * w + b) 0 * dt * R c k j i := by
  have gen : ∀ (st : List (StageIn K S)) (cur : Fin 3 → Arr K) (w : K), (∀ s ∈ st, rhs s = R) → cur c k j i = base c k j i + w * dt * R c k j i →
      st.foldl (fun cur s => stageB s.beta dt base cur (rhs s)) cur c k j i = base c k j i + (st.map StageIn.beta).foldl (fun w b => b * w + b) w * dt * R c k j i := by
    intro st
    induction st with
    | nil => intro cur w _ h; simpa using h
    | cons t st ih =>
      intro cur w h hc
      simp only [List.foldl_cons, List.map_cons]
      refine ih _ _ (fun s hs => h s (by simp [hs])) ?_
      rw [h t (by simp)]
      unfold stageB
      rw [hc]; ring
  exact gen st base 0 hR (by ring)

example : ([1, 1 / 4, 2 / 3] : List ℚ).foldl (fun w b => b * w + b) 0 = 1 := by norm_num

/-- **C18 (2D)**: through any run -- any number of steps, any time steps, any stage coefficients, any Riemann fluxes,
and any (even changing) decomposition into blocks -- divB at every node keeps its initial value. -/
theorem divB_run_2D (dx : Fin 3 → K) (steps : List (K × List (StageIn K (Arr K))))
    (hown : ∀ s ∈ steps, ∀ t ∈ s.2, Owned t.own) (B : Fin 3 → Arr K) (k j i : ℤ) :
    divB2 dx (runB (rhs2 dx) steps B) k j i = divB2 dx B k j i :=
  run_invariant (fun B => divB2 dx B k j i) (rhs2 dx) (fun _ _ _ _ _ _ => divB2_linear ..) steps
    (fun s hs t ht => divB2_rhs dx t (hown s hs t ht) k j i) B

/-- **C18 (3D)**. -/
theorem divB_run_3D (dx : Fin 3 → K) (steps : List (K × List (StageIn K (Fin 3 → Arr K))))
    (hown : ∀ s ∈ steps, ∀ t ∈ s.2, Owned t.own) (B : Fin 3 → Arr K) (k j i : ℤ) :
    divB3 dx (runB (rhs3 dx) steps B) k j i = divB3 dx B k j i :=
  run_invariant (fun B => divB3 dx B k j i) (rhs3 dx) (fun _ _ _ _ _ _ => divB3_linear ..) steps
    (fun s hs t ht => divB3_rhs dx t (hown s hs t ht) k j i) B

/-- A concrete decomposition into `8 x 8 x 8` blocks satisfying `Owned`. -/
def exOwn : ℤ → ℤ → ℤ → Block := fun k j i =>
  ⟨8 * (k / 8), 8 * (k / 8) + 7, 8 * (j / 8), 8 * (j / 8) + 7, 8 * (i / 8), 8 * (i / 8) + 7⟩

theorem exOwn_owned : Owned exOwn := by
  intro k j i
  refine ⟨⟨?_, ?_⟩, ⟨?_, ?_⟩, ?_, ?_⟩ <;> simp only [exOwn] <;> omega

/-- The claim has content: without constrained transport the same update does change divB. -/
example : divB2 (K := ℚ) (fun _ => 1)
    (fun c k j i => 0 + 1 * fluxDiv2 (fun _ => 1) (fun d c _ j i => if d = 0 ∧ c = 1 then (i * j : ℚ) else 0) c k j i) 0 1 1
    ≠ divB2 (fun _ => 1) (fun _ _ _ _ => 0) 0 1 1 := by
  norm_num [divB2, fluxDiv2]

end Phoebus.FluxCT
