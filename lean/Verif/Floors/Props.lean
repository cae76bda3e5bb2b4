import Verif.Floors.Model

/-!
# Floors and ceilings (C21, C22)
-/
namespace Phoebus.Floors
open Finset Geom Robust Rel

/-! ## C21: floors -/

/-- C21. Every floor type returns at least the EOS minima. -/
theorem floors_ge_eos (f : FloorSpec) (x1 x2 x3 rIn r s : ℝ) (h : getFloors f x1 x2 x3 rIn = some (r, s)) :
    f.rhoMinEos ≤ r ∧ f.sieMinEos ≤ s := by
  unfold getFloors at h
  split at h
  · simp at h
  · simp only [Option.some.injEq, Prod.mk.injEq] at h
    rw [← h.1, ← h.2]; exact ⟨le_max_right _ _, le_max_right _ _⟩

/-- C21. The floors are a function of position alone for every type but `ExpX1RhoU`, whose energy floor depends on whatever
value the caller's output variable happened to hold. -/
theorem floors_position_only (f : FloorSpec) (x1 x2 x3 r r' : ℝ) (hk : f.kind ≠ .expX1RhoU) :
    getFloors f x1 x2 x3 r = getFloors f x1 x2 x3 r' := by
  unfold getFloors
  cases hkk : f.kind <;> simp_all

theorem floors_expX1RhoU_reads_output :
    ∃ (f : FloorSpec) (r r' : ℝ), getFloors f 0 0 0 r ≠ getFloors f 0 0 0 r' := by
  refine ⟨⟨.expX1RhoU, 1, 1, 0, 0, 0, 0, true⟩, 1, 2, ?_⟩
  simp [getFloors]

/-- C21. `deficits` decides exactly whether a floor applies, and what it injects: mass and energy in the ratio of the
specific floor, both positive, enough to reach both floors, and no more than needed for at least one of them. -/
theorem deficits_spec (rf uf sie rho u : ℝ) (hs : 0 < sie) :
    (deficits rf uf sie rho u = none ↔ rf ≤ rho ∧ uf ≤ u) ∧
    ∀ dr du, deficits rf uf sie rho u = some (dr, du) →
      0 < dr ∧ du = sie * dr ∧ rf ≤ rho + dr ∧ uf ≤ u + du ∧ (rf = rho + dr ∨ uf = u + du) := by
  unfold deficits
  constructor
  · simp only []
    split_ifs with h
    · simp only [reduceCtorEq, false_iff, not_and_or, not_le]
      rcases h with h | h
      · left; linarith
      · right; linarith
    · rw [not_or, not_lt, not_lt] at h
      simp only [true_iff]
      constructor <;> linarith [h.1, h.2]
  · intro dr du
    simp only []
    split_ifs with h
    swap
    · simp
    intro he
    simp only [Option.some.injEq, Prod.mk.injEq] at he
    obtain ⟨h1, h2⟩ := he
    rw [h1] at h2
    have ha : rf - rho ≤ dr := by rw [← h1]; exact le_max_left _ _
    have hb : (uf - u) / sie ≤ dr := by rw [← h1]; exact le_max_right _ _
    rw [div_le_iff₀ hs] at hb
    have hdu : du = sie * dr := by rw [← h2]; exact max_eq_right (by linarith)
    refine ⟨?_, hdu, by linarith, by rw [hdu]; linarith, ?_⟩
    · rcases h with h | h
      · linarith
      · have : 0 < dr * sie := by linarith
        exact pos_of_mul_pos_left this hs.le
    · rcases max_choice (rf - rho) ((uf - u) / sie) with hc | hc
      · left; rw [hc] at h1; linarith
      · right; rw [hc] at h1
        have : (uf - u) = dr * sie := by rw [← h1]; field_simp
        rw [hdu]; linarith

/-- C21, C22. A state above the floors and below the ceilings is returned unchanged (primitives, electron fraction and
conserved variables). -/
theorem unchanged_within_bounds (val hasYe mhd : Bool) (P : Press) (yeMin : ℝ) (cb : CellBounds) (G : ADM ℝ) (gdet : ℝ)
    (invert : Cons → Option (Prim × ℝ)) (cell : Cell) (hs : 0 < cb.sieFloor)
    (hr : (effectiveFloors mhd cb G cell.prim).1 ≤ cell.prim.rho)
    (hu : (effectiveFloors mhd cb G cell.prim).2 ≤ cell.prim.u)
    (hW : lorentz G.gam cell.prim.v ≤ cb.gammaMax) (he : cell.prim.u / cell.prim.rho ≤ cb.eMax) :
    applyFloors val hasYe mhd P yeMin cb G gdet invert cell = cell := by
  unfold applyFloors
  simp only []
  rw [((deficits_spec _ _ _ _ _ hs).1).2 ⟨hr, hu⟩]
  unfold ceiling
  simp only []
  rw [if_neg]
  rw [not_or, not_lt, not_lt]; exact ⟨hW, he⟩

/-- Conserved image of a state at rest: the pressure drops out and the field contributes `B²/2` to the energy. -/
theorem p2c_rest (val : Bool) (G : ADM ℝ) (gdet ye rho u P : ℝ) (B : Fin 3 → ℝ) (ha : 0 < G.alpha) :
    p2c val G gdet ye ⟨rho, u, P, fun _ => 0, B⟩ =
      ⟨gdet * rho, fun _ => 0, fun m => gdet * B m,
        if val then gdet * (u + G.dot3 B B / 2) else gdet * rho - gdet * G.alpha * (rho + u + G.dot3 B B / 2),
        gdet * rho * ye⟩ := by
  have hW : lorentz G.gam (fun _ => 0) = 1 := by simp [lorentz]
  have hb : pBdotv G ⟨rho, u, P, fun _ => 0, B⟩ = 0 := by simp [pBdotv, pv]
  have hbs : pbsq G ⟨rho, u, P, fun _ => 0, B⟩ = G.dot3 B B := by
    simp only [pbsq, hb, hW, pBsq, ADM.g4_ss, ADM.dot3]; ring
  have ha' := ha.ne'
  simp only [p2c, hW, hb, hbs, mul_one, zero_mul, sub_zero, pv, mul_zero, Finset.sum_const_zero]
  congr 1
  cases val
  · simp only [Bool.false_eq_true, if_false, Fin.sum_univ_succ (n := 3), Fin.cons_zero, Fin.cons_succ, ADM.g4_00, ADM.g4_0s,
      pbcon, hb, hW, zero_sub]
    simp only [Fin.sum_univ_three, ADM.betaCov, ADM.dot3]
    field_simp; ring
  · simp only [if_true]; ring

theorem ceiling_keeps (val hasYe : Bool) (cb : CellBounds) (G : ADM ℝ) (gdet : ℝ) (cell : Cell) :
    (ceiling val hasYe cb G gdet cell).prim.rho = cell.prim.rho ∧
    (ceiling val hasYe cb G gdet cell).prim.u = cell.prim.u := by
  unfold ceiling; simp only []; split_ifs <;> exact ⟨rfl, rfl⟩

/-- The conserved state after injecting into a cell at rest. -/
noncomputable def restCons (val hasYe : Bool) (P : Press) (G : ADM ℝ) (gdet rho u p ye dr du : ℝ) (B : Fin 3 → ℝ) : Cons :=
  let c := p2c val G gdet ye ⟨rho, u, p, fun _ => 0, B⟩
  let y := if hasYe then c.ye else 0.5
  let d := p2c val G gdet y ⟨dr, du, P dr (du / dr) y, fun _ => 0, B⟩
  { c with D := c.D + d.D, S := fun i => c.S i + d.S i, tau := c.tau + d.tau, ye := if hasYe then c.ye + d.ye else c.ye }

theorem inject_rest (val hasYe : Bool) (P : Press) (yeMin : ℝ) (G : ADM ℝ) (gdet : ℝ) (ha : 0 < G.alpha)
    (rho u p ye : ℝ) (B : Fin 3 → ℝ) (dr du : ℝ) (hne : gdet * (rho + dr) ≠ 0) :
    let cell : Cell := ⟨⟨rho, u, p, fun _ => 0, B⟩, ye, p2c val G gdet ye ⟨rho, u, p, fun _ => 0, B⟩⟩
    let c' := restCons val hasYe P G gdet rho u p ye dr du B
    (∀ (invert : Cons → Option (Prim × ℝ)) q y, invert c' = some (q, y) →
      (inject val hasYe P yeMin G gdet invert dr du cell).prim = q ∧
      (inject val hasYe P yeMin G gdet invert dr du cell).ye = y) ∧
    ∀ p', p2c val G gdet (c'.ye / (gdet * (rho + dr))) ⟨rho + dr, u + du + G.dot3 B B / 2, p', fun _ => 0, B⟩ = c' := by
  intro cell c'
  constructor
  · intro invert q y hi
    have : (inject val hasYe P yeMin G gdet invert dr du cell) = match invert c' with
        | some (q, y) => ⟨q, y, c'⟩
        | none => _ := rfl
    rw [this, hi]; exact ⟨rfl, rfl⟩
  · intro p'
    rw [p2c_rest val G gdet _ _ _ _ _ ha]
    show _ = restCons val hasYe P G gdet rho u p ye dr du B
    have hy : gdet * (rho + dr) * (c'.ye / (gdet * (rho + dr))) = c'.ye := mul_div_cancel₀ _ hne
    rw [hy]
    show _ = ({ D := _, S := _, B := _, tau := _, ye := c'.ye } : Cons)
    simp only [p2c_rest val G gdet _ _ _ _ _ ha]
    congr 1
    · ring
    · funext i; ring
    · cases val
      · simp only [Bool.false_eq_true, if_false]; ring
      · simp only [if_true]; ring

/-- C21 (partial). For a cell at rest whose conserved variables are consistent with its primitives, and an inverter that
recovers states at rest (C61), applying the floors gives density `rho + drho` and energy `u + du + B²/2`, hence both
at least their effective floors.  The `B²/2` is spurious: `p2c` of the injected parcel counts the
field energy a second time. -/
theorem floors_enforced_at_rest_partial (val hasYe mhd : Bool) (P : Press) (yeMin : ℝ) (cb : CellBounds) (G : ADM ℝ) (gdet : ℝ)
    (invert : Cons → Option (Prim × ℝ)) (ha : 0 < G.alpha) (hp : PosDef G) (hs : 0 < cb.sieFloor)
    (rho u p ye : ℝ) (B : Fin 3 → ℝ) (dr du : ℝ)
    (hd : deficits (effectiveFloors mhd cb G ⟨rho, u, p, fun _ => 0, B⟩).1
      (effectiveFloors mhd cb G ⟨rho, u, p, fun _ => 0, B⟩).2 cb.sieFloor rho u = some (dr, du))
    (hinv : ∀ y, ∃ p' y', invert (p2c val G gdet y ⟨rho + dr, u + du + G.dot3 B B / 2, p', fun _ => 0, B⟩) =
      some (⟨rho + dr, u + du + G.dot3 B B / 2, p', fun _ => 0, B⟩, y'))
    (hne : gdet * (rho + dr) ≠ 0) :
    let cell : Cell := ⟨⟨rho, u, p, fun _ => 0, B⟩, ye, p2c val G gdet ye ⟨rho, u, p, fun _ => 0, B⟩⟩
    let out := applyFloors val hasYe mhd P yeMin cb G gdet invert cell
    let f := effectiveFloors mhd cb G cell.prim
    out.prim.rho = rho + dr ∧ out.prim.u = u + du + G.dot3 B B / 2 ∧ f.1 ≤ out.prim.rho ∧ f.2 ≤ out.prim.u := by
  intro cell out f
  obtain ⟨-, hsp⟩ := deficits_spec (effectiveFloors mhd cb G ⟨rho, u, p, fun _ => 0, B⟩).1
      (effectiveFloors mhd cb G ⟨rho, u, p, fun _ => 0, B⟩).2 cb.sieFloor rho u hs
  obtain ⟨hdr, hdu, h1, h2, -⟩ := hsp dr du hd
  have hb : 0 ≤ G.dot3 B B := hp B
  have key : out.prim.rho = rho + dr ∧ out.prim.u = u + du + G.dot3 B B / 2 := by
    have hc := ceiling_keeps val hasYe cb G gdet (inject val hasYe P yeMin G gdet invert dr du cell)
    have ho : out = ceiling val hasYe cb G gdet (inject val hasYe P yeMin G gdet invert dr du cell) := by
      show applyFloors val hasYe mhd P yeMin cb G gdet invert cell = _
      unfold applyFloors
      simp only []
      rw [show deficits (effectiveFloors mhd cb G cell.prim).1 (effectiveFloors mhd cb G cell.prim).2 cb.sieFloor
        cell.prim.rho cell.prim.u = some (dr, du) from hd]
    rw [ho, hc.1, hc.2]
    obtain ⟨e1, e2⟩ := inject_rest val hasYe P yeMin G gdet ha rho u p ye B dr du hne
    obtain ⟨p', y', hi⟩ := hinv _
    rw [e2 p'] at hi
    obtain ⟨e3, e4⟩ := e1 invert _ y' hi
    rw [e3]; exact ⟨rfl, rfl⟩
  refine ⟨key.1, key.2, ?_, ?_⟩
  · rw [key.1]; exact h1
  · rw [key.2]; show _ ≤ _; linarith

/-- C21, negations.  (i) A cell with enough mass and enough energy density but too low *specific* energy is left alone;
(ii) when the inversion after the injection fails, the cell is left with the *deficit* as its density, here a tenth of the
floor. -/
theorem specific_floor_not_enforced (val : Bool) (P : Press) (G : ADM ℝ) (gdet : ℝ) (invert : Cons → Option (Prim × ℝ))
    (c : Cons) :
    let cb : CellBounds := ⟨1, 1, 2, 10, 1, 1⟩
    let cell : Cell := ⟨⟨10, 2, 1, fun _ => 0, fun _ => 0⟩, 0, c⟩
    let out := applyFloors val false false P 0 cb G gdet invert cell
    out = cell ∧ out.prim.u < cb.sieFloor * out.prim.rho := by
  intro cb cell out
  have h : out = cell := by
    apply unchanged_within_bounds <;> simp [cb, cell, effectiveFloors, lorentz] <;> norm_num
  refine ⟨h, ?_⟩
  rw [h]; norm_num [cb, cell]

theorem failed_inversion_below_floor (val : Bool) (P : Press) (G : ADM ℝ) (gdet : ℝ) (c : Cons) :
    let cb : CellBounds := ⟨1, 1, 2, 10, 1, 1⟩
    let cell : Cell := ⟨⟨9 / 10, 1, 1, fun _ => 0, fun _ => 0⟩, 0, c⟩
    let out := applyFloors val false false P 0 cb G gdet (fun _ => none) cell
    out.prim.rho = 1 / 10 ∧ out.prim.u = 1 / 10 ∧ out.prim.rho < cb.rhoFloor := by
  intro cb cell out
  have hd : deficits (effectiveFloors false cb G cell.prim).1 (effectiveFloors false cb G cell.prim).2 cb.sieFloor
      cell.prim.rho cell.prim.u = some (1 / 10, 1 / 10) := by
    norm_num [deficits, effectiveFloors, cb, cell]
  have ho : out = ceiling val false cb G gdet (inject val false P 0 G gdet (fun _ => none) (1 / 10) (1 / 10) cell) := by
    show applyFloors val false false P 0 cb G gdet (fun _ => none) cell = _
    unfold applyFloors; simp only []; rw [hd]
  have hc := ceiling_keeps val false cb G gdet (inject val false P 0 G gdet (fun _ => none) (1 / 10) (1 / 10) cell)
  rw [ho, hc.1, hc.2]
  refine ⟨rfl, rfl, ?_⟩
  show (1 / 10 : ℝ) < 1
  norm_num

/-- C21 (partial), any motion and field: with the robust inverter (C61-C63) at its default settings and scale factor `fac` on
the floors, the density and specific energy after a floor injection are at least the *scaled* floors, and the
specific energy is at most its ceiling, whatever value `mu` the root finder returned. -/
theorem floors_scaled_partial (val hasYe mhd : Bool) (P : Press) (yeMin : ℝ) (cb : CellBounds) (G : ADM ℝ) (gdet : ℝ)
    (eos : C2P.Eos) (fac : ℝ) (mu : Cons → ℝ) (hf : 0 < fac * cb.rhoFloor) (hm : fac * cb.sieFloor ≤ cb.eMax) (cell : Cell)
    (dr du : ℝ)
    (hd : deficits (effectiveFloors mhd cb G cell.prim).1 (effectiveFloors mhd cb G cell.prim).2 cb.sieFloor
      cell.prim.rho cell.prim.u = some (dr, du)) :
    let b : C2P.Bnds := ⟨fac * cb.rhoFloor, fun _ => fac * cb.sieFloor, cb.gammaMax, cb.eMax⟩
    let invert : Cons → Option (Prim × ℝ) := fun c =>
      let out := C2P.unwrap val true hasYe false false 0 eos G gdet b c (mu c)
      if out.success then some (out.prim, out.ye) else none
    let out := applyFloors val hasYe mhd P yeMin cb G gdet invert cell
    fac * cb.rhoFloor ≤ out.prim.rho ∧ fac * cb.sieFloor ≤ out.prim.u / out.prim.rho ∧
        out.prim.u / out.prim.rho ≤ cb.eMax := by
  intro b invert out
  have ho : out = ceiling val hasYe cb G gdet (inject val hasYe P yeMin G gdet invert dr du cell) := by
    show applyFloors val hasYe mhd P yeMin cb G gdet invert cell = _
    unfold applyFloors; simp only []; rw [hd]
  have hc := ceiling_keeps val hasYe cb G gdet (inject val hasYe P yeMin G gdet invert dr du cell)
  rw [ho, hc.1, hc.2]
  have hinv : ∀ c, invert c = some ((C2P.unwrap val true hasYe false false 0 eos G gdet b c (mu c)).prim,
      (C2P.unwrap val true hasYe false false 0 eos G gdet b c (mu c)).ye) := by
    intro c; simp only [invert]
    rw [if_pos (C2P.status_ignores_convergence val true hasYe 0 eos gdet b c (mu c))]
  have hex : ∃ c, (inject val hasYe P yeMin G gdet invert dr du cell).prim =
      (C2P.unwrap val true hasYe false false 0 eos G gdet b c (mu c)).prim := by
    unfold inject
    simp only [hinv]
    exact ⟨_, rfl⟩
  obtain ⟨c, hcq⟩ := hex
  rw [hcq]
  have := C2P.output_bounds val true hasYe false false eos gdet b (fun _ => hm) hf c (mu c) (G := G)
  exact ⟨this.1, this.2.1, this.2.2.1⟩

/-- C21. The electron fraction injected is the *conserved* electron variable instead of the electron fraction: a cell at rest with
`rho = 1/2`, `ye = 1/2` and unit determinant ends up, after doubling its mass, with electron fraction 3/8 instead of 1/2. -/
theorem injection_changes_ye (val : Bool) (P : Press) (G : ADM ℝ) (ha : 0 < G.alpha) (p : ℝ) :
    let c := restCons val true P G 1 (1 / 2) 1 p (1 / 2) (1 / 2) 1 (fun _ => 0)
    c.ye / c.D = 3 / 8 := by
  intro c
  have : c.D = 1 ∧ c.ye = 3 / 8 := by
    simp only [c, restCons, p2c_rest val G 1 _ _ _ _ _ ha, if_true]; norm_num
  rw [this.1, this.2]; norm_num

/-- C21, MHD floors.  The magnetic energy the code uses is never smaller than the true `b²` (it equals
`B²/W² + (B·Wv)²` instead of `B²/W² + (B·v)²`), so a cell to which no floor applies satisfies both
magnetisation limits. -/
theorem mhd_limits (cb : CellBounds) (G : ADM ℝ) (q : Prim) (ha : 0 < G.alpha) (hp : PosDef G)
    (h1 : 0 < cb.bsqorhoMax) (h2 : 0 < cb.bsqouMax) (hs : 0 < cb.sieFloor)
    (hn : deficits (effectiveFloors true cb G q).1 (effectiveFloors true cb G q).2 cb.sieFloor q.rho q.u = none) :
    tbsq 0 G q ≤ mhdBsq G q.v q.B ∧ tbsq 0 G q ≤ cb.bsqorhoMax * q.rho ∧ tbsq 0 G q ≤ cb.bsqouMax * q.u := by
  have hW1 := lorentz_ge_one G hp q.v
  have hW := lorentz_pos G hp q.v
  have ha' := ha.ne'
  have e : mhdBsq G q.v q.B = G.dot3 q.B q.B / lorentz G.gam q.v ^ 2 + G.dot3 q.B q.v ^ 2 := by
    have hB : ∑ i : Fin 3, ∑ j : Fin 3, G.g4 i.succ j.succ * q.B i * q.B j = G.dot3 q.B q.B := by
      simp only [ADM.g4_ss, ADM.dot3]
    have hV : ∑ i : Fin 3, ∑ j : Fin 3, G.g4 i.succ j.succ * q.B i * q.v j = G.dot3 q.B q.v := by
      simp only [ADM.g4_ss, ADM.dot3]
    simp only [mhdBsq, hB, hV]
    field_simp
  have t : tbsq 0 G q = G.dot3 q.B q.B / lorentz G.gam q.v ^ 2 + G.dot3 q.B q.v ^ 2 / lorentz G.gam q.v ^ 2 := by
    simp only [tbsq, tBsq_eq, tBdotv_eq, ratio_zero]; field_simp
  have hle : tbsq 0 G q ≤ mhdBsq G q.v q.B := by
    rw [e, t]
    have : G.dot3 q.B q.v ^ 2 / lorentz G.gam q.v ^ 2 ≤ G.dot3 q.B q.v ^ 2 := by
      apply div_le_self (sq_nonneg _); exact one_le_pow₀ hW1
    linarith
  obtain ⟨hr, hu⟩ := ((deficits_spec _ _ _ _ _ hs).1).1 hn
  simp only [effectiveFloors, if_true] at hr hu
  have hr' : mhdBsq G q.v q.B / cb.bsqorhoMax ≤ q.rho :=
    ((le_max_right _ _).trans (le_max_left _ _)).trans hr
  have hu' : mhdBsq G q.v q.B / cb.bsqouMax ≤ q.u := (le_max_right _ _).trans hu
  rw [div_le_iff₀ h1] at hr'
  rw [div_le_iff₀ h2] at hu'
  exact ⟨hle, by linarith, by linarith⟩

/-- The hypotheses of the floor theorems are met: a cell below the density floor. -/
example : deficits 1 (1 / 2 : ℝ) (1 / 2) (1 / 4) 1 = some (3 / 4, 3 / 8) := by norm_num [deficits]

/-! ## C22: ceiling -/

/-- Lorentz factor after the velocity rescaling. -/
theorem rescaled_lorentz (G : ADM ℝ) (hp : PosDef G) (v : Fin 3 → ℝ) (g : ℝ) (hg : 1 ≤ g)
    (hW : 1 < lorentz G.gam v) :
    lorentz G.gam (fun i => v i * rescale g (lorentz G.gam v)) ^ 2 =
      1 + (g ^ 2 - 1) / (lorentz G.gam v ^ 2 - 1) := by
  have hl := lorentz_sq G hp v
  have hs : Real.sqrt (g * g - 1) ^ 2 = g ^ 2 - 1 := by
    rw [Real.sq_sqrt (by nlinarith)]; ring
  rw [lorentz_sq G hp]
  set W := lorentz G.gam v
  have e : G.dot3 (fun i => v i * rescale g W) (fun i => v i * rescale g W) = rescale g W ^ 2 * G.dot3 v v := by
    simp only [ADM.dot3, Fin.sum_univ_three]; ring
  rw [e, show G.dot3 v v = W ^ 2 - 1 by linarith]
  have hne : W ^ 2 - 1 ≠ 0 := by nlinarith
  have hne' : W * W - 1 ≠ 0 := by nlinarith
  unfold rescale
  rw [div_pow, hs]
  have : (W * W - 1) = W ^ 2 - 1 := by ring
  rw [this]; field_simp

/-- C22 (partial). A velocity above the ceiling is brought to or below it exactly when `W² ≥ 2`; it is brought exactly
*to* the ceiling only when `W² = 2`. -/
theorem ceiling_respected_iff_partial (G : ADM ℝ) (hp : PosDef G) (v : Fin 3 → ℝ) (g : ℝ) (hg : 1 < g)
    (hW : g < lorentz G.gam v) :
    (lorentz G.gam (fun i => v i * rescale g (lorentz G.gam v)) ≤ g ↔ 2 ≤ lorentz G.gam v ^ 2) ∧
    (lorentz G.gam (fun i => v i * rescale g (lorentz G.gam v)) = g ↔ lorentz G.gam v ^ 2 = 2) := by
  have h := rescaled_lorentz G hp v g hg.le (by linarith)
  have h1 := lorentz_ge_one G hp (fun i => v i * rescale g (lorentz G.gam v))
  set W := lorentz G.gam v
  set W' := lorentz G.gam (fun i => v i * rescale g W)
  have hd : 0 < W ^ 2 - 1 := by nlinarith
  have hgg : 0 < g ^ 2 - 1 := by nlinarith
  constructor
  · rw [← pow_le_pow_iff_left₀ (by linarith : (0:ℝ) ≤ W') (by linarith : (0:ℝ) ≤ g) two_ne_zero, h]
    rw [← sub_nonneg, show g ^ 2 - (1 + (g ^ 2 - 1) / (W ^ 2 - 1)) = (g ^ 2 - 1) * (W ^ 2 - 2) / (W ^ 2 - 1) by
      field_simp; ring]
    rw [le_div_iff₀ hd, zero_mul]
    constructor
    · intro hh; have := nonneg_of_mul_nonneg_right hh hgg; linarith
    · intro hh; apply mul_nonneg hgg.le; linarith
  · constructor
    · intro he
      rw [he] at h
      have : (g ^ 2 - 1) * (W ^ 2 - 2) = 0 := by field_simp at h; linarith
      rcases mul_eq_zero.1 this with h0 | h0
      · exact absurd h0 hgg.ne'
      · linarith
    · intro he
      rw [he] at h
      have : W' ^ 2 = g ^ 2 := by rw [h]; ring
      exact (pow_left_inj₀ (by linarith) (by linarith) two_ne_zero).1 this

theorem ceiling_v (val hasYe : Bool) (cb : CellBounds) (G : ADM ℝ) (gdet : ℝ) (cell : Cell)
    (h : lorentz G.gam cell.prim.v > cb.gammaMax ∨ cell.prim.u / cell.prim.rho > cb.eMax) :
    (ceiling val hasYe cb G gdet cell).prim.v = fun i => cell.prim.v i * rescale cb.gammaMax (lorentz G.gam cell.prim.v) := by
  unfold ceiling; simp only []; rw [if_pos h]

/-- C22, negation.  (i) A state with `W² = 3/2` above the ceiling `g² = 5/4` keeps its Lorentz factor after the fix; (ii) a state
below the ceiling (`W² = 5/4`, `g = 2`) that is merely too hot is *accelerated* far above the ceiling, and stays too hot. -/
theorem ceiling_violated (val : Bool) (c : Cons) :
    let cb : CellBounds := ⟨1, 1, Real.sqrt (5 / 4), 10, 1, 1⟩
    let cell : Cell := ⟨⟨1, 1, 1, ![Real.sqrt (1 / 2), 0, 0], fun _ => 0⟩, 0, c⟩
    let cb' : CellBounds := ⟨1, 1, 2, 10, 1, 1⟩
    let cell' : Cell := ⟨⟨1, 11, 1, ![1 / 2, 0, 0], fun _ => 0⟩, 0, c⟩
    (cb.gammaMax < lorentz C2P.flat.gam (ceiling val false cb C2P.flat 1 cell).prim.v) ∧
    (lorentz C2P.flat.gam cell'.prim.v < cb'.gammaMax ∧
      cb'.gammaMax < lorentz C2P.flat.gam (ceiling val false cb' C2P.flat 1 cell').prim.v ∧
      (ceiling val false cb' C2P.flat 1 cell').prim.u / (ceiling val false cb' C2P.flat 1 cell').prim.rho > cb'.eMax) := by
  intro cb cell cb' cell'
  have hp := C2P.flat_valid.2
  have hW : lorentz C2P.flat.gam cell.prim.v ^ 2 = 3 / 2 := by
    rw [lorentz_sq _ hp]
    have hs : Real.sqrt (1 / 2) * Real.sqrt (1 / 2) = 1 / 2 := Real.mul_self_sqrt (by norm_num)
    have : C2P.flat.dot3 cell.prim.v cell.prim.v = Real.sqrt (1 / 2) * Real.sqrt (1 / 2) := by
      simp only [cell, C2P.flat, ADM.dot3, Fin.sum_univ_three]; simp
    rw [this, hs]; norm_num
  have hW' : lorentz C2P.flat.gam cell'.prim.v ^ 2 = 5 / 4 := by
    rw [lorentz_sq _ hp]
    simp [cell', C2P.flat, ADM.dot3, Fin.sum_univ_three]; norm_num
  have hp1 := lorentz_ge_one C2P.flat hp cell.prim.v
  have hp1' := lorentz_ge_one C2P.flat hp cell'.prim.v
  have hg : cb.gammaMax ^ 2 = 5 / 4 := Real.sq_sqrt (by norm_num)
  have hg0 : 0 ≤ cb.gammaMax := Real.sqrt_nonneg _
  have hg1 : 1 < cb.gammaMax := by nlinarith
  have hgt : cb.gammaMax < lorentz C2P.flat.gam cell.prim.v := by nlinarith
  constructor
  · rw [ceiling_v val false cb C2P.flat 1 cell (Or.inl hgt)]
    by_contra hcon
    have := (ceiling_respected_iff_partial C2P.flat hp cell.prim.v cb.gammaMax hg1 hgt).1.1 (not_lt.1 hcon)
    rw [hW] at this; norm_num at this
  · have hlt : lorentz C2P.flat.gam cell'.prim.v < 2 := by nlinarith
    have h1 : 1 < lorentz C2P.flat.gam cell'.prim.v := by nlinarith
    refine ⟨hlt, ?_, ?_⟩
    · rw [ceiling_v val false cb' C2P.flat 1 cell' (Or.inr (by norm_num [cell', cb']))]
      show (2:ℝ) < _
      have h := rescaled_lorentz C2P.flat hp cell'.prim.v 2 (by norm_num) h1
      rw [hW'] at h
      have hnn := lorentz_ge_one C2P.flat hp (fun i => cell'.prim.v i * rescale 2 (lorentz C2P.flat.gam cell'.prim.v))
      norm_num at h
      show (2:ℝ) < lorentz C2P.flat.gam (fun i => cell'.prim.v i * rescale 2 (lorentz C2P.flat.gam cell'.prim.v))
      nlinarith
    · have := ceiling_keeps val false cb' C2P.flat 1 cell'
      rw [this.1, this.2]
      norm_num [cell', cb']

/-- C22. Whenever the ceiling acts the conserved variables are recomputed from the new primitives. -/
theorem ceiling_consistent (val : Bool) (cb : CellBounds) (G : ADM ℝ) (gdet : ℝ) (cell : Cell)
    (hB : cell.cons.B = fun m => gdet * cell.prim.B m)
    (h : cell.cons = p2c val G gdet cell.ye cell.prim) :
    (ceiling val true cb G gdet cell).cons =
      p2c val G gdet (ceiling val true cb G gdet cell).ye (ceiling val true cb G gdet cell).prim := by
  unfold ceiling; simp only []
  split_ifs
  · simp only [hB]; rfl
  · exact h

/-- Specification: the floor profiles documented for each floor type, before the EOS minima: amplitude times an exponential in
the first coordinate, or a power of the first coordinate or of the Cartesian radius capped at one. -/
noncomputable def profile (f : FloorSpec) (amp slope x1 x2 x3 : ℝ) : ℝ :=
  match f.kind with
  | .constantRhoSie => amp
  | .expX1RhoSie => amp * Real.exp (slope * x1)
  | .expX1RhoU => amp * Real.exp (slope * x1)
  | .x1RhoSie => amp * min 1 (x1 ^ slope)
  | .rRhoSie => amp * min 1 (Real.sqrt (x1 ^ 2 + x2 ^ 2 + x3 ^ 2) ^ slope)

/-- C21. The floors returned are exactly the documented profiles limited below by the EOS minima, for every floor type whose
second profile is a specific energy; for `ExpX1RhoU` the density floor is. -/
theorem floors_profile (f : FloorSpec) (x1 x2 x3 rIn : ℝ) (he : f.eosSet = true) :
    ∃ s, getFloors f x1 x2 x3 rIn = some (max (profile f f.r0 f.ra x1 x2 x3) f.rhoMinEos, s) ∧
      (f.kind ≠ .expX1RhoU → s = max (profile f f.s0 f.sa x1 x2 x3) f.sieMinEos) ∧
      (f.kind = .expX1RhoU → s = max (profile f f.s0 f.sa x1 x2 x3 / max rIn (profile f f.r0 f.ra x1 x2 x3)) f.sieMinEos) := by
  cases hk : f.kind <;> simp [getFloors, he, hk, profile, pow_two]

/-- C21. Hydrodynamic cells are limited by exactly the floors of the position: density by the density floor, energy density by
density floor times specific-energy floor. -/
theorem effective_hydro (cb : CellBounds) (G : ADM ℝ) (q : Prim) :
    effectiveFloors false cb G q = (cb.rhoFloor, cb.rhoFloor * cb.sieFloor) := by
  simp [effectiveFloors]

/-- C21. Magnetised cells are limited by those and by the magnetisation and temperature limits, and nothing else: the floors
are the least values above all of them. -/
theorem effective_mhd (cb : CellBounds) (G : ADM ℝ) (q : Prim) :
    let e := effectiveFloors true cb G q
    let b := mhdBsq G q.v q.B
    (∀ x, e.2 ≤ x ↔ cb.rhoFloor * cb.sieFloor ≤ x ∧ b / cb.bsqouMax ≤ x) ∧
    (∀ x, e.1 ≤ x ↔ cb.rhoFloor ≤ x ∧ b / cb.bsqorhoMax ≤ x ∧ max q.u e.2 / cb.eMax ≤ x) := by
  simp only [effectiveFloors, if_true]
  exact ⟨fun x => by simp [max_le_iff], fun x => by simp only [max_le_iff]; tauto⟩

end Phoebus.Floors
