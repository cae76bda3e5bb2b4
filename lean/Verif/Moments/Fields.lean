import Verif.Moments.Props

/-!
# Radiation moments: conversion of fields, reconstruction slots, face gradients (C78, C79)
-/
namespace Phoebus.Moments
open Geom Robust Closure Finset
open Rel (PosDef lorentz lorentz_sq lorentz_pos lorentz_ge_one ratio_zero)

/-! ## C78 -/

theorem threeVel_slow (G : ADM ℝ) (hp : PosDef G) (vp : Vec) (h : lorentz G.gam vp ≤ 100) : Slow G (threeVel G vp) := by
  have h1 := lorentz_ge_one G hp vp
  have h2 := lorentz_sq G hp vp
  have : threeVel G vp = fun i => vp i * (1 / lorentz G.gam vp) := by funext i; simp only [threeVel]; ring
  unfold Slow
  rw [this, dot3_smul, show G.dot3 vp vp = lorentz G.gam vp ^ 2 - 1 by linarith]
  have e : (1 / lorentz G.gam vp) ^ 2 * (lorentz G.gam vp ^ 2 - 1) = 1 - 1 / lorentz G.gam vp ^ 2 := by field_simp
  rw [e]
  have : 1 / (100:ℝ) ^ 2 ≤ 1 / lorentz G.gam vp ^ 2 := one_div_le_one_div_of_le (by positivity) (by gcongr)
  norm_num at this ⊢
  linarith

/-- **C78** primitive to conserved and back: for every metric, volume element, fluid velocity below Lorentz factor 100, positive energy density and
flux factor below one, the fields `J` and `H/J` come back exactly, the conserved fields are untouched and the cell is not flagged, in both failure
strategies.  `Pi` is any tensor for which the linear system is regular (always so for Eddington, `prim_con_prim_eddington`). -/
theorem prim_con_prim {G : ADM ℝ} (hG : G.Valid) (hp : PosDef G) (rob : Bool) (SMALL sdet : ℝ) (hd : sdet ≠ 0) (vp : Vec) (hW : lorentz G.gam vp ≤ 100)
    (Pi : Tens2) (hl : lam G (threeVel G vp) Pi ≠ 0) (J : ℝ) (h : Vec) (hJ : 0 < J) (hh : hsq G (threeVel G vp) h < 1) :
    cellCon2Prim 0 rob SMALL sdet G vp Pi (cellPrim2Con sdet G vp (fun _ _ => Pi) J h).1 (cellPrim2Con sdet G vp (fun _ _ => Pi) J h).2 =
      ⟨(cellPrim2Con sdet G vp (fun _ _ => Pi) J h).1, (cellPrim2Con sdet G vp (fun _ _ => Pi) J h).2, J, h, true⟩ := by
  have hs := threeVel_slow G hp vp hW
  set v := threeVel G vp with hv
  set H : Vec := fun i => h i * J with hH
  have h1 : (1.0 : ℝ) / sdet = 1 / sdet := by norm_num
  have eE : (cellPrim2Con sdet G vp (fun _ _ => Pi) J h).1 * (1 / sdet) = (prim2con false G v Pi J H).1 := by
    simp only [cellPrim2Con, ← hv, ← hH]; field_simp
  have eF : (fun i => (cellPrim2Con sdet G vp (fun _ _ => Pi) J h).2 i * (1 / sdet)) = (prim2con false G v Pi J H).2 := by
    funext i; simp only [cellPrim2Con, ← hv, ← hH]; field_simp
  have hraw := con2prim_prim2con_raw hG hs Pi hl J H
  have hq0 := hsq_nonneg hG hp hs H
  have hq : hsq G v H < J ^ 2 := by
    rw [hH, hsq_smul]; nlinarith [sq_nonneg J, mul_pos hJ hJ]
  have hxi : ¬ (1 ≤ Real.sqrt (hsq G v H) / J) := by
    rw [not_le, div_lt_one hJ, Real.sqrt_lt' hJ]; exact hq
  have hc : con2prim 0 false rob SMALL G v Pi (prim2con false G v Pi J H).1 (prim2con false G v Pi J H).2 = (Status.success, J, H) := by
    simp only [con2prim, hraw, con2primCheck]
    rw [if_neg (by rintro (q | q); exacts [absurd hq0 (not_le.2 q), hJ.ne' q.1]), if_neg]
    rintro (q | q | q)
    · linarith
    · exact hJ.ne' q
    · exact hxi q
  simp only [cellCon2Prim, h1, ← hv, eE, eF, hc, ratio_zero]
  simp only [reduceCtorEq, if_false, false_or, decide_true]
  congr 1
  funext i; simp only [hH]; field_simp

theorem prim_con_prim_eddington {G : ADM ℝ} (hG : G.Valid) (hp : PosDef G) (rob : Bool) (SMALL sdet : ℝ) (hd : sdet ≠ 0) (vp : Vec)
    (hW : lorentz G.gam vp ≤ 100) (J : ℝ) (h : Vec) (hJ : 0 < J) (hh : hsq G (threeVel G vp) h < 1) :
    cellCon2Prim 0 rob SMALL sdet G vp 0 (cellPrim2Con sdet G vp (fun _ _ => 0) J h).1 (cellPrim2Con sdet G vp (fun _ _ => 0) J h).2 =
      ⟨(cellPrim2Con sdet G vp (fun _ _ => 0) J h).1, (cellPrim2Con sdet G vp (fun _ _ => 0) J h).2, J, h, true⟩ :=
  prim_con_prim hG hp rob SMALL sdet hd vp hW 0 (lam_zero_pos G _).ne' J h hJ hh

/-- **C78** after the conversion the conserved and primitive fields of the cell describe the same radiation, whether the inversion succeeded,
was repaired or failed (Eddington closure; energy density not exactly zero). -/
theorem con_prim_consistent {G : ADM ℝ} (hG : G.Valid) (hp : PosDef G) (rob : Bool) (SMALL sdet : ℝ) (hd : sdet ≠ 0) (vp : Vec)
    (hW : lorentz G.gam vp ≤ 100) (cE : ℝ) (cF : Vec) :
    let o := cellCon2Prim 0 rob SMALL sdet G vp 0 cE cF
    o.J ≠ 0 → cellPrim2Con sdet G vp (fun _ _ => 0) o.J o.h = (o.E, o.F) := by
  intro o hJ
  have hs := threeVel_slow G hp vp hW
  have h1 : (1.0 : ℝ) / sdet = 1 / sdet := by norm_num
  have hraw : ∀ J H, con2primRaw 0 false G (threeVel G vp) 0 (cE * (1 / sdet)) (fun i => cF i * (1 / sdet)) = (J, H) →
      prim2con false G (threeVel G vp) 0 J H = (cE * (1 / sdet), fun i => cF i * (1 / sdet)) :=
    fun J H h => eddington_raw_inverse hG hs false _ J _ H h
  set r := con2prim 0 false rob SMALL G (threeVel G vp) 0 (cE * (1 / sdet)) (fun i => cF i * (1 / sdet)) with hr
  have hoJ : o.J = r.2.1 := by simp only [o, cellCon2Prim, h1]; rfl
  have hoh : ∀ i, o.h i * o.J = r.2.2 i := by
    intro i
    have : o.h i = r.2.2 i / r.2.1 := by simp only [o, cellCon2Prim, h1, ratio_zero]; rfl
    rw [this, hoJ]; rw [hoJ] at hJ; field_simp
  have hcon : cellPrim2Con sdet G vp (fun _ _ => 0) o.J o.h =
      (sdet * (prim2con false G (threeVel G vp) 0 r.2.1 r.2.2).1, fun i => sdet * (prim2con false G (threeVel G vp) 0 r.2.1 r.2.2).2 i) := by
    simp only [cellPrim2Con]
    have : (fun i => o.h i * o.J) = r.2.2 := funext hoh
    rw [this, hoJ]
  rw [hcon]
  by_cases hm : r.1 = Status.modified
  · have eE : o.E = (prim2con false G (threeVel G vp) 0 r.2.1 r.2.2).1 / (1 / sdet) := by
      simp only [o, cellCon2Prim, h1]; exact if_pos hm
    have eF : o.F = fun i => (prim2con false G (threeVel G vp) 0 r.2.1 r.2.2).2 i / (1 / sdet) := by
      funext i; simp only [o, cellCon2Prim, h1]; exact if_pos hm
    rw [eE, eF]
    refine Prod.ext ?_ (funext fun i => ?_) <;> · simp only []; field_simp
  · have eE : o.E = cE := by simp only [o, cellCon2Prim, h1]; exact if_neg hm
    have eF : o.F = cF := by funext i; simp only [o, cellCon2Prim, h1]; exact if_neg hm
    have hrr : con2primRaw 0 false G (threeVel G vp) 0 (cE * (1 / sdet)) (fun i => cF i * (1 / sdet)) = (r.2.1, r.2.2) := by
      simp only [hr, con2prim, con2primCheck] at hm ⊢
      split_ifs at hm ⊢ <;> simp_all
    rw [hraw _ _ hrr, eE, eF]
    refine Prod.ext ?_ (funext fun i => ?_) <;> · simp only []; field_simp

/-- **C78** a cell is flagged exactly when the closure reports failure; a repaired state counts as success. -/
theorem flag_iff (small : ℝ) (rob : Bool) (SMALL sdet : ℝ) (G : ADM ℝ) (vp : Vec) (Pi : Tens2) (cE : ℝ) (cF : Vec) :
    (cellCon2Prim small rob SMALL sdet G vp Pi cE cF).ok = false ↔
      (con2prim small false rob SMALL G (threeVel G vp) Pi (cE * (1.0 / sdet)) (fun i => cF i * (1.0 / sdet))).1 = Status.failure := by
  simp only [cellCon2Prim, decide_eq_false_iff_not]
  cases h : (con2prim small false rob SMALL G (threeVel G vp) Pi (cE * (1.0 / sdet)) (fun i => cF i * (1.0 / sdet))).1 <;> simp

/-- **C78** with one species the cell flag is that of the species. -/
theorem cell_flag_single (ok : ℕ → Bool) (b : Bool) : cellFlag ok [0] b = ok 0 := rfl

/-- the flag of a cell is that of the species processed last. -/
theorem cell_flag_last (ok : ℕ → Bool) (l : List ℕ) (s : ℕ) (b : Bool) : cellFlag ok (l ++ [s]) b = ok s := by
  simp [cellFlag]

/-- **C78** positive part for several species: if all species succeed the cell is not flagged, if all fail it is, in every order. -/
theorem cell_flag_partial (ok : ℕ → Bool) (l : List ℕ) (hl : l ≠ []) (r : Bool) (h : ∀ s ∈ l, ok s = r) (b : Bool) : cellFlag ok l b = r := by
  obtain ⟨m, s, rfl⟩ : ∃ m s, l = m ++ [s] := ⟨l.dropLast, l.getLast hl, (List.dropLast_append_getLast hl).symm⟩
  rw [cell_flag_last]; exact h s (by simp)

/-- **C78 fails** for several species: a failed species is masked by a later successful one, and the result depends on the schedule. -/
theorem cell_flag_wrong (ok : ℕ → Bool) (s t : ℕ) (hs : ok s = false) (ht : ok t = true) (l : List ℕ) (b : Bool) :
    cellFlag ok (l ++ [s] ++ [t]) b = true ∧ cellFlag ok (l ++ [t] ++ [s]) b = false := by
  rw [cell_flag_last, cell_flag_last]; exact ⟨ht, hs⟩

/-! ## C79 -/

theorem packVar_eq (nspec s c : ℕ) : packVar nspec s c = s + nspec * c := by
  unfold packVar
  split_ifs with h h'
  · rw [h]; ring
  · obtain ⟨k, rfl⟩ : ∃ k, c = k + 1 := ⟨c - 1, by omega⟩
    rw [Nat.add_sub_cancel]; ring
  · obtain ⟨k, rfl⟩ : ∃ k, c = k + 4 := ⟨c - 4, by omega⟩
    rw [Nat.add_sub_cancel, Nat.mod_add_div]; ring

/-- **C79** what the flux loop reads for a species, component and direction is what the reconstruction wrote for that
variable and direction, for any number of species and components. -/
theorem recon_slots (nspec ncomp offset s c d : ℕ) :
    slotRead nspec ncomp offset s c d = slotWrite (ncomp * nspec) offset d (packVar nspec s c) := by
  rw [packVar_eq]; simp only [slotRead, slotWrite, flat3]; ring

/-- **C79** distinct (species, component, direction) never share a slot, and all slots lie inside the array. -/
theorem recon_slots_injective (nspec ncomp offset s c d s' c' d' : ℕ) (hs : s < nspec) (hs' : s' < nspec) (hc : c < ncomp) (hc' : c' < ncomp)
    (h : slotRead nspec ncomp offset s c d = slotRead nspec ncomp offset s' c' d') : s = s' ∧ c = c' ∧ d = d' := by
  simp only [slotRead, flat3] at h
  have h1 : s + nspec * (c + ncomp * d) = s' + nspec * (c' + ncomp * d') := by omega
  have e1 : s = s' := by
    have := congrArg (· % nspec) h1
    simpa [Nat.add_mul_mod_self_left, Nat.mod_eq_of_lt hs, Nat.mod_eq_of_lt hs'] using this
  subst e1
  have h2 : c + ncomp * d = c' + ncomp * d' := Nat.eq_of_mul_eq_mul_left (by omega) (by omega : nspec * (c + ncomp * d) = nspec * (c' + ncomp * d'))
  have e2 : c = c' := by
    have := congrArg (· % ncomp) h2
    simpa [Nat.add_mul_mod_self_left, Nat.mod_eq_of_lt hc, Nat.mod_eq_of_lt hc'] using this
  subst e2
  exact ⟨rfl, rfl, Nat.eq_of_mul_eq_mul_left (by omega) (by omega : ncomp * d = ncomp * d')⟩

theorem recon_slots_range (nspec ncomp ndir offset s c d : ℕ) (hs : s < nspec) (hc : c < ncomp) (hd : d < ndir) :
    offset ≤ slotRead nspec ncomp offset s c d ∧ slotRead nspec ncomp offset s c d < offset + nspec * ncomp * ndir := by
  simp only [slotRead, flat3]
  refine ⟨by omega, ?_⟩
  have h1 : c + ncomp * d + 1 ≤ ncomp * ndir := by
    calc c + ncomp * d + 1 ≤ ncomp + ncomp * d := by omega
      _ = ncomp * (d + 1) := by ring
      _ ≤ ncomp * ndir := Nat.mul_le_mul_left _ hd
  have h2 : nspec * (c + ncomp * d + 1) ≤ nspec * (ncomp * ndir) := Nat.mul_le_mul_left _ h1
  have h3 : nspec * (c + ncomp * d + 1) = nspec * (c + ncomp * d) + nspec := by ring
  have h4 : nspec * ncomp * ndir = nspec * (ncomp * ndir) := by ring
  omega

/-- **C79** the loop over `0 … nrecon + 2` handles every radiation variable and every velocity component exactly once. -/
theorem recon_vars (nrecon : ℕ) (h3 : 3 ≤ nrecon) :
    (∀ i < nrecon, ∃! n, n < nrecon + 3 ∧ reconVar nrecon n = (true, i)) ∧
    (∀ i < 3, ∃! n, n < nrecon + 3 ∧ reconVar nrecon n = (false, i)) ∧
    ∀ n < nrecon + 3, (reconVar nrecon n).1 = false → (reconVar nrecon n).2 < 3 := by
  have hmod : ∀ n, nrecon ≤ n → n < nrecon + 3 → n % nrecon = n - nrecon := by
    intro n h1 h2
    rw [Nat.mod_eq_sub_mod h1, Nat.mod_eq_of_lt (by omega)]
  refine ⟨fun i hi => ⟨i, ⟨by omega, ?_⟩, ?_⟩, fun i hi => ⟨nrecon + i, ⟨by omega, ?_⟩, ?_⟩, ?_⟩
  · simp [reconVar, hi, Nat.mod_eq_of_lt hi]
  · rintro n ⟨_, h⟩
    simp only [reconVar, Prod.mk.injEq, decide_eq_true_eq] at h
    rw [← h.2, Nat.mod_eq_of_lt h.1]
  · simp only [reconVar, Prod.mk.injEq, decide_eq_false_iff_not]
    exact ⟨by omega, by rw [hmod _ (by omega) (by omega)]; omega⟩
  · rintro n ⟨hn, h⟩
    simp only [reconVar, Prod.mk.injEq, decide_eq_false_iff_not] at h
    have := hmod n (by omega) hn
    omega
  · intro n hn h
    simp only [reconVar, decide_eq_false_iff_not] at h ⊢
    rw [hmod n (by omega) hn]; omega

/-- a quadratic polynomial in `(x, y, z)`, and its gradient. -/
structure Quad where
  c0 : ℝ
  l : Fin 3 → ℝ
  q : Fin 3 → Fin 3 → ℝ

noncomputable def Quad.eval (p : Quad) (x : Fin 3 → ℝ) : ℝ := p.c0 + ∑ a, p.l a * x a + ∑ a, ∑ b, p.q a b * x a * x b
noncomputable def Quad.grad (p : Quad) (x : Fin 3 → ℝ) (c : Fin 3) : ℝ := p.l c + ∑ a, (p.q a c + p.q c a) * x a

/-- **C79** the face gradients of the energy density used for the diffusion flux are second-order accurate: they are exact for every
quadratic field, on faces of every direction and for every component. -/
theorem face_grad_exact (p : Quad) (dx : Fin 3 → ℝ) (hdx : ∀ d, dx d ≠ 0) (d c : Fin 3) (k j i : ℤ) :
    faceGrad (fun k j i => p.eval ![i * dx 0, j * dx 1, k * dx 2]) 1 1 dx d c k j i =
      p.grad (fun a => (![(i : ℝ), j, k] a - if a = d then 1/2 else 0) * dx a) c := by
  have h0 := hdx 0
  have h1 := hdx 1
  have h2 := hdx 2
  have e1 : (1.0 : ℝ) = 1 := by norm_num
  have e4 : (0.25 : ℝ) = 1 / 4 := by norm_num
  fin_cases d <;> fin_cases c <;>
    simp [faceGrad, Quad.eval, Quad.grad, Fin.sum_univ_three, e1, e4] <;> field_simp <;> ring

/-- **C79** in a direction the mesh does not resolve the gradient is zero for every field. -/
theorem face_grad_collapsed (J : ℤ → ℤ → ℤ → ℝ) (dj dk : ℤ) (dx : Fin 3 → ℝ) (d : Fin 3) (k j i : ℤ) :
    (dj = 0 → faceGrad J dj dk dx d 1 k j i = 0) ∧ (dk = 0 → faceGrad J dj dk dx d 2 k j i = 0) := by
  constructor <;> rintro rfl <;> fin_cases d <;> simp [faceGrad]

theorem lorentz_flat : lorentz Tracers.flat.gam (fun i => if i = 0 then 3/4 else 0) = 5/4 := by
  unfold lorentz
  rw [show (1 + ∑ i, ∑ j, Tracers.flat.gam i j * (fun i => if i = 0 then 3/4 else 0 : Vec) i * (fun i => if i = 0 then 3/4 else 0 : Vec) j : ℝ) = (5/4) ^ 2 by
    norm_num [Tracers.flat, Fin.sum_univ_three]]
  exact Real.sqrt_sq (by norm_num)

/-- concrete case for C78: gas moving at 3/5 of the speed of light with flux factor about 0.4. -/
theorem ex_c2p : cellCon2Prim 0 true 1 2 Tracers.flat (fun i => if i = 0 then 3/4 else 0) 0
      (cellPrim2Con 2 Tracers.flat (fun i => if i = 0 then 3/4 else 0) (fun _ _ => 0) 5 (fun i => if i = 0 then 1/2 else 0)).1
      (cellPrim2Con 2 Tracers.flat (fun i => if i = 0 then 3/4 else 0) (fun _ _ => 0) 5 (fun i => if i = 0 then 1/2 else 0)).2 =
    ⟨(cellPrim2Con 2 Tracers.flat (fun i => if i = 0 then 3/4 else 0) (fun _ _ => 0) 5 (fun i => if i = 0 then 1/2 else 0)).1,
     (cellPrim2Con 2 Tracers.flat (fun i => if i = 0 then 3/4 else 0) (fun _ _ => 0) 5 (fun i => if i = 0 then 1/2 else 0)).2,
     5, fun i => if i = 0 then 1/2 else 0, true⟩ := by
  refine prim_con_prim_eddington Tracers.flat_valid.1 Tracers.flat_valid.2 true 1 2 (by norm_num) _ ?_ 5 _ (by norm_num) ?_
  · rw [lorentz_flat]; norm_num
  · have : threeVel Tracers.flat (fun i => if i = 0 then 3/4 else 0) = fun i => (if i = 0 then 3/4 else 0) / (5/4) := by
      unfold threeVel; rw [lorentz_flat]
    rw [this]
    norm_num [hsq, ccov, cc, Tracers.flat, Fin.sum_univ_three]

/-- concrete case for C77: a diffusive face of matter at rest in flat space. -/
theorem ex_diffusion : ∃ f : Face, f.G.Valid ∧ f.L = f.R ∧ sideV f.G f.B f.L = (fun _ => 0) ∧ f.G.beta f.dir = 0 ∧
    sideH f.G f.B f.L = hAsym 0 (faceKappa f.kl f.kr) f.dJ ∧ f.dJ 0 ≠ 0 ∧
    (faceFlux 1 (1/100) 0 (fun _ _ _ => 0) f).1 = -1/6 := by
  have hv : sideV Tracers.flat ⟨false, 1, 0, 1⟩ ⟨fun _ => 0, 1, fun i => if i = 0 then -1/6 else 0⟩ = fun _ => 0 := by
    funext i; simp [sideV]
  have hH : sideH Tracers.flat ⟨false, 1, 0, 1⟩ ⟨fun _ => 0, 1, fun i => if i = 0 then -1/6 else 0⟩ =
      hAsym 0 (faceKappa 2 2) (fun i => if i = 0 then 1 else 0) := by
    have : faceKappa 2 2 = 2 := Real.sqrt_mul_self (by norm_num)
    rw [this]
    funext i; simp only [sideH, sideH0, sideJ, hAsym, Bool.false_eq_true, false_and, if_false]
    by_cases h : i = 0 <;> simp [h]; norm_num
  refine ⟨⟨Tracers.flat, 1, 1, 0, ⟨false, 1, 0, 1⟩, ⟨fun _ => 0, 1, fun i => if i = 0 then -1/6 else 0⟩,
    ⟨fun _ => 0, 1, fun i => if i = 0 then -1/6 else 0⟩, 2, 2, fun i => if i = 0 then 1 else 0⟩, Tracers.flat_valid.1, rfl, hv, rfl, hH, by simp, ?_⟩
  rw [diffusion_flux 1 (1/100) 0 (fun _ _ _ => 0) (fun _ _ _ _ _ => rfl) _ Tracers.flat_valid.1 (by norm_num) rfl hv rfl hH]
  have : faceKappa 2 2 = 2 := Real.sqrt_mul_self (by norm_num)
  rw [this]
  norm_num [Tracers.flat, Fin.sum_univ_three]
  decide

/-- concrete case. -/
theorem ex_slot : slotRead 3 4 7 2 3 1 = 30 ∧ slotWrite 12 7 1 (packVar 3 2 3) = 30 := by decide

end Phoebus.Moments
