import Verif.MOCMC.Model
import Verif.KdGrid.Props

/-!
# C83: the angular cells of the samples and their Eddington tensor
-/
namespace Phoebus.MOCMC
open Finset KdGrid Interp GeomUtils

/-- A quantity that is additive when a cell is cut in polar angle or in azimuth. -/
def Additive (g : Box → ℝ) : Prop :=
  ∀ a b c p q r : ℝ, g ⟨a, c, p, q⟩ = g ⟨a, b, p, q⟩ + g ⟨b, c, p, q⟩ ∧ g ⟨a, b, p, r⟩ = g ⟨a, b, p, q⟩ + g ⟨a, b, q, r⟩

theorem split_additive (g : Box → ℝ) (hg : Additive g) (d : Dir) (M : Box) : g (split d M).1 + g (split d M).2 = g M := by
  obtain ⟨a, b, p, q⟩ := M
  unfold split
  simp only []
  split_ifs
  · exact ((hg a _ b p q 0).1).symm
  · rw [add_comm]; exact ((hg a _ b p q 0).1).symm
  · exact ((hg a b 0 p _ q).2).symm
  · rw [add_comm]; exact ((hg a b 0 p _ q).2).symm

/-- sample `k` was found in a cell when it was processed. -/
def Found (dirs : ℕ → Dir) (old : ℕ → Box) (k : ℕ) : Prop :=
  ∃ m < k, inside (recon dirs old k m) (dirMu (dirs k)) (dirPhi (dirs k))

theorem hit_some {f : ℕ → Box} {n m : ℕ} {d : Dir} (h : hit f n d = some m) :
    m < n ∧ inside (f m) (dirMu d) (dirPhi d) ∧ ∀ l < m, ¬ inside (f l) (dirMu d) (dirPhi d) := by
  unfold hit at h
  rw [List.find?_range_eq_some] at h
  obtain ⟨h1, h2, h3⟩ := h
  refine ⟨List.mem_range.1 h2, by simpa using h1, fun l hl => by simpa using h3 l hl⟩

theorem hit_none {f : ℕ → Box} {n : ℕ} {d : Dir} (h : hit f n d = none) : ∀ m < n, ¬ inside (f m) (dirMu d) (dirPhi d) := by
  unfold hit at h
  rw [List.find?_eq_none] at h
  intro m hm
  simpa using h m (List.mem_range.2 hm)

theorem hit_of_found {dirs : ℕ → Dir} {old : ℕ → Box} {k : ℕ} (h : Found dirs old k) :
    ∃ m, hit (recon dirs old k) k (dirs k) = some m := by
  obtain ⟨m, hm, hin⟩ := h
  cases hh : hit (recon dirs old k) k (dirs k) with
  | none => exact absurd hin (hit_none hh m hm)
  | some m => exact ⟨m, rfl⟩

theorem insert_some {f : ℕ → Box} {n m : ℕ} {d : Dir} (h : hit f n d = some m) (k : ℕ) :
    insert f n d k = if k = m then (split d (f m)).2 else if k = n then (split d (f m)).1 else f k := by
  simp only [insert, h, Function.update_apply]

/-- **C83** Whatever the directions, if every sample was found in a cell, any additive quantity of the cells sums to its value on
the whole sphere of directions. -/
theorem cells_sum (g : Box → ℝ) (hg : Additive g) (dirs : ℕ → Dir) (old : ℕ → Box) (n : ℕ) (hn : 0 < n)
    (hf : ∀ k, 1 ≤ k → k < n → Found dirs old k) :
    ∑ k ∈ range n, g (recon dirs old n k) = g sphere := by
  induction n with
  | zero => omega
  | succ n ih =>
    by_cases h0 : n = 0
    · subst h0; simp [recon]
    · have ihn := ih (by omega) fun k h1 h2 => hf k h1 (by omega)
      obtain ⟨m, hm⟩ := hit_of_found (hf n (by omega) (by omega))
      obtain ⟨hmn, -, -⟩ := hit_some hm
      have e : ∀ k, recon dirs old (n + 1) k = insert (recon dirs old n) n (dirs n) k := fun k => by simp only [recon, if_neg h0]
      simp only [e, insert_some hm]
      rw [sum_range_succ]
      rw [if_neg (by omega : n ≠ m), if_pos rfl]
      have hs : ∑ k ∈ range n, g (if k = m then (split (dirs n) (recon dirs old n m)).2 else
            if k = n then (split (dirs n) (recon dirs old n m)).1 else recon dirs old n k) =
          ∑ k ∈ range n, (g (recon dirs old n k) + if k = m then g (split (dirs n) (recon dirs old n m)).2 - g (recon dirs old n m) else 0) := by
        refine sum_congr rfl fun k hk => ?_
        have hk := mem_range.1 hk
        by_cases hkm : k = m
        · subst hkm; simp
        · rw [if_neg hkm, if_neg hkm, if_neg (by omega : k ≠ n), add_zero]
      rw [hs, sum_add_distrib, ihn, sum_ite_eq' (range n) m, if_pos (mem_range.2 hmn)]
      have := split_additive g hg (dirs n) (recon dirs old n m)
      linarith

theorem area_additive : Additive area := fun a b c p q r => ⟨by simp only [area]; ring, by simp only [area]; ring⟩

/-- **C83** The solid angles add up to `4π`. -/
theorem solid_angle_total (dirs : ℕ → Dir) (old : ℕ → Box) (n : ℕ) (hn : 0 < n) (hf : ∀ k, 1 ≤ k → k < n → Found dirs old k) :
    ∑ k ∈ range n, area (recon dirs old n k) = 4 * Real.pi := by
  rw [cells_sum area area_additive dirs old n hn hf]; simp only [area, sphere]; ring

theorem wgts_additive (i j : Fin 3) : Additive fun B => wgts B (slot i j) := fun a b c p q r => by
  have := quad_additive a b c p q r (fun _ => 0) (fun _ => 0) (fun _ => 0) i j
  exact ⟨this.1, (quad_additive a b c p q r (fun _ => 0) (fun _ => 0) (fun _ => 0) i j).2⟩

/-- **C83** The angular weights add up to those of an isotropic field. -/
theorem weights_total (dirs : ℕ → Dir) (old : ℕ → Box) (n : ℕ) (hn : 0 < n) (hf : ∀ k, 1 ≤ k → k < n → Found dirs old k) (i j : Fin 3) :
    ∑ k ∈ range n, wgts (recon dirs old n k) (slot i j) = if i = j then 4 * Real.pi / 3 else 0 := by
  rw [cells_sum _ (wgts_additive i j) dirs old n hn hf]; exact quad_sphere _ i j

/-! ### Pointwise tiling -/

/-- half-open membership. -/
def Mem (B : Box) (mu phi : ℝ) : Prop := B.muLo ≤ mu ∧ mu < B.muHi ∧ B.phiLo ≤ phi ∧ phi < B.phiHi

/-- sample `k`, if it cuts its cell in azimuth, is at least `π/2` away from the lower azimuthal end (the code cuts at `φ - π/2`). -/
def Good (dirs : ℕ → Dir) (old : ℕ → Box) (k : ℕ) : Prop :=
  ∀ m, hit (recon dirs old k) k (dirs k) = some m →
    (recon dirs old k m).muHi - (recon dirs old k m).muLo > (recon dirs old k m).phiHi - (recon dirs old k m).phiLo ∨
    (recon dirs old k m).phiLo + Real.pi / 2 ≤ dirPhi (dirs k)

/-- The split in closed form: in polar angle at the sample itself, in azimuth a quarter turn before it. -/
theorem split_eq (d : Dir) (M : Box) : split d M = if M.muHi - M.muLo > M.phiHi - M.phiLo
    then ({ M with muLo := dirMu d }, { M with muHi := dirMu d })
    else ({ M with phiLo := dirPhi d - Real.pi / 2 }, { M with phiHi := dirPhi d - Real.pi / 2 }) := by
  have h5 : (0.5:ℝ) = 1 / 2 := by norm_num
  have hmu : (0.5:ℝ) * (dirMu d + (1.0 - d.c1)) = dirMu d := by rw [h5]; unfold dirMu; linarith
  have hphi : (0.5:ℝ) * (dirPhi d + atan2 d.c3 d.c2) = dirPhi d - Real.pi / 2 := by rw [h5]; unfold dirPhi; linarith
  have hp := Real.pi_pos
  unfold split
  simp only [hmu, hphi, lt_irrefl, if_false]
  split_ifs
  · rfl
  · linarith
  · rfl

theorem split_mem (d : Dir) (M : Box) (hin : inside M (dirMu d) (dirPhi d))
    (hgood : M.muHi - M.muLo > M.phiHi - M.phiLo ∨ M.phiLo + Real.pi / 2 ≤ dirPhi d) (mu phi : ℝ) :
    (Mem M mu phi ↔ (Mem (split d M).1 mu phi ∨ Mem (split d M).2 mu phi)) ∧
    ¬ (Mem (split d M).1 mu phi ∧ Mem (split d M).2 mu phi) := by
  obtain ⟨i1, i2, i3, i4⟩ := hin
  have hp := Real.pi_pos
  rw [split_eq]
  split_ifs with h
  · simp only [Mem]
    constructor
    · constructor
      · rintro ⟨a, b, c, e⟩
        rcases le_or_gt (dirMu d) mu with hm | hm
        · exact Or.inl ⟨hm, b, c, e⟩
        · exact Or.inr ⟨a, hm, c, e⟩
      · rintro (⟨a, b, c, e⟩ | ⟨a, b, c, e⟩)
        · exact ⟨by linarith, b, c, e⟩
        · exact ⟨a, by linarith, c, e⟩
    · rintro ⟨⟨a, -⟩, -, b, -⟩; linarith
  · have hg := hgood.resolve_left h
    simp only [Mem]
    constructor
    · constructor
      · rintro ⟨a, b, c, e⟩
        rcases le_or_gt (dirPhi d - Real.pi / 2) phi with hm | hm
        · exact Or.inl ⟨a, b, hm, e⟩
        · exact Or.inr ⟨a, b, c, hm⟩
      · rintro (⟨a, b, c, e⟩ | ⟨a, b, c, e⟩)
        · exact ⟨a, b, by linarith, e⟩
        · exact ⟨a, b, c, by linarith⟩
    · rintro ⟨⟨-, -, a, -⟩, -, -, -, b⟩; linarith

/-- **C83** The cells tile the sphere: after processing any number of samples, each found and with its azimuthal cut inside its
cell, every direction of the sphere lies in exactly one cell. -/
theorem cells_tile_partial (dirs : ℕ → Dir) (old : ℕ → Box) (n : ℕ) (hn : 0 < n) (hf : ∀ k, 1 ≤ k → k < n → Found dirs old k)
    (hgd : ∀ k, 1 ≤ k → k < n → Good dirs old k) (mu phi : ℝ) :
    (0 ≤ mu ∧ mu < 2 ∧ 0 ≤ phi ∧ phi < 2 * Real.pi ↔ ∃ k < n, Mem (recon dirs old n k) mu phi) ∧
    ∀ k < n, ∀ l < n, Mem (recon dirs old n k) mu phi → Mem (recon dirs old n l) mu phi → k = l := by
  induction n with
  | zero => omega
  | succ n ih =>
    by_cases h0 : n = 0
    · subst h0
      refine ⟨⟨fun h => ⟨0, by omega, by simpa [recon, sphere, Mem] using h⟩, ?_⟩, fun k hk l hl _ _ => by omega⟩
      rintro ⟨k, hk, h⟩
      obtain rfl : k = 0 := by omega
      simpa [recon, sphere, Mem] using h
    · obtain ⟨ih1, ih2⟩ := ih (by omega) (fun k h1 h2 => hf k h1 (by omega)) (fun k h1 h2 => hgd k h1 (by omega))
      obtain ⟨m, hm⟩ := hit_of_found (hf n (by omega) (by omega))
      obtain ⟨hmn, hin, -⟩ := hit_some hm
      obtain ⟨s1, s2⟩ := split_mem (dirs n) _ hin (hgd n (by omega) (by omega) m hm) mu phi
      have e : ∀ k, recon dirs old (n + 1) k = if k = m then (split (dirs n) (recon dirs old n m)).2 else
          if k = n then (split (dirs n) (recon dirs old n m)).1 else recon dirs old n k := fun k => by
        rw [← insert_some hm]; simp only [recon, if_neg h0]
      -- each new cell lies in an old one
      have hback : ∀ k < n + 1, Mem (recon dirs old (n + 1) k) mu phi →
          ((k = m ∨ k = n) ∧ Mem (recon dirs old n m) mu phi) ∨ (k ≠ m ∧ k < n ∧ Mem (recon dirs old n k) mu phi) := by
        intro k hk hmem
        rw [e] at hmem
        split_ifs at hmem with a b
        · exact Or.inl ⟨Or.inl a, s1.2 (Or.inr hmem)⟩
        · exact Or.inl ⟨Or.inr b, s1.2 (Or.inl hmem)⟩
        · exact Or.inr ⟨a, by omega, hmem⟩
      constructor
      · rw [ih1]
        constructor
        · rintro ⟨k, hk, hmem⟩
          by_cases hkm : k = m
          · rw [hkm] at hmem
            rcases s1.1 hmem with h | h
            · exact ⟨n, by omega, by rw [e, if_neg (by omega), if_pos rfl]; exact h⟩
            · exact ⟨m, by omega, by rw [e, if_pos rfl]; exact h⟩
          · exact ⟨k, by omega, by rw [e, if_neg hkm, if_neg (by omega)]; exact hmem⟩
        · rintro ⟨k, hk, hmem⟩
          rcases hback k hk hmem with ⟨-, h⟩ | ⟨-, h1, h2⟩
          · exact ⟨m, hmn, h⟩
          · exact ⟨k, h1, h2⟩
      · intro k hk l hl hk' hl'
        rcases hback k hk hk' with ⟨a, ha⟩ | ⟨a1, a2, a3⟩ <;> rcases hback l hl hl' with ⟨b, hb⟩ | ⟨b1, b2, b3⟩
        · rw [e] at hk' hl'
          rcases a with rfl | rfl <;> rcases b with rfl | rfl
          · rfl
          · rw [if_pos rfl] at hk'; rw [if_neg (by omega), if_pos rfl] at hl'; exact absurd ⟨hl', hk'⟩ s2
          · rw [if_pos rfl] at hl'; rw [if_neg (by omega), if_pos rfl] at hk'; exact absurd ⟨hk', hl'⟩ s2
          · rfl
        · exact absurd (ih2 l b2 m hmn b3 ha) b1
        · exact absurd (ih2 k a2 m hmn a3 hb) a1
        · exact ih2 k a2 l b2 a3 b3

/-- **C83** In a tiling a new sample is found unless its direction lies on the edge of a cell. -/
theorem found_of_generic (dirs : ℕ → Dir) (old : ℕ → Box) (n : ℕ) (hn : 0 < n) (hf : ∀ k, 1 ≤ k → k < n → Found dirs old k)
    (hgd : ∀ k, 1 ≤ k → k < n → Good dirs old k) (h0 : 0 ≤ dirMu (dirs n)) (h2 : dirMu (dirs n) < 2)
    (hphi : dirPhi (dirs n) < 2 * Real.pi)
    (hgen : ∀ k < n, dirMu (dirs n) ≠ (recon dirs old n k).muLo ∧ dirPhi (dirs n) ≠ (recon dirs old n k).phiLo) :
    Found dirs old n := by
  have hp0 : 0 ≤ dirPhi (dirs n) := by
    have := Complex.neg_pi_lt_arg (⟨(dirs n).c2, (dirs n).c3⟩ : ℂ)
    simp only [dirPhi, atan2]; linarith
  obtain ⟨k, hk, a, b, c, d⟩ := (cells_tile_partial dirs old n hn hf hgd _ _).1.1 ⟨h0, h2, hp0, hphi⟩
  obtain ⟨g1, g2⟩ := hgen k hk
  exact ⟨k, hk, lt_of_le_of_ne a g1.symm, b, lt_of_le_of_ne c g2.symm, d⟩

/-- azimuths below `π/2` belong to directions with two negative components. -/
theorem dirPhi_quarter (d : Dir) (h2 : d.c2 < 0) (h3 : d.c3 < 0) : 0 < dirPhi d ∧ dirPhi d < Real.pi / 2 := by
  have hp := Complex.neg_pi_lt_arg (⟨d.c2, d.c3⟩ : ℂ)
  have hn : Complex.arg ⟨d.c2, d.c3⟩ < 0 := Complex.arg_neg_iff.2 h3
  have hq : ¬ |Complex.arg ⟨d.c2, d.c3⟩| ≤ Real.pi / 2 := by
    rw [Complex.abs_arg_le_pi_div_two_iff]; simpa using h2
  rw [abs_of_neg hn] at hq
  simp only [dirPhi, atan2]
  constructor <;> linarith

/-- **C83 fails for the azimuthal cut**: because `phi_m` omits the offset `π`, a second sample with two negative transverse
components gives the first one a cell of negative solid angle. -/
theorem negative_cell (d0 d1 : Dir) (old : ℕ → Box) (h1 : |d1.c1| < 1) (h2 : d1.c2 < 0) (h3 : d1.c3 < 0) :
    let f := recon (fun k => if k = 0 then d0 else d1) old 2
    area (f 0) < 0 ∧ 4 * Real.pi < area (f 1) := by
  intro f
  obtain ⟨p1, p2⟩ := dirPhi_quarter d1 h2 h3
  have hpi := Real.pi_pos
  have hpi2 := Real.two_le_pi
  rw [abs_lt] at h1
  have hin : inside sphere (dirMu d1) (dirPhi d1) := by
    simp only [inside, sphere, dirMu]
    refine ⟨by norm_num; linarith, by norm_num; linarith, p1, by linarith⟩
  have hr1 : recon (fun k => if k = 0 then d0 else d1) old 1 0 = sphere := by simp [recon]
  have hfd : hit (recon (fun k => if k = 0 then d0 else d1) old 1) 1 d1 = some 0 := by
    cases h : hit (recon (fun k => if k = 0 then d0 else d1) old 1) 1 d1 with
    | none => exact absurd (hr1 ▸ hin) (hit_none h 0 (by norm_num))
    | some m => rw [show m = 0 by have := (hit_some h).1; omega]
  have hcond : ¬ (sphere.muHi - sphere.muLo > sphere.phiHi - sphere.phiLo) := by simp only [sphere]; linarith
  have e : ∀ k, f k = if k = 0 then (split d1 sphere).2 else if k = 1 then (split d1 sphere).1 else
      recon (fun k => if k = 0 then d0 else d1) old 1 k := fun k => by
    have := insert_some hfd k
    rw [hr1] at this
    rw [← this]
    simp [f, recon]
  constructor
  · rw [e, if_pos rfl, split_eq, if_neg hcond]
    simp only [area, sphere]; linarith
  · rw [e, if_neg (by norm_num), if_pos rfl, split_eq, if_neg hcond]
    simp only [area, sphere]; linarith

/-- **C83 fails on cell edges**: a sample along the polar axis is never found and keeps whatever cell it had. -/
theorem pole_sample_stale (d0 : Dir) (old : ℕ → Box) (s t : ℝ) :
    recon (fun k => if k = 0 then d0 else ⟨1, s, t⟩) old 2 1 = old 1 ∧
    ∑ k ∈ range 2, area (recon (fun k => if k = 0 then d0 else ⟨1, s, t⟩) old 2 k) = 4 * Real.pi + area (old 1) := by
  have hr1 : recon (fun k => if k = 0 then d0 else ⟨1, s, t⟩) old 1 0 = sphere := by simp [recon]
  have hh : hit (recon (fun k => if k = 0 then d0 else ⟨1, s, t⟩) old 1) 1 ⟨1, s, t⟩ = none := by
    cases h : hit (recon (fun k => if k = 0 then d0 else ⟨1, s, t⟩) old 1) 1 ⟨1, s, t⟩ with
    | none => rfl
    | some m =>
      obtain ⟨h1, h2, -⟩ := hit_some h
      obtain rfl : m = 0 := by omega
      rw [hr1] at h2
      have := h2.1
      simp only [dirMu, sphere] at this
      norm_num at this
  have e : ∀ k, recon (fun k => if k = 0 then d0 else ⟨1, s, t⟩) old 2 k =
      recon (fun k => if k = 0 then d0 else ⟨1, s, t⟩) old 1 k := fun k => by
    have : recon (fun k => if k = 0 then d0 else (⟨1, s, t⟩ : Dir)) old 2 =
        insert (recon (fun k => if k = 0 then d0 else ⟨1, s, t⟩) old 1) 1 ⟨1, s, t⟩ := by
      rw [show (2:ℕ) = 1 + 1 from rfl, recon]; simp
    rw [this, insert, hh]
  have e1 : recon (fun k => if k = 0 then d0 else ⟨1, s, t⟩) old 1 1 = old 1 := by simp [recon]
  refine ⟨by rw [e, e1], ?_⟩
  rw [sum_range_succ, sum_range_one, e, e, hr1, e1]
  simp only [area, sphere]; ring

/-! ### The Eddington tensor -/

/-- the code's slot for an ordered pair. -/
theorem second_slot (f : ℕ → Box) (I : ℕ → ℝ) (n : ℕ) (i j : Fin 3) :
    second f I n i j = ∑ k ∈ range n, wgts (f k) (slot i j) * I k := rfl

theorem eddington_eq (f : ℕ → Box) (I : ℕ → ℝ) (n : ℕ) (hn : 0 < n) (i j : Fin 3) :
    eddington f I n i j = second f I n i j / energy f I n - (if i = j then 1 / 3 else 0) := by
  have ssym : ∀ a b : Fin 3, slot a b = slot b a := fun a b => flatten2_symm _ _
  unfold eddington
  simp only [hn, gt_iff_lt, if_true]
  split_ifs with h1 h2 h3 h4 h5
  · rfl
  · rfl
  · rw [second_slot, second_slot, ssym]
  · exact absurd ‹j = i›.symm ‹¬ i = j›
  · exact absurd ‹i = j›.symm ‹¬ j = i›
  · rw [second_slot, second_slot, ssym]

/-- **C83** The Eddington tensor is symmetric and traceless, for any cells and intensities. -/
theorem eddington_traceless (f : ℕ → Box) (I : ℕ → ℝ) (n : ℕ) (he : 0 < n → energy f I n ≠ 0) :
    (∀ i j, eddington f I n i j = eddington f I n j i) ∧ ∑ i, eddington f I n i i = 0 := by
  have ssym : ∀ a b : Fin 3, slot a b = slot b a := fun a b => flatten2_symm _ _
  rcases Nat.eq_zero_or_pos n with h0 | hn
  · subst h0; exact ⟨fun i j => by simp [eddington], by simp [eddington]⟩
  · refine ⟨fun i j => ?_, ?_⟩
    · rw [eddington_eq f I n hn, eddington_eq f I n hn, second_slot, second_slot, ssym]
      simp only [eq_comm]
    · simp only [eddington_eq f I n hn, if_true]
      have ht : ∑ i, second f I n i i = energy f I n := by
        simp only [second_slot, energy]
        rw [sum_comm]
        refine sum_congr rfl fun k _ => ?_
        rw [← sum_mul]
        congr 1
        exact quad_trace _ _ _ _ _
      rw [sum_sub_distrib, ← sum_div, ht, div_self (he hn)]
      norm_num

/-- **C83** If all samples carry the same intensity the Eddington tensor vanishes exactly, whatever their number and directions. -/
theorem eddington_isotropic (dirs : ℕ → Dir) (old : ℕ → Box) (n : ℕ) (hf : ∀ k, 1 ≤ k → k < n → Found dirs old k)
    (I : ℕ → ℝ) (I0 : ℝ) (hI : ∀ k < n, I k = I0) (h0 : I0 ≠ 0) (i j : Fin 3) : eddington (recon dirs old n) I n i j = 0 := by
  rcases Nat.eq_zero_or_pos n with hn | hn
  · subst hn; simp [eddington]
  · have hp := Real.pi_pos
    have e1 : second (recon dirs old n) I n i j = (if i = j then 4 * Real.pi / 3 else 0) * I0 := by
      rw [second_slot, ← weights_total dirs old n hn hf i j, sum_mul]
      exact sum_congr rfl fun k hk => by rw [hI k (mem_range.1 hk)]
    have e2 : energy (recon dirs old n) I n = 4 * Real.pi * I0 := by
      rw [energy, ← solid_angle_total dirs old n hn hf, sum_mul]
      exact sum_congr rfl fun k hk => by rw [hI k (mem_range.1 hk)]
    rw [eddington_eq _ _ _ hn, e1, e2]
    split_ifs
    · field_simp; ring
    · simp

/-- **C83** A cell without samples, or with one, has the isotropic Eddington tensor. -/
theorem eddington_few (dirs : ℕ → Dir) (old : ℕ → Box) (I : ℕ → ℝ) (i j : Fin 3) :
    eddington (recon dirs old 0) I 0 i j = 0 ∧ (I 0 ≠ 0 → eddington (recon dirs old 1) I 1 i j = 0) :=
  ⟨by simp [eddington], fun h => eddington_isotropic dirs old 1 (fun k h1 h2 => by omega) I (I 0) (fun k hk => by
    rw [show k = 0 by omega]) h i j⟩

open intervalIntegral in
/-- the quadratic form of the weights is the integral of `(x·n)²` over the cell. -/
theorem weights_form (B : Box) (h0 : 0 ≤ B.muLo) (h1 : B.muLo ≤ B.muHi) (h2 : B.muHi ≤ 2) (h3 : B.phiLo ≤ B.phiHi) (x : Fin 3 → ℝ) :
    0 ≤ ∑ i, ∑ j, wgts B (slot i j) * x i * x j ∧ ∑ i, ∑ j, wgts B (slot i j) * x i * x j ≤ area B * ∑ i, x i ^ 2 := by
  have hc : ∀ i, Continuous fun p : ℝ × ℝ => dir p.2 p.1 i := by
    intro i
    have : i = 0 ∨ i = 1 ∨ i = 2 := by omega
    rcases this with rfl | rfl | rfl <;> simp only [dir] <;> simp <;> fun_prop
  have hcc : ∀ i j, Continuous (Function.uncurry fun phi xi => dir xi phi i * dir xi phi j) := fun i j => by
    exact (hc i).mul (hc j)
  have hin : ∀ i j phi, IntervalIntegrable (fun xi => dir xi phi i * dir xi phi j) MeasureTheory.volume B.muLo B.muHi := fun i j phi => by
    apply Continuous.intervalIntegrable
    exact (hcc i j).comp (by fun_prop : Continuous fun xi : ℝ => (phi, xi))
  have hout : ∀ i j, Continuous fun phi => ∫ xi in B.muLo..B.muHi, dir xi phi i * dir xi phi j := fun i j =>
    intervalIntegral.continuous_parametric_intervalIntegral_of_continuous' (hcc i j) _ _
  have hform : ∑ i, ∑ j, wgts B (slot i j) * x i * x j =
      ∫ phi in B.phiLo..B.phiHi, ∫ xi in B.muLo..B.muHi, (∑ i, dir xi phi i * x i) ^ 2 := by
    have e1 : ∀ phi, ∫ xi in B.muLo..B.muHi, (∑ i, dir xi phi i * x i) ^ 2 =
        ∑ i, ∑ j, (∫ xi in B.muLo..B.muHi, dir xi phi i * dir xi phi j) * (x i * x j) := by
      intro phi
      have : (fun xi => (∑ i, dir xi phi i * x i) ^ 2) = fun xi => ∑ i, ∑ j, dir xi phi i * dir xi phi j * (x i * x j) := by
        funext xi
        rw [sq, sum_mul_sum]
        exact sum_congr rfl fun i _ => sum_congr rfl fun j _ => by ring
      rw [this, integral_finsetSum]
      · refine sum_congr rfl fun i _ => ?_
        rw [integral_finsetSum]
        · exact sum_congr rfl fun j _ => by rw [integral_mul_const]
        · exact fun j _ => (hin i j phi).mul_const _
      · intro i _
        have := IntervalIntegrable.sum univ (f := fun j xi => dir xi phi i * dir xi phi j * (x i * x j)) fun j _ => (hin i j phi).mul_const _
        simpa only [Finset.sum_fn] using this
    simp only [e1]
    rw [integral_finsetSum]
    · refine sum_congr rfl fun i _ => ?_
      rw [integral_finsetSum]
      · refine sum_congr rfl fun j _ => ?_
        rw [integral_mul_const, wgts, quad_exact _ _ _ _ h0 h1 h2]
        simp only [cellIntegral]; ring
      · exact fun j _ => ((hout i j).intervalIntegrable _ _).mul_const _
    · intro i _
      have := IntervalIntegrable.sum univ (f := fun j phi => (∫ xi in B.muLo..B.muHi, dir xi phi i * dir xi phi j) * (x i * x j))
        (μ := MeasureTheory.volume) fun j _ => ((hout i j).intervalIntegrable B.phiLo B.phiHi).mul_const _
      simpa only [Finset.sum_fn] using this
  rw [hform]
  have hS : Continuous (Function.uncurry fun phi xi => (∑ i, dir xi phi i * x i) ^ 2) := by
    apply Continuous.pow
    exact continuous_finsetSum _ fun i _ => (hc i).mul continuous_const
  constructor
  · exact integral_nonneg h3 fun phi _ => integral_nonneg h1 fun xi _ => sq_nonneg _
  · have hle : ∀ phi, ∫ xi in B.muLo..B.muHi, (∑ i, dir xi phi i * x i) ^ 2 ≤ (B.muHi - B.muLo) * ∑ i, x i ^ 2 := by
      intro phi
      have := integral_mono_on (μ := MeasureTheory.volume) h1 (Continuous.intervalIntegrable (hS.comp (by fun_prop : Continuous fun xi : ℝ => (phi, xi))) _ _)
        (intervalIntegrable_const (c := ∑ i, x i ^ 2)) (fun xi hxi => by
          have hu := dir_unit xi phi (by linarith [hxi.1]) (by linarith [hxi.2])
          have := Finset.sum_mul_sq_le_sq_mul_sq univ (fun i => dir xi phi i) x
          rw [hu, one_mul] at this
          exact this)
      simpa using this
    have := integral_mono_on (μ := MeasureTheory.volume) h3 ((intervalIntegral.continuous_parametric_intervalIntegral_of_continuous' hS _ _).intervalIntegrable _ _)
      (intervalIntegrable_const (c := (B.muHi - B.muLo) * ∑ i, x i ^ 2)) (fun phi _ => hle phi)
    refine this.trans (le_of_eq ?_)
    rw [integral_const, smul_eq_mul, area]; ring

/-- **C83** The pressure tensor described by the Eddington tensor is realisable: if the cells are proper and intensities nonnegative,
the fraction of pressure along every direction is between 0 and 1. -/
theorem eddington_realisable (f : ℕ → Box) (I : ℕ → ℝ) (n : ℕ) (hn : 0 < n)
    (hb : ∀ k < n, 0 ≤ (f k).muLo ∧ (f k).muLo ≤ (f k).muHi ∧ (f k).muHi ≤ 2 ∧ (f k).phiLo ≤ (f k).phiHi) (hI : ∀ k < n, 0 ≤ I k)
    (he : energy f I n ≠ 0) (x : Fin 3 → ℝ) :
    0 ≤ ∑ i, ∑ j, (eddington f I n i j + if i = j then 1 / 3 else 0) * x i * x j ∧
    ∑ i, ∑ j, (eddington f I n i j + if i = j then 1 / 3 else 0) * x i * x j ≤ ∑ i, x i ^ 2 := by
  have hE : 0 < energy f I n := by
    refine lt_of_le_of_ne (sum_nonneg fun k hk => ?_) he.symm
    obtain ⟨a, b, c, d⟩ := hb k (mem_range.1 hk)
    exact mul_nonneg (mul_nonneg (by linarith) (by linarith)) (hI k (mem_range.1 hk))
  have hq : ∑ i, ∑ j, (eddington f I n i j + if i = j then 1 / 3 else 0) * x i * x j =
      (∑ k ∈ range n, I k * ∑ i, ∑ j, wgts (f k) (slot i j) * x i * x j) / energy f I n := by
    have : ∀ i j, (eddington f I n i j + if i = j then 1 / 3 else 0) = second f I n i j / energy f I n := fun i j => by
      rw [eddington_eq f I n hn]; ring
    simp only [this, second_slot]
    rw [eq_div_iff he, sum_mul]
    simp only [sum_mul, mul_sum]
    rw [sum_comm (s := range n)]
    refine sum_congr rfl fun i _ => ?_
    rw [sum_comm (s := range n)]
    refine sum_congr rfl fun j _ => ?_
    simp only [sum_div, sum_mul]
    exact sum_congr rfl fun k _ => by field_simp
  rw [hq]
  constructor
  · exact div_nonneg (sum_nonneg fun k hk => mul_nonneg (hI k (mem_range.1 hk)) (by
      obtain ⟨a, b, c, d⟩ := hb k (mem_range.1 hk)
      exact (weights_form (f k) a b c d x).1)) hE.le
  · rw [div_le_iff₀ hE, energy, mul_sum]
    refine sum_le_sum fun k hk => ?_
    obtain ⟨a, b, c, d⟩ := hb k (mem_range.1 hk)
    have := mul_le_mul_of_nonneg_left (weights_form (f k) a b c d x).2 (hI k (mem_range.1 hk))
    linarith

/-! ### Frequency integration -/

theorem cround_int (k : ℤ) : cround (k : ℝ) = k := by
  unfold cround
  split_ifs with h
  · rw [Int.floor_eq_iff]; constructor <;> linarith
  · rw [Int.ceil_eq_iff]; constructor <;> linarith

theorem cround_neg (x : ℝ) : cround (-x) = -cround x := by
  unfold cround
  rcases lt_trichotomy x 0 with h | h | h
  · rw [if_pos (by linarith), if_neg (by linarith), ← Int.floor_neg]; congr 1; ring
  · subst h; norm_num
  · rw [if_neg (by linarith), if_pos h.le, ← Int.ceil_neg]; congr 1; ring

/-- the shift of a Doppler factor of `k` bins. -/
theorem shift_eq (nu0 dlnu : ℝ) (hn : 0 < nu0) (hd : dlnu ≠ 0) (k : ℤ) : shift nu0 dlnu (Real.exp (k * dlnu)) = -k := by
  unfold shift
  rw [Real.log_mul (Real.exp_ne_zero _) hn.ne', Real.log_exp]
  field_simp; ring

/-- the grid is geometric. -/
theorem nusamp_shift (nuMin dlnu : ℝ) (m b : ℕ) (k : ℤ) (h : (b : ℤ) = m + k) :
    nusamp nuMin dlnu b = nusamp nuMin dlnu m * Real.exp (k * dlnu) := by
  have : (b : ℝ) = m + k := by exact_mod_cast h
  unfold nusamp
  rw [← Real.exp_add, this]; congr 1; ring

/-- **C83** Doppler shifts by whole bins are exact: if the sample's invariant intensities sample a fluid-frame spectrum `S` at the
fluid-frame frequencies `ν_m · ndu` (as at initialisation) the integrated intensity is the sum of `S ν⁴` over those
frequency bins of the fluid frame that the sample covers. -/
theorem doppler_exact (nuMin dlnu : ℝ) (hd : dlnu ≠ 0) (nb : ℕ) (k : ℤ) (S : ℝ → ℝ) (Iinv : ℤ → ℝ)
    (hI : ∀ m : ℕ, m < nb → Iinv m = S (nusamp nuMin dlnu m * Real.exp (k * dlnu))) :
    intensity nb (nusamp nuMin dlnu) Iinv (shift (nusamp nuMin dlnu 0) dlnu (Real.exp (k * dlnu))) =
      ∑ bin ∈ range nb, if 0 ≤ (bin : ℤ) - k ∧ (bin : ℤ) - k < nb then S (nusamp nuMin dlnu bin) * nusamp nuMin dlnu bin ^ 4 else 0 := by
  unfold intensity
  rw [shift_eq (nusamp nuMin dlnu 0) dlnu (Real.exp_pos _) hd]
  rw [show (-(k:ℝ)) = ((-k : ℤ) : ℝ) by push_cast; ring, cround_int]
  refine sum_congr rfl fun bin hb => ?_
  unfold pcWeight
  by_cases h : 0 ≤ (bin : ℤ) - k ∧ (bin : ℤ) - k < nb
  · rw [if_neg (by omega), if_pos h]
    simp only [one_mul]
    obtain ⟨m, hm⟩ := Int.eq_ofNat_of_zero_le h.1
    rw [show (bin : ℤ) + -k = (m : ℤ) by omega, hI m (by omega), nusamp_shift nuMin dlnu m bin k (by omega)]
  · rw [if_pos (by omega), if_neg h]
    simp

/-- **C83** The frequency grid: with `dlnu` the logarithmic width of `nb` equal bins from `nuMin` to `nuMax`, every sample frequency is the geometric mean of the two edges of its bin. -/
theorem nusamp_centre (nuMin nuMax : ℝ) (h0 : 0 < nuMin) (h1 : 0 < nuMax) (nb : ℕ) (hb : 0 < nb) (n : ℕ) :
    let dlnu := (Real.log nuMax - Real.log nuMin) / nb
    let edge := fun k : ℕ => nuMin * (nuMax / nuMin) ^ ((k:ℝ) / nb)
    edge 0 = nuMin ∧ edge nb = nuMax ∧ 0 < nusamp nuMin dlnu n ∧ nusamp nuMin dlnu n ^ 2 = edge n * edge (n + 1) := by
  intro dlnu edge
  have hr : 0 < nuMax / nuMin := div_pos h1 h0
  have hnb : (nb:ℝ) ≠ 0 := by exact_mod_cast hb.ne'
  have ee : ∀ k : ℕ, edge k = Real.exp (Real.log nuMin + k * dlnu) := fun k => by
    simp only [edge, dlnu]
    rw [Real.exp_add, Real.exp_log h0, Real.rpow_def_of_pos hr, Real.log_div h1.ne' h0.ne']
    congr 2
    ring
  refine ⟨by simp [edge], ?_, Real.exp_pos _, ?_⟩
  · simp only [edge]
    rw [div_self hnb, Real.rpow_one, mul_div_cancel₀ _ h0.ne']
  · rw [ee, ee, ← Real.exp_add]
    unfold nusamp
    rw [← Real.exp_nat_mul]
    congr 1
    push_cast
    ring

/-- **C83** In the fluid's rest frame (`ndu = 1`) the integrated intensity is the plain sum. -/
theorem rest_intensity (nuMin dlnu : ℝ) (nb : ℕ) (Iinv : ℤ → ℝ) :
    intensity nb (nusamp nuMin dlnu) Iinv (shift (nusamp nuMin dlnu 0) dlnu 1) = ∑ bin ∈ range nb, Iinv bin * nusamp nuMin dlnu bin ^ 4 := by
  have hs : shift (nusamp nuMin dlnu 0) dlnu 1 = ((0:ℤ):ℝ) := by unfold shift; simp
  unfold intensity
  rw [hs, cround_int]
  refine sum_congr rfl fun bin hb => ?_
  have hb := mem_range.1 hb
  unfold pcWeight
  rw [if_neg (by omega)]
  simp

end Phoebus.MOCMC
