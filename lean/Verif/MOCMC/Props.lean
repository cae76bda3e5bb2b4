import Verif.MOCMC.Cells
import Verif.Closure.Props
import Verif.Tetrads.Props
import Verif.Interp.Props

/-!
# C84, C85: coupling of the samples to the fluid; initialisation, boundaries and counting of samples
-/
namespace Phoebus.MOCMC
open Finset KdGrid Interp GeomUtils

/-! ## C84: coupling -/

/-- **C84** The exchange conserves energy and momentum (fluid plus that species) and, whether or not the fluid is updated, changes
neither the lepton number nor any other species.

Partial form of C84. Full property: The exchange between samples and fluid conserves total energy and momentum for any
number of species and leaves the lepton number alone; mean opacities lie within the range of the bins; sample
intensities stay nonnegative and, for fluid at rest, move towards thermal and angle averaged values, with equilibrium
stationary. Missing: Conservation and rest-frame behaviour proved; the code ignores absorption in the samples and
Doppler factors in the sources (witnesses). -/
theorem couple_conserves_partial (G : Geom.ADM ℝ) (sg dt : ℝ) (v : Fin 3 → ℝ) (Pi : Fin 3 → Fin 3 → ℝ) (JBB kJ kH : ℝ) (s : ℕ) (c : Cell) :
    let c' := couple G sg dt true v Pi JBB kJ kH s c
    c'.E s + c'.ceng = c.E s + c.ceng ∧ (∀ i, c'.F s i + c'.cmom i = c.F s i + c.cmom i) ∧
    ∀ upd, (couple G sg dt upd v Pi JBB kJ kH s c).cye = c.cye ∧
      (∀ r, r ≠ s → (couple G sg dt upd v Pi JBB kJ kH s c).E r = c.E r ∧ (couple G sg dt upd v Pi JBB kJ kH s c).F r = c.F r) ∧
      (upd = false → (couple G sg dt upd v Pi JBB kJ kH s c).ceng = c.ceng ∧ (couple G sg dt upd v Pi JBB kJ kH s c).cmom = c.cmom) := by
  intro c'
  refine ⟨?_, fun i => ?_, fun upd => ⟨?_, fun r hr => ⟨?_, ?_⟩, ?_⟩⟩
  · simp only [c', couple, Function.update_self, if_true]; ring
  · simp only [c', couple, Function.update_self, if_true]; ring
  · simp only [couple]; split_ifs <;> norm_num
  · simp only [couple, Function.update_of_ne hr]
  · simp only [couple, Function.update_of_ne hr]
  · rintro rfl; simp [couple]

/-- **C84** the exchange is the backward-Euler step of the radiation source with optical depths `α dt κ` and the thermal energy `JBB`, for
every metric, velocity, opacity and pressure tensor without component along the velocity. -/
theorem couple_implicit {G : Geom.ADM ℝ} (hG : G.Valid) (hp : Rel.PosDef G) {v : Fin 3 → ℝ} (hs : Closure.Slow G v) {sg dt kJ kH : ℝ}
    (hsg : 0 < sg) (Pi : Fin 3 → Fin 3 → ℝ) (h0 : Closure.vvPi G v Pi = 0) (JBB : ℝ) (hJ : 0 ≤ G.alpha * dt * kJ) (hH : 0 ≤ G.alpha * dt * kH)
    (upd : Bool) (s : ℕ) (c : Cell) :
    let c' := couple G sg dt upd v Pi JBB kJ kH s c
    ∃ J H, Closure.BackwardEuler false G v Pi (c.E s / sg) (fun i => c.F s i / sg) JBB (G.alpha * dt * kJ) (G.alpha * dt * kH) J H ∧
      c'.E s = sg * (Closure.prim2con false G v Pi J H).1 ∧ ∀ i, c'.F s i = sg * (Closure.prim2con false G v Pi J H).2 i := by
  intro c'
  obtain ⟨J, H, hB, hE, hF⟩ := Closure.source_update_solves_partial false hG hp hs (c.E s / sg) (fun i => c.F s i / sg) Pi h0 JBB _ _ hJ hH
  refine ⟨J, H, hB, ?_, fun i => ?_⟩
  · rw [hE]
    simp only [c', couple, Function.update_self]
    rw [mul_add, mul_div_cancel₀ _ hsg.ne']
  · rw [hF i]
    simp only [c', couple, Function.update_self]
    rw [mul_add, mul_div_cancel₀ _ hsg.ne']

/-- processing all species in turn. -/
noncomputable def coupleAll (G : Geom.ADM ℝ) (sg dt : ℝ) (v : Fin 3 → ℝ) (Pi : ℕ → Fin 3 → Fin 3 → ℝ) (JBB kJ kH : ℕ → ℝ) : ℕ → Cell → Cell
  | 0, c => c
  | n + 1, c => couple G sg dt true v (Pi n) (JBB n) (kJ n) (kH n) n (coupleAll G sg dt v Pi JBB kJ kH n c)

/-- **C84** For any number of species the total energy and momentum of fluid and radiation is unchanged. -/
theorem couple_all_conserves (G : Geom.ADM ℝ) (sg dt : ℝ) (v : Fin 3 → ℝ) (Pi : ℕ → Fin 3 → Fin 3 → ℝ) (JBB kJ kH : ℕ → ℝ) (n N : ℕ)
    (hn : n ≤ N) (c : Cell) :
    let c' := coupleAll G sg dt v Pi JBB kJ kH n c
    c'.ceng + ∑ s ∈ range N, c'.E s = c.ceng + ∑ s ∈ range N, c.E s ∧
    ∀ i, c'.cmom i + ∑ s ∈ range N, c'.F s i = c.cmom i + ∑ s ∈ range N, c.F s i := by
  induction n with
  | zero => exact ⟨rfl, fun _ => rfl⟩
  | succ n ih =>
    intro c'
    obtain ⟨ih1, ih2⟩ := ih (by omega)
    set b := coupleAll G sg dt v Pi JBB kJ kH n c with hb
    obtain ⟨h1, h2, h3⟩ := couple_conserves_partial G sg dt v (Pi n) (JBB n) (kJ n) (kH n) n b
    have hc : c' = couple G sg dt true v (Pi n) (JBB n) (kJ n) (kH n) n b := rfl
    obtain ⟨-, h4, -⟩ := h3 true
    rw [← hc] at h1 h2 h4
    have hmem : n ∈ range N := mem_range.2 (by omega)
    constructor
    · rw [← ih1, ← add_sum_erase _ _ hmem, ← add_sum_erase _ b.E hmem]
      have : ∑ s ∈ (range N).erase n, c'.E s = ∑ s ∈ (range N).erase n, b.E s :=
        sum_congr rfl fun s hs => (h4 s (ne_of_mem_erase hs)).1
      rw [this]; linarith
    · intro i
      rw [← ih2 i, ← add_sum_erase _ _ hmem, ← add_sum_erase _ (fun s => b.F s i) hmem]
      have : ∑ s ∈ (range N).erase n, c'.F s i = ∑ s ∈ (range N).erase n, b.F s i :=
        sum_congr rfl fun s hs => by rw [(h4 s (ne_of_mem_erase hs)).2]
      have := h2 i
      linarith

/-- **C84** With cells that tile the sphere the angle average of an isotropic sample field is its intensity. -/
theorem angle_average_isotropic (dirs : ℕ → Dir) (old : ℕ → Box) (n : ℕ) (hn : 0 < n) (hf : ∀ k, 1 ≤ k → k < n → Found dirs old k)
    (Iinv : ℕ → ℕ → ℝ) (nu S : ℕ → ℝ) (bin : ℕ) (hI : ∀ k < n, Iinv k bin = S bin) :
    inu0 (recon dirs old n) n Iinv nu bin = S bin * nu bin ^ 3 := by
  have hp := Real.pi_pos
  have : inu0 (recon dirs old n) n Iinv nu bin = S bin * nu bin ^ 3 / (4 * Real.pi) * ∑ k ∈ range n, area (recon dirs old n k) := by
    rw [mul_sum]
    exact sum_congr rfl fun k hk => by rw [hI k (mem_range.1 hk)]; ring
  rw [this, solid_angle_total dirs old n hn hf]
  field_simp

/-- trapezoidal weights. -/
noncomputable def tw (nb b : ℕ) : ℝ := 1 - (if b = 0 then 1 / 2 else 0) - (if b = nb - 1 then 1 / 2 else 0)

theorem tw_nonneg (nb b : ℕ) : 0 ≤ tw nb b := by unfold tw; split_ifs <;> norm_num

theorem trap_eq (nb : ℕ) (hnb : 0 < nb) (y I nu : ℕ → ℝ) : trap nb y I nu = ∑ b ∈ range nb, tw nb b * (y b * I b * nu b) := by
  have h5 : (0.5:ℝ) = 1 / 2 := by norm_num
  unfold trap tw
  simp only [sub_mul, one_mul, sum_sub_distrib, ite_mul, zero_mul, h5]
  rw [sum_ite_eq' (range nb) 0, sum_ite_eq' (range nb) (nb - 1), if_pos (mem_range.2 hnb), if_pos (mem_range.2 (by omega))]
  ring

theorem itot_eq (nb : ℕ) (hnb : 0 < nb) (I nu : ℕ → ℝ) : itot nb I nu = ∑ b ∈ range nb, tw nb b * (I b * nu b) := by
  have := trap_eq nb hnb (fun _ => 1) I nu
  have h5 : (0.5:ℝ) = 1 / 2 := by norm_num
  simp only [one_mul] at this
  rw [← this]
  unfold itot trap
  rw [h5]; simp only [one_mul]; ring

/-- **C84** The frequency averaged opacities lie between the smallest and the largest opacity of the bins (at least two bins,
positive spectrum), and for a grey opacity are exact. -/
theorem mean_opacity_bounds (nb : ℕ) (hnb : 2 ≤ nb) (ka ks I nu : ℕ → ℝ) (hI : ∀ b < nb, 0 < I b) (hnu : ∀ b < nb, 0 < nu b)
    (a0 a1 s0 s1 : ℝ) (ha : ∀ b < nb, a0 ≤ ka b ∧ ka b ≤ a1) (hs : ∀ b < nb, s0 ≤ ks b ∧ ks b ≤ s1) :
    (a0 ≤ kappaJ 0 nb ka I nu ∧ kappaJ 0 nb ka I nu ≤ a1) ∧
    (a0 + s0 ≤ kappaH 0 nb ka ks I nu ∧ kappaH 0 nb ka ks I nu ≤ a1 + s1) := by
  have hpos : 0 < itot nb I nu := by
    rw [itot_eq nb (by omega)]
    refine sum_pos' (fun b hb => mul_nonneg (tw_nonneg _ _) (mul_pos (hI b (mem_range.1 hb)) (hnu b (mem_range.1 hb))).le) ⟨0, mem_range.2 (by omega), ?_⟩
    have : tw nb 0 = 1 / 2 := by unfold tw; rw [if_pos rfl, if_neg (by omega)]; norm_num
    rw [this]
    have := mul_pos (hI 0 (by omega)) (hnu 0 (by omega))
    linarith
  have key : ∀ (k : ℕ → ℝ) (lo hi : ℝ), (∀ b < nb, lo ≤ k b ∧ k b ≤ hi) →
      lo ≤ Robust.ratio 0 (trap nb k I nu) (itot nb I nu) ∧ Robust.ratio 0 (trap nb k I nu) (itot nb I nu) ≤ hi := by
    intro k lo hi hk
    have hr : Robust.ratio 0 (trap nb k I nu) (itot nb I nu) = trap nb k I nu / itot nb I nu := by simp [Robust.ratio]
    rw [hr, le_div_iff₀ hpos, div_le_iff₀ hpos, itot_eq nb (by omega), trap_eq nb (by omega), mul_sum, mul_sum]
    constructor <;> refine sum_le_sum fun b hb => ?_
    · have h0 : 0 ≤ tw nb b * (I b * nu b) := mul_nonneg (tw_nonneg _ _) (mul_pos (hI b (mem_range.1 hb)) (hnu b (mem_range.1 hb))).le
      nlinarith [(hk b (mem_range.1 hb)).1]
    · have h0 : 0 ≤ tw nb b * (I b * nu b) := mul_nonneg (tw_nonneg _ _) (mul_pos (hI b (mem_range.1 hb)) (hnu b (mem_range.1 hb))).le
      nlinarith [(hk b (mem_range.1 hb)).2]
  have hJ := key ka a0 a1 ha
  have hS := key ks s0 s1 hs
  refine ⟨hJ, ?_⟩
  simp only [kappaH, kappaJ]
  constructor <;> linarith [hJ.1, hJ.2, hS.1, hS.2]

/-- **C84 fails for a single bin**: the trapezoidal end corrections remove the whole spectrum and the matter becomes transparent. -/
theorem single_bin_transparent (small : ℝ) (ka ks I nu : ℕ → ℝ) : kappaJ small 1 ka I nu = 0 ∧ kappaH small 1 ka ks I nu = 0 := by
  have h : ∀ k : ℕ → ℝ, trap 1 k I nu = 0 := fun k => by
    rw [trap_eq 1 one_pos]; simp [tw]; norm_num
  simp [kappaH, kappaJ, h, Robust.ratio]

/-- **C84** Sample intensities stay nonnegative for any time step. -/
theorem sample_nonneg (nb : ℕ) (dt u0 sh : ℝ) (B ka ks I0 nu : ℕ → ℝ) (I : ℝ) (bin : ℕ) (hdt : 0 ≤ dt) (hu : 0 < u0)
    (hnu : ∀ b, 0 < nu b) (hB : ∀ b, 0 ≤ B b) (hk : ∀ b, 0 ≤ ks b) (hI0 : ∀ b, 0 ≤ I0 b) (hI : 0 ≤ I) :
    0 ≤ sampleUpdate nb dt u0 sh B ka ks I0 nu I bin := by
  have hn := hnu bin
  have h1 := hB bin
  have h2 := hk bin
  have hw : (0:ℝ) ≤ (pcWeight (K := ℝ) (nb : ℤ) (cround (-sh)) (bin : ℤ)).2 := by unfold pcWeight; split_ifs <;> norm_num
  have hj : ∀ b, 0 ≤ jinvs I0 ks nu b := fun b => by
    have := hnu b; have := hI0 b; have := hk b
    unfold jinvs; positivity
  have hj' := hj (pcWeight (K := ℝ) (nb : ℤ) (cround (-sh)) (bin : ℤ)).1.toNat
  unfold sampleUpdate
  simp only []
  positivity

/-- **C84** For fluid at rest the new intensity lies between the old one, the thermal one and the angle averaged one. -/
theorem sample_between (nb : ℕ) (dt u0 : ℝ) (B ka ks I0 nu : ℕ → ℝ) (I : ℝ) (bin : ℕ) (hb : bin < nb) (hdt : 0 ≤ dt) (hu : 0 < u0)
    (hnu : ∀ b, 0 < nu b) (hk : ∀ b, 0 ≤ ks b) (lo hi : ℝ) (hI : lo ≤ I ∧ I ≤ hi)
    (hB : lo ≤ B bin / nu bin ^ 3 ∧ B bin / nu bin ^ 3 ≤ hi) (hI0 : lo ≤ I0 bin / nu bin ^ 3 ∧ I0 bin / nu bin ^ 3 ≤ hi) :
    lo ≤ sampleUpdate nb dt u0 0 B ka ks I0 nu I bin ∧ sampleUpdate nb dt u0 0 B ka ks I0 nu I bin ≤ hi := by
  have hn := hnu bin
  have hks := hk bin
  have hc : cround (-0) = 0 := by rw [neg_zero]; exact_mod_cast cround_int 0
  have hw : (pcWeight (K := ℝ) (nb : ℤ) 0 (bin : ℤ)) = ((bin : ℤ), 1) := by
    unfold pcWeight; rw [if_neg (by omega)]; simp
  have e : sampleUpdate nb dt u0 0 B ka ks I0 nu I bin =
      (I + dt / u0 * ks bin * (B bin / nu bin ^ 3 + I0 bin / nu bin ^ 3)) / (1 + dt / u0 * ks bin * 2) := by
    unfold sampleUpdate
    simp only [hc, hw, jinvs, Int.toNat_natCast, one_mul]
    congr 1
    · field_simp
    · field_simp; ring
  have hx : 0 ≤ dt / u0 * ks bin := by positivity
  rw [e, le_div_iff₀ (by linarith), div_le_iff₀ (by linarith)]
  constructor <;> nlinarith [hI.1, hI.2, hB.1, hB.2, hI0.1, hI0.2]

/-- **C84** Thermal equilibrium of fluid at rest is stationary. -/
theorem rest_equilibrium_stationary (nb : ℕ) (dt u0 : ℝ) (B ka ks I0 nu : ℕ → ℝ) (bin : ℕ) (hb : bin < nb) (hdt : 0 ≤ dt) (hu : 0 < u0)
    (hnu : ∀ b, 0 < nu b) (hk : ∀ b, 0 ≤ ks b) (hI0 : I0 bin = B bin) :
    sampleUpdate nb dt u0 0 B ka ks I0 nu (B bin / nu bin ^ 3) bin = B bin / nu bin ^ 3 := by
  obtain ⟨h1, h2⟩ := sample_between nb dt u0 B ka ks I0 nu (B bin / nu bin ^ 3) bin hb hdt hu hnu hk (B bin / nu bin ^ 3) (B bin / nu bin ^ 3)
    ⟨le_rfl, le_rfl⟩ ⟨le_rfl, le_rfl⟩ ⟨by rw [hI0], by rw [hI0]⟩
  exact le_antisymm h2 h1

/-- **C84 fails for absorbers**: the absorption coefficient is never used; in a purely absorbing medium samples do not change, however
opaque it is and however far they are from equilibrium. -/
theorem absorption_ignored (nb : ℕ) (dt u0 sh : ℝ) (B ka ks I0 nu : ℕ → ℝ) (I : ℝ) (bin : ℕ) (hks : ∀ b, ks b = 0) :
    sampleUpdate nb dt u0 sh B ka ks I0 nu I bin = I := by
  unfold sampleUpdate
  simp [hks, jinvs]

/-- **C84 fails for moving fluid**: a sample in thermal equilibrium with a fluid moving along it (Doppler factor of one bin)
is changed: the thermal source is evaluated at the frequency of the bin instead of the fluid-frame frequency.  Here the invariant
thermal spectrum is `1 / ν`. -/
theorem moving_equilibrium_changed : ∃ (nu B : ℕ → ℝ) (I : ℝ) (r : ℝ), 1 < r ∧ (∀ b, 0 < nu b) ∧ (∀ b, nu (b + 1) = nu b * r) ∧
    (∀ b, B b / nu b ^ 3 = 1 / nu b) ∧ I = 1 / (nu 0 * r) ∧
    sampleUpdate 2 1 1 (-1) B (fun _ => 1) (fun _ => 1) B nu I 0 ≠ I := by
  refine ⟨fun b => 2 ^ b, fun b => (2 ^ b) ^ 2, 1 / 2, 2, by norm_num, fun b => by positivity, fun b => pow_succ _ _, fun b => ?_, by norm_num, ?_⟩
  · have : (2:ℝ) ^ b ≠ 0 := by positivity
    field_simp
  · have hc : cround (-(-1)) = 1 := by rw [neg_neg]; exact_mod_cast cround_int 1
    unfold sampleUpdate
    simp only [hc, pcWeight, jinvs]
    norm_num

/-! ## C85: initialisation, boundaries, counting -/

theorem startIndex_sum (N : ℕ → ℕ) (z : ℕ) : startIndex N z = ∑ y ∈ range z, N y := by
  induction z with
  | zero => rfl
  | succ z ih => rw [startIndex, ih, sum_range_succ]

theorem startIndex_mono (N : ℕ → ℕ) {y z : ℕ} (h : y < z) : startIndex N y + N y ≤ startIndex N z := by
  induction z with
  | zero => omega
  | succ z ih =>
    rw [startIndex]
    rcases Nat.lt_succ_iff_lt_or_eq.1 h with h | h
    · have := ih h; omega
    · subst h; rfl

/-- **C85** Every new sample slot belongs to exactly one zone: the map (zone, sample of the zone) ↦ slot is a bijection onto the
slots that were allocated. -/
theorem sample_slots (N : ℕ → ℕ) (nz p : ℕ) (hp : p < ∑ z ∈ range nz, N z) :
    ∃! zs : ℕ × ℕ, zs.1 < nz ∧ zs.2 < N zs.1 ∧ startIndex N zs.1 + zs.2 = p := by
  have hex : ∃ z < nz, startIndex N z ≤ p ∧ p < startIndex N z + N z := by
    rw [← startIndex_sum] at hp
    induction nz with
    | zero => simp [startIndex] at hp
    | succ n ih =>
      by_cases h : p < startIndex N n
      · obtain ⟨z, h1, h2⟩ := ih h; exact ⟨z, by omega, h2⟩
      · exact ⟨n, by omega, by omega, by rw [startIndex] at hp; exact hp⟩
  obtain ⟨z, hz, h1, h2⟩ := hex
  refine ⟨(z, p - startIndex N z), ⟨hz, by simp only; omega, by simp only; omega⟩, ?_⟩
  rintro ⟨y, s⟩ ⟨hy, hs, he⟩
  simp only at hy hs he
  have hyz : y = z := by
    rcases lt_trichotomy y z with h | h | h
    · have := startIndex_mono N h; omega
    · exact h
    · have := startIndex_mono N h; omega
  subst hyz
  ext
  · rfl
  · simp only; omega

/-- **C85** New samples lie inside their zone. -/
theorem sample_in_zone (minx dx : ℝ) (is i : ℤ) (u : ℝ) (hdx : 0 < dx) (h0 : 0 ≤ u) (h1 : u < 1) :
    minx + ((i - is : ℤ) : ℝ) * dx ≤ initPos minx dx is i u ∧ initPos minx dx is i u < minx + ((i - is : ℤ) + 1 : ℝ) * dx := by
  unfold initPos
  push_cast
  constructor <;> nlinarith

/-- **C85** A new sample is a light ray of unit frequency in the fluid frame, for every metric, fluid velocity and random numbers. -/
theorem sample_null {G : Geom.ADM ℝ} (eps : ℝ) (h : G.Valid) (hp : Rel.PosDef G) (u : Fin 4 → ℝ) (hu : Geom.dot4 G.g4 u u = -1) (r1 r2 : ℝ) :
    (∑ m, initNcov eps G.g4 u r1 r2 m * u m = -1) ∧
    ∃ k : Fin 4 → ℝ, (∀ m, lower G.g4 k m = initNcov eps G.g4 u r1 r2 m) ∧ Geom.dot4 G.g4 k k = 0 := by
  have hlt : Geom.dot4 G.g4 u u < 0 := by rw [hu]; norm_num
  obtain ⟨ho, hE0⟩ := Tetrads.tetrad_orthonormal_partial eps h hp u hlt
  have hE0 := hE0 hu
  set E := Tetrads.econ eps G.g4 u Tetrads.defaultTrial with hE
  obtain ⟨-, -, -, hcov, -⟩ := Tetrads.frame_round_trip E h ho (initTetrad r1 r2) 0
  constructor
  · have := congrFun hcov 0
    simp only [Tetrads.coordToTetradCov] at this
    rw [hE0] at this
    have e : initTetrad r1 r2 0 = -1 := rfl
    rw [e] at this
    rw [← this]
    exact sum_congr rfl fun m _ => by rw [mul_comm]; rfl
  · set w : Fin 4 → ℝ := fun a => if a = 0 then 1 else initTetrad r1 r2 a with hw
    refine ⟨Tetrads.tetradToCoordCon E w, fun m => ?_, ?_⟩
    · unfold initNcov
      rw [← hE]
      simp only [lower, Tetrads.tetradToCoordCon, Tetrads.tetradToCoordCov, Tetrads.ecov, hw, Fin.sum_univ_four, initTetrad]
      simp [Fin.ext_iff]
      ring
    · obtain ⟨-, -, -, -, hd⟩ := Tetrads.frame_round_trip E h ho w w
      rw [hd]
      have s1 := Real.sin_sq_add_cos_sq (Real.arccos (2 * r1 - 1))
      have s2 := Real.sin_sq_add_cos_sq (2 * Real.pi * r2)
      simp only [Tetrads.eta, hw, Fin.sum_univ_four, initTetrad]
      simp [Fin.ext_iff]
      generalize Real.sin (Real.arccos (2 * r1 - 1)) = a at s1 ⊢
      generalize Real.cos (Real.arccos (2 * r1 - 1)) = b at s1 ⊢
      generalize Real.sin (2 * Real.pi * r2) = c at s2 ⊢
      generalize Real.cos (2 * Real.pi * r2) = d at s2 ⊢
      linear_combination s1 + a ^ 2 * s2

/-- **C85** The cosine of the polar angle of a new sample is uniform: it is `2 u - 1`. -/
theorem sample_polar (r1 r2 : ℝ) (h0 : 0 ≤ r1) (h1 : r1 ≤ 1) : initTetrad r1 r2 1 = 2 * r1 - 1 := by
  simp only [initTetrad]
  exact Real.cos_arccos (by linarith) (by linarith)

/-- **C85** Initial intensities are positive and, above the floor, those of the thermal distribution in the fluid frame. -/
theorem init_intensity (SMALL : ℝ) (hS : 0 < SMALL) (Therm : ℝ → ℝ → ℝ) (T nus ndu : ℝ) :
    0 < initI SMALL Therm T nus ndu ∧
    (SMALL ≤ Therm T (nus * ndu) / (nus * ndu) ^ 3 → initI SMALL Therm T nus ndu = Therm T (nus * ndu) / (nus * ndu) ^ 3) :=
  ⟨lt_of_lt_of_le hS (le_max_left _ _), fun h => max_eq_right h⟩

/-- **C85** The domain boundary in the first direction: interior samples are untouched, samples less than a domain width outside are
mirrored back into the domain with their direction reversed, and intensities stay positive. -/
theorem boundary_reflects (SMALL lo hi : ℝ) (hS : 0 < SMALL) (B nu : ℕ → ℝ) (hnu : ∀ b, 0 < nu b) (p : Sample) :
    (lo ≤ p.x → p.x ≤ hi → boundary SMALL lo hi B nu p = p) ∧
    (p.x < lo → lo - (hi - lo) ≤ p.x → (boundary SMALL lo hi B nu p).x = 2 * lo - p.x ∧ lo ≤ (boundary SMALL lo hi B nu p).x ∧
      (boundary SMALL lo hi B nu p).x ≤ hi ∧ (boundary SMALL lo hi B nu p).n1 = -p.n1 ∧
      ∀ b, 0 < (boundary SMALL lo hi B nu p).I b ∧ (SMALL ≤ B b → (boundary SMALL lo hi B nu p).I b = B b / nu b ^ 3)) ∧
    (hi < p.x → p.x ≤ hi + (hi - lo) → (boundary SMALL lo hi B nu p).x = 2 * hi - p.x ∧ lo ≤ (boundary SMALL lo hi B nu p).x ∧
      (boundary SMALL lo hi B nu p).x ≤ hi ∧ (boundary SMALL lo hi B nu p).n1 = -p.n1 ∧
      ∀ b, (boundary SMALL lo hi B nu p).I b = SMALL) := by
  unfold boundary
  refine ⟨fun a b => ?_, fun a b => ?_, fun a b => ?_⟩
  · simp only [if_neg (not_lt.2 a), gt_iff_lt, if_neg (not_lt.2 b)]
  · simp only [if_pos a, gt_iff_lt]
    rw [if_neg (by linarith)]
    refine ⟨by simp only; ring, by simp only; linarith, by simp only; linarith, rfl, fun c => ⟨?_, fun h => ?_⟩⟩
    · have := hnu c
      have : 0 < max SMALL (B c) := lt_of_lt_of_le hS (le_max_left _ _)
      simp only; positivity
    · simp only [max_eq_right h]
  · simp only [if_neg (by linarith : ¬ p.x < lo), gt_iff_lt, if_pos a]
    exact ⟨by ring, by linarith, by linarith, trivial, fun _ => trivial⟩

/-- **C85, counting** With a single partition the reported number of samples is the number of active samples, however often the
counting task runs. -/
theorem count_single_partial (counts : List ℕ) (m : ℕ) (hm : 0 < m) : reported [counts] m = counts.sum := by
  have hfold : counts.foldl (· + ·) 0 = counts.sum := (List.sum_eq_foldl).symm
  have h : ∀ k a, (updateCount^[k] (0, a)).2 = a := by
    intro k
    induction k with
    | zero => intro a; rfl
    | succ k ih => intro a; rw [Function.iterate_succ_apply]; exact ih _
  obtain ⟨k, rfl⟩ := Nat.exists_eq_succ_of_ne_zero hm.ne'
  unfold reported
  rw [Function.iterate_succ_apply]
  simp only [List.foldl_cons, List.foldl_nil, reconCount, updateCount, zero_add, hfold, h]

/-- **C85 fails with several partitions**: only the partition reconstructed last is counted. -/
theorem count_last_partition (parts : List (List ℕ)) (last : List ℕ) (m : ℕ) (hm : 0 < m) :
    reported (parts ++ [last]) m = last.sum := by
  rw [← count_single_partial last m hm]
  unfold reported
  congr 3
  simp [List.foldl_append, reconCount]

/-- with nothing reconstructed nothing is reported. -/
theorem count_none (m : ℕ) : reported [] m = 0 := by
  unfold reported
  induction m with
  | zero => rfl
  | succ m ih => rw [Function.iterate_succ_apply]; exact ih

/-! ## Concrete cases -/

/-- two samples, the second one in the second quadrant: found, with a good cut. -/
theorem ex_cells (old : ℕ → Box) :
    let dirs : ℕ → Dir := fun k => if k = 0 then ⟨0, 1, 0⟩ else ⟨0, 1, 0⟩
    Found dirs old 1 ∧ Good dirs old 1 := by
  intro dirs
  have hpi := Real.pi_pos
  have harg : Complex.arg ⟨1, 0⟩ = 0 := by
    have := Complex.arg_one
    rwa [show (1:ℂ) = ⟨1, 0⟩ by rfl] at this
  have hphi : dirPhi (dirs 1) = Real.pi := by simp only [dirs, dirPhi, atan2]; simp [harg]
  have hmu : dirMu (dirs 1) = 1 := by simp only [dirs, dirMu]; norm_num
  have hr : recon dirs old 1 0 = sphere := by simp [recon]
  constructor
  · refine ⟨0, by norm_num, ?_⟩
    rw [hr, hphi, hmu]
    simp only [inside, sphere]
    exact ⟨by norm_num, by norm_num, hpi, by linarith⟩
  · intro m hm
    obtain ⟨h1, -, -⟩ := hit_some hm
    obtain rfl : m = 0 := by omega
    right
    rw [hr, hphi]; simp only [sphere]; linarith

example (old : ℕ → Box) (mu phi : ℝ) := (cells_tile_partial (fun k => if k = 0 then ⟨0, 1, 0⟩ else ⟨0, 1, 0⟩) old 2 (by norm_num)
  (fun k h1 h2 => by rw [show k = 1 by omega]; exact (ex_cells old).1) (fun k h1 h2 => by rw [show k = 1 by omega]; exact (ex_cells old).2) mu phi)

/-- a grid with three zones of 2, 0 and 3 samples: slot 3 is the second sample of the third zone. -/
example : startIndex (fun z => if z = 0 then 2 else if z = 1 then 0 else 3) 2 + 1 = 3 := by decide

/-- two partitions with 3 and 4 samples are reported as 4. -/
example : reported [[1, 2], [4]] 2 = 4 := by decide

end Phoebus.MOCMC
