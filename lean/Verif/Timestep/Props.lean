import Verif.Timestep.Model
import Verif.Riemann.Props

/-!
# Time step: CFL condition in every cell, on every block, for every state (C75, C76)
-/
namespace Phoebus.Timestep
open Geom Robust Finset Riemann

/-! ## signal speeds -/

/-- **C75** the fast speed squared is a fraction of the speed of light whenever the sound speed is. -/
theorem cmsq_bounds (rho u p bsq gam1 : ℝ) (hr : 0 < rho) (hu : 0 ≤ u) (hp : 0 ≤ p) (hb : 0 ≤ bsq) (hg : 0 ≤ gam1)
    (hc : gam1 * p < rho + u + p) : 0 ≤ cmsq rho u p bsq gam1 ∧ cmsq rho u p bsq gam1 < 1 := by
  have h0 : 0 < rho + u + p := by linarith
  have h1 : 0 < rho + u + p + bsq := by linarith
  have c0 : 0 ≤ gam1 * p / (rho + u + p) := by positivity
  have c1 : gam1 * p / (rho + u + p) < 1 := by rw [div_lt_one h0]; exact hc
  have a0 : 0 ≤ bsq / (rho + u + p + bsq) := by positivity
  have a1 : bsq / (rho + u + p + bsq) < 1 := by rw [div_lt_one h1]; linarith
  simp only [cmsq]
  constructor
  · nlinarith [mul_nonneg c0 (by linarith : 0 ≤ 1 - bsq / (rho + u + p + bsq))]
  · nlinarith [mul_pos (by linarith : 0 < 1 - gam1 * p / (rho + u + p)) (by linarith : 0 < 1 - bsq / (rho + u + p + bsq))]

/-- **C75** the cell signal speed is the larger absolute value of the two characteristic speeds of the face solver. -/
theorem signalSpeed_eq (alpha beta gmm vsq v c : ℝ) :
    signalSpeed alpha beta gmm vsq v c = max |charSpeed 0 alpha beta gmm vsq v c 1| |charSpeed 0 alpha beta gmm vsq v c (-1)| := by
  have e1 : (1.0 : ℝ) = 1 := by norm_num
  have hs : ∀ x : ℝ, Real.sqrt (makePositive 0 x) = Real.sqrt x := fun x => by
    unfold makePositive
    rcases le_total x 0 with h | h
    · rw [max_eq_right h, Real.sqrt_zero, Real.sqrt_eq_zero_of_nonpos h]
    · rw [max_eq_left h]
  simp only [signalSpeed, charSpeed, e1, hs, one_mul, neg_mul, ← sub_eq_add_neg]
  have : v * v * (1 - c) = v * (v * (1 - c)) := by ring
  rw [this]

/-- **C75** for every sub-light state the signal speed is between the fluid's coordinate speed and the coordinate speed of light. -/
theorem signal_light (alpha beta gmm vsq v c : ℝ) (ha : 0 < alpha) (hg : 0 ≤ gmm) (hv0 : 0 ≤ vsq) (hv1 : vsq < 1)
    (hv : v ^ 2 ≤ gmm * vsq) (hc0 : 0 ≤ c) (hc1 : c < 1) :
    |alpha * v - beta| ≤ signalSpeed alpha beta gmm vsq v c ∧
    signalSpeed alpha beta gmm vsq v c ≤ max |alpha * Real.sqrt gmm - beta| |-(alpha * Real.sqrt gmm) - beta| := by
  obtain ⟨h1, h2, h3, h4⟩ := char_speeds_light_cone 0 alpha beta gmm vsq v c le_rfl ha hg hv0 hv1 hv hc0 hc1
  simp only [Real.sqrt_zero, mul_zero, zero_div, add_zero, sub_zero] at h3 h4
  rw [signalSpeed_eq]
  set P := charSpeed 0 alpha beta gmm vsq v c 1
  set M := charSpeed 0 alpha beta gmm vsq v c (-1)
  have hPM : M ≤ P := h1.trans h2
  constructor
  · rw [abs_le]
    constructor
    · have : -|M| ≤ M := neg_abs_le M
      have h := le_max_right |P| |M|
      linarith
    · have : P ≤ |P| := le_abs_self P
      have h := le_max_left |P| |M|
      linarith
  · have key : ∀ x, M ≤ x → x ≤ P → |x| ≤ max |alpha * Real.sqrt gmm - beta| |-(alpha * Real.sqrt gmm) - beta| := by
      intro x hx1 hx2
      rw [abs_le]
      constructor
      · have := neg_abs_le (-(alpha * Real.sqrt gmm) - beta)
        have h := le_max_right |alpha * Real.sqrt gmm - beta| |-(alpha * Real.sqrt gmm) - beta|
        linarith
      · have := le_abs_self (alpha * Real.sqrt gmm - beta)
        have h := le_max_left |alpha * Real.sqrt gmm - beta| |-(alpha * Real.sqrt gmm) - beta|
        linarith
    exact max_le (key P hPM le_rfl) (key M le_rfl hPM)

theorem max_neg_abs {m p : ℝ} (h : m ≤ p) : max (-m) p = max |m| |p| := by
  apply le_antisymm
  · exact max_le ((neg_le_abs m).trans (le_max_left _ _)) ((le_abs_self p).trans (le_max_right _ _))
  · refine max_le ?_ ?_
    · rw [abs_le]; constructor
      · have := le_max_left (-m) p; linarith
      · have := le_max_right (-m) p; linarith
    · rw [abs_le]; constructor
      · have := le_max_left (-m) p; linarith
      · exact le_max_right _ _

/-- **C75** both Riemann solvers report the same face speed: the largest absolute value among the four characteristic speeds. -/
theorem face_speed (vml vpl vmr vpr : ℝ) (hl : vml ≤ vpl) (hr : vmr ≤ vpr) :
    llfSpeed vml vpl vmr vpr = max (max |vml| |vpl|) (max |vmr| |vpr|) ∧ hllSpeed vml vpl vmr vpr = llfSpeed vml vpl vmr vpr := by
  have h1 : llfSpeed vml vpl vmr vpr = max (max |vml| |vpl|) (max |vmr| |vpr|) := by
    unfold llfSpeed; rw [max_neg_abs hl, max_neg_abs hr]
  refine ⟨h1, ?_⟩
  have h0 : 0 ≤ llfSpeed vml vpl vmr vpr := by rw [h1]; exact (abs_nonneg vml).trans ((le_max_left _ _).trans (le_max_left _ _))
  have e : hllSpeed vml vpl vmr vpr = max (llfSpeed vml vpl vmr vpr) 0 := by
    simp only [hllSpeed, llfSpeed]
    apply le_antisymm
    · refine max_le ?_ ?_
      · rw [neg_le]
        refine le_min (le_min ?_ ?_) ?_
        · rw [neg_le]; exact (le_max_left _ _).trans ((le_max_left _ _).trans (le_max_left _ _))
        · rw [neg_le]; exact (le_max_left _ _).trans ((le_max_right _ _).trans (le_max_left _ _))
        · rw [neg_le, neg_zero]; exact le_max_right _ _
      · refine max_le (max_le ?_ ?_) (le_max_right _ _)
        · exact (le_max_right _ _).trans ((le_max_left _ _).trans (le_max_left _ _))
        · exact (le_max_right _ _).trans ((le_max_right _ _).trans (le_max_left _ _))
    · have a1 : -vml ≤ -min (min vml vmr) 0 := neg_le_neg ((min_le_left _ _).trans (min_le_left _ _))
      have a2 : -vmr ≤ -min (min vml vmr) 0 := neg_le_neg ((min_le_left _ _).trans (min_le_right _ _))
      refine max_le (max_le (max_le ?_ ?_) (max_le ?_ ?_)) ?_
      · exact a1.trans (le_max_left _ _)
      · exact ((le_max_left _ _).trans (le_max_left _ _)).trans (le_max_right _ _)
      · exact a2.trans (le_max_left _ _)
      · exact ((le_max_right _ _).trans (le_max_left _ _)).trans (le_max_right _ _)
      · exact (le_max_right (max vpl vpr) 0).trans (le_max_right _ _)
  rw [e, max_eq_left h0]

/-! ## the reduction -/

theorem minDt_cons (big tiny : ℝ) (rate : Cell → ℝ) (cells : List Cell) :
    minDt big tiny rate cells ≤ big ∧ (∀ c ∈ cells, minDt big tiny rate cells ≤ 1 / (rate c + tiny)) ∧
    (minDt big tiny rate cells = big ∨ ∃ c ∈ cells, minDt big tiny rate cells = 1 / (rate c + tiny)) := by
  induction cells generalizing big with
  | nil => simp [minDt]
  | cons c l ih =>
    have e : minDt big tiny rate (c :: l) = minDt (min big (1 / (rate c + tiny))) tiny rate l := rfl
    obtain ⟨h1, h2, h3⟩ := ih (min big (1 / (rate c + tiny)))
    rw [e]
    refine ⟨h1.trans (min_le_left _ _), ?_, ?_⟩
    · intro x hx
      rcases List.mem_cons.1 hx with rfl | hx
      · exact h1.trans (min_le_right _ _)
      · exact h2 x hx
    · rcases h3 with h3 | ⟨x, hx, h3⟩
      · rcases min_choice big (1 / (rate c + tiny)) with h | h
        · left; rw [h3, h]
        · right; exact ⟨c, by simp, by rw [h3, h]⟩
      · right; exact ⟨x, by simp [hx], h3⟩

/-- a block whose fields make sense: nonnegative speeds, positive widths. -/
structure Block.Ok (B : Block) : Prop where
  csig : ∀ d c, 0 ≤ B.csig d c
  fsig : ∀ d c, 0 ≤ B.fsig d c
  width : ∀ d c, 0 < B.width d c

theorem rateFace_nonneg {B : Block} (h : B.Ok) (ndim : ℕ) (c : Cell) : 0 ≤ rateFace ndim B c :=
  Finset.sum_nonneg fun d _ => div_nonneg ((h.csig d c).trans (le_max_left _ _)) (h.width d c).le

theorem rateCell_le {B : Block} (h : B.Ok) (ndim : ℕ) (c : Cell) : rateCell ndim B c ≤ rateFace ndim B c :=
  Finset.sum_le_sum fun d _ => div_le_div_of_nonneg_right (le_max_left _ _) (h.width d c).le

theorem rateCell_nonneg {B : Block} (h : B.Ok) (ndim : ℕ) (c : Cell) : 0 ≤ rateCell ndim B c :=
  Finset.sum_nonneg fun d _ => div_nonneg (h.csig d c) (h.width d c).le

/-- the rate a call uses. -/
noncomputable def rateOf (hasFace : Bool) (ndim : ℕ) (B : Block) (c : Cell) : ℝ := if hasFace then rateFace ndim B c else rateCell ndim B c

theorem fluidDt_eq (big tiny cfl : ℝ) (ndim : ℕ) (hf : Bool) (B : Block) :
    fluidDt big tiny cfl ndim hf B = (cfl * minDt big tiny (rateOf hf ndim B) B.cells, true) := by
  have e1 : rateOf true ndim B = rateFace ndim B := by funext c; simp [rateOf]
  have e2 : rateOf false ndim B = rateCell ndim B := by funext c; simp [rateOf]
  cases hf <;> simp [fluidDt, e1, e2]

/-- **C75** CFL condition: in every interior cell the directional sum of (cell and, once available, face) signal speeds over cell widths
times the step is at most the CFL number; so no signal crosses more than that fraction of any cell. -/
theorem fluid_cfl (big tiny cfl : ℝ) (ht : 0 < tiny) (hc : 0 ≤ cfl) (hb : 0 ≤ big) (ndim : ℕ) (hf : Bool) (B : Block) (h : B.Ok) (c : Cell)
    (hmem : c ∈ B.cells) :
    0 ≤ (fluidDt big tiny cfl ndim hf B).1 ∧
    (fluidDt big tiny cfl ndim hf B).1 * rateCell ndim B c ≤ cfl ∧
    (hf = true → (fluidDt big tiny cfl ndim hf B).1 * rateFace ndim B c ≤ cfl ∧
      ∀ d : Fin 3, (d : ℕ) < ndim → (fluidDt big tiny cfl ndim hf B).1 * B.csig d c ≤ cfl * B.width d c ∧
        (fluidDt big tiny cfl ndim hf B).1 * B.fsig d c ≤ cfl * B.width d c ∧
        (fluidDt big tiny cfl ndim hf B).1 * B.fsig d (c.up d) ≤ cfl * B.width d c) := by
  have hr0 : ∀ x, 0 ≤ rateOf hf ndim B x := fun x => by
    unfold rateOf; split_ifs
    · exact rateFace_nonneg h ndim x
    · exact rateCell_nonneg h ndim x
  obtain ⟨h1, h2, h3⟩ := minDt_cons big tiny (rateOf hf ndim B) B.cells
  have hm0 : 0 ≤ minDt big tiny (rateOf hf ndim B) B.cells := by
    rcases h3 with h3 | ⟨x, -, h3⟩
    · rw [h3]; exact hb
    · rw [h3]; have := hr0 x; positivity
  have hm : minDt big tiny (rateOf hf ndim B) B.cells * rateOf hf ndim B c ≤ 1 := by
    have hp : 0 < rateOf hf ndim B c + tiny := by have := hr0 c; linarith
    have := h2 c hmem
    rw [le_div_iff₀ hp] at this
    nlinarith [mul_nonneg hm0 ht.le]
  rw [fluidDt_eq]
  have key : cfl * minDt big tiny (rateOf hf ndim B) B.cells * rateOf hf ndim B c ≤ cfl := by
    rw [mul_assoc]; exact mul_le_of_le_one_right hc hm
  have hn := mul_nonneg hc hm0
  refine ⟨hn, ?_, ?_⟩
  · refine le_trans (mul_le_mul_of_nonneg_left ?_ hn) key
    unfold rateOf; split_ifs
    · exact rateCell_le h ndim c
    · exact le_rfl
  · rintro rfl
    have hF : rateOf true ndim B c = rateFace ndim B c := by simp [rateOf]
    rw [hF] at key
    refine ⟨key, fun d hd => ?_⟩
    have hd' : d ∈ dirs ndim := by simp [dirs, hd]
    have hle : max (B.csig d c) (max (B.fsig d c) (B.fsig d (c.up d))) / B.width d c ≤ rateFace ndim B c :=
      Finset.single_le_sum (f := fun d => max (B.csig d c) (max (B.fsig d c) (B.fsig d (c.up d))) / B.width d c)
        (fun d _ => div_nonneg ((h.csig d c).trans (le_max_left _ _)) (h.width d c).le) hd'
    have hw := h.width d c
    have hk : cfl * minDt big tiny (rateOf true ndim B) B.cells * max (B.csig d c) (max (B.fsig d c) (B.fsig d (c.up d))) ≤
        cfl * B.width d c := by
      have := (mul_le_mul_of_nonneg_left hle hn).trans key
      rwa [← mul_div_assoc, div_le_iff₀ hw] at this
    refine ⟨?_, ?_, ?_⟩
    · exact (mul_le_mul_of_nonneg_left (le_max_left _ _) hn).trans hk
    · exact (mul_le_mul_of_nonneg_left ((le_max_left _ _).trans (le_max_right _ _)) hn).trans hk
    · exact (mul_le_mul_of_nonneg_left ((le_max_right _ _).trans (le_max_right _ _)) hn).trans hk

/-- **C75** The same bound face by face, in grid indices: once face speeds exist, the signals through the two x1-faces `(k,j,i)`, `(k,j,i+1)`
of a cell, its two x2-faces `(k,j,i)`, `(k,j+1,i)` and its two x3-faces `(k,j,i)`, `(k+1,j,i)` cross at most the CFL fraction of the cell. -/
theorem fluid_cfl_faces (big tiny cfl : ℝ) (ht : 0 < tiny) (hc : 0 ≤ cfl) (hb : 0 ≤ big) (B : Block) (h : B.Ok) (k j i : ℤ)
    (hmem : (⟨k, j, i⟩ : Cell) ∈ B.cells) :
    let dt := (fluidDt big tiny cfl 3 true B).1
    (dt * B.fsig 0 ⟨k, j, i⟩ ≤ cfl * B.width 0 ⟨k, j, i⟩ ∧ dt * B.fsig 0 ⟨k, j, i + 1⟩ ≤ cfl * B.width 0 ⟨k, j, i⟩) ∧
    (dt * B.fsig 1 ⟨k, j, i⟩ ≤ cfl * B.width 1 ⟨k, j, i⟩ ∧ dt * B.fsig 1 ⟨k, j + 1, i⟩ ≤ cfl * B.width 1 ⟨k, j, i⟩) ∧
    (dt * B.fsig 2 ⟨k, j, i⟩ ≤ cfl * B.width 2 ⟨k, j, i⟩ ∧ dt * B.fsig 2 ⟨k + 1, j, i⟩ ≤ cfl * B.width 2 ⟨k, j, i⟩) := by
  intro dt
  have H := ((fluid_cfl big tiny cfl ht hc hb 3 true B h ⟨k, j, i⟩ hmem).2.2 rfl).2
  have H0 := H 0 (by simp)
  have H1 := H 1 (by simp)
  have H2 := H 2 (by simp)
  simp [Cell.up] at H0 H1 H2
  exact ⟨⟨H0.2.1, H0.2.2⟩, ⟨H1.2.1, H1.2.2⟩, ⟨H2.2.1, H2.2.2⟩⟩

/-- **C75** The step is the largest one allowed: some cell meets the condition with equality (up to the regulariser), unless the cap applies. -/
theorem fluid_dt_sharp (big tiny cfl : ℝ) (ndim : ℕ) (hf : Bool) (B : Block) :
    (fluidDt big tiny cfl ndim hf B).1 = cfl * big ∨
    ∃ c ∈ B.cells, (fluidDt big tiny cfl ndim hf B).1 = cfl / (rateOf hf ndim B c + tiny) := by
  rw [fluidDt_eq]
  rcases (minDt_cons big tiny (rateOf hf ndim B) B.cells).2.2 with h | ⟨c, hc, h⟩
  · left; simp only [h]
  · right; exact ⟨c, hc, by simp only [h]; ring⟩

/-- **C75** The step does not collapse: when no signal is faster than `cmax` and no cell narrower than `dxmin`, it is at least
`cfl / (ndim cmax / dxmin + tiny)`. -/
theorem fluid_dt_lower (big tiny cfl cmax dxmin : ℝ) (ht : 0 < tiny) (hc : 0 ≤ cfl) (hcm : 0 ≤ cmax) (hdx : 0 < dxmin) (ndim : ℕ) (hf : Bool)
    (B : Block) (h : B.Ok) (h1 : ∀ d c, B.csig d c ≤ cmax) (h2 : ∀ d c, B.fsig d c ≤ cmax) (h3 : ∀ d c, dxmin ≤ B.width d c)
    (hbig : 1 / ((dirs ndim).card * (cmax / dxmin) + tiny) ≤ big) :
    cfl / ((dirs ndim).card * (cmax / dxmin) + tiny) ≤ (fluidDt big tiny cfl ndim hf B).1 := by
  have hrate : ∀ c, rateOf hf ndim B c ≤ (dirs ndim).card * (cmax / dxmin) := fun c => by
    have hF : rateFace ndim B c ≤ (dirs ndim).card * (cmax / dxmin) := by
      unfold rateFace
      rw [← nsmul_eq_mul]
      exact Finset.sum_le_card_nsmul _ _ _ fun d _ =>
        div_le_div₀ hcm (max_le (h1 d c) (max_le (h2 d c) (h2 d _))) hdx (h3 d c)
    unfold rateOf; split_ifs
    · exact hF
    · exact (rateCell_le h ndim c).trans hF
  have hr0 : ∀ x, 0 ≤ rateOf hf ndim B x := fun x => by
    unfold rateOf; split_ifs
    · exact rateFace_nonneg h ndim x
    · exact rateCell_nonneg h ndim x
  rw [fluidDt_eq, div_eq_mul_one_div]
  apply mul_le_mul_of_nonneg_left _ hc
  rcases (minDt_cons big tiny (rateOf hf ndim B) B.cells).2.2 with h | ⟨c, -, h⟩
  · rw [h]; exact hbig
  · rw [h]
    apply one_div_le_one_div_of_le
    · have := hr0 c; linarith
    · have := hrate c; linarith

/-- **C75** The order in which the parallel reduction visits the cells does not matter. -/
theorem fluid_dt_perm (big tiny cfl : ℝ) (ndim : ℕ) (hf : Bool) (B B' : Block) (h : B.cells.Perm B'.cells) (hc : B.csig = B'.csig)
    (hfs : B.fsig = B'.fsig) (hw : B.width = B'.width) : fluidDt big tiny cfl ndim hf B = fluidDt big tiny cfl ndim hf B' := by
  rw [fluidDt_eq, fluidDt_eq]
  have e : rateOf hf ndim B = rateOf hf ndim B' := by
    funext c; simp only [rateOf, rateFace, rateCell, hc, hfs, hw]
  rw [e]
  congr 2
  unfold minDt
  haveI : RightCommutative (fun (m : ℝ) (c : Cell) => min m (1 / (rateOf hf ndim B' c + tiny))) :=
    ⟨fun a b c => min_right_comm _ _ _⟩
  exact h.foldl_eq _

/-- **C75** Whole mesh: the CFL condition holds in every cell of every block with the cell signal speeds, and with the face speeds
in every block after the first call ever; the flag is on from then on. -/
theorem mesh_cfl (big tiny cfl : ℝ) (ht : 0 < tiny) (hc : 0 ≤ cfl) (hb : 0 ≤ big) (ndim : ℕ) (Bs : List Block) (hBs : ∀ B ∈ Bs, B.Ok)
    (dt0 : ℝ) (hf : Bool) :
    (meshDt big tiny cfl ndim dt0 hf Bs).1 ≤ dt0 ∧ (hf = true ∨ Bs ≠ [] → (meshDt big tiny cfl ndim dt0 hf Bs).2 = true) ∧
    (∀ B ∈ Bs, ∀ c ∈ B.cells, (meshDt big tiny cfl ndim dt0 hf Bs).1 * rateCell ndim B c ≤ cfl) ∧
    (∀ B ∈ if hf then Bs else Bs.tail, ∀ c ∈ B.cells, (meshDt big tiny cfl ndim dt0 hf Bs).1 * rateFace ndim B c ≤ cfl) := by
  induction Bs generalizing dt0 hf with
  | nil => cases hf <;> simp [meshDt]
  | cons B l ih =>
    have e : meshDt big tiny cfl ndim dt0 hf (B :: l) = meshDt big tiny cfl ndim (min dt0 (fluidDt big tiny cfl ndim hf B).1) true l := by
      simp only [meshDt, List.foldl_cons, fluidDt_eq]
    obtain ⟨i1, i2, i3, i4⟩ := ih (fun B hB => hBs B (by simp [hB])) (min dt0 (fluidDt big tiny cfl ndim hf B).1) true
    rw [e]
    have hOk := hBs B (by simp)
    have hle : (meshDt big tiny cfl ndim (min dt0 (fluidDt big tiny cfl ndim hf B).1) true l).1 ≤ (fluidDt big tiny cfl ndim hf B).1 :=
      i1.trans (min_le_right _ _)
    simp only [if_true] at i4
    refine ⟨i1.trans (min_le_left _ _), fun _ => i2 (Or.inl rfl), ?_, ?_⟩
    · intro B' hB' c hcell
      rcases List.mem_cons.1 hB' with rfl | hB'
      · exact (mul_le_mul_of_nonneg_right hle (rateCell_nonneg hOk ndim c)).trans
          (fluid_cfl big tiny cfl ht hc hb ndim hf B' hOk c hcell).2.1
      · exact i3 B' hB' c hcell
    · intro B' hB' c hcell
      cases hf
      · simp only [Bool.false_eq_true, if_false, List.tail_cons] at hB'
        exact i4 B' hB' c hcell
      · simp only [if_true] at hB'
        rcases List.mem_cons.1 hB' with rfl | hB'
        · exact (mul_le_mul_of_nonneg_right hle (rateFace_nonneg hOk ndim c)).trans
            ((fluid_cfl big tiny cfl ht hc hb ndim true B' hOk c hcell).2.2 rfl).1
        · exact i4 B' hB' c hcell

/-- **C75** The first call, which has no face speeds yet, agrees with the later formula on zero-initialised face speeds. -/
theorem first_call (big tiny cfl : ℝ) (ndim : ℕ) (B : Block) (h : B.Ok) (hz : ∀ d c, B.fsig d c = 0) :
    fluidDt big tiny cfl ndim false B = fluidDt big tiny cfl ndim true B := by
  rw [fluidDt_eq, fluidDt_eq]
  have : rateOf false ndim B = rateOf true ndim B := by
    funext c
    simp only [rateOf, Bool.false_eq_true, if_false, if_true, rateCell, rateFace]
    exact Finset.sum_congr rfl fun d _ => by rw [hz, hz, max_self, max_eq_left (h.csig d c)]
  rw [this]

/-- concrete case: a 2D block of one cell, speeds 1/2 and 1, unit widths, CFL number 1/2. -/
theorem ex_fluid_dt : (fluidDt 100 1 (1/2) 2 true ⟨fun d _ => if d = 0 then 1/2 else 1, fun _ _ => 1/4, fun _ _ => 1, [⟨0, 0, 0⟩]⟩).1 = 1/5 := by
  have e : dirs 2 = {0, 1} := by decide
  norm_num [fluidDt, minDt, rateFace, e]

/-! ## C76: radiation -/

/-- **C76** the light speed in a direction: both rays `±α√γ^{dd} - β` are covered, and the value is `α√γ^{dd} + |β|`. -/
theorem radSpeed_eq (alpha beta gdd : ℝ) (ha : 0 ≤ alpha) : radSpeed alpha beta gdd = alpha * Real.sqrt gdd + |beta| := by
  simp only [radSpeed]
  have hs := mul_nonneg ha (Real.sqrt_nonneg gdd)
  rw [neg_mul]
  set s := alpha * Real.sqrt gdd
  rcases le_total 0 beta with h | h
  · rw [abs_of_nonneg h, abs_of_nonpos (by linarith), max_eq_left]
    · ring
    · rw [abs_le]; constructor <;> linarith
  · rw [abs_of_nonpos h, abs_of_nonneg (by linarith : 0 ≤ s - beta), max_eq_right]
    · ring
    · rw [abs_le]; constructor <;> linarith

theorem tanh_pos {x : ℝ} (h : 0 < x) : 0 < Real.tanh x := by
  rw [Real.tanh_eq_sinh_div_cosh]; exact div_pos (Real.sinh_pos_iff.2 h) (Real.cosh_pos x)

theorem tanh_mono {x y : ℝ} (h : x ≤ y) : Real.tanh x ≤ Real.tanh y := by
  rw [Real.tanh_eq_sinh_div_cosh, Real.tanh_eq_sinh_div_cosh, div_le_div_iff₀ (Real.cosh_pos x) (Real.cosh_pos y)]
  have := Real.sinh_nonneg_iff.2 (sub_nonneg.2 h)
  rw [Real.sinh_sub] at this
  linarith

/-- **C76** the interpolation weight between free streaming and diffusion lies strictly between 0 and 1 for every opacity, decreases
with optical depth. -/
theorem peclet_bounds (small kappaH dx : ℝ) (hs : 0 < small) : 0 < peclet small kappaH dx ∧ peclet small kappaH dx < 1 := by
  unfold peclet
  have h : 0 < ratio small 1 (|kappaH * dx| ^ 1) := by
    rw [pow_one]
    simp only [ratio, abs_nonneg, if_true]
    positivity
  exact ⟨tanh_pos h, Real.tanh_lt_one _⟩

theorem peclet_anti (small k1 k2 dx : ℝ) (hs : 0 < small) (h : |k1 * dx| ≤ |k2 * dx|) : peclet small k2 dx ≤ peclet small k1 dx := by
  unfold peclet
  apply tanh_mono
  simp only [pow_one, ratio, abs_nonneg, if_true, one_mul]
  apply one_div_le_one_div_of_le
  · positivity
  · linarith

/-- **C76** the signal speed is positive and lies between the advection speed assigned to the cell and the speed of light, or the reverse. -/
theorem radSig_bounds (small alpha beta gdd vp kappaH dx : ℝ) (hs : 0 < small) (ha : 0 < alpha) (hg : 0 < gdd) :
    0 < radSig small alpha beta gdd vp kappaH dx ∧
    min |alpha * vp - beta| (radSpeed alpha beta gdd) ≤ radSig small alpha beta gdd vp kappaH dx ∧
    radSig small alpha beta gdd vp kappaH dx ≤ max |alpha * vp - beta| (radSpeed alpha beta gdd) := by
  obtain ⟨h0, h1⟩ := peclet_bounds small kappaH dx hs
  have hr : 0 < radSpeed alpha beta gdd := by
    rw [radSpeed_eq _ _ _ ha.le]; have := Real.sqrt_pos.2 hg; positivity
  simp only [radSig]
  set a := peclet small kappaH dx
  set r := radSpeed alpha beta gdd
  set s := |alpha * vp - beta| with hs'
  have hs0 : 0 ≤ s := abs_nonneg _
  refine ⟨?_, ?_, ?_⟩
  · have := mul_pos h0 hr
    have := mul_nonneg (by linarith : 0 ≤ 1 - a) hs0
    linarith
  · have m1 := mul_le_mul_of_nonneg_left (min_le_right s r) h0.le
    have m2 := mul_le_mul_of_nonneg_left (min_le_left s r) (by linarith : 0 ≤ 1 - a)
    nlinarith
  · have m1 := mul_le_mul_of_nonneg_left (le_max_right s r) h0.le
    have m2 := mul_le_mul_of_nonneg_left (le_max_left s r) (by linarith : 0 ≤ 1 - a)
    nlinarith

theorem radFold (sig : ℕ → Fin 3 → Cell → ℝ) (width : Fin 3 → Cell → ℝ) (xs : List (ℕ × Fin 3 × Cell)) (big : ℝ) :
    let m := xs.foldl (fun m x => if sig x.1 x.2.1 x.2.2 = 0 then m else min m (1 / (sig x.1 x.2.1 x.2.2 / width x.2.1 x.2.2))) big
    m ≤ big ∧ (∀ x ∈ xs, sig x.1 x.2.1 x.2.2 ≠ 0 → m ≤ 1 / (sig x.1 x.2.1 x.2.2 / width x.2.1 x.2.2)) ∧
    (m = big ∨ ∃ x ∈ xs, m = 1 / (sig x.1 x.2.1 x.2.2 / width x.2.1 x.2.2)) := by
  induction xs generalizing big with
  | nil => simp
  | cons x l ih =>
    simp only [List.foldl_cons]
    by_cases hz : sig x.1 x.2.1 x.2.2 = 0
    · rw [if_pos hz]
      obtain ⟨h1, h2, h3⟩ := ih big
      refine ⟨h1, ?_, ?_⟩
      · intro y hy hy0
        rcases List.mem_cons.1 hy with rfl | hy
        · exact absurd hz hy0
        · exact h2 y hy hy0
      · rcases h3 with h3 | ⟨y, hy, h3⟩
        · exact Or.inl h3
        · exact Or.inr ⟨y, by simp [hy], h3⟩
    · rw [if_neg hz]
      obtain ⟨h1, h2, h3⟩ := ih (min big (1 / (sig x.1 x.2.1 x.2.2 / width x.2.1 x.2.2)))
      refine ⟨h1.trans (min_le_left _ _), ?_, ?_⟩
      · intro y hy hy0
        rcases List.mem_cons.1 hy with rfl | hy
        · exact h1.trans (min_le_right _ _)
        · exact h2 y hy hy0
      · rcases h3 with h3 | ⟨y, hy, h3⟩
        · rcases min_choice big (1 / (sig x.1 x.2.1 x.2.2 / width x.2.1 x.2.2)) with h | h
          · left; rw [h3, h]
          · right; exact ⟨x, by simp, by rw [h3, h]⟩
        · exact Or.inr ⟨y, by simp [hy], h3⟩

/-- **C76** per-direction CFL: no radiation signal of any species crosses more than the CFL fraction of a cell in any single
direction. The bound is per direction, not on the sum over directions: the latter is at most `ndim` times the CFL number. -/
theorem rad_cfl_partial (big cfl : ℝ) (hc : 0 ≤ cfl) (sig : ℕ → Fin 3 → Cell → ℝ) (width : Fin 3 → Cell → ℝ) (hs : ∀ s d c, 0 ≤ sig s d c)
    (hw : ∀ d c, 0 < width d c) (xs : List (ℕ × Fin 3 × Cell)) (x : ℕ × Fin 3 × Cell) (hx : x ∈ xs) :
    radDt big cfl sig width xs * sig x.1 x.2.1 x.2.2 ≤ cfl * width x.2.1 x.2.2 := by
  have h := (radFold sig width xs big).2.1 x hx
  unfold radDt
  set m := xs.foldl (fun m x => if sig x.1 x.2.1 x.2.2 = 0 then m else min m (1 / (sig x.1 x.2.1 x.2.2 / width x.2.1 x.2.2))) big
  by_cases hz : sig x.1 x.2.1 x.2.2 = 0
  · rw [hz, mul_zero]; exact mul_nonneg hc (hw _ _).le
  · have hp : 0 < sig x.1 x.2.1 x.2.2 := lt_of_le_of_ne (hs _ _ _) (Ne.symm hz)
    have := h hz
    rw [one_div_div, le_div_iff₀ hp] at this
    rw [mul_assoc]
    exact mul_le_mul_of_nonneg_left this hc

/-- **C76** negation of the multi-dimensional condition met by the fluid: with all directions equal the sum over directions is `ndim`
times the CFL number. -/
theorem rad_cfl_not_summed : ∃ (sig : ℕ → Fin 3 → Cell → ℝ) (width : Fin 3 → Cell → ℝ) (c : Cell),
    radDt 100 (1/2) sig width [(0, 0, c), (0, 1, c), (0, 2, c)] * ∑ d, sig 0 d c / width d c = 3 * (1/2) := by
  refine ⟨fun _ _ _ => 1, fun _ _ => 1, ⟨0, 0, 0⟩, ?_⟩
  norm_num [radDt, Fin.sum_univ_succ]

/-- **C76** the time step uses the primitive velocity `W v` where the flux uses `v`: without shift this only overestimates the speed. -/
theorem rad_speed_safe_partial (small alpha gdd v W kappaH dx : ℝ) (hs : 0 < small) (ha : 0 ≤ alpha) (hW : 1 ≤ W) :
    radSig small alpha 0 gdd v kappaH dx ≤ radSig small alpha 0 gdd (W * v) kappaH dx := by
  obtain ⟨h0, h1⟩ := peclet_bounds small kappaH dx hs
  simp only [radSig, sub_zero]
  have : |alpha * v| ≤ |alpha * (W * v)| := by
    rw [abs_mul, abs_mul, abs_mul, abs_of_nonneg ha, abs_of_nonneg (by linarith : 0 ≤ W)]
    have := mul_nonneg ha (abs_nonneg v)
    nlinarith
  have := mul_le_mul_of_nonneg_left this (by linarith : 0 ≤ 1 - peclet small kappaH dx)
  linarith

/-- **C76** with a shift it can underestimate it: fluid with `W v = β/α` moves relative to the grid but is assigned no
advection speed, so the step exceeds what the speed used in the flux allows. -/
theorem rad_speed_wrong (small kappaH dx : ℝ) (hs : 0 < small) :
    radSig small 1 (3/4) 1 (5/4 * (3/5)) kappaH dx < radSig small 1 (3/4) 1 (3/5) kappaH dx := by
  obtain ⟨h0, h1⟩ := peclet_bounds small kappaH dx hs
  simp only [radSig]
  norm_num
  linarith

end Phoebus.Timestep
