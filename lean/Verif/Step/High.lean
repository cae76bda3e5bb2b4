import Verif.Step.Order
import Verif.Recon.Order
import Verif.Recon.Stable

/-!
# High order (C158)

One step of the code with WENO5-Z or MP5 reconstruction, started from a smooth density profile of small amplitude carried by a uniform flow: the density agrees with the carried profile up to the
fourth power of the cell width where the profile has a slope, if the Runge-Kutta weights are those of a scheme of third order.
-/
namespace Phoebus.Step
open FluxSweep Geom Riemann Rel Carry Asymptotics Filter Topology

/-- a stage as in `ContactStage`, with any method of reconstruction. -/
structure SmoothStage (c : Surround) (sol : MeshRun.Solver) (small eps : ℝ) (val : Bool) (G : ADM ℝ) (g : ℝ) (L : Limits) (m M : ℝ) (P : Phys ℝ 11) : Prop where
  code : ∃ P0, P = codePhys sol small eps val (fun _ _ => L) (fun _ _ => G) (fun _ _ => G.alpha * g) (fun _ _ => g) P0
  solver : sol = .llf ∨ small = 0
  recon : 0 < P.ew ∧ P.ew ≤ 1 ∧ 0 ≤ P.em
  weight : 0 ≤ P.beta ∧ P.beta ≤ 1
  width : ∀ d, 0 < P.dx d
  fix : ∀ d p F, P.fix d p F = F
  rad : ∀ d p st k, P.rad d p st k = 0
  src : ∀ p ρ k, m ≤ ρ → ρ ≤ M → P.src p (c.prims ρ) k = 0
  inv : ∀ p ρ, m ≤ ρ → ρ ≤ M → P.inv p (c.cell val G g ρ).1 = c.cell val G g ρ
  mid : ∀ p ρ, m ≤ ρ → ρ ≤ M → P.mid p (c.cell val G g ρ) = c.cell val G g ρ
  bnd : ∀ p ρ, m ≤ ρ → ρ ≤ M → P.bnd p (c.cell val G g ρ) = c.cell val G g ρ

/-- factor by which a stage of any method can widen the range of densities at most. -/
noncomputable def spread : ℝ := 41

/-- every method reproduces a constant. -/
theorem kernel_const (ew em : ℝ) (he : 0 < ew) (rt : Method) (q : ℤ → ℝ) (Y : ℝ) (hq : ∀ k, q k = Y) : (kernel ew em rt q).1 = Y ∧ (kernel ew em rt q).2 = Y := by
  have := Recon.kernel_near ew em he rt q Y 0 0 (fun k _ => by rw [hq]; simp)
  simp only [mul_zero, add_zero, sub_zero] at this
  exact ⟨sub_eq_zero.1 (abs_nonpos_iff.1 this.1), sub_eq_zero.1 (abs_nonpos_iff.1 this.2)⟩

/-- every method keeps the range of the data up to a factor of twenty. -/
theorem kernel_band (ew em : ℝ) (he : 0 < ew) (h1 : ew ≤ 1) (rt : Method) (q : ℤ → ℝ) (A δ : ℝ) (hq : ∀ k, |q k - A| ≤ δ) :
    |(kernel ew em rt q).1 - A| ≤ 20 * δ ∧ |(kernel ew em rt q).2 - A| ≤ 20 * δ := by
  have hδ : 0 ≤ δ := (abs_nonneg _).trans (hq 0)
  have := Recon.kernel_near ew em he rt q A 0 δ (fun k _ => by simpa using hq k)
  simp only [mul_zero, add_zero, sub_zero] at this
  have hg : Recon.gain ew rt ≤ 20 := by cases rt <;> simp only [Recon.gain] <;> linarith
  exact ⟨this.1.trans (mul_le_mul_of_nonneg_right hg hδ), this.2.trans (mul_le_mul_of_nonneg_right hg hδ)⟩

/-- **C158 (one stage)**: with any reconstruction a contact within `δ` of a mean density stays a contact, within `41 δ`, and the new densities are the carried ones. -/
theorem stage_band {c : Surround} {sol : MeshRun.Solver} {small eps : ℝ} {val : Bool} {G : ADM ℝ} {g : ℝ} {L : Limits} {m M : ℝ} {S : Fin 3 → ℝ}
    (hB : Background c sol eps G L m M S) (P : Phys ℝ 11) (hP : SmoothStage c sol small eps val G g L m M P) (nd : ℕ) (dt : ℝ) (hdt : HalfCourant nd S P dt)
    (wrap : Pos → Pos) (base cur : Fields ℝ 11) (A δ : ℝ) (hb : IsContact c val G g (A - δ) (A + δ) base) (hc : IsContact c val G g (A - δ) (A + δ) cur)
    (hm : m ≤ A - spread * δ) (hM : A + spread * δ ≤ M) :
    ∃ σ : Fin 3 → ℝ → ℝ → ℝ, (∀ d x y, m ≤ x ∧ x ≤ M → m ≤ y ∧ y ≤ M →
        0 ≤ σ d x y ∧ 0 ≤ G.alpha * drift G c d + σ d x y ∧ σ d x y ≤ S d ∧ G.alpha * drift G c d + σ d x y ≤ S d) ∧
      (∀ d p, (m ≤ densL P (fun q => (cur q).2 0) d p ∧ densL P (fun q => (cur q).2 0) d p ≤ M) ∧ (m ≤ densR P (fun q => (cur q).2 0) d p ∧ densR P (fun q => (cur q).2 0) d p ≤ M)) ∧
      ∀ p, let ρ := carried P nd dt (fun d => G.alpha * drift G c d) σ (fun q => (base q).2 0) (fun q => (cur q).2 0) (wrap p)
        |ρ - A| ≤ spread * δ ∧ refFields nd wrap dt base cur P p = c.cell val G g ρ := by
  choose r0 h0a h0b h0 using hb
  choose r ha' hb' hr using hc
  have dA : ∀ q, |r q - A| ≤ δ := fun q => abs_le.2 ⟨by linarith [ha' q], by linarith [hb' q]⟩
  have dA0 : ∀ q, |r0 q - A| ≤ δ := fun q => abs_le.2 ⟨by linarith [h0a q], by linarith [h0b q]⟩
  have hδ : 0 ≤ δ := (abs_nonneg _).trans (dA 0)
  unfold spread at hm hM ⊢
  have inb : ∀ x, |x - A| ≤ 41 * δ → m ≤ x ∧ x ≤ M := fun x hx => by
    rw [abs_le] at hx; constructor <;> linarith
  have ha : ∀ q, m ≤ r q := fun q => (inb _ ((dA q).trans (by linarith))).1
  have hb : ∀ q, r q ≤ M := fun q => (inb _ ((dA q).trans (by linarith))).2
  -- face densities
  set R := kernel P.ew P.em P.rt with hR
  let rl : Fin 3 → Pos → ℝ := fun d p => (R fun k => r fun e => p e + (k - 1) * unit d e).1
  let rr : Fin 3 → Pos → ℝ := fun d p => (R fun k => r fun e => p e + k * unit d e).2
  have dl : ∀ d p, |rl d p - A| ≤ 20 * δ := fun d p => (kernel_band P.ew P.em hP.recon.1 hP.recon.2.1 P.rt _ A δ fun k => dA _).1
  have dr : ∀ d p, |rr d p - A| ≤ 20 * δ := fun d p => (kernel_band P.ew P.em hP.recon.1 hP.recon.2.1 P.rt _ A δ fun k => dA _).2
  have hrl : ∀ d p, m ≤ rl d p ∧ rl d p ≤ M := fun d p => inb _ ((dl d p).trans (by linarith))
  have hrr : ∀ d p, m ≤ rr d p ∧ rr d p ≤ M := fun d p => inb _ ((dr d p).trans (by linarith))
  have hv : (fun (n : Fin 11) (q : Pos) => (cur q).2 n) = fun n q => c.prims (r q) n := by funext n q; rw [hr q]; rfl
  have hL : ∀ d p, stateL R (fun n q => (cur q).2 n) d p = c.prims (rl d p) := by
    intro d p
    rw [hv]
    funext n
    by_cases hn : n = 0
    · subst hn; rfl
    · have : ∀ x y, c.prims x n = c.prims y n := fun x y => by
        unfold Surround.prims
        fin_cases n <;> first | exact absurd rfl hn | rfl
      exact (kernel_const P.ew P.em hP.recon.1 P.rt _ (c.prims (rl d p) n) fun k => this _ _).1
  have hRt : ∀ d p, stateR R (fun n q => (cur q).2 n) d p = c.prims (rr d p) := by
    intro d p
    rw [hv]
    funext n
    by_cases hn : n = 0
    · subst hn; rfl
    · have : ∀ x y, c.prims x n = c.prims y n := fun x y => by
        unfold Surround.prims
        fin_cases n <;> first | exact absurd rfl hn | rfl
      exact (kernel_const P.ew P.em hP.recon.1 P.rt _ (c.prims (rr d p) n) fun k => this _ _).2
  -- fluxes
  obtain ⟨σ, hσ⟩ := face_weights (small := small) (val := val) (g := g) hB hP.solver
  let am : Fin 3 → Pos → ℝ := fun d p => σ d (rl d p) (rr d p)
  let ap : Fin 3 → Pos → ℝ := fun d p => G.alpha * drift G c d + σ d (rl d p) (rr d p)
  have p1 : ∀ d p, 0 ≤ ap d p := fun d p => (hσ d _ _ (hrl d p) (hrr d p)).1.2.1
  have p2 : ∀ d p, 0 ≤ am d p := fun d p => (hσ d _ _ (hrl d p) (hrr d p)).1.1
  have p3 : ∀ d p, ap d p - am d p = G.alpha * drift G c d := fun d p => by simp only [ap, am]; ring
  have p4 : ∀ d p, ap d p ≤ S d := fun d p => (hσ d _ _ (hrl d p) (hrr d p)).1.2.2.2
  have p5 : ∀ d p, am d p ≤ S d := fun d p => (hσ d _ _ (hrl d p) (hrr d p)).1.2.2.1
  have p6 := fun d p => (hσ d _ _ (hrl d p) (hrr d p)).2
  let φ : Fin 3 → Pos → ℝ := fun d p => ap d p * (rl d p - m) - am d p * (rr d p - m)
  obtain ⟨P0, hcode⟩ := hP.code
  have hmhd : P.mhd = some 5 := by rw [hcode]; rfl
  have hS : ∀ d p x y, P.S d p x y = slot (numFlux sol small eps val G L (G.alpha * g) g d (faceState x) (faceState y)) := by rw [hcode]; intros; rfl
  have hflux : ∀ d p k, refFlux P cur d p k = G.alpha * g * slot (fluxF val G L c.ye (c.prim m) d) k + g * slot (unitMass val G c) k * φ d p := by
    intro d p k
    unfold refFlux
    rw [← hR, hL, hRt, hS]
    exact p6 d p k
  have hall : ∀ d p p' k, refAll nd P cur d p k - refAll nd P cur d p' k = g * slot (unitMass val G c) k * (φ d p - φ d p') := by
    intro d p p' k
    unfold refAll
    rw [hP.fix, hP.fix, hP.rad, hP.rad, hmhd, add_zero, add_zero]
    refine ct_uniform nd _ (fun d k => G.alpha * g * slot (fluxF val G L c.ye (c.prim m) d) k) (fun k => g * slot (unitMass val G c) k) φ hflux (fun i => ?_) d p p' k
    fin_cases i <;> simp [slot, unitMass]
  let Δ : Pos → ℝ := fun p => ∑ d : Fin 3, if d.val < nd then (φ d (fun e => p e + unit d e) - φ d p) / P.dx d else 0
  have hdiv : ∀ k p, refDiv nd P.dx (refAll nd P cur) k p = -(g * slot (unitMass val G c) k * Δ p) := by
    intro k p
    unfold refDiv
    rw [Finset.mul_sum]
    congr 1
    apply Finset.sum_congr rfl
    intro d _
    split_ifs
    · rw [hall]; ring
    · ring
  -- new density
  let r' : Pos → ℝ := fun p => P.beta * (r p - dt * Δ p) + (1 - P.beta) * r0 p
  have hcons : ∀ p, (fun k => P.beta * (cur p).1 k + (1 - P.beta) * (base p).1 k + P.beta * dt * (refDiv nd P.dx (refAll nd P cur) k p + P.src p (cur p).2 k)) =
      (c.cell val G g (r' p)).1 := by
    intro p
    funext k
    rw [hr p, h0 p, hdiv]
    have hsrc : P.src p (c.cell val G g (r p)).2 k = 0 := hP.src p (r p) k (ha p) (hb p)
    rw [hsrc]
    have haff : ∀ x, (c.cell val G g x).1 k = (c.cell val G g m).1 k + g * (x - m) * slot (unitMass val G c) k := fun x => by
      show slot (ofCons (p2c val G g c.ye (c.prim x))) k = slot (ofCons (p2c val G g c.ye (c.prim m))) k + _
      rw [p2c_affine val g x m hB.lapse hB.pos, slot_sum, slot_scale]
    rw [haff (r p), haff (r0 p), haff (r' p)]
    show _ = _ + g * (P.beta * (r p - dt * Δ p) + (1 - P.beta) * r0 p - m) * _
    ring
  -- bounds
  obtain ⟨hdt0, hdt1⟩ := hdt
  set sg := ∑ d : Fin 3, if d.val < nd then S d / P.dx d else 0 with hsg
  have hφ : ∀ d p, |φ d p - G.alpha * drift G c d * (A - m)| ≤ 40 * δ * S d := fun d p => by
    have e : φ d p - G.alpha * drift G c d * (A - m) = ap d p * (rl d p - A) - am d p * (rr d p - A) := by
      rw [← p3 d p]; simp only [φ]; ring
    rw [e]
    refine (abs_sub _ _).trans ?_
    rw [abs_mul, abs_mul, abs_of_nonneg (p1 d p), abs_of_nonneg (p2 d p)]
    have a1 := mul_le_mul (p4 d p) (dl d p) (abs_nonneg _) ((p1 d p).trans (p4 d p))
    have a2 := mul_le_mul (p5 d p) (dr d p) (abs_nonneg _) ((p1 d p).trans (p4 d p))
    linarith
  have hΔ : ∀ p, |Δ p| ≤ 80 * δ * sg := by
    intro p
    rw [hsg, Finset.mul_sum]
    refine (Finset.abs_sum_le_sum_abs _ _).trans (Finset.sum_le_sum fun d _ => ?_)
    split_ifs
    · rw [abs_div, abs_of_pos (hP.width d), mul_div_assoc']
      refine div_le_div_of_nonneg_right ?_ (hP.width d).le
      have a := hφ d fun e => p e + unit d e
      have b := hφ d p
      rw [abs_le] at a b ⊢
      constructor <;> linarith
    · simp
  have hrA : ∀ p, |r' p - A| ≤ 41 * δ := by
    intro p
    obtain ⟨b0, b1⟩ := hP.weight
    have D : dt * |Δ p| ≤ 40 * δ := by
      have := mul_le_mul_of_nonneg_left (hΔ p) hdt0
      have := mul_le_mul_of_nonneg_left hdt1 (by linarith : 0 ≤ 40 * δ)
      linarith
    have e : r' p - A = P.beta * ((r p - A) - dt * Δ p) + (1 - P.beta) * (r0 p - A) := by simp only [r']; ring
    have x1 : |(r p - A) - dt * Δ p| ≤ 41 * δ := by
      refine (abs_sub _ _).trans ?_
      rw [abs_mul, abs_of_nonneg hdt0]
      linarith [dA p]
    rw [e]
    refine (abs_add_le _ _).trans ?_
    rw [abs_mul, abs_mul, abs_of_nonneg b0, abs_of_nonneg (by linarith : 0 ≤ 1 - P.beta)]
    have y1 := mul_le_mul_of_nonneg_left x1 b0
    have y2 := mul_le_mul_of_nonneg_left ((dA0 p).trans (by linarith : δ ≤ 41 * δ)) (by linarith : 0 ≤ 1 - P.beta)
    linarith
  have hr' : ∀ p, m ≤ r' p ∧ r' p ≤ M := fun p => inb _ (hrA p)
  have hup' : ∀ p, refUpdate nd P dt base cur p = c.cell val G g (r' p) := by
    intro p
    unfold refUpdate
    rw [hcons, hP.inv p _ (hr' p).1 (hr' p).2, hP.mid p _ (hr' p).1 (hr' p).2]
  have hrc : (fun q => (cur q).2 0) = r := by funext q; rw [hr q]; rfl
  have hrb : (fun q => (base q).2 0) = r0 := by funext q; rw [h0 q]; rfl
  have hcar : ∀ p, carried P nd dt (fun d => G.alpha * drift G c d) σ (fun q => (base q).2 0) (fun q => (cur q).2 0) p = r' p := by
    intro p
    rw [hrc, hrb]
    unfold carried
    simp only [r', Δ, φ]
    congr 2
    congr 2
    refine Finset.sum_congr rfl fun d _ => ?_
    split_ifs
    · congr 1
      show (ap d _ * rl d _ - am d _ * rr d _) - (ap d p * rl d p - am d p * rr d p) = _
      have a1 := p3 d p
      have a2 := p3 d fun e => p e + unit d e
      linear_combination m * (a2 - a1)
    · rfl
  refine ⟨σ, fun d x y hx hy => (hσ d x y hx hy).1, fun d p => ?_, fun p => ?_⟩
  · rw [hrc]; exact ⟨hrl d p, hrr d p⟩
  simp only [hcar]
  refine ⟨hrA _, ?_⟩
  unfold refFields
  simp only [hup']
  by_cases hw : wrap p = p
  · rw [if_pos hw, hP.inv p _ (hr' p).1 (hr' p).2, hw]
  · rw [if_neg hw, hP.bnd p _ (hr' _).1 (hr' _).2, hP.inv p _ (hr' _).1 (hr' _).2]

/-! ### Expansions to fourth order -/

/-- coefficient of the third derivative after a list of stages: the exact value of a scheme of third order is one sixth. -/
def twist (l : List ℝ) : ℝ := (l.foldl (fun a β => (β * (a.1 + 1), β * (a.2.1 + a.1), β * (a.2.2 + a.2.1))) ((0, 0, 0) : ℝ × ℝ × ℝ)).2.2

/-- **C158 (weights)**: `rk3` has the exact coefficient one sixth, `rk1`, `rk2` and `vl2` have not. -/
theorem twist_schemes : twist [1] = 0 ∧ twist [1, 1/2] = 0 ∧ twist [1, 1/4, 2/3] = 1/6 ∧ twist [1/2, 1] = 0 := by
  unfold twist
  simp only [List.foldl]
  norm_num

/-- a cubic profile moved by stages with coefficients `a b d`. -/
noncomputable def cub (f0 f1 f2 f3 θ a b d : ℝ) (h : ℝ) (k : ℝ) : ℝ :=
  f0 + f1 * (h * (k - a * θ)) + f2 * (h ^ 2 * (k ^ 2 / 2 - a * k * θ + b * θ ^ 2)) + f3 * (h ^ 3 * (k ^ 3 / 6 - a * (k ^ 2 / 2) * θ + b * k * θ ^ 2 - d * θ ^ 3))

/-- around cell `j` the values `r` are the third-order expansion of a profile. -/
def Near3 (f0 f1 f2 f3 θ a b d : ℝ) (h : ℕ → ℝ) (j : ℕ → ℤ) (r : ℕ → ℤ → ℝ) : Prop :=
  ∀ k : ℤ, (fun ν => r ν (j ν + k) - cub f0 f1 f2 f3 θ a b d (h ν) k) =O[atTop] fun ν => h ν ^ 4

section
variable {f0 f1 f2 f3 θ a b d : ℝ} {h : ℕ → ℝ} {j : ℕ → ℤ} {r r0 : ℕ → ℤ → ℝ}

theorem quad_bigO (h0 : Tendsto h atTop (𝓝 0)) (A B : ℝ) : (fun ν => A * h ν ^ 2 + B * h ν ^ 3) =O[atTop] fun ν => h ν ^ 2 :=
  ((isBigO_refl _ _).const_mul_left A).add ((Recon.pow_bigO h0 (by norm_num)).const_mul_left B)

theorem Near3.ramp (hr : Near3 f0 f1 f2 f3 θ a b d h j r) (h0 : Tendsto h atTop (𝓝 0)) (hf : f1 ≠ 0) (k : ℤ) :
    Recon.Ramp atTop h (fun ν => r ν (j ν + (k - 2))) (fun ν => r ν (j ν + (k - 1))) (fun ν => r ν (j ν + k)) (fun ν => r ν (j ν + (k + 1))) (fun ν => r ν (j ν + (k + 2))) f1 := by
  have E := hr
  have p2 : ∀ n : ℕ, 4 ≥ n → (fun ν => h ν ^ 4) =O[atTop] fun ν => h ν ^ n := fun n hn => Recon.pow_bigO h0 hn
  refine ⟨hf, ?_, ?_, ?_, ?_, ?_, ?_, ?_⟩
  · have := (((E (k + 1)).sub (E k)).trans (p2 2 (by norm_num))).add (quad_bigO h0 (f2 * ((k:ℝ) + 1/2 - a * θ)) (f3 * (((k:ℝ) ^ 2 / 2 + k / 2 + 1/6) - a * (k + 1/2) * θ + b * θ ^ 2)))
    refine this.congr_left fun ν => ?_
    unfold cub; push_cast; ring
  · have := ((((E (k - 2)).sub ((E (k - 1)).const_mul_left 2)).add (E k)).trans (p2 2 (by norm_num))).add (quad_bigO h0 f2 (f3 * ((k:ℝ) - 1 - a * θ)))
    refine this.congr_left fun ν => ?_
    unfold cub; push_cast; ring
  · have := ((((E (k - 1)).sub ((E k).const_mul_left 2)).add (E (k + 1))).trans (p2 2 (by norm_num))).add (quad_bigO h0 f2 (f3 * ((k:ℝ) - a * θ)))
    refine this.congr_left fun ν => ?_
    unfold cub; push_cast; ring
  · have := ((((E k).sub ((E (k + 1)).const_mul_left 2)).add (E (k + 2))).trans (p2 2 (by norm_num))).add (quad_bigO h0 f2 (f3 * ((k:ℝ) + 1 - a * θ)))
    refine this.congr_left fun ν => ?_
    unfold cub; push_cast; ring
  · have := (((((E (k + 1)).sub ((E k).const_mul_left 3)).add ((E (k - 1)).const_mul_left 3)).sub (E (k - 2))).trans (p2 3 (by norm_num))).add
      ((isBigO_refl (fun ν => h ν ^ 3) atTop).const_mul_left f3)
    refine this.congr_left fun ν => ?_
    unfold cub; push_cast; ring
  · have := (((((E (k + 2)).sub ((E (k + 1)).const_mul_left 3)).add ((E k).const_mul_left 3)).sub (E (k - 1))).trans (p2 3 (by norm_num))).add
      ((isBigO_refl (fun ν => h ν ^ 3) atTop).const_mul_left f3)
    refine this.congr_left fun ν => ?_
    unfold cub; push_cast; ring
  · have := (((((E (k + 2)).sub ((E (k + 1)).const_mul_left 4)).add ((E k).const_mul_left 6)).sub ((E (k - 1)).const_mul_left 4)).add (E (k - 2)))
    refine this.congr_left fun ν => ?_
    unfold cub; push_cast; ring

/-- value of a cubic profile on the face between cells `k - 1` and `k`, as the fifth-order formula gives it. -/
noncomputable def cubFace (f0 f1 f2 f3 θ a b d h : ℝ) (k : ℝ) : ℝ :=
  Recon.mp5High (cub f0 f1 f2 f3 θ a b d h (k - 3)) (cub f0 f1 f2 f3 θ a b d h (k - 2)) (cub f0 f1 f2 f3 θ a b d h (k - 1)) (cub f0 f1 f2 f3 θ a b d h k) (cub f0 f1 f2 f3 θ a b d h (k + 1))

/-- both face states of the two methods are those of the cubic profile, up to the fourth power. -/
theorem Near3.faces (hr : Near3 f0 f1 f2 f3 θ a b d h j r) (h0 : Tendsto h atTop (𝓝 0)) (hp : ∀ ν, 0 < h ν) (hf : f1 ≠ 0) {rt : Method} (hrt : rt = .weno5z ∨ rt = .mp5)
    {ew em : ℕ → ℝ} {C : ℝ} (he : ∀ ν, 0 < ew ν ∧ ew ν ≤ 1 ∧ 0 ≤ em ν) (hC : rt = .weno5z → ∀ ν, ew ν ≤ C * h ν ^ 2) (k : ℤ) :
    (fun ν => (kernel (ew ν) (em ν) rt fun i => r ν (j ν + (k - 1) + i)).1 - cubFace f0 f1 f2 f3 θ a b d (h ν) k) =O[atTop] (fun ν => h ν ^ 4) ∧
    (fun ν => (kernel (ew ν) (em ν) rt fun i => r ν (j ν + k + i)).2 - cubFace f0 f1 f2 f3 θ a b d (h ν) k) =O[atTop] (fun ν => h ν ^ 4) := by
  have R := fun k => hr.ramp h0 hf k
  have hpe : ∀ᶠ ν in atTop, 0 < h ν := Eventually.of_forall hp
  have low : ∀ k, (fun ν => Recon.mp5High (r ν (j ν + (k - 2))) (r ν (j ν + (k - 1))) (r ν (j ν + k)) (r ν (j ν + (k + 1))) (r ν (j ν + (k + 2))) - cubFace f0 f1 f2 f3 θ a b d (h ν) (k + 1)) =O[atTop] fun ν => h ν ^ 4 := fun k => by
    have := (((((hr (k - 2)).const_mul_left (2/60)).sub ((hr (k - 1)).const_mul_left (13/60))).add ((hr k).const_mul_left (47/60))).add ((hr (k + 1)).const_mul_left (27/60))).sub ((hr (k + 2)).const_mul_left (3/60))
    refine this.congr_left fun ν => ?_
    unfold cubFace Recon.mp5High cub
    push_cast
    ring
  have high : ∀ k, (fun ν => Recon.mp5High (r ν (j ν + (k + 2))) (r ν (j ν + (k + 1))) (r ν (j ν + k)) (r ν (j ν + (k - 1))) (r ν (j ν + (k - 2))) - cubFace f0 f1 f2 f3 θ a b d (h ν) k) =O[atTop] fun ν => h ν ^ 4 := fun k => by
    have := (((((hr (k + 2)).const_mul_left (2/60)).sub ((hr (k + 1)).const_mul_left (13/60))).add ((hr k).const_mul_left (47/60))).add ((hr (k - 1)).const_mul_left (27/60))).sub ((hr (k - 2)).const_mul_left (3/60))
    refine this.congr_left fun ν => ?_
    unfold cubFace Recon.mp5High cub
    push_cast
    ring
  have sh : ∀ ν (k i : ℤ), j ν + k + i = j ν + (k + i) := fun ν k i => by ring
  rcases hrt with rfl | rfl
  · have small : (fun ν => h ν ^ 5 + ew ν * h ν ^ 2) =O[atTop] fun ν => h ν ^ 4 := by
      refine (Recon.pow_bigO h0 (by norm_num)).add (IsBigO.of_bound C (Eventually.of_forall fun ν => ?_))
      have := (he ν).1
      have hpν := hp ν
      rw [Real.norm_of_nonneg (by positivity), Real.norm_of_nonneg (by positivity)]
      have := mul_le_mul_of_nonneg_right (hC rfl ν) (by positivity : 0 ≤ h ν ^ 2)
      refine this.trans_eq (by ring)
    have hee : ∀ᶠ ν in atTop, 0 < ew ν ∧ ew ν ≤ 1 := Eventually.of_forall fun ν => ⟨(he ν).1, (he ν).2.1⟩
    constructor
    · have := (((R (k - 1)).weno h0 hpe hee).trans small).add (low (k - 1))
      refine this.congr_left fun ν => ?_
      simp only [kernel, sh]
      rw [show k - 1 + -2 = k - 1 - 2 by ring, show k - 1 + -1 = k - 1 - 1 by ring, show k - 1 + 0 = k - 1 by ring]
      push_cast
      rw [sub_add_cancel]
      ring
    · have := (((R k).reverse.weno h0 hpe hee).trans small).add (high k)
      refine this.congr_left fun ν => ?_
      simp only [kernel, sh]
      rw [show k + -2 = k - 2 by ring, show k + -1 = k - 1 by ring, add_zero]
      rw [(Recon.recon_mirror (ew ν) (em ν) (r ν (j ν + (k - 2))) (r ν (j ν + (k - 1))) (r ν (j ν + k)) (r ν (j ν + (k + 1))) (r ν (j ν + (k + 2)))).2.1]
      simp only [Prod.fst_swap]
      ring
  · constructor
    · refine (low (k - 1)).congr' ?_ EventuallyEq.rfl
      filter_upwards [(R (k - 1)).mp5 h0 hpe] with ν hν
      simp only [kernel, sh, Recon.mp5]
      rw [show k - 1 + -2 = k - 1 - 2 by ring, show k - 1 + -1 = k - 1 - 1 by ring, show k - 1 + 0 = k - 1 by ring, hν _ (he ν).2.2]
      push_cast
      simp only [sub_add_cancel]
    · refine (high k).congr' ?_ EventuallyEq.rfl
      filter_upwards [(R k).reverse.mp5 h0 hpe] with ν hν
      simp only [kernel, sh, Recon.mp5]
      rw [show k + -2 = k - 2 by ring, show k + -1 = k - 1 by ring, add_zero, hν _ (he ν).2.2]

/-- a stage whose face states are those of the cubic profile keeps the expansion. -/
theorem Near3.stage (hr : Near3 f0 f1 f2 f3 θ a b d h j r) (hr0 : Near3 f0 f1 f2 f3 θ 0 0 0 h j r0)
    {w lam β S : ℝ} (hθ : θ = w * lam) (σ Lf Rf : ℕ → ℤ → ℝ) (hσ : ∀ ν i, |σ ν i| ≤ S)
    (hL : ∀ k : ℤ, (fun ν => Lf ν (j ν + k) - cubFace f0 f1 f2 f3 θ a b d (h ν) k) =O[atTop] fun ν => h ν ^ 4)
    (hR : ∀ k : ℤ, (fun ν => Rf ν (j ν + k) - cubFace f0 f1 f2 f3 θ a b d (h ν) k) =O[atTop] fun ν => h ν ^ 4) (r' : ℕ → ℤ → ℝ)
    (hr' : ∀ k, ∀ᶠ ν in atTop, let F := fun i => (w + σ ν i) * Lf ν i - σ ν i * Rf ν i
      r' ν (j ν + k) = β * (r ν (j ν + k) - lam * (F (j ν + (k + 1)) - F (j ν + k))) + (1 - β) * r0 ν (j ν + k)) :
    Near3 f0 f1 f2 f3 θ (β * (a + 1)) (β * (b + a)) (β * (d + b)) h j r' := by
  intro k
  have hs1 : ∀ i, (fun ν => σ ν (j ν + i)) =O[atTop] fun _ => (1:ℝ) := fun i =>
    IsBigO.of_bound S (Eventually.of_forall fun ν => by rw [norm_one, mul_one]; exact hσ ν _)
  have hD : ∀ i : ℤ, (fun ν => σ ν (j ν + i) * ((Lf ν (j ν + i) - cubFace f0 f1 f2 f3 θ a b d (h ν) i) - (Rf ν (j ν + i) - cubFace f0 f1 f2 f3 θ a b d (h ν) i))) =O[atTop] fun ν => h ν ^ 4 := fun i => by
    simpa using (hs1 i).mul ((hL i).sub (hR i))
  have total := ((((hr k).sub (((hL (k + 1)).sub (hL k)).const_mul_left θ)).sub (((hD (k + 1)).sub (hD k)).const_mul_left lam)).const_mul_left β).add ((hr0 k).const_mul_left (1 - β))
  refine total.congr' ?_ EventuallyEq.rfl
  filter_upwards [hr' k] with ν q
  simp only at q
  rw [q, hθ]
  unfold cubFace Recon.mp5High cub
  push_cast
  ring

end

/-! ### The step of the code -/

theorem line_window (r : Pos → ℝ) (i : ℤ) :
    (fun k : ℤ => r fun e => line i e + (k - 1) * unit 0 e) = (fun k => r (line (i - 1 + k))) ∧ (fun k : ℤ => r fun e => line i e + k * unit 0 e) = fun k => r (line (i + k)) := by
  constructor <;> funext k
  · rw [line_add]; congr 2; ring
  · rw [line_add]

/-- the carried density in one dimension, for any reconstruction. -/
theorem carried_any (P : Phys ℝ 11) (dt : ℝ) (a : Fin 3 → ℝ) (σ : Fin 3 → ℝ → ℝ → ℝ) (r0 r : Pos → ℝ) (i : ℤ) :
    let s := fun j => σ 0 (densL P r 0 (line j)) (densR P r 0 (line j))
    let F := fun j => (a 0 + s j) * densL P r 0 (line j) - s j * densR P r 0 (line j)
    carried P 1 dt a σ r0 r (line i) = P.beta * (r (line i) - dt / P.dx 0 * (F (i + 1) - F i)) + (1 - P.beta) * r0 (line i) := by
  intro s F
  unfold carried
  simp only
  rw [Fin.sum_univ_three]
  have e : (fun e => line i e + unit 0 e) = line (i + 1) := by rw [← line_add]; simp
  rw [e, if_pos (by decide), if_neg (by decide), if_neg (by decide)]
  simp only [F, s]
  ring

/-- a stage of the claim: method `rt`, cells of width `h`, steps of length `lam h`, and for WENO5-Z a regularising constant of the order of the square of the cell width. -/
structure HighStage (c : Surround) (sol : MeshRun.Solver) (small eps : ℝ) (val : Bool) (G : ADM ℝ) (g : ℝ) (L : Limits) (m M : ℝ) (S : Fin 3 → ℝ) (rt : Method) (C lam h : ℝ) (P : Phys ℝ 11) : Prop where
  smooth : SmoothStage c sol small eps val G g L m M P
  method : P.rt = rt
  size : P.dx 0 = h
  courant : HalfCourant 1 S P (lam * h)
  reg : rt = .weno5z → P.ew ≤ C * h ^ 2

section
variable {c : Surround} {sol : MeshRun.Solver} {small eps : ℝ} {val : Bool} {G : ADM ℝ} {g : ℝ} {L : Limits} {m M : ℝ} {S : Fin 3 → ℝ}

theorem IsContact.mono {X : Fields ℝ 11} {m' M' : ℝ} (h : IsContact c val G g m M X) (h1 : m' ≤ m) (h2 : M ≤ M') : IsContact c val G g m' M' X := fun p => by
  obtain ⟨ρ, a, b, e⟩ := h p
  exact ⟨ρ, h1.trans a, b.trans h2, e⟩

/-- one stage on the undivided domain, for a sequence of meshes. -/
theorem stage_high (hB : Background c sol eps G L m M S) {rt : Method} (hrt : rt = .weno5z ∨ rt = .mp5) {f0 f1 f2 f3 lam a b d β C A δ : ℝ} {h : ℕ → ℝ} {j : ℕ → ℤ}
    (h0 : Tendsto h atTop (𝓝 0)) (hp : ∀ ν, 0 < h ν) (hf : f1 ≠ 0) (P : ℕ → Phys ℝ 11) (hP : ∀ ν, HighStage c sol small eps val G g L m M S rt C lam (h ν) (P ν)) (hβ : ∀ ν, (P ν).beta = β)
    (wrap : ℕ → Pos → Pos) (hw : ∀ k : ℤ, ∀ᶠ ν in atTop, wrap ν (line (j ν + k)) = line (j ν + k)) (base cur : ℕ → Fields ℝ 11)
    (hb : ∀ ν, IsContact c val G g (A - δ) (A + δ) (base ν)) (hc : ∀ ν, IsContact c val G g (A - δ) (A + δ) (cur ν)) (hm : m ≤ A - spread * δ) (hM : A + spread * δ ≤ M)
    (N0 : Near3 f0 f1 f2 f3 (G.alpha * drift G c 0 * lam) 0 0 0 h j fun ν => dens (base ν)) (N1 : Near3 f0 f1 f2 f3 (G.alpha * drift G c 0 * lam) a b d h j fun ν => dens (cur ν)) :
    (∀ ν, IsContact c val G g (A - spread * δ) (A + spread * δ) (refFields 1 (wrap ν) (lam * h ν) (base ν) (cur ν) (P ν))) ∧
      Near3 f0 f1 f2 f3 (G.alpha * drift G c 0 * lam) (β * (a + 1)) (β * (b + a)) (β * (d + b)) h j fun ν => dens (refFields 1 (wrap ν) (lam * h ν) (base ν) (cur ν) (P ν)) := by
  have hst := fun ν => stage_band hB (P ν) (hP ν).smooth 1 (lam * h ν) (hP ν).courant (wrap ν) (base ν) (cur ν) A δ (hb ν) (hc ν) hm hM
  choose σ hσ hin hst using hst
  refine ⟨fun ν p => ?_, ?_⟩
  · obtain ⟨h1, h2⟩ := hst ν p
    rw [abs_le] at h1
    exact ⟨_, by linarith, by linarith, h2⟩
  set r : ℕ → Pos → ℝ := fun ν q => (cur ν q).2 0 with hr
  have fc := fun k => N1.faces h0 hp hf hrt (ew := fun ν => (P ν).ew) (em := fun ν => (P ν).em) (C := C) (fun ν => (hP ν).smooth.recon) (fun e ν => (hP ν).reg e) k
  have eL : ∀ ν i, densL (P ν) (r ν) 0 (line i) = (kernel (P ν).ew (P ν).em rt fun k => dens (cur ν) (i - 1 + k)).1 := fun ν i => by
    unfold densL; rw [(line_window (r ν) i).1, (hP ν).method]; rfl
  have eR : ∀ ν i, densR (P ν) (r ν) 0 (line i) = (kernel (P ν).ew (P ν).em rt fun k => dens (cur ν) (i + k)).2 := fun ν i => by
    unfold densR; rw [(line_window (r ν) i).2, (hP ν).method]; rfl
  refine N1.stage N0 (w := G.alpha * drift G c 0) (lam := lam) (β := β) (S := S 0) rfl
    (fun ν i => σ ν 0 (densL (P ν) (r ν) 0 (line i)) (densR (P ν) (r ν) 0 (line i))) (fun ν i => densL (P ν) (r ν) 0 (line i)) (fun ν i => densR (P ν) (r ν) 0 (line i))
    (fun ν i => ?_) (fun k => ?_) (fun k => ?_) _ fun k => ?_
  · have := hσ ν 0 _ _ (hin ν 0 (line i)).1 (hin ν 0 (line i)).2
    exact (abs_of_nonneg this.1).trans_le this.2.2.1
  · refine (fc k).1.congr_left fun ν => ?_
    rw [eL, show j ν + k - 1 = j ν + (k - 1) by ring]
  · refine (fc k).2.congr_left fun ν => ?_
    rw [eR]
  · filter_upwards [hw k] with ν hk
    have e := carried_any (P ν) (lam * h ν) (fun d => G.alpha * drift G c d) (σ ν) (fun q => (base ν q).2 0) (r ν) (j ν + k)
    unfold dens
    rw [(hst ν (line (j ν + k))).2, hk]
    show carried (P ν) 1 (lam * h ν) (fun d => G.alpha * drift G c d) (σ ν) (fun q => (base ν q).2 0) (r ν) (line (j ν + k)) = _
    rw [e, (hP ν).size, hβ, mul_div_cancel_right₀ _ (hp ν).ne']
    simp only [add_assoc]
    rfl

/-- all stages of a step. -/
theorem stages_high (hB : Background c sol eps G L m M S) {rt : Method} (hrt : rt = .weno5z ∨ rt = .mp5) {f0 f1 f2 f3 lam C A δ : ℝ} {h : ℕ → ℝ} {j : ℕ → ℤ} (h0 : Tendsto h atTop (𝓝 0)) (hp : ∀ ν, 0 < h ν)
    (hf : f1 ≠ 0) (hδ : 0 ≤ δ) (wrap : ℕ → Pos → Pos) (hw : ∀ k : ℤ, ∀ᶠ ν in atTop, wrap ν (line (j ν + k)) = line (j ν + k)) (base : ℕ → Fields ℝ 11)
    (hb : ∀ ν, IsContact c val G g (A - δ) (A + δ) (base ν)) (N0 : Near3 f0 f1 f2 f3 (G.alpha * drift G c 0 * lam) 0 0 0 h j fun ν => dens (base ν)) (l : List ℝ) :
    ∀ (Ps : ℕ → List (Phys ℝ 11)), (∀ ν, (Ps ν).map Phys.beta = l) → (∀ ν, ∀ P ∈ Ps ν, HighStage c sol small eps val G g L m M S rt C lam (h ν) P) →
    ∀ (cur : ℕ → Glob ℝ 11) (a b d δ' : ℝ), δ ≤ δ' → m ≤ A - spread ^ l.length * δ' → A + spread ^ l.length * δ' ≤ M → (∀ ν, IsContact c val G g (A - δ') (A + δ') (cur ν).1) →
      Near3 f0 f1 f2 f3 (G.alpha * drift G c 0 * lam) a b d h j (fun ν => dens (cur ν).1) →
      let q := l.foldl (fun a β => (β * (a.1 + 1), β * (a.2.1 + a.1), β * (a.2.2 + a.2.1))) (a, b, d)
      Near3 f0 f1 f2 f3 (G.alpha * drift G c 0 * lam) q.1 q.2.1 q.2.2 h j fun ν => dens ((Ps ν).foldl (refStage 1 (wrap ν) (lam * h ν) (base ν)) (cur ν)).1 := by
  induction l with
  | nil =>
    intro Ps hPs _ cur a b d δ' _ _ _ _ hN
    have : ∀ ν, Ps ν = [] := fun ν => List.map_eq_nil_iff.1 (hPs ν)
    simpa [this] using hN
  | cons β l ih =>
    intro Ps hPs hP cur a b d δ' hδ' hm hM hc hN
    have hd : ∀ ν, ∃ P Q, Ps ν = P :: Q ∧ P.beta = β ∧ Q.map Phys.beta = l := fun ν => by
      obtain ⟨P, Q, e1, e2, e3⟩ := List.map_eq_cons_iff.1 (hPs ν)
      exact ⟨P, Q, e1, e2, e3⟩
    choose P Q e1 e2 e3 using hd
    have hmem : ∀ ν, P ν ∈ Ps ν := fun ν => by rw [e1]; simp
    have pw : spread * δ' ≤ spread ^ (l.length + 1) * δ' := by
      refine mul_le_mul_of_nonneg_right ?_ (hδ.trans hδ')
      exact le_self_pow₀ (by unfold spread; norm_num) (by omega)
    rw [List.length_cons] at hm hM
    obtain ⟨c1, n1⟩ := stage_high (δ := δ') hB hrt h0 hp hf P (fun ν => hP ν _ (hmem ν)) e2 wrap hw base (fun ν => (cur ν).1)
      (fun ν => (hb ν).mono (by linarith) (by linarith)) hc (by linarith) (by linarith) N0 hN
    have es : spread ^ (l.length + 1) * δ' = spread ^ l.length * (spread * δ') := by ring
    have := ih Q e3 (fun ν P' h' => hP ν P' (by rw [e1]; exact List.mem_cons_of_mem _ h')) (fun ν => refStage 1 (wrap ν) (lam * h ν) (base ν) (cur ν) (P ν)) _ _ _ (spread * δ')
      (hδ'.trans (by unfold spread; linarith)) (by rw [← es]; exact hm) (by rw [← es]; exact hM) c1 n1
    simpa [e1] using this

theorem fold_twist (l : List ℝ) : ∀ a b d : ℝ, let q := l.foldl (fun a β => (β * (a.1 + 1), β * (a.2.1 + a.1), β * (a.2.2 + a.2.1))) ((a, b, d) : ℝ × ℝ × ℝ)
    (q.1, q.2.1) = l.foldl (fun a β => (β * (a.1 + 1), β * (a.2 + a.1))) (a, b) := by
  induction l with
  | nil => intro a b d; rfl
  | cons β l ih => intro a b d; simp only [List.foldl_cons]; exact ih _ _ _

/-- **C158**: a sequence of one-dimensional meshes with cell widths `h ν` tending to zero, cut into blocks in any way, with any schedule and memory contents and any boundary conditions; `x` is the centre of cell
`j ν`, which is eventually as many cells away from the boundary as one likes.  One step of length `lam h ν` with WENO5-Z or MP5 reconstruction, LLF or HLL and stage weights `l`, starting from a contact with
densities within `δ` of `A`, `δ` small, whose density around `x` is a smooth profile `f` that has a slope there.  Then the density of the cell is `f - a s f' + b s² f'' - d s³ f⁽³⁾` up to the fourth power of the
cell width, where `s` is the distance the matter moves and `a`, `b`, `d` the coefficients of the weights. -/
theorem step_high {B : ℕ → Type} (Gr : ∀ ν, Grid (B ν)) (gh : ℤ) (Dom : ℕ → Pos → Prop) (hT : ∀ ν, Tiles (Gr ν) 1 gh (Dom ν)) (est : Pos → (Fin 11 → ℝ) → (Fin 3 → ℝ × ℝ) → ℝ)
    (ctrl : ℕ → ℝ → Set ℝ → ℝ) (hg : 3 ≤ gh) (Ps : ℕ → List (Phys ℝ 11)) (l : List ℝ) (hl : ∀ ν, (Ps ν).map Phys.beta = l)
    (mem : ∀ ν, ℕ → ℕ → B ν → Mem ℝ 11) (ho : ∀ ν, Complete (Gr ν) (mem ν)) (hB : Background c sol eps G L m M S) {rt : Method} (hrt : rt = .weno5z ∨ rt = .mp5) {lam C : ℝ} {h : ℕ → ℝ}
    (h0 : Tendsto h atTop (𝓝 0)) (hp : ∀ ν, 0 < h ν) (hP : ∀ ν, ∀ P ∈ Ps ν, HighStage c sol small eps val G g L m M S rt C lam (h ν) P)
    (j : ℕ → ℤ) (hj : ∀ k : ℤ, ∀ᶠ ν in atTop, Dom ν (line (j ν + k))) {f : ℝ → ℝ} {x : ℝ} (hf4 : ContDiff ℝ 4 f) (hf : deriv f x ≠ 0) {A δ : ℝ} (hδ : 0 ≤ δ)
    (hm : m ≤ A - spread ^ l.length * δ) (hM : A + spread ^ l.length * δ ≤ M)
    (X : ∀ ν, Mesh ℝ 11 (B ν)) (Y : ℕ → Glob ℝ 11) (hX : ∀ ν, Holds (Gr ν) (X ν) (Y ν)) (hY : ∀ ν, IsContact c val G g (A - δ) (A + δ) (Y ν).1)
    (hdens : ∀ k : ℤ, ∀ᶠ ν in atTop, dens (Y ν).1 (j ν + k) = f (x + k * h ν)) :
    let ρ := fun ν => meshDens (Gr ν) (run (Gr ν) est ctrl (fun _ _ => Ps ν) (mem ν) 1 (X ν, lam * h ν)).1 (j ν)
    let s := fun ν => G.alpha * drift G c 0 * (lam * h ν)
    (fun ν => ρ ν - (f x - advance l * s ν * deriv f x + bend l * s ν ^ 2 * iteratedDeriv 2 f x - twist l * s ν ^ 3 * iteratedDeriv 3 f x)) =O[atTop] fun ν => h ν ^ 4 := by
  intro ρ s
  have hw : ∀ k : ℤ, ∀ᶠ ν in atTop, (Gr ν).wrap (line (j ν + k)) = line (j ν + k) := fun k => by
    filter_upwards [hj k] with ν hν using (hT ν).fixed _ hν
  have N0 : Near3 (f x) (deriv f x) (iteratedDeriv 2 f x) (iteratedDeriv 3 f x) (G.alpha * drift G c 0 * lam) 0 0 0 h j fun ν => dens (Y ν).1 := by
    intro k
    have tk : Tendsto (fun ν => (k:ℝ) * h ν) atTop (𝓝 0) := by simpa using h0.const_mul (k:ℝ)
    have T := (Recon.taylor_bigO 4 hf4 x).comp_tendsto tk
    have T' : (fun ν => f (x + k * h ν) - ∑ n ∈ Finset.range 4, Recon.taylorCoef f x n * (k * h ν) ^ n) =O[atTop] fun ν => h ν ^ 4 := by
      refine IsBigO.trans T ?_
      have : ((fun t : ℝ => t ^ 4) ∘ fun ν => (k:ℝ) * h ν) = fun ν => (k:ℝ) ^ 4 * h ν ^ 4 := by funext ν; simp only [Function.comp]; ring
      rw [this]
      exact (isBigO_refl _ _).const_mul_left _
    refine T'.congr' ?_ EventuallyEq.rfl
    filter_upwards [hdens k] with ν hν
    rw [hν]
    simp only [Finset.sum_range_succ, Finset.sum_range_zero, Recon.taylorCoef, iteratedDeriv_zero, iteratedDeriv_one, Nat.factorial]
    unfold cub
    push_cast
    ring
  have key := stages_high (small := small) hB hrt h0 hp hf hδ (fun ν => (Gr ν).wrap) hw (fun ν => (Y ν).1) hY N0 l Ps hl hP Y 0 0 0 δ le_rfl hm hM hY N0 0
  have ft := fold_twist l 0 0 0
  simp only [Prod.mk.injEq] at ft
  have ft1 : (l.foldl (fun a β => (β * (a.1 + 1), β * (a.2.1 + a.1), β * (a.2.2 + a.2.1))) ((0, 0, 0) : ℝ × ℝ × ℝ)).1 = advance l := by
    have := congrArg Prod.fst ft
    simp only at this
    rw [this, fold_advance]; rfl
  have ft2 : (l.foldl (fun a β => (β * (a.1 + 1), β * (a.2.1 + a.1), β * (a.2.2 + a.2.1))) ((0, 0, 0) : ℝ × ℝ × ℝ)).2.1 = bend l := by
    have := congrArg Prod.snd ft
    simp only at this
    rw [this]; rfl
  have ft3 : (l.foldl (fun a β => (β * (a.1 + 1), β * (a.2.1 + a.1), β * (a.2.2 + a.2.1))) ((0, 0, 0) : ℝ × ℝ × ℝ)).2.2 = twist l := rfl
  simp only [ft1, ft2, ft3] at key
  refine key.congr' ?_ EventuallyEq.rfl
  filter_upwards [hj 0] with ν hν
  rw [add_zero] at hν ⊢
  have A := (run_holds (Gr ν) 1 gh (Dom ν) (hT ν) est ctrl (fun _ _ => Ps ν) (by omega) (fun _ _ P h' => by
    rw [(hP ν P h').method]
    rcases hrt with rfl | rfl <;> simpa [radius] using hg) (mem ν) (ho ν) (X ν) (Y ν) (lam * h ν) (hX ν) 1).1.1
  have hEn := interior_entire _ (by rw [(hT ν).ghosts]; omega) _ ((hT ν).owned _ hν)
  have e : ρ ν = dens ((Ps ν).foldl (refStage 1 (Gr ν).wrap (lam * h ν) (Y ν).1) (Y ν)).1 (j ν) := by
    simp only [ρ, meshDens]
    rw [A _ _ hEn]
    simp only [sub_add_cancel]
    rfl
  rw [e]
  simp only [s]
  unfold cub
  push_cast
  ring

/-- **C158 (third order)**: with weights of a scheme of third order the error of the step is of the fourth power of the cell width; with weights of second order the error is that of the third derivative. -/
theorem step_third_order {B : ℕ → Type} (Gr : ∀ ν, Grid (B ν)) (gh : ℤ) (Dom : ℕ → Pos → Prop) (hT : ∀ ν, Tiles (Gr ν) 1 gh (Dom ν)) (est : Pos → (Fin 11 → ℝ) → (Fin 3 → ℝ × ℝ) → ℝ)
    (ctrl : ℕ → ℝ → Set ℝ → ℝ) (hg : 3 ≤ gh) (Ps : ℕ → List (Phys ℝ 11)) (l : List ℝ) (hl : ∀ ν, (Ps ν).map Phys.beta = l)
    (mem : ∀ ν, ℕ → ℕ → B ν → Mem ℝ 11) (ho : ∀ ν, Complete (Gr ν) (mem ν)) (hB : Background c sol eps G L m M S) {rt : Method} (hrt : rt = .weno5z ∨ rt = .mp5) {lam C : ℝ} {h : ℕ → ℝ}
    (h0 : Tendsto h atTop (𝓝 0)) (hp : ∀ ν, 0 < h ν) (hP : ∀ ν, ∀ P ∈ Ps ν, HighStage c sol small eps val G g L m M S rt C lam (h ν) P)
    (j : ℕ → ℤ) (hj : ∀ k : ℤ, ∀ᶠ ν in atTop, Dom ν (line (j ν + k))) {f : ℝ → ℝ} {x : ℝ} (hf4 : ContDiff ℝ 4 f) (hf : deriv f x ≠ 0) {A δ : ℝ} (hδ : 0 ≤ δ)
    (hm : m ≤ A - spread ^ l.length * δ) (hM : A + spread ^ l.length * δ ≤ M)
    (X : ∀ ν, Mesh ℝ 11 (B ν)) (Y : ℕ → Glob ℝ 11) (hX : ∀ ν, Holds (Gr ν) (X ν) (Y ν)) (hY : ∀ ν, IsContact c val G g (A - δ) (A + δ) (Y ν).1)
    (hdens : ∀ k : ℤ, ∀ᶠ ν in atTop, dens (Y ν).1 (j ν + k) = f (x + k * h ν)) :
    let ρ := fun ν => meshDens (Gr ν) (run (Gr ν) est ctrl (fun _ _ => Ps ν) (mem ν) 1 (X ν, lam * h ν)).1 (j ν)
    let w := G.alpha * drift G c 0
    (advance l = 1 → bend l = 1/2 → twist l = 1/6 → (fun ν => ρ ν - f (x - w * (lam * h ν))) =O[atTop] fun ν => h ν ^ 4) ∧
    (advance l = 1 → bend l = 1/2 → Tendsto (fun ν => (ρ ν - f (x - w * (lam * h ν))) / h ν ^ 3) atTop (𝓝 ((1/6 - twist l) * (w * lam) ^ 3 * iteratedDeriv 3 f x))) := by
  intro ρ w
  have key := step_high (small := small) Gr gh Dom hT est ctrl hg Ps l hl mem ho hB hrt h0 hp hP j hj hf4 hf hδ hm hM X Y hX hY hdens
  simp only at key
  have ts : Tendsto (fun ν => -(w * (lam * h ν))) atTop (𝓝 0) := by
    have := (h0.const_mul lam).const_mul w
    simpa using this.neg
  have T := (Recon.taylor_bigO 4 hf4 x).comp_tendsto ts
  have T' : (fun ν => f (x - w * (lam * h ν)) - (f x - deriv f x * (w * (lam * h ν)) + iteratedDeriv 2 f x * ((w * (lam * h ν)) ^ 2 / 2) - iteratedDeriv 3 f x * ((w * (lam * h ν)) ^ 3 / 6))) =O[atTop] fun ν => h ν ^ 4 := by
    have T1 : (fun ν => f (x - w * (lam * h ν)) - (f x - deriv f x * (w * (lam * h ν)) + iteratedDeriv 2 f x * ((w * (lam * h ν)) ^ 2 / 2) - iteratedDeriv 3 f x * ((w * (lam * h ν)) ^ 3 / 6))) =O[atTop] fun ν => (-(w * (lam * h ν))) ^ 4 := by
      refine T.congr (fun ν => ?_) fun ν => rfl
      simp only [Function.comp]
      rw [← sub_eq_add_neg]
      simp only [Finset.sum_range_succ, Finset.sum_range_zero, Recon.taylorCoef, iteratedDeriv_zero, iteratedDeriv_one, Nat.factorial]
      push_cast
      ring
    refine T1.trans ?_
    have : (fun ν => (-(w * (lam * h ν))) ^ 4) = fun ν => (w * lam) ^ 4 * h ν ^ 4 := by funext ν; ring
    rw [this]
    exact (isBigO_refl _ _).const_mul_left _
  have D : advance l = 1 → bend l = 1/2 → (fun ν => (ρ ν - f (x - w * (lam * h ν))) - (1/6 - twist l) * (w * lam) ^ 3 * iteratedDeriv 3 f x * h ν ^ 3) =O[atTop] fun ν => h ν ^ 4 := by
    intro ha hb
    refine (key.sub T').congr_left fun ν => ?_
    simp only [ρ, w, ha, hb]
    ring
  refine ⟨fun ha hb hd => ?_, fun ha hb => ?_⟩
  · refine (D ha hb).congr_left fun ν => ?_
    rw [hd]; ring
  · have : (fun ν => (ρ ν - f (x - w * (lam * h ν))) - (1/6 - twist l) * (w * lam) ^ 3 * iteratedDeriv 3 f x * h ν ^ 3) =o[atTop] fun ν => h ν ^ 3 := by
      refine (D ha hb).trans_isLittleO ?_
      have e : (fun ν => h ν ^ 4) = fun ν => h ν * h ν ^ 3 := by funext ν; ring
      rw [e]
      simpa using (isLittleO_one_iff ℝ).2 h0 |>.mul_isBigO (isBigO_refl (fun ν => h ν ^ 3) atTop)
    have := this.tendsto_div_nhds_zero.add_const ((1/6 - twist l) * (w * lam) ^ 3 * iteratedDeriv 3 f x)
    rw [zero_add] at this
    refine this.congr fun ν => ?_
    have hpν := (hp ν).ne'
    field_simp
    ring

end

/-! ### Example: a ripple moving at three fifths of the speed of light -/

/-- a smooth periodic density close to three halves. -/
noncomputable def ripple (x : ℝ) : ℝ := 3/2 + (Real.cos (2 * Real.pi * x) + Real.sin (2 * Real.pi * x)) / 10 ^ 6

theorem ripple_range (x : ℝ) : 3/2 - 2 / 10 ^ 6 ≤ ripple x ∧ ripple x ≤ 3/2 + 2 / 10 ^ 6 := by
  unfold ripple
  have a := Real.neg_one_le_cos (2 * Real.pi * x)
  have b := Real.cos_le_one (2 * Real.pi * x)
  have c := Real.neg_one_le_sin (2 * Real.pi * x)
  have d := Real.sin_le_one (2 * Real.pi * x)
  constructor <;> norm_num <;> linarith

theorem ripple_smooth : ContDiff ℝ 4 ripple := by
  unfold ripple
  have l : ContDiff ℝ 4 fun x : ℝ => 2 * Real.pi * x := contDiff_const.mul contDiff_id
  exact contDiff_const.add (((Real.contDiff_cos.comp l).add (Real.contDiff_sin.comp l)).div_const _)

theorem ripple_deriv : deriv ripple (1/2) = -(2 * Real.pi) / 10 ^ 6 ∧ iteratedDeriv 3 ripple (1/2) = (2 * Real.pi) ^ 3 / 10 ^ 6 := by
  have l : ∀ y : ℝ, HasDerivAt (fun y => 2 * Real.pi * y) (2 * Real.pi) y := fun y => by simpa using (hasDerivAt_id y).const_mul (2 * Real.pi)
  have d1 : deriv ripple = fun y => 2 * Real.pi / 10 ^ 6 * (Real.cos (2 * Real.pi * y) - Real.sin (2 * Real.pi * y)) := by
    funext y
    exact (((((l y).cos.add (l y).sin).div_const (10 ^ 6)).const_add (3/2)).congr_deriv (by ring)).deriv
  have d2 : deriv (deriv ripple) = fun y => -((2 * Real.pi) ^ 2 / 10 ^ 6 * (Real.cos (2 * Real.pi * y) + Real.sin (2 * Real.pi * y))) := by
    rw [d1]; funext y
    exact ((((l y).cos.sub (l y).sin).const_mul (2 * Real.pi / 10 ^ 6)).congr_deriv (by ring)).deriv
  have d3 : deriv (deriv (deriv ripple)) = fun y => (2 * Real.pi) ^ 3 / 10 ^ 6 * (Real.sin (2 * Real.pi * y) - Real.cos (2 * Real.pi * y)) := by
    rw [d2]; funext y
    exact ((((l y).cos.add (l y).sin).const_mul ((2 * Real.pi) ^ 2 / 10 ^ 6)).neg.congr_deriv (by ring)).deriv
  have half : 2 * Real.pi * (1/2) = Real.pi := by ring
  constructor
  · rw [d1]; simp only [half, Real.cos_pi, Real.sin_pi]; ring
  · rw [iteratedDeriv_succ, iteratedDeriv_succ, iteratedDeriv_one, d3]; simp only [half, Real.cos_pi, Real.sin_pi]; ring

/-- a stage of the example: as `hatStage`, with method `rt` and a regularising constant `h²`. -/
noncomputable def rippleStage (rt : Method) (β h : ℝ) : Phys ℝ 11 :=
  codePhys .llf 0 (1/1000) true (fun _ _ => exLim) (fun _ _ => C2P.flat) (fun _ _ => C2P.flat.alpha * 1) (fun _ _ => 1)
    ⟨β, h ^ 2, 1 / 10 ^ 10, rt, fun _ _ _ _ _ => 0, fun _ _ _ _ => 0, fun _ _ F => F, fun _ _ _ => 0,
      fun _ u => (u, exSur.prims (u 0 / (1 * lorentz C2P.flat.gam exSur.v))), fun _ x => x, none, fun _ => h, fun _ x => x, fun _ _ _ _ => 0⟩

theorem ripple_stage (rt : Method) (β h : ℝ) (hh : 0 < h) (h1 : h ≤ 1) (hβ : 0 ≤ β ∧ β ≤ 1) :
    HighStage exSur .llf 0 (1/1000) true C2P.flat 1 exLim 1 2 (fun _ => 2) rt 1 (1/20) h (rippleStage rt β h) := by
  refine ⟨⟨⟨_, rfl⟩, Or.inl rfl, ⟨?_, ?_, ?_⟩, hβ, fun d => hh, fun _ _ _ => rfl, fun _ _ _ _ => rfl, fun _ _ _ _ _ => rfl, ex_stage.inv, fun _ _ _ _ => rfl, fun _ _ _ _ => rfl⟩, rfl, rfl, ?_, fun _ => ?_⟩
  · show 0 < h ^ 2
    positivity
  · show h ^ 2 ≤ 1
    exact pow_le_one₀ hh.le h1
  · show (0:ℝ) ≤ 1 / 10 ^ 10
    norm_num
  · refine ⟨by positivity, ?_⟩
    rw [Fin.sum_univ_three, if_pos (by decide), if_neg (by decide), if_neg (by decide)]
    show 2 * (1/20 * h) * (2 / h + 0 + 0) ≤ 1
    field_simp
    norm_num
  · show h ^ 2 ≤ 1 * h ^ 2
    linarith

/-- the mesh of the example: the unit interval in `nb` blocks of `nx` cells with three ghosts, periodic. -/
def rippleGrid (nb nx : ℕ) [NeZero nb] : Grid ((d : Fin 3) → Fin ((![nb, 1, 1] : Fin 3 → ℕ) d)) :=
  haveI : ∀ d, NeZero ((![nb, 1, 1] : Fin 3 → ℕ) d) := fun d => by fin_cases d <;> simp <;> infer_instance
  regular 1 3 ![nb, 1, 1] ![nx, 1, 1] (wrapPeriodic fun d => (![nb, 1, 1] : Fin 3 → ℕ) d * (![nx, 1, 1] : Fin 3 → ℕ) d)

/-- start of the example. -/
noncomputable def rippleStart (nb nx : ℕ) [NeZero nb] : Mesh ℝ 11 ((d : Fin 3) → Fin ((![nb, 1, 1] : Fin 3 → ℕ) d)) :=
  (fun i q => exSur.cell true C2P.flat 1 (ripple (1 / ((nb * nx : ℕ) : ℝ) * (((q 0 + (rippleGrid nb nx).off i 0 : ℤ) : ℝ) + 1/2))), fun _ _ _ => 0)

/-- **C158 (concrete)**: the unit interval in `2 ν + 1` cells, cut into blocks of equal size in any way, periodic, time steps of one twentieth of a cell, WENO5-Z or MP5.  After a step the error in the middle cell is of
the fourth power of the cell width with `rk3`; with `rk2` it is not: divided by the third power it tends to a nonzero number. -/
theorem ex_high (rt : Method) (hrt : rt = .weno5z ∨ rt = .mp5) (nb nx : ℕ → ℕ) [∀ ν, NeZero (nb ν)] (hN : ∀ ν, nb ν * nx ν = 2 * ν + 1) (l : List ℝ) (hl : l = [1, 1/2] ∨ l = [1, 1/4, 2/3])
    (est : Pos → (Fin 11 → ℝ) → (Fin 3 → ℝ × ℝ) → ℝ) (ctrl : ℕ → ℝ → Set ℝ → ℝ)
    (mem : ∀ ν, ℕ → ℕ → ((d : Fin 3) → Fin ((![nb ν, 1, 1] : Fin 3 → ℕ) d)) → Mem ℝ 11) (ho : ∀ ν, Complete (rippleGrid (nb ν) (nx ν)) (mem ν)) :
    let h := fun ν : ℕ => 1 / (2 * (ν : ℝ) + 1)
    let ρ := fun ν => meshDens (rippleGrid (nb ν) (nx ν))
      (run (rippleGrid (nb ν) (nx ν)) est ctrl (fun _ _ => l.map fun β => rippleStage rt β (h ν)) (mem ν) 1 (rippleStart (nb ν) (nx ν), 1/20 * h ν)).1 ν
    (l = [1, 1/4, 2/3] → (fun ν => ρ ν - ripple (1/2 - 3/5 * (1/20 * h ν))) =O[atTop] fun ν => h ν ^ 4) ∧
    (l = [1, 1/2] → Tendsto (fun ν => (ρ ν - ripple (1/2 - 3/5 * (1/20 * h ν))) / h ν ^ 3) atTop (𝓝 (36 * Real.pi ^ 3 / 10 ^ 12))) := by
  intro h ρ
  have hp : ∀ ν, 0 < h ν := fun ν => by positivity
  have hle : ∀ ν, h ν ≤ 1 := fun ν => by
    simp only [h]
    rw [div_le_one (by positivity)]
    have : (0:ℝ) ≤ ν := Nat.cast_nonneg ν
    linarith
  have h0 : Tendsto h atTop (𝓝 0) := by
    have : Tendsto (fun ν : ℕ => 2 * (ν : ℝ) + 1) atTop atTop :=
      tendsto_atTop_add_const_right _ _ (tendsto_natCast_atTop_atTop.const_mul_atTop (by norm_num))
    have e : h = (fun ν : ℕ => 2 * (ν : ℝ) + 1)⁻¹ := by funext ν; simp [h]
    rw [e]; exact this.inv_tendsto_atTop
  have hd : C2P.flat.alpha * drift C2P.flat exSur 0 = 3/5 := by
    unfold drift; rw [ex_lorentz]; norm_num [C2P.flat, exSur]
  have hβ : ∀ β ∈ l, 0 ≤ β ∧ β ≤ 1 := by
    intro β hβ
    rcases hl with rfl | rfl <;> simp at hβ <;> rcases hβ with rfl | rfl | rfl <;> norm_num
  have hlen : spread ^ l.length * (2 / 10 ^ 6) ≤ 1/2 := by
    unfold spread
    rcases hl with rfl | rfl <;> norm_num
  have inst : ∀ ν d, NeZero ((![nb ν, 1, 1] : Fin 3 → ℕ) d) := fun ν d => by fin_cases d <;> simp <;> infer_instance
  have hxs : ∀ ν d, 0 < (![nx ν, 1, 1] : Fin 3 → ℕ) d := fun ν d => by
    have : 0 < nx ν := Nat.pos_of_ne_zero fun h => by have := hN ν; rw [h] at this; omega
    fin_cases d <;> simp [this]
  have hpos : ∀ ν d, 0 < (![nb ν, 1, 1] : Fin 3 → ℕ) d * (![nx ν, 1, 1] : Fin 3 → ℕ) d := fun ν d => Nat.mul_pos (Nat.pos_of_ne_zero (inst ν d).out) (hxs ν d)
  have TT := fun ν => @regular_tiles 1 3 ![nb ν, 1, 1] ![nx ν, 1, 1] (inst ν) (hxs ν) (fun d hd => by fin_cases d <;> simp at hd ⊢) _ (wrapPeriodic_box _ (hpos ν))
  have hNh : ∀ ν, 1 / ((nb ν * nx ν : ℕ) : ℝ) = h ν := fun ν => by rw [hN]; simp only [h]; push_cast; rfl
  have key := step_third_order (small := 0) (fun ν => rippleGrid (nb ν) (nx ν)) 3 _ TT est ctrl le_rfl (fun ν => l.map fun β => rippleStage rt β (h ν)) l
    (fun ν => by rw [List.map_map]; exact (List.map_congr_left fun β _ => rfl).trans (List.map_id l)) mem ho ex_background hrt (lam := 1/20) (C := 1) h0 hp
    (fun ν P hP => by
      obtain ⟨β, hb, rfl⟩ := List.mem_map.1 hP
      exact ripple_stage rt β (h ν) (hp ν) (hle ν) (hβ β hb))
    (fun ν => (ν : ℤ)) (fun k => by
      filter_upwards [eventually_ge_atTop k.natAbs] with ν hν d
      fin_cases d
      · simp only [line]
        have e : ((![nb ν, 1, 1] : Fin 3 → ℕ) 0 * (![nx ν, 1, 1] : Fin 3 → ℕ) 0 : ℕ) = 2 * ν + 1 := hN ν
        constructor
        · simp; omega
        · show (ν : ℤ) + k < (((![nb ν, 1, 1] : Fin 3 → ℕ) 0 * (![nx ν, 1, 1] : Fin 3 → ℕ) 0 : ℕ) : ℤ)
          rw [e]; push_cast; omega
      · simp [line]
      · simp [line])
    (x := 1/2) ripple_smooth (by rw [ripple_deriv.1]; exact div_ne_zero (neg_ne_zero.2 (by positivity)) (by norm_num)) (A := 3/2) (δ := 2 / 10 ^ 6) (by norm_num) (by linarith) (by linarith)
    (fun ν => rippleStart (nb ν) (nx ν)) (fun ν => (fun p => exSur.cell true C2P.flat 1 (ripple (h ν * ((p 0 : ℝ) + 1/2))), fun _ _ => 0))
    (fun ν => ⟨fun i q _ => by simp only [rippleStart]; rw [hNh], fun _ _ _ _ => rfl⟩) (fun ν p => ⟨_, (ripple_range _).1, (ripple_range _).2, rfl⟩)
    (fun k => Eventually.of_forall fun ν => by
      show ripple _ = ripple _
      congr 1
      simp only [line, h]
      push_cast
      have : (0:ℝ) < 2 * (ν : ℝ) + 1 := by positivity
      field_simp
      ring)
  simp only [hd] at key
  obtain ⟨k1, k2⟩ := key
  refine ⟨fun e => ?_, fun e => ?_⟩
  · subst e
    exact k1 advance_schemes.2.2.1 bend_schemes.2.2.1 twist_schemes.2.2.1
  · subst e
    have := k2 advance_schemes.2.1 bend_schemes.2.1
    rw [twist_schemes.2.1, ripple_deriv.2] at this
    convert this using 2
    ring

end Phoebus.Step
