import Verif.Step.RadSolution
import Verif.Step.RadFlux
import Verif.Step.Truncation
import Verif.Closure.M1

/-!
# The radiation fluxes of the program are consistent with the moment equations (C153)

A smooth radiation field, sampled at the cell centres, in smooth gas and a smooth spacetime: as the cells shrink, the rate of change the program computes from its radiation
fluxes - reconstruction, blend of the free-streaming and the diffusion flux - tends to minus the divergence of the fluxes of the moment equations.
-/
namespace Phoebus.Step
open FluxSweep Geom Filter Topology Set
open Closure (Vec Tens2 prim2con vvPi conVPi covVPi cc)
open Moments (Side Bounds Face)

/-! ### Specification -/

/-- a projected pressure tensor from metric, velocity, energy density and flux: `GetConTilPiFromPrim` of a closure. -/
abbrev TilPi := ADM ℝ → Vec → ℝ → Vec → Tens2

/-- energy (component 0) and momentum of species `s`. -/
def comp (x : ℝ × Vec) (m : Fin 4) : ℝ := (Fin.cons x.1 x.2 : Fin 4 → ℝ) m

/-- the variables of species `s` in the primitives of a cell; `sel` tells where they are stored. -/
def radSide {N : ℕ} (nspec : ℕ) (sel : Fin (4 * nspec + 3) → Fin N) (s : ℕ) (u : Fin N → ℝ) : Side :=
  RadSweep.sideOf nspec (fun n => if h : n < 4 * nspec + 3 then u (sel ⟨n, h⟩) else 0) s

/-- the radiation field the primitives stand for: the velocity divided by its Lorentz factor, energy density, energy density times the stored ratio, the pressure tensor of the closure. -/
noncomputable def fieldOf {Z : Type} (tp : TilPi) (G : Z → ADM ℝ) (S : Z → Side) : RadField Z where
  v z := Moments.threeVel (G z) (S z).vp
  J z := (S z).J
  H z := fun i => (S z).J * (S z).h i
  Pi z := tp (G z) (Moments.threeVel (G z) (S z).vp) (S z).J fun i => (S z).J * (S z).h i

/-- the setting at `x0`, for one species: smooth geometry and state, velocity below the cap of the closures, closure smooth at the state and bounded for every flux,
opacities nonnegative and bounded, the bounds of the reconstruction (if on) not reached. -/
structure SmoothRadAt {N : ℕ} (tp : TilPi) (G : Coord → ADM ℝ) (B : Coord → Bounds) (kap : Coord → (Fin N → ℝ) → ℝ) (side : (Fin N → ℝ) → Side) (q : Coord → Fin N → ℝ)
    (x0 : Coord) : Prop where
  geom : SmoothGeom G x0
  valid : ∀ x, (G x).Valid
  lapse : ∀ x, 0 < (G x).alpha
  pos : ∀ x, Rel.PosDef (G x)
  state : DifferentiableAt ℝ q x0
  slow : (G x0).dot3 (Moments.threeVel (G x0) (side (q x0)).vp) (Moments.threeVel (G x0) (side (q x0)).vp) < 0.9999
  closure : ∀ i j, DifferentiableAt ℝ (fun z : Coord × (Fin N → ℝ) => (fieldOf tp (fun z => G z.1) fun z => side z.2).Pi z i j) (x0, q x0)
  bounded : ∃ C, ∀ᶠ z : Coord × (Fin N → ℝ) in 𝓝 (x0, q x0), ∀ H i j, |tp (G z.1) (Moments.threeVel (G z.1) (side z.2).vp) (side z.2).J H i j| ≤ C
  opacity : ∃ K, ∀ᶠ z : Coord × (Fin N → ℝ) in 𝓝 (x0, q x0), 0 ≤ kap z.1 z.2 ∧ kap z.1 z.2 ≤ K
  inside : ∀ᶠ z : Coord × (Fin N → ℝ) in 𝓝 (x0, q x0), (B z.1).on = true → Rel.lorentz (G z.1).gam (side z.2).vp ≤ (B z.1).Wc ∧ (B z.1).Jfloor ≤ (side z.2).J ∧
    Moments.sideXi (G z.1) (B z.1) (side z.2) ≤ (B z.1).xiMax

/-- geometry and bounds of the faces, for cells of widths `h·w`. -/
noncomputable def faceGeo (G : Coord → ADM ℝ) (B : Coord → Bounds) (x0 w : Coord) (p0 : Pos) (h : ℝ) : Fin 3 → Pos → RadSweep.FaceGeom := fun d p =>
  let y := faceCentre x0 w p0 h d p
  ⟨G y, rootGam (G y), h * w d * √((G y).gam d d), B y⟩

/-- the radiation fluxes of the program on cells of widths `h·w`. -/
noncomputable def radRefined {N : ℕ} (small SMALL kmin : ℝ) (tp : TilPi) (G : Coord → ADM ℝ) (B : Coord → Bounds) (nspec : ℕ) (sel : Fin (4 * nspec + 3) → Fin N)
    (kap : Coord → (Fin N → ℝ) → Fin nspec → ℝ) (nd : ℕ) (x0 w : Coord) (p0 : Pos) (P : Phys ℝ N) (h : ℝ) : Phys ℝ N :=
  { P with
    dx := fun d => h * w d
    rad := codeRad P.ew P.em P.rt nd (fun d => h * w d) small SMALL kmin tp (faceGeo G B x0 w p0 h) nspec sel (fun s => ⟨s, by omega⟩) fun p u => kap (centre x0 w p0 h p) u }

/-! ### Bounded functions -/

/-- bounded along a filter. -/
def Bdd {ι : Type} (l : Filter ι) (f : ι → ℝ) : Prop := ∃ C, ∀ᶠ h in l, |f h| ≤ C

section
variable {ι : Type} {l : Filter ι} {f g : ι → ℝ}

theorem Bdd.of_tendsto {c : ℝ} (h : Tendsto f l (𝓝 c)) : Bdd l f :=
  ⟨|c| + 1, (h.abs.eventually (gt_mem_nhds (lt_add_one |c|))).mono fun _ hx => le_of_lt hx⟩

theorem Bdd.const (c : ℝ) : Bdd l fun _ => c := ⟨|c|, Eventually.of_forall fun _ => le_rfl⟩

theorem Bdd.add (hf : Bdd l f) (hg : Bdd l g) : Bdd l fun h => f h + g h := by
  obtain ⟨C, hC⟩ := hf
  obtain ⟨D, hD⟩ := hg
  exact ⟨C + D, hC.mp (hD.mono fun h a b => (abs_add_le _ _).trans (add_le_add b a))⟩

theorem Bdd.neg (hf : Bdd l f) : Bdd l fun h => -f h := by
  obtain ⟨C, hC⟩ := hf
  exact ⟨C, hC.mono fun h a => by rwa [abs_neg]⟩

theorem Bdd.sub (hf : Bdd l f) (hg : Bdd l g) : Bdd l fun h => f h - g h := by
  simpa only [sub_eq_add_neg] using hf.add hg.neg

theorem Bdd.mul (hf : Bdd l f) (hg : Bdd l g) : Bdd l fun h => f h * g h := by
  obtain ⟨C, hC⟩ := hf
  obtain ⟨D, hD⟩ := hg
  refine ⟨C * D, hC.mp (hD.mono fun h a b => ?_)⟩
  rw [abs_mul]
  exact mul_le_mul b a (abs_nonneg _) ((abs_nonneg _).trans b)

theorem Bdd.larger (hf : Bdd l f) (hg : Bdd l g) : Bdd l fun h => max (f h) (g h) := by
  obtain ⟨C, hC⟩ := hf
  obtain ⟨D, hD⟩ := hg
  refine ⟨max C D, hC.mp (hD.mono fun h a b => ?_)⟩
  exact (abs_max_le_max_abs_abs).trans (max_le_max b a)

theorem Bdd.size (hf : Bdd l f) : Bdd l fun h => |f h| := by
  obtain ⟨C, hC⟩ := hf
  exact ⟨C, hC.mono fun h a => by rwa [abs_abs]⟩

theorem Bdd.sum {α : Type} (s : Finset α) {f : α → ι → ℝ} (hf : ∀ a ∈ s, Bdd l (f a)) : Bdd l fun h => ∑ a ∈ s, f a h := by
  classical
  induction s using Finset.induction_on with
  | empty => simpa using Bdd.const (l := l) 0
  | insert a s ha ih =>
    simp only [Finset.sum_insert ha]
    exact (hf a (Finset.mem_insert_self a s)).add (ih fun b hb => hf b (Finset.mem_insert_of_mem hb))

theorem Bdd.congr (hf : Bdd l f) (h : f =ᶠ[l] g) : Bdd l g := by
  obtain ⟨C, hC⟩ := hf
  exact ⟨C, hC.mp (h.mono fun x e a => by rwa [← e])⟩

theorem Bdd.mul_zero (hf : Bdd l f) (hg : Tendsto g l (𝓝 0)) : Tendsto (fun h => g h * f h) l (𝓝 0) := by
  obtain ⟨C, hC⟩ := hf
  have h1 : Tendsto (fun h => |g h| * C) l (𝓝 0) := by simpa using hg.abs.mul_const C
  refine squeeze_zero_norm' (hC.mono fun h a => ?_) h1
  rw [Real.norm_eq_abs, abs_mul]
  exact mul_le_mul_of_nonneg_left a (abs_nonneg _)

end

/-- the share of the diffusion flux at a face falls off faster than the square of the cell width. -/
theorem one_sub_tanh {x : ℝ} (hx : 0 < x) : 0 ≤ 1 - Real.tanh x ∧ 1 - Real.tanh x ≤ 1 / x ^ 2 := by
  have hc := Real.cosh_pos x
  have e : 1 - Real.tanh x = Real.exp (-x) / Real.cosh x := by
    rw [Real.tanh_eq_sinh_div_cosh, ← Real.cosh_sub_sinh]; field_simp
  rw [e]
  refine ⟨by positivity, ?_⟩
  rw [div_le_div_iff₀ hc (by positivity)]
  have h1 : Real.exp (-x) * x ^ 2 ≤ 1 * (Real.exp x / 2) := by
    have h2 : (2 * x) ^ 2 / 2 ≤ Real.exp (2 * x) := by
      have := Real.quadratic_le_exp_of_nonneg (x := 2 * x) (by positivity)
      nlinarith
    have h3 : Real.exp (2 * x) * Real.exp (-x) = Real.exp x := by rw [← Real.exp_add]; ring_nf
    have h4 := Real.exp_pos (-x)
    nlinarith
  have h5 : Real.exp x / 2 ≤ Real.cosh x := by
    rw [Real.cosh_eq]; have := Real.exp_pos (-x); linarith
  linarith

theorem peclet_limit {small kap dx : ℝ → ℝ} {C : ℝ} (hs : ∀ᶠ h in 𝓝[>] 0, 0 < small h ∧ small h ≤ h) (hk : ∀ᶠ h in 𝓝[>] 0, |kap h * dx h| ≤ C * h) :
    Tendsto (fun h => (1 - Timestep.peclet (small h) (kap h) (dx h)) / h) (𝓝[>] 0) (𝓝 0) := by
  have h1 : Tendsto (fun h : ℝ => (C + 1) ^ 2 * h) (𝓝[>] 0) (𝓝 0) := by
    have : Tendsto (fun h : ℝ => (C + 1) ^ 2 * h) (𝓝 0) (𝓝 ((C + 1) ^ 2 * 0)) := tendsto_id.const_mul _
    rw [mul_zero] at this
    exact this.mono_left nhdsWithin_le_nhds
  refine squeeze_zero_norm' ?_ h1
  filter_upwards [hs, hk, self_mem_nhdsWithin] with h a b (hh : 0 < h)
  set y := |kap h * dx h| ^ 1 + small h with hy
  have y0 : 0 < y := by have := abs_nonneg (kap h * dx h); rw [hy, pow_one]; linarith [a.1]
  have y1 : y ≤ (C + 1) * h := by rw [hy, pow_one]; linarith [a.2]
  have e : Timestep.peclet (small h) (kap h) (dx h) = Real.tanh (1 / y) := by
    unfold Timestep.peclet Robust.ratio
    simp only [if_pos (pow_nonneg (abs_nonneg (kap h * dx h)) 1), one_mul, hy]
  rw [e]
  obtain ⟨t0, t1⟩ := one_sub_tanh (x := 1 / y) (by positivity)
  rw [Real.norm_of_nonneg (by positivity), div_le_iff₀ hh]
  have : 1 / (1 / y) ^ 2 = y ^ 2 := by field_simp
  rw [this] at t1
  nlinarith

/-! ### The fluxes as functions of the state -/

/-- flux of energy and momentum without the determinant. -/
noncomputable def radF {Z : Type} (G : Z → ADM ℝ) (R : RadField Z) (d : Fin 3) (z : Z) (m : Fin 4) : ℝ :=
  comp ((Closure.fluxes false (G z) (R.v z) (R.Pi z) (R.J z) (R.H z)).1 d - (G z).beta d * (prim2con false (G z) (R.v z) (R.Pi z) (R.J z) (R.H z)).1,
    fun i => (Closure.fluxes false (G z) (R.v z) (R.Pi z) (R.J z) (R.H z)).2 d i - (G z).beta d * (prim2con false (G z) (R.v z) (R.Pi z) (R.J z) (R.H z)).2 i) m

/-- energy and momentum without the determinant. -/
noncomputable def radU {Z : Type} (G : Z → ADM ℝ) (R : RadField Z) (z : Z) (m : Fin 4) : ℝ := comp (prim2con false (G z) (R.v z) (R.Pi z) (R.J z) (R.H z)) m

theorem radPhys_comp {Z : Type} (G : Z → ADM ℝ) (R : RadField Z) (d : Fin 3) (z : Z) (m : Fin 4) : comp (radPhys G R d z) m = rootGam (G z) * radF G R d z m := by
  refine Fin.cases ?_ (fun i => ?_) m <;> simp [comp, radPhys, radF]

section
variable {Z : Type} [NormedAddCommGroup Z] [NormedSpace ℝ Z] {G : Z → ADM ℝ} {R : RadField Z} {z : Z}

theorem covVPi_diff (hG : SmoothGeom G z) (hR : SmoothRad G R z) (i : Fin 3) : DifferentiableAt ℝ (fun y => covVPi (G y) (R.v y) (R.Pi y) i) z :=
  lowerV_diff hG (fun y => conVPi (G y) (R.v y) (R.Pi y)) (conVPi_diff hG hR) i

theorem prim2con_diff (hG : SmoothGeom G z) (hR : SmoothRad G R z) :
    DifferentiableAt ℝ (fun y => (prim2con false (G y) (R.v y) (R.Pi y) (R.J y) (R.H y)).1) z ∧ ∀ i, DifferentiableAt ℝ (fun y => (prim2con false (G y) (R.v y) (R.Pi y) (R.J y) (R.H y)).2 i) z := by
  have hW := W_diff hG hR
  have hv := vvPi_diff hG hR
  have hc := cc_diff R.v R.H hR.v hR.H
  have hl := lowerV_diff hG R.v hR.v
  have hJ := hR.J
  have hH := hR.H
  have hq := covVPi_diff hG hR
  constructor
  · simp only [prim2con, Closure.W2, Bool.false_eq_true, if_false]
    fun_prop
  · intro i
    have a := hl i
    have b := hH i
    have c := hq i
    simp only [prim2con, Closure.W2]
    fun_prop

theorem radU_diff (hG : SmoothGeom G z) (hR : SmoothRad G R z) (m : Fin 4) : DifferentiableAt ℝ (fun y => radU G R y m) z := by
  refine Fin.cases ?_ (fun i => ?_) m
  · exact (prim2con_diff hG hR).1
  · exact (prim2con_diff hG hR).2 i

theorem radF_diff (hG : SmoothGeom G z) (hR : SmoothRad G R z) (d : Fin 3) (m : Fin 4) : DifferentiableAt ℝ (fun y => radF G R d y m) z := by
  have hb := hG.beta d
  have ha := hG.alpha
  refine Fin.cases ?_ (fun i => ?_) m
  · simp only [radF, comp, Fin.cons_zero, Closure.fluxes, Bool.false_eq_true, if_false]
    exact ((raiseV_diff hG _ (prim2con_diff hG hR).2 d).mul ha).sub (hb.mul (prim2con_diff hG hR).1)
  · simp only [radF, comp, Fin.cons_succ, Closure.fluxes]
    refine (DifferentiableAt.mul ?_ ha).sub (hb.mul ((prim2con_diff hG hR).2 i))
    have hW := W_diff hG hR
    have hJ := hR.J
    have h1 := hR.v d
    have h2 := hR.H i
    have h3 := lowerV_diff hG R.v hR.v i
    have h4 := raiseV_diff hG R.H hR.H d
    have h5 : DifferentiableAt ℝ (fun y => ∑ k, R.Pi y d k * (G y).gam k i) z := DifferentiableAt.fun_sum fun k _ => (hR.Pi d k).mul (hG.gam k i)
    have h6 : DifferentiableAt ℝ (fun y => if d = i then R.J y / 3.0 else 0) z := by split_ifs <;> fun_prop
    simp only [Closure.concovP, Closure.W2]
    fun_prop

end

theorem rootGam_diff {Z : Type} [NormedAddCommGroup Z] [NormedSpace ℝ Z] {G : Z → ADM ℝ} {z : Z} (hG : SmoothGeom G z) (hV : (G z).Valid) (hp : Rel.PosDef (G z)) :
    DifferentiableAt ℝ (fun y => rootGam (G y)) z := by
  have h1 : DifferentiableAt ℝ (fun y => (Matrix.of (G y).gam).det) z := by
    simp only [Matrix.det_fin_three, Matrix.of_apply]
    have := hG.gam
    have a := this 0 0; have b := this 0 1; have c := this 0 2; have d := this 1 0; have e := this 1 1; have f := this 1 2
    have g := this 2 0; have h := this 2 1; have i := this 2 2
    fun_prop
  exact h1.sqrt (det_gam_pos _ hV hp).ne'

/-! ### The asymptotic flux stays bounded -/

section
variable {ι : Type} {l : Filter ι}

/-- metric, velocity, energy density, flux and pressure tensor stay bounded. -/
structure BddState (l : Filter ι) (G : ι → ADM ℝ) (v : ι → Vec) (Pi : ι → Tens2) (J : ι → ℝ) (H : ι → Vec) : Prop where
  alpha : Bdd l fun h => (G h).alpha
  beta : ∀ i, Bdd l fun h => (G h).beta i
  gam : ∀ i j, Bdd l fun h => (G h).gam i j
  gamInv : ∀ i j, Bdd l fun h => (G h).gamInv i j
  v : ∀ i, Bdd l fun h => v h i
  Pi : ∀ i j, Bdd l fun h => Pi h i j
  J : Bdd l J
  H : ∀ i, Bdd l fun h => H h i

theorem W_bdd (G : ι → ADM ℝ) (v : ι → Vec) : Bdd l fun h => Closure.W (G h) (v h) := by
  refine ⟨100, Eventually.of_forall fun h => ?_⟩
  have hv : Closure.v2 (G h) (v h) ≤ 0.9999 := min_le_right _ _
  rw [abs_of_pos Closure.W_pos]
  unfold Closure.W
  have h1 : (1/100 : ℝ) ≤ √(1 - Closure.v2 (G h) (v h)) := by
    apply Real.le_sqrt_of_sq_le
    norm_num at hv ⊢
    linarith
  rw [div_le_iff₀ (by linarith)]
  linarith

variable {G : ι → ADM ℝ} {v : ι → Vec} {Pi : ι → Tens2} {J : ι → ℝ} {H : ι → Vec}

theorem lower_bdd (hG : ∀ i j, Bdd l fun h => (G h).gam i j) {x : ι → Vec} (hx : ∀ i, Bdd l fun h => x h i) (i : Fin 3) : Bdd l fun h => Closure.lower (G h) (x h) i := by
  unfold Closure.lower
  exact Bdd.sum _ fun j _ => (hx j).mul (hG i j)

theorem raise_bdd (hG : ∀ i j, Bdd l fun h => (G h).gamInv i j) {x : ι → Vec} (hx : ∀ i, Bdd l fun h => x h i) (i : Fin 3) : Bdd l fun h => Closure.raise (G h) (x h) i := by
  unfold Closure.raise
  exact Bdd.sum _ fun j _ => (hx j).mul (hG i j)

theorem prim2con_bdd (hS : BddState l G v Pi J H) :
    Bdd l (fun h => (prim2con false (G h) (v h) (Pi h) (J h) (H h)).1) ∧ ∀ i, Bdd l fun h => (prim2con false (G h) (v h) (Pi h) (J h) (H h)).2 i := by
  have hW := W_bdd (l := l) G v
  have hl := lower_bdd hS.gam hS.v
  have hc : Bdd l fun h => cc (v h) (H h) := by unfold Closure.cc; exact Bdd.sum _ fun i _ => (hS.v i).mul (hS.H i)
  have hq : ∀ i, Bdd l fun h => conVPi (G h) (v h) (Pi h) i := fun i => by
    unfold Closure.conVPi; exact Bdd.sum _ fun j _ => (hl j).mul (hS.Pi i j)
  have hvv : Bdd l fun h => vvPi (G h) (v h) (Pi h) := by unfold Closure.vvPi; exact Bdd.sum _ fun i _ => (hl i).mul (hq i)
  have hcov : ∀ i, Bdd l fun h => covVPi (G h) (v h) (Pi h) i := lower_bdd hS.gam hq
  constructor
  · simp only [prim2con, Closure.W2, Bool.false_eq_true, if_false]
    have h1 := (((((Bdd.const 4).mul (hW.mul hW)).sub (Bdd.const 1)).add (((Bdd.const 3).mul (hW.mul hW)).mul hvv)).mul (Bdd.const (1/3))).mul hS.J
    exact (h1.add (((Bdd.const 2).mul hW).mul hc)).congr (Eventually.of_forall fun h => by ring)
  · intro i
    simp only [prim2con, Closure.W2]
    have h1 := ((((Bdd.const (4/3)).mul (hW.mul hW)).mul (hl i)).mul hS.J).add (((hW.mul (hl i)).mul hc))
    exact ((h1.add (hW.mul (hS.H i))).add (hS.J.mul (hcov i))).congr (Eventually.of_forall fun h => by ring)

theorem fluxes_bdd (hS : BddState l G v Pi J H) (d : Fin 3) :
    Bdd l (fun h => (Closure.fluxes false (G h) (v h) (Pi h) (J h) (H h)).1 d) ∧ ∀ i, Bdd l fun h => (Closure.fluxes false (G h) (v h) (Pi h) (J h) (H h)).2 d i := by
  constructor
  · simp only [Closure.fluxes, Bool.false_eq_true, if_false]
    exact (raise_bdd hS.gamInv (prim2con_bdd hS).2 d).mul hS.alpha
  · intro i
    simp only [Closure.fluxes]
    refine Bdd.mul ?_ hS.alpha
    have hW := W_bdd (l := l) G v
    have hl := lower_bdd hS.gam hS.v
    have hr := raise_bdd hS.gamInv hS.H
    simp only [Closure.concovP, Closure.W2]
    have h0 : Bdd l fun h => if d = i then J h / 3.0 else 0 := by
      split_ifs
      · exact (hS.J.mul (Bdd.const (3.0)⁻¹)).congr (Eventually.of_forall fun h => (div_eq_mul_inv _ _).symm)
      · exact Bdd.const 0
    exact ((((((Bdd.const (4.0/3.0)).mul (hW.mul hW)).mul (hS.v d)).mul (hl i)).mul hS.J).add
      (hW.mul (((hS.v d).mul (hS.H i)).add ((hl i).mul (hr d))))).add (hS.J.mul (Bdd.sum _ fun k _ => (hS.Pi d k).mul (hS.gam k i))) |>.add h0

end

/-! ### One face -/

/-- within the bounds the program uses the reconstructed values. -/
theorem side_inside (G : ADM ℝ) (B : Bounds) (S : Side) (h : B.on = true → Rel.lorentz G.gam S.vp ≤ B.Wc ∧ B.Jfloor ≤ S.J ∧ Moments.sideXi G B S ≤ B.xiMax) :
    Moments.sideV G B S = Moments.threeVel G S.vp ∧ Moments.sideJ B S = S.J ∧ Moments.sideH G B S = fun i => S.J * S.h i := by
  have hJ : Moments.sideJ B S = S.J := by
    unfold Moments.sideJ
    split_ifs with ho
    · exact max_eq_left (h ho).2.1
    · rfl
  refine ⟨?_, hJ, ?_⟩
  · unfold Moments.sideV
    simp only
    rw [if_neg (by rintro ⟨ho, hw⟩; exact absurd hw (not_lt.2 (h ho).1))]
    rfl
  · unfold Moments.sideH
    rw [if_neg (by rintro ⟨ho, hw⟩; exact absurd hw (not_lt.2 (h ho).2.2))]
    funext i
    simp only [Moments.sideH0, hJ]

/-- the blend at a face, in terms of the free-streaming flux. -/
theorem face_split (small SMALL kmin : ℝ) (tp : TilPi) (f : Face) (hs : SMALL ≤ f.sdet)
    (hL : f.B.on = true → Rel.lorentz f.G.gam f.L.vp ≤ f.B.Wc ∧ f.B.Jfloor ≤ f.L.J ∧ Moments.sideXi f.G f.B f.L ≤ f.B.xiMax)
    (hR : f.B.on = true → Rel.lorentz f.G.gam f.R.vp ≤ f.B.Wc ∧ f.B.Jfloor ≤ f.R.J ∧ Moments.sideXi f.G f.B f.R ≤ f.B.xiMax) (m : Fin 4) :
    let F := fun S : Side => radF (fun _ => f.G) (fieldOf tp (fun _ => f.G) fun _ => S) f.dir () m
    let U := fun S : Side => radU (fun _ => f.G) (fieldOf tp (fun _ => f.G) fun _ => S) () m
    let A := fun S : Side => comp (((Moments.sideFluxAsym (tp f.G) kmin f S).1 f.dir - f.G.beta f.dir * (Moments.sideCon (tp f.G) f S).1,
      fun j => (Moments.sideFluxAsym (tp f.G) kmin f S).2 f.dir j - f.G.beta f.dir * (Moments.sideCon (tp f.G) f S).2 j)) m
    comp (Moments.faceFlux small SMALL kmin (tp f.G) f) m = Moments.llf f.sdet (Moments.radSig f) (F f.L) (F f.R) (U f.L) (U f.R) +
      (1 - f.a small) * (Moments.llf f.sdet (Moments.asymSig f) (A f.L) (A f.R) (U f.L) (U f.R) - Moments.llf f.sdet (Moments.radSig f) (F f.L) (F f.R) (U f.L) (U f.R)) := by
  obtain ⟨d1, d2⟩ := Moments.flux_decomposition small SMALL kmin (tp f.G) f hs
  obtain ⟨l1, l2, l3⟩ := side_inside f.G f.B f.L hL
  obtain ⟨r1, r2, r3⟩ := side_inside f.G f.B f.R hR
  refine Fin.cases ?_ (fun j => ?_) m
  · simp only [comp, Fin.cons_zero, radF, radU, fieldOf]
    rw [d1]
    simp only [Moments.sideFluxThin, Moments.sideCon, l1, l2, l3, r1, r2, r3]
    ring
  · simp only [comp, Fin.cons_succ, radF, radU, fieldOf]
    rw [d2 j]
    simp only [Moments.sideFluxThin, Moments.sideCon, l1, l2, l3, r1, r2, r3]
    ring

theorem radllf_deriv {gd σ Fl Fr Ul Ur : ℝ → ℝ} {gd' σ0 fl fr ul ur : ℝ} (hσ : Tendsto σ (𝓝[>] 0) (𝓝 σ0)) (hgd : HasDerivWithinAt gd gd' (Ioi 0) 0)
    (hFl : HasDerivWithinAt Fl fl (Ioi 0) 0) (hFr : HasDerivWithinAt Fr fr (Ioi 0) 0) (hF : Fl 0 = Fr 0) (hUl : HasDerivWithinAt Ul ul (Ioi 0) 0)
    (hUr : HasDerivWithinAt Ur ur (Ioi 0) 0) (hU : Ul 0 = Ur 0) :
    HasDerivWithinAt (fun h => Moments.llf (gd h) (σ h) (Fl h) (Fr h) (Ul h) (Ur h)) (gd' * Fl 0 + gd 0 * ((fl + fr) / 2) + gd 0 * σ0 / 2 * (ul - ur)) (Ioi 0) 0 := by
  have hgd0 : Tendsto gd (𝓝[>] 0) (𝓝 (gd 0)) := hgd.continuousWithinAt
  have e1 := hgd.mul ((hFl.add hFr).const_mul (1/2 : ℝ))
  have t2 := vanish_mul ((hgd0.mul hσ).mul_const (1/2 : ℝ)) (hUl.sub hUr) (by simp [hU])
  have e0 : (0.5 : ℝ) = 1/2 := by norm_num
  refine ((e1.add t2).congr_deriv ?_).congr (fun h _ => ?_) ?_
  · simp only [Pi.add_apply, hF]; ring
  · simp only [Moments.llf, Pi.add_apply, Pi.mul_apply, Pi.sub_apply, e0]; ring
  · simp only [Moments.llf, Pi.add_apply, Pi.mul_apply, Pi.sub_apply, e0]; ring

/-- the variables of a species are smooth functions of the primitives. -/
structure SideDiff {N : ℕ} (side : (Fin N → ℝ) → Side) : Prop where
  vp : ∀ i, Differentiable ℝ fun u => (side u).vp i
  J : Differentiable ℝ fun u => (side u).J
  h : ∀ i, Differentiable ℝ fun u => (side u).h i

theorem radSide_diff {N : ℕ} (nspec : ℕ) (sel : Fin (4 * nspec + 3) → Fin N) (s : ℕ) : SideDiff (radSide nspec sel s) := by
  have h : ∀ n : ℕ, Differentiable ℝ fun u : Fin N → ℝ => if h : n < 4 * nspec + 3 then u (sel ⟨n, h⟩) else 0 := fun n => by
    split_ifs
    · fun_prop
    · fun_prop
  exact ⟨fun i => h _, h _, fun i => h _⟩

section
variable {N : ℕ} {tp : TilPi} {G : Coord → ADM ℝ} {B : Coord → Bounds} {kap : Coord → (Fin N → ℝ) → ℝ} {side : (Fin N → ℝ) → Side} {q : Coord → Fin N → ℝ} {x0 : Coord}

theorem geom_lift (hG : SmoothGeom G x0) (u : Fin N → ℝ) : SmoothGeom (fun x : Coord × (Fin N → ℝ) => G x.1) (x0, u) := by
  obtain ⟨a, b, c, d⟩ := hG
  have f : DifferentiableAt ℝ (fun x : Coord × (Fin N → ℝ) => x.1) (x0, u) := differentiableAt_fst
  exact ⟨DifferentiableAt.fun_comp' (g := fun x => (G x).alpha) (x0, u) a f, fun i => DifferentiableAt.fun_comp' (g := fun x => (G x).beta i) (x0, u) (b i) f,
    fun i j => DifferentiableAt.fun_comp' (g := fun x => (G x).gam i j) (x0, u) (c i j) f, fun i j => DifferentiableAt.fun_comp' (g := fun x => (G x).gamInv i j) (x0, u) (d i j) f⟩

/-- the radiation field as a function of place and primitives. -/
noncomputable def zField (tp : TilPi) (G : Coord → ADM ℝ) (side : (Fin N → ℝ) → Side) : RadField (Coord × (Fin N → ℝ)) := fieldOf tp (fun z => G z.1) fun z => side z.2

theorem vel_diff (hG : SmoothGeom G x0) (hp : Rel.PosDef (G x0)) (hd : SideDiff side) (u : Fin N → ℝ) (i : Fin 3) :
    DifferentiableAt ℝ (fun z : Coord × (Fin N → ℝ) => Moments.threeVel (G z.1) (side z.2).vp i) (x0, u) := by
  have hv : ∀ i, DifferentiableAt ℝ (fun z : Coord × (Fin N → ℝ) => (side z.2).vp i) (x0, u) := fun i =>
    DifferentiableAt.fun_comp' (g := fun u => (side u).vp i) (x0, u) (hd.vp i _) differentiableAt_snd
  have hl := lorentz_diff (G := fun z : Coord × (Fin N → ℝ) => G z.1) (q := fun z => ⟨0, 0, 0, (side z.2).vp, 0⟩) (geom_lift hG u)
    ⟨differentiableAt_const _, differentiableAt_const _, differentiableAt_const _, hv, fun _ => differentiableAt_const _⟩ (hp)
  unfold Moments.threeVel
  exact ddiv (hv i) hl (Rel.lorentz_pos _ hp _).ne'

theorem zField_smooth (hS : SmoothRadAt tp G B kap side q x0) (hd : SideDiff side) : SmoothRad (fun z : Coord × (Fin N → ℝ) => G z.1) (zField tp G side) (x0, q x0) := by
  have hJ : DifferentiableAt ℝ (fun z : Coord × (Fin N → ℝ) => (side z.2).J) (x0, q x0) :=
    DifferentiableAt.fun_comp' (g := fun u => (side u).J) (x0, q x0) (hd.J _) differentiableAt_snd
  have hh : ∀ i, DifferentiableAt ℝ (fun z : Coord × (Fin N → ℝ) => (side z.2).h i) (x0, q x0) := fun i =>
    DifferentiableAt.fun_comp' (g := fun u => (side u).h i) (x0, q x0) (hd.h i _) differentiableAt_snd
  exact ⟨vel_diff hS.geom (hS.pos x0) hd (q x0), hS.closure, hJ, fun i => hJ.mul (hh i), hS.slow⟩

/-- the flux density of the moment equations for the state `q`. -/
noncomputable def radDensity (tp : TilPi) (G : Coord → ADM ℝ) (side : (Fin N → ℝ) → Side) (q : Coord → Fin N → ℝ) (d : Fin 3) (m : Fin 4) (y : Coord) : ℝ :=
  comp (radPhys G (fieldOf tp G fun y => side (q y)) d y) m

theorem radDensity_eq (d : Fin 3) (m : Fin 4) (y : Coord) :
    radDensity tp G side q d m y = rootGam (G y) * radF (fun z : Coord × (Fin N → ℝ) => G z.1) (zField tp G side) d (y, q y) m := radPhys_comp _ _ _ _ _

theorem radDensity_deriv (hS : SmoothRadAt tp G B kap side q x0) (hd : SideDiff side) (d : Fin 3) (m : Fin 4) :
    DifferentiableAt ℝ (radDensity tp G side q d m) x0 ∧ ∀ η, fderiv ℝ (radDensity tp G side q d m) x0 η =
      fderiv ℝ (fun y => rootGam (G y)) x0 η * radF (fun z : Coord × (Fin N → ℝ) => G z.1) (zField tp G side) d (x0, q x0) m +
        rootGam (G x0) * fderiv ℝ (fun z : Coord × (Fin N → ℝ) => radF (fun z => G z.1) (zField tp G side) d z m) (x0, q x0) (η, fderiv ℝ q x0 η) := by
  have e : radDensity tp G side q d m = fun y => rootGam (G y) * radF (fun z : Coord × (Fin N → ℝ) => G z.1) (zField tp G side) d (y, q y) m := funext fun y => radDensity_eq d m y
  have h1 : HasFDerivAt (fun y => (y, q y)) ((ContinuousLinearMap.id ℝ Coord).prod (fderiv ℝ q x0)) x0 := (hasFDerivAt_id x0).prodMk hS.state.hasFDerivAt
  have h2 : HasFDerivAt (fun y => radF (fun z : Coord × (Fin N → ℝ) => G z.1) (zField tp G side) d (y, q y) m) _ x0 :=
    HasFDerivAt.comp (f := fun y => (y, q y)) x0 (radF_diff (geom_lift hS.geom (q x0)) (zField_smooth hS hd) d m).hasFDerivAt h1
  have h3 := (rootGam_diff hS.geom (hS.valid x0) (hS.pos x0)).hasFDerivAt.mul h2
  rw [e]
  refine ⟨h3.differentiableAt, fun η => ?_⟩
  have : fderiv ℝ (fun y => rootGam (G y) * radF (fun z : Coord × (Fin N → ℝ) => G z.1) (zField tp G side) d (y, q y) m) x0 = _ := h3.fderiv
  rw [this]
  simp only [_root_.add_apply, _root_.smul_apply, smul_eq_mul, ContinuousLinearMap.comp_apply, ContinuousLinearMap.prod_apply,
    ContinuousLinearMap.id_apply]
  ring

/-- a face whose centre, states, opacities and gradients depend on the cell width. -/
noncomputable def pathFace (G : Coord → ADM ℝ) (B : Coord → Bounds) (side : (Fin N → ℝ) → Side) (wd : ℝ) (d : Fin 3) (y : ℝ → Coord) (l r : ℝ → Fin N → ℝ) (kl kr : ℝ → ℝ) (dJ : ℝ → Vec) (h : ℝ) : Face :=
  ⟨G (y h), rootGam (G (y h)), h * wd * √((G (y h)).gam d d), d, B (y h), side (l h), side (r h), kl h, kr h, dJ h⟩

/-- the free-streaming flux at that face. -/
noncomputable def pathThin (tp : TilPi) (G : Coord → ADM ℝ) (side : (Fin N → ℝ) → Side) (d : Fin 3) (m : Fin 4) (y : ℝ → Coord) (l r : ℝ → Fin N → ℝ) (h : ℝ) : ℝ :=
  Moments.llf (rootGam (G (y h))) (Timestep.radSpeed (G (y h)).alpha ((G (y h)).beta d) ((G (y h)).gamInv d d))
    (radF (fun z : Coord × (Fin N → ℝ) => G z.1) (zField tp G side) d (y h, l h) m) (radF (fun z : Coord × (Fin N → ℝ) => G z.1) (zField tp G side) d (y h, r h) m)
    (radU (fun z : Coord × (Fin N → ℝ) => G z.1) (zField tp G side) (y h, l h) m) (radU (fun z : Coord × (Fin N → ℝ) => G z.1) (zField tp G side) (y h, r h) m)

theorem thin_deriv (hS : SmoothRadAt tp G B kap side q x0) (hd : SideDiff side) (d : Fin 3) (m : Fin 4) {y : ℝ → Coord} {l r : ℝ → Fin N → ℝ} {η : Coord} {ζ τ : Fin N → ℝ}
    (hy0 : y 0 = x0) (hl0 : l 0 = q x0) (hr0 : r 0 = q x0) (hy : HasDerivWithinAt y η (Ioi 0) 0) (hl : HasDerivWithinAt l (fderiv ℝ q x0 η + ζ - τ) (Ioi 0) 0)
    (hr : HasDerivWithinAt r (fderiv ℝ q x0 η + ζ + τ) (Ioi 0) 0) :
    let DF := fderiv ℝ (fun z : Coord × (Fin N → ℝ) => radF (fun z => G z.1) (zField tp G side) d z m) (x0, q x0)
    let DU := fderiv ℝ (fun z : Coord × (Fin N → ℝ) => radU (fun z => G z.1) (zField tp G side) z m) (x0, q x0)
    pathThin tp G side d m y l r 0 = radDensity tp G side q d m x0 ∧
    HasDerivWithinAt (pathThin tp G side d m y l r) (fderiv ℝ (radDensity tp G side q d m) x0 η + (rootGam (G x0) * DF (0, ζ) -
      rootGam (G x0) * Timestep.radSpeed (G x0).alpha ((G x0).beta d) ((G x0).gamInv d d) * DU (0, τ))) (Ioi 0) 0 := by
  intro DF DU
  have pathl : HasDerivWithinAt (fun h => (y h, l h)) (η, fderiv ℝ q x0 η + ζ - τ) (Ioi 0) 0 := hy.prodMk hl
  have pathr : HasDerivWithinAt (fun h => (y h, r h)) (η, fderiv ℝ q x0 η + ζ + τ) (Ioi 0) 0 := hy.prodMk hr
  have l00 : (y 0, l 0) = (x0, q x0) := by rw [hy0, hl0]
  have r00 : (y 0, r 0) = (x0, q x0) := by rw [hy0, hr0]
  have dF := radF_diff (geom_lift hS.geom (q x0)) (zField_smooth hS hd) d m
  have dU := radU_diff (geom_lift hS.geom (q x0)) (zField_smooth hS hd) m
  have hFl := chain dF l00 pathl
  have hFr := chain dF r00 pathr
  have hUl := chain dU l00 pathl
  have hUr := chain dU r00 pathr
  have hgd := chain (rootGam_diff hS.geom (hS.valid x0) (hS.pos x0)) hy0 hy
  have ty : Tendsto y (𝓝[>] 0) (𝓝 x0) := by have := hy.continuousWithinAt; unfold ContinuousWithinAt at this; rwa [hy0] at this
  have hσ : Tendsto (fun h => Timestep.radSpeed (G (y h)).alpha ((G (y h)).beta d) ((G (y h)).gamInv d d)) (𝓝[>] 0)
      (𝓝 (Timestep.radSpeed (G x0).alpha ((G x0).beta d) ((G x0).gamInv d d))) := by
    have a1 : Tendsto (fun h => (G (y h)).alpha) (𝓝[>] 0) (𝓝 (G x0).alpha) := hS.geom.alpha.continuousAt.tendsto.comp ty
    have a2 : Tendsto (fun h => (G (y h)).beta d) (𝓝[>] 0) (𝓝 ((G x0).beta d)) := (hS.geom.beta d).continuousAt.tendsto.comp ty
    have a3 : Tendsto (fun h => (G (y h)).gamInv d d) (𝓝[>] 0) (𝓝 ((G x0).gamInv d d)) := (hS.geom.gamInv d d).continuousAt.tendsto.comp ty
    unfold Timestep.radSpeed
    exact ((a1.neg.mul a3.sqrt).sub a2).abs.max ((a1.mul a3.sqrt).sub a2).abs
  have key := radllf_deriv hσ hgd hFl hFr (by simp only [hl0, hr0]) hUl hUr (by simp only [hl0, hr0])
  constructor
  · rw [radDensity_eq]
    simp only [pathThin, Moments.llf, hy0, hl0, hr0]
    rw [show (0.5 : ℝ) = 1/2 by norm_num]; ring
  · refine key.congr_deriv ?_
    rw [(radDensity_deriv hS hd d m).2 η]
    simp only [hy0, hl0]
    have e1 : ((η, fderiv ℝ q x0 η + ζ - τ) : Coord × (Fin N → ℝ)) = (η, fderiv ℝ q x0 η) + (0, ζ) - (0, τ) := by
      rw [Prod.mk_add_mk, Prod.mk_sub_mk, add_zero, sub_zero]
    have e2 : ((η, fderiv ℝ q x0 η + ζ + τ) : Coord × (Fin N → ℝ)) = (η, fderiv ℝ q x0 η) + (0, ζ) + (0, τ) := by
      rw [Prod.mk_add_mk, Prod.mk_add_mk, add_zero, add_zero]
    rw [e1, e2]
    simp only [map_add, map_sub]
    ring

/-- to first order in the cell width the flux of the program is the free-streaming flux. -/
theorem blend_vanishes (hS : SmoothRadAt tp G B kap side q x0) (hd : SideDiff side) (d : Fin 3) (m : Fin 4) {y : ℝ → Coord} {l r : ℝ → Fin N → ℝ} (wd : ℝ) {kl kr : ℝ → ℝ} {dJ : ℝ → Vec}
    {small : ℝ → ℝ} {SMALL kmin K : ℝ} (hsm : ∀ h, 0 < h → 0 < small h ∧ small h ≤ h) (hSM : SMALL < rootGam (G x0)) (hkm : 0 < kmin)
    (ty : Tendsto y (𝓝[>] 0) (𝓝 x0)) (tl : Tendsto l (𝓝[>] 0) (𝓝 (q x0))) (tr : Tendsto r (𝓝[>] 0) (𝓝 (q x0)))
    (hk : ∀ᶠ h in 𝓝[>] 0, (0 ≤ kl h ∧ kl h ≤ K) ∧ 0 ≤ kr h ∧ kr h ≤ K) (hJ : ∀ i, Bdd (𝓝[>] 0) fun h => dJ h i) :
    Tendsto (fun h => (comp (Moments.faceFlux (small h) SMALL kmin (tp (G (y h))) (pathFace G B side wd d y l r kl kr dJ h)) m - pathThin tp G side d m y l r h) / h) (𝓝[>] 0) (𝓝 0) := by
  have tzl : Tendsto (fun h => (y h, l h)) (𝓝[>] 0) (𝓝 (x0, q x0)) := ty.prodMk_nhds tl
  have tzr : Tendsto (fun h => (y h, r h)) (𝓝[>] 0) (𝓝 (x0, q x0)) := ty.prodMk_nhds tr
  have tα : Tendsto (fun h => (G (y h)).alpha) (𝓝[>] 0) (𝓝 (G x0).alpha) := hS.geom.alpha.continuousAt.tendsto.comp ty
  have tβ : ∀ i, Tendsto (fun h => (G (y h)).beta i) (𝓝[>] 0) (𝓝 ((G x0).beta i)) := fun i => (hS.geom.beta i).continuousAt.tendsto.comp ty
  have tγ : ∀ i j, Tendsto (fun h => (G (y h)).gam i j) (𝓝[>] 0) (𝓝 ((G x0).gam i j)) := fun i j => (hS.geom.gam i j).continuousAt.tendsto.comp ty
  have tg : ∀ i j, Tendsto (fun h => (G (y h)).gamInv i j) (𝓝[>] 0) (𝓝 ((G x0).gamInv i j)) := fun i j => (hS.geom.gamInv i j).continuousAt.tendsto.comp ty
  have tR : Tendsto (fun h => rootGam (G (y h))) (𝓝[>] 0) (𝓝 (rootGam (G x0))) := (rootGam_diff hS.geom (hS.valid x0) (hS.pos x0)).continuousAt.tendsto.comp ty
  set κ : ℝ → ℝ := fun h => Moments.faceKappa (kl h) (kr h) with hκ
  have κ0 : ∀ h, 0 ≤ κ h := fun h => Real.sqrt_nonneg _
  have κK : ∀ᶠ h in 𝓝[>] 0, κ h ≤ K := hk.mono fun h hh => by
    simp only [hκ, Moments.faceKappa]
    refine Real.sqrt_le_iff.2 ⟨hh.1.1.trans hh.1.2, ?_⟩
    nlinarith [hh.1.1, hh.1.2, hh.2.1, hh.2.2]
  -- the weight
  obtain ⟨Cγ, hCγ⟩ := Bdd.of_tendsto ((tγ d d).sqrt)
  have ta : Tendsto (fun h => (1 - Timestep.peclet (small h) (κ h) (h * wd * √((G (y h)).gam d d))) / h) (𝓝[>] 0) (𝓝 0) := by
    refine peclet_limit (C := K * (|wd| * Cγ)) ?_ ?_
    · filter_upwards [self_mem_nhdsWithin] with h hh using hsm h hh
    · filter_upwards [κK, hCγ, self_mem_nhdsWithin] with h a b (hh : 0 < h)
      rw [abs_mul, abs_mul, abs_mul, abs_of_pos hh, abs_of_nonneg (κ0 h)]
      have h1 : h * |wd| * |√((G (y h)).gam d d)| ≤ h * |wd| * Cγ := mul_le_mul_of_nonneg_left b (by positivity)
      have h2 : 0 ≤ h * |wd| * Cγ := le_trans (by positivity) h1
      calc κ h * (h * |wd| * |√((G (y h)).gam d d)|) ≤ κ h * (h * |wd| * Cγ) := mul_le_mul_of_nonneg_left h1 (κ0 h)
        _ ≤ K * (h * |wd| * Cγ) := mul_le_mul_of_nonneg_right a h2
        _ = K * (|wd| * Cγ) * h := by ring
  -- the states
  have hHa : ∀ i, Bdd (𝓝[>] 0) fun h => Moments.hAsym kmin (κ h) (dJ h) i := fun i => by
    obtain ⟨C, hC⟩ := hJ i
    refine ⟨C / (3 * kmin), hC.mono fun h a => ?_⟩
    unfold Moments.hAsym
    have hden : 0 < 3 * κ h + 3 * kmin := by linarith [κ0 h]
    rw [abs_div, abs_neg, abs_of_pos hden]
    have hC0 := (abs_nonneg _).trans a
    exact div_le_div₀ hC0 a (by linarith) (by linarith [κ0 h])
  obtain ⟨CP, hCP⟩ := hS.bounded
  have vcont := fun i => (vel_diff hS.geom (hS.pos x0) hd (q x0) i).continuousAt
  have Jcont : ContinuousAt (fun z : Coord × (Fin N → ℝ) => (side z.2).J) (x0, q x0) := (zField_smooth hS hd).J.continuousAt
  have Hcont : ∀ i, ContinuousAt (fun z : Coord × (Fin N → ℝ) => (side z.2).J * (side z.2).h i) (x0, q x0) := fun i => ((zField_smooth hS hd).H i).continuousAt
  have asym : ∀ u : ℝ → Fin N → ℝ, Tendsto (fun h => (y h, u h)) (𝓝[>] 0) (𝓝 (x0, q x0)) →
      BddState (𝓝[>] 0) (fun h => G (y h)) (fun h => Moments.threeVel (G (y h)) (side (u h)).vp)
        (fun h => tp (G (y h)) (Moments.threeVel (G (y h)) (side (u h)).vp) (side (u h)).J (Moments.hAsym kmin (κ h) (dJ h))) (fun h => (side (u h)).J) fun h => Moments.hAsym kmin (κ h) (dJ h) := fun u tu =>
    ⟨.of_tendsto tα, fun i => .of_tendsto (tβ i), fun i j => .of_tendsto (tγ i j), fun i j => .of_tendsto (tg i j), fun i => .of_tendsto ((vcont i).tendsto.comp tu),
      fun i j => ⟨CP, (tu.eventually hCP).mono fun h a => a _ i j⟩, .of_tendsto (Jcont.tendsto.comp tu), hHa⟩
  have thin : ∀ u : ℝ → Fin N → ℝ, Tendsto (fun h => (y h, u h)) (𝓝[>] 0) (𝓝 (x0, q x0)) →
      Bdd (𝓝[>] 0) (fun h => radF (fun z : Coord × (Fin N → ℝ) => G z.1) (zField tp G side) d (y h, u h) m) ∧
      ∀ m, Bdd (𝓝[>] 0) (fun h => radU (fun z : Coord × (Fin N → ℝ) => G z.1) (zField tp G side) (y h, u h) m) := fun u tu =>
    ⟨.of_tendsto ((radF_diff (geom_lift hS.geom (q x0)) (zField_smooth hS hd) d m).continuousAt.tendsto.comp tu),
      fun m => .of_tendsto ((radU_diff (geom_lift hS.geom (q x0)) (zField_smooth hS hd) m).continuousAt.tendsto.comp tu)⟩
  have inl := tzl.eventually hS.inside
  have inr := tzr.eventually hS.inside
  set f := fun h => pathFace G B side wd d y l r kl kr dJ h with hf
  set A := fun (u : ℝ → Fin N → ℝ) (h : ℝ) => comp (((Moments.sideFluxAsym (tp (G (y h))) kmin (f h) (side (u h))).1 d - (G (y h)).beta d * (Moments.sideCon (tp (G (y h))) (f h) (side (u h))).1,
      fun j => (Moments.sideFluxAsym (tp (G (y h))) kmin (f h) (side (u h))).2 d j - (G (y h)).beta d * (Moments.sideCon (tp (G (y h))) (f h) (side (u h))).2 j)) m with hA
  have bA : ∀ u : ℝ → Fin N → ℝ, Tendsto (fun h => (y h, u h)) (𝓝[>] 0) (𝓝 (x0, q x0)) → Bdd (𝓝[>] 0) (A u) := by
    intro u tu
    have hb := asym u tu
    have e := tu.eventually hS.inside
    have h1 := fluxes_bdd hb d
    have h2 := (thin u tu).2
    have h3 := Bdd.of_tendsto (tβ d)
    have key : Bdd (𝓝[>] 0) fun h => comp ((Closure.fluxes false (G (y h)) (Moments.threeVel (G (y h)) (side (u h)).vp)
          (tp (G (y h)) (Moments.threeVel (G (y h)) (side (u h)).vp) (side (u h)).J (Moments.hAsym kmin (κ h) (dJ h))) (side (u h)).J (Moments.hAsym kmin (κ h) (dJ h))).1 d -
        (G (y h)).beta d * radU (fun z : Coord × (Fin N → ℝ) => G z.1) (zField tp G side) (y h, u h) 0,
        fun j => (Closure.fluxes false (G (y h)) (Moments.threeVel (G (y h)) (side (u h)).vp)
          (tp (G (y h)) (Moments.threeVel (G (y h)) (side (u h)).vp) (side (u h)).J (Moments.hAsym kmin (κ h) (dJ h))) (side (u h)).J (Moments.hAsym kmin (κ h) (dJ h))).2 d j -
        (G (y h)).beta d * radU (fun z : Coord × (Fin N → ℝ) => G z.1) (zField tp G side) (y h, u h) j.succ) m := by
      refine Fin.cases ?_ (fun j => ?_) m
      · exact h1.1.sub (h3.mul (h2 0))
      · exact (h1.2 j).sub (h3.mul (h2 j.succ))
    refine key.congr (e.mono fun h hi => ?_)
    obtain ⟨s1, s2, s3⟩ := side_inside (G (y h)) (B (y h)) (side (u h)) hi
    simp only [hA, hf, pathFace, Moments.sideFluxAsym, Moments.sideCon, s1, s2, s3]
    refine Fin.cases ?_ (fun j => ?_) m <;> rfl
  have bsig : Bdd (𝓝[>] 0) fun h => Moments.asymSig (f h) := by
    have hv : ∀ u : ℝ → Fin N → ℝ, Tendsto (fun h => (y h, u h)) (𝓝[>] 0) (𝓝 (x0, q x0)) →
        Bdd (𝓝[>] 0) fun h => |(G (y h)).alpha * Moments.threeVel (G (y h)) (side (u h)).vp d - (G (y h)).beta d| := fun u tu =>
      (((Bdd.of_tendsto tα).mul ((asym u tu).v d)).sub (Bdd.of_tendsto (tβ d))).size
    refine ((hv l tzl).larger (hv r tzr)).congr (inl.mp (inr.mono fun h hr hl => ?_))
    simp only [Moments.asymSig, hf, pathFace]
    rw [(side_inside _ _ _ hl).1, (side_inside _ _ _ hr).1]
  have bllf : ∀ s a b c e : ℝ → ℝ, Bdd (𝓝[>] 0) s → Bdd (𝓝[>] 0) a → Bdd (𝓝[>] 0) b → Bdd (𝓝[>] 0) c → Bdd (𝓝[>] 0) e →
      Bdd (𝓝[>] 0) fun h => Moments.llf (rootGam (G (y h))) (s h) (a h) (b h) (c h) (e h) := fun s a b c e hs ha hb hc he => by
    unfold Moments.llf
    exact ((Bdd.const 0.5).mul (Bdd.of_tendsto tR)).mul ((ha.add hb).add (hs.mul (hc.sub he)))
  have bσ : Bdd (𝓝[>] 0) fun h => Timestep.radSpeed (G (y h)).alpha ((G (y h)).beta d) ((G (y h)).gamInv d d) := by
    unfold Timestep.radSpeed
    exact (((Bdd.of_tendsto tα).neg.mul (Bdd.of_tendsto (tg d d).sqrt)).sub (Bdd.of_tendsto (tβ d))).size.larger
      (((Bdd.of_tendsto tα).mul (Bdd.of_tendsto (tg d d).sqrt)).sub (Bdd.of_tendsto (tβ d))).size
  have b1 := bllf _ _ _ _ _ bsig (bA l tzl) (bA r tzr) ((thin l tzl).2 m) ((thin r tzr).2 m)
  have b2 := bllf _ _ _ _ _ bσ (thin l tzl).1 (thin r tzr).1 ((thin l tzl).2 m) ((thin r tzr).2 m)
  refine ((b1.sub b2).mul_zero ta).congr' ?_
  filter_upwards [inl, inr, tR.eventually (lt_mem_nhds hSM)] with h il ir hg
  have sp := face_split (small h) SMALL kmin tp (f h) hg.le il ir m
  have e1 : (f h).a (small h) = Timestep.peclet (small h) (κ h) (h * wd * √((G (y h)).gam d d)) := rfl
  rw [show comp (Moments.faceFlux (small h) SMALL kmin (tp (G (y h))) (f h)) m = _ from sp, e1]
  have e2 : Moments.llf (f h).sdet (Moments.radSig (f h)) (radF (fun _ : Unit => (f h).G) (fieldOf tp (fun _ => (f h).G) fun _ => (f h).L) (f h).dir () m)
      (radF (fun _ : Unit => (f h).G) (fieldOf tp (fun _ => (f h).G) fun _ => (f h).R) (f h).dir () m) (radU (fun _ : Unit => (f h).G) (fieldOf tp (fun _ => (f h).G) fun _ => (f h).L) () m)
      (radU (fun _ : Unit => (f h).G) (fieldOf tp (fun _ => (f h).G) fun _ => (f h).R) () m) = pathThin tp G side d m y l r h := rfl
  simp only [e2]
  rw [add_sub_cancel_left, div_mul_eq_mul_div]
  rfl

end

/-! ### The faces of the mesh -/

/-- what the stage reads around a face is what the global array contains. -/
theorem radOf_global {N M S : ℕ} (ew em : ℝ) (rt : Method) (nd : ℕ) (dx : Fin 3 → ℝ) (sel : Fin M → Fin N) (js : Fin S → Fin M) (kap : Pos → (Fin N → ℝ) → Fin S → ℝ)
    (body : Fin 3 → Pos → RadSweep.FaceIn M S → ℕ → ℝ) (X : Fields ℝ N) (d : Fin 3) (hd : d.val < nd) (p : Pos) :
    radOf ew em rt nd dx sel js kap body d p (near nd rt d p X) =
      body d p (RadSweep.ideal (kernel ew em rt) (meshBlk nd) dx (fun n c => (X c).2 (sel n)) js (fun s c => kap c (X c).2 s) d p) := by
  unfold radOf
  rw [if_pos hd]
  congr 1
  refine ideal_near ew em rt (meshBlk nd) (meshBlk nd) rfl dx _ _ js _ _ d hd p p ?_ ?_
  · intro n r hr
    simp only [add_sub_cancel_left]
    unfold near
    rw [if_pos (show Stencil nd rt d r from hr)]
  · intro s r hr
    simp only [add_sub_cancel_left]
    have : near nd rt d p X r = (X fun e => p e + r e).2 := by funext n; unfold near; rw [if_pos (show Stencil nd rt d r from hr)]
    rw [this]

/-- the differences of the energy density, divided by the cell widths, stay bounded. -/
theorem grad_bdd (nd : ℕ) (w : Coord) (J : ℝ → ℤ → ℤ → ℤ → ℝ) (c0 : ℝ) (D : ℤ → ℤ → ℤ → ℝ) (k j i : ℤ)
    (hJ : ∀ a b c : ℤ, |a - k| ≤ 1 → |b - j| ≤ 1 → |c - i| ≤ 1 → J 0 a b c = c0 ∧ HasDerivWithinAt (fun h => J h a b c) (D a b c) (Ioi 0) 0) (d c : Fin 3) :
    Bdd (𝓝[>] 0) fun h => Moments.faceGrad (J h) ((meshBlk nd).ext 1) ((meshBlk nd).ext 2) (fun e => h * w e) d c k j i := by
  have e1 : 0 ≤ (meshBlk nd).ext 1 ∧ (meshBlk nd).ext 1 ≤ 1 := by unfold Blk.ext; split_ifs <;> simp
  have e2 : 0 ≤ (meshBlk nd).ext 2 ∧ (meshBlk nd).ext 2 ≤ 1 := by unfold Blk.ext; split_ifs <;> simp
  set a1 := (meshBlk nd).ext 1
  set a2 := (meshBlk nd).ext 2
  have hb : ∀ a b c : ℤ, |a - k| ≤ 1 → |b - j| ≤ 1 → |c - i| ≤ 1 → Bdd (𝓝[>] 0) fun h => (J h a b c - c0) / h := fun a b c h1 h2 h3 => by
    obtain ⟨z, dd⟩ := hJ a b c h1 h2 h3
    rw [hasDerivWithinAt_iff_tendsto_slope' (by simp)] at dd
    refine (Bdd.of_tendsto dd).congr (Eventually.of_forall fun h => ?_)
    simp only [slope, vsub_eq_sub, smul_eq_mul, sub_zero, z]
    rw [inv_mul_eq_div]
  have e0 : (1.0 : ℝ) = 1 := by norm_num
  have e4 : (0.25 : ℝ) = 1/4 := by norm_num
  have two : ∀ x y : ℝ → ℝ, Bdd (𝓝[>] 0) (fun h => (x h - c0) / h) → Bdd (𝓝[>] 0) (fun h => (y h - c0) / h) → ∀ e : Fin 3,
      Bdd (𝓝[>] 0) fun h => (x h - y h) * (1.0 / (h * w e)) := fun x y hx hy e =>
    ((hx.sub hy).mul (Bdd.const (1 / w e))).congr (Eventually.of_forall fun h => by simp only [e0, one_div, mul_inv]; ring)
  have four : ∀ x x' y y' : ℝ → ℝ, Bdd (𝓝[>] 0) (fun h => (x h - c0) / h) → Bdd (𝓝[>] 0) (fun h => (x' h - c0) / h) → Bdd (𝓝[>] 0) (fun h => (y h - c0) / h) →
      Bdd (𝓝[>] 0) (fun h => (y' h - c0) / h) → ∀ e : Fin 3, Bdd (𝓝[>] 0) fun h => (x h + x' h - y h - y' h) * (0.25 * (1.0 / (h * w e))) := fun x x' y y' hx hx' hy hy' e =>
    ((((hx.add hx').sub hy).sub hy').mul (Bdd.const (1/4 * (1 / w e)))).congr (Eventually.of_forall fun h => by simp only [e0, e4, one_div, mul_inv]; ring)
  have t : ∀ x y : ℤ, y - 1 ≤ x → x ≤ y + 1 → |x - y| ≤ 1 := fun x y h1 h2 => abs_le.2 ⟨by omega, by omega⟩
  unfold Moments.faceGrad
  have hd : d = 0 ∨ d = 1 ∨ d = 2 := by omega
  have hc : c = 0 ∨ c = 1 ∨ c = 2 := by omega
  rcases hd with rfl | rfl | rfl <;> rcases hc with rfl | rfl | rfl <;> dsimp only
  all_goals first
    | exact two _ _ (hb _ _ _ (t _ _ (by omega) (by omega)) (t _ _ (by omega) (by omega)) (t _ _ (by omega) (by omega)))
        (hb _ _ _ (t _ _ (by omega) (by omega)) (t _ _ (by omega) (by omega)) (t _ _ (by omega) (by omega))) _
    | exact four _ _ _ _ (hb _ _ _ (t _ _ (by omega) (by omega)) (t _ _ (by omega) (by omega)) (t _ _ (by omega) (by omega)))
        (hb _ _ _ (t _ _ (by omega) (by omega)) (t _ _ (by omega) (by omega)) (t _ _ (by omega) (by omega)))
        (hb _ _ _ (t _ _ (by omega) (by omega)) (t _ _ (by omega) (by omega)) (t _ _ (by omega) (by omega)))
        (hb _ _ _ (t _ _ (by omega) (by omega)) (t _ _ (by omega) (by omega)) (t _ _ (by omega) (by omega))) _

section
variable {N nspec : ℕ} {tp : TilPi} {G : Coord → ADM ℝ} {B : Coord → Bounds} {sel : Fin (4 * nspec + 3) → Fin N} {kap : Coord → (Fin N → ℝ) → Fin nspec → ℝ} {q : Coord → Fin N → ℝ} {x0 : Coord}

/-- the radiation flux at a face to first order in the cell width: the flux density at the centre of the face, plus a term that is the same at all faces. -/
theorem rad_flux_deriv (s : Fin nspec) (hS : SmoothRadAt tp G B (fun y u => kap y u s) (radSide nspec sel s) q x0) (nd : ℕ) {small : ℝ → ℝ} {SMALL kmin : ℝ}
    (hsm : ∀ h, 0 < h → 0 < small h ∧ small h ≤ h) (hSM : SMALL < rootGam (G x0)) (hkm : 0 < kmin) (w : Coord) (p0 : Pos) (P : Phys ℝ N) (hew : 0 < P.ew) (r : ℤ) (ζ : Fin N → ℝ)
    (X : ℝ → Fields ℝ N) (hX : Samples w p0 r (q x0) ζ (fderiv ℝ q x0) X) (d : Fin 3) (hd : d.val < nd) (m : Fin 4) :
    ∃ R, ∀ p : Pos, (∀ e, |p e - p0 e| ≤ r - 3) → ∃ F : ℝ → ℝ, F 0 = radDensity tp G (radSide nspec sel s) q d m x0 ∧
      HasDerivWithinAt F (fderiv ℝ (radDensity tp G (radSide nspec sel s) q d m) x0 (stretch w (offset p0 d p)) + R) (Ioi 0) 0 ∧
      Tendsto (fun h => ((radRefined (small h) SMALL kmin tp G B nspec sel kap nd x0 w p0 P h).rad d p (near nd P.rt d p (X h)) (radSlot s m) - F h) / h) (𝓝[>] 0) (𝓝 0) := by
  set side := radSide nspec sel s
  have hdiff : SideDiff side := radSide_diff nspec sel s
  set τ := (1/2 - Recon.reach ℝ P.rt) • fderiv ℝ q x0 (stretch w (Pi.single d 1)) with hτ
  refine ⟨rootGam (G x0) * fderiv ℝ (fun z : Coord × (Fin N → ℝ) => radF (fun z => G z.1) (zField tp G side) d z m) (x0, q x0) (0, ζ) -
      rootGam (G x0) * Timestep.radSpeed (G x0).alpha ((G x0).beta d) ((G x0).gamInv d d) * fderiv ℝ (fun z : Coord × (Fin N → ℝ) => radU (fun z => G z.1) (zField tp G side) z m) (x0, q x0) (0, τ),
    fun p hp => ?_⟩
  obtain ⟨hl0, hr0, hl, hr⟩ := state_deriv P.ew P.em hew P.rt w p0 r (q x0) ζ (fderiv ℝ q x0) X hX d p hp
  set l := fun h => stateL (kernel P.ew P.em P.rt) (fun n c => (X h c).2 n) d p with hld
  set rr := fun h => stateR (kernel P.ew P.em P.rt) (fun n c => (X h c).2 n) d p with hrd
  set y := fun h => faceCentre x0 w p0 h d p with hyd
  have hy : HasDerivWithinAt y (stretch w (offset p0 d p)) (Ioi 0) 0 := face_deriv x0 w p0 d p
  have hy0 : y 0 = x0 := by simp [hyd, faceCentre, centre]
  have key := thin_deriv hS hdiff d m (ζ := ζ) (τ := τ) hy0 hl0 hr0 hy hl hr
  refine ⟨pathThin tp G side d m y l rr, key.1, key.2, ?_⟩
  have toward : ∀ {E : Type} [NormedAddCommGroup E] [NormedSpace ℝ E] {g : ℝ → E} {g' : E} {c : E}, HasDerivWithinAt g g' (Ioi 0) 0 → g 0 = c → Tendsto g (𝓝[>] 0) (𝓝 c) := by
    intro E _ _ g g' c hg h0
    have := hg.continuousWithinAt
    unfold ContinuousWithinAt at this
    rwa [h0] at this
  -- opacities
  obtain ⟨K, hK⟩ := hS.opacity
  have opac : ∀ c : Pos, (∀ e, |c e - p0 e| ≤ r) → ∀ᶠ h in 𝓝[>] 0, 0 ≤ kap (centre x0 w p0 h c) (X h c).2 s ∧ kap (centre x0 w p0 h c) (X h c).2 s ≤ K := fun c hc => by
    have t1 : Tendsto (fun h => centre x0 w p0 h c) (𝓝[>] 0) (𝓝 x0) := toward (centre_deriv x0 w p0 c) (by simp [centre])
    have t2 : Tendsto (fun h => (X h c).2) (𝓝[>] 0) (𝓝 (q x0)) := toward (hX c hc).2 (hX c hc).1
    exact (t1.prodMk_nhds t2).eventually hK
  have in0 : ∀ c : Pos, (∀ e, |c e - p e| ≤ 1) → ∀ e, |c e - p0 e| ≤ r := fun c hc e => by
    have h1 := hp e
    have h2 := hc e
    rw [abs_le] at h1 h2 ⊢
    constructor <;> omega
  have u01 : ∀ e : Fin 3, 0 ≤ unit d e ∧ unit d e ≤ 1 := fun e => by unfold unit; split_ifs <;> simp
  have hk := (opac (fun e => p e - unit d e) (in0 _ fun e => by have := u01 e; rw [abs_le]; constructor <;> omega)).and (opac p (in0 _ fun e => by simp))
  -- gradients
  have hJ : ∀ c, Bdd (𝓝[>] 0) fun h => RadSweep.gradAt (meshBlk nd) (fun e => h * w e) (fun n c => (X h c).2 (sel n)) (fun s : Fin nspec => ⟨s, by omega⟩) d c s p := fun c => by
    unfold RadSweep.gradAt
    refine grad_bdd nd w (fun h => RadSweep.jField (fun n c => (X h c).2 (sel n)) (fun s : Fin nspec => ⟨s, by omega⟩) s) (q x0 (sel ⟨s, by omega⟩))
      (fun k j i => (fderiv ℝ q x0 (stretch w fun e => ((![i, j, k] : Pos) e : ℝ) - p0 e) + ζ) (sel ⟨s, by omega⟩)) (p 2) (p 1) (p 0) (fun a b c ha hb hc => ?_) d c
    have hin := in0 ![c, b, a] (fun e => by fin_cases e <;> assumption)
    exact ⟨congrFun (hX _ hin).1 _, (hasDerivWithinAt_pi.1 (hX _ hin).2) _⟩
  have main := blend_vanishes hS hdiff d m (y := y) (l := l) (r := rr) (w d) (K := K) hsm hSM hkm (toward hy hy0) (toward hl hl0) (toward hr hr0) hk hJ
  refine main.congr fun h => ?_
  congr 2
  show _ = codeRad P.ew P.em P.rt nd (fun d => h * w d) (small h) SMALL kmin tp (faceGeo G B x0 w p0 h) nspec sel (fun s => ⟨s, by omega⟩) (fun p u => kap (centre x0 w p0 h p) u) d p
    (near nd P.rt d p (X h)) (radSlot s m)
  unfold codeRad
  rw [radOf_global _ _ _ _ _ _ _ _ _ _ d hd p]
  refine Fin.cases ?_ (fun i => ?_) m
  · rw [((radStore_slots nspec _).1 s).1]; rfl
  · rw [((radStore_slots nspec _).1 s).2 i]; rfl

/-- the rate of change on the global array. -/
theorem rad_div_consistent (s : Fin nspec) (hS : SmoothRadAt tp G B (fun y u => kap y u s) (radSide nspec sel s) q x0) (nd : ℕ) {small : ℝ → ℝ} {SMALL kmin : ℝ}
    (hsm : ∀ h, 0 < h → 0 < small h ∧ small h ≤ h) (hSM : SMALL < rootGam (G x0)) (hkm : 0 < kmin) (w : Coord) (hw : ∀ d, 0 < w d) (p0 : Pos) (P : Phys ℝ N) (hew : 0 < P.ew)
    (hfix : ∀ d p F, P.fix d p F = F) (hmhd : ∀ b0 ∈ P.mhd, b0 + 3 ≤ 9) (hfl : ∀ d p u v k, 9 ≤ k → P.S d p u v k = 0)
    (r : ℤ) (ζ : Fin N → ℝ) (X : ℝ → Fields ℝ N) (hX : Samples w p0 r (q x0) ζ (fderiv ℝ q x0) X) (p1 : Pos) (hp1 : ∀ e, |p1 e - p0 e| ≤ r - 4) (m : Fin 4) :
    Tendsto (fun h => refDiv nd (fun d => h * w d) (refAll nd (radRefined (small h) SMALL kmin tp G B nspec sel kap nd x0 w p0 P h) (X h)) (radSlot s m) p1) (𝓝[>] 0)
      (𝓝 (-∑ d : Fin 3, if d.val < nd then fderiv ℝ (radDensity tp G (radSide nspec sel s) q d m) x0 (Pi.single d 1) else 0)) := by
  have h9 : 9 ≤ radSlot s m := by unfold radSlot; omega
  have hF : ∀ h d p, refAll nd (radRefined (small h) SMALL kmin tp G B nspec sel kap nd x0 w p0 P h) (X h) d p (radSlot s m) =
      (radRefined (small h) SMALL kmin tp G B nspec sel kap nd x0 w p0 P h).rad d p (near nd P.rt d p (X h)) (radSlot s m) := by
    intro h d p
    have hct : refCT nd P.mhd (refFlux (radRefined (small h) SMALL kmin tp G B nspec sel kap nd x0 w p0 P h) (X h)) d p (radSlot s m) = 0 := by
      unfold refCT
      cases hm : P.mhd with
      | none => exact hfl _ _ _ _ _ h9
      | some b0 =>
        have hb := hmhd b0 (by rw [hm]; rfl)
        simp only
        rw [dif_neg (by omega)]
        exact hfl _ _ _ _ _ h9
    show P.fix d p (fun k => refCT nd P.mhd (refFlux (radRefined (small h) SMALL kmin tp G B nspec sel kap nd x0 w p0 P h) (X h)) d p k + _) (radSlot s m) = _
    rw [hfix]
    simp only [hct, zero_add]
    rfl
  unfold refDiv
  refine Tendsto.neg (tendsto_finset_sum _ fun d _ => ?_)
  split_ifs with hd
  swap
  · exact tendsto_const_nhds
  obtain ⟨R, hR⟩ := rad_flux_deriv s hS nd hsm hSM hkm w p0 P hew r ζ X hX d hd m
  have u01 : ∀ e : Fin 3, 0 ≤ unit d e ∧ unit d e ≤ 1 := fun e => by unfold unit; split_ifs <;> simp
  obtain ⟨F0, z0, f0, t0⟩ := hR p1 fun e => by have := hp1 e; rw [abs_le] at this ⊢; constructor <;> omega
  obtain ⟨F1, z1, f1, t1⟩ := hR (fun e => p1 e + unit d e) fun e => by have := hp1 e; have := u01 e; rw [abs_le] at *; constructor <;> omega
  have dF := f1.sub f0
  rw [hasDerivWithinAt_iff_tendsto_slope' (by simp)] at dF
  have h2 := ((dF.add t1).sub t0).div_const (w d)
  have e : (fderiv ℝ (radDensity tp G (radSide nspec sel s) q d m) x0 (stretch w (offset p0 d fun e => p1 e + unit d e)) + R -
      (fderiv ℝ (radDensity tp G (radSide nspec sel s) q d m) x0 (stretch w (offset p0 d p1)) + R) + 0 - 0) / w d =
      fderiv ℝ (radDensity tp G (radSide nspec sel s) q d m) x0 (Pi.single d 1) := by
    rw [offset_up w p0 d d p1 _ rfl, map_add, map_smul, smul_eq_mul]
    have := (hw d).ne'
    field_simp
    ring
  rw [e] at h2
  refine h2.congr fun h => ?_
  simp only [hF, slope, vsub_eq_sub, smul_eq_mul, sub_zero, Pi.sub_apply, z0, z1, sub_self]
  rw [inv_mul_eq_div, ← add_div, ← sub_div, div_div]
  congr 1
  ring

/-- **C153**: a cell of a block of a mesh, whatever the memory contained and in whatever order the loops ran.  The primitive variables of the cells are those of a differentiable state at the cell centres; metric
and closure are smooth; reconstruction bounds are not reached.  With any reconstruction method of the program and any number of species, in one, two or three dimensions, with opacities from zero to any
bound: as the cells shrink, the rate of change of energy and momentum of every species from the fluxes tends to minus the divergence of the fluxes of the moment equations. -/
theorem rad_rate_consistent (s : Fin nspec) (hS : SmoothRadAt tp G B (fun y u => kap y u s) (radSide nspec sel s) q x0) {small : ℝ → ℝ} {SMALL kmin : ℝ}
    (hsm : ∀ h, 0 < h → 0 < small h ∧ small h ≤ h) (hSM : SMALL < rootGam (G x0)) (hkm : 0 < kmin) (w : Coord) (hw : ∀ d, 0 < w d) (P : Phys ℝ N) (hew : 0 < P.ew)
    (hfix : ∀ d p F, P.fix d p F = F) (hmhd : ∀ b0 ∈ P.mhd, b0 + 3 ≤ 9) (hfl : ∀ d p u v k, 9 ≤ k → P.S d p u v k = 0)
    (b : Blk) (hg : 1 + radius P.rt ≤ b.g) (off c : Pos) (hc : b.Interior c) (M : ℝ → Mem ℝ N) (ho : ∀ h, Covers b (M h).order) (cur : ℝ → Fields ℝ N)
    (hcur : ∀ h, 0 < h → ∀ a, b.Entire a → (cur h a).2 = q (centre x0 w c h a)) (m : Fin 4) :
    Tendsto (fun h =>
        let stage := radRefined (small h) SMALL kmin tp G B nspec sel kap b.ndim x0 w (fun e => c e + off e) P h
        rate stage.dx b (blockFlux stage b off (M h) (cur h)) (radSlot s m) c) (𝓝[>] 0)
      (𝓝 (-∑ d : Fin 3, if d.val < b.ndim then fderiv ℝ (fun y => comp (radPhys G (fieldOf tp G fun y => radSide nspec sel s (q y)) d y) m) x0 (Pi.single d 1) else 0)) := by
  set p0 : Pos := fun e => c e + off e with hp0
  set Y : ℝ → Fields ℝ N := fun h p => ((cur h fun e => p e - off e).1, q (centre x0 w p0 h p)) with hY
  have key := rad_div_consistent s hS b.ndim hsm hSM hkm w hw p0 P hew hfix hmhd hfl 4 0 Y (samples_state x0 w p0 4 q hS.state Y fun _ _ => rfl) p0 (by simp) m
  refine key.congr' ?_
  filter_upwards [self_mem_nhdsWithin] with h hh
  have hYc : ∀ a, b.Entire a → cur h a = Y h fun e => a e + off e := by
    intro a ha
    have e1 : (fun e => a e + off e - off e) = a := by funext e; ring
    have e2 : centre x0 w p0 h (fun e => a e + off e) = centre x0 w c h a := by
      unfold centre
      congr 2
      funext e
      simp only [hp0]
      push_cast
      ring
    refine Prod.ext ?_ ?_
    · simp only [hY, e1]
    · simp only [hY, e2]
      exact hcur h hh a ha
  exact (rate_global (radRefined (small h) SMALL kmin tp G B nspec sel kap b.ndim x0 w p0 P h) b hg off (M h) (ho h) (cur h) (Y h) hYc (radSlot s m) c hc).symm

end

/-! ### The closures -/

section
variable {N : ℕ} {G : Coord → ADM ℝ} {side : (Fin N → ℝ) → Side} {x0 : Coord}

/-- the Eddington closure. -/
def eddTilPi : TilPi := fun _ _ _ _ _ _ => 0

theorem edd_admissible (u : Fin N → ℝ) :
    (∀ i j, DifferentiableAt ℝ (fun z : Coord × (Fin N → ℝ) => (fieldOf eddTilPi (fun z => G z.1) fun z => side z.2).Pi z i j) (x0, u)) ∧
    ∃ C, ∀ᶠ z : Coord × (Fin N → ℝ) in 𝓝 (x0, u), ∀ H i j, |eddTilPi (G z.1) (Moments.threeVel (G z.1) (side z.2).vp) (side z.2).J H i j| ≤ C :=
  ⟨fun _ _ => differentiableAt_const _, 0, Eventually.of_forall fun _ _ _ _ => by simp [eddTilPi]⟩

/-- the direction of the flux has bounded components. -/
theorem fluxDir_bound {small : ℝ} (hs : 0 ≤ small) {G : ADM ℝ} (hG : G.Valid) (hp : Rel.PosDef G) {v : Vec} (hv : Closure.Slow G v) (H : Vec) (i : Fin 3) :
    |Closure.fluxDir small G v H i| ≤ 100 * √(G.gamInv i i) := by
  have e : cc H (Closure.raise G H) - cc H v ^ 2 = Closure.hsq G v H := by
    simp only [Closure.hsq, Closure.cc, Closure.ccov, Closure.raise, Fin.sum_univ_three]; ring
  have hdot : ∀ (x : Vec) (y : Vec), G.dot3 x (Closure.raise G y) = cc x y := fun x y => Closure.dot_raise hG x y
  have hcc : G.dot3 (Closure.raise G H) (Closure.raise G H) = Closure.ccov G H H := by
    rw [hdot]; simp only [Closure.cc, Closure.raise, Closure.ccov, Fin.sum_univ_three]; ring
  set E : Vec := Pi.single i 1 with hE
  have hEi : Closure.ccov G E E = G.gamInv i i := by
    simp only [Closure.ccov, hE, Pi.single_apply]
    simp
  have hEE : G.dot3 (Closure.raise G E) (Closure.raise G E) = G.gamInv i i := by
    rw [hdot, ← hEi]; simp only [Closure.cc, Closure.raise, Closure.ccov, Fin.sum_univ_three]; ring
  have hHi : G.dot3 (Closure.raise G H) (Closure.raise G E) = Closure.raise G H i := by
    rw [hdot]; simp [Closure.cc, hE, Pi.single_apply]
  have cs1 := C2P.cauchy_schwarz hG hp (Closure.raise G H) (Closure.raise G E)
  rw [hHi, hcc, hEE] at cs1
  have cs2 := C2P.cauchy_schwarz hG hp v (Closure.raise G H)
  rw [hdot, hcc] at cs2
  have hn : 0 ≤ Closure.ccov G H H := by
    rw [← hcc]; exact hp _
  have hq : Closure.ccov G H H / 10000 ≤ Closure.hsq G v H := by
    unfold Closure.hsq
    unfold Closure.Slow at hv
    norm_num at hv
    nlinarith
  unfold Closure.fluxDir
  rw [e]
  have hr : Robust.ratio small (Closure.raise G H i) √(Closure.hsq G v H) = Closure.raise G H i / (√(Closure.hsq G v H) + small) := by
    unfold Robust.ratio; simp only [if_pos (Real.sqrt_nonneg _), one_mul]
  rw [hr, abs_div, abs_of_nonneg (add_nonneg (Real.sqrt_nonneg _) hs)]
  have h1 : |Closure.raise G H i| ≤ √(Closure.ccov G H H) * √(G.gamInv i i) := by
    rw [← Real.sqrt_mul hn]
    exact Real.abs_le_sqrt cs1
  have h2 : √(Closure.ccov G H H) ≤ 100 * √(Closure.hsq G v H) := by
    have : Closure.ccov G H H ≤ 100 ^ 2 * Closure.hsq G v H := by linarith
    calc √(Closure.ccov G H H) ≤ √(100 ^ 2 * Closure.hsq G v H) := Real.sqrt_le_sqrt this
      _ = 100 * √(Closure.hsq G v H) := by rw [Real.sqrt_mul (by norm_num), Real.sqrt_sq (by norm_num)]
  rcases eq_or_lt_of_le (add_nonneg (Real.sqrt_nonneg (Closure.hsq G v H)) hs) with h0 | h0
  · rw [← h0, div_zero]; positivity
  · rw [div_le_iff₀ h0]
    have h3 := Real.sqrt_nonneg (G.gamInv i i)
    nlinarith [mul_le_mul_of_nonneg_right h2 h3, mul_nonneg h3 hs]

/-- the M1 closure, at states with flux factor strictly between zero and one. -/
theorem m1_admissible {small : ℝ} (hs : 0 ≤ small) (hG : SmoothGeom G x0) (hV : ∀ x, (G x).Valid) (hp : ∀ x, Rel.PosDef (G x)) (hd : SideDiff side) (u : Fin N → ℝ)
    (slow : (G x0).dot3 (Moments.threeVel (G x0) (side u).vp) (Moments.threeVel (G x0) (side u).vp) < 0.9999) (hJ : 0 < (side u).J)
    (hq : 0 < Closure.hsq (G x0) (Moments.threeVel (G x0) (side u).vp) fun i => (side u).J * (side u).h i)
    (hx : √(Closure.hsq (G x0) (Moments.threeVel (G x0) (side u).vp) fun i => (side u).J * (side u).h i) < (side u).J) :
    (∀ i j, DifferentiableAt ℝ (fun z : Coord × (Fin N → ℝ) => (fieldOf (Closure.tilPiFromPrim small) (fun z => G z.1) fun z => side z.2).Pi z i j) (x0, u)) ∧
    ∃ C, ∀ᶠ z : Coord × (Fin N → ℝ) in 𝓝 (x0, u), ∀ H i j, |Closure.tilPiFromPrim small (G z.1) (Moments.threeVel (G z.1) (side z.2).vp) (side z.2).J H i j| ≤ C := by
  have hGz := geom_lift hG u
  have vd := vel_diff hG (hp x0) hd u
  have Jd : DifferentiableAt ℝ (fun z : Coord × (Fin N → ℝ) => (side z.2).J) (x0, u) := DifferentiableAt.fun_comp' (g := fun u => (side u).J) (x0, u) (hd.J _) differentiableAt_snd
  have hd' : ∀ i, DifferentiableAt ℝ (fun z : Coord × (Fin N → ℝ) => (side z.2).h i) (x0, u) := fun i =>
    DifferentiableAt.fun_comp' (g := fun u => (side u).h i) (x0, u) (hd.h i _) differentiableAt_snd
  have Hd : ∀ i, DifferentiableAt ℝ (fun z : Coord × (Fin N → ℝ) => (side z.2).J * (side z.2).h i) (x0, u) := fun i => Jd.mul (hd' i)
  set V : Coord × (Fin N → ℝ) → Vec := fun z => Moments.threeVel (G z.1) (side z.2).vp with hV'
  set H : Coord × (Fin N → ℝ) → Vec := fun z i => (side z.2).J * (side z.2).h i with hH'
  set Q : Coord × (Fin N → ℝ) → ℝ := fun z => cc (H z) (Closure.raise (G z.1) (H z)) - cc (H z) (V z) ^ 2 with hQ
  have eQ : ∀ z, Q z = Closure.hsq (G z.1) (V z) (H z) := fun z => by
    simp only [hQ, Closure.hsq, Closure.cc, Closure.ccov, Closure.raise, Fin.sum_univ_three]; ring
  have rd := raiseV_diff hGz H Hd
  have Qd : DifferentiableAt ℝ Q (x0, u) := (cc_diff H (fun z => Closure.raise (G z.1) (H z)) Hd rd).sub ((cc_diff H V Hd vd).pow 2)
  have Q0 : 0 < Q (x0, u) := by rw [eQ]; exact hq
  have sQd : DifferentiableAt ℝ (fun z => √(Q z)) (x0, u) := Qd.sqrt Q0.ne'
  have sQ0 : 0 < √(Q (x0, u)) := Real.sqrt_pos.2 Q0
  have sQJ : √(Q (x0, u)) < (side u).J := by rw [eQ]; exact hx
  -- direction
  have fd : ∀ i, DifferentiableAt ℝ (fun z : Coord × (Fin N → ℝ) => Closure.fluxDir small (G z.1) (V z) (H z) i) (x0, u) := fun i => by
    have e : (fun z : Coord × (Fin N → ℝ) => Closure.fluxDir small (G z.1) (V z) (H z) i) = fun z => Closure.raise (G z.1) (H z) i / (√(Q z) + small) := by
      funext z
      unfold Closure.fluxDir Robust.ratio
      simp only [if_pos (Real.sqrt_nonneg _), one_mul, hQ]
    rw [e]
    exact ddiv (rd i) (sQd.add_const small) (ne_of_gt (by show 0 < √(Q (x0, u)) + small; linarith))
  have xd : DifferentiableAt ℝ (fun z : Coord × (Fin N → ℝ) => Closure.fluxFactor small (G z.1) (V z) (side z.2).J (H z)) (x0, u) := by
    have h1 : DifferentiableAt ℝ (fun z : Coord × (Fin N → ℝ) => √(Q z) / ((side z.2).J + small)) (x0, u) := ddiv sQd (Jd.add_const small) (by positivity)
    refine h1.congr_of_eventuallyEq ?_
    filter_upwards [Jd.continuousAt.eventually (lt_mem_nhds hJ), sQd.continuousAt.eventually_lt Jd.continuousAt sQJ] with z a b
    unfold Closure.fluxFactor Robust.ratio
    have ha : 0 < (side z.2).J := a
    simp only [if_pos ha.le, one_mul]
    have hle : √(Q z) / ((side z.2).J + small) ≤ 1 := by rw [div_le_one (by linarith)]; linarith [show √(Q z) < (side z.2).J from b]
    have hge : 0 ≤ √(Q z) / ((side z.2).J + small) := div_nonneg (Real.sqrt_nonneg _) (by linarith)
    rw [show √(cc (H z) (Closure.raise (G z.1) (H z)) - cc (H z) (V z) ^ 2) = √(Q z) from rfl, min_eq_right hle, max_eq_left hge]
  have SR : SmoothRad (fun z : Coord × (Fin N → ℝ) => G z.1) ⟨V, fun _ _ _ => 0, fun _ => 0, fun _ _ => 0⟩ (x0, u) :=
    ⟨vd, fun _ _ => differentiableAt_const _, differentiableAt_const _, fun _ => differentiableAt_const _, slow⟩
  have Wd := W_diff hGz SR
  constructor
  · intro i j
    have a := fd i; have b := fd j; have c := vd i; have e := vd j; have g := hGz.gamInv i j
    simp only [fieldOf, Closure.tilPiFromPrim, Closure.tilPi, Closure.athin, Closure.eddFactor, Closure.W2]
    simp only [hV', hH'] at a b c e xd Wd
    fun_prop
  · -- bound
    have vc : ContinuousAt (fun z : Coord × (Fin N → ℝ) => (G z.1).dot3 (V z) (V z)) (x0, u) := by
      have := (cc_diff V (fun z => Closure.lower (G z.1) (V z)) vd (lowerV_diff hGz V vd)).continuousAt
      simpa only [Closure.cc_lower] using this
    have B1 : ∀ i, Bdd (𝓝 (x0, u)) fun z : Coord × (Fin N → ℝ) => 100 * √((G z.1).gamInv i i) := fun i => (Bdd.const 100).mul (Bdd.of_tendsto (hGz.gamInv i i).continuousAt.sqrt)
    have B2 : ∀ i j, Bdd (𝓝 (x0, u)) fun z : Coord × (Fin N → ℝ) => (Closure.W2 (G z.1) (V z) * V z i * V z j + (G z.1).gamInv i j) / 3 := fun i j =>
      ((((((W_bdd (fun z : Coord × (Fin N → ℝ) => G z.1) V).mul (W_bdd (fun z : Coord × (Fin N → ℝ) => G z.1) V)).mul (Bdd.of_tendsto (vd i).continuousAt)).mul (Bdd.of_tendsto (vd j).continuousAt)).add
        (Bdd.of_tendsto (hGz.gamInv i j).continuousAt)).mul (Bdd.const (1/3))).congr (Eventually.of_forall fun z => by simp only [Closure.W2]; ring)
    choose C1 hC1 using B1
    choose C2 hC2 using B2
    have ev1 := eventually_all.2 hC1
    have ev2 := eventually_all.2 fun i => eventually_all.2 (hC2 i)
    refine ⟨(∑ i, ∑ j, (|C1 i| * |C1 j| + |C2 i j|)) * 10, ?_⟩
    filter_upwards [vc.eventually (gt_mem_nhds slow), ev1, ev2] with z hz h1 h2 H' i j
    have hsl : Closure.Slow (G z.1) (V z) := le_of_lt hz
    have f1 : ∀ k, |Closure.fluxDir small (G z.1) (V z) H' k| ≤ |C1 k| := fun k =>
      (fluxDir_bound hs (hV z.1) (hp z.1) hsl H' k).trans (((le_abs_self _).trans (h1 k)).trans (le_abs_self _))
    obtain ⟨x0', x1'⟩ := (Closure.flux_factor_range (hV z.1) (V z) (side z.2).J H').1 small
    set ξ := Closure.fluxFactor small (G z.1) (V z) (side z.2).J H'
    have ha : |Closure.athin ξ| ≤ 10 := by
      unfold Closure.athin Closure.eddFactor
      rw [show (0.5 : ℝ) = 1/2 by norm_num, show (1.0 : ℝ) = 1 by norm_num, show (3.0 : ℝ) = 3 by norm_num]
      have p2 : ξ ^ 2 ≤ 1 := pow_le_one₀ x0' x1'
      have p3 : ξ ^ 3 ≤ 1 := pow_le_one₀ x0' x1'
      have q2 : 0 ≤ ξ ^ 2 := by positivity
      have q3 : 0 ≤ ξ ^ 3 := by positivity
      rw [abs_le]; constructor <;> nlinarith
    show |Closure.tilPiFromPrim small (G z.1) (V z) (side z.2).J H' i j| ≤ _
    unfold Closure.tilPiFromPrim Closure.tilPi
    rw [abs_mul]
    refine mul_le_mul ?_ ha (abs_nonneg _) (Finset.sum_nonneg fun _ _ => Finset.sum_nonneg fun _ _ => by positivity)
    have t1 : |Closure.fluxDir small (G z.1) (V z) H' i * Closure.fluxDir small (G z.1) (V z) H' j - (Closure.W2 (G z.1) (V z) * V z i * V z j + (G z.1).gamInv i j) / 3| ≤
        |C1 i| * |C1 j| + |C2 i j| := by
      refine (abs_sub _ _).trans (add_le_add ?_ ((h2 i j).trans (le_abs_self _)))
      rw [abs_mul]
      exact mul_le_mul (f1 i) (f1 j) (abs_nonneg _) (abs_nonneg _)
    refine t1.trans ?_
    refine (Finset.single_le_sum (f := fun j => |C1 i| * |C1 j| + |C2 i j|) (fun _ _ => by positivity) (Finset.mem_univ j)).trans ?_
    exact Finset.single_le_sum (f := fun i => ∑ j, (|C1 i| * |C1 j| + |C2 i j|)) (fun _ _ => Finset.sum_nonneg fun _ _ => by positivity) (Finset.mem_univ i)

end

/-! ### Fluxes and geometric sources together -/

/-- geometric sources of species `s` in a cell: primitives `u`, conserved variables `U`, moments.cpp:772-833. -/
noncomputable def radSrc {N : ℕ} (nspec : ℕ) (sel : Fin (4 * nspec + 3) → Fin N) (s : Fin nspec) (tp : TilPi) (C : CellGeom) (sdet : ℝ) (p : Pos) (U : ℕ → ℝ) (u : Fin N → ℝ) : ℝ × Vec :=
  let S := radSide nspec sel s u
  let v := Moments.threeVel (C.G p) S.vp
  Sources.radSources (C.G p) v sdet (C.dg p) (C.da p) (U (radSlot s 0)) (fun i => U (radSlot s i.succ)) S.J S.h (tp (C.G p) v S.J fun i => S.J * S.h i)

/-- energy and momentum the gas gives to the radiation per unit coordinate volume and time, as in the implicit solvers (`BackwardEuler`). -/
noncomputable def exchangeRate (G : ADM ℝ) (v : Vec) (J : ℝ) (H : Vec) (kJ kH JBB : ℝ) : ℝ × Vec :=
  (rootGam G * (Closure.W G v * (G.alpha * kJ) * (JBB - J) - G.alpha * kH * cc v H), fun i => rootGam G * (Closure.W G v * (G.alpha * kJ) * Closure.lower G v i * (JBB - J) - G.alpha * kH * H i))

section
variable {N nspec : ℕ} {tp : TilPi} {G : Event → ADM ℝ} {B : Coord → Bounds} {sel : Fin (4 * nspec + 3) → Fin N} {kap : Coord → (Fin N → ℝ) → Fin nspec → ℝ} {q : Event → Fin N → ℝ} {x0 : Coord} {t : ℝ}

theorem radSources_limit (Ga : ADM ℝ) (v : Vec) (sd : ℝ) (E : ℝ) (F : Vec) (J : ℝ) (hr : Vec) (Pi : Tens2) {dg : ℝ → Fin 4 → Fin 4 → Fin 4 → ℝ} {da : ℝ → Fin 4 → ℝ} {dg0 : Fin 4 → Fin 4 → Fin 4 → ℝ} {da0 : Fin 4 → ℝ}
    (hdg : ∀ a b s, Tendsto (fun h => dg h a b s) (𝓝[>] 0) (𝓝 (dg0 a b s))) (hda : ∀ m, Tendsto (fun h => da h m) (𝓝[>] 0) (𝓝 (da0 m))) (m : Fin 4) :
    Tendsto (fun h => comp (Sources.radSources Ga v sd (dg h) (da h) E F J hr Pi) m) (𝓝[>] 0) (𝓝 (comp (Sources.radSources Ga v sd dg0 da0 E F J hr Pi) m)) := by
  have hc : ∀ a b c, Tendsto (fun h => GeomUtils.connection (dg h) a b c) (𝓝[>] 0) (𝓝 (GeomUtils.connection dg0 a b c)) := fun a b c =>
    (((hdg b a c).add (hdg c a b)).sub (hdg b c a)).const_mul _
  refine Fin.cases ?_ (fun i => ?_) m
  · simp only [comp, Fin.cons_zero, Sources.radSources]
    rw [funext fun h => (Sources.rad_eq_fluid Ga sd (dg h) (da h) _).1, (Sources.rad_eq_fluid Ga sd dg0 da0 _).1]
    unfold Sources.energySourceValencia
    exact ((tendsto_finset_sum _ fun m _ => (hda m).const_mul _).sub (tendsto_finset_sum _ fun m _ => tendsto_finset_sum _ fun n _ =>
      (tendsto_finset_sum _ fun r _ => (hc _ _ _).const_mul _).const_mul _)).const_mul _
  · simp only [comp, Fin.cons_succ, Sources.radSources]
    rw [funext fun h => congrFun (Sources.rad_eq_fluid Ga sd (dg h) (da h) _).2 i, congrFun (Sources.rad_eq_fluid Ga sd dg0 da0 _).2 i]
    unfold Sources.momentumSource
    exact (tendsto_finset_sum _ fun m _ => tendsto_finset_sum _ fun n _ => ((hdg _ _ _).sub (hc _ _ _)).const_mul _).const_mul _

/-- **C153, fluxes and sources**: a smooth radiation field that solves the moment equations at an event, in any smooth flow and any smooth spacetime (which may depend on time).  The variables of the cells are those
of the field at the cell centres, and the metric derivatives the program uses tend to the true ones as the cells shrink.  Then the rate of change of energy and momentum of every species from fluxes and geometric
sources tends to the time derivative of the stored variable of the field, less the exchange with the gas, which is what the implicit solvers add. -/
theorem rad_rate (s : Fin nspec) (hG : SmoothGeom G (at_ t x0)) (hV : ∀ Y, (G Y).Valid) (ha : ∀ Y, 0 < (G Y).alpha) (hp : ∀ Y, Rel.PosDef (G Y))
    (hS : SmoothRadAt tp (fun y => G (at_ t y)) B (fun y u => kap y u s) (radSide nspec sel s) (fun y => q (at_ t y)) x0)
    (hR : SmoothRad G (fieldOf tp G fun Y => radSide nspec sel s (q Y)) (at_ t x0))
    (hPi : ∀ Y i j, (fieldOf tp G fun Y => radSide nspec sel s (q Y)).Pi Y i j = (fieldOf tp G fun Y => radSide nspec sel s (q Y)).Pi Y j i)
    (h0 : ∀ Y, let R := fieldOf tp G fun Y => radSide nspec sel s (q Y); (Closure.W (G Y) (R.v Y) ^ 2 - 1) * vvPi (G Y) (R.v Y) (R.Pi Y) * R.J Y = 0)
    {kJ kH JBB : ℝ} (hT : Transfer G (fieldOf tp G fun Y => radSide nspec sel s (q Y)) kJ kH JBB (at_ t x0)) {small : ℝ → ℝ} {SMALL kmin : ℝ}
    (hsm : ∀ h, 0 < h → 0 < small h ∧ small h ≤ h) (hSM : SMALL < rootGam (G (at_ t x0))) (hkm : 0 < kmin) (w : Coord) (hw : ∀ d, 0 < w d) (P : Phys ℝ N) (hew : 0 < P.ew)
    (hfix : ∀ d p F, P.fix d p F = F) (hmhd : ∀ b0 ∈ P.mhd, b0 + 3 ≤ 9) (hfl : ∀ d p u v k, 9 ≤ k → P.S d p u v k = 0)
    (b : Blk) (hg : 1 + radius P.rt ≤ b.g) (off c : Pos) (hc : b.Interior c) (M : ℝ → Mem ℝ N) (ho : ∀ h, Covers b (M h).order) (cur : ℝ → Fields ℝ N)
    (hcur : ∀ h, 0 < h → ∀ a, b.Entire a → (cur h a).2 = q (at_ t (centre x0 w c h a)))
    (hcon : ∀ h, 0 < h → ∀ m, (cur h c).1 (radSlot s m) = comp (radStored G (fieldOf tp G fun Y => radSide nspec sel s (q Y)) (at_ t x0)) m)
    (C : ℝ → CellGeom) (hCG : ∀ h, 0 < h → (C h).G (fun e => c e + off e) = G (at_ t x0))
    (hdg : ∀ a b s, Tendsto (fun h => (C h).dg (fun e => c e + off e) a b s) (𝓝[>] 0) (𝓝 (metricDeriv G (at_ t x0) a b s)))
    (hda : ∀ m, Tendsto (fun h => (C h).da (fun e => c e + off e) m) (𝓝[>] 0) (𝓝 (pd m (fun Y => Real.log (G Y).alpha) (at_ t x0))))
    (hsym : ∀ d : Fin 3, b.ndim ≤ d.val → ∀ m, pd d.succ (fun Y => comp (radPhys G (fieldOf tp G fun Y => radSide nspec sel s (q Y)) d Y) m) (at_ t x0) = 0) (m : Fin 4) :
    Tendsto (fun h =>
        let stage := radRefined (small h) SMALL kmin tp (fun y => G (at_ t y)) B nspec sel kap b.ndim x0 w (fun e => c e + off e) P h
        rate stage.dx b (blockFlux stage b off (M h) (cur h)) (radSlot s m) c +
          comp (radSrc nspec sel s tp (C h) (rootGam (G (at_ t x0))) (fun e => c e + off e) (cur h c).1 (cur h c).2) m) (𝓝[>] 0)
      (𝓝 (pd 0 (fun Y => comp (radStored G (fieldOf tp G fun Y => radSide nspec sel s (q Y)) Y) m) (at_ t x0) -
        let R := fieldOf tp G fun Y => radSide nspec sel s (q Y)
        comp (exchangeRate (G (at_ t x0)) (R.v (at_ t x0)) (R.J (at_ t x0)) (R.H (at_ t x0)) kJ kH JBB) m)) := by
  set R := fieldOf tp G fun Y => radSide nspec sel s (q Y) with hRd
  have hce : b.Entire c := interior_entire b (by
    have : 0 ≤ radius P.rt := by cases P.rt <;> decide
    omega) c hc
  have h1 := rad_rate_consistent s hS hsm hSM hkm w hw P hew hfix hmhd hfl b hg off c hc M ho cur hcur m
  have h2 := radSources_limit (G (at_ t x0)) (R.v (at_ t x0)) (rootGam (G (at_ t x0))) (radStored G R (at_ t x0)).1 (radStored G R (at_ t x0)).2 (R.J (at_ t x0))
    (radSide nspec sel s (q (at_ t x0))).h (R.Pi (at_ t x0)) hdg hda m
  have h2' := h2.congr' (f₂ := fun h => comp (radSrc nspec sel s tp (C h) (rootGam (G (at_ t x0))) (fun e => c e + off e) (cur h c).1 (cur h c).2) m) (by
    filter_upwards [self_mem_nhdsWithin] with h hh
    have e : centre x0 w c h c = x0 := by funext e; simp [centre]
    have eq : (cur h c).2 = q (at_ t x0) := by rw [hcur h hh c hce, e]
    have e0 : (cur h c).1 (radSlot s 0) = (radStored G R (at_ t x0)).1 := hcon h hh 0
    have e1 : (fun i : Fin 3 => (cur h c).1 (radSlot s i.succ)) = (radStored G R (at_ t x0)).2 := by funext i; exact hcon h hh i.succ
    unfold radSrc
    simp only [hCG h hh, eq, e0, e1]
    rfl)
  have h3 := h1.add h2'
  obtain ⟨b0, b1⟩ := rad_balance hG hV ha hp hR hPi h0 hT (radSide nspec sel s (q (at_ t x0))).h (fun _ => rfl)
  have hdens : ∀ d m, DifferentiableAt ℝ (fun Y => comp (radPhys G R d Y) m) (at_ t x0) := fun d m => by
    simp only [radPhys_comp]
    exact (rootGam_diff hG (hV _) (hp _)).mul (radF_diff hG hR d m)
  have hdiv : (-∑ d : Fin 3, if d.val < b.ndim then fderiv ℝ (fun y => comp (radPhys (fun y => G (at_ t y)) (fieldOf tp (fun y => G (at_ t y)) fun y => radSide nspec sel s (q (at_ t y))) d y) m) x0
      (Pi.single d 1) else 0) = -∑ d : Fin 3, pd d.succ (fun Y => comp (radPhys G R d Y) m) (at_ t x0) := by
    congr 1
    refine Finset.sum_congr rfl fun d _ => ?_
    split_ifs with hd
    · exact slice_fderiv (f := fun Y => comp (radPhys G R d Y) m) (hdens d m) d
    · exact (hsym d (by omega) m).symm
  rw [hdiv] at h3
  refine Eq.subst (motive := fun y => Tendsto _ _ (𝓝 y)) ?_ h3
  refine Fin.cases ?_ (fun i => ?_) m
  · simp only [comp, Fin.cons_zero, exchangeRate]
    rw [b0]; ring
  · simp only [comp, Fin.cons_succ, exchangeRate]
    rw [b1 i]; ring

end

/-! ### Example: radiation dying out in an absorbing and scattering medium -/

/-- energy density `exp(-3x/2)`, flux half of it, gas at rest. -/
noncomputable def exGlow : Event → Fin 13 → ℝ := fun Y => ![1, 0, 0, 0, 1, 0, 0, 0, 0, Real.exp (-3/2 * Y 1), 1/2, 0, 0]

noncomputable def exGlowField : RadField Event := fieldOf eddTilPi (fun _ => C2P.flat) fun Y => radSide 1 exSel (0 : Fin 1) (exGlow Y)

theorem exGlow_side (Y : Event) : radSide 1 exSel (0 : Fin 1) (exGlow Y) = ⟨![0, 0, 0], Real.exp (-3/2 * Y 1), ![1/2, 0, 0]⟩ := by
  unfold radSide RadSweep.sideOf
  congr 1
  · funext i; fin_cases i <;> simp [exSel, exGlow]
  · funext i; fin_cases i <;> simp [Moments.packVar, exSel, exGlow]

theorem flat_vel0 : Moments.threeVel C2P.flat ![0, 0, 0] = ![0, 0, 0] := by
  funext i
  fin_cases i <;> simp [Moments.threeVel]

theorem exGlowField_eq : exGlowField = ⟨fun _ => ![0, 0, 0], fun _ => ![![0, 0, 0], ![0, 0, 0], ![0, 0, 0]], fun Y => Real.exp (-3/2 * Y 1), fun Y => ![Real.exp (-3/2 * Y 1) * (1/2), 0, 0]⟩ := by
  unfold exGlowField fieldOf
  simp only [exGlow_side, flat_vel0]
  congr 1
  · funext Y i j; fin_cases i <;> fin_cases j <;> rfl
  · funext Y i; fin_cases i <;> simp

theorem exGlow_diff (X : Event) : DifferentiableAt ℝ exGlow X := by
  rw [differentiableAt_pi]
  intro i
  unfold exGlow
  fin_cases i
  case «9» => show DifferentiableAt ℝ (fun Y : Event => Real.exp (-3/2 * Y 1)) X; fun_prop
  all_goals exact differentiableAt_const _

theorem glow_profile (c : ℝ) (μ : Fin 4) (X : Event) : pd μ (fun Y => Real.exp (-3/2 * Y 1) * c) X = (if μ = 1 then -3/2 else 0) * Real.exp (-3/2 * X 1) * c := by
  have h1 : HasFDerivAt (fun Y : Event => Real.exp (-3/2 * Y 1) * c) (c • (Real.exp (-3/2 * X 1) • ((-3/2 : ℝ) • ContinuousLinearMap.proj (R := ℝ) (φ := fun _ : Fin 4 => ℝ) 1))) X :=
    (((ContinuousLinearMap.proj (R := ℝ) (φ := fun _ : Fin 4 => ℝ) 1).hasFDerivAt (x := X)).const_mul (-3/2 : ℝ)).exp.mul_const c
  unfold pd
  rw [h1.fderiv]
  fin_cases μ <;> simp <;> ring

theorem glow_smooth (X : Event) : SmoothRad (fun _ => C2P.flat) exGlowField X := by
  rw [exGlowField_eq]
  refine ⟨fun i => differentiableAt_const _, fun i j => differentiableAt_const _, ?_, fun i => ?_, ?_⟩
  · show DifferentiableAt ℝ (fun Y : Event => Real.exp (-3/2 * Y 1)) X; fun_prop
  · fin_cases i
    · show DifferentiableAt ℝ (fun Y : Event => Real.exp (-3/2 * Y 1) * (1/2)) X; fun_prop
    · exact differentiableAt_const _
    · exact differentiableAt_const _
  · simp [ADM.dot3, Fin.sum_univ_three]; norm_num

theorem glow_stress (Y : Event) (m n : Fin 4) : radStress (fun _ => C2P.flat) exGlowField Y m n =
    Real.exp (-3/2 * Y 1) * Closure.radT C2P.flat ![0, 0, 0] ![![0, 0, 0], ![0, 0, 0], ![0, 0, 0]] 1 ![1/2, 0, 0] m n := by
  have hW : Closure.W C2P.flat ![0, 0, 0] = 1 := flat_W (by norm_num) (by norm_num) (by norm_num)
  rw [exGlowField_eq]
  unfold radStress
  simp only
  rw [flat_radT hW, flat_radT hW]
  fin_cases m <;> fin_cases n <;> simp <;> ring

theorem glow_transfer (X : Event) : Transfer (fun _ => C2P.flat) exGlowField (3/4) 1 0 X := by
  have hW : Closure.W C2P.flat ![0, 0, 0] = 1 := flat_W (by norm_num) (by norm_num) (by norm_num)
  have er : ∀ x : Vec, Closure.raise C2P.flat x = x := fun x => by funext i; simp [Closure.raise, C2P.flat]
  intro ν
  unfold divTens
  simp only [flat_christoffel, zero_mul, Finset.sum_const_zero, add_zero, glow_stress, glow_profile]
  rw [exGlowField_eq, flat_radT hW]
  have en : Closure.normal C2P.flat = ![1, 0, 0, 0] := by funext n; fin_cases n <;> simp [Closure.normal, C2P.flat] <;> rfl
  have es : ∀ x : Vec, Closure.spatial x = ![0, x 0, x 1, x 2] := fun x => by funext n; fin_cases n <;> rfl
  unfold fourForce Closure.fluidU Closure.restVec
  simp only [hW, er, en, es]
  fin_cases ν <;> simp [Fin.sum_univ_four, ADM.dot3, Fin.sum_univ_three] <;> ring

theorem flat_rootGam : rootGam C2P.flat = 1 := by
  unfold rootGam
  have : (Matrix.of C2P.flat.gam) = 1 := by ext i j; simp [C2P.flat, Matrix.one_apply]
  rw [this]; simp

theorem pd_blind {μ : Fin 4} {f : Event → ℝ} {X : Event} (h : ∀ Y (r : ℝ), f (Y + r • Pi.single μ 1) = f Y) : pd μ f X = 0 := by
  unfold pd
  by_cases hf : DifferentiableAt ℝ f X
  · have h1 : HasDerivAt (fun r : ℝ => f (X + r • Pi.single μ 1)) (fderiv ℝ f X (Pi.single μ 1)) 0 := by
      have h2 : HasDerivAt (fun r : ℝ => X + r • (Pi.single μ 1 : Event)) (Pi.single μ 1) 0 := by
        simpa using ((hasDerivAt_id (0:ℝ)).smul_const (Pi.single μ 1 : Event)).const_add X
      have h3 : HasFDerivAt f (fderiv ℝ f X) (X + (0:ℝ) • (Pi.single μ 1 : Event)) := by simpa using hf.hasFDerivAt
      exact h3.comp_hasDerivAt (0:ℝ) h2
    simp only [h] at h1
    exact h1.unique (hasDerivAt_const _ _)
  · rw [fderiv_zero_of_not_differentiableAt hf]; rfl

/-- the example varies along the first axis only. -/
theorem glow_blind {μ : Fin 4} (hμ : μ ≠ 1) (Y : Event) (r : ℝ) : (fun Z : Event => Real.exp (-3/2 * Z 1)) (Y + r • Pi.single μ 1) = Real.exp (-3/2 * Y 1) := by
  simp [Pi.single_apply, hμ.symm]

/-- opacity one, bounds off, no gas fluxes; the smallness constant shrinks with the cells. -/
theorem glow_at : SmoothRadAt (N := 13) eddTilPi (fun _ => C2P.flat) (fun _ => ⟨false, 0, 0, 0⟩) (fun _ _ => 1) (radSide 1 exSel (0 : Fin 1)) (fun y => exGlow (at_ 0 y)) 0 where
  geom := ⟨differentiableAt_const _, fun _ => differentiableAt_const _, fun _ _ => differentiableAt_const _, fun _ _ => differentiableAt_const _⟩
  valid := fun _ => C2P.flat_valid.1
  lapse := fun _ => by norm_num [C2P.flat]
  pos := fun _ => C2P.flat_valid.2
  state := slice_diff (exGlow_diff _)
  slow := by rw [exGlow_side, flat_vel0]; simp [ADM.dot3, Fin.sum_univ_three]; norm_num
  closure := (edd_admissible (G := fun _ => C2P.flat) (side := radSide 1 exSel (0 : Fin 1)) (x0 := 0) (exGlow (at_ 0 0))).1
  bounded := (edd_admissible (G := fun _ => C2P.flat) (side := radSide 1 exSel (0 : Fin 1)) (x0 := 0) (exGlow (at_ 0 0))).2
  opacity := ⟨1, Eventually.of_forall fun _ => ⟨by norm_num, le_rfl⟩⟩
  inside := Eventually.of_forall fun _ h => by simp at h

/-- the flow of the example. -/
noncomputable def exStill : Phys ℝ 13 := { exFlow with ew := 1/100, S := fun _ _ _ _ _ => 0 }

/-- **C153 (concrete)** the hypotheses are met: on every mesh, whatever the memory contained, the rate of the energy tends to the energy absorbed and that of the momentum to the momentum absorbed and scattered. -/
theorem ex_glow (b : Blk) (hg : 2 ≤ b.g) (hnd : 0 < b.ndim) (off c : Pos) (hc : b.Interior c) (M : ℝ → Mem ℝ 13) (ho : ∀ h, Covers b (M h).order) (m : Fin 4) :
    Tendsto (fun h =>
        let stage := radRefined h (1/100) (1/100) eddTilPi (fun _ => C2P.flat) (fun _ => ⟨false, 0, 0, 0⟩) 1 exSel (fun _ _ _ => 1) b.ndim 0 (fun _ => 1) (fun e => c e + off e) exStill h
        rate stage.dx b (blockFlux stage b off (M h) fun a => (fun k => comp (radStored (fun _ => C2P.flat) exGlowField (at_ 0 0)) (Fin.ofNat 4 (k - 9)), exGlow (at_ 0 (centre 0 (fun _ => 1) c h a)))) (radSlot 0 m) c) (𝓝[>] 0)
      (𝓝 ((![3/4, 1/2, 0, 0] : Fin 4 → ℝ) m)) := by
  have hW : Closure.W C2P.flat ![0, 0, 0] = 1 := flat_W (by norm_num) (by norm_num) (by norm_num)
  have key := rad_rate (nspec := 1) (N := 13) (tp := eddTilPi) (G := fun _ => C2P.flat) (B := fun _ => ⟨false, 0, 0, 0⟩) (sel := exSel) (kap := fun _ _ _ => 1) (q := exGlow) (x0 := 0) (t := 0) 0
    (flat_smooth _) (fun _ => C2P.flat_valid.1) (fun _ => by norm_num [C2P.flat]) (fun _ => C2P.flat_valid.2) glow_at (glow_smooth _) (fun _ _ _ => rfl)
    (fun Y => by
      show (Closure.W C2P.flat (exGlowField.v Y) ^ 2 - 1) * _ * _ = 0
      rw [exGlowField_eq]; simp only [hW]; ring)
    (glow_transfer _) (small := fun h => h) (SMALL := 1/100) (kmin := 1/100) (fun h hh => ⟨hh, le_rfl⟩) (by rw [flat_rootGam]; norm_num) (by norm_num) (fun _ => 1) (fun _ => one_pos) exStill
    (by norm_num [exStill]) (fun _ _ _ => rfl) (fun b0 hb => by simp [exStill, exFlow] at hb) (fun _ _ _ _ _ _ => rfl) b (by simpa [exStill, exFlow, radius] using hg) off c hc M ho
    (fun h a => (fun k => comp (radStored (fun _ => C2P.flat) exGlowField (at_ 0 0)) (Fin.ofNat 4 (k - 9)), exGlow (at_ 0 (centre 0 (fun _ => 1) c h a)))) (fun _ _ _ _ => rfl)
    (fun h _ m => by
      have : Fin.ofNat 4 (radSlot 0 m - 9) = m := by fin_cases m <;> rfl
      show comp _ (Fin.ofNat 4 (radSlot 0 m - 9)) = _
      rw [this]; rfl)
    (fun _ => ⟨fun _ => C2P.flat, fun _ => 1, fun _ _ _ _ => 0, fun _ _ => 0⟩) (fun _ _ => rfl)
    (fun a b s => by simp [metricDeriv, pd]) (fun m => by simp [pd])
    (fun d hd m => by
      have hd0 : d.succ ≠ 1 := fun h => by
        have : d = 0 := Fin.succ_injective _ (h.trans rfl)
        rw [this] at hd; simp at hd; omega
      refine pd_blind fun Y r => ?_
      show comp (radPhys (fun _ => C2P.flat) exGlowField d _) m = comp (radPhys (fun _ => C2P.flat) exGlowField d _) m
      have e := glow_blind hd0 Y r
      simp only at e
      unfold radPhys
      rw [exGlowField_eq]
      simp only [e]) m
  have e1 : pd 0 (fun Y => comp (radStored (fun _ => C2P.flat) exGlowField Y) m) (at_ 0 0) = 0 := by
    refine pd_blind fun Y r => ?_
    have e := glow_blind (μ := 0) (by decide) Y r
    simp only at e
    unfold radStored
    rw [exGlowField_eq]
    simp only [e]
  have e2 : comp (exchangeRate C2P.flat (exGlowField.v (at_ 0 0)) (exGlowField.J (at_ 0 0)) (exGlowField.H (at_ 0 0)) (3/4) 1 0) m = -(![3/4, 1/2, 0, 0] : Fin 4 → ℝ) m := by
    have ea : C2P.flat.alpha = 1 := rfl
    have el : Closure.lower C2P.flat ![0, 0, 0] = ![0, 0, 0] := by funext i; fin_cases i <;> simp [Closure.lower, Fin.sum_univ_three]
    rw [exGlowField_eq]
    unfold exchangeRate
    simp only [flat_rootGam, hW, ea, el]
    refine Fin.cases ?_ (fun i => ?_) m
    · simp [comp, Closure.cc, Fin.sum_univ_three, at_]
    · simp only [comp, Fin.cons_succ]
      fin_cases i <;> simp [at_]
  have e3 : ∀ h, comp (radSrc 1 exSel (0 : Fin 1) eddTilPi ⟨fun _ => C2P.flat, fun _ => 1, fun _ _ _ _ => 0, fun _ _ => 0⟩ (rootGam C2P.flat) (fun e => c e + off e)
      (fun k => comp (radStored (fun _ => C2P.flat) exGlowField (at_ 0 0)) (Fin.ofNat 4 (k - 9))) (exGlow (at_ 0 (centre 0 (fun _ => 1) c h c)))) m = 0 := fun h => by
    refine Fin.cases ?_ (fun i => ?_) m <;>
      simp [comp, radSrc, Sources.radSources, Sources.radEnergySource, Sources.radMomentumSource, GeomUtils.connection]
  have e4 : pd 0 (fun Y => comp (radStored (fun _ => C2P.flat) exGlowField Y) m) (at_ 0 0) -
      comp (exchangeRate C2P.flat (exGlowField.v (at_ 0 0)) (exGlowField.J (at_ 0 0)) (exGlowField.H (at_ 0 0)) (3/4) 1 0) m = (![3/4, 1/2, 0, 0] : Fin 4 → ℝ) m := by
    rw [e1, e2]; ring
  rw [← e4]
  refine key.congr fun h => ?_
  exact (congrArg (_ + ·) (e3 h)).trans (add_zero _)

/-- **C153 (concrete)** the M1 closure in the same state. -/
theorem ex_glow_m1 : SmoothRadAt (N := 13) (Closure.tilPiFromPrim (1/1000)) (fun _ => C2P.flat) (fun _ => ⟨false, 0, 0, 0⟩) (fun _ _ => 1) (radSide 1 exSel (0 : Fin 1)) (fun y => exGlow (at_ 0 y)) 0 := by
  have hq : Closure.hsq C2P.flat (Moments.threeVel C2P.flat (radSide 1 exSel (0 : Fin 1) (exGlow (at_ 0 0))).vp)
      (fun i => (radSide 1 exSel (0 : Fin 1) (exGlow (at_ 0 0))).J * (radSide 1 exSel (0 : Fin 1) (exGlow (at_ 0 0))).h i) = (1/2) ^ 2 := by
    rw [exGlow_side, flat_vel0]
    simp [Closure.hsq, Closure.ccov, Closure.cc, Fin.sum_univ_three, C2P.flat, at_]; norm_num
  have hJ : (radSide 1 exSel (0 : Fin 1) (exGlow (at_ 0 0))).J = 1 := by rw [exGlow_side]; simp [at_]
  have adm := m1_admissible (N := 13) (G := fun _ => C2P.flat) (side := radSide 1 exSel (0 : Fin 1)) (x0 := 0) (small := 1/1000) (by norm_num)
    glow_at.geom (fun _ => C2P.flat_valid.1) (fun _ => C2P.flat_valid.2) (radSide_diff 1 exSel _) (exGlow (at_ 0 0)) glow_at.slow (by rw [hJ]; norm_num) (by rw [hq]; norm_num)
    (by rw [hq, hJ, Real.sqrt_sq (by norm_num)]; norm_num)
  exact { glow_at with closure := adm.1, bounded := adm.2 }

end Phoebus.Step
