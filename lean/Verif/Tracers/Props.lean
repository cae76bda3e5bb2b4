import Verif.Tracers.Model
import Verif.Rel.Props

/-!
# C45: tracers
-/
namespace Phoebus.Tracers
open Geom Rel Finset

/-- Specification: the coordinate velocity `dx^i/dt = u^i/u^0` of fluid with four-velocity `u`. -/
noncomputable def coordVel (u : Fin 4 → ℝ) (i : Fin 3) : ℝ := u i.succ / u 0

/-- **C45** The right-hand side is the coordinate velocity of the fluid, in three dimensions, for every metric and velocity. -/
theorem rhs_coordVel (geom : (Fin 3 → ℝ) → ADM ℝ) (vel : ℕ → (Fin 3 → ℝ) → Fin 3 → ℝ) (b : ℕ) (x : Fin 3 → ℝ)
    (ha : 0 < (geom x).alpha) (hp : PosDef (geom x)) (i : Fin 3) :
    rhs geom vel 3 b x i = coordVel (fourVelocity 0 (geom x) (vel b x)) i := by
  have hW := (lorentz_pos (geom x) hp (vel b x)).ne'
  have ha' := ha.ne'
  simp only [rhs, coordVel, fourVelocity, Fin.cons_succ, Fin.cons_zero, ratio_zero, abs_of_pos ha]
  rw [if_neg (by omega)]
  field_simp

/-- in lower dimensions the first two components still are, and the third is zero. -/
theorem rhs_lowdim (geom : (Fin 3 → ℝ) → ADM ℝ) (vel : ℕ → (Fin 3 → ℝ) → Fin 3 → ℝ) (ndim b : ℕ) (x : Fin 3 → ℝ) (hd : ndim ≤ 2) :
    rhs geom vel ndim b x 2 = 0 ∧ ∀ i, i ≠ 2 → rhs geom vel ndim b x i = rhs geom vel 3 b x i := by
  refine ⟨by simp [rhs, hd], fun i hi => ?_⟩
  simp only [rhs]
  rw [if_neg (by tauto), if_neg (by tauto)]

/-- no tracer outruns light: the displacement rate `v` satisfies `g(∂_t + v, ∂_t + v) < 0`. -/
theorem rhs_timelike (geom : (Fin 3 → ℝ) → ADM ℝ) (vel : ℕ → (Fin 3 → ℝ) → Fin 3 → ℝ) (b : ℕ) (x : Fin 3 → ℝ)
    (hv : (geom x).Valid) (ha : 0 < (geom x).alpha) (hp : PosDef (geom x)) :
    dot4 (geom x).g4 (Fin.cons 1 (rhs geom vel 3 b x)) (Fin.cons 1 (rhs geom vel 3 b x)) < 0 := by
  have hu := four_velocity_unit (geom x) (vel b x) hv hp
  have hu0 : 0 < fourVelocity 0 (geom x) (vel b x) 0 := by
    simp only [fourVelocity, Fin.cons_zero, ratio_zero, abs_of_pos ha]
    exact div_pos (lorentz_pos _ hp _) ha
  set u := fourVelocity 0 (geom x) (vel b x) with hudef
  have e : (Fin.cons 1 (rhs geom vel 3 b x) : Fin 4 → ℝ) = fun m => u m / u 0 := by
    funext m
    refine Fin.cases ?_ (fun i => ?_) m
    · simp [hu0.ne']
    · rw [Fin.cons_succ, rhs_coordVel geom vel b x ha hp i]; rfl
  have e2 : dot4 (geom x).g4 (fun m => u m / u 0) (fun m => u m / u 0) = dot4 (geom x).g4 u u / u 0 ^ 2 := by
    unfold dot4
    rw [sum_div]
    refine sum_congr rfl fun m _ => ?_
    rw [sum_div]
    refine sum_congr rfl fun n _ => ?_
    field_simp
  rw [e, e2, hu]
  exact div_neg_of_neg_of_pos (by norm_num) (by positivity)

/-- **C45** Inactive tracers do not move; no tracer changes block or activity. -/
theorem advect_inactive (geom : (Fin 3 → ℝ) → ADM ℝ) (vel : ℕ → (Fin 3 → ℝ) → Fin 3 → ℝ) (ndim : ℕ) (dt : ℝ) (t : Tracer) :
    (t.active = false → advect geom vel ndim dt t = t) ∧ (advect geom vel ndim dt t).block = t.block ∧
    (advect geom vel ndim dt t).active = t.active := by
  unfold advect
  split_ifs with h <;> simp_all

/-- **C45** In a uniform flow and geometry the tracer moves by `dt` times the coordinate velocity, through any number of
steps.

Partial form of C45. Full property: A tracer's coordinate velocity is alpha v^i - beta^i, equals u^i/u^0, and a
uniform flow moves each tracer by dt times that velocity; inactive tracers do not move. Missing: Holds for tracers of
the first block of a pack; tracers of other blocks read block zero (witness advect_block_zero). -/
theorem advect_uniform_partial (G : ADM ℝ) (v : Fin 3 → ℝ) (ha : 0 < G.alpha) (hp : PosDef G) (dt : ℝ) (t : Tracer) (hact : t.active = true)
    (n : ℕ) (i : Fin 3) :
    (((advect (fun _ => G) (fun _ _ => v) 3 dt)^[n] t).x i) = t.x i + n * dt * coordVel (fourVelocity 0 G v) i := by
  have hone : ∀ s : Tracer, s.active = true → (advect (fun _ => G) (fun _ _ => v) 3 dt s).x i =
      s.x i + dt * coordVel (fourVelocity 0 G v) i := by
    intro s hs
    have h := fun x => rhs_coordVel (fun _ => G) (fun _ _ => v) 0 x ha hp i
    simp only [advect, hs, if_true]
    rw [h]; ring
  have hact' : ∀ m, ((advect (fun _ => G) (fun _ _ => v) 3 dt)^[m] t).active = true := by
    intro m
    induction m with
    | zero => exact hact
    | succ m ih => rw [Function.iterate_succ_apply']; rw [(advect_inactive _ _ _ _ _).2.2]; exact ih
  induction n with
  | zero => simp
  | succ n ih => rw [Function.iterate_succ_apply', hone _ (hact' n), ih]; push_cast; ring

/-- **C45** The update is the midpoint rule for `dx/dt = rhs`. -/
theorem advect_midpoint (geom : (Fin 3 → ℝ) → ADM ℝ) (vel : ℕ → (Fin 3 → ℝ) → Fin 3 → ℝ) (ndim : ℕ) (dt : ℝ) (t : Tracer)
    (hact : t.active = true) (i : Fin 3) :
    (advect geom vel ndim dt t).x i =
      t.x i + dt * rhs geom vel ndim 0 (fun j => t.x j + dt / 2 * rhs geom vel ndim 0 t.x j) i := by
  simp only [advect, hact, if_true]
  have : (fun j => t.x j + 0.5 * dt * rhs geom vel ndim 0 t.x j) = fun j => t.x j + dt / 2 * rhs geom vel ndim 0 t.x j := by
    funext j; rw [show (0.5:ℝ) * dt = dt / 2 by norm_num; ring]
  rw [this]; ring

/-- **C45** Tracers in block zero of the pack feel their own block's velocity … -/
theorem advect_own_block (geom : (Fin 3 → ℝ) → ADM ℝ) (vel : ℕ → (Fin 3 → ℝ) → Fin 3 → ℝ) (ndim : ℕ) (dt : ℝ) (t : Tracer)
    (vel' : ℕ → (Fin 3 → ℝ) → Fin 3 → ℝ) (h : vel 0 = vel' 0) : advect geom vel ndim dt t = advect geom vel' ndim dt t := by
  unfold advect rhs; rw [h]

/-- flat space. -/
def flat : ADM ℝ := ⟨1, fun _ => 0, fun i j => if i = j then 1 else 0, fun i j => if i = j then 1 else 0⟩

theorem flat_valid : flat.Valid ∧ PosDef flat := by
  refine ⟨⟨by simp [flat], ?_, ?_, ?_⟩, ?_⟩
  · intro i j; simp [flat, eq_comm]
  · intro i j; simp [flat, eq_comm]
  · intro i j; simp [flat]
  · intro v; simp [flat, ADM.dot3, Fin.sum_univ_three]; nlinarith [sq_nonneg (v 0), sq_nonneg (v 1), sq_nonneg (v 2)]

/-- **C45 fails on packs of several blocks**: … tracers in any other block do not: a tracer in block 1, where the fluid is at
rest, is dragged along by the fluid of block 0. -/
theorem advect_block_zero : ∃ (vel : ℕ → (Fin 3 → ℝ) → Fin 3 → ℝ) (t : Tracer), t.block = 1 ∧ t.active = true ∧ (∀ x, vel 1 x = 0) ∧
    (advect (fun _ => flat) vel 3 1 t).x 0 ≠ t.x 0 := by
  refine ⟨fun b _ => if b = 0 then ![1, 0, 0] else 0, ⟨1, true, 0⟩, rfl, rfl, fun _ => by simp, ?_⟩
  have hs : (0:ℝ) < Real.sqrt 2 := Real.sqrt_pos.2 (by norm_num)
  simp [advect, rhs, flat, lorentz, Fin.sum_univ_three]

/-- **C45** The recorded Bernoulli number is not `-h u_t - 1`: for gas at rest in flat space it is `-h - 1` instead of `h - 1`. -/
theorem bernoulli_wrong (rho e P : ℝ) (hr : 0 < rho) (he : 0 ≤ e) (hP : 0 ≤ P) :
    bernoulli flat 0 rho e P = -(1 + e + P / rho) - 1 ∧
    bernoulli flat 0 rho e P ≠ -(1 + e + P / rho) * (∑ m, flat.g4 0 m * fourVelocity 0 flat 0 m) - 1 := by
  have h0 : lorentz flat.gam 0 = 1 := by simp [lorentz]
  have h1 : bernoulli flat 0 rho e P = -(1 + e + P / rho) - 1 := by
    simp only [bernoulli, h0]; norm_num [flat]
  refine ⟨h1, ?_⟩
  have h2 : ∑ m, flat.g4 0 m * fourVelocity 0 flat 0 m = -1 := by
    rw [Fin.sum_univ_succ]
    simp [fourVelocity, h0, ADM.g4_00, ADM.g4_0s, ratio_zero, ADM.betaCov, ADM.dot3]
    simp [flat]
  rw [h1, h2]
  have : 0 ≤ P / rho := div_nonneg hP hr.le
  intro h
  linarith

/-- **C45** The recorded electron fraction is always zero: the variable is never packed. -/
theorem ye_never_stored (mhd : Bool) (ye : ℝ) : storedYe mhd ye = 0 := by
  cases mhd <;> simp [storedYe, packed]

end Phoebus.Tracers
