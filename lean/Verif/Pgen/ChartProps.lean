import Verif.Pgen.Chart

/-!
# C90: a state set up in inertial coordinates is the same physical state in every chart
-/
namespace Phoebus.Pgen
open Geom Finset Real

/-! ### Specification: the charts of Minkowski space -/

/-- inertial coordinates of the snake chart point: `T = α t`, `x`, `y - a sin(kx) + vy t`, `z`. -/
noncomputable def snakeInertial (a k al vy : ℝ) (X : Fin 4 → ℝ) : Fin 4 → ℝ :=
  ![al * X 0, X 1, X 2 - a * sin (k * X 1) + vy * X 0, X 3]

/-- inertial coordinates of the boosted chart point. -/
def boostInertial (vx vy vz : ℝ) (X : Fin 4 → ℝ) : Fin 4 → ℝ :=
  ![X 0, X 1 + vx * X 0, X 2 + vy * X 0, X 3 + vz * X 0]

/-- inertial coordinates of the inchworm chart point. -/
noncomputable def inchInertial (a k : ℝ) (X : Fin 4 → ℝ) : Fin 4 → ℝ :=
  ![X 0, X 1 - a * sin (k * X 1), X 2, X 3]

/-- `w`, a vector in the chart at `X`, is the image of the inertial vector `e`: moving along `w` in the chart moves the
inertial coordinates along `e`. -/
def Represents (chart : (Fin 4 → ℝ) → Fin 4 → ℝ) (X w e : Fin 4 → ℝ) : Prop :=
  ∀ μ, HasDerivAt (fun s : ℝ => chart (X + s • w) μ) (e μ) 0

/-- inertial metric. -/
def eta : Fin 4 → Fin 4 → ℝ := fun m n => if m = n then (if m = 0 then -1 else 1) else 0

theorem dot4_eta (x y : Fin 4 → ℝ) : dot4 eta x y = -(x 0 * y 0) + x 1 * y 1 + x 2 * y 2 + x 3 * y 3 := by
  simp [dot4, eta, Fin.sum_univ_four]

/-- C90. The stored velocity and field give back the four-velocity and magnetic four-vector they were computed from, in
any valid 3+1 metric. -/
theorem stored_reproduces (G : ADM ℝ) (hG : G.Valid) (hp : Rel.PosDef G) (ha : 0 < G.alpha) (u b : Fin 4 → ℝ)
    (hu : dot4 G.g4 u u = -1) (hu0 : 0 < u 0) (hb : dot4 G.g4 u b = 0) (q : Rel.Prim)
    (hv : q.v = storeV G.alpha G.beta u) (hB : q.B = storeB G.alpha u b) :
    Rel.tU 0 G q = u ∧ Rel.tB 0 G q = b := by
  have ha' := ha.ne'
  have hq : q.v = Torus.primVel G.alpha G.beta u := by
    rw [hv]; funext d; simp only [storeV, Torus.primVel]; field_simp
  have hU : Rel.tU 0 G q = u := by
    rw [Rel.tU_eq, hq]; exact Torus.primVel_fourVelocity G hG hp ha u hu hu0
  refine ⟨hU, ?_⟩
  have hW : Rel.lorentz G.gam q.v = G.alpha * u 0 := by
    have := congrFun hU 0
    rw [Rel.tU_split G q ha, Fin.cons_zero] at this
    rw [← this]; field_simp
  have hv' : q.v = fun d => u d.succ + u 0 * G.beta d := by
    rw [hv]; funext d; simp only [storeV]; field_simp
  have hsplit : ∀ w : Fin 4 → ℝ, w = Fin.cons (w 0) (fun d => (w d.succ + w 0 * G.beta d) - w 0 * G.beta d) := by
    intro w; funext i; refine Fin.cases rfl (fun d => ?_) i; simp
  have huv := ADM.dot4_split hG (u 0) (b 0) (fun d => u d.succ + u 0 * G.beta d) (fun d => b d.succ + b 0 * G.beta d)
  rw [← hsplit u, ← hsplit b, hb] at huv
  have huu := ADM.dot4_split hG (u 0) (u 0) (fun d => u d.succ + u 0 * G.beta d) (fun d => u d.succ + u 0 * G.beta d)
  rw [← hsplit u, hu] at huu
  have hBe : q.B = fun d => (G.alpha * u 0) * (b d.succ + b 0 * G.beta d) + (-(G.alpha * b 0)) * (u d.succ + u 0 * G.beta d) := by
    rw [hB]; funext d; simp only [storeB]; ring
  have hdot : G.dot3 q.B q.v = G.alpha * b 0 := by
    rw [hBe, Rel.dot3_add_left, hv', ADM.dot3_comm hG (fun d => b d.succ + b 0 * G.beta d)]
    linear_combination (-(G.alpha * u 0)) * huv + (G.alpha * b 0) * huu
  have hbv : Rel.tBdotv G q = b 0 / u 0 := by
    rw [Rel.tBdotv_eq, hdot, hW]; field_simp
  rw [Rel.tB_split G q ha hp, hbv, hW]
  rw [hsplit b]
  have e0 := hu0.ne'
  congr 1
  · simp only [Fin.cons_zero]; field_simp
  · funext d
    rw [hBe, hv']
    simp only [Fin.cons_zero, Fin.cons_succ]
    field_simp
    ring

/-- the inertial four-velocity is a future unit vector. -/
theorem flatU_unit (v : Fin 3 → ℝ) : dot4 eta (flatU v) (flatU v) = -1 ∧ 1 ≤ flatU v 0 := by
  have h : 0 ≤ v 0 * v 0 + v 1 * v 1 + v 2 * v 2 := by nlinarith [mul_self_nonneg (v 0), mul_self_nonneg (v 1), mul_self_nonneg (v 2)]
  constructor
  · rw [dot4_eta]
    show -(√_ * √_) + v 0 * v 0 + v 1 * v 1 + v 2 * v 2 = -1
    rw [Real.mul_self_sqrt (by linarith)]; ring
  · show 1 ≤ √_
    rw [Real.one_le_sqrt]; linarith

/-- the inertial magnetic vector is orthogonal to the velocity. -/
theorem flatB_orth (u : Fin 4 → ℝ) (B : Fin 3 → ℝ) (hu : dot4 eta u u = -1) (h0 : 0 < u 0) : dot4 eta u (flatB u B) = 0 := by
  rw [dot4_eta] at *
  have h0' := h0.ne'
  show -(u 0 * (u 0 * (B 0 * u 1 / u 0 + B 1 * u 2 / u 0 + B 2 * u 3 / u 0))) + u 1 * ((B 0 + u 0 * (B 0 * u 1 / u 0 + B 1 * u 2 / u 0 + B 2 * u 3 / u 0) * u 1) / u 0)
    + u 2 * ((B 1 + u 0 * (B 0 * u 1 / u 0 + B 1 * u 2 / u 0 + B 2 * u 3 / u 0) * u 2) / u 0)
    + u 3 * ((B 2 + u 0 * (B 0 * u 1 / u 0 + B 1 * u 2 / u 0 + B 2 * u 3 / u 0) * u 3) / u 0) = 0
  field_simp
  linear_combination (B 0 * u 1 + B 1 * u 2 + B 2 * u 3) * hu

/-- the field seen by the inertial observer is the field that was asked for: `b^i u^0 - b^0 u^i = B^i`. -/
theorem flatB_field (u : Fin 4 → ℝ) (B : Fin 3 → ℝ) (h0 : 0 < u 0) (d : Fin 3) :
    flatB u B d.succ * u 0 - flatB u B 0 * u d.succ = B d := by
  have h0' := h0.ne'
  simp only [flatB, Fin.cons_succ, Fin.cons_zero]
  field_simp; ring

/-- for the inertial observer the lower-level formulas and the evolution code agree: the flat chart is the identity. -/
theorem flat_tU (X : Fin 4 → ℝ) (q : Rel.Prim) :
    Rel.tU 0 (Metrics.adm Metrics.minkowski X) q = flatU q.v ∧
      Rel.tB 0 (Metrics.adm Metrics.minkowski X) q = flatB (flatU q.v) q.B := by
  have hl : Rel.lorentz (Metrics.adm Metrics.minkowski X).gam q.v = √(1 + (q.v 0 * q.v 0 + q.v 1 * q.v 1 + q.v 2 * q.v 2)) := by
    simp [Rel.lorentz, Metrics.adm, Metrics.minkowski, Fin.sum_univ_three, mul_assoc]
  have hU : Rel.tU 0 (Metrics.adm Metrics.minkowski X) q = flatU q.v := by
    simp only [Rel.tU, hl, Rel.ratio_zero, flatU]
    simp [Metrics.adm, Metrics.minkowski]
  refine ⟨hU, ?_⟩
  have hbv : Rel.tBdotv (Metrics.adm Metrics.minkowski X) q =
      q.B 0 * flatU q.v 1 / flatU q.v 0 + q.B 1 * flatU q.v 2 / flatU q.v 0 + q.B 2 * flatU q.v 3 / flatU q.v 0 := by
    simp only [Rel.tBdotv, hl]
    simp [Metrics.adm, Metrics.minkowski, Fin.sum_univ_three, flatU]
    rw [show (3 : Fin 4) = Fin.succ 2 from rfl, show (2 : Fin 4) = Fin.succ 1 from rfl]
    simp only [Fin.cons_succ]; ring
  simp only [Rel.tB, hU, hbv, hl, flatB, Rel.ratio_zero]
  congr 1
  funext d
  simp only [Metrics.adm, Metrics.minkowski, flatU, Fin.cons_zero]
  ring

section Charts
variable (X : Fin 4 → ℝ)

theorem adm_snake_valid (a k al vy : ℝ) (h : 0 < al) :
    (Metrics.adm (Metrics.snake a k al vy) X).Valid ∧ Rel.PosDef (Metrics.adm (Metrics.snake a k al vy) X) := by
  constructor
  · refine ⟨h.ne', ?_, ?_, ?_⟩
    · intro i j; fin_cases i <;> fin_cases j <;> simp [Metrics.adm, Metrics.snake]
    · intro i j; fin_cases i <;> fin_cases j <;> simp [Metrics.adm, Metrics.snake]
    · exact (Metrics.snake_good a k al vy h X).inv3
  · intro v
    simp only [ADM.dot3, Metrics.adm, Metrics.snake, Fin.sum_univ_three]
    simp
    nlinarith [sq_nonneg (v 0), sq_nonneg (v 2), sq_nonneg (v 1 - Metrics.delta a k (X 1) * v 0)]

theorem adm_boosted_valid (vx vy vz : ℝ) :
    (Metrics.adm (Metrics.boosted vx vy vz) X).Valid ∧ Rel.PosDef (Metrics.adm (Metrics.boosted vx vy vz) X) := by
  constructor
  · refine ⟨one_ne_zero, ?_, ?_, ?_⟩
    · intro i j; fin_cases i <;> fin_cases j <;> simp [Metrics.adm, Metrics.boosted]
    · intro i j; fin_cases i <;> fin_cases j <;> simp [Metrics.adm, Metrics.boosted]
    · exact (Metrics.boosted_good vx vy vz X).inv3
  · intro v
    simp only [ADM.dot3, Metrics.adm, Metrics.boosted, Fin.sum_univ_three]
    simp
    nlinarith [sq_nonneg (v 0), sq_nonneg (v 2), sq_nonneg (v 1)]

end Charts

/-- C90. The snake Jacobian is the derivative of the chart: it carries every inertial vector to the vector representing
it. -/
theorem jSnake_represents (a k al vy : ℝ) (hal : al ≠ 0) (X e : Fin 4 → ℝ) :
    Represents (snakeInertial a k al vy) X (push (jSnake a k al vy (X 1)) e) e := by
  have h : ∀ (c w : ℝ), HasDerivAt (fun s : ℝ => c + s * w) w 0 := fun c w => by
    simpa using ((hasDerivAt_id (0:ℝ)).mul_const w).const_add c
  have hw0 : push (jSnake a k al vy (X 1)) e 0 = e 0 / al := by simp [push, jSnake, Fin.sum_univ_four]; ring
  have hw1 : push (jSnake a k al vy (X 1)) e 1 = e 1 := by simp [push, jSnake, Fin.sum_univ_four]
  have hw2 : push (jSnake a k al vy (X 1)) e 2 = -vy / al * e 0 + a * k * cos (k * X 1) * e 1 + e 2 := by
    simp [push, jSnake, Fin.sum_univ_four]
  have hw3 : push (jSnake a k al vy (X 1)) e 3 = e 3 := by simp [push, jSnake, Fin.sum_univ_four]
  intro μ
  fin_cases μ
  · have := (h (X 0) (e 0 / al)).const_mul al
    refine (this.congr_deriv (by show al * (e 0 / al) = e 0; field_simp)).congr_of_eventuallyEq (Filter.Eventually.of_forall fun s => ?_)
    simp [snakeInertial, hw0]
  · refine (h (X 1) (e 1)).congr_of_eventuallyEq (Filter.Eventually.of_forall fun s => ?_)
    simp [snakeInertial, hw1]
  · have h1 := ((h (X 1) (e 1)).const_mul k).sin.const_mul a
    have h2 := ((h (X 2) (-vy / al * e 0 + a * k * cos (k * X 1) * e 1 + e 2)).sub h1).add ((h (X 0) (e 0 / al)).const_mul vy)
    refine (h2.congr_deriv ?_).congr_of_eventuallyEq (Filter.Eventually.of_forall fun s => ?_)
    · simp; ring
    · simp [snakeInertial, hw0, hw1, hw2]
  · refine (h (X 3) (e 3)).congr_of_eventuallyEq (Filter.Eventually.of_forall fun s => ?_)
    simp [snakeInertial, hw3]

/-- C90. The same for the boosted chart. -/
theorem jBoost_represents (vx vy vz : ℝ) (X e : Fin 4 → ℝ) :
    Represents (boostInertial vx vy vz) X (push (jBoost vx vy vz) e) e := by
  have h : ∀ (c w : ℝ), HasDerivAt (fun s : ℝ => c + s * w) w 0 := fun c w => by
    simpa using ((hasDerivAt_id (0:ℝ)).mul_const w).const_add c
  have hw0 : push (jBoost vx vy vz) e 0 = e 0 := by simp [push, jBoost, Fin.sum_univ_four]
  have hw1 : push (jBoost vx vy vz) e 1 = -vx * e 0 + e 1 := by simp [push, jBoost, Fin.sum_univ_four]
  have hw2 : push (jBoost vx vy vz) e 2 = -vy * e 0 + e 2 := by simp [push, jBoost, Fin.sum_univ_four]
  have hw3 : push (jBoost vx vy vz) e 3 = -vz * e 0 + e 3 := by simp [push, jBoost, Fin.sum_univ_four]
  intro μ
  fin_cases μ
  · refine (h (X 0) (e 0)).congr_of_eventuallyEq (Filter.Eventually.of_forall fun s => ?_)
    simp [boostInertial, hw0]
  · have h2 := (h (X 1) (-vx * e 0 + e 1)).add ((h (X 0) (e 0)).const_mul vx)
    refine (h2.congr_deriv (by simp)).congr_of_eventuallyEq (Filter.Eventually.of_forall fun s => ?_)
    simp [boostInertial, hw0, hw1]
  · have h2 := (h (X 2) (-vy * e 0 + e 2)).add ((h (X 0) (e 0)).const_mul vy)
    refine (h2.congr_deriv (by simp)).congr_of_eventuallyEq (Filter.Eventually.of_forall fun s => ?_)
    simp [boostInertial, hw0, hw2]
  · have h2 := (h (X 3) (-vz * e 0 + e 3)).add ((h (X 0) (e 0)).const_mul vz)
    refine (h2.congr_deriv (by simp)).congr_of_eventuallyEq (Filter.Eventually.of_forall fun s => ?_)
    simp [boostInertial, hw0, hw3]

/-- C90. Lengths and angles of inertial vectors are preserved by the metric the snake geometry reports. -/
theorem jSnake_isometry (a k al vy : ℝ) (hal : al ≠ 0) (X e f : Fin 4 → ℝ) :
    dot4 ((Metrics.snake a k al vy).g X) (push (jSnake a k al vy (X 1)) e) (push (jSnake a k al vy (X 1)) f) = dot4 eta e f := by
  rw [dot4_eta]
  simp [dot4, push, jSnake, Metrics.snake, Metrics.delta, Fin.sum_univ_four]
  field_simp
  ring

/-- C90. The same for the boosted geometry. -/
theorem jBoost_isometry (vx vy vz : ℝ) (X e f : Fin 4 → ℝ) :
    dot4 ((Metrics.boosted vx vy vz).g X) (push (jBoost vx vy vz) e) (push (jBoost vx vy vz) f) = dot4 eta e f := by
  rw [dot4_eta]
  simp [dot4, push, jBoost, Metrics.boosted, Fin.sum_univ_four]
  ring

/-- C90. Snake chart: what the evolution code reconstructs from the stored primitives represents the inertial
four-velocity and magnetic field that were asked for; density, energy and pressure are unchanged.

Partial form of C90. Full property: A state prescribed in inertial Cartesian coordinates and run in a curvilinear
chart of flat space (boosted, snake, inchworm) is the same physical state: the four-velocity and magnetic four-vector
the evolution reconstructs from the stored variables are the images of the prescribed ones under the change of
coordinates, and scalars are unchanged. Missing: Holds for the boosted and snake charts; in the inchworm chart the
Jacobian is not the derivative of the chart (inch_state_wrong). -/
theorem snake_state_partial (a k al vy : ℝ) (hal : 0 < al) (X : Fin 4 → ℝ) (q : Rel.Prim) :
    let s := Metrics.snake a k al vy
    let q' := chartPrim (jSnake a k al vy (X 1)) (s.lapse X) (s.shift X) q
    Represents (snakeInertial a k al vy) X (Rel.tU 0 (Metrics.adm s X) q') (flatU q.v) ∧
      Represents (snakeInertial a k al vy) X (Rel.tB 0 (Metrics.adm s X) q') (flatB (flatU q.v) q.B) ∧
      q'.rho = q.rho ∧ q'.u = q.u ∧ q'.P = q.P := by
  intro s q'
  obtain ⟨hV, hP⟩ := adm_snake_valid X a k al vy hal
  have hg : s.g X = (Metrics.adm s X).g4 := (Metrics.snake_good a k al vy hal X).assembles.2
  obtain ⟨h1, h2⟩ := flatU_unit q.v
  have key := stored_reproduces (Metrics.adm s X) hV hP hal
    (push (jSnake a k al vy (X 1)) (flatU q.v)) (push (jSnake a k al vy (X 1)) (flatB (flatU q.v) q.B))
    (by rw [← hg, jSnake_isometry a k al vy hal.ne']; exact h1)
    (by
      have : push (jSnake a k al vy (X 1)) (flatU q.v) 0 = flatU q.v 0 / al := by
        simp [push, jSnake, Fin.sum_univ_four]; ring
      rw [this]; exact div_pos (by linarith) hal)
    (by rw [← hg, jSnake_isometry a k al vy hal.ne']; exact flatB_orth _ _ h1 (by linarith)) q' rfl rfl
  rw [key.1, key.2]
  exact ⟨jSnake_represents a k al vy hal.ne' X _, jSnake_represents a k al vy hal.ne' X _, rfl, rfl, rfl⟩

/-- C90. Boosted chart: the same. -/
theorem boost_state (vx vy vz : ℝ) (X : Fin 4 → ℝ) (q : Rel.Prim) :
    let s := Metrics.boosted vx vy vz
    let q' := chartPrim (jBoost vx vy vz) 1 (s.shift X) q
    Represents (boostInertial vx vy vz) X (Rel.tU 0 (Metrics.adm s X) q') (flatU q.v) ∧
      Represents (boostInertial vx vy vz) X (Rel.tB 0 (Metrics.adm s X) q') (flatB (flatU q.v) q.B) ∧
      q'.rho = q.rho ∧ q'.u = q.u ∧ q'.P = q.P := by
  intro s q'
  obtain ⟨hV, hP⟩ := adm_boosted_valid X vx vy vz
  have hg : s.g X = (Metrics.adm s X).g4 := (Metrics.boosted_good vx vy vz X).assembles.2
  obtain ⟨h1, h2⟩ := flatU_unit q.v
  have key := stored_reproduces (Metrics.adm s X) hV hP one_pos
    (push (jBoost vx vy vz) (flatU q.v)) (push (jBoost vx vy vz) (flatB (flatU q.v) q.B))
    (by rw [← hg, jBoost_isometry]; exact h1)
    (by
      have : push (jBoost vx vy vz) (flatU q.v) 0 = flatU q.v 0 := by
        simp [push, jBoost, Fin.sum_univ_four]
      rw [this]; linarith)
    (by rw [← hg, jBoost_isometry]; exact flatB_orth _ _ h1 (by linarith)) q' rfl rfl
  rw [key.1, key.2]
  exact ⟨jBoost_represents vx vy vz X _, jBoost_represents vx vy vz X _, rfl, rfl, rfl⟩

/-- C90. What is stored does not depend on the chart's lapse or shift: it is the spatial image of the inertial
velocity and field (the Eulerian observers of the snake chart are the inertial observers). -/
theorem snake_stored (a k al vy : ℝ) (hal : 0 < al) (X : Fin 4 → ℝ) (q : Rel.Prim) :
    (chartPrim (jSnake a k al vy (X 1)) al ![0, vy, 0] q).v = ![q.v 0, q.v 1 + a * k * cos (k * X 1) * q.v 0, q.v 2] ∧
      (chartPrim (jSnake a k al vy (X 1)) al ![0, vy, 0] q).B = ![q.B 0, q.B 1 + a * k * cos (k * X 1) * q.B 0, q.B 2] := by
  have ha := hal.ne'
  have h0 : 0 < flatU q.v 0 := by linarith [(flatU_unit q.v).2]
  have hB := fun d => flatB_field (flatU q.v) q.B h0 d
  have hs : ∀ (w : Fin 4 → ℝ), push (jSnake a k al vy (X 1)) w = ![w 0 / al, w 1, -vy / al * w 0 + a * k * cos (k * X 1) * w 1 + w 2, w 3] := by
    intro w; funext i; fin_cases i <;> simp [push, jSnake, Fin.sum_univ_four]; ring
  have hv : ∀ d : Fin 3, flatU q.v d.succ = q.v d := fun d => rfl
  constructor
  · funext d
    have e1 := hv 0
    have e2 := hv 1
    have e3 := hv 2
    simp only [chartPrim, storeV, hs]
    simp at e1 e2 e3
    fin_cases d
    · simp [e1]
    · simp [e1, e2]; field_simp; ring
    · show flatU q.v 3 + _ = _
      rw [show flatU q.v 3 = q.v 2 from rfl]; simp
  · funext d
    have b1 := hB 0
    have b2 := hB 1
    have b3 := hB 2
    simp only [chartPrim, storeB, hs]
    rw [show (Fin.succ 0 : Fin 4) = 1 from rfl] at b1
    rw [show (Fin.succ 1 : Fin 4) = 2 from rfl] at b2
    rw [show (Fin.succ 2 : Fin 4) = 3 from rfl] at b3
    fin_cases d
    · simp; rw [← b1]; field_simp
    · simp; rw [← b1, ← b2]; field_simp; ring
    · show flatB (flatU q.v) q.B 3 * (al * (flatU q.v 0 / al)) - al * (flatB (flatU q.v) q.B 0 / al) * flatU q.v 3 = q.B 2
      rw [← b3]; field_simp

/-! ### Inchworm: the Jacobian is not the derivative of the chart -/

/-- At the origin of the inchworm chart the stored state moves `(1 - a²k²)` times as fast along `x` as asked for. -/
theorem inch_velocity (a k : ℝ) (X : Fin 4 → ℝ) (hX : X 1 = 0) (q : Rel.Prim) :
    let s := Metrics.inchworm a k
    let q' := chartPrim (jInch a k (inchInertial a k X 1)) 1 (s.shift X) q
    (1 - a * k) * Rel.tU 0 (Metrics.adm s X) q' 1 = (1 - (a * k) ^ 2) * flatU q.v 1 := by
  intro s q'
  have h1 : Rel.tU 0 (Metrics.adm s X) q' 1 = q'.v 0 := by
    rw [Rel.tU_split _ _ (show (0:ℝ) < (Metrics.adm s X).alpha from one_pos)]
    show q'.v 0 - _ * (Metrics.adm s X).beta 0 = _
    simp [s, Metrics.adm, Metrics.inchworm]
  have h2 : q'.v 0 = (1 + a * k) * flatU q.v 1 := by
    simp [q', chartPrim, storeV, push, jInch, s, Metrics.inchworm, inchInertial, hX, Fin.sum_univ_four]
  rw [h1, h2]; ring

/-- C90. What the inchworm chart stores, everywhere: the first components of velocity and field times the factor of the Jacobian, all others as they are. -/
theorem inch_stored (a k x : ℝ) (q : Rel.Prim) :
    let q' := chartPrim (jInch a k x) 1 (fun _ => 0) q
    let J := 1 + a * k * cos (k * x)
    q'.v = ![J * q.v 0, q.v 1, q.v 2] ∧ q'.B = ![J * q.B 0, q.B 1, q.B 2] := by
  intro q' J
  have hW : flatU q.v 0 ≠ 0 := by
    show √(1 + (q.v 0 * q.v 0 + q.v 1 * q.v 1 + q.v 2 * q.v 2)) ≠ 0
    exact (Real.sqrt_pos.2 (by nlinarith [mul_self_nonneg (q.v 0), mul_self_nonneg (q.v 1), mul_self_nonneg (q.v 2)])).ne'
  have hb : ∀ d : Fin 3, flatB (flatU q.v) q.B d.succ * flatU q.v 0 = q.B d + flatB (flatU q.v) q.B 0 * flatU q.v d.succ := fun d => by
    show (q.B d + flatB (flatU q.v) q.B 0 * flatU q.v d.succ) / flatU q.v 0 * flatU q.v 0 = _
    rw [div_mul_cancel₀ _ hW]
  have b0 := hb 0
  have b1 := hb 1
  have b2 := hb 2
  rw [show (Fin.succ 0 : Fin 4) = 1 from rfl] at b0
  rw [show (Fin.succ 1 : Fin 4) = 2 from rfl] at b1
  rw [show (Fin.succ 2 : Fin 4) = 3 from rfl] at b2
  constructor
  · funext d
    simp only [q', chartPrim, storeV, push, jInch, Fin.sum_univ_four]
    fin_cases d <;> simp [J, flatU]
    all_goals rfl
  · funext d
    simp only [q', chartPrim, storeB, push, jInch, Fin.sum_univ_four]
    fin_cases d
    · simp [J]; linear_combination (1 + a * k * cos (k * x)) * b0
    · simp; linear_combination b1
    · simp; linear_combination b2

/-- A vector of the inchworm chart at the origin represents an inertial vector only if its `x` component, times
`1 - ak`, is the inertial one. -/
theorem inch_represents_iff (a k : ℝ) (X w e : Fin 4 → ℝ) (hX : X 1 = 0) (h : Represents (inchInertial a k) X w e) :
    (1 - a * k) * w 1 = e 1 := by
  have h0 : ∀ (c w : ℝ), HasDerivAt (fun s : ℝ => c + s * w) w 0 := fun c w => by
    simpa using ((hasDerivAt_id (0:ℝ)).mul_const w).const_add c
  have h1 := (h0 (X 1) (w 1)).sub (((h0 (X 1) (w 1)).const_mul k).sin.const_mul a)
  have h2 := (h 1).unique (h1.congr_of_eventuallyEq (Filter.Eventually.of_forall fun s => by simp [inchInertial]))
  rw [h2, hX]; simp; ring

/-- C90. In the inchworm chart (with `0 < |ak| `) a state moving along `x` is not the state asked for. -/
theorem inch_state_wrong (a k : ℝ) (hak : a * k ≠ 0) (X : Fin 4 → ℝ) (hX : X 1 = 0) (q : Rel.Prim) (hv : q.v 0 ≠ 0) :
    let s := Metrics.inchworm a k
    let q' := chartPrim (jInch a k (inchInertial a k X 1)) 1 (s.shift X) q
    ¬ Represents (inchInertial a k) X (Rel.tU 0 (Metrics.adm s X) q') (flatU q.v) := by
  intro s q' h
  have h1 := inch_represents_iff a k X _ _ hX h
  have h2 := inch_velocity a k X hX q
  rw [h2, show flatU q.v 1 = q.v 0 from rfl] at h1
  have : (a * k) ^ 2 * q.v 0 = 0 := by linear_combination -h1
  rcases mul_eq_zero.1 this with h | h
  · exact hak (by simpa using h)
  · exact hv h

/-- a concrete snake chart and moving magnetised state. -/
example : let s := Metrics.snake (3 / 10) 1 2 (1 / 5)
    let q : Rel.Prim := ⟨1, 1, 1 / 3, ![3 / 4, 0, 0], ![1, 0, 0]⟩
    (chartPrim (jSnake (3 / 10) 1 2 (1 / 5) 0) 2 (s.shift ![0, 0, 0, 0]) q).v = ![3 / 4, 9 / 40, 0] := by
  intro s q
  have := (snake_stored (3 / 10) 1 2 (1 / 5) (by norm_num) ![0, 0, 0, 0] q).1
  simp [q] at this
  rw [show s.shift ![0, 0, 0, 0] = ![0, 1 / 5, 0] from rfl]
  simp [q]
  rw [this]; norm_num

end Phoebus.Pgen
