import Verif.Tetrads.Model
import Verif.C2P.Lemmas
import Verif.Metrics.Spec
import Mathlib.LinearAlgebra.Matrix.NonsingularInverse

/-!
# C38: tetrads
-/
namespace Phoebus.Tetrads
open Finset Geom GeomUtils
open Rel (PosDef exG exG_valid fourVelocity four_velocity_unit)

/-- Specification: Minkowski metric. -/
noncomputable def eta (a b : Fin 4) : ℝ := if a = b then (if a = 0 then -1 else 1) else 0

/-- Specification: `E` is an orthonormal frame of the metric `g` (textbook contraction `Geom.dot4`). -/
def Orthonormal (g : Fin 4 → Fin 4 → ℝ) (E : Fin 4 → Fin 4 → ℝ) : Prop := ∀ a b, dot4 g (E a) (E b) = eta a b

/-- Specification: four vectors are independent. -/
def Independent (E : Fin 4 → Fin 4 → ℝ) : Prop :=
  ∀ c : Fin 4 → ℝ, (∀ mu, ∑ a, c a * E a mu = 0) → ∀ a, c a = 0

variable {G : ADM ℝ}

theorem norm2_eq (g : Fin 4 → Fin 4 → ℝ) (v w : Fin 4 → ℝ) : norm2 g v w = dot4 g v w := by
  unfold norm2 dot4; exact sum_congr rfl fun _ _ => sum_congr rfl fun _ _ => by ring

section Bilinear
variable (g : Fin 4 → Fin 4 → ℝ)

theorem dot4_add_smul (x y z : Fin 4 → ℝ) (c : ℝ) :
    dot4 g (fun mu => x mu - c * y mu) z = dot4 g x z - c * dot4 g y z := by
  unfold dot4; rw [mul_sum, ← sum_sub_distrib]
  refine sum_congr rfl fun _ _ => ?_
  rw [mul_sum, ← sum_sub_distrib]
  exact sum_congr rfl fun _ _ => by ring

theorem dot4_smul (x z : Fin 4 → ℝ) (c : ℝ) : dot4 g (fun mu => c * x mu) z = c * dot4 g x z := by
  unfold dot4; rw [mul_sum]
  refine sum_congr rfl fun _ _ => ?_
  rw [mul_sum]
  exact sum_congr rfl fun _ _ => by ring

theorem dot4_comm (hs : ∀ m n, g m n = g n m) (x y : Fin 4 → ℝ) : dot4 g x y = dot4 g y x := by
  unfold dot4; rw [sum_comm]
  exact sum_congr rfl fun _ _ => sum_congr rfl fun _ _ => by rw [hs]; ring

end Bilinear

theorem g4_symm (h : G.Valid) (m n : Fin 4) : G.g4 m n = G.g4 n m := by
  refine Fin.cases ?_ (fun i => ?_) m <;> refine Fin.cases ?_ (fun j => ?_) n <;> simp [h.symm]

/-- definiteness from semidefiniteness and invertibility. -/
theorem dot3_eq_zero (h : G.Valid) (hp : PosDef G) (v : Fin 3 → ℝ) (hv : G.dot3 v v = 0) : v = 0 := by
  have key : ∀ w, G.dot3 v w = 0 := fun w => by
    have := C2P.cauchy_schwarz h hp v w
    rw [hv, zero_mul] at this
    exact pow_eq_zero_iff (two_ne_zero) |>.1 (le_antisymm this (sq_nonneg _))
  have low : ∀ k, ∑ i, G.gam i k * v i = 0 := fun k => by
    have := key (fun j => if j = k then 1 else 0)
    simpa [ADM.dot3] using this
  funext i
  have : ∑ k, G.gamInv i k * ∑ j, G.gam j k * v j = v i := by
    simp only [mul_sum]
    rw [sum_comm]
    have e : ∀ j, ∑ k, G.gamInv i k * (G.gam j k * v j) = (if i = j then 1 else 0) * v j := fun j => by
      rw [← h.inv' i j, sum_mul]
      exact sum_congr rfl fun k _ => by rw [h.symm j k]; ring
    simp [e]
  rw [← this]; simp [low]

/-- every vector in split form. -/
theorem split_form (x : Fin 4 → ℝ) : x = Fin.cons (x 0) fun i => (x i.succ + x 0 * G.beta i) - x 0 * G.beta i := by
  funext m; refine Fin.cases rfl (fun i => ?_) m; simp

/-- what is orthogonal to a timelike vector is spacelike. -/
theorem spacelike_of_orthogonal (h : G.Valid) (hp : PosDef G) (u v : Fin 4 → ℝ) (hu : dot4 G.g4 u u < 0)
    (hv : v ≠ 0) (ho : dot4 G.g4 v u = 0) : 0 < dot4 G.g4 v v := by
  rw [split_form (G := G) u, ADM.dot4_split h] at hu
  rw [split_form (G := G) u, split_form (G := G) v, ADM.dot4_split h] at ho
  have hv' : ¬ (v 0 = 0 ∧ (fun i => v i.succ + v 0 * G.beta i) = 0) := fun ⟨h0, h1⟩ => hv (by
    funext m; refine Fin.cases h0 (fun i => ?_) m
    have := congrFun h1 i; simpa [h0] using this)
  rw [split_form (G := G) v, ADM.dot4_split h]
  try simp only [Fin.cons_zero] at *
  set U : Fin 3 → ℝ := fun i => u i.succ + u 0 * G.beta i
  set V : Fin 3 → ℝ := fun i => v i.succ + v 0 * G.beta i
  have cs := C2P.cauchy_schwarz h hp V U
  have hUU := hp U
  have hVV := hp V
  set a := G.dot3 U U
  set b := G.dot3 V V
  have ha2 : 0 < G.alpha ^ 2 := by have := h.alpha_ne; positivity
  have hw : a < G.alpha ^ 2 * u 0 ^ 2 := by nlinarith
  have hc : G.dot3 V U = G.alpha ^ 2 * v 0 * u 0 := by linarith
  have hu0 : 0 < G.alpha ^ 2 * u 0 ^ 2 := lt_of_le_of_lt hUU hw
  rw [hc] at cs
  have hb : 0 < b := by
    rcases eq_or_lt_of_le hVV with e | e
    · exfalso
      have hV0 := dot3_eq_zero h hp V e.symm
      have : (G.alpha ^ 2 * v 0 * u 0) ^ 2 ≤ 0 := by rw [← e] at cs; simpa using cs
      have h0 : G.alpha ^ 2 * v 0 * u 0 = 0 := pow_eq_zero_iff two_ne_zero |>.1 (le_antisymm this (sq_nonneg _))
      have hune : u 0 ≠ 0 := fun e => by rw [e] at hu0; simp at hu0
      refine hv' ⟨?_, hV0⟩
      rcases mul_eq_zero.1 h0 with h1 | h1
      · rcases mul_eq_zero.1 h1 with h2 | h2
        · exact absurd h2 ha2.ne'
        · exact h2
      · exact absurd h1 hune
    · exact e
  have h1 : (G.alpha ^ 2 * v 0 * u 0) ^ 2 < b * (G.alpha ^ 2 * u 0 ^ 2) := lt_of_le_of_lt cs (by
    exact mul_lt_mul_of_pos_left hw hb)
  have h2 : (G.alpha ^ 2 * v 0 ^ 2) * (G.alpha ^ 2 * u 0 ^ 2) < b * (G.alpha ^ 2 * u 0 ^ 2) := by
    calc _ = (G.alpha ^ 2 * v 0 * u 0) ^ 2 := by ring
      _ < _ := h1
  have := lt_of_mul_lt_mul_right h2 hu0.le
  nlinarith

theorem normalize_eq (g : Fin 4 → Fin 4 → ℝ) (v : Fin 4 → ℝ) :
    normalize g v = fun mu => (Real.sqrt |dot4 g v v|)⁻¹ * v mu := by
  funext mu; unfold normalize; rw [norm2_eq]; ring

theorem projectOut_eq (g : Fin 4 → Fin 4 → ℝ) (a b : Fin 4 → ℝ) :
    projectOut g a b = fun mu => a mu - (dot4 g a b / dot4 g b b) * b mu := by
  funext mu; unfold projectOut; rw [norm2_eq, norm2_eq]; ring

theorem dot4_normalize (hs : ∀ m n, G.g4 m n = G.g4 n m) (v z : Fin 4 → ℝ) :
    dot4 G.g4 (normalize G.g4 v) z = (Real.sqrt |dot4 G.g4 v v|)⁻¹ * dot4 G.g4 v z := by
  rw [normalize_eq, dot4_smul]

theorem dot4_normalize_self (hs : ∀ m n, G.g4 m n = G.g4 n m) (v : Fin 4 → ℝ) (hv : dot4 G.g4 v v ≠ 0) :
    dot4 G.g4 (normalize G.g4 v) (normalize G.g4 v) = dot4 G.g4 v v / |dot4 G.g4 v v| := by
  rw [dot4_normalize hs, dot4_comm _ hs v (normalize G.g4 v), dot4_normalize hs, ← mul_assoc]
  have : (Real.sqrt |dot4 G.g4 v v|)⁻¹ * (Real.sqrt |dot4 G.g4 v v|)⁻¹ = |dot4 G.g4 v v|⁻¹ := by
    rw [← mul_inv, Real.mul_self_sqrt (abs_nonneg _)]
  rw [this]; ring

/-- one Gram-Schmidt step keeps orthogonality to `z` when both ingredients are orthogonal to `z`. -/
theorem project_orth (g : Fin 4 → Fin 4 → ℝ) (a b z : Fin 4 → ℝ) (ha : dot4 g a z = 0) (hb : dot4 g b z = 0) :
    dot4 g (projectOut g a b) z = 0 := by
  rw [projectOut_eq, dot4_add_smul, ha, hb]; ring

theorem project_self (g : Fin 4 → Fin 4 → ℝ) (a b : Fin 4 → ℝ) (hb : dot4 g b b ≠ 0) :
    dot4 g (projectOut g a b) b = 0 := by
  rw [projectOut_eq, dot4_add_smul]; field_simp; ring

theorem ne_zero_of_combo {E : Fin 4 → Fin 4 → ℝ} (hE : Independent E) (w : Fin 4 → ℝ) (c : Fin 4 → ℝ) (k : Fin 4)
    (hc : c k ≠ 0) (hw : ∀ mu, w mu = ∑ a, c a * E a mu) : w ≠ 0 := fun h0 => hc (hE c (fun mu => by rw [← hw, h0]; rfl) k)

/-- C38. Gram-Schmidt as coded turns any basis whose first vector is timelike into an orthonormal frame, for every
3+1 metric. -/
theorem orthonormalize_orthonormal (h : G.Valid) (hp : PosDef G) (E : Fin 4 → Fin 4 → ℝ) (hE : Independent E)
    (ht : dot4 G.g4 (E 0) (E 0) < 0) : Orthonormal G.g4 (orthonormalize G.g4 E) := by
  have hs := g4_symm h
  have comm := dot4_comm G.g4 hs
  -- first vector
  obtain ⟨e0, he0⟩ : ∃ e, normalize G.g4 (E 0) = e := ⟨_, rfl⟩
  have n0 : dot4 G.g4 e0 e0 = -1 := by
    rw [← he0, dot4_normalize_self hs _ ht.ne, abs_of_neg ht, div_neg, div_self ht.ne]
  have t0 : dot4 G.g4 e0 e0 < 0 := by rw [n0]; norm_num
  obtain ⟨k0, hk0, c0⟩ : ∃ k : ℝ, k ≠ 0 ∧ ∀ mu, e0 mu = k * E 0 mu := by
    refine ⟨(Real.sqrt |dot4 G.g4 (E 0) (E 0)|)⁻¹, ?_, fun mu => by rw [← he0, normalize_eq]⟩
    exact inv_ne_zero (Real.sqrt_ne_zero'.2 (abs_pos.2 ht.ne))
  -- second vector
  obtain ⟨w1, hw1⟩ : ∃ e, projectOut G.g4 (E 1) e0 = e := ⟨_, rfl⟩
  have o10 : dot4 G.g4 w1 e0 = 0 := by rw [← hw1]; exact project_self _ _ _ t0.ne
  have c1 : ∃ x : ℝ, ∀ mu, w1 mu = E 1 mu + x * E 0 mu := by
    refine ⟨-(dot4 G.g4 (E 1) e0 / dot4 G.g4 e0 e0) * k0, fun mu => ?_⟩
    rw [← hw1, projectOut_eq]; simp only [c0]; ring
  obtain ⟨x1, c1⟩ := c1
  have z1 : w1 ≠ 0 := ne_zero_of_combo hE w1 ![x1, 1, 0, 0] 1 (by simp) fun mu => by
    rw [c1]; simp [Fin.sum_univ_four]; ring
  have p1 : 0 < dot4 G.g4 w1 w1 := spacelike_of_orthogonal h hp e0 w1 t0 z1 o10
  obtain ⟨e1, he1⟩ : ∃ e, normalize G.g4 w1 = e := ⟨_, rfl⟩
  have n1 : dot4 G.g4 e1 e1 = 1 := by
    rw [← he1, dot4_normalize_self hs _ p1.ne', abs_of_pos p1]; field_simp
  have q10 : dot4 G.g4 e1 e0 = 0 := by rw [← he1, dot4_normalize hs, o10, mul_zero]
  obtain ⟨k1, d1⟩ : ∃ k : ℝ, ∀ mu, e1 mu = k * w1 mu :=
    ⟨(Real.sqrt |dot4 G.g4 w1 w1|)⁻¹, fun mu => by rw [← he1, normalize_eq]⟩
  -- third vector
  obtain ⟨v2, hv2⟩ : ∃ e, projectOut G.g4 (E 2) e0 = e := ⟨_, rfl⟩
  obtain ⟨w2, hw2⟩ : ∃ e, projectOut G.g4 v2 e1 = e := ⟨_, rfl⟩
  have o20' : dot4 G.g4 v2 e0 = 0 := by rw [← hv2]; exact project_self _ _ _ t0.ne
  have o20 : dot4 G.g4 w2 e0 = 0 := by rw [← hw2]; exact project_orth _ _ _ _ o20' q10
  have o21 : dot4 G.g4 w2 e1 = 0 := by rw [← hw2]; exact project_self _ _ _ (by rw [n1]; norm_num)
  have c2 : ∃ x y : ℝ, ∀ mu, w2 mu = E 2 mu + x * E 0 mu + y * E 1 mu := by
    refine ⟨-(dot4 G.g4 (E 2) e0 / dot4 G.g4 e0 e0) * k0 - (dot4 G.g4 v2 e1 / dot4 G.g4 e1 e1) * k1 * x1,
      -(dot4 G.g4 v2 e1 / dot4 G.g4 e1 e1) * k1, fun mu => ?_⟩
    rw [← hw2, projectOut_eq]; beta_reduce
    nth_rewrite 1 [← hv2]
    rw [projectOut_eq]; simp only [c0, d1, c1]; ring
  obtain ⟨x2, y2, c2⟩ := c2
  have z2 : w2 ≠ 0 := ne_zero_of_combo hE w2 ![x2, y2, 1, 0] 2 (by simp) fun mu => by
    rw [c2]; simp [Fin.sum_univ_four]; ring
  have p2 : 0 < dot4 G.g4 w2 w2 := spacelike_of_orthogonal h hp e0 w2 t0 z2 o20
  obtain ⟨e2, he2⟩ : ∃ e, normalize G.g4 w2 = e := ⟨_, rfl⟩
  have n2 : dot4 G.g4 e2 e2 = 1 := by
    rw [← he2, dot4_normalize_self hs _ p2.ne', abs_of_pos p2]; field_simp
  have q20 : dot4 G.g4 e2 e0 = 0 := by rw [← he2, dot4_normalize hs, o20, mul_zero]
  have q21 : dot4 G.g4 e2 e1 = 0 := by rw [← he2, dot4_normalize hs, o21, mul_zero]
  obtain ⟨k2, d2⟩ : ∃ k : ℝ, ∀ mu, e2 mu = k * w2 mu :=
    ⟨(Real.sqrt |dot4 G.g4 w2 w2|)⁻¹, fun mu => by rw [← he2, normalize_eq]⟩
  -- fourth vector
  obtain ⟨u3, hu3⟩ : ∃ e, projectOut G.g4 (E 3) e0 = e := ⟨_, rfl⟩
  obtain ⟨v3, hv3⟩ : ∃ e, projectOut G.g4 u3 e1 = e := ⟨_, rfl⟩
  obtain ⟨w3, hw3⟩ : ∃ e, projectOut G.g4 v3 e2 = e := ⟨_, rfl⟩
  have o30'' : dot4 G.g4 u3 e0 = 0 := by rw [← hu3]; exact project_self _ _ _ t0.ne
  have o30' : dot4 G.g4 v3 e0 = 0 := by rw [← hv3]; exact project_orth _ _ _ _ o30'' q10
  have o31' : dot4 G.g4 v3 e1 = 0 := by rw [← hv3]; exact project_self _ _ _ (by rw [n1]; norm_num)
  have o30 : dot4 G.g4 w3 e0 = 0 := by rw [← hw3]; exact project_orth _ _ _ _ o30' q20
  have o31 : dot4 G.g4 w3 e1 = 0 := by rw [← hw3]; exact project_orth _ _ _ _ o31' q21
  have o32 : dot4 G.g4 w3 e2 = 0 := by rw [← hw3]; exact project_self _ _ _ (by rw [n2]; norm_num)
  have c3 : ∃ x y z : ℝ, ∀ mu, w3 mu = E 3 mu + x * E 0 mu + y * E 1 mu + z * E 2 mu := by
    refine ⟨-(dot4 G.g4 (E 3) e0 / dot4 G.g4 e0 e0) * k0 - (dot4 G.g4 u3 e1 / dot4 G.g4 e1 e1) * k1 * x1
        - (dot4 G.g4 v3 e2 / dot4 G.g4 e2 e2) * k2 * x2,
      -(dot4 G.g4 u3 e1 / dot4 G.g4 e1 e1) * k1 - (dot4 G.g4 v3 e2 / dot4 G.g4 e2 e2) * k2 * y2,
      -(dot4 G.g4 v3 e2 / dot4 G.g4 e2 e2) * k2, fun mu => ?_⟩
    rw [← hw3, projectOut_eq]; beta_reduce
    nth_rewrite 1 [← hv3]
    rw [projectOut_eq]; beta_reduce
    nth_rewrite 1 [← hu3]
    rw [projectOut_eq]; simp only [c0, d1, d2, c1, c2]; ring
  obtain ⟨x3, y3, zz3, c3⟩ := c3
  have z3 : w3 ≠ 0 := ne_zero_of_combo hE w3 ![x3, y3, zz3, 1] 3 (by simp) fun mu => by
    rw [c3]; simp [Fin.sum_univ_four]; ring
  have p3 : 0 < dot4 G.g4 w3 w3 := spacelike_of_orthogonal h hp e0 w3 t0 z3 o30
  obtain ⟨e3, he3⟩ : ∃ e, normalize G.g4 w3 = e := ⟨_, rfl⟩
  have n3 : dot4 G.g4 e3 e3 = 1 := by
    rw [← he3, dot4_normalize_self hs _ p3.ne', abs_of_pos p3]; field_simp
  have q30 : dot4 G.g4 e3 e0 = 0 := by rw [← he3, dot4_normalize hs, o30, mul_zero]
  have q31 : dot4 G.g4 e3 e1 = 0 := by rw [← he3, dot4_normalize hs, o31, mul_zero]
  have q32 : dot4 G.g4 e3 e2 = 0 := by rw [← he3, dot4_normalize hs, o32, mul_zero]
  have hfin : orthonormalize G.g4 E = ![e0, e1, e2, e3] := by
    unfold orthonormalize; simp only [he0, hw1, he1, hv2, hw2, he2, hu3, hv3, hw3, he3]
  rw [hfin]
  intro a b
  fin_cases a <;> fin_cases b <;> simp [eta, n0, n1, n2, n3, q10, q20, q21, q30, q31, q32] <;>
    (rw [comm]; assumption)

/-- the coordinate axes together with a timelike vector are independent. -/
theorem axes_independent (h : G.Valid) (hp : PosDef G) (u : Fin 4 → ℝ) (hu : dot4 G.g4 u u < 0) :
    Independent ![u, fun mu => kronecker mu 1, fun mu => kronecker mu 2, fun mu => kronecker mu 3] := by
  intro c hc
  have hu0 : u 0 ≠ 0 := fun e => by
    rw [split_form (G := G) u, ADM.dot4_split h, e] at hu
    have := hp (fun i => u i.succ + u 0 * G.beta i)
    rw [e] at this
    simp at hu this; linarith
  have h0 := hc 0
  have h1 := hc 1
  have h2 := hc 2
  have h3 := hc 3
  simp [Fin.sum_univ_four, kronecker] at h0 h1 h2 h3
  have z0 : c 0 = 0 := by rcases h0 with e | e; · exact e
                          · exact absurd e hu0
  rw [z0] at h1 h2 h3
  intro a; fin_cases a <;> simp_all

/-- with the default trial vector nothing is overwritten that matters: the starting basis is the flow and the axes. -/
theorem initial_default (eps : ℝ) (h : G.Valid) (hp : PosDef G) (u : Fin 4 → ℝ) :
    initial eps G.g4 u defaultTrial =
      ![u, fun mu => kronecker mu 1, fun mu => kronecker mu 2, fun mu => kronecker mu 3] := by
  have htr : (fun mu => kronecker mu 1 : Fin 4 → ℝ) = defaultTrial := by
    funext mu; fin_cases mu <;> simp [kronecker, defaultTrial]
  unfold initial
  simp only
  split_ifs with h1 h2 h3
  · rw [← htr]; funext a; fin_cases a <;> simp [Function.update]
  all_goals try rfl
  all_goals
    exfalso
    -- γ_ii is positive and Cauchy-Schwarz is strict for distinct axes
    let e : Fin 3 → Fin 3 → ℝ := fun i j => if j = i then 1 else 0
    have hd : ∀ i j, G.dot3 (e i) (e j) = G.gam i j := fun i j => by
      simp [ADM.dot3, e]
    have hpos : ∀ i, 0 < G.gam i i := fun i => by
      rw [← hd]
      refine lt_of_le_of_ne (hp _) fun h0 => ?_
      have := congrFun (dot3_eq_zero h hp _ h0.symm) i
      simp [e] at this
    have hlt : ∀ i : Fin 3, i ≠ 0 → |G.gam i 0| / Real.sqrt (G.gam i i) < Real.sqrt (G.gam 0 0) := fun i hi => by
      have hi2 := hpos i
      have h02 := hpos 0
      -- the vector e0 - (γ_{i0}/γ_ii) e_i is not zero
      have hne : 0 < G.gam 0 0 - G.gam i 0 ^ 2 / G.gam i i := by
        let w : Fin 3 → ℝ := fun j => e 0 j - G.gam i 0 / G.gam i i * e i j
        have hw : G.dot3 w w = G.gam 0 0 - G.gam i 0 ^ 2 / G.gam i i := by
          have hexp : G.dot3 w w = G.dot3 (e 0) (e 0) - G.gam i 0 / G.gam i i * G.dot3 (e i) (e 0)
              - G.gam i 0 / G.gam i i * G.dot3 (e 0) (e i) + (G.gam i 0 / G.gam i i) ^ 2 * G.dot3 (e i) (e i) := by
            simp only [ADM.dot3, w, Fin.sum_univ_three]; ring
          rw [hexp, hd, hd, hd, hd, h.symm 0 i]; field_simp; ring
        rw [← hw]
        refine lt_of_le_of_ne (hp _) fun h0 => ?_
        have := congrFun (dot3_eq_zero h hp _ h0.symm) 0
        simp [w, e, Ne.symm hi] at this
      rw [div_lt_iff₀ (Real.sqrt_pos.2 hi2), ← Real.sqrt_mul h02.le, ← Real.sqrt_sq (abs_nonneg (G.gam i 0))]
      refine Real.sqrt_lt_sqrt (sq_nonneg _) ?_
      rw [sq_abs]
      have := mul_pos hne hi2
      rw [sub_mul, div_mul_cancel₀ _ hi2.ne'] at this
      linarith
    have hness : ∀ i : Fin 3, ness G.g4 defaultTrial i.succ = |G.gam i 0| / Real.sqrt (G.gam i i) := fun i => by
      unfold ness
      rw [ADM.g4_ss, abs_of_pos (hpos i)]
      have : ∑ mu, G.g4 i.succ mu * defaultTrial mu / Real.sqrt (G.gam i i) = G.gam i 0 / Real.sqrt (G.gam i i) := by
        rw [Fin.sum_univ_succ, Fin.sum_univ_three]
        simp [defaultTrial]
        rfl
      rw [this, abs_div, abs_of_nonneg (Real.sqrt_nonneg _)]
    have n1 : ness G.g4 defaultTrial 1 = Real.sqrt (G.gam 0 0) := by
      have := hness 0
      rw [show (Fin.succ 0 : Fin 4) = 1 from rfl] at this
      rw [this, abs_of_pos (hpos 0), Real.div_sqrt]
    have n2 : ness G.g4 defaultTrial 2 < ness G.g4 defaultTrial 1 := by
      rw [n1]; have := hness 1; rw [show (Fin.succ 1 : Fin 4) = 2 from rfl] at this; rw [this]; exact hlt 1 (by decide)
    have n3 : ness G.g4 defaultTrial 3 < ness G.g4 defaultTrial 1 := by
      rw [n1]; have := hness 2; rw [show (Fin.succ 2 : Fin 4) = 3 from rfl] at this; rw [this]; exact hlt 2 (by decide)
    exact h2 ⟨n2, n3⟩

/-- C38. The tetrad built from any timelike four-velocity in any 3+1 metric (default constructor) is orthonormal and its
time leg is along the four-velocity.

Partial form of C38. Full property: The tetrad built from any timelike unit four-velocity is orthonormal, and
converting a vector to the tetrad frame and back is the identity. Missing: Proved for the default trial vectors; a
user-supplied trial vector can make the basis degenerate (witness trial_degenerate). -/
theorem tetrad_orthonormal_partial (eps : ℝ) (h : G.Valid) (hp : PosDef G) (u : Fin 4 → ℝ) (hu : dot4 G.g4 u u < 0) :
    Orthonormal G.g4 (econ eps G.g4 u defaultTrial) ∧
    (dot4 G.g4 u u = -1 → econ eps G.g4 u defaultTrial 0 = u) := by
  constructor
  · unfold econ
    rw [initial_default eps h hp]
    exact orthonormalize_orthonormal h hp _ (axes_independent h hp u hu) hu
  · intro h1
    unfold econ
    rw [initial_default eps h hp]
    show normalize G.g4 u = u
    rw [normalize_eq, h1]; simp

/-- C38. Both conversions are inverse to each other for any orthonormal frame, and the frame components carry the
Minkowski inner product. -/
theorem frame_round_trip (E : Fin 4 → Fin 4 → ℝ) (h : G.Valid) (hE : Orthonormal G.g4 E) (v w : Fin 4 → ℝ) :
    tetradToCoordCon E (coordToTetradCon (ecov G.g4 E) v) = v ∧
    coordToTetradCon (ecov G.g4 E) (tetradToCoordCon E v) = v ∧
    tetradToCoordCov (ecov G.g4 E) (coordToTetradCov E v) = v ∧
    coordToTetradCov E (tetradToCoordCov (ecov G.g4 E) v) = v ∧
    dot4 G.g4 (tetradToCoordCon E v) (tetradToCoordCon E w) = ∑ a, ∑ b, eta a b * v a * w b := by
  have key : ∀ a b, ∑ m, ecov G.g4 E a m * E b m = if a = b then 1 else 0 := fun a b => by
    have hab := hE b a
    have e : ∑ m, lower G.g4 (E a) m * E b m = dot4 G.g4 (E b) (E a) := by
      unfold lower dot4
      refine sum_congr rfl fun m _ => ?_
      rw [sum_mul]; exact sum_congr rfl fun n _ => by ring
    unfold ecov
    by_cases ha : a = 0
    · subst ha
      simp only [if_true]
      rw [show ∑ m, lower G.g4 (E 0) m * -1 * E b m = - ∑ m, lower G.g4 (E 0) m * E b m by
        rw [← sum_neg_distrib]; exact sum_congr rfl fun _ _ => by ring]
      rw [e, hab]; unfold eta
      by_cases hb : b = 0
      · subst hb; simp
      · simp [hb, Ne.symm hb]
    · simp only [if_neg ha]
      rw [e, hab]; unfold eta
      by_cases hb : b = a
      · subst hb; simp [ha]
      · simp [hb, Ne.symm hb]
  let F : Matrix (Fin 4) (Fin 4) ℝ := Matrix.of (ecov G.g4 E)
  let M : Matrix (Fin 4) (Fin 4) ℝ := (Matrix.of E).transpose
  have hFM : F * M = 1 := by
    ext a b; rw [Matrix.mul_apply, Matrix.one_apply]; exact key a b
  have hMF : M * F = 1 := mul_eq_one_comm.1 hFM
  have key2 : ∀ m n, ∑ a, E a m * ecov G.g4 E a n = if m = n then 1 else 0 := fun m n => by
    have := congrFun (congrFun hMF m) n
    rw [Matrix.mul_apply, Matrix.one_apply] at this; exact this
  refine ⟨?_, ?_, ?_, ?_, ?_⟩
  · funext m
    unfold tetradToCoordCon coordToTetradCon
    simp only [mul_sum]
    rw [sum_comm]
    have e : ∀ n, ∑ a, E a m * (ecov G.g4 E a n * v n) = (if m = n then 1 else 0) * v n := fun n => by
      rw [← key2 m n, sum_mul]; exact sum_congr rfl fun _ _ => by ring
    simp [e]
  · funext a
    unfold tetradToCoordCon coordToTetradCon
    simp only [mul_sum]
    rw [sum_comm]
    have e : ∀ b, ∑ m, ecov G.g4 E a m * (E b m * v b) = (if a = b then 1 else 0) * v b := fun b => by
      rw [← key a b, sum_mul]; exact sum_congr rfl fun _ _ => by ring
    simp [e]
  · funext m
    unfold tetradToCoordCov coordToTetradCov
    simp only [mul_sum]
    rw [sum_comm]
    have e : ∀ n, ∑ a, ecov G.g4 E a m * (E a n * v n) = (if n = m then 1 else 0) * v n := fun n => by
      rw [← key2 n m, sum_mul]; exact sum_congr rfl fun _ _ => by ring
    simp [e]
  · funext a
    unfold tetradToCoordCov coordToTetradCov
    simp only [mul_sum]
    rw [sum_comm]
    have e : ∀ b, ∑ m, E a m * (ecov G.g4 E b m * v b) = (if b = a then 1 else 0) * v b := fun b => by
      rw [← key b a, sum_mul]; exact sum_congr rfl fun _ _ => by ring
    simp [e]
  · have : ∀ a b, ∑ m, ∑ n, G.g4 m n * E a m * E b n = eta a b := fun a b => hE a b
    simp only [← this]
    simp only [dot4, tetradToCoordCon, Fin.sum_univ_four]
    ring

/-- C38, default constructor: converting to the frame and back is the identity. -/
theorem tetrad_round_trip (eps : ℝ) (h : G.Valid) (hp : PosDef G) (u : Fin 4 → ℝ) (hu : dot4 G.g4 u u < 0)
    (v : Fin 4 → ℝ) :
    let E := econ eps G.g4 u defaultTrial
    tetradToCoordCon E (coordToTetradCon (ecov G.g4 E) v) = v ∧
    coordToTetradCon (ecov G.g4 E) (tetradToCoordCon E v) = v ∧
    tetradToCoordCov (ecov G.g4 E) (coordToTetradCov E v) = v ∧
    coordToTetradCov E (tetradToCoordCov (ecov G.g4 E) v) = v :=
  let ⟨a, b, c, d, _⟩ := frame_round_trip _ h (tetrad_orthonormal_partial eps h hp u hu).1 v v
  ⟨a, b, c, d⟩

/-- C38. In the frame of its own four-velocity the fluid is at rest: the components of `u` are `(1,0,0,0)`. -/
theorem tetrad_comoving (eps : ℝ) (h : G.Valid) (hp : PosDef G) (u : Fin 4 → ℝ) (hu : dot4 G.g4 u u = -1) :
    coordToTetradCon (ecov G.g4 (econ eps G.g4 u defaultTrial)) u = ![1, 0, 0, 0] := by
  have hlt : dot4 G.g4 u u < 0 := by rw [hu]; norm_num
  have h1 := tetrad_orthonormal_partial eps h hp u hlt
  have h2 := (frame_round_trip _ h h1.1 ![1, 0, 0, 0] 0).2.1
  rw [← h2]
  congr 1
  funext m
  have := congrFun (h1.2 hu) m
  simp [tetradToCoordCon, Fin.sum_univ_four, this]

/-- C38 fails for some trial vectors: if the trial vector lies in the plane of two axes but is closest to the third one,
the starting basis is degenerate.  Here `γ` is positive definite, the trial vector `(0,1,0,1)` is unit-size and spacelike,
and the second and first/third legs are dependent, for every four-velocity. -/
theorem trial_degenerate : ∃ G : ADM ℝ, G.Valid ∧ (∀ v, 0 ≤ G.dot3 v v) ∧ ∃ trial : Fin 4 → ℝ,
    0 < dot4 G.g4 trial trial ∧ ∀ eps < 1, ∀ u, ¬ Independent (initial eps G.g4 u trial) := by
  refine ⟨⟨1, 0, ![![1, 2/3, 0], ![2/3, 1, 2/3], ![0, 2/3, 1]], ![![5, -6, 4], ![-6, 9, -6], ![4, -6, 5]]⟩, ?_, ?_,
    ![0, 1, 0, 1], ?_, ?_⟩
  · refine ⟨by norm_num, ?_, ?_, ?_⟩
    · intro i j; fin_cases i <;> fin_cases j <;> simp
    · intro i j; fin_cases i <;> fin_cases j <;> simp
    · intro i j; fin_cases i <;> fin_cases j <;> simp [Fin.sum_univ_three] <;> norm_num
  · intro v
    simp [ADM.dot3, Fin.sum_univ_three]
    nlinarith [sq_nonneg (v 0 + 2/3 * v 1), sq_nonneg (v 2 + 2/3 * v 1), sq_nonneg (v 1)]
  · simp [dot4, Fin.sum_univ_four, Metrics.g4_11, Metrics.g4_13, Metrics.g4_31, Metrics.g4_33]
  · intro eps he u hI
    set A : ADM ℝ := ⟨1, 0, ![![1, 2/3, 0], ![2/3, 1, 2/3], ![0, 2/3, 1]], ![![5, -6, 4], ![-6, 9, -6], ![4, -6, 5]]⟩ with hA
    have hn : norm2 A.g4 ![0, 1, 0, 1] ![0, 1, 0, 1] > eps := by
      rw [norm2_eq]
      simp [dot4, Fin.sum_univ_four, Metrics.g4_11, Metrics.g4_13, Metrics.g4_31, Metrics.g4_33, hA]
      linarith
    have n1 : ness A.g4 ![0, 1, 0, 1] 1 = 1 := by
      simp [ness, Fin.sum_univ_four, Metrics.g4_11, Metrics.g4_13, Metrics.g4_31, Metrics.g4_33, Metrics.g4_21, Metrics.g4_22, Metrics.g4_23, hA]
    have n2 : ness A.g4 ![0, 1, 0, 1] 2 = 4 / 3 := by
      simp [ness, Fin.sum_univ_four, Metrics.g4_11, Metrics.g4_13, Metrics.g4_31, Metrics.g4_33, Metrics.g4_21, Metrics.g4_22, Metrics.g4_23, hA]; norm_num
    have n3 : ness A.g4 ![0, 1, 0, 1] 3 = 1 := by
      simp [ness, Fin.sum_univ_four, Metrics.g4_11, Metrics.g4_13, Metrics.g4_31, Metrics.g4_33, Metrics.g4_21, Metrics.g4_22, Metrics.g4_23, hA]
    have hin : initial eps A.g4 u ![0, 1, 0, 1] =
        ![u, fun mu => kronecker mu 1, ![0, 1, 0, 1], fun mu => kronecker mu 3] := by
      unfold initial
      simp only [if_pos hn, n1, n2, n3]
      rw [if_neg (by norm_num), if_pos (by norm_num)]
      funext a; fin_cases a <;> simp [Function.update]
    rw [hin] at hI
    have := hI ![0, 1, -1, 1] (fun mu => by fin_cases mu <;> simp [Fin.sum_univ_four, kronecker]) 1
    simp at this

/-- a concrete case: sheared metric with shift, moving fluid. -/
theorem ex_tetrad : dot4 exG.g4 (fourVelocity 0 exG ![1, 0, 1/2]) (fourVelocity 0 exG ![1, 0, 1/2]) = -1 ∧
    Orthonormal exG.g4 (econ (1/1000) exG.g4 (fourVelocity 0 exG ![1, 0, 1/2]) defaultTrial) := by
  have h := four_velocity_unit exG ![1, 0, 1/2] exG_valid.1 exG_valid.2
  exact ⟨h, (tetrad_orthonormal_partial _ exG_valid.1 exG_valid.2 _ (by rw [h]; norm_num)).1⟩

end Phoebus.Tetrads
