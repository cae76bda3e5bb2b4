import Verif.Boundary.Model

/-!
# Boundary fills (C25) and the inflow check (C26)
-/
namespace Phoebus.Boundary
open Finset Geom Robust Rel

/-- The block is at least as wide as its ghost zone. -/
def Side.Ok (S : Side) : Prop := 0 ≤ S.ng ∧ S.s + S.ng - 1 ≤ S.e

/-- Interior in the direction of the side. -/
def Side.interior (S : Side) (c : Idx) : Prop := S.s ≤ c S.dir ∧ c S.dir ≤ S.e

/-- C25. The source of every ghost cell is an interior cell in the boundary's direction and has the same other indices:
the nearest one for outflow, the mirror image in the face for reflection. -/
theorem source_interior (S : Side) (h : S.Ok) (T : BCType) (c : Idx) (hc : S.ghost c) :
    S.interior (source S T c) ∧ (∀ d, d ≠ S.dir → source S T c d = c d) ∧ ¬ S.ghost (source S T c) ∧
    (T = .outflow → source S T c S.dir = if S.inner then S.s else S.e) ∧
    (T = .reflect → source S T c S.dir + c S.dir = if S.inner then 2 * S.s - 1 else 2 * S.e + 1) := by
  obtain ⟨h0, h1⟩ := h
  unfold Side.ghost at hc
  cases T <;> cases hi : S.inner <;> simp only [hi, Bool.false_eq_true, if_true, if_false] at hc <;>
    refine ⟨?_, ?_, ?_, ?_, ?_⟩ <;>
    simp only [Side.interior, source, Side.ghost, Side.offset, Side.ref, hi, Function.update_self, Bool.false_eq_true, if_false,
      if_true, reduceCtorEq, IsEmpty.forall_iff, forall_const] <;>
    first
      | omega
      | exact fun d hd => Function.update_of_ne hd _ _

/-- C25. Any visiting order (and repetition) of the ghost cells gives the same result: the simultaneous fill. -/
theorem fill_order_independent (small : ℝ) (conserved : Bool) (S : Side) (h : S.Ok) (T : BCType) (vec : Option (Fin 3))
    (detg q : Idx → ℝ) (order : List Idx) (hall : ∀ c, S.ghost c → c ∈ order) :
    fillSeq small conserved S T vec detg order q = fill small conserved S T vec detg q := by
  have hcong : ∀ g : Idx → ℝ, (∀ d, ¬ S.ghost d → g d = q d) → ∀ c, S.ghost c →
      ghostValue small conserved S T vec detg g c = ghostValue small conserved S T vec detg q c := by
    intro g hg c hc
    unfold ghostValue
    rw [hg _ (source_interior S h T c hc).2.2.1]
  suffices H : ∀ (l : List Idx) (g : Idx → ℝ), (∀ d, ¬ S.ghost d → g d = q d) → ∀ c,
      l.foldl (fun q c => if S.ghost c then Function.update q c (ghostValue small conserved S T vec detg q c) else q) g c =
        if c ∈ l ∧ S.ghost c then ghostValue small conserved S T vec detg q c else g c by
    funext c
    unfold fillSeq fill
    rw [H order q (fun _ _ => rfl)]
    by_cases hc : S.ghost c
    · simp [hc, hall c hc]
    · simp [hc]
  intro l
  induction l with
  | nil => intro g _ c; simp
  | cons a t ih =>
    intro g hg c
    rw [List.foldl_cons]
    by_cases ha : S.ghost a
    · rw [if_pos ha, hcong g hg a ha, ih]
      · by_cases hca : c = a
        · subst hca; simp [ha]
        · simp [hca, Function.update_of_ne]
      · intro d hd
        rw [Function.update_of_ne, hg d hd]
        rintro rfl; exact hd ha
    · rw [if_neg ha, ih g hg c]
      by_cases hca : c = a
      · subst hca; simp [ha]
      · simp [hca]

/-- C25. Interior cells are never changed; ghost cells get the signed source value (primitive variables). -/
theorem fill_spec (small : ℝ) (S : Side) (T : BCType) (vec : Option (Fin 3)) (detg q : Idx → ℝ) (c : Idx) (b : Bool) :
    (¬ S.ghost c → fill small b S T vec detg q c = q c) ∧
    (S.ghost c → fill small false S .outflow vec detg q c = q (source S .outflow c)) ∧
    (S.ghost c → vec = some S.dir → fill small false S .reflect vec detg q c = -q (source S .reflect c)) ∧
    (S.ghost c → vec ≠ some S.dir → fill small false S .reflect vec detg q c = q (source S .reflect c)) := by
  refine ⟨fun h => by simp [fill, h], fun h => by simp [fill, h, ghostValue, sign],
    fun h hv => by simp [fill, h, ghostValue, sign, hv], fun h hv => by simp [fill, h, ghostValue, sign, hv]⟩

/-- C25. For conserved (densitised) variables it is the undensitised value that is copied or mirrored. -/
theorem fill_conserved (S : Side) (T : BCType) (vec : Option (Fin 3)) (detg q : Idx → ℝ) (hd : ∀ c, detg c ≠ 0) (c : Idx)
    (hc : S.ghost c) :
    fill 0 true S T vec detg q c / detg c = sign S T vec * (q (source S T c) / detg (source S T c)) := by
  have h1 := hd c
  have h2 := hd (source S T c)
  simp only [fill, hc, if_true, ghostValue, ratio_zero]
  field_simp

/-- C25. Applying a fill twice equals applying it once. -/
theorem fill_idempotent (small : ℝ) (b : Bool) (S : Side) (h : S.Ok) (T : BCType) (vec : Option (Fin 3)) (detg q : Idx → ℝ) :
    fill small b S T vec detg (fill small b S T vec detg q) = fill small b S T vec detg q := by
  funext c
  by_cases hc : S.ghost c
  · have hs := (source_interior S h T c hc).2.2.1
    have e : fill small b S T vec detg q (source S T c) = q (source S T c) := by simp [fill, hs]
    simp only [fill, hc, if_true, ghostValue]
    simp only [fill, hc, if_true, ghostValue] at e
    simp [e, hs]
  · simp [fill, hc]

private theorem ghost_update (S : Side) (c : Idx) (d : Fin 3) (x : ℤ) (h : d ≠ S.dir) :
    S.ghost (Function.update c d x) ↔ S.ghost c := by
  unfold Side.ghost; simp [Function.update_of_ne (Ne.symm h)]

/-- C25. Fills of two different directions commute, so edge and corner ghosts do not depend on the order of the sides. -/
theorem fills_commute (b : Bool) (S S' : Side) (hd : S.dir ≠ S'.dir) (T T' : BCType) (vec : Option (Fin 3))
    (detg q : Idx → ℝ) (hg : ∀ c, detg c ≠ 0) :
    fill 0 b S T vec detg (fill 0 b S' T' vec detg q) = fill 0 b S' T' vec detg (fill 0 b S T vec detg q) := by
  have src : ∀ (S : Side) (T : BCType) (c : Idx), ∃ x, source S T c = Function.update c S.dir x := by
    intro S T c; cases T <;> exact ⟨_, rfl⟩
  have g1 : ∀ c, S.ghost (source S' T' c) ↔ S.ghost c := by
    intro c; obtain ⟨x, hx⟩ := src S' T' c; rw [hx]; exact ghost_update S c _ x (Ne.symm hd)
  have g2 : ∀ c, S'.ghost (source S T c) ↔ S'.ghost c := by
    intro c; obtain ⟨x, hx⟩ := src S T c; rw [hx]; exact ghost_update S' c _ x hd
  have comm : ∀ c, source S T (source S' T' c) = source S' T' (source S T c) := by
    intro c
    cases T <;> cases T' <;>
      simp only [source, Function.update_of_ne hd, Function.update_of_ne (Ne.symm hd)] <;>
      exact Function.update_comm (Ne.symm hd) _ _ _
  funext c
  by_cases h1 : S.ghost c <;> by_cases h2 : S'.ghost c
  · have a := hg c
    have a1 := hg (source S T c)
    have a2 := hg (source S' T' c)
    have a3 := hg (source S' T' (source S T c))
    cases b <;> simp only [fill, h1, h2, if_true, ghostValue, g1, g2, comm, ratio_zero, Bool.false_eq_true, if_false]
    · ring
    · field_simp
  · simp [fill, h1, h2, ghostValue, g2]
  · simp [fill, h1, h2, ghostValue, g1]
  · simp [fill, h1, h2]

/-- C25. Reflection makes the face value of the normal component vanish (odd) and keeps the others even: mirrored pairs are
opposite, respectively equal. -/
theorem reflect_parity (small : ℝ) (S : Side) (h : S.Ok) (vec : Option (Fin 3)) (detg q : Idx → ℝ) (c : Idx) (hc : S.ghost c) :
    let f := fill small false S .reflect vec detg q
    (vec = some S.dir → f c + f (source S .reflect c) = 0) ∧ (vec ≠ some S.dir → f c = f (source S .reflect c)) := by
  have hs := (source_interior S h .reflect c hc).2.2.1
  refine ⟨fun hv => ?_, fun hv => ?_⟩
  · rw [(fill_spec small S .reflect vec detg q c false).2.2.1 hc hv, (fill_spec small S .reflect vec detg q _ false).1 hs]; ring
  · rw [(fill_spec small S .reflect vec detg q c false).2.2.2 hc hv, (fill_spec small S .reflect vec detg q _ false).1 hs]

/-- C25 (case). -/
example : Side.Ok ⟨0, true, 4, 19, 4⟩ ∧ Side.ghost ⟨0, true, 4, 19, 4⟩ (fun _ => 1) := by
  constructor
  · unfold Side.Ok; norm_num
  · unfold Side.ghost; norm_num

/-- C25. At a pole the θ components of velocity and field are odd under the mirror map and everything else is even — including,
wrongly, the θ component of the radiation flux. -/
theorem polar_parity (inner : Bool) (j0 : ℤ) (q : ℤ → ℝ) (j : ℤ) :
    let jref := if inner then 2 * j0 - 1 - j else 2 * j0 + 1 - j
    polarValue inner j0 (.vel 1) q j = -q jref ∧ polarValue inner j0 (.bfield 1) q j = -q jref ∧
    (∀ l, l ≠ .vel 1 → l ≠ .bfield 1 → polarValue inner j0 l q j = q jref) ∧
    polarValue inner j0 (.radH 1) q j = q jref := by
  have e : (if inner then -j + 2 * j0 - 1 else -j + 2 * (j0 + 1) - 1) = if inner then 2 * j0 - 1 - j else 2 * j0 + 1 - j := by
    split_ifs <;> ring
  refine ⟨?_, ?_, ?_, ?_⟩
  · simp [polarValue, e]
  · simp [polarValue, e]
  · intro l h1 h2; simp [polarValue, e, h1, h2]
  · simp [polarValue, e]

/-- C25. The radiation flux is not odd across the pole: witness. -/
theorem polar_flux_wrong_parity : ¬ ∀ (inner : Bool) (j0 : ℤ) (q : ℤ → ℝ) (j : ℤ),
    polarValue inner j0 (.radH 1) q j = -q (if inner then 2 * j0 - 1 - j else 2 * j0 + 1 - j) := by
  intro h
  have := h true 4 (fun _ => 1) 3
  rw [(polar_parity true 4 (fun _ => 1) 3).2.2.2] at this
  norm_num at this

/-- C25. Particle outflow: every registered face acts on itself, except the inner X2 face, which is wired to inner X1. -/
theorem swarm_faces_partial (f : Face) (hf : f ≠ (1, false)) : swarmOutflow f = some f ∨ swarmOutflow f = none := by
  rcases f with ⟨d, o⟩
  have : d = 0 ∨ d = 1 ∨ d = 2 := by omega
  rcases this with rfl | rfl | rfl <;> cases o <;> simp_all [swarmOutflow]

/-- C25. Hence a particle that left through the inner X2 face is kept, and one inside may be removed. -/
theorem swarm_inner_x2_wrong : ∃ (f g : Face) (lo hi x y : Fin 3 → ℝ), f = (1, false) ∧ swarmOutflow f = some g ∧
    x 1 < lo 1 ∧ swarmApply lo hi g x = true ∧ lo 1 ≤ y 1 ∧ swarmApply lo hi g y = false := by
  refine ⟨(1, false), (0, false), fun _ => 0, fun _ => 1, ![0, -1, 0], ![-1, 0, 0], rfl, rfl, ?_, ?_, ?_, ?_⟩ <;>
    simp [swarmApply]

/-- C25. Where the registered function is the face's own, exactly the particles beyond the face are removed; particles on the face
are kept. -/
theorem swarm_removes (lo hi : Fin 3 → ℝ) (f : Face) (hf : swarmOutflow f = some f) (x : Fin 3 → ℝ) :
    (∃ g, swarmOutflow f = some g ∧ swarmApply lo hi g x = false) ↔ (f.2 = true ∧ hi f.1 < x f.1) ∨ (f.2 = false ∧ x f.1 < lo f.1) := by
  have : (∃ g, swarmOutflow f = some g ∧ swarmApply lo hi g x = false) ↔ swarmApply lo hi f x = false := by
    constructor
    · rintro ⟨g, h1, h2⟩
      rw [hf] at h1
      rwa [← Option.some.inj h1] at h2
    · exact fun h => ⟨f, hf, h⟩
  rw [this]
  unfold swarmApply
  cases h : f.2 <;> simp

example : swarmOutflow (1, true) = some (1, true) := rfl

/-! ## C26 -/

/-- C26. After the check the coordinate velocity does not point into the domain: `u^1 ≥ 0`; a corrected cell has exactly
`u^1 = 0` and keeps the direction of the transverse three-velocity; an outgoing velocity is unchanged. -/
theorem inflow_stopped (G : ADM ℝ) (ha : 0 < G.alpha) (v v' : Fin 3 → ℝ) (h : inflowCheck G v = some v') :
    0 ≤ ucon1 G v' ∧ (ucon1 G v < 0 → ucon1 G v' = 0) ∧ (0 ≤ ucon1 G v → v' = v) := by
  unfold inflowCheck at h
  by_cases hu : ucon1 G v < 0
  · rw [if_pos hu] at h
    simp only [] at h
    set w := trialVel G v with hw
    set vsq := ∑ i, ∑ j, G.gam i j * w i * w j with hv
    by_cases hs : vsq < 1
    · rw [if_pos hs, Option.some.injEq] at h
      have h1 : 0 < 1 - vsq := by linarith
      have hq : 0 < Real.sqrt (1 - vsq) := Real.sqrt_pos.mpr h1
      have hsq : Real.sqrt (1 - vsq) ^ 2 = 1 - vsq := Real.sq_sqrt h1.le
      have hlor : lorentz G.gam v' = 1 / Real.sqrt (1 - vsq) := by
        unfold lorentz
        rw [← h]
        have : ∑ i, ∑ j, G.gam i j * (1 / Real.sqrt (1 - vsq) * w i) * (1 / Real.sqrt (1 - vsq) * w j) =
            (1 / Real.sqrt (1 - vsq)) ^ 2 * vsq := by
          rw [hv, mul_sum]
          refine sum_congr rfl fun i _ => ?_
          rw [mul_sum]
          exact sum_congr rfl fun j _ => by ring
        rw [this, show 1 + (1 / Real.sqrt (1 - vsq)) ^ 2 * vsq = (1 / Real.sqrt (1 - vsq)) ^ 2 by
          rw [div_pow, one_pow, hsq]; field_simp; ring]
        exact Real.sqrt_sq (by positivity)
      have hz : ucon1 G v' = 0 := by
        unfold ucon1
        rw [hlor, ← h]
        have : w 0 = G.beta 0 / G.alpha := by simp [hw, trialVel]
        beta_reduce
        rw [this]; ring
      exact ⟨hz.ge, fun _ => hz, fun hn => absurd hu (not_lt.mpr hn)⟩
    · rw [if_neg hs] at h; cases h
  · rw [if_neg hu, Option.some.injEq] at h
    subst h
    exact ⟨not_lt.mp hu, fun h => absurd h hu, fun _ => rfl⟩

/-- `u^1` of the check is the contravariant radial component of the four-velocity. -/
theorem ucon1_is_four_velocity (G : ADM ℝ) (ha : 0 < G.alpha) (v : Fin 3 → ℝ) :
    ucon1 G v = fourVelocity 0 G v 1 := by
  unfold ucon1 fourVelocity
  simp only [ratio_zero, abs_of_pos ha]
  show v 0 - _ = v 0 - _ * G.beta 0
  ring

/-- C26. With no radial shift and a metric without radial cross terms the check always succeeds. -/
theorem inflow_succeeds_partial (G : ADM ℝ) (hp : PosDef G) (hb : G.beta 0 = 0) (h01 : G.gam 0 1 = 0) (h10 : G.gam 1 0 = 0)
    (h02 : G.gam 0 2 = 0) (h20 : G.gam 2 0 = 0) (v : Fin 3 → ℝ) : ∃ v', inflowCheck G v = some v' := by
  unfold inflowCheck
  by_cases hu : ucon1 G v < 0
  · rw [if_pos hu]
    simp only []
    rw [if_pos]
    · exact ⟨_, rfl⟩
    have hW := lorentz_pos G hp v
    have hsq : lorentz G.gam v ^ 2 = 1 + G.dot3 v v := lorentz_sq G hp v
    have h00 : 0 ≤ G.gam 0 0 := by
      have := hp ![1, 0, 0]
      simpa [ADM.dot3, Fin.sum_univ_three] using this
    simp only [trialVel, Fin.sum_univ_three, hb, h01, h10, h02, h20, zero_div, Function.update_self, zero_mul, mul_zero,
      zero_add, add_zero]
    rw [Function.update_of_ne (by decide), Function.update_of_ne (by decide)]
    have hW2 : 0 < lorentz G.gam v ^ 2 := by positivity
    have key : G.gam 1 1 * v 1 * v 1 + G.gam 1 2 * v 1 * v 2 + (G.gam 2 1 * v 2 * v 1 + G.gam 2 2 * v 2 * v 2) <
        lorentz G.gam v ^ 2 := by
      rw [hsq]
      simp only [ADM.dot3, Fin.sum_univ_three, h01, h10, h02, h20]
      nlinarith [mul_nonneg h00 (mul_self_nonneg (v 0))]
    calc _ = (G.gam 1 1 * v 1 * v 1 + G.gam 1 2 * v 1 * v 2 + (G.gam 2 1 * v 2 * v 1 + G.gam 2 2 * v 2 * v 2)) /
          lorentz G.gam v ^ 2 := by field_simp
      _ < 1 := (div_lt_one hW2).mpr key
  · rw [if_neg hu]; exact ⟨v, rfl⟩

/-- C26 fails in general: a fast transverse flow in a metric with radial shift gets a non-finite velocity. -/
theorem inflow_check_not_finite : ∃ (G : ADM ℝ) (v : Fin 3 → ℝ), G.Valid ∧ PosDef G ∧ 0 < G.alpha ∧ inflowCheck G v = none := by
  refine ⟨{ C2P.flat with beta := ![1 / 2, 0, 0] }, ![0, Real.sqrt 3 * 2, 0], ?_, ?_, ?_, ?_⟩
  · obtain ⟨⟨a, b, c, d⟩, -⟩ := C2P.flat_valid
    exact ⟨a, b, c, d⟩
  · exact C2P.flat_valid.2
  · simp [C2P.flat]
  · have h3 : Real.sqrt 3 * Real.sqrt 3 = 3 := Real.mul_self_sqrt (by norm_num)
    have hl : lorentz C2P.flat.gam ![0, Real.sqrt 3 * 2, 0] ^ 2 = 13 := by
      rw [lorentz_sq C2P.flat C2P.flat_valid.2]
      simp [ADM.dot3, C2P.flat, Fin.sum_univ_three]
      nlinarith [h3]
    have hpos := lorentz_pos C2P.flat C2P.flat_valid.2 ![0, Real.sqrt 3 * 2, 0]
    unfold inflowCheck
    rw [if_pos]
    · simp only []
      rw [if_neg]
      simp only [trialVel, Fin.sum_univ_three]
      rw [show ({ C2P.flat with beta := ![1 / 2, 0, 0] } : ADM ℝ).gam = C2P.flat.gam from rfl]
      set W := lorentz C2P.flat.gam ![0, Real.sqrt 3 * 2, 0] with hW
      simp [C2P.flat]
      rw [div_mul_div_comm, ← sq W, hl]
      nlinarith [h3]
    · unfold ucon1
      simp only []
      simp [C2P.flat] at hpos ⊢
      exact hpos

/-- C26. Radiation: after the check the raised flux does not point inward; a corrected flux has flux factor at most 0.99 and
an outgoing one is unchanged. -/
theorem rad_inflow_stopped (G : ADM ℝ) (hv : G.Valid) (H : Fin 3 → ℝ) :
    0 ≤ raise G (radInflowCheck G H) 0 ∧ (0 ≤ raise G H 0 → radInflowCheck G H = H) ∧
    (raise G H 0 < 0 → raise G (radInflowCheck G H) 0 = 0 ∧
      Real.sqrt (∑ i, ∑ j, G.gam i j * raise G (radInflowCheck G H) i * raise G (radInflowCheck G H) j) ≤ 0.99) := by
  have hraise : ∀ x : Fin 3 → ℝ, raise G (fun i => ∑ j, G.gam i j * x j) = x := by
    intro x
    funext i
    exact C2P.raise_lower hv x i
  by_cases h : raise G H 0 < 0
  · have key : raise G (radInflowCheck G H) 0 = 0 ∧
        Real.sqrt (∑ i, ∑ j, G.gam i j * raise G (radInflowCheck G H) i * raise G (radInflowCheck G H) j) ≤ 0.99 := by
      unfold radInflowCheck
      simp only [if_pos h]
      set h0 : Fin 3 → ℝ := Function.update (raise G H) 0 0 with hh0
      set xi := Real.sqrt (∑ i, ∑ j, G.gam i j * h0 i * h0 j) with hxi
      have hz : h0 0 = 0 := by simp [hh0]
      by_cases hx : xi > 0.99
      · have hpos : 0 < xi := lt_trans (by norm_num) hx
        simp only [if_pos hx, hraise]
        refine ⟨by rw [hz]; ring, ?_⟩
        have : ∑ i, ∑ j, G.gam i j * (h0 i * (0.99 / xi)) * (h0 j * (0.99 / xi)) =
            (0.99 / xi) ^ 2 * ∑ i, ∑ j, G.gam i j * h0 i * h0 j := by
          rw [mul_sum]
          refine sum_congr rfl fun i _ => ?_
          rw [mul_sum]
          exact sum_congr rfl fun j _ => by ring
        rw [this, Real.sqrt_mul (sq_nonneg _), Real.sqrt_sq (by positivity), ← hxi, div_mul_cancel₀ _ hpos.ne']
      · simp only [if_neg hx, hraise]
        exact ⟨hz, not_lt.mp hx⟩
    exact ⟨key.1.ge, fun hn => absurd h (not_lt.mpr hn), fun _ => key⟩
  · have e : radInflowCheck G H = H := by unfold radInflowCheck; simp only [if_neg h]
    rw [e]
    exact ⟨not_lt.mp h, fun _ => rfl, fun hn => absurd hn h⟩

end Phoebus.Boundary
