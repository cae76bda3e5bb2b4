import Verif.Closure.Model
import Verif.Rel.Props
import Verif.LinAlg.Props
import Verif.C2P.Lemmas

/-!
# C46, C47: radiation moments and the implicit source update
-/
namespace Phoebus.Closure
open Geom Rel Robust LinAlg Finset

/-- the range in which the constructor keeps the velocity it was given (`v^2 <= 0.9999`). -/
def Slow (G : ADM ℝ) (v : Vec) : Prop := G.dot3 v v ≤ 0.9999

theorem cc_lower (G : ADM ℝ) (x y : Vec) : cc x (lower G y) = G.dot3 x y := by
  unfold cc lower ADM.dot3
  refine sum_congr rfl fun i _ => ?_
  rw [mul_sum]; exact sum_congr rfl fun j _ => by ring

theorem cc_comm (x y : Vec) : cc x y = cc y x := by
  unfold cc; exact sum_congr rfl fun i _ => by ring

theorem cc_lower_symm {G : ADM ℝ} (hG : G.Valid) (x y : Vec) : cc x (lower G y) = cc (lower G x) y := by
  rw [cc_lower, cc_comm (lower G x), cc_lower, ADM.dot3_comm hG]

theorem cc_lin (x a b : Vec) (s t : ℝ) : cc x (fun i => s * a i + t * b i) = s * cc x a + t * cc x b := by
  simp only [cc, Fin.sum_univ_three]; ring

theorem cc_vPi {G : ADM ℝ} (hG : G.Valid) (v : Vec) (Pi : Tens2) : cc v (covVPi G v Pi) = vvPi G v Pi := by
  rw [covVPi, cc_lower_symm hG]; rfl

theorem W_pos {G : ADM ℝ} {v : Vec} : 0 < W G v := by
  unfold W v2
  have : (0:ℝ) < 1 - min (cc v (lower G v)) 0.9999 := by
    have := min_le_right (cc v (lower G v)) 0.9999
    norm_num at this ⊢
  exact one_div_pos.2 (Real.sqrt_pos.2 this)

/-- the Lorentz factor of a velocity within the ceiling. -/
theorem W_sq {G : ADM ℝ} {v : Vec} (hs : Slow G v) : W G v ^ 2 * (1 - G.dot3 v v) = 1 := by
  have h : (0:ℝ) < 1 - G.dot3 v v := by unfold Slow at hs; norm_num at hs ⊢; linarith
  unfold W v2
  rw [cc_lower, min_eq_left hs, div_pow, one_pow, Real.sq_sqrt h.le]
  field_simp

theorem dot_W {G : ADM ℝ} {v : Vec} (hs : Slow G v) : G.dot3 v v = (W G v ^ 2 - 1) / W G v ^ 2 := by
  have h := W_sq hs
  have hw := (W_pos (G := G) (v := v)).ne'
  field_simp
  linarith

theorem W_ge_one {G : ADM ℝ} {v : Vec} (hp : PosDef G) (hs : Slow G v) : 1 ≤ W G v := by
  have h := W_sq hs
  have hv := hp v
  have := W_pos (G := G) (v := v)
  nlinarith [mul_nonneg (sq_nonneg (W G v)) hv]

theorem vvPi_zero (G : ADM ℝ) (v : Vec) : vvPi G v 0 = 0 := by simp [vvPi, conVPi]
theorem covVPi_zero (G : ADM ℝ) (v : Vec) (i : Fin 3) : covVPi G v 0 i = 0 := by simp [covVPi, conVPi, lower]
theorem lam_zero (G : ADM ℝ) (v : Vec) : lam G v 0 = (2 * W2 G v + 1) / 3 := by simp [lam, vvPi_zero]
theorem lam_zero_pos (G : ADM ℝ) (v : Vec) : 0 < lam G v 0 := by
  rw [lam_zero]; have : 0 < W2 G v := mul_pos W_pos W_pos
  positivity

/-- `v^i F_i` of the lab-frame flux. -/
theorem cc_F {G : ADM ℝ} (hG : G.Valid) {v : Vec} (hs : Slow G v) (num : Bool) (Pi : Tens2) (J : ℝ) (H : Vec) :
    cc v (prim2con num G v Pi J H).2 =
      4 / 3 * (W G v ^ 2 - 1) * J + (2 * W G v - 1 / W G v) * cc v H + J * vvPi G v Pi := by
  have hw := (W_pos (G := G) (v := v)).ne'
  have e : cc v (prim2con num G v Pi J H).2 =
      (4 * W2 G v / 3 * J + W G v * cc v H) * cc v (lower G v) + W G v * cc v H + J * cc v (covVPi G v Pi) := by
    simp only [prim2con, cc, Fin.sum_univ_three]; ring
  rw [e, cc_vPi hG, cc_lower, dot_W hs, W2]
  field_simp; ring

/-- **C46** (energy equation, any pressure tensor) The linear part of the conserved-to-primitive map undoes the
primitive-to-conserved map: for every metric, every velocity within the ceiling, every pressure tensor with nonzero
determinant `lam` and all moments. -/
theorem con2prim_prim2con_raw {G : ADM ℝ} (hG : G.Valid) {v : Vec} (hs : Slow G v) (Pi : Tens2) (hl : lam G v Pi ≠ 0) (J : ℝ) (H : Vec) :
    con2primRaw 0 false G v Pi (prim2con false G v Pi J H).1 (prim2con false G v Pi J H).2 = (J, H) := by
  have hw := (W_pos (G := G) (v := v)).ne'
  have hF := cc_F hG hs false Pi J H
  have hE : (prim2con false G v Pi J H).1 = (4 * W G v ^ 2 - 1 + 3 * W G v ^ 2 * vvPi G v Pi) / 3 * J + 2 * W G v * cc v H := by
    simp only [prim2con, W2, Bool.false_eq_true, if_false]; ring
  have hJ : ((2 * W2 G v - 1) * (prim2con false G v Pi J H).1 - 2 * W2 G v * cc v (prim2con false G v Pi J H).2) / lam G v Pi = J := by
    rw [div_eq_iff hl, hF, hE, lam, W2]; field_simp; ring
  have ha : W2 G v / lam G v Pi * ((4 * W2 G v / 3 - vvPi G v Pi) * (prim2con false G v Pi J H).1 -
      ((4 * W2 G v + 1) / 3 - W2 G v * vvPi G v Pi) * cc v (prim2con false G v Pi J H).2) =
      4 * W2 G v / 3 * J + W G v * cc v H := by
    rw [div_mul_eq_mul_div, div_eq_iff hl, hF, hE, lam, W2]; field_simp; ring
  simp only [con2primRaw, ratio_zero, Bool.false_eq_true, if_false]
  rw [hJ, ha]
  refine Prod.ext rfl (funext fun i => ?_)
  simp only [prim2con]
  field_simp
  ring

/-- **C46** the same for the number equation, whenever the pressure tensor has no component along the velocity or the fluid
is at rest (in particular in the Eddington approximation). -/
theorem con2prim_prim2con_number {G : ADM ℝ} (hG : G.Valid) {v : Vec} (hs : Slow G v) (Pi : Tens2) (hl : lam G v Pi ≠ 0)
    (hp : (W G v ^ 2 - 1) * vvPi G v Pi = 0) (J : ℝ) (H : Vec) :
    con2primRaw 0 true G v Pi (prim2con true G v Pi J H).1 (prim2con true G v Pi J H).2 = (J, H) := by
  have hw := (W_pos (G := G) (v := v)).ne'
  have hF := cc_F hG hs true Pi J H
  have hF2 : (prim2con true G v Pi J H).2 = (prim2con false G v Pi J H).2 := rfl
  have hE : (prim2con true G v Pi J H).1 / W G v + cc v (prim2con true G v Pi J H).2 = (prim2con false G v Pi J H).1 := by
    rw [hF]; simp only [prim2con, if_true, Bool.false_eq_true, if_false, W2]
    field_simp
    linear_combination -3 * J * W G v * hp
  have key : con2primRaw 0 true G v Pi (prim2con true G v Pi J H).1 (prim2con true G v Pi J H).2 =
      con2primRaw 0 false G v Pi (prim2con false G v Pi J H).1 (prim2con false G v Pi J H).2 := by
    simp only [con2primRaw, if_true, Bool.false_eq_true, if_false]
    rw [hE, hF2]
  rw [key, con2prim_prim2con_raw hG hs Pi hl]

/-- the norm of a projected flux is well defined: the radicand is never negative. -/
theorem hsq_nonneg {G : ADM ℝ} (hG : G.Valid) (hp : PosDef G) {v : Vec} (hs : Slow G v) (H : Vec) : 0 ≤ hsq G v H := by
  set h := raise G H with hh
  have hlow : ∀ i, lower G h i = H i := by
    intro i
    have : lower G h i = ∑ k, (∑ j, G.gam i j * G.gamInv j k) * H k := by
      simp only [hh, lower, raise, Fin.sum_univ_three]; ring
    rw [this]; simp only [hG.inv]; simp
  have e1 : ccov G H H = G.dot3 h h := by
    rw [← cc_lower]
    have : cc h (lower G h) = cc h H := by unfold cc; exact sum_congr rfl fun i _ => by rw [hlow]
    rw [this]; simp only [hh, cc, raise, ccov, Fin.sum_univ_three]; ring
  have e2 : cc v H = G.dot3 v h := by
    rw [← cc_lower]; unfold cc; exact sum_congr rfl fun i _ => by rw [hlow]
  have cs := C2P.cauchy_schwarz hG hp v h
  have hv : G.dot3 v v ≤ 1 := by unfold Slow at hs; norm_num at hs ⊢; linarith
  unfold hsq
  rw [e1, e2]
  nlinarith [hp h, hp v]

/-- **C46** With the Eddington closure (both the energy and the number equations), converting any admissible rest-frame
moments (`J > 0`, flux magnitude below `J`) to lab-frame moments and back is reported as a success and returns exactly
the same moments, for every metric, every velocity within the ceiling, and either repair strategy.

Partial form of C46. Full property: Under the Eddington closure the conversion of rest-frame moments to lab-frame
moments followed by the inverse is the identity for every subluminal velocity and metric. Missing: Holds for every
velocity with v^2 <= 0.9999 (round trip both ways, and the moments are the projections of the stress tensor); above
the ceiling the Lorentz factor is capped but the velocity is not, and the round trip fails (witness). With a nonzero
pressure tensor the energy is not T(n,n) (witness). -/
theorem eddington_round_trip_partial {G : ADM ℝ} (hG : G.Valid) (hp : PosDef G) {v : Vec} (hs : Slow G v) (num rob : Bool) (SMALL J : ℝ) (H : Vec)
    (hJ : 0 < J) (hH : hsq G v H < J ^ 2) :
    con2prim 0 num rob SMALL G v 0 (prim2con num G v 0 J H).1 (prim2con num G v 0 J H).2 = (Status.success, J, H) := by
  have hl := (lam_zero_pos G v).ne'
  have hraw : con2primRaw 0 num G v 0 (prim2con num G v 0 J H).1 (prim2con num G v 0 J H).2 = (J, H) := by
    cases num
    · exact con2prim_prim2con_raw hG hs 0 hl J H
    · exact con2prim_prim2con_number hG hs 0 hl (by rw [vvPi_zero, mul_zero]) J H
  have hq := hsq_nonneg hG hp hs H
  have hxi : ¬ (1 ≤ Real.sqrt (hsq G v H) / J) := by
    rw [not_le, div_lt_one hJ, Real.sqrt_lt' hJ]; exact hH
  unfold con2prim
  simp only [hraw, con2primCheck]
  rw [if_neg (by push Not; exact ⟨hq, fun h => absurd h hJ.ne'⟩), if_neg (by push Not; exact ⟨hJ.le, hJ.ne', not_le.1 hxi⟩)]

/-- the linear part of the inversion is the exact inverse of `prim2con` for the Eddington closure, whatever the signs. -/
theorem eddington_raw_inverse {G : ADM ℝ} (hG : G.Valid) {v : Vec} (hs : Slow G v) (num : Bool) (E J : ℝ) (F H : Vec)
    (hraw : con2primRaw 0 num G v 0 E F = (J, H)) : prim2con num G v 0 J H = (E, F) := by
  have hw := (W_pos (G := G) (v := v)).ne'
  have hl := (lam_zero_pos G v).ne'
  simp only [con2primRaw, ratio_zero, vvPi_zero, covVPi_zero, Prod.mk.injEq] at hraw
  obtain ⟨hJ, hH⟩ := hraw
  rw [hJ] at hH
  set e : ℝ := if num = true then E / W G v + cc v F else E with he
  have hw2 : (2 * W G v ^ 2 + 1) ≠ 0 := by positivity
  have hJ' : J = ((2 * W G v ^ 2 - 1) * e - 2 * W G v ^ 2 * cc v F) / ((2 * W G v ^ 2 + 1) / 3) := by
    rw [← hJ, lam_zero, W2]; ring
  have hl3 : (2 * W G v ^ 2 + 1) / 3 ≠ 0 := by positivity
  set a : ℝ := W2 G v / lam G v 0 * ((4 * W2 G v / 3 - 0) * e - ((4 * W2 G v + 1) / 3 - W2 G v * 0) * cc v F) with ha
  have hH' : ∀ i, H i = (F i - lower G v i * a) / W G v := by
    intro i; rw [← hH]; ring
  have ha' : a = W G v ^ 2 / ((2 * W G v ^ 2 + 1) / 3) * (4 * W G v ^ 2 / 3 * e - (4 * W G v ^ 2 + 1) / 3 * cc v F) := by
    rw [ha, lam_zero, W2]; ring
  have hvH : cc v H = (cc v F - (W G v ^ 2 - 1) / W G v ^ 2 * a) / W G v := by
    rw [← dot_W hs, ← cc_lower]
    simp only [cc, hH', Fin.sum_univ_three]; ring
  have hcomb : 4 * W G v ^ 2 / 3 * J + W G v * cc v H = a := by
    rw [hvH, hJ', ha']; field_simp; ring
  have hEe : (4 * W G v ^ 2 - 1) / 3 * J + 2 * W G v * cc v H = e := by
    rw [hvH, hJ', ha']; field_simp; ring
  have hF : ∀ i, (prim2con num G v 0 J H).2 i = F i := by
    intro i
    have : (prim2con num G v 0 J H).2 i = lower G v i * (4 * W G v ^ 2 / 3 * J + W G v * cc v H) + W G v * H i := by
      simp only [prim2con, covVPi_zero, W2]; ring
    rw [this, hcomb, hH']; field_simp; ring
  refine Prod.ext ?_ (funext hF)
  cases num with
  | false =>
    have h1 : e = E := by rw [he]; simp
    rw [← h1, ← hEe]; simp only [prim2con, vvPi_zero, W2, Bool.false_eq_true, if_false]; ring
  | true =>
    have h1 : e = E / W G v + cc v F := by rw [he]; simp
    have h2 := cc_F hG hs true 0 J H
    have h3 : cc v (prim2con true G v 0 J H).2 = cc v F := by unfold cc; exact sum_congr rfl fun i _ => by rw [hF]
    rw [h3, vvPi_zero] at h2
    have h4 : E / W G v = (4 * W G v ^ 2 - 1) / 3 * J + 2 * W G v * cc v H - cc v F := by linarith
    have h5 : E = W G v * ((4 * W G v ^ 2 - 1) / 3 * J + 2 * W G v * cc v H - cc v F) := by
      rw [← h4]; field_simp
    simp only [prim2con, if_true]
    rw [h5, h2]; field_simp; ring

/-- **C46** The other order: whenever the inversion succeeds, the primitive moments it returns have exactly the given
lab-frame moments. -/
theorem eddington_inverse {G : ADM ℝ} (hG : G.Valid) {v : Vec} (hs : Slow G v) (num rob : Bool) (SMALL E J : ℝ) (F H : Vec)
    (h : con2prim 0 num rob SMALL G v 0 E F = (Status.success, J, H)) : prim2con num G v 0 J H = (E, F) := by
  apply eddington_raw_inverse hG hs num E J F H
  simp only [con2prim, con2primCheck] at h
  split_ifs at h <;> simp_all [Prod.ext_iff]

/-- **C46 fails above the velocity ceiling**, where the Lorentz factor is capped but the velocity is not: for gas moving at
`v^2 = 0.99995` in flat space the round trip does not return the energy density. -/
theorem round_trip_fails_above_ceiling : ∃ (G : ADM ℝ) (v : Vec), G.Valid ∧ PosDef G ∧ G.dot3 v v < 1 ∧
    (con2primRaw 0 false G v 0 (prim2con false G v 0 1 0).1 (prim2con false G v 0 1 0).2).1 ≠ 1 := by
  refine ⟨⟨1, fun _ => 0, fun i j => if i = j then 1 else 0, fun i j => if i = j then 1 else 0⟩, ![Real.sqrt 0.99995, 0, 0], ?_, ?_, ?_, ?_⟩
  · refine ⟨by simp, ?_, ?_, ?_⟩
    · intro i j; simp [eq_comm]
    · intro i j; simp [eq_comm]
    · intro i j; simp
  · intro v; simp [ADM.dot3, Fin.sum_univ_three]; nlinarith [sq_nonneg (v 0), sq_nonneg (v 1), sq_nonneg (v 2)]
  · simp [ADM.dot3, Fin.sum_univ_three]
    rw [Real.mul_self_sqrt (by norm_num)]; norm_num
  · set G : ADM ℝ := ⟨1, fun _ => 0, fun i j => if i = j then 1 else 0, fun i j => if i = j then 1 else 0⟩ with hG
    set v : Vec := ![Real.sqrt 0.99995, 0, 0] with hv
    have hvv : cc v (lower G v) = 0.99995 := by
      simp [cc, lower, hG, hv, Fin.sum_univ_three]
      rw [Real.mul_self_sqrt (by norm_num)]
    have hW2 : W2 G v = 10000 := by
      unfold W2 W v2
      rw [hvv, min_eq_right (by norm_num)]
      rw [← sq, div_pow, Real.sq_sqrt (by norm_num)]; norm_num
    have hF : cc v (prim2con false G v 0 1 0).2 = 4 * 10000 / 3 * 0.99995 := by
      have : cc v (prim2con false G v 0 1 0).2 = 4 * W2 G v / 3 * cc v (lower G v) := by
        simp [prim2con, covVPi_zero, cc, Fin.sum_univ_three]; ring
      rw [this, hW2, hvv]
    have hE : (prim2con false G v 0 1 0).1 = (4 * 10000 - 1) / 3 := by
      simp [prim2con, vvPi_zero, hW2, cc]
    simp only [con2primRaw, ratio_zero, Bool.false_eq_true, if_false, hF, hE, lam_zero, hW2]
    norm_num

/-! ### the moments as projections of the radiation stress tensor -/

/-- unit normal of the slices. -/
noncomputable def normal (G : ADM ℝ) : Fin 4 → ℝ := Fin.cons (1 / G.alpha) fun i => -G.beta i / G.alpha

/-- a spatial vector as a four-vector. -/
def spatial (x : Vec) : Fin 4 → ℝ := Fin.cons 0 x

/-- fluid four-velocity `W (n + v)`. -/
noncomputable def fluidU (G : ADM ℝ) (v : Vec) : Fin 4 → ℝ := fun m => W G v * (normal G m + spatial v m)

/-- the vector orthogonal to the fluid velocity whose spatial part is `x`: `x + (v.x) n`. -/
noncomputable def restVec (G : ADM ℝ) (v x : Vec) : Fin 4 → ℝ := fun m => G.dot3 v x * normal G m + spatial x m

/-- the symmetric tensor orthogonal to the fluid velocity whose spatial part is `Pi`. -/
noncomputable def restTens (G : ADM ℝ) (v : Vec) (Pi : Tens2) : Fin 4 → Fin 4 → ℝ := fun m n =>
  vvPi G v Pi * normal G m * normal G n + normal G m * spatial (conVPi G v Pi) n + spatial (conVPi G v Pi) m * normal G n +
    (Fin.cons (fun _ => 0) (fun i => Fin.cons 0 (Pi i)) : Fin 4 → Fin 4 → ℝ) m n

/-- radiation stress-energy tensor `T^{mn}` with rest-frame energy density `J`, flux `H`, pressure `J (1/3 h + Pi)`. -/
noncomputable def radT (G : ADM ℝ) (v : Vec) (Pi : Tens2) (J : ℝ) (H : Vec) : Fin 4 → Fin 4 → ℝ := fun m n =>
  J * (4 / 3 * fluidU G v m * fluidU G v n + 1 / 3 * G.g4Inv m n) + fluidU G v m * restVec G v (raise G H) n +
    restVec G v (raise G H) m * fluidU G v n + J * restTens G v Pi m n

theorem lower_raise {G : ADM ℝ} (hG : G.Valid) (H : Vec) (i : Fin 3) : lower G (raise G H) i = H i := by
  have : lower G (raise G H) i = ∑ k, (∑ j, G.gam i j * G.gamInv j k) * H k := by
    simp only [lower, raise, Fin.sum_univ_three]; ring
  rw [this]; simp only [hG.inv]; simp

theorem dot_raise {G : ADM ℝ} (hG : G.Valid) (v H : Vec) : G.dot3 v (raise G H) = cc v H := by
  rw [← cc_lower]; unfold cc; exact sum_congr rfl fun i _ => by rw [lower_raise hG]

/-- the fluid velocity is a unit timelike vector, the flux and pressure tensor are orthogonal to it: the specification above
is the physical one. -/
theorem radT_frame {G : ADM ℝ} (hG : G.Valid) {v : Vec} (hs : Slow G v) (x : Vec) :
    dot4 G.g4 (fluidU G v) (fluidU G v) = -1 ∧ dot4 G.g4 (fluidU G v) (restVec G v x) = 0 := by
  have ha := hG.alpha_ne
  have hW := W_sq hs
  have cn : normal G = Fin.cons (1 / G.alpha) fun i => (fun _ => (0:ℝ)) i - 1 / G.alpha * G.beta i := by
    unfold normal; congr 1; funext i; ring
  have cs : ∀ y : Vec, spatial y = Fin.cons 0 fun i => y i - 0 * G.beta i := by
    intro y; unfold spatial; congr 1; funext i; ring
  have nn : dot4 G.g4 (normal G) (normal G) = -1 := by
    rw [cn, ADM.dot4_split hG]; simp [ADM.dot3]; field_simp
  have ns : ∀ y, dot4 G.g4 (normal G) (spatial y) = 0 := by
    intro y; rw [cn, cs, ADM.dot4_split hG]; simp [ADM.dot3]
  have ss : ∀ y z, dot4 G.g4 (spatial y) (spatial z) = G.dot3 y z := by
    intro y z; rw [cs y, cs z, ADM.dot4_split hG]; simp
  have sn : ∀ y, dot4 G.g4 (spatial y) (normal G) = 0 := by
    intro y; rw [cn, cs, ADM.dot4_split hG]; simp [ADM.dot3]
  have bil : ∀ (s t s' t' : ℝ) (y z : Vec), dot4 G.g4 (fun m => s * normal G m + t * spatial y m) (fun m => s' * normal G m + t' * spatial z m) =
      -(s * s') + t * t' * G.dot3 y z := by
    intro s t s' t' y z
    have : dot4 G.g4 (fun m => s * normal G m + t * spatial y m) (fun m => s' * normal G m + t' * spatial z m) =
        s * s' * dot4 G.g4 (normal G) (normal G) + s * t' * dot4 G.g4 (normal G) (spatial z) +
        t * s' * dot4 G.g4 (spatial y) (normal G) + t * t' * dot4 G.g4 (spatial y) (spatial z) := by
      simp only [dot4, Fin.sum_univ_four]; ring
    rw [this, nn, ns, sn, ss]; ring
  have eu : fluidU G v = fun m => W G v * normal G m + W G v * spatial v m := by funext m; simp [fluidU]; ring
  have er : restVec G v x = fun m => G.dot3 v x * normal G m + 1 * spatial x m := by funext m; simp [restVec]
  rw [eu, er]
  constructor
  · rw [bil]; nlinarith
  · rw [bil]; ring

/-- **C46** The primitive-to-conserved map computes the Eulerian energy density `T(n,n)` and momentum density `-T(n,.)` of the
radiation stress tensor; the energy density is off by `(W^2-1) v_i v_j Pi^{ij} J` (zero in the Eddington approximation). -/
theorem prim2con_tensor {G : ADM ℝ} (hG : G.Valid) {v : Vec} (Pi : Tens2) (J : ℝ) (H : Vec) :
    (prim2con false G v Pi J H).1 = G.alpha ^ 2 * radT G v Pi J H 0 0 + (W G v ^ 2 - 1) * vvPi G v Pi * J ∧
    ∀ i : Fin 3, (prim2con false G v Pi J H).2 i = G.alpha * ∑ n, radT G v Pi J H 0 n * G.g4 n i.succ := by
  have ha := hG.alpha_ne
  constructor
  · simp only [prim2con, radT, fluidU, restVec, restTens, normal, spatial, Fin.cons_zero, ADM.g4Inv_00, dot_raise hG, W2,
      Bool.false_eq_true, if_false]
    field_simp; ring
  · intro i
    have hgi : ∑ n, G.g4Inv 0 n * G.g4 n i.succ = 0 := by
      rw [ADM.g4Inv_mul hG, if_neg (Fin.succ_ne_zero i).symm]
    have hn : ∑ n, normal G n * G.g4 n i.succ = 0 := by
      rw [Fin.sum_univ_succ]
      simp only [normal, Fin.cons_zero, Fin.cons_succ, ADM.g4_0s, ADM.g4_ss, ADM.betaCov]
      rw [mul_sum, ← sum_add_distrib]
      refine sum_eq_zero fun j _ => ?_
      rw [hG.symm j i]; field_simp; ring
    have hsp : ∀ x : Vec, ∑ n, spatial x n * G.g4 n i.succ = lower G x i := by
      intro x
      rw [Fin.sum_univ_succ]
      simp only [spatial, Fin.cons_zero, Fin.cons_succ, ADM.g4_ss, zero_mul, zero_add, lower]
      exact sum_congr rfl fun j _ => by rw [hG.symm j i]
    have hrow : ∀ n, radT G v Pi J H 0 n = 1 / G.alpha * ((J * 4 / 3 * W G v * W G v + W G v * cc v H) * (normal G n + spatial v n)
        + W G v * (cc v H * normal G n + spatial (raise G H) n) + J * (vvPi G v Pi * normal G n + spatial (conVPi G v Pi) n))
        + J / 3 * G.g4Inv 0 n := by
      intro n
      simp only [radT, fluidU, restVec, restTens, dot_raise hG]
      have h0 : normal G 0 = 1 / G.alpha := rfl
      have h1 : ∀ x : Vec, spatial x 0 = 0 := fun _ => rfl
      simp only [Fin.cons_zero, h0, h1]
      ring
    have hsum : ∑ n, radT G v Pi J H 0 n * G.g4 n i.succ = 1 / G.alpha * ((J * 4 / 3 * W G v * W G v + W G v * cc v H) *
        (∑ n, normal G n * G.g4 n i.succ + ∑ n, spatial v n * G.g4 n i.succ)
        + W G v * (cc v H * ∑ n, normal G n * G.g4 n i.succ + ∑ n, spatial (raise G H) n * G.g4 n i.succ)
        + J * (vvPi G v Pi * ∑ n, normal G n * G.g4 n i.succ + ∑ n, spatial (conVPi G v Pi) n * G.g4 n i.succ))
        + J / 3 * ∑ n, G.g4Inv 0 n * G.g4 n i.succ := by
      simp only [hrow, Fin.sum_univ_four]; ring
    rw [hsum, hn, hgi, hsp, hsp, hsp, lower_raise hG]
    simp only [prim2con, covVPi, W2]
    field_simp; ring

/-- **C46** The pressure tensor satisfies the trace condition `P^i_i = E` in the Eddington approximation. -/
theorem pressure_trace {G : ADM ℝ} (hG : G.Valid) {v : Vec} (hs : Slow G v) (J : ℝ) (H : Vec) :
    ∑ i, concovP G v 0 J H i i = (prim2con false G v 0 J H).1 := by
  have hw := (W_pos (G := G) (v := v)).ne'
  have e : ∑ i, concovP G v 0 J H i i = 4 / 3 * W2 G v * cc v (lower G v) * J + W G v * (cc v H + cc (raise G H) (lower G v)) + J := by
    simp only [concovP, cc, Fin.sum_univ_three, Pi.zero_apply, zero_mul, add_zero, if_true]; norm_num; ring
  rw [e, cc_lower, cc_lower, ADM.dot3_comm hG (raise G H), dot_raise hG, dot_W hs]
  simp only [prim2con, vvPi_zero, W2, Bool.false_eq_true, if_false]
  field_simp; ring

/-- **C46** lowering the second index of `P^{ij}` gives `P^i_j`. -/
theorem pressure_lower {G : ADM ℝ} (hG : G.Valid) (v : Vec) (Pi : Tens2) (J : ℝ) (H : Vec) (i j : Fin 3) :
    ∑ k, conP G v Pi J H i k * G.gam k j = concovP G v Pi J H i j := by
  have h1 : ∑ k, G.gamInv i k * G.gam k j = if i = j then 1 else 0 := hG.inv' i j
  have h2 : ∑ k, raise G H k * G.gam k j = H j := by
    rw [← lower_raise hG H j]; unfold lower; exact sum_congr rfl fun k _ => by rw [hG.symm k j]
  have h3 : ∑ k, v k * G.gam k j = lower G v j := by unfold lower; exact sum_congr rfl fun k _ => by rw [hG.symm k j]
  have : ∑ k, conP G v Pi J H i k * G.gam k j = 4 / 3 * W2 G v * v i * (∑ k, v k * G.gam k j) * J +
      W G v * (v i * (∑ k, raise G H k * G.gam k j) + (∑ k, v k * G.gam k j) * raise G H i) + J * (∑ k, Pi i k * G.gam k j) +
      J / 3 * ∑ k, G.gamInv i k * G.gam k j := by
    simp only [conP, Fin.sum_univ_three]; norm_num; ring
  rw [this, h1, h2, h3]
  unfold concovP
  split_ifs <;> norm_num

/-- **C46 fails off the Eddington approximation**: with a nonzero pressure tensor the energy density the map computes is
not `T(n,n)` (take `v^2 = 1/2` and a pressure tensor along the velocity). -/
theorem prim2con_energy_wrong : ∃ (G : ADM ℝ) (v : Vec) (Pi : Tens2), G.Valid ∧ PosDef G ∧ Slow G v ∧
    (prim2con false G v Pi 1 0).1 ≠ G.alpha ^ 2 * radT G v Pi 1 0 0 0 := by
  refine ⟨⟨1, fun _ => 0, fun i j => if i = j then 1 else 0, fun i j => if i = j then 1 else 0⟩, ![1 / 2, 1 / 2, 0],
    fun i j => if i = 0 ∧ j = 0 then 1 else 0, ?_, ?_, ?_, ?_⟩
  · refine ⟨by simp, ?_, ?_, ?_⟩
    · intro i j; simp [eq_comm]
    · intro i j; simp [eq_comm]
    · intro i j; simp
  · intro v; simp [ADM.dot3, Fin.sum_univ_three]; nlinarith [sq_nonneg (v 0), sq_nonneg (v 1), sq_nonneg (v 2)]
  · simp [Slow, ADM.dot3, Fin.sum_univ_three]; norm_num
  · set G : ADM ℝ := ⟨1, fun _ => 0, fun i j => if i = j then 1 else 0, fun i j => if i = j then 1 else 0⟩ with hG
    have hv : G.Valid := by
      refine ⟨by simp [hG], ?_, ?_, ?_⟩
      · intro i j; simp [hG, eq_comm]
      · intro i j; simp [hG, eq_comm]
      · intro i j; simp [hG]
    have hs : Slow G ![1 / 2, 1 / 2, 0] := by simp [Slow, hG, ADM.dot3, Fin.sum_univ_three]; norm_num
    have h := (prim2con_tensor hv (v := ![1 / 2, 1 / 2, 0]) (fun i j => if i = 0 ∧ j = 0 then 1 else 0) 1 0).1
    have hW := W_sq hs
    have hd : G.dot3 ![1 / 2, 1 / 2, 0] ![1 / 2, 1 / 2, 0] = 1 / 2 := by
      simp [hG, ADM.dot3, Fin.sum_univ_three]; norm_num
    have hp : vvPi G ![1 / 2, 1 / 2, 0] (fun i j => if i = 0 ∧ j = 0 then 1 else 0) = 1 / 4 := by
      simp [vvPi, conVPi, lower, hG, Fin.sum_univ_three]; norm_num
    rw [hd] at hW
    rw [hp] at h
    intro hh
    rw [hh] at h
    nlinarith

/-! ### C47: the implicit source update -/

/-- Specification: `(J, H)` solve the backward-Euler equations of the radiation source with target state `(E, F)`:
`E = Estar + dE`, `F = Fstar + dF` where `(E,F)` are the lab-frame moments of `(J,H)`, and `dE`, `dF` the exchange terms
`-alpha dt n.G`, `alpha dt G_i` for absorption and scattering (`tauJ`, `tauH` optical depths). -/
def BackwardEuler (num : Bool) (G : ADM ℝ) (v : Vec) (Pi : Tens2) (Es : ℝ) (Fs : Vec) (JBB tauJ tauH J : ℝ) (H : Vec) : Prop :=
  (prim2con num G v Pi J H).1 = Es + (if num = true then tauJ * (JBB - J) else W G v * tauJ * (JBB - J) - tauH * cc v H) ∧
  ∀ i, (prim2con num G v Pi J H).2 i = Fs i + (W G v * tauJ * lower G v i * (JBB - J) - tauH * H i)

theorem lsu_det (num : Bool) {G : ADM ℝ} (hp : PosDef G) {v : Vec} (hs : Slow G v) (tauJ tauH : ℝ) (hJ : 0 ≤ tauJ) (hH : 0 ≤ tauH)
    (Pi : Tens2) (h0 : vvPi G v Pi = 0) : 0 < (Matrix.of (lsuA num G v Pi tauJ tauH)).det := by
  have hw := W_pos (G := G) (v := v)
  have h1 := W_ge_one hp hs
  rw [Matrix.det_fin_two]
  cases num with
  | true =>
    have e : lsuA true G v Pi tauJ tauH 0 0 * lsuA true G v Pi tauJ tauH 1 1 - lsuA true G v Pi tauJ tauH 0 1 * lsuA true G v Pi tauJ tauH 1 0
        = (2 * W G v ^ 2 + 1) / 3 + W G v * tauH + W G v * tauJ + tauJ * tauH := by
      simp [lsuA, h0, W2]; field_simp; ring
    simp only [Matrix.of_apply]; rw [e]; positivity
  | false =>
    have e : lsuA false G v Pi tauJ tauH 0 0 * lsuA false G v Pi tauJ tauH 1 1 - lsuA false G v Pi tauJ tauH 0 1 * lsuA false G v Pi tauJ tauH 1 0
        = (2 * W G v ^ 2 + 1) / (3 * W G v) + tauH + tauJ + tauH * tauJ / W G v := by
      simp [lsuA, h0, W2]; field_simp; ring
    simp only [Matrix.of_apply]; rw [e]; positivity

theorem solve2_unique (A : Fin 2 → Fin 2 → ℝ) (b x : Fin 2 → ℝ) (h : (Matrix.of A).det ≠ 0)
    (h0 : A 0 0 * x 0 + A 0 1 * x 1 = b 0) (h1 : A 1 0 * x 0 + A 1 1 * x 1 = b 1) : solve2 A b = x := by
  rw [Matrix.det_fin_two] at h
  simp only [Matrix.of_apply] at h
  have e : ∀ a b c d : ℝ, dop a b c d = a * b - c * d := by intros; simp only [dop]; ring
  funext i
  fin_cases i
  · simp only [solve2, e]; simp; rw [← h0, ← h1]; field_simp; ring
  · simp only [solve2, e]; simp; rw [← h0, ← h1]; field_simp; ring

/-- **C47** Existence: the increments returned by the linear source update are those of a backward-Euler step: there are
rest-frame moments at the new time whose lab-frame moments are the updated ones and whose exchange terms are the returned
increments.  For every metric, every velocity within the ceiling, all nonnegative optical depths, both equations, and any
pressure tensor without component along the velocity (in particular Eddington).

Partial form of C47. Full property: The increments returned by the linear source update satisfy the backward-Euler
equations for energy and momentum; zero optical depth gives zero increment. Missing: Holds whenever the pressure
tensor has no component along the velocity (always with the Eddington closure); otherwise the second row of the system
is inconsistent with the moments (witness). -/
theorem source_update_solves_partial (num : Bool) {G : ADM ℝ} (hG : G.Valid) (hp : PosDef G) {v : Vec} (hs : Slow G v) (Es : ℝ) (Fs : Vec)
    (Pi : Tens2) (h0 : vvPi G v Pi = 0) (JBB tauJ tauH : ℝ) (hJ : 0 ≤ tauJ) (hH : 0 ≤ tauH) :
    ∃ J H, BackwardEuler num G v Pi Es Fs JBB tauJ tauH J H ∧
      (prim2con num G v Pi J H).1 = Es + (linearSourceUpdate num G v Es Fs Pi JBB tauJ tauH).1 ∧
      ∀ i, (prim2con num G v Pi J H).2 i = Fs i + (linearSourceUpdate num G v Es Fs Pi JBB tauJ tauH).2 i := by
  have hw := W_pos (G := G) (v := v)
  have hdet := lsu_det num hp hs tauJ tauH hJ hH Pi h0
  have hsol := solve2_solves (lsuA num G v Pi tauJ tauH) (lsuB num G v Es Fs JBB tauJ) hdet.ne'
  set x := solve2 (lsuA num G v Pi tauJ tauH) (lsuB num G v Es Fs JBB tauJ) with hx
  have r0 := congrFun hsol 0
  have r1 := congrFun hsol 1
  simp only [Matrix.mulVec, dotProduct, Fin.sum_univ_two, Matrix.of_apply] at r0 r1
  set J := x 0 with hJd
  set z := x 1 with hzd
  have hW0 : W G v + tauH ≠ 0 := by positivity
  have hw' := hw.ne'
  -- the new lab-frame flux and the rest-frame flux recovered from it
  set a : ℝ := 4 * W2 G v / 3 * J + W G v * z with ha
  set F' : Vec := fun i => (lower G v i * tauH * a + tauH * covVPi G v Pi i * J +
      tauJ * W2 G v * lower G v i * (JBB - J) + W G v * Fs i) / (W G v + tauH) with hF'
  set H : Vec := fun i => (F' i - a * lower G v i - J * covVPi G v Pi i) / W G v with hHd
  have hvF' : cc v F' = (G.dot3 v v * tauH * a + tauJ * W2 G v * G.dot3 v v * (JBB - J) + W G v * cc v Fs) / (W G v + tauH) := by
    have h1 : cc v F' = (cc v (lower G v) * tauH * a + tauH * cc v (covVPi G v Pi) * J + tauJ * W2 G v * cc v (lower G v) * (JBB - J)
        + W G v * cc v Fs) / (W G v + tauH) := by
      simp only [hF', cc, Fin.sum_univ_three]; field_simp; ring
    rw [h1, cc_vPi hG, h0, cc_lower]; ring
  have row1 : (4 / 3 * (W G v ^ 2 - 1) + (W G v - 1 / W G v) * tauJ) * J + (2 * W G v - 1 / W G v + tauH) * z =
      cc v Fs + (W G v ^ 2 - 1) / W G v * tauJ * JBB := by
    have e : lsuB num G v Es Fs JBB tauJ 1 = cc v Fs + (W G v ^ 2 - 1) / W G v * tauJ * JBB := by
      simp only [lsuB, W2, Matrix.cons_val_one, Matrix.cons_val_fin_one]; ring
    rw [← e, ← r1]
    cases num <;> simp [lsuA, h0, W2] <;> ring
  have hvH : cc v H = z := by
    have h1 : cc v H = (cc v F' - a * G.dot3 v v - J * vvPi G v Pi) / W G v := by
      rw [← cc_lower, ← cc_vPi hG]
      simp only [hHd, cc, Fin.sum_univ_three]; ring
    rw [h1, h0, hvF', dot_W hs, ha, W2]
    have : cc v Fs = (4 / 3 * (W G v ^ 2 - 1) + (W G v - 1 / W G v) * tauJ) * J + (2 * W G v - 1 / W G v + tauH) * z
        - (W G v ^ 2 - 1) / W G v * tauJ * JBB := by linarith
    rw [this]; field_simp; ring
  have hFnew : ∀ i, (prim2con num G v Pi J H).2 i = F' i := by
    intro i
    have : (prim2con num G v Pi J H).2 i = lower G v i * (4 * W2 G v / 3 * J + W G v * cc v H) + W G v * H i + J * covVPi G v Pi i := by
      simp only [prim2con]; ring
    rw [this, hvH, ← ha]; simp only [hHd]; field_simp; ring
  refine ⟨J, H, ⟨?_, ?_⟩, ?_, ?_⟩
  · cases num with
    | false =>
      have e0 : lsuB false G v Es Fs JBB tauJ 0 = Es + W G v * tauJ * JBB := by simp [lsuB]
      rw [e0] at r0
      simp [lsuA, h0, W2] at r0
      simp only [prim2con, h0, hvH, W2, Bool.false_eq_true, if_false]
      linarith
    | true =>
      have e0 : lsuB true G v Es Fs JBB tauJ 0 = Es + tauJ * JBB := by simp [lsuB]
      rw [e0] at r0
      simp [lsuA] at r0
      simp only [prim2con, hvH, if_true]
      linarith
  · intro i
    rw [hFnew]
    have : H i = (F' i - a * lower G v i - J * covVPi G v Pi i) / W G v := rfl
    rw [this]
    simp only [hF', W2]
    field_simp
    ring
  · simp only [linearSourceUpdate, ← hx, prim2con, hvH, ← hJd, ← hzd]
    split_ifs <;> ring
  · intro i
    rw [hFnew]
    simp only [linearSourceUpdate, ← hx, hF', ← hJd, ← hzd, ← ha]
    ring

/-- **C47** Uniqueness: any rest-frame moments solving the backward-Euler equations produce exactly the returned increments. -/
theorem source_update_unique (num : Bool) {G : ADM ℝ} (hG : G.Valid) (hp : PosDef G) {v : Vec} (hs : Slow G v) (Es : ℝ) (Fs : Vec)
    (Pi : Tens2) (h0 : vvPi G v Pi = 0) (JBB tauJ tauH : ℝ) (hJ : 0 ≤ tauJ) (hH : 0 ≤ tauH) (J : ℝ) (H : Vec)
    (hBE : BackwardEuler num G v Pi Es Fs JBB tauJ tauH J H) :
    linearSourceUpdate num G v Es Fs Pi JBB tauJ tauH = ((prim2con num G v Pi J H).1 - Es, fun i => (prim2con num G v Pi J H).2 i - Fs i) := by
  have hw := W_pos (G := G) (v := v)
  have hw' := hw.ne'
  have hdet := lsu_det num hp hs tauJ tauH hJ hH Pi h0
  obtain ⟨hE, hF⟩ := hBE
  have hvF : cc v (prim2con num G v Pi J H).2 = cc v Fs + W G v * tauJ * G.dot3 v v * (JBB - J) - tauH * cc v H := by
    rw [← cc_lower]
    have : (prim2con num G v Pi J H).2 = fun i => Fs i + (W G v * tauJ * lower G v i * (JBB - J) - tauH * H i) := funext hF
    rw [this]; simp only [cc, Fin.sum_univ_three]; ring
  rw [cc_F hG hs, h0, dot_W hs] at hvF
  have hx : solve2 (lsuA num G v Pi tauJ tauH) (lsuB num G v Es Fs JBB tauJ) = ![J, cc v H] := by
    refine solve2_unique _ _ _ hdet.ne' ?_ ?_
    · cases num with
      | false =>
        simp only [prim2con, h0, W2, Bool.false_eq_true, if_false] at hE
        simp [lsuA, lsuB, h0, W2]; linarith
      | true =>
        simp only [prim2con, if_true] at hE
        simp [lsuA, lsuB]; linarith
    · have e : lsuA num G v Pi tauJ tauH 1 0 * J + lsuA num G v Pi tauJ tauH 1 1 * cc v H =
          (4 / 3 * (W G v ^ 2 - 1) + (W G v - 1 / W G v) * tauJ) * J + (2 * W G v - 1 / W G v + tauH) * cc v H := by
        cases num <;> simp [lsuA, h0, W2] <;> ring
      have e2 : lsuB num G v Es Fs JBB tauJ 1 = cc v Fs + (W G v ^ 2 - 1) / W G v * tauJ * JBB := by
        simp only [lsuB, W2, Matrix.cons_val_one, Matrix.cons_val_fin_one]; ring
      simp only [Matrix.cons_val_zero, Matrix.cons_val_one]
      rw [e, e2]
      field_simp at hvF ⊢
      linarith
  refine Prod.ext ?_ (funext fun i => ?_)
  · simp only [linearSourceUpdate, hx, prim2con]
    split_ifs <;> simp
  · have hFi := hF i
    have hW0 : W G v + tauH ≠ 0 := by positivity
    have e : W G v * H i = (prim2con num G v Pi J H).2 i - lower G v i * (4 * W2 G v / 3 * J + W G v * cc v H) - J * covVPi G v Pi i := by
      simp only [prim2con]; ring
    have e2 : ((prim2con num G v Pi J H).2 i - Fs i - W G v * tauJ * lower G v i * (JBB - J)) * W G v = -tauH * (W G v * H i) := by
      rw [hFi]; ring
    rw [e] at e2
    set Fi := (prim2con num G v Pi J H).2 i
    simp only [linearSourceUpdate, hx, Matrix.cons_val_zero, Matrix.cons_val_one]
    rw [sub_left_inj, div_eq_iff hW0]
    rw [W2] at e2 ⊢
    linarith

/-- **C47** Zero optical depth changes nothing. -/
theorem source_update_zero (num : Bool) {G : ADM ℝ} (hG : G.Valid) (hp : PosDef G) {v : Vec} (hs : Slow G v) (Es : ℝ) (Fs : Vec)
    (Pi : Tens2) (h0 : vvPi G v Pi = 0) (JBB : ℝ) :
    linearSourceUpdate num G v Es Fs Pi JBB 0 0 = (0, fun _ => 0) := by
  obtain ⟨J, H, hBE, hE, hF⟩ := source_update_solves_partial num hG hp hs Es Fs Pi h0 JBB 0 0 le_rfl le_rfl
  obtain ⟨h1, h2⟩ := hBE
  refine Prod.ext ?_ (funext fun i => ?_)
  · rw [hE] at h1
    have : (if num = true then (0:ℝ) * (JBB - J) else W G v * 0 * (JBB - J) - 0 * cc v H) = 0 := by split_ifs <;> ring
    rw [this] at h1; linarith
  · have h3 := h2 i
    rw [hF i] at h3
    simp only at h3 ⊢
    linarith

/-- **C47** A state in equilibrium with the gas (`J = JBB`, no rest-frame flux) is not changed, at any optical depth. -/
theorem source_update_equilibrium (num : Bool) {G : ADM ℝ} (hG : G.Valid) (hp : PosDef G) {v : Vec} (hs : Slow G v)
    (JBB tauJ tauH : ℝ) (hJ : 0 ≤ tauJ) (hH : 0 ≤ tauH) :
    linearSourceUpdate num G v (prim2con num G v 0 JBB 0).1 (prim2con num G v 0 JBB 0).2 0 JBB tauJ tauH = (0, fun _ => 0) := by
  rw [source_update_unique num hG hp hs _ _ 0 (vvPi_zero G v) JBB tauJ tauH hJ hH JBB 0 ⟨?_, ?_⟩]
  · simp
  · split_ifs <;> simp [cc]
  · intro i; simp

/-- **C47 fails for a pressure tensor along the velocity** (possible with the M1 closure): radiation in equilibrium with the gas
satisfies the backward-Euler equations with no change, but the update changes its energy. -/
theorem source_update_wrong : ∃ (G : ADM ℝ) (v : Vec) (Pi : Tens2), G.Valid ∧ PosDef G ∧ Slow G v ∧
    BackwardEuler false G v Pi (prim2con false G v Pi 1 0).1 (prim2con false G v Pi 1 0).2 1 1 1 1 0 ∧
    (linearSourceUpdate false G v (prim2con false G v Pi 1 0).1 (prim2con false G v Pi 1 0).2 Pi 1 1 1).1 ≠ 0 := by
  refine ⟨⟨1, fun _ => 0, fun i j => if i = j then 1 else 0, fun i j => if i = j then 1 else 0⟩, ![3 / 5, 0, 0],
    fun i j => if i = 0 ∧ j = 0 then 1 else 0, ?_, ?_, ?_, ?_, ?_⟩
  · refine ⟨by simp, ?_, ?_, ?_⟩
    · intro i j; simp [eq_comm]
    · intro i j; simp [eq_comm]
    · intro i j; simp
  · intro v; simp [ADM.dot3, Fin.sum_univ_three]; nlinarith [sq_nonneg (v 0), sq_nonneg (v 1), sq_nonneg (v 2)]
  · simp [Slow, ADM.dot3, Fin.sum_univ_three]; norm_num
  · refine ⟨?_, fun i => ?_⟩ <;> simp [cc]
  · set G : ADM ℝ := ⟨1, fun _ => 0, fun i j => if i = j then 1 else 0, fun i j => if i = j then 1 else 0⟩ with hG
    set v : Vec := ![3 / 5, 0, 0] with hv
    set Pi : Tens2 := fun i j => if i = 0 ∧ j = 0 then 1 else 0 with hPi
    have hlow : ∀ i, lower G v i = v i := by intro i; simp [lower, hG]
    have hW : W G v = 5 / 4 := by
      have h1 : v2 G v = 9 / 25 := by
        simp only [v2, cc, hlow, Fin.sum_univ_three]; simp [hv]; norm_num
      unfold W
      rw [h1, show (1:ℝ) - 9 / 25 = (4 / 5) ^ 2 by norm_num, Real.sqrt_sq (by norm_num)]; norm_num
    have hp : vvPi G v Pi = 9 / 25 := by
      simp only [vvPi, conVPi, hlow, Fin.sum_univ_three]; simp [hv, hPi]; norm_num
    have hE : (prim2con false G v Pi 1 0).1 = 37 / 16 := by
      simp [prim2con, hp, W2, hW, cc]; norm_num
    have hGv : G.Valid := by
      refine ⟨by simp [hG], ?_, ?_, ?_⟩
      · intro i j; simp [hG, eq_comm]
      · intro i j; simp [hG, eq_comm]
      · intro i j; simp [hG]
    have hvF : cc v (prim2con false G v Pi 1 0).2 = 4 / 3 * (9 / 16) + 9 / 25 := by
      have hs : Slow G v := by simp [Slow, hG, hv, ADM.dot3, Fin.sum_univ_three]; norm_num
      rw [cc_F hGv hs, hp, hW]; simp [cc]; norm_num
    simp [linearSourceUpdate, solve2, dop, lsuA, lsuB, hE, hvF, hp, hW, W2]
    norm_num

/-- flat space at rest meets every hypothesis; `tauJ = tauH = 1`, `JBB = 2`: starting from no radiation the step ends
halfway to equilibrium. -/
theorem ex_source : ∃ G : ADM ℝ, G.Valid ∧ PosDef G ∧ Slow G 0 ∧
    (linearSourceUpdate false G 0 0 0 0 2 1 1).1 = 1 := by
  refine ⟨⟨1, fun _ => 0, fun i j => if i = j then 1 else 0, fun i j => if i = j then 1 else 0⟩, ?_, ?_, ?_, ?_⟩
  · refine ⟨by simp, ?_, ?_, ?_⟩
    · intro i j; simp [eq_comm]
    · intro i j; simp [eq_comm]
    · intro i j; simp
  · intro v; simp [ADM.dot3, Fin.sum_univ_three]; nlinarith [sq_nonneg (v 0), sq_nonneg (v 1), sq_nonneg (v 2)]
  · simp [Slow, ADM.dot3]; norm_num
  · set G : ADM ℝ := ⟨1, fun _ => 0, fun i j => if i = j then 1 else 0, fun i j => if i = j then 1 else 0⟩
    have hW : W G 0 = 1 := by
      have : v2 G 0 = 0 := by simp [v2, cc]; norm_num
      simp [W, this]
    simp [linearSourceUpdate, W2, hW, vvPi_zero, solve2, lsuA, lsuB, dop, cc]
    norm_num

end Phoebus.Closure
