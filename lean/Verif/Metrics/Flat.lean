import Verif.Metrics.Model
import Mathlib.Analysis.SpecialFunctions.Trigonometric.Basic

/-! # C33-C35 for the flat and toy metrics -/
namespace Phoebus.Metrics
open Finset Geom Real

private theorem ratio_zero (a b : ℝ) : Robust.ratio 0 a b = a / b := by simp [Robust.ratio]

/-- **C33, C34, C35** Minkowski: everything is consistent, everywhere. -/
theorem minkowski_good (X : Fin 4 → ℝ) : Good minkowski X := by
  have hs : Symm minkowski X := by
    refine ⟨?_, ?_, ?_, ?_⟩ <;> intro m n <;> simp only [minkowski] <;> fin_cases m <;> fin_cases n <;> simp
  have h3 : Inverse3 minkowski X := by
    intro m n; fin_cases m <;> fin_cases n <;> simp [minkowski, Fin.sum_univ_three]
  have ha : Assembles minkowski X := by
    refine ⟨by simp [minkowski], ?_⟩
    funext m n
    fin_cases m <;> fin_cases n <;> simp [minkowski, adm, ADM.dot3, ADM.betaCov, Fin.sum_univ_three] <;> (try field_simp) <;> (try ring)
  have hi : AssemblesInv minkowski X := by
    funext m n
    fin_cases m <;> fin_cases n <;> simp [minkowski, adm, ADM.dot3, ADM.betaCov, Fin.sum_univ_three] <;> (try field_simp) <;> (try ring)
  refine ⟨hs, inverse4_of _ _ hs h3 ha hi, h3, ha, hi, detOk_of _ _ hs ha (by simp [minkowski]) ?_ (by simp [minkowski]),
    ?_, lnAlphaOk_const _ _ 1 (fun _ => rfl) fun _ => rfl, ?_⟩
  · rw [Matrix.det_fin_three]; simp [minkowski]
  · intro m n sg; simp only [minkowski, zero3]; exact hasDerivAt_const _ _
  · intro a b c; simp [minkowski, zero3]

/-- **C33, C34, C35** boosted Minkowski, for every boost velocity. -/
theorem boosted_good (vx vy vz : ℝ) (X : Fin 4 → ℝ) : Good (boosted vx vy vz) X := by
  have hs : Symm (boosted vx vy vz) X := by
    refine ⟨?_, ?_, ?_, ?_⟩ <;> intro m n <;> fin_cases m <;> fin_cases n <;> simp [boosted]
  have h3 : Inverse3 (boosted vx vy vz) X := by
    intro m n; fin_cases m <;> fin_cases n <;> simp [boosted, Fin.sum_univ_three]
  have ha : Assembles (boosted vx vy vz) X := by
    refine ⟨by simp [boosted], ?_⟩
    funext m n
    fin_cases m <;> fin_cases n <;> simp [boosted, adm, ADM.dot3, ADM.betaCov, Fin.sum_univ_three] <;> (try field_simp) <;> (try ring)
  have hi : AssemblesInv (boosted vx vy vz) X := by
    funext m n
    fin_cases m <;> fin_cases n <;> simp [boosted, adm, ADM.dot3, ADM.betaCov, Fin.sum_univ_three] <;> (try field_simp) <;> (try ring)
  refine ⟨hs, inverse4_of _ _ hs h3 ha hi, h3, ha, hi, detOk_of _ _ hs ha (by simp [boosted]) ?_ (by simp [boosted]),
    ?_, lnAlphaOk_const _ _ 1 (fun _ => rfl) fun _ => rfl, ?_⟩
  · rw [Matrix.det_fin_three]; simp [boosted]
  · intro m n sg; simp only [boosted, zero3]; exact hasDerivAt_const _ _
  · intro a b c; simp [boosted, zero3]

/-- **C37** the boosted metric is the Minkowski interval between the points named by `Coords`: for every pair of coordinate
displacements. -/
theorem boosted_pullback (vx vy vz : ℝ) (X d e : Fin 4 → ℝ) :
    dot4 ((boosted vx vy vz).g X) d e
      = dot4 (minkowski.g X) (fun m => boostedCoords vx vy vz (X + d) m - boostedCoords vx vy vz X m)
          (fun m => boostedCoords vx vy vz (X + e) m - boostedCoords vx vy vz X m) := by
  simp [dot4, Fin.sum_univ_four, boosted, minkowski, boostedCoords]
  ring

/-- regular points of spherical coordinates. -/
def SphRegular (X : Fin 4 → ℝ) : Prop := 0 < X 1 ∧ sin (X 2) ≠ 0

/-- **C33, C34, C35** spherical Minkowski at every regular point with positive radius. -/
theorem sphMinkowski_good (X : Fin 4 → ℝ) (hX : SphRegular X) : Good (sphMinkowski 0) X := by
  obtain ⟨hr, hsn⟩ := hX
  have hr0 := hr.ne'
  have hs : Symm (sphMinkowski 0) X := by
    refine ⟨?_, ?_, ?_, ?_⟩ <;> intro m n <;> fin_cases m <;> fin_cases n <;> simp [sphMinkowski]
  have h3 : Inverse3 (sphMinkowski 0) X := by
    intro m n; fin_cases m <;> fin_cases n <;> simp [sphMinkowski, Fin.sum_univ_three, ratio_zero] <;> field_simp
  have ha : Assembles (sphMinkowski 0) X := by
    refine ⟨by simp [sphMinkowski], ?_⟩
    funext m n
    fin_cases m <;> fin_cases n <;> simp [sphMinkowski, adm, ADM.dot3, ADM.betaCov, Fin.sum_univ_three] <;> (try field_simp) <;> (try ring)
  have hi : AssemblesInv (sphMinkowski 0) X := by
    funext m n
    fin_cases m <;> fin_cases n <;> simp [sphMinkowski, adm, ADM.dot3, ADM.betaCov, Fin.sum_univ_three] <;> (try field_simp) <;> (try ring)
  refine ⟨hs, inverse4_of _ _ hs h3 ha hi, h3, ha, hi, detOk_of _ _ hs ha ?_ ?_ (by simp [sphMinkowski]),
    ?_, lnAlphaOk_const _ _ 1 (fun _ => rfl) fun _ => rfl, ?_⟩
  · simp only [sphMinkowski]; positivity
  · rw [Matrix.det_fin_three]; simp [sphMinkowski, mul_pow, sq_abs]; ring
  · refine derivOk_of _ _ (fun r th => ![![-1, 0, 0, 0], ![0, 1, 0, 0], ![0, 0, r * r, 0],
      ![0, 0, 0, r * r * (sin th * sin th)]]) (fun Y => rfl) ?_ ?_ ?_ ?_
    · have h1 : HasDerivAt (fun t : ℝ => t * t) (2 * X 1) (X 1) := by
        exact ((hasDerivAt_id (X 1)).mul (hasDerivAt_id (X 1))).congr_deriv (by simp; ring)
      intro m n
      fin_cases m <;> fin_cases n <;> simp [sphMinkowski, abs_of_pos hr] <;>
        first | exact hasDerivAt_const _ _ | exact h1 | skip
      simpa [mul_assoc] using h1.mul_const (sin (X 2) * sin (X 2))
    · have h1 : HasDerivAt (fun t : ℝ => sin t * sin t) (sin (2 * X 2)) (X 2) := by
        have := (hasDerivAt_sin (X 2)).mul (hasDerivAt_sin (X 2))
        rw [sin_two_mul]
        exact this.congr_deriv (by ring)
      intro m n
      fin_cases m <;> fin_cases n <;> simp [sphMinkowski, abs_of_pos hr] <;>
        first | exact hasDerivAt_const _ _ | skip
      exact h1.const_mul (X 1 * X 1)
    · intro m n; simp [sphMinkowski]
    · intro m n; simp [sphMinkowski]
  · intro a b c
    simp only [sphMinkowski, GeomUtils.connection]
    fin_cases a <;> fin_cases b <;> fin_cases c <;> simp

/-- **C35 fails for negative radius**: with `X1 < 0` (ghost zones through the origin) the returned derivative has the wrong
sign, because it uses `|X1|` while the metric is `X1²`. -/
theorem sphMinkowski_deriv_negative (X : Fin 4 → ℝ) (hX : X 1 < 0) : ¬ DerivOk (sphMinkowski 0) X := by
  intro h
  have h1 := h 2 2 1
  have h2 : HasDerivAt (fun t : ℝ => t * t) (2 * X 1) (X 1) := by
    exact ((hasDerivAt_id (X 1)).mul (hasDerivAt_id (X 1))).congr_deriv (by simp; ring)
  have h3 : HasDerivAt (fun t : ℝ => t * t) (2 * |X 1|) (X 1) := by
    simpa [sphMinkowski] using h1
  have := h2.unique h3
  rw [abs_of_neg hX] at this
  linarith

theorem hasDerivAt_delta (a k x : ℝ) : HasDerivAt (delta a k) (-(a * (k * k) * sin (k * x))) x := by
  have h : HasDerivAt (fun t => cos (k * t)) (-sin (k * x) * k) x := by
    have h0 : HasDerivAt (fun t : ℝ => k * t) k x := ((hasDerivAt_id x).const_mul k).congr_deriv (by simp)
    exact (hasDerivAt_cos (k * x)).comp x h0
  have := h.const_mul (a * k)
  exact this.congr_deriv (by ring)

/-- **C33, C34, C35** the snake metric, for every amplitude, wave number, positive lapse and shift. -/
theorem snake_good (a k al vy : ℝ) (hal : 0 < al) (X : Fin 4 → ℝ) : Good (snake a k al vy) X := by
  have hal0 := hal.ne'
  have hs : Symm (snake a k al vy) X := by
    refine ⟨?_, ?_, ?_, ?_⟩ <;> intro m n <;> fin_cases m <;> fin_cases n <;> simp [snake]
  have h3 : Inverse3 (snake a k al vy) X := by
    intro m n; fin_cases m <;> fin_cases n <;> simp [snake, Fin.sum_univ_three] <;> ring
  have ha : Assembles (snake a k al vy) X := by
    refine ⟨hal, ?_⟩
    funext m n
    fin_cases m <;> fin_cases n <;> simp [snake, adm, ADM.dot3, ADM.betaCov, Fin.sum_univ_three] <;> (try field_simp) <;> (try ring)
  have hi : AssemblesInv (snake a k al vy) X := by
    funext m n
    fin_cases m <;> fin_cases n <;> simp [snake, adm, ADM.dot3, ADM.betaCov, Fin.sum_univ_three] <;> (try field_simp) <;> (try ring)
  refine ⟨hs, inverse4_of _ _ hs h3 ha hi, h3, ha, hi, detOk_of _ _ hs ha (by simp [snake]) ?_ (by simp [snake]),
    ?_, lnAlphaOk_const _ _ al (fun _ => rfl) fun _ => rfl, ?_⟩
  · rw [Matrix.det_fin_three]; simp [snake]
  · have hd := hasDerivAt_delta a k (X 1)
    refine derivOk_of _ _ (fun x _ => let d := delta a k x
      ![![(vy - al) * (vy + al), -d * vy, vy, 0], ![-d * vy, 1 + d * d, -d, 0], ![vy, -d, 1, 0], ![0, 0, 0, 1]])
      (fun Y => rfl) ?_ ?_ ?_ ?_
    · have h1 : HasDerivAt (fun x => -(delta a k x * vy)) (a * (k * k) * vy * sin (k * X 1)) (X 1) :=
        (hd.mul_const vy).neg.congr_deriv (by ring)
      have h2 : HasDerivAt (fun x => -delta a k x) (a * (k * k) * sin (k * X 1)) (X 1) :=
        hd.neg.congr_deriv (by ring)
      have h3 : HasDerivAt (fun x => delta a k x * delta a k x) (-(a * a * (k * k * k) * sin (2 * k * X 1))) (X 1) := by
        refine (hd.mul hd).congr_deriv ?_
        rw [mul_assoc 2 k, sin_two_mul]; unfold delta; ring
      intro m n
      fin_cases m <;> fin_cases n <;> simp [snake] <;> first | exact hasDerivAt_const _ _ | exact h1 | exact h2 | exact h3
    · intro m n
      have : (snake a k al vy).dg X m n 2 = 0 := by simp [snake]
      rw [this]; exact hasDerivAt_const _ _
    · intro m n; simp [snake]
    · intro m n; simp [snake]
  · intro b c d
    simp only [snake]
    fin_cases b <;> fin_cases c <;> fin_cases d <;> simp <;> ring

/-- **C33, C34, C35** the inchworm metric at every point where the coordinate is regular. -/
theorem inchworm_good (a k : ℝ) (X : Fin 4 → ℝ) (hX : delta a k (X 1) ≠ 1) : Good (inchworm a k) X := by
  have hne : delta a k (X 1) - 1 ≠ 0 := sub_ne_zero.2 hX
  have hs : Symm (inchworm a k) X := by
    refine ⟨?_, ?_, ?_, ?_⟩ <;> intro m n <;> fin_cases m <;> fin_cases n <;> simp [inchworm]
  have h3 : Inverse3 (inchworm a k) X := by
    intro m n; fin_cases m <;> fin_cases n <;> simp [inchworm, Fin.sum_univ_three]; field_simp
  have ha : Assembles (inchworm a k) X := by
    refine ⟨by simp [inchworm], ?_⟩
    funext m n
    fin_cases m <;> fin_cases n <;> simp [inchworm, adm, ADM.dot3, ADM.betaCov, Fin.sum_univ_three] <;> (try field_simp) <;> (try ring)
  have hi : AssemblesInv (inchworm a k) X := by
    funext m n
    fin_cases m <;> fin_cases n <;> simp [inchworm, adm, ADM.dot3, ADM.betaCov, Fin.sum_univ_three] <;> (try field_simp) <;> (try ring)
  refine ⟨hs, inverse4_of _ _ hs h3 ha hi, h3, ha, hi, detOk_of _ _ hs ha (by simp [inchworm]) ?_ (by simp [inchworm]),
    ?_, lnAlphaOk_const _ _ 1 (fun _ => rfl) fun _ => rfl, ?_⟩
  · rw [Matrix.det_fin_three]
    simp only [inchworm]
    rw [sq_sqrt (by nlinarith [sq_nonneg (delta a k (X 1) - 1)])]
    simp; ring
  · have hd := hasDerivAt_delta a k (X 1)
    refine derivOk_of _ _ (fun x _ m n => if m = 1 ∧ n = 1 then (delta a k x - 1) ^ 2 else
      if m = n then (if m = 0 then -1 else 1) else 0) (fun Y => rfl) ?_ ?_ ?_ ?_
    · have h1 : HasDerivAt (fun x => (delta a k x - 1) ^ 2) (2 * a * (k * k) * (-delta a k (X 1) + 1) * sin (k * X 1)) (X 1) :=
        ((hd.sub_const 1).pow 2).congr_deriv (by simp; ring)
      intro m n
      fin_cases m <;> fin_cases n <;> simp [inchworm] <;> first | exact hasDerivAt_const _ _ | exact h1
    · intro m n
      have : (inchworm a k).dg X m n 2 = 0 := by simp [inchworm]
      rw [this]; exact hasDerivAt_const _ _
    · intro m n; simp [inchworm]
    · intro m n; simp [inchworm]
  · intro b c d
    simp only [inchworm]
    fin_cases b <;> fin_cases c <;> fin_cases d <;> simp ; ring

/-- **C33, C34, C35** FLRW wherever the scale factor is positive, including the time derivatives. -/
theorem flrw_good (a0 dadt : ℝ) (X : Fin 4 → ℝ) (hX : 0 < scaleFactor a0 dadt (X 0)) : Good (flrw 0 a0 dadt) X := by
  have hne := hX.ne'
  have hs : Symm (flrw 0 a0 dadt) X := by
    refine ⟨?_, ?_, ?_, ?_⟩ <;> intro m n <;> fin_cases m <;> fin_cases n <;> simp [flrw]
  have h3 : Inverse3 (flrw 0 a0 dadt) X := by
    intro m n; fin_cases m <;> fin_cases n <;> simp [flrw, Fin.sum_univ_three, ratio_zero] <;> field_simp
  have ha : Assembles (flrw 0 a0 dadt) X := by
    refine ⟨by simp [flrw], ?_⟩
    funext m n
    fin_cases m <;> fin_cases n <;> simp [flrw, adm, ADM.dot3, ADM.betaCov, Fin.sum_univ_three] <;> (try field_simp) <;> (try ring)
  have hi : AssemblesInv (flrw 0 a0 dadt) X := by
    funext m n
    fin_cases m <;> fin_cases n <;> simp [flrw, adm, ADM.dot3, ADM.betaCov, Fin.sum_univ_three] <;> (try field_simp) <;> (try ring)
  refine ⟨hs, inverse4_of _ _ hs h3 ha hi, h3, ha, hi, detOk_of _ _ hs ha ?_ ?_ (by simp [flrw]),
    ?_, lnAlphaOk_const _ _ 1 (fun _ => rfl) fun _ => rfl, ?_⟩
  · simp only [flrw]; positivity
  · rw [Matrix.det_fin_three]; simp [flrw]; ring
  · have hd : HasDerivAt (fun t => scaleFactor a0 dadt t * scaleFactor a0 dadt t) (2 * scaleFactor a0 dadt (X 0) * dadt) (X 0) := by
      have h : HasDerivAt (scaleFactor a0 dadt) dadt (X 0) := by
        exact (((hasDerivAt_id (X 0)).const_mul dadt).const_add a0).congr_deriv (by simp)
      exact (h.mul h).congr_deriv (by ring)
    intro m n sg
    fin_cases sg
    · fin_cases m <;> fin_cases n <;> simp [flrw] <;> first | exact hasDerivAt_const _ _ | exact hd
    all_goals
      simp only [flrw, Fin.mk_one, Fin.reduceFinMk, Function.update_apply, show (0:Fin 4) ≠ 1 by decide,
        show (0:Fin 4) ≠ 2 by decide, show (0:Fin 4) ≠ 3 by decide, show (1:Fin 4) ≠ 0 by decide, show (2:Fin 4) ≠ 0 by decide,
        show (3:Fin 4) ≠ 0 by decide, if_false, and_false]
      exact hasDerivAt_const _ _
  · intro b c d
    simp only [flrw]
    fin_cases b <;> fin_cases c <;> fin_cases d <;> simp <;> ring

/-- regular points exist. -/
example : SphRegular ![0, 2, Real.pi / 2, 0] := by simp [SphRegular]
example : delta 1 1 0 = 1 ∧ delta 1 1 (Real.pi / 2) ≠ 1 := by simp [delta]
example : 0 < scaleFactor 1 1 3 := by norm_num [scaleFactor]

end Phoebus.Metrics
