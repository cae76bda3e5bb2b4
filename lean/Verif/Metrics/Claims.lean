import Verif.Metrics.Kerr

/-!
# C33, C34, C35 over all coordinate systems of a build

One enumeration of the systems that a build can select (cmake/Geometry.cmake:20-32; the two monopole systems are treated in
`Monopole/Sph.lean`, the modified systems in `Transform`), the points at which each is regular, and the three claims for
all of them.  Boyer-Lindquist is the system for which they are false (`Kerr.lean`).
-/
namespace Phoebus.Metrics
open Real

/-- the analytic systems with their parameters (spin, boost, ...).  The classes are cited at their models in `Model.lean`
(minkowski.hpp:35-112 and following). -/
inductive Choice
  | minkowski
  | boosted (vx vy vz : ℝ)
  | sphMinkowski
  | snake (a k al vy : ℝ)
  | inchworm (a k : ℝ)
  | flrw (a0 dadt : ℝ)
  | kerrSchild (a : ℝ)

/-- the functions of the chosen system (regulariser of `robust::ratio` zero). -/
noncomputable def Choice.sys : Choice → CoordSys
  | .minkowski => Metrics.minkowski
  | .boosted vx vy vz => Metrics.boosted vx vy vz
  | .sphMinkowski => Metrics.sphMinkowski 0
  | .snake a k al vy => Metrics.snake a k al vy
  | .inchworm a k => Metrics.inchworm a k
  | .flrw a0 dadt => Metrics.flrw 0 a0 dadt
  | .kerrSchild a => Metrics.kerrSchild 0 a

/-- specification: where the chart is regular.  Spherical charts: positive radius, off the axis; snake: positive lapse
parameter; inchworm: the map is invertible; FLRW: after the singularity. -/
def Choice.Regular : Choice → (Fin 4 → ℝ) → Prop
  | .minkowski, _ => True
  | .boosted _ _ _, _ => True
  | .sphMinkowski, X => SphRegular X
  | .snake _ _ al _, _ => 0 < al
  | .inchworm a k, X => delta a k (X 1) ≠ 1
  | .flrw a0 dadt, X => 0 < scaleFactor a0 dadt (X 0)
  | .kerrSchild _, X => SphRegular X

theorem choice_good (c : Choice) (X : Fin 4 → ℝ) (h : c.Regular X) : Good c.sys X := by
  cases c with
  | minkowski => exact minkowski_good X
  | boosted vx vy vz => exact boosted_good vx vy vz X
  | sphMinkowski => exact sphMinkowski_good X h
  | snake a k al vy => exact snake_good a k al vy h X
  | inchworm a k => exact inchworm_good a k X h
  | flrw a0 dadt => exact flrw_good a0 dadt X h
  | kerrSchild a => exact kerrSchild_good a X h

/-- **C33** For every listed system, all its parameters and every regular point, metric times inverse metric is the
identity, in three and in four dimensions, and the arrays are symmetric.

Partial form of C33. Full property: the same including Boyer-Lindquist. Missing: it is false there
(`boyerLindquist_inverse_wrong`). -/
theorem inverse_partial (c : Choice) (X : Fin 4 → ℝ) (h : c.Regular X) : Inverse3 c.sys X ∧ Inverse4 c.sys X ∧ Symm c.sys X :=
  have g := choice_good c X h
  ⟨g.inv3, g.inv4, g.symm⟩

/-- **C34** For every listed system and regular point, lapse, shift, 3-metric and determinants reassemble to the 4-metric, its
inverse and its determinant.

Partial form of C34. Full property: the same including Boyer-Lindquist. Missing: it is false there
(`boyerLindquist_metric3_swapped`, `boyerLindquist_lapse_reciprocal`). -/
theorem assembles_partial (c : Choice) (X : Fin 4 → ℝ) (h : c.Regular X) :
    Assembles c.sys X ∧ AssemblesInv c.sys X ∧ DetOk c.sys X :=
  have g := choice_good c X h
  ⟨g.assembles, g.assemblesInv, g.det⟩

/-- **C35** For every listed system and regular point the returned derivatives are the derivatives of the returned metric and of
the logarithm of the returned lapse, and the connection is the Levi-Civita connection of the metric.

Partial form of C35. Full property: the same at every point at which the metric is differentiable. Missing: it is false
at negative radius (`sphMinkowski_deriv_negative`, `kerrSchild_deriv_negative`). -/
theorem derivatives_partial (c : Choice) (X : Fin 4 → ℝ) (h : c.Regular X) :
    DerivOk c.sys X ∧ LnAlphaOk c.sys X ∧
      ∀ a b e, c.sys.conn X a b e = 1 / 2 * (deriv (fun t => c.sys.g (Function.update X e t) a b) (X e)
        + deriv (fun t => c.sys.g (Function.update X b t) a e) (X b) - deriv (fun t => c.sys.g (Function.update X a t) b e) (X a)) := by
  have g := choice_good c X h
  refine ⟨g.deriv, g.lnAlpha, fun a b e => ?_⟩
  rw [(g.deriv a b e).deriv, (g.deriv a e b).deriv, (g.deriv b e a).deriv]
  exact g.conn a b e

/-- a spinning black hole at a generic point. -/
theorem ex_choice : (Choice.kerrSchild (9 / 10)).Regular ![0, 5, π / 2, 1] ∧ (Choice.flrw 1 1).Regular ![3, 0, 0, 0] := by
  refine ⟨⟨?_, ?_⟩, ?_⟩
  · norm_num
  · simp
  · show (0:ℝ) < scaleFactor 1 1 _
    simp [scaleFactor]; norm_num

end Phoebus.Metrics
