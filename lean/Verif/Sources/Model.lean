import Verif.GeomUtils.Model
import Verif.Closure.Model
import Verif.Geom.ADM

/-!
# Model of the geometric source terms

`CalculateFluidSourceTerms` of `/repo/src/fluid/fluid.cpp` and `CalculateGeometricSourceImpl` of
`/repo/src/radiation/moments.cpp`.  The geometry of a cell is its 3+1 data `G`, the metric derivatives
`dg mu nu s = ∂_s g_{mu nu}` returned by `MetricDerivative` and `da m = ∂_m ln α` returned by `GradLnAlpha`.
-/
namespace Phoebus.Sources
open Finset Geom GeomUtils

section Fluid
variable {K : Type*} [Field K] [LinearOrder K]

/-- momentum source, fluid.cpp:604-611: `T m n` is the contravariant stress-energy tensor. -/
def momentumSource (gdet : K) (dg : Fin 4 → Fin 4 → Fin 4 → K) (T : Fin 4 → Fin 4 → K) (l : Fin 3) : K :=
  gdet * ∑ m, ∑ n, T m n * (dg n l.succ m - connection dg l.succ n m)

/-- the row `gcon0` of the inverse metric, fluid.cpp:618-623. -/
def gcon0 (small : K) (G : ADM K) : Fin 4 → K :=
  let ia := Robust.ratio small 1 (G.alpha * G.alpha)
  Fin.cons (-ia) fun i => ia * G.beta i

/-- energy source with `USE_VALENCIA`, fluid.cpp:613-640. -/
def energySourceValencia (small : K) (G : ADM K) (gdet : K) (dg : Fin 4 → Fin 4 → Fin 4 → K) (da : Fin 4 → K)
    (T : Fin 4 → Fin 4 → K) : K :=
  let TGam := ∑ m, ∑ n, T m n * ∑ r, gcon0 small G r * connection dg r m n
  let Ta := ∑ m, T m 0 * da m
  gdet * G.alpha * (Ta - TGam)

/-- energy source without `USE_VALENCIA`, fluid.cpp:642-643. -/
def energySourceCovariant (gdet : K) (dg : Fin 4 → Fin 4 → Fin 4 → K) (T : Fin 4 → Fin 4 → K) : K :=
  gdet * ∑ mu, ∑ nu, T mu nu * connection dg nu 0 mu

end Fluid

/-- `con_n`, moments.cpp:835-836. -/
noncomputable def conN (G : ADM ℝ) : Fin 4 → ℝ := Fin.cons (1 / G.alpha) fun i => -G.beta i / G.alpha

/-- embedding of a spatial vector: the components `ii + 1` of the loops at moments.cpp:863-869. -/
def spatial (F : Fin 3 → ℝ) : Fin 4 → ℝ := Fin.cons 0 F

/-- the radiation stress-energy tensor assembled at moments.cpp:861-869 from the lab energy, the contravariant flux and the
pressure tensor. -/
noncomputable def conT (G : ADM ℝ) (E : ℝ) (F : Fin 3 → ℝ) (P : Fin 3 → Fin 3 → ℝ) (mu nu : Fin 4) : ℝ :=
  conN G mu * conN G nu * E + conN G mu * spatial F nu + conN G nu * spatial F mu +
    (Fin.cons (fun _ => 0) (fun i => spatial (P i)) : Fin 4 → Fin 4 → ℝ) mu nu

/-- radiation energy source, moments.cpp:871-879. -/
noncomputable def radEnergySource (G : ADM ℝ) (sdetgam : ℝ) (dg : Fin 4 → Fin 4 → Fin 4 → ℝ) (da : Fin 4 → ℝ)
    (T : Fin 4 → Fin 4 → ℝ) : ℝ :=
  let TGam := ∑ m, ∑ n, T m n * ∑ r, G.g4Inv 0 r * connection dg r m n
  let Ta := ∑ m, T m 0 * da m
  sdetgam * G.alpha * G.alpha * (Ta - TGam)

/-- radiation momentum source, moments.cpp:881-887. -/
noncomputable def radMomentumSource (G : ADM ℝ) (sdetgam : ℝ) (dg : Fin 4 → Fin 4 → Fin 4 → ℝ)
    (T : Fin 4 → Fin 4 → ℝ) (l : Fin 3) : ℝ :=
  G.alpha * sdetgam * ∑ m, ∑ n, T m n * (dg n l.succ m - connection dg l.succ n m)

/-- the radiation sources of one species, moments.cpp:838-887, from the stored fields: `E`, `F` densitised, `J` and `h = H/J`
primitive, `Pi` the closure tensor and `v` the fluid three-velocity. -/
noncomputable def radSources (G : ADM ℝ) (v : Closure.Vec) (sdetgam : ℝ) (dg : Fin 4 → Fin 4 → Fin 4 → ℝ) (da : Fin 4 → ℝ)
    (Ec : ℝ) (Fc : Closure.Vec) (J : ℝ) (h : Closure.Vec) (Pi : Closure.Tens2) : ℝ × Closure.Vec :=
  let E := Ec / sdetgam
  let covF : Closure.Vec := fun i => Fc i / sdetgam
  let covH : Closure.Vec := fun i => J * h i
  let T := conT G E (Closure.raise G covF) (Closure.conP G v Pi J covH)
  (radEnergySource G sdetgam dg da T, radMomentumSource G sdetgam dg T)

end Phoebus.Sources
