import Verif.Transform.MGRProps
import Verif.Rel.Props
import Mathlib.Analysis.SpecialFunctions.Pow.Deriv
import Mathlib.Analysis.SpecialFunctions.Log.Deriv

/-!
# Model of `pgen/torus.cpp`

The Fishbone-Moncrief torus: analytic enthalpy and velocity, thermodynamic state, conversion of the velocity to code
primitives, vector potential and magnetic field, field normalisation, radial grid and tracer placement.  Only the ideal
gas branch of `GetStateFromEnthalpy` is modelled.  The floors, jitter and radiation initialisation that follow in the
kernel are modelled separately below or left out (see the comments).
-/
namespace Phoebus.Torus
open Real Metrics Geom Finset

/-- `ucon_norm`, torus.cpp:829-840. The `discr >= 0` requirement is not modelled. -/
noncomputable def uconNorm (u : Fin 4 → ℝ) (g : Fin 4 → Fin 4 → ℝ) : ℝ :=
  let AA := g 0 0
  let BB := 2 * (g 0 1 * u 1 + g 0 2 * u 2 + g 0 3 * u 3)
  let CC := 1 + g 1 1 * u 1 * u 1 + g 2 2 * u 2 * u 2 + g 3 3 * u 3 * u 3 +
    2 * (g 1 2 * u 1 * u 2 + g 1 3 * u 1 * u 3 + g 2 3 * u 2 * u 3)
  let discr := BB * BB - 4 * AA * CC
  (-BB - √discr) / (2 * AA)

/-- `lfish_calc`, torus.cpp:744-753. `std::pow(r, 1.5)` is `r * sqrt r`. -/
noncomputable def lfish (r a : ℝ) : ℝ :=
  ((a ^ 2 - 2 * a * √r + r ^ 2) *
    ((-2 * a * r * (a ^ 2 - 2 * a * √r + r ^ 2)) / √(2 * a * √r + (-3 + r) * r) +
      ((a + (-2 + r) * √r) * (r ^ 3 + a ^ 2 * (2 + r))) / √(1 + (2 * a) / (r * √r) - 3 / r))) /
  (r ^ 3 * √(2 * a * √r + (-3 + r) * r) * (a ^ 2 + (-2 + r) * r))

/-- `DD` of `log_enthalpy`, torus.cpp:761. -/
noncomputable def DD (r a : ℝ) : ℝ := r * r - 2 * r + a * a

/-- `AA` of `log_enthalpy`, torus.cpp:762. -/
noncomputable def AA (r th a : ℝ) : ℝ := (r * r + a * a) * (r * r + a * a) - DD r a * a * a * sin th * sin th

/-- `SS` of `log_enthalpy`, torus.cpp:763. -/
noncomputable def SS (r th a : ℝ) : ℝ := r * r + a * a * cos th * cos th

/-- `lnh` of `log_enthalpy`, torus.cpp:758-785; the second group is the same expression at `(rin, pi/2)`. -/
noncomputable def lnh (r th a rin l : ℝ) : ℝ :=
  let sth := sin th
  let DD0 := DD r a
  let AA0 := AA r th a
  let SS0 := SS r th a
  let thin := π / 2
  let sthin := sin thin
  let DDin := DD rin a
  let AAin := AA rin thin a
  let SSin := SS rin thin a
  0.5 * log ((1 + √(1 + 4 * (l * l * SS0 * SS0) * DD0 / (AA0 * AA0 * sth * sth))) / (SS0 * DD0 / AA0)) -
    0.5 * √(1 + 4 * (l * l * SS0 * SS0) * DD0 / (AA0 * AA0 * sth * sth)) - 2 * a * r * l / AA0 -
  (0.5 * log ((1 + √(1 + 4 * (l * l * SSin * SSin) * DDin / (AAin * AAin * sthin * sthin))) / (SSin * DDin / AAin)) -
    0.5 * √(1 + 4 * (l * l * SSin * SSin) * DDin / (AAin * AAin * sthin * sthin)) - 2 * a * rin * l / AAin)

/-- the angular velocity set by `log_enthalpy` inside the torus, torus.cpp:786-790. -/
noncomputable def uphiRaw (r th a l : ℝ) : ℝ :=
  let sth := sin th
  let expm2chi := SS r th a * SS r th a * DD r a / (AA r th a * AA r th a * sth * sth)
  let up1 := √((-1 + √(1 + 4 * l * l * expm2chi)) / 2)
  2 * a * r * √(1 + up1 * up1) / √(AA r th a * SS r th a * DD r a) + √(SS r th a / AA r th a) * up1 / sth

/-- `log_enthalpy`, torus.cpp:756-793: returned value and the reference argument `uphi`. -/
noncomputable def logEnthalpy (r th a rin l : ℝ) : ℝ × ℝ :=
  let h := lnh r th a rin l
  (h, if h > 0 then uphiRaw r th a l else 0)

/-- ideal-gas branch of `GetStateFromEnthalpy`, torus.cpp:805-808: `(rho_out, u_out)`. -/
noncomputable def gasState (hm1 kappa gam rhoRmax : ℝ) : ℝ × ℝ :=
  let rho := (hm1 * (gam - 1) / (kappa * gam)) ^ (1 / (gam - 1))
  (rho / rhoRmax, kappa * rho ^ gam / (gam - 1) / rhoRmax)

/-- normalising density, torus.cpp:274-280. -/
noncomputable def rhoRmax (a rin rmax kappa gam : ℝ) : ℝ :=
  let hm1 := exp (logEnthalpy rmax (0.5 * π) a rin (lfish rmax a)).1 - 1
  (gasState hm1 kappa gam 1).1

/-- one subsample of the fill kernel, torus.cpp:313-323: the four-velocity in code coordinates with renormalised time
component, from the coordinates `X`, the metric `g` of the code geometry at the sample. -/
noncomputable def sampleU (p : Transform.MGR) (small ss a : ℝ) (X : Fin 3 → ℝ) (g : Fin 4 → Fin 4 → ℝ)
    (r th uphi : ℝ) : Fin 4 → ℝ :=
  let u0 : Fin 4 → ℝ := ![0, 0, 0, uphi]
  let ubl := Function.update u0 0 (uconNorm u0 (blG small a r th))
  let u := p.blToFmks small ss X a ubl
  Function.update u 0 (uconNorm u g)

/-- `W * vcon[d]`, torus.cpp:324-332. -/
noncomputable def primVel (alpha : ℝ) (beta : Fin 3 → ℝ) (u : Fin 4 → ℝ) : Fin 3 → ℝ := fun d =>
  let W := alpha * u 0
  W * (u d.succ / W + beta d / alpha)

/-- accumulation over `nsub * nsub` samples, torus.cpp:288-335; a sample outside the torus adds nothing. -/
noncomputable def cellAverage (nsub : ℕ) (inside : ℕ → ℕ → Prop) [∀ m n, Decidable (inside m n)] (f : ℕ → ℕ → ℝ) : ℝ :=
  ∑ m ∈ range nsub, ∑ n ∈ range nsub, if inside m n then f m n / (nsub * nsub) else 0

end Phoebus.Torus
