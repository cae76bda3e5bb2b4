import Verif.Torus.State
import Mathlib.Analysis.SpecialFunctions.Pow.Real
import Mathlib.Analysis.SpecialFunctions.Pow.Deriv

/-!
# Model of the Bondi problem generator, src/pgen/bondi.cpp

Real arithmetic; `std::pow` with a non-integer exponent is `Real.rpow`.  The fluid is an ideal gas with
`n = 1/(gamma-1)` (bondi.cpp:118-120 enforces `gamma = 1.4`, `Cv = n`).  `printf` diagnostics and the particle/scalar
fields are not modelled.
-/
namespace Phoebus.Bondi
open Real Metrics Geom

/-- `get_Tfunc`, bondi.cpp:36-40. -/
noncomputable def Tfunc (n C1 C2 r T : ℝ) : ℝ :=
  (1 + (1 + n) * T) ^ 2 * (1 - 2 / r + (C1 / (r * r * T ^ n)) ^ 2) - C2

/-- `uc`, bondi.cpp:126. -/
noncomputable def ucOf (rs : ℝ) : ℝ := √(1 / (2 * rs))

/-- `Vc`, bondi.cpp:127. -/
noncomputable def VcOf (rs : ℝ) : ℝ := -√(ucOf rs ^ 2 / (1 - 3 * ucOf rs ^ 2))

/-- `Tc`, bondi.cpp:128. -/
noncomputable def TcOf (n rs : ℝ) : ℝ := -n * VcOf rs ^ 2 / ((n + 1) * (n * VcOf rs ^ 2 - 1))

/-- `C1`, bondi.cpp:129. -/
noncomputable def C1Of (n rs : ℝ) : ℝ := ucOf rs * rs ^ 2 * TcOf n rs ^ n

/-- `C2`, bondi.cpp:130-132. -/
noncomputable def C2Of (n rs : ℝ) : ℝ :=
  (1 + (1 + n) * TcOf n rs) ^ 2 * (1 - 2 / rs + C1Of n rs ^ 2 / (rs ^ 4 * TcOf n rs ^ (2 * n)))

/-- loop variables of the bisection, bondi.cpp:33-34. -/
structure Bis where
  T0 : ℝ
  f0 : ℝ
  T1 : ℝ
  f1 : ℝ
  Th : ℝ
  fh : ℝ

/-- what a call can do: hit `PARTHENON_FAIL`, return a value, or loop forever.
(Result type of the model; the code is bondi.cpp, function `get_bondi_temp` cited below.) -/
inductive Outcome
  | abort
  | value (T : ℝ)
  | diverge

/-- entry of the loop, bondi.cpp:42-53. -/
noncomputable def Bis.start (F : ℝ → ℝ) (Tmin Tmax : ℝ) : Bis :=
  let Th := 0.5 * (Tmin + Tmax)
  ⟨Tmin, F Tmin, Tmax, F Tmax, Th, F Th⟩

/-- loop body, bondi.cpp:55-64. -/
noncomputable def Bis.step (F : ℝ → ℝ) (s : Bis) : Bis :=
  let s' : Bis := if s.fh * s.f0 < 0 then { s with T1 := s.Th, f1 := s.fh } else { s with T0 := s.Th, f0 := s.fh }
  let Th := 0.5 * (s'.T0 + s'.T1)
  { s' with Th := Th, fh := F Th }

/-- loop condition, bondi.cpp:54. -/
def Bis.cont (rtol ftol : ℝ) (s : Bis) : Prop := (s.T1 - s.T0) / s.Th > rtol ∧ |s.fh| > ftol

open Classical in
/-- the bisection of `get_bondi_temp`, bondi.cpp:42-67: sign check, loop until the condition fails. -/
noncomputable def bisect (rtol ftol : ℝ) (F : ℝ → ℝ) (Tmin Tmax : ℝ) : Outcome :=
  if F Tmin * F Tmax > 0 then .abort
  else if h : ∃ k, ¬ ((Bis.step F)^[k] (Bis.start F Tmin Tmax)).cont rtol ftol then
    .value ((Bis.step F)^[Nat.find h] (Bis.start F Tmin Tmax)).Th
  else .diverge

/-- initial guess, bondi.cpp:30. -/
noncomputable def Tguess (Tc rc r : ℝ) : ℝ := Tc * (rc / r) ^ (0.8 : ℝ)

/-- `get_bondi_temp`, bondi.cpp:24-68. -/
noncomputable def getBondiTemp (rtol ftol r n C1 C2 Tc rc : ℝ) : Outcome :=
  let Tg := Tguess Tc rc r
  let Tmin := if r < rc then 0.1 * Tg else Tg
  let Tmax := if r < rc then Tg else 10 * Tg
  bisect rtol ftol (Tfunc n C1 C2 r) Tmin Tmax

/-- gas state of a cell from its temperature, bondi.cpp:176-177: `(rho, u)`. -/
noncomputable def gasState (n gam T : ℝ) : ℝ × ℝ :=
  let rho := T ^ n
  (rho, rho * T / (gam - 1))

/-- radial velocity, bondi.cpp:184. -/
noncomputable def uconR (n C1 r T : ℝ) : ℝ := -C1 / (T ^ n * r ^ 2)

/-- coordinate used for a cell whose centre lies inside `Rhor`, bondi.cpp:163-167: the first of `x1, x1+dx, ...` with
`bl_radius >= Rhor` (`none` when the loop does not end). -/
noncomputable def shiftedX1 (rad : ℝ → ℝ) (Rhor x1 dx : ℝ) : Option ℝ :=
  open Classical in
  if h : ∃ k : ℕ, ¬ rad (x1 + k * dx) < Rhor then some (x1 + Nat.find h * dx) else none

/-- four-velocity stored for a cell, bondi.cpp:183-216: Boyer-Lindquist radial velocity, time component from the
normalisation, transformation to code coordinates at `X` (its first component is the shifted `x1`), renormalisation with
the metric `g` of the cell. -/
noncomputable def cellU (p : Transform.MGR) (small ss a : ℝ) (X : Fin 3 → ℝ) (g : Fin 4 → Fin 4 → ℝ)
    (r th ur : ℝ) : Fin 4 → ℝ :=
  let u0 : Fin 4 → ℝ := ![0, ur, 0, 0]
  let ubl := Function.update u0 0 (Torus.uconNorm u0 (blG small a r th))
  let u := p.blToFmks small ss X a ubl
  Function.update u 0 (Torus.uconNorm u g)

/-- stored velocity primitives, bondi.cpp:218-225. -/
noncomputable def primVel (alpha : ℝ) (beta : Fin 3 → ℝ) (u : Fin 4 → ℝ) : Fin 3 → ℝ := fun d =>
  let W := alpha * u 0
  u d.succ + W * beta d / alpha

end Phoebus.Bondi
