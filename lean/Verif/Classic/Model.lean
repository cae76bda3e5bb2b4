import Verif.C2P.Lemmas
import Verif.Timestep.Model

/-!
# Model of the classic two-dimensional Newton inversion, `src/fluid/con2prim.hpp`

Over the reals.  `small` is the regulariser of `robust::ratio`, `eps` the minimum of `robust::make_positive`.  The debug-only
printing branches are not modelled.  A floating point NaN is an explicit `none`.
-/
namespace Phoebus.Classic
open Finset Geom Robust Rel

/-- The EOS calls used, as functions of density, temperature and `lambda[0]`.
(Data type or helper of the model of con2prim.hpp; the members are those of the class at con2prim.hpp:127-419.) -/
structure EosT where
  P : ℝ → ℝ → ℝ → ℝ
  sie : ℝ → ℝ → ℝ → ℝ
  bulk : ℝ → ℝ → ℝ → ℝ

/-- The scratch scalars, con2prim.hpp:204-208. -/
structure Scr where
  D : ℝ
  tau : ℝ
  Bsq : ℝ
  Ssq : ℝ
  BdotS : ℝ

/-- `setup`, con2prim.hpp:374-418, magnetised case (`pb_hi > 0`): the scratch scalars. -/
noncomputable def setup (G : ADM ℝ) (gdet : ℝ) (c : Cons) : Scr :=
  let igdet := 1 / gdet
  let Bp : Fin 3 → ℝ := fun i => c.B i * igdet
  { D := c.D * igdet
    tau := c.tau * igdet
    Bsq := ∑ i, ∑ j, G.gam i j * Bp i * Bp j
    BdotS := (∑ i, Bp i * c.S i) * igdet
    Ssq := (∑ i, ∑ j, G.gamInv i j * c.S i * c.S j) * (igdet * igdet) }

/-- The initial density guess, con2prim.hpp:407-417: `pvel` is the velocity primitive found in the array.  `none` when the
square root of a negative number is taken. -/
noncomputable def guess (G : ADM ℝ) (D : ℝ) (pvel : Fin 3 → ℝ) : Option ℝ :=
  let W := ∑ i, ∑ j, G.gam i j * pvel i * pvel j
  if 1 - W < 0 then none
  else if 1 - W = 0 then some 0
  else some (D / Real.sqrt (1 / (1 - W)))

/-- `Residual::sfunc`, con2prim.hpp:53-58. -/
noncomputable def sfunc (s : Scr) (z Wp : ℝ) : ℝ :=
  let zBsq := (z + s.Bsq) * (z + s.Bsq)
  (zBsq - s.Ssq - (2 * z + s.Bsq) * (s.BdotS * s.BdotS) / (z * z)) * Wp * Wp - zBsq

/-- `Residual::taufunc`, con2prim.hpp:59-62. -/
noncomputable def taufunc (s : Scr) (z Wp p : ℝ) : ℝ :=
  (s.tau + s.D - z - s.Bsq + s.BdotS * s.BdotS / (2 * z * z) + p) * Wp * Wp + 0.5 * s.Bsq

/-- `Residual::operator()`, con2prim.hpp:63-71; `lam` is `lambda_[0]`. -/
noncomputable def resid (eos : EosT) (s : Scr) (lam rho T : ℝ) : ℝ × ℝ :=
  let p := eos.P rho T lam
  let sie := eos.sie rho T lam
  let Wp := s.D / rho
  let z := (rho * (1 + sie) + p) * Wp * Wp
  (sfunc s z Wp, taufunc s z Wp p)

/-- Parameters of the solver.
(Data type or helper of the model of con2prim.hpp; the members are those of the class at con2prim.hpp:127-419.) -/
structure Par where
  small : ℝ
  eps : ℝ
  tol : ℝ

/-- Solver state: guesses, current residual, differencing factor, convergence flag.
(Data type or helper of the model of con2prim.hpp; the members are those of the class at con2prim.hpp:127-419.) -/
structure St where
  rho : ℝ
  T : ℝ
  res : ℝ × ℝ
  df : ℝ
  conv : Bool

/-- the differencing step with its lower limit, con2prim.hpp:289-293, 296-299, 304-307. -/
noncomputable def fdStep (p : Par) (df x : ℝ) : ℝ :=
  let dmin := makePositive p.eps (p.tol * 1e-6)
  if |df * x| < dmin then (sgn (df * x) : ℝ) * dmin else df * x

/-- squared residual norm.
(Data type or helper of the model of con2prim.hpp; the members are those of the class at con2prim.hpp:127-419.) -/
def normSq (r : ℝ × ℝ) : ℝ := r.1 * r.1 + r.2 * r.2

/-- The backtracking loop, con2prim.hpp:343-353: returns the final `alpha` and residual; `n` trials remain. -/
noncomputable def backtrack (f : ℝ → ℝ → ℝ × ℝ) (rho T drho dT res0 : ℝ) : ℕ → ℝ → ℝ × ℝ → ℝ × (ℝ × ℝ)
  | 0, a, res => (a, res)
  | n + 1, a, res =>
    if normSq res ≥ res0 then
      backtrack f rho T drho dT res0 n (a * 0.5) (f (rho + a * 0.5 * drho) (T + a * 0.5 * dT))
    else (a, res)

/-- The damped density correction, con2prim.hpp:334-340. -/
noncomputable def dampRho (D rho d : ℝ) : ℝ :=
  if rho + d < 0 then (-0.1 * rho / d) * d else if rho + d > D then ((D - rho) / d) * d else 1 * d

/-- The damped temperature correction, con2prim.hpp:341. -/
noncomputable def dampT (T d : ℝ) : ℝ := if T + d < 0 then -0.1 * T else d

/-- One pass of the `do ... while` body, con2prim.hpp:294-361. -/
noncomputable def body (p : Par) (D : ℝ) (f : ℝ → ℝ → ℝ × ℝ) (s : St) : St :=
  let drho := fdStep p s.df s.rho
  let idrho := ratio p.small 1 drho
  let r1 := f (s.rho + drho) s.T
  let j00 := (r1.1 - s.res.1) * idrho
  let j10 := (r1.2 - s.res.2) * idrho
  let dT := fdStep p s.df s.T
  let idT := ratio p.small 1 dT
  let r2 := f s.rho (s.T + dT)
  let j01 := (r2.1 - s.res.1) * idT
  let j11 := (r2.2 - s.res.2) * idT
  let det := j00 * j11 - j01 * j10
  let idet := 1 / det
  if |det| < 1e-16 then { s with df := s.df * 1.2 }
  else
    let deltaRho := -(s.res.1 * j11 - j01 * s.res.2) * idet
    let deltaT := -(j00 * s.res.2 - j10 * s.res.1) * idet
    let conv := s.conv || decide (|deltaRho| / s.rho < p.tol ∧ |deltaT| / s.T < p.tol)
    let dr := dampRho D s.rho deltaRho
    let dt := dampT s.T deltaT
    let b := backtrack f s.rho s.T dr dt (normSq s.res) 5 1 (f (s.rho + dr) (s.T + dt))
    { rho := s.rho + b.1 * dr
      T := s.T + b.1 * dt
      res := b.2
      df := s.df * (if s.df > 1e-6 then 1 / 1.2 else 1)
      conv := conv }

/-- The loop, con2prim.hpp:294-361: after the first pass at most `n` more.  Every pass increments `iter` by one. -/
noncomputable def loop (p : Par) (D : ℝ) (f : ℝ → ℝ → ℝ × ℝ) : ℕ → St → St
  | 0, s => body p D f s
  | n + 1, s => let t := body p D f s
    if t.conv then t else loop p D f n t

/-- `solve`, con2prim.hpp:265-372.  The residual is built by the constructor without `Ye` (line 269), so `lambda_[0] = 0`. -/
noncomputable def solve (p : Par) (eos : EosT) (s : Scr) (maxIter : ℕ) (rho T : ℝ) : St :=
  let f := resid eos s 0
  loop p s.D f (maxIter - 1) ⟨rho, T, f rho T, 1e-6, false⟩

/-- Result of `finalize`.
(Data type or helper of the model of con2prim.hpp; the members are those of the class at con2prim.hpp:127-419.) -/
structure Out where
  P : ℝ
  u : ℝ
  gm1 : ℝ
  v : Fin 3 → ℝ
  sig : Fin 3 → ℝ

/-- three-velocity before the final conversion, con2prim.hpp:229-242. -/
noncomputable def vel3 (G : ADM ℝ) (gdet : ℝ) (c : Cons) (s : Scr) (z : ℝ) : Fin 3 → ℝ := fun i =>
  let scon := (∑ j, G.gamInv i j * c.S j) * (1 / gdet)
  1 / (z + s.Bsq) * (scon + s.BdotS * (c.B i * (1 / gdet)) / z)

/-- `cssq` (fast speed), con2prim.hpp:244-259. -/
noncomputable def fast (s : Scr) (H W gm1 P : ℝ) : ℝ :=
  let b0 := s.BdotS / (H * W)
  let x := s.Bsq + b0 * b0
  let vasq := x / (H + x)
  let cssq := gm1 * P / H
  cssq + (vasq - cssq * vasq)

/-- `finalize`, con2prim.hpp:210-263; `ye` is `lambda[0]`. -/
noncomputable def finalize (eos : EosT) (G : ADM ℝ) (gdet : ℝ) (c : Cons) (s : Scr) (ye rho T : ℝ) : Out :=
  let P := eos.P rho T ye
  let u := rho * eos.sie rho T ye
  let H := rho + u + P
  let gm1 := eos.bulk rho T ye / P
  let W := s.D / rho
  let z := H * (W * W)
  let v := vel3 G gdet c s z
  let cf := fast s H W gm1 P
  { P := P, u := u, gm1 := gm1
    v := fun i => W * v i
    sig := fun i => Timestep.signalSpeed G.alpha (G.beta i) (G.gamInv i i) (1 - 1 / (W * W)) (v i) cf }

end Phoebus.Classic
