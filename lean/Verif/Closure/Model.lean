import Verif.Common
import Verif.Rel.Model
import Verif.LinAlg.Model
import Mathlib.Analysis.SpecialFunctions.Trigonometric.Basic

/-!
# Model of `/repo/src/radiation/closure.hpp`, `closure_m1.hpp` and `local_three_geometry.hpp`

A closure object is a 3+1 geometry `G` and a fluid three-velocity `v` (the constructor's arguments).  The template flag
`SET::eqn_type` is the Boolean `num` (`true` = `number_conserve`).  `small` is the regulariser of `robust::ratio`.
Floating point NaN tests are modelled by the exact condition under which the real expression is undefined.
-/
namespace Phoebus.Closure
open Geom Rel Robust LinAlg Finset

/-- spatial vectors and rank-2 tensors, local_three_geometry.hpp:34-42, 81-89. -/
abbrev Vec := Fin 3 → ℝ
/-- local_three_geometry.hpp:81-89. -/
abbrev Tens2 := Fin 3 → Fin 3 → ℝ

/-- `lower3Vector`, local_three_geometry.hpp:150-153. -/
def lower (G : ADM ℝ) (U : Vec) : Vec := fun i => ∑ j, U j * G.gam i j

/-- `raise3Vector`, local_three_geometry.hpp:156-159. -/
def raise (G : ADM ℝ) (U : Vec) : Vec := fun i => ∑ j, U j * G.gamInv i j

/-- `contractCov3Vectors`, local_three_geometry.hpp:170-175. -/
def ccov (G : ADM ℝ) (a b : Vec) : ℝ := ∑ i, ∑ j, G.gamInv i j * a i * b j

/-- `contractConCov3Vectors`, local_three_geometry.hpp:178-183. -/
def cc (a b : Vec) : ℝ := ∑ i, a i * b i

/-- `v2` of the constructor, closure.hpp:163-166. -/
noncomputable def v2 (G : ADM ℝ) (v : Vec) : ℝ := min (cc v (lower G v)) 0.9999

/-- `W` of the constructor, closure.hpp:167. -/
noncomputable def W (G : ADM ℝ) (v : Vec) : ℝ := 1 / Real.sqrt (1 - v2 G v)

/-- `W2`, closure.hpp:168. -/
noncomputable def W2 (G : ADM ℝ) (v : Vec) : ℝ := W G v * W G v

/-- `con_vTilPi` of `GetTilPiContractions`, closure.hpp:144-149. -/
def conVPi (G : ADM ℝ) (v : Vec) (Pi : Tens2) : Vec := fun i => ∑ j, lower G v j * Pi i j

/-- `cov_vTilPi`, closure.hpp:152. -/
def covVPi (G : ADM ℝ) (v : Vec) (Pi : Tens2) : Vec := lower G (conVPi G v Pi)

/-- `vvTilPi`, closure.hpp:150. -/
def vvPi (G : ADM ℝ) (v : Vec) (Pi : Tens2) : ℝ := ∑ i, lower G v i * conVPi G v Pi i

/-- `Prim2Con`, closure.hpp:277-297. -/
noncomputable def prim2con (num : Bool) (G : ADM ℝ) (v : Vec) (Pi : Tens2) (J : ℝ) (H : Vec) : ℝ × Vec :=
  let p := vvPi G v Pi
  let vH := cc v H
  (if num = true then W G v * J + vH else (4 * W2 G v - 1 + 3 * W2 G v * p) / 3 * J + 2 * W G v * vH,
   fun i => 4 * W2 G v / 3 * lower G v i * J + W G v * lower G v i * vH + W G v * H i + J * covVPi G v Pi i)

/-- `lam` of `Con2Prim`, closure.hpp:314. -/
noncomputable def lam (G : ADM ℝ) (v : Vec) (Pi : Tens2) : ℝ :=
  (2 * W2 G v + 1) / 3 + (2 * W2 G v - 3) * W2 G v * vvPi G v Pi

/-- the linear part of `Con2Prim`, closure.hpp:299-325. -/
noncomputable def con2primRaw (small : ℝ) (num : Bool) (G : ADM ℝ) (v : Vec) (Pi : Tens2) (E0 : ℝ) (F : Vec) : ℝ × Vec :=
  let p := vvPi G v Pi
  let vF := cc v F
  let E := if num = true then E0 / W G v + vF else E0
  let l := lam G v Pi
  let a := ratio small (W2 G v) l * ((4 * W2 G v / 3 - p) * E - ((4 * W2 G v + 1) / 3 - W2 G v * p) * vF)
  let J := ratio small ((2 * W2 G v - 1) * E - 2 * W2 G v * vF) l
  (J, fun i => (F i - J * covVPi G v Pi i - lower G v i * a) / W G v)

/-- `ClosureStatus`, closure.hpp:36-40. -/
inductive Status | success | failure | modified
  deriving DecidableEq

/-- the argument of the square root in `xi`, closure.hpp:327-330. -/
noncomputable def hsq (G : ADM ℝ) (v : Vec) (H : Vec) : ℝ := ccov G H H - cc v H ^ 2

open Classical in
/-- the checks at the end of `Con2Prim`, closure.hpp:327-350; `robustStrategy` is the runtime setting, `SMALL` the constant.
`xi` is undefined (NaN) when the radicand is negative or the quotient is `0/0`; with `J = 0` and a positive radicand it
is infinite. -/
noncomputable def con2primCheck (robustStrategy : Bool) (SMALL : ℝ) (G : ADM ℝ) (v : Vec) (J : ℝ) (H : Vec) : Status × ℝ × Vec :=
  let q := hsq G v H
  let xi := Real.sqrt q / J
  if q < 0 ∨ (J = 0 ∧ q = 0) then (Status.failure, J, H)
  else
    let big : Prop := J = 0 ∨ 1 ≤ xi
    if J < 0 ∨ big then
      if robustStrategy = true then
        (Status.modified, if J < 0 then min J (10 * SMALL) else J, if big then fun i => H i * (0.999 / xi) else H)
      else (Status.failure, J, H)
    else (Status.success, J, H)

/-- `Con2Prim`, closure.hpp:299-351. -/
noncomputable def con2prim (small : ℝ) (num rob : Bool) (SMALL : ℝ) (G : ADM ℝ) (v : Vec) (Pi : Tens2) (E0 : ℝ) (F : Vec) :
    Status × ℝ × Vec :=
  let r := con2primRaw small num G v Pi E0 F
  con2primCheck rob SMALL G v r.1 r.2

/-- `con_P` of `getConPFromPrim`, closure.hpp:243-254. -/
noncomputable def conP (G : ADM ℝ) (v : Vec) (Pi : Tens2) (J : ℝ) (H : Vec) : Tens2 := fun i j =>
  4.0 / 3.0 * W2 G v * v i * v j * J + W G v * (v i * raise G H j + v j * raise G H i) + J * Pi i j + J / 3.0 * G.gamInv i j

/-- `concov_P` of `getConCovPFromPrim`, closure.hpp:256-275. -/
noncomputable def concovP (G : ADM ℝ) (v : Vec) (Pi : Tens2) (J : ℝ) (H : Vec) : Tens2 := fun i j =>
  4.0 / 3.0 * W2 G v * v i * lower G v j * J + W G v * (v i * H j + lower G v j * raise G H i) +
    J * (∑ k, Pi i k * G.gam k j) + (if i = j then J / 3.0 else 0)

/-- `getFluxesFromPrim`, closure.hpp:223-241. -/
noncomputable def fluxes (num : Bool) (G : ADM ℝ) (v : Vec) (Pi : Tens2) (J : ℝ) (H : Vec) : Vec × Tens2 :=
  (fun i => (if num = true then W G v * v i * J + H i else raise G (prim2con num G v Pi J H).2 i) * G.alpha,
   fun i j => concovP G v Pi J H i j * G.alpha)

/-- `A` of `LinearSourceUpdate`, closure.hpp:182-191. -/
noncomputable def lsuA (num : Bool) (G : ADM ℝ) (v : Vec) (Pi : Tens2) (tauJ tauH : ℝ) : Fin 2 → Fin 2 → ℝ :=
  let w := W G v
  let a00 := (4 * W2 G v - 1) / 3 + W2 G v * vvPi G v Pi + w * tauJ
  let a01 := 2 * w + tauH
  let a10 := a00 - 1 - tauJ / w
  let a11 := a01 - 1 / w
  if num = true then ![![w + tauJ, 1], ![a10, a11]] else ![![a00, a01], ![a10, a11]]

/-- `b` of `LinearSourceUpdate`, closure.hpp:193-200. -/
noncomputable def lsuB (num : Bool) (G : ADM ℝ) (v : Vec) (Es : ℝ) (Fs : Vec) (JBB tauJ : ℝ) : Fin 2 → ℝ :=
  ![if num = true then Es + tauJ * JBB else Es + W G v * tauJ * JBB,
    cc v Fs + (W2 G v - 1) / W G v * tauJ * JBB]

/-- `LinearSourceUpdate`, closure.hpp:173-221: the increments `dE`, `cov_dF`. -/
noncomputable def linearSourceUpdate (num : Bool) (G : ADM ℝ) (v : Vec) (Es : ℝ) (Fs : Vec) (Pi : Tens2) (JBB tauJ tauH : ℝ) : ℝ × Vec :=
  let w := W G v
  let x := solve2 (lsuA num G v Pi tauJ tauH) (lsuB num G v Es Fs JBB tauJ)
  let J := x 0
  let zeta := x 1
  (if num = true then w * J + zeta - Es
   else (4 * W2 G v - 1 + 3 * W2 G v * vvPi G v Pi) / 3 * J + 2 * w * zeta - Es,
   fun i => (lower G v i * tauH * (4 * W2 G v / 3 * J + w * zeta) + tauH * covVPi G v Pi i * J +
      tauJ * W2 G v * lower G v i * (JBB - J) + w * Fs i) / (w + tauH) - Fs i)

/-! ### the M1 closure, closure_m1.hpp -/

/-- `closure`, closure_m1.hpp:51-55. -/
noncomputable def eddFactor (xi : ℝ) : ℝ := (1.0 - 2 * xi ^ 2 + 4 * xi ^ 3) / 3.0

/-- `athin`, closure_m1.hpp:310, 332. -/
noncomputable def athin (xi : ℝ) : ℝ := 0.5 * (3 * eddFactor xi - 1)

/-- the projected pressure tensor built from a direction, closure_m1.hpp:312-316, 335-339. -/
noncomputable def tilPi (G : ADM ℝ) (v : Vec) (xi : ℝ) (f : Vec) : Tens2 := fun i j =>
  (f i * f j - (W2 G v * v i * v j + G.gamInv i j) / 3) * athin xi

/-- `con_tilf` of the first `M1FluidPressureTensor`, closure_m1.hpp:302-308. -/
noncomputable def fluxDir (small : ℝ) (G : ADM ℝ) (v H : Vec) : Vec :=
  fun i => ratio small (raise G H i) (Real.sqrt (cc H (raise G H) - cc H v ^ 2))

/-- `xi` of the first `M1FluidPressureTensor`, closure_m1.hpp:309. -/
noncomputable def fluxFactor (small : ℝ) (G : ADM ℝ) (v : Vec) (J : ℝ) (H : Vec) : ℝ :=
  max (min 1 (ratio small (Real.sqrt (cc H (raise G H) - cc H v ^ 2)) J)) 0

/-- the first `M1FluidPressureTensor` (`GetConTilPiFromPrim`), closure_m1.hpp:69-73, 298-319. -/
noncomputable def tilPiFromPrim (small : ℝ) (G : ADM ℝ) (v : Vec) (J : ℝ) (H : Vec) : Tens2 :=
  tilPi G v (fluxFactor small G v J H) (fluxDir small G v H)

/-- `GetBasisVectors`, closure_m1.hpp:345-372; `eps10` is `10 * epsilon`. -/
noncomputable def basis (small eps10 : ℝ) (G : ADM ℝ) (v F : Vec) : Vec × Vec :=
  let Fc := raise G F
  let Fmag := Real.sqrt (cc F Fc)
  let vl := ratio small (cc F v) Fmag
  let vv := cc (lower G v) v
  let l := ratio small 1 (W G v * (1 - vl))
  let aa := Real.sqrt (vv * (1 + eps10) - vl * vl)
  (fun i => ratio small (Fc i * l) Fmag - W G v * v i,
   fun i => ratio small (ratio small (Fc i) Fmag * (1 - l / W G v) + v i) aa)

/-- `con_tilf` of the second `M1FluidPressureTensor`, closure_m1.hpp:326-329. -/
noncomputable def angleDir (g d : Vec) (phi : ℝ) : Vec := fun i => -Real.cos phi * g i + Real.sin phi * d i

/-- state of the Newton iteration of `SolveClosure`.
(The local variables of closure_m1.hpp:183-267.) -/
structure NR where
  xi : ℝ
  phi : ℝ
  fXi : ℝ
  fPhi : ℝ
  iter : ℕ

/-- one pass of the loop of `SolveClosure`, closure_m1.hpp:209-249.  `res xi phi` is `M1Residuals`; `jac` stands for the
finite-difference Jacobian (any function).  The bound `0.5*3.14159/|dx[1]|` on `alpha` is infinite when `dx[1]` is zero. -/
noncomputable def nrStep (small delta : ℝ) (maxIter : ℕ) (res : ℝ → ℝ → ℝ × ℝ) (jac : ℝ → ℝ → Fin 2 → Fin 2 → ℝ) (s : NR) : NR :=
  let f := res s.xi s.phi
  let Jc := jac s.xi s.phi
  let full := solve2 Jc ![f.1, f.2]
  let d0 := if s.iter < maxIter then f.1 / Jc 0 0 else full 0
  let d1 := if s.iter < maxIter then 0 else full 1
  let fPhi := if s.iter < maxIter then 0 else f.2
  let c := max (min d0 (s.xi - delta * s.xi)) (s.xi - (1 - delta * (1 - s.xi)))
  let al0 := ratio small c d0
  let al := if d1 = 0 then al0 else min al0 (0.5 * 3.14159 / |d1|)
  ⟨s.xi - al * d0, s.phi - al * d1, f.1, fPhi, s.iter + 1⟩

/-- the `do … while`, closure_m1.hpp:209-251; the fuel is the number of passes still allowed. -/
noncomputable def nrLoop (small delta tol : ℝ) (maxIter : ℕ) (res : ℝ → ℝ → ℝ × ℝ) (jac : ℝ → ℝ → Fin 2 → Fin 2 → ℝ) : ℕ → NR → NR
  | 0, s => s
  | n + 1, s =>
    let t := nrStep small delta maxIter res jac s
    if t.iter < maxIter ∧ (|t.fXi| > tol ∨ |t.fPhi| > tol) then nrLoop small delta tol maxIter res jac n t else t

/-- `SolveClosure`, closure_m1.hpp:180-267: `phi` starts at `acos(-1)` whatever the guess (line 208).  The normalisation of the input
flux (lines 191-195) is part of `res`. -/
noncomputable def solveClosure (small delta tol : ℝ) (res : ℝ → ℝ → ℝ × ℝ) (jac : ℝ → ℝ → Fin 2 → Fin 2 → ℝ) (xiGuess _phiGuess : ℝ) : Status × NR :=
  let r := nrLoop small delta tol 30 res jac 30 ⟨xiGuess, Real.pi, 1000, 1000, 0⟩
  (if 30 ≤ r.iter then Status.failure else Status.success, r)

/-- `fXi`, `fPhi` of `M1Residuals`, closure_m1.hpp:270-295, given what `Con2Prim` returned. -/
noncomputable def m1ResidualOf (small : ℝ) (G : ADM ℝ) (v f : Vec) (xi J : ℝ) (H : Vec) : ℝ × ℝ :=
  let Hm := Real.sqrt (ccov G H H - cc v H ^ 2)
  let Hf := cc H f - cc (lower G v) f * cc v H
  (xi - ratio small Hm J, Hf - Hm)

end Phoebus.Closure
