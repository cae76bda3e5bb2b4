import Mathlib.Algebra.Order.Field.Basic
import Mathlib.Data.Int.Log

/-!
# Model of `src/phoebus_utils/root_find.hpp`

* The functor is a pure function `f : K → K`.
* A `RootFind` object is the pair `(iteration_count, max_iter)`; `iteration_count` is *not* reset by the
  member functions, so each finder takes the current count `n0` and returns the new one.
* `while (... && iteration_count < max_iter)` is structural recursion on the fuel `max_iter - n0`.
* `status == nullptr` is `hasStatus = false`; `PARTHENON_FAIL` is `Outcome.abort`.
* `0/0` in `regula_falsi` yields `Outcome.nan`; a read of the uninitialised `x1,x2,y1,y2` of `secant`
  yields `Outcome.undef`.
-/
namespace Phoebus.RootFind

/-- root_find.hpp:19. -/
inductive Status | success | failure
deriving DecidableEq, Repr

/-- What a call returns: a number, its status and the new iteration count; a NaN with status and
count; an abort; or undefined behaviour.
(Result type of the model of root_find.hpp.) -/
inductive Outcome (K : Type*)
  | ret (x : K) (st : Status) (iters : ℕ)
  | nan (st : Status) (iters : ℕ)
  | abort
  | undef
deriving DecidableEq, Repr

variable {K : Type*} [Field K] [LinearOrder K]

/-- final status, root_find.hpp:101-104, 161-164, 215-218, 257-260. -/
def finalStatus (count maxIter : ℕ) : Status :=
  if count = maxIter then .failure else .success

/-- `check_bracket`, root_find.hpp:26-39 (the returned boolean). -/
def checkBracket (ya yb : K) : Bool := if ya * yb > 0 then false else true

/-- `refine_bracket`, root_find.hpp:41-58: returns the new `(a, b, ya, yb)`. -/
def refineBracket (f : K → K) (guess a b : K) : K × K × K × K :=
  if a ≤ guess ∧ b ≥ guess then
    let ya := f guess
    let yb := f b
    if ya * yb > 0 then (a, guess, f a, ya) else (guess, b, ya, yb)
  else (a, b, f a, f b)

/-- `sign`, root_find.hpp:77, 123, 188, 237. -/
def signOf (ya : K) : K := if ya < 0 then 1 else -1

/-- The loop of `bisect`, root_find.hpp:241-255.  Returns the final bracket and the number of
iterations done. -/
def bisectLoop (f : K → K) (sign tol : K) : ℕ → K → K → K × K × ℕ
  | 0, a, b => (a, b, 0)
  | fuel + 1, a, b =>
    if b - a > tol then
      let xh := (1/2) * (a + b)
      let yh := sign * f xh
      let r := if yh > 0 then bisectLoop f sign tol fuel a xh
               else if yh < 0 then bisectLoop f sign tol fuel xh b
               else bisectLoop f sign tol fuel xh xh
      (r.1, r.2.1, r.2.2 + 1)
    else (a, b, 0)

/-- `bisect`, root_find.hpp:223-263. -/
def bisect (f : K → K) (a b tol : K) (hasStatus : Bool) (n0 maxIter : ℕ) : Outcome K :=
  let ya := f a
  let yb := f b
  if !checkBracket ya yb then
    if !hasStatus then .abort else .ret ((a + b) / 2) .failure n0
  else
    let sign := signOf ya
    let r := bisectLoop f sign tol (maxIter - n0) a b
    .ret ((1/2) * (r.1 + r.2.1)) (finalStatus (n0 + r.2.2) maxIter) (n0 + r.2.2)

/-- The loop of `regula_falsi`, root_find.hpp:129-159; `none` when `c` is `0/0`.  (`x/0` with `x ≠ 0` cannot
occur: `yb = ya` with both nonzero contradicts the loop's sign invariant, and is also mapped to `none`.) -/
def falsiLoop (f : K → K) (sign tol : K) :
    ℕ → K → K → K → K → ℕ → ℕ → Option (K × K) × ℕ
  | 0, a, b, _, _, _, _ => (some (a, b), 0)
  | fuel + 1, a, b, ya, yb, b1, b2 =>
    if b - a > 2 * tol then
      if yb - ya = 0 then (none, 1)
      else
        let c := (a * yb - b * ya) / (yb - ya)
        let r :=
          if c = a then falsiLoop f sign tol fuel a a ya yb b1 b2
          else if c = b then falsiLoop f sign tol fuel b b ya yb b1 b2
          else
            let yc := sign * f c
            if yc > 0 then
              falsiLoop f sign tol fuel a c (ya * (if b1 + 1 > 1 then 1/2 else 1)) yc (b1 + 1) 0
            else if yc < 0 then
              falsiLoop f sign tol fuel c b yc (yb * (if b2 + 1 > 1 then 1/2 else 1)) 0 (b2 + 1)
            else falsiLoop f sign tol fuel c c ya yb b1 b2
        (r.1, r.2 + 1)
    else (some (a, b), 0)

/-- `regula_falsi`, root_find.hpp:109-167. -/
def regulaFalsi (f : K → K) (a b tol guess : K) (hasStatus : Bool) (n0 maxIter : ℕ) : Outcome K :=
  let r := refineBracket f guess a b
  let a := r.1
  let b := r.2.1
  let ya := r.2.2.1
  let yb := r.2.2.2
  if !checkBracket ya yb then
    if !hasStatus then .abort else .ret guess .failure n0
  else
    let sign := signOf ya
    let l := falsiLoop f sign tol (maxIter - n0) a b (ya * sign) (yb * sign) 0 0
    match l.1 with
    | some (a, b) => .ret ((1/2) * (a + b)) (finalStatus (n0 + l.2) maxIter) (n0 + l.2)
    | none => .nan (finalStatus (n0 + l.2) maxIter) (n0 + l.2)

/-- One ITP abscissa, root_find.hpp:193-200.  `e` is the exponent `nmax - iteration_count`.  For `yb = ya`
(`0/0`, a NaN `xf`) every comparison with NaN is false, so `sigma = -1`, `xt = xh`. -/
def itpPoint (tol a b ya yb : K) (e : ℤ) : K :=
  let xh := (1/2) * (a + b)
  if yb - ya = 0 then
    let r := tol * (2:K) ^ e - (1/2) * (b - a)
    if |xh - xh| > r then xh - (-1) * r else xh
  else
    let xf := (yb * a - ya * b) / (yb - ya)
    let xhxf := xh - xf
    let delta := min ((1/10) * (b - a) ^ 2) |xhxf|
    let sigma : K := if xhxf > 0 then 1 else -1
    let xt := if delta ≤ sigma * xhxf then xf + sigma * delta else xh
    let r := tol * (2:K) ^ e - (1/2) * (b - a)
    if |xt - xh| > r then xh - sigma * r else xt

/-- The loop of `itp`, root_find.hpp:192-213; `e` is `nmax - iteration_count`. -/
def itpLoop (f : K → K) (sign tol : K) : ℕ → ℤ → K → K → K → K → K × K × ℕ
  | 0, _, a, b, _, _ => (a, b, 0)
  | fuel + 1, e, a, b, ya, yb =>
    if b - a > 2 * tol then
      let x := itpPoint tol a b ya yb e
      let y := sign * f x
      let r := if y > 0 then itpLoop f sign tol fuel (e - 1) a x ya y
               else if y < 0 then itpLoop f sign tol fuel (e - 1) x b y yb
               else itpLoop f sign tol fuel (e - 1) x x ya yb
      (r.1, r.2.1, r.2.2 + 1)
    else (a, b, 0)

/-- `itp`, root_find.hpp:169-221.  `nmax = ceil(log2(0.5 (b-a)/tol))` (line 176, with `n0 = 0`) is computed
from the interval passed in, before it is refined. -/
def itp [FloorSemiring K] (f : K → K) (a b tol guess : K) (hasStatus : Bool) (n0 maxIter : ℕ) :
    Outcome K :=
  let nmax : ℤ := Int.clog 2 ((1/2) * (b - a) / tol)
  let r := refineBracket f guess a b
  let a := r.1
  let b := r.2.1
  let ya := r.2.2.1
  let yb := r.2.2.2
  if !checkBracket ya yb then
    if !hasStatus then .abort else .ret guess .failure n0
  else
    let sign := signOf ya
    let l := itpLoop f sign tol (maxIter - n0) (nmax - n0) a b (ya * sign) (yb * sign)
    .ret ((1/2) * (l.1 + l.2.1)) (finalStatus (n0 + l.2.2) maxIter) (n0 + l.2.2)

/-- The loop of `secant`, root_find.hpp:81-99; `none` when `y2 = y1` (division by zero). -/
def secantLoop (f : K → K) (sign tol : K) :
    ℕ → K → K → K → K → Option (K × K) × ℕ
  | 0, x1, x2, _, _ => (some (x1, x2), 0)
  | fuel + 1, x1, x2, y1, y2 =>
    if |x2 - x1| > 2 * tol then
      if y2 - y1 = 0 then (none, 1)
      else
        let x0 := (x1 * y2 - x2 * y1) / (y2 - y1)
        let r :=
          if x0 = x1 then secantLoop f sign tol fuel x1 x1 y1 y2
          else if x0 = x2 then secantLoop f sign tol fuel x2 x2 y1 y2
          else secantLoop f sign tol fuel x0 x1 (sign * f x0) y1
        (r.1, r.2 + 1)
    else (some (x1, x2), 0)

/-- `secant`, root_find.hpp:60-107.  If neither refined end point is the guess, `x1,x2,y1,y2` are read
uninitialised. -/
def secant (f : K → K) (a b tol guess : K) (n0 maxIter : ℕ) : Outcome K :=
  let r := refineBracket f guess a b
  let a := r.1
  let b := r.2.1
  let ya := r.2.2.1
  let yb := r.2.2.2
  if a = guess ∨ b = guess then
    let p := if a = guess then (a, b, ya, yb) else (b, a, yb, ya)
    let sign := signOf p.2.2.1
    let l := secantLoop f sign tol (maxIter - n0) p.1 p.2.1 (p.2.2.1 * sign) (p.2.2.2 * sign)
    match l.1 with
    | some (x1, x2) => .ret ((1/2) * (x1 + x2)) (finalStatus (n0 + l.2) maxIter) (n0 + l.2)
    | none => .nan (finalStatus (n0 + l.2) maxIter) (n0 + l.2)
  else .undef

end Phoebus.RootFind
