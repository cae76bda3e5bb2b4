import Mathlib.Algebra.Order.Field.Basic

/-!
# Model of `src/reconstruction.hpp`

All functions are total over an arbitrary linearly ordered field `K` (exact arithmetic instead of
doubles).  A pair `(ql, qr)` is returned where the C++ writes through references: `ql` is the state at the
*right* face of the cell (the left state of that face), `qr` the state at the *left* face.
The literal `1e-100`/`1e-12` constants are `eps` parameters of the definitions.
-/
namespace Phoebus.Recon

variable {K : Type*} [Field K] [LinearOrder K]

/-- `std::copysign(x, y)`; the sign of a zero `y` is taken as `+`
(the only zero that reaches it gives magnitude zero).
(C library function, defined for the model.) -/
def copysign (x y : K) : K := if 0 ≤ y then |x| else -|x|

/-- `mc`, reconstruction.hpp:103-107. -/
def mc (dm dp alpha : K) : K :=
  let dc := (if 0 < dm * dp then (1:K) else 0) * (1/2) * (dm + dp)
  copysign (min |dc| (alpha * min |dm| |dp|)) dc

/-- `PiecewiseConstant`, reconstruction.hpp:111-114. -/
def piecewiseConstant (q0 : K) : K × K := (q0, q0)

/-- `PiecewiseLinear`, reconstruction.hpp:118-123. -/
def piecewiseLinear (qm q0 qp : K) : K × K :=
  let dq := qp - q0
  let dq := mc (q0 - qm) dq (3/2)
  (q0 + (1/2) * dq, q0 - (1/2) * dq)

/-- Smoothness indicators of `WENO5Z` before the Z-transformation, reconstruction.hpp:136-144.
`eps` is the literal `1e-100` of line 133. -/
def wenoBeta (eps q0 q1 q2 q3 q4 : K) : K × K × K :=
  let a := q0 - 2 * q1 + q2
  let b := q0 - 4 * q1 + 3 * q2
  let beta0 := 13/3 * a * a + b * b + eps
  let a := q1 - 2 * q2 + q3
  let b := q3 - q1
  let beta1 := 13/3 * a * a + b * b + eps
  let a := q2 - 2 * q3 + q4
  let b := q4 - 4 * q3 + 3 * q2
  let beta2 := 13/3 * a * a + b * b + eps
  (beta0, beta1, beta2)

/-- The Z-transformed indicators, reconstruction.hpp:145-149. -/
def wenoZ (be : K × K × K) : K × K × K :=
  let tau5 := |be.2.2 - be.1|
  ((be.1 + tau5) / be.1, (be.2.1 + tau5) / be.2.1, (be.2.2 + tau5) / be.2.2)

/-- Unnormalised weights for the right face (`ql`), reconstruction.hpp:151-153. -/
def wenoWl (eps : K) (z : K × K × K) : K × K × K :=
  (1/10 * z.1 + eps, 6/10 * z.2.1 + eps, 3/10 * z.2.2 + eps)

/-- Unnormalised weights for the left face (`qr`), reconstruction.hpp:164-166. -/
def wenoWr (eps : K) (z : K × K × K) : K × K × K :=
  (1/10 * z.2.2 + eps, 6/10 * z.2.1 + eps, 3/10 * z.1 + eps)

/-- Unlimited `ql`, reconstruction.hpp:154-158. -/
def wenoHiL (w : K × K × K) (q0 q1 q2 q3 q4 : K) : K :=
  let wsum := 1 / (w.1 + w.2.1 + w.2.2)
  let ql := w.1 * (1/3 * q0 + -7/6 * q1 + 11/6 * q2)
  let ql := ql + w.2.1 * (-1/6 * q1 + 5/6 * q2 + 1/3 * q3)
  let ql := ql + w.2.2 * (1/3 * q2 + 5/6 * q3 + -1/6 * q4)
  ql * wsum

/-- Unlimited `qr`, reconstruction.hpp:167-171. -/
def wenoHiR (w : K × K × K) (q0 q1 q2 q3 q4 : K) : K :=
  let wsum := 1 / (w.1 + w.2.1 + w.2.2)
  let qr := w.1 * (1/3 * q4 + -7/6 * q3 + 11/6 * q2)
  let qr := qr + w.2.1 * (-1/6 * q3 + 5/6 * q2 + 1/3 * q1)
  let qr := qr + w.2.2 * (1/3 * q2 + 5/6 * q1 + -1/6 * q0)
  qr * wsum

/-- `alpha_l`/`alpha_r`, reconstruction.hpp:159-162 and 172-175. -/
def wenoAlpha (eps : K) (w : K × K × K) : K :=
  let wsum := 1 / (w.1 + w.2.1 + w.2.2)
  3 * wsum * w.1 * w.2.1 * w.2.2 /
    (3/10 * w.1 * w.2.1 + 6/10 * w.1 * w.2.2 + 1/10 * w.2.1 * w.2.2) + eps

/-- `alpha_lin`, reconstruction.hpp:180. -/
def wenoBlend (eps q0 q1 q2 q3 q4 : K) : K :=
  let z := wenoZ (wenoBeta eps q0 q1 q2 q3 q4)
  let alpha_l := wenoAlpha eps (wenoWl eps z)
  let alpha_r := wenoAlpha eps (wenoWr eps z)
  2 * alpha_l * alpha_r / (alpha_l + alpha_r)

/-- `WENO5Z`, reconstruction.hpp:127-183. -/
def weno5z (eps q0 q1 q2 q3 q4 : K) : K × K :=
  let z := wenoZ (wenoBeta eps q0 q1 q2 q3 q4)
  let ql := wenoHiL (wenoWl eps z) q0 q1 q2 q3 q4
  let qr := wenoHiR (wenoWr eps z) q0 q1 q2 q3 q4
  let dq := q3 - q2
  let dq := mc (q2 - q1) dq 2
  let alpha_lin := wenoBlend eps q0 q1 q2 q3 q4
  (alpha_lin * ql + (1 - alpha_lin) * (q2 + (1/2) * dq),
   alpha_lin * qr + (1 - alpha_lin) * (q2 - (1/2) * dq))

/-- The `MINMOD` macro, reconstruction.hpp:186. -/
def minmod2 (a b : K) : K := if 0 < a * b then (if |a| < |b| then a else b) else 0

/-- `Median`, reconstruction.hpp:188. -/
def median (a b c : K) : K := a + minmod2 (b - a) (c - a)

/-- The fifth-order interpolant of `mp5_subcalc`, reconstruction.hpp:198-199. -/
def mp5High (fjm2 fjm1 fj fjp1 fjp2 : K) : K :=
  (2 * fjm2 - 13 * fjm1 + 47 * fj + 27 * fjp1 - 3 * fjp2) / 60

/-- `fMP`, reconstruction.hpp:201. -/
def mp5MP (fjm1 fj fjp1 : K) : K := fj + minmod2 (fjp1 - fj) (4 * (fj - fjm1))

/-- `(Fmin, Fmax)` of `mp5_subcalc`, reconstruction.hpp:205-231. -/
def mp5Bounds (fjm2 fjm1 fj fjp1 fjp2 : K) : K × K :=
  let d2m := fjm2 + fj - 2 * fjm1
  let d2 := fjm1 + fjp1 - 2 * fj
  let d2p := fj + fjp2 - 2 * fjp1
  let scrh1 := minmod2 (4 * d2 - d2p) (4 * d2p - d2)
  let scrh2 := minmod2 d2 d2p
  let dMMp := minmod2 scrh1 scrh2
  let scrh1 := minmod2 (4 * d2m - d2) (4 * d2 - d2m)
  let scrh2 := minmod2 d2 d2m
  let dMMm := minmod2 scrh1 scrh2
  let fUL := fj + 4 * (fj - fjm1)
  let fAV := (1/2) * (fj + fjp1)
  let fMD := fAV - (1/2) * dMMp
  let fLC := (1/2) * (3 * fj - fjm1) + 4/3 * dMMm
  let scrh1 := min fj fjp1
  let scrh1 := min scrh1 fMD
  let scrh2 := min fj fUL
  let scrh2 := min scrh2 fLC
  let fmin := max scrh1 scrh2
  let scrh1 := max fj fjp1
  let scrh1 := max scrh1 fMD
  let scrh2 := max fj fUL
  let scrh2 := max scrh2 fLC
  let fmax := min scrh1 scrh2
  (fmin, fmax)

/-- `mp5_subcalc`, reconstruction.hpp:191-235; `epsm` is the literal `1.e-12` of line 196. -/
def mp5Subcalc (epsm fjm2 fjm1 fj fjp1 fjp2 : K) : K :=
  let f := mp5High fjm2 fjm1 fj fjp1 fjp2
  let fMP := mp5MP fjm1 fj fjp1
  if (f - fj) * (f - fMP) ≤ epsm then f
  else
    let bd := mp5Bounds fjm2 fjm1 fj fjp1 fjp2
    median f bd.1 bd.2

/-- `MP5`, reconstruction.hpp:240-244. -/
def mp5 (epsm q0 q1 q2 q3 q4 : K) : K × K :=
  (mp5Subcalc epsm q0 q1 q2 q3 q4, mp5Subcalc epsm q4 q3 q2 q1 q0)

/-- The three-point overload of `ReconLoop` (reconstruction.hpp:256-263) with the pointer arithmetic of
its callers in the x1 direction (e.g. fluid.cpp `CalculateFluxes`: `pvim1 = pv - 1`, `vi_l = &ql(.., 1)`):
for `s ≤ i ≤ e` the state at the right face of cell `i` is stored at face index `i+1` of the left-state
array, and the state at its left face at face index `i` of the right-state array; other entries keep
their old values. -/
def reconLoop3 (F : K → K → K → K × K) (s e : ℤ) (q lOld rOld : ℤ → K) : (ℤ → K) × (ℤ → K) :=
  (fun f => if s ≤ f - 1 ∧ f - 1 ≤ e then (F (q (f - 1 - 1)) (q (f - 1)) (q (f - 1 + 1))).1 else lOld f,
   fun f => if s ≤ f ∧ f ≤ e then (F (q (f - 1)) (q f) (q (f + 1))).2 else rOld f)

end Phoebus.Recon
