import Verif.Common
import Verif.RootFind.Model

/-!
# Model of `/repo/src/phoebus_utils/adiabats.hpp`

`pow(10, ·)`, the equation of state and `interpToReal` are parameters.
-/
namespace Phoebus.Adiabats
variable {K : Type*} [Field K] [LinearOrder K]

/-- `SampleRho`, adiabats.hpp:75-82. -/
def sampleRho (lrhoMin lrhoMax : K) (n : ℕ) (i : ℕ) : K := lrhoMin + i * ((lrhoMax - lrhoMin) / n)

/-- the loop of `MinEnthalpy`, adiabats.hpp:116-132, over the enthalpies `h i` of the samples; `cap` is the literal `1e30`. -/
def minEnthalpy (cap : K) (h : ℕ → K) : ℕ → K
  | 0 => cap
  | n + 1 => if h n < minEnthalpy cap h n then h n else minEnthalpy cap h n

/-- the specific enthalpy of a sample, adiabats.hpp:123-127: `1 + e + P / rho`. -/
def enthalpy (P e : K → K → K) (rho T : K) : K := 1 + e rho T + P rho T / rho

/-- the bound adjustments of `GetRhoBounds`, adiabats.hpp:58-59 and 69-71, given the two logarithms found by the root finder;
`adj` is the literal `0.01`. -/
def rhoBounds (adj l0 l1 : K) : K × K :=
  let lo := l0 + adj * |l0|
  (lo, l1 - adj * (l1 - lo))

end Phoebus.Adiabats
