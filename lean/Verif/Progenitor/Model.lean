import Verif.Rel.Model
import Verif.Transform.Model
import Mathlib.Algebra.Order.Floor.Ring

/-!
# Model of the progenitor table and of the collapsing-star problem

`/repo/src/progenitor/{ascii_reader.hpp,ascii_reader.cpp,progenitordata.cpp}` and `/repo/src/pgen/progenitor.cpp`.

`Spiner::DataBox` (not part of the repository) is modelled by its documented contract: `setRange(0, lo, hi, n)` puts the `n`
samples on the regular grid `lo + i (hi-lo)/(n-1)`, `interpToReal(x)` interpolates linearly in the cell that contains `x`, the first or
last one for points outside.
-/
namespace Phoebus.Progenitor
open Finset

section Reader
variable {K : Type*}

/-- A line of the file: whether its first character is `#`, and what `ss >> temp` extracts from it in turn, `none` standing
for text that is not a number (extraction stops there).
(Data type read by ascii_reader.cpp:11-31.) -/
structure Line (K : Type*) where
  hash : Bool
  toks : List (Option K)

/-- The inner loop `while (ss >> temp)`, ascii_reader.cpp:26-29: the numbers in front of the first token that is not one. -/
def numbers : List (Option K) → List K
  | some x :: l => x :: numbers l
  | _ => []

/-- What one line contributes, ascii_reader.cpp:22-29; `line[0]` of an empty line is the terminator, so an empty line has no numbers. -/
def Line.row (l : Line K) : List K := if l.hash then [] else numbers l.toks

/-- The eleven vectors `mydata[0..10]`.
(Data type read by ascii_reader.cpp:11-31.) -/
abbrev Table (K : Type*) := Fin 11 → List K

/-- `mydata[col].push_back(temp); col++` for one line, ascii_reader.cpp:24-29.  `none` is the out-of-bounds access `mydata[11]` of a line with more
than eleven numbers. -/
def pushRow (d : Table K) (xs : List K) : Option (Table K) :=
  if xs.length ≤ 11 then some fun c => d c ++ (xs[c.val]?).toList else none

/-- `readtable`, ascii_reader.cpp:11-31, for a file that could be opened. -/
def readtable : List (Line K) → Table K → Option (Table K)
  | [], d => some d
  | l :: ls, d => (pushRow d l.row).bind (readtable ls)

/-- The loop of `Initialize` that copies the columns into the data boxes, progenitordata.cpp:27, 45-59: `npoints` is the length of the first column and
every column is read at every index below it.  `none` is a read past the end of a vector. -/
def fill (d : Table K) : Option (ℕ × (Fin 11 → ℕ → Option K)) :=
  if ∀ c, (d 0).length ≤ (d c).length then some ((d 0).length, fun c i => (d c)[i]?) else none

/-- reading the file and filling the data boxes.
(progenitordata.cpp:15-72.) -/
def load (ls : List (Line K)) : Option (ℕ × (Fin 11 → ℕ → Option K)) := (readtable ls fun _ => []).bind fill

end Reader

section Mass
variable {K : Type*} [Field K]

/-- One pass of the loop of `calculatemass`, ascii_reader.cpp:35-40; `none` is a read past the end of a vector. -/
def massPass (d : Table K) (i : ℕ) (m : K) : Option K := do
  let a ← (d 1)[i + 1]?
  let b ← (d 0)[i + 1]?
  let c ← (d 1)[i]?
  let e ← (d 0)[i]?
  return m + 4 * 3.14 * (a * b ^ 2 + c * e ^ 2) / 2 * (b - e)

/-- `n` passes from index `i` on.
(ascii_reader.cpp:35-40.) -/
def massLoop (d : Table K) : ℕ → ℕ → K → Option K
  | 0, _, m => some m
  | n + 1, i, m => (massPass d i m).bind (massLoop d n (i + 1))

/-- `calculatemass`, ascii_reader.cpp:33-42.  The loop bound `i <= size() - 1` gives `size` passes; for an empty table `size() - 1` wraps to the largest
unsigned number, of which the first pass is enough here. -/
def calculatemass (d : Table K) : Option K :=
  massLoop d (if (d 0).length = 0 then 1 else (d 0).length) 0 0

end Mass

section Lookup
variable {K : Type*} [Field K] [LinearOrder K] [IsStrictOrderedRing K] [FloorRing K]

/-- Spacing of the data box after `setRange(0, r(0), r(npoints - 1), npoints)`, progenitordata.cpp:62-72. -/
def spacing (n : ℕ) (r : ℕ → K) : K := (r (n - 1) - r 0) / ((n : K) - 1)

/-- Index of the cell that contains `x`, kept in `0 .. n-2`.
(Contract of Spiner's `RegularGrid1D::index`.) -/
def cellIndex (n : ℕ) (r : ℕ → K) (x : K) : ℕ := min ⌊(x - r 0) / spacing n r⌋.toNat (n - 2)

/-- `interpToReal(x)` of the data box holding `y` (progenitordata.cpp:30-41, 62-72). -/
def lookup (n : ℕ) (r y : ℕ → K) (x : K) : K :=
  let h := spacing n r
  let i := cellIndex n r x
  let w := (x - (r 0 + i * h)) / h
  (1 - w) * y i + w * y (i + 1)

end Lookup

/-! ## The problem generator -/

/-- `GetLorentzFactor(vcon, Gammacov)` and `v *= Gamma`, pgen/progenitor.cpp:158-162. -/
noncomputable def homStore (gam : Fin 3 → Fin 3 → ℝ) (v : Fin 3 → ℝ) : Fin 3 → ℝ := fun d => v d * Rel.lorentz gam v

/-- The three-velocity before that, pgen/progenitor.cpp:141-148: radial in the spherical coordinates, transformed with `s2c` in the Cartesian ones. -/
noncomputable def homVel (cart : Bool) (small eps : ℝ) (X : Fin 3 → ℝ) (vr : ℝ) : Fin 3 → ℝ :=
  if cart then fun i => ∑ j, (Transform.sph2cart small eps X).Jcon i j * (![vr, 0, 0] : Fin 3 → ℝ) j else ![vr, 0, 0]

/-- The radius at which the profiles are looked up, pgen/progenitor.cpp:114-125. -/
noncomputable def homRadius (cart : Bool) (X : Fin 3 → ℝ) : ℝ :=
  if cart then Real.sqrt (X 0 * X 0 + X 1 * X 1 + X 2 * X 2) else |X 0|

end Phoebus.Progenitor
