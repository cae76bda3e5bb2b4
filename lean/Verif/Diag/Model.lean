import Verif.Common
import Verif.Robust.Model

/-!
# Model of two diagnostics: the geometry self-check and the inversion statistics

`/repo/src/pgen/check_cached_geom.cpp` compares the cached geometry with the analytic one and prints the largest error found.
`/repo/src/fluid/con2prim_statistics.hpp` keeps a histogram of the iteration counts of the inversion and writes it to a file.
-/
namespace Phoebus.Diag
variable {K : Type*} [Field K] [LinearOrder K]

/-- `RelErr`, check_cached_geom.cpp:36-39. -/
def relErr (small a b : K) : K := min (2 * Robust.ratio small |a - b| (a + b)) |a - b|

/-- `le = std::max(le, diff)` over all compared pairs and the `Kokkos::Max` reduction over all cells, check_cached_geom.cpp:55-80 and 82-184.
`none` is the identity of the reduction (minus infinity). -/
def accum (small : K) : Option K → K × K → Option K
  | none, p => some (relErr small p.1 p.2)
  | some x, p => some (max x (relErr small p.1 p.2))

/-- the printed number: see `accum`.
(check_cached_geom.cpp:80 and 184.) -/
def report (small : K) (pairs : List (K × K)) : Option K := pairs.foldl (accum small) none

/-- exit status of a run of this problem, check_cached_geom.cpp:186: `std::exit(1)` whatever was found. -/
def exitStatus (_ : Option K) : ℕ := 1

/-- `Stats::hist` and `Stats::max_val`, con2prim_statistics.hpp:24-25; a key that is not in the map has no value. -/
structure Stats where
  hist : ℤ → Option ℕ
  maxVal : ℤ

/-- initial values, con2prim_statistics.cpp:18-19. -/
def Stats.init : Stats := ⟨fun _ => none, -1⟩

/-- `Stats::add`, con2prim_statistics.hpp:26-33. -/
def Stats.add (s : Stats) (val : ℤ) : Stats :=
  { hist := fun k => if k = val then (match s.hist val with
      | none => some 1
      | some n => some (n + 1)) else s.hist k
    maxVal := if val > s.maxVal then val else s.maxVal }

/-- `Stats::report`, con2prim_statistics.hpp:34-41: the lines `i cnt` for `i = 0 .. max_val`. -/
def Stats.lines (s : Stats) : List (ℤ × ℕ) :=
  (List.range (s.maxVal + 1).toNat).map fun i : ℕ => ((i : ℤ), (s.hist (i : ℤ)).getD 0)

/-- the file after a whole run in which the inversions needed `vals` iterations (con2prim_robust.hpp:377-379, main.cpp:81-83). -/
def statsFile (vals : List ℤ) : List (ℤ × ℕ) := (vals.foldl Stats.add Stats.init).lines

/-- with several ranks every process writes the same file `c2p_stats.txt` (con2prim_statistics.hpp:35): what remains is the file of the rank
that wrote last. -/
def statsFileRanks (ranks : List (List ℤ)) : Option (List (ℤ × ℕ)) := (ranks.map statsFile).getLast?

end Phoebus.Diag
