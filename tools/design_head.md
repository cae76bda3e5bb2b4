# Formal model of lanl/phoebus in Lean 4: design

## Layout

* `lean/Verif/<Topic>/Model.lean` – the model: one Lean definition per C++ function (or loop body),
  each with a comment citing file and lines in `/repo`.
* `lean/Verif/<Topic>/Spec.lean` (where one is needed) – small, independent specification
  (what "root", "divergence", "inverse matrix", "average of the valid neighbours" mean).
* `lean/Verif/<Topic>/Lemmas.lean` – helper lemmas.
* `lean/Verif/<Topic>/Props.lean` – the property theorems, and beside each a non-vacuity `example`.
* `properties.jsonl`, `MANIFEST.json`, `seeded/LOG.jsonl` – property list, claim status, mutation log.

## Modelling decisions

* **Numbers.** `Real` (C++ `double`) is modelled by an arbitrary linearly ordered field `K`
  (so the theorems hold in ℝ, and the model is executable at ℚ) or, where `sqrt`, `sin`, `exp`, limits
  or the intermediate value theorem occur, by ℝ. Rounding, overflow, NaN/Inf and signed zero are *not*
  modelled, except where a definition says so (an explicit `Option`/`NaN` constructor). Every
  theorem is a statement about exact arithmetic.
* **Undefined or failing behaviour.** Division by zero in Lean is 0; theorems that go through a
  division carry the nonzero hypothesis explicitly, and the error branch is stated separately where the
  code has one. Out-of-range reads, reads of uninitialised locals, `PARTHENON_FAIL/REQUIRE`
  are distinct outcomes (`Option.none` / an explicit constructor).
* **`robust::ratio(a,b)`** `= a/(b + sgn(b)*SMALL)`: modelled with `SMALL` a positive parameter in
  `Robust`; in geometry code, where |b| ≥ 1e-290 makes `b + SMALL` round to `b`, modelled as `a/b`
  and said so at each definition.
* **Parallel loops** (`par_for`): the model is a function of the cell index reading the pre-loop state, or a
  fold over an arbitrary visiting order when the property is about order independence.
* **Parthenon, Kokkos, Spiner, singularity-eos/-opac, HDF5, MPI** are outside the model. Where a property
  needs one of their operations (flux-divergence update, EOS call) it is a parameter whose
  assumed behaviour is stated as a hypothesis, listed in the trusted base below.

## Trusted base

* Lean 4.33.0 kernel; Mathlib as installed. Axioms: at most `propext`, `Classical.choice`, `Quot.sound`
  for every theorem listed in `MANIFEST.json` (checked with `#print axioms`; no axioms are added).
* The reading of the C++ source: the model is tied to the code only by the citations.
* Exact arithmetic in place of IEEE doubles.
* Parthenon's `FluxDivergence`, `AverageIndependentData`, `UpdateIndependentData` do what their names say
  (used in C18, C19, C29).

