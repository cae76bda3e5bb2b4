import Verif.Common
import Mathlib.Logic.Relation
import Mathlib.Data.List.Nodup
import Mathlib.Data.List.Perm.Basic

/-!
# Task graphs

The driver `/repo/src/phoebus_driver.cpp` builds, for every stage of every step, a sequence of *task regions*; a region has one
task list per mesh block or per partition, and Parthenon is free to run the tasks of a region in any order compatible with the
declared dependencies.  Parthenon's scheduler is not part of the repository (`/repo/external/parthenon` is empty), so its contract is
an assumption of the model, stated here once:

* regions are executed one after the other (a region ends when all its tasks are complete);
* a task starts only after all tasks it depends on are complete;
* a task added with `TaskQualifier::local_sync` releases its dependents only once the copies of it in *all* lists are complete;
* a task added with `TaskQualifier::once_per_region` is executed in the first list only;
* two tasks that are not ordered by dependencies may run in either order.  (Interleaving inside a task is not modelled: the result
  of the model is what the tasks do one at a time.)
-/
namespace Phoebus.Tasks

/-- what a task may touch: resources it reads, resources it overwrites, resources it accumulates into (`+=`, atomic adds).
(Scheduling model: the meaning of Parthenon's `TaskCollection` (contract), no code of the repository.) -/
structure Foot (ρ : Type*) where
  reads : Set ρ
  writes : Set ρ
  adds : Set ρ

/-- two footprints collide when the order of the two tasks can matter: one overwrites what the other touches, or accumulates into what
the other reads.  Two accumulations do not collide.
(Scheduling model: the meaning of Parthenon's `TaskCollection` (contract), no code of the repository.) -/
def Foot.Collide {ρ : Type*} (f g : Foot ρ) : Prop :=
  ∃ r, (r ∈ f.writes ∧ (r ∈ g.reads ∨ r ∈ g.writes ∨ r ∈ g.adds)) ∨ (r ∈ g.writes ∧ (r ∈ f.reads ∨ r ∈ f.writes ∨ r ∈ f.adds)) ∨
    (r ∈ f.adds ∧ r ∈ g.reads) ∨ (r ∈ g.adds ∧ r ∈ f.reads)

/-- a task body with footprint `f`: an arbitrary state transformer which changes nothing outside its writes and adds, whose written
values depend only on what it reads, and whose increments depend only on what it reads.
(Scheduling model: the meaning of Parthenon's `TaskCollection` (contract), no code of the repository.) -/
structure Body {ρ V : Type*} [AddCommMonoid V] (f : Foot ρ) where
  act : (ρ → V) → (ρ → V)
  frame : ∀ s r, r ∉ f.writes → r ∉ f.adds → act s r = s r
  written : ∀ s s', (∀ r ∈ f.reads, s r = s' r) → ∀ r ∈ f.writes, act s r = act s' r
  added : ∀ r ∈ f.adds, r ∉ f.writes → ∃ inc : (ρ → V) → V, (∀ s, act s r = s r + inc s) ∧
    ∀ s s', (∀ r ∈ f.reads, s r = s' r) → inc s = inc s'

/-- executing tasks one after the other.
(Scheduling model: the meaning of Parthenon's `TaskCollection` (contract), no code of the repository.) -/
def run {ι S : Type*} (act : ι → S → S) (l : List ι) (s : S) : S := l.foldl (fun s i => act i s) s

/-- a schedule: every task exactly once, and each after the tasks it waits for (`dep a b`: `b` waits for `a`).
(Scheduling model: the meaning of Parthenon's `TaskCollection` (contract), no code of the repository.) -/
structure Schedule {ι : Type*} [DecidableEq ι] (dep : ι → ι → Prop) (l : List ι) : Prop where
  nodup : l.Nodup
  all : ∀ i, i ∈ l
  order : ∀ a b, dep a b → l.idxOf a < l.idxOf b

/-- colliding tasks are ordered by the declared dependencies.
(Scheduling model: the meaning of Parthenon's `TaskCollection` (contract), no code of the repository.) -/
def RaceFree {ι ρ : Type*} (dep : ι → ι → Prop) (foot : ι → Foot ρ) : Prop :=
  ∀ a b, a ≠ b → (foot a).Collide (foot b) → Relation.TransGen dep a b ∨ Relation.TransGen dep b a

/-! ### Regions -/

/-- a task region: the same tasks `τ` in every list, over resources `ρ`.  `Bool` arguments say whether the list is the first one:
`(ib == 0 ? tl.AddTask(..) : none)` gives the first list more tasks, and `once_per_region` tasks do their work there only.
`comm a` marks a task whose dependents wait for its copies in all lists: `local_sync`, or a message send whose receive is the dependent.
(Scheduling model: the meaning of Parthenon's `TaskCollection` (contract), no code of the repository.) -/
structure Region (τ ρ : Type) where
  tasks : List τ
  deps : Bool → τ → List τ
  sync : τ → Bool
  reads : Bool → τ → List ρ
  writes : Bool → τ → List ρ
  adds : Bool → τ → List ρ
  /-- resources of the whole mesh (package parameters, reducers); the others are per list -/
  shared : ρ → Bool

variable {τ ρ : Type}

/-- task `a` of list `p`, out of `n + 1` lists.
(Scheduling model: the meaning of Parthenon's `TaskCollection` (contract), no code of the repository.) -/
abbrev Inst (τ : Type) (n : ℕ) := Fin (n + 1) × τ

/-- resource instance: shared (`none`) or owned by a list.
(Scheduling model: the meaning of Parthenon's `TaskCollection` (contract), no code of the repository.) -/
def Region.at' (R : Region τ ρ) {n : ℕ} (p : Fin (n + 1)) (r : ρ) : ρ × Option (Fin (n + 1)) := (r, if R.shared r then none else some p)

/-- the dependencies of the instances.
(Scheduling model: the meaning of Parthenon's `TaskCollection` (contract), no code of the repository.) -/
def Region.dep (R : Region τ ρ) (n : ℕ) (x y : Inst τ n) : Prop := x.2 ∈ R.deps (y.1 == 0) y.2 ∧ (x.1 = y.1 ∨ R.sync x.2 = true)

/-- the footprints of the instances.
(Scheduling model: the meaning of Parthenon's `TaskCollection` (contract), no code of the repository.) -/
def Region.foot (R : Region τ ρ) (n : ℕ) (x : Inst τ n) : Foot (ρ × Option (Fin (n + 1))) where
  reads := {y | ∃ r ∈ R.reads (x.1 == 0) x.2, y = R.at' x.1 r}
  writes := {y | ∃ r ∈ R.writes (x.1 == 0) x.2, y = R.at' x.1 r}
  adds := {y | ∃ r ∈ R.adds (x.1 == 0) x.2, y = R.at' x.1 r}

/-- the region is deterministic: whatever the bodies of the tasks do within their footprints, for every number of lists every schedule
ends in the same state.
(Scheduling model: the meaning of Parthenon's `TaskCollection` (contract), no code of the repository.) -/
def Region.Deterministic [DecidableEq τ] (R : Region τ ρ) : Prop :=
  ∀ (V : Type) [AddCommMonoid V] (n : ℕ) (body : ∀ x : Inst τ n, Body (V := V) (R.foot n x)) (s : ρ × Option (Fin (n + 1)) → V)
    (l l' : List (Inst τ n)), Schedule (R.dep n) l → Schedule (R.dep n) l' →
    run (fun x => (body x).act) l s = run (fun x => (body x).act) l' s

/-! ### A decision procedure (used in proofs only) -/

/-- do the footprints of `a` (in a list that is first iff `f`) and `b` collide, counting only resources kept by `keep`?
(Scheduling model: the meaning of Parthenon's `TaskCollection` (contract), no code of the repository.) -/
def Region.hits [DecidableEq ρ] (R : Region τ ρ) (keep : ρ → Bool) (f : Bool) (a : τ) (g : Bool) (b : τ) : Bool :=
  let one (f : Bool) (a : τ) (g : Bool) (b : τ) : Bool :=
    (R.writes f a).any (fun r => keep r && ((R.reads g b).contains r || (R.writes g b).contains r || (R.adds g b).contains r)) ||
    (R.adds f a).any (fun r => keep r && (R.reads g b).contains r)
  one f a g b || one g b f a

/-- one backward step over the abstract graph with `k` lists.
(Scheduling model: the meaning of Parthenon's `TaskCollection` (contract), no code of the repository.) -/
def Region.back [DecidableEq τ] (R : Region τ ρ) (k : ℕ) (xs : List (Fin k × τ)) : List (Fin k × τ) :=
  (xs ++ xs.flatMap fun y => (R.deps (y.1.val == 0) y.2).flatMap fun a =>
    if R.sync a then (List.finRange k).map (fun p => (p, a)) else [(y.1, a)]).eraseDups

/-- does `b` transitively wait for `a` in the graph with `k` lists?
(Scheduling model: the meaning of Parthenon's `TaskCollection` (contract), no code of the repository.) -/
def Region.waits [DecidableEq τ] (R : Region τ ρ) (k fuel : ℕ) (a b : Fin k × τ) : Bool :=
  ((R.deps (b.1.val == 0) b.2).any fun c => (if R.sync c then (List.finRange k).map (fun p => (p, c)) else [(b.1, c)]).any fun c' =>
    (Nat.iterate (R.back k) fuel [c']).contains a)

/-- the finite check: colliding pairs are ordered, inside the first list, and among any three lists the first of which is list 0.
(Scheduling model: the meaning of Parthenon's `TaskCollection` (contract), no code of the repository.) -/
def Region.check [DecidableEq τ] [DecidableEq ρ] (R : Region τ ρ) (fuel : ℕ) : Bool :=
  (R.tasks.all fun a => R.tasks.all fun b =>
    (a == b || !R.hits (fun _ => true) true a true b || R.waits 1 fuel (0, a) (0, b) || R.waits 1 fuel (0, b) (0, a)) &&
    (a == b || !R.hits (fun _ => true) false a false b || R.waits 3 fuel (1, a) (1, b) || R.waits 3 fuel (1, b) (1, a)) &&
    (!R.hits R.shared true a false b || R.waits 3 fuel (0, a) (1, b) || R.waits 3 fuel (1, b) (0, a)) &&
    (!R.hits R.shared false a false b || R.waits 3 fuel (1, a) (2, b) || R.waits 3 fuel (2, b) (1, a)))

end Phoebus.Tasks
