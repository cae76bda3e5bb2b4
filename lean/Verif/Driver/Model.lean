import Verif.Common

/-!
# Model of `PhoebusDriver` (src/phoebus_driver.cpp)

Parthenon itself (task execution, `LowStorageIntegrator` coefficients, the outer evolution loop) is not in the
repository.  Modelled as parameters: the status each stage's `tc.Execute()` returns, the time step proposed by the outer
loop before each `Step`, and the integrator coefficients `beta`.  The outer loop adds `tm.dt` to `tm.time` after a step.
-/
namespace Phoebus.Driver
variable {K : Type} [Field K] [LinearOrder K]

/-! ### `Step` status -/

/-- `TaskListStatus`.
(Parthenon type returned at phoebus_driver.cpp:121-145.) -/
inductive Status where
  | complete | fail
deriving DecidableEq

/-- The stage loop of `Step`, phoebus_driver.cpp:134-138: returns the last status and how many stages ran. -/
def stageLoop : List Status → Option Status × ℕ
  | [] => (none, 0)
  | .complete :: r => match stageLoop r with
    | (none, n) => (some .complete, n + 1)
    | (some s, n) => (some s, n + 1)
  | .fail :: _ => (some .fail, 1)

/-- `RadiationPostStep`, phoebus_driver.cpp:751-755, 795-799: `complete` at once when radiation is inactive, otherwise the status
of its own task collection. -/
def radiationPostStep (radActive : Bool) (own : Status) : Status :=
  if !radActive then .complete else own

/-- `Step`, phoebus_driver.cpp:134-142: the status of the stages is overwritten. -/
def stepStatus (stages : List Status) (radActive : Bool) (rad : Status) : Status :=
  let _ := (stageLoop stages).1
  radiationPostStep radActive rad

/-! ### Time step selection -/

/-- Persistent driver state used by `Step`.
(phoebus_driver.cpp:121-145.) -/
structure DtState (K : Type) where
  time : K
  fact : K

/-- The step size chosen by `Step`, phoebus_driver.cpp:124-132.  `first_call` is a function-local static that nothing
ever sets to false, so the `dt_init` cap is applied on every call. -/
def chooseDt (dtInit tlim : K) (restart : Bool) (s : DtState K) (dt : K) : K :=
  let d0 := min dt dtInit
  let d1 := if !restart then d0 * s.fact else d0
  if s.time + d1 > tlim then tlim - s.time else d1

/-- One call of `Step` followed by the outer loop's `time += dt`.
(phoebus_driver.cpp:121-145.) -/
def dtStep (dtInit tlim : K) (restart : Bool) (s : DtState K) (dt : K) : DtState K :=
  { time := s.time + chooseDt dtInit tlim restart s dt, fact := if !restart then 1 else s.fact }

/-- A run with the proposed steps `dts`.
(Helper or data type of the model.) -/
def dtRun (dtInit tlim : K) (restart : Bool) (s : DtState K) (dts : List K) : DtState K :=
  dts.foldl (dtStep dtInit tlim restart) s

/-! ### Runge-Kutta stages -/

/-- One stage for one variable, phoebus_driver.cpp:572-576; `rhs` is evaluated on the previous stage. -/
def rkStage (beta dt : K) (base cur rhs : K) : K := beta * cur + (1 - beta) * base + beta * dt * rhs

/-- All stages of one step.
(phoebus_driver.cpp:126-138.) -/
def rkStep (betas : List K) (dt : K) (f : K → K) (base : K) : K :=
  betas.foldl (fun cur b => rkStage b dt base cur (f cur)) base

/-- `tstage`, the time handed to time dependent geometries, phoebus_driver.cpp:278 (stages counted from 1). -/
def stageTime (betas : List K) (time dt : K) (stage : ℕ) : K :=
  time + (if stage > 1 then betas.getD (stage - 2) 0 else 0) * dt

/-! ### The update task list `sync_region_3`, phoebus_driver.cpp:546-577 -/

/-- Tasks of one partition that touch `mc0`, `dUdt`, `mc1`.
(phoebus_driver.cpp:560-576.) -/
inductive Task where
  | fluxDiv | addRhs | avg | update
deriving DecidableEq

/-- Dependencies as given to `AddTask`, lines 560-576.
(phoebus_driver.cpp:560-576.) -/
def deps : Task → List Task
  | .fluxDiv => []
  | .addRhs => [.fluxDiv]
  | .avg => [.fluxDiv]
  | .update => [.avg]

/-- Value of one variable in one cell in the containers.
(Helper or data type of the model.) -/
structure Regs (K : Type) where
  mc0 : K
  dudt : K
  mc1 : K

/-- Effect of each task: `FluxDivergence`, `SumData` (only variables in `src_names`), `AverageIndependentData`,
`UpdateIndependentData`.
(phoebus_driver.cpp:560-576; contracts of Parthenon's update functions.) -/
def exec (beta dt base div src : K) (t : Task) (r : Regs K) : Regs K :=
  match t with
  | .fluxDiv => { r with dudt := div }
  | .addRhs => { r with dudt := r.dudt + src }
  | .avg => { r with mc0 := beta * r.mc0 + (1 - beta) * base }
  | .update => { r with mc1 := r.mc0 + beta * dt * r.dudt }

/-- Execution of a schedule.
(Helper or data type of the model.) -/
def execAll (beta dt base div src : K) (sched : List Task) (r : Regs K) : Regs K :=
  sched.foldl (fun r t => exec beta dt base div src t r) r

/-! ### Monopole cadence -/

/-- `monopole_gr_active` and the update of `nth_call` in one stage, phoebus_driver.cpp:233-248. -/
def monopoleStage (enabled forceStatic : Bool) (runN : ℤ) (nth : ℤ) : Bool × ℤ :=
  let active := enabled && (decide (runN < 0) || decide (nth ≤ runN)) && !forceStatic
  (active, if active then nth + 1 else nth)

/-- Number of stages among `n` in which the monopole solver runs, starting from `nth_call = nth`.
(phoebus_driver.cpp:235-246.) -/
def monopoleRuns (enabled forceStatic : Bool) (runN : ℤ) : ℤ → ℕ → ℕ
  | _, 0 => 0
  | nth, n + 1 =>
    let r := monopoleStage enabled forceStatic runN nth
    (if r.1 then 1 else 0) + monopoleRuns enabled forceStatic runN r.2 n

end Phoebus.Driver
