import Verif.Tasks.Race

/-!
# The task regions of the driver

Every definition gives the tasks, dependencies and footprints of one region of `PhoebusDriver::RungeKuttaStage`, `RadiationPostStep` or
`MonteCarloStep` of `/repo/src/phoebus_driver.cpp`.  Containers: only conserved variables (and their fluxes) are `Independent`; primitive and
derived variables are `OneCopy`, i.e. shared by all stages.  Resources are groups of variables of one list (block or partition) unless
declared `shared`.  Configuration flags are arguments.
-/
namespace Phoebus.Tasks

/-! ### `sync_region_1` and the flux region `async_region_1` -/

/-- tasks of lines 316-366. -/
inductive FluxTask | startBound | startFlux | hydroSrc | hydroFlux | fluxCT | momentRecon | opac | momentFlux | momentSrc | fixFlux
  deriving DecidableEq
/-- variable groups touched by them. -/
inductive FluxRes | boundBuf | fluxBuf | prim | radPrim | radCons | recon | radRecon | opacity | fluxFluid | fluxRad | faceSpeed | emf | gsrcFluid | gsrcRad
  deriving DecidableEq

open FluxTask FluxRes in
/-- `sync_region_1`, phoebus_driver.cpp:304-326: three independent tasks.  (The tasks of the second list are absent.) -/
def syncRegion1 (fluid : Bool) : Region FluxTask FluxRes where
  tasks := [startBound, startFlux, hydroSrc, hydroFlux, fluxCT, momentRecon, opac, momentFlux, momentSrc, fixFlux]
  deps _ _ := []
  sync _ := false
  reads _ | hydroSrc => if fluid then [prim] else [] | _ => []
  writes _ | startBound => [boundBuf] | startFlux => [fluxBuf] | hydroSrc => if fluid then [gsrcFluid] else [] | _ => []
  adds _ _ := []
  shared _ := false

open FluxTask FluxRes in
/-- `async_region_1`, phoebus_driver.cpp:330-368: fluxes and radiation sources of one block. -/
def asyncRegion1 (fluid rad : Bool) : Region FluxTask FluxRes where
  tasks := [startBound, startFlux, hydroSrc, hydroFlux, fluxCT, momentRecon, opac, momentFlux, momentSrc, fixFlux]
  deps _
    | fluxCT => if fluid then [hydroFlux] else []
    | opac => if rad then [momentRecon] else []
    | momentFlux => if rad then [opac] else []
    | fixFlux => (if fluid then [fluxCT] else []) ++ (if rad then [momentFlux] else [])
    | _ => []
  sync _ := false
  reads _
    | hydroFlux => if fluid then [prim] else []
    | fluxCT => if fluid then [fluxFluid] else []
    | momentRecon => if rad then [radPrim, prim] else []
    | opac => if rad then [prim, radPrim] else []
    | momentFlux => if rad then [radRecon, opacity, prim] else []
    | momentSrc => if rad then [radCons, radPrim, prim] else []
    | fixFlux => (if fluid then [fluxFluid] else []) ++ (if rad then [fluxRad] else [])
    | _ => []
  writes _
    | hydroFlux => if fluid then [recon, fluxFluid, faceSpeed] else []
    | fluxCT => if fluid then [emf, fluxFluid] else []
    | momentRecon => if rad then [radRecon] else []
    | opac => if rad then [opacity] else []
    | momentFlux => if rad then [fluxRad] else []
    | momentSrc => if rad then [gsrcRad] else []
    | fixFlux => (if fluid then [fluxFluid] else []) ++ (if rad then [fluxRad] else [])
    | _ => []
  adds _ _ := []
  shared _ := false

/-! ### MOCMC transport -/

/-- tasks of lines 378-391. -/
inductive SampleTask | resetComms | transport | send | receive | bounds | recon | eddington
  deriving DecidableEq
/-- the samples of a partition, their communication state, messages in flight, fluid and moments, Eddington tensor. -/
inductive SampleRes | samples | comms | messages | fluidState | radState | tilPi
  deriving DecidableEq

open SampleTask SampleRes in
/-- `sync_region_mocmc`, phoebus_driver.cpp:371-396.  `fix`: the boundary treatment waits for the received samples. -/
def mocmcRegion (fix : Bool) : Region SampleTask SampleRes where
  tasks := [resetComms, transport, send, receive, bounds, recon, eddington]
  deps _
    | transport => [resetComms] | send => [transport] | receive => [transport, send]
    | bounds => if fix then [receive] else [] | recon => [bounds] | eddington => [recon] | resetComms => []
  sync t := t == send
  reads _
    | resetComms => [] | transport => [samples] | send => [samples, comms] | receive => [samples, messages]
    | bounds => [samples, radState] | recon => [samples, fluidState] | eddington => [samples, fluidState]
  writes _
    | resetComms => [comms] | transport => [samples] | send => [samples] | receive => [samples]
    | bounds => [samples] | recon => [samples, radState] | eddington => [tilPi]
  adds _ | send => [messages] | _ => []
  shared r := r == messages

/-! ### Net magnetic flux control -/

/-- tasks of lines 423-463. -/
inductive NetTask | sum1 | start1 | finish1 | trial | sum2 | start2 | finish2 | undo | setScale | update
  deriving DecidableEq
/-- field of the partition; controller parameters of the package; the two reducers. -/
inductive NetRes | field | params | totals1 | totals2
  deriving DecidableEq

open NetTask NetRes in
/-- `sync_region_5`, phoebus_driver.cpp:399-464.  `tune`: a stage in which the controller is retuned (all the tasks test that from
`params`).  `fix`: `setScale` runs once, after all lists have removed the trial field, and releases all lists. -/
def netFieldRegion (tune fix : Bool) : Region NetTask NetRes where
  tasks := [sum1, start1, finish1, trial, sum2, start2, finish2, undo, setScale, update]
  deps first
    | sum1 => [] | start1 => if first then [sum1] else [] | finish1 => if first then [start1] else []
    | trial => [finish1] | sum2 => [trial] | start2 => if first then [sum2] else [] | finish2 => if first then [start2] else []
    | undo => [finish2] | setScale => [undo] | update => [setScale]
  sync t := t == sum1 || t == finish1 || t == sum2 || t == finish2 || (fix && (t == undo || t == setScale))
  reads first
    | sum1 => if tune then [params, field] else [params]
    | start1 => if first then (if tune then [params, totals1] else [params]) else []
    | finish1 => if first then (if tune then [params, totals1] else [params]) else []
    | trial => if tune then [params, field] else [params]
    | sum2 => if tune then [params, field] else [params]
    | start2 => if first then (if tune then [params, totals2] else [params]) else []
    | finish2 => if first then (if tune then [params, totals2] else [params]) else []
    | undo => if tune then [params, field] else [params]
    | setScale => if fix && !first then [] else if tune then [params, totals1, totals2] else [params]
    | update => [params, field]
  writes first
    | start1 => if first && tune then [totals1] else []
    | finish1 => if first && tune then [totals1] else []
    | trial => if tune then [field] else []
    | start2 => if first && tune then [totals2] else []
    | finish2 => if first && tune then [totals2] else []
    | undo => if tune then [field] else []
    | setScale => if fix && !first then [] else if tune then [params] else []
    | update => [field]
    | _ => []
  adds _ | sum1 => if tune then [totals1] else [] | sum2 => if tune then [totals2] else [] | _ => []
  shared r := r != field

/-! ### Monopole gravity -/

/-- tasks of lines 498-541. -/
inductive MonoTask | zero | interp | toHost | startMat | startVol | finMat | finVol | divide | hyper | lapse | toDevice | checkDt
  deriving DecidableEq
/-- fluid of the partition; shell matter and volumes on device; on host; spacetime. -/
inductive MonoRes | fluidState | matter | volume | matterHost | volumeHost | hypersurface | alpha | spacetime | rate
  deriving DecidableEq

open MonoTask MonoRes in
/-- `sync_region_2`, phoebus_driver.cpp:480-544 with `InterpolateMatterTo1D` of interp_3d_to_1d.hpp:65-167, which *zeroes* the shell arrays
(lines 89-97) before accumulating.  `fix`: the zeroing is a separate task done once before any accumulation. -/
def monopoleRegion (fix : Bool) : Region MonoTask MonoRes where
  tasks := [zero, interp, toHost, startMat, startVol, finMat, finVol, divide, hyper, lapse, toDevice, checkDt]
  deps first
    | zero => [] | interp => if fix then [zero] else []
    | toHost => if first then [interp] else [] | startMat => if first then [toHost] else [] | startVol => if first then [toHost] else []
    | finMat => if first then [startMat] else [] | finVol => if first then [startVol] else []
    | divide => if first then [finMat, finVol] else [] | hyper => if first then [divide] else []
    | lapse => if first then [hyper] else [] | toDevice => if first then [lapse] else [] | checkDt => if first then [toDevice] else []
  sync t := t == interp || t == finMat || t == finVol || (fix && t == zero)
  reads first
    | zero => [] | interp => [fluidState]
    | toHost => if first then [matter, volume] else []
    | startMat => if first then [matterHost] else [] | startVol => if first then [volumeHost] else []
    | finMat => if first then [matterHost] else [] | finVol => if first then [volumeHost] else []
    | divide => if first then [matterHost, volumeHost] else [] | hyper => if first then [matterHost] else []
    | lapse => if first then [matterHost, hypersurface] else [] | toDevice => if first then [matterHost, hypersurface, alpha] else []
    | checkDt => if first then [spacetime] else []
  writes first
    | zero => if fix && first then [matter, volume] else []
    | interp => if fix then [] else [matter, volume]
    | toHost => if first then [matterHost, volumeHost] else []
    | startMat => if first then [matterHost] else [] | startVol => if first then [volumeHost] else []
    | finMat => if first then [matterHost] else [] | finVol => if first then [volumeHost] else []
    | divide => if first then [matterHost] else [] | hyper => if first then [hypersurface] else []
    | lapse => if first then [alpha] else [] | toDevice => if first then [spacetime] else []
    | checkDt => if first then [rate] else []
  adds _ | interp => if fix then [matter, volume] else [] | _ => []
  shared r := r != fluidState

/-! ### The update -/

/-- tasks of lines 556-576. -/
inductive UpdTask | sendFlux | recvFlux | setFlux | fluxDiv | copyDiv | addRhs | avg | update
  deriving DecidableEq
/-- fluxes on faces shared with coarser blocks, on faces shared with finer blocks, elsewhere; messages; conserved variables of the three
containers; the rest. -/
inductive UpdRes | fluxCoarse | fluxFine | fluxIn | messages | received | cons (c : Fin 3) | dudt | gsrc | diag
  deriving DecidableEq

/-- the containers of stage `stage` out of `nstages`: `stage_name[0] = stage_name[nstages] = "base"` (container 0), the others are distinct. -/
inductive StagePos | single | first | middle | last
  deriving DecidableEq
/-- container of `stage_name[stage - 1]`. -/
def StagePos.c0 : StagePos → Fin 3 | .single => 0 | .first => 0 | .middle => 1 | .last => 1
/-- container of `stage_name[stage]`. -/
def StagePos.c1 : StagePos → Fin 3 | .single => 0 | .first => 2 | .middle => 2 | .last => 0

open UpdTask UpdRes in
/-- `sync_region_3`, phoebus_driver.cpp:547-577.  Receiving waits for the messages of all lists.  `diags`: `SET_FLUX_SRC_DIAGS`.
`fix`: `update` also waits for `addRhs`, `addRhs` for `copyDiv`. -/
def updateRegion (pos : StagePos) (diags fix : Bool) : Region UpdTask UpdRes where
  tasks := [sendFlux, recvFlux, setFlux, fluxDiv, copyDiv, addRhs, avg, update]
  deps _
    | sendFlux => [] | recvFlux => [sendFlux] | setFlux => [recvFlux] | fluxDiv => [setFlux]
    | copyDiv => [fluxDiv] | addRhs => if fix then [fluxDiv, copyDiv] else [fluxDiv]
    | avg => [fluxDiv] | update => if fix then [avg, addRhs] else [avg]
  sync t := t == sendFlux
  reads _
    | sendFlux => [fluxCoarse] | recvFlux => [messages] | setFlux => [received] | fluxDiv => [fluxCoarse, fluxFine, fluxIn]
    | copyDiv => if diags then [dudt] else [] | addRhs => [dudt, gsrc]
    | avg => [cons pos.c0, cons 0] | update => [cons pos.c0, dudt]
  writes _
    | sendFlux => [] | recvFlux => [received] | setFlux => [fluxFine] | fluxDiv => [dudt]
    | copyDiv => if diags then [diag] else [] | addRhs => [dudt] | avg => [cons pos.c0] | update => [cons pos.c1]
  adds _ | sendFlux => [messages] | _ => []
  shared r := r == messages

/-! ### Repair, and the end of the stage -/

/-- tasks of lines 589-619 and 663-732. -/
inductive EndTask | setBC | convertBC | fill | fixup | radFixup | floors | source | eddington | floors2 | updateGeom | newDt | divb | tag
  deriving DecidableEq
/-- conserved and primitive variables of the list, samples, geometry cache, block time step, diagnostics, refinement flag. -/
inductive EndRes | state | samples | geom | dt | divbDiag | refine
  deriving DecidableEq

open EndTask EndRes in
/-- `sync_region_fixup`, phoebus_driver.cpp:580-621. -/
def fixupRegion (mocmc moments : Bool) : Region EndTask EndRes where
  tasks := [setBC, convertBC, fill, fixup, radFixup, floors, source, eddington, floors2, updateGeom, newDt, divb, tag]
  deps _
    | fixup => [fill] | radFixup => [fixup] | floors => [radFixup]
    | source => if mocmc || moments then [floors] else []
    | eddington => if mocmc then [source] else []
    | floors2 => if moments then (if mocmc then [eddington] else [source]) else []
    | _ => []
  sync _ := false
  reads _
    | fill => [state, geom] | fixup => [state, geom] | radFixup => [state, geom] | floors => [state, geom]
    | source => if mocmc || moments then [state, geom, samples] else []
    | eddington => if mocmc then [state, geom, samples] else []
    | floors2 => if moments then [state, geom] else []
    | _ => []
  writes _
    | fill => [state] | fixup => [state] | radFixup => [state] | floors => [state]
    | source => if mocmc || moments then [state, samples] else []
    | eddington => if mocmc then [state] else []
    | floors2 => if moments then [state] else []
    | _ => []
  adds _ _ := []
  shared _ := false

open EndTask EndRes in
/-- `async_region_3`, phoebus_driver.cpp:655-736 without the MOCMC particle count.  The fluid time step reads signal speeds only (fluid.cpp:899-944;
its one-time flag `has_face_speeds` does not matter, `Timestep.first_call`), the radiation time step reads the geometry (radiation.cpp:586-650).
`fix`: the time step waits for the geometry update. -/
def endRegion (timeDep rad lastStage adaptive fix : Bool) : Region EndTask EndRes where
  tasks := [setBC, convertBC, fill, fixup, radFixup, floors, source, eddington, floors2, updateGeom, newDt, divb, tag]
  deps _
    | convertBC => [setBC] | fill => [convertBC] | fixup => [fill] | radFixup => [fixup] | floors => [radFixup]
    | updateGeom => if timeDep then [floors] else []
    | newDt => if lastStage then (if fix && timeDep then [floors, updateGeom] else [floors]) else []
    | divb => if lastStage then [floors] else []
    | tag => if lastStage && adaptive then [floors] else []
    | _ => []
  sync _ := false
  reads _
    | setBC => [state] | convertBC => [state, geom] | fill => [state, geom] | fixup => [state, geom] | radFixup => [state, geom] | floors => [state, geom]
    | updateGeom => []
    | newDt => if lastStage then (if rad then [state, geom] else [state]) else []
    | divb => if lastStage then [state] else []
    | tag => if lastStage && adaptive then [state] else []
    | _ => []
  writes _
    | setBC => [state] | convertBC => [state] | fill => [state] | fixup => [state] | radFixup => [state] | floors => [state]
    | updateGeom => if timeDep then [geom] else []
    | newDt => if lastStage then [dt] else []
    | divb => if lastStage then [divbDiag] else []
    | tag => if lastStage && adaptive then [refine] else []
    | _ => []
  adds _ _ := []
  shared _ := false

/-! ### Radiation after the step -/

/-- tasks of lines 776-794. -/
inductive BulbTask | calcTau | checkGain | startGain | finishGain | fourForce | apply
  deriving DecidableEq
/-- state and optical depth and four-force of the partition; the global gain flag. -/
inductive BulbRes | state | tau | force | gain
  deriving DecidableEq

open BulbTask BulbRes in
/-- the light-bulb / cooling function region, phoebus_driver.cpp:769-795.  `CheckDoGain` or-s a flag into the global one, an accumulation.
`fix`: `checkGain` is `local_sync`. -/
def bulbRegion (bulb fix : Bool) : Region BulbTask BulbRes where
  tasks := [calcTau, checkGain, startGain, finishGain, fourForce, apply]
  deps first
    | calcTau => [] | checkGain => if bulb then [calcTau] else [] | startGain => if bulb && first then [checkGain] else []
    | finishGain => if bulb && first then [startGain] else [] | fourForce => if bulb then [finishGain] else [] | apply => [fourForce]
  sync t := t == finishGain || (fix && t == checkGain)
  reads first
    | calcTau => if bulb then [state] else [] | checkGain => if bulb then [tau, state] else []
    | startGain => if bulb && first then [gain] else [] | finishGain => if bulb && first then [gain] else []
    | fourForce => if bulb then [state, tau, gain] else [state] | apply => [state, force]
  writes first
    | calcTau => if bulb then [tau] else [] | checkGain => []
    | startGain => if bulb && first then [gain] else [] | finishGain => if bulb && first then [gain] else []
    | fourForce => [force] | apply => [state]
  adds _ | checkGain => if bulb then [gain] else [] | _ => []
  shared r := r == gain

/-- tasks of lines 974-984. -/
inductive MCTask | sample | transport | send | receive
  deriving DecidableEq
/-- particles, fluid with four-force, of the block; messages; the pool of random states `rng_pool` of the radiation package. -/
inductive MCRes | particles | fluidState | messages | rng
  deriving DecidableEq

open MCTask MCRes in
/-- `async_region0` of `MonteCarloStep`, phoebus_driver.cpp:968-985.  `ownRng`: every block with its own generator. -/
def mcRegion (ownRng : Bool) : Region MCTask MCRes where
  tasks := [sample, transport, send, receive]
  deps _ | sample => [] | transport => [sample] | send => [transport] | receive => [send]
  sync t := t == send
  reads _
    | sample => [particles, fluidState, rng] | transport => [particles, fluidState, rng]
    | send => [particles] | receive => [particles, messages]
  writes _
    | sample => [particles, fluidState, rng] | transport => [particles, fluidState, rng]
    | send => [particles] | receive => [particles]
  adds _ | send => [messages] | _ => []
  shared r := r == messages || (!ownRng && r == rng)

end Phoebus.Tasks
