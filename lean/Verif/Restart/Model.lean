import Verif.Driver.Model
import Verif.NetField.Model
import Verif.MonteCarlo.Model
import Verif.LightBulb.Model
import Verif.Timestep.Model
import Verif.RadSweep.Model

/-!
# Model of a restart

Parthenon's restart file is not in the repository.  Contract used: a dump keeps the fields with `Metadata::Independent`, the time and the cycle, and the
package parameters added with `Params::Mutability::Restart`; everything else has, after a restart, the value `Initialize` gives it (a parameter added with
`true` as third argument is mutable, not saved; a `Derived` or plain `OneCopy` field is allocated with zeros).

Each piece of the state that survives from one step to the next is a `Part`: what `Initialize` sets, how one step changes it, what the rest of
the code sees of it in that step, and what a dump keeps of it.
-/
namespace Phoebus.Restart
open Phoebus

/-- A piece of persistent state.
(Data type of the model; the pieces below cite the code.) -/
structure Part (σ I O : Type) where
  init : σ
  step : σ → I → σ
  see : σ → I → O
  restore : σ → σ

variable {σ I O : Type}

/-- the state after the steps `h`.
(Helper of the model: the outer loop.) -/
def Part.after (p : Part σ I O) (h : List I) (s : σ) : σ := h.foldl p.step s

/-- what the rest of the code sees of the piece during the steps `h`.
(Helper of the model: the outer loop.) -/
def Part.seen (p : Part σ I O) : List I → σ → List O
  | [], _ => []
  | i :: r, s => p.see s i :: p.seen r (p.step s i)

/-! ### the time step factor of the driver -/

/-- The driver constants, phoebus_driver.cpp:117-118 and `tlim`. -/
structure DrvCfg (K : Type) where
  dtInit : K
  tlim : K
  fact : K

section
variable {K : Type} [Field K] [LinearOrder K]

/-- `dt_init_fact` and `is_restart_`, phoebus_driver.cpp:105, 117-132; the step receives the time and the proposed step, the rest of the code sees the
step used.  After a restart the factor is read again from the input and `is_restart_` is set. -/
def drvPart (c : DrvCfg K) : Part (K × Bool) (K × K) K where
  init := (c.fact, false)
  step s i := ((Driver.dtStep c.dtInit c.tlim s.2 ⟨i.1, s.1⟩ i.2).fact, s.2)
  see s i := Driver.chooseDt c.dtInit c.tlim s.2 ⟨i.1, s.1⟩ i.2
  restore _ := (c.fact, true)

/-! ### the net field controller -/

/-- What one step gives to the controller: time, step, measured fluxes and the root of the accretion rate.
(Data type of the model of fixup_netfield.cpp.) -/
structure NfIn (K : Type) where
  t : K
  dt : K
  phi0 : K
  phi1 : K
  mdot : K

/-- The controller through a step: updated in the tuning region (phoebus_driver.cpp:415-465), then used by `ModifyNetField`
(fixup_netfield.cpp:155-203).  The three parameters are added with `true`, fixup.cpp:97-99, so a restart sets them back. -/
def nfPart (clamp : K → K → K → K) (cfg : NetField.Cfg K) : Part (NetField.Ctl K) (NfIn K) (Option K) where
  init := NetField.initCtl cfg
  step c i := NetField.update clamp cfg 1 i.t i.phi0 i.phi1 i.mdot c
  see c i := NetField.amplitude cfg 1 false 0 i.t i.dt (NetField.update clamp cfg 1 i.t i.phi0 i.phi1 i.mdot c)
  restore _ := NetField.initCtl cfg

/-! ### the light bulb gain flag -/

end

/-- `do_gain_reducer`, radiation.cpp:138-141 (added with `true`), phoebus_driver.cpp:776-787; the step receives the optical depths, the rest of the code
sees the flag used by the heating, cooling_function.cpp:188-190. -/
noncomputable def gainPart (always : Bool) : Part Bool (List ℝ) Bool where
  init := always
  step g taus := LightBulb.checkDoGain taus g
  see g taus := LightBulb.checkDoGain taus g
  restore _ := always

/-! ### the sampling resolution of Monte Carlo -/

/-- The constants of the tuning, radiation.cpp:263-295 and monte_carlo.cpp:88-100, 614-642. -/
structure McCfg where
  eps : ℝ
  L : ℝ
  h : ℝ
  nusamp0 : ℝ
  dtTune : ℝ
  np : ℝ
  tune0 : ℝ
  wgt0 : ℝ
  t0 : ℝ

/-- What one step gives to the tuning: the emissivity, the packets emitted and absorbed in this step, the time at its end.
(Data type of the model of monte_carlo.cpp.) -/
structure McIn where
  J : ℝ
  emitted : ℝ
  absorbed : ℝ
  tEnd : ℝ

/-- The tuned values and the two counters.
(Data type of the model: `tune_emission`, `wgtC`, `t_tune_emission`, `num_emitted`, `num_absorbed`, radiation.cpp:263-295.) -/
structure McState where
  vals : ℝ × ℝ × ℝ
  em : ℝ
  ab : ℝ

/-- `tune_emission`, `wgtC`, `t_tune_emission`, `num_emitted`, `num_absorbed` (all added with `true`, radiation.cpp:263-295): the counters grow with each step
(monte_carlo.cpp:274-275, 547-551), the tuning reads them and sets them back when it fires (monte_carlo.cpp:614-642); the emission of the step uses the `wgtC` left by the
previous steps. -/
noncomputable def mcPart (c : McCfg) : Part McState McIn ℝ where
  init := ⟨(c.tune0, c.wgt0, c.t0), 0, 0⟩
  step s i :=
    let em := s.em + i.emitted
    let ab := s.ab + i.absorbed
    ⟨MonteCarlo.updateTuning c.eps i.J c.L c.h c.nusamp0 em ab c.dtTune c.np i.tEnd s.vals,
      if s.vals.2.2 < i.tEnd then 0 else em, if s.vals.2.2 < i.tEnd then 0 else ab⟩
  see s _ := s.vals.2.1
  restore _ := ⟨(c.tune0, c.wgt0, c.t0), 0, 0⟩

/-! ### random numbers -/

/-- The generator pool, created in `Initialize` from the seed of the input: radiation.cpp:340-343, tracers.cpp:44-47.  The state is the number of draws
taken, the step receives how many it takes, the rest of the code sees the draws; nothing is saved. -/
def rngPart (stream : ℕ → ℝ) : Part ℕ ℕ (List ℝ) where
  init := 0
  step n k := n + k
  see n k := (List.range k).map fun j => stream (n + j)
  restore _ := 0

/-! ### the signal speeds -/

/-- `has_face_speeds` is absent after `Initialize`, fluid.cpp:909-940: the step receives the block, the rest of the code sees the estimate. -/
noncomputable def speedPart (big tiny cfl : ℝ) (ndim : ℕ) : Part Bool Timestep.Block ℝ where
  init := false
  step f B := (Timestep.fluidDt big tiny cfl ndim f B).2
  see f B := (Timestep.fluidDt big tiny cfl ndim f B).1
  restore _ := false

/-! ### the opacities of MOCMC -/

/-- The opacity array with MOCMC, radiation.cpp:497-501 (a plain field, allocated with zeros) and mocmc.cpp:703: the step receives what the fluid source
stores, the rest of the code sees the fluxes of the stage (`flux` is the sweep as a function of the array). -/
def kappaPart {S : ℕ} {F : Type} (b : FluxSweep.Blk) [DecidablePred b.Interior] (flux : (Fin S → FluxSweep.Pos → ℝ) → F) :
    Part (Fin S → FluxSweep.Pos → ℝ) (Fin S → FluxSweep.Pos → ℝ) F where
  init := fun _ _ => 0
  step k kap := RadSweep.mocmcStore b k kap
  see k _ := flux k
  restore _ := fun _ _ => 0

/-! ### the monopole counter -/

/-- `nth_call` is added with `Mutability::Restart`, monopole_gr.cpp:62-66; the rest of the code sees whether the solver runs in the stage,
phoebus_driver.cpp:233-248. -/
def monoPart (enabled forceStatic : Bool) (runN : ℤ) : Part ℤ Unit Bool where
  init := 0
  step n _ := (Driver.monopoleStage enabled forceStatic runN n).2
  see n _ := (Driver.monopoleStage enabled forceStatic runN n).1
  restore n := n

end Phoebus.Restart
