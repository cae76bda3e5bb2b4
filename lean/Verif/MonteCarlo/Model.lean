import Verif.Tetrads.Model
import Verif.Geodesics.Model
import Verif.Rel.Model
import Verif.Robust.Model
import Mathlib.Analysis.SpecialFunctions.Log.Basic
import Mathlib.Analysis.SpecialFunctions.Trigonometric.Inverse

/-!
# Model of `/repo/src/radiation/monte_carlo.cpp` and `ApplyRadiationFourForce` of `/repo/src/radiation/radiation.cpp`

Random draws are arguments (universally quantified in the theorems); the opacity library is the emissivity
`J : ν ↦ EmissivityPerNu(rho,T,Ye,s,ν)` of the cell and the absorption coefficient of the cell, both arbitrary functions.
`Real` is `ℝ`, `static_cast<int>` of a real is truncation towards zero without overflow.  Swarm storage
(`AddEmptyParticles`, `RemoveMarkedParticles`, sends and receives between blocks) is Parthenon's and is modelled by a list
of packets.
-/
namespace Phoebus.MonteCarlo
open Finset Geom GeomUtils

/-- `GetWeight`, monte_carlo.cpp:29. -/
noncomputable def getWeight (wgtC nu : ℝ) : ℝ := wgtC / nu

/-- `static_cast<int>(x)`: truncation towards zero.
(C++ conversion, defined for the model.) -/
noncomputable def trunc (x : ℝ) : ℤ := if 0 ≤ x then ⌊x⌋ else ⌈x⌉

/-- the parameters read by `MonteCarloSourceParticles`, monte_carlo.cpp:114-166, and those of one cell, 186 and 207-217:
Planck constant `h_code`, base weight `wgtC`, frequency range and number of bins, coordinate cell volume `d3x`,
`DetG`, time step. -/
structure Cfg where
  h : ℝ
  wgtC : ℝ
  nuMin : ℝ
  nuMax : ℝ
  bins : ℕ
  d3x : ℝ
  detG : ℝ
  dt : ℝ

/-- `lnu_min`, `lnu_max`, monte_carlo.cpp:116-117. -/
noncomputable def Cfg.lnuMin (c : Cfg) : ℝ := Real.log c.nuMin
/-- monte_carlo.cpp, `lnu_max` of the frequency grid cited above. -/
noncomputable def Cfg.lnuMax (c : Cfg) : ℝ := Real.log c.nuMax

/-- `dlnu`, radiation.cpp:94. -/
noncomputable def Cfg.dlnu (c : Cfg) : ℝ := (Real.log c.nuMax - Real.log c.nuMin) / c.bins

/-- `nusamp(n)`, radiation.cpp:323-325. -/
noncomputable def Cfg.nusamp (c : Cfg) (n : ℕ) : ℝ := Real.exp (Real.log c.nuMin + n * c.dlnu)

/-- the unnormalised `dNdlnu` of frequency sample `n`, monte_carlo.cpp:198-199. -/
noncomputable def dNdlnuRaw (c : Cfg) (J : ℝ → ℝ) (n : ℕ) : ℝ :=
  J (c.nusamp n) * c.d3x * c.detG / (c.h * getWeight c.wgtC (c.nusamp n))

/-- `dNdlnu_max`, monte_carlo.cpp:189 and 201-203. -/
noncomputable def dNdlnuMax (c : Cfg) (J : ℝ → ℝ) : ℝ :=
  (List.range (c.bins + 1)).foldl (fun m n => if dNdlnuRaw c J n > m then dNdlnuRaw c J n else m) 0

/-- the stored, normalised `dNdlnu`, monte_carlo.cpp:206-208. -/
noncomputable def dNdlnu (c : Cfg) (J : ℝ → ℝ) (n : ℕ) : ℝ := dNdlnuRaw c J n / dNdlnuMax c J

/-- `dN` of one cell and species, monte_carlo.cpp:188-196 and 210-217. -/
noncomputable def dN (c : Cfg) (J : ℝ → ℝ) : ℝ :=
  ((List.range (c.bins + 1)).foldl (fun s n =>
      s + J (c.nusamp n) / (c.h * c.nusamp n * getWeight c.wgtC (c.nusamp n)) * (c.nusamp n * c.dlnu)) 0
    - 1 / 2 * J (c.nusamp 0) / (c.h * getWeight c.wgtC (c.nusamp 0)) * c.dlnu
    - 1 / 2 * J (c.nusamp c.bins) / (c.h * getWeight c.wgtC (c.nusamp c.bins)) * c.dlnu)
  * (c.d3x * c.detG * c.dt)

/-- randomised rounding of the number of packets of a cell with draw `u`, monte_carlo.cpp:221-224 and 255-259. -/
noncomputable def roundNs (x u : ℝ) : ℤ := if x - trunc x > u then trunc x + 1 else trunc x

/-- the number of packets created in a cell with tuning factor `wgtCfac`, monte_carlo.cpp:244 and 250-262. -/
noncomputable def numPackets (c : Cfg) (J : ℝ → ℝ) (wgtCfac u : ℝ) : ℤ := roundNs (wgtCfac * dN c J) u

/-- the weight given to a packet of frequency `nu`, monte_carlo.cpp:366. -/
noncomputable def packetWeight (c : Cfg) (wgtCfac nu : ℝ) : ℝ := getWeight (c.wgtC / wgtCfac) nu

/-- a candidate `lnu` from a draw, monte_carlo.cpp:354. -/
noncomputable def drawLnu (c : Cfg) (u : ℝ) : ℝ := u * (c.lnuMax - c.lnuMin) + c.lnuMin

/-- the frequency bin of a candidate, monte_carlo.cpp:358-359. -/
noncomputable def bin (c : Cfg) (lnu : ℝ) : ℤ := trunc ((lnu - c.lnuMin) / c.dlnu)

/-- acceptance probability of a candidate, monte_carlo.cpp:358-362. -/
noncomputable def prob (c : Cfg) (J : ℝ → ℝ) (lnu : ℝ) : ℝ :=
  let dn := (lnu - c.lnuMin) / c.dlnu - bin c lnu
  (1 - dn) * dNdlnu c J (bin c lnu).toNat + dn * dNdlnu c J (bin c lnu + 1).toNat

/-- the rejection loop, monte_carlo.cpp:350-363, on the stream of pairs of draws; `none` is the abort at 356-357 after the
given number of attempts (the code allows 99999). -/
noncomputable def sampleLnu (c : Cfg) (J : ℝ → ℝ) : ℕ → (ℕ → ℝ × ℝ) → Option ℝ
  | 0, _ => none
  | fuel + 1, draws =>
    if (draws 0).2 > prob c J (drawLnu c (draws 0).1) then sampleLnu c J fuel fun i => draws (i + 1)
    else some (drawLnu c (draws 0).1)

/-- the wave vector of a new packet in the tetrad frame, monte_carlo.cpp:369-373, from the two draws. -/
noncomputable def kTetrad (h nu u1 u2 : ℝ) : Fin 4 → ℝ :=
  let E := nu * h
  let theta := Real.arccos (2 * u1 - 1)
  let phi := 2 * Real.pi * u2
  ![-E, E * Real.cos theta, E * Real.cos phi * Real.sin theta, E * Real.sin phi * Real.sin theta]

/-- the covariant wave vector given to a new packet, monte_carlo.cpp:321-328 and 374-380. -/
noncomputable def kCoord (eps : ℝ) (g : Fin 4 → Fin 4 → ℝ) (ucon : Fin 4 → ℝ) (h nu u1 u2 : ℝ) : Fin 4 → ℝ :=
  Tetrads.tetradToCoordCov (Tetrads.ecov g (Tetrads.econ eps g ucon Tetrads.defaultTrial)) (kTetrad h nu u1 u2)

section Index
variable {Z : Type*} [DecidableEq Z]

/-- the loop that fills `starting_index`, monte_carlo.cpp:296-307, over the list of (species, cell) pairs in loop order;
the result is the array and the final value of `index`. -/
def fillStart (cnt : Z → ℕ) (zones : List Z) : (Z → ℕ) × ℕ :=
  zones.foldl (fun s z => (Function.update s.1 z s.2, s.2 + cnt z)) (fun _ => 0, 0)

/-- the pairs (species, k, j, i) in loop order, monte_carlo.cpp:298-301. -/
def zoneList (ns nk nj ni : ℕ) : List (Fin ns × Fin nk × Fin nj × Fin ni) :=
  (List.finRange ns).flatMap fun s => (List.finRange nk).flatMap fun k =>
    (List.finRange nj).flatMap fun j => (List.finRange ni).map fun i => (s, k, j, i)

/-- the index given to packet `n` of zone `z`, monte_carlo.cpp:335-336. -/
def packetIndex (cnt : Z → ℕ) (zones : List Z) (z : Z) (n : ℕ) : ℕ := (fillStart cnt zones).1 z + n

end Index

/-- `LeptonSign` on species 0 (electron), 1 (electron anti), 2 (heavy), radiation.hpp:66-70. -/
def leptonSign (s : ℕ) : ℤ := (if s < 2 then 1 else 0) * (-2 * s + 1)

/-- a packet of the swarm: species, position, wave vector and weight (monte_carlo.cpp:281-290). -/
structure Packet where
  s : ℕ
  ray : Geodesics.Ray ℝ
  w : ℝ

/-- the five-force fields of the block: `Gcov(0..3)` and `Gye` of every cell.
(Data type of the model of monte_carlo.cpp.) -/
structure Force (C : Type*) where
  G : C → Fin 4 → ℝ
  ye : C → ℝ

/-- the conserved fluid fields of the block.
(Data type of the model of monte_carlo.cpp.) -/
structure Fluid (C : Type*) where
  tau : C → ℝ
  S : C → Fin 3 → ℝ
  ye : C → ℝ

section Exchange
variable {C : Type*} [DecidableEq C]

/-- `MonteCarloZeroFiveForce`, monte_carlo.cpp:168-175. -/
def zeroForce : Force C := ⟨fun _ _ => 0, fun _ => 0⟩

/-- emission of one packet from cell `c`: what is taken from the five-force, monte_carlo.cpp:382-388.  `u0` is `Ucon[0]` of
the cell. -/
noncomputable def emitForce (d3x dt mp : ℝ) (u0 : C → ℝ) (F : Force C) (e : C × Packet) : Force C :=
  { G := fun c mu => if c = e.1 then F.G c mu - 1 / (d3x * dt) * e.2.w * e.2.ray.k mu else F.G c mu
    ye := fun c => if c = e.1 then F.ye c - leptonSign e.2.s / (d3x * dt) * u0 c * e.2.w * mp else F.ye c }

/-- the absorption test with draw `u`, monte_carlo.cpp:501 and 511-514. -/
def absorbs (absorption : Prop) (alphanu dt u : ℝ) : Prop := absorption ∧ -Real.log u ≤ alphanu * dt

/-- deposition of an absorbed packet in cell `c`, monte_carlo.cpp:516-521. -/
noncomputable def absorbForce (d4x mp : ℝ) (u0 : C → ℝ) (F : Force C) (e : C × Packet) : Force C :=
  { G := fun c mu => if c = e.1 then F.G c mu + 1 / d4x * e.2.w * e.2.ray.k mu else F.G c mu
    ye := fun c => if c = e.1 then F.ye c + leptonSign e.2.s / d4x * e.2.w * mp * u0 c else F.ye c }

/-- everything `MonteCarloTransport` reads besides the swarm and the fields it writes: geometry, opacity per packet
(cell, species, `-k0/h`), the cell containing a position and `Ucon0` per cell, monte_carlo.cpp:429-505. -/
structure Env (C : Type*) where
  minkowski : Bool
  gcon : (Fin 4 → ℝ) → Fin 4 → Fin 4 → ℝ
  cell : (Fin 4 → ℝ) → C
  alphanu : C → ℕ → ℝ → ℝ
  u0 : C → ℝ
  h : ℝ
  mp : ℝ
  d3x : ℝ
  absorption : Prop

open Classical in
/-- one iteration of the loop over packets of `MonteCarloTransport`, monte_carlo.cpp:472-534: the packet `p` with its draw
is deposited and removed, or pushed and kept. -/
noncomputable def transportOne (E : Env C) (dt : ℝ) (s : Force C × List Packet) (p : Packet × ℝ) :
    Force C × List Packet :=
  let c := E.cell p.1.ray.X
  if absorbs E.absorption (E.alphanu c p.1.s (-p.1.ray.k 0 / E.h)) dt p.2 then
    (absorbForce (E.d3x * dt) E.mp E.u0 s.1 (c, p.1), s.2)
  else (s.1, s.2 ++ [{ p.1 with ray := Geodesics.push E.minkowski E.gcon dt p.1.ray }])

/-- `MonteCarloTransport`, monte_carlo.cpp:468-542, the packets being processed in the order of the list, each with its draw. -/
noncomputable def transport (E : Env C) (dt : ℝ) (F : Force C) (ps : List (Packet × ℝ)) : Force C × List Packet :=
  ps.foldl (transportOne E dt) (F, [])

/-- `ApplyRadiationFourForce`, radiation.cpp:570-581. -/
def applyForce (dt : ℝ) (F : Force C) (U : Fluid C) : Fluid C :=
  { tau := fun c => U.tau c - F.G c 0 * dt
    S := fun c i => U.S c i + F.G c i.succ * dt
    ye := fun c => U.ye c + F.ye c * dt }

/-- one `MonteCarloStep`, phoebus_driver.cpp:967-1053: emission of the given packets from the given cells, transport of all
packets (`draw` gives the draw of each position in the swarm), then the four-force update. -/
noncomputable def step (E : Env C) (dt : ℝ) (emitted : List (C × Packet)) (draw : ℕ → ℝ)
    (s : Fluid C × List Packet) : Fluid C × List Packet :=
  let F1 := emitted.foldl (emitForce E.d3x dt E.mp E.u0) zeroForce
  let swarm := s.2 ++ emitted.map Prod.snd
  let r := transport E dt F1 (swarm.zipIdx.map fun p => (p.1, draw p.2))
  (applyForce dt r.1 s.1, r.2)

/-- what one step is given from outside: the time step, the emitted packets, the draws.
(Data type of the model of monte_carlo.cpp.) -/
structure Input (C : Type*) where
  dt : ℝ
  emitted : List (C × Packet)
  draw : ℕ → ℝ

/-- a history of Monte Carlo steps.
(Helper: the outer loop of the driver.) -/
noncomputable def run (E : Env C) (h : List (Input C)) (s : Fluid C × List Packet) : Fluid C × List Packet :=
  h.foldl (fun s i => step E i.dt i.emitted i.draw s) s

end Exchange

/-- C++ `ideal / real` for `ideal > 0`: a real number or, when the denominator is zero, `+∞` (`none`).
(IEEE division, defined for the model.) -/
noncomputable def divC (ideal real : ℝ) : Option ℝ := if real = 0 then none else some (ideal / real)

/-- the emission correction after bounding, monte_carlo.cpp:621-629; `make_bounded(+∞, ..)` is its upper bound. -/
noncomputable def emissionCorrection (eps emitted absorbed dtTune np : ℝ) : ℝ :=
  let real := emitted - absorbed
  let ideal := dtTune * np / 1
  match (if real < 0 then some (4 / 3) else divC ideal real) with
  | some x => Robust.makeBounded eps x (3 / 4) (4 / 3)
  | none => 4 / 3 * (1 - eps)

/-- the scattering correction, monte_carlo.cpp:648-653: the result of `make_bounded` is discarded. -/
noncomputable def scatteringCorrection (scattered dtTune np : ℝ) : Option ℝ := divC (dtTune * np) scattered

/-- `SetWeight`, monte_carlo.cpp:88-100: the new `wgtC` from `tune_emission`, `Jtot`, the cube root `L` of the mesh volume,
`h` and `nu_min`. -/
noncomputable def setWeight (tune Jtot L h nusamp0 : ℝ) : ℝ := Jtot / (h * (tune / (L * 1))) * nusamp0

/-- `MonteCarloUpdateTuning`, emission part, monte_carlo.cpp:614-642: state is (`tune_emission`, `wgtC`, `t_tune_emission`);
the test is the one at 614. -/
noncomputable def updateTuning (eps Jtot L h nusamp0 emitted absorbed dtTune np tEnd : ℝ) (s : ℝ × ℝ × ℝ) : ℝ × ℝ × ℝ :=
  if s.2.2 < tEnd then
    let tune := emissionCorrection eps emitted absorbed dtTune np * s.1
    (tune, setWeight tune Jtot L h nusamp0, s.2.2 + dtTune)
  else s

/-- `MonteCarloCountCommunicatedParticles`, monte_carlo.cpp:668-706, on the numbers of unfinished packets of the blocks of
one rank: `Kokkos::Sum<int>(num_unfinished)` assigns the reduction of each block to the same variable. -/
def countUnfinished (blocks : List ℕ) : ℕ := blocks.foldl (fun _ b => b) 0

/-- the `done` flag, monte_carlo.cpp:699-703 (after the sum over ranks). -/
def allDone (ranks : List (List ℕ)) : Bool := decide ((ranks.map countUnfinished).sum = 0)

end Phoebus.MonteCarlo
