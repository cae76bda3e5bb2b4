import Verif.Monopole.Props
import Verif.TOV.Props

/-!
# Model of the start-up sequence: `ProcessPackages` (`/repo/src/phoebus_driver.cpp:802-855`), the problem dictionary
(`/repo/src/pgen/pgen.hpp`, `pgen.cpp`) and the host/device arrays of the monopole solver (`/repo/src/monopole_gr/monopole_gr.cpp`)

Arrays that exist twice (device and host mirror) are pairs of buffers.  `Kokkos::create_mirror_view` returns the *same* memory when the
device memory is host accessible (CPU builds) and fresh memory otherwise (GPU builds): the flag `shared` is part of the model.
-/
namespace Phoebus.Startup
open Monopole

/-- the geometries a build can select, cmake/Geometry.cmake:20-32. -/
inductive Geometry
  | Minkowski | BoostedMinkowski | SphericalMinkowski | BoyerLindquist | SphericalKerrSchild | FLRW | FMKS | Snake | Inchworm
  | MonopoleSph | MonopoleCart
  deriving DecidableEq

/-- the options looked at: `tov/enabled`, `monopole_gr/enabled`, `progenitor/enabled` and the geometry of the build.
(Read in tov.cpp, monopole_gr.cpp and progenitordata.cpp `Initialize`.) -/
structure Config where
  tov : Bool
  monopole : Bool
  progenitor : Bool
  geom : Geometry

/-- what a start can throw.
(Helper or data type of the model.) -/
inductive Err | tovNeedsMonopole | monopoleNeedsMatter | monopoleNeedsMetric
  deriving DecidableEq

/-- `TOV::Initialize`, tov.cpp:47-56 (called first), then the checks of `ProcessPackages`, phoebus_driver.cpp:831-841. -/
def check (c : Config) : Except Err Unit := do
  if c.tov && !c.monopole then throw .tovNeedsMonopole
  if c.tov && !c.monopole then throw .tovNeedsMonopole
  if c.monopole && !(c.tov || c.progenitor) then throw .monopoleNeedsMatter
  let cart := decide (c.geom = .MonopoleCart)
  let sph := decide (c.geom = .MonopoleSph)
  if (c.monopole && !(cart || sph)) || ((cart || sph) && !c.monopole) then throw .monopoleNeedsMetric
  return ()

/-! ## Mirrored arrays -/

/-- device buffer and host mirror.
(Helper or data type of the model.) -/
structure Pair (V : Type*) where
  dev : V
  host : V

/-- writing the host mirror; with `shared` the device sees it at once.
(Helper or data type of the model.) -/
def Pair.setHost {V : Type*} (shared : Bool) (p : Pair V) (v : V) : Pair V := ⟨if shared then v else p.dev, v⟩
/-- writing the device array; with `shared` the host sees it at once.
(Helper or data type of the model.) -/
def Pair.setDev {V : Type*} (shared : Bool) (p : Pair V) (v : V) : Pair V := ⟨v, if shared then v else p.host⟩
/-- `Kokkos::deep_copy(host, dev)`.
(monopole_gr.cpp:266, 677-680.) -/
def Pair.toHost {V : Type*} (p : Pair V) : Pair V := ⟨p.dev, p.dev⟩
/-- `Kokkos::deep_copy(dev, host)`.
(monopole_gr.cpp:493, 505, 509.) -/
def Pair.toDev {V : Type*} (p : Pair V) : Pair V := ⟨p.host, p.host⟩

/-- the lapse: two device buffers `a`, `b` (`lapse` and `lapse_last` of monopole_gr.cpp:126-127, swapped every cycle), which one is the
current `lapse`, and the host mirror, created from buffer `a` (monopole_gr.cpp:148): with `shared` it *is* buffer `a` and `own` is unused. -/
structure Lapse (V : Type*) where
  a : V
  b : V
  cur : Bool
  own : V

/-- the view stored as `lapse`.
(monopole_gr.cpp:175.) -/
def Lapse.lapse {V : Type*} (l : Lapse V) : V := if l.cur then l.a else l.b
/-- the view stored as `lapse_last`.
(monopole_gr.cpp:176.) -/
def Lapse.last {V : Type*} (l : Lapse V) : V := if l.cur then l.b else l.a
/-- the view stored as `lapse_h`.
(monopole_gr.cpp:174.) -/
def Lapse.host {V : Type*} (shared : Bool) (l : Lapse V) : V := if shared then l.a else l.own
/-- writing through `lapse_h`.
(Helper or data type of the model.) -/
def Lapse.setHost {V : Type*} (shared : Bool) (l : Lapse V) (v : V) : Lapse V :=
  if shared then { l with a := v } else { l with own := v }
/-- writing the buffer that is the current `lapse`.
(Helper or data type of the model.) -/
def Lapse.setCur {V : Type*} (l : Lapse V) (v : V) : Lapse V := if l.cur then { l with a := v } else { l with b := v }
/-- `SpacetimeToDevice`, monopole_gr.cpp:495-505: swap the views, then copy `lapse_h` to the (new) `lapse`. -/
def Lapse.advance {V : Type*} (shared : Bool) (l : Lapse V) : Lapse V :=
  let l := { l with cur := !l.cur }
  l.setCur (l.host shared)
/-- initial values, monopole_gr.cpp:129-141. -/
def Lapse.init {V : Type*} (one : V) : Lapse V := ⟨one, one, true, one⟩
/-- one call of the solver: `LinearSolveForAlpha` writes the host lapse, `SpacetimeToDevice` publishes it.
(monopole_gr.cpp:400-480 and 482-509.) -/
def Lapse.solve {V : Type*} (shared : Bool) (l : Lapse V) (v : V) : Lapse V := (l.setHost shared v).advance shared
/-- the lapse buffers after the solver was called with the solutions `sol 1, ..., sol n`.
(Helper or data type of the model.) -/
def Lapse.run {V : Type*} (shared : Bool) (one : V) (sol : ℕ → V) : ℕ → Lapse V
  | 0 => Lapse.init one
  | n + 1 => (Lapse.run shared one sol n).solve shared (sol (n + 1))

section
variable {K : Type*} [Field K] [LinearOrder K]

/-- the four matter rows, monopole_gr_base.hpp:36-44. -/
structure Matter (K : Type*) where
  rho : ℕ → K
  j : ℕ → K
  trcS : ℕ → K
  srr : ℕ → K

/-- no matter.
(Helper or data type of the model.) -/
def noMatter : Matter K := ⟨fun _ => 0, fun _ => 0, fun _ => 0, fun _ => 0⟩

/-- the arrays of the monopole package.
(monopole_gr.cpp:150-180.) -/
structure Mono (K : Type*) where
  matter : Pair (Matter K)
  hyper : Pair (ℕ → K × K)
  lapse : Lapse (ℕ → K)

/-- parameters of the solver.
(monopole_gr.cpp:50-118.) -/
structure Par (K : Type*) where
  small : K
  pi : K
  dr : K
  n : ℕ
  static : Bool
  shared : Bool

/-- after `MonopoleGR::Initialize`, monopole_gr.cpp:119-148. -/
def Mono.init : Mono K :=
  ⟨⟨noMatter, noMatter⟩, ⟨fun _ => (1, 0), fun _ => (1, 0)⟩, Lapse.init fun _ => 1⟩

/-- `TOV::IntegrateTov`, tov.cpp:127-135 and 176-224, as far as the monopole arrays are concerned: the lapse is copied to the host, the
matter of the star is written on the host and copied to the device.  `star phi0` is the star built with the central potential `phi0`. -/
def integrateTov (p : Par K) (log : K → K) (star : K → Matter K) (m : Mono K) : Mono K :=
  let l := m.lapse.setHost p.shared m.lapse.lapse
  { m with lapse := l, matter := (m.matter.setHost p.shared (star (log (l.host p.shared 0)))).toDev }

/-- `MatterToHost(pkg, false)`, monopole_gr.cpp:255-275. -/
def matterToHost (m : Mono K) : Mono K := { m with matter := m.matter.toHost }

/-- `IntegrateHypersurface`, monopole_gr.cpp:279-398. -/
def integrateHypersurface (p : Par K) (m : Mono K) : Mono K :=
  { m with hyper := m.hyper.setHost p.shared (Monopole.hyper p.small p.pi p.dr m.matter.host.rho m.matter.host.j) }

/-- the lapse computed by `LinearSolveForAlpha`, monopole_gr.cpp:400-480, from hypersurface `h` and matter `q`. -/
def lapseOf (p : Par K) (h : ℕ → K × K) (q : Matter K) : ℕ → K :=
  Monopole.lapse p.small p.pi p.dr p.n (fun i => (h i).1) (fun i => (h i).2) q.rho q.trcS

/-- `LinearSolveForAlpha`.
(monopole_gr.cpp:400-480.) -/
def linearSolve (p : Par K) (m : Mono K) : Mono K :=
  { m with lapse := m.lapse.setHost p.shared (lapseOf p m.hyper.host m.matter.host) }

/-- `SpacetimeToDevice`, monopole_gr.cpp:482-523: copies, and the extrinsic curvature is erased with `force_static`. -/
def spacetimeToDevice (p : Par K) (m : Mono K) : Mono K :=
  let h := m.hyper.toDev
  let h := if p.static then h.setDev p.shared (fun i => ((h.dev i).1, 0)) else h
  { matter := m.matter.toDev, hyper := h, lapse := m.lapse.advance p.shared }

/-- the sequence of `ProcessPackages`, phoebus_driver.cpp:842-853. -/
def startup (p : Par K) (log : K → K) (star : K → Matter K) (c : Config) (m : Mono K) : Mono K :=
  let m := if c.tov then integrateTov p log star m else m
  if c.monopole then spacetimeToDevice p (linearSolve p (integrateHypersurface p (matterToHost m))) else m

/-- the part of the problem generator `homologous` that sets up the spacetime (first block of a rank only), progenitor.cpp:81-104. -/
def homologousSetup (p : Par K) (table : Matter K) (m : Mono K) : Mono K :=
  let m := { m with matter := (m.matter.setHost p.shared table).toDev }
  spacetimeToDevice p (linearSolve p (integrateHypersurface p m))

/-- the reduction and test of `CheckRateOfChange`, monopole_gr.cpp:599-609, over points `0 .. n`. -/
def rateError (small dt : K) (alpha last dadt : ℕ → K) : ℕ → K
  | 0 => Robust.ratio small |(alpha 0 - last 0) / dt - dadt 0| (alpha 0)
  | i + 1 => max (rateError small dt alpha last dadt i)
      (Robust.ratio small |(alpha (i + 1) - last (i + 1)) / dt - dadt (i + 1)| (alpha (i + 1)))

/-- the warning of `CheckRateOfChange`, monopole_gr.cpp:610-615. -/
def warns (small dt eps : K) (alpha last dadt : ℕ → K) (n : ℕ) : Bool := decide (rateError small dt alpha last dadt n > eps)

end

/-! ## Problem dictionary -/

/-- `FOREACH_PROBLEM`, pgen.hpp:31-52. -/
def problems : List String :=
  ["phoebus", "advection", "check_cached_geom", "shock_tube", "friedmann", "linear_modes", "thin_cooling", "leptoneq",
   "kelvin_helmholtz", "rhs_tester", "sedov", "blandford_mckee", "bondi", "radiation_advection", "radiation_equilibration",
   "rotor", "homogeneous_sphere", "torus", "p2c2p", "tov", "homologous"]
/-- `FOREACH_MODIFIER`, pgen.hpp:55-58. -/
def modifiers : List String := ["phoebus", "torus", "radiation_advection"]
/-- `FOREACH_POSTINIT_MODIFIER`, pgen.hpp:62-65. -/
def postinit : List String := ["phoebus", "advection", "torus"]

/-- the functions called, by namespace.
(Helper or data type of the model.) -/
inductive Call | generator (ns : String) | modifier (ns : String) | post (ns : String)
  deriving DecidableEq

/-- a `std::map` built from the list: key is the stringised name, value the function of the namespace of the same name.
(pgen.hpp and pgen.cpp, the macros cited below.) -/
def dict (mk : String → Call) (names : List String) (key : String) : Option Call :=
  (names.map fun n => (n, mk n)).lookup key

/-- `ProblemGenerator`, pgen.cpp:22-36; `none` is the exception. -/
def problemGenerator (name : String) : Option Call :=
  if name = "phoebus" then none else dict .generator problems name

/-- `ProblemModifier`, pgen.cpp:38-46: silently nothing for other names. -/
def problemModifier (name : String) : List Call :=
  if name = "phoebus" then [] else (dict .modifier modifiers name).toList

/-- `PostInitializationModifier`, pgen.cpp:48-56. -/
def postInit (name : String) : List Call :=
  if name = "phoebus" then [] else (dict .post postinit name).toList

/-- `main`, main.cpp:46-70: the input modifier always runs, the generator (called by Parthenon per block, here once) and the
post-initialisation only on a fresh start. -/
def mainCalls (restart : Bool) (name : String) : Option (List Call) :=
  if restart then some (problemModifier name)
  else (problemGenerator name).map fun g => problemModifier name ++ [g] ++ postInit name

end Phoebus.Startup
