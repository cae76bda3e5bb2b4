import Verif.MeshRun.Props
import Verif.FluxSweep.Props
import Verif.Riemann.Model
import Verif.Floors.Props

/-!
# Model of the transport of the electron fraction

The conserved pair `(c.density, c.ye)` through a run on a periodic mesh: recovery of the primitive electron fraction
(`/repo/src/fluid/con2prim_robust.hpp:329`, `con2prim.hpp:386`), reconstruction of it at the faces (`fluid.cpp:683-751`, model in `Verif/FluxSweep`),
the Riemann solvers (`riemann.hpp:141-148, 256-301`, model in `Verif/Riemann`), the flux divergence and the Runge-Kutta combination
(`phoebus_driver.cpp:561-576`).  All other primitive variables are arbitrary functions of the state.
-/
namespace Phoebus.MeshRun
open FluxCT FixFlux FluxSweep

/-- `robust::ratio(v(cye), v(crho))`, con2prim_robust.hpp:329; `small = 0` is con2prim.hpp:386. -/
noncomputable def recoverYe (small cye crho : ℝ) : ℝ := Robust.ratio small cye crho

/-- the cell of the periodic domain whose copy sits at position `c` (ghost zones are filled by Parthenon's communication).
(Helper or data type of the composed model: combines functions modelled and cited elsewhere; no code of its own.) -/
def Mesh.wrap (M : Mesh) (c : Pos) : Pos := fun d => c d % (M.n d : ℤ)

/-- the two solvers, fluid.cpp:119-128. -/
inductive Solver where
  | llf | hll
deriving DecidableEq

/-- everything a stage needs apart from the electron fraction: weight, remaining primitives (any function of the state), meaning of the slots,
geometry and limits at the faces, signal speeds of the two states (`vm`, `vp`), densitisation factors.
(Helper or data type of the composed model: combines functions modelled and cited elsewhere; no code of its own.) -/
structure StageData (N : ℕ) where
  beta : ℝ
  others : Arr ℝ → Arr ℝ → Fin N → Pos → ℝ
  prim : (Fin N → ℝ) → Rel.Prim
  G : Fin 3 → Pos → Geom.ADM ℝ
  L : Fin 3 → Pos → Riemann.Limits
  speeds : Fin 3 → Pos → (Fin N → ℝ) → ℝ × ℝ
  gdet : Fin 3 → Pos → ℝ
  gammadet : Fin 3 → Pos → ℝ

/-- settings of a run: reconstruction method and its small constants, slot of the electron fraction, solver, formulation.
(Helper or data type of the composed model: combines functions modelled and cited elsewhere; no code of its own.) -/
structure Setup (N : ℕ) where
  small : ℝ
  ew : ℝ
  em : ℝ
  rt : Method
  nye : Fin N
  solver : Solver
  valencia : Bool

variable {N : ℕ}

/-- primitive variables with the recovered electron fraction, everywhere including ghost zones.
(Helper or data type of the composed model: combines functions modelled and cited elsewhere; no code of its own.) -/
noncomputable def prims (M : Mesh) (s : Setup N) (st : StageData N) (U : Arr ℝ × Arr ℝ) : Fin N → Pos → ℝ := fun n c =>
  if n = s.nye then recoverYe s.small (U.2 (M.wrap c 2) (M.wrap c 1) (M.wrap c 0)) (U.1 (M.wrap c 2) (M.wrap c 1) (M.wrap c 0))
  else st.others U.1 U.2 n c

/-- combination of the two sides, riemann.hpp:269-275 and 291-300. -/
noncomputable def combine (s : Setup N) (gdet gammadet : ℝ) (sl sr : ℝ × ℝ) (Fl Fr Ul Ur : ℝ) : ℝ :=
  match s.solver with
  | .llf => Riemann.llf gdet gammadet sl.1 sl.2 sr.1 sr.2 Fl Fr Ul Ur
  | .hll => Riemann.hll s.small gdet gammadet sl.1 sl.2 sr.1 sr.2 Fl Fr Ul Ur

/-- fluxes of `(c.density, c.ye)` at a face from the two states there, riemann.hpp:141-148 and 256-301. -/
noncomputable def faceFluxes (s : Setup N) (st : StageData N) (d : Fin 3) (f : Pos) (ql qr : Fin N → ℝ) : ℝ × ℝ :=
  let Fl := Riemann.fluxF s.valencia (st.G d f) (st.L d f) (ql s.nye) (st.prim ql) d
  let Fr := Riemann.fluxF s.valencia (st.G d f) (st.L d f) (qr s.nye) (st.prim qr) d
  let Ul := Riemann.fluxU s.valencia (st.G d f) (st.L d f) (ql s.nye) (st.prim ql)
  let Ur := Riemann.fluxU s.valencia (st.G d f) (st.L d f) (qr s.nye) (st.prim qr)
  (combine s (st.gdet d f) (st.gammadet d f) (st.speeds d f ql) (st.speeds d f qr) Fl.rho Fr.rho Ul.rho Ur.rho,
   combine s (st.gdet d f) (st.gammadet d f) (st.speeds d f ql) (st.speeds d f qr) Fl.ye Fr.ye Ul.ye Ur.ye)

/-- the variable `c.ye` among those `FixFluxes` sees: it is none of the variables it treats.
(Helper or data type of the composed model: combines functions modelled and cited elsewhere; no code of its own.) -/
def yeVar : Var := .other 0

/-- all face fluxes of a stage (C120: the same in every block).
(Helper or data type of the composed model: combines functions modelled and cited elsewhere; no code of its own.) -/
noncomputable def stageFlux (M : Mesh) (s : Setup N) (st : StageData N) (U : Arr ℝ × Arr ℝ) : Flux ℝ := fun d v k j i =>
  let R := kernel s.ew s.em s.rt
  let F := faceFluxes s st d ![i, j, k] (stateL R (prims M s st U) d ![i, j, k]) (stateR R (prims M s st U) d ![i, j, k])
  if v = .rho then F.1 else if v = yeVar then F.2 else 0

/-- one stage of the pair.
(Helper or data type of the composed model: combines functions modelled and cited elsewhere; no code of its own.) -/
noncomputable def pairStage (M : Mesh) (own : ℤ → ℤ → ℤ → IBlk) (dx : Fin 3 → ℝ) (s : Setup N) (dt : ℝ) (base cur : Arr ℝ × Arr ℝ)
    (st : StageData N) : Arr ℝ × Arr ℝ :=
  (stage st.beta dt base.1 cur.1 (M.rate own dx (stageFlux M s st cur) .rho), stage st.beta dt base.2 cur.2 (M.rate own dx (stageFlux M s st cur) yeVar))

/-- one step.
(Helper or data type of the composed model: combines functions modelled and cited elsewhere; no code of its own.) -/
noncomputable def pairStep (M : Mesh) (own : ℤ → ℤ → ℤ → IBlk) (dx : Fin 3 → ℝ) (s : Setup N) (dt : ℝ) (sts : List (StageData N))
    (base : Arr ℝ × Arr ℝ) : Arr ℝ × Arr ℝ :=
  sts.foldl (pairStage M own dx s dt base) base

/-- a run.
(Helper or data type of the composed model: combines functions modelled and cited elsewhere; no code of its own.) -/
noncomputable def pairRun (M : Mesh) (own : ℤ → ℤ → ℤ → IBlk) (dx : Fin 3 → ℝ) (s : Setup N) (steps : List (ℝ × List (StageData N)))
    (U : Arr ℝ × Arr ℝ) : Arr ℝ × Arr ℝ :=
  steps.foldl (fun U t => pairStep M own dx s t.1 t.2 U) U

/-- the states of a step at which fluxes are computed.
(Helper or data type of the composed model: combines functions modelled and cited elsewhere; no code of its own.) -/
noncomputable def stepStates (M : Mesh) (own : ℤ → ℤ → ℤ → IBlk) (dx : Fin 3 → ℝ) (s : Setup N) (dt : ℝ) (base : Arr ℝ × Arr ℝ) :
    List (StageData N) → Arr ℝ × Arr ℝ → List (Arr ℝ × Arr ℝ)
  | [], _ => []
  | st :: l, cur => cur :: stepStates M own dx s dt base l (pairStage M own dx s dt base cur st)

/-- the states of a run at which fluxes are computed.
(Helper or data type of the composed model: combines functions modelled and cited elsewhere; no code of its own.) -/
noncomputable def runStates (M : Mesh) (own : ℤ → ℤ → ℤ → IBlk) (dx : Fin 3 → ℝ) (s : Setup N) :
    List (ℝ × List (StageData N)) → Arr ℝ × Arr ℝ → List (Arr ℝ × Arr ℝ)
  | [], _ => []
  | t :: l, U => stepStates M own dx s t.1 U t.2 U ++ runStates M own dx s l (pairStep M own dx s t.1 t.2 U)

end Phoebus.MeshRun
