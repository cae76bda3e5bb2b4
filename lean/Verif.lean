import Verif.Adiabats.Model
import Verif.Adiabats.Props
import Verif.BndProc.Model
import Verif.BndProc.Props
import Verif.Bondi.Bisect
import Verif.Bondi.Bracket
import Verif.Bondi.Flow
import Verif.Bondi.Model
import Verif.Bondi.Props
import Verif.Boundary.Model
import Verif.Boundary.Props
import Verif.C2P.Bounds
import Verif.C2P.Change
import Verif.C2P.Guess
import Verif.C2P.Lemmas
import Verif.C2P.Mirror
import Verif.C2P.Model
import Verif.C2P.Props
import Verif.C2P.Sound
import Verif.C2P.Unique
import Verif.Cached.Model
import Verif.Cached.OffGrid
import Verif.Cached.OffGridModel
import Verif.Cached.Props
import Verif.Classic.Model
import Verif.Classic.Newton
import Verif.Classic.Props
import Verif.Closure.Axes
import Verif.Closure.Fluxes
import Verif.Closure.M1
import Verif.Closure.Model
import Verif.Closure.Props
import Verif.Closure.Relax
import Verif.Closure.RelaxRun
import Verif.Closure.Routes
import Verif.Closure.Search
import Verif.Closure.StageRun
import Verif.Common
import Verif.Cosmo.Model
import Verif.Cosmo.Props
import Verif.Diag.Model
import Verif.Diag.Props
import Verif.Driver.Model
import Verif.Driver.Props
import Verif.FixFlux.Model
import Verif.FixFlux.Polar
import Verif.FixFlux.Props
import Verif.Flags.Model
import Verif.Flags.Props
import Verif.Floors.Model
import Verif.Floors.Props
import Verif.FluxCT.Model
import Verif.FluxCT.Props
import Verif.FluxSweep.Model
import Verif.FluxSweep.Props
import Verif.FmksInit.Model
import Verif.FmksInit.Props
import Verif.Geodesics.Model
import Verif.Geodesics.Props
import Verif.Geodesics.Run
import Verif.Geom.ADM
import Verif.Geom.Calculus
import Verif.Geom.Jacobi
import Verif.GeomUtils.Model
import Verif.GeomUtils.Props
import Verif.GridLookup.Model
import Verif.GridLookup.Props
import Verif.History.Model
import Verif.History.Props
import Verif.History.Sums
import Verif.History.SumsModel
import Verif.Interp.Model
import Verif.Interp.Props
import Verif.KdGrid.Model
import Verif.KdGrid.Props
import Verif.LightBulb.Model
import Verif.LightBulb.Props
import Verif.LightBulb.Split
import Verif.Limits.Model
import Verif.Limits.Props
import Verif.LinAlg.Model
import Verif.LinAlg.Props
import Verif.MOCMC.Cells
import Verif.MOCMC.Model
import Verif.MOCMC.Props
import Verif.MeshRun.CompBounds
import Verif.MeshRun.CompBoundsWit
import Verif.MeshRun.CompModel
import Verif.MeshRun.CompProps
import Verif.MeshRun.Model
import Verif.MeshRun.Positivity
import Verif.MeshRun.PositivityGen
import Verif.MeshRun.PositivityWit
import Verif.MeshRun.Props
import Verif.Metrics.BL
import Verif.Metrics.BLSpin
import Verif.Metrics.Claims
import Verif.Metrics.Flat
import Verif.Metrics.Kerr
import Verif.Metrics.Model
import Verif.Metrics.Spec
import Verif.MomentSource.Model
import Verif.MomentSource.Newton
import Verif.MomentSource.Props
import Verif.MomentSource.Search
import Verif.Moments.Axes
import Verif.Moments.Fields
import Verif.Moments.Model
import Verif.Moments.Props
import Verif.Monopole.Dump
import Verif.Monopole.Evolution
import Verif.Monopole.Model
import Verif.Monopole.Props
import Verif.Monopole.Sph
import Verif.MonteCarlo.Blocks
import Verif.MonteCarlo.Exchange
import Verif.MonteCarlo.Model
import Verif.MonteCarlo.Sampling
import Verif.NetField.Model
import Verif.NetField.Props
import Verif.Opac.Model
import Verif.Opac.Props
import Verif.Output.Model
import Verif.Output.Props
import Verif.Pgen.Chart
import Verif.Pgen.ChartProps
import Verif.Pgen.Flows
import Verif.Pgen.FlowsProps
import Verif.Pgen.Modes
import Verif.Pgen.ModesProps
import Verif.PgenRad.Model
import Verif.PgenRad.Props
import Verif.Progenitor.Model
import Verif.Progenitor.Props
import Verif.RadFloors.Model
import Verif.RadFloors.Props
import Verif.RadSweep.Model
import Verif.RadSweep.Props
import Verif.Recon.Lemmas
import Verif.Recon.Limiters
import Verif.Recon.Model
import Verif.Recon.Odd
import Verif.Recon.Order
import Verif.Recon.Props
import Verif.Recon.Stable
import Verif.Rel.Model
import Verif.Rel.Props
import Verif.Repair.Model
import Verif.Repair.Props
import Verif.Repair.Source
import Verif.Restart.Model
import Verif.Restart.Props
import Verif.Riemann.Change
import Verif.Riemann.Mirror
import Verif.Riemann.Model
import Verif.Riemann.Props
import Verif.Robust.Model
import Verif.Robust.Props
import Verif.RootFind.Lemmas
import Verif.RootFind.Model
import Verif.RootFind.Props
import Verif.Sources.Axes
import Verif.Sources.Model
import Verif.Sources.Props
import Verif.Startup.Model
import Verif.Startup.Props
import Verif.Step.Balance
import Verif.Step.Carry
import Verif.Step.Change
import Verif.Step.Code
import Verif.Step.CodeBalance
import Verif.Step.CodeMirror
import Verif.Step.Consistency
import Verif.Step.Contact
import Verif.Step.Dyn
import Verif.Step.Fixup
import Verif.Step.FixupProps
import Verif.Step.FixupWitness
import Verif.Step.Front
import Verif.Step.Grids
import Verif.Step.High
import Verif.Step.HighRun
import Verif.Step.Joint
import Verif.Step.Mirror
import Verif.Step.Model
import Verif.Step.Order
import Verif.Step.OrderRun
import Verif.Step.Props
import Verif.Step.RadAxes
import Verif.Step.RadConsistency
import Verif.Step.RadFlux
import Verif.Step.RadSolution
import Verif.Step.RadStep
import Verif.Step.Shift
import Verif.Step.Smooth
import Verif.Step.Solution
import Verif.Step.Truncation
import Verif.Step.Units
import Verif.Step.UnitsRun
import Verif.TOV.Model
import Verif.TOV.Pgen
import Verif.TOV.Props
import Verif.Tasks.Lists
import Verif.Tasks.Model
import Verif.Tasks.Props
import Verif.Tasks.Race
import Verif.Tasks.Regions
import Verif.Tasks.Stage
import Verif.Tasks.Theory
import Verif.Tetrads.Model
import Verif.Tetrads.Props
import Verif.Timestep.Model
import Verif.Timestep.Props
import Verif.Torus.FM
import Verif.Torus.Field
import Verif.Torus.Kepler
import Verif.Torus.Model
import Verif.Torus.Props
import Verif.Torus.State
import Verif.Tracers.Model
import Verif.Tracers.Props
import Verif.Tracers.Run
import Verif.Transform.MGRProps
import Verif.Transform.Model
import Verif.Transform.Modified
import Verif.Transform.SphProps
import Verif.Units.Model
import Verif.Units.Props
