
## What is not modelled

* IEEE rounding, overflow, NaN (except explicit outcomes), signed zeros, floating-point atomics (sums over
  particles or cells are exact, so "independent of the order" is a statement about exact sums).
* The libraries: Parthenon (mesh, tasks other than the dependency graph of C59, boundary communication, AMR operators; particle exchange
  and what a dump stores are contracts, stated in C163 and C129), Kokkos, Spiner, singularity-eos and singularity-opac, HDF5, MPI. EOS and opacity calls are function parameters.
* Input parsing (except the constants and flags named in a property), output files other than those of a listed property, the problem generators not listed in a property, `mocmc.cpp` except
  where listed, and the tracing/analysis scripts.
* The compiler, GPUs and data races: a `par_for` is its mathematical meaning.

## Disagreements between the code and the English properties found while proving

Each has a theorem (usually a concrete witness) in the model; the affected claims are `partial` in `MANIFEST.json`.

* The velocity ceiling rescales by `sqrt(g^2-1)/(W^2-1)` (fluid repair, closure, moments), which does not give Lorentz factor `g`.
* `ExpX1RhoU` floor reads the output variable; the specific floor is not enforced; a failed inversion can stay below the floor; density
  injection changes Ye.
* The net-field controller clamps with lo > hi on a decrease, leaves the target; the two-partition trial field is left behind.
* The classic con2prim flags are reversed with respect to the repair; repair with zero weight poisons the cell with NaN;
  `fixup_src` has no flux-factor ceiling; `PurgeParticles` misses the last particle.
* The polar boundary does not flip the radiation flux component; the swarm outflow for inner X2 is registered with inner X1;
  the inflow check is non-finite when the corrected speed reaches 1.
* Cached geometry: coordinates off by one component, off-grid inverse metric uses the lapse of block 0, finite-difference time derivative
  is zero for time dependent metrics. `|X1|` derivative has the wrong sign for negative radius. Boyer-Lindquist: lapse is the reciprocal, metric and inverse
  inconsistent. `Modified` time derivative untransformed. Spherical-to-Cartesian derivative has wrong powers of r.
* A user-supplied degenerate trial vector yields a degenerate tetrad.
* Monopole: `Interpolate` weights 3 instead of 1 at the last point; midpoint stages use the left radius; `a'/r := 1` for
  small r; the shell overlap is 0 when a shell is wider than a cell; `DivideVols` zeroes the central values after averaging.
* `kb_code = 1/energy`; scale-free code constants are CGS.
* Tracers: sampling never reaches the maximum, bounds can cross, advection reads block 0, Bernoulli sign/lapse, Ye never packed.
* Closure: the ceiling caps W but not v, `E` uses `W^2 p`, the robust J repair is a no-op, the number flux adds an unraised H, the
  Eddington factor dips below 1/3, the angle iteration never moves, failure is flagged at the 30th iteration even if converged.
* Moment source: the fluid is still decremented on failure, wrong index for `cov_v`, scattering ignored, unreachable step rescale.
* Geodesics: the second stage uses the force at the old position. History: EM energy flux uses `b^0` for `b_0`; block-0 metric.
* Monte Carlo: lepton exchange carries `u^0`, tuning applied twice, scattering correction unbounded, completion count only sees the last block.
* Radiation time step: per direction, not summed, and uses `W v`.
* Driver: the phi-enforcement conversion overwrites the base state before the last average; net-field changes of earlier stages are lost;
  `InterpolateMatterTo1D` clears the shell arrays once per partition; the tracer purge of list `n` acts on block `n`; missing dependencies
  update/add_rhs, copy_flux_div/add_rhs, sample_bounds/receive, set_scale, check_do_gain, new_dt/update_geom (Tasks/Props.lean);
  `particle_resolution->val[i]` is indexed by block after being resized to 1.
* Progenitor: malformed tables are read out of bounds, radii are assumed evenly spaced, the collapse is set up too slow; mean absorption
  opacities convert units twice; the opacity of a slot may be that of another species; `do_lightbulb` is shadowed in `radiation::Initialize`, so
  the radiation time step is registered with the light bulb too.
* FMKS: stored ISCO uses Z1 for its square and is too small; `x0` may lie above the ghosts. FLRW: dilution is wrong after one- and three-stage
  steps (geometry time of the last stage). Output: `div v` one-sided and with an unset metric factor in 3-D, localisation weight with pi = 3.14.
* Start-up: a progenitor's generator runs on a flat metric; a restart accepts any problem name. `SpacetimeToDevice`: on host builds the mirror shares
  memory with the first buffer, so every odd call stores the new lapse as the previous one. Radiation tests: unguarded `Params::Add` aborts with
  two or more blocks per rank; the Cartesian homogeneous sphere is a half space; the boosted pulse may have a negative time or F > E.
* C114: `SpacetimeMetricInverse(b, X0..X3)` of the cached geometry calls `Lapse(b, X1, X2, X3)`, which is the zone overload `Lapse(k?, ...)`
  of block 0 with truncated coordinates: the inverse is wrong whenever that lapse differs (`ex_inverse_wrong`).
* C116: the stored `dK/dt` of the monopole solver is the 3+1 evolution equation minus `4 alpha K^2` (`curvature_rate_defect`), so a static
  maximal slice of Schwarzschild is reported as evolving; the stored `dalpha/dt` is nonzero there as well (`slice_code_lapse`).
* C117: floor types `X1RhoSie` and `RRhoSie` read `u0_floor`/`u_exp_floor` instead of `sie0_floor`/`sie_exp_floor`.
* C118: ghost zones use the boundary keys of `<parthenon/mesh>`, the flux fix, the pole check and the MOCMC samples those of `<phoebus>`
  (default `gr_outflow`); nothing compares them, and nearly all shipped inputs only set the first (`flux_always_outflow`).
* C119: with `bc_vars = conserved` the radiation part of the outer inflow check is overwritten by the next fill of derived fields.
* C120: `fluid/recon = linear` is accepted with one ghost cell, and the sweep then reads one cell outside the block (`linear_one_ghost`).
* C121: the geometry self-check's relative error ignores pairs with a negative sum, so a wrong negative component is reported as agreement; the
  program's exit status is 1 in every case.  C122: con2prim statistics of several ranks overwrite one file.
* C124: `FixFluxes` clips the mass flux at `gr_outflow` sides but not the electron flux; `ApplyFloors` uses the *conserved* electron variable as the
  electron fraction of injected mass (fixup.cpp:452): composition drifts (`outflow_composition`, `floor_composition`).
* C126: pgen/tov.cpp puts the velocity perturbation along `x1` on Cartesian grids too, ignores negative amplitudes, and stores the pressure floor `Pmin` with a density and energy whose pressure is far smaller.
* C125: with the piecewise linear reconstruction and the default `cfl = 0.8` one stage can drain a cell to a negative density although the stage obeys the CFL condition (`MeshRun.linear_negative`).
* Radiation floors (`fixup.cpp:542-679`, C127): with the default `J0_floor = 0` a cell with negative energy density in gas at rest is set to
  `J = 0` and its flux ratio is `0/0`; without a flux ceiling below 0.999 the repaired flux is not written back to the conserved moments
  (the status `modified` of `Con2Prim` is ignored); with a pressure tensor (MOCMC, M1) the injected energy does not reach the floor; with
  `enable_rad_floors = false` the moments are not recomputed after a fluid floor or ceiling changed the velocity and `enable_rad_ceilings` has
  no effect in this pass.
* C128: with MOCMC the opacities of the flux are those of the previous stage (mocmc.cpp:703, task after the fluxes), interior zones only and without
  `FillGhost`; through every block side radiation streams as in vacuum (`mocmc_sides_transparent`), so the result depends on the decomposition.
* Restart: `dphi_dt`, `next_dphi_dt_update_time`, `phi_factor`, `do_gain_reducer`, the Monte Carlo weights and counters, the random streams, the MOCMC opacities and
  `has_face_speeds` are not saved (C129); restarting from the dump of cycle 0 drops `dt_init_fact`.
* C135: the repair of failed inversions before the exchange reads ghost cells of the previous stage, and the repair after it acts on interior cells only:
  a failure next to a block side gives a result that depends on the decomposition (`repair_depends_on_blocks`, `ghost_not_repaired`).
* C136/C138: nothing forbids an adiabatic index above 2, for which the conserved variables do not determine the state (`stiff_not_unique`); the result of
  the inversion depends on the guess stored in the cell (`guess_matters`), which is neither exchanged nor saved (`c2p_mu`, fluid.cpp:224).
* C139: with the linear reconstruction (limiter of reconstruction.hpp) and the default CFL number 0.8 one stage can drive the electron number of a cell negative although the flow is uniform and all electron fractions lie in [0, 7/10] (`ye_negative`): the face value of the electron fraction may be up to the neighbour average while the CFL number exceeds one half.
* C141: the temperature search of the `oned` source solver assumes the rest-frame relaxation of J, but in a moving gas the update that follows solves the lab-frame equations and leaves another J (`moving_gas_mismatch`: 19/13 instead of 13/9 at v = 3/5), so the gas does not end at the temperature found; all retries share one iteration counter (`search_exhausted`) and the first retry repeats the first interval (`first_retry_repeats`).
* `make_positive` bounds from below by the fixed number `EPS()` (about 2e-15) whatever the unit of density: a state whose mass-energy density in code units is smaller is not recovered by the inversion (`regulariser_matters`), and its signal speeds are wrong.
* `mp5_subcalc` compares `(f - f_j)(f - f_MP)` with the absolute number `1e-12` (reconstruction.hpp:196, 203): the limiter never acts where the values differ by less than about `8.7e-7` in code units (`mp5_limiter_off`), so low-density regions are reconstructed without any limiter and to negative densities (`mp5_negative`); the result of a run depends on the unit of density.
* C145: where the radiation flux vanishes the M1 search from conserved moments starts in the direction (1,1,1) (closure_m1.hpp:190-193, `sgn(0) = 1`), so the
  result is not the reflected one when the problem is reflected (`fromCon_not_mirror`; over the reals - in doubles the square of `1.e3*min` underflows).
* C148: after clamping the velocity `SourceFixupImpl` sets `W = gamma_max` (fixup_src.cpp:259) although the rescaled velocity does not have that Lorentz factor, so
  the radiation is converted in a frame that is not the gas frame (`source_fixup_wrong_frame`); a stored `tilPi` of the failed state is reused
  (`source_fixup_stale_tensor`); `enable_source_fixup` has no effect unless `enable_rad_floors` is set (fixup_src.cpp:331-336).
* C149: `SolveClosure` keeps the angle at pi, so in a moving gas the M1 tensor from conserved moments has the wrong direction whenever the flux is across the motion, for every
  flux factor below one (`routes_disagree_across`); with `number_conserve` the energy is converted in `GetConTilPiFromCon` (closure_m1.hpp:79) and again in `Con2Prim`
  (closure.hpp:310) (`number_route_wrong`).
* C152: with the M1 closure in moving gas the stored radiation energy exceeds `n_m n_n T^{mn}` (C46) while the energy flux is the right one, so that energy is not transported
  by its own flux: for a beam along gas at 3/5 c the rates differ by 539/512 (`moving_beam_wrong`).
* C159: the limiter functions of `reconstruction.hpp` (not called) follow three different conventions: `barth_jespersen` multiplies the central slope, `nolim` and `overbee_alpha` want the left
  difference with the opposite sign, `minmod` is the monotonised central limiter with factor 3/2; `ltanh`, `overbee` do not reproduce straight lines.
* C160: `DumpToTxt` writes `dK/dr` in the column of `dK/dt` and names 7 of 21 columns (monopole_gr.cpp:684-700).
* Classic/Torus/Bondi/test problem deviations are listed with their claims (C78-C94).

## Scheduler contract (assumption of C95-C100)

Parthenon's task runtime is not in the repository. `Tasks/Model.lean` assumes: regions are executed one after the other; a task starts
after the tasks it was given as dependency are complete; `local_sync` makes dependents wait for the task in all lists;
`once_per_region` runs the task in the first list only; otherwise any order. A receive waits for the matching sends. Task bodies are
atomic and only constrained by their footprints (what they read, overwrite, accumulate), which `Tasks/Regions.lean` reads off the code.
