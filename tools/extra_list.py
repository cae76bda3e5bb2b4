P("C56","Signal speeds stay inside the light cone","For every lapse, shift and sub-light state, the outgoing and ingoing characteristic speeds used for the numerical flux are ordered, bracket the fluid's coordinate velocity and never exceed the coordinate speed of light beyond the documented regularisation.","every metric, velocity and sound/Alfven speed",INF,["src/fluid/riemann.hpp: FluxState::prim_to_flux"],"characteristic speed formula of prim_to_flux over the reals","square-root inequalities with an exact square certificate")
P("C57","Fluxes are the components of the stress-energy tensor","Within floors and ceilings the conserved and flux vectors used at a face are the projections and spatial components of the mass current, stress-energy tensor and ideal induction tensor, and the conserved vector equals the one used by the update; the induction fluxes are antisymmetric in their two directions.","every metric and primitive state, both energy formulations","Three separately coded formulas must agree for every state, including shift, off-diagonal metric and field.",["src/fluid/riemann.hpp: FluxState::prim_to_flux","src/fluid/prim2con.hpp: p2c","src/fluid/tmunu.hpp"],"prim_to_flux, p2c, tmunu","3+1 algebra; negation witness for the covariant energy slot")
P("C58","Constrained transport survives the boundary flux fix","With the order of operations of a Runge-Kutta stage (edge averaging, then boundary flux fix) div B at a node whose cells are all interior is unchanged, for every boundary configuration. (False next to a polar boundary: witness.)","every flux field, block, boundary configuration, node and step",INF,["src/phoebus_driver.cpp: RungeKuttaStage","src/fixup/fixup.cpp: FixFluxes","src/fluid/fluid.cpp: FluxCT"],"FluxCT followed by FixFluxes","frame lemma for FixFluxes plus C17; rational witness at the pole")
P("C59","Stage update does not depend on the task schedule","Every order of the update tasks that respects the declared dependencies gives the same new state, including geometric source terms. (False: the update does not wait for the source terms.)","every schedule allowed by the task dependencies, every state","A test runs one schedule; the claim is over all linear extensions of the dependency graph.",["src/phoebus_driver.cpp: RungeKuttaStage"],"task list of sync_region_3 with its dependencies and effects","characterise all legal schedules, execute symbolically")
P("C60","Monopole solver cadence","The monopole solver runs in a fixed number of leading stages determined by run_n_times, in every stage when it is negative, and never when static or disabled, however long the run.","every run length and setting",INF,["src/phoebus_driver.cpp: RungeKuttaStage"],"counter logic of RungeKuttaStage","induction on the number of stages")
P("C61","Inversion recovers the primitive state","For every geometry and every admissible primitive state (within floors and ceilings, h>=1) whose mass-energy density is at least the constant EPS of the code, 1/(hW) is an exact root, inside the search interval, of the robust inverter's residual built from the state's conserved variables, and unwrapping that root returns exactly the original density, energy, pressure, velocity, field and electron fraction and leaves the conserved variables unchanged, in both energy formulations. (Below EPS, a fixed number whatever the unit of density, no root gives the state back.)","every metric, lapse, shift, magnetised moving state, EOS and formulation","Round-trip identity over a continuum of states and metrics.",["src/fluid/con2prim_robust.hpp: Residual, ConToPrim::solve","src/fluid/prim2con.hpp: p2c"],"Residual, solve, p2c over the reals (small = 0)","reduce to the scalars W, v.B, B^2, H; Cauchy-Schwarz for the velocity bound; field_simp/ring")
P("C62","The inversion's root search is always well posed","For every conserved state whatsoever the residual is negative at 0 and nonnegative at 1, is continuous for a continuous EOS, has a root in (0,1], the search never aborts, returns a value in [0,1], and on convergence a true root is within tolerance.","every conserved state, EOS with nonnegative pressure, stored guess and iteration cap","Quantifies over all (also unphysical) conserved states.",["src/fluid/con2prim_robust.hpp: Residual::operator(), ConToPrim::solve","src/phoebus_utils/root_find.hpp: regula_falsi"],"Residual plus the regula falsi model of C08","monotone bounds on nua, continuity, intermediate value theorem, C08/C09")
P("C63","The inversion's output respects floors and ceilings","For every conserved state the returned density, specific energy and Lorentz factor respect their floors and ceilings, and bounds used are flagged and leave consistent conserved variables. (The Lorentz factor ceiling is not respected: witness at an exact root.)","every conserved state and every value returned by the root finder",INF,["src/fluid/con2prim_robust.hpp: Residual, ConToPrim::solve"],"solve for an arbitrary mu","case analysis on the clamps; velocity norm identity; rational witness")
P('C64','Particles inside the horizon are purged','After a purge no active particle lies at or inside the horizon radius and every particle outside is kept. (The loop stops one slot early: the last active particle is never examined.)','every swarm, any number of particles',INF,['src/fixup/fixup_particles.cpp: PurgeParticles'],'The purge as a function on the activity mask.','Exact characterisation by case analysis; a surviving particle as witness.')
P('C65','Monte Carlo emission is unbiased and independent of weights','For every emissivity, metric cell and time step, the energy a cell emits in packets, averaged over the rounding draw, equals the trapezoidal integral of its emissivity times the cell four-volume, whatever the base weight and the tuning factor; the number of packets differs from the number due by less than one, is never negative, and is zero when nothing is due.','every emissivity, frequency grid, cell volume, time step, weight, tuning factor and random draw','A statement about an average over a continuum of draws and about every parameter choice.',['src/radiation/monte_carlo.cpp: MonteCarloSourceParticles, GetWeight'],'dN, randomised rounding and packet weights over the reals','trapezoid identity by induction; interval integral of the rounding function')
P('C66','Every new packet gets its own slot','Over all species and cells of a block the packets created in a step are numbered 0 to N-1 without gaps, collisions or overruns.','every number of species, block shape and number of packets per cell','All count arrays of all sizes.',['src/radiation/monte_carlo.cpp: MonteCarloSourceParticles (starting_index)'],'the prefix-sum loop over species and cells','induction over the zone list, existence and uniqueness, counting argument for the range')
P('C67','Packet frequencies follow the emission spectrum','Every candidate frequency lies in the configured range, is looked up inside the table and is accepted with a probability in [0,1]; packets are only created in cells that emit; and the mean energy per logarithmic frequency carried by the packets is the piecewise-linear interpolant of nu J(nu) times the cell four-volume.','every emissivity, frequency grid and stream of draws','Distributional claim over a continuum of draws.',['src/radiation/monte_carlo.cpp: MonteCarloSourceParticles (rejection loop, dNdlnu)'],'dNdlnu, its maximum, the rejection loop on an arbitrary stream','fold invariants; integral of the piecewise-linear acceptance probability equals the trapezoid sum')
P('C68','Emitted packets are null and have the drawn energy in the fluid frame','For every metric, fluid velocity, frequency and direction drawn, the wave vector given to a packet is null and its energy measured by the emitting fluid is h nu; the polar direction cosine is uniform in [-1,1].','every 3+1 metric, sub-light velocity, frequency and pair of draws',INF,['src/radiation/monte_carlo.cpp: MonteCarloSourceParticles','src/geometry/tetrads.hpp: Tetrads'],'tetrad construction of C38 plus the direction sampling','frame orthonormality (C38), trigonometric identities')
P('C69','Monte Carlo exchange conserves energy, momentum and lepton number','Through any history of emission, absorption, transport and four-force updates the sum of the fluid and packet four-momentum along every symmetry of the metric is constant, and so is the total lepton number. (Lepton number fails for moving fluid.)','every history, emitted packets, random draws, opacities, time steps, number of cells and packets','Invariant over unbounded histories.',['src/radiation/monte_carlo.cpp: MonteCarloSourceParticles, MonteCarloTransport','src/radiation/radiation.cpp: ApplyRadiationFourForce','src/phoebus_driver.cpp: MonteCarloStep'],'state machine over fluid fields and packet lists','closed form of the transport loop, induction over the history; exact defect formula for leptons')
P('C70','Packet transport does not depend on processing order','The five-force deposited in every cell and the set of surviving packets are the same for every order in which the packets are processed.','every permutation of the packets','Quantifies over schedules of the parallel loop.',['src/radiation/monte_carlo.cpp: MonteCarloTransport'],'transport loop as a fold with additive deposits','closed form is a sum over the list, invariant under permutation (exact arithmetic)')
P('C71','Absorption follows the exponential law','A packet crossing optical depth tau in a step is absorbed with probability exactly 1 - exp(-tau) over its uniform draw, never without opacity and never when absorption is off.','every opacity and time step, all draws','Probability over a continuum of draws.',['src/radiation/monte_carlo.cpp: MonteCarloTransport'],'the absorption test','logarithm monotonicity, Lebesgue measure of an interval')
P('C72','Sampling resolution control is bounded','The emission correction always lies in [3/4,4/3], points towards the target, and the tuning factor stays positive through any history; the scattering correction is bounded likewise and the completion test waits for all packets. (The effect on the packet number is the square of the correction, the scattering correction is unbounded, and the completion test only sees the last block.)','every history of counts, including zero and negative ones','Unbounded histories of arbitrary counts.',['src/radiation/monte_carlo.cpp: MonteCarloUpdateTuning, SetWeight, MonteCarloCountCommunicatedParticles'],'tuning state machine with division by zero explicit','induction over the history; witnesses')
P('C73','Fluid geometric sources are those of general relativity','For every metric, metric derivative and symmetric stress-energy tensor the momentum source is sqrt(-g) 1/2 T^{mn} d_l g_mn, so it vanishes along every coordinate the metric does not depend on; the energy source is sqrt(-g) 1/2 T^{mn} d_t g_mn in the covariant formulation (zero in a stationary spacetime) and -sqrt(-g) T^{mn} nabla_m n_n in the Valencia formulation (the work of gravity in a static metric); all sources vanish in flat space.','every 3+1 metric, its derivatives and every symmetric stress-energy tensor','Index contractions over all tensors; a wrong index order is invisible in diagonal or stationary tests.',['src/fluid/fluid.cpp: CalculateFluidSourceTerms','src/geometry/geometry_utils.hpp: SetConnectionCoeffFromMetricDerivs'],'source term loops of CalculateFluidSourceTerms','reindexing of double sums, symmetry cancellation; small = 0 in robust::ratio')
P('C74','Radiation geometric sources agree with the fluid ones','The stress-energy tensor assembled from the stored radiation fields is symmetric and its projections along the normal observer are exactly the stored energy, flux and pressure; its geometric sources are the same functions of the tensor as those of the fluid, so the radiation momentum along a symmetry is not changed by them.','every metric, fluid velocity, radiation state and symmetric closure tensor',INF,['src/radiation/moments.cpp: CalculateGeometricSourceImpl'],'con_T assembly and source contractions of CalculateGeometricSourceImpl','projection algebra, reuse of the contraction lemmas of C73')
P('C75','The fluid time step meets the CFL condition','For every state of every block, whatever the order of the reduction, the time step times the directional sum of the larger of the cell and face signal speeds over the cell width is at most the CFL number in every interior cell, is attained or is the largest representable step, and is bounded below by the CFL number over the crossing rate; the cell speeds are at most the coordinate speed of light.','every block, mesh, metric, state, dimension and reduction order','All meshes and reduction schedules; a min over unboundedly many cells.',['src/fluid/fluid.cpp: EstimateTimestepBlock','src/fluid/prim2con.hpp: signal_speeds','src/fluid/riemann.hpp: llf, hll'],'signal speeds, face speed returned by the solvers, min reduction over a list of cells, the shared has_face_speeds flag','fold invariants of min; square-root inequalities for the light bound')
P('C76','The radiation time step meets the CFL condition','For every species, direction and cell, the time step times the radiation signal speed is at most the CFL number times the cell width, summed over directions; the signal speed lies between the advection speed of the fluid and the speed of light with a weight strictly between 0 and 1 that decreases with opacity. (The sum over directions is not bounded, and the advection speed uses W v for v.)','every opacity, metric, velocity, cell and species',INF,['src/radiation/radiation.cpp: EstimateTimestepBlock'],'radiation signal speed and min reduction','monotonicity of tanh, fold invariants; rational witnesses')
P('C77','Radiation fluxes are consistent and have the right limits','For every metric (with shift), face state and opacity the radiation flux is a convex blend of a free-streaming and a diffusion LLF flux; for equal states it is the physical flux of the radiation stress-energy tensor up to the blend difference; for matter at rest with a diffusive flux it is exactly the diffusion law and it vanishes as the opacity grows; the dissipation speed never exceeds the speed of light; energy floor, flux-factor and Lorentz-factor ceilings are respected; degenerate faces carry no flux. (The Lorentz-factor ceiling is not respected.)','every closure, metric, pair of face states, opacity and direction',INF,['src/radiation/moments.cpp: CalculateFluxesImpl'],'the whole face loop for one species, with the closure tensor a parameter','algebraic decomposition; 3+1 projections of C74; Cauchy-Schwarz for the speeds; limits of tanh')
P('C78','Radiation conserved and primitive fields agree','Converting admissible primitive radiation fields to conserved ones and back returns them exactly without flagging; after any conversion the two sets describe the same radiation; a cell is flagged exactly when the inversion of some species failed. (The flag is shared by the species: the last one processed wins.)','every metric, velocity, radiation state, number of species and processing order',INF,['src/radiation/moments.cpp: MomentCon2PrimImpl, MomentPrim2ConImpl'],'cell bodies of the two tasks on top of the closure model; fold over species for the flag','inverse of the linear closure system (C46), case analysis on the status')
P('C79','Radiation reconstruction reads what it wrote','For any number of species and components every (species, component, direction) has its own slot inside the array, the slot read by the flux loop is the one written by the reconstruction of that variable, every variable is handled exactly once, and the face gradients of the energy density are exact for quadratic fields and zero in unresolved directions.','every number of species, component, direction, field and cell','All sizes of the index space and all fields.',['src/radiation/moments.cpp: ReconstructionIndexer, ReconstructEdgeStates'],'index arithmetic and gradient stencils','arithmetic modulo; ring identities')
P('C80','The monopole solver integrates the constraints of general relativity','The outward integration of the radial metric and extrinsic curvature uses exactly the slopes demanded by the Hamiltonian and momentum constraints of the matter sources, and each step is the midpoint rule for them, for every matter profile and grid.','every matter profile, radius, grid spacing and state','Identity between code formulas and field equations over all states.',['src/monopole_gr/monopole_gr_utils.hpp: GetARHS, GetKRHS','src/monopole_gr/monopole_gr.cpp: IntegrateHypersurface'],'right-hand sides and one integration step (small = 0)','solve the constraint equations for the derivatives by field_simp')
P('C81','The classic inversion solves the right equations','Feeding the classic inversion the conserved state of a physical primitive state, that state\'s density and temperature are an exact root of its two equations, and from them pressure, energy and velocity come out exactly; the stored signal speed lies between the fluid speed and the speed of light. (The electron fraction is ignored by the residual, and the initial density guess uses the stored W v as v, so it is not a number for W^2 > 2.)','every metric, magnetised moving state and EOS independent of Ye',INF,['src/fluid/con2prim.hpp: ConToPrim::Setup, Residual, Finalize'],'residual, scratch scalars, final primitive recovery over the reals','algebra on the conserved image of a primitive state (shared with C2P lemmas); counterexamples for Ye and for the guess')
P('C82','The classic Newton solver stays in range','For every residual function, tolerance and iteration count the density guess stays between zero and D and the temperature stays nonnegative; backtracking returns a strictly smaller residual or the smallest factor; success means the last correction was below the relative tolerance; an exact root with a nonsingular difference Jacobian is returned unchanged after one pass.','every residual function, start, tolerance, iteration limit','Iteration over arbitrary functions and any number of passes.',['src/fluid/con2prim.hpp: ConToPrim::Solve'],'the loop with differencing, damping and backtracking over an arbitrary residual function','induction over backtracking trials and over iterations')
P('C83','Samples tile the sphere of directions','After reconstruction the angular cells of a zone\'s Monte Carlo samples cover every direction exactly once, so solid angles add up to 4 pi and an isotropic sample field has vanishing Eddington tensor; the tensor is always symmetric, traceless and realisable, and whole-bin Doppler shifts are exact. (The azimuthal cut is misplaced by a quarter turn and may create cells of negative solid angle; samples on a cell edge keep a stale cell.)','every number of samples, direction, intensity and previous cell content','Any number of samples in any directions.',['src/radiation/mocmc.cpp: MOCMCReconstruction, MOCMCEddington'],'sequential splitting of cells, weights of C50, second moments, frequency shift','induction over samples: additive functions of cells, half-open tiling; integrals of C50')
P('C84','Samples exchange energy with the fluid consistently','The exchange between samples and fluid conserves total energy and momentum for any number of species and leaves the lepton number alone; mean opacities lie within the range of the bins; sample intensities stay nonnegative and, for fluid at rest, move towards thermal and angle averaged values, with equilibrium stationary. (The absorption coefficient is never used for the samples, equilibrium in a moving fluid is not stationary, and one frequency bin makes matter transparent.)','every state, spectrum, opacity, time step, number of species and samples',INF,['src/radiation/mocmc.cpp: MOCMCFluidSource'],'cell body on top of the implicit source update of C47','telescoping over species; convexity; counterexamples')
P('C85','Samples are created, reflected and counted correctly','Every allocated sample slot is filled by exactly one zone, new samples lie in their zone and are light rays of unit fluid-frame frequency with positive intensity, boundary samples are mirrored into the domain with reversed direction, and the reported count is the number of samples. (With several partitions only the last is counted.)','every distribution of counts, metric, velocity, random numbers, positions','All counts, metrics and positions.',['src/radiation/mocmc.cpp: MOCMCInitSamples, MOCMCSampleBoundaries, MOCMCUpdateParticleCount'],'running start index, tetrad transformation of C38, reflection, counter','induction on zones; tetrad orthonormality; linear arithmetic')

P('C86','The torus is in equilibrium','The accretion torus created at start is an exact hydrostatic equilibrium of the Kerr black hole: the fluid moves on circles with constant u^t u_phi, pressure gradients balance gravity and rotation in radius and polar angle, the enthalpy vanishes at the inner edge and is stationary on a geodesic at the requested pressure maximum where the density is one, all gas lies on one adiabat, and the velocity stored in code coordinates reproduces this flow.','every spin, inner edge, pressure maximum, adiabatic index, position outside the horizon','Identity between code formulas and the equations of motion at all points.',['src/pgen/torus.cpp: log_enthalpy, lfish_calc, ucon_norm, GetStateFromEnthalpy, ProblemGenerator','src/geometry/mckinney_gammie_ryan.hpp: bl_to_fmks'],'log enthalpy, velocity, ideal-gas state, conversion of velocities; ideal gas branch only','derivative of the Fishbone-Moncrief potential for a general stationary axisymmetric metric, instantiated on the Boyer-Lindquist metric; uniqueness of the circular flow; isometry of C37')
P('C87','The initial magnetic field is divergence free and normalised','The magnetic field created from the vector potential has exactly zero divergence in the discrete sense kept by the evolution, is confined to the dense part of the torus, and after normalisation the plasma beta equals the requested value in either normalisation style; without magnetisation it is zero.','every density field, metric, grid, potential and target',INF,['src/pgen/torus.cpp: ProblemGenerator, PostInitializationModifier, ComputeBetas'],'corner potential, centred curl, reductions, scaling','linear algebra on the stencils; scaling of maxima and minima')
P('C88','Torus grid, tracers and radiation are set up as requested','Exactly the requested number of zones lies inside the horizon; floors and jitter keep the state within bounds; subsampling is an average; the radiation temperature search is bracketed and splits the pressure; the requested number of tracers is created with unique identifiers and masses that add up. (With several blocks per rank too many tracers are created, masses use counts taken before the tracers are placed, and only one flux component is reset.)','every resolution, horizon radius, block decomposition, random numbers',INF,['src/pgen/torus.cpp: ProblemModifier, ProblemGenerator, PostInitializationModifier, GasRadTemperatureResidual'],'range selection, per-block counts, masses, floors','linear arithmetic, intermediate value theorem, counterexamples')
P('C89','Bondi initial data is the steady transonic accretion flow','The spherical accretion state created at start is the steady transonic Bondi-Michel solution: the temperature search terminates, does not abort and returns (to its tolerances) the unique solution that is supersonic inside and subsonic outside the sonic radius; mass flux and specific energy are the same at every radius; the flow passes the sonic radius at the local sound speed; and the velocity stored in code coordinates reproduces the infall. (At exactly the sonic radius the search returns a temperature several times too large, and far outside the run aborts.)','every sonic radius from 3 to 40000, every radius from 2 to twenty sonic radii, every tolerance, every code coordinate mapping',INF,['src/pgen/bondi.cpp: get_bondi_temp, ProblemGenerator','src/geometry/mckinney_gammie_ryan.hpp: bl_to_fmks'],'bisection loop, solution constants, gas state, horizon shift, velocity conversion; gamma = 1.4, spin zero','loop invariant and halving; calculus on the Bernoulli function; Bernoulli inequality for the guess; isometry of C37')
P('C90','Chart-independent initial states','A state prescribed in inertial Cartesian coordinates and run in a curvilinear chart of flat space (boosted, snake, inchworm) is the same physical state: the four-velocity and magnetic four-vector the evolution reconstructs from the stored variables are the images of the prescribed ones under the change of coordinates, and scalars are unchanged. (In the inchworm chart the Jacobian is wrong and the x velocity is scaled by 1-a^2k^2 at the origin.)','every velocity, magnetic field, point, lapse, shift and chart parameter',INF,['src/pgen/linear_modes.cpp: ProblemGenerator','src/pgen/rotor.cpp: ProblemGenerator','src/geometry/snake.hpp','src/geometry/boosted_minkowski.hpp','src/geometry/inchworm.hpp'],'Jacobians, transformation and storage formulas of the two generators','derivative of the chart, isometry, 3+1 split; counterexample for inchworm')
P('C91','Linear modes are eigenmodes and return after one period','The wave data solve the linearised equations of relativistic MHD (mass, energy, momentum, induction, solenoidal constraint, all taken from the stress tensor the code evolves) at every point and time up to rounding of the tabulated constants; at the final time the run sets, the exact solution equals the initial data cell by cell when the coordinate drift is a whole number of wavelengths; the final time does not depend on the block decomposition. (The adiabatic index is not checked; drift is ignored; rotor divides the final time by the lapse once per block.)','every amplitude direction of the six modes, every point, time, phase, lapse and drift',INF,['src/pgen/linear_modes.cpp: ProblemGenerator','src/pgen/rotor.cpp: ProblemGenerator'],'mode tables, perturbation, final time','first-order expansion of the modelled stress tensor, dispersion relations with rigorous bounds on pi')
P('C92','Test problems start with the requested velocity','The three-velocity recovered from the stored variables is the velocity requested in the input, for every subluminal input (Kelvin-Helmholtz, advection, rotor). (The shock tube stores a velocity that is always slower than requested and accepts superluminal inputs.)','every velocity and metric',INF,['src/pgen/kh.cpp','src/pgen/advection.cpp','src/pgen/rotor.cpp','src/pgen/shock_tube.cpp'],'velocity storage of the four generators','algebra with square roots; strict inequality for the shock tube')
P('C93','Blandford-McKee data is a slice of an exact solution','Density, pressure and velocity inside the shock are an instant of an exact homologous solution of relativistic hydrodynamics; the Lorentz factor is below the requested value everywhere, tends to it at the shock, and the gas outside is at rest.','every shock Lorentz factor above 1, radius, time and normalisation',INF,['src/pgen/blandford_mckee.cpp: ProblemGenerator'],'velocity, density, pressure formulas','derivatives of the homologous solution; substitution')
P('C94','Energies, energy deposits and tracers of the test problems','The energy found from density and pressure lies inside the table and within tolerance of the exact value, is exact for an ideal gas, and the run stops rather than continue outside the table; the Sedov explosion deposits exactly the requested energy when shells tile the inner sphere; tracers are not created in excess and have distinct identifiers. (Friedmann clears only one velocity component of three cells; in one dimension twice too many tracers with colliding identifiers are created; Sedov deposits nothing when the first cell is too wide.)','every equation of state, density, pressure, grid and block decomposition',INF,['src/pgen/pgen.hpp: energy_from_rho_P','src/pgen/sedov.cpp','src/pgen/friedmann.cpp','src/pgen/advection.cpp: PostInitializationModifier'],'root find, deposit, loop with shadowed index, counts and identifiers','root-finder theorems, telescoping sum, induction over cells')
P('C95','The result of a task region does not depend on the schedule','Whatever order the task runtime chooses among those compatible with the declared dependencies, for every number of blocks or partitions, the flux region, the recovery-and-repair region, the net-field region when it does not retune, the end-of-stage region (unless geometry is time dependent and radiation is on) and the cooling-function region leave the same state; and no region deadlocks.','every schedule, number of task lists, configuration flag, initial state and every behaviour of the task bodies within their declared reads, writes and accumulations',INF,['src/phoebus_driver.cpp: RungeKuttaStage','src/phoebus_driver.cpp: RadiationPostStep'],'task graphs with footprints for every region; Parthenon scheduler contract as assumption','non-colliding tasks commute; two linear extensions of the same order give the same result by induction; race freedom for all list counts by lifting a finite three-role graph')
P('C96','Races in the task graphs','All remaining regions should also be schedule independent. (They are not: the update races with the addition of sources, the saved flux divergence with it too, MOCMC boundary treatment with transport, net-field retuning and the light-bulb gain flag and the monopole deposit between partitions, the radiation time step with the geometry update, Monte Carlo blocks through the shared random pool. Each race is exhibited by two admissible schedules; adding the missing dependencies makes each region deterministic; with one partition those between partitions vanish.)','every schedule, number of lists and task behaviour',INF,['src/phoebus_driver.cpp: RungeKuttaStage','src/phoebus_driver.cpp: RadiationPostStep','src/phoebus_driver.cpp: MonteCarloStep'],'same task graphs, with and without the missing edges','kernel-evaluated pair of schedules for each race; race-freedom theorem for the repaired graph')
P('C97','A step is the Runge-Kutta scheme','Through all stage containers, their aliasing with the base container, the in-place average and the single copy of primitives, one step leaves in the base container exactly the state of the low-storage Runge-Kutta scheme applied to the state at the beginning of the step, with matching primitives, whatever stale data the stage containers held.','every integrator (any number of stages and coefficients), right-hand side, repair operation, time step and previous contents',INF,['src/phoebus_driver.cpp: RungeKuttaStage','src/phoebus_driver.cpp: Step'],'memory of containers indexed by stage, stage as a memory update','simulation invariant: container s holds stage s, base is untouched until the last stage')
P('C98','Net-flux enforcement does not disturb the evolution','Enabling phi enforcement should only add the requested net flux. (It holds for single-stage integrators only; otherwise the base state is overwritten before it is averaged in the last stage, so rk2 advances by 3/2 of the step, changes asked for in earlier stages are lost and the last one is weighted by 1-beta.)','every integrator, right-hand side, net-field operator and state',INF,['src/phoebus_driver.cpp: RungeKuttaStage','src/fixup/fixup_netfield.cpp: ModifyNetField','src/fluid/fluid.cpp: PrimitiveToConserved'],'same memory model with the conversion on the stage container','exact formula for the last stage; rk2 and net-flux corollaries')
P('C99','The monopole solver sees all matter','The shell density used by the monopole solver is the matter of all cells of the mesh, however it is split into partitions. (True for one partition; with more the arrays are cleared by every partition and only the last deposited one counts.)','every list of partitions, cells, radial grid and order of execution',INF,['src/monopole_gr/interp_3d_to_1d.hpp: InterpolateMatterTo1D','src/phoebus_driver.cpp: RungeKuttaStage'],'deposit per partition with the zeroing','induction over partitions; additivity over cells; exact condition')
P('C100','Tracers of every block are purged','At the end of a step the tracers inside the horizon are removed on every mesh block, however the mesh is split into partitions, and no tracer outside is touched. (Task list n purges block number n, not the blocks of partition n: with the default single partition only block 0 is ever purged; and the slot C64 misses.)','every swarm, horizon, number of blocks and partitions',INF,['src/phoebus_driver.cpp: RungeKuttaStage','src/fixup/fixup_particles.cpp: PurgeParticles'],'swarms of all blocks, inclusive loop bound from the largest active slot, block of each list','block-wise and slot-wise characterisation; iff for the survivor')
P('C101','The progenitor table is read as written','For a file whose lines are comments, carry no numbers, or carry eleven numbers, the number of points is the number of data lines and sample i of every column is the number in that column of the i-th data line. (Any other file is not rejected but makes the program read or write outside its arrays, and the function that returns the mass of the table does so for every table.)','every list of lines, tokens and columns',INF,['src/progenitor/ascii_reader.cpp: readtable, calculatemass','src/progenitor/progenitordata.cpp: Initialize'],'lines as token lists; the eleven vectors; out-of-bounds access is an explicit none','induction over the lines; column lengths by counting; iff for definedness')
P('C102','Progenitor profiles are reproduced','Looking a profile up at a tabulated radius returns the tabulated value, and in between a value between the two neighbouring samples. (The samples are placed on a regular grid whatever the radii column says, so the first part holds for every profile exactly when the radii are evenly spaced.)','every table size, radii, profile and radius, over every ordered field with floor',INF,['src/progenitor/progenitordata.cpp: Initialize','src/pgen/progenitor.cpp: ProblemGenerator'],'regular-grid data box with linear interpolation','floor and convexity arguments; affine profile as witness for the converse')
P('C103','The collapsing star moves as tabulated','The velocity set up on the grid is the tabulated radial velocity, along the radius vector of the cell. (The direction is right; the speed is v sqrt(1+v^2)/sqrt(1+v^2+v^4), always below the tabulated one, because the Lorentz factor is computed as if v already contained it.)','every three-metric, velocity and cell off the axis',INF,['src/pgen/progenitor.cpp: ProblemGenerator','src/phoebus_utils/relativity_utils.hpp: GetLorentzFactor'],'stored velocity, measured velocity, spherical-to-Cartesian Jacobian','algebra with square roots; the C37 inversion for the direction')
P('C104','Opacities do not depend on the choice of units','The absorption and scattering coefficients used by the evolution are the physical ones (CGS) expressed in code units, for every choice of mass and length unit. (True for the spectral coefficients and for mean scattering; the mean absorption table is built from an opacity that already converts and is converted again, which for a gray opacity is wrong by mass unit over length unit squared.)','every opacity model, frequency average, unit system and state, over every field',INF,['src/microphysics/opac_phoebus/opac_phoebus.cpp: Initialize'],'opacities as functions, the unit wrappers and the mean as operators on them','unfolding for scattering; exact factor and iff for gray absorption')
P('C105','A radiation slot is one species','Every stage of the radiation evolution uses the same neutrino species for a slot of the radiation fields. (The transport uses the list of enabled species, the opacities of the moment scheme the fixed list of all species: they agree exactly when no species is enabled after a disabled one.)','every build option and slot',INF,['src/radiation/radiation.cpp: Initialize','src/radiation/radiation.hpp: species','src/radiation/moments.cpp: MomentCalculateOpacities','src/radiation/moments_source.cpp: MomentFluidSource'],'build options and both lists','case analysis over the complete finite set of build options')
P('C106','Horizon radius, innermost stable orbit and inner reference radius of FMKS','The code coordinate xh of the horizon maps to the outer Kerr horizon for every spin; the stored innermost stable orbit is that of the black hole; the smoothing reference x0 lies at or below every ghost face so that the polar map is monotone on the whole grid. (The horizon is right; the stored ISCO is below the true one for every spin below 1 because Z2 uses Z1 in place of its square; x0 is at or below the ghosts exactly when the innermost ghost face is not negative.)','every spin, grid extent and ghost depth, over the reals',INF,['src/geometry/fmks.cpp: Initialize'],'the parameters computed at initialisation','algebra with square and cube roots, monotonicity, exact iff')
P('C107','Adiabatic expansion in FLRW','A homogeneous fluid at rest in an expanding universe dilutes as the inverse cube of the scale factor and its energy obeys dU = -P dV, also after every step of the integrator. (The source terms give the exact law; after a step the density is right only for the integrators whose last stage is evaluated at the end of the step: two-stage is right, one- and three-stage are too high.)','every scale factor, density, pressure, time and step, over the reals',INF,['src/geometry/flrw.hpp','src/geometry/flrw.cpp','src/fluid/fluid.cpp: CalculateFluidSourceTerms','src/phoebus_driver.cpp: RungeKuttaStage','src/pgen/friedmann.cpp: ProblemGenerator'],'rest-frame tensor, source term, stage time and geometry time','derivative of the energy law, unrolled stage sequence, iff')
P('C108','Output diagnostics','The sound speed, the divergence of the velocity and the localisation weight written to the output are the physical quantities. (The sound speed is subluminal and right; the divergence is right for flat uniform states in fewer than three dimensions, one-sided, and in three dimensions reads a metric factor that is never set; the localisation weight integrates to the square root of pi/3.14.)','every state, grid and width, over the reals',INF,['src/phoebus_driver.cpp: UserWorkBeforeOutput','src/analysis/analysis.cpp'],'the diagnostic formulas','algebra; Gaussian integral; witnesses of every deviation')
P('C109','Totals and maxima in the history file','The total written to the history file for a registered variable is its integral over the whole domain, whatever the decomposition into blocks, refinement levels and partitions; the maximum is attained and bounds every cell; variables that do not exist on a package are not reduced.','every domain, every tiling of it by boxes, every cell data and every grouping of blocks into partitions',INF,['src/analysis/history.hpp: ReduceOneVar','src/fluid/fluid.cpp: Initialize'],'cells, blocks, partitions and the reductions','Lebesgue measure of the cells, almost-everywhere disjointness, induction over blocks')
P('C110','Start-up: accepted configurations, initial spacetime, problem dispatch','A configuration is accepted exactly when the packages it needs are enabled; on a fresh start the spacetime handed to the problem generator is the one of the initial data; the generator selected by name is the one run; an unknown name stops the run. (A progenitor sees flat space in its generator; on a restart any name is accepted.)','every configuration, initial data and problem name',INF,['src/main.cpp','src/phoebus_driver.cpp: ProcessPackages','src/monopole_gr/monopole_gr.cpp','src/tov/tov.cpp: IntegrateTov','src/pgen/pgen.hpp','src/pgen/pgen.cpp','src/pgen/progenitor.cpp: ProblemGenerator'],'the package checks, the order of start-up actions, the table of generators','case analysis and iff; simulation of the start-up sequence')
P('C111','Lapse of the previous cycle and the rate-of-change warning','The stored previous lapse is the lapse of the solve before the current one, on every build; the warning is printed exactly when the lapse changes by more than the tolerance. (True on builds with device memory; on host builds the mirror shares memory with the buffer and the previous lapse equals the new one after every odd call.)','every sequence of solves and every build',INF,['src/monopole_gr/monopole_gr.cpp: SpacetimeToDevice, CheckRateOfChange'],'the two buffers, the mirror and the swap','induction over the sequence of calls, iff')
P('C112','Radiation advection pulse','The initial pulse is a diffusing Gaussian in the comoving frame moving with the given velocity, of the given optical depth, and is a realisable radiation state. (Velocity, centre, width and optical depth are right; the comoving time may be negative and the flux may exceed the energy: nothing is checked.)','every velocity, width, optical depth and position, over the reals',INF,['src/pgen/radiation_advection.cpp: ProblemGenerator'],'initial radiation and fluid state','algebra of the boost, iff conditions, witnesses')
P('C113','Small radiation test problems','The equilibration, homogeneous sphere, thin cooling, lepton transport and round-trip problems set up what they describe on every decomposition. (Stored reference values abort the run when a rank owns two or more blocks; the Cartesian sphere is a half space; thin cooling writes the electron-fraction slot whether or not it exists; the lepton profile is odd about the mean; the round-trip report is the largest error.)','every decomposition, position and parameter value',INF,['src/pgen/radiation_equilibration.cpp','src/pgen/homogeneous_sphere.cpp','src/pgen/thin_cooling.cpp','src/pgen/leptoneq.cpp','src/pgen/p2c2p.cpp'],'initial states and stored parameters','iff, algebra, induction over cells')
P('C114','Cached geometry at arbitrary positions','Asked for the geometry at a point that is not a zone centre, the cached system returns a value interpolated from the neighbouring cached zones of the same block: exact for fields linear in the coordinates, exact at zone centres, keeping symmetry, the torsion-free connection and axisymmetry. (True of every reader except the inverse 4-metric, which uses the lapse of block 0 and zone (X1,X2,X3) truncated, and the coordinates, which come back shifted by one component.)','every cached field, position and block',INF,['src/geometry/cached_system.hpp: Cached (overloads taking coordinates)','src/phoebus_utils/phoebus_interpolation.hpp: Do'],'linear interpolation with the code\'s stencil and weights, every off-grid reader','algebra, iff, witness for the wrong lapse')
P('C115','Positions and geometry at cells, faces and corners','Asking for the geometry at a zone, face or corner evaluates the analytic metric at the position of that zone, face or corner: the two faces of a zone bracket its centre, neighbouring zones share a face and agree there, on coarse and fine blocks alike, and through a block or a whole mesh alike; other locations abort.','every block extent, index, location, block number and metric',INF,['src/geometry/analytic_system.hpp: IndexerMeshBlock, IndexerMesh, Analytic','src/phoebus_utils/grid_utils.hpp: GetXv'],'index to coordinate maps and the indexer-based readers','algebra over the field, uniqueness of the containing zone')
P('C116','Time derivatives of the monopole spacetime','The time derivatives stored for the metric sources obey the 3+1 evolution equations for the current hypersurface, lapse and matter. (The shift, da/dt and the product rule for the shift do; dK/dt is the evolution equation minus 4 alpha K^2, and dalpha/dt is nonzero in a static spacetime.)','every hypersurface, lapse, matter profile and grid point but the centre',INF,['src/monopole_gr/monopole_gr.cpp: SpacetimeToDevice'],'the point-wise formulas; specification from general relativity, checked against maximal slices of Schwarzschild','algebra over the field, calculus over the reals')
P('C117','Floors, ceilings and EOS limits are the ones asked for','For every input file: the run starts exactly when the named limits, strategies and EOS are known; floors, ceilings and net-field enforcement act exactly when asked for (or implied by other switches) with the values of the file at every position, never below the EOS limits; limits that are off have no effect; tabulated limits are converted to code units. (The power-law floor types ignore the specific-energy keys and read the energy-density ones; floors enabled without values are zero; in scale-free runs table energies are divided by c^2; crossed limits are accepted.)','every input file, position and EOS table',INF,['src/fixup/fixup.cpp: Initialize','src/fixup/fixup.hpp: Floors, Ceilings, Bounds','src/microphysics/eos_phoebus/eos_phoebus.cpp: Initialize'],'the configuration function from input file to limits, composed with their evaluation','case analysis over all inputs, iff')
P('C118','The boundary condition asked for is used everywhere','For every input file and face the ghost zones, the flux fix, the pole check and the sample boundaries treat the face by the same boundary condition. (Ghosts follow <parthenon/mesh>, everything else <phoebus> with default gr_outflow: exact condition proved; with conditions given in <parthenon/mesh> only, a reflecting wall lets mass leave, reflecting poles pass the check, samples are periodic.)','every input file, face and flux',INF,['src/phoebus_boundaries/phoebus_boundaries.cpp: ProcessBoundaryConditions','src/fluid/fluid.cpp: Initialize','src/fixup/fixup.cpp: FixFluxes','src/radiation/radiation.cpp: Initialize'],'selection of conditions from an input file; composition with the flux fix of C20','iff, witness input')
P('C119','Ghost zones are consistent after boundary processing','After boundary processing conserved and primitive variables agree in every physical ghost zone, the inflow check has acted on fluid and radiation, and all other zones are untouched. (True with primitive boundary variables; with conserved ones the radiation check is lost when derived fields are filled, and a run without evolved fluid aborts.)','every block, set of physical sides, dimension, state and point-wise map',INF,['src/phoebus_boundaries/phoebus_boundaries.cpp: ConvertBoundaryConditions','src/phoebus_driver.cpp: RungeKuttaStage'],'region updates over the sides in order, then the fill of derived fields','induction over the sides, idempotence, witness')
P('C120','Face fluxes do not depend on schedule, history or decomposition','Every flux that influences an interior cell is computed from states freshly reconstructed in this call, whatever order the parallel loops run in and whatever the scratch arrays held before; the update of a cell is the same in every block that owns it; no cell outside the block is read; the evolved variables and the fluxes line up slot by slot; constrained transport reads fresh fluxes only. (With linear reconstruction a single ghost cell is accepted although the sweep then reads one cell outside the block.)','every schedule, scratch content, primitive state, block shape, dimension, reconstruction method and Riemann solver',INF,['src/fluid/fluid.cpp: CalculateFluxes, Initialize','src/fluid/riemann.hpp: FluxState'],'the two kernels with an arbitrary iteration order, scratch arrays as input, variable packs as lists','induction over the schedule; congruence of stencils; case analysis of the layout')
P('C121','The geometry self-check finds wrong caches','The self-check of cached geometry reports the largest relative deviation between cached and analytic geometry and reports zero only when they agree. (It ignores every pair of numbers with a negative sum: wrong negative entries are reported as agreement.)','every pair of fields and every set of cells',INF,['src/pgen/check_cached_geom.cpp'],'RelErr and the max-reduction','algebra, induction over cells, witness')
P('C122','Inversion statistics','The iteration histogram written by con2prim_statistics lists every used iteration count once with its number of occurrences, independent of order. (True for one rank; several ranks overwrite the same file.)','every sequence of recorded iteration counts and every number of ranks',INF,['src/fluid/con2prim_statistics.hpp'],'map of counts, file contents after writes of all ranks','induction over the sequence, permutation invariance')
P('C123','Totals are conserved through a run on a mesh of blocks, and the history file shows it','On a domain whose sides are periodic or walls, cut into blocks and partitions in any way, total mass and total energy (flux form, no sources) after any number of steps and stages equal those at the start, and the history column is the same number at every output; when periodic in every direction this holds for every variable evolved by fluxes; with outflow sides the total mass and its history column never grow. The boundary treatment of a cell does not depend on the block it belongs to.','every mesh, tiling by blocks, grouping into partitions, boundary configuration, flux fields, number of steps and stages',INF,['src/fixup/fixup.cpp: FixFluxes','src/phoebus_driver.cpp: RungeKuttaStage','src/analysis/history.hpp: ReduceOneVar'],'blocks with global indices, per-block boundary flags, run as fold over stages, history sum over blocks','decomposition lemma for the boundary treatment, telescoping sums, induction over stages and steps, union of disjoint cell sets')
P('C124','A uniform composition stays uniform','If the electron fraction is the same in all cells it stays so, whatever the flow does: conserved electron number stays that multiple of the conserved mass through every run. (True on periodic domains for both solvers and all reconstructions as long as the density does not vanish; at outflow sides the mass flux is clipped but the electron flux is not, and mass injected by floors carries the conserved electron variable as its electron fraction.)','every mesh and decomposition, solver, reconstruction, geometry, evolution of all other variables, number of steps',INF,['src/fluid/riemann.hpp: prim_to_flux, llf, hll','src/fluid/con2prim_robust.hpp: Solve','src/fixup/fixup.cpp: FixFluxes, ApplyFloorsImpl'],'the conserved pair through recovery, reconstruction, solver, flux divergence, Runge-Kutta','linearity of the solvers, constant preservation, induction over the run; iff for the failures')
P('C125','The density stays positive','A stage that obeys the CFL condition for its own face speeds cannot empty a cell: with first-order reconstruction on a uniform background at least the fraction 1 - cfl of the mass of every cell is left; with any reconstruction on any background whose face states carry at most theta times the mass of their cell, at least 1 - 2 theta cfl is left (theta is at most 2 times the Lorentz factor ceiling times the variation of the volume element for the constant and the linear reconstruction). Hence for cfl < 1 (respectively 2 theta cfl < 1) the density stays positive through every run. The default cfl = 0.8 is not small enough for the linear reconstruction: a regular state is drained to a negative density in one stage.','every state, mesh, decomposition into blocks, boundary configuration, background, reconstruction, solver, number of steps and stages',INF,['src/fluid/riemann.hpp: llf, hll, prim_to_flux','src/fluid/fluid.cpp: EstimateTimestepBlock, CalculateFluxes','src/fixup/fixup.cpp: FixFluxes','src/reconstruction.hpp: PiecewiseLinear'],'the mass flux through recovery, reconstruction, solver, flux fixes and Runge-Kutta, with the signal speeds of the code','Cauchy-Schwarz and the light cone theorem bracket the transport velocity; per-face bounds; induction over stages and steps; explicit counterexample for the linear reconstruction')
P('C126','The TOV star put on the grid is the one that was integrated','Every cell holds at least the floor density, energy and pressure; cells at equal radius get equal states (invariance under rotations); at profile nodes inside the star density, energy and pressure are those of the hydrostatic solution; outside the star exactly the floor values; the velocity perturbation is a radial pulse. (False: on Cartesian grids the pulse points along x1 everywhere; a negative amplitude is ignored; the atmosphere pressure is not the pressure of the stored density and energy; ghost cells through the centre are not mirror images.)','every profile, index function, equation of state, cell position, rotation, perturbation parameters',INF,['src/pgen/tov.cpp: ProblemGenerator','src/monopole_gr/monopole_gr_base.hpp: Interpolate'],'the kernel per cell over the integrated profile','algebra of the interpolation, orthogonal matrices preserve the radius, polytrope laws; iff for the failures')
P('C127','Radiation floors and flux ceilings','With radiation floors enabled, after the floor pass every species of every cell has at least the floor energy density, a flux factor at most the ceiling, and lab-frame moments that are those of its rest-frame moments; the floor adds exactly the missing energy density at rest in the normal frame and no momentum, the ceiling keeps the energy density and the direction of the flux, cells within the limits are untouched and the pass is idempotent. (False: the default floor 0 divides by zero; without a ceiling below 0.999 the moments can be left inconsistent; with a pressure tensor the floor may not be reached; with radiation floors off the moments are stale after a fluid floor moved the gas, and the requested flux ceiling is ignored.)','every metric, velocity with v^2 <= 0.9999, floor, ceiling, stored moments, set of flags and method',INF,['src/fixup/fixup.cpp: ApplyFloorsImpl (542-679), ApplyFloors, Initialize','src/fixup/fixup.hpp: RadiationFloors','src/radiation/closure.hpp: Con2Prim, Prim2Con'],'the kernel for one species over the closure model, with the flags','the boosted injected energy is at least the missing one (Lorentz factor at least 1); exact inverse of the closure; case analysis over the repairs of the inversion; explicit witnesses')
P('C128','Radiation fluxes do not depend on history, schedule or blocks','Every radiation flux that influences an interior cell is computed from the states, gradients and opacities of the current stage, whatever the scratch arrays contained and in whatever order the loops run; hence the rate of change of a cell by radiation transport is the flux divergence of the mesh at that cell, independent of the decomposition into blocks and of the place of the cell in its block. (False for MOCMC: opacities are those of the previous stage, and beyond the sides of a block they are never computed, so radiation streams through block sides as in vacuum whatever the opacity.)','every block shape and dimension, reconstruction method, schedule of the loops, previous content of the arrays, cell data, number of earlier stages',INF,['src/radiation/moments.cpp: ReconstructEdgeStates, CalculateFluxesImpl, MomentCalculateOpacities','src/radiation/mocmc.cpp: MOCMCFluidSource','src/radiation/radiation.cpp: Initialize (444-503)','src/phoebus_driver.cpp: RadiationStep tasks'],'the three tasks on one block as folds over any list of loop bodies, over the face flux of C77','induction over the schedule (last writer), stencil containment, shift invariance; induction over the stages for the MOCMC opacity store; explicit uniform state for the dependence on blocks')
P('C129','A restarted run continues the interrupted one','A run restarted from a dump goes on exactly as the uninterrupted run: step sizes, net-field controller, gain flag, sampling weights, random numbers, opacities and the monopole solver are the same in every later step. (True of the step-size factor after the first step, of the controller before its start time, of the gain flag until it is raised and of the monopole counter. False otherwise: the controller forgets its rate and update time and then acts in every step; the raised gain flag is lost; the Monte Carlo weights return to the input values and the tuning fires in every step until it has caught up; the generator replays its first numbers; MOCMC fluxes of the first stage are those of a transparent medium; the first step estimate leaves out the face speeds.)','every history of steps and restarts, every later step, all parameters and measured values',INF,['src/phoebus_driver.cpp: Step, RungeKuttaStage','src/fixup/fixup.cpp: Initialize (97-99)','src/fixup/fixup_netfield.cpp','src/radiation/radiation.cpp: Initialize (138-141, 263-343, 497-501)','src/radiation/monte_carlo.cpp: MonteCarloUpdateTuning','src/fluid/fluid.cpp: EstimateTimestepBlock','src/monopole_gr/monopole_gr.cpp: Initialize'],'each persistent piece as a state machine with the value a restart gives it; the restart file is a stated contract on Parthenon','simulation relations and induction over histories of steps and restarts; equivalences; explicit witnesses where it fails')
P('C130','A fluid run does not depend on the decomposition, the memory contents or the schedule','A run of any number of steps with any number of stages (reconstruction, Riemann solver, constrained transport, flux fixes, sources, Runge-Kutta combination, inversion, ghost exchange, boundary conditions, time step from the face speeds) gives in every cell the result of the same numerical scheme on the undivided domain; hence two decompositions into blocks give the same states and the same time steps, whatever the scratch arrays contained and in whatever order the parallel loops ran, as long as the ghost layer is at least one wider than the stencil.','every mesh of blocks (regular or not, one level), dimension, reconstruction, Riemann solver, geometry, source, inversion, boundary treatment, step controller, number of steps, memory contents and schedule',INF,['src/phoebus_driver.cpp: Step, RungeKuttaStage','src/fluid/fluid.cpp: CalculateFluxes, FluxCT, EstimateTimestepBlock'],'the stages of all blocks with local indices, exchange of ghost cells by owner, run as iteration; a separate reference scheme on the whole domain without blocks','simulation: every block holds the reference state at its place; emf and flux freshness lemmas; induction over stages and steps')
P('C131','A uniform state in a uniform setting stays uniform; an equilibrium stays','On a periodic domain with position-independent geometry and sources a uniform state stays uniform in every cell through every run, and a state in which the source is zero and the inversion exact is never changed.','every run, decomposition, solver, reconstruction, time steps, uniform state',INF,['src/phoebus_driver.cpp: RungeKuttaStage','src/fluid/fluid.cpp: CalculateFluxes, FluxCT'],'the run of C130','translation theorem C132 plus vanishing divergence of constant fluxes')
P('C132','A shifted start gives the shifted run','On a periodic domain with position-independent geometry, sources and inversion, shifting the initial data by any number of cells shifts the result of every run by the same number of cells, for any pair of decompositions, and the time steps are the same: no cell, block edge or index is special.','every run, decomposition, periodic data, shift',INF,['src/phoebus_driver.cpp: RungeKuttaStage','src/fluid/fluid.cpp: CalculateFluxes, FluxCT, EstimateTimestepBlock'],'the run of C130','equivariance of each part of the reference scheme, induction over steps, C130')
P('C133','Influence travels a bounded number of cells per stage','The state of a cell after a run depends only on the initial data within (1 + stencil radius) cells per stage in every direction (through periodic images or the cells copied into ghosts) when the time steps are given: data that agree there give the same result, whatever they are elsewhere and on whatever decomposition.','every run with prescribed time steps, decomposition, solver, reconstruction, data',INF,['src/phoebus_driver.cpp: RungeKuttaStage','src/fluid/fluid.cpp: CalculateFluxes, FluxCT'],'the run of C130','stencil lemma for one stage, induction over stages and steps')
P('C134','A mirrored start gives the mirrored run','In a geometry that is its own mirror image, mirroring the initial data (normal components of velocity and momentum reversed, of the field either the normal or the tangential ones) mirrors the result of every run, with the same time steps; mirror-symmetric data stay symmetric. The reconstructions, the LLF and HLL fluxes in any geometry, the signal speeds and constrained transport of the code have this symmetry.','every run, decomposition, plane, solver, reconstruction, geometry with the symmetry, data',INF,['src/reconstruction.hpp','src/fluid/riemann.hpp: prim_to_flux, llf, hll','src/fluid/fluid.cpp: CalculateFluxes, FluxCT','src/phoebus_driver.cpp: RungeKuttaStage'],'the run of C130; fluxes and speeds of C16','oddness and reflection of the reconstructions, equivariance of the fluxes, emf signs, induction over stages and steps, C130')
P('C135','Repairing failed cells does not depend on the decomposition','A run with cells whose inversion fails, repaired from their good neighbours before and after the ghost exchange, gives on any decomposition the result of the same scheme on the undivided domain. True of the code when inversions fail only in cells whose neighbours lie in the same block and not in the exchanged data; false otherwise: before the exchange the ghost cells hold the previous stage, and after it only interior cells are repaired, so the ghost copies keep the failed value.','every mesh of blocks, run, inversion with failures, repair rule, number of steps',INF,['src/phoebus_driver.cpp: RungeKuttaStage (fixup tasks)','src/fixup/fixup_c2p.cpp: ConservedToPrimitiveFixup'],'the run of C130 with a per-cell failure flag and the two repair passes; a reference scheme with the same repair on the undivided domain','simulation as C130 for calm runs; two concrete counterexamples')
P('C136','Conserved variables determine the primitive state','Two states of matter with positive density and enthalpy and the pressure of a causal equation of state (the pressure never rises faster than the energy density; the ideal gas with index in (1,2] qualifies) that have the same conserved variables (mass, momentum, energy, field, electron number) are the same state. Without causality this fails: a gas with adiabatic index 3, which the program accepts, has two states with the same conserved variables.','every metric, lapse, shift, pair of magnetised moving states, causal EOS, both energy formulations',INF,['src/fluid/prim2con.hpp: p2c'],'p2c of C15/C61','strict monotonicity of the energy in the variable w W^2 at fixed momentum, field and density; then the other variables are read off')
P('C137','A root found without touching a bound is the right state','For every conserved state with positive density, when floors keep the mass-energy density above the constant EPS of the code, every root of the residual of the inverter at which no floor or ceiling is used unwraps to primitives that have exactly the given conserved variables; all such roots coincide, and if the conserved variables came from an admissible state the inversion returns that state.','every conserved state, geometry, EOS (uniqueness: causal), bounds, both energy formulations',INF,['src/fluid/con2prim_robust.hpp: Residual, ConToPrim::solve','src/fluid/prim2con.hpp: p2c'],'the residual and unwrapping of C61','algebra of the residual at a root; uniqueness through C136')
P('C138','The inversion does not depend on the stored initial guess','The primitives returned for given conserved variables do not depend on the guess left in the cell by earlier inversions. (True of the code only up to twice the tolerance and for a single root: the guess shrinks the bracket and the midpoint of the last bracket is returned. The guess is neither exchanged nor saved, so ghost copies and restarted runs differ at the level of the tolerance.)','every conserved state, pair of guesses, tolerance, cap',INF,['src/fluid/con2prim_robust.hpp: ConToPrim::solve','src/phoebus_utils/root_find.hpp: regula_falsi, refine_bracket','src/fluid/fluid.cpp: Initialize (c2p_mu)'],'findMu of C62','accuracy theorem of C62; explicit family of counterexamples for every tolerance')
P('C139','The electron fraction keeps the bounds of its initial data','In an advected fluid the electron fraction of every cell stays between the smallest and the largest electron fraction at the start, and the electron number of no cell becomes negative. (True of the code for time steps with four times the face-mass bound times the CFL number at most one; at the default CFL number 0.8 the linear reconstruction can drive the electron number of a cell negative in one stage of a uniform flow.)','every run, background, decomposition of a periodic domain, solver, constant or linear reconstruction, data',INF,['src/fluid/riemann.hpp: llf, hll','src/fluid/fluid.cpp: CalculateFluxes','src/fluid/con2prim_robust.hpp','src/phoebus_driver.cpp'],'the finite-volume run on a mesh of blocks of C76/C81 with density and electron number','the excess of electrons over a bound is a non-negative combination of the excess of the neighbouring cells; induction over stages and steps; an exact counterexample at cfl 0.8')
P('C140','On a periodic domain only sources and floors change totals','After any number of steps on a periodic domain, on any decomposition into blocks, the total of a conserved variable is the initial total plus what sources and floors added. In particular the totals of mass, of the three field components and of electrons, of the momentum along a direction on which the metric does not depend, and in the covariant formulation of the energy in a stationary metric, do not change as long as no floor acts.','every run, decomposition, schedule, solver, reconstruction, periodic metric, data',INF,['src/fluid/fluid.cpp: CalculateFluxes, CalculateFluidSourceTerms, FluxCT','src/fluid/riemann.hpp','src/phoebus_driver.cpp: FluxDivergence, AverageIndependentData'],'the runs of C130 on blocks with the flux, speed, source and constrained-transport functions of the code','the flux divergence of a periodic cell field telescopes; refinement to the undivided run; induction over stages and steps; sources vanish by C03')
P('C141','The implicit exchange finds the temperature that conserves energy','When the one-dimensional source solver reports a temperature, gas at that temperature and radiation relaxed towards it for the step have together the energy they had before, to the tolerance, and no other temperature has; if such a temperature exists within five decades of the old one the solver finds it as long as it has iterations left; and the gas ends at that temperature. (Of the code: the last part holds for gas at rest only; the four retries share the iteration count, so they never help after the cap is reached, and the first retry repeats the first attempt.)','every cell state, material functions of temperature, time step, tolerance, cap',INF,['src/radiation/moments_source.cpp: InteractionTResidual, MomentFluidSourceImpl (oned)','src/phoebus_utils/root_find.hpp: regula_falsi','src/radiation/closure.hpp: LinearSourceUpdate'],'the search with its re-bracketing loop on top of the model of regula_falsi; the update on top of the model of LinearSourceUpdate','induction over the retries; monotonicity of the residual; exact solution of the update at rest; exact witness for a moving gas')
P('C142','The names of the axes do not matter','Run a problem with two axes exchanged (or all three permuted), in initial data, coordinate system, mesh and blocks: after any number of steps the result is the original result with the axes exchanged, on every decomposition into blocks, with every solver and reconstruction method, and the time steps are the same.','every permutation of active axes, run, coordinate system, decomposition, schedule, solver, reconstruction, data',INF,['src/fluid/fluid.cpp: CalculateFluxes, FluxCT, CalculateFluidSourceTerms, EstimateTimestepBlock','src/fluid/riemann.hpp: llf, hll, FluxState','src/fluid/con2prim_robust.hpp: ConToPrim, Residual','src/fluid/prim2con.hpp: p2c, signal_speeds','src/fluid/tmunu.hpp'],'the runs of C130 with flux, speed, constrained transport, source, inversion and time-step functions of the code in arbitrary 3+1 geometry','covariance of every function under permutation of indices; induction over stages and steps; refinement to the undivided run')
P('C143','Units of length, time, density and field do not matter','Express a problem in another unit of length and time, or another unit of density, energy, pressure and magnetic field, with floors, equation of state and metric derivatives converted: after any number of steps the result is the converted result and the time steps are the converted time steps. (True of the code with constant or linear reconstruction while floors exceed the fixed small numbers of robust.hpp in both units; the MP5 limiter has an absolute threshold of 1e-12, so in code units it never acts on variations below about 8.7e-7 and reconstructs negative densities there.)','every unit, run, coordinate system, decomposition, schedule, solver, data',INF,['src/fluid/fluid.cpp: CalculateFluxes, FluxCT, CalculateFluidSourceTerms, EstimateTimestepBlock','src/fluid/riemann.hpp: llf, hll, FluxState','src/fluid/con2prim_robust.hpp: ConToPrim, Residual','src/phoebus_utils/robust.hpp: ratio, make_positive','src/reconstruction/reconstruction.hpp: mp5_subcalc'],'the same runs as C142, with rescaled variables','homogeneity of every function; induction over stages and steps; general bound below which MP5 is unlimited, and an exact negative reconstruction')
P('C144','Total energy and momentum of gas and radiation','On a periodic domain in flat space, gas and any number of radiation species exchanging energy and momentum: the total of each component of energy and momentum of gas and radiation together is the same after any number of steps, on every decomposition into blocks; in a curved geometry the same holds of the momentum along every direction on which the metric does not depend. (True of the code while the source solver and the recovery of primitive variables succeed in every cell and floors do not act; a failure of either breaks it, see C49.)','every run, decomposition, schedule, number of species, opacity, state',INF,['src/radiation/moments_source.cpp: MomentFluidSourceImpl','src/phoebus_driver.cpp: RungeKuttaStage','src/radiation/moments.cpp: CalculateGeometricSourceImpl','src/fluid/fluid.cpp: CalculateFluidSourceTerms'],'the runs of C130 with the exchange between the first inversion and the ghost exchange, species loop of C49 in the slots of the conserved variables, geometric sources of C73 and C74','budget of a stage for sums of variables; induction over species, stages and steps; refinement to the undivided run')
P('C145','Radiation transport prefers no axis and no side','Rename the axes or reverse some of them, in the geometry and in every vector and tensor: conserved moments, recovered moments, closure tensor, fluxes at faces, gradients, geometric sources of the radiation and the time-step speeds are the old ones with the axes renamed and reversed; the radiation fluxes of the run of mirrored (renamed) data are the mirrored (renamed) fluxes. (True of the code with the Eddington closure, and with M1 wherever the closure is computed from primitive moments. From conserved moments the search of M1 starts in the direction (1,1,1) where the flux vanishes, because sgn(0) = 1: there reversing an axis changes the result.)','every renaming and reversal of axes, geometry, velocity, moments, closure, direction, reconstruction, state of the cells around a face',INF,['src/radiation/closure.hpp: Prim2Con, Con2Prim, GetFluxes, getTilPi','src/radiation/closure_m1.hpp: GetConTilPiFromPrim, GetConTilPiFromCon, SolveClosure, M1Residuals','src/radiation/moments.cpp: MomentCon2Prim, ReconstructEdgeStates, CalculateFluxesImpl, CalculateGeometricSourceImpl'],'closure, cell conversions, face flux, face gradient and geometric source as in C64, C73 and C128 in arbitrary 3+1 geometry, and the complete search of the M1 closure','covariance of every function under signed permutations of the axes; for runs the radiation field of a stage satisfies the hypotheses of C134 and C142; an exact counterexample for the search')
P('C146','A moving contact keeps velocity and pressure','Start with velocity, pressure, energy density, magnetic field and electron fraction the same everywhere and any density profile between two bounds, in a coordinate system whose metric does not depend on position: after any number of steps every cell still has exactly that velocity, pressure, energy density, field and electron fraction, and a density between the same two bounds.  This holds for both Riemann solvers, both energy formulations, constant and linear reconstruction, in one to three dimensions, on every decomposition into blocks and for periodic and outflow sides, as long as every time step obeys the Courant condition with number one half, no floor or ceiling lies within the bounds, and the inversion gives back the states it is given (C61).','every density profile, velocity, field, constant metric, decomposition, schedule, memory contents, number of steps',INF,['src/fluid/riemann.hpp: llf, hll, FluxState','src/fluid/prim2con.hpp: p2c','src/fluid/fluid.cpp: CalculateFluxes, FluxCT','src/reconstruction/reconstruction.hpp: PiecewiseLinear'],'the runs of C130 with the fluxes of the code (C16, C57), in a constant geometry','conserved variables and fluxes are affine in the density with slopes in the ratio of the drift velocity; the stage is then a convex combination of edge densities; induction over stages and steps; refinement to the undivided run')
P('C147','Where the state is smooth, the fluid equations of general relativity are solved','Sample a differentiable state in a differentiable geometry at the centres of cells, away from floors and ceilings, and let the cells shrink in fixed proportion: the rate of change that the flux differences of the program give to each conserved variable of a cell tends to minus the divergence of the physical flux - rest mass current, stress tensor, induction flux and electron number current, times the square root of the metric determinant.  This holds for every reconstruction method, both Riemann solvers, both energy formulations, in one, two and three dimensions and with constrained transport, in every block and whatever memory contained before.','every differentiable state, geometry, lapse and shift, reconstruction method, solver, dimension, block, schedule, memory contents',INF,['src/fluid/riemann.hpp: llf, hll, FluxState::prim_to_flux','src/fluid/fluid.cpp: CalculateFluxes, FluxCT','src/reconstruction/reconstruction.hpp: PiecewiseConstant, PiecewiseLinear, WENO5Z, MP5','src/phoebus_driver.cpp: FluxDivergence'],'block fluxes and flux divergence of C130 with the fluxes of the code (C16, C57) and all reconstruction kernels (C01-C06)','each kernel is Lipschitz at linear data, so the edge states have one-sided derivatives in the cell width; the flux is differentiable and the speeds continuous inside the limits; each face flux is then the flux density at the face centre plus a term equal at all faces, to first order; antisymmetry of the induction flux for constrained transport')
P('C148','A cell whose radiation source update failed is repaired consistently','A cell in which the exchange of energy and momentum between gas and radiation failed gets the means of its good interior neighbours in gas and radiation (or a fixed state at rest when there is none), whatever the order in which cells are visited; good cells keep everything; densities and energies stay positive; and the conserved gas and radiation variables it is left with are those of its repaired primitives. (Code: the last clause holds for the gas and, below the velocity ceiling, for the radiation. Above the ceiling the radiation is converted in a frame which is not that of the repaired gas, with a stored pressure tensor the tensor of the failed state is kept, and the repair is silently skipped unless the radiation floors are switched on too.)','every block, geometry, set of failed cells, schedule, species, closure, equation of state',INF,['src/fixup/fixup_src.cpp: SourceFixup, SourceFixupImpl','src/radiation/closure.hpp: Prim2Con'],'the whole kernel with its launch conditions: flags, means, fallback, clamp, gas and radiation conversion','induction over the schedule; explicit formulas for the means and the two velocities; exact counterexample with energies 33/29 and 3/2')
P('C149','The two routes to the M1 pressure tensor agree','Take admissible rest-frame radiation moments, compute their M1 pressure tensor and with it their conserved moments. The search that recovers the pressure tensor from the conserved moments alone succeeds and gives the same tensor and flux factor. (Code: true in a gas at rest for every flux and every first guess, in both formulations; true in a moving gas where the flux is along the motion, for the energy equation, at the correct first guess. False for a flux across the motion, for every velocity and every flux factor below one: the search looks in one direction only. False for the number equation in a moving gas: the energy is converted twice.)','every metric, velocity, moments, guess, step size and tolerance of the search',INF,['src/radiation/closure_m1.hpp: GetConTilPiFromPrim, GetConTilPiFromCon, SolveClosure, M1Residuals, GetBasisVectors, M1FluidPressureTensor','src/radiation/closure.hpp: Prim2Con, Con2Prim'],'both routes completely, regularisers idealised to zero, step sizes and tolerance arbitrary','the search keeps an exact root and finds the root of a residual of slope one; explicit basis vectors for aligned fluxes; aberration shows that the direction is wrong across the motion; sign of the residual of isotropic radiation in the number formulation')
P('C150','Fluxes and geometric sources together are the equations of general relativistic magnetohydrodynamics','Take any smooth flow that satisfies rest-mass and electron-number conservation, energy-momentum conservation (covariant divergence of the stress tensor zero) and the induction equation in any smooth spacetime, also a time-dependent one.  For every variable the program stores, the time derivative of the value the program would store for the flow is minus the coordinate divergence of the flux it uses plus the geometric source it uses.  Consequently the rate of change that the program computes for a cell from face fluxes and sources tends to the true time derivative as the cells shrink.','every smooth spacetime with lapse, shift and spatial metric, every smooth solution, both energy formulations, reconstruction method, solver, dimension, block, schedule, memory contents',INF,['src/fluid/fluid.cpp: CalculateFluidSourceTerms, CalculateFluxes, FluxCT','src/fluid/prim2con.hpp: p2c','src/fluid/riemann.hpp: FluxState::prim_to_flux','src/fluid/tmunu.hpp: StressEnergyTensorCon','src/phoebus_driver.cpp: FluxDivergence'],'conversions, fluxes and sources of the code (C16, C26-C28, C57), specification by covariant derivatives with Christoffel symbols of the metric','Jacobi formula for the derivative of the determinant, densitised divergence of vectors, mixed tensors and antisymmetric tensors; then C147 for the fluxes and a limit of the sources')
P('C151','A whole time step follows the solution of the GRMHD equations','Start from the values of a smooth solution of the GRMHD equations in a stationary spacetime at the cell centres and let the program make one time step, all stages, with time step and cell widths shrinking in fixed proportion: the error of every conserved variable against the solution at the new time, divided by the time step, tends to zero. This holds for every reconstruction method, both solvers, both energy formulations, every number of dimensions, every decomposition into blocks, schedule and memory contents, as long as the state is inside the floors and ceilings and the inversion recovers it. (Code: true for rk1, rk2 and rk3. For vl2 the change over a step tends to three halves of the true change, see C29.)','every stationary smooth spacetime, smooth solution, reconstruction method, solver, dimension, decomposition, schedule, memory contents, list of stage weights',INF,['src/phoebus_driver.cpp: RungeKuttaStage, UpdateIndependentData','src/fluid/fluid.cpp: CalculateFluxes, FluxCT, CalculateFluidSourceTerms','src/fluid/riemann.hpp: llf, hll','src/reconstruction/reconstruction.hpp: PiecewiseConstant, PiecewiseLinear, WENO5Z, MP5'],'the step of C130 with the fluxes and sources of the code','induction over the stages: the cells follow the solution to first order in the cell width, delayed by a number of steps determined by the weights; C147 for cells that are perturbed to first order, C150 for the balance; the derivative of the inversion follows from its being an inverse; refinement to the undivided step')
P('C152','The radiation variables evolve by the covariant moment equations','Take any smooth radiation field whose stress-energy tensor satisfies the covariant moment equations with absorption, emission and scattering in any smooth flow and any smooth spacetime, also a time-dependent one. The time derivative of the densitised energy and momentum the program stores for the field is minus the coordinate divergence of the fluxes it uses, plus the geometric sources it uses, plus the exchange terms its implicit solvers use. (Code: true for the momentum always assembled from the same tensor, and for both equations with the Eddington closure in any flow and with the M1 closure in gas at rest. False for the energy with the M1 closure in moving gas: the stored energy of a beam is too large while its flux is right, so the two are not in balance.)','every smooth spacetime, velocity field below the velocity cap, radiation field, opacities and emissivity',INF,['src/radiation/moments.cpp: CalculateFluxesImpl, CalculateGeometricSourceImpl','src/radiation/closure.hpp: Prim2Con, getFluxesFromPrim, getConPFromPrim, LinearSourceUpdate'],'conversion, fluxes, geometric sources (C46, C74) and exchange terms (C47) of the code; specification by the covariant divergence of the stress tensor with Christoffel symbols','densitised divergences of C150 applied to the radiation tensor; the tensor assembled for the sources equals the specification tensor; a plane beam in flat space seen from gas moving along it is the counterexample')
P('C153','The radiation rates follow the moment equations','Sample a smooth radiation field at the cell centres, in a smooth flow and any smooth spacetime. As the cells shrink, the rate of change of energy and momentum of every species that the program computes from its radiation fluxes - reconstruction, bounds on the face states, blend of the free-streaming and the diffusion flux by the opacities - tends to minus the divergence of the fluxes of the moment equations, and together with its geometric sources to the true time derivative less the exchange with the gas. For every reconstruction method, one, two or three dimensions, any number of species, any decomposition and loop schedule, opacities from zero to any bound, whatever the memory contained.','every smooth spacetime, smooth state, closure that is smooth at the state and bounded, opacity, reconstruction method, dimension, number of species, decomposition, schedule, memory contents',INF,['src/radiation/moments.cpp: CalculateFluxesImpl, ReconstructEdgeStates, CalculateGeometricSourceImpl','src/radiation/closure.hpp: Prim2Con, getFluxesFromPrim','src/radiation/closure_m1.hpp: ClosureM1','src/reconstruction/reconstruction.hpp: PiecewiseConstant, PiecewiseLinear, WENO5Z, MP5'],'the radiation sweep of C144 with the face kernel of the code, inside a step of a mesh with uninitialised work arrays','reconstruction and free-streaming flux to first order in the cell width; the blend differs from the free-streaming flux by less than any multiple of the cell width because the weight 1 - tanh of the inverse Peclet number is quadratic in the width and the diffusion flux is bounded; refinement from a block to the undivided domain; C152 for the balance; both closures shown admissible; radiation dying out in an absorbing and scattering medium as the concrete case')
P("C154","The implicit matter exchange of the radiation is accurate for small steps, complete for large ones, never makes the energy negative, and the whole radiation step follows the moment equations",
"For the energy form of the energy equation and a pressure tensor without component along the gas velocity (always so for the Eddington closure), for every admissible metric, every gas velocity below the cap, all nonnegative optical depths and every incoming energy and momentum: (1) the update computed from the two-by-two formula is the unique backward-Euler solution, and the comoving moments it ends with depend linearly on the incoming moments and the emission; (2) as the optical depths grow without bound the radiation ends at the emission equilibrium with zero comoving flux; the deviation from equilibrium is bounded by the inverse optical depth; (3) if the incoming momentum does not exceed the incoming energy and emission is nonnegative, the comoving energy density afterwards is nonnegative; (4) as the step shrinks, the increment per unit time tends to the exchange term of the moment equations at the incoming comoving moments; (5) a smooth field solving the moment equations, transported for a time proportional to the cell size by the program's fluxes and geometric sources and then exchanged, changes per unit time by an amount that tends to the time derivative of the field, for every species and component.",
"all metrics, gas velocities below the cap, incoming moments, emission, optical depths; all smooth spacetimes and fields, blocks, loop orders, cell sizes tending to zero",INF,
["src/radiation/closure.hpp: LinearSourceUpdate","src/radiation/moments_source.cpp: MomentFluidSourceImpl","src/radiation/moments.cpp: CalculateFluxes","src/phoebus_driver.cpp: RadiationPostStep"],
"Closure.linearSourceUpdate (the two-by-two formula), Step.transported, Step.exchanged (optical depths alpha dt kappa, densities removed and restored), the flux and source sweep of C153.",
"uniqueness and linearity of the backward-Euler system; explicit determinant bounds; limits of the determinant quotient; for (5) the rate limit of C153 plus (4).")
P("C155","A moving contact converges over any finite time",
"In one dimension, on a periodic mesh of N cells of width h at most one, in a geometry that does not depend on position: the density starts from the values at the cell centres of any profile of bounded variation (jumps of any size and number included), everything else is uniform.  For any decomposition into blocks, any schedule and memory contents, LLF or HLL fluxes, constant or linear reconstruction, any Runge-Kutta weights between zero and one, and time steps chosen in any way within the Courant condition: after any number of steps velocity, pressure, energy, field and electron fraction are unchanged, and the sum over all cells of the difference between the computed mass and the exact mass of the profile carried along with the flow is at most TV (7 + 2 (length + 8 K^3 S T)) times the square root of h, where TV is the variation of the profile, K the number of stages, S the bound on the signal speed and T the elapsed time.  So the computed solution converges for every fixed time.  The distance by which the profile is carried is the velocity times the sum of the time steps each multiplied by the advance of its weights: one for rk1, rk2 and rk3; three halves for vl2, whose solutions converge to a profile in the wrong place.",
"all profiles of bounded variation, mesh sizes, block decompositions, schedules, memory contents, weights, time step sequences, numbers of steps",INF,
["src/fluid/fluid.cpp: CalculateFluxes","src/fluid/riemann.hpp: llf, hll","src/reconstruction.hpp: PiecewiseConstant, PiecewiseLinear, mc","src/phoebus_driver.cpp: RungeKuttaStage"],
"Step.run with Step.codePhys (the fluxes of the code), as in C146; Carry: profiles of bounded variation, sequences, the exact amounts.",
"C146 gives the update of the density as a flux with two-sided weights; Harten's lemma with the ratio 3/2 of the limiter bounds the variation; the discrete primitive of the density is compared in the mean norm with the exact primitive (monotone upwind operator plus terms bounded by the variation); the error of the primitive and the variation together give the error of the density by averaging over k cells, with k about the inverse square root of the width; refinement from blocks to the undivided domain; a top hat moving at three fifths of the speed of light as the concrete case, for rk2 and vl2.")
P("C156","Linear reconstruction with rk2 or rk3 is second order where the density has a slope",
"A contact in one dimension in a geometry that does not depend on position, with a density that is three times differentiable around a point and has a nonzero slope there.  On meshes with cell widths h tending to zero, cut into blocks in any way, any schedule, memory contents and boundary conditions, LLF or HLL, linear reconstruction, one step of length proportional to h within the Courant condition: the density of the cell centred at the point differs from the profile carried along with the flow by a term of order h cubed with the weights of rk2 and rk3.  For every other list of weights the leading error is given exactly: (1 - A) times the distance moved times the slope at first order, and (B - 1/2) times the square of the distance times the curvature at second order, with A and B computed from the weights; so rk1 is of first order only and vl2 of order zero.",
"all profiles, mesh families, decompositions, schedules, memory contents, stage weights",INF,
["src/reconstruction.hpp: PiecewiseLinear, mc","src/fluid/riemann.hpp: llf, hll","src/phoebus_driver.cpp: RungeKuttaStage"],
"Step.run with Step.codePhys as in C146 and C155; Step.bend is the coefficient of the curvature.",
"the limiter is the central difference for small cells; the stage then acts exactly on quadratic polynomials and multiplies errors of third order by bounded factors; Taylor expansion; refinement from blocks to the undivided domain; a sine wave as the concrete case.")
P("C157","Order of accuracy of the reconstructions",
"From cell averages of a smooth profile, where it has a slope, the left and right face states of WENO5-Z are the true face values up to C(h^5 + eps h^2) with eps the regularising constant of the code, those of MP5 up to C h^5 (at extrema too, because the threshold of its limiter is an absolute number), and those of the limited linear reconstruction up to the exact leading error -f'' h^2/12. From point values at the cell centres all three are of second order only: the leading errors are -f'' h^2/24 (WENO5-Z, MP5) and -f'' h^2/8 (linear).",
"every profile with five continuous derivatives, every point with nonzero slope, every sufficiently small cell width and every regularising constant up to one, with one constant C",
INF,
["src/reconstruction.hpp: WENO5Z, MP5, PiecewiseLinear"],
"Recon.weno5z, mp5, piecewiseLinear; cellAvg is the interval integral divided by the width.",
"exact bound of the WENO state against the linear fifth-order value by the excess of the weights and the spread of the candidates; tau5 of fifth order and the indicators of second order; limiters inactive near a line; Taylor expansion of the primitive.")
P("C158","WENO5-Z or MP5 with rk3 is third order for a small smooth contact",
"A contact in one dimension in a geometry that does not depend on position, with a density that is four times continuously differentiable, has a nonzero slope at a point and stays within a small band around a mean value. On meshes with cell widths h tending to zero, cut into blocks in any way, any schedule, memory contents and boundary conditions, LLF or HLL, WENO5-Z or MP5 reconstruction, one step of length proportional to h within the Courant condition: the density of the cell centred at the point differs from the profile carried along with the flow by a term of order h^4 with the weights of rk3. For every list of weights the expansion to third order is given exactly; with rk2 the error divided by h^3 tends to one sixth of the cube of the distance moved (in cells) times the third derivative, so a better reconstruction does not raise its order.",
"all profiles, mesh families, decompositions, schedules, memory contents, stage weights",INF,
["src/reconstruction.hpp: WENO5Z, MP5","src/fluid/riemann.hpp: llf, hll","src/phoebus_driver.cpp: RungeKuttaStage"],
"Step.run with Step.codePhys as in C146 and C156; Step.twist is the coefficient of the third derivative; SmoothStage is ContactStage for any reconstruction.",
"a stage keeps a contact for any reconstruction and widens the band by at most 41; near a point with slope both methods give the fifth-order value up to h^4; the stage acts exactly on cubic polynomials; Taylor expansion; refinement from blocks to the undivided domain; a ripple as the concrete case.")
P("C159","The limiter functions keep face values between neighbours and reproduce straight lines",
"Each limiter function of the reconstruction header takes the differences to the left and right neighbour and gives the factor that turns the right difference into a slope. With that slope the two face values lie between the cell value and the respective neighbour for every three values; a straight line keeps its slope; mirrored data give the mirrored slope. The two-dimensional factor lies in [0,1] and brings the increment into the range of the neighbours.",
"every triple of cell values, every limiter function of the header, every alpha it accepts",INF,
["src/reconstruction.hpp: koren, mc_lim, minmod, ltanh, barth_jespersen, overbee_alpha, overbee, superbee, nolim, phifunc"],
"Recon/Limiters.lean, one definition per function, over the reals.",
"the factor as a function of the ratio of differences, bounded by 2 and by twice the ratio; homogeneity of mc; witnesses.")
P("C160","The gridded metric fields and text dumps of the monopole solver show the solution",
"The seven gridded fields (a, Krr, alpha, and the four ADM matter sources) of a zone are the radial profiles at the radius of that zone: the same in all zones at that radius whatever the block, equal to the table on points of the radial grid, exact for quadratic profiles. The text dump shows the radius and every profile and gradient of the solution, with one name per column.",
"every state of the solver, zone position, Cartesian or spherical grid, radial grid",INF,
["src/monopole_gr/monopole_gr.cpp: InterpMetricToGrid, DumpToTxt, DumpHypersurface","src/monopole_gr/monopole_gr_base.hpp: Interpolate"],
"Monopole/Dump.lean on top of Monopole.interpolate; a file is the list of its lines, a line the list of its numbers.",
"exactness of the parabola through three points; column by column; a pair of states with the same file.")
P("C161","The order of accuracy survives any fixed number of steps with the code's own time steps",
"A contact in one dimension in a geometry that does not depend on position, with a smooth density that has a nonzero slope at a point, on meshes with cell widths h tending to zero, cut into blocks in any way, with any schedule, memory contents and boundary conditions, LLF or HLL. The code makes any fixed number of steps; each step has the length the code's controller chose at the end of the one before, whatever it is, within the Courant condition. Then the density of the cell centred at the point is that of the profile carried along for the time elapsed: with linear reconstruction up to h^3 for rk2 and rk3, with WENO5-Z or MP5 and rk3 up to h^4 if the density stays in a small band. For weights of lower order the leading error is given exactly: the sum over the steps of the squares (cubes) of the distances moved, times the missing part of the coefficient, times the second (third) derivative.",
"all profiles, mesh families, decompositions, schedules, memory contents, controllers, stage weights, numbers of steps",INF,
["src/reconstruction.hpp: PiecewiseLinear, WENO5Z, MP5","src/fluid/riemann.hpp: llf, hll","src/phoebus_driver.cpp: Step, RungeKuttaStage","src/fluid/fluid.cpp: EstimateTimestepBlock"],
"Step.run with Step.codePhys as in C156 and C158; the time steps are the second component of Step.run.",
"expansions with coefficients that may differ from mesh to mesh but are bounded; a stage acts on the coefficients affinely relative to the start of its step; induction over stages and steps; Taylor expansion at the time elapsed; refinement from blocks to the undivided domain; a wave moving at three fifths of the speed of light as the concrete case.")
P("C162","Many implicit exchanges converge to the exact relaxation of radiation and gas",
"For every admissible metric, gas velocity below the cap, opacities and emission, and a pressure tensor without component along the gas velocity (always so for the Eddington closure): from every state of the radiation there is exactly one history whose energy and momentum change at the rate of absorption, scattering and emission in the moment equations. The implicit update of the code, repeated any number of times with steps of any lengths up to delta, stays within a constant times delta of that history over any finite time; with N equal steps it tends to it as N grows.",
"all metrics, velocities, opacities, emission, initial states, sequences and numbers of steps, final times",INF,
["src/radiation/closure.hpp: LinearSourceUpdate","src/radiation/moments_source.cpp: MomentFluidSourceImpl"],
"Closure.linearSourceUpdate, iterated (Closure.CodeRelax); the exact history is Closure.ExactRelax, stated with derivatives and comoving moments.",
"the rate is an affine function of the lab-frame moments, because passing to comoving moments is the inverse of a linear map; every update is a backward-Euler step for it; mean value inequality for the defect, Gronwall by induction over the steps; existence by the exponential of the linear map; uniqueness because both are the limit of the same runs.")
P("C163","Monte Carlo packets on many blocks: one move per step, in any order, nothing lost",
"A Monte Carlo step runs on every block the tasks emission, transport, send, receive, interleaved with those of the other blocks in any order in which a block receives only after all have sent. The result does not depend on the order. Every packet is moved, or absorbed, exactly once, by the block on which it began the step; afterwards it is on the block that contains it or has left the mesh. Through any history of steps, with any emission, random draws, opacities and time steps, the four-momentum of the gas of all blocks, the packets, and the packets that left, along every symmetry of the metric, is constant.",
"all numbers of blocks and cells, interleavings, histories, emitted packets, draws, opacities, time steps, boundary conditions that keep wave vector and weight (outflow, periodic)",INF,
["src/phoebus_driver.cpp: MonteCarloStep","src/radiation/monte_carlo.cpp: MonteCarloSourceParticles, MonteCarloTransport","src/radiation/radiation.cpp: ApplyRadiationFourForce"],
"MonteCarlo/Blocks.lean: MonteCarlo.mcTask, mcRegion, mcStep over the single-block functions of C69; Parthenon's Send and Receive by contract.",
"the state after any part of the schedule is a function of the number of tasks done on each block (induction over the schedule); packets are shared out among blocks; C69 on each block; induction over the history.")
P("C164","Cooling applied after the step: budget, law and lag",
"A step with the cooling function first advances the gas and recovers its primitives, then subtracts the emission. For a uniform gas: through any number of steps of any lengths, energy, momentum and lepton number change by the sum of the steps times the emission of the primitives shown after each step. Over a finite time the run stays within a constant times the largest step of the exact loss law. The primitives shown agree with the conserved variables shown, and a gas with positive energy keeps positive energy.",
"all geometries, recoveries, emissivities, species, steps, numbers of steps, initial states",INF,
["src/phoebus_driver.cpp: Step, RadiationPostStep","src/radiation/cooling_function.cpp: CoolingFunctionCalculateFourForce","src/radiation/radiation.cpp: ApplyRadiationFourForce"],
"LightBulb/Split.lean: LightBulb.coolStep, coolRun over coolingForce and applyForce; recovery and emissivity are parameters.",
"one step is a forward-Euler step of the loss rate; induction over the steps for the budget; mean value inequality and Gronwall for the law; witnesses for lag and negative energy.")
P("C165","The time integrator with the exchange in every stage follows the exact relaxation",
"Uniform radiation and gas, so that fluxes and sources vanish. A step is the stages of the integrator: each mixes the current state with the one at the start of the step by its weight and applies the implicit exchange for the weighted step. For every admissible metric, velocity below the cap, opacities, emission, and a pressure tensor without component along the velocity, any number of steps of any lengths up to delta leaves energy and momentum within a constant times delta of the exact history at the time elapsed.",
"all metrics, velocities, opacities, emission, lists of weights between zero and one, sequences and numbers of steps",INF,
["src/phoebus_driver.cpp: Step, RungeKuttaStage","src/radiation/moments_source.cpp: MomentFluidSourceImpl","src/radiation/closure.hpp: LinearSourceUpdate"],
"Closure/StageRun.lean: Closure.exUpdate, exStage, exStep, exRun; exact history Closure.ExactRelax of C162; Step.advance.",
"one stage is an implicit step from a convex combination: induction over the stages with the advance of the weights read so far; defect of the exact history; Gronwall over the steps.")
P("C166","Tracers follow the fluid elements over any finite time",
"Tracers are moved once per step, by the midpoint rule with the fields of one time within the step. Over any finite time, in every flow whose coordinate velocity u^i/u^0 is Lipschitz in place and time, through any number of steps of any lengths up to delta, a tracer stays within a constant times delta of the path of the fluid element it started with; in a steady smooth flow within a constant times delta squared.",
"all metrics, flows, starting places, sequences and numbers of steps, choices of the time within the step",INF,
["src/tracers/tracers.cpp: AdvectTracers","src/tracers/tracers.hpp: tracers_rhs","src/phoebus_driver.cpp: RungeKuttaStage"],
"Tracers/Run.lean: Tracers.tracerRun over Tracers.advect; the path is Tracers.FlowLine, stated with derivatives and the four-velocity.",
"defects of the exact path by the mean value inequality, second order by Taylor expansion of the rate along the path; stability factor e^(K dt) of the midpoint step; Gronwall; an exactly solvable unsteady flow shows that the order is one and no more there.")

P("C167","Pushed rays follow the geodesics",
"Photon packets and MOCMC samples are moved by one push per step. For every metric with continuous first derivatives and every ray that solves Hamilton's equations of geodesic motion with coordinate time over a finite interval, there is a constant C such that, through any number of pushes of any lengths up to delta, position and covariant wave vector stay within C (delta + epsilon) of the ray, where epsilon is the error of the forces from differencing the metric over the fixed distance 1e-6.",
"all metrics with continuous first derivatives, all rays on which k^0 does not vanish, all sequences and numbers of pushes",INF,
["src/radiation/geodesics.hpp: PushParticle, GetXSource, GetKSource","src/radiation/monte_carlo.cpp: MonteCarloTransport","src/radiation/mocmc.cpp: MOCMCTransport"],
"Geodesics/Run.lean: Geodesics.rayRun over Geodesics.push; the ray is Geodesics.IsRay, stated with derivatives of the path and of the inverse metric; Geodesics.ForceError states epsilon; Geodesics.Regular the points where the metric is evaluated.",
"the rates of the push are continuously differentiable, hence Lipschitz on a compact tube around the ray; defect of the ray by the mean value inequality; induction keeps the pushed ray in the tube (Gronwall); a null ray with a closed form in a time dependent metric is an instance.")
