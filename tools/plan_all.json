{"C01": ["mc, PiecewiseLinear over an ordered field", "case split on signs, order lemmas"], "C02": ["all four reconstructions", "direct computation with division side conditions discharged (eps>0)"], "C03": ["all four reconstructions", "field algebra; WENO weights sum to one"], "C04": ["all four reconstructions", "definitional mirror + ring"], "C05": ["WENO5Z", "positivity of weights, convex-combination spec"], "C06": ["mp5_subcalc, MINMOD, Median", "order case analysis against an independent interval spec"], "C07": ["PiecewiseLinear", "sign cases"], "C08": ["loops as fuelled recursion on bracket state", "loop invariant"], "C09": ["same", "bracket invariant + intermediate value theorem; negation witness for f(a)=0"], "C10": ["same", "induction on fuel; witness for last-iteration failure"], "C11": ["functions on explicit entries", "field_simp/ring against Mathlib Matrix product"], "C12": ["weights and Do1D/2D/3D", "ring; clamp lemmas"], "C13": ["GetLorentzFactor, GetFourVelocity over \u211d", "algebra with 3+1 metric spec"], "C14": ["tmunu.hpp", "algebra with 3+1 metric spec"], "C15": ["p2c and tmunu", "algebra"], "C16": ["llf, hll", "ring, order"], "C17": ["FluxCT loops as functions of cell index over \u2124", "ring"], "C18": ["RK stage on B fields", "induction over stage list"], "C19": ["flux-difference update", "Finset telescoping, induction over steps"], "C20": ["FixFluxes", "case analysis on boundary condition"], "C21": ["ApplyFloors scalar core", "order lemmas"], "C22": ["ApplyFloors velocity clamp", "real algebra, witness for the wrong factor"], "C23": ["fixup stencil average with mask", "convex combination; permutation fold independence"], "C24": ["netfield controller", "order lemmas, witness"], "C25": ["GenericBC loops", "function update lemmas"], "C26": ["inflow check", "algebra/order"], "C27": ["Step status logic", "list induction, witness"], "C28": ["dt selection", "induction"], "C29": ["stage combination", "induction"], "C30": ["SetConnectionCoeffFromMetricDerivs", "ring"], "C31": ["Flatten2", "decide over the complete table"], "C32": ["cache write and read index arithmetic", "index algebra"], "C33": ["closed-form metrics", "field_simp/ring, trig identities"], "C34": ["closed-form metrics", "ring"], "C35": ["closed-form metrics", "HasDerivAt"], "C36": ["modified_system transforms", "Matrix algebra"], "C37": ["coordinate maps", "HasDerivAt + matrix product"], "C38": ["Gram-Schmidt with arbitrary bilinear form", "algebra"], "C39": ["UnitConversions", "field_simp"], "C40": ["reduction as fold", "induction"], "C41": ["GetVolIntersectHelper", "order cases, telescoping induction"], "C42": ["Thomas algorithm on lists/functions of \u2115", "induction over rows"], "C43": ["hypersurface RK2", "induction"], "C44": ["TOV RK2", "induction"], "C45": ["tracer rhs and push", "algebra, witness"], "C46": ["ClosureEdd", "algebra with inverse-metric spec"], "C47": ["LinearSourceUpdate", "field_simp"], "C48": ["closure functions", "nlinarith"], "C49": ["source update decision logic with uninitialised values as Option", "case analysis, witness"], "C50": ["quadrature formulas", "ring + trig; additivity"], "C51": ["PushParticle", "induction"], "C52": ["tau fit, Ye update, gain latch", "order; induction over history"], "C53": ["cell selection predicate", "order on strictly increasing faces"], "C54": ["flag conventions", "case analysis, witness"], "C55": ["robust.hpp", "order"], "C56": ["characteristic speed formula of prim_to_flux over the reals", "square-root inequalities with an exact square certificate"], "C57": ["prim_to_flux, p2c, tmunu", "3+1 algebra; negation witness for the covariant energy slot"], "C58": ["FluxCT followed by FixFluxes", "frame lemma for FixFluxes plus C17; rational witness at the pole"], "C59": ["task list of sync_region_3 with its dependencies and effects", "characterise all legal schedules, execute symbolically"], "C60": ["counter logic of RungeKuttaStage", "induction on the number of stages"], "C61": ["Residual, solve, p2c over the reals (small = 0)", "reduce to the scalars W, v.B, B^2, H; Cauchy-Schwarz for the velocity bound; field_simp/ring"], "C62": ["Residual plus the regula falsi model of C08", "monotone bounds on nua, continuity, intermediate value theorem, C08/C09"], "C63": ["solve for an arbitrary mu", "case analysis on the clamps; velocity norm identity; rational witness"], "C64": ["The purge as a function on the activity mask.", "Exact characterisation by case analysis; a surviving particle as witness."], "C65": ["dN, randomised rounding and packet weights over the reals", "trapezoid identity by induction; interval integral of the rounding function"], "C66": ["the prefix-sum loop over species and cells", "induction over the zone list, existence and uniqueness, counting argument for the range"], "C67": ["dNdlnu, its maximum, the rejection loop on an arbitrary stream", "fold invariants; integral of the piecewise-linear acceptance probability equals the trapezoid sum"], "C68": ["tetrad construction of C38 plus the direction sampling", "frame orthonormality (C38), trigonometric identities"], "C69": ["state machine over fluid fields and packet lists", "closed form of the transport loop, induction over the history; exact defect formula for leptons"], "C70": ["transport loop as a fold with additive deposits", "closed form is a sum over the list, invariant under permutation (exact arithmetic)"], "C71": ["the absorption test", "logarithm monotonicity, Lebesgue measure of an interval"], "C72": ["tuning state machine with division by zero explicit", "induction over the history; witnesses"], "C73": ["source term loops of CalculateFluidSourceTerms", "reindexing of double sums, symmetry cancellation; small = 0 in robust::ratio"], "C74": ["con_T assembly and source contractions of CalculateGeometricSourceImpl", "projection algebra, reuse of the contraction lemmas of C73"], "C75": ["signal speeds, face speed returned by the solvers, min reduction over a list of cells, the shared has_face_speeds flag", "fold invariants of min; square-root inequalities for the light bound"], "C76": ["radiation signal speed and min reduction", "monotonicity of tanh, fold invariants; rational witnesses"], "C77": ["the whole face loop for one species, with the closure tensor a parameter", "algebraic decomposition; 3+1 projections of C74; Cauchy-Schwarz for the speeds; limits of tanh"], "C78": ["cell bodies of the two tasks on top of the closure model; fold over species for the flag", "inverse of the linear closure system (C46), case analysis on the status"], "C79": ["index arithmetic and gradient stencils", "arithmetic modulo; ring identities"], "C80": ["right-hand sides and one integration step (small = 0)", "solve the constraint equations for the derivatives by field_simp"], "C81": ["residual, scratch scalars, final primitive recovery over the reals", "algebra on the conserved image of a primitive state (shared with C2P lemmas); counterexamples for Ye and for the guess"], "C82": ["the loop with differencing, damping and backtracking over an arbitrary residual function", "induction over backtracking trials and over iterations"], "C83": ["sequential splitting of cells, weights of C50, second moments, frequency shift", "induction over samples: additive functions of cells, half-open tiling; integrals of C50"], "C84": ["cell body on top of the implicit source update of C47", "telescoping over species; convexity; counterexamples"], "C85": ["running start index, tetrad transformation of C38, reflection, counter", "induction on zones; tetrad orthonormality; linear arithmetic"], "C86": ["log enthalpy, velocity, ideal-gas state, conversion of velocities; ideal gas branch only", "derivative of the Fishbone-Moncrief potential for a general stationary axisymmetric metric, instantiated on the Boyer-Lindquist metric; uniqueness of the circular flow; isometry of C37"], "C87": ["corner potential, centred curl, reductions, scaling", "linear algebra on the stencils; scaling of maxima and minima"], "C88": ["range selection, per-block counts, masses, floors", "linear arithmetic, intermediate value theorem, counterexamples"], "C89": ["bisection loop, solution constants, gas state, horizon shift, velocity conversion; gamma = 1.4, spin zero", "loop invariant and halving; calculus on the Bernoulli function; Bernoulli inequality for the guess; isometry of C37"], "C90": ["Jacobians, transformation and storage formulas of the two generators", "derivative of the chart, isometry, 3+1 split; counterexample for inchworm"], "C91": ["mode tables, perturbation, final time", "first-order expansion of the modelled stress tensor, dispersion relations with rigorous bounds on pi"], "C92": ["velocity storage of the four generators", "algebra with square roots; strict inequality for the shock tube"], "C93": ["velocity, density, pressure formulas", "derivatives of the homologous solution; substitution"], "C94": ["root find, deposit, loop with shadowed index, counts and identifiers", "root-finder theorems, telescoping sum, induction over cells"], "C95": ["task graphs with footprints for every region; Parthenon scheduler contract as assumption", "non-colliding tasks commute; two linear extensions of the same order give the same result by induction; race freedom for all list counts by lifting a finite three-role graph"], "C96": ["same task graphs, with and without the missing edges", "kernel-evaluated pair of schedules for each race; race-freedom theorem for the repaired graph"], "C97": ["memory of containers indexed by stage, stage as a memory update", "simulation invariant: container s holds stage s, base is untouched until the last stage"], "C98": ["same memory model with the conversion on the stage container", "exact formula for the last stage; rk2 and net-flux corollaries"], "C99": ["deposit per partition with the zeroing", "induction over partitions; additivity over cells; exact condition"], "C100": ["swarms of all blocks, inclusive loop bound from the largest active slot, block of each list", "block-wise and slot-wise characterisation; iff for the survivor"], "C101": ["lines as token lists; the eleven vectors; out-of-bounds access is an explicit none", "induction over the lines; column lengths by counting; iff for definedness"], "C102": ["regular-grid data box with linear interpolation", "floor and convexity arguments; affine profile as witness for the converse"], "C103": ["stored velocity, measured velocity, spherical-to-Cartesian Jacobian", "algebra with square roots; the C37 inversion for the direction"], "C104": ["opacities as functions, the unit wrappers and the mean as operators on them", "unfolding for scattering; exact factor and iff for gray absorption"], "C105": ["build options and both lists", "case analysis over the complete finite set of build options"], "C106": ["the parameters computed at initialisation", "algebra with square and cube roots, monotonicity, exact iff"], "C107": ["rest-frame tensor, source term, stage time and geometry time", "derivative of the energy law, unrolled stage sequence, iff"], "C108": ["the diagnostic formulas", "algebra; Gaussian integral; witnesses of every deviation"], "C109": ["cells, blocks, partitions and the reductions", "Lebesgue measure of the cells, almost-everywhere disjointness, induction over blocks"], "C110": ["the package checks, the order of start-up actions, the table of generators", "case analysis and iff; simulation of the start-up sequence"], "C111": ["the two buffers, the mirror and the swap", "induction over the sequence of calls, iff"], "C112": ["initial radiation and fluid state", "algebra of the boost, iff conditions, witnesses"], "C113": ["initial states and stored parameters", "iff, algebra, induction over cells"], "C114": ["linear interpolation with the code's stencil and weights, every off-grid reader", "algebra, iff, witness for the wrong lapse"], "C115": ["index to coordinate maps and the indexer-based readers", "algebra over the field, uniqueness of the containing zone"], "C116": ["the point-wise formulas; specification from general relativity, checked against maximal slices of Schwarzschild", "algebra over the field, calculus over the reals"], "C117": ["the configuration function from input file to limits, composed with their evaluation", "case analysis over all inputs, iff"], "C118": ["selection of conditions from an input file; composition with the flux fix of C20", "iff, witness input"], "C119": ["region updates over the sides in order, then the fill of derived fields", "induction over the sides, idempotence, witness"], "C120": ["the two kernels with an arbitrary iteration order, scratch arrays as input, variable packs as lists", "induction over the schedule; congruence of stencils; case analysis of the layout"], "C121": ["RelErr and the max-reduction", "algebra, induction over cells, witness"], "C122": ["map of counts, file contents after writes of all ranks", "induction over the sequence, permutation invariance"], "C123": ["blocks with global indices, per-block boundary flags, run as fold over stages, history sum over blocks", "decomposition lemma for the boundary treatment, telescoping sums, induction over stages and steps, union of disjoint cell sets"], "C124": ["the conserved pair through recovery, reconstruction, solver, flux divergence, Runge-Kutta", "linearity of the solvers, constant preservation, induction over the run; iff for the failures"], "C125": ["the mass flux through recovery, reconstruction, solver, flux fixes and Runge-Kutta, with the signal speeds of the code", "Cauchy-Schwarz and the light cone theorem bracket the transport velocity; per-face bounds; induction over stages and steps; explicit counterexample for the linear reconstruction"], "C126": ["the kernel per cell over the integrated profile", "algebra of the interpolation, orthogonal matrices preserve the radius, polytrope laws; iff for the failures"], "C127": ["the kernel for one species over the closure model, with the flags", "the boosted injected energy is at least the missing one (Lorentz factor at least 1); exact inverse of the closure; case analysis over the repairs of the inversion; explicit witnesses"], "C128": ["the three tasks on one block as folds over any list of loop bodies, over the face flux of C77", "induction over the schedule (last writer), stencil containment, shift invariance; induction over the stages for the MOCMC opacity store; explicit uniform state for the dependence on blocks"], "C129": ["each persistent piece as a state machine with the value a restart gives it; the restart file is a stated contract on Parthenon", "simulation relations and induction over histories of steps and restarts; equivalences; explicit witnesses where it fails"], "C130": ["the stages of all blocks with local indices, exchange of ghost cells by owner, run as iteration; a separate reference scheme on the whole domain without blocks", "simulation: every block holds the reference state at its place; emf and flux freshness lemmas; induction over stages and steps"], "C131": ["the run of C130", "translation theorem C132 plus vanishing divergence of constant fluxes"], "C132": ["the run of C130", "equivariance of each part of the reference scheme, induction over steps, C130"], "C133": ["the run of C130", "stencil lemma for one stage, induction over stages and steps"], "C134": ["the run of C130; fluxes and speeds of C16", "oddness and reflection of the reconstructions, equivariance of the fluxes, emf signs, induction over stages and steps, C130"], "C135": ["the run of C130 with a per-cell failure flag and the two repair passes; a reference scheme with the same repair on the undivided domain", "simulation as C130 for calm runs; two concrete counterexamples"], "C136": ["p2c of C15/C61", "strict monotonicity of the energy in the variable w W^2 at fixed momentum, field and density; then the other variables are read off"], "C137": ["the residual and unwrapping of C61", "algebra of the residual at a root; uniqueness through C136"], "C138": ["findMu of C62", "accuracy theorem of C62; explicit family of counterexamples for every tolerance"], "C139": ["the finite-volume run on a mesh of blocks of C76/C81 with density and electron number", "the excess of electrons over a bound is a non-negative combination of the excess of the neighbouring cells; induction over stages and steps; an exact counterexample at cfl 0.8"], "C140": ["the runs of C130 on blocks with the flux, speed, source and constrained-transport functions of the code", "the flux divergence of a periodic cell field telescopes; refinement to the undivided run; induction over stages and steps; sources vanish by C03"], "C141": ["the search with its re-bracketing loop on top of the model of regula_falsi; the update on top of the model of LinearSourceUpdate", "induction over the retries; monotonicity of the residual; exact solution of the update at rest; exact witness for a moving gas"], "C142": ["the runs of C130 with flux, speed, constrained transport, source, inversion and time-step functions of the code in arbitrary 3+1 geometry", "covariance of every function under permutation of indices; induction over stages and steps; refinement to the undivided run"], "C143": ["the same runs as C142, with rescaled variables", "homogeneity of every function; induction over stages and steps; general bound below which MP5 is unlimited, and an exact negative reconstruction"], "C144": ["the runs of C130 with the exchange between the first inversion and the ghost exchange, species loop of C49 in the slots of the conserved variables, geometric sources of C73 and C74", "budget of a stage for sums of variables; induction over species, stages and steps; refinement to the undivided run"], "C145": ["closure, cell conversions, face flux, face gradient and geometric source as in C64, C73 and C128 in arbitrary 3+1 geometry, and the complete search of the M1 closure", "covariance of every function under signed permutations of the axes; for runs the radiation field of a stage satisfies the hypotheses of C134 and C142; an exact counterexample for the search"], "C146": ["the runs of C130 with the fluxes of the code (C16, C57), in a constant geometry", "conserved variables and fluxes are affine in the density with slopes in the ratio of the drift velocity; the stage is then a convex combination of edge densities; induction over stages and steps; refinement to the undivided run"], "C147": ["block fluxes and flux divergence of C130 with the fluxes of the code (C16, C57) and all reconstruction kernels (C01-C06)", "each kernel is Lipschitz at linear data, so the edge states have one-sided derivatives in the cell width; the flux is differentiable and the speeds continuous inside the limits; each face flux is then the flux density at the face centre plus a term equal at all faces, to first order; antisymmetry of the induction flux for constrained transport"], "C148": ["the whole kernel with its launch conditions: flags, means, fallback, clamp, gas and radiation conversion", "induction over the schedule; explicit formulas for the means and the two velocities; exact counterexample with energies 33/29 and 3/2"], "C149": ["both routes completely, regularisers idealised to zero, step sizes and tolerance arbitrary", "the search keeps an exact root and finds the root of a residual of slope one; explicit basis vectors for aligned fluxes; aberration shows that the direction is wrong across the motion; sign of the residual of isotropic radiation in the number formulation"], "C150": ["conversions, fluxes and sources of the code (C16, C26-C28, C57), specification by covariant derivatives with Christoffel symbols of the metric", "Jacobi formula for the derivative of the determinant, densitised divergence of vectors, mixed tensors and antisymmetric tensors; then C147 for the fluxes and a limit of the sources"], "C151": ["the step of C130 with the fluxes and sources of the code", "induction over the stages: the cells follow the solution to first order in the cell width, delayed by a number of steps determined by the weights; C147 for cells that are perturbed to first order, C150 for the balance; the derivative of the inversion follows from its being an inverse; refinement to the undivided step"], "C152": ["conversion, fluxes, geometric sources (C46, C74) and exchange terms (C47) of the code; specification by the covariant divergence of the stress tensor with Christoffel symbols", "densitised divergences of C150 applied to the radiation tensor; the tensor assembled for the sources equals the specification tensor; a plane beam in flat space seen from gas moving along it is the counterexample"], "C153": ["the radiation sweep of C144 with the face kernel of the code, inside a step of a mesh with uninitialised work arrays", "reconstruction and free-streaming flux to first order in the cell width; the blend differs from the free-streaming flux by less than any multiple of the cell width because the weight 1 - tanh of the inverse Peclet number is quadratic in the width and the diffusion flux is bounded; refinement from a block to the undivided domain; C152 for the balance; both closures shown admissible; radiation dying out in an absorbing and scattering medium as the concrete case"], "C154": ["Closure.linearSourceUpdate (the two-by-two formula), Step.transported, Step.exchanged (optical depths alpha dt kappa, densities removed and restored), the flux and source sweep of C153.", "uniqueness and linearity of the backward-Euler system; explicit determinant bounds; limits of the determinant quotient; for (5) the rate limit of C153 plus (4)."], "C155": ["Step.run with Step.codePhys (the fluxes of the code), as in C146; Carry: profiles of bounded variation, sequences, the exact amounts.", "C146 gives the update of the density as a flux with two-sided weights; Harten's lemma with the ratio 3/2 of the limiter bounds the variation; the discrete primitive of the density is compared in the mean norm with the exact primitive (monotone upwind operator plus terms bounded by the variation); the error of the primitive and the variation together give the error of the density by averaging over k cells, with k about the inverse square root of the width; refinement from blocks to the undivided domain; a top hat moving at three fifths of the speed of light as the concrete case, for rk2 and vl2."], "C156": ["Step.run with Step.codePhys as in C146 and C155; Step.bend is the coefficient of the curvature.", "the limiter is the central difference for small cells; the stage then acts exactly on quadratic polynomials and multiplies errors of third order by bounded factors; Taylor expansion; refinement from blocks to the undivided domain; a sine wave as the concrete case."], "C157": ["Recon.weno5z, mp5, piecewiseLinear; cellAvg is the interval integral divided by the width.", "exact bound of the WENO state against the linear fifth-order value by the excess of the weights and the spread of the candidates; tau5 of fifth order and the indicators of second order; limiters inactive near a line; Taylor expansion of the primitive."], "C158": ["Step.run with Step.codePhys as in C146 and C156; Step.twist is the coefficient of the third derivative; SmoothStage is ContactStage for any reconstruction.", "a stage keeps a contact for any reconstruction and widens the band by at most 41; near a point with slope both methods give the fifth-order value up to h^4; the stage acts exactly on cubic polynomials; Taylor expansion; refinement from blocks to the undivided domain; a ripple as the concrete case."], "C159": ["Recon/Limiters.lean, one definition per function, over the reals.", "the factor as a function of the ratio of differences, bounded by 2 and by twice the ratio; homogeneity of mc; witnesses."], "C160": ["Monopole/Dump.lean on top of Monopole.interpolate; a file is the list of its lines, a line the list of its numbers.", "exactness of the parabola through three points; column by column; a pair of states with the same file."], "C161": ["Step.run with Step.codePhys as in C156 and C158; the time steps are the second component of Step.run.", "expansions with coefficients that may differ from mesh to mesh but are bounded; a stage acts on the coefficients affinely relative to the start of its step; induction over stages and steps; Taylor expansion at the time elapsed; refinement from blocks to the undivided domain; a wave moving at three fifths of the speed of light as the concrete case."], "C162": ["Closure.linearSourceUpdate, iterated (Closure.CodeRelax); the exact history is Closure.ExactRelax, stated with derivatives and comoving moments.", "the rate is an affine function of the lab-frame moments, because passing to comoving moments is the inverse of a linear map; every update is a backward-Euler step for it; mean value inequality for the defect, Gronwall by induction over the steps; existence by the exponential of the linear map; uniqueness because both are the limit of the same runs."], "C163": ["MonteCarlo/Blocks.lean: MonteCarlo.mcTask, mcRegion, mcStep over the single-block functions of C69; Parthenon's Send and Receive by contract.", "the state after any part of the schedule is a function of the number of tasks done on each block (induction over the schedule); packets are shared out among blocks; C69 on each block; induction over the history."], "C164": ["LightBulb/Split.lean: LightBulb.coolStep, coolRun over coolingForce and applyForce; recovery and emissivity are parameters.", "one step is a forward-Euler step of the loss rate; induction over the steps for the budget; mean value inequality and Gronwall for the law; witnesses for lag and negative energy."], "C165": ["Closure/StageRun.lean: Closure.exUpdate, exStage, exStep, exRun; exact history Closure.ExactRelax of C162; Step.advance.", "one stage is an implicit step from a convex combination: induction over the stages with the advance of the weights read so far; defect of the exact history; Gronwall over the steps."], "C166": ["Tracers/Run.lean: Tracers.tracerRun over Tracers.advect; the path is Tracers.FlowLine, stated with derivatives and the four-velocity.", "defects of the exact path by the mean value inequality, second order by Taylor expansion of the rate along the path; stability factor e^(K dt) of the midpoint step; Gronwall; an exactly solvable unsteady flow shows that the order is one and no more there."], "C167": ["Geodesics/Run.lean: Geodesics.rayRun over Geodesics.push; the ray is Geodesics.IsRay, stated with derivatives of the path and of the inverse metric; Geodesics.ForceError states epsilon; Geodesics.Regular the points where the metric is evaluated.", "the rates of the push are continuously differentiable, hence Lipschitz on a compact tube around the ray; defect of the ray by the mean value inequality; induction keeps the pushed ray in the tube (Gronwall); a null ray with a closed form in a time dependent metric is an instance."]}