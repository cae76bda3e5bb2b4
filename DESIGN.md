# Formal model of lanl/phoebus in Lean 4: design

## Layout

* `lean/Verif/<Topic>/Model.lean` – the model: one Lean definition per C++ function (or loop body),
  each with a comment citing file and lines in `/repo`.
* `lean/Verif/<Topic>/Spec.lean` (where one is needed) – small, independent specification
  (what "root", "divergence", "inverse matrix", "average of the valid neighbours" mean).
* `lean/Verif/<Topic>/Lemmas.lean` – helper lemmas.
* `lean/Verif/<Topic>/Props.lean` – the property theorems, and beside each a non-vacuity `example`.
* `properties.jsonl`, `MANIFEST.json`, `seeded/LOG.jsonl` – property list, claim status, mutation log.

## Modelling decisions

* **Numbers.** `Real` (C++ `double`) is modelled by an arbitrary linearly ordered field `K`
  (so the theorems hold in ℝ, and the model is executable at ℚ) or, where `sqrt`, `sin`, `exp`, limits
  or the intermediate value theorem occur, by ℝ. Rounding, overflow, NaN/Inf and signed zero are *not*
  modelled, except where a definition says so (an explicit `Option`/`NaN` constructor). Every
  theorem is a statement about exact arithmetic.
* **Undefined or failing behaviour.** Division by zero in Lean is 0; theorems that go through a
  division carry the nonzero hypothesis explicitly, and the error branch is stated separately where the
  code has one. Out-of-range reads, reads of uninitialised locals, `PARTHENON_FAIL/REQUIRE`
  are distinct outcomes (`Option.none` / an explicit constructor).
* **`robust::ratio(a,b)`** `= a/(b + sgn(b)*SMALL)`: modelled with `SMALL` a positive parameter in
  `Robust`; in geometry code, where |b| ≥ 1e-290 makes `b + SMALL` round to `b`, modelled as `a/b`
  and said so at each definition.
* **Parallel loops** (`par_for`): the model is a function of the cell index reading the pre-loop state, or a
  fold over an arbitrary visiting order when the property is about order independence.
* **Parthenon, Kokkos, Spiner, singularity-eos/-opac, HDF5, MPI** are outside the model. Where a property
  needs one of their operations (flux-divergence update, EOS call) it is a parameter whose
  assumed behaviour is stated as a hypothesis, listed in the trusted base below.

## Trusted base

* Lean 4.33.0 kernel; Mathlib as installed. Axioms: at most `propext`, `Classical.choice`, `Quot.sound`
  for every theorem listed in `MANIFEST.json` (checked with `#print axioms`; no axioms are added).
* The reading of the C++ source: the model is tied to the code only by the citations.
* Exact arithmetic in place of IEEE doubles.
* Parthenon's `FluxDivergence`, `AverageIndependentData`, `UpdateIndependentData` do what their names say
  (used in C18, C19, C29).


## Per-property plan

| id | property | what is modelled | how it is proved |
|---|---|---|---|
| C01 | Piecewise-linear face states never overshoot | mc, PiecewiseLinear over an ordered field | case split on signs, order lemmas |
| C02 | Every reconstruction preserves constants | all four reconstructions | direct computation with division side conditions discharged (eps>0) |
| C03 | Linear data are reconstructed exactly | all four reconstructions | field algebra; WENO weights sum to one |
| C04 | Reconstruction commutes with mirror reflection | all four reconstructions | definitional mirror + ring |
| C05 | WENO5-Z is a convex combination of its candidates | WENO5Z | positivity of weights, convex-combination spec |
| C06 | MP5 limiting | mp5_subcalc, MINMOD, Median | order case analysis against an independent interval spec |
| C07 | Reconstruction is equivariant under affine rescaling of data | PiecewiseLinear | sign cases |
| C08 | Root finders return a point of the search interval | loops as fuelled recursion on bracket state | loop invariant |
| C09 | Root finders that report success bracket a root | same | bracket invariant + intermediate value theorem; negation witness for f(a)=0 |
| C10 | Root finders terminate within the iteration cap and report it | same | induction on fuel; witness for last-iteration failure |
| C11 | Small matrix inverse and linear solve are correct | functions on explicit entries | field_simp/ring against Mathlib Matrix product |
| C12 | Grid interpolation is consistent | weights and Do1D/2D/3D | ring; clamp lemmas |
| C13 | Four-velocity is unit timelike | GetLorentzFactor, GetFourVelocity over ℝ | algebra with 3+1 metric spec |
| C14 | Comoving magnetic field and stress tensor identities | tmunu.hpp | algebra with 3+1 metric spec |
| C15 | Conserved variables are projections of the stress-energy tensor | p2c and tmunu | algebra |
| C16 | Numerical fluxes are consistent and single valued | llf, hll | ring, order |
| C17 | Constrained transport keeps div B fixed (2D and 3D) | FluxCT loops as functions of cell index over ℤ | ring |
| C18 | div B is an invariant of a whole run | RK stage on B fields | induction over stage list |
| C19 | Flux-form update conserves totals | flux-difference update | Finset telescoping, induction over steps |
| C20 | Outflow flux fix never lets mass enter | FixFluxes | case analysis on boundary condition |
| C21 | Floors are enforced | ApplyFloors scalar core | order lemmas |
| C22 | Velocity ceiling | ApplyFloors velocity clamp | real algebra, witness for the wrong factor |
| C23 | Failed-cell repair only averages valid neighbours | fixup stencil average with mask | convex combination; permutation fold independence |
| C24 | Net-field controller | netfield controller | order lemmas, witness |
| C25 | Boundary fills leave the interior alone and are parity-correct | GenericBC loops | function update lemmas |
| C26 | Outflow velocity check stops inflow | inflow check | algebra/order |
| C27 | A failed stage makes the step fail | Step status logic | list induction, witness |
| C28 | Time step selection | dt selection | induction |
| C29 | Runge-Kutta stage combination | stage combination | induction |
| C30 | Connection coefficients are torsion free and metric compatible | SetConnectionCoeffFromMetricDerivs | ring |
| C31 | Flattened symmetric storage is a bijection | Flatten2 | decide over the complete table |
| C32 | Cached geometry returns what was stored | cache write and read index arithmetic | index algebra |
| C33 | Analytic metrics and their inverses are inverse | closed-form metrics | field_simp/ring, trig identities |
| C34 | 3+1 pieces agree with the 4-metric | closed-form metrics | ring |
| C35 | Returned metric derivatives are the derivatives of the returned metric | closed-form metrics | HasDerivAt |
| C36 | Coordinate-transformed systems obey the tensor law | modified_system transforms | Matrix algebra |
| C37 | Coordinate maps and Jacobians are consistent | coordinate maps | HasDerivAt + matrix product |
| C38 | Tetrads are orthonormal and invertible | Gram-Schmidt with arbitrary bilinear form | algebra |
| C39 | Unit conversions are mutually inverse and consistent | UnitConversions | field_simp |
| C40 | Minimum enthalpy search | reduction as fold | induction |
| C41 | Monopole volume weights | GetVolIntersectHelper | order cases, telescoping induction |
| C42 | Lapse solve satisfies the discretised equation | Thomas algorithm on lists/functions of ℕ | induction over rows |
| C43 | Vacuum monopole spacetime is flat | hypersurface RK2 | induction |
| C44 | TOV integration is monotone | TOV RK2 | induction |
| C45 | Tracers move with the fluid | tracer rhs and push | algebra, witness |
| C46 | Radiation primitive/conserved maps are inverse | ClosureEdd | algebra with inverse-metric spec |
| C47 | Implicit radiation source step solves its equations | LinearSourceUpdate | field_simp |
| C48 | M1 closure function | closure functions | nlinarith |
| C49 | Radiation-matter exchange conserves total energy and momentum | source update decision logic with uninitialised values as Option | case analysis, witness |
| C50 | Angular quadrature is exact and additive | quadrature formulas | ring + trig; additivity |
| C51 | Geodesic push advances time exactly and is exact in flat space | PushParticle | induction |
| C52 | Light bulb | tau fit, Ye update, gain latch | order; induction over history |
| C53 | Horizon diagnostic picks one cell | cell selection predicate | order on strictly increasing faces |
| C54 | Conservative-to-primitive status flags | flag conventions | case analysis, witness |
| C55 | Robust arithmetic helpers | robust.hpp | order |
| C56 | Signal speeds stay inside the light cone | characteristic speed formula of prim_to_flux over the reals | square-root inequalities with an exact square certificate |
| C57 | Fluxes are the components of the stress-energy tensor | prim_to_flux, p2c, tmunu | 3+1 algebra; negation witness for the covariant energy slot |
| C58 | Constrained transport survives the boundary flux fix | FluxCT followed by FixFluxes | frame lemma for FixFluxes plus C17; rational witness at the pole |
| C59 | Stage update does not depend on the task schedule | task list of sync_region_3 with its dependencies and effects | characterise all legal schedules, execute symbolically |
| C60 | Monopole solver cadence | counter logic of RungeKuttaStage | induction on the number of stages |
| C61 | Inversion recovers the primitive state | Residual, solve, p2c over the reals (small = 0) | reduce to the scalars W, v.B, B^2, H; Cauchy-Schwarz for the velocity bound; field_simp/ring |
| C62 | The inversion's root search is always well posed | Residual plus the regula falsi model of C08 | monotone bounds on nua, continuity, intermediate value theorem, C08/C09 |
| C63 | The inversion's output respects floors and ceilings | solve for an arbitrary mu | case analysis on the clamps; velocity norm identity; rational witness |
| C64 | Particles inside the horizon are purged | The purge as a function on the activity mask. | Exact characterisation by case analysis; a surviving particle as witness. |
| C65 | Monte Carlo emission is unbiased and independent of weights | dN, randomised rounding and packet weights over the reals | trapezoid identity by induction; interval integral of the rounding function |
| C66 | Every new packet gets its own slot | the prefix-sum loop over species and cells | induction over the zone list, existence and uniqueness, counting argument for the range |
| C67 | Packet frequencies follow the emission spectrum | dNdlnu, its maximum, the rejection loop on an arbitrary stream | fold invariants; integral of the piecewise-linear acceptance probability equals the trapezoid sum |
| C68 | Emitted packets are null and have the drawn energy in the fluid frame | tetrad construction of C38 plus the direction sampling | frame orthonormality (C38), trigonometric identities |
| C69 | Monte Carlo exchange conserves energy, momentum and lepton number | state machine over fluid fields and packet lists | closed form of the transport loop, induction over the history; exact defect formula for leptons |
| C70 | Packet transport does not depend on processing order | transport loop as a fold with additive deposits | closed form is a sum over the list, invariant under permutation (exact arithmetic) |
| C71 | Absorption follows the exponential law | the absorption test | logarithm monotonicity, Lebesgue measure of an interval |
| C72 | Sampling resolution control is bounded | tuning state machine with division by zero explicit | induction over the history; witnesses |
| C73 | Fluid geometric sources are those of general relativity | source term loops of CalculateFluidSourceTerms | reindexing of double sums, symmetry cancellation; small = 0 in robust::ratio |
| C74 | Radiation geometric sources agree with the fluid ones | con_T assembly and source contractions of CalculateGeometricSourceImpl | projection algebra, reuse of the contraction lemmas of C73 |
| C75 | The fluid time step meets the CFL condition | signal speeds, face speed returned by the solvers, min reduction over a list of cells, the shared has_face_speeds flag | fold invariants of min; square-root inequalities for the light bound |
| C76 | The radiation time step meets the CFL condition | radiation signal speed and min reduction | monotonicity of tanh, fold invariants; rational witnesses |
| C77 | Radiation fluxes are consistent and have the right limits | the whole face loop for one species, with the closure tensor a parameter | algebraic decomposition; 3+1 projections of C74; Cauchy-Schwarz for the speeds; limits of tanh |
| C78 | Radiation conserved and primitive fields agree | cell bodies of the two tasks on top of the closure model; fold over species for the flag | inverse of the linear closure system (C46), case analysis on the status |
| C79 | Radiation reconstruction reads what it wrote | index arithmetic and gradient stencils | arithmetic modulo; ring identities |
| C80 | The monopole solver integrates the constraints of general relativity | right-hand sides and one integration step (small = 0) | solve the constraint equations for the derivatives by field_simp |
| C81 | The classic inversion solves the right equations | residual, scratch scalars, final primitive recovery over the reals | algebra on the conserved image of a primitive state (shared with C2P lemmas); counterexamples for Ye and for the guess |
| C82 | The classic Newton solver stays in range | the loop with differencing, damping and backtracking over an arbitrary residual function | induction over backtracking trials and over iterations |
| C83 | Samples tile the sphere of directions | sequential splitting of cells, weights of C50, second moments, frequency shift | induction over samples: additive functions of cells, half-open tiling; integrals of C50 |
| C84 | Samples exchange energy with the fluid consistently | cell body on top of the implicit source update of C47 | telescoping over species; convexity; counterexamples |
| C85 | Samples are created, reflected and counted correctly | running start index, tetrad transformation of C38, reflection, counter | induction on zones; tetrad orthonormality; linear arithmetic |
| C86 | The torus is in equilibrium | log enthalpy, velocity, ideal-gas state, conversion of velocities; ideal gas branch only | derivative of the Fishbone-Moncrief potential for a general stationary axisymmetric metric, instantiated on the Boyer-Lindquist metric; uniqueness of the circular flow; isometry of C37 |
| C87 | The initial magnetic field is divergence free and normalised | corner potential, centred curl, reductions, scaling | linear algebra on the stencils; scaling of maxima and minima |
| C88 | Torus grid, tracers and radiation are set up as requested | range selection, per-block counts, masses, floors | linear arithmetic, intermediate value theorem, counterexamples |
| C89 | Bondi initial data is the steady transonic accretion flow | bisection loop, solution constants, gas state, horizon shift, velocity conversion; gamma = 1.4, spin zero | loop invariant and halving; calculus on the Bernoulli function; Bernoulli inequality for the guess; isometry of C37 |
| C90 | Chart-independent initial states | Jacobians, transformation and storage formulas of the two generators | derivative of the chart, isometry, 3+1 split; counterexample for inchworm |
| C91 | Linear modes are eigenmodes and return after one period | mode tables, perturbation, final time | first-order expansion of the modelled stress tensor, dispersion relations with rigorous bounds on pi |
| C92 | Test problems start with the requested velocity | velocity storage of the four generators | algebra with square roots; strict inequality for the shock tube |
| C93 | Blandford-McKee data is a slice of an exact solution | velocity, density, pressure formulas | derivatives of the homologous solution; substitution |
| C94 | Energies, energy deposits and tracers of the test problems | root find, deposit, loop with shadowed index, counts and identifiers | root-finder theorems, telescoping sum, induction over cells |
| C95 | The result of a task region does not depend on the schedule | task graphs with footprints for every region; Parthenon scheduler contract as assumption | non-colliding tasks commute; two linear extensions of the same order give the same result by induction; race freedom for all list counts by lifting a finite three-role graph |
| C96 | Races in the task graphs | same task graphs, with and without the missing edges | kernel-evaluated pair of schedules for each race; race-freedom theorem for the repaired graph |
| C97 | A step is the Runge-Kutta scheme | memory of containers indexed by stage, stage as a memory update | simulation invariant: container s holds stage s, base is untouched until the last stage |
| C98 | Net-flux enforcement does not disturb the evolution | same memory model with the conversion on the stage container | exact formula for the last stage; rk2 and net-flux corollaries |
| C99 | The monopole solver sees all matter | deposit per partition with the zeroing | induction over partitions; additivity over cells; exact condition |
| C100 | Tracers of every block are purged | swarms of all blocks, inclusive loop bound from the largest active slot, block of each list | block-wise and slot-wise characterisation; iff for the survivor |
| C101 | The progenitor table is read as written | lines as token lists; the eleven vectors; out-of-bounds access is an explicit none | induction over the lines; column lengths by counting; iff for definedness |
| C102 | Progenitor profiles are reproduced | regular-grid data box with linear interpolation | floor and convexity arguments; affine profile as witness for the converse |
| C103 | The collapsing star moves as tabulated | stored velocity, measured velocity, spherical-to-Cartesian Jacobian | algebra with square roots; the C37 inversion for the direction |
| C104 | Opacities do not depend on the choice of units | opacities as functions, the unit wrappers and the mean as operators on them | unfolding for scattering; exact factor and iff for gray absorption |
| C105 | A radiation slot is one species | build options and both lists | case analysis over the complete finite set of build options |
| C106 | Horizon radius, innermost stable orbit and inner reference radius of FMKS | the parameters computed at initialisation | algebra with square and cube roots, monotonicity, exact iff |
| C107 | Adiabatic expansion in FLRW | rest-frame tensor, source term, stage time and geometry time | derivative of the energy law, unrolled stage sequence, iff |
| C108 | Output diagnostics | the diagnostic formulas | algebra; Gaussian integral; witnesses of every deviation |
| C109 | Totals and maxima in the history file | cells, blocks, partitions and the reductions | Lebesgue measure of the cells, almost-everywhere disjointness, induction over blocks |
| C110 | Start-up: accepted configurations, initial spacetime, problem dispatch | the package checks, the order of start-up actions, the table of generators | case analysis and iff; simulation of the start-up sequence |
| C111 | Lapse of the previous cycle and the rate-of-change warning | the two buffers, the mirror and the swap | induction over the sequence of calls, iff |
| C112 | Radiation advection pulse | initial radiation and fluid state | algebra of the boost, iff conditions, witnesses |
| C113 | Small radiation test problems | initial states and stored parameters | iff, algebra, induction over cells |
| C114 | Cached geometry at arbitrary positions | linear interpolation with the code's stencil and weights, every off-grid reader | algebra, iff, witness for the wrong lapse |
| C115 | Positions and geometry at cells, faces and corners | index to coordinate maps and the indexer-based readers | algebra over the field, uniqueness of the containing zone |
| C116 | Time derivatives of the monopole spacetime | the point-wise formulas; specification from general relativity, checked against maximal slices of Schwarzschild | algebra over the field, calculus over the reals |
| C117 | Floors, ceilings and EOS limits are the ones asked for | the configuration function from input file to limits, composed with their evaluation | case analysis over all inputs, iff |
| C118 | The boundary condition asked for is used everywhere | selection of conditions from an input file; composition with the flux fix of C20 | iff, witness input |
| C119 | Ghost zones are consistent after boundary processing | region updates over the sides in order, then the fill of derived fields | induction over the sides, idempotence, witness |
| C120 | Face fluxes do not depend on schedule, history or decomposition | the two kernels with an arbitrary iteration order, scratch arrays as input, variable packs as lists | induction over the schedule; congruence of stencils; case analysis of the layout |
| C121 | The geometry self-check finds wrong caches | RelErr and the max-reduction | algebra, induction over cells, witness |
| C122 | Inversion statistics | map of counts, file contents after writes of all ranks | induction over the sequence, permutation invariance |
| C123 | Totals are conserved through a run on a mesh of blocks, and the history file shows it | blocks with global indices, per-block boundary flags, run as fold over stages, history sum over blocks | decomposition lemma for the boundary treatment, telescoping sums, induction over stages and steps, union of disjoint cell sets |
| C124 | A uniform composition stays uniform | the conserved pair through recovery, reconstruction, solver, flux divergence, Runge-Kutta | linearity of the solvers, constant preservation, induction over the run; iff for the failures |
| C125 | The density stays positive | the mass flux through recovery, reconstruction, solver, flux fixes and Runge-Kutta, with the signal speeds of the code | Cauchy-Schwarz and the light cone theorem bracket the transport velocity; per-face bounds; induction over stages and steps; explicit counterexample for the linear reconstruction |
| C126 | The TOV star put on the grid is the one that was integrated | the kernel per cell over the integrated profile | algebra of the interpolation, orthogonal matrices preserve the radius, polytrope laws; iff for the failures |
| C127 | Radiation floors and flux ceilings | the kernel for one species over the closure model, with the flags | the boosted injected energy is at least the missing one (Lorentz factor at least 1); exact inverse of the closure; case analysis over the repairs of the inversion; explicit witnesses |
| C128 | Radiation fluxes do not depend on history, schedule or blocks | the three tasks on one block as folds over any list of loop bodies, over the face flux of C77 | induction over the schedule (last writer), stencil containment, shift invariance; induction over the stages for the MOCMC opacity store; explicit uniform state for the dependence on blocks |
| C129 | A restarted run continues the interrupted one | each persistent piece as a state machine with the value a restart gives it; the restart file is a stated contract on Parthenon | simulation relations and induction over histories of steps and restarts; equivalences; explicit witnesses where it fails |
| C130 | A fluid run does not depend on the decomposition, the memory contents or the schedule | the stages of all blocks with local indices, exchange of ghost cells by owner, run as iteration; a separate reference scheme on the whole domain without blocks | simulation: every block holds the reference state at its place; emf and flux freshness lemmas; induction over stages and steps |
| C131 | A uniform state in a uniform setting stays uniform; an equilibrium stays | the run of C130 | translation theorem C132 plus vanishing divergence of constant fluxes |
| C132 | A shifted start gives the shifted run | the run of C130 | equivariance of each part of the reference scheme, induction over steps, C130 |
| C133 | Influence travels a bounded number of cells per stage | the run of C130 | stencil lemma for one stage, induction over stages and steps |
| C134 | A mirrored start gives the mirrored run | the run of C130; fluxes and speeds of C16 | oddness and reflection of the reconstructions, equivariance of the fluxes, emf signs, induction over stages and steps, C130 |
| C135 | Repairing failed cells does not depend on the decomposition | the run of C130 with a per-cell failure flag and the two repair passes; a reference scheme with the same repair on the undivided domain | simulation as C130 for calm runs; two concrete counterexamples |
| C136 | Conserved variables determine the primitive state | p2c of C15/C61 | strict monotonicity of the energy in the variable w W^2 at fixed momentum, field and density; then the other variables are read off |
| C137 | A root found without touching a bound is the right state | the residual and unwrapping of C61 | algebra of the residual at a root; uniqueness through C136 |
| C138 | The inversion does not depend on the stored initial guess | findMu of C62 | accuracy theorem of C62; explicit family of counterexamples for every tolerance |
| C139 | The electron fraction keeps the bounds of its initial data | the finite-volume run on a mesh of blocks of C76/C81 with density and electron number | the excess of electrons over a bound is a non-negative combination of the excess of the neighbouring cells; induction over stages and steps; an exact counterexample at cfl 0.8 |
| C140 | On a periodic domain only sources and floors change totals | the runs of C130 on blocks with the flux, speed, source and constrained-transport functions of the code | the flux divergence of a periodic cell field telescopes; refinement to the undivided run; induction over stages and steps; sources vanish by C03 |
| C141 | The implicit exchange finds the temperature that conserves energy | the search with its re-bracketing loop on top of the model of regula_falsi; the update on top of the model of LinearSourceUpdate | induction over the retries; monotonicity of the residual; exact solution of the update at rest; exact witness for a moving gas |
| C142 | The names of the axes do not matter | the runs of C130 with flux, speed, constrained transport, source, inversion and time-step functions of the code in arbitrary 3+1 geometry | covariance of every function under permutation of indices; induction over stages and steps; refinement to the undivided run |
| C143 | Units of length, time, density and field do not matter | the same runs as C142, with rescaled variables | homogeneity of every function; induction over stages and steps; general bound below which MP5 is unlimited, and an exact negative reconstruction |
| C144 | Total energy and momentum of gas and radiation | the runs of C130 with the exchange between the first inversion and the ghost exchange, species loop of C49 in the slots of the conserved variables, geometric sources of C73 and C74 | budget of a stage for sums of variables; induction over species, stages and steps; refinement to the undivided run |
| C145 | Radiation transport prefers no axis and no side | closure, cell conversions, face flux, face gradient and geometric source as in C64, C73 and C128 in arbitrary 3+1 geometry, and the complete search of the M1 closure | covariance of every function under signed permutations of the axes; for runs the radiation field of a stage satisfies the hypotheses of C134 and C142; an exact counterexample for the search |
| C146 | A moving contact keeps velocity and pressure | the runs of C130 with the fluxes of the code (C16, C57), in a constant geometry | conserved variables and fluxes are affine in the density with slopes in the ratio of the drift velocity; the stage is then a convex combination of edge densities; induction over stages and steps; refinement to the undivided run |
| C147 | Where the state is smooth, the fluid equations of general relativity are solved | block fluxes and flux divergence of C130 with the fluxes of the code (C16, C57) and all reconstruction kernels (C01-C06) | each kernel is Lipschitz at linear data, so the edge states have one-sided derivatives in the cell width; the flux is differentiable and the speeds continuous inside the limits; each face flux is then the flux density at the face centre plus a term equal at all faces, to first order; antisymmetry of the induction flux for constrained transport |
| C148 | A cell whose radiation source update failed is repaired consistently | the whole kernel with its launch conditions: flags, means, fallback, clamp, gas and radiation conversion | induction over the schedule; explicit formulas for the means and the two velocities; exact counterexample with energies 33/29 and 3/2 |
| C149 | The two routes to the M1 pressure tensor agree | both routes completely, regularisers idealised to zero, step sizes and tolerance arbitrary | the search keeps an exact root and finds the root of a residual of slope one; explicit basis vectors for aligned fluxes; aberration shows that the direction is wrong across the motion; sign of the residual of isotropic radiation in the number formulation |
| C150 | Fluxes and geometric sources together are the equations of general relativistic magnetohydrodynamics | conversions, fluxes and sources of the code (C16, C26-C28, C57), specification by covariant derivatives with Christoffel symbols of the metric | Jacobi formula for the derivative of the determinant, densitised divergence of vectors, mixed tensors and antisymmetric tensors; then C147 for the fluxes and a limit of the sources |
| C151 | A whole time step follows the solution of the GRMHD equations | the step of C130 with the fluxes and sources of the code | induction over the stages: the cells follow the solution to first order in the cell width, delayed by a number of steps determined by the weights; C147 for cells that are perturbed to first order, C150 for the balance; the derivative of the inversion follows from its being an inverse; refinement to the undivided step |
| C152 | The radiation variables evolve by the covariant moment equations | conversion, fluxes, geometric sources (C46, C74) and exchange terms (C47) of the code; specification by the covariant divergence of the stress tensor with Christoffel symbols | densitised divergences of C150 applied to the radiation tensor; the tensor assembled for the sources equals the specification tensor; a plane beam in flat space seen from gas moving along it is the counterexample |
| C153 | The radiation rates follow the moment equations | the radiation sweep of C144 with the face kernel of the code, inside a step of a mesh with uninitialised work arrays | reconstruction and free-streaming flux to first order in the cell width; the blend differs from the free-streaming flux by less than any multiple of the cell width because the weight 1 - tanh of the inverse Peclet number is quadratic in the width and the diffusion flux is bounded; refinement from a block to the undivided domain; C152 for the balance; both closures shown admissible; radiation dying out in an absorbing and scattering medium as the concrete case |
| C154 | The implicit matter exchange of the radiation is accurate for small steps, complete for large ones, never makes the energy negative, and the whole radiation step follows the moment equations | Closure.linearSourceUpdate (the two-by-two formula), Step.transported, Step.exchanged (optical depths alpha dt kappa, densities removed and restored), the flux and source sweep of C153. | uniqueness and linearity of the backward-Euler system; explicit determinant bounds; limits of the determinant quotient; for (5) the rate limit of C153 plus (4). |
| C155 | A moving contact converges over any finite time | Step.run with Step.codePhys (the fluxes of the code), as in C146; Carry: profiles of bounded variation, sequences, the exact amounts. | C146 gives the update of the density as a flux with two-sided weights; Harten's lemma with the ratio 3/2 of the limiter bounds the variation; the discrete primitive of the density is compared in the mean norm with the exact primitive (monotone upwind operator plus terms bounded by the variation); the error of the primitive and the variation together give the error of the density by averaging over k cells, with k about the inverse square root of the width; refinement from blocks to the undivided domain; a top hat moving at three fifths of the speed of light as the concrete case, for rk2 and vl2. |
| C156 | Linear reconstruction with rk2 or rk3 is second order where the density has a slope | Step.run with Step.codePhys as in C146 and C155; Step.bend is the coefficient of the curvature. | the limiter is the central difference for small cells; the stage then acts exactly on quadratic polynomials and multiplies errors of third order by bounded factors; Taylor expansion; refinement from blocks to the undivided domain; a sine wave as the concrete case. |
| C157 | Order of accuracy of the reconstructions | Recon.weno5z, mp5, piecewiseLinear; cellAvg is the interval integral divided by the width. | exact bound of the WENO state against the linear fifth-order value by the excess of the weights and the spread of the candidates; tau5 of fifth order and the indicators of second order; limiters inactive near a line; Taylor expansion of the primitive. |
| C158 | WENO5-Z or MP5 with rk3 is third order for a small smooth contact | Step.run with Step.codePhys as in C146 and C156; Step.twist is the coefficient of the third derivative; SmoothStage is ContactStage for any reconstruction. | a stage keeps a contact for any reconstruction and widens the band by at most 41; near a point with slope both methods give the fifth-order value up to h^4; the stage acts exactly on cubic polynomials; Taylor expansion; refinement from blocks to the undivided domain; a ripple as the concrete case. |
| C159 | The limiter functions keep face values between neighbours and reproduce straight lines | Recon/Limiters.lean, one definition per function, over the reals. | the factor as a function of the ratio of differences, bounded by 2 and by twice the ratio; homogeneity of mc; witnesses. |
| C160 | The gridded metric fields and text dumps of the monopole solver show the solution | Monopole/Dump.lean on top of Monopole.interpolate; a file is the list of its lines, a line the list of its numbers. | exactness of the parabola through three points; column by column; a pair of states with the same file. |
| C161 | The order of accuracy survives any fixed number of steps with the code's own time steps | Step.run with Step.codePhys as in C156 and C158; the time steps are the second component of Step.run. | expansions with coefficients that may differ from mesh to mesh but are bounded; a stage acts on the coefficients affinely relative to the start of its step; induction over stages and steps; Taylor expansion at the time elapsed; refinement from blocks to the undivided domain; a wave moving at three fifths of the speed of light as the concrete case. |
| C162 | Many implicit exchanges converge to the exact relaxation of radiation and gas | Closure.linearSourceUpdate, iterated (Closure.CodeRelax); the exact history is Closure.ExactRelax, stated with derivatives and comoving moments. | the rate is an affine function of the lab-frame moments, because passing to comoving moments is the inverse of a linear map; every update is a backward-Euler step for it; mean value inequality for the defect, Gronwall by induction over the steps; existence by the exponential of the linear map; uniqueness because both are the limit of the same runs. |
| C163 | Monte Carlo packets on many blocks: one move per step, in any order, nothing lost | MonteCarlo/Blocks.lean: MonteCarlo.mcTask, mcRegion, mcStep over the single-block functions of C69; Parthenon's Send and Receive by contract. | the state after any part of the schedule is a function of the number of tasks done on each block (induction over the schedule); packets are shared out among blocks; C69 on each block; induction over the history. |
| C164 | Cooling applied after the step: budget, law and lag | LightBulb/Split.lean: LightBulb.coolStep, coolRun over coolingForce and applyForce; recovery and emissivity are parameters. | one step is a forward-Euler step of the loss rate; induction over the steps for the budget; mean value inequality and Gronwall for the law; witnesses for lag and negative energy. |
| C165 | The time integrator with the exchange in every stage follows the exact relaxation | Closure/StageRun.lean: Closure.exUpdate, exStage, exStep, exRun; exact history Closure.ExactRelax of C162; Step.advance. | one stage is an implicit step from a convex combination: induction over the stages with the advance of the weights read so far; defect of the exact history; Gronwall over the steps. |
| C166 | Tracers follow the fluid elements over any finite time | Tracers/Run.lean: Tracers.tracerRun over Tracers.advect; the path is Tracers.FlowLine, stated with derivatives and the four-velocity. | defects of the exact path by the mean value inequality, second order by Taylor expansion of the rate along the path; stability factor e^(K dt) of the midpoint step; Gronwall; an exactly solvable unsteady flow shows that the order is one and no more there. |
| C167 | Pushed rays follow the geodesics | Geodesics/Run.lean: Geodesics.rayRun over Geodesics.push; the ray is Geodesics.IsRay, stated with derivatives of the path and of the inverse metric; Geodesics.ForceError states epsilon; Geodesics.Regular the points where the metric is evaluated. | the rates of the push are continuously differentiable, hence Lipschitz on a compact tube around the ray; defect of the ray by the mean value inequality; induction keeps the pushed ray in the tube (Gronwall); a null ray with a closed form in a time dependent metric is an instance. |


## What is not modelled

* IEEE rounding, overflow, NaN (except explicit outcomes), signed zeros, floating-point atomics (sums over
  particles or cells are exact, so "independent of the order" is a statement about exact sums).
* The libraries: Parthenon (mesh, tasks other than the dependency graph of C59, boundary communication, AMR operators; particle exchange
  and what a dump stores are contracts, stated in C163 and C129), Kokkos, Spiner, singularity-eos and singularity-opac, HDF5, MPI. EOS and opacity calls are function parameters.
* Input parsing (except the constants and flags named in a property), output files other than those of a listed property, the problem generators not listed in a property, `mocmc.cpp` except
  where listed, and the tracing/analysis scripts.
* The compiler, GPUs and data races: a `par_for` is its mathematical meaning.

## Disagreements between the code and the English properties found while proving

Each has a theorem (usually a concrete witness) in the model; the affected claims are `partial` in `MANIFEST.json`.

* The velocity ceiling rescales by `sqrt(g^2-1)/(W^2-1)` (fluid repair, closure, moments), which does not give Lorentz factor `g`.
* `ExpX1RhoU` floor reads the output variable; the specific floor is not enforced; a failed inversion can stay below the floor; density
  injection changes Ye.
* The net-field controller clamps with lo > hi on a decrease, leaves the target; the two-partition trial field is left behind.
* The classic con2prim flags are reversed with respect to the repair; repair with zero weight poisons the cell with NaN;
  `fixup_src` has no flux-factor ceiling; `PurgeParticles` misses the last particle.
* The polar boundary does not flip the radiation flux component; the swarm outflow for inner X2 is registered with inner X1;
  the inflow check is non-finite when the corrected speed reaches 1.
* Cached geometry: coordinates off by one component, off-grid inverse metric uses the lapse of block 0, finite-difference time derivative
  is zero for time dependent metrics. `|X1|` derivative has the wrong sign for negative radius. Boyer-Lindquist: lapse is the reciprocal, metric and inverse
  inconsistent. `Modified` time derivative untransformed. Spherical-to-Cartesian derivative has wrong powers of r.
* A user-supplied degenerate trial vector yields a degenerate tetrad.
* Monopole: `Interpolate` weights 3 instead of 1 at the last point; midpoint stages use the left radius; `a'/r := 1` for
  small r; the shell overlap is 0 when a shell is wider than a cell; `DivideVols` zeroes the central values after averaging.
* `kb_code = 1/energy`; scale-free code constants are CGS.
* Tracers: sampling never reaches the maximum, bounds can cross, advection reads block 0, Bernoulli sign/lapse, Ye never packed.
* Closure: the ceiling caps W but not v, `E` uses `W^2 p`, the robust J repair is a no-op, the number flux adds an unraised H, the
  Eddington factor dips below 1/3, the angle iteration never moves, failure is flagged at the 30th iteration even if converged.
* Moment source: the fluid is still decremented on failure, wrong index for `cov_v`, scattering ignored, unreachable step rescale.
* Geodesics: the second stage uses the force at the old position. History: EM energy flux uses `b^0` for `b_0`; block-0 metric.
* Monte Carlo: lepton exchange carries `u^0`, tuning applied twice, scattering correction unbounded, completion count only sees the last block.
* Radiation time step: per direction, not summed, and uses `W v`.
* Driver: the phi-enforcement conversion overwrites the base state before the last average; net-field changes of earlier stages are lost;
  `InterpolateMatterTo1D` clears the shell arrays once per partition; the tracer purge of list `n` acts on block `n`; missing dependencies
  update/add_rhs, copy_flux_div/add_rhs, sample_bounds/receive, set_scale, check_do_gain, new_dt/update_geom (Tasks/Props.lean);
  `particle_resolution->val[i]` is indexed by block after being resized to 1.
* Progenitor: malformed tables are read out of bounds, radii are assumed evenly spaced, the collapse is set up too slow; mean absorption
  opacities convert units twice; the opacity of a slot may be that of another species; `do_lightbulb` is shadowed in `radiation::Initialize`, so
  the radiation time step is registered with the light bulb too.
* FMKS: stored ISCO uses Z1 for its square and is too small; `x0` may lie above the ghosts. FLRW: dilution is wrong after one- and three-stage
  steps (geometry time of the last stage). Output: `div v` one-sided and with an unset metric factor in 3-D, localisation weight with pi = 3.14.
* Start-up: a progenitor's generator runs on a flat metric; a restart accepts any problem name. `SpacetimeToDevice`: on host builds the mirror shares
  memory with the first buffer, so every odd call stores the new lapse as the previous one. Radiation tests: unguarded `Params::Add` aborts with
  two or more blocks per rank; the Cartesian homogeneous sphere is a half space; the boosted pulse may have a negative time or F > E.
* C114: `SpacetimeMetricInverse(b, X0..X3)` of the cached geometry calls `Lapse(b, X1, X2, X3)`, which is the zone overload `Lapse(k?, ...)`
  of block 0 with truncated coordinates: the inverse is wrong whenever that lapse differs (`ex_inverse_wrong`).
* C116: the stored `dK/dt` of the monopole solver is the 3+1 evolution equation minus `4 alpha K^2` (`curvature_rate_defect`), so a static
  maximal slice of Schwarzschild is reported as evolving; the stored `dalpha/dt` is nonzero there as well (`slice_code_lapse`).
* C117: floor types `X1RhoSie` and `RRhoSie` read `u0_floor`/`u_exp_floor` instead of `sie0_floor`/`sie_exp_floor`.
* C118: ghost zones use the boundary keys of `<parthenon/mesh>`, the flux fix, the pole check and the MOCMC samples those of `<phoebus>`
  (default `gr_outflow`); nothing compares them, and nearly all shipped inputs only set the first (`flux_always_outflow`).
* C119: with `bc_vars = conserved` the radiation part of the outer inflow check is overwritten by the next fill of derived fields.
* C120: `fluid/recon = linear` is accepted with one ghost cell, and the sweep then reads one cell outside the block (`linear_one_ghost`).
* C121: the geometry self-check's relative error ignores pairs with a negative sum, so a wrong negative component is reported as agreement; the
  program's exit status is 1 in every case.  C122: con2prim statistics of several ranks overwrite one file.
* C124: `FixFluxes` clips the mass flux at `gr_outflow` sides but not the electron flux; `ApplyFloors` uses the *conserved* electron variable as the
  electron fraction of injected mass (fixup.cpp:452): composition drifts (`outflow_composition`, `floor_composition`).
* C126: pgen/tov.cpp puts the velocity perturbation along `x1` on Cartesian grids too, ignores negative amplitudes, and stores the pressure floor `Pmin` with a density and energy whose pressure is far smaller.
* C125: with the piecewise linear reconstruction and the default `cfl = 0.8` one stage can drain a cell to a negative density although the stage obeys the CFL condition (`MeshRun.linear_negative`).
* Radiation floors (`fixup.cpp:542-679`, C127): with the default `J0_floor = 0` a cell with negative energy density in gas at rest is set to
  `J = 0` and its flux ratio is `0/0`; without a flux ceiling below 0.999 the repaired flux is not written back to the conserved moments
  (the status `modified` of `Con2Prim` is ignored); with a pressure tensor (MOCMC, M1) the injected energy does not reach the floor; with
  `enable_rad_floors = false` the moments are not recomputed after a fluid floor or ceiling changed the velocity and `enable_rad_ceilings` has
  no effect in this pass.
* C128: with MOCMC the opacities of the flux are those of the previous stage (mocmc.cpp:703, task after the fluxes), interior zones only and without
  `FillGhost`; through every block side radiation streams as in vacuum (`mocmc_sides_transparent`), so the result depends on the decomposition.
* Restart: `dphi_dt`, `next_dphi_dt_update_time`, `phi_factor`, `do_gain_reducer`, the Monte Carlo weights and counters, the random streams, the MOCMC opacities and
  `has_face_speeds` are not saved (C129); restarting from the dump of cycle 0 drops `dt_init_fact`.
* C135: the repair of failed inversions before the exchange reads ghost cells of the previous stage, and the repair after it acts on interior cells only:
  a failure next to a block side gives a result that depends on the decomposition (`repair_depends_on_blocks`, `ghost_not_repaired`).
* C136/C138: nothing forbids an adiabatic index above 2, for which the conserved variables do not determine the state (`stiff_not_unique`); the result of
  the inversion depends on the guess stored in the cell (`guess_matters`), which is neither exchanged nor saved (`c2p_mu`, fluid.cpp:224).
* C139: with the linear reconstruction (limiter of reconstruction.hpp) and the default CFL number 0.8 one stage can drive the electron number of a cell negative although the flow is uniform and all electron fractions lie in [0, 7/10] (`ye_negative`): the face value of the electron fraction may be up to the neighbour average while the CFL number exceeds one half.
* C141: the temperature search of the `oned` source solver assumes the rest-frame relaxation of J, but in a moving gas the update that follows solves the lab-frame equations and leaves another J (`moving_gas_mismatch`: 19/13 instead of 13/9 at v = 3/5), so the gas does not end at the temperature found; all retries share one iteration counter (`search_exhausted`) and the first retry repeats the first interval (`first_retry_repeats`).
* `make_positive` bounds from below by the fixed number `EPS()` (about 2e-15) whatever the unit of density: a state whose mass-energy density in code units is smaller is not recovered by the inversion (`regulariser_matters`), and its signal speeds are wrong.
* `mp5_subcalc` compares `(f - f_j)(f - f_MP)` with the absolute number `1e-12` (reconstruction.hpp:196, 203): the limiter never acts where the values differ by less than about `8.7e-7` in code units (`mp5_limiter_off`), so low-density regions are reconstructed without any limiter and to negative densities (`mp5_negative`); the result of a run depends on the unit of density.
* C145: where the radiation flux vanishes the M1 search from conserved moments starts in the direction (1,1,1) (closure_m1.hpp:190-193, `sgn(0) = 1`), so the
  result is not the reflected one when the problem is reflected (`fromCon_not_mirror`; over the reals - in doubles the square of `1.e3*min` underflows).
* C148: after clamping the velocity `SourceFixupImpl` sets `W = gamma_max` (fixup_src.cpp:259) although the rescaled velocity does not have that Lorentz factor, so
  the radiation is converted in a frame that is not the gas frame (`source_fixup_wrong_frame`); a stored `tilPi` of the failed state is reused
  (`source_fixup_stale_tensor`); `enable_source_fixup` has no effect unless `enable_rad_floors` is set (fixup_src.cpp:331-336).
* C149: `SolveClosure` keeps the angle at pi, so in a moving gas the M1 tensor from conserved moments has the wrong direction whenever the flux is across the motion, for every
  flux factor below one (`routes_disagree_across`); with `number_conserve` the energy is converted in `GetConTilPiFromCon` (closure_m1.hpp:79) and again in `Con2Prim`
  (closure.hpp:310) (`number_route_wrong`).
* C152: with the M1 closure in moving gas the stored radiation energy exceeds `n_m n_n T^{mn}` (C46) while the energy flux is the right one, so that energy is not transported
  by its own flux: for a beam along gas at 3/5 c the rates differ by 539/512 (`moving_beam_wrong`).
* C159: the limiter functions of `reconstruction.hpp` (not called) follow three different conventions: `barth_jespersen` multiplies the central slope, `nolim` and `overbee_alpha` want the left
  difference with the opposite sign, `minmod` is the monotonised central limiter with factor 3/2; `ltanh`, `overbee` do not reproduce straight lines.
* C160: `DumpToTxt` writes `dK/dr` in the column of `dK/dt` and names 7 of 21 columns (monopole_gr.cpp:684-700).
* Classic/Torus/Bondi/test problem deviations are listed with their claims (C78-C94).

## Scheduler contract (assumption of C95-C100)

Parthenon's task runtime is not in the repository. `Tasks/Model.lean` assumes: regions are executed one after the other; a task starts
after the tasks it was given as dependency are complete; `local_sync` makes dependents wait for the task in all lists;
`once_per_region` runs the task in the first list only; otherwise any order. A receive waits for the matching sends. Task bodies are
atomic and only constrained by their footprints (what they read, overwrite, accumulate), which `Tasks/Regions.lean` reads off the code.
