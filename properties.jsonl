{"id": "C01", "title": "Piecewise-linear face states never overshoot", "statement": "For any three consecutive cell values, the piecewise-linear reconstruction's state at the right face lies between the cell value and its right neighbour and the state at the left face lies between the left neighbour and the cell value; at a local extremum both equal the cell value; the two face states average to the cell value.", "quantifier": "every triple of real cell values", "why_tests_cant": "The claim ranges over an infinite set of inputs; a unit test samples a handful of them. A limiter bug shows only for particular sign/ratio combinations.", "anchors": ["src/reconstruction.hpp: mc, PiecewiseLinear"]}
{"id": "C02", "title": "Every reconstruction preserves constants", "statement": "On a stencil of equal values each of constant, linear, WENO5-Z and MP5 reconstruction returns exactly that value on both faces.", "quantifier": "every reconstruction method, every constant value", "why_tests_cant": "The claim ranges over an infinite set of inputs; a unit test samples a handful of them.", "anchors": ["src/reconstruction.hpp: PiecewiseConstant, PiecewiseLinear, WENO5Z, MP5"]}
{"id": "C03", "title": "Linear data are reconstructed exactly", "statement": "If the stencil samples an affine function, linear, WENO5-Z and MP5 reconstruction return the exact values at both faces.", "quantifier": "every slope and intercept", "why_tests_cant": "The claim ranges over an infinite set of inputs; a unit test samples a handful of them.", "anchors": ["src/reconstruction.hpp: PiecewiseLinear, WENO5Z, MP5"]}
{"id": "C04", "title": "Reconstruction commutes with mirror reflection", "statement": "Reversing the stencil swaps the left and right face states, for linear, WENO5-Z and MP5.", "quantifier": "every stencil of real values", "why_tests_cant": "The claim ranges over an infinite set of inputs; a unit test samples a handful of them. An index slip in one of the two mirrored halves is visible only on asymmetric stencils.", "anchors": ["src/reconstruction.hpp: PiecewiseLinear, WENO5Z, MP5"]}
{"id": "C05", "title": "WENO5-Z is a convex combination of its candidates", "statement": "The WENO5-Z face state is a convex combination of the three third-order candidate interpolants and the limited linear state: weights are nonnegative and sum to one, so it is within their range.", "quantifier": "every five-point stencil", "why_tests_cant": "The claim ranges over an infinite set of inputs; a unit test samples a handful of them.", "anchors": ["src/reconstruction.hpp: WENO5Z"]}
{"id": "C06", "title": "MP5 limiting", "statement": "When MP5's accuracy test rejects the high-order interpolant, the returned face state lies in the interval spanned by the monotonicity-preserving bounds; for monotone data with the plain interpolant already in the MP interval the high-order value is returned unchanged.", "quantifier": "every five-point stencil", "why_tests_cant": "The claim ranges over an infinite set of inputs; a unit test samples a handful of them.", "anchors": ["src/reconstruction.hpp: mp5_subcalc, MINMOD, Median"]}
{"id": "C07", "title": "Reconstruction is equivariant under affine rescaling of data", "statement": "Adding a constant to, or multiplying by a constant (of either sign), all cell values does the same to the linear reconstruction's face states.", "quantifier": "every stencil, every shift and scale", "why_tests_cant": "The claim ranges over an infinite set of inputs; a unit test samples a handful of them.", "anchors": ["src/reconstruction.hpp: PiecewiseLinear"]}
{"id": "C08", "title": "Root finders return a point of the search interval", "statement": "For every function, starting interval, tolerance and iteration cap, the value returned by bisection, regula falsi, ITP and by the secant finder whose guess is inside lies in the closed search interval.", "quantifier": "every function f, interval, tolerance, guess, iteration cap", "why_tests_cant": "The claim is over every function handed in by EOS/con2prim code, i.e. every trajectory of the iteration.", "anchors": ["src/phoebus_utils/root_find.hpp: RootFind::bisect, itp, regula_falsi, secant"]}
{"id": "C09", "title": "Root finders that report success bracket a root", "statement": "If f is continuous with a sign change over the interval and the finder reports success, there is a root of f within the stated tolerance of the returned value. (The code violates this when the root is the left end of the interval.)", "quantifier": "every continuous f, interval, tolerance, cap", "why_tests_cant": "Depends on an invariant over the whole iteration history for every function.", "anchors": ["src/phoebus_utils/root_find.hpp: bisect, itp, regula_falsi, check_bracket"]}
{"id": "C10", "title": "Root finders terminate within the iteration cap and report it", "statement": "The number of iterations recorded never exceeds the cap, and failure is reported whenever the tolerance was not met. (The code also reports failure when the tolerance is met on exactly the last permitted iteration.)", "quantifier": "every function, interval, tolerance, cap", "why_tests_cant": "Every execution length has to be covered, including the boundary iteration.", "anchors": ["src/phoebus_utils/root_find.hpp: RootFind"]}
{"id": "C11", "title": "Small matrix inverse and linear solve are correct", "statement": "The 3x3 inverse times the matrix is the identity for every symmetric invertible matrix (not for all matrices: the determinant used is wrong for nonsymmetric ones), the 4x4 inverse for every invertible matrix, and the 2x2 solve satisfies the equations.", "quantifier": "every matrix with nonzero determinant", "why_tests_cant": "The claim ranges over an infinite set of inputs; a unit test samples a handful of them. A cofactor sign error hides for structured test matrices.", "anchors": ["src/phoebus_utils/linear_algebra.hpp: matrixInverse3x3, SolveAxb2x2, matrixInverse4x4"]}
{"id": "C12", "title": "Grid interpolation is consistent", "statement": "Linear interpolation from cell centres to a point reproduces node values, is exact on functions linear in each coordinate, uses weights summing to one, and inside the grid stays within the range of the stencil values, in one, two and three dimensions.", "quantifier": "every grid, point and field", "why_tests_cant": "The claim ranges over an infinite set of inputs; a unit test samples a handful of them.", "anchors": ["src/phoebus_utils/phoebus_interpolation.hpp: Cent::Linear"]}
{"id": "C13", "title": "Four-velocity is unit timelike", "statement": "For every spatial metric, lapse, shift and velocity primitive the four-velocity built by the code satisfies u.u = -1, its Lorentz factor is at least one, and equals alpha u^0.", "quantifier": "every nondegenerate 3-metric, lapse>0, shift, velocity", "why_tests_cant": "The claim ranges over an infinite set of inputs; a unit test samples a handful of them.", "anchors": ["src/phoebus_utils/relativity_utils.hpp: GetLorentzFactor, GetFourVelocity"]}
{"id": "C14", "title": "Comoving magnetic field and stress tensor identities", "statement": "The stress-energy tensor used for geometric sources is symmetric, its magnetic four-vector satisfies b.u=0 and b.b=b^2, and its trace is -rho - u + 3P ... as for ideal MHD.", "quantifier": "every metric, velocity, field and thermodynamic state", "why_tests_cant": "The claim ranges over an infinite set of inputs; a unit test samples a handful of them.", "anchors": ["src/fluid/tmunu.hpp: StressEnergyTensorCon"]}
{"id": "C15", "title": "Conserved variables are projections of the stress-energy tensor", "statement": "The conserved density, momentum and energy computed from primitives equal sqrt(gamma) times the projections of the mass current and the code's stress-energy tensor on the normal observer.", "quantifier": "every metric and primitive state", "why_tests_cant": "Two different code paths must agree for every state; a term dropped in one only shows in general metrics with shift and field.", "anchors": ["src/fluid/prim2con.hpp: p2c", "src/fluid/tmunu.hpp"]}
{"id": "C16", "title": "Numerical fluxes are consistent and single valued", "statement": "LLF and HLL return the physical flux when both states agree; HLL returns the upwind flux when all signals travel one way; both reverse exactly under mirror reflection of the face; and the LLF dissipation speed bounds every signal speed.", "quantifier": "every pair of states, fluxes and signal speeds", "why_tests_cant": "The claim ranges over an infinite set of inputs; a unit test samples a handful of them.", "anchors": ["src/fluid/riemann.hpp: llf, hll"]}
{"id": "C17", "title": "Constrained transport keeps div B fixed (2D and 3D)", "statement": "After the edge-averaging of induction fluxes, the finite-difference time derivative of the code's own div B diagnostic vanishes in every interior cell, in 2D and 3D, whatever the face fluxes were.", "quantifier": "every field of face fluxes, every cell, every mesh spacing", "why_tests_cant": "Needs the identity for all fluxes at all cells; tests see only smooth fields.", "anchors": ["src/fluid/fluid.cpp: FluxCT, CalculateDivB"]}
{"id": "C18", "title": "div B is an invariant of a whole run", "statement": "Through any sequence of Runge-Kutta stages with any time steps and fluxes the discrete div B of an initially divergence-free field stays zero.", "quantifier": "every history of stages", "why_tests_cant": "Unbounded histories.", "anchors": ["src/fluid/fluid.cpp: FluxCT, CalculateDivB", "src/phoebus_driver.cpp: RungeKuttaStage"]}
{"id": "C19", "title": "Flux-form update conserves totals", "statement": "With flux-difference updates on a line of cells the total of a conserved variable changes only by the boundary fluxes, and is exactly constant when the boundary fluxes are zeroed by the reflecting flux fix.", "quantifier": "every number of cells, fluxes, steps", "why_tests_cant": "Unbounded sizes and histories.", "anchors": ["src/fixup/fixup.cpp: FixFluxes", "src/fluid/fluid.cpp"]}
{"id": "C20", "title": "Outflow flux fix never lets mass enter", "statement": "At an outflow boundary the density flux after the fix never carries mass into the domain and is unchanged when already outgoing; at reflecting and polar boundaries no mass, energy or radiation energy crosses; faces not on such a boundary are untouched.", "quantifier": "every flux field, every boundary", "why_tests_cant": "The claim ranges over an infinite set of inputs; a unit test samples a handful of them.", "anchors": ["src/fixup/fixup.cpp: FixFluxes"]}
{"id": "C21", "title": "Floors are enforced", "statement": "After floors are applied density and internal energy are at least their floors and the specific internal energy at least the specific floor, and a state already above all floors is returned unchanged.", "quantifier": "every state and floor values", "why_tests_cant": "The claim ranges over an infinite set of inputs; a unit test samples a handful of them.", "anchors": ["src/fixup/fixup.cpp: ApplyFloors", "src/fixup/fixup.hpp: Bounds"]}
{"id": "C22", "title": "Velocity ceiling", "statement": "When the Lorentz factor exceeds the ceiling the fix rescales the velocity so the new Lorentz factor equals the ceiling. (The code's factor sqrt(g^2-1)/(W^2-1) does not do this: proved wrong with a witness; what it does guarantee is proved.)", "quantifier": "every metric, velocity and ceiling", "why_tests_cant": "The claim ranges over an infinite set of inputs; a unit test samples a handful of them.", "anchors": ["src/fixup/fixup.cpp: ApplyFloors", "src/radiation/moments.cpp: CalculateFluxesImpl"]}
{"id": "C23", "title": "Failed-cell repair only averages valid neighbours", "statement": "A cell whose inversion failed receives the average of its successful neighbours (hence values inside their range) or the fixed floor state when none is valid; successful cells are untouched; the result does not depend on the order in which cells are visited.", "quantifier": "every mask of failures, every field, every visiting order", "why_tests_cant": "Schedules: parallel loop order is not controlled by tests.", "anchors": ["src/fixup/fixup_c2p.cpp", "src/fixup/fixup_src.cpp"]}
{"id": "C24", "title": "Net-field controller", "statement": "The controller's requested multiplicative change is limited as documented whatever the sign of the rate; the controller's state machine only adjusts when enabled. (clamp is called with lo>hi when the change is negative.)", "quantifier": "every rate, bounds, history", "why_tests_cant": "The claim ranges over an infinite set of inputs; a unit test samples a handful of them.", "anchors": ["src/fixup/fixup_netfield.cpp"]}
{"id": "C25", "title": "Boundary fills leave the interior alone and are parity-correct", "statement": "Outflow copies the nearest interior value; reflection mirrors values with a sign flip exactly for the normal vector component; interior cells are never changed; applying a boundary fill twice equals applying it once.", "quantifier": "every field, ghost width and side", "why_tests_cant": "The claim ranges over an infinite set of inputs; a unit test samples a handful of them.", "anchors": ["src/phoebus_boundaries/phoebus_boundaries.cpp: GenericBC"]}
{"id": "C26", "title": "Outflow velocity check stops inflow", "statement": "After the ghost-zone velocity conversion at an outflow boundary the fluid's coordinate velocity does not point into the domain and velocities already outgoing are unchanged.", "quantifier": "every metric, velocity", "why_tests_cant": "The claim ranges over an infinite set of inputs; a unit test samples a handful of them.", "anchors": ["src/phoebus_boundaries/phoebus_boundaries.cpp: ConvertBoundaryConditions"]}
{"id": "C27", "title": "A failed stage makes the step fail", "statement": "If the task list of any Runge-Kutta stage fails, the step reports failure. (The code overwrites the status: proved false with a witness.)", "quantifier": "every sequence of stage outcomes", "why_tests_cant": "Needs every failure history.", "anchors": ["src/phoebus_driver.cpp: Step"]}
{"id": "C28", "title": "Time step selection", "statement": "The step taken never exceeds the growth cap, the user cap, or the time left to tlim, so no run passes tlim and, with steps bounded below, reaches it.", "quantifier": "every sequence of proposed steps", "why_tests_cant": "Unbounded histories.", "anchors": ["src/phoebus_driver.cpp: Step, SetGlobalTimeStep", "src/fluid/fluid.cpp: EstimateTimestepBlock"]}
{"id": "C29", "title": "Runge-Kutta stage combination", "statement": "The stage update is the convex combination beta*U + (1-beta)*U0 + beta*dt*dU; with the registered low-storage coefficients a constant right-hand side advances the state by exactly dt*rhs, and linear invariants of the right-hand side are preserved at every stage.", "quantifier": "every number of stages, every rhs history", "why_tests_cant": "Unbounded histories.", "anchors": ["src/phoebus_driver.cpp: RungeKuttaStage"]}
{"id": "C30", "title": "Connection coefficients are torsion free and metric compatible", "statement": "The Christoffel symbols computed from metric derivatives are symmetric in the last two indices and satisfy Gamma_abc + Gamma_bac = d_c g_ab, for every symmetric metric derivative array.", "quantifier": "every derivative array symmetric in its metric indices", "why_tests_cant": "The claim ranges over an infinite set of inputs; a unit test samples a handful of them.", "anchors": ["src/geometry/geometry_utils.hpp: SetConnectionCoeffFromMetricDerivs"]}
{"id": "C31", "title": "Flattened symmetric storage is a bijection", "statement": "The flat index of a symmetric pair is symmetric, within range, injective on unordered pairs and onto the storage range, for both 3- and 4-dimensional tensors.", "quantifier": "every index pair", "why_tests_cant": "A finite table, but the cached geometry relies on it for all tensors.", "anchors": ["src/geometry/geometry_utils.hpp: Flatten2, SymSize"]}
{"id": "C32", "title": "Cached geometry returns what was stored", "statement": "Reading the cached metric, lapse, shift, determinant or derivatives at a cell returns the analytic values stored at the same cell and location, for every block and cell. (Cached coordinates are off by one component: proved with a witness.)", "quantifier": "every block, cell, location, symmetric tensor", "why_tests_cant": "Index arithmetic over all components and all cells.", "anchors": ["src/geometry/cached_system.hpp", "src/geometry/geometry_utils.hpp: SetGeometryDefault"]}
{"id": "C33", "title": "Analytic metrics and their inverses are inverse", "statement": "For every coordinate system the 3-metric times its inverse and the 4-metric times its inverse are the identity at every regular point. (Boyer-Lindquist fails: witness.)", "quantifier": "every regular point and parameter", "why_tests_cant": "The claim ranges over an infinite set of inputs; a unit test samples a handful of them.", "anchors": ["src/geometry/minkowski.hpp", "src/geometry/spherical_minkowski.hpp", "src/geometry/boosted_minkowski.hpp", "src/geometry/snake.hpp", "src/geometry/inchworm.hpp", "src/geometry/flrw.hpp", "src/geometry/spherical_kerr_schild.hpp", "src/geometry/boyer_lindquist.hpp"]}
{"id": "C34", "title": "3+1 pieces agree with the 4-metric", "statement": "Lapse, shift, 3-metric and determinant returned by each coordinate system reassemble to the returned 4-metric.", "quantifier": "every regular point and parameter", "why_tests_cant": "The claim ranges over an infinite set of inputs; a unit test samples a handful of them.", "anchors": ["src/geometry/*.hpp"]}
{"id": "C35", "title": "Returned metric derivatives are the derivatives of the returned metric", "statement": "For each analytic system the array returned by MetricDerivative (and GradLnAlpha) is the true partial derivative of the returned metric (log lapse).", "quantifier": "every regular point and parameter", "why_tests_cant": "Derivative is a limit; tests use finite differences at a few points.", "anchors": ["src/geometry/*.hpp: MetricDerivative, GradLnAlpha"]}
{"id": "C36", "title": "Coordinate-transformed systems obey the tensor law", "statement": "For a modified system whose Jacobians are mutually inverse the transformed metric and inverse metric stay inverse, contraction of transformed vectors is invariant, and the determinant scales by |det J|.", "quantifier": "every metric and Jacobian pair", "why_tests_cant": "The claim ranges over an infinite set of inputs; a unit test samples a handful of them.", "anchors": ["src/geometry/modified_system.hpp"]}
{"id": "C37", "title": "Coordinate maps and Jacobians are consistent", "statement": "McKinney-Gammie-Ryan and spherical-to-Cartesian transformations return Jacobians that are mutually inverse and are the derivative of the map. (The Cartesian derivative helper has wrong powers of r: witness.)", "quantifier": "every regular point", "why_tests_cant": "The claim ranges over an infinite set of inputs; a unit test samples a handful of them.", "anchors": ["src/geometry/mckinney_gammie_ryan.hpp", "src/geometry/sph2cart.hpp"]}
{"id": "C38", "title": "Tetrads are orthonormal and invertible", "statement": "The tetrad built from any timelike unit four-velocity is orthonormal, and converting a vector to the tetrad frame and back is the identity.", "quantifier": "every metric and four-velocity for which the code's normalisations are defined", "why_tests_cant": "The claim ranges over an infinite set of inputs; a unit test samples a handful of them.", "anchors": ["src/geometry/tetrads.hpp"]}
{"id": "C39", "title": "Unit conversions are mutually inverse and consistent", "statement": "Every code-to-CGS factor times its inverse is one, composite units are the right products of length, mass and time, c is one in code units, for every choice of units.", "quantifier": "every positive unit system", "why_tests_cant": "The claim ranges over an infinite set of inputs; a unit test samples a handful of them.", "anchors": ["src/phoebus_utils/unit_conversions.hpp"]}
{"id": "C40", "title": "Minimum enthalpy search", "statement": "The reported minimum enthalpy is a lower bound of all sampled enthalpies and is attained (or the cap), for any number of samples.", "quantifier": "every sample count and enthalpy function", "why_tests_cant": "Unbounded reduction.", "anchors": ["src/phoebus_utils/adiabats.hpp"]}
{"id": "C41", "title": "Monopole volume weights", "statement": "The fraction of a spherical shell covered by a cell equals overlap length over cell width, is in [0,1], and over shells covering the cell the fractions sum to one.", "quantifier": "every interval pair, every shell grid", "why_tests_cant": "Real-valued geometry and unbounded grids.", "anchors": ["src/monopole_gr/monopole_gr_utils.hpp: GetVolIntersectHelper"]}
{"id": "C42", "title": "Lapse solve satisfies the discretised equation", "statement": "The tridiagonal solve returns a lapse satisfying every row of the assembled system including boundary rows, for any number of points, provided pivots are nonzero; in vacuum the lapse is identically one.", "quantifier": "every number of radial points and source profile", "why_tests_cant": "Unbounded grid size (induction over rows).", "anchors": ["src/monopole_gr/monopole_gr.cpp: LinearSolveForAlpha"]}
{"id": "C43", "title": "Vacuum monopole spacetime is flat", "statement": "With zero matter sources the hypersurface integration gives a=1 and K=0 at all radii, the shift is zero and the metric Minkowski.", "quantifier": "every grid", "why_tests_cant": "Unbounded grid size.", "anchors": ["src/monopole_gr/monopole_gr.cpp: IntegrateHypersurface, SpacetimeToDevice"]}
{"id": "C44", "title": "TOV integration is monotone", "statement": "Enclosed mass never decreases and pressure never increases outward while the state is physical; below the pressure floor the state is frozen.", "quantifier": "every grid, every EOS", "why_tests_cant": "Unbounded grids and arbitrary EOS.", "anchors": ["src/tov/tov.hpp", "src/tov/tov.cpp"]}
{"id": "C45", "title": "Tracers move with the fluid", "statement": "A tracer's coordinate velocity is alpha v^i - beta^i, equals u^i/u^0, and a uniform flow moves each tracer by dt times that velocity; inactive tracers do not move. (In a multi-block pack all tracers read block zero: witness.)", "quantifier": "every particle, block, velocity, dt", "why_tests_cant": "Every particle/block assignment.", "anchors": ["src/tracers/tracers.cpp", "src/tracers/tracers.hpp"]}
{"id": "C46", "title": "Radiation primitive/conserved maps are inverse", "statement": "Under the Eddington closure the conversion of rest-frame moments to lab-frame moments followed by the inverse is the identity for every subluminal velocity and metric.", "quantifier": "every metric, velocity, moments", "why_tests_cant": "The claim ranges over an infinite set of inputs; a unit test samples a handful of them.", "anchors": ["src/radiation/closure.hpp: ClosureEdd::Prim2Con, Con2Prim"]}
{"id": "C47", "title": "Implicit radiation source step solves its equations", "statement": "The increments returned by the linear source update satisfy the backward-Euler equations for energy and momentum; zero optical depth gives zero increment.", "quantifier": "every state and optical depth", "why_tests_cant": "The claim ranges over an infinite set of inputs; a unit test samples a handful of them.", "anchors": ["src/radiation/closure.hpp: LinearSourceUpdate"]}
{"id": "C48", "title": "M1 closure function", "statement": "The variable Eddington factor is 1/3 in the diffusive limit, 1 when free streaming, and lies between over the admissible range as documented.", "quantifier": "every flux factor in [0,1]", "why_tests_cant": "The claim ranges over an infinite set of inputs; a unit test samples a handful of them.", "anchors": ["src/radiation/closure_m1.hpp: closure, athin"]}
{"id": "C49", "title": "Radiation-matter exchange conserves total energy and momentum", "statement": "The source update subtracts from the fluid exactly what it adds to the radiation, in every branch. (When the solver fails the fluid is still changed: witness.)", "quantifier": "every solver outcome", "why_tests_cant": "Failure branches depend on runtime data.", "anchors": ["src/radiation/moments_source.cpp: MomentFluidSourceImpl"]}
{"id": "C50", "title": "Angular quadrature is exact and additive", "statement": "The n_i n_j quadrature of an angular cell has trace equal to the cell's solid angle and is additive under subdivision; over the sphere it gives (4 pi/3) delta_ij.", "quantifier": "every angular rectangle and subdivision", "why_tests_cant": "The claim ranges over an infinite set of inputs; a unit test samples a handful of them.", "anchors": ["src/radiation/kd_grid.hpp"]}
{"id": "C51", "title": "Geodesic push advances time exactly and is exact in flat space", "statement": "A push of size dt advances coordinate time by exactly dt; in Minkowski space the wave vector is constant and the path straight, through any number of pushes.", "quantifier": "every history of pushes", "why_tests_cant": "Unbounded histories.", "anchors": ["src/radiation/geodesics.hpp"]}
{"id": "C52", "title": "Light bulb", "statement": "The optical-depth fit is continuous and nondecreasing in density, gain once switched on stays on, and an electron-fraction update lowers Ye by at most 5 percent and never raises it in the fit's density range.", "quantifier": "every density, Ye, history", "why_tests_cant": "The claim ranges over an infinite set of inputs; a unit test samples a handful of them.", "anchors": ["src/radiation/cooling_function.cpp", "src/radiation/light_bulb_constants.hpp"]}
{"id": "C53", "title": "Horizon diagnostic picks one cell", "statement": "In each column the flux-through-horizon reduction selects exactly one cell whenever the horizon is inside the block's face range, and interpolation to the horizon is between the two values used.", "quantifier": "every mesh and horizon radius", "why_tests_cant": "The claim ranges over an infinite set of inputs; a unit test samples a handful of them.", "anchors": ["src/analysis/history.cpp", "src/analysis/history_utils.hpp"]}
{"id": "C54", "title": "Conservative-to-primitive status flags", "statement": "Cells are marked for repair exactly when the inversion or the bounds check failed. (The classic inverter and the repair code use opposite conventions: witness.)", "quantifier": "every outcome", "why_tests_cant": "All combinations of flags.", "anchors": ["src/fluid/con2prim.hpp", "src/fluid/con2prim_robust.hpp"]}
{"id": "C55", "title": "Robust arithmetic helpers", "statement": "ratio never divides by zero, keeps the sign and approximates the quotient; make_positive and make_bounded return values strictly inside their range.", "quantifier": "every pair of reals", "why_tests_cant": "The claim ranges over an infinite set of inputs; a unit test samples a handful of them.", "anchors": ["src/phoebus_utils/robust.hpp"]}
{"id": "C56", "title": "Signal speeds stay inside the light cone", "statement": "For every lapse, shift and sub-light state, the outgoing and ingoing characteristic speeds used for the numerical flux are ordered, bracket the fluid's coordinate velocity and never exceed the coordinate speed of light beyond the documented regularisation.", "quantifier": "every metric, velocity and sound/Alfven speed", "why_tests_cant": "The claim ranges over an infinite set of inputs; a unit test samples a handful of them.", "anchors": ["src/fluid/riemann.hpp: FluxState::prim_to_flux"]}
{"id": "C57", "title": "Fluxes are the components of the stress-energy tensor", "statement": "Within floors and ceilings the conserved and flux vectors used at a face are the projections and spatial components of the mass current, stress-energy tensor and ideal induction tensor, and the conserved vector equals the one used by the update; the induction fluxes are antisymmetric in their two directions.", "quantifier": "every metric and primitive state, both energy formulations", "why_tests_cant": "Three separately coded formulas must agree for every state, including shift, off-diagonal metric and field.", "anchors": ["src/fluid/riemann.hpp: FluxState::prim_to_flux", "src/fluid/prim2con.hpp: p2c", "src/fluid/tmunu.hpp"]}
{"id": "C58", "title": "Constrained transport survives the boundary flux fix", "statement": "With the order of operations of a Runge-Kutta stage (edge averaging, then boundary flux fix) div B at a node whose cells are all interior is unchanged, for every boundary configuration. (False next to a polar boundary: witness.)", "quantifier": "every flux field, block, boundary configuration, node and step", "why_tests_cant": "The claim ranges over an infinite set of inputs; a unit test samples a handful of them.", "anchors": ["src/phoebus_driver.cpp: RungeKuttaStage", "src/fixup/fixup.cpp: FixFluxes", "src/fluid/fluid.cpp: FluxCT"]}
{"id": "C59", "title": "Stage update does not depend on the task schedule", "statement": "Every order of the update tasks that respects the declared dependencies gives the same new state, including geometric source terms. (False: the update does not wait for the source terms.)", "quantifier": "every schedule allowed by the task dependencies, every state", "why_tests_cant": "A test runs one schedule; the claim is over all linear extensions of the dependency graph.", "anchors": ["src/phoebus_driver.cpp: RungeKuttaStage"]}
{"id": "C60", "title": "Monopole solver cadence", "statement": "The monopole solver runs in a fixed number of leading stages determined by run_n_times, in every stage when it is negative, and never when static or disabled, however long the run.", "quantifier": "every run length and setting", "why_tests_cant": "The claim ranges over an infinite set of inputs; a unit test samples a handful of them.", "anchors": ["src/phoebus_driver.cpp: RungeKuttaStage"]}
{"id": "C61", "title": "Inversion recovers the primitive state", "statement": "For every geometry and every admissible primitive state (within floors and ceilings, h>=1) whose mass-energy density is at least the constant EPS of the code, 1/(hW) is an exact root, inside the search interval, of the robust inverter's residual built from the state's conserved variables, and unwrapping that root returns exactly the original density, energy, pressure, velocity, field and electron fraction and leaves the conserved variables unchanged, in both energy formulations. (Below EPS, a fixed number whatever the unit of density, no root gives the state back.)", "quantifier": "every metric, lapse, shift, magnetised moving state, EOS and formulation", "why_tests_cant": "Round-trip identity over a continuum of states and metrics.", "anchors": ["src/fluid/con2prim_robust.hpp: Residual, ConToPrim::solve", "src/fluid/prim2con.hpp: p2c"]}
{"id": "C62", "title": "The inversion's root search is always well posed", "statement": "For every conserved state whatsoever the residual is negative at 0 and nonnegative at 1, is continuous for a continuous EOS, has a root in (0,1], the search never aborts, returns a value in [0,1], and on convergence a true root is within tolerance.", "quantifier": "every conserved state, EOS with nonnegative pressure, stored guess and iteration cap", "why_tests_cant": "Quantifies over all (also unphysical) conserved states.", "anchors": ["src/fluid/con2prim_robust.hpp: Residual::operator(), ConToPrim::solve", "src/phoebus_utils/root_find.hpp: regula_falsi"]}
{"id": "C63", "title": "The inversion's output respects floors and ceilings", "statement": "For every conserved state the returned density, specific energy and Lorentz factor respect their floors and ceilings, and bounds used are flagged and leave consistent conserved variables. (The Lorentz factor ceiling is not respected: witness at an exact root.)", "quantifier": "every conserved state and every value returned by the root finder", "why_tests_cant": "The claim ranges over an infinite set of inputs; a unit test samples a handful of them.", "anchors": ["src/fluid/con2prim_robust.hpp: Residual, ConToPrim::solve"]}
{"id": "C64", "title": "Particles inside the horizon are purged", "statement": "After a purge no active particle lies at or inside the horizon radius and every particle outside is kept. (The loop stops one slot early: the last active particle is never examined.)", "quantifier": "every swarm, any number of particles", "why_tests_cant": "The claim ranges over an infinite set of inputs; a unit test samples a handful of them.", "anchors": ["src/fixup/fixup_particles.cpp: PurgeParticles"]}
{"id": "C65", "title": "Monte Carlo emission is unbiased and independent of weights", "statement": "For every emissivity, metric cell and time step, the energy a cell emits in packets, averaged over the rounding draw, equals the trapezoidal integral of its emissivity times the cell four-volume, whatever the base weight and the tuning factor; the number of packets differs from the number due by less than one, is never negative, and is zero when nothing is due.", "quantifier": "every emissivity, frequency grid, cell volume, time step, weight, tuning factor and random draw", "why_tests_cant": "A statement about an average over a continuum of draws and about every parameter choice.", "anchors": ["src/radiation/monte_carlo.cpp: MonteCarloSourceParticles, GetWeight"]}
{"id": "C66", "title": "Every new packet gets its own slot", "statement": "Over all species and cells of a block the packets created in a step are numbered 0 to N-1 without gaps, collisions or overruns.", "quantifier": "every number of species, block shape and number of packets per cell", "why_tests_cant": "All count arrays of all sizes.", "anchors": ["src/radiation/monte_carlo.cpp: MonteCarloSourceParticles (starting_index)"]}
{"id": "C67", "title": "Packet frequencies follow the emission spectrum", "statement": "Every candidate frequency lies in the configured range, is looked up inside the table and is accepted with a probability in [0,1]; packets are only created in cells that emit; and the mean energy per logarithmic frequency carried by the packets is the piecewise-linear interpolant of nu J(nu) times the cell four-volume.", "quantifier": "every emissivity, frequency grid and stream of draws", "why_tests_cant": "Distributional claim over a continuum of draws.", "anchors": ["src/radiation/monte_carlo.cpp: MonteCarloSourceParticles (rejection loop, dNdlnu)"]}
{"id": "C68", "title": "Emitted packets are null and have the drawn energy in the fluid frame", "statement": "For every metric, fluid velocity, frequency and direction drawn, the wave vector given to a packet is null and its energy measured by the emitting fluid is h nu; the polar direction cosine is uniform in [-1,1].", "quantifier": "every 3+1 metric, sub-light velocity, frequency and pair of draws", "why_tests_cant": "The claim ranges over an infinite set of inputs; a unit test samples a handful of them.", "anchors": ["src/radiation/monte_carlo.cpp: MonteCarloSourceParticles", "src/geometry/tetrads.hpp: Tetrads"]}
{"id": "C69", "title": "Monte Carlo exchange conserves energy, momentum and lepton number", "statement": "Through any history of emission, absorption, transport and four-force updates the sum of the fluid and packet four-momentum along every symmetry of the metric is constant, and so is the total lepton number. (Lepton number fails for moving fluid.)", "quantifier": "every history, emitted packets, random draws, opacities, time steps, number of cells and packets", "why_tests_cant": "Invariant over unbounded histories.", "anchors": ["src/radiation/monte_carlo.cpp: MonteCarloSourceParticles, MonteCarloTransport", "src/radiation/radiation.cpp: ApplyRadiationFourForce", "src/phoebus_driver.cpp: MonteCarloStep"]}
{"id": "C70", "title": "Packet transport does not depend on processing order", "statement": "The five-force deposited in every cell and the set of surviving packets are the same for every order in which the packets are processed.", "quantifier": "every permutation of the packets", "why_tests_cant": "Quantifies over schedules of the parallel loop.", "anchors": ["src/radiation/monte_carlo.cpp: MonteCarloTransport"]}
{"id": "C71", "title": "Absorption follows the exponential law", "statement": "A packet crossing optical depth tau in a step is absorbed with probability exactly 1 - exp(-tau) over its uniform draw, never without opacity and never when absorption is off.", "quantifier": "every opacity and time step, all draws", "why_tests_cant": "Probability over a continuum of draws.", "anchors": ["src/radiation/monte_carlo.cpp: MonteCarloTransport"]}
{"id": "C72", "title": "Sampling resolution control is bounded", "statement": "The emission correction always lies in [3/4,4/3], points towards the target, and the tuning factor stays positive through any history; the scattering correction is bounded likewise and the completion test waits for all packets. (The effect on the packet number is the square of the correction, the scattering correction is unbounded, and the completion test only sees the last block.)", "quantifier": "every history of counts, including zero and negative ones", "why_tests_cant": "Unbounded histories of arbitrary counts.", "anchors": ["src/radiation/monte_carlo.cpp: MonteCarloUpdateTuning, SetWeight, MonteCarloCountCommunicatedParticles"]}
{"id": "C73", "title": "Fluid geometric sources are those of general relativity", "statement": "For every metric, metric derivative and symmetric stress-energy tensor the momentum source is sqrt(-g) 1/2 T^{mn} d_l g_mn, so it vanishes along every coordinate the metric does not depend on; the energy source is sqrt(-g) 1/2 T^{mn} d_t g_mn in the covariant formulation (zero in a stationary spacetime) and -sqrt(-g) T^{mn} nabla_m n_n in the Valencia formulation (the work of gravity in a static metric); all sources vanish in flat space.", "quantifier": "every 3+1 metric, its derivatives and every symmetric stress-energy tensor", "why_tests_cant": "Index contractions over all tensors; a wrong index order is invisible in diagonal or stationary tests.", "anchors": ["src/fluid/fluid.cpp: CalculateFluidSourceTerms", "src/geometry/geometry_utils.hpp: SetConnectionCoeffFromMetricDerivs"]}
{"id": "C74", "title": "Radiation geometric sources agree with the fluid ones", "statement": "The stress-energy tensor assembled from the stored radiation fields is symmetric and its projections along the normal observer are exactly the stored energy, flux and pressure; its geometric sources are the same functions of the tensor as those of the fluid, so the radiation momentum along a symmetry is not changed by them.", "quantifier": "every metric, fluid velocity, radiation state and symmetric closure tensor", "why_tests_cant": "The claim ranges over an infinite set of inputs; a unit test samples a handful of them.", "anchors": ["src/radiation/moments.cpp: CalculateGeometricSourceImpl"]}
{"id": "C75", "title": "The fluid time step meets the CFL condition", "statement": "For every state of every block, whatever the order of the reduction, the time step times the directional sum of the larger of the cell and face signal speeds over the cell width is at most the CFL number in every interior cell, is attained or is the largest representable step, and is bounded below by the CFL number over the crossing rate; the cell speeds are at most the coordinate speed of light.", "quantifier": "every block, mesh, metric, state, dimension and reduction order", "why_tests_cant": "All meshes and reduction schedules; a min over unboundedly many cells.", "anchors": ["src/fluid/fluid.cpp: EstimateTimestepBlock", "src/fluid/prim2con.hpp: signal_speeds", "src/fluid/riemann.hpp: llf, hll"]}
{"id": "C76", "title": "The radiation time step meets the CFL condition", "statement": "For every species, direction and cell, the time step times the radiation signal speed is at most the CFL number times the cell width, summed over directions; the signal speed lies between the advection speed of the fluid and the speed of light with a weight strictly between 0 and 1 that decreases with opacity. (The sum over directions is not bounded, and the advection speed uses W v for v.)", "quantifier": "every opacity, metric, velocity, cell and species", "why_tests_cant": "The claim ranges over an infinite set of inputs; a unit test samples a handful of them.", "anchors": ["src/radiation/radiation.cpp: EstimateTimestepBlock"]}
{"id": "C77", "title": "Radiation fluxes are consistent and have the right limits", "statement": "For every metric (with shift), face state and opacity the radiation flux is a convex blend of a free-streaming and a diffusion LLF flux; for equal states it is the physical flux of the radiation stress-energy tensor up to the blend difference; for matter at rest with a diffusive flux it is exactly the diffusion law and it vanishes as the opacity grows; the dissipation speed never exceeds the speed of light; energy floor, flux-factor and Lorentz-factor ceilings are respected; degenerate faces carry no flux. (The Lorentz-factor ceiling is not respected.)", "quantifier": "every closure, metric, pair of face states, opacity and direction", "why_tests_cant": "The claim ranges over an infinite set of inputs; a unit test samples a handful of them.", "anchors": ["src/radiation/moments.cpp: CalculateFluxesImpl"]}
{"id": "C78", "title": "Radiation conserved and primitive fields agree", "statement": "Converting admissible primitive radiation fields to conserved ones and back returns them exactly without flagging; after any conversion the two sets describe the same radiation; a cell is flagged exactly when the inversion of some species failed. (The flag is shared by the species: the last one processed wins.)", "quantifier": "every metric, velocity, radiation state, number of species and processing order", "why_tests_cant": "The claim ranges over an infinite set of inputs; a unit test samples a handful of them.", "anchors": ["src/radiation/moments.cpp: MomentCon2PrimImpl, MomentPrim2ConImpl"]}
{"id": "C79", "title": "Radiation reconstruction reads what it wrote", "statement": "For any number of species and components every (species, component, direction) has its own slot inside the array, the slot read by the flux loop is the one written by the reconstruction of that variable, every variable is handled exactly once, and the face gradients of the energy density are exact for quadratic fields and zero in unresolved directions.", "quantifier": "every number of species, component, direction, field and cell", "why_tests_cant": "All sizes of the index space and all fields.", "anchors": ["src/radiation/moments.cpp: ReconstructionIndexer, ReconstructEdgeStates"]}
{"id": "C80", "title": "The monopole solver integrates the constraints of general relativity", "statement": "The outward integration of the radial metric and extrinsic curvature uses exactly the slopes demanded by the Hamiltonian and momentum constraints of the matter sources, and each step is the midpoint rule for them, for every matter profile and grid.", "quantifier": "every matter profile, radius, grid spacing and state", "why_tests_cant": "Identity between code formulas and field equations over all states.", "anchors": ["src/monopole_gr/monopole_gr_utils.hpp: GetARHS, GetKRHS", "src/monopole_gr/monopole_gr.cpp: IntegrateHypersurface"]}
{"id": "C81", "title": "The classic inversion solves the right equations", "statement": "Feeding the classic inversion the conserved state of a physical primitive state, that state's density and temperature are an exact root of its two equations, and from them pressure, energy and velocity come out exactly; the stored signal speed lies between the fluid speed and the speed of light. (The electron fraction is ignored by the residual, and the initial density guess uses the stored W v as v, so it is not a number for W^2 > 2.)", "quantifier": "every metric, magnetised moving state and EOS independent of Ye", "why_tests_cant": "The claim ranges over an infinite set of inputs; a unit test samples a handful of them.", "anchors": ["src/fluid/con2prim.hpp: ConToPrim::Setup, Residual, Finalize"]}
{"id": "C82", "title": "The classic Newton solver stays in range", "statement": "For every residual function, tolerance and iteration count the density guess stays between zero and D and the temperature stays nonnegative; backtracking returns a strictly smaller residual or the smallest factor; success means the last correction was below the relative tolerance; an exact root with a nonsingular difference Jacobian is returned unchanged after one pass.", "quantifier": "every residual function, start, tolerance, iteration limit", "why_tests_cant": "Iteration over arbitrary functions and any number of passes.", "anchors": ["src/fluid/con2prim.hpp: ConToPrim::Solve"]}
{"id": "C83", "title": "Samples tile the sphere of directions", "statement": "After reconstruction the angular cells of a zone's Monte Carlo samples cover every direction exactly once, so solid angles add up to 4 pi and an isotropic sample field has vanishing Eddington tensor; the tensor is always symmetric, traceless and realisable, and whole-bin Doppler shifts are exact. (The azimuthal cut is misplaced by a quarter turn and may create cells of negative solid angle; samples on a cell edge keep a stale cell.)", "quantifier": "every number of samples, direction, intensity and previous cell content", "why_tests_cant": "Any number of samples in any directions.", "anchors": ["src/radiation/mocmc.cpp: MOCMCReconstruction, MOCMCEddington"]}
{"id": "C84", "title": "Samples exchange energy with the fluid consistently", "statement": "The exchange between samples and fluid conserves total energy and momentum for any number of species and leaves the lepton number alone; mean opacities lie within the range of the bins; sample intensities stay nonnegative and, for fluid at rest, move towards thermal and angle averaged values, with equilibrium stationary. (The absorption coefficient is never used for the samples, equilibrium in a moving fluid is not stationary, and one frequency bin makes matter transparent.)", "quantifier": "every state, spectrum, opacity, time step, number of species and samples", "why_tests_cant": "The claim ranges over an infinite set of inputs; a unit test samples a handful of them.", "anchors": ["src/radiation/mocmc.cpp: MOCMCFluidSource"]}
{"id": "C85", "title": "Samples are created, reflected and counted correctly", "statement": "Every allocated sample slot is filled by exactly one zone, new samples lie in their zone and are light rays of unit fluid-frame frequency with positive intensity, boundary samples are mirrored into the domain with reversed direction, and the reported count is the number of samples. (With several partitions only the last is counted.)", "quantifier": "every distribution of counts, metric, velocity, random numbers, positions", "why_tests_cant": "All counts, metrics and positions.", "anchors": ["src/radiation/mocmc.cpp: MOCMCInitSamples, MOCMCSampleBoundaries, MOCMCUpdateParticleCount"]}
{"id": "C86", "title": "The torus is in equilibrium", "statement": "The accretion torus created at start is an exact hydrostatic equilibrium of the Kerr black hole: the fluid moves on circles with constant u^t u_phi, pressure gradients balance gravity and rotation in radius and polar angle, the enthalpy vanishes at the inner edge and is stationary on a geodesic at the requested pressure maximum where the density is one, all gas lies on one adiabat, and the velocity stored in code coordinates reproduces this flow.", "quantifier": "every spin, inner edge, pressure maximum, adiabatic index, position outside the horizon", "why_tests_cant": "Identity between code formulas and the equations of motion at all points.", "anchors": ["src/pgen/torus.cpp: log_enthalpy, lfish_calc, ucon_norm, GetStateFromEnthalpy, ProblemGenerator", "src/geometry/mckinney_gammie_ryan.hpp: bl_to_fmks"]}
{"id": "C87", "title": "The initial magnetic field is divergence free and normalised", "statement": "The magnetic field created from the vector potential has exactly zero divergence in the discrete sense kept by the evolution, is confined to the dense part of the torus, and after normalisation the plasma beta equals the requested value in either normalisation style; without magnetisation it is zero.", "quantifier": "every density field, metric, grid, potential and target", "why_tests_cant": "The claim ranges over an infinite set of inputs; a unit test samples a handful of them.", "anchors": ["src/pgen/torus.cpp: ProblemGenerator, PostInitializationModifier, ComputeBetas"]}
{"id": "C88", "title": "Torus grid, tracers and radiation are set up as requested", "statement": "Exactly the requested number of zones lies inside the horizon; floors and jitter keep the state within bounds; subsampling is an average; the radiation temperature search is bracketed and splits the pressure; the requested number of tracers is created with unique identifiers and masses that add up. (With several blocks per rank too many tracers are created, masses use counts taken before the tracers are placed, and only one flux component is reset.)", "quantifier": "every resolution, horizon radius, block decomposition, random numbers", "why_tests_cant": "The claim ranges over an infinite set of inputs; a unit test samples a handful of them.", "anchors": ["src/pgen/torus.cpp: ProblemModifier, ProblemGenerator, PostInitializationModifier, GasRadTemperatureResidual"]}
{"id": "C89", "title": "Bondi initial data is the steady transonic accretion flow", "statement": "The spherical accretion state created at start is the steady transonic Bondi-Michel solution: the temperature search terminates, does not abort and returns (to its tolerances) the unique solution that is supersonic inside and subsonic outside the sonic radius; mass flux and specific energy are the same at every radius; the flow passes the sonic radius at the local sound speed; and the velocity stored in code coordinates reproduces the infall. (At exactly the sonic radius the search returns a temperature several times too large, and far outside the run aborts.)", "quantifier": "every sonic radius from 3 to 40000, every radius from 2 to twenty sonic radii, every tolerance, every code coordinate mapping", "why_tests_cant": "The claim ranges over an infinite set of inputs; a unit test samples a handful of them.", "anchors": ["src/pgen/bondi.cpp: get_bondi_temp, ProblemGenerator", "src/geometry/mckinney_gammie_ryan.hpp: bl_to_fmks"]}
{"id": "C90", "title": "Chart-independent initial states", "statement": "A state prescribed in inertial Cartesian coordinates and run in a curvilinear chart of flat space (boosted, snake, inchworm) is the same physical state: the four-velocity and magnetic four-vector the evolution reconstructs from the stored variables are the images of the prescribed ones under the change of coordinates, and scalars are unchanged. (In the inchworm chart the Jacobian is wrong and the x velocity is scaled by 1-a^2k^2 at the origin.)", "quantifier": "every velocity, magnetic field, point, lapse, shift and chart parameter", "why_tests_cant": "The claim ranges over an infinite set of inputs; a unit test samples a handful of them.", "anchors": ["src/pgen/linear_modes.cpp: ProblemGenerator", "src/pgen/rotor.cpp: ProblemGenerator", "src/geometry/snake.hpp", "src/geometry/boosted_minkowski.hpp", "src/geometry/inchworm.hpp"]}
{"id": "C91", "title": "Linear modes are eigenmodes and return after one period", "statement": "The wave data solve the linearised equations of relativistic MHD (mass, energy, momentum, induction, solenoidal constraint, all taken from the stress tensor the code evolves) at every point and time up to rounding of the tabulated constants; at the final time the run sets, the exact solution equals the initial data cell by cell when the coordinate drift is a whole number of wavelengths; the final time does not depend on the block decomposition. (The adiabatic index is not checked; drift is ignored; rotor divides the final time by the lapse once per block.)", "quantifier": "every amplitude direction of the six modes, every point, time, phase, lapse and drift", "why_tests_cant": "The claim ranges over an infinite set of inputs; a unit test samples a handful of them.", "anchors": ["src/pgen/linear_modes.cpp: ProblemGenerator", "src/pgen/rotor.cpp: ProblemGenerator"]}
{"id": "C92", "title": "Test problems start with the requested velocity", "statement": "The three-velocity recovered from the stored variables is the velocity requested in the input, for every subluminal input (Kelvin-Helmholtz, advection, rotor). (The shock tube stores a velocity that is always slower than requested and accepts superluminal inputs.)", "quantifier": "every velocity and metric", "why_tests_cant": "The claim ranges over an infinite set of inputs; a unit test samples a handful of them.", "anchors": ["src/pgen/kh.cpp", "src/pgen/advection.cpp", "src/pgen/rotor.cpp", "src/pgen/shock_tube.cpp"]}
{"id": "C93", "title": "Blandford-McKee data is a slice of an exact solution", "statement": "Density, pressure and velocity inside the shock are an instant of an exact homologous solution of relativistic hydrodynamics; the Lorentz factor is below the requested value everywhere, tends to it at the shock, and the gas outside is at rest.", "quantifier": "every shock Lorentz factor above 1, radius, time and normalisation", "why_tests_cant": "The claim ranges over an infinite set of inputs; a unit test samples a handful of them.", "anchors": ["src/pgen/blandford_mckee.cpp: ProblemGenerator"]}
{"id": "C94", "title": "Energies, energy deposits and tracers of the test problems", "statement": "The energy found from density and pressure lies inside the table and within tolerance of the exact value, is exact for an ideal gas, and the run stops rather than continue outside the table; the Sedov explosion deposits exactly the requested energy when shells tile the inner sphere; tracers are not created in excess and have distinct identifiers. (Friedmann clears only one velocity component of three cells; in one dimension twice too many tracers with colliding identifiers are created; Sedov deposits nothing when the first cell is too wide.)", "quantifier": "every equation of state, density, pressure, grid and block decomposition", "why_tests_cant": "The claim ranges over an infinite set of inputs; a unit test samples a handful of them.", "anchors": ["src/pgen/pgen.hpp: energy_from_rho_P", "src/pgen/sedov.cpp", "src/pgen/friedmann.cpp", "src/pgen/advection.cpp: PostInitializationModifier"]}
{"id": "C95", "title": "The result of a task region does not depend on the schedule", "statement": "Whatever order the task runtime chooses among those compatible with the declared dependencies, for every number of blocks or partitions, the flux region, the recovery-and-repair region, the net-field region when it does not retune, the end-of-stage region (unless geometry is time dependent and radiation is on) and the cooling-function region leave the same state; and no region deadlocks.", "quantifier": "every schedule, number of task lists, configuration flag, initial state and every behaviour of the task bodies within their declared reads, writes and accumulations", "why_tests_cant": "The claim ranges over an infinite set of inputs; a unit test samples a handful of them.", "anchors": ["src/phoebus_driver.cpp: RungeKuttaStage", "src/phoebus_driver.cpp: RadiationPostStep"]}
{"id": "C96", "title": "Races in the task graphs", "statement": "All remaining regions should also be schedule independent. (They are not: the update races with the addition of sources, the saved flux divergence with it too, MOCMC boundary treatment with transport, net-field retuning and the light-bulb gain flag and the monopole deposit between partitions, the radiation time step with the geometry update, Monte Carlo blocks through the shared random pool. Each race is exhibited by two admissible schedules; adding the missing dependencies makes each region deterministic; with one partition those between partitions vanish.)", "quantifier": "every schedule, number of lists and task behaviour", "why_tests_cant": "The claim ranges over an infinite set of inputs; a unit test samples a handful of them.", "anchors": ["src/phoebus_driver.cpp: RungeKuttaStage", "src/phoebus_driver.cpp: RadiationPostStep", "src/phoebus_driver.cpp: MonteCarloStep"]}
{"id": "C97", "title": "A step is the Runge-Kutta scheme", "statement": "Through all stage containers, their aliasing with the base container, the in-place average and the single copy of primitives, one step leaves in the base container exactly the state of the low-storage Runge-Kutta scheme applied to the state at the beginning of the step, with matching primitives, whatever stale data the stage containers held.", "quantifier": "every integrator (any number of stages and coefficients), right-hand side, repair operation, time step and previous contents", "why_tests_cant": "The claim ranges over an infinite set of inputs; a unit test samples a handful of them.", "anchors": ["src/phoebus_driver.cpp: RungeKuttaStage", "src/phoebus_driver.cpp: Step"]}
{"id": "C98", "title": "Net-flux enforcement does not disturb the evolution", "statement": "Enabling phi enforcement should only add the requested net flux. (It holds for single-stage integrators only; otherwise the base state is overwritten before it is averaged in the last stage, so rk2 advances by 3/2 of the step, changes asked for in earlier stages are lost and the last one is weighted by 1-beta.)", "quantifier": "every integrator, right-hand side, net-field operator and state", "why_tests_cant": "The claim ranges over an infinite set of inputs; a unit test samples a handful of them.", "anchors": ["src/phoebus_driver.cpp: RungeKuttaStage", "src/fixup/fixup_netfield.cpp: ModifyNetField", "src/fluid/fluid.cpp: PrimitiveToConserved"]}
{"id": "C99", "title": "The monopole solver sees all matter", "statement": "The shell density used by the monopole solver is the matter of all cells of the mesh, however it is split into partitions. (True for one partition; with more the arrays are cleared by every partition and only the last deposited one counts.)", "quantifier": "every list of partitions, cells, radial grid and order of execution", "why_tests_cant": "The claim ranges over an infinite set of inputs; a unit test samples a handful of them.", "anchors": ["src/monopole_gr/interp_3d_to_1d.hpp: InterpolateMatterTo1D", "src/phoebus_driver.cpp: RungeKuttaStage"]}
{"id": "C100", "title": "Tracers of every block are purged", "statement": "At the end of a step the tracers inside the horizon are removed on every mesh block, however the mesh is split into partitions, and no tracer outside is touched. (Task list n purges block number n, not the blocks of partition n: with the default single partition only block 0 is ever purged; and the slot C64 misses.)", "quantifier": "every swarm, horizon, number of blocks and partitions", "why_tests_cant": "The claim ranges over an infinite set of inputs; a unit test samples a handful of them.", "anchors": ["src/phoebus_driver.cpp: RungeKuttaStage", "src/fixup/fixup_particles.cpp: PurgeParticles"]}
{"id": "C101", "title": "The progenitor table is read as written", "statement": "For a file whose lines are comments, carry no numbers, or carry eleven numbers, the number of points is the number of data lines and sample i of every column is the number in that column of the i-th data line. (Any other file is not rejected but makes the program read or write outside its arrays, and the function that returns the mass of the table does so for every table.)", "quantifier": "every list of lines, tokens and columns", "why_tests_cant": "The claim ranges over an infinite set of inputs; a unit test samples a handful of them.", "anchors": ["src/progenitor/ascii_reader.cpp: readtable, calculatemass", "src/progenitor/progenitordata.cpp: Initialize"]}
{"id": "C102", "title": "Progenitor profiles are reproduced", "statement": "Looking a profile up at a tabulated radius returns the tabulated value, and in between a value between the two neighbouring samples. (The samples are placed on a regular grid whatever the radii column says, so the first part holds for every profile exactly when the radii are evenly spaced.)", "quantifier": "every table size, radii, profile and radius, over every ordered field with floor", "why_tests_cant": "The claim ranges over an infinite set of inputs; a unit test samples a handful of them.", "anchors": ["src/progenitor/progenitordata.cpp: Initialize", "src/pgen/progenitor.cpp: ProblemGenerator"]}
{"id": "C103", "title": "The collapsing star moves as tabulated", "statement": "The velocity set up on the grid is the tabulated radial velocity, along the radius vector of the cell. (The direction is right; the speed is v sqrt(1+v^2)/sqrt(1+v^2+v^4), always below the tabulated one, because the Lorentz factor is computed as if v already contained it.)", "quantifier": "every three-metric, velocity and cell off the axis", "why_tests_cant": "The claim ranges over an infinite set of inputs; a unit test samples a handful of them.", "anchors": ["src/pgen/progenitor.cpp: ProblemGenerator", "src/phoebus_utils/relativity_utils.hpp: GetLorentzFactor"]}
{"id": "C104", "title": "Opacities do not depend on the choice of units", "statement": "The absorption and scattering coefficients used by the evolution are the physical ones (CGS) expressed in code units, for every choice of mass and length unit. (True for the spectral coefficients and for mean scattering; the mean absorption table is built from an opacity that already converts and is converted again, which for a gray opacity is wrong by mass unit over length unit squared.)", "quantifier": "every opacity model, frequency average, unit system and state, over every field", "why_tests_cant": "The claim ranges over an infinite set of inputs; a unit test samples a handful of them.", "anchors": ["src/microphysics/opac_phoebus/opac_phoebus.cpp: Initialize"]}
{"id": "C105", "title": "A radiation slot is one species", "statement": "Every stage of the radiation evolution uses the same neutrino species for a slot of the radiation fields. (The transport uses the list of enabled species, the opacities of the moment scheme the fixed list of all species: they agree exactly when no species is enabled after a disabled one.)", "quantifier": "every build option and slot", "why_tests_cant": "The claim ranges over an infinite set of inputs; a unit test samples a handful of them.", "anchors": ["src/radiation/radiation.cpp: Initialize", "src/radiation/radiation.hpp: species", "src/radiation/moments.cpp: MomentCalculateOpacities", "src/radiation/moments_source.cpp: MomentFluidSource"]}
{"id": "C106", "title": "Horizon radius, innermost stable orbit and inner reference radius of FMKS", "statement": "The code coordinate xh of the horizon maps to the outer Kerr horizon for every spin; the stored innermost stable orbit is that of the black hole; the smoothing reference x0 lies at or below every ghost face so that the polar map is monotone on the whole grid. (The horizon is right; the stored ISCO is below the true one for every spin below 1 because Z2 uses Z1 in place of its square; x0 is at or below the ghosts exactly when the innermost ghost face is not negative.)", "quantifier": "every spin, grid extent and ghost depth, over the reals", "why_tests_cant": "The claim ranges over an infinite set of inputs; a unit test samples a handful of them.", "anchors": ["src/geometry/fmks.cpp: Initialize"]}
{"id": "C107", "title": "Adiabatic expansion in FLRW", "statement": "A homogeneous fluid at rest in an expanding universe dilutes as the inverse cube of the scale factor and its energy obeys dU = -P dV, also after every step of the integrator. (The source terms give the exact law; after a step the density is right only for the integrators whose last stage is evaluated at the end of the step: two-stage is right, one- and three-stage are too high.)", "quantifier": "every scale factor, density, pressure, time and step, over the reals", "why_tests_cant": "The claim ranges over an infinite set of inputs; a unit test samples a handful of them.", "anchors": ["src/geometry/flrw.hpp", "src/geometry/flrw.cpp", "src/fluid/fluid.cpp: CalculateFluidSourceTerms", "src/phoebus_driver.cpp: RungeKuttaStage", "src/pgen/friedmann.cpp: ProblemGenerator"]}
{"id": "C108", "title": "Output diagnostics", "statement": "The sound speed, the divergence of the velocity and the localisation weight written to the output are the physical quantities. (The sound speed is subluminal and right; the divergence is right for flat uniform states in fewer than three dimensions, one-sided, and in three dimensions reads a metric factor that is never set; the localisation weight integrates to the square root of pi/3.14.)", "quantifier": "every state, grid and width, over the reals", "why_tests_cant": "The claim ranges over an infinite set of inputs; a unit test samples a handful of them.", "anchors": ["src/phoebus_driver.cpp: UserWorkBeforeOutput", "src/analysis/analysis.cpp"]}
{"id": "C109", "title": "Totals and maxima in the history file", "statement": "The total written to the history file for a registered variable is its integral over the whole domain, whatever the decomposition into blocks, refinement levels and partitions; the maximum is attained and bounds every cell; variables that do not exist on a package are not reduced.", "quantifier": "every domain, every tiling of it by boxes, every cell data and every grouping of blocks into partitions", "why_tests_cant": "The claim ranges over an infinite set of inputs; a unit test samples a handful of them.", "anchors": ["src/analysis/history.hpp: ReduceOneVar", "src/fluid/fluid.cpp: Initialize"]}
{"id": "C110", "title": "Start-up: accepted configurations, initial spacetime, problem dispatch", "statement": "A configuration is accepted exactly when the packages it needs are enabled; on a fresh start the spacetime handed to the problem generator is the one of the initial data; the generator selected by name is the one run; an unknown name stops the run. (A progenitor sees flat space in its generator; on a restart any name is accepted.)", "quantifier": "every configuration, initial data and problem name", "why_tests_cant": "The claim ranges over an infinite set of inputs; a unit test samples a handful of them.", "anchors": ["src/main.cpp", "src/phoebus_driver.cpp: ProcessPackages", "src/monopole_gr/monopole_gr.cpp", "src/tov/tov.cpp: IntegrateTov", "src/pgen/pgen.hpp", "src/pgen/pgen.cpp", "src/pgen/progenitor.cpp: ProblemGenerator"]}
{"id": "C111", "title": "Lapse of the previous cycle and the rate-of-change warning", "statement": "The stored previous lapse is the lapse of the solve before the current one, on every build; the warning is printed exactly when the lapse changes by more than the tolerance. (True on builds with device memory; on host builds the mirror shares memory with the buffer and the previous lapse equals the new one after every odd call.)", "quantifier": "every sequence of solves and every build", "why_tests_cant": "The claim ranges over an infinite set of inputs; a unit test samples a handful of them.", "anchors": ["src/monopole_gr/monopole_gr.cpp: SpacetimeToDevice, CheckRateOfChange"]}
{"id": "C112", "title": "Radiation advection pulse", "statement": "The initial pulse is a diffusing Gaussian in the comoving frame moving with the given velocity, of the given optical depth, and is a realisable radiation state. (Velocity, centre, width and optical depth are right; the comoving time may be negative and the flux may exceed the energy: nothing is checked.)", "quantifier": "every velocity, width, optical depth and position, over the reals", "why_tests_cant": "The claim ranges over an infinite set of inputs; a unit test samples a handful of them.", "anchors": ["src/pgen/radiation_advection.cpp: ProblemGenerator"]}
{"id": "C113", "title": "Small radiation test problems", "statement": "The equilibration, homogeneous sphere, thin cooling, lepton transport and round-trip problems set up what they describe on every decomposition. (Stored reference values abort the run when a rank owns two or more blocks; the Cartesian sphere is a half space; thin cooling writes the electron-fraction slot whether or not it exists; the lepton profile is odd about the mean; the round-trip report is the largest error.)", "quantifier": "every decomposition, position and parameter value", "why_tests_cant": "The claim ranges over an infinite set of inputs; a unit test samples a handful of them.", "anchors": ["src/pgen/radiation_equilibration.cpp", "src/pgen/homogeneous_sphere.cpp", "src/pgen/thin_cooling.cpp", "src/pgen/leptoneq.cpp", "src/pgen/p2c2p.cpp"]}
{"id": "C114", "title": "Cached geometry at arbitrary positions", "statement": "Asked for the geometry at a point that is not a zone centre, the cached system returns a value interpolated from the neighbouring cached zones of the same block: exact for fields linear in the coordinates, exact at zone centres, keeping symmetry, the torsion-free connection and axisymmetry. (True of every reader except the inverse 4-metric, which uses the lapse of block 0 and zone (X1,X2,X3) truncated, and the coordinates, which come back shifted by one component.)", "quantifier": "every cached field, position and block", "why_tests_cant": "The claim ranges over an infinite set of inputs; a unit test samples a handful of them.", "anchors": ["src/geometry/cached_system.hpp: Cached (overloads taking coordinates)", "src/phoebus_utils/phoebus_interpolation.hpp: Do"]}
{"id": "C115", "title": "Positions and geometry at cells, faces and corners", "statement": "Asking for the geometry at a zone, face or corner evaluates the analytic metric at the position of that zone, face or corner: the two faces of a zone bracket its centre, neighbouring zones share a face and agree there, on coarse and fine blocks alike, and through a block or a whole mesh alike; other locations abort.", "quantifier": "every block extent, index, location, block number and metric", "why_tests_cant": "The claim ranges over an infinite set of inputs; a unit test samples a handful of them.", "anchors": ["src/geometry/analytic_system.hpp: IndexerMeshBlock, IndexerMesh, Analytic", "src/phoebus_utils/grid_utils.hpp: GetXv"]}
{"id": "C116", "title": "Time derivatives of the monopole spacetime", "statement": "The time derivatives stored for the metric sources obey the 3+1 evolution equations for the current hypersurface, lapse and matter. (The shift, da/dt and the product rule for the shift do; dK/dt is the evolution equation minus 4 alpha K^2, and dalpha/dt is nonzero in a static spacetime.)", "quantifier": "every hypersurface, lapse, matter profile and grid point but the centre", "why_tests_cant": "The claim ranges over an infinite set of inputs; a unit test samples a handful of them.", "anchors": ["src/monopole_gr/monopole_gr.cpp: SpacetimeToDevice"]}
{"id": "C117", "title": "Floors, ceilings and EOS limits are the ones asked for", "statement": "For every input file: the run starts exactly when the named limits, strategies and EOS are known; floors, ceilings and net-field enforcement act exactly when asked for (or implied by other switches) with the values of the file at every position, never below the EOS limits; limits that are off have no effect; tabulated limits are converted to code units. (The power-law floor types ignore the specific-energy keys and read the energy-density ones; floors enabled without values are zero; in scale-free runs table energies are divided by c^2; crossed limits are accepted.)", "quantifier": "every input file, position and EOS table", "why_tests_cant": "The claim ranges over an infinite set of inputs; a unit test samples a handful of them.", "anchors": ["src/fixup/fixup.cpp: Initialize", "src/fixup/fixup.hpp: Floors, Ceilings, Bounds", "src/microphysics/eos_phoebus/eos_phoebus.cpp: Initialize"]}
{"id": "C118", "title": "The boundary condition asked for is used everywhere", "statement": "For every input file and face the ghost zones, the flux fix, the pole check and the sample boundaries treat the face by the same boundary condition. (Ghosts follow <parthenon/mesh>, everything else <phoebus> with default gr_outflow: exact condition proved; with conditions given in <parthenon/mesh> only, a reflecting wall lets mass leave, reflecting poles pass the check, samples are periodic.)", "quantifier": "every input file, face and flux", "why_tests_cant": "The claim ranges over an infinite set of inputs; a unit test samples a handful of them.", "anchors": ["src/phoebus_boundaries/phoebus_boundaries.cpp: ProcessBoundaryConditions", "src/fluid/fluid.cpp: Initialize", "src/fixup/fixup.cpp: FixFluxes", "src/radiation/radiation.cpp: Initialize"]}
{"id": "C119", "title": "Ghost zones are consistent after boundary processing", "statement": "After boundary processing conserved and primitive variables agree in every physical ghost zone, the inflow check has acted on fluid and radiation, and all other zones are untouched. (True with primitive boundary variables; with conserved ones the radiation check is lost when derived fields are filled, and a run without evolved fluid aborts.)", "quantifier": "every block, set of physical sides, dimension, state and point-wise map", "why_tests_cant": "The claim ranges over an infinite set of inputs; a unit test samples a handful of them.", "anchors": ["src/phoebus_boundaries/phoebus_boundaries.cpp: ConvertBoundaryConditions", "src/phoebus_driver.cpp: RungeKuttaStage"]}
{"id": "C120", "title": "Face fluxes do not depend on schedule, history or decomposition", "statement": "Every flux that influences an interior cell is computed from states freshly reconstructed in this call, whatever order the parallel loops run in and whatever the scratch arrays held before; the update of a cell is the same in every block that owns it; no cell outside the block is read; the evolved variables and the fluxes line up slot by slot; constrained transport reads fresh fluxes only. (With linear reconstruction a single ghost cell is accepted although the sweep then reads one cell outside the block.)", "quantifier": "every schedule, scratch content, primitive state, block shape, dimension, reconstruction method and Riemann solver", "why_tests_cant": "The claim ranges over an infinite set of inputs; a unit test samples a handful of them.", "anchors": ["src/fluid/fluid.cpp: CalculateFluxes, Initialize", "src/fluid/riemann.hpp: FluxState"]}
{"id": "C121", "title": "The geometry self-check finds wrong caches", "statement": "The self-check of cached geometry reports the largest relative deviation between cached and analytic geometry and reports zero only when they agree. (It ignores every pair of numbers with a negative sum: wrong negative entries are reported as agreement.)", "quantifier": "every pair of fields and every set of cells", "why_tests_cant": "The claim ranges over an infinite set of inputs; a unit test samples a handful of them.", "anchors": ["src/pgen/check_cached_geom.cpp"]}
{"id": "C122", "title": "Inversion statistics", "statement": "The iteration histogram written by con2prim_statistics lists every used iteration count once with its number of occurrences, independent of order. (True for one rank; several ranks overwrite the same file.)", "quantifier": "every sequence of recorded iteration counts and every number of ranks", "why_tests_cant": "The claim ranges over an infinite set of inputs; a unit test samples a handful of them.", "anchors": ["src/fluid/con2prim_statistics.hpp"]}
{"id": "C123", "title": "Totals are conserved through a run on a mesh of blocks, and the history file shows it", "statement": "On a domain whose sides are periodic or walls, cut into blocks and partitions in any way, total mass and total energy (flux form, no sources) after any number of steps and stages equal those at the start, and the history column is the same number at every output; when periodic in every direction this holds for every variable evolved by fluxes; with outflow sides the total mass and its history column never grow. The boundary treatment of a cell does not depend on the block it belongs to.", "quantifier": "every mesh, tiling by blocks, grouping into partitions, boundary configuration, flux fields, number of steps and stages", "why_tests_cant": "The claim ranges over an infinite set of inputs; a unit test samples a handful of them.", "anchors": ["src/fixup/fixup.cpp: FixFluxes", "src/phoebus_driver.cpp: RungeKuttaStage", "src/analysis/history.hpp: ReduceOneVar"]}
{"id": "C124", "title": "A uniform composition stays uniform", "statement": "If the electron fraction is the same in all cells it stays so, whatever the flow does: conserved electron number stays that multiple of the conserved mass through every run. (True on periodic domains for both solvers and all reconstructions as long as the density does not vanish; at outflow sides the mass flux is clipped but the electron flux is not, and mass injected by floors carries the conserved electron variable as its electron fraction.)", "quantifier": "every mesh and decomposition, solver, reconstruction, geometry, evolution of all other variables, number of steps", "why_tests_cant": "The claim ranges over an infinite set of inputs; a unit test samples a handful of them.", "anchors": ["src/fluid/riemann.hpp: prim_to_flux, llf, hll", "src/fluid/con2prim_robust.hpp: Solve", "src/fixup/fixup.cpp: FixFluxes, ApplyFloorsImpl"]}
{"id": "C125", "title": "The density stays positive", "statement": "A stage that obeys the CFL condition for its own face speeds cannot empty a cell: with first-order reconstruction on a uniform background at least the fraction 1 - cfl of the mass of every cell is left; with any reconstruction on any background whose face states carry at most theta times the mass of their cell, at least 1 - 2 theta cfl is left (theta is at most 2 times the Lorentz factor ceiling times the variation of the volume element for the constant and the linear reconstruction). Hence for cfl < 1 (respectively 2 theta cfl < 1) the density stays positive through every run. The default cfl = 0.8 is not small enough for the linear reconstruction: a regular state is drained to a negative density in one stage.", "quantifier": "every state, mesh, decomposition into blocks, boundary configuration, background, reconstruction, solver, number of steps and stages", "why_tests_cant": "The claim ranges over an infinite set of inputs; a unit test samples a handful of them.", "anchors": ["src/fluid/riemann.hpp: llf, hll, prim_to_flux", "src/fluid/fluid.cpp: EstimateTimestepBlock, CalculateFluxes", "src/fixup/fixup.cpp: FixFluxes", "src/reconstruction.hpp: PiecewiseLinear"]}
{"id": "C126", "title": "The TOV star put on the grid is the one that was integrated", "statement": "Every cell holds at least the floor density, energy and pressure; cells at equal radius get equal states (invariance under rotations); at profile nodes inside the star density, energy and pressure are those of the hydrostatic solution; outside the star exactly the floor values; the velocity perturbation is a radial pulse. (False: on Cartesian grids the pulse points along x1 everywhere; a negative amplitude is ignored; the atmosphere pressure is not the pressure of the stored density and energy; ghost cells through the centre are not mirror images.)", "quantifier": "every profile, index function, equation of state, cell position, rotation, perturbation parameters", "why_tests_cant": "The claim ranges over an infinite set of inputs; a unit test samples a handful of them.", "anchors": ["src/pgen/tov.cpp: ProblemGenerator", "src/monopole_gr/monopole_gr_base.hpp: Interpolate"]}
{"id": "C127", "title": "Radiation floors and flux ceilings", "statement": "With radiation floors enabled, after the floor pass every species of every cell has at least the floor energy density, a flux factor at most the ceiling, and lab-frame moments that are those of its rest-frame moments; the floor adds exactly the missing energy density at rest in the normal frame and no momentum, the ceiling keeps the energy density and the direction of the flux, cells within the limits are untouched and the pass is idempotent. (False: the default floor 0 divides by zero; without a ceiling below 0.999 the moments can be left inconsistent; with a pressure tensor the floor may not be reached; with radiation floors off the moments are stale after a fluid floor moved the gas, and the requested flux ceiling is ignored.)", "quantifier": "every metric, velocity with v^2 <= 0.9999, floor, ceiling, stored moments, set of flags and method", "why_tests_cant": "The claim ranges over an infinite set of inputs; a unit test samples a handful of them.", "anchors": ["src/fixup/fixup.cpp: ApplyFloorsImpl (542-679), ApplyFloors, Initialize", "src/fixup/fixup.hpp: RadiationFloors", "src/radiation/closure.hpp: Con2Prim, Prim2Con"]}
{"id": "C128", "title": "Radiation fluxes do not depend on history, schedule or blocks", "statement": "Every radiation flux that influences an interior cell is computed from the states, gradients and opacities of the current stage, whatever the scratch arrays contained and in whatever order the loops run; hence the rate of change of a cell by radiation transport is the flux divergence of the mesh at that cell, independent of the decomposition into blocks and of the place of the cell in its block. (False for MOCMC: opacities are those of the previous stage, and beyond the sides of a block they are never computed, so radiation streams through block sides as in vacuum whatever the opacity.)", "quantifier": "every block shape and dimension, reconstruction method, schedule of the loops, previous content of the arrays, cell data, number of earlier stages", "why_tests_cant": "The claim ranges over an infinite set of inputs; a unit test samples a handful of them.", "anchors": ["src/radiation/moments.cpp: ReconstructEdgeStates, CalculateFluxesImpl, MomentCalculateOpacities", "src/radiation/mocmc.cpp: MOCMCFluidSource", "src/radiation/radiation.cpp: Initialize (444-503)", "src/phoebus_driver.cpp: RadiationStep tasks"]}
{"id": "C129", "title": "A restarted run continues the interrupted one", "statement": "A run restarted from a dump goes on exactly as the uninterrupted run: step sizes, net-field controller, gain flag, sampling weights, random numbers, opacities and the monopole solver are the same in every later step. (True of the step-size factor after the first step, of the controller before its start time, of the gain flag until it is raised and of the monopole counter. False otherwise: the controller forgets its rate and update time and then acts in every step; the raised gain flag is lost; the Monte Carlo weights return to the input values and the tuning fires in every step until it has caught up; the generator replays its first numbers; MOCMC fluxes of the first stage are those of a transparent medium; the first step estimate leaves out the face speeds.)", "quantifier": "every history of steps and restarts, every later step, all parameters and measured values", "why_tests_cant": "The claim ranges over an infinite set of inputs; a unit test samples a handful of them.", "anchors": ["src/phoebus_driver.cpp: Step, RungeKuttaStage", "src/fixup/fixup.cpp: Initialize (97-99)", "src/fixup/fixup_netfield.cpp", "src/radiation/radiation.cpp: Initialize (138-141, 263-343, 497-501)", "src/radiation/monte_carlo.cpp: MonteCarloUpdateTuning", "src/fluid/fluid.cpp: EstimateTimestepBlock", "src/monopole_gr/monopole_gr.cpp: Initialize"]}
{"id": "C130", "title": "A fluid run does not depend on the decomposition, the memory contents or the schedule", "statement": "A run of any number of steps with any number of stages (reconstruction, Riemann solver, constrained transport, flux fixes, sources, Runge-Kutta combination, inversion, ghost exchange, boundary conditions, time step from the face speeds) gives in every cell the result of the same numerical scheme on the undivided domain; hence two decompositions into blocks give the same states and the same time steps, whatever the scratch arrays contained and in whatever order the parallel loops ran, as long as the ghost layer is at least one wider than the stencil.", "quantifier": "every mesh of blocks (regular or not, one level), dimension, reconstruction, Riemann solver, geometry, source, inversion, boundary treatment, step controller, number of steps, memory contents and schedule", "why_tests_cant": "The claim ranges over an infinite set of inputs; a unit test samples a handful of them.", "anchors": ["src/phoebus_driver.cpp: Step, RungeKuttaStage", "src/fluid/fluid.cpp: CalculateFluxes, FluxCT, EstimateTimestepBlock"]}
{"id": "C131", "title": "A uniform state in a uniform setting stays uniform; an equilibrium stays", "statement": "On a periodic domain with position-independent geometry and sources a uniform state stays uniform in every cell through every run, and a state in which the source is zero and the inversion exact is never changed.", "quantifier": "every run, decomposition, solver, reconstruction, time steps, uniform state", "why_tests_cant": "The claim ranges over an infinite set of inputs; a unit test samples a handful of them.", "anchors": ["src/phoebus_driver.cpp: RungeKuttaStage", "src/fluid/fluid.cpp: CalculateFluxes, FluxCT"]}
{"id": "C132", "title": "A shifted start gives the shifted run", "statement": "On a periodic domain with position-independent geometry, sources and inversion, shifting the initial data by any number of cells shifts the result of every run by the same number of cells, for any pair of decompositions, and the time steps are the same: no cell, block edge or index is special.", "quantifier": "every run, decomposition, periodic data, shift", "why_tests_cant": "The claim ranges over an infinite set of inputs; a unit test samples a handful of them.", "anchors": ["src/phoebus_driver.cpp: RungeKuttaStage", "src/fluid/fluid.cpp: CalculateFluxes, FluxCT, EstimateTimestepBlock"]}
{"id": "C133", "title": "Influence travels a bounded number of cells per stage", "statement": "The state of a cell after a run depends only on the initial data within (1 + stencil radius) cells per stage in every direction (through periodic images or the cells copied into ghosts) when the time steps are given: data that agree there give the same result, whatever they are elsewhere and on whatever decomposition.", "quantifier": "every run with prescribed time steps, decomposition, solver, reconstruction, data", "why_tests_cant": "The claim ranges over an infinite set of inputs; a unit test samples a handful of them.", "anchors": ["src/phoebus_driver.cpp: RungeKuttaStage", "src/fluid/fluid.cpp: CalculateFluxes, FluxCT"]}
{"id": "C134", "title": "A mirrored start gives the mirrored run", "statement": "In a geometry that is its own mirror image, mirroring the initial data (normal components of velocity and momentum reversed, of the field either the normal or the tangential ones) mirrors the result of every run, with the same time steps; mirror-symmetric data stay symmetric. The reconstructions, the LLF and HLL fluxes in any geometry, the signal speeds and constrained transport of the code have this symmetry.", "quantifier": "every run, decomposition, plane, solver, reconstruction, geometry with the symmetry, data", "why_tests_cant": "The claim ranges over an infinite set of inputs; a unit test samples a handful of them.", "anchors": ["src/reconstruction.hpp", "src/fluid/riemann.hpp: prim_to_flux, llf, hll", "src/fluid/fluid.cpp: CalculateFluxes, FluxCT", "src/phoebus_driver.cpp: RungeKuttaStage"]}
{"id": "C135", "title": "Repairing failed cells does not depend on the decomposition", "statement": "A run with cells whose inversion fails, repaired from their good neighbours before and after the ghost exchange, gives on any decomposition the result of the same scheme on the undivided domain. True of the code when inversions fail only in cells whose neighbours lie in the same block and not in the exchanged data; false otherwise: before the exchange the ghost cells hold the previous stage, and after it only interior cells are repaired, so the ghost copies keep the failed value.", "quantifier": "every mesh of blocks, run, inversion with failures, repair rule, number of steps", "why_tests_cant": "The claim ranges over an infinite set of inputs; a unit test samples a handful of them.", "anchors": ["src/phoebus_driver.cpp: RungeKuttaStage (fixup tasks)", "src/fixup/fixup_c2p.cpp: ConservedToPrimitiveFixup"]}
{"id": "C136", "title": "Conserved variables determine the primitive state", "statement": "Two states of matter with positive density and enthalpy and the pressure of a causal equation of state (the pressure never rises faster than the energy density; the ideal gas with index in (1,2] qualifies) that have the same conserved variables (mass, momentum, energy, field, electron number) are the same state. Without causality this fails: a gas with adiabatic index 3, which the program accepts, has two states with the same conserved variables.", "quantifier": "every metric, lapse, shift, pair of magnetised moving states, causal EOS, both energy formulations", "why_tests_cant": "The claim ranges over an infinite set of inputs; a unit test samples a handful of them.", "anchors": ["src/fluid/prim2con.hpp: p2c"]}
{"id": "C137", "title": "A root found without touching a bound is the right state", "statement": "For every conserved state with positive density, when floors keep the mass-energy density above the constant EPS of the code, every root of the residual of the inverter at which no floor or ceiling is used unwraps to primitives that have exactly the given conserved variables; all such roots coincide, and if the conserved variables came from an admissible state the inversion returns that state.", "quantifier": "every conserved state, geometry, EOS (uniqueness: causal), bounds, both energy formulations", "why_tests_cant": "The claim ranges over an infinite set of inputs; a unit test samples a handful of them.", "anchors": ["src/fluid/con2prim_robust.hpp: Residual, ConToPrim::solve", "src/fluid/prim2con.hpp: p2c"]}
{"id": "C138", "title": "The inversion does not depend on the stored initial guess", "statement": "The primitives returned for given conserved variables do not depend on the guess left in the cell by earlier inversions. (True of the code only up to twice the tolerance and for a single root: the guess shrinks the bracket and the midpoint of the last bracket is returned. The guess is neither exchanged nor saved, so ghost copies and restarted runs differ at the level of the tolerance.)", "quantifier": "every conserved state, pair of guesses, tolerance, cap", "why_tests_cant": "The claim ranges over an infinite set of inputs; a unit test samples a handful of them.", "anchors": ["src/fluid/con2prim_robust.hpp: ConToPrim::solve", "src/phoebus_utils/root_find.hpp: regula_falsi, refine_bracket", "src/fluid/fluid.cpp: Initialize (c2p_mu)"]}
{"id": "C139", "title": "The electron fraction keeps the bounds of its initial data", "statement": "In an advected fluid the electron fraction of every cell stays between the smallest and the largest electron fraction at the start, and the electron number of no cell becomes negative. (True of the code for time steps with four times the face-mass bound times the CFL number at most one; at the default CFL number 0.8 the linear reconstruction can drive the electron number of a cell negative in one stage of a uniform flow.)", "quantifier": "every run, background, decomposition of a periodic domain, solver, constant or linear reconstruction, data", "why_tests_cant": "The claim ranges over an infinite set of inputs; a unit test samples a handful of them.", "anchors": ["src/fluid/riemann.hpp: llf, hll", "src/fluid/fluid.cpp: CalculateFluxes", "src/fluid/con2prim_robust.hpp", "src/phoebus_driver.cpp"]}
{"id": "C140", "title": "On a periodic domain only sources and floors change totals", "statement": "After any number of steps on a periodic domain, on any decomposition into blocks, the total of a conserved variable is the initial total plus what sources and floors added. In particular the totals of mass, of the three field components and of electrons, of the momentum along a direction on which the metric does not depend, and in the covariant formulation of the energy in a stationary metric, do not change as long as no floor acts.", "quantifier": "every run, decomposition, schedule, solver, reconstruction, periodic metric, data", "why_tests_cant": "The claim ranges over an infinite set of inputs; a unit test samples a handful of them.", "anchors": ["src/fluid/fluid.cpp: CalculateFluxes, CalculateFluidSourceTerms, FluxCT", "src/fluid/riemann.hpp", "src/phoebus_driver.cpp: FluxDivergence, AverageIndependentData"]}
{"id": "C141", "title": "The implicit exchange finds the temperature that conserves energy", "statement": "When the one-dimensional source solver reports a temperature, gas at that temperature and radiation relaxed towards it for the step have together the energy they had before, to the tolerance, and no other temperature has; if such a temperature exists within five decades of the old one the solver finds it as long as it has iterations left; and the gas ends at that temperature. (Of the code: the last part holds for gas at rest only; the four retries share the iteration count, so they never help after the cap is reached, and the first retry repeats the first attempt.)", "quantifier": "every cell state, material functions of temperature, time step, tolerance, cap", "why_tests_cant": "The claim ranges over an infinite set of inputs; a unit test samples a handful of them.", "anchors": ["src/radiation/moments_source.cpp: InteractionTResidual, MomentFluidSourceImpl (oned)", "src/phoebus_utils/root_find.hpp: regula_falsi", "src/radiation/closure.hpp: LinearSourceUpdate"]}
{"id": "C142", "title": "The names of the axes do not matter", "statement": "Run a problem with two axes exchanged (or all three permuted), in initial data, coordinate system, mesh and blocks: after any number of steps the result is the original result with the axes exchanged, on every decomposition into blocks, with every solver and reconstruction method, and the time steps are the same.", "quantifier": "every permutation of active axes, run, coordinate system, decomposition, schedule, solver, reconstruction, data", "why_tests_cant": "The claim ranges over an infinite set of inputs; a unit test samples a handful of them.", "anchors": ["src/fluid/fluid.cpp: CalculateFluxes, FluxCT, CalculateFluidSourceTerms, EstimateTimestepBlock", "src/fluid/riemann.hpp: llf, hll, FluxState", "src/fluid/con2prim_robust.hpp: ConToPrim, Residual", "src/fluid/prim2con.hpp: p2c, signal_speeds", "src/fluid/tmunu.hpp"]}
{"id": "C143", "title": "Units of length, time, density and field do not matter", "statement": "Express a problem in another unit of length and time, or another unit of density, energy, pressure and magnetic field, with floors, equation of state and metric derivatives converted: after any number of steps the result is the converted result and the time steps are the converted time steps. (True of the code with constant or linear reconstruction while floors exceed the fixed small numbers of robust.hpp in both units; the MP5 limiter has an absolute threshold of 1e-12, so in code units it never acts on variations below about 8.7e-7 and reconstructs negative densities there.)", "quantifier": "every unit, run, coordinate system, decomposition, schedule, solver, data", "why_tests_cant": "The claim ranges over an infinite set of inputs; a unit test samples a handful of them.", "anchors": ["src/fluid/fluid.cpp: CalculateFluxes, FluxCT, CalculateFluidSourceTerms, EstimateTimestepBlock", "src/fluid/riemann.hpp: llf, hll, FluxState", "src/fluid/con2prim_robust.hpp: ConToPrim, Residual", "src/phoebus_utils/robust.hpp: ratio, make_positive", "src/reconstruction/reconstruction.hpp: mp5_subcalc"]}
{"id": "C144", "title": "Total energy and momentum of gas and radiation", "statement": "On a periodic domain in flat space, gas and any number of radiation species exchanging energy and momentum: the total of each component of energy and momentum of gas and radiation together is the same after any number of steps, on every decomposition into blocks; in a curved geometry the same holds of the momentum along every direction on which the metric does not depend. (True of the code while the source solver and the recovery of primitive variables succeed in every cell and floors do not act; a failure of either breaks it, see C49.)", "quantifier": "every run, decomposition, schedule, number of species, opacity, state", "why_tests_cant": "The claim ranges over an infinite set of inputs; a unit test samples a handful of them.", "anchors": ["src/radiation/moments_source.cpp: MomentFluidSourceImpl", "src/phoebus_driver.cpp: RungeKuttaStage", "src/radiation/moments.cpp: CalculateGeometricSourceImpl", "src/fluid/fluid.cpp: CalculateFluidSourceTerms"]}
{"id": "C145", "title": "Radiation transport prefers no axis and no side", "statement": "Rename the axes or reverse some of them, in the geometry and in every vector and tensor: conserved moments, recovered moments, closure tensor, fluxes at faces, gradients, geometric sources of the radiation and the time-step speeds are the old ones with the axes renamed and reversed; the radiation fluxes of the run of mirrored (renamed) data are the mirrored (renamed) fluxes. (True of the code with the Eddington closure, and with M1 wherever the closure is computed from primitive moments. From conserved moments the search of M1 starts in the direction (1,1,1) where the flux vanishes, because sgn(0) = 1: there reversing an axis changes the result.)", "quantifier": "every renaming and reversal of axes, geometry, velocity, moments, closure, direction, reconstruction, state of the cells around a face", "why_tests_cant": "The claim ranges over an infinite set of inputs; a unit test samples a handful of them.", "anchors": ["src/radiation/closure.hpp: Prim2Con, Con2Prim, GetFluxes, getTilPi", "src/radiation/closure_m1.hpp: GetConTilPiFromPrim, GetConTilPiFromCon, SolveClosure, M1Residuals", "src/radiation/moments.cpp: MomentCon2Prim, ReconstructEdgeStates, CalculateFluxesImpl, CalculateGeometricSourceImpl"]}
{"id": "C146", "title": "A moving contact keeps velocity and pressure", "statement": "Start with velocity, pressure, energy density, magnetic field and electron fraction the same everywhere and any density profile between two bounds, in a coordinate system whose metric does not depend on position: after any number of steps every cell still has exactly that velocity, pressure, energy density, field and electron fraction, and a density between the same two bounds.  This holds for both Riemann solvers, both energy formulations, constant and linear reconstruction, in one to three dimensions, on every decomposition into blocks and for periodic and outflow sides, as long as every time step obeys the Courant condition with number one half, no floor or ceiling lies within the bounds, and the inversion gives back the states it is given (C61).", "quantifier": "every density profile, velocity, field, constant metric, decomposition, schedule, memory contents, number of steps", "why_tests_cant": "The claim ranges over an infinite set of inputs; a unit test samples a handful of them.", "anchors": ["src/fluid/riemann.hpp: llf, hll, FluxState", "src/fluid/prim2con.hpp: p2c", "src/fluid/fluid.cpp: CalculateFluxes, FluxCT", "src/reconstruction/reconstruction.hpp: PiecewiseLinear"]}
{"id": "C147", "title": "Where the state is smooth, the fluid equations of general relativity are solved", "statement": "Sample a differentiable state in a differentiable geometry at the centres of cells, away from floors and ceilings, and let the cells shrink in fixed proportion: the rate of change that the flux differences of the program give to each conserved variable of a cell tends to minus the divergence of the physical flux - rest mass current, stress tensor, induction flux and electron number current, times the square root of the metric determinant.  This holds for every reconstruction method, both Riemann solvers, both energy formulations, in one, two and three dimensions and with constrained transport, in every block and whatever memory contained before.", "quantifier": "every differentiable state, geometry, lapse and shift, reconstruction method, solver, dimension, block, schedule, memory contents", "why_tests_cant": "The claim ranges over an infinite set of inputs; a unit test samples a handful of them.", "anchors": ["src/fluid/riemann.hpp: llf, hll, FluxState::prim_to_flux", "src/fluid/fluid.cpp: CalculateFluxes, FluxCT", "src/reconstruction/reconstruction.hpp: PiecewiseConstant, PiecewiseLinear, WENO5Z, MP5", "src/phoebus_driver.cpp: FluxDivergence"]}
{"id": "C148", "title": "A cell whose radiation source update failed is repaired consistently", "statement": "A cell in which the exchange of energy and momentum between gas and radiation failed gets the means of its good interior neighbours in gas and radiation (or a fixed state at rest when there is none), whatever the order in which cells are visited; good cells keep everything; densities and energies stay positive; and the conserved gas and radiation variables it is left with are those of its repaired primitives. (Code: the last clause holds for the gas and, below the velocity ceiling, for the radiation. Above the ceiling the radiation is converted in a frame which is not that of the repaired gas, with a stored pressure tensor the tensor of the failed state is kept, and the repair is silently skipped unless the radiation floors are switched on too.)", "quantifier": "every block, geometry, set of failed cells, schedule, species, closure, equation of state", "why_tests_cant": "The claim ranges over an infinite set of inputs; a unit test samples a handful of them.", "anchors": ["src/fixup/fixup_src.cpp: SourceFixup, SourceFixupImpl", "src/radiation/closure.hpp: Prim2Con"]}
{"id": "C149", "title": "The two routes to the M1 pressure tensor agree", "statement": "Take admissible rest-frame radiation moments, compute their M1 pressure tensor and with it their conserved moments. The search that recovers the pressure tensor from the conserved moments alone succeeds and gives the same tensor and flux factor. (Code: true in a gas at rest for every flux and every first guess, in both formulations; true in a moving gas where the flux is along the motion, for the energy equation, at the correct first guess. False for a flux across the motion, for every velocity and every flux factor below one: the search looks in one direction only. False for the number equation in a moving gas: the energy is converted twice.)", "quantifier": "every metric, velocity, moments, guess, step size and tolerance of the search", "why_tests_cant": "The claim ranges over an infinite set of inputs; a unit test samples a handful of them.", "anchors": ["src/radiation/closure_m1.hpp: GetConTilPiFromPrim, GetConTilPiFromCon, SolveClosure, M1Residuals, GetBasisVectors, M1FluidPressureTensor", "src/radiation/closure.hpp: Prim2Con, Con2Prim"]}
{"id": "C150", "title": "Fluxes and geometric sources together are the equations of general relativistic magnetohydrodynamics", "statement": "Take any smooth flow that satisfies rest-mass and electron-number conservation, energy-momentum conservation (covariant divergence of the stress tensor zero) and the induction equation in any smooth spacetime, also a time-dependent one.  For every variable the program stores, the time derivative of the value the program would store for the flow is minus the coordinate divergence of the flux it uses plus the geometric source it uses.  Consequently the rate of change that the program computes for a cell from face fluxes and sources tends to the true time derivative as the cells shrink.", "quantifier": "every smooth spacetime with lapse, shift and spatial metric, every smooth solution, both energy formulations, reconstruction method, solver, dimension, block, schedule, memory contents", "why_tests_cant": "The claim ranges over an infinite set of inputs; a unit test samples a handful of them.", "anchors": ["src/fluid/fluid.cpp: CalculateFluidSourceTerms, CalculateFluxes, FluxCT", "src/fluid/prim2con.hpp: p2c", "src/fluid/riemann.hpp: FluxState::prim_to_flux", "src/fluid/tmunu.hpp: StressEnergyTensorCon", "src/phoebus_driver.cpp: FluxDivergence"]}
{"id": "C151", "title": "A whole time step follows the solution of the GRMHD equations", "statement": "Start from the values of a smooth solution of the GRMHD equations in a stationary spacetime at the cell centres and let the program make one time step, all stages, with time step and cell widths shrinking in fixed proportion: the error of every conserved variable against the solution at the new time, divided by the time step, tends to zero. This holds for every reconstruction method, both solvers, both energy formulations, every number of dimensions, every decomposition into blocks, schedule and memory contents, as long as the state is inside the floors and ceilings and the inversion recovers it. (Code: true for rk1, rk2 and rk3. For vl2 the change over a step tends to three halves of the true change, see C29.)", "quantifier": "every stationary smooth spacetime, smooth solution, reconstruction method, solver, dimension, decomposition, schedule, memory contents, list of stage weights", "why_tests_cant": "The claim ranges over an infinite set of inputs; a unit test samples a handful of them.", "anchors": ["src/phoebus_driver.cpp: RungeKuttaStage, UpdateIndependentData", "src/fluid/fluid.cpp: CalculateFluxes, FluxCT, CalculateFluidSourceTerms", "src/fluid/riemann.hpp: llf, hll", "src/reconstruction/reconstruction.hpp: PiecewiseConstant, PiecewiseLinear, WENO5Z, MP5"]}
{"id": "C152", "title": "The radiation variables evolve by the covariant moment equations", "statement": "Take any smooth radiation field whose stress-energy tensor satisfies the covariant moment equations with absorption, emission and scattering in any smooth flow and any smooth spacetime, also a time-dependent one. The time derivative of the densitised energy and momentum the program stores for the field is minus the coordinate divergence of the fluxes it uses, plus the geometric sources it uses, plus the exchange terms its implicit solvers use. (Code: true for the momentum always assembled from the same tensor, and for both equations with the Eddington closure in any flow and with the M1 closure in gas at rest. False for the energy with the M1 closure in moving gas: the stored energy of a beam is too large while its flux is right, so the two are not in balance.)", "quantifier": "every smooth spacetime, velocity field below the velocity cap, radiation field, opacities and emissivity", "why_tests_cant": "The claim ranges over an infinite set of inputs; a unit test samples a handful of them.", "anchors": ["src/radiation/moments.cpp: CalculateFluxesImpl, CalculateGeometricSourceImpl", "src/radiation/closure.hpp: Prim2Con, getFluxesFromPrim, getConPFromPrim, LinearSourceUpdate"]}
{"id": "C153", "title": "The radiation rates follow the moment equations", "statement": "Sample a smooth radiation field at the cell centres, in a smooth flow and any smooth spacetime. As the cells shrink, the rate of change of energy and momentum of every species that the program computes from its radiation fluxes - reconstruction, bounds on the face states, blend of the free-streaming and the diffusion flux by the opacities - tends to minus the divergence of the fluxes of the moment equations, and together with its geometric sources to the true time derivative less the exchange with the gas. For every reconstruction method, one, two or three dimensions, any number of species, any decomposition and loop schedule, opacities from zero to any bound, whatever the memory contained.", "quantifier": "every smooth spacetime, smooth state, closure that is smooth at the state and bounded, opacity, reconstruction method, dimension, number of species, decomposition, schedule, memory contents", "why_tests_cant": "The claim ranges over an infinite set of inputs; a unit test samples a handful of them.", "anchors": ["src/radiation/moments.cpp: CalculateFluxesImpl, ReconstructEdgeStates, CalculateGeometricSourceImpl", "src/radiation/closure.hpp: Prim2Con, getFluxesFromPrim", "src/radiation/closure_m1.hpp: ClosureM1", "src/reconstruction/reconstruction.hpp: PiecewiseConstant, PiecewiseLinear, WENO5Z, MP5"]}
{"id": "C154", "title": "The implicit matter exchange of the radiation is accurate for small steps, complete for large ones, never makes the energy negative, and the whole radiation step follows the moment equations", "statement": "For the energy form of the energy equation and a pressure tensor without component along the gas velocity (always so for the Eddington closure), for every admissible metric, every gas velocity below the cap, all nonnegative optical depths and every incoming energy and momentum: (1) the update computed from the two-by-two formula is the unique backward-Euler solution, and the comoving moments it ends with depend linearly on the incoming moments and the emission; (2) as the optical depths grow without bound the radiation ends at the emission equilibrium with zero comoving flux; the deviation from equilibrium is bounded by the inverse optical depth; (3) if the incoming momentum does not exceed the incoming energy and emission is nonnegative, the comoving energy density afterwards is nonnegative; (4) as the step shrinks, the increment per unit time tends to the exchange term of the moment equations at the incoming comoving moments; (5) a smooth field solving the moment equations, transported for a time proportional to the cell size by the program's fluxes and geometric sources and then exchanged, changes per unit time by an amount that tends to the time derivative of the field, for every species and component.", "quantifier": "all metrics, gas velocities below the cap, incoming moments, emission, optical depths; all smooth spacetimes and fields, blocks, loop orders, cell sizes tending to zero", "why_tests_cant": "The claim ranges over an infinite set of inputs; a unit test samples a handful of them.", "anchors": ["src/radiation/closure.hpp: LinearSourceUpdate", "src/radiation/moments_source.cpp: MomentFluidSourceImpl", "src/radiation/moments.cpp: CalculateFluxes", "src/phoebus_driver.cpp: RadiationPostStep"]}
{"id": "C155", "title": "A moving contact converges over any finite time", "statement": "In one dimension, on a periodic mesh of N cells of width h at most one, in a geometry that does not depend on position: the density starts from the values at the cell centres of any profile of bounded variation (jumps of any size and number included), everything else is uniform.  For any decomposition into blocks, any schedule and memory contents, LLF or HLL fluxes, constant or linear reconstruction, any Runge-Kutta weights between zero and one, and time steps chosen in any way within the Courant condition: after any number of steps velocity, pressure, energy, field and electron fraction are unchanged, and the sum over all cells of the difference between the computed mass and the exact mass of the profile carried along with the flow is at most TV (7 + 2 (length + 8 K^3 S T)) times the square root of h, where TV is the variation of the profile, K the number of stages, S the bound on the signal speed and T the elapsed time.  So the computed solution converges for every fixed time.  The distance by which the profile is carried is the velocity times the sum of the time steps each multiplied by the advance of its weights: one for rk1, rk2 and rk3; three halves for vl2, whose solutions converge to a profile in the wrong place.", "quantifier": "all profiles of bounded variation, mesh sizes, block decompositions, schedules, memory contents, weights, time step sequences, numbers of steps", "why_tests_cant": "The claim ranges over an infinite set of inputs; a unit test samples a handful of them.", "anchors": ["src/fluid/fluid.cpp: CalculateFluxes", "src/fluid/riemann.hpp: llf, hll", "src/reconstruction.hpp: PiecewiseConstant, PiecewiseLinear, mc", "src/phoebus_driver.cpp: RungeKuttaStage"]}
{"id": "C156", "title": "Linear reconstruction with rk2 or rk3 is second order where the density has a slope", "statement": "A contact in one dimension in a geometry that does not depend on position, with a density that is three times differentiable around a point and has a nonzero slope there.  On meshes with cell widths h tending to zero, cut into blocks in any way, any schedule, memory contents and boundary conditions, LLF or HLL, linear reconstruction, one step of length proportional to h within the Courant condition: the density of the cell centred at the point differs from the profile carried along with the flow by a term of order h cubed with the weights of rk2 and rk3.  For every other list of weights the leading error is given exactly: (1 - A) times the distance moved times the slope at first order, and (B - 1/2) times the square of the distance times the curvature at second order, with A and B computed from the weights; so rk1 is of first order only and vl2 of order zero.", "quantifier": "all profiles, mesh families, decompositions, schedules, memory contents, stage weights", "why_tests_cant": "The claim ranges over an infinite set of inputs; a unit test samples a handful of them.", "anchors": ["src/reconstruction.hpp: PiecewiseLinear, mc", "src/fluid/riemann.hpp: llf, hll", "src/phoebus_driver.cpp: RungeKuttaStage"]}
{"id": "C157", "title": "Order of accuracy of the reconstructions", "statement": "From cell averages of a smooth profile, where it has a slope, the left and right face states of WENO5-Z are the true face values up to C(h^5 + eps h^2) with eps the regularising constant of the code, those of MP5 up to C h^5 (at extrema too, because the threshold of its limiter is an absolute number), and those of the limited linear reconstruction up to the exact leading error -f'' h^2/12. From point values at the cell centres all three are of second order only: the leading errors are -f'' h^2/24 (WENO5-Z, MP5) and -f'' h^2/8 (linear).", "quantifier": "every profile with five continuous derivatives, every point with nonzero slope, every sufficiently small cell width and every regularising constant up to one, with one constant C", "why_tests_cant": "The claim ranges over an infinite set of inputs; a unit test samples a handful of them.", "anchors": ["src/reconstruction.hpp: WENO5Z, MP5, PiecewiseLinear"]}
{"id": "C158", "title": "WENO5-Z or MP5 with rk3 is third order for a small smooth contact", "statement": "A contact in one dimension in a geometry that does not depend on position, with a density that is four times continuously differentiable, has a nonzero slope at a point and stays within a small band around a mean value. On meshes with cell widths h tending to zero, cut into blocks in any way, any schedule, memory contents and boundary conditions, LLF or HLL, WENO5-Z or MP5 reconstruction, one step of length proportional to h within the Courant condition: the density of the cell centred at the point differs from the profile carried along with the flow by a term of order h^4 with the weights of rk3. For every list of weights the expansion to third order is given exactly; with rk2 the error divided by h^3 tends to one sixth of the cube of the distance moved (in cells) times the third derivative, so a better reconstruction does not raise its order.", "quantifier": "all profiles, mesh families, decompositions, schedules, memory contents, stage weights", "why_tests_cant": "The claim ranges over an infinite set of inputs; a unit test samples a handful of them.", "anchors": ["src/reconstruction.hpp: WENO5Z, MP5", "src/fluid/riemann.hpp: llf, hll", "src/phoebus_driver.cpp: RungeKuttaStage"]}
{"id": "C159", "title": "The limiter functions keep face values between neighbours and reproduce straight lines", "statement": "Each limiter function of the reconstruction header takes the differences to the left and right neighbour and gives the factor that turns the right difference into a slope. With that slope the two face values lie between the cell value and the respective neighbour for every three values; a straight line keeps its slope; mirrored data give the mirrored slope. The two-dimensional factor lies in [0,1] and brings the increment into the range of the neighbours.", "quantifier": "every triple of cell values, every limiter function of the header, every alpha it accepts", "why_tests_cant": "The claim ranges over an infinite set of inputs; a unit test samples a handful of them.", "anchors": ["src/reconstruction.hpp: koren, mc_lim, minmod, ltanh, barth_jespersen, overbee_alpha, overbee, superbee, nolim, phifunc"]}
{"id": "C160", "title": "The gridded metric fields and text dumps of the monopole solver show the solution", "statement": "The seven gridded fields (a, Krr, alpha, and the four ADM matter sources) of a zone are the radial profiles at the radius of that zone: the same in all zones at that radius whatever the block, equal to the table on points of the radial grid, exact for quadratic profiles. The text dump shows the radius and every profile and gradient of the solution, with one name per column.", "quantifier": "every state of the solver, zone position, Cartesian or spherical grid, radial grid", "why_tests_cant": "The claim ranges over an infinite set of inputs; a unit test samples a handful of them.", "anchors": ["src/monopole_gr/monopole_gr.cpp: InterpMetricToGrid, DumpToTxt, DumpHypersurface", "src/monopole_gr/monopole_gr_base.hpp: Interpolate"]}
{"id": "C161", "title": "The order of accuracy survives any fixed number of steps with the code's own time steps", "statement": "A contact in one dimension in a geometry that does not depend on position, with a smooth density that has a nonzero slope at a point, on meshes with cell widths h tending to zero, cut into blocks in any way, with any schedule, memory contents and boundary conditions, LLF or HLL. The code makes any fixed number of steps; each step has the length the code's controller chose at the end of the one before, whatever it is, within the Courant condition. Then the density of the cell centred at the point is that of the profile carried along for the time elapsed: with linear reconstruction up to h^3 for rk2 and rk3, with WENO5-Z or MP5 and rk3 up to h^4 if the density stays in a small band. For weights of lower order the leading error is given exactly: the sum over the steps of the squares (cubes) of the distances moved, times the missing part of the coefficient, times the second (third) derivative.", "quantifier": "all profiles, mesh families, decompositions, schedules, memory contents, controllers, stage weights, numbers of steps", "why_tests_cant": "The claim ranges over an infinite set of inputs; a unit test samples a handful of them.", "anchors": ["src/reconstruction.hpp: PiecewiseLinear, WENO5Z, MP5", "src/fluid/riemann.hpp: llf, hll", "src/phoebus_driver.cpp: Step, RungeKuttaStage", "src/fluid/fluid.cpp: EstimateTimestepBlock"]}
{"id": "C162", "title": "Many implicit exchanges converge to the exact relaxation of radiation and gas", "statement": "For every admissible metric, gas velocity below the cap, opacities and emission, and a pressure tensor without component along the gas velocity (always so for the Eddington closure): from every state of the radiation there is exactly one history whose energy and momentum change at the rate of absorption, scattering and emission in the moment equations. The implicit update of the code, repeated any number of times with steps of any lengths up to delta, stays within a constant times delta of that history over any finite time; with N equal steps it tends to it as N grows.", "quantifier": "all metrics, velocities, opacities, emission, initial states, sequences and numbers of steps, final times", "why_tests_cant": "The claim ranges over an infinite set of inputs; a unit test samples a handful of them.", "anchors": ["src/radiation/closure.hpp: LinearSourceUpdate", "src/radiation/moments_source.cpp: MomentFluidSourceImpl"]}
{"id": "C163", "title": "Monte Carlo packets on many blocks: one move per step, in any order, nothing lost", "statement": "A Monte Carlo step runs on every block the tasks emission, transport, send, receive, interleaved with those of the other blocks in any order in which a block receives only after all have sent. The result does not depend on the order. Every packet is moved, or absorbed, exactly once, by the block on which it began the step; afterwards it is on the block that contains it or has left the mesh. Through any history of steps, with any emission, random draws, opacities and time steps, the four-momentum of the gas of all blocks, the packets, and the packets that left, along every symmetry of the metric, is constant.", "quantifier": "all numbers of blocks and cells, interleavings, histories, emitted packets, draws, opacities, time steps, boundary conditions that keep wave vector and weight (outflow, periodic)", "why_tests_cant": "The claim ranges over an infinite set of inputs; a unit test samples a handful of them.", "anchors": ["src/phoebus_driver.cpp: MonteCarloStep", "src/radiation/monte_carlo.cpp: MonteCarloSourceParticles, MonteCarloTransport", "src/radiation/radiation.cpp: ApplyRadiationFourForce"]}
{"id": "C164", "title": "Cooling applied after the step: budget, law and lag", "statement": "A step with the cooling function first advances the gas and recovers its primitives, then subtracts the emission. For a uniform gas: through any number of steps of any lengths, energy, momentum and lepton number change by the sum of the steps times the emission of the primitives shown after each step. Over a finite time the run stays within a constant times the largest step of the exact loss law. The primitives shown agree with the conserved variables shown, and a gas with positive energy keeps positive energy.", "quantifier": "all geometries, recoveries, emissivities, species, steps, numbers of steps, initial states", "why_tests_cant": "The claim ranges over an infinite set of inputs; a unit test samples a handful of them.", "anchors": ["src/phoebus_driver.cpp: Step, RadiationPostStep", "src/radiation/cooling_function.cpp: CoolingFunctionCalculateFourForce", "src/radiation/radiation.cpp: ApplyRadiationFourForce"]}
{"id": "C165", "title": "The time integrator with the exchange in every stage follows the exact relaxation", "statement": "Uniform radiation and gas, so that fluxes and sources vanish. A step is the stages of the integrator: each mixes the current state with the one at the start of the step by its weight and applies the implicit exchange for the weighted step. For every admissible metric, velocity below the cap, opacities, emission, and a pressure tensor without component along the velocity, any number of steps of any lengths up to delta leaves energy and momentum within a constant times delta of the exact history at the time elapsed.", "quantifier": "all metrics, velocities, opacities, emission, lists of weights between zero and one, sequences and numbers of steps", "why_tests_cant": "The claim ranges over an infinite set of inputs; a unit test samples a handful of them.", "anchors": ["src/phoebus_driver.cpp: Step, RungeKuttaStage", "src/radiation/moments_source.cpp: MomentFluidSourceImpl", "src/radiation/closure.hpp: LinearSourceUpdate"]}
{"id": "C166", "title": "Tracers follow the fluid elements over any finite time", "statement": "Tracers are moved once per step, by the midpoint rule with the fields of one time within the step. Over any finite time, in every flow whose coordinate velocity u^i/u^0 is Lipschitz in place and time, through any number of steps of any lengths up to delta, a tracer stays within a constant times delta of the path of the fluid element it started with; in a steady smooth flow within a constant times delta squared.", "quantifier": "all metrics, flows, starting places, sequences and numbers of steps, choices of the time within the step", "why_tests_cant": "The claim ranges over an infinite set of inputs; a unit test samples a handful of them.", "anchors": ["src/tracers/tracers.cpp: AdvectTracers", "src/tracers/tracers.hpp: tracers_rhs", "src/phoebus_driver.cpp: RungeKuttaStage"]}
{"id": "C167", "title": "Pushed rays follow the geodesics", "statement": "Photon packets and MOCMC samples are moved by one push per step. For every metric with continuous first derivatives and every ray that solves Hamilton's equations of geodesic motion with coordinate time over a finite interval, there is a constant C such that, through any number of pushes of any lengths up to delta, position and covariant wave vector stay within C (delta + epsilon) of the ray, where epsilon is the error of the forces from differencing the metric over the fixed distance 1e-6.", "quantifier": "all metrics with continuous first derivatives, all rays on which k^0 does not vanish, all sequences and numbers of pushes", "why_tests_cant": "The claim ranges over an infinite set of inputs; a unit test samples a handful of them.", "anchors": ["src/radiation/geodesics.hpp: PushParticle, GetXSource, GetKSource", "src/radiation/monte_carlo.cpp: MonteCarloTransport", "src/radiation/mocmc.cpp: MOCMCTransport"]}
