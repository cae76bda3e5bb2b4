import json
P=[]
def p(id,title,statement,quant,why,anchors):
    P.append(dict(id=id,title=title,statement=statement,quantifier=quant,why_tests_cant=why,anchors=anchors))
INF="The claim ranges over an infinite set of inputs; a unit test samples a handful of them."
p("C01","Piecewise-linear face states never overshoot","For any three consecutive cell values, the piecewise-linear reconstruction's state at the right face lies between the cell value and its right neighbour and the state at the left face lies between the left neighbour and the cell value; at a local extremum both equal the cell value; the two face states average to the cell value.","every triple of real cell values",INF+" A limiter bug shows only for particular sign/ratio combinations.",["src/reconstruction.hpp: mc, PiecewiseLinear"])
p("C02","Every reconstruction preserves constants","On a stencil of equal values each of constant, linear, WENO5-Z and MP5 reconstruction returns exactly that value on both faces.","every reconstruction method, every constant value",INF,["src/reconstruction.hpp: PiecewiseConstant, PiecewiseLinear, WENO5Z, MP5"])
p("C03","Linear data are reconstructed exactly","If the stencil samples an affine function, linear, WENO5-Z and MP5 reconstruction return the exact values at both faces.","every slope and intercept",INF,["src/reconstruction.hpp: PiecewiseLinear, WENO5Z, MP5"])
p("C04","Reconstruction commutes with mirror reflection","Reversing the stencil swaps the left and right face states, for linear, WENO5-Z and MP5.","every stencil of real values",INF+" An index slip in one of the two mirrored halves is visible only on asymmetric stencils.",["src/reconstruction.hpp: PiecewiseLinear, WENO5Z, MP5"])
p("C05","WENO5-Z is a convex combination of its candidates","The WENO5-Z face state is a convex combination of the three third-order candidate interpolants and the limited linear state: weights are nonnegative and sum to one, so it is within their range.","every five-point stencil",INF,["src/reconstruction.hpp: WENO5Z"])
p("C06","MP5 limiting","When MP5's accuracy test rejects the high-order interpolant, the returned face state lies in the interval spanned by the monotonicity-preserving bounds; for monotone data with the plain interpolant already in the MP interval the high-order value is returned unchanged.","every five-point stencil",INF,["src/reconstruction.hpp: mp5_subcalc, MINMOD, Median"])
p("C07","Reconstruction is equivariant under affine rescaling of data","Adding a constant to, or multiplying by a constant (of either sign), all cell values does the same to the linear reconstruction's face states.","every stencil, every shift and scale",INF,["src/reconstruction.hpp: PiecewiseLinear"])
p("C08","Root finders return a point of the search interval","For every function, starting interval, tolerance and iteration cap, the value returned by bisection, regula falsi, ITP and by the secant finder whose guess is inside lies in the closed search interval.","every function f, interval, tolerance, guess, iteration cap","The claim is over every function handed in by EOS/con2prim code, i.e. every trajectory of the iteration.",["src/phoebus_utils/root_find.hpp: RootFind::bisect, itp, regula_falsi, secant"])
p("C09","Root finders that report success bracket a root","If f is continuous with a sign change over the interval and the finder reports success, there is a root of f within the stated tolerance of the returned value. (The code violates this when the root is the left end of the interval.)","every continuous f, interval, tolerance, cap","Depends on an invariant over the whole iteration history for every function.",["src/phoebus_utils/root_find.hpp: bisect, itp, regula_falsi, check_bracket"])
p("C10","Root finders terminate within the iteration cap and report it","The number of iterations recorded never exceeds the cap, and failure is reported whenever the tolerance was not met. (The code also reports failure when the tolerance is met on exactly the last permitted iteration.)","every function, interval, tolerance, cap","Every execution length has to be covered, including the boundary iteration.",["src/phoebus_utils/root_find.hpp: RootFind"])
p("C11","Small matrix inverse and linear solve are correct","The 3x3 inverse times the matrix is the identity for every symmetric invertible matrix (not for all matrices: the determinant used is wrong for nonsymmetric ones), the 4x4 inverse for every invertible matrix, and the 2x2 solve satisfies the equations.","every matrix with nonzero determinant",INF+" A cofactor sign error hides for structured test matrices.",["src/phoebus_utils/linear_algebra.hpp: matrixInverse3x3, SolveAxb2x2, matrixInverse4x4"])
p("C12","Grid interpolation is consistent","Linear interpolation from cell centres to a point reproduces node values, is exact on functions linear in each coordinate, uses weights summing to one, and inside the grid stays within the range of the stencil values, in one, two and three dimensions.","every grid, point and field",INF,["src/phoebus_utils/phoebus_interpolation.hpp: Cent::Linear"])
p("C13","Four-velocity is unit timelike","For every spatial metric, lapse, shift and velocity primitive the four-velocity built by the code satisfies u.u = -1, its Lorentz factor is at least one, and equals alpha u^0.","every nondegenerate 3-metric, lapse>0, shift, velocity",INF,["src/phoebus_utils/relativity_utils.hpp: GetLorentzFactor, GetFourVelocity"])
p("C14","Comoving magnetic field and stress tensor identities","The stress-energy tensor used for geometric sources is symmetric, its magnetic four-vector satisfies b.u=0 and b.b=b^2, and its trace is -rho - u + 3P ... as for ideal MHD.","every metric, velocity, field and thermodynamic state",INF,["src/fluid/tmunu.hpp: StressEnergyTensorCon"])
p("C15","Conserved variables are projections of the stress-energy tensor","The conserved density, momentum and energy computed from primitives equal sqrt(gamma) times the projections of the mass current and the code's stress-energy tensor on the normal observer.","every metric and primitive state","Two different code paths must agree for every state; a term dropped in one only shows in general metrics with shift and field.",["src/fluid/prim2con.hpp: p2c","src/fluid/tmunu.hpp"])
p("C16","Numerical fluxes are consistent and single valued","LLF and HLL return the physical flux when both states agree; HLL returns the upwind flux when all signals travel one way; both reverse exactly under mirror reflection of the face; and the LLF dissipation speed bounds every signal speed.","every pair of states, fluxes and signal speeds",INF,["src/fluid/riemann.hpp: llf, hll"])
p("C17","Constrained transport keeps div B fixed (2D and 3D)","After the edge-averaging of induction fluxes, the finite-difference time derivative of the code's own div B diagnostic vanishes in every interior cell, in 2D and 3D, whatever the face fluxes were.","every field of face fluxes, every cell, every mesh spacing","Needs the identity for all fluxes at all cells; tests see only smooth fields.",["src/fluid/fluid.cpp: FluxCT, CalculateDivB"])
p("C18","div B is an invariant of a whole run","Through any sequence of Runge-Kutta stages with any time steps and fluxes the discrete div B of an initially divergence-free field stays zero.","every history of stages","Unbounded histories.",["src/fluid/fluid.cpp: FluxCT, CalculateDivB","src/phoebus_driver.cpp: RungeKuttaStage"])
p("C19","Flux-form update conserves totals","With flux-difference updates on a line of cells the total of a conserved variable changes only by the boundary fluxes, and is exactly constant when the boundary fluxes are zeroed by the reflecting flux fix.","every number of cells, fluxes, steps","Unbounded sizes and histories.",["src/fixup/fixup.cpp: FixFluxes","src/fluid/fluid.cpp"])
p("C20","Outflow flux fix never lets mass enter","At an outflow boundary the density flux after the fix never carries mass into the domain and is unchanged when already outgoing; at reflecting and polar boundaries no mass, energy or radiation energy crosses; faces not on such a boundary are untouched.","every flux field, every boundary",INF,["src/fixup/fixup.cpp: FixFluxes"])
p("C21","Floors are enforced","After floors are applied density and internal energy are at least their floors and the specific internal energy at least the specific floor, and a state already above all floors is returned unchanged.","every state and floor values",INF,["src/fixup/fixup.cpp: ApplyFloors","src/fixup/fixup.hpp: Bounds"])
p("C22","Velocity ceiling","When the Lorentz factor exceeds the ceiling the fix rescales the velocity so the new Lorentz factor equals the ceiling. (The code's factor sqrt(g^2-1)/(W^2-1) does not do this: proved wrong with a witness; what it does guarantee is proved.)","every metric, velocity and ceiling",INF,["src/fixup/fixup.cpp: ApplyFloors","src/radiation/moments.cpp: CalculateFluxesImpl"])
p("C23","Failed-cell repair only averages valid neighbours","A cell whose inversion failed receives the average of its successful neighbours (hence values inside their range) or the fixed floor state when none is valid; successful cells are untouched; the result does not depend on the order in which cells are visited.","every mask of failures, every field, every visiting order","Schedules: parallel loop order is not controlled by tests.",["src/fixup/fixup_c2p.cpp","src/fixup/fixup_src.cpp"])
p("C24","Net-field controller","The controller's requested multiplicative change is limited as documented whatever the sign of the rate; the controller's state machine only adjusts when enabled. (clamp is called with lo>hi when the change is negative.)","every rate, bounds, history",INF,["src/fixup/fixup_netfield.cpp"])
p("C25","Boundary fills leave the interior alone and are parity-correct","Outflow copies the nearest interior value; reflection mirrors values with a sign flip exactly for the normal vector component; interior cells are never changed; applying a boundary fill twice equals applying it once.","every field, ghost width and side",INF,["src/phoebus_boundaries/phoebus_boundaries.cpp: GenericBC"])
p("C26","Outflow velocity check stops inflow","After the ghost-zone velocity conversion at an outflow boundary the fluid's coordinate velocity does not point into the domain and velocities already outgoing are unchanged.","every metric, velocity",INF,["src/phoebus_boundaries/phoebus_boundaries.cpp: ConvertBoundaryConditions"])
p("C27","A failed stage makes the step fail","If the task list of any Runge-Kutta stage fails, the step reports failure. (The code overwrites the status: proved false with a witness.)","every sequence of stage outcomes","Needs every failure history.",["src/phoebus_driver.cpp: Step"])
p("C28","Time step selection","The step taken never exceeds the growth cap, the user cap, or the time left to tlim, so no run passes tlim and, with steps bounded below, reaches it.","every sequence of proposed steps","Unbounded histories.",["src/phoebus_driver.cpp: Step, SetGlobalTimeStep","src/fluid/fluid.cpp: EstimateTimestepBlock"])
p("C29","Runge-Kutta stage combination","The stage update is the convex combination beta*U + (1-beta)*U0 + beta*dt*dU; with the registered low-storage coefficients a constant right-hand side advances the state by exactly dt*rhs, and linear invariants of the right-hand side are preserved at every stage.","every number of stages, every rhs history","Unbounded histories.",["src/phoebus_driver.cpp: RungeKuttaStage"])
p("C30","Connection coefficients are torsion free and metric compatible","The Christoffel symbols computed from metric derivatives are symmetric in the last two indices and satisfy Gamma_abc + Gamma_bac = d_c g_ab, for every symmetric metric derivative array.","every derivative array symmetric in its metric indices",INF,["src/geometry/geometry_utils.hpp: SetConnectionCoeffFromMetricDerivs"])
p("C31","Flattened symmetric storage is a bijection","The flat index of a symmetric pair is symmetric, within range, injective on unordered pairs and onto the storage range, for both 3- and 4-dimensional tensors.","every index pair","A finite table, but the cached geometry relies on it for all tensors.",["src/geometry/geometry_utils.hpp: Flatten2, SymSize"])
p("C32","Cached geometry returns what was stored","Reading the cached metric, lapse, shift, determinant or derivatives at a cell returns the analytic values stored at the same cell and location, for every block and cell. (Cached coordinates are off by one component: proved with a witness.)","every block, cell, location, symmetric tensor","Index arithmetic over all components and all cells.",["src/geometry/cached_system.hpp","src/geometry/geometry_utils.hpp: SetGeometryDefault"])
p("C33","Analytic metrics and their inverses are inverse","For every coordinate system the 3-metric times its inverse and the 4-metric times its inverse are the identity at every regular point. (Boyer-Lindquist fails: witness.)","every regular point and parameter",INF,["src/geometry/minkowski.hpp","src/geometry/spherical_minkowski.hpp","src/geometry/boosted_minkowski.hpp","src/geometry/snake.hpp","src/geometry/inchworm.hpp","src/geometry/flrw.hpp","src/geometry/spherical_kerr_schild.hpp","src/geometry/boyer_lindquist.hpp"])
p("C34","3+1 pieces agree with the 4-metric","Lapse, shift, 3-metric and determinant returned by each coordinate system reassemble to the returned 4-metric.","every regular point and parameter",INF,["src/geometry/*.hpp"])
p("C35","Returned metric derivatives are the derivatives of the returned metric","For each analytic system the array returned by MetricDerivative (and GradLnAlpha) is the true partial derivative of the returned metric (log lapse).","every regular point and parameter","Derivative is a limit; tests use finite differences at a few points.",["src/geometry/*.hpp: MetricDerivative, GradLnAlpha"])
p("C36","Coordinate-transformed systems obey the tensor law","For a modified system whose Jacobians are mutually inverse the transformed metric and inverse metric stay inverse, contraction of transformed vectors is invariant, and the determinant scales by |det J|.","every metric and Jacobian pair",INF,["src/geometry/modified_system.hpp"])
p("C37","Coordinate maps and Jacobians are consistent","McKinney-Gammie-Ryan and spherical-to-Cartesian transformations return Jacobians that are mutually inverse and are the derivative of the map. (The Cartesian derivative helper has wrong powers of r: witness.)","every regular point",INF,["src/geometry/mckinney_gammie_ryan.hpp","src/geometry/sph2cart.hpp"])
p("C38","Tetrads are orthonormal and invertible","The tetrad built from any timelike unit four-velocity is orthonormal, and converting a vector to the tetrad frame and back is the identity.","every metric and four-velocity for which the code's normalisations are defined",INF,["src/geometry/tetrads.hpp"])
p("C39","Unit conversions are mutually inverse and consistent","Every code-to-CGS factor times its inverse is one, composite units are the right products of length, mass and time, c is one in code units, for every choice of units.","every positive unit system",INF,["src/phoebus_utils/unit_conversions.hpp"])
p("C40","Minimum enthalpy search","The reported minimum enthalpy is a lower bound of all sampled enthalpies and is attained (or the cap), for any number of samples.","every sample count and enthalpy function","Unbounded reduction.",["src/phoebus_utils/adiabats.hpp"])
p("C41","Monopole volume weights","The fraction of a spherical shell covered by a cell equals overlap length over cell width, is in [0,1], and over shells covering the cell the fractions sum to one.","every interval pair, every shell grid","Real-valued geometry and unbounded grids.",["src/monopole_gr/monopole_gr_utils.hpp: GetVolIntersectHelper"])
p("C42","Lapse solve satisfies the discretised equation","The tridiagonal solve returns a lapse satisfying every row of the assembled system including boundary rows, for any number of points, provided pivots are nonzero; in vacuum the lapse is identically one.","every number of radial points and source profile","Unbounded grid size (induction over rows).",["src/monopole_gr/monopole_gr.cpp: LinearSolveForAlpha"])
p("C43","Vacuum monopole spacetime is flat","With zero matter sources the hypersurface integration gives a=1 and K=0 at all radii, the shift is zero and the metric Minkowski.","every grid","Unbounded grid size.",["src/monopole_gr/monopole_gr.cpp: IntegrateHypersurface, SpacetimeToDevice"])
p("C44","TOV integration is monotone","Enclosed mass never decreases and pressure never increases outward while the state is physical; below the pressure floor the state is frozen.","every grid, every EOS","Unbounded grids and arbitrary EOS.",["src/tov/tov.hpp","src/tov/tov.cpp"])
p("C45","Tracers move with the fluid","A tracer's coordinate velocity is alpha v^i - beta^i, equals u^i/u^0, and a uniform flow moves each tracer by dt times that velocity; inactive tracers do not move. (In a multi-block pack all tracers read block zero: witness.)","every particle, block, velocity, dt","Every particle/block assignment.",["src/tracers/tracers.cpp","src/tracers/tracers.hpp"])
p("C46","Radiation primitive/conserved maps are inverse","Under the Eddington closure the conversion of rest-frame moments to lab-frame moments followed by the inverse is the identity for every subluminal velocity and metric.","every metric, velocity, moments",INF,["src/radiation/closure.hpp: ClosureEdd::Prim2Con, Con2Prim"])
p("C47","Implicit radiation source step solves its equations","The increments returned by the linear source update satisfy the backward-Euler equations for energy and momentum; zero optical depth gives zero increment.","every state and optical depth",INF,["src/radiation/closure.hpp: LinearSourceUpdate"])
p("C48","M1 closure function","The variable Eddington factor is 1/3 in the diffusive limit, 1 when free streaming, and lies between over the admissible range as documented.","every flux factor in [0,1]",INF,["src/radiation/closure_m1.hpp: closure, athin"])
p("C49","Radiation-matter exchange conserves total energy and momentum","The source update subtracts from the fluid exactly what it adds to the radiation, in every branch. (When the solver fails the fluid is still changed: witness.)","every solver outcome","Failure branches depend on runtime data.",["src/radiation/moments_source.cpp: MomentFluidSourceImpl"])
p("C50","Angular quadrature is exact and additive","The n_i n_j quadrature of an angular cell has trace equal to the cell's solid angle and is additive under subdivision; over the sphere it gives (4 pi/3) delta_ij.","every angular rectangle and subdivision",INF,["src/radiation/kd_grid.hpp"])
p("C51","Geodesic push advances time exactly and is exact in flat space","A push of size dt advances coordinate time by exactly dt; in Minkowski space the wave vector is constant and the path straight, through any number of pushes.","every history of pushes","Unbounded histories.",["src/radiation/geodesics.hpp"])
p("C52","Light bulb","The optical-depth fit is continuous and nondecreasing in density, gain once switched on stays on, and an electron-fraction update lowers Ye by at most 5 percent and never raises it in the fit's density range.","every density, Ye, history",INF,["src/radiation/cooling_function.cpp","src/radiation/light_bulb_constants.hpp"])
p("C53","Horizon diagnostic picks one cell","In each column the flux-through-horizon reduction selects exactly one cell whenever the horizon is inside the block's face range, and interpolation to the horizon is between the two values used.","every mesh and horizon radius",INF,["src/analysis/history.cpp","src/analysis/history_utils.hpp"])
p("C54","Conservative-to-primitive status flags","Cells are marked for repair exactly when the inversion or the bounds check failed. (The classic inverter and the repair code use opposite conventions: witness.)","every outcome","All combinations of flags.",["src/fluid/con2prim.hpp","src/fluid/con2prim_robust.hpp"])
p("C55","Robust arithmetic helpers","ratio never divides by zero, keeps the sign and approximates the quotient; make_positive and make_bounded return values strictly inside their range.","every pair of reals",INF,["src/phoebus_utils/robust.hpp"])
open('/verif/properties.jsonl','w').write(''.join(json.dumps(x)+'\n' for x in P))
print(len(P))
