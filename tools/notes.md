# Notes (read so far) - findings F = code violates expected property
- reconstruction.hpp: mc, PLM (alpha 1.5), WENO5Z, MP5 (Median), unused limiters. PLM/WENO bounds; constant preservation; mirror symmetry.
- root_find.hpp: F bisect/itp with f(a)==0 exactly: sign=-1, root lost (f(x)=x on [0,1] bisect -> converges to 1). Status failure if converged exactly on last iter. secant UB if guess outside/not endpoint (x1.. uninit). iteration_count persists over calls on same object. regula_falsi Illinois.
- linear_algebra: F matrixInverse3x3 det uses A(1,0),A(2,0) with Ainv(1,0),Ainv(2,0): right only for symmetric A. 4x4 adjoint/determinant OK. SolveAxb2x2.
- robust.hpp ratio, make_positive, make_bounded, sgn.
- relativity_utils: GetLorentzFactor, GetFourVelocity (ratio/|alpha|), GetMagneticFieldSquared.
- interpolation: GetWeights clamp; Do1D/2D/3D; PiecewiseConstant bounds.
- prim2con.p2c / con2prim_robust.solve: D, tau (Valencia vs not) ; c2p tau from Qcov.n ; residual mu; floors flags; status logic.
- con2prim (classic): FailFlags success=0 fail=1 OPPOSITE of robust (1/0): F fixup uses robust flags -> classic method inverted.
- riemann prim_to_flux: F after W>gam_max vpcon rescaled but vcon = vpcon/W(old). non-Valencia U[ceng] misses alpha on bcon0*bcov0 (vs p2c). llf/hll consistent, hll cl<=0<=cr.
- fixup.cpp ApplyFloors: F rescale = sqrt(g^2-1)/(W^2-1) misplaced paren; sie>e_max never capped; velocity may be INCREASED (W<=gmax, e>emax), W=1 -> div 0 NaN. MHD floor Bdotv uses vp not v (extra W). Floors::eos_bnds_set_ uninit. FixFluxes: inflow/outflow sign, reflect zero.
  floors: drho=max(drho,du/sie_floor), du=max(du,sie_floor*drho).
- fixup_c2p/src/radc2p: average over good neighbours mask (1=valid), schedule independence over reals (0*failed), NaN poison; clamp W bug then W=gamma_max inconsistent. ye=0.5 safe etc.
- fixup_netfield: F std::clamp(lo>hi) UB when dphi_dt_change<0. Update-time state machine. ModifyNetField adds curl A.
- fixup_particles purge x<=log Rh.
- fluid.cpp: FluxCT 2D/3D preserves CalculateDivB; EstimateTimestepBlock cfl; CalculateFluxes recon index layout; Initialize validations.
- driver (phoebus_driver.cpp): F Step(): `status = RadiationPostStep()` overwrites stage failure (l.~122-147); F static first_call never set false -> dt_init caps each step; F sync_region_3: update depends on avg_data only, NOT add_rhs (race on dUdt; source terms dropped in some legal schedule); F particle_resolution->val[i] out of range for block i>0 (val.resize(1)); F tracer purge only blocks[n]; monopole nth_call<=run_n_times (n+1 runs?); dt clipping to tlim; RK stage: mc0=beta*mc0+(1-beta)*base; mc1=mc0+beta dt dudt. Net-field fiducial +1 then -1.
- geometry: F cached_system Coords off by one vs SetGeometryDefault (returns (0,t,x,y)); F cached off-grid SpacetimeMetricInverse uses Lapse(b,X1,X2,X3) -> 4-arg overload -> block 0 lapse; F modified_system time-dep MetricDerivative uses Jcon & untransformed X; F BL: SpacetimeMetricInverse g11=mu/DD same as SpacetimeMetric; Metric/MetricInverse swapped; F sph2cart GetCoordsAndDerivatives dth=r*(..) should be /r, dph; F FMKS x0 claim <= ghost face fails when x1min-ng*dx<0; F spherical_minkowski dg uses |X1| wrong for X1<0, KS too. OK: KS g*ginv=1, dg= derivative (HasDerivAt), snake, inchworm, flrw, boosted, monopole metric; Gamma from dg symmetric+compat; tetrads orthonormal; Flatten2; MGR jac.
- unit_conversions: c_code=1 not scale free; kb_code=1/energy_ (comment says 1); scale-free c stays cgs.
- history_utils: F CalcEMEnergyFlux uses b0 con instead of b_0 cov, u_0 w/o shift. Phi uses i+1 shift.
- tmunu OK: u.u=-1,b.u=0,b.b=bsq, symmetric.
- monopole base Interpolate: F last-branch c1 (3A-4A+3A) not const-preserving (ix==npoints-1; Spiner index clamps to n-2 so likely unreachable); GetVolIntersectHelper = interval overlap /drbig (thm), drbig<0 => 0 (F cart negative octant contributes 0 since GetCoordsAndDerivatives dr<0); dr^3/12+dr r^2 exact integral; weights telescoping sum to dv. LinearSolveForAlpha Thomas algorithm correct; flat -> alpha=1.
- tov: mass nondecreasing; below Pmin frozen; 2nd stage uses r not r+dr/2.
- tracers: F AdvectTracers over MeshData uses block 0 for interp (LCInterp::Do(0,..)) ; F FillTracers: ye never in pack => 0; bernoulli h uses energy density without /rho. rhs3=0 if ndim<=2.
