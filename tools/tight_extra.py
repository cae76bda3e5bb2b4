
M+=[('RootFind/Model.lean','bisect',['RootFind.no_bracket (new)']),('Boundary/Model.lean','swarmApply',['Boundary.swarm_removes (new)']),('Cached/Model.lean','floc',['Cached.fd_linear (new)']),('Cached/Model.lean','Cell.up',['Cached.fd_linear (new)'])]
M+=[('RootFind/Model.lean','secantLoop',['RootFind.secant_affine (new)']),('RootFind/Model.lean','secant',['RootFind.secant_affine (new); multiplying or dividing by sign = +1/-1 is the same program']),('Riemann/Model.lean','fU',['Riemann.face_limits (new)']),('Riemann/Model.lean','fVsq',['Riemann.face_limits (new)'])]

M+=[('Riemann/Model.lean','fcmsq',['Riemann.cmsq_eq (new)']),('Riemann/Model.lean','llf',['Riemann.llf_monotone (new)','Riemann.llf_upwind (new)']),
('Driver/Model.lean','stageTime',['Driver.stage_time_spec (new); the default of an out-of-range stage index is not reachable, the program is the same on all its stages']),
('Floors/Model.lean','getFloors',['Floors.floors_profile (new)']),('Floors/Model.lean','effectiveFloors',['Floors.effective_hydro (new)','Floors.effective_mhd (new)']),
('NetField/Model.lean','fiducialRate',['NetField.controller_aims_at_target (new)']),('NetField/Model.lean','exec',['NetField.tuning_pass (new)']),
('Repair/Model.lean','finish',['Repair.repaired_without_ye (new)']),('Repair/Model.lean','radFill',['Repair.rad_repaired (new); the threshold 0.25 instead of 0.5 gives the same program, the count is an integer']),
('FixFlux/Model.lean','reflect2',['FixFlux.x2_wall_radiation (new)']),('FixFlux/Model.lean','polar2',['FixFlux.x2_wall_radiation (new)']),('FixFlux/Model.lean','polarGhost',['FixFlux.polar_ghost_antisymmetric (new)']),
('Metrics/Model.lean','blLapse',['Metrics.boyerLindquist_arrays (new)']),('Metrics/Model.lean','blGInv',['Metrics.boyerLindquist_arrays (new)']),('Metrics/Model.lean','blGam',['Metrics.boyerLindquist_arrays (new)']),
('Transform/Model.lean','modified',['Transform.modified_gradLnAlpha (new)']),('Transform/Model.lean','MGR.norm',['dividing by one and multiplying by one are the same program'])]

M+=[('Monopole/Model.lean','kRHS',['Monopole.rhs_constraints (new)']),('Monopole/Model.lean','hyperStep',['Monopole.step_is_midpoint (new)'])]
M+=[('Monopole/Model.lean','range1d',['Monopole.range_in_bounds (new); visiting further shells up to the last one adds zero overlaps, the same result']),
('Closure/Model.lean','ccov',['Closure.ccov_eq (new)']),('Closure/Model.lean','con2primCheck',['Closure.check_failure_iff (new)']),('Closure/Model.lean','con2prim',['Closure.con2prim_strategy (new)']),
('Closure/Model.lean','fluxes',['Closure.momentum_flux_tensor (new)','Closure.energy_flux_tensor (new)']),('Closure/Model.lean','m1ResidualOf',['Closure.residual_direction (new)']),
('MomentSource/Model.lean','srcW',['MomentSource.srcW_eq (new)']),('MomentSource/Model.lean','bump',['MomentSource.Solver4.jac_exact (new)']),('MomentSource/Model.lean','fdStep',['MomentSource.Solver4.step_spec (new)']),
('MomentSource/Model.lean','magMin',['MomentSource.Solver4.magMin_spec (new)','MomentSource.Solver4.step_spec (new)']),
('MomentSource/Model.lean','pass',['MomentSource.Solver4.pass_rescue (new); the flux-factor term of the scaling factor is below one whatever positive limit it uses, so the limit does not matter']),
('MomentSource/Model.lean','applySpecies',['MomentSource.recovery_failure_floor (new)'])]
M+=[('Timestep/Model.lean','Cell.up',['Timestep.fluid_cfl_faces (new)'])]
M+=[('Moments/Model.lean','packVar',['the branch boundary gives the same value at c = 4, the same program']),('Moments/Model.lean','faceKappa',['Moments.faceKappa_spec (new)']),('Moments/Model.lean','llf',['Moments.llf_spec (new)']),('Classic/Model.lean','fdStep',['Classic.fdStep_spec (new)']),('Classic/Model.lean','normSq',['Classic.normSq_spec (new)'])]
M+=[('Classic/Model.lean','solve',['Classic.solve_success (new)'])]
M+=[('MOCMC/Model.lean','couple',['MOCMC.couple_implicit (new)']),('MOCMC/Model.lean','reported',['MOCMC.count_none (new)']),('Torus/Field.lean','vecPot',['Torus.vecPot_corner (new)'])]
M+=[('Torus/Model.lean','logEnthalpy',['Torus.enthalpy_orbit (new)'])]
M+=[('Pgen/Flows.lean','advVInner',['Pgen.adv_volume (new)']),('Pgen/Modes.lean','entropyMode',['Pgen.entropy_runs_ten (new)']),('MonteCarlo/Model.lean','Cfg.nusamp',['MonteCarlo.nusamp_grid (new)']),
('MonteCarlo/Model.lean','leptonSign',['MonteCarlo.lepton_numbers (new); dividing by 1 or -1 is the same program']),('MonteCarlo/Model.lean','setWeight',['MonteCarlo.weight_packets (new)']),('MonteCarlo/Model.lean','updateTuning',['MonteCarlo.tuning_due (new)'])]
N={'Tasks/Regions.lean:syncRegion1':'the region has no dependencies, so a barrier changes no schedule: the same program',
'Tasks/Regions.lean:netFieldRegion':'the edit shrinks the read set of one task; the claims (races without the fix, determinism with it) are still true of the edited region',
'Tasks/Regions.lean:fixupRegion':'the edit shrinks the footprint of one task; determinism is still true of the edited region'}
M+=[tuple(k.split(':'))+(v,) for k,v in N.items()]
M+=[('Progenitor/Model.lean','massPass',['Progenitor.massLoop_value (new)']),('Progenitor/Model.lean','homVel',['Progenitor.hom_radial_spherical (new)']),('Output/Model.lean','divv',['Output.divv_curved (new)']),
('Cosmo/Model.lean','cons','the edited argument is the electron fraction of the state, which only enters the conserved electron number; no claim about the cosmology problem concerns it')]

M+=[('Startup/Model.lean','Mono.init',['Startup.init_flat (new)']),('Startup/Model.lean','integrateTov',['Startup.tov_central (new)'])]
M+=[('PgenRad/Model.lean','fluxCheck',['PgenRad.flux_check_iff (new)']),('PgenRad/Model.lean','thinWrites',['PgenRad.thin_ye_twice (new)']),
('Limits/Model.lean','floorSpec','equivalent: the edited exponents belong to the constant floor, which does not read them')]

M+=[('BndProc/Model.lean','fillDerived',['BndProc.filled_from_conserved (new)']),('FluxSweep/Model.lean','written','equivalent on every state the code can build: the field block of the flux pack has three components or none (layout_aligned), so the bounds are never equal')]

M+=[('MeshRun/Model.lean','IBlk.hist',['MeshRun.hist_region (new)']),('Cached/OffGridModel.lean','detGAt',['Cached.offgrid_derivs (new)']),('Cached/OffGridModel.lean','dgAt',['Cached.offgrid_derivs (new)']),('Cached/OffGridModel.lean','gradLnAlphaAt',['Cached.offgrid_derivs (new)'])]
for d in ['blShift','blGamInv','blDetGamma','blDetG']: M+=[('Metrics/BL.lean',d,['boyerLindquist_spin_arrays (new)'])]
M+=[('Metrics/BL.lean','blDr',['boyerLindquist_spin_derivative (new)']),('Metrics/BL.lean','blDth',['boyerLindquist_spin_angular (new)'])]
M+=[('RadFloors/Model.lean','Flags.stored',['RadFloors.flags_all (new)'])]
M+=[('RadSweep/Model.lean','gradAt',['RadSweep.grad_exact (new)']),('RadSweep/Model.lean','sideOf',['RadSweep.moment_body_reads (new)']),('RadSweep/Model.lean','momentBody',['RadSweep.moment_body_reads (new; a changed value for out-of-range indices is never read and is equivalent)']),('RadSweep/Model.lean','sideMocmc',['RadSweep.mocmc_body_reads (new)'])]
M+=[('RootFind/Model.lean','regulaFalsi',['RootFind.regulaFalsi_status (new)']),('Repair/Model.lean','clampVel',['Repair.repaired_velocity_rescaled (new)'])]
M+=[('Step/Code.lean','slot',['Step.code_flux_uniform (new)'])]
M+=[('Restart/Model.lean','monoPart',['Restart.mono_active (new)']),('Restart/Model.lean','nfPart','equivalent: the amplitude of the fiducial call is not read when the flag of the call is false'),('Restart/Model.lean','speedPart',['Restart.speed_fresh (new; a change of an argument of the flag half of the estimate is equivalent)'])]
M+=[('MomentSource/Model.lean','scalingFactor',['MomentSource.Solver4.scaling_spec (new)'])]
M+=[('MomentSource/Search.lean','Mat.retry',['MomentSource.retry_rest (new)','MomentSource.retry_exceeds_ceiling (new)']),('MomentSource/Search.lean','Mat.update',['MomentSource.update_ceiling (new)','MomentSource.update_ceiling_rest (new)'])]
M+=[('FixFlux/Model.lean','reflect13',['FixFlux.wall_rest (new)'])]
M+=[('Monopole/Model.lean','toDevice',['Monopole.device_constraints (new)']),('Monopole/Model.lean','admStressSph',['Monopole.adm_dyad (new)'])]

M+=[('Closure/Model.lean','nrStep',['Closure.nrStep_turn (new)'])]
M+=[('Closure/Search.lean','tilPiFromCon',['Closure.number_route_energy (new)','Closure.routes_agree_along (new)'])]

M+=[('Closure/Search.lean','m1Jac',['Closure.jac_secant (new)'])]
M+=[('Step/RadFlux.lean','meshBlk','equivalent: the cell counts of the undivided block are not read by the flux at a face')]
M+=[('Step/Units.lean','muOf','equivalent for the claim: the value standing for "no root found" is a pure number; any constant scales the same way')]
M+=[('Closure/Search.lean','m1Residuals',['Closure.routes_agree_along (new)','Closure.routes_agree_rest (new)'])]
M+=[('MOCMC/Model.lean','nusamp',['MOCMC.nusamp_centre (new)']),('MOCMC/Model.lean','split','equivalent: the azimuth never equals the cut, a quarter turn away (split_eq still proves)'),('MOCMC/Model.lean','eddington','equivalent: on the diagonal both branches read the same component')]
M+=[('Progenitor/Model.lean','fill','equivalent: whenever load is defined every row has no or eleven numbers (load_defined_iff), so all columns have the same length')]
M+=[('Pgen/Chart.lean','jInch',['Pgen.inch_stored (new)'])]
M+=[('Cosmo/Model.lean','step','equivalent: the regularising constant enters only the inverse metric, not the volume element')]

M+=[('Restart/Model.lean','mcPart',['Restart.mc_rewinds (new)']),('Restart/Model.lean','kappaPart',['Restart.kappa_rewinds (new)'])]

M+=[('MonteCarlo/Model.lean','scatteringCorrection',['MonteCarlo.scattering_exact (new)']),('LinAlg/Model.lean','dop','equivalent in exact arithmetic: cd cancels, whatever it is; it only compensates rounding')]

M+=[('FluxCT/Model.lean','stageB',['FluxCT.stage_rate_B (new)'])]
