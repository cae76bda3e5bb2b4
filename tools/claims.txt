C01|proved|plm_no_overshoot,plm_line_no_overshoot|
C02|proved|recon_preserves_constants|
C03|proved|recon_exact_on_affine|
C04|proved|recon_mirror|
C05|partial|weno_blend_of_convex_partial,weno_blend_exceeds_one|The code's blend factor can exceed one, so the stated convexity is false of the code (witness proved); proved: the result is the blend of the linear value and a genuine convex combination.
C06|proved|mp5_clamps,mp5MP_spec,mp5Bounds_spec|
C07|proved|plm_affine_equivariant,mp5_not_scale_equivariant|MP5 is not scale equivariant because of its fixed epsilon (negation also proved).
C08|partial|bisect_in_interval,regulaFalsi_in_interval,itp_in_interval_partial,itp_leaves_interval,secant_leaves_interval,secant_undef_iff,secant_affine|Full for bisect and regula_falsi; itp only away from a root at the bracket's left end (negation proved otherwise); secant can leave the interval (negation proved).
C09|partial|regulaFalsi_status,regulaFalsi_success_near_root,bisect_success_near_root_partial,itp_success_near_root_partial,bisect_loses_left_root,itp_loses_left_root,regulaFalsi_nan_success,regulaFalsi_nan_only_if|Full for regula_falsi's numeric returns; bisect and itp require a nonzero value at the left end (negations proved).
C10|proved|iterations_le_cap,bisect_converges,itp_worst_case,converged_on_last_iteration_fails,exhausted_object_always_fails,no_bracket|
C55|partial|ratio_denominator_nonzero,ratio_bounded,ratio_approximates,ratio_sign,sgn_spec,makePositive_spec,makeBounded_spec_partial,makeBounded_escapes|make_bounded can return values outside its range for narrow intervals (negation proved).
C11|partial|det3_eq_det,det4_eq_det,inverse3_symmetric_partial,inverse3_nonsymmetric_wrong,solve2_solves,inverse4_is_inverse|The 3x3 inverse is correct for symmetric matrices only: its determinant expansion uses transposed entries (negation proved for a nonsymmetric matrix). Everything else is full strength.
C12|proved|index_in_range,index_single_point,weights_sum,weight_bounds,interp_constants,do1D_linear,interp_product,interp_linear,do3D_range,pcWeight_spec,interp_dims|
C13|proved|lorentz_ge_one,four_velocity_norm,four_velocity_unit,four_velocity_components|
C14|proved|magnetic_orthogonal,tmunu_symm,tmunu_mixed,tmunu_energy_and_trace,magneticFieldSquared_eq|
C15|proved|p2c_projections,p2c_valencia_energy,p2c_density_bound|
C16|proved|llf_consistent,hll_consistent,hll_no_signal,hll_upwind,flux_mirror,llf_speed_bounds,llf_monotone,llf_upwind|
C56|proved|char_speeds_light_cone,Riemann.cmsq_bounds,cmsq_eq|
C57|partial|flux_conserved_agree,flux_conserved_covariant_partial,flux_physical,flux_induction_antisymmetric|Full in the Valencia formulation; in the covariant formulation the energy slot is off by (alpha-1) b^0 b_0 (exact defect proved).
C17|proved|divB_preserved_2D,divB_preserved_3D,ct_local_2D,ct_local_3D,ct_uniform_2D,ct_uniform_3D|Uniform Cartesian mesh without refinement (flux correction) and away from physical boundaries, as the diagnostic assumes.
C18|proved|divB_run_2D,divB_run_3D|
C19|proved|total_fluxDiv,closed_box_rate,closed_box_run,open_box_rate,open_box_run|Uniform Cartesian block; geometric source terms not included.
C20|proved|outflow_mass,wall_zero,wall_rest,interior_faces_untouched,reflect_x1_leaves_transverse,x2_wall_radiation,polar_ghost_antisymmetric|The X1/X3 reflecting fix zeroes only mass, energy and radiation energy (transverse momentum left: witness).
C58|partial|divB_driver_partial,divB_driver_pole_broken|True away from polar boundaries; at the first node off a pole the driver's order breaks it (witness).
C27|partial|step_status_partial,step_status_wrong,failed_stage_reported_complete,stages_stop_at_failure|The stated property is false of the code (status overwritten): negation proved, and the exact behaviour.
C28|proved|chosen_dt_bounds,chosen_dt_exact,run_never_passes_tlim,run_progress,run_reaches_tlim,dt_init_caps_every_step|
C29|proved|rk_stage_convex,rk_constant,rk_exact,rk_vl2_wrong,stage_times,run_invariant,stage_rate_B,stage_time_spec|Integrator coefficients come from Parthenon (outside the repository); vl2 and rk3 stage times disagree (proved).
C59|partial|schedule_independent_partial,source_lost_in_legal_schedule,legal_cases|False for variables with geometric sources: update does not depend on add_rhs (witness schedule).
C60|proved|monopole_runs,monopole_never|The code runs n+1 times where the documentation says n; the exact count is proved.
C61|proved|c2p_recovers_state,c2p_no_field,regulariser_matters|Real arithmetic with the regulariser SMALL of ratios set to zero and that of make_positive (EPS) arbitrary up to the energy density of the state; uniqueness of the root (EOS dependent) is not claimed.
C62|proved|residual_bracketed,residual_continuousOn,root_exists,findMu_safe,findMu_accurate,prep_scalars|
C63|partial|output_bounds,velocity_norm,gamma_ceiling_partial,gamma_ceiling_violated,status_ignores_convergence,unwrap_cons|Density and energy bounds hold for every state; the Lorentz factor ceiling does not (negation proved), and the status ignores convergence.
C21|partial|floors_ge_eos,floors_position_only,floors_expX1RhoU_reads_output,deficits_spec,unchanged_within_bounds,floors_enforced_at_rest_partial,floors_scaled_partial,specific_floor_not_enforced,failed_inversion_below_floor,injection_changes_ye,mhd_limits,floors_profile,effective_hydro,effective_mhd|The full claim is false of the code (witness theorems); the enforced part is proved for cells at rest and for the non-moving injection.
C22|partial|rescaled_lorentz,ceiling_respected_iff_partial,ceiling_violated,ceiling_consistent,ceiling_v,face_limits|The rescale factor is wrong: exact Lorentz factor after rescaling, an iff for when the ceiling holds, and a violating witness.
C23|partial|repaired_velocity_rescaled,average_is_mean,average_in_range,repair_order_independent,repair_schedules_agree_partial,repaired_from_neighbours,repaired_fallback,rad_repair_order_independent,xi_ceiling,src_ghosts_unused,nan_neighbour_poisons,src_repair_exceeds_ceiling,rad_repaired,repaired_without_ye|Proved in real arithmetic for every mask, field, schedule and repeat; with a NaN in a failed neighbour the zero weight does not protect (proved), and the source repair omits the flux ceiling (proved).
C24|partial|increase_limited,first_rate,update_gated,next_update_lattice,tuning_restores_partial,tuning_counts,modification_divfree,modification_undone,decrease_breaks_clamp,decrease_minmax,decrease_not_limited,leaves_target,trial_field_left_behind,controller_aims_at_target,tuning_pass|A decrease calls clamp with lo>hi; the controller leaves its target; with two partitions the trial field can be left behind (all proved).
C54|partial|robust_flags_partial,robust_no_failure,classic_flags_reversed,classic_wipes_good_block,classic_keeps_failed|True for the robust inverter, reversed for the classic one.
C64|partial|Repair.purge_spec_partial,purge_misses_last|The last active slot is never examined.
C25|partial|source_interior,fill_order_independent,fill_spec,fill_conserved,fill_idempotent,fills_commute,reflect_parity,polar_parity,polar_flux_wrong_parity,swarm_faces_partial,swarm_inner_x2_wrong,swarm_removes|Fluid fills proved for all blocks, sides, orders; the polar fill does not flip the radiation flux and the inner X2 particle outflow is wired to X1 (both proved).
C26|partial|inflow_stopped,ucon1_is_four_velocity,inflow_succeeds_partial,inflow_check_not_finite,rad_inflow_stopped|Holds whenever the corrected speed is subluminal; otherwise the result is not finite (witness).
C30|proved|connection_symm,connection_metric,connection_unique,connection_contract,connection_zero,metricGradientFD_symm,metricGradientFD_quadratic,gradLnAlphaFD_linear,fd_const,fd_time,fd_time_wrong|Also: the finite-difference gradient is exact on quadratics, and its time component is zero even for a time-dependent metric (witness).
C31|proved|flatten2_symm,flatten2_formula,flatten2_lt,symSize_eq,flatten2_inj,flatten2_onto|For every dimension.
C32|partial|cached_scalars,cached_metric4_partial,cached_metric3,cached_gamInv,cached_derivs,cached_derivs_fd,cached_connection,cached_metric4_inverse,cached_axisymmetric,cached_coords_shifted,cached_coords_wrong,fd_linear|Every quantity but the coordinates, which are read one component off (proved with a witness). Off-grid readers: C114.
C33|partial|Metrics.inverse_partial,choice_good,minkowski_good,boosted_good,sphMinkowski_good,snake_good,inchworm_good,flrw_good,kerrSchild_good,boyerLindquist_metric,boyerLindquist_inverse_wrong|Seven systems at every regular point; Boyer-Lindquist's inverse is not an inverse (witness).
C34|partial|Metrics.assembles_partial,minkowski_good,boosted_good,sphMinkowski_good,snake_good,inchworm_good,flrw_good,kerrSchild_good,kerrSchild_lapse_range,boyerLindquist_metric3_swapped,boyerLindquist_lapse_reciprocal,boyerLindquist_arrays,boyerLindquist_detGamma_reciprocal,boyerLindquist_gamInv_swapped,boyerLindquist_spin_arrays,kerrInv_inverse|Boyer-Lindquist returns a reciprocal lapse and swapped 3-metric (witnesses).
C35|partial|Metrics.derivatives_partial,ex_choice,minkowski_good,boosted_good,sphMinkowski_good,sphMinkowski_deriv_negative,snake_good,inchworm_good,flrw_good,kerrSchild_good,kerrSchild_deriv_negative,boyerLindquist_derivative_of_inverse,boyerLindquist_derivative_wrong,boyerLindquist_derivative_schwarzschild,ks_deriv_r,ks_deriv_th,boyerLindquist_spin_derivative,boyerLindquist_spin_angular,boyerLindquist_angular_wrong|True derivatives at positive radius; at negative radius (ghost zones) the sign is wrong (witness). Boyer-Lindquist returns the derivatives of the inverse metric.
C36|partial|modified_algebraic_partial,modified_contraction,metricGradientFD_tendsto,modified_deriv_tendsto,modified_static_time,modified_time_wrong,scaling_inverse,ex_modified,modified_gradLnAlpha|Algebraic tensor law for every invertible Jacobian pair and limits of the finite-difference derivatives; the time component for time-dependent metrics is wrong (witness modified_time_wrong).
C37|partial|mgr_jacobians_inverse_partial,hexp_deriv,mgr_dr,mgr_dth,mgr_poles,mgr_theta_monotone,poleFix_spec,fmks_consistent,blToKs_isometry,blToFmks_isometry,sphCoords_invert,sph_jacobians_inverse,sph_jcon_deriv,sph_jcov_deriv,sphDerivs_relation,sphDerivs_wrong,boosted_pullback|Jacobians inverse and equal to the derivatives of the maps at regular points; the helper GetCoordsAndDerivatives has wrong powers of r (witness sphDerivs_wrong).
C38|partial|orthonormalize_orthonormal,tetrad_orthonormal_partial,frame_round_trip,tetrad_round_trip,tetrad_comoving,trial_degenerate,ex_tetrad|Proved for the default trial vectors; a user-supplied trial vector can make the basis degenerate (witness trial_degenerate).
C41|partial|volIntersect_eq,volIntersect_range,volIntersect_sum_partial,range_complete,deposit_conserves,sphVolume_exact,uniform_matter,wide_shell_weight_zero,range_in_bounds|Holds when the shell is not wider than the cell, the case the algorithm is written for; a wider shell gets weight zero (witness wide_shell_weight_zero).
C42|proved|thomas_solves,solves_unique,dominant_pivots,lapse_equation,rows_dominant,lapse_monotone,vacuum_lapse,ex_star,ex_star_lapse|Pivots are shown nonzero for matter with rho+S >= 0 and resolved gradients.
C43|partial|adm_dyad,vacuum_hypersurface,vacuum_lapse,vacuum_gradients_partial,vacuum_not_static_near_center,static_no_time_derivative,shift_consistent,first_step_flat,timestep_limits,interpolate_node,interpolate_quadratic,interpolate_last_wrong,adm_sources,adm_trace_invariant,monopoleSph_algebraic,monopoleSph_good,monopoleSph_flat,misner_sharp|Flat hypersurface, lapse, shift, metric; inside r <= 1e-2 the time derivatives are not zero in vacuum (witness vacuum_not_static_near_center).
C39|proved|getters_inverse,units_consistent,units_input,code_constants,kb_code,scaleFree_constants|Also found: Boltzmann's constant in code units is 1/energy unit, not one as the comment says, and in scale-free mode the code constants stay in CGS.
C40|proved|minEnthalpy_spec,minEnthalpy_min,minEnthalpy_cap,minEnthalpy_gt_one,sampleRho_spec,rhoBounds_order,rhoBounds_cross,enthalpy_spec|Every sample count and enthalpy function.
C44|proved|mass_monotone,pressure_monotone,step_frozen,frozen_outside,first_step,matter_spec,polytrope_laws,polytrope_eosOk,enthalpy_deriv,hydrostatic,mass_equation,polytropeK_entropy,step_midpoint|Every grid and every EOS meeting the monotonicity hypotheses (met by the polytrope).
C45|partial|rhs_coordVel,rhs_lowdim,rhs_timelike,advect_inactive,advect_uniform_partial,advect_midpoint,advect_own_block,Tracers.flat_valid,advect_block_zero,bernoulli_wrong,ye_never_stored|Holds for tracers of the first block of a pack; tracers of other blocks read block zero (witness advect_block_zero).
C46|partial|con2prim_prim2con_raw,con2prim_prim2con_number,eddington_round_trip_partial,eddington_inverse,round_trip_fails_above_ceiling,radT_frame,prim2con_tensor,pressure_trace,pressure_lower,prim2con_energy_wrong,con2prim_repair,number_flux_wrong,ccov_eq,momentum_flux_tensor,energy_flux_tensor,check_success_iff,check_failure_iff,con2prim_strategy|Holds for every velocity with v^2 <= 0.9999 (round trip both ways, and the moments are the projections of the stress tensor); above the ceiling the Lorentz factor is capped but the velocity is not, and the round trip fails (witness). With a nonzero pressure tensor the energy is not T(n,n) (witness).
C47|partial|source_update_solves_partial,source_update_unique,source_update_zero,source_update_equilibrium,source_update_wrong,ex_source|Holds whenever the pressure tensor has no component along the velocity (always with the Eddington closure); otherwise the second row of the system is inconsistent with the moments (witness).
C48|partial|eddFactor_limits,eddFactor_le_one,eddFactor_range_partial,eddFactor_below_third,tilPi_traceless,tilPi_diffusive,flux_factor_range,closure_traceless,hdot_dot4,basis_orthonormal,trial_direction_unit,solve_closure_range,solve_closure_angle_fixed,solve_closure_angle_wrong,nrStep_turn,residual_zero_iff,residual_direction|Limits hold; between 0 and 1/2 the factor is below 1/3 (proved for every such flux factor), and the angular equation is never solved (witness).
C49|partial|exchange_conserves,no_fluid_update,exchange_failure,oned_failure_leaves_increments,oned_ignore_all,oned_ignore_all_conserves,recovery_failure,fourd_success,rescale_never,scaling_spec,jNew_backward_euler,tResidual_zero_iff,tResidual_strictMono,srcTerm_partial,srcTerm_metric_wrong,srcTerm_no_scattering,magnetic_field_dropped,ex_fourd,ex_fourd_total,srcW_eq,jac_exact,step_spec,pass_affine,pass_rescue,recovery_failure_floor|Exact when the solver and the primitive recovery succeed; when the solver fails the fluid is still changed (exchange_failure), and a failed recovery overwrites the cell.
C50|proved|dir_unit,quad_exact,quad_trace,quad_additive,quad_partition,quad_sphere|Stronger than stated: every weight is the exact iterated integral of n_i n_j over the cell.
C51|proved|push_time,pushes_time,pushes_flat,pushes_flat_split,pushes_killing,kSource_hamilton,push_heun_partial,push_second_stage_wrong,ex_pushes|Also: a symmetry conserves its wave-vector component exactly; the second stage evaluates the force at the old position, so the method is not Heun in curved space (witness).
C52|proved|tau_mono,tau_gt_hundred,gain_latch,gain_stays,dYe_bounds,dYe_fit,ye_update,ye_history,heat_cool,bulb_force,bulb_at_rest,species_force,lepton_sign,cooling_total,ex_ye,yeFit_spec,ye_history_fit,heat_cool_laws,bulb_applied|Also: the four-force is pure heating or cooling in the fluid frame, and the electron fraction is bounded below through any history.
C53|partial|horizon_unique,horizon_none,column_value,column_linear,column_bound_partial,column_blocks,column_overshoot,mdot_surface,pillbox_lowdim,mdot_cell,massFlux_eq,magnetization_eq,emMomentumFlux_eq,emEnergyFlux_error,emEnergyFlux_wrong,gain_block_zero,gain_conserved|Exactly one cell is selected, for any block decomposition, and linear profiles are exact; the interpolated value may overshoot the values used (witness), and the jet energy flux is wrong by 2 b^1 b^0 (proved).
C65|proved|dN_energy,roundNs_close,roundNs_mean,packet_energy,mean_emitted_energy,ex_cfg|
C66|proved|packet_slots,ex_slots|
C67|proved|max_pos_of_dN,draw_ok,sampleLnu_ok,dN_eq_integral,nusamp_grid,spectrum_energy,ex_cfg|The density of an accepted candidate is prob divided by its integral; that elementary fact about rejection sampling with independent draws is used in the reading of spectrum_energy, not formalised.
C68|proved|emitted_packet,direction_uniform,ex_emit|
C69|partial|step_momentum,run_momentum,run_leptons_partial,lepton_defect,lepton_numbers,mesh_leptons_partial,MonteCarlo.ex_run|Four-momentum proved for all histories; lepton number only for Ucon[0]=1, with the exact defect otherwise. Many blocks, communication and outflow: C163.
C70|proved|transport_perm,transport_eq|Exact arithmetic: floating-point atomics are not associative.
C71|proved|absorbs_iff,absorption_probability,no_absorption|
C72|partial|correction_bounds,correction_direction,tuning_history,tuning_squared,tuning_due,weight_packets,scattering_unbounded,scattering_exact,allDone_partial,allDone_wrong|Emission bounds proved; the scattering correction is unbounded and the completion test only right with one block per rank.
C73|proved|momentum_source_eq,momentum_source_symmetry,energy_source_covariant,energy_source_valencia,energy_source_static,sources_flat,ex_sources|robust::ratio regulariser taken as 0.
C74|proved|conT_symm,conT_projections,rad_eq_fluid,rad_momentum_symmetry,rad_energy_source|
C75|proved|Timestep.cmsq_bounds,signalSpeed_eq,signal_light,face_speed,fluid_cfl,fluid_dt_sharp,fluid_dt_lower,fluid_dt_perm,mesh_cfl,first_call,ex_fluid_dt,fluid_cfl_faces|On the very first call only cell speeds are available; shown equal to using zero face speeds.
C76|partial|radSpeed_eq,peclet_bounds,peclet_anti,radSig_bounds,rad_cfl_partial,rad_cfl_not_summed,rad_speed_safe_partial,rad_speed_wrong|Per-direction bound proved; the sum over directions is not bounded by the CFL number and W v is used in place of v (both with witnesses).
C77|partial|flux_decomposition,flux_degenerate,thin_physical,physEnergy_eq,physMomentum_eq,flux_consistent,Moments.sig_bounds,Moments.face_velocity,face_ceiling_wrong,Moments.face_bounds_partial,diffusion_flux,opaque_limit,ex_diffusion,faceKappa_spec,llf_spec|All proved except the velocity ceiling, which the code does not enforce (witness face_ceiling_wrong).
C78|partial|prim_con_prim,prim_con_prim_eddington,con_prim_consistent,flag_iff,cell_flag_single,cell_flag_last,cell_flag_partial,cell_flag_wrong,ex_c2p|Round trips proved; with several species the shared failure flag keeps only the species processed last (cell_flag_wrong).
C79|proved|recon_slots,recon_slots_injective,recon_slots_range,recon_vars,face_grad_exact,face_grad_collapsed,ex_slot|Index convention of Parthenon's FlatIdx and pack order trusted.
C80|proved|device_constraints,rhs_constraints,step_is_midpoint|Both stages of a step are evaluated at the radius of its start; stated as such.
C81|partial|setup_p2c,exact_root_partial,finalize_exact,ye_ignored,guess_spec,fast_safe,Classic.signal_bounded|Root property proved for EOSs without Ye dependence only: the code evaluates the residual with lambda = 0 (ye_ignored); the initial guess misreads the velocity (guess_spec).
C82|proved|Classic.backtrack_range,backtrack_decreases,loop_range,solve_range,success_small_step,root_is_fixed,fdStep_spec,normSq_spec,newton_affine,ex_newton_affine,solve_success,solve_residual|Success bounds the last correction, not the residual; stated as such.
C83|partial|cells_sum,solid_angle_total,weights_total,cells_tile_partial,found_of_generic,negative_cell,pole_sample_stale,eddington_traceless,eddington_isotropic,eddington_few,eddington_realisable,doppler_exact,nusamp_centre,rest_intensity,cround_neg,ex_cells|Totals proved for all located samples; pointwise tiling needs the azimuthal cut to stay inside the cell, which the code does not ensure (negative_cell); samples on edges keep stale cells (pole_sample_stale).
C84|partial|couple_conserves_partial,couple_implicit,couple_all_conserves,angle_average_isotropic,mean_opacity_bounds,single_bin_transparent,sample_nonneg,sample_between,rest_equilibrium_stationary,absorption_ignored,moving_equilibrium_changed|Conservation and rest-frame behaviour proved; the code ignores absorption in the samples and Doppler factors in the sources (witnesses).
C85|partial|sample_slots,sample_in_zone,sample_null,sample_polar,init_intensity,boundary_reflects,count_single_partial,count_last_partition,count_none|Counting is right for a single partition only (count_last_partition).
C86|proved|fmPot_deriv,enthalpy_orbit,fm_velocity,fm_unique,uconNorm_unique,uconNorm_unit,torus_velocity,torus_euler_r,torus_euler_th,lnh_edge,lnh_mirror,kepler_geodesic,enthalpy_stationary,gas_state,density_normalised,hydrostatic_r,hydrostatic_th,primVel_fourVelocity,torus_code_velocity,ex_orbit,ex_orbit_spin|Ideal-gas branch. For spins of either sign outside the ergosphere, and inside it for prograde rotation.
C87|proved|field_divergence_free,field_confined,vecPot_corner,beta_pmax_target,beta_min_target,scaled_field,ex_beta|Beta uses the gas pressure only: the total pressure computed by the code is not used.
C88|partial|zones_inside,ex_zones,floored_bounds,cellAverage_bounds,gasRad_bracket,zeroH_partial,tracers_single_block,tracers_overcount,tracer_ids_unique,tracer_ids_collide,tracer_mass_total,tracer_mass_stale|Tracer counts are right for one block per rank only (tracers_overcount); masses use stale counts (tracer_mass_stale); two flux components are not reset (zeroH_partial).
C89|partial|bisect_spec,bisect_abort,bisect_left_root,bondi_mass_flux,bondi_gas,bondi_sonic,Tfunc_deriv,sonic_iff,guess_between,bracket_inner,bracket_outer,bondi_temp_partial,bondi_temp_sonic_defect,bondi_temp_far_abort,shifted_x1,bondi_velocity,bondi_steady,bondi_code_velocity|Proved for 2 <= r <= 20 rs except r = rs, where the bisection discards the root at its left end (bondi_temp_sonic_defect); far outside the run aborts (bondi_temp_far_abort). Non-rotating hole only: the constants assume spin zero.
C90|partial|inch_stored,stored_reproduces,flat_tU,jSnake_represents,jBoost_represents,jSnake_isometry,jBoost_isometry,snake_state_partial,boost_state,snake_stored,inch_state_wrong,inch_velocity|Holds for the boosted and snake charts; in the inchworm chart the Jacobian is not the derivative of the chart (inch_state_wrong).
C91|partial|stress_deriv,mass_deriv,faraday_deriv,sound1_eigenmode,sound2_eigenmode,slow_eigenmode,alfven_eigenmode,fast_eigenmode,entropy_eigenmode,entropy_runs_ten,sound1_needs_four_thirds,initial_is_wave_partial,snake_initial_point,snake_period,boost_period,boost_drift,rotor_tlim,rotor_tlim_blocks|Eigenmodes proved to 1e-11; the adiabatic index is not checked, the final time ignores drift (boost_drift), rotor divides it once per block (rotor_tlim).
C92|partial|boostStore_recovers_partial,rotorU_eq,shockStore_velocity,shockStore_slow,shockStore_subluminal|Proved for Kelvin-Helmholtz, advection and rotor; false for the shock tube (shockStore_slow).
C93|proved|hom_solves,bm_is_homologous,bm_solves,bm_lorentz|
C94|partial|energyFromRhoP_near,energyFromRhoP_ideal,energyFromRhoP_abort,friedmannRow_eq,friedmann_rest_iff_partial,sedov_energy,sedov_none,adv_ids_distinct,adv_total,adv_volume,adv_one_dim,adv_id_collision|Friedmann relies on arrays already being zero (friedmann_rest_iff); one-dimensional tracer counts are doubled (adv_one_dim).
C95|proved|Body.comm,race_free_deterministic,Region.deterministic_of_check,regions_complete,sync1_deterministic,flux_deterministic,fixup_deterministic,netField_deterministic,end_deterministic,cooling_deterministic|The footprints of the tasks are read off the code and stated in Tasks/Regions.lean; the scheduler contract of Parthenon is an assumption.
C96|partial|update_race,diagnostic_race,mocmc_race,netField_race,monopole_race,end_race,bulb_race,mc_race,update_deterministic_fixed,mocmc_deterministic_fixed,netField_deterministic_fixed,monopole_deterministic_fixed,end_deterministic_fixed,bulb_deterministic_fixed,mc_deterministic_fixed,single_partition_deterministic_partial|The property is false of the code in these regions; each race is shown by two schedules, and the repaired graphs are proved deterministic.
C97|proved|step_is_rk,step_is_rkStep|
C98|partial|phi_step,phi_step_single_partial,phi_loses_base,phi_rk2_overshoots,phi_added_flux,ex_phi_quarter|Holds for one stage (phi_step_single); false for more (phi_rk2_overshoots, phi_added_flux).
C99|partial|single_partition_deposit_partial,only_last_partition,deposit_correct_iff|Holds for one partition; false otherwise (only_last_partition).
C100|partial|Tasks.purge_spec_partial,purge_leaves_last,purge_blocks,tracer_not_purged,ex_purge|The last active slot and all blocks beyond the number of partitions are missed.
C101|partial|load_spec_partial,load_defined_iff,ex_load,ragged_undefined,calculatemass_undefined,massLoop_value|Well-formed files proved; malformed files are read out of bounds (load_defined_iff), and the mass function always is.
C102|partial|lookup_correct_iff_partial,lookup_between,ex_stretched|Exact condition: evenly spaced radii.
C103|partial|hom_radial_partial,hom_radial_spherical,hom_speed,hom_speed_slow,ex_hom|Direction proved; the speed is wrong (hom_speed_slow).
C104|partial|scattering_units_partial,spectral_units,grayS_eq,absorption_double,absorption_gray,absorption_correct_iff,scale_free_opacity,ex_absorption|Mean absorption converts units twice (absorption_correct_iff). singularity-opac by contract.
C105|partial|active_spec,opacity_species_iff_partial,ex_species|Exact condition on the build options.
C106|partial|horizon_radius,horizon_coordinate_partial,xh_range,Z1_cubic,Z1_range,textbook_isco,isco_mono,stored_isco_too_small,schwarzschild_isco,x0_below_ghosts,x0_le_inner,theta_monotone_everywhere,ex_x0_above,ex_x0_ok|Horizon proved; stored ISCO too small for every spin (stored_isco_too_small); x0 by exact iff.
C107|partial|tmunu_rest,cons_rest,sources_rest,adiabatic_law_partial,ex_adiabatic,rkStep_zero,run_density,dilution_iff,dilution_by_integrator|Source terms proved; the dilution law is exact only with the two-stage integrator.
C108|partial|cs_spec_partial,cs_subluminal,divv_flat,divv_curved,divv_one_dim,divv_depends_on_junk,divv_flrw,divv_uniform,divv_uniform_wrong,locWeight_integral,sigma_zero_accepted|Sound speed proved; deviations of the divergence and the weight proved with witnesses.
C109|proved|region_volume,box_cells,regions_disjoint,block_integral,list_integral,historySum_flat,history_total,history_decomposition,history_max_ge,history_max_attained,HistorySums.accepted_iff,accepted_absent,ex_tiles,ex_total|For any tiling of the domain.
C110|proved|init_flat,tov_central,check_iff,check_error,ex_check,solve_spec,startup_tov,startup_lapse_equation,startup_progenitor,homologous_spec,startup_off,lookup_mk,generator_iff,main_fresh,main_restart,names_ok|Deviations (progenitor generator sees flat space, restart accepts any name) stated as theorems.
C111|partial|run_lapse,last_device_partial,last_host,last_host_iff,lapse_build_independent,warns_iff,false_alarm|Previous lapse wrong on host builds after every odd call.
C112|partial|optical_depth,flux_check_iff,ex_units,PgenRad.W_sq,pulse_velocity_partial,pulse_lorentz,pulse_centre,pulse_diffusion,boost_at_rest,plain_range,tp_pos_iff,boost_unchecked,flux_unrealisable,ex_flux|Realisability and positive comoving time are not ensured by the code.
C113|partial|store_aborts,thin_ye_twice,store_one,store_iff,sphere_spherical_partial,sphere_cartesian,thin_units,thin_starts,thin_writes,lepton_odd,lepton_mean,ex_lepton,report_bound,report_attained|Abort with two blocks per rank and half-space sphere proved.
C114|partial|do1D_congr,do1D_at_centre,do1D_centre_bound,do1D_affine,offgrid_local,offgrid_affine_partial,offgrid_centre,offgrid_uniform,offgrid_symmetric,offgrid_torsion_free,offgrid_system,stored_derivs,offgrid_derivs,offgrid_inverse_block_zero,offgrid_inverse_lapse,offgrid_inverse_iff,offgrid_coords_shifted,ex_inverse_wrong|Every reader but the inverse 4-metric (lapse of block 0) and the coordinates (shifted), both with witnesses.
C115|proved|getX_spec,zone_ends,zone_lt,zone_unique,centre_inside,neighbour_positions,neighbour_geometry,refined_faces,mesh_agrees,mesh_geometry,GridLookup.aborts,default_time,ex_below,ex_face|Every extent, index and location.
C116|partial|maximal_slicing_preserved,metric_rates_partial,curvature_rate_defect,curvature_rate_iff,shift_rate,lapse_rate_formula,slice_derivs,slice_vacuum,slice_static,slice_code_curvature,slice_code_lapse|dK/dt is off by -4 alpha K^2 and dalpha/dt is nonzero in a static spacetime; both proved.
C117|partial|Limits.flags_spec,Limits.accepted_iff,init_parts,floors_asked_partial,power_law_floor,power_law_sie_lost,energy_floor,floors_respect_eos,off_no_effect,ceilings_asked,strategies_asked,density_floor_pos,default_floors_zero,phi_asked,eos_accepted_iff,table_limits,table_limits_scale_free,ideal_limits,ideal_limits_unchecked,ex_accepted|Power-law floors ignore the specific-energy keys; scale-free table energies and crossed limits: proved deviations.
C118|partial|key_injective,registered_spec,accepts_names,flux_matches_ghosts_iff_partial,flux_always_outflow,pole_check_bypassed,pole_check_iff,reflecting_wall_leaks,samples_periodic,samples_outflow_flux|Two input sections are read and never compared; exact condition and consequences proved.
C119|partial|overSides_out,overSides_in,convert_outside,convert_primitive_partial,convert_conserved,radiation_check_lost,fluid_check_kept,convert_aborts_iff,filled_from_conserved,ex_radiation_inflow|Radiation inflow check lost with conserved boundary variables.
C120|proved|FluxSweep.recon_left,FluxSweep.recon_right,FluxSweep.fluxes_fresh,lowest_face_stale,skip_keeps,rate_spec,selectMethod_spec,kernel_congr,stencil_inside,enough_radius,FluxSweep.rate_decomposition,FluxSweep.rate_two_blocks,linear_one_ghost,thin_covers,ex_config,ct_fresh_2D,ct_fresh_3D,layout_aligned,slots_written,flux_periodic|linear reconstruction with one ghost cell reads outside the block (linear_one_ghost); excluded by the hypothesis Enough.
C121|partial|relErr_detects_partial,relErr_blind,relErr_self,report_max,report_zero_iff,report_ignores,check_blind_witness,check_sees|Exact: the error measure sees only pairs with positive sum (relErr_blind, check_blind_witness).
C122|partial|stats_lines,stats_complete_partial,stats_total,stats_perm,stats_two_ranks,ex_stats|Right on one rank; several ranks overwrite the file (stats_two_ranks).
C123|proved|boundary_iff,fix_decomposition,rate_whole,total_rate,side_flux,closed_rate,periodic_rate,MeshRun.run_total,closed_run,periodic_run,ends_open,open_rate,open_run,column_total,hist_region,history_constant,history_decreasing,ex_tiled|One refinement level; Parthenon's flux divergence and communication by contract.
C124|partial|MeshRun.combine_scale,faceFluxes_ye,recover_exact,recover_small,MeshRun.kernel_const,stage_flux_ye,stage_uniform,composition_uniform_partial,outflow_composition,floor_composition,ex_per|Proved on periodic domains with the guard constant of robust::ratio set to zero (recover_small gives its exact effect); false at outflow sides (outflow_composition) and under density floors (floor_composition).
C125|proved|component_bound,speeds_bracket,mass_nonneg,hll_weight,MeshRun.face_bounds,stage_face,faceFix_lower,faceFix_upper,fix_cell,rate_lower,stage_positive,estimate_suffices,faceSig_nonneg,step_positive,run_positive,ex_uniform,ex_consistent,MeshRun.ex_run,run_positive_gen,mass_ratio,linear_negative,ex_run_gen|The code takes its time step from the face speeds of the previous cycle; the condition for the stage itself is a hypothesis (estimate_suffices links the two when the speeds do not grow). linear_negative: cfl = 0.8 is too large for the linear reconstruction.
C126|partial|star_floors,star_symmetric_partial,radius_rotation,star_node,star_pressure,star_atmosphere,atmosphere_pressure_inconsistent,perturbation_shape,perturbation_radial_iff,perturbation_pushes,center_parity,center_slope,ex_star_cell|False as stated for the perturbation on Cartesian grids (perturbation_radial_iff, perturbation_pushes), the atmosphere pressure and ghost zones at negative radius.
C127|partial|pass_enforces_partial,pass_id,pass_idempotent,inject_amount,cap_direction,floor_sign,floor_decreasing,RadFloors.flags_spec,RadFloors.applied,not_applied,ex_pass,ex_boosted,zero_floor_divides_by_zero,no_ceiling_inconsistent,stale_without_floors,stored_pressure_below_floor,flags_all|Proved for the Eddington closure with a positive floor and a ceiling below 0.999; outside it the property is false of the code, with witnesses.
C128|partial|RadSweep.fluxes_fresh,outer_faces_stale,RadSweep.rate_decomposition,RadSweep.rate_two_blocks,grad_local,ideal_local,covers_exists,mocmc_opacity_old,mocmc_history,mocmc_sides_transparent,mocmc_decomposition_dependent,grad_exact,moment_body_reads,mocmc_body_reads,Step.sweep_near,ideal_near,grad_near|Proved for the moment methods. False for MOCMC (mocmc_sides_transparent, mocmc_decomposition_dependent).
C129|partial|speed_fresh,mono_active,saved_transparent,rewind,drv_reached,drv_transparent,drv_initial_dump,nf_before,nf_after,nf_catchup,nf_noticed,gain_transparent_iff,mc_reset,mc_rewinds,kappa_rewinds,mc_catchup,mc_noticed,rng_rewinds,rng_noticed,speed_first,speed_noticed,kappa_lost,mono_transparent,mono_reached,ex_restart|Proved for the driver (after a step), the controller before its start, the flag before it is raised, the monopole counter. False for the others, proved with exact conditions and witnesses. What Parthenon stores in a dump is a contract; swarms are not modelled.
C130|proved|Step.run_decomposition,Step.regular_decomposition,Step.run_holds,Step.step_holds,Step.stage_holds,Step.ct_global,Step.rate_global,Step.estimates_global,exists_complete,Step.regular_tiles,Step.ex_regular,Step.flat_mirror_run,Step.near_global,Step.sweep_near|Scope: the inversion is any function of position and conserved variables of the cell. The code's inversion also reads the previous root as initial guess and its failed cells are averaged over neighbours (C10, C23); refinement levels are not in this run. Radiation fluxes are (sweep_near), with the moment methods.
C131|proved|Step.run_uniform,Step.run_equilibrium,Step.advect_homogeneous|Same scope as C130.
C132|proved|Step.run_shift,refRun_shift,Step.code_homogeneous,exFlat_homogeneous,Step.ex_periodic,Step.advect_moves|Same scope as C130; code_homogeneous: the fluxes of the code in a uniform geometry qualify.
C133|proved|Step.run_dependence,Step.ref_dependence,Step.step_local,Step.stage_local,Step.gathers_inside,Step.gathers_nearest|Same scope as C130; the time steps are given (a global minimum couples all cells otherwise).
C134|proved|Step.run_mirror,Step.run_symmetric,refRun_mirror,wraps_mirror,Step.code_symmetric,Riemann.numFlux_mir,Riemann.numSpeed_mir,fluxF_mir,fluxU_mir,recon_odd,flat_mirror,exFlat_symmetric,Step.flat_mirror_run,mirror_code_run,whole_symmetric,fluidSrc_mir,codeInv_mir,c2p_mir,tmunu_mir,codeEst_symmetric,ex_mirror_cells|Same scope as C130. mirror_code_run: fluxes, constrained transport, geometric sources, inversion and time steps of the code in every mirror-symmetric geometry.
C135|partial|Step.fixRun_decomposition_partial,fixRun_holds,fixStep_holds,fixStage_holds,Step.pass_ok,Step.refPass_ok,repair_depends_on_blocks,ghost_not_repaired,ex_calm|The full statement is false of the code: repair_depends_on_blocks and ghost_not_repaired are the counterexamples. Proved: runs whose failures stay away from block sides.
C136|proved|p2c_injective,ideal_causal,stiff_not_unique,energy_strict,C2P.split,C2P.invariants|Conserved variables of two states of matter coincide only if the states do. Causality of the EOS is a hypothesis; stiff_not_unique shows it is needed.
C137|proved|root_reproduces,C2P.root_unique,root_is_state,root_matter,root_form,ex_root,regulariser_matters|Uniqueness is for roots at which no bound is active; roots with an active bound are covered by C62/C63 only.
C138|partial|guess_within_tolerance_partial,guess_matters,gC_search|The full statement is false of the code for every tolerance (guess_matters).
C139|partial|composition_bounds_partial,electrons_nonneg_partial,ye_negative,MeshRun.ex_bounds,excess_run,excess_stage|The full statement is false of the code at the default CFL number (ye_negative). Proved for four times the face-mass bound times the CFL number at most one, constant and linear reconstruction, periodic domain.
C140|proved|Step.run_total,run_total_gains,fluid_run_total,src_zero,code_flux_uniform,fluid_periodic,div_total,Step.stage_total,ex_balance,codeRad_periodic|Periodic domains on one refinement level; that the inversion leaves the variable alone is a hypothesis (no floor, no failed cell).
C141|partial|search_balance,search_finds,search_success,MomentSource.search_failure,search_exhausted,first_retry_repeats,rest_update,rest_gas_energy,moving_gas_mismatch,ex_search,update_ceiling,update_ceiling_rest,retry_rest,retry_exceeds_ceiling,resid_strictMono,resid_continuous,balance_unique_hot,balance_not_unique|Uniqueness for temperature-independent absorption, or growing absorption on the hot side (balance_unique_hot); false otherwise: two temperatures may balance (balance_not_unique). In a moving gas the update is not the one the search assumed (moving_gas_mismatch); retries after the cap are futile (search_exhausted).
C142|proved|change_run,run_change,refRun_change,whole_changed,numFlux_ren,numSpeed_ren,fluidSrc_ren,codeInv_ren,c2p_ren,tmunu_ren,codeEst_changed,codeCtrl_changed,wraps_change,ex_change_run,ex_change|change_run with s = 1, len = 1: every reconstruction method, no condition on floors. The axes permuted are active ones; flux corrections at coordinate boundaries and repair of failed cells are not part of the stage; the guess of the inversion is fixed.
C143|partial|change_run,whole_changed,kernel_units,codeInv_ren,c2p_ren,residual_ren,codeEst_changed,codeCtrl_changed,ex_change_run,mp5_limiter_off,mp5_negative,mp5_not_scale_equivariant,regulariser_matters|The full statement is false of the code (mp5_limiter_off, mp5_negative, regulariser_matters). Proved for constant and linear reconstruction, floors above the small numbers of robust.hpp in both units, robust::SMALL and the literal 1e-50 of the time step idealised to zero.
C144|partial|gas_radiation_total,run_joint_total,exchange_neutral,exchange_good,scatter_other,joint_src_zero,ex_joint,exchange_failure,recovery_failure,Step.sweep_near,codeRad_periodic,radStore_slots,ex_code_rad|Hypotheses are required only of the cells the run visits: solver and recovery succeed, inversions and floors leave energy and momentum alone. The unconditional statement is false of the code (exchange_failure, recovery_failure). Radiation fluxes are those of moments.cpp (sweep_near). The mass reset in the failure branch is not modelled.
C145|partial|prim2con_axes,con2prim_axes,fluxes_axes,update_axes,fromPrim_axes,basis_axes,fromCon_axes,fromCon_not_mirror,cellPrim2Con_axes,cellCon2Prim_axes,faceFlux_axes,sig_axes,closures_isotropic,radSources_axes,body_axes,radStore_axes,grad_mirror,grad_change,codeRad_mirror,codeRad_change,ex_rad_mirror|The M1 search from conserved moments is covariant unless an axis along which the flux vanishes is reversed (fromCon_axes); there it is not (fromCon_not_mirror). The implicit exchange with the fluid is not part of this property.
C146|proved|run_contact,stage_contact,face_contact,comb_contact,fluxU_affine,fluxF_affine,p2c_affine,ct_uniform,speeds_lt,ex_background,ex_stage,ex_contact_run|The inversion is assumed exact on the contact states (C61, C137 give this for the exact root); HLL with robust::SMALL idealised to zero.
C147|proved|rate_consistent,div_consistent,diff_deriv,flux_deriv,density_physical,state_deriv,kernel_deriv,comb_deriv,kernel_near,mc_near,plm_near,weno_near,mp5_sub_near,fluxF_diff,fluxU_diff,speeds_cont,ex_smooth,ex_mass_flux,ex_rate|HLL with robust::SMALL idealised to zero. The geometric sources are those of C26-C28; they are evaluated at the cell centre and need no limit. First order: no rate of convergence is claimed.
C148|partial|source_fixup_schedule,source_fixup_means,source_fixup_fallback,source_fixup_positive,source_fixup_consistent_partial,source_fixup_wrong_frame,source_fixup_inconsistent,source_fixup_stale_tensor,ex_source_fixup|All clauses proved except that the radiation is converted in the wrong frame above the ceiling and with the stale tensor where one is stored (both proved).
C149|partial|routes_agree_partial,routes_agree_along,routes_agree_rest,routes_disagree_across,number_route_energy,number_route_wrong,search_at_root,search_linear,basis_along,dir_along,covVPi_along,fromCon_form,jac_secant,ex_routes|Agreement proved at rest and along the motion; disagreement proved across the motion (all velocities and flux factors below one) and for the number equation.
C150|proved|grmhd_balance,grmhd_rate,density_vec,density_tens,density_mixed,density_anti,det_deriv,sqrt_det_g4,sqrt_det_deriv,exWave_smooth,exWave_solves|HLL with robust::SMALL idealised to zero; metric derivatives used by the program are assumed to tend to the true ones (finite differences do, C25). First order: no rate of convergence is claimed.
C151|partial|step_rate,stage_track,steps_track,advance_schemes,true_rate,sampled_track,inverts_deriv,src_limit,src_tendsto,stored_diff,exInv_inverts,ex_truncation|Proved for all lists of stage weights; the error vanishes for rk1, rk2 and rk3, and for vl2 it is proved not to (three halves). HLL with robust::SMALL idealised to zero. First order: no rate of convergence is claimed.
C152|partial|rad_balance,conT_radT,exchange_terms,radT_diff,ex_beam_rest,flat_radT,moving_beam_wrong|Both balance laws proved under the condition (W^2-1) v_i v_j Pi^{ij} J = 0 (Eddington closure, or gas at rest, or flux without pressure anisotropy along the motion); without it the energy law is refuted by a beam with the M1 pressure tensor in moving gas.
C153|partial|rad_rate_consistent,rad_rate,rad_flux_deriv,rad_div_consistent,blend_vanishes,thin_deriv,radllf_deriv,peclet_limit,one_sub_tanh,edd_admissible,m1_admissible,fluxDir_bound,radSources_limit,glow_at,ex_glow,ex_glow_m1,glow_transfer|Proved for states at which the reconstruction bounds are not reached and the velocity is below the cap of the closures, for the Eddington closure always and the M1 closure at flux factors strictly between zero and one. The constant robust::SMALL in the Peclet number is taken to shrink at least as fast as the cells: the program's value is fixed, tiny against any cell width used. The balance with the sources needs the condition of C152.
C154|partial|source_update_wrong,update_relaxes,update_positive,update_rate,be_solve,be_bounds,be_deviation,rad_step,ex_relax,ex_glow_step|Proved for the energy form of the energy equation, pressure tensors without component along the velocity (always for Eddington) and one stage of the time integrator. Missing: the M1 closure moving through the gas, for which the formula itself is not the backward-Euler solution (source_update_wrong). Convergence of many exchanges over a finite time is C162, inside the stages of the integrator C165.
C155|proved|Step.run_front,run_front_rate,stage_front,steps_front,stage_density,Profile.stage_tracks,Profile.start,Profile.close,harten,euler_tv,mc_limited,ex_front,ex_front_vl2,hat_profile|Proved as stated; one dimension, constant or linear reconstruction, HLL with its regularising constant zero, uniform geometry. ex_front_vl2: with the vl2 weights a top hat is found exactly inverted at time 5/3, on meshes as fine as one likes.
C156|proved|step_order,step_second_order,stage_order,stages_order,Near2.stage,Near2.central,mc_central,taylor2,bend_schemes,ex_order,wave_deriv|Proved as stated. Where the slope vanishes the limiter switches on and the claim is not made. HLL with its regularising constant zero.
C157|proved|recon_order,recon_point_order,mp5_order_everywhere,weno_near_high,Ramp.weno,Ramp.mp5,Ramp.linear,expands_avg,high_avg,high_point,ex_recon_order|Proved as stated. For WENO5-Z and the linear reconstruction nothing is claimed at extrema. Exact arithmetic.
C158|proved|step_high,step_third_order,stage_band,stage_high,stages_high,Near3.ramp,Near3.faces,Near3.stage,kernel_band,carried_any,twist_schemes,ex_high,ripple_stage,ripple_deriv|Proved as stated. For WENO5-Z the regularising constant must shrink like the square of the cell width (the code has a fixed one: then its square term of C157 remains). The band may widen by 41 per stage, hence small. HLL with its regularising constant zero.
C159|partial|limiters_good,minmod_is_mc,koren_not_even,bj_central,limiters_bad,overbee_monotone,limiters_inexact,nolim_other_sign,phifunc_bounds,ex_limiters|True of koren, mc_lim, minmod, superbee and phifunc (koren prefers one side). False of barth_jespersen, ltanh, overbee, overbee_alpha and nolim, which make new extrema or miss straight lines (limiters_bad, limiters_inexact), because they follow other conventions (bj_central, nolim_other_sign). Only mc is called by the code.
C160|partial|grid_fields,grid_last_wrong,dump_shows,dump_misses_rate,ex_grid,interpolate_quadratic|The fields are proved away from the last radial point; beyond it a constant is shown as growing (grid_last_wrong). The dump does not show dK/dt, whose column repeats dK/dr, and its header names 7 of 21 columns (dump_misses_rate).
C161|proved|run_order,run_high,run_third_order,refRun_shifted,refRun_moved,stage_shifted,stage_moved,Shifted.stage,Moved.stage,Moved.faces,ex_run_order,ex_run_high,wavelet_stage|Proved as stated. The number of steps is fixed while the cells shrink: the accumulated error over a finite time is C155 (rate one half). For WENO5-Z the regularising constant must shrink like the square of the cell width, and the band may widen by 41 per stage. HLL with its regularising constant zero.
C162|proved|exchange_converges,exchange_limit,exact_exists,exact_unique,code_exists,update_be,be_converges,be_defect,comoving_iff,ex_exchange_run|Proved as stated, for the energy form of the energy equation. Opacities, emission and gas velocity are held fixed, as they are in the linear update.
C163|proved|region_any_order,region_once,packets_home,mesh_momentum,region_closed,region_final,closed_step,region_sum,route_sum,ex_blocks|Proved as stated. Send and Receive are Parthenon's (contract): Send hands a packet to the block that contains it, and reflecting boundaries, which change the wave vector, are excluded. Random draws are inputs: a generator shared by blocks may hand them out differently in another order.
C164|partial|cool_budget,cool_converges,coolStep_rate,fe_converges,primitives_lag,primitives_differ,rest_cooling,rest_lower,ex_cool|Budget and law are proved as stated. The last sentence fails of the code: the four-force changes only the conserved variables, so the primitives shown are one step behind (primitives_lag, primitives_differ), and the explicit loss has no limit on the step, so a long step makes the energy negative (rest_cooling, ex_cool). Uniform gas: that the stages then leave the conserved variables alone is C131.
C165|partial|stage_run_converges,stage_run_limit,staged_converges,stages_near,advance_bounds,Closure.fe_defect,rest_exact,ex_stage_run|Proved for every list of weights between zero and one at the time elapsed times the advance of the weights: this is the time elapsed for rk1, rk2 and rk3. For vl2 it is three halves of it, so there the statement is false of the code (ex_stage_run: the energy tends to e^(-3/2) instead of e^(-1)). Opacities, emission and gas velocity are held fixed.
C166|proved|tracer_converges,tracer_second_order,mid_defect,mid_defect_steady,mid_stable,mid_gronwall,run_mid,flow_bounded,ex_tracer_steady,ex_tracer_unsteady|Proved as stated, for tracers that feel the velocity of their own place: tracers outside the first block of a pack read the wrong block (C45). The interpolated velocity is the flow; its distance from the underlying flow is not part of this. In unsteady flow the order is exactly one (ex_tracer_unsteady).
C167|proved|rays_converge,force_error,twostage_near,push_rate,kSource_eq,raise_smooth,rate_smooth,regular_open,exRay,exForce,exRay_converges|Proved as stated. The order is one and not two because the second stage takes the force with the metric differences of the old position (push_second_stage_wrong, C51). Epsilon is at most 8 M kappa^2 / c times the distance of the differences where the derivatives of the metric have Lipschitz constant M, |k| is at most kappa and |k^0| at least c (force_error). Arithmetic is exact.
