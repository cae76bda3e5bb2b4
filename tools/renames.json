{"Tasks.purge_spec": "Tasks.purge_spec_partial", "Progenitor.load_spec": "Progenitor.load_spec_partial", "Progenitor.lookup_correct_iff": "Progenitor.lookup_correct_iff_partial", "Progenitor.hom_radial": "Progenitor.hom_radial_partial", "Opac.scattering_units": "Opac.scattering_units_partial", "Opac.opacity_species_iff": "Opac.opacity_species_iff_partial", "FmksInit.horizon_coordinate": "FmksInit.horizon_coordinate_partial", "Cosmo.adiabatic_law": "Cosmo.adiabatic_law_partial", "Output.cs_spec": "Output.cs_spec_partial", "Startup.last_device": "Startup.last_device_partial", "PgenRad.pulse_velocity": "PgenRad.pulse_velocity_partial", "PgenRad.sphere_spherical": "PgenRad.sphere_spherical_partial", "Cached.offgrid_affine": "Cached.offgrid_affine_partial", "Monopole.metric_rates": "Monopole.metric_rates_partial", "Limits.floors_asked": "Limits.floors_asked_partial", "BndProc.flux_matches_ghosts_iff": "BndProc.flux_matches_ghosts_iff_partial", "BndProc.convert_primitive": "BndProc.convert_primitive_partial", "Diag.relErr_detects": "Diag.relErr_detects_partial", "Diag.stats_complete": "Diag.stats_complete_partial", "MeshRun.composition_uniform": "MeshRun.composition_uniform_partial", "TOV.star_symmetric": "TOV.star_symmetric_partial", "Repair.repair_schedules_agree": "Repair.repair_schedules_agree_partial", "Cached.cached_metric4": "Cached.cached_metric4_partial", "Transform.modified_algebraic": "Transform.modified_algebraic_partial", "Transform.mgr_jacobians_inverse": "Transform.mgr_jacobians_inverse_partial", "Tetrads.tetrad_orthonormal": "Tetrads.tetrad_orthonormal_partial", "Monopole.volIntersect_sum": "Monopole.volIntersect_sum_partial", "Tracers.advect_uniform": "Tracers.advect_uniform_partial", "Closure.eddington_round_trip": "Closure.eddington_round_trip_partial", "Closure.source_update_solves": "Closure.source_update_solves_partial", "Closure.eddFactor_range": "Closure.eddFactor_range_partial", "History.column_bound": "History.column_bound_partial", "Repair.purge_spec": "Repair.purge_spec_partial", "Moments.face_bounds": "Moments.face_bounds_partial", "MOCMC.couple_conserves": "MOCMC.couple_conserves_partial", "Bondi.bondi_temp": "Bondi.bondi_temp_partial", "Pgen.snake_state": "Pgen.snake_state_partial", "Pgen.initial_is_wave": "Pgen.initial_is_wave_partial", "Pgen.boostStore_recovers": "Pgen.boostStore_recovers_partial", "Pgen.friedmann_rest_iff": "Pgen.friedmann_rest_iff_partial", "Tasks.single_partition_deterministic": "Tasks.single_partition_deterministic_partial", "Tasks.phi_step_single": "Tasks.phi_step_single_partial", "Tasks.single_partition_deposit": "Tasks.single_partition_deposit_partial"}