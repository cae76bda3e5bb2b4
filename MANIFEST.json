{
 "claims": [
  {
   "property": "C01",
   "status": "proved",
   "theorems": [
    "Phoebus.Recon.plm_no_overshoot",
    "Phoebus.Recon.plm_line_no_overshoot"
   ],
   "note": ""
  },
  {
   "property": "C02",
   "status": "proved",
   "theorems": [
    "Phoebus.Recon.recon_preserves_constants"
   ],
   "note": ""
  },
  {
   "property": "C03",
   "status": "proved",
   "theorems": [
    "Phoebus.Recon.recon_exact_on_affine"
   ],
   "note": ""
  },
  {
   "property": "C04",
   "status": "proved",
   "theorems": [
    "Phoebus.Recon.recon_mirror"
   ],
   "note": ""
  },
  {
   "property": "C05",
   "status": "partial",
   "theorems": [
    "Phoebus.Recon.weno_blend_of_convex_partial",
    "Phoebus.Recon.weno_blend_exceeds_one"
   ],
   "note": "The code's blend factor can exceed one, so the stated convexity is false of the code (witness proved); proved: the result is the blend of the linear value and a genuine convex combination."
  },
  {
   "property": "C06",
   "status": "proved",
   "theorems": [
    "Phoebus.Recon.mp5_clamps",
    "Phoebus.Recon.mp5MP_spec",
    "Phoebus.Recon.mp5Bounds_spec"
   ],
   "note": ""
  },
  {
   "property": "C07",
   "status": "proved",
   "theorems": [
    "Phoebus.Recon.plm_affine_equivariant",
    "Phoebus.Recon.mp5_not_scale_equivariant"
   ],
   "note": "MP5 is not scale equivariant because of its fixed epsilon (negation also proved)."
  },
  {
   "property": "C08",
   "status": "partial",
   "theorems": [
    "Phoebus.RootFind.bisect_in_interval",
    "Phoebus.RootFind.regulaFalsi_in_interval",
    "Phoebus.RootFind.itp_in_interval_partial",
    "Phoebus.RootFind.itp_leaves_interval",
    "Phoebus.RootFind.secant_leaves_interval",
    "Phoebus.RootFind.secant_undef_iff",
    "Phoebus.RootFind.secant_affine"
   ],
   "note": "Full for bisect and regula_falsi; itp only away from a root at the bracket's left end (negation proved otherwise); secant can leave the interval (negation proved)."
  },
  {
   "property": "C09",
   "status": "partial",
   "theorems": [
    "Phoebus.RootFind.regulaFalsi_status",
    "Phoebus.RootFind.regulaFalsi_success_near_root",
    "Phoebus.RootFind.bisect_success_near_root_partial",
    "Phoebus.RootFind.itp_success_near_root_partial",
    "Phoebus.RootFind.bisect_loses_left_root",
    "Phoebus.RootFind.itp_loses_left_root",
    "Phoebus.RootFind.regulaFalsi_nan_success",
    "Phoebus.RootFind.regulaFalsi_nan_only_if"
   ],
   "note": "Full for regula_falsi's numeric returns; bisect and itp require a nonzero value at the left end (negations proved)."
  },
  {
   "property": "C10",
   "status": "proved",
   "theorems": [
    "Phoebus.RootFind.iterations_le_cap",
    "Phoebus.RootFind.bisect_converges",
    "Phoebus.RootFind.itp_worst_case",
    "Phoebus.RootFind.converged_on_last_iteration_fails",
    "Phoebus.RootFind.exhausted_object_always_fails",
    "Phoebus.RootFind.no_bracket"
   ],
   "note": ""
  },
  {
   "property": "C100",
   "status": "partial",
   "theorems": [
    "Phoebus.Tasks.purge_spec_partial",
    "Phoebus.Tasks.purge_leaves_last",
    "Phoebus.Tasks.purge_blocks",
    "Phoebus.Tasks.tracer_not_purged",
    "Phoebus.Tasks.ex_purge"
   ],
   "note": "The last active slot and all blocks beyond the number of partitions are missed."
  },
  {
   "property": "C101",
   "status": "partial",
   "theorems": [
    "Phoebus.Progenitor.load_spec_partial",
    "Phoebus.Progenitor.load_defined_iff",
    "Phoebus.Progenitor.ex_load",
    "Phoebus.Progenitor.ragged_undefined",
    "Phoebus.Progenitor.calculatemass_undefined",
    "Phoebus.Progenitor.massLoop_value"
   ],
   "note": "Well-formed files proved; malformed files are read out of bounds (load_defined_iff), and the mass function always is."
  },
  {
   "property": "C102",
   "status": "partial",
   "theorems": [
    "Phoebus.Progenitor.lookup_correct_iff_partial",
    "Phoebus.Progenitor.lookup_between",
    "Phoebus.Progenitor.ex_stretched"
   ],
   "note": "Exact condition: evenly spaced radii."
  },
  {
   "property": "C103",
   "status": "partial",
   "theorems": [
    "Phoebus.Progenitor.hom_radial_partial",
    "Phoebus.Progenitor.hom_radial_spherical",
    "Phoebus.Progenitor.hom_speed",
    "Phoebus.Progenitor.hom_speed_slow",
    "Phoebus.Progenitor.ex_hom"
   ],
   "note": "Direction proved; the speed is wrong (hom_speed_slow)."
  },
  {
   "property": "C104",
   "status": "partial",
   "theorems": [
    "Phoebus.Opac.scattering_units_partial",
    "Phoebus.Opac.spectral_units",
    "Phoebus.Opac.grayS_eq",
    "Phoebus.Opac.absorption_double",
    "Phoebus.Opac.absorption_gray",
    "Phoebus.Opac.absorption_correct_iff",
    "Phoebus.Opac.scale_free_opacity",
    "Phoebus.Opac.ex_absorption"
   ],
   "note": "Mean absorption converts units twice (absorption_correct_iff). singularity-opac by contract."
  },
  {
   "property": "C105",
   "status": "partial",
   "theorems": [
    "Phoebus.Opac.active_spec",
    "Phoebus.Opac.opacity_species_iff_partial",
    "Phoebus.Opac.ex_species"
   ],
   "note": "Exact condition on the build options."
  },
  {
   "property": "C106",
   "status": "partial",
   "theorems": [
    "Phoebus.FmksInit.horizon_radius",
    "Phoebus.FmksInit.horizon_coordinate_partial",
    "Phoebus.FmksInit.xh_range",
    "Phoebus.FmksInit.Z1_cubic",
    "Phoebus.FmksInit.Z1_range",
    "Phoebus.FmksInit.textbook_isco",
    "Phoebus.FmksInit.isco_mono",
    "Phoebus.FmksInit.stored_isco_too_small",
    "Phoebus.FmksInit.schwarzschild_isco",
    "Phoebus.FmksInit.x0_below_ghosts",
    "Phoebus.FmksInit.x0_le_inner",
    "Phoebus.FmksInit.theta_monotone_everywhere",
    "Phoebus.FmksInit.ex_x0_above",
    "Phoebus.FmksInit.ex_x0_ok"
   ],
   "note": "Horizon proved; stored ISCO too small for every spin (stored_isco_too_small); x0 by exact iff."
  },
  {
   "property": "C107",
   "status": "partial",
   "theorems": [
    "Phoebus.Cosmo.tmunu_rest",
    "Phoebus.Cosmo.cons_rest",
    "Phoebus.Cosmo.sources_rest",
    "Phoebus.Cosmo.adiabatic_law_partial",
    "Phoebus.Cosmo.ex_adiabatic",
    "Phoebus.Cosmo.rkStep_zero",
    "Phoebus.Cosmo.run_density",
    "Phoebus.Cosmo.dilution_iff",
    "Phoebus.Cosmo.dilution_by_integrator"
   ],
   "note": "Source terms proved; the dilution law is exact only with the two-stage integrator."
  },
  {
   "property": "C108",
   "status": "partial",
   "theorems": [
    "Phoebus.Output.cs_spec_partial",
    "Phoebus.Output.cs_subluminal",
    "Phoebus.Output.divv_flat",
    "Phoebus.Output.divv_curved",
    "Phoebus.Output.divv_one_dim",
    "Phoebus.Output.divv_depends_on_junk",
    "Phoebus.Output.divv_flrw",
    "Phoebus.Output.divv_uniform",
    "Phoebus.Output.divv_uniform_wrong",
    "Phoebus.Output.locWeight_integral",
    "Phoebus.Output.sigma_zero_accepted"
   ],
   "note": "Sound speed proved; deviations of the divergence and the weight proved with witnesses."
  },
  {
   "property": "C109",
   "status": "proved",
   "theorems": [
    "Phoebus.HistorySums.region_volume",
    "Phoebus.HistorySums.box_cells",
    "Phoebus.HistorySums.regions_disjoint",
    "Phoebus.HistorySums.block_integral",
    "Phoebus.HistorySums.list_integral",
    "Phoebus.HistorySums.historySum_flat",
    "Phoebus.HistorySums.history_total",
    "Phoebus.HistorySums.history_decomposition",
    "Phoebus.HistorySums.history_max_ge",
    "Phoebus.HistorySums.history_max_attained",
    "Phoebus.HistorySums.accepted_iff",
    "Phoebus.HistorySums.accepted_absent",
    "Phoebus.HistorySums.ex_tiles",
    "Phoebus.HistorySums.ex_total"
   ],
   "note": "For any tiling of the domain."
  },
  {
   "property": "C11",
   "status": "partial",
   "theorems": [
    "Phoebus.LinAlg.det3_eq_det",
    "Phoebus.LinAlg.det4_eq_det",
    "Phoebus.LinAlg.inverse3_symmetric_partial",
    "Phoebus.LinAlg.inverse3_nonsymmetric_wrong",
    "Phoebus.LinAlg.solve2_solves",
    "Phoebus.LinAlg.inverse4_is_inverse"
   ],
   "note": "The 3x3 inverse is correct for symmetric matrices only: its determinant expansion uses transposed entries (negation proved for a nonsymmetric matrix). Everything else is full strength."
  },
  {
   "property": "C110",
   "status": "proved",
   "theorems": [
    "Phoebus.Startup.init_flat",
    "Phoebus.Startup.tov_central",
    "Phoebus.Startup.check_iff",
    "Phoebus.Startup.check_error",
    "Phoebus.Startup.ex_check",
    "Phoebus.Startup.solve_spec",
    "Phoebus.Startup.startup_tov",
    "Phoebus.Startup.startup_lapse_equation",
    "Phoebus.Startup.startup_progenitor",
    "Phoebus.Startup.homologous_spec",
    "Phoebus.Startup.startup_off",
    "Phoebus.Startup.lookup_mk",
    "Phoebus.Startup.generator_iff",
    "Phoebus.Startup.main_fresh",
    "Phoebus.Startup.main_restart",
    "Phoebus.Startup.names_ok"
   ],
   "note": "Deviations (progenitor generator sees flat space, restart accepts any name) stated as theorems."
  },
  {
   "property": "C111",
   "status": "partial",
   "theorems": [
    "Phoebus.Startup.run_lapse",
    "Phoebus.Startup.last_device_partial",
    "Phoebus.Startup.last_host",
    "Phoebus.Startup.last_host_iff",
    "Phoebus.Startup.lapse_build_independent",
    "Phoebus.Startup.warns_iff",
    "Phoebus.Startup.false_alarm"
   ],
   "note": "Previous lapse wrong on host builds after every odd call."
  },
  {
   "property": "C112",
   "status": "partial",
   "theorems": [
    "Phoebus.PgenRad.optical_depth",
    "Phoebus.PgenRad.flux_check_iff",
    "Phoebus.PgenRad.ex_units",
    "Phoebus.PgenRad.W_sq",
    "Phoebus.PgenRad.pulse_velocity_partial",
    "Phoebus.PgenRad.pulse_lorentz",
    "Phoebus.PgenRad.pulse_centre",
    "Phoebus.PgenRad.pulse_diffusion",
    "Phoebus.PgenRad.boost_at_rest",
    "Phoebus.PgenRad.plain_range",
    "Phoebus.PgenRad.tp_pos_iff",
    "Phoebus.PgenRad.boost_unchecked",
    "Phoebus.PgenRad.flux_unrealisable",
    "Phoebus.PgenRad.ex_flux"
   ],
   "note": "Realisability and positive comoving time are not ensured by the code."
  },
  {
   "property": "C113",
   "status": "partial",
   "theorems": [
    "Phoebus.PgenRad.store_aborts",
    "Phoebus.PgenRad.thin_ye_twice",
    "Phoebus.PgenRad.store_one",
    "Phoebus.PgenRad.store_iff",
    "Phoebus.PgenRad.sphere_spherical_partial",
    "Phoebus.PgenRad.sphere_cartesian",
    "Phoebus.PgenRad.thin_units",
    "Phoebus.PgenRad.thin_starts",
    "Phoebus.PgenRad.thin_writes",
    "Phoebus.PgenRad.lepton_odd",
    "Phoebus.PgenRad.lepton_mean",
    "Phoebus.PgenRad.ex_lepton",
    "Phoebus.PgenRad.report_bound",
    "Phoebus.PgenRad.report_attained"
   ],
   "note": "Abort with two blocks per rank and half-space sphere proved."
  },
  {
   "property": "C114",
   "status": "partial",
   "theorems": [
    "Phoebus.Cached.do1D_congr",
    "Phoebus.Cached.do1D_at_centre",
    "Phoebus.Cached.do1D_centre_bound",
    "Phoebus.Cached.do1D_affine",
    "Phoebus.Cached.offgrid_local",
    "Phoebus.Cached.offgrid_affine_partial",
    "Phoebus.Cached.offgrid_centre",
    "Phoebus.Cached.offgrid_uniform",
    "Phoebus.Cached.offgrid_symmetric",
    "Phoebus.Cached.offgrid_torsion_free",
    "Phoebus.Cached.offgrid_system",
    "Phoebus.Cached.stored_derivs",
    "Phoebus.Cached.offgrid_derivs",
    "Phoebus.Cached.offgrid_inverse_block_zero",
    "Phoebus.Cached.offgrid_inverse_lapse",
    "Phoebus.Cached.offgrid_inverse_iff",
    "Phoebus.Cached.offgrid_coords_shifted",
    "Phoebus.Cached.ex_inverse_wrong"
   ],
   "note": "Every reader but the inverse 4-metric (lapse of block 0) and the coordinates (shifted), both with witnesses."
  },
  {
   "property": "C115",
   "status": "proved",
   "theorems": [
    "Phoebus.GridLookup.getX_spec",
    "Phoebus.GridLookup.zone_ends",
    "Phoebus.GridLookup.zone_lt",
    "Phoebus.GridLookup.zone_unique",
    "Phoebus.GridLookup.centre_inside",
    "Phoebus.GridLookup.neighbour_positions",
    "Phoebus.GridLookup.neighbour_geometry",
    "Phoebus.GridLookup.refined_faces",
    "Phoebus.GridLookup.mesh_agrees",
    "Phoebus.GridLookup.mesh_geometry",
    "Phoebus.GridLookup.aborts",
    "Phoebus.GridLookup.default_time",
    "Phoebus.GridLookup.ex_below",
    "Phoebus.GridLookup.ex_face"
   ],
   "note": "Every extent, index and location."
  },
  {
   "property": "C116",
   "status": "partial",
   "theorems": [
    "Phoebus.Monopole.maximal_slicing_preserved",
    "Phoebus.Monopole.metric_rates_partial",
    "Phoebus.Monopole.curvature_rate_defect",
    "Phoebus.Monopole.curvature_rate_iff",
    "Phoebus.Monopole.shift_rate",
    "Phoebus.Monopole.lapse_rate_formula",
    "Phoebus.Monopole.slice_derivs",
    "Phoebus.Monopole.slice_vacuum",
    "Phoebus.Monopole.slice_static",
    "Phoebus.Monopole.slice_code_curvature",
    "Phoebus.Monopole.slice_code_lapse"
   ],
   "note": "dK/dt is off by -4 alpha K^2 and dalpha/dt is nonzero in a static spacetime; both proved."
  },
  {
   "property": "C117",
   "status": "partial",
   "theorems": [
    "Phoebus.Limits.flags_spec",
    "Phoebus.Limits.accepted_iff",
    "Phoebus.Limits.init_parts",
    "Phoebus.Limits.floors_asked_partial",
    "Phoebus.Limits.power_law_floor",
    "Phoebus.Limits.power_law_sie_lost",
    "Phoebus.Limits.energy_floor",
    "Phoebus.Limits.floors_respect_eos",
    "Phoebus.Limits.off_no_effect",
    "Phoebus.Limits.ceilings_asked",
    "Phoebus.Limits.strategies_asked",
    "Phoebus.Limits.density_floor_pos",
    "Phoebus.Limits.default_floors_zero",
    "Phoebus.Limits.phi_asked",
    "Phoebus.Limits.eos_accepted_iff",
    "Phoebus.Limits.table_limits",
    "Phoebus.Limits.table_limits_scale_free",
    "Phoebus.Limits.ideal_limits",
    "Phoebus.Limits.ideal_limits_unchecked",
    "Phoebus.Limits.ex_accepted"
   ],
   "note": "Power-law floors ignore the specific-energy keys; scale-free table energies and crossed limits: proved deviations."
  },
  {
   "property": "C118",
   "status": "partial",
   "theorems": [
    "Phoebus.BndProc.key_injective",
    "Phoebus.BndProc.registered_spec",
    "Phoebus.BndProc.accepts_names",
    "Phoebus.BndProc.flux_matches_ghosts_iff_partial",
    "Phoebus.BndProc.flux_always_outflow",
    "Phoebus.BndProc.pole_check_bypassed",
    "Phoebus.BndProc.pole_check_iff",
    "Phoebus.BndProc.reflecting_wall_leaks",
    "Phoebus.BndProc.samples_periodic",
    "Phoebus.BndProc.samples_outflow_flux"
   ],
   "note": "Two input sections are read and never compared; exact condition and consequences proved."
  },
  {
   "property": "C119",
   "status": "partial",
   "theorems": [
    "Phoebus.BndProc.overSides_out",
    "Phoebus.BndProc.overSides_in",
    "Phoebus.BndProc.convert_outside",
    "Phoebus.BndProc.convert_primitive_partial",
    "Phoebus.BndProc.convert_conserved",
    "Phoebus.BndProc.radiation_check_lost",
    "Phoebus.BndProc.fluid_check_kept",
    "Phoebus.BndProc.convert_aborts_iff",
    "Phoebus.BndProc.filled_from_conserved",
    "Phoebus.BndProc.ex_radiation_inflow"
   ],
   "note": "Radiation inflow check lost with conserved boundary variables."
  },
  {
   "property": "C12",
   "status": "proved",
   "theorems": [
    "Phoebus.Interp.index_in_range",
    "Phoebus.Interp.index_single_point",
    "Phoebus.Interp.weights_sum",
    "Phoebus.Interp.weight_bounds",
    "Phoebus.Interp.interp_constants",
    "Phoebus.Interp.do1D_linear",
    "Phoebus.Interp.interp_product",
    "Phoebus.Interp.interp_linear",
    "Phoebus.Interp.do3D_range",
    "Phoebus.Interp.pcWeight_spec",
    "Phoebus.Interp.interp_dims"
   ],
   "note": ""
  },
  {
   "property": "C120",
   "status": "proved",
   "theorems": [
    "Phoebus.FluxSweep.recon_left",
    "Phoebus.FluxSweep.recon_right",
    "Phoebus.FluxSweep.fluxes_fresh",
    "Phoebus.FluxSweep.lowest_face_stale",
    "Phoebus.FluxSweep.skip_keeps",
    "Phoebus.FluxSweep.rate_spec",
    "Phoebus.FluxSweep.selectMethod_spec",
    "Phoebus.FluxSweep.kernel_congr",
    "Phoebus.FluxSweep.stencil_inside",
    "Phoebus.FluxSweep.enough_radius",
    "Phoebus.FluxSweep.rate_decomposition",
    "Phoebus.FluxSweep.rate_two_blocks",
    "Phoebus.FluxSweep.linear_one_ghost",
    "Phoebus.FluxSweep.thin_covers",
    "Phoebus.FluxSweep.ex_config",
    "Phoebus.FluxSweep.ct_fresh_2D",
    "Phoebus.FluxSweep.ct_fresh_3D",
    "Phoebus.FluxSweep.layout_aligned",
    "Phoebus.FluxSweep.slots_written",
    "Phoebus.FluxSweep.flux_periodic"
   ],
   "note": "linear reconstruction with one ghost cell reads outside the block (linear_one_ghost); excluded by the hypothesis Enough."
  },
  {
   "property": "C121",
   "status": "partial",
   "theorems": [
    "Phoebus.Diag.relErr_detects_partial",
    "Phoebus.Diag.relErr_blind",
    "Phoebus.Diag.relErr_self",
    "Phoebus.Diag.report_max",
    "Phoebus.Diag.report_zero_iff",
    "Phoebus.Diag.report_ignores",
    "Phoebus.Diag.check_blind_witness",
    "Phoebus.Diag.check_sees"
   ],
   "note": "Exact: the error measure sees only pairs with positive sum (relErr_blind, check_blind_witness)."
  },
  {
   "property": "C122",
   "status": "partial",
   "theorems": [
    "Phoebus.Diag.stats_lines",
    "Phoebus.Diag.stats_complete_partial",
    "Phoebus.Diag.stats_total",
    "Phoebus.Diag.stats_perm",
    "Phoebus.Diag.stats_two_ranks",
    "Phoebus.Diag.ex_stats"
   ],
   "note": "Right on one rank; several ranks overwrite the file (stats_two_ranks)."
  },
  {
   "property": "C123",
   "status": "proved",
   "theorems": [
    "Phoebus.MeshRun.boundary_iff",
    "Phoebus.MeshRun.fix_decomposition",
    "Phoebus.MeshRun.rate_whole",
    "Phoebus.MeshRun.total_rate",
    "Phoebus.MeshRun.side_flux",
    "Phoebus.MeshRun.closed_rate",
    "Phoebus.MeshRun.periodic_rate",
    "Phoebus.MeshRun.run_total",
    "Phoebus.MeshRun.closed_run",
    "Phoebus.MeshRun.periodic_run",
    "Phoebus.MeshRun.ends_open",
    "Phoebus.MeshRun.open_rate",
    "Phoebus.MeshRun.open_run",
    "Phoebus.MeshRun.column_total",
    "Phoebus.MeshRun.hist_region",
    "Phoebus.MeshRun.history_constant",
    "Phoebus.MeshRun.history_decreasing",
    "Phoebus.MeshRun.ex_tiled"
   ],
   "note": "One refinement level; Parthenon's flux divergence and communication by contract."
  },
  {
   "property": "C124",
   "status": "partial",
   "theorems": [
    "Phoebus.MeshRun.combine_scale",
    "Phoebus.MeshRun.faceFluxes_ye",
    "Phoebus.MeshRun.recover_exact",
    "Phoebus.MeshRun.recover_small",
    "Phoebus.MeshRun.kernel_const",
    "Phoebus.MeshRun.stage_flux_ye",
    "Phoebus.MeshRun.stage_uniform",
    "Phoebus.MeshRun.composition_uniform_partial",
    "Phoebus.MeshRun.outflow_composition",
    "Phoebus.MeshRun.floor_composition",
    "Phoebus.MeshRun.ex_per"
   ],
   "note": "Proved on periodic domains with the guard constant of robust::ratio set to zero (recover_small gives its exact effect); false at outflow sides (outflow_composition) and under density floors (floor_composition)."
  },
  {
   "property": "C125",
   "status": "proved",
   "theorems": [
    "Phoebus.MeshRun.component_bound",
    "Phoebus.MeshRun.speeds_bracket",
    "Phoebus.MeshRun.mass_nonneg",
    "Phoebus.MeshRun.hll_weight",
    "Phoebus.MeshRun.face_bounds",
    "Phoebus.MeshRun.stage_face",
    "Phoebus.MeshRun.faceFix_lower",
    "Phoebus.MeshRun.faceFix_upper",
    "Phoebus.MeshRun.fix_cell",
    "Phoebus.MeshRun.rate_lower",
    "Phoebus.MeshRun.stage_positive",
    "Phoebus.MeshRun.estimate_suffices",
    "Phoebus.MeshRun.faceSig_nonneg",
    "Phoebus.MeshRun.step_positive",
    "Phoebus.MeshRun.run_positive",
    "Phoebus.MeshRun.ex_uniform",
    "Phoebus.MeshRun.ex_consistent",
    "Phoebus.MeshRun.ex_run",
    "Phoebus.MeshRun.run_positive_gen",
    "Phoebus.MeshRun.mass_ratio",
    "Phoebus.MeshRun.linear_negative",
    "Phoebus.MeshRun.ex_run_gen"
   ],
   "note": "The code takes its time step from the face speeds of the previous cycle; the condition for the stage itself is a hypothesis (estimate_suffices links the two when the speeds do not grow). linear_negative: cfl = 0.8 is too large for the linear reconstruction."
  },
  {
   "property": "C126",
   "status": "partial",
   "theorems": [
    "Phoebus.TOV.star_floors",
    "Phoebus.TOV.star_symmetric_partial",
    "Phoebus.TOV.radius_rotation",
    "Phoebus.TOV.star_node",
    "Phoebus.TOV.star_pressure",
    "Phoebus.TOV.star_atmosphere",
    "Phoebus.TOV.atmosphere_pressure_inconsistent",
    "Phoebus.TOV.perturbation_shape",
    "Phoebus.TOV.perturbation_radial_iff",
    "Phoebus.TOV.perturbation_pushes",
    "Phoebus.TOV.center_parity",
    "Phoebus.TOV.center_slope",
    "Phoebus.TOV.ex_star_cell"
   ],
   "note": "False as stated for the perturbation on Cartesian grids (perturbation_radial_iff, perturbation_pushes), the atmosphere pressure and ghost zones at negative radius."
  },
  {
   "property": "C127",
   "status": "partial",
   "theorems": [
    "Phoebus.RadFloors.pass_enforces_partial",
    "Phoebus.RadFloors.pass_id",
    "Phoebus.RadFloors.pass_idempotent",
    "Phoebus.RadFloors.inject_amount",
    "Phoebus.RadFloors.cap_direction",
    "Phoebus.RadFloors.floor_sign",
    "Phoebus.RadFloors.floor_decreasing",
    "Phoebus.RadFloors.flags_spec",
    "Phoebus.RadFloors.applied",
    "Phoebus.RadFloors.not_applied",
    "Phoebus.RadFloors.ex_pass",
    "Phoebus.RadFloors.ex_boosted",
    "Phoebus.RadFloors.zero_floor_divides_by_zero",
    "Phoebus.RadFloors.no_ceiling_inconsistent",
    "Phoebus.RadFloors.stale_without_floors",
    "Phoebus.RadFloors.stored_pressure_below_floor",
    "Phoebus.RadFloors.flags_all"
   ],
   "note": "Proved for the Eddington closure with a positive floor and a ceiling below 0.999; outside it the property is false of the code, with witnesses."
  },
  {
   "property": "C128",
   "status": "partial",
   "theorems": [
    "Phoebus.RadSweep.fluxes_fresh",
    "Phoebus.RadSweep.outer_faces_stale",
    "Phoebus.RadSweep.rate_decomposition",
    "Phoebus.RadSweep.rate_two_blocks",
    "Phoebus.RadSweep.grad_local",
    "Phoebus.RadSweep.ideal_local",
    "Phoebus.RadSweep.covers_exists",
    "Phoebus.RadSweep.mocmc_opacity_old",
    "Phoebus.RadSweep.mocmc_history",
    "Phoebus.RadSweep.mocmc_sides_transparent",
    "Phoebus.RadSweep.mocmc_decomposition_dependent",
    "Phoebus.RadSweep.grad_exact",
    "Phoebus.RadSweep.moment_body_reads",
    "Phoebus.RadSweep.mocmc_body_reads",
    "Phoebus.Step.sweep_near",
    "Phoebus.Step.ideal_near",
    "Phoebus.Step.grad_near"
   ],
   "note": "Proved for the moment methods. False for MOCMC (mocmc_sides_transparent, mocmc_decomposition_dependent)."
  },
  {
   "property": "C129",
   "status": "partial",
   "theorems": [
    "Phoebus.Restart.speed_fresh",
    "Phoebus.Restart.mono_active",
    "Phoebus.Restart.saved_transparent",
    "Phoebus.Restart.rewind",
    "Phoebus.Restart.drv_reached",
    "Phoebus.Restart.drv_transparent",
    "Phoebus.Restart.drv_initial_dump",
    "Phoebus.Restart.nf_before",
    "Phoebus.Restart.nf_after",
    "Phoebus.Restart.nf_catchup",
    "Phoebus.Restart.nf_noticed",
    "Phoebus.Restart.gain_transparent_iff",
    "Phoebus.Restart.mc_reset",
    "Phoebus.Restart.mc_rewinds",
    "Phoebus.Restart.kappa_rewinds",
    "Phoebus.Restart.mc_catchup",
    "Phoebus.Restart.mc_noticed",
    "Phoebus.Restart.rng_rewinds",
    "Phoebus.Restart.rng_noticed",
    "Phoebus.Restart.speed_first",
    "Phoebus.Restart.speed_noticed",
    "Phoebus.Restart.kappa_lost",
    "Phoebus.Restart.mono_transparent",
    "Phoebus.Restart.mono_reached",
    "Phoebus.Restart.ex_restart"
   ],
   "note": "Proved for the driver (after a step), the controller before its start, the flag before it is raised, the monopole counter. False for the others, proved with exact conditions and witnesses. What Parthenon stores in a dump is a contract; swarms are not modelled."
  },
  {
   "property": "C13",
   "status": "proved",
   "theorems": [
    "Phoebus.Rel.lorentz_ge_one",
    "Phoebus.Rel.four_velocity_norm",
    "Phoebus.Rel.four_velocity_unit",
    "Phoebus.Rel.four_velocity_components"
   ],
   "note": ""
  },
  {
   "property": "C130",
   "status": "proved",
   "theorems": [
    "Phoebus.Step.run_decomposition",
    "Phoebus.Step.regular_decomposition",
    "Phoebus.Step.run_holds",
    "Phoebus.Step.step_holds",
    "Phoebus.Step.stage_holds",
    "Phoebus.Step.ct_global",
    "Phoebus.Step.rate_global",
    "Phoebus.Step.estimates_global",
    "Phoebus.Step.exists_complete",
    "Phoebus.Step.regular_tiles",
    "Phoebus.Step.ex_regular",
    "Phoebus.Step.flat_mirror_run",
    "Phoebus.Step.near_global",
    "Phoebus.Step.sweep_near"
   ],
   "note": "Scope: the inversion is any function of position and conserved variables of the cell. The code's inversion also reads the previous root as initial guess and its failed cells are averaged over neighbours (C10, C23); refinement levels are not in this run. Radiation fluxes are (sweep_near), with the moment methods."
  },
  {
   "property": "C131",
   "status": "proved",
   "theorems": [
    "Phoebus.Step.run_uniform",
    "Phoebus.Step.run_equilibrium",
    "Phoebus.Step.advect_homogeneous"
   ],
   "note": "Same scope as C130."
  },
  {
   "property": "C132",
   "status": "proved",
   "theorems": [
    "Phoebus.Step.run_shift",
    "Phoebus.Step.refRun_shift",
    "Phoebus.Step.code_homogeneous",
    "Phoebus.Step.exFlat_homogeneous",
    "Phoebus.Step.ex_periodic",
    "Phoebus.Step.advect_moves"
   ],
   "note": "Same scope as C130; code_homogeneous: the fluxes of the code in a uniform geometry qualify."
  },
  {
   "property": "C133",
   "status": "proved",
   "theorems": [
    "Phoebus.Step.run_dependence",
    "Phoebus.Step.ref_dependence",
    "Phoebus.Step.step_local",
    "Phoebus.Step.stage_local",
    "Phoebus.Step.gathers_inside",
    "Phoebus.Step.gathers_nearest"
   ],
   "note": "Same scope as C130; the time steps are given (a global minimum couples all cells otherwise)."
  },
  {
   "property": "C134",
   "status": "proved",
   "theorems": [
    "Phoebus.Step.run_mirror",
    "Phoebus.Step.run_symmetric",
    "Phoebus.Step.refRun_mirror",
    "Phoebus.Step.wraps_mirror",
    "Phoebus.Step.code_symmetric",
    "Phoebus.Riemann.numFlux_mir",
    "Phoebus.Riemann.numSpeed_mir",
    "Phoebus.Riemann.fluxF_mir",
    "Phoebus.Riemann.fluxU_mir",
    "Phoebus.Recon.recon_odd",
    "Phoebus.Step.flat_mirror",
    "Phoebus.Step.exFlat_symmetric",
    "Phoebus.Step.flat_mirror_run",
    "Phoebus.Step.mirror_code_run",
    "Phoebus.Step.whole_symmetric",
    "Phoebus.Step.fluidSrc_mir",
    "Phoebus.Step.codeInv_mir",
    "Phoebus.C2P.c2p_mir",
    "Phoebus.Step.tmunu_mir",
    "Phoebus.Step.codeEst_symmetric",
    "Phoebus.Step.ex_mirror_cells"
   ],
   "note": "Same scope as C130. mirror_code_run: fluxes, constrained transport, geometric sources, inversion and time steps of the code in every mirror-symmetric geometry."
  },
  {
   "property": "C135",
   "status": "partial",
   "theorems": [
    "Phoebus.Step.fixRun_decomposition_partial",
    "Phoebus.Step.fixRun_holds",
    "Phoebus.Step.fixStep_holds",
    "Phoebus.Step.fixStage_holds",
    "Phoebus.Step.pass_ok",
    "Phoebus.Step.refPass_ok",
    "Phoebus.Step.repair_depends_on_blocks",
    "Phoebus.Step.ghost_not_repaired",
    "Phoebus.Step.ex_calm"
   ],
   "note": "The full statement is false of the code: repair_depends_on_blocks and ghost_not_repaired are the counterexamples. Proved: runs whose failures stay away from block sides."
  },
  {
   "property": "C136",
   "status": "proved",
   "theorems": [
    "Phoebus.C2P.p2c_injective",
    "Phoebus.C2P.ideal_causal",
    "Phoebus.C2P.stiff_not_unique",
    "Phoebus.C2P.energy_strict",
    "Phoebus.C2P.split",
    "Phoebus.C2P.invariants"
   ],
   "note": "Conserved variables of two states of matter coincide only if the states do. Causality of the EOS is a hypothesis; stiff_not_unique shows it is needed."
  },
  {
   "property": "C137",
   "status": "proved",
   "theorems": [
    "Phoebus.C2P.root_reproduces",
    "Phoebus.C2P.root_unique",
    "Phoebus.C2P.root_is_state",
    "Phoebus.C2P.root_matter",
    "Phoebus.C2P.root_form",
    "Phoebus.C2P.ex_root",
    "Phoebus.C2P.regulariser_matters"
   ],
   "note": "Uniqueness is for roots at which no bound is active; roots with an active bound are covered by C62/C63 only."
  },
  {
   "property": "C138",
   "status": "partial",
   "theorems": [
    "Phoebus.C2P.guess_within_tolerance_partial",
    "Phoebus.C2P.guess_matters",
    "Phoebus.C2P.gC_search"
   ],
   "note": "The full statement is false of the code for every tolerance (guess_matters)."
  },
  {
   "property": "C139",
   "status": "partial",
   "theorems": [
    "Phoebus.MeshRun.composition_bounds_partial",
    "Phoebus.MeshRun.electrons_nonneg_partial",
    "Phoebus.MeshRun.ye_negative",
    "Phoebus.MeshRun.ex_bounds",
    "Phoebus.MeshRun.excess_run",
    "Phoebus.MeshRun.excess_stage"
   ],
   "note": "The full statement is false of the code at the default CFL number (ye_negative). Proved for four times the face-mass bound times the CFL number at most one, constant and linear reconstruction, periodic domain."
  },
  {
   "property": "C14",
   "status": "proved",
   "theorems": [
    "Phoebus.Rel.magnetic_orthogonal",
    "Phoebus.Rel.tmunu_symm",
    "Phoebus.Rel.tmunu_mixed",
    "Phoebus.Rel.tmunu_energy_and_trace",
    "Phoebus.Rel.magneticFieldSquared_eq"
   ],
   "note": ""
  },
  {
   "property": "C140",
   "status": "proved",
   "theorems": [
    "Phoebus.Step.run_total",
    "Phoebus.Step.run_total_gains",
    "Phoebus.Step.fluid_run_total",
    "Phoebus.Step.src_zero",
    "Phoebus.Step.code_flux_uniform",
    "Phoebus.Step.fluid_periodic",
    "Phoebus.Step.div_total",
    "Phoebus.Step.stage_total",
    "Phoebus.Step.ex_balance",
    "Phoebus.Step.codeRad_periodic"
   ],
   "note": "Periodic domains on one refinement level; that the inversion leaves the variable alone is a hypothesis (no floor, no failed cell)."
  },
  {
   "property": "C141",
   "status": "partial",
   "theorems": [
    "Phoebus.MomentSource.search_balance",
    "Phoebus.MomentSource.search_finds",
    "Phoebus.MomentSource.search_success",
    "Phoebus.MomentSource.search_failure",
    "Phoebus.MomentSource.search_exhausted",
    "Phoebus.MomentSource.first_retry_repeats",
    "Phoebus.MomentSource.rest_update",
    "Phoebus.MomentSource.rest_gas_energy",
    "Phoebus.MomentSource.moving_gas_mismatch",
    "Phoebus.MomentSource.ex_search",
    "Phoebus.MomentSource.update_ceiling",
    "Phoebus.MomentSource.update_ceiling_rest",
    "Phoebus.MomentSource.retry_rest",
    "Phoebus.MomentSource.retry_exceeds_ceiling",
    "Phoebus.MomentSource.resid_strictMono",
    "Phoebus.MomentSource.resid_continuous",
    "Phoebus.MomentSource.balance_unique_hot",
    "Phoebus.MomentSource.balance_not_unique"
   ],
   "note": "Uniqueness for temperature-independent absorption, or growing absorption on the hot side (balance_unique_hot); false otherwise: two temperatures may balance (balance_not_unique). In a moving gas the update is not the one the search assumed (moving_gas_mismatch); retries after the cap are futile (search_exhausted)."
  },
  {
   "property": "C142",
   "status": "proved",
   "theorems": [
    "Phoebus.Step.change_run",
    "Phoebus.Step.run_change",
    "Phoebus.Step.refRun_change",
    "Phoebus.Step.whole_changed",
    "Phoebus.Riemann.numFlux_ren",
    "Phoebus.Riemann.numSpeed_ren",
    "Phoebus.Step.fluidSrc_ren",
    "Phoebus.Step.codeInv_ren",
    "Phoebus.C2P.c2p_ren",
    "Phoebus.Step.tmunu_ren",
    "Phoebus.Step.codeEst_changed",
    "Phoebus.Step.codeCtrl_changed",
    "Phoebus.Step.wraps_change",
    "Phoebus.Step.ex_change_run",
    "Phoebus.Step.ex_change"
   ],
   "note": "change_run with s = 1, len = 1: every reconstruction method, no condition on floors. The axes permuted are active ones; flux corrections at coordinate boundaries and repair of failed cells are not part of the stage; the guess of the inversion is fixed."
  },
  {
   "property": "C143",
   "status": "partial",
   "theorems": [
    "Phoebus.Step.change_run",
    "Phoebus.Step.whole_changed",
    "Phoebus.Step.kernel_units",
    "Phoebus.Step.codeInv_ren",
    "Phoebus.C2P.c2p_ren",
    "Phoebus.C2P.residual_ren",
    "Phoebus.Step.codeEst_changed",
    "Phoebus.Step.codeCtrl_changed",
    "Phoebus.Step.ex_change_run",
    "Phoebus.Recon.mp5_limiter_off",
    "Phoebus.Recon.mp5_negative",
    "Phoebus.Recon.mp5_not_scale_equivariant",
    "Phoebus.C2P.regulariser_matters"
   ],
   "note": "The full statement is false of the code (mp5_limiter_off, mp5_negative, regulariser_matters). Proved for constant and linear reconstruction, floors above the small numbers of robust.hpp in both units, robust::SMALL and the literal 1e-50 of the time step idealised to zero."
  },
  {
   "property": "C144",
   "status": "partial",
   "theorems": [
    "Phoebus.Step.gas_radiation_total",
    "Phoebus.Step.run_joint_total",
    "Phoebus.Step.exchange_neutral",
    "Phoebus.Step.exchange_good",
    "Phoebus.Step.scatter_other",
    "Phoebus.Step.joint_src_zero",
    "Phoebus.Step.ex_joint",
    "Phoebus.MomentSource.exchange_failure",
    "Phoebus.MomentSource.recovery_failure",
    "Phoebus.Step.sweep_near",
    "Phoebus.Step.codeRad_periodic",
    "Phoebus.Step.radStore_slots",
    "Phoebus.Step.ex_code_rad"
   ],
   "note": "Hypotheses are required only of the cells the run visits: solver and recovery succeed, inversions and floors leave energy and momentum alone. The unconditional statement is false of the code (exchange_failure, recovery_failure). Radiation fluxes are those of moments.cpp (sweep_near). The mass reset in the failure branch is not modelled."
  },
  {
   "property": "C145",
   "status": "partial",
   "theorems": [
    "Phoebus.Closure.prim2con_axes",
    "Phoebus.Closure.con2prim_axes",
    "Phoebus.Closure.fluxes_axes",
    "Phoebus.Closure.update_axes",
    "Phoebus.Closure.fromPrim_axes",
    "Phoebus.Closure.basis_axes",
    "Phoebus.Closure.fromCon_axes",
    "Phoebus.Closure.fromCon_not_mirror",
    "Phoebus.Moments.cellPrim2Con_axes",
    "Phoebus.Moments.cellCon2Prim_axes",
    "Phoebus.Moments.faceFlux_axes",
    "Phoebus.Moments.sig_axes",
    "Phoebus.Moments.closures_isotropic",
    "Phoebus.Sources.radSources_axes",
    "Phoebus.Step.body_axes",
    "Phoebus.Step.radStore_axes",
    "Phoebus.Step.grad_mirror",
    "Phoebus.Step.grad_change",
    "Phoebus.Step.codeRad_mirror",
    "Phoebus.Step.codeRad_change",
    "Phoebus.Step.ex_rad_mirror"
   ],
   "note": "The M1 search from conserved moments is covariant unless an axis along which the flux vanishes is reversed (fromCon_axes); there it is not (fromCon_not_mirror). The implicit exchange with the fluid is not part of this property."
  },
  {
   "property": "C146",
   "status": "proved",
   "theorems": [
    "Phoebus.Step.run_contact",
    "Phoebus.Step.stage_contact",
    "Phoebus.Step.face_contact",
    "Phoebus.Step.comb_contact",
    "Phoebus.Step.fluxU_affine",
    "Phoebus.Step.fluxF_affine",
    "Phoebus.Step.p2c_affine",
    "Phoebus.Step.ct_uniform",
    "Phoebus.Step.speeds_lt",
    "Phoebus.Step.ex_background",
    "Phoebus.Step.ex_stage",
    "Phoebus.Step.ex_contact_run"
   ],
   "note": "The inversion is assumed exact on the contact states (C61, C137 give this for the exact root); HLL with robust::SMALL idealised to zero."
  },
  {
   "property": "C147",
   "status": "proved",
   "theorems": [
    "Phoebus.Step.rate_consistent",
    "Phoebus.Step.div_consistent",
    "Phoebus.Step.diff_deriv",
    "Phoebus.Step.flux_deriv",
    "Phoebus.Step.density_physical",
    "Phoebus.Step.state_deriv",
    "Phoebus.Step.kernel_deriv",
    "Phoebus.Step.comb_deriv",
    "Phoebus.Recon.kernel_near",
    "Phoebus.Recon.mc_near",
    "Phoebus.Recon.plm_near",
    "Phoebus.Recon.weno_near",
    "Phoebus.Recon.mp5_sub_near",
    "Phoebus.Step.fluxF_diff",
    "Phoebus.Step.fluxU_diff",
    "Phoebus.Step.speeds_cont",
    "Phoebus.Step.ex_smooth",
    "Phoebus.Step.ex_mass_flux",
    "Phoebus.Step.ex_rate"
   ],
   "note": "HLL with robust::SMALL idealised to zero. The geometric sources are those of C26-C28; they are evaluated at the cell centre and need no limit. First order: no rate of convergence is claimed."
  },
  {
   "property": "C148",
   "status": "partial",
   "theorems": [
    "Phoebus.Repair.source_fixup_schedule",
    "Phoebus.Repair.source_fixup_means",
    "Phoebus.Repair.source_fixup_fallback",
    "Phoebus.Repair.source_fixup_positive",
    "Phoebus.Repair.source_fixup_consistent_partial",
    "Phoebus.Repair.source_fixup_wrong_frame",
    "Phoebus.Repair.source_fixup_inconsistent",
    "Phoebus.Repair.source_fixup_stale_tensor",
    "Phoebus.Repair.ex_source_fixup"
   ],
   "note": "All clauses proved except that the radiation is converted in the wrong frame above the ceiling and with the stale tensor where one is stored (both proved)."
  },
  {
   "property": "C149",
   "status": "partial",
   "theorems": [
    "Phoebus.Closure.routes_agree_partial",
    "Phoebus.Closure.routes_agree_along",
    "Phoebus.Closure.routes_agree_rest",
    "Phoebus.Closure.routes_disagree_across",
    "Phoebus.Closure.number_route_energy",
    "Phoebus.Closure.number_route_wrong",
    "Phoebus.Closure.search_at_root",
    "Phoebus.Closure.search_linear",
    "Phoebus.Closure.basis_along",
    "Phoebus.Closure.dir_along",
    "Phoebus.Closure.covVPi_along",
    "Phoebus.Closure.fromCon_form",
    "Phoebus.Closure.jac_secant",
    "Phoebus.Closure.ex_routes"
   ],
   "note": "Agreement proved at rest and along the motion; disagreement proved across the motion (all velocities and flux factors below one) and for the number equation."
  },
  {
   "property": "C15",
   "status": "proved",
   "theorems": [
    "Phoebus.Rel.p2c_projections",
    "Phoebus.Rel.p2c_valencia_energy",
    "Phoebus.Rel.p2c_density_bound"
   ],
   "note": ""
  },
  {
   "property": "C150",
   "status": "proved",
   "theorems": [
    "Phoebus.Step.grmhd_balance",
    "Phoebus.Step.grmhd_rate",
    "Phoebus.Geom.density_vec",
    "Phoebus.Geom.density_tens",
    "Phoebus.Geom.density_mixed",
    "Phoebus.Geom.density_anti",
    "Phoebus.Geom.det_deriv",
    "Phoebus.Geom.sqrt_det_g4",
    "Phoebus.Geom.sqrt_det_deriv",
    "Phoebus.Step.exWave_smooth",
    "Phoebus.Step.exWave_solves"
   ],
   "note": "HLL with robust::SMALL idealised to zero; metric derivatives used by the program are assumed to tend to the true ones (finite differences do, C25). First order: no rate of convergence is claimed."
  },
  {
   "property": "C151",
   "status": "partial",
   "theorems": [
    "Phoebus.Step.step_rate",
    "Phoebus.Step.stage_track",
    "Phoebus.Step.steps_track",
    "Phoebus.Step.advance_schemes",
    "Phoebus.Step.true_rate",
    "Phoebus.Step.sampled_track",
    "Phoebus.Step.inverts_deriv",
    "Phoebus.Step.src_limit",
    "Phoebus.Step.src_tendsto",
    "Phoebus.Step.stored_diff",
    "Phoebus.Step.exInv_inverts",
    "Phoebus.Step.ex_truncation"
   ],
   "note": "Proved for all lists of stage weights; the error vanishes for rk1, rk2 and rk3, and for vl2 it is proved not to (three halves). HLL with robust::SMALL idealised to zero. First order: no rate of convergence is claimed."
  },
  {
   "property": "C152",
   "status": "partial",
   "theorems": [
    "Phoebus.Step.rad_balance",
    "Phoebus.Step.conT_radT",
    "Phoebus.Step.exchange_terms",
    "Phoebus.Step.radT_diff",
    "Phoebus.Step.ex_beam_rest",
    "Phoebus.Step.flat_radT",
    "Phoebus.Step.moving_beam_wrong"
   ],
   "note": "Both balance laws proved under the condition (W^2-1) v_i v_j Pi^{ij} J = 0 (Eddington closure, or gas at rest, or flux without pressure anisotropy along the motion); without it the energy law is refuted by a beam with the M1 pressure tensor in moving gas."
  },
  {
   "property": "C153",
   "status": "partial",
   "theorems": [
    "Phoebus.Step.rad_rate_consistent",
    "Phoebus.Step.rad_rate",
    "Phoebus.Step.rad_flux_deriv",
    "Phoebus.Step.rad_div_consistent",
    "Phoebus.Step.blend_vanishes",
    "Phoebus.Step.thin_deriv",
    "Phoebus.Step.radllf_deriv",
    "Phoebus.Step.peclet_limit",
    "Phoebus.Step.one_sub_tanh",
    "Phoebus.Step.edd_admissible",
    "Phoebus.Step.m1_admissible",
    "Phoebus.Step.fluxDir_bound",
    "Phoebus.Step.radSources_limit",
    "Phoebus.Step.glow_at",
    "Phoebus.Step.ex_glow",
    "Phoebus.Step.ex_glow_m1",
    "Phoebus.Step.glow_transfer"
   ],
   "note": "Proved for states at which the reconstruction bounds are not reached and the velocity is below the cap of the closures, for the Eddington closure always and the M1 closure at flux factors strictly between zero and one. The constant robust::SMALL in the Peclet number is taken to shrink at least as fast as the cells: the program's value is fixed, tiny against any cell width used. The balance with the sources needs the condition of C152."
  },
  {
   "property": "C154",
   "status": "partial",
   "theorems": [
    "Phoebus.Closure.source_update_wrong",
    "Phoebus.Closure.update_relaxes",
    "Phoebus.Closure.update_positive",
    "Phoebus.Closure.update_rate",
    "Phoebus.Closure.be_solve",
    "Phoebus.Closure.be_bounds",
    "Phoebus.Closure.be_deviation",
    "Phoebus.Step.rad_step",
    "Phoebus.Closure.ex_relax",
    "Phoebus.Step.ex_glow_step"
   ],
   "note": "Proved for the energy form of the energy equation, pressure tensors without component along the velocity (always for Eddington) and one stage of the time integrator. Missing: the M1 closure moving through the gas, for which the formula itself is not the backward-Euler solution (source_update_wrong). Convergence of many exchanges over a finite time is C162, inside the stages of the integrator C165."
  },
  {
   "property": "C155",
   "status": "proved",
   "theorems": [
    "Phoebus.Step.run_front",
    "Phoebus.Step.run_front_rate",
    "Phoebus.Step.stage_front",
    "Phoebus.Step.steps_front",
    "Phoebus.Step.stage_density",
    "Phoebus.Carry.Profile.stage_tracks",
    "Phoebus.Carry.Profile.start",
    "Phoebus.Carry.Profile.close",
    "Phoebus.Carry.harten",
    "Phoebus.Carry.euler_tv",
    "Phoebus.Step.mc_limited",
    "Phoebus.Step.ex_front",
    "Phoebus.Step.ex_front_vl2",
    "Phoebus.Step.hat_profile"
   ],
   "note": "Proved as stated; one dimension, constant or linear reconstruction, HLL with its regularising constant zero, uniform geometry. ex_front_vl2: with the vl2 weights a top hat is found exactly inverted at time 5/3, on meshes as fine as one likes."
  },
  {
   "property": "C156",
   "status": "proved",
   "theorems": [
    "Phoebus.Step.step_order",
    "Phoebus.Step.step_second_order",
    "Phoebus.Step.stage_order",
    "Phoebus.Step.stages_order",
    "Phoebus.Step.Near2.stage",
    "Phoebus.Step.Near2.central",
    "Phoebus.Step.mc_central",
    "Phoebus.Step.taylor2",
    "Phoebus.Step.bend_schemes",
    "Phoebus.Step.ex_order",
    "Phoebus.Step.wave_deriv"
   ],
   "note": "Proved as stated. Where the slope vanishes the limiter switches on and the claim is not made. HLL with its regularising constant zero."
  },
  {
   "property": "C157",
   "status": "proved",
   "theorems": [
    "Phoebus.Recon.recon_order",
    "Phoebus.Recon.recon_point_order",
    "Phoebus.Recon.mp5_order_everywhere",
    "Phoebus.Recon.weno_near_high",
    "Phoebus.Recon.Ramp.weno",
    "Phoebus.Recon.Ramp.mp5",
    "Phoebus.Recon.Ramp.linear",
    "Phoebus.Recon.expands_avg",
    "Phoebus.Recon.high_avg",
    "Phoebus.Recon.high_point",
    "Phoebus.Recon.ex_recon_order"
   ],
   "note": "Proved as stated. For WENO5-Z and the linear reconstruction nothing is claimed at extrema. Exact arithmetic."
  },
  {
   "property": "C158",
   "status": "proved",
   "theorems": [
    "Phoebus.Step.step_high",
    "Phoebus.Step.step_third_order",
    "Phoebus.Step.stage_band",
    "Phoebus.Step.stage_high",
    "Phoebus.Step.stages_high",
    "Phoebus.Step.Near3.ramp",
    "Phoebus.Step.Near3.faces",
    "Phoebus.Step.Near3.stage",
    "Phoebus.Step.kernel_band",
    "Phoebus.Step.carried_any",
    "Phoebus.Step.twist_schemes",
    "Phoebus.Step.ex_high",
    "Phoebus.Step.ripple_stage",
    "Phoebus.Step.ripple_deriv"
   ],
   "note": "Proved as stated. For WENO5-Z the regularising constant must shrink like the square of the cell width (the code has a fixed one: then its square term of C157 remains). The band may widen by 41 per stage, hence small. HLL with its regularising constant zero."
  },
  {
   "property": "C159",
   "status": "partial",
   "theorems": [
    "Phoebus.Recon.limiters_good",
    "Phoebus.Recon.minmod_is_mc",
    "Phoebus.Recon.koren_not_even",
    "Phoebus.Recon.bj_central",
    "Phoebus.Recon.limiters_bad",
    "Phoebus.Recon.overbee_monotone",
    "Phoebus.Recon.limiters_inexact",
    "Phoebus.Recon.nolim_other_sign",
    "Phoebus.Recon.phifunc_bounds",
    "Phoebus.Recon.ex_limiters"
   ],
   "note": "True of koren, mc_lim, minmod, superbee and phifunc (koren prefers one side). False of barth_jespersen, ltanh, overbee, overbee_alpha and nolim, which make new extrema or miss straight lines (limiters_bad, limiters_inexact), because they follow other conventions (bj_central, nolim_other_sign). Only mc is called by the code."
  },
  {
   "property": "C16",
   "status": "proved",
   "theorems": [
    "Phoebus.Riemann.llf_consistent",
    "Phoebus.Riemann.hll_consistent",
    "Phoebus.Riemann.hll_no_signal",
    "Phoebus.Riemann.hll_upwind",
    "Phoebus.Riemann.flux_mirror",
    "Phoebus.Riemann.llf_speed_bounds",
    "Phoebus.Riemann.llf_monotone",
    "Phoebus.Riemann.llf_upwind"
   ],
   "note": ""
  },
  {
   "property": "C160",
   "status": "partial",
   "theorems": [
    "Phoebus.Monopole.grid_fields",
    "Phoebus.Monopole.grid_last_wrong",
    "Phoebus.Monopole.dump_shows",
    "Phoebus.Monopole.dump_misses_rate",
    "Phoebus.Monopole.ex_grid",
    "Phoebus.Monopole.interpolate_quadratic"
   ],
   "note": "The fields are proved away from the last radial point; beyond it a constant is shown as growing (grid_last_wrong). The dump does not show dK/dt, whose column repeats dK/dr, and its header names 7 of 21 columns (dump_misses_rate)."
  },
  {
   "property": "C161",
   "status": "proved",
   "theorems": [
    "Phoebus.Step.run_order",
    "Phoebus.Step.run_high",
    "Phoebus.Step.run_third_order",
    "Phoebus.Step.refRun_shifted",
    "Phoebus.Step.refRun_moved",
    "Phoebus.Step.stage_shifted",
    "Phoebus.Step.stage_moved",
    "Phoebus.Step.Shifted.stage",
    "Phoebus.Step.Moved.stage",
    "Phoebus.Step.Moved.faces",
    "Phoebus.Step.ex_run_order",
    "Phoebus.Step.ex_run_high",
    "Phoebus.Step.wavelet_stage"
   ],
   "note": "Proved as stated. The number of steps is fixed while the cells shrink: the accumulated error over a finite time is C155 (rate one half). For WENO5-Z the regularising constant must shrink like the square of the cell width, and the band may widen by 41 per stage. HLL with its regularising constant zero."
  },
  {
   "property": "C162",
   "status": "proved",
   "theorems": [
    "Phoebus.Closure.exchange_converges",
    "Phoebus.Closure.exchange_limit",
    "Phoebus.Closure.exact_exists",
    "Phoebus.Closure.exact_unique",
    "Phoebus.Closure.code_exists",
    "Phoebus.Closure.update_be",
    "Phoebus.Closure.be_converges",
    "Phoebus.Closure.be_defect",
    "Phoebus.Closure.comoving_iff",
    "Phoebus.Closure.ex_exchange_run"
   ],
   "note": "Proved as stated, for the energy form of the energy equation. Opacities, emission and gas velocity are held fixed, as they are in the linear update."
  },
  {
   "property": "C163",
   "status": "proved",
   "theorems": [
    "Phoebus.MonteCarlo.region_any_order",
    "Phoebus.MonteCarlo.region_once",
    "Phoebus.MonteCarlo.packets_home",
    "Phoebus.MonteCarlo.mesh_momentum",
    "Phoebus.MonteCarlo.region_closed",
    "Phoebus.MonteCarlo.region_final",
    "Phoebus.MonteCarlo.closed_step",
    "Phoebus.MonteCarlo.region_sum",
    "Phoebus.MonteCarlo.route_sum",
    "Phoebus.MonteCarlo.ex_blocks"
   ],
   "note": "Proved as stated. Send and Receive are Parthenon's (contract): Send hands a packet to the block that contains it, and reflecting boundaries, which change the wave vector, are excluded. Random draws are inputs: a generator shared by blocks may hand them out differently in another order."
  },
  {
   "property": "C164",
   "status": "partial",
   "theorems": [
    "Phoebus.LightBulb.cool_budget",
    "Phoebus.LightBulb.cool_converges",
    "Phoebus.LightBulb.coolStep_rate",
    "Phoebus.LightBulb.fe_converges",
    "Phoebus.LightBulb.primitives_lag",
    "Phoebus.LightBulb.primitives_differ",
    "Phoebus.LightBulb.rest_cooling",
    "Phoebus.LightBulb.rest_lower",
    "Phoebus.LightBulb.ex_cool"
   ],
   "note": "Budget and law are proved as stated. The last sentence fails of the code: the four-force changes only the conserved variables, so the primitives shown are one step behind (primitives_lag, primitives_differ), and the explicit loss has no limit on the step, so a long step makes the energy negative (rest_cooling, ex_cool). Uniform gas: that the stages then leave the conserved variables alone is C131."
  },
  {
   "property": "C165",
   "status": "partial",
   "theorems": [
    "Phoebus.Closure.stage_run_converges",
    "Phoebus.Closure.stage_run_limit",
    "Phoebus.Closure.staged_converges",
    "Phoebus.Closure.stages_near",
    "Phoebus.Closure.advance_bounds",
    "Phoebus.Closure.fe_defect",
    "Phoebus.Closure.rest_exact",
    "Phoebus.Closure.ex_stage_run"
   ],
   "note": "Proved for every list of weights between zero and one at the time elapsed times the advance of the weights: this is the time elapsed for rk1, rk2 and rk3. For vl2 it is three halves of it, so there the statement is false of the code (ex_stage_run: the energy tends to e^(-3/2) instead of e^(-1)). Opacities, emission and gas velocity are held fixed."
  },
  {
   "property": "C166",
   "status": "proved",
   "theorems": [
    "Phoebus.Tracers.tracer_converges",
    "Phoebus.Tracers.tracer_second_order",
    "Phoebus.Tracers.mid_defect",
    "Phoebus.Tracers.mid_defect_steady",
    "Phoebus.Tracers.mid_stable",
    "Phoebus.Tracers.mid_gronwall",
    "Phoebus.Tracers.run_mid",
    "Phoebus.Tracers.flow_bounded",
    "Phoebus.Tracers.ex_tracer_steady",
    "Phoebus.Tracers.ex_tracer_unsteady"
   ],
   "note": "Proved as stated, for tracers that feel the velocity of their own place: tracers outside the first block of a pack read the wrong block (C45). The interpolated velocity is the flow; its distance from the underlying flow is not part of this. In unsteady flow the order is exactly one (ex_tracer_unsteady)."
  },
  {
   "property": "C167",
   "status": "proved",
   "theorems": [
    "Phoebus.Geodesics.rays_converge",
    "Phoebus.Geodesics.force_error",
    "Phoebus.Geodesics.twostage_near",
    "Phoebus.Geodesics.push_rate",
    "Phoebus.Geodesics.kSource_eq",
    "Phoebus.Geodesics.raise_smooth",
    "Phoebus.Geodesics.rate_smooth",
    "Phoebus.Geodesics.regular_open",
    "Phoebus.Geodesics.exRay",
    "Phoebus.Geodesics.exForce",
    "Phoebus.Geodesics.exRay_converges"
   ],
   "note": "Proved as stated. The order is one and not two because the second stage takes the force with the metric differences of the old position (push_second_stage_wrong, C51). Epsilon is at most 8 M kappa^2 / c times the distance of the differences where the derivatives of the metric have Lipschitz constant M, |k| is at most kappa and |k^0| at least c (force_error). Arithmetic is exact."
  },
  {
   "property": "C17",
   "status": "proved",
   "theorems": [
    "Phoebus.FluxCT.divB_preserved_2D",
    "Phoebus.FluxCT.divB_preserved_3D",
    "Phoebus.FluxCT.ct_local_2D",
    "Phoebus.FluxCT.ct_local_3D",
    "Phoebus.FluxCT.ct_uniform_2D",
    "Phoebus.FluxCT.ct_uniform_3D"
   ],
   "note": "Uniform Cartesian mesh without refinement (flux correction) and away from physical boundaries, as the diagnostic assumes."
  },
  {
   "property": "C18",
   "status": "proved",
   "theorems": [
    "Phoebus.FluxCT.divB_run_2D",
    "Phoebus.FluxCT.divB_run_3D"
   ],
   "note": ""
  },
  {
   "property": "C19",
   "status": "proved",
   "theorems": [
    "Phoebus.FixFlux.total_fluxDiv",
    "Phoebus.FixFlux.closed_box_rate",
    "Phoebus.FixFlux.closed_box_run",
    "Phoebus.FixFlux.open_box_rate",
    "Phoebus.FixFlux.open_box_run"
   ],
   "note": "Uniform Cartesian block; geometric source terms not included."
  },
  {
   "property": "C20",
   "status": "proved",
   "theorems": [
    "Phoebus.FixFlux.outflow_mass",
    "Phoebus.FixFlux.wall_zero",
    "Phoebus.FixFlux.wall_rest",
    "Phoebus.FixFlux.interior_faces_untouched",
    "Phoebus.FixFlux.reflect_x1_leaves_transverse",
    "Phoebus.FixFlux.x2_wall_radiation",
    "Phoebus.FixFlux.polar_ghost_antisymmetric"
   ],
   "note": "The X1/X3 reflecting fix zeroes only mass, energy and radiation energy (transverse momentum left: witness)."
  },
  {
   "property": "C21",
   "status": "partial",
   "theorems": [
    "Phoebus.Floors.floors_ge_eos",
    "Phoebus.Floors.floors_position_only",
    "Phoebus.Floors.floors_expX1RhoU_reads_output",
    "Phoebus.Floors.deficits_spec",
    "Phoebus.Floors.unchanged_within_bounds",
    "Phoebus.Floors.floors_enforced_at_rest_partial",
    "Phoebus.Floors.floors_scaled_partial",
    "Phoebus.Floors.specific_floor_not_enforced",
    "Phoebus.Floors.failed_inversion_below_floor",
    "Phoebus.Floors.injection_changes_ye",
    "Phoebus.Floors.mhd_limits",
    "Phoebus.Floors.floors_profile",
    "Phoebus.Floors.effective_hydro",
    "Phoebus.Floors.effective_mhd"
   ],
   "note": "The full claim is false of the code (witness theorems); the enforced part is proved for cells at rest and for the non-moving injection."
  },
  {
   "property": "C22",
   "status": "partial",
   "theorems": [
    "Phoebus.Floors.rescaled_lorentz",
    "Phoebus.Floors.ceiling_respected_iff_partial",
    "Phoebus.Floors.ceiling_violated",
    "Phoebus.Floors.ceiling_consistent",
    "Phoebus.Floors.ceiling_v",
    "Phoebus.Riemann.face_limits"
   ],
   "note": "The rescale factor is wrong: exact Lorentz factor after rescaling, an iff for when the ceiling holds, and a violating witness."
  },
  {
   "property": "C23",
   "status": "partial",
   "theorems": [
    "Phoebus.Repair.repaired_velocity_rescaled",
    "Phoebus.Repair.average_is_mean",
    "Phoebus.Repair.average_in_range",
    "Phoebus.Repair.repair_order_independent",
    "Phoebus.Repair.repair_schedules_agree_partial",
    "Phoebus.Repair.repaired_from_neighbours",
    "Phoebus.Repair.repaired_fallback",
    "Phoebus.Repair.rad_repair_order_independent",
    "Phoebus.Repair.xi_ceiling",
    "Phoebus.Repair.src_ghosts_unused",
    "Phoebus.Repair.nan_neighbour_poisons",
    "Phoebus.Repair.src_repair_exceeds_ceiling",
    "Phoebus.Repair.rad_repaired",
    "Phoebus.Repair.repaired_without_ye"
   ],
   "note": "Proved in real arithmetic for every mask, field, schedule and repeat; with a NaN in a failed neighbour the zero weight does not protect (proved), and the source repair omits the flux ceiling (proved)."
  },
  {
   "property": "C24",
   "status": "partial",
   "theorems": [
    "Phoebus.NetField.increase_limited",
    "Phoebus.NetField.first_rate",
    "Phoebus.NetField.update_gated",
    "Phoebus.NetField.next_update_lattice",
    "Phoebus.NetField.tuning_restores_partial",
    "Phoebus.NetField.tuning_counts",
    "Phoebus.NetField.modification_divfree",
    "Phoebus.NetField.modification_undone",
    "Phoebus.NetField.decrease_breaks_clamp",
    "Phoebus.NetField.decrease_minmax",
    "Phoebus.NetField.decrease_not_limited",
    "Phoebus.NetField.leaves_target",
    "Phoebus.NetField.trial_field_left_behind",
    "Phoebus.NetField.controller_aims_at_target",
    "Phoebus.NetField.tuning_pass"
   ],
   "note": "A decrease calls clamp with lo>hi; the controller leaves its target; with two partitions the trial field can be left behind (all proved)."
  },
  {
   "property": "C25",
   "status": "partial",
   "theorems": [
    "Phoebus.Boundary.source_interior",
    "Phoebus.Boundary.fill_order_independent",
    "Phoebus.Boundary.fill_spec",
    "Phoebus.Boundary.fill_conserved",
    "Phoebus.Boundary.fill_idempotent",
    "Phoebus.Boundary.fills_commute",
    "Phoebus.Boundary.reflect_parity",
    "Phoebus.Boundary.polar_parity",
    "Phoebus.Boundary.polar_flux_wrong_parity",
    "Phoebus.Boundary.swarm_faces_partial",
    "Phoebus.Boundary.swarm_inner_x2_wrong",
    "Phoebus.Boundary.swarm_removes"
   ],
   "note": "Fluid fills proved for all blocks, sides, orders; the polar fill does not flip the radiation flux and the inner X2 particle outflow is wired to X1 (both proved)."
  },
  {
   "property": "C26",
   "status": "partial",
   "theorems": [
    "Phoebus.Boundary.inflow_stopped",
    "Phoebus.Boundary.ucon1_is_four_velocity",
    "Phoebus.Boundary.inflow_succeeds_partial",
    "Phoebus.Boundary.inflow_check_not_finite",
    "Phoebus.Boundary.rad_inflow_stopped"
   ],
   "note": "Holds whenever the corrected speed is subluminal; otherwise the result is not finite (witness)."
  },
  {
   "property": "C27",
   "status": "partial",
   "theorems": [
    "Phoebus.Driver.step_status_partial",
    "Phoebus.Driver.step_status_wrong",
    "Phoebus.Driver.failed_stage_reported_complete",
    "Phoebus.Driver.stages_stop_at_failure"
   ],
   "note": "The stated property is false of the code (status overwritten): negation proved, and the exact behaviour."
  },
  {
   "property": "C28",
   "status": "proved",
   "theorems": [
    "Phoebus.Driver.chosen_dt_bounds",
    "Phoebus.Driver.chosen_dt_exact",
    "Phoebus.Driver.run_never_passes_tlim",
    "Phoebus.Driver.run_progress",
    "Phoebus.Driver.run_reaches_tlim",
    "Phoebus.Driver.dt_init_caps_every_step"
   ],
   "note": ""
  },
  {
   "property": "C29",
   "status": "proved",
   "theorems": [
    "Phoebus.Driver.rk_stage_convex",
    "Phoebus.Driver.rk_constant",
    "Phoebus.Driver.rk_exact",
    "Phoebus.Driver.rk_vl2_wrong",
    "Phoebus.Driver.stage_times",
    "Phoebus.FluxCT.run_invariant",
    "Phoebus.FluxCT.stage_rate_B",
    "Phoebus.Driver.stage_time_spec"
   ],
   "note": "Integrator coefficients come from Parthenon (outside the repository); vl2 and rk3 stage times disagree (proved)."
  },
  {
   "property": "C30",
   "status": "proved",
   "theorems": [
    "Phoebus.GeomUtils.connection_symm",
    "Phoebus.GeomUtils.connection_metric",
    "Phoebus.GeomUtils.connection_unique",
    "Phoebus.GeomUtils.connection_contract",
    "Phoebus.GeomUtils.connection_zero",
    "Phoebus.GeomUtils.metricGradientFD_symm",
    "Phoebus.GeomUtils.metricGradientFD_quadratic",
    "Phoebus.GeomUtils.gradLnAlphaFD_linear",
    "Phoebus.GeomUtils.fd_const",
    "Phoebus.GeomUtils.fd_time",
    "Phoebus.GeomUtils.fd_time_wrong"
   ],
   "note": "Also: the finite-difference gradient is exact on quadratics, and its time component is zero even for a time-dependent metric (witness)."
  },
  {
   "property": "C31",
   "status": "proved",
   "theorems": [
    "Phoebus.GeomUtils.flatten2_symm",
    "Phoebus.GeomUtils.flatten2_formula",
    "Phoebus.GeomUtils.flatten2_lt",
    "Phoebus.GeomUtils.symSize_eq",
    "Phoebus.GeomUtils.flatten2_inj",
    "Phoebus.GeomUtils.flatten2_onto"
   ],
   "note": "For every dimension."
  },
  {
   "property": "C32",
   "status": "partial",
   "theorems": [
    "Phoebus.Cached.cached_scalars",
    "Phoebus.Cached.cached_metric4_partial",
    "Phoebus.Cached.cached_metric3",
    "Phoebus.Cached.cached_gamInv",
    "Phoebus.Cached.cached_derivs",
    "Phoebus.Cached.cached_derivs_fd",
    "Phoebus.Cached.cached_connection",
    "Phoebus.Cached.cached_metric4_inverse",
    "Phoebus.Cached.cached_axisymmetric",
    "Phoebus.Cached.cached_coords_shifted",
    "Phoebus.Cached.cached_coords_wrong",
    "Phoebus.Cached.fd_linear"
   ],
   "note": "Every quantity but the coordinates, which are read one component off (proved with a witness). Off-grid readers: C114."
  },
  {
   "property": "C33",
   "status": "partial",
   "theorems": [
    "Phoebus.Metrics.inverse_partial",
    "Phoebus.Metrics.choice_good",
    "Phoebus.Metrics.minkowski_good",
    "Phoebus.Metrics.boosted_good",
    "Phoebus.Metrics.sphMinkowski_good",
    "Phoebus.Metrics.snake_good",
    "Phoebus.Metrics.inchworm_good",
    "Phoebus.Metrics.flrw_good",
    "Phoebus.Metrics.kerrSchild_good",
    "Phoebus.Metrics.boyerLindquist_metric",
    "Phoebus.Metrics.boyerLindquist_inverse_wrong"
   ],
   "note": "Seven systems at every regular point; Boyer-Lindquist's inverse is not an inverse (witness)."
  },
  {
   "property": "C34",
   "status": "partial",
   "theorems": [
    "Phoebus.Metrics.assembles_partial",
    "Phoebus.Metrics.minkowski_good",
    "Phoebus.Metrics.boosted_good",
    "Phoebus.Metrics.sphMinkowski_good",
    "Phoebus.Metrics.snake_good",
    "Phoebus.Metrics.inchworm_good",
    "Phoebus.Metrics.flrw_good",
    "Phoebus.Metrics.kerrSchild_good",
    "Phoebus.Metrics.kerrSchild_lapse_range",
    "Phoebus.Metrics.boyerLindquist_metric3_swapped",
    "Phoebus.Metrics.boyerLindquist_lapse_reciprocal",
    "Phoebus.Metrics.boyerLindquist_arrays",
    "Phoebus.Metrics.boyerLindquist_detGamma_reciprocal",
    "Phoebus.Metrics.boyerLindquist_gamInv_swapped",
    "Phoebus.Metrics.boyerLindquist_spin_arrays",
    "Phoebus.Metrics.kerrInv_inverse"
   ],
   "note": "Boyer-Lindquist returns a reciprocal lapse and swapped 3-metric (witnesses)."
  },
  {
   "property": "C35",
   "status": "partial",
   "theorems": [
    "Phoebus.Metrics.derivatives_partial",
    "Phoebus.Metrics.ex_choice",
    "Phoebus.Metrics.minkowski_good",
    "Phoebus.Metrics.boosted_good",
    "Phoebus.Metrics.sphMinkowski_good",
    "Phoebus.Metrics.sphMinkowski_deriv_negative",
    "Phoebus.Metrics.snake_good",
    "Phoebus.Metrics.inchworm_good",
    "Phoebus.Metrics.flrw_good",
    "Phoebus.Metrics.kerrSchild_good",
    "Phoebus.Metrics.kerrSchild_deriv_negative",
    "Phoebus.Metrics.boyerLindquist_derivative_of_inverse",
    "Phoebus.Metrics.boyerLindquist_derivative_wrong",
    "Phoebus.Metrics.boyerLindquist_derivative_schwarzschild",
    "Phoebus.Metrics.ks_deriv_r",
    "Phoebus.Metrics.ks_deriv_th",
    "Phoebus.Metrics.boyerLindquist_spin_derivative",
    "Phoebus.Metrics.boyerLindquist_spin_angular",
    "Phoebus.Metrics.boyerLindquist_angular_wrong"
   ],
   "note": "True derivatives at positive radius; at negative radius (ghost zones) the sign is wrong (witness). Boyer-Lindquist returns the derivatives of the inverse metric."
  },
  {
   "property": "C36",
   "status": "partial",
   "theorems": [
    "Phoebus.Transform.modified_algebraic_partial",
    "Phoebus.Transform.modified_contraction",
    "Phoebus.Transform.metricGradientFD_tendsto",
    "Phoebus.Transform.modified_deriv_tendsto",
    "Phoebus.Transform.modified_static_time",
    "Phoebus.Transform.modified_time_wrong",
    "Phoebus.Transform.scaling_inverse",
    "Phoebus.Transform.ex_modified",
    "Phoebus.Transform.modified_gradLnAlpha"
   ],
   "note": "Algebraic tensor law for every invertible Jacobian pair and limits of the finite-difference derivatives; the time component for time-dependent metrics is wrong (witness modified_time_wrong)."
  },
  {
   "property": "C37",
   "status": "partial",
   "theorems": [
    "Phoebus.Transform.mgr_jacobians_inverse_partial",
    "Phoebus.Transform.hexp_deriv",
    "Phoebus.Transform.mgr_dr",
    "Phoebus.Transform.mgr_dth",
    "Phoebus.Transform.mgr_poles",
    "Phoebus.Transform.mgr_theta_monotone",
    "Phoebus.Transform.poleFix_spec",
    "Phoebus.Transform.fmks_consistent",
    "Phoebus.Transform.blToKs_isometry",
    "Phoebus.Transform.blToFmks_isometry",
    "Phoebus.Transform.sphCoords_invert",
    "Phoebus.Transform.sph_jacobians_inverse",
    "Phoebus.Transform.sph_jcon_deriv",
    "Phoebus.Transform.sph_jcov_deriv",
    "Phoebus.Transform.sphDerivs_relation",
    "Phoebus.Transform.sphDerivs_wrong",
    "Phoebus.Metrics.boosted_pullback"
   ],
   "note": "Jacobians inverse and equal to the derivatives of the maps at regular points; the helper GetCoordsAndDerivatives has wrong powers of r (witness sphDerivs_wrong)."
  },
  {
   "property": "C38",
   "status": "partial",
   "theorems": [
    "Phoebus.Tetrads.orthonormalize_orthonormal",
    "Phoebus.Tetrads.tetrad_orthonormal_partial",
    "Phoebus.Tetrads.frame_round_trip",
    "Phoebus.Tetrads.tetrad_round_trip",
    "Phoebus.Tetrads.tetrad_comoving",
    "Phoebus.Tetrads.trial_degenerate",
    "Phoebus.Tetrads.ex_tetrad"
   ],
   "note": "Proved for the default trial vectors; a user-supplied trial vector can make the basis degenerate (witness trial_degenerate)."
  },
  {
   "property": "C39",
   "status": "proved",
   "theorems": [
    "Phoebus.Units.getters_inverse",
    "Phoebus.Units.units_consistent",
    "Phoebus.Units.units_input",
    "Phoebus.Units.code_constants",
    "Phoebus.Units.kb_code",
    "Phoebus.Units.scaleFree_constants"
   ],
   "note": "Also found: Boltzmann's constant in code units is 1/energy unit, not one as the comment says, and in scale-free mode the code constants stay in CGS."
  },
  {
   "property": "C40",
   "status": "proved",
   "theorems": [
    "Phoebus.Adiabats.minEnthalpy_spec",
    "Phoebus.Adiabats.minEnthalpy_min",
    "Phoebus.Adiabats.minEnthalpy_cap",
    "Phoebus.Adiabats.minEnthalpy_gt_one",
    "Phoebus.Adiabats.sampleRho_spec",
    "Phoebus.Adiabats.rhoBounds_order",
    "Phoebus.Adiabats.rhoBounds_cross",
    "Phoebus.Adiabats.enthalpy_spec"
   ],
   "note": "Every sample count and enthalpy function."
  },
  {
   "property": "C41",
   "status": "partial",
   "theorems": [
    "Phoebus.Monopole.volIntersect_eq",
    "Phoebus.Monopole.volIntersect_range",
    "Phoebus.Monopole.volIntersect_sum_partial",
    "Phoebus.Monopole.range_complete",
    "Phoebus.Monopole.deposit_conserves",
    "Phoebus.Monopole.sphVolume_exact",
    "Phoebus.Monopole.uniform_matter",
    "Phoebus.Monopole.wide_shell_weight_zero",
    "Phoebus.Monopole.range_in_bounds"
   ],
   "note": "Holds when the shell is not wider than the cell, the case the algorithm is written for; a wider shell gets weight zero (witness wide_shell_weight_zero)."
  },
  {
   "property": "C42",
   "status": "proved",
   "theorems": [
    "Phoebus.Monopole.thomas_solves",
    "Phoebus.Monopole.solves_unique",
    "Phoebus.Monopole.dominant_pivots",
    "Phoebus.Monopole.lapse_equation",
    "Phoebus.Monopole.rows_dominant",
    "Phoebus.Monopole.lapse_monotone",
    "Phoebus.Monopole.vacuum_lapse",
    "Phoebus.Monopole.ex_star",
    "Phoebus.Monopole.ex_star_lapse"
   ],
   "note": "Pivots are shown nonzero for matter with rho+S >= 0 and resolved gradients."
  },
  {
   "property": "C43",
   "status": "partial",
   "theorems": [
    "Phoebus.Monopole.adm_dyad",
    "Phoebus.Monopole.vacuum_hypersurface",
    "Phoebus.Monopole.vacuum_lapse",
    "Phoebus.Monopole.vacuum_gradients_partial",
    "Phoebus.Monopole.vacuum_not_static_near_center",
    "Phoebus.Monopole.static_no_time_derivative",
    "Phoebus.Monopole.shift_consistent",
    "Phoebus.Monopole.first_step_flat",
    "Phoebus.Monopole.timestep_limits",
    "Phoebus.Monopole.interpolate_node",
    "Phoebus.Monopole.interpolate_quadratic",
    "Phoebus.Monopole.interpolate_last_wrong",
    "Phoebus.Monopole.adm_sources",
    "Phoebus.Monopole.adm_trace_invariant",
    "Phoebus.Monopole.monopoleSph_algebraic",
    "Phoebus.Monopole.monopoleSph_good",
    "Phoebus.Monopole.monopoleSph_flat",
    "Phoebus.Monopole.misner_sharp"
   ],
   "note": "Flat hypersurface, lapse, shift, metric; inside r <= 1e-2 the time derivatives are not zero in vacuum (witness vacuum_not_static_near_center)."
  },
  {
   "property": "C44",
   "status": "proved",
   "theorems": [
    "Phoebus.TOV.mass_monotone",
    "Phoebus.TOV.pressure_monotone",
    "Phoebus.TOV.step_frozen",
    "Phoebus.TOV.frozen_outside",
    "Phoebus.TOV.first_step",
    "Phoebus.TOV.matter_spec",
    "Phoebus.TOV.polytrope_laws",
    "Phoebus.TOV.polytrope_eosOk",
    "Phoebus.TOV.enthalpy_deriv",
    "Phoebus.TOV.hydrostatic",
    "Phoebus.TOV.mass_equation",
    "Phoebus.TOV.polytropeK_entropy",
    "Phoebus.TOV.step_midpoint"
   ],
   "note": "Every grid and every EOS meeting the monotonicity hypotheses (met by the polytrope)."
  },
  {
   "property": "C45",
   "status": "partial",
   "theorems": [
    "Phoebus.Tracers.rhs_coordVel",
    "Phoebus.Tracers.rhs_lowdim",
    "Phoebus.Tracers.rhs_timelike",
    "Phoebus.Tracers.advect_inactive",
    "Phoebus.Tracers.advect_uniform_partial",
    "Phoebus.Tracers.advect_midpoint",
    "Phoebus.Tracers.advect_own_block",
    "Phoebus.Tracers.flat_valid",
    "Phoebus.Tracers.advect_block_zero",
    "Phoebus.Tracers.bernoulli_wrong",
    "Phoebus.Tracers.ye_never_stored"
   ],
   "note": "Holds for tracers of the first block of a pack; tracers of other blocks read block zero (witness advect_block_zero)."
  },
  {
   "property": "C46",
   "status": "partial",
   "theorems": [
    "Phoebus.Closure.con2prim_prim2con_raw",
    "Phoebus.Closure.con2prim_prim2con_number",
    "Phoebus.Closure.eddington_round_trip_partial",
    "Phoebus.Closure.eddington_inverse",
    "Phoebus.Closure.round_trip_fails_above_ceiling",
    "Phoebus.Closure.radT_frame",
    "Phoebus.Closure.prim2con_tensor",
    "Phoebus.Closure.pressure_trace",
    "Phoebus.Closure.pressure_lower",
    "Phoebus.Closure.prim2con_energy_wrong",
    "Phoebus.Closure.con2prim_repair",
    "Phoebus.Closure.number_flux_wrong",
    "Phoebus.Closure.ccov_eq",
    "Phoebus.Closure.momentum_flux_tensor",
    "Phoebus.Closure.energy_flux_tensor",
    "Phoebus.Closure.check_success_iff",
    "Phoebus.Closure.check_failure_iff",
    "Phoebus.Closure.con2prim_strategy"
   ],
   "note": "Holds for every velocity with v^2 <= 0.9999 (round trip both ways, and the moments are the projections of the stress tensor); above the ceiling the Lorentz factor is capped but the velocity is not, and the round trip fails (witness). With a nonzero pressure tensor the energy is not T(n,n) (witness)."
  },
  {
   "property": "C47",
   "status": "partial",
   "theorems": [
    "Phoebus.Closure.source_update_solves_partial",
    "Phoebus.Closure.source_update_unique",
    "Phoebus.Closure.source_update_zero",
    "Phoebus.Closure.source_update_equilibrium",
    "Phoebus.Closure.source_update_wrong",
    "Phoebus.Closure.ex_source"
   ],
   "note": "Holds whenever the pressure tensor has no component along the velocity (always with the Eddington closure); otherwise the second row of the system is inconsistent with the moments (witness)."
  },
  {
   "property": "C48",
   "status": "partial",
   "theorems": [
    "Phoebus.Closure.eddFactor_limits",
    "Phoebus.Closure.eddFactor_le_one",
    "Phoebus.Closure.eddFactor_range_partial",
    "Phoebus.Closure.eddFactor_below_third",
    "Phoebus.Closure.tilPi_traceless",
    "Phoebus.Closure.tilPi_diffusive",
    "Phoebus.Closure.flux_factor_range",
    "Phoebus.Closure.closure_traceless",
    "Phoebus.Closure.hdot_dot4",
    "Phoebus.Closure.basis_orthonormal",
    "Phoebus.Closure.trial_direction_unit",
    "Phoebus.Closure.solve_closure_range",
    "Phoebus.Closure.solve_closure_angle_fixed",
    "Phoebus.Closure.solve_closure_angle_wrong",
    "Phoebus.Closure.nrStep_turn",
    "Phoebus.Closure.residual_zero_iff",
    "Phoebus.Closure.residual_direction"
   ],
   "note": "Limits hold; between 0 and 1/2 the factor is below 1/3 (proved for every such flux factor), and the angular equation is never solved (witness)."
  },
  {
   "property": "C49",
   "status": "partial",
   "theorems": [
    "Phoebus.MomentSource.exchange_conserves",
    "Phoebus.MomentSource.no_fluid_update",
    "Phoebus.MomentSource.exchange_failure",
    "Phoebus.MomentSource.oned_failure_leaves_increments",
    "Phoebus.MomentSource.oned_ignore_all",
    "Phoebus.MomentSource.oned_ignore_all_conserves",
    "Phoebus.MomentSource.recovery_failure",
    "Phoebus.MomentSource.fourd_success",
    "Phoebus.MomentSource.rescale_never",
    "Phoebus.MomentSource.Solver4.scaling_spec",
    "Phoebus.MomentSource.jNew_backward_euler",
    "Phoebus.MomentSource.tResidual_zero_iff",
    "Phoebus.MomentSource.tResidual_strictMono",
    "Phoebus.MomentSource.srcTerm_partial",
    "Phoebus.MomentSource.srcTerm_metric_wrong",
    "Phoebus.MomentSource.srcTerm_no_scattering",
    "Phoebus.MomentSource.magnetic_field_dropped",
    "Phoebus.MomentSource.ex_fourd",
    "Phoebus.MomentSource.ex_fourd_total",
    "Phoebus.MomentSource.srcW_eq",
    "Phoebus.MomentSource.Solver4.jac_exact",
    "Phoebus.MomentSource.Solver4.step_spec",
    "Phoebus.MomentSource.Solver4.pass_affine",
    "Phoebus.MomentSource.Solver4.pass_rescue",
    "Phoebus.MomentSource.recovery_failure_floor"
   ],
   "note": "Exact when the solver and the primitive recovery succeed; when the solver fails the fluid is still changed (exchange_failure), and a failed recovery overwrites the cell."
  },
  {
   "property": "C50",
   "status": "proved",
   "theorems": [
    "Phoebus.KdGrid.dir_unit",
    "Phoebus.KdGrid.quad_exact",
    "Phoebus.KdGrid.quad_trace",
    "Phoebus.KdGrid.quad_additive",
    "Phoebus.KdGrid.quad_partition",
    "Phoebus.KdGrid.quad_sphere"
   ],
   "note": "Stronger than stated: every weight is the exact iterated integral of n_i n_j over the cell."
  },
  {
   "property": "C51",
   "status": "proved",
   "theorems": [
    "Phoebus.Geodesics.push_time",
    "Phoebus.Geodesics.pushes_time",
    "Phoebus.Geodesics.pushes_flat",
    "Phoebus.Geodesics.pushes_flat_split",
    "Phoebus.Geodesics.pushes_killing",
    "Phoebus.Geodesics.kSource_hamilton",
    "Phoebus.Geodesics.push_heun_partial",
    "Phoebus.Geodesics.push_second_stage_wrong",
    "Phoebus.Geodesics.ex_pushes"
   ],
   "note": "Also: a symmetry conserves its wave-vector component exactly; the second stage evaluates the force at the old position, so the method is not Heun in curved space (witness)."
  },
  {
   "property": "C52",
   "status": "proved",
   "theorems": [
    "Phoebus.LightBulb.tau_mono",
    "Phoebus.LightBulb.tau_gt_hundred",
    "Phoebus.LightBulb.gain_latch",
    "Phoebus.LightBulb.gain_stays",
    "Phoebus.LightBulb.dYe_bounds",
    "Phoebus.LightBulb.dYe_fit",
    "Phoebus.LightBulb.ye_update",
    "Phoebus.LightBulb.ye_history",
    "Phoebus.LightBulb.heat_cool",
    "Phoebus.LightBulb.bulb_force",
    "Phoebus.LightBulb.bulb_at_rest",
    "Phoebus.LightBulb.species_force",
    "Phoebus.LightBulb.lepton_sign",
    "Phoebus.LightBulb.cooling_total",
    "Phoebus.LightBulb.ex_ye",
    "Phoebus.LightBulb.yeFit_spec",
    "Phoebus.LightBulb.ye_history_fit",
    "Phoebus.LightBulb.heat_cool_laws",
    "Phoebus.LightBulb.bulb_applied"
   ],
   "note": "Also: the four-force is pure heating or cooling in the fluid frame, and the electron fraction is bounded below through any history."
  },
  {
   "property": "C53",
   "status": "partial",
   "theorems": [
    "Phoebus.History.horizon_unique",
    "Phoebus.History.horizon_none",
    "Phoebus.History.column_value",
    "Phoebus.History.column_linear",
    "Phoebus.History.column_bound_partial",
    "Phoebus.History.column_blocks",
    "Phoebus.History.column_overshoot",
    "Phoebus.History.mdot_surface",
    "Phoebus.History.pillbox_lowdim",
    "Phoebus.History.mdot_cell",
    "Phoebus.History.massFlux_eq",
    "Phoebus.History.magnetization_eq",
    "Phoebus.History.emMomentumFlux_eq",
    "Phoebus.History.emEnergyFlux_error",
    "Phoebus.History.emEnergyFlux_wrong",
    "Phoebus.History.gain_block_zero",
    "Phoebus.History.gain_conserved"
   ],
   "note": "Exactly one cell is selected, for any block decomposition, and linear profiles are exact; the interpolated value may overshoot the values used (witness), and the jet energy flux is wrong by 2 b^1 b^0 (proved)."
  },
  {
   "property": "C54",
   "status": "partial",
   "theorems": [
    "Phoebus.Flags.robust_flags_partial",
    "Phoebus.Flags.robust_no_failure",
    "Phoebus.Flags.classic_flags_reversed",
    "Phoebus.Flags.classic_wipes_good_block",
    "Phoebus.Flags.classic_keeps_failed"
   ],
   "note": "True for the robust inverter, reversed for the classic one."
  },
  {
   "property": "C55",
   "status": "partial",
   "theorems": [
    "Phoebus.Robust.ratio_denominator_nonzero",
    "Phoebus.Robust.ratio_bounded",
    "Phoebus.Robust.ratio_approximates",
    "Phoebus.Robust.ratio_sign",
    "Phoebus.Robust.sgn_spec",
    "Phoebus.Robust.makePositive_spec",
    "Phoebus.Robust.makeBounded_spec_partial",
    "Phoebus.Robust.makeBounded_escapes"
   ],
   "note": "make_bounded can return values outside its range for narrow intervals (negation proved)."
  },
  {
   "property": "C56",
   "status": "proved",
   "theorems": [
    "Phoebus.Riemann.char_speeds_light_cone",
    "Phoebus.Riemann.cmsq_bounds",
    "Phoebus.Riemann.cmsq_eq"
   ],
   "note": ""
  },
  {
   "property": "C57",
   "status": "partial",
   "theorems": [
    "Phoebus.Riemann.flux_conserved_agree",
    "Phoebus.Riemann.flux_conserved_covariant_partial",
    "Phoebus.Riemann.flux_physical",
    "Phoebus.Riemann.flux_induction_antisymmetric"
   ],
   "note": "Full in the Valencia formulation; in the covariant formulation the energy slot is off by (alpha-1) b^0 b_0 (exact defect proved)."
  },
  {
   "property": "C58",
   "status": "partial",
   "theorems": [
    "Phoebus.FixFlux.divB_driver_partial",
    "Phoebus.FixFlux.divB_driver_pole_broken"
   ],
   "note": "True away from polar boundaries; at the first node off a pole the driver's order breaks it (witness)."
  },
  {
   "property": "C59",
   "status": "partial",
   "theorems": [
    "Phoebus.Driver.schedule_independent_partial",
    "Phoebus.Driver.source_lost_in_legal_schedule",
    "Phoebus.Driver.legal_cases"
   ],
   "note": "False for variables with geometric sources: update does not depend on add_rhs (witness schedule)."
  },
  {
   "property": "C60",
   "status": "proved",
   "theorems": [
    "Phoebus.Driver.monopole_runs",
    "Phoebus.Driver.monopole_never"
   ],
   "note": "The code runs n+1 times where the documentation says n; the exact count is proved."
  },
  {
   "property": "C61",
   "status": "proved",
   "theorems": [
    "Phoebus.C2P.c2p_recovers_state",
    "Phoebus.C2P.c2p_no_field",
    "Phoebus.C2P.regulariser_matters"
   ],
   "note": "Real arithmetic with the regulariser SMALL of ratios set to zero and that of make_positive (EPS) arbitrary up to the energy density of the state; uniqueness of the root (EOS dependent) is not claimed."
  },
  {
   "property": "C62",
   "status": "proved",
   "theorems": [
    "Phoebus.C2P.residual_bracketed",
    "Phoebus.C2P.residual_continuousOn",
    "Phoebus.C2P.root_exists",
    "Phoebus.C2P.findMu_safe",
    "Phoebus.C2P.findMu_accurate",
    "Phoebus.C2P.prep_scalars"
   ],
   "note": ""
  },
  {
   "property": "C63",
   "status": "partial",
   "theorems": [
    "Phoebus.C2P.output_bounds",
    "Phoebus.C2P.velocity_norm",
    "Phoebus.C2P.gamma_ceiling_partial",
    "Phoebus.C2P.gamma_ceiling_violated",
    "Phoebus.C2P.status_ignores_convergence",
    "Phoebus.C2P.unwrap_cons"
   ],
   "note": "Density and energy bounds hold for every state; the Lorentz factor ceiling does not (negation proved), and the status ignores convergence."
  },
  {
   "property": "C64",
   "status": "partial",
   "theorems": [
    "Phoebus.Repair.purge_spec_partial",
    "Phoebus.Repair.purge_misses_last"
   ],
   "note": "The last active slot is never examined."
  },
  {
   "property": "C65",
   "status": "proved",
   "theorems": [
    "Phoebus.MonteCarlo.dN_energy",
    "Phoebus.MonteCarlo.roundNs_close",
    "Phoebus.MonteCarlo.roundNs_mean",
    "Phoebus.MonteCarlo.packet_energy",
    "Phoebus.MonteCarlo.mean_emitted_energy",
    "Phoebus.MonteCarlo.ex_cfg"
   ],
   "note": ""
  },
  {
   "property": "C66",
   "status": "proved",
   "theorems": [
    "Phoebus.MonteCarlo.packet_slots",
    "Phoebus.MonteCarlo.ex_slots"
   ],
   "note": ""
  },
  {
   "property": "C67",
   "status": "proved",
   "theorems": [
    "Phoebus.MonteCarlo.max_pos_of_dN",
    "Phoebus.MonteCarlo.draw_ok",
    "Phoebus.MonteCarlo.sampleLnu_ok",
    "Phoebus.MonteCarlo.dN_eq_integral",
    "Phoebus.MonteCarlo.nusamp_grid",
    "Phoebus.MonteCarlo.spectrum_energy",
    "Phoebus.MonteCarlo.ex_cfg"
   ],
   "note": "The density of an accepted candidate is prob divided by its integral; that elementary fact about rejection sampling with independent draws is used in the reading of spectrum_energy, not formalised."
  },
  {
   "property": "C68",
   "status": "proved",
   "theorems": [
    "Phoebus.MonteCarlo.emitted_packet",
    "Phoebus.MonteCarlo.direction_uniform",
    "Phoebus.MonteCarlo.ex_emit"
   ],
   "note": ""
  },
  {
   "property": "C69",
   "status": "partial",
   "theorems": [
    "Phoebus.MonteCarlo.step_momentum",
    "Phoebus.MonteCarlo.run_momentum",
    "Phoebus.MonteCarlo.run_leptons_partial",
    "Phoebus.MonteCarlo.lepton_defect",
    "Phoebus.MonteCarlo.lepton_numbers",
    "Phoebus.MonteCarlo.mesh_leptons_partial",
    "Phoebus.MonteCarlo.ex_run"
   ],
   "note": "Four-momentum proved for all histories; lepton number only for Ucon[0]=1, with the exact defect otherwise. Many blocks, communication and outflow: C163."
  },
  {
   "property": "C70",
   "status": "proved",
   "theorems": [
    "Phoebus.MonteCarlo.transport_perm",
    "Phoebus.MonteCarlo.transport_eq"
   ],
   "note": "Exact arithmetic: floating-point atomics are not associative."
  },
  {
   "property": "C71",
   "status": "proved",
   "theorems": [
    "Phoebus.MonteCarlo.absorbs_iff",
    "Phoebus.MonteCarlo.absorption_probability",
    "Phoebus.MonteCarlo.no_absorption"
   ],
   "note": ""
  },
  {
   "property": "C72",
   "status": "partial",
   "theorems": [
    "Phoebus.MonteCarlo.correction_bounds",
    "Phoebus.MonteCarlo.correction_direction",
    "Phoebus.MonteCarlo.tuning_history",
    "Phoebus.MonteCarlo.tuning_squared",
    "Phoebus.MonteCarlo.tuning_due",
    "Phoebus.MonteCarlo.weight_packets",
    "Phoebus.MonteCarlo.scattering_unbounded",
    "Phoebus.MonteCarlo.scattering_exact",
    "Phoebus.MonteCarlo.allDone_partial",
    "Phoebus.MonteCarlo.allDone_wrong"
   ],
   "note": "Emission bounds proved; the scattering correction is unbounded and the completion test only right with one block per rank."
  },
  {
   "property": "C73",
   "status": "proved",
   "theorems": [
    "Phoebus.Sources.momentum_source_eq",
    "Phoebus.Sources.momentum_source_symmetry",
    "Phoebus.Sources.energy_source_covariant",
    "Phoebus.Sources.energy_source_valencia",
    "Phoebus.Sources.energy_source_static",
    "Phoebus.Sources.sources_flat",
    "Phoebus.Sources.ex_sources"
   ],
   "note": "robust::ratio regulariser taken as 0."
  },
  {
   "property": "C74",
   "status": "proved",
   "theorems": [
    "Phoebus.Sources.conT_symm",
    "Phoebus.Sources.conT_projections",
    "Phoebus.Sources.rad_eq_fluid",
    "Phoebus.Sources.rad_momentum_symmetry",
    "Phoebus.Sources.rad_energy_source"
   ],
   "note": ""
  },
  {
   "property": "C75",
   "status": "proved",
   "theorems": [
    "Phoebus.Timestep.cmsq_bounds",
    "Phoebus.Timestep.signalSpeed_eq",
    "Phoebus.Timestep.signal_light",
    "Phoebus.Timestep.face_speed",
    "Phoebus.Timestep.fluid_cfl",
    "Phoebus.Timestep.fluid_dt_sharp",
    "Phoebus.Timestep.fluid_dt_lower",
    "Phoebus.Timestep.fluid_dt_perm",
    "Phoebus.Timestep.mesh_cfl",
    "Phoebus.Timestep.first_call",
    "Phoebus.Timestep.ex_fluid_dt",
    "Phoebus.Timestep.fluid_cfl_faces"
   ],
   "note": "On the very first call only cell speeds are available; shown equal to using zero face speeds."
  },
  {
   "property": "C76",
   "status": "partial",
   "theorems": [
    "Phoebus.Timestep.radSpeed_eq",
    "Phoebus.Timestep.peclet_bounds",
    "Phoebus.Timestep.peclet_anti",
    "Phoebus.Timestep.radSig_bounds",
    "Phoebus.Timestep.rad_cfl_partial",
    "Phoebus.Timestep.rad_cfl_not_summed",
    "Phoebus.Timestep.rad_speed_safe_partial",
    "Phoebus.Timestep.rad_speed_wrong"
   ],
   "note": "Per-direction bound proved; the sum over directions is not bounded by the CFL number and W v is used in place of v (both with witnesses)."
  },
  {
   "property": "C77",
   "status": "partial",
   "theorems": [
    "Phoebus.Moments.flux_decomposition",
    "Phoebus.Moments.flux_degenerate",
    "Phoebus.Moments.thin_physical",
    "Phoebus.Moments.physEnergy_eq",
    "Phoebus.Moments.physMomentum_eq",
    "Phoebus.Moments.flux_consistent",
    "Phoebus.Moments.sig_bounds",
    "Phoebus.Moments.face_velocity",
    "Phoebus.Moments.face_ceiling_wrong",
    "Phoebus.Moments.face_bounds_partial",
    "Phoebus.Moments.diffusion_flux",
    "Phoebus.Moments.opaque_limit",
    "Phoebus.Moments.ex_diffusion",
    "Phoebus.Moments.faceKappa_spec",
    "Phoebus.Moments.llf_spec"
   ],
   "note": "All proved except the velocity ceiling, which the code does not enforce (witness face_ceiling_wrong)."
  },
  {
   "property": "C78",
   "status": "partial",
   "theorems": [
    "Phoebus.Moments.prim_con_prim",
    "Phoebus.Moments.prim_con_prim_eddington",
    "Phoebus.Moments.con_prim_consistent",
    "Phoebus.Moments.flag_iff",
    "Phoebus.Moments.cell_flag_single",
    "Phoebus.Moments.cell_flag_last",
    "Phoebus.Moments.cell_flag_partial",
    "Phoebus.Moments.cell_flag_wrong",
    "Phoebus.Moments.ex_c2p"
   ],
   "note": "Round trips proved; with several species the shared failure flag keeps only the species processed last (cell_flag_wrong)."
  },
  {
   "property": "C79",
   "status": "proved",
   "theorems": [
    "Phoebus.Moments.recon_slots",
    "Phoebus.Moments.recon_slots_injective",
    "Phoebus.Moments.recon_slots_range",
    "Phoebus.Moments.recon_vars",
    "Phoebus.Moments.face_grad_exact",
    "Phoebus.Moments.face_grad_collapsed",
    "Phoebus.Moments.ex_slot"
   ],
   "note": "Index convention of Parthenon's FlatIdx and pack order trusted."
  },
  {
   "property": "C80",
   "status": "proved",
   "theorems": [
    "Phoebus.Monopole.device_constraints",
    "Phoebus.Monopole.rhs_constraints",
    "Phoebus.Monopole.step_is_midpoint"
   ],
   "note": "Both stages of a step are evaluated at the radius of its start; stated as such."
  },
  {
   "property": "C81",
   "status": "partial",
   "theorems": [
    "Phoebus.Classic.setup_p2c",
    "Phoebus.Classic.exact_root_partial",
    "Phoebus.Classic.finalize_exact",
    "Phoebus.Classic.ye_ignored",
    "Phoebus.Classic.guess_spec",
    "Phoebus.Classic.fast_safe",
    "Phoebus.Classic.signal_bounded"
   ],
   "note": "Root property proved for EOSs without Ye dependence only: the code evaluates the residual with lambda = 0 (ye_ignored); the initial guess misreads the velocity (guess_spec)."
  },
  {
   "property": "C82",
   "status": "proved",
   "theorems": [
    "Phoebus.Classic.backtrack_range",
    "Phoebus.Classic.backtrack_decreases",
    "Phoebus.Classic.loop_range",
    "Phoebus.Classic.solve_range",
    "Phoebus.Classic.success_small_step",
    "Phoebus.Classic.root_is_fixed",
    "Phoebus.Classic.fdStep_spec",
    "Phoebus.Classic.normSq_spec",
    "Phoebus.Classic.newton_affine",
    "Phoebus.Classic.ex_newton_affine",
    "Phoebus.Classic.solve_success",
    "Phoebus.Classic.solve_residual"
   ],
   "note": "Success bounds the last correction, not the residual; stated as such."
  },
  {
   "property": "C83",
   "status": "partial",
   "theorems": [
    "Phoebus.MOCMC.cells_sum",
    "Phoebus.MOCMC.solid_angle_total",
    "Phoebus.MOCMC.weights_total",
    "Phoebus.MOCMC.cells_tile_partial",
    "Phoebus.MOCMC.found_of_generic",
    "Phoebus.MOCMC.negative_cell",
    "Phoebus.MOCMC.pole_sample_stale",
    "Phoebus.MOCMC.eddington_traceless",
    "Phoebus.MOCMC.eddington_isotropic",
    "Phoebus.MOCMC.eddington_few",
    "Phoebus.MOCMC.eddington_realisable",
    "Phoebus.MOCMC.doppler_exact",
    "Phoebus.MOCMC.nusamp_centre",
    "Phoebus.MOCMC.rest_intensity",
    "Phoebus.MOCMC.cround_neg",
    "Phoebus.MOCMC.ex_cells"
   ],
   "note": "Totals proved for all located samples; pointwise tiling needs the azimuthal cut to stay inside the cell, which the code does not ensure (negative_cell); samples on edges keep stale cells (pole_sample_stale)."
  },
  {
   "property": "C84",
   "status": "partial",
   "theorems": [
    "Phoebus.MOCMC.couple_conserves_partial",
    "Phoebus.MOCMC.couple_implicit",
    "Phoebus.MOCMC.couple_all_conserves",
    "Phoebus.MOCMC.angle_average_isotropic",
    "Phoebus.MOCMC.mean_opacity_bounds",
    "Phoebus.MOCMC.single_bin_transparent",
    "Phoebus.MOCMC.sample_nonneg",
    "Phoebus.MOCMC.sample_between",
    "Phoebus.MOCMC.rest_equilibrium_stationary",
    "Phoebus.MOCMC.absorption_ignored",
    "Phoebus.MOCMC.moving_equilibrium_changed"
   ],
   "note": "Conservation and rest-frame behaviour proved; the code ignores absorption in the samples and Doppler factors in the sources (witnesses)."
  },
  {
   "property": "C85",
   "status": "partial",
   "theorems": [
    "Phoebus.MOCMC.sample_slots",
    "Phoebus.MOCMC.sample_in_zone",
    "Phoebus.MOCMC.sample_null",
    "Phoebus.MOCMC.sample_polar",
    "Phoebus.MOCMC.init_intensity",
    "Phoebus.MOCMC.boundary_reflects",
    "Phoebus.MOCMC.count_single_partial",
    "Phoebus.MOCMC.count_last_partition",
    "Phoebus.MOCMC.count_none"
   ],
   "note": "Counting is right for a single partition only (count_last_partition)."
  },
  {
   "property": "C86",
   "status": "proved",
   "theorems": [
    "Phoebus.Torus.fmPot_deriv",
    "Phoebus.Torus.enthalpy_orbit",
    "Phoebus.Torus.fm_velocity",
    "Phoebus.Torus.fm_unique",
    "Phoebus.Torus.uconNorm_unique",
    "Phoebus.Torus.uconNorm_unit",
    "Phoebus.Torus.torus_velocity",
    "Phoebus.Torus.torus_euler_r",
    "Phoebus.Torus.torus_euler_th",
    "Phoebus.Torus.lnh_edge",
    "Phoebus.Torus.lnh_mirror",
    "Phoebus.Torus.kepler_geodesic",
    "Phoebus.Torus.enthalpy_stationary",
    "Phoebus.Torus.gas_state",
    "Phoebus.Torus.density_normalised",
    "Phoebus.Torus.hydrostatic_r",
    "Phoebus.Torus.hydrostatic_th",
    "Phoebus.Torus.primVel_fourVelocity",
    "Phoebus.Torus.torus_code_velocity",
    "Phoebus.Torus.ex_orbit",
    "Phoebus.Torus.ex_orbit_spin"
   ],
   "note": "Ideal-gas branch. For spins of either sign outside the ergosphere, and inside it for prograde rotation."
  },
  {
   "property": "C87",
   "status": "proved",
   "theorems": [
    "Phoebus.Torus.field_divergence_free",
    "Phoebus.Torus.field_confined",
    "Phoebus.Torus.vecPot_corner",
    "Phoebus.Torus.beta_pmax_target",
    "Phoebus.Torus.beta_min_target",
    "Phoebus.Torus.scaled_field",
    "Phoebus.Torus.ex_beta"
   ],
   "note": "Beta uses the gas pressure only: the total pressure computed by the code is not used."
  },
  {
   "property": "C88",
   "status": "partial",
   "theorems": [
    "Phoebus.Torus.zones_inside",
    "Phoebus.Torus.ex_zones",
    "Phoebus.Torus.floored_bounds",
    "Phoebus.Torus.cellAverage_bounds",
    "Phoebus.Torus.gasRad_bracket",
    "Phoebus.Torus.zeroH_partial",
    "Phoebus.Torus.tracers_single_block",
    "Phoebus.Torus.tracers_overcount",
    "Phoebus.Torus.tracer_ids_unique",
    "Phoebus.Torus.tracer_ids_collide",
    "Phoebus.Torus.tracer_mass_total",
    "Phoebus.Torus.tracer_mass_stale"
   ],
   "note": "Tracer counts are right for one block per rank only (tracers_overcount); masses use stale counts (tracer_mass_stale); two flux components are not reset (zeroH_partial)."
  },
  {
   "property": "C89",
   "status": "partial",
   "theorems": [
    "Phoebus.Bondi.bisect_spec",
    "Phoebus.Bondi.bisect_abort",
    "Phoebus.Bondi.bisect_left_root",
    "Phoebus.Bondi.bondi_mass_flux",
    "Phoebus.Bondi.bondi_gas",
    "Phoebus.Bondi.bondi_sonic",
    "Phoebus.Bondi.Tfunc_deriv",
    "Phoebus.Bondi.sonic_iff",
    "Phoebus.Bondi.guess_between",
    "Phoebus.Bondi.bracket_inner",
    "Phoebus.Bondi.bracket_outer",
    "Phoebus.Bondi.bondi_temp_partial",
    "Phoebus.Bondi.bondi_temp_sonic_defect",
    "Phoebus.Bondi.bondi_temp_far_abort",
    "Phoebus.Bondi.shifted_x1",
    "Phoebus.Bondi.bondi_velocity",
    "Phoebus.Bondi.bondi_steady",
    "Phoebus.Bondi.bondi_code_velocity"
   ],
   "note": "Proved for 2 <= r <= 20 rs except r = rs, where the bisection discards the root at its left end (bondi_temp_sonic_defect); far outside the run aborts (bondi_temp_far_abort). Non-rotating hole only: the constants assume spin zero."
  },
  {
   "property": "C90",
   "status": "partial",
   "theorems": [
    "Phoebus.Pgen.inch_stored",
    "Phoebus.Pgen.stored_reproduces",
    "Phoebus.Pgen.flat_tU",
    "Phoebus.Pgen.jSnake_represents",
    "Phoebus.Pgen.jBoost_represents",
    "Phoebus.Pgen.jSnake_isometry",
    "Phoebus.Pgen.jBoost_isometry",
    "Phoebus.Pgen.snake_state_partial",
    "Phoebus.Pgen.boost_state",
    "Phoebus.Pgen.snake_stored",
    "Phoebus.Pgen.inch_state_wrong",
    "Phoebus.Pgen.inch_velocity"
   ],
   "note": "Holds for the boosted and snake charts; in the inchworm chart the Jacobian is not the derivative of the chart (inch_state_wrong)."
  },
  {
   "property": "C91",
   "status": "partial",
   "theorems": [
    "Phoebus.Pgen.stress_deriv",
    "Phoebus.Pgen.mass_deriv",
    "Phoebus.Pgen.faraday_deriv",
    "Phoebus.Pgen.sound1_eigenmode",
    "Phoebus.Pgen.sound2_eigenmode",
    "Phoebus.Pgen.slow_eigenmode",
    "Phoebus.Pgen.alfven_eigenmode",
    "Phoebus.Pgen.fast_eigenmode",
    "Phoebus.Pgen.entropy_eigenmode",
    "Phoebus.Pgen.entropy_runs_ten",
    "Phoebus.Pgen.sound1_needs_four_thirds",
    "Phoebus.Pgen.initial_is_wave_partial",
    "Phoebus.Pgen.snake_initial_point",
    "Phoebus.Pgen.snake_period",
    "Phoebus.Pgen.boost_period",
    "Phoebus.Pgen.boost_drift",
    "Phoebus.Pgen.rotor_tlim",
    "Phoebus.Pgen.rotor_tlim_blocks"
   ],
   "note": "Eigenmodes proved to 1e-11; the adiabatic index is not checked, the final time ignores drift (boost_drift), rotor divides it once per block (rotor_tlim)."
  },
  {
   "property": "C92",
   "status": "partial",
   "theorems": [
    "Phoebus.Pgen.boostStore_recovers_partial",
    "Phoebus.Pgen.rotorU_eq",
    "Phoebus.Pgen.shockStore_velocity",
    "Phoebus.Pgen.shockStore_slow",
    "Phoebus.Pgen.shockStore_subluminal"
   ],
   "note": "Proved for Kelvin-Helmholtz, advection and rotor; false for the shock tube (shockStore_slow)."
  },
  {
   "property": "C93",
   "status": "proved",
   "theorems": [
    "Phoebus.Pgen.hom_solves",
    "Phoebus.Pgen.bm_is_homologous",
    "Phoebus.Pgen.bm_solves",
    "Phoebus.Pgen.bm_lorentz"
   ],
   "note": ""
  },
  {
   "property": "C94",
   "status": "partial",
   "theorems": [
    "Phoebus.Pgen.energyFromRhoP_near",
    "Phoebus.Pgen.energyFromRhoP_ideal",
    "Phoebus.Pgen.energyFromRhoP_abort",
    "Phoebus.Pgen.friedmannRow_eq",
    "Phoebus.Pgen.friedmann_rest_iff_partial",
    "Phoebus.Pgen.sedov_energy",
    "Phoebus.Pgen.sedov_none",
    "Phoebus.Pgen.adv_ids_distinct",
    "Phoebus.Pgen.adv_total",
    "Phoebus.Pgen.adv_volume",
    "Phoebus.Pgen.adv_one_dim",
    "Phoebus.Pgen.adv_id_collision"
   ],
   "note": "Friedmann relies on arrays already being zero (friedmann_rest_iff); one-dimensional tracer counts are doubled (adv_one_dim)."
  },
  {
   "property": "C95",
   "status": "proved",
   "theorems": [
    "Phoebus.Tasks.Body.comm",
    "Phoebus.Tasks.race_free_deterministic",
    "Phoebus.Tasks.Region.deterministic_of_check",
    "Phoebus.Tasks.regions_complete",
    "Phoebus.Tasks.sync1_deterministic",
    "Phoebus.Tasks.flux_deterministic",
    "Phoebus.Tasks.fixup_deterministic",
    "Phoebus.Tasks.netField_deterministic",
    "Phoebus.Tasks.end_deterministic",
    "Phoebus.Tasks.cooling_deterministic"
   ],
   "note": "The footprints of the tasks are read off the code and stated in Tasks/Regions.lean; the scheduler contract of Parthenon is an assumption."
  },
  {
   "property": "C96",
   "status": "partial",
   "theorems": [
    "Phoebus.Tasks.update_race",
    "Phoebus.Tasks.diagnostic_race",
    "Phoebus.Tasks.mocmc_race",
    "Phoebus.Tasks.netField_race",
    "Phoebus.Tasks.monopole_race",
    "Phoebus.Tasks.end_race",
    "Phoebus.Tasks.bulb_race",
    "Phoebus.Tasks.mc_race",
    "Phoebus.Tasks.update_deterministic_fixed",
    "Phoebus.Tasks.mocmc_deterministic_fixed",
    "Phoebus.Tasks.netField_deterministic_fixed",
    "Phoebus.Tasks.monopole_deterministic_fixed",
    "Phoebus.Tasks.end_deterministic_fixed",
    "Phoebus.Tasks.bulb_deterministic_fixed",
    "Phoebus.Tasks.mc_deterministic_fixed",
    "Phoebus.Tasks.single_partition_deterministic_partial"
   ],
   "note": "The property is false of the code in these regions; each race is shown by two schedules, and the repaired graphs are proved deterministic."
  },
  {
   "property": "C97",
   "status": "proved",
   "theorems": [
    "Phoebus.Tasks.step_is_rk",
    "Phoebus.Tasks.step_is_rkStep"
   ],
   "note": ""
  },
  {
   "property": "C98",
   "status": "partial",
   "theorems": [
    "Phoebus.Tasks.phi_step",
    "Phoebus.Tasks.phi_step_single_partial",
    "Phoebus.Tasks.phi_loses_base",
    "Phoebus.Tasks.phi_rk2_overshoots",
    "Phoebus.Tasks.phi_added_flux",
    "Phoebus.Tasks.ex_phi_quarter"
   ],
   "note": "Holds for one stage (phi_step_single); false for more (phi_rk2_overshoots, phi_added_flux)."
  },
  {
   "property": "C99",
   "status": "partial",
   "theorems": [
    "Phoebus.Tasks.single_partition_deposit_partial",
    "Phoebus.Tasks.only_last_partition",
    "Phoebus.Tasks.deposit_correct_iff"
   ],
   "note": "Holds for one partition; false otherwise (only_last_partition)."
  }
 ]
}