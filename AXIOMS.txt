Axioms on which the theorems of MANIFEST.json depend (collected with Lean.collectAxioms).

Verif.Pie.C01_status_lists: [propext, Classical.choice, Quot.sound]
Verif.Pie.C01_untouched: [propext, Classical.choice, Quot.sound]
Verif.Pie.C02_linear_grid: [propext, Classical.choice, Quot.sound]
Verif.Pie.C02_log_grid: [propext, Classical.choice, Quot.sound]
Verif.Pie.C02_log_grid_real: [propext, Classical.choice, Quot.sound]
Verif.Pie.C02_ends_exact: [propext, Classical.choice, Quot.sound]
Verif.Pie.C03_not_stepping: [propext, Classical.choice, Quot.sound]
Verif.Pie.C03_at_the_ends: [propext, Classical.choice, Quot.sound]
Verif.Pie.C03_step_taken: [propext, Classical.choice, Quot.sound]
Verif.Pie.C04_histories_are_proper: [propext, Classical.choice, Quot.sound]
Verif.Pie.C04_zigzag: [propext, Classical.choice, Quot.sound]
Verif.Pie.C05_neighbours: [propext, Classical.choice, Quot.sound]
Verif.Pie.C06_grid_filled: [propext, Classical.choice, Quot.sound]
Verif.Pie.C06_profile_grid: [propext, Classical.choice, Quot.sound]
Verif.Pie.C07_fills_the_rest_partial: [propext, Classical.choice, Quot.sound]
Verif.Pie.C07_violated: [propext, Classical.choice, Quot.sound]
Verif.Pie.C08_profile_optimum: [propext, Classical.choice, Quot.sound]
Verif.Pie.C09_rejected: [propext, Classical.choice, Quot.sound]
Verif.Pie.C09_accepted: [propext, Classical.choice, Quot.sound]
Verif.Pie.C10_violated: [propext, Classical.choice, Quot.sound]
Verif.Pie.C10_violated_by_zero_steps: [propext, Classical.choice, Quot.sound]
Verif.Pie.C10_in_range_partial: [propext, Classical.choice, Quot.sound]
Verif.Pie.C11_violated: [propext, Classical.choice, Quot.sound]
Verif.Pie.C11_raising_vary_partial: [propext, Classical.choice, Quot.sound]
Verif.Pie.C12_violated: [propext, Classical.choice, Quot.sound]
Verif.Pie.C12_raising_linstep_partial: [propext, Classical.choice, Quot.sound]
Verif.Pie.C12_raising_logstep: [propext, Classical.choice, Quot.sound]
Verif.Pie.C13_unbounded_bijection: [propext, Classical.choice, Quot.sound]
Verif.Pie.C13_read_then_set: [propext, Classical.choice, Quot.sound]
Verif.Pie.C13_overflow: [propext, Classical.choice, Quot.sound]
Verif.Pie.C13_only_varying: [propext, Classical.choice, Quot.sound]
Verif.Pie.C14_get_params: [propext, Classical.choice, Quot.sound]
Verif.Pie.C14_get_then_set: [propext, Classical.choice, Quot.sound]
Verif.Pie.C14_set_then_get: [propext, Classical.choice, Quot.sound]
Verif.Pie.C14_stepping_raises: [propext, Classical.choice, Quot.sound]
Verif.Pie.C15_store: [propext, Quot.sound]
Verif.Pie.C15_snapshots: [propext, Classical.choice, Quot.sound]
Verif.Pie.C16_wrong_count: [propext, Quot.sound]
Verif.Pie.C16_positional: [propext, Classical.choice, Quot.sound]
Verif.Pie.C16_range_error: [propext, Classical.choice, Quot.sound]
Verif.Pie.C16_order: [propext, Classical.choice, Quot.sound]
Verif.Pie.C17_source_order: [propext, Classical.choice, Quot.sound]
Verif.Pie.C17_missing_is_silent: [propext, Classical.choice, Quot.sound]
Verif.Pie.C17_no_source: [propext, Classical.choice, Quot.sound]
Verif.Pie.C18_violated: [propext, Classical.choice, Quot.sound]
Verif.Pie.C18_definitions_partial: [propext, Classical.choice, Quot.sound]
Verif.Pie.C19_isolation_partial: [propext, Classical.choice, Quot.sound]
Verif.Pie.C19_no_sim1_partial: [propext, Classical.choice, Quot.sound]
Verif.Pie.C19_violated: [propext, Classical.choice, Quot.sound]
Verif.Pie.C20_original_data_partial: [propext, Classical.choice, Quot.sound]
Verif.Pie.C20_violated: [propext, Classical.choice, Quot.sound]
Verif.Pie.C21_agree: [propext, Classical.choice, Quot.sound]
Verif.Pie.C21_value: [propext, Classical.choice, Quot.sound]
Verif.Pie.C21_nonneg: [propext, Classical.choice, Quot.sound]
Verif.Pie.C21_scores: [propext, Classical.choice, Quot.sound]
Verif.Pie.C22_count_partial: [propext, Classical.choice, Quot.sound]
Verif.Pie.C22_violated: [propext, Classical.choice, Quot.sound]
Verif.Pie.C23_announced: [propext, Classical.choice, Quot.sound]
Verif.Pie.C23_one_call: [propext, Classical.choice, Quot.sound]
Verif.Pie.C23_reads: [propext, Classical.choice, Quot.sound]
Verif.Pie.C23_on_use: [propext, Classical.choice, Quot.sound]
Verif.Grid1.C24_top: [propext, Classical.choice, Quot.sound]
Verif.Grid1.C24_max: [propext, Classical.choice, Quot.sound]
Verif.Grid1.C24_zero_capacity: [propext, Quot.sound]
Verif.Grid1.C25_range: [propext, Classical.choice, Quot.sound]
Verif.Grid1.C25_limitRange: [propext, Classical.choice, Quot.sound]
Verif.Grid1.C26_tiling_partial: [propext, Classical.choice, Quot.sound]
Verif.Grid1.C26_accepted: [propext, Classical.choice, Quot.sound]
Verif.Grid1.C26_violated: [propext, Classical.choice, Quot.sound]
Verif.Grid1.C27_base_partial: [propext, Classical.choice, Quot.sound]
Verif.Grid1.C27_never_coarser_partial: [propext, Classical.choice, Quot.sound]
Verif.Grid1.C27_requested_partial: [propext, Classical.choice, Quot.sound]
Verif.Grid1.C27_elsewhere_partial: [propext, Classical.choice, Quot.sound]
Verif.Grid1.C27_violated: [propext, Classical.choice, Quot.sound]
Verif.Grid1.C28_points: [propext, Classical.choice, Quot.sound]
Verif.Grid1.C28_nlocate: [propext, Classical.choice, Quot.sound]
Verif.Grid1.C29_locate: [propext, Classical.choice, Quot.sound]
Verif.Grid1.C29_cell: [propext, Classical.choice, Quot.sound]
Verif.Grid1.C30_violated: [propext, Quot.sound]
Verif.Grid1.C30_violated_reversed: [propext, Classical.choice, Quot.sound]
Verif.Grid1.C30_forward_partial: [propext, Classical.choice, Quot.sound]
Verif.Grid1.C31_basic: [propext, Classical.choice, Quot.sound]
Verif.Grid1.C31_interpolant_exists: [propext, Classical.choice, Quot.sound]
Verif.Grid1.C31_linear: [propext, Classical.choice, Quot.sound]
Verif.Grid1.C31_never_raises: [propext, Classical.choice, Quot.sound]
Verif.Grid1.C31_refined: [propext, Classical.choice, Quot.sound]
Verif.Grid1.C31_refined_linear: [propext, Classical.choice, Quot.sound]
Verif.Grid1.C31_additive: [propext, Classical.choice, Quot.sound]
Verif.Grid1.C32_basic_partial: [propext, Classical.choice, Quot.sound]
Verif.Grid1.C32_bounds: [propext, Classical.choice, Quot.sound]
Verif.Grid1.C32_violated: [propext, Classical.choice, Quot.sound]
Verif.Grid1.C32_refined_partial: [propext, Classical.choice, Quot.sound]
Verif.Grid1.C32_refined_bounds: [propext, Classical.choice, Quot.sound]
Verif.Grid1.C33_same_values: [propext, Classical.choice, Quot.sound]
Verif.Grid1.C33_offers: [propext, Classical.choice, Quot.sound]
Verif.Grid1.C33_peaks: [propext, Classical.choice, Quot.sound]
Verif.Grid1.C33_vector_partial: [propext, Classical.choice, Quot.sound]
Verif.Grid1.C33_violated: [propext, Quot.sound]
Verif.Grid1.C33_two_points: [propext, Classical.choice, Quot.sound]
Verif.Grid1.C33_firstpass: [propext, Classical.choice, Quot.sound]
Verif.HPD.C34_integral: [propext, Classical.choice, Quot.sound]
Verif.HPD.C34_interpolant_exists: [propext, Classical.choice, Quot.sound]
Verif.HPD.C34_trapezoid: [propext, Classical.choice, Quot.sound]
Verif.HPD.C35_monotone: [propext, Classical.choice, Quot.sound]
Verif.HPD.C35_bounds: [propext, Classical.choice, Quot.sound]
Verif.HPD.C35_zero: [propext, Classical.choice, Quot.sound]
Verif.HPD.C35_at_minimum: [propext, Classical.choice, Quot.sound]
Verif.HPD.C35_plateau: [propext, Classical.choice, Quot.sound]
Verif.HPD.C36_crossings_partial: [propext, Classical.choice, Quot.sound]
Verif.HPD.C36_even: [propext, Classical.choice, Quot.sound]
Verif.HPD.C36_too_many: [propext, Classical.choice, Quot.sound]
Verif.HPD.C36_odd_buffer: [propext, Classical.choice, Quot.sound]
Verif.HPD.C36_even_buffer_overrun: [propext, Classical.choice, Quot.sound]
Verif.HPD.C36_violated: [propext, Classical.choice, Quot.sound]
Verif.HPD.C37_full: [propext, Classical.choice, Quot.sound]
Verif.HPD.C37_monotone: [propext, Classical.choice, Quot.sound]
Verif.HPD.C37_zero: [propext, Classical.choice, Quot.sound]
Verif.HPD.C37_violated: [propext, Classical.choice, Quot.sound]
Verif.HPD.C37_integral_partial: [propext, Classical.choice, Quot.sound]
Verif.HPD.C38_constructor: [propext, Classical.choice, Quot.sound]
Verif.HPD.C38_fraction_partial: [propext, Classical.choice, Quot.sound]
Verif.HPD.C38_monotone: [propext, Classical.choice, Quot.sound]
Verif.HPD.C38_raises_only_flat: [propext, Classical.choice, Quot.sound]
Verif.HPD.C38_shift: [propext, Classical.choice, Quot.sound]
Verif.HPD.C38_violated: [propext, Classical.choice, Quot.sound]
Verif.HPD.C38_two_dim_partial: [propext, Classical.choice, Quot.sound]
Verif.Num.C39_linear: [propext, Classical.choice, Quot.sound]
Verif.Num.C39_linear_enum: [propext, Quot.sound]
Verif.Num.C39_linear_small: [propext, Quot.sound]
Verif.Num.C39_log: [propext, Classical.choice, Quot.sound]
Verif.Num.C39_log_enum: [propext, Quot.sound]
Verif.Num.C40_leaves_partial: [propext, Classical.choice, Quot.sound]
Verif.Num.C40_atoms: [propext, Classical.choice, Quot.sound]
Verif.Num.C40_idempotent: [propext, Classical.choice, Quot.sound]
Verif.Num.C40_violated: [propext, Classical.choice, Quot.sound]
Verif.Num.C41_bracket_partial: [propext, Classical.choice, Quot.sound]
Verif.Num.C41_calls: [propext, Classical.choice, Quot.sound]
Verif.Num.C41_immediate: [propext, Classical.choice, Quot.sound]
Verif.Num.C41_search_partial: [propext, Classical.choice, Quot.sound]
Verif.Num.C41_zero: [propext, Classical.choice, Quot.sound]
Verif.Num.C41_violated: [propext, Classical.choice, Quot.sound]
Verif.Num.C42_sum: [propext, Classical.choice, Quot.sound]
Verif.Num.C42_exact: [propext, Classical.choice, Quot.sound]
Verif.Num.C42_order: [propext, Classical.choice, Quot.sound]
Verif.Num.C42_empty: [propext, Classical.choice, Quot.sound]
Verif.Num.C42_sigma: [propext, Classical.choice, Quot.sound]
Verif.Num.C42_start_with_sig: [propext, Classical.choice, Quot.sound]
Verif.Files.C43_crash_points: [propext, Quot.sound]
Verif.Files.C43_crash: [propext, Classical.choice, Quot.sound]
Verif.Files.C43_latest: [propext, Classical.choice, Quot.sound]
Verif.Files.C43_backup: [propext, Classical.choice, Quot.sound]
Verif.Files.C43_frame: [propext, Quot.sound]
Verif.Files.C43_three_torn: [propext, Classical.choice, Quot.sound]
Verif.Files.C44_violated: [propext]
Verif.Files.C44_violated_restore: [propext]
Verif.Files.C44_rotation_partial: [propext, Classical.choice, Quot.sound]
Verif.Files.C44_violated_history: [propext, Classical.choice, Quot.sound]
Verif.Files.C45_read_partial: [propext, Classical.choice, Quot.sound]
Verif.Files.C45_cycles_partial: [propext, Classical.choice, Quot.sound]
Verif.Files.C45_new_partial: [propext, Classical.choice, Quot.sound]
Verif.Files.C45_violated: [propext, Classical.choice, Quot.sound]
Verif.Files.C45_violated_method: [propext, Classical.choice, Quot.sound]
Verif.Files.C46_violated: [propext, Classical.choice, Quot.sound]
Verif.Files.C46_stem_partial: [propext, Classical.choice, Quot.sound]
Verif.Files.C47_columns_partial: [propext, Classical.choice, Quot.sound]
Verif.Files.C47_short: [propext, Classical.choice, Quot.sound]
Verif.Files.C47_violated: []
Verif.NrMin.C48_bracket: [propext, Classical.choice, Quot.sound]
Verif.NrMin.C48_bracket_never: [propext, Classical.choice, Quot.sound]
Verif.NrMin.C48_brent: [propext, Classical.choice, Quot.sound]
Verif.NrMin.C48_brent_local: [propext, Classical.choice, Quot.sound]
Verif.NrMin.C48_linmin: [propext, Classical.choice, Quot.sound]
Verif.NrMin.C48_powell: [propext, Classical.choice, Quot.sound]
Verif.NrMin.C48_linmin_never: [propext, Classical.choice, Quot.sound]
Verif.NrMin.C48_powell_never: [propext, Classical.choice, Quot.sound]
Verif.MC.C49_counts: [propext, Classical.choice, Quot.sound]
Verif.MC.C49_in_range: [propext, Classical.choice, Quot.sound]
Verif.MC.C49_rejected: [propext, Classical.choice, Quot.sound]
Verif.MC.C49_no_overflow: [propext, Classical.choice, Quot.sound]
Verif.MC.C50_certain: [propext, Classical.choice, Quot.sound]
Verif.MC.C50_uncertain: [propext, Classical.choice, Quot.sound]
Verif.MC.C50_none: [propext, Classical.choice, Quot.sound]
Verif.MC.C51_array: [propext, Quot.sound]
Verif.MC.C51_append: [propext, Quot.sound]
Verif.MC.C52_distinct: [propext, Classical.choice, Quot.sound]
Verif.MC.C52_bijection: [propext, Classical.choice, Quot.sound]
Verif.MC.C52_picks: [propext, Classical.choice, Quot.sound]
Verif.MC.C52_sizes: [propext, Quot.sound]
Verif.MC.C52_indices: [propext, Classical.choice, Quot.sound]
Verif.MC.C52_workspace: [propext]
Verif.MC.C53_subset_pps_partial: [propext, Classical.choice, Quot.sound]
Verif.MC.C53_subset_pps5_partial: [propext, Classical.choice, Quot.sound]
Verif.MC.C53_whole: [propext, Classical.choice, Quot.sound]
Verif.MC.C53_too_large: [propext, Classical.choice, Quot.sound]
Verif.MC.C53_returns: [propext, Classical.choice, Quot.sound]
Verif.MC.C53_violated: [propext, Classical.choice, Quot.sound]
Verif.MC.C53_equal_violated: [propext, Classical.choice, Quot.sound]
Verif.MC.C54_inclusion: [propext, Classical.choice, Quot.sound]
Verif.MC.C54_returns: [propext, Classical.choice, Quot.sound]
Verif.MC.C54_subset_pps: [propext, Classical.choice, Quot.sound]
Verif.MC.C55_subset_pps_partial: [propext, Classical.choice, Quot.sound]
Verif.MC.C55_subset_pps5_partial: [propext, Classical.choice, Quot.sound]
Verif.MC.C55_sample: [propext, Classical.choice, Quot.sound]
Verif.MC.C55_violated: [propext, Classical.choice, Quot.sound]
Verif.MC.C56_sample: [propext, Classical.choice, Quot.sound]
Verif.MC.C56_sample_raises: [propext, Classical.choice, Quot.sound]
Verif.MC.C56_sample_twice: [propext, Classical.choice, Quot.sound]
Verif.MC.C56_subset_pps: [propext, Classical.choice, Quot.sound]
Verif.MC.C56_subset_pps5: [propext, Classical.choice, Quot.sound]
Verif.PW.C57_values_partial: [propext, Classical.choice, Quot.sound]
Verif.PW.C57_logs_partial: [propext, Classical.choice, Quot.sound]
Verif.PW.C57_abscissas_partial: [propext, Classical.choice, Quot.sound]
Verif.PW.C57_violated: [propext, Classical.choice, Quot.sound]
Verif.PW.C57_abscissas_violated: [propext, Classical.choice, Quot.sound]
Verif.PW.C58_inverse: [propext, Classical.choice, Quot.sound]
Verif.PW.C58_increasing: [propext, Classical.choice, Quot.sound]
Verif.PW.C58_array: [propext, Classical.choice, Quot.sound]
Verif.PW.C58_vector: [propext, Classical.choice, Quot.sound]
Verif.PW.C58_distribution: [propext, Classical.choice, Quot.sound]
Verif.PW.C58_distribution_logs: [propext, Classical.choice, Quot.sound]
Verif.OnOff.C59_sigctp: [propext, Classical.choice, Quot.sound]
Verif.OnOff.C59_closed: [propext, Classical.choice, Quot.sound]
Verif.OnOff.C59_start: [propext, Classical.choice, Quot.sound]
Verif.OnOff.C60_series: [propext, Classical.choice, Quot.sound]
Verif.OnOff.C60_full: [propext, Classical.choice, Quot.sound]
Verif.OnOff.C60_accuracy: [propext, Classical.choice, Quot.sound]
Verif.OnOff.C60_zero: [propext, Classical.choice, Quot.sound]
Verif.OnOff.C61_largest: [propext, Classical.choice, Quot.sound]
Verif.OnOff.C61_offset: [propext, Classical.choice, Quot.sound]
Verif.OnOff.C62_ppois: [propext, Classical.choice, Quot.sound]
Verif.OnOff.C62_poisson: [propext, Classical.choice, Quot.sound]
Verif.OnOff.C62_lppois_partial: [propext, Classical.choice, Quot.sound]
Verif.OnOff.C62_violated: [propext, Classical.choice, Quot.sound]
Verif.OnOff.C63_pnsig_partial: [propext, Classical.choice, Quot.sound]
Verif.OnOff.C63_violated: [propext, Classical.choice, Quot.sound]
Verif.Vba.C64_analysis: [propext, Classical.choice, Quot.sound]
Verif.Vba.C65_degenerate: [propext, Classical.choice, Quot.sound]
Verif.Vba.C65_posdef: [propext, Classical.choice, Quot.sound]
Verif.Vba.C65_sizes: [propext, Classical.choice, Quot.sound]
Verif.Vba.C66_minimum: [propext, Classical.choice, Quot.sound]
Verif.Vba.C67_covar: [propext, Classical.choice, Quot.sound]
Verif.Vba.C67_metric: [propext, Classical.choice, Quot.sound]
Verif.Vba.C68_stats: [propext, Classical.choice, Quot.sound]
Verif.Vba.C68_amplitudes: [propext, Classical.choice, Quot.sound]
Verif.Vba.C68_covar: [propext, Classical.choice, Quot.sound]
Verif.Vba.C68_residuals_partial: [propext, Classical.choice, Quot.sound]
Verif.Vba.C68_violated: [propext, Classical.choice, Quot.sound]
Verif.Cub.C69_rect3: [propext, Classical.choice, Quot.sound]
Verif.Cub.C69_rect7: [propext, Classical.choice, Quot.sound]
Verif.Cub.C69_exact3: [propext, Classical.choice, Quot.sound]
Verif.Cub.C69_exact7: [propext, Classical.choice, Quot.sound]
Verif.Cub.C69_square: [propext, Classical.choice, Quot.sound]
Verif.Cub.C69_inside: [propext, Classical.choice, Quot.sound]
Verif.Obs.C70_quadratic: [propext, Classical.choice, Quot.sound]
Verif.Obs.C70_symmetric: [propext, Classical.choice, Quot.sound]
Verif.Obs.C71_plain: [propext, Classical.choice, Quot.sound]
Verif.Obs.C71_one: [propext, Classical.choice, Quot.sound]
Verif.Obs.C71_table: [propext, Classical.choice, Quot.sound]
Verif.Obs.C71_entry: [propext, Classical.choice, Quot.sound]
Verif.Obs.C71_many_partial: [propext, Classical.choice, Quot.sound]
Verif.Obs.C71_quintic: [propext, Classical.choice, Quot.sound]
Verif.Obs.C71_violated: [propext, Classical.choice, Quot.sound]
Verif.Adapt.C72_sizes: [propext, Classical.choice, Quot.sound]
Verif.Adapt.C72_memory: [propext, Classical.choice, Quot.sound]
Verif.Adapt.C72_enough: [propext, Classical.choice, Quot.sound]
Verif.Adapt.C72_violated: [propext, Classical.choice, Quot.sound]
Verif.Grid1.C73_through_points: [propext, Classical.choice, Quot.sound]
Verif.Grid1.C73_exact: [propext, Classical.choice, Quot.sound]
Verif.Grid1.C73_width: [propext, Classical.choice, Quot.sound]
Verif.Grid1.C74_basic: [propext, Classical.choice, Quot.sound]
Verif.Grid1.C74_violated_default: [propext, Classical.choice, Quot.sound]
Verif.Grid1.C74_refined_partial: [propext, Classical.choice, Quot.sound]
Verif.Grid1.C75_unrefined_partial: [propext, Classical.choice, Quot.sound]
Verif.Grid1.C75_violated: [propext, Classical.choice, Quot.sound]
Verif.HPD.C76_norm_partial: [propext, Classical.choice, Quot.sound]
Verif.HPD.C76_never_larger: [propext, Classical.choice, Quot.sound]
Verif.HPD.C76_violated: [propext, Classical.choice, Quot.sound]
Verif.HPD.C77_boundaries_partial: [propext, Classical.choice, Quot.sound]
Verif.HPD.C77_history: [propext, Classical.choice, Quot.sound]
Verif.HPD.C77_room_violated: [propext, Classical.choice, Quot.sound]
Verif.HPD.C77_violated: [propext, Classical.choice, Quot.sound]
Verif.HPD.C78_ratio_partial: [propext, Classical.choice, Quot.sound]
Verif.HPD.C78_violated: [propext, Classical.choice, Quot.sound]
Verif.Files.C79_violated: [propext, Classical.choice, Quot.sound]
Verif.Files.C79_archived_partial: [propext, Classical.choice, Quot.sound]
Verif.MC.C80_max_subset_partial: [propext, Classical.choice, Quot.sound]
Verif.MC.C80_limit_violated: [propext, Classical.choice, Quot.sound]
Verif.OnOff.C81_siglml: [propext, Classical.choice, Quot.sound]
Verif.OnOff.C81_ratio: [propext, Classical.choice, Quot.sound]
Verif.OnOff.C82_posterior: [propext, Classical.choice, Quot.sound]
Verif.OnOff.C82_normalised: [propext, Classical.choice, Quot.sound]
Verif.OnOff.C83_value: [propext, Classical.choice, Quot.sound]
Verif.OnOff.C83_derivative_partial: [propext, Classical.choice, Quot.sound]
Verif.OnOff.C83_violated: [propext, Classical.choice, Quot.sound]
Verif.OnOff.C84_history_partial: [propext, Classical.choice, Quot.sound]
Verif.OnOff.C84_violated: [propext, Classical.choice, Quot.sound]
Verif.OnOff.C85_array_partial: [propext, Classical.choice, Quot.sound]
Verif.OnOff.C85_violated: [propext, Classical.choice, Quot.sound]
Verif.Cub.C86_normal_partial: [propext, Classical.choice, Quot.sound]
Verif.Cub.C86_errors: [propext, Classical.choice, Quot.sound]
Verif.Cub.C86_violated: [propext, Classical.choice, Quot.sound]
Verif.Obs.C87_obsinfo_partial: [propext, Classical.choice, Quot.sound]
Verif.Obs.C87_dllsteps_partial: [propext, Classical.choice, Quot.sound]
Verif.Obs.C87_violated: [propext, Classical.choice, Quot.sound]
Verif.Obs.C88_change: [propext, Classical.choice, Quot.sound]
Verif.Obs.C88_quadratic: [propext, Classical.choice, Quot.sound]
Verif.Obs.C88_violated: [propext, Classical.choice, Quot.sound]
Verif.Adapt.C89_estimate: [propext, Classical.choice, Quot.sound]
Verif.Adapt.C89_largest: [propext, Classical.choice, Quot.sound]
Verif.Adapt.C89_terminates: [propext, Classical.choice, Quot.sound]
Verif.Adapt.C89_violated: [propext, Classical.choice, Quot.sound]
Verif.Adapt.C90_axis: [propext, Classical.choice, Quot.sound]
Verif.AdaptVec.C91_rules: [propext, Classical.choice, Quot.sound]
Verif.AdaptVec.C91_work_partial: [propext, Classical.choice, Quot.sound]
Verif.AdaptVec.C91_violated: [propext, Classical.choice, Quot.sound]
Verif.SymRl.C92_rules_partial: [propext, Classical.choice, Quot.sound]
Verif.SymRl.C92_adapt_partial: [propext, Classical.choice, Quot.sound]
Verif.SymRl.C92_result_partial: [propext, Classical.choice, Quot.sound]
Verif.SymRl.C92_reversed_violated: [propext, Classical.choice, Quot.sound]
Verif.Pop1D.C93_hazard_partial: [propext, Classical.choice, Quot.sound]
Verif.Pop1D.C93_curve: [propext, Classical.choice, Quot.sound]
Verif.Pop1D.C93_range: [propext, Classical.choice, Quot.sound]
Verif.Pop1D.C93_errors_violated: [propext, Classical.choice, Quot.sound]
Verif.Pop1D.C93_violated: [propext, Classical.choice, Quot.sound]
Verif.Grid1.C94_empty: [propext, Classical.choice, Quot.sound]
Verif.Grid1.C94_filled: [propext, Classical.choice, Quot.sound]
Verif.Grid1.C94_ends: [propext, Classical.choice, Quot.sound]
Verif.HPD.C95_level: [propext, Classical.choice, Quot.sound]
Verif.HPD.C95_level_two_dim: [propext, Classical.choice, Quot.sound]
Verif.HPD.C95_arguments: [propext, Classical.choice, Quot.sound]
Verif.HPD.C95_found_partial: [propext, Classical.choice, Quot.sound]
Verif.HPD.C95_found_two_dim_partial: [propext, Classical.choice, Quot.sound]
Verif.HPD.C95_violated: [propext, Classical.choice, Quot.sound]
Verif.HPD.C95_violated_level_exists: [propext, Classical.choice, Quot.sound]
Verif.HPD.C96_one_dim: [propext, Classical.choice, Quot.sound]
Verif.HPD.C96_two_dim: [propext, Classical.choice, Quot.sound]
Verif.HPD.C96_errors: [propext, Classical.choice, Quot.sound]
Verif.Vba.C97_stats_partial: [propext, Classical.choice, Quot.sound]
Verif.Vba.C97_amplitudes_partial: [propext, Classical.choice, Quot.sound]
Verif.Vba.C97_covar: [propext, Classical.choice, Quot.sound]
Verif.Vba.C97_residuals_partial: [propext, Classical.choice, Quot.sound]
Verif.Vba.C97_violated: [propext, Classical.choice, Quot.sound]
Verif.Pie.C98_same: [propext, Classical.choice, Quot.sound]
Verif.Pie.C98_rest: [propext, Classical.choice, Quot.sound]
Verif.Pie.C98_unevaluated: [propext, Classical.choice, Quot.sound]
Verif.Pie.C98_exact_partial: [propext, Classical.choice, Quot.sound]
Verif.Pie.C98_moved: [propext, Classical.choice, Quot.sound]
Verif.Pie.C98_violated: [propext, Classical.choice, Quot.sound]
Verif.MC.C99_stream: [propext, Classical.choice, Quot.sound]
Verif.MC.C99_valid: [propext, Classical.choice, Quot.sound]
Verif.MC.C99_restore: [propext, Classical.choice, Quot.sound]
Verif.MC.C99_reject: [propext, Quot.sound]
Verif.MC.C100_rand_partial: [propext, Classical.choice, Quot.sound]
Verif.MC.C100_irand_partial: [propext, Classical.choice, Quot.sound]
Verif.MC.C100_rand_equal: [propext, Classical.choice, Quot.sound]
Verif.MC.C100_irand_equal: [propext, Classical.choice, Quot.sound]
Verif.MC.C100_irand_rejected: [propext, Classical.choice, Quot.sound]
Verif.MC.C100_violated_negative: [propext, Classical.choice, Quot.sound]
Verif.MC.C100_violated_words: [propext, Classical.choice, Quot.sound]
Verif.MC.C100_violated_position: [propext, Classical.choice, Quot.sound]
Verif.MC.C101_set_partial: [propext, Classical.choice, Quot.sound]
Verif.MC.C101_seed_stream: [propext, Classical.choice, Quot.sound]
Verif.MC.C101_seed: [propext, Classical.choice, Quot.sound]
Verif.MC.C101_reversible: [propext, Classical.choice, Quot.sound]
Verif.MC.C101_violated: [propext, Classical.choice, Quot.sound]
Verif.Dcuhre.C102_ends: [propext, Classical.choice, Quot.sound]
Verif.Dcuhre.C102_partition: [propext, Classical.choice, Quot.sound]
Verif.Dcuhre.C102_additive: [propext, Classical.choice, Quot.sound]
Verif.Dcuhre.C102_sums: [propext, Classical.choice, Quot.sound]
Verif.Dcuhre.C102_largest: [propext, Classical.choice, Quot.sound]
Verif.Dcuhre.C102_tolerance_partial: [propext, Classical.choice, Quot.sound]
Verif.Dcuhre.C102_restart_partial: [propext, Classical.choice, Quot.sound]
Verif.Dcuhre.C102_work: [propext, Classical.choice, Quot.sound]
Verif.Dcuhre.C102_work2: [propext, Classical.choice, Quot.sound]
Verif.Dcuhre.C102_checks: [propext, Classical.choice, Quot.sound]
Verif.Dcuhre.C102_violated_python_restart: [propext, Classical.choice, Quot.sound]
Verif.Dcuhre.C102_violated_reversed_restart: [propext, Classical.choice, Quot.sound]
Verif.Dcuhre.C102_violated_minpts: [propext, Classical.choice, Quot.sound]
Verif.Drl.C103_symmetric: [propext, Classical.choice, Quot.sound]
Verif.Drl.C103_points: [propext, Classical.choice, Quot.sound]
Verif.Drl.C103_counts: [propext, Classical.choice, Quot.sound]
Verif.Drl.C103_axis: [propext, Classical.choice, Quot.sound]
Verif.Drl.C103_good: [propext, Classical.choice, Quot.sound]
Verif.Drl.C103_valid: [propext, Classical.choice, Quot.sound]
Verif.Drl.C104_rule: [propext, Classical.choice, Quot.sound]
Verif.Drl.C104_result: [propext, Classical.choice, Quot.sound]
Verif.Drl.C104_sure: [propext, Classical.choice, Quot.sound]
Verif.Drl.C105_rule: [propext, Classical.choice, Quot.sound]
Verif.Drl.C105_result: [propext, Classical.choice, Quot.sound]
Verif.Drl.C105_ifail: [propext, Classical.choice, Quot.sound]
Verif.MC.C106_counts: [propext, Classical.choice, Quot.sound]
Verif.MC.C106_inclusion: [propext, Classical.choice, Quot.sound]
Verif.MC.C106_subset_pps5: [propext, Classical.choice, Quot.sound]
Verif.OnOff.C107_gammln: [propext, Classical.choice, Quot.sound]
Verif.OnOff.C107_gammln_real: [propext, Classical.choice, Quot.sound]
Verif.OnOff.C107_siglml: [propext, Classical.choice, Quot.sound]
Verif.OnOff.C107_ppois: [propext, Classical.choice, Quot.sound]
Verif.OnOff.C107_sigmp: [propext, Classical.choice, Quot.sound]
Verif.OnOff.C107_normalised: [propext, Classical.choice, Quot.sound]
Verif.OnOff.C107_derivative: [propext, Classical.choice, Quot.sound]
Verif.Pie.SetData.C108_three: [propext]
Verif.Pie.SetData.C108_normal_partial: [propext]
Verif.Pie.SetData.C108_made_partial: [propext]
Verif.Pie.SetData.C108_violated_table: [propext, Quot.sound]
Verif.Pie.SetData.C108_violated_rows: [propext, Classical.choice, Quot.sound]
Verif.Pie.SetData.C108_violated_stale: [propext]
Verif.Pie.SetData.C108_violated_refused: [propext]
Verif.Signals.Kepler.C109_unique: [propext, Classical.choice, Quot.sound]
Verif.Signals.Kepler.C109_setup: [propext, Classical.choice, Quot.sound]
Verif.Signals.Kepler.C109_EA: [propext, Classical.choice, Quot.sound]
Verif.Signals.Kepler.C109_EA_flag: [propext, Classical.choice, Quot.sound]
Verif.Signals.Kepler.C109_vEA: [propext, Classical.choice, Quot.sound]
Verif.Signals.Kepler.C109_TA: [propext, Classical.choice, Quot.sound]
Verif.Signals.Kepler.C109_arrays: [propext, Classical.choice, Quot.sound]
Verif.Signals.Kepler.C109_converges_partial: [propext, Classical.choice, Quot.sound]
Verif.Signals.Kepler.C109_violated_converges: [propext, Classical.choice, Quot.sound]
Verif.Signals.Kepler.C109_velocity_partial: [propext, Classical.choice, Quot.sound]
Verif.Signals.Kepler.C109_violated_velocity: [propext, Classical.choice, Quot.sound]
Verif.Signals.Kepler.C109_violated_array: [propext, Classical.choice, Quot.sound]
Verif.Signals.Kepler.C109_violated_two: [propext, Classical.choice, Quot.sound]
Verif.Signals.Kepler.C109_orbit_partial: [propext, Classical.choice, Quot.sound]
Verif.Signals.Kepler.C109_violated_orbit: [propext, Classical.choice, Quot.sound]
Verif.Signals.Kepler.C109_violated_globals: [propext, Classical.choice, Quot.sound]
Verif.Pie.Listen.C110_listeners: [propext, Quot.sound]
Verif.Pie.Listen.C110_add: [propext, Quot.sound]
Verif.Pie.Listen.C110_hears_partial: [propext, Classical.choice, Quot.sound]
Verif.Pie.Listen.C110_fix: [propext, Classical.choice, Quot.sound]
Verif.Pie.Listen.C110_set_value: [propext, Quot.sound]
Verif.Pie.Listen.C110_vary: [propext, Classical.choice, Quot.sound]
Verif.Pie.Listen.C110_violated_check: [propext, Quot.sound]
Verif.Pie.Listen.C110_violated_default: [propext, Classical.choice, Quot.sound]
Verif.Pie.Listen.C110_violated_del: [propext, Quot.sound]
Verif.Pie.Listen.C110_violated_documented: [propext, Quot.sound]
Verif.Pie.Listen.C110_stepping_partial: [propext, Classical.choice, Quot.sound]
Verif.Pie.Listen.C110_violated_stepping: [propext, Classical.choice, Quot.sound]
Verif.Point.C111_bins_partial: [propext, Classical.choice, Quot.sound]
Verif.Point.C111_phases: [propext, Classical.choice, Quot.sound]
Verif.Point.C111_violated_range: [propext, Classical.choice, Quot.sound]
Verif.Point.C111_violated_memory: [propext, Classical.choice, Quot.sound]
Verif.Point.C111_violated_first: [propext, Classical.choice, Quot.sound]
Verif.Point.C112_exact: [propext, Classical.choice, Quot.sound]
Verif.Point.C112_trap: [propext, Classical.choice, Quot.sound]
Verif.Point.C113_limult: [propext, Classical.choice, Quot.sound]
Verif.Point.C113_lodds: [propext, Classical.choice, Quot.sound]
Verif.Point.C113_violated_bins: [propext, Classical.choice, Quot.sound]
Verif.Point.C114_phase_partial: [propext, Classical.choice, Quot.sound]
Verif.Point.C114_exact_partial: [propext, Classical.choice, Quot.sound]
Verif.Point.C114_trap_partial: [propext, Classical.choice, Quot.sound]
Verif.Point.C114_violated_const: [propext, Classical.choice, Quot.sound]
Verif.Point.C114_violated_rates: [propext, Classical.choice, Quot.sound]
Verif.Point.C114_violated_frequency: [propext, Classical.choice, Quot.sound]
Verif.Point.C114_violated_bins: [propext, Classical.choice, Quot.sound]
Verif.Point.C114_violated_point: [propext, Classical.choice, Quot.sound]
Verif.Point.C115_rates_partial: [propext, Classical.choice, Quot.sound]
Verif.Point.C115_violated_one: [propext, Classical.choice, Quot.sound]
Verif.Point.C116_rayleigh: [propext, Classical.choice, Quot.sound]
Verif.Point.C116_range: [propext, Classical.choice, Quot.sound]
Verif.Point.C116_grid_partial: [propext, Classical.choice, Quot.sound]
Verif.Point.C116_violated_one: [propext, Classical.choice, Quot.sound]
Verif.Point.C117_bessel: [propext, Classical.choice, Quot.sound]
Verif.Point.C117_lml: [propext, Classical.choice, Quot.sound]
Verif.Point.C117_marginal: [propext, Classical.choice, Quot.sound]
Verif.Bha.C118_multiplet_partial: [propext, Classical.choice, Quot.sound]
Verif.Bha.C118_harmonics_partial: [propext, Classical.choice, Quot.sound]
Verif.Bha.C118_violated_equal: [propext, Classical.choice, Quot.sound]
Verif.Bha.C118_violated_zero: [propext, Classical.choice, Quot.sound]
Verif.Bha.C119_exact: [propext, Classical.choice, Quot.sound]
Verif.Bha.C119_grid_partial: [propext, Classical.choice, Quot.sound]
Verif.Bha.C119_harmonics_partial: [propext, Classical.choice, Quot.sound]
Verif.Bha.C119_qinterp: [propext, Classical.choice, Quot.sound]
Verif.Bha.C119_interp_partial: [propext, Classical.choice, Quot.sound]
Verif.Bha.C119_violated_ints: [propext, Classical.choice, Quot.sound]
Verif.Bha.C119_violated_dt: [propext, Classical.choice, Quot.sound]
Verif.Bha.C119_violated_negative: [propext, Classical.choice, Quot.sound]
Verif.Bha.C119_violated_top: [propext, Classical.choice, Quot.sound]
Verif.Bha.C119_violated_stale: [propext, Classical.choice, Quot.sound]
Verif.Bha.C120_covar: [propext, Classical.choice, Quot.sound]
Verif.Bha.C120_sigmas_partial: [propext, Classical.choice, Quot.sound]
Verif.Bha.C120_variance_partial: [propext, Classical.choice, Quot.sound]
Verif.Bha.C120_violated_variance: [propext, Classical.choice, Quot.sound]
Verif.Bha.C120_violated_sigmas: [propext, Classical.choice, Quot.sound]
Verif.Regress.C121_lines: [propext, Classical.choice, Quot.sound]
Verif.Regress.C122_errors_partial: [propext, Classical.choice, Quot.sound]
Verif.Regress.C122_violated_orthog: [propext, Classical.choice, Quot.sound]
Verif.Regress.C123_lines_partial: [propext, Classical.choice, Quot.sound]
Verif.Regress.C123_no_errors: [propext, Classical.choice, Quot.sound]
Verif.Regress.C123_violated_sign: [propext, Classical.choice, Quot.sound]
Verif.Regress.C123_box: [propext, Classical.choice, Quot.sound]
Verif.Regress.C124_errors_partial: [propext, Classical.choice, Quot.sound]
Verif.Regress.C124_ifab: [propext, Classical.choice, Quot.sound]
Verif.Regress.C124_violated_orthog: [propext, Classical.choice, Quot.sound]
Verif.Regress.C124_violated_ifab: [propext, Classical.choice, Quot.sound]
Verif.Regress.C124_violated_correlated: [propext, Classical.choice, Quot.sound]
Verif.Regress.C125_fit_partial: [propext, Classical.choice, Quot.sound]
Verif.Regress.C125_violated_line: [propext, Classical.choice, Quot.sound]
Verif.Regress.C125_violated_scatter: [propext, Classical.choice, Quot.sound]
Verif.Regress.C125_violated_negative: [propext, Classical.choice, Quot.sound]
Verif.Regress.C125_violated_yerr: [propext]
Verif.Regress.C126_stats_partial: [propext, Classical.choice, Quot.sound]
Verif.Regress.C126_violated_uncorrelated: [propext, Classical.choice, Quot.sound]
Verif.Drxn.C127_accepted: [propext, Classical.choice, Quot.sound]
Verif.Drxn.C127_vector: [propext, Classical.choice, Quot.sound]
Verif.Drxn.C127_product_partial: [propext, Classical.choice, Quot.sound]
Verif.Drxn.C127_violated_unit: [propext, Classical.choice, Quot.sound]
Verif.Drxn.C127_violated_both: [propext, Classical.choice, Quot.sound]
Verif.Drxn.C128_density_partial: [propext, Classical.choice, Quot.sound]
Verif.Drxn.C128_violated_small: [propext, Classical.choice, Quot.sound]
Verif.Drxn.C128_violated_drxn: [propext, Classical.choice, Quot.sound]
Verif.Drxn.C129_factor_partial: [propext, Classical.choice, Quot.sound]
Verif.Drxn.C129_order: [propext, Classical.choice, Quot.sound]
Verif.Drxn.C129_violated_opposite: [propext, Classical.choice, Quot.sound]
Verif.Drxn.C130_fit_partial: [propext, Classical.choice, Quot.sound]
Verif.Drxn.C130_violated_cancel: [propext, Classical.choice, Quot.sound]
Verif.Drxn.C131_concentration_partial: [propext, Classical.choice, Quot.sound]
Verif.Drxn.C131_small: [propext, Classical.choice, Quot.sound]
Verif.Drxn.C131_wide: [propext, Classical.choice, Quot.sound]
Verif.Drxn.C131_violated_quarter: [propext, Classical.choice, Quot.sound]
Verif.Km.C132_estimate_partial: [propext, Classical.choice, Quot.sound]
Verif.Km.C132_violated_upper: [propext, Classical.choice, Quot.sound]
Verif.Km.C132_violated_llims: [propext, Quot.sound]
Verif.Km.C132_violated_tied: [propext, Classical.choice, Quot.sound]
Verif.Km.C132_violated_zero: [propext, Classical.choice, Quot.sound]
Verif.Km.C133_estimate_partial: [propext, Classical.choice, Quot.sound]
Verif.Km.C133_violated_bottom: [propext, Classical.choice, Quot.sound]
Verif.Km.C133_violated_indicator: [propext, Classical.choice, Quot.sound]
Verif.Km.C134_mean_lower: [propext, Classical.choice, Quot.sound]
Verif.Km.C134_mean_upper: [propext, Classical.choice, Quot.sound]
Verif.Km.C135_weights_partial: [propext, Classical.choice, Quot.sound]
Verif.Km.C135_violated_weights: [propext, Classical.choice, Quot.sound]
Verif.Km.C136_bins_partial: [propext, Classical.choice, Quot.sound]
Verif.Km.C136_violated_overrun: [propext, Classical.choice, Quot.sound]
Verif.Km.C136_violated_diff: [propext, Classical.choice, Quot.sound]
Verif.Km.C137_quartiles_partial: [propext, Classical.choice, Quot.sound]
Verif.Km.C137_violated_same: [propext, Classical.choice, Quot.sound]
Verif.Km.C137_violated_origin: [propext, Classical.choice, Quot.sound]
Verif.Km.C138_points_partial: [propext, Classical.choice, Quot.sound]
Verif.Km.C138_violated_end: [propext, Classical.choice, Quot.sound]
Verif.Quad.C139_exact_partial: [propext, Classical.choice, Quot.sound]
Verif.Quad.C139_violated_low: [propext, Classical.choice, Quot.sound]
Verif.Quad.C140_exact: [propext, Classical.choice, Quot.sound]
Verif.Quad.C141_range: [propext, Classical.choice, Quot.sound]
Verif.Quad.C142_power_partial: [propext, Classical.choice, Quot.sound]
Verif.Quad.C142_violated_near: [propext, Classical.choice, Quot.sound]
Verif.Quad.C143_exponential: [propext, Classical.choice, Quot.sound]
Verif.Quad.C144_composite_partial: [propext, Classical.choice, Quot.sound]
Verif.Quad.C144_violated_tuples: [propext, Classical.choice, Quot.sound]
Verif.Quad.C144_violated_factor: [propext, Classical.choice, Quot.sound]
Verif.Quad.C144_violated_alias: [propext, Classical.choice, Quot.sound]
Verif.Fsm.C145_transitions_partial: [propext, Classical.choice, Quot.sound]
Verif.Fsm.C145_violated_state: [propext]
Verif.Fsm.C146_values_partial: [propext, Classical.choice, Quot.sound]
Verif.Fsm.C146_violated_attached: [propext, Classical.choice, Quot.sound]
Verif.Fsm.C146_violated_negative: [propext, Classical.choice, Quot.sound]
Verif.Fsm.C147_run_partial: [propext, Quot.sound]
Verif.Fsm.C147_violated_missing: [propext, Quot.sound]
Verif.Mvnt.C148_constructor_partial: [propext, Classical.choice, Quot.sound]
Verif.Mvnt.C148_violated_inverse: [propext, Classical.choice, Quot.sound]
Verif.Mvnt.C149_law: [propext, Classical.choice, Quot.sound]
Verif.Mvnt.C150_constructor_partial: [propext, Classical.choice, Quot.sound]
Verif.Mvnt.C150_violated_overwritten: [propext, Classical.choice, Quot.sound]
Verif.Mvnt.C151_law_partial: [propext, Classical.choice, Quot.sound]
Verif.Mvnt.C151_violated_sample_q: [propext, Classical.choice, Quot.sound]
Verif.Mvnt.C152_kde_partial: [propext, Classical.choice, Quot.sound]
Verif.Mvnt.C152_violated_norm: [propext, Classical.choice, Quot.sound]
Verif.Mvnt.C152_constructor_partial: [propext, Classical.choice, Quot.sound]
Verif.Mvnt.C152_violated_inverse: [propext, Classical.choice, Quot.sound]
Verif.Mvnt.C153_hgamma: [propext, Classical.choice, Quot.sound]
Verif.Romberg.C154_qromb_partial: [propext, Classical.choice, Quot.sound]
Verif.Romberg.C154_violated: [propext, Classical.choice, Quot.sound]
Verif.Romberg.C155_romberg_partial: [propext, Classical.choice, Quot.sound]
Verif.Romberg.C155_violated: [propext, Classical.choice, Quot.sound]
Verif.Romberg.C156_method_partial: [propext, Classical.choice, Quot.sound]
Verif.Romberg.C156_table: [propext]
Verif.Romberg.C156_violated_columns: [propext, Classical.choice, Quot.sound]
Verif.Cosmo.C157_independent: [propext, Classical.choice, Quot.sound]
Verif.Cosmo.C157_modulus: [propext, Classical.choice, Quot.sound]
Verif.Cosmo.C158_distance: [propext, Classical.choice, Quot.sound]
Verif.Cosmo.C158_times: [propext, Classical.choice, Quot.sound]
Verif.Cosmo.C158_violated_age: [propext, Classical.choice, Quot.sound]
Verif.Cosmo.C158_volume_partial: [propext, Classical.choice, Quot.sound]
Verif.Cosmo.C158_violated_volume: [propext, Classical.choice, Quot.sound]
Verif.Cosmo.C159_flux2z_partial: [propext, Classical.choice, Quot.sound]
Verif.Cosmo.C159_violated_stale: [propext, Classical.choice, Quot.sound]
Verif.Cosmo.C159_violated_curved: [propext, Classical.choice, Quot.sound]
Verif.Cosmo.C159_returns_partial: [propext, Classical.choice, Quot.sound]
Verif.Tno.C160_decreasing: [propext, Classical.choice, Quot.sound]
Verif.Tno.C160_range_partial: [propext, Classical.choice, Quot.sound]
Verif.Tno.C160_twice: [propext, Classical.choice, Quot.sound]
Verif.Tno.C160_violated_tanh: [propext, Classical.choice, Quot.sound]
Verif.Tno.C161_cumulative: [propext, Classical.choice, Quot.sound]
Verif.Tno.C161_scaled: [propext, Classical.choice, Quot.sound]
Verif.Tno.C161_reference: [propext, Classical.choice, Quot.sound]
Verif.Tno.C161_slope: [propext, Classical.choice, Quot.sound]
Verif.Tno.C161_violated_base: [propext, Classical.choice, Quot.sound]
Verif.Tno.C162_derivatives_partial: [propext, Classical.choice, Quot.sound]
Verif.Tno.C162_violated: [propext, Classical.choice, Quot.sound]
Verif.Tno.C163_expected_partial: [propext, Classical.choice, Quot.sound]
Verif.Tno.C163_short: [propext, Classical.choice, Quot.sound]
Verif.Tno.C163_violated_tail: [propext, Classical.choice, Quot.sound]
Verif.Tno.C163_number: [propext, Classical.choice, Quot.sound]
Verif.Tno.C163_violated_nan: [propext, Classical.choice, Quot.sound]
Verif.Tno.C164_independent: [propext, Classical.choice, Quot.sound]
Verif.Tno.C164_amplitude: [propext, Classical.choice, Quot.sound]
Verif.Tno.C164_best: [propext, Classical.choice, Quot.sound]
Verif.Tno.C164_exact: [propext, Classical.choice, Quot.sound]
Verif.Tno.C164_mean: [propext, Classical.choice, Quot.sound]
Verif.Tno.C165_cumulative_partial: [propext, Classical.choice, Quot.sound]
Verif.Tno.C165_violated: [propext, Classical.choice, Quot.sound]
Verif.Tno.C165_violated_flat: [propext, Classical.choice, Quot.sound]
Verif.Tno.C166_bound: [propext, Classical.choice, Quot.sound]
Verif.Tno.C166_least: [propext, Classical.choice, Quot.sound]
Verif.Tno.C167_probability: [propext, Classical.choice, Quot.sound]
Verif.Tno.C167_range: [propext, Classical.choice, Quot.sound]
Verif.Tno.C167_zero: [propext, Classical.choice, Quot.sound]
Verif.Burst.C168_fisher_partial: [propext, Classical.choice, Quot.sound]
Verif.Burst.C168_range_partial: [propext, Classical.choice, Quot.sound]
Verif.Burst.C168_isotropic: [propext, Classical.choice, Quot.sound]
Verif.Burst.C168_mean: [propext, Classical.choice, Quot.sound]
Verif.Burst.C168_violated_tail: [propext, Classical.choice, Quot.sound]
Verif.Burst.C169_coverage: [propext, Classical.choice, Quot.sound]
Verif.Burst.C169_fixed: [propext, Classical.choice, Quot.sound]
Verif.Burst.C169_returned_partial: [propext, Classical.choice, Quot.sound]
Verif.Burst.C169_violated: [propext, Classical.choice, Quot.sound]
Verif.Burst.C170_constant_partial: [propext, Classical.choice, Quot.sound]
Verif.Burst.C170_violated_single: [propext, Classical.choice, Quot.sound]
Verif.Burst.C170_violated_flux: [propext, Classical.choice, Quot.sound]
Verif.Odiag.C171_levinson: [propext, Classical.choice, Quot.sound]
Verif.Odiag.C171_optimal: [propext, Classical.choice, Quot.sound]
Verif.Odiag.C171_first: [propext, Classical.choice, Quot.sound]
Verif.Odiag.C171_stable: [propext, Classical.choice, Quot.sound]
Verif.Odiag.C171_variance: [propext, Classical.choice, Quot.sound]
Verif.Odiag.C171_short: [propext, Classical.choice, Quot.sound]
Verif.Odiag.C171_violated_constant: [propext, Classical.choice, Quot.sound]
Verif.Odiag.C171_stops_partial: [propext, Classical.choice, Quot.sound]
Verif.Odiag.C171_sum: [propext, Classical.choice, Quot.sound]
Verif.Odiag.C172_best_partial: [propext, Classical.choice, Quot.sound]
Verif.Odiag.C172_variance: [propext, Classical.choice, Quot.sound]
Verif.Odiag.C172_scale: [propext, Classical.choice, Quot.sound]
Verif.Odiag.C172_violated_bic: [propext, Classical.choice, Quot.sound]
Verif.Odiag.C173_deleted_partial: [propext, Classical.choice, Quot.sound]
Verif.Odiag.C173_failed: [propext, Classical.choice, Quot.sound]
Verif.Odiag.C173_units: [propext, Classical.choice, Quot.sound]
Verif.Odiag.C173_violated_constant: [propext, Classical.choice, Quot.sound]
Verif.Odiag.C174_length: [propext, Classical.choice, Quot.sound]
Verif.Odiag.C174_padding: [propext, Classical.choice, Quot.sound]
Verif.Odiag.C174_power: [propext, Classical.choice, Quot.sound]
Verif.Odiag.C174_inside: [propext, Classical.choice, Quot.sound]
Verif.Odiag.C174_units: [propext, Classical.choice, Quot.sound]
Verif.Odiag.C174_positive_partial: [propext, Classical.choice, Quot.sound]
Verif.Odiag.C174_intercept: [propext, Classical.choice, Quot.sound]
Verif.Odiag.C174_violated_short: [propext, Classical.choice, Quot.sound]
Verif.Odiag.C175_table: [propext, Classical.choice, Quot.sound]
Verif.Odiag.C175_bijective: [propext, Classical.choice, Quot.sound]
Verif.Odiag.C175_complete_partial: [propext, Classical.choice, Quot.sound]
Verif.Odiag.C175_seventh: [propext, Classical.choice, Quot.sound]
Verif.Odiag.C175_violated_onedim: [propext, Classical.choice, Quot.sound]
Verif.Odiag.C176_runs: [propext]
Verif.Odiag.C176_equilibrium_partial: [propext, Quot.sound]
Verif.Odiag.C176_violated_runs: []
Verif.Odiag.C176_kept: [propext, Classical.choice, Quot.sound]
Verif.Odiag.C176_spacing_partial: [propext, Classical.choice, Quot.sound]
Verif.Odiag.C176_room_partial: [propext, Classical.choice, Quot.sound]
Verif.Odiag.C176_violated_room: [propext, Classical.choice, Quot.sound]
Verif.Odiag.C176_violated_zero: [propext, Classical.choice, Quot.sound]
Verif.Odiag.C176_average: [propext, Classical.choice, Quot.sound]
Verif.Odiag.C176_violated_sigma: [propext, Classical.choice, Quot.sound]
Verif.Odiag.C176_violated_order: [propext, Quot.sound]
Verif.Odiag.C177_zero: [propext, Classical.choice, Quot.sound]
Verif.Odiag.C177_defined: [propext, Classical.choice, Quot.sound]
Verif.Odiag.C177_units: [propext, Classical.choice, Quot.sound]
Verif.Odiag.C177_bound_partial: [propext, Classical.choice, Quot.sound]
Verif.Odiag.C177_violated_bound: [propext, Classical.choice, Quot.sound]
Verif.Odiag.C177_ratio: [propext, Classical.choice, Quot.sound]
Verif.Odiag.C177_variance: [propext, Classical.choice, Quot.sound]
Verif.Odiag.C177_transform_partial: [propext, Classical.choice, Quot.sound]
Verif.Odiag.C177_violated_wrap: [propext, Classical.choice, Quot.sound]
Verif.Odiag.C177_average: [propext, Classical.choice, Quot.sound]
Verif.Odiag.C178_bin_partial: [propext, Classical.choice, Quot.sound]
Verif.Odiag.C178_total: [propext, Classical.choice, Quot.sound]
Verif.Odiag.C178_violated_upper: [propext, Classical.choice, Quot.sound]
Verif.Odiag.C178_violated_below: [propext, Classical.choice, Quot.sound]
Verif.Odiag.C179_recorded_partial: [propext, Classical.choice, Quot.sound]
Verif.Odiag.C179_violated_first: [propext, Classical.choice, Quot.sound]
Verif.Odiag.C179_failed: [propext, Classical.choice, Quot.sound]
Verif.Odiag.C179_readback: [propext, Quot.sound]
Verif.Spatial.C180_sphere: [propext, Classical.choice, Quot.sound]
Verif.Spatial.C180_density: [propext, Classical.choice, Quot.sound]
Verif.Spatial.C181_spheroid_partial: [propext, Classical.choice, Quot.sound]
Verif.Spatial.C181_violated_oblate: [propext, Classical.choice, Quot.sound]
Verif.Spatial.C181_violated_offcentre: [propext, Classical.choice, Quot.sound]
Verif.Spatial.C181_violated_away: [propext, Classical.choice, Quot.sound]
Verif.Spatial.C181_violated_unset: [propext, Classical.choice, Quot.sound]
Verif.Spatial.C182_spheroid: [propext, Classical.choice, Quot.sound]
Verif.Spatial.C182_sphere: [propext, Classical.choice, Quot.sound]
Verif.Spatial.C182_directions: [propext, Classical.choice, Quot.sound]
Verif.Spatial.C182_tight: [propext, Classical.choice, Quot.sound]
Verif.Spatial.C183_norm_partial: [propext, Classical.choice, Quot.sound]
Verif.Spatial.C183_violated_norm: [propext, Classical.choice, Quot.sound]
Verif.Spatial.C183_slope: [propext, Classical.choice, Quot.sound]
Verif.Spatial.C183_limits: [propext, Classical.choice, Quot.sound]
Verif.Spatial.C183_accepted: [propext, Classical.choice, Quot.sound]
Verif.Spatial.C183_models: [propext, Classical.choice, Quot.sound]
Verif.Spatial.C183_violated_stuck: [propext, Classical.choice, Quot.sound]
Verif.Spatial.C184_exponent: [propext, Classical.choice, Quot.sound]
Verif.Spatial.C184_part: [propext, Classical.choice, Quot.sound]
Verif.Spatial.C184_jacobian: [propext, Classical.choice, Quot.sound]
Verif.Spatial.C184_limits: [propext, Classical.choice, Quot.sound]
Verif.Spatial.C184_rate_partial: [propext, Classical.choice, Quot.sound]
Verif.Spatial.C184_euclidean: [propext, Classical.choice, Quot.sound]
Verif.Spatial.C185_rate_partial: [propext, Classical.choice, Quot.sound]
Verif.Spatial.C185_violated_miss: [propext, Classical.choice, Quot.sound]
Verif.Candle.C186_positive: [propext, Classical.choice, Quot.sound]
Verif.Candle.C186_friedmann: [propext, Classical.choice, Quot.sound]
Verif.Candle.C186_slope: [propext, Classical.choice, Quot.sound]
Verif.Candle.C186_flat: [propext, Classical.choice, Quot.sound]
Verif.Candle.C187_fraction_partial: [propext, Classical.choice, Quot.sound]
Verif.Candle.C187_bounds: [propext, Classical.choice, Quot.sound]
Verif.Candle.C187_violated_cutoff: [propext, Classical.choice, Quot.sound]
Verif.Candle.C188_norm: [propext, Classical.choice, Quot.sound]
Verif.Candle.C188_rate_partial: [propext, Classical.choice, Quot.sound]
Verif.Candle.C188_violated_one: [propext, Classical.choice, Quot.sound]
Verif.Candle.C188_consistent: [propext, Classical.choice, Quot.sound]
Verif.Candle.C189_rate: [propext, Classical.choice, Quot.sound]
Verif.Candle.C189_slope_partial: [propext, Classical.choice, Quot.sound]
Verif.Candle.C189_jacobian: [propext, Classical.choice, Quot.sound]
Verif.Candle.C189_candle: [propext, Classical.choice, Quot.sound]
Verif.Candle.C189_violated_slope: [propext, Classical.choice, Quot.sound]
Verif.Candle.C190_root: [propext, Classical.choice, Quot.sound]
Verif.Candle.C190_luminosity: [propext, Classical.choice, Quot.sound]
Verif.Candle.C190_cut: [propext, Classical.choice, Quot.sound]
Verif.Candle.C190_stops: [propext, Classical.choice, Quot.sound]
Verif.Lk.C191_grid_partial: [propext, Classical.choice, Quot.sound]
Verif.Lk.C191_refused: [propext, Classical.choice, Quot.sound]
Verif.Lk.C191_violated_order: [propext, Classical.choice, Quot.sound]
Verif.Lk.C191_violated_low: [propext, Classical.choice, Quot.sound]
Verif.Lk.C192_value: [propext, Classical.choice, Quot.sound]
Verif.Lk.C192_nodes: [propext, Classical.choice, Quot.sound]
Verif.Lk.C192_between: [propext, Classical.choice, Quot.sound]
Verif.Lk.C192_exact: [propext, Classical.choice, Quot.sound]
Verif.Lk.C192_below: [propext, Classical.choice, Quot.sound]
Verif.Lk.C192_violated_second: [propext, Classical.choice, Quot.sound]
Verif.Lk.C193_integral: [propext, Classical.choice, Quot.sound]
Verif.Lk.C193_through: [propext, Classical.choice, Quot.sound]
Verif.Lk.C193_exact: [propext, Classical.choice, Quot.sound]
Verif.Lk.C193_scale: [propext, Classical.choice, Quot.sound]
Verif.Lk.C194_tail_partial: [propext, Classical.choice, Quot.sound]
Verif.Lk.C194_one: [propext, Classical.choice, Quot.sound]
Verif.Lk.C194_diverges: [propext, Classical.choice, Quot.sound]
Verif.Lk.C194_violated_tail: [propext, Classical.choice, Quot.sound]
Verif.Lk.C194_violated_total: [propext, Classical.choice, Quot.sound]
Verif.Lk.C195_full: [propext, Classical.choice, Quot.sound]
Verif.Lk.C195_marginal: [propext, Classical.choice, Quot.sound]
Verif.Lk.C195_invariant: [propext, Classical.choice, Quot.sound]
Verif.Lk.C195_mode: [propext, Classical.choice, Quot.sound]
Verif.Lk.C195_mixture: [propext, Classical.choice, Quot.sound]
Verif.Lk.C195_floor: [propext, Classical.choice, Quot.sound]
Verif.Lk.C196_history: [propext, Classical.choice, Quot.sound]
Verif.Lk.C196_repeat: [propext, Classical.choice, Quot.sound]
Verif.Lk.C196_needed: [propext, Classical.choice, Quot.sound]
Verif.Lk.C197_constant_partial: [propext, Classical.choice, Quot.sound]
Verif.Lk.C197_isotropic: [propext, Classical.choice, Quot.sound]
Verif.Lk.C197_violated_range: [propext, Classical.choice, Quot.sound]
Verif.Lk.C198_same_partial: [propext, Classical.choice, Quot.sound]
Verif.Lk.C198_violated_end: [propext, Classical.choice, Quot.sound]
Verif.Lk.C198_fraction: [propext, Classical.choice, Quot.sound]
Verif.Lk.C198_ends: [propext, Classical.choice, Quot.sound]
Verif.Agrid.C199_global: [propext, Classical.choice, Quot.sound]
Verif.Agrid.C199_exact: [propext, Classical.choice, Quot.sound]
Verif.Agrid.C199_constant_partial: [propext, Classical.choice, Quot.sound]
Verif.Agrid.C199_violated_overlap: [propext, Classical.choice, Quot.sound]
Verif.Agrid.C199_violated_descending: [propext, Classical.choice, Quot.sound]
Verif.Agrid.C199_two: [propext, Classical.choice, Quot.sound]
Verif.Agrid.C199_shift: [propext, Classical.choice, Quot.sound]
Verif.Agrid.C200_content: [propext, Classical.choice, Quot.sound]
Verif.Agrid.C200_root: [propext, Classical.choice, Quot.sound]
Verif.Agrid.C200_bracket: [propext, Classical.choice, Quot.sound]
Verif.Agrid.C201_crossings: [propext, Classical.choice, Quot.sound]
Verif.Agrid.C201_region_partial: [propext, Classical.choice, Quot.sound]
Verif.Agrid.C201_violated_exact: [propext, Classical.choice, Quot.sound]
Verif.Agrid.C201_violated_zero: [propext, Classical.choice, Quot.sound]
Verif.Nhess.C202_solution: [propext, Classical.choice, Quot.sound]
Verif.Nhess.C202_quadratic_partial: [propext, Classical.choice, Quot.sound]
Verif.Nhess.C202_violated_offset: [propext, Classical.choice, Quot.sound]
Verif.Nhess.C202_violated_inverse: [propext, Classical.choice, Quot.sound]
Verif.MC.C203_fill: [propext, Classical.choice, Quot.sound]
Verif.MC.C203_prefix: [propext, Classical.choice, Quot.sound]
Verif.MC.C203_randomseed: [propext, Classical.choice, Quot.sound]
Verif.MC.C204_pairs: [propext, Classical.choice, Quot.sound]
Verif.MC.C204_bound: [propext, Classical.choice, Quot.sound]
Verif.MC.C204_seed_partial: [propext, Classical.choice, Quot.sound]
Verif.MC.C204_violated_restore: [propext, Classical.choice, Quot.sound]
Verif.MC.C204_normal: [propext, Classical.choice, Quot.sound]
Verif.Sigma.C205_disc: [propext, Classical.choice, Quot.sound]
Verif.Sigma.C205_inverse: [propext, Classical.choice, Quot.sound]
Verif.Sigma.C205_dens_partial: [propext, Classical.choice, Quot.sound]
Verif.Sigma.C205_violated_dens: [propext, Classical.choice, Quot.sound]
Verif.Pie.C206_status: [propext, Classical.choice, Quot.sound]
Verif.Pie.C206_margin_partial: [propext, Classical.choice, Quot.sound]
Verif.Pie.C206_monotone: [propext, Classical.choice, Quot.sound]
Verif.Pie.C206_unbounded: [propext, Classical.choice, Quot.sound]
Verif.Pie.C206_violated_point: [propext, Classical.choice, Quot.sound]
Verif.Signals.Kepler.C207_velocity_partial: [propext, Classical.choice, Quot.sound]
Verif.Signals.Kepler.C207_curve: [propext, Classical.choice, Quot.sound]
Verif.Signals.Kepler.C207_data_partial: [propext, Classical.choice, Quot.sound]
Verif.Signals.Kepler.C207_chisq: [propext, Classical.choice, Quot.sound]
Verif.Signals.Kepler.C207_violated_phase: [propext, Classical.choice, Quot.sound]
Verif.Signals.Kepler.C207_violated_one: [propext, Classical.choice, Quot.sound]
Verif.Integrate.Maps.C208_exp_inverse: [propext, Classical.choice, Quot.sound]
Verif.Integrate.Maps.C208_pl_inverse: [propext, Classical.choice, Quot.sound]
Verif.Integrate.Maps.C208_exp_partial: [propext, Classical.choice, Quot.sound]
Verif.Integrate.Maps.C208_pl_partial: [propext, Classical.choice, Quot.sound]
Verif.Integrate.Maps.C208_violated_alpha: [propext, Classical.choice, Quot.sound]
Verif.Integrate.Maps.C208_violated_mid: [propext, Classical.choice, Quot.sound]
Verif.Integrate.Maps.C208_violated_mid_roll: [propext, Classical.choice, Quot.sound]
Verif.Integrate.RuleMaker.C209_xcomb: [propext, Classical.choice, Quot.sound]
Verif.Integrate.RuleMaker.C209_xcomb_count: [propext, Classical.choice, Quot.sound]
Verif.Integrate.RuleMaker.C209_xperm: [propext, Classical.choice, Quot.sound]
Verif.Integrate.RuleMaker.C209_xsubsets: [propext, Classical.choice, Quot.sound]
Verif.Integrate.RuleMaker.C209_flip_partial: [propext, Classical.choice, Quot.sound]
Verif.Integrate.RuleMaker.C209_violated_list: [propext, Classical.choice, Quot.sound]
Verif.Integrate.RuleMaker.C210_points: [propext, Classical.choice, Quot.sound]
Verif.Integrate.RuleMaker.C210_symmetric: [propext, Classical.choice, Quot.sound]
Verif.Integrate.RuleMaker.C210_odd: [propext, Classical.choice, Quot.sound]
Verif.Integrate.RuleMaker.C210_symmetry_examples: [propext, Quot.sound]
Verif.Integrate.RuleMaker.C210_circles: [propext, Classical.choice, Quot.sound]
Verif.Drxn.C211_three_partial: [propext, Classical.choice, Quot.sound]
Verif.Drxn.C211_four_partial: [propext, Classical.choice, Quot.sound]
Verif.Drxn.C211_violated_memory: [propext, Classical.choice, Quot.sound]
Verif.Drxn.C211_violated_few: [propext, Classical.choice, Quot.sound]
Verif.Drxn.C211_violated_opposite: [propext, Classical.choice, Quot.sound]
Verif.Drxn.C211_reads: [propext, Classical.choice, Quot.sound]
Verif.PlotBivar.C212_points: [propext, Classical.choice, Quot.sound]
Verif.PlotBivar.C212_levels: [propext, Classical.choice, Quot.sound]
Verif.PlotBivar.C212_violated_order: [propext, Classical.choice, Quot.sound]
Verif.PlotBivar.C212_violated_cross: [propext, Classical.choice, Quot.sound]
Verif.PlotBivar.C212_image_partial: [propext, Classical.choice, Quot.sound]
Verif.PlotBivar.C212_violated_image: [propext, Classical.choice, Quot.sound]
Verif.PlotBivar.C212_coord_partial: [propext, Classical.choice, Quot.sound]
Verif.PlotBivar.C212_violated_coord: [propext, Classical.choice, Quot.sound]
Verif.PlotBivar.C212_grid_partial: [propext, Classical.choice, Quot.sound]
Verif.PlotBivar.C212_violated_gscale: [propext, Classical.choice, Quot.sound]
Verif.PlotBivar.C212_violated_overlay: [propext, Classical.choice, Quot.sound]
Verif.PlotBivar.C212_violated_label: [propext, Classical.choice, Quot.sound]
Verif.Pie.Registry.C213_names: [propext, Classical.choice, Quot.sound]
Verif.Pie.Registry.C213_set: [propext, Classical.choice, Quot.sound]
Verif.Pie.Registry.C213_told: [propext, Classical.choice, Quot.sound]
Verif.Pie.Registry.C213_linear: [propext, Classical.choice, Quot.sound]
Verif.Pie.Registry.C213_log: [propext, Classical.choice, Quot.sound]
Verif.Pie.Registry.C213_violated_default: [propext, Classical.choice, Quot.sound]
Verif.Pie.Registry.C213_violated_told: [propext, Classical.choice, Quot.sound]
Verif.Pie.Registry.C213_violated_check: [propext, Classical.choice, Quot.sound]
Verif.Pie.Registry.C213_violated_vary: [propext, Classical.choice, Quot.sound]
Verif.Pie.Registry.C213_violated_range: [propext, Classical.choice, Quot.sound]
Verif.Pie.Registry.C213_violated_single: [propext, Classical.choice, Quot.sound]
Verif.Pie.Registry.C213_unbounded_partial: [propext, Classical.choice, Quot.sound]
Verif.Pie.PredCopy.C214_copies_partial: [propext, Classical.choice, Quot.sound]
Verif.Pie.PredCopy.C214_heals: [propext, Classical.choice, Quot.sound]
Verif.Pie.PredCopy.C214_violated_stale: [propext, Quot.sound]
Verif.Pie.PredCopy.C214_violated_missing: [propext, Classical.choice, Quot.sound]
Verif.MC.Mem.C215_no_double_free: [propext, Classical.choice, Quot.sound]
Verif.MC.Mem.C215_weights: [propext, Classical.choice, Quot.sound]
Verif.MC.Mem.C215_population_partial: [propext, Classical.choice, Quot.sound]
Verif.MC.Mem.C215_noleak_partial: [propext, Classical.choice, Quot.sound]
Verif.MC.Mem.C215_violated_leak: [propext, Classical.choice, Quot.sound]
Verif.MC.Mem.C215_violated_zero: [propext, Classical.choice, Quot.sound]
Verif.MC.Mem.C215_violated_weights: [propext, Classical.choice, Quot.sound]
Verif.MC.Mem.C215_violated_order: [propext, Classical.choice, Quot.sound]
Verif.MC.Mem.C215_violated_reference: [propext, Classical.choice, Quot.sound]
Verif.OnOff.Wrap.C216_sigctp: [propext, Classical.choice, Quot.sound]
Verif.OnOff.Wrap.C216_bounds_partial: [propext, Classical.choice, Quot.sound]
Verif.OnOff.Wrap.C216_violated_bounds: [propext, Classical.choice, Quot.sound]
Verif.OnOff.Wrap.C216_violated_large: [propext, Classical.choice, Quot.sound]
Verif.OnOff.Wrap.C216_violated_fraction: [propext, Classical.choice, Quot.sound]
Verif.OnOff.Wrap.C216_psigc: [propext, Classical.choice, Quot.sound]
Verif.OnOff.Wrap.C216_offsets: [propext, Classical.choice, Quot.sound]
Verif.OnOff.Wrap.C216_vector_partial: [propext, Classical.choice, Quot.sound]
Verif.OnOff.Wrap.C216_violated_flag: [propext, Classical.choice, Quot.sound]
Verif.Pie.Container.C217_container_partial: [propext, Classical.choice, Quot.sound]
Verif.Pie.Container.C217_violated_names: [propext, Classical.choice, Quot.sound]
Verif.Pie.Container.C217_violated_docs: [propext, Classical.choice, Quot.sound]
Verif.Pie.Container.C217_violated_store: [propext, Classical.choice, Quot.sound]
Verif.MC.C218_altfill_partial: [propext, Quot.sound]
Verif.MC.C218_violated_empty: [propext, Quot.sound]
Verif.MC.C218_randomseed: [propext, Classical.choice, Quot.sound]
Verif.MC.IntWidth.C219_sorted_partial: [propext, Classical.choice, Quot.sound]
Verif.MC.IntWidth.C219_violated_largest: [propext, Classical.choice, Quot.sound]
Verif.MC.IntWidth.C219_violated_returned: [propext, Classical.choice, Quot.sound]
Verif.MC.IntWidth.C219_violated_total: [propext, Classical.choice, Quot.sound]
Verif.MC.IntWidth.C219_violated_probabilities: [propext, Classical.choice, Quot.sound]
Verif.Vba.Mem.C220_bounds_partial: [propext, Classical.choice, Quot.sound]
Verif.Vba.Mem.C220_violated_bounds: [propext, Quot.sound]
Verif.Vba.Mem.C220_violated_rows: [propext, Quot.sound]
Verif.HPD.Slow.C221_value_partial: [propext, Classical.choice, Quot.sound]
Verif.HPD.Slow.C221_first_partial: [propext, Classical.choice, Quot.sound]
Verif.HPD.Slow.C221_above_partial: [propext, Classical.choice, Quot.sound]
Verif.HPD.Slow.C221_violated_empty: [propext, Classical.choice, Quot.sound]
Verif.HPD.Slow.C221_violated: [propext, Classical.choice, Quot.sound]
Verif.MC.FiveTable.C222_exact_partial: [propext, Classical.choice, Quot.sound]
Verif.MC.FiveTable.C222_calls_partial: [propext, Classical.choice, Quot.sound]
Verif.MC.FiveTable.C222_violated_word: [propext, Classical.choice, Quot.sound]
Verif.MC.FiveTable.C222_violated_round: [propext, Classical.choice, Quot.sound]
Verif.MC.FiveTable.C222_violated_one: [propext, Classical.choice, Quot.sound]
Verif.MC.FiveTable.C222_violated_values: [propext, Classical.choice, Quot.sound]
Verif.MC.FiveTable.C223_entries_partial: [propext, Classical.choice, Quot.sound]
Verif.MC.FiveTable.C223_violated_small: [propext, Classical.choice, Quot.sound]
Verif.MC.FiveTable.C224_entries_partial: [propext, Classical.choice, Quot.sound]
Verif.MC.FiveTable.C224_violated_zero: [propext, Classical.choice, Quot.sound]
Verif.MC.FiveTable.C224_violated_write: [propext, Classical.choice, Quot.sound]
Verif.MC.FiveTable.C225_entries_partial: [propext, Classical.choice, Quot.sound]
Verif.MC.FiveTable.C225_violated_offset: [propext, Classical.choice, Quot.sound]
Verif.MC.ChiSq.C226_cdf_partial: [propext, Classical.choice, Quot.sound]
Verif.MC.ChiSq.C226_violated_zero: [propext, Classical.choice, Quot.sound]
Verif.MC.ChiSq.C227_error: [propext, Classical.choice, Quot.sound]
Verif.MC.ChiSq.C227_limit: [propext, Classical.choice, Quot.sound]
Verif.MC.ChiSq.C227_rounds: [propext, Classical.choice, Quot.sound]
Verif.MC.Dtest.C228_classes_partial: [propext, Classical.choice, Quot.sound]
Verif.MC.Dtest.C228_counts_partial: [propext, Classical.choice, Quot.sound]
Verif.MC.Dtest.C228_violated_upper: [propext, Classical.choice, Quot.sound]
Verif.MC.Dtest.C228_violated_single: [propext, Classical.choice, Quot.sound]
Verif.Deriv.QdInfo.C229_violated_never_returns: [propext, Classical.choice, Quot.sound]
Verif.Deriv.QdInfo.C229_exact_partial: [propext, Classical.choice, Quot.sound]
Verif.Deriv.QdInfo.C229_expanded_partial: [propext, Classical.choice, Quot.sound]
Verif.Deriv.QdInfo.C229_violated_uneven: [propext, Classical.choice, Quot.sound]
Verif.Romberg.C230_indices_partial: [propext, Classical.choice, Quot.sound]
Verif.Romberg.C230_rombint_partial: [propext, Classical.choice, Quot.sound]
Verif.Romberg.C230_violated_equal: [propext, Classical.choice, Quot.sound]
Verif.Romberg.C230_violated_accuracy: [propext, Classical.choice, Quot.sound]
Verif.Quad.C231_fclencurt_partial: [propext, Classical.choice, Quot.sound]
Verif.Quad.C231_violated_two: [propext, Classical.choice, Quot.sound]
Verif.Quad.C232_transform_partial: [propext, Classical.choice, Quot.sound]
Verif.Quad.C232_violated_highest: [propext, Classical.choice, Quot.sound]
Verif.Deriv.InfoScale.C233_drop_partial: [propext, Classical.choice, Quot.sound]
Verif.Deriv.InfoScale.C233_parabola_partial: [propext, Classical.choice, Quot.sound]
Verif.Deriv.InfoScale.C233_violated_flat: [propext, Classical.choice, Quot.sound]
Verif.Deriv.InfoScale.C233_violated_loop: [propext, Classical.choice, Quot.sound]
Verif.Deriv.InfoScale.C233_violated_offset: [propext, Classical.choice, Quot.sound]
Verif.Deriv.Ockham.C234_volume_partial: [propext, Classical.choice, Quot.sound]
Verif.Deriv.Ockham.C234_flag_partial: [propext, Classical.choice, Quot.sound]
Verif.Deriv.Ockham.C234_violated_dropped: [propext, Classical.choice, Quot.sound]
Verif.Deriv.Ockham.C234_violated_stale: [propext, Classical.choice, Quot.sound]
Verif.Deriv.Ockham.C234_violated_tmode: [propext]
Verif.Deriv.LogDet.C235_logdet_partial: [propext, Classical.choice, Quot.sound]
Verif.Deriv.LogDet.C235_fails_partial: [propext, Classical.choice, Quot.sound]
Verif.Deriv.LogDet.C235_mantissa_partial: [propext, Classical.choice, Quot.sound]
