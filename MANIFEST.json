{
 "claims": [
  {
   "property": "C01",
   "status": "proved",
   "theorems": [
    "Verif.Pie.C01_status_lists",
    "Verif.Pie.C01_untouched"
   ],
   "note": "All histories over 20 operations, raising or not."
  },
  {
   "property": "C02",
   "status": "proved",
   "theorems": [
    "Verif.Pie.C02_linear_grid",
    "Verif.Pie.C02_log_grid",
    "Verif.Pie.C02_log_grid_real",
    "Verif.Pie.C02_ends_exact"
   ],
   "note": ""
  },
  {
   "property": "C03",
   "status": "proved",
   "theorems": [
    "Verif.Pie.C03_not_stepping",
    "Verif.Pie.C03_at_the_ends",
    "Verif.Pie.C03_step_taken"
   ],
   "note": ""
  },
  {
   "property": "C04",
   "status": "proved",
   "theorems": [
    "Verif.Pie.C04_histories_are_proper",
    "Verif.Pie.C04_zigzag"
   ],
   "note": ""
  },
  {
   "property": "C05",
   "status": "proved",
   "theorems": [
    "Verif.Pie.C05_neighbours"
   ],
   "note": ""
  },
  {
   "property": "C06",
   "status": "proved",
   "theorems": [
    "Verif.Pie.C06_grid_filled",
    "Verif.Pie.C06_profile_grid"
   ],
   "note": ""
  },
  {
   "property": "C07",
   "status": "partial",
   "theorems": [
    "Verif.Pie.C07_fills_the_rest_partial",
    "Verif.Pie.C07_violated"
   ],
   "note": "False of the code (C07_violated); the partial theorem says exactly which cells a do_grid started after r steps fills."
  },
  {
   "property": "C08",
   "status": "proved",
   "theorems": [
    "Verif.Pie.C08_profile_optimum"
   ],
   "note": ""
  },
  {
   "property": "C09",
   "status": "proved",
   "theorems": [
    "Verif.Pie.C09_rejected",
    "Verif.Pie.C09_accepted"
   ],
   "note": ""
  },
  {
   "property": "C10",
   "status": "partial",
   "theorems": [
    "Verif.Pie.C10_violated",
    "Verif.Pie.C10_violated_by_zero_steps",
    "Verif.Pie.C10_in_range_partial"
   ],
   "note": "False: a range may be declared around anything (C10_violated), and zero steps leave the range (C10_violated_by_zero_steps); proved for histories in which declared ranges contain the value."
  },
  {
   "property": "C11",
   "status": "partial",
   "theorems": [
    "Verif.Pie.C11_violated",
    "Verif.Pie.C11_raising_vary_partial"
   ],
   "note": "False: vary that raises has already changed the parameter (C11_violated); what remains unchanged is proved."
  },
  {
   "property": "C12",
   "status": "partial",
   "theorems": [
    "Verif.Pie.C12_violated",
    "Verif.Pie.C12_raising_linstep_partial",
    "Verif.Pie.C12_raising_logstep"
   ],
   "note": "False: linstep with one step raises after changing the parameter (C12_violated); what remains unchanged is proved."
  },
  {
   "property": "C13",
   "status": "proved",
   "theorems": [
    "Verif.Pie.C13_unbounded_bijection",
    "Verif.Pie.C13_read_then_set",
    "Verif.Pie.C13_overflow",
    "Verif.Pie.C13_only_varying"
   ],
   "note": ""
  },
  {
   "property": "C14",
   "status": "proved",
   "theorems": [
    "Verif.Pie.C14_get_params",
    "Verif.Pie.C14_get_then_set",
    "Verif.Pie.C14_set_then_get",
    "Verif.Pie.C14_stepping_raises"
   ],
   "note": ""
  },
  {
   "property": "C15",
   "status": "proved",
   "theorems": [
    "Verif.Pie.C15_store",
    "Verif.Pie.C15_snapshots"
   ],
   "note": ""
  },
  {
   "property": "C16",
   "status": "proved",
   "theorems": [
    "Verif.Pie.C16_wrong_count",
    "Verif.Pie.C16_positional",
    "Verif.Pie.C16_range_error",
    "Verif.Pie.C16_order"
   ],
   "note": ""
  },
  {
   "property": "C17",
   "status": "proved",
   "theorems": [
    "Verif.Pie.C17_source_order",
    "Verif.Pie.C17_missing_is_silent",
    "Verif.Pie.C17_no_source"
   ],
   "note": "Source order proved for every source text and every set of identifier names, including the skip-on-remove iteration; the two remaining theorems prove what happens when a name is not assigned on a line of its own (all parameters silently dropped) and when the source is unavailable (the class's own list is extended)."
  },
  {
   "property": "C18",
   "status": "partial",
   "theorems": [
    "Verif.Pie.C18_violated",
    "Verif.Pie.C18_definitions_partial"
   ],
   "note": "False of the code for a subclass that adds parameters (C18_violated); proved for all class histories in which parameter-declaring classes have no parameterised ancestor."
  },
  {
   "property": "C19",
   "status": "partial",
   "theorems": [
    "Verif.Pie.C19_isolation_partial",
    "Verif.Pie.C19_no_sim1_partial",
    "Verif.Pie.C19_violated"
   ],
   "note": "Violated when an existing list (or one-element array) is handed to sim of two instances and sim1 follows: C19_violated. Proved for all histories in which sim gets only new sequences, and for all operations but sim1 without that restriction."
  },
  {
   "property": "C20",
   "status": "partial",
   "theorems": [
    "Verif.Pie.C20_original_data_partial",
    "Verif.Pie.C20_violated"
   ],
   "note": "Violated for single-datum predictors whose own array is passed to sim (C20_violated). Proved for all other histories."
  },
  {
   "property": "C21",
   "status": "proved",
   "theorems": [
    "Verif.Pie.C21_agree",
    "Verif.Pie.C21_value",
    "Verif.Pie.C21_nonneg",
    "Verif.Pie.C21_scores"
   ],
   "note": "Agreement in every state; values and scores in every reachable state with matching lengths; sign."
  },
  {
   "property": "C22",
   "status": "partial",
   "theorems": [
    "Verif.Pie.C22_count_partial",
    "Verif.Pie.C22_violated"
   ],
   "note": "Violated by add_sim and by sim with two sequences of another length (C22_violated). Proved for all other histories."
  },
  {
   "property": "C23",
   "status": "proved",
   "theorems": [
    "Verif.Pie.C23_announced",
    "Verif.Pie.C23_one_call",
    "Verif.Pie.C23_reads",
    "Verif.Pie.C23_on_use"
   ],
   "note": "Announcements, single writes, reads and the on_use hook before every evaluation."
  },
  {
   "property": "C24",
   "status": "proved",
   "theorems": [
    "Verif.Grid1.C24_top",
    "Verif.Grid1.C24_max",
    "Verif.Grid1.C24_zero_capacity"
   ],
   "note": ""
  },
  {
   "property": "C25",
   "status": "proved",
   "theorems": [
    "Verif.Grid1.C25_range",
    "Verif.Grid1.C25_limitRange"
   ],
   "note": ""
  },
  {
   "property": "C26",
   "status": "partial",
   "theorems": [
    "Verif.Grid1.C26_tiling_partial",
    "Verif.Grid1.C26_accepted",
    "Verif.Grid1.C26_violated"
   ],
   "note": "Proved for all histories of updates asking for at least one point each, on linear lists and on logarithmic lists with positive bounds. A request for n<=0 points destroys the tiling (C26_violated)."
  },
  {
   "property": "C27",
   "status": "partial",
   "theorems": [
    "Verif.Grid1.C27_base_partial",
    "Verif.Grid1.C27_never_coarser_partial",
    "Verif.Grid1.C27_requested_partial",
    "Verif.Grid1.C27_elsewhere_partial",
    "Verif.Grid1.C27_violated"
   ],
   "note": "Proved for linear lists: never coarser than the base or than before, bound by the requested step, unchanged elsewhere. False for logarithmic lists (C27_violated): sub-intervals are made linear."
  },
  {
   "property": "C28",
   "status": "proved",
   "theorems": [
    "Verif.Grid1.C28_points",
    "Verif.Grid1.C28_nlocate"
   ],
   "note": ""
  },
  {
   "property": "C29",
   "status": "proved",
   "theorems": [
    "Verif.Grid1.C29_locate",
    "Verif.Grid1.C29_cell"
   ],
   "note": ""
  },
  {
   "property": "C30",
   "status": "partial",
   "theorems": [
    "Verif.Grid1.C30_violated",
    "Verif.Grid1.C30_violated_reversed",
    "Verif.Grid1.C30_forward_partial"
   ],
   "note": "False of the code (C30_violated, C30_violated_reversed): reversed ranges are always rejected."
  },
  {
   "property": "C31",
   "status": "proved",
   "theorems": [
    "Verif.Grid1.C31_basic",
    "Verif.Grid1.C31_interpolant_exists",
    "Verif.Grid1.C31_linear",
    "Verif.Grid1.C31_never_raises",
    "Verif.Grid1.C31_refined",
    "Verif.Grid1.C31_refined_linear",
    "Verif.Grid1.C31_additive"
   ],
   "note": "Basic grids filled either way, linear and logarithmic; refinable linear grids after any history of first passes and refinements, which never raise."
  },
  {
   "property": "C32",
   "status": "partial",
   "theorems": [
    "Verif.Grid1.C32_basic_partial",
    "Verif.Grid1.C32_bounds",
    "Verif.Grid1.C32_violated",
    "Verif.Grid1.C32_refined_partial",
    "Verif.Grid1.C32_refined_bounds"
   ],
   "note": "Exact when no value is more than 725 below another; otherwise the proved bounds hold (too large by at most (hi-lo) e^(max-725)) and exactness is false in exact arithmetic (C32_violated)."
  },
  {
   "property": "C33",
   "status": "partial",
   "theorems": [
    "Verif.Grid1.C33_same_values",
    "Verif.Grid1.C33_offers",
    "Verif.Grid1.C33_peaks",
    "Verif.Grid1.C33_vector_partial",
    "Verif.Grid1.C33_violated",
    "Verif.Grid1.C33_two_points",
    "Verif.Grid1.C33_firstpass"
   ],
   "note": "Same values; point-by-point filling offers exactly the local maxima. Vector filling does the same only if the list is not empty; new lists are (C33_violated)."
  },
  {
   "property": "C34",
   "status": "proved",
   "theorems": [
    "Verif.HPD.C34_integral",
    "Verif.HPD.C34_interpolant_exists",
    "Verif.HPD.C34_trapezoid"
   ],
   "note": "Equal to the integral over the cells lying above the level of the linear interpolant, for every array; equal to the trapezoid sum when no cell is flat at or below the level."
  },
  {
   "property": "C35",
   "status": "proved",
   "theorems": [
    "Verif.HPD.C35_monotone",
    "Verif.HPD.C35_bounds",
    "Verif.HPD.C35_zero",
    "Verif.HPD.C35_at_minimum",
    "Verif.HPD.C35_plateau"
   ],
   "note": ""
  },
  {
   "property": "C36",
   "status": "partial",
   "theorems": [
    "Verif.HPD.C36_crossings_partial",
    "Verif.HPD.C36_even",
    "Verif.HPD.C36_too_many",
    "Verif.HPD.C36_odd_buffer",
    "Verif.HPD.C36_even_buffer_overrun",
    "Verif.HPD.C36_violated"
   ],
   "note": "Crossings sorted, located by linear interpolation; even/odd buffer behaviour proved; a buffer of even size is overrun by one (C36_violated, C36_even_buffer_overrun)."
  },
  {
   "property": "C37",
   "status": "partial",
   "theorems": [
    "Verif.HPD.C37_full",
    "Verif.HPD.C37_monotone",
    "Verif.HPD.C37_zero",
    "Verif.HPD.C37_violated",
    "Verif.HPD.C37_integral_partial"
   ],
   "note": "Content above the level is the trapezoid over rows; monotone; the result depends on which axis is called x (C37_violated)."
  },
  {
   "property": "C38",
   "status": "partial",
   "theorems": [
    "Verif.HPD.C38_constructor",
    "Verif.HPD.C38_fraction_partial",
    "Verif.HPD.C38_monotone",
    "Verif.HPD.C38_raises_only_flat",
    "Verif.HPD.C38_shift",
    "Verif.HPD.C38_violated",
    "Verif.HPD.C38_two_dim_partial"
   ],
   "note": "Proved for densities with no two neighbouring points at the minimum; otherwise false (C38_violated)."
  },
  {
   "property": "C39",
   "status": "proved",
   "theorems": [
    "Verif.Num.C39_linear",
    "Verif.Num.C39_linear_enum",
    "Verif.Num.C39_linear_small",
    "Verif.Num.C39_log",
    "Verif.Num.C39_log_enum"
   ],
   "note": ""
  },
  {
   "property": "C40",
   "status": "partial",
   "theorems": [
    "Verif.Num.C40_leaves_partial",
    "Verif.Num.C40_atoms",
    "Verif.Num.C40_idempotent",
    "Verif.Num.C40_violated"
   ],
   "note": "Leaves in order if no empty sequence occurs; in general leaves and empty sequences (C40_atoms, C40_violated); idempotent."
  },
  {
   "property": "C41",
   "status": "partial",
   "theorems": [
    "Verif.Num.C41_bracket_partial",
    "Verif.Num.C41_calls",
    "Verif.Num.C41_immediate",
    "Verif.Num.C41_search_partial",
    "Verif.Num.C41_zero",
    "Verif.Num.C41_violated"
   ],
   "note": "All clauses but the last proved; the last is false (C41_violated)."
  },
  {
   "property": "C42",
   "status": "proved",
   "theorems": [
    "Verif.Num.C42_sum",
    "Verif.Num.C42_exact",
    "Verif.Num.C42_order",
    "Verif.Num.C42_empty",
    "Verif.Num.C42_sigma",
    "Verif.Num.C42_start_with_sig"
   ],
   "note": "All histories of additions and zeros."
  },
  {
   "property": "C43",
   "status": "proved",
   "theorems": [
    "Verif.Files.C43_crash_points",
    "Verif.Files.C43_crash",
    "Verif.Files.C43_latest",
    "Verif.Files.C43_backup",
    "Verif.Files.C43_frame",
    "Verif.Files.C43_three_torn"
   ],
   "note": "All histories of attempts, each dying at any step or completing; limits of the scheme in C43_three_torn."
  },
  {
   "property": "C44",
   "status": "partial",
   "theorems": [
    "Verif.Files.C44_violated",
    "Verif.Files.C44_violated_restore",
    "Verif.Files.C44_rotation_partial",
    "Verif.Files.C44_violated_history"
   ],
   "note": "False on Python 3 (C44_violated, C44_violated_restore, C44_violated_history); the rotation of files is proved."
  },
  {
   "property": "C45",
   "status": "partial",
   "theorems": [
    "Verif.Files.C45_read_partial",
    "Verif.Files.C45_cycles_partial",
    "Verif.Files.C45_new_partial",
    "Verif.Files.C45_violated",
    "Verif.Files.C45_violated_method"
   ],
   "note": "All histories through any number of cycles, except arrays named file (C45_violated) and attributes named save or contents (C45_violated_method)."
  },
  {
   "property": "C46",
   "status": "partial",
   "theorems": [
    "Verif.Files.C46_violated",
    "Verif.Files.C46_stem_partial"
   ],
   "note": "False for full names (C46_violated); proved for names without suffix."
  },
  {
   "property": "C47",
   "status": "partial",
   "theorems": [
    "Verif.Files.C47_columns_partial",
    "Verif.Files.C47_short",
    "Verif.Files.C47_violated"
   ],
   "note": "Proved for as_arrays=False; always raises otherwise (C47_violated)."
  },
  {
   "property": "C48",
   "status": "proved",
   "theorems": [
    "Verif.NrMin.C48_bracket",
    "Verif.NrMin.C48_bracket_never",
    "Verif.NrMin.C48_brent",
    "Verif.NrMin.C48_brent_local",
    "Verif.NrMin.C48_linmin",
    "Verif.NrMin.C48_powell",
    "Verif.NrMin.C48_linmin_never",
    "Verif.NrMin.C48_powell_never"
   ],
   "note": "Partial correctness for every objective and every number of passes; cases that never end are proved too (C48_bracket_never, C48_linmin_never, C48_powell_never)."
  },
  {
   "property": "C49",
   "status": "proved",
   "theorems": [
    "Verif.MC.C49_counts",
    "Verif.MC.C49_in_range",
    "Verif.MC.C49_rejected",
    "Verif.MC.C49_no_overflow"
   ],
   "note": ""
  },
  {
   "property": "C50",
   "status": "proved",
   "theorems": [
    "Verif.MC.C50_certain",
    "Verif.MC.C50_uncertain",
    "Verif.MC.C50_none"
   ],
   "note": ""
  },
  {
   "property": "C51",
   "status": "proved",
   "theorems": [
    "Verif.MC.C51_array",
    "Verif.MC.C51_append"
   ],
   "note": ""
  },
  {
   "property": "C52",
   "status": "proved",
   "theorems": [
    "Verif.MC.C52_distinct",
    "Verif.MC.C52_bijection",
    "Verif.MC.C52_picks",
    "Verif.MC.C52_sizes",
    "Verif.MC.C52_indices",
    "Verif.MC.C52_workspace"
   ],
   "note": ""
  },
  {
   "property": "C53",
   "status": "partial",
   "theorems": [
    "Verif.MC.C53_subset_pps_partial",
    "Verif.MC.C53_subset_pps5_partial",
    "Verif.MC.C53_whole",
    "Verif.MC.C53_too_large",
    "Verif.MC.C53_returns",
    "Verif.MC.C53_violated",
    "Verif.MC.C53_equal_violated"
   ],
   "note": "Proved for every history and every stream when NumPy's state has the three entries the code expects; with more entries (five in NumPy) every call raises TypeError (C53_violated), without weights NameError (C53_equal_violated)."
  },
  {
   "property": "C54",
   "status": "proved",
   "theorems": [
    "Verif.MC.C54_inclusion",
    "Verif.MC.C54_returns",
    "Verif.MC.C54_subset_pps"
   ],
   "note": "Exact inclusion probability n w/W in [0,1]-uniform draws, for every weight vector and number of tries, termination with probability one, and the link to the model of subset_pps. The table-driven variant is quantised (C49) and not covered."
  },
  {
   "property": "C55",
   "status": "partial",
   "theorems": [
    "Verif.MC.C55_subset_pps_partial",
    "Verif.MC.C55_subset_pps5_partial",
    "Verif.MC.C55_sample",
    "Verif.MC.C55_violated"
   ],
   "note": "All histories and all sizes but zero; false for size zero (C55_violated)."
  },
  {
   "property": "C56",
   "status": "proved",
   "theorems": [
    "Verif.MC.C56_sample",
    "Verif.MC.C56_sample_raises",
    "Verif.MC.C56_sample_twice",
    "Verif.MC.C56_subset_pps",
    "Verif.MC.C56_subset_pps5"
   ],
   "note": "All histories; sample in two parts equals sample at once."
  },
  {
   "property": "C57",
   "status": "partial",
   "theorems": [
    "Verif.PW.C57_values_partial",
    "Verif.PW.C57_logs_partial",
    "Verif.PW.C57_abscissas_partial",
    "Verif.PW.C57_violated",
    "Verif.PW.C57_abscissas_violated"
   ],
   "note": "Everything proved for even grids (values and logarithms) and the weights for given abscissas; pdf raises IndexError at the upper end of the domain (C57_violated) and NotImplementedError for given abscissas (C57_abscissas_violated)."
  },
  {
   "property": "C58",
   "status": "proved",
   "theorems": [
    "Verif.PW.C58_inverse",
    "Verif.PW.C58_increasing",
    "Verif.PW.C58_array",
    "Verif.PW.C58_vector",
    "Verif.PW.C58_distribution",
    "Verif.PW.C58_distribution_logs"
   ],
   "note": "Inverse CDF in each interval, monotone, array form equal to the scalar form; with intervals chosen by weight the samples follow the reported density (the choice of the interval by the table sampler is C49-C51)."
  },
  {
   "property": "C59",
   "status": "proved",
   "theorems": [
    "Verif.OnOff.C59_sigctp",
    "Verif.OnOff.C59_closed",
    "Verif.OnOff.C59_start"
   ],
   "note": "sigctp for every start index; closed form."
  },
  {
   "property": "C60",
   "status": "proved",
   "theorems": [
    "Verif.OnOff.C60_series",
    "Verif.OnOff.C60_full",
    "Verif.OnOff.C60_accuracy",
    "Verif.OnOff.C60_zero"
   ],
   "note": "For every log gamma function; the exact scale if it is exact on the positive integers. Floating point rounding is not modelled."
  },
  {
   "property": "C61",
   "status": "proved",
   "theorems": [
    "Verif.OnOff.C61_largest",
    "Verif.OnOff.C61_offset"
   ],
   "note": "Largest term and monotonicity; offset is always defined."
  },
  {
   "property": "C62",
   "status": "partial",
   "theorems": [
    "Verif.OnOff.C62_ppois",
    "Verif.OnOff.C62_poisson",
    "Verif.OnOff.C62_lppois_partial",
    "Verif.OnOff.C62_violated"
   ],
   "note": "ppois history independent; lppois violated (uninitialised, unsaved table); partial for n larger than any used before."
  },
  {
   "property": "C63",
   "status": "partial",
   "theorems": [
    "Verif.OnOff.C63_pnsig_partial",
    "Verif.OnOff.C63_violated"
   ],
   "note": "Violated at n=0; partial for n >= 1."
  },
  {
   "property": "C64",
   "status": "proved",
   "theorems": [
    "Verif.Vba.C64_analysis"
   ],
   "note": "exact real arithmetic; NaN pivots (which pass the test sum <= 0 in the code) are not modelled"
  },
  {
   "property": "C65",
   "status": "proved",
   "theorems": [
    "Verif.Vba.C65_degenerate",
    "Verif.Vba.C65_posdef",
    "Verif.Vba.C65_sizes"
   ],
   "note": "iff linear dependence of the rows, iff not positive definite; sizes that differ raise"
  },
  {
   "property": "C66",
   "status": "proved",
   "theorems": [
    "Verif.Vba.C66_minimum"
   ],
   "note": "for vba.metricAnalysis; C68_stats and C68_amplitudes state it for the class BA"
  },
  {
   "property": "C67",
   "status": "proved",
   "theorems": [
    "Verif.Vba.C67_covar",
    "Verif.Vba.C67_metric"
   ],
   "note": "C67_covar for any lower triangular matrix with nonzero diagonal, C67_metric for the output of metricAnalysis"
  },
  {
   "property": "C68",
   "status": "partial",
   "theorems": [
    "Verif.Vba.C68_stats",
    "Verif.Vba.C68_amplitudes",
    "Verif.Vba.C68_covar",
    "Verif.Vba.C68_residuals_partial",
    "Verif.Vba.C68_violated"
   ],
   "note": "residuals of earlier parameters are wrong after a computation that raised (C68_violated); everything else holds after all histories. vecba.py sets vba = object(); modelled as if the extension were imported."
  },
  {
   "property": "C69",
   "status": "proved",
   "theorems": [
    "Verif.Cub.C69_rect3",
    "Verif.Cub.C69_rect7",
    "Verif.Cub.C69_exact3",
    "Verif.Cub.C69_exact7",
    "Verif.Cub.C69_square",
    "Verif.Cub.C69_inside"
   ],
   "note": "The tabulated nodes and weights are decimal fractions, so the rules integrate polynomials of their degree to within an explicit bound (about 1e-33 times the sum of coefficients); there are generators within that distance for which they are exact. Nodes lie inside the rectangle."
  },
  {
   "property": "C70",
   "status": "proved",
   "theorems": [
    "Verif.Obs.C70_quadratic",
    "Verif.Obs.C70_symmetric"
   ],
   "note": "Any dimension, any symmetric Hessian with negative diagonal, any nonzero steps and number of extrapolations."
  },
  {
   "property": "C71",
   "status": "partial",
   "theorems": [
    "Verif.Obs.C71_plain",
    "Verif.Obs.C71_one",
    "Verif.Obs.C71_table",
    "Verif.Obs.C71_entry",
    "Verif.Obs.C71_many_partial",
    "Verif.Obs.C71_quintic",
    "Verif.Obs.C71_violated"
   ],
   "note": "Exact for polynomials of degree three without and degree five with any number of extrapolations; the table entries are exact for every degree, but the early stop can return another entry: an even polynomial of degree six gets information 0 with error 0 (C71_violated)."
  },
  {
   "property": "C72",
   "status": "proved",
   "theorems": [
    "Verif.Adapt.C72_sizes",
    "Verif.Adapt.C72_memory",
    "Verif.Adapt.C72_enough",
    "Verif.Adapt.C72_violated"
   ],
   "note": "For the factor 100 that adapt uses (and every even factor from four on) the sizes are enough; factors 0 and 3 violate the statement (C72_violated). The number of points of the basic rule is an assumption of C72_enough."
  },
  {
   "property": "C73",
   "status": "proved",
   "theorems": [
    "Verif.Grid1.C73_through_points",
    "Verif.Grid1.C73_exact",
    "Verif.Grid1.C73_width"
   ],
   "note": ""
  },
  {
   "property": "C74",
   "status": "partial",
   "theorems": [
    "Verif.Grid1.C74_basic",
    "Verif.Grid1.C74_violated_default",
    "Verif.Grid1.C74_refined_partial"
   ],
   "note": "Refinable grids need nmom; the default always raises (C74_violated_default)."
  },
  {
   "property": "C75",
   "status": "partial",
   "theorems": [
    "Verif.Grid1.C75_unrefined_partial",
    "Verif.Grid1.C75_violated"
   ],
   "note": "False after a refinement (C75_violated)."
  },
  {
   "property": "C76",
   "status": "partial",
   "theorems": [
    "Verif.HPD.C76_norm_partial",
    "Verif.HPD.C76_never_larger",
    "Verif.HPD.C76_violated"
   ],
   "note": "False when neighbouring points share the minimum (C76_violated)."
  },
  {
   "property": "C77",
   "status": "partial",
   "theorems": [
    "Verif.HPD.C77_boundaries_partial",
    "Verif.HPD.C77_history",
    "Verif.HPD.C77_room_violated",
    "Verif.HPD.C77_violated"
   ],
   "note": "Proved for linear steps; false for log steps (C77_violated)."
  },
  {
   "property": "C78",
   "status": "partial",
   "theorems": [
    "Verif.HPD.C78_ratio_partial",
    "Verif.HPD.C78_violated"
   ],
   "note": "Proved for one dimension; false for two (C78_violated)."
  },
  {
   "property": "C79",
   "status": "partial",
   "theorems": [
    "Verif.Files.C79_violated",
    "Verif.Files.C79_archived_partial"
   ],
   "note": "False for newly assigned attributes (C79_violated)."
  },
  {
   "property": "C80",
   "status": "partial",
   "theorems": [
    "Verif.MC.C80_max_subset_partial",
    "Verif.MC.C80_limit_violated"
   ],
   "note": "The size is right in every reachable state; at the limit the method never returns (C80_limit_violated)."
  },
  {
   "property": "C81",
   "status": "proved",
   "theorems": [
    "Verif.OnOff.C81_siglml",
    "Verif.OnOff.C81_ratio"
   ],
   "note": "Log gamma exact on the positive integers."
  },
  {
   "property": "C82",
   "status": "proved",
   "theorems": [
    "Verif.OnOff.C82_posterior",
    "Verif.OnOff.C82_normalised"
   ],
   "note": "Log gamma exact on the positive integers."
  },
  {
   "property": "C83",
   "status": "partial",
   "theorems": [
    "Verif.OnOff.C83_value",
    "Verif.OnOff.C83_derivative_partial",
    "Verif.OnOff.C83_violated"
   ],
   "note": "Violated without counts at s=0; partial otherwise."
  },
  {
   "property": "C84",
   "status": "partial",
   "theorems": [
    "Verif.OnOff.C84_history_partial",
    "Verif.OnOff.C84_violated"
   ],
   "note": "Violated by writes into the returned view; partial without writes."
  },
  {
   "property": "C85",
   "status": "partial",
   "theorems": [
    "Verif.OnOff.C85_array_partial",
    "Verif.OnOff.C85_violated"
   ],
   "note": "Violated by integer arrays (truncated); arrays of length one give a number; partial for float arrays of other lengths."
  },
  {
   "property": "C86",
   "status": "partial",
   "theorems": [
    "Verif.Cub.C86_normal_partial",
    "Verif.Cub.C86_errors",
    "Verif.Cub.C86_violated"
   ],
   "note": "Proved for the degrees at which each table is right; the tables e2r2_11_28c, e2r2_9_19a and e2r2_13_41 are wrong above degrees 3, 5 and 9 (C86_violated)."
  },
  {
   "property": "C87",
   "status": "partial",
   "theorems": [
    "Verif.Obs.C87_obsinfo_partial",
    "Verif.Obs.C87_dllsteps_partial",
    "Verif.Obs.C87_violated"
   ],
   "note": "Holds for normal returns of the mode array; violated on failures and for the guesses (C87_violated)."
  },
  {
   "property": "C88",
   "status": "proved",
   "theorems": [
    "Verif.Obs.C88_change",
    "Verif.Obs.C88_quadratic",
    "Verif.Obs.C88_violated"
   ],
   "note": "C88_change and C88_quadratic hold for every log likelihood; the documented relative tolerance and termination fail (C88_violated)."
  },
  {
   "property": "C89",
   "status": "proved",
   "theorems": [
    "Verif.Adapt.C89_estimate",
    "Verif.Adapt.C89_largest",
    "Verif.Adapt.C89_terminates",
    "Verif.Adapt.C89_violated"
   ],
   "note": "Holds for the model with the values of the basic rule as an argument; two statements of the documentation are violated (C89_violated)."
  },
  {
   "property": "C90",
   "status": "proved",
   "theorems": [
    "Verif.Adapt.C90_axis"
   ],
   "note": ""
  },
  {
   "property": "C91",
   "status": "partial",
   "theorems": [
    "Verif.AdaptVec.C91_rules",
    "Verif.AdaptVec.C91_work_partial",
    "Verif.AdaptVec.C91_violated"
   ],
   "note": "Argument checks agree; the work array is never made (C91_violated)."
  },
  {
   "property": "C92",
   "status": "partial",
   "theorems": [
    "Verif.SymRl.C92_rules_partial",
    "Verif.SymRl.C92_adapt_partial",
    "Verif.SymRl.C92_result_partial",
    "Verif.SymRl.C92_reversed_violated"
   ],
   "note": "Proved of the Fortran loops themselves, for all dimensions to 20 and orders to 12, for limits that are not reversed, under the hypothesis that moments set to zero by the tolerance are zero (code's generators with tolerance 0 are an instance). C92_reversed_violated: with a reversed limit the value is wrong."
  },
  {
   "property": "C93",
   "status": "partial",
   "theorems": [
    "Verif.Pop1D.C93_hazard_partial",
    "Verif.Pop1D.C93_curve",
    "Verif.Pop1D.C93_range",
    "Verif.Pop1D.C93_errors_violated",
    "Verif.Pop1D.C93_violated"
   ],
   "note": "violated for unequal weights (C93_violated), for weights that do not sum to one and for error bars (C93_errors_violated); the hazard is right for equal weights and distinct values (C93_hazard_partial); the curve (C93_curve) and the refused ranges (C93_range) hold in general"
  },
  {
   "property": "C94",
   "status": "proved",
   "theorems": [
    "Verif.Grid1.C94_empty",
    "Verif.Grid1.C94_filled",
    "Verif.Grid1.C94_ends"
   ],
   "note": ""
  },
  {
   "property": "C95",
   "status": "partial",
   "theorems": [
    "Verif.HPD.C95_level",
    "Verif.HPD.C95_level_two_dim",
    "Verif.HPD.C95_arguments",
    "Verif.HPD.C95_found_partial",
    "Verif.HPD.C95_found_two_dim_partial",
    "Verif.HPD.C95_violated",
    "Verif.HPD.C95_violated_level_exists"
   ],
   "note": "partial: for the existence of a level, guesses below all values of the density are excluded, where critlevel raises RuntimeError (C95_violated; C95_violated_level_exists); scipy's root finder and chi squared functions are parameters, with the root finder's contract as a hypothesis"
  },
  {
   "property": "C96",
   "status": "proved",
   "theorems": [
    "Verif.HPD.C96_one_dim",
    "Verif.HPD.C96_two_dim",
    "Verif.HPD.C96_errors"
   ],
   "note": "for functions that do not raise; the methods of the two pairs of classes are the same text"
  },
  {
   "property": "C97",
   "status": "partial",
   "theorems": [
    "Verif.Vba.C97_stats_partial",
    "Verif.Vba.C97_amplitudes_partial",
    "Verif.Vba.C97_covar",
    "Verif.Vba.C97_residuals_partial",
    "Verif.Vba.C97_violated"
   ],
   "note": "BAObj is proved to simulate BA with set_nonlin as the setup function and sigma one, for every history of calls interleaved with outside changes of the object that keep its samples; violated when the samples change (dsqr and the memo are stale, Q can be negative); residuals inherit the defect of C68."
  },
  {
   "property": "C98",
   "status": "partial",
   "theorems": [
    "Verif.Pie.C98_same",
    "Verif.Pie.C98_rest",
    "Verif.Pie.C98_unevaluated",
    "Verif.Pie.C98_exact_partial",
    "Verif.Pie.C98_moved",
    "Verif.Pie.C98_violated"
   ],
   "note": "Violated: obs_info never restores the varying parameters (C98_moved: after every successful call the last one is displaced; C98_violated: a second call then raises ValueError) and takes the last value computed as the maximum even when a parameter has been moved since (wrong matrix without any warning). Proved: the numbers are those of the pure routines (C98_same), nothing but varying values changes (C98_rest), exact for quadratic posteriors just after an evaluation (C98_exact_partial), AttributeError before any evaluation."
  },
  {
   "property": "C99",
   "status": "proved",
   "theorems": [
    "Verif.MC.C99_stream",
    "Verif.MC.C99_valid",
    "Verif.MC.C99_restore",
    "Verif.MC.C99_reject"
   ],
   "note": "For 64-bit unsigned long; positions outside 0..624 and words over 32 bits are accepted by set_rng_state and are treated under C100."
  },
  {
   "property": "C100",
   "status": "partial",
   "theorems": [
    "Verif.MC.C100_rand_partial",
    "Verif.MC.C100_irand_partial",
    "Verif.MC.C100_rand_equal",
    "Verif.MC.C100_irand_equal",
    "Verif.MC.C100_irand_rejected",
    "Verif.MC.C100_violated_negative",
    "Verif.MC.C100_violated_words",
    "Verif.MC.C100_violated_position"
   ],
   "note": "Ranges, exact counts over the 2^64 settings of the next two array words (for positions up to 622, where both lie in the current block), fewer than half rejected. Violated: local_irand(-1) raises nothing and can give any long; set_rng_state accepts words over 32 bits (local_rand above 1) and positions beyond the array (results then come from memory behind it, independent of the key)."
  },
  {
   "property": "C101",
   "status": "partial",
   "theorems": [
    "Verif.MC.C101_set_partial",
    "Verif.MC.C101_seed_stream",
    "Verif.MC.C101_seed",
    "Verif.MC.C101_reversible",
    "Verif.MC.C101_violated"
   ],
   "note": "Reversibility of the recurrence, periodicity, no zero window, for every non-degenerate state and every seed. Violated: the static state starts as zeros and nothing seeds it, so until set_rng_state is called every local_rand is 0.0 and every local_irand 0."
  },
  {
   "property": "C102",
   "status": "partial",
   "theorems": [
    "Verif.Dcuhre.C102_ends",
    "Verif.Dcuhre.C102_partition",
    "Verif.Dcuhre.C102_additive",
    "Verif.Dcuhre.C102_sums",
    "Verif.Dcuhre.C102_largest",
    "Verif.Dcuhre.C102_tolerance_partial",
    "Verif.Dcuhre.C102_restart_partial",
    "Verif.Dcuhre.C102_work",
    "Verif.Dcuhre.C102_work2",
    "Verif.Dcuhre.C102_checks",
    "Verif.Dcuhre.C102_violated_python_restart",
    "Verif.Dcuhre.C102_violated_reversed_restart",
    "Verif.Dcuhre.C102_violated_minpts"
   ],
   "note": "DCUHRE, DCHHRE, DADHRE and DTRHRE for any basic rule whose errors are not negative and whose axis exists (DRLHRE is such a rule, C103). Proved: it ends; the regions partition the box after a run and any restarts; RESULT and ABSERR are the sums; the largest error is divided; what IFAIL says for a first run, and for a restart that is given the values left, in a box with an even number of reversed limits; evaluations at most MAXPTS, and at least MINPTS if IFAIL is 0; the checks and the work arrays. Fails (witnesses): a restart from Python, where ABSERR begins at zero, or with an odd number of reversed limits, can report IFAIL = 0 above the tolerance; with MINPTS near MAXPTS, IFAIL = 1 is returned below MINPTS. adapt_vec itself always raises before it calls DCUHRE (C91)."
  },
  {
   "property": "C103",
   "status": "proved",
   "theorems": [
    "Verif.Drl.C103_symmetric",
    "Verif.Drl.C103_points",
    "Verif.Drl.C103_counts",
    "Verif.Drl.C103_axis",
    "Verif.Drl.C103_good",
    "Verif.Drl.C103_valid"
   ],
   "note": "DFSHRE, DRLHRE and the tables of D07HRE, D09HRE, D132RE and D113RE; the integrand is any function of the point, and the points where it is called are part of the result. Arithmetic is exact; the single precision literal 0.4707 may be rounded or exact."
  },
  {
   "property": "C104",
   "status": "proved",
   "theorems": [
    "Verif.Drl.C104_rule",
    "Verif.Drl.C104_result",
    "Verif.Drl.C104_sure"
   ],
   "note": "The rules of degree seven and nine in every dimension: moments of all monomials in closed form, hence all polynomials on all boxes (C104_rule); RESULT after a run and restarts with any divisions (C104_result); ABSERR = 0 and when IFAIL = 0 for polynomials of degree one or three (C104_sure). Real arithmetic, both values of the single precision literal 0.4707."
  },
  {
   "property": "C105",
   "status": "proved",
   "theorems": [
    "Verif.Drl.C105_rule",
    "Verif.Drl.C105_result",
    "Verif.Drl.C105_ifail"
   ],
   "note": "All monomials up to the degree are computed exactly from the decimals of the tables (kernel evaluation over the rationals), then linearity and the partition of C102; bounds 3e-15 for the rule and RESULT, 1e-12 for the error estimate and ABSERR, IFAIL = 0 exactly if some number of divisions meets MINPTS and MAXPTS. Real arithmetic."
  },
  {
   "property": "C106",
   "status": "proved",
   "theorems": [
    "Verif.MC.C106_counts",
    "Verif.MC.C106_inclusion",
    "Verif.MC.C106_subset_pps5"
   ],
   "note": "Over the reals. Random words are taken as given (their uniformity is not a claim about the generator; see C99 to C101). Restricted, like the code, to n*max(w) < W; at n*max(w) = W see C80."
  },
  {
   "property": "C107",
   "status": "proved",
   "theorems": [
    "Verif.OnOff.C107_gammln",
    "Verif.OnOff.C107_gammln_real",
    "Verif.OnOff.C107_siglml",
    "Verif.OnOff.C107_ppois",
    "Verif.OnOff.C107_sigmp",
    "Verif.OnOff.C107_normalised",
    "Verif.OnOff.C107_derivative"
   ],
   "note": "gammln modelled with its decimals; error bound for all counts and its propagation to ppois, siglml, sigmp, slmliked. Rounding of double precision not modelled."
  },
  {
   "property": "C108",
   "status": "partial",
   "theorems": [
    "Verif.Pie.SetData.C108_three",
    "Verif.Pie.SetData.C108_normal_partial",
    "Verif.Pie.SetData.C108_made_partial",
    "Verif.Pie.SetData.C108_violated_table",
    "Verif.Pie.SetData.C108_violated_rows",
    "Verif.Pie.SetData.C108_violated_stale",
    "Verif.Pie.SetData.C108_violated_refused"
   ],
   "note": "Proved for three arguments (any history before). Violated for the other documented form (a table or list of triples) and for the state left by a refused call; each violation is a theorem over all tables/lists/predictors, except the stale columns, which is a witness."
  },
  {
   "property": "C109",
   "status": "partial",
   "theorems": [
    "Verif.Signals.Kepler.C109_unique",
    "Verif.Signals.Kepler.C109_setup",
    "Verif.Signals.Kepler.C109_EA",
    "Verif.Signals.Kepler.C109_EA_flag",
    "Verif.Signals.Kepler.C109_vEA",
    "Verif.Signals.Kepler.C109_TA",
    "Verif.Signals.Kepler.C109_arrays",
    "Verif.Signals.Kepler.C109_converges_partial",
    "Verif.Signals.Kepler.C109_violated_converges",
    "Verif.Signals.Kepler.C109_velocity_partial",
    "Verif.Signals.Kepler.C109_violated_velocity",
    "Verif.Signals.Kepler.C109_violated_array",
    "Verif.Signals.Kepler.C109_violated_two",
    "Verif.Signals.Kepler.C109_orbit_partial",
    "Verif.Signals.Kepler.C109_violated_orbit",
    "Verif.Signals.Kepler.C109_violated_globals"
   ],
   "note": "Accuracy proved for all ellipses, times and tolerances whenever the solver returns; convergence for e <= 0.98 (tolerance 1e-8) and e <= 0.99 (1e-5); counterexamples near e = 1. v_rad has the wrong sign for the longitude and fails for arrays; Orbit always raises when imported."
  },
  {
   "property": "C110",
   "status": "partial",
   "theorems": [
    "Verif.Pie.Listen.C110_listeners",
    "Verif.Pie.Listen.C110_add",
    "Verif.Pie.Listen.C110_hears_partial",
    "Verif.Pie.Listen.C110_fix",
    "Verif.Pie.Listen.C110_set_value",
    "Verif.Pie.Listen.C110_vary",
    "Verif.Pie.Listen.C110_violated_check",
    "Verif.Pie.Listen.C110_violated_default",
    "Verif.Pie.Listen.C110_violated_del",
    "Verif.Pie.Listen.C110_violated_documented",
    "Verif.Pie.Listen.C110_stepping_partial",
    "Verif.Pie.Listen.C110_violated_stepping"
   ],
   "note": "Proved for all histories without stepping parameters; with them every event is heard as often as by the owner, but not in the same order (C110_violated_stepping); failures of removal, of the documented listener interface and of checks in on_param_change proved."
  },
  {
   "property": "C111",
   "status": "partial",
   "theorems": [
    "Verif.Point.C111_bins_partial",
    "Verif.Point.C111_phases",
    "Verif.Point.C111_violated_range",
    "Verif.Point.C111_violated_memory",
    "Verif.Point.C111_violated_first"
   ],
   "note": "Proved for phases that are not negative; for events before time zero the code writes out of bounds or in the wrong bin (proved)."
  },
  {
   "property": "C112",
   "status": "proved",
   "theorems": [
    "Verif.Point.C112_exact",
    "Verif.Point.C112_trap"
   ],
   "note": "Exact and trapezoid integrals with explicit error bounds."
  },
  {
   "property": "C113",
   "status": "proved",
   "theorems": [
    "Verif.Point.C113_limult",
    "Verif.Point.C113_lodds",
    "Verif.Point.C113_violated_bins"
   ],
   "note": "limult and lodds proved for every history; ll_wpb is wrong (proved)."
  },
  {
   "property": "C114",
   "status": "partial",
   "theorems": [
    "Verif.Point.C114_phase_partial",
    "Verif.Point.C114_exact_partial",
    "Verif.Point.C114_trap_partial",
    "Verif.Point.C114_violated_const",
    "Verif.Point.C114_violated_rates",
    "Verif.Point.C114_violated_frequency",
    "Verif.Point.C114_violated_bins",
    "Verif.Point.C114_violated_point"
   ],
   "note": "What holds after any history of calls; the violations are const, rates, frequency, bins, point."
  },
  {
   "property": "C115",
   "status": "partial",
   "theorems": [
    "Verif.Point.C115_rates_partial",
    "Verif.Point.C115_violated_one"
   ],
   "note": "Termination, length and range of the rates; the averages themselves are wrong (violated_one), so nothing more holds."
  },
  {
   "property": "C116",
   "status": "partial",
   "theorems": [
    "Verif.Point.C116_rayleigh",
    "Verif.Point.C116_range",
    "Verif.Point.C116_grid_partial",
    "Verif.Point.C116_violated_one"
   ],
   "note": "Partial because a grid of one frequency fails."
  },
  {
   "property": "C117",
   "status": "proved",
   "theorems": [
    "Verif.Point.C117_bessel",
    "Verif.Point.C117_lml",
    "Verif.Point.C117_marginal"
   ],
   "note": "Real arithmetic; the rounding of the C code is not modelled."
  },
  {
   "property": "C118",
   "status": "partial",
   "theorems": [
    "Verif.Bha.C118_multiplet_partial",
    "Verif.Bha.C118_harmonics_partial",
    "Verif.Bha.C118_violated_equal",
    "Verif.Bha.C118_violated_zero"
   ],
   "note": "Proved for frequencies that can be resolved. Missing: equal or zero frequencies give 0/0 instead of a ValueError (two violation theorems)."
  },
  {
   "property": "C119",
   "status": "partial",
   "theorems": [
    "Verif.Bha.C119_exact",
    "Verif.Bha.C119_grid_partial",
    "Verif.Bha.C119_harmonics_partial",
    "Verif.Bha.C119_qinterp",
    "Verif.Bha.C119_interp_partial",
    "Verif.Bha.C119_violated_ints",
    "Verif.Bha.C119_violated_dt",
    "Verif.Bha.C119_violated_negative",
    "Verif.Bha.C119_violated_top",
    "Verif.Bha.C119_violated_stale"
   ],
   "note": "Proved for floating point frequencies and sampling intervals in range. Missing: five violations (integers, integer dt, negative frequencies, top of odd transforms, stale amplitudes)."
  },
  {
   "property": "C120",
   "status": "partial",
   "theorems": [
    "Verif.Bha.C120_covar",
    "Verif.Bha.C120_sigmas_partial",
    "Verif.Bha.C120_variance_partial",
    "Verif.Bha.C120_violated_variance",
    "Verif.Bha.C120_violated_sigmas"
   ],
   "note": "Covariances proved. Missing: the variance estimate and the propagated uncertainties are wrong, as proved."
  },
  {
   "property": "C121",
   "status": "proved",
   "theorems": [
    "Verif.Regress.C121_lines"
   ],
   "note": "Full: six lines are the unique minimisers/bisectors; errors raised exactly when stated; data and extent kept."
  },
  {
   "property": "C122",
   "status": "partial",
   "theorems": [
    "Verif.Regress.C122_errors_partial",
    "Verif.Regress.C122_violated_orthog"
   ],
   "note": "Slope errors all six lines, intercept errors except the orthogonal line of negative slope, where the code is wrong (witness)."
  },
  {
   "property": "C123",
   "status": "partial",
   "theorems": [
    "Verif.Regress.C123_lines_partial",
    "Verif.Regress.C123_no_errors",
    "Verif.Regress.C123_violated_sign",
    "Verif.Regress.C123_box"
   ],
   "note": "Lines for regular data (orthogonal line: sign of covariance unchanged); agreement with SixLin without errors; extent; witness where the sign changes."
  },
  {
   "property": "C124",
   "status": "partial",
   "theorems": [
    "Verif.Regress.C124_errors_partial",
    "Verif.Regress.C124_ifab",
    "Verif.Regress.C124_violated_orthog",
    "Verif.Regress.C124_violated_ifab",
    "Verif.Regress.C124_violated_correlated"
   ],
   "note": "Uncorrelated errors; serr_IFAB bound; witnesses for correlated errors, orthogonal intercepts and serr_IFAB."
  },
  {
   "property": "C125",
   "status": "partial",
   "theorems": [
    "Verif.Regress.C125_fit_partial",
    "Verif.Regress.C125_violated_line",
    "Verif.Regress.C125_violated_scatter",
    "Verif.Regress.C125_violated_negative",
    "Verif.Regress.C125_violated_yerr"
   ],
   "note": "Positive variances: weighted least squares and its standard errors; witnesses for the rest."
  },
  {
   "property": "C126",
   "status": "partial",
   "theorems": [
    "Verif.Regress.C126_stats_partial",
    "Verif.Regress.C126_violated_uncorrelated"
   ],
   "note": "Complete for correlated data; data with zero covariance are refused (witness)."
  },
  {
   "property": "C127",
   "status": "partial",
   "theorems": [
    "Verif.Drxn.C127_accepted",
    "Verif.Drxn.C127_vector",
    "Verif.Drxn.C127_product_partial",
    "Verif.Drxn.C127_violated_unit",
    "Verif.Drxn.C127_violated_both"
   ],
   "note": "Accepted argument patterns and vectors from angles proved in full; the product as a cosine assumes a given vector has unit length, which nothing checks; sig and kappa together are accepted silently."
  },
  {
   "property": "C128",
   "status": "partial",
   "theorems": [
    "Verif.Drxn.C128_density_partial",
    "Verif.Drxn.C128_violated_small",
    "Verif.Drxn.C128_violated_drxn"
   ],
   "note": "Normalised within lsErr (3e-9 + exp(-4*kappa)) for kappa >= 0.35; below that the missing series terms break it; llike(drxn=...) and llike(uvec=...) always raise ValueError."
  },
  {
   "property": "C129",
   "status": "partial",
   "theorems": [
    "Verif.Drxn.C129_factor_partial",
    "Verif.Drxn.C129_order",
    "Verif.Drxn.C129_violated_opposite"
   ],
   "note": "Log Bayes factor within the accuracy of its terms when all concentrations and the resultant are at least 0.35; opposite directions of equal concentration give +infinity where the factor is tiny."
  },
  {
   "property": "C130",
   "status": "partial",
   "theorems": [
    "Verif.Drxn.C130_fit_partial",
    "Verif.Drxn.C130_violated_cancel"
   ],
   "note": "Optimality for every list; the fitted direction exists only when the weighted directions do not cancel."
  },
  {
   "property": "C131",
   "status": "partial",
   "theorems": [
    "Verif.Drxn.C131_concentration_partial",
    "Verif.Drxn.C131_small",
    "Verif.Drxn.C131_wide",
    "Verif.Drxn.C131_violated_quarter"
   ],
   "note": "Any positive value returned is right to 1e-5; it is returned for sig <= 0.09 rad; for sig = pi/2 the iteration runs out although a solution exists."
  },
  {
   "property": "C132",
   "status": "partial",
   "theorems": [
    "Verif.Km.C132_estimate_partial",
    "Verif.Km.C132_violated_upper",
    "Verif.Km.C132_violated_llims",
    "Verif.Km.C132_violated_tied",
    "Verif.Km.C132_violated_zero"
   ],
   "note": "Product-limit estimate and Greenwood variance for indicators 0/+1 (which the Fortran takes as lower limits), any ties among detections, largest datum a detection or a single limit. Violated: ulims are analysed as lower limits; llims raise NameError; ties on top lose detections; a lone detection of 0 is lost."
  },
  {
   "property": "C133",
   "status": "partial",
   "theorems": [
    "Verif.Km.C133_estimate_partial",
    "Verif.Km.C133_violated_bottom",
    "Verif.Km.C133_violated_indicator"
   ],
   "note": "Mirror image for indicators 0/-1, smallest datum a detection. Violated: a limit at the bottom is reported as a detection, the largest detection is lost, the limit's sign is wrong; indicators documented the other way round."
  },
  {
   "property": "C134",
   "status": "proved",
   "theorems": [
    "Verif.Km.C134_mean_lower",
    "Verif.Km.C134_mean_upper"
   ],
   "note": "Mean equals the sum of values times drops of the estimate, both senses."
  },
  {
   "property": "C135",
   "status": "partial",
   "theorems": [
    "Verif.Km.C135_weights_partial",
    "Verif.Km.C135_violated_weights"
   ],
   "note": "The weights are the drops at the next value (proved); they should be those at the value itself (violated)."
  },
  {
   "property": "C136",
   "status": "partial",
   "theorems": [
    "Verif.Km.C136_bins_partial",
    "Verif.Km.C136_violated_overrun",
    "Verif.Km.C136_violated_diff"
   ],
   "note": "Fortran routine's bins proved for any descending estimate; KM.diff passes the wrong array (violated) and one element past the array is zeroed (violated, all inputs)."
  },
  {
   "property": "C137",
   "status": "partial",
   "theorems": [
    "Verif.Km.C137_quartiles_partial",
    "Verif.Km.C137_violated_same",
    "Verif.Km.C137_violated_origin"
   ],
   "note": "Quartiles on the broken line when no piece crosses two of them; violated: otherwise zero; negative values interpolate from the origin."
  },
  {
   "property": "C138",
   "status": "partial",
   "theorems": [
    "Verif.Km.C138_points_partial",
    "Verif.Km.C138_violated_end"
   ],
   "note": "All points on the graph when the largest datum is a detection; violated otherwise."
  },
  {
   "property": "C139",
   "status": "partial",
   "theorems": [
    "Verif.Quad.C139_exact_partial",
    "Verif.Quad.C139_violated_low"
   ],
   "note": "Orders two and more are proved in full; orders 0 and 1 raise IndexError in the constructor."
  },
  {
   "property": "C140",
   "status": "proved",
   "theorems": [
    "Verif.Quad.C140_exact"
   ],
   "note": ""
  },
  {
   "property": "C141",
   "status": "proved",
   "theorems": [
    "Verif.Quad.C141_range"
   ],
   "note": ""
  },
  {
   "property": "C142",
   "status": "partial",
   "theorems": [
    "Verif.Quad.C142_power_partial",
    "Verif.Quad.C142_violated_near"
   ],
   "note": "Indices other than 1 within 0.2 of 1 are treated as 1 by the code, and fail."
  },
  {
   "property": "C143",
   "status": "proved",
   "theorems": [
    "Verif.Quad.C143_exponential"
   ],
   "note": ""
  },
  {
   "property": "C144",
   "status": "partial",
   "theorems": [
    "Verif.Quad.C144_composite_partial",
    "Verif.Quad.C144_violated_tuples",
    "Verif.Quad.C144_violated_factor",
    "Verif.Quad.C144_violated_alias"
   ],
   "note": "Tuples are not checked for contiguity, a factor makes every quadrature raise TypeError, and a rule changed by its owner is used with the old nodes: three witnesses."
  },
  {
   "property": "C145",
   "status": "partial",
   "theorems": [
    "Verif.Fsm.C145_transitions_partial",
    "Verif.Fsm.C145_violated_state"
   ],
   "note": "get_transition ignores its state argument: witness."
  },
  {
   "property": "C146",
   "status": "partial",
   "theorems": [
    "Verif.Fsm.C146_values_partial",
    "Verif.Fsm.C146_violated_attached",
    "Verif.Fsm.C146_violated_negative"
   ],
   "note": "Numbers not followed by white space and negative numbers fail: witnesses."
  },
  {
   "property": "C147",
   "status": "partial",
   "theorems": [
    "Verif.Fsm.C147_run_partial",
    "Verif.Fsm.C147_violated_missing"
   ],
   "note": "A missing transition raises UnboundLocalError: witness."
  },
  {
   "property": "C148",
   "status": "partial",
   "theorems": [
    "Verif.Mvnt.C148_constructor_partial",
    "Verif.Mvnt.C148_violated_inverse"
   ],
   "note": "Construction from a covariance; the inverse covariance is ignored by the code (C148_violated_inverse)."
  },
  {
   "property": "C149",
   "status": "proved",
   "theorems": [
    "Verif.Mvnt.C149_law"
   ],
   "note": "Full, over the reals, given independent standard normal deviates."
  },
  {
   "property": "C150",
   "status": "partial",
   "theorems": [
    "Verif.Mvnt.C150_constructor_partial",
    "Verif.Mvnt.C150_violated_overwritten"
   ],
   "note": "A Hessian matrix in Fortran order is overwritten by the routine (C150_violated_overwritten)."
  },
  {
   "property": "C151",
   "status": "partial",
   "theorems": [
    "Verif.Mvnt.C151_law_partial",
    "Verif.Mvnt.C151_violated_sample_q"
   ],
   "note": "sample_q raises NameError (C151_violated_sample_q); the rest holds."
  },
  {
   "property": "C152",
   "status": "partial",
   "theorems": [
    "Verif.Mvnt.C152_kde_partial",
    "Verif.Mvnt.C152_violated_norm",
    "Verif.Mvnt.C152_constructor_partial",
    "Verif.Mvnt.C152_violated_inverse"
   ],
   "note": "pdf is only proportional to the density of the mixture, and the inverse covariance is ignored (C152_violated_norm, C152_violated_inverse)."
  },
  {
   "property": "C153",
   "status": "proved",
   "theorems": [
    "Verif.Mvnt.C153_hgamma"
   ],
   "note": "Full; the table constant is single precision, hence 4e-8 for odd n."
  },
  {
   "property": "C154",
   "status": "partial",
   "theorems": [
    "Verif.Romberg.C154_qromb_partial",
    "Verif.Romberg.C154_violated"
   ],
   "note": "Proved for every integrand: value and convergence test, exactness up to degree nine. A function that vanishes at the 17 points of the first five rules gives 0 without a message."
  },
  {
   "property": "C155",
   "status": "partial",
   "theorems": [
    "Verif.Romberg.C155_romberg_partial",
    "Verif.Romberg.C155_violated"
   ],
   "note": "Proved: value, termination for polynomials. The first extrapolation is accepted when the function vanishes at three points, with an unbounded error."
  },
  {
   "property": "C156",
   "status": "partial",
   "theorems": [
    "Verif.Romberg.C156_method_partial",
    "Verif.Romberg.C156_table",
    "Verif.Romberg.C156_violated_columns"
   ],
   "note": "Proved with exact factors; the table itself is right to one unit of the 19th digit. With one column the factor h is missing. The include line of the C file has blanks and would not compile; modelled as if it did."
  },
  {
   "property": "C157",
   "status": "proved",
   "theorems": [
    "Verif.Cosmo.C157_independent",
    "Verif.Cosmo.C157_modulus"
   ],
   "note": "Fully proved for every quadrature."
  },
  {
   "property": "C158",
   "status": "partial",
   "theorems": [
    "Verif.Cosmo.C158_distance",
    "Verif.Cosmo.C158_times",
    "Verif.Cosmo.C158_violated_age",
    "Verif.Cosmo.C158_volume_partial",
    "Verif.Cosmo.C158_violated_volume"
   ],
   "note": "Exact quadrature assumed (C154 says what the real one does). Distances and times hold; vol_elem scales as 1/h instead of 1/h^3; dage is not a number without matter."
  },
  {
   "property": "C159",
   "status": "partial",
   "theorems": [
    "Verif.Cosmo.C159_flux2z_partial",
    "Verif.Cosmo.C159_violated_stale",
    "Verif.Cosmo.C159_violated_curved",
    "Verif.Cosmo.C159_returns_partial"
   ],
   "note": "Proved for flat universes with the right cosmology set last. flux2z never sets the cosmology, so it uses the one of the last call on any object, and ignores curvature."
  },
  {
   "property": "C160",
   "status": "partial",
   "theorems": [
    "Verif.Tno.C160_decreasing",
    "Verif.Tno.C160_range_partial",
    "Verif.Tno.C160_twice",
    "Verif.Tno.C160_violated_tanh"
   ],
   "note": "Non-increasing for all ten types, within [0,1] for seven. The three types with an unhalved tanh reach twice their amplitude (C160_violated_tanh, C160_twice). erfcc is a parameter with values in [0,2] that never increases; the constant rt2 is the literal of the source."
  },
  {
   "property": "C161",
   "status": "proved",
   "theorems": [
    "Verif.Tno.C161_cumulative",
    "Verif.Tno.C161_scaled",
    "Verif.Tno.C161_reference",
    "Verif.Tno.C161_slope",
    "Verif.Tno.C161_violated_base"
   ],
   "note": "Exact real arithmetic; l10 is the exact logarithm of ten. Models 3 and 4 are not converted to base ten (C161_violated_base)."
  },
  {
   "property": "C162",
   "status": "partial",
   "theorems": [
    "Verif.Tno.C162_derivatives_partial",
    "Verif.Tno.C162_violated"
   ],
   "note": "Only model 1 has derivatives in the source (model 2 is trivial, the others quit). The derivative by the exponent has a sign error for every parameter set (C162_violated)."
  },
  {
   "property": "C163",
   "status": "partial",
   "theorems": [
    "Verif.Tno.C163_expected_partial",
    "Verif.Tno.C163_short",
    "Verif.Tno.C163_violated_tail",
    "Verif.Tno.C163_number",
    "Verif.Tno.C163_violated_nan"
   ],
   "note": "Quadrature exact. Three efficiency types are cut off at six widths (C163_short, C163_violated_tail); coinciding break points give 0/0 (C163_violated_nan)."
  },
  {
   "property": "C164",
   "status": "proved",
   "theorems": [
    "Verif.Tno.C164_independent",
    "Verif.Tno.C164_amplitude",
    "Verif.Tno.C164_best",
    "Verif.Tno.C164_exact",
    "Verif.Tno.C164_mean"
   ],
   "note": "The on/off likelihood sllike, the Gauss-Hermite rule and the quadrature are parameters; the quadrature is assumed homogeneous in the integrand."
  },
  {
   "property": "C165",
   "status": "partial",
   "theorems": [
    "Verif.Tno.C165_cumulative_partial",
    "Verif.Tno.C165_violated",
    "Verif.Tno.C165_violated_flat"
   ],
   "note": "Proportional to the integral for exponential densities; the factor is exp(alpha h) instead of one (C165_violated); constant densities divide by zero (C165_violated_flat)."
  },
  {
   "property": "C166",
   "status": "proved",
   "theorems": [
    "Verif.Tno.C166_bound",
    "Verif.Tno.C166_least"
   ],
   "note": "The predicted cumulative fraction is a parameter: non-decreasing, continuous, in [0,1]. Sorting by indexx is not modelled; the data are sorted."
  },
  {
   "property": "C167",
   "status": "proved",
   "theorems": [
    "Verif.Tno.C167_probability",
    "Verif.Tno.C167_range",
    "Verif.Tno.C167_zero"
   ],
   "note": "Exact real arithmetic; the fallback for small lambda is justified by Poisson summation."
  },
  {
   "property": "C168",
   "status": "partial",
   "theorems": [
    "Verif.Burst.C168_fisher_partial",
    "Verif.Burst.C168_range_partial",
    "Verif.Burst.C168_isotropic",
    "Verif.Burst.C168_mean",
    "Verif.Burst.C168_violated_tail"
   ],
   "note": "Exact change of variables for kappa < 250; from 250 on, where exp(-2 kappa) is replaced by 0, abscissas extremely close to -1 leave [-1,1] (C168_violated_tail). Rules of gauleg are parameters."
  },
  {
   "property": "C169",
   "status": "partial",
   "theorems": [
    "Verif.Burst.C169_coverage",
    "Verif.Burst.C169_fixed",
    "Verif.Burst.C169_returned_partial",
    "Verif.Burst.C169_violated"
   ],
   "note": "Fixed points, accuracy of a returned value. The divisor has a sign error in one term, so the iteration is not Newton's (C169_violated)."
  },
  {
   "property": "C170",
   "status": "partial",
   "theorems": [
    "Verif.Burst.C170_constant_partial",
    "Verif.Burst.C170_violated_single",
    "Verif.Burst.C170_violated_flux"
   ],
   "note": "For two or more flux points. One point: F_quad omits the solid angle, Flb_quad uses an uninitialised flux (C170_violated_single, C170_violated_flux)."
  },
  {
   "property": "C171",
   "status": "partial",
   "theorems": [
    "Verif.Odiag.C171_levinson",
    "Verif.Odiag.C171_optimal",
    "Verif.Odiag.C171_first",
    "Verif.Odiag.C171_stable",
    "Verif.Odiag.C171_variance",
    "Verif.Odiag.C171_short",
    "Verif.Odiag.C171_violated_constant",
    "Verif.Odiag.C171_stops_partial",
    "Verif.Odiag.C171_sum"
   ],
   "note": "No result for a series that is zero throughout (0/0), i.e. a chain that does not move."
  },
  {
   "property": "C172",
   "status": "partial",
   "theorems": [
    "Verif.Odiag.C172_best_partial",
    "Verif.Odiag.C172_variance",
    "Verif.Odiag.C172_scale",
    "Verif.Odiag.C172_violated_bic"
   ],
   "note": "The description names Schwarz's criterion, the code computes Akaike's; C172_violated_bic gives a series where the orders differ."
  },
  {
   "property": "C173",
   "status": "partial",
   "theorems": [
    "Verif.Odiag.C173_deleted_partial",
    "Verif.Odiag.C173_failed",
    "Verif.Odiag.C173_units",
    "Verif.Odiag.C173_violated_constant"
   ],
   "note": "No result for a constant chain (C173_violated_constant)."
  },
  {
   "property": "C174",
   "status": "partial",
   "theorems": [
    "Verif.Odiag.C174_length",
    "Verif.Odiag.C174_padding",
    "Verif.Odiag.C174_power",
    "Verif.Odiag.C174_inside",
    "Verif.Odiag.C174_units",
    "Verif.Odiag.C174_positive_partial",
    "Verif.Odiag.C174_intercept",
    "Verif.Odiag.C174_violated_short"
   ],
   "note": "The real transform realft is modelled by the sum it computes; lfit is a parameter with the stated least squares property. From 100 samples on a variance is computed although the description says 200."
  },
  {
   "property": "C175",
   "status": "partial",
   "theorems": [
    "Verif.Odiag.C175_table",
    "Verif.Odiag.C175_bijective",
    "Verif.Odiag.C175_complete_partial",
    "Verif.Odiag.C175_seventh",
    "Verif.Odiag.C175_violated_onedim"
   ],
   "note": "In one dimension the second moment reads an array that is never assigned."
  },
  {
   "property": "C176",
   "status": "partial",
   "theorems": [
    "Verif.Odiag.C176_runs",
    "Verif.Odiag.C176_equilibrium_partial",
    "Verif.Odiag.C176_violated_runs",
    "Verif.Odiag.C176_kept",
    "Verif.Odiag.C176_spacing_partial",
    "Verif.Odiag.C176_room_partial",
    "Verif.Odiag.C176_violated_room",
    "Verif.Odiag.C176_violated_zero",
    "Verif.Odiag.C176_average",
    "Verif.Odiag.C176_violated_sigma",
    "Verif.Odiag.C176_violated_order"
   ],
   "note": "Runs not in equilibrium are used when they come first; the spacing rounds down so that the workspace overflows; zero spacing for short runs; uncertainty is not divided by the number of runs; the order written is overwritten by that of the fits."
  },
  {
   "property": "C177",
   "status": "partial",
   "theorems": [
    "Verif.Odiag.C177_zero",
    "Verif.Odiag.C177_defined",
    "Verif.Odiag.C177_units",
    "Verif.Odiag.C177_bound_partial",
    "Verif.Odiag.C177_violated_bound",
    "Verif.Odiag.C177_ratio",
    "Verif.Odiag.C177_variance",
    "Verif.Odiag.C177_transform_partial",
    "Verif.Odiag.C177_violated_wrap",
    "Verif.Odiag.C177_average"
   ],
   "note": "corr and acorr divide by the number of pairs and may exceed one; fcorr wraps when series and lag exceed the transform length."
  },
  {
   "property": "C178",
   "status": "partial",
   "theorems": [
    "Verif.Odiag.C178_bin_partial",
    "Verif.Odiag.C178_total",
    "Verif.Odiag.C178_violated_upper",
    "Verif.Odiag.C178_violated_below"
   ],
   "note": "The upper limit falls into the element after the last bin, samples just below the range into the element before the first."
  },
  {
   "property": "C179",
   "status": "partial",
   "theorems": [
    "Verif.Odiag.C179_recorded_partial",
    "Verif.Odiag.C179_violated_first",
    "Verif.Odiag.C179_failed",
    "Verif.Odiag.C179_readback"
   ],
   "note": "With nothing to delete the time is read before the first element."
  },
  {
   "property": "C180",
   "status": "proved",
   "theorems": [
    "Verif.Spatial.C180_sphere",
    "Verif.Spatial.C180_density"
   ],
   "note": "Boundaries are treated up to single points (tangents)."
  },
  {
   "property": "C181",
   "status": "partial",
   "theorems": [
    "Verif.Spatial.C181_spheroid_partial",
    "Verif.Spatial.C181_violated_oblate",
    "Verif.Spatial.C181_violated_offcentre",
    "Verif.Spatial.C181_violated_away",
    "Verif.Spatial.C181_violated_unset"
   ],
   "note": "The number C is the square root of what the quadratic formula needs; the sign of the direction is not tested; r_range_2 tests a variable before assigning it."
  },
  {
   "property": "C182",
   "status": "proved",
   "theorems": [
    "Verif.Spatial.C182_spheroid",
    "Verif.Spatial.C182_sphere",
    "Verif.Spatial.C182_directions",
    "Verif.Spatial.C182_tight"
   ],
   "note": ""
  },
  {
   "property": "C183",
   "status": "partial",
   "theorems": [
    "Verif.Spatial.C183_norm_partial",
    "Verif.Spatial.C183_violated_norm",
    "Verif.Spatial.C183_slope",
    "Verif.Spatial.C183_limits",
    "Verif.Spatial.C183_accepted",
    "Verif.Spatial.C183_models",
    "Verif.Spatial.C183_violated_stuck"
   ],
   "note": "For slopes other than 1 the integral of E_dist is the largest energy (exponent p instead of p-1); set_n_mod tests the model in use before instead of the one requested."
  },
  {
   "property": "C184",
   "status": "partial",
   "theorems": [
    "Verif.Spatial.C184_exponent",
    "Verif.Spatial.C184_part",
    "Verif.Spatial.C184_jacobian",
    "Verif.Spatial.C184_limits",
    "Verif.Spatial.C184_rate_partial",
    "Verif.Spatial.C184_euclidean"
   ],
   "note": "Romberg quadrature replaced by the exact integral; densities and distributions are continuous functions on the ranges; 4 pi and pi^(3/2) are constants with the relation that makes the factor right."
  },
  {
   "property": "C185",
   "status": "partial",
   "theorems": [
    "Verif.Spatial.C185_rate_partial",
    "Verif.Spatial.C185_violated_miss"
   ],
   "note": "As C184. When the line of sight misses the distribution the least flux is divided by zero."
  },
  {
   "property": "C186",
   "status": "proved",
   "theorems": [
    "Verif.Candle.C186_positive",
    "Verif.Candle.C186_friedmann",
    "Verif.Candle.C186_slope",
    "Verif.Candle.C186_flat"
   ],
   "note": "Over the reals, positive density."
  },
  {
   "property": "C187",
   "status": "partial",
   "theorems": [
    "Verif.Candle.C187_fraction_partial",
    "Verif.Candle.C187_bounds",
    "Verif.Candle.C187_violated_cutoff"
   ],
   "note": "Proved for index 1 or while the upper cutoff has not been redshifted into the band; beyond it F_spec is wrong by a power of e2(1+z)/eu (C187_violated_cutoff: 2/27 instead of 1/9)."
  },
  {
   "property": "C188",
   "status": "partial",
   "theorems": [
    "Verif.Candle.C188_norm",
    "Verif.Candle.C188_rate_partial",
    "Verif.Candle.C188_violated_one",
    "Verif.Candle.C188_consistent"
   ],
   "note": "Normalisation proved for every slope; cdR_dz divides 0 by 0 for slope 1, which set_lfun accepts (C188_violated_one)."
  },
  {
   "property": "C189",
   "status": "partial",
   "theorems": [
    "Verif.Candle.C189_rate",
    "Verif.Candle.C189_slope_partial",
    "Verif.Candle.C189_jacobian",
    "Verif.Candle.C189_candle",
    "Verif.Candle.C189_violated_slope"
   ],
   "note": "Qromb is the integral it approximates. The logarithmic derivative of F_spec is wrong past the cutoff for indices other than 1 (C189_violated_slope)."
  },
  {
   "property": "C190",
   "status": "proved",
   "theorems": [
    "Verif.Candle.C190_root",
    "Verif.Candle.C190_luminosity",
    "Verif.Candle.C190_cut",
    "Verif.Candle.C190_stops"
   ],
   "note": "Partial correctness: if the Newton iterations return."
  },
  {
   "property": "C191",
   "status": "partial",
   "theorems": [
    "Verif.Lk.C191_grid_partial",
    "Verif.Lk.C191_refused",
    "Verif.Lk.C191_violated_order",
    "Verif.Lk.C191_violated_low"
   ],
   "note": "setstp and stpinf are not in the repository: any monotone steps between the limits. A last limit below the second is accepted (C191_violated_order); with one point up to the threshold the lower limit is dropped (C191_violated_low)."
  },
  {
   "property": "C192",
   "status": "proved",
   "theorems": [
    "Verif.Lk.C192_value",
    "Verif.Lk.C192_nodes",
    "Verif.Lk.C192_between",
    "Verif.Lk.C192_exact",
    "Verif.Lk.C192_below",
    "Verif.Lk.C192_violated_second"
   ],
   "note": "Positive rates. The second component of a superposition is NaN below the threshold (C192_violated_second)."
  },
  {
   "property": "C193",
   "status": "proved",
   "theorems": [
    "Verif.Lk.C193_integral",
    "Verif.Lk.C193_through",
    "Verif.Lk.C193_exact",
    "Verif.Lk.C193_scale"
   ],
   "note": "Over the reals."
  },
  {
   "property": "C194",
   "status": "partial",
   "theorems": [
    "Verif.Lk.C194_tail_partial",
    "Verif.Lk.C194_one",
    "Verif.Lk.C194_diverges",
    "Verif.Lk.C194_violated_tail",
    "Verif.Lk.C194_violated_total"
   ],
   "note": "Fgrid**ls is used where Fgrid is meant, so the contribution is wrong unless the last flux is 1 (C194_violated_tail); R_tot is never set to zero (C194_violated_total)."
  },
  {
   "property": "C195",
   "status": "proved",
   "theorems": [
    "Verif.Lk.C195_full",
    "Verif.Lk.C195_marginal",
    "Verif.Lk.C195_invariant",
    "Verif.Lk.C195_mode",
    "Verif.Lk.C195_mixture",
    "Verif.Lk.C195_floor"
   ],
   "note": "Over the reals; the quadratures of the bursts are arguments."
  },
  {
   "property": "C196",
   "status": "proved",
   "theorems": [
    "Verif.Lk.C196_history",
    "Verif.Lk.C196_repeat",
    "Verif.Lk.C196_needed"
   ],
   "note": "newpar, lkreset and set_ltype as announcements; C196_needed shows they are necessary."
  },
  {
   "property": "C197",
   "status": "partial",
   "theorems": [
    "Verif.Lk.C197_constant_partial",
    "Verif.Lk.C197_isotropic",
    "Verif.Lk.C197_violated_range"
   ],
   "note": "A constant anisotropy is returned; with changing signs of the dipole the trapezoid rule is mixed with power laws and a dipole moment of 4/3 is possible (C197_violated_range). The part above the grid is not modelled here (see C194)."
  },
  {
   "property": "C198",
   "status": "partial",
   "theorems": [
    "Verif.Lk.C198_same_partial",
    "Verif.Lk.C198_violated_end",
    "Verif.Lk.C198_fraction",
    "Verif.Lk.C198_ends"
   ],
   "note": "wmodel takes the logarithm of zero where the rate vanishes only at the end of an interval (C198_violated_end)."
  },
  {
   "property": "C199",
   "status": "partial",
   "theorems": [
    "Verif.Agrid.C199_global",
    "Verif.Agrid.C199_exact",
    "Verif.Agrid.C199_constant_partial",
    "Verif.Agrid.C199_violated_overlap",
    "Verif.Agrid.C199_violated_descending",
    "Verif.Agrid.C199_two",
    "Verif.Agrid.C199_shift"
   ],
   "note": "Exact trapezoid sums, bound on what is cut, shift. Overlapping grids are counted twice; a descending axis gives the logarithm of a negative number."
  },
  {
   "property": "C200",
   "status": "proved",
   "theorems": [
    "Verif.Agrid.C200_content",
    "Verif.Agrid.C200_root",
    "Verif.Agrid.C200_bracket"
   ],
   "note": "Uses the theorems on the 1-d content above a level (C35). The root finder itself is modelled elsewhere."
  },
  {
   "property": "C201",
   "status": "partial",
   "theorems": [
    "Verif.Agrid.C201_crossings",
    "Verif.Agrid.C201_region_partial",
    "Verif.Agrid.C201_violated_exact",
    "Verif.Agrid.C201_violated_zero"
   ],
   "note": "A point at which the level is met exactly yields no boundary; a point set to zero makes the logarithm fail."
  },
  {
   "property": "C202",
   "status": "partial",
   "theorems": [
    "Verif.Nhess.C202_solution",
    "Verif.Nhess.C202_quadratic_partial",
    "Verif.Nhess.C202_violated_offset",
    "Verif.Nhess.C202_violated_inverse"
   ],
   "note": "The solution of the linear equations is any solution (unique). Off the mode the gradient enters as 2g/dp; the inverse the comment promises is not returned."
  },
  {
   "property": "C203",
   "status": "proved",
   "theorems": [
    "Verif.MC.C203_fill",
    "Verif.MC.C203_prefix",
    "Verif.MC.C203_randomseed"
   ],
   "note": "The device's words and the clocks are arguments."
  },
  {
   "property": "C204",
   "status": "partial",
   "theorems": [
    "Verif.MC.C204_pairs",
    "Verif.MC.C204_bound",
    "Verif.MC.C204_seed_partial",
    "Verif.MC.C204_violated_restore",
    "Verif.MC.C204_normal"
   ],
   "note": "Exact reals. set_rng_state keeps the deviate held from before: it is the next one given whatever the new state."
  },
  {
   "property": "C205",
   "status": "partial",
   "theorems": [
    "Verif.Sigma.C205_disc",
    "Verif.Sigma.C205_inverse",
    "Verif.Sigma.C205_dens_partial",
    "Verif.Sigma.C205_violated_dens"
   ],
   "note": "sig2prob, prob2sig in two dimensions are proved against the Gaussian measure of the disc; C205_violated_dens shows that the two-dimensional prob2dens is too small by the factor 1-p, so the density theorem is partial (one dimension)."
  },
  {
   "property": "C206",
   "status": "partial",
   "theorems": [
    "Verif.Pie.C206_status",
    "Verif.Pie.C206_margin_partial",
    "Verif.Pie.C206_monotone",
    "Verif.Pie.C206_unbounded",
    "Verif.Pie.C206_violated_point"
   ],
   "note": "Proved for every reachable state of the parameter model; ranges that are a single point, which vary accepts, raise ZeroDivisionError (C206_violated_point)."
  },
  {
   "property": "C207",
   "status": "partial",
   "theorems": [
    "Verif.Signals.Kepler.C207_velocity_partial",
    "Verif.Signals.Kepler.C207_curve",
    "Verif.Signals.Kepler.C207_data_partial",
    "Verif.Signals.Kepler.C207_chisq",
    "Verif.Signals.Kepler.C207_violated_phase",
    "Verif.Signals.Kepler.C207_violated_one"
   ],
   "note": "Velocities are proved for eccentricities up to 0.98 (0.99 with a tolerance of at least 1e-5); C207_violated_phase: with four decimals a phase just below 1 is written as 1.0000; C207_violated_one: n=1 raises ZeroDivisionError."
  },
  {
   "property": "C208",
   "status": "partial",
   "theorems": [
    "Verif.Integrate.Maps.C208_exp_inverse",
    "Verif.Integrate.Maps.C208_pl_inverse",
    "Verif.Integrate.Maps.C208_exp_partial",
    "Verif.Integrate.Maps.C208_pl_partial",
    "Verif.Integrate.Maps.C208_violated_alpha",
    "Verif.Integrate.Maps.C208_violated_mid",
    "Verif.Integrate.Maps.C208_violated_mid_roll"
   ],
   "note": "Proved for calls with the module variables; the arguments alpha, beta and mid of the mapped integrands are not passed on (C208_violated_alpha, C208_violated_mid)."
  },
  {
   "property": "C209",
   "status": "partial",
   "theorems": [
    "Verif.Integrate.RuleMaker.C209_xcomb",
    "Verif.Integrate.RuleMaker.C209_xcomb_count",
    "Verif.Integrate.RuleMaker.C209_xperm",
    "Verif.Integrate.RuleMaker.C209_xsubsets",
    "Verif.Integrate.RuleMaker.C209_flip_partial",
    "Verif.Integrate.RuleMaker.C209_violated_list"
   ],
   "note": "flip_signs is proved for use one by one; list(flip_signs(seq)) holds the same list repeatedly (C209_violated_list)."
  },
  {
   "property": "C210",
   "status": "proved",
   "theorems": [
    "Verif.Integrate.RuleMaker.C210_points",
    "Verif.Integrate.RuleMaker.C210_symmetric",
    "Verif.Integrate.RuleMaker.C210_odd",
    "Verif.Integrate.RuleMaker.C210_symmetry_examples",
    "Verif.Integrate.RuleMaker.C210_circles"
   ],
   "note": "Proved for generators with non-negative coordinates as in the descriptions; reading the descriptions and writing the module are not modelled."
  },
  {
   "property": "C211",
   "status": "partial",
   "theorems": [
    "Verif.Drxn.C211_three_partial",
    "Verif.Drxn.C211_four_partial",
    "Verif.Drxn.C211_violated_memory",
    "Verif.Drxn.C211_violated_few",
    "Verif.Drxn.C211_violated_opposite",
    "Verif.Drxn.C211_reads"
   ],
   "note": "Proved within the accuracy of the factors, up to what uninitialised memory adds to the average over pairs (C211_violated_memory); nothing is written for one or two bursts; opposite bursts give infinite odds."
  },
  {
   "property": "C212",
   "status": "partial",
   "theorems": [
    "Verif.PlotBivar.C212_points",
    "Verif.PlotBivar.C212_levels",
    "Verif.PlotBivar.C212_violated_order",
    "Verif.PlotBivar.C212_violated_cross",
    "Verif.PlotBivar.C212_image_partial",
    "Verif.PlotBivar.C212_violated_image",
    "Verif.PlotBivar.C212_coord_partial",
    "Verif.PlotBivar.C212_violated_coord",
    "Verif.PlotBivar.C212_grid_partial",
    "Verif.PlotBivar.C212_violated_gscale",
    "Verif.PlotBivar.C212_violated_overlay",
    "Verif.PlotBivar.C212_violated_label"
   ],
   "note": "Points and levels proved in full; images are misaligned by up to half a column, crosshairs raise NameError, default levels decrease, and options of ScalarGrid.plot are dropped or refused (C212_violated_*)."
  },
  {
   "property": "C213",
   "status": "partial",
   "theorems": [
    "Verif.Pie.Registry.C213_names",
    "Verif.Pie.Registry.C213_set",
    "Verif.Pie.Registry.C213_told",
    "Verif.Pie.Registry.C213_linear",
    "Verif.Pie.Registry.C213_log",
    "Verif.Pie.Registry.C213_violated_default",
    "Verif.Pie.Registry.C213_violated_told",
    "Verif.Pie.Registry.C213_violated_check",
    "Verif.Pie.Registry.C213_violated_vary",
    "Verif.Pie.Registry.C213_violated_range",
    "Verif.Pie.Registry.C213_violated_single",
    "Verif.Pie.Registry.C213_unbounded_partial"
   ],
   "note": "The registry of named parameters of expt/pie/Parameters.py over the reals. Names, assignment, linear and logarithmic steps and announcements of the status are proved for all histories. Violated: default zero is undefined, values are not announced (setValue is a NameError), check and unboundedValue always fail, refused vary changes the value, start and steps ignore the range, one step is a ZeroDivisionError after the status changed."
  },
  {
   "property": "C214",
   "status": "partial",
   "theorems": [
    "Verif.Pie.PredCopy.C214_copies_partial",
    "Verif.Pie.PredCopy.C214_heals",
    "Verif.Pie.PredCopy.C214_violated_stale",
    "Verif.Pie.PredCopy.C214_violated_missing"
   ],
   "note": "Copies of parameters in predictors (expt/pie/predictorParams.py). Proved if the owner raises nothing, and that any later accepted change repairs all copies; violated: copies are stale after an exception of the owner; unknown names are KeyErrors."
  },
  {
   "property": "C215",
   "status": "partial",
   "theorems": [
    "Verif.MC.Mem.C215_no_double_free",
    "Verif.MC.Mem.C215_weights",
    "Verif.MC.Mem.C215_population_partial",
    "Verif.MC.Mem.C215_noleak_partial",
    "Verif.MC.Mem.C215_violated_leak",
    "Verif.MC.Mem.C215_violated_zero",
    "Verif.MC.Mem.C215_violated_weights",
    "Verif.MC.Mem.C215_violated_order",
    "Verif.MC.Mem.C215_violated_reference"
   ],
   "note": "Proved: no method sequence uses or frees a released block (C215_no_double_free); histories of a population with sizes other than zero and finite ratios lead to no fault (C215_population_partial) and without accelerated subsets leak nothing (C215_noleak_partial). Violated: empty subsets, weights without positive sum, leak of ratio tables, order of calls, lost array references."
  },
  {
   "property": "C216",
   "status": "partial",
   "theorems": [
    "Verif.OnOff.Wrap.C216_sigctp",
    "Verif.OnOff.Wrap.C216_bounds_partial",
    "Verif.OnOff.Wrap.C216_violated_bounds",
    "Verif.OnOff.Wrap.C216_violated_large",
    "Verif.OnOff.Wrap.C216_violated_fraction",
    "Verif.OnOff.Wrap.C216_psigc",
    "Verif.OnOff.Wrap.C216_offsets",
    "Verif.OnOff.Wrap.C216_vector_partial",
    "Verif.OnOff.Wrap.C216_violated_flag"
   ],
   "note": "Proved: counts that fit give the probabilities of C59 (C216_sigctp), bounds are kept unless the count becomes minus one (C216_bounds_partial), psigc and vslml_offset never leave their arrays and are described completely (C216_psigc, C216_offsets), vslmlike is the scalar routine element by element (C216_vector_partial). Violated: count of minus one, counts beyond 32 bits, broken counts, dropped error flags."
  },
  {
   "property": "C217",
   "status": "partial",
   "theorems": [
    "Verif.Pie.Container.C217_container_partial",
    "Verif.Pie.Container.C217_violated_names",
    "Verif.Pie.Container.C217_violated_docs",
    "Verif.Pie.Container.C217_violated_store"
   ],
   "note": "Proved for names other than names, docs and store. Violated: a parameter of one of those names replaces the container's own list, dictionary or method, and every later store or str raises TypeError (C217_violated_names, _docs, _store)."
  },
  {
   "property": "C218",
   "status": "partial",
   "theorems": [
    "Verif.MC.C218_altfill_partial",
    "Verif.MC.C218_violated_empty",
    "Verif.MC.C218_randomseed"
   ],
   "note": "Proved for all sizes but 0; C218_violated_empty: for 0 bytes rk_altfill reports that the device is unavailable. C218_randomseed: full."
  },
  {
   "property": "C219",
   "status": "partial",
   "theorems": [
    "Verif.MC.IntWidth.C219_sorted_partial",
    "Verif.MC.IntWidth.C219_violated_largest",
    "Verif.MC.IntWidth.C219_violated_returned",
    "Verif.MC.IntWidth.C219_violated_total",
    "Verif.MC.IntWidth.C219_violated_probabilities"
   ],
   "note": "Proved where pointers have 32 bits. Violated where they have 64: the array of npy_intp is read through a pointer to int, so that the heavier half of the items is never kept, the total is wrong, and for even numbers of items Python gets indices multiplied by 2^32."
  },
  {
   "property": "C220",
   "status": "partial",
   "theorems": [
    "Verif.Vba.Mem.C220_bounds_partial",
    "Verif.Vba.Mem.C220_violated_bounds",
    "Verif.Vba.Mem.C220_violated_rows"
   ],
   "note": "For arrays with as many columns as rows or more covar stays inside its array; with fewer columns it writes outside, and with more it misaligns the rows: no check of the shape."
  },
  {
   "property": "C221",
   "status": "partial",
   "theorems": [
    "Verif.HPD.Slow.C221_value_partial",
    "Verif.HPD.Slow.C221_first_partial",
    "Verif.HPD.Slow.C221_above_partial",
    "Verif.HPD.Slow.C221_violated_empty",
    "Verif.HPD.Slow.C221_violated"
   ],
   "note": "Correct when no crossing of the level exceeds the maximum noted so far; for every single rising and falling peak the value is too small because amaxp is not updated on a crossing."
  },
  {
   "property": "C222",
   "status": "partial",
   "theorems": [
    "Verif.MC.FiveTable.C222_exact_partial",
    "Verif.MC.FiveTable.C222_calls_partial",
    "Verif.MC.FiveTable.C222_violated_word",
    "Verif.MC.FiveTable.C222_violated_round",
    "Verif.MC.FiveTable.C222_violated_one",
    "Verif.MC.FiveTable.C222_violated_values"
   ],
   "note": "Exact counts for all arrays of sum 2^30 with entries below 2^30 and values below 32768; on a 64-bit unsigned long the first call always reads outside; rounding may leave the sum short; an entry of 2^30 empties all tables; larger values wrap in short int."
  },
  {
   "property": "C223",
   "status": "partial",
   "theorems": [
    "Verif.MC.FiveTable.C223_entries_partial",
    "Verif.MC.FiveTable.C223_violated_small"
   ],
   "note": "All n and 0<p<1 with (n+1)p at least 1, in exact arithmetic; for (n+1)p<1 and n at least 1 the loop never ends."
  },
  {
   "property": "C224",
   "status": "partial",
   "theorems": [
    "Verif.MC.FiveTable.C224_entries_partial",
    "Verif.MC.FiveTable.C224_violated_zero",
    "Verif.MC.FiveTable.C224_violated_write"
   ],
   "note": "All populations and sample sizes from 1 to the smaller group, in exact arithmetic; never ends for samples of no items; may write outside of its array when the cut towards zero moves the mode to an improbable value."
  },
  {
   "property": "C225",
   "status": "partial",
   "theorems": [
    "Verif.MC.FiveTable.C225_entries_partial",
    "Verif.MC.FiveTable.C225_violated_offset"
   ],
   "note": "All means at the first call, in real arithmetic; a later call with a mean below 21.4 keeps the offset of the call before and shifts all values."
  },
  {
   "property": "C226",
   "status": "partial",
   "theorems": [
    "Verif.MC.ChiSq.C226_cdf_partial",
    "Verif.MC.ChiSq.C226_violated_zero"
   ],
   "note": "All 1 to 3000 degrees of freedom, given that Phi is the normal distribution function; 0 degrees of freedom gives the value for 2; above 3000 an approximation."
  },
  {
   "property": "C227",
   "status": "proved",
   "theorems": [
    "Verif.MC.ChiSq.C227_error",
    "Verif.MC.ChiSq.C227_limit",
    "Verif.MC.ChiSq.C227_rounds"
   ],
   "note": "In real arithmetic; where rounding ends the loop is not modelled."
  },
  {
   "property": "C228",
   "status": "partial",
   "theorems": [
    "Verif.MC.Dtest.C228_classes_partial",
    "Verif.MC.Dtest.C228_counts_partial",
    "Verif.MC.Dtest.C228_violated_upper",
    "Verif.MC.Dtest.C228_violated_single"
   ],
   "note": "All arrays that can be cut into two parts of expectation above 10; if all but the least value have at most 10 the arrays are read up to index 1000; a single dominant value makes one class and counts an expectation twice."
  },
  {
   "property": "C229",
   "status": "partial",
   "theorems": [
    "Verif.Deriv.QdInfo.C229_violated_never_returns",
    "Verif.Deriv.QdInfo.C229_exact_partial",
    "Verif.Deriv.QdInfo.C229_expanded_partial",
    "Verif.Deriv.QdInfo.C229_violated_uneven"
   ],
   "note": "Proved exact at every dimension when no vertex is expanded, or all equally often; each vertex ends at the least doubling that leaves the band. Violated: with p a vertex of the simplex, as documented, the expansion loop never ends, for every function; with uneven expansion the result is wrong."
  },
  {
   "property": "C230",
   "status": "partial",
   "theorems": [
    "Verif.Romberg.C230_indices_partial",
    "Verif.Romberg.C230_rombint_partial",
    "Verif.Romberg.C230_violated_equal",
    "Verif.Romberg.C230_violated_accuracy"
   ],
   "note": "Proved for every number of digits: the value is Richardson's extrapolation from the trapezoid rules with 1 to 2^(decdigs-1) panels, exact for polynomials of degree up to 2*decdigs-1; indices inside the array. Violated: equal limits give an index error; no accuracy for all functions."
  },
  {
   "property": "C231",
   "status": "partial",
   "theorems": [
    "Verif.Quad.C231_fclencurt_partial",
    "Verif.Quad.C231_violated_two"
   ],
   "note": "Proved for every number of points from three on: nodes and exactness below the number of points, on any interval. Violated with two points: the nodes are not the ends."
  },
  {
   "property": "C232",
   "status": "partial",
   "theorems": [
    "Verif.Quad.C232_transform_partial",
    "Verif.Quad.C232_violated_highest"
   ],
   "note": "Proved for every number of nodes: the forward transform interpolates; the round trip holds exactly when the highest coefficient is zero. Violated: the highest coefficient is halved by the backward transform."
  },
  {
   "property": "C233",
   "status": "partial",
   "theorems": [
    "Verif.Deriv.InfoScale.C233_drop_partial",
    "Verif.Deriv.InfoScale.C233_parabola_partial",
    "Verif.Deriv.InfoScale.C233_violated_flat",
    "Verif.Deriv.InfoScale.C233_violated_loop",
    "Verif.Deriv.InfoScale.C233_violated_offset"
   ],
   "note": "doinfo.f: whenever the scales are found they lower the log posterior by del to within 0.03 and never raise it; exact for parabolas in any dimension. Violated for a flat direction (never ends) and for a rise at the first trial point. Missing: that the search ends for other posteriors."
  },
  {
   "property": "C234",
   "status": "partial",
   "theorems": [
    "Verif.Deriv.Ockham.C234_volume_partial",
    "Verif.Deriv.Ockham.C234_flag_partial",
    "Verif.Deriv.Ockham.C234_violated_dropped",
    "Verif.Deriv.Ockham.C234_violated_stale",
    "Verif.Deriv.Ockham.C234_violated_tmode"
   ],
   "note": "doinfo.f: log Ockham factor equals the log of the product of Gaussian integrals along the axes, for all positive eigenvalues; flag right without a decomposition. Violated: eigenvalues that are not positive are dropped, stale flag after a decomposition, row tmode holds the mode. Missing: the Cholesky decomposition and the eigenvalue routine, whose results are arguments here."
  },
  {
   "property": "C235",
   "status": "partial",
   "theorems": [
    "Verif.Deriv.LogDet.C235_logdet_partial",
    "Verif.Deriv.LogDet.C235_fails_partial",
    "Verif.Deriv.LogDet.C235_mantissa_partial"
   ],
   "note": "choldet in doinfo.f: the rescaling loops end, keep the value and leave a mantissa in [1/16, 1); the log determinant is that of the product; failure for an element that is not positive. Missing: the decomposition that yields the diagonal elements, and rounding."
  }
 ]
}