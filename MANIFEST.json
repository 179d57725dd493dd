{
 "claims": [
  {
   "property": "C01",
   "status": "proved",
   "theorems": [
    "CTHyb.C01_not_accepted_unchanged"
   ],
   "note": "for any determinant machinery satisfying DetOps.Lawful"
  },
  {
   "property": "C02",
   "status": "proved",
   "theorems": [
    "CTHyb.C02_operators_consistent"
   ],
   "note": "induction over arbitrary histories of local updates"
  },
  {
   "property": "C03",
   "status": "proved",
   "theorems": [
    "CTHyb.C03_revert_erase",
    "CTHyb.C03_revert_insert",
    "CTHyb.C03_update_operators",
    "CTHyb.C03_foreign_operator_not_restored"
   ],
   "note": "the last theorem is the witness for the proviso (operator found by time alone)"
  },
  {
   "property": "C04",
   "status": "proved",
   "theorems": [
    "CTHyb.C04_sign_consistent"
   ],
   "note": ""
  },
  {
   "property": "C05",
   "status": "partial",
   "theorems": [
    "CTHyb.C05_perm_sign_value",
    "CTHyb.C05_storage_order",
    "CTHyb.C05_perm_sign_invariant",
    "CTHyb.C05_incremental_formula",
    "CTHyb.C05_incremental_formula_wrong"
   ],
   "note": "storage independence proved; the incremental formula of the code (unused by the solver) is wrong by (-1)^(a(a+1)/2+r(r-1)/2), proved exactly, with a witness"
  },
  {
   "property": "C06",
   "status": "proved",
   "theorems": [
    "CTHyb.C06_detailed_balance",
    "CTHyb.C06_inverse_factors",
    "CTHyb.C06_normalized"
   ],
   "note": "Proposals as finite distributions (index draws uniform, times uniform on a grid of the window); detailed balance for every rank, block structure, window, weight and any two configurations. Floating point and the 1e-10 margin of open_random are not modelled."
  },
  {
   "property": "C07",
   "status": "partial",
   "theorems": [
    "CTHyb.C07_rank_one_partial",
    "CTHyb.C07_flow_ratio",
    "CTHyb.C07_violated"
   ],
   "note": "True for rank 1. For rank k the flow up is k! times the flow down (C07_flow_ratio), so the claim is false for rank 2 and higher (C07_violated). The updater is not created by the solver."
  },
  {
   "property": "C08",
   "status": "partial",
   "theorems": [
    "CTHyb.C08_flavor_balance",
    "CTHyb.C08_shift_balance_partial",
    "CTHyb.C08_shift_violated",
    "CTHyb.C08_step_sizes_violated"
   ],
   "note": "Balance of SingleOperatorShiftUpdater is proved for all weights, windows and configurations when the flavors of a block share max_distance_; it is shown to fail for every block structure as soon as two flavors of a block have different step sizes (C08_shift_violated), and update_parameters does produce different step sizes (C08_step_sizes_violated), so the property fails for the code. Time differences are multiples of the grid spacing. OperatorPairFlavorUpdater is balanced without restriction."
  },
  {
   "property": "C09",
   "status": "proved",
   "theorems": [
    "CTHyb.C09_insrem_balance",
    "CTHyb.C09_green_balance"
   ],
   "note": "Detailed balance of worm insertion/removal (through the trace and through trace+bath, any list of worm types) and of the Green's function channel, for every positive weight. Times are drawn from a finite grid."
  },
  {
   "property": "C10",
   "status": "partial",
   "theorems": [
    "CTHyb.C10_flavor_balance",
    "CTHyb.C10_mover_ratio",
    "CTHyb.C10_mover_balance_partial",
    "CTHyb.C10_mover_violated",
    "CTHyb.C10_mover_distribution",
    "CTHyb.C10_mover_stationary_iff"
   ],
   "note": "Flavor change is balanced. WormMover retries failed trials up to num_independent_times times, so for worms with several times detailed balance holds iff the failure probability is the same at both configurations; exact flow ratio and a concrete violation are proved.  More: the mover keeps (in detailed balance) the weight divided by the expected number of iterations, and on any finite set of configurations it leaves the weight stationary iff the failure probability is constant along its moves, so global balance is violated too (example with the worm G1, which every run contains)."
  },
  {
   "property": "C11",
   "status": "proved",
   "theorems": [
    "CTHyb.C11_connector_balance"
   ],
   "note": "Detailed balance of the connector between equal-time G1 and two-time G2 with both space weights."
  },
  {
   "property": "C12",
   "status": "proved",
   "theorems": [
    "CTHyb.C12_accept_iff",
    "CTHyb.C12_accept_probability",
    "CTHyb.C12_detailed_balance",
    "CTHyb.C12_stationary",
    "CTHyb.C12_correction_needed"
   ],
   "note": "Finite configuration space, complex weights allowed; the correction factors of the individual updates are C06-C11."
  },
  {
   "property": "C13",
   "status": "proved",
   "theorems": [
    "CTHyb.C13_det_ratio_up",
    "CTHyb.C13_inverse_up"
   ],
   "note": "over any field; block sizes arbitrary"
  },
  {
   "property": "C14",
   "status": "proved",
   "theorems": [
    "CTHyb.C14_det_ratio_down",
    "CTHyb.C14_inverse_down"
   ],
   "note": "over any field; removed rows/columns at the end, as the solver calls it"
  },
  {
   "property": "C15",
   "status": "partial",
   "theorems": [
    "CTHyb.C15_det_ratio_col",
    "CTHyb.C15_inverse_col",
    "CTHyb.C15_det_ratio_row",
    "CTHyb.C15_inverse_row",
    "CTHyb.C15_replace_det_ratio",
    "CTHyb.C15_replace_inverse",
    "CTHyb.C15_replace_singular_wrong"
   ],
   "note": "the replace helper needs the intermediate minor to be nonsingular; the last theorem is the witness that its result is wrong otherwise"
  },
  {
   "property": "C16",
   "status": "proved",
   "theorems": [
    "CTHyb.C16_determinant",
    "CTHyb.C16_build",
    "CTHyb.C16_update",
    "CTHyb.C16_history",
    "CTHyb.C16_rebuild",
    "CTHyb.C16_lawful",
    "CTHyb.C16_replacing_two_c_ignored",
    "CTHyb.C16_replacing_two_cdagg_undefined"
   ],
   "note": "Proved for all requests of the kinds the solver makes on one block (HybChange.Shape) and all histories of performed and rejected requests. For requests of two other kinds the code does not do what C16 says; the last two theorems show it."
  },
  {
   "property": "C17",
   "status": "partial",
   "theorems": [
    "CTHyb.C17_impossible_add",
    "CTHyb.C17_impossible_remove_partial",
    "CTHyb.C17_impossible_remove_violated",
    "CTHyb.C17_impossible_remove_add_violated"
   ],
   "note": "Proved for insertions, and for removals when the work area holds no operators. The full claim is false: a rejected impossible removal can throw, and a rejected impossible replacement can leave a corrupted object (both negations proved with witnesses). Not reachable from the solver, which checks times first."
  },
  {
   "property": "C18",
   "status": "proved",
   "theorems": [
    "CTHyb.C18_sector_determinants",
    "CTHyb.C18_determinant",
    "CTHyb.C18_update",
    "CTHyb.C18_history",
    "CTHyb.C18_lawful",
    "CTHyb.C18_solver_requests",
    "CTHyb.C18_build",
    "CTHyb.C18_rebuild",
    "CTHyb.C18_inverse",
    "CTHyb.C18_sectors",
    "CTHyb.C18_hybridization",
    "CTHyb.C18_off_block_ignored",
    "CTHyb.C18_asymmetric_violated",
    "CTHyb.C18_small_elements_violated",
    "CTHyb.C18_time_in_use_violated"
   ],
   "note": "Holds for every hybridization function which vanishes between sectors; that is what init establishes for symmetric tables whose elements vanish or exceed 1e-10. Deviations proved: tables which are zero below the diagonal only, elements below 1e-10, and additions at a time in use (not made by the solver)."
  },
  {
   "property": "C19",
   "status": "proved",
   "theorems": [
    "CTHyb.C19_clusters"
   ],
   "note": ""
  },
  {
   "property": "C20",
   "status": "proved",
   "theorems": [
    "CTHyb.C20_comb_sort",
    "CTHyb.C20_sign_unique",
    "CTHyb.C20_permutation",
    "CTHyb.C20_permutation_duplicates_diverge"
   ],
   "note": ""
  },
  {
   "property": "C21",
   "status": "proved",
   "theorems": [
    "CTHyb.C21_refines",
    "CTHyb.C21_memory",
    "CTHyb.C21_resize_keeps"
   ],
   "note": "refinement to a matrix without hidden memory"
  },
  {
   "property": "C22",
   "status": "proved",
   "theorems": [
    "CTHyb.C22_trace_window_independent",
    "CTHyb.C22_no_exception"
   ],
   "note": "for any impurity model satisfying Evol.Lawful"
  },
  {
   "property": "C23",
   "status": "proved",
   "theorems": [
    "CTHyb.C23_restore",
    "CTHyb.C23_one_window_counterexample"
   ],
   "note": "with one window the right edge has to be at 0 when saving (as always in the solver); the second theorem is the witness"
  },
  {
   "property": "C24",
   "status": "proved",
   "theorems": [
    "CTHyb.C24_sweep",
    "CTHyb.C24_period"
   ],
   "note": "position as an explicit function of the number of steps"
  },
  {
   "property": "C25",
   "status": "proved",
   "theorems": [
    "CTHyb.C25_reject",
    "CTHyb.C25_accept",
    "CTHyb.C25_decision",
    "CTHyb.C25_exact",
    "CTHyb.C25_bounds_stay_valid",
    "CTHyb.C25_unsorted_counterexample"
   ],
   "note": ""
  },
  {
   "property": "C26",
   "status": "partial",
   "theorems": [
    "CTHyb.C26_observables_found",
    "CTHyb.C26_observables_confused",
    "CTHyb.C26_correlation_partial",
    "CTHyb.C26_coincidence_wrong"
   ],
   "note": "false as stated: an operator exactly on an interior mesh point acts twice, one on the last mesh point is lost there (witnesses proved); proved for all other configurations"
  },
  {
   "property": "C27",
   "status": "proved",
   "theorems": [
    "CTHyb.C27_rescale_normalised",
    "CTHyb.C27_reverse",
    "CTHyb.C27_compose",
    "CTHyb.C27_out_of_range",
    "CTHyb.C27_rescale",
    "CTHyb.C27_history",
    "CTHyb.C27_visit"
   ],
   "note": "over the reals"
  },
  {
   "property": "C28",
   "status": "proved",
   "theorems": [
    "CTHyb.C28_counter",
    "CTHyb.C28_lambda",
    "CTHyb.C28_monotone",
    "CTHyb.C28_converged",
    "CTHyb.C28_terminates",
    "CTHyb.C28_frozen",
    "CTHyb.C28_adjust",
    "CTHyb.C28_flat"
   ],
   "note": "over the reals; convergence exactly with the 14th refinement"
  },
  {
   "property": "C29",
   "status": "proved",
   "theorems": [
    "CTHyb.C29_synchronize",
    "CTHyb.C29_finish"
   ],
   "note": "over the reals"
  },
  {
   "property": "C30",
   "status": "proved",
   "theorems": [
    "CTHyb.C30_car",
    "CTHyb.C30_car_ring",
    "CTHyb.C30_number",
    "CTHyb.C30_sparse"
   ],
   "note": "All flavour numbers; integer entries and any ring. The matrices of the code act on states whose set bits mean empty flavours."
  },
  {
   "property": "C31",
   "status": "partial",
   "theorems": [
    "CTHyb.C31_numbering",
    "CTHyb.C31_sectors_exact",
    "CTHyb.C31_hamiltonian",
    "CTHyb.C31_quantum_numbers",
    "CTHyb.C31_particle_number",
    "CTHyb.C31_maps_sectors_partial",
    "CTHyb.C31_no_merge_partial",
    "CTHyb.C31_counterexample",
    "CTHyb.C31_blocks",
    "CTHyb.C31_apply"
   ],
   "note": "First half proved for all Hamiltonians. The second half is false in the code: C31_counterexample gives a Hermitian 4-flavour Hamiltonian for which a creation operator maps one sector into two (cluster merging is not repeated until closed). Proved instead: exact description of the sectors, they are never too coarse, conditions under which operators map sectors to sectors, and that blocks equal the full operator whenever they do."
  },
  {
   "property": "C32",
   "status": "proved",
   "theorems": [
    "CTHyb.C32_command_line",
    "CTHyb.C32_file_ok",
    "CTHyb.C32_file_wrong_index",
    "CTHyb.C32_file_short",
    "CTHyb.C32_file_defects"
   ],
   "note": "Both input modes. C32_file_defects records two defects outside the claim: an empty file makes the code test uninitialised variables, and a last record without its two values is accepted with the previous values."
  },
  {
   "property": "C33",
   "status": "partial",
   "theorems": [
    "CTHyb.C33_interpolation",
    "CTHyb.C33_mesh",
    "CTHyb.C33_antiperiodic",
    "CTHyb.C33_closed_interval",
    "CTHyb.C33_beta_out_of_range"
   ],
   "note": "Proved for all time differences in [-beta, beta), hence for times in (0, beta], the range kept by all updates. For the closed interval [0, beta] of the claim the single pair (beta, 0) reads one element past the table (C33_beta_out_of_range)."
  },
  {
   "property": "C34",
   "status": "partial",
   "theorems": [
    "CTHyb.C34_mymod",
    "CTHyb.C34_mymod_negative_multiple",
    "CTHyb.C34_shift_range",
    "CTHyb.C34_shift_undo",
    "CTHyb.C34_shift_compose",
    "CTHyb.C34_shift_operators",
    "CTHyb.C34_open_random",
    "CTHyb.C34_permutation"
   ],
   "note": "Shifts proved in full. mymod returns beta instead of 0 for negative multiples of beta (C34_mymod_negative_multiple), everywhere else it lies in [0, beta)."
  },
  {
   "property": "C35",
   "status": "proved",
   "theorems": [
    "CTHyb.C35_legendre",
    "CTHyb.C35_legendre_vec",
    "CTHyb.C35_normalised"
   ],
   "note": "Against Mathlib's shifted Legendre polynomials (Rodrigues formula)."
  },
  {
   "property": "C36",
   "status": "partial",
   "theorems": [
    "CTHyb.C36_coefficient",
    "CTHyb.C36_exchange",
    "CTHyb.C36_g1_coefficient_partial",
    "CTHyb.C36_g2_coefficient",
    "CTHyb.C36_g1_estimator_partial",
    "CTHyb.C36_g1_normalisation",
    "CTHyb.C36_g1_norm_pos",
    "CTHyb.C36_g2_estimator",
    "CTHyb.C36_g2_normalisation",
    "CTHyb.C36_blocks",
    "CTHyb.C36_reduction",
    "CTHyb.C36_argument",
    "CTHyb.C36_from_matrix",
    "CTHyb.C36_worm_operators",
    "CTHyb.C36_g1_zero_element_violated",
    "CTHyb.C36_g1_norm_violated"
   ],
   "note": "Proved for any rank, matrix size and auxiliary random numbers: the coefficient from the minors of the enlarged inverse is the ratio of the full weights (trace, permutation sign, determinant). For two particles also the estimator and normalisation without further hypothesis except that the cutoff loses nothing. For one particle the code skips pairs whose element M(l,k) is zero although the minor is not: counterexample proved, estimator proved under the hypothesis that this does not occur; norm can be zero if the random number is zero. Legendre/frequency factors enter as an arbitrary function of the operators."
  },
  {
   "property": "C37",
   "status": "proved",
   "theorems": [
    "CTHyb.C37_kLkR",
    "CTHyb.C37_bounds",
    "CTHyb.C37_period"
   ],
   "note": "k_L k_R estimator of the fidelity susceptibility."
  },
  {
   "property": "C38",
   "status": "proved",
   "theorems": [
    "CTHyb.C38_step",
    "CTHyb.C38_counters"
   ],
   "note": ""
  },
  {
   "property": "C39",
   "status": "proved",
   "theorems": [
    "CTHyb.C39_rebin",
    "CTHyb.C39_rebin_total",
    "CTHyb.C39_rebin_range",
    "CTHyb.C39_rebin_range_total"
   ],
   "note": "Both overloads. The second one conserves the total if the new range contains the old one."
  },
  {
   "property": "C40",
   "status": "proved",
   "theorems": [
    "CTHyb.C40_stays",
    "CTHyb.C40_query",
    "CTHyb.C40_declared",
    "CTHyb.C40_ten_bins",
    "CTHyb.C40_stable",
    "CTHyb.C40_recorder",
    "CTHyb.C40_recorder_mean"
   ],
   "note": "num_thermalization_steps_ is never read by the class; the class is not used by the solver, the recorder is."
  },
  {
   "property": "C41",
   "status": "partial",
   "theorems": [
    "CTHyb.C41_matching",
    "CTHyb.C41_leave_together",
    "CTHyb.C41_no_deadlock",
    "CTHyb.C41_terminates_partial",
    "CTHyb.C41_completes_partial",
    "CTHyb.C41_uninitialised_violated",
    "CTHyb.C41_exception_violated"
   ],
   "note": "For all numbers of ranks, clocks and thermalization patterns: matching sequences, leaving the loop together, no deadlock in the loop, termination under fairness. Missing: the schedule members are uninitialised before the first check, so termination needs a hypothesis the code does not guarantee (violation proved); exceptions in update/measure on one rank leave the others waiting (violation proved)."
  },
  {
   "property": "C42",
   "status": "partial",
   "theorems": [
    "CTHyb.C42_outcome",
    "CTHyb.C42_no_silent_success",
    "CTHyb.C42_none_thermalized_partial",
    "CTHyb.C42_hang_violated",
    "CTHyb.C42_exit_code_violated"
   ],
   "note": "Complete description of all final states. The property holds if no rank is thermalized; if some are and some are not the thermalized ranks hang in collect_results (violation proved), and the exit code of the program is 0 even if solve returns 1 (violation proved)."
  },
  {
   "property": "C43",
   "status": "proved",
   "theorems": [
    "CTHyb.C43_sum_rule",
    "CTHyb.C43_array",
    "CTHyb.C43_computeG1",
    "CTHyb.C43_odd",
    "CTHyb.C43_computeG1_odd",
    "CTHyb.C43_unchanged",
    "CTHyb.C43_idempotent",
    "CTHyb.C43_smallest",
    "CTHyb.C43_gtau",
    "CTHyb.C43_gtau_ends",
    "CTHyb.C43_first_moment_is_tail",
    "CTHyb.C43_tail"
   ],
   "note": "The first moment is specified as -(G(0)+G(beta)) of the function with the given Legendre coefficients, and is shown to be the limit of i omega_n times the Fourier transform at the fermionic frequencies. For every list of coefficients with at least one element, every flavour pair, every scale factor and rotation matrix the corrected object satisfies the rule; odd coefficients unchanged; fixed if already satisfied; idempotent; the change is the least-squares projection."
  },
  {
   "property": "C44",
   "status": "proved",
   "theorems": [
    "CTHyb.C44_g1",
    "CTHyb.C44_g2",
    "CTHyb.C44_equal_time_g1",
    "CTHyb.C44_equal_time_g2",
    "CTHyb.C44_g1_inverse",
    "CTHyb.C44_g2_inverse",
    "CTHyb.C44_product",
    "CTHyb.C44_equal_time",
    "CTHyb.C44_hamiltonian",
    "CTHyb.C44_ham_matrix",
    "CTHyb.C44_ham_matrix_list",
    "CTHyb.C44_hopping_overwrite",
    "CTHyb.C44_read_delta",
    "CTHyb.C44_car",
    "CTHyb.C44_hybridization",
    "CTHyb.C44_bath_term",
    "CTHyb.C44_read",
    "CTHyb.C44_read_unitary",
    "CTHyb.C44_read_invertible",
    "CTHyb.C44_read_accepts",
    "CTHyb.C44_zero_column_violated"
   ],
   "note": "Specified through the change of basis of the operators in an arbitrary algebra and arbitrary multilinear functionals. Also: Hamiltonian, bath term and hybridization function in the new basis; what the test of the input guarantees. Finding outside the statement: a zero column is not rejected (C44_zero_column_violated)."
  },
  {
   "property": "C45",
   "status": "partial",
   "theorems": [
    "CTHyb.C45_ring",
    "CTHyb.C45_div",
    "CTHyb.C45_div_real",
    "CTHyb.C45_mixed",
    "CTHyb.C45_complex",
    "CTHyb.C45_eq_partial",
    "CTHyb.C45_eq_violated"
   ],
   "note": "Field operations proved for all values. operator== compares z.imag() with itself, so values which differ in the imaginary part only are equal for it (violation proved); there is no operator!= in the file."
  },
  {
   "property": "C46",
   "status": "proved",
   "theorems": [
    "CTHyb.C46_merge_diff",
    "CTHyb.C46_no_common",
    "CTHyb.C46_net_effect"
   ],
   "note": ""
  },
  {
   "property": "C47",
   "status": "partial",
   "theorems": [
    "CTHyb.C47_view_partial",
    "CTHyb.C47_empty_first",
    "CTHyb.C47_empty_first_missed",
    "CTHyb.C47_duplicates",
    "CTHyb.C47_postincrement"
   ],
   "note": "Holds for a non-empty first set and pre-increment; counterexamples proved for an empty first set and for post-increment."
  },
  {
   "property": "C48",
   "status": "proved",
   "theorems": [
    "CTHyb.C48_index_interval",
    "CTHyb.C48_pickup_distinct",
    "CTHyb.C48_stream_indices",
    "CTHyb.C48_pickup_too_many",
    "CTHyb.C48_shuffle_uniform",
    "CTHyb.C48_front_unique",
    "CTHyb.C48_front_indices",
    "CTHyb.C48_pick_one_box",
    "CTHyb.C48_pickup_box",
    "CTHyb.C48_pick_up_operators"
   ],
   "note": "random_shuffle is modelled as in libstdc++. Distinctness holds for n <= N; for n > N resize appends zeros (C48_pickup_too_many). Uniformity is stated as the number of index streams, together with the equal length of the intervals of random numbers of each index (C48_index_interval)."
  },
  {
   "property": "C49",
   "status": "proved",
   "theorems": [
    "CTHyb.C49_set_time",
    "CTHyb.C49_set_flavor",
    "CTHyb.C49_range",
    "CTHyb.C49_equal",
    "CTHyb.C49_in_range",
    "CTHyb.C49_diagonal",
    "CTHyb.C49_operators",
    "CTHyb.C49_distinct",
    "CTHyb.C49_order",
    "CTHyb.C49_exchange",
    "CTHyb.C49_shift"
   ],
   "note": "All three worm kinds."
  },
  {
   "property": "C50",
   "status": "partial",
   "theorems": [
    "CTHyb.C50_members",
    "CTHyb.C50_inverse_closed",
    "CTHyb.C50_exchange_undone",
    "CTHyb.C50_spin_flip",
    "CTHyb.C50_involution",
    "CTHyb.C50_sweep_involutions",
    "CTHyb.C50_random_choice",
    "CTHyb.C50_sweep_not_stationary",
    "CTHyb.C50_bad_token",
    "CTHyb.C54_global_update"
   ],
   "note": "The list is closed under inversion, but the updates are executed one after another instead of being drawn at random: for a permutation that is not an involution the sweep does not leave the weight invariant (C50_sweep_not_stationary). It does for involutions, which covers the predefined spin flip. That a rejected update restores the configuration is part of C54_global_update."
  },
  {
   "property": "C51",
   "status": "partial",
   "theorems": [
    "CTHyb.C51_between_partial",
    "CTHyb.C51_value",
    "CTHyb.C51_not_rejected",
    "CTHyb.C51_positive",
    "CTHyb.C51_history"
   ],
   "note": "The constructor compares sliding_window.max with itself, so inconsistent limits are not rejected (C51_not_rejected)."
  },
  {
   "property": "C52",
   "status": "partial",
   "theorems": [
    "CTHyb.C52_complex",
    "CTHyb.C52_real_wrong"
   ],
   "note": "Complex data are written as real and imaginary part; for real data the imaginary part is empty instead of zeros (C52_real_wrong)."
  },
  {
   "property": "C53",
   "status": "proved",
   "theorems": [
    "CTHyb.C53_add_sample",
    "CTHyb.C53_cutoff_bounds",
    "CTHyb.C53_optimizer",
    "CTHyb.C53_history"
   ],
   "note": "Step sizes may exceed max_val by the factor 4/3 mag but not more."
  },
  {
   "property": "C54",
   "status": "partial",
   "theorems": [
    "CTHyb.C54_global_update",
    "CTHyb.C54_det_ratio",
    "CTHyb.C54_singular_accepted"
   ],
   "note": "Proved for every configuration under the condition that no LU factor of the new matrix is below 1e-30 of the largest one (NoSmallFactor). Without it the code violates the property: C54_singular_accepted shows a singular new matrix whose ratio is computed as non-zero, because negligible factors are left out of the product. The LU decomposition and the trace evaluation with cutoff 0 are assumed exact."
  },
  {
   "property": "C55",
   "status": "partial",
   "theorems": [
    "CTHyb.C55_onsite_partial",
    "CTHyb.C55_onsite_violated"
   ],
   "note": "Violated: the branch writes one element per site with the factor 1/2, so that the Hamiltonian is that of U/2; proved for every number of sites and every U not 0. The partial theorem gives the Hamiltonian exactly."
  },
  {
   "property": "C56",
   "status": "proved",
   "theorems": [
    "CTHyb.C56_fourier",
    "CTHyb.C56_tail"
   ],
   "note": "boost::math::sph_bessel is specified by its integral representation (a function satisfying it exists: exists_sphBessel)."
  },
  {
   "property": "C57",
   "status": "proved",
   "theorems": [
    "CTHyb.C57_lawful",
    "CTHyb.C57_trace",
    "CTHyb.C57_exact",
    "CTHyb.C57_window",
    "CTHyb.C57_exp",
    "CTHyb.C57_base"
   ],
   "note": "Exact arithmetic (real energies, RCLike matrices); the eigensolver is a parameter assumed to return an orthonormal eigenbasis (one exists: exactSolve_ok). That creation and annihilation operators map sectors to sectors is a hypothesis of the structure Lawful, because C31 shows the partition of the code need not have it. The thresholds that set small matrix elements to zero are dropped."
  },
  {
   "property": "C58",
   "status": "proved",
   "theorems": [
    "CTHyb.C58_hybridization",
    "CTHyb.C58_signed_det",
    "CTHyb.C58_trace",
    "CTHyb.C58_full_trace",
    "CTHyb.C58_flag",
    "CTHyb.C58_weight",
    "CTHyb.C58_always_accepted",
    "CTHyb.C58_truncated"
   ],
   "note": "In exact arithmetic.  C58_always_accepted assumes that no LU factor is dropped as negligible (C54) and that no shifted operator lies beyond (beta,0), i.e. t+shift=beta only with small time 0.  The eigensolver is assumed exact (C57)."
  },
  {
   "property": "C59",
   "status": "partial",
   "theorems": [
    "CTHyb.C59_spectral_norm",
    "CTHyb.C59_operators",
    "CTHyb.C59_bound",
    "CTHyb.C59_sum",
    "CTHyb.C59_decision",
    "CTHyb.C59_relative",
    "CTHyb.C59_update",
    "CTHyb.C59_cutoff_drops",
    "CTHyb.C59_cutoff_case"
   ],
   "note": "In exact arithmetic, with an exact eigensolver.  The bounds hold in every reachable state of the window except where compute_exp cuts off (CutoffFree excludes this); C59_cutoff_drops and C59_cutoff_case show that the cutoff makes a bound zero although the contribution is not, so that the bound as stated fails there; the contribution lost is then at most exp(lim)*dim (C59_bound).  The relative cutoffs 1E-15 of spectral_norm_diag and 1E-100 of the cached norms are not modelled."
  },
  {
   "property": "C60",
   "status": "proved",
   "theorems": [
    "CTHyb.C60_simulation",
    "CTHyb.C60_start",
    "CTHyb.C60_run",
    "CTHyb.C60_sweep",
    "CTHyb.C60_positions",
    "CTHyb.C60_global",
    "CTHyb.C60_init",
    "CTHyb.C60_lawful",
    "CTHyb.C60_accept",
    "CTHyb.C60_duplicate",
    "CTHyb.C60_factors",
    "CTHyb.C60_partition_function",
    "CTHyb.C60_range_check_edge"
   ],
   "note": "In exact arithmetic, with exact eigensolver and LU factors, positive nMin and without the cutoff of compute_exp (C59).  What a call has to satisfy is stated as LocalCall.OK / GlobalCall.OK: random number >= 0, operators to be removed are present, new flavors are valid, changed operators lie in the window, factor of the proposal positive; for global updates: distinct new times in [0,beta], no LU factor dropped as negligible (C54).  C60_range_check_edge: range_check ignores the small part of times, so an operator exactly at the edge of the window passes although it is outside; LocalCall.OK excludes this."
  },
  {
   "property": "C61",
   "status": "partial",
   "theorems": [
    "CTHyb.C61_update",
    "CTHyb.C61_transition",
    "CTHyb.C61_detailed_balance",
    "CTHyb.C61_order",
    "CTHyb.C61_run",
    "CTHyb.C61_stationary",
    "CTHyb.C61_reprs",
    "CTHyb.C61_states",
    "CTHyb.C61_worm_times",
    "CTHyb.C61_moves_partial",
    "CTHyb.C61_sweeps_partial",
    "CTHyb.C61_global_update",
    "CTHyb.C61_global_balance",
    "CTHyb.C61_sim_run",
    "CTHyb.C61_sim_stationary",
    "CTHyb.C61_loop_partial",
    "CTHyb.C61_sweep_tour",
    "CTHyb.C61_sweep_one",
    "CTHyb.C61_calls_per_position"
   ],
   "note": "Proved for the states of the code as in C60, with times on a grid of M points in the middle of its intervals (2*n divides M for every number n of windows), random numbers of the proposals exact and that of the acceptance uniform in [0,1), fixed weights of the worm spaces, equal maximum distances of shifts within a block.  Finitely many configurations, each with a state satisfying all invariants (C61_reprs, C61_states).  Missing: WormMover of worms with more than one time (detailed balance violated, C10_mover_violated); in global updates, exchanges which are not their own inverse (C50_sweep_not_stationary) and transformed configurations with a negligible factor of the determinant (C54_singular_accepted; none arise if the bath has the symmetry of the update: shiftOK_of_antiPer, swapOK_of_sym).  Shifts of a global update are multiples of the grid spacing; diagonal insertion/removal is included with one pair only (C07_violated), the driver does not call it."
  },
  {
   "property": "C62",
   "status": "partial",
   "theorems": [
    "CTHyb.C62_static_partial",
    "CTHyb.C62_density_partial",
    "CTHyb.C62_coincidence_violated"
   ],
   "note": "Proved for configurations without an operator exactly at beta/2; such an operator is lost by the code (C62_coincidence_violated)."
  },
  {
   "property": "C63",
   "status": "proved",
   "theorems": [
    "CTHyb.C63_measure",
    "CTHyb.C63_result",
    "CTHyb.C63_partition"
   ],
   "note": "States of the simulation as in C60; exact arithmetic; the array has the type of the scalar (complex in the code)."
  },
  {
   "property": "C64",
   "status": "partial",
   "theorems": [
    "CTHyb.C64_times",
    "CTHyb.C64_measure",
    "CTHyb.C64_mean_partial",
    "CTHyb.C64_mean_factor",
    "CTHyb.C64_cutoff_violated"
   ],
   "note": "States of the simulation as in C60; exact arithmetic.  The mean is proved for the estimator without the cutoff 1e-30, with the present configuration distributed with its weight; with the cutoff the estimator is biased (C64_cutoff_violated).  No drawn time may be an edge of the windows."
  },
  {
   "property": "C65",
   "status": "partial",
   "theorems": [
    "CTHyb.C65_sample_partial",
    "CTHyb.C65_sum_partial",
    "CTHyb.C65_reweighted_partial",
    "CTHyb.C65_early_violated",
    "CTHyb.C65_equilibrium_partial",
    "CTHyb.C65_equal_time_partial"
   ],
   "note": "Exact arithmetic.  Finite sample: every process shares the weights before its first recorded step; a process thermalized before the others divides its early steps by the wrong weights (C65_early_violated).  Equilibrium: under the conditions of C61_loop_partial; expectation values of numerator and denominator, not of the quotient."
  },
  {
   "property": "C66",
   "status": "partial",
   "theorems": [
    "CTHyb.C66_g1_equilibrium_partial",
    "CTHyb.C66_legendre_partial",
    "CTHyb.C66_g2_equilibrium_partial",
    "CTHyb.C66_g2_legendre_partial",
    "CTHyb.C66_cutoff"
   ],
   "note": "Exact arithmetic, grid of times, conditions of C61_loop_partial; expectation values of numerator and denominator.  In every state the intermediate weight must not vanish and the elements below the cutoff must be zero (the code drops them, and counts steps without weight)."
  },
  {
   "property": "C67",
   "status": "partial",
   "theorems": [
    "CTHyb.C67_density_partial",
    "CTHyb.C67_removal_partial",
    "CTHyb.C67_fidelity_values",
    "CTHyb.C67_fidelity_partial",
    "CTHyb.C67_fidelity_violated"
   ],
   "note": "Conditions of C61_loop_partial (exact arithmetic, grid of times, equilibrium); expectation values.  The fidelity susceptibility of the code is not divided by the mean sign: right if all signs are 1, wrong otherwise (C67_fidelity_violated)."
  },
  {
   "property": "C68",
   "status": "partial",
   "theorems": [
    "CTHyb.C68_counts",
    "CTHyb.C68_histogram_partial",
    "CTHyb.C68_histogram_violated",
    "CTHyb.C68_mean_orders"
   ],
   "note": "The histogram has an additional factor 1/FLAVORS (C68_histogram_violated)."
  },
  {
   "property": "C69",
   "status": "partial",
   "theorems": [
    "CTHyb.C69_last",
    "CTHyb.C69_undefined_iff",
    "CTHyb.C69_max_partial",
    "CTHyb.C69_no_false_alarm_partial",
    "CTHyb.C69_intended",
    "CTHyb.C69_validate_violated",
    "CTHyb.C69_accepts_wrong_violated"
   ],
   "note": "The code violates the property: maxAbsCoeff returns the modulus of the last stored coefficient (C69_last), an indeterminate value if nothing is stored (C69_undefined_iff); validate uses such a value for the operators of the code (C69_validate_violated) and accepts operators whose square is not zero (C69_accepts_wrong_violated).  The operators themselves satisfy the intended test (C69_intended)."
  },
  {
   "property": "C70",
   "status": "partial",
   "theorems": [
    "CTHyb.C70_u_file",
    "CTHyb.C70_u_cmd",
    "CTHyb.C70_u_cmd_accepts",
    "CTHyb.C70_hop_file",
    "CTHyb.C70_hop_file_accepts",
    "CTHyb.C70_hop_cmd",
    "CTHyb.C70_rot_file",
    "CTHyb.C70_hamiltonian_cmd",
    "CTHyb.C70_hamiltonian_file",
    "CTHyb.C70_hermitian_partial",
    "CTHyb.C70_hermitian_violated",
    "CTHyb.C70_u_truncated_violated",
    "CTHyb.C70_hop_truncated_violated",
    "CTHyb.C70_real_violated"
   ],
   "note": "Format, index arithmetic and Hamiltonian hold for all inputs.  Violated: a truncated file is not reported (variables without value are used), a Coulomb tensor which is not Hermitian is accepted, and the real solver drops imaginary parts without a message.  C70_hermitian_partial assumes a Hermitian tensor."
  },
  {
   "property": "C71",
   "status": "partial",
   "theorems": [
    "CTHyb.C71_reader",
    "CTHyb.C71_truncated_violated",
    "CTHyb.C71_value_partial",
    "CTHyb.C71_mean_partial"
   ],
   "note": "Operators exactly at a mesh point are excluded (they are counted twice or lost, C26_coincidence_wrong); the mean has the conditions of C61_loop_partial; a truncated file is not reported (C71_truncated_violated)."
  },
  {
   "property": "C72",
   "status": "proved",
   "theorems": [
    "CTHyb.C72_tables",
    "CTHyb.C72_position",
    "CTHyb.C72_history",
    "CTHyb.C72_weights",
    "CTHyb.C72_volume",
    "CTHyb.C72_refines",
    "CTHyb.C72_args"
   ],
   "note": "The assertions on the spaces hold for the histories of the code: C60 and C61 keep the worm among those in use.  C72_args also shows that the movers called always include that of G1 with two times, which C61 leaves out (see C10)."
  },
  {
   "property": "C73",
   "status": "partial",
   "theorems": [
    "CTHyb.C73_created",
    "CTHyb.C73_run",
    "CTHyb.C73_conditional",
    "CTHyb.C73_read",
    "CTHyb.C73_nodata_violated",
    "CTHyb.C73_corr_violated"
   ],
   "note": "The last sentence of the property is false for the code: C73_read gives the exact condition; a run in which every space was visited can have no data for G1 (groups of max_num_data_accumulated), and with nn_corr.n_def not 0 and an empty file name the correlation functions are read but never recorded."
  },
  {
   "property": "C74",
   "status": "partial",
   "theorems": [
    "CTHyb.C74_windows",
    "CTHyb.C74_steps",
    "CTHyb.C74_frozen",
    "CTHyb.C74_run",
    "CTHyb.C74_total",
    "CTHyb.C74_rate",
    "CTHyb.C74_rate_violated",
    "CTHyb.C74_shared_violated"
   ],
   "note": "All parts hold for the first simulation of a process. Two violations are proved: the list of expansion orders is a static variable, so that the number of windows of a second simulation in the same process depends on the first one; and the counters are not cleared in prepare_for_measurement, so that the printed rates include the thermalization."
  },
  {
   "property": "C75",
   "status": "proved",
   "theorems": [
    "CTHyb.C75_ratio",
    "CTHyb.C75_inverse",
    "CTHyb.C75_agree",
    "CTHyb.C75_order_violated"
   ],
   "note": "Exact arithmetic over a field. Positions outside the matrix and M = 0 are excluded by the types. C75_order_violated is the proved statement that the order of the lists matters."
  },
  {
   "property": "C76",
   "status": "partial",
   "theorems": [
    "CTHyb.C76_last",
    "CTHyb.C76_passes_iff",
    "CTHyb.C76_no_alarm",
    "CTHyb.C76_repair",
    "CTHyb.C76_determinant_violated",
    "CTHyb.C76_operators_violated"
   ],
   "note": "Proved for the check of the code in exact arithmetic with the determinant matrix of C18, the sliding window and the trace: what passes (C76_passes_iff, intact determinant matrix), no false alarm (C76_no_alarm), damage of the stored matrices is reported or repaired (C76_repair). Partial because the code compares only the largest factor of the determinant (C76_last, C76_determinant_violated) and collects the operators in a set (C76_operators_violated)."
  },
  {
   "property": "C77",
   "status": "partial",
   "theorems": [
    "CTHyb.C77_insertion_removal_balance_partial",
    "CTHyb.C77_reversible_partial",
    "CTHyb.C77_step_reversible_partial",
    "CTHyb.C77_stationary_partial",
    "CTHyb.C77_margin_violated"
   ],
   "note": "The theorems hold for margin 0 of open_random. For the margin of the code detailed balance is violated: C77_margin_violated, for every window and every 0 < eps < 1. The times are real numbers and the draws integrals over the unit interval; the weight is any nonnegative measurable function of the sets of operators. Coinciding operators have measure zero."
  },
  {
   "property": "C78",
   "status": "partial",
   "theorems": [
    "CTHyb.C78_count",
    "CTHyb.C78_pick",
    "CTHyb.C78_error",
    "CTHyb.C78_after_insert_partial",
    "CTHyb.C78_insert_pick_partial",
    "CTHyb.C78_open",
    "CTHyb.C78_open_numbers_partial",
    "CTHyb.C78_outside_violated",
    "CTHyb.C78_open_violated",
    "CTHyb.C78_spread_violated",
    "CTHyb.C78_check_violated",
    "CTHyb.C78_check_undefined"
   ],
   "note": "count_num_pairs_after_insert is right if the new operators lie in the window (otherwise C78_outside_violated); the open window is the interval of the documentation if all small indices are 0 (otherwise C78_open_violated); compute_spread_non_periodic and check_consistency_operators do not do what they say (C78_spread_violated, C78_check_violated)."
  },
  {
   "property": "C79",
   "status": "partial",
   "theorems": [
    "CTHyb.C79_shift_balance_partial",
    "CTHyb.C79_flavor_balance",
    "CTHyb.C79_run_partial",
    "CTHyb.C79_unequal_steps_violated"
   ],
   "note": "Shift: proved if the flavors of a block have the same max_distance_ (the code's tuning gives different ones, C08_step_sizes_violated); violated otherwise for every block with two different step sizes and a window longer than the smaller one. Flavor update: proved without conditions. Runs: any list of pair updates (margin eps = 0), shifts, flavor updates; the weight vanishes if an operator occurs twice, as in the code, which rejects such moves. Worm and global updates are not in the continuous-time model."
  },
  {
   "property": "C80",
   "status": "partial",
   "theorems": [
    "CTHyb.C80_balance_partial",
    "CTHyb.C80_reversible_partial",
    "CTHyb.C80_stationary_partial"
   ],
   "note": "Margin of open_random eps = 0 (with a margin detailed balance fails at the rim of the window, C77). The acceptance test compares real numbers; the weight is an arbitrary nonnegative measurable function of the configuration. Flavor changer and one-time mover: C82."
  },
  {
   "property": "C81",
   "status": "proved",
   "theorems": [
    "CTHyb.C81_block",
    "CTHyb.C81_no_alarm",
    "CTHyb.C81_meaning",
    "CTHyb.C81_wrong_sign",
    "CTHyb.C81_blind_inverse",
    "CTHyb.C81_history",
    "CTHyb.C81_build",
    "CTHyb.C81_rebuild",
    "CTHyb.C81_init",
    "CTHyb.C81_blocks_exchanged_violated",
    "CTHyb.C81_equal_times_violated"
   ],
   "note": "Assertions on NaN are dropped, as scalars are elements of a field. try_update checks all blocks before the first is changed."
  },
  {
   "property": "C82",
   "status": "partial",
   "theorems": [
    "CTHyb.C82_step_partial",
    "CTHyb.C82_run_partial"
   ],
   "note": "The worm mover is included for worms with one time only: for more times it is biased (C10). For the special updates of the Green's functions the weight vanishes unless the bath has as many creation as annihilation operators, as the determinant requires. The exchange of flavors is a permutation which is its own inverse (for others see C50). Margin of open_random eps = 0 (C77). The weight vanishes if an operator occurs twice, as the determinant does."
  },
  {
   "property": "C83",
   "status": "partial",
   "theorems": [
    "CTHyb.C83_weight",
    "CTHyb.C83_run_partial",
    "CTHyb.C83_orders",
    "CTHyb.C83_finite",
    "CTHyb.C83_accept",
    "CTHyb.C83_insertion",
    "CTHyb.C83_removal",
    "CTHyb.C83_pair_update",
    "CTHyb.C83_states",
    "CTHyb.C83_update",
    "CTHyb.C83_code_run",
    "CTHyb.C83_code_stationary_partial",
    "CTHyb.C83_sweeps_partial",
    "CTHyb.C83_table",
    "CTHyb.C83_global_update",
    "CTHyb.C83_loop_partial",
    "CTHyb.C83_safe",
    "CTHyb.C83_safe_shift",
    "CTHyb.C83_safe_swap",
    "CTHyb.C83_table_shift"
   ],
   "note": "Global updates: no factor of the determinant may become negligible (proved for baths with the symmetry of the update if the threshold is zero; otherwise see C54_singular_accepted). Conditions as in C82 for the runs (one-time worm mover, margin of open_random eps = 0); arithmetic is exact. The window is that of the state, and times at its edges (probability zero) are excluded."
  },
  {
   "property": "C84",
   "status": "partial",
   "theorems": [
    "CTHyb.C84_loop_partial",
    "CTHyb.C84_mean_partial",
    "CTHyb.C84_bath_partial",
    "CTHyb.C84_equilibrium_partial",
    "CTHyb.C84_equal_time_partial"
   ],
   "note": "Conditions as in C83 (safe global updates, one-time worm movers, margin of open_random eps = 0, exact arithmetic); the expectation values are those of the distribution of the weight, not the limit of averages along one run."
  },
  {
   "property": "C85",
   "status": "partial",
   "theorems": [
    "CTHyb.C85_atomic_partial"
   ],
   "note": "Conditions as in C84; only the limit without hybridization, with exact arithmetic and without truncation of states."
  },
  {
   "property": "C86",
   "status": "partial",
   "theorems": [
    "CTHyb.C86_correlation_partial",
    "CTHyb.C86_atomic_partial"
   ],
   "note": "Conditions as in C84. The integral runs over the configurations with a non-zero weight, as no other is visited; only pairs of densities (the form of the operators read from the file)."
  },
  {
   "property": "C87",
   "status": "partial",
   "theorems": [
    "CTHyb.C87_density_partial",
    "CTHyb.C87_atomic_partial"
   ],
   "note": "Conditions as in C84. The integral runs over the configurations with a non-zero weight, as no other is visited."
  },
  {
   "property": "C88",
   "status": "partial",
   "theorems": [
    "CTHyb.C88_orders_partial",
    "CTHyb.C88_strength_partial"
   ],
   "note": "Conditions as in C84. For the orders the absolute weight is the density, as the code does not record the sign with them."
  },
  {
   "property": "C89",
   "status": "proved",
   "theorems": [
    "CTHyb.C89_reader",
    "CTHyb.C89_errors",
    "CTHyb.C89_truncated_violated"
   ],
   "note": "Exact set of accepted files; exceptions for the first wrong token at any position; a truncated file leads to the use of an uninitialised variable (C89_truncated_violated). The existence of the file is not modelled."
  },
  {
   "property": "C90",
   "status": "partial",
   "theorems": [
    "CTHyb.C90_removal_partial"
   ],
   "note": "Conditions as in C84; the integral runs over the configurations with a non-zero weight, as no other is visited. Differentiability of the integral is part of the conclusion."
  },
  {
   "property": "C91",
   "status": "partial",
   "theorems": [
    "CTHyb.C91_kLkR_partial",
    "CTHyb.C91_mixed_partial",
    "CTHyb.C91_fidelity_partial"
   ],
   "note": "Mean of kLkR with real times, for every value of the random number: the average of the product modulo 2^32, and the mixed derivative of the partition function less the overflows. The formula of the postprocessing, with both means divided by that of the sign and the overflows put back, gives half the mixed derivative of the logarithm of the partition function. Missing: as in C83 (mixing of the chain, floating point); the code does not divide by the mean of the sign (C67_fidelity_violated)."
  },
  {
   "property": "C92",
   "status": "partial",
   "theorems": [
    "CTHyb.C92_any_time_partial",
    "CTHyb.C92_density_partial"
   ],
   "note": "The mean over the time of the worm in C84 is its value at any fixed time, because all times may be moved round the circle; the density by insertion (C87) is the diagonal element from the worm if no configuration gets a weight only by the insertion. Missing: as in C83 (mixing of the chain, floating point); no cut-off of states."
  }
 ]
}