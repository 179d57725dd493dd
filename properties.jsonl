{"id": "C01", "title": "A rejected or failed local update leaves the configuration untouched", "statement": "After a local update that reports 'not accepted' (no valid move, operator already present at the chosen time, zero trace bound, zero determinant ratio, or a lost coin flip), the sequence of operators in the trace, the trace value, the sign, the permutation sign and the worm are exactly what they were before the call.", "quantifier": "every configuration, every proposal, every random number, every determinant and trace value", "why_tests_cant": "tests sample a few random walks; the early-exit paths (duplicate time, zero bound) are rare events in a run and each must restore exactly", "anchors": ["src/moves/moves.ipp: LocalUpdater::update, update_operators", "src/operator.hpp: revert_changes"]}
{"id": "C02", "title": "Operators in the trace are always the bath operators plus the worm operators", "statement": "After any sequence of local updates (insertions, removals, shifts, worm insertions, worm moves, exchanges of bath and worm operators), the set of operators used to compute the trace is the disjoint union of the operators held by the determinant matrix and the operators of the current worm.", "quantifier": "every initial consistent configuration and every finite sequence of proposed updates and accept/reject outcomes", "why_tests_cant": "the sanity check is compiled out in production and a test only follows one seed", "anchors": ["src/moves/moves.ipp: merge_diff, LocalUpdater::update", "src/mc_config.hpp: MonteCarloConfiguration::sanity_check"]}
{"id": "C03", "title": "Undoing recorded operator changes restores the container", "statement": "If operators are erased from and inserted into the time-ordered container through the recording functions, replaying the record backwards gives back exactly the container before the first change, also when the batch stopped in the middle because an operator was already present; erased operators must be the stored ones (looking up by time alone would otherwise restore a different operator).", "quantifier": "every container, every list of erasures and insertions, every point of failure", "why_tests_cant": "needs all failure points of all batches", "anchors": ["src/operator.hpp: safe_erase_with_record, safe_insert_with_record, revert_changes, psi::operator<"]}
{"id": "C04", "title": "The stored sign equals the sign of the full weight", "statement": "After any history of accepted and rejected local updates the stored sign is the product of the initial sign and the signs of all accepted ratios, i.e. sign(determinant) * sign(trace) * permutation sign of the present configuration whenever it was so at the start.", "quantifier": "every history of updates", "why_tests_cant": "a sign error after a rare move biases observables without any visible failure", "anchors": ["src/moves/moves.ipp: LocalUpdater::update", "src/mc_config.hpp: compute_permutation_sign_impl"]}
{"id": "C05", "title": "The permutation sign depends only on the operators, not on how they are stored", "statement": "The sign of the permutation which time-orders creation and annihilation operators is the same for every storage order of the rows and columns once the row/column permutation sign of the determinant is included, and the incremental formula (number of operators passed on insertion or removal) agrees with the sign computed from scratch.", "quantifier": "every number of operators, every set of distinct times, every storage order", "why_tests_cant": "the number of orders grows factorially", "anchors": ["src/mc_config.hpp: compute_permutation_sign_impl, num_ops_less_than, compute_permutation_sign_change", "include/alps/fastupdate/detail/util.hpp: comb_sort, permutation"]}
{"id": "C06", "title": "Insertion/removal of operator pairs satisfies detailed balance for every rank", "statement": "For the multi-pair insertion/removal update the factor used when inserting k pairs is the exact inverse of the factor used when removing the same pairs from the resulting configuration, and equals the ratio of the reverse to the forward proposal probability density, for any distribution of flavors over blocks.", "quantifier": "every rank k, window length, number of flavors per block, number of operators in the window per block", "why_tests_cant": "statistical tests cannot distinguish a factor error in a rarely accepted high-rank move", "anchors": ["src/moves/moves.ipp: InsertionRemovalUpdater::propose", "src/operator_util.ipp: pick_up_operators"]}
{"id": "C07", "title": "Diagonal insertion/removal of operator pairs satisfies detailed balance", "statement": "For the update which inserts k pairs with equal flavor and time-ordering restriction, the acceptance factor equals the ratio of reverse to forward proposal densities.", "quantifier": "every rank and every number of operators", "why_tests_cant": "see C06", "anchors": ["src/moves/moves.ipp: InsertionRemovalDiagonalUpdater::propose"]}
{"id": "C08", "title": "Shifting one operator satisfies detailed balance", "statement": "The update which moves one bath operator in time and possibly changes its flavor inside its block is proposed with the same density in both directions, so that the acceptance factor 1 is right, for all step sizes the self-tuning may have produced.", "quantifier": "every pair of configurations connected by a shift, every table of step sizes", "why_tests_cant": "asymmetry only biases averages", "anchors": ["src/moves/moves.ipp: SingleOperatorShiftUpdater::propose, update_parameters, gen_new_flavor", "src/update_histogram.hpp: StepSizeOptimizer::update_cutoff"]}
{"id": "C09", "title": "Worm insertion and removal satisfy detailed balance", "statement": "For each channel (operators added to the trace; operators converted from bath operators) the factor for inserting a worm is the exact inverse of the factor for removing it from the resulting configuration and equals the ratio of proposal densities times the worm-space weight, including the probability with which the worm type is selected.", "quantifier": "every worm type, number of independent times and flavors, window, number of bath operators, worm-space weight and number of worm types", "why_tests_cant": "a wrong constant gives a wrong normalisation of every worm observable without any failing run", "anchors": ["src/moves/moves.ipp: WormInsertionRemover::propose_by_trace_impl, propose_by_trace_hyb_impl, GWormInsertionRemover::propose", "src/impurity_init.ipp: create_worm_updaters", "src/impurity.ipp: transition_between_config_spaces"]}
{"id": "C10", "title": "Moving a worm satisfies detailed balance", "statement": "The update that displaces the operators of a worm is proposed with the same density in both directions.", "quantifier": "every worm type, every pair of worm configurations, every window", "why_tests_cant": "only biases averages", "anchors": ["src/moves/moves.ipp: WormMover::propose"]}
{"id": "C11", "title": "Transitions between equal-time G1 and two-time G2 worm spaces satisfy detailed balance", "statement": "The factors for connecting the two worm spaces are inverse to one another and match the proposal densities.", "quantifier": "every configuration of both spaces", "why_tests_cant": "only biases averages", "anchors": ["src/moves/moves.ipp: EqualTimeG1_TwoTimeG2_Connector::propose"]}
{"id": "C12", "title": "Metropolis step: detailed balance with respect to the absolute weight", "statement": "With acceptance decided by r < |ratio * correction| for r uniform in [0,1), the acceptance probability is min(1, .), and weight times proposal times acceptance is symmetric between any two configurations whenever the correction is the ratio of proposal densities; a finite Markov chain built this way leaves the absolute weight invariant.", "quantifier": "every finite configuration space, every weight, every proposal matrix", "why_tests_cant": "stationarity is a statement about the whole chain", "anchors": ["src/moves/moves.ipp: LocalUpdater::update"]}
{"id": "C13", "title": "Adding operators: returned ratio and updated inverse are exact", "statement": "try_update for a pure insertion returns det(new)/det(old) of the matrix of hybridization functions between annihilation (rows) and creation (columns) operators in time order, and after perform_update the stored matrix is the exact inverse of the new matrix.", "quantifier": "every matrix size, every number of added pairs, every invertible old matrix, every Green's function", "why_tests_cant": "tests use a few random matrices", "anchors": ["include/alps/fastupdate/detail/fastupdate_formula.ipp: compute_det_ratio_up, compute_inverse_matrix_up", "include/alps/fastupdate/detail/determinant_matrix_add.ipp"]}
{"id": "C14", "title": "Removing operators: returned ratio and updated inverse are exact", "statement": "try_update for a pure removal returns det(new)/det(old), and after perform_update the stored matrix is the exact inverse of the matrix with the chosen rows and columns removed; operators and matrix positions stay aligned.", "quantifier": "every matrix size, every choice and order of removed pairs", "why_tests_cant": "tests use a few random matrices", "anchors": ["include/alps/fastupdate/detail/fastupdate_formula.ipp: compute_det_ratio_down, compute_inverse_matrix_down", "include/alps/fastupdate/detail/determinant_matrix_remove.ipp"]}
{"id": "C15", "title": "Replacing one operator: returned ratio and updated inverse are exact", "statement": "try_update replacing a single creation or annihilation operator by another returns det(new)/det(old) including the time-order sign, and after perform_update the stored inverse is exact, also when an intermediate block is singular.", "quantifier": "every matrix size, every replaced position, every new time and flavor", "why_tests_cant": "singular intermediate blocks are measure-zero in random tests", "anchors": ["include/alps/fastupdate/detail/fastupdate_formula.ipp: compute_det_ratio_replace_row_col / ReplaceHelper", "include/alps/fastupdate/detail/determinant_matrix_replace.ipp"]}
{"id": "C16", "title": "Try/perform/reject protocol of the determinant matrix preserves consistency", "statement": "After any sequence of try_update followed by perform_update or reject_update, the operator vectors, the time-ordered sets and the time-to-position maps describe the same operators, reject_update gives back the operators, matrix, sign and determinant from before try_update, and after perform_update they are the requested ones.", "quantifier": "every finite history of updates with arbitrary operator arguments", "why_tests_cant": "histories are unbounded", "anchors": ["include/alps/fastupdate/determinant_matrix.hpp: DeterminantMatrix", "include/alps/fastupdate/detail/determinant_matrix.ipp: try_update, perform_update, reject_update"]}
{"id": "C17", "title": "Rejecting an impossible determinant update never changes the operators", "statement": "If try_update returns 0 because the requested operators cannot be added or removed (duplicate times, missing operators), reject_update leaves the object in the state before try_update.", "quantifier": "every state reachable by earlier updates, every impossible request", "why_tests_cant": "requires the combination of a stale work area and a rare request", "anchors": ["include/alps/fastupdate/detail/determinant_matrix_remove.ipp: try_remove, reject_remove", "include/alps/fastupdate/detail/determinant_matrix_remove_add.ipp", "include/alps/fastupdate/detail/determinant_matrix.ipp: try_update"]}
{"id": "C18", "title": "Block-wise determinant equals the determinant of the full matrix", "statement": "The determinant ratio returned by the partitioned determinant matrix (product of block ratios times a permutation sign) equals the ratio of determinants of the full matrix in which elements between different flavor blocks vanish.", "quantifier": "every partition of flavors into blocks, every set of operators", "why_tests_cant": "combinatorial", "anchors": ["include/alps/fastupdate/determinant_matrix_partitioned.hpp", "include/alps/fastupdate/detail/determinant_matrix_partitioned.ipp"]}
{"id": "C19", "title": "Clustering returns the connected components", "statement": "After any sequence of connect calls two vertices get the same label exactly if they are connected through the sequence of connections; labels are contiguous from 0 and the member lists partition the vertices.", "quantifier": "every number of vertices and every sequence of connections", "why_tests_cant": "unbounded sequences", "anchors": ["include/alps/fastupdate/detail/clustering.hpp", "src/model/clustering.hpp, src/model/clustering.cpp"]}
{"id": "C20", "title": "Comb sort sorts and reports the permutation parity", "statement": "The sorting routine used for the permutation sign terminates, returns a sorted permutation of its input, and its return value is even exactly when the permutation it applied is even.", "quantifier": "every input sequence", "why_tests_cant": "termination and parity for all lengths", "anchors": ["include/alps/fastupdate/detail/util.hpp: comb_sort, permutation"]}
{"id": "C21", "title": "Conservative resizing of the matrix keeps its contents", "statement": "After any sequence of resize, conservative_resize, element writes and row/column swaps, reading an element inside the retained region returns the last value written; growth reallocates without loss.", "quantifier": "every sequence of operations", "why_tests_cant": "unbounded sequences, hidden capacity", "anchors": ["include/alps/fastupdate/resizable_matrix.hpp"]}
{"id": "C22", "title": "The trace does not depend on the position of the sliding window", "statement": "The trace evaluated with cached left and right states equals the trace of the full time-ordered product, whatever sequence of window moves preceded, provided operators were changed only inside the window in force at the time.", "quantifier": "every operator set, every sequence of window moves interleaved with operator changes inside the window, every number of windows", "why_tests_cant": "unbounded histories; stale caches only show for particular interleavings", "anchors": ["src/sliding_window/sliding_window.hpp", "src/sliding_window/sliding_window.ipp: move_*_edge*, compute_trace"]}
{"id": "C23", "title": "Saving and restoring the sliding window", "statement": "Restoring a saved window state gives back number of windows and both edge positions from any intermediate state, and the subsequent sweep visits the same window positions as without the interruption.", "quantifier": "every reachable window state, every intermediate use", "why_tests_cant": "unbounded histories", "anchors": ["src/sliding_window/sliding_window.ipp: restore_state, set_window_size, move_window_to_next_position"]}
{"id": "C24", "title": "A sweep visits every window position and never leaves the interval", "statement": "Stepping the window keeps 0 <= right < left <= 2n with the window width fixed, reverses at the two ends, and 2(2n-2) steps return to the start after having visited every position; no step hits the out-of-range error.", "quantifier": "every number of windows n >= 1, every number of steps", "why_tests_cant": "unbounded", "anchors": ["src/sliding_window/sliding_window.ipp: move_window_to_next_position, move_window_to, move_backward_edge"]}
{"id": "C25", "title": "Lazy trace evaluation decides acceptance as the exact trace would", "statement": "If each per-outer-state bound is a true upper bound then the early 'reject' of the lazy evaluation is always right, and the returned trace differs from the exact one by at most the sum of the neglected bounds, so a decision differing from the exact one needs the exact trace within that distance of the threshold.", "quantifier": "every list of outer states, every cutoff, every set of valid bounds", "why_tests_cant": "the decision is a function of real numbers", "anchors": ["src/sliding_window/sliding_window.ipp: lazy_eval_trace, compute_trace_bound"]}
{"id": "C26", "title": "Density-density correlation: each operator acts exactly once", "statement": "In the two-time correlation measurement every hybridization operator is applied once on the bra or ket side for each imaginary-time point, also if an operator sits exactly on a mesh point.", "quantifier": "every operator set and every mesh", "why_tests_cant": "coincidence of times has measure zero in random runs", "anchors": ["src/sliding_window/meas_correlation.ipp: MeasCorrelation::perform", "src/operator.hpp: EqualTimeOperator operator<"]}
{"id": "C27", "title": "Wang-Landau weights: reweighting ratios are consistent", "statement": "The weight ratio between two perturbation orders times that of the reverse move is 1 when neither is clipped, ratios compose, ratios to orders above the maximum are 0, and rescaling the histogram does not change any ratio.", "quantifier": "every histogram state reachable by any sequence of measurements and updates", "why_tests_cant": "all pairs of orders, all histories", "anchors": ["src/wang_landau.hpp: FlatHistogram::weight_ratio, measure, rescale_f"]}
{"id": "C28", "title": "Wang-Landau learning terminates and then stays frozen", "statement": "The modification factor never increases, never drops below its minimum, reaches the convergence threshold after finitely many refinements, and after learning is finished no measurement changes the weights.", "quantifier": "every sequence of measurements", "why_tests_cant": "unbounded", "anchors": ["src/wang_landau.hpp: update_lambda, converged, finish_learning, measure"]}
{"id": "C29", "title": "After synchronisation all MPI ranks hold the same weights", "statement": "Synchronising replaces the weights on all ranks by their average, after which all ranks agree and weight ratios are the geometric means of the former ones.", "quantifier": "every number of ranks and every rank-local state", "why_tests_cant": "number of ranks is unbounded", "anchors": ["src/wang_landau.hpp: synchronize, finish_learning"]}
{"id": "C30", "title": "Canonical anticommutation relations of the operator matrices", "statement": "For every number of flavors n and all flavors i, j the matrices of creation and annihilation operators satisfy {c_i, c_j} = 0, {c_i, c+_j} = delta_ij, and the number operator is diagonal with entries 0 and 1.", "quantifier": "every number of flavors", "why_tests_cant": "the matrices have size 2^n; a test can only do small n", "anchors": ["src/model/hybfermion.hpp: create_creation_ops"]}
{"id": "C31", "title": "Sector decomposition is consistent", "statement": "States connected by the Hamiltonian are in the same sector, and every creation or annihilation operator maps a sector into a single sector (or to zero), so that blockwise application of an operator equals full application.", "quantifier": "every Hermitian Hamiltonian and every number of flavors", "why_tests_cant": "the set of Hamiltonians is infinite", "anchors": ["src/model/model.ipp: hilbert_space_partioning, merge_according_to_c_or_cdag, split_op_into_sectors"]}
{"id": "C32", "title": "Reading the hybridization function", "statement": "The internal function satisfies F_ij(tau) = -Delta_ji(beta - tau) on every mesh point, for both ways of passing the input, and malformed input (wrong indices) is reported as an error rather than read.", "quantifier": "every number of flavors and mesh size, every input", "why_tests_cant": "all indices for all sizes", "anchors": ["src/model/model.ipp: read_hybridization_function"]}
{"id": "C33", "title": "Evaluation of the hybridization function between operators", "statement": "For operator times in [0, beta] the value is the linear interpolation of the two neighbouring mesh values, reproduces mesh values exactly, is antiperiodic in beta, and never reads outside the table.", "quantifier": "every pair of times, every mesh", "why_tests_cant": "boundary cases have measure zero", "anchors": ["src/mc_config.hpp: HybridizationFunction::operator()"]}
{"id": "C34", "title": "Wrapping of imaginary times", "statement": "Wrapping a time into [0, beta) returns a value in that interval which differs from the input by an integer multiple of beta; a global shift of all operators is undone by the opposite shift and maps distinct times to distinct times.", "quantifier": "every real time and shift", "why_tests_cant": "boundary cases", "anchors": ["src/util.cpp: mymod", "src/moves/moves.hpp: OperatorShift"]}
{"id": "C35", "title": "Legendre polynomials by recurrence", "statement": "The values returned for order l at x equal the Legendre polynomial P_l(x) with P_l(1)=1, P_l(-x)=(-1)^l P_l(x), for each l below the requested number.", "quantifier": "every l and every x", "why_tests_cant": "all orders", "anchors": ["src/legendre.cpp: compute_legendre"]}
{"id": "C36", "title": "Single-particle worm estimator via the hybridization matrix is an exact determinant ratio", "statement": "The coefficient assigned to replacing the worm pair by a bath pair equals the ratio of the determinants with those rows/columns exchanged, computed from 2x2 minors of the inverse; the estimator is normalised so that the absolute weights sum to one.", "quantifier": "every matrix size and every choice of row and column", "why_tests_cant": "matrices of all sizes", "anchors": ["src/measurement/measurement.ipp: GMeasurement::measure_via_hyb, MeasureGHelper<1>::perform, MeasureGHelper<2>::perform"]}
{"id": "C37", "title": "k_L k_R counting estimator", "statement": "The fidelity-susceptibility estimator counts each operator in exactly one half; its value is k_L*(k-k_L), between 0 and k^2/4, and does not depend on which half is called left.", "quantifier": "every operator set and every start of the window", "why_tests_cant": "all sets", "anchors": ["src/measurement/measurement.hpp: measure_kLkR, Window"]}
{"id": "C38", "title": "Acceptance statistics are consistent", "statement": "After any history accepted <= valid <= attempted for each update, each attempted update is counted once, and the published acceptance rate lies in [0,1].", "quantifier": "every history of updates and resets", "why_tests_cant": "unbounded", "anchors": ["src/moves/moves.ipp: LocalUpdater::finalize_update", "src/measurement/measurement.hpp: AcceptanceRateMeasurement"]}
{"id": "C39", "title": "Rebinning histograms conserves the counts", "statement": "Merging bins conserves the sum of all counts (up to an incomplete last group) and each new bin is the sum of its old bins.", "quantifier": "every histogram and every bin factor", "why_tests_cant": "all sizes", "anchors": ["src/update_histogram.hpp: rebin"]}
{"id": "C40", "title": "Thermalization bookkeeping", "statement": "Once the run is declared thermalized it stays so; the perturbation-order recorder keeps exactly the most recent samples up to its capacity; asking for the number of thermalization steps before thermalization is an error.", "quantifier": "every history", "why_tests_cant": "unbounded", "anchors": ["src/update_histogram.hpp: ThermalizationChecker, PertOrderRecorder"]}
{"id": "C41", "title": "MPI ranks execute matching collective operations", "statement": "For every timing of the clocks on the ranks, all ranks issue the same sequence of collective operations during the run, no rank waits for a collective the others never call, and all ranks leave the loop after the same collective.", "quantifier": "every number of ranks, every timing, every thermalization pattern", "why_tests_cant": "schedules cannot be enumerated", "anchors": ["src/mc/mympiadapter.hpp: mymcmpiadapter::run", "src/solver.ipp: MatrixSolver::solve"]}
{"id": "C42", "title": "An unthermalized run is reported and never hangs", "statement": "If the time limit is reached before every rank is thermalized, then solve returns an error on every rank, no rank is left waiting in the collection of results, and the program exits with failure.", "quantifier": "every thermalization pattern over the ranks", "why_tests_cant": "needs specific schedules", "anchors": ["src/solver.ipp: MatrixSolver::solve", "src/main.cpp", "src/mc/mympiadapter.hpp"]}
{"id": "C43", "title": "High-frequency tail correction of the Green's function", "statement": "After post-processing the Legendre coefficients satisfy the exact sum rule for the first moment (1 on the diagonal, 0 off the diagonal); odd coefficients are unchanged; coefficients that already satisfy the rule are not changed; applying it twice is the same as once.", "quantifier": "every set of coefficients with at least one Legendre order", "why_tests_cant": "all inputs", "anchors": ["src/postprocess.hpp: correct_G1_tail, tl1"]}
{"id": "C44", "title": "Rotation to the original basis undoes the rotation of the hybridization function", "statement": "For a unitary rotation, rotating one- and two-particle objects back is the exact inverse of the rotation to the new basis, and the rotation used for the two-particle object of a product of one-particle objects is the product of the rotations used for the one-particle objects.", "quantifier": "every unitary matrix, every tensor", "why_tests_cant": "all matrices", "anchors": ["src/postprocess.hpp: compute_G1, rotate_back_G2, compute_euqal_time_G1", "src/model/model.ipp: read_rotation_hybridization_function"]}
{"id": "C45", "title": "Extended-range complex numbers", "statement": "The extended-exponent complex type implements the field operations, and equality and inequality tell different values apart.", "quantifier": "all values", "why_tests_cant": "all values", "anchors": ["src/wide_scalar.hpp"]}
{"id": "C46", "title": "Differences of operator sets cancel common operators", "statement": "The list of operators removed from and added to the trace contains no operator in both, and applying it to the trace has the same effect as removing all old bath and worm operators and then adding all new ones.", "quantifier": "every quadruple of lists", "why_tests_cant": "all lists", "anchors": ["src/moves/moves.ipp: merge_diff_impl, merge_diff"]}
{"id": "C47", "title": "Merged view of two ordered operator sets", "statement": "Iterating over the merged view visits each element of both sets once, in time order, and its size is the sum of the sizes.", "quantifier": "every two sorted sets", "why_tests_cant": "all sizes", "anchors": ["src/util.hpp: TwoSetView"]}
{"id": "C48", "title": "Random selection of operators", "statement": "Selecting k different numbers below N returns k distinct numbers in range for every source of randomness; selecting operators of given flavors returns distinct operators of the requested flavors and throws if there are not enough; every ordered choice is produced by the same number of random streams.", "quantifier": "every N, k, every random stream", "why_tests_cant": "all streams", "anchors": ["src/util.hpp: pickup_a_few_numbers, MyRandomNumberGenerator", "src/operator_util.ipp: pick_up_operators"]}
{"id": "C49", "title": "Worm getters and setters", "statement": "Setting independent time or flavor i of a worm and reading it back gives the value, leaves the other independent coordinates unchanged, and the operators of a worm have pairwise distinct ordered times (small indices resolve equal times) in the order of the correlation function.", "quantifier": "every worm type, index and value", "why_tests_cant": "all values", "anchors": ["src/worm.hpp, src/worm.ipp"]}
{"id": "C50", "title": "Global updates permute flavors reversibly", "statement": "The set of proposed flavor permutations is closed under inversion, so a global exchange and its reverse are proposed with equal probability; a rejected global update restores the configuration.", "quantifier": "every list of templates, every configuration", "why_tests_cant": "all", "anchors": ["src/impurity_init.ipp: resize_vectors", "src/moves/moves.ipp: global_update"]}
{"id": "C51", "title": "Ranking of window parameters and their validation", "statement": "The number of windows used is always between the configured minimum and maximum, and inconsistent limits are rejected.", "quantifier": "every parameter pair and every measured perturbation order", "why_tests_cant": "all values", "anchors": ["src/impurity.ipp: constructor check, update_MC_parameters"]}
{"id": "C52", "title": "Complex observables store real and imaginary vectors of equal length", "statement": "Recording a vector observable writes real and imaginary vectors of the length of the data, also for real-valued data.", "quantifier": "every data vector", "why_tests_cant": "all sizes", "anchors": ["src/accumulator.hpp: measure_observable_helper"]}
{"id": "C53", "title": "Step-size self-tuning keeps step sizes positive and bounded", "statement": "Every sample is counted in exactly one bin, and only if its distance is inside the histogram range; whatever has been recorded, every round of the self-tuning leaves all step sizes positive and bounded by max(initial value, 4/3 * range * magnification), and the returned step is at least one bin wide.", "quantifier": "every history of samples and rounds, every cutoff ratio and magnification >= 1", "why_tests_cant": "all histories", "anchors": ["src/update_histogram.hpp: scalar_histogram, StepSizeOptimizer"]}
{"id": "C54", "title": "Global update uses the ratio of the full weights", "statement": "A global update throws no exception, accepts exactly if the random number is below the absolute ratio of the weights (time-ordered determinant times full trace) of the transformed and the present operators, carries the invariants (operator container, sign, factors of the determinant, trace, window) to the transformed configuration, and leaves the configuration as it was if rejected.", "quantifier": "every configuration, flavor transformation or time shift, random number and number of windows", "why_tests_cant": "all configurations; depends on block structure, operator order and sign bookkeeping", "anchors": ["src/moves/moves.ipp: global_update, compute_det_rat"]}
{"id": "C55", "title": "The parameter onsite_U gives the Hubbard interaction", "statement": "If the interaction is given by the parameter model.onsite_U (two spins), the local Hamiltonian is U times the number of doubly occupied sites.", "quantifier": "every number of sites, every U", "why_tests_cant": "No test uses this branch of the reader: the unit tests pass the list of elements directly, so its factor is never compared with anything.", "anchors": ["src/model/model.ipp: read_U_tensor (168-175), hilbert_space_partioning"]}
{"id": "C56", "title": "Green's function in Matsubara frequencies", "statement": "The element written to gf for the n-th frequency is the Fourier transform at (2n+1) pi/beta of the function of imaginary time whose values are written to gtau; after the tail correction i omega_n G(i omega_n) tends to the unit matrix.", "quantifier": "every set of Legendre coefficients, every frequency, every beta > 0", "why_tests_cant": "The identity is between an infinite family of integrals and the matrix elements; a test compares a few frequencies of one function with a tolerance.", "anchors": ["src/legendre.cpp: LegendreTransformer::LegendreTransformer (3-21)", "src/postprocess.hpp: compute_G1 (164-221)"]}
{"id": "C57", "title": "The trace in the truncated eigenbasis is the trace in Fock space", "statement": "Diagonalising the Hamiltonian sector by sector, cutting the spectrum at E0+inner (evolution) and E0+outer (outer states), transforming the operators and multiplying the bra-ket blocks along the operator sequence gives the Fock-space trace of the time-ordered product with the energies measured from E0 and with spectral projectors inserted between operators and at the ends; without truncation it is exactly the trace of exp(-tau(H-E0)) and the operators.  The blocks satisfy the laws that the sliding window and the lazy trace assume.", "quantifier": "every block-diagonal hermitian Hamiltonian, every sector structure respected by the operators, every pair of cutoffs, every time-ordered operator sequence, every exact eigensolver", "why_tests_cant": "needs all Hamiltonians and all sequences; a test compares single traces of small models within a tolerance", "anchors": ["src/model/eigenbasis.ipp: whole file", "src/model/model.ipp: hilbert_space_partioning, apply_op_hyb_ket, apply_op_hyb_bra"]}
{"id": "C58", "title": "A global shift in imaginary time is always accepted in a model without truncation", "statement": "translationally_invariant() returns true exactly if no eigenstate is cut off by the inner or outer cutoff.  In that case a shift of all operators by the same time, wrapped at beta, leaves the trace unchanged and changes determinant times permutation sign only by -1 for every worm operator moved across beta, so global_update with OperatorShift accepts whatever the random number and the warning 'a global shift is rejected' cannot be printed.  With a cutoff that removes a state, a shift can turn a non-zero weight into zero.", "quantifier": "every lawful Hamiltonian and sector structure, every hybridization table, every configuration with times in (0,beta], every shift, every random number below 1", "why_tests_cant": "the rejection depends on configuration, shift and random number; a run only shows that no warning was printed for the few shifts it drew", "anchors": ["src/impurity.ipp: global_updates (667-688)", "src/moves/moves.hpp: OperatorShift (38-64), WormShift", "src/model/eigenbasis.ipp: translationally_invariant (434-443)", "src/mc_config.hpp: HybridizationFunction::operator() (41-54)", "src/moves/moves.ipp: global_update (810-895)"]}
{"id": "C59", "title": "Bounds of the trace and decision by lazy evaluation", "statement": "For every outer sector the number returned by compute_trace_bound is at least the modulus of the sector's contribution to the trace (norms of the cached bra and ket, factor exp(-dtau*Emin) per interval, operator norms at most one, smallest dimension along the path); spectral_norm_diag returns the operator norm; the contributions add up to the trace; hence a local update with lazy evaluation is accepted exactly if the random number is below the exact ratio of weights. The cutoff of compute_exp (log(DBL_MIN)/2) is the only exception: it replaces a bound by 0 where the contribution is not 0 (at most exp(log(DBL_MIN)/2)*dim).", "quantifier": "all Hamiltonians with lawful sectors, all energy cutoffs, all reachable window states, all operators inside the window, all thresholds and random numbers", "why_tests_cant": "a bound which is slightly too small rejects only few updates, and shows up as a small systematic error of all observables", "anchors": ["src/sliding_window/sliding_window.ipp: compute_trace_bound, compute_trace_braket, lazy_eval_trace", "src/sliding_window/sliding_window.hpp: compute_exp", "src/util.hpp: spectral_norm_diag", "src/model/model.hpp: compute_spectral_norm, min_dim", "src/moves/moves.ipp: LocalUpdater::update"]}
{"id": "C60", "title": "The whole simulation keeps its invariants and never throws", "statement": "Starting from the constructor, any number of sweeps (resizing and moving the window, local updates in every window, transitions between configuration spaces, global updates, in the order of the code) runs without exception and leaves a state in which the operator container is time-ordered and consists exactly of the operators of the determinant matrix and of the worm, the stored block matrices are the inverse of the hybridization matrix, the stored trace is the trace in the truncated Fock space, neither is zero, and the stored sign is sign(det)*sign(trace)*sign of the permutation; every local update is accepted exactly if the random number is below the ratio of the full weights times the factor of the proposal.", "quantifier": "every Hamiltonian, hybridization function, block structure, number of sweeps and windows, every sequence of proposals (insertion, removal, shift, exchange, worm) inside the window and of global updates", "why_tests_cant": "an error in the interplay of cached traces, window edges, determinant blocks and sign shows only for rare sequences of moves", "anchors": ["src/impurity.ipp: constructor, update, do_one_sweep, transition_between_config_spaces, global_updates", "src/moves/moves.ipp: LocalUpdater::update, global_update", "src/sliding_window/sliding_window.ipp: move_window_to_next_position, set_mesh", "include/alps/fastupdate/determinant_matrix_partitioned.hpp: compute_determinant_as_product"]}
{"id": "C61", "title": "The random walk of the code samples configurations according to their weight", "statement": "If the configuration is distributed according to |determinant * trace| times the weight of its worm space, then it still is after any number of sweeps of the code (change of the number of windows, at each position of the window insertion/removal, flavor and shift updates, transitions between the configuration spaces, moving of the window) and of global updates (exchanges of flavors in random order and a random shift) at regular intervals: expectation values of functions of the configuration do not change.  The walk of the code on its states (operator container, blocks of the inverse matrix, cached bras and kets, lists in any order) is a Markov chain on the configurations.", "quantifier": "every Hamiltonian, hybridization function, block structure, set of worms and weights, every grid of times fine enough for the windows, every distribution of ranks and orders of exchanges, every number of sweeps and interval of global updates", "why_tests_cant": "stationarity is a statement about all configurations and about the probabilities of all transitions; a run shows averages within error bars for one model", "anchors": ["src/impurity.ipp: update, do_one_sweep, global_updates, transition_between_config_spaces", "src/moves/moves.ipp: global_update", "src/moves/moves.ipp: propose of all updaters, LocalUpdater::update", "src/sliding_window/sliding_window.ipp: move_window_to_next_position, set_window_size"]}
{"id": "C62", "title": "Measurement of densities at the middle of the interval", "statement": "measure_n moves both edges of the window to the middle of the interval of imaginary time, applies the density operator of each flavor to the cached ket, forms the product with the cached bra and restores the window: the number recorded for flavor f times the absolute weight of the configuration is the real part of the (signed) weight of the configuration with the pair c, c^dagger of flavor f inserted at beta/2; the window, the configuration and all invariants are as before, and no exception is thrown.", "quantifier": "every configuration reachable by the simulation, every position and number of windows, every list of observables", "why_tests_cant": "a window which is not restored exactly, or an operator at beta/2 counted on neither side, changes results only in rare configurations", "anchors": ["src/sliding_window/meas_static_obs.ipp: whole file", "src/impurity.ipp: measure_n (445-471)", "src/sliding_window/sliding_window.ipp: move_left_edge_to, move_right_edge_to, restore_state"]}
{"id": "C63", "title": "Green's function by removal of hybridization lines", "statement": "What GreensFunctionLegendreMeasurement::measure adds to the array, times the absolute weight of the configuration, is -1/beta times the derivative of the configuration's contribution to the partition function with respect to the Legendre coefficient of the (antiperiodic) hybridization function between the two flavors; the recorded data are the mean over the measurements, rotated to the original basis.  Summed over configurations, data divided by the sum of signs is -1/beta times the logarithmic derivative of the partition function, i.e. the Green's function.", "quantifier": "every configuration reachable by the simulation, every block structure, storage order of operators, number of Legendre coefficients, rotation matrix and sequence of measurements", "why_tests_cant": "the identity connects the stored block inverses in their storage order with a derivative of the determinant; a test compares one noisy function with another", "anchors": ["src/measurement/measurement.hpp: GreensFunctionLegendreMeasurement (22-161)", "src/impurity.ipp: measure_every_step (261-275), measure_Z_function_space (422-438)", "include/alps/fastupdate/determinant_matrix_partitioned.hpp: compute_inverse_matrix(int block)"]}
{"id": "C64", "title": "Two-time Green's function measured with many times", "statement": "TwoTimeG2Measurement::measure draws max(20, average order) different times which are no time of an operator, evaluates the trace for the left worm pair at each of them with the present and with new random flavors, and leaves configuration and window as they were.  Its data are the weighted mean of the Legendre basis functions over these candidates with the weights permutation sign x determinant x trace; averaged over the random times, flavors and present configurations this is exactly the sum over all times and flavors.", "quantifier": "every state of the simulation with a two-time worm, every sequence of random numbers and flavors, every number of Legendre coefficients; in the mean: every weight function and grid of random numbers", "why_tests_cant": "the permutation sign is not recomputed for the candidates, so correctness rests on a parity argument; bias of a heat-bath estimator is invisible in single runs", "anchors": ["src/measurement/measurement.ipp: TwoTimeG2Measurement::measure (3-112), measure_impl (114-146)"]}
{"id": "C65", "title": "Normalisation of the observables measured in worm spaces", "statement": "Each step is counted in its space and recorded there, the counts are divided by the extra weight of the space at each call of measure, and the postprocessing multiplies the mean of the data by (temperature) x volume of the worm space / (mean sign x volume of the space of the partition function).  For any number of processes and any numbers of steps the result is the sum of the data, each divided by the weight with which it was measured, over the reweighted number of steps without worm and the mean sign.  In equilibrium it is the ratio of the sum over all configurations with this worm to the sum over all configurations without worm, for equal-time worms averaged over the time of the worm: all extra weights drop out.", "quantifier": "every number of processes, steps, worm spaces, every set of positive weights, group size of the data; in equilibrium every model and loop as in C61", "why_tests_cant": "the weights are tuned during the run and differ from run to run; a wrong normalisation of a few steps hides in the error bars", "anchors": ["src/impurity.ipp: measure_every_step (261-310), measure (313-333, 440), prepare_for_measurement (782-797), adjust_worm_space_weight (865-888)", "src/postprocess.hpp: coeff in compute_two_time_G2, compute_G1, compute_G2, compute_euqal_time_G1, compute_euqal_time_G2", "src/mc/mympiadapter.hpp: run (63-106)", "src/measurement/measurement.ipp: measure_via_hyb (297-309), EqualTimeGMeasurement (535-562)"]}
{"id": "C66", "title": "The measured Green's functions are those of the model", "statement": "In equilibrium the data of the worm spaces G1 and G2 (hybridization lines attached to the worm, auxiliary lines with random elements, random choice of the operators kept, removal of lines, Legendre factors), with the normalisation of the postprocessing, give the Green's function: for G1 the Legendre coefficient sqrt(2l+1) int dtau P_l(2 tau/beta - 1) G(tau) with G(tau) = -<T c(tau) c^dagger(0)>, averaged over the origin of time, for G2 the coefficient of <T c(t1) c^dagger(t2) c(t3) c^dagger(t4)> for sqrt(2l+1) P_l(x(t1-t2)), (-1)^(l'+1) sqrt(2l'+1) P_l'(x(t3-t4)), continued antiperiodically, and exp(i nu_m (t1-t4)).  Exchanges of worm and bath operators, the auxiliary lines, and the choice of operators drop out of the mean.", "quantifier": "every model, hybridization function, set of worms and weights and loop as in C61; every maximal number of operators, distribution of the auxiliary elements, Legendre coefficient, pair of flavors", "why_tests_cant": "the estimator has a random part in each call, and its mean is a statement about all configurations with the same operators; a test compares noisy functions", "anchors": ["src/measurement/measurement.ipp: measure_via_hyb (148-310), MeasureGHelper<SCALAR,1> (325-385), MeasureGHelper<SCALAR,2> (387-533)", "src/impurity.ipp: measure_every_step (270-286)", "src/postprocess.hpp: compute_G1 (113-142)"]}
{"id": "C67", "title": "Observables recorded without worm, in equilibrium", "statement": "In the space without worm, in equilibrium, the mean of n divided by the mean sign is the sum of all configurations with the density operator in the trace divided by the sum of all configurations; the mean of the data of the measurement by removal divided by the mean sign is -1/beta times the derivative of the sum with respect to the Legendre coefficient of the hybridization function, divided by the sum; FIDELITY_SUSCEPTIBILITY is half the mixed second derivative of the logarithm of the partition function with respect to the strength of the hybridization in the two halves of the circle, averaged over the begin of the half circle.", "quantifier": "every lawful model, every hybridization function (antiperiodic for the fidelity susceptibility), every grid of times, every number of sweeps and plan of global updates, configurations distributed according to their weights", "why_tests_cant": "A mean over a run has a statistical error; the missing division by the sign only shows in models with negative weights, and no test looks at the fidelity susceptibility there.", "anchors": ["src/impurity.ipp: measure_every_step (261-273), measure_Z_function_space (371-443), measure_n (445-471)", "src/postprocess.hpp: compute_G1 (164-221), compute_fidelity_susceptibility (485-495)", "src/measurement/measurement.hpp: GreensFunctionLegendreMeasurement (22-161)"]}
{"id": "C68", "title": "Histogram of the expansion orders", "statement": "count_creation_operators counts the creation operators of each flavor; the entry of order for flavor f and order n is the fraction of the calls in which flavor f has n creation operators; PerturbationOrderFlavors is the mean of these numbers.", "quantifier": "every number of flavors, every length of the histogram, every sequence of configurations", "why_tests_cant": "The normalisation is not looked at by any test; with one flavor it is right.", "anchors": ["src/impurity.ipp: measure_Z_function_space (371-390)", "src/mc_config.hpp: count_creation_operators (299-308)"]}
{"id": "C69", "title": "Self-test of the operator matrices", "statement": "The self-test of the fermionic operators (compiled in without NDEBUG) lets the constructor go on exactly if the matrices satisfy the canonical anticommutation relations up to 1e-5: maxAbsCoeff is the largest modulus of the stored coefficients, and validate throws exactly if some anticommutator deviates by more than 1e-5.", "quantifier": "every sparse matrix, every number of flavors, every set of operator matrices", "why_tests_cant": "The test is itself test code: it runs only on the right operators and is silent about what it would do with wrong ones.", "anchors": ["src/model/hybfermion.hpp: FermionOperator::validate (73-94), anti_commutator (95-96)", "src/util.hpp: maxAbsCoeff (84-94)"]}
{"id": "C70", "title": "Input of the local Hamiltonian", "statement": "The tensor file, the hopping file and the rotation file are accepted exactly if they have the documented format, with the elements written there; the parameters store element (a,b,c,d) at ((a n+b)n+c)n+d and element (i,j) at i n+j, and vectors of another length are rejected.  From both forms of input the Hamiltonian is 1/2 sum U_abcd c+_a c+_b c_c c_d + sum t_ij c+_i c_j, and an accepted Hamiltonian is Hermitian.", "quantifier": "every file (sequence of numbers), every pair of parameter vectors, every number of flavors, real and complex solver", "why_tests_cant": "tests read a few correct files; the behaviour with all wrong ones, and the index arithmetic for all numbers of flavors, is not reached", "anchors": ["src/model/model.ipp: read_U_tensor (100-176), read_hopping (178-228), read_rotation_hybridization_function (330-343), check of the hopping matrix (551-557)"]}
{"id": "C71", "title": "Density-density correlation functions", "statement": "The file with the definitions is accepted exactly if it has the documented format with the number of definitions given by the parameter and existing flavors.  In every state of the simulation element (i, t) of what measure_two_time_correlation_functions records, times the absolute weight of the configuration, is the signed weight of the configuration with n_f at tau_t = beta/4 + t beta/(2(n_tau-1)) and n_g at beta/4 in the trace, if (f,g) is the i-th definition; the state is as before.  In equilibrium the mean divided by the mean sign is the sum of these terms over all configurations divided by the sum over all configurations.", "quantifier": "every file, every list of definitions, every n_tau >= 2, every state of the simulation without operator at a mesh point; in the mean every model and loop as in C61", "why_tests_cant": "no test of the repository measures these functions; a wrong assignment of definitions to flavors or points shows only if flavors are inequivalent", "anchors": ["src/impurity_init.ipp: read_two_time_correlation_functions (402-476)", "src/impurity.ipp: measure_two_time_correlation_functions (473-490)", "src/sliding_window/meas_correlation.ipp: whole file", "src/postprocess.hpp: load_signed_multi_dimension_data (455-469), compute_nn_corr (471-483)"]}
{"id": "C72", "title": "Tables of the worm spaces", "statement": "create_worm_updaters fills its tables consistently for every choice of the switches: position i of worm_types, of the insertion updaters, and position i+1 of weights, steps, visits and bins of the flat histogram belong to the same space; there are movers, flavor changers and measurements for exactly the spaces in use and special updaters exactly where both of their spaces are in use.  Hence every call of transition_between_config_spaces finds its updater and its weight, the calls are those of the model of the random walk with all worms in use, and the rate divided out is the probability of the choice.  In every history with one preparation of the measurement the two tables of weights agree, contain the ratios of the flat histogram between the bin of the space and bin 0, and are between 1e-51 and 1e51, the steps recorded for a space are those made in it since the last measurement, the volume is this number divided by its weight, and finish_measurement throws exactly if a space in use was not visited.", "quantifier": "every value of the switches, every space in use, every history of adjustments, steps, visits and measurements, every configuration with a worm in use", "why_tests_cant": "five tables in different orders (registration, enumeration, names) are indexed with each other's positions; a mistake for one combination of switches needs a test of this combination", "anchors": ["src/impurity_init.ipp: create_worm_updaters (92-274), add_worm_mover (76-90)", "src/impurity.hpp: get_config_space_position (144-156)", "src/impurity.ipp: measure_every_step (261-310), measure (319-333), transition_between_config_spaces (549-622), prepare_for_measurement (782-797), finish_measurement (816-820), adjust_worm_space_weight (864-888)"]}
{"id": "C73", "title": "Every observable which is recorded or read exists", "statement": "create_observables registers no name twice; in every run each name to which a value is sent is registered with the type of the value; the number of samples of each observable read for the results is the number of measurements (steps, groups of steps) of its kind; after a run which finish_measurement accepts, everything that solve and show_statistics read has a value.", "quantifier": "every choice of worm spaces, every highest rank of the updates, every sequence of steps, measurements and global updates in the spaces in use, every size of the groups of data", "why_tests_cant": "names are put together at run time from ranks and names of spaces; a wrong name or a missing sample ends a long run with an exception, and only for the combination of parameters which uses it", "anchors": ["src/impurity_init.ipp: create_observables (3-73)", "src/impurity.ipp: measure_every_step, measure, measure_Z_function_space (261-443), prepare_for_measurement (798), finish_measurement (811-820)", "src/impurity_postprocess.ipp: show_statistics (10-47)", "src/solver.ipp: solve (50-85)", "src/postprocess.hpp: all compute functions", "src/measurement/measurement.ipp: measure_via_hyb (299-309)"]}
{"id": "C74", "title": "Adaptation before thermalization, frozen parameters and acceptance statistics", "statement": "Before the time for thermalization is over, the number of windows after each iteration is the mean of the last at most 100 expansion orders divided by the number of flavors, rounded up and clamped by sliding_window.min and .max (1 before the first iteration); the largest steps of the single-operator shift (one per flavor) and of the worm movers always lie between a bin width and 0.7 beta. Once the time is over none of these parameters changes again and the weights of the worm spaces change only in prepare_for_measurement, whatever updates, iterations and measurements follow; no such history fails. The samples recorded for an updater plus its counters contain each attempt, valid move and accepted move exactly once, so that the printed acceptance rate is the ratio of all accepted to all valid moves of all processes, despite different numbers of samples and the double recording in the partition-function space.", "quantifier": "all parameters, worm spaces, numbers of processes and histories of moves, weight adjustments, iterations, preparation and measurements", "why_tests_cant": "Tests run one short simulation per process with fixed seeds; they do not compare parameters before and after thermalization, do not run two simulations in one process with different physics, and do not read the printed rates.", "anchors": ["src/impurity.ipp:238-250", "src/impurity.ipp:694-744", "src/impurity.ipp:750-797", "src/impurity.ipp:336-355", "src/impurity.ipp:391-396", "src/impurity.hpp:88-92", "src/moves/moves.hpp:111-118", "src/moves/moves.ipp:244-264", "src/moves/moves.ipp:647-682", "src/moves/moves.ipp:912-928", "src/update_histogram.hpp:187-276", "src/impurity_postprocess.ipp:3-8"]}
{"id": "C75", "title": "Removing rows and columns at given positions: determinant ratio and inverse", "statement": "For every invertible matrix of size N+M and all ascending lists of M row positions and M column positions, compute_det_ratio_down with index lists times the determinant of the matrix is the determinant of the kept rows and columns in their old order, including the sign (-1) to the sum of |row - column|. If the ratio is not zero, compute_inverse_matrix_down with index lists returns the inverse of a matrix consisting of exactly the kept rows and columns, each once; a kept row or column whose position lies inside the small matrix does not move. For the last M rows and columns the result agrees with the function without lists. The order of the lists matters: for a list which is not ascending (which the ratio function neither checks nor documents) the ratio has the wrong sign.", "quantifier": "all sizes N and M, all fields, all invertible matrices, all ascending lists of positions", "why_tests_cant": "The unit test removes 10, 20 or 30 of at most 40 rows for one random choice of positions; the sign and the bookkeeping of the swaps have to be right for all positions, including rows to be removed which already lie at the end.", "anchors": ["include/alps/fastupdate/detail/fastupdate_formula.ipp:112-143", "include/alps/fastupdate/detail/fastupdate_formula.ipp:168-217", "include/alps/fastupdate/fastupdate_formula.hpp:54-110", "test/unittest_fu.cpp:74-126"]}
{"id": "C76", "title": "The consistency check of the configuration gives no false alarm, repairs or reports damaged inverse matrices, and has two blind spots", "statement": "In builds without NDEBUG sanity_check compares operators, determinant, trace, permutation sign and sign with values computed anew. If the determinant matrix is intact, the program goes on exactly if the container holds the operators of determinant and worm, the stored trace differs from the trace of the time-ordered product by less than the tolerance relative to the stored one, the permutation sign is right and the stored sign agrees with the product of the signs. A state of the simulation always passes and satisfies all invariants afterwards, with the same operators, determinant and place of the window. If the stored inverse matrices are damaged in any way, the check either reports the determinant or leaves a state which satisfies all invariants. The check of the determinant is too weak: det_rat is overwritten in the loop, so only the largest factor is compared and a determinant which is wrong by any factor of modulus at most one in a block with smaller determinant is not noticed. An operator of the worm at the time of another operator, missing in the container, is not noticed by the comparison of the operators.", "quantifier": "all impurity models, hybridization functions, configurations, windows, tolerances > 0, all damages of the stored matrices", "why_tests_cant": "The check runs only in debug builds, on states which are consistent up to rounding; a test never shows it a wrong determinant, and in release builds it is empty.", "anchors": ["src/mc_config.hpp:116-171", "src/impurity.ipp:855-861", "src/moves/moves.ipp:90", "src/moves/moves.ipp:808", "src/moves/moves.ipp:890", "include/alps/fastupdate/determinant_matrix.hpp:137-157", "include/alps/fastupdate/determinant_matrix_partitioned.hpp:201-215", "include/alps/fastupdate/determinant_matrix_partitioned.hpp:278-282"]}
{"id": "C77", "title": "Insertion and removal of pairs keep the weight stationary in continuous time; the margin of open_random breaks detailed balance", "statement": "The configurations with m creation and n annihilation operators carry the measure d tau/(m! n!) with the sum over flavors, and the weight is a density for it. If the new times are uniform in the window (margin eps = 0 of open_random), InsertionRemovalUpdater with its acceptance test satisfies detailed balance: for all measurable functions phi, psi of the configuration the accepted insertions of rank pairs carry as much from phi at order (m,n) to psi at order (m+rank,n+rank) as the removals carry back. Hence the whole step (accepted moves, otherwise the configuration stays) is reversible over all orders and leaves the average of every measurable function of the configuration unchanged, for every nonnegative measurable weight. With the margin eps > 0 which the code uses (1e-10) detailed balance fails for every window: operators within eps/2 times the window length of its ends are removed but never inserted.", "quantifier": "all numbers of flavors and blocks, ranks, windows in [0,beta], nonnegative measurable weights, measurable functions of the configuration, all real times", "why_tests_cant": "A simulation sees the average over finitely many draws; a wrong power of the window length or factorial in the acceptance ratio shifts all averages smoothly and looks like a different temperature or hybridization.", "anchors": ["src/moves/moves.ipp:265-299", "src/moves/moves.ipp:302-352", "src/moves/moves.ipp:354-405", "src/moves/moves.ipp:190", "src/util.hpp:225-228"]}
{"id": "C78", "title": "Counting and picking pairs of operators fit together", "statement": "count_num_pairs returns the number of pairs of a creation operator of one flavor and an annihilation operator of another one, both in the closed window and at most at the given distance; pick_up_pair returns the same number and picks each of these pairs for random numbers in one interval of length 1/number, and no pair exactly if there is none. If the new times are free and in the window, count_num_pairs_after_insert returns the number of pairs after the insertion, so that 1/number is the probability of picking the inserted pair; error is set exactly if one of the times is occupied. num_operators_in_range_open counts the operators strictly between the ends in the order of operator times. Violations: outside the window the new pair is counted nevertheless; an operator at the lower end with positive small index counts as inside; compute_spread_non_periodic returns 0 for every nonempty set and reads a nonexisting element for the empty one; check_consistency_operators makes exceptions but never throws them.", "quantifier": "all ordered containers, flavors, windows, distances, times and random numbers in [0,1)", "why_tests_cant": "The functions are not called by the updates at this commit and no test calls them; whoever uses them for a proposal gets a bias which only long runs show.", "anchors": ["src/operator_util.cpp:5-30", "src/operator_util.cpp:33-67", "src/operator_util.cpp:69-126", "src/operator_util.cpp:147-158", "src/operator_util.hpp:58-109", "src/operator_util.hpp:145-154"]}
{"id": "C79", "title": "Shifts, flavor changes and whole runs keep the weight stationary in continuous time", "statement": "With real times, SingleOperatorShiftUpdater satisfies detailed balance with acceptance factor 1 if all flavors of a block have the same max_distance_, and OperatorPairFlavorUpdater always does: for all measurable functions phi, psi of the configuration the accepted moves carry as much from phi to psi as back, at every order, for every nonnegative measurable weight. A run of pair updates, shifts and flavor updates of any length, in any order, with any windows, which starts with the distribution given by the weight ends with it: the average of every measurable function of the configuration is unchanged. If two flavors of a block have different max_distance_ and the window is longer than the smaller one, detailed balance of the shift fails.", "quantifier": "all numbers of flavors, blocks and operators, windows in [0,beta], step sizes, nonnegative measurable weights, measurable functions of the configuration, all lists of updates", "why_tests_cant": "Wrong proposal densities bias all averages smoothly; a simulation of finite length cannot tell the bias from statistical errors.", "anchors": ["src/moves/moves.ipp:545-590", "src/moves/moves.ipp:591-645", "src/moves/moves.ipp:83-211", "src/moves/moves.ipp:684-690"]}
{"id": "C80", "title": "Insertion and removal of worms keep the weight stationary in continuous time", "statement": "With real times, one call of transition_between_config_spaces to WormInsertionRemover (choice of the worm type, through the trace with independent or equal flavors, or through the bath) satisfies detailed balance: for all measurable functions phi, psi of the configuration, with or without worm, the accepted moves carry as much from phi to psi as back, where a configuration with a worm of type k has the weight w times worm_space_weight(k). With the rejected moves the step leaves the average of every measurable function unchanged.", "quantifier": "all lists of worm types with at least one flavor, positive space weights, numbers of flavors and operators, windows in [0,beta], nonnegative measurable weights, measurable functions of the configuration", "why_tests_cant": "A wrong factor between the spaces only changes the relative volume of the spaces, which the normalization of the measured correlation functions takes for granted; no test compares absolute volumes.", "anchors": ["src/moves/moves.ipp:1012-1240", "src/impurity.ipp:550-566", "src/util.hpp:225-228"]}
{"id": "C81", "title": "The assertions of the determinant matrices never fail in legal histories, and what they can and cannot find", "statement": "In builds without NDEBUG, DeterminantMatrix::sanity_check, DeterminantMatrixPartitioned::sanity_check and the assertions on the lengths of the vectors in actual order pass in every consistent object; hence a history of requests of the kinds made by the solver, performed or rejected, the constructor with operators and rebuild_inverse_matrix run exactly as in builds with NDEBUG. For one block the check passes if and only if operators, position maps, sets and sign fit together. For the partitioned object passing implies that the vectors are those of the blocks, that the sets hold these operators, that every operator is in the set of its sector, and that the sign is the parity of the pairs whose order in time is opposite to that of their sectors; a wrong sign is always noticed. Not noticed are: a wrong inverse matrix, blocks stored under the wrong sector, two annihilation operators of different sectors at the same time.", "quantifier": "all consistent objects, all histories of admissible requests, all numbers of sectors and operators, all Green's functions which vanish between sectors, all connection tables", "why_tests_cant": "The assertions are compiled only in debug builds, which the tests do not use for long runs; an assertion which fails in rare states, or which can never fail, is not seen by running the program.", "anchors": ["include/alps/fastupdate/detail/determinant_matrix.ipp:331-371", "include/alps/fastupdate/detail/determinant_matrix_partitioned.ipp:66-113", "include/alps/fastupdate/detail/determinant_matrix_partitioned.ipp:270-341", "include/alps/fastupdate/determinant_matrix_partitioned.hpp:67-83", "include/alps/fastupdate/determinant_matrix_partitioned.hpp:422-437"]}
{"id": "C82", "title": "Runs which mix updates of the bath and of the worm keep the distribution over all configuration spaces in continuous time", "statement": "With real times, a run of any length and in any order of pair updates of any rank, shifts and flavor updates of the bath (with or without worm), insertions and removals of worms of any of the worm types, changes of the flavors of a worm, moves of a worm with one time, connections of the equal-time and two-time spaces, each in its own window, of bath operators turned into Green's function worms of any rank and back, and of exchanges of flavors and shifts in time of all operators, which starts with the distribution w (times worm_space_weight(k) for worms of type k) ends with this distribution: the average of every measurable function of the configuration after the run is its average with the weight.", "quantifier": "all lists of updates, all ranks, step sizes, windows in [0,beta], lists of worm types, positive space weights, nonnegative measurable weights which vanish if an operator occurs twice (and, for the Green's function worms, unless there are as many creation as annihilation operators), measurable functions", "why_tests_cant": "A test samples a few runs with a few seeds; a bias which appears only when a bath update is made in the presence of a worm, or in the relative volume of the spaces, is hidden in the statistical error.", "anchors": ["src/impurity.ipp:493-565", "src/impurity.ipp:615-621", "src/moves/moves.ipp:83-211", "src/moves/moves.ipp:930-1010", "src/moves/moves.ipp:1012-1240", "src/moves/moves.ipp:1384-1515", "src/moves/moves.ipp:796-895", "src/moves/moves.hpp:25-64", "src/moves/moves.hpp:556-589", "src/impurity.ipp:568-595", "src/impurity.ipp:626-690", "src/moves/moves.ipp:1241-1300"]}
{"id": "C83", "title": "The weight of the code in continuous time and the updates which sample it", "statement": "With real times, the weight which the updates of the simulation use - the modulus of the determinant of the hybridization functions times the trace of the impurity - is a nonnegative measurable function of the configuration, vanishes if an operator occurs twice or the numbers of creation and annihilation operators differ, and has a positive finite integral over all configuration spaces (order n contributes at most T a^n / n!), so that it defines a probability distribution and runs keep it. In every state of the simulation, the update of the code (determinant and trace ratios by fast updates and the sliding window, lazy trace bounds, acceptance test) changes the configuration with exactly the probabilities given by this weight, and raises no exception; every configuration of positive weight is that of a state. The whole loop of the simulation - all local updates, worm updates, shifts and changes of the window, exchanges of flavors and global shifts, whatever ranks and orders are drawn - keeps this distribution of the configuration, provided that global updates make no factor of the determinant negligible, as in baths with their symmetry; for global shifts this holds with every table of the hybridization function. The interpolated hybridization function of every table meets the demands.", "quantifier": "all Hamiltonians and blocks meeting the demands of the code, all measurable (for the normalization: bounded) hybridization functions, all states of the simulation satisfying the invariants, windows and ranks, all functions of the configuration", "why_tests_cant": "A test can compare the sampled averages with exact ones for a few models within statistical errors; it cannot show that the weights of all orders have a finite sum, nor that acceptance decisions made with the lazy bounds agree with the exact weight for every configuration.", "anchors": ["src/moves/moves.ipp:83-211", "src/moves/moves.ipp:285-470", "src/moves/moves.ipp:591-645", "src/moves/moves.ipp:810-895", "src/impurity.ipp:212-257", "src/impurity.ipp:493-693", "src/sliding_window/sliding_window.ipp:257-470"]}
{"id": "C84", "title": "Normalized results of the postprocessing in continuous time", "statement": "With real times, after any number of iterations of the loop of update, with ranks and orders of exchanges drawn at random, the expectation value of every bounded number recorded from the configuration is the integral of this number times the weight over all configuration spaces, divided by the integral of the weight. What the postprocessing makes of the expectation values of the volumes of the spaces, of the sign and of the data of a worm space is the integral of the data over all configurations with a worm of this type, with their sign, divided by the integral over all configurations without worm, with their sign: the extra weights of all spaces drop out. For the equal-time worms it is the average over the time t in [0,beta] of the ratio of the expansion with the operators at t and the expansion of the partition function. Data recorded without worm give, divided by the mean sign, the ratio of the integrals over the configurations without worm.", "quantifier": "all Hamiltonians, baths bounded and measurable on [0,beta], positive space weights, worm types, random plans, numbers of iterations, bounded measurable data, states of the simulation", "why_tests_cant": "Tests compare a few numbers with exact diagonalization within statistical errors; the limit of infinitely many samples and the independence of the extra weights cannot be observed.", "anchors": ["src/postprocess.hpp:25-50", "src/postprocess.hpp:125-146", "src/postprocess.hpp:305-320", "src/postprocess.hpp:365-430", "src/impurity.ipp:493-693"]}
{"id": "C85", "title": "Atomic limit of the equal-time results", "statement": "Without hybridization, and if no state of the impurity is cut off, what the postprocessing makes of the expectation values in an equal-time worm space is exactly the thermal average, with the density matrix exp(-beta H)/Tr exp(-beta H), of the product of the operators c+_{f0} c_{f1} c+_{f2} c_{f3} ... in this order, for every choice of the flavors: order of the operators at one time, their permutation sign, the truncated eigenbasis, the weights of the spaces and the normalization fit together.", "quantifier": "all Hamiltonians of the impurity, inverse temperatures, ranks and flavors of the equal-time worms, positive space weights, random plans, numbers of iterations, states of the simulation", "why_tests_cant": "Tests compare a few impurities within statistical errors; an error of sign or order which vanishes for the tested symmetric impurities is not seen.", "anchors": ["src/worm.hpp:279-345", "src/postprocess.hpp:25-50", "src/postprocess.hpp:305-320", "src/impurity.ipp:493-693"]}
{"id": "C86", "title": "Density-density correlation functions in continuous time", "statement": "In equilibrium, the mean of what measure_two_time_correlation_functions records for two densities, divided by the mean of the sign, is the integral over all configurations without worm which have a weight, with n_f(tau_i) n_g(tau_0) put into the trace, divided by the integral over all configurations without worm, with tau_i = beta/4 + i beta/(2(n_tau-1)); the permutation sign of the extended operator list is that of the configuration. Without hybridization and without truncation of states it is exactly Tr(exp(-(beta-tau)H) n_f exp(-tau H) n_g)/Tr exp(-beta H), tau = tau_i - tau_0.", "quantifier": "all Hamiltonians, hybridization functions (measurable, bounded), pairs of densities, numbers of times, indices of time, positive space weights, random plans, numbers of iterations, states of the simulation", "why_tests_cant": "Tests compare noisy curves for a few impurities; wrong time differences or a normalization error which depends on the configuration is hidden in the statistical error.", "anchors": ["src/impurity.ipp: measure_two_time_correlation_functions (473-490)", "src/sliding_window/meas_correlation.ipp: whole file", "src/postprocess.hpp: load_signed_multi_dimension_data (455-469), compute_nn_corr (471-483)"]}
{"id": "C87", "title": "Densities in continuous time", "statement": "In equilibrium, the mean of the density n recorded by measure_n, divided by the mean of the sign, is the integral over all configurations without worm which have a weight, with c+_f c_f at beta/2 put into the trace, divided by the integral over all configurations without worm. Without hybridization and without truncation of states it is exactly the thermal average of c+_f c_f, the same number as obtained from the equal-time worm space.", "quantifier": "all Hamiltonians, hybridization functions (measurable, bounded), flavors, positive space weights, random plans, numbers of iterations, states of the simulation", "why_tests_cant": "Tests compare a few noisy numbers; an error of the sign of the permutation or of the position in the trace vanishes in the tested symmetric cases.", "anchors": ["src/impurity.ipp: measure_n (445-471)", "src/sliding_window/meas_static_obs.ipp: whole file"]}
{"id": "C88", "title": "Expansion orders in continuous time", "statement": "In equilibrium, the mean of PerturbationOrderFlavors for a flavor is the mean number of creation operators of this flavor with the absolute weight as density, and the mean of k (number of operators times sign), divided by the mean of the sign, is twice the logarithmic derivative of the partition function with respect to the strength of the hybridization function; the sums over the orders converge and may be differentiated term by term although the orders are not bounded.", "quantifier": "all Hamiltonians, hybridization functions (measurable, bounded), flavors, positive space weights, random plans, numbers of iterations, states of the simulation", "why_tests_cant": "The identity between order and derivative is an exact statement on infinite sums of integrals; tests see a noisy histogram.", "anchors": ["src/impurity.ipp: measure_every_step (261-273), measure_Z_function_space (371-390)", "src/mc_config.hpp: count_creation_operators (300-308)"]}
{"id": "C89", "title": "Definitions of equal-time two-particle Green's functions are read exactly in their format", "statement": "read_eq_time_two_particle_greens_meas accepts a file exactly if it consists of the number of elements and, for each, its line number and four flavors that exist, and makes one operator with these four flavors from each record; a negative number, a wrong line number or a flavor that does not exist ends in an exception. (The file breaking off too early is not reported: an uninitialised variable is used.)", "quantifier": "all numbers of flavors, all token lists, all positions of the first wrong token", "why_tests_cant": "tests read a few files; the set of accepted files is infinite, and the check for a negative number is only effective because a later call happens to throw", "anchors": ["src/impurity_init.ipp:354-398", "src/operator.hpp:319-344"]}
{"id": "C90", "title": "Green's function by removal in continuous time", "statement": "After the loop of update with real times, started in equilibrium, the mean of what the measurement by removal adds to the il-th Legendre coefficient of G between two flavors, divided by the mean of the sign, is -1/beta times the derivative of the integral over all configurations without worm with respect to the il-th Legendre coefficient of the hybridization function between the flavors, divided by the integral itself.", "quantifier": "all models, hybridization functions (measurable, bounded), numbers of operators, pairs of flavors, Legendre coefficients, plans of updates", "why_tests_cant": "tests compare one Green's function with statistical errors; the statement is about exact expectation values, an infinite sum of integrals of growing dimension", "anchors": ["src/measurement/measurement.hpp:54-99", "src/impurity.ipp:493-693"]}
{"id": "C91", "title": "Fidelity susceptibility in continuous time", "statement": "In the equilibrium of the loop with real times the mean of kLkR divided by the mean of the sign is, for every value u of the random number, the mean over the expansion of (number of operators in [beta u/2, beta u/2 + beta/2)) times (number of the other operators), reduced modulo 2^32. Equivalently it is the mixed derivative of the partition function with respect to the strengths of the hybridization in the two halves of the circle, divided by the partition function, less 2^32 times the mean number of overflows. With the overflows put back and both means divided by that of the sign, the formula of the postprocessing gives half the mixed derivative of the logarithm of the partition function, for every u in [0,1).", "quantifier": "for all impurity models, bounded measurable hybridization functions, plans of updates, numbers of sweeps and values of the random number", "why_tests_cant": "A run gives one noisy number and never reaches an order at which the product does not fit into 32 bits.", "anchors": ["src/impurity.ipp:267-272", "src/measurement/measurement.hpp:185-189", "src/postprocess.hpp:485-495"]}
{"id": "C92", "title": "Equal times in continuous time", "statement": "In equilibrium with real times, the result of the postprocessing for a worm with all operators at one time is the ratio of the integral over all configurations with the operators of the worm at an arbitrary fixed time to the integral over all configurations without worm. The diagonal element of the one-particle function with equal times is therefore the density from measure_n, divided by the mean of the sign, if no configuration gets a weight only by the insertion of the density operator.", "quantifier": "all antiperiodic hybridization functions, all Hamiltonians without cut-off states, all ranks and flavors of the worm, all times inside (0, beta), all window schedules", "why_tests_cant": "A test compares two noisy estimates for one model; it cannot tell a small dependence on the time of the worm from statistical errors.", "anchors": ["src/postprocess.hpp:365-430", "src/impurity.ipp: measure_n (445-471)", "src/impurity.ipp:493-693"]}
