# Design of the formal model of ALPSCore/CT-HYB

## Trusted base

* Lean 4.33.0 kernel and the installed Mathlib.
* Axioms: every theorem named in MANIFEST.json depends at most on `propext`,
  `Classical.choice` and `Quot.sound` (checked with `#print axioms`).
  No own axioms, no unfinished proofs, no compiled-code evaluation.
* The reading of the C++ sources: each definition cites file and lines in /repo and
  states its simplifications.  The C++ code is never run.

## General simplifications

* Floating point numbers are replaced by elements of a field (`ℚ`, `ℝ`, or a generic
  (ordered) field).  Rounding, overflow, NaN and infinities are outside the model except
  where a definition says otherwise.
* Imaginary times are elements of a linear order (pairs (time, small index) under the
  lexicographic order of `OperatorTime`), or rationals/reals where arithmetic is needed.
* `std::set`/`multi_index_container<psi>` are modelled as lists sorted by time, with
  lookup by time only, exactly as the C++ comparison functions do.
* `throw` is modelled by `Except`/`Option` or an explicit outcome; reading outside an
  array or an uninitialised variable is a distinct outcome (`ub`), never a default value.
* Random numbers are arguments (streams of numbers in [0,1) or of indices).
* MPI collectives are modelled as rendezvous of all ranks.

## Modules

Every model file `X.lean` has its specification, property theorems and examples in `XProps.lean`
(lemmas in `XLemmas.lean` where they are long).  Specifications do not use the helper functions of
the model; they are stated with multisets, Mathlib matrices and determinants, finite sums over
configurations, generated equivalence relations, integrals, or plain lists.

| module | part of the code | properties |
|--------|------------------|------------|
| Operator | src/operator.hpp (times, operators, container, recorded changes) | C03 |
| MergeDiff | moves.ipp:52-80 | C46 |
| LocalUpdate | moves.ipp:83-264, mc_config.hpp | C01, C02, C04, C12, C38 |
| CombSort | fastupdate/detail/util.hpp | C20 |
| PermSign | mc_config.hpp:176-297 | C05 |
| FastUpdate | fastupdate_formula.ipp | C13-C15 |
| Clustering | clustering.hpp, clustering.cpp | C19 |
| ResizableMatrix | resizable_matrix.hpp | C21 |
| TimeDet | specification: determinants of time-ordered lists | C16-C18, C54 |
| DetMatrix (Spec, Lemmas, Correct, Props) | determinant_matrix*.{hpp,ipp} | C16, C17 |
| Partitioned (Spec, Lemmas, Det, Correct, Props) | determinant_matrix_partitioned.{hpp,ipp} | C18 |
| SlidingWindow | sliding_window.{hpp,ipp} | C22-C24 |
| LazyTrace | sliding_window.ipp:253-300 | C25 |
| MeasCorrelation | meas_correlation.ipp | C26 |
| WangLandau | wang_landau.hpp, impurity.ipp:782-797, 862-888 | C27-C29 |
| Fermion, Sectors | hybfermion.hpp, model.ipp:485-730 | C30, C31 |
| Hyb | model.ipp:232-304, mc_config.hpp:41-54 | C32, C33 |
| Util | util.cpp, util.hpp, moves.hpp:45-64, 572-590 | C34 |
| Legendre | legendre.cpp | C35 |
| GMeas | measurement.ipp:148-535 | C36 |
| Checks | measurement.hpp:163-189, impurity.ipp:146-152, accumulator.hpp | C37, C51, C52 |
| Histogram | update_histogram.hpp | C39, C40, C53 |
| TwoSetView | util.hpp:328-467 | C47 |
| Selection | util.hpp:277-306, operator_util.ipp:48-86 | C48 |
| Worm | worm.hpp, worm.ipp, moves.hpp | C49 |
| Chain | Metropolis step as a finite Markov kernel, impurity_init.ipp:278-347 | C12, C50 |
| GlobalUpdate | moves.ipp:693-895 | C50, C54 |
| Proposal | moves.ipp:269-500 | C06, C07 |
| ShiftMove | moves.ipp:543-690 | C08 |
| WormMove | moves.ipp:930-1515 | C09-C11 |
| WormMoverBiasProps (no new model) | the distribution kept by `WormMover` | C10 |
| Postprocess (TailProps, RotationProps) | postprocess.hpp, model.ipp | C43, C44, C55, C56 |
| EigenBasis | eigenbasis.ipp, model.hpp:439-457, model.ipp:732-748 | C57 |
| TransInv | eigenbasis.ipp:434-443, moves.hpp:38-64, mc_config.hpp:41-54, impurity.ipp:667-688 | C58 |
| TraceBound | sliding_window.hpp:93-101, sliding_window.ipp:234-300, 382-445, util.hpp:154-205, model.hpp:79-96 | C59 |
| Simulation, SimulationCode | impurity.ipp:111-117, 152-153, 212-257, 492-693; all parts composed | C60 |
| Sampling, SamplingSweep, SamplingGlobal | moves.ipp:83-213 with random proposals, 693-895 with random exchanges and shifts; impurity.ipp:212-257, 493-693 as sequence of random updates | C61 |
| StaticMeas | meas_static_obs.ipp, impurity.ipp:445-471 | C62 |
| Removal | measurement.hpp:22-161 | C63 |
| TwoTimeG2 | measurement.ipp:3-146 | C64 |
| WormNorm | impurity.ipp:261-333, 440, 789-796, 883-887; measurement.ipp:297-309, 535-562; factor `coeff` of postprocess.hpp | C65 |
| GMeasCode, GMeasMeanProps (with GMeas) | measurement.ipp:148-310 in a state of the simulation, with the random choice of rows and columns; mean in equilibrium | C66 |
| GMeasLegendre, GMeasLegendreProps | measurement.ipp:387-533: Legendre polynomials and exponentials of the two-particle Green's function | C66 |
| ZMeas, ZMeasLemmas, ZMeasMeanProps, ZMeasMeanExamples | impurity.ipp:261-273, 371-443; postprocess.hpp:485-495; mean in equilibrium of what StaticMeas, Removal and Checks record | C67 |
| ZMeas, OrderHistProps | impurity.ipp:371-390, mc_config.hpp:299-308 | C68 |
| CarCheck, CarCheckProps | model/hybfermion.hpp:73-96, util.hpp:84-94 (self-test of the operator matrices, without NDEBUG) | C69 |
| ModelInput, ModelInputProps | model/model.ipp:100-228, 330-343, 551-557 (a file is a list of numbers; integer and floating point tokens are distinguished) | C70 |
| NNCorr, NNCorrProps | impurity_init.ipp:402-476, impurity.ipp:473-490, postprocess.hpp:455-483, with MeasCorrelation | C71 |
| WormTables, WormTablesProps | impurity_init.ipp:76-274, impurity.hpp:144-156, impurity.ipp:261-333, 537-622, 782-820, 864-888, worm.hpp:9-17 | C72 |
| Observables, ObservablesProps | impurity_init.ipp:3-73, impurity.ipp:261-490 (names and numbers of samples), 798, 812, impurity_postprocess.ipp, solver.ipp:50-85, postprocess.hpp (names read), moves.hpp:101-118, worm.hpp:19-42, accumulator.hpp:50-124 | C73 |
| Adapt, AdaptProps | impurity.ipp:238-250, 336-355, 391-396, 694-744, 750-797, impurity.hpp:88-92, moves.hpp:92-118, 284-312, 368-390, moves.ipp:244-264, 647-682, 912-928, update_histogram.hpp:163-170, 187-276, impurity_postprocess.ipp:3-8 | C74 |
| FastUpdateIdx, FastUpdateIdxLemmas, FastUpdateIdxProps | fastupdate_formula.ipp:112-143, 168-217 (removal at given positions; used by the unit test only) | C75 |
| Sanity, SanityProps | src/mc_config.hpp:116-171 (consistency check of builds without NDEBUG) | C76 |
| ContIns, ContInsLemmas, ContInsDraws, ContInsSym, ContInsRem, ContInsFlow, ContInsProps | moves.ipp:190, 265-405, util.hpp:225-228 (pair update with real times) | C77 |
| ObservablesCondProps | impurity.ipp:398-413, 425-435: the observables recorded conditionally | C73 |
| PairUtil, PairUtilProps | operator_util.cpp:5-158, operator_util.hpp:58-154 (not called by the updates) | C78 |
| ContShift, ContShiftLemmas, ContShiftDraws, ContShiftProps | moves.ipp:545-645 (shift and flavor update with real times) | C79 |
| ContRun, ContRunLemmas, ContRunProps | moves.ipp:83-211 (runs of pair updates, shifts, flavor updates with real times) | C79 |
| ContWorm, ContWormFlow, ContWormDraws, ContWormHyb, ContWormIns, ContWormBal, ContWormSwap, ContWormProps | moves.ipp:1012-1240, impurity.ipp:550-566 (insertion and removal of worms with real times) | C80 |
| ContSweep, ContSweepMeas, ContSweepWorm, ContSweepNice, ContSweepConn, ContSweepGlob, ContGreenLemmas, ContSweepGreen, ContSweepProps | impurity.ipp:493-595, 615-690, moves.ipp:796-895, 930-1010, 1241-1300, 1384-1515, moves.hpp:25-64, 556-589 (worm flavor changer, one-time worm mover, connection of the equal-time and two-time spaces, bath operators as Green's function worms, global exchange of flavors and shift, all with real times; runs which mix bath, worm and global updates) | C82 |
| ContCodeLemmas, ContCodeProps, ContCodeFinite, ContCodeAccept, ContCodePair, ContCodeMoves, ContCodeStates, ContCodeWorm, ContCodeIns, ContCodeGlobal, ContCodeRun, ContCodeHyb, ContCodeLoop | moves.ipp:83-211, 285-470, 591-645, 810-895, 898-1300, impurity.ipp:212-257, 493-693, sliding_window.ipp:257-470, hyb.hpp (interpolation): the weight of the code (determinant times trace) as a function of the configuration with real times, its normalization, the link between `codeStep` (the update of the simulation) and the transition probabilities of `Cont*`, and runs of the states of the simulation (`contRun`: all local and worm updates, exchanges of flavors and global shifts, shifts of the window, changes of its size, up to the loop of `update`; movers only for worms with one time; global updates are assumed to make no factor of the determinant negligible, which is proved for baths with the symmetry of the update, for shifts with every table) | C83 |
| ContSigned, ContMeanProps | impurity.ipp:493-693 (loop), postprocess.hpp:25-50, 305-430 (coefficients): the terms of the expansion with their sign, integrals over all configurations and over the configurations with one type of worm; expectation values after the loop of `update` with random plans, and what the postprocessing makes of them, in continuous time. Not modelled: averages along one run, statistical errors | C84 |
| ContAtomProps | no new part of the code: the results of C84 without hybridization, compared with the thermal average of the impurity (worm.hpp:279-345, operators of the equal-time worms, sign and trace of the configuration without bath operators) | C85 |
| ContCorrProps | no new part of the code: the numbers recorded by measure_two_time_correlation_functions (impurity.ipp:473-490, sliding_window/meas_correlation.ipp) in the loop with real times, and the division by the mean of the sign (postprocess.hpp:455-483) | C86 |
| ContDensProps | no new part of the code: the densities recorded by measure_n (impurity.ipp:445-471) in the loop with real times, divided by the mean of the sign | C87 |
| ContOrderProps | no new part of the code: the numbers recorded for PerturbationOrderFlavors and k (impurity.ipp:261-273, 371-390) in the loop with real times | C88 |
| ContFidelityProps | no new part of the code: the number recorded for kLkR (impurity.ipp:267-269, measurement.hpp:185-189) in the loop with real times, with the wrap modulo 2^32 | C91 |
| ContFidelityLogProps | no new part of the code: the formula of compute_fidelity_susceptibility (postprocess.hpp:485-495) in the loop with real times; shifts of all times | C91 |
| ContEqualTimeProps | no new part of the code: the postprocessing of the worms with equal times (postprocess.hpp:365-430) and `measure_n` (impurity.ipp:445-471) in the loop with real times; shifts of all times with a worm | C92 |
| ContRemovalProps | no new part of the code: the numbers added to `g_meas_` (measurement/measurement.hpp:54-99) in the loop with real times; the derivative with respect to a Legendre coefficient of the hybridization function is taken of the integral over all configurations (exchange of derivative, sum and integral is proved) | C90 |
| EqTimeInput, EqTimeInputProps | impurity_init.ipp:354-398 (definitions of equal-time two-particle Green's functions; the result is not used by the rest of the code) | C89 |
| DetCheck, DetCheckLemmas, DetCheckProps | determinant_matrix.ipp:331-371, determinant_matrix_partitioned.ipp:66-113 and 270-341, determinant_matrix_partitioned.hpp:67-83 and 422-437 (assertions of the determinant matrices in builds without NDEBUG) | C81 |
| SamplingTourProps | impurity.ipp:212-257: number and place of the calls of one sweep | C61 |
| GMeasCutoffProps | measurement.ipp:148-310: rows and columns kept by the cutoff | C66 |
| WideScalar | wide_scalar.hpp | C45 |
| Mpi | mympiadapter.hpp, solver.ipp, main.cpp | C41, C42 |

How the parts fit together: `LocalUpdate` is proved for any determinant object satisfying the
interface `DetOps.Lawful`; `Partitioned` shows that the determinant object of the code satisfies it,
and is itself built on `DetMatrix`, which uses the formulas of `FastUpdate`.  `SlidingWindow` is
proved for any impurity model satisfying `Evol.Lawful`.  `Proposal`, `ShiftMove` and `WormMove` give
the factors used in the Metropolis step of `Chain`.  `EigenBasis` shows that the impurity model of the
code satisfies `Evol.Lawful`, and `SimulationCode` puts all of these together: `C60_lawful` discharges
every law with the models of the code, and `C60_simulation` is the statement about a whole run.
`Sampling*` joins the random proposals (detailed balance, C06-C11) to these states: the walk of the code is a Markov
chain on the configurations and the weight is stationary, for sweeps (`C61_sweeps_partial`) and for the loop of
`update` with global updates (`C61_loop_partial`).

## Random proposals

Random numbers of a proposal are finite weighted distributions (`Rand`): index draws are uniform and
times are uniform on a finite grid.  Detailed balance is stated for the probability flow between any
two configurations, for every positive weight of configurations.  For the insertion and removal of pairs the
grid is not needed: `ContIns*` (C77) draws real times, the configurations carry Lebesgue measure divided by
`m! n!`, and detailed balance is an equality of integrals for all measurable functions.  The same holds for
the shift and the flavor update (`ContShift*`), and runs of these three updates keep the weight stationary
(`ContRun*`, C79).  Insertion and removal of worms are treated the same way (`ContWorm*`, C80): the worm spaces
carry Lebesgue measure of the worm times and the counting measure of the flavors.  For the other worm updates
the continuous-time statement is the limit of vanishing grid spacing and is not formalised.

## Deviations of the code from the properties

Each of these is proved as a theorem `..._violated` / counterexample (names in MANIFEST.json).

1. C05: the incremental permutation sign formula (unused by the solver) is wrong in general.
2. C07: `InsertionRemovalDiagonalUpdater` of rank k violates detailed balance by k! for k >= 2 (not
   created by the solver).
3. C08: operator shifts violate detailed balance as soon as two flavors of a block have different step
   sizes; the step size adjustment does produce different ones.
4. C10: the retry loop of `WormMover` violates detailed balance for worms with several times.
5. C15: the replace formula is wrong if an intermediate minor is singular.
6. C16, C17: two kinds of requests on `DeterminantMatrix` which the solver does not make; rejected
   impossible requests may throw or corrupt the object.
7. C18: tables which vanish below the diagonal only, and elements below 1e-10, are put into the wrong
   sectors.
8. C26: an operator exactly on an interior mesh point acts twice in `MeasCorrelation`, one on the last
   mesh point is lost; one mesh point leads to a division by zero.
9. C31: merging of sectors is not repeated until closed, so that an operator can map one sector into two.
10. C32: an empty file and a last record without values are accepted.
11. C33: the pair of times (beta, 0) reads one element past the table.
12. C34: `mymod` returns beta for negative multiples of beta.
13. C36: the one-particle measurement skips pairs whose matrix element is zero although the coefficient
    is not; a norm of zero is possible; `max_matrix_size < Rank` reads outside.
14. C41: the members of the check schedule are not initialised before the first check; an exception on
    one rank leaves the others waiting for ever.
15. C42: ranks which are thermalized wait for ever in `collect_results` if another is not; the tests of
    `r.second` in `solve` are dead code; `main` ignores the value returned by `solve`.
16. C44: a zero column of the basis file is accepted and gives values which are not numbers.
17. C45: `operator==` of `wcomplex` ignores the imaginary part.
18. C47: iteration over two sets is wrong for an empty first set and for post-increment.
19. C48: more picks than elements are filled up with zeros.
20. C50: a sweep of global updates tries every flavor permutation once, which does not leave the weight invariant for
    permutations that are not involutions.
21. C51: `sliding_window.max` is compared with itself.
22. C52: real vector observables have an empty imaginary part.
23. C54: LU factors below 1e-30 of the largest one are dropped, so a singular matrix can be accepted.
24. C55: `model.onsite_U` gives the Hamiltonian of U/2 (and is not among the defined parameters).
25. C59: the cutoff of `compute_exp` sets bounds of the trace to zero where the contribution is not zero.
26. C60: `range_check` compares times without their small part, so an operator exactly at the edge of
    the window passes although it belongs to the cached part.
27. Not formalised: `read_U_tensor` with a negative number of elements constructs an exception without
    throwing it.
28. `measure_n` (impurity.ipp:445-471) splits the operators at beta/2 by `lower_bound`/`upper_bound` with a strict
    comparison on both sides: an operator exactly at beta/2 is on neither side and is lost
    (`C62_coincidence_violated`).  `C62_*_partial` require that no operator is at beta/2.
29. `measure_Z_function_space` (impurity.ipp:373-384) records the histogram of orders once per flavor, each time with a
    vector containing only that flavor, so that the mean over samples is 1/FLAVORS of the fraction
    (`C68_histogram_violated`; `C68_histogram_partial` has the factor).
30. `TwoTimeG2Measurement::measure` leaves out candidates whose trace is below 1e-30 of the present one.  The set of
    candidates then depends on the present one, and the estimator is biased (`C64_cutoff_violated`; the bias is of the
    order of the cutoff).  `C64_mean_partial` is the mean without cutoff.  A candidate time exactly on the upper edge of the
    window would put the creation operator (small time +1) outside the window; `C64_measure` assumes that no drawn
    time is an edge.
31. A process which is thermalized before the others already runs `measure_every_step` (impurity.ipp:248-250, called from
    mympiadapter.hpp:92) with its own weights of the worm spaces.  `prepare_for_measurement` then sets the shared weights
    but resets neither the numbers of steps nor the observables, and the first `measure` divides the early steps by the
    new weights (`C65_early_violated`).  The mean of the data also contains the early data with their number only.
    `C65_*_partial` on finite samples assume that no step is recorded before.
32. `measure_via_hyb` returns without adding anything if `det_rat == 0` (measurement.ipp:200-204): the step is counted in
    `worm_space_num_steps` but the data of the following steps fill its place in the group, so the mean of the data is
    that over the other steps.  Elements of the enlarged inverse below `1e-10` of the largest one are set to zero
    (measurement.ipp:275-283), and the terms of `G1` with a vanishing element `M(l,k)` are skipped though their product
    with the auxiliary lines need not vanish.  `C66_*_partial` exclude these cases by `G1Regular` and `G2Regular`.
33. `FIDELITY_SUSCEPTIBILITY` is formed from the means of `kLkR` and `k`, which contain the sign, without division by the
    mean of the sign (postprocess.hpp:485-495; all other observables are divided by it).  It is right if all signs are 1
    (`C67_fidelity_partial`) and wrong otherwise (`C67_fidelity_violated`).
34. `Greens_legendre` is recorded once per call of `measure` as the mean over the steps without worm since the last call
    (impurity.ipp:422-438), each with the same weight whatever the number of these steps.  `C67_removal_partial` is about
    the expectation value of one step.  The sum in it runs over the configurations with nonzero weight.
35. `maxAbsCoeff` (util.hpp:84-94) computes `std::max` of the modulus with itself: it returns the modulus of the last stored
    coefficient, and an uninitialised variable if nothing is stored (`C69_last`, `C69_undefined_iff`).  So the self-test
    of the fermionic operators in builds without NDEBUG has undefined behaviour on the right operators
    (`C69_validate_violated`) and accepts wrong ones (`C69_accepts_wrong_violated`).
36. `read_U_tensor` and `read_hopping` do not look at the state of the stream: if a file breaks off, variables without value
    are used (`C70_u_truncated_violated`, `C70_hop_truncated_violated`).  Only the hopping matrix is tested for
    hermiticity, not the tensor (`C70_hermitian_violated`).  The real solver drops imaginary parts (`C70_real_violated`).
37. `read_two_time_correlation_functions` has the same gap (`C71_truncated_violated`); it rejects `n_tau = 1` only, though with
    definitions and `n_tau <= 0` the measurement would build a vector of negative size.  `C71_*_partial` assume `n_tau >= 2`
    and no operator exactly at a mesh point (item on C26).
38. A space can be visited without any data being recorded for it (`C73_nodata_violated`): the data of `G1` and `G2` reach the
    accumulators in groups of `max_num_data_accumulated` steps.  `solve` then reads an observable without samples.  It also reads the
    density correlations according to `nn_corr.n_def`, which are recorded according to the file name (`C73_corr_violated`).
39. The expansion orders averaged for the number of windows are kept in a static variable of the function, shared by all simulations of
    a process (`C74_shared_violated`), and the acceptance counters are not cleared at the end of the thermalization
    (`C74_rate_violated`), so that the printed rates include it.
40. `compute_det_ratio_down` with index lists needs ascending lists; it neither checks nor documents this and returns the wrong sign otherwise
    (C75_order_violated). The sibling function for the inverse asserts the order in debug builds.
41. The consistency check of the configuration overwrites `det_rat` in the loop over the factors instead of multiplying (src/mc_config.hpp:140-143):
    only the largest factor of the determinant is compared (`C76_last`), and a wrong determinant of a smaller block passes
    (`C76_determinant_violated`). Since the operators are collected in a set ordered by time, an operator of the worm at an occupied time may be
    missing in the container (`C76_operators_violated`).
42. `open_random` keeps a margin of `eps/2 = 0.5e-10` of the window at both ends, but the removal takes operators in the whole window and
    the acceptance ratio uses the whole length: detailed balance is violated by this margin (`C77_margin_violated`).
43. Functions of operator_util which no update calls: `count_num_pairs_after_insert` counts a new pair outside the window
    (`C78_outside_violated`); `num_operators_in_range_open` counts an operator at the lower end of the window if its small index
    is positive (`C78_open_violated`); `compute_spread_non_periodic` has its first test inverted (`C78_spread_violated`);
    `check_consistency_operators` makes `std::runtime_error` objects without throwing them (`C78_check_violated`).
44. With real times, too, the shift violates detailed balance if two flavors of a block have different `max_distance_`
    (`C79_unequal_steps_violated`).
45. The assertions of `DeterminantMatrixPartitioned::sanity_check` do not notice operators stored in the block of
    another sector (`C81_blocks_exchanged_violated`), nor two annihilation operators of different sectors at the same
    time: the size of the set of annihilation operators is compared with nothing (`C81_equal_times_violated`).

## Testing the theorems

Wrong programs are tried in a scratch copy (edits of single definitions of the model); for each edit the
theorems which fail are recorded in seeded/LOG.jsonl.  Edits under which everything still proved led to
stronger theorems or were recognised as equivalent programs.

## Not modelled

Floating point rounding, HDF5 output, the ALPS accumulators' statistics, the random number
generator itself, timing, and the Eigen library (its LU decomposition and eigen-solver are
taken to be exact).  The parameter dictionary, the command line and log output.
