{
 "claims": [
  {
   "property": "C01",
   "status": "proved",
   "theorems": [
    "EvoMPS.C01_norm_at_every_cut"
   ],
   "note": ""
  },
  {
   "property": "C02",
   "status": "proved",
   "theorems": [
    "EvoMPS.C02_expect_1s"
   ],
   "note": ""
  },
  {
   "property": "C03",
   "status": "proved",
   "theorems": [
    "EvoMPS.C03_expect_2s"
   ],
   "note": ""
  },
  {
   "property": "C04",
   "status": "proved",
   "theorems": [
    "EvoMPS.C04_expect_3s"
   ],
   "note": ""
  },
  {
   "property": "C05",
   "status": "proved",
   "theorems": [
    "EvoMPS.C05_expect_1s_1s",
    "EvoMPS.C05_intermediates"
   ],
   "note": ""
  },
  {
   "property": "C06",
   "status": "partial",
   "theorems": [
    "EvoMPS.C06_correlation",
    "EvoMPS.C06_exvals_partial",
    "EvoMPS.C06_exvals_d_zero_raises",
    "EvoMPS.C06_exvals_violated"
   ],
   "note": "The correlation function itself is proved; with return_exvals=True the code returns the op1 values twice (C06_exvals_violated) and raises for d = 0."
  },
  {
   "property": "C07",
   "status": "partial",
   "theorems": [
    "EvoMPS.C07_string_partial",
    "EvoMPS.C07_string_raises",
    "EvoMPS.C07_violated"
   ],
   "note": "The code returns conjugates of the strings of length 2..d+1 and raises when site n+d does not exist (C07_violated, C07_string_raises)."
  },
  {
   "property": "C08",
   "status": "proved",
   "theorems": [
    "EvoMPS.C08_expect_MPO",
    "EvoMPS.C08_expect_MPO_raises",
    "EvoMPS.C08_expect_MPO_product"
   ],
   "note": ""
  },
  {
   "property": "C09",
   "status": "partial",
   "theorems": [
    "EvoMPS.C09_density_transposed_partial",
    "EvoMPS.C09_hermitian",
    "EvoMPS.C09_trace",
    "EvoMPS.C09_violated"
   ],
   "note": "The returned matrix is the transpose of the stated one (C09_violated); Hermiticity, trace and the transposed statement are proved."
  },
  {
   "property": "C10",
   "status": "partial",
   "theorems": [
    "EvoMPS.C10_density_transposed_partial",
    "EvoMPS.C10_raises",
    "EvoMPS.C10_uninitialised",
    "EvoMPS.C10_violated",
    "EvoMPS.C10_violated_equal_dims"
   ],
   "note": "Wrong row stride: raises or leaves entries unwritten when the two site dimensions differ; transposed as in C09."
  },
  {
   "property": "C11",
   "status": "proved",
   "theorems": [
    "EvoMPS.C11_inner",
    "EvoMPS.C11_inner_raises",
    "EvoMPS.C11_inner_conj"
   ],
   "note": ""
  },
  {
   "property": "C12",
   "status": "proved",
   "theorems": [
    "EvoMPS.C12_apply_op_1s",
    "EvoMPS.C12_apply_op_1s_raises"
   ],
   "note": ""
  },
  {
   "property": "C13",
   "status": "proved",
   "theorems": [
    "EvoMPS.C13_apply_op_MPO",
    "EvoMPS.C13_apply_op_MPO_raises",
    "EvoMPS.C13_consistent"
   ],
   "note": ""
  },
  {
   "property": "C14",
   "status": "proved",
   "theorems": [
    "EvoMPS.C14_right_routines",
    "EvoMPS.C14_apply_routines",
    "EvoMPS.C14_conj_routines",
    "EvoMPS.C14_three_site_routines",
    "EvoMPS.C14_tensor_product_routines",
    "EvoMPS.C14_left_routines",
    "EvoMPS.C14_adjoint",
    "EvoMPS.C14_adjoint_op"
   ],
   "note": ""
  },
  {
   "property": "C15",
   "status": "proved",
   "theorems": [
    "EvoMPS.C15_multi_eq_successive",
    "EvoMPS.C15_multi_regroup",
    "EvoMPS.C15_multi_two_site"
   ],
   "note": ""
  },
  {
   "property": "C16",
   "status": "proved",
   "theorems": [
    "EvoMPS.C16_update_normalize",
    "EvoMPS.C16_update_no_normalize",
    "EvoMPS.C16_simple_renorm"
   ],
   "note": ""
  },
  {
   "property": "C17",
   "status": "proved",
   "theorems": [
    "EvoMPS.C17_bond_dims",
    "EvoMPS.C17_rcf_keep",
    "EvoMPS.C17_rcf_normalize"
   ],
   "note": ""
  },
  {
   "property": "C18",
   "status": "proved",
   "theorems": [
    "EvoMPS.C18_diag_l"
   ],
   "note": ""
  },
  {
   "property": "C19",
   "status": "partial",
   "theorems": [
    "EvoMPS.C19_bond_dims",
    "EvoMPS.C19_lcf_keep_partial",
    "EvoMPS.C19_stored_l",
    "EvoMPS.C19_lcf_normalize_partial",
    "EvoMPS.C19_stored_l_violated"
   ],
   "note": "Amplitudes, left orthonormality, consistency and diagonality of r are proved in general; the stored l is right unless a bond shrinks, then it has the old size (C19_stored_l, C19_stored_l_violated)."
  },
  {
   "property": "C20",
   "status": "proved",
   "theorems": [
    "EvoMPS.C20_right",
    "EvoMPS.C20_left"
   ],
   "note": ""
  },
  {
   "property": "C21",
   "status": "partial",
   "theorems": [
    "EvoMPS.C21_truncate_partial",
    "EvoMPS.C21_larger_rejected",
    "EvoMPS.C21_same_violated",
    "EvoMPS.C21_zero_raises"
   ],
   "note": "Truncation to new dimensions not larger than the current ones with at least one smaller is proved; new_D equal to the current dimensions raises (C21_same_violated), larger ones are rejected (C21_larger_rejected)."
  },
  {
   "property": "C22",
   "status": "partial",
   "theorems": [
    "EvoMPS.C22_corrected_dims",
    "EvoMPS.C22_never_increases",
    "EvoMPS.C22_idempotent",
    "EvoMPS.C22_neighbour_partial",
    "EvoMPS.C22_neighbour_violated"
   ],
   "note": "The minimum formula, monotonicity and idempotence are proved; the corrected dimensions need not admit a full-rank state (C22_neighbour_violated), they do if the requested ones satisfy the neighbour conditions (C22_neighbour_partial)."
  },
  {
   "property": "C23",
   "status": "proved",
   "theorems": [
    "EvoMPS.C23_max_dim"
   ],
   "note": ""
  },
  {
   "property": "C24",
   "status": "partial",
   "theorems": [
    "EvoMPS.C24_succeeds_iff",
    "EvoMPS.C24_full_rank",
    "EvoMPS.C24_norm_partial",
    "EvoMPS.C24_raises_violated",
    "EvoMPS.C24_norm_violated"
   ],
   "note": "Exact success condition, full rank in all cases and norm 1 under the stated condition are proved; the constructor can raise (C24_raises_violated) and the norm can differ from 1 (C24_norm_violated)."
  },
  {
   "property": "C25",
   "status": "partial",
   "theorems": [
    "EvoMPS.C25_product_actual",
    "EvoMPS.C25_product_partial",
    "EvoMPS.C25_raises",
    "EvoMPS.C25_product_violated"
   ],
   "note": "True when all entries of q including the documented-as-ignored entry 0 agree; otherwise amplitudes vanish (C25_product_violated) or it raises (C25_raises). The exact behaviour is C25_product_actual."
  },
  {
   "property": "C26",
   "status": "partial",
   "theorems": [
    "EvoMPS.C26_from_tensors",
    "EvoMPS.C26_wrong_number",
    "EvoMPS.C26_mismatch",
    "EvoMPS.C26_save_load",
    "EvoMPS.C26_load_short",
    "EvoMPS.C26_mps_from_tensors_partial",
    "EvoMPS.C26_mps_from_tensors_violated"
   ],
   "note": "set_state_from_tensors and save/load are proved in full; mps_from_tensors_gen raises for tensors whose bonds the constructor reduces (C26_mps_from_tensors_violated), proved otherwise."
  },
  {
   "property": "C27",
   "status": "proved",
   "theorems": [
    "EvoMPS.C27_energy"
   ],
   "note": ""
  },
  {
   "property": "C28",
   "status": "partial",
   "theorems": [
    "EvoMPS.C28_energy_left_two_site",
    "EvoMPS.C28_energy_left_three_site_partial",
    "EvoMPS.C28_energy_left_violated",
    "EvoMPS.C28_missing_term_raises",
    "EvoMPS.C28_one_site_raises"
   ],
   "note": "Two-site terms: proved in full (all terms present, N >= 2). Three-site terms: the energies are proved, but h_expect is stored one index too far (violation proved). Missing terms and N = 1 raise (proved)."
  },
  {
   "property": "C29",
   "status": "proved",
   "theorems": [
    "EvoMPS.C29_any_parameter",
    "EvoMPS.C29_gauge",
    "EvoMPS.C29_gauge_left"
   ],
   "note": "Both gauges; also for any parameter matrix."
  },
  {
   "property": "C30",
   "status": "proved",
   "theorems": [
    "EvoMPS.C30_returns",
    "EvoMPS.C30_projection",
    "EvoMPS.C30_optimal",
    "EvoMPS.C30_closest",
    "EvoMPS.C30_three_site_missing_raises",
    "EvoMPS.C30_left_two_site_missing_raises"
   ],
   "note": "Proved for two-site terms with None entries, also for three-site terms whenever calc_B returns, and against all tangent vectors orthogonal to the state. calc_B raises for missing three-site terms and, in the left gauge, for missing two-site terms (theorems)."
  },
  {
   "property": "C31",
   "status": "partial",
   "theorems": [
    "EvoMPS.C31_norm_partial"
   ],
   "note": "Proved when the right environments have full rank (no condition on the left ones); for rank deficient r the basis the QR routine completes is not determined by its documented behaviour."
  },
  {
   "property": "C32",
   "status": "proved",
   "theorems": [
    "EvoMPS.C32_euler",
    "EvoMPS.C32_given",
    "EvoMPS.C32_derivative",
    "EvoMPS.C32_energy"
   ],
   "note": "Both gauges, with and without save_memory; first-order change of state, energy and norm."
  },
  {
   "property": "C33",
   "status": "partial",
   "theorems": [
    "EvoMPS.C33_rk4",
    "EvoMPS.C33_slope",
    "EvoMPS.C33_returns",
    "EvoMPS.C33_argument_violated",
    "EvoMPS.C33_uniform_partial",
    "EvoMPS.C33_uniform_violated"
   ],
   "note": "Open chain: the tensors after the step are proved, the slopes are unique and are projections of H|psi>. The caller's B_i is modified (C33_argument_violated). Uniform chain: violated for every step, the third slope is lost because B_fin is a list (C33_uniform_violated); what is computed instead is proved (C33_uniform_partial)."
  },
  {
   "property": "C34",
   "status": "proved",
   "theorems": [
    "EvoMPS.C34_bounds",
    "EvoMPS.C34_state",
    "EvoMPS.C34_product",
    "EvoMPS.C34_derivative",
    "EvoMPS.C34_first_order",
    "EvoMPS.C34_returns",
    "EvoMPS.C34_orthogonal",
    "EvoMPS.C34_projection"
   ],
   "note": "Both gauges: limits, enlarged tensors, amplitudes for every step size and the derivative; which pairs are added (gauge conditions, projection of H|psi>, discarded singular values). Returning is proved in the right gauge with all terms present; a missing term raises."
  },
  {
   "property": "C35",
   "status": "partial",
   "theorems": [
    "EvoMPS.C35_returns",
    "EvoMPS.C35_faithful",
    "EvoMPS.C35_schedule_one_site",
    "EvoMPS.C35_schedule_two_site",
    "EvoMPS.C35_duration",
    "EvoMPS.C35_duration_violated",
    "EvoMPS.C35_totals",
    "EvoMPS.C35_order",
    "EvoMPS.C35_environments",
    "EvoMPS.C35_two_site_finite_violated",
    "EvoMPS.C35_switch_violated",
    "EvoMPS.C35_net",
    "EvoMPS.C35_take_step_split_violated",
    "EvoMPS.C35_take_step_split_search"
   ],
   "note": "Proved for the one-site mode and the two-site mode of evolve_split, with validity of gauge and environments in every mode. Violated: the change to one-site moves evolves the last site twice; two-site sweeps raise for finite chains; the real part of a mixed step is dropped; take_step_split always raises except as a ground state search. The matrix product operator argument is not modelled."
  },
  {
   "property": "C36",
   "status": "partial",
   "theorems": [
    "EvoMPS.C36_evolve",
    "EvoMPS.C36_evolve_total",
    "EvoMPS.C36_evolve_exact",
    "EvoMPS.C36_evolve_returns",
    "EvoMPS.C36_evolve_integ_violated",
    "EvoMPS.C36_evolve_uniform_violated",
    "EvoMPS.C36_im_time",
    "EvoMPS.C36_im_time_returns",
    "EvoMPS.C36_im_time_finite_violated",
    "EvoMPS.C36_conj_grad",
    "EvoMPS.C36_conj_grad_returns",
    "EvoMPS.C36_conj_grad_finite_violated",
    "EvoMPS.C36_grad_descent",
    "EvoMPS.C36_grad_descent_returns",
    "EvoMPS.C36_find_ground",
    "EvoMPS.C36_find_ground_violated",
    "EvoMPS.C36_scipy_ode_violated"
   ],
   "note": "For every object and every history: evolve, opt_im_time, opt_conj_grad, opt_grad_descent and find_ground are proved whenever they return. Violations: unknown integrator names make no steps silently; Runge-Kutta with expansion raises for uniform states; opt_im_time and opt_conj_grad raise for finite chains; find_ground need not return; evolve_scipy_ode raises TypeError. int(t/dt) is exact only in exact arithmetic."
  },
  {
   "property": "C37",
   "status": "proved",
   "theorems": [
    "EvoMPS.C37_autostep",
    "EvoMPS.C37_history",
    "EvoMPS.C37_im_time",
    "EvoMPS.C37_both_directions"
   ],
   "note": "One adjustment, all histories, and all steps made by opt_im_time."
  },
  {
   "property": "C38",
   "status": "proved",
   "theorems": [
    "EvoMPS.C38_steps",
    "EvoMPS.C38_errors",
    "EvoMPS.C38_zero_time",
    "EvoMPS.C38_unlimited",
    "EvoMPS.C38_default_tolerance",
    "EvoMPS.C38_length_one",
    "EvoMPS.C38_breakdown_exact",
    "EvoMPS.C38_eigenvector"
   ],
   "note": "The whole routine is modelled. Steps, limits and the reported convergence for every operator and every outcome; exactness after a breakdown in the first step; a limit of 0 never reports convergence, the default tolerance 0 and vectors of length 1 raise."
  },
  {
   "property": "C39",
   "status": "proved",
   "theorems": [
    "EvoMPS.C39_nullspace",
    "EvoMPS.C39_complete"
   ],
   "note": ""
  },
  {
   "property": "C40",
   "status": "partial",
   "theorems": [
    "EvoMPS.C40_toarray",
    "EvoMPS.C40_dot",
    "EvoMPS.C40_dot_left",
    "EvoMPS.C40_mmul",
    "EvoMPS.C40_mmul_diag",
    "EvoMPS.C40_linear",
    "EvoMPS.C40_elementwise",
    "EvoMPS.C40_trace",
    "EvoMPS.C40_adjoint",
    "EvoMPS.C40_dot_inplace_partial",
    "EvoMPS.C40_dot_inplace_violated",
    "EvoMPS.C40_inv_sqrt"
   ],
   "note": "All operations and mmul chains are proved; dot_inplace of two diagonal objects raises (C40_dot_inplace_violated)."
  },
  {
   "property": "C41",
   "status": "proved",
   "theorems": [
    "EvoMPS.C41_chunks",
    "EvoMPS.C41_eps_l",
    "EvoMPS.C41_eps_r",
    "EvoMPS.C41_same_as_python",
    "EvoMPS.C41_sequential",
    "EvoMPS.C41_empty"
   ],
   "note": "Every interleaving of the threads, every number of threads; array shapes are those the code asserts. zgemm and zaxpy by their documented behaviour. Physical dimension 0 raises ZeroDivisionError (C41_empty)."
  },
  {
   "property": "C42",
   "status": "proved",
   "theorems": [
    "EvoMPS.C42_environments",
    "EvoMPS.C42_brute",
    "EvoMPS.C42_arpack",
    "EvoMPS.C42_phase_needed"
   ],
   "note": "For every back end whose answers are fixed points with a real overlap, and from the solver contracts for the dense and the Arnoldi back end, with positivity. The dense back end relies on LAPACK's normalisation of the phases (C42_phase_needed). The power iteration is covered by the general theorem only."
  },
  {
   "property": "C43",
   "status": "proved",
   "theorems": [
    "EvoMPS.C43_apply_right",
    "EvoMPS.C43_apply_left",
    "EvoMPS.C43_dense",
    "EvoMPS.C43_right",
    "EvoMPS.C43_left",
    "EvoMPS.C43_mismatch"
   ],
   "note": "All pairs of blocks, offsets up to the common length, both directions; states with different site dimensions are rejected (C43_mismatch)."
  },
  {
   "property": "C44",
   "status": "proved",
   "theorems": [
    "EvoMPS.C44_operator_right",
    "EvoMPS.C44_operator_left",
    "EvoMPS.C44_missing",
    "EvoMPS.C44_solution_right",
    "EvoMPS.C44_solution_left",
    "EvoMPS.C44_projected",
    "EvoMPS.C44_residual",
    "EvoMPS.C44_unique",
    "EvoMPS.C44_brute",
    "EvoMPS.C44_brute_raises",
    "EvoMPS.C44_brute_lop",
    "EvoMPS.C44_solvable"
   ],
   "note": "Both directions, every momentum and block length, with the residual of an inexact answer; the system has one solution exactly if no matrix orthogonal to l is an eigenvector with eigenvalue exp(-ip). A solver that reports failure is only logged. The CUDA variant is C90."
  },
  {
   "property": "C45",
   "status": "partial",
   "theorems": [
    "EvoMPS.C45_RCF",
    "EvoMPS.C45_SCF",
    "EvoMPS.C45_LCF_partial",
    "EvoMPS.C45_RCF_rank",
    "EvoMPS.C45_LCF_violated",
    "EvoMPS.C45_SCF_singular",
    "EvoMPS.C45_SCF_violated",
    "EvoMPS.C45_RCF_violated"
   ],
   "note": "restore_RCF and restore_SCF with full-rank environments: gauge equivalence, block traces, transfer maps, all expectation values, new environments and canonical form, for every result the library may return and every block length. restore_RCF with singular right environments: environments, expectation values, rank and form (C45_RCF_rank). restore_LCF with diag_r=False: the same. Violated: restore_LCF with diag_r=True stores an l and r that are not environments (C45_LCF_violated); restore_SCF raises for singular environments (C45_SCF_violated); block traces change for singular right environments (C45_RCF_violated)."
  },
  {
   "property": "C46",
   "status": "proved",
   "theorems": [
    "EvoMPS.C46_row_major",
    "EvoMPS.C46_tensor",
    "EvoMPS.C46_single",
    "EvoMPS.C46_environments",
    "EvoMPS.C46_expect",
    "EvoMPS.C46_amplitudes",
    "EvoMPS.C46_ham",
    "EvoMPS.C46_energy"
   ],
   "note": "Every block length. Without the update that normally follows, l and r are filled with ones; the environments are kept as initial guesses (C46_environments). Also the Hamiltonian of the blocked chain and its energy; a Hamiltonian given as a function has no reshape and raises."
  },
  {
   "property": "C47",
   "status": "partial",
   "theorems": [
    "EvoMPS.C47_expect_1s",
    "EvoMPS.C47_expect_1s_1s_all",
    "EvoMPS.C47_expect_1s_1s",
    "EvoMPS.C47_distance_zero",
    "EvoMPS.C47_correlation",
    "EvoMPS.C47_expect_2s_partial",
    "EvoMPS.C47_calc_AA",
    "EvoMPS.C47_expect_2s_tp_partial",
    "EvoMPS.C47_expect_3s",
    "EvoMPS.C47_expect_3s_callable_violated",
    "EvoMPS.C47_density",
    "EvoMPS.C47_occupancy",
    "EvoMPS.C47_string_actual",
    "EvoMPS.C47_string_partial",
    "EvoMPS.C47_apply",
    "EvoMPS.C47_expect_2s_violated",
    "EvoMPS.C47_products_violated",
    "EvoMPS.C47_string_violated",
    "EvoMPS.C47_exvals_violated",
    "EvoMPS.C47_expect_ham",
    "EvoMPS.C47_thermodynamic"
   ],
   "note": "One-site, two-point, three-site, string, density and occupancy values are proved to be the contraction with the environments, which is the thermodynamic limit (C47_thermodynamic). Violated: the two-site values use the environment of the wrong cut for blocks of two or more sites, the plain class never computes the products it uses, expect_3s with a function raises, strings use the conjugate operator, the second list of expectation values is that of op1."
  },
  {
   "property": "C48",
   "status": "partial",
   "theorems": [
    "EvoMPS.C48_K",
    "EvoMPS.C48_sum",
    "EvoMPS.C48_limit",
    "EvoMPS.C48_unique",
    "EvoMPS.C48_left_end",
    "EvoMPS.C48_left_partial",
    "EvoMPS.C48_left_violated",
    "EvoMPS.C48_ham_sites_violated",
    "EvoMPS.C48_set_ham",
    "EvoMPS.C48_average"
   ],
   "note": "Right matrices and energy density: fully proved for all L, two- and three-site terms, given the chain's environments and an exact linear solver (recursion around the block, orthogonality, sum and limit form, uniqueness). Left matrices: calc_K_l computes all entries but the last from self.K (the right matrices) instead of self.K_left; C48_left_violated shows the recursion fails for L = 2, C48_left_end gives what is computed, C48_left_partial is the L = 1 case. C48_ham_sites_violated: the constructor ignores ham_sites for callable Hamiltonians. ham_tp: see C70."
  },
  {
   "property": "C49",
   "status": "partial",
   "theorems": [
    "EvoMPS.C49_tensors",
    "EvoMPS.C49_tensors_unique",
    "EvoMPS.C49_environments_partial",
    "EvoMPS.C49_environments_unique",
    "EvoMPS.C49_new",
    "EvoMPS.C49_grow_left",
    "EvoMPS.C49_grow_right_partial",
    "EvoMPS.C49_grow_right_violated",
    "EvoMPS.C49_get_l_violated",
    "EvoMPS.C49_get_r_violated",
    "EvoMPS.C49_grow_right_end_violated",
    "EvoMPS.C49_get_q_violated"
   ],
   "note": "get_A, get_D, get_q at every integer site and both growing operations are proved (m > 0 on the right), and get_l, get_r at all integers if the right block length divides N and r[N+1] is right, as in a new state; otherwise up to the end of the finite part. Violated: get_l and get_r go through the right block with the wrong offset when its length does not divide N (C49_get_l_violated), r[N+1] is never updated (C49_get_r_violated, C49_grow_right_end_violated), from_tensors keeps the site dimensions of the left block (C49_get_q_violated), grow_right(0) raises (C49_grow_right_violated). The update is the one without normalisation and canonical form."
  },
  {
   "property": "C50",
   "status": "partial",
   "theorems": [
    "EvoMPS.C50_arpack_partial",
    "EvoMPS.C50_arpack_accepted_partial",
    "EvoMPS.C50_arpack_failure",
    "EvoMPS.C50_arpack_violated",
    "EvoMPS.C50_largest_partial",
    "EvoMPS.C50_largest_dense",
    "EvoMPS.C50_largest_failure",
    "EvoMPS.C50_largest_violated",
    "EvoMPS.C50_excite_partial",
    "EvoMPS.C50_excite_violated",
    "EvoMPS.C50_power_partial",
    "EvoMPS.C50_power_violated"
   ],
   "note": "Success exactly when an attempt before the last allowed one succeeds; a success in the last allowed attempt is reported as a failure, by the power iteration as well. The excitation routines go on after a success and report the outcome of the last attempt."
  },
  {
   "property": "C51",
   "status": "proved",
   "theorems": [
    "EvoMPS.C51_schmidt_decomposition",
    "EvoMPS.C51_spectrum",
    "EvoMPS.C51_entropy"
   ],
   "note": ""
  },
  {
   "property": "C52",
   "status": "partial",
   "theorems": [
    "EvoMPS.C52_restored_partial",
    "EvoMPS.C52_trials",
    "EvoMPS.C52_returns",
    "EvoMPS.C52_result",
    "EvoMPS.C52_missing_raises",
    "EvoMPS.C52_products_violated",
    "EvoMPS.C52_skip_violated"
   ],
   "note": "Finite chain: for every behaviour of the minimiser the tensors, environments, C, K and energy are restored and all reported energies are those of the trial states. The products AA are not restored (C52_products_violated), skipIfLower=True restores nothing (C52_skip_violated), missing terms raise. The search of the uniform chain is C78."
  },
  {
   "property": "C53",
   "status": "partial",
   "theorems": [
    "EvoMPS.C53_step_partial",
    "EvoMPS.C53_products",
    "EvoMPS.C53_returns",
    "EvoMPS.C53_second_step",
    "EvoMPS.C53_stale_violated",
    "EvoMPS.C53_three_site_violated",
    "EvoMPS.C53_one_site",
    "EvoMPS.C53_one_site_partial",
    "EvoMPS.C53_one_site_violated"
   ],
   "note": "C53_step_partial: if the stored products belong to the current tensors the step is an Euler step along the projection of the trajectory's generator, with the right mean values; C53_products and C53_returns: this is so for a new object with two-site terms (or after calc_C) and the step then returns. Violated: update() of this class does not renew the products, so from the second step on the mean values are those computed with the previous tensors (C53_second_step says exactly which, C53_stale_violated is a witness); the first step of a new object with three-site terms raises (C53_three_site_violated); calc_B_1s_diss subtracts the mean value of op^+ op instead of op (C53_one_site, C53_one_site_violated, C53_one_site_partial). Simplified: right gauge, ham a list whose entries are not the jump operators' arrays, no dynexp or calc_Y_2s, random numbers arbitrary."
  },
  {
   "property": "C54",
   "status": "partial",
   "theorems": [
    "EvoMPS.C54_sqrtmh",
    "EvoMPS.C54_sqrtmh_hermitian_partial",
    "EvoMPS.C54_sqrtmh_hermitian_violated",
    "EvoMPS.C54_invmh"
   ],
   "note": "Square, commutation and inverse are proved; the result of sqrtmh is not Hermitian when A has negative eigenvalues (C54_sqrtmh_hermitian_violated)."
  },
  {
   "property": "C55",
   "status": "proved",
   "theorems": [
    "EvoMPS.C55_any_parameter",
    "EvoMPS.C55_gauge",
    "EvoMPS.C55_returns",
    "EvoMPS.C55_orthogonal",
    "EvoMPS.C55_cross",
    "EvoMPS.C55_norm"
   ],
   "note": "Gauge and orthogonality without conditions on the rank; the norms need right environments of full rank, as for C31. calc_B raises for q = 1."
  },
  {
   "property": "C56",
   "status": "proved",
   "theorems": [
    "EvoMPS.C56_window",
    "EvoMPS.C56_limit"
   ],
   "note": "Two- and three-site terms, any block length; for finite windows the remainder is explicit. The limit needs convergence of the powers of the block map (injectivity), as in C48_limit, and an exact solver in calc_K. The tensor-product form of the Hamiltonian is not modelled."
  },
  {
   "property": "C57",
   "status": "partial",
   "theorems": [
    "EvoMPS.C57_site",
    "EvoMPS.C57_site_isometry",
    "EvoMPS.C57_bond",
    "EvoMPS.C57_bond_isometry",
    "EvoMPS.C57_bond_move",
    "EvoMPS.C57_pair",
    "EvoMPS.C57_pair3_partial",
    "EvoMPS.C57_pair_isometry",
    "EvoMPS.C57_accumulated_returns",
    "EvoMPS.C57_returns",
    "EvoMPS.C57_selfadjoint",
    "EvoMPS.C57_pair3_left_violated",
    "EvoMPS.C57_pair3_right_violated"
   ],
   "note": "One site and bond: two- and three-site terms. Pair of sites: two-site terms (C57_pair); three-site terms only if the term is Hermitian in its first site and in its last two sites separately (C57_pair3_partial), because the code omits an adjoint in one branch and exchanges the operands in another: C57_pair3_left_violated and C57_pair3_right_violated are witnesses with Hermitian terms. The matrix product operator argument (HMPO) is not modelled; l = r = 1 as in the central gauge."
  },
  {
   "property": "C58",
   "status": "proved",
   "theorems": [
    "EvoMPS.C58_path",
    "EvoMPS.C58_norm",
    "EvoMPS.C58_energy",
    "EvoMPS.C58_exact",
    "EvoMPS.C58_dmrg",
    "EvoMPS.C58_dmrg_energy",
    "EvoMPS.C58_dmrg_exact",
    "EvoMPS.C58_returns",
    "EvoMPS.C58_hermitian"
   ],
   "note": "gexpmv and ARPACK's eigsh are parameters (Solvers.Ok: correct if they return). dtau real or imaginary (for others see C35_duration_violated). The bond dimensions satisfy the inequalities that the constructor enforces; otherwise the model has the value none. Callbacks must not modify the chain. Two-site sweeps are not covered: they raise for finite chains (C35_two_site_finite_violated). C58_returns assumes bond dimensions of at least 2 because gexpmv divides by zero for vectors with one component."
  },
  {
   "property": "C59",
   "status": "partial",
   "theorems": [
    "EvoMPS.C59_split",
    "EvoMPS.C59_evolve_partial",
    "EvoMPS.C59_optimise_partial",
    "EvoMPS.C59_overlap",
    "EvoMPS.C59_exact",
    "EvoMPS.C59_returns_partial",
    "EvoMPS.C59_default_raises",
    "EvoMPS.C59_threshold",
    "EvoMPS.C59_norm_violated"
   ],
   "note": "Missing: 3-site Hamiltonians whose terms lack the symmetry of C57_pair3_partial. C59_norm_violated: if min_schmidt exceeds all Schmidt coefficients, the bond dimension becomes 0 and the state the zero vector; C59_default_raises: the default arguments D_max=None and min_schmidt=None raise. svd, gexpmv and eigsh are parameters with contracts. The theorems are about the single step: a full two-site sweep of a finite chain raises at its end (C35_two_site_finite_violated)."
  },
  {
   "property": "C60",
   "status": "proved",
   "theorems": [
    "EvoMPS.C60_trivial",
    "EvoMPS.C60_kink",
    "EvoMPS.C60_determined",
    "EvoMPS.C60_block"
   ],
   "note": "The dense form Excite_H_Op with force_pseudo=False and phase_align=False; Excite_H_Op_tp is not modelled. The linear systems and those of calc_K are assumed to be solved exactly (ExactSolver, ExactMomentum). For kinks the two states must have the same Hamiltonian and the same energy, which the code does not check. Blocks of several tensors are rejected (C60_block)."
  },
  {
   "property": "C61",
   "status": "partial",
   "theorems": [
    "EvoMPS.C61_phases_partial",
    "EvoMPS.C61_zero_partial",
    "EvoMPS.C61_determined",
    "EvoMPS.C61_contributions",
    "EvoMPS.C61_block",
    "EvoMPS.C61_violated"
   ],
   "note": "C61_violated: the states with the replaced tensor in the left bulk get the phase exp(-ip(k+1)) and those in the window exp(ipk), which is no plane wave; for momentum pi and the state |0>+|1> the result is -2, the inner product is 0 for both signs of the momentum. C61_phases_partial: which sum is computed for every momentum; C61_zero_partial: for zero momentum it is the inner product. top_triv=True is covered for equal bulk tensors (the code says in a FIXME that otherwise the environment is the wrong one). The linear system is assumed to be solved exactly."
  },
  {
   "property": "C62",
   "status": "partial",
   "theorems": [
    "EvoMPS.C62_canonical_partial",
    "EvoMPS.C62_update",
    "EvoMPS.C62_update_normalized",
    "EvoMPS.C62_single_site_violated",
    "EvoMPS.C62_dimension_violated"
   ],
   "note": "C62_canonical_partial needs full-rank environments (l left of the centre, r right of it) and equal dimension of the sites of the two bulk chains. C62_single_site_violated: with one site N_centre is 0 and restore_CF() and update() raise. C62_dimension_violated: restore_CF() raises if the sites of the left chain have a larger dimension than those of the right chain. C62_update and C62_update_normalized cover update() without restore_CF. eps stands for the literal 1E-15 of simple_renorm."
  },
  {
   "property": "C63",
   "status": "partial",
   "theorems": [
    "EvoMPS.C63_rate",
    "EvoMPS.C63_bound",
    "EvoMPS.C63_same",
    "EvoMPS.C63_converse",
    "EvoMPS.C63_align_partial",
    "EvoMPS.C63_align_violated"
   ],
   "note": "C63_rate needs no assumption on the states; C63_bound and C63_converse need valid environments with full-rank l of this and r of the other state; C63_same needs in addition full rank of all environments and convergence of the powers of both transfer maps (a unique dominant eigenvalue). With left=True the sparse solver returns the complex conjugate of the eigenvalue the dense solver returns; C63_same states which phase results. C63_align_partial needs the block length of the other state to divide that of this state: C63_align_violated shows that otherwise the phase enters the mixed transfer map several times and the eigenvalue is not made positive (L=1, L'=2)."
  },
  {
   "property": "C64",
   "status": "partial",
   "theorems": [
    "EvoMPS.C64_decay",
    "EvoMPS.C64_attained",
    "EvoMPS.C64_gap",
    "EvoMPS.C64_degenerate_violated"
   ],
   "note": "C64_decay, C64_attained and C64_gap hold for states with valid environments whose transfer map has powers that converge to the fixed point; C64_decay assumes that no other eigenvalue is within the tolerance of one (those are discarded by the code). C64_degenerate_violated: without a unique dominant eigenvalue the copies of the eigenvalue one are dropped with a warning and the result is not a bound; for the GHZ state the code returns 0 although correlations do not decay. The sparse solver is assumed to return the leading eigenvalues (SpecLib.Lead); eigenvalues are counted without regard to multiplicity."
  },
  {
   "property": "C65",
   "status": "partial",
   "theorems": [
    "EvoMPS.C65_energy",
    "EvoMPS.C65_local",
    "EvoMPS.C65_local_partial",
    "EvoMPS.C65_callable_raises",
    "EvoMPS.C65_local_violated"
   ],
   "note": "C65_energy: the limit, for terms on two and three sites. C65_local: h_expect for terms on two sites. C65_local_partial and C65_local_violated: with terms on three sites the entries of h_expect in front of the centre belong to the term starting one site earlier, and one entry is missing. C65_callable_raises: with a Hamiltonian given by a function the first calc_C raises an exception, as the array for the last term has not been created. For terms on three sites the block length of the right bulk has to divide N, since get_r(N+2) counts sites from the start of the window (C49). Bulk solvers are assumed exact (ExactSolver)."
  },
  {
   "property": "C66",
   "status": "partial",
   "theorems": [
    "EvoMPS.C66_tangent",
    "EvoMPS.C66_tangent_partial",
    "EvoMPS.C66_centre_violated"
   ],
   "note": "C66_tangent: the statement for terms on two sites. C66_tangent_partial: for terms on three sites at all sites but the centre, with the exact deviation of the tensor of the centre. C66_centre_violated: with terms on three sites calc_B_centre subtracts the energies of the wrong terms (h_expect is shifted in front of the centre, C65), and the tensor of the centre is not the projection. The environments are assumed to have eigenvalues above zero_tol and the solvers of the bulks to be exact; all local dimensions and all bond dimensions are equal in the model."
  },
  {
   "property": "C67",
   "status": "partial",
   "theorems": [
    "EvoMPS.C67_grow_left_partial",
    "EvoMPS.C67_grow_right_partial",
    "EvoMPS.C67_zero",
    "EvoMPS.C67_ends",
    "EvoMPS.C67_centre_violated",
    "EvoMPS.C67_callable_violated",
    "EvoMPS.C67_three_violated",
    "EvoMPS.C67_end_violated"
   ],
   "note": "C67_grow_left_partial, C67_grow_right_partial: the statement for terms on two sites given as a list, if the first and last right environments of the right block are equal (as in canonical form or with blocks of one site); after grow_right the excess energy changes by the number of new sites times the difference of the bulk energies per site, because the left bulk energy is subtracted for all sites of the window. C67_end_violated: else r[N+1], a copy of r[N], is wrong, and so is the energy of the last term. C67_centre_violated: N_centre moves by m instead of m L. C67_callable_violated: a Hamiltonian given by a function is not shifted. C67_three_violated: for terms on three sites the term at site -1 is the last entry of the list and is misplaced by both functions. C67_zero: grow_right(0) raises."
  },
  {
   "property": "C68",
   "status": "partial",
   "theorems": [
    "EvoMPS.C68_orthogonal",
    "EvoMPS.C68_sum_partial",
    "EvoMPS.C68_sum_rcf_partial",
    "EvoMPS.C68_per_site",
    "EvoMPS.C68_offset",
    "EvoMPS.C68_D1_violated",
    "EvoMPS.C68_callable_violated"
   ],
   "note": "C68_sum_partial: the tuple, and every entry of the matrix is the limit of the sums over whole blocks divided by the squared norm, for D not 1 and op an array, provided tr(l[k-1]^dagger r[k]) is not 0 (the code passes r[k] instead of r[k-1] to the pseudo inverse; harmless then). C68_sum_rcf_partial: this proviso always holds in right canonical form. C68_per_site: the second value for any operator. C68_orthogonal: the vectors are orthogonal. C68_D1_violated: for D=1 the result is one array, not a tuple. C68_callable_violated: a function op always raises although documented. C68_offset: k outside the block raises."
  },
  {
   "property": "C69",
   "status": "partial",
   "theorems": [
    "EvoMPS.C69_string_partial",
    "EvoMPS.C69_rate",
    "EvoMPS.C69_bound",
    "EvoMPS.C69_symmetric",
    "EvoMPS.C69_detects",
    "EvoMPS.C69_product",
    "EvoMPS.C69_degenerate_violated"
   ],
   "note": "C69_string_partial: if the largest Schmidt coefficient is not degenerate (and D is not 1), for every eigenvalue solver that meets its contract virtop is unitary, equal to the symmetry's gauge transformation up to a phase, describes the action on all amplitudes of the half chain (StringAction), has entry one at the largest coefficient, and the overlap per site has modulus one. C69_degenerate_violated: with a degenerate largest coefficient the arrays can be NaN (0/0 in the phase), shown for all solvers. Per site: C69_rate (rate of all strings), C69_bound, C69_symmetric, C69_detects (converse), C69_product (D=1). That the value is an array with one entry is not modelled."
  },
  {
   "property": "C70",
   "status": "partial",
   "theorems": [
    "EvoMPS.C70_K",
    "EvoMPS.C70_same",
    "EvoMPS.C70_gradient",
    "EvoMPS.C70_two_site",
    "EvoMPS.C70_expect_violated"
   ],
   "note": "C70_same: equality of calc_K, calc_K_l and calc_B in both forms for every solver (raising included), C70_K and C70_gradient: energy density, K equations and energy gradient of the sum of products stated without the other code path, C70_two_site. Expectation values: C70_expect_violated, with ham_tp set update() leaves the products AA stale, so expect_2s of a new object gives 0 for the identity, and expect_2s of the Hamiltonian itself raises. The loop of calc_BB_Y_2s over the block is not modelled, only the routine it calls; an empty list ham_tp is outside the model."
  },
  {
   "property": "C71",
   "status": "partial",
   "theorems": [
    "EvoMPS.C71_returns",
    "EvoMPS.C71_truncate",
    "EvoMPS.C71_canonical",
    "EvoMPS.C71_auto",
    "EvoMPS.C71_canonical_violated"
   ],
   "note": "C71_returns, C71_truncate, C71_canonical, C71_auto. C71_canonical_violated: when the ranks differ between cuts the right canonical form with update=False leaves matrices r that are not right environments, although expectation values with the stored l and r stay the same. The error made by dropping non-zero weights is not bounded, the update() call after truncation is that of C44 and C45, newD = 0 is outside the model (numpy slices [-0:] and [:0] there)."
  },
  {
   "property": "C72",
   "status": "partial",
   "theorems": [
    "EvoMPS.C72_overlap",
    "EvoMPS.C72_fidelity",
    "EvoMPS.C72_mismatch",
    "EvoMPS.C72_single_violated"
   ],
   "note": "C72_overlap, C72_fidelity, C72_mismatch. C72_single_violated: for a window of one site the site is contracted twice, states with inner product 3/5 give 9/25. The phase of the result is arbitrary, since the phases of the eigenvectors of the solver enter. For orthogonal bulks the inverses are taken before the tolerance is checked and may raise; no claim is made for this case. Windows of different size or local dimension (None is returned) are outside the model."
  },
  {
   "property": "C73",
   "status": "partial",
   "theorems": [
    "EvoMPS.C73_euler",
    "EvoMPS.C73_given",
    "EvoMPS.C73_rk4",
    "EvoMPS.C73_returns",
    "EvoMPS.C73_norm"
   ],
   "note": "C73_euler, C73_rk4, C73_norm, C73_returns; dynexp=True is C84. Missing: different bond and local dimensions, C73_returns and C73_norm for terms on three sites (there the tensor of N_centre is off, C66). Disagreement with what a caller expects: take_step sets the entries of a list given as B to None (C73_given) and take_step_RK4 adds to the arrays of a list given as B_i in place (last clause of C73_rk4)."
  },
  {
   "property": "C74",
   "status": "proved",
   "theorems": [
    "EvoMPS.C74_nullspace",
    "EvoMPS.C74_exact",
    "EvoMPS.C74_empty"
   ],
   "note": "Arrays with two indices (atleast_2d is the identity on them); scipy.linalg.svd is a routine with the contract FullSvd.Ok, met for all matrices (someSvdFn_ok)."
  },
  {
   "property": "C75",
   "status": "partial",
   "theorems": [
    "EvoMPS.C75_right",
    "EvoMPS.C75_left",
    "EvoMPS.C75_right_any",
    "EvoMPS.C75_left_any",
    "EvoMPS.C75_normalised_violated",
    "EvoMPS.C75_unnormalised_violated"
   ],
   "note": "C75_right, C75_left, C75_right_any, C75_left_any. Disagreement: in the right canonical form l[N] is set to one before simple_renorm reads the norm from it, so a state that lost weight is not normalised (C75_normalised_violated: squared norm 16/25), and with normalize=False l[N] is one for a state of squared norm four (C75_unnormalised_violated). The canonical form before the truncation is a hypothesis (C06, C10, C16 for restore_CF)."
  },
  {
   "property": "C76",
   "status": "partial",
   "theorems": [
    "EvoMPS.C76_returns_iff",
    "EvoMPS.C76_energy",
    "EvoMPS.C76_gauge",
    "EvoMPS.C76_optimal",
    "EvoMPS.C76_same",
    "EvoMPS.C76_norm_partial",
    "EvoMPS.C76_norm_violated"
   ],
   "note": "C76_returns_iff, C76_energy, C76_gauge, C76_optimal, C76_same hold as stated. Disagreement: calc_B_MPO does not reset eta_sq, so a value left from an earlier call (take_step with dynexp puts the old array back after the bond dimensions changed) on a site without room for a tangent vector is counted (C76_norm_violated); C76_norm_partial has the condition that these entries are zero."
  },
  {
   "property": "C77",
   "status": "partial",
   "theorems": [
    "EvoMPS.C77_same",
    "EvoMPS.C77_trivial",
    "EvoMPS.C77_kink",
    "EvoMPS.C77_three_violated"
   ],
   "note": "C77_same, C77_trivial, C77_kink hold for two sites. Disagreement: for ham_sites 3 the operator is built, and every product with a vector raises (C77_three_violated). force_pseudo=True and phase_align=True are not modelled."
  },
  {
   "property": "C78",
   "status": "partial",
   "theorems": [
    "EvoMPS.C78_result",
    "EvoMPS.C78_energy",
    "EvoMPS.C78_forward",
    "EvoMPS.C78_wolfe",
    "EvoMPS.C78_first_step",
    "EvoMPS.C78_nearest",
    "EvoMPS.C78_exceptions",
    "EvoMPS.C78_direction",
    "EvoMPS.C78_step",
    "EvoMPS.C78_bracket_violated",
    "EvoMPS.C78_increase_violated",
    "EvoMPS.C78_converge_violated"
   ],
   "note": "The evaluation of a trial state, scipy.optimize.brentq and the roots of the fits are parameters. Disagreements: the second search is accepted whatever its energy, so that a step can raise the energy with exact numbers (C78_increase_violated); an unconverged root finder raises through calc_B_CG (C78_converge_violated); bracket_step calls a method that does not exist (C78_bracket_violated). Lines 1830-1831 set attributes of the search which nothing reads, so that the stored environments are not used as starting vectors of the trial states."
  },
  {
   "property": "C79",
   "status": "partial",
   "theorems": [
    "EvoMPS.C79_overlap_partial",
    "EvoMPS.C79_transform",
    "EvoMPS.C79_gauge",
    "EvoMPS.C79_same_vector_partial",
    "EvoMPS.C79_parameters",
    "EvoMPS.C79_skip_violated"
   ],
   "note": "Only tensors for one site and other=None; the linear solver is assumed to be exact. Disagreement: tensors whose sum over the block is close to zero although they are not gauge-fixed at the separate sites are treated as gauge-fixed, so that tensors which give a multiple of the state have overlap 2 with themselves instead of 0 (C79_skip_violated). The default parameters of _B_rand_GT have the shape D times D(q-1) and only work for q=2."
  },
  {
   "property": "C80",
   "status": "partial",
   "theorems": [
    "EvoMPS.C80_one_site",
    "EvoMPS.C80_two_site",
    "EvoMPS.C80_product",
    "EvoMPS.C80_subtracted",
    "EvoMPS.C80_window",
    "EvoMPS.C80_connected_partial",
    "EvoMPS.C80_connected_violated"
   ],
   "note": "Disagreement: the first array subtracts the product of both expectation values at the second site, instead of op1 at the first and op2 at the second site. A product state with a local change then has the correlation -1 (C80_connected_violated); it is right if B is the tensor of the uniform state (C80_connected_partial). The values are not divided by the norm of the state, as in the code."
  },
  {
   "property": "C81",
   "status": "proved",
   "theorems": [
    "EvoMPS.C81_elements",
    "EvoMPS.C81_wave_packet"
   ],
   "note": "The values are not divided by the norm, as in the code."
  },
  {
   "property": "C82",
   "status": "partial",
   "theorems": [
    "EvoMPS.C82_uniform_roundtrip",
    "EvoMPS.C82_from_file",
    "EvoMPS.C82_rejected_partial",
    "EvoMPS.C82_rejected_violated",
    "EvoMPS.C82_expand_q_violated",
    "EvoMPS.C82_sandwich_roundtrip",
    "EvoMPS.C82_sandwich_rejected",
    "EvoMPS.C82_sandwich_D_violated",
    "EvoMPS.C82_autogrow_partial",
    "EvoMPS.C82_autogrow_violated",
    "EvoMPS.C82_tdvp_load_partial",
    "EvoMPS.C82_tdvp_load_violated",
    "EvoMPS.C82_sandwich_from_file"
   ],
   "note": "The code violates it: a refused import has already replaced the user data (C82_rejected_violated); expand_q and shrink_q call methods that do not exist, the former after replacing the tensors (C82_expand_q_violated); load_state of the sandwich leaves D as it was (C82_sandwich_D_violated), autogrow grows by too many sites for blocks of two or more (C82_autogrow_violated), and the version with Hamiltonian raises for every file with K of bond dimension two or more (C82_tdvp_load_violated). What holds is proved for all sizes. The file format (numpy, pickle) is not modelled: what is read is what was written."
  },
  {
   "property": "C83",
   "status": "partial",
   "theorems": [
    "EvoMPS.C83_bounds",
    "EvoMPS.C83_sv_tol_violated",
    "EvoMPS.C83_state_partial",
    "EvoMPS.C83_state_one_site",
    "EvoMPS.C83_returns_one_site",
    "EvoMPS.C83_orthogonal",
    "EvoMPS.C83_projection",
    "EvoMPS.C83_expand_D",
    "EvoMPS.C83_raises",
    "EvoMPS.C83_blocks_violated"
   ],
   "note": "The code violates two parts: sv_tol has no effect (C83_sv_tol_violated), and for blocks of two or more sites the step raises an exception if the pairs have different numbers of singular values (C83_raises, C83_blocks_violated). The statement on the new state is proved for blocks of one site, and for longer ones if all pairs have the same number of new indices (C83_state_partial). The environments that expand_D fills are left out; they are initial values of an iteration."
  },
  {
   "property": "C84",
   "status": "partial",
   "theorems": [
    "EvoMPS.C84_bounds",
    "EvoMPS.C84_default",
    "EvoMPS.C84_state",
    "EvoMPS.C84_orthogonal",
    "EvoMPS.C84_projection",
    "EvoMPS.C84_grows"
   ],
   "note": "All bonds have one dimension before the step, as in the other properties of sandwich states; so the theorems cover the first step that enlarges bonds. D_max=0 means that no bond grows here, while for finite chains (C34) it means that there is no limit."
  },
  {
   "property": "C85",
   "status": "proved",
   "theorems": [
    "EvoMPS.C85_sweep",
    "EvoMPS.C85_energy",
    "EvoMPS.C85_exact",
    "EvoMPS.C85_returns",
    "EvoMPS.C85_single_violated",
    "EvoMPS.C85_hermitian"
   ],
   "note": "Disagreement with the code: a chain of a single site raises (C85_single_violated). The arguments ncv and tol are ignored. The bond dimensions are fixed, as in C58. The call leaves identities in the left environments l and does not set eta, so that update() is needed before other methods are used; this is not part of the property."
  },
  {
   "property": "C86",
   "status": "proved",
   "theorems": [
    "EvoMPS.C86_norm",
    "EvoMPS.C86_right",
    "EvoMPS.C86_pos",
    "EvoMPS.C86_restored",
    "EvoMPS.C86_keep",
    "EvoMPS.C86_herm_violated"
   ],
   "note": "Disagreement with the code's documentation: Hermiticity is tested but not returned, so that stored l matrices that are not positive-definite (not even Hermitian) pass all five tests (C86_herm_violated)."
  },
  {
   "property": "C87",
   "status": "proved",
   "theorems": [
    "EvoMPS.C87_align",
    "EvoMPS.C87_energy"
   ],
   "note": "For ham_tp = None. That the phase does what it is meant for is C63."
  },
  {
   "property": "C88",
   "status": "partial",
   "theorems": [
    "EvoMPS.C88_randomize",
    "EvoMPS.C88_randomize_update",
    "EvoMPS.C88_noise",
    "EvoMPS.C88_uniform_randomize",
    "EvoMPS.C88_uniform_noise_partial",
    "EvoMPS.C88_uniform_noise_violated"
   ],
   "note": "Disagreement with the code: add_noise of a uniform chain scales the real part only; the imaginary part changes by up to 1/2 whatever fac is, also for fac = 0 (C88_uniform_noise_violated; what holds is C88_uniform_noise_partial). The update of the uniform chain is not part of the theorems."
  },
  {
   "property": "C89",
   "status": "partial",
   "theorems": [
    "EvoMPS.C89_rcf_keep_partial",
    "EvoMPS.C89_rcf_norm_partial",
    "EvoMPS.C89_lcf_keep_partial",
    "EvoMPS.C89_lcf_norm_partial",
    "EvoMPS.C89_full_rank"
   ],
   "note": "Eigenvalues of the environments have to be zero or above zero_tol. Not proved: that r is right after diag_l=True if on some bond both environments are rank deficient (the eigenvectors of l may then mix a part of the projector with its complement; amplitudes and l are covered)."
  },
  {
   "property": "C90",
   "status": "proved",
   "theorems": [
    "EvoMPS.C90_transfer",
    "EvoMPS.C90_transfer_twice",
    "EvoMPS.C90_pinv",
    "EvoMPS.C90_solver_exists",
    "EvoMPS.C90_unfair"
   ],
   "note": "Exact arithmetic; the two lists of tensors have the same length and square tensors. Assumed: the documented meaning of the CUBLAS routines, and that the default stream waits for the others and they for it. A stream that is never run leaves old memory in the result (C90_unfair), so the fairness of the schedules is needed."
  },
  {
   "property": "C91",
   "status": "partial",
   "theorems": [
    "EvoMPS.C91_calc_C_partial",
    "EvoMPS.C91_calc_C_shape",
    "EvoMPS.C91_calc_C_alias_violated",
    "EvoMPS.C91_allclose",
    "EvoMPS.C91_allclose_shape",
    "EvoMPS.C91_allclose_order"
   ],
   "note": "Exact arithmetic. Disagreement: if AA itself is given as out it is cleared before it is read, and the result is zero (C91_calc_C_alias_violated)."
  },
  {
   "property": "C92",
   "status": "partial",
   "theorems": [
    "EvoMPS.C92_calc_x_partial",
    "EvoMPS.C92_calc_x_raises_violated",
    "EvoMPS.C92_calc_Bs_partial",
    "EvoMPS.C92_calc_Bs_streams_violated",
    "EvoMPS.C92_calc_Bs_dims_violated",
    "EvoMPS.C92_calc_Bs_terms_violated",
    "EvoMPS.C92_calc_B_partial"
   ],
   "note": "Exact arithmetic, operations in program order. Disagreements: calc_x and calc_Bs raise if neighbouring sites differ in dimension (C92_calc_x_raises_violated, C92_calc_Bs_dims_violated), if only one of C and K is given or a pair of neighbours has no Hamiltonian term (C92_calc_Bs_terms_violated); calc_Bs raises unless N is a multiple of max(N // 10, 1), e.g. for 21 sites (C92_calc_Bs_streams_violated). The inverse roots must be Hermitian, which calc_B does not need."
  },
  {
   "property": "C93",
   "status": "partial",
   "theorems": [
    "EvoMPS.C93_from_tensors_partial",
    "EvoMPS.C93_right_end_violated",
    "EvoMPS.C93_right_end_shape_violated",
    "EvoMPS.C93_empty",
    "EvoMPS.C93_function_partial",
    "EvoMPS.C93_function_length_violated",
    "EvoMPS.C93_function_short_violated"
   ],
   "note": "The update of a uniform chain is a parameter: it is assumed to keep block length and dimensions and to leave environments fixed by the block (C44, C45). The tensors of the finite part have the site dimension of the left block (see C49_get_q_violated). Disagreements: get_r(N + 1) stays the matrix of ones of the left bond dimension that the constructor filled in (C93_right_end_violated, C93_right_end_shape_violated); the function sandwich_from_tensors repeats the right block with the length of the left one, dropping the other tensors (C93_function_length_violated), and raises if the right block is shorter (C93_function_short_violated). The gaps of C49 for cuts to the right of the finite part remain."
  },
  {
   "property": "C94",
   "status": "proved",
   "theorems": [
    "EvoMPS.C94_bond",
    "EvoMPS.C94_returns",
    "EvoMPS.C94_selfadjoint",
    "EvoMPS.C94_ready"
   ],
   "note": "Exact arithmetic; the object must be up to date and in the gauge of the bond, as after a step of the sweep. (take_step_split itself raises before it gets there, see C35_take_step_split_violated.)"
  },
  {
   "property": "C95",
   "status": "partial",
   "theorems": [
    "EvoMPS.C95_set_q_grow_partial",
    "EvoMPS.C95_set_q_shrink_partial",
    "EvoMPS.C95_set_q_raises",
    "EvoMPS.C95_set_q_violated",
    "EvoMPS.C95_ham_sites_violated",
    "EvoMPS.C95_ham_sites_partial",
    "EvoMPS.C95_expand_smaller",
    "EvoMPS.C95_expand_partial",
    "EvoMPS.C95_expand_violated"
   ],
   "note": "The tensors are treated as stated. Disagreements: expand_D randomizes the tail of the flat array, which contains part of the old block of the environments and of K[0], and leaves new entries at one (C95_expand_violated; C95_expand_partial says which entries survive); both methods count the sites of the Hamiltonian anew, so the number given for a function is lost (C95_ham_sites_violated); a state with one level is accepted at any position and becomes zero (C95_set_q_violated)."
  },
  {
   "property": "C96",
   "status": "partial",
   "theorems": [
    "EvoMPS.C96_from_tensors",
    "EvoMPS.C96_raises",
    "EvoMPS.C96_shapes_violated",
    "EvoMPS.C96_from_mps_partial",
    "EvoMPS.C96_guess_violated",
    "EvoMPS.C96_ham_sites_violated",
    "EvoMPS.C96_tdvp_from_tensors_partial"
   ],
   "note": "State and environments are kept as stated. The update after from_tensors is a parameter (C44, C45). Disagreements: from_mps assigns the right environment to the starting value of the left fixed point and none to that of the right one (C96_guess_violated); ham_sites is ignored for functions (C96_ham_sites_violated, see C48); tensors with wrong axes of length one are accepted and repeated (C96_shapes_violated)."
  },
  {
   "property": "C97",
   "status": "partial",
   "theorems": [
    "EvoMPS.C97_site",
    "EvoMPS.C97_bond",
    "EvoMPS.C97_pair_violated",
    "EvoMPS.C97_pair",
    "EvoMPS.C97_right_environments",
    "EvoMPS.C97_setup_partial",
    "EvoMPS.C97_evolve_split_violated",
    "EvoMPS.C97_site_returns"
   ],
   "note": "The operators for a site and for a bond are right (C97_site, C97_bond), with the environments the loop computes (C97_right_environments); without HMPO the operator for a pair is that of C57 (C97_pair). Disagreements: evolve_split with HMPO raises for every chain, because update_Heff_right reads HM before it is assigned (C97_evolve_split_violated); the operator for a pair raises with HMPO (C97_pair_violated)."
  },
  {
   "property": "C98",
   "status": "partial",
   "theorems": [
    "EvoMPS.C98_from_mps_partial",
    "EvoMPS.C98_rejected",
    "EvoMPS.C98_function_violated",
    "EvoMPS.C98_single_site_violated",
    "EvoMPS.C98_centre_violated",
    "EvoMPS.C98_q_violated",
    "EvoMPS.C98_ham_sites_violated"
   ],
   "note": "The tensors are those of the given state up to the norm, and the environments belong to them (C98_from_mps_partial); wrong numbers of terms are rejected (C98_rejected). Disagreements: the centre becomes N // 2 (C98_centre_violated), get_q is that of the left chain in the whole finite part (C98_q_violated), ham_sites has no effect (C98_ham_sites_violated), Hamiltonians given as functions are rejected (C98_function_violated), as are finite parts with one site (C98_single_site_violated)."
  },
  {
   "property": "C99",
   "status": "partial",
   "theorems": [
    "EvoMPS.C99_variables",
    "EvoMPS.C99_slope",
    "EvoMPS.C99_result",
    "EvoMPS.C99_gradient_violated"
   ],
   "note": "Variables and tensors correspond one to one (C99_variables), the slope is that of calc_B (C99_slope), and the result is the returned state (C99_result). Disagreement: the function does not change when the tensors are multiplied by a number, since the update normalises the state, and neither does the returned gradient, while the derivative of such a function is inversely proportional to the number (C99_gradient_violated). That the update gives the same for multiples of the tensors is a hypothesis."
  },
  {
   "property": "C100",
   "status": "partial",
   "theorems": [
    "EvoMPS.C100_array_partial",
    "EvoMPS.C100_same",
    "EvoMPS.C100_index_violated",
    "EvoMPS.C100_index_fun"
   ],
   "note": "The array is right for functions of the values of their arguments (C100_array_partial) and the one that calc_C uses for a function (C100_same). Disagreement: the functions are called with floating-point numbers, so a function that looks up its arguments in an array raises (C100_index_violated)."
  },
  {
   "property": "C101",
   "status": "partial",
   "theorems": [
    "EvoMPS.C101_steps",
    "EvoMPS.C101_continue",
    "EvoMPS.C101_rows_partial",
    "EvoMPS.C101_file_partial",
    "EvoMPS.C101_file_violated",
    "EvoMPS.C101_block_violated",
    "EvoMPS.C101_saved_violated"
   ],
   "note": "The steps are right, also when a run is continued (C101_steps, C101_continue); the rows have one length if blocks have one site (C101_rows_partial); the file agrees without growing or with a measurement at each step (C101_file_partial). Disagreements: if the finite part grows between measurements the file is not rewritten (C101_file_violated); for blocks of several sites too few zeros are added to the rows (C101_block_violated); the last state is not saved unless save_every divides steps, as the condition is i == steps - 1 and the loop ends with i == steps (C101_saved_violated)."
  },
  {
   "property": "C102",
   "status": "partial",
   "theorems": [
    "EvoMPS.C102_direction",
    "EvoMPS.C102_kept",
    "EvoMPS.C102_reset",
    "EvoMPS.C102_energy_partial",
    "EvoMPS.C102_raises",
    "EvoMPS.C102_low_violated"
   ],
   "note": "The vector is the gradient or the sum (C102_direction, C102_kept), a reset ignores the past (C102_reset), the energy does not rise if the norm of the gradient is not below the threshold (C102_energy_partial), and the call raises exactly if the previous direction lacks an entry (C102_raises). Disagreement: below the threshold the energy is not compared, and the step may raise it (C102_low_violated)."
  }
 ]
}