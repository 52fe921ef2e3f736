import Verif.Props.BondDim
import Verif.Props.Canon
import Verif.Props.CanonEvd
import Verif.Props.CanonLeft
import Verif.Props.CheckRCF
import Verif.Props.Chunks
import Verif.Props.Compiled
import Verif.Props.Contract
import Verif.Props.Corr
import Verif.Props.Correl
import Verif.Props.Density
import Verif.Props.Diss
import Verif.Props.Drivers
import Verif.Props.DynExp
import Verif.Props.EffMpo
import Verif.Props.EffOps
import Verif.Props.Energy
import Verif.Props.Example
import Verif.Props.Excite
import Verif.Props.ExciteSep
import Verif.Props.ExciteTp
import Verif.Props.Expmv
import Verif.Props.Fidelity
import Verif.Props.GenBond
import Verif.Props.GenCG
import Verif.Props.GenSweep
import Verif.Props.GoLoop
import Verif.Props.Gpu
import Verif.Props.GpuTangent
import Verif.Props.HalfChain
import Verif.Props.HalfString
import Verif.Props.HamTable
import Verif.Props.InitState
import Verif.Props.Inner
import Verif.Props.LineSearch
import Verif.Props.MatMul
import Verif.Props.Measure
import Verif.Props.Mpo
import Verif.Props.MpoTangent
import Verif.Props.Multi
import Verif.Props.Noise
import Verif.Props.Nullspace
import Verif.Props.PackCG
import Verif.Props.Persist
import Verif.Props.PhaseTdvp
import Verif.Props.Renorm
import Verif.Props.Retry
import Verif.Props.Sandwich
import Verif.Props.Schmidt
import Verif.Props.SetState
import Verif.Props.SplitStep
import Verif.Props.Step
import Verif.Props.SvdNull
import Verif.Props.SwBuild
import Verif.Props.SwCF
import Verif.Props.SwDyn
import Verif.Props.SwEnergy
import Verif.Props.SwFromMps
import Verif.Props.SwGrad
import Verif.Props.SwGrow
import Verif.Props.SwOverlap
import Verif.Props.SwStep
import Verif.Props.SwTangent
import Verif.Props.Sweep
import Verif.Props.Tangent
import Verif.Props.TensorProd
import Verif.Props.TruncUpdate
import Verif.Props.Truncate
import Verif.Props.TwoSplit
import Verif.Props.UniformBlock
import Verif.Props.UniformBuild
import Verif.Props.UniformCF
import Verif.Props.UniformDyn
import Verif.Props.UniformEnv
import Verif.Props.UniformExpect
import Verif.Props.UniformK
import Verif.Props.UniformLimit
import Verif.Props.UniformOverlap
import Verif.Props.UniformPinv
import Verif.Props.UniformResize
import Verif.Props.UniformSearch
import Verif.Props.UniformTangent
import Verif.Props.UniformTangentExp
import Verif.Props.UniformTransfer
import Verif.Props.UniformTrunc

/-!
# Axioms of the property theorems

The build prints the axioms each theorem depends on.
-/

#print axioms EvoMPS.C01_norm_at_every_cut
#print axioms EvoMPS.C02_expect_1s
#print axioms EvoMPS.C03_expect_2s
#print axioms EvoMPS.C04_expect_3s
#print axioms EvoMPS.C05_expect_1s_1s
#print axioms EvoMPS.C05_intermediates
#print axioms EvoMPS.C06_correlation
#print axioms EvoMPS.C06_exvals_partial
#print axioms EvoMPS.C06_exvals_d_zero_raises
#print axioms EvoMPS.C06_exvals_violated
#print axioms EvoMPS.C07_string_partial
#print axioms EvoMPS.C07_string_raises
#print axioms EvoMPS.C07_violated
#print axioms EvoMPS.C08_expect_MPO
#print axioms EvoMPS.C08_expect_MPO_raises
#print axioms EvoMPS.C08_expect_MPO_product
#print axioms EvoMPS.C09_density_transposed_partial
#print axioms EvoMPS.C09_hermitian
#print axioms EvoMPS.C09_trace
#print axioms EvoMPS.C09_violated
#print axioms EvoMPS.C10_density_transposed_partial
#print axioms EvoMPS.C10_raises
#print axioms EvoMPS.C10_uninitialised
#print axioms EvoMPS.C10_violated
#print axioms EvoMPS.C10_violated_equal_dims
#print axioms EvoMPS.C11_inner
#print axioms EvoMPS.C11_inner_raises
#print axioms EvoMPS.C11_inner_conj
#print axioms EvoMPS.C12_apply_op_1s
#print axioms EvoMPS.C12_apply_op_1s_raises
#print axioms EvoMPS.C13_apply_op_MPO
#print axioms EvoMPS.C13_apply_op_MPO_raises
#print axioms EvoMPS.C13_consistent
#print axioms EvoMPS.C14_right_routines
#print axioms EvoMPS.C14_apply_routines
#print axioms EvoMPS.C14_conj_routines
#print axioms EvoMPS.C14_three_site_routines
#print axioms EvoMPS.C14_tensor_product_routines
#print axioms EvoMPS.C14_left_routines
#print axioms EvoMPS.C14_adjoint
#print axioms EvoMPS.C14_adjoint_op
#print axioms EvoMPS.C15_multi_eq_successive
#print axioms EvoMPS.C15_multi_regroup
#print axioms EvoMPS.C15_multi_two_site
#print axioms EvoMPS.C16_update_normalize
#print axioms EvoMPS.C16_update_no_normalize
#print axioms EvoMPS.C16_simple_renorm
#print axioms EvoMPS.C17_bond_dims
#print axioms EvoMPS.C17_rcf_keep
#print axioms EvoMPS.C17_rcf_normalize
#print axioms EvoMPS.C18_diag_l
#print axioms EvoMPS.C19_bond_dims
#print axioms EvoMPS.C19_lcf_keep_partial
#print axioms EvoMPS.C19_stored_l
#print axioms EvoMPS.C19_lcf_normalize_partial
#print axioms EvoMPS.C19_stored_l_violated
#print axioms EvoMPS.C20_right
#print axioms EvoMPS.C20_left
#print axioms EvoMPS.C21_truncate_partial
#print axioms EvoMPS.C21_larger_rejected
#print axioms EvoMPS.C21_same_violated
#print axioms EvoMPS.C21_zero_raises
#print axioms EvoMPS.C22_corrected_dims
#print axioms EvoMPS.C22_never_increases
#print axioms EvoMPS.C22_idempotent
#print axioms EvoMPS.C22_neighbour_partial
#print axioms EvoMPS.C22_neighbour_violated
#print axioms EvoMPS.C23_max_dim
#print axioms EvoMPS.C24_succeeds_iff
#print axioms EvoMPS.C24_full_rank
#print axioms EvoMPS.C24_norm_partial
#print axioms EvoMPS.C24_raises_violated
#print axioms EvoMPS.C24_norm_violated
#print axioms EvoMPS.C25_product_actual
#print axioms EvoMPS.C25_product_partial
#print axioms EvoMPS.C25_raises
#print axioms EvoMPS.C25_product_violated
#print axioms EvoMPS.C26_from_tensors
#print axioms EvoMPS.C26_wrong_number
#print axioms EvoMPS.C26_mismatch
#print axioms EvoMPS.C26_save_load
#print axioms EvoMPS.C26_load_short
#print axioms EvoMPS.C26_mps_from_tensors_partial
#print axioms EvoMPS.C26_mps_from_tensors_violated
#print axioms EvoMPS.C27_energy
#print axioms EvoMPS.C28_energy_left_two_site
#print axioms EvoMPS.C28_energy_left_three_site_partial
#print axioms EvoMPS.C28_energy_left_violated
#print axioms EvoMPS.C28_missing_term_raises
#print axioms EvoMPS.C28_one_site_raises
#print axioms EvoMPS.C29_any_parameter
#print axioms EvoMPS.C29_gauge
#print axioms EvoMPS.C29_gauge_left
#print axioms EvoMPS.C30_returns
#print axioms EvoMPS.C30_projection
#print axioms EvoMPS.C30_optimal
#print axioms EvoMPS.C30_closest
#print axioms EvoMPS.C30_three_site_missing_raises
#print axioms EvoMPS.C30_left_two_site_missing_raises
#print axioms EvoMPS.C31_norm_partial
#print axioms EvoMPS.C32_euler
#print axioms EvoMPS.C32_given
#print axioms EvoMPS.C32_derivative
#print axioms EvoMPS.C32_energy
#print axioms EvoMPS.C33_rk4
#print axioms EvoMPS.C33_slope
#print axioms EvoMPS.C33_returns
#print axioms EvoMPS.C33_argument_violated
#print axioms EvoMPS.C33_uniform_partial
#print axioms EvoMPS.C33_uniform_violated
#print axioms EvoMPS.C34_bounds
#print axioms EvoMPS.C34_state
#print axioms EvoMPS.C34_product
#print axioms EvoMPS.C34_derivative
#print axioms EvoMPS.C34_first_order
#print axioms EvoMPS.C34_returns
#print axioms EvoMPS.C34_orthogonal
#print axioms EvoMPS.C34_projection
#print axioms EvoMPS.C35_returns
#print axioms EvoMPS.C35_faithful
#print axioms EvoMPS.C35_schedule_one_site
#print axioms EvoMPS.C35_schedule_two_site
#print axioms EvoMPS.C35_duration
#print axioms EvoMPS.C35_duration_violated
#print axioms EvoMPS.C35_totals
#print axioms EvoMPS.C35_order
#print axioms EvoMPS.C35_environments
#print axioms EvoMPS.C35_two_site_finite_violated
#print axioms EvoMPS.C35_switch_violated
#print axioms EvoMPS.C35_net
#print axioms EvoMPS.C35_take_step_split_violated
#print axioms EvoMPS.C35_take_step_split_search
#print axioms EvoMPS.C36_evolve
#print axioms EvoMPS.C36_evolve_total
#print axioms EvoMPS.C36_evolve_exact
#print axioms EvoMPS.C36_evolve_returns
#print axioms EvoMPS.C36_evolve_integ_violated
#print axioms EvoMPS.C36_evolve_uniform_violated
#print axioms EvoMPS.C36_im_time
#print axioms EvoMPS.C36_im_time_returns
#print axioms EvoMPS.C36_im_time_finite_violated
#print axioms EvoMPS.C36_conj_grad
#print axioms EvoMPS.C36_conj_grad_returns
#print axioms EvoMPS.C36_conj_grad_finite_violated
#print axioms EvoMPS.C36_grad_descent
#print axioms EvoMPS.C36_grad_descent_returns
#print axioms EvoMPS.C36_find_ground
#print axioms EvoMPS.C36_find_ground_violated
#print axioms EvoMPS.C36_scipy_ode_violated
#print axioms EvoMPS.C37_autostep
#print axioms EvoMPS.C37_history
#print axioms EvoMPS.C37_im_time
#print axioms EvoMPS.C37_both_directions
#print axioms EvoMPS.C38_steps
#print axioms EvoMPS.C38_errors
#print axioms EvoMPS.C38_zero_time
#print axioms EvoMPS.C38_unlimited
#print axioms EvoMPS.C38_default_tolerance
#print axioms EvoMPS.C38_length_one
#print axioms EvoMPS.C38_breakdown_exact
#print axioms EvoMPS.C38_eigenvector
#print axioms EvoMPS.C39_nullspace
#print axioms EvoMPS.C39_complete
#print axioms EvoMPS.C40_toarray
#print axioms EvoMPS.C40_dot
#print axioms EvoMPS.C40_dot_left
#print axioms EvoMPS.C40_mmul
#print axioms EvoMPS.C40_mmul_diag
#print axioms EvoMPS.C40_linear
#print axioms EvoMPS.C40_elementwise
#print axioms EvoMPS.C40_trace
#print axioms EvoMPS.C40_adjoint
#print axioms EvoMPS.C40_dot_inplace_partial
#print axioms EvoMPS.C40_dot_inplace_violated
#print axioms EvoMPS.C40_inv_sqrt
#print axioms EvoMPS.C41_chunks
#print axioms EvoMPS.C41_eps_l
#print axioms EvoMPS.C41_eps_r
#print axioms EvoMPS.C41_same_as_python
#print axioms EvoMPS.C41_sequential
#print axioms EvoMPS.C41_empty
#print axioms EvoMPS.C42_environments
#print axioms EvoMPS.C42_brute
#print axioms EvoMPS.C42_arpack
#print axioms EvoMPS.C42_phase_needed
#print axioms EvoMPS.C43_apply_right
#print axioms EvoMPS.C43_apply_left
#print axioms EvoMPS.C43_dense
#print axioms EvoMPS.C43_right
#print axioms EvoMPS.C43_left
#print axioms EvoMPS.C43_mismatch
#print axioms EvoMPS.C44_operator_right
#print axioms EvoMPS.C44_operator_left
#print axioms EvoMPS.C44_missing
#print axioms EvoMPS.C44_solution_right
#print axioms EvoMPS.C44_solution_left
#print axioms EvoMPS.C44_projected
#print axioms EvoMPS.C44_residual
#print axioms EvoMPS.C44_unique
#print axioms EvoMPS.C44_brute
#print axioms EvoMPS.C44_brute_raises
#print axioms EvoMPS.C44_brute_lop
#print axioms EvoMPS.C44_solvable
#print axioms EvoMPS.C45_RCF
#print axioms EvoMPS.C45_SCF
#print axioms EvoMPS.C45_LCF_partial
#print axioms EvoMPS.C45_RCF_rank
#print axioms EvoMPS.C45_LCF_violated
#print axioms EvoMPS.C45_SCF_singular
#print axioms EvoMPS.C45_SCF_violated
#print axioms EvoMPS.C45_RCF_violated
#print axioms EvoMPS.C46_row_major
#print axioms EvoMPS.C46_tensor
#print axioms EvoMPS.C46_single
#print axioms EvoMPS.C46_environments
#print axioms EvoMPS.C46_expect
#print axioms EvoMPS.C46_amplitudes
#print axioms EvoMPS.C46_ham
#print axioms EvoMPS.C46_energy
#print axioms EvoMPS.C47_expect_1s
#print axioms EvoMPS.C47_expect_1s_1s_all
#print axioms EvoMPS.C47_expect_1s_1s
#print axioms EvoMPS.C47_distance_zero
#print axioms EvoMPS.C47_correlation
#print axioms EvoMPS.C47_expect_2s_partial
#print axioms EvoMPS.C47_calc_AA
#print axioms EvoMPS.C47_expect_2s_tp_partial
#print axioms EvoMPS.C47_expect_3s
#print axioms EvoMPS.C47_expect_3s_callable_violated
#print axioms EvoMPS.C47_density
#print axioms EvoMPS.C47_occupancy
#print axioms EvoMPS.C47_string_actual
#print axioms EvoMPS.C47_string_partial
#print axioms EvoMPS.C47_apply
#print axioms EvoMPS.C47_expect_2s_violated
#print axioms EvoMPS.C47_products_violated
#print axioms EvoMPS.C47_string_violated
#print axioms EvoMPS.C47_exvals_violated
#print axioms EvoMPS.C47_expect_ham
#print axioms EvoMPS.C47_thermodynamic
#print axioms EvoMPS.C48_K
#print axioms EvoMPS.C48_sum
#print axioms EvoMPS.C48_limit
#print axioms EvoMPS.C48_unique
#print axioms EvoMPS.C48_left_end
#print axioms EvoMPS.C48_left_partial
#print axioms EvoMPS.C48_left_violated
#print axioms EvoMPS.C48_ham_sites_violated
#print axioms EvoMPS.C48_set_ham
#print axioms EvoMPS.C48_average
#print axioms EvoMPS.C49_tensors
#print axioms EvoMPS.C49_tensors_unique
#print axioms EvoMPS.C49_environments_partial
#print axioms EvoMPS.C49_environments_unique
#print axioms EvoMPS.C49_new
#print axioms EvoMPS.C49_grow_left
#print axioms EvoMPS.C49_grow_right_partial
#print axioms EvoMPS.C49_grow_right_violated
#print axioms EvoMPS.C49_get_l_violated
#print axioms EvoMPS.C49_get_r_violated
#print axioms EvoMPS.C49_grow_right_end_violated
#print axioms EvoMPS.C49_get_q_violated
#print axioms EvoMPS.C50_arpack_partial
#print axioms EvoMPS.C50_arpack_accepted_partial
#print axioms EvoMPS.C50_arpack_failure
#print axioms EvoMPS.C50_arpack_violated
#print axioms EvoMPS.C50_largest_partial
#print axioms EvoMPS.C50_largest_dense
#print axioms EvoMPS.C50_largest_failure
#print axioms EvoMPS.C50_largest_violated
#print axioms EvoMPS.C50_excite_partial
#print axioms EvoMPS.C50_excite_violated
#print axioms EvoMPS.C50_power_partial
#print axioms EvoMPS.C50_power_violated
#print axioms EvoMPS.C51_schmidt_decomposition
#print axioms EvoMPS.C51_spectrum
#print axioms EvoMPS.C51_entropy
#print axioms EvoMPS.C52_restored_partial
#print axioms EvoMPS.C52_trials
#print axioms EvoMPS.C52_returns
#print axioms EvoMPS.C52_result
#print axioms EvoMPS.C52_missing_raises
#print axioms EvoMPS.C52_products_violated
#print axioms EvoMPS.C52_skip_violated
#print axioms EvoMPS.C53_step_partial
#print axioms EvoMPS.C53_products
#print axioms EvoMPS.C53_returns
#print axioms EvoMPS.C53_second_step
#print axioms EvoMPS.C53_stale_violated
#print axioms EvoMPS.C53_three_site_violated
#print axioms EvoMPS.C53_one_site
#print axioms EvoMPS.C53_one_site_partial
#print axioms EvoMPS.C53_one_site_violated
#print axioms EvoMPS.C54_sqrtmh
#print axioms EvoMPS.C54_sqrtmh_hermitian_partial
#print axioms EvoMPS.C54_sqrtmh_hermitian_violated
#print axioms EvoMPS.C54_invmh
#print axioms EvoMPS.C55_any_parameter
#print axioms EvoMPS.C55_gauge
#print axioms EvoMPS.C55_returns
#print axioms EvoMPS.C55_orthogonal
#print axioms EvoMPS.C55_cross
#print axioms EvoMPS.C55_norm
#print axioms EvoMPS.C56_window
#print axioms EvoMPS.C56_limit
#print axioms EvoMPS.C57_site
#print axioms EvoMPS.C57_site_isometry
#print axioms EvoMPS.C57_bond
#print axioms EvoMPS.C57_bond_isometry
#print axioms EvoMPS.C57_bond_move
#print axioms EvoMPS.C57_pair
#print axioms EvoMPS.C57_pair3_partial
#print axioms EvoMPS.C57_pair_isometry
#print axioms EvoMPS.C57_accumulated_returns
#print axioms EvoMPS.C57_returns
#print axioms EvoMPS.C57_selfadjoint
#print axioms EvoMPS.C57_pair3_left_violated
#print axioms EvoMPS.C57_pair3_right_violated
#print axioms EvoMPS.C58_path
#print axioms EvoMPS.C58_norm
#print axioms EvoMPS.C58_energy
#print axioms EvoMPS.C58_exact
#print axioms EvoMPS.C58_dmrg
#print axioms EvoMPS.C58_dmrg_energy
#print axioms EvoMPS.C58_dmrg_exact
#print axioms EvoMPS.C58_returns
#print axioms EvoMPS.C58_hermitian
#print axioms EvoMPS.C59_split
#print axioms EvoMPS.C59_evolve_partial
#print axioms EvoMPS.C59_optimise_partial
#print axioms EvoMPS.C59_overlap
#print axioms EvoMPS.C59_exact
#print axioms EvoMPS.C59_returns_partial
#print axioms EvoMPS.C59_default_raises
#print axioms EvoMPS.C59_threshold
#print axioms EvoMPS.C59_norm_violated
#print axioms EvoMPS.C60_trivial
#print axioms EvoMPS.C60_kink
#print axioms EvoMPS.C60_determined
#print axioms EvoMPS.C60_block
#print axioms EvoMPS.C61_phases_partial
#print axioms EvoMPS.C61_zero_partial
#print axioms EvoMPS.C61_determined
#print axioms EvoMPS.C61_contributions
#print axioms EvoMPS.C61_block
#print axioms EvoMPS.C61_violated
#print axioms EvoMPS.C62_canonical_partial
#print axioms EvoMPS.C62_update
#print axioms EvoMPS.C62_update_normalized
#print axioms EvoMPS.C62_single_site_violated
#print axioms EvoMPS.C62_dimension_violated
#print axioms EvoMPS.C63_rate
#print axioms EvoMPS.C63_bound
#print axioms EvoMPS.C63_same
#print axioms EvoMPS.C63_converse
#print axioms EvoMPS.C63_align_partial
#print axioms EvoMPS.C63_align_violated
#print axioms EvoMPS.C64_decay
#print axioms EvoMPS.C64_attained
#print axioms EvoMPS.C64_gap
#print axioms EvoMPS.C64_degenerate_violated
#print axioms EvoMPS.C65_energy
#print axioms EvoMPS.C65_local
#print axioms EvoMPS.C65_local_partial
#print axioms EvoMPS.C65_callable_raises
#print axioms EvoMPS.C65_local_violated
#print axioms EvoMPS.C66_tangent
#print axioms EvoMPS.C66_tangent_partial
#print axioms EvoMPS.C66_centre_violated
#print axioms EvoMPS.C67_grow_left_partial
#print axioms EvoMPS.C67_grow_right_partial
#print axioms EvoMPS.C67_zero
#print axioms EvoMPS.C67_ends
#print axioms EvoMPS.C67_centre_violated
#print axioms EvoMPS.C67_callable_violated
#print axioms EvoMPS.C67_three_violated
#print axioms EvoMPS.C67_end_violated
#print axioms EvoMPS.C68_orthogonal
#print axioms EvoMPS.C68_sum_partial
#print axioms EvoMPS.C68_sum_rcf_partial
#print axioms EvoMPS.C68_per_site
#print axioms EvoMPS.C68_offset
#print axioms EvoMPS.C68_D1_violated
#print axioms EvoMPS.C68_callable_violated
#print axioms EvoMPS.C69_string_partial
#print axioms EvoMPS.C69_rate
#print axioms EvoMPS.C69_bound
#print axioms EvoMPS.C69_symmetric
#print axioms EvoMPS.C69_detects
#print axioms EvoMPS.C69_product
#print axioms EvoMPS.C69_degenerate_violated
#print axioms EvoMPS.C70_K
#print axioms EvoMPS.C70_same
#print axioms EvoMPS.C70_gradient
#print axioms EvoMPS.C70_two_site
#print axioms EvoMPS.C70_expect_violated
#print axioms EvoMPS.C71_returns
#print axioms EvoMPS.C71_truncate
#print axioms EvoMPS.C71_canonical
#print axioms EvoMPS.C71_auto
#print axioms EvoMPS.C71_canonical_violated
#print axioms EvoMPS.C72_overlap
#print axioms EvoMPS.C72_fidelity
#print axioms EvoMPS.C72_mismatch
#print axioms EvoMPS.C72_single_violated
#print axioms EvoMPS.C73_euler
#print axioms EvoMPS.C73_given
#print axioms EvoMPS.C73_rk4
#print axioms EvoMPS.C73_returns
#print axioms EvoMPS.C73_norm
#print axioms EvoMPS.C74_nullspace
#print axioms EvoMPS.C74_exact
#print axioms EvoMPS.C74_empty
#print axioms EvoMPS.C75_right
#print axioms EvoMPS.C75_left
#print axioms EvoMPS.C75_right_any
#print axioms EvoMPS.C75_left_any
#print axioms EvoMPS.C75_normalised_violated
#print axioms EvoMPS.C75_unnormalised_violated
#print axioms EvoMPS.C76_returns_iff
#print axioms EvoMPS.C76_energy
#print axioms EvoMPS.C76_gauge
#print axioms EvoMPS.C76_optimal
#print axioms EvoMPS.C76_same
#print axioms EvoMPS.C76_norm_partial
#print axioms EvoMPS.C76_norm_violated
#print axioms EvoMPS.C77_same
#print axioms EvoMPS.C77_trivial
#print axioms EvoMPS.C77_kink
#print axioms EvoMPS.C77_three_violated
#print axioms EvoMPS.C78_result
#print axioms EvoMPS.C78_energy
#print axioms EvoMPS.C78_forward
#print axioms EvoMPS.C78_wolfe
#print axioms EvoMPS.C78_first_step
#print axioms EvoMPS.C78_nearest
#print axioms EvoMPS.C78_exceptions
#print axioms EvoMPS.C78_direction
#print axioms EvoMPS.C78_step
#print axioms EvoMPS.C78_bracket_violated
#print axioms EvoMPS.C78_increase_violated
#print axioms EvoMPS.C78_converge_violated
#print axioms EvoMPS.C79_overlap_partial
#print axioms EvoMPS.C79_transform
#print axioms EvoMPS.C79_gauge
#print axioms EvoMPS.C79_same_vector_partial
#print axioms EvoMPS.C79_parameters
#print axioms EvoMPS.C79_skip_violated
#print axioms EvoMPS.C80_one_site
#print axioms EvoMPS.C80_two_site
#print axioms EvoMPS.C80_product
#print axioms EvoMPS.C80_subtracted
#print axioms EvoMPS.C80_window
#print axioms EvoMPS.C80_connected_partial
#print axioms EvoMPS.C80_connected_violated
#print axioms EvoMPS.C81_elements
#print axioms EvoMPS.C81_wave_packet
#print axioms EvoMPS.C82_uniform_roundtrip
#print axioms EvoMPS.C82_from_file
#print axioms EvoMPS.C82_rejected_partial
#print axioms EvoMPS.C82_rejected_violated
#print axioms EvoMPS.C82_expand_q_violated
#print axioms EvoMPS.C82_sandwich_roundtrip
#print axioms EvoMPS.C82_sandwich_rejected
#print axioms EvoMPS.C82_sandwich_D_violated
#print axioms EvoMPS.C82_autogrow_partial
#print axioms EvoMPS.C82_autogrow_violated
#print axioms EvoMPS.C82_tdvp_load_partial
#print axioms EvoMPS.C82_tdvp_load_violated
#print axioms EvoMPS.C82_sandwich_from_file
#print axioms EvoMPS.C83_bounds
#print axioms EvoMPS.C83_sv_tol_violated
#print axioms EvoMPS.C83_state_partial
#print axioms EvoMPS.C83_state_one_site
#print axioms EvoMPS.C83_returns_one_site
#print axioms EvoMPS.C83_orthogonal
#print axioms EvoMPS.C83_projection
#print axioms EvoMPS.C83_expand_D
#print axioms EvoMPS.C83_raises
#print axioms EvoMPS.C83_blocks_violated
#print axioms EvoMPS.C84_bounds
#print axioms EvoMPS.C84_default
#print axioms EvoMPS.C84_state
#print axioms EvoMPS.C84_orthogonal
#print axioms EvoMPS.C84_projection
#print axioms EvoMPS.C84_grows
#print axioms EvoMPS.C85_sweep
#print axioms EvoMPS.C85_energy
#print axioms EvoMPS.C85_exact
#print axioms EvoMPS.C85_returns
#print axioms EvoMPS.C85_single_violated
#print axioms EvoMPS.C85_hermitian
#print axioms EvoMPS.C86_norm
#print axioms EvoMPS.C86_right
#print axioms EvoMPS.C86_pos
#print axioms EvoMPS.C86_restored
#print axioms EvoMPS.C86_keep
#print axioms EvoMPS.C86_herm_violated
#print axioms EvoMPS.C87_align
#print axioms EvoMPS.C87_energy
#print axioms EvoMPS.C88_randomize
#print axioms EvoMPS.C88_randomize_update
#print axioms EvoMPS.C88_noise
#print axioms EvoMPS.C88_uniform_randomize
#print axioms EvoMPS.C88_uniform_noise_partial
#print axioms EvoMPS.C88_uniform_noise_violated
#print axioms EvoMPS.C89_rcf_keep_partial
#print axioms EvoMPS.C89_rcf_norm_partial
#print axioms EvoMPS.C89_lcf_keep_partial
#print axioms EvoMPS.C89_lcf_norm_partial
#print axioms EvoMPS.C89_full_rank
#print axioms EvoMPS.C90_transfer
#print axioms EvoMPS.C90_transfer_twice
#print axioms EvoMPS.C90_pinv
#print axioms EvoMPS.C90_solver_exists
#print axioms EvoMPS.C90_unfair
#print axioms EvoMPS.C91_calc_C_partial
#print axioms EvoMPS.C91_calc_C_shape
#print axioms EvoMPS.C91_calc_C_alias_violated
#print axioms EvoMPS.C91_allclose
#print axioms EvoMPS.C91_allclose_shape
#print axioms EvoMPS.C91_allclose_order
#print axioms EvoMPS.C92_calc_x_partial
#print axioms EvoMPS.C92_calc_x_raises_violated
#print axioms EvoMPS.C92_calc_Bs_partial
#print axioms EvoMPS.C92_calc_Bs_streams_violated
#print axioms EvoMPS.C92_calc_Bs_dims_violated
#print axioms EvoMPS.C92_calc_Bs_terms_violated
#print axioms EvoMPS.C92_calc_B_partial
#print axioms EvoMPS.C93_from_tensors_partial
#print axioms EvoMPS.C93_right_end_violated
#print axioms EvoMPS.C93_right_end_shape_violated
#print axioms EvoMPS.C93_empty
#print axioms EvoMPS.C93_function_partial
#print axioms EvoMPS.C93_function_length_violated
#print axioms EvoMPS.C93_function_short_violated
#print axioms EvoMPS.C94_bond
#print axioms EvoMPS.C94_returns
#print axioms EvoMPS.C94_selfadjoint
#print axioms EvoMPS.C94_ready
#print axioms EvoMPS.C95_set_q_grow_partial
#print axioms EvoMPS.C95_set_q_shrink_partial
#print axioms EvoMPS.C95_set_q_raises
#print axioms EvoMPS.C95_set_q_violated
#print axioms EvoMPS.C95_ham_sites_violated
#print axioms EvoMPS.C95_ham_sites_partial
#print axioms EvoMPS.C95_expand_smaller
#print axioms EvoMPS.C95_expand_partial
#print axioms EvoMPS.C95_expand_violated
#print axioms EvoMPS.C96_from_tensors
#print axioms EvoMPS.C96_raises
#print axioms EvoMPS.C96_shapes_violated
#print axioms EvoMPS.C96_from_mps_partial
#print axioms EvoMPS.C96_guess_violated
#print axioms EvoMPS.C96_ham_sites_violated
#print axioms EvoMPS.C96_tdvp_from_tensors_partial
#print axioms EvoMPS.C97_site
#print axioms EvoMPS.C97_bond
#print axioms EvoMPS.C97_pair_violated
#print axioms EvoMPS.C97_pair
#print axioms EvoMPS.C97_right_environments
#print axioms EvoMPS.C97_setup_partial
#print axioms EvoMPS.C97_evolve_split_violated
#print axioms EvoMPS.C97_site_returns
#print axioms EvoMPS.C98_from_mps_partial
#print axioms EvoMPS.C98_rejected
#print axioms EvoMPS.C98_function_violated
#print axioms EvoMPS.C98_single_site_violated
#print axioms EvoMPS.C98_centre_violated
#print axioms EvoMPS.C98_q_violated
#print axioms EvoMPS.C98_ham_sites_violated
#print axioms EvoMPS.C99_variables
#print axioms EvoMPS.C99_slope
#print axioms EvoMPS.C99_result
#print axioms EvoMPS.C99_gradient_violated
#print axioms EvoMPS.C100_array_partial
#print axioms EvoMPS.C100_same
#print axioms EvoMPS.C100_index_violated
#print axioms EvoMPS.C100_index_fun
#print axioms EvoMPS.C101_steps
#print axioms EvoMPS.C101_continue
#print axioms EvoMPS.C101_rows_partial
#print axioms EvoMPS.C101_file_partial
#print axioms EvoMPS.C101_file_violated
#print axioms EvoMPS.C101_block_violated
#print axioms EvoMPS.C101_saved_violated
#print axioms EvoMPS.C102_direction
#print axioms EvoMPS.C102_kept
#print axioms EvoMPS.C102_reset
#print axioms EvoMPS.C102_energy_partial
#print axioms EvoMPS.C102_raises
#print axioms EvoMPS.C102_low_violated
