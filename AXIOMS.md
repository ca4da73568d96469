# Axioms used by each theorem of MANIFEST.json (output of `#print axioms`)

## C01

* `QNET.Perm.C01_check_iff`: propext, Classical.choice, Quot.sound

## C02

* `QNET.Perm.C02_invert`: propext, Classical.choice, Quot.sound
* `QNET.Perm.C02_invert_pointwise`: propext, Classical.choice, Quot.sound

## C03

* `QNET.Perm.C03_compose_monoid`: propext, Classical.choice, Quot.sound
* `QNET.Perm.C03_permute_entry`: propext, Classical.choice, Quot.sound
* `QNET.Perm.C03_permute_errors`: propext, Classical.choice, Quot.sound
* `QNET.Perm.C03_permute_permute`: propext, Classical.choice, Quot.sound
* `QNET.Perm.C03_refuted_str`: propext, Classical.choice, Quot.sound
* `QNET.Perm.C03_sequence_partial`: propext, Classical.choice, Quot.sound

## C04

* `QNET.Perm.C04_cycles`: propext, Classical.choice, Quot.sound
* `QNET.Perm.C04_error_cases`: propext, Classical.choice, Quot.sound

## C05

* `QNET.Perm.C05_blocks`: propext, Classical.choice, Quot.sound
* `QNET.Perm.C05_blocks_error`: propext, Classical.choice, Quot.sound
* `QNET.Perm.C05_fromBlocks_entry`: propext, Classical.choice, Quot.sound

## C06

* `QNET.Perm.C06_full_block_perm`: propext, Classical.choice, Quot.sound

## C07

* `QNET.Perm.C07_factorisation`: propext, Classical.choice, Quot.sound
* `QNET.Perm.C07_within_blocks`: propext, Classical.choice, Quot.sound

## C08

* `QNET.CPerm.C08_assoc`: propext, Classical.choice, Quot.sound
* `QNET.CPerm.C08_create`: propext, Classical.choice, Quot.sound
* `QNET.CPerm.C08_inverse`: propext, Classical.choice, Quot.sound
* `QNET.CPerm.C08_series`: propext, Classical.choice, Quot.sound
* `QNET.CPerm.C08_series_size`: propext
* `QNET.SLH.C08_inverse_slh`: propext, Classical.choice, Quot.sound
* `QNET.SLH.C08_matrix_product`: propext, Classical.choice, Quot.sound
* `QNET.SLH.C08_series_slh`: propext, Classical.choice, Quot.sound

## C09

* `QNET.CPerm.C09_map_channels`: propext, Classical.choice, Quot.sound
* `QNET.CPerm.C09_map_channels_rejects`: propext, Classical.choice, Quot.sound
* `QNET.Circuit.C09_pad`: propext, Classical.choice, Quot.sound
* `QNET.Circuit.C09_pad_simplified`: propext, Classical.choice, Quot.sound

## C10

* `QNET.CPerm.C10_feedback`: propext, Classical.choice, Quot.sound
* `QNET.CPerm.C10_unique`: propext, Quot.sound
* `QNET.SLH.C10_feedback_slh`: propext, Classical.choice, Quot.sound
* `QNET.SLH.C10_isolated_loop`: propext, Classical.choice, Quot.sound

## C100

* `QNET.Scalar.C100_diff_partial`: propext, Classical.choice, Quot.sound
* `QNET.Scalar.C100_expand`: propext, Classical.choice, Quot.sound
* `QNET.Scalar.C100_expanded_partial`: propext, Quot.sound
* `QNET.Scalar.C100_exponent_error`: propext, Classical.choice, Quot.sound
* `QNET.Scalar.C100_refuted_exponent`: propext, Classical.choice, Quot.sound
* `QNET.Scalar.C100_refuted_negative`: propext, Quot.sound
* `QNET.Scalar.C100_refuted_square`: propext, Classical.choice, Quot.sound
* `QNET.Scalar.C100_series_partial`: propext, Classical.choice, Quot.sound

## C101

* `QNET.State.C101_bra_partial`: propext, Classical.choice, Quot.sound
* `QNET.State.C101_braket_partial`: propext, Classical.choice, Quot.sound
* `QNET.State.C101_ket_partial`: propext, Classical.choice, Quot.sound
* `QNET.State.C101_ketbra_partial`: propext, Classical.choice, Quot.sound
* `QNET.State.C101_refuted_bra`: propext, Classical.choice, Quot.sound

## C102

* `QNET.State.C102_complete_partial`: propext, Classical.choice, Quot.sound
* `QNET.State.C102_default_partial`: propext, Classical.choice, Quot.sound
* `QNET.State.C102_hermitian_partial`: propext, Classical.choice, Quot.sound
* `QNET.State.C102_no_basis`: propext, Classical.choice, Quot.sound
* `QNET.State.C102_not_hermitian`: propext, Classical.choice, Quot.sound
* `QNET.State.C102_projected_partial`: propext, Classical.choice, Quot.sound

## C103

* `QNET.Latex.C103_label`: propext, Classical.choice, Quot.sound
* `QNET.Latex.C103_op_partial`: propext, Classical.choice, Quot.sound
* `QNET.Latex.C103_op_text_partial`: propext, Classical.choice, Quot.sound
* `QNET.Latex.C103_refuted_bra`: propext, Classical.choice, Quot.sound
* `QNET.Latex.C103_refuted_braket`: propext, Classical.choice, Quot.sound
* `QNET.Latex.C103_refuted_digits`: propext, Classical.choice, Quot.sound
* `QNET.Latex.C103_refuted_symbols`: propext, Classical.choice, Quot.sound
* `QNET.Latex.C103_refuted_tensor`: propext, Classical.choice, Quot.sound
* `QNET.Latex.C103_space`: propext, Classical.choice, Quot.sound
* `QNET.Latex.C103_state_parts`: propext, Classical.choice, Quot.sound
* `QNET.Latex.C103_states`: propext, Classical.choice, Quot.sound
* `QNET.Latex.C103_tensor_partial`: propext, Classical.choice, Quot.sound

## C104

* `QNET.Latex.C104_content`: propext, Classical.choice, Quot.sound
* `QNET.Latex.C104_derivative_content`: propext, Classical.choice, Quot.sound
* `QNET.Latex.C104_derivative_partial`: propext, Classical.choice, Quot.sound
* `QNET.Latex.C104_identities`: propext, Classical.choice, Quot.sound
* `QNET.Latex.C104_limits`: propext, Classical.choice, Quot.sound
* `QNET.Latex.C104_refuted_derivative`: propext, Classical.choice, Quot.sound
* `QNET.Latex.C104_refuted_pinv`: propext, Classical.choice, Quot.sound
* `QNET.Latex.C104_valid_partial`: propext, Classical.choice, Quot.sound

## C105

* `QNET.Flat.C105_conflicts_partial`: propext, Quot.sound
* `QNET.Flat.C105_exports_partial`: propext, Quot.sound
* `QNET.Flat.C105_refuted_exclude`: none
* `QNET.Flat.C105_refuted_imported`: none
* `QNET.Flat.C105_refuted_module_name`: none
* `QNET.Flat.C105_sorted`: propext, Quot.sound
* `QNET.Flat.C105_submodules`: propext, Quot.sound

## C106

* `QNET.Mat.C106_error`: propext, Classical.choice, Quot.sound
* `QNET.Mat.C106_imag_partial`: propext, Classical.choice, Quot.sound
* `QNET.Mat.C106_real`: propext, Classical.choice, Quot.sound
* `QNET.Mat.C106_refuted_imag`: propext, Classical.choice, Quot.sound
* `QNET.Mat.C106_sum_partial`: propext, Classical.choice, Quot.sound

## C107

* `QNET.ScalarCmp.C107_compare`: propext
* `QNET.ScalarCmp.C107_compare_error`: propext, Quot.sound
* `QNET.ScalarCmp.C107_order`: propext, Classical.choice, Quot.sound
* `QNET.ScalarCmp.C107_pow`: none
* `QNET.ScalarCmp.C107_pow_error`: propext
* `QNET.ScalarCmp.C107_pow_expr_partial`: none
* `QNET.ScalarCmp.C107_pow_scalar`: Quot.sound
* `QNET.ScalarCmp.C107_refuted_zero_pow`: none

## C108

* `QNET.Coeffs.C108_exact`: propext, Classical.choice, Quot.sound
* `QNET.Coeffs.C108_factor`: propext, Quot.sound
* `QNET.Coeffs.C108_lookup`: propext, Quot.sound
* `QNET.Coeffs.C108_refuted_factor`: propext, Quot.sound
* `QNET.Coeffs.C108_terms`: propext, Classical.choice, Quot.sound
* `QNET.Coeffs.C108_value`: propext, Quot.sound

## C11

* `QNET.CPerm.C11_factor_lhs`: propext, Classical.choice, Quot.sound
* `QNET.CPerm.C11_factor_rhs`: propext, Classical.choice, Quot.sound
* `QNET.CPerm.C11_factor_rhs_pointwise`: propext, Classical.choice, Quot.sound

## C12

* `QNET.Circuit.C12_factorization`: propext, Classical.choice, Quot.sound

## C13

* `QNET.SLH.C13_assoc`: propext, Classical.choice, Quot.sound
* `QNET.SLH.C13_inverse`: propext, Classical.choice, Quot.sound
* `QNET.SLH.C13_inverse_inverse`: propext, Classical.choice, Quot.sound
* `QNET.SLH.C13_inverse_series`: propext, Classical.choice, Quot.sound
* `QNET.SLH.C13_left_unit`: propext, Classical.choice, Quot.sound
* `QNET.SLH.C13_right_unit`: propext, Classical.choice, Quot.sound

## C14

* `QNET.SLH.C14_assoc`: propext, Classical.choice, Quot.sound
* `QNET.SLH.C14_interchange`: propext, Classical.choice, Quot.sound
* `QNET.SLH.C14_unit`: propext, Classical.choice, Quot.sound

## C15

* `QNET.SLH.C15_concat`: propext, Classical.choice, Quot.sound
* `QNET.SLH.C15_feedback`: propext, Classical.choice, Quot.sound
* `QNET.SLH.C15_inverse`: propext, Classical.choice, Quot.sound
* `QNET.SLH.C15_perm`: propext, Classical.choice, Quot.sound
* `QNET.SLH.C15_series`: propext, Classical.choice, Quot.sound

## C16

* `QNET.SLH.C16_error_iff`: propext, Classical.choice, Quot.sound
* `QNET.SLH.C16_inverse`: propext, Classical.choice, Quot.sound
* `QNET.SLH.C16_io_elimination`: propext, Classical.choice, Quot.sound
* `QNET.SLH.C16_naturality`: propext, Classical.choice, Quot.sound

## C17

* `QNET.Circuit.C17_limit_independent`: propext, Classical.choice, Quot.sound
* `QNET.Circuit.C17_refuted_zero_channels`: propext, Classical.choice, Quot.sound
* `QNET.Circuit.C17_slh_partial`: propext, Classical.choice, Quot.sound
* `QNET.Circuit.C17_symbolic`: propext, Classical.choice, Quot.sound

## C18

* `QNET.Circuit.C18_cdim_slh_partial`: propext, Classical.choice, Quot.sound
* `QNET.Circuit.C18_cdim_symbolic`: propext, Classical.choice, Quot.sound
* `QNET.Circuit.C18_mismatch_error_partial`: propext, Classical.choice, Quot.sound
* `QNET.Circuit.C18_refuted_identity`: propext, Classical.choice, Quot.sound

## C19

* `QNET.Engine.C19_depth_irrelevant`: propext, Quot.sound
* `QNET.Engine.C19_irreducible`: propext, Classical.choice, Quot.sound
* `QNET.Engine.C19_product_preserved`: propext, Quot.sound
* `QNET.Engine.C19_terminates`: propext, Quot.sound

## C20

* `QNET.Pattern.C20_complete_partial`: propext, Classical.choice, Quot.sound
* `QNET.Pattern.C20_iff_partial`: propext, Classical.choice, Quot.sound
* `QNET.Pattern.C20_lone_star_refuted`: propext, Quot.sound
* `QNET.Pattern.C20_pattern_eq`: propext, Quot.sound
* `QNET.Pattern.C20_pattern_eq_refuted`: propext, Quot.sound
* `QNET.Pattern.C20_repeated_list_name_refuted`: propext, Quot.sound
* `QNET.Pattern.C20_sound`: propext, Classical.choice, Quot.sound
* `QNET.Pattern.C20_two_stars_refuted`: propext, Quot.sound

## C21

* `QNET.Pattern.C21_exactly`: propext, Quot.sound
* `QNET.Pattern.C21_findall`: propext, Quot.sound

## C22

* `QNET.Pattern.C22_history`: propext, Classical.choice, Quot.sound
* `QNET.Pattern.C22_merge`: propext, Classical.choice, Quot.sound

## C23

* `QNET.Cache.C23_circuits_without_feedback`: propext, Classical.choice, Quot.sound
* `QNET.Cache.C23_exact`: propext, Quot.sound
* `QNET.Cache.C23_feedback_refuted`: propext, Classical.choice, Quot.sound
* `QNET.Cache.C23_terminates_partial`: propext, Quot.sound
* `QNET.Cache.C23_transparent_partial`: propext, Quot.sound

## C24

* `QNET.Cache.Rules.C24_block_starts`: propext, Quot.sound
* `QNET.Cache.Rules.C24_derived_refuted`: propext, Classical.choice, Quot.sound
* `QNET.Cache.Rules.C24_duplicate_refuted`: propext, Classical.choice, Quot.sound
* `QNET.Cache.Rules.C24_shared_cache_refuted`: propext, Classical.choice, Quot.sound
* `QNET.Cache.Rules.C24_temporary_instance_cache`: propext, Classical.choice, Quot.sound
* `QNET.Cache.Rules.C24_temporary_rules`: propext, Quot.sound
* `QNET.Cache.Rules.C24_temporary_rules_closed`: propext, Quot.sound

## C25

* `QNET.Hilbert.C25_assoc`: propext, Classical.choice, Quot.sound
* `QNET.Hilbert.C25_canonical`: propext, Classical.choice, Quot.sound
* `QNET.Hilbert.C25_comm`: propext, Classical.choice, Quot.sound
* `QNET.Hilbert.C25_dimension`: propext, Classical.choice, Quot.sound
* `QNET.Hilbert.C25_factors`: propext, Classical.choice, Quot.sound
* `QNET.Hilbert.C25_order_irrelevant`: propext, Classical.choice, Quot.sound
* `QNET.Hilbert.C25_units`: propext, Classical.choice, Quot.sound

## C26

* `QNET.Hilbert.C26_disjoint`: propext, Classical.choice, Quot.sound
* `QNET.Hilbert.C26_disjoint_full`: propext
* `QNET.Hilbert.C26_intersect`: propext, Classical.choice, Quot.sound
* `QNET.Hilbert.C26_local_and_full`: propext, Quot.sound
* `QNET.Hilbert.C26_order`: propext, Classical.choice, Quot.sound
* `QNET.Hilbert.C26_remove_partial`: propext, Classical.choice, Quot.sound
* `QNET.Hilbert.C26_remove_refuted`: propext, Classical.choice, Quot.sound

## C27

* `QNET.Hilbert.C27_create_zero_partial`: propext, Classical.choice, Quot.sound
* `QNET.Hilbert.C27_label_index`: propext, Classical.choice, Quot.sound
* `QNET.Hilbert.C27_next_label`: propext, Classical.choice, Quot.sound
* `QNET.Hilbert.C27_next_partial`: propext, Classical.choice, Quot.sound
* `QNET.Hilbert.C27_next_prev`: propext, Classical.choice, Quot.sound
* `QNET.Hilbert.C27_numbered`: propext, Classical.choice, Quot.sound
* `QNET.Hilbert.C27_refuted_label`: propext, Quot.sound
* `QNET.Hilbert.C27_roundtrip`: propext, Classical.choice, Quot.sound

## C28

* `QNET.Hilbert.C28_local_partial`: propext, Classical.choice, Quot.sound
* `QNET.Hilbert.C28_order_partial`: propext, Classical.choice, Quot.sound
* `QNET.Hilbert.C28_pair`: propext, Classical.choice, Quot.sound
* `QNET.Hilbert.C28_refuted`: propext, Classical.choice, Quot.sound

## C29

* `QNET.QAlg.C29_distinct_partial`: propext, Classical.choice, Quot.sound
* `QNET.QAlg.C29_order_irrelevant`: propext, Classical.choice, Quot.sound
* `QNET.QAlg.C29_refuted_scaled_sum`: propext, Quot.sound
* `QNET.QAlg.C29_value`: propext, Quot.sound

## C30

* `QNET.QAlg.C30_arithmetic`: propext, Quot.sound
* `QNET.QAlg.C30_expanded_partial`: propext, Classical.choice, Quot.sound
* `QNET.QAlg.C30_refuted_commutator`: propext, Quot.sound
* `QNET.QAlg.C30_refuted_rule`: propext, Quot.sound
* `QNET.QAlg.C30_value`: propext, Quot.sound

## C31

* `QNET.QAlg.C31_refuted_ket_example`: propext
* `QNET.QAlg.C31_refuted_ket_length`: propext, Quot.sound
* `QNET.QAlg.C31_sums_products_partial`: propext, Classical.choice, Quot.sound
* `QNET.QAlg.C31_taylor`: propext, Classical.choice, Quot.sound

## C32

* `QNET.Indexed.C32_empty`: propext, Quot.sound
* `QNET.Indexed.C32_exactly_once`: propext, Quot.sound
* `QNET.Indexed.C32_first_items`: propext, Quot.sound
* `QNET.Indexed.C32_infinite_outer`: propext, Classical.choice, Quot.sound
* `QNET.Indexed.C32_length`: propext
* `QNET.Indexed.C32_lexicographic`: propext, Classical.choice, Quot.sound
* `QNET.Indexed.C32_membership`: propext, Classical.choice, Quot.sound
* `QNET.Indexed.C32_merge_dicts`: propext, Quot.sound
* `QNET.Indexed.C32_no_repetition`: propext, Classical.choice, Quot.sound
* `QNET.Indexed.C32_position`: propext, Classical.choice, Quot.sound
* `QNET.Indexed.C32_range_length`: propext, Quot.sound
* `QNET.Indexed.C32_range_values`: propext, Classical.choice, Quot.sound
* `QNET.Indexed.C32_sum_length`: propext, Quot.sound
* `QNET.Indexed.C32_surjective`: propext, Classical.choice, Quot.sound
* `QNET.Indexed.C32_yield_from_ranges`: propext, Classical.choice, Quot.sound

## C33

* `QNET.Indexed.C33_doit`: propext, Classical.choice, Quot.sound
* `QNET.Indexed.C33_doit_total`: propext, Classical.choice, Quot.sound
* `QNET.Indexed.C33_empty_range_refuted`: propext
* `QNET.Indexed.C33_max_terms`: propext, Classical.choice, Quot.sound
* `QNET.Indexed.C33_max_terms_infinite`: propext, Classical.choice, Quot.sound
* `QNET.Indexed.C33_over_indices`: propext, Classical.choice, Quot.sound
* `QNET.Indexed.C33_sum_over_const`: propext, Quot.sound
* `QNET.Indexed.C33_unknown_index`: propext, Classical.choice, Quot.sound

## C34

* `QNET.Indexed.C34_capture_refuted`: propext
* `QNET.Indexed.C34_flatten`: propext, Classical.choice, Quot.sound
* `QNET.Indexed.C34_make_disjunct`: propext, Classical.choice, Quot.sound
* `QNET.Indexed.C34_new_name_refuted`: propext
* `QNET.Indexed.C34_other_refuted`: propext
* `QNET.Indexed.C34_other_times`: propext, Classical.choice, Quot.sound
* `QNET.Indexed.C34_prefactor_refuted`: propext
* `QNET.Indexed.C34_product`: propext, Classical.choice, Quot.sound
* `QNET.Indexed.C34_same_name_refuted`: propext
* `QNET.Indexed.C34_scalar_refuted`: propext
* `QNET.Indexed.C34_scalar_times`: propext, Quot.sound
* `QNET.Indexed.C34_times_other`: propext, Classical.choice, Quot.sound

## C35

* `QNET.Scalar.C35_arithmetic`: propext, Classical.choice, Quot.sound
* `QNET.Scalar.C35_complex_partial`: propext, Quot.sound
* `QNET.Scalar.C35_float`: propext, Quot.sound
* `QNET.Scalar.C35_numbers`: propext, Classical.choice, Quot.sound
* `QNET.Scalar.C35_refuted_collect`: propext, Classical.choice, Quot.sound
* `QNET.Scalar.C35_refuted_complex`: propext, Quot.sound
* `QNET.Scalar.C35_refuted_one_minus`: propext, Classical.choice, Quot.sound
* `QNET.Scalar.C35_singletons`: propext, Quot.sound
* `QNET.Scalar.C35_sub_partial`: propext, Classical.choice, Quot.sound
* `QNET.Scalar.C35_total`: propext, Classical.choice, Quot.sound

## C36

* `QNET.QAlg.C36_create`: propext, Quot.sound
* `QNET.QAlg.C36_leibniz`: propext, Quot.sound

## C37

* `QNET.Osc.C37_adjoint`: propext, Classical.choice, Quot.sound
* `QNET.Osc.C37_braket`: propext, Classical.choice, Quot.sound
* `QNET.Osc.C37_ketbra`: propext, Classical.choice, Quot.sound
* `QNET.Osc.C37_kets_partial`: propext, Classical.choice, Quot.sound
* `QNET.Osc.C37_kets_truncated_partial`: propext, Classical.choice, Quot.sound
* `QNET.Osc.C37_products`: propext, Classical.choice, Quot.sound
* `QNET.Osc.C37_refuted_complex_phase`: propext, Classical.choice, Quot.sound
* `QNET.Osc.C37_refuted_truncated`: propext, Classical.choice, Quot.sound
* `QNET.Osc.C37_truncated_partial`: propext, Classical.choice, Quot.sound

## C38

* `QNET.Spin.C38_adjoint`: propext, Classical.choice, Quot.sound
* `QNET.Spin.C38_bottom`: propext, Classical.choice, Quot.sound
* `QNET.Spin.C38_jp_label`: propext, Classical.choice, Quot.sound
* `QNET.Spin.C38_kets`: propext, Classical.choice, Quot.sound
* `QNET.Spin.C38_kets_in_range`: propext, Classical.choice, Quot.sound
* `QNET.Spin.C38_products`: propext, Classical.choice, Quot.sound
* `QNET.Spin.C38_rebuild`: propext, Quot.sound
* `QNET.Spin.C38_refuted_custom_basis`: none
* `QNET.Spin.C38_refuted_labels`: propext, Classical.choice, Quot.sound
* `QNET.Spin.C38_refuted_symbolic`: propext, Classical.choice, Quot.sound
* `QNET.Spin.C38_space`: propext, Classical.choice, Quot.sound
* `QNET.Spin.C38_spin_basis_ket`: propext, Classical.choice, Quot.sound
* `QNET.Spin.C38_su2`: propext, Classical.choice, Quot.sound
* `QNET.Spin.C38_top`: propext, Classical.choice, Quot.sound

## C39

* `QNET.Super.C39_action`: propext, Classical.choice, Quot.sound
* `QNET.Super.C39_apply`: propext, Classical.choice, Quot.sound
* `QNET.Super.C39_commutator`: propext, Quot.sound
* `QNET.Super.C39_hermitian`: propext, Classical.choice, Quot.sound
* `QNET.Super.C39_refuted_commutator_zero`: propext, Quot.sound
* `QNET.Super.C39_shift`: propext, Classical.choice, Quot.sound
* `QNET.Super.C39_trace`: propext, Classical.choice, Quot.sound
* `QNET.Super.C39_unitary`: propext, Classical.choice, Quot.sound

## C40

* `QNET.Super.C40_adjoint_partial`: propext, Quot.sound
* `QNET.Super.C40_apply`: propext, Quot.sound
* `QNET.Super.C40_create`: propext, Quot.sound
* `QNET.Super.C40_order_pair`: propext, Classical.choice, Quot.sound
* `QNET.Super.C40_order_partial`: propext, Classical.choice, Quot.sound
* `QNET.Super.C40_refuted_adjoint`: propext, Quot.sound
* `QNET.Super.C40_refuted_order`: propext, Classical.choice, Quot.sound

## C41

* `QNET.Equation.C41_chain`: propext, Classical.choice, Quot.sound
* `QNET.Equation.C41_history`: propext, Classical.choice, Quot.sound
* `QNET.Equation.C41_immutable`: propext, Classical.choice, Quot.sound
* `QNET.Equation.C41_read`: propext, Classical.choice, Quot.sound
* `QNET.Equation.C41_tag`: propext, Classical.choice, Quot.sound

## C42

* `QNET.Rewrite.C42_apply_rules`: propext, Quot.sound
* `QNET.Rewrite.C42_result_unique`: propext, Quot.sound
* `QNET.Rewrite.C42_stack_is_recursion`: propext, Quot.sound

## C43

* `QNET.Rewrite.C43_attribute_error_refuted`: propext, Quot.sound
* `QNET.Rewrite.C43_evaluation`: propext
* `QNET.Rewrite.C43_maximal_replaced`: propext, Quot.sound
* `QNET.Rewrite.C43_no_occurrence`: propext, Quot.sound
* `QNET.Rewrite.C43_rest_unchanged`: propext, Quot.sound

## C44

* `QNET.Hilbert.C44_full_order`: propext, Classical.choice, Quot.sound
* `QNET.Hilbert.C44_mixed_intransitive`: propext, Quot.sound
* `QNET.Hilbert.C44_sort_deterministic`: propext, Classical.choice, Quot.sound
* `QNET.Hilbert.C44_spaces`: propext, Classical.choice, Quot.sound
* `QNET.Hilbert.C44_total`: propext, Classical.choice, Quot.sound

## C45

* `QNET.Cache.C45_dict_tuple_refuted`: none
* `QNET.Cache.C45_dicts`: propext, Classical.choice, Quot.sound
* `QNET.Cache.C45_injective_partial`: propext, Classical.choice, Quot.sound
* `QNET.Cache.C45_list_tuple_refuted`: none
* `QNET.Cache.C45_positional_keyword_refuted`: propext, Quot.sound
* `QNET.Cache.C45_same_call`: propext, Quot.sound
* `QNET.Cache.C45_sets`: propext, Classical.choice, Quot.sound
* `QNET.Cache.C45_unorderable_refuted`: propext

## C46

* `QNET.Circuit.C46_refuted_output_twice`: propext, Classical.choice, Quot.sound
* `QNET.Circuit.C46_rejects_input_twice`: propext, Classical.choice, Quot.sound
* `QNET.Circuit.C46_rejects_invalid`: propext, Classical.choice, Quot.sound
* `QNET.Circuit.C46_symbolic_partial`: propext, Classical.choice, Quot.sound
* `QNET.Circuit.C46_wiring_partial`: propext, Classical.choice, Quot.sound
* `QNET.Circuit.C46_wiring_slh_partial`: propext, Classical.choice, Quot.sound

## C47

* `QNET.Driver.C47_loop`: propext, Classical.choice, Quot.sound
* `QNET.Driver.C47_loop_result`: propext, Classical.choice, Quot.sound
* `QNET.Indexed.C47_delta_sum`: propext, Quot.sound
* `QNET.Indexed.C47_fock_refuted`: propext
* `QNET.Indexed.C47_in_range`: propext, Classical.choice, Quot.sound
* `QNET.Indexed.C47_out_of_range_refuted`: propext
* `QNET.Indexed.C47_piecewise`: propext, Classical.choice, Quot.sound
* `QNET.Indexed.C47_repeated_refuted`: propext

## C48

* `QNET.Trace.C48_local`: propext, Classical.choice, Quot.sound
* `QNET.Trace.C48_refuted_order`: propext, Classical.choice, Quot.sound
* `QNET.Trace.C48_refuted_rotation`: propext, Classical.choice, Quot.sound
* `QNET.Trace.C48_trace_partial`: propext, Classical.choice, Quot.sound

## C49

* `QNET.Perm.C49_malformed_error_partial`: propext, Classical.choice, Quot.sound
* `QNET.Perm.C49_malformed_error_refuted`: propext, Classical.choice, Quot.sound

## C50

* `QNET.CPerm.C50_extract_channel`: propext, Classical.choice, Quot.sound

## C51

* `QNET.CPerm.C51_index_in_block`: propext, Classical.choice, Quot.sound

## C52

* `QNET.QAlg.C52_diff`: propext, Quot.sound

## C53

* `QNET.QAlg.C53_adjoint`: propext, Classical.choice, Quot.sound

## C54

* `QNET.SLH.C54_conserved`: propext, Classical.choice, Quot.sound
* `QNET.SLH.C54_duality`: propext, Classical.choice, Quot.sound
* `QNET.SLH.C54_hermitian`: propext, Classical.choice, Quot.sound
* `QNET.SLH.C54_langevin_flow`: propext, Classical.choice, Quot.sound
* `QNET.SLH.C54_langevin_partial`: propext, Classical.choice, Quot.sound
* `QNET.SLH.C54_master_liouvillian`: propext, Classical.choice, Quot.sound
* `QNET.SLH.C54_refuted_gauge`: propext, Classical.choice, Quot.sound
* `QNET.SLH.C54_static_downstream`: propext, Classical.choice, Quot.sound
* `QNET.SLH.C54_static_upstream`: propext, Classical.choice, Quot.sound

## C55

* `QNET.SLH.C55_dynamics`: propext, Classical.choice, Quot.sound
* `QNET.SLH.C55_physical`: propext, Classical.choice, Quot.sound
* `QNET.SLH.C55_refuted_empty`: propext, Classical.choice, Quot.sound
* `QNET.SLH.C55_removed`: propext, Classical.choice, Quot.sound

## C56

* `QNET.SLH.C56_coherent_input`: propext, Classical.choice, Quot.sound
* `QNET.SLH.C56_coherent_physical`: propext, Classical.choice, Quot.sound
* `QNET.SLH.C56_components`: propext, Classical.choice, Quot.sound
* `QNET.SLH.C56_compose`: propext, Classical.choice, Quot.sound
* `QNET.SLH.C56_inverse`: propext, Classical.choice, Quot.sound
* `QNET.SLH.C56_refuted_circuit_zero`: none
* `QNET.SLH.C56_refuted_square`: none
* `QNET.SLH.C56_slh_constructor`: propext, Classical.choice, Quot.sound
* `QNET.SLH.C56_twice`: propext, Classical.choice, Quot.sound

## C57

* `QNET.QAlg.C57_commutator_terminates`: propext, Classical.choice, Quot.sound
* `QNET.QAlg.C57_plus_terminates`: propext, Classical.choice, Quot.sound
* `QNET.QAlg.C57_scalar_times_terminates`: propext, Classical.choice, Quot.sound
* `QNET.QAlg.C57_times_terminates`: propext, Classical.choice, Quot.sound

## C58

* `QNET.State.C58_equality`: propext, Classical.choice, Quot.sound
* `QNET.State.C58_operator_partial`: propext, Classical.choice, Quot.sound
* `QNET.State.C58_outer`: propext, Classical.choice, Quot.sound
* `QNET.State.C58_products_keep_partial`: propext, Classical.choice, Quot.sound
* `QNET.State.C58_products_partial`: propext, Classical.choice, Quot.sound
* `QNET.State.C58_refuted`: propext, Classical.choice, Quot.sound
* `QNET.State.C58_tensor`: propext, Classical.choice, Quot.sound

## C59

* `QNET.State.C59_inner_unequal_partial`: propext, Classical.choice, Quot.sound
* `QNET.State.C59_outer_unequal`: propext, Classical.choice, Quot.sound
* `QNET.State.C59_refuted`: propext, Classical.choice, Quot.sound
* `QNET.State.C59_tensor_overlap`: propext, Classical.choice, Quot.sound

## C60

* `QNET.State.C60_create_create_refuted`: propext, Classical.choice, Quot.sound
* `QNET.State.C60_interlocking_refuted`: propext, Classical.choice, Quot.sound
* `QNET.State.C60_operator_refuted`: propext, Classical.choice, Quot.sound
* `QNET.State.C60_scalar_partial`: propext, Classical.choice, Quot.sound
* `QNET.State.C60_unequal_refuted`: propext, Classical.choice, Quot.sound

## C61

* `QNET.Mat.C61_block_structure_nonsquare`: propext, Classical.choice, Quot.sound
* `QNET.Mat.C61_block_structure_partial`: propext, Classical.choice, Quot.sound
* `QNET.Mat.C61_column_refuted`: propext
* `QNET.Mat.C61_get_blocks_partial`: propext, Classical.choice, Quot.sound
* `QNET.Mat.C61_own_blocks_partial`: propext, Classical.choice, Quot.sound
* `QNET.Mat.C61_zero_operator_refuted`: propext, Classical.choice, Quot.sound

## C62

* `QNET.Mat.C62_add_partial`: propext, Classical.choice, Quot.sound
* `QNET.Mat.C62_add_refuted`: propext
* `QNET.Mat.C62_add_sub`: propext, Quot.sound
* `QNET.Mat.C62_adjoint`: propext, Classical.choice, Quot.sound
* `QNET.Mat.C62_block_matrix`: propext, Classical.choice, Quot.sound
* `QNET.Mat.C62_distrib`: propext, Classical.choice, Quot.sound
* `QNET.Mat.C62_identity`: propext, Classical.choice, Quot.sound
* `QNET.Mat.C62_mul`: propext, Classical.choice, Quot.sound
* `QNET.Mat.C62_mul_assoc`: propext, Classical.choice, Quot.sound
* `QNET.Mat.C62_stack_error`: none
* `QNET.Mat.C62_trace`: propext, Classical.choice, Quot.sound

## C63

* `QNET.Mat.C63_element_wise`: propext, Quot.sound
* `QNET.Mat.C63_perm_basis`: propext, Classical.choice, Quot.sound
* `QNET.Mat.C63_perm_compose`: propext, Classical.choice, Quot.sound
* `QNET.Mat.C63_perm_inverse`: propext, Classical.choice, Quot.sound
* `QNET.Mat.C63_permutation_matrix`: propext, Classical.choice, Quot.sound
* `QNET.Mat.C63_series_expand_empty_refuted`: propext, Quot.sound
* `QNET.Mat.C63_series_expand_partial`: propext, Classical.choice, Quot.sound

## C64

* `QNET.Convert.C64_adjoint_refuted`: propext, Classical.choice, Quot.sound
* `QNET.Convert.C64_ketbra_refuted`: propext, Classical.choice, Quot.sound
* `QNET.Convert.C64_mapping_refuted`: propext, Classical.choice, Quot.sound
* `QNET.Convert.C64_phase_refuted`: propext, Classical.choice, Quot.sound
* `QNET.Convert.C64_qutip_partial`: propext, Classical.choice, Quot.sound
* `QNET.Convert.C64_qutip_spin_partial`: propext, Classical.choice, Quot.sound
* `QNET.Convert.C64_qutip_spin_refuted`: propext, Classical.choice, Quot.sound
* `QNET.Convert.C64_qutip_total`: propext, Classical.choice, Quot.sound
* `QNET.Convert.C64_sympy_displace_refuted`: propext, Classical.choice, Quot.sound
* `QNET.Convert.C64_sympy_jplus_refuted`: propext, Classical.choice, Quot.sound
* `QNET.Convert.C64_sympy_partial`: propext, Classical.choice, Quot.sound
* `QNET.Convert.C64_sympy_spin_refuted`: propext, Classical.choice, Quot.sound
* `QNET.Convert.C64_sympy_zero_refuted`: propext, Classical.choice, Quot.sound

## C65

* `QNET.Convert.C65_braket_refuted`: propext, Classical.choice, Quot.sound
* `QNET.Convert.C65_ket_partial`: propext, Classical.choice, Quot.sound
* `QNET.Convert.C65_ket_total`: propext, Classical.choice, Quot.sound
* `QNET.Convert.C65_larger_space_refuted`: propext, Classical.choice, Quot.sound
* `QNET.Convert.C65_never_refuted`: propext, Classical.choice, Quot.sound
* `QNET.Convert.C65_super_refuted`: propext, Classical.choice, Quot.sound

## C66

* `QNET.Convert.C66_cancel_refuted`: propext, Classical.choice, Quot.sound
* `QNET.Convert.C66_slh`: propext, Classical.choice, Quot.sound
* `QNET.Convert.C66_str_partial`: propext, Classical.choice, Quot.sound
* `QNET.Convert.C66_str_refuted`: propext, Classical.choice, Quot.sound
* `QNET.Convert.C66_time_dependent`: propext, Classical.choice, Quot.sound
* `QNET.Convert.C66_time_total`: propext, Classical.choice, Quot.sound

## C67

* `QNET.Adiabatic.C67_convergence`: propext, Classical.choice, Quot.sound
* `QNET.Adiabatic.C67_docstring_refuted`: none
* `QNET.Adiabatic.C67_generator`: propext, Classical.choice, Quot.sound
* `QNET.Adiabatic.C67_physical`: propext, Classical.choice, Quot.sound
* `QNET.Adiabatic.C67_unitary`: propext, Classical.choice, Quot.sound

## C68

* `QNET.Adiabatic.C68_offdiag_refuted`: propext, Classical.choice, Quot.sound
* `QNET.Adiabatic.C68_scattering_refuted`: propext, Classical.choice, Quot.sound
* `QNET.Adiabatic.C68_sub`: propext, Classical.choice, Quot.sound
* `QNET.Adiabatic.C68_total`: propext, Classical.choice, Quot.sound
* `QNET.Adiabatic.C68_trunc_refuted`: propext, Classical.choice, Quot.sound
* `QNET.Adiabatic.C68_try_partial`: propext, Classical.choice, Quot.sound
* `QNET.Adiabatic.C68_unchecked_refuted`: propext, Classical.choice, Quot.sound

## C69

* `QNET.Linear.C69_active_refuted`: propext, Classical.choice, Quot.sound
* `QNET.Linear.C69_displaced`: propext, Classical.choice, Quot.sound
* `QNET.Linear.C69_exact`: propext, Classical.choice, Quot.sound
* `QNET.Linear.C69_exact_passive`: propext, Classical.choice, Quot.sound
* `QNET.Linear.C69_realizable`: propext, Classical.choice, Quot.sound
* `QNET.Linear.C69_unexpanded_refuted`: propext, Classical.choice, Quot.sound

## C70

* `QNET.Network.C70_cascade`: propext, Classical.choice, Quot.sound
* `QNET.Network.C70_connect_partial`: propext, Classical.choice, Quot.sound
* `QNET.Network.C70_heisenberg_eom_partial`: propext, Classical.choice, Quot.sound
* `QNET.Network.C70_local`: propext, Classical.choice, Quot.sound
* `QNET.Network.C70_network`: propext, Classical.choice, Quot.sound

## C71

* `QNET.Print.C71_drift`: propext, Classical.choice, Quot.sound
* `QNET.Print.C71_example`: propext, Classical.choice, Quot.sound
* `QNET.Print.C71_identical`: propext, Classical.choice, Quot.sound
* `QNET.Print.C71_injective`: propext, Classical.choice, Quot.sound
* `QNET.Print.C71_nonvacuous`: propext, Classical.choice, Quot.sound
* `QNET.Print.C71_refuted_empty_array`: propext, Classical.choice, Quot.sound
* `QNET.Print.C71_refuted_identical`: propext, Classical.choice, Quot.sound
* `QNET.Print.C71_roundtrip_indented_partial`: propext, Classical.choice, Quot.sound
* `QNET.Print.C71_roundtrip_partial`: propext, Classical.choice, Quot.sound
* `QNET.Print.C71_single_line`: propext, Classical.choice, Quot.sound
* `QNET.Print.C71_total`: propext, Classical.choice, Quot.sound
* `QNET.Print.C71_total_indented`: propext, Classical.choice, Quot.sound

## C72

* `QNET.Kwargs.C72_component`: propext, Classical.choice, Quot.sound
* `QNET.Kwargs.C72_derivative`: propext, Quot.sound
* `QNET.Kwargs.C72_localspace`: propext, Classical.choice, Quot.sound
* `QNET.Kwargs.C72_plus_minus`: none
* `QNET.Kwargs.C72_refuted_spinspace`: propext, Classical.choice, Quot.sound
* `QNET.Kwargs.C72_spinspace_iff_partial`: propext, Classical.choice, Quot.sound

## C73

* `QNET.Ascii.C73_nonvacuous`: propext, Classical.choice, Quot.sound
* `QNET.Ascii.C73_nonvacuous_commute`: propext, Classical.choice, Quot.sound
* `QNET.Ascii.C73_nonvacuous_large`: propext, Classical.choice, Quot.sound
* `QNET.Ascii.C73_refuted_adjoint_sum`: propext, Classical.choice, Quot.sound
* `QNET.Ascii.C73_refuted_args`: propext, Classical.choice, Quot.sound
* `QNET.Ascii.C73_refuted_conjugate`: propext
* `QNET.Ascii.C73_refuted_identity`: propext
* `QNET.Ascii.C73_refuted_product`: propext, Classical.choice, Quot.sound
* `QNET.Ascii.C73_refuted_scalar_in_sum`: propext, Classical.choice, Quot.sound
* `QNET.Ascii.C73_refuted_scalarplus`: propext, Classical.choice, Quot.sound
* `QNET.Ascii.C73_refuted_sign`: propext, Classical.choice, Quot.sound
* `QNET.Ascii.C73_same_text`: propext, Classical.choice, Quot.sound
* `QNET.Ascii.C73_total`: propext
* `QNET.Ascii.C73_unambiguous`: propext
* `QNET.Ascii.C73_value_partial`: propext, Classical.choice, Quot.sound

## C74

* `QNET.Config.C74_formats`: propext
* `QNET.Config.C74_init`: propext, Quot.sound
* `QNET.Config.C74_nonvacuous`: propext
* `QNET.Config.C74_program_partial`: propext, Classical.choice, Quot.sound
* `QNET.Config.C74_refuted_class`: propext
* `QNET.Config.C74_refuted_error`: propext
* `QNET.Config.C74_refuted_first_use`: propext
* `QNET.Config.C74_refuted_reset`: propext
* `QNET.Config.C74_refuted_sympy`: propext
* `QNET.Config.C74_reset`: propext, Quot.sound
* `QNET.Config.C74_restored_partial`: propext, Classical.choice, Quot.sound

## C75

* `QNET.Dot.C75_dotprint`: propext, Classical.choice, Quot.sound
* `QNET.Dot.C75_example`: none
* `QNET.Dot.C75_refuted_repeat`: propext, Classical.choice, Quot.sound
* `QNET.Dot.C75_unique`: propext

## C76

* `QNET.TreePrint.C76_example`: propext, Classical.choice, Quot.sound
* `QNET.TreePrint.C76_lines`: propext, Classical.choice, Quot.sound
* `QNET.TreePrint.C76_nonvacuous`: propext, Classical.choice, Quot.sound
* `QNET.TreePrint.C76_positions_unique`: propext, Classical.choice, Quot.sound
* `QNET.TreePrint.C76_readable`: propext, Classical.choice, Quot.sound
* `QNET.TreePrint.C76_refuted_newline`: propext, Classical.choice, Quot.sound
* `QNET.TreePrint.C76_refuted_padding`: propext, Classical.choice, Quot.sound
* `QNET.TreePrint.C76_string`: propext, Classical.choice, Quot.sound

## C77

* `QNET.Draw.C77_defaults`: propext, Classical.choice, Quot.sound
* `QNET.Draw.C77_drawing`: propext, Classical.choice, Quot.sound
* `QNET.Draw.C77_example`: propext
* `QNET.Draw.C77_nonvacuous`: propext, Classical.choice, Quot.sound
* `QNET.Draw.C77_picture`: propext, Classical.choice, Quot.sound
* `QNET.Draw.C77_refuted_suffix`: propext, Classical.choice, Quot.sound
* `QNET.Draw.C77_refuted_zero`: propext, Classical.choice, Quot.sound

## C78

* `QNET.Circuit.C78_refuted_feedback`: propext, Classical.choice, Quot.sound
* `QNET.Circuit.C78_terminates_partial`: propext, Classical.choice, Quot.sound

## C79

* `QNET.PyEq.C79_ne_partial`: propext, Classical.choice, Quot.sound
* `QNET.PyEq.C79_number`: propext, Quot.sound
* `QNET.PyEq.C79_preorder`: propext, Quot.sound
* `QNET.PyEq.C79_refuted_hash`: propext, Quot.sound
* `QNET.PyEq.C79_refuted_ne`: propext, Quot.sound
* `QNET.PyEq.C79_refuted_symmetric`: propext, Quot.sound
* `QNET.PyEq.C79_same_kind_partial`: propext, Quot.sound
* `QNET.PyEq.C79_sound`: propext, Quot.sound

## C80

* `QNET.Liouv.C80_equivalent_partial`: propext, Classical.choice, Quot.sound
* `QNET.Liouv.C80_hermitian_partial`: propext, Classical.choice, Quot.sound
* `QNET.Liouv.C80_refuted_hamiltonian`: propext, Classical.choice, Quot.sound
* `QNET.Liouv.C80_refuted_identity`: propext, Classical.choice, Quot.sound
* `QNET.Liouv.C80_refuted_one`: propext, Classical.choice, Quot.sound
* `QNET.Liouv.C80_refuted_symbol`: propext, Classical.choice, Quot.sound
* `QNET.Liouv.C80_refuted_two`: propext, Classical.choice, Quot.sound
* `QNET.Liouv.C80_test_partial`: propext, Classical.choice, Quot.sound
* `QNET.Liouv.C80_total_partial`: propext, Classical.choice, Quot.sound

## C81

* `QNET.Indexed.C81_all_symbols_partial`: propext, Classical.choice, Quot.sound
* `QNET.Indexed.C81_free_symbols`: propext, Quot.sound
* `QNET.Indexed.C81_refuted_bound`: propext
* `QNET.Indexed.C81_refuted_bound_value`: none
* `QNET.Indexed.C81_refuted_capture`: propext
* `QNET.Indexed.C81_refuted_nested`: propext
* `QNET.Indexed.C81_refuted_product`: propext
* `QNET.Indexed.C81_refuted_swap`: none
* `QNET.Indexed.C81_substitute_partial`: propext, Quot.sound
* `QNET.Indexed.C81_unaffected`: propext, Classical.choice, Quot.sound

## C82

* `QNET.Hilbert.C82_local_partial`: propext, Classical.choice, Quot.sound
* `QNET.Hilbert.C82_no_basis`: propext, Classical.choice, Quot.sound
* `QNET.Hilbert.C82_no_basis_full`: propext
* `QNET.Hilbert.C82_no_basis_local`: propext, Classical.choice, Quot.sound
* `QNET.Hilbert.C82_product_partial`: propext, Classical.choice, Quot.sound
* `QNET.Hilbert.C82_refuted_comma`: propext, Classical.choice, Quot.sound
* `QNET.Hilbert.C82_refuted_label`: propext
* `QNET.Hilbert.C82_refuted_negative`: propext
* `QNET.Hilbert.C82_refuted_repeated`: propext
* `QNET.Hilbert.C82_refuted_type`: propext
* `QNET.Hilbert.C82_trivial_partial`: propext

## C83

* `QNET.Cache.C83_refuted_takes_effect`: propext
* `QNET.Cache.C83_stale`: propext
* `QNET.Cache.C83_takes_effect_partial`: propext
* `QNET.Cache.Rules.C83_add_del`: propext, Classical.choice, Quot.sound
* `QNET.Cache.Rules.C83_add_effect`: propext, Classical.choice, Quot.sound
* `QNET.Cache.Rules.C83_add_exceptions`: propext, Classical.choice, Quot.sound
* `QNET.Cache.Rules.C83_add_frame`: propext, Classical.choice, Quot.sound
* `QNET.Cache.Rules.C83_add_succeeds`: propext, Classical.choice, Quot.sound
* `QNET.Cache.Rules.C83_add_unique`: propext, Classical.choice, Quot.sound
* `QNET.Cache.Rules.C83_del_all`: propext, Quot.sound
* `QNET.Cache.Rules.C83_del_named_partial`: propext, Quot.sound
* `QNET.Cache.Rules.C83_del_raises`: propext, Quot.sound
* `QNET.Cache.Rules.C83_del_unique`: propext, Quot.sound
* `QNET.Cache.Rules.C83_names`: propext, Classical.choice, Quot.sound
* `QNET.Cache.Rules.C83_new_rule_last`: propext, Quot.sound
* `QNET.Cache.Rules.C83_refuted_atomic`: propext, Quot.sound
* `QNET.Cache.Rules.C83_refuted_inherited`: propext, Quot.sound

## C84

* `QNET.CircText.C84_reads_partial`: propext, Classical.choice, Quot.sound
* `QNET.CircText.C84_refuted_cdim`: propext
* `QNET.CircText.C84_refuted_names`: propext
* `QNET.CircText.C84_same_text`: propext, Classical.choice, Quot.sound
* `QNET.CircText.C84_slh_partial`: propext, Classical.choice, Quot.sound
* `QNET.CircText.C84_unambiguous`: propext, Quot.sound

## C85

* `QNET.QAlg.C85_add`: propext, Classical.choice, Quot.sound
* `QNET.QAlg.C85_div`: propext, Classical.choice, Quot.sound
* `QNET.QAlg.C85_mul`: propext, Classical.choice, Quot.sound
* `QNET.QAlg.C85_pow_partial`: propext, Classical.choice, Quot.sound
* `QNET.QAlg.C85_refuted_float_power`: propext, Classical.choice, Quot.sound
* `QNET.QAlg.C85_refuted_negative_power`: propext, Quot.sound
* `QNET.QAlg.C85_sub`: propext, Classical.choice, Quot.sound
* `QNET.QAlg.C85_sum`: propext, Classical.choice, Quot.sound
* `QNET.QAlg.C85_type_errors`: propext, Quot.sound

## C86

* `QNET.Scalar.C86_floor_zero`: propext, Quot.sound
* `QNET.Scalar.C86_floordiv`: propext, Quot.sound
* `QNET.Scalar.C86_mod_partial`: propext, Quot.sound
* `QNET.Scalar.C86_refuted_floordiv`: propext, Quot.sound
* `QNET.Scalar.C86_refuted_mod_one`: propext, Classical.choice, Quot.sound
* `QNET.Scalar.C86_total`: propext, Classical.choice, Quot.sound
* `QNET.Scalar.C86_value`: propext, Classical.choice, Quot.sound
* `QNET.Scalar.C86_zero`: propext, Quot.sound

## C87

* `QNET.Scalar.Root.C87_conjugate_partial`: propext, Classical.choice, Quot.sound
* `QNET.Scalar.Root.C87_pow_partial`: propext, Classical.choice, Quot.sound
* `QNET.Scalar.Root.C87_refuted_conjugate`: propext, Classical.choice, Quot.sound
* `QNET.Scalar.Root.C87_refuted_sqrt`: propext, Classical.choice, Quot.sound
* `QNET.Scalar.Root.C87_sqrt_principal_partial`: propext, Classical.choice, Quot.sound
* `QNET.Scalar.Root.C87_sqrt_square`: propext, Classical.choice, Quot.sound
* `QNET.Scalar.Root.C87_sqrt_square_object`: propext, Classical.choice, Quot.sound

## C88

* `QNET.Deriv.C88_adjoint`: propext, Classical.choice, Quot.sound
* `QNET.Deriv.C88_diff_partial`: propext, Classical.choice, Quot.sound
* `QNET.Deriv.C88_diff_total_partial`: propext, Classical.choice, Quot.sound
* `QNET.Deriv.C88_evaluate`: propext, Classical.choice, Quot.sound
* `QNET.Deriv.C88_free_partial`: propext, Classical.choice, Quot.sound
* `QNET.Deriv.C88_order`: propext, Classical.choice, Quot.sound
* `QNET.Deriv.C88_refuted_chain`: propext, Classical.choice, Quot.sound
* `QNET.Deriv.C88_refuted_explicit`: propext, Classical.choice, Quot.sound
* `QNET.Deriv.C88_refuted_nested`: propext, Classical.choice, Quot.sound
* `QNET.Deriv.C88_refuted_number`: propext, Classical.choice, Quot.sound
* `QNET.Deriv.C88_refuted_shift`: propext, Classical.choice, Quot.sound
* `QNET.Deriv.C88_refuted_substitute`: propext, Classical.choice, Quot.sound
* `QNET.Deriv.C88_refuted_zeroth`: propext, Classical.choice, Quot.sound
* `QNET.Deriv.C88_series`: propext, Classical.choice, Quot.sound
* `QNET.Deriv.C88_series_remainder`: propext, Classical.choice, Quot.sound

## C89

* `QNET.Circuit.C89_total_correctness`: propext, Classical.choice, Quot.sound

## C90

* `QNET.Circuit.C90_fixed_point_partial`: propext, Classical.choice, Quot.sound
* `QNET.Circuit.C90_refuted_series`: propext, Classical.choice, Quot.sound

## C91

* `QNET.Circuit.C91_substitute`: propext, Classical.choice, Quot.sound
* `QNET.Circuit.C91_substitute_sound`: propext, Classical.choice, Quot.sound

## C92

* `QNET.Osc.C92_coherent`: propext, Classical.choice, Quot.sound
* `QNET.Osc.C92_diff_error`: propext, Classical.choice, Quot.sound
* `QNET.Osc.C92_diff_partial`: propext, Classical.choice, Quot.sound
* `QNET.Osc.C92_fock`: propext, Classical.choice, Quot.sound
* `QNET.Osc.C92_fock_dim`: propext, Classical.choice, Quot.sound
* `QNET.Osc.C92_fock_limit`: propext, Classical.choice, Quot.sound
* `QNET.Osc.C92_fock_truncated`: propext, Classical.choice, Quot.sound
* `QNET.Osc.C92_fock_unique`: propext, Classical.choice, Quot.sound
* `QNET.Osc.C92_refuted_diff`: propext, Classical.choice, Quot.sound

## C93

* `QNET.Pauli.C93_default_labels`: propext, Classical.choice, Quot.sound
* `QNET.Pauli.C93_default_numbered`: propext, Quot.sound
* `QNET.Pauli.C93_level`: propext, Classical.choice, Quot.sound
* `QNET.Pauli.C93_refuted_same`: propext, Classical.choice, Quot.sound
* `QNET.Pauli.C93_relations_partial`: propext, Classical.choice, Quot.sound
* `QNET.Pauli.C93_single_level`: propext, Classical.choice, Quot.sound
* `QNET.Pauli.C93_spin_half`: propext, Classical.choice, Quot.sound
* `QNET.Pauli.C93_states`: propext

## C94

* `QNET.SLH.C94_general`: propext, Classical.choice, Quot.sound
* `QNET.SLH.C94_special`: propext, Classical.choice, Quot.sound
* `QNET.SLH.C94_symmetric`: propext, Classical.choice, Quot.sound

## C95

* `QNET.Mixed.C95_diff_partial`: propext, Classical.choice, Quot.sound
* `QNET.Mixed.C95_error`: propext, Classical.choice, Quot.sound
* `QNET.Mixed.C95_refuted_spre`: propext, Classical.choice, Quot.sound

## C96

* `QNET.Derat.C96_accepts`: propext, Classical.choice, Quot.sound
* `QNET.Derat.C96_identity_partial`: propext, Classical.choice, Quot.sound
* `QNET.Derat.C96_refuted_repeated`: propext, Classical.choice, Quot.sound

## C97

* `QNET.UniSub.C97_error`: propext, Classical.choice, Quot.sound
* `QNET.UniSub.C97_injective_partial`: propext, Quot.sound
* `QNET.UniSub.C97_read_partial`: propext, Quot.sound
* `QNET.UniSub.C97_refuted_greek`: propext, Classical.choice, Quot.sound
* `QNET.UniSub.C97_refuted_mark`: propext, Classical.choice, Quot.sound
* `QNET.UniSub.C97_refuted_upper`: propext, Classical.choice, Quot.sound

## C98

* `QNET.Pm.C98_adjoint`: propext, Classical.choice, Quot.sound
* `QNET.Pm.C98_doit`: propext, Quot.sound
* `QNET.Pm.C98_found`: propext, Classical.choice, Quot.sound
* `QNET.Pm.C98_incomplete`: propext
* `QNET.Pm.C98_rewrite`: propext, Quot.sound

## C99

* `QNET.Indexed.C99_float`: propext, Classical.choice, Quot.sound
* `QNET.Indexed.C99_power_partial`: propext, Classical.choice, Quot.sound
* `QNET.Indexed.C99_refuted_nested`: propext, Classical.choice, Quot.sound
* `QNET.Indexed.C99_refuted_primed`: propext
* `QNET.Indexed.C99_terms_partial`: propext, Classical.choice, Quot.sound

