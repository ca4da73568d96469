{
 "claims": [
  {
   "property": "C01",
   "status": "proved",
   "theorems": [
    "QNET.Perm.C01_check_iff"
   ],
   "note": ""
  },
  {
   "property": "C02",
   "status": "proved",
   "theorems": [
    "QNET.Perm.C02_invert",
    "QNET.Perm.C02_invert_pointwise"
   ],
   "note": ""
  },
  {
   "property": "C03",
   "status": "partial",
   "theorems": [
    "QNET.Perm.C03_compose_monoid",
    "QNET.Perm.C03_permute_entry",
    "QNET.Perm.C03_permute_errors",
    "QNET.Perm.C03_permute_permute",
    "QNET.Perm.C03_refuted_str",
    "QNET.Perm.C03_sequence_partial"
   ],
   "note": "Proved for all lists, tuples and other sequences (C03_sequence_partial and the C03_permute theorems) and for composition. False for strings: str(generator) gives the text of a generator object (C03_refuted_str)."
  },
  {
   "property": "C04",
   "status": "proved",
   "theorems": [
    "QNET.Perm.C04_cycles",
    "QNET.Perm.C04_error_cases"
   ],
   "note": ""
  },
  {
   "property": "C05",
   "status": "proved",
   "theorems": [
    "QNET.Perm.C05_blocks",
    "QNET.Perm.C05_blocks_error",
    "QNET.Perm.C05_fromBlocks_entry"
   ],
   "note": ""
  },
  {
   "property": "C06",
   "status": "proved",
   "theorems": [
    "QNET.Perm.C06_full_block_perm"
   ],
   "note": ""
  },
  {
   "property": "C07",
   "status": "proved",
   "theorems": [
    "QNET.Perm.C07_factorisation",
    "QNET.Perm.C07_within_blocks"
   ],
   "note": ""
  },
  {
   "property": "C08",
   "status": "proved",
   "theorems": [
    "QNET.CPerm.C08_assoc",
    "QNET.CPerm.C08_create",
    "QNET.CPerm.C08_inverse",
    "QNET.CPerm.C08_series",
    "QNET.CPerm.C08_series_size",
    "QNET.SLH.C08_inverse_slh",
    "QNET.SLH.C08_matrix_product",
    "QNET.SLH.C08_series_slh"
   ],
   "note": ""
  },
  {
   "property": "C09",
   "status": "proved",
   "theorems": [
    "QNET.CPerm.C09_map_channels",
    "QNET.CPerm.C09_map_channels_rejects",
    "QNET.Circuit.C09_pad",
    "QNET.Circuit.C09_pad_simplified"
   ],
   "note": ""
  },
  {
   "property": "C10",
   "status": "proved",
   "theorems": [
    "QNET.CPerm.C10_feedback",
    "QNET.CPerm.C10_unique",
    "QNET.SLH.C10_feedback_slh",
    "QNET.SLH.C10_isolated_loop"
   ],
   "note": "C10_isolated_loop proves that on an isolated loop the permutation feedback drops the loop while SLH feedback raises AlgebraError."
  },
  {
   "property": "C11",
   "status": "proved",
   "theorems": [
    "QNET.CPerm.C11_factor_lhs",
    "QNET.CPerm.C11_factor_rhs",
    "QNET.CPerm.C11_factor_rhs_pointwise"
   ],
   "note": ""
  },
  {
   "property": "C12",
   "status": "proved",
   "theorems": [
    "QNET.Circuit.C12_factorization"
   ],
   "note": ""
  },
  {
   "property": "C13",
   "status": "proved",
   "theorems": [
    "QNET.SLH.C13_assoc",
    "QNET.SLH.C13_inverse",
    "QNET.SLH.C13_inverse_inverse",
    "QNET.SLH.C13_inverse_series",
    "QNET.SLH.C13_left_unit",
    "QNET.SLH.C13_right_unit"
   ],
   "note": ""
  },
  {
   "property": "C14",
   "status": "proved",
   "theorems": [
    "QNET.SLH.C14_assoc",
    "QNET.SLH.C14_interchange",
    "QNET.SLH.C14_unit"
   ],
   "note": ""
  },
  {
   "property": "C15",
   "status": "proved",
   "theorems": [
    "QNET.SLH.C15_concat",
    "QNET.SLH.C15_feedback",
    "QNET.SLH.C15_inverse",
    "QNET.SLH.C15_perm",
    "QNET.SLH.C15_series"
   ],
   "note": ""
  },
  {
   "property": "C16",
   "status": "proved",
   "theorems": [
    "QNET.SLH.C16_error_iff",
    "QNET.SLH.C16_inverse",
    "QNET.SLH.C16_io_elimination",
    "QNET.SLH.C16_naturality"
   ],
   "note": ""
  },
  {
   "property": "C17",
   "status": "partial",
   "theorems": [
    "QNET.Circuit.C17_limit_independent",
    "QNET.Circuit.C17_refuted_zero_channels",
    "QNET.Circuit.C17_slh_partial",
    "QNET.Circuit.C17_symbolic"
   ],
   "note": "Proved without further hypotheses for all expressions built from symbols, permutations and identities (C17_symbolic). For expressions with SLH literals it is false of the code: C17_refuted_zero_channels gives a witness (feedback leaves a zero-channel SLH whose Hamiltonian is then dropped); C17_slh_partial covers the literals under a side condition."
  },
  {
   "property": "C18",
   "status": "partial",
   "theorems": [
    "QNET.Circuit.C18_cdim_slh_partial",
    "QNET.Circuit.C18_cdim_symbolic",
    "QNET.Circuit.C18_mismatch_error_partial",
    "QNET.Circuit.C18_refuted_identity"
   ],
   "note": "The channel-number equations are proved for the same class of expressions as C17. The claim that a channel mismatch is always reported is false of the code: C18_refuted_identity (circuit identities are filtered before the check)."
  },
  {
   "property": "C19",
   "status": "proved",
   "theorems": [
    "QNET.Engine.C19_depth_irrelevant",
    "QNET.Engine.C19_irreducible",
    "QNET.Engine.C19_product_preserved",
    "QNET.Engine.C19_terminates"
   ],
   "note": ""
  },
  {
   "property": "C20",
   "status": "partial",
   "theorems": [
    "QNET.Pattern.C20_complete_partial",
    "QNET.Pattern.C20_iff_partial",
    "QNET.Pattern.C20_lone_star_refuted",
    "QNET.Pattern.C20_pattern_eq",
    "QNET.Pattern.C20_pattern_eq_refuted",
    "QNET.Pattern.C20_repeated_list_name_refuted",
    "QNET.Pattern.C20_sound",
    "QNET.Pattern.C20_two_stars_refuted"
   ],
   "note": "Sound and complete for patterns whose list names are used once and with at most one multi-wildcard per level; excluded: lone zero-or-more wildcard against an expression without arguments (UnboundLocalError, refuted), non-single patterns at both ends (accepted by the constructor, first one ignored: refuted), repeated list names (refuted)."
  },
  {
   "property": "C21",
   "status": "proved",
   "theorems": [
    "QNET.Pattern.C21_exactly",
    "QNET.Pattern.C21_findall"
   ],
   "note": ""
  },
  {
   "property": "C22",
   "status": "proved",
   "theorems": [
    "QNET.Pattern.C22_history",
    "QNET.Pattern.C22_merge"
   ],
   "note": ""
  },
  {
   "property": "C23",
   "status": "partial",
   "theorems": [
    "QNET.Cache.C23_circuits_without_feedback",
    "QNET.Cache.C23_exact",
    "QNET.Cache.C23_feedback_refuted",
    "QNET.Cache.C23_terminates_partial",
    "QNET.Cache.C23_transparent_partial"
   ],
   "note": "Transparent for simplifications that respect == (in particular exactly transparent when keys determine arguments, e.g. circuits without Feedback); refuted for Feedback, whose ports are not part of the instance key. The _create_idempotent branches (False for all classes) are not modelled."
  },
  {
   "property": "C24",
   "status": "partial",
   "theorems": [
    "QNET.Cache.Rules.C24_block_starts",
    "QNET.Cache.Rules.C24_derived_refuted",
    "QNET.Cache.Rules.C24_duplicate_refuted",
    "QNET.Cache.Rules.C24_shared_cache_refuted",
    "QNET.Cache.Rules.C24_temporary_instance_cache",
    "QNET.Cache.Rules.C24_temporary_rules",
    "QNET.Cache.Rules.C24_temporary_rules_closed"
   ],
   "note": "Proved for lists of different classes none of which precedes a class derived from it; the contents also if no class outside the list that is operated on shares the object. Refuted otherwise: shared instance cache, class named twice, base class named before derived class."
  },
  {
   "property": "C25",
   "status": "proved",
   "theorems": [
    "QNET.Hilbert.C25_assoc",
    "QNET.Hilbert.C25_canonical",
    "QNET.Hilbert.C25_comm",
    "QNET.Hilbert.C25_dimension",
    "QNET.Hilbert.C25_factors",
    "QNET.Hilbert.C25_order_irrelevant",
    "QNET.Hilbert.C25_units"
   ],
   "note": ""
  },
  {
   "property": "C26",
   "status": "partial",
   "theorems": [
    "QNET.Hilbert.C26_disjoint",
    "QNET.Hilbert.C26_disjoint_full",
    "QNET.Hilbert.C26_intersect",
    "QNET.Hilbert.C26_local_and_full",
    "QNET.Hilbert.C26_order",
    "QNET.Hilbert.C26_remove_partial",
    "QNET.Hilbert.C26_remove_refuted"
   ],
   "note": "<=, <, isdisjoint and intersect proved; remove is proved as set difference only where the code implements it (C26_remove_partial) and C26_remove_refuted shows a local space minus a product containing it returns the local space."
  },
  {
   "property": "C27",
   "status": "partial",
   "theorems": [
    "QNET.Hilbert.C27_create_zero_partial",
    "QNET.Hilbert.C27_label_index",
    "QNET.Hilbert.C27_next_label",
    "QNET.Hilbert.C27_next_partial",
    "QNET.Hilbert.C27_next_prev",
    "QNET.Hilbert.C27_numbered",
    "QNET.Hilbert.C27_refuted_label",
    "QNET.Hilbert.C27_roundtrip"
   ],
   "note": "Proved for all local spaces and all labels and steps; an existing level whose label KetSymbol does not accept raises ValueError (C27_next_partial, C27_create_zero_partial state this exactly; C27_refuted_label is a witness: basis ('u', '\u2191')); without explicit labels there is no exception (C27_numbered). Symbolic labels are not modelled."
  },
  {
   "property": "C28",
   "status": "partial",
   "theorems": [
    "QNET.Hilbert.C28_local_partial",
    "QNET.Hilbert.C28_order_partial",
    "QNET.Hilbert.C28_pair",
    "QNET.Hilbert.C28_refuted"
   ],
   "note": "Proved for operands whose spaces are pairwise equal or disjoint (in particular all local operators) and for two factors; C28_refuted: x2*y1*z12*w1 is reordered with w1 in front of z12, changing the value."
  },
  {
   "property": "C29",
   "status": "partial",
   "theorems": [
    "QNET.QAlg.C29_distinct_partial",
    "QNET.QAlg.C29_order_irrelevant",
    "QNET.QAlg.C29_refuted_scaled_sum",
    "QNET.QAlg.C29_value"
   ],
   "note": "Value preservation, order independence and (for summands that are not scalar multiples of sums) distinct terms with non-zero total coefficients are proved; the distinctness claim is refuted for scalar multiples of sums: 2*(A+B) - 3*(A+B) + A leaves a nested sum with A occurring twice."
  },
  {
   "property": "C30",
   "status": "partial",
   "theorems": [
    "QNET.QAlg.C30_arithmetic",
    "QNET.QAlg.C30_expanded_partial",
    "QNET.QAlg.C30_refuted_commutator",
    "QNET.QAlg.C30_refuted_rule",
    "QNET.QAlg.C30_value"
   ],
   "note": "Value preservation proved in every algebra; full expansion proved whenever the special binary rules yield no sums, refuted for rules such as a*a^dagger -> 1 + a^dagger*a (C30_refuted_rule)."
  },
  {
   "property": "C31",
   "status": "partial",
   "theorems": [
    "QNET.QAlg.C31_refuted_ket_example",
    "QNET.QAlg.C31_refuted_ket_length",
    "QNET.QAlg.C31_sums_products_partial",
    "QNET.QAlg.C31_taylor"
   ],
   "note": "Proved for sums, products, scalar multiples and abstract Taylor series; refuted for operators applied to states and outer products, whose _series_expand returns (order+1)(order+2)/2 coefficients."
  },
  {
   "property": "C32",
   "status": "proved",
   "theorems": [
    "QNET.Indexed.C32_empty",
    "QNET.Indexed.C32_exactly_once",
    "QNET.Indexed.C32_first_items",
    "QNET.Indexed.C32_infinite_outer",
    "QNET.Indexed.C32_length",
    "QNET.Indexed.C32_lexicographic",
    "QNET.Indexed.C32_membership",
    "QNET.Indexed.C32_merge_dicts",
    "QNET.Indexed.C32_no_repetition",
    "QNET.Indexed.C32_position",
    "QNET.Indexed.C32_range_length",
    "QNET.Indexed.C32_range_values",
    "QNET.Indexed.C32_sum_length",
    "QNET.Indexed.C32_surjective",
    "QNET.Indexed.C32_yield_from_ranges"
   ],
   "note": "finite ranges, infinite outermost range, membership and lengths of all range classes"
  },
  {
   "property": "C33",
   "status": "proved",
   "theorems": [
    "QNET.Indexed.C33_doit",
    "QNET.Indexed.C33_doit_total",
    "QNET.Indexed.C33_empty_range_refuted",
    "QNET.Indexed.C33_max_terms",
    "QNET.Indexed.C33_max_terms_infinite",
    "QNET.Indexed.C33_over_indices",
    "QNET.Indexed.C33_sum_over_const",
    "QNET.Indexed.C33_unknown_index"
   ],
   "note": "doit(), doit(indices=...), doit(max_terms=...) and sums over constant terms, for every interpretation; an empty sum gives None (C33_empty_range_refuted)"
  },
  {
   "property": "C34",
   "status": "partial",
   "theorems": [
    "QNET.Indexed.C34_capture_refuted",
    "QNET.Indexed.C34_flatten",
    "QNET.Indexed.C34_make_disjunct",
    "QNET.Indexed.C34_new_name_refuted",
    "QNET.Indexed.C34_other_refuted",
    "QNET.Indexed.C34_other_times",
    "QNET.Indexed.C34_prefactor_refuted",
    "QNET.Indexed.C34_product",
    "QNET.Indexed.C34_same_name_refuted",
    "QNET.Indexed.C34_scalar_refuted",
    "QNET.Indexed.C34_scalar_times",
    "QNET.Indexed.C34_times_other"
   ],
   "note": "proved when the new (primed) names are unused and no free index symbol becomes bound; false otherwise: five refutations of variable capture"
  },
  {
   "property": "C35",
   "status": "partial",
   "theorems": [
    "QNET.Scalar.C35_arithmetic",
    "QNET.Scalar.C35_complex_partial",
    "QNET.Scalar.C35_float",
    "QNET.Scalar.C35_numbers",
    "QNET.Scalar.C35_refuted_collect",
    "QNET.Scalar.C35_refuted_complex",
    "QNET.Scalar.C35_refuted_one_minus",
    "QNET.Scalar.C35_singletons",
    "QNET.Scalar.C35_sub_partial",
    "QNET.Scalar.C35_total"
   ],
   "note": "Values, Zero, One, symbols, sums, products, integer powers modelled over an arbitrary field; +, *, unary -, ** and mixed arithmetic with numbers proved. Missing/refuted: One - x returns 1 + x (C35_refuted_one_minus); complex(One) = 1j (C35_refuted_complex); (x+1)-1 not collected (C35_refuted_collect). Fractional powers are not modelled."
  },
  {
   "property": "C36",
   "status": "proved",
   "theorems": [
    "QNET.QAlg.C36_create",
    "QNET.QAlg.C36_leibniz"
   ],
   "note": "Commutator.create with disjunct_hs_zero, commutator_order, all rules (R001-R007) and expand_commutators_leibniz; QX extended with commutators, so C30 (value), C31, C52, C53 cover commutators too."
  },
  {
   "property": "C37",
   "status": "partial",
   "theorems": [
    "QNET.Osc.C37_adjoint",
    "QNET.Osc.C37_braket",
    "QNET.Osc.C37_ketbra",
    "QNET.Osc.C37_kets_partial",
    "QNET.Osc.C37_kets_truncated_partial",
    "QNET.Osc.C37_products",
    "QNET.Osc.C37_refuted_complex_phase",
    "QNET.Osc.C37_refuted_truncated",
    "QNET.Osc.C37_truncated_partial"
   ],
   "note": "Rules R005, R009-R021 for one oscillator mode proved as operator identities on the Bargmann-Fock space of entire functions, for all levels and parameters (C37_products), with ket rules (C37_kets_partial, real phases; refuted for complex phases), |a><b| and adjoints. For spaces of finite dimension: matrices of any size satisfy the rules except a a^dagger (C37_truncated_partial), which is refuted (C37_refuted_truncated). Missing: Squeeze, whose rules are only R001, and symbolic indices."
  },
  {
   "property": "C38",
   "status": "partial",
   "theorems": [
    "QNET.Spin.C38_adjoint",
    "QNET.Spin.C38_bottom",
    "QNET.Spin.C38_jp_label",
    "QNET.Spin.C38_kets",
    "QNET.Spin.C38_kets_in_range",
    "QNET.Spin.C38_products",
    "QNET.Spin.C38_rebuild",
    "QNET.Spin.C38_refuted_custom_basis",
    "QNET.Spin.C38_refuted_labels",
    "QNET.Spin.C38_refuted_symbolic",
    "QNET.Spin.C38_space",
    "QNET.Spin.C38_spin_basis_ket",
    "QNET.Spin.C38_su2",
    "QNET.Spin.C38_top"
   ],
   "note": "For every spin, the rules R005, R022-R030 and R009-R011 and the coefficient functions are those of the spin matrices, which satisfy the su(2) relations (C38_su2, C38_products, C38_kets, C38_top, C38_bottom, C38_adjoint); SpinBasisKet selects the right level. Refuted for symbolic labels (wrong Jz coefficient), labels given as strings to Jzjmcoeff/Jmjmcoeff (AttributeError), custom labels after rebuild."
  },
  {
   "property": "C39",
   "status": "proved",
   "theorems": [
    "QNET.Super.C39_action",
    "QNET.Super.C39_apply",
    "QNET.Super.C39_commutator",
    "QNET.Super.C39_hermitian",
    "QNET.Super.C39_refuted_commutator_zero",
    "QNET.Super.C39_shift",
    "QNET.Super.C39_trace",
    "QNET.Super.C39_unitary"
   ],
   "note": "Model of liouvillian/lindblad/commutator/anti_commutator; proved for every *-algebra: action, apply, trace, adjoints, isometric mixing, shift invariance; commutator(A, 0) refuted."
  },
  {
   "property": "C40",
   "status": "partial",
   "theorems": [
    "QNET.Super.C40_adjoint_partial",
    "QNET.Super.C40_apply",
    "QNET.Super.C40_create",
    "QNET.Super.C40_order_pair",
    "QNET.Super.C40_order_partial",
    "QNET.Super.C40_refuted_adjoint",
    "QNET.Super.C40_refuted_order"
   ],
   "note": "create/apply preserve the action; super-adjoint proved whenever adjoint() returns; refuted: ScalarTimesSuperOperator has no adjoint (C40_refuted_adjoint), ordering can move SPre past a non-commuting symbol (C40_refuted_order), proved for products of SPre/SPost on equal or disjoint spaces (C40_order_partial)."
  },
  {
   "property": "C41",
   "status": "proved",
   "theorems": [
    "QNET.Equation.C41_chain",
    "QNET.Equation.C41_history",
    "QNET.Equation.C41_immutable",
    "QNET.Equation.C41_read",
    "QNET.Equation.C41_tag"
   ],
   "note": "Heap model of the shared history lists; refinement to a list-of-lines specification for all sessions."
  },
  {
   "property": "C42",
   "status": "proved",
   "theorems": [
    "QNET.Rewrite.C42_apply_rules",
    "QNET.Rewrite.C42_result_unique",
    "QNET.Rewrite.C42_stack_is_recursion"
   ],
   "note": "stack-based traversal = recursion, for every instantiation and rule function"
  },
  {
   "property": "C43",
   "status": "partial",
   "theorems": [
    "QNET.Rewrite.C43_attribute_error_refuted",
    "QNET.Rewrite.C43_evaluation",
    "QNET.Rewrite.C43_maximal_replaced",
    "QNET.Rewrite.C43_no_occurrence",
    "QNET.Rewrite.C43_rest_unchanged"
   ],
   "note": "substitution of maximal keys, rest unchanged, evaluation, no-occurrence; false when create raises AttributeError (refuted, exception swallowed); sympy's own subs and bound indices are not modelled"
  },
  {
   "property": "C44",
   "status": "proved",
   "theorems": [
    "QNET.Hilbert.C44_full_order",
    "QNET.Hilbert.C44_mixed_intransitive",
    "QNET.Hilbert.C44_sort_deterministic",
    "QNET.Hilbert.C44_spaces",
    "QNET.Hilbert.C44_total"
   ],
   "note": "Strict weak order on pairwise comparable keys (space keys always are); C44_mixed_intransitive shows the hypothesis is needed."
  },
  {
   "property": "C45",
   "status": "partial",
   "theorems": [
    "QNET.Cache.C45_dict_tuple_refuted",
    "QNET.Cache.C45_dicts",
    "QNET.Cache.C45_injective_partial",
    "QNET.Cache.C45_list_tuple_refuted",
    "QNET.Cache.C45_positional_keyword_refuted",
    "QNET.Cache.C45_same_call",
    "QNET.Cache.C45_sets",
    "QNET.Cache.C45_unorderable_refuted"
   ],
   "note": "Proved for tuple-only arguments and equal numbers of positional arguments, and for sets and dictionaries whose items can be ordered (C45_sets, C45_dicts); refuted for positional/keyword confusion, for lists/dicts versus tuples, and for sets and dictionaries whose items cannot be ordered (sorted_if_possible then returns an empty list, because sorted has used up the iterator)."
  },
  {
   "property": "C46",
   "status": "partial",
   "theorems": [
    "QNET.Circuit.C46_refuted_output_twice",
    "QNET.Circuit.C46_rejects_input_twice",
    "QNET.Circuit.C46_rejects_invalid",
    "QNET.Circuit.C46_symbolic_partial",
    "QNET.Circuit.C46_wiring_partial",
    "QNET.Circuit.C46_wiring_slh_partial"
   ],
   "note": "connect() modelled line by line (references by index/object/label, offsets, both mappings, loop of feedbacks). force_SLH result satisfies an independent wiring specification (unique consistent signals; remaining ports in order; drift row) when outputs are distinct; the simplified circuit has the same triple; invalid references and doubly used inputs raise ValueError. Outputs used twice are NOT rejected: C46_refuted_output_twice."
  },
  {
   "property": "C47",
   "status": "partial",
   "theorems": [
    "QNET.Driver.C47_loop",
    "QNET.Driver.C47_loop_result",
    "QNET.Indexed.C47_delta_sum",
    "QNET.Indexed.C47_fock_refuted",
    "QNET.Indexed.C47_in_range",
    "QNET.Indexed.C47_out_of_range_refuted",
    "QNET.Indexed.C47_piecewise",
    "QNET.Indexed.C47_repeated_refuted"
   ],
   "note": "exact value of the sum in terms of the simplified one; correct when the solution lies in a range without repetitions; refuted otherwise (the range is ignored by default). The loop over ranges and summands is proved to end, without IndexError, and to keep the value for every elimination step that does (C47_loop, C47_loop_result); the solver and the expansion of sums of deltas (SymPy) are parameters."
  },
  {
   "property": "C48",
   "status": "partial",
   "theorems": [
    "QNET.Trace.C48_local",
    "QNET.Trace.C48_refuted_order",
    "QNET.Trace.C48_refuted_rotation",
    "QNET.Trace.C48_trace_partial"
   ],
   "note": "Proved for every operator, space, dimension and matrix values of the symbols, for all evaluations in which the reorderings are safe (the strict run), and without any such condition for products of operators on single local spaces (C48_local). In general the code does not check this and the claim is false: C48_refuted_order, C48_refuted_rotation. Product, sum, scalar multiple and adjoint constructors are assumed value-preserving; symbolic LocalSigma levels are not modelled."
  },
  {
   "property": "C49",
   "status": "partial",
   "theorems": [
    "QNET.Perm.C49_malformed_error_partial",
    "QNET.Perm.C49_malformed_error_refuted"
   ],
   "note": "False of the code: refuted with the witness (0,0); _partial states the exact behaviour (BadPermutationError only for 1-tuples, TypeError otherwise)."
  },
  {
   "property": "C50",
   "status": "proved",
   "theorems": [
    "QNET.CPerm.C50_extract_channel"
   ],
   "note": ""
  },
  {
   "property": "C51",
   "status": "proved",
   "theorems": [
    "QNET.CPerm.C51_index_in_block"
   ],
   "note": ""
  },
  {
   "property": "C52",
   "status": "proved",
   "theorems": [
    "QNET.QAlg.C52_diff"
   ],
   "note": "Symbols and scalars enter through their derivatives; QuantumDerivative objects are symbols."
  },
  {
   "property": "C53",
   "status": "proved",
   "theorems": [
    "QNET.QAlg.C53_adjoint"
   ],
   "note": ""
  },
  {
   "property": "C54",
   "status": "partial",
   "theorems": [
    "QNET.SLH.C54_conserved",
    "QNET.SLH.C54_duality",
    "QNET.SLH.C54_hermitian",
    "QNET.SLH.C54_langevin_flow",
    "QNET.SLH.C54_langevin_partial",
    "QNET.SLH.C54_master_liouvillian",
    "QNET.SLH.C54_refuted_gauge",
    "QNET.SLH.C54_static_downstream",
    "QNET.SLH.C54_static_upstream"
   ],
   "note": "Proved without noises for all triples; with noises proved for at most one channel or scattering that commutes with X; refuted for operator-valued scattering with two channels: Matrix - X subtracts X from every entry (C54_refuted_gauge)."
  },
  {
   "property": "C55",
   "status": "partial",
   "theorems": [
    "QNET.SLH.C55_dynamics",
    "QNET.SLH.C55_physical",
    "QNET.SLH.C55_refuted_empty",
    "QNET.SLH.C55_removed"
   ],
   "note": "Proved for every selection except the empty list, which is treated like None (C55_refuted_empty). expand/simplify_scalar of the result are not modelled (value preserving, C30)."
  },
  {
   "property": "C56",
   "status": "partial",
   "theorems": [
    "QNET.SLH.C56_coherent_input",
    "QNET.SLH.C56_coherent_physical",
    "QNET.SLH.C56_components",
    "QNET.SLH.C56_compose",
    "QNET.SLH.C56_inverse",
    "QNET.SLH.C56_refuted_circuit_zero",
    "QNET.SLH.C56_refuted_square",
    "QNET.SLH.C56_slh_constructor",
    "QNET.SLH.C56_twice"
   ],
   "note": "Coherent input and components proved; refuted: CircuitZero.toSLH() raises ValueError (C56_refuted_circuit_zero), SLH() accepts a non-square S (C56_refuted_square)."
  },
  {
   "property": "C57",
   "status": "proved",
   "theorems": [
    "QNET.QAlg.C57_commutator_terminates",
    "QNET.QAlg.C57_plus_terminates",
    "QNET.QAlg.C57_scalar_times_terminates",
    "QNET.QAlg.C57_times_terminates"
   ],
   "note": "sums, scalar multiples, products and commutators; example: ladder operators of any number of modes"
  },
  {
   "property": "C58",
   "status": "partial",
   "theorems": [
    "QNET.State.C58_equality",
    "QNET.State.C58_operator_partial",
    "QNET.State.C58_outer",
    "QNET.State.C58_products_keep_partial",
    "QNET.State.C58_products_partial",
    "QNET.State.C58_refuted",
    "QNET.State.C58_tensor"
   ],
   "note": "Proved for all operands wherever act_locally_times_tensor separates commuting factors only (checked evaluation, which agrees with the code), or if products of operators keep their space; tensor and outer products without reservation. C58_refuted: |0><0| X |1><1| applied to a product state gives ZeroKet because the code does not check this."
  },
  {
   "property": "C59",
   "status": "partial",
   "theorems": [
    "QNET.State.C59_inner_unequal_partial",
    "QNET.State.C59_outer_unequal",
    "QNET.State.C59_refuted",
    "QNET.State.C59_tensor_overlap"
   ],
   "note": "Tensor and outer products proved for all states; inner products unless both are multiples of basis states. C59_refuted: <0|_1 |0>_2 = 1 instead of UnequalSpaces (rule R003 of BraKet has no space check); KetBra(ZeroKet, ZeroKet) raises UnequalSpaces."
  },
  {
   "property": "C60",
   "status": "partial",
   "theorems": [
    "QNET.State.C60_create_create_refuted",
    "QNET.State.C60_interlocking_refuted",
    "QNET.State.C60_operator_refuted",
    "QNET.State.C60_scalar_partial",
    "QNET.State.C60_unequal_refuted"
   ],
   "note": "False: four Lean witnesses (for every recursion depth): a^+ a^+ |alpha>, inner/outer products of product states on different spaces, XY on a product state with interlocking spaces, inner products of interlocking product states. Proved for scalar multiples."
  },
  {
   "property": "C61",
   "status": "partial",
   "theorems": [
    "QNET.Mat.C61_block_structure_nonsquare",
    "QNET.Mat.C61_block_structure_partial",
    "QNET.Mat.C61_column_refuted",
    "QNET.Mat.C61_get_blocks_partial",
    "QNET.Mat.C61_own_blocks_partial",
    "QNET.Mat.C61_zero_operator_refuted"
   ],
   "note": "Square matrices: proved, with entry == 0 as the test for zero. Refuted: ZeroOperator entries do not count as zero (C61_zero_operator_refuted), column vectors are cut wrongly (C61_column_refuted)."
  },
  {
   "property": "C62",
   "status": "partial",
   "theorems": [
    "QNET.Mat.C62_add_partial",
    "QNET.Mat.C62_add_refuted",
    "QNET.Mat.C62_add_sub",
    "QNET.Mat.C62_adjoint",
    "QNET.Mat.C62_block_matrix",
    "QNET.Mat.C62_distrib",
    "QNET.Mat.C62_identity",
    "QNET.Mat.C62_mul",
    "QNET.Mat.C62_mul_assoc",
    "QNET.Mat.C62_stack_error",
    "QNET.Mat.C62_trace"
   ],
   "note": "Everything proved except refusal of mismatched shapes in sums: numpy broadcasting accepts a column plus a row (C62_add_refuted); what is refused is characterised exactly by C62_add_partial."
  },
  {
   "property": "C63",
   "status": "partial",
   "theorems": [
    "QNET.Mat.C63_element_wise",
    "QNET.Mat.C63_perm_basis",
    "QNET.Mat.C63_perm_compose",
    "QNET.Mat.C63_perm_inverse",
    "QNET.Mat.C63_permutation_matrix",
    "QNET.Mat.C63_series_expand_empty_refuted",
    "QNET.Mat.C63_series_expand_partial"
   ],
   "note": "Proved; series_expand of an empty matrix returns the empty tuple instead of order+1 matrices (C63_series_expand_empty_refuted)."
  },
  {
   "property": "C64",
   "status": "partial",
   "theorems": [
    "QNET.Convert.C64_adjoint_refuted",
    "QNET.Convert.C64_ketbra_refuted",
    "QNET.Convert.C64_mapping_refuted",
    "QNET.Convert.C64_phase_refuted",
    "QNET.Convert.C64_qutip_partial",
    "QNET.Convert.C64_qutip_spin_partial",
    "QNET.Convert.C64_qutip_spin_refuted",
    "QNET.Convert.C64_qutip_total",
    "QNET.Convert.C64_sympy_displace_refuted",
    "QNET.Convert.C64_sympy_jplus_refuted",
    "QNET.Convert.C64_sympy_partial",
    "QNET.Convert.C64_sympy_spin_refuted",
    "QNET.Convert.C64_sympy_zero_refuted"
   ],
   "note": "Value theorems for QuTiP and SymPy conversion and totality for a class of expressions. Refuted: adjoints, KetBra, Phase/Displace/Squeeze never converted to QuTiP; spin levels numbered the other way round in QuTiP; mapped symbols not embedded; SymPy Jz and Jplus wrong, ZeroOperator not a matrix. Not modelled: PseudoInverse, NullSpaceProjector, symbolic coefficients."
  },
  {
   "property": "C65",
   "status": "partial",
   "theorems": [
    "QNET.Convert.C65_braket_refuted",
    "QNET.Convert.C65_ket_partial",
    "QNET.Convert.C65_ket_total",
    "QNET.Convert.C65_larger_space_refuted",
    "QNET.Convert.C65_never_refuted",
    "QNET.Convert.C65_super_refuted"
   ],
   "note": "Kets on their own space: value and totality. Refuted: kets in a larger space, CoherentStateKet, OperatorTimesKet, Bra, BraKet, all super-operators."
  },
  {
   "property": "C66",
   "status": "partial",
   "theorems": [
    "QNET.Convert.C66_cancel_refuted",
    "QNET.Convert.C66_slh",
    "QNET.Convert.C66_str_partial",
    "QNET.Convert.C66_str_refuted",
    "QNET.Convert.C66_time_dependent",
    "QNET.Convert.C66_time_total"
   ],
   "note": "Value at every time for pyfunc coefficients, same dissipation for SLH models. Refuted: cancelling time dependence is an error; string coefficients corrupt names with the letter I. lambdify and substitution of parameters not modelled."
  },
  {
   "property": "C67",
   "status": "proved",
   "theorems": [
    "QNET.Adiabatic.C67_convergence",
    "QNET.Adiabatic.C67_docstring_refuted",
    "QNET.Adiabatic.C67_generator",
    "QNET.Adiabatic.C67_physical",
    "QNET.Adiabatic.C67_unitary"
   ],
   "note": "Convergence of the evolution for all coherent fields and times in any C*-algebra, under the conditions of the limit theorem of Bouten, van Handel and Silberfarb; the returned model is physical. The relation Y*Ytilde=P0 of the documentation is refuted (must be 1-P0). Not modelled: unbounded operators, symbolic expansion (series_expand is C31)."
  },
  {
   "property": "C68",
   "status": "partial",
   "theorems": [
    "QNET.Adiabatic.C68_offdiag_refuted",
    "QNET.Adiabatic.C68_scattering_refuted",
    "QNET.Adiabatic.C68_sub",
    "QNET.Adiabatic.C68_total",
    "QNET.Adiabatic.C68_trunc_refuted",
    "QNET.Adiabatic.C68_try_partial",
    "QNET.Adiabatic.C68_unchecked_refuted"
   ],
   "note": "Correct for spaces with at most fock_trunc levels if the conditions of the limit theorem hold. Refuted: higher levels are silently ignored; the conditions are not checked (divergent energies, non-unitary S); a non-diagonal Y raises AttributeError."
  },
  {
   "property": "C69",
   "status": "partial",
   "theorems": [
    "QNET.Linear.C69_active_refuted",
    "QNET.Linear.C69_displaced",
    "QNET.Linear.C69_exact",
    "QNET.Linear.C69_exact_passive",
    "QNET.Linear.C69_realizable",
    "QNET.Linear.C69_unexpanded_refuted"
   ],
   "note": "Exactness (doubled-up, and passive systems without doubling), physical realizability and displacement for all linear systems. Refuted: doubled_up=False silently drops creation operators; without a0 couplings that are not expanded give zero C and c. The equations of motion enter by their value; the result of the code is a one-shot map iterator."
  },
  {
   "property": "C70",
   "status": "partial",
   "theorems": [
    "QNET.Network.C70_cascade",
    "QNET.Network.C70_connect_partial",
    "QNET.Network.C70_heisenberg_eom_partial",
    "QNET.Network.C70_local",
    "QNET.Network.C70_network"
   ],
   "note": "Existence and uniqueness of the fields, outputs and equation of motion for all circuits (before and after rewriting), for connect, locality and causality. Missing: operator-valued scattering with more than one channel, where symbolic_heisenberg_eom itself is wrong (C54_refuted_gauge); connect with an output used twice (C46_refuted_output_twice)."
  },
  {
   "property": "C71",
   "status": "partial",
   "theorems": [
    "QNET.Print.C71_drift",
    "QNET.Print.C71_example",
    "QNET.Print.C71_identical",
    "QNET.Print.C71_injective",
    "QNET.Print.C71_nonvacuous",
    "QNET.Print.C71_refuted_empty_array",
    "QNET.Print.C71_refuted_identical",
    "QNET.Print.C71_roundtrip_indented_partial",
    "QNET.Print.C71_roundtrip_partial",
    "QNET.Print.C71_single_line",
    "QNET.Print.C71_total",
    "QNET.Print.C71_total_indented"
   ],
   "note": "Full round trip proved for both formats and all caches, up to every congruence containing ==, and exactly if == is identity. Partial because arrays without rows or (indented) without columns are refuted (C71_refuted_empty_array), and the printer cache confuses objects that are == but not identical (C71_refuted_identical). Floats are not modelled."
  },
  {
   "property": "C72",
   "status": "partial",
   "theorems": [
    "QNET.Kwargs.C72_component",
    "QNET.Kwargs.C72_derivative",
    "QNET.Kwargs.C72_localspace",
    "QNET.Kwargs.C72_plus_minus",
    "QNET.Kwargs.C72_refuted_spinspace",
    "QNET.Kwargs.C72_spinspace_iff_partial"
   ],
   "note": "Proved for LocalSpace, Component, QuantumDerivative, OperatorPlusMinusCC; refuted for SpinSpace with custom basis labels (C72_refuted_spinspace), with the exact condition in C72_spinspace_iff_partial."
  },
  {
   "property": "C73",
   "status": "partial",
   "theorems": [
    "QNET.Ascii.C73_nonvacuous",
    "QNET.Ascii.C73_nonvacuous_commute",
    "QNET.Ascii.C73_nonvacuous_large",
    "QNET.Ascii.C73_refuted_adjoint_sum",
    "QNET.Ascii.C73_refuted_args",
    "QNET.Ascii.C73_refuted_conjugate",
    "QNET.Ascii.C73_refuted_identity",
    "QNET.Ascii.C73_refuted_product",
    "QNET.Ascii.C73_refuted_scalar_in_sum",
    "QNET.Ascii.C73_refuted_scalarplus",
    "QNET.Ascii.C73_refuted_sign",
    "QNET.Ascii.C73_same_text",
    "QNET.Ascii.C73_total",
    "QNET.Ascii.C73_unambiguous",
    "QNET.Ascii.C73_value_partial"
   ],
   "note": "Proved for all expressions without the shapes excluded by Tidy (C73_value_partial, for the text and for the text of the adjoint); each shape is refuted: order of factors in a Bra, ScalarPlus coefficients, scalar sums times identity in an indexed sum, arguments of an adjoint symbol, adjoint of Adjoint(sum), operator sums that begin with a sign, identity in a Bra (TypeError)."
  },
  {
   "property": "C74",
   "status": "partial",
   "theorems": [
    "QNET.Config.C74_formats",
    "QNET.Config.C74_init",
    "QNET.Config.C74_nonvacuous",
    "QNET.Config.C74_program_partial",
    "QNET.Config.C74_refuted_class",
    "QNET.Config.C74_refuted_error",
    "QNET.Config.C74_refuted_first_use",
    "QNET.Config.C74_refuted_reset",
    "QNET.Config.C74_refuted_sympy",
    "QNET.Config.C74_reset",
    "QNET.Config.C74_restored_partial"
   ],
   "note": "Proved for configurations that are accepted, keep the printer classes and do not reset, after init_printing has been called; refuted otherwise (C74_refuted_first_use, _error, _reset, _class, _sympy)."
  },
  {
   "property": "C75",
   "status": "proved",
   "theorems": [
    "QNET.Dot.C75_dotprint",
    "QNET.Dot.C75_example",
    "QNET.Dot.C75_refuted_repeat",
    "QNET.Dot.C75_unique"
   ],
   "note": "For repeat=True (the default); with repeat=False and maxdepth one node can get two descriptions (C75_refuted_repeat)."
  },
  {
   "property": "C76",
   "status": "proved",
   "theorems": [
    "QNET.TreePrint.C76_example",
    "QNET.TreePrint.C76_lines",
    "QNET.TreePrint.C76_nonvacuous",
    "QNET.TreePrint.C76_positions_unique",
    "QNET.TreePrint.C76_readable",
    "QNET.TreePrint.C76_refuted_newline",
    "QNET.TreePrint.C76_refuted_padding",
    "QNET.TreePrint.C76_string"
   ],
   "note": "The first line is not indented by padding, contrary to the documentation (C76_refuted_padding); a line break in a text makes the string ambiguous (C76_refuted_newline)."
  },
  {
   "property": "C77",
   "status": "proved",
   "theorems": [
    "QNET.Draw.C77_defaults",
    "QNET.Draw.C77_drawing",
    "QNET.Draw.C77_example",
    "QNET.Draw.C77_nonvacuous",
    "QNET.Draw.C77_picture",
    "QNET.Draw.C77_refuted_suffix",
    "QNET.Draw.C77_refuted_zero"
   ],
   "note": "The circuit without channels is not drawn (C77_refuted_zero), and draw_circuit returns True without writing a file for other suffixes (C77_refuted_suffix)."
  },
  {
   "property": "C78",
   "status": "partial",
   "theorems": [
    "QNET.Circuit.C78_refuted_feedback",
    "QNET.Circuit.C78_terminates_partial"
   ],
   "note": "Proved for all meaningful expressions without feedback, permutations and inverses included (C78_terminates_partial). False with feedback: rule R001 of Feedback alternates between two forms of the same product, so that a well-posed four-channel circuit ends with a RecursionError for every recursion limit (C78_refuted_feedback)."
  },
  {
   "property": "C79",
   "status": "partial",
   "theorems": [
    "QNET.PyEq.C79_ne_partial",
    "QNET.PyEq.C79_number",
    "QNET.PyEq.C79_preorder",
    "QNET.PyEq.C79_refuted_hash",
    "QNET.PyEq.C79_refuted_ne",
    "QNET.PyEq.C79_refuted_symmetric",
    "QNET.PyEq.C79_same_kind_partial",
    "QNET.PyEq.C79_sound"
   ],
   "note": "Proved: == is reflexive and transitive and sound for all objects (C79_preorder, C79_sound); on objects of the same kind it is equality up to the way numbers are written, symmetric and consistent with the hash (C79_same_kind_partial); comparison with numbers (C79_number); != is the negation of == without NumPy numbers (C79_ne_partial). False in general: c*IdentityOperator == c but not c == c*IdentityOperator (C79_refuted_symmetric), equal objects with different hashes (C79_refuted_hash), NumPy values both == and != (C79_refuted_ne)."
  },
  {
   "property": "C80",
   "status": "partial",
   "theorems": [
    "QNET.Liouv.C80_equivalent_partial",
    "QNET.Liouv.C80_hermitian_partial",
    "QNET.Liouv.C80_refuted_hamiltonian",
    "QNET.Liouv.C80_refuted_identity",
    "QNET.Liouv.C80_refuted_one",
    "QNET.Liouv.C80_refuted_symbol",
    "QNET.Liouv.C80_refuted_two",
    "QNET.Liouv.C80_test_partial",
    "QNET.Liouv.C80_total_partial"
   ],
   "note": "Proved for exactly one operator in the terms SPre(x)*SPost(x.adjoint()) (any rate, any number of other terms): equivalence (C80_test_partial, C80_equivalent_partial), Hermiticity (C80_hermitian_partial), totality (C80_total_partial). False otherwise: no collapse operator (LinAlgError, C80_refuted_hamiltonian), two or more (TypeError from sorted, C80_refuted_two), identity term (C80_refuted_identity), rate that is not visibly real (C80_refuted_symbol), rate One (decay lost because complex(One) is 1j, C80_refuted_one)."
  },
  {
   "property": "C81",
   "status": "partial",
   "theorems": [
    "QNET.Indexed.C81_all_symbols_partial",
    "QNET.Indexed.C81_free_symbols",
    "QNET.Indexed.C81_refuted_bound",
    "QNET.Indexed.C81_refuted_bound_value",
    "QNET.Indexed.C81_refuted_capture",
    "QNET.Indexed.C81_refuted_nested",
    "QNET.Indexed.C81_refuted_product",
    "QNET.Indexed.C81_refuted_swap",
    "QNET.Indexed.C81_substitute_partial",
    "QNET.Indexed.C81_unaffected"
   ],
   "note": "Dependence on free symbols only, unaffected expressions: proved for all expressions. Value and free symbols after substitute: proved for all maps that do not involve bound symbols and whose replacements contain no replaced symbol (C81_substitute_partial). False otherwise: capture (C81_refuted_capture), bound symbols renamed or TypeError (C81_refuted_bound, C81_refuted_bound_value), exchange of two symbols (C81_refuted_swap), bound_symbols misses nested sums (C81_refuted_nested), with the effect that products cannot be written out (C81_refuted_product). QuantumDerivative with evaluation points is not modelled here."
  },
  {
   "property": "C82",
   "status": "partial",
   "theorems": [
    "QNET.Hilbert.C82_local_partial",
    "QNET.Hilbert.C82_no_basis",
    "QNET.Hilbert.C82_no_basis_full",
    "QNET.Hilbert.C82_no_basis_local",
    "QNET.Hilbert.C82_product_partial",
    "QNET.Hilbert.C82_refuted_comma",
    "QNET.Hilbert.C82_refuted_label",
    "QNET.Hilbert.C82_refuted_negative",
    "QNET.Hilbert.C82_refuted_repeated",
    "QNET.Hilbert.C82_refuted_type",
    "QNET.Hilbert.C82_trivial_partial"
   ],
   "note": "Proved for all spaces whose labels are distinct, acceptable for kets and (in products) free of commas (C82_product_partial, C82_local_partial, C82_trivial_partial, C82_no_basis). False otherwise: negative numbers (C82_refuted_negative), commas (C82_refuted_comma), repeated labels (C82_refuted_repeated), labels that KetSymbol refuses (C82_refuted_label), TypeError for TrivialSpace labels and numbers of SpinSpace levels (C82_refuted_type). Symbolic labels are not modelled."
  },
  {
   "property": "C83",
   "status": "partial",
   "theorems": [
    "QNET.Cache.C83_refuted_takes_effect",
    "QNET.Cache.C83_stale",
    "QNET.Cache.C83_takes_effect_partial",
    "QNET.Cache.Rules.C83_add_del",
    "QNET.Cache.Rules.C83_add_effect",
    "QNET.Cache.Rules.C83_add_exceptions",
    "QNET.Cache.Rules.C83_add_frame",
    "QNET.Cache.Rules.C83_add_succeeds",
    "QNET.Cache.Rules.C83_add_unique",
    "QNET.Cache.Rules.C83_del_all",
    "QNET.Cache.Rules.C83_del_named_partial",
    "QNET.Cache.Rules.C83_del_raises",
    "QNET.Cache.Rules.C83_del_unique",
    "QNET.Cache.Rules.C83_names",
    "QNET.Cache.Rules.C83_new_rule_last",
    "QNET.Cache.Rules.C83_refuted_atomic",
    "QNET.Cache.Rules.C83_refuted_inherited"
   ],
   "note": "Success condition, effect, frame and exceptions of add_rule, and the effect of del_rules, are proved. Refuted: a failed del_rules has already deleted the names before the missing one; on a class that inherits its dictionary, del_rules(names) deletes the rules of the base class (del_rules() does not); a new rule has no effect on expressions that are in the instance cache (C83_stale: for every history)."
  },
  {
   "property": "C84",
   "status": "partial",
   "theorems": [
    "QNET.CircText.C84_reads_partial",
    "QNET.CircText.C84_refuted_cdim",
    "QNET.CircText.C84_refuted_names",
    "QNET.CircText.C84_same_text",
    "QNET.CircText.C84_slh_partial",
    "QNET.CircText.C84_unambiguous"
   ],
   "note": "Proved for all expressions and both precedences, for texts as sequences of pieces and symbols known by label and arguments. Refuted for characters: the label of a symbol may imitate a permutation, an identity or a symbol with arguments; the number of channels of a symbol is not printed."
  },
  {
   "property": "C85",
   "status": "partial",
   "theorems": [
    "QNET.QAlg.C85_add",
    "QNET.QAlg.C85_div",
    "QNET.QAlg.C85_mul",
    "QNET.QAlg.C85_pow_partial",
    "QNET.QAlg.C85_refuted_float_power",
    "QNET.QAlg.C85_refuted_negative_power",
    "QNET.QAlg.C85_sub",
    "QNET.QAlg.C85_sum",
    "QNET.QAlg.C85_type_errors"
   ],
   "note": "Proved: + - * / ** and sum() return the right value for all operators, numbers and natural exponents, and never fail; TypeError for all other operands. Refuted (witnesses proved): negative exponents raise TypeError although the code has a branch for them, as do whole exponents of type float."
  },
  {
   "property": "C86",
   "status": "partial",
   "theorems": [
    "QNET.Scalar.C86_floor_zero",
    "QNET.Scalar.C86_floordiv",
    "QNET.Scalar.C86_mod_partial",
    "QNET.Scalar.C86_refuted_floordiv",
    "QNET.Scalar.C86_refuted_mod_one",
    "QNET.Scalar.C86_total",
    "QNET.Scalar.C86_value",
    "QNET.Scalar.C86_zero"
   ],
   "note": "Proved: quotients are right and never fail unless the divisor is zero; ZeroDivisionError for zero; // and % of wrapped numbers. Refuted (witnesses proved): x % One is Zero for every x (5/2 % 1 is 1/2); x // 1 of a symbolic scalar recurses without end."
  },
  {
   "property": "C87",
   "status": "partial",
   "theorems": [
    "QNET.Scalar.Root.C87_conjugate_partial",
    "QNET.Scalar.Root.C87_pow_partial",
    "QNET.Scalar.Root.C87_refuted_conjugate",
    "QNET.Scalar.Root.C87_refuted_sqrt",
    "QNET.Scalar.Root.C87_sqrt_principal_partial",
    "QNET.Scalar.Root.C87_sqrt_square",
    "QNET.Scalar.Root.C87_sqrt_square_object"
   ],
   "note": "Proved: powers are principal values unless a power is raised to a fractional exponent; sqrt(x)**2 has the value of x for every x, and is x itself for symbolic x; principal root; conjugate/real/imag away from fractional powers of negative numbers. The code refutes the rest: sqrt(x**2) is x, conj(sqrt(x)) is sqrt(conj(x)) also for negative x."
  },
  {
   "property": "C88",
   "status": "partial",
   "theorems": [
    "QNET.Deriv.C88_adjoint",
    "QNET.Deriv.C88_diff_partial",
    "QNET.Deriv.C88_diff_total_partial",
    "QNET.Deriv.C88_evaluate",
    "QNET.Deriv.C88_free_partial",
    "QNET.Deriv.C88_order",
    "QNET.Deriv.C88_refuted_chain",
    "QNET.Deriv.C88_refuted_explicit",
    "QNET.Deriv.C88_refuted_nested",
    "QNET.Deriv.C88_refuted_number",
    "QNET.Deriv.C88_refuted_shift",
    "QNET.Deriv.C88_refuted_substitute",
    "QNET.Deriv.C88_refuted_zeroth",
    "QNET.Deriv.C88_series",
    "QNET.Deriv.C88_series_remainder"
   ],
   "note": "Proved for symbols, their adjoints, explicit multiples and derivatives of these: diff(s, n>=1) denotes the n-th partial derivative whenever s occurs in evaluation points only as such; evaluate_at; symmetry; adjoint; free_symbols (unless an evaluated derivative is differentiated and evaluated again); series_expand with its remainder. The code refutes the rest: substitute in a derivative gives zero, no chain rule for evaluation points 2*s or t+1, AttributeError at Python numbers, an explicit replacement ignores the evaluation, diff(s, 0) is zero, nested evaluation loses free symbols."
  },
  {
   "property": "C89",
   "status": "proved",
   "theorems": [
    "QNET.Circuit.C89_total_correctness"
   ],
   "note": "Total correctness of feedback-free circuit construction (C89_total_correctness), all permutations and inverses included."
  },
  {
   "property": "C90",
   "status": "partial",
   "theorems": [
    "QNET.Circuit.C90_fixed_point_partial",
    "QNET.Circuit.C90_refuted_series"
   ],
   "note": "Proved for all feedback-free circuits in which no series product has an identity as an operand (C90_fixed_point_partial). False otherwise: A << B << B.series_inverse() with two-channel components is SeriesProduct(A, cid(2)), which is different from A and becomes A when made again (C90_refuted_series). Feedback is not covered."
  },
  {
   "property": "C91",
   "status": "proved",
   "theorems": [
    "QNET.Circuit.C91_substitute",
    "QNET.Circuit.C91_substitute_sound"
   ],
   "note": "C91_substitute (total correctness without feedback), C91_substitute_sound (partial correctness with feedback)."
  },
  {
   "property": "C92",
   "status": "partial",
   "theorems": [
    "QNET.Osc.C92_coherent",
    "QNET.Osc.C92_diff_error",
    "QNET.Osc.C92_diff_partial",
    "QNET.Osc.C92_fock",
    "QNET.Osc.C92_fock_dim",
    "QNET.Osc.C92_fock_limit",
    "QNET.Osc.C92_fock_truncated",
    "QNET.Osc.C92_fock_unique",
    "QNET.Osc.C92_refuted_diff"
   ],
   "note": "Fock representation proved for all amplitudes and truncations (C92_fock, C92_fock_unique, C92_fock_truncated, C92_fock_limit). diff is wrong: it is the derivative iff conj(u)*u' is real (C92_diff_partial), with the exact error in C92_diff_error and the witness exp(is) in C92_refuted_diff."
  },
  {
   "property": "C93",
   "status": "partial",
   "theorems": [
    "QNET.Pauli.C93_default_labels",
    "QNET.Pauli.C93_default_numbered",
    "QNET.Pauli.C93_level",
    "QNET.Pauli.C93_refuted_same",
    "QNET.Pauli.C93_relations_partial",
    "QNET.Pauli.C93_single_level",
    "QNET.Pauli.C93_spin_half",
    "QNET.Pauli.C93_states"
   ],
   "note": "Proved for all spaces and two different levels (C93_relations_partial, C93_default_numbered, C93_default_labels, C93_states). Equal states are not refused (C93_refuted_same); on a spin 1/2, PauliZ is -2 Jz (C93_spin_half)."
  },
  {
   "property": "C94",
   "status": "proved",
   "theorems": [
    "QNET.SLH.C94_general",
    "QNET.SLH.C94_special",
    "QNET.SLH.C94_symmetric"
   ],
   "note": ""
  },
  {
   "property": "C95",
   "status": "partial",
   "theorems": [
    "QNET.Mixed.C95_diff_partial",
    "QNET.Mixed.C95_error",
    "QNET.Mixed.C95_refuted_spre"
   ],
   "note": "Proved whenever diff returns an expression, and it is characterised when it raises (C95_error); refuted for SPre and SPost of operators with the symbol, where it raises a TypeError (C95_refuted_spre). Indexed sums and traces are not included (see C34, C48)."
  },
  {
   "property": "C96",
   "status": "partial",
   "theorems": [
    "QNET.Derat.C96_accepts",
    "QNET.Derat.C96_identity_partial",
    "QNET.Derat.C96_refuted_repeated"
   ],
   "note": "The identity is proved for products without repeated factors (as sympy builds them), the acceptance condition for all; refuted for unevaluated products that repeat the root (C96_refuted_repeated)."
  },
  {
   "property": "C97",
   "status": "partial",
   "theorems": [
    "QNET.UniSub.C97_error",
    "QNET.UniSub.C97_injective_partial",
    "QNET.UniSub.C97_read_partial",
    "QNET.UniSub.C97_refuted_greek",
    "QNET.UniSub.C97_refuted_mark",
    "QNET.UniSub.C97_refuted_upper"
   ],
   "note": "Proved for one subscript and one superscript as the printers use it: the text can be read back (C97_read_partial, C97_injective_partial); when rendering raises is characterised exactly (C97_error). Refuted: words like UP or PSI raise KeyError (C97_refuted_upper), Theta is rendered as tau and psi as Psi (C97_refuted_greek), names that contain marks (C97_refuted_mark)."
  },
  {
   "property": "C98",
   "status": "proved",
   "theorems": [
    "QNET.Pm.C98_adjoint",
    "QNET.Pm.C98_doit",
    "QNET.Pm.C98_found",
    "QNET.Pm.C98_incomplete",
    "QNET.Pm.C98_rewrite"
   ],
   "note": "The constructors of products, multiples and adjoints enter by their value (C30). That not all conjugate pairs of longer sums are found is shown by C98_incomplete; the derivative of OperatorPlusMinusCC (AttributeError in _diff) is not modelled."
  },
  {
   "property": "C99",
   "status": "partial",
   "theorems": [
    "QNET.Indexed.C99_float",
    "QNET.Indexed.C99_power_partial",
    "QNET.Indexed.C99_refuted_nested",
    "QNET.Indexed.C99_refuted_primed",
    "QNET.Indexed.C99_terms_partial"
   ],
   "note": "Proved for sums whose indices have different names that are not used otherwise in the term: value, form and totality for all integers (C99_power_partial, C99_terms_partial). Refuted: a power of a power, (x**m)**n with m, n >= 2, always raises ValueError (C99_refuted_nested); symbols that are primed versions of an index are captured (C99_refuted_primed); exponents of type float raise TypeError (C99_float)."
  },
  {
   "property": "C100",
   "status": "partial",
   "theorems": [
    "QNET.Scalar.C100_diff_partial",
    "QNET.Scalar.C100_expand",
    "QNET.Scalar.C100_expanded_partial",
    "QNET.Scalar.C100_exponent_error",
    "QNET.Scalar.C100_refuted_exponent",
    "QNET.Scalar.C100_refuted_negative",
    "QNET.Scalar.C100_refuted_square",
    "QNET.Scalar.C100_series_partial"
   ],
   "note": "expand, diff and series_expand preserve, differentiate and expand the value of every scalar on which they return (C100_expand, C100_diff_partial, C100_series_partial); expand multiplies out all products of sums if powers are powers of symbols (C100_expanded_partial). The full claim is refuted by the code: powers of sums are not expanded, series_expand raises ValueError for every negative power, and diff ignores the dependence of an exponent on the symbol (C100_refuted_*, exact error in C100_exponent_error). Derivatives and series of symbols and of SymPy values are parameters of the model."
  },
  {
   "property": "C101",
   "status": "partial",
   "theorems": [
    "QNET.State.C101_bra_partial",
    "QNET.State.C101_braket_partial",
    "QNET.State.C101_ket_partial",
    "QNET.State.C101_ketbra_partial",
    "QNET.State.C101_refuted_bra"
   ],
   "note": "Proved, for every ket and interpretation: whatever expand() returns denotes the same state on the same space, and expansions of inner and outer products have the same value; sums of kets and the expansion of scalars and operators are parameters with the contracts of C29, C30, C100. The claim is false for bras: Bra(|0> + |1>).expand() raises AttributeError (C101_refuted_bra; the code calls adjoin instead of adjoint). Missing: that expand() always returns (it needs not, C60), that no product of sums is left, indexed sums; products of operators that simplify to a smaller space (C58_refuted)."
  },
  {
   "property": "C102",
   "status": "partial",
   "theorems": [
    "QNET.State.C102_complete_partial",
    "QNET.State.C102_default_partial",
    "QNET.State.C102_hermitian_partial",
    "QNET.State.C102_no_basis",
    "QNET.State.C102_not_hermitian",
    "QNET.State.C102_projected_partial"
   ],
   "note": "proved for every call that returns, all lists of kets, all dimensions: the value is P A P, hence A in a complete basis, and the default basis is complete; BasisNotSetError when a factor has no basis. Missing: that the call returns (C60 shows products of kets that loop), and the products are those of C58, with its condition Safe (C58_refuted). The c.c. term is represented by the sum X + X.adjoint() (C98). C102_not_hermitian: hermitian=True on another operator changes it, as documented"
  },
  {
   "property": "C103",
   "status": "partial",
   "theorems": [
    "QNET.Latex.C103_label",
    "QNET.Latex.C103_op_partial",
    "QNET.Latex.C103_op_text_partial",
    "QNET.Latex.C103_refuted_bra",
    "QNET.Latex.C103_refuted_braket",
    "QNET.Latex.C103_refuted_digits",
    "QNET.Latex.C103_refuted_symbols",
    "QNET.Latex.C103_refuted_tensor",
    "QNET.Latex.C103_space",
    "QNET.Latex.C103_state_parts",
    "QNET.Latex.C103_states",
    "QNET.Latex.C103_tensor_partial"
   ],
   "note": "Proved for all labels over the accepted characters (not beginning with an underscore), for all spaces, all states and products, and for all operators whose name is letters and digits, is not letters followed by digits, and is not one of the few symbols outside the single letters; products of basis states if the labels are joined by commas or are single letters or digits. The full claim is refuted by the code, with proved witnesses: A1 prints a subscript in text mode, varsigma and hbar print math in text mode, basis labels up and g print the unknown command uparrowg, inner products with the braket package print an unbraced superscript. Symbolic labels, arguments and spin fractions are not modelled."
  },
  {
   "property": "C104",
   "status": "partial",
   "theorems": [
    "QNET.Latex.C104_content",
    "QNET.Latex.C104_derivative_content",
    "QNET.Latex.C104_derivative_partial",
    "QNET.Latex.C104_identities",
    "QNET.Latex.C104_limits",
    "QNET.Latex.C104_refuted_derivative",
    "QNET.Latex.C104_refuted_pinv",
    "QNET.Latex.C104_valid_partial"
   ],
   "note": "Proved for all expressions except pseudo-inverses of operands without parentheses, which the code prints with two superscripts (C104_refuted_pinv), and derivatives of higher order by symbols that have a superscript (C104_refuted_derivative). Where parentheses are put is a parameter; the texts of symbols, states and scalars are hypotheses (C103). Not modelled: matrices, permutations, equations."
  },
  {
   "property": "C105",
   "status": "partial",
   "theorems": [
    "QNET.Flat.C105_conflicts_partial",
    "QNET.Flat.C105_exports_partial",
    "QNET.Flat.C105_refuted_exclude",
    "QNET.Flat.C105_refuted_imported",
    "QNET.Flat.C105_refuted_module_name",
    "QNET.Flat.C105_sorted",
    "QNET.Flat.C105_submodules"
   ],
   "note": "Proved for all trees in which names in __all__ exist, public names are not names of submodules, and what an __init__ imports from its submodules is listed in its __all__ (the first and the last are refuted otherwise: a submodule silently replaces an object, names are not passed on). C105_submodules needs no such condition. exclude, include and include_private_modules are not passed on to subpackages (C105_refuted_exclude); the specification follows the code in this."
  },
  {
   "property": "C106",
   "status": "partial",
   "theorems": [
    "QNET.Mat.C106_error",
    "QNET.Mat.C106_imag_partial",
    "QNET.Mat.C106_real",
    "QNET.Mat.C106_refuted_imag",
    "QNET.Mat.C106_sum_partial"
   ],
   "note": "Proved for all matrices, except that for entries that have only a conjugate (no imag, no as_real_imag) the imaginary part has the wrong sign (C106_refuted_imag). That the attributes real, imag, as_real_imag and conjugate of the entries are right is an assumption (C87 for QNET's scalars)."
  },
  {
   "property": "C107",
   "status": "partial",
   "theorems": [
    "QNET.ScalarCmp.C107_compare",
    "QNET.ScalarCmp.C107_compare_error",
    "QNET.ScalarCmp.C107_order",
    "QNET.ScalarCmp.C107_pow",
    "QNET.ScalarCmp.C107_pow_error",
    "QNET.ScalarCmp.C107_pow_expr_partial",
    "QNET.ScalarCmp.C107_pow_scalar",
    "QNET.ScalarCmp.C107_refuted_zero_pow"
   ],
   "note": "Comparisons and powers of wrapped and unwrapped numbers: complete, with exact error conditions. Refuted by the code: 0 ** y is Zero for every other scalar y, also if its value is 0 (C107_refuted_zero_pow); C107_pow_expr_partial is the part that holds (bases different from 0). Not modelled: SymPy expressions as wrapped values, infinities and NaN."
  },
  {
   "property": "C108",
   "status": "partial",
   "theorems": [
    "QNET.Coeffs.C108_exact",
    "QNET.Coeffs.C108_factor",
    "QNET.Coeffs.C108_lookup",
    "QNET.Coeffs.C108_refuted_factor",
    "QNET.Coeffs.C108_terms",
    "QNET.Coeffs.C108_value"
   ],
   "note": "get_coeffs: complete (expand=True is C31, here a parameter). factor_coeff keeps the value, but is refuted for the keyword arguments: if the product of the coefficients is 1, which is always so for factors without coefficients, the tuple of coefficients takes their place and create raises TypeError (C108_refuted_factor)."
  }
 ]
}