{
"C01": [
"proved",
""
],
"C02": [
"proved",
""
],
"C03": [
"partial",
"Proved for all lists, tuples and other sequences (C03_sequence_partial and the C03_permute theorems) and for composition. False for strings: str(generator) gives the text of a generator object (C03_refuted_str)."
],
"C04": [
"proved",
""
],
"C05": [
"proved",
""
],
"C06": [
"proved",
""
],
"C07": [
"proved",
""
],
"C08": [
"proved",
""
],
"C09": [
"proved",
""
],
"C10": [
"proved",
"C10_isolated_loop proves that on an isolated loop the permutation feedback drops the loop while SLH feedback raises AlgebraError."
],
"C100": [
"partial",
"expand, diff and series_expand preserve, differentiate and expand the value of every scalar on which they return (C100_expand, C100_diff_partial, C100_series_partial); expand multiplies out all products of sums if powers are powers of symbols (C100_expanded_partial). The full claim is refuted by the code: powers of sums are not expanded, series_expand raises ValueError for every negative power, and diff ignores the dependence of an exponent on the symbol (C100_refuted_*, exact error in C100_exponent_error). Derivatives and series of symbols and of SymPy values are parameters of the model."
],
"C101": [
"partial",
"Proved, for every ket and interpretation: whatever expand() returns denotes the same state on the same space, and expansions of inner and outer products have the same value; sums of kets and the expansion of scalars and operators are parameters with the contracts of C29, C30, C100. The claim is false for bras: Bra(|0> + |1>).expand() raises AttributeError (C101_refuted_bra; the code calls adjoin instead of adjoint). Missing: that expand() always returns (it needs not, C60), that no product of sums is left, indexed sums; products of operators that simplify to a smaller space (C58_refuted)."
],
"C102": [
"partial",
"proved for every call that returns, all lists of kets, all dimensions: the value is P A P, hence A in a complete basis, and the default basis is complete; BasisNotSetError when a factor has no basis. Missing: that the call returns (C60 shows products of kets that loop), and the products are those of C58, with its condition Safe (C58_refuted). The c.c. term is represented by the sum X + X.adjoint() (C98). C102_not_hermitian: hermitian=True on another operator changes it, as documented"
],
"C103": [
"partial",
"Proved for all labels over the accepted characters (not beginning with an underscore), for all spaces, all states and products, and for all operators whose name is letters and digits, is not letters followed by digits, and is not one of the few symbols outside the single letters; products of basis states if the labels are joined by commas or are single letters or digits. The full claim is refuted by the code, with proved witnesses: A1 prints a subscript in text mode, varsigma and hbar print math in text mode, basis labels up and g print the unknown command uparrowg, inner products with the braket package print an unbraced superscript. Symbolic labels, arguments and spin fractions are not modelled."
],
"C104": [
"partial",
"Proved for all expressions except pseudo-inverses of operands without parentheses, which the code prints with two superscripts (C104_refuted_pinv), and derivatives of higher order by symbols that have a superscript (C104_refuted_derivative). Where parentheses are put is a parameter; the texts of symbols, states and scalars are hypotheses (C103). Not modelled: matrices, permutations, equations."
],
"C105": [
"partial",
"Proved for all trees in which names in __all__ exist, public names are not names of submodules, and what an __init__ imports from its submodules is listed in its __all__ (the first and the last are refuted otherwise: a submodule silently replaces an object, names are not passed on). C105_submodules needs no such condition. exclude, include and include_private_modules are not passed on to subpackages (C105_refuted_exclude); the specification follows the code in this."
],
"C106": [
"partial",
"Proved for all matrices, except that for entries that have only a conjugate (no imag, no as_real_imag) the imaginary part has the wrong sign (C106_refuted_imag). That the attributes real, imag, as_real_imag and conjugate of the entries are right is an assumption (C87 for QNET's scalars)."
],
"C107": [
"partial",
"Comparisons and powers of wrapped and unwrapped numbers: complete, with exact error conditions. Refuted by the code: 0 ** y is Zero for every other scalar y, also if its value is 0 (C107_refuted_zero_pow); C107_pow_expr_partial is the part that holds (bases different from 0). Not modelled: SymPy expressions as wrapped values, infinities and NaN."
],
"C108": [
"partial",
"get_coeffs: complete (expand=True is C31, here a parameter). factor_coeff keeps the value, but is refuted for the keyword arguments: if the product of the coefficients is 1, which is always so for factors without coefficients, the tuple of coefficients takes their place and create raises TypeError (C108_refuted_factor)."
],
"C11": [
"proved",
""
],
"C12": [
"proved",
""
],
"C13": [
"proved",
""
],
"C14": [
"proved",
""
],
"C15": [
"proved",
""
],
"C16": [
"proved",
""
],
"C17": [
"partial",
"Proved without further hypotheses for all expressions built from symbols, permutations and identities (C17_symbolic). For expressions with SLH literals it is false of the code: C17_refuted_zero_channels gives a witness (feedback leaves a zero-channel SLH whose Hamiltonian is then dropped); C17_slh_partial covers the literals under a side condition."
],
"C18": [
"partial",
"The channel-number equations are proved for the same class of expressions as C17. The claim that a channel mismatch is always reported is false of the code: C18_refuted_identity (circuit identities are filtered before the check)."
],
"C19": [
"proved",
""
],
"C20": [
"partial",
"Sound and complete for patterns whose list names are used once and with at most one multi-wildcard per level; excluded: lone zero-or-more wildcard against an expression without arguments (UnboundLocalError, refuted), non-single patterns at both ends (accepted by the constructor, first one ignored: refuted), repeated list names (refuted)."
],
"C21": [
"proved",
""
],
"C22": [
"proved",
""
],
"C23": [
"partial",
"Transparent for simplifications that respect == (in particular exactly transparent when keys determine arguments, e.g. circuits without Feedback); refuted for Feedback, whose ports are not part of the instance key. The _create_idempotent branches (False for all classes) are not modelled."
],
"C24": [
"partial",
"Proved for lists of different classes none of which precedes a class derived from it; the contents also if no class outside the list that is operated on shares the object. Refuted otherwise: shared instance cache, class named twice, base class named before derived class."
],
"C25": [
"proved",
""
],
"C26": [
"partial",
"<=, <, isdisjoint and intersect proved; remove is proved as set difference only where the code implements it (C26_remove_partial) and C26_remove_refuted shows a local space minus a product containing it returns the local space."
],
"C27": [
"partial",
"Proved for all local spaces and all labels and steps; an existing level whose label KetSymbol does not accept raises ValueError (C27_next_partial, C27_create_zero_partial state this exactly; C27_refuted_label is a witness: basis ('u', '\u2191')); without explicit labels there is no exception (C27_numbered). Symbolic labels are not modelled."
],
"C28": [
"partial",
"Proved for operands whose spaces are pairwise equal or disjoint (in particular all local operators) and for two factors; C28_refuted: x2*y1*z12*w1 is reordered with w1 in front of z12, changing the value."
],
"C29": [
"partial",
"Value preservation, order independence and (for summands that are not scalar multiples of sums) distinct terms with non-zero total coefficients are proved; the distinctness claim is refuted for scalar multiples of sums: 2*(A+B) - 3*(A+B) + A leaves a nested sum with A occurring twice."
],
"C30": [
"partial",
"Value preservation proved in every algebra; full expansion proved whenever the special binary rules yield no sums, refuted for rules such as a*a^dagger -> 1 + a^dagger*a (C30_refuted_rule)."
],
"C31": [
"partial",
"Proved for sums, products, scalar multiples and abstract Taylor series; refuted for operators applied to states and outer products, whose _series_expand returns (order+1)(order+2)/2 coefficients."
],
"C32": [
"proved",
"finite ranges, infinite outermost range, membership and lengths of all range classes"
],
"C33": [
"proved",
"doit(), doit(indices=...), doit(max_terms=...) and sums over constant terms, for every interpretation; an empty sum gives None (C33_empty_range_refuted)"
],
"C34": [
"partial",
"proved when the new (primed) names are unused and no free index symbol becomes bound; false otherwise: five refutations of variable capture"
],
"C35": [
"partial",
"Values, Zero, One, symbols, sums, products, integer powers modelled over an arbitrary field; +, *, unary -, ** and mixed arithmetic with numbers proved. Missing/refuted: One - x returns 1 + x (C35_refuted_one_minus); complex(One) = 1j (C35_refuted_complex); (x+1)-1 not collected (C35_refuted_collect). Fractional powers are not modelled."
],
"C36": [
"proved",
"Commutator.create with disjunct_hs_zero, commutator_order, all rules (R001-R007) and expand_commutators_leibniz; QX extended with commutators, so C30 (value), C31, C52, C53 cover commutators too."
],
"C37": [
"partial",
"Rules R005, R009-R021 for one oscillator mode proved as operator identities on the Bargmann-Fock space of entire functions, for all levels and parameters (C37_products), with ket rules (C37_kets_partial, real phases; refuted for complex phases), |a><b| and adjoints. For spaces of finite dimension: matrices of any size satisfy the rules except a a^dagger (C37_truncated_partial), which is refuted (C37_refuted_truncated). Missing: Squeeze, whose rules are only R001, and symbolic indices."
],
"C38": [
"partial",
"For every spin, the rules R005, R022-R030 and R009-R011 and the coefficient functions are those of the spin matrices, which satisfy the su(2) relations (C38_su2, C38_products, C38_kets, C38_top, C38_bottom, C38_adjoint); SpinBasisKet selects the right level. Refuted for symbolic labels (wrong Jz coefficient), labels given as strings to Jzjmcoeff/Jmjmcoeff (AttributeError), custom labels after rebuild."
],
"C39": [
"proved",
"Model of liouvillian/lindblad/commutator/anti_commutator; proved for every *-algebra: action, apply, trace, adjoints, isometric mixing, shift invariance; commutator(A, 0) refuted."
],
"C40": [
"partial",
"create/apply preserve the action; super-adjoint proved whenever adjoint() returns; refuted: ScalarTimesSuperOperator has no adjoint (C40_refuted_adjoint), ordering can move SPre past a non-commuting symbol (C40_refuted_order), proved for products of SPre/SPost on equal or disjoint spaces (C40_order_partial)."
],
"C41": [
"proved",
"Heap model of the shared history lists; refinement to a list-of-lines specification for all sessions."
],
"C42": [
"proved",
"stack-based traversal = recursion, for every instantiation and rule function"
],
"C43": [
"partial",
"substitution of maximal keys, rest unchanged, evaluation, no-occurrence; false when create raises AttributeError (refuted, exception swallowed); sympy's own subs and bound indices are not modelled"
],
"C44": [
"proved",
"Strict weak order on pairwise comparable keys (space keys always are); C44_mixed_intransitive shows the hypothesis is needed."
],
"C45": [
"partial",
"Proved for tuple-only arguments and equal numbers of positional arguments, and for sets and dictionaries whose items can be ordered (C45_sets, C45_dicts); refuted for positional/keyword confusion, for lists/dicts versus tuples, and for sets and dictionaries whose items cannot be ordered (sorted_if_possible then returns an empty list, because sorted has used up the iterator)."
],
"C46": [
"partial",
"connect() modelled line by line (references by index/object/label, offsets, both mappings, loop of feedbacks). force_SLH result satisfies an independent wiring specification (unique consistent signals; remaining ports in order; drift row) when outputs are distinct; the simplified circuit has the same triple; invalid references and doubly used inputs raise ValueError. Outputs used twice are NOT rejected: C46_refuted_output_twice."
],
"C47": [
"partial",
"exact value of the sum in terms of the simplified one; correct when the solution lies in a range without repetitions; refuted otherwise (the range is ignored by default). The loop over ranges and summands is proved to end, without IndexError, and to keep the value for every elimination step that does (C47_loop, C47_loop_result); the solver and the expansion of sums of deltas (SymPy) are parameters."
],
"C48": [
"partial",
"Proved for every operator, space, dimension and matrix values of the symbols, for all evaluations in which the reorderings are safe (the strict run), and without any such condition for products of operators on single local spaces (C48_local). In general the code does not check this and the claim is false: C48_refuted_order, C48_refuted_rotation. Product, sum, scalar multiple and adjoint constructors are assumed value-preserving; symbolic LocalSigma levels are not modelled."
],
"C49": [
"partial",
"False of the code: refuted with the witness (0,0); _partial states the exact behaviour (BadPermutationError only for 1-tuples, TypeError otherwise)."
],
"C50": [
"proved",
""
],
"C51": [
"proved",
""
],
"C52": [
"proved",
"Symbols and scalars enter through their derivatives; QuantumDerivative objects are symbols."
],
"C53": [
"proved",
""
],
"C54": [
"partial",
"Proved without noises for all triples; with noises proved for at most one channel or scattering that commutes with X; refuted for operator-valued scattering with two channels: Matrix - X subtracts X from every entry (C54_refuted_gauge)."
],
"C55": [
"partial",
"Proved for every selection except the empty list, which is treated like None (C55_refuted_empty). expand/simplify_scalar of the result are not modelled (value preserving, C30)."
],
"C56": [
"partial",
"Coherent input and components proved; refuted: CircuitZero.toSLH() raises ValueError (C56_refuted_circuit_zero), SLH() accepts a non-square S (C56_refuted_square)."
],
"C57": [
"proved",
"sums, scalar multiples, products and commutators; example: ladder operators of any number of modes"
],
"C58": [
"partial",
"Proved for all operands wherever act_locally_times_tensor separates commuting factors only (checked evaluation, which agrees with the code), or if products of operators keep their space; tensor and outer products without reservation. C58_refuted: |0><0| X |1><1| applied to a product state gives ZeroKet because the code does not check this."
],
"C59": [
"partial",
"Tensor and outer products proved for all states; inner products unless both are multiples of basis states. C59_refuted: <0|_1 |0>_2 = 1 instead of UnequalSpaces (rule R003 of BraKet has no space check); KetBra(ZeroKet, ZeroKet) raises UnequalSpaces."
],
"C60": [
"partial",
"False: four Lean witnesses (for every recursion depth): a^+ a^+ |alpha>, inner/outer products of product states on different spaces, XY on a product state with interlocking spaces, inner products of interlocking product states. Proved for scalar multiples."
],
"C61": [
"partial",
"Square matrices: proved, with entry == 0 as the test for zero. Refuted: ZeroOperator entries do not count as zero (C61_zero_operator_refuted), column vectors are cut wrongly (C61_column_refuted)."
],
"C62": [
"partial",
"Everything proved except refusal of mismatched shapes in sums: numpy broadcasting accepts a column plus a row (C62_add_refuted); what is refused is characterised exactly by C62_add_partial."
],
"C63": [
"partial",
"Proved; series_expand of an empty matrix returns the empty tuple instead of order+1 matrices (C63_series_expand_empty_refuted)."
],
"C64": [
"partial",
"Value theorems for QuTiP and SymPy conversion and totality for a class of expressions. Refuted: adjoints, KetBra, Phase/Displace/Squeeze never converted to QuTiP; spin levels numbered the other way round in QuTiP; mapped symbols not embedded; SymPy Jz and Jplus wrong, ZeroOperator not a matrix. Not modelled: PseudoInverse, NullSpaceProjector, symbolic coefficients."
],
"C65": [
"partial",
"Kets on their own space: value and totality. Refuted: kets in a larger space, CoherentStateKet, OperatorTimesKet, Bra, BraKet, all super-operators."
],
"C66": [
"partial",
"Value at every time for pyfunc coefficients, same dissipation for SLH models. Refuted: cancelling time dependence is an error; string coefficients corrupt names with the letter I. lambdify and substitution of parameters not modelled."
],
"C67": [
"proved",
"Convergence of the evolution for all coherent fields and times in any C*-algebra, under the conditions of the limit theorem of Bouten, van Handel and Silberfarb; the returned model is physical. The relation Y*Ytilde=P0 of the documentation is refuted (must be 1-P0). Not modelled: unbounded operators, symbolic expansion (series_expand is C31)."
],
"C68": [
"partial",
"Correct for spaces with at most fock_trunc levels if the conditions of the limit theorem hold. Refuted: higher levels are silently ignored; the conditions are not checked (divergent energies, non-unitary S); a non-diagonal Y raises AttributeError."
],
"C69": [
"partial",
"Exactness (doubled-up, and passive systems without doubling), physical realizability and displacement for all linear systems. Refuted: doubled_up=False silently drops creation operators; without a0 couplings that are not expanded give zero C and c. The equations of motion enter by their value; the result of the code is a one-shot map iterator."
],
"C70": [
"partial",
"Existence and uniqueness of the fields, outputs and equation of motion for all circuits (before and after rewriting), for connect, locality and causality. Missing: operator-valued scattering with more than one channel, where symbolic_heisenberg_eom itself is wrong (C54_refuted_gauge); connect with an output used twice (C46_refuted_output_twice)."
],
"C71": [
"partial",
"Full round trip proved for both formats and all caches, up to every congruence containing ==, and exactly if == is identity. Partial because arrays without rows or (indented) without columns are refuted (C71_refuted_empty_array), and the printer cache confuses objects that are == but not identical (C71_refuted_identical). Floats are not modelled."
],
"C72": [
"partial",
"Proved for LocalSpace, Component, QuantumDerivative, OperatorPlusMinusCC; refuted for SpinSpace with custom basis labels (C72_refuted_spinspace), with the exact condition in C72_spinspace_iff_partial."
],
"C73": [
"partial",
"Proved for all expressions without the shapes excluded by Tidy (C73_value_partial, for the text and for the text of the adjoint); each shape is refuted: order of factors in a Bra, ScalarPlus coefficients, scalar sums times identity in an indexed sum, arguments of an adjoint symbol, adjoint of Adjoint(sum), operator sums that begin with a sign, identity in a Bra (TypeError)."
],
"C74": [
"partial",
"Proved for configurations that are accepted, keep the printer classes and do not reset, after init_printing has been called; refuted otherwise (C74_refuted_first_use, _error, _reset, _class, _sympy)."
],
"C75": [
"proved",
"For repeat=True (the default); with repeat=False and maxdepth one node can get two descriptions (C75_refuted_repeat)."
],
"C76": [
"proved",
"The first line is not indented by padding, contrary to the documentation (C76_refuted_padding); a line break in a text makes the string ambiguous (C76_refuted_newline)."
],
"C77": [
"proved",
"The circuit without channels is not drawn (C77_refuted_zero), and draw_circuit returns True without writing a file for other suffixes (C77_refuted_suffix)."
],
"C78": [
"partial",
"Proved for all meaningful expressions without feedback, permutations and inverses included (C78_terminates_partial). False with feedback: rule R001 of Feedback alternates between two forms of the same product, so that a well-posed four-channel circuit ends with a RecursionError for every recursion limit (C78_refuted_feedback)."
],
"C79": [
"partial",
"Proved: == is reflexive and transitive and sound for all objects (C79_preorder, C79_sound); on objects of the same kind it is equality up to the way numbers are written, symmetric and consistent with the hash (C79_same_kind_partial); comparison with numbers (C79_number); != is the negation of == without NumPy numbers (C79_ne_partial). False in general: c*IdentityOperator == c but not c == c*IdentityOperator (C79_refuted_symmetric), equal objects with different hashes (C79_refuted_hash), NumPy values both == and != (C79_refuted_ne)."
],
"C80": [
"partial",
"Proved for exactly one operator in the terms SPre(x)*SPost(x.adjoint()) (any rate, any number of other terms): equivalence (C80_test_partial, C80_equivalent_partial), Hermiticity (C80_hermitian_partial), totality (C80_total_partial). False otherwise: no collapse operator (LinAlgError, C80_refuted_hamiltonian), two or more (TypeError from sorted, C80_refuted_two), identity term (C80_refuted_identity), rate that is not visibly real (C80_refuted_symbol), rate One (decay lost because complex(One) is 1j, C80_refuted_one)."
],
"C81": [
"partial",
"Dependence on free symbols only, unaffected expressions: proved for all expressions. Value and free symbols after substitute: proved for all maps that do not involve bound symbols and whose replacements contain no replaced symbol (C81_substitute_partial). False otherwise: capture (C81_refuted_capture), bound symbols renamed or TypeError (C81_refuted_bound, C81_refuted_bound_value), exchange of two symbols (C81_refuted_swap), bound_symbols misses nested sums (C81_refuted_nested), with the effect that products cannot be written out (C81_refuted_product). QuantumDerivative with evaluation points is not modelled here."
],
"C82": [
"partial",
"Proved for all spaces whose labels are distinct, acceptable for kets and (in products) free of commas (C82_product_partial, C82_local_partial, C82_trivial_partial, C82_no_basis). False otherwise: negative numbers (C82_refuted_negative), commas (C82_refuted_comma), repeated labels (C82_refuted_repeated), labels that KetSymbol refuses (C82_refuted_label), TypeError for TrivialSpace labels and numbers of SpinSpace levels (C82_refuted_type). Symbolic labels are not modelled."
],
"C83": [
"partial",
"Success condition, effect, frame and exceptions of add_rule, and the effect of del_rules, are proved. Refuted: a failed del_rules has already deleted the names before the missing one; on a class that inherits its dictionary, del_rules(names) deletes the rules of the base class (del_rules() does not); a new rule has no effect on expressions that are in the instance cache (C83_stale: for every history)."
],
"C84": [
"partial",
"Proved for all expressions and both precedences, for texts as sequences of pieces and symbols known by label and arguments. Refuted for characters: the label of a symbol may imitate a permutation, an identity or a symbol with arguments; the number of channels of a symbol is not printed."
],
"C85": [
"partial",
"Proved: + - * / ** and sum() return the right value for all operators, numbers and natural exponents, and never fail; TypeError for all other operands. Refuted (witnesses proved): negative exponents raise TypeError although the code has a branch for them, as do whole exponents of type float."
],
"C86": [
"partial",
"Proved: quotients are right and never fail unless the divisor is zero; ZeroDivisionError for zero; // and % of wrapped numbers. Refuted (witnesses proved): x % One is Zero for every x (5/2 % 1 is 1/2); x // 1 of a symbolic scalar recurses without end."
],
"C87": [
"partial",
"Proved: powers are principal values unless a power is raised to a fractional exponent; sqrt(x)**2 has the value of x for every x, and is x itself for symbolic x; principal root; conjugate/real/imag away from fractional powers of negative numbers. The code refutes the rest: sqrt(x**2) is x, conj(sqrt(x)) is sqrt(conj(x)) also for negative x."
],
"C88": [
"partial",
"Proved for symbols, their adjoints, explicit multiples and derivatives of these: diff(s, n>=1) denotes the n-th partial derivative whenever s occurs in evaluation points only as such; evaluate_at; symmetry; adjoint; free_symbols (unless an evaluated derivative is differentiated and evaluated again); series_expand with its remainder. The code refutes the rest: substitute in a derivative gives zero, no chain rule for evaluation points 2*s or t+1, AttributeError at Python numbers, an explicit replacement ignores the evaluation, diff(s, 0) is zero, nested evaluation loses free symbols."
],
"C89": [
"proved",
"Total correctness of feedback-free circuit construction (C89_total_correctness), all permutations and inverses included."
],
"C90": [
"partial",
"Proved for all feedback-free circuits in which no series product has an identity as an operand (C90_fixed_point_partial). False otherwise: A << B << B.series_inverse() with two-channel components is SeriesProduct(A, cid(2)), which is different from A and becomes A when made again (C90_refuted_series). Feedback is not covered."
],
"C91": [
"proved",
"C91_substitute (total correctness without feedback), C91_substitute_sound (partial correctness with feedback)."
],
"C92": [
"partial",
"Fock representation proved for all amplitudes and truncations (C92_fock, C92_fock_unique, C92_fock_truncated, C92_fock_limit). diff is wrong: it is the derivative iff conj(u)*u' is real (C92_diff_partial), with the exact error in C92_diff_error and the witness exp(is) in C92_refuted_diff."
],
"C93": [
"partial",
"Proved for all spaces and two different levels (C93_relations_partial, C93_default_numbered, C93_default_labels, C93_states). Equal states are not refused (C93_refuted_same); on a spin 1/2, PauliZ is -2 Jz (C93_spin_half)."
],
"C94": [
"proved",
""
],
"C95": [
"partial",
"Proved whenever diff returns an expression, and it is characterised when it raises (C95_error); refuted for SPre and SPost of operators with the symbol, where it raises a TypeError (C95_refuted_spre). Indexed sums and traces are not included (see C34, C48)."
],
"C96": [
"partial",
"The identity is proved for products without repeated factors (as sympy builds them), the acceptance condition for all; refuted for unevaluated products that repeat the root (C96_refuted_repeated)."
],
"C97": [
"partial",
"Proved for one subscript and one superscript as the printers use it: the text can be read back (C97_read_partial, C97_injective_partial); when rendering raises is characterised exactly (C97_error). Refuted: words like UP or PSI raise KeyError (C97_refuted_upper), Theta is rendered as tau and psi as Psi (C97_refuted_greek), names that contain marks (C97_refuted_mark)."
],
"C98": [
"proved",
"The constructors of products, multiples and adjoints enter by their value (C30). That not all conjugate pairs of longer sums are found is shown by C98_incomplete; the derivative of OperatorPlusMinusCC (AttributeError in _diff) is not modelled."
],
"C99": [
"partial",
"Proved for sums whose indices have different names that are not used otherwise in the term: value, form and totality for all integers (C99_power_partial, C99_terms_partial). Refuted: a power of a power, (x**m)**n with m, n >= 2, always raises ValueError (C99_refuted_nested); symbols that are primed versions of an index are captured (C99_refuted_primed); exponents of type float raise TypeError (C99_float)."
]
}