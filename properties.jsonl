{"id": "C01", "title": "check_permutation accepts exactly the bijections", "statement": "check_permutation(p) returns True if and only if p is the image tuple of a bijection of {0,...,len(p)-1} (every number from 0 to n-1 occurs exactly once).", "quantifier": "every finite tuple of non-negative integers of any length", "why_tests_cant": "Tests try a handful of tuples; the guarantee is used as the precondition of every permutation circuit of any size.", "anchors": ["src/qnet/utils/permutations.py:check_permutation"]}
{"id": "C02", "title": "invert_permutation is the two-sided group inverse", "statement": "For a valid image tuple p, invert_permutation(p) is again valid, has the same length, composing it with p on either side (compose_permutations) yields the identity tuple (0,...,n-1), and inverting twice returns p.", "quantifier": "every valid permutation tuple of any length", "why_tests_cant": "The set of permutations is infinite; tests check small literals.", "anchors": ["src/qnet/utils/permutations.py:invert_permutation", "src/qnet/utils/permutations.py:compose_permutations"]}
{"id": "C03", "title": "permute/compose_permutations: action law and exact error behaviour", "statement": "permute(seq, p) returns the sequence whose j-th entry is seq[p[j]], of the same type for lists, tuples and strings; it fails with ValueError exactly when the lengths differ and with BadPermutationError exactly when the lengths agree but p is not a valid permutation. Successive permutes compose: permute(permute(s,p),q) = permute(s, compose_permutations(p,q)); composition of valid permutations is valid, associative and has the identity tuple as unit.", "quantifier": "every sequence, and every pair/triple of tuples (valid or not) of any length", "why_tests_cant": "A universally quantified law over all sequences, permutations and malformed inputs.", "anchors": ["src/qnet/utils/permutations.py:permute", "src/qnet/utils/permutations.py:compose_permutations"]}
{"id": "C04", "title": "Disjoint-cycle decomposition is total, in normal form, and round-trips", "statement": "For every valid non-empty permutation, permutation_to_disjoint_cycles terminates without error and returns non-empty cycles that partition {0,...,n-1}, follow the permutation (each element maps to its successor, the last to the first), start at their smallest element and are ordered by it; permutation_from_disjoint_cycles reconstructs the original tuple.", "quantifier": "every valid non-empty permutation", "why_tests_cant": "The code is a while True loop removing elements from a mutable list: totality and the invariant need induction over all permutations.", "anchors": ["src/qnet/utils/permutations.py:permutation_to_disjoint_cycles", "src/qnet/utils/permutations.py:permutation_from_disjoint_cycles"]}
{"id": "C05", "title": "Block decomposition of a permutation is a round trip into indecomposable blocks", "statement": "For every valid non-empty permutation, permutation_to_block_permutations returns valid non-empty permutations whose concatenation (permutation_from_block_permutations) is the original, none of which can be split further into two blocks; none of the internal assertions fires. Empty or malformed input raises BadPermutationError.", "quantifier": "every tuple of any length", "why_tests_cant": "Maximality of the decomposition (no further split) is a for-all statement over all split points of all permutations.", "anchors": ["src/qnet/utils/permutations.py:permutation_to_block_permutations", "src/qnet/utils/permutations.py:permutation_from_block_permutations"]}
{"id": "C06", "title": "full_block_perm moves whole blocks and is a valid permutation", "statement": "For a valid permutation of block indices and block sizes of the same length, full_block_perm returns a valid permutation of all channels (its internal assertion never fires) that sends channel j of block k to channel j of the slot the block permutation assigns to block k, blocks in the slots being laid out contiguously in slot order.", "quantifier": "every valid block permutation and every tuple of block sizes of equal length (sizes may be zero)", "why_tests_cant": "Ranges over all block structures and all permutations of blocks.", "anchors": ["src/qnet/utils/permutations.py:full_block_perm"]}
{"id": "C07", "title": "block_perm_and_perms_within_blocks factorises a permutation", "statement": "For every valid permutation and every block structure of positive sizes summing to its length, the returned block permutation is valid, each within-block tuple is a valid permutation of its block and sorts the channels of the block in the order of their images, blocks are ordered by their smallest image; no internal assertion fires. If the permutation maps every block onto a contiguous range, then it equals the blow-up (full_block_perm) of the block permutation composed with the concatenation of the within-block permutations.", "quantifier": "every valid permutation and every compatible positive block structure", "why_tests_cant": "Infinite family; tests use a few block structures.", "anchors": ["src/qnet/utils/permutations.py:block_perm_and_perms_within_blocks", "src/qnet/utils/permutations.py:full_block_perm"]}
{"id": "C08", "title": "Permutation circuits form the permutation group under series composition", "statement": "CPermutation.create rejects exactly the malformed tuples; creating with the identity tuple yields the n-channel pass-through; for permutation circuits of equal size a << b scatters input j to a(b(j)), series_inverse is its two-sided inverse, and the scattering matrix of a << b is the product of the scattering matrices.", "quantifier": "every pair of valid permutations of equal length", "why_tests_cant": "Group laws over all permutations of all sizes.", "anchors": ["src/qnet/algebra/core/circuit_algebra.py:CPermutation.create", "src/qnet/algebra/core/circuit_algebra.py:CPermutation.series_with_permutation", "src/qnet/algebra/core/circuit_algebra.py:CPermutation._series_inverse", "src/qnet/algebra/core/matrix_algebra.py:permutation_matrix"]}
{"id": "C09", "title": "map_channels / pad_with_identity build the documented channel maps", "statement": "map_channels(m, n) for an injective partial map m within range(n) is a valid permutation circuit that sends k to m[k] for every key k and keeps the remaining inputs in increasing order on the remaining outputs in increasing order; non-injective maps are rejected. pad_with_identity(C, k, m) inserts m pass-through channels at position k: its SLH triple routes channels j<k and j>=k+m through C unchanged and the inserted channels straight through.", "quantifier": "every injective partial map on range(n), every n; every circuit, position and pad size in range", "why_tests_cant": "Quantifies over all partial maps and circuit sizes.", "anchors": ["src/qnet/algebra/core/circuit_algebra.py:map_channels", "src/qnet/algebra/core/circuit_algebra.py:pad_with_identity"]}
{"id": "C10", "title": "Feedback of a permutation circuit closes exactly one loop", "statement": "For a permutation circuit of size n >= 2 and ports out_port, in_port < n, feedback(out_port, in_port) is the permutation of n-1 channels obtained by removing output out_port and input in_port, and rerouting the input that led to out_port to the output that in_port led to; the result agrees with the SLH feedback formula applied to the permutation matrix whenever the loop is well posed.", "quantifier": "every valid permutation of size >= 2 and every pair of ports", "why_tests_cant": "Three code paths (identity, loop, generic) over all permutations and ports.", "anchors": ["src/qnet/algebra/core/circuit_algebra.py:CPermutation._feedback", "src/qnet/algebra/core/circuit_algebra.py:SLH._feedback"]}
{"id": "C11", "title": "Extracting the feedback channel from a permutation (factor_rhs / factor_lhs) is exact", "statement": "When simplifying feedback of a series product whose outer factor is a permutation, the reduced permutation r and port p that are moved outside the loop satisfy self << m_{n-1 -> in} = m_{n-1 -> p} << (r + 1) (and the mirrored equation on the other side), for every permutation and port; the internal assertion never fires.", "quantifier": "every valid permutation and every port", "why_tests_cant": "For all permutations, ports.", "anchors": ["src/qnet/algebra/core/circuit_algebra.py:CPermutation._factor_rhs", "src/qnet/algebra/core/circuit_algebra.py:CPermutation._factor_lhs"]}
{"id": "C12", "title": "Moving a permutation around a reducible circuit preserves the circuit", "statement": "The factorisation of permutation << rhs into permutation1 << rhs1 << permutation2 used to normalise series products is an identity of circuits: permutation1 composed with (within-block permutations and re-ordered blocks of rhs) composed with permutation2 routes every channel as before.", "quantifier": "every permutation, every block structure, every family of blocks", "why_tests_cant": "For all block structures and permutations.", "anchors": ["src/qnet/algebra/core/circuit_algebra.py:CPermutation._factorize_for_rhs"]}
{"id": "C13", "title": "The SLH series product is associative with unit, and inverse to series_inverse", "statement": "For SLH triples, (a << b) << c = a << (b << c) whenever the scattering matrices involved are isometric (S^dagger S = 1), the pass-through triple is a two-sided unit, and with unitary S, series_inverse is a two-sided inverse.", "quantifier": "all SLH triples of equal, arbitrary channel number over any operator *-algebra", "why_tests_cant": "Law over an infinite non-commutative algebra and any number of channels.", "anchors": ["src/qnet/algebra/core/circuit_algebra.py:SLH.series_with_slh", "src/qnet/algebra/core/circuit_algebra.py:SLH._series_inverse"]}
{"id": "C14", "title": "Concatenation of SLH triples is associative and satisfies the interchange law", "statement": "(a + b) + c = a + (b + c) and (a1 + a2) << (b1 + b2) = (a1 << b1) + (a2 << b2) for SLH triples with matching channel numbers.", "quantifier": "all SLH triples with matching dimensions", "why_tests_cant": "Universally quantified algebraic law over all dimensions.", "anchors": ["src/qnet/algebra/core/circuit_algebra.py:SLH.concatenate_slh", "src/qnet/algebra/core/circuit_algebra.py:SLH.series_with_slh"]}
{"id": "C15", "title": "Circuit composition preserves physical realisability", "statement": "If all inputs have unitary scattering matrix and Hermitian Hamiltonian, so do the results of series, concatenation, series_inverse and (well-posed) feedback.", "quantifier": "all physical SLH triples, all ports", "why_tests_cant": "Feedback unitarity is an identity over arbitrary unitary matrices with operator entries.", "anchors": ["src/qnet/algebra/core/circuit_algebra.py:SLH.series_with_slh", "src/qnet/algebra/core/circuit_algebra.py:SLH.concatenate_slh", "src/qnet/algebra/core/circuit_algebra.py:SLH._series_inverse", "src/qnet/algebra/core/circuit_algebra.py:SLH._feedback"]}
{"id": "C16", "title": "SLH feedback eliminates the fed-back channel consistently", "statement": "For a well-posed loop, the reduced S and L of feedback() are exactly what is obtained by solving the input/output equations out = S in + L with in_n = out_n for the remaining channels; feedback commutes with pre/post-composition by circuits not touching the loop and with series_inverse; an ill-posed or operator-valued loop raises AlgebraError.", "quantifier": "all SLH triples and all inputs", "why_tests_cant": "For all S, L, all fields.", "anchors": ["src/qnet/algebra/core/circuit_algebra.py:SLH._feedback", "src/qnet/algebra/core/circuit_algebra.py:Feedback._series_inverse"]}
{"id": "C17", "title": "Automatic simplification of circuit expressions never changes the circuit", "statement": "Any circuit expression built with <<, +, feedback, and series inverse from symbols, permutations, identities and SLH triples denotes, after the automatic rewriting done at construction, the same SLH triple (same S, L, H) as the unsimplified expression, for every assignment of unitary SLH triples to the circuit symbols for which the expression is well posed.", "quantifier": "all expression trees of any depth and all assignments", "why_tests_cant": "The rewriting engine composes dozens of rules in input-dependent order; only induction over expressions covers it.", "anchors": ["src/qnet/algebra/core/circuit_algebra.py:SeriesProduct", "src/qnet/algebra/core/circuit_algebra.py:Concatenation", "src/qnet/algebra/core/circuit_algebra.py:Feedback", "src/qnet/algebra/_rules.py:_algebraic_rules_circuit"]}
{"id": "C18", "title": "Channel dimension of a simplified circuit", "statement": "The cdim of a simplified circuit expression equals the cdim of the unsimplified one, and creating a series product of circuits with unequal cdim raises an error.", "quantifier": "all circuit expressions and operand lists", "why_tests_cant": "All trees; the check runs after identity filtering, so it must be considered for every operand list.", "anchors": ["src/qnet/algebra/core/circuit_algebra.py:Circuit.cdim", "src/qnet/algebra/core/algebraic_properties.py:check_cdims", "src/qnet/algebra/core/algebraic_properties.py:filter_cid"]}
{"id": "C19", "title": "Pairwise rewriting of associative operand lists preserves the product", "statement": "If every registered binary rule preserves the product of two neighbouring operands, then the simplified operand list (flattening, neutral-element removal, repeated pairwise rewriting with backtracking) has the same product as the input list in any monoid, and on exit no neighbouring pair is reducible.", "quantifier": "all operand lists, all rule sets, all monoids", "why_tests_cant": "The engine is an in-place, restarting loop; the result for arbitrary rule sets needs a loop invariant.", "anchors": ["src/qnet/algebra/core/algebraic_properties.py:match_replace_binary", "src/qnet/algebra/core/algebraic_properties.py:assoc", "src/qnet/algebra/core/algebraic_properties.py:filter_neutral"]}
{"id": "C20", "title": "Pattern matching is sound and complete", "statement": "match_pattern(pattern, expr) succeeds with bindings B only if substituting B into the pattern reproduces expr and every condition/type constraint holds (single occurrences consistent); if some assignment of the wildcards matches, the matcher finds a match (for patterns with at most one multi-wildcard per level).", "quantifier": "all patterns and all expressions of any depth", "why_tests_cant": "Infinite trees, wildcard interactions.", "anchors": ["src/qnet/algebra/pattern_matching/__init__.py:Pattern.match", "src/qnet/algebra/pattern_matching/__init__.py:match_pattern", "src/qnet/algebra/pattern_matching/__init__.py:MatchDict"]}
{"id": "C21", "title": "findall and finditer enumerate exactly the matching sub-expressions", "statement": "Pattern.findall(expr) lists exactly the sub-expressions (including expr) that match, each occurrence once, and Pattern.finditer(expr) yields the corresponding match results in the same order.", "quantifier": "all patterns and expressions", "why_tests_cant": "All trees.", "anchors": ["src/qnet/algebra/pattern_matching/__init__.py:Pattern.findall", "src/qnet/algebra/pattern_matching/__init__.py:Pattern.finditer"]}
{"id": "C22", "title": "Wildcard bindings never conflict", "statement": "A successful match result assigns one value per wildcard name: a repeated single wildcard is bound to equal values everywhere, list wildcards concatenate in order of occurrence only in list-merging mode; merging two match results fails exactly if a common single binding differs.", "quantifier": "all update sequences on match results", "why_tests_cant": "All histories of updates.", "anchors": ["src/qnet/algebra/pattern_matching/__init__.py:MatchDict.update", "src/qnet/algebra/pattern_matching/__init__.py:MatchDict.__setitem__"]}
{"id": "C23", "title": "Instance caching is transparent", "statement": "For any sequence of create() calls under a fixed rule set, with caching on, off, or switched at any time, each call returns an expression equal to the one a fresh, cache-less create() would return.", "quantifier": "all sequences of create calls and cache switches", "why_tests_cant": "Quantifies over histories.", "anchors": ["src/qnet/algebra/core/abstract_algebra.py:Expression.create", "src/qnet/algebra/core/abstract_algebra.py:Expression._get_instance_key", "src/qnet/algebra/toolbox/core.py:no_instance_caching"]}
{"id": "C24", "title": "temporary_rules restores rules and caches on exit", "statement": "After a temporary_rules block - left normally or by exception, with any modification of the rules inside, and arbitrarily nested - the rules and the instance caches of the named classes are exactly as before the block.", "quantifier": "all class lists, all bodies, all nestings, all exit points", "why_tests_cant": "Quantifies over bodies and crash points.", "anchors": ["src/qnet/algebra/toolbox/core.py:temporary_rules", "src/qnet/algebra/toolbox/core.py:temporary_instance_cache", "src/qnet/algebra/toolbox/core.py:no_instance_caching"]}
{"id": "C25", "title": "Tensor products of Hilbert spaces form a commutative idempotent monoid", "statement": "Multiplying Hilbert spaces is associative, commutative and idempotent, the trivial space is neutral and the full space absorbing; the local factors of a product are the union of the local factors; nesting and order of operands do not matter; dimension multiplies over the distinct local factors.", "quantifier": "all finite collections of spaces in any order and nesting", "why_tests_cant": "All lists of spaces.", "anchors": ["src/qnet/algebra/core/hilbert_space_algebra.py:ProductSpace.create", "src/qnet/algebra/core/hilbert_space_algebra.py:LocalSpace"]}
{"id": "C26", "title": "Sub-space relations and set operations on Hilbert spaces agree with sets of local factors", "statement": "<=, <, isdisjoint, intersect (&) and remove (/) on trivial, local, product and full spaces behave as subset, strict subset, disjointness, intersection and difference of the sets of local factors, on every combination for which they return a value.", "quantifier": "all pairs of spaces", "why_tests_cant": "Case matrix over classes times all sets.", "anchors": ["src/qnet/algebra/core/hilbert_space_algebra.py:LocalSpace.intersect", "src/qnet/algebra/core/hilbert_space_algebra.py:ProductSpace.intersect", "src/qnet/algebra/core/hilbert_space_algebra.py:ProductSpace.remove", "src/qnet/algebra/core/hilbert_space_algebra.py:ProductSpace.is_strict_subfactor_of"]}
{"id": "C27", "title": "Basis labels and indices are consistent, next/prev move exactly n steps", "statement": "For a local space with basis labels, label -> index -> label is the identity; next(n) from index i gives index i+n when 0 <= i+n < dimension and the zero ket otherwise; next(n).prev(n) returns to the start whenever defined; creating a basis ket outside the space gives the zero ket.", "quantifier": "all bases, all indices, all signed step counts", "why_tests_cant": "All dimensions and steps.", "anchors": ["src/qnet/algebra/core/hilbert_space_algebra.py:LocalSpace.next_basis_label_or_index", "src/qnet/algebra/core/state_algebra.py:BasisKet.next", "src/qnet/algebra/core/algebraic_properties.py:basis_ket_zero_outside_hs"]}
{"id": "C28", "title": "Automatic ordering of operator products only commutes commuting operators", "statement": "Sorting the factors of an operator product never changes the relative order of two factors whose Hilbert spaces overlap.", "quantifier": "all operand lists", "why_tests_cant": "The comparison is not a weak order in general; behaviour of the sort depends on the whole list.", "anchors": ["src/qnet/utils/ordering.py:DisjunctCommutativeHSOrder", "src/qnet/algebra/core/algebraic_properties.py:orderby"]}
{"id": "C29", "title": "Collecting summands preserves the sum and leaves distinct terms", "statement": "Collecting terms of a sum combines coefficients of equal terms: the value of the sum in any module is unchanged, each remaining term occurs once with non-zero coefficient, zero terms disappear, and the result does not depend on the order of the input up to ordering of output.", "quantifier": "all lists of summands over any scalar ring/module", "why_tests_cant": "All lists and all modules.", "anchors": ["src/qnet/algebra/core/algebraic_properties.py:collect_summands", "src/qnet/algebra/core/algebraic_properties.py:collect_scalar_summands"]}
{"id": "C30", "title": "expand() is value-preserving distribution", "statement": "expand() of nested sums and products has the same value in every (non-commutative) algebra, and the result is a sum in which no product has a sum as a factor.", "quantifier": "all sum/product expressions of any depth", "why_tests_cant": "All expressions.", "anchors": ["src/qnet/algebra/core/abstract_quantum_algebra.py:QuantumTimes._expand", "src/qnet/algebra/core/abstract_quantum_algebra.py:QuantumPlus._expand"]}
{"id": "C31", "title": "series_expand returns the truncated power series of products", "statement": "series_expand(param, about, order) returns exactly order+1 coefficients; for a product they are the Cauchy product of the factor series, i.e. evaluating the polynomial agrees with the product of the polynomials up to the given order - for products of operators, inner products, outer products, and operators applied to states alike.", "quantifier": "all orders, all factor series", "why_tests_cant": "All orders and series.", "anchors": ["src/qnet/algebra/core/abstract_quantum_algebra.py:_series_expand_combine_prod", "src/qnet/algebra/core/state_algebra.py:OperatorTimesKet._series_expand", "src/qnet/algebra/core/state_algebra.py:KetBra._series_expand"]}
{"id": "C32", "title": "Index ranges enumerate the Cartesian product exactly once", "statement": "Iterating over several index ranges yields every combination of index values exactly once in lexicographic order (last index fastest); the number of terms equals the reported length; membership tests agree with enumeration.", "quantifier": "all lists of ranges of any size, including empty and negative-step ranges", "why_tests_cant": "All range lists.", "anchors": ["src/qnet/utils/indices.py:yield_from_ranges", "src/qnet/utils/indices.py:product", "src/qnet/utils/indices.py:IndexOverRange", "src/qnet/utils/indices.py:IndexOverList", "src/qnet/utils/indices.py:IndexOverFockSpace"]}
{"id": "C33", "title": "Writing out an indexed sum gives the sum of its terms", "statement": "doit() of a finite indexed sum equals the sum over all index combinations of the term with the indices substituted; expanding index by index in any order gives the same value; with max_terms it is the partial sum of the first max_terms terms.", "quantifier": "all terms, all finite ranges, all index subsets", "why_tests_cant": "All ranges and expansion orders.", "anchors": ["src/qnet/algebra/core/indexed_operations.py:IndexedSum.doit", "src/qnet/algebra/core/indexed_operations.py:IndexedSum.terms"]}
{"id": "C34", "title": "The product of two indexed sums is the product of their values", "statement": "Multiplying indexed sums renames clashing summation indices and yields a sum whose value is the product of the values, for every valuation of the free symbols.", "quantifier": "all pairs of indexed sums, all valuations", "why_tests_cant": "Capture problems arise only for particular name clashes, which enumeration of tests misses.", "anchors": ["src/qnet/algebra/core/indexed_operations.py:IndexedSum.__mul__", "src/qnet/algebra/core/indexed_operations.py:IndexedSum.make_disjunct_indices", "src/qnet/algebra/core/scalar_algebra.py:ScalarIndexedSum.__mul__"]}
{"id": "C35", "title": "Wrapped scalar arithmetic agrees with the arithmetic of the wrapped values", "statement": "For scalars, +, -, *, negation, conversion to Python numbers on wrapped values, Zero and One denote the arithmetic of the wrapped numbers; results equal to 0 or 1 are the Zero and One singletons.", "quantifier": "all scalar values and expressions", "why_tests_cant": "All values.", "anchors": ["src/qnet/algebra/core/scalar_algebra.py:ScalarValue", "src/qnet/algebra/core/scalar_algebra.py:Zero", "src/qnet/algebra/core/scalar_algebra.py:One"]}
{"id": "C36", "title": "Commutator ordering and Leibniz expansion preserve the commutator", "statement": "The automatic re-ordering of commutator arguments, extraction of scalar factors, and expand_commutators_leibniz yield an expression whose value in any associative algebra is AB - BA of the original.", "quantifier": "all nested commutators of products of any length in any algebra", "why_tests_cant": "All expressions and algebras.", "anchors": ["src/qnet/algebra/core/algebraic_properties.py:commutator_order", "src/qnet/algebra/toolbox/commutator_manipulation.py:expand_commutators_leibniz", "src/qnet/algebra/core/operator_algebra.py:Commutator"]}
{"id": "C37", "title": "Harmonic-oscillator and projector rewrite rules are identities of operators", "statement": "The rewriting of products of creation/annihilation operators and transition operators |j><k| (a a^dag -> 1 + a^dag a, a |j><k| -> sqrt(j)|j-1><k|, |i><j|*|k><l| -> delta_jk |i><l|, ...) is an identity in the Fock representation, for every level.", "quantifier": "all levels j,k,l", "why_tests_cant": "Infinite set of levels.", "anchors": ["src/qnet/algebra/_rules.py:_algebraic_rules_operator", "src/qnet/algebra/core/operator_algebra.py:LocalSigma.raise_jk"]}
{"id": "C38", "title": "Angular-momentum rewrite rules and coefficients satisfy the su(2) relations", "statement": "For every spin s, the matrix elements used for J+, J-, Jz satisfy [Jz,J+-] = +-J+-, [J+,J-] = 2Jz, J- is the adjoint of J+, and the coefficient vanishes exactly at the top/bottom level.", "quantifier": "all integer and half-integer spins and all magnetic quantum numbers", "why_tests_cant": "Infinite set of spins.", "anchors": ["src/qnet/algebra/library/spin_algebra.py:Jpjmcoeff", "src/qnet/algebra/library/spin_algebra.py:Jmjmcoeff", "src/qnet/algebra/library/spin_algebra.py:Jzjmcoeff", "src/qnet/algebra/library/spin_algebra.py:SpinSpace"]}
{"id": "C39", "title": "liouvillian(H, Ls) generates trace- and Hermiticity-preserving dynamics, and SLH composition leaves it consistent", "statement": "Applying liouvillian(H, Ls) to any operator X gives -i[H,X] + sum_j (L_j X L_j^dag - (L_j^dag L_j X + X L_j^dag L_j)/2); it has zero trace for every X under any cyclic trace, and maps adjoints to adjoints when H is Hermitian; it is invariant under (H,L) -> (H, U L) for unitary scalar mixing.", "quantifier": "all operators in any *-algebra with a trace, all lists of collapse operators", "why_tests_cant": "All operators, all algebras.", "anchors": ["src/qnet/algebra/core/super_operator_algebra.py:liouvillian", "src/qnet/algebra/core/super_operator_algebra.py:lindblad", "src/qnet/algebra/core/super_operator_algebra.py:commutator"]}
{"id": "C40", "title": "Super-operator rewriting preserves the action on operators", "statement": "SPre/SPost products are combined so that the action on every operator is unchanged (SPre(A)SPre(B) = SPre(AB), SPost(A)SPost(B) = SPost(BA), and commuting SPre past SPost), and the super-adjoint satisfies Tr[M L(N)] = Tr[(L* M) N].", "quantifier": "all super-operator products and operators", "why_tests_cant": "All lists of factors and all operators.", "anchors": ["src/qnet/algebra/core/super_operator_algebra.py:SPre", "src/qnet/algebra/core/super_operator_algebra.py:SPost", "src/qnet/algebra/core/super_operator_algebra.py:SuperCommutativeHSOrder", "src/qnet/algebra/_rules.py:_algebraic_rules_superop"]}
{"id": "C41", "title": "Equation histories record a valid chain of manipulations", "statement": "Eq.apply/apply_to_lhs/apply_to_rhs with cont=True return an equation whose printed history is the previous one extended by exactly one line, with cont=False a single line; the left hand side of a blank line is the last one shown above it and can always be read; no operation changes any equation that already exists, although equations share their history lists; and if every manipulation is correct, every printed line is true.", "quantifier": "all sequences of equation operations", "why_tests_cant": "All histories.", "anchors": ["src/qnet/algebra/toolbox/equation.py:Eq"]}
{"id": "C42", "title": "Rule application by explicit stack equals recursive bottom-up application", "statement": "apply_rules(expr, rules, recursive=True) returns the same expression as the structurally recursive bottom-up traversal that first rewrites the arguments and then the rebuilt node, and it terminates whenever the rules do.", "quantifier": "all expressions, all rule functions", "why_tests_cant": "All trees of any depth.", "anchors": ["src/qnet/algebra/core/abstract_algebra.py:_apply_rules", "src/qnet/algebra/core/abstract_algebra.py:Expression.apply_rules"]}
{"id": "C43", "title": "Substitution replaces simultaneously and respects expressions without occurrences", "statement": "substitute(expr, map) replaces every maximal sub-expression that is a key by its value without re-substituting inside replaced parts; substituting a map none of whose keys occurs returns an equal expression; evaluation after substitution equals evaluation under the updated valuation.", "quantifier": "all expressions and maps", "why_tests_cant": "All trees.", "anchors": ["src/qnet/algebra/core/abstract_algebra.py:substitute", "src/qnet/algebra/core/abstract_algebra.py:Expression.substitute"]}
{"id": "C44", "title": "The ordering keys of expressions give a total preorder usable by sort", "statement": "The key comparison used to order commuting summands and factors (KeyTuple, FullCommutativeHSOrder) is a strict weak order on comparable keys, so sorting is deterministic up to equal keys and independent of the input order for distinct keys.", "quantifier": "all triples of keys", "why_tests_cant": "Transitivity over all triples.", "anchors": ["src/qnet/utils/ordering.py:KeyTuple", "src/qnet/utils/ordering.py:FullCommutativeHSOrder"]}
{"id": "C45", "title": "Instance keys distinguish different constructor calls", "statement": "Two create() calls on the same class share a cached instance only if they were called with the same arguments and keyword arguments.", "quantifier": "all pairs of argument lists (nested containers)", "why_tests_cant": "Collisions appear only for particular argument shapes.", "anchors": ["src/qnet/algebra/core/abstract_algebra.py:Expression._get_instance_key", "src/qnet/utils/containers.py:nested_tuple"]}
{"id": "C46", "title": "connect() wires components as specified by the connection list", "statement": "connect(components, connections) yields the circuit in which, for every connection (out -> in), the output port is fed to the input port, with remaining external ports in order of the components; dimension = total channels minus number of connections; ports used twice are rejected.", "quantifier": "all component lists and all connection lists", "why_tests_cant": "The code re-indexes ports after each feedback step; correctness needs induction over the connection list.", "anchors": ["src/qnet/algebra/toolbox/circuit_manipulation.py:connect"]}
{"id": "C47", "title": "Sums over Kronecker deltas honour the summation range", "statement": "Simplifying sum_{i in range} delta_{i j} f(i) gives f(j) if j is in the range and 0 otherwise.", "quantifier": "all ranges, all terms, all j", "why_tests_cant": "All ranges and values.", "anchors": ["src/qnet/algebra/core/algebraic_properties.py:indexed_sum_over_kronecker", "src/qnet/algebra/core/algebraic_properties.py:indexed_sum_over_const", "src/qnet/algebra/core/algebraic_properties.py:assoc_indexed"]}
{"id": "C48", "title": "Partial traces factor correctly", "statement": "Automatic factoring of Tr_space(product) pulls only those factors out of the trace that do not act on the traced space, in an order that leaves the value unchanged.", "quantifier": "all operator products and spaces", "why_tests_cant": "All products.", "anchors": ["src/qnet/algebra/core/operator_algebra.py:factor_for_trace", "src/qnet/algebra/core/operator_algebra.py:OperatorTrace"]}
{"id": "C49", "title": "permutation_to_disjoint_cycles reports malformed tuples as BadPermutationError", "statement": "For every tuple that is not a valid permutation, permutation_to_disjoint_cycles raises BadPermutationError.", "quantifier": "every malformed tuple", "why_tests_cant": "All malformed tuples of all lengths.", "anchors": ["src/qnet/utils/permutations.py:permutation_to_disjoint_cycles"]}
{"id": "C50", "title": "extract_channel moves one channel to the end", "statement": "extract_channel(k, n) for k < n is the permutation circuit that leads input k to the last output and keeps the order of all other channels.", "quantifier": "all n and k < n", "why_tests_cant": "All sizes and positions.", "anchors": ["src/qnet/algebra/core/circuit_algebra.py:extract_channel"]}
{"id": "C51", "title": "index_in_block locates a channel inside its block", "statement": "For a circuit with blocks, index_in_block(c) is the position of channel c inside the block containing it: the blocks before contribute exactly c minus that position channels.", "quantifier": "all block structures and all channels", "why_tests_cant": "All block structures.", "anchors": ["src/qnet/algebra/core/circuit_algebra.py:Circuit.index_in_block"]}
{"id": "C52", "title": "diff() is the derivative", "statement": "expr.diff(sym) of sums, products and scalar multiples denotes the derivative of the value of expr: it is zero if expr does not depend on sym, and obeys linearity and the (non-commutative) product rule at any nesting depth.", "quantifier": "all expressions of any depth, all derivations of all algebras", "why_tests_cant": "All expressions and all algebras.", "anchors": ["src/qnet/algebra/core/abstract_quantum_algebra.py:QuantumExpression.diff", "src/qnet/algebra/core/abstract_quantum_algebra.py:QuantumTimes._diff", "src/qnet/algebra/core/abstract_quantum_algebra.py:QuantumPlus._diff", "src/qnet/algebra/core/abstract_quantum_algebra.py:ScalarTimesQuantumExpression._diff"]}
{"id": "C53", "title": "adjoint() of compound expressions is the adjoint of their value", "statement": "The adjoint of sums, products and scalar multiples denotes the adjoint of the value of the expression in every *-algebra: scalars are conjugated, products reversed.", "quantifier": "all expressions of any depth, all *-algebras", "why_tests_cant": "All expressions and all algebras.", "anchors": ["src/qnet/algebra/core/abstract_quantum_algebra.py:QuantumPlus._adjoint", "src/qnet/algebra/core/abstract_quantum_algebra.py:QuantumTimes._adjoint", "src/qnet/algebra/core/operator_algebra.py:ScalarTimesOperator._adjoint"]}
{"id": "C54", "title": "The equations of motion of an SLH model are consistent with each other and with the Liouvillian", "statement": "symbolic_master_equation(rho) is liouvillian(H, L) applied to rho, and symbolic_heisenberg_eom(X) is its dual: Tr[X d(rho)/dt] = Tr[(dX/dt) rho] for every cyclic trace; both respect adjoints for Hermitian H, conserve trace and identity, and are unaffected by static scattering upstream or (for numbers) downstream. With noises the result is the quantum Langevin equation of the triple, including the gauge term (S^dag X S - X) for scattering that acts on the system.", "quantifier": "all SLH triples over any *-algebra, all operators and noises", "why_tests_cant": "All operators, dimensions and numbers of channels.", "anchors": ["src/qnet/algebra/core/circuit_algebra.py:SLH.symbolic_master_equation", "src/qnet/algebra/core/circuit_algebra.py:SLH.symbolic_heisenberg_eom", "src/qnet/algebra/core/circuit_algebra.py:SLH.symbolic_liouvillian", "src/qnet/algebra/core/matrix_algebra.py:Matrix.__add__"]}
{"id": "C55", "title": "move_drive_to_H moves exactly the constant parts of the selected coupling operators and keeps the dynamics", "statement": "The result has the same scattering matrix, the same master equation and averaged Heisenberg equations; every selected coupling operator loses exactly its multiple of the identity, the others are unchanged; a Hermitian Hamiltonian and unitary scattering matrix stay so.", "quantifier": "all SLH triples, all operator expressions as coupling operators, all selections", "why_tests_cant": "All expressions and all selections of channels.", "anchors": ["src/qnet/algebra/core/circuit_algebra.py:move_drive_to_H", "src/qnet/algebra/core/operator_algebra.py:get_coeffs"]}
{"id": "C56", "title": "Coherent inputs and library components are physical and compose as expected", "statement": "coherent_input(amps) requires one amplitude per channel and gives a circuit whose outputs for inputs u are those of the given circuit for inputs u + amps; feeding in succession adds amplitudes (up to a number in H). CoherentDriveCC, PhaseCC and Beamsplitter have unitary scattering matrices and Hermitian H for all real parameters, phases and mixing angles add up in series, parameter zero is pass-through and the inverse has the negative parameter. Every circuit, including the zero-channel one, can be converted to SLH, and malformed S, L are rejected.", "quantifier": "all triples, amplitudes and parameters", "why_tests_cant": "All numbers of channels and all real/complex parameters.", "anchors": ["src/qnet/algebra/core/circuit_algebra.py:Circuit.coherent_input", "src/qnet/algebra/library/circuit_components.py:CoherentDriveCC", "src/qnet/algebra/library/circuit_components.py:PhaseCC", "src/qnet/algebra/library/circuit_components.py:Beamsplitter", "src/qnet/algebra/core/circuit_algebra.py:SLH.__init__", "src/qnet/algebra/core/circuit_algebra.py:CircuitZero"]}
{"id": "C57", "title": "Automatic simplification terminates", "statement": "Creating a sum, scalar multiple, product or commutator of arbitrary (nested) expressions finishes after finitely many rewriting steps: the rules cannot rewrite each other's results for ever, provided the rules for two symbols decrease some measure of words.", "quantifier": "all operands, all nestings, all rule sets that decrease a measure of words of symbols", "why_tests_cant": "Non-termination shows only for particular combinations of operands; tests can only show that given inputs terminate.", "anchors": ["src/qnet/algebra/core/algebraic_properties.py:match_replace_binary", "src/qnet/algebra/core/algebraic_properties.py:collect_summands", "src/qnet/algebra/_rules.py:OperatorTimes", "src/qnet/algebra/core/operator_algebra.py:Commutator"]}
{"id": "C58", "title": "Products of kets, bras, operators and scalars denote what they say", "statement": "For kets, bras, operators and scalars, x * y denotes the product: ket*ket the tensor product of the states, ket*bra the operator |a><b|, bra*ket the number <a|b>, operator*ket the state the operator takes the ket to, bra*operator and scalar multiples likewise; automatic simplification (acting locally on a factor, splitting products over tensor factors, pulling out scalars, contracting basis states) never changes the value.", "quantifier": "all expressions of any size, all Hilbert spaces, all interpretations of the symbols", "why_tests_cant": "All states, operators and dimensions; tests compare symbolic results with other symbolic results.", "anchors": ["src/qnet/algebra/core/state_algebra.py:State.__mul__", "src/qnet/algebra/core/state_algebra.py:TensorKet", "src/qnet/algebra/core/state_algebra.py:OperatorTimesKet", "src/qnet/algebra/core/state_algebra.py:BraKet", "src/qnet/algebra/core/state_algebra.py:KetBra", "src/qnet/algebra/_rules.py:act_locally", "src/qnet/algebra/_rules.py:act_locally_times_tensor", "src/qnet/algebra/_rules.py:tensor_decompose_kets", "src/qnet/algebra/_rules.py:_algebraic_rules_state"]}
{"id": "C59", "title": "Products of states on unsuitable spaces are refused", "statement": "A tensor product of states with a common degree of freedom raises OverlappingSpaces; an inner or outer product of (non-zero) states of different spaces raises UnequalSpaces. No such product is evaluated to a number, state or operator.", "quantifier": "all states of any size", "why_tests_cant": "All combinations of states.", "anchors": ["src/qnet/algebra/core/state_algebra.py:_check_kets", "src/qnet/algebra/core/state_algebra.py:BraKet.create", "src/qnet/algebra/core/state_algebra.py:KetBra.create", "src/qnet/algebra/_rules.py:_algebraic_rules_state"]}
{"id": "C60", "title": "Products of states and operators are evaluated in finitely many steps", "statement": "x * y for kets, bras, operators and scalars returns a result or raises an error about the operands; it never runs into unbounded recursion or an endless loop.", "quantifier": "all operands of any size", "why_tests_cant": "Non-termination shows only for particular operands.", "anchors": ["src/qnet/algebra/_rules.py:act_locally_times_tensor", "src/qnet/algebra/_rules.py:tensor_decompose_kets", "src/qnet/algebra/_rules.py:_algebraic_rules_state", "src/qnet/algebra/core/algebraic_properties.py:accept_bras", "src/qnet/algebra/core/abstract_quantum_algebra.py:QuantumTimes.factor_for_space"]}
{"id": "C61", "title": "The block structure of a matrix is correct and finest", "statement": "For a square matrix, block_structure gives positive sizes adding up to the dimension such that the matrix is block diagonal with these sizes and no block can be split further (entries that are zero count as zero, whether numbers or ZeroOperator); _get_blocks(sizes) returns the diagonal blocks exactly if the sizes fit and raises ValueError otherwise; for a column vector it returns the consecutive pieces.", "quantifier": "all matrices of any size, all block sizes", "why_tests_cant": "All sizes and all patterns of zeros.", "anchors": ["src/qnet/algebra/core/matrix_algebra.py:Matrix.block_structure", "src/qnet/algebra/core/matrix_algebra.py:Matrix._get_blocks", "src/qnet/algebra/core/matrix_algebra.py:Matrix.is_zero"]}
{"id": "C62", "title": "Matrices of operators form an algebra", "statement": "Matrix sums, differences, products, adjoints, traces and block matrices are the mathematical ones for non-commuting entries: products are associative and distributive, the identity matrix is neutral, (MN)^dagger = N^dagger M^dagger, and operands of mismatched shapes are refused.", "quantifier": "all matrices of all shapes over any *-ring", "why_tests_cant": "All shapes and entries.", "anchors": ["src/qnet/algebra/core/matrix_algebra.py:Matrix", "src/qnet/algebra/core/matrix_algebra.py:block_matrix", "src/qnet/algebra/core/matrix_algebra.py:identity_matrix", "src/qnet/algebra/core/matrix_algebra.py:hstackm", "src/qnet/algebra/core/matrix_algebra.py:vstackm"]}
{"id": "C63", "title": "Element-wise operations and permutation matrices", "statement": "element_wise (hence expand, simplify_scalar, substitute) acts on every entry and keeps the shape; series_expand(param, about, order) of a matrix gives order+1 matrices of the same shape holding the coefficients of the entries; permutation_matrix(p) maps e_i to e_p(i), satisfies M_(s.t) = M_s M_t and is orthogonal.", "quantifier": "all matrices, all permutations of any length", "why_tests_cant": "All shapes and all permutations.", "anchors": ["src/qnet/algebra/core/matrix_algebra.py:Matrix.element_wise", "src/qnet/algebra/core/matrix_algebra.py:Matrix.series_expand", "src/qnet/algebra/core/matrix_algebra.py:permutation_matrix"]}
{"id": "C64", "title": "Converted operators have the matrix elements of the operator", "statement": "convert_to_qutip(expr, full_space) and convert_to_sympy_matrix(expr, full_space) of an operator expression give the matrix of the operator in the product basis of the local factors of full_space (in canonical order, first factor most significant, levels numbered as in QNET): sums, products over several degrees of freedom, scalar multiples, adjoints, embedding into a larger space. Every expression built from known local operators is converted.", "quantifier": "all operator expressions of any size on any number of local spaces of any dimensions", "why_tests_cant": "All expressions, spaces and dimensions; tests compare a few matrices of small dimension.", "anchors": ["src/qnet/convert/to_qutip.py:convert_to_qutip", "src/qnet/convert/to_qutip.py:_convert_local_operator_to_qutip", "src/qnet/convert/to_qutip.py:_convert_operator_operation_to_qutip", "src/qnet/convert/to_sympy_matrix.py:convert_to_sympy_matrix", "src/qnet/convert/to_sympy_matrix.py:SympyCreate"]}
{"id": "C65", "title": "Converted states are the columns of the state", "statement": "convert_to_qutip(ket, full_space) gives the column vector of the ket in the product basis; kets, bras, inner products and super-operators can be converted.", "quantifier": "all kets and super-operators of any size, any number of local spaces of any dimensions", "why_tests_cant": "All states, spaces and dimensions.", "anchors": ["src/qnet/convert/to_qutip.py:_convert_ket_to_qutip", "src/qnet/convert/to_qutip.py:_convert_state_operation_to_qutip", "src/qnet/convert/to_qutip.py:_convert_superoperator_to_qutip"]}
{"id": "C66", "title": "Converting an SLH model or a time-dependent operator keeps its dynamics", "statement": "SLH_to_qutip returns the matrix of the Hamiltonian and collapse operators that generate the same dissipation for every density matrix (vanishing couplings may be left out); for a time-dependent operator the nested list [H0, [H1, f1], ...] sums at every time t to the matrix of the operator at time t, and string coefficients denote the same function.", "quantifier": "all SLH models with any number of channels, all time-dependent operators that expand to a sum of f_i(t) * op_i, all times", "why_tests_cant": "All sums, couplings and times.", "anchors": ["src/qnet/convert/to_qutip.py:SLH_to_qutip", "src/qnet/convert/to_qutip.py:_time_dependent_to_qutip"]}
{"id": "C67", "title": "The adiabatic limit is the limit", "statement": "eval_adiabatic_limit(prepare_adiabatic_limit(slh, k), Ytilde, P0) returns the limit for k to infinity of a model with couplings of order k and energies of order k^2: for all coherent input and output fields and all times, the evolution of the model on the null space of Y converges to the evolution of the returned model, which is physical on the null space (Hermitian H, unitary S) and keeps the number of channels.", "quantifier": "all models with polynomial dependence L = g + k f, H = h0 + k h1 + k^2 h2 on k that satisfy the conditions of the limit theorem, any number of channels, all operators of a C*-algebra, all coherent amplitudes, all times", "why_tests_cant": "A limit over an unbounded parameter and all states, fields and times; tests compare a few symbolic results.", "anchors": ["src/qnet/algebra/core/circuit_algebra.py:prepare_adiabatic_limit", "src/qnet/algebra/core/circuit_algebra.py:eval_adiabatic_limit"]}
{"id": "C68", "title": "Automatic adiabatic elimination", "statement": "try_adiabatic_elimination(slh, k, fock_trunc, sub_P0) returns the adiabatic limit of the model or raises CannotEliminateAutomatically; substituting the projector on the null space by the identity does not change the model on the null space.", "quantifier": "all models on one local space of any dimension, all fock_trunc", "why_tests_cant": "All models and dimensions.", "anchors": ["src/qnet/algebra/core/circuit_algebra.py:try_adiabatic_elimination"]}
{"id": "C69", "title": "Linear systems: the ABCD arrays are the dynamics", "statement": "If the equations of motion and couplings of a model are linear in the modes, getABCD(slh, a0, doubled_up) returns arrays with dX = (A X + a) dt + B dA_in and dA_out = (C X + c) dt + D dA_in exactly; for a physical model the arrays satisfy the conditions of physical realizability (commutation relations are preserved); displacing by a0 leaves A, B, C, D unchanged and adds A a0 to a and C a0 to c.", "quantifier": "all linear models with any number of modes and channels, all displacements, all representations of the commutation relations", "why_tests_cant": "All numbers of modes and channels, all coefficients.", "anchors": ["src/qnet/algebra/core/circuit_algebra.py:getABCD", "src/qnet/algebra/core/circuit_algebra.py:SLH.symbolic_heisenberg_eom", "src/qnet/algebra/core/operator_algebra.py:get_coeffs"]}
{"id": "C70", "title": "The equations of motion of a circuit are those of its diagram", "statement": "For all fields at the inputs, the outputs of a circuit (or of a system built by connect) are the only fields consistent with its diagram of components, wires and loops, and toSLH().symbolic_heisenberg_eom(X, noises) is the sum of the equations of motion of the components, each driven by the fields at its own inputs. In particular an observable of one component only sees that component and its input fields, and observables upstream are not affected by what follows.", "quantifier": "all circuits built from any number of components by series, concatenation, feedback, permutations, inversion or connect; all observables, all input fields, all operator algebras", "why_tests_cant": "All circuits, fields and observables.", "anchors": ["src/qnet/algebra/core/circuit_algebra.py:SLH.series_with_slh", "src/qnet/algebra/core/circuit_algebra.py:SLH.concatenate_slh", "src/qnet/algebra/core/circuit_algebra.py:SLH._feedback", "src/qnet/algebra/core/circuit_algebra.py:SLH.symbolic_heisenberg_eom", "src/qnet/algebra/toolbox/circuit_manipulation.py:connect"]}
{"id": "C71", "title": "srepr round trip", "statement": "srepr(expr) and srepr(expr, indented=True) are Python source texts whose evaluation re-instantiates an identical expression, also with a user-given cache that maps sub-expressions to variables holding them; without indented the text is a single line; different expressions have different texts; the text exists for every expression.", "quantifier": "all expressions of any size and depth with positional and keyword arguments, tuples, lists, strings with any characters, integers, arrays, SymPy objects and singletons; all caches; all definitions of == for which the printer cache is consistent", "why_tests_cant": "All expression trees, strings and cache contents; the cache is shared during the whole recursion.", "anchors": ["src/qnet/printing/__init__.py:srepr", "src/qnet/printing/sreprprinter.py:QnetSReprPrinter", "src/qnet/printing/sreprprinter.py:IndentedSReprPrinter", "src/qnet/printing/_render_head_repr.py:render_head_repr", "src/qnet/printing/base.py:QnetBasePrinter"]}
{"id": "C72", "title": "Expressions can be rebuilt from args and kwargs", "statement": "For every Hilbert space, circuit component, derivative and operator plus/minus its conjugate, instantiating the class with expr.args and expr.kwargs, or with expr.minimal_kwargs, gives an expression equal to expr (this is what srepr, substitute and rebuild rely on).", "quantifier": "all constructor arguments that are accepted", "why_tests_cant": "All combinations of given and defaulted arguments.", "anchors": ["src/qnet/algebra/core/hilbert_space_algebra.py:LocalSpace", "src/qnet/algebra/library/spin_algebra.py:SpinSpace", "src/qnet/algebra/core/circuit_algebra.py:Component", "src/qnet/algebra/core/abstract_quantum_algebra.py:QuantumDerivative", "src/qnet/algebra/core/operator_algebra.py:OperatorPlusMinusCC"]}
{"id": "C73", "title": "Printed formulas mean what the expression means", "statement": "The text that ascii() prints for an operator or a state, read by the usual rules (products before sums, an index sum extends over the following product, ^H applies to the factor before it), has the value of the expression; so two expressions with the same text are equal.", "quantifier": "all operators and states built from symbols, local operators, kets, sums, products, scalar multiples, adjoints, commutators, operators applied to kets, bras, ket-bras, bra-kets and indexed sums, and all interpretations of the symbols", "why_tests_cant": "Whether parentheses are needed depends on the surrounding expression at every depth; the printer decides by precedence numbers and, in places, by the first character of the printed text.", "anchors": ["src/qnet/printing/asciiprinter.py:QnetAsciiPrinter", "src/qnet/printing/_precedence.py:precedence"]}
{"id": "C74", "title": "configure_printing is temporary", "statement": "After a configure_printing block the printing system is as it was before: ascii, unicode, latex, str and repr of every expression give what they gave before the block, however the block is left and whatever nested blocks it contains; inside the block the given settings are used; init_printing accumulates settings and init_printing(reset=True) does not depend on earlier calls.", "quantifier": "all configurations, all states of the printing system, all programs of nested blocks, all exits (normal or by an exception)", "why_tests_cant": "All histories of configuration calls and nested blocks, including failing ones.", "anchors": ["src/qnet/printing/__init__.py:init_printing", "src/qnet/printing/__init__.py:_init_printing", "src/qnet/printing/__init__.py:configure_printing", "src/qnet/printing/__init__.py:ascii"]}
{"id": "C75", "title": "dotprint draws the expression tree", "statement": "dotprint(expr, maxdepth) terminates and draws exactly the part of the expression tree down to maxdepth: one node for every position (equal subexpressions at different positions are different nodes), node labels showing the expression there, one edge from every position to each of its children and no other edges, levels equal to depth, children in their order.", "quantifier": "all expression trees, all values of maxdepth", "why_tests_cant": "All trees of any depth and width; the node names are made from counters kept per level while a queue is processed.", "anchors": ["src/qnet/printing/dot.py:dotprint"]}
{"id": "C76", "title": "tree printing shows the tree", "statement": "print_tree/tree print one line per node of the part of the expression that is to be shown (depth, exclude_type), in depth-first order, with the vertical lines and corners that belong to its ancestors; the printed lines determine the tree (structure, order of the operands, texts), and so does the string returned by tree if no text contains a line break.", "quantifier": "all expression trees, all texts, all options unicode, depth, exclude_type, srepr_leaves, padding", "why_tests_cant": "All trees of any depth and all texts (including texts made of the drawing symbols).", "anchors": ["src/qnet/printing/treeprinting.py:print_tree", "src/qnet/printing/treeprinting.py:tree"]}
{"id": "C77", "title": "The drawing shows the circuit", "statement": "draw_circuit_canvas returns, for every circuit without empty parts, a picture with exactly the boxes of the expression (each once, not overlapping, inside the returned dimensions), with input and output ports in channel order, and such that following the strokes from an input or from an output of a box one arrives exactly at the box input or output port to which the circuit expression connects it (series products, concatenations, permutations and feedback, arbitrarily nested).", "quantifier": "all circuit expressions of any nesting, all admissible margins", "why_tests_cant": "All nestings of the operations; the picture is assembled from relative coordinates with offsets, per-channel widths and removed ports, and a wrong offset connects wrong ports only in some nestings.", "anchors": ["src/qnet/visualization/circuit_pyx.py:draw_circuit_canvas", "src/qnet/visualization/circuit_pyx.py:draw_circuit"]}
{"id": "C78", "title": "Building a circuit terminates", "statement": "For every meaningful circuit expression (series products of equal channel numbers, existing ports), the construction with <<, +, feedback and series_inverse ends after finitely many rewriting steps with a circuit of the expected number of channels; it never fails with a RecursionError whatever the recursion limit is.", "quantifier": "all circuit expressions of any size", "why_tests_cant": "The rewriting rules call create recursively on expressions that are not smaller; termination is a statement about all expressions and all sequences of rewriting steps, and a test with a finite recursion limit cannot distinguish a long reduction from an infinite one.", "anchors": ["src/qnet/algebra/_rules.py:_series_feedback", "src/qnet/algebra/_rules.py:_tensor_decompose_series", "src/qnet/algebra/core/algebraic_properties.py:match_replace_binary", "src/qnet/algebra/core/circuit_algebra.py:Feedback.create", "src/qnet/algebra/core/circuit_algebra.py:SeriesProduct", "src/qnet/algebra/core/circuit_algebra.py:Concatenation"]}
{"id": "C79", "title": "Equality and hash of expressions", "statement": "== is an equivalence relation on expressions and numbers, objects that compare equal mean the same (a scalar standing for the multiple of the identity operator) and have the same hash, expressions of the same kind compare equal exactly when they are the same expression up to the way in which numbers are written (3, ScalarValue(3), Zero/0, One/1), and != is the negation of ==.", "quantifier": "all expressions and numbers, of any depth", "why_tests_cant": "Transitivity, symmetry and hash consistency are statements about all pairs and triples; five classes define __eq__ in different ways and Python chooses between them depending on the order of the operands.", "anchors": ["src/qnet/algebra/core/abstract_algebra.py:Expression.__eq__", "src/qnet/algebra/core/abstract_algebra.py:Expression.__hash__", "src/qnet/algebra/core/abstract_algebra.py:Expression.__ne__", "src/qnet/algebra/core/scalar_algebra.py:ScalarValue.__eq__", "src/qnet/algebra/core/operator_algebra.py:ScalarTimesOperator.__eq__", "src/qnet/utils/singleton.py:singleton_object"]}
{"id": "C80", "title": "liouvillian_normal_form returns an equivalent model", "statement": "For every Liouvillian L = liouvillian(H, Ls), liouvillian_normal_form(L) returns a Hamilton operator and collapse operators that generate the same master equation, and the Hamilton operator is Hermitian (up to a multiple of the identity).", "quantifier": "all Liouvillians, all dimensions, all operators and rates, numerical and symbolic", "why_tests_cant": "All operators and all rates; the result has other collapse operators than the input, so that only the dynamics for every density matrix can be compared.", "anchors": ["src/qnet/algebra/core/super_operator_algebra.py:liouvillian_normal_form", "src/qnet/algebra/core/scalar_algebra.py:One"]}
{"id": "C81", "title": "Free symbols and substitution", "statement": "The value of an expression depends only on the symbols in free_symbols; free_symbols and bound_symbols together are the symbols that occur in it; substitute(var_map) replaces the free symbols simultaneously: the value of the result is the value of the expression with the replacements as values of the symbols, its free symbols are those of the replacements, and expressions in which no replaced symbol occurs do not change; indices of sums are not captured.", "quantifier": "all expressions with indexed sums of any nesting, all substitution maps for index symbols", "why_tests_cant": "All expressions and all maps; variable capture needs special combinations of names in the expression and in the map.", "anchors": ["src/qnet/algebra/core/abstract_algebra.py:Expression.free_symbols", "src/qnet/algebra/core/abstract_algebra.py:Expression.bound_symbols", "src/qnet/algebra/core/abstract_algebra.py:substitute", "src/qnet/algebra/core/indexed_operations.py:IndexedSum.bound_symbols", "src/qnet/algebra/core/indexed_operations.py:IndexedSum.free_symbols", "src/qnet/utils/indices.py:IndexRangeBase.substitute", "src/qnet/utils/indices.py:SymbolicLabelBase.substitute"]}
{"id": "C82", "title": "The basis of a Hilbert space is consistent", "statement": "For a local, product or trivial space whose local factors have a basis, dimension is the number of basis_labels and of basis_states; labels and states are pairwise different; every basis state is a product of one local basis state for each factor and all such products occur, in the order in which the last factor runs fastest; basis_state(i) and basis_state(basis_labels[i]) are the i-th basis state; a number that does not exist raises IndexError, an unknown label KeyError, a space without a basis BasisNotSetError.", "quantifier": "all Hilbert spaces (any number of factors, any bases), all numbers and labels", "why_tests_cant": "All tuples of bases, all label strings (including separators inside labels) and all integers.", "anchors": ["src/qnet/algebra/core/hilbert_space_algebra.py:ProductSpace.basis_state", "src/qnet/algebra/core/hilbert_space_algebra.py:ProductSpace.basis_labels", "src/qnet/algebra/core/hilbert_space_algebra.py:LocalSpace.basis_state", "src/qnet/algebra/core/hilbert_space_algebra.py:TrivialSpace.basis_state"]}
{"id": "C83", "title": "add_rule and del_rules change exactly the named rules, and the change takes effect", "statement": "cls.add_rule(name, pattern, replacement) succeeds exactly if the name is a new string, the pattern matches a ProtoExpr and the parameters of the replacement are the wildcards; it appends the rule and changes nothing else. cls.del_rules(*names) removes exactly these rules (all without names) of the class, or raises KeyError and changes nothing. Names stay unique, and every later call of create uses the rules in force.", "quantifier": "all class hierarchies sharing dictionaries of rules, all arguments, all histories of create calls, rule changes and cache clearings", "why_tests_cant": "the effect depends on the sharing of dictionaries between classes and on all expressions created earlier", "anchors": ["src/qnet/algebra/core/abstract_algebra.py:Expression.add_rule", "src/qnet/algebra/core/abstract_algebra.py:Expression.del_rules", "src/qnet/algebra/core/abstract_algebra.py:Expression.rules", "src/qnet/algebra/core/abstract_algebra.py:Expression.create", "src/qnet/utils/check_rules.py:check_rules_dict"]}
{"id": "C84", "title": "The printed text of a circuit denotes that circuit", "statement": "ascii(c) (and, with other signs, unicode(c)) of a circuit expression c with symbols, permutations, identities, series products, concatenations, feedback and inverses can be read back unambiguously, with the precedences of Python as well as with << taken as the product: the text means c, and two circuits with the same text are equal.", "quantifier": "all nestings of circuit expressions with any numbers of operands, all meanings of the symbols (in particular as SLH triples)", "why_tests_cant": "parentheses are needed depending on the nesting of operations, and the merging of identities depends on neighbouring operands; the claim compares texts of all pairs of circuits", "anchors": ["src/qnet/printing/asciiprinter.py:QnetAsciiPrinter._print_SeriesProduct", "src/qnet/printing/asciiprinter.py:QnetAsciiPrinter._print_Concatenation", "src/qnet/printing/asciiprinter.py:QnetAsciiPrinter._print_Feedback", "src/qnet/printing/_precedence.py:precedence", "src/qnet/algebra/core/circuit_algebra.py:CircuitSymbol"]}
{"id": "C85", "title": "Python's arithmetic operators between operators and numbers", "statement": "For operators A and operands b that are operators or numbers (a number c standing for c times the identity), A+b, b+A, A-b, b-A, -A, A*b, b*A return an operator that denotes the sum, difference, product; A/c for a number c is division, an exception for c = 0; A**k is the k-fold product, A**0 the identity; sum(list) of operators denotes their sum. Unsupported operands raise TypeError and never give a wrong result.", "quantifier": "all operators (any nesting), all numbers, all exponents, all lists of operators, every interpretation of the symbols in an algebra in which the rules hold", "why_tests_cant": "operands and exponents are unbounded, and the result goes through Python's reflected methods and the automatic simplification, which depends on the structure of the operands", "anchors": ["src/qnet/algebra/core/abstract_quantum_algebra.py:QuantumExpression.__add__", "src/qnet/algebra/core/abstract_quantum_algebra.py:QuantumExpression.__rsub__", "src/qnet/algebra/core/abstract_quantum_algebra.py:QuantumExpression.__truediv__", "src/qnet/algebra/core/abstract_quantum_algebra.py:QuantumExpression.__pow__"]}
{"id": "C86", "title": "Division, floor division and remainder of scalars", "statement": "x / y, x / k and k / x of scalars (numbers, Zero, One, symbolic scalars) and numbers return a scalar that denotes the quotient, whenever the divisor is not zero, and raise ZeroDivisionError when it is; x // y and x % y of wrapped numbers are those of the numbers.", "quantifier": "all scalars x, y (any nesting of sums, products and powers), all numbers, every assignment of values to the symbols for which no division by zero occurs", "why_tests_cant": "quotients are rewritten to negative powers and simplified by rules whose behaviour depends on the structure of both scalars; the number of scalars is unbounded", "anchors": ["src/qnet/algebra/core/scalar_algebra.py:Scalar.__truediv__", "src/qnet/algebra/core/scalar_algebra.py:Scalar.__rtruediv__", "src/qnet/algebra/core/scalar_algebra.py:ScalarValue.__truediv__", "src/qnet/algebra/core/scalar_algebra.py:One.__truediv__", "src/qnet/algebra/core/scalar_algebra.py:Scalar.__floordiv__", "src/qnet/algebra/core/scalar_algebra.py:Scalar.__mod__"]}
{"id": "C87", "title": "Powers, square roots, conjugates, real and imaginary parts of scalars", "statement": "x**e with a rational exponent denotes the principal power of x; sqrt(x)**2 is x, and sqrt(x) is the root whose real part is not negative; x.conjugate() denotes the complex conjugate, x.real and x.imag the real and imaginary part.", "quantifier": "all scalars x (any nesting of sums, products and powers), all rational exponents, every assignment of complex numbers to the symbols", "why_tests_cant": "the laws of powers that the rules use hold only for some complex numbers and exponents, so a test with a few values does not decide them", "anchors": ["src/qnet/algebra/core/scalar_algebra.py:ScalarPower", "src/qnet/algebra/core/scalar_algebra.py:sqrt", "src/qnet/algebra/core/scalar_algebra.py:Scalar.real", "src/qnet/algebra/core/scalar_algebra.py:Scalar.imag", "src/qnet/algebra/core/scalar_algebra.py:Scalar.conjugate", "src/qnet/algebra/_rules.py:_algebraic_rules_scalar"]}
{"id": "C88", "title": "Derivatives of operators that depend on parameters", "statement": "For an operator A(args) whose arguments depend on parameters, diff(s, n) denotes the n-th partial derivative; derivatives with respect to two parameters are the same object in both orders; evaluate_at gives the derivative at that point, also after further derivatives, and fails exactly for parameters the derivative is not with respect to; free_symbols contains every parameter the value depends on; the adjoint of a derivative is the derivative of the adjoint; series_expand(s, about, order) returns order+1 coefficients with which the documented expansion holds up to O(order+1); substitute replaces parameters, also in a derivative.", "quantifier": "all arguments and evaluation points, all nestings of derivatives and evaluations, all orders, every smooth function the operator may stand for", "why_tests_cant": "the operator stands for an arbitrary function of its parameters, so a test can only look at the form of a derivative, not at what it denotes", "anchors": ["src/qnet/algebra/core/abstract_quantum_algebra.py:QuantumDerivative", "src/qnet/algebra/core/abstract_quantum_algebra.py:QuantumExpression.diff", "src/qnet/algebra/core/abstract_quantum_algebra.py:QuantumExpression.series_expand", "src/qnet/algebra/core/abstract_quantum_algebra.py:QuantumSymbol._diff", "src/qnet/algebra/core/algebraic_properties.py:derivative_via_diff", "src/qnet/algebra/core/abstract_algebra.py:Expression.substitute"]}
{"id": "C89", "title": "Circuits without feedback: construction succeeds and is correct", "statement": "For every meaningful circuit expression made of components, SLH objects, permutations, identities, series products, concatenations and inverses (matching channel counts, valid permutations), building it never raises an exception, the circuit that is built has the expected number of channels, does not depend on the recursion limit once this is large enough, and its toSLH() succeeds and equals the SLH triple of the expression evaluated literally, for every choice of unitary SLH triples for the components.", "quantifier": "all feedback-free circuit expressions of any depth and number of channels, all permutations, all SLH triples of the components, all recursion limits from some point on", "why_tests_cant": "rewriting of permutations against concatenations recurses into newly built circuits, so neither termination nor the absence of internal exceptions follows from any finite set of examples", "anchors": ["src/qnet/algebra/core/circuit_algebra.py:SeriesProduct", "src/qnet/algebra/core/circuit_algebra.py:Concatenation", "src/qnet/algebra/core/circuit_algebra.py:SeriesInverse", "src/qnet/algebra/core/circuit_algebra.py:CPermutation", "src/qnet/algebra/core/algebraic_properties.py:match_replace_binary", "src/qnet/algebra/_rules.py:_algebraic_rules_circuit"]}
{"id": "C90", "title": "A circuit is a fixed point of being built", "statement": "A circuit that the API returned does not change when it is made again from its own operands: substitute({}) (and likewise simplify() without rules, or evaluating the output of srepr) returns an equal circuit.", "quantifier": "all circuits built from feedback-free expressions, all depths, all recursion limits from some point on", "why_tests_cant": "which rules still apply to a result depends on the order in which the rewriting engine combined its operands; a test shows the fixed point for one expression only", "anchors": ["src/qnet/algebra/core/abstract_algebra.py:Expression.substitute", "src/qnet/algebra/core/abstract_algebra.py:Expression.create", "src/qnet/algebra/core/circuit_algebra.py:SeriesProduct", "src/qnet/algebra/core/circuit_algebra.py:Concatenation", "src/qnet/algebra/core/algebraic_properties.py:match_replace_binary", "src/qnet/algebra/core/algebraic_properties.py:filter_cid"]}
{"id": "C91", "title": "Substitution of components in circuits", "statement": "circuit.substitute({A: circuit_a, ...}) with circuits that have as many channels as the components they replace denotes the circuit expression with the components replaced literally: it has the same SLH triple for all values of the other components and the same number of channels, and for feedback-free circuits it always succeeds.", "quantifier": "all circuits and replacements, all values of the remaining components, all recursion limits from some point on", "why_tests_cant": "the circuit in which the components are replaced was simplified before the substitution and is simplified again afterwards with different rules, in unboundedly many combinations", "anchors": ["src/qnet/algebra/core/abstract_algebra.py:Expression.substitute", "src/qnet/algebra/core/abstract_algebra.py:substitute", "src/qnet/algebra/core/circuit_algebra.py:SeriesProduct", "src/qnet/algebra/core/circuit_algebra.py:Concatenation", "src/qnet/algebra/core/circuit_algebra.py:SeriesInverse", "src/qnet/algebra/core/circuit_algebra.py:Feedback"]}
{"id": "C92", "title": "Coherent states", "statement": "CoherentStateKet(alpha).to_fock_representation() denotes the normalised eigenvector of the annihilation operator with eigenvalue alpha and positive vacuum amplitude; with max_terms=m it keeps exactly the components 0..m-1, and its distance to the coherent state tends to zero with m. The derivative of a coherent state by a symbol in its amplitude, as returned by diff, is the derivative of its Fock components.", "quantifier": "all complex amplitudes, all differentiable dependences of the amplitude on a real symbol, all truncations", "why_tests_cant": "amplitudes, their dependence on symbols and the number of Fock components are unbounded, and the representation is an infinite sum", "anchors": ["src/qnet/algebra/core/state_algebra.py:CoherentStateKet", "src/qnet/algebra/core/state_algebra.py:CoherentStateKet.to_fock_representation", "src/qnet/algebra/core/state_algebra.py:CoherentStateKet._diff"]}
{"id": "C93", "title": "Pauli operators on any two levels", "statement": "PauliX, PauliY and PauliZ of a space and a pair of states are Hermitian, satisfy the relations of the Pauli matrices (squares equal to the projector on the two levels, XY = iZ and cyclic) and vanish on the other levels; without states they act on the two lowest levels.", "quantifier": "all local spaces (with and without basis), all pairs of labels or indices, every representation of the operators |j><k|", "why_tests_cant": "spaces, labels and levels are unbounded", "anchors": ["src/qnet/algebra/library/pauli_matrices.py:PauliX", "src/qnet/algebra/library/pauli_matrices.py:PauliY", "src/qnet/algebra/library/pauli_matrices.py:PauliZ", "src/qnet/algebra/core/operator_algebra.py:LocalSigma"]}
{"id": "C94", "title": "General beam splitters", "statement": "Every two-channel scatterer with a unitary scattering matrix, in particular the symmetric beam splitter of the documentation, has the SLH triple of a series product of phase shifters, a Beamsplitter and phase shifters; the default mixing angle splits evenly, and the mixing angle pi/2 exchanges the channels.", "quantifier": "all unitary 2x2 matrices and all mixing angles", "why_tests_cant": "a continuum of scattering matrices", "anchors": ["src/qnet/algebra/library/circuit_components.py:Beamsplitter", "src/qnet/algebra/library/circuit_components.py:PhaseCC"]}
{"id": "C95", "title": "Derivatives of expressions with states and super-operators", "statement": "For every expression built from scalars, kets, operators and super-operators (sums, products, multiples, adjoints, inner and outer products, application of operators to kets and of super-operators to operators, SPre, SPost), diff returns an expression whose value is the derivative of the value of the given expression.", "quantifier": "all expressions of the four kinds, all smooth values of the symbols in any Hilbert space, all values of the symbol", "why_tests_cant": "unboundedly nested expressions and a continuum of values", "anchors": ["src/qnet/algebra/core/abstract_quantum_algebra.py:QuantumExpression.diff", "src/qnet/algebra/core/state_algebra.py:BraKet._diff", "src/qnet/algebra/core/state_algebra.py:KetBra._diff", "src/qnet/algebra/core/state_algebra.py:OperatorTimesKet._diff", "src/qnet/algebra/core/super_operator_algebra.py:SPre._diff", "src/qnet/algebra/core/super_operator_algebra.py:SPost._diff", "src/qnet/algebra/core/super_operator_algebra.py:SuperOperatorTimesOperator._diff"]}
{"id": "C96", "title": "derationalize_denom preserves the value", "statement": "If derationalize_denom(expr) returns (numerator, denom_sq, post_factor), then (numerator / sqrt(denom_sq)) * post_factor == expr; it raises a ValueError exactly if expr is not a product that has a factor Rational(n, d) followed by a factor sqrt(d).", "quantifier": "all sympy products with any number of factors, all values of the factors", "why_tests_cant": "products of any length with arbitrary factors", "anchors": ["src/qnet/printing/sympy.py:derationalize_denom"]}
{"id": "C97", "title": "Unicode sub- and superscripts can be read back", "statement": "render_unicode_sub_super returns a text for every name, subscripts and superscripts, and the text determines them: different names, subscripts or superscripts are never rendered as the same text, whatever mixture of Unicode characters and _ and ^ is chosen.", "quantifier": "all names, subscripts and superscripts, all settings", "why_tests_cant": "unboundedly many strings", "anchors": ["src/qnet/printing/_unicode_mappings.py:render_unicode_sub_super", "src/qnet/printing/_unicode_mappings.py:_translate_symbols", "src/qnet/printing/_unicode_mappings.py:_unicode_sub_super"]}
{"id": "C98", "title": "Rewriting with Hermitian conjugates preserves the operator", "statement": "rewrite_with_operator_pm_cc(expr) denotes the same operator as expr, doit() of the result as well, and the adjoint of an OperatorPlusMinusCC denotes the adjoint; a sum of two mutually adjoint summands is rewritten.", "quantifier": "all operator expressions, all values of the symbols in every star algebra", "why_tests_cant": "unboundedly nested expressions, any number of summands", "anchors": ["src/qnet/algebra/core/operator_algebra.py:rewrite_with_operator_pm_cc", "src/qnet/algebra/core/operator_algebra.py:OperatorPlusMinusCC"]}
{"id": "C99", "title": "Integer powers of an indexed sum of scalars", "statement": "For an indexed sum x of scalars and an integer n, x**n denotes the n-th power of the value of x: for n >= 1 an indexed sum over n copies of the indices (with new, primed names) that run over the same values, x**0 is One, negative powers are the inverse of the positive ones. No power fails.", "quantifier": "all indexed sums (any number of indices, any ranges, any term), all integers n, every valuation of the symbols", "why_tests_cant": "the exponent and the number of indices are unbounded, and the renaming of indices may capture symbols or make two names equal only for some combinations", "anchors": ["src/qnet/algebra/core/scalar_algebra.py:ScalarIndexedSum.__pow__", "src/qnet/algebra/core/abstract_quantum_algebra.py:QuantumIndexedSum.__mul__", "src/qnet/algebra/core/indexed_operations.py:IndexedSum.make_disjunct_indices"]}
{"id": "C100", "title": "expand, diff and series_expand of scalars", "statement": "For a scalar built from values, symbols, sums, products and powers: expand() returns a scalar of the same value that has no products of sums; diff(s) returns the derivative of its value; series_expand(s, about, order) returns the order + 1 coefficients of its power series about the point whenever the scalar is regular there.", "quantifier": "all scalar expressions of any depth, all orders, every valuation of the symbols in a field, every derivation of that field", "why_tests_cant": "expressions are unboundedly nested, orders are unbounded, and values are a continuum", "anchors": ["src/qnet/algebra/core/scalar_algebra.py:ScalarTimes._expand", "src/qnet/algebra/core/scalar_algebra.py:ScalarPower._diff", "src/qnet/algebra/core/scalar_algebra.py:ScalarPower._series_expand", "src/qnet/algebra/core/scalar_algebra.py:ScalarValue._diff", "src/qnet/algebra/core/scalar_algebra.py:ScalarValue._series_expand", "src/qnet/algebra/core/abstract_quantum_algebra.py:QuantumPlus._diff", "src/qnet/algebra/core/abstract_quantum_algebra.py:QuantumTimes._diff", "src/qnet/algebra/core/abstract_quantum_algebra.py:_series_expand_combine_prod"]}
{"id": "C101", "title": "expand() of kets, bras, inner and outer products", "statement": "expand() of a sum, tensor product or scalar multiple of kets, or of an operator applied to a ket, returns a ket that denotes the same state on the same space; expand() of an inner (outer) product of sums returns a scalar (operator) of the same value; expand() of a bra returns the bra of the expanded ket.", "quantifier": "all kets (any nesting of sums, products, multiples and operator applications), all pairs of kets of one space, every interpretation of the symbols by states and operators", "why_tests_cant": "expressions are unboundedly nested and interpretations are a continuum", "anchors": ["src/qnet/algebra/core/abstract_quantum_algebra.py:QuantumPlus._expand", "src/qnet/algebra/core/abstract_quantum_algebra.py:QuantumAdjoint._expand", "src/qnet/algebra/core/abstract_quantum_algebra.py:_expand_product", "src/qnet/algebra/core/state_algebra.py:OperatorTimesKet._expand", "src/qnet/algebra/core/state_algebra.py:BraKet._expand", "src/qnet/algebra/core/state_algebra.py:KetBra._expand"]}
{"id": "C102", "title": "expand_in_basis is the operator, projected on the basis", "statement": "op.expand_in_basis(basis_states) is an operator that denotes P op P with P = sum |i><i| over the given states, hence op itself when they are complete; without basis_states (the basis of the space of op) it denotes op, and raises BasisNotSetError exactly when a local factor has no basis; hermitian=True gives the same operator if op is Hermitian.", "quantifier": "all operators, all lists of kets of one space that contains that of the operator (also incomplete, not orthogonal, repeated), all spaces that are products of any number of local factors of any dimension, every interpretation of the symbols", "why_tests_cant": "the number of factors, their dimensions, the operators and the interpretations are unbounded", "anchors": ["src/qnet/algebra/core/operator_algebra.py:Operator.expand_in_basis", "src/qnet/algebra/core/hilbert_space_algebra.py:LocalSpace.basis_states", "src/qnet/algebra/core/hilbert_space_algebra.py:ProductSpace.basis_states", "src/qnet/algebra/core/hilbert_space_algebra.py:TrivialSpace"]}
{"id": "C103", "title": "LaTeX of labels, operators and states is well-formed", "statement": "latex() of labels, of Hilbert-space labels, of operator and superoperator symbols and of kets, bras, inner and outer products is complete LaTeX: all commands are known and have their arguments, braces and \\left and \\right match, no symbol has two superscripts or subscripts, text mode has no scripts and no math symbols; operators show the letter, then the subscript, the label of the space and the dagger, each exactly once, and names that have been translated to symbols are not translated again.", "quantifier": "all labels and identifiers of any length over the characters that the classes accept, all numbers of local factors, all settings of show_hs_label and tex_use_braket", "why_tests_cant": "the set of labels and the number of factors are unbounded, and errors depend on how a name and its neighbours interact", "anchors": ["src/qnet/printing/latexprinter.py:QnetLatexPrinter._render_op", "src/qnet/printing/latexprinter.py:QnetLatexPrinter._braket_fmt", "src/qnet/printing/latexprinter.py:QnetLatexPrinter._render_str", "src/qnet/printing/latexprinter.py:render_latex_sub_super", "src/qnet/printing/latexprinter.py:_translate_symbols", "src/qnet/printing/asciiprinter.py:QnetAsciiPrinter._split_op", "src/qnet/printing/asciiprinter.py:QnetAsciiPrinter._print_TensorKet"]}
{"id": "C104", "title": "LaTeX of whole expressions is well-formed", "statement": "latex() of sums, products, tensor products, scalar multiples, commutators, traces, adjoints, indexed sums, operators applied to states, superoperators, derivatives and of circuits (components, series, concatenations, feedback, inverses) is complete LaTeX when the symbols, states and scalars in it are: all commands are known and have their arguments, braces and \\\\left/\\\\right match, and no symbol has two superscripts or subscripts; this holds wherever parentheses are put and also if a term begins with a minus sign. No symbol, scalar, index, limit or label is lost, they are in the order of the operands, and neighbouring identities of a concatenation are counted.", "quantifier": "all expressions of any depth and any number of operands, ranges and arguments; all texts of symbols and scalars that are complete", "why_tests_cant": "depth and breadth of expressions are unbounded, and errors depend on which text follows which", "anchors": ["src/qnet/printing/latexprinter.py:QnetLatexPrinter._print_Commutator", "src/qnet/printing/latexprinter.py:QnetLatexPrinter._print_OperatorTrace", "src/qnet/printing/latexprinter.py:QnetLatexPrinter._print_Feedback", "src/qnet/printing/latexprinter.py:QnetLatexPrinter._print_SeriesInverse", "src/qnet/printing/latexprinter.py:QnetLatexPrinter._print_SuperOperatorTimesOperator", "src/qnet/printing/latexprinter.py:QnetLatexPrinter._print_QuantumDerivative", "src/qnet/printing/asciiprinter.py:QnetAsciiPrinter._print_QuantumPlus", "src/qnet/printing/asciiprinter.py:QnetAsciiPrinter._print_ScalarTimesQuantumExpression", "src/qnet/printing/asciiprinter.py:QnetAsciiPrinter._print_IndexedSum", "src/qnet/printing/asciiprinter.py:QnetAsciiPrinter._print_Concatenation", "src/qnet/printing/asciiprinter.py:QnetAsciiPrinter._print_Adjoint", "src/qnet/printing/asciiprinter.py:QnetAsciiPrinter._print_PseudoInverse"]}
{"id": "C105", "title": "The flat API exports the public objects of all modules", "statement": "After import, every package has its submodules as attributes, and its __all__ lists exactly its own public names and those of all its (public, included, not excluded) submodules at every depth; each denotes the very object it denotes in the module that defines it. __all__ is sorted and without repetitions. If a name would denote two different objects the import raises ImportError, otherwise it succeeds.", "quantifier": "all trees of packages and modules of any depth and size, all attributes and __all__ lists, all settings of include, exclude, include_private_modules and recursive", "why_tests_cant": "the result depends on the order of all modules and on what each of them already contains; tests see one package tree", "anchors": ["src/qnet/_flat_api_tools.py:_import_submodules", "src/qnet/__init__.py:__all__"]}
{"id": "C106", "title": "Real and imaginary parts and conjugates of matrices", "statement": "M.real, M.imag and M.conjugate() have the shape of M and hold the real parts, the imaginary parts and the conjugates of the entries, M = M.real + I*M.imag; NoConjugateMatrix is raised if and only if an entry has no conjugate.", "quantifier": "all matrices of any shape, all entries (Python numbers, scalars of QNET, SymPy expressions, objects that only have a conjugate, operators)", "why_tests_cant": "shapes and values are unbounded; the three ways to get a part of an entry are taken depending on its attributes", "anchors": ["src/qnet/algebra/core/matrix_algebra.py:Matrix.real", "src/qnet/algebra/core/matrix_algebra.py:Matrix.imag", "src/qnet/algebra/core/matrix_algebra.py:Matrix.conjugate"]}
{"id": "C107", "title": "Comparisons of scalars, powers of numbers", "statement": "For scalars that wrap numbers (ScalarValue, Zero, One) and Python numbers in any combination, x < y, x <= y, x > y and x >= y give the comparison of the real numbers and raise TypeError for anything else (complex numbers, other scalars), and x ** y denotes the power of the numbers, raising ZeroDivisionError if and only if that does not exist. 0 ** y and 1 ** y for another scalar y are powers of its value.", "quantifier": "all pairs of operands (numbers, ScalarValue, Zero, One, other scalars), all values, every linearly ordered set of numbers, every valuation of the other scalars", "why_tests_cant": "values are unbounded, and the result depends on the dispatch between the methods of both operands and of Python numbers", "anchors": ["src/qnet/algebra/core/scalar_algebra.py:ScalarValue", "src/qnet/algebra/core/scalar_algebra.py:Zero", "src/qnet/algebra/core/scalar_algebra.py:One", "src/qnet/algebra/core/scalar_algebra.py:Scalar", "src/qnet/algebra/core/abstract_quantum_algebra.py:QuantumExpression"]}
{"id": "C108", "title": "Coefficients of sums and products of operators", "statement": "get_coeffs(expr, epsilon) returns every term of a sum once; the terms times their coefficients add up to the operator, up to terms with a coefficient smaller than epsilon (none for epsilon = 0); looking up another term gives 0. The simplification factor_coeff splits a product in a coefficient and factors with the same value and keeps the keyword arguments.", "quantifier": "all operators (sums of any length, any coefficients, numbers as operands), all thresholds, every interpretation of the operators in an algebra", "why_tests_cant": "sums and products are unbounded, coefficients are a continuum or symbolic", "anchors": ["src/qnet/algebra/core/operator_algebra.py:get_coeffs", "src/qnet/algebra/core/operator_algebra.py:_coeff_term", "src/qnet/algebra/core/operator_algebra.py:factor_coeff"]}
