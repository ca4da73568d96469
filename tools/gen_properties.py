#!/usr/bin/env python3
"""Generates /verif/properties.jsonl (one JSON object per line)."""
import json, os
A = 'src/qnet/'
P = []
def p(id, title, statement, quantifier, why, anchors):
    P.append(dict(id=id, title=title, statement=statement, quantifier=quantifier,
                  why_tests_cant=why, anchors=[A + a for a in anchors]))

PERM = 'utils/permutations.py:'
CIRC = 'algebra/core/circuit_algebra.py:'
p('C01', 'check_permutation accepts exactly the bijections',
  'check_permutation(p) returns True if and only if p is the image tuple of a bijection of {0,...,len(p)-1} (every number from 0 to n-1 occurs exactly once).',
  'every finite tuple of non-negative integers of any length',
  'Tests try a handful of tuples; the guarantee is used as the precondition of every permutation circuit of any size.',
  [PERM+'check_permutation'])
p('C02', 'invert_permutation is the two-sided group inverse',
  'For a valid image tuple p, invert_permutation(p) is again valid, has the same length, composing it with p on either side (compose_permutations) yields the identity tuple (0,...,n-1), and inverting twice returns p.',
  'every valid permutation tuple of any length',
  'The set of permutations is infinite; tests check small literals.',
  [PERM+'invert_permutation', PERM+'compose_permutations'])
p('C03', 'permute/compose_permutations: action law and exact error behaviour',
  'permute(seq, p) returns the sequence whose j-th entry is seq[p[j]], of the same type for lists, tuples and strings; it fails with ValueError exactly when the lengths differ and with BadPermutationError exactly when the lengths agree but p is not a valid permutation. Successive permutes compose: permute(permute(s,p),q) = permute(s, compose_permutations(p,q)); composition of valid permutations is valid, associative and has the identity tuple as unit.',
  'every sequence, and every pair/triple of tuples (valid or not) of any length',
  'A universally quantified law over all sequences, permutations and malformed inputs.',
  [PERM+'permute', PERM+'compose_permutations'])
p('C04', 'Disjoint-cycle decomposition is total, in normal form, and round-trips',
  'For every valid non-empty permutation, permutation_to_disjoint_cycles terminates without error and returns non-empty cycles that partition {0,...,n-1}, follow the permutation (each element maps to its successor, the last to the first), start at their smallest element and are ordered by it; permutation_from_disjoint_cycles reconstructs the original tuple.',
  'every valid non-empty permutation',
  'The code is a while True loop removing elements from a mutable list: totality and the invariant need induction over all permutations.',
  [PERM+'permutation_to_disjoint_cycles', PERM+'permutation_from_disjoint_cycles'])
p('C05', 'Block decomposition of a permutation is a round trip into indecomposable blocks',
  'For every valid non-empty permutation, permutation_to_block_permutations returns valid non-empty permutations whose concatenation (permutation_from_block_permutations) is the original, none of which can be split further into two blocks; none of the internal assertions fires. Empty or malformed input raises BadPermutationError.',
  'every tuple of any length',
  'Maximality of the decomposition (no further split) is a for-all statement over all split points of all permutations.',
  [PERM+'permutation_to_block_permutations', PERM+'permutation_from_block_permutations'])
p('C06', 'full_block_perm moves whole blocks and is a valid permutation',
  'For a valid permutation of block indices and block sizes of the same length, full_block_perm returns a valid permutation of all channels (its internal assertion never fires) that sends channel j of block k to channel j of the slot the block permutation assigns to block k, blocks in the slots being laid out contiguously in slot order.',
  'every valid block permutation and every tuple of block sizes of equal length (sizes may be zero)',
  'Ranges over all block structures and all permutations of blocks.',
  [PERM+'full_block_perm'])
p('C07', 'block_perm_and_perms_within_blocks factorises a permutation',
  'For every valid permutation and every block structure of positive sizes summing to its length, the returned block permutation is valid, each within-block tuple is a valid permutation of its block and sorts the channels of the block in the order of their images, blocks are ordered by their smallest image; no internal assertion fires. If the permutation maps every block onto a contiguous range, then it equals the blow-up (full_block_perm) of the block permutation composed with the concatenation of the within-block permutations.',
  'every valid permutation and every compatible positive block structure',
  'Infinite family; tests use a few block structures.',
  [PERM+'block_perm_and_perms_within_blocks', PERM+'full_block_perm'])
p('C08', 'Permutation circuits form the permutation group under series composition',
  'CPermutation.create rejects exactly the malformed tuples; creating with the identity tuple yields the n-channel pass-through; for permutation circuits of equal size a << b scatters input j to a(b(j)), series_inverse is its two-sided inverse, and the scattering matrix of a << b is the product of the scattering matrices.',
  'every pair of valid permutations of equal length',
  'Group laws over all permutations of all sizes.',
  [CIRC+'CPermutation.create', CIRC+'CPermutation.series_with_permutation', CIRC+'CPermutation._series_inverse', 'algebra/core/matrix_algebra.py:permutation_matrix'])
p('C09', 'map_channels / pad_with_identity build the documented channel maps',
  'map_channels(m, n) for an injective partial map m within range(n) is a valid permutation circuit that sends k to m[k] for every key k and keeps the remaining inputs in increasing order on the remaining outputs in increasing order; non-injective maps are rejected. pad_with_identity(C, k, m) inserts m pass-through channels at position k: its SLH triple routes channels j<k and j>=k+m through C unchanged and the inserted channels straight through.',
  'every injective partial map on range(n), every n; every circuit, position and pad size in range',
  'Quantifies over all partial maps and circuit sizes.',
  [CIRC+'map_channels', CIRC+'pad_with_identity'])
p('C10', 'Feedback of a permutation circuit closes exactly one loop',
  'For a permutation circuit of size n >= 2 and ports out_port, in_port < n, feedback(out_port, in_port) is the permutation of n-1 channels obtained by removing output out_port and input in_port, and rerouting the input that led to out_port to the output that in_port led to; the result agrees with the SLH feedback formula applied to the permutation matrix whenever the loop is well posed.',
  'every valid permutation of size >= 2 and every pair of ports',
  'Three code paths (identity, loop, generic) over all permutations and ports.',
  [CIRC+'CPermutation._feedback', CIRC+'SLH._feedback'])
p('C11', 'Extracting the feedback channel from a permutation (factor_rhs / factor_lhs) is exact',
  'When simplifying feedback of a series product whose outer factor is a permutation, the reduced permutation r and port p that are moved outside the loop satisfy self << m_{n-1 -> in} = m_{n-1 -> p} << (r + 1) (and the mirrored equation on the other side), for every permutation and port; the internal assertion never fires.',
  'every valid permutation and every port',
  'For all permutations, ports.',
  [CIRC+'CPermutation._factor_rhs', CIRC+'CPermutation._factor_lhs'])
p('C12', 'Moving a permutation around a reducible circuit preserves the circuit',
  'The factorisation of permutation << rhs into permutation1 << rhs1 << permutation2 used to normalise series products is an identity of circuits: permutation1 composed with (within-block permutations and re-ordered blocks of rhs) composed with permutation2 routes every channel as before.',
  'every permutation, every block structure, every family of blocks',
  'For all block structures and permutations.',
  [CIRC+'CPermutation._factorize_for_rhs'])
p('C13', 'The SLH series product is associative with unit, and inverse to series_inverse',
  'For SLH triples, (a << b) << c = a << (b << c) whenever the scattering matrices involved are isometric (S^dagger S = 1), the pass-through triple is a two-sided unit, and with unitary S, series_inverse is a two-sided inverse.',
  'all SLH triples of equal, arbitrary channel number over any operator *-algebra',
  'Law over an infinite non-commutative algebra and any number of channels.',
  [CIRC+'SLH.series_with_slh', CIRC+'SLH._series_inverse'])
p('C14', 'Concatenation of SLH triples is associative and satisfies the interchange law',
  '(a + b) + c = a + (b + c) and (a1 + a2) << (b1 + b2) = (a1 << b1) + (a2 << b2) for SLH triples with matching channel numbers.',
  'all SLH triples with matching dimensions',
  'Universally quantified algebraic law over all dimensions.',
  [CIRC+'SLH.concatenate_slh', CIRC+'SLH.series_with_slh'])
p('C15', 'Circuit composition preserves physical realisability',
  'If all inputs have unitary scattering matrix and Hermitian Hamiltonian, so do the results of series, concatenation, series_inverse and (well-posed) feedback.',
  'all physical SLH triples, all ports',
  'Feedback unitarity is an identity over arbitrary unitary matrices with operator entries.',
  [CIRC+'SLH.series_with_slh', CIRC+'SLH.concatenate_slh', CIRC+'SLH._series_inverse', CIRC+'SLH._feedback'])
p('C16', 'SLH feedback eliminates the fed-back channel consistently',
  'For a well-posed loop, the reduced S and L of feedback() are exactly what is obtained by solving the input/output equations out = S in + L with in_n = out_n for the remaining channels; feedback commutes with pre/post-composition by circuits not touching the loop and with series_inverse; an ill-posed or operator-valued loop raises AlgebraError.',
  'all SLH triples and all inputs',
  'For all S, L, all fields.',
  [CIRC+'SLH._feedback', CIRC+'Feedback._series_inverse'])
p('C17', 'Automatic simplification of circuit expressions never changes the circuit',
  'Any circuit expression built with <<, +, feedback, and series inverse from symbols, permutations, identities and SLH triples denotes, after the automatic rewriting done at construction, the same SLH triple (same S, L, H) as the unsimplified expression, for every assignment of unitary SLH triples to the circuit symbols for which the expression is well posed.',
  'all expression trees of any depth and all assignments',
  'The rewriting engine composes dozens of rules in input-dependent order; only induction over expressions covers it.',
  [CIRC+'SeriesProduct', CIRC+'Concatenation', CIRC+'Feedback', 'algebra/_rules.py:_algebraic_rules_circuit'])
p('C18', 'Channel dimension of a simplified circuit',
  'The cdim of a simplified circuit expression equals the cdim of the unsimplified one, and creating a series product of circuits with unequal cdim raises an error.',
  'all circuit expressions and operand lists',
  'All trees; the check runs after identity filtering, so it must be considered for every operand list.',
  [CIRC+'Circuit.cdim', 'algebra/core/algebraic_properties.py:check_cdims', 'algebra/core/algebraic_properties.py:filter_cid'])
p('C19', 'Pairwise rewriting of associative operand lists preserves the product',
  'If every registered binary rule preserves the product of two neighbouring operands, then the simplified operand list (flattening, neutral-element removal, repeated pairwise rewriting with backtracking) has the same product as the input list in any monoid, and on exit no neighbouring pair is reducible.',
  'all operand lists, all rule sets, all monoids',
  'The engine is an in-place, restarting loop; the result for arbitrary rule sets needs a loop invariant.',
  ['algebra/core/algebraic_properties.py:match_replace_binary', 'algebra/core/algebraic_properties.py:assoc', 'algebra/core/algebraic_properties.py:filter_neutral'])
p('C20', 'Pattern matching is sound and complete',
  'match_pattern(pattern, expr) succeeds with bindings B only if substituting B into the pattern reproduces expr and every condition/type constraint holds (single occurrences consistent); if some assignment of the wildcards matches, the matcher finds a match (for patterns with at most one multi-wildcard per level).',
  'all patterns and all expressions of any depth',
  'Infinite trees, wildcard interactions.',
  ['algebra/pattern_matching/__init__.py:Pattern.match', 'algebra/pattern_matching/__init__.py:match_pattern', 'algebra/pattern_matching/__init__.py:MatchDict'])
p('C21', 'findall and finditer enumerate exactly the matching sub-expressions',
  'Pattern.findall(expr) lists exactly the sub-expressions (including expr) that match, each occurrence once, and Pattern.finditer(expr) yields the corresponding match results in the same order.',
  'all patterns and expressions',
  'All trees.',
  ['algebra/pattern_matching/__init__.py:Pattern.findall', 'algebra/pattern_matching/__init__.py:Pattern.finditer'])
p('C22', 'Wildcard bindings never conflict',
  'A successful match result assigns one value per wildcard name: a repeated single wildcard is bound to equal values everywhere, list wildcards concatenate in order of occurrence only in list-merging mode; merging two match results fails exactly if a common single binding differs.',
  'all update sequences on match results',
  'All histories of updates.',
  ['algebra/pattern_matching/__init__.py:MatchDict.update', 'algebra/pattern_matching/__init__.py:MatchDict.__setitem__'])
p('C23', 'Instance caching is transparent',
  'For any sequence of create() calls under a fixed rule set, with caching on, off, or switched at any time, each call returns an expression equal to the one a fresh, cache-less create() would return.',
  'all sequences of create calls and cache switches',
  'Quantifies over histories.',
  ['algebra/core/abstract_algebra.py:Expression.create', 'algebra/core/abstract_algebra.py:Expression._get_instance_key', 'algebra/toolbox/core.py:no_instance_caching'])
p('C24', 'temporary_rules restores rules and caches on exit',
  'After a temporary_rules block - left normally or by exception, with any modification of the rules inside, and arbitrarily nested - the rules and the instance caches of the named classes are exactly as before the block.',
  'all class lists, all bodies, all nestings, all exit points',
  'Quantifies over bodies and crash points.',
  ['algebra/toolbox/core.py:temporary_rules', 'algebra/toolbox/core.py:temporary_instance_cache', 'algebra/toolbox/core.py:no_instance_caching'])
p('C25', 'Tensor products of Hilbert spaces form a commutative idempotent monoid',
  'Multiplying Hilbert spaces is associative, commutative and idempotent, the trivial space is neutral and the full space absorbing; the local factors of a product are the union of the local factors; nesting and order of operands do not matter; dimension multiplies over the distinct local factors.',
  'all finite collections of spaces in any order and nesting',
  'All lists of spaces.',
  ['algebra/core/hilbert_space_algebra.py:ProductSpace.create', 'algebra/core/hilbert_space_algebra.py:LocalSpace'])
p('C26', 'Sub-space relations and set operations on Hilbert spaces agree with sets of local factors',
  '<=, <, isdisjoint, intersect (&) and remove (/) on trivial, local, product and full spaces behave as subset, strict subset, disjointness, intersection and difference of the sets of local factors, on every combination for which they return a value.',
  'all pairs of spaces',
  'Case matrix over classes times all sets.',
  ['algebra/core/hilbert_space_algebra.py:LocalSpace.intersect', 'algebra/core/hilbert_space_algebra.py:ProductSpace.intersect', 'algebra/core/hilbert_space_algebra.py:ProductSpace.remove', 'algebra/core/hilbert_space_algebra.py:ProductSpace.is_strict_subfactor_of'])
p('C27', 'Basis labels and indices are consistent, next/prev move exactly n steps',
  'For a local space with basis labels, label -> index -> label is the identity; next(n) from index i gives index i+n when 0 <= i+n < dimension and the zero ket otherwise; next(n).prev(n) returns to the start whenever defined; creating a basis ket outside the space gives the zero ket.',
  'all bases, all indices, all signed step counts',
  'All dimensions and steps.',
  ['algebra/core/hilbert_space_algebra.py:LocalSpace.next_basis_label_or_index', 'algebra/core/state_algebra.py:BasisKet.next', 'algebra/core/algebraic_properties.py:basis_ket_zero_outside_hs'])
p('C28', 'Automatic ordering of operator products only commutes commuting operators',
  'Sorting the factors of an operator product never changes the relative order of two factors whose Hilbert spaces overlap.',
  'all operand lists',
  'The comparison is not a weak order in general; behaviour of the sort depends on the whole list.',
  ['utils/ordering.py:DisjunctCommutativeHSOrder', 'algebra/core/algebraic_properties.py:orderby'])
p('C29', 'Collecting summands preserves the sum and leaves distinct terms',
  'Collecting terms of a sum combines coefficients of equal terms: the value of the sum in any module is unchanged, each remaining term occurs once with non-zero coefficient, zero terms disappear, and the result does not depend on the order of the input up to ordering of output.',
  'all lists of summands over any scalar ring/module',
  'All lists and all modules.',
  ['algebra/core/algebraic_properties.py:collect_summands', 'algebra/core/algebraic_properties.py:collect_scalar_summands'])
p('C30', 'expand() is value-preserving distribution',
  'expand() of nested sums and products has the same value in every (non-commutative) algebra, and the result is a sum in which no product has a sum as a factor.',
  'all sum/product expressions of any depth',
  'All expressions.',
  ['algebra/core/abstract_quantum_algebra.py:QuantumTimes._expand', 'algebra/core/abstract_quantum_algebra.py:QuantumPlus._expand'])
p('C31', 'series_expand returns the truncated power series of products',
  'series_expand(param, about, order) returns exactly order+1 coefficients; for a product they are the Cauchy product of the factor series, i.e. evaluating the polynomial agrees with the product of the polynomials up to the given order - for products of operators, inner products, outer products, and operators applied to states alike.',
  'all orders, all factor series',
  'All orders and series.',
  ['algebra/core/abstract_quantum_algebra.py:_series_expand_combine_prod', 'algebra/core/state_algebra.py:OperatorTimesKet._series_expand', 'algebra/core/state_algebra.py:KetBra._series_expand'])
p('C32', 'Index ranges enumerate the Cartesian product exactly once',
  'Iterating over several index ranges yields every combination of index values exactly once in lexicographic order (last index fastest); the number of terms equals the reported length; membership tests agree with enumeration.',
  'all lists of ranges of any size, including empty and negative-step ranges',
  'All range lists.',
  ['utils/indices.py:yield_from_ranges', 'utils/indices.py:product', 'utils/indices.py:IndexOverRange', 'utils/indices.py:IndexOverList', 'utils/indices.py:IndexOverFockSpace'])
p('C33', 'Writing out an indexed sum gives the sum of its terms',
  'doit() of a finite indexed sum equals the sum over all index combinations of the term with the indices substituted; expanding index by index in any order gives the same value; with max_terms it is the partial sum of the first max_terms terms.',
  'all terms, all finite ranges, all index subsets',
  'All ranges and expansion orders.',
  ['algebra/core/indexed_operations.py:IndexedSum.doit', 'algebra/core/indexed_operations.py:IndexedSum.terms'])
p('C34', 'The product of two indexed sums is the product of their values',
  'Multiplying indexed sums renames clashing summation indices and yields a sum whose value is the product of the values, for every valuation of the free symbols.',
  'all pairs of indexed sums, all valuations',
  'Capture problems arise only for particular name clashes, which enumeration of tests misses.',
  ['algebra/core/indexed_operations.py:IndexedSum.__mul__', 'algebra/core/indexed_operations.py:IndexedSum.make_disjunct_indices', 'algebra/core/scalar_algebra.py:ScalarIndexedSum.__mul__'])
p('C35', 'Wrapped scalar arithmetic agrees with the arithmetic of the wrapped values',
  'For scalars, +, -, *, negation, conversion to Python numbers on wrapped values, Zero and One denote the arithmetic of the wrapped numbers; results equal to 0 or 1 are the Zero and One singletons.',
  'all scalar values and expressions',
  'All values.',
  ['algebra/core/scalar_algebra.py:ScalarValue', 'algebra/core/scalar_algebra.py:Zero', 'algebra/core/scalar_algebra.py:One'])
p('C36', 'Commutator ordering and Leibniz expansion preserve the commutator',
  'The automatic re-ordering of commutator arguments, extraction of scalar factors, and expand_commutators_leibniz yield an expression whose value in any associative algebra is AB - BA of the original.',
  'all nested commutators of products of any length in any algebra',
  'All expressions and algebras.',
  ['algebra/core/algebraic_properties.py:commutator_order', 'algebra/toolbox/commutator_manipulation.py:expand_commutators_leibniz', 'algebra/core/operator_algebra.py:Commutator'])
p('C37', 'Harmonic-oscillator and projector rewrite rules are identities of operators',
  'The rewriting of products of creation/annihilation operators and transition operators |j><k| (a a^dag -> 1 + a^dag a, a |j><k| -> sqrt(j)|j-1><k|, |i><j|*|k><l| -> delta_jk |i><l|, ...) is an identity in the Fock representation, for every level.',
  'all levels j,k,l',
  'Infinite set of levels.',
  ['algebra/_rules.py:_algebraic_rules_operator', 'algebra/core/operator_algebra.py:LocalSigma.raise_jk'])
p('C38', 'Angular-momentum rewrite rules and coefficients satisfy the su(2) relations',
  'For every spin s, the matrix elements used for J+, J-, Jz satisfy [Jz,J+-] = +-J+-, [J+,J-] = 2Jz, J- is the adjoint of J+, and the coefficient vanishes exactly at the top/bottom level.',
  'all integer and half-integer spins and all magnetic quantum numbers',
  'Infinite set of spins.',
  ['algebra/library/spin_algebra.py:Jpjmcoeff', 'algebra/library/spin_algebra.py:Jmjmcoeff', 'algebra/library/spin_algebra.py:Jzjmcoeff', 'algebra/library/spin_algebra.py:SpinSpace'])
p('C39', 'liouvillian(H, Ls) generates trace- and Hermiticity-preserving dynamics, and SLH composition leaves it consistent',
  'Applying liouvillian(H, Ls) to any operator X gives -i[H,X] + sum_j (L_j X L_j^dag - (L_j^dag L_j X + X L_j^dag L_j)/2); it has zero trace for every X under any cyclic trace, and maps adjoints to adjoints when H is Hermitian; it is invariant under (H,L) -> (H, U L) for unitary scalar mixing.',
  'all operators in any *-algebra with a trace, all lists of collapse operators',
  'All operators, all algebras.',
  ['algebra/core/super_operator_algebra.py:liouvillian', 'algebra/core/super_operator_algebra.py:lindblad', 'algebra/core/super_operator_algebra.py:commutator'])
p('C40', 'Super-operator rewriting preserves the action on operators',
  'SPre/SPost products are combined so that the action on every operator is unchanged (SPre(A)SPre(B) = SPre(AB), SPost(A)SPost(B) = SPost(BA), and commuting SPre past SPost), and the super-adjoint satisfies Tr[M L(N)] = Tr[(L* M) N].',
  'all super-operator products and operators',
  'All lists of factors and all operators.',
  ['algebra/core/super_operator_algebra.py:SPre', 'algebra/core/super_operator_algebra.py:SPost', 'algebra/core/super_operator_algebra.py:SuperCommutativeHSOrder', 'algebra/_rules.py:_algebraic_rules_superop'])
p('C41', 'Equation histories record a valid chain of manipulations',
  'Eq.apply/apply_to_lhs/apply_to_rhs with cont=True return an equation whose printed history is the previous one extended by exactly one line, with cont=False a single line; the left hand side of a blank line is the last one shown above it and can always be read; no operation changes any equation that already exists, although equations share their history lists; and if every manipulation is correct, every printed line is true.',
  'all sequences of equation operations',
  'All histories.',
  ['algebra/toolbox/equation.py:Eq'])
p('C42', 'Rule application by explicit stack equals recursive bottom-up application',
  'apply_rules(expr, rules, recursive=True) returns the same expression as the structurally recursive bottom-up traversal that first rewrites the arguments and then the rebuilt node, and it terminates whenever the rules do.',
  'all expressions, all rule functions',
  'All trees of any depth.',
  ['algebra/core/abstract_algebra.py:_apply_rules', 'algebra/core/abstract_algebra.py:Expression.apply_rules'])
p('C43', 'Substitution replaces simultaneously and respects expressions without occurrences',
  'substitute(expr, map) replaces every maximal sub-expression that is a key by its value without re-substituting inside replaced parts; substituting a map none of whose keys occurs returns an equal expression; evaluation after substitution equals evaluation under the updated valuation.',
  'all expressions and maps',
  'All trees.',
  ['algebra/core/abstract_algebra.py:substitute', 'algebra/core/abstract_algebra.py:Expression.substitute'])
p('C44', 'The ordering keys of expressions give a total preorder usable by sort',
  'The key comparison used to order commuting summands and factors (KeyTuple, FullCommutativeHSOrder) is a strict weak order on comparable keys, so sorting is deterministic up to equal keys and independent of the input order for distinct keys.',
  'all triples of keys',
  'Transitivity over all triples.',
  ['utils/ordering.py:KeyTuple', 'utils/ordering.py:FullCommutativeHSOrder'])
p('C45', 'Instance keys distinguish different constructor calls',
  'Two create() calls on the same class share a cached instance only if they were called with the same arguments and keyword arguments.',
  'all pairs of argument lists (nested containers)',
  'Collisions appear only for particular argument shapes.',
  ['algebra/core/abstract_algebra.py:Expression._get_instance_key', 'utils/containers.py:nested_tuple'])
p('C46', 'connect() wires components as specified by the connection list',
  'connect(components, connections) yields the circuit in which, for every connection (out -> in), the output port is fed to the input port, with remaining external ports in order of the components; dimension = total channels minus number of connections; ports used twice are rejected.',
  'all component lists and all connection lists',
  'The code re-indexes ports after each feedback step; correctness needs induction over the connection list.',
  ['algebra/toolbox/circuit_manipulation.py:connect'])
p('C47', 'Sums over Kronecker deltas honour the summation range',
  'Simplifying sum_{i in range} delta_{i j} f(i) gives f(j) if j is in the range and 0 otherwise.',
  'all ranges, all terms, all j',
  'All ranges and values.',
  ['algebra/core/algebraic_properties.py:indexed_sum_over_kronecker', 'algebra/core/algebraic_properties.py:indexed_sum_over_const', 'algebra/core/algebraic_properties.py:assoc_indexed'])
p('C48', 'Partial traces factor correctly',
  'Automatic factoring of Tr_space(product) pulls only those factors out of the trace that do not act on the traced space, in an order that leaves the value unchanged.',
  'all operator products and spaces',
  'All products.',
  ['algebra/core/operator_algebra.py:factor_for_trace', 'algebra/core/operator_algebra.py:OperatorTrace'])
p('C49', 'permutation_to_disjoint_cycles reports malformed tuples as BadPermutationError',
  'For every tuple that is not a valid permutation, permutation_to_disjoint_cycles raises BadPermutationError.',
  'every malformed tuple',
  'All malformed tuples of all lengths.',
  [PERM+'permutation_to_disjoint_cycles'])
p('C50', 'extract_channel moves one channel to the end',
  'extract_channel(k, n) for k < n is the permutation circuit that leads input k to the last output and keeps the order of all other channels.',
  'all n and k < n',
  'All sizes and positions.',
  ['algebra/core/circuit_algebra.py:extract_channel'])
p('C51', 'index_in_block locates a channel inside its block',
  'For a circuit with blocks, index_in_block(c) is the position of channel c inside the block containing it: the blocks before contribute exactly c minus that position channels.',
  'all block structures and all channels',
  'All block structures.',
  ['algebra/core/circuit_algebra.py:Circuit.index_in_block'])
p('C52', 'diff() is the derivative',
  'expr.diff(sym) of sums, products and scalar multiples denotes the derivative of the value of expr: it is zero if expr does not depend on sym, and obeys linearity and the (non-commutative) product rule at any nesting depth.',
  'all expressions of any depth, all derivations of all algebras',
  'All expressions and all algebras.',
  ['algebra/core/abstract_quantum_algebra.py:QuantumExpression.diff', 'algebra/core/abstract_quantum_algebra.py:QuantumTimes._diff', 'algebra/core/abstract_quantum_algebra.py:QuantumPlus._diff', 'algebra/core/abstract_quantum_algebra.py:ScalarTimesQuantumExpression._diff'])
p('C53', 'adjoint() of compound expressions is the adjoint of their value',
  'The adjoint of sums, products and scalar multiples denotes the adjoint of the value of the expression in every *-algebra: scalars are conjugated, products reversed.',
  'all expressions of any depth, all *-algebras',
  'All expressions and all algebras.',
  ['algebra/core/abstract_quantum_algebra.py:QuantumPlus._adjoint', 'algebra/core/abstract_quantum_algebra.py:QuantumTimes._adjoint', 'algebra/core/operator_algebra.py:ScalarTimesOperator._adjoint'])
p('C54', 'The equations of motion of an SLH model are consistent with each other and with the Liouvillian',
  'symbolic_master_equation(rho) is liouvillian(H, L) applied to rho, and symbolic_heisenberg_eom(X) is its dual: Tr[X d(rho)/dt] = Tr[(dX/dt) rho] for every cyclic trace; both respect adjoints for Hermitian H, conserve trace and identity, and are unaffected by static scattering upstream or (for numbers) downstream. With noises the result is the quantum Langevin equation of the triple, including the gauge term (S^dag X S - X) for scattering that acts on the system.',
  'all SLH triples over any *-algebra, all operators and noises',
  'All operators, dimensions and numbers of channels.',
  ['algebra/core/circuit_algebra.py:SLH.symbolic_master_equation', 'algebra/core/circuit_algebra.py:SLH.symbolic_heisenberg_eom', 'algebra/core/circuit_algebra.py:SLH.symbolic_liouvillian', 'algebra/core/matrix_algebra.py:Matrix.__add__'])
p('C55', 'move_drive_to_H moves exactly the constant parts of the selected coupling operators and keeps the dynamics',
  'The result has the same scattering matrix, the same master equation and averaged Heisenberg equations; every selected coupling operator loses exactly its multiple of the identity, the others are unchanged; a Hermitian Hamiltonian and unitary scattering matrix stay so.',
  'all SLH triples, all operator expressions as coupling operators, all selections',
  'All expressions and all selections of channels.',
  ['algebra/core/circuit_algebra.py:move_drive_to_H', 'algebra/core/operator_algebra.py:get_coeffs'])
p('C56', 'Coherent inputs and library components are physical and compose as expected',
  'coherent_input(amps) requires one amplitude per channel and gives a circuit whose outputs for inputs u are those of the given circuit for inputs u + amps; feeding in succession adds amplitudes (up to a number in H). CoherentDriveCC, PhaseCC and Beamsplitter have unitary scattering matrices and Hermitian H for all real parameters, phases and mixing angles add up in series, parameter zero is pass-through and the inverse has the negative parameter. Every circuit, including the zero-channel one, can be converted to SLH, and malformed S, L are rejected.',
  'all triples, amplitudes and parameters',
  'All numbers of channels and all real/complex parameters.',
  ['algebra/core/circuit_algebra.py:Circuit.coherent_input', 'algebra/library/circuit_components.py:CoherentDriveCC', 'algebra/library/circuit_components.py:PhaseCC', 'algebra/library/circuit_components.py:Beamsplitter', 'algebra/core/circuit_algebra.py:SLH.__init__', 'algebra/core/circuit_algebra.py:CircuitZero'])
p('C57', 'Automatic simplification terminates',
  'Creating a sum, scalar multiple, product or commutator of arbitrary (nested) expressions finishes after finitely many rewriting steps: the rules cannot rewrite each other\'s results for ever, provided the rules for two symbols decrease some measure of words.',
  'all operands, all nestings, all rule sets that decrease a measure of words of symbols',
  'Non-termination shows only for particular combinations of operands; tests can only show that given inputs terminate.',
  ['algebra/core/algebraic_properties.py:match_replace_binary', 'algebra/core/algebraic_properties.py:collect_summands', '_rules.py:OperatorTimes', 'algebra/core/operator_algebra.py:Commutator'])
p('C58', 'Products of kets, bras, operators and scalars denote what they say',
  'For kets, bras, operators and scalars, x * y denotes the product: ket*ket the tensor product of the states, ket*bra the operator |a><b|, bra*ket the number <a|b>, operator*ket the state the operator takes the ket to, bra*operator and scalar multiples likewise; automatic simplification (acting locally on a factor, splitting products over tensor factors, pulling out scalars, contracting basis states) never changes the value.',
  'all expressions of any size, all Hilbert spaces, all interpretations of the symbols',
  'All states, operators and dimensions; tests compare symbolic results with other symbolic results.',
  ['algebra/core/state_algebra.py:State.__mul__', 'algebra/core/state_algebra.py:TensorKet', 'algebra/core/state_algebra.py:OperatorTimesKet', 'algebra/core/state_algebra.py:BraKet', 'algebra/core/state_algebra.py:KetBra', '_rules.py:act_locally', '_rules.py:act_locally_times_tensor', '_rules.py:tensor_decompose_kets', '_rules.py:_algebraic_rules_state'])
p('C59', 'Products of states on unsuitable spaces are refused',
  'A tensor product of states with a common degree of freedom raises OverlappingSpaces; an inner or outer product of (non-zero) states of different spaces raises UnequalSpaces. No such product is evaluated to a number, state or operator.',
  'all states of any size',
  'All combinations of states.',
  ['algebra/core/state_algebra.py:_check_kets', 'algebra/core/state_algebra.py:BraKet.create', 'algebra/core/state_algebra.py:KetBra.create', '_rules.py:_algebraic_rules_state'])
p('C60', 'Products of states and operators are evaluated in finitely many steps',
  'x * y for kets, bras, operators and scalars returns a result or raises an error about the operands; it never runs into unbounded recursion or an endless loop.',
  'all operands of any size',
  'Non-termination shows only for particular operands.',
  ['_rules.py:act_locally_times_tensor', '_rules.py:tensor_decompose_kets', '_rules.py:_algebraic_rules_state', 'algebra/core/algebraic_properties.py:accept_bras', 'algebra/core/abstract_quantum_algebra.py:QuantumTimes.factor_for_space'])
p('C61', 'The block structure of a matrix is correct and finest',
  'For a square matrix, block_structure gives positive sizes adding up to the dimension such that the matrix is block diagonal with these sizes and no block can be split further (entries that are zero count as zero, whether numbers or ZeroOperator); _get_blocks(sizes) returns the diagonal blocks exactly if the sizes fit and raises ValueError otherwise; for a column vector it returns the consecutive pieces.',
  'all matrices of any size, all block sizes',
  'All sizes and all patterns of zeros.',
  ['algebra/core/matrix_algebra.py:Matrix.block_structure', 'algebra/core/matrix_algebra.py:Matrix._get_blocks', 'algebra/core/matrix_algebra.py:Matrix.is_zero'])
p('C62', 'Matrices of operators form an algebra',
  'Matrix sums, differences, products, adjoints, traces and block matrices are the mathematical ones for non-commuting entries: products are associative and distributive, the identity matrix is neutral, (MN)^dagger = N^dagger M^dagger, and operands of mismatched shapes are refused.',
  'all matrices of all shapes over any *-ring',
  'All shapes and entries.',
  ['algebra/core/matrix_algebra.py:Matrix', 'algebra/core/matrix_algebra.py:block_matrix', 'algebra/core/matrix_algebra.py:identity_matrix', 'algebra/core/matrix_algebra.py:hstackm', 'algebra/core/matrix_algebra.py:vstackm'])
p('C63', 'Element-wise operations and permutation matrices',
  'element_wise (hence expand, simplify_scalar, substitute) acts on every entry and keeps the shape; series_expand(param, about, order) of a matrix gives order+1 matrices of the same shape holding the coefficients of the entries; permutation_matrix(p) maps e_i to e_p(i), satisfies M_(s.t) = M_s M_t and is orthogonal.',
  'all matrices, all permutations of any length',
  'All shapes and all permutations.',
  ['algebra/core/matrix_algebra.py:Matrix.element_wise', 'algebra/core/matrix_algebra.py:Matrix.series_expand', 'algebra/core/matrix_algebra.py:permutation_matrix'])
p('C64', 'Converted operators have the matrix elements of the operator',
  'convert_to_qutip(expr, full_space) and convert_to_sympy_matrix(expr, full_space) of an operator expression give the matrix of the operator in the product basis of the local factors of full_space (in canonical order, first factor most significant, levels numbered as in QNET): sums, products over several degrees of freedom, scalar multiples, adjoints, embedding into a larger space. Every expression built from known local operators is converted.',
  'all operator expressions of any size on any number of local spaces of any dimensions',
  'All expressions, spaces and dimensions; tests compare a few matrices of small dimension.',
  ['convert/to_qutip.py:convert_to_qutip', 'convert/to_qutip.py:_convert_local_operator_to_qutip', 'convert/to_qutip.py:_convert_operator_operation_to_qutip', 'convert/to_sympy_matrix.py:convert_to_sympy_matrix', 'convert/to_sympy_matrix.py:SympyCreate'])
p('C65', 'Converted states are the columns of the state',
  'convert_to_qutip(ket, full_space) gives the column vector of the ket in the product basis; kets, bras, inner products and super-operators can be converted.',
  'all kets and super-operators of any size, any number of local spaces of any dimensions',
  'All states, spaces and dimensions.',
  ['convert/to_qutip.py:_convert_ket_to_qutip', 'convert/to_qutip.py:_convert_state_operation_to_qutip', 'convert/to_qutip.py:_convert_superoperator_to_qutip'])
p('C66', 'Converting an SLH model or a time-dependent operator keeps its dynamics',
  'SLH_to_qutip returns the matrix of the Hamiltonian and collapse operators that generate the same dissipation for every density matrix (vanishing couplings may be left out); for a time-dependent operator the nested list [H0, [H1, f1], ...] sums at every time t to the matrix of the operator at time t, and string coefficients denote the same function.',
  'all SLH models with any number of channels, all time-dependent operators that expand to a sum of f_i(t) * op_i, all times',
  'All sums, couplings and times.',
  ['convert/to_qutip.py:SLH_to_qutip', 'convert/to_qutip.py:_time_dependent_to_qutip'])
p('C67', 'The adiabatic limit is the limit',
  'eval_adiabatic_limit(prepare_adiabatic_limit(slh, k), Ytilde, P0) returns the limit for k to infinity of a model with couplings of order k and energies of order k^2: for all coherent input and output fields and all times, the evolution of the model on the null space of Y converges to the evolution of the returned model, which is physical on the null space (Hermitian H, unitary S) and keeps the number of channels.',
  'all models with polynomial dependence L = g + k f, H = h0 + k h1 + k^2 h2 on k that satisfy the conditions of the limit theorem, any number of channels, all operators of a C*-algebra, all coherent amplitudes, all times',
  'A limit over an unbounded parameter and all states, fields and times; tests compare a few symbolic results.',
  ['algebra/core/circuit_algebra.py:prepare_adiabatic_limit', 'algebra/core/circuit_algebra.py:eval_adiabatic_limit'])
p('C68', 'Automatic adiabatic elimination',
  'try_adiabatic_elimination(slh, k, fock_trunc, sub_P0) returns the adiabatic limit of the model or raises CannotEliminateAutomatically; substituting the projector on the null space by the identity does not change the model on the null space.',
  'all models on one local space of any dimension, all fock_trunc',
  'All models and dimensions.',
  ['algebra/core/circuit_algebra.py:try_adiabatic_elimination'])
p('C69', 'Linear systems: the ABCD arrays are the dynamics',
  'If the equations of motion and couplings of a model are linear in the modes, getABCD(slh, a0, doubled_up) returns arrays with dX = (A X + a) dt + B dA_in and dA_out = (C X + c) dt + D dA_in exactly; for a physical model the arrays satisfy the conditions of physical realizability (commutation relations are preserved); displacing by a0 leaves A, B, C, D unchanged and adds A a0 to a and C a0 to c.',
  'all linear models with any number of modes and channels, all displacements, all representations of the commutation relations',
  'All numbers of modes and channels, all coefficients.',
  ['algebra/core/circuit_algebra.py:getABCD', 'algebra/core/circuit_algebra.py:SLH.symbolic_heisenberg_eom', 'algebra/core/operator_algebra.py:get_coeffs'])
p('C70', 'The equations of motion of a circuit are those of its diagram',
  'For all fields at the inputs, the outputs of a circuit (or of a system built by connect) are the only fields consistent with its diagram of components, wires and loops, and toSLH().symbolic_heisenberg_eom(X, noises) is the sum of the equations of motion of the components, each driven by the fields at its own inputs. In particular an observable of one component only sees that component and its input fields, and observables upstream are not affected by what follows.',
  'all circuits built from any number of components by series, concatenation, feedback, permutations, inversion or connect; all observables, all input fields, all operator algebras',
  'All circuits, fields and observables.',
  ['algebra/core/circuit_algebra.py:SLH.series_with_slh', 'algebra/core/circuit_algebra.py:SLH.concatenate_slh', 'algebra/core/circuit_algebra.py:SLH._feedback', 'algebra/core/circuit_algebra.py:SLH.symbolic_heisenberg_eom', 'algebra/toolbox/circuit_manipulation.py:connect'])
p('C71', 'srepr round trip',
  'srepr(expr) and srepr(expr, indented=True) are Python source texts whose evaluation re-instantiates an identical expression, also with a user-given cache that maps sub-expressions to variables holding them; without indented the text is a single line; different expressions have different texts; the text exists for every expression.',
  'all expressions of any size and depth with positional and keyword arguments, tuples, lists, strings with any characters, integers, arrays, SymPy objects and singletons; all caches; all definitions of == for which the printer cache is consistent',
  'All expression trees, strings and cache contents; the cache is shared during the whole recursion.',
  ['printing/__init__.py:srepr', 'printing/sreprprinter.py:QnetSReprPrinter', 'printing/sreprprinter.py:IndentedSReprPrinter', 'printing/_render_head_repr.py:render_head_repr', 'printing/base.py:QnetBasePrinter'])
p('C72', 'Expressions can be rebuilt from args and kwargs',
  'For every Hilbert space, circuit component, derivative and operator plus/minus its conjugate, instantiating the class with expr.args and expr.kwargs, or with expr.minimal_kwargs, gives an expression equal to expr (this is what srepr, substitute and rebuild rely on).',
  'all constructor arguments that are accepted',
  'All combinations of given and defaulted arguments.',
  ['algebra/core/hilbert_space_algebra.py:LocalSpace', 'algebra/library/spin_algebra.py:SpinSpace', 'algebra/core/circuit_algebra.py:Component', 'algebra/core/abstract_quantum_algebra.py:QuantumDerivative', 'algebra/core/operator_algebra.py:OperatorPlusMinusCC'])
p('C73', 'Printed formulas mean what the expression means',
  'The text that ascii() prints for an operator or a state, read by the usual rules (products before sums, an index sum extends over the following product, ^H applies to the factor before it), has the value of the expression; so two expressions with the same text are equal.',
  'all operators and states built from symbols, local operators, kets, sums, products, scalar multiples, adjoints, commutators, operators applied to kets, bras, ket-bras, bra-kets and indexed sums, and all interpretations of the symbols',
  'Whether parentheses are needed depends on the surrounding expression at every depth; the printer decides by precedence numbers and, in places, by the first character of the printed text.',
  ['printing/asciiprinter.py:QnetAsciiPrinter', 'printing/_precedence.py:precedence'])
p('C74', 'configure_printing is temporary',
  'After a configure_printing block the printing system is as it was before: ascii, unicode, latex, str and repr of every expression give what they gave before the block, however the block is left and whatever nested blocks it contains; inside the block the given settings are used; init_printing accumulates settings and init_printing(reset=True) does not depend on earlier calls.',
  'all configurations, all states of the printing system, all programs of nested blocks, all exits (normal or by an exception)',
  'All histories of configuration calls and nested blocks, including failing ones.',
  ['printing/__init__.py:init_printing', 'printing/__init__.py:_init_printing', 'printing/__init__.py:configure_printing', 'printing/__init__.py:ascii'])
p('C75', 'dotprint draws the expression tree',
  'dotprint(expr, maxdepth) terminates and draws exactly the part of the expression tree down to maxdepth: one node for every position (equal subexpressions at different positions are different nodes), node labels showing the expression there, one edge from every position to each of its children and no other edges, levels equal to depth, children in their order.',
  'all expression trees, all values of maxdepth',
  'All trees of any depth and width; the node names are made from counters kept per level while a queue is processed.',
  ['printing/dot.py:dotprint'])
p('C76', 'tree printing shows the tree',
  'print_tree/tree print one line per node of the part of the expression that is to be shown (depth, exclude_type), in depth-first order, with the vertical lines and corners that belong to its ancestors; the printed lines determine the tree (structure, order of the operands, texts), and so does the string returned by tree if no text contains a line break.',
  'all expression trees, all texts, all options unicode, depth, exclude_type, srepr_leaves, padding',
  'All trees of any depth and all texts (including texts made of the drawing symbols).',
  ['printing/treeprinting.py:print_tree', 'printing/treeprinting.py:tree'])
p('C77', 'The drawing shows the circuit',
  'draw_circuit_canvas returns, for every circuit without empty parts, a picture with exactly the boxes of the expression (each once, not overlapping, inside the returned dimensions), with input and output ports in channel order, and such that following the strokes from an input or from an output of a box one arrives exactly at the box input or output port to which the circuit expression connects it (series products, concatenations, permutations and feedback, arbitrarily nested).',
  'all circuit expressions of any nesting, all admissible margins',
  'All nestings of the operations; the picture is assembled from relative coordinates with offsets, per-channel widths and removed ports, and a wrong offset connects wrong ports only in some nestings.',
  ['visualization/circuit_pyx.py:draw_circuit_canvas', 'visualization/circuit_pyx.py:draw_circuit'])
p('C78', 'Building a circuit terminates',
  'For every meaningful circuit expression (series products of equal channel numbers, existing ports), the construction with <<, +, feedback and series_inverse ends after finitely many rewriting steps with a circuit of the expected number of channels; it never fails with a RecursionError whatever the recursion limit is.',
  'all circuit expressions of any size',
  'The rewriting rules call create recursively on expressions that are not smaller; termination is a statement about all expressions and all sequences of rewriting steps, and a test with a finite recursion limit cannot distinguish a long reduction from an infinite one.',
  ['algebra/_rules.py:_series_feedback', 'algebra/_rules.py:_tensor_decompose_series', 'core/algebraic_properties.py:match_replace_binary', 'core/circuit_algebra.py:Feedback.create', 'core/circuit_algebra.py:SeriesProduct', 'core/circuit_algebra.py:Concatenation'])
p('C79', 'Equality and hash of expressions',
  '== is an equivalence relation on expressions and numbers, objects that compare equal mean the same (a scalar standing for the multiple of the identity operator) and have the same hash, expressions of the same kind compare equal exactly when they are the same expression up to the way in which numbers are written (3, ScalarValue(3), Zero/0, One/1), and != is the negation of ==.',
  'all expressions and numbers, of any depth',
  'Transitivity, symmetry and hash consistency are statements about all pairs and triples; five classes define __eq__ in different ways and Python chooses between them depending on the order of the operands.',
  ['core/abstract_algebra.py:Expression.__eq__', 'core/abstract_algebra.py:Expression.__hash__', 'core/abstract_algebra.py:Expression.__ne__', 'core/scalar_algebra.py:ScalarValue.__eq__', 'core/operator_algebra.py:ScalarTimesOperator.__eq__', 'utils/singleton.py:singleton_object'])
p('C80', 'liouvillian_normal_form returns an equivalent model',
  'For every Liouvillian L = liouvillian(H, Ls), liouvillian_normal_form(L) returns a Hamilton operator and collapse operators that generate the same master equation, and the Hamilton operator is Hermitian (up to a multiple of the identity).',
  'all Liouvillians, all dimensions, all operators and rates, numerical and symbolic',
  'All operators and all rates; the result has other collapse operators than the input, so that only the dynamics for every density matrix can be compared.',
  ['core/super_operator_algebra.py:liouvillian_normal_form', 'core/scalar_algebra.py:One'])
p('C81', 'Free symbols and substitution',
  'The value of an expression depends only on the symbols in free_symbols; free_symbols and bound_symbols together are the symbols that occur in it; substitute(var_map) replaces the free symbols simultaneously: the value of the result is the value of the expression with the replacements as values of the symbols, its free symbols are those of the replacements, and expressions in which no replaced symbol occurs do not change; indices of sums are not captured.',
  'all expressions with indexed sums of any nesting, all substitution maps for index symbols',
  'All expressions and all maps; variable capture needs special combinations of names in the expression and in the map.',
  ['core/abstract_algebra.py:Expression.free_symbols', 'core/abstract_algebra.py:Expression.bound_symbols', 'core/abstract_algebra.py:substitute', 'core/indexed_operations.py:IndexedSum.bound_symbols', 'core/indexed_operations.py:IndexedSum.free_symbols', 'utils/indices.py:IndexRangeBase.substitute', 'utils/indices.py:SymbolicLabelBase.substitute'])
p('C82', 'The basis of a Hilbert space is consistent',
  'For a local, product or trivial space whose local factors have a basis, dimension is the number of basis_labels and of basis_states; labels and states are pairwise different; every basis state is a product of one local basis state for each factor and all such products occur, in the order in which the last factor runs fastest; basis_state(i) and basis_state(basis_labels[i]) are the i-th basis state; a number that does not exist raises IndexError, an unknown label KeyError, a space without a basis BasisNotSetError.',
  'all Hilbert spaces (any number of factors, any bases), all numbers and labels',
  'All tuples of bases, all label strings (including separators inside labels) and all integers.',
  ['src/qnet/algebra/core/hilbert_space_algebra.py:ProductSpace.basis_state', 'src/qnet/algebra/core/hilbert_space_algebra.py:ProductSpace.basis_labels', 'src/qnet/algebra/core/hilbert_space_algebra.py:LocalSpace.basis_state', 'src/qnet/algebra/core/hilbert_space_algebra.py:TrivialSpace.basis_state'])
p('C83', 'add_rule and del_rules change exactly the named rules, and the change takes effect',
  'cls.add_rule(name, pattern, replacement) succeeds exactly if the name is a new string, the pattern matches a ProtoExpr and the parameters of the replacement are the wildcards; it appends the rule and changes nothing else. cls.del_rules(*names) removes exactly these rules (all without names) of the class, or raises KeyError and changes nothing. Names stay unique, and every later call of create uses the rules in force.',
  'all class hierarchies sharing dictionaries of rules, all arguments, all histories of create calls, rule changes and cache clearings',
  'the effect depends on the sharing of dictionaries between classes and on all expressions created earlier',
  ['src/qnet/algebra/core/abstract_algebra.py:Expression.add_rule', 'src/qnet/algebra/core/abstract_algebra.py:Expression.del_rules', 'src/qnet/algebra/core/abstract_algebra.py:Expression.rules', 'src/qnet/algebra/core/abstract_algebra.py:Expression.create', 'src/qnet/utils/check_rules.py:check_rules_dict'])

p('C84', 'The printed text of a circuit denotes that circuit',
  'ascii(c) (and, with other signs, unicode(c)) of a circuit expression c with symbols, permutations, identities, series products, concatenations, feedback and inverses can be read back unambiguously, with the precedences of Python as well as with << taken as the product: the text means c, and two circuits with the same text are equal.',
  'all nestings of circuit expressions with any numbers of operands, all meanings of the symbols (in particular as SLH triples)',
  'parentheses are needed depending on the nesting of operations, and the merging of identities depends on neighbouring operands; the claim compares texts of all pairs of circuits',
  ['src/qnet/printing/asciiprinter.py:QnetAsciiPrinter._print_SeriesProduct', 'src/qnet/printing/asciiprinter.py:QnetAsciiPrinter._print_Concatenation', 'src/qnet/printing/asciiprinter.py:QnetAsciiPrinter._print_Feedback', 'src/qnet/printing/_precedence.py:precedence', 'src/qnet/algebra/core/circuit_algebra.py:CircuitSymbol'])

p('C85', "Python's arithmetic operators between operators and numbers",
  "For operators A and operands b that are operators or numbers (a number c standing for c times the identity), A+b, b+A, A-b, b-A, -A, A*b, b*A return an operator that denotes the sum, difference, product; A/c for a number c is division, an exception for c = 0; A**k is the k-fold product, A**0 the identity; sum(list) of operators denotes their sum. Unsupported operands raise TypeError and never give a wrong result.",
  "all operators (any nesting), all numbers, all exponents, all lists of operators, every interpretation of the symbols in an algebra in which the rules hold",
  "operands and exponents are unbounded, and the result goes through Python's reflected methods and the automatic simplification, which depends on the structure of the operands",
  ['src/qnet/algebra/core/abstract_quantum_algebra.py:QuantumExpression.__add__', 'src/qnet/algebra/core/abstract_quantum_algebra.py:QuantumExpression.__rsub__', 'src/qnet/algebra/core/abstract_quantum_algebra.py:QuantumExpression.__truediv__', 'src/qnet/algebra/core/abstract_quantum_algebra.py:QuantumExpression.__pow__'])
p('C86', "Division, floor division and remainder of scalars",
  "x / y, x / k and k / x of scalars (numbers, Zero, One, symbolic scalars) and numbers return a scalar that denotes the quotient, whenever the divisor is not zero, and raise ZeroDivisionError when it is; x // y and x % y of wrapped numbers are those of the numbers.",
  "all scalars x, y (any nesting of sums, products and powers), all numbers, every assignment of values to the symbols for which no division by zero occurs",
  "quotients are rewritten to negative powers and simplified by rules whose behaviour depends on the structure of both scalars; the number of scalars is unbounded",
  ['src/qnet/algebra/core/scalar_algebra.py:Scalar.__truediv__', 'src/qnet/algebra/core/scalar_algebra.py:Scalar.__rtruediv__', 'src/qnet/algebra/core/scalar_algebra.py:ScalarValue.__truediv__', 'src/qnet/algebra/core/scalar_algebra.py:One.__truediv__', 'src/qnet/algebra/core/scalar_algebra.py:Scalar.__floordiv__', 'src/qnet/algebra/core/scalar_algebra.py:Scalar.__mod__'])
p('C87', "Powers, square roots, conjugates, real and imaginary parts of scalars",
  "x**e with a rational exponent denotes the principal power of x; sqrt(x)**2 is x, and sqrt(x) is the root whose real part is not negative; x.conjugate() denotes the complex conjugate, x.real and x.imag the real and imaginary part.",
  "all scalars x (any nesting of sums, products and powers), all rational exponents, every assignment of complex numbers to the symbols",
  "the laws of powers that the rules use hold only for some complex numbers and exponents, so a test with a few values does not decide them",
  ['src/qnet/algebra/core/scalar_algebra.py:ScalarPower', 'src/qnet/algebra/core/scalar_algebra.py:sqrt', 'src/qnet/algebra/core/scalar_algebra.py:Scalar.real', 'src/qnet/algebra/core/scalar_algebra.py:Scalar.imag', 'src/qnet/algebra/core/scalar_algebra.py:Scalar.conjugate', 'src/qnet/algebra/_rules.py:_algebraic_rules_scalar'])
p('C88', "Derivatives of operators that depend on parameters",
  "For an operator A(args) whose arguments depend on parameters, diff(s, n) denotes the n-th partial derivative; derivatives with respect to two parameters are the same object in both orders; evaluate_at gives the derivative at that point, also after further derivatives, and fails exactly for parameters the derivative is not with respect to; free_symbols contains every parameter the value depends on; the adjoint of a derivative is the derivative of the adjoint; series_expand(s, about, order) returns order+1 coefficients with which the documented expansion holds up to O(order+1); substitute replaces parameters, also in a derivative.",
  "all arguments and evaluation points, all nestings of derivatives and evaluations, all orders, every smooth function the operator may stand for",
  "the operator stands for an arbitrary function of its parameters, so a test can only look at the form of a derivative, not at what it denotes",
  ['src/qnet/algebra/core/abstract_quantum_algebra.py:QuantumDerivative', 'src/qnet/algebra/core/abstract_quantum_algebra.py:QuantumExpression.diff', 'src/qnet/algebra/core/abstract_quantum_algebra.py:QuantumExpression.series_expand', 'src/qnet/algebra/core/abstract_quantum_algebra.py:QuantumSymbol._diff', 'src/qnet/algebra/core/algebraic_properties.py:derivative_via_diff', 'src/qnet/algebra/core/abstract_algebra.py:Expression.substitute'])
p('C89', "Circuits without feedback: construction succeeds and is correct",
  "For every meaningful circuit expression made of components, SLH objects, permutations, identities, series products, concatenations and inverses (matching channel counts, valid permutations), building it never raises an exception, the circuit that is built has the expected number of channels, does not depend on the recursion limit once this is large enough, and its toSLH() succeeds and equals the SLH triple of the expression evaluated literally, for every choice of unitary SLH triples for the components.",
  "all feedback-free circuit expressions of any depth and number of channels, all permutations, all SLH triples of the components, all recursion limits from some point on",
  "rewriting of permutations against concatenations recurses into newly built circuits, so neither termination nor the absence of internal exceptions follows from any finite set of examples",
  ['src/qnet/algebra/core/circuit_algebra.py:SeriesProduct', 'src/qnet/algebra/core/circuit_algebra.py:Concatenation', 'src/qnet/algebra/core/circuit_algebra.py:SeriesInverse', 'src/qnet/algebra/core/circuit_algebra.py:CPermutation', 'src/qnet/algebra/core/algebraic_properties.py:match_replace_binary', 'src/qnet/algebra/_rules.py:_algebraic_rules_circuit'])
p('C90', "A circuit is a fixed point of being built",
  "A circuit that the API returned does not change when it is made again from its own operands: substitute({}) (and likewise simplify() without rules, or evaluating the output of srepr) returns an equal circuit.",
  "all circuits built from feedback-free expressions, all depths, all recursion limits from some point on",
  "which rules still apply to a result depends on the order in which the rewriting engine combined its operands; a test shows the fixed point for one expression only",
  ['src/qnet/algebra/core/abstract_algebra.py:Expression.substitute', 'src/qnet/algebra/core/abstract_algebra.py:Expression.create', 'src/qnet/algebra/core/circuit_algebra.py:SeriesProduct', 'src/qnet/algebra/core/circuit_algebra.py:Concatenation', 'src/qnet/algebra/core/algebraic_properties.py:match_replace_binary', 'src/qnet/algebra/core/algebraic_properties.py:filter_cid'])
p('C91', "Substitution of components in circuits",
  "circuit.substitute({A: circuit_a, ...}) with circuits that have as many channels as the components they replace denotes the circuit expression with the components replaced literally: it has the same SLH triple for all values of the other components and the same number of channels, and for feedback-free circuits it always succeeds.",
  "all circuits and replacements, all values of the remaining components, all recursion limits from some point on",
  "the circuit in which the components are replaced was simplified before the substitution and is simplified again afterwards with different rules, in unboundedly many combinations",
  ['src/qnet/algebra/core/abstract_algebra.py:Expression.substitute', 'src/qnet/algebra/core/abstract_algebra.py:substitute', 'src/qnet/algebra/core/circuit_algebra.py:SeriesProduct', 'src/qnet/algebra/core/circuit_algebra.py:Concatenation', 'src/qnet/algebra/core/circuit_algebra.py:SeriesInverse', 'src/qnet/algebra/core/circuit_algebra.py:Feedback'])

p('C92', "Coherent states",
  "CoherentStateKet(alpha).to_fock_representation() denotes the normalised eigenvector of the annihilation operator with eigenvalue alpha and positive vacuum amplitude; with max_terms=m it keeps exactly the components 0..m-1, and its distance to the coherent state tends to zero with m. The derivative of a coherent state by a symbol in its amplitude, as returned by diff, is the derivative of its Fock components.",
  "all complex amplitudes, all differentiable dependences of the amplitude on a real symbol, all truncations",
  "amplitudes, their dependence on symbols and the number of Fock components are unbounded, and the representation is an infinite sum",
  ['src/qnet/algebra/core/state_algebra.py:CoherentStateKet', 'src/qnet/algebra/core/state_algebra.py:CoherentStateKet.to_fock_representation', 'src/qnet/algebra/core/state_algebra.py:CoherentStateKet._diff'])

p('C93', "Pauli operators on any two levels",
  "PauliX, PauliY and PauliZ of a space and a pair of states are Hermitian, satisfy the relations of the Pauli matrices (squares equal to the projector on the two levels, XY = iZ and cyclic) and vanish on the other levels; without states they act on the two lowest levels.",
  "all local spaces (with and without basis), all pairs of labels or indices, every representation of the operators |j><k|",
  "spaces, labels and levels are unbounded",
  ['src/qnet/algebra/library/pauli_matrices.py:PauliX', 'src/qnet/algebra/library/pauli_matrices.py:PauliY', 'src/qnet/algebra/library/pauli_matrices.py:PauliZ', 'src/qnet/algebra/core/operator_algebra.py:LocalSigma'])

p('C94', "General beam splitters",
  "Every two-channel scatterer with a unitary scattering matrix, in particular the symmetric beam splitter of the documentation, has the SLH triple of a series product of phase shifters, a Beamsplitter and phase shifters; the default mixing angle splits evenly, and the mixing angle pi/2 exchanges the channels.",
  "all unitary 2x2 matrices and all mixing angles",
  "a continuum of scattering matrices",
  ['src/qnet/algebra/library/circuit_components.py:Beamsplitter', 'src/qnet/algebra/library/circuit_components.py:PhaseCC'])

p('C95', "Derivatives of expressions with states and super-operators",
  "For every expression built from scalars, kets, operators and super-operators (sums, products, multiples, adjoints, inner and outer products, application of operators to kets and of super-operators to operators, SPre, SPost), diff returns an expression whose value is the derivative of the value of the given expression.",
  "all expressions of the four kinds, all smooth values of the symbols in any Hilbert space, all values of the symbol",
  "unboundedly nested expressions and a continuum of values",
  ['src/qnet/algebra/core/abstract_quantum_algebra.py:QuantumExpression.diff', 'src/qnet/algebra/core/state_algebra.py:BraKet._diff', 'src/qnet/algebra/core/state_algebra.py:KetBra._diff', 'src/qnet/algebra/core/state_algebra.py:OperatorTimesKet._diff', 'src/qnet/algebra/core/super_operator_algebra.py:SPre._diff', 'src/qnet/algebra/core/super_operator_algebra.py:SPost._diff', 'src/qnet/algebra/core/super_operator_algebra.py:SuperOperatorTimesOperator._diff'])
p('C96', "derationalize_denom preserves the value",
  "If derationalize_denom(expr) returns (numerator, denom_sq, post_factor), then (numerator / sqrt(denom_sq)) * post_factor == expr; it raises a ValueError exactly if expr is not a product that has a factor Rational(n, d) followed by a factor sqrt(d).",
  "all sympy products with any number of factors, all values of the factors",
  "products of any length with arbitrary factors",
  ['src/qnet/printing/sympy.py:derationalize_denom'])

p('C97', "Unicode sub- and superscripts can be read back",
  "render_unicode_sub_super returns a text for every name, subscripts and superscripts, and the text determines them: different names, subscripts or superscripts are never rendered as the same text, whatever mixture of Unicode characters and _ and ^ is chosen.",
  "all names, subscripts and superscripts, all settings",
  "unboundedly many strings",
  ['src/qnet/printing/_unicode_mappings.py:render_unicode_sub_super', 'src/qnet/printing/_unicode_mappings.py:_translate_symbols', 'src/qnet/printing/_unicode_mappings.py:_unicode_sub_super'])
p('C98', "Rewriting with Hermitian conjugates preserves the operator",
  "rewrite_with_operator_pm_cc(expr) denotes the same operator as expr, doit() of the result as well, and the adjoint of an OperatorPlusMinusCC denotes the adjoint; a sum of two mutually adjoint summands is rewritten.",
  "all operator expressions, all values of the symbols in every star algebra",
  "unboundedly nested expressions, any number of summands",
  ['src/qnet/algebra/core/operator_algebra.py:rewrite_with_operator_pm_cc', 'src/qnet/algebra/core/operator_algebra.py:OperatorPlusMinusCC'])


p('C99', 'Integer powers of an indexed sum of scalars',
  'For an indexed sum x of scalars and an integer n, x**n denotes the n-th power of the value of x: for n >= 1 an indexed sum over n copies of the indices (with new, primed names) that run over the same values, x**0 is One, negative powers are the inverse of the positive ones. No power fails.',
  'all indexed sums (any number of indices, any ranges, any term), all integers n, every valuation of the symbols',
  'the exponent and the number of indices are unbounded, and the renaming of indices may capture symbols or make two names equal only for some combinations',
  ['src/qnet/algebra/core/scalar_algebra.py:ScalarIndexedSum.__pow__', 'src/qnet/algebra/core/abstract_quantum_algebra.py:QuantumIndexedSum.__mul__', 'src/qnet/algebra/core/indexed_operations.py:IndexedSum.make_disjunct_indices'])

p('C100', 'expand, diff and series_expand of scalars',
  'For a scalar built from values, symbols, sums, products and powers: expand() returns a scalar of the same value that has no products of sums; diff(s) returns the derivative of its value; series_expand(s, about, order) returns the order + 1 coefficients of its power series about the point whenever the scalar is regular there.',
  'all scalar expressions of any depth, all orders, every valuation of the symbols in a field, every derivation of that field',
  'expressions are unboundedly nested, orders are unbounded, and values are a continuum',
  ['src/qnet/algebra/core/scalar_algebra.py:ScalarTimes._expand', 'src/qnet/algebra/core/scalar_algebra.py:ScalarPower._diff', 'src/qnet/algebra/core/scalar_algebra.py:ScalarPower._series_expand', 'src/qnet/algebra/core/scalar_algebra.py:ScalarValue._diff', 'src/qnet/algebra/core/scalar_algebra.py:ScalarValue._series_expand', 'src/qnet/algebra/core/abstract_quantum_algebra.py:QuantumPlus._diff', 'src/qnet/algebra/core/abstract_quantum_algebra.py:QuantumTimes._diff', 'src/qnet/algebra/core/abstract_quantum_algebra.py:_series_expand_combine_prod'])

p('C101', 'expand() of kets, bras, inner and outer products',
  'expand() of a sum, tensor product or scalar multiple of kets, or of an operator applied to a ket, returns a ket that denotes the same state on the same space; expand() of an inner (outer) product of sums returns a scalar (operator) of the same value; expand() of a bra returns the bra of the expanded ket.',
  'all kets (any nesting of sums, products, multiples and operator applications), all pairs of kets of one space, every interpretation of the symbols by states and operators',
  'expressions are unboundedly nested and interpretations are a continuum',
  ['src/qnet/algebra/core/abstract_quantum_algebra.py:QuantumPlus._expand', 'src/qnet/algebra/core/abstract_quantum_algebra.py:QuantumAdjoint._expand', 'src/qnet/algebra/core/abstract_quantum_algebra.py:_expand_product', 'src/qnet/algebra/core/state_algebra.py:OperatorTimesKet._expand', 'src/qnet/algebra/core/state_algebra.py:BraKet._expand', 'src/qnet/algebra/core/state_algebra.py:KetBra._expand'])

p('C102', 'expand_in_basis is the operator, projected on the basis',
  'op.expand_in_basis(basis_states) is an operator that denotes P op P with P = sum |i><i| over the given states, hence op itself when they are complete; without basis_states (the basis of the space of op) it denotes op, and raises BasisNotSetError exactly when a local factor has no basis; hermitian=True gives the same operator if op is Hermitian.',
  'all operators, all lists of kets of one space that contains that of the operator (also incomplete, not orthogonal, repeated), all spaces that are products of any number of local factors of any dimension, every interpretation of the symbols',
  'the number of factors, their dimensions, the operators and the interpretations are unbounded',
  ['src/qnet/algebra/core/operator_algebra.py:Operator.expand_in_basis', 'src/qnet/algebra/core/hilbert_space_algebra.py:LocalSpace.basis_states', 'src/qnet/algebra/core/hilbert_space_algebra.py:ProductSpace.basis_states', 'src/qnet/algebra/core/hilbert_space_algebra.py:TrivialSpace'])

p('C103', 'LaTeX of labels, operators and states is well-formed',
  'latex() of labels, of Hilbert-space labels, of operator and superoperator symbols and of kets, bras, inner and outer products is complete LaTeX: all commands are known and have their arguments, braces and \\left and \\right match, no symbol has two superscripts or subscripts, text mode has no scripts and no math symbols; operators show the letter, then the subscript, the label of the space and the dagger, each exactly once, and names that have been translated to symbols are not translated again.',
  'all labels and identifiers of any length over the characters that the classes accept, all numbers of local factors, all settings of show_hs_label and tex_use_braket',
  'the set of labels and the number of factors are unbounded, and errors depend on how a name and its neighbours interact',
  ['src/qnet/printing/latexprinter.py:QnetLatexPrinter._render_op', 'src/qnet/printing/latexprinter.py:QnetLatexPrinter._braket_fmt', 'src/qnet/printing/latexprinter.py:QnetLatexPrinter._render_str', 'src/qnet/printing/latexprinter.py:render_latex_sub_super', 'src/qnet/printing/latexprinter.py:_translate_symbols', 'src/qnet/printing/asciiprinter.py:QnetAsciiPrinter._split_op', 'src/qnet/printing/asciiprinter.py:QnetAsciiPrinter._print_TensorKet'])

p('C104', 'LaTeX of whole expressions is well-formed',
  'latex() of sums, products, tensor products, scalar multiples, commutators, traces, adjoints, indexed sums, operators applied to states, superoperators, derivatives and of circuits (components, series, concatenations, feedback, inverses) is complete LaTeX when the symbols, states and scalars in it are: all commands are known and have their arguments, braces and \\\\left/\\\\right match, and no symbol has two superscripts or subscripts; this holds wherever parentheses are put and also if a term begins with a minus sign. No symbol, scalar, index, limit or label is lost, they are in the order of the operands, and neighbouring identities of a concatenation are counted.',
  'all expressions of any depth and any number of operands, ranges and arguments; all texts of symbols and scalars that are complete',
  'depth and breadth of expressions are unbounded, and errors depend on which text follows which',
  ['src/qnet/printing/latexprinter.py:QnetLatexPrinter._print_Commutator', 'src/qnet/printing/latexprinter.py:QnetLatexPrinter._print_OperatorTrace', 'src/qnet/printing/latexprinter.py:QnetLatexPrinter._print_Feedback', 'src/qnet/printing/latexprinter.py:QnetLatexPrinter._print_SeriesInverse', 'src/qnet/printing/latexprinter.py:QnetLatexPrinter._print_SuperOperatorTimesOperator', 'src/qnet/printing/latexprinter.py:QnetLatexPrinter._print_QuantumDerivative', 'src/qnet/printing/asciiprinter.py:QnetAsciiPrinter._print_QuantumPlus', 'src/qnet/printing/asciiprinter.py:QnetAsciiPrinter._print_ScalarTimesQuantumExpression', 'src/qnet/printing/asciiprinter.py:QnetAsciiPrinter._print_IndexedSum', 'src/qnet/printing/asciiprinter.py:QnetAsciiPrinter._print_Concatenation', 'src/qnet/printing/asciiprinter.py:QnetAsciiPrinter._print_Adjoint', 'src/qnet/printing/asciiprinter.py:QnetAsciiPrinter._print_PseudoInverse'])

p('C105', 'The flat API exports the public objects of all modules',
  'After import, every package has its submodules as attributes, and its __all__ lists exactly its own public names and those of all its (public, included, not excluded) submodules at every depth; each denotes the very object it denotes in the module that defines it. __all__ is sorted and without repetitions. If a name would denote two different objects the import raises ImportError, otherwise it succeeds.',
  'all trees of packages and modules of any depth and size, all attributes and __all__ lists, all settings of include, exclude, include_private_modules and recursive',
  'the result depends on the order of all modules and on what each of them already contains; tests see one package tree',
  ['src/qnet/_flat_api_tools.py:_import_submodules', 'src/qnet/__init__.py:__all__'])

p('C106', 'Real and imaginary parts and conjugates of matrices',
  'M.real, M.imag and M.conjugate() have the shape of M and hold the real parts, the imaginary parts and the conjugates of the entries, M = M.real + I*M.imag; NoConjugateMatrix is raised if and only if an entry has no conjugate.',
  'all matrices of any shape, all entries (Python numbers, scalars of QNET, SymPy expressions, objects that only have a conjugate, operators)',
  'shapes and values are unbounded; the three ways to get a part of an entry are taken depending on its attributes',
  ['src/qnet/algebra/core/matrix_algebra.py:Matrix.real', 'src/qnet/algebra/core/matrix_algebra.py:Matrix.imag', 'src/qnet/algebra/core/matrix_algebra.py:Matrix.conjugate'])

p('C107', 'Comparisons of scalars, powers of numbers',
  'For scalars that wrap numbers (ScalarValue, Zero, One) and Python numbers in any combination, x < y, x <= y, x > y and x >= y give the comparison of the real numbers and raise TypeError for anything else (complex numbers, other scalars), and x ** y denotes the power of the numbers, raising ZeroDivisionError if and only if that does not exist. 0 ** y and 1 ** y for another scalar y are powers of its value.',
  'all pairs of operands (numbers, ScalarValue, Zero, One, other scalars), all values, every linearly ordered set of numbers, every valuation of the other scalars',
  'values are unbounded, and the result depends on the dispatch between the methods of both operands and of Python numbers',
  ['src/qnet/algebra/core/scalar_algebra.py:ScalarValue', 'src/qnet/algebra/core/scalar_algebra.py:Zero', 'src/qnet/algebra/core/scalar_algebra.py:One', 'src/qnet/algebra/core/scalar_algebra.py:Scalar', 'src/qnet/algebra/core/abstract_quantum_algebra.py:QuantumExpression'])

p('C108', 'Coefficients of sums and products of operators',
  'get_coeffs(expr, epsilon) returns every term of a sum once; the terms times their coefficients add up to the operator, up to terms with a coefficient smaller than epsilon (none for epsilon = 0); looking up another term gives 0. The simplification factor_coeff splits a product in a coefficient and factors with the same value and keeps the keyword arguments.',
  'all operators (sums of any length, any coefficients, numbers as operands), all thresholds, every interpretation of the operators in an algebra',
  'sums and products are unbounded, coefficients are a continuum or symbolic',
  ['src/qnet/algebra/core/operator_algebra.py:get_coeffs', 'src/qnet/algebra/core/operator_algebra.py:_coeff_term', 'src/qnet/algebra/core/operator_algebra.py:factor_coeff'])

def fix_anchor(a):
    while a.startswith('src/qnet/src/qnet/'):
        a = a[len('src/qnet/'):]
    if a.startswith('src/qnet/_rules.py'):
        a = 'src/qnet/algebra/' + a[len('src/qnet/'):]
    if a.startswith('src/qnet/core/'):
        a = 'src/qnet/algebra/' + a[len('src/qnet/'):]
    return a


here = os.path.dirname(os.path.abspath(__file__))
with open(os.path.join(here, '..', 'properties.jsonl'), 'w') as f:
    for q in P:
        q['anchors'] = [fix_anchor(a) for a in q['anchors']]
        f.write(json.dumps(q) + '\n')
print(len(P))
