# Formal model of QNET in Lean 4 — design

Source modelled: `/repo/src/qnet` (read as text; never run). Model: `lean/Verif/`.

## Conventions

* One Lean module (or a `Model` / `Spec` / `Lemmas` / `Theorems` group) per part of the code base.
  `Verif/<Part>/Model.lean` holds only definitions, each with a docstring citing file and lines.
  `Verif/<Part>/Thm.lean` holds the property theorems (named after the property ids, see
  `MANIFEST.json`), each followed by an `example` that shows non-vacuity. Helper lemmas are in
  `Verif/<Part>/Lemmas.lean`.
* Python exceptions are values: functions that may raise return `Except Err α` (or `Option`) and the
  failing branches are part of the model.  `assert` statements of the code are modelled as an error
  `assertion`, and theorems prove they do not fire where that is the claim.
* Python `tuple`/`list` = `List`; non-negative `int` = `Nat`; sets of spaces = sorted duplicate-free
  lists as in the code.
* `while` loops become structural or fuelled recursion; where fuel is used a theorem shows that the fuel
  supplied is sufficient (so the fuel is not an observable).
* A property that is *false* of the code is kept in `properties.jsonl`; the negation is proved with a
  concrete witness (`..._refuted`) and the part that holds is proved as `..._partial`.

## Trusted base

* Lean's kernel (4.33.0) and, for theorems that use Mathlib, the definitions of the Mathlib notions used
  in the *statements* (`Matrix`, `StarRing`, `List.Perm`, ...). 
* Axioms: at most `propext`, `Classical.choice`, `Quot.sound` (checked with `#print axioms`).
  No axioms are declared; no `native_decide`/`bv_decide`.
* The correspondence between the Python code and the Lean definitions: by reading only (code is not run).

## Not modelled at all

Printing back-ends, visualization, QuTiP/SymPy matrix conversion, SymPy itself (scalars are elements
of an abstract ring/field or of concrete number types), numpy dtype behaviour, Python memory/identity semantics apart
from the instance caches, floating point.

## Plan per property

| id | model | proof |
|----|-------|-------|
| C01–C07 | `Perm`: function-by-function model of `utils/permutations.py` on `List Nat` | lists/induction, loop invariants for the cycle loop |
| C08–C12 | `CPerm`: permutation circuits on top of `Perm`; matrices via `permutation_matrix` | algebra of permutations |
| C13–C16 | `SLH`: S, L, H over an arbitrary *-ring (Mathlib `Matrix`) | matrix algebra, Schur-complement argument for feedback |
| C17–C18 | `Circuit`: expression trees, `create` functions with the rewrite rules of `_rules.py`, denotation into SLH | structural/fuel induction, rule by rule |
| C19 | `Engine`: `assoc`, `filter_neutral`, `match_replace_binary` for an abstract operand type | strong induction on list length |
| C20–C22 | `Pattern`: expression trees, patterns, the matcher with its modes | structural induction, declarative matching relation as spec |
| C23–C24, C45 | `Cache`: state machine of class rules and instance caches, `create`, context managers as programs with exceptions | invariants over all histories |
| C25–C27 | `Hilbert` | sorted lists / finite sets |
| C28, C44 | `Ordering`: comparison classes and Python's sort | refutation by witness + partial theorem |
| C29–C31 | `QAlg`: collection, expansion, Cauchy product | sums over lists in modules |
| C32–C34, C47 | `Indexed`: index ranges, `yield_from_ranges`, `doit`, products, Kronecker | list sums |
| C35 | `Scalar` | case analysis over the operand classes |
| C36 | `Commutator` | ring identities, induction over factors |
| C37–C38 | `Fock`, `Spin` representation | action on sequences ℕ → ℂ resp. `Fin (n+1) → ℝ`, pointwise identities |
| C39–C40 | `Super` | non-commutative ring identities |
| C41 | `Eq` history | state machine |
| C42–C43 | `Rewrite`: `_apply_rules` stack machine, `substitute` | simulation of recursion by the stack |
| C46 | `Connect` | induction over connection list |
| C48 | `Trace` | refutation by witness + partial theorem |
| C49–C51 | `Perm`, `CPerm` | as C01–C12 |
| C52–C53 | `QAlg/Diff`: product rule, expansion and differentiation | structural induction, derivations |
| C54–C56 | `SLH/Dynamics`, `SLH/Drive`: Liouvillian and Heisenberg form, `move_drive_to_H`, coherent inputs, library components | *-algebra identities |
| C57 | `Engine/Term`, `QAlg/Term`: number of rewriting steps | well-founded measures on words of symbols |
| C58–C60 | `State`: kets, bras, operators, `create` of all product classes with all rules | denotation in finite-dimensional spaces; refutations for every recursion depth |
| C61–C63 | `Mat`: shape + entry function, numpy slicing and broadcasting | comparison with Mathlib matrices |
| C64–C66 | `Convert`: `to_qutip.py`, `to_sympy_matrix.py`; a Qobj or SymPy matrix is a shape with entries; library functions (create, jmat, basis, tensor, …) modelled after their documentation | `Represents`: entries at mixed-radix indices = matrix elements on the product of all local spaces; induction on the conversion; SLH: same dissipator for every density matrix |
| C67–C68 | `Adiabatic`: `prepare_adiabatic_limit`, `eval_adiabatic_limit` over any *-algebra with polynomials in `k`; `try_adiabatic_elimination` on matrices | second-order perturbation theory on the null space; dissipative generators generate contractions in a C*-algebra; Trotter–Kurtz argument for the convergence of all coherent matrix elements of the evolution |
| C69 | `Linear`: `getABCD` on the expressions of `QAlg`, coefficients by `get_coeffs`; equations of motion by their value in any *-algebra with modes and noises satisfying the CCR | coefficient extraction = value for linear expressions; realizability from the commutators with a quadratic Hamiltonian; the hypotheses are met in a Fock representation on countably many modes |
| C70 | `Network`: diagrams as a relation `Net` between input fields, output fields and driven components; equation of motion as an ordered expression in the input fields | induction over the expression, from one law per connection (series, concatenation, feedback, inverse); elimination of the connected ports for `connect` |
| C71 | `Print/Lex`, `Print/Py` (specification: lexer, parser of Python expressions, round trip of tokens), `Print/Srepr` (both printers with the shared cache, `textwrap.indent`/`dedent`, `_print_level` as state; `eval`). Floats and complex numbers are not modelled; SymPy's own `srepr` is an assumption (`leaf`) | `Print/SreprThm`, `Print/SreprInd`: mutual induction over objects: the tokens without white space are those of a Python expression whose value is equivalent to the object; `Print/Roundtrip`, `Print/Line`: totality, identity, single line, counterexamples |
| C72 | `Print/Kwargs`: the constructors of the classes whose `kwargs` are computed, and the re-instantiation | sorting and `dict` are idempotent; `SpinSpace` loses custom labels (refuted for the example of its documentation; characterised by an equivalence). |
| C73 | `Ascii/Read`: tokens, a recursive-descent reader with the usual rules, values in a ring with involution (independent of the printer); `Ascii/Print`: the printer with its precedence table | a grammar with values: the reader accepts exactly what the grammar builds; the printed text is in the grammar by mutual induction, unless a part has an excluded shape; each excluded shape is refuted by a 2x2-matrix witness. |
| C74 | `Print/Config`: the attributes the printing system consists of, `init_printing` with its error exits, the freeze dictionary, the restoring loop, programs of nested blocks | invariant: changes inside a block stay within the remembered attributes (`Near`), so the final loop restores all; mutual induction over programs. Refuted on first use, after a rejected configuration, with `reset`, for new printer classes and for SymPy's own printing. |
| C75 | `Print/Dot`: the queue of `dotprint` with its per-level counters and `maxdepth` | invariant of breadth-first traversal: the queue is the rest of one level followed by the beginning of the next; the numbering is the index in the level. Refuted with `repeat=False` and `maxdepth` (one node name, two descriptions). |
| C76 | `Print/TreePrint`: the recursion of `print_tree` with paddings, options, and the join of the lines | lines = map over the positions in lexicographic order of an independent description of a line; a scanner recovers depth and text, and the depth sequence determines the tree by induction. |
| C77 | `Visual/Pic`: `draw_circuit_canvas` with exact coordinates, strokes as pairs of end points, boxes; specification: the connection relation of a circuit expression, compositional, over positions | `Visual/{Join,Parts,Comp,Loop,C77}`: invariant (strokes and boxes inside the frame, tails left of the right edge, heads right of the left edge, boundary points are ports, reachability = connection relation) for wires, boxes, side by side, stacks, loops; induction over expressions. |
| C78 | `Circuit/Model` (the recursion limit is a parameter) | `Circuit/TermEngine`: termination of the engine `match_replace_binary` for every rule set that replaces two operands by a list that is smaller in a well-founded order which is compatible with the context. `Circuit/TermPerm` … `Circuit/TermStep4`: the order for circuits (number of components, positions of the components weighted against the permutations, rank of the permutations); induction on the number of channels and the order proves that `Concatenation.create` and `SeriesProduct.create` converge (`all_conv`); `Circuit/TermAll`: `C78_terminates_partial` for all feedback-free expressions. Monotonicity in the recursion limit in `Circuit/Mono`. `Circuit/Loop`: a feedback expression that is rewritten for ever (two forms that are the double inverse of each other). |
| C79 | `PyEq/Model` (objects, the `__eq__`, `__ne__`, `__hash__` methods of all classes, Python's dispatch of `==` and `!=`) | `PyEq/C79`: `==` is computed by a structural recursion; induction on expressions (reflexive, transitive, sound for every meaning in a monoid, equality of canonical forms for objects of the same kind); three counterexamples. |
| C80 | `Liouv/Model` (summands of the expanded super-operator, collapse form, sorting, numerical and symbolic branches) | `Liouv/C80`: invariant of the loop over the summands; the result differs from the input by right multiplication with the operator that the code tests; trace argument for matrices of any size; commutant of the matrix algebra for Hermiticity; counterexamples. |
| C81 | `Indexed/Term` (free and bound symbols), `Indexed/Thm81` (`substitute` with SymPy's successive replacement in labels and look-up in ranges) | `Indexed/Thm81`: successive = simultaneous replacement for independent maps; substitution lemma and free symbols of the result by induction on terms; counterexamples for capture, bound symbols, exchange, nested sums. |
| C82 | `Verif/Hilbert/ProdBasis.lean`: `basis_labels`, `basis_states`, `basis_state`, `dimension` of all four kinds of spaces, `str.join`/`str.split`, `itertools.product`, negative Python indices | specification `IsBasis` (independent of the functions) proved for all local and product spaces with usable labels by induction over the factors (mixed-radix position); refuted for negative numbers, commas, repeated labels, labels that kets refuse, error types |
| C83 | `Verif/Cache/AddRule.lean`: `_rules_attr`, `check_rules_dict` for one rule, `add_rule`, `del_rules`, `rules` on the heap of class attributes of C24; histories of `create` calls (model of C23) with changes of the rules | exact success condition, effect, frame, exceptions; the loop of deletions by induction; entries of the cache are never replaced (mutual induction on runs), so old results persist; refuted: atomicity of a failed deletion, inherited dictionaries, immediate effect |
| C84 | `Verif/Ascii/Circuit.lean`: `_print_*` for circuits as sequences of pieces and as characters; a recursive-descent reader with a tight and a loose sign; meanings: any associative series and concatenation, instance with physical SLH triples | texts are chains of atoms (induction on the expression, associativity for nested operands, counting of pending identities); the reader on chains by induction; refuted on the level of characters: names like `Perm`, `cid`, `A_b(x)`, and the number of channels |
| C85 | `Verif/QAlg/Arith.lean`: the methods `__add__` … `__pow__` with `NotImplemented` and Python's reflected calls, operands operator / number / foreign object, on the operators of `Verif/QAlg` | value from soundness of the simplification (C29, C30), success from its termination (C57); refutations: negative exponents and whole `float` exponents raise `TypeError` |
| C86 | `Verif/Scalar/Div.lean`, `Total.lean`: `/`, `//`, `%` of scalars and numbers including the singletons and the reflected methods | value by the value theorem for products and powers (C35); success by a decreasing measure for the rules of products; refutations: `x % One` is `Zero`, `x // 1` of a symbolic scalar never ends |
| C87 | `Verif/Scalar/Root.lean`: scalars with rational exponents over numbers `K` with a meaning in the complex numbers; `ScalarPower.create` with its four rules, `__pow__`, `sqrt`, `conjugate`, `real`, `imag` | values are principal powers (`cpow`); case analysis and mutual induction over the nesting; the code refutes `sqrt(x**2)` (returns `x`) and the conjugate of fractional powers of negative numbers, shown by witnesses |
| C88 | `Verif/Deriv/`: symbols with polynomial arguments, explicit multiples, adjoints and `QuantumDerivative` with orders and evaluation points; `create`, `_diff`, `diff`, `evaluate_at`, `free_symbols`, `adjoint`, `substitute`, `series_expand`; the recursion between them by fuel | a symbol stands for a smooth function of real parameters with values in a normed star space; derivatives are Fréchet/partial derivatives of that function; induction over nesting and order, symmetry of mixed derivatives, Taylor's theorem; the code refutes `substitute` in a derivative, the chain rule for evaluation points, differentiation at Python numbers and `free_symbols` of nested evaluations, shown by witnesses |
| C89 | `Circuit/Model` | `Circuit/TermAll`: C78 (convergence) and C17 (the built circuit denotes the expression) together give total correctness for feedback-free expressions: `C89_total_correctness`. |
| C90 | `Circuit/Stable`: `Expression.substitute` on circuits | the results of the rewriting engine are chains to which no rule applies (`Circuit/TermEngine`), and the engine returns such chains unchanged (`chain_reduce`); induction over the circuit. Refuted for products that keep a multi-channel identity. |
| C91 | `Circuit/Stable` | soundness of `substitute` in an arbitrary circuit algebra with changed values of the components (`substitute_sound`), together with `opsAt_sound` (C17); totality from C89. |
| C92 | `Osc/Coherent`: `to_fock_representation` (with `max_terms` and dimension) and `_diff` of `CoherentStateKet`, on the Bargmann-Fock space of C37 | the coefficients characterise the normalised eigenvector (recursion, exponential series); truncation by Parseval; derivative of the components compared with the code's ket: equal iff conj(u) u' is real, refuted for exp(is) |
| C93 | `Spin/Pauli`: `pauli_matrices.py`, levels through the basis model of C27 | relations in every *-algebra with matrix units; success conditions; refuted for equal states |
| C94 | `SLH/Splitter`: library components of C56 in series and concatenation | polar decomposition of a unitary 2x2 matrix |
| C95 | `Deriv/Mixed`: four mutually recursive kinds of expressions, `diff`, values in a complex Hilbert space | mutual induction with the product rules of Mathlib |
| C96 | `SympyPrint/Derat`: the loop over the factors of a product | invariants of the loop before and after the first rational |
| C97 | `SympyPrint/UniSub`: the tables, `_translate_symbols`, `render_unicode_sub_super` on lists of characters | a reader that inverts the rendering; the tables are checked entry by entry |
| C98 | `PlusMinus/*`: expressions with `OperatorPlusMinusCC`, the sum constructor with the rules PM1-PM3, `rebuild`, `doit` | the reduction engine of C19 with values in the additive group; mutual induction |
| C99 | `Indexed/Pow` | the loop of `ScalarIndexedSum.__pow__` with the renaming of indices of C34; induction over the exponent with an invariant on the index symbols and free symbols; a power of a power always raises ValueError (refutation for all exponents) |
| C100 | `Scalar/Calc` | the recursive functions over the scalar expressions of C35, values in a field with a derivation or in its power series; structural induction with the soundness of sums, products and powers of C35; witnesses for powers of sums (not expanded), negative powers (no series) and exponents that depend on the symbol (wrong derivative) |
| C101 | `State/Expand` | on top of the kets of C58; the sums (of kets, scalars, operators) and the expansion of scalars and operators are parameters with the contract that C29, C30 and C100 prove; induction over the recursion limit, with the invariant 'well-formed, of the space of the ket, and of its value'; witness for bras |
| C102 | `State/InBasis` | on top of the kets of C58: each term is `|i><i| A |j><j|`, the double loop sums to `P A P`; completeness of the basis of a product space by induction over the local factors; sums of operators and the expansion of scalars are parameters with the contracts of C29 and C100; witness that `hermitian=True` needs a Hermitian operator |
| C103 | `SympyPrint/LatexModel`, `LatexThm`, `Latex`, `LatexOp`, `LatexC103` | characters; specification: an automaton that reads LaTeX (groups, `\left…\right`, pending arguments and scripts, text mode); `Txt`/`Nuc`: texts that can be read in math mode in any context, closed under what the printer does; translation is idempotent because every character that joins pieces is not a letter; witnesses for what is not complete |
| C104 | `SympyPrint/LatexWhole`, `LatexEx`, `LatexC104`, `LatexContent`, `LatexDeriv` | expression trees whose symbols are texts and whose parentheses are parameters; the reader of C103; `whole` (valid after a symbol that already has both scripts) is equivalent to `Txt` (readable in every context) by a simulation; induction on the tree with the invariant that the text and, if it begins with a minus sign, the rest of it are readable everywhere; separately: the symbols, scalars, indices and labels of the expression, in reading order, are a subsequence of the text; witness: pseudo-inverses of symbols. Not modelled: matrices, permutations, equations |
| C105 | `Flat/Model`, `Flat/Thm` | modules as trees with attribute maps and `__all__` lists; specification: `Pub`, the public names of a module and its submodules; induction on the tree with an invariant for the loop over submodules and one for the loop over names; witnesses for the three conditions (names of submodules, objects imported by `__init__`, `exclude`) |
| C106 | `Mat/Parts` | entries by value and by the attributes the code looks at, `element_wise` with exceptions; entrywise equations over the complex numbers; witness: the fallback of `imag` has the wrong sign |
| C107 | `Scalar/Compare` | Python's dispatch for comparison and power methods over a linearly ordered set of numbers with complex numbers; comparison and power agree with the numbers, exact error conditions; witness: 0 ** y = 0 for a scalar y of value 0 |
| C108 | `QAlg/Coeffs` | dictionaries as lists in insertion order with structural equality of the keys, coefficients in a commutative ring with a partial absolute value; values in an algebra; witness: factor_coeff returns the coefficients in place of the keyword arguments |

## Modelling decisions that limit the theorems

* **Recursion.** Python functions that call each other through `create` are modelled with a recursion budget (`fuel`), exceeding it is
  `Err.recursion`. Value theorems hold for every budget; that a budget suffices is a separate claim (C57, C60).
* **Symbols.** Symbolic atoms are interpreted by arbitrary elements of the algebra under consideration (rings, *-algebras over ℂ,
  matrices over a commutative *-ring, entire functions for oscillator modes); theorems quantify over all interpretations.
* **SymPy.** Scalars are elements of a field or commutative ring with decidable equality; SymPy's own simplification is not modelled.
* **`SLH.ofPC`** converts every permutation circuit; the code's `CircuitZero.toSLH()` raises `ValueError` (recorded as
  `C56_refuted_circuit_zero`).
* **State algebra.** `Mk.Sound` collects what the state model assumes of operator, scalar and sum construction (value preservation, proved
  separately for the operator algebra in C29, C30 and C35); the *checked* evaluation refuses the reorderings that
  `act_locally_times_tensor` performs without justification and is shown to agree with the code wherever it succeeds.
* **Simplifications** of individual functions are stated in the comment of each definition.

The axioms used by every theorem are listed in `AXIOMS.md` (at most `propext`, `Classical.choice`, `Quot.sound`).

<!-- generated below -->

## Results

| id | property | status | remarks (what is missing, what is refuted) |
|---|---|---|---|
| C01 | check_permutation accepts exactly the bijections | proved |  |
| C02 | invert_permutation is the two-sided group inverse | proved |  |
| C03 | permute/compose_permutations: action law and exact error behaviour | partial | Proved for all lists, tuples and other sequences (C03_sequence_partial and the C03_permute theorems) and for composition. False for strings: str(generator) gives the text of a generator object (C03_refuted_str). |
| C04 | Disjoint-cycle decomposition is total, in normal form, and round-trips | proved |  |
| C05 | Block decomposition of a permutation is a round trip into indecomposable blocks | proved |  |
| C06 | full_block_perm moves whole blocks and is a valid permutation | proved |  |
| C07 | block_perm_and_perms_within_blocks factorises a permutation | proved |  |
| C08 | Permutation circuits form the permutation group under series composition | proved |  |
| C09 | map_channels / pad_with_identity build the documented channel maps | proved |  |
| C10 | Feedback of a permutation circuit closes exactly one loop | proved | C10_isolated_loop proves that on an isolated loop the permutation feedback drops the loop while SLH feedback raises AlgebraError. |
| C100 | expand, diff and series_expand of scalars | partial | expand, diff and series_expand preserve, differentiate and expand the value of every scalar on which they return (C100_expand, C100_diff_partial, C100_series_partial); expand multiplies out all products of sums if powers are powers of symbols (C100_expanded_partial). The full claim is refuted by the code: powers of sums are not expanded, series_expand raises ValueError for every negative power, and diff ignores the dependence of an exponent on the symbol (C100_refuted_*, exact error in C100_exponent_error). Derivatives and series of symbols and of SymPy values are parameters of the model. |
| C101 | expand() of kets, bras, inner and outer products | partial | Proved, for every ket and interpretation: whatever expand() returns denotes the same state on the same space, and expansions of inner and outer products have the same value; sums of kets and the expansion of scalars and operators are parameters with the contracts of C29, C30, C100. The claim is false for bras: Bra(\|0> + \|1>).expand() raises AttributeError (C101_refuted_bra; the code calls adjoin instead of adjoint). Missing: that expand() always returns (it needs not, C60), that no product of sums is left, indexed sums; products of operators that simplify to a smaller space (C58_refuted). |
| C102 | expand_in_basis is the operator, projected on the basis | partial | proved for every call that returns, all lists of kets, all dimensions: the value is P A P, hence A in a complete basis, and the default basis is complete; BasisNotSetError when a factor has no basis. Missing: that the call returns (C60 shows products of kets that loop), and the products are those of C58, with its condition Safe (C58_refuted). The c.c. term is represented by the sum X + X.adjoint() (C98). C102_not_hermitian: hermitian=True on another operator changes it, as documented |
| C103 | LaTeX of labels, operators and states is well-formed | partial | Proved for all labels over the accepted characters (not beginning with an underscore), for all spaces, all states and products, and for all operators whose name is letters and digits, is not letters followed by digits, and is not one of the few symbols outside the single letters; products of basis states if the labels are joined by commas or are single letters or digits. The full claim is refuted by the code, with proved witnesses: A1 prints a subscript in text mode, varsigma and hbar print math in text mode, basis labels up and g print the unknown command uparrowg, inner products with the braket package print an unbraced superscript. Symbolic labels, arguments and spin fractions are not modelled. |
| C104 | LaTeX of whole expressions is well-formed | partial | Proved for all expressions except pseudo-inverses of operands without parentheses, which the code prints with two superscripts (C104_refuted_pinv), and derivatives of higher order by symbols that have a superscript (C104_refuted_derivative). Where parentheses are put is a parameter; the texts of symbols, states and scalars are hypotheses (C103). Not modelled: matrices, permutations, equations. |
| C105 | The flat API exports the public objects of all modules | partial | Proved for all trees in which names in __all__ exist, public names are not names of submodules, and what an __init__ imports from its submodules is listed in its __all__ (the first and the last are refuted otherwise: a submodule silently replaces an object, names are not passed on). C105_submodules needs no such condition. exclude, include and include_private_modules are not passed on to subpackages (C105_refuted_exclude); the specification follows the code in this. |
| C106 | Real and imaginary parts and conjugates of matrices | partial | Proved for all matrices, except that for entries that have only a conjugate (no imag, no as_real_imag) the imaginary part has the wrong sign (C106_refuted_imag). That the attributes real, imag, as_real_imag and conjugate of the entries are right is an assumption (C87 for QNET's scalars). |
| C107 | Comparisons of scalars, powers of numbers | partial | Comparisons and powers of wrapped and unwrapped numbers: complete, with exact error conditions. Refuted by the code: 0 ** y is Zero for every other scalar y, also if its value is 0 (C107_refuted_zero_pow); C107_pow_expr_partial is the part that holds (bases different from 0). Not modelled: SymPy expressions as wrapped values, infinities and NaN. |
| C108 | Coefficients of sums and products of operators | partial | get_coeffs: complete (expand=True is C31, here a parameter). factor_coeff keeps the value, but is refuted for the keyword arguments: if the product of the coefficients is 1, which is always so for factors without coefficients, the tuple of coefficients takes their place and create raises TypeError (C108_refuted_factor). |
| C11 | Extracting the feedback channel from a permutation (factor_rhs / factor_lhs) is exact | proved |  |
| C12 | Moving a permutation around a reducible circuit preserves the circuit | proved |  |
| C13 | The SLH series product is associative with unit, and inverse to series_inverse | proved |  |
| C14 | Concatenation of SLH triples is associative and satisfies the interchange law | proved |  |
| C15 | Circuit composition preserves physical realisability | proved |  |
| C16 | SLH feedback eliminates the fed-back channel consistently | proved |  |
| C17 | Automatic simplification of circuit expressions never changes the circuit | partial | Proved without further hypotheses for all expressions built from symbols, permutations and identities (C17_symbolic). For expressions with SLH literals it is false of the code: C17_refuted_zero_channels gives a witness (feedback leaves a zero-channel SLH whose Hamiltonian is then dropped); C17_slh_partial covers the literals under a side condition. |
| C18 | Channel dimension of a simplified circuit | partial | The channel-number equations are proved for the same class of expressions as C17. The claim that a channel mismatch is always reported is false of the code: C18_refuted_identity (circuit identities are filtered before the check). |
| C19 | Pairwise rewriting of associative operand lists preserves the product | proved |  |
| C20 | Pattern matching is sound and complete | partial | Sound and complete for patterns whose list names are used once and with at most one multi-wildcard per level; excluded: lone zero-or-more wildcard against an expression without arguments (UnboundLocalError, refuted), non-single patterns at both ends (accepted by the constructor, first one ignored: refuted), repeated list names (refuted). |
| C21 | findall and finditer enumerate exactly the matching sub-expressions | proved |  |
| C22 | Wildcard bindings never conflict | proved |  |
| C23 | Instance caching is transparent | partial | Transparent for simplifications that respect == (in particular exactly transparent when keys determine arguments, e.g. circuits without Feedback); refuted for Feedback, whose ports are not part of the instance key. The _create_idempotent branches (False for all classes) are not modelled. |
| C24 | temporary_rules restores rules and caches on exit | partial | Proved for lists of different classes none of which precedes a class derived from it; the contents also if no class outside the list that is operated on shares the object. Refuted otherwise: shared instance cache, class named twice, base class named before derived class. |
| C25 | Tensor products of Hilbert spaces form a commutative idempotent monoid | proved |  |
| C26 | Sub-space relations and set operations on Hilbert spaces agree with sets of local factors | partial | <=, <, isdisjoint and intersect proved; remove is proved as set difference only where the code implements it (C26_remove_partial) and C26_remove_refuted shows a local space minus a product containing it returns the local space. |
| C27 | Basis labels and indices are consistent, next/prev move exactly n steps | partial | Proved for all local spaces and all labels and steps; an existing level whose label KetSymbol does not accept raises ValueError (C27_next_partial, C27_create_zero_partial state this exactly; C27_refuted_label is a witness: basis ('u', '↑')); without explicit labels there is no exception (C27_numbered). Symbolic labels are not modelled. |
| C28 | Automatic ordering of operator products only commutes commuting operators | partial | Proved for operands whose spaces are pairwise equal or disjoint (in particular all local operators) and for two factors; C28_refuted: x2*y1*z12*w1 is reordered with w1 in front of z12, changing the value. |
| C29 | Collecting summands preserves the sum and leaves distinct terms | partial | Value preservation, order independence and (for summands that are not scalar multiples of sums) distinct terms with non-zero total coefficients are proved; the distinctness claim is refuted for scalar multiples of sums: 2*(A+B) - 3*(A+B) + A leaves a nested sum with A occurring twice. |
| C30 | expand() is value-preserving distribution | partial | Value preservation proved in every algebra; full expansion proved whenever the special binary rules yield no sums, refuted for rules such as a*a^dagger -> 1 + a^dagger*a (C30_refuted_rule). |
| C31 | series_expand returns the truncated power series of products | partial | Proved for sums, products, scalar multiples and abstract Taylor series; refuted for operators applied to states and outer products, whose _series_expand returns (order+1)(order+2)/2 coefficients. |
| C32 | Index ranges enumerate the Cartesian product exactly once | proved | finite ranges, infinite outermost range, membership and lengths of all range classes |
| C33 | Writing out an indexed sum gives the sum of its terms | proved | doit(), doit(indices=...), doit(max_terms=...) and sums over constant terms, for every interpretation; an empty sum gives None (C33_empty_range_refuted) |
| C34 | The product of two indexed sums is the product of their values | partial | proved when the new (primed) names are unused and no free index symbol becomes bound; false otherwise: five refutations of variable capture |
| C35 | Wrapped scalar arithmetic agrees with the arithmetic of the wrapped values | partial | Values, Zero, One, symbols, sums, products, integer powers modelled over an arbitrary field; +, *, unary -, ** and mixed arithmetic with numbers proved. Missing/refuted: One - x returns 1 + x (C35_refuted_one_minus); complex(One) = 1j (C35_refuted_complex); (x+1)-1 not collected (C35_refuted_collect). Fractional powers are not modelled. |
| C36 | Commutator ordering and Leibniz expansion preserve the commutator | proved | Commutator.create with disjunct_hs_zero, commutator_order, all rules (R001-R007) and expand_commutators_leibniz; QX extended with commutators, so C30 (value), C31, C52, C53 cover commutators too. |
| C37 | Harmonic-oscillator and projector rewrite rules are identities of operators | partial | Rules R005, R009-R021 for one oscillator mode proved as operator identities on the Bargmann-Fock space of entire functions, for all levels and parameters (C37_products), with ket rules (C37_kets_partial, real phases; refuted for complex phases), \|a><b\| and adjoints. For spaces of finite dimension: matrices of any size satisfy the rules except a a^dagger (C37_truncated_partial), which is refuted (C37_refuted_truncated). Missing: Squeeze, whose rules are only R001, and symbolic indices. |
| C38 | Angular-momentum rewrite rules and coefficients satisfy the su(2) relations | partial | For every spin, the rules R005, R022-R030 and R009-R011 and the coefficient functions are those of the spin matrices, which satisfy the su(2) relations (C38_su2, C38_products, C38_kets, C38_top, C38_bottom, C38_adjoint); SpinBasisKet selects the right level. Refuted for symbolic labels (wrong Jz coefficient), labels given as strings to Jzjmcoeff/Jmjmcoeff (AttributeError), custom labels after rebuild. |
| C39 | liouvillian(H, Ls) generates trace- and Hermiticity-preserving dynamics, and SLH composition leaves it consistent | proved | Model of liouvillian/lindblad/commutator/anti_commutator; proved for every *-algebra: action, apply, trace, adjoints, isometric mixing, shift invariance; commutator(A, 0) refuted. |
| C40 | Super-operator rewriting preserves the action on operators | partial | create/apply preserve the action; super-adjoint proved whenever adjoint() returns; refuted: ScalarTimesSuperOperator has no adjoint (C40_refuted_adjoint), ordering can move SPre past a non-commuting symbol (C40_refuted_order), proved for products of SPre/SPost on equal or disjoint spaces (C40_order_partial). |
| C41 | Equation histories record a valid chain of manipulations | proved | Heap model of the shared history lists; refinement to a list-of-lines specification for all sessions. |
| C42 | Rule application by explicit stack equals recursive bottom-up application | proved | stack-based traversal = recursion, for every instantiation and rule function |
| C43 | Substitution replaces simultaneously and respects expressions without occurrences | partial | substitution of maximal keys, rest unchanged, evaluation, no-occurrence; false when create raises AttributeError (refuted, exception swallowed); sympy's own subs and bound indices are not modelled |
| C44 | The ordering keys of expressions give a total preorder usable by sort | proved | Strict weak order on pairwise comparable keys (space keys always are); C44_mixed_intransitive shows the hypothesis is needed. |
| C45 | Instance keys distinguish different constructor calls | partial | Proved for tuple-only arguments and equal numbers of positional arguments, and for sets and dictionaries whose items can be ordered (C45_sets, C45_dicts); refuted for positional/keyword confusion, for lists/dicts versus tuples, and for sets and dictionaries whose items cannot be ordered (sorted_if_possible then returns an empty list, because sorted has used up the iterator). |
| C46 | connect() wires components as specified by the connection list | partial | connect() modelled line by line (references by index/object/label, offsets, both mappings, loop of feedbacks). force_SLH result satisfies an independent wiring specification (unique consistent signals; remaining ports in order; drift row) when outputs are distinct; the simplified circuit has the same triple; invalid references and doubly used inputs raise ValueError. Outputs used twice are NOT rejected: C46_refuted_output_twice. |
| C47 | Sums over Kronecker deltas honour the summation range | partial | exact value of the sum in terms of the simplified one; correct when the solution lies in a range without repetitions; refuted otherwise (the range is ignored by default). The loop over ranges and summands is proved to end, without IndexError, and to keep the value for every elimination step that does (C47_loop, C47_loop_result); the solver and the expansion of sums of deltas (SymPy) are parameters. |
| C48 | Partial traces factor correctly | partial | Proved for every operator, space, dimension and matrix values of the symbols, for all evaluations in which the reorderings are safe (the strict run), and without any such condition for products of operators on single local spaces (C48_local). In general the code does not check this and the claim is false: C48_refuted_order, C48_refuted_rotation. Product, sum, scalar multiple and adjoint constructors are assumed value-preserving; symbolic LocalSigma levels are not modelled. |
| C49 | permutation_to_disjoint_cycles reports malformed tuples as BadPermutationError | partial | False of the code: refuted with the witness (0,0); _partial states the exact behaviour (BadPermutationError only for 1-tuples, TypeError otherwise). |
| C50 | extract_channel moves one channel to the end | proved |  |
| C51 | index_in_block locates a channel inside its block | proved |  |
| C52 | diff() is the derivative | proved | Symbols and scalars enter through their derivatives; QuantumDerivative objects are symbols. |
| C53 | adjoint() of compound expressions is the adjoint of their value | proved |  |
| C54 | The equations of motion of an SLH model are consistent with each other and with the Liouvillian | partial | Proved without noises for all triples; with noises proved for at most one channel or scattering that commutes with X; refuted for operator-valued scattering with two channels: Matrix - X subtracts X from every entry (C54_refuted_gauge). |
| C55 | move_drive_to_H moves exactly the constant parts of the selected coupling operators and keeps the dynamics | partial | Proved for every selection except the empty list, which is treated like None (C55_refuted_empty). expand/simplify_scalar of the result are not modelled (value preserving, C30). |
| C56 | Coherent inputs and library components are physical and compose as expected | partial | Coherent input and components proved; refuted: CircuitZero.toSLH() raises ValueError (C56_refuted_circuit_zero), SLH() accepts a non-square S (C56_refuted_square). |
| C57 | Automatic simplification terminates | proved | sums, scalar multiples, products and commutators; example: ladder operators of any number of modes |
| C58 | Products of kets, bras, operators and scalars denote what they say | partial | Proved for all operands wherever act_locally_times_tensor separates commuting factors only (checked evaluation, which agrees with the code), or if products of operators keep their space; tensor and outer products without reservation. C58_refuted: \|0><0\| X \|1><1\| applied to a product state gives ZeroKet because the code does not check this. |
| C59 | Products of states on unsuitable spaces are refused | partial | Tensor and outer products proved for all states; inner products unless both are multiples of basis states. C59_refuted: <0\|_1 \|0>_2 = 1 instead of UnequalSpaces (rule R003 of BraKet has no space check); KetBra(ZeroKet, ZeroKet) raises UnequalSpaces. |
| C60 | Products of states and operators are evaluated in finitely many steps | partial | False: four Lean witnesses (for every recursion depth): a^+ a^+ \|alpha>, inner/outer products of product states on different spaces, XY on a product state with interlocking spaces, inner products of interlocking product states. Proved for scalar multiples. |
| C61 | The block structure of a matrix is correct and finest | partial | Square matrices: proved, with entry == 0 as the test for zero. Refuted: ZeroOperator entries do not count as zero (C61_zero_operator_refuted), column vectors are cut wrongly (C61_column_refuted). |
| C62 | Matrices of operators form an algebra | partial | Everything proved except refusal of mismatched shapes in sums: numpy broadcasting accepts a column plus a row (C62_add_refuted); what is refused is characterised exactly by C62_add_partial. |
| C63 | Element-wise operations and permutation matrices | partial | Proved; series_expand of an empty matrix returns the empty tuple instead of order+1 matrices (C63_series_expand_empty_refuted). |
| C64 | Converted operators have the matrix elements of the operator | partial | Value theorems for QuTiP and SymPy conversion and totality for a class of expressions. Refuted: adjoints, KetBra, Phase/Displace/Squeeze never converted to QuTiP; spin levels numbered the other way round in QuTiP; mapped symbols not embedded; SymPy Jz and Jplus wrong, ZeroOperator not a matrix. Not modelled: PseudoInverse, NullSpaceProjector, symbolic coefficients. |
| C65 | Converted states are the columns of the state | partial | Kets on their own space: value and totality. Refuted: kets in a larger space, CoherentStateKet, OperatorTimesKet, Bra, BraKet, all super-operators. |
| C66 | Converting an SLH model or a time-dependent operator keeps its dynamics | partial | Value at every time for pyfunc coefficients, same dissipation for SLH models. Refuted: cancelling time dependence is an error; string coefficients corrupt names with the letter I. lambdify and substitution of parameters not modelled. |
| C67 | The adiabatic limit is the limit | proved | Convergence of the evolution for all coherent fields and times in any C*-algebra, under the conditions of the limit theorem of Bouten, van Handel and Silberfarb; the returned model is physical. The relation Y*Ytilde=P0 of the documentation is refuted (must be 1-P0). Not modelled: unbounded operators, symbolic expansion (series_expand is C31). |
| C68 | Automatic adiabatic elimination | partial | Correct for spaces with at most fock_trunc levels if the conditions of the limit theorem hold. Refuted: higher levels are silently ignored; the conditions are not checked (divergent energies, non-unitary S); a non-diagonal Y raises AttributeError. |
| C69 | Linear systems: the ABCD arrays are the dynamics | partial | Exactness (doubled-up, and passive systems without doubling), physical realizability and displacement for all linear systems. Refuted: doubled_up=False silently drops creation operators; without a0 couplings that are not expanded give zero C and c. The equations of motion enter by their value; the result of the code is a one-shot map iterator. |
| C70 | The equations of motion of a circuit are those of its diagram | partial | Existence and uniqueness of the fields, outputs and equation of motion for all circuits (before and after rewriting), for connect, locality and causality. Missing: operator-valued scattering with more than one channel, where symbolic_heisenberg_eom itself is wrong (C54_refuted_gauge); connect with an output used twice (C46_refuted_output_twice). |
| C71 | srepr round trip | partial | Full round trip proved for both formats and all caches, up to every congruence containing ==, and exactly if == is identity. Partial because arrays without rows or (indented) without columns are refuted (C71_refuted_empty_array), and the printer cache confuses objects that are == but not identical (C71_refuted_identical). Floats are not modelled. |
| C72 | Expressions can be rebuilt from args and kwargs | partial | Proved for LocalSpace, Component, QuantumDerivative, OperatorPlusMinusCC; refuted for SpinSpace with custom basis labels (C72_refuted_spinspace), with the exact condition in C72_spinspace_iff_partial. |
| C73 | Printed formulas mean what the expression means | partial | Proved for all expressions without the shapes excluded by Tidy (C73_value_partial, for the text and for the text of the adjoint); each shape is refuted: order of factors in a Bra, ScalarPlus coefficients, scalar sums times identity in an indexed sum, arguments of an adjoint symbol, adjoint of Adjoint(sum), operator sums that begin with a sign, identity in a Bra (TypeError). |
| C74 | configure_printing is temporary | partial | Proved for configurations that are accepted, keep the printer classes and do not reset, after init_printing has been called; refuted otherwise (C74_refuted_first_use, _error, _reset, _class, _sympy). |
| C75 | dotprint draws the expression tree | proved | For repeat=True (the default); with repeat=False and maxdepth one node can get two descriptions (C75_refuted_repeat). |
| C76 | tree printing shows the tree | proved | The first line is not indented by padding, contrary to the documentation (C76_refuted_padding); a line break in a text makes the string ambiguous (C76_refuted_newline). |
| C77 | The drawing shows the circuit | proved | The circuit without channels is not drawn (C77_refuted_zero), and draw_circuit returns True without writing a file for other suffixes (C77_refuted_suffix). |
| C78 | Building a circuit terminates | partial | Proved for all meaningful expressions without feedback, permutations and inverses included (C78_terminates_partial). False with feedback: rule R001 of Feedback alternates between two forms of the same product, so that a well-posed four-channel circuit ends with a RecursionError for every recursion limit (C78_refuted_feedback). |
| C79 | Equality and hash of expressions | partial | Proved: == is reflexive and transitive and sound for all objects (C79_preorder, C79_sound); on objects of the same kind it is equality up to the way numbers are written, symmetric and consistent with the hash (C79_same_kind_partial); comparison with numbers (C79_number); != is the negation of == without NumPy numbers (C79_ne_partial). False in general: c*IdentityOperator == c but not c == c*IdentityOperator (C79_refuted_symmetric), equal objects with different hashes (C79_refuted_hash), NumPy values both == and != (C79_refuted_ne). |
| C80 | liouvillian_normal_form returns an equivalent model | partial | Proved for exactly one operator in the terms SPre(x)*SPost(x.adjoint()) (any rate, any number of other terms): equivalence (C80_test_partial, C80_equivalent_partial), Hermiticity (C80_hermitian_partial), totality (C80_total_partial). False otherwise: no collapse operator (LinAlgError, C80_refuted_hamiltonian), two or more (TypeError from sorted, C80_refuted_two), identity term (C80_refuted_identity), rate that is not visibly real (C80_refuted_symbol), rate One (decay lost because complex(One) is 1j, C80_refuted_one). |
| C81 | Free symbols and substitution | partial | Dependence on free symbols only, unaffected expressions: proved for all expressions. Value and free symbols after substitute: proved for all maps that do not involve bound symbols and whose replacements contain no replaced symbol (C81_substitute_partial). False otherwise: capture (C81_refuted_capture), bound symbols renamed or TypeError (C81_refuted_bound, C81_refuted_bound_value), exchange of two symbols (C81_refuted_swap), bound_symbols misses nested sums (C81_refuted_nested), with the effect that products cannot be written out (C81_refuted_product). QuantumDerivative with evaluation points is not modelled here. |
| C82 | The basis of a Hilbert space is consistent | partial | Proved for all spaces whose labels are distinct, acceptable for kets and (in products) free of commas (C82_product_partial, C82_local_partial, C82_trivial_partial, C82_no_basis). False otherwise: negative numbers (C82_refuted_negative), commas (C82_refuted_comma), repeated labels (C82_refuted_repeated), labels that KetSymbol refuses (C82_refuted_label), TypeError for TrivialSpace labels and numbers of SpinSpace levels (C82_refuted_type). Symbolic labels are not modelled. |
| C83 | add_rule and del_rules change exactly the named rules, and the change takes effect | partial | Success condition, effect, frame and exceptions of add_rule, and the effect of del_rules, are proved. Refuted: a failed del_rules has already deleted the names before the missing one; on a class that inherits its dictionary, del_rules(names) deletes the rules of the base class (del_rules() does not); a new rule has no effect on expressions that are in the instance cache (C83_stale: for every history). |
| C84 | The printed text of a circuit denotes that circuit | partial | Proved for all expressions and both precedences, for texts as sequences of pieces and symbols known by label and arguments. Refuted for characters: the label of a symbol may imitate a permutation, an identity or a symbol with arguments; the number of channels of a symbol is not printed. |
| C85 | Python's arithmetic operators between operators and numbers | partial | Proved: + - * / ** and sum() return the right value for all operators, numbers and natural exponents, and never fail; TypeError for all other operands. Refuted (witnesses proved): negative exponents raise TypeError although the code has a branch for them, as do whole exponents of type float. |
| C86 | Division, floor division and remainder of scalars | partial | Proved: quotients are right and never fail unless the divisor is zero; ZeroDivisionError for zero; // and % of wrapped numbers. Refuted (witnesses proved): x % One is Zero for every x (5/2 % 1 is 1/2); x // 1 of a symbolic scalar recurses without end. |
| C87 | Powers, square roots, conjugates, real and imaginary parts of scalars | partial | Proved: powers are principal values unless a power is raised to a fractional exponent; sqrt(x)**2 has the value of x for every x, and is x itself for symbolic x; principal root; conjugate/real/imag away from fractional powers of negative numbers. The code refutes the rest: sqrt(x**2) is x, conj(sqrt(x)) is sqrt(conj(x)) also for negative x. |
| C88 | Derivatives of operators that depend on parameters | partial | Proved for symbols, their adjoints, explicit multiples and derivatives of these: diff(s, n>=1) denotes the n-th partial derivative whenever s occurs in evaluation points only as such; evaluate_at; symmetry; adjoint; free_symbols (unless an evaluated derivative is differentiated and evaluated again); series_expand with its remainder. The code refutes the rest: substitute in a derivative gives zero, no chain rule for evaluation points 2*s or t+1, AttributeError at Python numbers, an explicit replacement ignores the evaluation, diff(s, 0) is zero, nested evaluation loses free symbols. |
| C89 | Circuits without feedback: construction succeeds and is correct | proved | Total correctness of feedback-free circuit construction (C89_total_correctness), all permutations and inverses included. |
| C90 | A circuit is a fixed point of being built | partial | Proved for all feedback-free circuits in which no series product has an identity as an operand (C90_fixed_point_partial). False otherwise: A << B << B.series_inverse() with two-channel components is SeriesProduct(A, cid(2)), which is different from A and becomes A when made again (C90_refuted_series). Feedback is not covered. |
| C91 | Substitution of components in circuits | proved | C91_substitute (total correctness without feedback), C91_substitute_sound (partial correctness with feedback). |
| C92 | Coherent states | partial | Fock representation proved for all amplitudes and truncations (C92_fock, C92_fock_unique, C92_fock_truncated, C92_fock_limit). diff is wrong: it is the derivative iff conj(u)*u' is real (C92_diff_partial), with the exact error in C92_diff_error and the witness exp(is) in C92_refuted_diff. |
| C93 | Pauli operators on any two levels | partial | Proved for all spaces and two different levels (C93_relations_partial, C93_default_numbered, C93_default_labels, C93_states). Equal states are not refused (C93_refuted_same); on a spin 1/2, PauliZ is -2 Jz (C93_spin_half). |
| C94 | General beam splitters | proved |  |
| C95 | Derivatives of expressions with states and super-operators | partial | Proved whenever diff returns an expression, and it is characterised when it raises (C95_error); refuted for SPre and SPost of operators with the symbol, where it raises a TypeError (C95_refuted_spre). Indexed sums and traces are not included (see C34, C48). |
| C96 | derationalize_denom preserves the value | partial | The identity is proved for products without repeated factors (as sympy builds them), the acceptance condition for all; refuted for unevaluated products that repeat the root (C96_refuted_repeated). |
| C97 | Unicode sub- and superscripts can be read back | partial | Proved for one subscript and one superscript as the printers use it: the text can be read back (C97_read_partial, C97_injective_partial); when rendering raises is characterised exactly (C97_error). Refuted: words like UP or PSI raise KeyError (C97_refuted_upper), Theta is rendered as tau and psi as Psi (C97_refuted_greek), names that contain marks (C97_refuted_mark). |
| C98 | Rewriting with Hermitian conjugates preserves the operator | proved | The constructors of products, multiples and adjoints enter by their value (C30). That not all conjugate pairs of longer sums are found is shown by C98_incomplete; the derivative of OperatorPlusMinusCC (AttributeError in _diff) is not modelled. |
| C99 | Integer powers of an indexed sum of scalars | partial | Proved for sums whose indices have different names that are not used otherwise in the term: value, form and totality for all integers (C99_power_partial, C99_terms_partial). Refuted: a power of a power, (x**m)**n with m, n >= 2, always raises ValueError (C99_refuted_nested); symbols that are primed versions of an index are captured (C99_refuted_primed); exponents of type float raise TypeError (C99_float). |
