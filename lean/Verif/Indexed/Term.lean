import Verif.Indexed.Model

/-!
# Model of indexed sums

Terms are built from symbols with symbolic labels (an `OperatorSymbol`, `KetSymbol`, ... whose label contains index symbols), scalar
prefactors, Kronecker deltas, sums, products and indexed sums. Simplifications: the simplification of sums and products is left out (they are
kept as they are), as well as arithmetic in labels.
-/

namespace QNET.Indexed

/-- a label: an index symbol or a value -/
inductive Ix where
  | sym (s : Sym)
  | val (v : Val)
  deriving DecidableEq, Repr

/-- terms -/
inductive Term where
  /-- a symbol with labels -/
  | fn (f : ℕ) (xs : List Ix)
  /-- `ScalarTimesQuantumExpression(coeff, term)`, with a symbolic scalar -/
  | scal (c : ℕ) (xs : List Ix) (t : Term)
  /-- `KroneckerDelta(a, b) * term` -/
  | delta (a b : Ix) (t : Term)
  /-- `r.piecewise_one(x) * term` (`Piecewise` factor) -/
  | pw (r : Range) (x : Ix) (t : Term)
  /-- `n * term` with a natural number -/
  | nmul (n : ℕ) (t : Term)
  | add (a b : Term)
  | mul (a b : Term)
  /-- `IndexedSum(term, *ranges)` -/
  | sum (t : Term) (rs : List Range)
  deriving DecidableEq

/-- a `var_map` from index symbols -/
abbrev VarMap := Sym → Option Ix

/-- the dictionary of an index assignment as a `var_map` -/
def Dict.toMap (d : Dict) : VarMap := fun s => (d.get s).map .val

/-- `label.substitute(var_map)`. Simplification: simultaneous substitution (`sympy` substitutes one after the other, which is the same for values) -/
def Ix.subst (σ : VarMap) : Ix → Ix
  | .sym s => (σ s).getD (.sym s)
  | .val v => .val v

/-- `substitute` of an index range (`indices.py` lines 451-455, 494-498, 537-540): the index symbol is replaced, too, and must be an `IdxSym`
again (validator, line 399: `TypeError`). Simplification: the values of a list are not themselves index symbols. -/
def Range.subst (σ : VarMap) (r : Range) : Res Range :=
  match (σ r.sym).getD (.sym r.sym) with
  | .val _ => .error .typeError
  | .sym s =>
    match r with
    | .list _ vs => .ok (.list s vs)
    | .range _ a b st => .ok (.range s a b st)
    | .fock _ d => .ok (.fock s d)

/-- `IndexedSum.__init__` (`indexed_operations.py`, lines 20-34): the index symbols must be distinct -/
def mkSum (t : Term) (rs : List Range) : Res Term := if (rs.map Range.sym).Nodup then .ok (.sum t rs) else .error .valueError

/-- `[substitute(r, var_map) for r in ranges]` -/
def substRanges (σ : VarMap) (rs : List Range) : Res (List Range) := rs.mapM (Range.subst σ)

/-- `term.substitute(var_map)`, `abstract_algebra.py` lines 387-419, for maps from index symbols. Simplification: an indexed sum is
instantiated without simplification. -/
def Term.subst (σ : VarMap) : Term → Res Term
  | .fn f xs => .ok (.fn f (xs.map (Ix.subst σ)))
  | .scal c xs t => (t.subst σ).map (.scal c (xs.map (Ix.subst σ)))
  | .delta a b t => (t.subst σ).map (.delta (a.subst σ) (b.subst σ))
  | .pw r x t => (t.subst σ).map (.pw r (x.subst σ))
  | .nmul n t => (t.subst σ).map (.nmul n)
  | .add a b => do .ok (.add (← a.subst σ) (← b.subst σ))
  | .mul a b => do .ok (.mul (← a.subst σ) (← b.subst σ))
  | .sum t rs => do
    let t' ← t.subst σ
    let rs' ← substRanges σ rs
    mkSum t' rs'

/-- the symbols of a label -/
def Ix.syms : Ix → List Sym
  | .sym s => [s]
  | .val _ => []

/-- `free_symbols` (index symbols only); lines 64-69 for indexed sums -/
def Term.free : Term → List Sym
  | .fn _ xs => xs.flatMap Ix.syms
  | .scal _ xs t => xs.flatMap Ix.syms ++ t.free
  | .delta a b t => a.syms ++ b.syms ++ t.free
  | .pw _ x t => x.syms ++ t.free
  | .nmul _ t => t.free
  | .add a b => a.free ++ b.free
  | .mul a b => a.free ++ b.free
  | .sum t rs => t.free.filter (fun s => s ∉ rs.map Range.sym)

/-- all bound symbols, also those of nested sums (specification; the code has `boundSymbols`) -/
def Term.bound : Term → List Sym
  | .fn _ _ => []
  | .scal _ _ t => t.bound
  | .delta _ _ t => t.bound
  | .pw _ _ t => t.bound
  | .nmul _ t => t.bound
  | .add a b => a.bound ++ b.bound
  | .mul a b => a.bound ++ b.bound
  | .sum t rs => t.bound ++ rs.map Range.sym

/-- `bound_symbols`: `abstract_algebra.py` lines 641-652, and `indexed_operations.py` lines 55-61 for indexed sums (the bound symbols of the term are not included) -/
def Term.boundSymbols : Term → List Sym
  | .fn _ _ => []
  | .scal _ _ t => t.boundSymbols
  | .delta _ _ t => t.boundSymbols
  | .pw _ _ t => t.boundSymbols
  | .nmul _ t => t.boundSymbols
  | .add a b => a.boundSymbols ++ b.boundSymbols
  | .mul a b => a.boundSymbols ++ b.boundSymbols
  | .sum _ rs => rs.map Range.sym

/-- `_expand_limit`, line 18 -/
def expandLimit : ℕ := 1000

/-- `res = term` or `res += term`; `None` for no terms -/
def addAll : List Term → Res Term
  | [] => .error .noneResult
  | t :: ts => .ok (ts.foldl .add t)

/-- `_doit_full(max_terms=None)`, lines 137-160: `InfiniteSumError` for an infinite range and when a term with number `> 1000` is reached -/
def doitAll (t : Term) (rs : List Range) : Res Term := do
  let _ ← sumLen rs
  let ds ← yieldFromRanges rs
  let ts ← ds.mapM (fun d => t.subst d.toMap)
  if ts.length > expandLimit + 1 then .error .infiniteSum else addAll ts

/-- `_doit_full(max_terms=k)`: the terms up to number `k` are computed, and those before it added up -/
def doitMax (t : Term) (rs : List Range) (k : ℕ) : Res Term :=
  if k > expandLimit then .error .valueError
  else do
    let ds ← takeFromRanges rs (k + 1)
    let ts ← ds.mapM (fun d => t.subst d.toMap)
    addAll (ts.take k)

/-- lines 170-179: the range with the given symbol, and the others -/
def selectRange (s : Sym) (rs : List Range) : Option Range × List Range :=
  ((rs.filter (fun r => r.sym = s)).getLast?, rs.filter (fun r => r.sym ≠ s))

/-- the loop over the selected range, lines 180-191 -/
def expandRange (t : Term) (r : Range) : Res Term := do
  match ← r.gen with
  | .inf _ => .error .infiniteSum
  | .fin vs =>
    let ts ← vs.mapM (fun v => t.subst (Dict.toMap [(r.sym, v)]))
    if ts.length > expandLimit + 1 then .error .infiniteSum else addAll ts

/-- `_doit_over_indices(indices)`, lines 162-197, of the sum of `t` over `rs`; `create` is the class method `create`. -/
def doitOver (create : Term → List Range → Res Term) : List Sym → Term → List Range → Res Term
  | [], t, rs => .ok (.sum t rs)
  | s :: ss, t, rs =>
    match selectRange s rs with
    | (none, _) => .ok (.sum t rs)
    | (some r, others) => do
      let u ← expandRange t r
      if others = [] then .ok u
      else
        match ← create u others with
        | .sum t' rs' => doitOver create ss t' rs'
        | _ => .error .attributeError

/-- the body of the loop of `indexed_sum_over_const` (`algebraic_properties.py`, lines 653-661), `F` the free symbols of the term -/
def constStep (F : List Sym) (acc : Term × List Range) (r : Range) : Term × List Range :=
  if r.sym ∉ F then
    match r.len with
    | .ok n => (.nmul n acc.1, acc.2)
    | .error _ => (acc.1, acc.2 ++ [r])
  else (acc.1, acc.2 ++ [r])

/-- `indexed_sum_over_const`, lines 634-665 -/
def overConst (t : Term) (rs : List Range) : Term :=
  let res := rs.foldl (constStep t.free) (t, [])
  if res.2 = [] then res.1 else .sum res.1 res.2

/-- the `while` loop of `make_disjunct_indices`, lines 227-230, for at most `n` passes -/
def primeLoop (X : List Sym) : ℕ → Sym → Sym
  | 0, s => s
  | n + 1, s => if s ∈ X then primeLoop X n s.incr else s

/-- the loop ends after at most `X.length` passes -/
def fresh (X : List Sym) (s : Sym) : Sym := primeLoop X X.length s

/-- the map `{s: Ix}` -/
def single (s : Sym) (x : Ix) : VarMap := fun k => if k = s then some x else none

/-- the `for` loop of `make_disjunct_indices`, lines 224-234, over the ranges `todo` -/
def disjunctLoop (X : List Sym) : List Range → Term → Res Term
  | [], new => .ok new
  | r :: todo, new =>
    if r.sym ∈ X then (new.subst (single r.sym (.sym (fresh X r.sym)))).bind (disjunctLoop X todo)
    else disjunctLoop X todo new

/-- `IndexedSum.make_disjunct_indices` of the sum of `t` over `rs`, for the set of index symbols of `others` -/
def makeDisjunct (X : List Sym) (t : Term) (rs : List Range) : Res Term := disjunctLoop X rs (.sum t rs)

/-- `IndexedSum.__mul__` / `QuantumIndexedSum.__mul__` of two indexed sums (`abstract_quantum_algebra.py` lines 855-863) -/
def sumMulSum (create : Term → List Range → Res Term) (t : Term) (rs : List Range) (u : Term) (qs : List Range) : Res Term := do
  match ← makeDisjunct (rs.map Range.sym) u qs with
  | .sum u' qs' => create (.mul t u') (rs ++ qs')
  | _ => .error .attributeError

/-- `QuantumIndexedSum.__mul__` for a factor that is not an indexed sum, lines 868-872: disjunct with its *bound* symbols -/
def sumMulOther (create : Term → List Range → Res Term) (t : Term) (rs : List Range) (u : Term) : Res Term := do
  match ← makeDisjunct u.boundSymbols t rs with
  | .sum t' rs' => create (.mul t' u) rs'
  | _ => .error .attributeError

/-- `QuantumIndexedSum.__rmul__` for a factor that is not an indexed sum, lines 888-892 -/
def otherMulSum (create : Term → List Range → Res Term) (u : Term) (t : Term) (rs : List Range) : Res Term := do
  match ← makeDisjunct u.boundSymbols t rs with
  | .sum t' rs' => create (.mul u t') rs'
  | _ => .error .attributeError

/-- `ScalarIndexedSum.__mul__` for a scalar value (`scalar_algebra.py`, lines 979-993): the term gets new indices, the ranges do not -/
def scalarSumMul (create : Term → List Range → Res Term) (t : Term) (rs : List Range) (u : Term) : Res Term := do
  match ← (if u.free = [] then .ok (.sum t rs) else makeDisjunct u.free t rs) with
  | .sum t' _ => create (.mul t' u) rs
  | _ => .error .attributeError

/-- `assoc_indexed` (`algebraic_properties.py`, lines 57-90) for a term that is itself an indexed sum, without (`none`) or with a prefactor -/
def assocIndexed (create : Term → List Range → Res Term) (t : Term) (rs : List Range) : Res Term :=
  match t with
  | .sum u qs => do
    match ← makeDisjunct (rs.map Range.sym) u qs with
    | .sum u' qs' => create u' (rs ++ qs')
    | _ => .error .attributeError
  | .scal c xs (.sum u qs) => do
    match ← makeDisjunct (rs.map Range.sym) u qs with
    | .sum u' qs' =>
      if (xs.flatMap Ix.syms).all (fun s => s ∉ (rs ++ qs').map Range.sym) then (create u' (rs ++ qs')).map (.scal c xs)
      else create (.scal c xs u') (rs ++ qs')
    | _ => .error .attributeError
  | _ => create t rs

/-- `piecewise_one(value)` of the range (`indices.py` lines 457-461, 500-504, 542-550): 1 or 0; for a Fock space
`Interval(0, dim)` is closed -/
def Range.piecewiseOne : Range → Val → Bool
  | .list _ vs, v => vs.contains v
  | .range _ a b s, .int v => (pyRangeItems a (stopOf b s) s).contains v
  | .range _ _ _ _, .str _ => false
  | .fock _ none, .int v => decide (0 ≤ v)
  | .fock _ (some d), .int v => decide (0 ≤ v ∧ v ≤ d)
  | .fock _ _, .str _ => false

/-- `sympy.solve(a - b, idx)` for labels: the solution, if there is exactly one -/
def solveDelta (idx : Sym) (a b : Ix) : Option Ix :=
  if a = .sym idx ∧ b ≠ .sym idx then some b
  else if b = .sym idx ∧ a ≠ .sym idx then some a
  else none

/-- `_deltasummation` (`algebraic_properties.py`, lines 840-944) for a term `KroneckerDelta(a, b) * u` and the range `r`, with
`_RESOLVE_KRONECKER_WITH_PIECEWISE = False` (line 27): the new term without the delta and the range, or `none` (flag 2: unchanged). -/
def deltaSummation (r : Range) (a b : Ix) (u : Term) : Option (Res Term) := (solveDelta r.sym a b).map (fun x => u.subst (single r.sym x))

/-- the same with `_RESOLVE_KRONECKER_WITH_PIECEWISE = True`: lines 941-942 -/
def deltaSummationPw (r : Range) (a b : Ix) (u : Term) : Option (Res Term) :=
  (solveDelta r.sym a b).map (fun x => (u.subst (single r.sym x)).map (.pw r x))

end QNET.Indexed
