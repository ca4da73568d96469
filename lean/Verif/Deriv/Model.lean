import Verif.Perm.Model
import Mathlib.Data.Finset.Lattice.Fold
import Mathlib.Data.Rat.Defs

/-!
# C88: derivatives of operators that depend on parameters

Model of `QuantumDerivative`, `diff`, `series_expand`, `free_symbols`, `substitute` (`src/qnet/algebra/core/abstract_quantum_algebra.py`)
and `derivative_via_diff` (`src/qnet/algebra/core/algebraic_properties.py` lines 947-976).

Simplifications: symbols are atomic (no `IndexedBase`), and different symbols have different texts (the texts order the dictionaries).
The final `expand().simplify_scalar()` of `diff` is left out (C30: it does not change the value), and so is the instance cache (C23).
-/

namespace QNET.Deriv

open QNET.Perm (Res Err)
open QNET (isort)

/-- SymPy expressions as scalar arguments, coefficients and evaluation points (polynomials) -/
inductive Sc (ι : Type) where
  | num (q : ℚ)
  | sym (i : ι)
  | add (a b : Sc ι)
  | mul (a b : Sc ι)
  deriving DecidableEq

/-- A value for a symbol: a Python number (which has no attribute `free_symbols`) or a SymPy expression -/
inductive PV (ι : Type) where
  | py (q : ℚ)
  | sc (e : Sc ι)
  deriving DecidableEq

/-- Operators: zero; a symbol with scalar arguments (`OperatorSymbol(a, *args)`); `c * A` or `c * A.dag()` with a constant symbol `A` (as the
example of an expression whose derivative is computed explicitly); `Adjoint(x)`; `OperatorDerivative(x, derivs=d, vals=v)` -/
inductive DX (ι : Type) where
  | zero
  | sym (a : ℕ) (args : List (Sc ι))
  | expl (c : Sc ι) (a : ℕ) (dag : Bool)
  | adj (x : DX ι)
  | deriv (x : DX ι) (d : List (ι × ℕ)) (v : List (ι × PV ι))
  deriving DecidableEq

variable {ι : Type} [LinearOrder ι]

/-- `e.free_symbols` (SymPy) -/
def Sc.free : Sc ι → Finset ι
  | .num _ => ∅
  | .sym i => {i}
  | .add a b => a.free ∪ b.free
  | .mul a b => a.free ∪ b.free

/-- `sympy.diff(e, s)` (SymPy) -/
def Sc.diff (s : ι) : Sc ι → Sc ι
  | .num _ => .num 0
  | .sym i => if i = s then .num 1 else .num 0
  | .add a b => .add (a.diff s) (b.diff s)
  | .mul a b => .add (.mul (a.diff s) b) (.mul a (b.diff s))

/-- a value as a SymPy expression -/
def PV.toSc : PV ι → Sc ι
  | .py q => .num q
  | .sc e => e

/-- Python's `d.get(k)` for a dictionary given by its items -/
def get {β : Type} (d : List (ι × β)) (k : ι) : Option β := (d.find? (fun p => p.1 = k)).map Prod.snd

/-- `e.subs(m)` (SymPy), `ScalarValue.substitute` -/
def Sc.subs (m : List (ι × PV ι)) : Sc ι → Sc ι
  | .num q => .num q
  | .sym i => match get m i with
    | some v => v.toSc
    | none => .sym i
  | .add a b => .add (a.subs m) (b.subs m)
  | .mul a b => .mul (a.subs m) (b.subs m)

/-- `d[k] = v` -/
def set {β : Type} (d : List (ι × β)) (k : ι) (v : β) : List (ι × β) :=
  if k ∈ d.map Prod.fst then d.map (fun p => if p.1 = k then (k, v) else p) else d ++ [(k, v)]

/-- `d.update(e)` -/
def update {β : Type} (d e : List (ι × β)) : List (ι × β) := e.foldl (fun d p => set d p.1 p.2) d

/-- `QuantumDerivative._dict_to_ordered_tuple`, abstract_quantum_algebra.py lines 753-757 -/
def ordered {β : Type} (d : List (ι × β)) : List (ι × β) := isort (fun p q => decide (p.1 ≤ q.1)) d

/-- `QuantumDerivative.__init__`, lines 704-735 -/
def mk (x : DX ι) (d : List (ι × ℕ)) (v : List (ι × PV ι)) : Res (DX ι) :=
  if d.any (fun p => p.2 = 0) then .error .valueError
  else if v.any (fun p => p.1 ∉ d.map Prod.fst) then .error .valueError
  else .ok (.deriv x (ordered d) (ordered v))

/-- `x.adjoint()`: symbols (lines 391-392), `ScalarTimesQuantumExpression` (lines 603-604, real coefficients), `Adjoint` (lines 473-474),
`QuantumDerivative` (lines 833-835) -/
def adjoint : DX ι → DX ι
  | .zero => .zero
  | .sym a args => .adj (.sym a args)
  | .expl c a dag => .expl c a (!dag)
  | .adj x => x
  | .deriv x d v => .deriv (adjoint x) d v

/-- The parts of SymPy and of Python that the code relies on: `dz e s` says whether `ScalarValue(e).diff(s).is_zero` holds; `dum i` is the
`sympy.Dummy` that replaces the symbol `i` (line 791), `isDum` recognises these -/
structure Env (ι : Type) where
  dz : Sc ι → ι → Bool
  dum : ι → ι
  isDum : ι → Bool

/-- `derivative_via_diff`, lines 962-967; `fr` is `free_symbols`, `df` is `_diff`; `none` is the early return of zero -/
def derivLoop (fr : DX ι → Res (Finset ι)) (df : ι → DX ι → Res (DX ι)) : DX ι → List (ι × ℕ) → Res (Option (DX ι))
  | x, [] => .ok (some x)
  | x, (s, k) :: d => do
    let f ← fr x
    if s ∈ f then
      let y ← k.repeat (fun r => r >>= df s) (.ok x)
      derivLoop fr df y d
    else .ok none

/-- `x.evaluate_at(vals)` for a derivative, lines 759-763; other objects have no such method -/
def evaluateAt (x : DX ι) (v : List (ι × PV ι)) : Res (DX ι) :=
  match x with
  | .deriv y d w => mk y d (update w v)
  | _ => .error .attributeError

/-- the free symbols of the values, lines 798-799: Python numbers have no attribute `free_symbols` (at the first access; the instance has stored
the incomplete set by then, and returns it later) -/
def freeVals : List (ι × PV ι) → Res (Finset ι)
  | [] => .ok ∅
  | (_, .py _) :: _ => .error .attributeError
  | (_, .sc e) :: l => do let f ← freeVals l; .ok (e.free ∪ f)

/-- `e.free_symbols` for all arguments of a symbol, lines 380-389 (Hilbert space and label without symbols) -/
def freeArgs (args : List (Sc ι)) : Finset ι := args.foldr (fun e f => e.free ∪ f) ∅

variable (E : Env ι)

mutual
/-- `x.free_symbols`: symbols lines 380-389, products with scalars lines 599-601, operations (the union over the operands),
derivatives lines 782-800 -/
def free : ℕ → DX ι → Res (Finset ι)
  | 0, _ => .error .recursion
  | n + 1, x =>
    match x with
    | .zero => .ok ∅
    | .sym _ args => .ok (freeArgs args)
    | .expl c _ _ => .ok c.free
    | .adj y => free n y
    | .deriv y _ v =>
      if v = [] then free n y
      else do
        let z ← subst n (v.map (fun p => (p.1, .sc (.sym (E.dum p.1))))) [] y
        let f ← free n z
        let g ← freeVals v
        .ok (f.filter (fun i => E.isDum i = false) ∪ g)
/-- `x._diff(s)`: symbols lines 358-363, products with scalars (`coeff` only, as `A` is constant), `Adjoint` lines 470-471, derivatives
lines 819-831 -/
def diff1 : ℕ → ι → DX ι → Res (DX ι)
  | 0, _, _ => .error .recursion
  | n + 1, s, x =>
    match x with
    | .zero => .ok .zero
    | .sym a args => if args.all (fun e => E.dz e s) then .ok .zero else mk (.sym a args) [(s, 1)] []
    | .expl c a dag => if E.dz c s then .ok .zero else .ok (.expl (c.diff s) a dag)
    | .adj y => do
      let z ← diff n y s 1
      .ok (adjoint z)
    | .deriv y d v =>
      if s ∈ v.map Prod.fst then .ok .zero
      else if PV.sc (.sym s) ∈ v.map Prod.snd then mk (.deriv y d v) [(s, 1)] []
      else mk y (set d s ((get d s).getD 0 + 1)) v
/-- `x.diff(s, k)`, lines 127-154 -/
def diff : ℕ → DX ι → ι → ℕ → Res (DX ι)
  | 0, _, _, _ => .error .recursion
  | n + 1, x, s, k => do
    let f ← free n x
    if s ∈ f then create n x [(s, k)] [] else .ok .zero
/-- `QuantumDerivative.create(x, derivs=d, vals=v)`, lines 690-702, algebraic_properties.py lines 947-976. The values are a tuple here. If the
result of the differentiation is not a derivative, `op.substitute(vals)` is called, which ignores tuples: `var_map.items()` raises
`AttributeError`, which `substitute` (abstract_algebra.py lines 680-691) takes as "nothing to do". -/
def create : ℕ → DX ι → List (ι × ℕ) → List (ι × PV ι) → Res (DX ι)
  | 0, _, _, _ => .error .recursion
  | n + 1, x, d, v => do
    match ← derivLoop (free n) (diff1 n) x (ordered d) with
    | none => .ok .zero
    | some y =>
      if v = [] then .ok y
      else match evaluateAt y v with
        | .error .attributeError => .ok y
        | r => r
/-- `x.substitute(var_map)` with symbols `m` and objects `o`, abstract_algebra.py lines 387-419 and 672-691: an `AttributeError` in a part leaves
this part unchanged; the keyword arguments `derivs` and `vals` are tuples and are never changed -/
def subst : ℕ → List (ι × PV ι) → List (DX ι × DX ι) → DX ι → Res (DX ι)
  | 0, _, _, _ => .error .recursion
  | n + 1, m, o, x =>
    match o.find? (fun p => p.1 = x) with
    | some p => .ok p.2
    | none =>
      match x with
      | .zero => .ok .zero
      | .sym a args => .ok (.sym a (args.map (Sc.subs m)))
      | .expl c a dag => .ok (.expl (c.subs m) a dag)
      | .adj y => do
        let z ← (match subst n m o y with
          | .error .attributeError => .ok y
          | r => r)
        .ok (adjoint z)
      | .deriv y d v => do
        let z ← (match subst n m o y with
          | .error .attributeError => .ok y
          | r => r)
        create n z d v
end

/-- `_evaluate_at`, lines 1095-1101 -/
def evalOrSubst (n : ℕ) (x : DX ι) (s : ι) (v : PV ι) : Res (DX ι) :=
  match evaluateAt x [(s, v)] with
  | .error .attributeError => subst E n [(s, v)] [] x
  | r => r

/-- the loop of `QuantumExpression._series_expand`, lines 203-214: entry `(k, y)` stands for `y / factorial(k)` -/
def taylorLoop (n : ℕ) (s : ι) (v : PV ι) : ℕ → ℕ → DX ι → Res (List (ℕ × DX ι))
  | 0, _, _ => .ok []
  | m + 1, k, x =>
    if x = .zero then do
      let l ← taylorLoop n s v m (k + 1) x
      .ok ((k, x) :: l)
    else do
      let y ← diff E n x s 1
      let z ← evalOrSubst E n y s v
      let l ← taylorLoop n s v m (k + 1) y
      .ok ((k, z) :: l)

/-- `x.series_expand(s, about=v, order)` for a symbol, lines 365-371 and 203-213 -/
def series (n : ℕ) (a : ℕ) (args : List (Sc ι)) (s : ι) (v : PV ι) (order : ℕ) : Res (List (ℕ × DX ι)) :=
  if args = [] then .ok ((0, .sym a []) :: (List.range order).map (fun k => (k + 1, .zero)))
  else do
    let z ← evalOrSubst E n (.sym a args) s v
    let l ← taylorLoop E n s v order 1 (.sym a args)
    .ok ((0, z) :: l)

end QNET.Deriv
