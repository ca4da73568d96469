import Mathlib.Data.List.Basic
import Mathlib.Data.List.Range
import Mathlib.Algebra.BigOperators.Group.List.Basic
import Mathlib.Algebra.Algebra.Defs

/-!
# Model of index ranges and indexed sums

`src/qnet/utils/indices.py` (`product`, `yield_from_ranges`, `IdxSym`, `IndexOverList`, `IndexOverRange`, `IndexOverFockSpace`),
`src/qnet/algebra/core/indexed_operations.py` (`IndexedSum`), and parts of `src/qnet/algebra/core/algebraic_properties.py`
(`assoc_indexed`, `indexed_sum_over_const`, `_deltasummation`), `abstract_quantum_algebra.py` (`QuantumIndexedSum`) and
`scalar_algebra.py` (`ScalarIndexedSum`).
-/

namespace QNET.Indexed

/-- `IdxSym` (`indices.py`, lines 68-172): name and number of primes. Simplification: the assumptions (`integer`, `positive`) are part of
the name. -/
structure Sym where
  name : ℕ
  primed : ℕ
  deriving DecidableEq, Repr

/-- `IdxSym.incr_primed()` (lines 147-151) -/
def Sym.incr (s : Sym) : Sym := ⟨s.name, s.primed + 1⟩

/-- index values: integers, or other objects (strings; a list may contain anything) -/
inductive Val where
  | int (z : ℤ)
  | str (n : ℕ)
  deriving DecidableEq, Repr

/-- exceptions -/
inductive Err where
  | valueError
  | typeError
  | infiniteSum
  | attributeError
  | diverges
  | noneResult
  deriving DecidableEq, Repr

abbrev Res := Except Err

/-- index ranges: `IndexOverList` (lines 431-461), `IndexOverRange` (lines 463-504), `IndexOverFockSpace` (lines 506-550; only the dimension of
the space matters, `none` if it is not known) -/
inductive Range where
  | list (s : Sym) (values : List Val)
  | range (s : Sym) (start upto step : ℤ)
  | fock (s : Sym) (dim : Option ℕ)
  deriving DecidableEq

/-- attribute `index_symbol` -/
def Range.sym : Range → Sym
  | .list s _ => s
  | .range s _ _ _ => s
  | .fock s _ => s

/-- length of Python's `range(a, b, s)` for `s ≠ 0` (CPython `compute_range_length`) -/
def pyRangeLen (a b s : ℤ) : ℕ :=
  if s > 0 then (if a < b then ((b - a - 1) / s + 1).toNat else 0)
  else (if b < a then ((a - b - 1) / (-s) + 1).toNat else 0)

/-- the items of Python's `range(a, b, s)` for `s ≠ 0`: `r[k] = a + s * k` -/
def pyRangeItems (a b s : ℤ) : List ℤ := (List.range (pyRangeLen a b s)).map (fun k : ℕ => a + s * (k : ℤ))

/-- `v in range(a, b, s)` for an integer `v` (CPython `range_contains_long`) -/
def pyRangeContains (a b s v : ℤ) : Bool :=
  if s > 0 then decide (a ≤ v ∧ v < b) && decide ((v - a) % s = 0)
  else decide (b < v ∧ v ≤ a) && decide ((v - a) % s = 0)

/-- property `range` of `IndexOverRange`, lines 481-486: the `stop` argument -/
def stopOf (upto step : ℤ) : ℤ := if step ≥ 0 then upto + 1 else upto - 1

/-- What a generator function yields: finitely many items, or an infinite sequence. -/
inductive Gen (α : Type) where
  | fin (l : List α)
  | inf (f : ℕ → α)

/-- dictionaries from index symbols to values -/
abbrev Dict := List (Sym × Val)

/-- `d.get(k)` -/
def Dict.get (d : Dict) (k : Sym) : Option Val := (d.find? (fun x => x.1 = k)).map Prod.snd

/-- `d[k] = v`: existing keys keep their place -/
def Dict.setItem (d : Dict) (k : Sym) (v : Val) : Dict :=
  if d.any (fun x => x.1 = k) then d.map (fun x => if x.1 = k then (k, v) else x) else d ++ [(k, v)]

/-- `result.update(dictionary)` -/
def Dict.update (d e : Dict) : Dict := e.foldl (fun d x => d.setItem x.1 x.2) d

/-- `_merge_dicts(*dicts)`, lines 22-27 -/
def mergeDicts (ds : List Dict) : Dict := ds.foldl Dict.update []

/-- the values of the index, in order (`ValueError` for step 0) -/
def Range.gen : Range → Res (Gen Val)
  | .list _ vs => .ok (.fin vs)
  | .range _ a b s => if s = 0 then .error .valueError else .ok (.fin ((pyRangeItems a (stopOf b s) s).map .int))
  | .fock _ none => .ok (.inf (fun n => .int n))
  | .fock _ (some d) => .ok (.fin ((List.range d).map (fun n => .int (n : ℕ))))

/-- map over the items -/
def Gen.map {α β : Type} (f : α → β) : Gen α → Gen β
  | .fin l => .fin (l.map f)
  | .inf g => .inf (fun n => f (g n))

/-- `iter` (lines 441-443, 477-479, 518-526): the dictionaries `{index_symbol: value}` -/
def Range.iter (r : Range) : Res (Gen Dict) := r.gen.map (Gen.map (fun v => [(r.sym, v)]))

/-- `__len__` (lines 445, 488, 528): `len(None)` is a `TypeError` -/
def Range.len : Range → Res ℕ
  | .list _ vs => .ok vs.length
  | .range _ a b s => if s = 0 then .error .valueError else .ok (pyRangeLen a (stopOf b s) s)
  | .fock _ none => .error .typeError
  | .fock _ (some d) => .ok d

/-- `__contains__` (lines 448, 491, 531-535); comparing a string with `0` is a `TypeError` -/
def Range.contains : Range → Val → Res Bool
  | .list _ vs, v => .ok (vs.contains v)
  | .range _ a b s, .int v => if s = 0 then .error .valueError else .ok (pyRangeContains a (stopOf b s) s v)
  | .range _ _ _ s, .str _ => if s = 0 then .error .valueError else .ok false
  | .fock _ none, .int v => .ok (decide (v ≥ 0))
  | .fock _ (some d), .int v => .ok (decide (0 ≤ v ∧ v < d))
  | .fock _ _, .str _ => .error .typeError

/-- `product(*generators)`, lines 30-54, for generators that yield finitely many items -/
def product {α : Type} : List (List α) → List (List α)
  | [] => [[]]
  | g :: gs => g.flatMap (fun x => (product gs).map (x :: ·))

/-- The outer `for` loop of `product` over the given items, for a consumer that stops after `k` items; `tk` is the recursive call. -/
def takeLoop {α : Type} (tk : ℕ → Option (List (List α))) : ℕ → List α → Option (List (List α))
  | 0, _ => some []
  | _ + 1, [] => some []
  | k + 1, x :: l => do
    let inner ← tk (k + 1)
    let rest ← takeLoop tk (k + 1 - inner.length) l
    some (inner.map (x :: ·) ++ rest)

/-- The first `k` items of `product(*generators)` for arbitrary generators; `none` if the consumer waits forever (an infinite generator with
an empty one to the right of it). An infinite outer loop makes at most `k` passes, as each yields an item. -/
def takeProduct {α : Type} : List (Gen α) → ℕ → Option (List (List α))
  | [], k => some ([[]].take k)
  | .fin l :: gs, k => takeLoop (takeProduct gs) k l
  | .inf f :: gs, k =>
    if k = 0 then some []
    else do
      let inner ← takeProduct gs k
      if inner = [] then none else takeLoop (takeProduct gs) k ((List.range k).map f)

/-- the items, if there are finitely many -/
def Gen.toList? {α : Type} : Gen α → Option (List α)
  | .fin l => some l
  | .inf _ => none

/-- all items of `yield_from_ranges(ranges)` (lines 57-65), in order; `.diverges` if some range is infinite -/
def yieldFromRanges (rs : List Range) : Res (List Dict) := do
  let gs ← rs.mapM Range.iter
  match gs.mapM Gen.toList? with
  | some ls => .ok ((product ls).map mergeDicts)
  | none => .error .diverges

/-- the first `k` items of `yield_from_ranges(ranges)` -/
def takeFromRanges (rs : List Range) (k : ℕ) : Res (List Dict) := do
  let gs ← rs.mapM Range.iter
  match takeProduct gs k with
  | some l => .ok (l.map mergeDicts)
  | none => .error .diverges

/-- `len(indexed_sum)` (`indexed_operations.py`, lines 88-96): a `TypeError` becomes an `InfiniteSumError` -/
def sumLen : List Range → Res ℕ
  | [] => .ok 1
  | r :: rs =>
    match r.len with
    | .error .typeError => .error .infiniteSum
    | .error e => .error e
    | .ok n => (sumLen rs).map (n * ·)

end QNET.Indexed
