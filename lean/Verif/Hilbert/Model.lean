import Verif.Order.Key
import Verif.Util.PySort
import Verif.Perm.Model
import Mathlib.Data.List.Dedup
import Mathlib.Data.Finset.Basic
import Mathlib.Data.Finset.Dedup

/-!
# Model of `src/qnet/algebra/core/hilbert_space_algebra.py`
-/

namespace QNET.Hilbert

open QNET.Order QNET.Perm

/-- A `LocalSpace` (lines 174-300), as stored by the constructor. Labels are strings (symbolic `StrLabel`s are not modelled);
`orderIndex = none` is `float('inf')`; `ids` are the sorted local identifiers. -/
structure Loc where
  label : Str
  basis : Option (List Str)
  dim : Option ℕ
  ids : List (Str × Str)
  orderIndex : Option ℤ
  deriving DecidableEq

/-- `str(n)` for a natural number -/
def strNat (n : ℕ) : Str := Nat.toDigits 10 n

/-- `str(self._dimension)` -/
def strDim : Option ℕ → Str
  | none => ['N', 'o', 'n', 'e']
  | some n => strNat n

/-- `LocalSpace.__init__`, lines 217-297. Simplification: the check of the label against a regular expression and the sorting of the
local identifiers are left out. -/
def mkLocal (label : Str) (basis : Option (List Str)) (dimension : Option ℕ) (ids : List (Str × Str)) (orderIndex : Option ℤ) : Res Loc :=
  match basis, dimension with
  | none, none => .ok ⟨label, none, none, ids, orderIndex⟩
  | none, some d => .ok ⟨label, some ((List.range d).map strNat), some d, ids, orderIndex⟩
  | some b, none => .ok ⟨label, some b, some b.length, ids, orderIndex⟩
  | some b, some d => if d ≠ b.length then .error .valueError else .ok ⟨label, some b, some d, ids, orderIndex⟩

/-- `LocalSpace._order_key`, lines 272-274. -/
def Loc.key (l : Loc) : List KV :=
  [match l.orderIndex with
    | none => .inf
    | some i => .num i,
   .str l.label, .str (strDim l.dim),
   match l.basis with
    | none => .opaque ['N', 'o', 'n', 'e']
    | some b => .tup (b.map .str),
   .tup (l.ids.map (fun p => .tup [.str p.1, .str p.2]))]

/-- Hilbert spaces: `TrivialSpace`, `FullSpace`, `LocalSpace`, `ProductSpace`. -/
inductive Space where
  | trivial
  | full
  | loc (l : Loc)
  | prod (ls : List Loc)
  deriving DecidableEq

namespace Space

/-- `_order_key`, lines 272, 527, 616, 680-681. -/
def key : Space → List KV
  | .trivial => [.num (-2), .str ['_']]
  | .full => [.num (-1), .str ['_']]
  | .loc l => l.key
  | .prod ls => ls.flatMap Loc.key

/-- operands of a flattened argument list: `assoc` (algebraic_properties.py lines 44-54) -/
def flat : Space → List Space
  | .prod ls => ls.map .loc
  | s => [s]

end Space

/-- The (unspecified) order in which Python iterates over `set(l)`. -/
structure SetOrder (α : Type) [DecidableEq α] where
  iter : List α → List α
  perm : ∀ l, (iter l).Perm l.dedup

/-- `sorted(set(ops), key=ProductSpace.order_key)`: `idem`, algebraic_properties.py lines 93-104 -/
def idem (so : SetOrder Space) (ops : List Space) : List Space :=
  pysort (fun a b => klt a.key b.key) (so.iter ops)

/-- the constructor `ProductSpace(*ops)`, lines 660-683: operands have to be distinct -/
def mkProd (ops : List Space) : Res Space :=
  if ops.Nodup then .ok (.prod (ops.filterMap (fun | .loc l => some l | _ => none))) else .error .valueError

/-- `filter_neutral` (algebraic_properties.py lines 121-144) followed by instantiation -/
def finish (ops : List Space) : Res Space :=
  match ops with
  | [] => .ok .trivial
  | o :: _ =>
    match ops.filter (fun s => s ≠ .trivial) with
    | [] => .ok o
    | [s] => .ok s
    | l => mkProd l

/-- `ProductSpace.create`, lines 685-689, with the simplifications `empty_trivial`, `assoc`, `convert_to_spaces` (the identity on
spaces), `idem`, `filter_neutral` (lines 653-657). -/
def create (so : SetOrder Space) (ops : List Space) : Res Space :=
  if ops.any (fun s => s = .full) then .ok .full
  else if ops = [] then .ok .trivial
  else finish (idem so (ops.flatMap Space.flat))

/-- `HilbertSpace.tensor` and `*`, lines 39-41, 146-147. -/
def tensor (so : SetOrder Space) (a b : Space) : Res Space := create so [a, b]

/-- `local_factors`, lines 447-449, 577-580, 625-629, 782-785. -/
def localFactors : Space → Res (List Loc)
  | .trivial => .ok []
  | .full => .error .algebraError
  | .loc l => .ok [l]
  | .prod ls => .ok ls

/-- `dimension`, lines 96-104, 423-434, 532-534, 663-668, 757-768. -/
def dimension : Space → Res ℕ
  | .trivial => .ok 1
  | .full => .error .basisNotSet
  | .loc l => match l.dim with
    | some d => .ok d
    | none => .error .basisNotSet
  | .prod ls => ls.foldlM (fun acc l => match l.dim with
      | some d => .ok (acc * d)
      | none => .error .basisNotSet) 1

/-- `is_strict_subfactor_of`, i.e. `<`: lines 451-457, 582-587, 635-639, 812-819. -/
def lt : Space → Space → Bool
  | .loc l, .prod ls => ls.contains l
  | .loc _, .full => true
  | .loc _, _ => false
  | .trivial, b => b ≠ .trivial
  | .full, _ => false
  | .prod ls, .prod ms => ls.all (fun l => ms.contains l) && ms.any (fun l => !ls.contains l)
  | .prod _, .full => true
  | .prod _, _ => false

/-- `<=`, lines 161-162. -/
def le (a b : Space) : Bool := a = b || lt a b

/-- `intersect`, lines 442-445, 572-575, 631-633, 794-806. The order of the elements of the set is arbitrary (`sorted` without a key
compares local spaces by `<`, which is always false for them). -/
def intersect (so : SetOrder Space) (sl : SetOrder Loc) : Space → Space → Res Space
  | .loc l, b => do
    let f ← localFactors b
    .ok (if f.contains l then .loc l else .trivial)
  | .trivial, _ => .ok .trivial
  | .full, b => .ok b
  | .prod ls, .full => .ok (.prod ls)
  | .prod _, .trivial => .ok .trivial
  | .prod ls, .prod ms => create so ((sl.iter (ls.filter (fun l => ms.contains l))).map .loc)
  | .prod ls, .loc m => create so ((sl.iter (ls.filter (fun l => l = m))).map .loc)

/-- `remove`, i.e. `/`: lines 436-440, 567-570, 621-623, 770-780. -/
def remove (so : SetOrder Space) (sl : SetOrder Loc) : Space → Space → Res Space
  | .loc l, b => .ok (if b = .loc l then .trivial else .loc l)
  | .trivial, _ => .ok .trivial
  | .full, _ => .error .algebraError
  | .prod _, .full => .ok .trivial
  | .prod ls, .trivial => .ok (.prod ls)
  | .prod ls, .prod ms => create so ((sl.iter (ls.filter (fun l => !ms.contains l))).map .loc)
  | .prod ls, .loc m => create so ((sl.iter (ls.filter (fun l => l ≠ m))).map .loc)

/-- `isdisjoint`, lines 61-77 (without symbolic labels). -/
def isDisjoint (a b : Space) : Res Bool :=
  if b = .full then .ok false
  else do
    let f ← localFactors a
    let g ← localFactors b
    .ok (f.all (fun l => !g.contains l))

/-! ### specification -/

/-- The set of local factors of a space; `none` stands for the full space (all degrees of freedom). -/
def factors : Space → Option (Finset Loc)
  | .trivial => some ∅
  | .full => none
  | .loc l => some {l}
  | .prod ls => some ls.toFinset

/-- Basis and dimension of a local space as guaranteed by the constructor. -/
def Loc.WF (l : Loc) : Prop := l.dim = l.basis.map List.length

/-- Spaces a user can obtain: local spaces from the constructor, products from `create`. -/
inductive Reachable : Space → Prop
  | trivial : Reachable .trivial
  | full : Reachable .full
  | loc {label basis dim ids oi l} : mkLocal label basis dim ids oi = .ok l → Reachable (.loc l)
  | create {so ops s} : (∀ o ∈ ops, Reachable o) → Hilbert.create so ops = .ok s → Reachable s

end QNET.Hilbert
