import Verif.Engine.Model
import Mathlib.Algebra.Ring.Defs

/-!
# Model of sums, products and scalar multiples of quantum expressions

`src/qnet/algebra/core/abstract_quantum_algebra.py` (QuantumPlus, QuantumTimes, ScalarTimesQuantumExpression, `_expand_product`),
`src/qnet/algebra/core/operator_algebra.py` (OperatorPlus, OperatorTimes, ScalarTimesOperator), `collect_summands` of
`src/qnet/algebra/core/algebraic_properties.py`, and the rules of `src/qnet/algebra/library`-independent part of
`_rules.py` lines 141-176.

Scalars are the elements of an arbitrary commutative ring `K` with decidable equality (symbolic scalars are not simplified by
the code, but equal scalars denote equal values). All recursion of the code is unbounded; the model has a recursion depth, whose
exhaustion is the error `recursion`.
-/

namespace QNET.QAlg

open QNET.Perm (Res Err)

/-- Operators (or other quantum expressions): symbols, `_zero`, `_one`, `ScalarTimes...(coeff, term)`, `...Plus(*operands)`,
`...Times(*operands)`, and `Commutator(A, B)` (operators only). -/
inductive QX (K : Type) where
  | atom (a : ℕ)
  | zero
  | one
  | scal (c : K) (t : QX K)
  | plus (l : List (QX K))
  | times (l : List (QX K))
  | comm (a b : QX K)

variable {K : Type}

section deceq
variable [DecidableEq K]

mutual
/-- `==` of expressions: same class and equal arguments (abstract_algebra.py `__eq__`) -/
def QX.beq : QX K → QX K → Bool
  | .atom a, .atom b => a == b
  | .zero, .zero => true
  | .one, .one => true
  | .scal c t, .scal d s => decide (c = d) && QX.beq t s
  | .plus l, .plus m => QX.beqL l m
  | .times l, .times m => QX.beqL l m
  | .comm a b, .comm c d => QX.beq a c && QX.beq b d
  | _, _ => false
/-- equality of lists of expressions -/
def QX.beqL : List (QX K) → List (QX K) → Bool
  | [], [] => true
  | a :: as, b :: bs => QX.beq a b && QX.beqL as bs
  | _, _ => false
end

mutual
theorem QX.beq_iff : ∀ a b : QX K, QX.beq a b = true ↔ a = b
  | .atom _, b => by cases b <;> simp [QX.beq]
  | .zero, b => by cases b <;> simp [QX.beq]
  | .one, b => by cases b <;> simp [QX.beq]
  | .scal _ t, b => by
    cases b with
    | scal d s => simp [QX.beq, QX.beq_iff t s]
    | _ => simp [QX.beq]
  | .plus l, b => by
    cases b with
    | plus m => simp [QX.beq, QX.beqL_iff l m]
    | _ => simp [QX.beq]
  | .times l, b => by
    cases b with
    | times m => simp [QX.beq, QX.beqL_iff l m]
    | _ => simp [QX.beq]
  | .comm x y, b => by
    cases b with
    | comm z w => simp [QX.beq, QX.beq_iff x z, QX.beq_iff y w]
    | _ => simp [QX.beq]
theorem QX.beqL_iff : ∀ a b : List (QX K), QX.beqL a b = true ↔ a = b
  | [], b => by cases b <;> simp [QX.beqL]
  | a :: as, [] => by simp [QX.beqL]
  | a :: as, b :: bs => by simp [QX.beqL, QX.beq_iff a b, QX.beqL_iff as bs]
end

instance : DecidableEq (QX K) := fun a b => decidable_of_iff _ (QX.beq_iff a b)

end deceq

/-- What the rest of the code contributes: the binary rules for pairs of particular operators (`_rules.py` lines 178 ff., e.g.
`a * a^dagger -> 1 + a^dagger * a`), and the sorting of operands of sums (`FullCommutativeHSOrder`) and of products
(`DisjunctCommutativeHSOrder`), algebraic_properties.py `orderby` lines 107-118. -/
structure Ctx (K : Type) where
  /-- the first applicable rule for two symbols -/
  atomRule : ℕ → ℕ → Option (QX K)
  /-- `sorted(ops, key=OperatorPlus.order_key)` -/
  sortPlus : List (QX K) → List (QX K)
  /-- `sorted(ops, key=OperatorTimes.order_key)` -/
  sortTimes : List (QX K) → List (QX K)
  /-- the spaces of the two operators are disjoint (`disjunct_hs_zero`, algebraic_properties.py lines 576-592) -/
  disjoint : QX K → QX K → Bool
  /-- `Commutator.order_key(x) < Commutator.order_key(y)` (`commutator_order`, algebraic_properties.py lines 595-604) -/
  commLt : QX K → QX K → Bool
  /-- `x` is the `Create` and `y` the `Destroy` operator of the same space (rule R005 of `Commutator`, `_rules.py` lines 370-372) -/
  ladder : ℕ → ℕ → Bool
  /-- both symbols are of the kinds listed in rules R006, R007 of `Commutator` (`_rules.py` lines 375-385) -/
  known : ℕ → ℕ → Bool

/-- operands of an instance of the sum class (`isinstance(o, cls)` in `assoc`, algebraic_properties.py lines 44-54) -/
def flatPlus : QX K → Option (List (QX K))
  | .plus l => some l
  | _ => none

/-- operands of an instance of the product class -/
def flatTimes : QX K → Option (List (QX K))
  | .times l => some l
  | _ => none

variable [CommRing K] [DecidableEq K]

/-- `coeff, term` of a summand, algebraic_properties.py lines 165-169 -/
def split : QX K → QX K × K
  | .scal c t => (t, c)
  | t => (t, 1)

/-- One update of `coeff_map`, algebraic_properties.py lines 170-173 (an `OrderedDict`: a new key is appended) -/
def addTerm : List (QX K × K) → QX K → K → List (QX K × K)
  | [], t, c => [(t, c)]
  | (t', c') :: m, t, c => if t' = t then (t', c' + c) :: m else (t', c') :: addTerm m t c

/-- `coeff_map` after the loop, algebraic_properties.py lines 163-173 -/
def coeffMap (ops : List (QX K)) : List (QX K × K) :=
  ops.foldl (fun m op => addTerm m (split op).1 (split op).2) []

/-- the end of `collect_summands`, algebraic_properties.py lines 179-184, and of `match_replace_binary` without rules -/
def wrapPlus : List (QX K) → QX K
  | [] => .zero
  | [x] => x
  | l => .plus l

/-- cartesian product in the order of `itertools.product` -/
def cart {α : Type} : List (List α) → List (List α)
  | [] => [[]]
  | l :: ls => l.flatMap (fun x => (cart ls).map (x :: ·))

/-- `eo.operands if isinstance(eo, eo.__class__._plus_cls) else (eo,)`, abstract_quantum_algebra.py lines 1107-1109 -/
def summandsOf : QX K → List (QX K)
  | .plus l => l
  | x => [x]

/-- `x = l[0]; for y in l[1:]: x = op(x, y)` with a partial operation; `IndexError` for an empty list. Lines 1114-1120. -/
def foldFirst {α : Type} (op : α → α → Res α) : List α → Res α
  | [] => .error .indexError
  | x :: l => l.foldlM op x

/-- `ScalarTimesOperator.create(coeff, term)` with rules R001-R005 (`_rules.py` lines 141-157, in this order); `ms`, `pc` are the
recursive calls for `coeff * term` and `OperatorPlus.create`. -/
def mulScalStep (ms : K → QX K → Res (QX K)) (pc : List (QX K) → Res (QX K)) (c : K) (t : QX K) : Res (QX K) :=
  if c = 1 then .ok t
  else if c = 0 then .ok .zero
  else
    match t with
    | .zero => .ok .zero
    | .scal v A => ms (c * v) A
    | .plus l => if c = -1 then l.mapM (ms (-1)) >>= pc else .ok (.scal c (.plus l))
    | t => .ok (.scal c t)

/-- `collect_summands` (algebraic_properties.py lines 147-184) after `assoc` and `orderby`; `ms` is `coeff * term`. -/
def plusStep (sort : List (QX K) → List (QX K)) (ms : K → QX K → Res (QX K)) (ops : List (QX K)) : Res (QX K) :=
  (coeffMap (sort (Engine.assoc flatPlus ops))).mapM (fun tc => ms tc.2 tc.1) >>= fun fops =>
  .ok (wrapPlus (fops.filter (fun op => !decide (op = .zero))))

/-- The rules R001-R004 of `OperatorTimes` (`_rules.py` lines 159-176) and `atomRule` -/
def binStep (ar : ℕ → ℕ → Option (QX K)) (tc : List (QX K) → Res (QX K)) (ms : K → QX K → Res (QX K)) (x y : QX K) :
    Res (Option (QX K)) :=
  match x, y with
  | .scal u A, B => tc [A, B] >>= ms u >>= fun r => .ok (some r)
  | .zero, _ => .ok (some .zero)
  | _, .zero => .ok (some .zero)
  | A, .scal u B => tc [A, B] >>= ms u >>= fun r => .ok (some r)
  | .atom a, .atom b => .ok (ar a b)
  | _, _ => .ok none

/-- the end of `create` for products -/
def wrapTimes : Engine.Outcome (QX K) → QX K
  | .single x => x
  | .operands l => .times l

/-- `filter_neutral` and `match_replace_binary` of `OperatorTimes.create` (operator_algebra.py line 486) after `assoc` and
`orderby` -/
def timesStep (sort : List (QX K) → List (QX K)) (rule : QX K → QX K → Res (Option (QX K))) (n : ℕ) (ops : List (QX K)) :
    Res (QX K) :=
  match Engine.filterNeutral .one (fun x => decide (x = .one)) (sort (Engine.assoc flatTimes ops)) with
  | .single x => .ok x
  | .operands l => (Engine.matchReplaceBinary rule .one (fun x => decide (x = .one)) flatTimes n l).map wrapTimes

variable (Γ : Ctx K)

mutual
/-- `coeff * term`, i.e. `ScalarTimesOperator.create(coeff, term)`, abstract_quantum_algebra.py lines 232-241 and 248-255 -/
def mulScal : ℕ → K → QX K → Res (QX K)
  | 0, _, _ => .error .recursion
  | n + 1, c, t => mulScalStep (mulScal n) (plusCreate n) c t

/-- `OperatorPlus.create(*ops)` with `simplifications = [assoc, scalars_to_op, orderby, collect_summands,
match_replace_binary]` (operator_algebra.py lines 463-470; there are no binary rules for sums). `scalars_to_op` is the
identity, as operands are operators. -/
def plusCreate : ℕ → List (QX K) → Res (QX K)
  | 0, _ => .error .recursion
  | n + 1, ops => plusStep Γ.sortPlus (mulScal n) ops

/-- `_get_binary_replacement` for `OperatorTimes`, algebraic_properties.py lines 323-350 -/
def binRule : ℕ → QX K → QX K → Res (Option (QX K))
  | 0, _, _ => .error .recursion
  | n + 1, x, y => binStep Γ.atomRule (timesCreate n) (mulScal n) x y

/-- `OperatorTimes.create(*ops)` with `simplifications = [assoc, orderby, filter_neutral, match_replace_binary]`
(operator_algebra.py lines 478-487) -/
def timesCreate : ℕ → List (QX K) → Res (QX K)
  | 0, _ => .error .recursion
  | n + 1, ops => timesStep Γ.sortTimes (binRule n) n ops
end

/-- `a * b` of two operators: `OperatorTimes.create(a, b)`, abstract_quantum_algebra.py lines 232-245 -/
def mul (n : ℕ) (a b : QX K) : Res (QX K) := timesCreate Γ n [a, b]

/-- `a + b` of two operators: `OperatorPlus.create(a, b)`, abstract_quantum_algebra.py lines 216-226 -/
def add (n : ℕ) (a b : QX K) : Res (QX K) := plusCreate Γ n [a, b]

/-- `a - b` of two operators: `a + (-1) * b`, abstract_quantum_algebra.py lines 257-258 -/
def sub (n : ℕ) (a b : QX K) : Res (QX K) := mulScal Γ n (-1) b >>= add Γ n a

/-- `Commutator.create(A, B)` with `simplifications = [scalars_to_op, disjunct_hs_zero, commutator_order, match_replace]`
(operator_algebra.py lines 544-546) and the rules of `_rules.py` lines 354-386; `cc` is the recursive call. -/
def commStep (cc : QX K → QX K → Res (QX K)) (n : ℕ) (A B : QX K) : Res (QX K) :=
  if Γ.disjoint A B then .ok .zero
  else if Γ.commLt B A then cc B A >>= mulScal Γ n (-1)
  else if A = B then .ok .zero
  else
    match A, B with
    | .scal u A', .scal v B' => cc A' B' >>= mulScal Γ n (u * v)
    | .scal u A', B => cc A' B >>= mulScal Γ n u
    | A, .scal v B' => cc A B' >>= mulScal Γ n v
    | .atom a, .atom b =>
      if Γ.ladder a b then .ok (.scal (-1) .one)
      else if Γ.known a b then mul Γ n (.atom a) (.atom b) >>= fun x => mul Γ n (.atom b) (.atom a) >>= sub Γ n x
      else .ok (.comm (.atom a) (.atom b))
    | A, B => .ok (.comm A B)

/-- `Commutator.create(A, B)` -/
def commCreate : ℕ → QX K → QX K → Res (QX K)
  | 0, _, _ => .error .recursion
  | n + 1, A, B => commStep Γ (commCreate n) n A B

/-- The end of `_expand_product`, abstract_quantum_algebra.py lines 1118-1125: add up the summands, and expand again if the result is
a sum. -/
def expandEnd (ex : QX K → Res (QX K)) (ad : QX K → QX K → Res (QX K)) (summands : List (QX K)) : Res (QX K) :=
  foldFirst ad summands >>= fun ret =>
  match ret with
  | .plus l' => ex (.plus l')
  | ret => .ok ret

/-- One level of `expand()`: Commutator operator_algebra.py lines 572-586, QuantumPlus lines 488-490, QuantumTimes lines 532-533, ScalarTimesQuantumExpression lines 621-622,
`_expand_product` lines 1104-1125; symbols, zero and one are returned unchanged (lines 116-117, 377). The coefficient of a scalar
multiple is a single summand. -/
def expandStep (ex : QX K → Res (QX K)) (pc : List (QX K) → Res (QX K)) (ml ad : QX K → QX K → Res (QX K)) (ms : K → QX K → Res (QX K))
    (cc : QX K → QX K → Res (QX K)) (x : QX K) : Res (QX K) :=
  match x with
  | .plus l => l.mapM ex >>= pc
  | .times l =>
    l.mapM ex >>= fun eops =>
    (cart (eops.map summandsOf)).mapM (foldFirst ml) >>= expandEnd ex ad
  | .scal c t =>
    ex t >>= fun e => (summandsOf e).mapM (ms c) >>= expandEnd ex ad
  | .comm a b =>
    ex a >>= fun a' => ex b >>= fun b' =>
    ((summandsOf a').flatMap (fun x => (summandsOf b').map (fun y => (x, y)))).mapM (fun xy => cc xy.1 xy.2) >>= pc
  | x => .ok x

/-- `expand()`, abstract_quantum_algebra.py lines 107-114 -/
def expand : ℕ → QX K → Res (QX K)
  | 0, _ => .error .recursion
  | n + 1, x => expandStep (expand n) (plusCreate Γ n) (mul Γ n) (add Γ n) (mulScal Γ n) (commCreate Γ n) x

end QNET.QAlg
