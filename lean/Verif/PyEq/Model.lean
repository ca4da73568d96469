import Mathlib.Logic.Basic
import Mathlib.Data.List.Basic
import Mathlib.Tactic.Common

/-!
# `==`, `!=` and `hash` of expressions and numbers (C79)

Model of `abstract_algebra.py` lines 363-373 and 661-669, `scalar_algebra.py` lines 313-317, 343-344 and 1208-1218, `operator_algebra.py` lines 504-512, `utils/singleton.py` lines 40-74, and of Python's
dispatch of `==` and `!=` (the left operand is asked first; if it does not know, the right operand is asked; if this does not know either, the identity of the objects decides).

Simplifications: numbers (Python, NumPy and SymPy objects that can be wrapped by `ScalarValue`) are elements of a type `V` with decidable equality (they are identified when they compare equal, except that
NumPy numbers are marked, because their comparison returns an object that is not of type `bool`); comparing a number with anything else is left to the other operand. Positional and keyword
arguments of an expression are one list (`_instance_key` is the class followed by the arguments, see C45 for the key); strings and other labels and nested tuples are expressions of reserved classes. Tuples are compared entry by entry
with `==`; that Python first compares identities makes no difference, as `==` is reflexive. No class of expressions compares its instances specially because one class is derived from another.
-/

namespace QNET.PyEq

/-- objects: numbers, `ScalarValue`, `Zero`, `One`, other singletons (number 0 is `IdentityOperator`), `ScalarTimesOperator`, other expressions -/
inductive Obj (V : Type) where
  | num (v : V) (np : Bool)
  | sval (v : V) (np : Bool)
  | zero
  | one
  | sing (k : ℕ)
  | smul (c t : Obj V)
  | expr (cls : ℕ) (args : List (Obj V))

variable {V : Type} [DecidableEq V] [Zero V] [One V]

mutual
/-- number of parts; `Zero` and `ScalarValue` count more than the number inside -/
def Obj.size : Obj V → ℕ
  | .num _ _ => 1
  | .sval _ _ => 2
  | .zero => 2
  | .one => 2
  | .sing _ => 1
  | .smul c t => c.size + t.size + 1
  | .expr _ args => sizes args + 1
def sizes : List (Obj V) → ℕ
  | [] => 0
  | a :: l => a.size + sizes l + 1
end

/-- `is_scalar`, `scalar_algebra.py` lines 1208-1218; `sc` tells which classes are derived from `Scalar` -/
def isScalar (sc : ℕ → Bool) : Obj V → Bool
  | .num _ _ => true
  | .sval _ _ => true
  | .zero => true
  | .one => true
  | .sing _ => false
  | .smul _ _ => false
  | .expr cls _ => sc cls

/-- `x is IdentityOperator` -/
def isId : Obj V → Bool
  | .sing 0 => true
  | _ => false

/-- what `==` returns: the truth value, and whether the object is a NumPy boolean -/
abbrev Ans := Bool × Bool

mutual
/-- `a.__eq__(b)`; `none` is `NotImplemented` -/
def eqMethod (sc : ℕ → Bool) : Obj V → Obj V → Option Ans
  -- numbers know numbers
  | .num v n, .num w m => some (decide (v = w), n || m)
  | .num _ _, _ => none
  -- `ScalarValue.__eq__`
  | .sval v n, .sval w m => some (pyEq sc (.num v n) (.num w m))
  | .sval v n, b => some (pyEq sc (.num v n) b)
  -- `singleton_object`: `other == cls._hash_val`
  | .zero, b => some (pyEq sc b (.num 0 false))
  | .one, b => some (pyEq sc b (.num 1 false))
  -- `singleton_object`: `other is self`
  | .sing k, b =>
    match b with
    | .sing k' => some (decide (k = k'), false)
    | _ => some (false, false)
  -- `ScalarTimesOperator.__eq__`
  | .smul c t, b =>
    if isId t && isScalar sc b then some (pyEq sc c b)
    else
      match b with
      | .smul c' t' => some ((pyEq sc c c').1 && (pyEq sc t t').1, false)
      | _ => some (false, false)
  -- `Expression.__eq__`; without `_instance_key` (numbers) or with another class: `False`
  | .expr cls args, b =>
    match b with
    | .expr cls' args' => some (decide (cls = cls') && pyEqList sc args args', false)
    | _ => some (false, false)
termination_by a b => (a.size + b.size, 0)
decreasing_by all_goals (simp only [Obj.size, Prod.lex_def]; omega)
/-- `a == b` -/
def pyEq (sc : ℕ → Bool) (a b : Obj V) : Ans :=
  match eqMethod sc a b with
  | some r => r
  | none =>
    match eqMethod sc b a with
    | some r => r
    | none => (false, false)
termination_by (a.size + b.size, 1)
decreasing_by all_goals first | exact Prod.Lex.right _ Nat.zero_lt_one | (rw [Nat.add_comm]; exact Prod.Lex.right _ Nat.zero_lt_one)
/-- comparison of tuples -/
def pyEqList (sc : ℕ → Bool) : List (Obj V) → List (Obj V) → Bool
  | [], [] => true
  | a :: l, b :: m => (pyEq sc a b).1 && pyEqList sc l m
  | _, _ => false
termination_by l m => (sizes l + sizes m, 0)
decreasing_by all_goals (simp only [sizes, Prod.lex_def]; omega)
end

/-- `a.__ne__(b)` (lines 661-669); numbers know numbers -/
def neMethod (sc : ℕ → Bool) (a b : Obj V) : Option Ans :=
  match a, b with
  | .num v n, .num w m => some (decide (v ≠ w), n || m)
  | .num _ _, _ => none
  | a, b =>
    match eqMethod sc a b with
    | some (r, false) => some (!r, false)
    | _ => none

/-- `a != b`; `same` tells whether `a` and `b` are the same object -/
def pyNe (sc : ℕ → Bool) (same : Bool) (a b : Obj V) : Bool :=
  match neMethod sc a b with
  | some r => r.1
  | none =>
    match neMethod sc b a with
    | some r => r.1
    | none => !same

/-- Python's hash function, on numbers (where equal numbers have equal hashes), on classes and on tuples of hashes -/
structure Hash (V : Type) where
  num : V → ℕ
  cls : ℕ → ℕ
  sing : ℕ → ℕ
  smul : ℕ
  tuple : List ℕ → ℕ

mutual
/-- `hash(a)`: `abstract_algebra.py` 370-373, `scalar_algebra.py` 343-344, `operator_algebra.py` 510-512, `singleton.py` 63, 66 -/
def hash (H : Hash V) : Obj V → ℕ
  | .num v _ => H.num v
  | .sval v _ => H.num v
  | .zero => H.num 0
  | .one => H.num 1
  | .sing k => H.sing k
  | .smul c t => H.tuple [H.smul, hash H c, hash H t]
  | .expr cls args => H.tuple (H.cls cls :: hashes H args)
def hashes (H : Hash V) : List (Obj V) → List ℕ
  | [] => []
  | a :: l => hash H a :: hashes H l
end

end QNET.PyEq
