import Verif.Perm.Model

/-!
# Model of the rewriting engine `match_replace_binary` (`src/qnet/algebra/core/algebraic_properties.py`)

The rewriting is modelled for an arbitrary type `α` of operands and an arbitrary rule set, given by
* `rule x y` — `_get_binary_replacement(first, second, cls)`, lines 323-350: `ok (some r)` if the first matching rule that does
  not raise `CannotSimplify` yields `r`, `ok none` if there is none, `error e` if a rule raises another exception;
* `neutral r` — `r == cls._neutral_element`, line 412;
* `flat r` — the operands of `r` if `isinstance(r, cls)`, lines 414-415.

The recursion of the code is unbounded; the model has a recursion depth (`fuel`), whose exhaustion is the error
`recursion` (Python: `RecursionError`).
-/

namespace QNET.Engine

open QNET.Perm (Res Err)

variable {α : Type}

/-- `assoc`, lines 44-54: operands of the same class are replaced by their operands. -/
def assoc (flat : α → Option (List α)) (ops : List α) : List α :=
  ops.flatMap (fun o => (flat o).getD [o])

/-- The outcome of a simplification step: a finished object (`single`) or new operands. -/
inductive Outcome (α : Type) where
  | single (x : α)
  | operands (l : List α)

/-- `filter_neutral`, lines 121-144. The `IndexError` of `ops[0]` is impossible. -/
def filterNeutral (ne : α) (isNeutral : α → Bool) (ops : List α) : Outcome α :=
  match ops with
  | [] => .single ne
  | o :: _ =>
    match ops.filter (fun x => !isNeutral x) with
    | [] => .single o
    | [x] => .single x
    | l => .operands l

/-- `_match_replace_binary_combine`, lines 405-421: combine two fully reduced lists `a`, `b`. -/
def combine (rule : α → α → Res (Option α)) (neutral : α → Bool) (flat : α → Option (List α)) :
    Nat → List α → List α → Res (List α)
  | 0, _, _ => .error .recursion
  | f + 1, a, b =>
    match a.getLast?, b with
    | some x, y :: b' =>
      match rule x y with
      | .error e => .error e
      | .ok none => .ok (a ++ b)
      | .ok (some r) =>
        if neutral r then combine rule neutral flat f a.dropLast b'
        else
          match combine rule neutral flat f a.dropLast ((flat r).getD [r]) with
          | .error e => .error e
          | .ok m => combine rule neutral flat f m b'
    | _, _ => .ok (a ++ b)

/-- `_match_replace_binary`, lines 392-402. -/
def reduce (rule : α → α → Res (Option α)) (neutral : α → Bool) (flat : α → Option (List α)) :
    Nat → List α → Res (List α)
  | 0, _ => .error .recursion
  | f + 1, ops =>
    if ops.length ≤ 1 then .ok ops
    else
      match reduce rule neutral flat f (ops.take (ops.length / 2)) with
      | .error e => .error e
      | .ok a =>
        match reduce rule neutral flat f (ops.drop (ops.length / 2)) with
        | .error e => .error e
        | .ok b => combine rule neutral flat f a b

/-- `match_replace_binary`, lines 353-389. -/
def matchReplaceBinary (rule : α → α → Res (Option α)) (ne : α) (neutral : α → Bool) (flat : α → Option (List α))
    (fuel : Nat) (ops : List α) : Res (Outcome α) :=
  match reduce rule neutral flat fuel ops with
  | .error e => .error e
  | .ok [] => .ok (.single ne)
  | .ok [x] => .ok (.single x)
  | .ok l => .ok (.operands l)

/-- `Expression.create` (abstract_algebra.py lines 104-183) for a class with `simplifications = [assoc, filter_neutral,
match_replace_binary]` (e.g. `Concatenation`, circuit_algebra.py line 1108): a simplification that returns a finished object
ends the pipeline (lines 151-172). The instance cache is left out (see `Verif/Cache`). -/
def createAssoc (rule : α → α → Res (Option α)) (ne : α) (neutral : α → Bool) (flat : α → Option (List α))
    (fuel : Nat) (ops : List α) : Res (Outcome α) :=
  match filterNeutral ne neutral (assoc flat ops) with
  | .single x => .ok (.single x)
  | .operands l => matchReplaceBinary rule ne neutral flat fuel l

end QNET.Engine
