import Verif.Pattern.Model

/-!
# Model of `Expression.apply_rules`, `_apply_rules`, and `substitute`

`src/qnet/algebra/core/abstract_algebra.py` lines 387-419, 535-575, 671-790, and `ProtoExpr`
(`src/qnet/algebra/pattern_matching/__init__.py`, lines 529-611).

Expressions are those of `Verif/Pattern/Model.lean`: other objects (`leaf`), and `Expression` objects (`node`) with class, arguments and
keyword arguments. Instantiation `cls.create(...)` and the application of a list of rules to a single expression are parameters.
-/

namespace QNET.Rewrite

open QNET.Pattern (Ex)

/-- exceptions -/
inductive Err where
  | attributeError
  | other
  deriving DecidableEq

abbrev Res := Except Err

/-- `cls.create(*args, **kwargs)` -/
abbrev Mk := ℕ → List Ex → List ℕ → List Ex → Res Ex

/-- An entry of the stack of `_apply_rules`: a `ProtoExpr` (lines 551-554) together with the entry of `path` at the same level. -/
structure Frame where
  cls : ℕ
  args : List Ex
  keys : List ℕ
  vals : List Ex
  i : ℕ

/-- `ProtoExpr.__getitem__`, lines 559-564; `none` is `IndexError` -/
def Frame.get (fr : Frame) (i : ℕ) : Option Ex := if i < fr.args.length then fr.args[i]? else fr.vals[i - fr.args.length]?

/-- `ProtoExpr.__setitem__`, lines 566-572 -/
def Frame.set (fr : Frame) (i : ℕ) (e : Ex) : Frame :=
  if i < fr.args.length then { fr with args := fr.args.set i e } else { fr with vals := fr.vals.set (i - fr.args.length) e }

/-- `path[-1] += 1` -/
def Frame.next (fr : Frame) : Frame := { fr with i := fr.i + 1 }

/-- `ProtoExpr.from_expr(expr)`, lines 603-606, with path entry 0 -/
def Frame.start (c : ℕ) (as : List Ex) (ks : List ℕ) (vs : List Ex) : Frame := ⟨c, as, ks, vs, 0⟩

/-- One pass of the `while True` loop of `_apply_rules`, lines 748-785: the new stack, or the result. `f` is
`_apply_rules_no_recurse(·, rules)`. -/
def step (mk : Mk) (f : Ex → Res Ex) : List Frame → Res (List Frame ⊕ Ex)
  | [] => .error .other
  | fr :: rest =>
    match fr.get fr.i with
    | none => do
      let e ← mk fr.cls fr.args fr.keys fr.vals
      let e ← f e
      match rest with
      | [] => .ok (.inr e)
      | g :: gs => .ok (.inl ((g.set g.i e).next :: gs))
    | some (.node c as ks vs) => .ok (.inl (Frame.start c as ks vs :: fr :: rest))
    | some (.leaf a) => do
      let e ← f (.leaf a)
      .ok (.inl ((fr.set fr.i e).next :: rest))

/-- the loop, for at most the given number of passes (`none`: not finished) -/
def run (mk : Mk) (f : Ex → Res Ex) : ℕ → List Frame → Option (Res Ex)
  | 0, _ => none
  | n + 1, st =>
    match step mk f st with
    | .error x => some (.error x)
    | .ok (.inr v) => some (.ok v)
    | .ok (.inl st') => run mk f n st'

/-- `_apply_rules(expr, rules)`, lines 712-790 -/
def applyRulesStack (mk : Mk) (f : Ex → Res Ex) (fuel : ℕ) : Ex → Option (Res Ex)
  | .leaf a => some (f (.leaf a))
  | .node c as ks vs => run mk f fuel [Frame.start c as ks vs]

/-- `substitute(expr, var_map)` for the arguments and keyword arguments (lines 672-692) as well as `Expression.substitute` and
`Expression._substitute` (lines 387-419). An `AttributeError` raised while an argument is processed is caught (line 689) and the argument
replaced only as a whole. `single c`: class `c` is a singleton. Simplification: `leaf` objects are replaced as a whole (`sympy`
objects have their own `subs`). -/
def substTop (mk : Mk) (single : ℕ → Bool) (m : Ex → Option Ex) (sub : List Ex → Res (List Ex)) (e : Ex) : Res Ex :=
  match m e with
  | some v => .ok v
  | none =>
    match e with
    | .leaf a => .ok (.leaf a)
    | .node c as ks vs =>
      if single c then .ok (.node c as ks vs)
      else do
        let as' ← sub as
        let vs' ← sub vs
        mk c as' ks vs'

/-- the `except AttributeError` clause, lines 689-692 -/
def catchAttr (m : Ex → Option Ex) (e : Ex) : Res Ex → Res Ex
  | .error .attributeError => .ok ((m e).getD e)
  | r => r

mutual
/-- module function `substitute(expr, var_map)` -/
def subst (mk : Mk) (single : ℕ → Bool) (m : Ex → Option Ex) : Ex → Res Ex
  | .leaf a => .ok ((m (.leaf a)).getD (.leaf a))
  | .node c as ks vs => catchAttr m (.node c as ks vs) (match m (.node c as ks vs) with
    | some v => .ok v
    | none =>
      if single c then .ok (.node c as ks vs)
      else do
        let as' ← substL mk single m as
        let vs' ← substL mk single m vs
        mk c as' ks vs')
/-- `[substitute(arg, var_map) for arg in args]` -/
def substL (mk : Mk) (single : ℕ → Bool) (m : Ex → Option Ex) : List Ex → Res (List Ex)
  | [] => .ok []
  | a :: as => do
    let x ← subst mk single m a
    let xs ← substL mk single m as
    .ok (x :: xs)
end

/-- method `expr.substitute(var_map)`, lines 387-396 -/
def substMethod (mk : Mk) (single : ℕ → Bool) (m : Ex → Option Ex) (e : Ex) : Res Ex := substTop mk single m (substL mk single m) e

end QNET.Rewrite
