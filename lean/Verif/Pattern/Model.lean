import Mathlib.Data.List.Basic
import Mathlib.Data.Int.Order.Basic

/-!
# Model of `src/qnet/algebra/pattern_matching/__init__.py`
-/

namespace QNET.Pattern

/-- Objects that patterns are matched against: an `Expression` (or `ProtoExpr`) with its class, positional arguments and keyword
arguments, or another object (a number, a string, ...) that has no `args`. -/
inductive Ex where
  | leaf (a : ℕ)
  | node (cls : ℕ) (args : List Ex) (keys : List ℕ) (vals : List Ex)

mutual
/-- `==` of expressions: same class, equal arguments and keyword arguments -/
def Ex.beq : Ex → Ex → Bool
  | .leaf a, .leaf b => a == b
  | .node c as ks vs, .node d bs ls ws => c == d && Ex.beqL as bs && ks == ls && Ex.beqL vs ws
  | _, _ => false
/-- equality of lists of expressions -/
def Ex.beqL : List Ex → List Ex → Bool
  | [], [] => true
  | a :: as, b :: bs => Ex.beq a b && Ex.beqL as bs
  | _, _ => false
end

mutual
theorem Ex.beq_iff : ∀ a b : Ex, Ex.beq a b = true ↔ a = b
  | .leaf a, .leaf b => by simp [Ex.beq]
  | .leaf _, .node .. => by simp [Ex.beq]
  | .node .., .leaf _ => by simp [Ex.beq]
  | .node c as ks vs, .node d bs ls ws => by
    have h1 := Ex.beqL_iff as bs
    have h2 := Ex.beqL_iff vs ws
    simp [Ex.beq, h1, h2, and_assoc]
theorem Ex.beqL_iff : ∀ a b : List Ex, Ex.beqL a b = true ↔ a = b
  | [], [] => by simp [Ex.beqL]
  | [], _ :: _ => by simp [Ex.beqL]
  | _ :: _, [] => by simp [Ex.beqL]
  | a :: as, b :: bs => by
    have h1 := Ex.beq_iff a b
    have h2 := Ex.beqL_iff as bs
    simp [Ex.beqL, h1, h2]
end

instance : DecidableEq Ex := fun a b => decidable_of_iff _ (Ex.beq_iff a b)

/-- `expr.kwargs[key]`; `none` is `KeyError` (or `AttributeError` for an object without `kwargs`) -/
def Ex.kw : Ex → ℕ → Option Ex
  | .leaf _, _ => none
  | .node _ _ ks vs, k => (ks.zip vs).lookup k

/-- `Pattern.single`, `Pattern.one_or_more`, `Pattern.zero_or_more`, lines 176-178 -/
inductive Mode where
  | single | oneOrMore | zeroOrMore
  deriving DecidableEq

/-- The first argument of `match_pattern`: an expression, or a `Pattern` (lines 102-230) with optional head, optional list of argument
patterns (`hasArgs = false` is `args=None`), keyword-argument patterns (`kwargs=None` behaves as the empty dictionary), mode, optional
wildcard name, and conditions. Types and condition functions are represented by numbers, interpreted by `Env`. -/
inductive Pat where
  | expr (e : Ex)
  | pat (head : Option ℕ) (hasArgs : Bool) (args : List Pat) (keys : List ℕ) (kwpats : List Pat) (mode : Mode) (wc : Option ℕ)
      (conds : List ℕ)

/-- `isinstance(expr, head)` and `condition(expr)`. Simplification: conditions do not raise exceptions. -/
structure Env where
  isinst : ℕ → Ex → Bool
  cond : ℕ → Ex → Bool

/-- `mode`; an expression used as a pattern counts as single -/
def Pat.mode : Pat → Mode
  | .expr _ => .single
  | .pat _ _ _ _ _ m _ _ => m

/-- `wc_name` -/
def Pat.wc : Pat → Option ℕ
  | .expr _ => none
  | .pat _ _ _ _ _ _ w _ => w

/-- is the mode `single`? -/
def Pat.isSingle (p : Pat) : Bool := p.mode = .single

mutual
/-- `Pattern.__eq__`, lines 445-449: the head is not compared. -/
def Pat.peq : Pat → Pat → Bool
  | .expr a, .expr b => a = b
  | .pat _ ha as ks ps m w c, .pat _ hb bs ls qs n x d => ha == hb && Pat.peqL as bs && ks == ls && Pat.peqL ps qs && m = n && w == x && c == d
  | _, _ => false
/-- comparison of lists -/
def Pat.peqL : List Pat → List Pat → Bool
  | [], [] => true
  | a :: as, b :: bs => Pat.peq a b && Pat.peqL as bs
  | _, _ => false
end

/-- `Pattern.__init__`, lines 199-212: only the first or last argument pattern may be non-single. -/
def argsAccepted (args : List Pat) : Bool := (args.drop 1).dropLast.all Pat.isSingle

/-- A value in a match result: an expression or a list of expressions. -/
inductive Val where
  | one (e : Ex)
  | many (l : List Ex)
  deriving DecidableEq

/-- `MatchDict`, lines 26-99: entries and `merge_lists`. -/
structure MD where
  items : List (ℕ × Val)
  merge : ℤ

/-- `self[key]` -/
def MD.get (d : MD) (k : ℕ) : Option Val := d.items.lookup k

/-- replace the value of an existing key -/
def replaceVal (k : ℕ) (v : Val) : List (ℕ × Val) → List (ℕ × Val)
  | [] => []
  | (j, w) :: l => if j = k then (j, v) :: l else (j, w) :: replaceVal k v l

/-- `MatchDict.__setitem__`, lines 61-75; `none` is `KeyError`. -/
def MD.set (d : MD) (k : ℕ) (v : Val) : Option MD :=
  match d.get k with
  | none => some { d with items := d.items ++ [(k, v)] }
  | some w =>
    match w, v with
    | .many a, .many b =>
      if d.merge < 0 then some { d with items := replaceVal k (.many (a ++ b)) d.items }
      else if d.merge > 0 then some { d with items := replaceVal k (.many (b ++ a)) d.items }
      else if a = b then some d else none
    | _, _ => if w = v then some d else none

/-- `MatchDict.update(other)` for the items of another result, lines 83-98. -/
def MD.update (d : MD) : List (ℕ × Val) → Option MD
  | [] => some d
  | (k, v) :: l => (d.set k v).bind (fun d' => d'.update l)

/-- exceptions that escape from `match` -/
inductive Crash where
  | unboundLocal
  deriving DecidableEq

/-- Result of matching: an exception, a failed match (`none`), or a match result. -/
abbrev R := Except Crash (Option MD)

/-- `_check_last_arg_pattern(current, last)` followed by the update of the result, lines 248-268, 310-315. -/
def checkLast (last cur : Pat) (d : MD) : Option MD :=
  match last with
  | .expr _ => none
  | .pat _ _ _ _ _ .single _ _ => none
  | .pat _ _ _ _ _ .zeroOrMore none _ => some d
  | .pat _ _ _ _ _ .zeroOrMore (some n) _ => if !last.peq cur then d.set n (.many []) else some d
  | .pat _ _ _ _ _ .oneOrMore _ _ => if !last.peq cur then none else some d

/-- The loop over the arguments of the expression together with the generator `extended_arg_patterns` (lines 232-246, 302-315): a
non-single pattern is yielded again and again. `gs` is the rest of the pattern list, `cur` the local variable `current_arg_pattern`. -/
def runArgs : List (Pat × (Ex → R)) → List Ex → Option Pat → MD → R
  | [], [], _, d => .ok (some d)
  | (_, _) :: _, [], none, _ => .error .unboundLocal
  | (q, _) :: _, [], some c, d => .ok (checkLast q c d)
  | [], _ :: _, _, _ => .ok none
  | (q, m) :: gs, a :: as, _, d =>
    match m a with
    | .error e => .error e
    | .ok none => .ok none
    | .ok (some r) =>
      match d.update r.items with
      | none => .ok none
      | some d' => runArgs (if q.isSingle then gs else (q, m) :: gs) as (some q) d'

/-- The loop over the keyword arguments, lines 316-320. -/
def runKw (e : Ex) : List (ℕ × (Ex → R)) → MD → R
  | [], d => .ok (some d)
  | (k, m) :: l, d =>
    match e.kw k with
    | none => .ok none
    | some v =>
      match m v with
      | .error e => .error e
      | .ok none => .ok none
      | .ok (some r) =>
        match d.update r.items with
        | none => .ok none
        | some d' => runKw e l d'

/-- is the first argument pattern non-single? (`_non_single_arg_on_left`) -/
def onLeft : List Pat → Bool
  | [] => false
  | q :: _ => !q.isSingle

/-- initial value of `merge_lists`, lines 285-289 -/
def mergeOf (args : List Pat) : ℤ := if args.all Pat.isSingle then 0 else if onLeft args then 1 else -1

/-- the positional-argument phase of `match`: lines 300-315 (`expr.args` of an object without arguments raises `AttributeError`, which
is turned into a failed match) -/
def argPhase (hasArgs : Bool) (args : List Pat) (ms : List (Pat × (Ex → R))) (e : Ex) (d0 : MD) : R :=
  if hasArgs then
    match e with
    | .leaf _ => .ok none
    | .node _ as _ _ => if onLeft args then runArgs ms.reverse as.reverse none d0 else runArgs ms as none d0
  else .ok (some d0)

/-- the last phase of `match`, lines 321-330: bind the name of the pattern itself -/
def bindOwn (mode : Mode) (wc : Option ℕ) (e : Ex) (d : MD) : R :=
  match wc with
  | none => .ok (some d)
  | some n => .ok (d.set n (if mode = .single then .one e else .many [e]))

/-- the body of `match` after head and conditions have been checked: lines 300-349 -/
def body (hasArgs : Bool) (args : List Pat) (ms : List (Pat × (Ex → R))) (kms : List (ℕ × (Ex → R))) (mode : Mode) (wc : Option ℕ) (e : Ex) : R :=
  match argPhase hasArgs args ms e ⟨[], if hasArgs then mergeOf args else 0⟩ with
  | .error e => .error e
  | .ok none => .ok none
  | .ok (some d1) =>
    match runKw e kms d1 with
    | .error e => .error e
    | .ok none => .ok none
    | .ok (some d2) => bindOwn mode wc e d2

/-- `head is None or isinstance(expr, head)`, lines 291-294 -/
def headOK (env : Env) (head : Option ℕ) (e : Ex) : Bool :=
  match head with
  | none => true
  | some h => env.isinst h e

mutual
/-- `match_pattern(p, e)`, lines 613-632, and `Pattern.match`, lines 270-349. -/
def matchP (env : Env) : Pat → Ex → R
  | .expr x, e => .ok (if x = e then some ⟨[], 0⟩ else none)
  | .pat head hasArgs args keys kwpats mode wc conds, e =>
    if headOK env head e && conds.all (fun c => env.cond c e) then
      body hasArgs args (matchers env args) (keys.zip (matchersKw env kwpats)) mode wc e
    else .ok none
/-- the matching functions of a list of patterns -/
def matchers (env : Env) : List Pat → List (Pat × (Ex → R))
  | [] => []
  | p :: ps => (p, fun e => matchP env p e) :: matchers env ps
/-- the matching functions of the keyword patterns -/
def matchersKw (env : Env) : List Pat → List (Ex → R)
  | [] => []
  | p :: ps => (fun e => matchP env p e) :: matchersKw env ps
end

mutual
/-- `Pattern.findall`, lines 351-368. -/
def findall (env : Env) (p : Pat) : Ex → Except Crash (List Ex)
  | .leaf a => do
    match ← matchP env p (.leaf a) with
    | some _ => return [.leaf a]
    | none => return []
  | .node c as ks vs => do
    let l1 ← findallL env p as
    let l2 ← findallL env p vs
    match ← matchP env p (.node c as ks vs) with
    | some _ => return l1 ++ l2 ++ [.node c as ks vs]
    | none => return l1 ++ l2
/-- the loops of `findall` -/
def findallL (env : Env) (p : Pat) : List Ex → Except Crash (List Ex)
  | [] => return []
  | a :: as => do
    let l1 ← findall env p a
    let l2 ← findallL env p as
    return l1 ++ l2
end

mutual
/-- `Pattern.finditer`, lines 370-388 (all results, as a list). -/
def finditer (env : Env) (p : Pat) : Ex → Except Crash (List MD)
  | .leaf a => do
    match ← matchP env p (.leaf a) with
    | some m => return [m]
    | none => return []
  | .node c as ks vs => do
    let l1 ← finditerL env p as
    let l2 ← finditerL env p vs
    match ← matchP env p (.node c as ks vs) with
    | some m => return l1 ++ l2 ++ [m]
    | none => return l1 ++ l2
/-- the loops of `finditer` -/
def finditerL (env : Env) (p : Pat) : List Ex → Except Crash (List MD)
  | [] => return []
  | a :: as => do
    let l1 ← finditer env p a
    let l2 ← finditerL env p as
    return l1 ++ l2
end

/-- `wc(name_mode)`: a wildcard with optional head, lines 491-523 -/
def wcP (name : Option ℕ) (mode : Mode) (head : Option ℕ) : Pat := .pat head false [] [] [] mode name []

/-- `pattern(head, *args)`, lines 452-465; without arguments `args` is `None` -/
def patternP (head : Option ℕ) (args : List Pat) : Pat := .pat head (!args.isEmpty) args [] [] .single none []

end QNET.Pattern
