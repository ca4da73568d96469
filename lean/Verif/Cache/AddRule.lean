import Mathlib.Data.List.Basic
import Mathlib.Data.List.Nodup
import Mathlib.Data.Finset.Basic
import Verif.Cache.Rules
import Verif.Cache.Create

/-!
# C83: `add_rule`, `del_rules`, `rules`

Model of `Expression._rules_attr`, `add_rule`, `del_rules`, `rules` (`src/qnet/algebra/core/abstract_algebra.py`, lines 201-337) and
`check_rules_dict` (`src/qnet/utils/check_rules.py`, lines 9-76), on the heap of class attributes of `Verif.Cache.Rules`; and of histories
of `create` calls between which rules are changed. -/

namespace QNET.Cache.Rules

/-- the exceptions -/
inductive RErr where
  | typeError | valueError | keyError | attributeError
  deriving DecidableEq

/-- The arguments of `add_rule`: the name (`none`: not a `str`), the pattern (`none`: not a `Pattern`; otherwise whether its head is
`ProtoExpr`, and its wildcard names), the replacement (`none`: not callable; otherwise the names of its parameters), and the identity of the
pair (pattern, replacement). -/
structure Cand where
  name : Option ℕ
  pat : Option (Bool × Finset ℕ)
  repl : Option (List ℕ)
  code : ℕ

/-- `check_rules_dict([(name, (pattern, replacement))])`, check_rules.py lines 37-76, for a single rule: the checks in their order. -/
def checkRule (r : Cand) : Except RErr (ℕ × ℕ) :=
  match r.name with
  | none => .error .typeError
  | some n =>
    match r.pat with
    | none => .error .typeError
    | some (proto, wcs) =>
      if proto = false then .error .valueError
      else
        match r.repl with
        | none => .error .valueError
        | some ps => if ps.toFinset = wcs then .ok (n, r.code) else .error .valueError

/-- entry of the list `simplifications` for `match_replace` -/
def matchReplaceEntry : ℕ × ℕ := (0, 0)

/-- entry of the list `simplifications` for `match_replace_binary` -/
def matchReplaceBinaryEntry : ℕ × ℕ := (1, 0)

/-- `_rules_attr`, lines 201-213. -/
def rulesAttr (w : World) (c : ℕ) : Except RErr Attr :=
  match w.lookup c .simplifications with
  | none => .error .attributeError
  | some r =>
    if matchReplaceEntry ∈ w.content r then .ok .rules
    else if matchReplaceBinaryEntry ∈ w.content r then .ok .binaryRules
    else .error .typeError

/-- `if attr is None: attr = cls._rules_attr()`, lines 249-250, 313-314, 333-334 -/
def pickAttr (w : World) (c : ℕ) (attr : Option Attr) : Except RErr Attr :=
  match attr with
  | none => rulesAttr w c
  | some a => .ok a

/-- the dictionary `getattr(cls, attr)` -/
def getRules (w : World) (c : ℕ) (attr : Option Attr) : Except RErr ℕ :=
  match pickAttr w c attr with
  | .error e => .error e
  | .ok a =>
    match w.lookup c a with
    | none => .error .attributeError
    | some r => .ok r

/-- `cls.add_rule(name, pattern, replacement, attr)`, lines 215-257: the name must be new (line 251; a name that is not a string is not
in the dictionary), the rule must be valid, and is appended. A failed call leaves everything as it was. -/
def addRule (w : World) (c : ℕ) (r : Cand) (attr : Option Attr) : Except RErr World :=
  match getRules w c attr with
  | .error e => .error e
  | .ok d =>
    if ∃ n, r.name = some n ∧ n ∈ (w.content d).map Prod.fst then .error .valueError
    else
      match checkRule r with
      | .error e => .error e
      | .ok p => .ok (w.modify d (w.content d ++ [p]))

/-- `del d[name]` -/
def delKey (n : ℕ) (o : Obj) : Option Obj :=
  if n ∈ o.map Prod.fst then some (o.filter (fun p => p.1 ≠ n)) else none

/-- the loop `for name in names: del getattr(cls, attr)[name]`, lines 319-320: the dictionary afterwards, and whether a `KeyError` ended the
loop -/
def delLoop : List ℕ → Obj → Obj × Bool
  | [], o => (o, false)
  | n :: ns, o =>
    match delKey n o with
    | none => (o, true)
    | some o' => delLoop ns o'

/-- `cls.del_rules(*names, attr)`, lines 298-320: the state afterwards, and the exception. -/
def delRules (w : World) (c : ℕ) (names : List ℕ) (attr : Option Attr) : World × Option RErr :=
  match pickAttr w c attr with
  | .error e => (w, some e)
  | .ok a =>
    match w.lookup c a with
    | none => (w, some .attributeError)
    | some d =>
      if names.length = 0 then (w.bindNew c a [], none)
      else
        let r := delLoop names (w.content d)
        (w.modify d r.1, if r.2 then some .keyError else none)

/-- `cls.rules(attr)`, lines 323-337: the names in order; `()` if the class has no rules (line 336-337); `AttributeError` for a wrong
attribute. -/
def ruleNames (w : World) (c : ℕ) (attr : Option Attr) : Except RErr (List ℕ) :=
  match getRules w c attr with
  | .ok d => .ok ((w.content d).map Prod.fst)
  | .error .typeError => .ok []
  | .error e => .error e

/-- `match_replace` on the arguments `x`: the first rule that matches and does not refuse (algebraic_properties.py lines 250-312);
a rule is a partial function of the arguments, `plain` the expression that is made if no rule applies -/
def firstRule {X V : Type} (rules : List (X → Option V)) (plain : X → V) (x : X) : V := (rules.findSome? (fun f => f x)).getD (plain x)

end QNET.Cache.Rules

namespace QNET.Cache

variable {Call Val Err K R : Type} [DecidableEq K]

/-- Actions of a user who also changes rules: `change r` stands for any `add_rule` or `del_rules` after which the rules are `r`;
`clear` for emptying the caches, as on entering `temporary_rules` or `temporary_instance_cache`. -/
inductive RAct (Call R : Type) where
  | create (c : Call)
  | change (r : R)
  | caching (b : Bool)
  | clear

/-- The state: the rules, the flag `instance_caching`, the cache. -/
structure RState (K Val R : Type) where
  rules : R
  on : Bool
  cache : Cache K Val

/-- A history with the results of its `create` calls and the rules that were in force. The method `create` (lines 104-185) looks at the cache
before any rule is tried; `add_rule` and `del_rules` (lines 215-320) do not touch the cache. -/
inductive RHistory (code : R → Call → Comp Call Val Err) (key : Call → K) :
    RState K Val R → List (RAct Call R) → List (R × Call × Except Err Val) → RState K Val R → Prop
  | nil {s} : RHistory code key s [] [] s
  | create {s c r ca l rs s'} : Run (code s.rules) key s.on s.cache c r ca → RHistory code key { s with cache := ca } l rs s' →
      RHistory code key s (.create c :: l) ((s.rules, c, r) :: rs) s'
  | change {s q l rs s'} : RHistory code key { s with rules := q } l rs s' → RHistory code key s (.change q :: l) rs s'
  | caching {s b l rs s'} : RHistory code key { s with on := b } l rs s' → RHistory code key s (.caching b :: l) rs s'
  | clear {s l rs s'} : RHistory code key { s with cache := [] } l rs s' → RHistory code key s (.clear :: l) rs s'

end QNET.Cache
