import Mathlib.Data.List.Basic
import Mathlib.Data.List.Nodup

/-!
# C24: `temporary_rules` and `temporary_instance_cache`

Model of `src/qnet/algebra/toolbox/core.py`, lines 30-102, on a heap of mutable Python objects: class attributes are references to
dictionaries (or lists), found along the method resolution order of the class, so that classes may share a dictionary. -/

namespace QNET.Cache.Rules

/-- the class attributes `_instances`, `simplifications`, `_rules`, `_binary_rules` -/
inductive Attr where
  | instances | simplifications | rules | binaryRules
  deriving DecidableEq

/-- contents of a dictionary, or list: pairs (key, value) in order -/
abbrev Obj := List (ℕ × ℕ)

/-- The mutable state: objects by reference, own attributes of classes; and the (fixed) method resolution order `mro` of every class. -/
structure World where
  heap : List Obj
  own : ℕ → Attr → Option ℕ
  mro : ℕ → List ℕ

/-- `cls.attr`: the first class in the method resolution order that has the attribute. -/
def World.lookup (w : World) (c : ℕ) (a : Attr) : Option ℕ := (w.mro c).findSome? (fun d => w.own d a)

/-- contents of an object -/
def World.content (w : World) (r : ℕ) : Obj := w.heap.getD r []

/-- `cls.attr = obj` for a reference -/
def World.setAttr (w : World) (c : ℕ) (a : Attr) (r : ℕ) : World :=
  { w with own := fun d b => if d = c ∧ b = a then some r else w.own d b }

/-- creating a new object and binding it: `cls.attr = obj` -/
def World.bindNew (w : World) (c : ℕ) (a : Attr) (o : Obj) : World :=
  { w.setAttr c a w.heap.length with heap := w.heap ++ [o] }

/-- changing an object in place -/
def World.modify (w : World) (r : ℕ) (o : Obj) : World := { w with heap := w.heap.set r o }

/-- What can be done inside a block. -/
inductive Prog where
  /-- the end of the program -/
  | done
  /-- an exception is raised -/
  | raise
  /-- an operation on the dictionary `cls.attr`, in place: a new instance in the cache, `add_rule`, `del_rules(name)`; `none`: the
  operation raises an exception -/
  | mutate (c : ℕ) (a : Attr) (f : Obj → Option Obj) (next : Prog)
  /-- `cls.attr = obj`, a new object: `del_rules()`, `cls.simplifications = [...]` -/
  | rebind (c : ℕ) (a : Attr) (o : Obj) (next : Prog)
  /-- `with temporary_rules(*classes, clear=clear): body` -/
  | tempRules (classes : List ℕ) (clear : Bool) (body next : Prog)
  /-- `with temporary_instance_cache(*classes): body` -/
  | tempCache (classes : List ℕ) (body next : Prog)
  /-- `try: body  except: pass` -/
  | attempt (body next : Prog)
  /-- the program may depend on everything -/
  | read (k : World → Prog)

/-- replacing the object of an attribute by a new one computed from it, if the class has the attribute -/
def replaceAttr (c : ℕ) (a : Attr) (o : Obj → Obj) (w : World) : World :=
  match w.lookup c a with
  | some r => w.bindNew c a (o (w.content r))
  | none => w

/-- The loop on entering `temporary_rules`, lines 70-92: for every class the references of the four attributes are recorded, and the
attributes bound to an empty dictionary, a copy of the list, and empty dictionaries or copies. A class without `_instances` or
`simplifications` is not an `Expression` class (model: the attribute is left alone). -/
def enterRules (clear : Bool) : List ℕ → World → World × List (ℕ × (Attr → Option ℕ))
  | [], w => (w, [])
  | c :: cs, w =>
    let w1 := replaceAttr c .instances (fun _ => []) w
    let w2 := replaceAttr c .simplifications id w1
    let w3 := replaceAttr c .rules (fun o => if clear then [] else o) w2
    let w4 := replaceAttr c .binaryRules (fun o => if clear then [] else o) w3
    let r := enterRules clear cs w4
    (r.1, (c, fun a => w.lookup c a) :: r.2)

/-- restoring one attribute -/
def restoreAttr (c : ℕ) (saved : Attr → Option ℕ) (w : World) (a : Attr) : World :=
  match saved a with
  | some r => w.setAttr c a r
  | none => w

/-- The `finally` clause, lines 95-102. -/
def leave (attrs : List Attr) : List (ℕ × (Attr → Option ℕ)) → World → World
  | [], w => w
  | (c, saved) :: l, w => leave attrs l (attrs.foldl (restoreAttr c saved) w)

/-- The loop on entering `temporary_instance_cache`, lines 38-42. -/
def enterCache : List ℕ → World → World × List (ℕ × (Attr → Option ℕ))
  | [], w => (w, [])
  | c :: cs, w =>
    let r := enterCache cs (replaceAttr c .instances (fun _ => []) w)
    (r.1, (c, fun a => w.lookup c a) :: r.2)

/-- all attributes in the order of the `finally` clause -/
def allAttrs : List Attr := [.instances, .simplifications, .rules, .binaryRules]

/-- Execution; the Boolean is `true` if it ends with an exception. -/
def exec : Prog → World → World × Bool
  | .done, w => (w, false)
  | .raise, w => (w, true)
  | .mutate c a f next, w =>
    match w.lookup c a with
    | none => (w, true)
    | some r =>
      match f (w.content r) with
      | none => (w, true)
      | some o => exec next (w.modify r o)
  | .rebind c a o next, w =>
    match w.lookup c a with
    | none => (w, true)
    | some _ => exec next (w.bindNew c a o)
  | .tempRules cs clear body next, w =>
    let r := exec body (enterRules clear cs w).1
    let w3 := leave allAttrs (enterRules clear cs w).2 r.1
    if r.2 then (w3, true) else exec next w3
  | .tempCache cs body next, w =>
    let r := exec body (enterCache cs w).1
    let w3 := leave [.instances] (enterCache cs w).2 r.1
    if r.2 then (w3, true) else exec next w3
  | .attempt body next, w => exec next (exec body w).1
  | .read k, w => exec (k w) w

/-- the program operates on classes in `T` only -/
def OnlyOn (T : ℕ → Prop) : Prog → Prop
  | .done => True
  | .raise => True
  | .mutate c _ _ next => T c ∧ OnlyOn T next
  | .rebind c _ _ next => T c ∧ OnlyOn T next
  | .tempRules cs _ body next => (∀ c ∈ cs, T c) ∧ OnlyOn T body ∧ OnlyOn T next
  | .tempCache cs body next => (∀ c ∈ cs, T c) ∧ OnlyOn T body ∧ OnlyOn T next
  | .attempt body next => OnlyOn T body ∧ OnlyOn T next
  | .read k => ∀ w, OnlyOn T (k w)

/-- Method resolution orders begin with the class itself, and contain with a class all its ancestors. -/
structure MroOk (mro : ℕ → List ℕ) : Prop where
  head : ∀ c, ∃ l, mro c = c :: l
  trans : ∀ c d, d ∈ mro c → ∀ e ∈ mro d, e ∈ mro c

end QNET.Cache.Rules
