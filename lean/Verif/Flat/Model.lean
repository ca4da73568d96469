import Mathlib.Order.Defs.LinearOrder
import Mathlib.Order.Nat
import Mathlib.Logic.Function.Basic
import Mathlib.Data.List.Nodup
import Verif.Util.Sort

/-!
# C105: the flat API (`src/qnet/_flat_api_tools.py`): model

Objects (modules included) are known by their identity, a number; full names of modules are represented by the identity of the module. Simplifications: importing a
submodule binds its name in the package each time (Python: at the first import) and has no other effect; `pkgutil.iter_modules` is the list of submodules.
-/

namespace QNET.Flat

/-- AttributeError (a name of `__all__` does not exist), ImportError -/
inductive Err
  | attribute
  | importing
deriving DecidableEq

/-- the parameters of `_import_submodules`, lines 35-37 -/
structure Cfg where
  /-- `include` -/
  incl : Option (List ℕ) := none
  /-- `exclude` -/
  excl : List ℕ := []
  /-- `include_private_modules` -/
  priv : Bool := false
  /-- `recursive` -/
  deep : Bool := true

mutual
/-- a module: identity, attributes, `__all__` (if there is one), whether it is a package, its submodules -/
inductive Mod (N : Type)
  | mk (id : ℕ) (attrs : N → Option ℕ) (all : Option (List N)) (pkg : Bool) (subs : Subs N)
/-- submodules with their names -/
inductive Subs (N : Type)
  | nil
  | cons (name : N) (m : Mod N) (rest : Subs N)
end

namespace Mod
variable {N : Type}
/-- identity -/
def id : Mod N → ℕ | .mk i _ _ _ _ => i
/-- attributes -/
def attrs : Mod N → N → Option ℕ | .mk _ a _ _ _ => a
/-- `__all__`, lines 73-74 -/
def all : Mod N → List N | .mk _ _ l _ _ => l.getD []
/-- `ispkg` -/
def pkg : Mod N → Bool | .mk _ _ _ p _ => p
/-- submodules -/
def subs : Mod N → Subs N | .mk _ _ _ _ s => s
/-- lines 73-74 -/
def setAll : Mod N → Mod N | .mk i a l p s => .mk i a (some (l.getD [])) p s
end Mod

variable {N : Type} [LinearOrder N]

/-- the inner loop, lines 78-92 -/
def addNames (sub : N → Option ℕ) : List N → (N → Option ℕ) → List N → Except Err ((N → Option ℕ) × List N)
  | [], a, l => .ok (a, l)
  | n :: ns, a, l =>
    match sub n with
    | none => .error .attribute
    | some o =>
      match a n with
      | some o' => if o' = o then addNames sub ns a l else .error .importing
      | none => addNames sub ns (Function.update a n (some o)) (l ++ [n])

/-- the tests of lines 69-72 -/
def Cfg.admits (c : Cfg) (m : Mod N) : Bool := !c.excl.contains m.id && match c.incl with
  | none => true
  | some l => l.contains m.id

mutual
/-- `_import_submodules`, lines 35-93 -/
def Mod.flat (private_ : N → Bool) (c : Cfg) : Mod N → Except Err (Mod N)
  | .mk i a l p s => s.loop private_ c a (l.getD []) >>= fun r => .ok (.mk i r.1 (some (isort (fun x y => decide (x ≤ y)) r.2.1)) p r.2.2)
/-- the outer loop, lines 65-92 -/
def Subs.loop (private_ : N → Bool) (c : Cfg) : Subs N → (N → Option ℕ) → List N → Except Err ((N → Option ℕ) × List N × Subs N)
  | .nil, a, l => .ok (a, l, .nil)
  | .cons name m rest, a, l =>
    if private_ name && !c.priv then rest.loop private_ c a l >>= fun r => .ok (r.1, r.2.1, .cons name m r.2.2)
    else if !c.admits m then rest.loop private_ c (Function.update a name (some m.id)) l >>= fun r => .ok (r.1, r.2.1, .cons name m r.2.2)
    else (if c.deep && m.pkg then m.flat private_ {} else .ok m.setAll) >>= fun m' =>
      addNames m'.attrs m'.all (Function.update a name (some m.id)) l >>= fun q =>
        rest.loop private_ c q.1 q.2 >>= fun r => .ok (r.1, r.2.1, .cons name m' r.2.2)
end

/-! ### specification -/

/-- the submodule is to be imported (`include`, `exclude`) -/
def Cfg.Wants (c : Cfg) (m : Mod N) : Prop := m.id ∉ c.excl ∧ ∀ l, c.incl = some l → m.id ∈ l

mutual
/-- the public names of a module and of its submodules, and what they denote -/
def Mod.Pub (private_ : N → Bool) (c : Cfg) : Mod N → N → ℕ → Prop
  | .mk _ a l _ s, n, o => (n ∈ l.getD [] ∧ a n = some o) ∨ s.Pub private_ c n o
/-- the public names of submodules -/
def Subs.Pub (private_ : N → Bool) (c : Cfg) : Subs N → N → ℕ → Prop
  | .nil, _, _ => False
  | .cons name m rest, n, o =>
    ((private_ name = true → c.priv = true) ∧ c.Wants m ∧
      ((n ∈ m.all ∧ m.attrs n = some o) ∨ (c.deep = true ∧ m.pkg = true ∧ m.Pub private_ {} n o))) ∨ rest.Pub private_ c n o
end

/-- the names that become attributes because they are names of submodules -/
def Subs.bound (private_ : N → Bool) (c : Cfg) : Subs N → List N
  | .nil => []
  | .cons name _ rest => (if private_ name && !c.priv then [] else [name]) ++ rest.bound private_ c

mutual
/-- the packages are written in such a way that: names in `__all__` exist; public names are not names of submodules; what `__init__` itself imports from
submodules it lists in `__all__` -/
def Mod.Clean (private_ : N → Bool) (c : Cfg) : Mod N → Prop
  | .mk _ a l _ s => (∀ n ∈ l.getD [], a n ≠ none ∧ n ∉ s.bound private_ c) ∧
    (∀ n o, s.Pub private_ c n o → n ∉ s.bound private_ c ∧ (a n = none ∨ n ∈ l.getD [])) ∧ s.Clean private_ c
/-- all submodules that are imported -/
def Subs.Clean (private_ : N → Bool) (c : Cfg) : Subs N → Prop
  | .nil => True
  | .cons name m rest => ((private_ name = true → c.priv = true) → c.Wants m → (∀ n ∈ m.all, m.attrs n ≠ none) ∧
      (c.deep = true → m.pkg = true → m.Clean private_ {})) ∧ rest.Clean private_ c
end

end QNET.Flat
