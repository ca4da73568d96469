import Verif.Perm.Model
import Mathlib.Data.List.Basic
import Mathlib.Data.Rat.Floor

/-!
# Model of `Eq` (src/qnet/algebra/toolbox/equation.py)

The history of an equation is kept in three Python lists `_prev_lhs`, `_prev_rhs`, `_prev_tags`, which several equations may share
(`set_tag` and `copy` pass on the same list objects). To say that no operation changes another equation, the lists live in a heap: an equation holds
addresses. Expressions are values of an arbitrary type `V` with decidable equality (`==` of expressions), functions applied to the sides
are arbitrary and may raise exceptions.
-/

namespace QNET.Equation

open QNET.Perm (Res Err)

/-- tags: `None`, integers, strings; and numbers with a fractional part, which `int()` truncates -/
inductive Tag where
  | none
  | int (z : ℤ)
  | str (s : List Char)
  | frac (q : ℚ)
deriving DecidableEq

/-- `try: int(tag) except (ValueError, TypeError): tag`, lines 67-70; `parse` says which strings `int()` accepts -/
def toTag (parse : List Char → Option ℤ) : Tag → Tag
  | .str s => match parse s with
    | some z => .int z
    | none => .str s
  | .frac q => .int (if 0 ≤ q then q.floor else q.ceil)
  | t => t

/-- entries of the lists: `None`, an expression, or a tag -/
inductive Cell (V : Type) where
  | none
  | expr (v : V)
  | tag (t : Tag)
deriving DecidableEq

/-- the list objects in memory -/
abbrev Heap (V : Type) := List (List (Cell V))

/-- an `Eq` object: `_lhs` (or `None`), `_rhs`, `_tag` and the addresses of `_prev_lhs`, `_prev_rhs`, `_prev_tags` -/
structure Obj (V : Type) where
  lhs : Option V
  rhs : V
  tag : Tag
  prevLhs : ℕ
  prevRhs : ℕ
  prevTags : ℕ

/-- the memory: list objects and equations -/
structure State (V : Type) where
  heap : Heap V
  eqs : List (Obj V)

variable {V : Type}

/-- contents of a list object -/
def get (h : Heap V) (a : ℕ) : List (Cell V) := (h[a]?).getD []

/-- a new list object -/
def alloc (h : Heap V) (l : List (Cell V)) : Heap V × ℕ := (h ++ [l], h.length)

/-- `_prev or []` in `__init__`, lines 63-65: `None` and empty lists give a new empty list, other lists are shared -/
def orNew (h : Heap V) : Option ℕ → Heap V × ℕ
  | some a => if get h a = [] then alloc h [] else (h, a)
  | none => alloc h []

variable (parse : List Char → Option ℤ)

/-- `Eq(lhs, rhs, tag, _prev_lhs, _prev_rhs, _prev_tags)`, lines 59-70 -/
def init (h : Heap V) (lhs : Option V) (rhs : V) (tag : Tag) (pl pr pt : Option ℕ) : Heap V × Obj V :=
  let (h1, a) := orNew h pl
  let (h2, b) := orNew h1 pr
  let (h3, c) := orNew h2 pt
  (h3, ⟨lhs, rhs, toTag parse tag, a, b, c⟩)

/-- the loop of the property `lhs`, lines 75-80: `while lhs is None: i -= 1; lhs = self._prev_lhs[i]` going backwards through the list -/
def searchBack : List (Cell V) → Res V
  | [] => .error .indexError
  | .expr v :: _ => .ok v
  | .none :: l => searchBack l
  | .tag _ :: _ => .error .other

/-- the property `lhs`, lines 72-80 -/
def lhsOf (h : Heap V) (e : Obj V) : Res V := match e.lhs with
  | some v => .ok v
  | none => searchBack (get h e.prevLhs).reverse

/-- a left hand side as an entry of the list -/
def ofLhs : Option V → Cell V
  | some v => .expr v
  | none => .none

/-- `_update`, lines 209-225: `copy()` makes a new list object, to which `append` adds the current line -/
def update (h : Heap V) (e : Obj V) (newLhs : Option V) (newRhs : V) (newTag : Tag) (cont : Bool) : Heap V × Obj V :=
  if cont then
    let (h1, a) := alloc h (get h e.prevLhs ++ [ofLhs e.lhs])
    let (h2, b) := alloc h1 (get h1 e.prevRhs ++ [.expr e.rhs])
    let (h3, c) := alloc h2 (get h2 e.prevTags ++ [.tag e.tag])
    init parse h3 newLhs newRhs newTag (some a) (some b) (some c)
  else init parse h newLhs newRhs newTag none none none

/-- the second argument of `+`, `-`: another equation or an expression -/
inductive Arg (V : Type) where
  | eqn (j : ℕ)
  | val (v : V)

/-- the operations of an equation (given by its index in the list of all equations) -/
inductive Op (V : Type) where
  /-- `Eq(lhs, rhs, tag)` -/
  | new (l r : V) (tag : Tag)
  /-- `eq.apply(func, cont, tag)`; also `apply_mtd` and `substitute` -/
  | apply (e : ℕ) (f : V → Res V) (cont : Bool) (tag : Tag)
  /-- `eq.apply_to_lhs(func, cont, tag)`; also `apply_mtd_to_lhs` -/
  | toLhs (e : ℕ) (f : V → Res V) (cont : Bool) (tag : Tag)
  /-- `eq.apply_to_rhs(func, cont, tag)`; also `apply_mtd_to_rhs` -/
  | toRhs (e : ℕ) (f : V → Res V) (cont : Bool) (tag : Tag)
  | setTag (e : ℕ) (tag : Tag)
  | copy (e : ℕ)
  /-- `eq + arg`, `eq - arg`, for a given binary operation -/
  | combine (e : ℕ) (f : V → V → Res V) (a : Arg V)
  /-- `eq * v`, `v * eq`, `eq / v` -/
  | scale (e : ℕ) (f : V → Res V)

variable [DecidableEq V]

/-- the new equation created by an operation -/
def exec (s : State V) : Op V → Res (Heap V × Obj V)
  | .new l r t => .ok (init parse s.heap (some l) r t none none none)
  | .apply i f cont t => match s.eqs[i]? with
    | none => .error .other
    | some e =>
      -- lines 122-127
      lhsOf s.heap e >>= fun l => f l >>= fun l' => f e.rhs >>= fun r' =>
      .ok (update parse s.heap e (if l' = l ∧ cont then none else some l') r' t cont)
  | .toLhs i f cont t => match s.eqs[i]? with
    | none => .error .other
    | some e =>
      -- lines 134-137
      lhsOf s.heap e >>= fun l => f l >>= fun l' => .ok (update parse s.heap e (some l') e.rhs t cont)
  | .toRhs i f cont t => match s.eqs[i]? with
    | none => .error .other
    | some e =>
      -- lines 144-150
      if cont then f e.rhs >>= fun r' => .ok (update parse s.heap e none r' t cont)
      else lhsOf s.heap e >>= fun l => f e.rhs >>= fun r' => .ok (update parse s.heap e (some l) r' t cont)
  | .setTag i t => match s.eqs[i]? with
    | none => .error .other
    -- lines 94-97
    | some e => .ok (init parse s.heap e.lhs e.rhs t (some e.prevLhs) (some e.prevRhs) (some e.prevTags))
  | .copy i => match s.eqs[i]? with
    | none => .error .other
    -- lines 248-252
    | some e => .ok (init parse s.heap e.lhs e.rhs e.tag (some e.prevLhs) (some e.prevRhs) (some e.prevTags))
  | .combine i f a => match s.eqs[i]? with
    | none => .error .other
    | some e =>
      -- lines 283-296
      match a with
      | .eqn j => match s.eqs[j]? with
        | none => .error .other
        | some e' => lhsOf s.heap e >>= fun l => lhsOf s.heap e' >>= fun m => f l m >>= fun l' => f e.rhs e'.rhs >>= fun r' =>
            .ok (init parse s.heap (some l') r' .none none none none)
      | .val v => lhsOf s.heap e >>= fun l => f l v >>= fun l' => f e.rhs v >>= fun r' =>
            .ok (init parse s.heap (some l') r' .none none none none)
  | .scale i f => match s.eqs[i]? with
    | none => .error .other
    | some e => lhsOf s.heap e >>= fun l => f l >>= fun l' => f e.rhs >>= fun r' =>
        -- lines 298-305
        .ok (init parse s.heap (some l') r' .none none none none)

/-- an operation of a session: if it raises an exception, the new equation is not created -/
def step (s : State V) (o : Op V) : State V := match exec parse s o with
  | .ok (h, e) => ⟨h, s.eqs ++ [e]⟩
  | .error _ => s

/-- a session -/
def run (ops : List (Op V)) : State V := ops.foldl (step parse) ⟨[], []⟩

/-! ### Printing -/

/-- a line of the printed equation: a left hand side (or blank), a right hand side, a tag -/
structure Line (V : Type) where
  lhs : Option V
  rhs : V
  tag : Tag
deriving DecidableEq

/-- the entries of line `i` of the history, lines 319-331 (`self._prev_lhs[i]`, `self._prev_tags[i]`) -/
def lineAt (ls rs ts : List (Cell V)) (i : ℕ) : Res (Line V) :=
  match ls[i]?, rs[i]?, ts[i]? with
  | some .none, some (.expr r), some (.tag t) => .ok ⟨none, r, t⟩
  | some (.expr l), some (.expr r), some (.tag t) => .ok ⟨some l, r, t⟩
  | none, _, _ => .error .indexError
  | _, _, none => .error .indexError
  | _, _, _ => .error .other

/-- the lines printed by `str(eq)`, `_render_str`, lines 314-342 -/
def rendered (h : Heap V) (e : Obj V) : Res (List (Line V)) :=
  (List.range (get h e.prevRhs).length).mapM (fun i : ℕ => lineAt (get h e.prevLhs) (get h e.prevRhs) (get h e.prevTags) i) >>= fun l =>
  .ok (l ++ [⟨e.lhs, e.rhs, e.tag⟩])

end QNET.Equation
