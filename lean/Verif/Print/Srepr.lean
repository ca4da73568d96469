import Verif.Print.Py

/-!
# `srepr` (model for C71)

`/repo/src/qnet/printing/sreprprinter.py`, `_render_head_repr.py`, and the caching of `base.py`.
-/

namespace QNET.Print

/-- The objects that `srepr` meets.
`sing`: a singleton, shown by its name (also `None`, `True`, `pi`).
`expr`: an `Expression` with its class name, `args`, and the keys and values of `minimal_kwargs`.
`leaf`: a SymPy object, which SymPy's own `srepr` shows as the Python expression `p`.
`arr`: a NumPy array with its `dtype` and `shape`. Floating point and complex numbers are not modelled. -/
inductive Obj where
  | sing (n : Name)
  | expr (cls : Name) (args : List Obj) (keys : List Name) (vals : List Obj)
  | tup (l : List Obj)
  | lst (l : List Obj)
  | arr (dtype : Name) (shape : List ℕ) (rows : List (List Obj))
  | str (s : List Char)
  | int (z : ℤ)
  | leaf (p : Py)

/-- `dict` from objects to strings (`base.py` 76-79): a list of entries -/
abbrev Cache := List (Obj × List Tok)

/-- what the printers use of Python: `==` of objects and whether an object can be hashed -/
structure Host where
  same : Obj → Obj → Bool
  hash : Obj → Bool

variable (H : Host)

/-- `expr in self.cache`, `self.cache[expr]`; objects that cannot be hashed are not in the cache (`base.py` 108-124) -/
def getC (c : Cache) (o : Obj) : Option (List Tok) := if H.hash o then (c.find? fun e => H.same e.1 o).map (·.2) else none

/-- `self.cache[expr] = res` of a `dict`: an entry with an equal key keeps its key and gets the new value (`base.py` 126-135) -/
def putC (c : Cache) (o : Obj) (t : List Tok) : Cache :=
  if H.hash o then (if c.any (fun e => H.same e.1 o) then c.map fun e => if H.same e.1 o then (e.1, t) else e else c ++ [(o, t)]) else c

def Obj.isStr : Obj → Bool
  | .str _ => true
  | _ => false

/-- `base.py` 160-202 `doprint` without extra arguments; strings are returned before they are written to the cache (line 194) -/
def cached (f : Cache → Option (List Tok × Cache)) (o : Obj) (c : Cache) : Option (List Tok × Cache) :=
  match getC H c o with
  | some t => some (t, c)
  | none => (f c).bind fun r => some (r.1, if o.isStr then r.2 else putC H r.2 o r.1)

def kwToks : List Name → List (List Tok) → List (List Tok)
  | k :: ks, t :: ts => (.word k :: .sym '=' :: t) :: kwToks ks ts
  | _, _ => []

/-- Python's `str` of an integer -/
def intToks (z : ℤ) : List Tok := if z < 0 then [.sym '-', .word (natText z.natAbs)] else [.word (natText z.natAbs)]

def nArray : Name := ['a', 'r', 'r', 'a', 'y']
def nDtype : Name := ['d', 't', 'y', 'p', 'e']

/-- `_render_head_repr.py` 41-47: `{head}({args}{kwargs})` where `kwargs` begins with a comma if there are arguments and keywords -/
def headToks (cls : Name) (args : List (List Tok)) (kws : List (List Tok)) : List Tok :=
  .word cls :: .sym '(' :: (joinC args ++ (if kws = [] then [] else (if args = [] then [] else [.sym ',', .ws ' ']) ++ joinC kws) ++ [.sym ')'])

/-- `_render_head_repr.py` 48-57: tuples and lists; one element is followed by a comma in both cases -/
def seqToks (op cl : Char) (l : List (List Tok)) : List Tok :=
  .sym op :: (joinC l ++ (if l.length = 1 then [.sym ','] else []) ++ [.sym cl])

mutual
/-- `sreprprinter.py` 26-41 and `_render_head_repr.py` 11-59 with `sub_render=self.doprint`: the text of an object that is not in the cache.
`top`: whether this is the printer's dispatch (`_print`), or `render_head_repr` of an element of a tuple or list, which does not know about arrays
(SymPy's text of a NumPy array is not modelled). Keyword arguments are printed before positional ones. -/
def flatNew (top : Bool) : Obj → Cache → Option (List Tok × Cache)
  | .sing n, c => some ([.word n], c)
  | .expr cls args keys vals, c =>
    (flatArgs vals c).bind fun v => (flatArgs args v.2).bind fun a => some (headToks cls a.1 (kwToks keys v.1), a.2)
  | .tup l, c => (flatItems l c).bind fun r => some (seqToks '(' ')' r.1, r.2)
  | .lst l, c => (flatItems l c).bind fun r => some (seqToks '[' ']' r.1, r.2)
  | .arr d shape rows, c =>
    if top ∧ shape.length = 2 then (flatRows rows c).bind fun r =>
      some ([.word nArray, .sym '(', .sym '['] ++ joinC r.1 ++ [.sym ']', .sym ',', .ws ' ', .word nDtype, .sym '=', .word d, .sym ')'], r.2)
    else none
  | .str s, c => some ([.str s], c)
  | .int z, c => some (intToks z, c)
  | .leaf p, c => some (p.toks, c)
/-- `[sub_render(arg) for arg in args]` -/
def flatArgs : List Obj → Cache → Option (List (List Tok) × Cache)
  | [], c => some ([], c)
  | o :: l, c => (cached H (flatNew true o) o c).bind fun r => (flatArgs l r.2).bind fun rs => some (r.1 :: rs.1, rs.2)
/-- `[render_head_repr(v, sub_render=sub_render) for v in expr]` -/
def flatItems : List Obj → Cache → Option (List (List Tok) × Cache)
  | [], c => some ([], c)
  | o :: l, c => (flatNew false o c).bind fun r => (flatItems l r.2).bind fun rs => some (r.1 :: rs.1, rs.2)
/-- `sreprprinter.py` 33-36 -/
def flatRows : List (List Obj) → Cache → Option (List (List Tok) × Cache)
  | [], c => some ([], c)
  | row :: l, c => (flatArgs row c).bind fun r => (flatRows l r.2).bind fun rs => some ((.sym '[' :: (joinC r.1 ++ [.sym ']'])) :: rs.1, rs.2)
end

/-- `srepr(o, cache=c)` (`printing/__init__.py` 494-541): the text, and the cache afterwards -/
def srepr (o : Obj) (c : Cache) : Option (List Char × Cache) := (cached H (flatNew H true o) o c).bind fun r => some (text r.1, r.2)

/-! ### The indented printer -/

/-- `"    " * n` -/
def ind (n : ℕ) : List Tok := List.replicate (4 * n) (.ws ' ')

/-- the lines of a text -/
def splitL : List Tok → List (List Tok)
  | [] => [[]]
  | t :: l => if t = .ws '\n' then [] :: splitL l else
    match splitL l with
    | [] => [[t]]
    | x :: xs => (t :: x) :: xs

/-- `"\n".join(lines)` -/
def unlines : List (List Tok) → List Tok
  | [] => []
  | [l] => l
  | l :: ls => l ++ .ws '\n' :: unlines ls

def blank (l : List Tok) : Bool := l.all Tok.isWs

/-- `textwrap.indent` -/
def indentT (n : ℕ) (t : List Tok) : List Tok := unlines ((splitL t).map fun l => if blank l then l else ind n ++ l)

/-- the number of blanks at the beginning of all lines that are not blank -/
def margin (ls : List (List Tok)) : ℕ := (((ls.filter fun l => !blank l).map fun l => (l.takeWhile Tok.isWs).length).min?).getD 0

/-- `textwrap.dedent` -/
def dedentT (t : List Tok) : List Tok :=
  unlines ((splitL t).map fun l => if blank l then [] else l.drop (margin (splitL t)))

/-- `str.lstrip` -/
def lstrip (t : List Tok) : List Tok := t.dropWhile Tok.isWs

/-- the cache and `_print_level` -/
abbrev IState := Cache × ℕ

/-- `base.py` 160-202 with the caching of `sreprprinter.py` 61-76: the text is stored without indentation, and indented for the current level when it is used -/
def cachedI (f : IState → Option (List Tok × IState)) (o : Obj) (s : IState) : Option (List Tok × IState) :=
  match getC H s.1 o with
  | some t => some (indentT s.2 t, s)
  | none => (f s).bind fun r => some (r.1, if o.isStr then r.2 else (putC H r.2.1 o (dedentT r.1), r.2.2))

mutual
/-- `render_head_repr` with the default `sub_render`: no cache (`_render_head_repr.py` 27-59) -/
def plain : Obj → Option (List Tok)
  | .sing n => some [.word n]
  | .expr cls args keys vals => (plainList vals).bind fun v => (plainList args).bind fun a => some (headToks cls a (kwToks keys v))
  | .tup l => (plainList l).bind fun r => some (seqToks '(' ')' r)
  | .lst l => (plainList l).bind fun r => some (seqToks '[' ']' r)
  | .arr _ _ _ => none
  | .str s => some [.str s]
  | .int z => some (intToks z)
  | .leaf p => some p.toks
def plainList : List Obj → Option (List (List Tok))
  | [] => some []
  | o :: l => (plain o).bind fun r => (plainList l).bind fun rs => some (r :: rs)
end

/-- `lines[-1] = lines[-1][:-1]`: without the last character of the last line (which is always a one-character token) -/
def dropLast1 : List (List Tok) → List (List Tok)
  | [] => []
  | [l] => [l.dropLast]
  | l :: ls => l :: dropLast1 ls

/-- `lines[-1] += s` -/
def addLast (s : List Tok) : List (List Tok) → List (List Tok)
  | [] => [s]
  | [l] => [l ++ s]
  | l :: ls => l :: addLast s ls

mutual
/-- `sreprprinter.py` 81-127; SymPy's `Printer._print` raises `_print_level` by one during the call. `s.2` is the level before the call. -/
def indNew : Obj → IState → Option (List Tok × IState)
  | .sing n, s => some (ind s.2 ++ [.word n], s)
  | .expr cls args keys vals, s =>
    (indArgs args (s.1, s.2 + 1)).bind fun a => (indKws keys vals a.2).bind fun v =>
      let lines := (ind s.2 ++ [.word cls, .sym '(']) :: (a.1 ++ v.1)
      let lines := if 0 < args.length ∨ 0 < keys.length then dropLast1 lines else lines
      some (unlines (addLast [.sym ')'] lines), (v.2.1, v.2.2 - 1))
  | .tup l, s => (plainList l).bind fun r => some (ind s.2 ++ seqToks '(' ')' r, s)
  | .lst l, s => (plainList l).bind fun r => some (ind s.2 ++ seqToks '[' ']' r, s)
  | .arr d shape rows, s =>
    if shape.length = 2 then (indRows rows (s.1, s.2 + 2)).bind fun r =>
      let lines := (ind s.2 ++ [.word nArray, .sym '(', .sym '[']) :: r.1
      some (unlines (addLast [.sym ']', .sym ',', .ws ' ', .word nDtype, .sym '=', .word d, .sym ')'] (dropLast1 lines)), (r.2.1, r.2.2 - 1))
    else none
  | .str t, s => some (ind s.2 ++ [.str t], s)
  | .int z, s => some (ind s.2 ++ intToks z, s)
  | .leaf p, s => some (ind s.2 ++ p.toks, s)
/-- lines 92-93: `lines.append(self.doprint(arg) + ",")` -/
def indArgs : List Obj → IState → Option (List (List Tok) × IState)
  | [], s => some ([], s)
  | o :: l, s => (cachedI H (indNew o) o s).bind fun r => (indArgs l r.2).bind fun rs => some ((r.1 ++ [.sym ',']) :: rs.1, rs.2)
/-- lines 94-98; the indentation of the line is that of the level before the value is printed -/
def indKws : List Name → List Obj → IState → Option (List (List Tok) × IState)
  | k :: ks, o :: l, s => (cachedI H (indNew o) o s).bind fun r => (indKws ks l r.2).bind fun rs =>
    some ((ind s.2 ++ [.word k, .sym '='] ++ lstrip r.1 ++ [.sym ',']) :: rs.1, rs.2)
  | _, _, s => some ([], s)
/-- lines 118-124: for each row a line with `[`, a line for each value, and a line with `],`. The `_print_level += 1` of line 117 is never undone. -/
def indRows : List (List Obj) → IState → Option (List (List Tok) × IState)
  | [], s => some ([], s)
  | row :: l, s => (indArgs row s).bind fun r => (indRows l r.2).bind fun rs =>
    some (dropLast1 ((ind (s.2 - 1) ++ [.sym '[']) :: r.1) ++ (ind (s.2 - 1) ++ [.sym ']', .sym ',']) :: rs.1, rs.2)
end

/-- `srepr(o, indented=True, cache=c)` -/
def sreprIndented (o : Obj) (c : Cache) : Option (List Char × Cache) := (cachedI H (indNew H o) o (c, 0)).bind fun r => some (text r.1, r.2.1)

/-! ### Evaluation of Python expressions (specification) -/

/-- the context in which the text is evaluated: the values of names, and which names are constructors of SymPy objects; all other names that are called are classes of QNET, or NumPy's `array` -/
structure Env where
  val : Name → Option Obj
  sympy : Name → Bool

def isNumber (w : Name) : Bool := match w with
  | c :: _ => c.isDigit
  | [] => false

def Obj.rowOf : Obj → Option (List Obj)
  | .lst l => some l
  | _ => none

/-- NumPy's `array(rows, dtype=d)` for a list of lists of equal lengths; `array([])` has one dimension -/
def mkArray (d : Name) (rows : List (List Obj)) : Option Obj :=
  match rows with
  | [] => some (.arr d [0] [])
  | r :: l => if l.all fun x => x.length == r.length then some (.arr d [(r :: l).length, r.length] (r :: l)) else none

/-- the arguments of `array` that occur -/
def evalArray (keys : List Name) (vals : List Py) (args : List Obj) : Option Obj :=
  match keys, vals, args with
  | [k], [.word d], [.lst rows] => if k = nDtype then (rows.mapM Obj.rowOf).bind (mkArray d) else none
  | _, _, _ => none

mutual
/-- the value of an expression; a class of QNET that is called with `args` and keyword arguments gives the object with these -/
def eval (E : Env) : Py → Option Obj
  | .word w => if isNumber w then some (.int (readNat w)) else E.val w
  | .neg w => if isNumber w then some (.int (-(readNat w : ℤ))) else none
  | .str s => some (.str s)
  | .tup l => (evalList E l).bind fun x => some (.tup x)
  | .lst _ l => (evalList E l).bind fun x => some (.lst x)
  | .call f args keys vals =>
    if f = nArray then (evalList E args).bind (evalArray keys vals)
    else if E.sympy f then some (.leaf (.call f args keys vals))
    else (evalList E args).bind fun a => (evalList E vals).bind fun v => some (.expr f a keys v)
def evalList (E : Env) : List Py → Option (List Obj)
  | [] => some []
  | p :: l => (eval E p).bind fun o => (evalList E l).bind fun os => some (o :: os)
end

end QNET.Print
