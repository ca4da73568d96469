import Mathlib.Data.List.Basic

/-!
# C103: names, labels, operators and states in LaTeX (`src/qnet/printing/latexprinter.py`)

Simplifications: strings are lists of characters; letters are those of ASCII; `split_super_sub` and the sets `greek_letters_set`, `other_symbols` are
SymPy's, written down from its documentation. The macros are the default ones (`tex_op_macro` etc.). `StrLabel`, arguments of symbols and symbolic labels are not
modelled.
-/

namespace QNET.Latex

abbrev S := List Char

/-! ### model -/

/-- `greek_letters_set` (SymPy) -/
def greeks : List S := ["alpha".toList, "beta".toList, "gamma".toList, "delta".toList, "epsilon".toList, "zeta".toList, "eta".toList, "theta".toList, "iota".toList,
  "kappa".toList, "lambda".toList, "mu".toList, "nu".toList, "xi".toList, "omicron".toList, "pi".toList, "rho".toList, "sigma".toList, "tau".toList,
  "upsilon".toList, "phi".toList, "chi".toList, "psi".toList, "omega".toList]

/-- `other_symbols` (SymPy) -/
def others : List S := ["aleph".toList, "beth".toList, "daleth".toList, "gimel".toList, "ell".toList, "eth".toList, "hbar".toList, "hslash".toList, "mho".toList,
  "wp".toList]

/-- `_TEX_GREEK_DICTIONARY`, latexprinter.py lines 393-408 -/
def dict : List (S × S) := [("Alpha".toList, "A".toList), ("Beta".toList, "B".toList), ("Gamma".toList, "\\Gamma".toList), ("Delta".toList, "\\Delta".toList),
  ("Epsilon".toList, "E".toList), ("Zeta".toList, "Z".toList), ("Eta".toList, "H".toList), ("Theta".toList, "\\Theta".toList), ("Iota".toList, "I".toList),
  ("Kappa".toList, "K".toList), ("Lambda".toList, "\\Lambda".toList), ("Mu".toList, "M".toList), ("Nu".toList, "N".toList), ("Xi".toList, "\\Xi".toList),
  ("omicron".toList, "o".toList), ("Omicron".toList, "O".toList), ("Pi".toList, "\\Pi".toList), ("Rho".toList, "P".toList), ("Sigma".toList, "\\Sigma".toList),
  ("Tau".toList, "T".toList), ("Upsilon".toList, "\\Upsilon".toList), ("Ypsilon".toList, "\\Upsilon".toList), ("ypsilon".toList, "\\upsilon".toList),
  ("upsilon".toList, "\\upsilon".toList), ("Phi".toList, "\\Phi".toList), ("Chi".toList, "X".toList), ("Psi".toList, "\\Psi".toList),
  ("Omega".toList, "\\Omega".toList), ("lamda".toList, "\\lambda".toList), ("Lamda".toList, "\\Lambda".toList), ("khi".toList, "\\chi".toList),
  ("Khi".toList, "X".toList), ("varepsilon".toList, "\\varepsilon".toList), ("varkappa".toList, "\\varkappa".toList), ("varphi".toList, "\\varphi".toList),
  ("varpi".toList, "\\varpi".toList), ("varrho".toList, "\\varrho".toList), ("varsigma".toList, "\\varsigma".toList), ("vartheta".toList, "\\vartheta".toList),
  ("up".toList, "\\uparrow".toList), ("down".toList, "\\downarrow".toList), ("uparrow".toList, "\\uparrow".toList), ("downarrow".toList, "\\downarrow".toList)]

/-- `_TEX_SINGLE_LETTER_SYMBOLS`, lines 411-418 -/
def singles : List S := ["\\Delta".toList, "\\Gamma".toList, "\\Lambda".toList, "\\Omega".toList, "\\Phi".toList, "\\Pi".toList, "\\Psi".toList, "\\Sigma".toList,
  "\\Theta".toList, "\\Upsilon".toList, "\\Xi".toList, "\\alpha".toList, "\\beta".toList, "\\chi".toList, "\\delta".toList, "\\epsilon".toList, "\\eta".toList,
  "\\gamma".toList, "\\iota".toList, "\\kappa".toList, "\\lambda".toList, "\\mu".toList, "\\nu".toList, "\\omega".toList, "\\phi".toList, "\\pi".toList,
  "\\psi".toList, "\\rho".toList, "\\sigma".toList, "\\tau".toList, "\\theta".toList, "\\upsilon".toList, "\\varepsilon".toList, "\\varphi".toList,
  "\\varrho".toList, "\\vartheta".toList, "\\xi".toList, "\\zeta".toList, "\\uparrow".toList, "\\downarrow".toList]

/-- `[,.:\s=]`, line 425 -/
def isSep (c : Char) : Bool := c == ',' || c == '.' || c == ':' || c == '=' || c.isWhitespace

/-- `r'\text{' + s + '}'` -/
def textMac (w : S) : S := ['\\', 't', 'e', 'x', 't', '{'] ++ w ++ ['}']

/-- one piece, lines 426-438 -/
def trWord (w : S) : S :=
  match dict.lookup w with
  | some t => t
  | none =>
    if greeks.contains (w.map Char.toLower) then '\\' :: w.map Char.toLower
    else if others.contains w then '\\' :: w
    else if decide (4 ≤ w.length) && w.all Char.isAlpha then textMac w
    else w

/-- the first piece, and the other ones with the separator before them, line 425. Separators are cut one by one, so that there are empty pieces; joining
gives the same string -/
def splitSep : S → S × List (Char × S)
  | [] => ([], [])
  | c :: s => if isSep c then ([], (c, (splitSep s).1) :: (splitSep s).2) else (c :: (splitSep s).1, (splitSep s).2)

/-- `_translate_symbols`, lines 421-439 -/
def tr (s : S) : S := trWord (splitSep s).1 ++ (splitSep s).2.flatMap fun p => p.1 :: trWord p.2

/-- `','.join` -/
def joinC : List S → S
  | [] => []
  | [s] => s
  | s :: l => s ++ ',' :: joinC l

/-- the subscript and the superscript, lines 474-479 -/
def scripts (sub sup : S) : S :=
  (if sub = [] then [] else '_' :: '{' :: sub ++ ['}']) ++ (if sup = [] then [] else '^' :: '{' :: sup ++ ['}'])

/-- `render_latex_sub_super(name, subs, supers, translate_symbols=True)`, lines 442-480 -/
def renderLatex (name : S) (subs supers : List S) : S := tr name ++ scripts (joinC (subs.map tr)) (joinC (supers.map tr))

/-- neither `_` nor `^` -/
def noMark (c : Char) : Bool := c != '_' && c != '^'

/-- the first part of a text and the rest, SymPy's `split_super_sub` -/
def cutPart : S → S × S
  | '_' :: '_' :: s => ('_' :: '_' :: s.takeWhile noMark, s.dropWhile noMark)
  | c :: s => (c :: s.takeWhile noMark, s.dropWhile noMark)
  | [] => ([], [])

/-- all parts -/
def parts : ℕ → S → List S
  | 0, _ => []
  | _, [] => []
  | n + 1, s => (cutPart s).1 :: parts n (cutPart s).2

/-- the superscripts among the parts -/
def supersOf (ps : List S) : List S := ps.filterMap fun p =>
  match p with
  | '^' :: s => some s
  | '_' :: '_' :: s => some s
  | _ => none

/-- the subscripts among the parts -/
def subsOf (ps : List S) : List S := ps.filterMap fun p =>
  match p with
  | '_' :: '_' :: _ => none
  | '_' :: s => some s
  | _ => none

/-- letters and then digits: `^([a-zA-Z]+)([0-9]+)$` -/
def withDigits (s : S) : Bool :=
  s.takeWhile Char.isAlpha != [] && s.dropWhile Char.isAlpha != [] && (s.dropWhile Char.isAlpha).all Char.isDigit

/-- SymPy's `split_super_sub`: name, superscripts, subscripts; digits at the end of a name are a subscript -/
def splitSuperSub (s : S) : S × List S × List S :=
  let ps := parts s.length s
  let name := ps.headD []
  if withDigits name then (name.takeWhile Char.isAlpha, supersOf ps.tail, name.dropWhile Char.isAlpha :: subsOf ps.tail)
  else (name, supersOf ps.tail, subsOf ps.tail)

/-- `_render_str`, lines 70-79 -/
def renderStr (s : S) : S :=
  if s = [] then [] else renderLatex (splitSuperSub s).1 (splitSuperSub s).2.2 (splitSuperSub s).2.1

/-- `_is_single_letter`, lines 65-67 -/
def isSingle (s : S) : Bool := s.length == 1 || singles.contains s

/-- setting `show_hs_label` -/
inductive ShowHs | no | sup | sub
  deriving DecidableEq

/-- `_render_hs_label`, lines 81-88: the labels of the local factors (of `TrivialSpace` and `FullSpace`: their label), joined by ` \otimes ` -/
def hsLabel : List S → S
  | [] => []
  | [l] => renderStr l
  | l :: ls => renderStr l ++ " \\otimes ".toList ++ hsLabel ls

/-- `(…)` -/
def inParens (s : S) : S := '(' :: s ++ [')']

/-- `total_subscript` of `_split_op`, asciiprinter.py lines 89-98; `sub`: the rendered subscript, `h`: the rendered label of the space -/
def totalSub (sh : ShowHs) (sub h : S) : S :=
  if h = [] then sub
  else match sh with
    | .sub => if sub = [] then inParens h else sub ++ ',' :: inParens h
    | _ => sub

/-- `total_superscript`, lines 90-100 -/
def totalSup (sh : ShowHs) (h : S) (dagger : Bool) : S :=
  (if h = [] then [] else match sh with
    | .sup => inParens h
    | _ => []) ++ if dagger then "\\dagger".toList else []

/-- the name without `\text{` and `}`, latexprinter.py lines 189-190 -/
def stripText (s : S) : S := if s.take 6 = ['\\', 't', 'e', 'x', 't', '{'] then (s.drop 6).dropLast else s

/-- `name_fmt.format(name=name)`, lines 191-201 -/
def opMacro (superop : Bool) (name : S) : S :=
  if isSingle name then (if superop then "\\mathrm{".toList else "\\hat{".toList) ++ name ++ ['}']
  else if superop then "\\mathrm{".toList ++ name ++ ['}'] else textMac name

/-- `_render_op(identifier, hs, dagger, superop=…)`, lines 169-205; `_split_identifier`, asciiprinter.py lines 55-64 -/
def renderOp (sh : ShowHs) (superop dagger : Bool) (ident : S) (hs : List S) : S :=
  let h := if sh = .no then [] else hsLabel hs
  let name := renderStr (ident.takeWhile (· != '_'))
  let sub := renderStr ((ident.dropWhile (· != '_')).drop 1)
  renderLatex (opMacro superop (stripText name)) [totalSub sh sub h] [totalSup sh h dagger]

/-- the space label of a state: `_braket_fmt`, lines 91-166 -/
def hsScript (sh : ShowHs) (h : S) : S :=
  match sh with
  | .no => []
  | .sup => '^' :: '{' :: inParens h ++ ['}']
  | .sub => '_' :: '{' :: inParens h ++ ['}']

/-- kets without the braket package, lines 132-137 -/
def ketFmt (sh : ShowHs) (label h : S) : S := "\\left\\lvert ".toList ++ label ++ " \\right\\rangle".toList ++ hsScript sh h

/-- bras without the braket package, lines 125-131: the label is a superscript also for the setting 'subscript' -/
def braFmt (sh : ShowHs) (label h : S) : S :=
  "\\left\\langle ".toList ++ label ++ " \\right\\rvert".toList ++ hsScript (if sh = .sub then .sup else sh) h

/-- outer products without the braket package, lines 138-148 -/
def ketBraFmt (sh : ShowHs) (i j h : S) : S :=
  "\\left\\lvert ".toList ++ i ++ " \\middle\\rangle\\!\\middle\\langle ".toList ++ j ++ " \\right\\rvert".toList ++ hsScript sh h

/-- inner products without the braket package, lines 149-158 -/
def braKetFmt (sh : ShowHs) (i j h : S) : S :=
  "\\left\\langle ".toList ++ i ++ " \\middle\\vert ".toList ++ j ++ " \\right\\rangle".toList ++ hsScript sh h

/-- `\Braket` of the braket package, lines 117-120: the label of the space has no braces -/
def braKetPkg (sh : ShowHs) (i j h : S) : S :=
  "\\Braket{".toList ++ i ++ " | ".toList ++ j ++ ['}'] ++ (match sh with
    | .no => []
    | .sup => '^' :: inParens h
    | .sub => '_' :: inParens h)

/-- `\Bra`, `\Ket` of the braket package, lines 100-111 -/
def statePkg (bra : Bool) (sh : ShowHs) (label h : S) : S :=
  (if bra then "\\Bra{".toList else "\\Ket{".toList) ++ label ++ ['}'] ++ hsScript sh h

/-- outer products with the braket package, lines 112-116 -/
def ketBraPkg (sh : ShowHs) (i j h : S) : S :=
  "\\Ket{".toList ++ i ++ ['}'] ++ "\\!".toList ++ "\\Bra{".toList ++ j ++ ['}'] ++ hsScript sh h

/-- the joined labels of a product of basis states, asciiprinter.py lines 466-479; `small`: all spaces have less than ten levels -/
def tensorLabel (small : Bool) (labels : List S) : S :=
  if small && (labels.map renderStr).all isSingle then (labels.map renderStr).flatten else joinC (labels.map renderStr)

/-! ### specification: a reader of LaTeX -/

/-- symbols that are complete in math mode; `\rm` changes the font of the group -/
def mathSyms : List S := (greeks ++ others ++ ["Gamma".toList, "Delta".toList, "Theta".toList, "Lambda".toList, "Xi".toList, "Pi".toList, "Sigma".toList,
  "Upsilon".toList, "Phi".toList, "Psi".toList, "Omega".toList, "varepsilon".toList, "varkappa".toList, "varphi".toList, "varpi".toList, "varrho".toList,
  "varsigma".toList, "vartheta".toList, "uparrow".toList, "downarrow".toList, "dagger".toList, "otimes".toList,
  "sum".toList, "in".toList, "dots".toList, "lhd".toList, "rhd".toList, "boxplus".toList, "rightarrow".toList, "rm".toList, "partial".toList])

/-- macros of one argument in math mode; the second argument of `\frac` is read as a group -/
def mathMacros : List S := ["frac".toList, "hat".toList, "mathrm".toList, "mathcal".toList, "mathbb".toList, "Bra".toList, "Ket".toList, "Braket".toList]

/-- delimiters -/
def delims : List S := ["langle".toList, "rangle".toList, "lvert".toList, "rvert".toList, "vert".toList, "lfloor".toList,
  "rfloor".toList]

/-- a group `{…}` or `\left…\right`, and whether the last symbol in it has a superscript, a subscript -/
structure Frame where
  left : Bool
  text : Bool
  sup : Bool
  sub : Bool
  deriving DecidableEq

/-- what must come next: anything, a script, a group (of text), a delimiter -/
inductive Pend | no | script | arg (text : Bool) | delim (w : S)
  deriving DecidableEq

/-- state of the reader -/
structure St where
  stack : List Frame
  cur : Frame
  pend : Pend
  word : Option S

/-- the last symbol has no scripts -/
def St.atom (s : St) : St := { s with cur := { s.cur with sup := false, sub := false }, pend := .no }
/-- a group begins -/
def St.push (s : St) (left text : Bool) : St := ⟨s.cur :: s.stack, ⟨left, text, false, false⟩, .no, none⟩
/-- a group ends -/
def St.pop (s : St) : Option St :=
  match s.stack with
  | [] => none
  | f :: l => some ⟨l, f, .no, none⟩

/-- a delimiter after `\left`, `\middle`, `\right` -/
def St.delimiter (s : St) (w : S) : Option St :=
  if w = "left".toList then some (s.atom.push true false)
  else if w = "right".toList then (if s.cur.left then s.pop else none)
  else if s.cur.left then some s.atom else none

/-- a command (`\` and letters) has been read -/
def St.command (s : St) (w : S) : Option St :=
  if s.cur.text then none
  else match s.pend with
  | .no =>
    if mathSyms.contains w then some s.atom
    else if mathMacros.contains w then some { s.atom with pend := .arg false }
    else if w = "text".toList then some { s.atom with pend := .arg true }
    else if w = "left".toList ∨ w = "middle".toList ∨ w = "right".toList then some { s with pend := .delim w }
    else none
  | .script => if mathSyms.contains w then some { s with pend := .no } else none
  | .arg _ => none
  | .delim d => if delims.contains w then s.delimiter d else none

/-- a character that is not part of a command -/
def St.char (s : St) (c : Char) : Option St :=
  if c ∈ ['$', '&', '#', '%', '~'] then none
  else match s.pend with
  | .script =>
    if c = '{' then some (St.push { s with pend := .no } false false)
    else if c ∈ ['}', '_', '^', '(', ')', '[', ']', ' '] then none
    else some { s with pend := .no }
  | .arg t => if c = '{' then some (St.push s.atom false t) else none
  | .delim d => if c ∈ ['(', ')', '[', ']', '.'] then s.delimiter d else none
  | .no =>
    if c = '{' then some (s.atom.push false s.cur.text)
    else if c = '}' then (if s.cur.left then none else s.pop)
    else if c = '^' then (if s.cur.text || s.cur.sup then none else some { s with cur := { s.cur with sup := true }, pend := .script })
    else if c = '_' then (if s.cur.text || s.cur.sub then none else some { s with cur := { s.cur with sub := true }, pend := .script })
    else if c = ' ' then some s
    else some s.atom

/-- `\` and a character that is not a letter -/
def St.symbol (s : St) (c : Char) : Option St :=
  if c = '!' then (match s.pend with
    | .no => if s.cur.text then none else some s
    | _ => none)
  else if c = '{' ∨ c = '}' then (match s.pend with
    | .no => some s.atom
    | .delim d => s.delimiter d
    | _ => none)
  else none

/-- a command that has been read is carried out -/
def St.flush (s : St) : Option St :=
  match s.word with
  | none => some s
  | some w => if w = [] then none else { s with word := none }.command w

/-- one character -/
def St.step (s : St) (c : Char) : Option St :=
  match s.word with
  | none => if c = '\\' then some { s with word := some [] } else s.char c
  | some w =>
    if c.isAlpha then some { s with word := some (w ++ [c]) }
    else if w = [] then { s with word := none }.symbol c
    else ({ s with word := none }.command w).bind fun s => if c = '\\' then some { s with word := some [] } else s.char c

/-- read a text -/
def St.run : St → S → Option St
  | s, [] => some s
  | s, c :: t => (s.step c).bind fun s => s.run t

/-- math mode -/
def start : St := ⟨[], ⟨false, false, false, false⟩, .no, none⟩

/-- the text is complete LaTeX in math mode: all commands are known and get their arguments, groups and delimiters match, there are no two superscripts or
subscripts at one symbol, and text mode has neither scripts nor math symbols -/
def valid (t : S) : Bool :=
  match (start.run t).bind St.flush with
  | some s => s.stack.isEmpty && decide (s.pend = .no)
  | none => false

end QNET.Latex
