import Verif.SympyPrint.LatexWhole

/-!
# C104: LaTeX of whole expressions (`src/qnet/printing/latexprinter.py`, `asciiprinter.py`): model

Simplifications: whether a subexpression is put in parentheses depends on its precedence; here it is a parameter of the expression, so that the theorems hold for
all rules of precedence. Symbols, states and scalars are texts (C103 for those that QNET prints itself; SymPy prints scalars). Derivatives, matrices, permutations of
circuits, equations and numerical steps of indices are not modelled.
-/

namespace QNET.Latex

/-- ranges of a sum: over a Fock space, over a list, over numbers, without limits; the first text is the index -/
inductive Range
  | fock (i : S) (hs : List S)
  | list (i : S) (vals : List S)
  | range (i : S) (start last : S)
  | free (i : S)

mutual
/-- expressions; `Bool`: in parentheses -/
inductive Ex
  | atom (t : S)
  | call (name : S) (args : Args)
  | plus (l : Args)
  | times (l : Args)
  | tensor (l : Args)
  | scale (minusOne pc pt : Bool) (coeff term : Ex)
  | comm (dagger : Bool) (a b : Ex)
  | trace (hs : List S) (e : Ex)
  | adj (e : Ex)
  | plusCC (minus paren : Bool) (e : Ex)
  | pinv (paren : Bool) (e : Ex)
  | apply (pa pb adjoint : Bool) (a b : Ex)
  | sopTimes (paren : Bool) (a b : Ex)
  | spre (post : Bool) (e : Ex)
  | sum (ranges : List Range) (paren : Bool) (e : Ex)
  | cid
  | component (label : S) (args : Args)
  | series (l : Args)
  | concat (l : Args)
  | feedback (o i : S) (e : Ex)
  | sinv (e : Ex)
/-- operands and arguments -/
inductive Args
  | nil
  | cons (paren : Bool) (e : Ex) (l : Args)
end

/-- `_parenth_left … _parenth_right` -/
def parenTex (t : S) : S := "\\left(".toList ++ t ++ "\\right)".toList
/-- `\left[ … \right]` -/
def bracketTex (t : S) : S := "\\left[".toList ++ t ++ "\\right]".toList
/-- the first part of `parenthesize`, asciiprinter.py lines 160-175 -/
def parenIf (b : Bool) (t : S) : S := if b then parenTex t else t
/-- `sep.join` -/
def joinWith (sep : S) : List S → S
  | [] => []
  | [t] => t
  | t :: l => t ++ sep ++ joinWith sep l
/-- `str.lstrip` of spaces -/
def lstrip (t : S) : S := t.dropWhile (· == ' ')
/-- `str.strip` of spaces -/
def strip (t : S) : S := (lstrip (lstrip t).reverse).reverse

/-- sign and text of a term, `_print_QuantumPlus`, lines 359-370 -/
def signed (p : Bool) (t : S) : Char × S :=
  match t with
  | '-' :: u => ('-', parenIf p (strip u))
  | _ => ('+', parenIf p t)

/-- the terms with their signs, lines 366-377 -/
def joinTerms : List (Char × S) → S
  | [] => []
  | (c, t) :: l => (if c = '+' then [] else [c]) ++ t ++ l.flatMap fun p => [' ', p.1, ' '] ++ p.2

/-- `_print_ScalarTimesQuantumExpression`, lines 320-347 -/
def scaleTex (minusOne pc pt : Bool) (coeff term : S) : S :=
  let t := parenIf pt term
  if minusOne then (if t.take 6 = "\\left(".toList then "- ".toList ++ t else '-' :: t)
  else if t = "1".toList ∨ t = "\\mathbb{1}".toList then coeff
  else parenIf pc (strip coeff) ++ [' '] ++ strip t

/-- `\mathcal{H}_{…}`, latexprinter.py lines 261-263 -/
def spaceTex (hs : List S) : S := "\\mathcal{H}".toList ++ '_' :: '{' :: hsLabel hs ++ ['}']

/-- the index, asciiprinter.py lines 548-604 -/
def Range.index : Range → S
  | .fock i _ => i
  | .list i _ => i
  | .range i _ _ => i
  | .free i => i
/-- the lower limit -/
def Range.rhs : Range → S
  | .fock _ hs => " \\in ".toList ++ spaceTex hs
  | .list _ vals => " \\in ".toList ++ "\\{".toList ++ joinC vals ++ "\\}".toList
  | .range _ start _ => '=' :: start
  | .free _ => []
/-- the upper limit -/
def Range.top : Range → S
  | .range _ _ last => last
  | _ => []

/-- one sum sign, lines 521-528, 536-542 -/
def sumSign (indices : List S) (rhs top : S) : S :=
  let bottom := joinC indices ++ rhs
  "\\sum".toList ++ (if bottom = [] then [] else "_{".toList ++ bottom ++ "}".toList) ++ (if top = [] then [] else "^{".toList ++ top ++ "}".toList) ++ [' ']

/-- the loop over the ranges: those with the same limits share a sum sign, lines 511-542 -/
def sumLoop (indices : List S) (rhs top : S) : List Range → S
  | [] => sumSign indices rhs top
  | r :: l => if r.top ≠ top ∨ r.rhs ≠ rhs then sumSign indices rhs top ++ sumLoop [r.index] r.rhs r.top l else sumLoop (indices ++ [r.index]) rhs top l

/-- all sum signs (there is at least one range) -/
def sumSigns : List Range → S
  | [] => []
  | r :: l => sumLoop [r.index] r.rhs r.top l

/-- `{\rm cid}(n)` -/
def cidTex (n : ℕ) : S := "{\\rm cid}(".toList ++ Nat.toDigits 10 n ++ [')']

/-- circuit identities are counted -/
def Ex.isCid : Ex → Bool
  | .cid => true
  | _ => false
/-- products in series get parentheses in concatenations -/
def Ex.isSeries : Ex → Bool
  | .series _ => true
  | _ => false

mutual
/-- `doprint` -/
def Ex.tex : Ex → S
  | .atom t => t
  | .call name args => name ++ args.call
  | .plus l => joinTerms l.terms
  | .times l => joinWith " ".toList l.texts
  | .tensor l => joinWith " \\otimes ".toList l.texts
  | .scale m pc pt c t => scaleTex m pc pt c.tex t.tex
  | .comm d a b => bracketTex (a.tex ++ ", ".toList ++ b.tex) ++ (if d then "^{\\dagger}".toList else [])
  | .trace hs e => "{\\rm tr}".toList ++ ('_' :: '{' :: hsLabel hs ++ ['}']) ++ bracketTex e.tex
  | .adj e => parenTex e.tex ++ "^\\dagger".toList
  | .plusCC m p e => parenIf p e.tex ++ (if m then " - ".toList else " + ".toList) ++ "c.c.".toList
  | .pinv p e => parenIf p e.tex ++ "^+".toList
  | .apply pa pb adjoint a b => if adjoint then parenIf pb b.tex ++ " ".toList ++ parenIf pa a.tex else parenIf pa a.tex ++ " ".toList ++ parenIf pb b.tex
  | .sopTimes p a b => parenIf p a.tex ++ bracketTex b.tex
  | .spre post e => (if post then "\\mathrm{SPost}".toList else "\\mathrm{SPre}".toList) ++ parenTex e.tex
  | .sum rs p e => sumSigns rs ++ parenIf p e.tex
  | .cid => cidTex 1
  | .component label args => '{' :: ("\\rm ".toList ++ renderStr label) ++ ['}'] ++ args.call
  | .series l => joinWith " \\lhd ".toList l.texts
  | .concat l => joinWith " \\boxplus ".toList (l.parts 0)
  | .feedback o i e => "\\left\\lfloor".toList ++ ('{' :: e.tex ++ ['}']) ++ "\\right\\rfloor".toList ++ ('_' :: '{' :: (o ++ "\\rightarrow{}".toList ++ i) ++ ['}'])
  | .sinv e => bracketTex e.tex ++ "^{\\rhd}".toList
/-- the operands, in parentheses where needed -/
def Args.texts : Args → List S
  | .nil => []
  | .cons p e l => parenIf p e.tex :: l.texts
/-- the terms of a sum -/
def Args.terms : Args → List (Char × S)
  | .nil => []
  | .cons p e l => signed p e.tex :: l.terms
/-- the arguments in parentheses, if there are any, asciiprinter.py lines 263-268 -/
def Args.call : Args → S
  | .nil => []
  | .cons _ e l => parenTex (joinWith ", ".toList (e.tex :: l.plain))
/-- the arguments -/
def Args.plain : Args → List S
  | .nil => []
  | .cons _ e l => e.tex :: l.plain
/-- the operands of a concatenation; the number counts the identities before them, asciiprinter.py lines 208-239 -/
def Args.parts : Args → ℕ → List S
  | .nil, n => if n = 0 then [] else [cidTex n]
  | .cons p e l, n =>
    if e.isCid then l.parts (n + 1)
    else (if n = 0 then [] else [cidTex n]) ++ (if e.isSeries then parenTex e.tex else parenIf p e.tex) :: l.parts 0
end

/-! ### specification -/

/-- texts of symbols, states and scalars: complete, also without a sign at the beginning -/
def goodAtom (t : S) : Prop := whole t = true ∧ ∀ u, lstrip t = '-' :: u → whole u = true

/-- numbers -/
def number (t : S) : Prop := t ≠ [] ∧ ∀ c ∈ t, c.isDigit = true ∨ c = '-'

/-- texts in a range are complete -/
def Range.Good : Range → Prop
  | .fock i hs => whole i = true ∧ ∀ l ∈ hs, GoodLabel l
  | .list i vals => whole i = true ∧ ∀ v ∈ vals, whole v = true
  | .range i start last => whole i = true ∧ number start ∧ number last
  | .free i => whole i = true

mutual
/-- all texts in the expression are complete; pseudo-inverses are of expressions in parentheses -/
def Ex.Good : Ex → Prop
  | .atom t => goodAtom t
  | .call name args => goodAtom name ∧ args.Good
  | .plus l => l.Good
  | .times l => l.Good
  | .tensor l => l.Good
  | .scale _ _ _ c t => c.Good ∧ t.Good
  | .comm _ a b => a.Good ∧ b.Good
  | .trace hs e => (∀ l ∈ hs, GoodLabel l) ∧ e.Good
  | .adj e => e.Good
  | .plusCC _ _ e => e.Good
  | .pinv p e => p = true ∧ e.Good
  | .apply _ _ _ a b => a.Good ∧ b.Good
  | .sopTimes _ a b => a.Good ∧ b.Good
  | .spre _ e => e.Good
  | .sum rs _ e => (∀ r ∈ rs, r.Good) ∧ e.Good
  | .cid => True
  | .component label args => GoodLabel label ∧ args.Good
  | .series l => l.Good
  | .concat l => l.Good
  | .feedback o i e => number o ∧ number i ∧ e.Good
  | .sinv e => e.Good
def Args.Good : Args → Prop
  | .nil => True
  | .cons _ e l => e.Good ∧ l.Good
end

end QNET.Latex
