import Mathlib.Data.List.Basic

/-!
# C84: the text of a circuit

Model of the printing of circuits, `QnetAsciiPrinter` (`src/qnet/printing/asciiprinter.py`, lines 185-201, 212-262) with the precedences of
`src/qnet/printing/_precedence.py` (lines 19-47: `SeriesProduct` as a product, `Concatenation` as a sum, everything else an atom). The Unicode
printer has the same methods with other symbols (`unicodeprinter.py` lines 72-73).

Simplifications: `SLH` objects inside of expressions are not modelled; the printed arguments of a symbol are given as text. -/

namespace QNET.CircText

/-- `CircuitSymbol(label, *sym_args, cdim)`, with the printed arguments -/
structure Name where
  label : List Char
  args : List (List Char)
  deriving DecidableEq

/-- circuit expressions -/
inductive Ex where
  | sym (a : Name) (cdim : ℕ)
  | perm (p : List ℕ)
  | one
  | zero
  | ser (l : List Ex)
  | con (l : List Ex)
  | fb (e : Ex) (o i : ℕ)
  | inv (e : Ex)

/-- The pieces of the text: `cid n` is `cid(n)`, `one` and `zero` are `CIdentity` and `CircuitZero` (`emptyPrinter`, base.py lines 92-96),
`fbr o i` is `]_{o->i}`, `invr` is `]^{-1}`. -/
inductive Tok where
  | sym (a : Name)
  | perm (p : List ℕ)
  | cid (n : ℕ)
  | one
  | zero
  | ser
  | con
  | lp
  | rp
  | lb
  | fbr (o i : ℕ)
  | invr
  deriving DecidableEq

/-- `sep.join(parts)` -/
def join (sep : Tok) : List (List Tok) → List Tok
  | [] => []
  | [x] => x
  | x :: y :: l => x ++ sep :: join sep (y :: l)

/-- `isinstance(e, SeriesProduct)` -/
def Ex.isSer : Ex → Bool
  | .ser _ => true
  | _ => false

/-- `isinstance(e, Concatenation)` -/
def Ex.isCon : Ex → Bool
  | .con _ => true
  | _ => false

/-- `isinstance(e, CIdentity)` -/
def Ex.isOne : Ex → Bool
  | .one => true
  | _ => false

/-- the text in parentheses -/
def paren (ts : List Tok) : List Tok := .lp :: ts ++ [.rp]

/-- `reduced_operands.append(self._cid % id_count)` if there are pending identities, asciiprinter.py lines 231-237 -/
def pending (c : ℕ) : List (List Tok) := if c = 0 then [] else [[.cid c]]

mutual
/-- `doprint` of a circuit, asciiprinter.py lines 212-262 -/
def pp : Ex → List Tok
  | .sym a _ => [.sym a]
  | .perm p => [.perm p]
  | .one => [.one]
  | .zero => [.zero]
  | .ser l => join .ser (ppSer l)
  | .con l => join .con (ppCon 0 l)
  | .fb e o i => .lb :: pp e ++ [.fbr o i]
  | .inv e => .lb :: pp e ++ [.invr]
/-- the operands of a `SeriesProduct`, line 221-222: parentheses for a lower precedence (only `Concatenation`) -/
def ppSer : List Ex → List (List Tok)
  | [] => []
  | e :: l => (if e.isCon then paren (pp e) else pp e) :: ppSer l
/-- the operands of a `Concatenation`, lines 224-253, with a number of pending identities: consecutive identities are put together,
a `SeriesProduct` has parentheses -/
def ppCon : ℕ → List Ex → List (List Tok)
  | c, [] => pending c
  | c, e :: l => if e.isOne then ppCon (c + 1) l else pending c ++ (if e.isSer then paren (pp e) else pp e) :: ppCon 0 l
end

/-- `", ".join` -/
def commas : List (List Char) → List Char
  | [] => []
  | [x] => x
  | x :: y :: l => x ++ ',' :: ' ' :: commas (y :: l)

/-- decimal digits -/
def num (n : ℕ) : List Char := Nat.toDigits 10 n

/-- the characters of a piece -/
def Tok.text : Tok → List Char
  | .sym a => a.label ++ if a.args = [] then [] else '(' :: commas a.args ++ [')']
  | .perm p => ['P', 'e', 'r', 'm', '('] ++ commas (p.map num) ++ [')']
  | .cid n => ['c', 'i', 'd', '('] ++ num n ++ [')']
  | .one => ['C', 'I', 'd', 'e', 'n', 't', 'i', 't', 'y']
  | .zero => ['C', 'i', 'r', 'c', 'u', 'i', 't', 'Z', 'e', 'r', 'o']
  | .ser => [' ', '<', '<', ' ']
  | .con => [' ', '+', ' ']
  | .lp => ['(']
  | .rp => [')']
  | .lb => ['[']
  | .fbr o i => [']', '_', '{'] ++ num o ++ ['-', '>'] ++ num i ++ ['}']
  | .invr => [']', '^', '{', '-', '1', '}']

/-- the text -/
def text (ts : List Tok) : List Char := ts.flatMap Tok.text

/-! ### The meaning of circuits and of texts -/

/-- A meaning of the circuit operations: series and concatenation are associative, `cid` is the concatenation of pass-through channels. -/
structure Meaning (M : Type) where
  sym : Name → M
  perm : List ℕ → M
  cid : ℕ → M
  ser : M → M → M
  con : M → M → M
  fb : M → ℕ → ℕ → M
  inv : M → M
  ser_assoc : ∀ a b c, ser (ser a b) c = ser a (ser b c)
  con_assoc : ∀ a b c, con (con a b) c = con a (con b c)
  con_cid : ∀ m n, con (cid m) (cid n) = cid (m + n)

variable {M : Type} (μ : Meaning M)

mutual
/-- the circuit that is meant by an expression -/
def den : Ex → M
  | .sym a _ => μ.sym a
  | .perm p => μ.perm p
  | .one => μ.cid 1
  | .zero => μ.cid 0
  | .ser l => denSer l
  | .con l => denCon l
  | .fb e o i => μ.fb (den e) o i
  | .inv e => μ.inv (den e)
/-- series of the operands (the identity without operands) -/
def denSer : List Ex → M
  | [] => μ.cid 1
  | [e] => den e
  | e :: l => μ.ser (den e) (denSer l)
/-- concatenation of the operands -/
def denCon : List Ex → M
  | [] => μ.cid 0
  | [e] => den e
  | e :: l => μ.con (den e) (denCon l)
end

/-- the operation of an operator sign -/
def Meaning.ap (t : Tok) (x y : M) : M := if t = .ser then μ.ser x y else μ.con x y

mutual
/-- A reader of texts, as usual for formulas with two operator signs, `tight` binding tighter than `loose`, both from the left; an atom is a name,
a text in parentheses, or a text in brackets with a subscript or superscript. The number bounds the depth of the recursion; `none`: no such text
at the beginning. The result is the meaning, and the rest of the text. -/
def atom (tight loose : Tok) : ℕ → List Tok → Option (M × List Tok)
  | n + 1, .sym a :: ts => some (μ.sym a, ts)
  | n + 1, .perm p :: ts => some (μ.perm p, ts)
  | n + 1, .cid k :: ts => some (μ.cid k, ts)
  | n + 1, .one :: ts => some (μ.cid 1, ts)
  | n + 1, .zero :: ts => some (μ.cid 0, ts)
  | n + 1, .lp :: ts => (expr tight loose n ts).bind fun p => match p.2 with
    | .rp :: r => some (p.1, r)
    | _ => none
  | n + 1, .lb :: ts => (expr tight loose n ts).bind fun p => match p.2 with
    | .fbr o i :: r => some (μ.fb p.1 o i, r)
    | .invr :: r => some (μ.inv p.1, r)
    | _ => none
  | _, _ => none
/-- atoms with the tight sign -/
def term (tight loose : Tok) : ℕ → List Tok → Option (M × List Tok)
  | n + 1, ts => (atom tight loose n ts).bind fun p => termLoop tight loose n p.1 p.2
  | 0, _ => none
/-- the rest of a term -/
def termLoop (tight loose : Tok) : ℕ → M → List Tok → Option (M × List Tok)
  | n + 1, x, t :: ts => if t = tight then (atom tight loose n ts).bind fun p => termLoop tight loose n (μ.ap tight x p.1) p.2 else some (x, t :: ts)
  | _ + 1, x, [] => some (x, [])
  | 0, _, _ => none
/-- terms with the loose sign -/
def expr (tight loose : Tok) : ℕ → List Tok → Option (M × List Tok)
  | n + 1, ts => (term tight loose n ts).bind fun p => exprLoop tight loose n p.1 p.2
  | 0, _ => none
/-- the rest of an expression -/
def exprLoop (tight loose : Tok) : ℕ → M → List Tok → Option (M × List Tok)
  | n + 1, x, t :: ts => if t = loose then (term tight loose n ts).bind fun p => exprLoop tight loose n (μ.ap loose x p.1) p.2 else some (x, t :: ts)
  | _ + 1, x, [] => some (x, [])
  | 0, _, _ => none
end

/-- the whole text has the meaning `x` -/
def Reads (tight loose : Tok) (ts : List Tok) (x : M) : Prop := ∃ n, expr μ tight loose n ts = some (x, [])

/-- every series and every concatenation has an operand -/
def Ex.wf : Ex → Prop
  | .ser l => l ≠ [] ∧ ∀ e ∈ l, e.wf
  | .con l => l ≠ [] ∧ ∀ e ∈ l, e.wf
  | .fb e _ _ => e.wf
  | .inv e => e.wf
  | _ => True

end QNET.CircText
