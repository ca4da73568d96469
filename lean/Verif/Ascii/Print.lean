import Verif.Ascii.Read

/-!
# The ASCII printer (C73)

Model of `QnetAsciiPrinter` for operators and states: `/repo/src/qnet/printing/asciiprinter.py` lines 185-201, 269-320, 325-440, 497-560, 618-715 and
`/repo/src/qnet/printing/_precedence.py`.

Simplifications: names, labels, Hilbert space labels and arguments are numbers, spaces in the text are not modelled, a scalar is modelled by its printed text (a sum of unsigned
pieces with signs), the indices of a sum are one symbol. `PseudoInverse`, `NullSpaceProjector`, `OperatorTrace`, `OperatorPlusMinusCC`, derivatives, super-operators and circuits are not modelled here.
-/

namespace QNET.Ascii

/-- the text of a scalar: a sign, a piece, and more pieces with signs (`true`: minus) -/
structure STxt where
  neg : Bool
  first : ℕ
  more : List (Bool × ℕ)
  deriving DecidableEq, Repr

/-- coefficients of a `ScalarTimesQuantumExpression`: -1, or another scalar with its text and the text of its conjugate; `qnet`: a `ScalarPlus`, for which
`precedence(-coeff)` is that of a product (`_precedence.py` lines 16-48: the negative is a `ScalarTimes`) -/
inductive Coef where
  | minusOne
  | gen (txt cjg : STxt) (qnet : Bool)
  deriving DecidableEq, Repr

/-- operators and states -/
inductive Ex where
  /-- `OperatorSymbol` -/
  | sym (l : Sym)
  /-- `LocalOperator`; the flag says whether it is printed with a dagger -/
  | loc (l : Sym) (dagger : Bool)
  /-- `KetSymbol`, `BasisKet`, `CoherentStateKet` -/
  | ket (l : ℕ)
  /-- `IdentityOperator` -/
  | one
  /-- `ZeroOperator` -/
  | zero
  /-- `OperatorPlus`, `KetPlus` -/
  | plus (es : List Ex)
  /-- `OperatorTimes`, `TensorKet` -/
  | times (es : List Ex)
  /-- `ScalarTimesOperator`, `ScalarTimesKet` -/
  | smul (c : Coef) (e : Ex)
  /-- `Adjoint` -/
  | adj (e : Ex)
  /-- `Commutator` -/
  | comm (a b : Ex)
  /-- `OperatorTimesKet` -/
  | opket (op k : Ex)
  /-- `Bra` -/
  | bra (k : Ex)
  /-- `KetBra`: the ket and the ket of the bra -/
  | ketbra (k b : Ex)
  /-- `BraKet`: the ket of the bra and the ket -/
  | braket (b k : Ex)
  /-- `OperatorIndexedSum`, `KetIndexedSum` -/
  | isum (i : ℕ) (e : Ex)

/-- printed scalars: the SymPy printer -/
def STxt.toks (s : STxt) : List Tok :=
  (if s.neg then [.minus] else []) ++ .sc s.first :: s.more.flatMap fun x => [if x.1 then .minus else .plus, .sc x.2]

/-- `str(expr.coeff).startswith('-')` (`_precedence.py` lines 56-61) -/
def Coef.neg : Coef → Bool
  | .minusOne => true
  | .gen t _ _ => t.neg

/-- `precedence(coeff) < prec and precedence(-coeff) < prec` (`asciiprinter.py` lines 347-348) -/
def Coef.parens : Coef → Bool
  | .minusOne => false
  | .gen t _ q => !t.more.isEmpty && !q

def parens (ts : List Tok) : List Tok := .lpar :: (ts ++ [.rpar])

/-- `parenthesize` with `strict=False` (`asciiprinter.py` lines 185-201): `p` is the precedence of the expression -/
def par (level p : ℕ) (ts : List Tok) : List Tok := if p < level then parens ts else ts

def daggered (d : Bool) (ts : List Tok) : List Tok := if d then ts ++ [.dag] else ts

def startsMinus : List Tok → Bool
  | .minus :: _ => true
  | _ => false

/-- `_print_Adjoint` for symbols drops the arguments (`asciiprinter.py` lines 401-413) -/
def bare (l : Sym) : Sym := (l.1, 0)

/-- the end of `_print_ScalarTimesQuantumExpression` (`asciiprinter.py` lines 325-352), `t`: the text of the term -/
def ppSmul (a : Bool) (c : Coef) (t : List Tok) : List Tok :=
  match c with
  | .minusOne => .minus :: t
  | .gen x y _ =>
    let cs := (if a then y else x).toks
    if t = [.one] then cs else (if c.parens then parens cs else cs) ++ .mul :: t

/-- a term of a sum with its sign (`asciiprinter.py` lines 362-372), `p`: the precedence of the term -/
def signed (p : ℕ) (ts : List Tok) : Tok × List Tok :=
  match ts with
  | .minus :: r => (.minus, par 40 p r)
  | ts => (.plus, par 40 p ts)

/-- the end of `_print_QuantumPlus` (`asciiprinter.py` lines 373-380) -/
def joinTerms : List (Tok × List Tok) → List Tok
  | [] => []
  | (s, t) :: l => (if s = .plus then [] else [s]) ++ t ++ l.flatMap fun x => x.1 :: x.2

def joinMul : List (List Tok) → List Tok
  | [] => []
  | [t] => t
  | t :: l => t ++ .mul :: joinMul l

/-- are both states printed with their label only (`asciiprinter.py` lines 621-645: `trivial`) -/
def Ex.isKet : Ex → Bool
  | .ket _ => true
  | _ => false

mutual
/-- `doprint(expr, adjoint=a)`; `none`: a `TypeError` -/
def pp (a : Bool) : Ex → Option (List Tok)
  -- `_print_OperatorSymbol` (269-276)
  | .sym l => some (daggered a [.leaf l])
  -- `_print_LocalOperator` (278-284)
  | .loc l d => some (daggered (a != d) [.leaf l])
  -- `_print_KetSymbol` (440-452)
  | .ket l => some [if a then .bra l else .ket l]
  -- `_print_IdentityOperator`, `_print_ZeroOperator` (311-315) have no parameter `adjoint`
  | .one => if a then none else some [.one]
  | .zero => if a then none else some [.zero]
  -- `_print_QuantumPlus` (354-380)
  | .plus es => (ppTerms a es).map joinTerms
  -- `_print_QuantumTimes` (382-385)
  | .times es => (ppFactors a es).map joinMul
  -- `_print_ScalarTimesQuantumExpression` (325-352)
  | .smul c e => (pp a e).map fun t => ppSmul a c (par 50 (prec e) t)
  -- `_print_Adjoint` (401-420)
  | .adj (.loc l d) => some (daggered (a == d) [.leaf (bare l)])
  | .adj (.sym l) => some (daggered (!a) [.leaf (bare l)])
  | .adj e => (pp false e).map fun t => if a then t else parens t ++ [.dag]
  -- `_print_Commutator` (387-391)
  | .comm x y => (pp false x).bind fun s => (pp false y).map fun t => daggered a (.lbr :: (s ++ .comma :: (t ++ [.rbr])))
  -- `_print_OperatorTimesKet` (497-509)
  | .opket op k => (pp false op).bind fun o => (pp a op).bind fun s => (pp a k).map fun t =>
    let p := if startsMinus o then 40 else 50
    let s := par p (prec op) s
    let t := par p (prec k) t
    if a then t ++ s else s ++ t
  -- `_print_Bra` (618-619)
  | .bra k => pp (!a) k
  -- `_print_KetBra` (664-715)
  | .ketbra k b => (pp (!a) b).bind fun s => (pp a k).map fun t =>
    let s := par 50 (prec b) s
    let t := par 50 (prec k) t
    if a then s ++ t else t ++ s
  -- `_print_BraKet` (621-662)
  | .braket b k => (pp (!a) b).bind fun s => (pp a k).map fun t =>
    let s := par 50 (prec b) s
    let t := par 50 (prec k) t
    let m := if b.isKet && k.isKet then [] else [.mul]
    if a then t ++ m ++ s else s ++ m ++ t
  -- `_print_IndexedSum` (511-558); `strict=True`
  | .isum i e => (pp a e).map fun t => .big i :: par 41 (prec e) t
/-- `precedence` (`_precedence.py` lines 16-111) -/
def prec : Ex → ℕ
  | .sym _ => 1000
  | .loc _ _ => 1000
  | .ket _ => 1000
  | .one => 1000
  | .zero => 1000
  | .plus _ => 40
  | .times _ => 50
  | .smul c _ => if c.neg then 40 else 50
  | .adj _ => 60
  | .comm _ _ => 50
  | .opket op _ => match pp false op with
    | some o => if startsMinus o then 40 else 50
    | none => 50
  | .bra k => prec k
  | .ketbra _ _ => 50
  | .braket _ _ => 50
  | .isum _ _ => 40
/-- the loop of `_print_QuantumPlus` (361-372) -/
def ppTerms (a : Bool) : List Ex → Option (List (Tok × List Tok))
  | [] => some []
  | e :: es => (pp a e).bind fun t => (ppTerms a es).map fun l => signed (prec e) t :: l
/-- the list comprehension of `_print_QuantumTimes` (385) -/
def ppFactors (a : Bool) : List Ex → Option (List (List Tok))
  | [] => some []
  | e :: es => (pp a e).bind fun t => (ppFactors a es).map fun l => par 50 (prec e) t :: l
end

end QNET.Ascii
