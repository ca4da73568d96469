import Mathlib.Analysis.SpecialFunctions.Pow.Real

/-!
# Model of the spin algebra

`src/qnet/algebra/library/spin_algebra.py`, and the rules R022-R030 of `OperatorTimes` and R009-R011 of `OperatorTimesKet`
(`src/qnet/algebra/_rules.py` lines 260-300, 632-648).

A spin is given by the natural number `N = 2 * spin`, so that integer and half-integer spins are covered; the quantum number `m` of
a basis state is given by the integer `2 m`. Basis labels are terms instead of the strings they are rendered to: `SpinIndex._static_render`
(utils/indices.py lines 352-369) renders different (half-)integers to different strings.
-/

namespace QNET.Spin

/-- labels of basis states: the rendered integer `z` (`"-1"`, `"0"`, `"+1"`), the rendered fraction `z/2`, or any other string -/
inductive Lbl where
  | int (z : ℤ)
  | half (z : ℤ)
  | custom (s : String)
  deriving DecidableEq, Repr

/-- exceptions -/
inductive Err where
  | value
  | type
  | attribute
  | assertion
  deriving DecidableEq, Repr

/-- `SpinIndex._static_render(twice_m / 2)`, utils/indices.py lines 352-369 -/
def render (twiceM : ℤ) : Lbl := if twiceM % 2 = 0 then .int (twiceM / 2) else .half twiceM

/-- a `SpinSpace`: twice the spin, and the tuple of basis labels -/
structure Space where
  twiceSpin : ℕ
  basis : List Lbl
  deriving DecidableEq, Repr

/-- the default basis, spin_algebra.py lines 91-95 -/
def defaultBasis (N : ℕ) : List Lbl := (List.range (N + 1)).map fun n : ℕ => render (-(N : ℤ) + 2 * n)

/-- `SpinSpace(label, spin=.., basis=..)`, spin_algebra.py lines 71-107; `twiceSpin` is `2 * spin`, known to be an integer.
`('up', 'down')` and `('+', '-')` are rejected, and a basis of the wrong length (`LocalSpace`, hilbert_space_algebra.py lines 267-270). -/
def mkSpace (twiceSpin : ℤ) (basis : Option (List Lbl)) : Except Err Space :=
  if twiceSpin + 1 ≤ 1 then .error .value
  else match basis with
    | none => .ok ⟨twiceSpin.toNat, defaultBasis twiceSpin.toNat⟩
    | some b =>
      if b = [.custom "up", .custom "down"] ∨ b = [.custom "+", .custom "-"] then .error .value
      else if b.length ≠ twiceSpin.toNat + 1 then .error .value
      else .ok ⟨twiceSpin.toNat, b⟩

/-- re-instantiation from `args` and `kwargs`, e.g. by `substitute` or `rebuild`: `_kwargs` contains `spin`, but not `basis`
(spin_algebra.py lines 109-113) -/
def Space.rebuild (hs : Space) : Except Err Space := mkSpace hs.twiceSpin none

/-- `dimension` -/
def Space.dim (hs : Space) : ℕ := hs.twiceSpin + 1

/-- the label or index given to the coefficient functions: `str`, `int`, or a sympy expression -/
inductive Arg where
  | str (l : Lbl)
  | int (z : ℤ)
  | expr (c : ℂ)

/-- the spin quantum number -/
noncomputable def Space.s (hs : Space) : ℂ := (hs.twiceSpin : ℂ) / 2

/-- `sympy.sqrt` -/
noncomputable def root (z : ℂ) : ℂ := z ^ (1 / 2 : ℂ)

/-- `tuple.index` -/
def indexOf (l : Lbl) (b : List Lbl) : Except Err ℕ := if l ∈ b then .ok (b.idxOf l) else .error .value

/-- `Jpjmcoeff`, spin_algebra.py lines 391-424 -/
noncomputable def jpCoeff (hs : Space) (m : Arg) (shift : Bool) : Except Err ℂ :=
  let f : ℂ → ℂ := fun m => root (hs.s * (hs.s + 1) - m * (m + 1))
  match m with
  | .str l => (indexOf l hs.basis).map fun i => f (i - hs.s)
  | .int z =>
    if shift then (if 0 ≤ z ∧ z < hs.dim then .ok (f (z - hs.s)) else .error .assertion) else .ok (f z)
  | .expr c => .ok (f c)

/-- `Jzjmcoeff`, spin_algebra.py lines 427-445; `none` is Python's `None`. `ls.basis` (instead of `ls.basis_labels`) is not an attribute of any
Hilbert space. -/
noncomputable def jzCoeff (hs : Space) (m : Arg) (shift : Bool) : Except Err (Option ℂ) :=
  match m with
  | .str _ => .error .attribute
  | .int z => if shift then (if 0 ≤ z ∧ z < hs.dim then .ok (some (z - hs.s)) else .error .assertion) else .ok none
  | .expr c => .ok (some c)

/-- `Jmjmcoeff`, spin_algebra.py lines 448-467 -/
noncomputable def jmCoeff (hs : Space) (m : Arg) (shift : Bool) : Except Err ℂ :=
  let f : ℂ → ℂ := fun m => root (hs.s * (hs.s + 1) - m * (m - 1))
  match m with
  | .str _ => .error .attribute
  | .int z =>
    if shift then (if 0 ≤ z ∧ z < hs.dim then .ok (f (z - hs.s)) else .error .assertion) else .ok (f z)
  | .expr c => .ok (f c)

/-- operators on the spin space; projectors `|j><k|` are given by the indices of their labels (`index_j`, `index_k`) -/
inductive Op where
  | jplus
  | jminus
  | jz
  | sigma (j k : ℕ)
  deriving DecidableEq, Repr

/-- operator expressions -/
inductive OX where
  | zero
  | op (o : Op)
  | smul (c : ℂ) (e : OX)
  | mul (a b : OX)
  | add (a b : OX)

/-- `LocalSigma.raise_jk`, operator_algebra.py lines 403-433, with `SpinSpace.next_basis_label_or_index` (spin_algebra.py lines 119-162)
for labels that are strings -/
def raiseJK (hs : Space) (j k : ℕ) (dj dk : ℤ) : OX :=
  if 0 ≤ (j : ℤ) + dj ∧ (j : ℤ) + dj < hs.dim ∧ 0 ≤ (k : ℤ) + dk ∧ (k : ℤ) + dk < hs.dim
  then .op (.sigma ((j : ℤ) + dj).toNat ((k : ℤ) + dk).toNat) else .zero

/-- the product of a coefficient and an operator; `None * operator` is a `TypeError` -/
def coefTimes (c : Option ℂ) (e : OX) : Except Err OX := match c with
  | some c => .ok (.smul c e)
  | none => .error .type

/-- the rules R005 and R022-R030 of `OperatorTimes`, `_rules.py` lines 173-182 and 260-300 -/
noncomputable def prodRule (hs : Space) : Op → Op → Option (Except Err OX)
  | .sigma a b, .sigma c d => some (.ok (if b = c then .op (.sigma a d) else .zero))
  | .jplus, .sigma j k => some ((jpCoeff hs (.int j) true).map fun c => .smul c (raiseJK hs j k 1 0))
  | .jminus, .sigma j k => some ((jmCoeff hs (.int j) true).map fun c => .smul c (raiseJK hs j k (-1) 0))
  | .jz, .sigma j k => some ((jzCoeff hs (.int j) true).bind fun c => coefTimes c (.op (.sigma j k)))
  | .sigma j k, .jplus => some ((jmCoeff hs (.int k) true).map fun c => .smul c (raiseJK hs j k 0 (-1)))
  | .sigma j k, .jminus => some ((jpCoeff hs (.int k) true).map fun c => .smul c (raiseJK hs j k 0 1))
  | .sigma j k, .jz => some ((jzCoeff hs (.int k) true).bind fun c => coefTimes c (.op (.sigma j k)))
  | .jminus, .jplus => some (.ok (.add (.smul (-2) (.op .jz)) (.mul (.op .jplus) (.op .jminus))))
  | .jminus, .jz => some (.ok (.add (.mul (.op .jz) (.op .jminus)) (.op .jminus)))
  | .jz, .jplus => some (.ok (.add (.mul (.op .jplus) (.op .jz)) (.op .jplus)))
  | _, _ => none

/-- a multiple of a basis state, or the zero state -/
inductive KX where
  | zero
  | smul (c : ℂ) (n : ℕ)

/-- `BasisKet.next(d)`, state_algebra.py lines 321-364 -/
def nextKet (hs : Space) (n : ℕ) (d : ℤ) (c : ℂ) : KX :=
  if 0 ≤ (n : ℤ) + d ∧ (n : ℤ) + d < hs.dim then .smul c ((n : ℤ) + d).toNat else .zero

/-- the rules R009-R011 of `OperatorTimesKet` for the basis state of index `n`, `_rules.py` lines 632-648 -/
noncomputable def ketRule (hs : Space) : Op → ℕ → Except Err KX
  | .jplus, n => (jpCoeff hs (.int n) true).map fun c => nextKet hs n 1 c
  | .jminus, n => (jmCoeff hs (.int n) true).map fun c => nextKet hs n (-1) c
  | .jz, n => (jzCoeff hs (.int n) true).bind fun c => match c with | some c => .ok (.smul c n) | none => .error .type
  | .sigma a b, n => .ok (if b = n then .smul 1 a else .zero)

/-- rule R011 on a basis state with the symbolic label `SpinIndex(expr, hs)`: `BasisKet.index` is the value of `expr + spin`
(`fock_index`, utils/indices.py lines 371-373), which is then given to `Jzjmcoeff`. `m` is the value of `expr`. -/
noncomputable def jzSymbolic (hs : Space) (m : ℂ) : Except Err (Option ℂ) := jzCoeff hs (.expr (m + hs.s)) true

/-- `_adjoint`, spin_algebra.py lines 311-312, 347-348, 384-385 -/
def adjointOp : Op → Op
  | .jplus => .jminus
  | .jminus => .jplus
  | .jz => .jz
  | .sigma j k => .sigma k j

/-- `SpinBasisKet(numer)` / `SpinBasisKet(numer, denom)`, spin_algebra.py lines 184-254: the index of the basis state -/
def spinBasisKet (hs : Space) (args : List ℤ) : Except Err ℕ :=
  if hs.twiceSpin % 2 = 0 then
    match args with
    | [numer] =>
      if numer < -((hs.twiceSpin : ℤ) / 2) ∨ numer > (hs.twiceSpin : ℤ) / 2 then .error .value
      else indexOf (.int numer) hs.basis
    | _ => .error .type
  else
    match args with
    | [numer, denom] =>
      if denom ≠ 2 then .error .value
      else if numer < -(hs.twiceSpin : ℤ) ∨ numer > hs.twiceSpin then .error .value
      else indexOf (.half numer) hs.basis
    | _ => .error .type

end QNET.Spin
