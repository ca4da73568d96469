import Mathlib.Data.Matrix.Basic
import Mathlib.LinearAlgebra.Matrix.Trace
import Mathlib.LinearAlgebra.Matrix.ConjTranspose
import Mathlib.Analysis.Complex.Basic
import Mathlib.Analysis.SpecialFunctions.Pow.Complex
import Mathlib.Analysis.SpecialFunctions.Pow.Real
import Mathlib.Tactic.NoncommRing
import Mathlib.Tactic.Module

/-!
# `liouvillian_normal_form` (C80)

Model of `super_operator_algebra.py` lines 427-606. The function is given the summands of the expanded super-operator. Operators occur in two roles: as keys of the dictionaries (`Op`, syntactic, compared with `==`) and as values
(elements of a star algebra `A` over the complex numbers; `val` maps the former to the latter).

Simplifications: sums, products, scalar multiples, adjoints and `expand` of operators enter with their values (C29-C31, C36); symbolic coefficients enter with their values for a fixed assignment of the symbols, and with the information
whether SymPy finds that `conj(c) - c` is a number (e.g. 0). The messages that are only printed are not modelled.
-/

namespace QNET.Liouv

variable {Op A : Type} [DecidableEq Op]

inductive Err where
  /-- `BadLiouvillianError` -/
  | badLiouvillian
  /-- `TypeError` (no `<` for operators; `complex` of a symbolic expression) -/
  | typeError
  /-- `LinAlgError`: `eigh` of an array with one dimension -/
  | linAlg
  /-- `AttributeError`: SymPy objects have no `apply_rules` -/
  | attribute
  /-- not an exception: NumPy's square root of a negative number is NaN -/
  | nan
  deriving DecidableEq

abbrev Res := Except Err

/-- coefficients: the singleton `One`, other numbers, symbolic expressions -/
inductive Coeff where
  | one
  | num (z : ℂ)
  | sym (z : ℂ) (selfconj : Bool)

/-- the value of a coefficient -/
def Coeff.val : Coeff → ℂ
  | .one => 1
  | .num z => z
  | .sym z _ => z

/-- `complex(coeff)`, `scalar_algebra.py` lines 467, 812-813 (`One.__complex__` returns `1j`); `none`: `ValueError` or `TypeError` -/
noncomputable def Coeff.complex : Coeff → Option ℂ
  | .one => some Complex.I
  | .num z => some z
  | .sym _ _ => none

/-- the form of a summand -/
inductive Kind (Op : Type) where
  | pre (x : Op)
  | post (x : Op)
  /-- `SPre(x) * SPost(y)` -/
  | prePost (x y : Op)
  /-- everything else, e.g. `IdentitySuperOperator` or a symbol -/
  | other

structure Summand (Op : Type) where
  coeff : Coeff
  kind : Kind Op

/-- `collapse_form`: entries in the order of insertion -/
abbrev Form (Op : Type) := List (Op × Op × Coeff)

/-- `collapse_form[x][y] = c` -/
def Form.set (f : Form Op) (x y : Op) (c : Coeff) : Form Op := f.filter (fun e => ¬ (e.1 = x ∧ e.2.1 = y)) ++ [(x, y, c)]

/-- `collapse_form[x][y]`, 0 by default -/
def Form.get (f : Form Op) (x y : Op) : Coeff := match f.find? (fun e => e.1 = x ∧ e.2.1 = y) with
  | some e => e.2.2
  | none => .num 0

/-- `collapse_form.keys()` -/
def Form.keys (f : Form Op) : List Op := (f.map Prod.fst).dedup

/-- state of the first loop: `spres`, `sposts` (their sums are all that is used), `collapse_form`, `symbolic` -/
structure St (Op A : Type) where
  spres : A
  sposts : A
  form : Form Op
  symbolic : Bool

variable [Ring A] [Algebra ℂ A] [StarRing A]

/-- one round of the first loop, lines 481-510 -/
def step (val : Op → A) (st : St Op A) (s : Summand Op) : Res (St Op A) :=
  match s.kind with
  | .pre x => .ok { st with spres := st.spres + s.coeff.val • val x }
  | .post x => .ok { st with sposts := st.sposts + s.coeff.val • val x }
  | .prePost x y => .ok { st with form := st.form.set x y s.coeff, symbolic := st.symbolic || (match s.coeff with | .sym _ _ => true | _ => false) }
  | .other => .error .badLiouvillian

/-- the first loop -/
def loop (val : Op → A) : St Op A → List (Summand Op) → Res (St Op A)
  | st, [] => .ok st
  | st, s :: l => (step val st s).bind fun st' => loop val st' l

/-- `sorted(collapse_form.keys())`, line 512: operators cannot be compared with `<` -/
def sortedKeys (f : Form Op) : Res (List Op) :=
  match f.keys with
  | [] => .ok []
  | [l] => .ok [l]
  | _ => .error .typeError

/-- lines 518-534 for a basis of one operator `l`: `complex(conj(c) - c)` raises `TypeError` if this is a symbolic expression, and only `ValueError` is caught. -/
def checkOne (c : Coeff) : Res Unit :=
  match c with
  | .sym _ false => .error .typeError
  | _ => .ok ()

/-- lines 535-595: the sum that is added to `spres` and `sposts`, and the collapse operators.
For one operator, symbolic: lines 537-543 (SymPy's square root is the principal one). For one operator, numerically: lines 582-589; `eigh` of a 1×1 matrix ignores the imaginary part of the entry and returns the eigenvector 1.
No operator: numerically, `eigh` fails (line 585); symbolic, lines 553-578 do nothing. More operators: not reached, see `sortedKeys`. -/
noncomputable def collapse (adj : Op → Op) (val : Op → A) (symbolic : Bool) (f : Form Op) : List Op → Res (A × List A)
  | [] => if symbolic then .ok (0, []) else .error .linAlg
  | [l] =>
    (checkOne (f.get l (adj l))).bind fun _ =>
    if symbolic then
      .ok (((f.get l (adj l)).val / 2) • (val (adj l) * val l), [((f.get l (adj l)).val ^ (1 / 2 : ℂ)) • val l])
    else
      match (f.get l (adj l)).complex with
      | none => .error .typeError
      | some z =>
        if z.re < 0 then .error .nan
        else .ok ((1 / 2 : ℂ) • (star (((Real.sqrt z.re : ℝ) : ℂ) • val l) * (((Real.sqrt z.re : ℝ) : ℂ) • val l)), [((Real.sqrt z.re : ℝ) : ℂ) • val l])
  | _ => .error .attribute

/-- `liouvillian_normal_form(L, symbolic)` for a sum `L` with the given summands, lines 478-601; returns `H` and `Ls`, and the operator `miHspre + iHspost` of the test in line 596 -/
noncomputable def normalForm (adj : Op → Op) (val : Op → A) (symbolic : Bool) (l : List (Summand Op)) : Res (A × List A × A) :=
  (loop val ⟨0, 0, [], symbolic⟩ l).bind fun st =>
  (sortedKeys st.form).bind fun basis =>
  (collapse adj val st.symbolic st.form basis).map fun r =>
    (Complex.I • (st.spres + r.1), r.2, (st.spres + r.1) + (st.sposts + r.1))

end QNET.Liouv
