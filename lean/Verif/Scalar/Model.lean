import Verif.Engine.Model
import Mathlib.Algebra.Field.Defs
import Mathlib.Algebra.GroupWithZero.Basic

/-!
# Model of scalars, `src/qnet/algebra/core/scalar_algebra.py`

Python numbers and SymPy values are the elements of a field `K` with decidable equality (exact arithmetic; SymPy values are taken modulo
equality). `ScalarExpression`s that are not sums, products or powers (e.g. `BraKet`) are symbols. Exponents are integers.
-/

namespace QNET.Scalar

open QNET.Perm (Res Err)

/-- `Zero`, `One`, `ScalarValue(k)`, a `ScalarExpression`, `ScalarPlus`, `ScalarTimes`, `ScalarPower(b, e)` -/
inductive SX (K : Type) where
  | zero
  | one
  | val (k : K)
  | sym (a : ℕ)
  | plus (l : List (SX K))
  | times (l : List (SX K))
  | pow (b : SX K) (e : ℤ)

variable {K : Type}

section deceq
variable [DecidableEq K]

mutual
/-- structural equality -/
def SX.beq : SX K → SX K → Bool
  | .zero, .zero => true
  | .one, .one => true
  | .val k, .val j => decide (k = j)
  | .sym a, .sym b => a == b
  | .plus l, .plus m => SX.beqL l m
  | .times l, .times m => SX.beqL l m
  | .pow b e, .pow c f => SX.beq b c && e == f
  | _, _ => false
/-- structural equality of lists -/
def SX.beqL : List (SX K) → List (SX K) → Bool
  | [], [] => true
  | a :: as, b :: bs => SX.beq a b && SX.beqL as bs
  | _, _ => false
end

mutual
theorem SX.beq_iff : ∀ a b : SX K, SX.beq a b = true ↔ a = b
  | .zero, b => by cases b <;> simp [SX.beq]
  | .one, b => by cases b <;> simp [SX.beq]
  | .val _, b => by cases b <;> simp [SX.beq]
  | .sym _, b => by cases b <;> simp [SX.beq]
  | .plus l, b => by
    cases b with
    | plus m => simp [SX.beq, SX.beqL_iff l m]
    | _ => simp [SX.beq]
  | .times l, b => by
    cases b with
    | times m => simp [SX.beq, SX.beqL_iff l m]
    | _ => simp [SX.beq]
  | .pow x _, b => by
    cases b with
    | pow y f => simp [SX.beq, SX.beq_iff x y]
    | _ => simp [SX.beq]
theorem SX.beqL_iff : ∀ a b : List (SX K), SX.beqL a b = true ↔ a = b
  | [], b => by cases b <;> simp [SX.beqL]
  | a :: as, [] => by simp [SX.beqL]
  | a :: as, b :: bs => by simp [SX.beqL, SX.beq_iff a b, SX.beqL_iff as bs]
end

instance : DecidableEq (SX K) := fun a b => decidable_of_iff _ (SX.beq_iff a b)

end deceq

variable [Field K] [DecidableEq K]

/-- `x == 0` (lines 309-313 for values; the singletons compare by hash value) -/
def isZero : SX K → Bool
  | .zero => true
  | .val k => decide (k = 0)
  | _ => false

/-- `x == 1` -/
def isOne : SX K → Bool
  | .one => true
  | .val k => decide (k = 1)
  | _ => false

/-- `==` of scalars as used for dictionary keys: values are compared by value, everything else structurally -/
def scEq (x y : SX K) : Bool := decide (x = y) || (isZero x && isZero y) || (isOne x && isOne y)

/-- `ScalarValue.create(k)` for a number, lines 203-225 -/
def create (k : K) : SX K := if k = 0 then .zero else if k = 1 then .one else .val k

/-- `ScalarPower.create(b, e)`, rules R001-R004 (`_rules.py` lines 74-87); `x**(y*z)` of R004 is `powS`. Zero to a negative power is
`ZeroDivisionError`. -/
def powCreate : SX K → ℤ → Res (SX K)
  | .val k, e => if k = 0 ∧ e < 0 then .error .other else .ok (create (k ^ e))
  | .pow x y, z =>
    if z = 0 then .ok .one
    else if z = 1 then .ok (.pow x y)
    else
      match x with
      | .zero => if y * z < 0 then .error .other else .ok (create ((0 : K) ^ (y * z)))
      | .one => .ok .one
      | x => powCreate x (y * z)
  | x, e => if e = 0 then .ok .one else if e = 1 then .ok x else .ok (.pow x e)

/-- `x**e` for an integer: ScalarValue lines 428-434, Zero lines 610-616, One lines 752-758, expressions lines 500-501, ScalarPower
lines 1062-1063 -/
def powS (x : SX K) (e : ℤ) : Res (SX K) :=
  match x with
  | .zero => if e < 0 then .error .other else .ok (create ((0 : K) ^ e))
  | .one => .ok .one
  | .pow b e0 => powCreate b (e0 * e)
  | x => powCreate x e

/-- the binary rules R001-R006 of `ScalarTimes` (`_rules.py` lines 53-72). Zero and One are not `ScalarValue`s. -/
def binRule (x y : SX K) : Res (Option (SX K)) :=
  match x, y with
  | .val a, .val b => .ok (some (create (a * b)))
  | x, y =>
    if scEq x y then (powS x 2).map some
    else if isZero x || isZero y then .ok (some .zero)
    else
      match x, y with
      | .pow b e, .pow c f => if b = c then (powS b (e + f)).map some else if f = -1 ∧ x = c then .ok (some .one) else .ok none
      | x, .pow c f => if f = -1 ∧ x = c then .ok (some .one) else .ok none
      | _, _ => .ok none

/-- operands of a product -/
def flatTimes : SX K → Option (List (SX K))
  | .times l => some l
  | _ => none

/-- operands of a sum -/
def flatPlus : SX K → Option (List (SX K))
  | .plus l => some l
  | _ => none

/-- the sorting of operands (`orderby`) -/
structure Ctx (K : Type) where
  /-- `sorted(ops, key=ScalarPlus.order_key)` -/
  sortPlus : List (SX K) → List (SX K)
  /-- `sorted(ops, key=ScalarTimes.order_key)` -/
  sortTimes : List (SX K) → List (SX K)
  /-- recursion limit -/
  fuel : ℕ

variable (Γ : Ctx K)

/-- the end of `create` for products -/
def wrapTimes : Engine.Outcome (SX K) → SX K
  | .single x => x
  | .operands l => .times l

/-- `ScalarTimes.create(*ops)` on scalars, `simplifications = [assoc, orderby, filter_neutral, match_replace_binary]`, lines 861-876 -/
def timesCreate (ops : List (SX K)) : Res (SX K) :=
  match Engine.filterNeutral .one isOne (Γ.sortTimes (Engine.assoc flatTimes ops)) with
  | .single x => .ok x
  | .operands l => (Engine.matchReplaceBinary binRule .one isOne flatTimes Γ.fuel l).map wrapTimes

/-- `x * y` of scalars: ScalarValue lines 394-401, Zero lines 583-588, One lines 727-732, others lines 72-77 and
abstract_quantum_algebra.py lines 232-245 -/
def mul (x y : SX K) : Res (SX K) :=
  match x, y with
  | .zero, _ => .ok .zero
  | .one, y => .ok y
  | .val a, .val b => .ok (create (a * b))
  | x, y => if isOne y then .ok x else if isZero y then .ok .zero else timesCreate Γ [x, y]

/-- `-x`: ScalarValue line 370, Zero line 539, One line 703, expressions abstract_quantum_algebra.py line 263 -/
def neg (x : SX K) : Res (SX K) :=
  match x with
  | .zero => .ok .zero
  | .one => .ok (.val (-1))
  | .val k => .ok (create (-k))
  | x => timesCreate Γ [create (-1), x]

/-- `ScalarValue + ...` and `One + ...` for wrapped values only, used to add up coefficients; lines 376-384, 566-572, 706-714. `none`:
the other operand is an expression. -/
def addVals : SX K → SX K → Option (SX K)
  | .val k, .val j => some (create (k + j))
  | .val k, .one => some (create (k + 1))
  | .val k, .zero => some (.val k)
  | .zero, .val j => some (.val j)
  | .zero, .zero => some .zero
  | .zero, .one => some .one
  | .one, .val j => some (create (1 + j))
  | .one, .one => some (.val 2)
  | .one, .zero => some .one
  | _, _ => none

/-- `coeff, term` of a summand that is not a `ScalarValue`, algebraic_properties.py lines 221-229 -/
def splitS : SX K → Res (SX K × SX K)
  | .times (.val c :: t :: l) => (l.foldlM (mul Γ) t).map (fun t' => (t', .val c))
  | x => .ok (x, .one)

/-- one update of `coeff_map`, algebraic_properties.py lines 230-233 (coefficients are wrapped values) -/
def addTerm : List (SX K × SX K) → SX K → SX K → List (SX K × SX K)
  | [], t, c => [(t, c)]
  | (t', c') :: m, t, c => if scEq t' t then (t', (addVals c' c).getD c') :: m else (t', c') :: addTerm m t c

/-- one step of the loop of `collect_scalar_summands`, algebraic_properties.py lines 217-233: `a_0` and `coeff_map` -/
def collectStep (st : SX K × List (SX K × SX K)) (op : SX K) : Res (SX K × List (SX K × SX K)) :=
  match op with
  | .val k => .ok ((addVals st.1 (.val k)).getD st.1, st.2)
  | op => (splitS Γ op).map (fun tc => (st.1, addTerm st.2 tc.1 tc.2))

/-- the end of `collect_scalar_summands`, lines 243-248 -/
def wrapPlus : List (SX K) → SX K
  | [] => .zero
  | [x] => x
  | l => .plus l

/-- `ScalarPlus.create(*ops)` on scalars, `simplifications = [assoc, convert_to_scalars, orderby, collect_scalar_summands,
match_replace_binary]` without binary rules; lines 790-825, algebraic_properties.py lines 187-248. -/
def plusCreate (ops : List (SX K)) : Res (SX K) :=
  (Γ.sortPlus (Engine.assoc flatPlus ops)).foldlM (collectStep Γ) (.zero, []) >>= fun st =>
  st.2.mapM (fun tc => mul Γ tc.2 tc.1) >>= fun fops =>
  .ok (wrapPlus ((if isZero st.1 then [] else [st.1]) ++ fops.filter (fun op => !isZero op)))

/-- `x + y` of scalars: ScalarValue lines 376-384, Zero lines 566-572, One lines 706-714, others lines 60-63 and
abstract_quantum_algebra.py lines 216-226 -/
def add (x y : SX K) : Res (SX K) :=
  match addVals x y with
  | some r => .ok r
  | none => if isZero y then .ok x else plusCreate Γ [x, y]

/-- `(-1) * y`: `__rmul__` of ScalarValue lines 452-456, One line 771, Zero lines 624-628, others -/
def minus (y : SX K) : Res (SX K) :=
  match y with
  | .zero => .ok .zero
  | .one => .ok (create (-1))
  | .val k => .ok (create (-1 * k))
  | y => timesCreate Γ [create (-1), y]

/-- `x - y` of scalars: ScalarValue lines 386-394, Zero lines 574-580, One lines 716-724 (note `super().__add__`), others lines 65-68
and abstract_quantum_algebra.py lines 257-258 -/
def sub (x y : SX K) : Res (SX K) :=
  match x, y with
  | .val k, .val j => .ok (create (k - j))
  | .val k, .one => .ok (create (k - 1))
  | .zero, .val j => .ok (create (-j))
  | .one, .val j => .ok (create (1 - j))
  | .one, .one => .ok .zero
  | .one, y => if isZero y then .ok .one else plusCreate Γ [.one, y]
  | x, y => if isZero y then .ok x else minus Γ y >>= add Γ x

/-- `x + k`, `x * k`, `x - k` for a Python number: the number is wrapped by `create` (lines 379-380, 569-570, 709-710 for values;
abstract_quantum_algebra.py lines 217-221, 234-241 for expressions; `x - k` of expressions is `x + (-1)*k`) -/
def addNum (x : SX K) (k : K) : Res (SX K) := match x with
  | .val j => .ok (create (j + k))
  | .zero => .ok (create k)
  | .one => .ok (create (1 + k))
  | x => if k = 0 then .ok x else plusCreate Γ [x, create k]

/-- `x * k`: ScalarValue lines 397-398, Zero, One lines 728-729, others lines 72-77 and abstract_quantum_algebra.py lines 234-241 -/
def mulNum (x : SX K) (k : K) : Res (SX K) := match x with
  | .val j => .ok (create (j * k))
  | .zero => .ok .zero
  | .one => .ok (create k)
  | x => if k = 1 then .ok x else if k = 0 then .ok .zero else timesCreate Γ [create k, x]

/-- `x - k`: ScalarValue lines 389-390, Zero lines 577-578, One lines 719-720, others -/
def subNum (x : SX K) (k : K) : Res (SX K) := match x with
  | .val j => .ok (create (j - k))
  | .zero => .ok (create (-k))
  | .one => .ok (create (1 - k))
  | x => if k = 0 then .ok x else addNum Γ x (-1 * k)

/-- `k - x`: ScalarValue.__rsub__ lines 444-450, Zero line 622 (`__rsub__ = __radd__`), One lines 765-769, others lines 119-122 and
abstract_quantum_algebra.py lines 260-261 -/
def numSub (k : K) (x : SX K) : Res (SX K) := match x with
  | .val j => .ok (create (k - j))
  | .zero => .ok (create k)
  | .one => .ok (create (k - 1))
  | x => if k = 0 then neg Γ x else minus Γ x >>= fun y => addNum Γ y k

/-- `complex(x)`: ScalarValue lines 488-489, Zero lines 647-648, One lines 777-778 (`1j`); `i` is the imaginary unit. `none`: other
scalars (`NotImplemented`). -/
def toComplex (i : K) : SX K → Option K
  | .val k => some k
  | .zero => some 0
  | .one => some i
  | _ => none

/-- `float(x)`, `int(x)`: lines 491-495, 650-654, 780-784 (for values in range) -/
def toFloat : SX K → Option K
  | .val k => some k
  | .zero => some 0
  | .one => some 1
  | _ => none

end QNET.Scalar
