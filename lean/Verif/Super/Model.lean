import Verif.QAlg.Diff

/-!
# Model of super-operators

`src/qnet/algebra/core/super_operator_algebra.py` and the super-operator rules of `src/qnet/algebra/_rules.py` lines 409-510. Operators are
the expressions `QX K` of `Verif/QAlg/Model.lean`. As there, scalars are elements of a commutative ring and the unbounded
recursion of the code is modelled with a recursion depth.
-/

namespace QNET.Super

open QNET.Perm (Res Err)
open QNET.QAlg (QX Ctx mulScal mul)

/-- Super-operators: symbols, `SuperAdjoint(symbol)`, `ZeroSuperOperator`, `IdentitySuperOperator`, `SPre(A)`, `SPost(A)`, scalar
multiples, sums and products -/
inductive SX (K : Type) where
  | sym (a : ℕ)
  | symAdj (a : ℕ)
  | zero
  | one
  | spre (a : QX K)
  | spost (a : QX K)
  | scal (c : K) (t : SX K)
  | plus (l : List (SX K))
  | times (l : List (SX K))

variable {K : Type}

section deceq
variable [DecidableEq K]

mutual
/-- `==` of expressions: same class and equal arguments (abstract_algebra.py `__eq__`) -/
def SX.beq : SX K → SX K → Bool
  | .sym a, .sym b => a == b
  | .symAdj a, .symAdj b => a == b
  | .zero, .zero => true
  | .one, .one => true
  | .spre a, .spre b => decide (a = b)
  | .spost a, .spost b => decide (a = b)
  | .scal c t, .scal d s => decide (c = d) && SX.beq t s
  | .plus l, .plus m => SX.beqL l m
  | .times l, .times m => SX.beqL l m
  | _, _ => false
/-- equality of lists of expressions -/
def SX.beqL : List (SX K) → List (SX K) → Bool
  | [], [] => true
  | a :: as, b :: bs => SX.beq a b && SX.beqL as bs
  | _, _ => false
end

mutual
theorem SX.beq_iff : ∀ a b : SX K, SX.beq a b = true ↔ a = b
  | .sym _, b => by cases b <;> simp [SX.beq]
  | .symAdj _, b => by cases b <;> simp [SX.beq]
  | .zero, b => by cases b <;> simp [SX.beq]
  | .one, b => by cases b <;> simp [SX.beq]
  | .spre _, b => by cases b <;> simp [SX.beq]
  | .spost _, b => by cases b <;> simp [SX.beq]
  | .scal _ t, b => by
    cases b with
    | scal d s => simp [SX.beq, SX.beq_iff t s]
    | _ => simp [SX.beq]
  | .plus l, b => by
    cases b with
    | plus m => simp [SX.beq, SX.beqL_iff l m]
    | _ => simp [SX.beq]
  | .times l, b => by
    cases b with
    | times m => simp [SX.beq, SX.beqL_iff l m]
    | _ => simp [SX.beq]
theorem SX.beqL_iff : ∀ a b : List (SX K), SX.beqL a b = true ↔ a = b
  | [], b => by cases b <;> simp [SX.beqL]
  | a :: as, [] => by simp [SX.beqL]
  | a :: as, b :: bs => by simp [SX.beqL, SX.beq_iff a b, SX.beqL_iff as bs]
end

instance : DecidableEq (SX K) := fun a b => decidable_of_iff _ (SX.beq_iff a b)

end deceq

/-- What the rest of the code contributes -/
structure SCtx (K : Type) where
  /-- operators -/
  Γ : Ctx K
  /-- `sorted(ops, key=FullCommutativeHSOrder)` for sums -/
  sortPlus : List (SX K) → List (SX K)
  /-- `sorted(ops, key=SuperCommutativeHSOrder)` for products -/
  sortTimes : List (SX K) → List (SX K)
  /-- the operator `SuperOperatorTimesOperator(s, X)` that no rule simplifies, as a symbol (`none` if there is no name for it: the model
  then ends with the error `other`) -/
  stuck : SX K → QX K → Option ℕ
  /-- the arguments of such an operator -/
  unstuck : ℕ → Option (SX K × QX K)

/-- operands of an instance of the sum class -/
def flatPlus : SX K → Option (List (SX K))
  | .plus l => some l
  | _ => none

/-- operands of an instance of the product class -/
def flatTimes : SX K → Option (List (SX K))
  | .times l => some l
  | _ => none

variable [CommRing K] [DecidableEq K]

/-- `coeff, term` of a summand, algebraic_properties.py lines 165-169 -/
def split : SX K → SX K × K
  | .scal c t => (t, c)
  | t => (t, 1)

/-- one update of `coeff_map`, algebraic_properties.py lines 170-173 -/
def addTerm : List (SX K × K) → SX K → K → List (SX K × K)
  | [], t, c => [(t, c)]
  | (t', c') :: m, t, c => if t' = t then (t', c' + c) :: m else (t', c') :: addTerm m t c

/-- `coeff_map` after the loop, algebraic_properties.py lines 163-173 -/
def coeffMap (ops : List (SX K)) : List (SX K × K) :=
  ops.foldl (fun m op => addTerm m (split op).1 (split op).2) []

/-- the end of `collect_summands`, algebraic_properties.py lines 179-184 -/
def wrapPlus : List (SX K) → SX K
  | [] => .zero
  | [x] => x
  | l => .plus l

/-- `ScalarTimesSuperOperator.create(coeff, term)`, i.e. `coeff * term`: rules R001-R004, `_rules.py` lines 427-440 -/
def smul : ℕ → K → SX K → Res (SX K)
  | 0, _, _ => .error .recursion
  | n + 1, c, t =>
    if c = 1 then .ok t
    else if c = 0 then .ok .zero
    else
      match t with
      | .zero => .ok .zero
      | .scal v A => smul n (c * v) A
      | t => .ok (.scal c t)

variable (S : SCtx K)

/-- `SuperOperatorPlus.create(*ops)` with `simplifications = [assoc, orderby, collect_summands, match_replace_binary]`
(super_operator_algebra.py lines 120-125; there are no binary rules for sums) -/
def plusCreate (n : ℕ) (ops : List (SX K)) : Res (SX K) :=
  (coeffMap (S.sortPlus (Engine.assoc flatPlus ops))).mapM (fun tc => smul n tc.2 tc.1) >>= fun fops =>
  .ok (wrapPlus (fops.filter (fun op => !decide (op = .zero))))

/-- `SPre.create(A)`: rules R001-R003, `_rules.py` lines 457-467 -/
def spreCreate : ℕ → QX K → Res (SX K)
  | 0, _ => .error .recursion
  | n + 1, a => match a with
    | .scal u A => spreCreate n A >>= smul n u
    | .one => .ok .one
    | .zero => .ok .zero
    | a => .ok (.spre a)

/-- `SPost.create(A)`: rules R001-R003, `_rules.py` lines 469-479 -/
def spostCreate : ℕ → QX K → Res (SX K)
  | 0, _ => .error .recursion
  | n + 1, a => match a with
    | .scal u A => spostCreate n A >>= smul n u
    | .one => .ok .one
    | .zero => .ok .zero
    | a => .ok (.spost a)

/-- the binary rules R001-R004 of `SuperOperatorTimes`, `_rules.py` lines 442-455; `tc` is `SuperOperatorTimes.create` -/
def binStep (tc : List (SX K) → Res (SX K)) (n : ℕ) (x y : SX K) : Res (Option (SX K)) :=
  match x, y with
  | .scal u A, B => tc [A, B] >>= smul n u >>= fun r => .ok (some r)
  | A, .scal u B => tc [A, B] >>= smul n u >>= fun r => .ok (some r)
  | .spre A, .spre B => mul S.Γ n A B >>= spreCreate n >>= fun r => .ok (some r)
  | .spost A, .spost B => mul S.Γ n B A >>= spostCreate n >>= fun r => .ok (some r)
  | _, _ => .ok none

/-- the end of `create` for products -/
def wrapTimes : Engine.Outcome (SX K) → SX K
  | .single x => x
  | .operands l => .times l

/-- `SuperOperatorTimes.create(*ops)`, super_operator_algebra.py lines 141-155: a zero operand gives zero; otherwise
`simplifications = [assoc, orderby, filter_neutral, match_replace_binary]` -/
def timesStep (rule : SX K → SX K → Res (Option (SX K))) (n : ℕ) (ops : List (SX K)) : Res (SX K) :=
  if ops.any (fun o => decide (o = .zero)) then .ok .zero
  else
    match Engine.filterNeutral .one (fun x => decide (x = .one)) (S.sortTimes (Engine.assoc flatTimes ops)) with
    | .single x => .ok x
    | .operands l => (Engine.matchReplaceBinary rule .one (fun x => decide (x = .one)) flatTimes n l).map wrapTimes

mutual
/-- `_get_binary_replacement` for `SuperOperatorTimes` -/
def binRule : ℕ → SX K → SX K → Res (Option (SX K))
  | 0, _, _ => .error .recursion
  | n + 1, x, y => binStep S (timesCreate n) n x y
/-- `SuperOperatorTimes.create(*ops)` -/
def timesCreate : ℕ → List (SX K) → Res (SX K)
  | 0, _ => .error .recursion
  | n + 1, ops => timesStep S (binRule n) n ops
end

/-- the unsimplified `SuperOperatorTimesOperator(s, X)` -/
def stuckAt (s : SX K) (X : QX K) : Res (QX K) := match S.stuck s X with
  | some a => .ok (.atom a)
  | none => .error .other

/-- the last rules of `SuperOperatorTimesOperator`: R006-R009, `_rules.py` lines 496-513; `ap` is the recursive call -/
def applyRest (ap : SX K → QX K → Res (QX K)) (n : ℕ) (s : SX K) (X : QX K) : Res (QX K) :=
  match s with
  | .spre A => mul S.Γ n A X
  | .spost A => mul S.Γ n X A
  | .times l =>
    match l.getLast? with
    | some (.spre A) => if l.dropLast = [] then stuckAt S s X else
        ap (.spre A) X >>= fun X' => timesCreate S n l.dropLast >>= fun s' => ap s' X'
    | some (.spost A) => if l.dropLast = [] then stuckAt S s X else
        ap (.spost A) X >>= fun X' => timesCreate S n l.dropLast >>= fun s' => ap s' X'
    | _ => stuckAt S s X
  | s => stuckAt S s X

/-- the arguments of an unsimplified `SuperOperatorTimesOperator` -/
def unstuckOf (X : QX K) : Option (SX K × QX K) := match X with
  | .atom a => S.unstuck a
  | _ => none

/-- `s * X` for a super-operator and an operator: `SuperOperatorTimesOperator.create(s, X)`, rules R001-R009 in this order, `_rules.py` lines 481-513 -/
def applyStep (ap : SX K → QX K → Res (QX K)) (n : ℕ) (s : SX K) (X : QX K) : Res (QX K) :=
  match s, X with
  | .plus l, X => l.mapM (fun o => ap o X) >>= QAlg.plusCreate S.Γ n
  | .one, X => .ok X
  | .zero, _ => .ok .zero
  | .scal u A, X => ap A X >>= mulScal S.Γ n u
  | s, .scal u X => ap s X >>= mulScal S.Γ n u
  | s, X =>
    match unstuckOf S X with
    | some (sB, C) => timesCreate S n [s, sB] >>= fun s' => ap s' C
    | none => applyRest S ap n s X

/-- `s * X` -/
def apply : ℕ → SX K → QX K → Res (QX K)
  | 0, _, _ => .error .recursion
  | n + 1, s, X => applyStep S (apply n) n s X

/-- `adjoint()` of super-operators; `none` is Python's `None`. `SPre`, `SPost` lines 211-212, 246-247; `ScalarTimesSuperOperator._adjoint` is
`pass` (lines 162-163); QuantumPlus lines 500-501 (direct instantiation, which asserts that all operands are super-operators, line 410),
QuantumTimes lines 554-556 (`create`, which fails on `None` with an `AttributeError`), symbols lines 391-392. -/
def adjointStep (ad : SX K → Res (Option (SX K))) (n : ℕ) : SX K → Res (Option (SX K))
  | .sym a => .ok (some (.symAdj a))
  | .symAdj a => .ok (some (.sym a))
  | .zero => .ok (some .zero)
  | .one => .ok (some .one)
  | .spre a => .ok (some (.spost a))
  | .spost a => .ok (some (.spre a))
  | .scal _ _ => .ok none
  | .plus l => l.mapM ad >>= fun l' => match l'.mapM id with
    | some l'' => .ok (some (.plus l''))
    | none => .error .assertion
  | .times l => l.reverse.mapM ad >>= fun l' => match l'.mapM id with
    | some l'' => (timesCreate S n l'').map some
    | none => .error .attributeError

/-- `adjoint()` with a recursion depth -/
def adjoint : ℕ → SX K → Res (Option (SX K))
  | 0, _ => .error .recursion
  | n + 1, s => adjointStep S (adjoint n) n s

/-! ### Commutators and Liouvillians -/

/-- `a - b` of super-operators -/
def sub (n : ℕ) (a b : SX K) : Res (SX K) := smul n (-1) b >>= fun b' => plusCreate S n [a, b']

/-- `commutator(A)`, super_operator_algebra.py lines 331-347 -/
def commutator (n : ℕ) (a : QX K) : Res (SX K) := sub S n (.spre a) (.spost a)

/-- `anti_commutator(A)`, lines 350-366 -/
def antiCommutator (n : ℕ) (a : QX K) : Res (SX K) := plusCreate S n [.spre a, .spost a]

/-- a collapse operator: a scalar or an operator -/
inductive Col (K : Type) where
  | scalar (c : K)
  | op (a : QX K)

/-- constants and conjugations used by `lindblad` and `liouvillian`: `1/2`, `I`, conjugation of scalars and adjoints of symbols -/
structure Consts (K : Type) where
  half : K
  i : K
  conj : K → K
  adj : ℕ → QX K

variable (k : Consts K)

/-- `lindblad(C)`, lines 369-391 -/
def lindblad (n : ℕ) : Col K → Res (SX K)
  | .scalar _ => .ok .zero
  | .op c =>
    QAlg.adjoint S.Γ k.adj k.conj n c >>= fun cd =>
    timesCreate S n [.spre c, .spost cd] >>= fun x =>
    mul S.Γ n cd c >>= fun cdc =>
    antiCommutator S n cdc >>= smul n k.half >>= fun y =>
    sub S n x y

/-- `liouvillian(H, Ls)`, lines 394-419 -/
def liouvillian (n : ℕ) (H : QX K) (Ls : List (Col K)) : Res (SX K) :=
  commutator S n H >>= smul n (-k.i) >>= fun s =>
  Ls.mapM (lindblad S k n) >>= fun ds =>
  plusCreate S n (s :: ds)

/-- the two-argument forms `commutator(A, B)` and `anti_commutator(A, B)` with `if B:`, lines 345-347, 364-366: an argument `B` that counts as
false in Python (the number `0`) is treated as if it had not been given. The result is an operator or a super-operator. -/
inductive ComRes (K : Type) where
  | op (a : QX K)
  | sup (s : SX K)

/-- the second argument of `commutator` -/
inductive ComArg (K : Type) where
  | none
  | number (c : K)
  | op (b : QX K)

/-- `commutator(A, B=None)`, lines 331-347 -/
def commutator2 (n : ℕ) (a : QX K) : ComArg K → Res (ComRes K)
  | .none => (commutator S n a).map .sup
  | .number c =>
    if c = 0 then (commutator S n a).map .sup
    else mulScal S.Γ n c a >>= fun x => mulScal S.Γ n c a >>= fun y => (QAlg.sub S.Γ n x y).map .op
  | .op b => mul S.Γ n a b >>= fun x => mul S.Γ n b a >>= fun y => (QAlg.sub S.Γ n x y).map .op

end QNET.Super
