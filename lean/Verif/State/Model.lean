import Verif.Engine.Model
import Mathlib.Data.Finset.Basic
import Mathlib.Data.Fintype.Basic

/-!
# Model of the state algebra

`src/qnet/algebra/core/state_algebra.py` (`TensorKet`, `ScalarTimesKet`, `OperatorTimesKet`, `BraKet`, `KetBra`, `State.__mul__`) with the
rules of `src/qnet/algebra/_rules.py` lines 516-798, `QuantumTimes.factor_for_space` (abstract_quantum_algebra.py lines 515-531) and
`accept_bras` (algebraic_properties.py lines 607-617).

Local spaces are elements of `ι`, other spaces are finite sets of local spaces. `ZeroKet.space`, i.e. `FullSpace`, is the set of all
of them. Basis states and `LocalSigma` have integer indices (symbolic labels: see C27, C38). Left out: `KetIndexedSum` (see C33, C34) and
its rules (OperatorTimesKet R021, TensorKet R003-R005, BraKet and KetBra R009-R011), `StateDerivative`.
All recursion and all `while` loops of the code are unbounded; in the model they have a maximal depth `n`, whose exhaustion is the error
`recursion`.
-/

namespace QNET.State

open QNET.Perm (Res Err)

mutual
/-- Scalars: a number (`ScalarValue`, `Zero`, `One`), an unevaluated `BraKet`, a product, a conjugate. -/
inductive Sc (ι K : Type) where
  | val (k : K)
  | braket (a b : Ket ι K)
  | mul (a b : Sc ι K)
  | conj (a : Sc ι K)
/-- Kets: `ZeroKet`, `TrivialKet`, `KetSymbol` (a number and a space), `BasisKet`, `CoherentStateKet`, `ScalarTimesKet`, `KetPlus`,
`TensorKet`, `OperatorTimesKet`. -/
inductive Ket (ι K : Type) where
  | zero
  | triv
  | sym (a : ℕ) (s : Finset ι)
  | basis (n : ℕ) (l : ι)
  | coh (u : Sc ι K) (l : ι)
  | scal (c : Sc ι K) (t : Ket ι K)
  | plus (l : List (Ket ι K))
  | tensor (l : List (Ket ι K))
  | opKet (A : Op ι K) (t : Ket ι K)
/-- Operators: `ZeroOperator`, `IdentityOperator`, an irreducible operator that is not a `LocalOperator` (`OperatorSymbol`), a
`LocalOperator` other than the following (`Create`, `Destroy`, `Jz`, ...), `LocalSigma`, `Displace`, `OperatorTimes`, `OperatorPlus`,
`ScalarTimesOperator`, `Adjoint`, `KetBra`. -/
inductive Op (ι K : Type) where
  | zero
  | one
  | sym (a : ℕ) (s : Finset ι)
  | loc (a : ℕ) (l : ι)
  | sigma (j k : ℕ) (l : ι)
  | disp (u : Sc ι K) (l : ι)
  | times (l : List (Op ι K))
  | plus (l : List (Op ι K))
  | scal (c : Sc ι K) (t : Op ι K)
  | adj (t : Op ι K)
  | ketBra (a b : Ket ι K)
end

variable {ι K : Type}

instance : Inhabited (Ket ι K) := ⟨.zero⟩
instance : Inhabited (Op ι K) := ⟨.zero⟩

section space
variable [Fintype ι] [DecidableEq ι]

mutual
/-- `State.space` (state_algebra.py lines 198, 222, 188, 506; ScalarTimes... abstract_quantum_algebra.py line 617;
`QuantumOperation.space`: the product of the spaces of the operands) -/
def Ket.space : Ket ι K → Finset ι
  | .zero => Finset.univ
  | .triv => ∅
  | .sym _ s => s
  | .basis _ l => {l}
  | .coh _ l => {l}
  | .scal _ t => t.space
  | .plus l => spaceL l
  | .tensor l => spaceL l
  | .opKet _ t => t.space
/-- the union of the spaces of a list of kets -/
def spaceL : List (Ket ι K) → Finset ι
  | [] => ∅
  | t :: ts => t.space ∪ spaceL ts
end

mutual
/-- `Operator.space`; `KetBra.space` state_algebra.py lines 680-683 -/
def Op.space : Op ι K → Finset ι
  | .zero => ∅
  | .one => ∅
  | .sym _ s => s
  | .loc _ l => {l}
  | .sigma _ _ l => {l}
  | .disp _ l => {l}
  | .times l => opSpaceL l
  | .plus l => opSpaceL l
  | .scal _ t => t.space
  | .adj t => t.space
  | .ketBra a _ => a.space
/-- the union of the spaces of a list of operators -/
def opSpaceL : List (Op ι K) → Finset ι
  | [] => ∅
  | t :: ts => t.space ∪ opSpaceL ts
end
end space

section beq
variable [DecidableEq ι] [DecidableEq K]

mutual
/-- `==` of expressions: same class and equal arguments (abstract_algebra.py line 363) -/
def Sc.beq : Sc ι K → Sc ι K → Bool
  | .val k, .val k' => decide (k = k')
  | .braket a b, .braket a' b' => a.beq a' && b.beq b'
  | .mul a b, .mul a' b' => a.beq a' && b.beq b'
  | .conj a, .conj a' => a.beq a'
  | _, _ => false
/-- `==` of kets -/
def Ket.beq : Ket ι K → Ket ι K → Bool
  | .zero, .zero => true
  | .triv, .triv => true
  | .sym a s, .sym a' s' => decide (a = a') && decide (s = s')
  | .basis n l, .basis n' l' => decide (n = n') && decide (l = l')
  | .coh u l, .coh u' l' => u.beq u' && decide (l = l')
  | .scal c t, .scal c' t' => c.beq c' && t.beq t'
  | .plus l, .plus l' => ketsBeq l l'
  | .tensor l, .tensor l' => ketsBeq l l'
  | .opKet A t, .opKet A' t' => A.beq A' && t.beq t'
  | _, _ => false
/-- `==` of operators -/
def Op.beq : Op ι K → Op ι K → Bool
  | .zero, .zero => true
  | .one, .one => true
  | .sym a s, .sym a' s' => decide (a = a') && decide (s = s')
  | .loc a l, .loc a' l' => decide (a = a') && decide (l = l')
  | .sigma j k l, .sigma j' k' l' => decide (j = j') && decide (k = k') && decide (l = l')
  | .disp u l, .disp u' l' => u.beq u' && decide (l = l')
  | .times l, .times l' => opsBeq l l'
  | .plus l, .plus l' => opsBeq l l'
  | .scal c t, .scal c' t' => c.beq c' && t.beq t'
  | .adj t, .adj t' => t.beq t'
  | .ketBra a b, .ketBra a' b' => a.beq a' && b.beq b'
  | _, _ => false
/-- equality of lists of kets -/
def ketsBeq : List (Ket ι K) → List (Ket ι K) → Bool
  | [], [] => true
  | a :: as, b :: bs => a.beq b && ketsBeq as bs
  | _, _ => false
/-- equality of lists of operators -/
def opsBeq : List (Op ι K) → List (Op ι K) → Bool
  | [], [] => true
  | a :: as, b :: bs => a.beq b && opsBeq as bs
  | _, _ => false
end
end beq

/-- What the other parts of the code contribute: products and conjugates of scalars (C35), `OperatorTimes.create`,
scalar * operator and `adjoint()` of operators (C30, C53), the sorting of the factors of a `TensorKet` by `FullCommutativeHSOrder`, the
list of local factors of a space (sorted), and the rules for a particular local operator applied to a local ket (`_rules.py`
OperatorTimesKet R006-R011 and R017-R020; C37, C38). `strict = false` is the code. With `strict = true` the evaluation stops with an
error where `act_locally_times_tensor` separates factors of a product that act on a common space (see `safeSplit`). -/
structure Mk (ι K : Type) where
  scMul : Sc ι K → Sc ι K → Res (Sc ι K)
  scConj : Sc ι K → Res (Sc ι K)
  opTimes : List (Op ι K) → Res (Op ι K)
  opScal : Sc ι K → Op ι K → Res (Op ι K)
  opAdj : Op ι K → Res (Op ι K)
  sort : List (Ket ι K) → List (Ket ι K)
  locals : Finset ι → List ι
  rule : Op ι K → Ket ι K → Option (Res (Ket ι K))
  strict : Bool

/-- `is ZeroKet` -/
def Ket.isZero : Ket ι K → Bool
  | .zero => true
  | _ => false

/-- `== TrivialKet` -/
def Ket.isTriv : Ket ι K → Bool
  | .triv => true
  | _ => false

/-- `isinstance(ket, LocalKet)`: `BasisKet` and `CoherentStateKet` -/
def Ket.isLocal : Ket ι K → Bool
  | .basis _ _ => true
  | .coh _ _ => true
  | _ => false

/-- `isinstance(op, LocalOperator)` -/
def Op.isLocal : Op ι K → Bool
  | .loc _ _ => true
  | .sigma _ _ _ => true
  | .disp _ _ => true
  | _ => false

/-- operands of an instance of `TensorKet` (`isinstance(o, cls)` in `assoc`) -/
def flatTensor : Ket ι K → Option (List (Ket ι K))
  | .tensor l => some l
  | _ => none

/-- the coefficient is 1 -/
def Sc.isOne [DecidableEq K] [One K] : Sc ι K → Bool
  | .val k => decide (k = 1)
  | _ => false

/-- the coefficient is 0 -/
def Sc.isZero [DecidableEq K] [Zero K] : Sc ι K → Bool
  | .val k => decide (k = 0)
  | _ => false

variable [Fintype ι] [DecidableEq ι] [DecidableEq K] [Zero K] [One K]

/-- `_check_kets(*ops, disjunct_space=True)`, state_algebra.py lines 738-745 -/
def disjointFrom : Finset ι → List (Ket ι K) → Bool
  | _, [] => true
  | spc, o :: ops => decide (o.space ∩ spc = ∅) && disjointFrom (spc ∪ o.space) ops

variable (mk : Mk ι K)

/-- Rules R003, R004 of `ScalarTimesKet` (`_rules.py` lines 596-601), and the constructor; `sk` is the recursive call -/
def scalRest (sk : Sc ι K → Ket ι K → Res (Ket ι K)) (u : Sc ι K) (t : Ket ι K) : Res (Ket ι K) :=
  match t with
  | .zero => .ok .zero
  | .scal v t' => mk.scMul u v >>= fun w => sk w t'
  | t => .ok (.scal u t)

/-- `coeff * ket`, i.e. `ScalarTimesKet.create(coeff, ket)`, with rules R001-R004 (`_rules.py` lines 589-602) -/
def scalKet : ℕ → Sc ι K → Ket ι K → Res (Ket ι K)
  | 0, _, _ => .error .recursion
  | n + 1, u, t => if u.isOne then .ok t else if u.isZero then .ok .zero else scalRest mk (scalKet n) u t

/-- Rules R001, R002 of `TensorKet` (`_rules.py` lines 699-704); `tc` is `TensorKet.create` -/
def tensorRule (tc : List (Ket ι K) → Res (Ket ι K)) (sk : Sc ι K → Ket ι K → Res (Ket ι K)) (x y : Ket ι K) : Res (Option (Ket ι K)) :=
  match x, y with
  | .scal u a, b => tc [a, b] >>= sk u >>= fun r => .ok (some r)
  | a, .scal u b => tc [a, b] >>= sk u >>= fun r => .ok (some r)
  | _, _ => .ok none

/-- the end of `TensorKet.create`: `TensorKet.__init__` (state_algebra.py lines 445-447) checks that the spaces are disjoint and otherwise
raises `OverlappingSpaces` -/
def tensorEnd : Engine.Outcome (Ket ι K) → Res (Ket ι K)
  | .single x => .ok x
  | .operands l => if disjointFrom ∅ l then .ok (.tensor l) else .error .algebraError

/-- `TensorKet.create(*ops)` for kets: state_algebra.py lines 434-453 with `simplifications = [accept_bras, assoc, orderby, filter_neutral,
match_replace_binary]`. Without operands `accept_bras` calls `TensorKet.create()` again, without end. -/
def tensorCreate : ℕ → List (Ket ι K) → Res (Ket ι K)
  | 0, _ => .error .recursion
  | n + 1, ops =>
    if ops.any Ket.isZero then .ok .zero
    else if ops.isEmpty then .error .recursion
    else
      match Engine.filterNeutral .triv Ket.isTriv (mk.sort (Engine.assoc flatTensor ops)) with
      | .single x => .ok x
      | .operands l =>
        Engine.matchReplaceBinary (tensorRule (tensorCreate n) (scalKet mk n)) .triv Ket.isTriv flatTensor n l >>= tensorEnd

/-- `TensorKet(*l).factor_for_space(spc)` for a non-trivial space, abstract_quantum_algebra.py lines 515-531 -/
def factorKet (n : ℕ) (spc : Finset ι) (l : List (Ket ι K)) : Res (Ket ι K × Ket ι K) :=
  tensorCreate mk n (l.filter fun o => decide (o.space ∩ spc ≠ ∅)) >>= fun on =>
  tensorCreate mk n (l.filter fun o => decide (o.space ∩ spc = ∅)) >>= fun off => .ok (on, off)

/-- `OperatorTimes(*l).factor_for_space(spc)` for a non-trivial space -/
def factorOp (spc : Finset ι) (l : List (Op ι K)) : Res (Op ι K × Op ι K) :=
  mk.opTimes (l.filter fun o => decide (o.space ∩ spc ≠ ∅)) >>= fun on =>
  mk.opTimes (l.filter fun o => decide (o.space ∩ spc = ∅)) >>= fun off => .ok (on, off)

/-- `act_locally(op, ket)`, `_rules.py` lines 516-520 (`none`: `CannotSimplify`); `ok` is `op * ket` -/
def actLocally (ok : Op ι K → Ket ι K → Res (Ket ι K)) (n : ℕ) (A : Op ι K) (l : List (Ket ι K)) : Res (Option (Ket ι K)) :=
  factorKet mk n A.space l >>= fun (on, off) =>
  if off.isTriv then .ok none
  else ok A on >>= fun r => tensorCreate mk n [r, off] >>= fun r => .ok (some r)

/-- no factor with a part in `spc` shares a local space with a factor without a part in `spc` (not checked by the code) -/
def safeSplit (spc : Finset ι) (l : List (Op ι K)) : Bool :=
  (l.filter fun o => decide (o.space ∩ spc ≠ ∅)).all fun a => (l.filter fun o => decide (o.space ∩ spc = ∅)).all fun b =>
    decide (a.space ∩ b.space = ∅)

/-- the `while` loop of `act_locally_times_tensor`, `_rules.py` lines 526-535: the factors, if they are found -/
def splitOpKet (n : ℕ) (ops : List (Op ι K)) (l : List (Ket ι K)) : ℕ → Finset ι → Res (Option ((Op ι K × Op ι K) × (Ket ι K × Ket ι K)))
  | 0, _ => .error .recursion
  | m + 1, spc =>
    if spc ⊂ spaceL l then
      factorOp mk spc ops >>= fun A => factorKet mk n spc l >>= fun k =>
      if A.1.space ⊆ k.1.space ∧ A.2.space ⊆ k.2.space ∧ k.2.isTriv = false then
        if mk.strict && !safeSplit spc ops then .error .other else .ok (some (A, k))
      else splitOpKet n ops l m (A.1.space ∪ k.1.space)
    else .ok none

/-- the `for` loop of `act_locally_times_tensor`, `_rules.py` lines 524-536: the first success -/
def firstLocal {α : Type} (f : Finset ι → Res (Option α)) : List ι → Res (Option α)
  | [] => .ok none
  | i :: is => f {i} >>= fun r =>
    match r with
    | some x => .ok (some x)
    | none => firstLocal f is

/-- `act_locally_times_tensor(op, ket)`, `_rules.py` lines 523-536 -/
def actTimesTensor (ok : Op ι K → Ket ι K → Res (Ket ι K)) (n : ℕ) (ops : List (Op ι K)) (l : List (Ket ι K)) : Res (Option (Ket ι K)) :=
  firstLocal (splitOpKet mk n ops l n) (mk.locals (opSpaceL ops)) >>= fun r =>
  match r with
  | none => .ok none
  | some (A, k) => ok A.1 k.1 >>= fun x => ok A.2 k.2 >>= fun y => tensorCreate mk n [x, y] >>= fun r => .ok (some r)

/-- `OperatorTimesKet(A, ket)`: the constructor, state_algebra.py lines 488-493; otherwise `SpaceTooLargeError` -/
def rawOpKet (A : Op ι K) (t : Ket ι K) : Res (Ket ι K) := if A.space ⊆ t.space then .ok (.opKet A t) else .error .algebraError

/-- the result of a rule that may raise `CannotSimplify`, after which no other rule applies -/
def orRaw (A : Op ι K) (t : Ket ι K) : Option (Ket ι K) → Res (Ket ι K)
  | some r => .ok r
  | none => rawOpKet A t

/-- the rules R014-R016 of `OperatorTimesKet`, `_rules.py` lines 659-671 -/
def opKetRest (sk : Sc ι K → Ket ι K → Res (Ket ι K)) (ok : Op ι K → Ket ι K → Res (Ket ι K)) (A : Op ι K) (t : Ket ι K) : Res (Ket ι K) :=
  match A, t with
  | A, .opKet B t' =>
    ok B t' >>= fun r => if r.beq (.opKet B t') then mk.opTimes [A, B] >>= fun C => ok C t' else ok A r
  | .times l, t =>
    if 2 ≤ l.length ∧ (l.getLastD .zero).isLocal = true ∧ t.isLocal = true then
      mk.opTimes l.dropLast >>= fun C => ok (l.getLastD .zero) t >>= fun r => ok C r
    else rawOpKet (.times l) t
  | .scal u A', t => ok A' t >>= sk u
  | A, t => rawOpKet A t

/-- the rules R012-R016 of `OperatorTimesKet`, `_rules.py` lines 652-671 -/
def opKetTensor (sk : Sc ι K → Ket ι K → Res (Ket ι K)) (ok : Op ι K → Ket ι K → Res (Ket ι K)) (n : ℕ) (A : Op ι K) (t : Ket ι K) : Res (Ket ι K) :=
  match t with
  | .tensor l =>
    if A.isLocal then actLocally mk ok n A l >>= orRaw A (.tensor l)
    else
      match A with
      | .times ops => actTimesTensor mk ok n ops l >>= orRaw (.times ops) (.tensor l)
      | A => opKetRest mk sk ok A (.tensor l)
  | t => opKetRest mk sk ok A t

/-- rules R005-R011 and R017-R020 of `OperatorTimesKet`: particular operators applied to basis states and coherent states,
`_rules.py` lines 623-651, 672-693 -/
def opKetLocal (A : Op ι K) (t : Ket ι K) : Option (Res (Ket ι K)) :=
  match A, t with
  | .sigma j k l, .basis m l' => if l = l' then some (if k = m then .ok (.basis j l) else .ok .zero) else mk.rule A t
  | A, t => mk.rule A t

/-- rules R003-R020 of `OperatorTimesKet`, `_rules.py` lines 614-693 -/
def opKetStep (sk : Sc ι K → Ket ι K → Res (Ket ι K)) (ok : Op ι K → Ket ι K → Res (Ket ι K)) (n : ℕ) (A : Op ι K) (t : Ket ι K) : Res (Ket ι K) :=
  match t with
  | .zero => .ok .zero
  | .scal v t' => ok A t' >>= sk v
  | t =>
    match opKetLocal mk A t with
    | some r => r
    | none => opKetTensor mk sk ok n A t

/-- `OperatorTimesKet.create(A, ket)`: state_algebra.py lines 483-486 with the rules of `_rules.py` lines 607-697 -/
def opKet : ℕ → Op ι K → Ket ι K → Res (Ket ι K)
  | 0, _, _ => .error .recursion
  | n + 1, A, t =>
    match A with
    | .one => .ok t
    | .zero => .ok .zero
    | A => opKetStep mk (scalKet mk n) (opKet n) n A t

/-- the `while` loop of `tensor_decompose_kets`, `_rules.py` lines 541-549 -/
def splitKets (n : ℕ) (a b : List (Ket ι K)) : ℕ → Finset ι → Res (Option ((Ket ι K × Ket ι K) × (Ket ι K × Ket ι K)))
  | 0, _ => .error .recursion
  | m + 1, spc =>
    if spc ⊂ spaceL a ∪ spaceL b then
      factorKet mk n spc a >>= fun x => factorKet mk n spc b >>= fun y =>
      if x.1.space = y.1.space ∧ x.2.space = y.2.space ∧ x.2.isTriv = false then .ok (some (x, y))
      else splitKets n a b m (x.1.space ∪ y.1.space)
    else .ok none

/-- `tensor_decompose_kets(a, b, operation)`, `_rules.py` lines 537-550: the factors on which to operate -/
def decompose (n : ℕ) (a b : List (Ket ι K)) : Res (Option ((Ket ι K × Ket ι K) × (Ket ι K × Ket ι K))) :=
  firstLocal (splitKets mk n a b n) (mk.locals (spaceL a ∪ spaceL b))

/-- `_check_kets(a, b, same_space=True)`, state_algebra.py lines 735-737: `UnequalSpaces` unless exactly one space is left after leaving
out `ZeroKet` -/
def sameSpace : Ket ι K → Ket ι K → Bool
  | .zero, .zero => false
  | .zero, _ => true
  | _, .zero => true
  | a, b => decide (a.space = b.space)

/-- `BraKet(a, b)`: the constructor, state_algebra.py lines 625-627 -/
def rawBraKet (a b : Ket ι K) : Res (Sc ι K) := if sameSpace a b then .ok (.braket a b) else .error .algebraError

/-- the rules R006-R008 of `BraKet`, `_rules.py` lines 742-750 -/
def braKetRest (ok : Op ι K → Ket ι K → Res (Ket ι K)) (bk : Ket ι K → Ket ι K → Res (Sc ι K)) (a b : Ket ι K) : Res (Sc ι K) :=
  match a, b with
  | .scal u a', b => mk.scConj u >>= fun u' => bk a' b >>= fun s => mk.scMul u' s
  | .opKet A a', b => mk.opAdj A >>= fun A' => ok A' b >>= fun r => bk a' r
  | a, .scal u b' => bk a b' >>= fun s => mk.scMul u s
  | a, b => rawBraKet a b

/-- rules R001-R008 of `BraKet`, `_rules.py` lines 719-750; `ok` is `op * ket` and `bk` the recursive call -/
def braKetStep (ok : Op ι K → Ket ι K → Res (Ket ι K)) (bk : Ket ι K → Ket ι K → Res (Sc ι K)) (n : ℕ) (a b : Ket ι K) : Res (Sc ι K) :=
  match a, b with
  | _, .zero => .ok (.val 0)
  | .zero, _ => .ok (.val 0)
  | .basis j _, .basis k _ => .ok (.val (if j = k then 1 else 0))
  | .sym i s, .sym j t =>
    if i = j ∧ s = t then .ok (.val 1) else rawBraKet (.sym i s) (.sym j t)
  | .tensor l, .tensor m =>
    decompose mk n l m >>= fun r =>
    match r with
    | some (x, y) => bk x.1 y.1 >>= fun s => bk x.2 y.2 >>= fun t => mk.scMul s t
    | none => rawBraKet (.tensor l) (.tensor m)
  | a, b => braKetRest mk ok bk a b

/-- `BraKet.create(a, b)`, i.e. `Bra(a) * b`: state_algebra.py lines 620-623 -/
def braKet : ℕ → Ket ι K → Ket ι K → Res (Sc ι K)
  | 0, _, _ => .error .recursion
  | n + 1, a, b => braKetStep mk (opKet mk n) (braKet n) n a b

/-- `KetBra(a, b)`: the constructor, state_algebra.py lines 663-665 -/
def rawKetBra (a b : Ket ι K) : Res (Op ι K) := if sameSpace a b then .ok (.ketBra a b) else .error .algebraError

/-- the rules R005-R008 of `KetBra`, `_rules.py` lines 781-794 -/
def ketBraRest (kb : Ket ι K → Ket ι K → Res (Op ι K)) (a b : Ket ι K) : Res (Op ι K) :=
  match a, b with
  | .opKet A a', b => kb a' b >>= fun X => mk.opTimes [A, X]
  | a, .opKet A b' => kb a b' >>= fun X => mk.opAdj A >>= fun A' => mk.opTimes [X, A']
  | .scal u a', b => kb a' b >>= fun X => mk.opScal u X
  | a, .scal u b' => mk.scConj u >>= fun u' => kb a b' >>= fun X => mk.opScal u' X
  | a, b => rawKetBra a b

variable [Neg K]

/-- rules R001-R008 of `KetBra`, `_rules.py` lines 764-794; `kb` is the recursive call -/
def ketBraStep (kb : Ket ι K → Ket ι K → Res (Op ι K)) (n : ℕ) (a b : Ket ι K) : Res (Op ι K) :=
  match a, b with
  | .basis j l, .basis k l' => if l = l' then .ok (.sigma j k l) else rawKetBra (.basis j l) (.basis k l')
  | .coh u l, b => kb (.basis 0 l) b >>= fun X => mk.opTimes [.disp u l, X]
  | a, .coh u l => kb a (.basis 0 l) >>= fun X => mk.scMul (.val (-1)) u >>= fun u' => mk.opTimes [X, .disp u' l]
  | .tensor l, .tensor m =>
    decompose mk n l m >>= fun r =>
    match r with
    | some (x, y) => kb x.1 y.1 >>= fun s => kb x.2 y.2 >>= fun t => mk.opTimes [s, t]
    | none => rawKetBra (.tensor l) (.tensor m)
  | a, b => ketBraRest mk kb a b

/-- `KetBra.create(a, b)`, i.e. `a * Bra(b)`: state_algebra.py lines 657-661 -/
def ketBra : ℕ → Ket ι K → Ket ι K → Res (Op ι K)
  | 0, _, _ => .error .recursion
  | n + 1, a, b => ketBraStep mk (ketBra n) n a b

/-! ## products of kets, bras, operators and scalars -/

/-- an operand of `*`: a ket, `Bra(ket)`, an operator or a scalar -/
inductive Elt (ι K : Type) where
  | ket (a : Ket ι K)
  | bra (a : Ket ι K)
  | op (A : Op ι K)
  | sc (c : Sc ι K)

/-- `x * y` if at least one operand is a state: `State.__mul__` and `__rmul__`, state_algebra.py lines 88-160, and
`QuantumExpression.__mul__`, `__rmul__`, abstract_quantum_algebra.py lines 232-255; `TypeError` where both return `NotImplemented`.
`Bra * scalar` is `ScalarTimesKet.create(c, Bra(a))`, state_algebra.py lines 466-471, which is `Bra.create(c.conjugate() * a)`. Other
products (`other`) are not products of states. -/
def eltMul (n : ℕ) (x y : Elt ι K) : Res (Elt ι K) :=
  match x, y with
  | .ket a, .ket b => tensorCreate mk n [a, b] >>= fun r => .ok (.ket r)
  | .ket a, .bra b => ketBra mk n a b >>= fun r => .ok (.op r)
  | .bra a, .ket b => braKet mk n a b >>= fun r => .ok (.sc r)
  | .bra a, .bra b => tensorCreate mk n [a, b] >>= fun r => .ok (.bra r)
  | .bra a, .op A => mk.opAdj A >>= fun A' => opKet mk n A' a >>= fun r => .ok (.bra r)
  | .op A, .ket a => opKet mk n A a >>= fun r => .ok (.ket r)
  | .ket a, .sc c => scalKet mk n c a >>= fun r => .ok (.ket r)
  | .sc c, .ket a => scalKet mk n c a >>= fun r => .ok (.ket r)
  | .bra a, .sc c => mk.scConj c >>= fun c' => scalKet mk n c' a >>= fun r => .ok (.bra r)
  | .sc c, .bra a => mk.scConj c >>= fun c' => scalKet mk n c' a >>= fun r => .ok (.bra r)
  | .ket _, .op _ => .error .typeError
  | .op _, .bra _ => .error .typeError
  | _, _ => .error .other

end QNET.State
