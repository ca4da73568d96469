import Verif.Perm.Model
import Mathlib.Data.Finset.Basic
import Mathlib.Data.Finset.Lattice.Fold

/-!
# Model of the partial trace

`src/qnet/algebra/core/operator_algebra.py` `OperatorTrace` (lines 609-672), `factor_for_trace` (819-869), `decompose_space` (872-886)
and the rules of `OperatorTrace` in `src/qnet/algebra/_rules.py` lines 315-352.

Local spaces are elements of `ι`, the space of an operator is a finite set of local spaces. A space to trace over is the list of
its local factors (`[]`: `TrivialSpace`, one element: `LocalSpace`, otherwise `ProductSpace`, whose operands are sorted).
-/

namespace QNET.Trace

open QNET.Perm (Res Err)

/-- Operator expressions: `ZeroOperator`, `IdentityOperator`, any other irreducible operator (`OperatorSymbol` etc., given by a number and
the space it acts on), `Create`, `Destroy`, `LocalSigma(j, k)` with integer indices, `OperatorPlus`, `OperatorTimes`,
`ScalarTimesOperator`, `Adjoint` and an unevaluated `OperatorTrace` over a local space. -/
inductive Op (ι K : Type) where
  | zero
  | one
  | sym (a : ℕ) (s : Finset ι)
  | create (l : ι)
  | destroy (l : ι)
  | sigma (j k : ℕ) (l : ι)
  | plus (l : List (Op ι K))
  | times (l : List (Op ι K))
  | smul (c : K) (t : Op ι K)
  | adj (t : Op ι K)
  | trace (l : ι) (t : Op ι K)

variable {ι K : Type} [DecidableEq ι]

instance : Inhabited (Op ι K) := ⟨.zero⟩

mutual
/-- `Operator.space` (abstract_quantum_algebra.py 395-418 `QuantumOperation.space`; operator_algebra.py 643-646 `OperatorTrace.space`) -/
def Op.space : Op ι K → Finset ι
  | .zero => ∅
  | .one => ∅
  | .sym _ s => s
  | .create l => {l}
  | .destroy l => {l}
  | .sigma _ _ l => {l}
  | .plus l => spaceL l
  | .times l => spaceL l
  | .smul _ t => t.space
  | .adj t => t.space
  | .trace l t => t.space \ {l}
/-- the union of the spaces of a list of operators -/
def spaceL : List (Op ι K) → Finset ι
  | [] => ∅
  | t :: ts => t.space ∪ spaceL ts
end

/-- the constructors `OperatorTimes.create`, `OperatorPlus.create`, `Adjoint.create` and `scalar * operator` that the rules of the trace
call. They simplify by rules of their own: only what the theorems assume of them is known. -/
structure Mk (ι K : Type) where
  times : List (Op ι K) → Res (Op ι K)
  plus : List (Op ι K) → Res (Op ι K)
  smul : K → Op ι K → Res (Op ι K)
  adj : Op ι K → Res (Op ι K)

/-- `isinstance(r, LocalSigma)` -/
def isSigma : Op ι K → Bool
  | .sigma _ _ _ => true
  | _ => false

/-- What `factor_for_trace` decides to do: raise `CannotSimplify`, return `ls.dimension * op`, or return
`OperatorTimes.create(*pull_out) * OperatorTrace.create(OperatorTimes.create(*rest), over_space=ls)` -/
inductive Plan (ι K : Type) where
  | cannot
  | dimTimes
  | split (pull rest : List (Op ι K))

/-- operator_algebra.py 853-861: rotate the factors such that the product starts with the first `LocalSigma` -/
def rotate (l : ι) (rest : List (Op ι K)) : Res (List (Op ι K)) :=
  match rest.head?, rest.getLast? with
  | some a, some b =>
    if !isSigma a || !isSigma b then
      let j := rest.findIdx isSigma
      match rest[j]? with
      | some (.sigma m _ _) => .ok (rest.drop j ++ rest.take j ++ [.sigma m m l])
      | _ => .ok rest
    else .ok rest
  | _, _ => .error .indexError

/-- Specification of a safe reordering: every factor pulled out to the left acts on different local spaces than all the factors
before it that stay in the trace -/
def PullSafe (l : ι) (ops : List (Op ι K)) : Prop :=
  ops.Pairwise fun a b => l ∈ a.space → l ∉ b.space → Disjoint a.space b.space

/-- Specification of a safe rotation: the factors before the first `LocalSigma` have no local space but `l` in common with the
factors from there on -/
def RotSafe (l : ι) (rest : List (Op ι K)) : Prop :=
  ∀ a ∈ rest.take (rest.findIdx isSigma), ∀ b ∈ rest.drop (rest.findIdx isSigma), ∀ i ∈ a.space, i ≠ l → i ∉ b.space

instance (l : ι) (ops : List (Op ι K)) : Decidable (PullSafe l ops) := by unfold PullSafe; infer_instance
instance (l : ι) (ops : List (Op ι K)) : Decidable (RotSafe l ops) := by unfold RotSafe; infer_instance

/-- operator_algebra.py 819-869 `factor_for_trace(ls, op)` for a local space `ls`. With `strict` the model stops with an error where the
code does a reordering that is not safe in the sense of `PullSafe` and `RotSafe` (the code has no such check: it is the
model with `strict = false`). -/
def factorPlan (strict : Bool) (l : ι) (op : Op ι K) : Res (Plan ι K) :=
  if op.space = {l} then
    match op with
    | .times ops =>
      let pull := ops.filter fun o => decide (o.space = ∅)
      let rest := ops.filter fun o => !decide (o.space = ∅)
      if pull.isEmpty then .ok .cannot else .ok (.split pull rest)
    | _ => .ok .cannot
  else if l ∉ op.space then .ok .dimTimes
  else
    match op with
    | .times ops =>
      let pull := ops.filter fun o => decide (l ∉ o.space)
      let rest := ops.filter fun o => !decide (l ∉ o.space)
      do
        let rest' ← rotate l rest
        if pull.isEmpty then .ok .cannot
        else if strict && !(decide (PullSafe l ops) && decide (RotSafe l rest)) then .error .other
        else .ok (.split pull rest')
    | _ => .ok .cannot

/-- `HilbertSpace.dimension` (hilbert_space_algebra.py 421-431, 531, 758-768): the product of the dimensions of the factors,
`BasisNotSetError` if one of them is not known -/
def dimension (dim : ι → Option ℕ) : List ι → Res ℕ
  | [] => .ok 1
  | l :: ls =>
    match dim l with
    | none => .error .basisNotSet
    | some n => do .ok (n * (← dimension dim ls))

variable [NatCast K]

/-- _rules.py 336-349, rules R008, R009, R010: `Create`, `Destroy` and `LocalSigma` on the traced space -/
def localRule (l : ι) : Op ι K → Option (Op ι K)
  | .create l' => if l' = l then some .zero else none
  | .destroy l' => if l' = l then some .zero else none
  | .sigma j k l' => if l' = l then some (if j = k then .one else .zero) else none
  | _ => none

/-- what `factor_for_trace` returns; `rec` is `OperatorTrace.create(·, over_space=ls)`. If it raises `CannotSimplify` there is no further
rule, and the plain instance is created (abstract_algebra.py 104-199). -/
def applyPlan (mk : Mk ι K) (dim : ι → Option ℕ) (rec : Op ι K → Res (Op ι K)) (l : ι) (A : Op ι K) : Plan ι K → Res (Op ι K)
  | .cannot => .ok (.trace l A)
  | .dimTimes => do
      let D ← dimension dim [l]
      mk.smul (D : K) A
  | .split pull rest => do
      let P ← mk.times pull
      let R ← mk.times rest
      let T ← rec R
      mk.times [P, T]

/-- `OperatorTrace.create(A, over_space=H)`: rules R001-R011 of _rules.py 315-352 in this order, and the plain instance if the only
matching rule raises `CannotSimplify`. Simplifications: `KroneckerDelta` of two integers is 1 or 0 (symbolic level labels are not
modelled); the recursion depth is bounded by the first number. -/
def trc (strict : Bool) (mk : Mk ι K) (dim : ι → Option ℕ) : ℕ → List ι → Op ι K → Res (Op ι K)
  | 0, _, _ => .error .recursion
  | _ + 1, [], A => .ok A                                                            -- R001
  | _ + 1, _ :: _, .zero => .ok .zero                                                -- R002
  | _ + 1, h :: H, .one => do                                                        -- R003
      let D ← dimension dim (h :: H)
      mk.smul (D : K) .one
  | n + 1, h :: H, .plus ts => do                                                    -- R004
      let rs ← ts.mapM (trc strict mk dim n (h :: H))
      mk.plus rs
  | n + 1, h :: H, .adj t => do                                                      -- R005
      let r ← trc strict mk dim n (h :: H) t
      mk.adj r
  | n + 1, h :: H, .smul u t => do                                                   -- R006
      let r ← trc strict mk dim n (h :: H) t
      mk.smul u r
  | n + 1, h :: h' :: H, A => do                                                     -- R007, decompose_space
      let B ← trc strict mk dim n [(h :: h' :: H).getLast (by simp)] A
      trc strict mk dim n (h :: h' :: H).dropLast B
  | n + 1, [l], A =>
      match localRule l A with
      | some t => .ok t                                                              -- R008, R009, R010
      | none => do                                                                   -- R011
          let plan ← factorPlan strict l A
          applyPlan mk dim (trc strict mk dim n [l]) l A plan

end QNET.Trace
