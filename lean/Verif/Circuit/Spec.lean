import Verif.Circuit.Model
import Verif.SLH.Spec
import Verif.Perm.Spec

/-!
# Specification vocabulary for circuit expressions

`Circ.toSLH` models the conversion `toSLH()` of (simplified) circuits; `Expr.eval` gives the meaning of what the user wrote, by
SLH arithmetic alone, without any rewriting.
-/

namespace QNET.Circuit

open QNET.Perm

variable {A : Type} [Ring A] [StarRing A] [Algebra ℂ A]

/-- `reduce(series_with_slh)`; multiplying matrices of different sizes raises `ValueError` -/
noncomputable def seriesFold : SLH A → List (SLH A) → Res (SLH A)
  | a, [] => .ok a
  | a, b :: l => if a.n = b.n then seriesFold (SLH.series a b) l else .error .valueError

mutual
/-- `toSLH()`: lines 416-417, 811-813, 1039-1040, 1065-1066, 1093-1095, 1127-1129, 1263-1265, 1313-1314. The symbols are given the
triples `ρ name cdim` (for a library component this is its `_toSLH`; a plain `CircuitSymbol` has to be substituted first). -/
noncomputable def Circ.toSLH (ρ : ℕ → ℕ → SLH A) : Circ A → Res (SLH A)
  | .sym s n => .ok (ρ s n)
  | .slh s => .ok s
  | .perm p => .ok (SLH.ofPerm p)
  | .id1 => .ok (SLH.passThrough 1)
  | .zero => .ok (SLH.passThrough 0)
  | .series ops => do
    match ← toSLHList ρ ops with
    | [] => .error .typeError
    | s :: l => seriesFold s l
  | .concat ops => do
    match ← toSLHList ρ ops with
    | [] => .error .typeError
    | s :: l => .ok (l.foldl SLH.concat s)
  | .fb c o i => do
    let s ← Circ.toSLH ρ c
    SLH.feedback s o i
  | .inv c => do
    let s ← Circ.toSLH ρ c
    .ok (SLH.inverse s)
/-- the triples of the operands -/
noncomputable def toSLHList (ρ : ℕ → ℕ → SLH A) : List (Circ A) → Res (List (SLH A))
  | [] => .ok []
  | c :: cs => do
    let s ← Circ.toSLH ρ c
    let l ← toSLHList ρ cs
    .ok (s :: l)
end

/-- Number of channels of what the user wrote. -/
def Expr.channels : Expr A → ℕ
  | .sym _ n => n
  | .slh s => s.n
  | .cperm p => p.length
  | .cid n => n
  | .series a _ => a.channels
  | .concat a b => a.channels + b.channels
  | .feedback a _ _ => a.channels - 1
  | .inverse a => a.channels

/-- The user's expression is meaningful: components have at least one channel, `SLH` triples have a unitary `S`, permutations are
permutations, series products have equal channel numbers, feedback is between existing ports of a circuit with at least two
channels, and something with channels is inverted. -/
def Expr.WellFormed : Expr A → Prop
  | .sym _ n => 0 < n
  | .slh s => SLH.Unitary s ∧ 0 < s.n
  | .cperm p => IsBijection p
  | .cid _ => True
  | .series a b => a.WellFormed ∧ b.WellFormed ∧ a.channels = b.channels
  | .concat a b => a.WellFormed ∧ b.WellFormed
  | .feedback a o i => a.WellFormed ∧ 2 ≤ a.channels ∧ o < a.channels ∧ i < a.channels
  | .inverse a => a.WellFormed ∧ 0 < a.channels

/-- No `SLH` objects in the expression. -/
def Expr.Symbolic : Expr A → Prop
  | .slh _ => False
  | .series a b => a.Symbolic ∧ b.Symbolic
  | .concat a b => a.Symbolic ∧ b.Symbolic
  | .feedback a _ _ => a.Symbolic
  | .inverse a => a.Symbolic
  | _ => True

/-- The triple that the user's expression stands for. The only possible failure is an ill-posed feedback loop. -/
noncomputable def Expr.eval (ρ : ℕ → ℕ → SLH A) : Expr A → Res (SLH A)
  | .sym s n => .ok (ρ s n)
  | .slh s => .ok s
  | .cperm p => .ok (SLH.ofPerm p)
  | .cid n => .ok (SLH.passThrough n)
  | .series a b => do
    let x ← a.eval ρ
    let y ← b.eval ρ
    .ok (SLH.series x y)
  | .concat a b => do
    let x ← a.eval ρ
    let y ← b.eval ρ
    .ok (SLH.concat x y)
  | .feedback a o i => do
    let x ← a.eval ρ
    SLH.feedback x o i
  | .inverse a => do
    let x ← a.eval ρ
    .ok (SLH.inverse x)

end QNET.Circuit
