import Mathlib.Analysis.SpecialFunctions.Exp
import Mathlib.Analysis.SpecialFunctions.Sqrt
import Mathlib.Analysis.Complex.Basic

/-!
# Model of the rules for one harmonic oscillator mode

`src/qnet/algebra/_rules.py` lines 178-258 (products), 596-640 (operators on kets), 715-735 (`KetBra`), 660-680 (`BraKet`);
`LocalSigma.raise_jk` (operator_algebra.py lines 403-433), `BasisKet.next`/`prev` (state_algebra.py lines 321-364);
`src/qnet/algebra/library/fock_operators.py`.

All operators act on the same `LocalSpace`, of unknown dimension (`dim = none`) or of the given dimension. Basis states are given by
their index (labels are translated by `index_j`, `index_k`, `index`). The right hand sides of the rules are given before they are simplified
further. Numbers are complex numbers.
-/

namespace QNET.Osc

/-- operators on the mode: `Create`, `Destroy`, `LocalSigma(j, k)`, `Phase(u)`, `Displace(u)` -/
inductive Op where
  | create
  | destroy
  | sigma (j k : ℕ)
  | phase (u : ℂ)
  | displace (u : ℂ)

/-- operator expressions -/
inductive OX where
  | one
  | zero
  | op (o : Op)
  | smul (c : ℂ) (e : OX)
  | mul (a b : OX)
  | add (a b : OX)

/-- states: `BasisKet(n)`, `CoherentStateKet(u)` -/
inductive Ket where
  | basis (n : ℕ)
  | coherent (u : ℂ)

/-- ket expressions -/
inductive KX where
  | zero
  | ket (k : Ket)
  | smul (c : ℂ) (k : KX)
  | app (e : OX) (k : KX)

/-- the index is that of a basis state -/
def inDim (dim : Option ℕ) (n : ℤ) : Bool := decide (0 ≤ n) && (match dim with | none => true | some d => decide (n < d))

/-- `LocalSigma(j, k).raise_jk(dj, dk)`, operator_algebra.py lines 403-433 -/
def raiseJK (dim : Option ℕ) (j k : ℕ) (dj dk : ℤ) : OX :=
  if inDim dim (j + dj) && inDim dim (k + dk) then .op (.sigma (j + dj).toNat (k + dk).toNat) else .zero

/-- `BasisKet(n).next(d)`, state_algebra.py lines 321-351 -/
def nextKet (dim : Option ℕ) (n : ℕ) (d : ℤ) : KX := if inDim dim (n + d) then .ket (.basis (n + d).toNat) else .zero

/-- `sqrt` of an index -/
noncomputable def sq (n : ℕ) : ℂ := (Real.sqrt n : ℝ)

open Classical in
/-- `Phase.create(u)`, rule R001 (`_rules.py` lines 306-309) -/
noncomputable def phaseCreate (u : ℂ) : OX := if u = 0 then .one else .op (.phase u)

open Classical in
/-- `Displace.create(u)`, rule R001 (`_rules.py` lines 302-305) -/
noncomputable def displaceCreate (u : ℂ) : OX := if u = 0 then .one else .op (.displace u)

/-- `KroneckerDelta(i, j) * e` for indices that are numbers -/
def deltaOp (i j : ℕ) (e : OX) : OX := if i = j then e else .zero

/-- `KroneckerDelta(i, j) * k` -/
def deltaKet (i j : ℕ) (k : KX) : KX := if i = j then k else .zero

/-- the binary rules R005, R009-R021 of `OperatorTimes`, `_rules.py` lines 178-258 -/
noncomputable def prodRule (dim : Option ℕ) : Op → Op → Option OX
  | .sigma a b, .sigma c d => some (deltaOp b c (.op (.sigma a d)))
  | .create, .sigma j k => some (.smul (sq (j + 1)) (raiseJK dim j k 1 0))
  | .destroy, .sigma j k => some (.smul (sq j) (raiseJK dim j k (-1) 0))
  | .sigma j k, .destroy => some (.smul (sq (k + 1)) (raiseJK dim j k 0 1))
  | .sigma j k, .create => some (.smul (sq k) (raiseJK dim j k 0 (-1)))
  | .destroy, .create => some (.add .one (.mul (.op .create) (.op .destroy)))
  | .phase u, .phase v => some (phaseCreate (u + v))
  | .displace u, .displace v =>
    some (.smul (Complex.exp ((u * (starRingEnd ℂ) v - (starRingEnd ℂ) u * v) / 2)) (displaceCreate (u + v)))
  | .destroy, .phase u => some (.smul (Complex.exp (Complex.I * u)) (.mul (phaseCreate u) (.op .destroy)))
  | .destroy, .displace u => some (.mul (displaceCreate u) (.add (.op .destroy) (.smul u .one)))
  | .phase u, .create => some (.smul (Complex.exp (Complex.I * u)) (.mul (.op .create) (phaseCreate u)))
  | .displace u, .create => some (.mul (.add (.op .create) (.smul (-(starRingEnd ℂ) u) .one)) (displaceCreate u))
  | .phase u, .sigma j k => some (.smul (Complex.exp (Complex.I * u * j)) (.op (.sigma j k)))
  | .sigma j k, .phase u => some (.smul (Complex.exp (Complex.I * u * k)) (.op (.sigma j k)))
  | _, _ => none

/-- the rules R005-R008, R017-R020 of `OperatorTimesKet`, `_rules.py` lines 605-670 -/
noncomputable def ketRule (dim : Option ℕ) : Op → Ket → Option KX
  | .sigma n m, .basis k => some (deltaKet m k (.ket (.basis n)))
  | .create, .basis n => some (.smul (sq (n + 1)) (nextKet dim n 1))
  | .destroy, .basis n => some (.smul (sq n) (nextKet dim n (-1)))
  | .destroy, .coherent u => some (.smul u (.ket (.coherent u)))
  | .displace u, .basis n => if n = 0 then some (.ket (.coherent u)) else none
  | .displace u, .coherent v => some (.app (.mul (.op (.displace u)) (.op (.displace v))) (.ket (.basis 0)))
  | .phase u, .basis m => some (.smul (Complex.exp (Complex.I * u * m)) (.ket (.basis m)))
  | .phase u, .coherent v => some (.ket (.coherent (v * Complex.exp (Complex.I * u))))
  | _, _ => none

/-- `KetBra.create(a, b)`, rules R001-R003 (`_rules.py` lines 764-780) -/
def ketBra : Ket → Ket → OX
  | .basis m, .basis n => .op (.sigma m n)
  | .coherent u, .basis n => .mul (.op (.displace u)) (.op (.sigma 0 n))
  | .basis m, .coherent u => .mul (.op (.sigma m 0)) (.op (.displace (-u)))
  | .coherent u, .coherent v => .mul (.op (.displace u)) (.mul (.op (.sigma 0 0)) (.op (.displace (-v))))

/-- `BraKet.create(|a>, |b>)` for basis states, rule R003 (`_rules.py` lines 731-733) -/
def braKet (a b : ℕ) : ℂ := if a = b then 1 else 0

/-- `_adjoint` of the operators: fock_operators.py lines 35, 80, 131-132, 171-172; operator_algebra.py lines 435-436 -/
noncomputable def adjointOp : Op → OX
  | .create => .op .destroy
  | .destroy => .op .create
  | .sigma j k => .op (.sigma k j)
  | .phase u => phaseCreate (-(starRingEnd ℂ) u)
  | .displace u => displaceCreate (-u)

end QNET.Osc
