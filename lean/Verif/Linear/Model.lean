import Verif.SLH.Drive

/-!
# Model of `getABCD` (C69)

`src/qnet/algebra/core/circuit_algebra.py` lines 1455-1610. Operators are expressions `QX ℂ` (`Verif/QAlg/Model.lean`). The symbols are numbered:
`5k` is `Destroy(hs=modes[k])`, `5k+1` is `Create(hs=modes[k])`, `5k+2` is the noise `b_k` (`OperatorSymbol('b_k', hs='ext_k')`), `5k+3` is its
adjoint, and the numbers `5k+4` are all other symbols.
-/

namespace QNET.Linear

open Finset
open QNET.Perm (Res Err)
open QNET.QAlg (QX Ctx val)
open QNET.SLH (getCoeffs coeffOf)

/-- `Destroy(hs=modes[k])` -/
def dest (k : ℕ) : QX ℂ := .atom (5 * k)
/-- `Create(hs=modes[k])` -/
def crea (k : ℕ) : QX ℂ := .atom (5 * k + 1)
/-- `noises[k]`, line 1567 -/
def nois (k : ℕ) : QX ℂ := .atom (5 * k + 2)
/-- `noises[k].dag()` -/
def noid (k : ℕ) : QX ℂ := .atom (5 * k + 3)

/-- The end of `_as_complex`, lines 1529-1537: the multiples of the identity become numbers. -/
def asComplexEnd : QX ℂ → Res ℂ
  | .one => .ok 1
  | .zero => .ok 0
  | .scal c .one => .ok c
  | .scal _ _ => .error .assertion
  | _ => .error .valueError

/-- `_as_complex(o)` for an operator `o`, lines 1526-1541 (entries of `slh.S` are operators, see the constructor, lines 338-339) -/
noncomputable def asComplex (Γ : Ctx ℂ) (n : ℕ) (o : QX ℂ) : Res ℂ := QAlg.expand Γ n o >>= asComplexEnd

/-- The result of `getABCD`; entries outside of the shapes of the arrays are not used. -/
structure ABCD where
  A : ℕ → ℕ → ℂ
  B : ℕ → ℕ → ℂ
  C : ℕ → ℕ → ℂ
  D : ℕ → ℕ → ℂ
  a : ℕ → ℂ
  c : ℕ → ℂ

/-- The entries of an array of shape `(2r, 2k)` (lines 1545-1551, 1582-1593, 1604-1608): `p` and `q` are the coefficients of the operators and of their
adjoints; the lower half of the rows belongs to the adjoint of the equation. -/
noncomputable def blk (r k : ℕ) (p q : ℕ → ℕ → ℂ) (i j : ℕ) : ℂ :=
  if i < r then (if j < k then p i j else q i (j - k))
  else (if j < k then star (q (i - r) j) else star (p (i - r) (j - k)))

/-- The entries of a vector of length `2r` (lines 1577-1579, 1599-1601) -/
noncomputable def blkV (r : ℕ) (p : ℕ → ℂ) (i : ℕ) : ℂ := if i < r then p i else star (p (i - r))

/-- the coefficient of `t` in row `j`: `get_coeffs(rows[j])[t]`, lines 1576-1593, 1598-1608 -/
noncomputable def coef (rows : List (QX ℂ)) (t : ℕ → QX ℂ) (j k : ℕ) : ℂ := coeffOf (getCoeffs (rows[j]?.getD .zero)) (t k)

/-- entry of a list of lists -/
def entry (l : List (List ℂ)) (i j : ℕ) : ℂ := ((l[i]?.getD [])[j]?).getD 0

/-- the arrays, lines 1511-1524 and 1543-1610; `m` modes, `n` channels, `d` is the array of numbers `_as_complex(o)`, `eoms` the equations of motion and `Ls` the
coupling operators (of the displaced model) -/
noncomputable def arrays (m n : ℕ) (d : List (List ℂ)) (Ls eoms : List (QX ℂ)) (doubled : Bool) : ABCD :=
  if doubled then
    { A := blk m m (coef eoms dest) (coef eoms crea)
      B := blk m n (coef eoms nois) (coef eoms noid)
      C := blk n m (coef Ls dest) (coef Ls crea)
      D := blk n n (entry d) (fun _ _ => 0)
      a := blkV m (fun j => coef eoms (fun _ => .one) j 0)
      c := blkV n (fun j => coef Ls (fun _ => .one) j 0) }
  else
    { A := coef eoms dest, B := coef eoms nois, C := coef Ls dest, D := entry d
      a := fun j => coef eoms (fun _ => .one) j 0, c := fun j => coef Ls (fun _ => .one) j 0 }

/-- `getABCD(slh, a0, doubled_up)`, lines 1455-1610. `S` is the matrix `slh.S` (of the model that is not displaced), `Ls` are the coupling operators of the
displaced model, and `eoms[j]` is the result of `symbolic_heisenberg_eom(Destroy(hs=modes[j]), noises)` of the displaced model (lines 526-568), which is
modelled by its value (`heisenbergNoise`, `Verif/SLH/Dynamics.lean`). Simplification: the result is a `map` object in the code (line 1610), which can be
iterated only once. -/
noncomputable def getABCD (Γ : Ctx ℂ) (fuel : ℕ) (S : List (List (QX ℂ))) (Ls eoms : List (QX ℂ)) (doubled : Bool) : Res ABCD :=
  S.mapM (fun row => row.mapM (asComplex Γ fuel)) >>= fun d => .ok (arrays eoms.length S.length d Ls eoms doubled)

mutual
/-- `slh.substitute({aj: aj + aj_0, aj.dag(): aj.dag() + conj(aj_0)})`, lines 1553-1562, for one of the operators in the triple; `α k` is the amplitude of
`modes[k]` in `a0`, if there is one. Simplification: sums and products are not simplified again after the substitution. -/
noncomputable def displace (α : ℕ → Option ℂ) : QX ℂ → QX ℂ
  | .atom s =>
    match α (s / 5) with
    | none => .atom s
    | some z => if s % 5 = 0 then .plus [.atom s, .scal z .one] else if s % 5 = 1 then .plus [.atom s, .scal (star z) .one] else .atom s
  | .zero => .zero
  | .one => .one
  | .scal c t => .scal c (displace α t)
  | .plus l => .plus (displaceL α l)
  | .times l => .times (displaceL α l)
  | .comm a b => .comm (displace α a) (displace α b)
/-- all operands -/
noncomputable def displaceL (α : ℕ → Option ℂ) : List (QX ℂ) → List (QX ℂ)
  | [] => []
  | x :: l => displace α x :: displaceL α l
end

/-! ### Specification -/

variable {A : Type} [Ring A] [StarRing A] [Algebra ℂ A]

/-- `m` bosonic modes and `n` external fields: `ρ (5k)` are the annihilation operators, with `[a_j, a_k†] = δ_jk`, and the field operators `ρ (5k+2)`
commute with the modes -/
structure Modes (m n : ℕ) (ρ : ℕ → A) : Prop where
  crea : ∀ k, k < m → ρ (5 * k + 1) = star (ρ (5 * k))
  noid : ∀ k, k < n → ρ (5 * k + 3) = star (ρ (5 * k + 2))
  aa : ∀ j k, j < m → k < m → ρ (5 * j) * ρ (5 * k) = ρ (5 * k) * ρ (5 * j)
  ccr : ∀ j k, j < m → k < m → ρ (5 * j) * star (ρ (5 * k)) - star (ρ (5 * k)) * ρ (5 * j) = if j = k then 1 else 0
  ba : ∀ j k, j < n → k < m → ρ (5 * j + 2) * ρ (5 * k) = ρ (5 * k) * ρ (5 * j + 2)
  ba' : ∀ j k, j < n → k < m → ρ (5 * j + 2) * star (ρ (5 * k)) = star (ρ (5 * k)) * ρ (5 * j + 2)

/-- The identity, the ladder operators of the modes and the field operators and their adjoints are linearly independent. -/
def Indep (m n : ℕ) (ρ : ℕ → A) : Prop :=
  ∀ (c : ℂ) (p q r s : ℕ → ℂ), c • (1 : A) + ∑ k ∈ range m, p k • ρ (5 * k) + ∑ k ∈ range m, q k • star (ρ (5 * k))
      + ∑ k ∈ range n, r k • ρ (5 * k + 2) + ∑ k ∈ range n, s k • star (ρ (5 * k + 2)) = 0 →
    c = 0 ∧ (∀ k, k < m → p k = 0 ∧ q k = 0) ∧ (∀ k, k < n → r k = 0 ∧ s k = 0)

/-- the vector `X`: `[a_1, ..., a_m]` or `[a_1, ..., a_m, a_1†, ..., a_m†]` (docstring, lines 1466-1474) -/
def modeVec (m : ℕ) (ρ : ℕ → A) (k : ℕ) : A := if k < m then ρ (5 * k) else star (ρ (5 * (k - m)))

/-- the vector `dA_in` (docstring, lines 1466-1474) -/
def fieldVec (n : ℕ) (ρ : ℕ → A) (k : ℕ) : A := if k < n then ρ (5 * k + 2) else star (ρ (5 * (k - n) + 2))

/-- a vector of equations, followed by the adjoint equations -/
def doubleVec (r : ℕ) (f : ℕ → A) (i : ℕ) : A := if i < r then f i else star (f (i - r))

/-- an expression with no other terms than the identity, the ladder operators of the `m` modes and `n` field operators and their adjoints -/
def LinearX (m n : ℕ) (e : QX ℂ) : Prop :=
  ∀ tc ∈ getCoeffs e, tc.1 = .zero ∨ tc.1 = .one ∨ (∃ k, k < m ∧ (tc.1 = dest k ∨ tc.1 = crea k)) ∨ (∃ k, k < n ∧ (tc.1 = nois k ∨ tc.1 = noid k))

/-- an expression with no other terms than the identity, the annihilation operators of the modes, and the field operators -/
def PassiveX (m n : ℕ) (e : QX ℂ) : Prop :=
  ∀ tc ∈ getCoeffs e, tc.1 = .zero ∨ tc.1 = .one ∨ (∃ k, k < m ∧ tc.1 = dest k) ∨ (∃ k, k < n ∧ tc.1 = nois k)

/-- `diag(1, ..., 1, -1, ..., -1)` -/
noncomputable def J (r i : ℕ) : ℂ := if i < r then 1 else -1

/-- the triple that the expressions denote -/
noncomputable def triple (ρ : ℕ → A) (S : List (List (QX ℂ))) (Ls : List (QX ℂ)) (H : QX ℂ) : SLH A :=
  SLH.mk' S.length (fun i j => val ρ (((S[i]?.getD [])[j]?).getD .zero)) (fun i => val ρ (Ls[i]?.getD .zero)) (val ρ H)

/-- `e` is the equation of motion of mode `j` of the system `(S, Ls, H)`, for the given operators `ρ`: its value is that of
`symbolic_heisenberg_eom(Destroy(hs=modes[j]), noises)` (`heisenbergNoise`; the scattering matrix has no space in common with the mode) -/
def EomAt (ρ : ℕ → A) (S : List (List (QX ℂ))) (Ls : List (QX ℂ)) (H : QX ℂ) (j : ℕ) (e : QX ℂ) : Prop :=
  val ρ e = SLH.heisenbergNoise (triple ρ S Ls H) false (ρ (5 * j)) (fun k => ρ (5 * k + 2))

/-- the displaced operators -/
noncomputable def displaced (α : ℕ → Option ℂ) (ρ : ℕ → A) (s : ℕ) : A :=
  if s % 5 = 0 then ρ s + ((α (s / 5)).getD 0) • 1 else if s % 5 = 1 then ρ s + (star ((α (s / 5)).getD 0)) • 1 else ρ s

end QNET.Linear
