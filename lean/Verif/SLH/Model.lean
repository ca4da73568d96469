import Mathlib.Data.Complex.Basic
import Mathlib.Algebra.Star.Module
import Mathlib.Algebra.BigOperators.Group.Finset.Basic
import Mathlib.Algebra.Star.BigOperators
import Verif.CPerm.Model

/-!
# Model of the SLH algebra of `src/qnet/algebra/core/circuit_algebra.py` (class `SLH`, lines 311-494)

Operators are elements of an arbitrary star-algebra `A` over `ℂ`; scalars enter as multiples of `1` (the constructor,
lines 338-343, multiplies scalar entries with `IdentityOperator`). The symbolic representation of operators is abstracted
away: equality is equality in `A`.

A matrix `S` is a function of two indices and a column `L` a function of one index; entries outside the `n` channels are
`0` so that equality of triples is equality of `n`, of the entries inside the range and of `H`.
-/

namespace QNET

open Finset

/-- An SLH triple with `n` channels (circuit_algebra.py lines 311-347; `cdim` lines 359-362). -/
structure SLH (A : Type) [Zero A] where
  n : ℕ
  S : ℕ → ℕ → A
  L : ℕ → A
  H : A
  hS : ∀ i j, ¬ (i < n ∧ j < n) → S i j = 0
  hL : ∀ i, ¬ i < n → L i = 0

namespace SLH

variable {A : Type} [Ring A] [StarRing A] [Algebra ℂ A]

/-- `SLH(S, L, H)` (lines 326-347): entries are only read inside the range. -/
def mk' (n : ℕ) (S : ℕ → ℕ → A) (L : ℕ → A) (H : A) : SLH A where
  n := n
  S := fun i j => if i < n ∧ j < n then S i j else 0
  L := fun i => if i < n then L i else 0
  H := H
  hS := fun _ _ h => if_neg h
  hL := fun _ h => if_neg h

/-- `ImAdjoint(m) = (m.H - m) * (I / 2)`, lines 393-394 and 484-485. -/
noncomputable def imAdjoint (m : A) : A := (Complex.I / 2) • (star m - m)

/-- `SLH.series_with_slh`, lines 381-405: `new_S = S₁S₂`, `new_L = S₁L₂ + L₁`,
`new_H = H₁ + H₂ + ImAdjoint(L₁† S₁ L₂)`. Simplification: the matrix product is only modelled for equal channel numbers
(`numpy` raises otherwise); callers check this first. -/
noncomputable def series (a b : SLH A) : SLH A :=
  mk' a.n (fun i j => ∑ k ∈ range a.n, a.S i k * b.S k j)
    (fun i => ∑ k ∈ range a.n, a.S i k * b.L k + a.L i)
    (a.H + b.H + imAdjoint (∑ k ∈ range a.n, (∑ i ∈ range a.n, star (a.L i) * a.S i k) * b.L k))

/-- `SLH.concatenate_slh`, lines 407-418: block-diagonal `S`, stacked `L`, `H₁ + H₂`. -/
def concat (a b : SLH A) : SLH A :=
  mk' (a.n + b.n)
    (fun i j => if i < a.n then (if j < a.n then a.S i j else 0) else (if j < a.n then 0 else b.S (i - a.n) (j - a.n)))
    (fun i => if i < a.n then a.L i else b.L (i - a.n))
    (a.H + b.H)

/-- `SLH._series_inverse`, lines 438-439: `(S†, -S†L, -H)`. -/
def inverse (a : SLH A) : SLH A :=
  mk' a.n (fun i j => star (a.S j i)) (fun i => - ∑ k ∈ range a.n, star (a.S k i) * a.L k) (-a.H)

/-- `CPermutation._toSLH`, lines 811-813, with `permutation_matrix` (matrix_algebra.py lines 425-461):
`op_matrix[j, i] = 1` for `(i, j)` in `enumerate(permutation)`; `L = 0`, `H = 0`. -/
def ofPerm (p : List Nat) : SLH A :=
  mk' p.length (fun k j => if p[j]? = some k then 1 else 0) (fun _ => 0) 0

/-- `CPermutation.toSLH()` or `circuit_identity(n).toSLH()` for a permutation circuit. Simplification: for the
identity circuit the code folds `concatenate_slh` over single pass-through channels (lines 1126-1128, 1039-1040,
1065-1066); this gives the same triple (`ofPerm_range`). -/
def ofPC (c : CPerm.PC) : SLH A := ofPerm c.tuple

open Classical in
/-- `SLH._feedback` for `out_port = in_port = n = cdim - 1`, lines 462-494. `1 - S[n,n]` has to be a multiple `c` of the
identity (lines 466-473) with `c ≠ 0` (lines 475-479), otherwise `AlgebraError`. Simplification: the code recognises
multiples of the identity syntactically, the model semantically. -/
noncomputable def feedbackLast (a : SLH A) : Perm.Res (SLH A) :=
  let n := a.n - 1
  if h : ∃ c : ℂ, c ≠ 0 ∧ algebraMap ℂ A c = 1 - a.S n n then
    let x : A := algebraMap ℂ A (h.choose)⁻¹
    .ok (mk' n (fun i j => a.S i j + a.S i n * x * a.S n j) (fun i => a.L i + a.S i n * x * a.L n)
      (a.H + imAdjoint ((∑ i ∈ range a.n, star (a.L i) * a.S i n) * x * a.L n)))
  else .error .algebraError

/-- `SLH._feedback`, lines 441-494: reroute the ports to the last channel first (lines 451-459). -/
noncomputable def feedback (a : SLH A) (out inp : Nat) : Perm.Res (SLH A) :=
  let n := a.n - 1
  if out ≠ n then do
    let m ← CPerm.mapChannels [(out, n)] a.n
    let b := series (ofPC m) a
    if inp ≠ n then do
      let m' ← CPerm.mapChannels [(n, inp)] a.n
      feedbackLast (series b (ofPC m'))
    else feedbackLast b
  else if inp ≠ n then do
    let m' ← CPerm.mapChannels [(n, inp)] a.n
    feedbackLast (series a (ofPC m'))
  else feedbackLast a

end SLH
end QNET
