import Verif.SLH.Spec
import Mathlib.Algebra.Polynomial.Eval.Defs
import Mathlib.Algebra.Polynomial.Degree.Lemmas
import Mathlib.Algebra.Polynomial.Eval.Degree

/-!
# Adiabatic elimination (C67, C68)

Model of `prepare_adiabatic_limit` and `eval_adiabatic_limit`, `src/qnet/algebra/core/circuit_algebra.py` lines 1677-1723.
As in `Verif/SLH/Model.lean`, operators are the elements of a star-algebra `A` over `ℂ`; `expand` and `simplify_scalar` do not change
values and are omitted.
-/

namespace QNET.Adiabatic

open Finset

variable {A : Type} [Ring A] [StarRing A] [Algebra ℂ A]

/-- An SLH model whose `L` and `H` are polynomials of the scaling parameter `k` (a positive symbol, circuit_algebra.py lines 1682-1683, 1689-1690),
the form of models for which the adiabatic limit is taken. `S` does not depend on `k` (it is not expanded in lines 1694-1696). -/
structure KSLH (A : Type) [Ring A] where
  n : ℕ
  S : ℕ → ℕ → A
  L : ℕ → Polynomial A
  H : Polynomial A

/-- The model for a value of the parameter. -/
noncomputable def KSLH.at (m : KSLH A) (k : ℝ) : SLH A :=
  SLH.mk' m.n m.S (fun i => (m.L i).eval (algebraMap ℂ A k)) (m.H.eval (algebraMap ℂ A k))

/-- The tuple `Y, A, B, F, G, N` (lines 1685-1687) -/
structure Ops (R : Type) where
  n : ℕ
  Y : R
  A : R
  B : R
  F : ℕ → R
  G : ℕ → R
  N : ℕ → ℕ → R

/-- coefficient of `k ^ p` of `K = -LdL / 2 + I * slh.H`, lines 1691-1693; `LdL` is the single entry of `Ld * slh.L`. That `series_expand` about `0`
returns the coefficients of a polynomial is C31 (`Verif/QAlg/Series.lean`). -/
noncomputable def coeffK (m : KSLH A) (p : ℕ) : A :=
  -((1 / 2 : ℂ) • ∑ i ∈ range m.n, ∑ q ∈ antidiagonal p, star ((m.L i).coeff q.1) * (m.L i).coeff q.2) + Complex.I • m.H.coeff p

/-- `prepare_adiabatic_limit(slh, k)`, lines 1677-1698: `B, A, Y = K.series_expand(k, 0, 2)`, `G, F = Ld.series_expand(k, 0, 1)`, `N = slh.S.dag()`. -/
noncomputable def prepare (m : KSLH A) : Ops A where
  n := m.n
  Y := coeffK m 2
  A := coeffK m 1
  B := coeffK m 0
  F := fun i => star ((m.L i).coeff 1)
  G := fun i => star ((m.L i).coeff 0)
  N := fun i j => star (m.S j i)

/-- `Klim`, line 1714 -/
def klim (o : Ops A) (Yt P0 : A) : A := P0 * (o.B - o.A * Yt * o.A) * P0

/-- `Hlim = (Klim - Klim.dag())/2/I`, line 1715 -/
noncomputable def hlim (o : Ops A) (Yt P0 : A) : A := (1 / Complex.I) • ((1 / 2 : ℂ) • (klim o Yt P0 - star (klim o Yt P0)))

/-- `Ldlim = P0 * (G - A * Ytilde * F) * P0`, line 1717, entry `i` of the row -/
def ldlim (o : Ops A) (Yt P0 : A) (i : ℕ) : A := P0 * (o.G i - o.A * Yt * o.F i) * P0

/-- `dN = identity_matrix(N.shape[0]) + F.H * Ytilde * F`, line 1719 -/
def dN (o : Ops A) (Yt : A) (i j : ℕ) : A := (if i = j then 1 else 0) + star (o.F i) * Yt * o.F j

/-- `Nlim = P0 * N * dN * P0`, line 1720 -/
def nlim (o : Ops A) (Yt P0 : A) (i j : ℕ) : A := (∑ l ∈ range o.n, P0 * o.N i l * dN o Yt l j) * P0

/-- `eval_adiabatic_limit(YABFGN, Ytilde, P0)`, lines 1701-1723: `SLH(Nlim.dag(), Ldlim.dag(), Hlim.dag())` -/
noncomputable def evalLimit (o : Ops A) (Yt P0 : A) : SLH A :=
  SLH.mk' o.n (fun i j => star (nlim o Yt P0 j i)) (fun i => star (ldlim o Yt P0 i)) (star (hlim o Yt P0))

/-! ### Specification -/

/-- The generator of the matrix elements, between the coherent states of constant amplitudes `α` (left) and `β` (right), of the adjoint of the unitary evolution
of an SLH model (Hudson-Parthasarathy): the expectation `⟨α, U(t)† β⟩`, divided by `⟨α, β⟩`, is `exp (t * generator)`. `one` is the identity of the space on which the model lives. -/
noncomputable def generator (a : SLH A) (one : A) (α β : ℕ → ℂ) : A :=
  -((1 / 2 : ℂ) • ∑ i ∈ range a.n, star (a.L i) * a.L i) + Complex.I • a.H
    + ∑ i ∈ range a.n, β i • star (a.L i)
    - ∑ i ∈ range a.n, ∑ j ∈ range a.n, star (α i) • (star (a.S j i) * a.L j)
    + ∑ i ∈ range a.n, ∑ j ∈ range a.n, (star (α i) * β j) • (star (a.S j i) - if i = j then one else 0)

/-- The conditions of the theorem of Bouten, van Handel and Silberfarb (2008) for the existence of the limit, in terms of the tuple returned by
`prepare_adiabatic_limit`: `P0` is the projector onto the null space of `Y`, `Yt` is its pseudo-inverse, `P0 F = 0`, `P0 A P0 = 0`, and the
limiting coefficients do not lead from the null space to its complement. -/
structure Eliminable (o : Ops A) (Yt P0 : A) : Prop where
  proj : P0 * P0 = P0
  herm : star P0 = P0
  ker : o.Y * P0 = 0
  inv : o.Y * Yt = 1 - P0
  inv' : Yt * o.Y = 1 - P0
  null : Yt * P0 = 0
  null' : P0 * Yt = 0
  noF : ∀ i, i < o.n → P0 * o.F i = 0
  noA : P0 * o.A * P0 = 0
  keepG : ∀ i, i < o.n → P0 * (o.G i - o.A * Yt * o.F i) * (1 - P0) = 0
  keepN : ∀ i j, i < o.n → j < o.n → (∑ l ∈ range o.n, P0 * o.N i l * dN o Yt l j) * (1 - P0) = 0

/-- The form of models with an adiabatic limit: couplings of order `k`, energies of order `k²`, `H` Hermitian and `S` unitary. -/
structure Scaled (m : KSLH A) : Prop where
  degL : ∀ i, i < m.n → (m.L i).natDegree ≤ 1
  degH : m.H.natDegree ≤ 2
  herm : ∀ p, star (m.H.coeff p) = m.H.coeff p
  iso : ∀ k l, k < m.n → l < m.n → ∑ i ∈ range m.n, star (m.S i k) * m.S i l = if k = l then 1 else 0
  coiso : ∀ k l, k < m.n → l < m.n → ∑ j ∈ range m.n, m.S k j * star (m.S l j) = if k = l then 1 else 0

end QNET.Adiabatic
