import Verif.SLH.Model

/-! # Specification vocabulary for SLH triples -/

namespace QNET.SLH

open Finset

variable {A : Type} [Ring A] [StarRing A] [Algebra ℂ A]

/-- `S† S = 1`. -/
def Iso (a : SLH A) : Prop :=
  ∀ k l, k < a.n → l < a.n → ∑ i ∈ range a.n, star (a.S i k) * a.S i l = if k = l then 1 else 0

/-- `S S† = 1`. -/
def CoIso (a : SLH A) : Prop :=
  ∀ k l, k < a.n → l < a.n → ∑ j ∈ range a.n, a.S k j * star (a.S l j) = if k = l then 1 else 0

/-- `S` is unitary. -/
def Unitary (a : SLH A) : Prop := Iso a ∧ CoIso a

/-- `S` is unitary and `H` is Hermitian. -/
def Physical (a : SLH A) : Prop := Iso a ∧ CoIso a ∧ star a.H = a.H

/-- The triple of `n` pass-through channels: `S = 1`, `L = 0`, `H = 0`. -/
def passThrough (n : ℕ) : SLH A := mk' n (fun i j => if i = j then 1 else 0) (fun _ => 0) 0

/-- The loop from output `o` to input `i` is scalar and well posed: `1 - S[o,i] = c·1` with `c ≠ 0`. -/
def WellPosed (a : SLH A) (o i : ℕ) : Prop := ∃ c : ℂ, c ≠ 0 ∧ algebraMap ℂ A c = 1 - a.S o i

/-- Output `k` of the input/output relation `out = S in + L`. -/
def output (a : SLH A) (inp : ℕ → A) (k : ℕ) : A := ∑ j ∈ range a.n, a.S k j * inp j + a.L k

/-- The inputs of the full circuit if the remaining inputs are `u` and the signal on the loop is `w`. -/
def loopInput (i : ℕ) (w : A) (u : ℕ → A) (j : ℕ) : A :=
  if j = i then w else if j < i then u j else u (j - 1)

/-- The coefficient `-L†S` of the noise inputs in the quantum stochastic differential equation of the triple. -/
def noiseCoeff (a : SLH A) (j : ℕ) : A := - ∑ i ∈ range a.n, star (a.L i) * a.S i j

/-- The drift coefficient `-iH - ½ L†L` of the quantum stochastic differential equation of the triple. -/
noncomputable def drift (a : SLH A) : A :=
  -(Complex.I • a.H) - (1 / 2 : ℂ) • ∑ i ∈ range a.n, star (a.L i) * a.L i

/-- The bottom row of the model matrix: `-L†S in + (-iH - ½L†L)`. -/
noncomputable def driftOutput (a : SLH A) (inp : ℕ → A) : A := ∑ j ∈ range a.n, noiseCoeff a j * inp j + drift a

end QNET.SLH
