import Verif.CPerm.Model

/-! # Specification vocabulary for permutation circuits

Ports are numbered from 0. Stated without functions of the model. -/

namespace QNET.CPerm

/-- The number, in the full circuit, of the port that is called `k` after port `o` has been removed. -/
def skip (o k : Nat) : Nat := if k < o then k else k + 1

/-- `r` (on `n-1` channels) is what remains of the routing `p` (on `n` channels) when output `o` is wired back to
input `i`: a signal entering the remaining input `l` leaves at `p(l)`, unless this is the removed output `o`; then it
re-enters at `i` and leaves at `p(i)`. (If `p(i) = o` too, no remaining input leads to `o`.) -/
def ClosesLoop (p : List Nat) (o i : Nat) (r : List Nat) : Prop :=
  ∀ l x y, l < p.length - 1 → p[skip i l]? = some x → p[i]? = some y →
    ∃ z, r[l]? = some z ∧ (x ≠ o → skip o z = x) ∧ (x = o → skip o z = y)

end QNET.CPerm
