import Lean

/-!
# `kernel_rfl`

Closes `a = b` by `Eq.refl a` and leaves the definitional unfolding to the kernel (the elaborator's unifier gives up on long
computations). Nothing is trusted: the kernel checks the resulting term like any other.
-/

open Lean Elab Tactic Meta in
elab "kernel_rfl" : tactic => liftMetaTactic fun g => do
  let t ← whnfR (← instantiateMVars (← g.getType))
  match t.eq? with
  | some (_, l, _) =>
    g.assign (← mkEqRefl l)
    return []
  | none => throwError "kernel_rfl: not an equality"
