import Verif.Cache.Create
import Verif.Circuit.Refute

/-!
# C23: instances that are circuits

`Expression.__eq__` and the instance keys of circuits do not see the ports of `Feedback` objects. Without `Feedback` objects among the
arguments caching is transparent, with them it is not.
-/

namespace QNET.Cache

open QNET.Circuit QNET.Perm

variable {A : Type} [Ring A] [StarRing A] [Algebra ℂ A]

mutual
/-- A circuit as seen by its instance key: `Feedback.__init__` (circuit_algebra.py lines 1218-1222) gives only the operand to
`Expression.__init__`. -/
def portless : Circ A → Circ A
  | .sym s n => .sym s n
  | .slh s => .slh s
  | .perm p => .perm p
  | .id1 => .id1
  | .zero => .zero
  | .series l => .series (portlessL l)
  | .concat l => .concat (portlessL l)
  | .fb c _ _ => .fb (portless c) 0 0
  | .inv c => .inv (portless c)
/-- lists of circuits -/
def portlessL : List (Circ A) → List (Circ A)
  | [] => []
  | c :: cs => portless c :: portlessL cs
end

mutual
/-- `==` of circuits is equality of keys -/
theorem beq_iff_portless : ∀ a b : Circ A, beq a b = true ↔ portless a = portless b
  | .sym _ _, b => by cases b <;> simp [beq, portless]
  | .slh s, b => by cases b <;> simp [beq, portless]
  | .perm p, b => by cases b <;> simp [beq, portless]
  | .id1, b => by cases b <;> simp [beq, portless]
  | .zero, b => by cases b <;> simp [beq, portless]
  | .series l, b => by
    cases b <;> simp [beq, portless]
    exact beqList_iff_portless l _
  | .concat l, b => by
    cases b <;> simp [beq, portless]
    exact beqList_iff_portless l _
  | .fb c _ _, b => by
    cases b <;> simp [beq, portless]
    exact beq_iff_portless c _
  | .inv c, b => by
    cases b <;> simp [beq, portless]
    exact beq_iff_portless c _
theorem beqList_iff_portless : ∀ a b : List (Circ A), beqList a b = true ↔ portlessL a = portlessL b
  | [], [] => by simp [beqList]
  | [], _ :: _ => by simp [beqList, portlessL]
  | _ :: _, [] => by simp [beqList, portlessL]
  | a :: l, b :: m => by simp [beqList, portlessL, beq_iff_portless a b, beqList_iff_portless l m]
end

/-- `Concatenation.create(*ops)` -/
noncomputable def concatCode (f : ℕ) (ops : List (Circ A)) : Comp (List (Circ A)) (Circ A) Err := .ret ((opsAt false f).concat ops)

/-- a two-port component `S = diag(-1, i)` -/
noncomputable def twoPort : SLH ℂ := SLH.mk' 2 (fun i j => if i = j then (if i = 0 then -1 else Complex.I) else 0) (fun _ => 0) 0

theorem twoPort_unitary : SLH.Unitary twoPort := by
  constructor
  all_goals
    intro k l hk hl
    have hk : k < 2 := hk
    have hl : l < 2 := hl
    have : twoPort.n = 2 := rfl
    rw [this, Finset.sum_range_succ, Finset.sum_range_succ, Finset.sum_range_zero]
    have e1 : k = 0 ∨ k = 1 := by omega
    have e2 : l = 0 ∨ l = 1 := by omega
    rcases e1 with rfl | rfl <;> rcases e2 with rfl | rfl <;> simp [twoPort, SLH.mk']

/-- all two-port symbols are `twoPort`, the others straight through -/
noncomputable def twoPorts : Valuation ℂ where
  val _ n := if n = 2 then twoPort else SLH.passThrough n
  unitary _ n _ := by
    split
    · exact twoPort_unitary
    · exact SLH.passThrough_unitary n
  dim _ n _ := by
    split
    · rename_i h; rw [h]; rfl
    · rfl

open Classical in
/-- C23 fails for circuits with `Feedback`: after `Feedback(S, out_port=0, in_port=0) + T`, the expression
`Feedback(S, out_port=1, in_port=1) + T` returns the cached instance of the first one, a different circuit. Without caching, it is the
correct one. (`S` is a symbol with two channels, `T` one with one channel.) -/
theorem C23_feedback_refuted : ∃ (ops ops' : List (Circ ℂ)) (v v' : Circ ℂ) (s s' : SLH ℂ),
    History (concatCode 20) portlessL true [] [.create ops, .create ops'] [(ops, .ok v), (ops', .ok v)] true [(portlessL ops, v)] ∧
    Fresh (concatCode 20) ops' (.ok v') ∧ v ≠ v' ∧ v.toSLH twoPorts.val = .ok s ∧ v'.toSLH twoPorts.val = .ok s' ∧ s ≠ s' := by
  have hn : twoPort.n = 2 := rfl
  have hL : ∀ k, twoPort.L k = 0 := by intro k; simp [twoPort, SLH.mk']
  have h00 : twoPort.S 0 0 = -1 := by simp [twoPort, SLH.mk']
  have h11 : twoPort.S 1 1 = Complex.I := by simp [twoPort, SLH.mk']
  have h01 : twoPort.S 0 1 = 0 := by simp [twoPort, SLH.mk']
  have h10 : twoPort.S 1 0 = 0 := by simp [twoPort, SLH.mk']
  obtain ⟨a, ha⟩ := (SLH.C16_error_iff (o := 0) (i := 0) twoPort_unitary.1 (by omega) (by omega)).1.mpr
    ⟨2, by norm_num, by rw [h00]; simp; norm_num⟩
  obtain ⟨b, hb⟩ := (SLH.C16_error_iff (o := 1) (i := 1) twoPort_unitary.1 (by omega) (by omega)).1.mpr
    ⟨1 - Complex.I, by
      intro h
      have := congrArg Complex.re h
      simp at this, by rw [h11]; simp⟩
  obtain ⟨-, -, han, -, haS⟩ := feedback_noL twoPort_unitary.1 (by omega) (by omega) hL ha
  obtain ⟨-, -, hbn, -, hbS⟩ := feedback_noL twoPort_unitary.1 (by omega) (by omega) hL hb
  have ha0 : a.S 0 0 = Complex.I := by rw [haS 0 0 (by omega) (by omega) (by simp [Aff.up, h10])]; simp [Aff.up, h11]
  have hb0 : b.S 0 0 = -1 := by rw [hbS 0 0 (by omega) (by omega) (by simp [Aff.up, h01])]; simp [Aff.up, h00]
  refine ⟨[.fb (.sym 0 2) 0 0, .sym 1 1], [.fb (.sym 0 2) 1 1, .sym 1 1], .concat [.fb (.sym 0 2) 0 0, .sym 1 1],
    .concat [.fb (.sym 0 2) 1 1, .sym 1 1], SLH.concat a (SLH.passThrough 1), SLH.concat b (SLH.passThrough 1), ?_, ?_, ?_, ?_, ?_, ?_⟩
  · refine .create (ca1 := [(portlessL [.fb (.sym 0 2) 0 0, .sym 1 1], _)]) (.miss (by simp) ?_) (.create (.hit rfl ?_) .nil)
    · have : (opsAt (A := ℂ) false 20).concat [.fb (.sym 0 2) 0 0, .sym 1 1] = .ok (.concat [.fb (.sym 0 2) 0 0, .sym 1 1]) := by kernel_rfl
      unfold concatCode
      rw [this]
      exact .ret
    · simp [portlessL, portless]
  · have : (opsAt (A := ℂ) false 20).concat [.fb (.sym 0 2) 1 1, .sym 1 1] = .ok (.concat [.fb (.sym 0 2) 1 1, .sym 1 1]) := by kernel_rfl
    refine .mk ?_
    unfold concatCode
    rw [this]
    exact .ret
  · intro h; simp at h
  · simp only [Circ.toSLH, toSLHList, twoPorts, if_true]
    have e : SLH.feedback twoPort 0 0 = .ok a := ha
    simp only [bind, Except.bind, e]
    rfl
  · simp only [Circ.toSLH, toSLHList, twoPorts, if_true]
    have e : SLH.feedback twoPort 1 1 = .ok b := hb
    simp only [bind, Except.bind, e]
    rfl
  · intro h
    have := congrArg (fun s => SLH.S s 0 0) h
    have hp : ∀ x : SLH ℂ, x.n = 1 → (SLH.concat x (SLH.passThrough 1)).S 0 0 = x.S 0 0 := by
      intro x hx; simp [SLH.concat, SLH.mk', hx]
    simp only [hp a (by omega), hp b (by omega), ha0, hb0] at this
    have := congrArg Complex.im this
    simp at this

mutual
/-- no `Feedback` in the circuit -/
def NoFb : Circ A → Prop
  | .series l => NoFbL l
  | .concat l => NoFbL l
  | .fb _ _ _ => False
  | .inv c => NoFb c
  | _ => True
/-- lists -/
def NoFbL : List (Circ A) → Prop
  | [] => True
  | c :: cs => NoFb c ∧ NoFbL cs
end

mutual
theorem portless_eq : ∀ c : Circ A, NoFb c → portless c = c
  | .sym _ _, _ => rfl
  | .slh _, _ => rfl
  | .perm _, _ => rfl
  | .id1, _ => rfl
  | .zero, _ => rfl
  | .series l, h => by simp only [portless, portlessL_eq l h]
  | .concat l, h => by simp only [portless, portlessL_eq l h]
  | .fb _ _ _, h => h.elim
  | .inv c, h => by simp only [portless, portless_eq c h]
theorem portlessL_eq : ∀ l : List (Circ A), NoFbL l → portlessL l = l
  | [], _ => rfl
  | c :: cs, h => by simp only [portlessL, portless_eq c h.1, portlessL_eq cs h.2]
end

/-- A call of a class of circuit operations whose operands contain no `Feedback`. -/
abbrev PlainCall (A : Type) [Ring A] [StarRing A] [Algebra ℂ A] := {c : ℕ × List (Circ A) // NoFbL c.2}

/-- its instance key: class and operands -/
def plainKey (c : PlainCall A) : ℕ × List (Circ A) := (c.1.1, portlessL c.1.2)

open Classical in
/-- C23 for circuits without `Feedback` objects, whatever the simplifications do: results with and without caching are the same. -/
theorem C23_circuits_without_feedback (code : PlainCall A → Comp (PlainCall A) (Circ A) Err) (on : Bool) (l : List (Act (PlainCall A)))
    {rs : List (PlainCall A × Res (Circ A))} {on' : Bool} {ca' : Cache (ℕ × List (Circ A)) (Circ A)}
    (h : History code plainKey on [] l rs on' ca') : ∀ p ∈ rs, Fresh code p.1 p.2 := by
  refine C23_exact ?_ on l h
  intro c d hcd
  unfold plainKey at hcd
  rw [Prod.mk.injEq, portlessL_eq _ c.2, portlessL_eq _ d.2] at hcd
  exact Subtype.ext (Prod.ext hcd.1 hcd.2)

end QNET.Cache
