import Verif.PlusMinus.Pm

/-! # C98: concrete constructors, and what the rewriting finds -/

namespace QNET.Pm

open QNET.Perm (Res Err)

mutual
/-- `==`: same class and equal arguments -/
def beq : X ℤ → X ℤ → Bool
  | .atom a, .atom b => a == b
  | .zero, .zero => true
  | .one, .one => true
  | .scal c t, .scal d s => c == d && beq t s
  | .plus l, .plus m => beqL l m
  | .times l, .times m => beqL l m
  | .adj a, .adj b => beq a b
  | .pm s a, .pm t b => s == t && beq a b
  | _, _ => false
/-- lists -/
def beqL : List (X ℤ) → List (X ℤ) → Bool
  | [], [] => true
  | a :: as, b :: bs => beq a b && beqL as bs
  | _, _ => false
end

mutual
theorem beq_eq : ∀ a b : X ℤ, beq a b = true → a = b
  | .atom _, b, h => by cases b <;> simp_all [beq]
  | .zero, b, h => by cases b <;> simp_all [beq]
  | .one, b, h => by cases b <;> simp_all [beq]
  | .scal c t, b, h => by
    cases b with
    | scal d s => simp only [beq, Bool.and_eq_true, beq_iff_eq] at h; rw [h.1, beq_eq t s h.2]
    | _ => simp [beq] at h
  | .plus l, b, h => by
    cases b with
    | plus m => simp only [beq] at h; rw [beqL_eq l m h]
    | _ => simp [beq] at h
  | .times l, b, h => by
    cases b with
    | times m => simp only [beq] at h; rw [beqL_eq l m h]
    | _ => simp [beq] at h
  | .adj a, b, h => by
    cases b with
    | adj m => simp only [beq] at h; rw [beq_eq a m h]
    | _ => simp [beq] at h
  | .pm s a, b, h => by
    cases b with
    | pm t m => simp only [beq, Bool.and_eq_true, beq_iff_eq] at h; rw [h.1, beq_eq a m h.2]
    | _ => simp [beq] at h
theorem beqL_eq : ∀ a b : List (X ℤ), beqL a b = true → a = b
  | [], b, h => by cases b <;> simp_all [beqL]
  | a :: as, [], h => by simp [beqL] at h
  | a :: as, b :: bs, h => by simp only [beqL, Bool.and_eq_true] at h; rw [beq_eq a b h.1, beqL_eq as bs h.2]
end

/-- `coeff * term`, rules R001-R004 of `ScalarTimesOperator` (`_rules.py` lines 141-152) -/
def exMs (c : ℤ) (t : X ℤ) : Res (X ℤ) :=
  if c = 1 then .ok t else if c = 0 then .ok .zero else
  match t with
  | .zero => .ok .zero
  | .scal d s => .ok (if c * d = 1 then s else .scal (c * d) s)
  | t => .ok (.scal c t)

/-- `adjoint()` of symbols, adjoints and multiples (abstract_quantum_algebra.py lines 391-392, 473-474); everything else is wrapped in `Adjoint` -/
def exAdj : X ℤ → X ℤ
  | .zero => .zero
  | .one => .one
  | .adj t => t
  | .scal c t => .scal c (exAdj t)
  | t => .adj t

/-- order index of `FullCommutativeHSOrder`: operations (adjoints) after symbols (abstract_quantum_algebra.py line 405) -/
def exRank : X ℤ → ℕ
  | .atom _ => 0
  | .scal _ t => exRank t
  | _ => 1

/-- stable insertion by rank -/
def exInsert (x : X ℤ) : List (X ℤ) → List (X ℤ)
  | [] => [x]
  | y :: l => if exRank x ≤ exRank y then x :: y :: l else y :: exInsert x l

/-- a sorted list of summands -/
def exSort : List (X ℤ) → List (X ℤ)
  | [] => []
  | x :: l => exInsert x (exSort l)

/-- whole number coefficients -/
def exCtx : Ctx ℤ where
  eq := beq
  sort := exSort
  ms := exMs
  tc l := .ok (.times l)
  ac t := .ok (.adj t)
  adjoint t := .ok (exAdj t)
  eqK c d := c == d

theorem exInsert_perm (x : X ℤ) : ∀ l, (exInsert x l).Perm (x :: l)
  | [] => .refl _
  | y :: l => by
    simp only [exInsert]
    split
    · exact .refl _
    · exact ((exInsert_perm x l).cons y).trans (.swap _ _ _)

theorem exSort_perm : ∀ l, (exSort l).Perm l
  | [] => .refl _
  | x :: l => (exInsert_perm x (exSort l)).trans ((exSort_perm l).cons x)

theorem exAdj_val {A : Type} [Ring A] [StarRing A] (ρ : ℕ → A) : ∀ t : X ℤ, val ρ (exAdj t) = star (val ρ t)
  | .zero => by simp [exAdj, val]
  | .one => by simp [exAdj, val]
  | .adj t => by simp [exAdj, val]
  | .scal c t => by simp only [exAdj, val, exAdj_val ρ t]; exact (star_zsmul c (val ρ t)).symm
  | .atom a => by simp [exAdj, val]
  | .plus l => by simp [exAdj, val]
  | .times l => by simp [exAdj, val]
  | .pm s t => by simp [exAdj, val]

/-- the hypotheses of the theorems hold in every ring with involution, for every value of the symbols -/
theorem exCtx_sound {A : Type} [Ring A] [StarRing A] (ρ : ℕ → A) : exCtx.Sound ρ where
  eq := beq_eq
  eqK c d h := by simpa [exCtx] using h
  sort := exSort_perm
  ms c t r h := by
    simp only [exCtx, exMs] at h
    split at h
    · next hc => injection h with h; subst h; simp [hc]
    · split at h
      · next hc => injection h with h; subst h; simp [hc, val]
      · split at h
        · injection h with h; subst h; simp [val]
        · injection h with h
          subst h
          split
          · next hc => simp only [val, smul_smul, hc, one_smul]
          · simp only [val, smul_smul]
        · injection h with h; subst h; simp [val]
  tc l r h := by simp only [exCtx] at h; injection h with h; subst h; simp [val]
  ac t r h := by simp only [exCtx] at h; injection h with h; subst h; simp [val]
  adjoint t r h := by simp only [exCtx] at h; injection h with h; subst h; exact exAdj_val ρ t

/-- `A + A^dagger` becomes `OperatorPlusMinusCC(A)`, `3 A - 3 A^dagger` a multiple of `OperatorPlusMinusCC(A, sign=-1)`, inside products too -/
example : (rewrite exCtx 9 (.plus [.atom 0, .adj (.atom 0)])).toOption.map (beq (.pm true (.atom 0))) = some true := by decide +kernel
example : (rewrite exCtx 9 (.times [.atom 1, .plus [.scal 3 (.atom 0), .scal (-3) (.adj (.atom 0))]])).toOption.map
    (beq (.times [.atom 1, .scal 3 (.pm false (.atom 0))])) = some true := by decide +kernel
example : (doit exCtx 9 (.scal 3 (.pm false (.atom 0)))).toOption.map (beq (.scal 3 (.plus [.atom 0, .scal (-1) (.adj (.atom 0))]))) = some true := by
  decide +kernel

/-- **C98**: not all conjugates are found. In `A + B + A^dagger + B^dagger` the symbols are ordered before the adjoints; only neighbours are compared, and
the sum is returned as it is. -/
theorem C98_incomplete :
    (rewrite exCtx 9 (.plus [.atom 0, .atom 1, .adj (.atom 0), .adj (.atom 1)])).toOption.map
      (beq (.plus [.atom 0, .atom 1, .adj (.atom 0), .adj (.atom 1)])) = some true := by decide +kernel

end QNET.Pm
