import Verif.PyEq.Model
import Mathlib.Algebra.Group.Defs
import Mathlib.Data.Nat.Basic

/-! # Equality of expressions (C79) -/

namespace QNET.PyEq

variable {V : Type} [DecidableEq V] [Zero V] [One V]

/-! ### Specification -/

section Spec

mutual
/-- numbers are written in one way only; everything else is unchanged -/
def canon : Obj V → Obj V
  | .num v _ => .sval v false
  | .sval v _ => .sval v false
  | .zero => .sval 0 false
  | .one => .sval 1 false
  | .sing k => .sing k
  | .smul c t => .smul (canon c) (canon t)
  | .expr cls args => .expr cls (canons args)
def canons : List (Obj V) → List (Obj V)
  | [] => []
  | a :: l => canon a :: canons l
end

mutual
/-- coefficients are scalars, operators are not, and the class of an expression determines which of its arguments are scalars -/
def Typed (sc : ℕ → Bool) (sig : ℕ → ℕ → Bool) : Obj V → Prop
  | .smul c t => Typed sc sig c ∧ isScalar sc c = true ∧ Typed sc sig t ∧ isScalar sc t = false
  | .expr cls args => TypedList sc sig (sig cls) args
  | _ => True
def TypedList (sc : ℕ → Bool) (sig : ℕ → ℕ → Bool) (s : ℕ → Bool) : List (Obj V) → Prop
  | [] => True
  | a :: l => Typed sc sig a ∧ isScalar sc a = s 0 ∧ TypedList sc sig (fun i => s (i + 1)) l
end

mutual
/-- no NumPy numbers inside -/
def NoNp : Obj V → Prop
  | .num _ n => n = false
  | .sval _ n => n = false
  | .smul c t => NoNp c ∧ NoNp t
  | .expr _ args => NoNps args
  | _ => True
def NoNps : List (Obj V) → Prop
  | [] => True
  | a :: l => NoNp a ∧ NoNps l
end

/-- a meaning for objects: numbers, singletons and expressions mean something in a monoid in which `IdentityOperator` means one; a scalar and the corresponding multiple of the identity mean the same -/
structure Meaning (V K : Type) [Monoid K] where
  num : V → K
  sing : ℕ → K
  expr : ℕ → List K → K
  ident : sing 0 = 1

mutual
def Meaning.den {K : Type} [Monoid K] (M : Meaning V K) : Obj V → K
  | .num v _ => M.num v
  | .sval v _ => M.num v
  | .zero => M.num 0
  | .one => M.num 1
  | .sing k => M.sing k
  | .smul c t => M.den c * M.den t
  | .expr cls args => M.expr cls (M.dens args)
def Meaning.dens {K : Type} [Monoid K] (M : Meaning V K) : List (Obj V) → List K
  | [] => []
  | a :: l => M.den a :: M.dens l
end

end Spec

/-! ### a structural form of `==` -/

/-- comparison with a number -/
def numEq (v : V) : Obj V → Bool
  | .num w _ => decide (v = w)
  | .sval w _ => decide (v = w)
  | .zero => decide (v = 0)
  | .one => decide (v = 1)
  | .sing _ => false
  | .smul c t => isId t && numEq v c
  | .expr _ _ => false

mutual
def eqS (sc : ℕ → Bool) : Obj V → Obj V → Bool
  | .num v _, b => numEq v b
  | .sval v _, b => numEq v b
  | .zero, b => numEq 0 b
  | .one, b => numEq 1 b
  | .sing k, b =>
    match b with
    | .sing k' => decide (k = k')
    | _ => false
  | .smul c t, b =>
    if isId t && isScalar sc b then eqS sc c b
    else
      match b with
      | .smul c' t' => eqS sc c c' && eqS sc t t'
      | _ => false
  | .expr cls args, b =>
    match b with
    | .expr cls' args' => decide (cls = cls') && eqsS sc args args'
    | _ => false
def eqsS (sc : ℕ → Bool) : List (Obj V) → List (Obj V) → Bool
  | [], [] => true
  | a :: l, b :: m => eqS sc a b && eqsS sc l m
  | _, _ => false
end

theorem eqS_sing (sc : ℕ → Bool) (k : ℕ) (b : Obj V) : eqS sc (.sing k) b = (match b with
    | .sing k' => decide (k = k')
    | _ => false) := by
  cases b <;> simp only [eqS]

theorem eqS_smul (sc : ℕ → Bool) (c t b : Obj V) : eqS sc (.smul c t) b = (if isId t && isScalar sc b then eqS sc c b else match b with
    | .smul c' t' => eqS sc c c' && eqS sc t t'
    | _ => false) := by
  cases b <;> simp only [eqS]

theorem eqS_expr (sc : ℕ → Bool) (cls : ℕ) (args : List (Obj V)) (b : Obj V) : eqS sc (.expr cls args) b = (match b with
    | .expr cls' args' => decide (cls = cls') && eqsS sc args args'
    | _ => false) := by
  cases b <;> simp only [eqS]

theorem dec_comm (v w : V) : decide (v = w) = decide (w = v) := by
  by_cases h : v = w
  · simp [h]
  · simp [h, Ne.symm h]

variable {sc : ℕ → Bool}

theorem pyEq_of_some {a b : Obj V} {r : Ans} (h : eqMethod sc a b = some r) : pyEq sc a b = r := by
  rw [pyEq, h]

/-- what a singleton answers -/
def singAns (k : ℕ) : Obj V → Bool
  | .sing k' => decide (k = k')
  | _ => false

/-- what a multiple of an operator answers to another one -/
def smulAns (sc : ℕ → Bool) (c t : Obj V) : Obj V → Bool
  | .smul c' t' => (pyEq sc c c').1 && (pyEq sc t t').1
  | _ => false

/-- what an expression answers -/
def exprAns (sc : ℕ → Bool) (cls : ℕ) (args : List (Obj V)) : Obj V → Bool
  | .expr cls' args' => decide (cls = cls') && pyEqList sc args args'
  | _ => false

theorem eqM_sing (k : ℕ) (b : Obj V) : eqMethod sc (.sing k) b = some (singAns k b, false) := by
  rw [eqMethod.eq_def]
  cases b <;> rfl

theorem eqM_smul (c t b : Obj V) : eqMethod sc (.smul c t) b = some (if isId t && isScalar sc b then pyEq sc c b else (smulAns sc c t b, false)) := by
  rw [eqMethod.eq_def]
  cases b <;> (dsimp only; split <;> rename_i h <;> simp only [h, if_true, if_false, smulAns] <;> rfl)

theorem eqM_expr (cls : ℕ) (args : List (Obj V)) (b : Obj V) : eqMethod sc (.expr cls args) b = some (exprAns sc cls args b, false) := by
  rw [eqMethod.eq_def]
  cases b <;> rfl

theorem num_num (v w : V) (n m : Bool) : pyEq sc (.num v n) (.num w m) = (decide (v = w), n || m) := by
  rw [pyEq, eqMethod]

/-- a number on the left: the other operand decides -/
theorem num_left {v : V} {n : Bool} {b : Obj V} {r : Ans} (hb : ∀ w m, b ≠ .num w m) (h : eqMethod sc b (.num v n) = some r) : pyEq sc (.num v n) b = r := by
  have : eqMethod sc (.num v n) b = none := by
    cases b with
    | num w m => exact absurd rfl (hb w m)
    | _ => rw [eqMethod]; simp
  rw [pyEq, this, h]

theorem num_both (v : V) (n : Bool) : ∀ o : Obj V, (pyEq sc o (.num v n)).1 = numEq v o ∧ (pyEq sc (.num v n) o).1 = numEq v o
  | .num w m => by
    rw [num_num, num_num, numEq]
    exact ⟨dec_comm _ _, rfl⟩
  | .sval w m => by
    have e : eqMethod sc (.sval w m) (.num v n) = some (pyEq sc (.num w m) (.num v n)) := by
      rw [eqMethod]; simp
    rw [pyEq_of_some e, num_left (by simp) e, num_num, numEq]
    exact ⟨dec_comm _ _, dec_comm _ _⟩
  | .zero => by
    have e : eqMethod sc .zero (.num v n) = some (pyEq sc (.num v n) (.num 0 false)) := by rw [eqMethod]
    rw [pyEq_of_some e, num_left (by simp) e, num_num, numEq]
    exact ⟨rfl, rfl⟩
  | .one => by
    have e : eqMethod sc .one (.num v n) = some (pyEq sc (.num v n) (.num 1 false)) := by rw [eqMethod]
    rw [pyEq_of_some e, num_left (by simp) e, num_num, numEq]
    exact ⟨rfl, rfl⟩
  | .sing k => by
    have e : eqMethod sc (.sing k) (.num v n) = some (false, false) := by first | exact eqM_sing _ _ | exact eqM_expr _ _ _
    rw [pyEq_of_some e, num_left (by simp) e, numEq]
    exact ⟨rfl, rfl⟩
  | .smul c t => by
    have e : eqMethod sc (.smul c t) (.num v n) = some (if isId t = true then pyEq sc c (.num v n) else (false, false)) := by
      rw [eqM_smul]
      cases h : isId t <;> simp [isScalar, smulAns]
    rw [pyEq_of_some e, num_left (by simp) e, numEq]
    cases h : isId t with
    | true => simpa using (num_both v n c).1
    | false => simp
  | .expr cls args => by
    have e : eqMethod sc (.expr cls args) (.num v n) = some (false, false) := by first | exact eqM_sing _ _ | exact eqM_expr _ _ _
    rw [pyEq_of_some e, num_left (by simp) e, numEq]
    exact ⟨rfl, rfl⟩

mutual
theorem pyEq_eqS : ∀ a b : Obj V, (pyEq sc a b).1 = eqS sc a b
  | .num v n, b => by rw [(num_both v n b).2, eqS]
  | .sval v n, b => by
    rw [eqS]
    cases b with
    | sval w m =>
      rw [pyEq_of_some (by rw [eqMethod]), num_num, numEq]
    | _ => rw [pyEq_of_some (by rw [eqMethod]; simp), (num_both v n _).2]
  | .zero, b => by rw [eqS, pyEq_of_some (by rw [eqMethod]), (num_both 0 false b).1]
  | .one, b => by rw [eqS, pyEq_of_some (by rw [eqMethod]), (num_both 1 false b).1]
  | .sing k, b => by
    rw [eqS_sing, pyEq_of_some (eqM_sing k b)]
    cases b <;> rfl
  | .smul c t, b => by
    rw [eqS_smul, pyEq_of_some (eqM_smul c t b)]
    split
    · exact pyEq_eqS c b
    · cases b with
      | smul c' t' =>
        dsimp only [smulAns]
        rw [pyEq_eqS c c', pyEq_eqS t t']
      | _ => rfl
  | .expr cls args, b => by
    rw [eqS_expr, pyEq_of_some (eqM_expr cls args b)]
    cases b with
    | expr cls' args' =>
      dsimp only [exprAns]
      rw [pyEqList_eqsS args args']
    | _ => rfl
theorem pyEqList_eqsS : ∀ l m : List (Obj V), pyEqList sc l m = eqsS sc l m
  | [], [] => by rw [pyEqList, eqsS]
  | [], _ :: _ => by rw [pyEqList, eqsS] <;> simp
  | _ :: _, [] => by rw [pyEqList, eqsS] <;> simp
  | a :: l, b :: m => by rw [pyEqList, eqsS, pyEq_eqS a b, pyEqList_eqsS l m]
end

/-! ### laws -/

theorem isId_iff {t : Obj V} : isId t = true ↔ t = .sing 0 := by
  cases t with
  | sing k => cases k <;> simp [isId]
  | _ => simp [isId]

mutual
theorem eqS_refl : ∀ a : Obj V, eqS sc a a = true
  | .num _ _ => by simp [eqS, numEq]
  | .sval _ _ => by simp [eqS, numEq]
  | .zero => by simp [eqS, numEq]
  | .one => by simp [eqS, numEq]
  | .sing _ => by simp [eqS]
  | .smul c t => by simp [eqS, isScalar, eqS_refl c, eqS_refl t]
  | .expr _ args => by simp [eqS, eqsS_refl args]
theorem eqsS_refl : ∀ l : List (Obj V), eqsS sc l l = true
  | [] => by rw [eqsS]
  | a :: l => by rw [eqsS, eqS_refl a, eqsS_refl l]; rfl
end

theorem numEq_fun : ∀ {b : Obj V} {v w : V}, numEq v b = true → numEq w b = true → v = w
  | .num _ _, v, w, h1, h2 => by simp only [numEq, decide_eq_true_eq] at h1 h2; rw [h1, h2]
  | .sval _ _, v, w, h1, h2 => by simp only [numEq, decide_eq_true_eq] at h1 h2; rw [h1, h2]
  | .zero, v, w, h1, h2 => by simp only [numEq, decide_eq_true_eq] at h1 h2; rw [h1, h2]
  | .one, v, w, h1, h2 => by simp only [numEq, decide_eq_true_eq] at h1 h2; rw [h1, h2]
  | .sing _, v, w, h1, h2 => by simp [numEq] at h1
  | .smul c t, v, w, h1, h2 => by
    simp only [numEq, Bool.and_eq_true] at h1 h2
    exact numEq_fun h1.2 h2.2
  | .expr _ _, v, w, h1, h2 => by simp [numEq] at h1

theorem eqS_id {t : Obj V} (h : eqS sc t (.sing 0) = true) : t = .sing 0 := by
  cases t with
  | sing k => simpa [eqS] using h
  | smul c t => simp [eqS, isScalar] at h
  | _ => simp [eqS, numEq] at h

theorem eqS_of_numEq : ∀ {a b : Obj V} {v : V}, numEq v a = true → numEq v b = true → eqS sc a b = true
  | .num w _, b, v, ha, hb => by
    simp only [numEq, decide_eq_true_eq] at ha
    subst ha
    rw [eqS, hb]
  | .sval w _, b, v, ha, hb => by
    simp only [numEq, decide_eq_true_eq] at ha
    subst ha
    rw [eqS, hb]
  | .zero, b, v, ha, hb => by
    simp only [numEq, decide_eq_true_eq] at ha
    subst ha
    rw [eqS, hb]
  | .one, b, v, ha, hb => by
    simp only [numEq, decide_eq_true_eq] at ha
    subst ha
    rw [eqS, hb]
  | .sing _, b, v, ha, hb => by simp [numEq] at ha
  | .smul c t, b, v, ha, hb => by
    simp only [numEq, Bool.and_eq_true] at ha
    rw [eqS_smul, ha.1]
    cases hs : isScalar sc b with
    | true => simpa using eqS_of_numEq ha.2 hb
    | false =>
      simp only [Bool.and_false, Bool.false_eq_true, if_false]
      cases b with
      | smul c' t' =>
        simp only [numEq, Bool.and_eq_true] at hb
        rw [isId_iff.mp ha.1, isId_iff.mp hb.1]
        simp [eqS_of_numEq ha.2 hb.2, eqS]
      | _ => simp_all [numEq, isScalar]
  | .expr _ _, b, v, ha, hb => by simp [numEq] at ha

theorem numEq_of_left : ∀ {a b : Obj V} {v : V}, numEq v a = true → eqS sc a b = true → numEq v b = true
  | .num w _, b, v, ha, hb => by
    simp only [numEq, decide_eq_true_eq] at ha
    subst ha
    rwa [eqS] at hb
  | .sval w _, b, v, ha, hb => by
    simp only [numEq, decide_eq_true_eq] at ha
    subst ha
    rwa [eqS] at hb
  | .zero, b, v, ha, hb => by
    simp only [numEq, decide_eq_true_eq] at ha
    subst ha
    rwa [eqS] at hb
  | .one, b, v, ha, hb => by
    simp only [numEq, decide_eq_true_eq] at ha
    subst ha
    rwa [eqS] at hb
  | .sing _, b, v, ha, hb => by simp [numEq] at ha
  | .smul c t, b, v, ha, hb => by
    simp only [numEq, Bool.and_eq_true] at ha
    rw [eqS_smul] at hb
    split at hb
    · exact numEq_of_left ha.2 hb
    · cases b with
      | smul c' t' =>
        simp only [Bool.and_eq_true] at hb
        rw [numEq, numEq_of_left ha.2 hb.1, Bool.and_true]
        have h2 := hb.2
        rw [isId_iff.mp ha.1] at h2
        cases t' with
        | sing k => simp only [eqS, decide_eq_true_eq] at h2; rw [← h2]; rfl
        | _ => simp [eqS] at h2
      | _ => cases hb
  | .expr _ _, b, v, ha, hb => by simp [numEq] at ha

theorem numEq_of_right : ∀ {a b : Obj V} {v : V}, numEq v b = true → eqS sc a b = true → numEq v a = true
  | .num w _, b, v, hb, h => by
    rw [eqS] at h
    rw [numEq, numEq_fun hb h]
    simp
  | .sval w _, b, v, hb, h => by
    rw [eqS] at h
    rw [numEq, numEq_fun hb h]
    simp
  | .zero, b, v, hb, h => by
    rw [eqS] at h
    rw [numEq, numEq_fun hb h]
    simp
  | .one, b, v, hb, h => by
    rw [eqS] at h
    rw [numEq, numEq_fun hb h]
    simp
  | .sing _, b, v, hb, h => by cases b <;> simp_all [numEq, eqS]
  | .smul c t, b, v, hb, h => by
    rw [eqS_smul] at h
    split at h
    · rename_i hc
      rw [Bool.and_eq_true] at hc
      rw [numEq, hc.1, numEq_of_right hb h]
      rfl
    · cases b with
      | smul c' t' =>
        simp only [Bool.and_eq_true, numEq] at h hb
        rw [numEq, numEq_of_right hb.2 h.1, Bool.and_true]
        have h2 := h.2
        rw [isId_iff.mp hb.1] at h2
        rw [eqS_id h2]
        rfl
      | _ => cases h
  | .expr _ _, b, v, hb, h => by cases b <;> simp_all [numEq, eqS]

/-- numbers, as scalars or expressions -/
theorem numeric_or {b : Obj V} (h : isScalar sc b = true) : (∃ v, numEq v b = true) ∨ ∃ cls args, b = .expr cls args ∧ sc cls = true := by
  cases b with
  | num v n => exact .inl ⟨v, by simp [numEq]⟩
  | sval v n => exact .inl ⟨v, by simp [numEq]⟩
  | zero => exact .inl ⟨0, by simp [numEq]⟩
  | one => exact .inl ⟨1, by simp [numEq]⟩
  | sing k => simp [isScalar] at h
  | smul c t => simp [isScalar] at h
  | expr cls args => exact .inr ⟨cls, args, rfl, h⟩

mutual
theorem eqS_trans : ∀ {a b d : Obj V}, eqS sc a b = true → eqS sc b d = true → eqS sc a d = true
  | .num v _, b, d, h1, h2 => by rw [eqS] at h1 ⊢; exact numEq_of_left h1 h2
  | .sval v _, b, d, h1, h2 => by rw [eqS] at h1 ⊢; exact numEq_of_left h1 h2
  | .zero, b, d, h1, h2 => by rw [eqS] at h1 ⊢; exact numEq_of_left h1 h2
  | .one, b, d, h1, h2 => by rw [eqS] at h1 ⊢; exact numEq_of_left h1 h2
  | .sing k, b, d, h1, h2 => by cases b <;> simp_all [eqS]
  | .smul c t, b, d, h1, h2 => by
    rw [eqS_smul] at h1
    split at h1
    · rename_i hc
      rw [Bool.and_eq_true] at hc
      have h3 := eqS_trans h1 h2
      rw [eqS_smul, hc.1]
      cases hd : isScalar sc d with
      | true => simpa using h3
      | false =>
        simp only [Bool.and_false, Bool.false_eq_true, if_false]
        rcases numeric_or hc.2 with ⟨v, hv⟩ | ⟨cls, args, rfl, hs⟩
        · have hvd := numEq_of_left hv h2
          have hvc := numEq_of_right hv h1
          cases d with
          | smul c' t' =>
            simp only [numEq, Bool.and_eq_true] at hvd
            rw [isId_iff.mp hc.1, isId_iff.mp hvd.1]
            simp [eqS_of_numEq hvc hvd.2, eqS]
          | _ => simp_all [numEq, isScalar]
        · cases d <;> simp_all [eqS, isScalar]
    · cases b with
      | smul c' t' =>
        simp only [Bool.and_eq_true] at h1
        rw [eqS_smul] at h2
        split at h2
        · rename_i hc
          rw [Bool.and_eq_true] at hc
          have ht : t = .sing 0 := eqS_id (by rw [← isId_iff.mp hc.1]; exact h1.2)
          rw [eqS_smul, if_pos (by rw [ht, hc.2]; rfl)]
          exact eqS_trans h1.1 h2
        · cases d with
          | smul c'' t'' =>
            simp only [Bool.and_eq_true] at h2
            rw [eqS_smul, if_neg (by simp [isScalar])]
            simp [eqS_trans h1.1 h2.1, eqS_trans h1.2 h2.2]
          | _ => cases h2
      | _ => cases h1
  | .expr cls args, b, d, h1, h2 => by
    cases b with
    | expr cls' args' =>
      cases d with
      | expr cls'' args'' =>
        simp only [eqS, Bool.and_eq_true, decide_eq_true_eq] at h1 h2 ⊢
        exact ⟨h1.1.trans h2.1, eqsS_trans h1.2 h2.2⟩
      | _ => simp [eqS] at h2
    | _ => simp [eqS] at h1
theorem eqsS_trans : ∀ {l m k : List (Obj V)}, eqsS sc l m = true → eqsS sc m k = true → eqsS sc l k = true
  | [], [], [], _, _ => by rw [eqsS]
  | [], [], _ :: _, _, h => by simp [eqsS] at h
  | [], _ :: _, _, h, _ => by simp [eqsS] at h
  | _ :: _, [], _, h, _ => by simp [eqsS] at h
  | _ :: _, _ :: _, [], _, h => by simp [eqsS] at h
  | a :: l, b :: m, d :: k, h1, h2 => by
    simp only [eqsS, Bool.and_eq_true] at h1 h2 ⊢
    exact ⟨eqS_trans h1.1 h2.1, eqsS_trans h1.2 h2.2⟩
end

mutual
theorem eqS_canon {sig : ℕ → ℕ → Bool} : ∀ {a b : Obj V}, Typed sc sig a → Typed sc sig b → isScalar sc a = isScalar sc b → (eqS sc a b = true ↔ canon a = canon b)
  | .num v _, b, _, _, hk => by cases b <;> simp_all [eqS, numEq, canon, isScalar]
  | .sval v _, b, _, _, hk => by cases b <;> simp_all [eqS, numEq, canon, isScalar]
  | .zero, b, _, _, hk => by cases b <;> simp_all [eqS, numEq, canon, isScalar]
  | .one, b, _, _, hk => by cases b <;> simp_all [eqS, numEq, canon, isScalar]
  | .sing k, b, _, _, hk => by cases b <;> simp_all [eqS, canon, isScalar]
  | .smul c t, b, ha, hb, hk => by
    have hs : isScalar sc b = false := by rw [← hk]; rfl
    rw [eqS_smul, hs]
    simp only [Bool.and_false, Bool.false_eq_true, if_false]
    cases b with
    | smul c' t' =>
      simp only [Typed] at ha hb
      simp only [Bool.and_eq_true, canon, Obj.smul.injEq]
      rw [eqS_canon ha.1 hb.1 (by rw [ha.2.1, hb.2.1]), eqS_canon ha.2.2.1 hb.2.2.1 (by rw [ha.2.2.2, hb.2.2.2])]
    | _ => simp_all [canon, isScalar]
  | .expr cls args, b, ha, hb, hk => by
    cases b with
    | expr cls' args' =>
      simp only [Typed] at ha hb
      simp only [eqS, Bool.and_eq_true, decide_eq_true_eq, canon, Obj.expr.injEq]
      constructor
      · rintro ⟨rfl, h⟩
        exact ⟨rfl, (eqsS_canon ha hb).mp h⟩
      · rintro ⟨rfl, h⟩
        exact ⟨rfl, (eqsS_canon ha hb).mpr h⟩
    | _ => simp [eqS, canon]
theorem eqsS_canon {sig : ℕ → ℕ → Bool} : ∀ {s : ℕ → Bool} {l m : List (Obj V)}, TypedList sc sig s l → TypedList sc sig s m → (eqsS sc l m = true ↔ canons l = canons m)
  | _, [], [], _, _ => by simp [eqsS, canons]
  | _, [], _ :: _, _, _ => by simp [eqsS, canons]
  | _, _ :: _, [], _, _ => by simp [eqsS, canons]
  | s, a :: l, b :: m, ha, hb => by
    simp only [TypedList] at ha hb
    simp only [eqsS, Bool.and_eq_true, canons, List.cons.injEq]
    rw [eqS_canon ha.1 hb.1 (by rw [ha.2.1, hb.2.1]), eqsS_canon ha.2.2 hb.2.2]
end

mutual
theorem hash_canon (H : Hash V) : ∀ a : Obj V, hash H (canon a) = hash H a
  | .num _ _ => rfl
  | .sval _ _ => rfl
  | .zero => rfl
  | .one => rfl
  | .sing _ => rfl
  | .smul c t => by rw [canon, hash, hash, hash_canon H c, hash_canon H t]
  | .expr _ args => by rw [canon, hash, hash, hashes_canon H args]
theorem hashes_canon (H : Hash V) : ∀ l : List (Obj V), hashes H (canons l) = hashes H l
  | [] => rfl
  | a :: l => by rw [canons, hashes, hashes, hash_canon H a, hashes_canon H l]
end

section Den
variable {K : Type} [Monoid K] (M : Meaning V K)

theorem den_num : ∀ {b : Obj V} {v : V}, numEq v b = true → M.den b = M.num v
  | .num w _, v, h => by simp only [numEq, decide_eq_true_eq] at h; rw [h, Meaning.den]
  | .sval w _, v, h => by simp only [numEq, decide_eq_true_eq] at h; rw [h, Meaning.den]
  | .zero, v, h => by simp only [numEq, decide_eq_true_eq] at h; rw [h, Meaning.den]
  | .one, v, h => by simp only [numEq, decide_eq_true_eq] at h; rw [h, Meaning.den]
  | .sing _, v, h => by simp [numEq] at h
  | .smul c t, v, h => by
    simp only [numEq, Bool.and_eq_true] at h
    rw [Meaning.den, isId_iff.mp h.1, Meaning.den, M.ident, mul_one]
    exact den_num h.2
  | .expr _ _, v, h => by simp [numEq] at h

mutual
theorem den_eq : ∀ {a b : Obj V}, eqS sc a b = true → M.den a = M.den b
  | .num v _, b, h => by rw [eqS] at h; rw [den_num M h, Meaning.den]
  | .sval v _, b, h => by rw [eqS] at h; rw [den_num M h, Meaning.den]
  | .zero, b, h => by rw [eqS] at h; rw [den_num M h, Meaning.den]
  | .one, b, h => by rw [eqS] at h; rw [den_num M h, Meaning.den]
  | .sing k, b, h => by cases b <;> simp_all [eqS]
  | .smul c t, b, h => by
    rw [eqS_smul] at h
    split at h
    · rename_i hc
      rw [Bool.and_eq_true] at hc
      rw [Meaning.den, isId_iff.mp hc.1, Meaning.den, M.ident, mul_one]
      exact den_eq h
    · cases b with
      | smul c' t' =>
        simp only [Bool.and_eq_true] at h
        rw [Meaning.den, Meaning.den, den_eq h.1, den_eq h.2]
      | _ => cases h
  | .expr cls args, b, h => by
    cases b with
    | expr cls' args' =>
      simp only [eqS, Bool.and_eq_true, decide_eq_true_eq] at h
      rw [Meaning.den, Meaning.den, h.1, dens_eq h.2]
    | _ => simp [eqS] at h
theorem dens_eq : ∀ {l m : List (Obj V)}, eqsS sc l m = true → M.dens l = M.dens m
  | [], [], _ => rfl
  | [], _ :: _, h => by simp [eqsS] at h
  | _ :: _, [], h => by simp [eqsS] at h
  | a :: l, b :: m, h => by
    simp only [eqsS, Bool.and_eq_true] at h
    rw [Meaning.dens, Meaning.dens, den_eq h.1, dens_eq h.2]
end

end Den

/-! ### `!=` -/

theorem eqMethod_some {a b : Obj V} (h : ∀ v n, a ≠ .num v n) : eqMethod sc a b = some (pyEq sc a b) := by
  cases hm : eqMethod sc a b with
  | some r => rw [pyEq_of_some hm]
  | none =>
    exfalso
    cases a with
    | num v n => exact absurd rfl (h v n)
    | sing k => rw [eqM_sing] at hm; cases hm
    | smul c t => rw [eqM_smul] at hm; cases hm
    | expr cls args => rw [eqM_expr] at hm; cases hm
    | _ => rw [eqMethod.eq_def] at hm; cases b <;> cases hm

theorem flag_num (v : V) : ∀ o : Obj V, NoNp o → (pyEq sc o (.num v false)).2 = false ∧ (pyEq sc (.num v false) o).2 = false
  | .num w m, h => by
    rw [NoNp] at h
    rw [num_num, num_num, h]
    exact ⟨rfl, rfl⟩
  | .sval w m, h => by
    rw [NoNp] at h
    have e : eqMethod sc (.sval w m) (.num v false) = some (pyEq sc (.num w m) (.num v false)) := by
      rw [eqMethod]; simp
    rw [pyEq_of_some e, num_left (by simp) e, num_num, h]
    exact ⟨rfl, rfl⟩
  | .zero, _ => by
    have e : eqMethod sc .zero (.num v false) = some (pyEq sc (.num v false) (.num 0 false)) := by rw [eqMethod]
    rw [pyEq_of_some e, num_left (by simp) e, num_num]
    exact ⟨rfl, rfl⟩
  | .one, _ => by
    have e : eqMethod sc .one (.num v false) = some (pyEq sc (.num v false) (.num 1 false)) := by rw [eqMethod]
    rw [pyEq_of_some e, num_left (by simp) e, num_num]
    exact ⟨rfl, rfl⟩
  | .sing k, _ => by
    have e : eqMethod sc (.sing k) (.num v false) = some (false, false) := by first | exact eqM_sing _ _ | exact eqM_expr _ _ _
    rw [pyEq_of_some e, num_left (by simp) e]
    exact ⟨rfl, rfl⟩
  | .smul c t, h => by
    rw [NoNp] at h
    have e : eqMethod sc (.smul c t) (.num v false) = some (if isId t = true then pyEq sc c (.num v false) else (false, false)) := by
      rw [eqM_smul]
      cases h : isId t <;> simp [isScalar, smulAns]
    rw [pyEq_of_some e, num_left (by simp) e]
    split
    · exact ⟨(flag_num v c h.1).1, (flag_num v c h.1).1⟩
    · exact ⟨rfl, rfl⟩
  | .expr cls args, _ => by
    have e : eqMethod sc (.expr cls args) (.num v false) = some (false, false) := by first | exact eqM_sing _ _ | exact eqM_expr _ _ _
    rw [pyEq_of_some e, num_left (by simp) e]
    exact ⟨rfl, rfl⟩

theorem flag_false : ∀ a b : Obj V, NoNp a → NoNp b → (pyEq sc a b).2 = false
  | .num v n, b, ha, hb => by
    rw [NoNp] at ha
    subst ha
    exact (flag_num v b hb).2
  | .sval v n, b, ha, hb => by
    rw [NoNp] at ha
    subst ha
    cases b with
    | sval w m =>
      rw [NoNp] at hb
      subst hb
      rw [pyEq_of_some (by rw [eqMethod]), num_num]
      rfl
    | _ => rw [pyEq_of_some (by rw [eqMethod]; simp)]; exact (flag_num v _ hb).2
  | .zero, b, _, hb => by rw [pyEq_of_some (by rw [eqMethod])]; exact (flag_num 0 b hb).1
  | .one, b, _, hb => by rw [pyEq_of_some (by rw [eqMethod])]; exact (flag_num 1 b hb).1
  | .sing k, b, _, _ => by rw [pyEq_of_some (eqM_sing k b)]
  | .smul c t, b, ha, hb => by
    rw [NoNp] at ha
    rw [pyEq_of_some (eqM_smul c t b)]
    split
    · exact flag_false c b ha.1 hb
    · rfl
  | .expr cls args, b, _, _ => by rw [pyEq_of_some (eqM_expr cls args b)]

/-! ### C79 -/

/-- C79: `==` is reflexive and transitive, for all objects. -/
theorem C79_preorder (sc : ℕ → Bool) : (∀ a : Obj V, (pyEq sc a a).1 = true) ∧
    ∀ a b d : Obj V, (pyEq sc a b).1 = true → (pyEq sc b d).1 = true → (pyEq sc a d).1 = true := by
  simp only [pyEq_eqS]
  exact ⟨eqS_refl, fun a b d => eqS_trans⟩

/-- C79: objects that compare equal mean the same (a scalar standing for the multiple of the identity). -/
theorem C79_sound (sc : ℕ → Bool) {K : Type} [Monoid K] (M : Meaning V K) (a b : Obj V) (h : (pyEq sc a b).1 = true) : M.den a = M.den b := by
  rw [pyEq_eqS] at h
  exact den_eq M h

/-- C79: two scalars, or two objects that are not scalars, compare equal exactly when they are the same expression up to the way in which numbers are written; hence `==` is symmetric on them, and equal ones
have equal hashes. Missing: a scalar compared with an operator (false, see below). -/
theorem C79_same_kind_partial (sc : ℕ → Bool) (sig : ℕ → ℕ → Bool) (a b : Obj V) (ha : Typed sc sig a) (hb : Typed sc sig b) (hk : isScalar sc a = isScalar sc b) :
    ((pyEq sc a b).1 = true ↔ canon a = canon b) ∧ (pyEq sc a b).1 = (pyEq sc b a).1 ∧ ∀ H : Hash V, (pyEq sc a b).1 = true → hash H a = hash H b := by
  have h1 := eqS_canon ha hb hk
  have h2 := eqS_canon hb ha hk.symm
  simp only [pyEq_eqS]
  refine ⟨h1, ?_, fun H h => ?_⟩
  · rw [Bool.eq_iff_iff, h1, h2]
    exact eq_comm
  · rw [← hash_canon H a, h1.mp h, hash_canon]

/-- C79: an operator equals a number (or `ScalarValue`) exactly when it is a multiple of `IdentityOperator` whose coefficient equals the number, in both orders of the operands. -/
theorem C79_number (sc : ℕ → Bool) (a : Obj V) (v : V) (n : Bool) : (pyEq sc a (.num v n)).1 = (pyEq sc (.num v n) a).1 ∧ (pyEq sc (.sval v n) a).1 = (pyEq sc (.num v n) a).1 ∧
    ∀ c t, a = .smul c t → ((pyEq sc a (.num v n)).1 = true ↔ t = .sing 0 ∧ (pyEq sc c (.num v n)).1 = true) := by
  refine ⟨by rw [(num_both v n a).1, (num_both v n a).2], by rw [pyEq_eqS, pyEq_eqS, eqS, eqS], ?_⟩
  rintro c t rfl
  rw [(num_both v n _).1, (num_both v n c).1, numEq, Bool.and_eq_true, isId_iff]

/-- C79: without NumPy numbers, `!=` is the negation of `==`. -/
theorem C79_ne_partial (sc : ℕ → Bool) (same : Bool) (a b : Obj V) (ha : NoNp a) (hb : NoNp b) : pyNe sc same a b = !(pyEq sc a b).1 := by
  have key : ∀ a b : Obj V, NoNp a → NoNp b → (∀ v n, a ≠ .num v n) → neMethod sc a b = some (!(pyEq sc a b).1, false) := by
    intro a b ha hb hn
    have hf := flag_false (sc := sc) a b ha hb
    have : neMethod sc a b = (match eqMethod sc a b with
        | some (r, false) => some (!r, false)
        | _ => none) := by
      cases a with
      | num v n => exact absurd rfl (hn v n)
      | _ => rfl
    rw [this, eqMethod_some hn]
    generalize pyEq sc a b = x at hf
    obtain ⟨r, f⟩ := x
    cases hf
    rfl
  by_cases hn : ∃ v n, a = .num v n
  · obtain ⟨v, n, rfl⟩ := hn
    by_cases hm : ∃ w m, b = .num w m
    · obtain ⟨w, m, rfl⟩ := hm
      rw [num_num]
      simp [pyNe, neMethod]
    · have : neMethod sc (.num v n) b = none := by
        cases b with
        | num w m => exact absurd ⟨w, m, rfl⟩ hm
        | _ => rfl
      rw [pyNe, this]
      dsimp only
      rw [key b _ hb ha fun w m h => hm ⟨w, m, h⟩]
      dsimp only
      rw [(num_both v n b).1, (num_both v n b).2]
  · rw [pyNe, key a b ha hb fun v n h => hn ⟨v, n, h⟩]

/-! ### the limits -/

/-- C79 fails for scalars and operators: with a scalar expression `c` (say `BraKet`, class 5) `c * IdentityOperator == c` is true, but `c == c * IdentityOperator` is false. -/
theorem C79_refuted_symmetric : let c : Obj ℤ := .expr 5 [.expr 9 []]
    (pyEq (· == 5) (.smul c (.sing 0)) c).1 = true ∧ (pyEq (· == 5) c (.smul c (.sing 0))).1 = false := by
  simp only [pyEq_eqS]
  exact ⟨by decide, by decide⟩

/-- C79 fails for scalars and operators: `2 * IdentityOperator == 2`, but the hashes differ (unless the hash of a tuple happens to be that of the number), so that one of them is not found in a dictionary in which
the other is a key. -/
theorem C79_refuted_hash (H : Hash ℤ) (hH : ∀ l, H.tuple l ≠ H.num 2) : (pyEq (fun _ => false) (.smul (.sval 2 false) (.sing 0)) (.num 2 false) : Ans).1 = true ∧
    hash H (.smul (.sval 2 false) (.sing 0)) ≠ hash H (.num 2 false) := by
  rw [pyEq_eqS]
  exact ⟨by decide, hH _⟩

/-- C79 fails for NumPy numbers: `x = ScalarValue(numpy.float64(2))` and `y = ScalarValue(numpy.float64(2))` are equal, but `x != y` is also true (when they are two objects). -/
theorem C79_refuted_ne (sc : ℕ → Bool) : (pyEq sc (.sval (2 : ℤ) true) (.sval 2 true)).1 = true ∧ pyNe sc false (.sval (2 : ℤ) true) (.sval 2 true) = true := by
  have e : eqMethod sc (.sval (2 : ℤ) true) (.sval 2 true) = some (true, true) := by
    rw [eqMethod, num_num]
    rfl
  refine ⟨by rw [pyEq_of_some e], ?_⟩
  simp only [pyNe, neMethod, e]
  rfl

/-- the hypotheses can be met: `A + 0` and `A + Zero` (as operands of an expression of class 7 with an operator and a scalar) are equal, `A + Zero` and `A + One` are not -/
example : let sig : ℕ → ℕ → Bool := fun cls i => cls == 7 && i == 1
    let a : Obj ℤ := .expr 7 [.smul (.sval 3 false) (.expr 8 []), .sval 0 false]
    let b : Obj ℤ := .expr 7 [.smul (.num 3 false) (.expr 8 []), .zero]
    Typed (fun _ => false) sig a ∧ Typed (fun _ => false) sig b ∧ (pyEq (fun _ => false) a b).1 = true ∧ (pyEq (fun _ => false) a (.expr 7 [.smul (.sval 3 false) (.expr 8 []), .one])).1 = false := by
  simp only [pyEq_eqS]
  exact ⟨by simp [Typed, TypedList, isScalar], by simp [Typed, TypedList, isScalar], by decide, by decide⟩

end QNET.PyEq
