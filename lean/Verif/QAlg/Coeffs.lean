import Mathlib.Algebra.Algebra.Basic
import Mathlib.Algebra.BigOperators.Group.List.Basic
import Mathlib.Algebra.Order.Group.Int
import Mathlib.Tactic.Abel
import Mathlib.Algebra.Order.Ring.Rat

/-!
# C108: coefficients of sums of operators (`get_coeffs`, `factor_coeff`, `src/qnet/algebra/core/operator_algebra.py` lines 887-941)

Operators are known by whether they are sums, scalar multiples, scalars or something else; `T` are the other operators, with `one` for IdentityOperator and `nil` for
ZeroOperator. Terms of scalar multiples are again any operators. `mag` is `abs(complex(c))`, none for a TypeError (symbolic coefficients).
-/

namespace QNET.Coeffs

/-- operators -/
inductive Op (C T : Type) where
  | plus (l : List (Op C T))
  | scal (c : C) (t : Op C T)
  | num (c : C)
  | one
  | nil
  | other (t : T)

variable {C T : Type}

mutual
/-- equality of operators -/
def Op.beq [DecidableEq C] [DecidableEq T] : Op C T → Op C T → Bool
  | .plus l, .plus m => Op.beqL l m
  | .scal c t, .scal d u => decide (c = d) && Op.beq t u
  | .num c, .num d => decide (c = d)
  | .one, .one => true
  | .nil, .nil => true
  | .other t, .other u => decide (t = u)
  | _, _ => false
/-- equality of lists of operators -/
def Op.beqL [DecidableEq C] [DecidableEq T] : List (Op C T) → List (Op C T) → Bool
  | [], [] => true
  | a :: l, b :: m => Op.beq a b && Op.beqL l m
  | _, _ => false
end

mutual
theorem Op.beq_iff [DecidableEq C] [DecidableEq T] : ∀ a b : Op C T, Op.beq a b = true ↔ a = b
  | .plus l, b => by cases b <;> simp [Op.beq, Op.beqL_iff l]
  | .scal c t, b => by cases b <;> simp [Op.beq, Op.beq_iff t]
  | .num c, b => by cases b <;> simp [Op.beq]
  | .one, b => by cases b <;> simp [Op.beq]
  | .nil, b => by cases b <;> simp [Op.beq]
  | .other t, b => by cases b <;> simp [Op.beq]
theorem Op.beqL_iff [DecidableEq C] [DecidableEq T] : ∀ a b : List (Op C T), Op.beqL a b = true ↔ a = b
  | [], b => by cases b <;> simp [Op.beqL]
  | a :: l, b => by cases b <;> simp [Op.beqL, Op.beq_iff a, Op.beqL_iff l]
end

instance [DecidableEq C] [DecidableEq T] : DecidableEq (Op C T) := fun a b => decidable_of_iff _ (Op.beq_iff a b)

variable [CommRing C] [DecidableEq C] [DecidableEq T]

/-- `_coeff_term`, lines 919-929 -/
def coeffTerm : Op C T → C × Op C T
  | .scal c t => (c, t)
  | .num c => if c = 0 then (0, .nil) else (c, .one)
  | e => (1, e)

/-- `ret[t] += c` for a defaultdict (in insertion order) -/
def addTo (t : Op C T) (c : C) : List (Op C T × C) → List (Op C T × C)
  | [] => [(t, c)]
  | (u, d) :: l => if u = t then (u, d + c) :: l else (u, d) :: addTo t c l

/-- line 907 -/
def operands : Op C T → List (Op C T)
  | .plus l => l
  | e => [e]

/-- lines 910-914: the coefficient is to be dropped -/
def small (mag : C → Option ℚ) (eps : ℚ) (c : C) : Bool := match mag c with
  | some m => decide (m < eps)
  | none => false

/-- `get_coeffs(expr, expand=False, epsilon=eps)`, lines 887-916 -/
def getCoeffs (mag : C → Option ℚ) (eps : ℚ) (e : Op C T) : List (Op C T × C) :=
  (operands e).foldl (fun ret x => if small mag eps (coeffTerm x).1 then ret else addTo (coeffTerm x).2 (coeffTerm x).1 ret) []

/-- `ret[t]` of the defaultdict -/
def look (t : Op C T) (l : List (Op C T × C)) : C := match l.find? fun p => p.1 = t with
  | some p => p.2
  | none => 0

/-! ### specification -/

variable {A : Type} [Ring A] [Algebra C A]

mutual
/-- the operator that an expression denotes -/
def Op.value (v : T → A) : Op C T → A
  | .plus l => Op.values v l
  | .scal c t => c • t.value v
  | .num c => c • 1
  | .one => 1
  | .nil => 0
  | .other t => v t
/-- the sum of operators -/
def Op.values (v : T → A) : List (Op C T) → A
  | [] => 0
  | e :: l => e.value v + Op.values v l
end

/-- the operator that a dictionary stands for -/
def dictValue (v : T → A) (l : List (Op C T × C)) : A := (l.map fun p => p.2 • p.1.value v).sum

theorem values_eq (v : T → A) : ∀ l : List (Op C T), Op.values v l = (l.map fun e => e.value v).sum
  | [] => rfl
  | e :: l => by rw [Op.values, List.map_cons, List.sum_cons, values_eq v l]

theorem coeffTerm_value (v : T → A) (e : Op C T) : (coeffTerm e).1 • (coeffTerm e).2.value v = e.value v := by
  cases e with
  | scal c t => rfl
  | num c =>
    change (if c = 0 then ((0 : C), (Op.nil : Op C T)) else (c, .one)).1 • (if c = 0 then ((0 : C), (Op.nil : Op C T)) else (c, .one)).2.value v = c • (1 : A)
    by_cases h : c = 0
    · rw [if_pos h, h, zero_smul, zero_smul]
    · rw [if_neg h]; rfl
  | _ => exact one_smul C _

theorem operands_value (v : T → A) (e : Op C T) : ((operands e).map fun x => x.value v).sum = e.value v := by
  cases e with
  | plus l => rw [Op.value, values_eq]; rfl
  | _ => exact List.sum_singleton

omit [DecidableEq C] in
theorem addTo_value [DecidableEq C] (v : T → A) (t : Op C T) (c : C) : ∀ l : List (Op C T × C), dictValue v (addTo t c l) = dictValue v l + c • t.value v
  | [] => by simp [addTo, dictValue]
  | (u, d) :: l => by
    rw [addTo]
    split
    · rename_i h
      subst h
      simp only [dictValue, List.map_cons, List.sum_cons, add_smul]
      abel
    · have := addTo_value v t c l
      simp only [dictValue, List.map_cons, List.sum_cons] at this ⊢
      rw [this, add_assoc]

theorem addTo_look (t u : Op C T) (c : C) : ∀ l : List (Op C T × C), look u (addTo t c l) = look u l + if t = u then c else 0
  | [] => by
    unfold look addTo
    by_cases h : t = u <;> simp [h]
  | (w, d) :: l => by
    have ih := addTo_look t u c l
    rw [addTo]
    unfold look at ih ⊢
    by_cases h : w = t
    · subst h
      rw [if_pos rfl]
      by_cases hu : w = u
      · subst hu; simp
      · simp [hu]
    · rw [if_neg h]
      by_cases hu : w = u
      · subst hu; simp [Ne.symm h]
      · simpa [hu] using ih

theorem addTo_keys (t : Op C T) (c : C) : ∀ l : List (Op C T × C), (l.map Prod.fst).Nodup → ((addTo t c l).map Prod.fst).Nodup ∧ ∀ u, u ∈ (addTo t c l).map Prod.fst ↔ u = t ∨ u ∈ l.map Prod.fst
  | [], _ => by simp [addTo]
  | (w, d) :: l, h => by
    rw [List.map_cons, List.nodup_cons] at h
    obtain ⟨k1, k2⟩ := addTo_keys t c l h.2
    rw [addTo]
    split
    · rename_i e
      subst e
      refine ⟨by rw [List.map_cons, List.nodup_cons]; exact h, fun u => ?_⟩
      simp
    · rename_i e
      refine ⟨?_, fun u => ?_⟩
      · rw [List.map_cons, List.nodup_cons]
        refine ⟨fun hm => ?_, k1⟩
        rcases (k2 w).mp hm with h' | h'
        · exact e h'
        · exact h.1 h'
      · simp only [List.map_cons, List.mem_cons, k2]
        tauto

/-- the operands that are kept -/
def kept (mag : C → Option ℚ) (eps : ℚ) (e : Op C T) : List (Op C T) := (operands e).filter fun x => !small mag eps (coeffTerm x).1

theorem getCoeffs_eq (mag : C → Option ℚ) (eps : ℚ) (e : Op C T) :
    getCoeffs mag eps e = (kept mag eps e).foldl (fun ret x => addTo (coeffTerm x).2 (coeffTerm x).1 ret) [] := by
  unfold getCoeffs kept
  generalize operands e = l
  generalize ([] : List (Op C T × C)) = acc
  induction l generalizing acc with
  | nil => rfl
  | cons x l ih =>
    rw [List.foldl_cons, List.filter_cons]
    by_cases h : small mag eps (coeffTerm x).1 = true
    · rw [if_pos h, h]
      exact ih acc
    · rw [if_neg h]
      rw [Bool.not_eq_true] at h
      rw [h]
      exact ih _

theorem fold_value (v : T → A) : ∀ (l : List (Op C T)) (acc : List (Op C T × C)),
    dictValue v (l.foldl (fun ret x => addTo (coeffTerm x).2 (coeffTerm x).1 ret) acc) = dictValue v acc + (l.map fun x => x.value v).sum
  | [], acc => by simp
  | x :: l, acc => by
    rw [List.foldl_cons, fold_value v l, addTo_value, coeffTerm_value, List.map_cons, List.sum_cons, add_assoc]

/-- **C108** the terms with their coefficients have the operator as their sum, up to the terms that are dropped; each of these has a coefficient smaller than `epsilon` -/
theorem C108_value (mag : C → Option ℚ) (eps : ℚ) (v : T → A) (e : Op C T) : ∃ dropped : List (C × Op C T),
    e.value v = dictValue v (getCoeffs mag eps e) + (dropped.map fun p => p.1 • p.2.value v).sum ∧ ∀ p ∈ dropped, ∃ m, mag p.1 = some m ∧ m < eps := by
  refine ⟨((operands e).filter fun x => small mag eps (coeffTerm x).1).map coeffTerm, ?_, ?_⟩
  · rw [getCoeffs_eq, fold_value, ← operands_value]
    unfold kept
    rw [List.map_map]
    have : ∀ l : List (Op C T), (l.map fun x => x.value v).sum = ((l.filter fun x => !small mag eps (coeffTerm x).1).map fun x => x.value v).sum +
        ((l.filter fun x => small mag eps (coeffTerm x).1).map ((fun p : C × Op C T => p.1 • p.2.value v) ∘ coeffTerm)).sum := by
      intro l
      induction l with
      | nil => simp
      | cons x l ih =>
        rw [List.map_cons, List.sum_cons, ih, List.filter_cons, List.filter_cons]
        cases small mag eps (coeffTerm x).1 with
        | true =>
          simp only [Bool.not_true, Bool.false_eq_true, if_false, if_true, List.map_cons, List.sum_cons, Function.comp_apply, coeffTerm_value]
          abel
        | false =>
          simp only [Bool.not_false, Bool.false_eq_true, if_false, if_true, List.map_cons, List.sum_cons]
          abel
    rw [this]
    simp [dictValue]
  · intro p hp
    obtain ⟨x, hx, rfl⟩ := List.mem_map.mp hp
    have := (List.mem_filter.mp hx).2
    unfold small at this
    split at this
    · exact ⟨_, ‹_›, of_decide_eq_true this⟩
    · exact absurd this Bool.false_ne_true

/-- **C108** with `epsilon = 0` (the default) nothing is dropped: the operator is the sum of its terms with their coefficients -/
theorem C108_exact (mag : C → Option ℚ) (hm : ∀ c m, mag c = some m → 0 ≤ m) (v : T → A) (e : Op C T) : dictValue v (getCoeffs mag 0 e) = e.value v := by
  obtain ⟨d, h1, h2⟩ := C108_value mag 0 v e
  have : d = [] := by
    cases d with
    | nil => rfl
    | cons p d =>
      obtain ⟨m, k1, k2⟩ := h2 p (List.mem_cons_self ..)
      exact absurd (hm _ _ k1) (not_le.mpr k2)
  rw [h1, this, List.map_nil, List.sum_nil, add_zero]

/-- **C108** every term occurs once -/
theorem C108_terms (mag : C → Option ℚ) (eps : ℚ) (e : Op C T) : ((getCoeffs mag eps e).map Prod.fst).Nodup := by
  rw [getCoeffs_eq]
  generalize kept mag eps e = l
  have : ∀ (l : List (Op C T)) (acc : List (Op C T × C)), (acc.map Prod.fst).Nodup →
      ((l.foldl (fun ret x => addTo (coeffTerm x).2 (coeffTerm x).1 ret) acc).map Prod.fst).Nodup := by
    intro l
    induction l with
    | nil => exact fun _ h => h
    | cons x l ih => exact fun acc h => ih _ (addTo_keys _ _ _ h).1
  exact this l [] List.nodup_nil

/-- **C108** lookup: for operands `c_k * t_k` with terms different from each other, the coefficient of `t_k` is `c_k`, or 0 if it is dropped, and 0 for all other terms -/
theorem C108_lookup (mag : C → Option ℚ) (eps : ℚ) (l : List (C × Op C T)) (hd : (l.map Prod.snd).Nodup) :
    (∀ p ∈ l, look p.2 (getCoeffs mag eps (.plus (l.map fun p => .scal p.1 p.2))) = if (∃ m, mag p.1 = some m ∧ m < eps) then 0 else p.1) ∧
    ∀ t, t ∉ l.map Prod.snd → look t (getCoeffs mag eps (.plus (l.map fun p => .scal p.1 p.2))) = 0 := by
  classical
  have hs : ∀ c, small mag eps c = true ↔ ∃ m, mag c = some m ∧ m < eps := by
    intro c
    unfold small
    split
    · rename_i m h
      rw [decide_eq_true_iff]
      constructor
      · exact fun k => ⟨m, h, k⟩
      · rintro ⟨m', k1, k2⟩
        rw [h] at k1
        injection k1 with k1
        rw [k1]; exact k2
    · rename_i h
      constructor
      · exact fun k => absurd k Bool.false_ne_true
      · rintro ⟨m', k1, _⟩
        rw [h] at k1
        exact nomatch k1
  -- the value of the dictionary at every term, for every initial dictionary
  have key : ∀ (l : List (C × Op C T)) (acc : List (Op C T × C)) (t : Op C T), (l.map Prod.snd).Nodup →
      (t ∉ l.map Prod.snd → look t ((l.map fun p => Op.scal p.1 p.2).foldl (fun ret x => if small mag eps (coeffTerm x).1 then ret else addTo (coeffTerm x).2 (coeffTerm x).1 ret) acc) = look t acc) ∧
      ∀ p ∈ l, p.2 = t → look t ((l.map fun p => Op.scal p.1 p.2).foldl (fun ret x => if small mag eps (coeffTerm x).1 then ret else addTo (coeffTerm x).2 (coeffTerm x).1 ret) acc) =
        look t acc + if (∃ m, mag p.1 = some m ∧ m < eps) then 0 else p.1 := by
    intro l
    induction l with
    | nil => exact fun acc t _ => ⟨fun _ => rfl, nofun⟩
    | cons q l ih =>
      intro acc t hn
      rw [List.map_cons, List.nodup_cons] at hn
      simp only [List.map_cons, List.foldl_cons]
      change (_ → look t (List.foldl _ (if small mag eps q.1 then acc else addTo q.2 q.1 acc) _) = _) ∧ ∀ p ∈ q :: l, _ → look t (List.foldl _ (if small mag eps q.1 then acc else addTo q.2 q.1 acc) _) = _
      have hacc : look t (if small mag eps q.1 then acc else addTo q.2 q.1 acc) = look t acc + (if q.2 = t then (if (∃ m, mag q.1 = some m ∧ m < eps) then 0 else q.1) else 0) := by
        by_cases h : small mag eps q.1 = true
        · rw [if_pos h, if_pos ((hs _).mp h)]
          split <;> rw [add_zero]
        · rw [if_neg h, addTo_look, if_neg (fun k => h ((hs _).mpr k))]
      obtain ⟨i1, i2⟩ := ih (if small mag eps q.1 then acc else addTo q.2 q.1 acc) t hn.2
      refine ⟨fun ht => ?_, fun p hp e => ?_⟩
      · rw [List.mem_cons, not_or] at ht
        rw [i1 ht.2, hacc, if_neg (Ne.symm ht.1), add_zero]
      · rcases List.mem_cons.mp hp with rfl | hp
        · rw [i1 (by rw [← e]; exact hn.1), hacc, if_pos e]
        · have hne : q.2 ≠ t := by
            rintro rfl
            exact hn.1 (List.mem_map.mpr ⟨p, hp, e⟩)
          rw [i2 p hp e, hacc, if_neg hne, add_zero]
  refine ⟨fun p hp => ?_, fun t ht => ?_⟩
  · have := (key l [] p.2 hd).2 p hp rfl
    rw [show look p.2 ([] : List (Op C T × C)) = 0 from rfl, zero_add] at this
    exact this
  · exact (key l [] t hd).1 ht

/-! ### factor_coeff -/

/-- what `factor_coeff` returns: new arguments with new keyword arguments, or a multiple of a new product -/
inductive Factored (C T W : Type) where
  | args (ops : List (Op C T)) (kwargs : W ⊕ List C)
  | scaled (c : C) (ops : List (Op C T)) (kwargs : W)

/-- `factor_coeff`, lines 932-941; what should be keyword arguments is the tuple of coefficients if their product is 1 -/
def factorCoeff {W : Type} (ops : List (Op C T)) (kwargs : W) : Factored C T W :=
  if (ops.map fun e => (coeffTerm e).1).prod = 1 then .args (ops.map fun e => (coeffTerm e).2) (.inr (ops.map fun e => (coeffTerm e).1))
  else .scaled (ops.map fun e => (coeffTerm e).1).prod (ops.map fun e => (coeffTerm e).2) kwargs

theorem prod_coeffs (v : T → A) : ∀ ops : List (Op C T), (ops.map fun e => (coeffTerm e).1).prod • ((ops.map fun e => (coeffTerm e).2).map fun e => e.value v).prod =
    (ops.map fun e => e.value v).prod
  | [] => by simp
  | e :: ops => by
    simp only [List.map_cons, List.prod_cons]
    rw [← prod_coeffs v ops, ← coeffTerm_value v e, smul_mul_smul_comm]

/-- **C108** `factor_coeff` gives the coefficient and the factors of a product -/
theorem C108_factor {W : Type} (v : T → A) (ops : List (Op C T)) (kwargs : W) : (match factorCoeff ops kwargs with
    | .args l _ => (l.map fun e => e.value v).prod = (ops.map fun e => e.value v).prod
    | .scaled c l k => c • (l.map fun e => e.value v).prod = (ops.map fun e => e.value v).prod ∧ k = kwargs) := by
  have := prod_coeffs v ops
  unfold factorCoeff
  by_cases h : (ops.map fun e => (coeffTerm e).1).prod = 1
  · rw [if_pos h]
    rw [h, one_smul] at this
    exact this
  · rw [if_neg h]
    exact ⟨this, rfl⟩

omit [DecidableEq T] in
/-- **C108** refuted: factors without coefficients lose their keyword arguments, a tuple of numbers takes their place (so that `create` with this simplification raises
TypeError, also for products with coefficients, whose factors go through `create` again) -/
theorem C108_refuted_factor {W : Type} {ops : List (Op C T)} (h : ∀ e ∈ ops, (coeffTerm e).1 = 1) (kwargs : W) :
    factorCoeff ops kwargs = .args (ops.map fun e => (coeffTerm e).2) (.inr (ops.map fun _ => 1)) := by
  have e : ops.map (fun e => (coeffTerm e).1) = ops.map fun _ => 1 := List.map_congr_left h
  unfold factorCoeff
  rw [e, if_pos (by simp)]

/-- `5*A + B - 2*A + 0` -/
def ex : Op ℤ ℕ := .plus [.scal 5 (.other 0), .other 1, .scal (-2) (.other 0), .num 0, .num 7]
example : getCoeffs (fun c : ℤ => some |(c : ℚ)|) 0 ex = [(.other 0, 3), (.other 1, 1), (.nil, 0), (.one, 7)] := by decide +kernel
example : getCoeffs (fun c : ℤ => some |(c : ℚ)|) 3 ex = [(.other 0, 5), (.one, 7)] := by decide +kernel
example : ∀ (c : ℤ) (m : ℚ), some |(c : ℚ)| = some m → 0 ≤ m := by rintro c m ⟨⟩; exact abs_nonneg _
example : (([(5, Op.other 0), (1, .other 1)] : List (ℤ × Op ℤ ℕ)).map Prod.snd).Nodup := by decide +kernel
/-- `(2*A)*(3*B)` -/
example : (factorCoeff [.scal 2 (.other 0), .scal 3 (.other 1)] () : Factored ℤ ℕ Unit) = .scaled 6 [.other 0, .other 1] () := rfl

end QNET.Coeffs
