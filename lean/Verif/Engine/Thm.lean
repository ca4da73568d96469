import Verif.Engine.Lemmas
import Mathlib.Algebra.Group.TypeTags.Basic

/-! # C19: pairwise rewriting preserves products -/

namespace QNET.Engine

open QNET.Perm (Res Err)

variable {α M : Type} [Monoid M]

/-- What the operands of an outcome multiply to: a finished object counts as itself. -/
def Outcome.value (v : α → M) : Outcome α → M
  | .single x => v x
  | .operands l => (l.map v).prod

variable {v : α → M} {rule : α → α → Res (Option α)} {ne : α} {neutral : α → Bool} {flat : α → Option (List α)}

theorem prod_fun {l : List α} {m : M} : Prod (fun x a => v x = a) l m ↔ (l.map v).prod = m := by
  induction l generalizing m with
  | nil => simp [prod_nil_iff, eq_comm]
  | cons x l ih =>
    rw [prod_cons_iff]
    constructor
    · rintro ⟨a, b, h1, h2, rfl⟩
      rw [ih] at h2
      simp [h1, h2]
    · intro h
      exact ⟨v x, (l.map v).prod, rfl, ih.mpr rfl, by rw [← h]; simp⟩

theorem outcome_fun {o : Outcome α} {m : M} (h : OutcomeVal (fun x a => v x = a) o m) : o.value v = m := by
  cases o with
  | single x => exact h
  | operands l => exact prod_fun.mp h

/-- C19: Let `v` be any interpretation of operands in any monoid under which (1) every binary rule that fires preserves the
product of the two operands, (2) what the class regards as neutral has value 1, and (3) an instance of the class has the
product of its operands as value. Then the simplified operand list - flattened, filtered, and pairwise rewritten with
backtracking, to any recursion depth - has the same product as the input. -/
theorem C19_product_preserved
    (hrule : ∀ x y r, rule x y = .ok (some r) → v r = v x * v y)
    (hne : v ne = 1) (hneutral : ∀ r, neutral r = true → v r = 1)
    (hflat : ∀ r l, flat r = some l → v r = (l.map v).prod)
    {fuel : Nat} {ops : List α} {o : Outcome α} (h : createAssoc rule ne neutral flat fuel ops = .ok o) :
    o.value v = (ops.map v).prod := by
  have hs : Sound (fun x a => v x = a) rule neutral flat :=
    ⟨fun x y r a b hx hy hr => by rw [hrule x y r hr, hx, hy], fun r a hn ha => by rw [← ha, hneutral r hn],
      fun r l a hl ha => by rw [prod_fun, ← hflat r l hl, ha]⟩
  have h1 : Prod (fun x a => v x = a) (assoc flat ops) (ops.map v).prod := prod_assoc hs.flat (prod_fun.mpr rfl)
  have h2 := filterNeutral_sound hs.neutral (ne := ne) hne h1
  unfold createAssoc at h
  cases e : filterNeutral ne neutral (assoc flat ops) with
  | single x =>
    rw [e] at h h2
    injection h with h; subst h
    exact outcome_fun h2
  | operands l =>
    rw [e] at h h2
    exact outcome_fun (matchReplaceBinary_sound hs hne h2 h)

/-- C19: on exit no neighbouring pair of operands is reducible, if that holds for the operands of compound replacements. -/
theorem C19_irreducible
    (hflat : ∀ x y r l, rule x y = .ok (some r) → flat r = some l → l.IsChain (fun x y => rule x y = .ok none))
    {fuel : Nat} {ops l : List α} (h : createAssoc rule ne neutral flat fuel ops = .ok (.operands l)) :
    l.IsChain (fun x y => rule x y = .ok none) ∧ 2 ≤ l.length := by
  unfold createAssoc at h
  cases e : filterNeutral ne neutral (assoc flat ops) with
  | single x => rw [e] at h; injection h with h; cases h
  | operands l' =>
    rw [e] at h
    unfold matchReplaceBinary at h
    simp only at h
    cases e1 : reduce rule neutral flat fuel l' with
    | error e' => rw [e1] at h; cases h
    | ok m =>
      rw [e1] at h
      match m, e1 with
      | [], _ => injection h with h; cases h
      | [x], _ => injection h with h; cases h
      | x :: y :: m, e1 =>
        injection h with h
        injection h with h
        subst h
        exact ⟨reduce_irreducible hflat _ _ _ e1, by simp⟩

/-- C19: a larger recursion limit does not change a result. -/
theorem C19_depth_irrelevant {f f' : Nat} {ops : List α} {o : Outcome α} (hle : f ≤ f')
    (h : createAssoc rule ne neutral flat f ops = .ok o) : createAssoc rule ne neutral flat f' ops = .ok o := by
  unfold createAssoc at h ⊢
  cases e : filterNeutral ne neutral (assoc flat ops) with
  | single x => rw [e] at h; exact h
  | operands l =>
    rw [e] at h
    unfold matchReplaceBinary at h ⊢
    simp only at h ⊢
    cases e1 : reduce rule neutral flat f l with
    | error e' => rw [e1] at h; cases h
    | ok m => rw [e1] at h; rw [reduce_mono _ _ _ _ hle e1]; exact h

/-! A concrete instance: words over `Int` with the rules `n, -n → 0` (neutral), `n, n → 2n`; value: the free-group-like
evaluation in `Multiplicative Int`. -/

/-- sample rule set -/
def sampleRule (x y : Int) : Res (Option Int) := if x + y = 0 then .ok (some 0) else if x = y then .ok (some (2 * x)) else .ok none

example : createAssoc sampleRule 0 (fun x => x == 0) (fun _ => none) 10 [3, 0, 1, 1, -2, 5] = .ok (.operands [3, 5]) := by rfl
example : ∀ x y r : Int, sampleRule x y = .ok (some r) → Multiplicative.ofAdd r = Multiplicative.ofAdd x * Multiplicative.ofAdd y := by
  intro x y r h
  rw [← ofAdd_add]
  congr 1
  unfold sampleRule at h
  split at h
  · injection h with h; injection h with h; omega
  · split at h
    · injection h with h; injection h with h; omega
    · injection h with h; cases h

end QNET.Engine
