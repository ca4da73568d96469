import Verif.Engine.Model
import Mathlib.Algebra.BigOperators.Group.List.Basic
import Mathlib.Data.List.Forall2
import Mathlib.Data.List.Chain

/-! # Soundness of the rewriting engine, relational form -/

namespace QNET.Engine

open QNET.Perm (Res Err)

variable {α M : Type} [Monoid M]

/-- `l` has the product `m` if its elements have values (in the sense of `V`) with product `m`. -/
def Prod (V : α → M → Prop) (l : List α) (m : M) : Prop := ∃ ms, List.Forall₂ V l ms ∧ ms.prod = m

theorem Prod.nil {V : α → M → Prop} : Prod V [] 1 := ⟨[], .nil, rfl⟩

theorem Prod.cons {V : α → M → Prop} {x : α} {l : List α} {a m : M} (h : V x a) (hl : Prod V l m) : Prod V (x :: l) (a * m) := by
  obtain ⟨ms, h1, rfl⟩ := hl
  exact ⟨a :: ms, .cons h h1, by simp⟩

theorem prod_nil_iff {V : α → M → Prop} {m : M} : Prod V [] m ↔ m = 1 := by
  constructor
  · rintro ⟨ms, h, rfl⟩
    cases h; rfl
  · rintro rfl; exact .nil

theorem prod_cons_iff {V : α → M → Prop} {x : α} {l : List α} {m : M} :
    Prod V (x :: l) m ↔ ∃ a b, V x a ∧ Prod V l b ∧ m = a * b := by
  constructor
  · rintro ⟨ms, h, rfl⟩
    cases h with
    | cons h1 h2 => exact ⟨_, _, h1, ⟨_, h2, rfl⟩, by simp⟩
  · rintro ⟨a, b, h1, h2, rfl⟩
    exact Prod.cons h1 h2

theorem prod_single_iff {V : α → M → Prop} {x : α} {m : M} : Prod V [x] m ↔ V x m := by
  rw [prod_cons_iff]
  constructor
  · rintro ⟨a, b, h1, h2, rfl⟩
    rw [prod_nil_iff] at h2
    rw [h2, mul_one]; exact h1
  · intro h
    exact ⟨m, 1, h, .nil, by simp⟩

theorem prod_append_iff {V : α → M → Prop} {l l' : List α} {m : M} :
    Prod V (l ++ l') m ↔ ∃ a b, Prod V l a ∧ Prod V l' b ∧ m = a * b := by
  induction l generalizing m with
  | nil =>
    simp only [List.nil_append, prod_nil_iff]
    constructor
    · intro h; exact ⟨1, m, rfl, h, by simp⟩
    · rintro ⟨a, b, rfl, h, rfl⟩; simpa using h
  | cons x l ih =>
    simp only [List.cons_append, prod_cons_iff, ih]
    constructor
    · rintro ⟨a, b, h1, ⟨c, d, h2, h3, rfl⟩, rfl⟩
      exact ⟨a * c, d, ⟨a, c, h1, h2, rfl⟩, h3, by rw [mul_assoc]⟩
    · rintro ⟨_, d, ⟨a, c, h1, h2, rfl⟩, h3, rfl⟩
      exact ⟨a, c * d, h1, ⟨c, d, h2, h3, rfl⟩, by rw [mul_assoc]⟩

theorem Prod.append {V : α → M → Prop} {l l' : List α} {a b : M} (h : Prod V l a) (h' : Prod V l' b) : Prod V (l ++ l') (a * b) :=
  prod_append_iff.mpr ⟨a, b, h, h', rfl⟩

/-- the conditions under which the engine preserves products -/
structure Sound (V : α → M → Prop) (rule : α → α → Res (Option α)) (neutral : α → Bool) (flat : α → Option (List α)) : Prop where
  rule : ∀ x y r a b, V x a → V y b → rule x y = .ok (some r) → V r (a * b)
  neutral : ∀ r a, neutral r = true → V r a → a = 1
  flat : ∀ r l a, flat r = some l → V r a → Prod V l a

variable {V : α → M → Prop} {rule : α → α → Res (Option α)} {neutral : α → Bool} {flat : α → Option (List α)}

theorem prod_flat (h : ∀ r l a, flat r = some l → V r a → Prod V l a) {r : α} {a : M} (hr : V r a) :
    Prod V ((flat r).getD [r]) a := by
  cases e : flat r with
  | none => simpa using prod_single_iff.mpr hr
  | some l => simpa using h r l a e hr

theorem prod_assoc (h : ∀ r l a, flat r = some l → V r a → Prod V l a) {ops : List α} {m : M} (ho : Prod V ops m) :
    Prod V (assoc flat ops) m := by
  induction ops generalizing m with
  | nil => exact ho
  | cons x ops ih =>
    obtain ⟨a, b, h1, h2, rfl⟩ := prod_cons_iff.mp ho
    exact Prod.append (prod_flat h h1) (ih h2)

theorem combine_sound (hs : Sound V rule neutral flat) : ∀ (f : Nat) (a b l : List α) (m m' : M),
    Prod V a m → Prod V b m' → combine rule neutral flat f a b = .ok l → Prod V l (m * m') := by
  intro f
  induction f with
  | zero => intro a b l m m' _ _ h; simp [combine] at h
  | succ f ih =>
    intro a b l m m' ha hb h
    have hid : .ok (a ++ b) = (.ok l : Res (List α)) → Prod V l (m * m') := by
      intro e; injection e with e; subst e; exact ha.append hb
    cases hx : a.getLast? with
    | none =>
      unfold combine at h
      simp only [hx] at h
      exact hid h
    | some x =>
      cases b with
      | nil =>
        unfold combine at h
        simp only [hx] at h
        exact hid h
      | cons y b' =>
        unfold combine at h
        simp only [hx] at h
        have hane : a ≠ [] := by rintro rfl; simp at hx
        have hsplit : a = a.dropLast ++ [x] := by
          have := List.dropLast_append_getLast hane
          rw [List.getLast?_eq_some_getLast hane] at hx
          injection hx with hx
          rw [← hx]; exact this.symm
        rw [hsplit] at ha
        obtain ⟨m0, mx, h1, h2, rfl⟩ := prod_append_iff.mp ha
        obtain ⟨my, mb, h3, h4, rfl⟩ := prod_cons_iff.mp hb
        rw [prod_single_iff] at h2
        cases hr : rule x y with
        | error e => rw [hr] at h; cases h
        | ok o =>
          rw [hr] at h
          cases o with
          | none =>
            exact hid h
          | some r =>
            have hv := hs.rule x y r mx my h2 h3 hr
            simp only at h
            split at h
            · rename_i hn
              have := hs.neutral r _ hn hv
              have := ih _ _ _ _ _ h1 h4 h
              rw [show m0 * mx * (my * mb) = m0 * (mx * my) * mb by simp [mul_assoc], hs.neutral r _ hn hv, mul_one]
              exact this
            · cases hc : combine rule neutral flat f a.dropLast ((flat r).getD [r]) with
              | error e => rw [hc] at h; cases h
              | ok l' =>
                rw [hc] at h
                have h5 := ih _ _ _ _ _ h1 (prod_flat hs.flat hv) hc
                have h6 := ih _ _ _ _ _ h5 h4 h
                rw [show m0 * mx * (my * mb) = m0 * (mx * my) * mb by simp [mul_assoc]]
                exact h6

theorem reduce_sound (hs : Sound V rule neutral flat) : ∀ (f : Nat) (ops l : List α) (m : M),
    Prod V ops m → reduce rule neutral flat f ops = .ok l → Prod V l m := by
  intro f
  induction f with
  | zero => intro ops l m _ h; simp [reduce] at h
  | succ f ih =>
    intro ops l m ho h
    unfold reduce at h
    split at h
    · injection h with h; subst h; exact ho
    · rw [← List.take_append_drop (ops.length / 2) ops] at ho
      obtain ⟨a, b, h1, h2, rfl⟩ := prod_append_iff.mp ho
      cases e1 : reduce rule neutral flat f (ops.take (ops.length / 2)) with
      | error e => rw [e1] at h; cases h
      | ok x =>
        rw [e1] at h
        cases e2 : reduce rule neutral flat f (ops.drop (ops.length / 2)) with
        | error e => rw [e2] at h; cases h
        | ok y =>
          rw [e2] at h
          exact combine_sound hs _ _ _ _ _ _ (ih _ _ _ h1 e1) (ih _ _ _ h2 e2) h

/-- the meaning of an outcome -/
def OutcomeVal (V : α → M → Prop) : Outcome α → M → Prop
  | .single x, m => V x m
  | .operands l, m => Prod V l m

theorem matchReplaceBinary_sound (hs : Sound V rule neutral flat) {ne : α} (hne : V ne 1) {f : Nat} {ops : List α} {o : Outcome α} {m : M}
    (ho : Prod V ops m) (h : matchReplaceBinary rule ne neutral flat f ops = .ok o) : OutcomeVal V o m := by
  unfold matchReplaceBinary at h
  cases e : reduce rule neutral flat f ops with
  | error e' => rw [e] at h; cases h
  | ok l =>
    have hl := reduce_sound hs f ops l m ho e
    rw [e] at h
    match l, hl with
    | [], hl => injection h with h; subst h; rw [prod_nil_iff] at hl; rw [hl]; exact hne
    | [x], hl => injection h with h; subst h; exact (prod_single_iff (V := V)).mp hl
    | x :: y :: l, hl => injection h with h; subst h; exact hl

theorem prod_filter {isNeutral : α → Bool} (hn : ∀ r a, isNeutral r = true → V r a → a = 1) {ops : List α} {m : M}
    (ho : Prod V ops m) : Prod V (ops.filter (fun x => !isNeutral x)) m := by
  induction ops generalizing m with
  | nil => exact ho
  | cons x ops ih =>
    obtain ⟨a, b, h1, h2, rfl⟩ := prod_cons_iff.mp ho
    by_cases hx : isNeutral x = true
    · rw [List.filter_cons_of_neg (by simp [hx]), hn x a hx h1, one_mul]; exact ih h2
    · rw [List.filter_cons_of_pos (by simp [hx])]; exact (ih h2).cons h1

theorem filterNeutral_sound {isNeutral : α → Bool} (hn : ∀ r a, isNeutral r = true → V r a → a = 1) {ne : α} (hne : V ne 1)
    {ops : List α} {m : M} (ho : Prod V ops m) : OutcomeVal V (filterNeutral ne isNeutral ops) m := by
  have hf := prod_filter hn ho
  cases ops with
  | nil => rw [prod_nil_iff] at ho; rw [ho]; exact hne
  | cons o ops =>
    unfold filterNeutral
    simp only
    cases e : (o :: ops).filter (fun x => !isNeutral x) with
    | nil =>
      simp only
      rw [e, prod_nil_iff] at hf
      have ho' : isNeutral o = true := by
        by_contra hc
        rw [List.filter_cons_of_pos (by simp [hc])] at e
        cases e
      obtain ⟨a, b, h1, h2, rfl⟩ := prod_cons_iff.mp ho
      rw [hf]
      have := hn o a ho' h1
      rw [this] at h1
      exact h1
    | cons x l =>
      rw [e] at hf
      cases l with
      | nil => simpa [OutcomeVal] using prod_single_iff.mp hf
      | cons y l => exact hf

/-! ### no reducible neighbours remain -/

/-- no neighbouring pair of `l` is reducible -/
def Irreducible (rule : α → α → Res (Option α)) (l : List α) : Prop := l.IsChain (fun x y => rule x y = .ok none)

theorem Irreducible.dropLast {l : List α} (h : Irreducible rule l) : Irreducible rule l.dropLast := by
  rw [List.dropLast_eq_take]; exact h.take _

theorem combine_irreducible (hflat : ∀ x y r l, rule x y = .ok (some r) → flat r = some l → Irreducible rule l) :
    ∀ (f : Nat) (a b l : List α), Irreducible rule a → Irreducible rule b → combine rule neutral flat f a b = .ok l →
      Irreducible rule l := by
  intro f
  induction f with
  | zero => intro a b l _ _ h; simp [combine] at h
  | succ f ih =>
    intro a b l ha hb h
    cases hx : a.getLast? with
    | none =>
      unfold combine at h
      simp only [hx] at h
      injection h with h; subst h
      rw [List.getLast?_eq_none_iff] at hx; subst hx
      simpa using hb
    | some x =>
      cases b with
      | nil =>
        unfold combine at h
        simp only [hx] at h
        injection h with h; subst h
        simpa using ha
      | cons y b' =>
        unfold combine at h
        simp only [hx] at h
        have hb' : Irreducible rule b' := List.IsChain.of_cons hb
        cases hr : rule x y with
        | error e => rw [hr] at h; cases h
        | ok o =>
          rw [hr] at h
          cases o with
          | none =>
            injection h with h; subst h
            unfold Irreducible
            rw [List.isChain_append]
            refine ⟨ha, hb, ?_⟩
            intro u hu v hv
            rw [hx] at hu
            simp only [List.head?_cons] at hv
            cases hu; cases hv
            exact hr
          | some r =>
            simp only at h
            split at h
            · exact ih _ _ _ ha.dropLast hb' h
            · cases hc : combine rule neutral flat f a.dropLast ((flat r).getD [r]) with
              | error e => rw [hc] at h; cases h
              | ok l' =>
                rw [hc] at h
                refine ih _ _ _ (ih _ _ _ ha.dropLast ?_ hc) hb' h
                cases e : flat r with
                | none => simp [Irreducible]
                | some l => simpa using hflat x y r l hr e

theorem reduce_irreducible (hflat : ∀ x y r l, rule x y = .ok (some r) → flat r = some l → Irreducible rule l) :
    ∀ (f : Nat) (ops l : List α), reduce rule neutral flat f ops = .ok l → Irreducible rule l := by
  intro f
  induction f with
  | zero => intro ops l h; simp [reduce] at h
  | succ f ih =>
    intro ops l h
    unfold reduce at h
    split at h
    · rename_i hl
      injection h with h; subst h
      match ops, hl with
      | [], _ => simp [Irreducible]
      | [x], _ => simp [Irreducible]
    · cases e1 : reduce rule neutral flat f (ops.take (ops.length / 2)) with
      | error e => rw [e1] at h; cases h
      | ok x =>
        rw [e1] at h
        cases e2 : reduce rule neutral flat f (ops.drop (ops.length / 2)) with
        | error e => rw [e2] at h; cases h
        | ok y =>
          rw [e2] at h
          exact combine_irreducible hflat _ _ _ _ (ih _ _ e1) (ih _ _ e2) h

/-! ### the recursion depth does not matter -/

theorem combine_mono : ∀ (f f' : Nat) (a b l : List α), f ≤ f' → combine rule neutral flat f a b = .ok l →
    combine rule neutral flat f' a b = .ok l := by
  intro f
  induction f with
  | zero => intro f' a b l _ h; simp [combine] at h
  | succ f ih =>
    intro f' a b l hle h
    obtain ⟨g, rfl⟩ : ∃ g, f' = g + 1 := ⟨f' - 1, by omega⟩
    have hle' : f ≤ g := by omega
    unfold combine at h ⊢
    cases hx : a.getLast? with
    | none => rw [hx] at h; exact h
    | some x =>
      cases b with
      | nil => rw [hx] at h; exact h
      | cons y b' =>
        rw [hx] at h
        simp only at h ⊢
        cases hr : rule x y with
        | error e => rw [hr] at h; cases h
        | ok o =>
          rw [hr] at h
          cases o with
          | none => exact h
          | some r =>
            simp only at h ⊢
            split at h
            · rename_i hn
              rw [if_pos hn]
              exact ih _ _ _ _ hle' h
            · rename_i hn
              rw [if_neg hn]
              cases hc : combine rule neutral flat f a.dropLast ((flat r).getD [r]) with
              | error e => rw [hc] at h; cases h
              | ok l' =>
                rw [hc] at h
                rw [ih _ _ _ _ hle' hc]
                exact ih _ _ _ _ hle' h

theorem reduce_mono : ∀ (f f' : Nat) (ops l : List α), f ≤ f' → reduce rule neutral flat f ops = .ok l →
    reduce rule neutral flat f' ops = .ok l := by
  intro f
  induction f with
  | zero => intro f' ops l _ h; simp [reduce] at h
  | succ f ih =>
    intro f' ops l hle h
    obtain ⟨g, rfl⟩ : ∃ g, f' = g + 1 := ⟨f' - 1, by omega⟩
    have hle' : f ≤ g := by omega
    unfold reduce at h ⊢
    split at h
    · rename_i hl; rw [if_pos hl]; exact h
    · rename_i hl
      rw [if_neg hl]
      cases e1 : reduce rule neutral flat f (ops.take (ops.length / 2)) with
      | error e => rw [e1] at h; cases h
      | ok x =>
        rw [e1] at h
        cases e2 : reduce rule neutral flat f (ops.drop (ops.length / 2)) with
        | error e => rw [e2] at h; cases h
        | ok y =>
          rw [e2] at h
          rw [ih _ _ _ hle' e1, ih _ _ _ hle' e2]
          exact combine_mono _ _ _ _ _ hle' h

end QNET.Engine
