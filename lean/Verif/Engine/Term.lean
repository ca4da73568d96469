import Verif.Engine.Thm
import Mathlib.Order.WellFounded
import Mathlib.Order.Defs.LinearOrder

/-!
# Termination of the rewriting engine (C19)

A measure on lists of operands that decreases with every rewrite, in every context, bounds the recursion of `match_replace_binary`.
-/

namespace QNET.Engine

open QNET.Perm (Res Err)

variable {α : Type}

/-- for every sufficiently large recursion limit, the call returns `r` -/
def Ev {γ : Type} (f : ℕ → Res γ) (r : γ) : Prop := ∃ N, ∀ n, N ≤ n → f n = .ok r

/-- what replaces two operands that are rewritten to `r` (lines 412-421): nothing if `r` is neutral, its operands if it is of the same class, or `r` -/
def repl (neutral : α → Bool) (flat : α → Option (List α)) (r : α) : List α := if neutral r then [] else (flat r).getD [r]

/-- The measure `m` decreases with every application of a rule, in every context, for all pairs of operands whose measure is at most `m0`; and for these,
rules do not fail. The rules may themselves have a recursion limit. -/
structure Decreasing {β : Type} [Preorder β] (rule : ℕ → α → α → Res (Option α)) (neutral : α → Bool) (flat : α → Option (List α)) (m : List α → β)
    (m0 : β) : Prop where
  mono : ∀ p l q, m l ≤ m (p ++ l ++ q)
  total : ∀ x y, m [x, y] ≤ m0 → ∃ o, Ev (fun n => rule n x y) o
  dec : ∀ x y r, m [x, y] ≤ m0 → Ev (fun n => rule n x y) (some r) → ∀ p q, m (p ++ repl neutral flat r ++ q) < m (p ++ [x, y] ++ q)

variable {β : Type} [Preorder β] [WellFoundedLT β] {rule : ℕ → α → α → Res (Option α)} {neutral : α → Bool} {flat : α → Option (List α)} {m : List α → β} {m0 : β}

omit [WellFoundedLT β] in
theorem Decreasing.mono_right (h : Decreasing rule neutral flat m m0) (l q : List α) : m l ≤ m (l ++ q) := by simpa using h.mono [] l q

omit [WellFoundedLT β] in
theorem Decreasing.mono_left (h : Decreasing rule neutral flat m m0) (p l : List α) : m l ≤ m (p ++ l) := by simpa using h.mono p l []

/-- the same with separate limits for the rules and the engine -/
def Ev2 {γ : Type} (f : ℕ → ℕ → Res γ) (r : γ) : Prop := ∃ N, ∀ n k, N ≤ n → N ≤ k → f n k = .ok r

theorem combine_nil_left (ru : α → α → Res (Option α)) (k : ℕ) (b : List α) : combine ru neutral flat (k + 1) [] b = .ok b := by simp [combine]

theorem combine_nil_right (ru : α → α → Res (Option α)) (k : ℕ) (a : List α) : combine ru neutral flat (k + 1) a [] = .ok a := by
  rw [combine.eq_def]
  dsimp only
  cases a.getLast? <;> simp

theorem combine_none {ru : α → α → Res (Option α)} {x y : α} (hr : ru x y = .ok none) (k : ℕ) (a b : List α) :
    combine ru neutral flat (k + 1) (a ++ [x]) (y :: b) = .ok (a ++ [x, y] ++ b) := by
  rw [combine.eq_def]
  dsimp only
  rw [List.getLast?_concat]
  simp [hr]

theorem combine_neutral {ru : α → α → Res (Option α)} {x y r : α} (hr : ru x y = .ok (some r)) (hn : neutral r = true) (k : ℕ) (a b : List α) :
    combine ru neutral flat (k + 1) (a ++ [x]) (y :: b) = combine ru neutral flat k a b := by
  rw [combine.eq_def]
  dsimp only
  rw [List.getLast?_concat]
  simp [hr, hn]

theorem combine_some {ru : α → α → Res (Option α)} {x y r : α} (hr : ru x y = .ok (some r)) (hn : neutral r = false) (k : ℕ) (a b : List α) :
    combine ru neutral flat (k + 1) (a ++ [x]) (y :: b) = combine ru neutral flat k a ((flat r).getD [r]) >>= fun m => combine ru neutral flat k m b := by
  rw [combine.eq_def]
  dsimp only
  rw [List.getLast?_concat]
  simp only [hr, hn, Bool.false_eq_true, if_false, List.dropLast_concat]
  cases combine ru neutral flat k a ((flat r).getD [r]) <;> rfl

theorem combine_ev (h : Decreasing rule neutral flat m m0) : ∀ (k : β) (a b : List α), m (a ++ b) = k → m (a ++ b) ≤ m0 →
    ∃ l, Ev2 (fun n f => combine (rule n) neutral flat f a b) l ∧ ∀ p q, m (p ++ l ++ q) ≤ m (p ++ (a ++ b) ++ q) := by
  intro k
  induction k using WellFoundedLT.induction with
  | ind k ih =>
  intro a b hk hb
  rcases List.eq_nil_or_concat a with rfl | ⟨a', x, rfl⟩
  · refine ⟨b, ⟨1, fun n f _ hf => ?_⟩, fun p q => le_rfl⟩
    obtain ⟨f, rfl⟩ : ∃ f', f = f' + 1 := ⟨f - 1, by omega⟩
    exact combine_nil_left _ _ _
  cases b with
  | nil =>
    refine ⟨a'.concat x, ⟨1, fun n f _ hf => ?_⟩, fun p q => by simp⟩
    obtain ⟨f, rfl⟩ : ∃ f', f = f' + 1 := ⟨f - 1, by omega⟩
    exact combine_nil_right _ _ _
  | cons y b' =>
    rw [List.concat_eq_append] at *
    have e0 : a' ++ [x] ++ y :: b' = a' ++ [x, y] ++ b' := by simp
    rw [e0] at hk hb ⊢
    have hxy : m [x, y] ≤ m0 := le_trans (h.mono a' [x, y] b') hb
    obtain ⟨o, No, ho⟩ := h.total x y hxy
    cases o with
    | none =>
      refine ⟨a' ++ [x, y] ++ b', ⟨No + 1, fun n f hn hf => ?_⟩, fun p q => le_rfl⟩
      obtain ⟨f, rfl⟩ : ∃ f', f = f' + 1 := ⟨f - 1, by omega⟩
      exact combine_none (ho n (by omega)) f a' b'
    | some r =>
      have hdec := h.dec x y r hxy ⟨No, ho⟩
      cases hn : neutral r with
      | true =>
        have hr : repl neutral flat r = [] := by simp [repl, hn]
        rw [hr] at hdec
        simp only [List.append_nil] at hdec
        have hlt : m (a' ++ b') < m (a' ++ [x, y] ++ b') := hdec a' b'
        obtain ⟨l, ⟨N, hN⟩, hl⟩ := ih _ (hk ▸ hlt) a' b' rfl (le_trans hlt.le hb)
        refine ⟨l, ⟨max No N + 1, fun n f hn' hf => ?_⟩, fun p q => le_trans (hl p q) ?_⟩
        · obtain ⟨f, rfl⟩ : ∃ f', f = f' + 1 := ⟨f - 1, by omega⟩
          show combine (rule n) neutral flat (f + 1) (a' ++ [x]) (y :: b') = _
          rw [combine_neutral (ho n (by omega)) hn]
          exact hN n f (by omega) (by omega)
        · have := hdec (p ++ a') (b' ++ q)
          simp only [List.append_assoc] at this ⊢
          exact this.le
      | false =>
        have hr : repl neutral flat r = (flat r).getD [r] := by simp [repl, hn]
        rw [hr] at hdec
        have hlt : m (a' ++ (flat r).getD [r] ++ b') < m (a' ++ [x, y] ++ b') := hdec a' b'
        have hlt1 : m (a' ++ (flat r).getD [r]) < m (a' ++ [x, y] ++ b') := lt_of_le_of_lt (h.mono_right _ b') hlt
        obtain ⟨l1, ⟨N1, hN1⟩, hl1⟩ := ih _ (hk ▸ hlt1) a' ((flat r).getD [r]) rfl (le_trans hlt1.le hb)
        have hle2 : m (l1 ++ b') ≤ m (a' ++ (flat r).getD [r] ++ b') := by simpa using hl1 [] b'
        have hlt2 := lt_of_le_of_lt hle2 hlt
        obtain ⟨l2, ⟨N2, hN2⟩, hl2⟩ := ih _ (hk ▸ hlt2) l1 b' rfl (le_trans hlt2.le hb)
        refine ⟨l2, ⟨max No (max N1 N2) + 1, fun n f hn' hf => ?_⟩, fun p q => le_trans (hl2 p q) ?_⟩
        · obtain ⟨f, rfl⟩ : ∃ f', f = f' + 1 := ⟨f - 1, by omega⟩
          show combine (rule n) neutral flat (f + 1) (a' ++ [x]) (y :: b') = _
          have h1 : combine (rule n) neutral flat f a' ((flat r).getD [r]) = .ok l1 := hN1 n f (by omega) (by omega)
          rw [combine_some (ho n (by omega)) hn, h1]
          exact hN2 n f (by omega) (by omega)
        · have h3 := hl1 p (b' ++ q)
          have h4 := hdec (p ++ a') (b' ++ q)
          simp only [List.append_assoc] at h3 h4 ⊢
          exact le_trans h3 h4.le

theorem reduce_ev (h : Decreasing rule neutral flat m m0) : ∀ (k : ℕ) (ops : List α), ops.length = k → m ops ≤ m0 →
    ∃ l, Ev2 (fun n f => reduce (rule n) neutral flat f ops) l ∧ ∀ p q, m (p ++ l ++ q) ≤ m (p ++ ops ++ q) := by
  intro k
  induction k using Nat.strong_induction_on with
  | _ k ih =>
  intro ops hk hm
  by_cases h1 : ops.length ≤ 1
  · refine ⟨ops, ⟨1, fun n f _ hf => ?_⟩, fun p q => le_rfl⟩
    obtain ⟨f, rfl⟩ : ∃ f', f = f' + 1 := ⟨f - 1, by omega⟩
    show reduce (rule n) neutral flat (f + 1) ops = _
    rw [reduce, if_pos h1]
  · have e : ops.take (ops.length / 2) ++ ops.drop (ops.length / 2) = ops := List.take_append_drop _ _
    have ha : m (ops.take (ops.length / 2)) ≤ m0 := le_trans (by have := h.mono_right (ops.take (ops.length / 2)) (ops.drop (ops.length / 2)); rwa [e] at this) hm
    have hb : m (ops.drop (ops.length / 2)) ≤ m0 := le_trans (by have := h.mono_left (ops.take (ops.length / 2)) (ops.drop (ops.length / 2)); rwa [e] at this) hm
    obtain ⟨a, ⟨N1, hN1⟩, hla⟩ := ih (ops.take (ops.length / 2)).length (by rw [List.length_take]; omega) _ rfl ha
    obtain ⟨b, ⟨N2, hN2⟩, hlb⟩ := ih (ops.drop (ops.length / 2)).length (by rw [List.length_drop]; omega) _ rfl hb
    have hab : ∀ p q, m (p ++ (a ++ b) ++ q) ≤ m (p ++ ops ++ q) := by
      intro p q
      have h1 := hla p (b ++ q)
      have h2 := hlb (p ++ ops.take (ops.length / 2)) q
      simp only [List.append_assoc] at h1 h2 ⊢
      refine le_trans h1 (le_trans h2 ?_)
      rw [← List.append_assoc (ops.take _), e]
    obtain ⟨l, ⟨N3, hN3⟩, hl⟩ := combine_ev h _ a b rfl (le_trans (by simpa using hab [] []) hm)
    refine ⟨l, ⟨max N1 (max N2 N3) + 1, fun n f hn hf => ?_⟩, fun p q => le_trans (hl p q) (hab p q)⟩
    obtain ⟨f, rfl⟩ : ∃ f', f = f' + 1 := ⟨f - 1, by omega⟩
    show reduce (rule n) neutral flat (f + 1) ops = _
    rw [reduce, if_neg h1]
    have e1 : reduce (rule n) neutral flat f (ops.take (ops.length / 2)) = .ok a := hN1 n f (by omega) (by omega)
    have e2 : reduce (rule n) neutral flat f (ops.drop (ops.length / 2)) = .ok b := hN2 n f (by omega) (by omega)
    have e3 : combine (rule n) neutral flat f a b = .ok l := hN3 n f (by omega) (by omega)
    rw [e1, e2]
    exact e3

/-- the operands an outcome stands for -/
def Outcome.list : Outcome α → List α
  | .single x => [x]
  | .operands l => l

/-- the engine terminates, and the measure of its result is not larger than that of its operands -/
theorem matchReplaceBinary_ev (h : Decreasing rule neutral flat m m0) (ne : α) (ops : List α) (hm : m ops ≤ m0) :
    ∃ o, Ev2 (fun n f => matchReplaceBinary (rule n) ne neutral flat f ops) o ∧
      ((∃ l, (o = .single ne ∧ l = [] ∨ o.list = l) ∧ ∀ p q, m (p ++ l ++ q) ≤ m (p ++ ops ++ q))) := by
  obtain ⟨l, ⟨N, hN⟩, hl⟩ := reduce_ev h _ ops rfl hm
  match l, hN, hl with
  | [], hN, hl =>
    refine ⟨.single ne, ⟨N, fun n f hn hf => ?_⟩, [], Or.inl ⟨rfl, rfl⟩, hl⟩
    have e : reduce (rule n) neutral flat f ops = .ok [] := hN n f hn hf
    show matchReplaceBinary (rule n) ne neutral flat f ops = _
    unfold matchReplaceBinary
    rw [e]
  | [x], hN, hl =>
    refine ⟨.single x, ⟨N, fun n f hn hf => ?_⟩, [x], Or.inr rfl, hl⟩
    have e : reduce (rule n) neutral flat f ops = .ok [x] := hN n f hn hf
    show matchReplaceBinary (rule n) ne neutral flat f ops = _
    unfold matchReplaceBinary
    rw [e]
  | x :: y :: l, hN, hl =>
    refine ⟨.operands (x :: y :: l), ⟨N, fun n f hn hf => ?_⟩, _, Or.inr rfl, hl⟩
    have e : reduce (rule n) neutral flat f ops = .ok (x :: y :: l) := hN n f hn hf
    show matchReplaceBinary (rule n) ne neutral flat f ops = _
    unfold matchReplaceBinary
    rw [e]

/-- C19: if no rule raises an exception and some measure of lists of operands decreases with every application of a rule in every context (and is not
larger for a part of a list), then the simplification of every list of operands terminates without error; the result does not depend on the recursion
limit, if the limit is large enough. -/
theorem C19_terminates {ru : α → α → Res (Option α)} {ne : α}
    (hmono : ∀ p l q, m l ≤ m (p ++ l ++ q)) (htotal : ∀ x y, ∃ o, ru x y = .ok o)
    (hdec : ∀ x y r, ru x y = .ok (some r) → ∀ p q, m (p ++ (if neutral r then [] else (flat r).getD [r]) ++ q) < m (p ++ [x, y] ++ q))
    (ops : List α) : ∃ N o, ∀ n, N ≤ n → createAssoc ru ne neutral flat n ops = .ok o := by
  have hd : ∀ m0, Decreasing (fun _ => ru) neutral flat m m0 := fun m0 =>
    ⟨hmono, fun x y _ => by obtain ⟨o, ho⟩ := htotal x y; exact ⟨o, 0, fun _ _ => ho⟩,
      fun x y r _ ⟨N, hN⟩ p q => hdec x y r (hN N le_rfl) p q⟩
  unfold createAssoc
  cases filterNeutral ne neutral (assoc flat ops) with
  | single x => exact ⟨0, .single x, fun _ _ => rfl⟩
  | operands l =>
    obtain ⟨o, ⟨N, hN⟩, -⟩ := matchReplaceBinary_ev (hd (m l)) ne l le_rfl
    exact ⟨N, o, fun n hn => hN n n hn hn⟩

/-! ### The hypotheses are satisfiable: adding up numbers of the same parity -/

/-- numbers of the same parity are added up, `0` is neutral, there is no nesting -/
def sumRule (x y : ℕ) : Res (Option ℕ) := .ok (if x % 2 = y % 2 then some (x + y) else none)

example (ops : List ℕ) : ∃ N o, ∀ n, N ≤ n → createAssoc sumRule 0 (fun x => x == 0) (fun _ => none) n ops = .ok o := by
  refine C19_terminates (m := List.length) ?_ ?_ ?_ ops
  · intro p l q; simp only [List.length_append]; omega
  · intro x y; exact ⟨_, rfl⟩
  · intro x y r _ p q
    split <;> simp <;> omega

end QNET.Engine
