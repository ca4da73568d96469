import Verif.Circuit.Term

/-!
# Termination of the rewriting engine for a decreasing rule set

Tools for C78: if the operands that a rule puts in the place of two operands are smaller in a suitable sense, then
`match_replace_binary` (`algebraic_properties.py` lines 353-421) terminates.
-/

namespace QNET.Circuit

open QNET.Perm QNET.CPerm

section
variable {α κ : Type} [LinearOrder κ] [WellFoundedLT κ]

/-- the operands that replace two operands for which a rule returned `r` (lines 411-417) -/
def rest (neutral : α → Bool) (flat : α → Option (List α)) (r : α) : List α := if neutral r then [] else (flat r).getD [r]

/-- no rule applies to `x`, `y` -/
def NoRule (rule : ℕ → α → α → Res (Option α)) (x y : α) : Prop := ∃ f, rule f x y = .ok none

/-- what is known about a rule set -/
structure Decr (rule : ℕ → α → α → Res (Option α)) (neutral : α → Bool) (flat : α → Option (List α)) (P : α → Prop)
    (le lt : List α → List α → Prop) (Bd : List α → Prop) (key : List α → κ) : Prop where
  mono : ∀ f f', f ≤ f' → ∀ x y, Le (rule f x y) (rule f' x y)
  conv : ∀ x y, P x → P y → Bd [x, y] → ∃ f o, rule f x y = .ok o ∧
    ∀ r, o = some r → (∀ z ∈ rest neutral flat r, P z) ∧ (rest neutral flat r).IsChain (NoRule rule) ∧ lt (rest neutral flat r) [x, y]
  le_refl : ∀ l, le l l
  le_trans : ∀ {k l m}, le k l → le l m → le k m
  lt_le : ∀ {l m}, lt l m → le l m
  ctx : ∀ {l m} a b, le l m → le (a ++ l ++ b) (a ++ m ++ b)
  key_ctx : ∀ {l m} a b, lt l m → key (a ++ l ++ b) < key (a ++ m ++ b)
  key_le : ∀ {l m}, le l m → key l ≤ key m
  key_sub : ∀ a b, key a ≤ key (a ++ b)
  bd_le : ∀ {l m}, le l m → Bd m → Bd l
  bd_left : ∀ {a b}, Bd (a ++ b) → Bd a
  bd_right : ∀ {a b}, Bd (a ++ b) → Bd b

variable {rule : ℕ → α → α → Res (Option α)} {neutral : α → Bool} {flat : α → Option (List α)} {P : α → Prop}
  {le lt : List α → List α → Prop} {Bd : List α → Prop} {key : List α → κ}

/-- the result for `l` is `l`, or is below a list that arises from `l` by one replacement -/
def StepTo (rule : ℕ → α → α → Res (Option α)) (neutral : α → Bool) (flat : α → Option (List α)) (le : List α → List α → Prop) (l m : List α) : Prop :=
  m = l ∨ ∃ l1 x y l2 f r, l = l1 ++ x :: y :: l2 ∧ rule f x y = .ok (some r) ∧ le m (l1 ++ rest neutral flat r ++ l2)

/-- what is known about the result `m` for the operands `l` -/
structure Res2 (rule : ℕ → α → α → Res (Option α)) (neutral : α → Bool) (flat : α → Option (List α)) (P : α → Prop) (le : List α → List α → Prop) (l m : List α) : Prop where
  all : ∀ x ∈ m, P x
  chain : m.IsChain (NoRule rule)
  below : le m l
  step : StepTo rule neutral flat le l m

theorem decr_combine (h : Decr rule neutral flat P le lt Bd key) (k : κ) : ∀ a b : List α, key (a ++ b) = k → (∀ x ∈ a ++ b, P x) →
    a.IsChain (NoRule rule) → b.IsChain (NoRule rule) → Bd (a ++ b) →
    ∃ f m, Engine.combine (rule f) neutral flat f a b = .ok m ∧ Res2 rule neutral flat P le (a ++ b) m := by
  induction k using WellFoundedLT.induction with
  | _ k ih =>
    intro a b hk hP ca cb hB
    rcases List.eq_nil_or_concat a with rfl | ⟨l, x, rfl⟩
    · exact ⟨1, b, rfl, ⟨hP, cb, h.le_refl _, .inl rfl⟩⟩
    rw [List.concat_eq_append] at *
    have hlast : (l ++ [x]).getLast? = some x := by simp
    have hdrop : (l ++ [x]).dropLast = l := by simp
    cases b with
    | nil =>
      refine ⟨1, (l ++ [x]) ++ [], ?_, ⟨hP, by simpa using ca, h.le_refl _, .inl rfl⟩⟩
      unfold Engine.combine
      rw [hlast]
    | cons y b =>
      have hx : P x := hP x (by simp)
      have hy : P y := hP y (by simp)
      have hlP : ∀ z ∈ l, P z := fun z hz => hP z (by simp [hz])
      have hbP : ∀ z ∈ b, P z := fun z hz => hP z (by simp [hz])
      have e0 : (l ++ [x]) ++ y :: b = l ++ [x, y] ++ b := by simp
      have hB' := hB
      rw [e0] at hB'
      obtain ⟨f1, o, e1, hr⟩ := h.conv x y hx hy (h.bd_right (h.bd_left hB'))
      have cl : l.IsChain (NoRule rule) := ca.left_of_append
      have cb' : b.IsChain (NoRule rule) := cb.tail
      cases o with
      | none =>
        refine ⟨f1 + 1, _, ?_, ⟨hP, ?_, h.le_refl _, .inl rfl⟩⟩
        · unfold Engine.combine
          rw [hlast]
          dsimp only
          rw [h.mono _ _ (Nat.le_succ f1) x y _ e1]
        · rw [List.isChain_append]
          refine ⟨ca, cb, fun u hu v hv => ?_⟩
          rw [hlast] at hu
          cases hu
          cases hv
          exact ⟨f1, e1⟩
      | some r =>
        obtain ⟨hrP, hrC, hrl⟩ := hr r rfl
        have klt := h.key_ctx l b hrl
        rw [← e0, hk] at klt
        have hBr : Bd (l ++ rest neutral flat r ++ b) := h.bd_le (h.ctx l b (h.lt_le hrl)) hB'
        by_cases hn : neutral r = true
        · have hrest : rest neutral flat r = [] := by rw [rest, if_pos hn]
          rw [hrest, List.append_nil] at klt hBr
          obtain ⟨f2, m, e2, o2⟩ := ih _ klt l b rfl (fun z hz => (List.mem_append.mp hz).elim (hlP z) (hbP z)) cl cb' hBr
          have hle : le m (l ++ rest neutral flat r ++ b) := by rw [hrest, List.append_nil]; exact o2.below
          refine ⟨max f1 f2 + 1, m, ?_, ⟨o2.all, o2.chain, ?_, .inr ⟨l, x, y, b, f1, r, by simp, e1, hle⟩⟩⟩
          · unfold Engine.combine
            rw [hlast]
            dsimp only
            rw [h.mono f1 (max f1 f2 + 1) (by omega) x y _ e1]
            dsimp only
            rw [if_pos hn, hdrop]
            exact combine_mono (h.mono f2 (max f1 f2 + 1) (by omega)) _ _ _ _ (by omega) _ _ _ e2
          · rw [e0]
            exact h.le_trans hle (h.ctx l b (h.lt_le hrl))
        · have hrest : rest neutral flat r = (flat r).getD [r] := by rw [rest, if_neg hn]
          have k1 : key (l ++ rest neutral flat r) < k := lt_of_le_of_lt (h.key_sub _ b) klt
          obtain ⟨f2, m, e2, o2⟩ := ih _ k1 l (rest neutral flat r) rfl (fun z hz => (List.mem_append.mp hz).elim (hlP z) (hrP z)) cl hrC (h.bd_left hBr)
          have hmb : le (m ++ b) (l ++ rest neutral flat r ++ b) := by
            have := h.ctx [] b o2.below
            simpa using this
          obtain ⟨f3, m', e3, o3⟩ := ih _ (lt_of_le_of_lt (h.key_le hmb) klt) m b rfl (fun z hz => (List.mem_append.mp hz).elim (o2.all z) (hbP z)) o2.chain cb' (h.bd_le hmb hBr)
          have hle := h.le_trans o3.below hmb
          refine ⟨max f1 (max f2 f3) + 1, m', ?_, ⟨o3.all, o3.chain, ?_, .inr ⟨l, x, y, b, f1, r, by simp, e1, hle⟩⟩⟩
          · rw [hrest] at e2
            unfold Engine.combine
            rw [hlast]
            dsimp only
            rw [h.mono f1 (max f1 (max f2 f3) + 1) (by omega) x y _ e1]
            dsimp only
            rw [if_neg hn, hdrop]
            rw [combine_mono (h.mono f2 (max f1 (max f2 f3) + 1) (by omega)) neutral flat f2 (max f1 (max f2 f3)) (by omega) _ _ _ e2]
            exact combine_mono (h.mono f3 (max f1 (max f2 f3) + 1) (by omega)) _ _ _ _ (by omega) _ _ _ e3
          · rw [e0]
            exact h.le_trans hle (h.ctx l b (h.lt_le hrl))

theorem decr_reduce (h : Decr rule neutral flat P le lt Bd key) : ∀ (k : ℕ) (l : List α), l.length ≤ k → (∀ x ∈ l, P x) → Bd l →
    ∃ f m, Engine.reduce (rule f) neutral flat f l = .ok m ∧ Res2 rule neutral flat P le l m
  | k, l, hk, hP, hB => by
    by_cases hl : l.length ≤ 1
    · refine ⟨1, l, ?_, ⟨hP, ?_, h.le_refl _, .inl rfl⟩⟩
      · rw [Engine.reduce, if_pos hl]
      · match l, hl with
        | [], _ => exact .nil
        | [x], _ => exact .singleton x
        | _ :: _ :: _, hl => simp at hl
    · match k with
      | 0 => omega
      | k + 1 =>
        have h1 : (l.take (l.length / 2)).length ≤ k := by rw [List.length_take]; omega
        have h2 : (l.drop (l.length / 2)).length ≤ k := by rw [List.length_drop]; omega
        have hsplit := List.take_append_drop (l.length / 2) l
        have hB' := hB
        rw [← hsplit] at hB'
        obtain ⟨f1, a, e1, o1⟩ := decr_reduce h k _ h1 (fun x hx => hP x (List.mem_of_mem_take hx)) (h.bd_left hB')
        obtain ⟨f2, b, e2, o2⟩ := decr_reduce h k _ h2 (fun x hx => hP x (List.mem_of_mem_drop hx)) (h.bd_right hB')
        have la : le (a ++ b) (l.take (l.length / 2) ++ b) := by simpa using h.ctx [] b o1.below
        have lb : ∀ c, le (c ++ b) (c ++ l.drop (l.length / 2)) := fun c => by simpa using h.ctx c [] o2.below
        have hab : le (a ++ b) l := by
          have := h.le_trans la (lb _)
          rwa [hsplit] at this
        obtain ⟨f3, m, e3, o3⟩ := decr_combine h _ a b rfl (fun x hx => (List.mem_append.mp hx).elim (o1.all x) (o2.all x)) o1.chain o2.chain (h.bd_le hab hB)
        refine ⟨max f1 (max f2 f3) + 1, m, ?_, ⟨o3.all, o3.chain, h.le_trans o3.below hab, ?_⟩⟩
        · rw [Engine.reduce, if_neg hl]
          rw [reduce_mono (h.mono f1 (max f1 (max f2 f3) + 1) (by omega)) neutral flat f1 (max f1 (max f2 f3)) (by omega) _ _ e1]
          dsimp only
          rw [reduce_mono (h.mono f2 (max f1 (max f2 f3) + 1) (by omega)) neutral flat f2 (max f1 (max f2 f3)) (by omega) _ _ e2]
          exact combine_mono (h.mono f3 (max f1 (max f2 f3) + 1) (by omega)) _ _ _ _ (by omega) _ _ _ e3
        · rcases o1.step with ha | ⟨l1, x, y, l2, f, r, e, er, hle⟩
          · rcases o2.step with hb | ⟨l1, x, y, l2, f, r, e, er, hle⟩
            · have := o3.step
              rwa [ha, hb, hsplit] at this
            · refine .inr ⟨l.take (l.length / 2) ++ l1, x, y, l2, f, r, ?_, er, ?_⟩
              · conv_lhs => rw [← hsplit, e]
                simp
              · have := h.ctx (l.take (l.length / 2)) [] hle
                simp only [List.append_nil] at this
                rw [ha] at o3
                have := h.le_trans o3.below this
                simpa using this
          · refine .inr ⟨l1, x, y, l2 ++ l.drop (l.length / 2), f, r, ?_, er, ?_⟩
            · conv_lhs => rw [← hsplit, e]
              simp
            · have h1 : le (a ++ b) (l1 ++ rest neutral flat r ++ l2 ++ b) := by simpa using h.ctx [] b hle
              have := h.le_trans o3.below (h.le_trans h1 (lb _))
              simpa using this

end

end QNET.Circuit
