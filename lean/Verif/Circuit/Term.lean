import Verif.Circuit.Mono
import Verif.Circuit.SeriesRules
import Verif.Circuit.Create
import Verif.Circuit.Spec
import Verif.Util.KernelRfl

/-!
# Simplification of circuits without permutations and feedback terminates (C78)
-/

namespace QNET.Circuit

open QNET.Perm QNET.CPerm CircAlg

variable {A : Type} [Ring A] [StarRing A] [Algebra ℂ A]

/-! ### the engine -/

section Engine
variable {α : Type}

/-- what is known about a rule set: it decides every pair of operands of the kind `P` for some recursion depth, and what it returns is of the kind `P` and `D` and no product -/
structure RuleConv (rule : ℕ → α → α → Res (Option α)) (neutral : α → Bool) (flat : α → Option (List α)) (P D : α → Prop) (wt : α → ℕ) : Prop where
  mono : ∀ f f', f ≤ f' → ∀ x y, Le (rule f x y) (rule f' x y)
  conv : ∀ x y, P x → P y → ∃ f o, rule f x y = .ok o ∧ ∀ r, o = some r → P r ∧ D r ∧ flat r = none ∧ wt r = wt x + wt y
  neutral : ∀ r, neutral r = true → wt r = 0

variable {rule : ℕ → α → α → Res (Option α)} {neutral : α → Bool} {flat : α → Option (List α)} {P D : α → Prop} {wt : α → ℕ}

/-- what is known about the result for the operands `l` -/
structure Out (neutral : α → Bool) (P D : α → Prop) (wt : α → ℕ) (l m : List α) : Prop where
  all : ∀ x ∈ m, P x
  len : m.length ≤ l.length
  wt : (m.map wt).sum = (l.map wt).sum
  nil : m = [] → l = [] ∨ ∃ r, P r ∧ D r ∧ neutral r = true
  one : ∀ x, m = [x] → l = [x] ∨ D x ∨ ∃ r, P r ∧ D r ∧ neutral r = true

theorem combine_conv (h : RuleConv rule neutral flat P D wt) : ∀ (k : ℕ) (a b : List α), a.length + b.length ≤ k → (∀ x ∈ a ++ b, P x) →
    ∃ f m, Engine.combine (rule f) neutral flat f a b = .ok m ∧ Out neutral P D wt (a ++ b) m
  | k, [], b, _, hP => ⟨1, b, by rfl, ⟨hP, by simp, by simp, fun h => .inl (by simpa using h), fun x h => .inl (by simpa using h)⟩⟩
  | k, a :: as, [], _, hP => by
    refine ⟨1, (a :: as) ++ [], ?_, ⟨hP, by simp, by simp, fun h => .inl h, fun x h => .inl h⟩⟩
    unfold Engine.combine
    cases (a :: as).getLast? <;> rfl
  | 0, a :: as, y :: b, hk, _ => by simp at hk
  | k + 1, a :: as, y :: b, hk, hP => by
    obtain ⟨l, x, hl⟩ : ∃ l x, a :: as = l ++ [x] := ⟨(a :: as).dropLast, (a :: as).getLast (by simp), (List.dropLast_append_getLast (by simp)).symm⟩
    rw [hl] at hk hP ⊢
    have hlast : (l ++ [x]).getLast? = some x := by simp
    have hdrop : (l ++ [x]).dropLast = l := by simp
    have hx : P x := hP x (by simp)
    have hy : P y := hP y (by simp)
    have hlP : ∀ z ∈ l, P z := fun z hz => hP z (by simp [hz])
    have hbP : ∀ z ∈ b, P z := fun z hz => hP z (by simp [hz])
    simp only [List.length_append, List.length_cons, List.length_nil] at hk
    obtain ⟨f1, o, e1, hr⟩ := h.conv x y hx hy
    cases o with
    | none =>
      refine ⟨f1 + 1, _, ?_, ⟨hP, by simp, by simp, fun h => .inl h, fun x h => .inl h⟩⟩
      unfold Engine.combine
      rw [hlast]
      dsimp only
      rw [h.mono _ _ (Nat.le_succ f1) x y _ e1]
    | some r =>
      obtain ⟨hrP, hrD, hrf, hrw⟩ := hr r rfl
      by_cases hn : neutral r = true
      · obtain ⟨f2, m, e2, o2⟩ := combine_conv h k l b (by omega) (fun z hz => (List.mem_append.mp hz).elim (hlP z) (hbP z))
        refine ⟨max f1 f2 + 1, m, ?_, ⟨o2.all, ?_, ?_, fun _ => .inr ⟨r, hrP, hrD, hn⟩, fun _ _ => .inr (.inr ⟨r, hrP, hrD, hn⟩)⟩⟩
        · unfold Engine.combine
          rw [hlast]
          dsimp only
          rw [h.mono f1 (max f1 f2 + 1) (by omega) x y _ e1]
          dsimp only
          rw [if_pos hn, hdrop]
          exact combine_mono (h.mono f2 (max f1 f2 + 1) (by omega)) _ _ _ _ (by omega) _ _ _ e2
        · have := o2.len
          simp only [List.length_append, List.length_cons, List.length_nil] at this ⊢
          omega
        · have := h.neutral r hn
          rw [o2.wt]
          simp only [List.map_append, List.sum_append, List.map_cons, List.sum_cons, List.map_nil, List.sum_nil]
          omega
      · obtain ⟨f2, m, e2, o2⟩ := combine_conv h k l [r] (by simp; omega) (by
          intro z hz
          rcases List.mem_append.mp hz with hz | hz
          · exact hlP z hz
          · rw [List.mem_singleton.mp hz]; exact hrP)
        have hlen := o2.len
        simp only [List.length_append, List.length_cons, List.length_nil] at hlen
        obtain ⟨f3, m', e3, o3⟩ := combine_conv h k m b (by omega) (fun z hz => (List.mem_append.mp hz).elim (o2.all z) (hbP z))
        refine ⟨max f1 (max f2 f3) + 1, m', ?_, ⟨o3.all, ?_, ?_, fun hm => ?_, fun z hz => ?_⟩⟩
        · unfold Engine.combine
          rw [hlast]
          dsimp only
          rw [h.mono f1 (max f1 (max f2 f3) + 1) (by omega) x y _ e1]
          dsimp only
          rw [if_neg hn, hdrop, hrf]
          change (match Engine.combine _ neutral flat _ l [r] with
            | .error e => _
            | .ok m => _) = _
          rw [combine_mono (h.mono f2 (max f1 (max f2 f3) + 1) (by omega)) neutral flat f2 (max f1 (max f2 f3)) (by omega) _ _ _ e2]
          exact combine_mono (h.mono f3 (max f1 (max f2 f3) + 1) (by omega)) _ _ _ _ (by omega) _ _ _ e3
        · have := o3.len
          simp only [List.length_append, List.length_cons, List.length_nil] at this ⊢
          omega
        · have := o2.wt
          rw [o3.wt]
          simp only [List.map_append, List.sum_append, List.map_cons, List.sum_cons, List.map_nil, List.sum_nil] at this ⊢
          omega
        · rcases o3.nil hm with h1 | h1
          · rcases o2.nil (by simpa using (List.append_eq_nil_iff.mp h1).1) with h2 | h2
            · simp at h2
            · exact .inr h2
          · exact .inr h1
        · rcases o3.one z hz with h1 | h1 | h1
          · cases hm : m with
            | nil =>
              rcases o2.nil hm with h2 | h2
              · simp at h2
              · exact .inr (.inr h2)
            | cons w ws =>
              rw [hm] at h1
              simp only [List.cons_append, List.cons.injEq, List.append_eq_nil_iff] at h1
              obtain ⟨rfl, rfl, rfl⟩ := h1
              rcases o2.one w hm with h2 | h2 | h2
              · cases l with
                | nil =>
                  simp only [List.nil_append, List.cons.injEq, and_true] at h2
                  exact .inr (.inl (h2 ▸ hrD))
                | cons _ _ => simp at h2
              · exact .inr (.inl h2)
              · exact .inr (.inr h2)
          · exact .inr (.inl h1)
          · exact .inr (.inr h1)

theorem reduce_conv (h : RuleConv rule neutral flat P D wt) : ∀ (k : ℕ) (l : List α), l.length ≤ k → (∀ x ∈ l, P x) →
    ∃ f m, Engine.reduce (rule f) neutral flat f l = .ok m ∧ Out neutral P D wt l m
  | k, l, hk, hP => by
    by_cases hl : l.length ≤ 1
    · refine ⟨1, l, ?_, ⟨hP, le_rfl, rfl, fun h => .inl h, fun x h => .inl h⟩⟩
      rw [Engine.reduce, if_pos hl]
    · match k with
      | 0 => omega
      | k + 1 =>
        have h1 : (l.take (l.length / 2)).length ≤ k := by rw [List.length_take]; omega
        have h2 : (l.drop (l.length / 2)).length ≤ k := by rw [List.length_drop]; omega
        obtain ⟨f1, a, e1, o1⟩ := reduce_conv h k _ h1 fun x hx => hP x (List.mem_of_mem_take hx)
        obtain ⟨f2, b, e2, o2⟩ := reduce_conv h k _ h2 fun x hx => hP x (List.mem_of_mem_drop hx)
        obtain ⟨f3, m, e3, o3⟩ := combine_conv h _ a b le_rfl fun x hx => (List.mem_append.mp hx).elim (o1.all x) (o2.all x)
        have hsplit := List.take_append_drop (l.length / 2) l
        refine ⟨max f1 (max f2 f3) + 1, m, ?_, ⟨o3.all, ?_, ?_, fun hm => ?_, fun z hz => ?_⟩⟩
        · rw [Engine.reduce, if_neg hl]
          rw [reduce_mono (h.mono f1 (max f1 (max f2 f3) + 1) (by omega)) neutral flat f1 (max f1 (max f2 f3)) (by omega) _ _ e1]
          dsimp only
          rw [reduce_mono (h.mono f2 (max f1 (max f2 f3) + 1) (by omega)) neutral flat f2 (max f1 (max f2 f3)) (by omega) _ _ e2]
          exact combine_mono (h.mono f3 (max f1 (max f2 f3) + 1) (by omega)) _ _ _ _ (by omega) _ _ _ e3
        · have := o1.len
          have := o2.len
          have := o3.len
          rw [← hsplit]
          simp only [List.length_append] at *
          omega
        · rw [o3.wt, List.map_append, List.sum_append, o1.wt, o2.wt, ← List.sum_append, ← List.map_append, hsplit]
        · rcases o3.nil hm with h3 | h3
          · rcases o1.nil (List.append_eq_nil_iff.mp h3).1 with h4 | h4
            · have := congrArg List.length h4
              simp only [List.length_take, List.length_nil] at this
              omega
            · exact .inr h4
          · exact .inr h3
        · rcases o3.one z hz with h3 | h3 | h3
          · have hne : ∀ (c l' : List α), Out neutral P D wt l' c → c = [] → l' ≠ [] → ∃ r, P r ∧ D r ∧ neutral r = true := fun c l' o hc hl' =>
              (o.nil hc).elim (fun h => absurd h hl') id
            have n1 : l.take (l.length / 2) ≠ [] := fun h => by
              have := congrArg List.length h
              simp only [List.length_take, List.length_nil] at this
              omega
            have n2 : l.drop (l.length / 2) ≠ [] := fun h => by
              have := congrArg List.length h
              simp only [List.length_drop, List.length_nil] at this
              omega
            rcases List.append_eq_singleton_iff.mp h3 with ⟨ha, -⟩ | ⟨-, hb⟩
            · exact .inr (.inr (hne a _ o1 ha n1))
            · exact .inr (.inr (hne b _ o2 hb n2))
          · exact .inr (.inl h3)
          · exact .inr (.inr h3)

end Engine

/-! ### the circuits -/

/-- circuits without permutations and feedback, with at least one channel -/
inductive Good : Circ A → Prop
  | sym (a n : ℕ) : 0 < n → Good (.sym a n)
  | inv (a n : ℕ) : 0 < n → Good (.inv (.sym a n))
  | slh (s : SLH A) : 0 < s.n → Good (.slh s)
  | id1 : Good .id1
  | concat (l : List (Circ A)) : l ≠ [] → (∀ c ∈ l, Good c) → Good (.concat l)
  | series (l : List (Circ A)) (n : ℕ) : l ≠ [] → (∀ c ∈ l, Good c) → (∀ c ∈ l, c.cdim = n) → Good (.series l)

theorem sumCdim_eq : ∀ l : List (Circ A), sumCdim l = (l.map Circ.cdim).sum
  | [] => rfl
  | c :: l => by rw [sumCdim, sumCdim_eq l]; rfl

theorem Good.pos {c : Circ A} (h : Good c) : 0 < c.cdim := by
  induction h with
  | sym a n h => exact h
  | inv a n h => exact h
  | slh s h => exact h
  | id1 => exact Nat.one_pos
  | concat l hl _ ih =>
    rw [Circ.cdim]
    cases l with
    | nil => exact absurd rfl hl
    | cons c l =>
      have := ih c (by simp)
      rw [sumCdim]
      omega
  | series l n hl _ hn ih =>
    rw [Circ.cdim]
    cases l with
    | nil => exact absurd rfl hl
    | cons c l => exact ih c (by simp)

theorem Good.series_cdim {l : List (Circ A)} {n : ℕ} (hl : l ≠ []) (hn : ∀ c ∈ l, c.cdim = n) : (Circ.series l).cdim = n := by
  rw [Circ.cdim]
  cases l with
  | nil => exact absurd rfl hl
  | cons c l => exact hn c (by simp)

theorem cid_good : ∀ {n : ℕ}, 0 < n → Good (cid n : Circ A)
  | 1, _ => .id1
  | n + 2, _ => .concat _ (by simp) fun c hc => by rw [List.eq_of_mem_replicate hc]; exact .id1

theorem cid_cdim : ∀ n : ℕ, (cid n : Circ A).cdim = n
  | 0 => rfl
  | 1 => rfl
  | n + 2 => by
    rw [cid, Circ.cdim, sumCdim_eq, List.map_replicate, List.sum_replicate]
    simp [Circ.cdim]

/-! ### concatenation -/

theorem splitPerm_good {c : Circ A} (h : Good c) : splitPerm c = none := by
  cases h with
  | series l n hl hg hn =>
    rw [splitPerm]
    cases hx : l.getLast? with
    | none => rfl
    | some x =>
      have := hg x (List.mem_of_getLast? hx)
      cases this <;> rfl
  | _ => rfl

/-- a single SLH object -/
def IsSlh (c : Circ A) : Prop := ∃ s, c = .slh s

theorem concatRule_conv : RuleConv (α := Circ A) (fun f => concatRule (opsAt false f)) isZero flatConcat Good IsSlh Circ.cdim where
  mono f f' hf := concatRule_mono (opsAt_mono (by simp) hf)
  conv x y hx hy := by
    refine ⟨0, ?_⟩
    have hn : ∀ x y : Circ A, Good x → Good y → (∀ s t, ¬ (x = .slh s ∧ y = .slh t)) → concatRule (opsAt false 0) x y = .ok none := by
      intro x y hx hy hs
      have e1 := splitPerm_good hx
      have e2 := splitPerm_good hy
      unfold concatRule
      cases hx <;> cases hy <;> first | exact absurd ⟨rfl, rfl⟩ (hs _ _) | (dsimp only; rw [e1, e2]) | (dsimp only; rw [e1])
    by_cases hs : ∃ s t, x = .slh s ∧ y = .slh t
    · obtain ⟨s, t, rfl, rfl⟩ := hs
      refine ⟨some (.slh (SLH.concat s t)), rfl, fun r hr => ?_⟩
      cases hr
      cases hx with
      | slh _ h1 => exact ⟨.slh _ (by show 0 < s.n + t.n; omega), ⟨_, rfl⟩, rfl, rfl⟩
    · refine ⟨none, hn x y hx hy (fun s t h => hs ⟨s, t, h⟩), fun r hr => nomatch hr⟩
  neutral r hr := by rw [isZero_eq hr]; rfl

theorem flatConcat_good {c : Circ A} (h : Good c) : ∀ d ∈ (flatConcat c).getD [c], Good d := by
  cases h with
  | concat l hl hg => exact hg
  | _ =>
    intro d hd
    replace hd := List.mem_singleton.mp hd
    subst hd
    first | exact .sym _ _ ‹_› | exact .inv _ _ ‹_› | exact .slh _ ‹_› | exact .id1 | exact .series _ _ ‹_› ‹_› ‹_›

theorem flatConcat_sum (c : Circ A) : sumCdim ((flatConcat c).getD [c]) = c.cdim := by
  cases c <;> simp [flatConcat, sumCdim, Circ.cdim]

/-- zero or good -/
def GoodZ (c : Circ A) : Prop := c = .zero ∨ Good c

theorem GoodZ.good {c : Circ A} (h : GoodZ c) (hn : 0 < c.cdim) : Good c := by
  rcases h with rfl | h
  · exact absurd hn (by simp [Circ.cdim])
  · exact h

theorem assoc_concat_good : ∀ {l : List (Circ A)}, (∀ c ∈ l, GoodZ c) → ∀ d ∈ Engine.assoc flatConcat l, GoodZ d := by
  intro l h d hd
  rw [Engine.assoc, List.mem_flatMap] at hd
  obtain ⟨c, hc, hd⟩ := hd
  rcases h c hc with rfl | hg
  · exact .inl (List.mem_singleton.mp hd)
  · exact .inr (flatConcat_good hg d hd)

theorem assoc_concat_sum : ∀ l : List (Circ A), sumCdim (Engine.assoc flatConcat l) = sumCdim l
  | [] => rfl
  | c :: l => by
    have := assoc_concat_sum l
    rw [sumCdim_eq] at this ⊢
    rw [Engine.assoc, List.flatMap_cons, List.map_append, List.sum_append, ← sumCdim_eq, flatConcat_sum, sumCdim, ← assoc_concat_sum l, sumCdim_eq]
    rfl

theorem filter_zero_sum : ∀ l : List (Circ A), sumCdim (l.filter fun x => !isZero x) = sumCdim l
  | [] => rfl
  | c :: l => by
    rw [List.filter_cons]
    cases h : isZero c with
    | true => rw [isZero_eq h]; simp [sumCdim, Circ.cdim, filter_zero_sum l]
    | false => simp [sumCdim, filter_zero_sum l]

/-- the concatenation of two or more good circuits is never a series product -/
def NoSeries (c : Circ A) : Prop := flatSeries c = none

theorem concat_conv {l : List (Circ A)} (h : ∀ c ∈ l, GoodZ c) :
    ∃ f c, (opsAt false f).concat l = .ok c ∧ GoodZ c ∧ c.cdim = sumCdim l ∧ (2 ≤ l.length → (∀ c ∈ l, Good c) → NoSeries c) := by
  have hz := assoc_concat_good h
  have hs : sumCdim ((Engine.assoc flatConcat l).filter fun x => !isZero x) = sumCdim l := (filter_zero_sum _).trans (assoc_concat_sum l)
  have hg : ∀ c ∈ (Engine.assoc flatConcat l).filter (fun x => !isZero x), Good c := fun c hc => by
    rw [List.mem_filter] at hc
    rcases hz c hc.1 with rfl | h
    · simp [isZero] at hc
    · exact h
  have hlong : 2 ≤ l.length → (∀ c ∈ l, Good c) → 2 ≤ ((Engine.assoc flatConcat l).filter fun x => !isZero x).length := by
    intro h2 hgood
    have hall : ∀ c ∈ Engine.assoc flatConcat l, (!isZero c) = true := fun c hc => by
      rw [Engine.assoc, List.mem_flatMap] at hc
      obtain ⟨d, hd, hc⟩ := hc
      cases flatConcat_good (hgood d hd) c hc <;> rfl
    rw [List.filter_eq_self.mpr hall]
    match l, h2 with
    | c :: d :: l, _ =>
      have hne : ∀ c : Circ A, Good c → 1 ≤ ((flatConcat c).getD [c]).length := fun c hc => by
        cases hc with
        | concat l hl _ => exact List.length_pos_iff.mpr hl
        | _ => exact le_rfl
      have h1 := hne c (hgood c (by simp))
      have h2 := hne d (hgood d (by simp))
      simp only [Engine.assoc, List.flatMap_cons, List.length_append]
      omega
  suffices key : ∃ f c, concatCreate (opsAt false f) f l = .ok c ∧ GoodZ c ∧ c.cdim = sumCdim l ∧ (2 ≤ l.length → (∀ c ∈ l, Good c) → NoSeries c) by
    obtain ⟨f, c, e, r⟩ := key
    exact ⟨f + 1, c, e, r⟩
  unfold concatCreate Engine.createAssoc Engine.filterNeutral
  generalize hL : Engine.assoc flatConcat l = L at hz hs hg hlong
  cases L with
  | nil => exact ⟨0, .zero, rfl, .inl rfl, by simpa [sumCdim, Circ.cdim] using hs, fun h2 hgood => absurd (hlong h2 hgood) (by simp)⟩
  | cons o L =>
    dsimp only
    generalize hF : (o :: L).filter (fun x => !isZero x) = F at hs hg hlong
    match F, hs, hg, hlong with
    | [], hs, _, hlong =>
      refine ⟨0, o, rfl, ?_, ?_, fun h2 hgood => absurd (hlong h2 hgood) (by simp)⟩
      · exact hz o (by simp)
      · have : isZero o = true := by
          by_contra hc
          have : o ∈ (o :: L).filter (fun x => !isZero x) := List.mem_filter.mpr ⟨by simp, by simpa using hc⟩
          rw [hF] at this
          cases this
        rw [isZero_eq this, ← hs]
        rfl
    | [x], hs, hg, hlong => exact ⟨0, x, rfl, .inr (hg x (by simp)), by simpa [sumCdim] using hs, fun h2 hgood => absurd (hlong h2 hgood) (by simp)⟩
    | x :: y :: F, hs, hg, _ =>
      dsimp only
      obtain ⟨f, m, e, o⟩ := reduce_conv concatRule_conv _ (x :: y :: F) le_rfl hg
      have hnz : ¬ ∃ r : Circ A, Good r ∧ IsSlh r ∧ isZero r = true := fun ⟨r, hr, _, hz⟩ => by
        have := hr.pos
        rw [isZero_eq hz] at this
        simp [Circ.cdim] at this
      have hw := o.wt
      rw [← sumCdim_eq, ← sumCdim_eq] at hw
      refine ⟨f, ?_⟩
      unfold Engine.matchReplaceBinary
      rw [e]
      match m, o, hw with
      | [], o, hw => rcases o.nil rfl with h1 | h1 <;> [cases h1; exact absurd h1 hnz]
      | [z], o, hw =>
        refine ⟨z, rfl, .inr (o.all z (by simp)), by simpa [sumCdim] using hw.trans hs, fun _ _ => ?_⟩
        rcases o.one z rfl with h1 | ⟨s, rfl⟩ | h1
        · cases h1
        · rfl
        · exact absurd h1 hnz
      | z :: w :: m, o, hw => exact ⟨_, rfl, .inr (.concat _ (by simp) o.all), by simpa [Circ.cdim] using hw.trans hs, fun _ _ => rfl⟩

/-! ### blocks -/

mutual
/-- the operands of nested concatenations -/
def blocksOf : Circ A → List (Circ A)
  | .concat ops => blocksOfList ops
  | c => [c]
def blocksOfList : List (Circ A) → List (Circ A)
  | [] => []
  | c :: cs => blocksOf c ++ blocksOfList cs
end

/-- good and no concatenation -/
def Block (c : Circ A) : Prop := Good c ∧ flatConcat c = none

theorem blockStructureList_good : ∀ l : List (Circ A), (∀ c ∈ l, blockStructure c = .ok ((blocksOf c).map Circ.cdim)) → blockStructureList l = .ok ((blocksOfList l).map Circ.cdim)
  | [], _ => rfl
  | c :: l, h => by
    rw [blockStructureList, h c (by simp), blockStructureList_good l fun d hd => h d (by simp [hd])]
    simp [blocksOfList, bind, Except.bind]

theorem blocksOfList_block : ∀ l : List (Circ A), (∀ c ∈ l, ∀ b ∈ blocksOf c, Block b) → ∀ b ∈ blocksOfList l, Block b
  | [], _, b, hb => by simp [blocksOfList] at hb
  | c :: l, h, b, hb => by
    rw [blocksOfList, List.mem_append] at hb
    rcases hb with hb | hb
    · exact h c (by simp) b hb
    · exact blocksOfList_block l (fun d hd => h d (by simp [hd])) b hb

theorem blocksOfList_sum : ∀ l : List (Circ A), (∀ c ∈ l, sumCdim (blocksOf c) = c.cdim) → sumCdim (blocksOfList l) = sumCdim l
  | [], _ => rfl
  | c :: l, h => by
    have := blocksOfList_sum l fun d hd => h d (by simp [hd])
    have h1 := h c (by simp)
    rw [sumCdim_eq] at this h1 ⊢
    rw [blocksOfList, List.map_append, List.sum_append, this, h1]
    rfl

theorem blocks_good {c : Circ A} (h : Good c) : blockStructure c = .ok ((blocksOf c).map Circ.cdim) ∧ (∀ b ∈ blocksOf c, Block b) ∧ sumCdim (blocksOf c) = c.cdim := by
  induction h with
  | concat l hl hg ih =>
    exact ⟨blockStructureList_good l fun c hc => (ih c hc).1, blocksOfList_block l fun c hc => (ih c hc).2.1, blocksOfList_sum l fun c hc => (ih c hc).2.2⟩
  | sym a n h => exact ⟨rfl, fun b hb => by rw [List.mem_singleton.mp hb]; exact ⟨.sym a n h, rfl⟩, rfl⟩
  | inv a n h => exact ⟨rfl, fun b hb => by rw [List.mem_singleton.mp hb]; exact ⟨.inv a n h, rfl⟩, rfl⟩
  | slh s h => exact ⟨rfl, fun b hb => by rw [List.mem_singleton.mp hb]; exact ⟨.slh s h, rfl⟩, rfl⟩
  | id1 => exact ⟨rfl, fun b hb => by rw [List.mem_singleton.mp hb]; exact ⟨.id1, rfl⟩, rfl⟩
  | series l n h1 h2 h3 => exact ⟨rfl, fun b hb => by rw [List.mem_singleton.mp hb]; exact ⟨.series l n h1 h2 h3, rfl⟩, rfl⟩

theorem takeBlocks_ok {bl : ℕ} (rest : List (Circ A)) : ∀ (tk : List (Circ A)) (cur : ℕ), (∀ b ∈ tk, Good b) → cur + sumCdim tk = bl → takeBlocks bl cur (tk ++ rest) = .ok (tk, bl, rest)
  | [], cur, _, h => by
    simp only [sumCdim, Nat.add_zero] at h
    subst h
    unfold takeBlocks
    rw [if_neg (lt_irrefl _)]
    rfl
  | b :: tk, cur, hg, h => by
    have hb := (hg b (by simp)).pos
    rw [sumCdim] at h
    unfold takeBlocks
    rw [if_pos (by omega)]
    simp only [List.cons_append]
    rw [takeBlocks_ok rest tk (cur + b.cdim) (fun c hc => hg c (by simp [hc])) (by omega)]
    rfl

theorem concat_single {f : ℕ} {b : Circ A} (h : Block b) : (opsAt false (f + 1)).concat [b] = .ok b := by
  change concatCreate (opsAt false f) f [b] = _
  have hz : isZero b = false := by
    have := h.1.pos
    cases hb : isZero b with
    | false => rfl
    | true => rw [isZero_eq hb] at this; simp [Circ.cdim] at this
  unfold concatCreate Engine.createAssoc Engine.filterNeutral
  have : Engine.assoc flatConcat [b] = [b] := by
    rw [Engine.assoc, List.flatMap_cons, h.2]
    rfl
  rw [this]
  simp [hz]

theorem regroup_own {f : ℕ} : ∀ bs : List (Circ A), (∀ b ∈ bs, Block b) → regroup (opsAt false (f + 1)) (bs.map Circ.cdim) bs = .ok bs
  | [], _ => rfl
  | b :: bs, h => by
    have := takeBlocks_ok (bl := b.cdim) bs [b] 0 (fun c hc => by rw [List.mem_singleton.mp hc]; exact (h b (by simp)).1) (by simp [sumCdim])
    rw [List.map_cons, regroup]
    rw [show b :: bs = [b] ++ bs from rfl, this]
    change (if b.cdim ≠ b.cdim then _ else _) = _
    rw [if_neg (by simp), concat_single (h b (by simp))]
    change (regroup _ _ bs >>= fun cs => .ok (b :: cs)) = _
    rw [regroup_own bs fun c hc => h c (by simp [hc])]
    rfl

theorem ownBlocksList_good {f : ℕ} : ∀ l : List (Circ A), (∀ c ∈ l, ownBlocks (opsAt false (f + 1)) c = .ok (blocksOf c)) →
    ownBlocksList (opsAt false (f + 1)) l = .ok (blocksOfList l)
  | [], _ => rfl
  | c :: l, h => by
    rw [ownBlocksList, h c (by simp), ownBlocksList_good l fun d hd => h d (by simp [hd])]
    rfl

theorem ownBlocks_good {f : ℕ} {c : Circ A} (h : Good c) : ownBlocks (opsAt false (f + 1)) c = .ok (blocksOf c) := by
  induction h with
  | concat l hl hg ih =>
    rw [ownBlocks, ownBlocksList_good l ih]
    change (blockStructureList l >>= fun st => regroup _ st (blocksOfList l)) = _
    rw [blockStructureList_good l fun c hc => (blocks_good (hg c hc)).1]
    exact regroup_own _ (blocksOfList_block l fun c hc => (blocks_good (hg c hc)).2.1)
  | _ => rfl

/-- `st` is obtained from `sz` by adding neighbours -/
inductive Coarse : List ℕ → List ℕ → Prop
  | nil : Coarse [] []
  | cons (part rest st : List ℕ) : part ≠ [] → Coarse st rest → Coarse (part.sum :: st) (part ++ rest)

theorem regroup_conv {st sz : List ℕ} (h : Coarse st sz) : ∀ bs : List (Circ A), sz = bs.map Circ.cdim → (∀ b ∈ bs, Good b) →
    ∃ f cs, regroup (opsAt false f) st bs = .ok cs ∧ cs.map Circ.cdim = st ∧ ∀ c ∈ cs, Good c := by
  induction h with
  | nil => exact fun bs _ _ => ⟨0, [], rfl, rfl, by simp⟩
  | cons part rest st hp _ ih =>
    intro bs e hg
    obtain ⟨tk, rs, rfl, rfl, rfl⟩ := List.append_eq_map_iff.mp e
    obtain ⟨f1, cs, e1, d1, g1⟩ := ih rs rfl fun b hb => hg b (by simp [hb])
    obtain ⟨f2, c, e2, gz, d2, -⟩ := concat_conv (l := tk) fun b hb => .inr (hg b (by simp [hb]))
    have hs := takeBlocks_ok (bl := (tk.map Circ.cdim).sum) rs tk 0 (fun b hb => hg b (by simp [hb])) (by rw [Nat.zero_add, sumCdim_eq])
    have hc : 0 < c.cdim := by
      rw [d2]
      cases tk with
      | nil => simp at hp
      | cons b tk =>
        have := (hg b (by simp)).pos
        rw [sumCdim]
        omega
    refine ⟨max f1 f2, c :: cs, ?_, by rw [List.map_cons, d1, d2, sumCdim_eq], fun d hd => ?_⟩
    · rw [regroup, hs]
      change (if _ ≠ _ then _ else _) = _
      rw [if_neg (by simp), (opsAt_mono (b := false) (by simp) (Nat.le_max_right f1 f2)).concat _ _ e2]
      change (regroup _ _ rs >>= fun cs => .ok (c :: cs)) = _
      rw [regroup_mono (opsAt_mono (b := false) (b' := false) (by simp) (Nat.le_max_left f1 f2)) _ _ _ e1]
      rfl
    · rcases List.mem_cons.mp hd with rfl | hd
      · exact gz.good hc
      · exact g1 d hd

theorem getBlocks_conv {c : Circ A} (h : Good c) {st : List ℕ} (hst : Coarse st ((blocksOf c).map Circ.cdim)) :
    ∃ f cs, getBlocks (opsAt false f) c st = .ok cs ∧ cs.map Circ.cdim = st ∧ ∀ d ∈ cs, Good d := by
  have one : ∀ c : Circ A, Good c → blocksOf c = [c] → (∀ R : Ops A, getBlocks R c st = if st = [c.cdim] then .ok [c] else .error .incompatibleBlocks) →
      Coarse st ((blocksOf c).map Circ.cdim) → ∃ f cs, getBlocks (opsAt false f) c st = .ok cs ∧ cs.map Circ.cdim = st ∧ ∀ d ∈ cs, Good d := by
    intro c hc e hb hst
    rw [e] at hst
    have hst' : st = [c.cdim] := by
      simp only [List.map_cons, List.map_nil] at hst
      generalize hw : [c.cdim] = w at hst
      cases hst with
      | nil => cases hw
      | cons part rest st hp hr =>
        obtain ⟨rfl, rfl⟩ | ⟨rfl, rfl⟩ := List.append_eq_singleton_iff.mp hw.symm
        · exact absurd rfl hp
        · generalize hw : ([] : List ℕ) = w at hr
          cases hr with
          | nil => simp
          | cons part rest st hp' _ => exact absurd (List.append_eq_nil_iff.mp hw.symm).1 hp'
    exact ⟨0, [c], by rw [hb, if_pos hst'], by rw [hst']; rfl, fun d hd => by rw [List.mem_singleton.mp hd]; exact hc⟩
  cases h with
  | concat l hl hg =>
    have hb := blocks_good (.concat l hl hg)
    obtain ⟨f, cs, e, r⟩ := regroup_conv hst (blocksOf (.concat l)) rfl fun b hb' => (hb.2.1 b hb').1
    refine ⟨f + 1, cs, ?_, r⟩
    rw [getBlocks, ownBlocksList_good l fun c hc => ownBlocks_good (hg c hc)]
    exact regroup_mono (opsAt_mono (b := false) (b' := false) (by simp) (Nat.le_succ f)) _ _ _ e
  | sym a n h => exact one _ (.sym a n h) rfl (fun _ => rfl) hst
  | inv a n h => exact one _ (.inv a n h) rfl (fun _ => rfl) hst
  | slh s h => exact one _ (.slh s h) rfl (fun _ => rfl) hst
  | id1 => exact one _ .id1 rfl (fun _ => rfl) hst
  | series l n h1 h2 h3 => exact one _ (.series l n h1 h2 h3) rfl (fun _ => rfl) hst

theorem commonLoop_ok : ∀ (f lsum rsum : ℕ) (l r : List ℕ), l.length + r.length < f → lsum + l.sum = rsum + r.sum →
    ∃ pl l' pr r', commonLoop f lsum rsum l r = .ok (lsum + pl.sum, l', r') ∧ l = pl ++ l' ∧ r = pr ++ r' ∧ lsum + pl.sum = rsum + pr.sum
  | 0, _, _, _, _, h, _ => by omega
  | f + 1, lsum, rsum, l, r, h, he => by
    by_cases h1 : lsum < rsum
    · cases l with
      | nil => simp only [List.sum_nil] at he; omega
      | cons a l =>
        simp only [List.length_cons, List.sum_cons] at h he
        obtain ⟨pl, l', pr, r', e, e1, e2, e3⟩ := commonLoop_ok f (lsum + a) rsum l r (by omega) (by omega)
        refine ⟨a :: pl, l', pr, r', ?_, by rw [e1]; rfl, e2, by rw [List.sum_cons]; omega⟩
        unfold commonLoop
        rw [if_pos h1]
        dsimp only
        rw [e, List.sum_cons, Nat.add_assoc]
    · by_cases h2 : rsum < lsum
      · cases r with
        | nil => simp only [List.sum_nil] at he; omega
        | cons b r =>
          simp only [List.length_cons, List.sum_cons] at h he
          obtain ⟨pl, l', pr, r', e, e1, e2, e3⟩ := commonLoop_ok f lsum (rsum + b) l r (by omega) (by omega)
          refine ⟨pl, l', b :: pr, r', ?_, e1, by rw [e2]; rfl, by rw [List.sum_cons]; omega⟩
          unfold commonLoop
          rw [if_neg h1, if_pos h2]
          exact e
      · refine ⟨[], l, [], r, ?_, rfl, rfl, by simp only [List.sum_nil]; omega⟩
        unfold commonLoop
        rw [if_neg h1, if_neg h2]
        rfl

theorem commonStructure_ok : ∀ (f : ℕ) (l r : List ℕ), l.length + r.length < f → (∀ x ∈ l, 0 < x) → (∀ x ∈ r, 0 < x) → l.sum = r.sum →
    ∃ st, commonStructure f l r = .ok st ∧ Coarse st l ∧ Coarse st r
  | 0, _, _, h, _, _, _ => by omega
  | f + 1, l, r, h, hl, hr, he => by
    rw [commonStructure, if_neg (by simpa using he)]
    cases l with
    | nil =>
      cases r with
      | nil => exact ⟨[], by simp, .nil, .nil⟩
      | cons b r =>
        have := hr b (by simp)
        simp only [List.sum_nil, List.sum_cons] at he
        omega
    | cons a l =>
      cases r with
      | nil =>
        have := hl a (by simp)
        simp only [List.sum_nil, List.sum_cons] at he
        omega
      | cons b r =>
        rw [if_neg (by simp)]
        simp only [List.length_cons, List.sum_cons] at h he
        obtain ⟨pl, l', pr, r', e, e1, e2, e3⟩ := commonLoop_ok ((a :: l).length + (b :: r).length + 1) a b l r (by simp; omega) he
        subst e1 e2
        simp only [List.length_append, List.sum_append] at h he
        obtain ⟨st, e4, c1, c2⟩ := commonStructure_ok f l' r' (by omega) (fun x hx => hl x (by simp [hx])) (fun x hx => hr x (by simp [hx])) (by omega)
        refine ⟨(a + pl.sum) :: st, ?_, ?_, ?_⟩
        · simp only [List.headD_cons, List.tail_cons]
          rw [e]
          change (commonStructure f l' r' >>= fun rest => _) = _
          rw [e4]
          rfl
        · exact Coarse.cons (a :: pl) l' st (by simp) c1
        · rw [e3]
          exact Coarse.cons (b :: pr) r' st (by simp) c2

theorem mapM_conv {α β : Type} {F : ℕ → α → Res β} {Q : α → β → Prop} (hm : ∀ f f', f ≤ f' → ∀ x, Le (F f x) (F f' x)) :
    ∀ l : List α, (∀ x ∈ l, ∃ f v, F f x = .ok v ∧ Q x v) → ∃ f vs, l.mapM (F f) = .ok vs ∧ List.Forall₂ Q l vs
  | [], _ => ⟨0, [], rfl, .nil⟩
  | x :: l, h => by
    obtain ⟨f1, v, e1, q1⟩ := h x (by simp)
    obtain ⟨f2, vs, e2, q2⟩ := mapM_conv hm l fun y hy => h y (by simp [hy])
    refine ⟨max f1 f2, v :: vs, ?_, .cons q1 q2⟩
    rw [List.mapM_cons, hm f1 _ (Nat.le_max_left ..) x v e1, Le.mapM (hm f2 _ (Nat.le_max_right ..)) l vs e2]
    rfl

/-! ### series products -/

/-- series products of good circuits with `n` channels succeed -/
def SeriesConv (A : Type) [Ring A] [StarRing A] [Algebra ℂ A] (n : ℕ) : Prop := ∀ l : List (Circ A), l ≠ [] → (∀ c ∈ l, Good c ∧ c.cdim = n) →
  ∃ f c, (opsAt false f).series l = .ok c ∧ Good c ∧ c.cdim = n

theorem coarse_sum {st sz : List ℕ} (h : Coarse st sz) : st.sum = sz.sum := by
  induction h with
  | nil => rfl
  | cons part rest st _ _ ih => rw [List.sum_cons, List.sum_append, ih]

theorem lt_of_mem_sum {st : List ℕ} {n k : ℕ} (h : st.sum = n) (hp : ∀ x ∈ st, 0 < x) (hl : 1 < st.length) (hk : k ∈ st) : k < n := by
  obtain ⟨s, t, rfl⟩ := List.append_of_mem hk
  have : s ≠ [] ∨ t ≠ [] := by
    by_contra hc
    push Not at hc
    rw [hc.1, hc.2] at hl
    simp at hl
  simp only [List.sum_append, List.sum_cons] at h
  have pos : ∀ u : List ℕ, u ≠ [] → (∀ x ∈ u, 0 < x) → 0 < u.sum := fun u hu hx => by
    cases u with
    | nil => exact absurd rfl hu
    | cons x u =>
      have := hx x (by simp)
      rw [List.sum_cons]
      omega
  rcases this with h1 | h1
  · have := pos s h1 fun x hx => hp x (by simp [hx])
    omega
  · have := pos t h1 fun x hx => hp x (by simp [hx])
    omega

theorem tensorDecompose_conv {n : ℕ} (ih : ∀ m < n, SeriesConv A m) {a b : Circ A} (ha : Good a) (hb : Good b) (da : a.cdim = n) (db : b.cdim = n) :
    ∃ f o, tensorDecompose (opsAt false f) a b = .ok o ∧ ∀ r, o = some r → Good r ∧ r.cdim = n ∧ NoSeries r := by
  have hd : ∀ R : Ops A, tensorDecompose R a b = (do
      let l ← blockStructure a
      let r ← blockStructure b
      let st ← commonStructure (l.length + r.length + 1) l r
      if st.length > 1 then do
        let bl ← getBlocks R a st
        let br ← getBlocks R b st
        let cs ← (bl.zip br).mapM (fun (a, b) => R.series [a, b])
        let c ← R.concat cs
        .ok (some c)
      else .ok none) := fun R => by cases hb <;> rfl
  obtain ⟨a1, a2, a3⟩ := blocks_good ha
  obtain ⟨b1, b2, b3⟩ := blocks_good hb
  have pa : ∀ x ∈ (blocksOf a).map Circ.cdim, 0 < x := fun x hx => by
    obtain ⟨c, hc, rfl⟩ := List.mem_map.mp hx
    exact (a2 c hc).1.pos
  have pb : ∀ x ∈ (blocksOf b).map Circ.cdim, 0 < x := fun x hx => by
    obtain ⟨c, hc, rfl⟩ := List.mem_map.mp hx
    exact (b2 c hc).1.pos
  rw [sumCdim_eq] at a3 b3
  obtain ⟨st, es, c1, c2⟩ := commonStructure_ok _ _ _ (Nat.lt_succ_self _) pa pb (by rw [a3, b3, da, db])
  by_cases hl : st.length > 1
  · obtain ⟨f1, bl, e1, d1, g1⟩ := getBlocks_conv ha c1
    obtain ⟨f2, br, e2, d2, g2⟩ := getBlocks_conv hb c2
    have hsum : st.sum = n := by rw [coarse_sum c1, a3, da]
    have hpos : ∀ x ∈ st, 0 < x := fun x hx => by
      rw [← d1] at hx
      obtain ⟨c, hc, rfl⟩ := List.mem_map.mp hx
      exact (g1 c hc).pos
    have hlen : bl.length = br.length := by
      have := congrArg List.length (d1.trans d2.symm)
      simpa using this
    obtain ⟨f3, cs, e3, q⟩ := mapM_conv (F := fun f (x : Circ A × Circ A) => (opsAt false f).series [x.1, x.2]) (Q := fun x c => Good c ∧ c.cdim = x.1.cdim)
      (fun f f' hf x => (opsAt_mono (by simp) hf).series _) (bl.zip br) (by
        intro x hx
        have h1 := List.of_mem_zip hx
        have hx1 := g1 x.1 h1.1
        have hx2 := g2 x.2 h1.2
        have hc : x.1.cdim = x.2.cdim := by
          obtain ⟨i, hi⟩ := List.mem_iff_getElem?.mp hx
          rw [List.getElem?_zip_eq_some] at hi
          have e := congrArg (fun l : List ℕ => l[i]?) (d1.trans d2.symm)
          simp only [List.getElem?_map, hi.1, hi.2, Option.map_some, Option.some.injEq] at e
          exact e
        have hm : x.1.cdim < n := lt_of_mem_sum hsum hpos hl (by rw [← d1]; exact List.mem_map_of_mem h1.1)
        exact ih _ hm [x.1, x.2] (by simp) (by
          intro c hc'
          simp only [List.mem_cons, List.not_mem_nil, or_false] at hc'
          rcases hc' with rfl | rfl
          · exact ⟨hx1, rfl⟩
          · exact ⟨hx2, hc.symm⟩))
    have hcs : ∀ c ∈ cs, Good c := fun c hc => by
      obtain ⟨i, hi⟩ := List.mem_iff_getElem?.mp hc
      have hlen := q.length_eq
      have : i < (bl.zip br).length := by
        rw [hlen]
        exact (List.getElem?_eq_some_iff.mp hi).1
      obtain ⟨d, hd, hr⟩ := getElem?_forall₂ q (List.getElem?_eq_getElem this)
      rw [hi] at hd
      cases hd
      exact hr.1
    have hcd : cs.map Circ.cdim = st := by
      rw [← d1]
      have : ∀ (l : List (Circ A × Circ A)) (cs : List (Circ A)), List.Forall₂ (fun x c => Good c ∧ c.cdim = x.1.cdim) l cs → cs.map Circ.cdim = (l.map Prod.fst).map Circ.cdim := by
        intro l cs h
        induction h with
        | nil => rfl
        | cons h _ ih => rw [List.map_cons, List.map_cons, List.map_cons, h.2, ih]
      rw [this _ _ q, List.map_fst_zip (by omega)]
    obtain ⟨f4, c, e4, gz, d4, ns⟩ := concat_conv (l := cs) fun c hc => .inr (hcs c hc)
    have hcn : c.cdim = n := by rw [d4, sumCdim_eq, hcd, hsum]
    set f := max (max f1 f2) (max f3 f4) with hf
    refine ⟨f, some c, ?_, fun r hr => ?_⟩
    · rw [hd, a1]
      change (blockStructure b >>= fun r => _) = _
      rw [b1]
      change (commonStructure _ _ _ >>= fun st => _) = _
      rw [es]
      change (if st.length > 1 then _ else _) = _
      rw [if_pos hl, getBlocks_mono (opsAt_mono (b := false) (b' := false) (by simp) (by omega : f1 ≤ f)) _ _ _ e1]
      change (getBlocks _ b st >>= fun br => _) = _
      rw [getBlocks_mono (opsAt_mono (b := false) (b' := false) (by simp) (by omega : f2 ≤ f)) _ _ _ e2]
      change (((bl.zip br).mapM fun x => (opsAt false f).series [x.1, x.2] : Res (List (Circ A))) >>= fun cs => _) = _
      have e3' := Le.mapM (f := fun (x : Circ A × Circ A) => (opsAt false f3).series [x.1, x.2]) (g := fun (x : Circ A × Circ A) => (opsAt false f).series [x.1, x.2])
        (fun x => (opsAt_mono (by simp) (by omega : f3 ≤ f)).series _) _ _ e3
      rw [e3']
      change ((opsAt false f).concat cs >>= fun c => _) = _
      rw [(opsAt_mono (b := false) (by simp) (by omega : f4 ≤ f)).concat _ _ e4]
      rfl
    · cases hr
      refine ⟨gz.good ?_, hcn, ns ?_ hcs⟩
      · rw [hcn, ← da]
        exact ha.pos
      · have := congrArg List.length hcd
        simp only [List.length_map] at this
        omega
  · refine ⟨0, none, ?_, fun r hr => nomatch hr⟩
    rw [hd, a1]
    change (blockStructure b >>= fun r => _) = _
    rw [b1]
    change (commonStructure _ _ _ >>= fun st => _) = _
    rw [es]
    change (if st.length > 1 then _ else _) = _
    rw [if_neg hl]

theorem noSeries_cid (n : ℕ) : NoSeries (cid n : Circ A) := by
  match n with
  | 0 => rfl
  | 1 => rfl
  | n + 2 => rfl

theorem seriesInverseRules_good {a b r : Circ A} (ha : Good a) (h : seriesInverseRules a b = some r) : r = cid a.cdim := by
  unfold seriesInverseRules at h
  cases b <;> cases ha <;> dsimp only at h <;> (repeat' split at h) <;> first | (injection h with h; exact h.symm) | cases h

theorem seriesRule_good {R : Ops A} {x y : Circ A} {o : Option (Circ A)} (gx : Good x) (gy : Good y) (hs : ∀ s t, ¬ (x = .slh s ∧ y = .slh t)) (e : tensorDecompose R x y = .ok o) :
    seriesRule R x y = .ok (o.orElse fun _ => seriesInverseRules x y) := by
  unfold seriesRule
  cases gx <;> cases gy <;> first | exact absurd ⟨rfl, rfl⟩ (hs _ _) | (simp only [e, bind, Except.bind]; cases o <;> rfl)

theorem seriesRule_conv {n : ℕ} (ih : ∀ m < n, SeriesConv A m) :
    RuleConv (α := Circ A) (fun f => seriesRule (opsAt false f)) isId1 flatSeries (fun c => Good c ∧ c.cdim = n) (fun _ => True) (fun _ => 0) where
  mono f f' hf := seriesRule_mono (opsAt_mono (by simp) hf)
  neutral _ _ := rfl
  conv x y hx hy := by
    suffices h : ∃ f o, seriesRule (opsAt false f) x y = .ok o ∧ ∀ r, o = some r → Good r ∧ r.cdim = n ∧ NoSeries r by
      obtain ⟨f, o, e, hr⟩ := h
      exact ⟨f, o, e, fun r h => ⟨⟨(hr r h).1, (hr r h).2.1⟩, trivial, (hr r h).2.2, rfl⟩⟩
    obtain ⟨gx, dx⟩ := hx
    obtain ⟨gy, dy⟩ := hy
    by_cases hs : ∃ s t, x = .slh s ∧ y = .slh t
    · obtain ⟨s, t, rfl, rfl⟩ := hs
      have e : s.n = t.n := by
        simp only [Circ.cdim] at dx dy
        omega
      refine ⟨0, some (.slh (SLH.series s t)), ?_, fun r hr => ?_⟩
      · simp only [seriesRule]
        rw [if_neg (by simpa using e)]
        rfl
      · cases hr
        cases gx with
        | slh _ h => exact ⟨.slh _ h, dx, rfl⟩
    · obtain ⟨f, o, e, hr⟩ := tensorDecompose_conv ih gx gy dx dy
      have hrule := seriesRule_good gx gy (fun s t h => hs ⟨s, t, h⟩) e
      refine ⟨f, _, hrule, fun r h => ?_⟩
      cases o with
      | some c => exact hr r h
      | none =>
        rw [seriesInverseRules_good gx h, dx]
        exact ⟨cid_good (by rw [← dx]; exact gx.pos), cid_cdim n, noSeries_cid n⟩

theorem flatSeries_good {c : Circ A} {n : ℕ} (h : Good c) (hn : c.cdim = n) : ∀ d ∈ (flatSeries c).getD [c], Good d ∧ d.cdim = n := by
  cases h with
  | series l m hl hg hm =>
    intro d hd
    rw [Good.series_cdim hl hm] at hn
    exact ⟨hg d hd, (hm d hd).trans hn⟩
  | _ =>
    intro d hd
    replace hd := List.mem_singleton.mp hd
    subst hd
    refine ⟨?_, hn⟩
    first | exact .sym _ _ ‹_› | exact .inv _ _ ‹_› | exact .slh _ ‹_› | exact .id1 | exact .concat _ ‹_› ‹_›

theorem flatSeries_ne {c : Circ A} (h : Good c) : (flatSeries c).getD [c] ≠ [] := by
  cases h with
  | series l m hl hg hm => exact hl
  | _ => exact List.cons_ne_nil _ _

theorem series_conv (n : ℕ) : SeriesConv A n := by
  induction n using Nat.strong_induction_on with
  | _ n ih =>
    intro l hne hl
    suffices key : ∃ f c, seriesCreate (opsAt false f) f l = .ok c ∧ Good c ∧ c.cdim = n by
      obtain ⟨f, c, e, r⟩ := key
      exact ⟨f + 1, c, e, r⟩
    have hz : ∀ d ∈ Engine.assoc flatSeries l, Good d ∧ d.cdim = n := fun d hd => by
      rw [Engine.assoc, List.mem_flatMap] at hd
      obtain ⟨c, hc, hd⟩ := hd
      exact flatSeries_good (hl c hc).1 (hl c hc).2 d hd
    have hzne : Engine.assoc flatSeries l ≠ [] := by
      cases l with
      | nil => exact absurd rfl hne
      | cons c l =>
        intro h
        rw [Engine.assoc, List.flatMap_cons, List.append_eq_nil_iff] at h
        exact flatSeries_ne (hl c (by simp)).1 h.1
    unfold seriesCreate Engine.filterNeutral
    generalize Engine.assoc flatSeries l = L at hz hzne
    cases L with
    | nil => exact absurd rfl hzne
    | cons o L =>
      dsimp only
      have hg : ∀ c ∈ (o :: L).filter (fun x => !isCid x), Good c ∧ c.cdim = n := fun c hc => hz c (List.mem_filter.mp hc).1
      generalize (o :: L).filter (fun x => !isCid x) = F at hg
      match F, hg with
      | [], _ => exact ⟨0, o, rfl, hz o (by simp)⟩
      | [x], hg => exact ⟨0, x, rfl, hg x (by simp)⟩
      | x :: y :: F, hg =>
        dsimp only
        have hall : (x :: y :: F).all (fun c => c.cdim == headCdim (x :: y :: F)) = true := by
          rw [List.all_eq_true]
          intro c hc
          rw [headCdim, (hg c hc).2, (hg x (by simp)).2]
          simp
        obtain ⟨f, m, e, o⟩ := reduce_conv (seriesRule_conv ih) _ (x :: y :: F) le_rfl hg
        refine ⟨f, ?_⟩
        rw [if_pos hall]
        unfold Engine.matchReplaceBinary
        rw [e]
        match m, o with
        | [], o =>
          rcases o.nil rfl with h1 | ⟨r, ⟨_, hr⟩, _, h1⟩
          · cases h1
          · rw [isId1_eq h1] at hr
            exact ⟨.id1, rfl, .id1, hr⟩
        | [z], o => exact ⟨z, rfl, o.all z (by simp)⟩
        | z :: w :: m, o => exact ⟨_, rfl, .series _ n (by simp) (fun c hc => (o.all c hc).1) (fun c hc => (o.all c hc).2), (o.all z (by simp)).2⟩

/-! ### inverses -/

theorem inverse_conv {c : Circ A} (h : Good c) : ∃ f d, (opsAt false f).inverse c = .ok d ∧ Good d ∧ d.cdim = c.cdim := by
  have hm : ∀ f f', f ≤ f' → ∀ x : Circ A, Le ((opsAt false f).inverse x) ((opsAt false f').inverse x) := fun f f' hf x => (opsAt_mono (by simp) hf).inverse x
  have hgood : ∀ {l vs : List (Circ A)}, List.Forall₂ (fun c d => Good d ∧ d.cdim = c.cdim) l vs → (∀ d ∈ vs, Good d) ∧ vs.map Circ.cdim = l.map Circ.cdim := by
    intro l vs h
    induction h with
    | nil => exact ⟨by simp, rfl⟩
    | cons h _ ih =>
      refine ⟨fun d hd => ?_, by rw [List.map_cons, List.map_cons, h.2, ih.2]⟩
      rcases List.mem_cons.mp hd with rfl | hd
      · exact h.1
      · exact ih.1 d hd
  induction h with
  | sym a n h => exact ⟨1, _, rfl, .inv a n h, rfl⟩
  | inv a n h => exact ⟨1, _, rfl, .sym a n h, rfl⟩
  | slh s h => exact ⟨1, _, rfl, .slh _ h, rfl⟩
  | id1 => exact ⟨1, _, rfl, .id1, rfl⟩
  | concat l hl hg ih =>
    obtain ⟨f1, vs, e1, q⟩ := mapM_conv hm l fun c hc => ih c hc
    obtain ⟨g, d⟩ := hgood q
    obtain ⟨f2, c, e2, gz, d2, -⟩ := concat_conv (l := vs) fun c hc => .inr (g c hc)
    have hc : c.cdim = (Circ.concat l).cdim := by rw [d2, sumCdim_eq, d, ← sumCdim_eq]; rfl
    refine ⟨max f1 f2 + 1, c, ?_, gz.good (by rw [hc]; exact (Good.concat l hl hg).pos), hc⟩
    change (l.mapM (opsAt false (max f1 f2)).inverse >>= fun fs => _) = _
    rw [Le.mapM (hm f1 _ (Nat.le_max_left ..)) _ _ e1]
    exact (opsAt_mono (b := false) (by simp) (Nat.le_max_right f1 f2)).concat _ _ e2
  | series l n hl hg hn ih =>
    obtain ⟨f1, vs, e1, q⟩ := mapM_conv hm l.reverse fun c hc => ih c (List.mem_reverse.mp hc)
    obtain ⟨g, d⟩ := hgood q
    have hd : ∀ c ∈ vs, c.cdim = n := fun c hc => by
      have : c.cdim ∈ l.reverse.map Circ.cdim := by rw [← d]; exact List.mem_map_of_mem hc
      obtain ⟨b, hb, e⟩ := List.mem_map.mp this
      rw [← e, hn b (List.mem_reverse.mp hb)]
    have hvs : vs ≠ [] := by
      rintro rfl
      have := congrArg List.length d
      simp only [List.map_nil, List.length_nil, List.map_reverse, List.length_reverse, List.length_map] at this
      exact hl (List.length_eq_zero_iff.mp this.symm)
    obtain ⟨f2, c, e2, gc, d2⟩ := series_conv n vs hvs fun c hc => ⟨g c hc, hd c hc⟩
    refine ⟨max f1 f2 + 1, c, ?_, gc, by rw [d2, Good.series_cdim hl hn]⟩
    change (l.reverse.mapM (opsAt false (max f1 f2)).inverse >>= fun fs => _) = _
    rw [Le.mapM (hm f1 _ (Nat.le_max_left ..)) _ _ e1]
    exact (opsAt_mono (b := false) (by simp) (Nat.le_max_right f1 f2)).series _ _ e2

/-! ### expressions -/

/-- no permutations and no feedback in the expression -/
def Expr.Plain : Expr A → Prop
  | .cperm _ => False
  | .feedback _ _ _ => False
  | .series a b => a.Plain ∧ b.Plain
  | .concat a b => a.Plain ∧ b.Plain
  | .inverse a => a.Plain
  | _ => True

theorem simplify_conv : ∀ e : Expr A, e.WellFormed → e.Plain → ∃ f c, simplify false f e = .ok c ∧ GoodZ c ∧ c.cdim = e.channels
  | .sym a n, hw, _ => ⟨0, _, rfl, .inr (.sym a n hw), rfl⟩
  | .slh s, hw, _ => ⟨0, _, rfl, .inr (.slh s hw.2), rfl⟩
  | .cperm _, _, hp => hp.elim
  | .cid n, _, _ => by
    refine ⟨0, _, rfl, ?_, cid_cdim n⟩
    rcases Nat.eq_zero_or_pos n with rfl | h
    · exact .inl rfl
    · exact .inr (cid_good h)
  | .series a b, hw, hp => by
    obtain ⟨f1, x, e1, g1, d1⟩ := simplify_conv a hw.1 hp.1
    obtain ⟨f2, y, e2, g2, d2⟩ := simplify_conv b hw.2.1 hp.2
    have hxy : x.cdim = y.cdim := by rw [d1, d2, hw.2.2]
    have key : ∃ f c, (opsAt false f).series [x, y] = .ok c ∧ GoodZ c ∧ c.cdim = x.cdim := by
      rcases g1 with rfl | g1
      · rcases g2 with rfl | g2
        · exact ⟨1, .zero, rfl, .inl rfl, rfl⟩
        · have := g2.pos
          rw [← hxy] at this
          simp [Circ.cdim] at this
      · have g2' := g2.good (by rw [← hxy]; exact g1.pos)
        obtain ⟨f, c, e, g, d⟩ := series_conv x.cdim [x, y] (by simp) (by
          intro c hc
          simp only [List.mem_cons, List.not_mem_nil, or_false] at hc
          rcases hc with rfl | rfl
          · exact ⟨g1, rfl⟩
          · exact ⟨g2', hxy.symm⟩)
        exact ⟨f, c, e, .inr g, d⟩
    obtain ⟨f3, c, e3, g3, d3⟩ := key
    refine ⟨max f1 (max f2 f3), c, ?_, g3, by rw [d3, d1]; rfl⟩
    rw [simplify, simplify_mono (b := false) (b' := false) (by simp) (by omega : f1 ≤ max f1 (max f2 f3)) a x e1]
    change (simplify false _ b >>= fun y => _) = _
    rw [simplify_mono (b := false) (b' := false) (by simp) (by omega : f2 ≤ max f1 (max f2 f3)) b y e2]
    exact (opsAt_mono (b := false) (by simp) (by omega : f3 ≤ max f1 (max f2 f3))).series _ _ e3
  | .concat a b, hw, hp => by
    obtain ⟨f1, x, e1, g1, d1⟩ := simplify_conv a hw.1 hp.1
    obtain ⟨f2, y, e2, g2, d2⟩ := simplify_conv b hw.2 hp.2
    obtain ⟨f3, c, e3, g3, d3, -⟩ := concat_conv (l := [x, y]) (by
      intro c hc
      simp only [List.mem_cons, List.not_mem_nil, or_false] at hc
      rcases hc with rfl | rfl <;> assumption)
    refine ⟨max f1 (max f2 f3), c, ?_, g3, by rw [d3, sumCdim, sumCdim, sumCdim, d1, d2]; rfl⟩
    rw [simplify, simplify_mono (b := false) (b' := false) (by simp) (by omega : f1 ≤ max f1 (max f2 f3)) a x e1]
    change (simplify false _ b >>= fun y => _) = _
    rw [simplify_mono (b := false) (b' := false) (by simp) (by omega : f2 ≤ max f1 (max f2 f3)) b y e2]
    exact (opsAt_mono (b := false) (by simp) (by omega : f3 ≤ max f1 (max f2 f3))).concat _ _ e3
  | .feedback _ _ _, _, hp => hp.elim
  | .inverse a, hw, hp => by
    obtain ⟨f1, x, e1, g1, d1⟩ := simplify_conv a hw.1 hp
    obtain ⟨f2, c, e2, g2, d2⟩ := inverse_conv (g1.good (by rw [d1]; exact hw.2))
    refine ⟨max f1 f2, c, ?_, .inr g2, by rw [d2, d1]; rfl⟩
    rw [simplify, simplify_mono (b := false) (b' := false) (by simp) (by omega : f1 ≤ max f1 f2) a x e1]
    exact (opsAt_mono (b := false) (by simp) (by omega : f2 ≤ max f1 f2)).inverse _ _ e2

end QNET.Circuit
