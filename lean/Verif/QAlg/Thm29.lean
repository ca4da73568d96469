import Verif.QAlg.Value
import Verif.Util.KernelRfl
import Mathlib.Data.List.Nodup
import Mathlib.Data.List.Perm.Basic
import Mathlib.Data.Int.Order.Basic
import Mathlib.Algebra.Order.Ring.Int

/-! # C29: collecting summands -/

namespace QNET.QAlg

open QNET.Perm (Res Err)
open QNET.Indexed (Except.bind_ok mapM_ok_cons mapM_ok_forall₂)

variable {K : Type} [CommRing K] [DecidableEq K] {Γ : Ctx K}

/-- C29: the sum created from a list of summands has the same value as the sum of the values of the summands, in every module and
for every linear interpretation of the expressions. -/
theorem C29_value {M : Type} [AddCommGroup M] [Module K M] {v : QX K → M} (hv : LinearVal (K := K) v)
    (hs : ∀ l, (Γ.sortPlus l).Perm l) {n : ℕ} {ops : List (QX K)} {r : QX K} (h : plusCreate Γ n ops = .ok r) :
    v r = (ops.map v).sum := (lin_sound hv hs n).2 ops r h

/-! ## The coefficient map -/

/-- specification: the total coefficient with which the term `t` occurs in a list of summands -/
def total (ops : List (QX K)) (t : QX K) : K := ((ops.filter (fun op => decide ((split op).1 = t))).map (fun op => (split op).2)).sum

/-- the coefficient of `t` in a coefficient map -/
def lookupCoeff (m : List (QX K × K)) (t : QX K) : K := ((m.filter (fun p => decide (p.1 = t))).map (·.2)).sum

theorem addTerm_keys (m : List (QX K × K)) (t : QX K) (c : K) :
    (addTerm m t c).map (·.1) = if t ∈ m.map (·.1) then m.map (·.1) else m.map (·.1) ++ [t] := by
  induction m with
  | nil => simp [addTerm]
  | cons p m ih =>
    obtain ⟨t', c'⟩ := p
    unfold addTerm
    split
    · rename_i h; subst h; simp
    · rename_i h
      have h' : ¬ t = t' := fun e => h e.symm
      simp only [List.map_cons, ih, List.mem_cons, h', false_or]
      split <;> simp

theorem addTerm_nodup {m : List (QX K × K)} (h : (m.map (·.1)).Nodup) (t : QX K) (c : K) : ((addTerm m t c).map (·.1)).Nodup := by
  rw [addTerm_keys]
  split
  · exact h
  · rename_i hn
    rw [List.nodup_append]
    refine ⟨h, by simp, fun a ha b hb e => ?_⟩
    rw [List.mem_singleton] at hb
    rw [← hb, ← e] at hn
    exact hn ha

theorem addTerm_lookup (m : List (QX K × K)) (t : QX K) (c : K) (s : QX K) :
    lookupCoeff (addTerm m t c) s = lookupCoeff m s + if t = s then c else 0 := by
  induction m with
  | nil => by_cases h : t = s <;> simp [addTerm, lookupCoeff, h]
  | cons p m ih =>
    obtain ⟨t', c'⟩ := p
    unfold addTerm
    split
    · rename_i h
      subst h
      by_cases h : t' = s
      · simp [lookupCoeff, h]; ring
      · simp [lookupCoeff, h]
    · unfold lookupCoeff at ih ⊢
      by_cases h : t' = s
      · subst h
        simp only [List.filter_cons, decide_true, if_true, List.map_cons, List.sum_cons, ih, add_assoc]
      · simp only [List.filter_cons, h, decide_false, Bool.false_eq_true, if_false, ih]

theorem foldl_nodup (ops : List (QX K)) : ∀ m : List (QX K × K), (m.map (·.1)).Nodup →
    ((ops.foldl (fun m op => addTerm m (split op).1 (split op).2) m).map (·.1)).Nodup := by
  induction ops with
  | nil => intro m h; exact h
  | cons x l ih => intro m h; exact ih _ (addTerm_nodup h _ _)

theorem coeffMap_nodup (ops : List (QX K)) : ((coeffMap ops).map (·.1)).Nodup := foldl_nodup ops [] (by simp)

theorem foldl_lookup (ops : List (QX K)) (s : QX K) : ∀ m : List (QX K × K),
    lookupCoeff (ops.foldl (fun m op => addTerm m (split op).1 (split op).2) m) s = lookupCoeff m s + total ops s := by
  induction ops with
  | nil => intro m; simp [total]
  | cons x l ih =>
    intro m
    rw [List.foldl_cons, ih, addTerm_lookup, add_assoc]
    congr 1
    by_cases h : (split x).1 = s <;> simp [total, h]

theorem coeffMap_lookup (ops : List (QX K)) (s : QX K) : lookupCoeff (coeffMap ops) s = total ops s := by
  rw [coeffMap, foldl_lookup]; simp [lookupCoeff]

theorem foldl_mem (ops : List (QX K)) (s : QX K) : ∀ m : List (QX K × K),
    s ∈ (ops.foldl (fun m op => addTerm m (split op).1 (split op).2) m).map (·.1) ↔ s ∈ m.map (·.1) ∨ s ∈ ops.map (fun x => (split x).1) := by
  induction ops with
  | nil => intro m; simp
  | cons x l ih =>
    intro m
    rw [List.foldl_cons, ih, addTerm_keys, List.map_cons, List.mem_cons]
    split
    · rename_i h
      constructor
      · rintro (h1 | h1)
        · exact .inl h1
        · exact .inr (.inr h1)
      · rintro (h1 | rfl | h1)
        · exact .inl h1
        · exact .inl h
        · exact .inr h1
    · rw [List.mem_append, List.mem_singleton]; tauto

theorem coeffMap_mem (ops : List (QX K)) (s : QX K) : s ∈ (coeffMap ops).map (·.1) ↔ s ∈ ops.map (fun x => (split x).1) := by
  rw [coeffMap, foldl_mem]; simp

theorem lookupCoeff_of_mem {m : List (QX K × K)} (h : (m.map (·.1)).Nodup) {t : QX K} {c : K} (hm : (t, c) ∈ m) : lookupCoeff m t = c := by
  induction m with
  | nil => cases hm
  | cons p m ih =>
    obtain ⟨t', c'⟩ := p
    rw [List.map_cons, List.nodup_cons] at h
    rcases List.mem_cons.mp hm with e | hm
    · cases e
      have : m.filter (fun p => decide (p.1 = t)) = [] := by
        rw [List.filter_eq_nil_iff]
        intro p hp
        simp only [decide_eq_true_eq]
        rintro rfl
        exact h.1 (List.mem_map.mpr ⟨p, hp, rfl⟩)
      simp [lookupCoeff, this]
    · have hne : t' ≠ t := by
        rintro rfl
        exact h.1 (List.mem_map.mpr ⟨_, hm, rfl⟩)
      have := ih h.2 hm
      unfold lookupCoeff at this ⊢
      rw [List.filter_cons]
      simpa [hne] using this

/-- the coefficient map depends on the order of the summands only by its order -/
theorem coeffMap_perm {l l' : List (QX K)} (h : l.Perm l') : (coeffMap l).Perm (coeffMap l') := by
  have hnd : ∀ l : List (QX K), (coeffMap l).Nodup := fun l => List.Nodup.of_map _ (coeffMap_nodup l)
  rw [List.perm_ext_iff_of_nodup (hnd l) (hnd l')]
  have key : ∀ {l l' : List (QX K)}, l.Perm l' → ∀ p, p ∈ coeffMap l → p ∈ coeffMap l' := by
    rintro l l' h ⟨t, c⟩ hp
    have h1 : t ∈ (coeffMap l').map (·.1) := by
      rw [coeffMap_mem, ← (h.map (fun x => (split x).1)).mem_iff, ← coeffMap_mem]
      exact List.mem_map.mpr ⟨_, hp, rfl⟩
    obtain ⟨⟨t', c'⟩, h2, rfl⟩ := List.mem_map.mp h1
    have h3 := lookupCoeff_of_mem (coeffMap_nodup l) hp
    have h4 := lookupCoeff_of_mem (coeffMap_nodup l') h2
    rw [coeffMap_lookup] at h3 h4
    have h5 : total l t' = total l' t' := by
      unfold total
      exact ((h.filter _).map _).sum_eq
    simp only at h2 h3 h4 ⊢
    rw [← h3, h5, h4]
    exact h2
  exact fun p => ⟨key h p, key h.symm p⟩

/-! ## The result -/

/-- a term that is not itself a sum, a scalar multiple or zero -/
def Simple : QX K → Prop
  | .zero => False
  | .scal _ _ => False
  | .plus _ => False
  | _ => True

/-- `c * t` for a simple term -/
def scaled (c : K) (t : QX K) : QX K := if c = 1 then t else if c = 0 then .zero else .scal c t

theorem mulScal_simple {n : ℕ} {c : K} {t r : QX K} (ht : Simple t) (h : mulScal Γ n c t = .ok r) : r = scaled c t := by
  cases n with
  | zero => rw [mulScal] at h; cases h
  | succ n =>
    rw [mulScal] at h
    unfold mulScalStep at h
    unfold scaled
    split at h
    · rename_i hc; cases h; rw [if_pos hc]
    split at h
    · rename_i hc hc'; cases h; rw [if_neg hc, if_pos hc']
    rename_i hc hc'
    rw [if_neg hc, if_neg hc']
    cases t <;> first | exact ht.elim | (cases h; rfl)

theorem mulScal_zero {n : ℕ} {c : K} {r : QX K} (h : mulScal Γ n c .zero = .ok r) : r = .zero := by
  cases n with
  | zero => rw [mulScal] at h; cases h
  | succ n =>
    rw [mulScal] at h
    unfold mulScalStep at h
    split at h
    · cases h; rfl
    split at h
    · cases h; rfl
    cases h; rfl

/-- the summands of the result: one for every term with non-zero total coefficient -/
def summandsFor (m : List (QX K × K)) : List (QX K) :=
  (m.filter (fun p => !decide (p.2 = 0) && !decide (p.1 = .zero))).map (fun p => scaled p.2 p.1)

omit [CommRing K] [DecidableEq K] in
theorem Simple.ne {t : QX K} (h : Simple t) : t ≠ .zero := by rintro rfl; exact h

theorem collected_simple [Nontrivial K] {n : ℕ} {m : List (QX K × K)} {fops : List (QX K)} (hs : ∀ x ∈ m, x.1 = .zero ∨ Simple x.1)
    (h : m.mapM (fun tc => mulScal Γ n tc.2 tc.1) = .ok fops) :
    fops.filter (fun op => !decide (op = .zero)) = summandsFor m := by
  have h3 := mapM_ok_forall₂ h
  clear h
  induction h3 with
  | nil => rfl
  | @cons p x m fops hp _ ih =>
    have ih := ih (fun q hq => hs q (List.mem_cons_of_mem _ hq))
    unfold summandsFor at ih ⊢
    rw [List.filter_cons, List.filter_cons]
    rcases hs p (by simp) with h0 | hsimp
    · rw [h0] at hp
      simp [mulScal_zero hp, h0, ih]
    · rw [mulScal_simple hsimp hp]
      by_cases hc : p.2 = 0
      · have : scaled p.2 p.1 = .zero := by simp [scaled, hc]
        simp [hc, ih, scaled]
      · have : scaled p.2 p.1 ≠ .zero := by
          unfold scaled
          split
          · exact hsimp.ne
          · exact fun e => by cases e
        simp [hc, this, ih, hsimp.ne]

theorem split_scaled {c : K} {t : QX K} (ht : Simple t) (hc : c ≠ 0) : split (scaled c t) = (t, c) := by
  unfold scaled
  split
  · rename_i h; subst h; cases t <;> first | exact ht.elim | rfl
  · rfl

omit [DecidableEq K] [CommRing K] in
theorem wrapPlus_cases (l : List (QX K)) : (wrapPlus l = .zero ∧ l = []) ∨ l = [wrapPlus l] ∨ (wrapPlus l = .plus l ∧ 2 ≤ l.length) := by
  match l with
  | [] => exact .inl ⟨rfl, rfl⟩
  | [x] => exact .inr (.inl rfl)
  | x :: y :: l => exact .inr (.inr ⟨rfl, by simp⟩)

theorem summandsFor_split {m : List (QX K × K)} (hs : ∀ x ∈ m, x.1 = .zero ∨ Simple x.1) :
    (summandsFor m).map split = m.filter (fun p => !decide (p.2 = 0) && !decide (p.1 = .zero)) := by
  unfold summandsFor
  rw [List.map_map]
  conv_rhs => rw [← List.map_id (m.filter _)]
  apply List.map_congr_left
  intro p hp
  obtain ⟨h1, h2⟩ := List.mem_filter.mp hp
  simp only [Bool.and_eq_true, Bool.not_eq_true', decide_eq_false_iff_not] at h2
  exact split_scaled ((hs p h1).resolve_left h2.2) h2.1

theorem lookupCoeff_filter (m : List (QX K × K)) {t : QX K} (ht : t ≠ .zero) :
    lookupCoeff (m.filter (fun p => !decide (p.2 = 0) && !decide (p.1 = .zero))) t = lookupCoeff m t := by
  induction m with
  | nil => rfl
  | cons p m ih =>
    unfold lookupCoeff at ih ⊢
    by_cases h1 : p.1 = t
    · have h2 : p.1 ≠ .zero := by rw [h1]; exact ht
      by_cases h3 : p.2 = 0
      · simp only [List.filter_cons, h3, decide_true, Bool.not_true, Bool.false_and, Bool.false_eq_true, if_false, ih, h1, if_true,
          List.map_cons, List.sum_cons, zero_add]
      · simp only [List.filter_cons, h3, ht, decide_false, Bool.not_false, Bool.true_and, if_true, h1, decide_true, List.map_cons, List.sum_cons, ih]
    · rw [List.filter_cons]
      split
      · simp only [List.filter_cons, h1, decide_false, Bool.false_eq_true, if_false, ih]
      · rw [ih]; simp [List.filter_cons, h1]

theorem lookupCoeff_split (l : List (QX K)) (t : QX K) : lookupCoeff (l.map split) t = total l t := by
  unfold lookupCoeff total
  rw [List.filter_map, List.map_map]
  rfl

/-- the list of summands that a sum is made of -/
def flatten (ops : List (QX K)) : List (QX K) := ops.flatMap (fun o => match o with | .plus l => l | x => [x])

omit [DecidableEq K] [CommRing K] in
theorem flatten_eq (ops : List (QX K)) : Engine.assoc flatPlus ops = flatten ops := by
  unfold Engine.assoc flatten
  congr 1
  funext o
  cases o <;> rfl

/-- C29 (partial): if no summand (after flattening nested sums) is a scalar multiple of a sum or of a scalar multiple, then the created
sum consists of summands `c * t` with pairwise different terms `t`, non-zero coefficients `c`, none of them zero, and the
coefficient of every term is the total coefficient that it has in the input. (`out` is the list of summands of the result: none
for zero, the result itself if it is not a sum.) Without the assumption this is false, see `C29_refuted_scaled_sum`. -/
theorem C29_distinct_partial [Nontrivial K] (hs : ∀ l, (Γ.sortPlus l).Perm l) {n : ℕ} {ops : List (QX K)} {r : QX K}
    (hops : ∀ x ∈ flatten ops, (split x).1 = .zero ∨ Simple (split x).1) (h : plusCreate Γ n ops = .ok r) :
    ∃ out : List (QX K), ((r = .zero ∧ out = []) ∨ out = [r] ∨ (r = .plus out ∧ 2 ≤ out.length)) ∧
      (out.map (fun x => (split x).1)).Nodup ∧ (∀ x ∈ out, (split x).2 ≠ 0 ∧ x ≠ .zero) ∧
      (∀ t, t ≠ .zero → total out t = total (flatten ops) t) := by
  cases n with
  | zero => rw [plusCreate] at h; cases h
  | succ n =>
    rw [plusCreate] at h
    obtain ⟨fops, h1, h2⟩ := Except.bind_ok h
    cases h2
    rw [flatten_eq] at h1
    have hs' : ∀ x ∈ coeffMap (Γ.sortPlus (flatten ops)), x.1 = .zero ∨ Simple x.1 := by
      intro x hx
      have : x.1 ∈ (coeffMap (Γ.sortPlus (flatten ops))).map (·.1) := List.mem_map.mpr ⟨x, hx, rfl⟩
      rw [coeffMap_mem, ((hs _).map _).mem_iff] at this
      obtain ⟨y, hy, e⟩ := List.mem_map.mp this
      rw [← e]; exact hops y hy
    rw [collected_simple hs' h1]
    have hsp := summandsFor_split hs'
    refine ⟨summandsFor (coeffMap (Γ.sortPlus (flatten ops))), wrapPlus_cases _, ?_, ?_, ?_⟩
    · have : (summandsFor (coeffMap (Γ.sortPlus (flatten ops)))).map (fun x => (split x).1)
          = ((summandsFor (coeffMap (Γ.sortPlus (flatten ops)))).map split).map (·.1) := by rw [List.map_map]; rfl
      rw [this, hsp]
      exact (coeffMap_nodup _).sublist (List.filter_sublist.map _)
    · intro x hx
      have h3 : split x ∈ (summandsFor (coeffMap (Γ.sortPlus (flatten ops)))).map split := List.mem_map.mpr ⟨x, hx, rfl⟩
      rw [hsp, List.mem_filter] at h3
      obtain ⟨_, h3⟩ := h3
      simp only [Bool.and_eq_true, Bool.not_eq_true', decide_eq_false_iff_not] at h3
      refine ⟨h3.1, ?_⟩
      rintro rfl
      exact h3.2 rfl
    · intro t ht
      rw [← lookupCoeff_split, hsp, lookupCoeff_filter _ ht, coeffMap_lookup]
      unfold total
      exact (((hs _).filter _).map _).sum_eq

/-- two expressions that differ at most in the order of the summands of a sum -/
def SameUpToOrder (r r' : QX K) : Prop := r = r' ∨ ∃ l l', r = .plus l ∧ r' = .plus l' ∧ l.Perm l'

omit [DecidableEq K] [CommRing K] in
theorem wrapPlus_perm {l l' : List (QX K)} (h : l.Perm l') : SameUpToOrder (wrapPlus l) (wrapPlus l') := by
  match l, l', h with
  | [], l', h => rw [List.nil_perm.mp h]; exact .inl rfl
  | [x], l', h => rw [List.singleton_perm.mp h]; exact .inl rfl
  | x :: y :: l, l', h =>
    match l', h.length_eq with
    | x' :: y' :: l', _ => exact .inr ⟨_, _, rfl, rfl, h⟩

theorem mapM_perm {α β : Type} {f : α → Res β} {l l' : List α} (h : l.Perm l') : ∀ r r', l.mapM f = .ok r → l'.mapM f = .ok r' → r.Perm r' := by
  have key : ∀ {l : List α} {r : List β}, l.mapM f = .ok r → ∀ (g : α → β), (∀ a ∈ l, ∀ b, f a = .ok b → g a = b) → r = l.map g := by
    intro l r h g hg
    have h2 := mapM_ok_forall₂ h
    clear h
    induction h2 with
    | nil => rfl
    | @cons a b l r h1 _ ih =>
      rw [List.map_cons, hg a (by simp) b h1, ih (fun a ha => hg a (List.mem_cons_of_mem _ ha))]
  intro r r' h1 h2
  cases r with
  | nil =>
    cases l with
    | nil => rw [List.nil_perm.mp h] at h2; cases h2; exact .refl _
    | cons a l => obtain ⟨_, _, _, _, e⟩ := mapM_ok_cons h1; cases e
  | cons b0 r =>
    let g : α → β := fun a => match f a with | .ok b => b | .error _ => b0
    have hg : ∀ a b, f a = .ok b → g a = b := by
      intro a b e
      simp only [g, e]
    rw [key h1 g (fun a _ => hg a), key h2 g (fun a _ => hg a)]
    exact h.map g

/-- C29: the order in which summands are given is irrelevant up to the order of the summands in the result; if the sorting of summands is
canonical, it is irrelevant altogether. -/
theorem C29_order_irrelevant (hs : ∀ l, (Γ.sortPlus l).Perm l) {n : ℕ} {ops ops' : List (QX K)} (hp : ops.Perm ops') {r r' : QX K}
    (h : plusCreate Γ n ops = .ok r) (h' : plusCreate Γ n ops' = .ok r') :
    SameUpToOrder r r' ∧ ((∀ l l' : List (QX K), l.Perm l' → Γ.sortPlus l = Γ.sortPlus l') → r = r') := by
  cases n with
  | zero => rw [plusCreate] at h; cases h
  | succ n =>
    rw [plusCreate] at h h'
    obtain ⟨fops, h1, h2⟩ := Except.bind_ok h
    obtain ⟨fops', h1', h2'⟩ := Except.bind_ok h'
    cases h2; cases h2'
    rw [flatten_eq] at h1 h1'
    have hf : (flatten ops).Perm (flatten ops') := hp.flatMap_right _
    refine ⟨?_, fun hc => ?_⟩
    · exact wrapPlus_perm ((mapM_perm (coeffMap_perm ((hs _).trans (hf.trans (hs _).symm))) _ _ h1 h1').filter _)
    · rw [hc _ _ hf, h1'] at h1
      cases h1; rfl

/-! ## Concrete cases -/

/-- a context without special rules, in which operands are left in the given order -/
def Ctx.plain (K : Type) : Ctx K := ⟨fun _ _ => none, id, id, fun _ _ => false, fun _ _ => false, fun _ _ => false, fun _ _ => false⟩

/-- `2*A + B - 3*A + 0 + B + A*B - B*... ` : A(2-3) + 2B + A*B -/
example : plusCreate (Ctx.plain ℤ) 5 [.scal 2 (.atom 0), .plus [.atom 1, .scal (-3) (.atom 0)], .zero, .atom 1, .times [.atom 0, .atom 1]]
    = .ok (.plus [.scal (-1) (.atom 0), .scal 2 (.atom 1), .times [.atom 0, .atom 1]]) := by kernel_rfl
example : plusCreate (Ctx.plain ℤ) 5 [.atom 0, .scal (-1) (.atom 0)] = .ok .zero := by kernel_rfl
example : plusCreate (Ctx.plain ℤ) 5 [.atom 1, .atom 0, .scal (-1) (.atom 1)] = .ok (.atom 0) := by kernel_rfl

/-- C29 refuted in general: `2*(A+B) + (-3)*(A+B) + A` is simplified to the sum of a sum and `A`, in which the term `A` occurs twice,
with coefficients -1 and 1 (while `-A - B + A` is simplified to `-B`). -/
theorem C29_refuted_scaled_sum :
    plusCreate (Ctx.plain ℤ) 6 [.scal 2 (.plus [.atom 0, .atom 1]), .scal (-3) (.plus [.atom 0, .atom 1]), .atom 0]
      = .ok (.plus [.plus [.scal (-1) (.atom 0), .scal (-1) (.atom 1)], .atom 0]) ∧
    plusCreate (Ctx.plain ℤ) 6 [.plus [.scal (-1) (.atom 0), .scal (-1) (.atom 1)], .atom 0] = .ok (.scal (-1) (.atom 1)) := by
  constructor <;> kernel_rfl

end QNET.QAlg
