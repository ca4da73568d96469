import Verif.Hilbert.Thm
import Verif.Util.KernelRfl
import Mathlib.Algebra.FreeMonoid.Basic

/-!
# C44, C28: automatic ordering of operands (src/qnet/utils/ordering.py, `orderby` in algebraic_properties.py)
-/

namespace QNET.Hilbert

open QNET.Order QNET.Perm

/-! ### space keys are always comparable and determine the space -/

theorem comparableKeys_append {c d : List KV} : ∀ (a b : List KV), a.length = b.length → ComparableKeys a b → (a = b → ComparableKeys c d) →
    ComparableKeys (a ++ c) (b ++ d)
  | [], [], _, _, h => h rfl
  | [], _ :: _, h, _, _ => by simp at h
  | _ :: _, [], h, _, _ => by simp at h
  | x :: a, y :: b, hl, h, h2 => by
    refine ⟨h.1, fun e => comparableKeys_append a b (by simpa using hl) (h.2 e) (fun e' => h2 (by rw [e, e']))⟩

theorem Loc.key_length (l : Loc) : l.key.length = 5 := rfl

theorem prod_comparable : ∀ (a b : List Loc), (∀ l ∈ a, l.WF) → (∀ l ∈ b, l.WF) → ComparableKeys (a.flatMap Loc.key) (b.flatMap Loc.key)
  | [], _, _, _ => by simp [ComparableKeys]
  | _ :: _, [], _, _ => by
    simp only [List.flatMap_cons, List.flatMap_nil, Loc.key, List.cons_append]
    trivial
  | x :: a, y :: b, ha, hb => by
    simp only [List.flatMap_cons]
    refine comparableKeys_append _ _ rfl (Loc.comparable (ha x (by simp)) (hb y (by simp))) (fun _ => ?_)
    exact prod_comparable a b (fun l h => ha l (by simp [h])) (fun l h => hb l (by simp [h]))

theorem prod_key_inj : ∀ (a b : List Loc), (∀ l ∈ a, l.WF) → (∀ l ∈ b, l.WF) → a.flatMap Loc.key = b.flatMap Loc.key → a = b
  | [], [], _, _, _ => rfl
  | [], y :: b, _, _, h => by simp [Loc.key] at h
  | x :: a, [], _, _, h => by simp [Loc.key] at h
  | x :: a, y :: b, ha, hb, h => by
    simp only [List.flatMap_cons] at h
    obtain ⟨h1, h2⟩ := List.append_inj h rfl
    rw [Loc.key_inj (ha x (by simp)) (hb y (by simp)) h1,
      prod_key_inj a b (fun l h => ha l (by simp [h])) (fun l h => hb l (by simp [h])) h2]

/-- the local factors in order -/
def Space.locs? : Space → Option (List Loc)
  | .loc l => some [l]
  | .prod ls => some ls
  | _ => none

theorem Space.key_locs {s : Space} {ls : List Loc} (h : s.locs? = some ls) : s.key = ls.flatMap Loc.key := by
  cases s <;> simp [locs?] at h <;> subst h <;> simp [key]

theorem Space.wf_locs {s : Space} (hs : s.WF) {ls : List Loc} (h : s.locs? = some ls) : (∀ l ∈ ls, l.WF) ∧ ls ≠ [] := by
  cases s with
  | trivial => simp [locs?] at h
  | full => simp [locs?] at h
  | loc l => simp [locs?] at h; subst h; simpa [WF] using hs
  | prod l =>
    simp [locs?] at h; subst h
    refine ⟨hs.2.1, ?_⟩
    rintro rfl
    have := hs.1
    simp at this

theorem short_comparable (q : ℚ) (s : Str) (ls : List Loc) : ComparableKeys [.num q, .str s] (ls.flatMap Loc.key) := by
  cases ls with
  | nil => simp [ComparableKeys]
  | cons l ls =>
    simp only [List.flatMap_cons, Loc.key, List.cons_append]
    refine ⟨Or.inl ?_, fun _ => ⟨Or.inl trivial, fun _ => trivial⟩⟩
    cases l.orderIndex <;> simp [Comparable]

/-- The keys of any two Hilbert spaces can be compared. -/
theorem space_comparable {a b : Space} (ha : a.WF) (hb : b.WF) : ComparableKeys a.key b.key := by
  cases ea : a.locs? with
  | some la =>
    cases eb : b.locs? with
    | some lb =>
      rw [Space.key_locs ea, Space.key_locs eb]
      exact prod_comparable _ _ (Space.wf_locs ha ea).1 (Space.wf_locs hb eb).1
    | none =>
      rw [Space.key_locs ea]
      apply comparableKeys_symm
      cases b <;> simp [Space.locs?] at eb <;> exact short_comparable _ _ _
  | none =>
    cases eb : b.locs? with
    | some lb =>
      rw [Space.key_locs eb]
      cases a <;> simp [Space.locs?] at ea <;> exact short_comparable _ _ _
    | none =>
      cases a <;> simp [Space.locs?] at ea <;> cases b <;> simp [Space.locs?] at eb <;>
        simp [Space.key, ComparableKeys, Comparable]

/-- Different Hilbert spaces have different keys. -/
theorem space_key_inj {a b : Space} (ha : a.WF) (hb : b.WF) (h : a.key = b.key) : a = b := by
  have hshort : ∀ (q : ℚ) (s : Str) (ls : List Loc), ls ≠ [] → [KV.num q, .str s] ≠ ls.flatMap Loc.key := by
    intro q s ls hne e
    cases ls with
    | nil => exact hne rfl
    | cons l ls =>
      have := congrArg List.length e
      simp [Loc.key_length] at this
      omega
  cases ea : a.locs? with
  | some la =>
    cases eb : b.locs? with
    | some lb =>
      rw [Space.key_locs ea, Space.key_locs eb] at h
      have e := prod_key_inj _ _ (Space.wf_locs ha ea).1 (Space.wf_locs hb eb).1 h
      subst e
      cases a with
      | loc l =>
        cases b with
        | loc m => simp [Space.locs?] at ea eb; subst ea; simp at eb; rw [eb]
        | prod m =>
          simp [Space.locs?] at ea eb; subst ea; subst eb
          have := hb.1; simp at this
        | _ => simp [Space.locs?] at eb
      | prod l =>
        cases b with
        | loc m =>
          simp [Space.locs?] at ea eb; subst ea; subst eb
          have := ha.1; simp at this
        | prod m => simp [Space.locs?] at ea eb; subst ea; rw [eb]
        | _ => simp [Space.locs?] at eb
      | _ => simp [Space.locs?] at ea
    | none =>
      exfalso
      rw [Space.key_locs ea] at h
      cases b <;> simp [Space.locs?] at eb <;> exact hshort _ _ _ (Space.wf_locs ha ea).2 h.symm
  | none =>
    cases eb : b.locs? with
    | some lb =>
      exfalso
      rw [Space.key_locs eb] at h
      cases a <;> simp [Space.locs?] at ea <;> exact hshort _ _ _ (Space.wf_locs hb eb).2 h
    | none =>
      cases a <;> simp [Space.locs?] at ea <;> cases b <;> simp [Space.locs?] at eb <;> simp [Space.key] at h ⊢
      all_goals exact absurd h (by decide)

/-! ### C44 -/

/-- C44: on keys that can be compared pairwise, `KeyTuple.__lt__` is irreflexive, transitive and any two different keys are ordered. -/
theorem C44_total {a b c : List KV} (hab : ComparableKeys a b) (hbc : ComparableKeys b c) :
    klt a a = false ∧ (klt a b = true → klt b c = true → klt a c = true) ∧
    (klt a b = true ∨ a = b ∨ klt b a = true) ∧ ¬ (klt a b = true ∧ klt b a = true) := by
  refine ⟨klt_self a, klt_trans' hab hbc, klt_trichotomy hab, fun ⟨h1, h2⟩ => ?_⟩
  have := klt_trans' hab (comparableKeys_symm hab) h1 h2
  rw [klt_self] at this; cases this

/-- C44: keys with elements of different kinds are compared as strings, and then the comparison is not transitive:
`(10,) < ('1z',) < (2,) < (10,)`. -/
theorem C44_mixed_intransitive : ∃ a b c : List KV, klt a b = true ∧ klt b c = true ∧ klt a c = false ∧ klt c a = true :=
  ⟨[.num 10], [.str ['1', 'z']], [.num 2], by decide +kernel⟩

/-- C44: the keys of any two Hilbert spaces can be compared, and different spaces are ordered one way or the other. -/
theorem C44_spaces {a b : Space} (ha : Reachable a) (hb : Reachable b) :
    ComparableKeys a.key b.key ∧ (klt a.key b.key = true ∨ a = b ∨ klt b.key a.key = true) := by
  have hc := space_comparable ha.wf hb.wf
  refine ⟨hc, ?_⟩
  rcases klt_trichotomy hc with h | h | h
  · exact Or.inl h
  · exact Or.inr (Or.inl (space_key_inj ha.wf hb.wf h))
  · exact Or.inr (Or.inr h)

/-- An operand as the ordering classes see it: its Hilbert space, its order key and some further content (the expression itself). -/
structure Opd where
  space : Space
  key : List KV
  name : ℕ

/-- `FullCommutativeHSOrder.__lt__`, ordering.py lines 148-152. -/
def fullLt (a b : Opd) : Bool := if a.space = b.space then klt a.key b.key else klt a.space.key b.space.key

/-- C44: `FullCommutativeHSOrder` is a strict weak order on operands with pairwise comparable keys, and operands that it does not order
have the same space and the same key. -/
theorem C44_full_order (P : Opd → Prop) (hs : ∀ a, P a → Reachable a.space) (hk : ∀ a b, P a → P b → ComparableKeys a.key b.key) :
    StrictWeak fullLt P ∧ ∀ a b, P a → P b → fullLt a b = false → fullLt b a = false → a.space = b.space ∧ a.key = b.key := by
  have hW := strictWeak_keys Space.key Space.WF (fun _ _ => space_comparable)
  have hO := strictWeak_keys Opd.key P hk
  have htri : ∀ a b, P a → P b → a.space ≠ b.space → klt a.space.key b.space.key = true ∨ klt b.space.key a.space.key = true := by
    intro a b ha hb hne
    rcases (C44_spaces (hs a ha) (hs b hb)).2 with h | h | h
    · exact Or.inl h
    · exact absurd h hne
    · exact Or.inr h
  refine ⟨⟨?_, ?_, ?_⟩, ?_⟩
  · intro a ha
    simp [fullLt, klt_self]
  · intro a b ha hb h
    unfold fullLt at *
    by_cases e : a.space = b.space
    · rw [if_pos e] at h; rw [if_pos e.symm]
      exact hO.asymm a b ha hb h
    · rw [if_neg e] at h; rw [if_neg (fun h => e h.symm)]
      exact hW.asymm _ _ (hs a ha).wf (hs b hb).wf h
  · intro a b c ha hb hc h
    unfold fullLt at *
    by_cases e : a.space = c.space
    · rw [if_pos e] at h
      by_cases e2 : a.space = b.space
      · rw [if_pos e2, if_pos (e2.symm.trans e)]
        exact hO.neg_trans a b c ha hb hc h
      · rw [if_neg e2, if_neg (fun h => e2 (e.trans h.symm))]
        rw [← e]
        exact htri a b ha hb e2
    · rw [if_neg e] at h
      by_cases e2 : a.space = b.space
      · rw [if_neg (fun h => e (e2.trans h)), ← e2]
        exact Or.inr h
      · by_cases e3 : b.space = c.space
        · rw [if_neg e2, e3]
          exact Or.inl h
        · rw [if_neg e2, if_neg e3]
          exact hW.neg_trans _ _ _ (hs a ha).wf (hs b hb).wf (hs c hc).wf h
  · intro a b ha hb h1 h2
    unfold fullLt at *
    by_cases e : a.space = b.space
    · rw [if_pos e] at h1; rw [if_pos e.symm] at h2
      refine ⟨e, ?_⟩
      rcases klt_trichotomy (hk a b ha hb) with h | h | h
      · rw [h1] at h; cases h
      · exact h
      · rw [h2] at h; cases h
    · rw [if_neg e] at h1; rw [if_neg (fun h => e h.symm)] at h2
      rcases htri a b ha hb e with h | h
      · rw [h1] at h; cases h
      · rw [h2] at h; cases h

/-- C44: a sorted rearrangement of the operands (no later operand is smaller than an earlier one) is unique if different operands have
different keys or spaces - so the result of sorting depends neither on the sorting algorithm nor on the order of the input; and Python's
sort produces such a rearrangement. -/
theorem C44_sort_deterministic (ops : List Opd) (hs : ∀ a ∈ ops, Reachable a.space)
    (hk : ∀ a ∈ ops, ∀ b ∈ ops, ComparableKeys a.key b.key)
    (hd : ops.Pairwise (fun a b => ¬ (a.space = b.space ∧ a.key = b.key))) :
    (∀ r r' : List Opd, r.Perm ops → r'.Perm ops → r.Pairwise (fun a b => fullLt b a = false) →
      r'.Pairwise (fun a b => fullLt b a = false) → r = r') ∧
    (pysort fullLt ops).Perm ops ∧ (pysort fullLt ops).Pairwise (fun a b => fullLt b a = false) ∧
    ∀ ops' : List Opd, ops'.Perm ops → pysort fullLt ops' = pysort fullLt ops := by
  obtain ⟨hW, hT⟩ := C44_full_order (fun a => a ∈ ops) hs (fun a b ha hb => hk a ha b hb)
  have huniq : ∀ r r' : List Opd, r.Perm ops → r'.Perm ops → r.Pairwise (fun a b => fullLt b a = false) →
      r'.Pairwise (fun a b => fullLt b a = false) → r = r' := by
    have hst : ∀ r : List Opd, r.Perm ops → r.Pairwise (fun a b => fullLt b a = false) → r.Pairwise (fun a b => fullLt a b = true) := by
      intro r hr hp
      have hd' : r.Pairwise (fun a b => ¬ (a.space = b.space ∧ a.key = b.key)) :=
        (hr.pairwise_iff (fun {a b} h hc => h ⟨hc.1.symm, hc.2.symm⟩)).mpr hd
      refine List.Pairwise.imp_of_mem ?_ (hp.and hd')
      rintro a b ha hb ⟨h1, h2⟩
      cases h : fullLt a b with
      | true => rfl
      | false => exact absurd (hT a b (hr.mem_iff.mp ha) (hr.mem_iff.mp hb) h h1) h2
    intro r r' hr hr' hp hp'
    exact eq_of_sorted hW r r' (fun x hx => hr.mem_iff.mp hx) (fun x hx => hr'.mem_iff.mp hx) (hst r hr hp) (hst r' hr' hp')
      (fun x => (hr.trans hr'.symm).mem_iff)
  have hsort : ∀ ops' : List Opd, ops'.Perm ops → (pysort fullLt ops').Perm ops ∧
      (pysort fullLt ops').Pairwise (fun a b => fullLt b a = false) := by
    intro ops' h
    rw [pysort_eq_isort hW ops' (fun y hy => h.mem_iff.mp hy)]
    refine ⟨(isort_perm _ _).trans h, ?_⟩
    refine (isort_sorted hW ops' (fun y hy => h.mem_iff.mp hy)).imp ?_
    intro a b hab
    simpa [leOf] using hab
  refine ⟨huniq, (hsort ops (.refl _)).1, (hsort ops (.refl _)).2, fun ops' h => ?_⟩
  exact huniq _ _ (hsort ops' h).1 (hsort ops (.refl _)).1 (hsort ops' h).2 (hsort ops (.refl _)).2

/-- three operands: the order follows the spaces first and the keys second -/
example : (pysort fullLt [⟨.loc l2, [.str ['A']], 0⟩, ⟨.loc l1, [.str ['B']], 1⟩, ⟨.loc l1, [.str ['A']], 2⟩, ⟨.prod [l1, l2], [.str ['A']], 3⟩]).map
    Opd.name = [2, 1, 3, 0] := by decide +kernel

/-! ### C28 -/

/-- `DisjunctCommutativeHSOrder.__lt__`, ordering.py lines 113-119; `None` counts as false. Simplification: an exception of `isdisjoint`
(left operand on the full space) counts as false as well; the theorems below exclude the full space. -/
def disjLt (a b : Opd) : Bool :=
  if a.space = .trivial ∧ b.space = .trivial then klt a.key b.key
  else match isDisjoint a.space b.space with
    | .ok true => klt a.space.key b.space.key
    | _ => false

/-- `OperatorTimes.create(*ops)`, the simplification `orderby` (algebraic_properties.py lines 107-118) with
`order_key = DisjunctCommutativeHSOrder` (abstract_quantum_algebra.py line 506). -/
def orderTimes (ops : List Opd) : List Opd := pysort disjLt ops

/-- Specification: two operands act on disjoint sets of degrees of freedom. -/
def DisjointOps (a b : Opd) : Prop := ∃ f g : Finset Loc, factors a.space = some f ∧ factors b.space = some g ∧ Disjoint f g

theorem isDisjoint_iff {a b : Opd} (hb : b.space ≠ .full) : isDisjoint a.space b.space = .ok true ↔ DisjointOps a b := by
  by_cases ha : a.space = .full
  · unfold DisjointOps
    rw [isDisjoint, if_neg hb, ha]
    simp only [factors, localFactors]
    constructor
    · intro h; cases h
    · rintro ⟨f, g, h, -⟩; cases h
  · obtain ⟨r, h1, h2⟩ := C26_disjoint a.space b.space ha hb
    rw [h1]
    unfold DisjointOps
    rw [fset_of ha, fset_of hb]
    constructor
    · intro h
      injection h with h
      exact ⟨_, _, rfl, rfl, h2.mp h⟩
    · rintro ⟨f, g, hf, hg, h⟩
      injection hf with hf; injection hg with hg
      subst hf; subst hg
      rw [h2.mpr h]

theorem disjointOps_symm {a b : Opd} (h : DisjointOps a b) : DisjointOps b a := by
  obtain ⟨f, g, h1, h2, h3⟩ := h
  exact ⟨g, f, h2, h1, h3.symm⟩

theorem disj_of_lt {a b : Opd} (hb : b.space ≠ .full) (h : disjLt a b = true) : DisjointOps a b := by
  unfold disjLt at h
  split at h
  · rename_i h1
    exact ⟨∅, ∅, by rw [h1.1]; rfl, by rw [h1.2]; rfl, by simp⟩
  · split at h
    · rename_i h2
      exact (isDisjoint_iff hb).mp h2
    · cases h

theorem swaps_of_strictWeak {ops : List Opd} (hf : ∀ a ∈ ops, a.space ≠ .full) (hW : StrictWeak disjLt (fun a => a ∈ ops)) :
    Swaps DisjointOps ops (orderTimes ops) := by
  unfold orderTimes
  rw [pysort_eq_isort hW ops (fun _ h => h)]
  -- restrict the comparison to operands that are not on the full space
  have key : ∀ l : List Opd, (∀ a ∈ l, a ∈ ops) → Swaps DisjointOps l (isort (leOf disjLt) l) := by
    intro l
    induction l with
    | nil => intro _; exact .refl _
    | cons a t ih =>
      intro h
      refine (Swaps.cons a (ih (fun x hx => h x (by simp [hx])))).trans ?_
      have hins : ∀ m : List Opd, (∀ x ∈ m, x ∈ ops) → Swaps DisjointOps (a :: m) (insertBy (leOf disjLt) a m) := by
        intro m
        induction m with
        | nil => intro _; exact .refl _
        | cons b m ihm =>
          intro hm
          rw [QNET.insertBy]
          split
          · exact .refl _
          · rename_i hab
            refine Swaps.trans ?_ (Swaps.cons b (ihm (fun x hx => hm x (by simp [hx]))))
            refine Swaps.step (u := []) (.refl _) ?_
            apply disjointOps_symm
            apply disj_of_lt (hf a (h a (by simp)))
            simpa [leOf] using hab
      exact hins _ (fun x hx => h x (by
        have := (isort_perm (leOf disjLt) t).mem_iff.mp hx
        simp [this]))
  exact key ops (fun _ h => h)

/-- If any two operands act on equal or on disjoint spaces, the comparison is a strict weak order. -/
theorem strictWeak_blocks {ops : List Opd} (hr : ∀ a ∈ ops, Reachable a.space) (hf : ∀ a ∈ ops, a.space ≠ .full)
    (hb : ∀ a ∈ ops, ∀ b ∈ ops, a.space = b.space ∨ DisjointOps a b)
    (hk : ∀ a ∈ ops, ∀ b ∈ ops, a.space = .trivial → b.space = .trivial → ComparableKeys a.key b.key) :
    StrictWeak disjLt (fun a => a ∈ ops) := by
  -- the comparison in terms of equality of spaces
  have hne : ∀ a ∈ ops, ∀ b ∈ ops, a.space ≠ b.space → disjLt a b = klt a.space.key b.space.key := by
    intro a ha b hb' e
    unfold disjLt
    rw [if_neg (fun h => e (h.1.trans h.2.symm)), (isDisjoint_iff (hf b hb')).mpr ((hb a ha b hb').resolve_left e)]
  have heq : ∀ a ∈ ops, ∀ b ∈ ops, a.space = b.space → a.space ≠ .trivial → disjLt a b = false := by
    intro a ha b hb' e ht
    unfold disjLt
    rw [if_neg (fun h => ht h.1)]
    split
    · rename_i h
      obtain ⟨f, g, h1, h2, h3⟩ := (isDisjoint_iff (hf b hb')).mp h
      rw [← e, h1] at h2
      injection h2 with h2
      subst h2
      rw [disjoint_self] at h3
      have : a.space = .trivial := by
        apply C25_canonical (hr a ha) .trivial
        rw [h1, h3]; rfl
      exact absurd this ht
    · rfl
  have htriv : ∀ a ∈ ops, ∀ b ∈ ops, a.space = b.space → a.space = .trivial → disjLt a b = klt a.key b.key := by
    intro a ha b hb' e ht
    unfold disjLt
    rw [if_pos ⟨ht, e ▸ ht⟩]
  have hWs := strictWeak_keys Space.key Space.WF (fun _ _ => space_comparable)
  have hWo := strictWeak_keys Opd.key (fun a => a ∈ ops ∧ a.space = .trivial) (fun a b ha hb' => hk a ha.1 b hb'.1 ha.2 hb'.2)
  have htri : ∀ a ∈ ops, ∀ b ∈ ops, a.space ≠ b.space → klt a.space.key b.space.key = true ∨ klt b.space.key a.space.key = true := by
    intro a ha b hb' e
    rcases (C44_spaces (hr a ha) (hr b hb')).2 with h | h | h
    · exact Or.inl h
    · exact absurd h e
    · exact Or.inr h
  refine ⟨?_, ?_, ?_⟩
  · intro a ha
    by_cases ht : a.space = .trivial
    · rw [htriv a ha a ha rfl ht, klt_self]
    · exact heq a ha a ha rfl ht
  · intro a b ha hb' h
    by_cases e : a.space = b.space
    · by_cases ht : a.space = .trivial
      · rw [htriv a ha b hb' e ht] at h
        rw [htriv b hb' a ha e.symm (e ▸ ht)]
        exact hWo.asymm a b ⟨ha, ht⟩ ⟨hb', e ▸ ht⟩ h
      · rw [heq a ha b hb' e ht] at h; cases h
    · rw [hne a ha b hb' e] at h
      rw [hne b hb' a ha (fun h => e h.symm)]
      exact hWs.asymm _ _ (hr a ha).wf (hr b hb').wf h
  · intro a b c ha hb' hc h
    by_cases e : a.space = c.space
    · by_cases ht : a.space = .trivial
      · rw [htriv a ha c hc e ht] at h
        by_cases e2 : a.space = b.space
        · rw [htriv a ha b hb' e2 ht, htriv b hb' c hc (e2 ▸ e) (e2 ▸ ht)]
          exact hWo.neg_trans a b c ⟨ha, ht⟩ ⟨hb', e2 ▸ ht⟩ ⟨hc, e ▸ ht⟩ h
        · rw [hne a ha b hb' e2, hne b hb' c hc (fun h => e2 (e.trans h.symm)), ← e]
          exact htri a ha b hb' e2
      · rw [heq a ha c hc e ht] at h; cases h
    · rw [hne a ha c hc e] at h
      by_cases e2 : a.space = b.space
      · rw [hne b hb' c hc (fun h => e (e2.trans h)), ← e2]
        exact Or.inr h
      · by_cases e3 : b.space = c.space
        · rw [hne a ha b hb' e2, e3]
          exact Or.inl h
        · rw [hne a ha b hb' e2, hne b hb' c hc e3]
          exact hWs.neg_trans _ _ _ (hr a ha).wf (hr b hb').wf (hr c hc).wf h

/-- C28 (partial): if any two operands act on equal or on disjoint spaces - in particular if every operand acts on a single local space or
is a scalar multiple of the identity - then ordering the factors only swaps neighbours that act on disjoint spaces, so the value of the
product is unchanged in every algebra in which such operators commute. Missing: operands whose spaces overlap without being equal, for
which the property is false (`C28_refuted`). -/
theorem C28_order_partial {ops : List Opd} (hr : ∀ a ∈ ops, Reachable a.space) (hf : ∀ a ∈ ops, a.space ≠ .full)
    (hb : ∀ a ∈ ops, ∀ b ∈ ops, a.space = b.space ∨ DisjointOps a b)
    (hk : ∀ a ∈ ops, ∀ b ∈ ops, a.space = .trivial → b.space = .trivial → ComparableKeys a.key b.key) :
    Swaps DisjointOps ops (orderTimes ops) ∧
    ∀ (M : Type) [Monoid M] (v : Opd → M), (∀ a b, DisjointOps a b → v a * v b = v b * v a) →
      ((orderTimes ops).map v).prod = (ops.map v).prod := by
  have h := swaps_of_strictWeak hf (strictWeak_blocks hr hf hb hk)
  exact ⟨h, fun M _ v hv => h.prod_eq v hv⟩

/-- operands on single local spaces satisfy the hypothesis of `C28_order_partial` -/
theorem C28_local_partial {ops : List Opd} (hl : ∀ a ∈ ops, ∃ l, a.space = .loc l ∧ l.WF) :
    ∀ (M : Type) [Monoid M] (v : Opd → M), (∀ a b, DisjointOps a b → v a * v b = v b * v a) →
      ((orderTimes ops).map v).prod = (ops.map v).prod := by
  have hWs := strictWeak_blocks (ops := ops)
  refine (C28_order_partial ?_ ?_ ?_ ?_).2
  · intro a ha
    obtain ⟨l, e, hl⟩ := hl a ha
    rw [e]
    obtain ⟨lb, b, d, ids, oi⟩ := l
    unfold Loc.WF at hl
    simp only at hl
    cases b with
    | none => exact .loc (label := lb) (basis := none) (dim := none) (ids := ids) (oi := oi) (by rw [hl]; rfl)
    | some b => exact .loc (label := lb) (basis := some b) (dim := none) (ids := ids) (oi := oi) (by rw [hl]; rfl)
  · intro a ha
    obtain ⟨l, e, hl⟩ := hl a ha
    rw [e]; simp
  · intro a ha b hb
    obtain ⟨l, e, -⟩ := hl a ha
    obtain ⟨m, e', -⟩ := hl b hb
    by_cases h : l = m
    · left; rw [e, e', h]
    · right
      exact ⟨{l}, {m}, by rw [e]; rfl, by rw [e']; rfl, by simpa using h⟩
  · intro a ha b hb h
    obtain ⟨l, e, -⟩ := hl a ha
    rw [e] at h; cases h

/-- C28: a product of two factors is always ordered correctly, whatever their spaces. -/
theorem C28_pair (a b : Opd) (ha : a.space ≠ .full) :
    orderTimes [a, b] = [a, b] ∨ (orderTimes [a, b] = [b, a] ∧ DisjointOps a b) := by
  unfold orderTimes pysort
  by_cases h : disjLt b a = true
  · right
    refine ⟨?_, disjointOps_symm (disj_of_lt ha h)⟩
    simp [h, descRun]
  · left
    simp [h, ascRun]

/-- the four factors `x2 * y1 * z12 * w1`: the factors `z12` and `w1` do not commute -/
def opX : Opd := ⟨.loc l2, [.str ['x']], 0⟩
def opY : Opd := ⟨.loc l1, [.str ['y']], 1⟩
def opZ : Opd := ⟨.prod [l1, l2], [.str ['z']], 2⟩
def opW : Opd := ⟨.loc l1, [.str ['w']], 3⟩

theorem l12_reachable : Reachable (.prod [l1, l2]) :=
  .create (so := so0 _) (ops := [.loc l1, .loc l2]) (by simp [l1_reachable, l2_reachable]) (by decide +kernel)

/-- C28 is false in general: ordering the factors of `x2 * y1 * z12 * w1` moves `w1` in front of `z12` although both act on space 1, and
the value of the product changes in an algebra in which all operators on disjoint spaces commute. -/
theorem C28_refuted : ∃ (ops : List Opd) (a b : Opd), (∀ o ∈ ops, Reachable o.space ∧ o.space ≠ .full) ∧ ¬ DisjointOps a b ∧
    (∃ u v w, ops = u ++ a :: v ++ b :: w) ∧ (∃ u v w, orderTimes ops = u ++ b :: v ++ a :: w) ∧ (ops.map Opd.name).Nodup ∧
    ∃ v : Opd → FreeMonoid ℕ, (∀ a ∈ ops, ∀ b ∈ ops, DisjointOps a b → v a * v b = v b * v a) ∧
      ((orderTimes ops).map v).prod ≠ (ops.map v).prod := by
  have horder : orderTimes [opX, opY, opZ, opW] = [opY, opW, opX, opZ] := by kernel_rfl
  have hfX : factors opX.space = some {l2} := rfl
  have hfY : factors opY.space = some {l1} := rfl
  have hfZ : factors opZ.space = some {l1, l2} := rfl
  have hfW : factors opW.space = some {l1} := rfl
  have hZW : ¬ DisjointOps opZ opW := by
    rintro ⟨f, g, h1, h2, h3⟩
    rw [hfZ] at h1; rw [hfW] at h2
    injection h1 with h1; injection h2 with h2
    subst h1; subst h2
    rw [Finset.disjoint_left] at h3
    exact h3 (a := l1) (by simp) (by simp)
  refine ⟨[opX, opY, opZ, opW], opZ, opW, ?_, hZW, ⟨[opX, opY], [], [], rfl⟩, ⟨[opY], [opX], [], horder⟩, by decide +kernel,
    fun o => if o.name < 2 then 1 else FreeMonoid.of o.name, ?_, ?_⟩
  · intro o ho
    simp only [List.mem_cons, List.not_mem_nil, or_false] at ho
    rcases ho with rfl | rfl | rfl | rfl
    · exact ⟨l2_reachable, by decide⟩
    · exact ⟨l1_reachable, by decide⟩
    · exact ⟨l12_reachable, by decide⟩
    · exact ⟨l1_reachable, by decide⟩
  · intro a ha b hb h
    simp only [List.mem_cons, List.not_mem_nil, or_false] at ha hb
    rcases ha with rfl | rfl | rfl | rfl <;> rcases hb with rfl | rfl | rfl | rfl <;> first
      | rfl
      | exact absurd h hZW
      | exact absurd (disjointOps_symm h) hZW
  · rw [horder]
    intro h
    have h' := congrArg FreeMonoid.toList h
    revert h'
    decide +kernel

/-- four factors on two local spaces and a multiple of the identity: the order on each space is kept -/
example : (orderTimes [opX, opW, ⟨.trivial, [.str ['c']], 7⟩, opY, opX]).map Opd.name = [7, 3, 1, 0, 0] := by decide +kernel

end QNET.Hilbert
