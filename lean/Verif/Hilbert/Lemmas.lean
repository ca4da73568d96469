import Verif.Hilbert.Model
import Mathlib.Data.Finset.Card

namespace QNET.Hilbert

open QNET.Order QNET.Perm

/-! ### keys of local spaces -/

theorem N_ne_digitChar (m : ℕ) : 'N' ≠ Nat.digitChar m := by
  intro h
  exact Nat.digitChar_ne (n := m) 'N' (by decide +kernel) h.symm

theorem N_notin_toDigitsCore : ∀ (fuel n : ℕ) (acc : List Char), 'N' ∉ acc → 'N' ∉ Nat.toDigitsCore 10 fuel n acc := by
  intro fuel
  induction fuel with
  | zero => intro n acc h; simpa [Nat.toDigitsCore] using h
  | succ f ih =>
    intro n acc h
    rw [Nat.toDigitsCore]
    have h' : 'N' ∉ Nat.digitChar (n % 10) :: acc := by simp [h, N_ne_digitChar]
    split
    · exact h'
    · exact ih _ _ h'

theorem N_notin_strNat (n : ℕ) : 'N' ∉ strNat n := N_notin_toDigitsCore _ _ _ (by simp)

theorem comparable_strs : ∀ a b : List Str, ComparableL (a.map .str) (b.map .str)
  | [], _ => by simp [ComparableL]
  | a :: l, [] => by simp [ComparableL]
  | a :: l, b :: m => by
    simp only [List.map_cons, ComparableL, Comparable, true_and]
    exact fun _ => comparable_strs l m

theorem comparable_ids : ∀ a b : List (Str × Str),
    ComparableL (a.map (fun p => KV.tup [.str p.1, .str p.2])) (b.map (fun p => KV.tup [.str p.1, .str p.2]))
  | [], _ => by simp [ComparableL]
  | a :: l, [] => by simp [ComparableL]
  | a :: l, b :: m => by
    simp only [List.map_cons, ComparableL, Comparable]
    refine ⟨⟨trivial, fun _ => ⟨trivial, fun _ => trivial⟩⟩, fun _ => comparable_ids l m⟩

theorem strDim_inj_none {d e : Option ℕ} (h : strDim d = strDim e) : d.isNone = e.isNone := by
  cases d with
  | none =>
    cases e with
    | none => rfl
    | some n =>
      exfalso
      have := N_notin_strNat n
      simp only [strDim] at h
      rw [← h] at this
      simp at this
  | some n =>
    cases e with
    | none =>
      exfalso
      have := N_notin_strNat n
      simp only [strDim] at h
      rw [h] at this
      simp at this
    | some m => rfl

theorem Loc.comparable {a b : Loc} (ha : a.WF) (hb : b.WF) : ComparableKeys a.key b.key := by
  unfold Loc.key
  refine ⟨Or.inl ?_, fun _ => ⟨Or.inl trivial, fun _ => ⟨Or.inl trivial, fun h3 => ⟨Or.inl ?_, fun _ => ⟨Or.inl ?_, fun _ => trivial⟩⟩⟩⟩⟩
  · cases a.orderIndex <;> cases b.orderIndex <;> simp [Comparable]
  · injection h3 with h3
    have h := strDim_inj_none h3
    rw [ha, hb] at h
    cases h1 : a.basis with
    | none =>
      cases h2 : b.basis with
      | none => simp [Comparable]
      | some y => simp [h1, h2] at h
    | some x =>
      cases h2 : b.basis with
      | none => simp [h1, h2] at h
      | some y => simp only [Comparable]; exact comparable_strs x y
  · simp only [Comparable]; exact comparable_ids _ _

theorem Loc.key_inj {a b : Loc} (ha : a.WF) (hb : b.WF) (h : a.key = b.key) : a = b := by
  unfold Loc.key at h
  simp only [List.cons.injEq, KV.str.injEq, KV.tup.injEq, and_true] at h
  obtain ⟨h1, h2, h3, h4, h5⟩ := h
  have e1 : a.orderIndex = b.orderIndex := by
    cases ha' : a.orderIndex <;> cases hb' : b.orderIndex <;> simp_all
  have e4 : a.basis = b.basis := by
    cases ha' : a.basis <;> cases hb' : b.basis <;> simp_all
    have hinj : Function.Injective KV.str := fun x y h => by injection h
    exact List.map_injective_iff.mpr hinj h4
  have e5 : a.ids = b.ids := by
    refine List.map_injective_iff.mpr ?_ h5
    rintro ⟨x, y⟩ ⟨z, w⟩ h
    simp at h
    simp [h]
  have e3 : a.dim = b.dim := by rw [ha, hb, e4]
  cases a; cases b; simp_all

/-- operands of a flattened product -/
def IsFlat (s : Space) : Prop := s = .trivial ∨ ∃ l : Loc, s = .loc l ∧ l.WF

theorem flat_comparable {a b : Space} (ha : IsFlat a) (hb : IsFlat b) : ComparableKeys a.key b.key := by
  rcases ha with rfl | ⟨l, rfl, hl⟩ <;> rcases hb with rfl | ⟨m, rfl, hm⟩
  · simp [Space.key, ComparableKeys, Comparable]
  · unfold Space.key Loc.key
    refine ⟨Or.inl ?_, fun _ => ⟨Or.inl trivial, fun _ => trivial⟩⟩
    cases m.orderIndex <;> simp [Comparable]
  · unfold Space.key Loc.key
    refine ⟨Or.inl ?_, fun _ => ⟨Or.inl trivial, fun _ => trivial⟩⟩
    cases l.orderIndex <;> simp [Comparable]
  · exact Loc.comparable hl hm

theorem flat_key_inj {a b : Space} (ha : IsFlat a) (hb : IsFlat b) (h : a.key = b.key) : a = b := by
  rcases ha with rfl | ⟨l, rfl, hl⟩ <;> rcases hb with rfl | ⟨m, rfl, hm⟩
  · rfl
  · simp [Space.key, Loc.key] at h
  · simp [Space.key, Loc.key] at h
  · rw [Loc.key_inj hl hm h]

/-- comparison of spaces by their keys -/
def slt' (a b : Space) : Bool := klt a.key b.key

theorem strictWeak_keys {α : Type _} (key : α → List KV) (P : α → Prop) (hc : ∀ a b, P a → P b → ComparableKeys (key a) (key b)) :
    StrictWeak (fun a b => klt (key a) (key b)) P where
  irrefl := fun a _ => klt_self _
  asymm := fun a b ha hb h => by
    cases h' : klt (key b) (key a) with
    | false => rfl
    | true =>
      have := klt_trans' (hc a b ha hb) (hc b a hb ha) h h'
      rw [klt_self] at this; cases this
  neg_trans := fun a b c ha hb hc' h => by
    rcases klt_trichotomy (hc a b ha hb) with h1 | h1 | h1
    · exact Or.inl h1
    · rw [← h1]; exact Or.inr h
    · exact Or.inr (klt_trans' (hc b a hb ha) (hc a c ha hc') h1 h)

theorem strictWeak_flat : StrictWeak slt' IsFlat := strictWeak_keys Space.key IsFlat (fun _ _ => flat_comparable)

/-! ### the sorted operand list -/

/-- the sorted list of the distinct operands -/
theorem idem_spec (so : SetOrder Space) (ops : List Space) (h : ∀ o ∈ ops, IsFlat o) :
    (∀ s, s ∈ idem so ops ↔ s ∈ ops) ∧ (idem so ops).Pairwise (fun a b => slt' a b = true) ∧ (idem so ops).Nodup := by
  have hmem : ∀ s, s ∈ so.iter ops ↔ s ∈ ops := fun s => by rw [(so.perm ops).mem_iff, List.mem_dedup]
  have hP : ∀ s ∈ so.iter ops, IsFlat s := fun s hs => h s ((hmem s).mp hs)
  have e : idem so ops = isort (leOf slt') (so.iter ops) := pysort_eq_isort strictWeak_flat _ hP
  have hperm := isort_perm (leOf slt') (so.iter ops)
  have hnd : (idem so ops).Nodup := by
    rw [e, hperm.nodup_iff, (so.perm ops).nodup_iff]; exact List.nodup_dedup _
  refine ⟨fun s => by rw [e, hperm.mem_iff, hmem], ?_, hnd⟩
  have hs := isort_sorted strictWeak_flat _ hP
  rw [← e] at hs
  have hPi : ∀ s ∈ idem so ops, IsFlat s := fun s hs' => hP s (by rw [e, hperm.mem_iff] at hs'; exact hs')
  refine List.Pairwise.imp_of_mem ?_ (List.Pairwise.and hs hnd)
  intro a b ha hb hab
  obtain ⟨h1, h2⟩ := hab
  simp only [leOf, Bool.not_eq_true', slt'] at h1
  rcases klt_trichotomy (flat_comparable (hPi a ha) (hPi b hb)) with h3 | h3 | h3
  · exact h3
  · exact absurd (flat_key_inj (hPi a ha) (hPi b hb) h3) h2
  · rw [h1] at h3; cases h3

/-- strictly sorted lists with the same elements are equal -/
theorem eq_of_sorted {α : Type _} {lt : α → α → Bool} {P : α → Prop} (hw : StrictWeak lt P) : ∀ (l m : List α), (∀ x ∈ l, P x) → (∀ x ∈ m, P x) →
    l.Pairwise (fun a b => lt a b = true) → m.Pairwise (fun a b => lt a b = true) → (∀ x, x ∈ l ↔ x ∈ m) → l = m := by
  intro l
  induction l with
  | nil =>
    intro m _ _ _ _ h
    cases m with
    | nil => rfl
    | cons b m => exact absurd ((h b).mpr (by simp)) (by simp)
  | cons a l ih =>
    intro m hl hm sl sm h
    cases m with
    | nil => exact absurd ((h a).mp (by simp)) (by simp)
    | cons b m =>
      have ha := hl a (by simp)
      have hb := hm b (by simp)
      have sl' := List.pairwise_cons.mp sl
      have sm' := List.pairwise_cons.mp sm
      have hab : a = b := by
        rcases List.mem_cons.mp ((h a).mp (by simp)) with h1 | h1
        · exact h1
        · rcases List.mem_cons.mp ((h b).mpr (by simp)) with h2 | h2
          · exact h2.symm
          · have := hw.asymm _ _ ha hb (sl'.1 b h2)
            rw [sm'.1 a h1] at this; cases this
      subst hab
      congr 1
      apply ih m (fun x hx => hl x (by simp [hx])) (fun x hx => hm x (by simp [hx])) sl'.2 sm'.2
      intro x
      constructor
      · intro hx
        rcases List.mem_cons.mp ((h x).mp (by simp [hx])) with rfl | h1
        · have := sl'.1 x hx; rw [hw.irrefl _ ha] at this; cases this
        · exact h1
      · intro hx
        rcases List.mem_cons.mp ((h x).mpr (by simp [hx])) with rfl | h1
        · have := sm'.1 x hx; rw [hw.irrefl _ ha] at this; cases this
        · exact h1

/-! ### well-formed spaces -/

/-- the form of all spaces that the code builds -/
def Space.WF : Space → Prop
  | .trivial => True
  | .full => True
  | .loc l => l.WF
  | .prod ls => 2 ≤ ls.length ∧ (∀ l ∈ ls, l.WF) ∧ (ls.map Space.loc).Pairwise (fun a b => slt' a b = true)

theorem Space.WF.nodup {ls : List Loc} (h : Space.WF (.prod ls)) : ls.Nodup := by
  have : (ls.map Space.loc).Nodup := by
    refine List.Pairwise.imp_of_mem ?_ h.2.2
    intro a b _ _ hab e
    subst e
    rw [slt', klt_self] at hab; cases hab
  exact List.Nodup.of_map _ this

theorem wf_unique {a b : Space} (ha : a.WF) (hb : b.WF) (h : factors a = factors b) : a = b := by
  cases a with
  | trivial =>
    cases b with
    | trivial => rfl
    | full => simp [factors] at h
    | loc m => simp [factors, eq_comm] at h
    | prod ms =>
      have h1 := hb.1
      cases ms with
      | nil => simp at h1
      | cons m ms =>
        simp only [factors, Option.some.injEq] at h
        have : m ∈ (∅ : Finset Loc) := by rw [h]; simp
        simp at this
  | full => cases b <;> simp [factors] at h ⊢
  | loc l =>
    cases b with
    | trivial => simp [factors] at h
    | full => simp [factors] at h
    | loc m => simp [factors] at h; rw [h]
    | prod ms =>
      have h1 := hb.1
      have hn := hb.nodup
      simp only [factors, Option.some.injEq] at h
      have := List.toFinset_card_of_nodup hn
      rw [← h] at this
      simp at this; omega
  | prod ls =>
    cases b with
    | trivial =>
      have h1 := ha.1
      cases ls with
      | nil => simp at h1
      | cons m ms =>
        simp only [factors, Option.some.injEq] at h
        have : m ∈ (∅ : Finset Loc) := by rw [← h]; simp
        simp at this
    | full => simp [factors] at h
    | loc m =>
      have h1 := ha.1
      have hn := ha.nodup
      simp only [factors, Option.some.injEq] at h
      have := List.toFinset_card_of_nodup hn
      rw [h] at this
      simp at this; omega
    | prod ms =>
      simp only [factors, Option.some.injEq] at h
      have hl : ls.map Space.loc = ms.map Space.loc := by
        refine eq_of_sorted strictWeak_flat _ _ ?_ ?_ ha.2.2 hb.2.2 ?_
        · intro x hx
          obtain ⟨l, hl, rfl⟩ := List.mem_map.mp hx
          exact Or.inr ⟨l, rfl, ha.2.1 l hl⟩
        · intro x hx
          obtain ⟨l, hl, rfl⟩ := List.mem_map.mp hx
          exact Or.inr ⟨l, rfl, hb.2.1 l hl⟩
        · intro x
          have : ∀ l, l ∈ ls ↔ l ∈ ms := fun l => by rw [← List.mem_toFinset, h, List.mem_toFinset]
          simp [this]
      have hinj : Function.Injective Space.loc := fun x y h => by injection h
      rw [List.map_injective_iff.mpr hinj hl]

/-- the factors of an operand, for operands that are not the full space -/
def fset (s : Space) : Finset Loc := (factors s).getD ∅

theorem flat_spec {s : Space} (hs : s.WF) (hf : s ≠ .full) : (∀ o ∈ s.flat, IsFlat o) ∧ ∀ l, Space.loc l ∈ s.flat ↔ l ∈ fset s := by
  cases s with
  | trivial => exact ⟨by simp [Space.flat, IsFlat], by simp [Space.flat, fset, factors]⟩
  | full => exact absurd rfl hf
  | loc m =>
    refine ⟨?_, by simp [Space.flat, fset, factors]⟩
    intro o ho
    simp only [Space.flat, List.mem_singleton] at ho
    exact Or.inr ⟨m, ho, hs⟩
  | prod ms =>
    refine ⟨?_, by simp [Space.flat, fset, factors]⟩
    intro o ho
    obtain ⟨l, hl, rfl⟩ := List.mem_map.mp ho
    exact Or.inr ⟨l, rfl, hs.2.1 l hl⟩

/-- the local spaces in a list of operands -/
def locs (l : List Space) : List Loc := l.filterMap (fun | .loc l => some l | _ => none)

theorem locs_map (l : List Loc) : locs (l.map .loc) = l := by
  induction l with
  | nil => rfl
  | cons a l ih => simp only [List.map_cons, locs, List.filterMap_cons] at *; rw [ih]

theorem finish_spec (ops : List Space) (hne : ops ≠ []) (h : ∀ o ∈ ops, IsFlat o) (hs : ops.Pairwise (fun a b => slt' a b = true)) :
    ∃ s, finish ops = .ok s ∧ s.WF ∧ s ≠ .full ∧ ∀ l, l ∈ fset s ↔ Space.loc l ∈ ops := by
  have hf : ∀ o ∈ ops.filter (fun s => s ≠ .trivial), ∃ l : Loc, o = .loc l ∧ l.WF := by
    intro o ho
    simp only [List.mem_filter, ne_eq, decide_not, Bool.not_eq_true', decide_eq_false_iff_not] at ho
    rcases h o ho.1 with e | e
    · exact absurd e ho.2
    · exact e
  have hsf : (ops.filter (fun s => s ≠ .trivial)).Pairwise (fun a b => slt' a b = true) := hs.filter _
  have hmem : ∀ l, Space.loc l ∈ ops.filter (fun s => s ≠ .trivial) ↔ Space.loc l ∈ ops := by
    intro l; simp
  have hnd : (ops.filter (fun s => s ≠ .trivial)).Nodup := by
    refine List.Pairwise.imp_of_mem ?_ hsf
    intro a b _ _ hab e
    subst e
    rw [slt', klt_self] at hab; cases hab
  cases ops with
  | nil => exact absurd rfl hne
  | cons o t =>
    unfold finish
    generalize hF : (o :: t).filter (fun s => s ≠ .trivial) = F at hf hsf hmem hnd ⊢
    match F with
    | [] =>
      have ho : o = .trivial := by
        rcases h o (by simp) with e | ⟨l, rfl, -⟩
        · exact e
        · have := (hmem l).mpr (by simp); simp at this
      refine ⟨o, rfl, by rw [ho]; trivial, by rw [ho]; simp, ?_⟩
      intro l
      rw [← hmem l, ho]; simp [fset, factors]
    | [s] =>
      obtain ⟨l, rfl, hl⟩ := hf s (by simp)
      refine ⟨_, rfl, hl, by simp, ?_⟩
      intro m
      rw [← hmem m]; simp [fset, factors]
    | a :: b :: u =>
      have hx : ∃ ls : List Loc, a :: b :: u = ls.map .loc ∧ ∀ l ∈ ls, l.WF := by
        have : ∀ F : List Space, (∀ o ∈ F, ∃ l : Loc, o = .loc l ∧ l.WF) → ∃ ls : List Loc, F = ls.map .loc ∧ ∀ l ∈ ls, l.WF := by
          intro F
          induction F with
          | nil => intro _; exact ⟨[], rfl, by simp⟩
          | cons a F ih =>
            intro hF
            obtain ⟨l, rfl, hl⟩ := hF a (by simp)
            obtain ⟨ls, e, hls⟩ := ih (fun o ho => hF o (by simp [ho]))
            exact ⟨l :: ls, by rw [e]; rfl, by simpa [hl] using hls⟩
        exact this _ hf
      obtain ⟨ls, e, hls⟩ := hx
      refine ⟨.prod ls, ?_, ⟨?_, hls, by rw [← e]; exact hsf⟩, by simp, ?_⟩
      · show mkProd (a :: b :: u) = _
        rw [mkProd, if_pos hnd, e]
        exact congrArg (fun x => Except.ok (Space.prod x)) (locs_map ls)
      · have := congrArg List.length e
        simp at this; omega
      · intro l
        rw [← hmem l, e]
        simp [fset, factors]

theorem create_spec (so : SetOrder Space) (ops : List Space) (h : ∀ o ∈ ops, o.WF) (hf : ∀ o ∈ ops, o ≠ .full) :
    ∃ s, create so ops = .ok s ∧ s.WF ∧ s ≠ .full ∧ ∀ l, l ∈ fset s ↔ ∃ o ∈ ops, l ∈ fset o := by
  unfold create
  have hany : ops.any (fun s => s = .full) = false := by
    simpa using hf
  rw [hany]
  simp only [Bool.false_eq_true, if_false]
  by_cases hne : ops = []
  · subst hne
    exact ⟨.trivial, rfl, trivial, by simp, by simp [fset, factors]⟩
  · rw [if_neg hne]
    have h1 : ∀ o ∈ ops.flatMap Space.flat, IsFlat o := by
      intro o ho
      obtain ⟨s, hs, ho⟩ := List.mem_flatMap.mp ho
      exact (flat_spec (h s hs) (hf s hs)).1 o ho
    have h2 := idem_spec so _ h1
    have hne' : idem so (ops.flatMap Space.flat) ≠ [] := by
      obtain ⟨o, t, rfl⟩ := List.exists_cons_of_ne_nil hne
      have : ∃ x, x ∈ o.flat := by
        cases o with
        | prod ls =>
          have := (h (.prod ls) (by simp)).1
          cases ls with
          | nil => simp at this
          | cons a l => exact ⟨.loc a, by simp [Space.flat]⟩
        | _ => exact ⟨_, List.mem_singleton.mpr rfl⟩
      obtain ⟨x, hx⟩ := this
      have := (h2.1 x).mpr (by simp [hx])
      intro e; rw [e] at this; simp at this
    obtain ⟨s, e1, e2, e3, e4⟩ := finish_spec _ hne' (fun o ho => h1 o ((h2.1 o).mp ho)) h2.2.1
    refine ⟨s, e1, e2, e3, ?_⟩
    intro l
    rw [e4, h2.1, List.mem_flatMap]
    constructor
    · rintro ⟨o, ho, hl⟩
      exact ⟨o, ho, ((flat_spec (h o ho) (hf o ho)).2 l).mp hl⟩
    · rintro ⟨o, ho, hl⟩
      exact ⟨o, ho, ((flat_spec (h o ho) (hf o ho)).2 l).mpr hl⟩

theorem create_full (so : SetOrder Space) (ops : List Space) (h : Space.full ∈ ops) : create so ops = .ok .full := by
  unfold create
  rw [if_pos]
  simpa using h

theorem mkLocal_wf {label basis dim ids oi l} (h : mkLocal label basis dim ids oi = .ok l) : l.WF := by
  unfold mkLocal at h
  unfold Loc.WF
  cases basis with
  | none =>
    cases dim with
    | none => injection h with h; subst h; rfl
    | some d => injection h with h; subst h; simp
  | some b =>
    cases dim with
    | none => injection h with h; subst h; rfl
    | some d =>
      simp only at h
      split at h
      · cases h
      · rename_i hd
        injection h with h; subst h; simpa using hd

theorem Reachable.wf {s : Space} (h : Reachable s) : s.WF := by
  induction h with
  | trivial => trivial
  | full => trivial
  | loc h => exact mkLocal_wf h
  | @create so ops s _ hc ih =>
    by_cases hf : Space.full ∈ ops
    · rw [create_full so ops hf] at hc; injection hc with hc; subst hc; trivial
    · obtain ⟨s', e1, e2, -, -⟩ := create_spec so ops ih (fun o ho e => hf (e ▸ ho))
      rw [hc] at e1; injection e1 with e1; rw [e1]; exact e2

theorem fset_of {s : Space} (h : s ≠ .full) : factors s = some (fset s) := by
  cases s <;> simp [fset, factors] at *

end QNET.Hilbert
