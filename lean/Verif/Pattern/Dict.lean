import Verif.Pattern.Spec

/-!
# C22: match results never hold conflicting bindings
-/

namespace QNET.Pattern

/-- How two values for the same name combine. -/
def comb (mg : ℤ) : Val → Val → Option Val
  | .many a, .many b => if mg < 0 then some (.many (a ++ b)) else if mg > 0 then some (.many (b ++ a)) else if a = b then some (.many a) else none
  | x, y => if x = y then some x else none

/-- the keys of a dictionary are distinct -/
def MD.KeysNodup (d : MD) : Prop := (d.items.map Prod.fst).Nodup

theorem lookup_append (k : ℕ) (l m : List (ℕ × Val)) : (l ++ m).lookup k = (l.lookup k).or (m.lookup k) := by
  induction l with
  | nil => simp
  | cons a l ih =>
    obtain ⟨j, v⟩ := a
    simp only [List.cons_append, List.lookup_cons]
    cases h : (k == j) <;> simp [ih]

theorem lookup_none_iff (k : ℕ) (l : List (ℕ × Val)) : l.lookup k = none ↔ k ∉ l.map Prod.fst := by
  induction l with
  | nil => simp
  | cons a l ih =>
    obtain ⟨j, v⟩ := a
    simp only [List.lookup_cons, List.map_cons, List.mem_cons]
    by_cases h : k = j
    · simp [h]
    · have : (k == j) = false := by simpa using h
      simp [this, ih, h]

theorem lookup_replace (k j : ℕ) (v : Val) (l : List (ℕ × Val)) : (replaceVal k v l).lookup j =
    if j = k then (l.lookup k).map (fun _ => v) else l.lookup j := by
  induction l with
  | nil => simp [replaceVal]
  | cons a l ih =>
    obtain ⟨i, w⟩ := a
    by_cases hik : i = k
    · subst hik
      rw [replaceVal, if_pos rfl, List.lookup_cons, List.lookup_cons]
      by_cases hj : j = i
      · subst hj; simp
      · have : (j == i) = false := by simpa using hj
        simp [this, hj, List.lookup_cons]
    · rw [replaceVal, if_neg hik, List.lookup_cons, List.lookup_cons]
      by_cases hj : j = i
      · subst hj; simp [hik]
      · have : (j == i) = false := by simpa using hj
        have h2 : (k == i) = false := by simpa using Ne.symm hik
        simp [this, List.lookup_cons, ih, h2]

theorem replace_keys (k : ℕ) (v : Val) (l : List (ℕ × Val)) : (replaceVal k v l).map Prod.fst = l.map Prod.fst := by
  induction l with
  | nil => rfl
  | cons a l ih =>
    obtain ⟨i, w⟩ := a
    rw [replaceVal]
    split <;> simp [ih]

/-- what setting an item does -/
theorem MD.set_spec (d : MD) (k : ℕ) (v : Val) :
    (d.get k = none → ∃ d', d.set k v = some d' ∧ d'.merge = d.merge ∧ (d.KeysNodup → d'.KeysNodup) ∧
      ∀ j, d'.get j = if j = k then some v else d.get j) ∧
    (∀ w z, d.get k = some w → comb d.merge w v = some z → ∃ d', d.set k v = some d' ∧ d'.merge = d.merge ∧ (d.KeysNodup → d'.KeysNodup) ∧
      ∀ j, d'.get j = if j = k then some z else d.get j) ∧
    (∀ w, d.get k = some w → comb d.merge w v = none → d.set k v = none) := by
  refine ⟨?_, ?_, ?_⟩
  · intro h
    refine ⟨⟨d.items ++ [(k, v)], d.merge⟩, by rw [MD.set, h], rfl, ?_, ?_⟩
    · intro hn
      have hk := (lookup_none_iff k d.items).mp h
      show ((d.items ++ [(k, v)]).map Prod.fst).Nodup
      rw [List.map_append]
      rw [List.nodup_append]
      refine ⟨hn, by simp, ?_⟩
      intro x hx y hy e
      simp at hy
      subst e; subst hy
      exact hk hx
    · intro j
      show (d.items ++ [(k, v)]).lookup j = _
      rw [lookup_append]
      by_cases hj : j = k
      · subst hj
        have : d.items.lookup j = none := h
        rw [this]; simp [List.lookup_cons]
      · have : (j == k) = false := by simpa using hj
        simp [List.lookup_cons, this, hj, MD.get]
  · intro w z h hz
    have hrep : ∀ z : Val, (d.KeysNodup → MD.KeysNodup ⟨replaceVal k z d.items, d.merge⟩) ∧
        ∀ j, MD.get ⟨replaceVal k z d.items, d.merge⟩ j = if j = k then some z else d.get j := by
      intro z
      refine ⟨?_, ?_⟩
      · intro hn
        show ((replaceVal k z d.items).map Prod.fst).Nodup
        rw [replace_keys]; exact hn
      · intro j
        show (replaceVal k z d.items).lookup j = _
        rw [lookup_replace]
        have : d.items.lookup k = some w := h
        rw [this]
        rfl
    have hsame : ∀ j, d.get j = if j = k then some w else d.get j := by
      intro j; split
      · rename_i e; rw [e, h]
      · rfl
    have hself : w = v → comb d.merge w v = some w → d.set k v = some d → ∃ d', d.set k v = some d' ∧ d'.merge = d.merge ∧
        (d.KeysNodup → d'.KeysNodup) ∧ ∀ j, d'.get j = if j = k then some z else d.get j := by
      intro e1 e2 e3
      rw [hz] at e2
      injection e2 with e2
      exact ⟨d, e3, rfl, id, by rw [e2]; exact hsame⟩
    unfold comb at hz
    unfold MD.set at hself ⊢
    rw [h] at hself ⊢
    cases w with
    | one e =>
      have : Val.one e = v := by
        cases v with
        | one f => simp only at hz; split at hz
                   · assumption
                   · cases hz
        | many f => simp at hz
      subst this
      exact hself rfl (by simp [comb]) (by simp)
    | many a =>
      cases v with
      | one f => simp at hz
      | many b =>
        simp only at hz ⊢
        by_cases h1 : d.merge < 0
        · rw [if_pos h1] at hz ⊢
          injection hz with hz
          refine ⟨_, rfl, rfl, (hrep _).1, ?_⟩
          rw [← hz]; exact (hrep _).2
        · rw [if_neg h1] at hz ⊢
          by_cases h2 : d.merge > 0
          · rw [if_pos h2] at hz ⊢
            injection hz with hz
            refine ⟨_, rfl, rfl, (hrep _).1, ?_⟩
            rw [← hz]; exact (hrep _).2
          · rw [if_neg h2] at hz ⊢
            by_cases h3 : a = b
            · rw [if_pos h3] at hz ⊢
              injection hz with hz
              refine ⟨d, rfl, rfl, id, ?_⟩
              rw [← hz]; exact hsame
            · rw [if_neg h3] at hz; cases hz
  · intro w h hz
    unfold comb at hz
    unfold MD.set
    rw [h]
    cases w with
    | one e =>
      cases v with
      | one f => simp only at hz ⊢; split at hz
                 · cases hz
                 · rename_i h; rw [if_neg h]
      | many f => simp
    | many a =>
      cases v with
      | one f => simp
      | many b =>
        simp only at hz ⊢
        split at hz
        · cases hz
        · split at hz
          · cases hz
          · split at hz
            · cases hz
            · rename_i h1 h2 h3
              rw [if_neg h1, if_neg h2, if_neg h3]

/-- the combination of an old and a new value -/
def comb? (mg : ℤ) : Option Val → Option Val → Option Val
  | none, y => y
  | x, none => x
  | some x, some y => comb mg x y

/-- what updating does, for an update with distinct keys -/
theorem MD.update_spec : ∀ (l : List (ℕ × Val)) (d : MD), (l.map Prod.fst).Nodup →
    (∀ d', d.update l = some d' → d'.merge = d.merge ∧ (d.KeysNodup → d'.KeysNodup) ∧
      (∀ k x y, d.get k = some x → l.lookup k = some y → ∃ z, comb d.merge x y = some z) ∧
      ∀ k, d'.get k = comb? d.merge (d.get k) (l.lookup k)) ∧
    ((∀ k x y, d.get k = some x → l.lookup k = some y → ∃ z, comb d.merge x y = some z) → ∃ d', d.update l = some d') := by
  intro l
  induction l with
  | nil =>
    intro d _
    refine ⟨fun d' h => ?_, fun _ => ⟨d, rfl⟩⟩
    injection h with h; subst h
    refine ⟨rfl, id, by simp, fun k => ?_⟩
    cases d.get k <;> rfl
  | cons a l ih =>
    obtain ⟨k, v⟩ := a
    intro d hn
    rw [List.map_cons, List.nodup_cons] at hn
    have hkl : l.lookup k = none := (lookup_none_iff k l).mpr hn.1
    obtain ⟨s1, s2, s3⟩ := MD.set_spec d k v
    -- the first step
    have hstep : ∀ d1, d.set k v = some d1 → d1.merge = d.merge ∧ (d.KeysNodup → d1.KeysNodup) ∧
        (∀ x, d.get k = some x → ∃ z, comb d.merge x v = some z) ∧
        ∀ j, d1.get j = if j = k then comb? d.merge (d.get k) (some v) else d.get j := by
      intro d1 h1
      cases hg : d.get k with
      | none =>
        obtain ⟨d2, e1, e2, e3, e4⟩ := s1 hg
        rw [h1] at e1; injection e1 with e1; subst e1
        exact ⟨e2, e3, by simp, e4⟩
      | some w =>
        cases hc : comb d.merge w v with
        | none => rw [s3 w hg hc] at h1; cases h1
        | some z =>
          obtain ⟨d2, e1, e2, e3, e4⟩ := s2 w z hg hc
          rw [h1] at e1; injection e1 with e1; subst e1
          refine ⟨e2, e3, ?_, ?_⟩
          · intro x hx; injection hx with hx; subst hx; exact ⟨z, hc⟩
          · intro j; rw [e4 j]; simp [comb?, hc]
    constructor
    · intro d' h
      rw [MD.update] at h
      replace h := Option.bind_eq_some_iff.mp h
      obtain ⟨d1, h1, h2⟩ := h
      obtain ⟨e1, e2, e3, e4⟩ := hstep d1 h1
      obtain ⟨i1, i2, i3, i4⟩ := (ih d1 hn.2).1 d' h2
      have hlook : ∀ j, ((k, v) :: l).lookup j = if j = k then some v else l.lookup j := by
        intro j
        rw [List.lookup_cons]
        by_cases hj : j = k
        · simp [hj]
        · have : (j == k) = false := by simpa using hj
          simp [this, hj]
      refine ⟨i1.trans e1, fun h => i2 (e2 h), ?_, ?_⟩
      · intro j x y hx hy
        rw [hlook] at hy
        split at hy
        · rename_i hj; subst hj
          injection hy with hy; subst hy
          exact e3 x hx
        · rename_i hj
          have := i3 j x y (by rw [e4, if_neg hj]; exact hx) hy
          rwa [e1] at this
      · intro j
        rw [i4 j, e4, e1, hlook]
        by_cases hj : j = k
        · subst hj
          simp only [if_true, hkl]
          cases h : comb? d.merge (d.get j) (some v) <;> rfl
        · simp only [if_neg hj]
    · intro h
      have hlook : ((k, v) :: l).lookup k = some v := by simp [List.lookup_cons]
      have hset : ∃ d1, d.set k v = some d1 := by
        cases hg : d.get k with
        | none => obtain ⟨d1, h1, -⟩ := s1 hg; exact ⟨d1, h1⟩
        | some w =>
          obtain ⟨z, hz⟩ := h k w v hg hlook
          obtain ⟨d1, h1, -⟩ := s2 w z hg hz
          exact ⟨d1, h1⟩
      obtain ⟨d1, h1⟩ := hset
      obtain ⟨e1, e2, e3, e4⟩ := hstep d1 h1
      obtain ⟨d', hd'⟩ := (ih d1 hn.2).2 (by
        intro j x y hx hy
        have hj : j ≠ k := by
          rintro rfl
          rw [hkl] at hy; cases hy
        rw [e4, if_neg hj] at hx
        rw [e1]
        refine h j x y hx ?_
        rw [List.lookup_cons]
        have : (j == k) = false := by simpa using hj
        simpa [this] using hy)
      exact ⟨d', by rw [MD.update, h1]; exact hd'⟩

/-! ### histories of assignments -/

/-- a sequence of assignments `res[k] = v`; `none` if one of them raises `KeyError` -/
def setAll (d : MD) : List (ℕ × Val) → Option MD
  | [] => some d
  | (k, v) :: l => (d.set k v).bind (fun d' => setAll d' l)

/-- the values assigned to `k`, in order -/
def valuesOf (l : List (ℕ × Val)) (k : ℕ) : List Val := (l.filter (fun p => p.1 = k)).map Prod.snd

/-- Specification: the value of a name after a history of assignments of the values `vs` to it: a single expression if all are equal to
it; in list-merging mode, if all are lists, their concatenation (in order of assignment, or in reverse order if new values are put in
front); otherwise a list if all are equal to it. -/
def Final (mg : ℤ) (vs : List Val) (v : Val) : Prop :=
  (mg = 0 ∧ ∀ w ∈ vs, w = v) ∨ (mg ≠ 0 ∧ (∃ e, v = .one e ∧ ∀ w ∈ vs, w = v)) ∨
  (mg < 0 ∧ ∃ ls : List (List Ex), vs = ls.map .many ∧ v = .many ls.flatten) ∨
  (mg > 0 ∧ ∃ ls : List (List Ex), vs = ls.map .many ∧ v = .many ls.reverse.flatten)

theorem final_single {mg : ℤ} (v : Val) : Final mg [v] v := by
  rcases lt_trichotomy mg 0 with h | h | h
  · cases v with
    | one e => exact Or.inr (Or.inl ⟨by omega, e, rfl, by simp⟩)
    | many l => exact Or.inr (Or.inr (Or.inl ⟨h, [l], by simp, by simp⟩))
  · exact Or.inl ⟨h, by simp⟩
  · cases v with
    | one e => exact Or.inr (Or.inl ⟨by omega, e, rfl, by simp⟩)
    | many l => exact Or.inr (Or.inr (Or.inr ⟨h, [l], by simp, by simp⟩))

/-- the final value after one more assignment -/
theorem final_snoc {mg : ℤ} {vs : List Val} {v w : Val} (hne : vs ≠ []) (h : Final mg vs v) (z : Val) :
    Final mg (vs ++ [w]) z ↔ comb mg v w = some z := by
  obtain ⟨v0, vs', rfl⟩ := List.exists_cons_of_ne_nil hne
  have hone : ∀ (e : Ex), (∀ x ∈ v0 :: vs', x = Val.one e) → (Final mg ((v0 :: vs') ++ [w]) z ↔ comb mg (.one e) w = some z) := by
    intro e he
    have h0 : v0 = .one e := he v0 (by simp)
    subst h0
    have hcomb : comb mg (.one e) w = some z ↔ w = .one e ∧ z = .one e := by
      unfold comb
      cases w <;> simp
      constructor
      · rintro ⟨rfl, rfl⟩; exact ⟨rfl, rfl⟩
      · rintro ⟨rfl, rfl⟩; exact ⟨rfl, rfl⟩
    rw [hcomb]
    constructor
    · rintro (⟨_, h⟩ | ⟨_, f, rfl, h⟩ | ⟨_, ls, h, _⟩ | ⟨_, ls, h, _⟩)
      · have h1 := h (.one e) (by simp)
        have h2 := h w (by simp)
        subst h1; exact ⟨h2, rfl⟩
      · have h1 := h (.one e) (by simp)
        have h2 := h w (by simp)
        exact ⟨h2.trans h1.symm, h1.symm⟩
      · cases ls with
        | nil => simp at h
        | cons a ls => simp at h
      · cases ls with
        | nil => simp at h
        | cons a ls => simp at h
    · rintro ⟨rfl, rfl⟩
      have hall : ∀ x ∈ (Val.one e :: vs') ++ [Val.one e], x = Val.one e := by
        intro x hx
        rw [List.mem_append, List.mem_singleton] at hx
        rcases hx with hx | hx
        · exact he x hx
        · exact hx
      by_cases hmg : mg = 0
      · exact Or.inl ⟨hmg, hall⟩
      · exact Or.inr (Or.inl ⟨hmg, e, rfl, hall⟩)
  rcases h with ⟨h0, h⟩ | ⟨h0, e, rfl, h⟩ | ⟨h0, ls, h, rfl⟩ | ⟨h0, ls, h, rfl⟩
  · have hv := h v0 (by simp)
    subst hv
    subst h0
    cases v0 with
    | one e => exact hone e h
    | many a =>
      have hcomb : comb 0 (.many a) w = some z ↔ w = .many a ∧ z = .many a := by
        unfold comb
        cases w <;> simp
        constructor
        · rintro ⟨rfl, rfl⟩; exact ⟨rfl, rfl⟩
        · rintro ⟨rfl, rfl⟩; exact ⟨rfl, rfl⟩
      rw [hcomb]
      constructor
      · rintro (⟨_, h'⟩ | ⟨h', -⟩ | ⟨h', -⟩ | ⟨h', -⟩)
        · have h1 := h' (.many a) (by simp)
          have h2 := h' w (by simp)
          subst h1; exact ⟨h2, rfl⟩
        · exact absurd rfl h'
        · omega
        · omega
      · rintro ⟨rfl, rfl⟩
        refine Or.inl ⟨rfl, ?_⟩
        intro x hx
        rw [List.mem_append, List.mem_singleton] at hx
        rcases hx with hx | hx
        · exact h x hx
        · exact hx
  · exact hone e h
  · rw [h]
    cases w with
    | one e =>
      simp only [comb, reduceCtorEq, if_false, iff_false]
      rintro (⟨h', -⟩ | ⟨_, f, rfl, h'⟩ | ⟨_, ks, h', _⟩ | ⟨h', -⟩)
      · omega
      · cases ls with
        | nil => simp at h
        | cons a ls => have := h' (.many a) (by simp); cases this
      · have : Val.one e ∈ ks.map Val.many := by rw [← h']; simp
        simp at this
      · omega
    | many b =>
      simp only [comb, if_pos h0, Option.some.injEq]
      constructor
      · rintro (⟨h', -⟩ | ⟨_, f, rfl, h'⟩ | ⟨_, ks, h', rfl⟩ | ⟨h', -⟩)
        · omega
        · have := h' (.many b) (by simp); cases this
        · have hinj : Function.Injective Val.many := fun x y h => by injection h
          have : ls ++ [b] = ks := List.map_injective_iff.mpr hinj (by rw [← h']; simp)
          rw [← this]; simp
        · omega
      · rintro rfl
        exact Or.inr (Or.inr (Or.inl ⟨h0, ls ++ [b], by simp, by simp⟩))
  · rw [h]
    have h1 : ¬ mg < 0 := by omega
    cases w with
    | one e =>
      simp only [comb, reduceCtorEq, if_false, iff_false]
      rintro (⟨h', -⟩ | ⟨_, f, rfl, h'⟩ | ⟨h', -⟩ | ⟨_, ks, h', _⟩)
      · omega
      · cases ls with
        | nil => simp at h
        | cons a ls => have := h' (.many a) (by simp); cases this
      · omega
      · have : Val.one e ∈ ks.map Val.many := by rw [← h']; simp
        simp at this
    | many b =>
      simp only [comb, if_neg h1, if_pos h0, Option.some.injEq]
      constructor
      · rintro (⟨h', -⟩ | ⟨_, f, rfl, h'⟩ | ⟨h', -⟩ | ⟨_, ks, h', rfl⟩)
        · omega
        · have := h' (.many b) (by simp); cases this
        · omega
        · have hinj : Function.Injective Val.many := fun x y h => by injection h
          have : ls ++ [b] = ks := List.map_injective_iff.mpr hinj (by rw [← h']; simp)
          rw [← this]; simp
      · rintro rfl
        exact Or.inr (Or.inr (Or.inr ⟨h0, ls ++ [b], by simp, by simp⟩))

/-- a final value of an initial part exists -/
theorem final_prefix {mg : ℤ} {vs us : List Val} {z : Val} (h : Final mg (vs ++ us) z) : ∃ v, Final mg vs v := by
  rcases h with ⟨h0, h⟩ | ⟨h0, e, rfl, h⟩ | ⟨h0, ls, h, rfl⟩ | ⟨h0, ls, h, rfl⟩
  · exact ⟨z, Or.inl ⟨h0, fun w hw => h w (by simp [hw])⟩⟩
  · exact ⟨.one e, Or.inr (Or.inl ⟨h0, e, rfl, fun w hw => h w (by simp [hw])⟩)⟩
  · obtain ⟨l1, l2, -, h1, -⟩ := List.append_eq_map_iff.mp h
    exact ⟨_, Or.inr (Or.inr (Or.inl ⟨h0, l1, h1.symm, rfl⟩))⟩
  · obtain ⟨l1, l2, -, h1, -⟩ := List.append_eq_map_iff.mp h
    exact ⟨_, Or.inr (Or.inr (Or.inr ⟨h0, l1, h1.symm, rfl⟩))⟩

theorem valuesOf_append (l m : List (ℕ × Val)) (k : ℕ) : valuesOf (l ++ m) k = valuesOf l k ++ valuesOf m k := by
  simp [valuesOf]

theorem setAll_spec (mg : ℤ) : ∀ (l h0 : List (ℕ × Val)) (d : MD), d.merge = mg →
    (∀ k, valuesOf h0 k = [] → d.get k = none) → (∀ k, valuesOf h0 k ≠ [] → ∃ v, d.get k = some v ∧ Final mg (valuesOf h0 k) v) →
    ((∀ k, valuesOf (h0 ++ l) k ≠ [] → ∃ v, Final mg (valuesOf (h0 ++ l) k) v) ↔ ∃ d', setAll d l = some d') ∧
    ∀ d', setAll d l = some d' → ∀ k, (valuesOf (h0 ++ l) k = [] → d'.get k = none) ∧
      (valuesOf (h0 ++ l) k ≠ [] → ∃ v, d'.get k = some v ∧ Final mg (valuesOf (h0 ++ l) k) v) := by
  intro l
  induction l with
  | nil =>
    intro h0 d hmg h1 h2
    refine ⟨⟨fun _ => ⟨d, rfl⟩, fun _ k hk => ?_⟩, fun d' hd' k => ?_⟩
    · rw [List.append_nil] at hk ⊢
      obtain ⟨v, -, hv⟩ := h2 k hk
      exact ⟨v, hv⟩
    · injection hd' with hd'; subst hd'
      rw [List.append_nil]
      exact ⟨h1 k, h2 k⟩
  | cons a l ih =>
    obtain ⟨k, v⟩ := a
    intro h0 d hmg h1 h2
    have hv1 : ∀ j, valuesOf (h0 ++ [(k, v)]) j = valuesOf h0 j ++ if j = k then [v] else [] := by
      intro j
      rw [valuesOf_append]
      congr 1
      by_cases hj : j = k
      · subst hj; simp [valuesOf]
      · simp [valuesOf, hj, Ne.symm hj]
    have happ : h0 ++ (k, v) :: l = (h0 ++ [(k, v)]) ++ l := by simp
    obtain ⟨s1, s2, s3⟩ := MD.set_spec d k v
    -- the set fails exactly if the values up to here cannot be combined
    have hkey : (∃ z, Final mg (valuesOf (h0 ++ [(k, v)]) k) z ∧ ∃ d1, d.set k v = some d1 ∧ d1.merge = mg ∧
          ∀ j, d1.get j = if j = k then some z else d.get j) ∨
        (d.set k v = none ∧ ¬ ∃ z, Final mg (valuesOf (h0 ++ [(k, v)]) k) z) := by
      rw [hv1 k, if_pos rfl]
      by_cases hk : valuesOf h0 k = []
      · left
        rw [hk, List.nil_append]
        obtain ⟨d1, e1, e2, -, e4⟩ := s1 (h1 k hk)
        exact ⟨v, final_single v, d1, e1, e2.trans hmg, e4⟩
      · obtain ⟨w, hw1, hw2⟩ := h2 k hk
        cases hc : comb mg w v with
        | some z =>
          left
          obtain ⟨d1, e1, e2, -, e4⟩ := s2 w z hw1 (by rw [hmg]; exact hc)
          exact ⟨z, (final_snoc hk hw2 z).mpr hc, d1, e1, e2.trans hmg, e4⟩
        | none =>
          right
          refine ⟨s3 w hw1 (by rw [hmg]; exact hc), ?_⟩
          rintro ⟨z, hz⟩
          rw [final_snoc hk hw2 z, hc] at hz
          cases hz
    rcases hkey with ⟨z, hz, d1, e1, e2, e3⟩ | ⟨e1, e2⟩
    · obtain ⟨i1, i2⟩ := ih (h0 ++ [(k, v)]) d1 e2 (by
        intro j hj
        rw [hv1 j] at hj
        simp only [List.append_eq_nil_iff] at hj
        have hjk : j ≠ k := by rintro rfl; simp at hj
        rw [e3, if_neg hjk]
        exact h1 j hj.1) (by
        intro j hj
        by_cases hjk : j = k
        · subst hjk; exact ⟨z, by rw [e3, if_pos rfl], hz⟩
        · rw [hv1 j, if_neg hjk, List.append_nil] at hj ⊢
          rw [e3, if_neg hjk]
          exact h2 j hj)
      rw [happ]
      have hset : setAll d ((k, v) :: l) = setAll d1 l := by rw [setAll, e1]; rfl
      rw [hset]
      exact ⟨i1, i2⟩
    · have hset : setAll d ((k, v) :: l) = none := by rw [setAll, e1]; rfl
      rw [hset]
      refine ⟨⟨fun h => ?_, fun ⟨d', h⟩ => by cases h⟩, fun d' h => by cases h⟩
      exfalso
      have hne : valuesOf (h0 ++ (k, v) :: l) k ≠ [] := by
        rw [happ, valuesOf_append, hv1 k, if_pos rfl]
        simp
      obtain ⟨z, hz⟩ := h k hne
      rw [happ, valuesOf_append] at hz
      exact e2 (final_prefix hz)

/-- C22: For every history of assignments to a match result (in any of the three list-merging modes), the assignments succeed exactly if
for every name the assigned values can be combined to one value - all equal, or in list-merging mode all lists -, and then the result
holds that value for each name: no name ever has two values, and unassigned names have none. -/
theorem C22_history (mg : ℤ) (l : List (ℕ × Val)) :
    ((∃ d, setAll ⟨[], mg⟩ l = some d) ↔ ∀ k, valuesOf l k ≠ [] → ∃ v, Final mg (valuesOf l k) v) ∧
    ∀ d, setAll ⟨[], mg⟩ l = some d → ∀ k, (valuesOf l k = [] → d.get k = none) ∧
      (valuesOf l k ≠ [] → ∃ v, d.get k = some v ∧ Final mg (valuesOf l k) v) := by
  have := setAll_spec mg l [] ⟨[], mg⟩ rfl (fun _ _ => rfl) (fun k h => by simp [valuesOf] at h)
  simp only [List.nil_append] at this
  exact ⟨this.1.symm, this.2⟩

/-- C22: merging a second match result into a first one (without list merging) fails exactly if they hold different values for a common
name; otherwise the result holds the bindings of both. -/
theorem C22_merge (d o : MD) (hm : d.merge = 0) (ho : o.KeysNodup) :
    ((∃ d', d.update o.items = some d') ↔ ∀ k x y, d.get k = some x → o.get k = some y → x = y) ∧
    ∀ d', d.update o.items = some d' → ∀ k, d'.get k = (d.get k).or (o.get k) := by
  obtain ⟨u1, u2⟩ := MD.update_spec o.items d ho
  have hcomb : ∀ x y z, comb 0 x y = some z ↔ x = y ∧ z = x := by
    intro x y z
    cases x <;> cases y <;> simp [comb]
    · exact fun _ => eq_comm
    · exact fun _ => eq_comm
  constructor
  · constructor
    · rintro ⟨d', h⟩ k x y hx hy
      obtain ⟨-, -, h3, -⟩ := u1 d' h
      obtain ⟨z, hz⟩ := h3 k x y hx hy
      rw [hm, hcomb] at hz
      exact hz.1
    · intro h
      apply u2
      intro k x y hx hy
      refine ⟨x, ?_⟩
      rw [hm, hcomb]
      exact ⟨h k x y hx hy, rfl⟩
  · intro d' h k
    obtain ⟨-, -, h3, h4⟩ := u1 d' h
    rw [h4 k, hm]
    have ho' : o.items.lookup k = o.get k := rfl
    rw [ho']
    cases hx : d.get k with
    | none => cases o.get k <;> rfl
    | some x =>
      cases hy : o.get k with
      | none => rfl
      | some y =>
        obtain ⟨z, hz⟩ := h3 k x y hx hy
        rw [hm, hcomb] at hz
        simp only [comb?, Option.or_some]
        rw [(hcomb x y x).mpr ⟨hz.1, rfl⟩]
        rfl

example : (setAll ⟨[], 0⟩ [(1, .one (.leaf 3)), (2, .many [.leaf 1]), (1, .one (.leaf 4))]).isNone = true := by decide +kernel
example : (setAll ⟨[], 1⟩ [(1, .one (.leaf 3)), (2, .many [.leaf 1]), (1, .one (.leaf 3)), (2, .many [.leaf 0])]).map (fun d => d.get 2) =
    some (some (.many [.leaf 0, .leaf 1])) := by decide +kernel

end QNET.Pattern
