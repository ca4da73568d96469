import Verif.Indexed.Thm33

/-!
# C34: products of indexed sums
-/

namespace QNET.Indexed

variable {S R : Type} [CommSemiring S] [Semiring R] [Algebra S R]

/-! ### new symbols -/

theorem primeLoop_not_mem (X : List Sym) : ∀ (n : ℕ) (s : Sym), primeLoop X n s ∈ X → ∀ k ≤ n, (⟨s.name, s.primed + k⟩ : Sym) ∈ X
  | 0, s, h, k, hk => by
    have : k = 0 := by omega
    subst this
    exact h
  | n + 1, s, h, k, hk => by
    unfold primeLoop at h
    split at h
    · rename_i hs
      cases k with
      | zero => exact hs
      | succ k =>
        have := primeLoop_not_mem X n s.incr h k (by omega)
        simpa [Sym.incr, Nat.add_assoc, Nat.add_comm 1 k] using this
    · rename_i hs; exact absurd h hs

/-- the loop ends with a symbol outside of the set -/
theorem fresh_not_mem (X : List Sym) (s : Sym) : fresh X s ∉ X := by
  intro h
  have h1 := primeLoop_not_mem X X.length s h
  have h2 : ((List.range (X.length + 1)).map (fun k => (⟨s.name, s.primed + k⟩ : Sym))).Nodup := by
    refine List.Nodup.map ?_ List.nodup_range
    intro a b hab
    simp only [Sym.mk.injEq, true_and] at hab
    omega
  have h3 : ((List.range (X.length + 1)).map (fun k => (⟨s.name, s.primed + k⟩ : Sym))) ⊆ X := by
    intro x hx
    obtain ⟨k, hk, rfl⟩ := List.mem_map.1 hx
    exact h1 k (by have := List.mem_range.1 hk; omega)
  have := (List.subperm_of_subset h2 h3).length_le
  simp at this

/-! ### renaming -/

theorem ren_syms {i n : Sym} {rs rs' : List Range} (h : List.Forall₂ (fun r r' => r.subst (single i (.sym n)) = .ok r') rs rs') :
    rs'.map Range.sym = (rs.map Range.sym).map (fun s => if s = i then n else s) := by
  induction h with
  | nil => rfl
  | cons h _ ih => simp only [List.map_cons, ih, (Range.subst_single h).1]

theorem Ix.subst_syms {i n : Sym} {x : Ix} {s : Sym} (h : s ∈ (x.subst (single i (.sym n))).syms) : s = n ∨ (s ∈ x.syms ∧ s ≠ i) := by
  cases x with
  | val v => simp [Ix.subst, Ix.syms] at h
  | sym k =>
    by_cases hk : k = i
    · simp only [Ix.subst, single, hk, if_true, Option.getD_some, Ix.syms, List.mem_singleton] at h
      exact Or.inl h
    · simp only [Ix.subst, single, hk, if_false, Option.getD_none, Ix.syms, List.mem_singleton] at h
      subst h
      exact Or.inr ⟨by simp [Ix.syms], hk⟩

theorem Ix.substs_syms {i n : Sym} {xs : List Ix} {s : Sym} (h : s ∈ (xs.map (Ix.subst (single i (.sym n)))).flatMap Ix.syms) : s = n ∨ (s ∈ xs.flatMap Ix.syms ∧ s ≠ i) := by
  simp only [List.mem_flatMap, List.mem_map] at h ⊢
  obtain ⟨_, ⟨x, hx, rfl⟩, h⟩ := h
  rcases Ix.subst_syms h with h | ⟨h, hi⟩
  · exact Or.inl h
  · exact Or.inr ⟨⟨x, hx, h⟩, hi⟩

theorem Term.rename_syms {i n : Sym} : ∀ (t t' : Term), t.subst (single i (.sym n)) = .ok t' → ∀ s ∈ t'.allSyms, s = n ∨ (s ∈ t.allSyms ∧ s ≠ i)
  | .fn f xs, t', h, s, hs => by cases h; exact Ix.substs_syms hs
  | .scal c xs t, t', h, s, hs => by
    obtain ⟨u, h1, rfl⟩ := Except.map_ok h
    simp only [Term.allSyms, List.mem_append] at hs ⊢
    rcases hs with hs | hs
    · rcases Ix.substs_syms hs with h | ⟨h, h'⟩ <;> tauto
    · rcases Term.rename_syms t u h1 s hs with h | ⟨h, h'⟩ <;> tauto
  | .delta a b t, t', h, s, hs => by
    obtain ⟨u, h1, rfl⟩ := Except.map_ok h
    simp only [Term.allSyms, List.mem_append] at hs ⊢
    rcases hs with (hs | hs) | hs
    · rcases Ix.subst_syms hs with h | ⟨h, h'⟩ <;> tauto
    · rcases Ix.subst_syms hs with h | ⟨h, h'⟩ <;> tauto
    · rcases Term.rename_syms t u h1 s hs with h | ⟨h, h'⟩ <;> tauto
  | .pw r x t, t', h, s, hs => by
    obtain ⟨u, h1, rfl⟩ := Except.map_ok h
    simp only [Term.allSyms, List.mem_append] at hs ⊢
    rcases hs with hs | hs
    · rcases Ix.subst_syms hs with h | ⟨h, h'⟩ <;> tauto
    · rcases Term.rename_syms t u h1 s hs with h | ⟨h, h'⟩ <;> tauto
  | .nmul m t, t', h, s, hs => by
    obtain ⟨u, h1, rfl⟩ := Except.map_ok h
    exact Term.rename_syms t u h1 s hs
  | .add a b, t', h, s, hs => by
    obtain ⟨a', h1, h⟩ := Except.bind_ok h
    obtain ⟨b', h2, h⟩ := Except.bind_ok h
    cases h
    simp only [Term.allSyms, List.mem_append] at hs ⊢
    rcases hs with hs | hs
    · rcases Term.rename_syms a a' h1 s hs with h | ⟨h, h'⟩ <;> tauto
    · rcases Term.rename_syms b b' h2 s hs with h | ⟨h, h'⟩ <;> tauto
  | .mul a b, t', h, s, hs => by
    obtain ⟨a', h1, h⟩ := Except.bind_ok h
    obtain ⟨b', h2, h⟩ := Except.bind_ok h
    cases h
    simp only [Term.allSyms, List.mem_append] at hs ⊢
    rcases hs with hs | hs
    · rcases Term.rename_syms a a' h1 s hs with h | ⟨h, h'⟩ <;> tauto
    · rcases Term.rename_syms b b' h2 s hs with h | ⟨h, h'⟩ <;> tauto
  | .sum t rs, t', h, s, hs => by
    obtain ⟨u, h1, h⟩ := Except.bind_ok h
    obtain ⟨rs', h2, h⟩ := Except.bind_ok h
    obtain ⟨rfl, _⟩ := mkSum_ok h
    simp only [Term.allSyms, List.mem_append] at hs ⊢
    rcases hs with hs | hs
    · rcases Term.rename_syms t u h1 s hs with h | ⟨h, h'⟩ <;> tauto
    · rw [ren_syms (mapM_ok_forall₂ h2)] at hs
      simp only [List.mem_map] at hs
      obtain ⟨k, hk, hks⟩ := hs
      split at hks
      · exact Or.inl hks.symm
      · rename_i hne
        subst hks
        exact Or.inr ⟨Or.inr (List.mem_map.2 hk), hne⟩

/-- the new names are not in use: for every index in `X`, the first of its primed versions outside of `X` occurs nowhere in the sum -/
def NamesUnused (X : List Sym) (t : Term) (rs : List Range) : Prop := ∀ s ∈ rs.map Range.sym, s ∈ X → fresh X s ∉ t.allSyms ∧ fresh X s ∉ rs.map Range.sym

theorem disjunctLoop_spec (I : Interp S R) (X : List Sym) (t : Term) (rs : List Range) (hsafe : NamesUnused X t rs) :
    ∀ (todo : List Range) (u : Term) (qs : List Range) (e : Term), disjunctLoop X todo (.sum u qs) = .ok e →
      (qs.map Range.sym).Nodup → (todo.map Range.sym).Nodup → (∀ r ∈ todo, r.sym ∈ rs.map Range.sym ∧ r.sym ∈ qs.map Range.sym) →
      (∀ s ∈ qs.map Range.sym, s ∈ X → s ∈ todo.map Range.sym) →
      (∀ s ∈ u.allSyms, s ∈ t.allSyms ∨ s ∈ qs.map Range.sym) → (∀ s ∈ qs.map Range.sym, s ∈ rs.map Range.sym ∨ s ∉ X) →
      ∃ u' qs', e = .sum u' qs' ∧ (qs'.map Range.sym).Nodup ∧ (∀ s ∈ qs'.map Range.sym, s ∉ X) ∧ (∀ ρ, e.eval I ρ = (Term.sum u qs).eval I ρ) ∧
        (∀ s ∈ u'.allSyms, s ∈ t.allSyms ∨ s ∈ qs'.map Range.sym) ∧ qs'.map Range.values = qs.map Range.values ∧
        qs'.map Range.sym = (qs.map Range.sym).map (fun s => if s ∈ todo.map Range.sym ∧ s ∈ X then fresh X s else s)
  | [], u, qs, e, h, hn, _, _, hX, hall, _ => by
    cases h
    refine ⟨u, qs, rfl, hn, ?_, fun ρ => rfl, hall, rfl, ?_⟩
    · intro s hs hsX; simpa using hX s hs hsX
    · simp
  | r :: todo, u, qs, e, h, hn, hnt, htodo, hX, hall, hin => by
    simp only [List.map_cons, List.nodup_cons] at hnt
    unfold disjunctLoop at h
    split at h
    · rename_i hr
      obtain ⟨w, hw, h⟩ := Except.bind_ok h
      obtain ⟨u', h1, h3⟩ := Except.bind_ok hw
      obtain ⟨qs', h2, h3⟩ := Except.bind_ok h3
      obtain ⟨rfl, hn'⟩ := mkSum_ok h3
      have hf2 := mapM_ok_forall₂ h2
      have hsyms := ren_syms hf2
      obtain ⟨hr1, hr2⟩ := htodo r (by simp)
      have hfX := fresh_not_mem X r.sym
      -- the new symbol does not occur
      have hnq : fresh X r.sym ∉ qs.map Range.sym := by
        intro hc
        rw [hsyms] at hn'
        -- `r.sym` and the new symbol would both be mapped to the new symbol
        have hinj := List.inj_on_of_nodup_map hn' hr2 hc
        simp only [if_true] at hinj
        have : r.sym = fresh X r.sym := hinj (by split <;> rfl)
        exact hfX (this ▸ hr)
      have hnu : fresh X r.sym ∉ (Term.sum u qs).allSyms := by
        simp only [Term.allSyms, List.mem_append, not_or]
        refine ⟨?_, hnq⟩
        intro hc
        rcases hall _ hc with hc | hc
        · exact (hsafe r.sym hr1 hr).1 hc
        · exact hnq hc
      have hsub : (Term.sum u qs).subst (single r.sym (.sym (fresh X r.sym))) = .ok (.sum u' qs') := hw
      have hval : ∀ ρ, (Term.sum u' qs').eval I ρ = (Term.sum u qs).eval I ρ := by
        intro ρ
        rw [Term.eval_rename I _ _ hsub hnu]
        refine Term.eval_congr I _ _ _ ?_
        intro s hs
        unfold Env.ren Env.upd
        rw [if_neg]
        rintro rfl
        simp only [Term.free, List.mem_filter, decide_eq_true_eq] at hs
        exact hs.2 hr2
      have hmem : ∀ s, s ∈ qs'.map Range.sym ↔ s = fresh X r.sym ∨ (s ∈ qs.map Range.sym ∧ s ≠ r.sym) := by
        intro s
        rw [hsyms, List.mem_map]
        constructor
        · rintro ⟨k, hk, rfl⟩
          split
          · exact Or.inl rfl
          · rename_i hne; exact Or.inr ⟨hk, hne⟩
        · rintro (rfl | ⟨hs, hne⟩)
          · exact ⟨r.sym, hr2, if_pos rfl⟩
          · exact ⟨s, hs, if_neg hne⟩
      obtain ⟨u'', qs'', he, a1, a2, a3, a4, a5, a6⟩ := disjunctLoop_spec I X t rs hsafe todo u' qs' e h hn' hnt.2 (by
          intro q hq
          obtain ⟨b1, b2⟩ := htodo q (by simp [hq])
          refine ⟨b1, (hmem _).2 (Or.inr ⟨b2, ?_⟩)⟩
          intro hc
          exact hnt.1 (hc ▸ List.mem_map.2 ⟨q, hq, rfl⟩)) (by
          intro s hs hsX
          rcases (hmem s).1 hs with rfl | ⟨h4, h5⟩
          · exact absurd hsX hfX
          · have := hX s h4 hsX
            simp only [List.map_cons, List.mem_cons] at this
            exact this.resolve_left h5) (by
          intro s hs
          rcases Term.rename_syms u u' h1 s hs with rfl | ⟨h4, h5⟩
          · exact Or.inr ((hmem _).2 (Or.inl rfl))
          · rcases hall s h4 with h6 | h6
            · exact Or.inl h6
            · exact Or.inr ((hmem _).2 (Or.inr ⟨h6, h5⟩))) (by
          intro s hs
          rcases (hmem s).1 hs with rfl | ⟨h4, _⟩
          · exact Or.inr hfX
          · exact hin s h4)
      refine ⟨u'', qs'', he, a1, a2, fun ρ => (a3 ρ).trans (hval ρ), a4, a5.trans ?_, ?_⟩
      · clear * - hf2
        induction hf2 with
        | nil => rfl
        | cons hq _ ih => simp only [List.map_cons, ih, (Range.subst_single hq).2]
      · rw [a6, hsyms, List.map_map]
        apply List.map_congr_left
        intro s _
        simp only [Function.comp, List.map_cons, List.mem_cons]
        by_cases hs : s = r.sym
        · subst hs
          simp [hfX, hr]
        · simp [hs]
    · rename_i hr
      obtain ⟨u', qs', he, a1, a2, a3, a4, a5, a6⟩ := disjunctLoop_spec I X t rs hsafe todo u qs e h hn hnt.2 (fun q hq => htodo q (by simp [hq])) (by
        intro s hs hsX
        have := hX s hs hsX
        simp only [List.map_cons, List.mem_cons] at this
        rcases this with rfl | h
        · exact absurd hsX hr
        · exact h) hall hin
      refine ⟨u', qs', he, a1, a2, a3, a4, a5, a6.trans ?_⟩
      apply List.map_congr_left
      intro s _
      simp only [List.map_cons, List.mem_cons]
      by_cases hs : s = r.sym
      · subst hs; simp [hr]
      · simp [hs]

/-- the index symbol of `make_disjunct_indices` for a symbol -/
def newName (X : List Sym) (s : Sym) : Sym := if s ∈ X then fresh X s else s

/-- C34: `make_disjunct_indices` returns a sum over the same values with the same value, whose index symbols are not in `X`, if the new names
are not in use. -/
theorem C34_make_disjunct (I : Interp S R) {X : List Sym} {t e : Term} {rs : List Range} (hn : (rs.map Range.sym).Nodup) (hu : NamesUnused X t rs)
    (h : makeDisjunct X t rs = .ok e) : ∃ t' rs', e = .sum t' rs' ∧ (rs'.map Range.sym).Nodup ∧ (∀ s ∈ rs'.map Range.sym, s ∉ X) ∧
      (∀ ρ, (Term.sum t' rs').eval I ρ = (Term.sum t rs).eval I ρ) ∧ rs'.map Range.values = rs.map Range.values ∧
      rs'.map Range.sym = (rs.map Range.sym).map (newName X) := by
  obtain ⟨t', rs', he, a1, a2, a3, _, a5, a6⟩ := disjunctLoop_spec I X t rs hu rs t rs e h hn hn
    (fun r hr => ⟨List.mem_map.2 ⟨r, hr, rfl⟩, List.mem_map.2 ⟨r, hr, rfl⟩⟩) (fun s hs _ => hs) (fun s hs => Or.inl hs) (fun s hs => Or.inl hs)
  subst he
  refine ⟨t', rs', rfl, a1, a2, a3, a5, a6.trans ?_⟩
  apply List.map_congr_left
  intro s hs
  simp only [newName, hs, true_and]

/-! ### products -/

/-- `f` does not depend on the symbols of the ranges -/
def Indep {M : Type} (f : Env → M) (rs : List Range) : Prop := ∀ (ρ ρ' : Env), (∀ s, s ∉ rs.map Range.sym → ρ s = ρ' s) → f ρ = f ρ'

theorem sumOver_mul_left (f g : Env → R) : ∀ (rs : List Range), Indep f rs → ∀ ρ : Env, sumOver rs (fun ρ' => f ρ' * g ρ') ρ = f ρ * sumOver rs g ρ
  | [], _, ρ => rfl
  | r :: rs, h, ρ => by
    simp only [sumOver]
    rw [← List.sum_map_mul_left]
    congr 1
    apply List.map_congr_left
    intro v _
    rw [sumOver_mul_left f g rs (fun ρ ρ' hh => h ρ ρ' (fun s hs => hh s (fun hc => hs (by simp only [List.map_cons, List.mem_cons]; exact Or.inr hc))))]
    rw [h (ρ.upd r.sym v) ρ]
    intro s hs
    simp only [List.map_cons, List.mem_cons, not_or] at hs
    simp [Env.upd, hs.1]

theorem sumOver_mul_right (f g : Env → R) : ∀ (rs : List Range), Indep g rs → ∀ ρ : Env, sumOver rs (fun ρ' => f ρ' * g ρ') ρ = sumOver rs f ρ * g ρ
  | [], _, ρ => rfl
  | r :: rs, h, ρ => by
    simp only [sumOver]
    rw [← List.sum_map_mul_right]
    congr 1
    apply List.map_congr_left
    intro v _
    rw [sumOver_mul_right f g rs (fun ρ ρ' hh => h ρ ρ' (fun s hs => hh s (fun hc => hs (by simp only [List.map_cons, List.mem_cons]; exact Or.inr hc))))]
    rw [h (ρ.upd r.sym v) ρ]
    intro s hs
    simp only [List.map_cons, List.mem_cons, not_or] at hs
    simp [Env.upd, hs.1]

theorem indep_of_free (I : Interp S R) {t : Term} {rs : List Range} (h : ∀ s ∈ t.free, s ∉ rs.map Range.sym) : Indep (t.eval I) rs :=
  fun ρ ρ' hh => Term.eval_congr I t ρ ρ' (fun s hs => hh s (h s hs))

theorem nodup_append_ranges {rs qs : List Range} (h1 : (rs.map Range.sym).Nodup) (h2 : (qs.map Range.sym).Nodup) (h3 : ∀ s ∈ qs.map Range.sym, s ∉ rs.map Range.sym) :
    ((rs ++ qs).map Range.sym).Nodup := by
  rw [List.map_append, List.nodup_append]
  refine ⟨h1, h2, ?_⟩
  intro a ha b hb hab
  subst hab
  exact h3 a hb ha

/-- C34: the value of the product of two indexed sums is the product of their values, for every valuation of the free symbols, if the new
names are not in use in the second sum, and no free index symbol of one of the sums is (after the renaming) an index of the other one. -/
theorem C34_product (I : Interp S R) {create : Term → List Range → Res Term} (hc : CreateOk I create) {t u e : Term} {rs qs : List Range}
    (hr : (rs.map Range.sym).Nodup) (hq : (qs.map Range.sym).Nodup) (hne : rs ≠ []) (hu : NamesUnused (rs.map Range.sym) u qs)
    (hfree1 : ∀ s ∈ t.free, s ∉ (qs.map Range.sym).map (newName (rs.map Range.sym))) (hfree2 : ∀ s ∈ (Term.sum u qs).free, s ∉ rs.map Range.sym)
    (h : sumMulSum create t rs u qs = .ok e) (ρ : Env) : e.eval I ρ = (Term.sum t rs).eval I ρ * (Term.sum u qs).eval I ρ := by
  unfold sumMulSum at h
  obtain ⟨w, hw, h⟩ := Except.bind_ok h
  obtain ⟨u', qs', rfl, a1, a2, a3, _, a6⟩ := C34_make_disjunct I hq hu hw
  simp only at h
  have hno := nodup_append_ranges hr a1 a2
  rw [(hc _ _ _ (by simp [hne]) hno h).1 ρ, sumOver_append]
  have h1 : sumOver qs' ((Term.mul t u').eval I) = fun ρ' => t.eval I ρ' * (Term.sum u qs).eval I ρ' := by
    funext ρ'
    rw [← a3 ρ']
    exact sumOver_mul_left (t.eval I) (u'.eval I) qs' (indep_of_free I (by rw [a6]; exact hfree1)) ρ'
  rw [h1]
  exact sumOver_mul_right (t.eval I) ((Term.sum u qs).eval I) rs (indep_of_free I hfree2) ρ

/-- C34: the same for a second factor that is not an indexed sum. -/
theorem C34_times_other (I : Interp S R) {create : Term → List Range → Res Term} (hc : CreateOk I create) {t u e : Term} {rs : List Range}
    (hr : (rs.map Range.sym).Nodup) (hne : rs ≠ []) (hu : NamesUnused u.boundSymbols t rs) (hfree : ∀ s ∈ u.free, s ∉ (rs.map Range.sym).map (newName u.boundSymbols))
    (h : sumMulOther create t rs u = .ok e) (ρ : Env) : e.eval I ρ = (Term.sum t rs).eval I ρ * u.eval I ρ := by
  unfold sumMulOther at h
  obtain ⟨w, hw, h⟩ := Except.bind_ok h
  obtain ⟨t', rs', rfl, a1, _, a3, _, a6⟩ := C34_make_disjunct I hr hu hw
  simp only at h
  have hne' : rs' ≠ [] := by
    rintro rfl
    simp only [List.map_nil, List.map_map] at a6
    exact hne (List.map_eq_nil_iff.1 a6.symm)
  rw [(hc _ _ _ hne' a1 h).1 ρ, ← a3 ρ]
  exact sumOver_mul_right (t'.eval I) (u.eval I) rs' (indep_of_free I (by rw [a6]; exact hfree)) ρ

/-- C34: and for a first factor that is not an indexed sum. -/
theorem C34_other_times (I : Interp S R) {create : Term → List Range → Res Term} (hc : CreateOk I create) {t u e : Term} {rs : List Range}
    (hr : (rs.map Range.sym).Nodup) (hne : rs ≠ []) (hu : NamesUnused u.boundSymbols t rs) (hfree : ∀ s ∈ u.free, s ∉ (rs.map Range.sym).map (newName u.boundSymbols))
    (h : otherMulSum create u t rs = .ok e) (ρ : Env) : e.eval I ρ = u.eval I ρ * (Term.sum t rs).eval I ρ := by
  unfold otherMulSum at h
  obtain ⟨w, hw, h⟩ := Except.bind_ok h
  obtain ⟨t', rs', rfl, a1, _, a3, _, a6⟩ := C34_make_disjunct I hr hu hw
  simp only at h
  have hne' : rs' ≠ [] := by
    rintro rfl
    simp only [List.map_nil, List.map_map] at a6
    exact hne (List.map_eq_nil_iff.1 a6.symm)
  rw [(hc _ _ _ hne' a1 h).1 ρ, ← a3 ρ]
  exact sumOver_mul_left (u.eval I) (t'.eval I) rs' (indep_of_free I (by rw [a6]; exact hfree)) ρ

theorem disjunctLoop_id {X : List Sym} : ∀ {todo : List Range} {e : Term}, (∀ s ∈ todo.map Range.sym, s ∉ X) → disjunctLoop X todo e = .ok e
  | [], e, _ => rfl
  | r :: todo, e, h => by
    unfold disjunctLoop
    rw [if_neg (h r.sym (by simp))]
    exact disjunctLoop_id (fun s hs => h s (by simp only [List.map_cons, List.mem_cons]; exact Or.inr hs))

/-- C34: a scalar indexed sum times a scalar, if none of the indices of the sum occurs in the scalar. -/
theorem C34_scalar_times (I : Interp S R) {create : Term → List Range → Res Term} (hc : CreateOk I create) {t u e : Term} {rs : List Range}
    (hr : (rs.map Range.sym).Nodup) (hne : rs ≠ []) (hfree : ∀ s ∈ u.free, s ∉ rs.map Range.sym)
    (h : scalarSumMul create t rs u = .ok e) (ρ : Env) : e.eval I ρ = (Term.sum t rs).eval I ρ * u.eval I ρ := by
  unfold scalarSumMul at h
  have : (if u.free = [] then .ok (.sum t rs) else makeDisjunct u.free t rs : Res Term) = .ok (.sum t rs) := by
    split
    · rfl
    · exact disjunctLoop_id (fun s hs hc => hfree s hc hs)
  rw [this] at h
  simp only [bind, Except.bind] at h
  rw [(hc _ _ _ hne hr h).1 ρ]
  exact sumOver_mul_right (t.eval I) (u.eval I) rs (indep_of_free I hfree) ρ

/-- C34: nested sums are flattened without a change of the value, if the new names are not in use and no index symbol of a prefactor of the
inner sum becomes bound. -/
theorem C34_flatten (I : Interp S R) {create : Term → List Range → Res Term} (hc : CreateOk I create) {t e : Term} {rs : List Range}
    (hr : (rs.map Range.sym).Nodup) (hne : rs ≠ [])
    (ht : match t with
      | .sum u qs => (qs.map Range.sym).Nodup ∧ NamesUnused (rs.map Range.sym) u qs
      | .scal _ xs (.sum u qs) => (qs.map Range.sym).Nodup ∧ NamesUnused (rs.map Range.sym) u qs ∧
          ∀ s ∈ xs.flatMap Ix.syms, s ∉ (qs.map Range.sym).map (newName (rs.map Range.sym))
      | _ => True)
    (h : assocIndexed create t rs = .ok e) (ρ : Env) : e.eval I ρ = (Term.sum t rs).eval I ρ := by
  unfold assocIndexed at h
  split at h
  · rename_i u qs
    obtain ⟨w, hw, h⟩ := Except.bind_ok h
    obtain ⟨u', qs', rfl, a1, a2, a3, _, a6⟩ := C34_make_disjunct I ht.1 ht.2 hw
    simp only at h
    rw [(hc _ _ _ (by simp [hne]) (nodup_append_ranges hr a1 a2) h).1 ρ, sumOver_append]
    simp only [Term.eval] at a3 ⊢
    congr 1
    funext ρ'
    exact a3 ρ'
  · rename_i c xs u qs
    obtain ⟨w, hw, h⟩ := Except.bind_ok h
    obtain ⟨u', qs', rfl, a1, a2, a3, _, a6⟩ := C34_make_disjunct I ht.1 ht.2.1 hw
    have hsc : ∀ {rs : List Range} {f : Env → R}, (∀ s ∈ xs.flatMap Ix.syms, s ∉ rs.map Range.sym) → ∀ ρ : Env,
        sumOver rs (fun ρ' => I.sc c (xs.map (Ix.eval ρ')) • f ρ') ρ = I.sc c (xs.map (Ix.eval ρ)) • sumOver rs f ρ := by
      intro rs f hx ρ
      have hh := sumOver_mul_left (fun ρ' => algebraMap S R (I.sc c (xs.map (Ix.eval ρ')))) f rs (by
        intro ρ1 ρ2 h12
        simp only
        rw [Ix.evals_congr (fun s hs => h12 s (hx s hs))]) ρ
      simpa only [Algebra.smul_def] using hh
    simp only at h
    split at h
    · rename_i hall
      obtain ⟨w, hw', rfl⟩ := Except.map_ok h
      simp only [Term.eval]
      rw [(hc _ _ _ (by simp [hne]) (nodup_append_ranges hr a1 a2) hw').1 ρ, sumOver_append]
      rw [List.all_eq_true] at hall
      have h1 : ∀ s ∈ xs.flatMap Ix.syms, s ∉ rs.map Range.sym := by
        intro s hs hc'
        have := hall s hs
        simp only [List.map_append, List.mem_append, decide_eq_true_eq, not_or] at this
        exact this.1 hc'
      rw [hsc h1]
      congr 2
      funext ρ'
      exact a3 ρ'
    · rw [(hc _ _ _ (by simp [hne]) (nodup_append_ranges hr a1 a2) h).1 ρ, sumOver_append]
      simp only [Term.eval]
      congr 1
      funext ρ'
      rw [hsc (by rw [a6]; exact ht.2.2)]
      rw [show sumOver qs' (u'.eval I) ρ' = sumOver qs (u.eval I) ρ' from a3 ρ']
  · by_cases hcase : (∃ u qs, t = .sum u qs) ∨ ∃ c xs u qs, t = .scal c xs (.sum u qs)
    · rename_i h1 h2
      rcases hcase with ⟨u, qs, rfl⟩ | ⟨c, xs, u, qs, rfl⟩
      · exact absurd rfl (h1 u qs)
      · exact absurd rfl (h2 c xs u qs)
    · exact (hc _ _ _ hne hr h).1 ρ

/-! ### captured symbols -/

/-- an interpretation in the integers: the value of a symbol is the sum of its labels, plus its number -/
def demo : Interp ℤ ℤ where
  fn f vs := f + (vs.map (fun v => match v with | .int z => z | .str n => n)).sum
  sc f vs := f + (vs.map (fun v => match v with | .int z => z | .str n => n)).sum

/-- `i`, `j`, `i'` -/
abbrev symI : Sym := ⟨0, 0⟩
abbrev symJ : Sym := ⟨1, 0⟩
abbrev symI' : Sym := ⟨0, 1⟩

/-- the range 1, 2 -/
abbrev r12 (s : Sym) : Range := .list s [.int 1, .int 2]

/-- C34 is false in general (1): a free index of the second sum is captured by an index of the first one: `(∑_i A_i) (∑_j B_{j,i})` becomes
`∑_{i,j} A_i B_{j,i}`. -/
theorem C34_capture_refuted : ∃ (t u e : Term) (ρ : Env), sumMulSum mkSum t [r12 symI] u [r12 symJ] = .ok e ∧
    e.eval demo ρ ≠ (Term.sum t [r12 symI]).eval demo ρ * (Term.sum u [r12 symJ]).eval demo ρ :=
  ⟨.fn 0 [.sym symI], .fn 0 [.sym symJ, .sym symI], _, fun _ => .int 0, rfl, by decide +kernel⟩

/-- C34 is false in general (2): the new name of an index is already in use: `(∑_i A_i) (∑_i B_{i,i'})` becomes
`∑_{i,i'} A_i B_{i',i'}`. -/
theorem C34_new_name_refuted : ∃ (t u e : Term) (ρ : Env), sumMulSum mkSum t [r12 symI] u [r12 symI] = .ok e ∧
    e.eval demo ρ ≠ (Term.sum t [r12 symI]).eval demo ρ * (Term.sum u [r12 symI]).eval demo ρ :=
  ⟨.fn 0 [.sym symI], .fn 0 [.sym symI, .sym symI'], _, fun _ => .int 0, rfl, by decide +kernel⟩

/-- C34 is false in general (3): a free index in a factor that is not a sum: `(∑_i A_i) B_i` becomes `∑_i A_i B_i`. -/
theorem C34_other_refuted : ∃ (t u e : Term) (ρ : Env), sumMulOther mkSum t [r12 symI] u = .ok e ∧
    e.eval demo ρ ≠ (Term.sum t [r12 symI]).eval demo ρ * u.eval demo ρ :=
  ⟨.fn 0 [.sym symI], .fn 0 [.sym symI], _, fun _ => .int 0, rfl, by decide +kernel⟩

/-- C34 is false in general (4): a scalar sum times a scalar with the same index: `(∑_i a_i) b_i` becomes `∑_i a_{i'} b_i`. -/
theorem C34_scalar_refuted : ∃ (t u e : Term) (ρ : Env), scalarSumMul mkSum t [r12 symI] u = .ok e ∧
    e.eval demo ρ ≠ (Term.sum t [r12 symI]).eval demo ρ * u.eval demo ρ :=
  ⟨.fn 10 [.sym symI], .fn 0 [.sym symI], _, fun _ => .int 0, rfl, by decide +kernel⟩

/-- C34 is false in general (5): a prefactor with the index of the inner sum: `∑_j a_i ∑_i B_{i,j}` becomes `∑_{j,i} a_i B_{i,j}`. -/
theorem C34_prefactor_refuted : ∃ (t e : Term) (ρ : Env), assocIndexed mkSum t [r12 symJ] = .ok e ∧ e.eval demo ρ ≠ (Term.sum t [r12 symJ]).eval demo ρ :=
  ⟨.scal 0 [.sym symI] (.sum (.fn 0 [.sym symI, .sym symJ]) [r12 symI]), _, fun _ => .int 0, rfl, by decide +kernel⟩

/-- C34: renaming fails if the two new names coincide: `i` and `i'` both become `i''`. -/
theorem C34_same_name_refuted : makeDisjunct [symI, symI'] (.fn 0 [.sym symI, .sym symI']) [r12 symI, r12 symI'] = .error .valueError := by
  decide +kernel

/-- a concrete case: `(∑_i A_i) (∑_i B_i) = ∑_{i,i'} A_i B_{i'}` -/
example : sumMulSum mkSum (.fn 3 [.sym symI]) [r12 symI] (.fn 4 [.sym symI]) [r12 symI] =
    .ok (.sum (.mul (.fn 3 [.sym symI]) (.fn 4 [.sym symI'])) [r12 symI, r12 symI']) := by rfl

example : NamesUnused [symI] (.fn 4 [.sym symI]) [r12 symI] ∧ (∀ s ∈ (Term.fn 3 [.sym symI]).free, s ∉ [symI].map (newName [symI])) ∧
    (∀ s ∈ (Term.sum (.fn 4 [.sym symI]) [r12 symI]).free, s ∉ [symI]) := by
  unfold NamesUnused
  decide +kernel

end QNET.Indexed
