import Verif.Cache.AddRule

/-! # C83: theorems -/

namespace QNET.Cache.Rules

/-- What `add_rule` requires of its arguments: a string as name, a pattern that matches a `ProtoExpr`, and a callable whose parameters are
exactly the wildcards of the pattern. -/
def ValidRule (r : Cand) : Prop := ∃ n wcs ps, r.name = some n ∧ r.pat = some (true, wcs) ∧ r.repl = some ps ∧ ∀ x, x ∈ ps ↔ x ∈ wcs

theorem checkRule_ok (r : Cand) (p : ℕ × ℕ) : checkRule r = .ok p ↔ ValidRule r ∧ r.name = some p.1 ∧ p.2 = r.code := by
  obtain ⟨name, pat, repl, code⟩ := r
  obtain ⟨p1, p2⟩ := p
  unfold checkRule ValidRule
  rcases name with _ | n
  · simp
  rcases pat with _ | ⟨proto, wcs⟩
  · simp
  rcases repl with _ | ps
  · cases proto <;> simp
  cases proto
  · simp
  · simp only [Bool.true_eq_false, if_false]
    split
    · rename_i h
      have h' : ∀ x, x ∈ ps ↔ x ∈ wcs := by rw [← h]; simp
      simp only [Except.ok.injEq, Prod.mk.injEq, Option.some.injEq]
      constructor
      · rintro ⟨rfl, rfl⟩
        exact ⟨⟨_, wcs, ps, rfl, ⟨trivial, rfl⟩, rfl, h'⟩, rfl, rfl⟩
      · rintro ⟨-, rfl, rfl⟩
        exact ⟨rfl, rfl⟩
    · rename_i h
      simp only [reduceCtorEq, false_iff]
      rintro ⟨⟨n', w', q', -, h1, h2, h3⟩, -⟩
      injection h1 with h1
      injection h2 with h2
      injection h1 with _ h1
      subst h1 h2
      exact h (by ext x; simp [h3])

theorem content_modify_self (w : World) (d : ℕ) (o : Obj) (hd : d < w.heap.length) : (w.modify d o).content d = o := by
  simp [World.modify, World.content, List.getD_eq_getElem?_getD, hd]

theorem content_modify_ne (w : World) (d e : ℕ) (o : Obj) (h : e ≠ d) : (w.modify d o).content e = w.content e := by
  simp [World.modify, World.content, List.getD_eq_getElem?_getD, List.getElem?_set_ne (Ne.symm h)]

theorem lookup_modify (w : World) (d : ℕ) (o : Obj) (c : ℕ) (a : Attr) : (w.modify d o).lookup c a = w.lookup c a := rfl

/-- Attributes refer to objects that exist; the list `simplifications` is not one of the dictionaries; dictionaries of rules have unique
keys. -/
structure World.Ok (w : World) : Prop where
  lt : ∀ c a r, w.lookup c a = some r → r < w.heap.length
  typed : ∀ c c' a r, w.lookup c .simplifications = some r → a ≠ .simplifications → w.lookup c' a ≠ some r
  nodup : ∀ c a r, (a = .rules ∨ a = .binaryRules) → w.lookup c a = some r → ((w.content r).map Prod.fst).Nodup

/-- the argument `attr` is `None`, `'_rules'` or `'_binary_rules'` -/
def RuleAttr (attr : Option Attr) : Prop := attr = none ∨ attr = some .rules ∨ attr = some .binaryRules

theorem pickAttr_rule (w : World) (c : ℕ) (attr : Option Attr) (ha : RuleAttr attr) (a : Attr) (h : pickAttr w c attr = .ok a) :
    a = .rules ∨ a = .binaryRules := by
  rcases ha with rfl | rfl | rfl
  · unfold pickAttr rulesAttr at h
    dsimp only at h
    split at h
    · cases h
    · split at h
      · injection h with h; exact Or.inl h.symm
      · split at h
        · injection h with h; exact Or.inr h.symm
        · cases h
  · injection h with h; exact Or.inl h.symm
  · injection h with h; exact Or.inr h.symm

/-- changing a dictionary does not change which dictionary is used -/
theorem pickAttr_modify (w : World) (hw : w.Ok) (c c' : ℕ) (a : Attr) (ha : a ≠ .simplifications) (d : ℕ) (o : Obj) (attr : Option Attr)
    (hd : w.lookup c' a = some d) : pickAttr (w.modify d o) c attr = pickAttr w c attr := by
  cases attr with
  | some b => rfl
  | none =>
    unfold pickAttr rulesAttr
    dsimp only
    rw [lookup_modify]
    cases h : w.lookup c .simplifications with
    | none => rfl
    | some r =>
      have hr : r ≠ d := by
        rintro rfl
        exact hw.typed c c' a r h ha hd
      dsimp only
      rw [content_modify_ne w d r o hr]

theorem getRules_ok (w : World) (c : ℕ) (attr : Option Attr) (d : ℕ) :
    getRules w c attr = .ok d ↔ ∃ a, pickAttr w c attr = .ok a ∧ w.lookup c a = some d := by
  unfold getRules
  cases pickAttr w c attr with
  | error e => simp
  | ok a =>
    cases h : w.lookup c a with
    | none => simp [h]
    | some r => simp [h]

/-- C83: `add_rule` succeeds exactly if the class has the rules, the arguments are valid, and the name is new. -/
theorem C83_add_succeeds (w : World) (c : ℕ) (r : Cand) (attr : Option Attr) :
    (∃ w', addRule w c r attr = .ok w') ↔
      ∃ names, (∃ d, getRules w c attr = .ok d) ∧ ruleNames w c attr = .ok names ∧ ValidRule r ∧ ∀ n, r.name = some n → n ∉ names := by
  unfold addRule ruleNames
  cases hg : getRules w c attr with
  | error e => cases e <;> simp
  | ok d =>
    simp only [Except.ok.injEq, exists_eq', true_and, exists_eq_left']
    split
    · rename_i h
      simp only [reduceCtorEq, exists_false, false_iff]
      rintro ⟨-, h2⟩
      obtain ⟨n, h3, h4⟩ := h
      exact h2 n h3 h4
    · rename_i h
      cases hc : checkRule r with
      | error e =>
        simp only [reduceCtorEq, exists_false, false_iff]
        rintro ⟨hv, -⟩
        obtain ⟨n, wcs, ps, h1, h2⟩ := hv
        have := (checkRule_ok r (n, r.code)).mpr ⟨⟨n, wcs, ps, h1, h2⟩, h1, rfl⟩
        rw [hc] at this
        cases this
      | ok p =>
        simp only [Except.ok.injEq, exists_eq', true_iff]
        exact ⟨((checkRule_ok r p).mp hc).1, fun n h1 h2 => h ⟨n, h1, h2⟩⟩

theorem getRules_modify (w : World) (hw : w.Ok) (c c' : ℕ) (a : Attr) (ha : a ≠ .simplifications) (d : ℕ) (o : Obj) (attr : Option Attr)
    (hd : w.lookup c' a = some d) : getRules (w.modify d o) c attr = getRules w c attr := by
  unfold getRules
  rw [pickAttr_modify w hw c c' a ha d o attr hd]
  rfl

theorem ne_simp {a : Attr} (h : a = .rules ∨ a = .binaryRules) : a ≠ .simplifications := by
  rcases h with rfl | rfl <;> simp

/-- `add_rule`, unfolded -/
theorem addRule_ok (w w' : World) (c : ℕ) (r : Cand) (attr : Option Attr) (h : addRule w c r attr = .ok w') :
    ∃ d n, getRules w c attr = .ok d ∧ ValidRule r ∧ r.name = some n ∧ n ∉ (w.content d).map Prod.fst ∧
      w' = w.modify d (w.content d ++ [(n, r.code)]) := by
  unfold addRule at h
  cases hg : getRules w c attr with
  | error e => rw [hg] at h; cases h
  | ok d =>
    rw [hg] at h
    dsimp only at h
    split at h
    · cases h
    · rename_i hn
      cases hc : checkRule r with
      | error e => rw [hc] at h; cases h
      | ok p =>
        rw [hc] at h
        injection h with h
        subst h
        obtain ⟨h1, h2, h3⟩ := (checkRule_ok r p).mp hc
        obtain ⟨p1, p2⟩ := p
        simp only at h2 h3
        subst h3
        exact ⟨d, p1, rfl, h1, h2, fun h => hn ⟨p1, h2, h⟩, rfl⟩

/-- C83: `rules()` is empty, without an exception, exactly if the class has no rules to speak of (`add_rule` then raises `TypeError`);
only a missing attribute is an error. -/
theorem C83_names (w : World) (c : ℕ) (r : Cand) (attr : Option Attr) :
    (∀ d, getRules w c attr = .ok d → ruleNames w c attr = .ok ((w.content d).map Prod.fst)) ∧
    (getRules w c attr = .error .typeError → ruleNames w c attr = .ok [] ∧ addRule w c r attr = .error .typeError) ∧
    (∀ e, ruleNames w c attr = .error e → e = .attributeError) := by
  refine ⟨fun d hd => by simp only [ruleNames, hd], fun h => ⟨by simp only [ruleNames, h], by simp only [addRule, h]⟩, ?_⟩
  intro e he
  unfold ruleNames getRules pickAttr rulesAttr at he
  repeat' split at he
  all_goals first
    | cases he; done
    | (injection he with he; subst he; simp_all; done)
    | (simp_all; done)
    | skip
  all_goals (repeat' split at *) <;> simp_all

/-- C83: a successful `add_rule` appends the rule, with the given name, at the end of the rules of the class. -/
theorem C83_add_effect (w w' : World) (hw : w.Ok) (c : ℕ) (r : Cand) (attr : Option Attr) (ha : RuleAttr attr)
    (h : addRule w c r attr = .ok w') : ∃ n names, r.name = some n ∧ ruleNames w c attr = .ok names ∧ n ∉ names ∧
      ruleNames w' c attr = .ok (names ++ [n]) := by
  obtain ⟨d, n, hg, -, hn, hnew, rfl⟩ := addRule_ok w w' c r attr h
  obtain ⟨a, h4, h5⟩ := (getRules_ok w c attr d).mp hg
  have hs := ne_simp (pickAttr_rule w c attr ha a h4)
  refine ⟨n, (w.content d).map Prod.fst, hn, by simp only [ruleNames, hg], hnew, ?_⟩
  simp only [ruleNames, getRules_modify w hw c c a hs d _ attr h5, hg, content_modify_self w d _ (hw.lt c a d h5), List.map_append,
    List.map_cons, List.map_nil]

/-- C83: the new rule is the given one, it is seen by the classes that share the dictionary, and everything else - other rules, all
caches, the attributes of all classes - is as before. -/
theorem C83_add_frame (w w' : World) (hw : w.Ok) (c : ℕ) (r : Cand) (attr : Option Attr) (h : addRule w c r attr = .ok w') :
    ∃ d n, getRules w c attr = .ok d ∧ r.name = some n ∧ w'.content d = w.content d ++ [(n, r.code)] ∧
      (∀ e, e ≠ d → w'.content e = w.content e) ∧ ∀ k b, w'.lookup k b = w.lookup k b := by
  obtain ⟨d, n, hg, -, hn, hnew, rfl⟩ := addRule_ok w w' c r attr h
  obtain ⟨a, h4, h5⟩ := (getRules_ok w c attr d).mp hg
  exact ⟨d, n, hg, hn, content_modify_self w d _ (hw.lt c a d h5), fun e he => content_modify_ne w d e _ he, fun k b => rfl⟩

/-- C83: the exceptions of `add_rule` on a class with rules: `ValueError` for a name in use; otherwise `TypeError` if the name is not a
string or the pattern not a pattern, `ValueError` if the pattern does not match a `ProtoExpr`, the replacement is not callable, or has other
parameters than the wildcards. -/
theorem C83_add_exceptions (w : World) (c : ℕ) (r : Cand) (attr : Option Attr) (d : ℕ) (hd : getRules w c attr = .ok d) (e : RErr)
    (h : addRule w c r attr = .error e) : (e = .typeError ∧ (r.name = none ∨ r.pat = none)) ∨
      (e = .valueError ∧ ((∃ n, r.name = some n ∧ ruleNames w c attr = .ok ((w.content d).map Prod.fst) ∧ n ∈ (w.content d).map Prod.fst) ∨
        (∃ wcs, r.pat = some (false, wcs)) ∨ r.repl = none ∨ ∃ wcs ps, r.pat = some (true, wcs) ∧ r.repl = some ps ∧ ¬ ∀ x, x ∈ ps ↔ x ∈ wcs)) := by
  unfold addRule at h
  rw [hd] at h
  dsimp only at h
  split at h
  · rename_i hn
    injection h with h
    obtain ⟨n, h1, h2⟩ := hn
    exact Or.inr ⟨h.symm, Or.inl ⟨n, h1, by simp only [ruleNames, hd], h2⟩⟩
  · cases hc : checkRule r with
    | ok p => rw [hc] at h; cases h
    | error e' =>
      rw [hc] at h
      injection h with h
      subst h
      obtain ⟨name, pat, repl, code⟩ := r
      unfold checkRule at hc
      rcases name with _ | n
      · simp only at hc
        injection hc with hc
        exact Or.inl ⟨hc.symm, Or.inl rfl⟩
      rcases pat with _ | ⟨proto, wcs⟩
      · simp only at hc
        injection hc with hc
        exact Or.inl ⟨hc.symm, Or.inr rfl⟩
      cases proto
      · simp only [if_true] at hc
        injection hc with hc
        exact Or.inr ⟨hc.symm, Or.inr (Or.inl ⟨wcs, rfl⟩)⟩
      rcases repl with _ | ps
      · simp only [Bool.true_eq_false, if_false] at hc
        injection hc with hc
        exact Or.inr ⟨hc.symm, Or.inr (Or.inr (Or.inl rfl))⟩
      simp only [Bool.true_eq_false, if_false] at hc
      split at hc
      · cases hc
      · rename_i hne
        injection hc with hc
        exact Or.inr ⟨hc.symm, Or.inr (Or.inr (Or.inr ⟨wcs, ps, rfl, rfl, fun hx => hne (by ext x; simp [hx])⟩))⟩

theorem filter_keys (o : Obj) (p : ℕ → Bool) : (o.filter (fun q => p q.1)).map Prod.fst = (o.map Prod.fst).filter p := by
  rw [List.filter_map]; rfl

theorem delLoop_false (ns : List ℕ) : ∀ o : Obj, (delLoop ns o).2 = false → ns.Nodup ∧ (∀ n ∈ ns, n ∈ o.map Prod.fst) ∧
    (delLoop ns o).1 = o.filter (fun p => p.1 ∉ ns) := by
  induction ns with
  | nil => intro o _; simp [delLoop]
  | cons n ns ih =>
    intro o h
    unfold delLoop at h ⊢
    unfold delKey at h ⊢
    by_cases hn : n ∈ o.map Prod.fst
    · rw [if_pos hn] at h ⊢
      obtain ⟨h1, h2, h3⟩ := ih _ h
      have h4 : n ∉ ns := by
        intro hmem
        have := h2 n hmem
        simp at this
      refine ⟨List.nodup_cons.mpr ⟨h4, h1⟩, ?_, ?_⟩
      · intro k hk
        rcases List.mem_cons.mp hk with rfl | hk
        · exact hn
        · have := h2 k hk
          rw [List.mem_map] at this ⊢
          obtain ⟨q, hq, rfl⟩ := this
          exact ⟨q, (List.mem_filter.mp hq).1, rfl⟩
      · dsimp only
        rw [h3, List.filter_filter]
        congr 1
        funext q
        rw [Bool.eq_iff_iff]
        simp only [Bool.and_eq_true, decide_eq_true_eq, List.mem_cons, not_or, ne_eq]
        tauto
    · rw [if_neg hn] at h
      cases h

theorem delLoop_ok (ns : List ℕ) : ∀ o : Obj, ns.Nodup → (∀ n ∈ ns, n ∈ o.map Prod.fst) → (delLoop ns o).2 = false := by
  induction ns with
  | nil => intro o _ _; rfl
  | cons n ns ih =>
    intro o h1 h2
    unfold delLoop delKey
    rw [if_pos (h2 n (by simp))]
    obtain ⟨h3, h4⟩ := List.nodup_cons.mp h1
    apply ih _ h4
    intro k hk
    have := h2 k (List.mem_cons_of_mem _ hk)
    rw [List.mem_map] at this ⊢
    obtain ⟨q, hq, rfl⟩ := this
    refine ⟨q, List.mem_filter.mpr ⟨hq, ?_⟩, rfl⟩
    simp only [decide_eq_true_eq]
    rintro rfl
    exact h3 hk

theorem delLoop_true (ns : List ℕ) : ∀ o : Obj, (delLoop ns o).2 = true → ∃ ms n rest, ns = ms ++ n :: rest ∧ (delLoop ms o).2 = false ∧
    (n ∈ ms ∨ n ∉ o.map Prod.fst) ∧ (delLoop ns o).1 = o.filter (fun p => p.1 ∉ ms) := by
  induction ns with
  | nil => intro o h; cases h
  | cons n ns ih =>
    intro o h
    unfold delLoop at h ⊢
    by_cases hn : n ∈ o.map Prod.fst
    · have hk : delKey n o = some (o.filter (fun p => p.1 ≠ n)) := by unfold delKey; rw [if_pos hn]
      rw [hk] at h ⊢
      obtain ⟨ms, k, rest, h1, h2, h3, h4⟩ := ih _ h
      refine ⟨n :: ms, k, rest, by rw [h1]; rfl, ?_, ?_, ?_⟩
      · change (match delKey n o with | none => (o, true) | some o' => delLoop ms o').2 = false
        rw [hk]
        exact h2
      · rcases h3 with h3 | h3
        · exact Or.inl (List.mem_cons_of_mem _ h3)
        · by_cases hkn : k = n
          · exact Or.inl (by simp [hkn])
          · refine Or.inr fun hmem => h3 ?_
            rw [List.mem_map] at hmem ⊢
            obtain ⟨q, hq, rfl⟩ := hmem
            exact ⟨q, List.mem_filter.mpr ⟨hq, by simpa using hkn⟩, rfl⟩
      · dsimp only
        rw [h4, List.filter_filter]
        congr 1
        funext q
        rw [Bool.eq_iff_iff]
        simp only [Bool.and_eq_true, decide_eq_true_eq, List.mem_cons, not_or, ne_eq]
        tauto
    · have hk : delKey n o = none := by unfold delKey; rw [if_neg hn]
      rw [hk]
      exact ⟨[], n, ns, rfl, rfl, Or.inr hn, by simp⟩

/-- C83 (partial: see `C83_refuted_atomic` for a name that does not exist): `del_rules(*names)` with at least one name does not raise
exactly if the names are different names of rules of the class; the rules are then the old ones without them, in the same order. Nothing
else is changed - but classes that share the dictionary share the deletion. -/
theorem C83_del_named_partial (w : World) (hw : w.Ok) (c : ℕ) (names : List ℕ) (hne : names ≠ []) (attr : Option Attr) (ha : RuleAttr attr)
    (d : ℕ) (hd : getRules w c attr = .ok d) (old : List ℕ) (ho : ruleNames w c attr = .ok old) :
    ((delRules w c names attr).2 = none ↔ names.Nodup ∧ ∀ n ∈ names, n ∈ old) ∧
    ((delRules w c names attr).2 = none ∨ (delRules w c names attr).2 = some .keyError) ∧
    ((delRules w c names attr).2 = none → ruleNames (delRules w c names attr).1 c attr = .ok (old.filter (fun n => n ∉ names)) ∧
      (delRules w c names attr).1.content d = (w.content d).filter (fun p => p.1 ∉ names)) ∧
    (∀ e, e ≠ d → (delRules w c names attr).1.content e = w.content e) ∧
    ∀ k b, (delRules w c names attr).1.lookup k b = w.lookup k b := by
  obtain ⟨a, h4, h5⟩ := (getRules_ok w c attr d).mp hd
  have hs := ne_simp (pickAttr_rule w c attr ha a h4)
  have hold : old = (w.content d).map Prod.fst := by
    simp only [ruleNames, hd, Except.ok.injEq] at ho
    exact ho.symm
  subst hold
  have hl : ¬ names.length = 0 := by simpa using hne
  have hdel : delRules w c names attr = (w.modify d (delLoop names (w.content d)).1,
      if (delLoop names (w.content d)).2 then some .keyError else none) := by
    unfold delRules
    rw [h4]
    dsimp only
    rw [h5]
    dsimp only
    rw [if_neg hl]
  rw [hdel]
  refine ⟨?_, ?_, ?_, fun e he => content_modify_ne w d e _ he, fun k b => rfl⟩
  · constructor
    · intro h
      have hf : (delLoop names (w.content d)).2 = false := by
        by_contra hx
        rw [Bool.not_eq_false] at hx
        simp [hx] at h
      obtain ⟨h1, h2, -⟩ := delLoop_false names _ hf
      exact ⟨h1, h2⟩
    · rintro ⟨h1, h2⟩
      simp [delLoop_ok names _ h1 h2]
  · cases (delLoop names (w.content d)).2 <;> simp
  · intro h
    have hf : (delLoop names (w.content d)).2 = false := by
      by_contra hx
      rw [Bool.not_eq_false] at hx
      simp [hx] at h
    obtain ⟨-, -, h3⟩ := delLoop_false names _ hf
    have hc := content_modify_self w d (delLoop names (w.content d)).1 (hw.lt c a d h5)
    refine ⟨?_, by rw [hc, h3]⟩
    simp only [ruleNames, getRules_modify w hw c c a hs d _ attr h5, hd, hc]
    rw [h3]
    exact congrArg _ (filter_keys (w.content d) (fun n => decide (n ∉ names)))

/-- C83: if `del_rules` raises a `KeyError`, the names before the first one that is missing (or repeated) have been deleted. -/
theorem C83_del_raises (w : World) (hw : w.Ok) (c : ℕ) (names : List ℕ) (attr : Option Attr) (d : ℕ) (hd : getRules w c attr = .ok d)
    (hr : (delRules w c names attr).2 = some .keyError) : ∃ ms n rest, names = ms ++ n :: rest ∧
      (n ∈ ms ∨ n ∉ (w.content d).map Prod.fst) ∧ ms.Nodup ∧ (∀ m ∈ ms, m ∈ (w.content d).map Prod.fst) ∧
      (delRules w c names attr).1.content d = (w.content d).filter (fun p => p.1 ∉ ms) := by
  obtain ⟨a, h4, h5⟩ := (getRules_ok w c attr d).mp hd
  have hdel : delRules w c names attr = if names.length = 0 then (w.bindNew c a [], none) else
      (w.modify d (delLoop names (w.content d)).1, if (delLoop names (w.content d)).2 then some .keyError else none) := by
    unfold delRules
    rw [h4]
    dsimp only
    rw [h5]
  rw [hdel] at hr ⊢
  by_cases hl : names.length = 0
  · rw [if_pos hl] at hr
    cases hr
  · rw [if_neg hl] at hr ⊢
    have ht : (delLoop names (w.content d)).2 = true := by
      by_contra hx
      rw [Bool.not_eq_true] at hx
      simp [hx] at hr
    obtain ⟨ms, n, rest, h1, h2, h3, h6⟩ := delLoop_true names _ ht
    obtain ⟨h7, h8, -⟩ := delLoop_false ms _ h2
    refine ⟨ms, n, rest, h1, h3, h7, h8, ?_⟩
    dsimp only
    rw [content_modify_self w d _ (hw.lt c a d h5), h6]

theorem own_bindNew (w : World) (c : ℕ) (a : Attr) (o : Obj) (k : ℕ) (b : Attr) :
    (w.bindNew c a o).own k b = if k = c ∧ b = a then some w.heap.length else w.own k b := rfl

theorem lookup_bindNew_self (w : World) (hm : MroOk w.mro) (c : ℕ) (a : Attr) (o : Obj) :
    (w.bindNew c a o).lookup c a = some w.heap.length := by
  obtain ⟨l, hl⟩ := hm.head c
  change ((w.mro c).findSome? _) = _
  rw [hl, List.findSome?_cons, own_bindNew, if_pos ⟨rfl, rfl⟩]

theorem lookup_bindNew_attr (w : World) (c : ℕ) (a : Attr) (o : Obj) (k : ℕ) (b : Attr) (hb : b ≠ a) :
    (w.bindNew c a o).lookup k b = w.lookup k b := by
  change ((w.mro k).findSome? _) = ((w.mro k).findSome? _)
  congr 1
  funext d
  rw [own_bindNew, if_neg (fun h => hb h.2)]

theorem lookup_bindNew_class (w : World) (c : ℕ) (a : Attr) (o : Obj) (k : ℕ) (b : Attr) (hk : c ∉ w.mro k) :
    (w.bindNew c a o).lookup k b = w.lookup k b := by
  change ((w.mro k).findSome? _) = ((w.mro k).findSome? _)
  generalize w.mro k = l at hk
  induction l with
  | nil => rfl
  | cons d l ih =>
    rw [List.findSome?_cons, List.findSome?_cons, own_bindNew, if_neg (fun h => hk (by simp [h.1])),
      ih (fun h => hk (List.mem_cons_of_mem _ h))]

theorem content_bindNew_old (w : World) (c : ℕ) (a : Attr) (o : Obj) (r : ℕ) (hr : r < w.heap.length) :
    (w.bindNew c a o).content r = w.content r := by
  change (w.heap ++ [o]).getD r [] = w.heap.getD r []
  rw [List.getD_eq_getElem?_getD, List.getD_eq_getElem?_getD, List.getElem?_append_left hr]

theorem content_bindNew_new (w : World) (c : ℕ) (a : Attr) (o : Obj) : (w.bindNew c a o).content w.heap.length = o := by
  change (w.heap ++ [o]).getD w.heap.length [] = o
  simp [List.getD_eq_getElem?_getD]

/-- C83: `del_rules()` without names leaves the class without rules, and the rules of all classes that are not derived from it - also of
those whose dictionary it has used so far - as they were; no dictionary that existed before is changed, no other attribute is. -/
theorem C83_del_all (w : World) (hm : MroOk w.mro) (hw : w.Ok) (c : ℕ) (attr : Option Attr) (ha : RuleAttr attr) (d : ℕ)
    (hd : getRules w c attr = .ok d) :
    (delRules w c [] attr).2 = none ∧ ruleNames (delRules w c [] attr).1 c attr = .ok [] ∧
    (∀ r, r < w.heap.length → (delRules w c [] attr).1.content r = w.content r) ∧
    (∀ k b, c ∉ w.mro k → (delRules w c [] attr).1.lookup k b = w.lookup k b) ∧
    ∀ k, (delRules w c [] attr).1.lookup k .instances = w.lookup k .instances ∧
      (delRules w c [] attr).1.lookup k .simplifications = w.lookup k .simplifications := by
  obtain ⟨a, h4, h5⟩ := (getRules_ok w c attr d).mp hd
  have hra := pickAttr_rule w c attr ha a h4
  have hs := ne_simp hra
  have hdel : delRules w c [] attr = (w.bindNew c a [], none) := by
    unfold delRules
    rw [h4]
    dsimp only
    rw [h5]
    rfl
  rw [hdel]
  refine ⟨rfl, ?_, fun r hr => content_bindNew_old w c a [] r hr, fun k b hk => lookup_bindNew_class w c a [] k b hk, fun k => ⟨?_, ?_⟩⟩
  · have hp : pickAttr (w.bindNew c a []) c attr = .ok a := by
      rw [← h4]
      cases attr with
      | some b => rfl
      | none =>
        unfold pickAttr rulesAttr
        dsimp only
        rw [lookup_bindNew_attr w c a [] c .simplifications (Ne.symm hs)]
        cases h : w.lookup c .simplifications with
        | none => rfl
        | some r => dsimp only; rw [content_bindNew_old w c a [] r (hw.lt _ _ _ h)]
    have hg : getRules (w.bindNew c a []) c attr = .ok w.heap.length :=
      (getRules_ok _ c attr _).mpr ⟨a, hp, lookup_bindNew_self w hm c a []⟩
    simp only [ruleNames, hg, content_bindNew_new, List.map_nil]
  · exact lookup_bindNew_attr w c a [] k .instances (by rcases hra with rfl | rfl <;> simp)
  · exact lookup_bindNew_attr w c a [] k .simplifications (Ne.symm hs)

theorem set_getD_self {α : Type} (l : List α) (d : ℕ) (x y : α) (hd : d < l.length) (h : l.getD d y = x) : l.set d x = l := by
  apply List.ext_getElem?
  intro i
  by_cases hi : i = d
  · subst hi
    rw [List.getElem?_set_self hd]
    rw [List.getD_eq_getElem?_getD, List.getElem?_eq_getElem hd] at h
    rw [List.getElem?_eq_getElem hd]
    simpa using h.symm
  · rw [List.getElem?_set_ne (Ne.symm hi)]

/-- C83: adding a rule and deleting it again restores everything. -/
theorem C83_add_del (w w' : World) (hw : w.Ok) (c : ℕ) (r : Cand) (n : ℕ) (hn : r.name = some n) (attr : Option Attr) (ha : RuleAttr attr)
    (h : addRule w c r attr = .ok w') : delRules w' c [n] attr = (w, none) := by
  obtain ⟨d, m, hg, -, hm, hnew, rfl⟩ := addRule_ok w w' c r attr h
  rw [hn] at hm
  injection hm with hm
  subst hm
  obtain ⟨a, h4, h5⟩ := (getRules_ok w c attr d).mp hg
  have hs := ne_simp (pickAttr_rule w c attr ha a h4)
  have hd := hw.lt c a d h5
  unfold delRules
  rw [pickAttr_modify w hw c c a hs d _ attr h5, h4]
  dsimp only
  rw [lookup_modify, h5]
  dsimp only
  rw [if_neg (by simp), content_modify_self w d _ hd]
  have hk : delKey n (w.content d ++ [(n, r.code)]) = some (w.content d) := by
    unfold delKey
    rw [if_pos (by simp)]
    congr 1
    rw [List.filter_append]
    have h1 : (w.content d).filter (fun p => decide (p.1 ≠ n)) = w.content d := by
      rw [List.filter_eq_self]
      intro p hp
      simp only [ne_eq, decide_eq_true_eq]
      rintro rfl
      exact hnew (List.mem_map.mpr ⟨p, hp, rfl⟩)
    rw [h1]
    simp
  have hl : delLoop [n] (w.content d ++ [(n, r.code)]) = (w.content d, false) := by
    simp only [delLoop, hk]
  rw [hl]
  simp only [Bool.false_eq_true, if_false, Prod.mk.injEq, and_true]
  cases w with
  | mk heap own mro =>
    simp only [World.modify, World.mk.injEq, and_true, List.set_set]
    exact set_getD_self heap d _ [] hd rfl

/-- C83: the invariants of the class attributes (`World.Ok`, in particular unique names) are kept by `add_rule` and `del_rules(*names)`. -/
theorem ok_modify (w : World) (hw : w.Ok) (d : ℕ) (o : Obj) (hd : d < w.heap.length) (ho : (o.map Prod.fst).Nodup) : (w.modify d o).Ok := by
  refine ⟨fun c a r h => ?_, fun c c' a r h1 h2 => hw.typed c c' a r h1 h2, fun c a r h1 h2 => ?_⟩
  · have := hw.lt c a r h
    simpa [World.modify] using this
  · by_cases hr : r = d
    · subst hr
      rw [content_modify_self w r o hd]
      exact ho
    · rw [content_modify_ne w d r o hr]
      exact hw.nodup c a r h1 h2

/-- C83: names of rules stay unique under every `add_rule`. -/
theorem C83_add_unique (w w' : World) (hw : w.Ok) (c : ℕ) (r : Cand) (attr : Option Attr) (ha : RuleAttr attr)
    (h : addRule w c r attr = .ok w') : w'.Ok := by
  obtain ⟨d, m, hg, -, hm, hnew, rfl⟩ := addRule_ok w w' c r attr h
  obtain ⟨a, h4, h5⟩ := (getRules_ok w c attr d).mp hg
  refine ok_modify w hw d _ (hw.lt c a d h5) ?_
  rw [List.map_append]
  refine (hw.nodup c a d (pickAttr_rule w c attr ha a h4) h5).append (by simp) ?_
  intro x hx hx'
  simp only [List.map_cons, List.map_nil, List.mem_singleton] at hx'
  exact hnew (hx' ▸ hx)

theorem nodup_delLoop (ns : List ℕ) : ∀ o : Obj, (o.map Prod.fst).Nodup → ((delLoop ns o).1.map Prod.fst).Nodup := by
  induction ns with
  | nil => intro o h; exact h
  | cons n ns ih =>
    intro o h
    unfold delLoop delKey
    split
    · exact h
    · rename_i o' ho
      split at ho
      · injection ho with ho
        subst ho
        apply ih
        exact h.sublist ((List.filter_sublist).map _)
      · cases ho

/-- C83: ... and under every `del_rules` with names. -/
theorem C83_del_unique (w : World) (hw : w.Ok) (c : ℕ) (names : List ℕ) (hne : names ≠ []) (attr : Option Attr) (ha : RuleAttr attr) :
    (delRules w c names attr).1.Ok := by
  unfold delRules
  cases h4 : pickAttr w c attr with
  | error e => exact hw
  | ok a =>
    dsimp only
    cases h5 : w.lookup c a with
    | none => exact hw
    | some d =>
      dsimp only
      rw [if_neg (by simpa using hne)]
      exact ok_modify w hw d _ (hw.lt c a d h5) (nodup_delLoop _ _ (hw.nodup c a d (pickAttr_rule w c attr ha a h4) h5))

/-- C83: a new rule is tried after all others: what an older rule rewrites is rewritten as before, and the new rule applies to the rest. -/
theorem C83_new_rule_last {X V : Type} (rules : List (X → Option V)) (new : X → Option V) (plain : X → V) (x : X) :
    ((∃ f ∈ rules, (f x).isSome) → firstRule (rules ++ [new]) plain x = firstRule rules plain x) ∧
    ((∀ f ∈ rules, f x = none) → firstRule rules plain x = plain x ∧ firstRule (rules ++ [new]) plain x = (new x).getD (plain x)) := by
  unfold firstRule
  rw [List.findSome?_append]
  constructor
  · rintro ⟨f, hf, hx⟩
    have : (rules.findSome? (fun f => f x)).isSome := by
      rw [List.findSome?_isSome_iff]
      exact ⟨f, hf, hx⟩
    obtain ⟨v, hv⟩ := Option.isSome_iff_exists.mp this
    rw [hv]
    rfl
  · intro h
    have : rules.findSome? (fun f => f x) = none := by
      rw [List.findSome?_eq_none_iff]
      exact h
    rw [this]
    refine ⟨rfl, ?_⟩
    simp only [Option.none_or, List.findSome?_cons, List.findSome?_nil]
    cases new x <;> rfl

/-- an example: class 0 has the rules 7 and 8, class 1 is derived from it -/
def exWorld : World where
  heap := [[(7, 1), (8, 2)], [(0, 0)], []]
  own := fun c a => match c, a with
    | 0, .rules => some 0
    | 0, .simplifications => some 1
    | 0, .instances => some 2
    | _, _ => none
  mro := fun c => if c = 1 then [1, 0] else [c]

theorem exWorld_mro : MroOk exWorld.mro := by
  refine ⟨fun c => ?_, fun c d hd e he => ?_⟩
  · by_cases h : c = 1
    · exact ⟨[0], by simp [exWorld, h]⟩
    · exact ⟨[], by simp [exWorld, h]⟩
  · simp only [exWorld] at hd he ⊢
    by_cases h : c = 1
    · simp only [h, if_true] at hd ⊢
      rcases List.mem_cons.mp hd with rfl | hd
      · simpa using he
      · have : d = 0 := by simpa using hd
        subst this
        simp at he
        simp [he]
    · simp only [h, if_false, List.mem_singleton] at hd ⊢
      subst hd
      simpa [h] using he

theorem exWorld_lookup (c : ℕ) (a : Attr) (r : ℕ) (h : exWorld.lookup c a = some r) :
    (a = .rules ∧ r = 0) ∨ (a = .simplifications ∧ r = 1) ∨ (a = .instances ∧ r = 2) := by
  have key : ∀ k, exWorld.own k a = some r → (a = .rules ∧ r = 0) ∨ (a = .simplifications ∧ r = 1) ∨ (a = .instances ∧ r = 2) := by
    intro k hk
    simp only [exWorld] at hk
    split at hk <;> simp_all
  obtain ⟨k, -, hk⟩ := List.exists_of_findSome?_eq_some h
  exact key k hk

theorem exWorld_ok : exWorld.Ok := by
  refine ⟨fun c a r h => ?_, fun c c' a r h1 h2 h3 => ?_, fun c a r h1 h2 => ?_⟩
  · rcases exWorld_lookup c a r h with ⟨-, rfl⟩ | ⟨-, rfl⟩ | ⟨-, rfl⟩ <;> decide
  · rcases exWorld_lookup c _ r h1 with ⟨h, -⟩ | ⟨-, rfl⟩ | ⟨h, -⟩
    · cases h
    · rcases exWorld_lookup c' a 1 h3 with ⟨-, h⟩ | ⟨h, -⟩ | ⟨-, h⟩
      · cases h
      · exact h2 h
      · cases h
    · cases h
  · rcases exWorld_lookup c a r h2 with ⟨-, rfl⟩ | ⟨rfl, -⟩ | ⟨rfl, -⟩
    · decide
    · simp at h1
    · simp at h1

/-- the hypotheses of the theorems above: the rule 9 is added to the class 0 -/
example : ∃ w', addRule exWorld 0 ⟨some 9, some (true, {4, 5}), some [5, 4], 3⟩ none = .ok w' ∧
    ruleNames w' 0 none = .ok [7, 8, 9] ∧ ruleNames w' 1 none = .ok [7, 8, 9] := ⟨_, by rfl, by rfl, by rfl⟩

example : getRules exWorld 0 none = .ok 0 ∧ ruleNames exWorld 0 none = .ok [7, 8] := ⟨by rfl, by rfl⟩

example : addRule exWorld 0 ⟨some 8, some (true, {4, 5}), some [5, 4], 3⟩ none = .error .valueError := by rfl

example : addRule exWorld 0 ⟨some 9, some (true, {4, 5}), some [4], 3⟩ none = .error .valueError := by rfl

/-- C83 refuted (a failed deletion deletes nothing): `del_rules('R7', 'R9')` raises `KeyError` for the second name after the first one has
been deleted. -/
theorem C83_refuted_atomic : exWorld.Ok ∧ (delRules exWorld 0 [7, 9] none).2 = some .keyError ∧ ruleNames exWorld 0 none = .ok [7, 8] ∧
    ruleNames (delRules exWorld 0 [7, 9] none).1 0 none = .ok [8] := ⟨exWorld_ok, by rfl, by rfl, by rfl⟩

/-- C83 refuted (`del_rules` on a class deletes rules of this class): on a class that inherits the dictionary of its base class,
`del_rules('R7', 'R8')` deletes the rules of the base class, while `del_rules()` - documented as the deletion of all rules - does not. -/
theorem C83_refuted_inherited : exWorld.Ok ∧ MroOk exWorld.mro ∧
    ruleNames (delRules exWorld 1 [7, 8] none).1 1 none = .ok [] ∧ ruleNames (delRules exWorld 1 [7, 8] none).1 0 none = .ok [] ∧
    ruleNames (delRules exWorld 1 [] none).1 1 none = .ok [] ∧ ruleNames (delRules exWorld 1 [] none).1 0 none = .ok [7, 8] :=
  ⟨exWorld_ok, exWorld_mro, by rfl, by rfl, by rfl, by rfl⟩

end QNET.Cache.Rules

namespace QNET.Cache

variable {Call Val Err K R : Type} [DecidableEq K]

mutual
/-- an entry of the cache is never replaced -/
theorem run_keeps {code : Call → Comp Call Val Err} {key : Call → K} {on : Bool} {ca ca' : Cache K Val} {c : Call} {r : Except Err Val}
    {k : K} {v : Val} (hk : ca.lookup k = some v) : Run code key on ca c r ca' → ca'.lookup k = some v
  | .hit _ _ => hk
  | .miss hm h => by
    have h1 := runC_keeps hk h
    unfold store
    split
    · rename_i hon hr
      rw [List.lookup_cons]
      split
      · rename_i hkk
        have : k = key c := by simpa using hkk
        have := hm rfl
        simp_all
      · exact h1
    · exact h1
theorem runC_keeps {code : Call → Comp Call Val Err} {key : Call → K} {on : Bool} {ca ca' : Cache K Val} {p : Comp Call Val Err}
    {r : Except Err Val} {k : K} {v : Val} (hk : ca.lookup k = some v) : RunC code key on ca p r ca' → ca'.lookup k = some v
  | .ret => hk
  | .call h1 h2 => runC_keeps (run_keeps hk h1) h2
end

/-- after a successful call with caching on, the result is in the cache -/
theorem run_stores {code : Call → Comp Call Val Err} {key : Call → K} {ca ca' : Cache K Val} {c : Call} {v : Val}
    (h : Run code key true ca c (.ok v) ca') : ca'.lookup (key c) = some v := by
  cases h with
  | hit _ h => exact h
  | miss _ h => simp [store, List.lookup_cons]

theorem rhistory_keeps {code : R → Call → Comp Call Val Err} {key : Call → K} {s s' : RState K Val R} {l : List (RAct Call R)}
    {rs : List (R × Call × Except Err Val)} (h : RHistory code key s l rs s') : ∀ {k : K} {v : Val}, s.cache.lookup k = some v →
    (∀ a ∈ l, a ≠ .clear) → s'.cache.lookup k = some v := by
  induction h with
  | nil => intro k v hk _; exact hk
  | create h1 _ ih => intro k v hk hc; exact ih (run_keeps hk h1) (fun a ha => hc a (List.mem_cons_of_mem _ ha))
  | change _ ih => intro k v hk hc; exact ih hk (fun a ha => hc a (List.mem_cons_of_mem _ ha))
  | caching _ ih => intro k v hk hc; exact ih hk (fun a ha => hc a (List.mem_cons_of_mem _ ha))
  | clear _ ih => intro k v hk hc; exact absurd rfl (hc _ (by simp))

/-- C83: a created expression is not affected by later changes of the rules: once a call of `create` has returned `v` (with instance
caching), every later call with the same key returns `v`, whatever rules are added or deleted and whatever else is created in between, until
the caches are cleared. -/
theorem C83_stale (code : R → Call → Comp Call Val Err) (key : Call → K) (s s1 : RState K Val R) (ca2 : Cache K Val) (hon : s.on = true) (c c' : Call) (v : Val)
    (ca : Cache K Val) (h1 : Run (code s.rules) key s.on s.cache c (.ok v) ca) (l : List (RAct Call R)) (rs : List (R × Call × Except Err Val))
    (h2 : RHistory code key { s with cache := ca } l rs s1) (hc : ∀ a ∈ l, a ≠ .clear) (hon1 : s1.on = true) (hk : key c' = key c)
    (r : Except Err Val) (h3 : Run (code s1.rules) key s1.on s1.cache c' r ca2) : r = .ok v := by
  rw [hon] at h1
  have h4 : s1.cache.lookup (key c) = some v := rhistory_keeps h2 (run_stores h1) hc
  cases h3 with
  | hit _ h => rw [hk, h4] at h; injection h with h; rw [h]
  | miss h _ =>
    have := h hon1
    rw [hk, h4] at this
    cases this

/-- every change of the rules is followed by clearing the caches -/
def ClearsAfterChange : List (RAct Call R) → Prop
  | [] => True
  | .change _ :: .clear :: l => ClearsAfterChange l
  | .change _ :: _ => False
  | _ :: l => ClearsAfterChange l

theorem clears_rhistory {code : R → Call → Comp Call Val Err} {key : Call → K} {rc : Call → Call → Prop} {rv : Val → Val → Prop}
    (H : ∀ q, Respects (code q) key rc rv) {s s' : RState K Val R} {l : List (RAct Call R)} {rs : List (R × Call × Except Err Val)}
    (h : RHistory code key s l rs s') : (ClearsAfterChange l ∧ SoundCache (code s.rules) key rv s.cache ∨
      ∃ l', l = .clear :: l' ∧ ClearsAfterChange l') → ∀ p ∈ rs, ∃ t, Fresh (code p.1) p.2.1 t ∧ RelRes rv p.2.2 t := by
  induction h with
  | nil => intro _ p hp; cases hp
  | @create s c r ca l rs s' h1 h2 ih =>
    rintro (⟨hl, hs⟩ | ⟨l', hl, -⟩)
    · obtain ⟨h3, h4⟩ := run_sound (H s.rules) hs ((H s.rules).equivC.refl _) h1
      intro p hp
      rcases List.mem_cons.mp hp with rfl | hp
      · exact h3
      · exact ih (Or.inl ⟨by simpa [ClearsAfterChange] using hl, h4⟩) p hp
    · cases hl
  | @change s q l rs s' h1 ih =>
    rintro (⟨hl, hs⟩ | ⟨l', hl, -⟩)
    · cases l with
      | nil => exact absurd hl (by simp [ClearsAfterChange])
      | cons a l =>
        cases a with
        | clear => exact ih (Or.inr ⟨l, rfl, by simpa [ClearsAfterChange] using hl⟩)
        | _ => exact absurd hl (by simp [ClearsAfterChange])
    · cases hl
  | @caching s b l rs s' h1 ih =>
    rintro (⟨hl, hs⟩ | ⟨l', hl, -⟩)
    · exact ih (Or.inl ⟨by simpa [ClearsAfterChange] using hl, hs⟩)
    · cases hl
  | @clear s l rs s' h1 ih =>
    have he : SoundCache (code s.rules) key rv [] := by intro c v h; cases h
    rintro (⟨hl, hs⟩ | ⟨l', hl, hl'⟩)
    · exact ih (Or.inl ⟨by simpa [ClearsAfterChange] using hl, he⟩)
    · injection hl with _ hl
      subst hl
      exact ih (Or.inl ⟨hl', he⟩)

/-- C83 (partial: without clearing the caches it is false, `C83_refuted_takes_effect`): if the caches are cleared after every change of the
rules, each call of `create` has the result of a fresh call under the rules in force, up to `==`. -/
theorem C83_takes_effect_partial (code : R → Call → Comp Call Val Err) (key : Call → K) (rc : Call → Call → Prop) (rv : Val → Val → Prop)
    (H : ∀ q, Respects (code q) key rc rv) (q : R) (on : Bool) (s' : RState K Val R) (l : List (RAct Call R)) (hl : ClearsAfterChange l)
    (rs : List (R × Call × Except Err Val)) (h : RHistory code key ⟨q, on, []⟩ l rs s') :
    ∀ p ∈ rs, ∃ t, Fresh (code p.1) p.2.1 t ∧ RelRes rv p.2.2 t :=
  clears_rhistory H h (Or.inl ⟨hl, by intro c v h; cases h⟩)

/-- a class with `match_replace` whose instances are (encoded by) numbers: the value is made by the first rule, or is the plain expression -/
def ruleCode (rules : List (ℕ → Option ℕ)) (c : ℕ) : Comp ℕ ℕ Unit := .ret (.ok (Rules.firstRule rules id c))

/-- the hypotheses of `C83_takes_effect_partial` hold for such a class -/
example (q : List (ℕ → Option ℕ)) : Respects (ruleCode q) (fun c : ℕ => c) Eq Eq :=
  ⟨⟨fun _ => rfl, fun h => h.symm, fun h h' => h.trans h'⟩, ⟨fun _ => rfl, fun h => h.symm, fun h h' => h.trans h'⟩,
    fun c d h => by subst h; exact (rfl : Rules.firstRule q id c = Rules.firstRule q id c), fun c d h => h⟩

/-- C83 refuted (a new rule takes effect at once): an expression is created, a rule for it is added, and it is created again: the result
is the old one, although the rule in force applies. -/
theorem C83_refuted_takes_effect : ∃ (old new : List (ℕ → Option ℕ)) (rs : List (List (ℕ → Option ℕ) × ℕ × Except Unit ℕ)) (s' : RState ℕ ℕ (List (ℕ → Option ℕ))),
    RHistory ruleCode (fun c => c) ⟨old, true, []⟩ [.create 5, .change new, .create 5] rs s' ∧
    (∃ f, new = old ++ [f] ∧ f 5 = some 6) ∧ (∃ r1 r2 : List (ℕ → Option ℕ), rs = [(r1, 5, .ok 5), (r2, 5, .ok 5)]) ∧
    Fresh (ruleCode new) 5 (.ok 6) :=
  ⟨[], [fun _ => some 6], _, _,
    .create (.miss (fun _ => rfl) .ret) (.change (.create (.hit rfl rfl) .nil)), ⟨_, rfl, rfl⟩, ⟨_, _, rfl⟩, .mk .ret⟩

end QNET.Cache
