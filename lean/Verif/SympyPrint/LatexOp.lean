import Verif.SympyPrint.Latex

/-!
# C103: operators; the printed names are not translated a second time
-/

namespace QNET.Latex

/-! ### texts that translation leaves unchanged -/

/-- all pieces are unchanged by the translation -/
def Fix (s : S) : Prop := trWord (splitSep s).1 = (splitSep s).1 ∧ ∀ p ∈ (splitSep s).2, trWord p.2 = p.2

theorem Fix.eq {s : S} (h : Fix s) : tr s = s := by
  have e : (splitSep s).2.flatMap (fun p => p.1 :: trWord p.2) = (splitSep s).2.flatMap (fun p => p.1 :: p.2) :=
    List.flatMap_congr fun p hp => by rw [h.2 p hp]
  rw [tr, h.1, e, splitSep_join]

theorem lower_alpha {c : Char} (h : c.toLower.isAlpha = true) : c.isAlpha = true := by
  by_contra hc
  rw [Bool.not_eq_true] at hc
  have : c.toLower = c := by
    rw [Char.toLower]
    split
    · rename_i hu
      exfalso
      have : c.isUpper = true := by simpa [Char.isUpper] using hu
      simp [Char.isAlpha, this] at hc
    · rfl
  rw [this] at h
  simp [h] at hc

theorem keys_alpha : ∀ p ∈ dict, p.1.all Char.isAlpha = true := by decide +kernel
theorem greeks_alpha : ∀ w ∈ greeks, w.all Char.isAlpha = true := by decide +kernel
theorem others_alpha : ∀ w ∈ others, w.all Char.isAlpha = true := by decide +kernel

/-- pieces with a character that is not a letter are not translated -/
theorem trWord_other {w : S} {c : Char} (h : c ∈ w) (hc : c.isAlpha = false) : trWord w = w := by
  have key : ¬ w.all Char.isAlpha = true := fun k => by
    have := List.all_eq_true.mp k c h
    rw [hc] at this
    exact nomatch this
  rw [trWord]
  split
  · rename_i t ht
    exact absurd (keys_alpha _ (lookup_mem' ht)) key
  · split
    · rename_i hg
      have hg := greeks_alpha _ (by simpa using hg)
      refine absurd (List.all_eq_true.mpr fun d hd => ?_) key
      exact lower_alpha (List.all_eq_true.mp hg _ (List.mem_map_of_mem hd))
    · split
      · rename_i ho
        exact absurd (others_alpha _ (by simpa using ho)) key
      · rw [if_neg]
        rw [Bool.and_eq_true]
        exact fun k => key k.2

/-- pieces of a text with a character in the middle -/
theorem splitSep_append (s t : S) (x : Char) :
    ((splitSep (s ++ x :: t)).1 = (splitSep s).1 ∨ x ∈ (splitSep (s ++ x :: t)).1) ∧
    ∀ p ∈ (splitSep (s ++ x :: t)).2, p ∈ (splitSep s).2 ∨ p ∈ (splitSep t).2 ∨ x ∈ p.2 ∨ p.2 = (splitSep t).1 := by
  induction s with
  | nil =>
    rw [List.nil_append, splitSep.eq_def (x :: t)]
    simp only
    by_cases hx : isSep x = true
    · rw [if_pos hx]
      refine ⟨.inl rfl, fun p hp => ?_⟩
      rcases List.mem_cons.mp hp with rfl | hp
      · exact .inr (.inr (.inr rfl))
      · exact .inr (.inl hp)
    · rw [if_neg hx]
      exact ⟨.inr (by simp), fun p hp => .inr (.inl hp)⟩
  | cons c s ih =>
    rw [List.cons_append, splitSep, splitSep]
    split
    · refine ⟨.inl rfl, fun p hp => ?_⟩
      rcases List.mem_cons.mp hp with rfl | hp
      · rcases ih.1 with h | h
        · exact .inl (by simp [h])
        · exact .inr (.inr (.inl h))
      · rcases ih.2 p hp with h | h | h | h
        · exact .inl (List.mem_cons_of_mem _ h)
        · exact .inr (.inl h)
        · exact .inr (.inr (.inl h))
        · exact .inr (.inr (.inr h))
    · refine ⟨?_, ih.2⟩
      rcases ih.1 with h | h
      · exact .inl (by simp [h])
      · exact .inr (List.mem_cons_of_mem _ h)

theorem Fix.glue {s t : S} {x : Char} (hs : Fix s) (hx : x.isAlpha = false) (ht : Fix t) : Fix (s ++ x :: t) := by
  obtain ⟨h1, h2⟩ := splitSep_append s t x
  refine ⟨?_, fun p hp => ?_⟩
  · rcases h1 with h | h
    · rw [h]; exact hs.1
    · exact trWord_other h hx
  · rcases h2 p hp with h | h | h | h
    · exact hs.2 p h
    · exact ht.2 p h
    · exact trWord_other h hx
    · rw [h]; exact ht.1

theorem splitSep_none {s : S} (h : ∀ c ∈ s, isSep c = false) : splitSep s = (s, []) := by
  induction s with
  | nil => rfl
  | cons c s ih =>
    rw [splitSep, ih fun c hc => h c (by simp [hc]), h c (by simp)]
    rfl

theorem Fix.piece {s : S} (h : ∀ c ∈ s, isSep c = false) (hs : trWord s = s) : Fix s := by
  rw [Fix, splitSep_none h]
  exact ⟨hs, by simp⟩

theorem Fix.nil : Fix [] := Fix.piece (by simp) trWord_nil

theorem Fix.single (c : Char) (h : c.isAlpha = true) : Fix [c] := by
  have hs : isSep c = false := by
    by_contra k
    rw [Bool.not_eq_false] at k
    rw [sep_not_alpha k] at h
    exact nomatch h
  refine Fix.piece (by simpa using hs) ?_
  have h1 : ∀ p ∈ dict, p.1.length ≠ 1 := by decide +kernel
  have h2 : ∀ w ∈ greeks ++ others, w.length ≠ 1 := by decide +kernel
  rw [trWord]
  split
  · rename_i t ht
    exact absurd rfl (h1 _ (lookup_mem' ht))
  · rw [if_neg, if_neg, if_neg]
    · simp
    · intro k; exact h2 [c] (List.mem_append_right _ (by simpa using k)) rfl
    · intro k; exact h2 _ (List.mem_append_left _ (by simpa using k)) rfl

theorem alpha_not_sep {c : Char} (h : c.isAlpha = true) : isSep c = false := by
  by_contra k
  rw [Bool.not_eq_false] at k
  rw [sep_not_alpha k] at h
  exact nomatch h

theorem fix_textMac {w : S} (h : ∀ c ∈ w, isSep c = false) : Fix (textMac w) := by
  refine Fix.piece (fun c hc => ?_) (trWord_other (c := '\\') (by simp [textMac]) (by decide))
  simp only [textMac, List.mem_append, List.mem_cons, List.not_mem_nil, or_false] at hc
  rcases hc with ((rfl | rfl | rfl | rfl | rfl | rfl) | hc) | rfl
  all_goals first
    | exact h c hc
    | decide

theorem fix_trWord {w : S} (h : ∀ c ∈ w, isSep c = false) : Fix (trWord w) := by
  rcases trWord_cases w with h' | ⟨c, h', hc⟩ | ⟨v, h', hv⟩ | ⟨h', _, _⟩
  · rw [h']; exact Fix.piece h h'
  · rw [h']; exact Fix.single c hc
  · rw [h']
    obtain ⟨k, _⟩ := mathSyms_alpha v (by simpa using hv)
    refine Fix.piece (fun c hc => ?_) (trWord_other (c := '\\') (by simp) (by decide))
    rcases List.mem_cons.mp hc with rfl | hc
    · decide
    · exact alpha_not_sep (List.all_eq_true.mp k c hc)
  · rw [h']; exact fix_textMac h

theorem fix_flat {l : List (Char × S)} (h : ∀ p ∈ l, isSep p.1 = true ∧ ∀ c ∈ p.2, isSep c = false) {s : S} (hs : Fix s) :
    Fix (s ++ l.flatMap fun p => p.1 :: trWord p.2) := by
  induction l generalizing s with
  | nil => simpa using hs
  | cons p l ih =>
    obtain ⟨h1, h2⟩ := h p (by simp)
    have := ih (fun p hp => h p (by simp [hp])) (hs.glue (sep_not_alpha h1) (fix_trWord h2))
    rw [List.flatMap_cons]
    simpa using this

/-- translated texts are not changed by another translation -/
theorem fix_tr (s : S) : Fix (tr s) := by
  obtain ⟨h1, h2⟩ := splitSep_mem s
  rw [tr]
  exact fix_flat (fun p hp => ⟨(h2 p hp).2.1, fun c hc => ((h2 p hp).2.2 c hc).2⟩) (fix_trWord fun c hc => (h1 c hc).2)

theorem fix_joinC {l : List S} (h : ∀ s ∈ l, Fix s) : Fix (joinC l) := by
  induction l with
  | nil => exact Fix.nil
  | cons s l ih =>
    cases l with
    | nil => exact h s (by simp)
    | cons t l => exact (h s (by simp)).glue (by decide) (ih fun s hs => h s (by simp [hs]))

theorem fix_scripts {s sub sup : S} (hs : Fix s) (h1 : Fix sub) (h2 : Fix sup) : Fix (s ++ scripts sub sup) := by
  have k : Fix (s ++ if sub = [] then [] else '_' :: '{' :: sub ++ ['}']) := by
    split
    · simpa using hs
    · have := hs.glue (x := '_') (by decide) ((Fix.nil.glue (x := '{') (by decide) h1).glue (x := '}') (by decide) Fix.nil)
      simpa using this
  rw [scripts, ← List.append_assoc]
  generalize s ++ (if sub = [] then ([] : S) else '_' :: '{' :: sub ++ ['}']) = u at k ⊢
  split
  · simpa using k
  · have := k.glue (x := '^') (by decide) ((Fix.nil.glue (x := '{') (by decide) h2).glue (x := '}') (by decide) Fix.nil)
    simpa using this

theorem fix_renderLatex (name : S) (subs supers : List S) : Fix (renderLatex name subs supers) := by
  rw [renderLatex]
  refine fix_scripts (fix_tr _) (fix_joinC ?_) (fix_joinC ?_)
  · simpa using fun s _ => fix_tr s
  · simpa using fun s _ => fix_tr s

theorem fix_renderStr (s : S) : Fix (renderStr s) := by
  rw [renderStr]
  split
  · exact Fix.nil
  · exact fix_renderLatex _ _ _

theorem fix_hsLabel (ls : List S) : Fix (hsLabel ls) := by
  induction ls with
  | nil => exact Fix.nil
  | cons l ls ih =>
    cases ls with
    | nil => exact fix_renderStr l
    | cons m ls =>
      rw [hsLabel]
      · have e : " \\otimes ".toList = ' ' :: ("\\otimes".toList ++ [' ']) := by decide +kernel
        have ho : Fix "\\otimes".toList := Fix.piece (by decide +kernel) (by decide +kernel)
        have := ((fix_renderStr l).glue (x := ' ') (by decide) ho).glue (x := ' ') (by decide) ih
        rw [e]
        generalize "\\otimes".toList = o at *
        simpa using this
      · simp

theorem fix_inParens {s : S} (h : Fix s) : Fix (inParens s) := by
  have := (Fix.nil.glue (x := '(') (by decide) h).glue (x := ')') (by decide) Fix.nil
  simpa [inParens] using this

theorem fix_totalSub {sh : ShowHs} {sub h : S} (h1 : Fix sub) (h2 : Fix h) : Fix (totalSub sh sub h) := by
  unfold totalSub
  split
  · exact h1
  · split
    · split
      · exact fix_inParens h2
      · exact h1.glue (by decide) (fix_inParens h2)
    · exact h1

theorem fix_dagger : Fix "\\dagger".toList := Fix.piece (by decide +kernel) (by decide +kernel)

theorem fix_parens_dagger {h : S} (hh : Fix h) : Fix (inParens h ++ "\\dagger".toList) := by
  have := (Fix.nil.glue (x := '(') (by decide) hh).glue (x := ')') (by decide) fix_dagger
  rw [inParens]
  generalize "\\dagger".toList = d at *
  simpa using this

theorem fix_totalSup {sh : ShowHs} {h : S} {dagger : Bool} (h2 : Fix h) : Fix (totalSup sh h dagger) := by
  unfold totalSup
  have hd : Fix ([] ++ "\\dagger".toList) := fix_dagger
  cases dagger with
  | false =>
    split
    · exact Fix.nil
    · split
      · rw [if_neg (by simp), List.append_nil]; exact fix_inParens h2
      · exact Fix.nil
  | true =>
    rw [if_pos rfl]
    split
    · exact hd
    · split
      · exact fix_parens_dagger h2
      · exact hd

/-! ### the letter of the operator -/

/-- one symbol: a character or the command of a symbol -/
def symbolic (t : S) : Bool := t.length == 1 || t.head? == some '\\' && mathSyms.contains (t.drop 1)

theorem takeWhile_all {p : Char → Bool} {s : S} (h : ∀ c ∈ s, p c = true) : s.takeWhile p = s := by
  induction s with
  | nil => rfl
  | cons c s ih => rw [List.takeWhile_cons, h c (by simp), if_pos rfl, ih fun c hc => h c (by simp [hc])]

theorem dropWhile_all {p : Char → Bool} {s : S} (h : ∀ c ∈ s, p c = true) : s.dropWhile p = [] := by
  induction s with
  | nil => rfl
  | cons c s ih => rw [List.dropWhile_cons, h c (by simp), if_pos rfl, ih fun c hc => h c (by simp [hc])]

/-- what a name is printed as -/
theorem name_cases {n : S} (h : GoodName n) :
    renderStr n = trWord n ∧ ((isSingle (trWord n) = true ∧ symbolic (trWord n) = true ∧ stripText (trWord n) = trWord n) ∨
      (isSingle n = false ∧ symbolic n = false ∧ stripText (trWord n) = n ∧ (trWord n = n ∨ trWord n = textMac n))) := by
  obtain ⟨h0, h1, h2, h3, h4⟩ := h
  have hsep : ∀ c ∈ n, isSep c = false := by
    intro c hc
    by_contra k
    rw [Bool.not_eq_false] at k
    have ha := h1 c hc
    simp only [isSep, Char.isWhitespace, Bool.or_eq_true, beq_iff_eq, decide_eq_true_eq] at k
    rcases k with (((rfl | rfl) | rfl) | rfl) | k
    · exact absurd ha (by decide)
    · exact absurd ha (by decide)
    · exact absurd ha (by decide)
    · exact absurd ha (by decide)
    · rcases k with ((k | k) | k) | k <;> (subst k; exact absurd ha (by decide))
  have hback : ∀ c ∈ n, c ≠ '\\' := by
    rintro c hc rfl
    exact absurd (h1 _ hc) (by decide)
  have hmark : ∀ c ∈ n, noMark c = true := by
    intro c hc
    have ha := h1 c hc
    simp only [noMark, Bool.and_eq_true, bne_iff_ne]
    constructor <;> rintro rfl <;> exact absurd ha (by decide)
  have htr : tr n = trWord n := by rw [tr, splitSep_none hsep]; simp
  have hrs : renderStr n = trWord n := by
    cases n with
    | nil => exact absurd rfl h0
    | cons x n =>
      have hx : x ≠ '_' := by rintro rfl; exact absurd (h1 '_' (by simp)) (by decide)
      have hc : cutPart (x :: n) = (x :: n.takeWhile noMark, n.dropWhile noMark) := by
        rcases cutPart_cases x n with ⟨s', e, _⟩ | h
        · simp only [List.cons.injEq] at e; exact absurd e.1 hx
        · exact h
      have htw : n.takeWhile noMark = n := takeWhile_all fun c hc => hmark c (by simp [hc])
      have hdw : n.dropWhile noMark = [] := dropWhile_all fun c hc => hmark c (by simp [hc])
      have hp : parts (x :: n).length (x :: n) = [x :: n] := by
        show (cutPart (x :: n)).1 :: parts n.length (cutPart (x :: n)).2 = _
        rw [hc, htw, hdw]
        cases n.length <;> rfl
      have hs : splitSuperSub (x :: n) = (x :: n, [], []) := by
        rw [splitSuperSub, hp]
        simp only [List.headD_cons, h2, List.tail_cons]
        rfl
      rw [renderStr, if_neg (by simp), hs, renderLatex, ← htr]
      simp [scripts, joinC]
  refine ⟨hrs, ?_⟩
  have hns : ∀ s : S, s.head? ≠ some '\\' → singles.contains s = false := by
    have : ∀ w ∈ singles, w.head? = some '\\' := by decide +kernel
    intro s hs
    by_contra k
    rw [Bool.not_eq_false] at k
    exact hs (this s (by simpa using k))
  have hhead : n.head? ≠ some '\\' := by
    cases n with
    | nil => simp
    | cons x n => simpa using hback x (by simp)
  -- symbols
  have hsym : ∀ v, mathSyms.contains v = true → stripText ('\\' :: v) = '\\' :: v := by
    intro v hv
    rw [stripText, if_neg]
    intro k
    have : '{' ∈ '\\' :: v := by
      have : '{' ∈ ('\\' :: v).take 6 := by rw [k]; decide
      exact List.mem_of_mem_take this
    simp only [List.mem_cons] at this
    rcases this with this | this
    · exact absurd this (by decide)
    · exact absurd (List.all_eq_true.mp (mathSyms_alpha v (by simpa using hv)).1 _ this) (by decide)
  have hdict : ∀ p ∈ dict, p.1 ∈ badWords ∨ isSingle p.2 = true := by decide +kernel
  have hgreek : ∀ w ∈ greeks, w = "omicron".toList ∨ isSingle ('\\' :: w) = true := by decide +kernel
  have homi : (dict.lookup "omicron".toList).isSome = true ∧ (dict.lookup "Omicron".toList).isSome = true := by decide +kernel
  generalize hw : trWord n = t at *
  rw [trWord] at hw
  split at hw
  · rename_i u hu
    subst hw
    left
    have hm := lookup_mem' hu
    have hs : isSingle u = true := (hdict _ hm).resolve_left fun k => h3 k
    refine ⟨hs, ?_⟩
    rcases dict_values _ hm with ⟨c, hc, _⟩ | ⟨v, hv, hv'⟩
    · simp only at hc; subst hc
      exact ⟨rfl, by rw [stripText, if_neg (by simp)]⟩
    · simp only at hv; subst hv
      exact ⟨by rw [symbolic, List.drop_succ_cons, List.drop_zero, hv']; simp, hsym v hv'⟩
  · rename_i hl
    split at hw
    · rename_i hg
      subst hw
      left
      have hv : mathSyms.contains (n.map Char.toLower) = true := by
        rw [List.contains_iff_mem] at hg ⊢
        exact List.mem_append_left _ (List.mem_append_left _ hg)
      refine ⟨(hgreek _ (by simpa using hg)).resolve_left fun k => ?_, by rw [symbolic, List.drop_succ_cons, List.drop_zero, hv]; simp, hsym _ hv⟩
      · rcases h4 k with e | e
        · have := homi.1; rw [← e, hl] at this; exact nomatch this
        · have := homi.2; rw [← e, hl] at this; exact nomatch this
    · split at hw
      · rename_i ho
        exact absurd (List.mem_append_left _ (by simpa using ho)) h3
      · split at hw
        · rename_i hlen
          right
          rw [Bool.and_eq_true, decide_eq_true_eq] at hlen
          have hlen' : n.length ≠ 1 := by omega
          refine ⟨?_, ?_, ?_, .inr hw.symm⟩
          · rw [isSingle, hns n hhead]; simp [hlen']
          · simp [symbolic, hlen', hhead]
          · rw [← hw, stripText, if_pos (by simp [textMac])]
            simp [textMac]
        · subst hw
          have hstrip : stripText n = n := by
            rw [stripText, if_neg]
            intro k
            have : '\\' ∈ n.take 6 := by rw [k]; decide
            exact hback _ (List.mem_of_mem_take this) rfl
          by_cases hlen : n.length = 1
          · exact .inl ⟨by simp [isSingle, hlen], by simp [symbolic, hlen], hstrip⟩
          · exact .inr ⟨by rw [isSingle, hns n hhead]; simp [hlen], by simp [symbolic, hlen, hhead], hstrip, .inl rfl⟩

/-! ### specification of operators -/

/-- the letter with the macro of operators or superoperators: symbols get a hat, or are upright; names are upright texts -/
def nucleus (superop : Bool) (n : S) : S :=
  if symbolic (trWord n) then (if superop then "\\mathrm{" else "\\hat{").toList ++ trWord n ++ ['}']
  else (if superop then "\\mathrm{" else "\\text{").toList ++ n ++ ['}']

/-- the subscript: that of the identifier and the label of the space, with a comma between them -/
def opSub (sh : ShowHs) (sub : Option S) (hs : List S) : S :=
  joinC ((match sub with
    | none => []
    | some s => [renderStr s]) ++ if sh = .sub ∧ hs ≠ [] then [inParens (hsLabel hs)] else [])

/-- the superscript: the label of the space and the dagger -/
def opSup (sh : ShowHs) (hs : List S) (dagger : Bool) : S :=
  (if sh = .sup ∧ hs ≠ [] then inParens (hsLabel hs) else []) ++ if dagger then "\\dagger".toList else []

/-! ### proofs -/

theorem parts_ne (x : Char) (s : S) (h : x ≠ '_') : (splitSuperSub (x :: s)).1 ≠ [] := by
  have hp : parts (x :: s).length (x :: s) = (cutPart (x :: s)).1 :: parts s.length (cutPart (x :: s)).2 := rfl
  have hc : cutPart (x :: s) = (x :: s.takeWhile noMark, s.dropWhile noMark) := by
    rcases cutPart_cases x s with ⟨s', e, _⟩ | h'
    · simp only [List.cons.injEq] at e; exact absurd e.1 h
    · exact h'
  rw [splitSuperSub, hp, hc]
  simp only [List.headD_cons, List.tail_cons]
  by_cases hd : withDigits (x :: s.takeWhile noMark) = true
  · simp only [hd, if_true]
    rw [withDigits, Bool.and_eq_true, Bool.and_eq_true, bne_iff_ne, bne_iff_ne] at hd
    exact hd.1.1
  · simp only [hd]
    simp

theorem trWord_ne {w : S} (h : w ≠ []) : trWord w ≠ [] := by
  rcases trWord_cases w with h' | ⟨c, h', _⟩ | ⟨v, h', _⟩ | ⟨h', _, _⟩ <;> rw [h']
  · exact h
  · simp
  · simp
  · simp [textMac]

theorem tr_ne {s : S} (h : s ≠ []) : tr s ≠ [] := by
  intro k
  rw [tr] at k
  obtain ⟨k1, k2⟩ := List.append_eq_nil_iff.mp k
  have h1 : (splitSep s).1 = [] := by
    by_contra h0
    exact trWord_ne h0 k1
  have h2 : (splitSep s).2 = [] := by
    cases h2 : (splitSep s).2 with
    | nil => rfl
    | cons p l => rw [h2] at k2; simp at k2
  have := splitSep_join s
  rw [h1, h2] at this
  exact h this.symm

theorem renderStr_ne {s : S} (h : GoodLabel s) : renderStr s ≠ [] := by
  obtain ⟨h1, _⟩ := split_good h
  rw [renderStr, if_neg h.1, renderLatex]
  intro k
  exact tr_ne h1 (List.append_eq_nil_iff.mp k).1

theorem hsLabel_ne {ls : List S} (h : ∀ l ∈ ls, GoodLabel l) (h0 : ls ≠ []) : hsLabel ls ≠ [] := by
  cases ls with
  | nil => exact absurd rfl h0
  | cons l ls =>
    cases ls with
    | nil => exact renderStr_ne (h l (by simp))
    | cons m ls =>
      rw [hsLabel]
      · intro k
        exact renderStr_ne (h l (by simp)) (List.append_eq_nil_iff.mp (List.append_eq_nil_iff.mp k).1).1
      · simp

theorem inParens_ne (h : S) : inParens h ≠ [] := by simp [inParens]

theorem totalSub_eq {sh : ShowHs} {sub : Option S} {hs : List S} (h1 : ∀ s, sub = some s → GoodLabel s) (h2 : ∀ l ∈ hs, GoodLabel l) :
    totalSub sh (renderStr (sub.getD [])) (if sh = .no then [] else hsLabel hs) = opSub sh sub hs := by
  have e0 : renderStr [] = [] := rfl
  have hb : (if sh = .no then [] else hsLabel hs) = [] ↔ sh = .no ∨ hs = [] := by
    by_cases hn : sh = .no
    · simp [hn]
    · simp only [hn, if_false, false_or]
      exact ⟨fun k => by_contra fun h0 => hsLabel_ne h2 h0 k, fun k => by rw [k]; rfl⟩
  unfold totalSub opSub
  by_cases hc : sh = .no ∨ hs = []
  · rw [if_pos (hb.mpr hc), if_neg (by rintro ⟨k, k'⟩; rcases hc with h | h; · rw [h] at k; exact nomatch k
                                       · exact k' h)]
    cases sub <;> rfl
  · rw [if_neg (by rw [hb]; exact hc)]
    obtain ⟨hc1, hc2⟩ := not_or.mp hc
    cases sh with
    | no => exact absurd rfl hc1
    | sup =>
      cases sub <;> simp [joinC, e0]
    | sub =>
      simp only [if_neg hc1]
      cases sub with
      | none => simp [joinC, e0, hc2]
      | some s => simp [joinC, renderStr_ne (h1 s rfl), hc2]

theorem totalSup_eq {sh : ShowHs} {hs : List S} {dagger : Bool} (h2 : ∀ l ∈ hs, GoodLabel l) :
    totalSup sh (if sh = .no then [] else hsLabel hs) dagger = opSup sh hs dagger := by
  unfold totalSup opSup
  congr 1
  by_cases h0 : hs = []
  · subst h0
    cases sh <;> simp [hsLabel]
  · cases sh with
    | no => simp
    | sub => simp
    | sup =>
      simp only [show ¬ ShowHs.sup = ShowHs.no from nofun, if_false, if_neg (hsLabel_ne h2 h0), ne_eq, h0, not_false_eq_true, and_self, if_true]

theorem ident_name {n : S} (h : ∀ c ∈ n, c.isAlphanum = true) (sub : Option S) : (identifier n sub).takeWhile (· != '_') = n ∧
    ((identifier n sub).dropWhile (· != '_')).drop 1 = sub.getD [] := by
  have key : ∀ c ∈ n, (c != '_') = true := by
    intro c hc
    rw [bne_iff_ne]
    rintro rfl
    exact absurd (h _ hc) (by decide)
  cases sub with
  | none =>
    rw [identifier, takeWhile_all key, dropWhile_all key]
    exact ⟨rfl, rfl⟩
  | some s =>
    rw [identifier, List.takeWhile_append_of_pos key, List.dropWhile_append_of_pos key]
    simp

theorem tr_nucleus {pre x : S} (hp : Fix pre) (hx : Fix x) : tr (pre ++ '{' :: (x ++ ['}'])) = pre ++ '{' :: (x ++ ['}']) :=
  (hp.glue (by decide) (hx.glue (by decide) Fix.nil)).eq

/-- the letter with its macro is not changed by the translation -/
theorem nucleus_eq {superop : Bool} {n : S} (h : GoodName n) : tr (opMacro superop (stripText (renderStr n))) = nucleus superop n := by
  have m1 : "\\hat{".toList = "\\hat".toList ++ ['{'] := by decide +kernel
  have m2 : "\\mathrm{".toList = "\\mathrm".toList ++ ['{'] := by decide +kernel
  have m3 : "\\text{".toList ++ n ++ ['}'] = textMac n := rfl
  have f1 : Fix "\\hat".toList := Fix.piece (by decide +kernel) (by decide +kernel)
  have f2 : Fix "\\mathrm".toList := Fix.piece (by decide +kernel) (by decide +kernel)
  have hsep : ∀ c ∈ n, isSep c = false := by
    intro c hc
    by_contra k
    rw [Bool.not_eq_false] at k
    have ha := h.2.1 c hc
    simp only [isSep, Char.isWhitespace, Bool.or_eq_true, beq_iff_eq, decide_eq_true_eq] at k
    rcases k with (((rfl | rfl) | rfl) | rfl) | k
    · exact absurd ha (by decide)
    · exact absurd ha (by decide)
    · exact absurd ha (by decide)
    · exact absurd ha (by decide)
    · rcases k with ((k | k) | k) | k <;> (subst k; exact absurd ha (by decide))
  obtain ⟨hr, hc⟩ := name_cases h
  rw [hr]
  rcases hc with ⟨h1, h2, h3⟩ | ⟨h1, h2, h3, h4⟩
  · rw [h3, opMacro, if_pos h1, nucleus, if_pos h2]
    cases superop
    · have := tr_nucleus f1 (fix_trWord hsep)
      simp only [Bool.false_eq_true, if_false]
      rw [m1]
      generalize "\\hat".toList = m at *
      simpa using this
    · have := tr_nucleus f2 (fix_trWord hsep)
      simp only [if_true]
      rw [m2]
      generalize "\\mathrm".toList = m at *
      simpa using this
  · have h5 : symbolic (trWord n) = false := by
      rcases h4 with h4 | h4
      · rw [h4]; exact h2
      · rw [h4]
        have : mathSyms.contains ((textMac n).drop 1) = false := by
          by_contra k
          rw [Bool.not_eq_false] at k
          have := List.all_eq_true.mp (mathSyms_alpha _ (by simpa using k)).1 '{' (by simp [textMac])
          exact nomatch this
        rw [symbolic, this]
        simp [textMac]
    have h1' : ¬ isSingle n = true := by rw [h1]; exact Bool.false_ne_true
    have h5' : ¬ symbolic (trWord n) = true := by rw [h5]; exact Bool.false_ne_true
    rw [h3, opMacro, if_neg h1', nucleus, if_neg h5']
    cases superop
    · simp only [Bool.false_eq_true, if_false]
      rw [m3]
      exact (fix_textMac hsep).eq
    · simp only [if_true]
      refine (Fix.piece (fun c hc => ?_) (trWord_other (c := '\\') ?_ (by decide))).eq
      · rw [List.mem_append, List.mem_append, List.mem_singleton] at hc
        have hm : ∀ c ∈ "\\mathrm{".toList, isSep c = false := by decide +kernel
        rcases hc with (hc | hc) | rfl
        · exact hm c hc
        · exact hsep c hc
        · decide
      · have hm : '\\' ∈ "\\mathrm{".toList := by decide +kernel
        exact List.mem_append_left _ (List.mem_append_left _ hm)

/-- **C103** the text of an operator: the letter with its macro, the subscript and the label of the space, the label of the space and the dagger -/
theorem C103_op_text_partial {sh : ShowHs} {superop dagger : Bool} {n : S} {sub : Option S} {hs : List S} (h : GoodName n)
    (h1 : ∀ s, sub = some s → GoodLabel s) (h2 : ∀ l ∈ hs, GoodLabel l) :
    renderOp sh superop dagger (identifier n sub) hs = nucleus superop n ++ scripts (opSub sh sub hs) (opSup sh hs dagger) := by
  obtain ⟨e1, e2⟩ := ident_name h.2.1 sub
  have f2 : Fix (opSub sh sub hs) := by
    rw [← totalSub_eq h1 h2]
    refine fix_totalSub (fix_renderStr _) ?_
    split
    · exact Fix.nil
    · exact fix_hsLabel _
  have f3 : Fix (opSup sh hs dagger) := by
    rw [← totalSup_eq h2]
    refine fix_totalSup ?_
    split
    · exact Fix.nil
    · exact fix_hsLabel _
  rw [renderOp, e1, e2, totalSub_eq h1 h2, totalSup_eq h2, renderLatex, nucleus_eq h]
  simp only [List.map_cons, List.map_nil, joinC, f2.eq, f3.eq]

theorem nuc_nucleus {superop : Bool} {n : S} (h : GoodName n) : Nuc (nucleus superop n) := by
  have hp : ∀ c ∈ n, plain c = true := fun c hc => tame_plain (alnum_tame (h.2.1 c hc))
  have m1 : "\\hat{".toList = '\\' :: ("hat".toList ++ ['{']) := by decide +kernel
  have m2 : "\\mathrm{".toList = '\\' :: ("mathrm".toList ++ ['{']) := by decide +kernel
  have m3 : "\\text{".toList ++ n ++ ['}'] = textMac n := rfl
  have c1 : mathMacros.contains "hat".toList = true := by decide +kernel
  have c2 : mathMacros.contains "mathrm".toList = true := by decide +kernel
  rw [nucleus]
  split
  · have ht := (nuc_trWord hp h.1).txt
    cases superop
    · simp only [Bool.false_eq_true, if_false]
      have := nuc_mathMac c1 ht
      rw [m1]
      generalize "hat".toList = m at *
      simpa using this
    · simp only [if_true]
      have := nuc_mathMac c2 ht
      rw [m2]
      generalize "mathrm".toList = m at *
      simpa using this
  · cases superop
    · simp only [Bool.false_eq_true, if_false]
      rw [m3]
      exact nuc_textMac hp h.1
    · simp only [if_true]
      have := nuc_mathMac c2 (nuc_plain hp h.1).txt
      rw [m2]
      generalize "mathrm".toList = m at *
      simpa using this

theorem txt_opSub {sh : ShowHs} {sub : Option S} {hs : List S} (h1 : ∀ s, sub = some s → GoodLabel s) (h2 : ∀ l ∈ hs, GoodLabel l) : Txt (opSub sh sub hs) := by
  refine txt_joinC fun s hs' => ?_
  rcases List.mem_append.mp hs' with h | h
  · cases sub with
    | none => exact nomatch h
    | some t => rw [List.mem_singleton] at h; rw [h]; exact txt_label (h1 t rfl)
  · split at h
    · rw [List.mem_singleton] at h; rw [h]; exact txt_inParens (txt_hsLabel h2)
    · exact nomatch h

theorem txt_opSup {sh : ShowHs} {hs : List S} {dagger : Bool} (h2 : ∀ l ∈ hs, GoodLabel l) : Txt (opSup sh hs dagger) := by
  have k : Txt (if sh = .sup ∧ hs ≠ [] then inParens (hsLabel hs) else []) := by
    split
    · exact txt_inParens (txt_hsLabel h2)
    · exact Txt.nil
  have e : "\\dagger".toList = '\\' :: "dagger".toList := by decide +kernel
  rw [opSup]
  cases dagger
  · simpa using k
  · rw [if_pos rfl, e]
    exact k.append (by decide) (nuc_sym (by decide +kernel)).txt

theorem txt_scripts {t sub sup : S} (ht : Nuc t) (h1 : Txt sub) (h2 : Txt sup) : Txt (t ++ scripts sub sup) := by
  intro a ha
  have h := go_scripts (a := a.flags false false) (ha.flags _ _) rfl rfl h1 h2
  rw [flags_flags] at h
  have hn := ht a ha
  cases hs : scripts sub sup with
  | nil => exact ⟨false, false, by simpa using hn⟩
  | cons x u =>
    rw [hs] at h
    refine ⟨_, _, hn.append ?_ h⟩
    rw [scripts] at hs
    split at hs
    · split at hs
      · exact nomatch hs
      · simp only [List.nil_append, List.cons_append, List.cons.injEq] at hs
        rw [← hs.1]; decide
    · simp only [List.cons_append, List.cons.injEq] at hs
      rw [← hs.1]; decide

/-- **C103** operators are complete LaTeX -/
theorem C103_op_partial {sh : ShowHs} {superop dagger : Bool} {n : S} {sub : Option S} {hs : List S} (h : GoodName n)
    (h1 : ∀ s, sub = some s → GoodLabel s) (h2 : ∀ l ∈ hs, GoodLabel l) : valid (renderOp sh superop dagger (identifier n sub) hs) = true := by
  rw [C103_op_text_partial h h1 h2]
  exact (txt_scripts (nuc_nucleus h) (txt_opSub h1 h2) (txt_opSup h2)).valid

end QNET.Latex
