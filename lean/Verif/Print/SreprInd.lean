import Verif.Print.SreprThm

/-!
# `eval(srepr(expr, indented=True)) == expr` (C71)
-/

namespace QNET.Print

variable {E : Env} {R : Obj → Obj → Prop} {H : Host}

/-! ### Indentation does not change the tokens -/

theorem nw_ind (n : ℕ) : nw (ind n) = [] := by
  unfold ind nw
  rw [List.filter_eq_nil_iff]
  intro a ha
  rw [List.eq_of_mem_replicate ha]
  decide

theorem ind_ws (n : ℕ) : WsOk (ind n) := fun x hx _ => by rw [List.eq_of_mem_replicate hx]; rfl

theorem nw_unlines : ∀ ls : List (List Tok), nw (unlines ls) = ls.flatMap nw
  | [] => rfl
  | [l] => by simp [unlines]
  | l :: m :: ls => by
    change nw (l ++ .ws '\n' :: unlines (m :: ls)) = _
    rw [nw_append, nw_ws, nw_unlines (m :: ls), List.flatMap_cons (xs := m :: ls)]

theorem unlines_ws : ∀ {ls : List (List Tok)}, (∀ l ∈ ls, WsOk l) → WsOk (unlines ls)
  | [], _ => .nil
  | [l], h => h l List.mem_cons_self
  | l :: m :: ls, h => (h l List.mem_cons_self).append (.nl (unlines_ws fun x hx => h x (List.mem_cons_of_mem _ hx)))

theorem splitL_ne : ∀ t : List Tok, splitL t ≠ []
  | [] => by simp [splitL]
  | t :: l => by
    rw [splitL]
    split
    · simp
    · split <;> simp

theorem nw_splitL : ∀ t : List Tok, (splitL t).flatMap nw = nw t
  | [] => rfl
  | t :: l => by
    have ih := nw_splitL l
    rw [splitL]
    split
    · next h => rw [h, List.flatMap_cons, nw_ws, ih]; rfl
    · split
      · next h => exact absurd h (splitL_ne l)
      · next x xs h =>
        rw [h] at ih
        rw [List.flatMap_cons, nw_cons, nw_cons t l, ← ih]
        split <;> simp

theorem splitL_mem : ∀ (t : List Tok), ∀ l ∈ splitL t, ∀ x ∈ l, x ∈ t
  | [], l, hl, x, hx => by simp [splitL] at hl; subst hl; cases hx
  | t :: ts, l, hl, x, hx => by
    have ih := splitL_mem ts
    rw [splitL] at hl
    split at hl
    · rcases List.mem_cons.mp hl with rfl | hl
      · cases hx
      · exact List.mem_cons_of_mem _ (ih l hl x hx)
    · split at hl
      · next h => exact absurd h (splitL_ne ts)
      · next y ys h =>
        rcases List.mem_cons.mp hl with rfl | hl
        · rcases List.mem_cons.mp hx with rfl | hx
          · exact List.mem_cons_self
          · exact List.mem_cons_of_mem _ (ih y (by rw [h]; exact List.mem_cons_self) x hx)
        · exact List.mem_cons_of_mem _ (ih l (by rw [h]; exact List.mem_cons_of_mem _ hl) x hx)

theorem nw_indentT (n : ℕ) (t : List Tok) : nw (indentT n t) = nw t := by
  rw [indentT, nw_unlines, List.flatMap_map, ← nw_splitL t]
  congr 1
  funext l
  split
  · rfl
  · rw [nw_append, nw_ind]; rfl

theorem indentT_ws {n : ℕ} {t : List Tok} (h : WsOk t) : WsOk (indentT n t) := by
  refine unlines_ws fun l hl => ?_
  obtain ⟨l', hl', rfl⟩ := List.mem_map.mp hl
  have : WsOk l' := h.sub (splitL_mem t l' hl')
  split
  · exact this
  · exact (ind_ws n).append this

theorem nw_blank {l : List Tok} (h : blank l = true) : nw l = [] := by
  unfold nw
  rw [List.filter_eq_nil_iff]
  intro a ha
  have := List.all_eq_true.mp h a ha
  simp [this]

theorem nw_drop : ∀ (k : ℕ) (l : List Tok), k ≤ (l.takeWhile Tok.isWs).length → nw (l.drop k) = nw l
  | 0, l, _ => rfl
  | k + 1, [], h => by simp at h
  | k + 1, a :: l, h => by
    rw [List.takeWhile_cons] at h
    split at h
    · next ha =>
      rw [List.drop_succ_cons, nw_drop k l (by simpa using h), nw_cons, if_pos ha]
    · simp at h

theorem margin_le {ls : List (List Tok)} {l : List Tok} (hl : l ∈ ls) (hb : blank l = false) : margin ls ≤ (l.takeWhile Tok.isWs).length := by
  unfold margin
  have hm : (l.takeWhile Tok.isWs).length ∈ (ls.filter fun l => !blank l).map fun l => (l.takeWhile Tok.isWs).length :=
    List.mem_map.mpr ⟨l, List.mem_filter.mpr ⟨hl, by simp [hb]⟩, rfl⟩
  cases h : ((ls.filter fun l => !blank l).map fun l => (l.takeWhile Tok.isWs).length).min? with
  | none => exact Nat.zero_le _
  | some m => exact (List.min?_eq_some_iff.mp h).2 _ hm

theorem nw_dedentT (t : List Tok) : nw (dedentT t) = nw t := by
  rw [dedentT, nw_unlines, List.flatMap_map]
  conv_rhs => rw [← nw_splitL t]
  refine List.flatMap_congr fun l hl => ?_
  split
  · next h => rw [nw_blank h]; rfl
  · next h => exact nw_drop _ _ (margin_le hl (by simpa using h))

theorem dedentT_ws {t : List Tok} (h : WsOk t) : WsOk (dedentT t) := by
  refine unlines_ws fun l hl => ?_
  obtain ⟨l', hl', rfl⟩ := List.mem_map.mp hl
  have : WsOk l' := h.sub (splitL_mem t l' hl')
  split
  · exact .nil
  · exact this.sub fun x hx => List.mem_of_mem_drop hx

theorem nw_lstrip : ∀ t : List Tok, nw (lstrip t) = nw t
  | [] => rfl
  | a :: t => by
    unfold lstrip
    rw [List.dropWhile_cons]
    split
    · next h => rw [nw_cons, if_pos h]; exact nw_lstrip t
    · rfl

theorem lstrip_ws {t : List Tok} (h : WsOk t) : WsOk (lstrip t) := h.sub fun x hx => List.dropWhile_subset _ hx

theorem Means.of_nw {t t' : List Tok} {o : Obj} (h : Means E R t o) (hn : nw t' = nw t) (hw : WsOk t') : Means E R t' o := by
  obtain ⟨p, hp, ht, -, o', he, hr⟩ := h
  exact ⟨p, hp, hn.trans ht, hw, o', he, hr⟩

theorem Means.ws {t : List Tok} {o : Obj} (h : Means E R t o) : WsOk t := by
  obtain ⟨p, hp, ht, hw, o', he, hr⟩ := h
  exact hw

theorem Means.ind {t : List Tok} {o : Obj} (n : ℕ) (h : Means E R t o) : Means E R (ind n ++ t) o :=
  h.of_nw (by rw [nw_append, nw_ind]; rfl) ((ind_ws n).append h.ws)

/-! ### Lines -/

theorem dropLast1_cons (a : List Tok) {l : List (List Tok)} (h : l ≠ []) : dropLast1 (a :: l) = a :: dropLast1 l := by
  obtain ⟨x, xs, rfl⟩ := List.exists_cons_of_ne_nil h
  rfl

theorem dropLast1_append : ∀ (a : List (List Tok)) {l : List (List Tok)}, l ≠ [] → dropLast1 (a ++ l) = a ++ dropLast1 l
  | [], _, _ => rfl
  | x :: a, l, h => by rw [List.cons_append, dropLast1_cons x (by simp [h]), dropLast1_append a h]; rfl

theorem dropLast1_mem {l : List (List Tok)} (h : ∀ t ∈ l, WsOk t) : ∀ t ∈ dropLast1 l, WsOk t := by
  induction l with
  | nil => exact h
  | cons a l ih =>
    intro t ht
    cases l with
    | nil =>
      rw [dropLast1, List.mem_singleton] at ht
      subst ht
      exact (h a List.mem_cons_self).sub fun x hx => List.dropLast_subset _ hx
    | cons b l =>
      rw [dropLast1_cons a (by simp)] at ht
      rcases List.mem_cons.mp ht with rfl | ht
      · exact h _ List.mem_cons_self
      · exact ih (fun x hx => h x (List.mem_cons_of_mem _ hx)) t ht

theorem addLast_nw (s : List Tok) : ∀ ls : List (List Tok), (addLast s ls).flatMap nw = ls.flatMap nw ++ nw s
  | [] => by simp [addLast]
  | [l] => by simp [addLast, nw_append]
  | l :: m :: ls => by
    change (l :: addLast s (m :: ls)).flatMap nw = _
    rw [List.flatMap_cons, addLast_nw s (m :: ls), List.flatMap_cons (xs := m :: ls), List.append_assoc]

theorem addLast_mem {s : List Tok} (hs : WsOk s) : ∀ {l : List (List Tok)}, (∀ t ∈ l, WsOk t) → ∀ t ∈ addLast s l, WsOk t
  | [], _, t, ht => by rw [addLast, List.mem_singleton] at ht; exact ht ▸ hs
  | [l], h, t, ht => by
    rw [addLast, List.mem_singleton] at ht
    exact ht ▸ (h l List.mem_cons_self).append hs
  | l :: m :: ls, h, t, ht => by
    rw [addLast] at ht
    · rcases List.mem_cons.mp ht with rfl | ht
      · exact h _ List.mem_cons_self
      · exact addLast_mem hs (fun x hx => h x (List.mem_cons_of_mem _ hx)) t ht
    · simp

/-- lines that end with commas; the last comma is dropped -/
theorem nw_commaLines : ∀ xs : List (List Tok), (dropLast1 (xs.map (· ++ [.sym ',']))).flatMap nw = commas (xs.map nw)
  | [] => rfl
  | [x] => by simp [dropLast1, commas]
  | x :: y :: xs => by
    rw [List.map_cons, dropLast1_cons _ (by simp), List.flatMap_cons, nw_commaLines (y :: xs), nw_append]
    change nw x ++ [.sym ','] ++ commas ((y :: xs).map nw) = nw x ++ .sym ',' :: commas ((y :: xs).map nw)
    simp

/-! ### The cache -/

theorem cachedI_means (hR : Congr R) (hH : ∀ a b, H.same a b = true → R a b) {f : IState → Option (List Tok × IState)} {o : Obj} {s : IState} (hc : CacheOk E R s.1)
    (hf : ∀ r, f s = some r → Means E R r.1 o ∧ CacheOk E R r.2.1) {r : List Tok × IState} (h : cachedI H f o s = some r) : Means E R r.1 o ∧ CacheOk E R r.2.1 := by
  unfold cachedI at h
  split at h
  · next t ht =>
    injection h with h; subst h
    have := getC_means hR hH hc ht
    exact ⟨this.of_nw (nw_indentT _ _) (indentT_ws this.ws), hc⟩
  · obtain ⟨x, hx, h⟩ := Option.bind_eq_some_iff.mp h
    injection h with h; subst h
    obtain ⟨h1, h2⟩ := hf x hx
    refine ⟨h1, ?_⟩
    dsimp only
    split
    · exact h2
    · exact putC_ok hR hH h2 (h1.of_nw (nw_dedentT _) (dedentT_ws h1.ws))

/-! ### `render_head_repr` -/

mutual
theorem plain_means (hR : Congr R) : ∀ (o : Obj) (t : List Tok), o.WF E → plain o = some t → Means E R t o
  | .sing n, t, hw, h => by
    rw [plain] at h; injection h with h; subst h
    exact means_sing hR hw rfl (.word .nil)
  | .expr cls args keys vals, t, hw, h => by
    rw [plain] at h
    obtain ⟨v, hv, h⟩ := Option.bind_eq_some_iff.mp h
    obtain ⟨a, ha, h⟩ := Option.bind_eq_some_iff.mp h
    injection h with h; subst h
    rw [Obj.WF] at hw
    obtain ⟨w1, w2, w3, w4, w5, w6, w7⟩ := hw
    have hv1 := plainList_means hR vals v w7 hv
    have ha1 := plainList_means hR args a w4 ha
    obtain ⟨_, _, _, _, a3, _⟩ := means_list ha1
    obtain ⟨_, _, _, _, v3, _⟩ := means_list hv1
    exact means_expr hR w1 w2 w3 w5 w6 ha1 hv1 rfl (headToks_ws a3 (kwToks_ws _ _ v3))
  | .tup l, t, hw, h => by
    rw [plain] at h
    obtain ⟨v, hv, h⟩ := Option.bind_eq_some_iff.mp h
    injection h with h; subst h
    rw [Obj.WF] at hw
    have h1 := plainList_means hR l v hw hv
    obtain ⟨_, _, _, _, a3, _⟩ := means_list h1
    exact means_tup hR h1 rfl (seqToks_ws a3)
  | .lst l, t, hw, h => by
    rw [plain] at h
    obtain ⟨v, hv, h⟩ := Option.bind_eq_some_iff.mp h
    injection h with h; subst h
    rw [Obj.WF] at hw
    have h1 := plainList_means hR l v hw hv
    obtain ⟨_, _, _, _, a3, _⟩ := means_list h1
    exact means_lst hR h1 rfl (seqToks_ws a3)
  | .arr d shape rows, t, hw, h => by rw [plain] at h; cases h
  | .str s, t, hw, h => by
    rw [plain] at h; injection h with h; subst h
    exact means_str s hR rfl (.str .nil)
  | .int z, t, hw, h => by
    rw [plain] at h; injection h with h; subst h
    exact means_int z hR (intToks_nw z) (intToks_ws z)
  | .leaf p, t, hw, h => by
    rw [plain] at h; injection h with h; subst h
    exact means_leaf hR hw (nw_toks p) (wsOk_toks p)
theorem plainList_means (hR : Congr R) : ∀ (l : List Obj) (r : List (List Tok)), Obj.WFL E l → plainList l = some r → List.Forall₂ (Means E R) r l
  | [], r, _, h => by
    rw [plainList] at h; injection h with h; subst h
    exact .nil
  | o :: l, r, hw, h => by
    rw [plainList] at h
    obtain ⟨v, hv, h⟩ := Option.bind_eq_some_iff.mp h
    obtain ⟨a, ha, h⟩ := Option.bind_eq_some_iff.mp h
    injection h with h; subst h
    rw [Obj.WFL] at hw
    exact .cons (plain_means hR o v hw.1 hv) (plainList_means hR l a hw.2 ha)
end

/-! ### The indented printer -/

theorem kwToks_length : ∀ (keys : List Name) (ts : List (List Tok)), keys.length = ts.length → (kwToks keys ts).length = keys.length
  | [], [], _ => rfl
  | _ :: _, [], h => by simp at h
  | [], _ :: _, h => by simp at h
  | k :: ks, t :: ts, h => by rw [kwToks, List.length_cons, List.length_cons, kwToks_length ks ts (by simpa using h)]

mutual
theorem indNew_means (hR : Congr R) (hH : ∀ a b, H.same a b = true → R a b) : ∀ (o : Obj) (s : IState) (r : List Tok × IState), o.WF E → o.Columns → CacheOk E R s.1 →
    indNew H o s = some r → Means E R r.1 o ∧ CacheOk E R r.2.1
  | .sing n, s, r, hw, _, hc, h => by
    rw [indNew] at h; injection h with h; subst h
    exact ⟨(means_sing hR hw rfl (.word .nil)).ind _, hc⟩
  | .expr cls args keys vals, s, r, hw, hcol, hc, h => by
    rw [indNew] at h
    obtain ⟨a, ha, h⟩ := Option.bind_eq_some_iff.mp h
    obtain ⟨v, hv, h⟩ := Option.bind_eq_some_iff.mp h
    injection h with h; subst h
    rw [Obj.WF] at hw
    obtain ⟨w1, w2, w3, w4, w5, w6, w7⟩ := hw
    rw [Obj.Columns] at hcol
    obtain ⟨ta, ea, ha1, ha2⟩ := indArgs_means hR hH args (s.1, s.2 + 1) a w4 hcol.1 hc ha
    obtain ⟨tv, us, ev, eu, hus, hv1, hv2⟩ := indKws_means hR hH vals keys _ v w5 w7 hcol.2 ha2 hv
    obtain ⟨_, _, _, _, a3, _⟩ := means_list ha1
    refine ⟨means_expr hR w1 w2 w3 w5 w6 ha1 hv1 ?_ ?_, hv2⟩
    · dsimp only
      have hlen : us.length = keys.length := by
        have := congrArg List.length eu
        rw [List.length_map, kwToks_length _ _ (by rw [List.length_map, w5, hv1.length_eq])] at this
        exact this
      rw [nw_unlines, addLast_nw, nw_headToks, kwToks_map, ← eu, ← List.map_append, ← nw_commaLines]
      by_cases h0 : 0 < args.length ∨ 0 < keys.length
      · rw [if_pos h0, ea, ev, ← List.map_append, dropLast1_cons]
        · rw [List.flatMap_cons, nw_append, nw_ind, List.nil_append]; rfl
        · rw [Ne, List.map_eq_nil_iff, List.append_eq_nil_iff]
          rintro ⟨rfl, rfl⟩
          rw [← ha1.length_eq] at h0
          simp at h0 hlen
          omega
      · have h1 : ta = [] := by rw [← List.length_eq_zero_iff, ha1.length_eq]; omega
        have h2 : us = [] := by rw [← List.length_eq_zero_iff, hlen]; omega
        rw [if_neg h0, ea, ev, h1, h2, List.map_nil, List.append_nil, List.flatMap_cons, nw_append, nw_ind]
        rfl
    · refine unlines_ws (addLast_mem (.sym .nil) ?_)
      have hl : ∀ t ∈ (ind s.2 ++ [.word cls, .sym '(']) :: (a.1 ++ v.1), WsOk t := by
        intro t ht
        rcases List.mem_cons.mp ht with rfl | ht
        · exact (ind_ws _).append (.word (.sym .nil))
        · rcases List.mem_append.mp ht with ht | ht
          · rw [ea] at ht
            obtain ⟨x, hx, rfl⟩ := List.mem_map.mp ht
            exact (a3 x hx).append (.sym .nil)
          · rw [ev] at ht
            obtain ⟨x, hx, rfl⟩ := List.mem_map.mp ht
            exact (hus x hx).append (.sym .nil)
      split
      · exact dropLast1_mem hl
      · exact hl
  | .tup l, s, r, hw, _, hc, h => by
    rw [indNew] at h
    obtain ⟨v, hv, h⟩ := Option.bind_eq_some_iff.mp h
    injection h with h; subst h
    rw [Obj.WF] at hw
    have h1 := plainList_means hR l v hw hv
    obtain ⟨_, _, _, _, a3, _⟩ := means_list h1
    exact ⟨(means_tup hR h1 rfl (seqToks_ws a3)).ind _, hc⟩
  | .lst l, s, r, hw, _, hc, h => by
    rw [indNew] at h
    obtain ⟨v, hv, h⟩ := Option.bind_eq_some_iff.mp h
    injection h with h; subst h
    rw [Obj.WF] at hw
    have h1 := plainList_means hR l v hw hv
    obtain ⟨_, _, _, _, a3, _⟩ := means_list h1
    exact ⟨(means_lst hR h1 rfl (seqToks_ws a3)).ind _, hc⟩
  | .arr d shape rows, s, r, hw, hcol, hc, h => by
    rw [indNew] at h
    split at h
    · obtain ⟨v, hv, h⟩ := Option.bind_eq_some_iff.mp h
      injection h with h; subst h
      have hw' := hw
      rw [Obj.WF] at hw'
      rw [Obj.Columns] at hcol
      obtain ⟨ts, h1, h2, h3, h4, h5⟩ := indRows_means hR hH rows (s.1, s.2 + 2) v hw'.2.2.2 hcol hc hv
      refine ⟨means_arr hR hw h1 ?_ ?_, h5⟩
      · dsimp only
        have : v.1 ≠ [] := fun e => hw'.2.1 (h4 e)
        rw [nw_unlines, addLast_nw, dropLast1_cons _ this, List.flatMap_cons, h2, nw_append, nw_ind, List.nil_append]
        rfl
      · refine unlines_ws (addLast_mem (.sym (.sym (.sp (.word (.sym (.word (.sym .nil))))))) (dropLast1_mem fun t ht => ?_))
        rcases List.mem_cons.mp ht with rfl | ht
        · exact (ind_ws _).append (.word (.sym (.sym .nil)))
        · exact h3 t ht
    · cases h
  | .str t, s, r, hw, _, hc, h => by
    rw [indNew] at h; injection h with h; subst h
    exact ⟨(means_str t hR rfl (.str .nil)).ind _, hc⟩
  | .int z, s, r, hw, _, hc, h => by
    rw [indNew] at h; injection h with h; subst h
    exact ⟨(means_int z hR (intToks_nw z) (intToks_ws z)).ind _, hc⟩
  | .leaf p, s, r, hw, _, hc, h => by
    rw [indNew] at h; injection h with h; subst h
    exact ⟨(means_leaf hR hw (nw_toks p) (wsOk_toks p)).ind _, hc⟩
theorem indArgs_means (hR : Congr R) (hH : ∀ a b, H.same a b = true → R a b) : ∀ (l : List Obj) (s : IState) (r : List (List Tok) × IState), Obj.WFL E l → Obj.ColumnsL l → CacheOk E R s.1 →
    indArgs H l s = some r → ∃ ts : List (List Tok), r.1 = ts.map (· ++ [.sym ',']) ∧ List.Forall₂ (Means E R) ts l ∧ CacheOk E R r.2.1
  | [], s, r, _, _, hc, h => by
    rw [indArgs] at h; injection h with h; subst h
    exact ⟨[], rfl, .nil, hc⟩
  | o :: l, s, r, hw, hcol, hc, h => by
    rw [indArgs] at h
    obtain ⟨v, hv, h⟩ := Option.bind_eq_some_iff.mp h
    obtain ⟨a, ha, h⟩ := Option.bind_eq_some_iff.mp h
    injection h with h; subst h
    rw [Obj.WFL] at hw
    rw [Obj.ColumnsL] at hcol
    obtain ⟨h1, h2⟩ := cachedI_means hR hH hc (fun r hr => indNew_means hR hH o s r hw.1 hcol.1 hc hr) hv
    obtain ⟨ts, h3, h4, h5⟩ := indArgs_means hR hH l v.2 a hw.2 hcol.2 h2 ha
    exact ⟨v.1 :: ts, by rw [h3]; rfl, .cons h1 h4, h5⟩
theorem indKws_means (hR : Congr R) (hH : ∀ a b, H.same a b = true → R a b) : ∀ (l : List Obj) (keys : List Name) (s : IState) (r : List (List Tok) × IState), keys.length = l.length →
    Obj.WFL E l → Obj.ColumnsL l → CacheOk E R s.1 →
    indKws H keys l s = some r → ∃ ts us : List (List Tok), r.1 = us.map (· ++ [.sym ',']) ∧ us.map nw = kwToks keys (ts.map nw) ∧ (∀ u ∈ us, WsOk u) ∧ List.Forall₂ (Means E R) ts l ∧ CacheOk E R r.2.1
  | [], keys, s, r, hl, _, _, hc, h => by
    rw [List.length_eq_zero_iff.mp hl, indKws] at h
    · injection h with h; subst h
      exact ⟨[], [], rfl, by rw [List.length_eq_zero_iff.mp hl]; rfl, by simp, .nil, hc⟩
    · simp
  | o :: l, [], s, r, hl, hw, hcol, hc, h => by simp at hl
  | o :: l, k :: keys, s, r, hl, hw, hcol, hc, h => by
    rw [indKws] at h
    obtain ⟨v, hv, h⟩ := Option.bind_eq_some_iff.mp h
    obtain ⟨a, ha, h⟩ := Option.bind_eq_some_iff.mp h
    injection h with h; subst h
    rw [Obj.WFL] at hw
    rw [Obj.ColumnsL] at hcol
    obtain ⟨h1, h2⟩ := cachedI_means hR hH hc (fun r hr => indNew_means hR hH o s r hw.1 hcol.1 hc hr) hv
    obtain ⟨ts, us, h3, h4, h5, h6, h7⟩ := indKws_means hR hH l keys v.2 a (by simpa using hl) hw.2 hcol.2 h2 ha
    refine ⟨v.1 :: ts, (ind s.2 ++ [.word k, .sym '='] ++ lstrip v.1) :: us, by rw [h3]; rfl, ?_, ?_, .cons h1 h6, h7⟩
    · rw [List.map_cons, h4, List.map_cons, kwToks, nw_append, nw_append, nw_ind, nw_lstrip]
      rfl
    · intro u hu
      rcases List.mem_cons.mp hu with rfl | hu
      · exact ((ind_ws _).append (.word (.sym .nil))).append (lstrip_ws h1.ws)
      · exact h5 u hu
theorem indRows_means (hR : Congr R) (hH : ∀ a b, H.same a b = true → R a b) : ∀ (l : List (List Obj)) (s : IState) (r : List (List Tok) × IState), Obj.WFR E l → Obj.ColumnsR l → CacheOk E R s.1 →
    indRows H l s = some r → ∃ ts : List (List Tok), List.Forall₂ (MeansRow E R) ts l ∧ (dropLast1 r.1).flatMap nw = commas (ts.map nw) ∧ (∀ t ∈ r.1, WsOk t) ∧ (r.1 = [] → l = []) ∧ CacheOk E R r.2.1
  | [], s, r, _, _, hc, h => by
    rw [indRows] at h; injection h with h; subst h
    exact ⟨[], .nil, rfl, by simp, fun _ => rfl, hc⟩
  | o :: l, s, r, hw, hcol, hc, h => by
    rw [indRows] at h
    obtain ⟨v, hv, h⟩ := Option.bind_eq_some_iff.mp h
    obtain ⟨a, ha, h⟩ := Option.bind_eq_some_iff.mp h
    injection h with h; subst h
    rw [Obj.WFR] at hw
    rw [Obj.ColumnsR] at hcol
    obtain ⟨tv, e, h1, h2⟩ := indArgs_means hR hH o s v hw.1 hcol.2.1 hc hv
    obtain ⟨ts, h3, h4, h5, h6, h7⟩ := indRows_means hR hH l v.2 a hw.2 hcol.2.2 h2 ha
    obtain ⟨ps, os, a1, a2, a3, a4, a5, a6⟩ := means_list h1
    have hne : v.1 ≠ [] := by
      rw [e, Ne, List.map_eq_nil_iff]
      rintro rfl
      cases h1
      exact hcol.1 rfl
    have hfirst : (dropLast1 ((ind (s.2 - 1) ++ [.sym '[']) :: v.1)).flatMap nw = .sym '[' :: commas (tv.map nw) := by
      rw [dropLast1_cons _ hne, List.flatMap_cons, e, nw_commaLines, nw_append, nw_ind]; rfl
    have hws : ∀ t ∈ dropLast1 ((ind (s.2 - 1) ++ [.sym '[']) :: v.1), WsOk t := by
      refine dropLast1_mem fun t ht => ?_
      rcases List.mem_cons.mp ht with rfl | ht
      · exact (ind_ws _).append (.sym .nil)
      · rw [e] at ht
        obtain ⟨x, hx, rfl⟩ := List.mem_map.mp ht
        exact (a3 x hx).append (.sym .nil)
    refine ⟨(.sym '[' :: (joinC tv ++ [.sym ']'])) :: ts, .cons ⟨ps, os, ?_, a2, a4, a5⟩ h3, ?_, ?_, ?_, h7⟩
    · rw [nw_sym, nw_append, nw_joinC, a1]; rfl
    · have hrow : nw (.sym '[' :: (joinC tv ++ [.sym ']'])) = .sym '[' :: (commas (tv.map nw) ++ [.sym ']']) := by
        rw [nw_sym, nw_append, nw_joinC]; rfl
      rw [dropLast1_append _ (by simp), List.flatMap_append, hfirst, List.map_cons, hrow, commas_cons]
      cases hl : a.1 with
      | nil =>
        rw [hl] at h6
        have h8 := h6 rfl
        subst h8
        cases h3
        rw [dropLast1]
        have : (ind (s.2 - 1) ++ [Tok.sym ']', .sym ',']).dropLast = ind (s.2 - 1) ++ [.sym ']'] := by
          rw [List.dropLast_append_of_ne_nil (by simp)]; rfl
        rw [this, List.flatMap_cons, nw_append, nw_ind]
        simp [nw, Tok.isWs]
      | cons x xs =>
        have hts : ts ≠ [] := by
          rintro rfl
          cases h3
          rw [indRows] at ha
          injection ha with ha
          rw [← ha] at hl
          cases hl
        obtain ⟨y, ys, rfl⟩ := List.exists_cons_of_ne_nil hts
        rw [hl] at h4
        rw [dropLast1_cons _ (by simp), List.flatMap_cons, h4, nw_append, nw_ind]
        simp [nw, Tok.isWs]
    · intro t ht
      rcases List.mem_append.mp ht with ht | ht
      · exact hws t ht
      · rcases List.mem_cons.mp ht with rfl | ht
        · exact (ind_ws _).append (.sym (.sym .nil))
        · exact h5 t ht
    · intro h0
      simp at h0
end

end QNET.Print
