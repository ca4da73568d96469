import Verif.Print.Roundtrip

/-!
# `srepr(expr)` is a single line (C71)
-/

namespace QNET.Print

variable {E : Env} {H : Host}

/-- no line breaks between tokens -/
def OneLine (t : List Tok) : Prop := ∀ x ∈ t, x ≠ .ws '\n'

theorem OneLine.append {a b : List Tok} (ha : OneLine a) (hb : OneLine b) : OneLine (a ++ b) := fun x hx => (List.mem_append.mp hx).elim (ha x) (hb x)
theorem OneLine.cons {a : Tok} {b : List Tok} (ha : a ≠ .ws '\n') (hb : OneLine b) : OneLine (a :: b) := fun x hx => by
  rcases List.mem_cons.mp hx with rfl | hx
  · exact ha
  · exact hb x hx
theorem OneLine.nil : OneLine [] := fun _ h => by cases h
theorem OneLine.sym {c : Char} {b : List Tok} (hb : OneLine b) : OneLine (.sym c :: b) := .cons (by simp) hb
theorem OneLine.word {c : Name} {b : List Tok} (hb : OneLine b) : OneLine (.word c :: b) := .cons (by simp) hb
theorem OneLine.str {c : List Char} {b : List Tok} (hb : OneLine b) : OneLine (.str c :: b) := .cons (by simp) hb
theorem OneLine.sp {b : List Tok} (hb : OneLine b) : OneLine (.ws ' ' :: b) := .cons (by simp) hb

theorem OneLine.joinC : ∀ {l : List (List Tok)}, (∀ a ∈ l, OneLine a) → OneLine (joinC l)
  | [], _ => .nil
  | [a], h => h a List.mem_cons_self
  | a :: b :: l, h => (h a List.mem_cons_self).append (.sym (.sp (OneLine.joinC fun x hx => h x (List.mem_cons_of_mem _ hx))))

mutual
theorem oneLine_toks : ∀ p : Py, OneLine p.toks
  | .word w => .word .nil
  | .neg w => .sym (.word .nil)
  | .str s => .str .nil
  | .call f args keys vals => by
    rw [Py.toks]
    refine .word (.sym ((OneLine.joinC fun a ha => ?_).append (.sym .nil)))
    rcases List.mem_append.mp ha with h | h
    · exact oneLine_toksList args a h
    · exact oneLine_toksKw keys vals a h
  | .tup l => by
    rw [Py.toks]
    refine .sym (((OneLine.joinC (oneLine_toksList l)).append ?_).append (.sym .nil))
    split
    · exact .sym .nil
    · exact .nil
  | .lst comma l => by
    rw [Py.toks]
    refine .sym (((OneLine.joinC (oneLine_toksList l)).append ?_).append (.sym .nil))
    split
    · exact .sym .nil
    · exact .nil
theorem oneLine_toksList : ∀ (l : List Py), ∀ a ∈ Py.toksList l, OneLine a
  | [], a, h => by simp [Py.toksList] at h
  | p :: l, a, h => by
    rw [Py.toksList] at h
    rcases List.mem_cons.mp h with rfl | h
    · exact oneLine_toks p
    · exact oneLine_toksList l a h
theorem oneLine_toksKw : ∀ (ks : List Name) (l : List Py), ∀ a ∈ Py.toksKw ks l, OneLine a
  | k :: ks, p :: l, a, h => by
    rw [Py.toksKw] at h
    rcases List.mem_cons.mp h with rfl | h
    · exact .word (.sym (oneLine_toks p))
    · exact oneLine_toksKw ks l a h
  | [], _, a, h => by simp [Py.toksKw] at h
  | _ :: _, [], a, h => by simp [Py.toksKw] at h
end

theorem kwToks_oneLine : ∀ (keys : List Name) (ts : List (List Tok)), (∀ t ∈ ts, OneLine t) → ∀ t ∈ kwToks keys ts, OneLine t
  | [], _, _, t, h => by simp [kwToks] at h
  | _ :: _, [], _, t, h => by simp [kwToks] at h
  | k :: ks, t :: ts, hw, x, h => by
    rw [kwToks] at h
    rcases List.mem_cons.mp h with rfl | h
    · exact .word (.sym (hw t List.mem_cons_self))
    · exact kwToks_oneLine ks ts (fun y hy => hw y (List.mem_cons_of_mem _ hy)) x h

theorem headToks_oneLine {cls : Name} {args kws : List (List Tok)} (ha : ∀ t ∈ args, OneLine t) (hk : ∀ t ∈ kws, OneLine t) : OneLine (headToks cls args kws) := by
  refine .word (.sym (((OneLine.joinC ha).append ?_).append (.sym .nil)))
  split
  · exact .nil
  · refine OneLine.append ?_ (.joinC hk)
    split
    · exact .nil
    · exact .sym (.sp .nil)

theorem seqToks_oneLine {op cl : Char} {l : List (List Tok)} (h : ∀ t ∈ l, OneLine t) : OneLine (seqToks op cl l) := by
  refine .sym (((OneLine.joinC h).append ?_).append (.sym .nil))
  split
  · exact .sym .nil
  · exact .nil

def CacheLine (c : Cache) : Prop := ∀ e ∈ c, OneLine e.2

theorem cached_oneLine {f : Cache → Option (List Tok × Cache)} {o : Obj} {c : Cache} (hc : CacheLine c) (hf : ∀ r, f c = some r → OneLine r.1 ∧ CacheLine r.2)
    {r : List Tok × Cache} (h : cached H f o c = some r) : OneLine r.1 ∧ CacheLine r.2 := by
  unfold cached at h
  split at h
  · next t ht =>
    injection h with h; subst h
    refine ⟨?_, hc⟩
    unfold getC at ht
    split at ht
    · cases hf : c.find? fun e => H.same e.1 o with
      | none => rw [hf] at ht; cases ht
      | some e =>
        rw [hf] at ht
        injection ht with ht
        subst ht
        exact hc e (List.mem_of_find?_eq_some hf)
    · cases ht
  · obtain ⟨x, hx, h⟩ := Option.bind_eq_some_iff.mp h
    injection h with h; subst h
    obtain ⟨h1, h2⟩ := hf x hx
    refine ⟨h1, ?_⟩
    dsimp only
    split
    · exact h2
    · unfold putC
      split
      · split
        · intro e he
          obtain ⟨x, hx, rfl⟩ := List.mem_map.mp he
          split
          · exact h1
          · exact h2 x hx
        · intro e he
          rcases List.mem_append.mp he with he | he
          · exact h2 e he
          · rw [List.mem_singleton] at he
            subst he
            exact h1
      · exact h2

mutual
theorem flatNew_oneLine (top : Bool) : ∀ (o : Obj) (c : Cache) (r : List Tok × Cache), CacheLine c → flatNew H top o c = some r → OneLine r.1 ∧ CacheLine r.2
  | .sing n, c, r, hc, h => by
    rw [flatNew] at h; injection h with h; subst h
    exact ⟨.word .nil, hc⟩
  | .expr cls args keys vals, c, r, hc, h => by
    rw [flatNew] at h
    obtain ⟨v, hv, h⟩ := Option.bind_eq_some_iff.mp h
    obtain ⟨a, ha, h⟩ := Option.bind_eq_some_iff.mp h
    injection h with h; subst h
    obtain ⟨hv1, hv2⟩ := flatArgs_oneLine vals c v hc hv
    obtain ⟨ha1, ha2⟩ := flatArgs_oneLine args v.2 a hv2 ha
    exact ⟨headToks_oneLine ha1 (kwToks_oneLine _ _ hv1), ha2⟩
  | .tup l, c, r, hc, h => by
    rw [flatNew] at h
    obtain ⟨v, hv, h⟩ := Option.bind_eq_some_iff.mp h
    injection h with h; subst h
    obtain ⟨h1, h2⟩ := flatItems_oneLine l c v hc hv
    exact ⟨seqToks_oneLine h1, h2⟩
  | .lst l, c, r, hc, h => by
    rw [flatNew] at h
    obtain ⟨v, hv, h⟩ := Option.bind_eq_some_iff.mp h
    injection h with h; subst h
    obtain ⟨h1, h2⟩ := flatItems_oneLine l c v hc hv
    exact ⟨seqToks_oneLine h1, h2⟩
  | .arr d shape rows, c, r, hc, h => by
    rw [flatNew] at h
    split at h
    · obtain ⟨v, hv, h⟩ := Option.bind_eq_some_iff.mp h
      injection h with h; subst h
      obtain ⟨h1, h2⟩ := flatRows_oneLine rows c v hc hv
      exact ⟨((OneLine.word (.sym (.sym .nil))).append (.joinC h1)).append (.sym (.sym (.sp (.word (.sym (.word (.sym .nil))))))), h2⟩
    · cases h
  | .str s, c, r, hc, h => by
    rw [flatNew] at h; injection h with h; subst h
    exact ⟨.str .nil, hc⟩
  | .int z, c, r, hc, h => by
    rw [flatNew] at h; injection h with h; subst h
    refine ⟨?_, hc⟩
    dsimp only
    unfold intToks
    split
    · exact .sym (.word .nil)
    · exact .word .nil
  | .leaf p, c, r, hc, h => by
    rw [flatNew] at h; injection h with h; subst h
    exact ⟨oneLine_toks p, hc⟩
theorem flatArgs_oneLine : ∀ (l : List Obj) (c : Cache) (r : List (List Tok) × Cache), CacheLine c → flatArgs H l c = some r → (∀ t ∈ r.1, OneLine t) ∧ CacheLine r.2
  | [], c, r, hc, h => by
    rw [flatArgs] at h; injection h with h; subst h
    exact ⟨by simp, hc⟩
  | o :: l, c, r, hc, h => by
    rw [flatArgs] at h
    obtain ⟨v, hv, h⟩ := Option.bind_eq_some_iff.mp h
    obtain ⟨a, ha, h⟩ := Option.bind_eq_some_iff.mp h
    injection h with h; subst h
    obtain ⟨h1, h2⟩ := cached_oneLine hc (fun r hr => flatNew_oneLine true o c r hc hr) hv
    obtain ⟨h3, h4⟩ := flatArgs_oneLine l v.2 a h2 ha
    exact ⟨fun t ht => by rcases List.mem_cons.mp ht with rfl | ht; exacts [h1, h3 t ht], h4⟩
theorem flatItems_oneLine : ∀ (l : List Obj) (c : Cache) (r : List (List Tok) × Cache), CacheLine c → flatItems H l c = some r → (∀ t ∈ r.1, OneLine t) ∧ CacheLine r.2
  | [], c, r, hc, h => by
    rw [flatItems] at h; injection h with h; subst h
    exact ⟨by simp, hc⟩
  | o :: l, c, r, hc, h => by
    rw [flatItems] at h
    obtain ⟨v, hv, h⟩ := Option.bind_eq_some_iff.mp h
    obtain ⟨a, ha, h⟩ := Option.bind_eq_some_iff.mp h
    injection h with h; subst h
    obtain ⟨h1, h2⟩ := flatNew_oneLine false o c v hc hv
    obtain ⟨h3, h4⟩ := flatItems_oneLine l v.2 a h2 ha
    exact ⟨fun t ht => by rcases List.mem_cons.mp ht with rfl | ht; exacts [h1, h3 t ht], h4⟩
theorem flatRows_oneLine : ∀ (l : List (List Obj)) (c : Cache) (r : List (List Tok) × Cache), CacheLine c → flatRows H l c = some r → (∀ t ∈ r.1, OneLine t) ∧ CacheLine r.2
  | [], c, r, hc, h => by
    rw [flatRows] at h; injection h with h; subst h
    exact ⟨by simp, hc⟩
  | o :: l, c, r, hc, h => by
    rw [flatRows] at h
    obtain ⟨v, hv, h⟩ := Option.bind_eq_some_iff.mp h
    obtain ⟨a, ha, h⟩ := Option.bind_eq_some_iff.mp h
    injection h with h; subst h
    obtain ⟨h1, h2⟩ := flatArgs_oneLine o c v hc hv
    obtain ⟨h3, h4⟩ := flatRows_oneLine l v.2 a h2 ha
    exact ⟨fun t ht => by
      rcases List.mem_cons.mp ht with rfl | ht
      exacts [.sym ((OneLine.joinC h1).append (.sym .nil)), h3 t ht], h4⟩
end

theorem pyRepr_oneLine (s : List Char) : '\n' ∉ pyRepr s := by
  have hq := quoteOf_cases s
  have hqn : quoteOf s ≠ '\n' := by rcases hq with h | h <;> rw [h] <;> decide
  unfold pyRepr
  intro h
  rcases List.mem_append.mp h with h | h
  · rcases List.mem_cons.mp h with h | h
    · exact hqn h.symm
    · obtain ⟨c, hc, h⟩ := List.mem_flatMap.mp h
      unfold escape at h
      split at h
      · simp at h
      · split at h
        · simp at h; exact hqn h.symm
        · split at h
          · simp at h
          · next hn =>
            split at h
            · simp at h
            · split at h
              · simp at h
              · simp at h; exact hn h.symm
  · rw [List.mem_singleton] at h; exact hqn h.symm

theorem text_oneLine {t : List Tok} (h : OneLine t) (hv : ∀ x ∈ nw t, x.Valid) (hw : WsOk t) : '\n' ∉ text t := by
  intro hm
  obtain ⟨x, hx, hm⟩ := List.mem_flatMap.mp hm
  have hxv : x.isWs = false → x.Valid := fun hf => hv x (List.mem_filter.mpr ⟨hx, by simp [hf]⟩)
  cases x with
  | word w =>
    have := (hxv rfl).2 '\n' hm
    exact absurd this (by decide)
  | str s => exact pyRepr_oneLine s hm
  | sym c =>
    rw [Tok.text, List.mem_singleton] at hm
    subst hm
    exact absurd (hxv rfl) (by unfold Tok.Valid; decide)
  | ws c =>
    rw [Tok.text, List.mem_singleton] at hm
    subst hm
    exact h _ hx rfl

/-- the result of `srepr` without `indented=True` is a single line -/
theorem C71_single_line {R : Obj → Obj → Prop} (hR : Congr R) (hH : ∀ a b, H.same a b = true → R a b) {o : Obj} (ho : o.WF E) {c : Cache} (hc : UserCache E c) {s : List Char} {c' : Cache}
    (h : srepr H o c = some (s, c')) : '\n' ∉ s := by
  obtain ⟨r, hr, h⟩ := Option.bind_eq_some_iff.mp h
  injection h with h
  injection h with h1 h2
  subst h1 h2
  have hl : CacheLine c := fun e he => by
    obtain ⟨p, hp, ht, hv⟩ := hc e he
    rw [ht]; exact oneLine_toks p
  obtain ⟨⟨p, hp, ht, hw, -⟩, -⟩ := cached_means hR hH (hc.ok hR) (fun r hr => flatNew_means hR hH true o c r ho (hc.ok hR) hr) hr
  obtain ⟨h1, -⟩ := cached_oneLine hl (fun r hr => flatNew_oneLine true o c r hl hr) hr
  exact text_oneLine h1 (by rw [ht]; exact (good_ts p hp).1) hw

end QNET.Print
