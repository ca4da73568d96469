import Verif.SympyPrint.LatexEx

/-!
# C104: LaTeX of whole expressions is well-formed: proofs
-/

namespace QNET.Latex

/-- can be read, also without a sign at the beginning -/
def PT (s : S) : Prop := Txt s ∧ ∀ u, lstrip s = '-' :: u → Txt u

theorem PT.nil : PT [] := ⟨Txt.nil, nofun⟩
theorem PT.of_head {s : S} (h : Txt s) (hs : (lstrip s).head? ≠ some '-') : PT s := ⟨h, fun u hu => absurd (by rw [hu]; rfl) hs⟩

theorem lstrip_append (s t : S) : lstrip (s ++ t) = if lstrip s = [] then lstrip t else lstrip s ++ t := by
  induction s with
  | nil => rfl
  | cons c s ih =>
    rw [lstrip, List.cons_append, List.dropWhile_cons, lstrip, List.dropWhile_cons]
    by_cases hc : (c == ' ') = true
    · rw [if_pos hc, if_pos hc]; exact ih
    · rw [if_neg hc, if_neg hc, if_neg (by simp)]; rfl

theorem PT.append {s t : S} {x : Char} (hs : PT s) (hx : x.isAlpha = false) (ht : PT (x :: t)) : PT (s ++ x :: t) := by
  refine ⟨hs.1.append hx ht.1, fun u hu => ?_⟩
  rw [lstrip_append] at hu
  split at hu
  · exact ht.2 u hu
  · cases h : lstrip s with
    | nil => exact absurd h ‹_›
    | cons c s' =>
      rw [h, List.cons_append, List.cons.injEq] at hu
      obtain ⟨rfl, rfl⟩ := hu
      exact (hs.2 s' h).append hx ht.1

/-- texts between the operands -/
def Lit (l : S) : Prop := (∀ a, Math a → ∃ f g, a.run l = some (a.flags f g)) ∧ (lstrip l).head? ≠ some '-'

theorem Lit.txt {l t : S} (h : Lit l) (ht : Txt t) : Txt (l ++ t) := by
  intro a ha
  obtain ⟨f, g, h⟩ := h.1 a ha
  obtain ⟨f', g', k⟩ := ht _ (ha.flags f g)
  exact ⟨f', g', Go.pre h k⟩

theorem Lit.pt {l t : S} (h : Lit l) (ht : PT t) : PT (l ++ t) := by
  refine ⟨h.txt ht.1, fun u hu => ?_⟩
  rw [lstrip_append] at hu
  split at hu
  · exact ht.2 u hu
  · cases hl : lstrip l with
    | nil => exact absurd hl ‹_›
    | cons c s' =>
      rw [hl, List.cons_append, List.cons.injEq] at hu
      exact absurd (by rw [hl, hu.1]; rfl) h.2

theorem PT.lit {s l t l' : S} {x : Char} (hs : PT s) (hl : Lit l) (e : l = x :: l') (hx : x.isAlpha = false) (ht : PT t) : PT (s ++ l ++ t) := by
  have := hl.pt ht
  subst e
  rw [List.append_assoc]
  exact hs.append hx this

theorem pt_join {sep sep' : S} {x : Char} {l : List S} (h : ∀ t ∈ l, PT t) (hl : Lit sep) (e : sep = x :: sep') (hx : x.isAlpha = false) :
    PT (joinWith sep l) := by
  induction l with
  | nil => exact PT.nil
  | cons t l ih =>
    cases l with
    | nil => exact h t (by simp)
    | cons u l => exact (h t (by simp)).lit hl e hx (ih fun t ht => h t (by simp [ht]))

/-- texts between delimiters -/
theorem nuc_delims {pre t post post' : S} {x : Char} (h1 : ∀ a, Math a → a.run pre = some (St.push (a.flags false false) true false))
    (h2 : ∀ a, Math a → ∀ f g, Go ((St.push (a.flags false false) true false).flags f g) (a.flags false false) post) (e : post = x :: post')
    (hx : x.isAlpha = false) (ht : Txt t) : Nuc (pre ++ t ++ post) := fun a ha =>
  go_between (b := St.push (a.flags false false) true false) e hx ⟨rfl, rfl, rfl⟩ (h1 a ha) ht (h2 a ha)

theorem nuc_paren {t : S} (ht : Txt t) : Nuc (parenTex t) := by
  refine nuc_delims (x := '\\') (fun a ha => by rw [ha.eq]; rfl) (fun a ha f g => ?_) rfl (by decide) ht
  refine go_of_run (m := _) (by rw [ha.eq]; rfl) ?_ ?_ ha.2.1
  · rw [ha.eq]; rfl
  · simp [St.atom, St.flags]

theorem nuc_bracket {t : S} (ht : Txt t) : Nuc (bracketTex t) := by
  refine nuc_delims (x := '\\') (fun a ha => by rw [ha.eq]; rfl) (fun a ha f g => ?_) rfl (by decide) ht
  refine go_of_run (m := _) (by rw [ha.eq]; rfl) ?_ ?_ ha.2.1
  · rw [ha.eq]; rfl
  · simp [St.atom, St.flags]

theorem head_lit {l s : S} {c : Char} (h : l.head? = some c) : (l ++ s).head? = some c := by
  cases l with
  | nil => exact nomatch h
  | cons x l => exact h

theorem pt_paren {t : S} (ht : Txt t) : PT (parenTex t) := by
  refine PT.of_head (nuc_paren ht).txt ?_
  rw [parenTex, List.append_assoc, lstrip_append, if_neg (by decide), head_lit (c := '\\') (by decide)]
  decide

theorem pt_bracket {t : S} (ht : Txt t) : PT (bracketTex t) := by
  refine PT.of_head (nuc_bracket ht).txt ?_
  rw [bracketTex, List.append_assoc, lstrip_append, if_neg (by decide), head_lit (c := '\\') (by decide)]
  decide

theorem pt_parenIf {b : Bool} {t : S} (ht : PT t) : PT (parenIf b t) := by
  cases b
  · exact ht
  · exact pt_paren ht.1

/-! ### spaces at the ends -/

theorem txt_space_left {t : S} (h : Txt (' ' :: t)) : Txt t := by
  intro a ha
  obtain ⟨f, g, m, h1, h2⟩ := h a ha
  refine ⟨f, g, m, ?_, h2⟩
  rw [← h1]
  rw [ha.eq]
  rfl

theorem txt_lstrip {t : S} (h : Txt t) : Txt (lstrip t) := by
  induction t with
  | nil => exact h
  | cons c t ih =>
    rw [lstrip, List.dropWhile_cons]
    split
    · rename_i hc
      rw [beq_iff_eq] at hc
      subst hc
      exact ih (txt_space_left h)
    · exact h

theorem txt_space_right {t : S} (h : Txt (t ++ [' '])) : Txt t := by
  intro a ha
  obtain ⟨f, g, m, h1, h2, h3, h4⟩ := h a ha
  rw [run_append] at h1
  obtain ⟨n, k1, k2⟩ := Option.bind_eq_some_iff.mp h1
  have k3 : n.step ' ' = some m := by
    rw [St.run] at k2
    obtain ⟨m', k3, k4⟩ := Option.bind_eq_some_iff.mp k2
    injection k4 with k4
    rw [k3, k4]
  refine ⟨f, g, n, k1, ?_⟩
  -- a space is not a part of a command and does not end what is pending
  have hchar : ∀ s s' : St, s.char ' ' = some s' → s' = s := by
    intro s s' h
    rw [St.char, if_neg (by decide)] at h
    split at h
    · rw [if_neg (by decide), if_pos (by decide)] at h; exact nomatch h
    · rw [if_neg (by decide)] at h; exact nomatch h
    · rw [if_neg (by decide)] at h; exact nomatch h
    · rw [if_neg (by decide), if_neg (by decide), if_neg (by decide), if_neg (by decide), if_pos rfl] at h
      injection h with h
      exact h.symm
  rw [St.step] at k3
  split at k3
  · rename_i hw
    rw [if_neg (by decide)] at k3
    have := hchar _ _ k3
    subst this
    exact ⟨h2, h3, h4⟩
  · rename_i w hw
    rw [if_neg (by decide)] at k3
    split at k3
    · rw [St.symbol, if_neg (by decide), if_neg (by decide)] at k3
      exact nomatch k3
    · rename_i hw0
      obtain ⟨p, k4, k5⟩ := Option.bind_eq_some_iff.mp k3
      rw [if_neg (by decide)] at k5
      have := hchar _ _ k5
      subst this
      have hpw := command_word rfl k4
      rw [St.flush, hpw] at h2
      injection h2 with h2
      refine ⟨?_, by rw [hw]; simpa using hw0, h4⟩
      rw [St.flush, hw]
      simp only [if_neg hw0]
      rw [k4, h2]

theorem txt_rstrip {t : S} (h : Txt t.reverse) : Txt (lstrip t).reverse := by
  induction t with
  | nil => exact h
  | cons c t ih =>
    rw [lstrip, List.dropWhile_cons]
    split
    · rename_i hc
      rw [beq_iff_eq] at hc
      subst hc
      rw [List.reverse_cons] at h
      exact ih (txt_space_right h)
    · exact h

theorem txt_strip {t : S} (h : Txt t) : Txt (strip t) := by
  refine txt_rstrip ?_
  rw [List.reverse_reverse]
  exact txt_lstrip h

theorem strip_spaces (t : S) : ∃ n, t = (lstrip t.reverse).reverse ++ List.replicate n ' ' := by
  have key : ∀ r : S, ∃ n, r = List.replicate n ' ' ++ lstrip r := by
    intro r
    induction r with
    | nil => exact ⟨0, rfl⟩
    | cons c r ih =>
      obtain ⟨n, ih⟩ := ih
      by_cases hc : (c == ' ') = true
      · refine ⟨n + 1, ?_⟩
        rw [lstrip, List.dropWhile_cons, if_pos hc, List.replicate_succ, List.cons_append]
        rw [beq_iff_eq] at hc
        rw [hc]
        congr 1
      · exact ⟨0, by rw [lstrip, List.dropWhile_cons, if_neg hc]; rfl⟩
  obtain ⟨n, h⟩ := key t.reverse
  refine ⟨n, ?_⟩
  have := congrArg List.reverse h
  rw [List.reverse_reverse, List.reverse_append, List.reverse_replicate] at this
  exact this

theorem txt_spaces {t : S} {n : ℕ} (h : Txt (t ++ List.replicate n ' ')) : Txt t := by
  induction n with
  | zero => simpa using h
  | succ n ih =>
    rw [List.replicate_succ', ← List.append_assoc] at h
    exact ih (txt_space_right h)

theorem lstrip_lstrip (t : S) : lstrip t = [] ∨ ∃ c u, lstrip t = c :: u ∧ c ≠ ' ' := by
  induction t with
  | nil => exact .inl rfl
  | cons c t ih =>
    rw [lstrip, List.dropWhile_cons]
    by_cases hc : (c == ' ') = true
    · rw [if_pos hc]; exact ih
    · rw [if_neg hc]; exact .inr ⟨c, t, rfl, by simpa using hc⟩

theorem pt_strip {t : S} (h : PT t) : PT (strip t) := by
  refine ⟨txt_strip h.1, fun u hu => ?_⟩
  obtain ⟨n, hn⟩ := strip_spaces (lstrip t)
  change lstrip t = strip t ++ _ at hn
  have hs : lstrip (strip t) = strip t := by
    cases hs : strip t with
    | nil => rfl
    | cons c w =>
      rw [lstrip, List.dropWhile_cons, if_neg]
      rcases lstrip_lstrip t with h0 | ⟨c', u', h0, hc⟩
      · rw [h0, hs] at hn; exact nomatch hn
      · rw [h0, hs, List.cons_append, List.cons.injEq] at hn
        rw [← hn.1]; simpa using hc
  rw [hs] at hu
  rw [hu, List.cons_append] at hn
  exact txt_spaces (h.2 _ hn)

/-- signs survive at the beginning only -/
theorem txt_minus {t : S} (h : Txt t) : Txt ('-' :: t) := by
  intro a ha
  obtain ⟨f, g, k⟩ := h _ (ha.flags false false)
  have := plain_step (c := '-') (by decide) ha.1 ha.2.1
  rw [ha.atom] at this
  exact ⟨f, g, Go.cons this k⟩

/-! ### sums of terms -/

theorem signed_spec {p : Bool} {t : S} (h : PT t) : ((signed p t).1 = '+' ∨ (signed p t).1 = '-') ∧ Txt (signed p t).2 ∧ ((signed p t).1 = '+' → PT (signed p t).2) := by
  rw [signed.eq_def]
  split
  · rename_i u
    have hu : Txt (strip u) := txt_strip (h.2 u (by rw [lstrip, List.dropWhile_cons, if_neg (by decide)]))
    refine ⟨.inr rfl, ?_, fun k => absurd k (by simp)⟩
    cases p
    · exact hu
    · exact (nuc_paren hu).txt
  · exact ⟨.inl rfl, (pt_parenIf h).1, fun _ => pt_parenIf h⟩

theorem txt_sign {c : Char} {t : S} (h1 : c = '+' ∨ c = '-') (ht : Txt t) : Txt ([' ', c, ' '] ++ t) := by
  intro a ha
  obtain ⟨f, g, k⟩ := ht _ (ha.flags false false)
  refine ⟨f, g, Go.pre ?_ k⟩
  rw [ha.eq]
  rcases h1 with h1 | h1 <;> rw [h1] <;> rfl

theorem txt_termTail {l : List (Char × S)} (h : ∀ p ∈ l, (p.1 = '+' ∨ p.1 = '-') ∧ Txt p.2) : Txt (l.flatMap fun p => [' ', p.1, ' '] ++ p.2) := by
  induction l with
  | nil => exact Txt.nil
  | cons p l ih =>
    obtain ⟨h1, h2⟩ := h p (by simp)
    have ih := ih fun p hp => h p (by simp [hp])
    rw [List.flatMap_cons, List.append_assoc]
    refine txt_sign h1 ?_
    cases l with
    | nil => simpa using h2
    | cons q l =>
      rw [List.flatMap_cons, List.append_assoc, List.cons_append] at ih ⊢
      exact h2.append (by decide) ih

theorem pt_minus {t : S} (h : Txt t) : PT ('-' :: t) :=
  ⟨txt_minus h, fun u hu => by
    rw [lstrip, List.dropWhile_cons, if_neg (by decide), List.cons.injEq] at hu
    rw [← hu.2]; exact h⟩

theorem lit_space : Lit " ".toList := ⟨fun a ha => by rw [ha.eq]; exact ⟨_, _, rfl⟩, by decide⟩

theorem pt_termTail {l : List (Char × S)} (h : ∀ p ∈ l, (p.1 = '+' ∨ p.1 = '-') ∧ Txt p.2) : PT (l.flatMap fun p => [' ', p.1, ' '] ++ p.2) := by
  refine ⟨txt_termTail h, fun u hu => ?_⟩
  cases l with
  | nil => exact nomatch hu
  | cons p l =>
    obtain ⟨c, t⟩ := p
    have h1 := (h (c, t) (by simp)).1
    have h2 := txt_termTail (l := (c, t) :: l) h
    rw [List.flatMap_cons] at hu h2
    simp only [List.cons_append, List.nil_append] at hu h2
    have e : lstrip (' ' :: c :: ' ' :: (t ++ l.flatMap fun p => ' ' :: p.1 :: ' ' :: p.2)) = c :: ' ' :: (t ++ l.flatMap fun p => ' ' :: p.1 :: ' ' :: p.2) := by
      rcases h1 with h1 | h1 <;> simp only at h1 <;> rw [h1] <;> rfl
    rw [e, List.cons.injEq] at hu
    rw [← hu.2]
    refine lit_space.txt ?_
    have h3 := txt_termTail fun p hp => h p (List.mem_cons_of_mem _ hp)
    have h4 := (h (c, t) (by simp)).2
    simp only [List.cons_append, List.nil_append] at h3
    cases l with
    | nil => simpa using h4
    | cons q l => exact h4.append (by decide) h3

theorem pt_joinTerms {l : List (Char × S)} (h : ∀ p ∈ l, (p.1 = '+' ∨ p.1 = '-') ∧ Txt p.2 ∧ (p.1 = '+' → PT p.2)) : PT (joinTerms l) := by
  cases l with
  | nil => exact PT.nil
  | cons p l =>
    obtain ⟨c, t⟩ := p
    obtain ⟨h1, h2, h3⟩ := h (c, t) (by simp)
    have hl := pt_termTail fun p hp => ⟨(h p (List.mem_cons_of_mem _ hp)).1, (h p (List.mem_cons_of_mem _ hp)).2.1⟩
    have key : Txt (t ++ l.flatMap fun p => [' ', p.1, ' '] ++ p.2) ∧ (PT t → PT (t ++ l.flatMap fun p => [' ', p.1, ' '] ++ p.2)) := by
      cases l with
      | nil => simpa using h2
      | cons q l => exact ⟨h2.append (by decide) hl.1, fun k => k.append (by decide) hl⟩
    rw [joinTerms, List.append_assoc]
    rcases h1 with h1 | h1
    · simp only at h1; subst h1
      rw [if_pos rfl, List.nil_append]
      exact key.2 (h3 rfl)
    · simp only at h1; subst h1
      rw [if_neg (by decide)]
      exact pt_minus key.1

theorem pt_scale {m pc pt : Bool} {c t : S} (hc : PT c) (ht : PT t) : PT (scaleTex m pc pt c t) := by
  have h := pt_parenIf (b := pt) ht
  unfold scaleTex
  simp only
  split
  · split
    · have e : "- ".toList = '-' :: " ".toList := by decide +kernel
      rw [e, List.cons_append]
      exact pt_minus (lit_space.txt h.1)
    · exact pt_minus h.1
  · split
    · exact hc
    · exact (pt_parenIf (pt_strip hc)).lit lit_space rfl (by decide) (pt_strip h)

/-! ### sum signs -/

theorem txt_number {t : S} (h : number t) : Txt t := by
  refine (nuc_plain (fun c hc => ?_) h.1).txt
  rcases h.2 c hc with h | rfl
  · exact tame_plain (alnum_tame (by simp [Char.isAlphanum, h]))
  · decide

theorem txt_cons {c : Char} {t : S} (hc : plain c = true) (h : Txt t) : Txt (c :: t) := by
  intro a ha
  obtain ⟨f, g, h⟩ := h _ (ha.flags false false)
  have := plain_step hc ha.1 ha.2.1
  rw [ha.atom] at this
  exact ⟨f, g, Go.cons this h⟩

/-- a subscript, perhaps empty -/
theorem go_sub {a : St} {sub : S} (ha : Math a) (hf : a.cur.sub = false) (h1 : Txt sub) : Go a (a.flags a.cur.sup true) ('_' :: '{' :: sub ++ ['}']) := by
  obtain ⟨f, g, h⟩ := h1 (St.push (a.flags a.cur.sup true) false false) ⟨rfl, rfl, rfl⟩
  refine Go.cons (b := { a.flags a.cur.sup true with pend := .script }) ?_
    (Go.cons (b := St.push (a.flags a.cur.sup true) false false) ?_ (h.append (by decide) (Go.cons (b := a.flags a.cur.sup true) ?_ (Go.refl ha.2.1))))
  all_goals
    obtain ⟨h1, h2, h3⟩ := ha
    cases a
    simp_all [St.flags, St.char, St.push, St.pop, St.step]

theorem txt_spaceTex {hs : List S} (h : ∀ l ∈ hs, GoodLabel l) : Txt (spaceTex hs) := by
  have e1 : "\\mathcal{H}".toList = '\\' :: "mathcal".toList ++ '{' :: (['H'] ++ ['}']) := by decide +kernel
  have k1 : Nuc "\\mathcal{H}".toList := by
    rw [e1]
    exact nuc_mathMac (by decide +kernel) (nuc_plain (by simp; decide) (by simp)).txt
  intro a ha
  exact ⟨false, true, (k1 a ha).append (by decide) (go_sub (ha.flags false false) rfl (txt_hsLabel h))⟩

theorem txt_rhs {r : Range} (h : r.Good) : Txt r.rhs ∧ (r.rhs = [] ∨ ∃ x t, r.rhs = x :: t ∧ x.isAlpha = false) := by
  have hin : Lit " \\in ".toList := ⟨fun a ha => by rw [ha.eq]; exact ⟨false, false, rfl⟩, by decide +kernel⟩
  have hbr : Lit "\\{".toList := ⟨fun a ha => by rw [ha.eq]; exact ⟨false, false, rfl⟩, by decide +kernel⟩
  have hbr' : Txt "\\}".toList := fun a ha => ⟨false, false, by
    refine go_of_run (m := _) (by rw [ha.eq]; rfl) ?_ ?_ ha.2.1
    · rw [ha.eq]; rfl
    · rw [ha.eq]; exact nofun⟩
  have e : " \\in ".toList = ' ' :: ("\\in ".toList) := by decide +kernel
  cases r with
  | fock i hs => exact ⟨hin.txt (txt_spaceTex h.2), .inr ⟨' ', _, by rw [Range.rhs, e, List.cons_append], by decide⟩⟩
  | list i vals =>
    have hv : Txt (joinC vals) := txt_joinC fun v hv => (txt_iff v).mpr (h.2 v hv)
    refine ⟨?_, .inr ⟨' ', _, by rw [Range.rhs, e]; simp only [List.cons_append]; rfl, by decide⟩⟩
    rw [Range.rhs, List.append_assoc, List.append_assoc]
    have e' : "\\}".toList = '\\' :: ['}'] := by decide +kernel
    rw [e'] at hbr' ⊢
    exact hin.txt (hbr.txt (hv.append (by decide) hbr'))
  | range i start last => exact ⟨txt_cons (by decide) (txt_number h.2.1), .inr ⟨'=', _, rfl, by decide⟩⟩
  | free i => exact ⟨Txt.nil, .inl rfl⟩

theorem txt_index {r : Range} (h : r.Good) : Txt r.index := by
  cases r with
  | fock i hs => exact (txt_iff i).mpr h.1
  | list i vals => exact (txt_iff i).mpr h.1
  | range i s l => exact (txt_iff i).mpr h.1
  | free i => exact (txt_iff i).mpr h

theorem txt_top {r : Range} (h : r.Good) : Txt r.top := by
  cases r with
  | range i s l => exact txt_number h.2.2
  | fock i hs => exact Txt.nil
  | list i vals => exact Txt.nil
  | free i => exact Txt.nil

/-- sum signs end with a space: every text can follow -/
def Sign (s : S) : Prop := ∀ t, Txt t → Txt (s ++ t)

theorem sign_sum {indices : List S} {rhs top : S} (h1 : ∀ i ∈ indices, Txt i) (h2 : Txt rhs ∧ (rhs = [] ∨ ∃ x t, rhs = x :: t ∧ x.isAlpha = false)) (h3 : Txt top) :
    Sign (sumSign indices rhs top) := by
  have hb : Txt (joinC indices ++ rhs) := by
    rcases h2.2 with h | ⟨x, t, h, hx⟩
    · rw [h, List.append_nil]; exact txt_joinC h1
    · have := h2.1
      rw [h] at this ⊢
      exact (txt_joinC h1).append hx this
  have hsum : Nuc "\\sum".toList := by
    have e : "\\sum".toList = '\\' :: "sum".toList := by decide +kernel
    rw [e]
    exact nuc_sym (by decide +kernel)
  have k := txt_scripts hsum hb h3
  have e : sumSign indices rhs top = "\\sum".toList ++ scripts (joinC indices ++ rhs) top ++ [' '] := by
    have e1 : "_{".toList = ['_', '{'] := by decide +kernel
    have e2 : "^{".toList = ['^', '{'] := by decide +kernel
    have e3 : "}".toList = ['}'] := by decide +kernel
    unfold sumSign scripts
    rw [e1, e2, e3]
    simp only [List.cons_append, List.nil_append, List.append_assoc]
  intro t ht
  rw [e, List.append_assoc]
  exact k.append (x := ' ') (by decide) (lit_space.txt ht)

theorem Sign.append {s s' : S} (h : Sign s) (h' : Sign s') : Sign (s ++ s') := fun t ht => by rw [List.append_assoc]; exact h _ (h' t ht)

theorem sign_loop {l : List Range} {indices : List S} {rhs top : S} (hl : ∀ r ∈ l, r.Good) (h1 : ∀ i ∈ indices, Txt i)
    (h2 : Txt rhs ∧ (rhs = [] ∨ ∃ x t, rhs = x :: t ∧ x.isAlpha = false)) (h3 : Txt top) : Sign (sumLoop indices rhs top l) := by
  induction l generalizing indices rhs top with
  | nil => exact sign_sum h1 h2 h3
  | cons r l ih =>
    have hr := hl r (by simp)
    have hl' := fun r hr => hl r (List.mem_cons_of_mem _ hr)
    rw [sumLoop]
    split
    · exact (sign_sum h1 h2 h3).append (ih hl' (by simpa using txt_index hr) (txt_rhs hr) (txt_top hr))
    · refine ih hl' (fun i hi => ?_) h2 h3
      rcases List.mem_append.mp hi with hi | hi
      · exact h1 i hi
      · rw [List.mem_singleton] at hi; rw [hi]; exact txt_index hr

theorem sign_sums {l : List Range} (hl : ∀ r ∈ l, r.Good) : Sign (sumSigns l) := by
  cases l with
  | nil => exact fun t ht => ht
  | cons r l =>
    have hr := hl r (by simp)
    exact sign_loop (fun r hr => hl r (List.mem_cons_of_mem _ hr)) (by simpa using txt_index hr) (txt_rhs hr) (txt_top hr)

theorem sumSign_head (ix : List S) (rhs top : S) : ∃ s, sumSign ix rhs top = '\\' :: s := by
  have e : "\\sum".toList = '\\' :: "sum".toList := by decide +kernel
  rw [sumSign, e]
  exact ⟨_, rfl⟩

theorem sumLoop_head (l : List Range) (ix : List S) (rhs top : S) : ∃ s, sumLoop ix rhs top l = '\\' :: s := by
  induction l generalizing ix rhs top with
  | nil => exact sumSign_head _ _ _
  | cons r l ih =>
    rw [sumLoop]
    split
    · obtain ⟨s, h⟩ := sumSign_head ix rhs top
      exact ⟨_, by rw [h]; rfl⟩
    · exact ih _ _ _

/-! ### the other constructions -/

theorem pt_of_char {c : Char} {s : S} (hc : c ≠ '-') (hc' : c ≠ ' ') (h : Txt (c :: s)) : PT (c :: s) := by
  refine PT.of_head h ?_
  rw [lstrip, List.dropWhile_cons, if_neg (by simpa using hc')]
  simpa using hc

theorem nuc_group {t : S} (h : Txt t) : Nuc ('{' :: t ++ ['}']) := by
  intro a ha
  obtain ⟨f, g, k⟩ := h (St.push (a.flags false false) false false) ⟨rfl, rfl, rfl⟩
  refine Go.cons (b := St.push (a.flags false false) false false) ?_ (k.append (by decide) (Go.cons (b := a.flags false false) ?_ (Go.refl ha.2.1)))
  all_goals
    obtain ⟨h1, h2, h3⟩ := ha
    cases a
    simp_all [St.flags, St.char, St.push, St.pop, St.step, St.atom]

theorem pt_sums {r : Range} {l : List Range} {t : S} (h : Txt (sumSigns (r :: l) ++ t)) : PT (sumSigns (r :: l) ++ t) := by
  obtain ⟨s, hs⟩ := sumLoop_head l [r.index] r.rhs r.top
  rw [sumSigns, hs] at h ⊢
  exact pt_of_char (by decide) (by decide) h

/-- a command as a superscript -/
theorem txt_supSym {t w : S} (ht : Nuc t) (hw : mathSyms.contains w = true) : Txt (t ++ '^' :: '{' :: ('\\' :: w) ++ ['}']) := by
  have := txt_scripts ht Txt.nil (nuc_sym hw).txt
  simpa [scripts] using this

theorem nuc_head {t s : S} {x : Char} {s' : S} (ht : Nuc t) (e : s = x :: s') (hx : x.isAlpha = false) (hs : Txt s) : Txt (t ++ s) := by
  subst e
  exact ht.txt.append hx hs

theorem parenTex_head (t : S) : ∃ s', parenTex t = '\\' :: s' := by
  have e : "\\left(".toList = '\\' :: "left(".toList := by decide +kernel
  rw [parenTex, e]
  exact ⟨_, rfl⟩

theorem bracketTex_head (t : S) : ∃ s', bracketTex t = '\\' :: s' := by
  have e : "\\left[".toList = '\\' :: "left[".toList := by decide +kernel
  rw [bracketTex, e]
  exact ⟨_, rfl⟩

theorem pt_litHead {lit u t : S} {x : Char} (e : lit = x :: u) (h1 : x ≠ '-') (h2 : x ≠ ' ') (hl : Lit lit) (h : Txt t) : PT (lit ++ t) := by
  subst e
  exact pt_of_char h1 h2 (hl.txt h)

theorem lit_cid : Lit "{\\rm cid}(".toList := ⟨fun a ha => by rw [ha.eq]; exact ⟨false, false, rfl⟩, by decide +kernel⟩

theorem pt_cid (n : ℕ) : PT (cidTex n) := by
  have e : "{\\rm cid}(".toList = '{' :: "\\rm cid}(".toList := by decide +kernel
  have hl := lit_cid
  have hd : Txt (Nat.toDigits 10 n ++ [')']) := by
    refine (nuc_plain (fun c hc => ?_) (by simp)).txt
    rcases List.mem_append.mp hc with hc | hc
    · exact tame_plain (alnum_tame (by simp [Char.isAlphanum, Nat.isDigit_of_mem_toDigits (by decide) (by decide) hc]))
    · rw [List.mem_singleton] at hc; rw [hc]; decide
  unfold cidTex
  generalize "{\\rm cid}(".toList = u at *
  rw [List.append_assoc]
  exact pt_litHead e (by decide) (by decide) hl hd

theorem pt_call {t : S} {args : Args} (ht : PT t) (ha : ∀ u ∈ args.plain, PT u) : PT (t ++ args.call) := by
  cases args with
  | nil => rw [Args.call, List.append_nil]; exact ht
  | cons p e l =>
    have hc : Lit ", ".toList := ⟨fun a ha => by rw [ha.eq]; exact ⟨_, _, rfl⟩, by decide⟩
    have hj : PT (joinWith ", ".toList (e.tex :: l.plain)) := pt_join ha hc rfl (by decide)
    have hp := pt_paren hj.1
    rw [Args.call]
    obtain ⟨s', hs⟩ := parenTex_head (joinWith ", ".toList (e.tex :: l.plain))
    rw [hs] at hp ⊢
    exact ht.append (by decide) hp

theorem pt_comm {d : Bool} {a b : S} (ha : PT a) (hb : PT b) :
    PT (bracketTex (a ++ ", ".toList ++ b) ++ (if d then "^{\\dagger}".toList else [])) := by
  have hc : Lit ", ".toList := ⟨fun a ha => by rw [ha.eq]; exact ⟨_, _, rfl⟩, by decide⟩
  have hin : Txt (a ++ ", ".toList ++ b) := (ha.lit hc rfl (by decide) hb).1
  generalize a ++ ", ".toList ++ b = t at hin ⊢
  have hn := nuc_bracket hin
  obtain ⟨s', hs⟩ := bracketTex_head t
  cases d
  · rw [if_neg (by simp), List.append_nil]
    exact pt_bracket hin
  · have e : "^{\\dagger}".toList = '^' :: '{' :: ('\\' :: "dagger".toList) ++ ['}'] := by decide +kernel
    have := txt_supSym hn (w := "dagger".toList) (by decide +kernel)
    rw [if_pos rfl, e]
    rw [hs] at this ⊢
    simp only [List.cons_append, List.append_assoc] at this ⊢
    exact pt_of_char (by decide) (by decide) this

theorem pt_sinv {t : S} (ht : PT t) : PT (bracketTex t ++ "^{\\rhd}".toList) := by
  obtain ⟨s', hs⟩ := bracketTex_head t
  have e : "^{\\rhd}".toList = '^' :: '{' :: ('\\' :: "rhd".toList) ++ ['}'] := by decide +kernel
  have := txt_supSym (nuc_bracket ht.1) (w := "rhd".toList) (by decide +kernel)
  rw [e]
  rw [hs] at this ⊢
  simp only [List.cons_append, List.append_assoc] at this ⊢
  exact pt_of_char (by decide) (by decide) this

theorem pt_adj {t : S} (ht : PT t) : PT (parenTex t ++ "^\\dagger".toList) := by
  obtain ⟨s', hs⟩ := parenTex_head t
  have hn := nuc_paren ht.1
  have e : "^\\dagger".toList = '^' :: "\\dagger".toList := by decide +kernel
  have k : Txt (parenTex t ++ "^\\dagger".toList) := by
    intro a ha
    have k1 := hn a ha
    have k2 : Go (a.flags false false) (a.flags true false) "^\\dagger".toList := by
      refine go_of_run (m := _) (by rw [ha.eq]; rfl) ?_ ?_ ha.2.1
      · rw [ha.eq]; rfl
      · simp
    rw [e] at k2 ⊢
    exact ⟨true, false, k1.append (by decide) k2⟩
  rw [hs, List.cons_append] at k ⊢
  exact pt_of_char (by decide) (by decide) k

theorem pt_pinv {t : S} (ht : PT t) : PT (parenTex t ++ "^+".toList) := by
  obtain ⟨s', hs⟩ := parenTex_head t
  have hn := nuc_paren ht.1
  have e : "^+".toList = '^' :: ['+'] := by decide +kernel
  have k : Txt (parenTex t ++ "^+".toList) := by
    intro a ha
    have k1 := hn a ha
    have k2 : Go (a.flags false false) (a.flags true false) ['^', '+'] := by
      refine go_of_run (m := a.flags true false) (by rw [ha.eq]; rfl) ?_ ?_ ha.2.1
      · rw [ha.eq]; rfl
      · rw [ha.eq]; exact nofun
    rw [e]
    exact ⟨true, false, k1.append (by decide) k2⟩
  rw [hs, List.cons_append] at k ⊢
  exact pt_of_char (by decide) (by decide) k

theorem pt_trace {hs : List S} {t : S} (h : ∀ l ∈ hs, GoodLabel l) (ht : PT t) :
    PT ("{\\rm tr}".toList ++ ('_' :: '{' :: hsLabel hs ++ ['}']) ++ bracketTex t) := by
  have e : "{\\rm tr}".toList = '{' :: "\\rm tr}".toList := by decide +kernel
  obtain ⟨s', hs'⟩ := bracketTex_head t
  have hb := (nuc_bracket ht.1).txt
  have k : Txt ("{\\rm tr}".toList ++ ('_' :: '{' :: hsLabel hs ++ ['}']) ++ bracketTex t) := by
    intro a ha
    have k1 : a.run "{\\rm tr}".toList = some (a.flags false false) := by rw [ha.eq]; rfl
    have k2 := go_sub (ha.flags false false) rfl (txt_hsLabel h)
    obtain ⟨f, g, k3⟩ := hb (a.flags false true) (ha.flags _ _)
    rw [hs'] at k3 ⊢
    refine ⟨f, g, ?_⟩
    rw [List.append_assoc]
    exact Go.pre k1 (k2.append (by decide) k3)
  rw [e, List.append_assoc, List.cons_append] at k ⊢
  exact pt_of_char (by decide) (by decide) k

theorem pt_feedback {o i t : S} (ho : number o) (hi : number i) (ht : PT t) :
    PT ("\\left\\lfloor".toList ++ ('{' :: t ++ ['}']) ++ "\\right\\rfloor".toList ++ ('_' :: '{' :: (o ++ "\\rightarrow{}".toList ++ i) ++ ['}'])) := by
  have hsub : Txt (o ++ "\\rightarrow{}".toList ++ i) := by
    have hl : Lit "\\rightarrow{}".toList := ⟨fun a ha => by rw [ha.eq]; exact ⟨false, false, rfl⟩, by decide +kernel⟩
    have e : "\\rightarrow{}".toList = '\\' :: "rightarrow{}".toList := by decide +kernel
    have := hl.txt (txt_number hi)
    rw [e] at this ⊢
    rw [List.append_assoc]
    exact (txt_number ho).append (by decide) this
  generalize o ++ "\\rightarrow{}".toList ++ i = sub at hsub ⊢
  have e : "\\left\\lfloor".toList = '\\' :: "left\\lfloor".toList := by decide +kernel
  have e' : "\\right\\rfloor".toList = '\\' :: "right\\rfloor".toList := by decide +kernel
  have k : Txt ("\\left\\lfloor".toList ++ ('{' :: t ++ ['}']) ++ "\\right\\rfloor".toList ++ ('_' :: '{' :: sub ++ ['}'])) := by
    intro a ha
    have k1 : Go a (St.push (a.flags false false) true false) "\\left\\lfloor".toList := by
      refine go_of_run (m := _) (by rw [ha.eq]; rfl) ?_ ?_ rfl
      · rw [ha.eq]; rfl
      · simp
    have k2 := nuc_group ht.1 (St.push (a.flags false false) true false) ⟨rfl, rfl, rfl⟩
    have k3 : Go ((St.push (a.flags false false) true false).flags false false) (a.flags false false) "\\right\\rfloor".toList := by
      refine go_of_run (m := _) (by rw [ha.eq]; rfl) ?_ ?_ ha.2.1
      · rw [ha.eq]; rfl
      · simp
    have k4 := go_sub (ha.flags false false) rfl hsub
    rw [e'] at k3 ⊢
    exact ⟨_, _, ((k1.append (by decide) k2).append (by decide) k3).append (by decide) k4⟩
  rw [e, List.append_assoc, List.append_assoc, List.cons_append] at k ⊢
  exact pt_of_char (by decide) (by decide) k

theorem pt_spre {post : Bool} {t : S} (ht : PT t) : PT ((if post then "\\mathrm{SPost}".toList else "\\mathrm{SPre}".toList) ++ parenTex t) := by
  obtain ⟨s', hs⟩ := parenTex_head t
  have hp := (nuc_paren ht.1).txt
  have key : ∀ w : S, (∀ c ∈ w, plain c = true) → w ≠ [] → PT (('\\' :: "mathrm".toList ++ '{' :: (w ++ ['}'])) ++ parenTex t) := by
    intro w hw hn
    have k := nuc_mathMac (w := "mathrm".toList) (by decide +kernel) (nuc_plain hw hn).txt
    have k := nuc_head k hs (by decide) hp
    simp only [List.cons_append] at k ⊢
    exact pt_of_char (by decide) (by decide) k
  cases post
  · have e : "\\mathrm{SPre}".toList = '\\' :: "mathrm".toList ++ '{' :: ("SPre".toList ++ ['}']) := by decide +kernel
    rw [if_neg (by simp), e]
    exact key _ (by decide +kernel) (by decide +kernel)
  · have e : "\\mathrm{SPost}".toList = '\\' :: "mathrm".toList ++ '{' :: ("SPost".toList ++ ['}']) := by decide +kernel
    rw [if_pos rfl, e]
    exact key _ (by decide +kernel) (by decide +kernel)

theorem pt_component {label : S} (h : GoodLabel label) : PT ('{' :: ("\\rm ".toList ++ renderStr label) ++ ['}']) := by
  have hl : Lit "\\rm ".toList := ⟨fun a ha => by rw [ha.eq]; exact ⟨false, false, rfl⟩, by decide +kernel⟩
  exact pt_of_char (by decide) (by decide) (nuc_group (hl.txt (txt_label h))).txt

theorem pt_plusCC {m : Bool} {t : S} (ht : PT t) : PT (t ++ (if m then " - ".toList else " + ".toList) ++ "c.c.".toList) := by
  have hc : Txt "c.c.".toList := (nuc_plain (by decide +kernel) (by decide +kernel)).txt
  have e1 : " - ".toList ++ "c.c.".toList = [' ', '-', ' '] ++ "c.c.".toList := by decide +kernel
  have e2 : " + ".toList ++ "c.c.".toList = [' ', '+', ' '] ++ "c.c.".toList := by decide +kernel
  have k := pt_termTail (l := [(if m then '-' else '+', "c.c.".toList)]) (by
    intro p hp
    rw [List.mem_singleton] at hp
    rw [hp]
    refine ⟨?_, hc⟩
    cases m
    · exact .inl rfl
    · exact .inr rfl)
  rw [List.append_assoc]
  simp only [List.flatMap_cons, List.flatMap_nil, List.append_nil] at k
  cases m
  · rw [if_neg (by simp), e2]; exact ht.append (by decide) k
  · rw [if_pos rfl, e1]; exact ht.append (by decide) k

theorem tex_pinv (p : Bool) (e : Ex) : (Ex.pinv p e).tex = parenIf p e.tex ++ "^+".toList := by rw [Ex.tex.eq_def]
theorem tex_plusCC (m p : Bool) (e : Ex) : (Ex.plusCC m p e).tex = parenIf p e.tex ++ (if m then " - ".toList else " + ".toList) ++ "c.c.".toList := by rw [Ex.tex.eq_def]
theorem tex_apply (pa pb adjoint : Bool) (a b : Ex) : (Ex.apply pa pb adjoint a b).tex =
    if adjoint then parenIf pb b.tex ++ " ".toList ++ parenIf pa a.tex else parenIf pa a.tex ++ " ".toList ++ parenIf pb b.tex := by rw [Ex.tex.eq_def]
theorem tex_sopTimes (p : Bool) (a b : Ex) : (Ex.sopTimes p a b).tex = parenIf p a.tex ++ bracketTex b.tex := by rw [Ex.tex.eq_def]
theorem tex_comm (d : Bool) (a b : Ex) : (Ex.comm d a b).tex = bracketTex (a.tex ++ ", ".toList ++ b.tex) ++ (if d then "^{\\dagger}".toList else []) := by rw [Ex.tex.eq_def]
theorem tex_sum (rs p e) : (Ex.sum rs p e).tex =  sumSigns rs ++ parenIf p e.tex := by rw [Ex.tex.eq_def]
theorem tex_sinv (e) : (Ex.sinv e).tex =  bracketTex e.tex ++ "^{\\rhd}".toList := by rw [Ex.tex.eq_def]

mutual
theorem Ex.pt : (e : Ex) → e.Good → PT e.tex
  | .atom t, h => ⟨(txt_iff t).mpr h.1, fun u hu => (txt_iff u).mpr (h.2 u hu)⟩
  | .call name args, h => pt_call ⟨(txt_iff name).mpr h.1.1, fun u hu => (txt_iff u).mpr (h.1.2 u hu)⟩ (args.pt h.2).2.2.1
  | .plus l, h => pt_joinTerms fun p hp => (l.pt h).2.1 p hp
  | .times l, h => pt_join (l.pt h).1 lit_space rfl (by decide)
  | .tensor l, h => pt_join (x := ' ') (sep' := "\\otimes ".toList) (l.pt h).1 ⟨fun a ha => by rw [ha.eq]; exact ⟨false, false, rfl⟩, by decide +kernel⟩ (by decide +kernel) (by decide)
  | .scale m pc pt c t, h => pt_scale (c.pt h.1) (t.pt h.2)
  | .comm d a b, h => pt_comm (a.pt h.1) (b.pt h.2)
  | .trace hs e, h => pt_trace h.1 (e.pt h.2)
  | .adj e, h => pt_adj (e.pt h)
  | .plusCC m p e, h => by
    rw [tex_plusCC]
    exact pt_plusCC (pt_parenIf (e.pt h))
  | .pinv p e, h => by
    rw [tex_pinv, h.1]
    exact pt_pinv (e.pt h.2)
  | .apply pa pb adjoint a b, h => by
    have k1 := (pt_parenIf (b := pa) (a.pt h.1)).lit lit_space rfl (by decide) (pt_parenIf (b := pb) (b.pt h.2))
    have k2 := (pt_parenIf (b := pb) (b.pt h.2)).lit lit_space rfl (by decide) (pt_parenIf (b := pa) (a.pt h.1))
    rw [tex_apply]
    split
    · exact k2
    · exact k1
  | .sopTimes p a b, h => by
    have k1 := pt_parenIf (b := p) (a.pt h.1)
    have k2 := pt_bracket (b.pt h.2).1
    obtain ⟨s', hs⟩ := bracketTex_head b.tex
    rw [tex_sopTimes]
    rw [hs] at k2 ⊢
    exact k1.append (by decide) k2
  | .spre post e, h => pt_spre (e.pt h)
  | .sum rs p e, h => by
    have k := pt_parenIf (b := p) (e.pt h.2)
    have k1 := sign_sums h.1 _ k.1
    cases rs with
    | nil => exact k
    | cons r l => exact pt_sums k1
  | .cid, _ => pt_cid 1
  | .component label args, h => pt_call (pt_component h.1) (args.pt h.2).2.2.1
  | .series l, h => pt_join (x := ' ') (sep' := "\\lhd ".toList) (l.pt h).1 ⟨fun a ha => by rw [ha.eq]; exact ⟨false, false, rfl⟩, by decide +kernel⟩ (by decide +kernel) (by decide)
  | .concat l, h => pt_join (x := ' ') (sep' := "\\boxplus ".toList) ((l.pt h).2.2.2 0) ⟨fun a ha => by rw [ha.eq]; exact ⟨false, false, rfl⟩, by decide +kernel⟩ (by decide +kernel) (by decide)
  | .feedback o i e, h => pt_feedback h.1 h.2.1 (e.pt h.2.2)
  | .sinv e, h => pt_sinv (e.pt h)
theorem Args.pt : (l : Args) → l.Good → (∀ t ∈ l.texts, PT t) ∧ (∀ p ∈ l.terms, (p.1 = '+' ∨ p.1 = '-') ∧ Txt p.2 ∧ (p.1 = '+' → PT p.2)) ∧
    (∀ t ∈ l.plain, PT t) ∧ ∀ n, ∀ t ∈ l.parts n, PT t
  | .nil, _ => ⟨nofun, nofun, nofun, fun n t ht => by
    rw [Args.parts] at ht
    split at ht
    · exact nomatch ht
    · rw [List.mem_singleton] at ht; rw [ht]; exact pt_cid n⟩
  | .cons p e l, h => by
    have he := e.pt h.1
    obtain ⟨h1, h2, h3, h4⟩ := l.pt h.2
    refine ⟨fun t ht => ?_, fun q hq => ?_, fun t ht => ?_, fun n t ht => ?_⟩
    · rcases List.mem_cons.mp ht with rfl | ht
      · exact pt_parenIf he
      · exact h1 t ht
    · rcases List.mem_cons.mp hq with rfl | hq
      · exact signed_spec he
      · exact h2 q hq
    · rcases List.mem_cons.mp ht with rfl | ht
      · exact he
      · exact h3 t ht
    · rw [Args.parts] at ht
      split at ht
      · exact h4 _ t ht
      · rcases List.mem_append.mp ht with ht | ht
        · split at ht
          · exact nomatch ht
          · rw [List.mem_singleton] at ht; rw [ht]; exact pt_cid n
        · rcases List.mem_cons.mp ht with rfl | ht
          · split
            · exact pt_paren he.1
            · exact pt_parenIf he
          · exact h4 _ t ht
end

/-- **C104** the LaTeX of an expression is complete: every command is known and has its arguments, all groups and delimiters match, no symbol has two scripts of the
same kind; it can be put after any symbol -/
theorem C104_valid_partial {e : Ex} (h : e.Good) : valid e.tex = true ∧ whole e.tex = true :=
  ⟨(e.pt h).1.valid, (txt_iff _).mp (e.pt h).1⟩

/-- every printed expression is again a text that can stand for a symbol (so the theorem can be used again for parts that QNET prints itself) -/
theorem goodAtom_tex {e : Ex} (h : e.Good) (hm : ∀ u, lstrip e.tex = '-' :: u → whole u = true) : goodAtom e.tex :=
  ⟨(C104_valid_partial h).2, hm⟩

/-! ### what is not complete -/

/-- **C104** refuted: the pseudo-inverse of an operator symbol has no parentheses, so the symbol has two superscripts -/
theorem C104_refuted_pinv : ∃ e : Ex, e.Good ∧ (Ex.pinv false e).tex = "\\hat{A}^{(q)}^+".toList ∧ valid (Ex.pinv false e).tex = false := by
  refine ⟨.atom "\\hat{A}^{(q)}".toList, ?_, by decide +kernel, by decide +kernel⟩
  exact ⟨by decide +kernel, fun u hu => by rw [show lstrip "\\hat{A}^{(q)}".toList = '\\' :: "hat{A}^{(q)}".toList by decide +kernel] at hu; exact absurd (List.cons.inj hu).1 (by decide)⟩

/-- two scripts of the same kind are not complete, no matter what they are -/
example : whole "^{2}".toList = false ∧ whole "\\hat{A}^{(q)}^+".toList = false ∧ whole "a +".toList = true ∧ whole "\\left( a".toList = false ∧ whole "a)".toList = true := by
  decide +kernel

/-! ### examples -/

/-- a text that is complete and does not begin with a minus sign is good -/
theorem goodAtom_of {t : S} (h : whole t = true) (hm : (lstrip t).head? ≠ some '-') : goodAtom t :=
  ⟨h, fun u hu => absurd (by rw [hu]; rfl) hm⟩

/-- `Commutator(A, Adjoint(B))`, traced out -/
def exTrace : Ex := .trace ["q_1".toList, "q_2".toList] (.comm false (.atom "\\hat{A}_{1}^{(q)}".toList) (.adj (.plus (.cons false (.atom "\\hat{B}^{(q)}".toList)
  (.cons false (.scale true false false (.atom "-1".toList) (.atom "\\hat{C}^{(q)\\dagger}".toList)) .nil)))))
example : exTrace.Good ∧ exTrace.tex =
    "{\\rm tr}_{q_{1} \\otimes q_{2}}\\left[\\left[\\hat{A}_{1}^{(q)}, \\left(\\hat{B}^{(q)} - \\hat{C}^{(q)\\dagger}\\right)^\\dagger\\right]\\right]".toList := by
  refine ⟨⟨by unfold GoodLabel; decide +kernel, goodAtom_of (by decide +kernel) (by decide +kernel), goodAtom_of (by decide +kernel) (by decide +kernel),
    ⟨⟨by decide +kernel, fun u hu => ?_⟩, goodAtom_of (by decide +kernel) (by decide +kernel)⟩, trivial⟩, by decide +kernel⟩
  rw [show lstrip "-1".toList = ['-', '1'] by decide +kernel] at hu
  rw [← (List.cons.inj hu).2]
  decide +kernel

/-- a sum over three indices, the first two over the same space -/
def exSum : Ex := .sum [.fock "i".toList ["q".toList], .fock "j".toList ["q".toList], .range "k".toList "0".toList "-3".toList] true
  (.plus (.cons false (.atom "\\left\\lvert i \\right\\rangle^{(q)}".toList) (.cons false (.scale false true false (.atom "1 + a".toList) (.atom "\\hat{A}^{(q)}".toList)) .nil)))
example : exSum.Good ∧ exSum.tex = ("\\sum_{i,j \\in \\mathcal{H}_{q}} \\sum_{k=0}^{-3} " ++
    "\\left(\\left\\lvert i \\right\\rangle^{(q)} + \\left(1 + a\\right) \\hat{A}^{(q)}\\right)").toList := by
  refine ⟨⟨?_, goodAtom_of (by decide +kernel) (by decide +kernel), ⟨goodAtom_of (by decide +kernel) (by decide +kernel), goodAtom_of (by decide +kernel) (by decide +kernel)⟩,
    trivial⟩, by decide +kernel⟩
  intro r hr
  rcases List.mem_cons.mp hr with rfl | hr
  · exact ⟨by decide +kernel, by unfold GoodLabel; decide +kernel⟩
  · rcases List.mem_cons.mp hr with rfl | hr
    · exact ⟨by decide +kernel, by unfold GoodLabel; decide +kernel⟩
    · rw [List.mem_singleton] at hr
      rw [hr]
      exact ⟨by decide +kernel, by unfold number; decide +kernel, by unfold number; decide +kernel⟩

/-- a circuit -/
def exCircuit : Ex := .feedback "1".toList "0".toList (.concat (.cons false .cid (.cons false .cid (.cons false
  (.series (.cons false (.component "A_1".toList (.cons false (.atom "\\alpha".toList) .nil)) (.cons false (.sinv (.atom "B".toList)) .nil))) (.cons false .cid .nil)))))
example : exCircuit.Good ∧ exCircuit.tex = ("\\left\\lfloor{{\\rm cid}(2) \\boxplus \\left({\\rm A_{1}}\\left(\\alpha\\right) \\lhd \\left[B\\right]^{\\rhd}\\right) " ++
    "\\boxplus {\\rm cid}(1)}\\right\\rfloor_{1\\rightarrow{}0}").toList :=
  ⟨⟨by unfold number; decide +kernel, by unfold number; decide +kernel, trivial, trivial, ⟨⟨by unfold GoodLabel; decide +kernel,
    goodAtom_of (by decide +kernel) (by decide +kernel), trivial⟩, goodAtom_of (by decide +kernel) (by decide +kernel), trivial⟩, trivial, trivial⟩, by decide +kernel⟩

end QNET.Latex
