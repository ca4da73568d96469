import Verif.SympyPrint.LatexThm

/-!
# C103: LaTeX texts are well-formed
-/

namespace QNET.Latex

/-! ### specification -/

/-- labels of symbols, spaces and states: letters, digits, `_ + , - . / : ; < =` and parentheses, not empty, and not beginning with an underscore.
All labels that are accepted by `_rx_label` of `QuantumSymbol`, `KetSymbol`, `CircuitSymbol`, `LocalSpace` are of this form -/
def GoodLabel (s : S) : Prop := s ≠ [] ∧ s.head? ≠ some '_' ∧ ∀ c ∈ s, tame c = true ∨ c = '_'

/-- words with a symbol that is not among the single letters -/
def badWords : List S := others ++ ["varkappa".toList, "varpi".toList, "varsigma".toList]

/-- names of operators (the part of the identifier before the underscore) that are printed correctly: letters and digits, but not letters followed by digits; no
word for a symbol that the printer does not count as a letter -/
def GoodName (n : S) : Prop :=
  n ≠ [] ∧ (∀ c ∈ n, c.isAlphanum = true) ∧ withDigits n = false ∧ n ∉ badWords ∧ (n.map Char.toLower = "omicron".toList → n = "omicron".toList ∨ n = "Omicron".toList)

/-- the identifier with and without a subscript -/
def identifier (n : S) (sub : Option S) : S :=
  match sub with
  | none => n
  | some s => n ++ '_' :: s

/-! ### proofs -/

theorem noMark_tame {s : S} (hs : ∀ c ∈ s, tame c = true ∨ c = '_') {c : Char} (h : noMark c = true) (hc : c ∈ s) : tame c = true := by
  rcases hs c hc with h' | rfl
  · exact h'
  · exact absurd h (by decide)

/-- name, super- and subscripts of a label -/
theorem split_good {s : S} (h : GoodLabel s) : (splitSuperSub s).1 ≠ [] ∧ (∀ c ∈ (splitSuperSub s).1, tame c = true) ∧
    (∀ q ∈ (splitSuperSub s).2.1, ∀ c ∈ q, tame c = true) ∧ ∀ q ∈ (splitSuperSub s).2.2, ∀ c ∈ q, tame c = true := by
  obtain ⟨h0, h1, h2⟩ := h
  cases s with
  | nil => exact absurd rfl h0
  | cons x s =>
    have hx : x ≠ '_' := by simpa using h1
    have hp : parts (x :: s).length (x :: s) = (cutPart (x :: s)).1 :: parts s.length (cutPart (x :: s)).2 := rfl
    have hc : cutPart (x :: s) = (x :: s.takeWhile noMark, s.dropWhile noMark) := by
      rcases cutPart_cases x s with ⟨s', e, _⟩ | h
      · simp only [List.cons.injEq] at e; exact absurd e.1 hx
      · exact h
    have hname : ∀ c ∈ x :: s.takeWhile noMark, tame c = true := by
      intro c hc
      rcases List.mem_cons.mp hc with rfl | hc
      · rcases h2 c (by simp) with h | h
        · exact h
        · exact absurd h hx
      · obtain ⟨k1, k2⟩ := takeWhile_mem hc
        exact noMark_tame h2 k1 (by simp [k2])
    have hscr : ∀ q, q ∈ supersOf (parts s.length (s.dropWhile noMark)) ∨ q ∈ subsOf (parts s.length (s.dropWhile noMark)) → ∀ c ∈ q, tame c = true := by
      intro q hq c hc
      obtain ⟨k1, k2⟩ := parts_scripts _ _ q hq c hc
      exact noMark_tame h2 k1 (List.mem_cons_of_mem _ (dropWhile_mem k2))
    rw [splitSuperSub, hp, hc]
    simp only [List.headD_cons, List.tail_cons]
    by_cases hd : withDigits (x :: s.takeWhile noMark) = true
    · simp only [hd, if_true]
      rw [withDigits, Bool.and_eq_true, Bool.and_eq_true, bne_iff_ne, bne_iff_ne] at hd
      refine ⟨hd.1.1, fun c hc => hname c (takeWhile_mem hc).2, fun q hq => hscr q (.inl hq), fun q hq => ?_⟩
      rcases List.mem_cons.mp hq with rfl | hq
      · exact fun c hc => hname c (dropWhile_mem hc)
      · exact hscr q (.inr hq)
    · simp only [hd]
      exact ⟨by simp, hname, fun q hq => hscr q (.inl hq), fun q hq => hscr q (.inr hq)⟩

theorem txt_label {s : S} (h : GoodLabel s) : Txt (renderStr s) := by
  obtain ⟨h1, h2, h3, h4⟩ := split_good h
  rw [renderStr, if_neg h.1]
  exact txt_renderLatex (nuc_tr (fun c hc => tame_plain (h2 c hc)) h1) (fun q hq => txt_tr fun c hc => tame_plain (h4 q hq c hc))
    fun q hq => txt_tr fun c hc => tame_plain (h3 q hq c hc)

/-- `Go` for a concrete text, by computation -/
theorem go_of_run {a b m : St} {s : S} (h1 : a.run s = some m) (h2 : m.flush = some b) (h3 : m.word ≠ some []) (h4 : b.word = none) : Go a b s :=
  ⟨m, h1, h2, h3, h4⟩

theorem Math.eq {a : St} (h : Math a) : a = ⟨a.stack, ⟨a.cur.left, false, a.cur.sup, a.cur.sub⟩, .no, none⟩ := by
  obtain ⟨h1, h2, h3⟩ := h
  cases a with
  | mk st cur p w =>
    cases cur
    simp_all

theorem txt_otimes {s : S} (h : Txt s) : Txt (" \\otimes ".toList ++ s) := by
  intro a ha
  rw [ha.eq]
  obtain ⟨f, g, h⟩ := h ⟨a.stack, ⟨a.cur.left, false, false, false⟩, .no, none⟩ ⟨rfl, rfl, rfl⟩
  refine ⟨f, g, ?_⟩
  obtain ⟨m, k1, k2, k3, k4⟩ := h
  refine ⟨m, ?_, k2, k3, k4⟩
  rw [run_append, ← k1]
  rfl

theorem txt_hsLabel {ls : List S} (h : ∀ l ∈ ls, GoodLabel l) : Txt (hsLabel ls) := by
  induction ls with
  | nil => exact Txt.nil
  | cons l ls ih =>
    cases ls with
    | nil => exact txt_label (h l (by simp))
    | cons m ls =>
      rw [hsLabel, List.append_assoc]
      · exact (txt_label (h l (by simp))).append (x := ' ') (by decide) (txt_otimes (ih fun l hl => h l (by simp [hl])))
      · simp

theorem txt_inParens {s : S} (h : Txt s) : Txt (inParens s) := by
  intro a ha
  obtain ⟨f, g, h⟩ := h _ (ha.flags false false)
  have h1 := plain_step (c := '(') (by decide) ha.1 ha.2.1
  have h2 := plain_step (a := a.flags f g) (c := ')') (by decide) ha.1 ha.2.1
  rw [ha.atom] at h1
  rw [(ha.flags f g).atom, flags_flags] at h2
  exact ⟨false, false, Go.cons h1 (h.append (by decide) (Go.cons h2 (Go.refl ha.2.1)))⟩

/-- a text of math mode is complete -/
theorem Txt.valid {s : S} (h : Txt s) : valid s = true := by
  obtain ⟨f, g, m, h1, h2, _⟩ := h start ⟨rfl, rfl, rfl⟩
  rw [Latex.valid, h1]
  show (match m.flush with
    | some s => s.stack.isEmpty && decide (s.pend = .no)
    | none => false) = true
  rw [h2]
  rfl

/-- **C103** labels are complete LaTeX -/
theorem C103_label {s : S} (h : GoodLabel s) : valid (renderStr s) = true := (txt_label h).valid

/-- **C103** labels of spaces are complete LaTeX -/
theorem C103_space {ls : List S} (h : ∀ l ∈ ls, GoodLabel l) : valid (hsLabel ls) = true := (txt_hsLabel h).valid

/-! #### states -/

theorem txt_hsScript {a : St} {sh : ShowHs} {h : S} (ha : Math a) (hf : a.cur.sup = false) (hg : a.cur.sub = false) (hh : Txt h) :
    ∃ f g, Go a (a.flags f g) (hsScript sh h) := by
  have key := txt_inParens hh
  cases sh with
  | no => exact ⟨_, _, Go.refl ha.2.1⟩
  | sup =>
    have := go_scripts ha hf hg Txt.nil key
    simp only [scripts, if_true, List.nil_append, if_neg (show inParens h ≠ [] by simp [inParens])] at this
    exact ⟨_, _, this⟩
  | sub =>
    have := go_scripts ha hf hg key Txt.nil
    simp only [scripts, if_true, List.append_nil, if_neg (show inParens h ≠ [] by simp [inParens])] at this
    exact ⟨_, _, this⟩

/-- the space label after a delimiter, or nothing -/
theorem go_hsScript {a b : St} {sh : ShowHs} {h t : S} (hb : Math b) (hf : b.cur.sup = false) (hg : b.cur.sub = false) (hh : Txt h) (ht : Go a b t) :
    ∃ f g, Go a (b.flags f g) (t ++ hsScript sh h) := by
  obtain ⟨f, g, h1⟩ := txt_hsScript (sh := sh) hb hf hg hh
  cases sh with
  | no =>
    refine ⟨b.cur.sup, b.cur.sub, ?_⟩
    rw [flags_self, hsScript, List.append_nil]
    exact ht
  | sup => exact ⟨f, g, ht.append (by decide) h1⟩
  | sub => exact ⟨f, g, ht.append (by decide) h1⟩

/-- `pre label post` where `pre` begins a group and `post` ends it -/
theorem go_between {a b c : St} {pre label post : S} {x : Char} {post' : S} (hx : post = x :: post') (hx' : x.isAlpha = false)
    (hb : Math b) (h1 : a.run pre = some b) (hl : Txt label) (h2 : ∀ f g, Go (b.flags f g) c post) : Go a c (pre ++ label ++ post) := by
  obtain ⟨f, g, h⟩ := hl b hb
  subst hx
  obtain ⟨m, k1, k2, k3, k4⟩ := h.append hx' (h2 f g)
  refine ⟨m, ?_, k2, k3, k4⟩
  rw [List.append_assoc, run_append, h1]
  exact k1

theorem txt_ket {sh : ShowHs} {label h : S} (hl : Txt label) (hh : Txt h) : Txt (ketFmt sh label h) := by
  intro a ha
  obtain ⟨f, g, k⟩ := go_hsScript (sh := sh) (ha.flags false false) rfl rfl hh (go_between (a := a) (b := St.push (a.flags false false) true false) rfl (by decide) ⟨rfl, rfl, rfl⟩
    (pre := "\\left\\lvert ".toList) (post := " \\right\\rangle".toList) (by rw [ha.eq]; rfl) hl fun f g => by
      refine go_of_run (m := _) (by rw [ha.eq]; rfl) ?_ ?_ ha.2.1
      · rw [ha.eq]; rfl
      · simp)
  exact ⟨f, g, k⟩

theorem txt_bra {sh : ShowHs} {label h : S} (hl : Txt label) (hh : Txt h) : Txt (braFmt sh label h) := by
  intro a ha
  obtain ⟨f, g, k⟩ := go_hsScript (sh := if sh = .sub then .sup else sh) (ha.flags false false) rfl rfl hh (go_between (a := a) (b := St.push (a.flags false false) true false) rfl (by decide) ⟨rfl, rfl, rfl⟩
    (pre := "\\left\\langle ".toList) (post := " \\right\\rvert".toList) (by rw [ha.eq]; rfl) hl fun f g => by
      refine go_of_run (m := _) (by rw [ha.eq]; rfl) ?_ ?_ ha.2.1
      · rw [ha.eq]; rfl
      · simp)
  exact ⟨f, g, k⟩

theorem Go.pre {a b c : St} {s t : S} (h : a.run s = some b) (hg : Go b c t) : Go a c (s ++ t) := by
  obtain ⟨m, k1, k2⟩ := hg
  exact ⟨m, by rw [run_append, h]; exact k1, k2⟩

/-- two labels between three delimiters -/
theorem go_two {a b c : St} {pre i mid mid' j post post' : S} {x : Char} (hm : mid = ' ' :: mid') (hx : post = ' ' :: post')
    (hb : Math b) (h1 : a.run pre = some b) (hi : Txt i) (hj : Txt j) (h2 : ∀ f g, (b.flags f g).run mid = some (b.flags false false))
    (h3 : ∀ f g, Go (b.flags f g) c post) : Go a c (pre ++ i ++ mid ++ j ++ post) := by
  obtain ⟨f, g, hi⟩ := hi b hb
  obtain ⟨f', g', hj⟩ := hj _ (hb.flags false false)
  rw [flags_flags] at hj
  have k3 : Go (b.flags false false) c (j ++ post) := by
    have := h3 f' g'
    rw [hx] at this ⊢
    exact hj.append (by decide) this
  have k2 : Go (b.flags f g) c (mid ++ (j ++ post)) := Go.pre (h2 f g) k3
  rw [hm, List.cons_append] at k2
  have k1 := hi.append (x := ' ') (by decide) k2
  have := Go.pre h1 k1
  rw [hm]
  simpa [List.append_assoc] using this

theorem txt_ketBra {sh : ShowHs} {i j h : S} (hi : Txt i) (hj : Txt j) (hh : Txt h) : Txt (ketBraFmt sh i j h) := by
  intro a ha
  obtain ⟨f, g, k⟩ := go_hsScript (sh := sh) (ha.flags false false) rfl rfl hh (go_two (x := ' ') (a := a) (b := St.push (a.flags false false) true false) rfl rfl ⟨rfl, rfl, rfl⟩
    (pre := "\\left\\lvert ".toList) (mid := " \\middle\\rangle\\!\\middle\\langle ".toList) (post := " \\right\\rvert".toList) (by rw [ha.eq]; rfl) hi hj (fun f g => rfl) fun f g => by
      refine go_of_run (m := _) (by rw [ha.eq]; rfl) ?_ ?_ ha.2.1
      · rw [ha.eq]; rfl
      · simp)
  exact ⟨f, g, k⟩

theorem txt_braKet {sh : ShowHs} {i j h : S} (hi : Txt i) (hj : Txt j) (hh : Txt h) : Txt (braKetFmt sh i j h) := by
  intro a ha
  obtain ⟨f, g, k⟩ := go_hsScript (sh := sh) (ha.flags false false) rfl rfl hh (go_two (x := ' ') (a := a) (b := St.push (a.flags false false) true false) rfl rfl ⟨rfl, rfl, rfl⟩
    (pre := "\\left\\langle ".toList) (mid := " \\middle\\vert ".toList) (post := " \\right\\rangle".toList) (by rw [ha.eq]; rfl) hi hj (fun f g => rfl) fun f g => by
      refine go_of_run (m := _) (by rw [ha.eq]; rfl) ?_ ?_ ha.2.1
      · rw [ha.eq]; rfl
      · simp)
  exact ⟨f, g, k⟩

theorem txt_hs_after {sh : ShowHs} {t h : S} (ht : Nuc t) (hh : Txt h) : Txt (t ++ hsScript sh h) := by
  intro a ha
  obtain ⟨f, g, k⟩ := go_hsScript (sh := sh) (b := a.flags false false) (ha.flags false false) rfl rfl hh (ht a ha)
  exact ⟨f, g, k⟩

theorem txt_statePkg {bra : Bool} {sh : ShowHs} {label h : S} (hl : Txt label) (hh : Txt h) : Txt (statePkg bra sh label h) := by
  have := nuc_mathMac (w := if bra then "Bra".toList else "Ket".toList) (s := label) (by cases bra <;> decide) hl
  refine txt_hs_after ?_ hh
  cases bra
  · exact this
  · exact this

theorem txt_bar {s : S} (h : Txt s) : Txt (" | ".toList ++ s) := by
  intro a ha
  rw [ha.eq]
  obtain ⟨f, g, h⟩ := h ⟨a.stack, ⟨a.cur.left, false, false, false⟩, .no, none⟩ ⟨rfl, rfl, rfl⟩
  exact ⟨f, g, Go.pre rfl h⟩

theorem braKetPkg_no (i j h : S) : braKetPkg .no i j h = "\\Braket{".toList ++ i ++ " | ".toList ++ j ++ ['}'] ++ [] := by
  unfold braKetPkg
  with_reducible rfl

theorem braket_macro : "\\Braket{".toList = '\\' :: ("Braket".toList ++ ['{']) := by decide +kernel

theorem txt_bar' {i j : S} (hi : Txt i) (hj : Txt j) : Txt (i ++ " | ".toList ++ j) := by
  have e : " | ".toList = [' ', '|', ' '] := by decide +kernel
  have h := txt_bar hj
  rw [e] at h ⊢
  have h := hi.append (by decide) h
  simpa using h

theorem nuc_braKetPkg {i j h : S} (hi : Txt i) (hj : Txt j) : Nuc (braKetPkg .no i j h) := by
  have := nuc_mathMac (w := "Braket".toList) (by decide +kernel) (txt_bar' hi hj)
  rw [braKetPkg_no, braket_macro]
  generalize "Braket".toList = mac at *
  simp only [List.append_nil, List.append_assoc, List.cons_append, List.nil_append] at this ⊢
  exact this

end QNET.Latex
