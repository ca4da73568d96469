import Verif.SympyPrint.LatexModel
import Verif.Util.KernelRfl
import Mathlib.Tactic.Linarith

/-!
# C103: LaTeX texts are well-formed: proofs
-/

namespace QNET.Latex

/-! ### the reader -/

theorem run_append (a : St) (s t : S) : a.run (s ++ t) = (a.run s).bind fun b => b.run t := by
  induction s generalizing a with
  | nil => rfl
  | cons c s ih =>
    rw [List.cons_append, St.run, St.run]
    cases a.step c with
    | none => rfl
    | some b => exact ih b

/-- reading `s` leads from `a` to `b`, if what follows does not begin with a letter -/
def Go (a b : St) (s : S) : Prop := ∃ m, a.run s = some m ∧ m.flush = some b ∧ m.word ≠ some [] ∧ b.word = none

theorem Go.refl {a : St} (h : a.word = none) : Go a a [] := ⟨a, rfl, by rw [St.flush, h], by rw [h]; exact nofun, h⟩

theorem Go.cons {a b c : St} {x : Char} {s : S} (h : a.step x = some b) (hg : Go b c s) : Go a c (x :: s) := by
  obtain ⟨m, h1, h2⟩ := hg
  exact ⟨m, by rw [St.run, h]; exact h1, h2⟩

theorem step_flush {m b : St} {x : Char} (hx : x.isAlpha = false) (hf : m.flush = some b) (hw : m.word ≠ some []) (hb : b.word = none) :
    m.step x = b.step x := by
  rw [St.step.eq_def b, hb]
  rw [St.flush] at hf
  rw [St.step]
  split
  · rename_i h
    rw [h] at hf
    injection hf with hf
    subst hf
    rfl
  · rename_i w h
    rw [h] at hf hw
    simp only [ne_eq, Option.some.injEq] at hw
    simp only [hw, if_false] at hf
    rw [if_neg (by simp [hx]), if_neg hw, hf]
    rfl

theorem Go.append {a b c : St} {s t : S} {x : Char} (hs : Go a b s) (hx : x.isAlpha = false) (ht : Go b c (x :: t)) : Go a c (s ++ x :: t) := by
  obtain ⟨m, h1, h2, h3, h4⟩ := hs
  obtain ⟨n, k1, k2⟩ := ht
  refine ⟨n, ?_, k2⟩
  rw [run_append, h1]
  show m.run (x :: t) = _
  rw [St.run, step_flush hx h2 h3 h4, ← St.run]
  exact k1

theorem run_letters {a : St} {acc w : S} (h : w.all Char.isAlpha = true) (ha : a.word = some acc) : a.run w = some { a with word := some (acc ++ w) } := by
  induction w generalizing a acc with
  | nil => rw [List.append_nil, ← ha]; rfl
  | cons c w ih =>
    simp only [List.all_cons, Bool.and_eq_true] at h
    rw [St.run, St.step, ha]
    simp only [h.1, if_true, Option.bind_some]
    rw [ih h.2 rfl]
    simp

/-- a command -/
theorem Go.cmd {a b : St} {w : S} (hw : w.all Char.isAlpha = true) (hn : w ≠ []) (ha : a.word = none) (h : a.command w = some b) (hb : b.word = none) :
    Go a b ('\\' :: w) := by
  have h0 : a.step '\\' = some { a with word := some [] } := by rw [St.step, ha]; rfl
  refine ⟨{ a with word := some w }, ?_, ?_, by simpa using hn, hb⟩
  · rw [St.run, h0]
    show St.run { a with word := some [] } w = _
    rw [run_letters (acc := []) hw rfl]
    rfl
  · rw [St.flush]
    simp only [hn, if_false]
    rw [← h]
    congr 1
    cases a
    simp_all

/-- ready to read in math mode -/
def Math (a : St) : Prop := a.pend = .no ∧ a.word = none ∧ a.cur.text = false

/-- the flags of the last symbol -/
def St.flags (a : St) (f g : Bool) : St := { a with cur := { a.cur with sup := f, sub := g } }

theorem Math.flags {a : St} (h : Math a) (f g : Bool) : Math (a.flags f g) := h
theorem flags_flags (a : St) (f g f' g' : Bool) : (a.flags f g).flags f' g' = a.flags f' g' := rfl
theorem flags_self (a : St) : a.flags a.cur.sup a.cur.sub = a := rfl
theorem Math.atom {a : St} (h : Math a) : a.atom = a.flags false false := by
  cases a; simp_all [Math, St.atom, St.flags]

/-- texts that can be read in math mode -/
def Txt (s : S) : Prop := ∀ a, Math a → ∃ f g, Go a (a.flags f g) s
/-- texts that are a symbol without scripts, at the end -/
def Nuc (s : S) : Prop := ∀ a, Math a → Go a (a.flags false false) s

theorem Nuc.txt {s : S} (h : Nuc s) : Txt s := fun a ha => ⟨_, _, h a ha⟩
theorem Txt.nil : Txt [] := fun a ha => ⟨_, _, Go.refl ha.2.1⟩

theorem Txt.append {s t : S} {x : Char} (hs : Txt s) (hx : x.isAlpha = false) (ht : Txt (x :: t)) : Txt (s ++ x :: t) := by
  intro a ha
  obtain ⟨f, g, h1⟩ := hs a ha
  obtain ⟨f', g', h2⟩ := ht _ (ha.flags f g)
  exact ⟨f', g', h1.append hx h2⟩

theorem Nuc.append {s t : S} {x : Char} (hs : Txt s) (hx : x.isAlpha = false) (ht : Nuc (x :: t)) : Nuc (s ++ x :: t) := by
  intro a ha
  obtain ⟨f, g, h1⟩ := hs a ha
  exact h1.append hx (ht _ (ha.flags f g))

/-- characters without special meaning -/
def plain (c : Char) : Bool := !(['$', '&', '#', '%', '~', '\\', '{', '}', '^', '_', ' '].contains c)

theorem plain_char {a : St} {c : Char} (hp : plain c = true) (h : a.pend = .no) : a.char c = some a.atom := by
  simp only [plain, List.contains_eq_mem, List.mem_cons, List.not_mem_nil, or_false, Bool.not_eq_true', decide_eq_false_iff_not, not_or] at hp
  obtain ⟨h1, h2, h3, h4, h5, h6, h7, h8, h9, h10, h11⟩ := hp
  rw [St.char, if_neg (by simp [h1, h2, h3, h4, h5]), h]
  simp [h7, h8, h9, h10, h11]

theorem plain_step {a : St} {c : Char} (hp : plain c = true) (h : a.pend = .no) (hw : a.word = none) : a.step c = some a.atom := by
  rw [St.step, hw]
  have : c ≠ '\\' := by rintro rfl; exact absurd hp (by decide)
  simp only [this, if_false]
  exact plain_char hp h

theorem run_plain {a : St} {w : S} (hp : ∀ c ∈ w, plain c = true) (hn : w ≠ []) (h : a.pend = .no) (hw : a.word = none) : a.run w = some a.atom := by
  induction w generalizing a with
  | nil => exact absurd rfl hn
  | cons c w ih =>
    rw [St.run, plain_step (hp c (by simp)) h hw]
    by_cases h0 : w = []
    · subst h0; rfl
    · exact ih (fun c hc => hp c (by simp [hc])) h0 rfl hw

theorem Go.plain {a : St} {w : S} (hp : ∀ c ∈ w, plain c = true) (hn : w ≠ []) (h : a.pend = .no) (hw : a.word = none) : Go a a.atom w :=
  ⟨a.atom, run_plain hp hn h hw, by rw [St.flush]; simp [St.atom, hw], by simp [St.atom, hw], hw⟩

theorem nuc_plain {w : S} (hp : ∀ c ∈ w, Latex.plain c = true) (hn : w ≠ []) : Nuc w := fun a ha => by
  rw [← ha.atom]; exact Go.plain hp hn ha.1 ha.2.1

/-- the characters of labels: letters, digits, `+ , - . / : ; < =` and parentheses (`_rx_label` of the classes of symbols, without `_`) -/
def tame (c : Char) : Bool := c.isAlphanum || ['+', ',', '-', '.', '/', ':', ';', '<', '=', '(', ')'].contains c

theorem tame_plain {c : Char} (h : tame c = true) : plain c = true := by
  rw [plain, Bool.not_eq_true']
  by_contra hc
  rw [Bool.not_eq_false] at hc
  simp only [List.contains_eq_mem, List.mem_cons, List.not_mem_nil, or_false, decide_eq_true_eq] at hc
  rcases hc with rfl | rfl | rfl | rfl | rfl | rfl | rfl | rfl | rfl | rfl | rfl <;> exact absurd h (by decide)

theorem alnum_tame {c : Char} (h : c.isAlphanum = true) : tame c = true := by simp [tame, h]
theorem alpha_alnum {c : Char} (h : c.isAlpha = true) : c.isAlphanum = true := by simp [Char.isAlphanum, h]

theorem sep_not_alpha {c : Char} (h : isSep c = true) : c.isAlpha = false := by
  simp only [isSep, Char.isWhitespace, Bool.or_eq_true, beq_iff_eq, decide_eq_true_eq] at h
  rcases h with (((rfl | rfl) | rfl) | rfl) | h
  · decide
  · decide
  · decide
  · decide
  · rcases h with ((h | h) | h) | h <;> (subst h; decide)

/-- the math symbols have letters only -/
theorem mathSyms_alpha : ∀ w ∈ mathSyms, w.all Char.isAlpha = true ∧ w ≠ [] := by decide +kernel

theorem nuc_sym {w : S} (h : mathSyms.contains w = true) : Nuc ('\\' :: w) := by
  intro a ha
  obtain ⟨h1, h2⟩ := mathSyms_alpha w (by simpa using h)
  rw [← ha.atom]
  refine Go.cmd h1 h2 ha.2.1 ?_ ha.2.1
  rw [St.command, ha.2.2, ha.1]
  simp only [h, if_true]
  rfl

/-- `\macro{` -/
theorem go_macro {a : St} {w : S} {t : Bool} {m : St} (hw : w.all Char.isAlpha = true) (hn : w ≠ []) (ha : Math a)
    (hm : a.command w = some { a.flags false false with pend := .arg t }) {s : S}
    (hs : Go (St.push (a.flags false false) false t) m s) (hm' : m.stack = (a.flags false false).cur :: a.stack) (hl : m.cur.left = false) (hp : m.pend = .no) :
    Go a (a.flags false false) ('\\' :: w ++ '{' :: (s ++ ['}'])) := by
  have h1 := Go.cmd hw hn ha.2.1 hm ha.2.1
  refine h1.append (by decide) (Go.cons (b := St.push (a.flags false false) false t) ?_ (hs.append (by decide) ?_))
  · rw [St.step]
    obtain ⟨h1, h2, h3⟩ := ha
    cases a
    simp_all [St.flags, St.char, St.push, St.atom]
  · refine Go.cons (b := a.flags false false) ?_ (Go.refl ha.2.1)
    obtain ⟨_, _, _, _, h5⟩ := hs
    rw [St.step, h5]
    obtain ⟨h1, h2, h3⟩ := ha
    cases a
    simp_all [St.flags, St.char, St.pop]

theorem command_text {a : St} (ha : Math a) : a.command "text".toList = some { a.flags false false with pend := .arg true } := by
  rw [St.command, ha.2.2, ha.1, ← ha.atom]
  rfl

theorem nuc_textMac {w : S} (hp : ∀ c ∈ w, plain c = true) (hn : w ≠ []) : Nuc (textMac w) := by
  intro a ha
  exact go_macro (w := "text".toList) (t := true) (m := (St.push (a.flags false false) false true).atom) (by decide) (by decide) ha (command_text ha)
    (Go.plain hp hn rfl rfl) rfl rfl rfl

/-- a macro whose argument is math -/
theorem nuc_mathMac {w s : S} (hw : mathMacros.contains w = true) (hs : Txt s) : Nuc ('\\' :: w ++ '{' :: (s ++ ['}'])) := by
  intro a ha
  obtain ⟨f, g, h⟩ := hs (St.push (a.flags false false) false false) ⟨rfl, rfl, rfl⟩
  have hm : ∀ w ∈ mathMacros, w.all Char.isAlpha = true ∧ w ≠ [] ∧ mathSyms.contains w = false := by decide +kernel
  obtain ⟨h1, h2, h3⟩ := hm w (by simpa using hw)
  refine go_macro (t := false) h1 h2 ha ?_ h rfl rfl rfl
  rw [St.command, ha.2.2, ha.1, ← ha.atom]
  simp only [h3, hw]
  rfl

/-- sub- and superscript -/
theorem go_scripts {a : St} {sub sup : S} (ha : Math a) (hf : a.cur.sup = false) (hg : a.cur.sub = false) (h1 : Txt sub) (h2 : Txt sup) :
    Go a (a.flags (!sup.isEmpty) (!sub.isEmpty)) (scripts sub sup) := by
  have key1 : ∀ (a : St), Math a → a.cur.sup = false → Go a (a.flags true a.cur.sub) ('^' :: '{' :: sup ++ ['}']) := by
    intro a ha hf
    obtain ⟨f, g, h⟩ := h2 (St.push (a.flags true a.cur.sub) false false) ⟨rfl, rfl, rfl⟩
    refine Go.cons (b := { a.flags true a.cur.sub with pend := .script }) ?_
      (Go.cons (b := St.push (a.flags true a.cur.sub) false false) ?_ (h.append (by decide) (Go.cons (b := a.flags true a.cur.sub) ?_ (Go.refl ha.2.1))))
    all_goals
      obtain ⟨h1, h2, h3⟩ := ha
      cases a
      simp_all [St.flags, St.char, St.push, St.pop, St.step]
  have key2 : ∀ (a : St), Math a → a.cur.sub = false → Go a (a.flags a.cur.sup true) ('_' :: '{' :: sub ++ ['}']) := by
    intro a ha hf
    obtain ⟨f, g, h⟩ := h1 (St.push (a.flags a.cur.sup true) false false) ⟨rfl, rfl, rfl⟩
    refine Go.cons (b := { a.flags a.cur.sup true with pend := .script }) ?_
      (Go.cons (b := St.push (a.flags a.cur.sup true) false false) ?_ (h.append (by decide) (Go.cons (b := a.flags a.cur.sup true) ?_ (Go.refl ha.2.1))))
    all_goals
      obtain ⟨h1, h2, h3⟩ := ha
      cases a
      simp_all [St.flags, St.char, St.push, St.pop, St.step]
  have hself : a.flags false false = a := by rw [← flags_self a, hf, hg]; rfl
  rw [scripts]
  by_cases hs : sub = []
  · by_cases hp : sup = []
    · simp only [hs, hp, if_true, List.append_nil, List.isEmpty_nil, Bool.not_true]
      rw [hself]; exact Go.refl ha.2.1
    · have := key1 a ha hf
      rw [hg] at this
      have e : sup.isEmpty = false := by simpa using hp
      simpa [hs, hp, e] using this
  · by_cases hp : sup = []
    · have := key2 a ha hg
      rw [hf] at this
      have e : sub.isEmpty = false := by simpa using hs
      simpa [hs, hp, e] using this
    · have k2 := key2 a ha hg
      rw [hf] at k2
      have k1 : Go (a.flags false true) ((a.flags false true).flags true true) _ := key1 (a.flags false true) (ha.flags _ _) rfl
      have := k2.append (by decide) k1
      have e : sub.isEmpty = false := by simpa using hs
      have e' : sup.isEmpty = false := by simpa using hp
      rw [flags_flags] at this
      simpa [hs, hp, e, e'] using this

/-! ### translation -/

theorem dict_values : ∀ p ∈ dict, (∃ c, p.2 = [c] ∧ c.isAlpha = true) ∨ ∃ w, p.2 = '\\' :: w ∧ mathSyms.contains w = true := by
  have : ∀ p ∈ dict, (match p.2 with
    | [c] => c.isAlpha
    | '\\' :: w => mathSyms.contains w
    | _ => false) = true := by decide +kernel
  intro p hp
  have h := this p hp
  split at h
  · rename_i c hc; exact .inl ⟨c, hc, h⟩
  · rename_i w _ hw; exact .inr ⟨w, hw, h⟩
  · exact nomatch h

theorem lookup_mem' {w v : S} : ∀ {l : List (S × S)}, l.lookup w = some v → (w, v) ∈ l
  | [], h => nomatch h
  | (k, u) :: l, h => by
    rw [List.lookup_cons] at h
    by_cases hk : w == k
    · simp only [hk] at h
      injection h with h
      rw [beq_iff_eq.mp hk, h]; exact List.mem_cons_self
    · rw [Bool.not_eq_true] at hk
      simp only [hk] at h
      exact List.mem_cons_of_mem _ (lookup_mem' h)

/-- what a piece becomes: itself, a letter, a symbol, a text -/
theorem trWord_cases (w : S) : trWord w = w ∨ (∃ c, trWord w = [c] ∧ c.isAlpha = true) ∨ (∃ v, trWord w = '\\' :: v ∧ mathSyms.contains v = true) ∨
    (trWord w = textMac w ∧ w.all Char.isAlpha = true ∧ w ≠ []) := by
  rw [trWord]
  split
  · rename_i t ht
    rcases dict_values _ (lookup_mem' ht) with h | h
    · exact .inr (.inl h)
    · exact .inr (.inr (.inl h))
  · split
    · rename_i h
      refine .inr (.inr (.inl ⟨_, rfl, ?_⟩))
      rw [List.contains_iff_mem] at h ⊢
      exact List.mem_append_left _ (List.mem_append_left _ h)
    · split
      · rename_i h
        refine .inr (.inr (.inl ⟨_, rfl, ?_⟩))
        rw [List.contains_iff_mem] at h ⊢
        exact List.mem_append_left _ (List.mem_append_right _ h)
      · split
        · rename_i h
          rw [Bool.and_eq_true, decide_eq_true_eq] at h
          exact .inr (.inr (.inr ⟨rfl, h.2, by rintro rfl; simp at h⟩))
        · exact .inl rfl

theorem nuc_trWord {w : S} (hp : ∀ c ∈ w, plain c = true) (hn : w ≠ []) : Nuc (trWord w) := by
  rcases trWord_cases w with h | ⟨c, h, hc⟩ | ⟨v, h, hv⟩ | ⟨h, _, _⟩
  · rw [h]; exact nuc_plain hp hn
  · rw [h]; exact nuc_plain (by simpa using tame_plain (alnum_tame (alpha_alnum hc))) (by simp)
  · rw [h]; exact nuc_sym hv
  · rw [h]; exact nuc_textMac hp hn

theorem trWord_nil : trWord [] = [] := by decide +kernel

theorem txt_trWord {w : S} (hp : ∀ c ∈ w, plain c = true) : Txt (trWord w) := by
  by_cases h : w = []
  · rw [h, trWord_nil]; exact Txt.nil
  · exact (nuc_trWord hp h).txt

/-- the text is the pieces with their separators -/
theorem splitSep_join (s : S) : (splitSep s).1 ++ (splitSep s).2.flatMap (fun p => p.1 :: p.2) = s := by
  induction s with
  | nil => rfl
  | cons c s ih =>
    rw [splitSep]
    split
    · simp [ih]
    · simp [ih]

theorem splitSep_mem (s : S) : (∀ c ∈ (splitSep s).1, c ∈ s ∧ isSep c = false) ∧
    ∀ p ∈ (splitSep s).2, p.1 ∈ s ∧ isSep p.1 = true ∧ ∀ c ∈ p.2, c ∈ s ∧ isSep c = false := by
  induction s with
  | nil => exact ⟨by simp [splitSep], by simp [splitSep]⟩
  | cons x s ih =>
    rw [splitSep]
    split
    · rename_i hx
      refine ⟨by simp, fun p hp => ?_⟩
      rcases List.mem_cons.mp hp with rfl | hp
      · exact ⟨by simp, hx, fun c hc => ⟨List.mem_cons_of_mem _ (ih.1 c hc).1, (ih.1 c hc).2⟩⟩
      · obtain ⟨h1, h2, h3⟩ := ih.2 p hp
        exact ⟨List.mem_cons_of_mem _ h1, h2, fun c hc => ⟨List.mem_cons_of_mem _ (h3 c hc).1, (h3 c hc).2⟩⟩
    · rename_i hx
      refine ⟨fun c hc => ?_, fun p hp => ?_⟩
      · rcases List.mem_cons.mp hc with rfl | hc
        · exact ⟨by simp, by simpa using hx⟩
        · exact ⟨List.mem_cons_of_mem _ (ih.1 c hc).1, (ih.1 c hc).2⟩
      · obtain ⟨h1, h2, h3⟩ := ih.2 p hp
        exact ⟨List.mem_cons_of_mem _ h1, h2, fun c hc => ⟨List.mem_cons_of_mem _ (h3 c hc).1, (h3 c hc).2⟩⟩

theorem nuc_tail {l : List (Char × S)} (h : ∀ p ∈ l, isSep p.1 = true ∧ plain p.1 = true ∧ ∀ c ∈ p.2, plain c = true) (hn : l ≠ []) :
    Nuc (l.flatMap fun p => p.1 :: trWord p.2) := by
  induction l with
  | nil => exact absurd rfl hn
  | cons p l ih =>
    obtain ⟨h1, h2, h3⟩ := h p (by simp)
    intro a ha
    have hstep := plain_step h2 ha.1 ha.2.1
    rw [ha.atom] at hstep
    have hw : Go (a.flags false false) (a.flags false false) (trWord p.2) := by
      by_cases h0 : p.2 = []
      · rw [h0, trWord_nil]; exact Go.refl ha.2.1
      · exact nuc_trWord h3 h0 _ (ha.flags _ _)
    rw [List.flatMap_cons, List.cons_append]
    refine Go.cons hstep ?_
    by_cases hl : l = []
    · subst hl; simpa using hw
    · have := ih (fun p hp => h p (by simp [hp])) hl _ (ha.flags false false)
      obtain ⟨q, l', rfl⟩ := List.exists_cons_of_ne_nil hl
      rw [List.flatMap_cons, List.cons_append] at this ⊢
      exact hw.append (sep_not_alpha (h q (by simp)).1) this

theorem nuc_tr {s : S} (hp : ∀ c ∈ s, plain c = true) (hn : s ≠ []) : Nuc (tr s) := by
  rw [tr]
  obtain ⟨h1, h2⟩ := splitSep_mem s
  have e1 : ∀ c ∈ (splitSep s).1, plain c = true := fun c hc => hp c (h1 c hc).1
  have e2 : ∀ p ∈ (splitSep s).2, isSep p.1 = true ∧ plain p.1 = true ∧ ∀ c ∈ p.2, plain c = true :=
    fun p hp' => ⟨(h2 p hp').2.1, hp _ (h2 p hp').1, fun c hc => hp c ((h2 p hp').2.2 c hc).1⟩
  by_cases hl : (splitSep s).2 = []
  · rw [hl]
    have : (splitSep s).1 ≠ [] := fun h0 => hn (by rw [← splitSep_join s, h0, hl]; rfl)
    simpa using nuc_trWord e1 this
  · have := nuc_tail e2 hl
    obtain ⟨q, l', hq⟩ := List.exists_cons_of_ne_nil hl
    rw [hq, List.flatMap_cons, List.cons_append] at this ⊢
    exact Nuc.append (txt_trWord e1) (sep_not_alpha (e2 q (by rw [hq]; simp)).1) this

theorem tr_nil : tr [] = [] := by decide +kernel

theorem txt_tr {s : S} (hp : ∀ c ∈ s, plain c = true) : Txt (tr s) := by
  by_cases h : s = []
  · rw [h, tr_nil]; exact Txt.nil
  · exact (nuc_tr hp h).txt

theorem txt_comma {s : S} (h : Txt s) : Txt (',' :: s) := by
  intro a ha
  obtain ⟨f, g, h⟩ := h _ (ha.flags false false)
  have := plain_step (c := ',') (by decide) ha.1 ha.2.1
  rw [ha.atom] at this
  exact ⟨f, g, Go.cons this h⟩

theorem txt_joinC {l : List S} (h : ∀ s ∈ l, Txt s) : Txt (joinC l) := by
  induction l with
  | nil => exact Txt.nil
  | cons s l ih =>
    cases l with
    | nil => exact h s (by simp)
    | cons t l => exact (h s (by simp)).append (by decide) (txt_comma (ih fun s hs => h s (by simp [hs])))

theorem txt_renderLatex {name : S} {subs supers : List S} (h1 : Nuc (tr name)) (h2 : ∀ s ∈ subs, Txt (tr s)) (h3 : ∀ s ∈ supers, Txt (tr s)) :
    Txt (renderLatex name subs supers) := by
  intro a ha
  have k2 : Txt (joinC (subs.map tr)) := txt_joinC (by simpa using h2)
  have k3 : Txt (joinC (supers.map tr)) := txt_joinC (by simpa using h3)
  have h := go_scripts (a := a.flags false false) (ha.flags _ _) rfl rfl k2 k3
  rw [flags_flags] at h
  have hn := h1 a ha
  rw [renderLatex]
  cases hs : scripts (joinC (subs.map tr)) (joinC (supers.map tr)) with
  | nil => exact ⟨false, false, by simpa using hn⟩
  | cons x t =>
    rw [hs] at h
    refine ⟨_, _, hn.append ?_ h⟩
    rw [scripts] at hs
    split at hs
    · split at hs
      · exact nomatch hs
      · simp only [List.nil_append, List.cons_append, List.cons.injEq] at hs
        rw [← hs.1]; decide
    · simp only [List.cons_append, List.cons.injEq] at hs
      rw [← hs.1]; decide

/-! ### parts of a label -/

theorem takeWhile_mem {p : Char → Bool} {s : S} {c : Char} (h : c ∈ s.takeWhile p) : p c = true ∧ c ∈ s := by
  induction s with
  | nil => exact nomatch h
  | cons x s ih =>
    rw [List.takeWhile_cons] at h
    split at h
    · rename_i hx
      rcases List.mem_cons.mp h with rfl | h
      · exact ⟨hx, by simp⟩
      · exact ⟨(ih h).1, List.mem_cons_of_mem _ (ih h).2⟩
    · exact nomatch h

theorem dropWhile_mem {p : Char → Bool} {s : S} {c : Char} (h : c ∈ s.dropWhile p) : c ∈ s := by
  induction s with
  | nil => exact nomatch h
  | cons x s ih =>
    rw [List.dropWhile_cons] at h
    split at h
    · exact List.mem_cons_of_mem _ (ih h)
    · exact h

theorem cutPart_cases (x : Char) (s : S) : (∃ s', x :: s = '_' :: '_' :: s' ∧ cutPart (x :: s) = ('_' :: '_' :: s'.takeWhile noMark, s'.dropWhile noMark)) ∨
    cutPart (x :: s) = (x :: s.takeWhile noMark, s.dropWhile noMark) := by
  generalize hy : x :: s = y
  rw [cutPart.eq_def]
  split
  · exact .inl ⟨_, rfl, rfl⟩
  · injection hy with h1 h2
    subst h1; subst h2
    exact .inr rfl
  · exact nomatch hy

theorem parts_scripts (n : ℕ) (s : S) : ∀ q, q ∈ supersOf (parts n s) ∨ q ∈ subsOf (parts n s) → ∀ c ∈ q, noMark c = true ∧ c ∈ s := by
  induction n generalizing s with
  | zero => intro q hq; simp [parts, supersOf, subsOf] at hq
  | succ n ih =>
    intro q hq c hc
    cases s with
    | nil => simp [parts, supersOf, subsOf] at hq
    | cons x s =>
      have hrest : ∀ q, q ∈ supersOf (parts n (cutPart (x :: s)).2) ∨ q ∈ subsOf (parts n (cutPart (x :: s)).2) → ∀ c ∈ q, noMark c = true ∧ c ∈ x :: s := by
        intro q hq c hc
        obtain ⟨h1, h2⟩ := ih _ q hq c hc
        refine ⟨h1, ?_⟩
        rcases cutPart_cases x s with ⟨s', e, h⟩ | h
        · rw [h] at h2
          rw [e]
          exact List.mem_cons_of_mem _ (List.mem_cons_of_mem _ (dropWhile_mem h2))
        · rw [h] at h2
          exact List.mem_cons_of_mem _ (dropWhile_mem h2)
      have hp : parts (n + 1) (x :: s) = (cutPart (x :: s)).1 :: parts n (cutPart (x :: s)).2 := rfl
      rw [hp, supersOf, subsOf, List.filterMap_cons, List.filterMap_cons] at hq
      have hhead : ∀ q t, (cutPart (x :: s)).1 = t → (t = '^' :: q ∨ t = '_' :: '_' :: q ∨ (t = '_' :: q ∧ ∀ u, t ≠ '_' :: '_' :: u)) → ∀ c ∈ q, noMark c = true ∧ c ∈ x :: s := by
        intro q t ht hq c hc
        rcases cutPart_cases x s with ⟨s', e, h⟩ | h
        · rw [h] at ht
          subst ht
          rcases hq with h | h | ⟨_, h⟩
          · exact absurd h (by simp)
          · simp only [List.cons.injEq, true_and] at h
            rw [← h] at hc
            obtain ⟨k1, k2⟩ := takeWhile_mem hc
            exact ⟨k1, by rw [e]; simp [k2]⟩
          · exact absurd rfl (h _)
        · rw [h] at ht
          subst ht
          have hq' : s.takeWhile noMark = q ∨ s.takeWhile noMark = '_' :: q := by
            rcases hq with h | h | ⟨h, _⟩
            · simp only [List.cons.injEq] at h; exact .inl h.2
            · simp only [List.cons.injEq] at h; exact .inr h.2
            · simp only [List.cons.injEq] at h; exact .inl h.2
          have hc' : c ∈ s.takeWhile noMark := by
            rcases hq' with h | h <;> rw [h]
            · exact hc
            · exact List.mem_cons_of_mem _ hc
          obtain ⟨k1, k2⟩ := takeWhile_mem hc'
          exact ⟨k1, by simp [k2]⟩
      rcases hq with hq | hq
      · split at hq
        · exact hrest q (.inl hq) c hc
        · rename_i v hv
          rcases List.mem_cons.mp hq with rfl | hq
          · split at hv
            · rename_i _ t heq; injection hv with hv; subst hv; exact hhead _ _ heq (.inl rfl) c hc
            · rename_i _ t heq; injection hv with hv; subst hv; exact hhead _ _ heq (.inr (.inl rfl)) c hc
            · exact nomatch hv
          · exact hrest q (.inl hq) c hc
      · split at hq
        · exact hrest q (.inr hq) c hc
        · rename_i v hv
          rcases List.mem_cons.mp hq with rfl | hq
          · split at hv
            · exact nomatch hv
            · rename_i _ t hne heq; injection hv with hv; subst hv
              exact hhead _ _ heq (.inr (.inr ⟨rfl, fun u hu => hne u (by simpa using hu)⟩)) c hc
            · exact nomatch hv
          · exact hrest q (.inr hq) c hc

end QNET.Latex
