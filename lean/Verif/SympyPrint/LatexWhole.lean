import Verif.SympyPrint.LatexC103

/-!
# C104: complete texts can be read in any context of math mode
-/

namespace QNET.Latex

/-- the text is complete LaTeX also after a symbol that has a sub- and a superscript: it does not begin with a script -/
def whole (t : S) : Bool := valid ("a_{1}^{1} ".toList ++ t)

/-- the same state of the reader with other frames at the bottom -/
inductive Sim (a : St) : St → St → Prop
  | base {f g f' g' : Bool} {p : Pend} {w : Option S} (hf : f' = true → f = true) (hg : g' = true → g = true) :
      Sim a ⟨[], ⟨false, false, f, g⟩, p, w⟩ ⟨a.stack, ⟨a.cur.left, false, f', g'⟩, p, w⟩
  | deep {l : List Frame} {c : Frame} {f g f' g' : Bool} {p : Pend} {w : Option S} (hf : f' = true → f = true) (hg : g' = true → g = true) :
      Sim a ⟨l ++ [⟨false, false, f, g⟩], c, p, w⟩ ⟨l ++ ⟨a.cur.left, false, f', g'⟩ :: a.stack, c, p, w⟩

variable {a s s' t : St}

theorem Sim.pend (h : Sim a s s') : s'.pend = s.pend := by cases h <;> rfl
theorem Sim.word (h : Sim a s s') : s'.word = s.word := by cases h <;> rfl
theorem Sim.text (h : Sim a s s') : s'.cur.text = s.cur.text := by cases h <;> rfl

theorem Sim.set (h : Sim a s s') (p : Pend) (w : Option S) : Sim a { s with pend := p, word := w } { s' with pend := p, word := w } := by
  cases h with
  | base hf hg => exact .base hf hg
  | deep hf hg => exact .deep hf hg

theorem Sim.atom (h : Sim a s s') : Sim a s.atom s'.atom := by
  cases h with
  | base hf hg => exact .base nofun nofun
  | deep hf hg => exact .deep hf hg

theorem Sim.push (h : Sim a s s') (l x : Bool) : Sim a (s.push l x) (s'.push l x) := by
  cases h with
  | base hf hg => exact .deep (l := []) hf hg
  | deep hf hg => exact .deep (l := _ :: _) hf hg

theorem Sim.pop (h : Sim a s s') (ht : s.pop = some t) : ∃ t', s'.pop = some t' ∧ Sim a t t' := by
  cases h with
  | base hf hg => exact nomatch ht
  | @deep l c f g f' g' p w hf hg =>
    cases l with
    | nil =>
      simp only [St.pop, List.nil_append, Option.some.injEq] at ht ⊢
      subst ht
      exact ⟨_, rfl, .base hf hg⟩
    | cons x l =>
      simp only [St.pop, List.cons_append, Option.some.injEq] at ht ⊢
      subst ht
      exact ⟨_, rfl, .deep hf hg⟩

theorem Sim.left (h : Sim a s s') (hl : s.cur.left = true) : s'.cur.left = true := by
  cases h with
  | base hf hg => exact nomatch hl
  | deep hf hg => exact hl

theorem Sim.delimiter (h : Sim a s s') {w : S} (ht : s.delimiter w = some t) : ∃ t', s'.delimiter w = some t' ∧ Sim a t t' := by
  rw [St.delimiter] at ht ⊢
  split at ht
  · rename_i hw
    rw [if_pos hw]
    injection ht with ht; subst ht
    exact ⟨_, rfl, h.atom.push _ _⟩
  · rename_i hw
    rw [if_neg hw]
    split at ht
    · rename_i hw
      rw [if_pos hw]
      split at ht
      · rename_i hl
        rw [if_pos (h.left hl)]
        exact h.pop ht
      · exact nomatch ht
    · rename_i hw
      rw [if_neg hw]
      split at ht
      · rename_i hl
        rw [if_pos (h.left hl)]
        injection ht with ht; subst ht
        exact ⟨_, rfl, h.atom⟩
      · exact nomatch ht

theorem Sim.command (h : Sim a s s') {w : S} (ht : s.command w = some t) : ∃ t', s'.command w = some t' ∧ Sim a t t' := by
  rw [St.command] at ht ⊢
  rw [h.text, h.pend]
  split at ht
  · exact nomatch ht
  · rename_i hx
    rw [if_neg hx]
    split at ht
    · rename_i hp
      try simp only
      split at ht
      · rename_i h1
        rw [if_pos h1]
        injection ht with ht; subst ht
        exact ⟨_, rfl, h.atom⟩
      · rename_i h1
        rw [if_neg h1]
        split at ht
        · rename_i h2
          rw [if_pos h2]
          injection ht with ht; subst ht
          exact ⟨_, rfl, by have := h.atom.set (.arg false) s.word; rwa [show ({ s'.atom with pend := .arg false, word := s.word } : St) = { s'.atom with pend := .arg false } by rw [← h.word]; rfl] at this⟩
        · rename_i h2
          rw [if_neg h2]
          split at ht
          · rename_i h3
            rw [if_pos h3]
            injection ht with ht; subst ht
            exact ⟨_, rfl, by have := h.atom.set (.arg true) s.word; rwa [show ({ s'.atom with pend := .arg true, word := s.word } : St) = { s'.atom with pend := .arg true } by rw [← h.word]; rfl] at this⟩
          · rename_i h3
            rw [if_neg h3]
            split at ht
            · rename_i h4
              rw [if_pos h4]
              injection ht with ht; subst ht
              exact ⟨_, rfl, by have := h.set (.delim w) s.word; rwa [show ({ s' with pend := .delim w, word := s.word } : St) = { s' with pend := .delim w } by rw [← h.word]] at this⟩
            · exact nomatch ht
    · rename_i hp
      try simp only
      split at ht
      · rename_i h1
        rw [if_pos h1]
        injection ht with ht; subst ht
        exact ⟨_, rfl, by have := h.set .no s.word; rwa [show ({ s' with pend := .no, word := s.word } : St) = { s' with pend := .no } by rw [← h.word]] at this⟩
      · exact nomatch ht
    · exact nomatch ht
    · rename_i d hp
      try simp only
      split at ht
      · rename_i h1
        rw [if_pos h1]
        exact h.delimiter ht
      · exact nomatch ht

theorem Sim.pend' (h : Sim a s s') (p : Pend) : Sim a { s with pend := p } { s' with pend := p } := by
  have := h.set p s.word
  rwa [show ({ s' with pend := p, word := s.word } : St) = { s' with pend := p } by rw [← h.word]] at this

theorem Sim.sup (h : Sim a s s') (hf : s.cur.sup = false) : s'.cur.sup = false ∧
    Sim a { s with cur := { s.cur with sup := true }, pend := .script } { s' with cur := { s'.cur with sup := true }, pend := .script } := by
  cases h with
  | @base f g f' g' p w hf' hg =>
    simp only at hf
    subst hf
    refine ⟨?_, .base (fun _ => rfl) hg⟩
    cases f'
    · rfl
    · exact absurd (hf' rfl) nofun
  | deep hf' hg => exact ⟨hf, .deep hf' hg⟩

theorem Sim.sub (h : Sim a s s') (hf : s.cur.sub = false) : s'.cur.sub = false ∧
    Sim a { s with cur := { s.cur with sub := true }, pend := .script } { s' with cur := { s'.cur with sub := true }, pend := .script } := by
  cases h with
  | @base f g f' g' p w hf' hg =>
    simp only at hf
    subst hf
    refine ⟨?_, .base hf' (fun _ => rfl)⟩
    cases g'
    · rfl
    · exact absurd (hg rfl) nofun
  | deep hf' hg => exact ⟨hf, .deep hf' hg⟩

theorem Sim.char (h : Sim a s s') {c : Char} (ht : s.char c = some t) : ∃ t', s'.char c = some t' ∧ Sim a t t' := by
  rw [St.char] at ht ⊢
  rw [h.text, h.pend]
  split at ht
  · exact nomatch ht
  · rename_i hx
    rw [if_neg hx]
    split at ht
    · rename_i hp
      try simp only
      split at ht
      · rename_i h1
        rw [if_pos h1]
        injection ht with ht; subst ht
        exact ⟨_, rfl, (h.pend' .no).push _ _⟩
      · rename_i h1
        rw [if_neg h1]
        split at ht
        · exact nomatch ht
        · rename_i h2
          rw [if_neg h2]
          injection ht with ht; subst ht
          exact ⟨_, rfl, h.pend' .no⟩
    · rename_i x hp
      try simp only
      split at ht
      · rename_i h1
        rw [if_pos h1]
        injection ht with ht; subst ht
        exact ⟨_, rfl, h.atom.push _ _⟩
      · exact nomatch ht
    · rename_i d hp
      try simp only
      split at ht
      · rename_i h1
        rw [if_pos h1]
        exact h.delimiter ht
      · exact nomatch ht
    · rename_i hp
      try simp only
      split at ht
      · rename_i h1
        rw [if_pos h1]
        injection ht with ht; subst ht
        exact ⟨_, rfl, h.atom.push _ _⟩
      · rename_i h1
        rw [if_neg h1]
        split at ht
        · rename_i h2
          rw [if_pos h2]
          split at ht
          · exact nomatch ht
          · rename_i hl
            obtain ⟨t', k1, k2⟩ := h.pop ht
            have : s'.cur.left = false := by
              cases h with
              | base hf hg => exact nomatch ht
              | deep hf hg => simpa using hl
            rw [this]
            exact ⟨t', k1, k2⟩
        · rename_i h2
          rw [if_neg h2]
          split at ht
          · rename_i h3
            rw [if_pos h3]
            split at ht
            · exact nomatch ht
            · rename_i h4
              rw [Bool.or_eq_true, not_or, Bool.not_eq_true, Bool.not_eq_true] at h4
              injection ht with ht; subst ht
              obtain ⟨k1, k2⟩ := h.sup h4.2
              rw [h4.1, k1]
              exact ⟨_, rfl, k2⟩
          · rename_i h3
            rw [if_neg h3]
            split at ht
            · rename_i h3
              rw [if_pos h3]
              split at ht
              · exact nomatch ht
              · rename_i h4
                rw [Bool.or_eq_true, not_or, Bool.not_eq_true, Bool.not_eq_true] at h4
                injection ht with ht; subst ht
                obtain ⟨k1, k2⟩ := h.sub h4.2
                rw [h4.1, k1]
                exact ⟨_, rfl, k2⟩
            · rename_i h3
              rw [if_neg h3]
              split at ht
              · rename_i h4
                rw [if_pos h4]
                injection ht with ht; subst ht
                exact ⟨_, rfl, h⟩
              · rename_i h4
                rw [if_neg h4]
                injection ht with ht; subst ht
                exact ⟨_, rfl, h.atom⟩

theorem Sim.symbol (h : Sim a s s') {c : Char} (ht : s.symbol c = some t) : ∃ t', s'.symbol c = some t' ∧ Sim a t t' := by
  rw [St.symbol] at ht ⊢
  rw [h.text, h.pend]
  split at ht
  · rename_i h1
    rw [if_pos h1]
    split at ht
    · rename_i hp
      try simp only
      split at ht
      · exact nomatch ht
      · rename_i h2
        rw [if_neg h2]
        injection ht with ht; subst ht
        exact ⟨_, rfl, h⟩
    · exact nomatch ht
  · rename_i h1
    rw [if_neg h1]
    split at ht
    · rename_i h2
      rw [if_pos h2]
      split at ht
      · rename_i hp
        try simp only
        injection ht with ht; subst ht
        exact ⟨_, rfl, h.atom⟩
      · rename_i d hp
        try simp only
        exact h.delimiter ht
      · exact nomatch ht
    · exact nomatch ht

theorem Sim.word' (h : Sim a s s') (w : Option S) : Sim a { s with word := w } { s' with word := w } := by
  have := h.set s.pend w
  rwa [show ({ s' with pend := s.pend, word := w } : St) = { s' with word := w } by rw [← h.pend]] at this

theorem Sim.flush (h : Sim a s s') (ht : s.flush = some t) : ∃ t', s'.flush = some t' ∧ Sim a t t' := by
  rw [St.flush] at ht ⊢
  rw [h.word]
  split at ht
  · rename_i hw
    try simp only
    injection ht with ht; subst ht
    exact ⟨_, rfl, h⟩
  · rename_i w hw
    try simp only
    split at ht
    · exact nomatch ht
    · rename_i h1
      rw [if_neg h1]
      exact (h.word' none).command ht

theorem Sim.step (h : Sim a s s') {c : Char} (ht : s.step c = some t) : ∃ t', s'.step c = some t' ∧ Sim a t t' := by
  rw [St.step] at ht ⊢
  rw [h.word]
  split at ht
  · rename_i hw
    try simp only
    split at ht
    · rename_i h1
      rw [if_pos h1]
      injection ht with ht; subst ht
      exact ⟨_, rfl, h.word' _⟩
    · rename_i h1
      rw [if_neg h1]
      exact h.char ht
  · rename_i w hw
    try simp only
    split at ht
    · rename_i h1
      rw [if_pos h1]
      injection ht with ht; subst ht
      exact ⟨_, rfl, h.word' _⟩
    · rename_i h1
      rw [if_neg h1]
      split at ht
      · rename_i h2
        rw [if_pos h2]
        exact (h.word' none).symbol ht
      · rename_i h2
        rw [if_neg h2]
        obtain ⟨m, k1, k2⟩ := Option.bind_eq_some_iff.mp ht
        obtain ⟨m', k3, k4⟩ := (h.word' none).command k1
        rw [k3, Option.bind_some]
        split at k2
        · rename_i h3
          rw [if_pos h3]
          injection k2 with k2; subst k2
          exact ⟨_, rfl, k4.word' _⟩
        · rename_i h3
          rw [if_neg h3]
          exact k4.char k2

theorem Sim.run (h : Sim a s s') {x : S} (ht : s.run x = some t) : ∃ t', s'.run x = some t' ∧ Sim a t t' := by
  induction x generalizing s s' with
  | nil => injection ht with ht; subst ht; exact ⟨_, rfl, h⟩
  | cons c x ih =>
    rw [St.run] at ht ⊢
    obtain ⟨m, k1, k2⟩ := Option.bind_eq_some_iff.mp ht
    obtain ⟨m', k3, k4⟩ := h.step k1
    rw [k3]
    exact ih k4 k2

theorem command_word {w : S} (hs : s.word = none) (ht : s.command w = some t) : t.word = none := by
  have hd : ∀ {s t : St} {d : S}, s.word = none → s.delimiter d = some t → t.word = none := by
    intro s t d hs ht
    rw [St.delimiter] at ht
    split at ht
    · injection ht with ht; subst ht; rfl
    · split at ht
      · split at ht
        · rw [St.pop] at ht
          split at ht
          · exact nomatch ht
          · injection ht with ht; subst ht; rfl
        · exact nomatch ht
      · split at ht
        · injection ht with ht; subst ht; exact hs
        · exact nomatch ht
  rw [St.command] at ht
  repeat' split at ht
  all_goals first
    | contradiction
    | exact hd hs ht
    | (injection ht with ht; subst ht; exact hs)

theorem start_scripts : start.run "a_{1}^{1} ".toList = some ⟨[], ⟨false, false, true, true⟩, .no, none⟩ := by kernel_rfl

/-- complete texts are read in every context -/
theorem txt_iff (x : S) : Txt x ↔ whole x = true := by
  constructor
  · intro h
    obtain ⟨f, g, m, h1, h2, _⟩ := h ⟨[], ⟨false, false, true, true⟩, .no, none⟩ ⟨rfl, rfl, rfl⟩
    rw [whole, Latex.valid, run_append, start_scripts, Option.bind_some, h1, Option.bind_some, h2]
    rfl
  · intro h b hb
    rw [whole, Latex.valid, run_append, start_scripts, Option.bind_some] at h
    split at h
    · rename_i t ht
      obtain ⟨m, k1, k2⟩ := Option.bind_eq_some_iff.mp ht
      have h0 : Sim b ⟨[], ⟨false, false, true, true⟩, .no, none⟩ b := by
        rw [hb.eq]
        exact .base (fun _ => rfl) (fun _ => rfl)
      obtain ⟨m', k3, k4⟩ := h0.run k1
      obtain ⟨t', k5, k6⟩ := k4.flush k2
      rw [Bool.and_eq_true, decide_eq_true_eq, List.isEmpty_iff] at h
      have hw : t'.word = none := by
        rw [St.flush] at k5
        split at k5
        · rename_i hw; injection k5 with k5; subst k5; exact hw
        · split at k5
          · exact nomatch k5
          · exact command_word rfl k5
      have hm : m'.word ≠ some [] := by
        intro hm
        rw [St.flush, hm] at k5
        exact nomatch k5
      cases k6 with
      | @base f g f' g' p w hf hg =>
        obtain ⟨_, hp⟩ := h
        simp only at hp hw
        subst hp; subst hw
        refine ⟨f', g', m', k3, ?_, hm, hb.2.1⟩
        rw [k5]
        congr 1
        rw [hb.eq]
        rfl
      | deep hf hg =>
        have := h.1
        simp at this
    · exact nomatch h

end QNET.Latex
