import Mathlib.Data.List.Basic
import Mathlib.Data.Nat.Digits.Defs
import Mathlib.Data.Nat.Digits.Lemmas
import Mathlib.Tactic.Ring

/-!
# Python source text (specification for C71)

Tokens of Python expressions, their text, and a lexer: the part of Python's grammar that is needed to evaluate the output of `srepr`.
-/

namespace QNET.Print

/-- identifiers -/
abbrev Name := List Char

/-- tokens; `str s` is a string literal with value `s`, `ws` one character of white space -/
inductive Tok where
  | word (w : Name)
  | str (s : List Char)
  | sym (c : Char)
  | ws (c : Char)
  deriving DecidableEq, Repr

def isWord (c : Char) : Bool := c.isAlphanum || c == '_' || c == '.'
def isQuote (c : Char) : Bool := c == '\'' || c == '"'
def isBlank (c : Char) : Bool := c == ' ' || c == '\n'
def isSym (c : Char) : Bool := c == '(' || c == ')' || c == '[' || c == ']' || c == ',' || c == '=' || c == '-'

/-- the quotation mark that Python's `repr` chooses for a string -/
def quoteOf (s : List Char) : Char := if s.contains '\'' && !s.contains '"' then '"' else '\''

/-- Python's `repr` of one character inside of a string literal; characters that cannot be printed (`\x..`, `\u....`) are not modelled and stay as they are -/
def escape (q c : Char) : List Char :=
  if c = '\\' then ['\\', '\\'] else if c = q then ['\\', q] else if c = '\n' then ['\\', 'n'] else if c = '\r' then ['\\', 'r'] else if c = '\t' then ['\\', 't'] else [c]

/-- Python's `repr` of a string -/
def pyRepr (s : List Char) : List Char := quoteOf s :: s.flatMap (escape (quoteOf s)) ++ [quoteOf s]

/-- the text of a token -/
def Tok.text : Tok → List Char
  | .word w => w
  | .str s => pyRepr s
  | .sym c => [c]
  | .ws c => [c]

/-- the text of a list of tokens -/
def text (l : List Tok) : List Char := l.flatMap Tok.text

def Tok.isWs : Tok → Bool
  | .ws _ => true
  | _ => false

/-- all tokens but white space -/
def nw (l : List Tok) : List Tok := l.filter fun t => !t.isWs

/-! ### Lexer -/

inductive St where
  | out
  | word (acc : List Char)
  | str (q : Char) (acc : List Char)
  | esc (q : Char) (acc : List Char)

/-- what an escape sequence stands for -/
def unescape (c : Char) : Option Char :=
  if c = '\\' ∨ c = '\'' ∨ c = '"' then some c else if c = 'n' then some '\n' else if c = 'r' then some '\r' else if c = 't' then some '\t' else none

/-- Python's lexer: white space is skipped, words are as long as possible, and a word or string literal is not followed by another one without a character in between. -/
def lexS : St → List Char → Option (List Tok)
  | .out, [] => some []
  | .word acc, [] => some [.word acc.reverse]
  | .str _ _, [] => none
  | .esc _ _, [] => none
  | .out, c :: cs =>
    if isWord c then lexS (.word [c]) cs else if isQuote c then lexS (.str c []) cs else if isBlank c then lexS .out cs
    else if isSym c then (lexS .out cs).map (.sym c :: ·) else none
  | .word acc, c :: cs =>
    if isWord c then lexS (.word (c :: acc)) cs else if isQuote c then none else if isBlank c then (lexS .out cs).map (.word acc.reverse :: ·)
    else if isSym c then (lexS .out cs).map fun l => .word acc.reverse :: .sym c :: l else none
  | .str q acc, c :: cs =>
    if c = q then (lexS .out cs).map (.str acc.reverse :: ·) else if c = '\\' then lexS (.esc q acc) cs else if c = '\n' then none else lexS (.str q (c :: acc)) cs
  | .esc q acc, c :: cs => match unescape c with
    | some d => lexS (.str q (d :: acc)) cs
    | none => none

def lex (s : List Char) : Option (List Tok) := lexS .out s

/-! ### Numbers -/

def natText (n : ℕ) : Name := if n = 0 then ['0'] else (Nat.digits 10 n).reverse.map fun d => Char.ofNat (48 + d)
/-- the value of a decimal literal -/
def readNat (w : Name) : ℕ := Nat.ofDigits 10 (w.reverse.map fun c => c.toNat - 48)

/-! ### Lexing the text of tokens gives the tokens -/

def Tok.Valid : Tok → Prop
  | .word w => w ≠ [] ∧ ∀ c ∈ w, isWord c = true
  | .str _ => True
  | .sym c => isSym c = true
  | .ws c => isBlank c = true

/-- tokens which need to be separated -/
def Tok.Stick : Tok → Tok → Prop
  | .word _, .word _ => True
  | .word _, .str _ => True
  | _, _ => False

/-- no two tokens that need to be separated follow each other -/
def Apart : List Tok → Prop
  | a :: b :: l => ¬ a.Stick b ∧ Apart (b :: l)
  | _ => True

theorem quote_not_word {c : Char} (h : isQuote c = true) : isWord c = false := by
  simp only [isQuote, Bool.or_eq_true, beq_iff_eq] at h
  rcases h with rfl | rfl <;> decide
theorem ws_not {c : Char} (h : isBlank c = true) : isWord c = false ∧ isQuote c = false := by
  simp only [isBlank, Bool.or_eq_true, beq_iff_eq] at h
  rcases h with rfl | rfl <;> decide
theorem sym_not {c : Char} (h : isSym c = true) : isWord c = false ∧ isQuote c = false ∧ isBlank c = false := by
  simp only [isSym, Bool.or_eq_true, beq_iff_eq] at h
  rcases h with (((((rfl | rfl) | rfl) | rfl) | rfl) | rfl) | rfl <;> decide

theorem lex_word : ∀ (w : List Char) (acc cs : List Char), (∀ c ∈ w, isWord c = true) → lexS (.word acc) (w ++ cs) = lexS (.word (w.reverse ++ acc)) cs
  | [], acc, cs, _ => rfl
  | c :: w, acc, cs, h => by
    rw [List.cons_append, lexS, if_pos (h c List.mem_cons_self), lex_word w _ cs fun d hd => h d (List.mem_cons_of_mem _ hd)]
    simp

theorem quoteOf_cases (s : List Char) : quoteOf s = '"' ∨ quoteOf s = '\'' := by
  unfold quoteOf; split <;> simp

theorem lex_escape (q : Char) (hq : q = '"' ∨ q = '\'') (c : Char) (acc cs : List Char) :
    lexS (.str q acc) (escape q c ++ cs) = lexS (.str q (c :: acc)) cs := by
  have hqb : q ≠ '\\' := by rcases hq with rfl | rfl <;> decide
  unfold escape
  split
  · next h => subst h; simp [lexS, unescape, Ne.symm hqb]
  · next h =>
    split
    · next h' =>
      subst h'
      rcases hq with rfl | rfl <;> simp [lexS, unescape]
    · next h' =>
      split
      · next h2 => subst h2; simp [lexS, unescape, Ne.symm hqb]
      · next h2 =>
        split
        · next h3 => subst h3; simp [lexS, unescape, Ne.symm hqb]
        · split
          · next h4 => subst h4; simp [lexS, unescape, Ne.symm hqb]
          · simp [lexS, h, h', h2]

theorem lex_body (q : Char) (hq : q = '"' ∨ q = '\'') : ∀ (s acc cs : List Char), lexS (.str q acc) (s.flatMap (escape q) ++ cs) = lexS (.str q (s.reverse ++ acc)) cs
  | [], acc, cs => rfl
  | c :: s, acc, cs => by
    rw [List.flatMap_cons, List.append_assoc, lex_escape q hq, lex_body q hq s]
    simp

theorem lex_str (s cs : List Char) : lexS .out (pyRepr s ++ cs) = (lexS .out cs).map (.str s :: ·) := by
  have hq := quoteOf_cases s
  have h1 : isQuote (quoteOf s) = true := by rcases hq with h | h <;> rw [h] <;> decide
  unfold pyRepr
  rw [List.cons_append, List.cons_append, lexS, if_neg (by rw [quote_not_word h1]; decide), if_pos h1, List.append_assoc, lex_body _ hq, List.singleton_append, lexS, if_pos rfl]
  simp

theorem nw_cons (t : Tok) (l : List Tok) : nw (t :: l) = if t.isWs then nw l else t :: nw l := by
  unfold nw
  cases h : t.isWs <;> simp [h]

theorem nw_append (a b : List Tok) : nw (a ++ b) = nw a ++ nw b := List.filter_append ..

/-- `Apart` of the tokens without white space is enough -/
theorem Apart.of_nw : ∀ {l : List Tok}, Apart (nw l) → Apart l
  | [], _ => trivial
  | [_], _ => trivial
  | a :: b :: l, h => by
    rw [nw_cons] at h
    by_cases ha : a.isWs = true
    · rw [if_pos ha] at h
      refine ⟨?_, Apart.of_nw h⟩
      cases a <;> first | exact id | cases ha
    · rw [if_neg ha] at h
      have h2 : Apart (nw (b :: l)) := by
        cases hl : nw (b :: l) with
        | nil => trivial
        | cons x xs => rw [hl] at h; exact h.2
      refine ⟨?_, Apart.of_nw h2⟩
      rw [nw_cons] at h
      by_cases hb : b.isWs = true
      · cases b with
        | ws _ => cases a <;> exact id
        | word _ => cases hb
        | str _ => cases hb
        | sym _ => cases hb
      · rw [if_neg hb] at h
        exact h.1

theorem lex_text : ∀ (l : List Tok), (∀ t ∈ l, t.Valid) → Apart l → lex (text l) = some (nw l)
  | [], _, _ => rfl
  | t :: l, hv, ha => by
    have hv' : ∀ t ∈ l, t.Valid := fun t ht => hv t (List.mem_cons_of_mem _ ht)
    have ha' : Apart l := by
      cases l with
      | nil => trivial
      | cons b l => exact ha.2
    have ih : lexS .out (text l) = some (nw l) := lex_text l hv' ha'
    have ht := hv t List.mem_cons_self
    change lexS .out (t.text ++ text l) = _
    cases t with
    | str s =>
      change lexS .out (pyRepr s ++ text l) = _
      rw [lex_str, ih]
      rfl
    | sym c =>
      obtain ⟨h1, h2, h3⟩ := sym_not ht
      change lexS .out (c :: text l) = _
      have : isSym c = true := ht
      simp [lexS, h1, h2, h3, this, ih, nw, Tok.isWs]
    | ws c =>
      obtain ⟨h1, h2⟩ := ws_not ht
      have : isBlank c = true := ht
      change lexS .out (c :: text l) = _
      simp [lexS, h1, h2, this, ih, nw, Tok.isWs]
    | word w =>
      obtain ⟨hne, hw⟩ := ht
      obtain ⟨c, w, rfl⟩ := List.exists_cons_of_ne_nil hne
      change lexS .out (c :: (w ++ text l)) = _
      rw [lexS, if_pos (hw c List.mem_cons_self), lex_word w _ _ fun d hd => hw d (List.mem_cons_of_mem _ hd)]
      have hr : (w.reverse ++ [c]).reverse = c :: w := by simp
      rw [nw_cons]
      cases l with
      | nil => simp [text, lexS, nw, Tok.isWs]
      | cons b l =>
        have hb := hv' b List.mem_cons_self
        cases b with
        | word w' => exact absurd trivial ha.1
        | str s => exact absurd trivial ha.1
        | sym d =>
          obtain ⟨h1, h2, h3⟩ := sym_not hb
          have : isSym d = true := hb
          change lexS .out (d :: text l) = _ at ih
          simp only [lexS, h1, h2, h3, this, if_true, if_false, Bool.false_eq_true] at ih
          change lexS (.word _) (d :: text l) = _
          simp only [lexS, h1, h2, h3, this, if_true, if_false, Bool.false_eq_true, hr]
          cases h : lexS .out (text l) with
          | none => rw [h] at ih; cases ih
          | some x =>
            rw [h] at ih
            injection ih with ih
            simp [← ih, Tok.isWs]
        | ws d =>
          obtain ⟨h1, h2⟩ := ws_not hb
          have : isBlank d = true := hb
          change lexS .out (d :: text l) = _ at ih
          simp only [lexS, h1, h2, this, if_true, if_false, Bool.false_eq_true] at ih
          change lexS (.word _) (d :: text l) = _
          simp only [lexS, h1, h2, this, if_true, if_false, Bool.false_eq_true, hr, ih]
          rfl

/-! ### Numbers -/

theorem digit_char {d : ℕ} (h : d < 10) : isWord (Char.ofNat (48 + d)) = true ∧ (Char.ofNat (48 + d)).toNat - 48 = d ∧ (Char.ofNat (48 + d)).isDigit = true := by
  interval_cases d <;> decide

theorem natText_valid (n : ℕ) : (Tok.word (natText n)).Valid := by
  unfold natText
  split
  · exact ⟨by simp, by decide⟩
  · next h =>
    refine ⟨by simpa [Nat.digits_eq_nil_iff_eq_zero] using h, fun c hc => ?_⟩
    obtain ⟨d, hd, rfl⟩ := List.mem_map.mp hc
    exact (digit_char (Nat.digits_lt_base (by decide) (List.mem_reverse.mp hd))).1

theorem readNat_natText (n : ℕ) : readNat (natText n) = n := by
  unfold natText readNat
  split
  · next h => subst h; decide
  · next h =>
    rw [← List.map_reverse, List.reverse_reverse, List.map_map]
    have : (Nat.digits 10 n).map ((fun c : Char => c.toNat - 48) ∘ fun d => Char.ofNat (48 + d)) = Nat.digits 10 n := by
      conv_rhs => rw [← List.map_id (Nat.digits 10 n)]
      refine List.map_congr_left fun d hd => ?_
      exact (digit_char (Nat.digits_lt_base (by decide) hd)).2.1
    rw [this, Nat.ofDigits_digits]

theorem natText_digit (n : ℕ) : ∃ c w, natText n = c :: w ∧ c.isDigit = true := by
  unfold natText
  split
  · exact ⟨'0', [], rfl, by decide⟩
  · next h =>
    have hne : (Nat.digits 10 n).reverse.map (fun d => Char.ofNat (48 + d)) ≠ [] := by simpa [Nat.digits_eq_nil_iff_eq_zero] using h
    obtain ⟨c, w, e⟩ := List.exists_cons_of_ne_nil hne
    refine ⟨c, w, e, ?_⟩
    have : c ∈ (Nat.digits 10 n).reverse.map (fun d => Char.ofNat (48 + d)) := by rw [e]; exact List.mem_cons_self
    obtain ⟨d, hd, rfl⟩ := List.mem_map.mp this
    exact (digit_char (Nat.digits_lt_base (by decide) (List.mem_reverse.mp hd))).2.2

end QNET.Print
