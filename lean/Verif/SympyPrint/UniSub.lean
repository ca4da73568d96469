import Verif.Perm.Model
import Mathlib.Data.List.Basic

/-!
# C97: Unicode sub- and superscripts (`src/qnet/printing/_unicode_mappings.py`)

The Unicode printer builds every name, label and space label with `render_unicode_sub_super`.

Simplifications: strings are lists of characters; `re.split(r'(\\W+)', s)` splits into words and single separators (joining gives the same string), for an
arbitrary class `isW` of word characters; `str.lower` is an arbitrary function `low` on words. Sub- and superscripts are strings already (`str(...)`).
-/

namespace QNET.UniSub

open QNET.Perm (Res Err)

/-! ## the tables of the code -/

/-- `_SUBSCRIPT_MAPPING`, lines 21-27 -/
def subMap : List (Char × Char) :=
  [('0', '\u2080'), ('1', '\u2081'), ('2', '\u2082'), ('3', '\u2083'), ('4', '\u2084'), ('5', '\u2085'), ('6', '\u2086'), ('7', '\u2087'),
    ('8', '\u2088'), ('9', '\u2089'), ('(', '\u208d'), (')', '\u208e'), ('+', '\u208a'), ('-', '\u208b'), ('=', '\u208c'), ('a', '\u2090'),
    ('e', '\u2091'), ('o', '\u2092'), ('x', '\u2093'), ('h', '\u2095'), ('k', '\u2096'), ('l', '\u2097'), ('m', '\u2098'), ('n', '\u2099'),
    ('p', '\u209a'), ('s', '\u209b'), ('t', '\u209c'), ('\u03b2', '\u1d66'), ('\u03b3', '\u1d67'), ('\u03c1', '\u1d68'),
    ('\u03c6', '\u1d69'), ('\u03c7', '\u1d6a'), (' ', ' ')]

/-- `_SUPERSCRIPT_MAPPING`, lines 30-41 -/
def supMap : List (Char × Char) :=
  [('0', '\u2070'), ('1', '\u00b9'), ('2', '\u00b2'), ('3', '\u00b3'), ('4', '\u2074'), ('5', '\u2075'), ('6', '\u2076'), ('7', '\u2077'),
    ('8', '\u2078'), ('9', '\u2079'), ('+', '\u207a'), ('-', '\u207b'), ('=', '\u207c'), ('(', '\u207d'), (')', '\u207e'), ('a', '\u1d43'),
    ('b', '\u1d47'), ('c', '\u1d9c'), ('d', '\u1d48'), ('e', '\u1d49'), ('f', '\u1da0'), ('g', '\u1d4d'), ('h', '\u02b0'), ('i', '\u2071'),
    ('j', '\u02b2'), ('k', '\u1d4f'), ('l', '\u02e1'), ('m', '\u1d50'), ('n', '\u207f'), ('o', '\u1d52'), ('p', '\u1d56'), ('r', '\u02b3'),
    ('s', '\u02e2'), ('t', '\u1d57'), ('u', '\u1d58'), ('v', '\u1d5b'), ('w', '\u02b7'), ('x', '\u02e3'), ('y', '\u02b8'), ('z', '\u1dbb'),
    ('A', '\u1d2c'), ('B', '\u1d2e'), ('D', '\u1d30'), ('E', '\u1d31'), ('G', '\u1d33'), ('H', '\u1d34'), ('I', '\u1d35'), ('J', '\u1d36'),
    ('K', '\u1d37'), ('L', '\u1d38'), ('M', '\u1d39'), ('N', '\u1d3a'), ('O', '\u1d3c'), ('P', '\u1d3e'), ('R', '\u1d3f'), ('T', '\u1d40'),
    ('U', '\u1d41'), ('V', '\u2c7d'), ('W', '\u1d42'), ('\u03b2', '\u1d5d'), ('\u03b3', '\u1d5e'), ('\u03b4', '\u1d5f'),
    ('\u03b5', '\u1d4b'), ('\u03b8', '\u1dbf'), ('\u03b9', '\u1da5'), ('\u03c6', '\u1d60'), ('\u03c7', '\u1d61'), (' ', ' ')]

/-- `_GREEK_DICTIONARY`, lines 4-19 -/
def greek : List (List Char × List Char) :=
  [("Alpha".toList, ['\u0391']), ("Beta".toList, ['\u0392']), ("Gamma".toList, ['\u0393']), ("Delta".toList, ['\u0394']),
    ("Epsilon".toList, ['\u0395']), ("Zeta".toList, ['\u0396']), ("Eta".toList, ['\u0397']), ("Theta".toList, ['\u03a4']),
    ("Iota".toList, ['\u0399']), ("Kappa".toList, ['\u039a']), ("Lambda".toList, ['\u039b']), ("Mu".toList, ['\u039c']),
    ("Nu".toList, ['\u039d']), ("Xi".toList, ['\u039e']), ("Omicron".toList, ['\u039f']), ("Pi".toList, ['\u03a0']),
    ("Rho".toList, ['\u03a1']), ("Sigma".toList, ['\u03a3']), ("Tau".toList, ['\u03a4']), ("Upsilon".toList, ['\u03a5']),
    ("Ypsilon".toList, ['\u03a5']), ("Phi".toList, ['\u03a6']), ("Chi".toList, ['\u03a7']), ("Psi".toList, ['\u03a8']),
    ("Omega".toList, ['\u03a9']), ("alpha".toList, ['\u03b1']), ("beta".toList, ['\u03b2']), ("gamma".toList, ['\u03b3']),
    ("delta".toList, ['\u03b4']), ("epsilon".toList, ['\u03b5']), ("zeta".toList, ['\u03b6']), ("eta".toList, ['\u03b7']),
    ("theta".toList, ['\u03b8']), ("iota".toList, ['\u03b9']), ("kappa".toList, ['\u03ba']), ("lambda".toList, ['\u03bb']),
    ("mu".toList, ['\u03bc']), ("nu".toList, ['\u03bd']), ("xi".toList, ['\u03be']), ("omicron".toList, ['\u03bf']),
    ("pi".toList, ['\u03c0']), ("rho".toList, ['\u03c1']), ("sigma".toList, ['\u03c3']), ("tau".toList, ['\u03c4']),
    ("upsilon".toList, ['\u03c5']), ("ypsilon".toList, ['\u03c5']), ("phi".toList, ['\u03c6']), ("chi".toList, ['\u03c7']),
    ("psi".toList, ['\u03a8']), ("omega".toList, ['\u03c9']), ("khi".toList, ['\u03c7']), ("Khi".toList, ['\u03a7']),
    ("varepsilon".toList, ['\u03b5']), ("varkappa".toList, ['\u03ba']), ("varphi".toList, ['\u03c6']), ("varpi".toList, ['\u03c0']),
    ("varrho".toList, ['\u03c1']), ("varsigma".toList, ['\u03c2']), ("vartheta".toList, ['\u03b8']), ("up".toList, ['\u2191']),
    ("down".toList, ['\u2193']), ("uparrow".toList, ['\u2191']), ("downarrow".toList, ['\u2193'])]

/-! ## the code -/

/-- the parts of `re.split(r'(\\W+)', string)`, line 145 -/
inductive Piece where
  | word (w : List Char)
  | sep (c : Char)

/-- line 145 -/
def pieces (isW : Char → Bool) : List Char → List Piece
  | [] => []
  | c :: cs =>
    if isW c then
      match pieces isW cs with
      | .word w :: r => .word (c :: w) :: r
      | r => .word [c] :: r
    else .sep c :: pieces isW cs

/-- the body of the loop of `_translate_symbols`, lines 146-152: `_GREEK_DICTIONARY[s]` in line 150 is looked up with the word itself -/
def transPiece (low : List Char → List Char) : Piece → Res (List Char)
  | .word w =>
    match greek.lookup w with
    | some u => .ok u
    | none => if (greek.lookup (low w)).isSome then .error .keyError else .ok w
  | .sep c => .ok [c]

/-- the loop of `_translate_symbols` with the final `"".join`, lines 143-153 -/
def transPieces (low : List Char → List Char) : List Piece → Res (List Char)
  | [] => .ok []
  | p :: ps => transPiece low p >>= fun a => transPieces low ps >>= fun b => .ok (a ++ b)

/-- `_translate_symbols`, lines 140-153 -/
def translate (isW : Char → Bool) (low : List Char → List Char) (s : List Char) : Res (List Char) := transPieces low (pieces isW s)

/-- `[_translate_symbols(s) for s in ...]`, lines 84-85 -/
def translateAll (isW : Char → Bool) (low : List Char → List Char) : List (List Char) → Res (List (List Char))
  | [] => .ok []
  | s :: ss => translate isW low s >>= fun a => translateAll isW low ss >>= fun b => .ok (a :: b)

/-- every letter by the table, `none` for a `KeyError`; lines 135-137 -/
def mapAll (m : List (Char × Char)) : List Char → Option (List Char)
  | [] => some []
  | c :: cs =>
    match m.lookup c, mapAll m cs with
    | some d, some ds => some (d :: ds)
    | _, _ => none

/-- the length that counts, lines 127-130 -/
def effLen (s : List Char) : ℕ := if s.head? = some '(' ∧ s.getLast? = some ')' then s.length - 2 else s.length

/-- `_unicode_sub_super`, lines 123-137 (`none` for a `KeyError`) -/
def uniSubSup (m : List (Char × Char)) (maxLen : Option ℕ) (s : List Char) : Option (List Char) :=
  match maxLen with
  | some k => if k < effLen s then none else mapAll m s
  | none => mapAll m s

/-- a list of them, lines 90-96 -/
def uniAll (m : List (Char × Char)) (maxLen : Option ℕ) : List (List Char) → Option (List (List Char))
  | [] => some []
  | s :: ss =>
    match uniSubSup m maxLen s, uniAll m maxLen ss with
    | some a, some b => some (a :: b)
    | _, _ => none

/-- `sep.join(l)` -/
def join (sep : List Char) : List (List Char) → List Char
  | [] => []
  | [a] => a
  | a :: b :: l => a ++ sep ++ join sep (b :: l)

/-- the settings of `render_unicode_sub_super` -/
structure Cfg where
  subFirst : Bool
  uni : Bool
  sep : List Char
  maxLen : ℕ

/-- the text without Unicode sub- and superscripts, lines 108-119 -/
def plain (g : Cfg) (name : List Char) (subs supers : List (List Char)) : List Char :=
  let sub := join g.sep subs
  let sup := join g.sep supers
  let tsub := if sub.length > 0 then '_' :: sub else []
  let tsup := if sup.length > 0 then '^' :: sup else []
  if g.subFirst then name ++ tsub ++ tsup else name ++ tsup ++ tsub

/-- lines 87-120 -/
def assemble (g : Cfg) (name : List Char) (subs supers : List (List Char)) : List Char :=
  if g.uni then
    match uniAll supMap none supers, uniAll subMap (some g.maxLen) subs with
    | some sups, some subs' => if g.subFirst then name ++ join g.sep subs' ++ join g.sep sups else name ++ join g.sep sups ++ join g.sep subs'
    | _, _ => plain g name subs supers
  else plain g name subs supers

/-- `render_unicode_sub_super(..., translate_symbols=True)`, lines 45-120 -/
def render (isW : Char → Bool) (low : List Char → List Char) (g : Cfg) (name : List Char) (subs supers : List (List Char)) : Res (List Char) :=
  translateAll isW low supers >>= fun supers => translateAll isW low subs >>= fun subs => translate isW low name >>= fun name =>
    .ok (assemble g name subs supers)

/-! ## specification -/

/-- the words of a string -/
def words (isW : Char → Bool) (s : List Char) : List (List Char) :=
  (pieces isW s).filterMap fun | .word w => some w | .sep _ => none

/-- a word in the wrong case: not in the dictionary, but its lower case form is (`UP`, `PSI`, `DELTA`) -/
def Shout (low : List Char → List Char) (w : List Char) : Prop := greek.lookup w = none ∧ (greek.lookup (low w)).isSome = true

/-- the character a Unicode subscript (superscript) stands for -/
def unSub (c : Char) : Option Char := ((subMap.filter (·.1 != ' ')).map fun p => (p.2, p.1)).lookup c
def unSup (c : Char) : Option Char := ((supMap.filter (·.1 != ' ')).map fun p => (p.2, p.1)).lookup c

/-- characters at which a reader sees the end of the name -/
def isMark (c : Char) : Bool := c == '_' || c == '^' || (unSub c).isSome || (unSup c).isSome

/-- what a reader makes of the part after the name: subscript and superscript -/
def readScripts : List Char → List Char × List Char
  | '_' :: r => (r.takeWhile (· != '^'), (r.dropWhile (· != '^')).drop 1)
  | '^' :: r => ([], r)
  | r => ((r.takeWhile fun c => (unSub c).isSome).filterMap unSub, (r.dropWhile fun c => (unSub c).isSome).filterMap unSup)

/-- what a reader makes of a text: name, subscript, superscript -/
def read (t : List Char) : List Char × List Char × List Char :=
  (t.takeWhile (fun c => !isMark c), readScripts (t.dropWhile (fun c => !isMark c)))

/-! ## proofs -/

theorem lookup_mem {c d : Char} : ∀ {m : List (Char × Char)}, m.lookup c = some d → (c, d) ∈ m
  | [], h => by simp at h
  | (a, b) :: m, h => by
    rw [List.lookup_cons] at h
    split at h
    · next he => simp at he h; subst he; subst h; simp
    · exact List.mem_cons_of_mem _ (lookup_mem h)

theorem sub_table : ∀ p ∈ subMap, p.1 ≠ ' ' → unSub p.2 = some p.1 ∧ isMark p.2 = true ∧ p.2 ≠ '_' ∧ p.2 ≠ '^' := by decide +kernel
theorem sup_table : ∀ p ∈ supMap, p.1 ≠ ' ' → unSup p.2 = some p.1 ∧ unSub p.2 = none ∧ isMark p.2 = true ∧ p.2 ≠ '_' ∧ p.2 ≠ '^' := by decide +kernel

theorem mapAll_mem {m : List (Char × Char)} : ∀ {s t : List Char}, mapAll m s = some t → ∀ d ∈ t, ∃ c ∈ s, (c, d) ∈ m
  | [], t, h, d, hd => by simp [mapAll] at h; subst h; simp at hd
  | c :: s, t, h, d, hd => by
    simp only [mapAll] at h
    split at h
    · next e ds h1 h2 =>
      injection h with h
      subst h
      rcases List.mem_cons.mp hd with rfl | hd
      · exact ⟨c, by simp, lookup_mem h1⟩
      · obtain ⟨c', hc', hm⟩ := mapAll_mem h2 d hd
        exact ⟨c', by simp [hc'], hm⟩
    · cases h

theorem mapAll_inv {m : List (Char × Char)} {inv : Char → Option Char} (hinv : ∀ p ∈ m, p.1 ≠ ' ' → inv p.2 = some p.1) :
    ∀ {s t : List Char}, mapAll m s = some t → ' ' ∉ s → t.filterMap inv = s
  | [], t, h, _ => by simp [mapAll] at h; subst h; rfl
  | c :: s, t, h, hs => by
    simp only [mapAll] at h
    split at h
    · next e ds h1 h2 =>
      injection h with h
      subst h
      have hc : c ≠ ' ' := fun h => hs (by simp [h])
      have he : inv e = some c := hinv (c, e) (lookup_mem h1) hc
      rw [List.filterMap_cons_some he, mapAll_inv hinv h2 (fun h => hs (by simp [h]))]
    · cases h

theorem takeWhile_split {p : Char → Bool} {a b : List Char} (ha : ∀ c ∈ a, p c = true) (hb : ∀ c, b.head? = some c → p c = false) :
    (a ++ b).takeWhile p = a ∧ (a ++ b).dropWhile p = b := by
  induction a with
  | nil =>
    cases b with
    | nil => simp
    | cons c b => simp [hb c rfl]
  | cons c a ih =>
    have hc := ha c (by simp)
    have := ih (fun c hc => ha c (by simp [hc]))
    simp [hc, this]

theorem pieces_words (isW : Char → Bool) (low : List Char → List Char) (ps : List Piece) :
    ((∃ w, Piece.word w ∈ ps ∧ Shout low w) → transPieces low ps = .error .keyError) ∧
    ((¬ ∃ w, Piece.word w ∈ ps ∧ Shout low w) → ∃ r, transPieces low ps = .ok r) := by
  have _ := isW
  induction ps with
  | nil => simp [transPieces]
  | cons p ps ih =>
    cases p with
    | sep c =>
      have e : transPieces low (.sep c :: ps) = (transPieces low ps >>= fun b => .ok ([c] ++ b)) := rfl
      have hi : (∃ w, Piece.word w ∈ Piece.sep c :: ps ∧ Shout low w) ↔ ∃ w, Piece.word w ∈ ps ∧ Shout low w := by simp
      rw [hi, e]
      exact ⟨fun h => by rw [ih.1 h]; rfl, fun h => by obtain ⟨r, hr⟩ := ih.2 h; rw [hr]; exact ⟨_, rfl⟩⟩
    | word w =>
      by_cases hw : Shout low w
      · refine ⟨fun _ => ?_, fun h => absurd ⟨w, by simp, hw⟩ h⟩
        have : transPiece low (.word w) = .error .keyError := by simp [transPiece, hw.1, hw.2]
        simp only [transPieces, this]
        rfl
      · have hok : ∃ a, transPiece low (.word w) = .ok a := by
          cases hg : greek.lookup w with
          | some u => exact ⟨u, by simp [transPiece, hg]⟩
          | none =>
            refine ⟨w, ?_⟩
            have : ¬ (greek.lookup (low w)).isSome = true := fun h => hw ⟨hg, h⟩
            simp only [transPiece, hg, if_neg this]
        obtain ⟨a, ha⟩ := hok
        have hi : (∃ w', Piece.word w' ∈ Piece.word w :: ps ∧ Shout low w') ↔ ∃ w, Piece.word w ∈ ps ∧ Shout low w := by
          constructor
          · rintro ⟨w', hm, hs⟩
            rcases List.mem_cons.mp hm with he | hm
            · cases he; exact absurd hs hw
            · exact ⟨w', hm, hs⟩
          · rintro ⟨w', hm, hs⟩; exact ⟨w', by simp [hm], hs⟩
        rw [hi]
        simp only [transPieces, ha]
        exact ⟨fun h => by rw [ih.1 h]; rfl, fun h => by obtain ⟨r, hr⟩ := ih.2 h; rw [hr]; exact ⟨_, rfl⟩⟩

theorem mem_words (isW : Char → Bool) (s w : List Char) : w ∈ words isW s ↔ Piece.word w ∈ pieces isW s := by
  simp only [words, List.mem_filterMap]
  constructor
  · rintro ⟨p, hp, h⟩
    cases p with
    | word w' => simp only [Option.some.injEq] at h; subst h; exact hp
    | sep c => simp at h
  · intro h; exact ⟨_, h, rfl⟩

theorem translate_iff (isW : Char → Bool) (low : List Char → List Char) (s : List Char) :
    ((∃ w ∈ words isW s, Shout low w) → translate isW low s = .error .keyError) ∧
    ((¬ ∃ w ∈ words isW s, Shout low w) → ∃ r, translate isW low s = .ok r) := by
  have := pieces_words isW low (pieces isW s)
  simp only [← mem_words] at this
  exact this

theorem translateAll_iff (isW : Char → Bool) (low : List Char → List Char) (l : List (List Char)) :
    ((∃ s ∈ l, ∃ w ∈ words isW s, Shout low w) → translateAll isW low l = .error .keyError) ∧
    ((¬ ∃ s ∈ l, ∃ w ∈ words isW s, Shout low w) → ∃ r, translateAll isW low l = .ok r) := by
  induction l with
  | nil => simp [translateAll]
  | cons s l ih =>
    by_cases hs : ∃ w ∈ words isW s, Shout low w
    · refine ⟨fun _ => ?_, fun h => absurd ⟨s, by simp, hs⟩ h⟩
      simp only [translateAll, (translate_iff isW low s).1 hs]
      rfl
    · obtain ⟨a, ha⟩ := (translate_iff isW low s).2 hs
      have hi : (∃ s' ∈ s :: l, ∃ w ∈ words isW s', Shout low w) ↔ ∃ s ∈ l, ∃ w ∈ words isW s, Shout low w := by
        constructor
        · rintro ⟨s', hm, hw⟩
          rcases List.mem_cons.mp hm with rfl | hm
          · exact absurd hw hs
          · exact ⟨s', hm, hw⟩
        · rintro ⟨s', hm, hw⟩; exact ⟨s', by simp [hm], hw⟩
      rw [hi]
      simp only [translateAll, ha]
      exact ⟨fun h => by rw [ih.1 h]; rfl, fun h => by obtain ⟨r, hr⟩ := ih.2 h; rw [hr]; exact ⟨_, rfl⟩⟩

/-! ## results -/

/-- **C97**: rendering raises (a `KeyError`) exactly if some word of the name, of a subscript or of a superscript is not in the dictionary of Greek letters
although its lower case form is; in all other cases a text is returned. -/
theorem C97_error (isW : Char → Bool) (low : List Char → List Char) (g : Cfg) (name : List Char) (subs supers : List (List Char)) :
    (render isW low g name subs supers = .error .keyError ↔ ∃ s ∈ name :: subs ++ supers, ∃ w ∈ words isW s, Shout low w) ∧
    ((∃ t, render isW low g name subs supers = .ok t) ↔ ¬ ∃ s ∈ name :: subs ++ supers, ∃ w ∈ words isW s, Shout low w) := by
  have hi : (∃ s ∈ name :: subs ++ supers, ∃ w ∈ words isW s, Shout low w) ↔
      ((∃ s ∈ supers, ∃ w ∈ words isW s, Shout low w) ∨ (∃ s ∈ subs, ∃ w ∈ words isW s, Shout low w) ∨ ∃ w ∈ words isW name, Shout low w) := by
    simp only [List.cons_append, List.mem_cons, List.mem_append]
    constructor
    · rintro ⟨s, rfl | h | h, hw⟩
      · exact .inr (.inr hw)
      · exact .inr (.inl ⟨s, h, hw⟩)
      · exact .inl ⟨s, h, hw⟩
    · rintro (⟨s, h, hw⟩ | ⟨s, h, hw⟩ | hw)
      · exact ⟨s, .inr (.inr h), hw⟩
      · exact ⟨s, .inr (.inl h), hw⟩
      · exact ⟨name, .inl rfl, hw⟩
  rw [hi]
  by_cases h1 : ∃ s ∈ supers, ∃ w ∈ words isW s, Shout low w
  · have e : render isW low g name subs supers = .error .keyError := by
      simp only [render, (translateAll_iff isW low supers).1 h1]; rfl
    rw [e]
    exact ⟨⟨fun _ => .inl h1, fun _ => rfl⟩, ⟨fun ⟨_, h⟩ => (by cases h), fun h => absurd (.inl h1) h⟩⟩
  · obtain ⟨a, ha⟩ := (translateAll_iff isW low supers).2 h1
    by_cases h2 : ∃ s ∈ subs, ∃ w ∈ words isW s, Shout low w
    · have e : render isW low g name subs supers = .error .keyError := by
        simp only [render, ha, (translateAll_iff isW low subs).1 h2]; rfl
      rw [e]
      exact ⟨⟨fun _ => .inr (.inl h2), fun _ => rfl⟩, ⟨fun ⟨_, h⟩ => (by cases h), fun h => absurd (.inr (.inl h2)) h⟩⟩
    · obtain ⟨b, hb⟩ := (translateAll_iff isW low subs).2 h2
      by_cases h3 : ∃ w ∈ words isW name, Shout low w
      · have e : render isW low g name subs supers = .error .keyError := by
          simp only [render, ha, hb, (translate_iff isW low name).1 h3]; rfl
        rw [e]
        exact ⟨⟨fun _ => .inr (.inr h3), fun _ => rfl⟩, ⟨fun ⟨_, h⟩ => (by cases h), fun h => absurd (.inr (.inr h3)) h⟩⟩
      · obtain ⟨c, hc⟩ := (translate_iff isW low name).2 h3
        have e : render isW low g name subs supers = .ok (assemble g c b a) := by
          simp only [render, ha, hb, hc]; rfl
        rw [e]
        exact ⟨⟨fun h => (by cases h), fun h => (h.elim h1 fun h => h.elim h2 h3).elim⟩,
          ⟨fun _ h => h.elim h1 fun h => h.elim h2 h3, fun _ => ⟨_, rfl⟩⟩⟩

/-- **C97 (partial)**: with one subscript and one superscript (as the printers call it), and the subscript first, a reader recovers the name, the subscript
and the superscript from the text - whatever mixture of Unicode and `_`/`^` notation the code has chosen - provided the name contains no
marks, the scripts no blanks, and the subscript no `^`. (All after the translation of Greek letters, see `C97_refuted_greek`.) -/
theorem C97_read_partial (g : Cfg) (hg : g.subFirst = true) (name sub sup : List Char) (hn : ∀ c ∈ name, isMark c = false)
    (h1 : ' ' ∉ sub) (h2 : ' ' ∉ sup) (h3 : '^' ∉ sub) : read (assemble g name [sub] [sup]) = (name, sub, sup) := by
  have hn' : ∀ c ∈ name, (!isMark c) = true := fun c hc => by simp [hn c hc]
  have key : read (plain g name [sub] [sup]) = (name, sub, sup) := by
    cases sub with
    | cons x sub' =>
      have hns : ∀ c ∈ x :: sub', (c != '^') = true := fun c hc => by
        simp only [bne_iff_ne, ne_eq]; rintro rfl; exact h3 hc
      cases sup with
      | nil =>
        have e : plain g name [x :: sub'] [[]] = name ++ '_' :: (x :: sub') := by simp [plain, hg, join]
        have hsplit := takeWhile_split (p := fun c => !isMark c) (a := name) (b := '_' :: (x :: sub')) hn'
          (by intro c hc; simp at hc; subst hc; decide)
        have hs2 := takeWhile_split (p := fun c => c != '^') (a := x :: sub') (b := []) hns (by simp)
        rw [List.append_nil] at hs2
        rw [e, read, hsplit.1, hsplit.2, readScripts, hs2.1, hs2.2]
        rfl
      | cons y sup' =>
        have e : plain g name [x :: sub'] [y :: sup'] = name ++ '_' :: ((x :: sub') ++ '^' :: (y :: sup')) := by simp [plain, hg, join]
        have hsplit := takeWhile_split (p := fun c => !isMark c) (a := name) (b := '_' :: ((x :: sub') ++ '^' :: (y :: sup'))) hn'
          (by intro c hc; simp at hc; subst hc; decide)
        have hs2 := takeWhile_split (p := fun c => c != '^') (a := x :: sub') (b := '^' :: (y :: sup')) hns
          (by intro c hc; simp at hc; subst hc; decide)
        rw [e, read, hsplit.1, hsplit.2, readScripts, hs2.1, hs2.2]
        rfl
    | nil =>
      cases sup with
      | cons y sup' =>
        have e : plain g name [[]] [y :: sup'] = name ++ '^' :: (y :: sup') := by simp [plain, hg, join]
        have hsplit := takeWhile_split (p := fun c => !isMark c) (a := name) (b := '^' :: (y :: sup')) hn'
          (by intro c hc; simp at hc; subst hc; decide)
        rw [e, read, hsplit.1, hsplit.2, readScripts]
      | nil =>
        have e : plain g name [[]] [[]] = name ++ [] := by simp [plain, hg, join]
        have hsplit := takeWhile_split (p := fun c => !isMark c) (a := name) (b := []) hn' (by simp)
        rw [e, read, hsplit.1, hsplit.2]
        rfl
  unfold assemble
  split
  · split
    · next a b ha hb =>
      simp only [uniAll] at ha hb
      split at ha
      · next sup' _ hsup hx =>
        simp only [Option.some.injEq] at hx ha
        subst hx; subst ha
        split at hb
        · next sub' _ hsub hx =>
          simp only [Option.some.injEq] at hx hb
          subst hx; subst hb
          simp only [hg, if_true, join]
          have hsup2 : mapAll supMap sup = some sup' := hsup
          have hsub2 : mapAll subMap sub = some sub' := by
            simp only [uniSubSup] at hsub
            split at hsub
            · cases hsub
            · exact hsub
          have ms : ∀ d ∈ sub', (unSub d).isSome = true ∧ isMark d = true ∧ d ≠ '_' ∧ d ≠ '^' := by
            intro d hd
            obtain ⟨c, hc, hm⟩ := mapAll_mem hsub2 d hd
            have := sub_table (c, d) hm (fun h => h1 (by rw [← h]; exact hc))
            exact ⟨by rw [this.1]; rfl, this.2⟩
          have mp : ∀ d ∈ sup', (unSub d).isSome = false ∧ isMark d = true ∧ d ≠ '_' ∧ d ≠ '^' := by
            intro d hd
            obtain ⟨c, hc, hm⟩ := mapAll_mem hsup2 d hd
            have := sup_table (c, d) hm (fun h => h2 (by rw [← h]; exact hc))
            exact ⟨by rw [this.2.1]; rfl, this.2.2⟩
          have hmem : ∀ c, (sub' ++ sup').head? = some c → isMark c = true ∧ c ≠ '_' ∧ c ≠ '^' := by
            intro c hc
            have : c ∈ sub' ++ sup' := List.mem_of_mem_head? hc
            rcases List.mem_append.mp this with h | h
            · exact (ms c h).2
            · exact (mp c h).2
          rw [List.append_assoc]
          have hsplit := takeWhile_split (p := fun c => !isMark c) (a := name) (b := sub' ++ sup') hn'
            (by intro c hc; simp [(hmem c hc).1])
          have hs2 := takeWhile_split (p := fun c => (unSub c).isSome) (a := sub') (b := sup') (fun c hc => (ms c hc).1)
            (by intro c hc; exact (mp c (List.mem_of_mem_head? hc)).1)
          rw [read, hsplit.1, hsplit.2]
          unfold readScripts
          split
          · next r heq => exact absurd rfl (hmem '_' (by rw [heq]; rfl)).2.1
          · next r heq => exact absurd rfl (hmem '^' (by rw [heq]; rfl)).2.2
          · rw [hs2.1, hs2.2, mapAll_inv (fun p hp h => (sub_table p hp h).1) hsub2 h1, mapAll_inv (fun p hp h => (sup_table p hp h).1) hsup2 h2]
        · cases hb
      · cases ha
    · exact key
  · exact key

/-- **C97**: hence different names, subscripts or superscripts give different texts. -/
theorem C97_injective_partial (g : Cfg) (hg : g.subFirst = true) (n n' s s' p p' : List Char)
    (hn : ∀ c ∈ n ++ n', isMark c = false) (h1 : ' ' ∉ s ++ s' ++ p ++ p') (h2 : '^' ∉ s ++ s')
    (h : assemble g n [s] [p] = assemble g n' [s'] [p']) : n = n' ∧ s = s' ∧ p = p' := by
  simp only [List.mem_append, not_or] at h1 h2
  have a := C97_read_partial g hg n s p (fun c hc => hn c (by simp [hc])) h1.1.1.1 h1.1.2 h2.1
  have b := C97_read_partial g hg n' s' p' (fun c hc => hn c (by simp [hc])) h1.1.1.2 h1.2 h2.2
  rw [h, b] at a
  simp only [Prod.mk.injEq] at a
  exact ⟨a.1.symm, a.2.1.symm, a.2.2.symm⟩

/-- the ASCII word characters -/
def asciiW (c : Char) : Bool := c.isAlphanum || c == '_'
/-- `str.lower` on ASCII letters -/
def asciiLow (s : List Char) : List Char := s.map Char.toLower
/-- the default settings -/
def dflt : Cfg := ⟨true, true, [','], 1⟩

/-- **C97**: the symbol `UP` cannot be printed: `KeyError` -/
theorem C97_refuted_upper : render asciiW asciiLow dflt "UP".toList [] ["1".toList] = .error .keyError := by decide +kernel

/-- **C97**: the text does not determine the symbol: `Theta` is printed as the capital letter tau, `psi` as the capital letter psi -/
theorem C97_refuted_greek :
    render asciiW asciiLow dflt "Theta".toList [] [] = render asciiW asciiLow dflt "Tau".toList [] [] ∧
    render asciiW asciiLow dflt "psi".toList [] [] = render asciiW asciiLow dflt "Psi".toList [] [] ∧
    (∃ t, render asciiW asciiLow dflt "psi".toList [] [] = .ok t) := by
  exact ⟨by decide +kernel, by decide +kernel, ['\u03a8'], by decide +kernel⟩

/-- **C97**: a name that contains a mark imitates a script: `a_b` without a subscript and `a` with the subscript `b` -/
theorem C97_refuted_mark : assemble dflt "a_b".toList [] [] = assemble dflt "a".toList ["b".toList] [[]] := by decide +kernel

/-- `alpha` with subscript 1 and superscript (1), as in the documentation, and the fall-back for `mu,nu` -/
example : render asciiW asciiLow ⟨true, true, [], 1⟩ "alpha".toList ["1".toList, "2".toList] ["(1)".toList]
    = .ok ['\u03b1', '\u2081', '\u2082', '\u207d', '\u00b9', '\u207e'] := by decide +kernel
example : render asciiW asciiLow dflt "alpha".toList ["mu".toList, "nu".toList] ["2".toList]
    = .ok ['\u03b1', '_', '\u03bc', ',', '\u03bd', '^', '2'] := by decide +kernel
/-- the hypotheses of `C97_read_partial`, for `A` with subscript `n` on the space `1` -/
example : (∀ c ∈ "A".toList, isMark c = false) ∧ ' ' ∉ "n".toList ∧ ' ' ∉ "(1)".toList ∧ '^' ∉ "n".toList := by decide +kernel

end QNET.UniSub
