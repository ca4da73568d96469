import Verif.Perm.Thm

/-!
# C03: the type of the sequence given to `permute` (permutations.py lines 221-239)
-/

namespace QNET.Perm

/-- A Python sequence: lists and tuples of anything, strings, and other sequence types (`deque`, `range`, NumPy arrays). -/
inductive PySeq (α : Type) where
  | list (l : List α)
  | tuple (l : List α)
  | str (s : List Char)
  | other (l : List α)

/-- The entries `seq[0], seq[1], …`; the entries of a string are its characters. -/
def PySeq.entries {α : Type} : PySeq α → List (α ⊕ Char)
  | .list l => l.map .inl
  | .tuple l => l.map .inl
  | .str s => s.map .inr
  | .other l => l.map .inl

/-- `<generator object permute.<locals>.<genexpr> at 0x` -/
def generatorText : List Char :=
  ['<', 'g', 'e', 'n', 'e', 'r', 'a', 't', 'o', 'r', ' ', 'o', 'b', 'j', 'e', 'c', 't', ' ', 'p', 'e', 'r', 'm', 'u', 't', 'e', '.', '<', 'l', 'o', 'c', 'a', 'l', 's', '>', '.', '<', 'g', 'e', 'n', 'e', 'x', 'p', 'r', '>', ' ', 'a', 't', ' ', '0', 'x']

/-- `str(generator)`: the text `<generator object permute.<locals>.<genexpr> at 0x…>`; `addr` is the address in memory. -/
def generatorRepr (addr : List Char) : List Char := generatorText ++ addr ++ ['>']

/-- `permute`, permutations.py lines 221-239, for every type of sequence: `constructor((sequence[p] for p in permutation))` with the
constructor `list`, `tuple` or `str`, or `list` for other types. -/
def permuteSeq {α : Type} (addr : List Char) (s : PySeq α) (p : List Nat) : Res (PySeq α) :=
  match s with
  | .list l => (permute l p).map .list
  | .tuple l => (permute l p).map .tuple
  | .str t => (permute t p).map fun _ => .str (generatorRepr addr)
  | .other l => (permute l p).map .list

theorem permute_entries {α β : Type} (f : α → β) {l r : List α} {p : List Nat} (hl : l.length = p.length) (hp : IsBijection p)
    (h : permute l p = .ok r) : r.length = l.length ∧ ∀ j k : Nat, p[j]? = some k → (r.map f)[j]? = (l.map f)[k]? := by
  obtain ⟨r', h1, h2, h3⟩ := C03_permute_entry hl hp
  rw [h] at h1
  injection h1 with h1
  subst h1
  refine ⟨h2, fun j k hjk => ?_⟩
  rw [List.getElem?_map, List.getElem?_map, h3 j k hjk]

/-- C03: for lists, tuples and other sequences that are not strings, `permute` returns the permuted entries, as a list for a list, as a
tuple for a tuple. -/
theorem C03_sequence_partial {α : Type} (addr : List Char) {s : PySeq α} {p : List Nat} (hl : s.entries.length = p.length)
    (hp : IsBijection p) (hs : ∀ t, s ≠ .str t) :
    ∃ r, permuteSeq addr s p = .ok r ∧ r.entries.length = s.entries.length ∧
      (∀ j k : Nat, p[j]? = some k → r.entries[j]? = s.entries[k]?) ∧
      ((∃ l, s = .tuple l) → ∃ l, r = .tuple l) ∧ ((∀ l, s ≠ .tuple l) → ∃ l, r = .list l) := by
  cases s with
  | str t => exact absurd rfl (hs t)
  | list l =>
    simp only [PySeq.entries, List.length_map] at hl
    obtain ⟨r, h, -, -⟩ := C03_permute_entry hl hp
    obtain ⟨h1, h2⟩ := permute_entries (β := α ⊕ Char) .inl hl hp h
    exact ⟨.list r, by simp [permuteSeq, h, Except.map], by simp [PySeq.entries, h1], h2, by simp, by simp⟩
  | tuple l =>
    simp only [PySeq.entries, List.length_map] at hl
    obtain ⟨r, h, -, -⟩ := C03_permute_entry hl hp
    obtain ⟨h1, h2⟩ := permute_entries (β := α ⊕ Char) .inl hl hp h
    exact ⟨.tuple r, by simp [permuteSeq, h, Except.map], by simp [PySeq.entries, h1], h2, by simp, by simp⟩
  | other l =>
    simp only [PySeq.entries, List.length_map] at hl
    obtain ⟨r, h, -, -⟩ := C03_permute_entry hl hp
    obtain ⟨h1, h2⟩ := permute_entries (β := α ⊕ Char) .inl hl hp h
    exact ⟨.list r, by simp [permuteSeq, h, Except.map], by simp [PySeq.entries, h1], h2, by simp, by simp⟩

example : permuteSeq (α := Nat) [] (.tuple [7, 8, 9]) [2, 0, 1] = .ok (.tuple [9, 7, 8]) := rfl

/-- C03 is false of the code for strings: for every string and every valid permutation of its characters the result is the text of a
generator object, which has more than 50 characters and begins with `<`. -/
theorem C03_refuted_str (addr t : List Char) {p : List Nat} (hl : t.length = p.length) (hp : IsBijection p) :
    ∃ r, permuteSeq (α := Nat) addr (.str t) p = .ok (.str r) ∧ r = generatorRepr addr ∧ 50 < r.length ∧ r.head? = some '<' := by
  obtain ⟨r, h, -, -⟩ := C03_permute_entry hl hp
  refine ⟨generatorRepr addr, by simp [permuteSeq, h, Except.map], rfl, ?_, rfl⟩
  simp only [generatorRepr, List.length_append]
  have : generatorText.length = 50 := by decide +kernel
  rw [this]
  simp
  omega

example : IsBijection [1, 0] := (C01_check_iff [1, 0]).mp (by decide)

end QNET.Perm
