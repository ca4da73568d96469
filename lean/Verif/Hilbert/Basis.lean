import Verif.Hilbert.Thm

/-!
# C27: basis states (`LocalSpace` in hilbert_space_algebra.py, `BasisKet` in state_algebra.py)
-/

namespace QNET.Hilbert

open QNET.Order QNET.Perm

/-- A label or an index of a basis state (symbolic labels are not modelled). -/
inductive LabelIdx where
  | label (s : Str)
  | index (i : ℤ)
  deriving DecidableEq

/-- `str(i)` for an integer -/
def strInt (i : ℤ) : Str := if i < 0 then '-' :: strNat i.natAbs else strNat i.natAbs

/-- `tuple.index(x)` -/
def indexOf? (b : List Str) (s : Str) : Option ℕ := b.idxOf? s

/-- `LocalSpace._unpack_basis_label_or_index`, hilbert_space_algebra.py lines 312-372. -/
def unpack (l : Loc) : LabelIdx → Res (Str × ℤ)
  | .label s =>
    match l.basis with
    | none => .error .basisNotSet
    | some b => match indexOf? b s with
      | some i => .ok (s, i)
      | none => .error .valueError
  | .index i =>
    if i < 0 then .error .valueError
    else match l.basis, l.dim with
      | some b, some d => if i ≥ d then .error .valueError else
          match b[i.toNat]? with
          | some s => .ok (s, i)
          | none => .error .indexError
      | some _, none => .error .basisNotSet
      | none, _ => .ok (strInt i, i)

/-- A basis ket `BasisKet(label, hs=space)` with its index. -/
structure BKet where
  space : Loc
  label : Str
  index : ℤ
  deriving DecidableEq

/-- The class `[A-Za-z0-9+-]` of the regular expression `KetSymbol._rx_label`, state_algebra.py lines 174-176. -/
def rxHead (c : Char) : Bool := c.isAlphanum || c == '+' || c == '-'

/-- The class `[A-Za-z0-9()_,.+-=]`; `+-=` is the range of characters from `+` to `=`, which contains `+,-./0123456789:;<=`. -/
def rxTail (c : Char) : Bool := c.isAlphanum || c == '(' || c == ')' || c == '_' || (decide ('+'.val ≤ c.val) && decide (c.val ≤ '='.val))

/-- `KetSymbol._rx_label.match(s)`, state_algebra.py lines 174-176: `^[+-]?\d+(/\d+)?$|^[A-Za-z0-9+-]+([A-Za-z0-9()_,.+-=]+)?$`. The
first alternative is contained in the second one, apart from decimal digits outside of ASCII, which are not modelled; `$` also matches
before a final newline. -/
def ketLabelOk : Str → Bool
  | [] => false
  | c :: r => rxHead c && (if r.getLast? = some '\n' then r.dropLast else r).all rxTail

/-- `BasisKet(label_or_index, hs=l)`, state_algebra.py lines 284-288, with the check of the label in `QuantumSymbol.__init__`
(abstract_quantum_algebra.py lines 330-334). -/
def basisKet (l : Loc) (x : LabelIdx) : Res BKet := do
  let (s, i) ← unpack l x
  if ketLabelOk s then .ok ⟨l, s, i⟩ else .error .valueError

/-- `LocalSpace.next_basis_label_or_index` for an index, hilbert_space_algebra.py lines 485-494; `n` may be negative. -/
def nextIndex (l : Loc) (i n : ℤ) : Res ℤ :=
  if i + n < 0 then .error .indexError
  else match l.basis, l.dim with
    | some _, some d => if i + n ≥ d then .error .indexError else .ok (i + n)
    | some _, none => .error .basisNotSet
    | none, _ => .ok (i + n)

/-- `LocalSpace.next_basis_label_or_index` for a label, lines 495-502. -/
def nextLabel (l : Loc) (s : Str) (n : ℤ) : Res Str :=
  match l.basis with
  | none => .error .basisNotSet
  | some b => match indexOf? b s with
    | none => .error .valueError
    | some i =>
      if i + n < 0 ∨ i + n ≥ b.length then .error .indexError
      else match b[(i + n).toNat]? with
        | some t => .ok t
        | none => .error .indexError

/-- `BasisKet.next(n)`, state_algebra.py lines 322-353; `none` is `ZeroKet`. -/
def BKet.next (k : BKet) (n : ℤ) : Res (Option BKet) :=
  match nextIndex k.space k.index n with
  | .error .indexError => .ok none
  | .error e => .error e
  | .ok i => do
    let k' ← basisKet k.space (.index i)
    .ok (some k')

/-- `BasisKet.prev(n)`, lines 355-364. -/
def BKet.prev (k : BKet) (n : ℤ) : Res (Option BKet) := k.next (-n)

/-- `BasisKet.create(label_or_index, hs=l)` with `basis_ket_zero_outside_hs` (algebraic_properties.py lines 620-631). -/
def createKet (l : Loc) (x : LabelIdx) : Res (Option BKet) :=
  match x with
  | .index i =>
    if decide (i < 0) || (match l.dim with | some d => decide (i ≥ (d : ℤ)) | none => false) then .ok none
    else do
      let k ← basisKet l x
      .ok (some k)
  | .label _ => do
    let k ← basisKet l x
    .ok (some k)

/-! ### specification -/

/-- The level `i` exists in the space `l`. -/
def Loc.HasLevel (l : Loc) (i : ℤ) : Prop := 0 ≤ i ∧ ∀ d, l.dim = some d → i < d

/-- The label of level `i`: the `i`'th basis label, or the number itself if the space has no basis. -/
def Loc.IsLabel (l : Loc) (i : ℤ) (s : Str) : Prop :=
  match l.basis with
  | some b => b[i.toNat]? = some s
  | none => s = strInt i

theorem indexOf?_some {b : List Str} {s : Str} {i : ℕ} (h : indexOf? b s = some i) :
    b[i]? = some s ∧ i < b.length ∧ ∀ j < i, b[j]? ≠ some s := by
  unfold indexOf? at h
  rw [List.idxOf?, List.findIdx?_eq_some_iff_getElem] at h
  obtain ⟨h1, h2, h3⟩ := h
  have e : b[i] = s := by simpa using h2
  refine ⟨by rw [List.getElem?_eq_getElem h1, e], h1, ?_⟩
  intro j hj hc
  have h4 := h3 j hj
  rw [List.getElem?_eq_getElem (by omega)] at hc
  injection hc with hc
  simp [hc] at h4

theorem indexOf?_none {b : List Str} {s : Str} (h : s ∈ b) : ∃ i, indexOf? b s = some i := by
  cases e : indexOf? b s with
  | some i => exact ⟨i, rfl⟩
  | none => unfold indexOf? at e; rw [List.idxOf?_eq_none_iff] at e; exact absurd h e

theorem unpack_index {l : Loc} (hl : l.WF) {i : ℤ} (h : l.HasLevel i) :
    ∃ s, l.IsLabel i s ∧ unpack l (.index i) = .ok (s, i) := by
  unfold unpack Loc.IsLabel
  dsimp only
  rw [if_neg (by have := h.1; omega)]
  unfold Loc.WF at hl
  cases hb : l.basis with
  | none => exact ⟨_, rfl, rfl⟩
  | some b =>
    have hd : l.dim = some b.length := by rw [hl, hb]; rfl
    have h2 := h.2 _ hd
    have hlt : i.toNat < b.length := by have := h.1; omega
    refine ⟨b[i.toNat], List.getElem?_eq_getElem hlt, ?_⟩
    simp only [hd]
    rw [if_neg (by omega), List.getElem?_eq_getElem hlt]

theorem unpack_spec {l : Loc} (hw : l.WF) {x : LabelIdx} {r : Str × ℤ} (h : unpack l x = .ok r) :
    l.HasLevel r.2 ∧ l.IsLabel r.2 r.1 ∧ (∀ i, x = .index i → r.2 = i) ∧ (∀ s, x = .label s → r.1 = s) := by
  cases x with
  | index i =>
    by_cases hi : l.HasLevel i
    · obtain ⟨s, hs, e⟩ := unpack_index hw hi
      rw [h] at e; injection e with e; subst e
      exact ⟨hi, hs, by simp, by simp⟩
    · exfalso
      unfold unpack at h
      dsimp only at h
      by_cases h0 : i < 0
      · rw [if_pos h0] at h; cases h
      · rw [if_neg h0] at h
        unfold Loc.WF at hw
        cases hb : l.basis with
        | none =>
          apply hi
          refine ⟨by omega, fun d hd => ?_⟩
          rw [hw, hb] at hd; cases hd
        | some b =>
          have hd : l.dim = some b.length := by rw [hw, hb]; rfl
          simp only [hb, hd] at h
          split at h
          · cases h
          · rename_i hlt
            apply hi
            refine ⟨by omega, fun d hd' => ?_⟩
            rw [hd] at hd'; injection hd' with hd'; omega
  | label s =>
    unfold unpack at h
    unfold Loc.WF at hw
    cases hb : l.basis with
    | none => simp only [hb] at h; cases h
    | some b =>
      simp only [hb] at h
      cases hi : indexOf? b s with
      | none => simp only [hi] at h; cases h
      | some i =>
        simp only [hi] at h
        injection h with h
        subst h
        obtain ⟨h1, h2, -⟩ := indexOf?_some hi
        have hd : l.dim = some b.length := by rw [hw, hb]; rfl
        refine ⟨⟨by simp, fun d hd' => ?_⟩, ?_, by simp, by simp⟩
        · rw [hd] at hd'; injection hd' with hd'; show (i : ℤ) < d; omega
        · unfold Loc.IsLabel; rw [hb]; simpa using h1

theorem basisKet_of_unpack {l : Loc} {x : LabelIdx} {s : Str} {i : ℤ} (h : unpack l x = .ok (s, i)) :
    basisKet l x = if ketLabelOk s then .ok ⟨l, s, i⟩ else .error .valueError := by
  unfold basisKet
  rw [h]
  rfl

theorem basisKet_ok {l : Loc} {x : LabelIdx} {k : BKet} :
    basisKet l x = .ok k ↔ unpack l x = .ok (k.label, k.index) ∧ k.space = l ∧ ketLabelOk k.label = true := by
  cases h : unpack l x with
  | error e => unfold basisKet; rw [h]; constructor
               · intro h; cases h
               · rintro ⟨h, -⟩; cases h
  | ok r =>
    obtain ⟨s, i⟩ := r
    rw [basisKet_of_unpack h]
    constructor
    · intro hk
      split at hk
      · rename_i hs
        injection hk with hk; subst hk
        exact ⟨rfl, rfl, hs⟩
      · cases hk
    · rintro ⟨h1, h2, h3⟩
      injection h1 with h1
      injection h1 with h1 h4
      subst h1 h4 h2
      rw [if_pos h3]

/-- C27: a basis ket, created by label or by index, has an existing level and the label of that level. -/
theorem C27_label_index {l : Loc} (hl : Reachable (.loc l)) {x : LabelIdx} {k : BKet} (h : basisKet l x = .ok k) :
    k.space = l ∧ l.HasLevel k.index ∧ l.IsLabel k.index k.label ∧
    (∀ i, x = .index i → k.index = i) ∧ (∀ s, x = .label s → k.label = s) := by
  obtain ⟨h1, h2, -⟩ := basisKet_ok.mp h
  obtain ⟨h3, h4, h5, h6⟩ := unpack_spec hl.wf h1
  exact ⟨h2, h3, h4, h5, h6⟩

theorem isLabel_inj {l : Loc} {i : ℤ} {s t : Str} (h : l.IsLabel i s) (h' : l.IsLabel i t) : s = t := by
  unfold Loc.IsLabel at h h'
  cases hb : l.basis <;> simp only [hb] at h h'
  · rw [h, h']
  · rw [h] at h'; injection h'

/-- C27: label → index → label, and index → label → index if the labels of the basis are distinct. -/
theorem C27_roundtrip {l : Loc} (hl : Reachable (.loc l)) {b : List Str} (hb : l.basis = some b) :
    (∀ s k, basisKet l (.label s) = .ok k → basisKet l (.index k.index) = .ok k) ∧
    (b.Nodup → ∀ i k, basisKet l (.index i) = .ok k → basisKet l (.label k.label) = .ok k) := by
  constructor
  · intro s k hk
    obtain ⟨g1, g2, g3⟩ := basisKet_ok.mp hk
    obtain ⟨h2, h3, -, -⟩ := unpack_spec hl.wf g1
    obtain ⟨t, ht, e⟩ := unpack_index hl.wf h2
    exact basisKet_ok.mpr ⟨by rw [e, isLabel_inj ht h3], g2, g3⟩
  · intro hn i k hk
    obtain ⟨g1, g2, g3⟩ := basisKet_ok.mp hk
    obtain ⟨h2, h3, -, -⟩ := unpack_spec hl.wf g1
    refine basisKet_ok.mpr ⟨?_, g2, g3⟩
    unfold Loc.IsLabel at h3
    rw [hb] at h3
    simp only at h3
    obtain ⟨j, hj⟩ := indexOf?_none (List.mem_of_getElem? h3)
    obtain ⟨e1, e2, -⟩ := indexOf?_some hj
    have hidx : j = k.index.toNat := by
      obtain ⟨g1, g2⟩ := List.getElem?_eq_some_iff.mp h3
      obtain ⟨g3, g4⟩ := List.getElem?_eq_some_iff.mp e1
      exact (List.Nodup.getElem_inj_iff hn).mp (g4.trans g2.symm)
    unfold unpack
    simp only [hb, hj]
    have : (j : ℤ) = k.index := by have := h2.1; simp only at this; omega
    rw [this]

/-- C27: `next(n)`, for every (also negative) number of steps, gives the state `n` levels up if that level exists, and the zero ket
otherwise. The label of an existing level must be one that a ket can have, otherwise `ValueError` is raised. -/
theorem C27_next_partial {l : Loc} (hl : Reachable (.loc l)) {x : LabelIdx} {k : BKet} (h : basisKet l x = .ok k) (n : ℤ) :
    (l.HasLevel (k.index + n) → ∃ s, l.IsLabel (k.index + n) s ∧
      (ketLabelOk s = true → k.next n = .ok (some ⟨l, s, k.index + n⟩)) ∧ (ketLabelOk s = false → k.next n = .error .valueError)) ∧
    (¬ l.HasLevel (k.index + n) → k.next n = .ok none) := by
  obtain ⟨h1, h2, h3, -, -⟩ := C27_label_index hl h
  have hw : l.WF := hl.wf
  have hx : nextIndex l k.index n = @ite _ (l.HasLevel (k.index + n)) (Classical.propDecidable _) (.ok (k.index + n)) (.error .indexError) := by
    unfold nextIndex
    unfold Loc.WF at hw
    by_cases h0 : k.index + n < 0
    · rw [if_pos h0, if_neg (fun hc => by have := hc.1; omega)]
    · rw [if_neg h0]
      cases hb : l.basis with
      | none =>
        rw [if_pos]
        refine ⟨by omega, fun d hd => ?_⟩
        rw [hw, hb] at hd; cases hd
      | some b =>
        have hd : l.dim = some b.length := by rw [hw, hb]; rfl
        simp only [hd]
        by_cases hc : k.index + n ≥ b.length
        · rw [if_pos hc, if_neg (fun hh => by have := hh.2 _ hd; omega)]
        · rw [if_neg hc, if_pos]
          refine ⟨by omega, fun d hd' => ?_⟩
          rw [hd] at hd'; injection hd' with hd'; omega
  constructor
  · intro hlev
    obtain ⟨s, hs, e⟩ := unpack_index hw hlev
    refine ⟨s, hs, fun hok => ?_, fun hok => ?_⟩ <;>
    · unfold BKet.next
      rw [h1, hx, if_pos hlev]
      simp only [basisKet_of_unpack e, hok]
      rfl
  · intro hlev
    unfold BKet.next
    rw [h1, hx, if_neg hlev]

/-- C27: going `n` steps and back again returns to the start, whenever the first move does not leave the space. -/
theorem C27_next_prev {l : Loc} (hl : Reachable (.loc l)) {x : LabelIdx} {k k' : BKet} (h : basisKet l x = .ok k) {n : ℤ}
    (hn : k.next n = .ok (some k')) : k'.prev n = .ok (some k) := by
  obtain ⟨h1, h2, h3, -, -⟩ := C27_label_index hl h
  by_cases hlev : l.HasLevel (k.index + n)
  · obtain ⟨s, hs, e1, e2⟩ := (C27_next_partial hl h n).1 hlev
    cases hok : ketLabelOk s with
    | false => rw [e2 hok] at hn; cases hn
    | true =>
      have e := e1 hok
      rw [hn] at e
      injection e with e; injection e with e
      have hk' : basisKet l (.index (k.index + n)) = .ok k' := by
        obtain ⟨t, ht, e'⟩ := unpack_index hl.wf hlev
        rw [basisKet_ok, e', e]
        exact ⟨by rw [isLabel_inj hs ht], rfl, hok⟩
      have hi : k'.index = k.index + n := by rw [e]
      have hback : k'.index + -n = k.index := by omega
      obtain ⟨t, ht, e', -⟩ := (C27_next_partial hl hk' (-n)).1 (by rw [hback]; exact h2)
      rw [hback] at e' ht
      have htl : t = k.label := isLabel_inj ht h3
      unfold BKet.prev
      rw [e' (by rw [htl]; exact (basisKet_ok.mp h).2.2), htl, ← h1]
  · rw [(C27_next_partial hl h n).2 hlev] at hn
    injection hn with hn; cases hn

/-- C27: creating a basis ket from an index gives the zero ket exactly when the level does not exist. -/
theorem C27_create_zero_partial {l : Loc} (hl : Reachable (.loc l)) (i : ℤ) :
    (¬ l.HasLevel i → createKet l (.index i) = .ok none) ∧
    (l.HasLevel i → ∃ s, l.IsLabel i s ∧
      createKet l (.index i) = if ketLabelOk s then .ok (some ⟨l, s, i⟩) else .error .valueError) := by
  have hiff : ((decide (i < 0) || (match l.dim with | some d => decide (i ≥ (d : ℤ)) | none => false)) = true) ↔ ¬ l.HasLevel i := by
    unfold Loc.HasLevel
    cases hd : l.dim with
    | none => simp
    | some d =>
      simp only [Bool.or_eq_true, decide_eq_true_eq, Option.some.injEq, forall_eq', not_and_or, not_le, not_lt, ge_iff_le]
  unfold createKet
  simp only
  constructor
  · intro h; rw [if_pos (hiff.mpr h)]
  · intro h
    rw [if_neg (fun hc => hiff.mp hc h)]
    obtain ⟨s, hs, e⟩ := unpack_index hl.wf h
    exact ⟨s, hs, by rw [basisKet_of_unpack e]; split <;> rfl⟩

/-- C27: `next_basis_label_or_index` for a label moves `n` positions in the list of basis labels. -/
theorem C27_next_label {l : Loc} {b : List Str} (hb : l.basis = some b) {s : Str} {i : ℕ} (hi : indexOf? b s = some i) (n : ℤ) :
    (0 ≤ i + n ∧ i + n < b.length → ∃ t, b[(i + n).toNat]? = some t ∧ nextLabel l s n = .ok t) ∧
    (¬ (0 ≤ i + n ∧ i + n < b.length) → nextLabel l s n = .error .indexError) := by
  unfold nextLabel
  simp only [hb, hi]
  constructor
  · rintro ⟨h1, h2⟩
    have hlt : ((i : ℤ) + n).toNat < b.length := by omega
    refine ⟨b[((i : ℤ) + n).toNat], List.getElem?_eq_getElem hlt, ?_⟩
    rw [if_neg (by omega), List.getElem?_eq_getElem hlt]
  · intro h
    rw [if_pos (by omega)]

theorem strNat_ok (n : ℕ) : ketLabelOk (strNat n) = true := by
  have hd : ∀ c ∈ strNat n, c.isDigit = true := fun c hc => Nat.isDigit_of_mem_toDigits (b := 10) (n := n) (by decide) (by decide) hc
  have hne : strNat n ≠ [] := Nat.toDigits_ne_nil
  cases h : strNat n with
  | nil => exact absurd h hne
  | cons c r =>
    rw [h] at hd
    have hal : ∀ c : Char, c.isDigit = true → c.isAlphanum = true := fun c h => by simp [Char.isAlphanum, h]
    unfold ketLabelOk
    have hlast : ¬ r.getLast? = some '\n' := by
      intro hc
      have := hd _ (List.mem_cons_of_mem _ (List.mem_of_getLast? hc))
      revert this; decide
    dsimp only
    rw [if_neg hlast]
    simp only [Bool.and_eq_true, List.all_eq_true]
    refine ⟨?_, fun x hx => ?_⟩
    · simp [rxHead, hal c (hd c (by simp))]
    · simp [rxTail, hal x (hd x (by simp [hx]))]

/-- C27: in a space without a list of labels of its own (numbered levels, with or without a dimension) no label is refused: creating and
moving basis kets follow the levels exactly. -/
theorem C27_numbered {label ids oi l} (dim : Option ℕ) (hl : mkLocal label none dim ids oi = .ok l) (i : ℤ) :
    (l.HasLevel i → ∃ s, l.IsLabel i s ∧ ketLabelOk s = true ∧ createKet l (.index i) = .ok (some ⟨l, s, i⟩)) ∧
    (∀ k n, basisKet l (.index i) = .ok k → l.HasLevel (i + n) → ∃ s, l.IsLabel (i + n) s ∧ k.next n = .ok (some ⟨l, s, i + n⟩)) := by
  have hr : Reachable (.loc l) := .loc hl
  have key : ∀ j s, l.HasLevel j → l.IsLabel j s → ketLabelOk s = true := by
    intro j s hj hs
    cases dim with
    | none =>
      simp only [mkLocal] at hl
      injection hl with hl; subst hl
      simp only [Loc.IsLabel] at hs
      rw [hs, strInt, if_neg (by have := hj.1; omega)]
      exact strNat_ok _
    | some d =>
      simp only [mkLocal] at hl
      injection hl with hl; subst hl
      simp only [Loc.IsLabel] at hs
      rw [List.getElem?_map, Option.map_eq_some_iff] at hs
      obtain ⟨m, -, hm⟩ := hs
      rw [← hm]
      exact strNat_ok _
  constructor
  · intro h
    obtain ⟨s, hs, e⟩ := (C27_create_zero_partial hr i).2 h
    exact ⟨s, hs, key _ _ h hs, by rw [e, if_pos (key _ _ h hs)]⟩
  · intro k n hk h
    have hi : k.index = i := (C27_label_index hr hk).2.2.2.1 i rfl
    subst hi
    obtain ⟨s, hs, e, -⟩ := (C27_next_partial hr hk n).1 h
    exact ⟨s, hs, e (key _ _ h hs)⟩

/-- A two-level system with the labels `u` and `↑`; `LocalSpace` accepts every label. -/
def arrows : Loc := ⟨['s'], some [['u'], ['↑']], some 2, [], none⟩

/-- C27 is false of the code for labels that `KetSymbol` does not accept: the space exists and has the level, but neither `next()` nor
`BasisKet(1)` nor `BasisKet('↑')` gives a state; they raise `ValueError`. -/
theorem C27_refuted_label :
    mkLocal ['s'] (some [['u'], ['↑']]) none [] none = .ok arrows ∧ arrows.HasLevel 1 ∧
    (∃ k, basisKet arrows (.index 0) = .ok k ∧ k.next 1 = .error .valueError) ∧
    basisKet arrows (.index 1) = .error .valueError ∧ basisKet arrows (.label ['↑']) = .error .valueError := by
  refine ⟨by decide +kernel, ⟨by decide, fun d hd => ?_⟩, ⟨_, rfl, by decide +kernel⟩, by decide +kernel, by decide +kernel⟩
  simp only [arrows, Option.some.injEq] at hd
  omega

example : basisKet l2 (.label ['e']) = .ok ⟨l2, ['e'], 1⟩ := by decide +kernel
example : (do (← basisKet l2 (.label ['g'])).next 1) = .ok (some ⟨l2, ['e'], 1⟩) := by decide +kernel
example : (do (← basisKet l2 (.label ['g'])).next 2) = .ok none := by decide +kernel
example : (do (← basisKet l1 (.index 3)).prev 4) = .ok none := by decide +kernel
example : (do (← basisKet l1 (.index 3)).next 40) = .ok (some ⟨l1, ['4', '3'], 43⟩) := by decide +kernel

end QNET.Hilbert
