import Verif.Perm.Within

/-!
# Property theorems for `utils/permutations.py` (C01–C07, C49)

The vocabulary of the statements (`IsBijection`, `IsCycleDecomposition`, `Indecomposable`, `offsetOf`,
`slotStart`, ...) is in `Verif/Perm/Spec.lean`.
-/

namespace QNET.Perm

theorem valid_iff (p : List Nat) : Valid p ↔ IsBijection p :=
  ⟨fun h => perm_range_count h, fun h => range_perm_of_count h⟩

theorem bad_of_not {p : List Nat} (h : ¬ IsBijection p) : check p = false := by
  rw [← valid_iff, ← check_iff] at h; simpa using h

/-! ### C01 -/

/-- C01: `check_permutation(p)` is `True` iff every number below `len(p)` occurs exactly once in `p` and
nothing else occurs. -/
theorem C01_check_iff (p : List Nat) : check p = true ↔ IsBijection p :=
  (check_iff p).trans (valid_iff p)

example : IsBijection [2, 0, 1] := by rw [← C01_check_iff]; decide +kernel
example : ¬ IsBijection [2, 0, 2] := by rw [← C01_check_iff]; decide +kernel
example : ¬ IsBijection [1, 2, 3] := by rw [← C01_check_iff]; decide +kernel

/-! ### C02 -/

/-- C02: the inverse exists, is a bijection of the same length, is a two-sided inverse for
`compose_permutations`, and inverting twice gives back the permutation. -/
theorem C02_invert {p : List Nat} (hp : IsBijection p) :
    ∃ q, invert p = .ok q ∧ IsBijection q ∧ q.length = p.length ∧
      compose p q = .ok (List.range p.length) ∧ compose q p = .ok (List.range p.length) ∧
      invert q = .ok p := by
  have h := (valid_iff p).mpr hp
  have hv := inv_valid h
  refine ⟨inv p, invert_ok h, (valid_iff _).mp hv, by simp, ?_, ?_, ?_⟩
  · rw [compose_ok (by simp) hv, comp_inv h]
  · rw [compose_ok (by simp) h, inv_comp h]
  · rw [invert_ok hv, inv_inv h]

/-- C02, pointwise: `q[p[i]] = i`. -/
theorem C02_invert_pointwise {p q : List Nat} (hp : IsBijection p) (hq : invert p = .ok q) :
    ∀ i x : Nat, p[i]? = some x ↔ q[x]? = some i := by
  have h := (valid_iff p).mpr hp
  rw [invert_ok h] at hq
  obtain rfl : inv p = q := by injection hq
  intro i x
  rw [List.getElem?_eq_some_iff, List.getElem?_eq_some_iff]
  constructor
  · rintro ⟨hi, rfl⟩; exact ⟨by simpa using h.lt hi, inv_getElem_getElem h hi⟩
  · rintro ⟨hx, rfl⟩; exact ⟨inv_lt h hx, getElem_inv h hx⟩

example : invert [2, 0, 1, 3] = .ok [1, 2, 0, 3] := by decide +kernel

/-! ### C03 -/

/-- C03: `permute(seq, p)[j] = seq[p[j]]`. -/
theorem C03_permute_entry {α : Type} {s : List α} {p : List Nat} (hl : s.length = p.length) (hp : IsBijection p) :
    ∃ r, permute s p = .ok r ∧ r.length = s.length ∧ ∀ j k : Nat, p[j]? = some k → r[j]? = s[k]? := by
  have h := (valid_iff p).mpr hp
  cases s with
  | nil =>
    cases p with
    | nil => exact ⟨[], rfl, rfl, by simp⟩
    | cons a t => simp at hl
  | cons a t =>
    have : Inhabited α := ⟨a⟩
    refine ⟨_, permute_ok hl h, by simp [hl], ?_⟩
    intro j k hk
    obtain ⟨hj, rfl⟩ := List.getElem?_eq_some_iff.mp hk
    have hlt : p[j] < (a :: t).length := by rw [hl]; exact h.lt hj
    simp only [List.getElem?_map, List.getElem?_eq_getElem hj, Option.map_some, List.getD_eq_getElem?_getD,
      List.getElem?_eq_getElem hlt, Option.getD_some]

/-- C03: `ValueError` exactly when the lengths differ; `BadPermutationError` exactly when the lengths agree
but `p` is malformed; no other error. -/
theorem C03_permute_errors {α : Type} (s : List α) (p : List Nat) :
    (permute s p = .error .valueError ↔ s.length ≠ p.length) ∧
    (permute s p = .error .badPermutation ↔ s.length = p.length ∧ ¬ IsBijection p) ∧
    (∀ e, permute s p = .error e → e = .valueError ∨ e = .badPermutation) := by
  by_cases hl : s.length = p.length
  · by_cases hp : IsBijection p
    · obtain ⟨r, hr, -, -⟩ := C03_permute_entry hl hp
      simp [hr, hl, hp]
    · have : permute s p = .error .badPermutation := by
        simp [permute, hl, bad_of_not hp]
      simp [this, hl, hp]
  · have : permute s p = .error .valueError := by simp [permute, hl]
    simp [this, hl]

/-- C03: permuting twice is permuting by the composition. -/
theorem C03_permute_permute {α : Type} {s : List α} {p q : List Nat} (hs : s.length = p.length)
    (hpq : p.length = q.length) (hp : IsBijection p) (hq : IsBijection q) :
    ∃ r pq, permute s p = .ok r ∧ compose p q = .ok pq ∧ permute r q = permute s pq ∧ IsBijection pq := by
  have h1 := (valid_iff p).mpr hp
  have h2 := (valid_iff q).mpr hq
  have h3 := comp_valid hpq h1 h2
  cases s with
  | nil =>
    cases p with
    | cons a t => simp at hs
    | nil => cases q with
      | nil => exact ⟨[], [], rfl, rfl, rfl, hp⟩
      | cons a t => simp at hpq
  | cons a t =>
    have : Inhabited α := ⟨a⟩
    refine ⟨_, _, permute_ok hs h1, compose_ok hpq h2, ?_, (valid_iff _).mp h3⟩
    rw [permute_ok (by simp [hpq]) h2, permute_ok (by simp only [comp_length]; omega) h3]
    congr 1
    apply List.ext_getElem (by simp)
    intro i hi1 hi2
    simp only [List.length_map, comp_length] at hi1 hi2
    have hlt : q[i] < p.length := by rw [hpq]; exact h2.lt hi1
    simp only [List.getElem_map, comp_getElem hpq h2 hi1, List.getD_eq_getElem?_getD, List.getElem?_map,
      List.getElem?_eq_getElem hlt, Option.map_some, Option.getD_some]

/-- C03: composition of valid permutations is associative and has the identity tuple as unit. -/
theorem C03_compose_monoid {a b c : List Nat} (hab : a.length = b.length) (hbc : b.length = c.length)
    (ha : IsBijection a) (hb : IsBijection b) (hc : IsBijection c) :
    (compose a b >>= fun ab => compose ab c) = (compose b c >>= fun bc => compose a bc) ∧
    (∃ r, (compose a b >>= fun ab => compose ab c) = .ok r ∧ IsBijection r) ∧
    compose a (List.range a.length) = .ok a ∧ compose (List.range a.length) a = .ok a := by
  have ha' := (valid_iff a).mpr ha
  have hb' := (valid_iff b).mpr hb
  have hc' := (valid_iff c).mpr hc
  have hbcv := comp_valid hbc hb' hc'
  have habv := comp_valid hab ha' hb'
  have e1 : (compose a b >>= fun ab => compose ab c) = .ok (comp (comp a b) c) := by
    rw [compose_ok hab hb']
    exact compose_ok (by simp [hbc]) hc'
  have e2 : (compose b c >>= fun bc => compose a bc) = .ok (comp a (comp b c)) := by
    rw [compose_ok hbc hc']
    exact compose_ok (by simp only [comp_length]; omega) hbcv
  refine ⟨?_, ⟨_, e1, ?_⟩, ?_, ?_⟩
  · rw [e1, e2]
    congr 1
    apply List.ext_getElem (by simp)
    intro i hi1 hi2
    simp only [comp_length] at hi1
    have hlt : c[i] < b.length := by rw [hbc]; exact hc'.lt hi1
    rw [comp_getElem (by simp [hbc]) hc' hi1, comp_getElem hab hb' hlt,
      comp_getElem (by simp only [comp_length]; omega) hbcv (by simpa using hi1)]
    congr 1
    exact (comp_getElem hbc hc' hi1).symm
  · exact (valid_iff _).mp (comp_valid (by simp [hbc]) habv hc')
  · rw [compose_ok (by simp) (valid_range _)]
    congr 1
    apply List.ext_getElem (by simp)
    intro i hi1 hi2
    rw [comp_getElem (by simp) (valid_range _) (by simpa using hi2)]
    simp
  · rw [compose_ok (by simp) ha']
    congr 1
    apply List.ext_getElem (by simp)
    intro i hi1 hi2
    rw [comp_getElem (by simp) ha' hi2]
    simp

example : permute ["a", "b", "c"] [2, 0, 1] = .ok ["c", "a", "b"] := by decide +kernel
example : permute ["a", "b"] [0, 0] = .error .badPermutation := by decide +kernel
example : permute ["a", "b"] [0] = .error .valueError := by decide +kernel

/-! ### C04, C49 -/

/-- C04: the cycle decomposition of a valid non-empty permutation exists, is in normal form, and is
inverted by `permutation_from_disjoint_cycles`. -/
theorem C04_cycles {p : List Nat} (hp : IsBijection p) (hne : p ≠ []) :
    ∃ cs, toCycles p = .ok cs ∧ IsCycleDecomposition p cs ∧ fromCycles cs = .ok p := by
  have h := (valid_iff p).mpr hp
  obtain ⟨cs, h1, h2, h3, h4⟩ := toCycles_ok h hne
  refine ⟨cs, h1, ⟨fun c hc => (h2 c hc).ne, perm_range_count h3, fun c hc => (h2 c hc).follows,
    fun c hc => (h2 c hc).minFirst, h4⟩, ?_⟩
  have := (fromCycles_ok h (off := 0) (m := p.length) h2 (by rwa [← List.range_eq_range']) (by omega)).1
  rw [this, restrict_zero]

/-- C04: the normal form determines the cycles. -/
theorem C04_error_cases (p : List Nat) :
    toCycles [] = .error .indexError ∧
    (¬ IsBijection p → ∃ e, toCycles p = .error e) := by
  refine ⟨by decide +kernel, ?_⟩
  intro h
  unfold toCycles
  rw [bad_of_not h]
  by_cases hl : p.length = 1 <;> simp [hl]

/-- C49 is false of the code: the documented `BadPermutationError` for a malformed tuple is raised only
for tuples with exactly one entry (`'...%r' % permutation` interprets the tuple as the argument list and
raises `TypeError` otherwise). -/
theorem C49_malformed_error_refuted :
    ¬ ∀ p : List Nat, ¬ IsBijection p → toCycles p = .error .badPermutation := by
  intro h
  have := h [0, 0] (by rw [← C01_check_iff]; decide +kernel)
  revert this; decide +kernel

/-- C49: what the code does for malformed tuples. -/
theorem C49_malformed_error_partial (p : List Nat) (h : ¬ IsBijection p) :
    toCycles p = .error (if p.length = 1 then .badPermutation else .typeError) := by
  unfold toCycles
  rw [bad_of_not h]
  by_cases hl : p.length = 1 <;> simp [hl]

example : toCycles [2, 0, 1, 4, 3, 5] = .ok [[0, 2, 1], [3, 4], [5]] := by decide +kernel
example : toCycles [3] = .error .badPermutation := by decide +kernel
example : fromCycles [[0, 2, 1], [3, 4], [5]] = .ok [2, 0, 1, 4, 3, 5] := by decide +kernel

/-! ### C05 -/

/-- C05: the block decomposition is total on valid non-empty permutations; the blocks are valid, non-empty,
cannot be split further, and `permutation_from_block_permutations` gives back the permutation. -/
theorem C05_blocks {p : List Nat} (hp : IsBijection p) (hne : p ≠ []) :
    ∃ bs, toBlocks p = .ok bs ∧ (∀ b ∈ bs, IsBijection b ∧ b ≠ [] ∧ Indecomposable b) ∧ fromBlocks bs = p := by
  obtain ⟨bs, h1, h2, h3⟩ := toBlocks_ok ((valid_iff p).mpr hp) hne
  exact ⟨bs, h1, fun b hb => ⟨(valid_iff b).mp (h2 b hb).1, (h2 b hb).2.1, (h2 b hb).2.2⟩, h3⟩

/-- C05: empty or malformed input raises `BadPermutationError`. -/
theorem C05_blocks_error {p : List Nat} (h : p = [] ∨ ¬ IsBijection p) : toBlocks p = .error .badPermutation := by
  unfold toBlocks
  rcases h with rfl | h
  · simp
  · simp [bad_of_not h]

/-- C05: entries of a concatenation of blocks: entry `j` of block `k` sits at `offset k + j` and is shifted by
`offset k`; the result is valid if all blocks are. -/
theorem C05_fromBlocks_entry (bs : List (List Nat)) :
    (∀ k j x : Nat, ∀ b, bs[k]? = some b → b[j]? = some x →
      (fromBlocks bs)[offsetOf (bs.map List.length) k + j]? = some (offsetOf (bs.map List.length) k + x)) ∧
    (fromBlocks bs).length = (bs.map List.length).sum ∧
    ((∀ b ∈ bs, IsBijection b) → IsBijection (fromBlocks bs)) := by
  refine ⟨?_, by simp, fun h => (valid_iff _).mp (fromBlocks_valid fun w hw => (valid_iff w).mpr (h w hw))⟩
  intro k j x b hb hx
  obtain ⟨hk, rfl⟩ := List.getElem?_eq_some_iff.mp hb
  obtain ⟨hj, rfl⟩ := List.getElem?_eq_some_iff.mp hx
  rw [fromBlocks_getElem? bs hk hj, Nat.add_comm]

example : toBlocks [2, 0, 1, 4, 3, 5] = .ok [[2, 0, 1], [1, 0], [0]] := by decide +kernel
example : Indecomposable [2, 0, 1] := by
  intro k h1 h2 h
  have hk : k = 1 ∨ k = 2 := by simp at h2; omega
  rcases hk with rfl | rfl
  · have := (h 0 (by decide)).mp (by decide); simp at this
  · have := (h 0 (by decide)).mp (by decide); simp at this

/-! ### C06 -/

theorem slotStart_eq {bp s : List Nat} (h : Valid bp) (hl : bp.length = s.length) {q : Nat} (hq : q ≤ bp.length) :
    offsetOf (slotSizes bp s) q = slotStart bp s q := by
  have hz : (bp.zip s) = (List.range bp.length).map (fun k => (bp.getD k 0, s.getD k 0)) := by
    apply List.ext_getElem (by simp [hl])
    intro i h1 h2
    simp only [List.length_zip] at h1
    have h3 : i < bp.length := by omega
    have h4 : i < s.length := by omega
    simp [h3, h4]
  have hperm : (bp.zip s).Perm ((List.range bp.length).map (fun j => (j, (slotSizes bp s).getD j 0))) := by
    rw [hz]
    have h1 : ((inv bp).map (fun k => (bp.getD k 0, s.getD k 0))).Perm
        ((List.range bp.length).map (fun k => (bp.getD k 0, s.getD k 0))) := by
      have := inv_valid h
      unfold Valid at this
      rw [inv_length] at this
      exact this.map _
    refine h1.symm.trans (List.Perm.of_eq ?_)
    apply List.ext_getElem (by simp)
    intro i h2 h3
    simp only [List.length_map, inv_length] at h2
    have h4 : i < (inv bp).length := by simpa using h2
    have h5 := inv_lt h h4
    simp only [List.getElem_map, List.getElem_range, getD_lt h5, getElem_inv h h4]
    have h6 : i < (slotSizes bp s).length := by simpa using h2
    rw [getD_lt h6]
    simp only [slotSizes, List.getElem_map]
  unfold slotStart
  rw [((hperm.filter _).map _).sum_eq, List.filter_map, List.map_map]
  have hf : (List.range bp.length).filter ((fun x : Nat × Nat => decide (x.1 < q)) ∘ fun j => (j, (slotSizes bp s).getD j 0))
      = List.range q := by
    have e : ((fun x : Nat × Nat => decide (x.1 < q)) ∘ fun j => (j, (slotSizes bp s).getD j 0)) = fun j => decide (j < q) := rfl
    rw [e]
    obtain ⟨d, hd⟩ := Nat.exists_eq_add_of_le hq
    rw [hd, List.range_add, List.filter_append]
    have a1 : (List.range q).filter (fun j => decide (j < q)) = List.range q :=
      List.filter_eq_self.mpr (by intro a ha; simpa using ha)
    have a2 : (List.map (fun x => q + x) (List.range d)).filter (fun j => decide (j < q)) = [] :=
      List.filter_eq_nil_iff.mpr (by intro a ha; simp at ha ⊢; omega)
    rw [a1, a2, List.append_nil]
  rw [hf]
  unfold offsetOf
  congr 1
  apply List.ext_getElem (by simp; omega)
  intro i h1 h2
  simp at h1 h2
  have : i < (slotSizes bp s).length := by rw [slotSizes_length]; omega
  simp only [List.getElem_take, List.getElem_map, List.getElem_range, Function.comp, getD_lt this]

/-- C06: `full_block_perm` succeeds (so its assertion does not fire), is a bijection on all channels, and sends
channel `j` of block `k` to channel `j` of the slot `bp[k]`. -/
theorem C06_full_block_perm {bp sizes : List Nat} (hbp : IsBijection bp) (hl : bp.length = sizes.length) :
    ∃ f, fullBlockPerm bp sizes = .ok f ∧ IsBijection f ∧ f.length = sizes.sum ∧
      ∀ k q m j : Nat, bp[k]? = some q → sizes[k]? = some m → j < m →
        f[offsetOf sizes k + j]? = some (slotStart bp sizes q + j) := by
  have h := (valid_iff bp).mpr hbp
  refine ⟨_, fullBlockPerm_ok h hl, (valid_iff _).mp (fbp_valid h hl), fbp_length h hl, ?_⟩
  intro k q m j hq hm hj
  obtain ⟨hk, rfl⟩ := List.getElem?_eq_some_iff.mp hq
  obtain ⟨hk', rfl⟩ := List.getElem?_eq_some_iff.mp hm
  rw [fbp_getElem? h hl hk hj, slotStart_eq h hl (Nat.le_of_lt (h.lt hk))]

example : fullBlockPerm [1, 2, 0] [2, 1, 3] = .ok [3, 4, 5, 0, 1, 2] := by decide +kernel

/-! ### C07 -/

/-- C07: no assertion fires; the block permutation is valid and orders the blocks by their smallest image; the
within-block permutations are valid and order the channels of a block by their images. -/
theorem C07_within_blocks {p sizes : List Nat} (hp : IsBijection p) (hpos : ∀ x ∈ sizes, 0 < x)
    (hs : sizes.sum = p.length) (hne : sizes ≠ []) :
    ∃ bp ws, blockPermAndWithin p sizes = .ok (bp, ws) ∧
      IsBijection bp ∧ bp.length = sizes.length ∧
      ws.map List.length = sizes ∧ (∀ w ∈ ws, IsBijection w) ∧
      (∀ a b na nb ma mb qa qb : Nat, sizes[a]? = some na → sizes[b]? = some nb →
        bp[a]? = some qa → bp[b]? = some qb →
        IsMinImage p (offsetOf sizes a) na ma → IsMinImage p (offsetOf sizes b) nb mb → (qa < qb ↔ ma < mb)) ∧
      (∀ k : Nat, ∀ w, ws[k]? = some w → ∀ i j x y pi pj : Nat, w[i]? = some x → w[j]? = some y →
        p[offsetOf sizes k + i]? = some pi → p[offsetOf sizes k + j]? = some pj → (x < y ↔ pi < pj)) := by
  have h := (valid_iff p).mpr hp
  refine ⟨_, _, blockPermAndWithin_ok hpos hs hne, (valid_iff _).mp (bpV_valid p sizes), by simp,
    withinsV_map_length p sizes 0, fun w hw => (valid_iff w).mp (withinsV_valid p sizes 0 w hw), ?_, ?_⟩
  · intro a b na nb ma mb qa qb hna hnb hqa hqb hma hmb
    obtain ⟨ha, rfl⟩ := List.getElem?_eq_some_iff.mp hna
    obtain ⟨hb, rfl⟩ := List.getElem?_eq_some_iff.mp hnb
    obtain ⟨_, rfl⟩ := List.getElem?_eq_some_iff.mp hqa
    obtain ⟨_, rfl⟩ := List.getElem?_eq_some_iff.mp hqb
    have key : ∀ a m (ha : a < sizes.length), IsMinImage p (offsetOf sizes a) sizes[a] m →
        (minsV p sizes)[a]'(by rw [minsV_length]; exact ha) = m := by
      intro a m ha hm
      obtain ⟨⟨j, hj, e1⟩, h1⟩ := hm
      obtain ⟨⟨j', hj', e2⟩, h2⟩ := minsV_spec hpos hs ha
      have := h1 j' hj' _ e2
      have := h2 j hj _ e1
      omega
    rw [bpV_lt h hpos hs ha hb, key a ma ha hma, key b mb hb hmb]
  · intro k w hw i j x y pi pj hx hy hpi hpj
    obtain ⟨hk, rfl⟩ := List.getElem?_eq_some_iff.mp hw
    have hk' : k < sizes.length := by rwa [withinsV_length] at hk
    obtain ⟨hi, rfl⟩ := List.getElem?_eq_some_iff.mp hx
    obtain ⟨hj, rfl⟩ := List.getElem?_eq_some_iff.mp hy
    obtain ⟨_, rfl⟩ := List.getElem?_eq_some_iff.mp hpi
    obtain ⟨_, rfl⟩ := List.getElem?_eq_some_iff.mp hpj
    exact withinsV_lt h hs hk' (by rw [← withinsV_elem_length p sizes hk']; exact hi)
      (by rw [← withinsV_elem_length p sizes hk']; exact hj)

/-- C07: a permutation that maps every block onto a contiguous range factors into the blown-up block permutation
after the within-block permutations. -/
theorem C07_factorisation {p sizes : List Nat} (hp : IsBijection p) (hpos : ∀ x ∈ sizes, 0 < x)
    (hs : sizes.sum = p.length) (hne : sizes ≠ []) (hc : MapsBlocksContiguously p sizes) :
    ∃ bp ws f, blockPermAndWithin p sizes = .ok (bp, ws) ∧ fullBlockPerm bp sizes = .ok f ∧
      compose f (fromBlocks ws) = .ok p := by
  have h := (valid_iff p).mpr hp
  have hbv := bpV_valid p sizes
  have hbl : (bpV p sizes).length = sizes.length := by simp
  refine ⟨_, _, _, blockPermAndWithin_ok hpos hs hne, fullBlockPerm_ok hbv hbl, ?_⟩
  rw [compose_ok ?_ (fromBlocks_valid (withinsV_valid p sizes 0)), factor_eq h hpos hs hc]
  rw [fbp_length hbv hbl, fromBlocks_length, withinsV_map_length]

example : blockPermAndWithin [4, 3, 0, 2, 1] [2, 3] = .ok ([1, 0], [[1, 0], [0, 2, 1]]) := by decide +kernel
example : IsBijection [4, 3, 0, 2, 1] ∧ MapsBlocksContiguously [4, 3, 0, 2, 1] [2, 3] := by
  refine ⟨by rw [← C01_check_iff]; decide +kernel, ?_⟩
  intro k hk
  have : k = 0 ∨ k = 1 := by simp at hk; omega
  rcases this with rfl | rfl
  · refine ⟨3, fun j hj => ?_⟩
    match j, hj with
    | 0, _ => exact ⟨4, rfl, by simp⟩
    | 1, _ => exact ⟨3, rfl, by simp⟩
  · refine ⟨0, fun j hj => ?_⟩
    match j, hj with
    | 0, _ => exact ⟨0, rfl, by simp⟩
    | 1, _ => exact ⟨2, rfl, by simp⟩
    | 2, _ => exact ⟨1, rfl, by simp⟩

end QNET.Perm
