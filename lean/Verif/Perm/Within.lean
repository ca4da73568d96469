import Verif.Perm.BlockPerm

/-! # `block_perm_and_perms_within_blocks` (helper lemmas) -/

namespace QNET.Perm

theorem fromBlocksLoop_perm (ws : List (List Nat)) : ∀ off acc, (∀ w ∈ ws, Valid w) →
    (fromBlocksLoop off acc ws).Perm (acc ++ List.range' off (ws.map List.length).sum) := by
  induction ws with
  | nil => intro off acc _; simp [fromBlocksLoop]
  | cons w ws ih =>
    intro off acc h
    rw [fromBlocksLoop]
    refine (ih _ _ (fun w hw => h w (by simp [hw]))).trans ?_
    rw [List.append_assoc, List.map_cons, List.sum_cons, ← List.range'_append_1]
    apply List.Perm.append_left
    apply List.Perm.append_right
    have := (h w (by simp)).map (· + off)
    refine this.trans ?_
    rw [List.range'_eq_map_range]
    simp [Nat.add_comm]

theorem fromBlocks_valid {ws : List (List Nat)} (h : ∀ w ∈ ws, Valid w) : Valid (fromBlocks ws) := by
  have := fromBlocksLoop_perm ws 0 [] h
  rw [List.nil_append, ← List.range_eq_range'] at this
  unfold Valid fromBlocks
  rwa [show (fromBlocksLoop 0 [] ws).length = (ws.map List.length).sum by simpa using this.length_eq]

theorem fromBlocksLoop_length (ws : List (List Nat)) : ∀ off acc,
    (fromBlocksLoop off acc ws).length = acc.length + (ws.map List.length).sum := by
  induction ws with
  | nil => intro off acc; simp [fromBlocksLoop]
  | cons w ws ih => intro off acc; simp [fromBlocksLoop, ih]; omega

@[simp] theorem fromBlocks_length (ws : List (List Nat)) : (fromBlocks ws).length = (ws.map List.length).sum := by
  simp [fromBlocks, fromBlocksLoop_length]

theorem fromBlocksLoop_acc (ws : List (List Nat)) : ∀ off acc, ∃ t, fromBlocksLoop off acc ws = acc ++ t := by
  induction ws with
  | nil => intro off acc; exact ⟨[], by simp [fromBlocksLoop]⟩
  | cons w ws ih =>
    intro off acc
    obtain ⟨t, e⟩ := ih (off + w.length) (acc ++ w.map (· + off))
    exact ⟨w.map (· + off) ++ t, by rw [fromBlocksLoop, e, List.append_assoc]⟩

theorem fromBlocksLoop_getElem? (ws : List (List Nat)) : ∀ (off : Nat) (acc : List Nat) (k j : Nat) (hk : k < ws.length)
    (hj : j < ws[k].length),
    (fromBlocksLoop off acc ws)[acc.length + offsetOf (ws.map List.length) k + j]? =
      some (ws[k][j] + (off + offsetOf (ws.map List.length) k)) := by
  induction ws with
  | nil => intro off acc k j hk; simp at hk
  | cons w ws ih =>
    intro off acc k j hk hj
    rw [fromBlocksLoop]
    cases k with
    | zero =>
      simp only [List.getElem_cons_zero] at hj ⊢
      obtain ⟨t, e⟩ := fromBlocksLoop_acc ws (off + w.length) (acc ++ w.map (· + off))
      rw [e]
      simp only [offsetOf, List.take_zero, List.sum_nil, Nat.add_zero]
      rw [List.append_assoc, List.getElem?_append_right (by omega), List.getElem?_append_left (by simp; omega)]
      simp [hj]
    | succ k =>
      simp only [List.getElem_cons_succ] at hj ⊢
      have := ih (off + w.length) (acc ++ w.map (· + off)) k j (by simpa using hk) hj
      simp only [offsetOf, List.map_cons, List.take_succ_cons, List.sum_cons, List.length_append, List.length_map] at this ⊢
      rw [show acc.length + (w.length + (List.take k (List.map List.length ws)).sum) + j =
        acc.length + w.length + (List.take k (List.map List.length ws)).sum + j by omega, this]
      congr 1
      omega

theorem fromBlocks_getElem? (ws : List (List Nat)) {k j : Nat} (hk : k < ws.length) (hj : j < ws[k].length) :
    (fromBlocks ws)[offsetOf (ws.map List.length) k + j]? = some (ws[k][j] + offsetOf (ws.map List.length) k) := by
  have := fromBlocksLoop_getElem? ws 0 [] k j hk hj
  simpa [fromBlocks] using this

/-! ### images -/

theorem images_length (p : List Nat) (s : List Nat) : ∀ off, (images p off s).length = s.length := by
  induction s with
  | nil => simp [images]
  | cons a s ih => intro off; simp [images, ih]

theorem images_getElem (p : List Nat) (s : List Nat) : ∀ off k (hk : k < (images p off s).length) (hk' : k < s.length),
    (images p off s)[k] = (p.drop (off + offsetOf s k)).take s[k] := by
  induction s with
  | nil => intro off k hk; simp [images] at hk
  | cons a s ih =>
    intro off k hk hk'
    cases k with
    | zero => simp [images, offsetOf]
    | succ k =>
      simp only [images, List.getElem_cons_succ]
      rw [ih]
      · simp [offsetOf, Nat.add_assoc]
      · simpa using hk'

theorem slice_getElem {p : List Nat} {off len i : Nat} (hi : i < ((p.drop off).take len).length) :
    ((p.drop off).take len)[i] = p[off + i]'(by simp at hi; omega) := by
  simp

theorem slice_nodup {p : List Nat} (h : Valid p) (off len : Nat) : ((p.drop off).take len).Nodup :=
  h.nodup.sublist ((List.take_sublist _ _).trans (List.drop_sublist _ _))

theorem withinBlock_ok {p : List Nat} {off len : Nat} (hlen : 0 < len) (hle : off + len ≤ p.length) :
    withinBlock p off len ((p.drop off).take len) = .ok (inv (argsort len ((p.drop off).take len))) := by
  have him : ((p.drop off).take len).length = len := by simp; omega
  have hne : (p.drop off).take len ≠ [] := by intro e; rw [e] at him; simp at him; omega
  generalize hI : (p.drop off).take len = im at *
  have hv := argsort_valid len im
  have hpos : 0 < (argsort len im).length := by simpa using hlen
  have hget : ∀ k, k < len → p[k + off]? = some (im.getD k 0) := by
    intro k hk
    have h1 : k < im.length := by omega
    have h2 : k + off < p.length := by omega
    rw [getD_lt h1]
    simp only [← hI]
    rw [slice_getElem, List.getElem?_eq_getElem h2]
    simp [Nat.add_comm]
  have h0lt : (argsort len im)[0] < len := by have := hv.lt hpos; simpa using this
  have hLlt : (argsort len im)[len - 1]'(by simp; omega) < len := by
    have := hv.lt (i := len - 1) (by simp; omega); simpa using this
  unfold withinBlock
  simp only [invert_ok hv, bind, Except.bind]
  rw [getItem_ok hpos]
  simp only []
  rw [(minOf_ok hne).1]
  simp only []
  rw [getItem_eq_ok_iff.mpr (hget _ h0lt)]
  simp only []
  rw [argsort_first him hlen, if_neg (by simp)]
  have e2 : getItem (argsort len im) ((argsort len im).length - 1) = .ok ((argsort len im)[len - 1]'(by simp; omega)) := by
    rw [getItem_eq_ok_iff]
    simp
  rw [e2]
  simp only []
  rw [getItem_eq_ok_iff.mpr (hget _ hLlt)]
  simp only []
  rw [argsort_last him hlen, if_neg (by simp)]

/-- the value of the within-block permutations -/
def withinsV (p : List Nat) : Nat → List Nat → List (List Nat)
  | _, [] => []
  | off, len :: rest => inv (argsort len ((p.drop off).take len)) :: withinsV p (off + len) rest

theorem withinBlocks_ok {p : List Nat} (s : List Nat) : ∀ off, (∀ x ∈ s, 0 < x) → off + s.sum ≤ p.length →
    withinBlocks p off s (images p off s) = .ok (withinsV p off s) := by
  induction s with
  | nil => intro off _ _; rfl
  | cons a s ih =>
    intro off hpos hle
    simp only [List.sum_cons] at hle
    rw [images, withinBlocks, withinBlock_ok (hpos a (by simp)) (by omega)]
    simp only [bind, Except.bind]
    rw [ih (off + a) (fun x hx => hpos x (by simp [hx])) (by omega)]
    rfl

theorem withinsV_length (p s : List Nat) : ∀ off, (withinsV p off s).length = s.length := by
  induction s with
  | nil => simp [withinsV]
  | cons a s ih => intro off; simp [withinsV, ih]

theorem withinsV_map_length (p s : List Nat) : ∀ off, (withinsV p off s).map List.length = s := by
  induction s with
  | nil => simp [withinsV]
  | cons a s ih => intro off; simp [withinsV, ih]

theorem withinsV_getElem (p s : List Nat) : ∀ off k (hk : k < (withinsV p off s).length) (hk' : k < s.length),
    (withinsV p off s)[k] = inv (argsort s[k] ((p.drop (off + offsetOf s k)).take s[k])) := by
  induction s with
  | nil => intro off k hk; simp [withinsV] at hk
  | cons a s ih =>
    intro off k hk hk'
    cases k with
    | zero => simp [withinsV, offsetOf]
    | succ k =>
      simp only [withinsV, List.getElem_cons_succ]
      rw [ih]
      · simp [offsetOf, Nat.add_assoc]
      · simpa using hk'

/-- the smallest image of each block -/
def minsV (p s : List Nat) : List Nat := (images p 0 s).map minV

/-- the value of the block permutation -/
def bpV (p s : List Nat) : List Nat := inv (argsort s.length (minsV p s))

theorem minsV_length (p s : List Nat) : (minsV p s).length = s.length := by simp [minsV, images_length]

theorem off_add_le (s : List Nat) {k : Nat} (hk : k < s.length) : offsetOf s k + s[k] ≤ s.sum := by
  by_cases h : s[k] = 0
  · rw [h]; simp only [offsetOf, Nat.add_zero]
    conv_rhs => rw [← List.take_append_drop k s]
    rw [List.sum_append]; omega
  · have := offset_lt_sum s k hk (s[k] - 1) (by omega); omega

theorem image_ne {p s : List Nat} (hpos : ∀ x ∈ s, 0 < x) (hs : s.sum = p.length) {k : Nat} (hk : k < s.length) :
    ((p.drop (offsetOf s k)).take s[k]) ≠ [] := by
  intro e
  have := congrArg List.length e
  have h1 := hpos s[k] (List.getElem_mem hk)
  have h2 := off_add_le s hk
  simp at this; omega

/-- each block minimum is attained inside the block and is a lower bound there -/
theorem minsV_spec {p s : List Nat} (hpos : ∀ x ∈ s, 0 < x) (hs : s.sum = p.length) {k : Nat} (hk : k < s.length) :
    (∃ j, j < s[k] ∧ p[offsetOf s k + j]? = some ((minsV p s)[k]'(by rw [minsV_length]; exact hk))) ∧
    ∀ j, j < s[k] → ∀ v, p[offsetOf s k + j]? = some v → (minsV p s)[k]'(by rw [minsV_length]; exact hk) ≤ v := by
  have hke : k < (images p 0 s).length := by rw [images_length]; exact hk
  have e : (minsV p s)[k]'(by rw [minsV_length]; exact hk) = minV ((p.drop (offsetOf s k)).take s[k]) := by
    simp only [minsV, List.getElem_map]
    rw [images_getElem p s 0 k hke hk, Nat.zero_add]
  obtain ⟨-, h2, h3⟩ := minOf_ok (image_ne hpos hs hk)
  have hle := off_add_le s hk
  rw [e]
  constructor
  · obtain ⟨j, hj, e2⟩ := List.mem_iff_getElem.mp h2
    refine ⟨j, by simp at hj; omega, ?_⟩
    rw [← e2, slice_getElem, List.getElem?_eq_getElem]
  · intro j hj v hv
    apply h3
    obtain ⟨hlt, e2⟩ := List.getElem?_eq_some_iff.mp hv
    rw [List.mem_iff_getElem]
    exact ⟨j, by simp; omega, by rw [slice_getElem]; exact e2⟩

theorem block_unique (s : List Nat) {a b i j : Nat} (ha : a < s.length) (hb : b < s.length) (hi : i < s[a]) (hj : j < s[b])
    (e : offsetOf s a + i = offsetOf s b + j) : a = b ∧ i = j := by
  rcases Nat.lt_trichotomy a b with h | h | h
  · have := offsetOf_step s h ha; omega
  · subst h; omega
  · have := offsetOf_step s h hb; omega

theorem minsV_nodup {p s : List Nat} (hp : Valid p) (hpos : ∀ x ∈ s, 0 < x) (hs : s.sum = p.length) : (minsV p s).Nodup := by
  rw [List.nodup_iff_injective_getElem]
  intro ⟨a, ha⟩ ⟨b, hb⟩ hab
  simp only at hab
  have ha' : a < s.length := by rwa [minsV_length] at ha
  have hb' : b < s.length := by rwa [minsV_length] at hb
  obtain ⟨⟨i, hi, e1⟩, -⟩ := minsV_spec hpos hs ha'
  obtain ⟨⟨j, hj, e2⟩, -⟩ := minsV_spec hpos hs hb'
  rw [hab] at e1
  have := Step.inj hp e1 e2
  simp [(block_unique s ha' hb' hi hj this).1]

theorem blockPermAndWithin_ok {p s : List Nat} (hpos : ∀ x ∈ s, 0 < x) (hs : s.sum = p.length)
    (hne : s ≠ []) : blockPermAndWithin p s = .ok (bpV p s, withinsV p 0 s) := by
  have hlen : 0 < s.length := List.length_pos_iff.mpr hne
  have hm : (images p 0 s).mapM minOf = .ok (minsV p s) := by
    apply mapM_ok_of
    intro x hx
    obtain ⟨k, hk, rfl⟩ := List.mem_iff_getElem.mp hx
    have hk' : k < s.length := by rwa [images_length] at hk
    rw [images_getElem p s 0 k hk hk', Nat.zero_add]
    exact (minOf_ok (image_ne hpos hs hk')).1
  have hml := minsV_length p s
  have hmne : minsV p s ≠ [] := by intro e; rw [e] at hml; simp at hml; omega
  have hv := argsort_valid s.length (minsV p s)
  have h0 : 0 < (argsort s.length (minsV p s)).length := by simpa using hlen
  have h0lt : (argsort s.length (minsV p s))[0] < (minsV p s).length := by
    have := hv.lt h0; rw [hml]; simpa using this
  have hLlt : (argsort s.length (minsV p s))[s.length - 1]'(by simp; omega) < (minsV p s).length := by
    have := hv.lt (i := s.length - 1) (by simp; omega); rw [hml]; simpa using this
  unfold blockPermAndWithin
  simp only [hm, invert_ok hv, bind, Except.bind]
  rw [getItem_ok h0]
  simp only []
  rw [getItem_ok h0lt]
  simp only []
  rw [(minOf_ok hmne).1]
  simp only []
  have e1 := argsort_first hml hlen
  rw [getD_lt h0lt] at e1
  rw [if_neg (by simpa using e1)]
  have e2 : getItem (argsort s.length (minsV p s)) ((argsort s.length (minsV p s)).length - 1) =
      .ok ((argsort s.length (minsV p s))[s.length - 1]'(by simp; omega)) := by
    rw [getItem_eq_ok_iff]; simp
  rw [e2]
  simp only []
  rw [getItem_ok hLlt]
  simp only []
  have e3 := argsort_last hml hlen
  rw [getD_lt hLlt] at e3
  rw [if_neg (by simpa using e3), withinBlocks_ok s 0 hpos (by omega)]
  rfl

theorem bpV_valid (p s : List Nat) : Valid (bpV p s) := inv_valid (argsort_valid _ _)

@[simp] theorem bpV_length (p s : List Nat) : (bpV p s).length = s.length := by simp [bpV]

theorem bpV_lt {p s : List Nat} (hp : Valid p) (hpos : ∀ x ∈ s, 0 < x) (hs : s.sum = p.length) {a b : Nat}
    (ha : a < s.length) (hb : b < s.length) :
    (bpV p s)[a]'(by simpa using ha) < (bpV p s)[b]'(by simpa using hb) ↔
      (minsV p s)[a]'(by rw [minsV_length]; exact ha) < (minsV p s)[b]'(by rw [minsV_length]; exact hb) :=
  inv_argsort_lt (minsV_length p s) (minsV_nodup hp hpos hs) ha hb

theorem withinsV_valid (p s : List Nat) (off : Nat) : ∀ w ∈ withinsV p off s, Valid w := by
  intro w hw
  obtain ⟨k, hk, rfl⟩ := List.mem_iff_getElem.mp hw
  rw [withinsV_getElem p s off k hk (by rwa [withinsV_length] at hk)]
  exact inv_valid (argsort_valid _ _)

theorem withinsV_elem_length (p s : List Nat) {k : Nat} (hk : k < s.length) :
    ((withinsV p 0 s)[k]'(by rwa [withinsV_length])).length = s[k] := by
  rw [withinsV_getElem p s 0 k _ hk]; simp

theorem withinsV_lt {p s : List Nat} (hp : Valid p) (hs : s.sum = p.length) {k i j : Nat} (hk : k < s.length)
    (hi : i < s[k]) (hj : j < s[k]) :
    ((withinsV p 0 s)[k]'(by rwa [withinsV_length]))[i]'(by rw [withinsV_elem_length p s hk]; exact hi) <
      ((withinsV p 0 s)[k]'(by rwa [withinsV_length]))[j]'(by rw [withinsV_elem_length p s hk]; exact hj) ↔
    p[offsetOf s k + i]'(by have := off_add_le s hk; omega) < p[offsetOf s k + j]'(by have := off_add_le s hk; omega) := by
  have hle := off_add_le s hk
  have him : ((p.drop (0 + offsetOf s k)).take s[k]).length = s[k] := by simp; omega
  have := inv_argsort_lt (n := s[k]) (keys := (p.drop (0 + offsetOf s k)).take s[k]) him (slice_nodup hp _ _) hi hj
  simp only [withinsV_getElem p s 0 k _ hk]
  rw [this, slice_getElem, slice_getElem]
  simp

theorem factor_eq {p s : List Nat} (hp : Valid p) (hpos : ∀ x ∈ s, 0 < x) (hs : s.sum = p.length)
    (hc : MapsBlocksContiguously p s) : comp (fbp (bpV p s) s) (fromBlocks (withinsV p 0 s)) = p := by
  have hbl : (bpV p s).length = s.length := by simp
  have hF := fbp_valid (bpV_valid p s) hbl
  have hFl := fbp_length (bpV_valid p s) hbl
  have hW := fromBlocks_valid (withinsV_valid p s 0)
  have hWl : (fromBlocks (withinsV p 0 s)).length = s.sum := by rw [fromBlocks_length, withinsV_map_length]
  have hll : (fbp (bpV p s) s).length = (fromBlocks (withinsV p 0 s)).length := by omega
  symm
  apply rank_unique hp (comp_valid hll hF hW) (by rw [comp_length, hWl, hs])
  -- value of the composite at channel `i` of block `a`
  have hval : ∀ a i (ha : a < s.length) (hi : i < s[a]) (hx : offsetOf s a + i < (comp (fbp (bpV p s) s) (fromBlocks (withinsV p 0 s))).length),
      (comp (fbp (bpV p s) s) (fromBlocks (withinsV p 0 s)))[offsetOf s a + i] =
      offsetOf (slotSizes (bpV p s) s) ((bpV p s)[a]'(by simpa using ha)) +
        ((withinsV p 0 s)[a]'(by rwa [withinsV_length]))[i]'(by rw [withinsV_elem_length p s ha]; exact hi) := by
    intro a i ha hi hx
    have hwl := withinsV_elem_length p s ha
    have hwv := withinsV_valid p s 0 _ (List.getElem_mem (by rwa [withinsV_length]) : (withinsV p 0 s)[a]'(by rwa [withinsV_length]) ∈ _)
    have e1 := fromBlocks_getElem? (withinsV p 0 s) (k := a) (j := i) (by rwa [withinsV_length]) (by rw [hwl]; exact hi)
    rw [withinsV_map_length] at e1
    have hwi : ((withinsV p 0 s)[a]'(by rwa [withinsV_length]))[i]'(by rw [hwl]; exact hi) < s[a] := by
      have := hwv.lt (i := i) (by rw [hwl]; exact hi); omega
    have e2 := fbp_getElem? (bpV_valid p s) hbl (k := a) (by simpa using ha) hwi
    simp only [comp_length] at hx
    rw [comp_getElem hll hW hx]
    obtain ⟨hlt, e1'⟩ := List.getElem?_eq_some_iff.mp e1
    have e2' := List.getElem?_eq_some_iff.mp e2
    obtain ⟨hlt2, e2''⟩ := e2'
    rw [← e2'']
    congr 1
    rw [e1']; omega
  intro x y hx hy
  obtain ⟨a, ha, i, hi, rfl⟩ := exists_block s x (by omega)
  obtain ⟨b, hb, j, hj, rfl⟩ := exists_block s y (by omega)
  rw [hval a i ha hi, hval b j hb hj]
  have hcontig : ∀ a b i j (ha : a < s.length) (hb : b < s.length) (hi : i < s[a]) (hj : j < s[b]) (hx : offsetOf s a + i < p.length)
      (hy : offsetOf s b + j < p.length), a ≠ b →
      ((minsV p s)[a]'(by rw [minsV_length]; exact ha) < (minsV p s)[b]'(by rw [minsV_length]; exact hb)) →
      p[offsetOf s a + i] < p[offsetOf s b + j] := by
    intro a b i j ha hb hi hj hx hy hne hmin
    obtain ⟨⟨ia, hia, ea⟩, -⟩ := minsV_spec hpos hs ha
    obtain ⟨⟨ib, hib, eb⟩, hbmin⟩ := minsV_spec hpos hs hb
    obtain ⟨sa, hsa⟩ := hc a ha
    obtain ⟨sb, hsb⟩ := hc b hb
    obtain ⟨va, eva, h1, h2⟩ := hsa ia hia
    obtain ⟨vb, evb, h3, h4⟩ := hsb ib hib
    have hva : va = (minsV p s)[a]'(by rw [minsV_length]; exact ha) := by simpa [eva] using ea
    have hvb : vb = (minsV p s)[b]'(by rw [minsV_length]; exact hb) := by simpa [evb] using eb
    obtain ⟨u, eu, h5, h6⟩ := hsa i hi
    obtain ⟨w, ew, h7, h8⟩ := hsb j hj
    have hu : p[offsetOf s a + i] = u := by rw [List.getElem?_eq_getElem hx] at eu; simpa using eu
    have hw : p[offsetOf s b + j] = w := by rw [List.getElem?_eq_getElem hy] at ew; simpa using ew
    have hwmin := hbmin j hj w ew
    -- block `a` fills its whole range, so `minb` is not inside the range of block `a`
    have hfill : ∀ z, sa ≤ z → z < sa + s[a] → ∃ t, t < s[a] ∧ p[offsetOf s a + t]? = some z := by
      have himl : ((p.drop (offsetOf s a)).take s[a]).length = s[a] := by
        have := off_add_le s ha; simp; omega
      have hperm : (((p.drop (offsetOf s a)).take s[a]).map (· - sa)).Perm (List.range s[a]) := by
        have hmem : ∀ v ∈ ((p.drop (offsetOf s a)).take s[a]), sa ≤ v ∧ v < sa + s[a] := by
          intro v hv
          obtain ⟨t, ht, e⟩ := List.mem_iff_getElem.mp hv
          rw [himl] at ht
          obtain ⟨v', ev', h9, h10⟩ := hsa t ht
          rw [slice_getElem] at e
          have hlt : offsetOf s a + t < p.length := by have := off_add_le s ha; omega
          rw [List.getElem?_eq_getElem hlt, e] at ev'
          simp at ev'; omega
        have hnd : (((p.drop (offsetOf s a)).take s[a]).map (· - sa)).Nodup := by
          apply List.Nodup.map_on _ (slice_nodup hp _ _)
          intro x hx y hy hxy
          have := hmem x hx; have := hmem y hy; omega
        have hv : Valid (((p.drop (offsetOf s a)).take s[a]).map (· - sa)) := by
          apply valid_of_nodup_lt hnd
          intro x hx
          obtain ⟨v, hv, rfl⟩ := List.mem_map.mp hx
          have := hmem v hv
          rw [List.length_map, himl]; omega
        unfold Valid at hv
        rwa [List.length_map, himl] at hv
      intro z hz1 hz2
      have : z - sa ∈ ((p.drop (offsetOf s a)).take s[a]).map (· - sa) := hperm.mem_iff.mpr (by simp; omega)
      obtain ⟨v, hv, e⟩ := List.mem_map.mp this
      obtain ⟨t, ht, e2⟩ := List.mem_iff_getElem.mp hv
      rw [himl] at ht
      obtain ⟨v', ev', h9, h10⟩ := hsa t ht
      refine ⟨t, ht, ?_⟩
      rw [ev']
      rw [slice_getElem] at e2
      have hlt : offsetOf s a + t < p.length := by have := off_add_le s ha; omega
      rw [List.getElem?_eq_getElem hlt, e2] at ev'
      simp at ev'; simp; omega
    by_contra hcon
    have : ∃ t, t < s[a] ∧ p[offsetOf s a + t]? = some w := hfill w (by omega) (by omega)
    obtain ⟨t, ht, et⟩ := this
    have := Step.inj hp et ew
    exact hne (block_unique s ha hb ht hj this).1
  by_cases hab : a = b
  · subst hab
    rw [← withinsV_lt hp hs ha hi hj]
    omega
  · have hbp := bpV_lt hp hpos hs ha hb
    have hslot : ∀ a b i j (ha : a < s.length) (hb : b < s.length) (hi : i < s[a]) (hj : j < s[b]),
        (bpV p s)[a]'(by simpa using ha) < (bpV p s)[b]'(by simpa using hb) →
        offsetOf (slotSizes (bpV p s) s) ((bpV p s)[a]'(by simpa using ha)) +
          ((withinsV p 0 s)[a]'(by rwa [withinsV_length]))[i]'(by rw [withinsV_elem_length p s ha]; exact hi) <
        offsetOf (slotSizes (bpV p s) s) ((bpV p s)[b]'(by simpa using hb)) +
          ((withinsV p 0 s)[b]'(by rwa [withinsV_length]))[j]'(by rw [withinsV_elem_length p s hb]; exact hj) := by
      intro a b i j ha hb hi hj h
      have h1 : (bpV p s)[a]'(by simpa using ha) < (slotSizes (bpV p s) s).length := by
        have := (bpV_valid p s).lt (i := a) (by simpa using ha); rw [slotSizes_length]; exact this
      have h2 := offsetOf_step (slotSizes (bpV p s) s) h h1
      rw [slotSizes_getElem (bpV_valid p s) hbl (by simpa using ha)] at h2
      have hwv := withinsV_valid p s 0 _ (List.getElem_mem (by rwa [withinsV_length]) : (withinsV p 0 s)[a]'(by rwa [withinsV_length]) ∈ _)
      have := Nat.lt_of_lt_of_eq (hwv.lt (i := i) (by rw [withinsV_elem_length p s ha]; exact hi))
        (withinsV_elem_length p s ha)
      omega
    have hne : (minsV p s)[a]'(by rw [minsV_length]; exact ha) ≠ (minsV p s)[b]'(by rw [minsV_length]; exact hb) := by
      intro e
      exact hab ((List.Nodup.getElem_inj_iff (minsV_nodup hp hpos hs)).mp e)
    rcases Nat.lt_or_gt_of_ne hne with h | h
    · have h1 := hcontig a b i j ha hb hi hj (by omega) (by omega) hab h
      have h2 := hslot a b i j ha hb hi hj (hbp.mpr h)
      exact ⟨fun _ => h2, fun _ => h1⟩
    · have h1 := hcontig b a j i hb ha hj hi (by omega) (by omega) (Ne.symm hab) h
      have h2 := hslot b a j i hb ha hj hi ((bpV_lt hp hpos hs hb ha).mpr h)
      constructor <;> intro <;> omega

end QNET.Perm
