import Verif.Perm.Blocks

/-! # The block loop: invariant and correctness (helper lemmas) -/

namespace QNET.Perm

theorem foldl_max_ge (l : List Nat) : ∀ a, a ≤ l.foldl max a ∧ ∀ x ∈ l, x ≤ l.foldl max a := by
  induction l with
  | nil => simp
  | cons b t ih =>
    intro a
    have := ih (max a b)
    simp only [List.foldl_cons]
    refine ⟨by omega, ?_⟩
    intro x hx
    rcases List.mem_cons.mp hx with h | h
    · subst h; omega
    · exact this.2 x h

theorem foldl_max_mem (l : List Nat) : ∀ a, l.foldl max a = a ∨ l.foldl max a ∈ l := by
  induction l with
  | nil => simp
  | cons b t ih =>
    intro a
    simp only [List.foldl_cons]
    rcases ih (max a b) with h | h
    · rw [h]
      rcases Nat.le_total a b with h' | h'
      · right; simp [Nat.max_eq_right h']
      · left; exact Nat.max_eq_left h'
    · right; exact List.mem_cons_of_mem _ h

theorem le_maxOf {l : List Nat} {x : Nat} (h : x ∈ l) : x ≤ maxOf l := (foldl_max_ge l 0).2 x h

theorem maxOf_mem {l : List Nat} (h : l ≠ []) : maxOf l ∈ l := by
  rcases foldl_max_mem l 0 with h' | h'
  · obtain ⟨a, t, rfl⟩ := List.exists_cons_of_ne_nil h
    have := (foldl_max_ge (a :: t) 0).2 a (by simp)
    have e : maxOf (a :: t) = a := by unfold maxOf; omega
    rw [e]; simp
  · exact h'

/-! ### `fromBlocks` -/

theorem fromBlocksLoop_append (ps : List (List Nat)) (b : List Nat) :
    ∀ off acc, fromBlocksLoop off acc (ps ++ [b]) =
      fromBlocksLoop off acc ps ++ b.map (· + (off + (ps.map List.length).sum)) := by
  induction ps with
  | nil => intro off acc; simp [fromBlocksLoop]
  | cons p ps ih => intro off acc; simp [fromBlocksLoop, ih, Nat.add_assoc]

theorem fromBlocks_append_singleton (ps : List (List Nat)) (b : List Nat) :
    fromBlocks (ps ++ [b]) = fromBlocks ps ++ b.map (· + (ps.map List.length).sum) := by
  simp [fromBlocks, fromBlocksLoop_append]

theorem restrict_add {p : List Nat} {off m : Nat} (hc : ClosedInterval p off m) :
    (restrict p off m).map (· + off) = (p.drop off).take m := by
  have hl := hc.1
  apply List.ext_getElem
  · simp; omega
  intro i h1 h2
  simp only [List.length_map, restrict_length] at h1
  have := (hc.2 (off + i) (by omega) (by omega)).1
  have hli : off + i < p.length := by omega
  simp only [List.getElem_map, restrict_getElem, List.getElem_take, List.getElem_drop]
  simp only [List.getD_eq_getElem?_getD, List.getElem?_eq_getElem hli, Option.getD_some] at this ⊢
  omega

theorem take_append_block {p : List Nat} (a m : Nat) : p.take a ++ (p.drop a).take m = p.take (a + m) := by
  rw [List.take_add]

/-! ### Indecomposability -/

/-- the cycles of `cur` link up the interval `[start, stop]` -/
def Linked (cur : List (List Nat)) (start stop : Nat) : Prop :=
  ∀ m, start < m → m ≤ stop → ∃ c ∈ cur, (∃ x ∈ c, x < m) ∧ (∃ y ∈ c, m ≤ y)

theorem chain_side {p : List Nat} {m : Nat} (c : List Nat) (hch : c.IsChain (Step p))
    (hs : ∀ z ∈ c, z < m ↔ p.getD z 0 < m) : ∀ z ∈ c, z < m ↔ c.headD 0 < m := by
  induction c with
  | nil => simp
  | cons a t ih =>
    cases t with
    | nil => intro z hz; simp at hz; subst hz; simp
    | cons b t' =>
      rw [List.isChain_cons_cons] at hch
      intro z hz
      have hab : a < m ↔ b < m := by rw [hs a (by simp), hch.1.getD]
      rcases List.mem_cons.mp hz with h | h
      · subst h; simp
      · have := ih hch.2 (fun z hz => hs z (List.mem_cons_of_mem _ hz)) z h
        simp only [List.headD_cons] at this ⊢
        rw [this, hab]

theorem restrict_indecomposable {p : List Nat} {off m : Nat} {cur : List (List Nat)} (hc : ClosedInterval p off m)
    (hcs : ∀ c ∈ cur, CycOK p c) (hmem : ∀ x ∈ cur.flatten, off ≤ x ∧ x < off + m)
    (hl : Linked cur off (off + m - 1)) : Indecomposable (restrict p off m) := by
  intro k hk0 hk hsplit
  simp only [restrict_length] at hk
  obtain ⟨c, hcc, ⟨x, hx, hxm⟩, ⟨y, hy, hym⟩⟩ := hl (off + k) (by omega) (by omega)
  have hcmem : ∀ z ∈ c, off ≤ z ∧ z < off + m := fun z hz => hmem z (List.mem_flatten.mpr ⟨c, hcc, hz⟩)
  have hside := chain_side (m := off + k) c (hcs c hcc).chain (by
    intro z hz
    have hz' := hcmem z hz
    have := hsplit (z - off) (by simp; omega)
    rw [restrict_getElem, show off + (z - off) = z by omega] at this
    have h2 := hc.2 z hz'.1 hz'.2
    omega)
  have a := (hside x hx).mp hxm
  have b := (hside y hy).mpr a
  omega

structure BlockInv (p : List Nat) (start stop : Nat) (cur res cs : List (List Nat)) : Prop where
  cyc : ∀ c ∈ cur ++ cs, CycOK p c
  heads : (cs.map (fun c => c.headD 0)).Pairwise (· < ·)
  stopMem : stop ∈ cur.flatten
  curRange : ∀ x ∈ cur.flatten, start ≤ x ∧ x ≤ stop
  le : start ≤ p.length
  part : (cur.flatten ++ cs.flatten).Perm (List.range' start (p.length - start))
  linked : Linked cur start stop
  resOk : ∀ b ∈ res, Valid b ∧ b ≠ [] ∧ Indecomposable b
  resFrom : fromBlocks res = p.take start
  resLen : (res.map List.length).sum = start

theorem BlockInv.emit {p : List Nat} (hp : Valid p) {start stop : Nat} {cur res cs : List (List Nat)}
    (inv : BlockInv p start stop cur res cs) (hgt : ∀ x ∈ cs.flatten, stop < x) :
    ∃ b, fromCycles cur start = .ok b ∧ (cur.map List.length).sum = stop - start + 1 ∧
      (∀ b' ∈ res ++ [b], Valid b' ∧ b' ≠ [] ∧ Indecomposable b') ∧
      fromBlocks (res ++ [b]) = p.take (stop + 1) ∧ ((res ++ [b]).map List.length).sum = stop + 1 ∧
      stop < p.length := by
  have hmem : ∀ x, x ∈ cur.flatten ∨ x ∈ cs.flatten ↔ start ≤ x ∧ x < p.length := by
    intro x
    have := inv.part.mem_iff (a := x)
    rw [List.mem_append, List.mem_range'_1] at this
    rw [this]; have := inv.le; omega
  have hstop := (hmem stop).mp (Or.inl inv.stopMem)
  have hperm : cur.flatten.Perm (List.range' start (stop - start + 1)) := by
    have hnd : cur.flatten.Nodup := by
      have : (cur.flatten ++ cs.flatten).Nodup := inv.part.nodup_iff.mpr List.nodup_range'
      exact (List.nodup_append.mp this).1
    rw [List.perm_ext_iff_of_nodup hnd List.nodup_range']
    intro x
    rw [List.mem_range'_1]
    constructor
    · intro h; have := inv.curRange x h; omega
    · intro h
      rcases (hmem x).mpr (by omega) with h' | h'
      · exact h'
      · have := hgt x h'; omega
  have hcyc : ∀ c ∈ cur, CycOK p c := fun c hc => inv.cyc c (List.mem_append_left _ hc)
  obtain ⟨h1, h2, h3⟩ := fromCycles_ok hp hcyc hperm (by omega)
  refine ⟨_, h1, h3, ?_, ?_, ?_, hstop.2⟩
  · intro b' hb'
    rcases List.mem_append.mp hb' with h | h
    · exact inv.resOk b' h
    · simp only [List.mem_singleton] at h
      subst h
      refine ⟨restrict_valid hp h2, ?_, ?_⟩
      · intro e; have := congrArg List.length e; simp at this
      · apply restrict_indecomposable h2 hcyc
        · intro x hx; have := inv.curRange x hx; omega
        · rw [show start + (stop - start + 1) - 1 = stop by omega]; exact inv.linked
  · rw [fromBlocks_append_singleton, inv.resFrom, inv.resLen, restrict_add h2, take_append_block]
    congr 1; omega
  · simp [inv.resLen]; omega

theorem blockLoop_ok {p : List Nat} (hp : Valid p) (cs : List (List Nat)) :
    ∀ (start stop : Nat) (cur res : List (List Nat)), BlockInv p start stop cur res cs →
    ∃ bs, blockLoop p.length start stop cur res cs = .ok bs ∧
      (∀ b ∈ bs, Valid b ∧ b ≠ [] ∧ Indecomposable b) ∧ fromBlocks bs = p := by
  induction cs with
  | nil =>
    intro start stop cur res inv
    obtain ⟨b, h1, h2, h3, h4, h5, h6⟩ := inv.emit hp (by simp)
    have hfull : stop + 1 = p.length := by
      have hm := inv.part.mem_iff (a := p.length - 1)
      simp only [List.flatten_nil, List.append_nil, List.mem_range'_1] at hm
      have hs := inv.curRange stop inv.stopMem
      have := inv.curRange (p.length - 1) (hm.mpr (by omega))
      omega
    refine ⟨res ++ [b], ?_, h3, ?_⟩
    · rw [blockLoop]
      simp only [h1, bind, Except.bind]
      rw [if_neg (by simpa using h2), if_neg (by rw [h5, hfull]; simp)]
    · rw [h4, hfull, List.take_length]
  | cons c cs ih =>
    intro start stop cur res inv
    have hok := inv.cyc c (by simp)
    obtain ⟨c0, ct, rfl⟩ := List.exists_cons_of_ne_nil hok.ne
    have hheads : (∀ d ∈ cs, c0 < d.headD 0) ∧ (cs.map (fun c => c.headD 0)).Pairwise (· < ·) := by
      have := inv.heads
      rw [List.map_cons, List.pairwise_cons] at this
      exact ⟨fun d hd => this.1 _ (List.mem_map_of_mem hd), this.2⟩
    have hge : ∀ x ∈ (((c0 :: ct) :: cs).flatten), c0 ≤ x := by
      intro x hx
      obtain ⟨d, hd, hxd⟩ := List.mem_flatten.mp hx
      have hdok := inv.cyc d (List.mem_append_right _ hd)
      have h1 := hdok.minFirst x hxd
      rcases List.mem_cons.mp hd with h | h
      · subst h; simpa using h1
      · have := hheads.1 d h
        omega
    have hmem : ∀ x, x ∈ cur.flatten ∨ x ∈ ((c0 :: ct) :: cs).flatten ↔ start ≤ x ∧ x < p.length := by
      intro x
      have := inv.part.mem_iff (a := x)
      rw [List.mem_append, List.mem_range'_1] at this
      rw [this]; have := inv.le; omega
    have hc0m := (hmem c0).mp (Or.inr (by simp))
    have hmaxm : maxOf (c0 :: ct) ∈ (c0 :: ct) := maxOf_mem (by simp)
    rw [blockLoop]
    by_cases hgt : c0 > stop
    · obtain ⟨b, h1, h2, h3, h4, h5, h6⟩ := inv.emit hp (fun x hx => by have := hge x hx; omega)
      have hc0 : c0 = stop + 1 := by
        by_contra hne
        have hs := inv.curRange stop inv.stopMem
        rcases (hmem (stop + 1)).mpr (by omega) with h | h
        · have := inv.curRange _ h; omega
        · have := hge _ h; omega
      simp only [h1, bind, Except.bind, if_pos hgt]
      rw [if_neg (by simpa using h2)]
      apply ih
      refine ⟨fun d hd => inv.cyc d (by
          rcases List.mem_append.mp hd with h | h
          · simp at h; subst h; simp
          · simp [h]), by simpa using hheads.2, by simpa using hmaxm, ?_, by omega, ?_, ?_, h3, ?_, ?_⟩
      · intro x hx
        simp only [List.flatten_cons, List.flatten_nil, List.append_nil] at hx
        exact ⟨hge x (by rw [List.flatten_cons]; exact List.mem_append_left _ hx), le_maxOf hx⟩
      · have hnd : (cur.flatten ++ ((c0 :: ct) :: cs).flatten).Nodup := inv.part.nodup_iff.mpr List.nodup_range'
        have hnd2 := List.nodup_append.mp hnd
        rw [show ([c0 :: ct] : List (List Nat)).flatten ++ cs.flatten = ((c0 :: ct) :: cs).flatten by simp]
        rw [List.perm_ext_iff_of_nodup hnd2.2.1 List.nodup_range']
        intro x
        rw [List.mem_range'_1]
        constructor
        · intro h
          have := hge x h
          have := (hmem x).mp (Or.inr h)
          omega
        · intro h
          have hs := inv.curRange stop inv.stopMem
          rcases (hmem x).mpr (by omega) with h' | h'
          · have := inv.curRange x h'; omega
          · exact h'
      · intro m hm1 hm2
        exact ⟨c0 :: ct, by simp, ⟨c0, by simp, hm1⟩, ⟨_, hmaxm, hm2⟩⟩
      · rw [h4, hc0]
      · rw [h5, hc0]
    · simp only [if_neg hgt]
      apply ih
      have hstop' : (if maxOf (c0 :: ct) > stop then maxOf (c0 :: ct) else stop) = max (maxOf (c0 :: ct)) stop := by
        split <;> omega
      rw [hstop']
      refine ⟨fun d hd => inv.cyc d (by simpa using hd), by simpa using hheads.2, ?_, ?_, inv.le, ?_, ?_,
        inv.resOk, inv.resFrom, inv.resLen⟩
      · rw [List.flatten_append, List.mem_append]
        rcases Nat.le_total (maxOf (c0 :: ct)) stop with h | h
        · left; rw [Nat.max_eq_right h]; exact inv.stopMem
        · right; rw [Nat.max_eq_left h]; simpa using hmaxm
      · intro x hx
        rw [List.flatten_append, List.mem_append] at hx
        rcases hx with h | h
        · have := inv.curRange x h; omega
        · simp only [List.flatten_cons, List.flatten_nil, List.append_nil] at h
          have h1 := le_maxOf h
          have h2 := hge x (by rw [List.flatten_cons]; exact List.mem_append_left _ h)
          omega
      · have := inv.part
        simpa using this
      · intro m hm1 hm2
        by_cases hm : m ≤ stop
        · obtain ⟨d, hd, h⟩ := inv.linked m hm1 hm
          exact ⟨d, List.mem_append_left _ hd, h⟩
        · exact ⟨c0 :: ct, by simp, ⟨c0, by simp, by omega⟩, ⟨_, hmaxm, by omega⟩⟩

theorem toBlocks_ok {p : List Nat} (hp : Valid p) (hne : p ≠ []) :
    ∃ bs, toBlocks p = .ok bs ∧ (∀ b ∈ bs, Valid b ∧ b ≠ [] ∧ Indecomposable b) ∧ fromBlocks bs = p := by
  obtain ⟨cs, h1, h2, h3, h4⟩ := toCycles_ok hp hne
  have hpos : 0 < p.length := List.length_pos_iff.mpr hne
  have hcase : ¬ (p.length = 0 ∨ (!check p) = true) := by
    simp [(check_iff p).mpr hp]; exact hne
  have h0 : 0 ∈ cs.flatten := h3.mem_iff.mpr (by simpa using hpos)
  match cs, h1, h2, h3, h4, h0 with
  | [c], h1, h2, h3, h4, h0 =>
    refine ⟨[p], ?_, ?_, by simp [fromBlocks, fromBlocksLoop]⟩
    · unfold toBlocks; rw [if_neg hcase]; simp [h1, bind, Except.bind]
    · intro b hb
      simp only [List.mem_singleton] at hb
      subst hb
      refine ⟨hp, hne, ?_⟩
      have hc : ClosedInterval b 0 b.length := ⟨by omega, fun x _ hx => ⟨by omega, by
        have hx' : x < b.length := by omega
        simp only [List.getD_eq_getElem?_getD, List.getElem?_eq_getElem hx', Option.getD_some]
        have := hp.lt hx'; omega⟩⟩
      rw [← restrict_zero b]
      rw [← restrict_zero b] at hc
      apply restrict_indecomposable (cur := [c]) (by simpa [restrict_zero] using hc) h2
      · intro x hx; have := h3.mem_iff.mp hx; simpa using this
      · intro m hm1 hm2
        refine ⟨c, by simp, ⟨0, by simpa using h0, hm1⟩, ⟨b.length - 1, ?_, by simpa using hm2⟩⟩
        have := h3.mem_iff (a := b.length - 1)
        simp only [List.flatten_cons, List.flatten_nil, List.append_nil, List.mem_range] at this
        exact this.mpr (by omega)
  | (c0 :: ct) :: c2 :: cs, h1, h2, h3, h4, h0 =>
    have hc0 : c0 = 0 := by
      obtain ⟨d, hd, hxd⟩ := List.mem_flatten.mp h0
      have hdok := h2 d hd
      have hm := hdok.minFirst 0 hxd
      rcases List.mem_cons.mp hd with h | h
      · subst h; simp at hm; exact hm
      · rw [List.map_cons, List.pairwise_cons] at h4
        have := h4.1 _ (List.mem_map_of_mem h)
        simp only [List.headD_cons] at this
        omega
    have hmaxm : maxOf (c0 :: ct) ∈ (c0 :: ct) := maxOf_mem (by simp)
    have inv : BlockInv p c0 (maxOf (c0 :: ct)) [c0 :: ct] [] (c2 :: cs) := by
      refine ⟨by simpa using h2, ?_, by simpa using hmaxm, ?_, by omega, ?_, ?_, by simp, by simp [fromBlocks, fromBlocksLoop, hc0], by simp [hc0]⟩
      · exact (List.pairwise_cons.mp (by simpa only [List.map_cons] using h4)).2
      · intro x hx
        simp only [List.flatten_cons, List.flatten_nil, List.append_nil] at hx
        exact ⟨by omega, le_maxOf hx⟩
      · rw [hc0, Nat.sub_zero, ← List.range_eq_range']
        simpa [hc0] using h3
      · intro m hm1 hm2
        exact ⟨c0 :: ct, by simp, ⟨c0, by simp, hm1⟩, ⟨_, hmaxm, hm2⟩⟩
    obtain ⟨bs, e, h⟩ := blockLoop_ok hp _ _ _ _ _ inv
    refine ⟨bs, ?_, h⟩
    unfold toBlocks; rw [if_neg hcase]; simp [h1, bind, Except.bind, e]
  | [] :: c2 :: cs, h1, h2, h3, h4, h0 => exact absurd rfl (h2 [] (by simp)).ne
  | [], h1, h2, h3, h4, h0 => simp at h0

end QNET.Perm
