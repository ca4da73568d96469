import Verif.Circuit.TermConcat

/-!
# Blocks of simplified circuits (tools for C78)
-/

namespace QNET.Circuit

open QNET.Perm QNET.CPerm CircAlg

variable {A : Type} [Ring A] [StarRing A] [Algebra ℂ A]

/-! ### circuits without components -/

theorem noRule_perm_cid {p : List ℕ} {n : ℕ} : ¬ NoRule (SR A) (.perm p) (cid n) := by
  intro h
  obtain ⟨f, -, -, -, h, -⟩ := noRule_SR h
  have := h p rfl
  unfold factorPermutation at this
  rw [bind_ok] at this
  obtain ⟨_, _, this⟩ := this
  rw [if_pos (isCid_cid n)] at this
  injection this with h
  cases h

theorem cid_ne_perm (n : ℕ) (q : List ℕ) : (cid n : Circ A) ≠ .perm q := by
  match n with
  | 0 => simp [cid]
  | 1 => simp [cid]
  | n + 2 => simp [cid]

theorem noRule_cid_cid {n : ℕ} (hn : 2 ≤ n) : ¬ NoRule (SR A) (cid n) (cid n) := by
  intro h
  have hb := blockStructure_cid (A := A) (n := n) (by omega)
  have := noRule_tensor h (cid_ne_perm n) hb hb (st := List.replicate n 1) (by
    have := commonStructure_ones (List.replicate n 1) ((List.replicate n 1).length + (List.replicate n 1).length + 1) (by simp)
      (fun x hx => by rw [List.eq_of_mem_replicate hx]; exact Nat.one_pos)
    simpa using this)
  simp at this
  omega

theorem chain_mem' {α : Type} {R : α → α → Prop} {P E : α → Prop} (h : ∀ x y, E x → E y → R x y → P x ∧ P y) : ∀ l : List α, l.IsChain R → 2 ≤ l.length → (∀ c ∈ l, E c) → ∀ c ∈ l, P c
  | x :: y :: l, hc, _, hE, c, hm => by
    rw [List.isChain_cons_cons] at hc
    have h1 := h _ _ (hE x (by simp)) (hE y (by simp)) hc.1
    rcases List.mem_cons.mp hm with rfl | hm
    · exact h1.1
    · match l with
      | [] => rw [List.mem_singleton.mp hm]; exact h1.2
      | z :: l => exact chain_mem' h _ hc.2 (by simp) (fun c hc => hE c (by simp [hc])) c hm

theorem deepList_zero : ∀ {l : List (Circ A)}, deepList l = 0 → ∀ c ∈ l, deep c = 0
  | [], _, c, hc => by cases hc
  | d :: l, h, c, hc => by
    rw [deepList] at h
    rcases List.mem_cons.mp hc with rfl | hc
    · omega
    · exact deepList_zero (by omega) c hc

theorem deep_zero {c : Circ A} (h : Gd c) : deep c = 0 → c = cid c.cdim ∨ (∃ p, Reachable (.perm p) ∧ c = .perm p) ∨ ∃ m p, c = .series [cid m, .perm p] := by
  induction h with
  | sym a n h => intro h0; simp [deep] at h0
  | inv a n h => intro h0; simp [deep] at h0
  | slh s h => intro h0; simp [deep] at h0
  | id1 => exact fun _ => .inl rfl
  | perm p h => exact fun _ => .inr (.inl ⟨p, h, rfl⟩)
  | concat l hl hg hf hc ih =>
    intro h0
    rw [deep] at h0
    have hs := (Gd.concat l hl hg hf hc).concat_split
    have hE : ∀ c ∈ l, c = .id1 ∨ ∃ p : List ℕ, c = .perm p := by
      intro c hm
      rcases ih c hm (deepList_zero h0 c hm) with h1 | ⟨p, -, h1⟩ | ⟨m, p, h1⟩
      · left
        have h2 := hf c hm
        have h3 := (hg c hm).pos
        rw [h1] at h2
        generalize c.cdim = k at h1 h2 h3
        match k with
        | 0 => omega
        | 1 => exact h1
        | k + 2 => cases h2
      · exact .inr ⟨p, h1⟩
      · have h2 := hs c hm
        rw [h1, show ([cid m, .perm p] : List (Circ A)) = [cid m] ++ [.perm p] from rfl, splitPerm_append (by simp)] at h2
        cases h2
    have hall : ∀ c ∈ l, c = .id1 := by
      refine chain_mem' (E := fun c => c = .id1 ∨ ∃ p : List ℕ, c = .perm p) ?_ l hc hl hE
      rintro x y (rfl | ⟨p, rfl⟩) (rfl | ⟨q, rfl⟩) hr
      · exact ⟨rfl, rfl⟩
      · exact absurd (.inr hr) noRule_perm
      · exact absurd (.inl hr) noRule_perm
      · exact absurd hr noRule_perm_perm
    left
    have e : l = List.replicate l.length .id1 := List.eq_replicate_iff.mpr ⟨rfl, hall⟩
    generalize l.length = k at e hl
    subst e
    match k with
    | 0 => omega
    | 1 => omega
    | k + 2 =>
      rw [show (Circ.concat (List.replicate (k + 2) .id1) : Circ A) = cid (k + 2) from rfl, cid_cdim]
  | series l n hl hg hf hc ih =>
    intro h0
    rw [deep] at h0
    have hE : ∀ c ∈ l, c = cid n ∨ ∃ p : List ℕ, c = .perm p := by
      intro c hm
      rcases ih c hm (deepList_zero h0 c hm) with h1 | ⟨p, -, h1⟩ | ⟨m, p, h1⟩
      · rw [(hf c hm).2.1] at h1
        exact .inl h1
      · exact .inr ⟨p, h1⟩
      · have h2 := (hf c hm).1
        rw [h1] at h2
        cases h2
    have hn : 2 ≤ n ∨ ∀ c ∈ l, c ≠ cid n := by
      by_cases h : 2 ≤ n
      · exact .inl h
      · refine .inr fun c hm e => ?_
        have h1 := (hg c hm).pos
        have h2 := hf c hm
        rw [h2.2.1] at h1
        have : n = 1 := by omega
        subst this
        exact h2.2.2 e
    match l with
    | [] => simp at hl
    | [_] => simp at hl
    | x :: y :: l =>
      rw [List.isChain_cons_cons] at hc
      have noPerm : ∀ (q : List ℕ) (z : Circ A), (z = cid n ∨ ∃ p : List ℕ, z = .perm p) → ¬ NoRule (SR A) (.perm q) z := by
        rintro q z (rfl | ⟨p, rfl⟩)
        · exact noRule_perm_cid
        · intro h
          obtain ⟨f, h, -⟩ := noRule_SR h
          exact h _ _ ⟨rfl, rfl⟩
      rcases hE x (by simp) with rfl | ⟨p, rfl⟩
      · rcases hE y (by simp) with rfl | ⟨p, rfl⟩
        · rcases hn with hn | hn
          · exact absurd hc.1 (noRule_cid_cid hn)
          · exact absurd rfl (hn _ (by simp))
        · match l with
          | [] => exact .inr (.inr ⟨n, p, rfl⟩)
          | z :: l =>
            have := hc.2
            rw [List.isChain_cons_cons] at this
            exact absurd this.1 (noPerm p z (hE z (by simp)))
      · exact absurd hc.1 (noPerm p y (hE y (by simp)))

/-- a permutation or an identity -/
def Zero (c : Circ A) : Prop := ∃ pc : PC, Reachable pc ∧ 0 < pc.cdim ∧ c = ofPC pc

theorem zero_of_deep {c : Circ A} (h : Gd c) (h0 : deep c = 0) (hs : flatSeries c = none) : Zero c := by
  rcases deep_zero h h0 with h1 | ⟨p, hp, h1⟩ | ⟨m, p, h1⟩
  · exact ⟨.cid c.cdim, reachable_cid _, h.pos, h1⟩
  · exact ⟨.perm p, hp, by have := perm_length_pos hp; simp only [PC.cdim]; omega, h1⟩
  · rw [h1] at hs; cases hs

theorem Zero.gd {c : Circ A} (h : Zero c) : Gd c := by
  obtain ⟨pc, h1, h2, rfl⟩ := h
  exact ofPC_gd h1 h2
theorem Zero.deep {c : Circ A} (h : Zero c) : deep c = 0 := by
  obtain ⟨pc, h1, h2, rfl⟩ := h
  exact deep_ofPC pc
theorem Zero.noSeries {c : Circ A} (h : Zero c) : flatSeries c = none := by
  obtain ⟨pc, h1, h2, rfl⟩ := h
  cases pc with
  | perm p => rfl
  | cid n => exact noSeries_cid n
theorem splitPerm_noSeries {c : Circ A} (h : flatSeries c = none) : splitPerm c = none := by
  unfold splitPerm
  split
  · cases h
  · rfl
theorem Zero.split {c : Circ A} (h : Zero c) : splitPerm c = none := splitPerm_noSeries h.noSeries

/-! ### blocks -/

theorem createPerms_ok : ∀ ps : List (List ℕ), (∀ p ∈ ps, Valid p ∧ p ≠ []) → ∃ cs, createPerms (A := A) ps = .ok cs ∧ cs.map Circ.cdim = ps.map List.length ∧ (∀ c ∈ cs, Zero c)
  | [], _ => ⟨[], rfl, rfl, by simp⟩
  | p :: ps, h => by
    obtain ⟨cs, e1, e2, e3⟩ := createPerms_ok ps fun q hq => h q (by simp [hq])
    obtain ⟨hv, hne⟩ := h p (by simp)
    have hc := create_ok hv
    have ht := create_tuple hc
    generalize (if p = List.range p.length then PC.cid p.length else PC.perm p) = pc at hc ht
    refine ⟨ofPC pc :: cs, ?_, ?_, ?_⟩
    · unfold createPerms at e1 ⊢
      rw [List.mapM_cons, hc, e1]
      rfl
    · rw [List.map_cons, List.map_cons, e2, ofPC_cdim, ht.2.2]
    · intro c hm
      rcases List.mem_cons.mp hm with rfl | hm
      · exact ⟨pc, ⟨p, hc⟩, by rw [ht.2.2]; exact List.length_pos_iff.mpr hne, rfl⟩
      · exact e3 c hm

/-- the blocks of an operand -/
theorem ownBlocks_gd {c : Circ A} (h : Gd c) (hf : flatConcat c = none) (hs : splitPerm c = none) : ∃ bs, (∀ R, ownBlocks R c = .ok bs) ∧ blockStructure c = .ok (bs.map Circ.cdim) ∧
    (∀ b ∈ bs, Gd b ∧ splitPerm b = none) ∧ sumCdim bs = c.cdim ∧ deepList bs = deep c ∧ bs ≠ [] := by
  have one : (∀ R, ownBlocks R c = .ok [c]) → blockStructure c = .ok [c.cdim] → ∃ bs, (∀ R, ownBlocks R c = .ok bs) ∧ blockStructure c = .ok (bs.map Circ.cdim) ∧
    (∀ b ∈ bs, Gd b ∧ splitPerm b = none) ∧ sumCdim bs = c.cdim ∧ deepList bs = deep c ∧ bs ≠ [] := fun h1 h2 =>
    ⟨[c], h1, h2, fun b hb => by rw [List.mem_singleton.mp hb]; exact ⟨h, hs⟩, by simp [sumCdim], by simp [deepList], by simp⟩
  cases h with
  | concat l _ _ _ _ => cases hf
  | perm p hp =>
    have hv := (reachable_perm.mp hp).1
    have h2 := perm_length_pos hp
    have hne : p ≠ [] := by rintro rfl; simp at h2
    obtain ⟨bs, e1, e2, e3⟩ := toBlocks_ok hv hne
    obtain ⟨cs, c1, c2, c3⟩ := createPerms_ok (A := A) bs fun b hb => ⟨(e2 b hb).1, (e2 b hb).2.1⟩
    have hz : ∀ {l : List (Circ A)}, (∀ c ∈ l, Zero c) → deepList l = 0 := by
      intro l
      induction l with
      | nil => exact fun _ => rfl
      | cons c l ih => intro h; rw [deepList, ih fun d hd => h d (by simp [hd]), (h c (by simp)).deep]
    refine ⟨cs, fun R => ?_, ?_, fun b hb => ⟨(c3 b hb).gd, (c3 b hb).split⟩, ?_, hz c3, ?_⟩
    · rw [ownBlocks, e1]
      exact c1
    · rw [blockStructure, e1, c2]
      rfl
    · rw [sumCdim_eq, c2, ← fromBlocks_length, e3]
      rfl
    · rintro rfl
      simp only [List.map_nil] at c2
      have : bs = [] := List.map_eq_nil_iff.mp c2.symm
      subst this
      exact hne e3.symm
  | _ => exact one (fun _ => rfl) rfl

theorem ownBlocksList_gd : ∀ l : List (Circ A), (∀ c ∈ l, Gd c) → (∀ c ∈ l, flatConcat c = none) → (∀ c ∈ l, splitPerm c = none) →
    ∃ bs, (∀ R, ownBlocksList R l = .ok bs) ∧ blockStructureList l = .ok (bs.map Circ.cdim) ∧ (∀ b ∈ bs, Gd b ∧ splitPerm b = none) ∧ sumCdim bs = sumCdim l ∧ deepList bs = deepList l ∧ l.length ≤ bs.length
  | [], _, _, _ => ⟨[], fun _ => rfl, rfl, by simp, rfl, rfl, by simp⟩
  | c :: l, h1, h2, h3 => by
    obtain ⟨bs, a1, a2, a3, a4, a5, a6⟩ := ownBlocks_gd (h1 c (by simp)) (h2 c (by simp)) (h3 c (by simp))
    obtain ⟨cs, b1, b2, b3, b4, b5, b6⟩ := ownBlocksList_gd l (fun d hd => h1 d (by simp [hd])) (fun d hd => h2 d (by simp [hd])) (fun d hd => h3 d (by simp [hd]))
    refine ⟨bs ++ cs, fun R => ?_, ?_, fun b hb => (List.mem_append.mp hb).elim (a3 b) (b3 b), ?_, ?_, ?_⟩
    · rw [ownBlocksList, a1, b1]
      rfl
    · rw [blockStructureList, a2, b2, List.map_append]
      rfl
    · rw [sumCdim_append, a4, b4]
      rfl
    · rw [deepList_append, a5, b5]
      rfl
    · have := List.length_pos_iff.mpr a6
      simp only [List.length_append, List.length_cons]
      omega

theorem coarse_length {st sz : List ℕ} (h : Coarse st sz) : st.length ≤ sz.length := by
  induction h with
  | nil => simp
  | cons part rest st hp _ ih =>
    have := List.length_pos_iff.mpr hp
    simp only [List.length_cons, List.length_append]
    omega

theorem coarse_refl : ∀ l : List ℕ, Coarse l l
  | [] => .nil
  | a :: l => by
    have := Coarse.cons [a] l l (by simp) (coarse_refl l)
    simpa using this

theorem takeBlocks_gd {bl : ℕ} (rest : List (Circ A)) : ∀ (tk : List (Circ A)) (cur : ℕ), (∀ b ∈ tk, Gd b) → cur + sumCdim tk = bl → takeBlocks bl cur (tk ++ rest) = .ok (tk, bl, rest)
  | [], cur, _, h => by
    simp only [sumCdim, Nat.add_zero] at h
    subst h
    unfold takeBlocks
    rw [if_neg (lt_irrefl _)]
    rfl
  | b :: tk, cur, hg, h => by
    have hb := (hg b (by simp)).pos
    rw [sumCdim] at h
    unfold takeBlocks
    rw [if_pos (by omega)]
    simp only [List.cons_append]
    rw [takeBlocks_gd rest tk (cur + b.cdim) (fun c hc => hg c (by simp [hc])) (by omega)]
    rfl

theorem regroup_gd {st sz : List ℕ} (h : Coarse st sz) : ∀ bs : List (Circ A), sz = bs.map Circ.cdim → (∀ b ∈ bs, Gd b ∧ splitPerm b = none) →
    ∃ cs, Cv (fun f => regroup (opsAt true f) st bs) cs ∧ cs.map Circ.cdim = st ∧ (∀ c ∈ cs, Gd c) ∧ deepList cs ≤ deepList bs := by
  induction h with
  | nil => exact fun bs _ _ => ⟨[], ⟨0, fun _ _ => rfl⟩, rfl, by simp, by simp [deepList]⟩
  | cons part rest st hp _ ih =>
    intro bs e hg
    obtain ⟨tk, rs, rfl, rfl, rfl⟩ := List.append_eq_map_iff.mp e
    obtain ⟨cs, e1, d1, g1, p1⟩ := ih rs rfl fun b hb => hg b (by simp [hb])
    have hne : tk ≠ [] := by rintro rfl; simp at hp
    obtain ⟨c, e2, gz, d2, p2, -⟩ := concat_plain (l := tk) hne (fun b hb => (hg b (by simp [hb])).1) (fun b hb => (hg b (by simp [hb])).2)
    have hs := takeBlocks_gd (bl := (tk.map Circ.cdim).sum) rs tk 0 (fun b hb => (hg b (by simp [hb])).1) (by rw [Nat.zero_add, sumCdim_eq])
    refine ⟨c :: cs, ?_, by rw [List.map_cons, d1, d2, sumCdim_eq], fun d hd => ?_, ?_⟩
    · have : ∀ f, regroup (opsAt true f) ((tk.map Circ.cdim).sum :: st) (tk ++ rs) = ((opsAt true f).concat tk >>= fun c => regroup (opsAt true f) st rs >>= fun cs => .ok (c :: cs)) := by
        intro f
        rw [regroup, hs]
        change (if _ ≠ _ then _ else _) = _
        rw [if_neg (by simp)]
      refine Cv.congr ?_ this
      refine Cv.bind e2 ?_
      refine Cv.bind e1 ?_
      exact Cv.const rfl
    · rcases List.mem_cons.mp hd with rfl | hd
      · exact gz
      · exact g1 d hd
    · rw [deepList, deepList_append]
      omega

theorem takePerms_ok {l : ℕ} (rest : List (List ℕ)) : ∀ (tk : List (List ℕ)) (cur : List ℕ), (∀ b ∈ tk, b ≠ []) → cur.length + (tk.map List.length).sum = l →
    ∃ r, takePerms l cur (tk ++ rest) = .ok (r, rest) ∧ r.length = l
  | [], cur, _, h => by
    simp only [List.map_nil, List.sum_nil, Nat.add_zero] at h
    refine ⟨cur, ?_, h⟩
    unfold takePerms
    rw [if_neg (by omega)]
    rfl
  | b :: tk, cur, hg, h => by
    have hb := List.length_pos_iff.mpr (hg b (by simp))
    simp only [List.map_cons, List.sum_cons] at h
    obtain ⟨r, e, hr⟩ := takePerms_ok (l := l) rest tk (cur ++ b.map (· + cur.length)) (fun c hc => hg c (by simp [hc])) (by simp only [List.length_append, List.length_map]; omega)
    refine ⟨r, ?_, hr⟩
    unfold takePerms
    rw [if_pos (by omega)]
    exact e

theorem regroupPerms_ok {st sz : List ℕ} (h : Coarse st sz) : ∀ bs : List (List ℕ), sz = bs.map List.length → (∀ b ∈ bs, b ≠ []) → ∃ ps, regroupPerms st bs = .ok ps := by
  induction h with
  | nil => exact fun bs _ _ => ⟨[], rfl⟩
  | cons part rest st hp _ ih =>
    intro bs e hg
    obtain ⟨tk, rs, rfl, rfl, rfl⟩ := List.append_eq_map_iff.mp e
    obtain ⟨ps, e1⟩ := ih rs rfl fun b hb => hg b (by simp [hb])
    obtain ⟨r, e2, e3⟩ := takePerms_ok (l := (tk.map List.length).sum) rs tk [] (fun b hb => hg b (by simp [hb])) (by simp)
    refine ⟨r :: ps, ?_⟩
    rw [regroupPerms, e2]
    change (if _ ≠ _ then _ else _) = _
    rw [if_neg (by simpa using e3), e1]
    rfl

/-- the block structure of a simplified circuit, and its blocks for a coarser structure with at least two blocks -/
theorem blocks_gd {c : Circ A} (h : Gd c) : ∃ st, blockStructure c = .ok st ∧ (∀ x ∈ st, 0 < x) ∧ st.sum = c.cdim ∧ st ≠ [] ∧
    ∀ st', Coarse st' st → 1 < st'.length → ∃ cs, Cv (fun f => getBlocks (opsAt true f) c st') cs ∧ cs.map Circ.cdim = st' ∧ (∀ d ∈ cs, Gd d) ∧ deepList cs ≤ deep c := by
  have hpos : ∀ {l : List (Circ A)}, (∀ b ∈ l, Gd b) → ∀ x ∈ l.map Circ.cdim, 0 < x := fun hl x hx => by
    obtain ⟨b, hb, rfl⟩ := List.mem_map.mp hx
    exact (hl b hb).pos
  have one : blockStructure c = .ok [c.cdim] → ∃ st, blockStructure c = .ok st ∧ (∀ x ∈ st, 0 < x) ∧ st.sum = c.cdim ∧ st ≠ [] ∧
    ∀ st', Coarse st' st → 1 < st'.length → ∃ cs, Cv (fun f => getBlocks (opsAt true f) c st') cs ∧ cs.map Circ.cdim = st' ∧ (∀ d ∈ cs, Gd d) ∧ deepList cs ≤ deep c := fun h1 =>
    ⟨[c.cdim], h1, fun x hx => by rw [List.mem_singleton.mp hx]; exact h.pos, by simp, by simp, fun st' hc hl => by
      have := coarse_length hc
      simp at this
      omega⟩
  cases h with
  | concat l hl hg hf hc =>
    obtain ⟨bs, b1, b2, b3, b4, b5, b6⟩ := ownBlocksList_gd l hg hf (Gd.concat l hl hg hf hc).concat_split
    refine ⟨bs.map Circ.cdim, b2, hpos fun b hb => (b3 b hb).1, by rw [← sumCdim_eq, b4]; rfl, ?_, fun st' hc hl' => ?_⟩
    · intro h
      rw [List.map_eq_nil_iff.mp h] at b6
      simp only [List.length_nil] at b6
      omega
    · obtain ⟨cs, e, c1, c2, c3⟩ := regroup_gd hc bs rfl b3
      refine ⟨cs, ?_, c1, c2, by rw [b5] at c3; exact c3⟩
      refine e.congr fun f => ?_
      rw [getBlocks, b1]
      rfl
  | perm p hp =>
    have hv := (reachable_perm.mp hp).1
    have h2 := perm_length_pos hp
    have hne : p ≠ [] := by rintro rfl; simp at h2
    obtain ⟨bs, e1, e2, e3⟩ := toBlocks_ok hv hne
    have hsum : (bs.map List.length).sum = p.length := by rw [← fromBlocks_length, e3]
    have fin : ∀ (st' : List ℕ) (ps : List (List ℕ)), (∀ q ∈ ps, Valid q ∧ q ≠ []) → ps.map List.length = st' → (∀ f, getBlocks (opsAt (A := A) true f) (.perm p) st' = createPerms ps) →
        ∃ cs, Cv (fun f => getBlocks (opsAt (A := A) true f) (.perm p) st') cs ∧ cs.map Circ.cdim = st' ∧ (∀ d ∈ cs, Gd d) ∧ deepList cs ≤ deep (.perm p : Circ A) := by
      intro st' ps hps hl he
      obtain ⟨cs, c1, c2, c3⟩ := createPerms_ok (A := A) ps hps
      refine ⟨cs, ⟨0, fun f _ => (he f).trans c1⟩, by rw [c2, hl], fun d hd => (c3 d hd).gd, ?_⟩
      have hz : ∀ {l : List (Circ A)}, (∀ c ∈ l, Zero c) → deepList l = 0 := by
        intro l
        induction l with
        | nil => exact fun _ => rfl
        | cons c l ih => intro h; rw [deepList, ih fun d hd => h d (by simp [hd]), (h c (by simp)).deep]
      rw [hz c3]
      exact Nat.zero_le _
    refine ⟨bs.map List.length, by rw [blockStructure, e1]; rfl, ?_, hsum, ?_, fun st' hc hl' => ?_⟩
    · intro x hx
      obtain ⟨b, hb, rfl⟩ := List.mem_map.mp hx
      exact List.length_pos_iff.mpr (e2 b hb).2.1
    · intro h
      rw [h] at hsum
      simp only [List.sum_nil] at hsum
      omega
    · by_cases hst : st' = bs.map List.length
      · refine fin st' bs (fun q hq => ⟨(e2 q hq).1, (e2 q hq).2.1⟩) hst.symm fun f => ?_
        simp only [getBlocks]
        rw [e1]
        change (if _ then _ else _) = _
        rw [if_pos hst]
      · obtain ⟨ps, e4⟩ := regroupPerms_ok hc bs rfl fun b hb => (e2 b hb).2.1
        obtain ⟨p1, p2, -⟩ := regroupPerms_spec st' bs ps (fun b hb => (e2 b hb).1) e4
        have hpos' : ∀ x ∈ st', 0 < x := by
          clear * - hc e2
          have : ∀ x ∈ bs.map List.length, 0 < x := fun x hx => by
            obtain ⟨b, hb, rfl⟩ := List.mem_map.mp hx
            exact List.length_pos_iff.mpr (e2 b hb).2.1
          generalize bs.map List.length = sz at hc this
          induction hc with
          | nil => simp
          | cons part rest st hp _ ih =>
            intro x hx
            rcases List.mem_cons.mp hx with rfl | hx
            · cases part with
              | nil => exact absurd rfl hp
              | cons a part =>
                have := this a (by simp)
                rw [List.sum_cons]
                omega
            · exact ih (fun y hy => this y (by simp [hy])) x hx
        refine fin st' ps (fun q hq => ⟨p2 q hq, fun h => ?_⟩) p1 fun f => ?_
        · have : q.length ∈ st' := by rw [← p1]; exact List.mem_map_of_mem hq
          have := hpos' _ this
          rw [h] at this
          simp at this
        · have hlen := coarse_length hc
          have hs := coarse_sum hc
          simp only [List.length_map] at hlen
          simp only [getBlocks]
          rw [e1]
          change (if _ then _ else _) = _
          rw [if_neg hst, if_neg (by omega), if_neg (by rw [hs, hsum]; simp), e4]
          rfl
  | _ => exact one rfl

end QNET.Circuit
