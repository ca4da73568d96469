import Verif.Circuit.TermStep2

/-!
# The rules for series products that use block structures (tools for C78)
-/

namespace QNET.Circuit

open QNET.Perm QNET.CPerm CircAlg

variable {A : Type} [Ring A] [StarRing A] [Algebra ℂ A]

theorem zip_deep : ∀ (bl br cs : List (Circ A)), List.Forall₂ (fun x c => Gd c ∧ c.cdim = x.1.cdim ∧ deep c ≤ deep x.1 + deep x.2) (bl.zip br) cs →
    deepList cs ≤ deepList bl + deepList br
  | [], br, cs, h => by cases h; simp [deepList]
  | a :: bl, [], cs, h => by cases h; simp [deepList]
  | a :: bl, b :: br, cs, h => by
    cases h with
    | cons h1 h2 =>
      have := zip_deep bl br _ h2
      have := h1.2.2
      simp only [deepList] at *
      omega

/-- the rule for circuits with a common block structure -/
theorem tensor_conv {n d : ℕ} (hS : ∀ m d', m < n → SC A m d') (hC : CC A n d) {x y : Circ A} (hx : Gd x) (hy : Gd y) (dx : x.cdim = n) (dy : y.cdim = n)
    (hd : deep x + deep y ≤ d) : ∃ o, Cv (fun f => tensorDecompose (opsAt true f) x y) o ∧
      ∀ r, o = some r → (∀ q, y ≠ .perm q) ∧ Gd r ∧ r.cdim = n ∧ (deep r < deep x + deep y ∨ (deep r ≤ deep x + deep y ∧ Simple r)) := by
  by_cases hp : ∃ q, y = .perm q
  · obtain ⟨q, rfl⟩ := hp
    exact ⟨none, .const rfl, fun r hr => nomatch hr⟩
  push Not at hp
  have heq : ∀ R : Ops A, tensorDecompose R x y = (do
      let l ← blockStructure x
      let r ← blockStructure y
      let st ← commonStructure (l.length + r.length + 1) l r
      if st.length > 1 then do
        let bl ← getBlocks R x st
        let br ← getBlocks R y st
        let cs ← (bl.zip br).mapM (fun (a, b) => R.series [a, b])
        let c ← R.concat cs
        .ok (some c)
      else .ok none) := fun R => by
    cases y with
    | perm q => exact absurd rfl (hp q)
    | _ => rfl
  obtain ⟨lx, x1, x2, x3, x4, x5⟩ := blocks_gd hx
  obtain ⟨ly, y1, y2, y3, y4, y5⟩ := blocks_gd hy
  obtain ⟨st, es, c1, c2⟩ := commonStructure_ok _ _ _ (Nat.lt_succ_self _) x2 y2 (by rw [x3, y3, dx, dy])
  by_cases hl : st.length > 1
  · obtain ⟨bl, e1, d1, g1, p1⟩ := x5 st c1 hl
    obtain ⟨br, e2, d2, g2, p2⟩ := y5 st c2 hl
    have hsum : st.sum = n := by rw [coarse_sum c1, x3, dx]
    have hpos : ∀ x ∈ st, 0 < x := fun x hx => by
      rw [← d1] at hx
      obtain ⟨c, hc, rfl⟩ := List.mem_map.mp hx
      exact (g1 c hc).pos
    have hlen : bl.length = br.length := by
      have := congrArg List.length (d1.trans d2.symm)
      simpa using this
    obtain ⟨cs, e3, q⟩ := Cv.mapM (F := fun f (x : Circ A × Circ A) => (opsAt true f).series [x.1, x.2])
      (Q := fun x c => Gd c ∧ c.cdim = x.1.cdim ∧ deep c ≤ deep x.1 + deep x.2) (bl.zip br) (by
        intro x hx
        have h1 := List.of_mem_zip hx
        have hx1 := g1 x.1 h1.1
        have hx2 := g2 x.2 h1.2
        have hc : x.1.cdim = x.2.cdim := by
          obtain ⟨i, hi⟩ := List.mem_iff_getElem?.mp hx
          rw [List.getElem?_zip_eq_some] at hi
          have e := congrArg (fun l : List ℕ => l[i]?) (d1.trans d2.symm)
          simp only [List.getElem?_map, hi.1, hi.2, Option.map_some, Option.some.injEq] at e
          exact e
        have hm : x.1.cdim < n := lt_of_mem_sum hsum hpos hl (by rw [← d1]; exact List.mem_map_of_mem h1.1)
        obtain ⟨c, s1, s2, s3, s4, -⟩ := hS _ _ hm [x.1, x.2] (by simp) (by
          intro c hc'
          simp only [List.mem_cons, List.not_mem_nil, or_false] at hc'
          rcases hc' with rfl | rfl
          · exact ⟨hx1, rfl⟩
          · exact ⟨hx2, hc.symm⟩) le_rfl
        refine ⟨c, s1, s2, s3, ?_⟩
        simpa [deepList] using s4)
    have hcs : ∀ c ∈ cs, Gd c := fun c hc => by
      obtain ⟨i, hi⟩ := List.mem_iff_getElem?.mp hc
      have hlen := q.length_eq
      have : i < (bl.zip br).length := by
        rw [hlen]
        exact (List.getElem?_eq_some_iff.mp hi).1
      obtain ⟨d, hd, hr⟩ := getElem?_forall₂ q (List.getElem?_eq_getElem this)
      rw [hi] at hd
      cases hd
      exact hr.1
    have hcd : cs.map Circ.cdim = st := by
      rw [← d1]
      have : ∀ (l : List (Circ A × Circ A)) (cs : List (Circ A)), List.Forall₂ (fun x c => Gd c ∧ c.cdim = x.1.cdim ∧ deep c ≤ deep x.1 + deep x.2) l cs →
          cs.map Circ.cdim = (l.map Prod.fst).map Circ.cdim := by
        intro l cs h
        induction h with
        | nil => rfl
        | cons h _ ih => rw [List.map_cons, List.map_cons, List.map_cons, h.2.1, ih]
      rw [this _ _ q, List.map_fst_zip (by omega)]
    have hdeep := zip_deep bl br cs q
    have hcl : cs.length = st.length := by
      have := congrArg List.length hcd
      simpa using this
    obtain ⟨c, k1, k2, k3, k4, k5⟩ := hC cs (by rintro rfl; simp only [List.length_nil] at hcl; omega) hcs (by rw [sumCdim_eq, hcd, hsum]) (by omega)
    refine ⟨some c, ?_, fun r hr => ?_⟩
    · refine Cv.congr ?_ fun f => (heq _)
      rw [x1, y1]
      refine Cv.bind (v := lx) (Cv.const rfl) ?_
      refine Cv.bind (v := ly) (Cv.const rfl) ?_
      refine Cv.bind (Cv.const es) ?_
      refine Cv.congr ?_ fun f => if_pos hl
      refine Cv.bind e1 ?_
      refine Cv.bind e2 ?_
      refine Cv.bind e3 ?_
      refine Cv.bind k1 ?_
      exact Cv.const rfl
    · cases hr
      have := k5 (by omega)
      refine ⟨hp, k2, k3, ?_⟩
      rcases this with h | h
      · left; omega
      · exact .inr ⟨by omega, h⟩
  · refine ⟨none, ?_, fun r hr => nomatch hr⟩
    refine Cv.congr ?_ fun f => (heq _)
    rw [x1, y1]
    refine Cv.bind (v := lx) (Cv.const rfl) ?_
    refine Cv.bind (v := ly) (Cv.const rfl) ?_
    refine Cv.bind (Cv.const es) ?_
    refine Cv.congr ?_ fun f => if_neg hl
    exact Cv.const rfl

/-! ### permutations and identities -/

theorem mem2 {a b : Circ A} {P : Circ A → Prop} (ha : P a) (hb : P b) : ∀ c ∈ [a, b], P c := by
  intro c hc
  simp only [List.mem_cons, List.not_mem_nil, or_false] at hc
  rcases hc with rfl | rfl <;> assumption

/-- the series product of two permutations or identities is one -/
theorem zero_series {a b : Circ A} {n : ℕ} (ha : Zero a) (hb : Zero b) (da : a.cdim = n) (db : b.cdim = n) : ∃ c, Ser [a, b] c ∧ Zero c ∧ c.cdim = n := by
  obtain ⟨c, c1, c2, c3, c4, c5⟩ := series_two ha.gd ha.noSeries da hb db
  rcases c5 with c5 | ⟨q, -, h⟩
  · exact ⟨c, c1, zero_of_deep c2 (by rw [c4, ha.deep]) c5, c3⟩
  · exact absurd ha h

theorem zero_concat' {l : List (Circ A)} (hl : 2 ≤ l.length) (h : ∀ c ∈ l, Zero c) : ∃ c, Con l c ∧ Zero c ∧ c.cdim = sumCdim l := by
  obtain ⟨r, r1, r2, r3, r4, r5⟩ := concat_plain (by rintro rfl; simp at hl) (fun c hc => (h c hc).gd) (fun c hc => (h c hc).split)
  have hz : deepList l = 0 := by
    clear * - h
    induction l with
    | nil => rfl
    | cons c l ih => rw [deepList, ih fun d hd => h d (by simp [hd]), (h c (by simp)).deep]
  exact ⟨r, r1, zero_of_deep r2 (by omega) (r5 hl), r3⟩

theorem inv_reachable {p : List ℕ} (h : Reachable (.perm p)) : Reachable (.perm (inv p)) := by
  obtain ⟨h1, h2⟩ := reachable_perm.mp h
  refine reachable_perm.mpr ⟨inv_valid h1, fun e => h2 ?_⟩
  have h3 := inv_inv h1
  have h4 : inv (List.range p.length) = List.range p.length := by
    have h5 := comp_inv (valid_range p.length)
    have h6 := comp_range_left (inv_valid (valid_range p.length))
    simp only [inv_length, List.length_range] at h5 h6
    rw [← h6, h5]
  rw [inv_length] at e
  rw [e, h4] at h3
  exact h3.symm

theorem zero_inverse {c : Circ A} (h : Zero c) : ∃ d, Inv c d ∧ Zero d ∧ d.cdim = c.cdim := by
  obtain ⟨pc, h1, h2, rfl⟩ := h
  cases pc with
  | perm p =>
    refine ⟨.perm (inv p), Inv.mk ?_, zero_perm (inv_reachable h1), ?_⟩
    · refine Cv.const ?_
      show (invert p >>= _) = _
      rw [invert_ok (reachable_perm.mp h1).1]
      rfl
    · simp [ofPC, Circ.cdim]
  | cid n =>
    match n, h2 with
    | 1, _ => exact ⟨.id1, Inv.mk (Cv.const rfl), zero_cid (n := 1) (by omega), rfl⟩
    | n + 2, _ =>
      have hid : Inv (.id1 : Circ A) .id1 := Inv.mk (Cv.const rfl)
      obtain ⟨vs, v1, v2⟩ := Cv.mapM (F := fun f (c : Circ A) => (opsAt true f).inverse c) (Q := fun _ v => v = .id1) (List.replicate (n + 2) (.id1 : Circ A))
        (fun x hx => by rw [List.eq_of_mem_replicate hx]; exact ⟨_, hid, rfl⟩)
      have hv : vs = List.replicate (n + 2) .id1 := by
        rw [List.eq_replicate_iff]
        refine ⟨by rw [← v2.length_eq]; simp, fun b hb => ?_⟩
        obtain ⟨i, hi⟩ := List.mem_iff_getElem?.mp hb
        have : i < (List.replicate (n + 2) (.id1 : Circ A)).length := by
          rw [v2.length_eq]
          exact (List.getElem?_eq_some_iff.mp hi).1
        obtain ⟨d, hd, hr⟩ := getElem?_forall₂ v2 (List.getElem?_eq_getElem this)
        rw [hi] at hd
        cases hd
        exact hr
      obtain ⟨r, r1, r2, r3⟩ := zero_concat' (l := vs) (by rw [hv]; simp) (fun c hc => by
        rw [hv] at hc
        rw [List.eq_of_mem_replicate hc]
        exact zero_cid (n := 1) (by omega))
      refine ⟨r, Inv.mk ?_, r2, ?_⟩
      · show Cv (fun f => (List.replicate (n + 2) (.id1 : Circ A)).mapM (opsAt true f).inverse >>= fun fs => (opsAt true f).concat fs) r
        exact Cv.bind v1 r1
      · rw [r3, hv]
        rfl

/-! ### moving a permutation to the right -/

theorem sum_valid {q L : List ℕ} (h : Valid q) (hl : q.length = L.length) : (q.map fun k => L.getD k 0).sum = L.sum := by
  have h1 : (q.map fun k => L.getD k 0).Perm ((List.range L.length).map fun k => L.getD k 0) := by
    rw [← hl]
    exact List.Perm.map _ h
  rw [h1.sum_eq]
  congr 1
  apply List.ext_getElem (by simp)
  intro i a b
  simp [List.getD_eq_getElem?_getD, b]


/-- the rule that moves a permutation to the right -/
theorem factor_conv {n d : ℕ} (hS : ∀ m d', m < n → SC A m d') (hC : CC A n d) {p st : List ℕ} {y : Circ A} (hp : Reachable (.perm p)) (hpn : p.length = n)
    (hy : Gd y) (dy : y.cdim = n) (hd : deep y ≤ d) (hb : blockStructure y = .ok st) (hl : 1 < st.length) :
    ∃ res tr ca, Cv (fun f => factorizeForRhs (opsAt true f) p y) (res, tr, ca) ∧ Zero res ∧ res.cdim = n ∧ Gd tr ∧ tr.cdim = n ∧
      (deep tr < deep y ∨ (deep tr ≤ deep y ∧ Simple tr)) ∧ Zero ca ∧ ca.cdim = n ∧ ∀ t, res = .perm t → t ≠ p → rank n t < rank n p := by
  obtain ⟨hv, hne⟩ := reachable_perm.mp hp
  obtain ⟨st', y1, y2, y3, y4, y5⟩ := blocks_gd hy
  rw [hb] at y1
  injection y1 with y1
  subst y1
  have hsum : st.sum = p.length := by rw [y3, dy, hpn]
  obtain ⟨bs, b1, b2, b3, b4⟩ := y5 st (coarse_refl st) hl
  have hbl : (bpV p st).length = st.length := by simp
  have hbv := bpV_valid p st
  have hF := fbp_valid hbv hbl
  have hFl := fbp_length hbv hbl
  have hwv := withinsV_valid p st 0
  have hwl := withinsV_map_length p st 0
  have hW := fromBlocks_valid hwv
  have hWl : (fromBlocks (withinsV p 0 st)).length = st.sum := by rw [fromBlocks_length, hwl]
  -- the permutation within blocks
  have hws : ∀ w ∈ withinsV p 0 st, Valid w ∧ w ≠ [] := fun w hw => by
    refine ⟨hwv w hw, ?_⟩
    have h1 : w.length ∈ st := by rw [← hwl]; exact List.mem_map_of_mem hw
    have := y2 _ h1
    rintro rfl
    simp at this
  obtain ⟨ws, w1, w2, w3⟩ := createPerms_ok (A := A) _ hws
  rw [hwl] at w2
  have hwlen : ws.length = st.length := by
    have := congrArg List.length w2
    simpa using this
  obtain ⟨wc, c1, c2, c3⟩ := zero_concat' (l := ws) (by omega) w3
  rw [sumCdim_eq, w2, hsum, hpn] at c3
  obtain ⟨wi, i1, i2, i3⟩ := zero_inverse c2
  rw [c3] at i3
  -- the permutation of blocks
  have hcr := create_ok hF
  obtain ⟨nr, hnr⟩ : ∃ nr, create (fbp (bpV p st) st) = .ok nr := ⟨_, hcr⟩
  have tup := create_tuple hnr
  have hnd : nr.cdim = n := by rw [tup.2.2, hFl, hsum, hpn]
  have hnpos : 0 < n := by rw [← dy]; exact hy.pos
  have zn : Zero (ofPC nr : Circ A) := ⟨nr, ⟨_, hnr⟩, by omega, rfl⟩
  have cn : (ofPC nr : Circ A).cdim = n := by rw [ofPC_cdim, hnd]
  obtain ⟨ni, n1, n2, n3⟩ := zero_inverse zn
  rw [cn] at n3
  obtain ⟨x, x1, x2, x3⟩ := zero_series (zero_perm (A := A) hp) i2 (n := n) hpn i3
  obtain ⟨res, r1, r2, r3⟩ := zero_series x2 n2 x3 n3
  -- the blocks
  have hlb : bs.length = st.length := by
    have := congrArg List.length b2
    simpa using this
  obtain ⟨sm, s1, s2⟩ := Cv.mapM (F := fun f k => (getItem ws k >>= fun w => getItem bs k >>= fun b => (opsAt true f).series [w, b] : Res (Circ A)))
    (Q := fun k v => Gd v ∧ v.cdim = st.getD k 0 ∧ deep v ≤ (bs.map deep).getD k 0) (inv (bpV p st)) (by
      intro k hk
      have hk' : k < st.length := by
        have := ((inv_valid hbv).mem_iff k).mp hk
        simpa using this
      have e1 : ws[k]? = some (ws[k]'(by omega)) := List.getElem?_eq_getElem _
      have e2 : bs[k]? = some (bs[k]'(by omega)) := List.getElem?_eq_getElem _
      have d1 : (ws[k]'(by omega)).cdim = st[k] := by simp only [← w2, List.getElem_map]
      have d2 : (bs[k]'(by omega)).cdim = st[k] := by simp only [← b2, List.getElem_map]
      have hm : st[k] < n := by
        rw [← hpn]
        exact lt_of_mem_sum hsum y2 hl (List.getElem_mem _)
      have zw := w3 (ws[k]'(by omega)) (List.getElem_mem _)
      obtain ⟨v, v1, v2, v3, v4, -⟩ := hS _ _ hm [ws[k]'(by omega), bs[k]'(by omega)] (by simp) (mem2 ⟨zw.gd, d1⟩ ⟨b3 _ (List.getElem_mem _), d2⟩) le_rfl
      refine ⟨v, ?_, v2, by rw [v3, getD_eq hk'], ?_⟩
      · refine Cv.bind (Cv.const (getItem_eq_ok_iff.mpr e1)) ?_
        refine Cv.bind (Cv.const (getItem_eq_ok_iff.mpr e2)) ?_
        exact v1
      · simp only [deepList, zw.deep] at v4
        rw [getD_eq (by simpa using by omega)]
        simp only [List.getElem_map]
        omega)
  have smg : ∀ v ∈ sm, Gd v := fun c hc => by
    obtain ⟨i, hi⟩ := List.mem_iff_getElem?.mp hc
    have hlen := s2.length_eq
    have : i < (inv (bpV p st)).length := by
      rw [hlen]
      exact (List.getElem?_eq_some_iff.mp hi).1
    obtain ⟨d, hd, hr⟩ := getElem?_forall₂ s2 (List.getElem?_eq_getElem this)
    rw [hi] at hd
    cases hd
    exact hr.1
  have sums : ∀ (l : List ℕ) (sm : List (Circ A)), List.Forall₂ (fun k v => Gd v ∧ v.cdim = st.getD k 0 ∧ deep v ≤ (bs.map deep).getD k 0) l sm →
      sumCdim sm = (l.map fun k => st.getD k 0).sum ∧ deepList sm ≤ (l.map fun k => (bs.map deep).getD k 0).sum := by
    intro l sm h
    induction h with
    | nil => simp [sumCdim, deepList]
    | cons h _ ih =>
      simp only [sumCdim, deepList, List.map_cons, List.sum_cons]
      exact ⟨by rw [h.2.1, ih.1], by have := h.2.2; omega⟩
  obtain ⟨q1, q2⟩ := sums _ _ s2
  rw [sum_valid (inv_valid hbv) (by simp), hsum, hpn] at q1
  rw [sum_valid (inv_valid hbv) (by simp [hlb]), ← deepList_eq] at q2
  have hsl : sm.length = st.length := by rw [← s2.length_eq]; simp
  obtain ⟨tr, t1, t2, t3, t4, t5⟩ := hC sm (by rintro rfl; simp only [List.length_nil] at hsl; omega) smg q1 (by omega)
  refine ⟨res, tr, ofPC nr, ?_, r2, r3, t2, t3, ?_, zn, cn, ?_⟩
  · unfold factorizeForRhs
    refine Cv.bind (Cv.const hb) ?_
    refine Cv.bind (Cv.const (blockPermAndWithin_ok y2 hsum y4)) ?_
    refine Cv.bind (Cv.const (fullBlockPerm_ok hbv hbl)) ?_
    refine Cv.congr ?_ fun f => if_neg (by
      rw [not_not, sorted_eq_range_iff, ← hsum, ← hFl]
      exact hF)
    refine Cv.bind (Cv.const hnr) ?_
    refine Cv.bind (Cv.const w1) ?_
    refine Cv.bind c1 ?_
    refine Cv.bind b1 ?_
    refine Cv.bind (Cv.const (invert_ok hbv)) ?_
    refine Cv.bind s1 ?_
    refine Cv.bind t1 ?_
    refine Cv.bind i1 ?_
    refine Cv.bind x1 ?_
    refine Cv.bind n1 ?_
    refine Cv.bind r1 ?_
    exact Cv.const rfl
  · have := t5 (by omega)
    rcases this with h | h
    · left; omega
    · exact .inr ⟨by omega, h⟩
  · intro t ht htp
    subst ht
    have htr : Reachable (.perm t) := by
      have := r2.gd
      cases this with
      | perm _ h => exact h
    have htv := (reachable_perm.mp htr).1
    have htl : t.length = p.length := by rw [hpn]; exact r3
    subst hpn
    refine factor_rank hv y2 hsum htv htl ?_ htp
    -- values
    let M := permAlg A
    have snd : ∀ f, Sound M (opsAt true f) := fun f => CircAlg.opsAt_sound permAlg_strict f
    have vF : M.V (ofPC nr : Circ A) (M.perm (fbp (bpV p st) st)) := by
      have := V_ofPC (A := A) (M := M) (c := nr) ⟨_, hnr⟩
      rwa [tup.2.1] at this
    obtain ⟨k1, k2⟩ := createPerms_forall (M := M) w1
    have vW : M.V wc (M.perm (fromBlocks (withinsV p 0 st))) := by
      obtain ⟨f, hf⟩ := c1
      rw [perm_fromBlocks k1]
      exact (snd f).concat ⟨_, k2, rfl⟩ (hf f le_rfl)
    have dF : M.dim (M.perm (fbp (bpV p st) st)) = p.length := by rw [M.dim_perm, hFl, hsum]
    have dW : M.dim (M.perm (fromBlocks (withinsV p 0 st))) = p.length := by rw [M.dim_perm, hWl, hsum]
    have dp : M.dim (M.perm p) = p.length := M.dim_perm p
    obtain ⟨fvWi, hvWi⟩ := i1
    have vWi := (snd fvWi).inverse vW (by rw [dW]; exact hnpos) (hvWi fvWi le_rfl)
    obtain ⟨fvFi, hvFi⟩ := n1
    have vFi := (snd fvFi).inverse vF (by rw [dF]; exact hnpos) (hvFi fvFi le_rfl)
    obtain ⟨fvx, hvx⟩ := x1
    have vx := (snd fvx).series2 (V_perm.mpr ⟨hp, rfl⟩) vWi (by rw [M.dim_inv, dW, dp]) (hvx fvx le_rfl)
    obtain ⟨fvr, hvr⟩ := r1
    have vr := (snd fvr).series2 vx vFi (by rw [M.dim_inv, M.dim_series, dF, dp]) (hvr fvr le_rfl)
    have e := V_unique (V_perm.mpr ⟨htr, rfl⟩) vr
    apply permAlg_inj (A := A) _ hv
    · rw [M.perm_comp _ _ htv (comp_valid (by omega) hF hW) (by rw [comp_length]; omega), M.perm_comp _ _ hF hW (by omega)]
      rw [show M.perm t = _ from e]
      have mono : ∀ a w f : M.Mn p.length, a * invn w * invn f * (f * w) = a := by
        intro a w f
        have hf : invn f * f = 1 := Subtype.ext (by rw [M.mul_val]; change M.series (M.inv f.1) f.1 = _; rw [M.inv_series, f.2]; rfl)
        have hw : invn w * w = 1 := Subtype.ext (by rw [M.mul_val]; change M.series (M.inv w.1) w.1 = _; rw [M.inv_series, w.2]; rfl)
        calc a * invn w * invn f * (f * w) = a * invn w * ((invn f * f) * w) := by simp only [mul_assoc]
          _ = a * (invn w * w) := by rw [hf, one_mul]; simp only [mul_assoc]
          _ = a := by rw [hw, mul_one]
      exact congrArg Subtype.val (mono ⟨M.perm p, dp⟩ ⟨_, dW⟩ ⟨_, dF⟩)
    · exact comp_valid (by rw [comp_length]; omega) htv (comp_valid (by omega) hF hW)

end QNET.Circuit
