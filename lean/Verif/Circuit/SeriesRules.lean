import Verif.Circuit.Blocks

/-! # Soundness of the rules for series products and concatenations -/

namespace QNET.Circuit

open QNET.Perm QNET.CPerm

variable {A : Type} [Ring A] [StarRing A] [Algebra ℂ A]

namespace CircAlg

variable {M : CircAlg A}

theorem commonLoop_spec : ∀ (f lsum rsum : ℕ) (l r : List ℕ) {s : ℕ} {l' r' : List ℕ},
    commonLoop f lsum rsum l r = .ok (s, l', r') → s + l'.sum = lsum + l.sum := by
  intro f
  induction f with
  | zero => intro lsum rsum l r s l' r' h; simp [commonLoop] at h
  | succ f ih =>
    intro lsum rsum l r s l' r' h
    unfold commonLoop at h
    split at h
    · cases l with
      | nil => cases h
      | cons a l =>
        have := ih _ _ _ _ h
        rw [this, List.sum_cons]; omega
    · split at h
      · cases r with
        | nil => cases h
        | cons b r => exact ih _ _ _ _ h
      · injection h with h; cases h; rfl

theorem commonStructure_sum : ∀ (f : ℕ) (l r : List ℕ) {st : List ℕ}, commonStructure f l r = .ok st → st.sum = l.sum := by
  intro f
  induction f with
  | zero => intro l r st h; simp [commonStructure] at h
  | succ f ih =>
    intro l r st h
    unfold commonStructure at h
    split at h
    · cases h
    · split at h
      · rename_i he
        injection h with h; subst h; rw [he.1]
      · rw [bind_ok] at h
        obtain ⟨⟨s, l', r'⟩, h1, h2⟩ := h
        rw [bind_ok] at h2
        obtain ⟨rest, h2, h3⟩ := h2
        injection h3 with h3; subst h3
        have e1 := commonLoop_spec _ _ _ _ _ h1
        have e2 := ih _ _ h2
        rw [List.sum_cons, e2, e1]
        cases l <;> simp

theorem series_prod : ∀ (ts us : List M.Mc), ts.map M.dim = us.map M.dim →
    M.series (ts.prod : M.Mc) (us.prod : M.Mc) = ((List.zipWith M.series ts us : List M.Mc).prod : M.Mc)
  | [], [], _ => by
    have := M.one_series (M.one 0)
    rw [M.dim_one] at this
    exact this
  | [], u :: us, h => by simp at h
  | t :: ts, [], h => by simp at h
  | t :: ts, u :: us, h => by
    simp only [List.map_cons, List.cons.injEq] at h
    rw [List.prod_cons, List.prod_cons, List.zipWith_cons_cons, List.prod_cons, mc_mul, mc_mul,
      M.interchange _ _ _ _ h.1 (by rw [prod_dim, prod_dim, h.2]), series_prod ts us h.2]
    rfl

theorem zip_series {R : Ops A} (hs : Sound M R) : ∀ {bl br cs : List (Circ A)} {ts us : List M.Mc}, List.Forall₂ M.V bl ts →
    List.Forall₂ M.V br us → ts.map M.dim = us.map M.dim → (bl.zip br).mapM (fun (a, b) => R.series [a, b]) = .ok cs →
    List.Forall₂ M.V cs (List.zipWith M.series ts us) := by
  intro bl br cs ts us h1 h2 hd h
  replace h := mapM_ok h
  induction h1 generalizing br us cs with
  | nil => simp only [List.zip_nil_left] at h; cases h; simp
  | cons h3 _ ih =>
    cases h2 with
    | nil => simp at hd
    | cons h4 h5 =>
      simp only [List.map_cons, List.cons.injEq] at hd
      rw [List.zip_cons_cons] at h
      cases h with
      | cons h6 h7 =>
        rw [List.zipWith_cons_cons]
        exact .cons (hs.series2 h3 h4 hd.1 h6) (ih h5 hd.2 h7)

theorem tensorDecompose_sound {R : Ops A} (hs : Sound M R) {a b r : Circ A} {s t : M.T} (ha : M.V a s) (hb : M.V b t)
    (hd : M.dim s = M.dim t) (h : tensorDecompose R a b = .ok (some r)) : M.V r (M.series s t) := by
  unfold tensorDecompose at h
  split at h
  · cases h
  · rw [bind_ok] at h
    obtain ⟨l, h1, h⟩ := h
    rw [bind_ok] at h
    obtain ⟨rr, h2, h⟩ := h
    rw [bind_ok] at h
    obtain ⟨st, h3, h⟩ := h
    split at h
    · rw [bind_ok] at h
      obtain ⟨bl, h4, h⟩ := h
      rw [bind_ok] at h
      obtain ⟨br, h5, h⟩ := h
      rw [bind_ok] at h
      obtain ⟨cs, h6, h⟩ := h
      rw [bind_ok] at h
      obtain ⟨c, h7, h⟩ := h
      injection h with h; injection h with h; subst h
      have e := commonStructure_sum _ _ _ h3
      rw [blockStructure_sum a h1, V.cdim ha] at e
      obtain ⟨ts, i1, i2, i3⟩ := getBlocks_sound hs ha e h4
      obtain ⟨us, j1, j2, j3⟩ := getBlocks_sound hs hb (by rw [e, hd]) h5
      have hdd : ts.map M.dim = us.map M.dim := by rw [i2, j2]
      have k := zip_series hs i1 j1 hdd h6
      rw [i3, j3, series_prod ts us hdd]
      exact hs.concat ⟨_, k, rfl⟩ h7
    · cases h

theorem getElem?_forall₂ {α β : Type} {R : α → β → Prop} {l : List α} {l' : List β} (h : List.Forall₂ R l l') {k : ℕ} {x : α}
    (hx : l[k]? = some x) : ∃ y, l'[k]? = some y ∧ R x y := by
  induction h generalizing k with
  | nil => simp at hx
  | cons h1 _ ih =>
    cases k with
    | zero => simp only [List.getElem?_cons_zero] at hx ⊢; injection hx with hx; subst hx; exact ⟨_, rfl, h1⟩
    | succ k => simp only [List.getElem?_cons_succ] at hx ⊢; exact ih hx

/-- C12 in the abstract algebra: `new_lhs ≪ permuted_rhs ≪ new_rhs = self ≪ rhs` -/
theorem factorizeForRhs_sound {R : Ops A} (hs : Sound M R) {p : List ℕ} {rhs a b c : Circ A} {X : M.T} (hp : Reachable (.perm p))
    (hv : M.V rhs X) (hd : M.dim X = p.length) (h : factorizeForRhs R p rhs = .ok (a, b, c)) :
    ∃ s t u : M.T, M.V a s ∧ M.V b t ∧ M.V c u ∧ M.dim s = p.length ∧ M.dim t = p.length ∧ M.dim u = p.length ∧
      M.series s (M.series t u) = M.series (M.perm p) X := by
  have hp2 := perm_length_pos hp
  have hval : Valid p := hp.valid
  unfold factorizeForRhs at h
  rw [bind_ok] at h
  obtain ⟨st, h1, h⟩ := h
  have hsum : st.sum = p.length := by rw [blockStructure_sum rhs h1, V.cdim hv, hd]
  have hpos := blockStructure_pos rhs h1 hv (by omega)
  have hne : st ≠ [] := by rintro rfl; simp at hsum; omega
  obtain ⟨bp, ws, e1, e2, e3, e4, e5, -, -⟩ := C07_within_blocks ((valid_iff p).mp hval) hpos hsum hne
  have e2 := (valid_iff bp).mpr e2
  rw [bind_ok] at h
  obtain ⟨⟨bp', ws'⟩, h2, h⟩ := h
  rw [e1] at h2; injection h2 with h2; cases h2
  simp only at h
  rw [bind_ok] at h
  obtain ⟨f, h3, h⟩ := h
  rw [fullBlockPerm_ok e2 e3] at h3; injection h3 with h3; subst h3
  split at h
  · cases h
  rw [bind_ok] at h
  obtain ⟨newRhs, h4, h⟩ := h
  rw [bind_ok] at h
  obtain ⟨within, h5, h⟩ := h
  rw [bind_ok] at h
  obtain ⟨wc, h6, h⟩ := h
  rw [bind_ok] at h
  obtain ⟨blocks, h7, h⟩ := h
  rw [bind_ok] at h
  obtain ⟨bpInv, h8, h⟩ := h
  rw [invert_ok e2] at h8; injection h8 with h8; subst h8
  rw [bind_ok] at h
  obtain ⟨summands, h9, h⟩ := h
  rw [bind_ok] at h
  obtain ⟨permuted, h10, h⟩ := h
  rw [bind_ok] at h
  obtain ⟨wInv, h11, h⟩ := h
  rw [bind_ok] at h
  obtain ⟨x, h12, h⟩ := h
  rw [bind_ok] at h
  obtain ⟨rInv, h13, h⟩ := h
  rw [bind_ok] at h
  obtain ⟨newLhs, h14, h⟩ := h
  injection h with h; cases h
  -- values
  have hflen : (fbp bp st).length = p.length := by rw [fbp_length e2 e3, hsum]
  have hfval : Valid (fbp bp st) := fbp_valid e2 e3
  have hF : M.V (ofPC newRhs : Circ A) (M.perm (fbp bp st)) := by
    have := V_ofPC (A := A) (M := M) (c := newRhs) ⟨_, h4⟩
    rwa [(create_tuple h4).2.1] at this
  obtain ⟨k1, k2⟩ := createPerms_forall (M := M) h5
  have hW : M.V wc (M.perm (fromBlocks ws)) := by
    rw [perm_fromBlocks k1]; exact hs.concat ⟨_, k2, rfl⟩ h6
  have hWlen : (fromBlocks ws).length = p.length := by rw [fromBlocks_length, e4, hsum]
  have hWval : Valid (fromBlocks ws) := fromBlocks_valid k1
  obtain ⟨xs, k3, k4, k5⟩ := getBlocks_sound hs hv (by rw [hsum, hd]) h7
  have hwd : (ws.map M.perm : List M.Mc).map M.dim = xs.map M.dim := by
    rw [k4, ← e4, List.map_map]; apply List.map_congr_left; intro w _; exact M.dim_perm w
  set ts : List M.Mc := List.zipWith M.series (ws.map M.perm) xs with hts
  have htsd : ts.map M.dim = st := by
    rw [← k4, hts]
    clear * - hwd
    generalize ws.map M.perm = us at hwd
    induction us generalizing xs with
    | nil => cases xs with
      | nil => rfl
      | cons => simp at hwd
    | cons u us ih => cases xs with
      | nil => simp at hwd
      | cons x xs =>
        simp only [List.map_cons, List.cons.injEq] at hwd
        simp only [List.zipWith_cons_cons, List.map_cons, ih _ hwd.2, M.dim_series, hwd.1]
  have hts_prod : M.series (M.perm (fromBlocks ws)) X = (ts.prod : M.Mc) := by
    rw [perm_fromBlocks k1, k5, series_prod _ _ hwd]
  have hsm : List.Forall₂ M.V summands ((Perm.inv bp).map (fun k => ts.getD k (M.one 0))) := by
    have := mapM_ok h9
    rw [List.forall₂_map_right_iff]
    refine List.forall₂_iff_get.mpr ⟨this.length_eq.symm, ?_⟩
    intro i hi hi'
    have hk := (List.forall₂_iff_get.mp this).2 i hi' hi
    simp only [List.get_eq_getElem] at hk ⊢
    rw [bind_ok] at hk
    obtain ⟨w, l1, hk⟩ := hk
    rw [bind_ok] at hk
    obtain ⟨b, l2, hk⟩ := hk
    rw [getItem_eq_ok_iff] at l1 l2
    obtain ⟨w', m1, m2⟩ := getElem?_forall₂ k2 l1
    obtain ⟨b', m3, m4⟩ := getElem?_forall₂ k3 l2
    have hdim : M.dim w' = M.dim b' := by
      have := congrArg (fun l => l[(Perm.inv bp)[i]]?) hwd
      simp only [List.getElem?_map] at this
      rw [List.getElem?_map] at m1
      rw [m1, m3] at this
      simpa using this
    have hz : ts[(Perm.inv bp)[i]]? = some (M.series w' b') := by
      rw [hts, List.getElem?_zipWith, m1, m3]
    rw [List.getD_eq_getElem?_getD, hz]
    exact hs.series2 m2 m4 hdim hk
  have hP : M.V b ((((Perm.inv bp).map (fun k => ts.getD k (M.one 0)) : List M.Mc)).prod : M.Mc) :=
    hs.concat ⟨_, hsm, rfl⟩ h10
  have hbl : bp.length = ts.length := by
    have := congrArg List.length htsd
    rw [List.length_map] at this; omega
  have key := M.block_perm bp ts e2 hbl
  rw [htsd, foldr_concat_prod, foldr_concat_prod, ← hts_prod] at key
  set P : M.T := (((Perm.inv bp).map (fun k => ts.getD k (M.one 0)) : List M.Mc)).prod with hPdef
  set F := M.perm (fbp bp st) with hFdef
  set W := M.perm (fromBlocks ws) with hWdef
  have dF : M.dim F = p.length := by rw [hFdef, M.dim_perm, hflen]
  have dW : M.dim W = p.length := by rw [hWdef, M.dim_perm, hWlen]
  have dP : M.dim P = p.length := by
    have := congrArg M.dim key
    rw [M.dim_series, M.dim_series] at this
    rw [← this, dF]
  have dp : M.dim (M.perm p) = p.length := M.dim_perm p
  have hWi := hs.inverse hW (by omega) h11
  have hx := hs.series2 (V_perm.mpr ⟨hp, rfl⟩) hWi (by rw [M.dim_inv]; omega) h12
  have hFi := hs.inverse hF (by omega) h13
  have hN := hs.series2 hx hFi (by rw [M.dim_series, M.dim_inv]; omega) h14
  refine ⟨_, _, _, hN, hP, hF, by rw [M.dim_series, M.dim_series, dp], dP, dF, ?_⟩
  rw [← key]
  -- work in the monoid of circuits with `p.length` channels
  have mono : ∀ a w f x : M.Mn p.length, a * invn w * invn f * (f * (w * x)) = a * x := by
    intro a w f x
    have hf : invn f * f = 1 := Subtype.ext (by rw [M.mul_val]; change M.series (M.inv f.1) f.1 = _; rw [M.inv_series, f.2]; rfl)
    have hw : invn w * w = 1 := Subtype.ext (by rw [M.mul_val]; change M.series (M.inv w.1) w.1 = _; rw [M.inv_series, w.2]; rfl)
    calc a * invn w * invn f * (f * (w * x)) = a * invn w * ((invn f * f) * (w * x)) := by simp only [mul_assoc]
      _ = a * ((invn w * w) * x) := by rw [hf, one_mul]; simp only [mul_assoc]
      _ = a * x := by rw [hw, one_mul]
  have := congrArg Subtype.val (mono ⟨M.perm p, dp⟩ ⟨W, dW⟩ ⟨F, dF⟩ ⟨X, hd⟩)
  exact this

theorem factorPermutation_sound {R : Ops A} (hs : Sound M R) {p : List ℕ} {rhs r : Circ A} {X : M.T} (hp : Reachable (.perm p))
    (hv : M.V rhs X) (hd : M.dim X = p.length) (h : factorPermutation R p rhs = .ok (some r)) :
    M.V r (M.series (M.perm p) X) := by
  unfold factorPermutation at h
  rw [bind_ok] at h
  obtain ⟨st, h1, h⟩ := h
  split at h
  · rename_i hc
    injection h with h; injection h with h; subst h
    rw [isCid_val hc hv, hd, ← M.dim_perm p, M.series_one]
    exact V_perm.mpr ⟨hp, rfl⟩
  · split at h
    · rw [bind_ok] at h
      obtain ⟨⟨a, b, c⟩, h2, h⟩ := h
      simp only at h
      split at h
      · cases h
      · rw [bind_ok] at h
        obtain ⟨d, h3, h⟩ := h
        injection h with h; injection h with h; subst h
        obtain ⟨s, t, u, v1, v2, v3, d1, d2, d3, e⟩ := factorizeForRhs_sound hs hp hv hd h2
        rw [← e]
        exact hs.series3 v1 v2 v3 (by omega) (by omega) h3
    · cases h

theorem seriesInverseRules_sound {a b r : Circ A} {s t : M.T} (ha : M.V a s) (hb : M.V b t)
    (h : seriesInverseRules a b = some r) : M.V r (M.series s t) := by
  have left : ∀ y, a = .inv y → beq y b = true → r = cid y.cdim → M.V r (M.series s t) := by
    intro y e hb' hr
    subst e
    obtain ⟨x, n, rfl, hn, rfl⟩ := V_inv.mp ha
    have := sym_beq hb'
    subst this
    obtain ⟨-, rfl⟩ := V_sym.mp hb
    rw [M.inv_series, M.dim_sym, hr]
    exact V_cid n
  cases b with
  | inv x =>
    simp only [seriesInverseRules] at h
    split at h
    · rename_i hbeq
      injection h with h; subst h
      obtain ⟨y, n, rfl, hn, rfl⟩ := V_inv.mp hb
      have := beq_sym hbeq
      subst this
      obtain ⟨-, rfl⟩ := V_sym.mp ha
      rw [M.series_inv, M.dim_sym]
      exact V_cid n
    · split at h
      · split at h
        · injection h with h
          exact left _ rfl (by assumption) h.symm
        · cases h
      · cases h
  | _ =>
    simp only [seriesInverseRules] at h
    split at h
    · split at h
      · injection h with h
        exact left _ rfl (by assumption) h.symm
      · cases h
    · cases h

/-- the binary rules of `SeriesProduct` are sound -/
theorem seriesRule_sound {R : Ops A} (hs : Sound M R) {a b r : Circ A} {s t : M.T} (ha : M.V a s) (hb : M.V b t)
    (hd : M.dim s = M.dim t) (h : seriesRule R a b = .ok (some r)) : M.V r (M.series s t) := by
  unfold seriesRule at h
  rw [bind_ok] at h
  obtain ⟨first, h1, h⟩ := h
  cases first with
  | some c =>
    simp only at h
    injection h with h; injection h with h; subst h
    split at h1
    · rename_i p q
      rw [bind_ok] at h1
      obtain ⟨c, h1, h2⟩ := h1
      injection h2 with h2; injection h2 with h2; subst h2
      obtain ⟨hp, rfl⟩ := V_perm.mp ha
      obtain ⟨hq, rfl⟩ := V_perm.mp hb
      rw [M.dim_perm, M.dim_perm] at hd
      obtain ⟨c', e, rc, tc⟩ := swp_ok (show Valid p from hp.valid) (show Valid q from hq.valid) hd
      rw [h1] at e; injection e with e; subst e
      have := V_ofPC (A := A) (M := M) rc
      rw [tc] at this
      rw [← M.perm_comp p q hp.valid hq.valid hd]; exact this
    · rename_i x y
      split at h1
      · cases h1
      · rename_i hn
        rw [not_not] at hn
        injection h1 with h1; injection h1 with h1; subst h1
        exact M.leaf_series x y s t ha hb hn
    · cases h1
  | none =>
    simp only at h
    rw [bind_ok] at h
    obtain ⟨second, h2, h⟩ := h
    cases second with
    | some c =>
      simp only at h
      injection h with h; injection h with h; subst h
      exact tensorDecompose_sound hs ha hb hd h2
    | none =>
      simp only at h
      rw [bind_ok] at h
      obtain ⟨fourth, h3, h⟩ := h
      cases fourth with
      | some c =>
        simp only at h
        injection h with h; injection h with h; subst h
        split at h3
        · rename_i p
          obtain ⟨hp, rfl⟩ := V_perm.mp ha
          rw [M.dim_perm] at hd
          exact factorPermutation_sound hs hp hb hd.symm h3
        · cases h3
      | none =>
        simp only at h
        injection h with h
        exact seriesInverseRules_sound ha hb h

theorem splitPerm_val {a : Circ A} {l : List (Circ A)} {p : List ℕ} {s : M.T} (hv : M.V a s) (h : splitPerm a = some (l, p)) :
    ∃ (x : M.Mn (M.dim s)), l ≠ [] ∧ Engine.Prod (M.Vn (M.dim s)) l x ∧ Reachable (.perm p) ∧ p.length = M.dim s ∧
      s = M.series x.1 (M.perm p) := by
  unfold splitPerm at h
  split at h
  · rename_i ops
    split at h
    · rename_i q hq
      split at h
      · cases h
      · rename_i hne
        injection h with h; cases h
        obtain ⟨h1, h2, h3⟩ := V_series.mp hv
        have hsplit : ops = ops.dropLast ++ [.perm p] := by
          rw [List.getLast?_eq_some_getLast h1] at hq
          injection hq with hq
          rw [← hq]; exact (List.dropLast_append_getLast h1).symm
        rw [hsplit] at h3
        obtain ⟨x, y, k1, k2, k3⟩ := Engine.prod_append_iff.mp h3
        rw [Engine.prod_single_iff] at k2
        obtain ⟨k4, k5⟩ := V_perm.mp (show M.V (.perm p) y.1 from k2)
        refine ⟨x, hne, k1, k4, ?_, ?_⟩
        · rw [← M.dim_perm, ← k5, y.2]
        · have := congrArg Subtype.val k3
          rw [← k5]; exact this
    · cases h
  · cases h

/-- the binary rules of `Concatenation` are sound -/
theorem concatRule_sound {R : Ops A} (hs : Sound M R) {a b r : Circ A} {s t : M.T} (ha : M.V a s) (hb : M.V b t)
    (h : concatRule R a b = .ok (some r)) : M.V r (M.concat s t) := by
  have perm : ∀ (p q l : List ℕ), Valid p → Valid q → l = p ++ q.map (· + p.length) → s = M.perm p → t = M.perm q →
      (do let c ← create l; .ok (some (ofPC c)) : Res (Option (Circ A))) = .ok (some r) → M.V r (M.concat s t) := by
    rintro p q l hp hq hl rfl rfl h
    rw [bind_ok] at h
    obtain ⟨c, h1, h2⟩ := h
    injection h2 with h2; injection h2 with h2; subst h2
    have := V_ofPC (A := A) (M := M) (c := c) ⟨_, h1⟩
    rw [(create_tuple h1).2.1, hl, M.perm_concat p q hp hq] at this
    exact this
  have conc : ∀ p q : List ℕ, concatenate p q = p ++ q.map (· + p.length) := by
    intro p q
    unfold concatenate
    rw [fromBlocks_cons, fromBlocks_cons]
    simp [fromBlocks, fromBlocksLoop]
  have v1 : Valid [0] := valid_range 1
  have one1 : M.perm [0] = M.one 1 := M.perm_range 1
  unfold concatRule at h
  simp only at h
  split at h
  · rename_i x y
    injection h with h; injection h with h; subst h
    exact M.leaf_concat x y s t ha hb
  · rename_i p q
    obtain ⟨hp, e1⟩ := V_perm.mp ha
    obtain ⟨hq, e2⟩ := V_perm.mp hb
    exact perm p q _ hp.valid hq.valid (conc p q) e1 e2 h
  · rename_i p
    obtain ⟨hp, e1⟩ := V_perm.mp ha
    exact perm p [0] _ hp.valid v1 (conc p [0]) e1 (by rw [one1]; exact V_unique hb rfl) h
  · rename_i q
    obtain ⟨hq, e2⟩ := V_perm.mp hb
    exact perm [0] q _ v1 hq.valid (conc [0] q) (by rw [one1]; exact V_unique ha rfl) e2 h
  · split at h
    · rename_i as p bs q h1 h2
      obtain ⟨x, n1, k1, k2, k3, k4⟩ := splitPerm_val ha h1
      obtain ⟨y, n2, l1, l2, l3, l4⟩ := splitPerm_val hb h2
      rw [bind_ok] at h; obtain ⟨cx, g1, h⟩ := h
      rw [bind_ok] at h; obtain ⟨cy, g2, h⟩ := h
      rw [bind_ok] at h; obtain ⟨cl, g3, h⟩ := h
      rw [bind_ok] at h; obtain ⟨cr, g4, h⟩ := h
      rw [bind_ok] at h; obtain ⟨c, g5, h⟩ := h
      injection h with h; injection h with h; subst h
      have hl := hs.concat2 (hs.series n1 k1 g1) (hs.series n2 l1 g2) g3
      have hr := hs.concat2 (V_perm.mpr ⟨k2, rfl⟩) (V_perm.mpr ⟨l2, rfl⟩) g4
      have := hs.series2 hl hr (by rw [M.dim_concat, M.dim_concat, x.2, y.2, M.dim_perm, M.dim_perm, k3, l3]) g5
      rw [M.interchange _ _ _ _ (by rw [x.2, M.dim_perm, k3]) (by rw [y.2, M.dim_perm, l3]), ← k4, ← l4] at this
      exact this
    · rename_i as p h1 h2
      obtain ⟨x, n1, k1, k2, k3, k4⟩ := splitPerm_val ha h1
      rw [bind_ok] at h; obtain ⟨cx, g1, h⟩ := h
      rw [bind_ok] at h; obtain ⟨cl, g3, h⟩ := h
      rw [bind_ok] at h; obtain ⟨cr, g4, h⟩ := h
      rw [bind_ok] at h; obtain ⟨c, g5, h⟩ := h
      injection h with h; injection h with h; subst h
      have hl := hs.concat2 (hs.series n1 k1 g1) hb g3
      have hr := hs.concat2 (V_perm.mpr ⟨k2, rfl⟩) (V_cid _) g4
      have := hs.series2 hl hr (by rw [M.dim_concat, M.dim_concat, x.2, M.dim_perm, k3, M.dim_one, V.cdim hb]) g5
      rw [M.interchange _ _ _ _ (by rw [x.2, M.dim_perm, k3]) (by rw [M.dim_one, V.cdim hb]), ← k4, V.cdim hb, M.series_one] at this
      exact this
    · rename_i bs q h1 h2
      obtain ⟨y, n2, l1, l2, l3, l4⟩ := splitPerm_val hb h2
      rw [bind_ok] at h; obtain ⟨cy, g2, h⟩ := h
      rw [bind_ok] at h; obtain ⟨cl, g3, h⟩ := h
      rw [bind_ok] at h; obtain ⟨cr, g4, h⟩ := h
      rw [bind_ok] at h; obtain ⟨c, g5, h⟩ := h
      injection h with h; injection h with h; subst h
      have hl := hs.concat2 ha (hs.series n2 l1 g2) g3
      have hr := hs.concat2 (V_cid _) (V_perm.mpr ⟨l2, rfl⟩) g4
      have := hs.series2 hl hr (by rw [M.dim_concat, M.dim_concat, y.2, M.dim_perm, l3, M.dim_one, V.cdim ha]) g5
      rw [M.interchange _ _ _ _ (by rw [M.dim_one, V.cdim ha]) (by rw [y.2, M.dim_perm, l3]), ← l4, V.cdim ha, M.series_one] at this
      exact this
    · cases h

end CircAlg
end QNET.Circuit
