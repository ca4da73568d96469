import Verif.Circuit.TermStep3

/-!
# Series products of arbitrary simplified circuits (tools for C78)
-/

namespace QNET.Circuit

open QNET.Perm QNET.CPerm CircAlg

variable {A : Type} [Ring A] [StarRing A] [Algebra ℂ A]

theorem filter_mu (n : ℕ) (P : Circ A → Bool) : ∀ l : List (Circ A), Wn (l.filter P) ≤ Wn l ∧ mu n (l.filter P) ≤ mu n l
  | [] => ⟨le_rfl, le_rfl⟩
  | x :: l => by
    obtain ⟨h1, h2⟩ := filter_mu n P l
    rw [List.filter_cons]
    split
    · rw [Wn, Wn, mu, mu]
      have := Nat.mul_le_mul_left (wt n x) (Nat.pow_le_pow_right (Bs_pos n) h1)
      exact ⟨by omega, by omega⟩
    · rw [Wn, mu]
      exact ⟨by omega, by omega⟩

/-- the operands after a permutation was moved to the right are smaller -/
theorem factor_lt {n : ℕ} {p : List ℕ} {y res tr ca : Circ A} (hp : Reachable (.perm p)) (hpn : p.length = n) (hy : deep y ≠ 0) (r1 : Zero res) (r2 : res.cdim = n)
    (t1 : Gd tr) (t2 : tr.cdim = n) (t3 : deep tr < deep y ∨ (deep tr ≤ deep y ∧ Simple tr)) (c1 : Zero ca) (c2 : ca.cdim = n)
    (hr : ∀ t, res = .perm t → rank n t < rank n p) :
    deepList (opsOf [res, tr, ca]) < deepList [.perm p, y] ∨
      (deepList (opsOf [res, tr, ca]) = deepList [.perm p, y] ∧ Wn (opsOf [res, tr, ca]) ≤ Wn [.perm p, y] ∧ mu n (opsOf [res, tr, ca]) < mu n [.perm p, y]) := by
  have e1 : deepList (opsOf [res, tr, ca]) = deep tr := by
    rw [opsOf_deep]
    simp [deepList, r1.deep, c1.deep]
  have e2 : deepList [.perm p, y] = deep y := by simp [deepList, deep]
  rw [e1, e2]
  rcases Nat.lt_or_ge (deep tr) (deep y) with h | h
  · exact .inl h
  right
  have hs : Simple tr := by rcases t3 with t3 | t3; omega; exact t3.2
  have he : deep tr = deep y := by rcases t3 with t3 | t3 <;> omega
  refine ⟨he, ?_⟩
  obtain ⟨m1, m2, m3⟩ := mu_simple t1 t2 hs
  have hrest : rest isId1 flatSeries tr = (flatSeries tr).getD [tr] := by
    rw [rest, if_neg]
    intro hi
    rw [isId1_eq hi] at he
    rw [deep] at he
    omega
  rw [hrest] at m1 m3
  have ha : Engine.assoc flatSeries [res, tr, ca] = res :: ((flatSeries tr).getD [tr] ++ [ca]) := by
    rw [Engine.assoc, List.flatMap_cons, List.flatMap_cons, List.flatMap_cons, r1.noSeries, c1.noSeries]
    rfl
  have hW : Wn [.perm p, y] = 1 := by
    have : deep (.perm p : Circ A) = 0 := rfl
    simp [Wn, this, hy]
  have hM : mu n [.perm p, y] = wt n (.perm p : Circ A) * Bs n + wt n y := by
    simp [mu, Wn, hy]
  have wc := wt_le c1.gd c2
  have wy := wt_ge n y
  have wp := wt_ge n (.perm p : Circ A)
  have hT : Wn ((flatSeries tr).getD [tr] ++ [ca]) ≤ 1 ∧ mu n ((flatSeries tr).getD [tr] ++ [ca]) ≤ 6 * n ^ n + 2 := by
    have hca : Wn [ca] = 0 := by simp [Wn, c1.deep]
    rw [Wn_append, mu_append, hca, Nat.pow_zero, Nat.mul_one]
    have : mu n [ca] = wt n ca := by simp [mu, Wn]
    rw [this]
    exact ⟨by omega, by omega⟩
  generalize hT' : (flatSeries tr).getD [tr] ++ [ca] = T at *
  have hB : Bs n = 6 * n ^ n + 10 := rfl
  rw [hW, hM]
  obtain ⟨f1, f2⟩ := filter_mu n (fun x => !isCid x) T
  by_cases hc : isCid res = true
  · have : opsOf [res, tr, ca] = T.filter fun x => !isCid x := by
      rw [opsOf, ha, List.filter_cons]
      simp [hc]
    rw [this]
    have : Bs n ≤ wt n (.perm p : Circ A) * Bs n := Nat.le_mul_of_pos_left _ (by omega)
    exact ⟨by omega, by omega⟩
  · obtain ⟨pc, q1, q2, rfl⟩ := r1
    cases pc with
    | cid k => exact absurd (isCid_cid k) hc
    | perm t =>
      have hrk := hr t rfl
      obtain ⟨g1, g2⟩ := filter_mu n (fun x => !isCid x) (.perm t :: T)
      rw [opsOf, ha]
      have d0 : deep (.perm t : Circ A) = 0 := rfl
      rw [Wn, d0, if_pos rfl] at g1
      rw [mu] at g2
      have h1 : wt n (.perm t : Circ A) * Bs n ^ Wn T ≤ wt n (.perm t : Circ A) * Bs n := by
        refine Nat.mul_le_mul_left _ ?_
        calc Bs n ^ Wn T ≤ Bs n ^ 1 := Nat.pow_le_pow_right (Bs_pos n) hT.1
          _ = Bs n := Nat.pow_one _
      have h2 : wt n (.perm t : Circ A) * Bs n + Bs n ≤ wt n (.perm p : Circ A) * Bs n := by
        have : wt n (.perm t : Circ A) + 1 ≤ wt n (.perm p : Circ A) := by
          simp only [wt]
          omega
        have := Nat.mul_le_mul_right (Bs n) this
        rwa [Nat.add_mul, Nat.one_mul] at this
      refine ⟨?_, ?_⟩
      · refine le_trans g1 ?_
        omega
      · refine lt_of_le_of_lt g2 ?_
        omega

/-- the rule for a permutation on the left, `_rules.py` lines 1042-1045 -/
noncomputable def fourthRule (R : Ops A) (x y : Circ A) : Res (Option (Circ A)) :=
  match x with
  | .perm p => factorPermutation R p y
  | _ => .ok none

theorem seriesRule_eq {R : Ops A} {x y : Circ A} (h1 : ∀ p q, ¬ (x = .perm p ∧ y = .perm q)) (h2 : ∀ s t, ¬ (x = .slh s ∧ y = .slh t)) :
    seriesRule R x y = (do
      match ← tensorDecompose R x y with
      | some c => .ok (some c)
      | none => do
        match ← fourthRule R x y with
        | some c => .ok (some c)
        | none => .ok (seriesInverseRules x y)) := by
  unfold seriesRule
  cases x <;> cases y <;> first | exact absurd ⟨rfl, rfl⟩ (h1 _ _) | exact absurd ⟨rfl, rfl⟩ (h2 _ _) | rfl

theorem ltS_of_deep {n : ℕ} {x y r : Circ A} (h : Gd r) (hn : r.cdim = n) (hd : deep r < deep x + deep y) : ltS n (rest isId1 flatSeries r) [x, y] := by
  obtain ⟨r1, -, r3, r4⟩ := rest_series h hn
  refine ⟨?_, .inl ?_⟩
  · by_cases h1 : n = 1
    · exact .inl h1
    · exact .inr fun _ h => h1 (r4 h)
  · rw [r3]
    simpa [deepList] using hd

variable (A) in
/-- what is proved about series products by induction -/
def SCk (n d : ℕ) (k : ℕ ×ₗ ℕ) : Prop := ∀ l : List (Circ A), l ≠ [] → (∀ c ∈ l, Gd c ∧ c.cdim = n) → deepList l ≤ d → kS n (opsOf l) = k →
  ∃ r, Ser l r ∧ Gd r ∧ r.cdim = n ∧ deep r ≤ deepList l ∧ SInfo n (opsOf l) r ∧ (opsOf l = [] ∨ leS n (rest isId1 flatSeries r) (opsOf l))

/-- a rule for two operands -/
theorem SR_conv {n d : ℕ} {k : ℕ ×ₗ ℕ} (hS : ∀ m d', m < n → SC A m d') (hC : CC A n d) (ih : ∀ k' < k, SCk A n d k') {x y : Circ A} (hx : PS n x) (hy : PS n y)
    (hd : deep x + deep y ≤ d) (hk : kS n [x, y] ≤ k) : ∃ o, Cv (fun f => SR A f x y) o ∧ ∀ r, o = some r → Gd r ∧ r.cdim = n ∧ ltS n (rest isId1 flatSeries r) [x, y] := by
  by_cases hpp : ∃ p q, x = .perm p ∧ y = .perm q
  · obtain ⟨p, q, rfl, rfl⟩ := hpp
    have gx := hx.1
    have gy := hy.1
    cases gx with
    | perm _ hp =>
      cases gy with
      | perm _ hq =>
        have dl : p.length = n := hx.2.2.1
        have dr : q.length = n := hy.2.2.1
        have h2 := perm_length_pos hp
        obtain ⟨c, e1, e2, e3⟩ := swp_ok (reachable_perm.mp hp).1 (reachable_perm.mp hq).1 (by rw [dl, dr])
        have hcd : (ofPC c : Circ A).cdim = n := by rw [ofPC_cdim, e2.cdim, e3, comp_length, dr]
        have hz : Zero (ofPC c : Circ A) := ⟨c, e2, by rw [← ofPC_cdim (A := A), hcd]; omega, rfl⟩
        refine ⟨some (ofPC c), Cv.const (x := .ok (some (ofPC c))) rfl |>.congr fun f => ?_, fun r hr => ?_⟩
        · show seriesRule _ (.perm p) (.perm q) = _
          simp only [seriesRule, e1]
          rfl
        · cases hr
          refine ⟨hz.gd, hcd, ?_⟩
          obtain ⟨r1, -, r3, r4⟩ := rest_series hz.gd hcd
          obtain ⟨m1, m2, -⟩ := mu_simple hz.gd hcd (Simple.of_none hz.noSeries)
          obtain ⟨m3, m4⟩ := m2 hz.deep
          refine ⟨.inr fun _ h => ?_, .inr ⟨?_, ?_, ?_⟩⟩
          · have := r4 h
            omega
          · rw [r3, hz.deep]
            rfl
          · rw [m3]
            exact Nat.zero_le _
          · have hm : mu n [(.perm p : Circ A), .perm q] = wt n (.perm p : Circ A) + wt n (.perm q : Circ A) := by
              have : deep (.perm q : Circ A) = 0 := rfl
              simp [mu, Wn, this]
            have w1 := wt_ge n (.perm p : Circ A)
            have w2 := wt_ge n (.perm q : Circ A)
            rw [hm]
            omega
  by_cases hss : ∃ s t, x = .slh s ∧ y = .slh t
  · obtain ⟨s, t, rfl, rfl⟩ := hss
    have hn : s.n = t.n := hx.2.2.1.trans hy.2.2.1.symm
    refine ⟨some (.slh (SLH.series s t)), Cv.const (x := .ok (some (Circ.slh (SLH.series s t)))) rfl |>.congr fun f => ?_, fun r hr => ?_⟩
    · show seriesRule _ (.slh s) (.slh t) = _
      simp only [seriesRule]
      rw [if_neg (by simp [hn])]
      rfl
    · cases hr
      have h1 : (Circ.slh (SLH.series s t)).cdim = n := hx.2.2.1
      have gs := hx.1
      have g : Gd (.slh (SLH.series s t)) := .slh _ (by cases gs with | slh _ h => exact h)
      exact ⟨g, h1, ltS_of_deep g h1 (by simp [deep])⟩
  have hpp' : ∀ p q, ¬ (x = .perm p ∧ y = .perm q) := fun p q h => hpp ⟨p, q, h⟩
  have hss' : ∀ s t, ¬ (x = .slh s ∧ y = .slh t) := fun s t h => hss ⟨s, t, h⟩
  have heq := fun f => seriesRule_eq (R := opsAt true f) hpp' hss'
  obtain ⟨o, o1, o2⟩ := tensor_conv hS hC hx.1 hy.1 hx.2.2.1 hy.2.2.1 hd
  cases o with
  | some r =>
    refine ⟨some r, Cv.congr ?_ heq, fun r' hr => ?_⟩
    · refine Cv.bind o1 ?_
      exact Cv.const rfl
    cases hr
    obtain ⟨q1, q2, q3, q4⟩ := o2 r rfl
    exact ⟨q2, q3, tensor_lt hx hy q1 q2 q3 q4⟩
  | none =>
    -- the rule for permutations
    have hfour : ∃ o, Cv (fun f => fourthRule (opsAt true f) x y) o ∧ ∀ r, o = some r → Gd r ∧ r.cdim = n ∧ ltS n (rest isId1 flatSeries r) [x, y] := by
      by_cases hp : ∃ p, x = .perm p
      · obtain ⟨p, rfl⟩ := hp
        have hyp : ∀ q, y ≠ .perm q := fun q h => hpp' p q ⟨rfl, h⟩
        have gx := hx.1
        cases gx with
        | perm _ hp =>
        have hpn : p.length = n := hx.2.2.1
        have h2 := perm_length_pos hp
        show ∃ o, Cv (fun f => factorPermutation (opsAt true f) p y) o ∧ _
        obtain ⟨st, y1, y2, y3, y4, -⟩ := blocks_gd hy.1
        by_cases hc : isCid y = true
        · refine ⟨some (.perm p), ?_, fun r hr => ?_⟩
          · unfold factorPermutation
            refine Cv.bind (Cv.const y1) ?_
            refine Cv.congr ?_ fun f => if_pos hc
            exact Cv.const rfl
          · cases hr
            refine ⟨hx.1, hpn, .inr fun _ h => ?_, .inr ⟨?_, ?_, ?_⟩⟩
            · cases h
            · have : deep y = 0 := by rw [isCid_iff.mp hc, deep_cid]
              show deepList [Circ.perm p] = _
              simp [deepList, this]
            · show Wn [Circ.perm p] ≤ _
              simp [Wn]
            · show mu n [Circ.perm p] < _
              have h3 : deep y = 0 := by rw [isCid_iff.mp hc, deep_cid]
              have := wt_ge n y
              simp [mu, Wn, h3]
              omega
        · by_cases hl : st.length > 1
          · have dy : deep y ≠ 0 := fun h0 => by
              rcases hy.zero h0 with h | ⟨q, h⟩
              · rw [h, isCid_cid] at hc
                exact hc rfl
              · exact hyp q h
            obtain ⟨res, tr, ca, t1, t2, t3, t4, t5, t6, t7, t8, t9⟩ := factor_conv hS hC hp hpn hy.1 hy.2.2.1 (by omega) y1 hl
            by_cases hbq : beq res (.perm p) = true
            · refine ⟨none, ?_, fun r hr => nomatch hr⟩
              unfold factorPermutation
              refine Cv.bind (Cv.const y1) ?_
              refine Cv.congr ?_ fun f => if_neg hc
              refine Cv.congr ?_ fun f => if_pos hl
              refine Cv.bind t1 ?_
              refine Cv.congr ?_ fun f => if_pos hbq
              exact Cv.const rfl
            · have hlt := factor_lt hp hpn dy t2 t3 t4 t5 t6 t7 t8 (fun t ht => t9 t ht fun e => hbq (by rw [ht, e]; simp [beq]))
              have hks : kS n (opsOf [res, tr, ca]) < k := lt_of_lt_of_le (kS_lt.mpr (by omega)) hk
              have hdd : deepList [res, tr, ca] ≤ d := by
                simp only [deepList, t2.deep, t7.deep]
                omega
              obtain ⟨c, c1, c2, c3, c4, -, c6⟩ := ih _ hks [res, tr, ca] (by simp) (by
                intro z hz
                simp only [List.mem_cons, List.not_mem_nil, or_false] at hz
                rcases hz with rfl | rfl | rfl
                · exact ⟨t2.gd, t3⟩
                · exact ⟨t4, t5⟩
                · exact ⟨t7.gd, t8⟩) hdd rfl
              refine ⟨some c, ?_, fun r hr => ?_⟩
              · unfold factorPermutation
                refine Cv.bind (Cv.const y1) ?_
                refine Cv.congr ?_ fun f => if_neg hc
                refine Cv.congr ?_ fun f => if_pos hl
                refine Cv.bind t1 ?_
                refine Cv.congr ?_ fun f => if_neg hbq
                refine Cv.bind c1 ?_
                exact Cv.const rfl
              · cases hr
                refine ⟨c2, c3, ?_⟩
                obtain ⟨-, -, r3, r4⟩ := rest_series c2 c3
                refine ⟨.inr fun _ h => ?_, ?_⟩
                · have := r4 h
                  omega
                · rcases c6 with c6 | c6
                  · left
                    have h5 := opsOf_deep [res, tr, ca]
                    rw [c6] at h5
                    rw [r3]
                    have h6 : deepList [.perm p, y] = deep y := by simp [deepList, deep]
                    have h7 : deepList ([] : List (Circ A)) = 0 := rfl
                    omega
                  · have := c6.2
                    omega
          · refine ⟨none, ?_, fun r hr => nomatch hr⟩
            unfold factorPermutation
            refine Cv.bind (Cv.const y1) ?_
            refine Cv.congr ?_ fun f => if_neg hc
            refine Cv.congr ?_ fun f => if_neg hl
            exact Cv.const rfl
      · refine ⟨none, ?_, fun r hr => nomatch hr⟩
        cases x with
        | perm p => exact absurd ⟨p, rfl⟩ hp
        | _ => exact Cv.const rfl
    obtain ⟨o', p1, p2⟩ := hfour
    cases o' with
    | some r =>
      refine ⟨some r, Cv.congr ?_ heq, p2⟩
      refine Cv.bind o1 ?_
      refine Cv.bind p1 ?_
      exact Cv.const rfl
    | none =>
      refine ⟨seriesInverseRules x y, Cv.congr ?_ heq, fun r hr => ?_⟩
      · refine Cv.bind o1 ?_
        refine Cv.bind p1 ?_
        exact Cv.const rfl
      obtain ⟨rfl, h3, h4⟩ := seriesInverseRules_gd hx.1 hy.1 hr
      rw [hx.2.2.1]
      have hn : 0 < n := by rw [← hx.2.2.1]; exact hx.1.pos
      exact ⟨cid_gd hn, cid_cdim n, ltS_of_deep (cid_gd hn) (cid_cdim n) (by rw [deep_cid]; omega)⟩

theorem rest_PS {n : ℕ} {r : Circ A} (h : PS n r) : rest isId1 flatSeries r = [r] := by
  have hi : isId1 r = false := by
    cases hi : isId1 r with
    | false => rfl
    | true => exact absurd (isId1_eq hi) h.2.2.2
  simp [rest, hi, h.2.1]

theorem SCk_all {n d : ℕ} (hS : ∀ m d', m < n → SC A m d') (hC : CC A n d) (k : ℕ ×ₗ ℕ) : SCk A n d k := by
  induction k using WellFoundedLT.induction with
  | _ k ih =>
    intro l hne hg hd hk
    have hmem := opsOf_mem hg
    have hod := opsOf_deep l
    obtain ⟨s1, s2⟩ := series_small hne hg
    by_cases h2 : 2 ≤ (opsOf l).length
    · have hD := decrS (A := A) (n := n) (k0 := k) fun x y hx hy hxy => by
        have hdd : deep x + deep y ≤ d := by
          have := kS_le.mp (hk ▸ hxy)
          simp only [deepList] at this
          omega
        obtain ⟨o, ⟨f, h1⟩, h3⟩ := SR_conv hS hC ih hx hy hdd hxy
        refine ⟨f, o, h1 f le_rfl, fun r hr => ?_⟩
        obtain ⟨h4, h5, h6⟩ := h3 r hr
        obtain ⟨r1, r2, -, -⟩ := rest_series h4 h5
        exact ⟨r1, r2, h6⟩
      obtain ⟨f, m, e, res⟩ := decr_reduce hD _ (opsOf l) le_rfl (fun z hz => (hmem z hz).1) (by rw [hk])
      have hb := res.below
      obtain ⟨r, q1, q2, q3, q4, q5⟩ := series_finish hg h2 e res.all res.chain (fun h => by
        rcases hb.1 with h1 | h1
        · exact h1
        · exfalso
          refine h1 ?_ h
          intro h0
          rw [h0] at h2
          simp at h2)
      have hrest : rest isId1 flatSeries r = m := by
        rcases q5 with ⟨h1, h3⟩ | h1 | ⟨h1, -⟩
        · rw [h1, h3]
          rfl
        · rw [h1]
          exact rest_PS (res.all r (by rw [h1]; simp))
        · rw [h1]
          rfl
      have hle : deep r ≤ deepList l := by
        rw [q4, ← hod]
        have := hb.2
        omega
      refine ⟨r, q1, q2, q3, hle, ?_, .inr (by rw [hrest]; exact hb)⟩
      rcases res.step with h1 | ⟨l1, x, y, l2, f, s, h1, h3, h4⟩
      · rcases q5 with ⟨h5, -⟩ | h5 | ⟨h5, -⟩
        · rw [h1] at h5
          rw [h5] at h2
          simp at h2
        · right; left
          rw [← h1, h5]
        · right; right; left
          rw [h5, h1]
      · right; right; right
        refine ⟨l1, x, y, l2, f, s, h1, h3, ?_⟩
        rw [q4]
        have := h4.2
        omega
    · generalize hF : opsOf l = F at *
      match F, h2 with
      | [], _ =>
        have hn : 0 < n := by
          cases l with
          | nil => exact absurd rfl hne
          | cons c l =>
            obtain ⟨g1, g2⟩ := hg c (by simp)
            rw [← g2]
            exact g1.pos
        exact ⟨cid n, s1 rfl, cid_gd hn, cid_cdim n, by rw [deep_cid]; omega, .inl ⟨rfl, rfl⟩, .inl rfl⟩
      | [x], _ =>
        have px := (hmem x (by simp)).1
        refine ⟨x, s2 x rfl, px.1, px.2.2.1, ?_, .inr (.inl rfl), .inr ?_⟩
        · rw [← hod]
          simp [deepList]
        · rw [rest_PS px]
          exact ⟨.inr id, .inr ⟨rfl, le_rfl, le_rfl⟩⟩
      | _ :: _ :: _, h2 => simp at h2

theorem SC_step {n d : ℕ} (hS : ∀ m d', m < n → SC A m d') (hC : CC A n d) : SC A n d := by
  intro l hne hg hd
  obtain ⟨r, h1, h2, h3, h4, h5, -⟩ := SCk_all hS hC _ l hne hg hd rfl
  exact ⟨r, h1, h2, h3, h4, h5⟩

/-- all concatenations and series products succeed -/
theorem all_conv (n : ℕ) : ∀ d, CC A n d ∧ SC A n d := by
  induction n using Nat.strong_induction_on with
  | _ n ihn =>
    intro d
    induction d using Nat.strong_induction_on with
    | _ d ihd =>
      have hC : CC A n d := CC_step fun m d' h => by
        rcases h with h | ⟨rfl, h⟩
        · exact ihn m h d'
        · exact ihd d' h
      exact ⟨hC, SC_step (fun m d' h => (ihn m h d').2) hC⟩

end QNET.Circuit
