import Verif.Circuit.TermSeries

/-!
# Concatenations of arbitrary simplified circuits (tools for C78)
-/

namespace QNET.Circuit

open QNET.Perm QNET.CPerm CircAlg

variable {A : Type} [Ring A] [StarRing A] [Algebra ℂ A]

/-- no series product, or one of two operands the second of which is a permutation -/
def Simple (r : Circ A) : Prop := ∀ l, flatSeries r = some l → ∃ x q, l = [x, .perm q] ∧ ¬ Zero x

theorem Simple.of_none {r : Circ A} (h : flatSeries r = none) : Simple r := fun l hl => by rw [h] at hl; cases hl

/-- how the result `r` arises from the operands `F` -/
def SInfo (n : ℕ) (F : List (Circ A)) (r : Circ A) : Prop :=
  (F = [] ∧ r = cid n) ∨ F = [r] ∨ r = .series F ∨ ∃ l1 x y l2 f s, F = l1 ++ x :: y :: l2 ∧ SR A f x y = .ok (some s) ∧ deep r ≤ deepList (l1 ++ rest isId1 flatSeries s ++ l2)

variable (A) in
/-- concatenations with `n` channels and at most `d` components succeed -/
def CC (n d : ℕ) : Prop := ∀ l : List (Circ A), l ≠ [] → (∀ c ∈ l, Gd c) → sumCdim l = n → deepList l ≤ d →
  ∃ r, Con l r ∧ Gd r ∧ r.cdim = n ∧ deep r ≤ deepList l ∧ (2 ≤ l.length → deep r < deepList l ∨ Simple r)

variable (A) in
/-- series products with `n` channels and at most `d` components succeed -/
def SC (n d : ℕ) : Prop := ∀ l : List (Circ A), l ≠ [] → (∀ c ∈ l, Gd c ∧ c.cdim = n) → deepList l ≤ d →
  ∃ r, Ser l r ∧ Gd r ∧ r.cdim = n ∧ deep r ≤ deepList l ∧ SInfo n (opsOf l) r

/-- the operands before a trailing permutation -/
theorem prefix_conv {z : Circ A} {as : List (Circ A)} {p : List ℕ} (hz : Gd z) (h : splitPerm z = some (as, p)) (hS : SC A z.cdim (deep z)) :
    Reachable (.perm p) ∧ p.length = z.cdim ∧ ∃ x, Ser as x ∧ Gd x ∧ x.cdim = z.cdim ∧ (deep x < deep z ∨ (deep x ≤ deep z ∧ splitPerm x = none)) := by
  obtain ⟨rfl, hne⟩ := splitPerm_some h
  obtain ⟨p1, p2, p3⟩ := prefix_drop hz
  have hdeep : deep (.series (as ++ [.perm p]) : Circ A) = deepList as := by rw [deep, deepList_append]; simp [deepList, deep]
  have hF : deepList (as.filter fun x => !isCid x) = deepList as := filter_cid_deep as
  cases hz with
  | series l n h1 h2 h3 h4 =>
    have hn := Gd.series_cdim h1 fun c hc => (h3 c hc).2.1
    rw [hn, hdeep] at hS
    rw [hn, hdeep]
    refine ⟨?_, ?_, ?_⟩
    · have := h2 (.perm p) (by simp)
      cases this with
      | perm _ hp => exact hp
    · exact (h3 (.perm p) (by simp)).2.1
    · obtain ⟨x, x1, x2, x3, x4, x5⟩ := hS as hne (fun c hc => ⟨h2 c (by simp [hc]), (h3 c (by simp [hc])).2.1⟩) le_rfl
      refine ⟨x, x1, x2, x3, ?_⟩
      rw [p3] at x5
      rcases x5 with ⟨-, rfl⟩ | x5 | rfl | ⟨l1, u, v, l2, f, s, e1, e2, e3⟩
      · exact .inr ⟨x4, splitPerm_noSeries cid_noSeries'⟩
      · refine .inr ⟨x4, splitPerm_noSeries ?_⟩
        have : x ∈ as := (List.mem_filter.mp (by rw [x5]; simp : x ∈ as.filter fun x => !isCid x)).1
        exact (h3 x (by simp [this])).1
      · exact .inr ⟨x4, p2⟩
      · left
        rw [e1] at p1
        have := (List.isChain_append.mp p1).2.1
        rw [List.isChain_cons_cons] at this
        have := this.1 f s e2
        rw [e1] at hF
        simp only [deepList_append, deepList] at hF e3
        omega

/-- the weight of an operand of a concatenation -/
def wC (n : ℕ) (z : Circ A) : ℕ := deep z * (n + 1) + if (splitPerm z).isNone then 1 else n + 1

theorem wC_le {n : ℕ} {z : Circ A} : wC n z ≤ deep z * (n + 1) + (n + 1) := by
  unfold wC
  split <;> omega

theorem wl_rest {n : ℕ} {c : Circ A} (h : Gd c) (hn : c.cdim ≤ n) : wl (wC n) (rest isZero flatConcat c) ≤ deep c * (n + 1) + (n + 1) := by
  rw [rest, if_neg (by simp [h.notZero])]
  cases hf : flatConcat c with
  | none => simpa [wl] using wC_le
  | some l =>
    have e := flatConcat_eq hf
    subst e
    have hs := h.concat_split
    cases h with
    | concat l h1 h2 h3 h4 =>
      have key : ∀ l : List (Circ A), (∀ c ∈ l, splitPerm c = none) → (∀ c ∈ l, Gd c) → wl (wC n) l = deepList l * (n + 1) + l.length ∧ l.length ≤ sumCdim l := by
        intro l
        induction l with
        | nil => intro _ _; simp [wl, deepList, sumCdim]
        | cons a l ih =>
          intro h5 h6
          obtain ⟨i1, i2⟩ := ih (fun c hc => h5 c (by simp [hc])) (fun c hc => h6 c (by simp [hc]))
          have h7 := (h6 a (by simp)).pos
          rw [wl] at i1 ⊢
          rw [List.map_cons, List.sum_cons, i1, deepList, sumCdim, List.length_cons, wC, h5 a (by simp), Nat.add_mul]
          constructor
          · simp; omega
          · omega
      obtain ⟨k1, k2⟩ := key l hs h2
      rw [Circ.cdim] at hn
      rw [Option.getD_some, k1, deep]
      omega

theorem rest_gd {c : Circ A} (h : Gd c) : (∀ z ∈ rest isZero flatConcat c, Gd z ∧ flatConcat z = none) ∧ (rest isZero flatConcat c).IsChain (NoRule (CR A)) ∧
    sumCdim (rest isZero flatConcat c) = c.cdim ∧ deepList (rest isZero flatConcat c) = deep c ∧ rest isZero flatConcat c ≠ [] ∧ (∀ z, rest isZero flatConcat c = [z] → z = c) := by
  rw [rest, if_neg (by simp [h.notZero])]
  cases hf : flatConcat c with
  | none =>
    refine ⟨fun z hz => ?_, .singleton _, by simp [sumCdim], by simp [deepList], by simp, fun z hz => ?_⟩
    · rw [List.mem_singleton.mp hz]
      exact ⟨h, hf⟩
    · simp only [Option.getD_none, List.cons.injEq, and_true] at hz
      exact hz.symm
  | some l =>
    have e := flatConcat_eq hf
    subst e
    cases h with
    | concat l h1 h2 h3 h4 =>
      refine ⟨fun z hz => ⟨h2 z hz, h3 z hz⟩, h4, rfl, rfl, ?_, fun z hz => ?_⟩
      · rintro rfl
        simp at h1
      · simp only [Option.getD_some] at hz
        rw [hz] at h1
        simp at h1

/-- the last steps of the rules for trailing permutations -/
theorem tail_conv {n d D m : ℕ} (H : ∀ m d', m < n ∨ (m = n ∧ d' < d) → CC A m d' ∧ SC A m d') {x y zx zy : Circ A} (hx : Gd x) (hy : Gd y) (hzx : Zero zx) (hzy : Zero zy)
    (dx : zx.cdim = x.cdim) (dy : zy.cdim = y.cdim) (hm : x.cdim + y.cdim = m) (hmn : m ≤ n) (hD : D ≤ d)
    (hd : deep x + deep y < D ∨ (deep x + deep y ≤ D ∧ splitPerm x = none ∧ splitPerm y = none)) :
    ∃ l r c, Con [x, y] l ∧ Con [zx, zy] r ∧ Ser [l, r] c ∧ Gd c ∧ c.cdim = m ∧ deep c ≤ D ∧ (deep c < D ∨ Simple c) := by
  have mem2 : ∀ {a b : Circ A} {P : Circ A → Prop}, P a → P b → ∀ c ∈ [a, b], P c := by
    intro a b P ha hb c hc
    simp only [List.mem_cons, List.not_mem_nil, or_false] at hc
    rcases hc with rfl | rfl <;> assumption
  obtain ⟨r, r1, r2, r3, r4, r5⟩ := concat_plain (l := [zx, zy]) (by simp) (mem2 hzx.gd hzy.gd) (mem2 hzx.split hzy.split)
  have hr : Zero r := zero_of_deep r2 (by simp only [deepList, hzx.deep, hzy.deep] at r4; omega) (r5 (by simp))
  have dr : r.cdim = m := by rw [r3]; simp only [sumCdim]; omega
  rcases hd with hd | ⟨hd, sx, sy⟩
  · have hk : m < n ∨ (m = n ∧ deep x + deep y < d) := by omega
    obtain ⟨l, l1, l2, l3, l4, -⟩ := (H m _ hk).1 [x, y] (by simp) (mem2 hx hy) (by simp only [sumCdim]; omega) (by simp [deepList])
    simp only [deepList] at l4
    obtain ⟨c, c1, c2, c3, c4, -⟩ := (H m _ hk).2 [l, r] (by simp) (mem2 ⟨l2, l3⟩ ⟨r2, dr⟩) (by simp only [deepList, hr.deep]; omega)
    simp only [deepList, hr.deep] at c4
    exact ⟨l, r, c, l1, r1, c1, c2, c3, by omega, .inl (by omega)⟩
  · obtain ⟨l, l1, l2, l3, l4, l5⟩ := concat_plain (l := [x, y]) (by simp) (mem2 hx hy) (mem2 sx sy)
    simp only [deepList] at l4
    obtain ⟨c, c1, c2, c3, c4, c5⟩ := series_two (n := m) l2 (l5 (by simp)) (by rw [l3]; simp only [sumCdim]; omega) hr dr
    refine ⟨l, r, c, l1, r1, c1, c2, c3, by omega, .inr ?_⟩
    rcases c5 with c5 | ⟨q, rfl, c5⟩
    · exact .of_none c5
    · intro k hk
      injection hk with hk
      exact ⟨l, q, hk.symm, c5⟩

theorem zero_perm {p : List ℕ} (h : Reachable (.perm p)) : Zero (.perm p : Circ A) :=
  ⟨.perm p, h, by have := perm_length_pos h; simp only [PC.cdim]; omega, rfl⟩

theorem zero_cid {n : ℕ} (h : 0 < n) : Zero (cid n : Circ A) := ⟨.cid n, reachable_cid n, h, rfl⟩

theorem concatRule2_eq {R : Ops A} {x y : Circ A} (h : (splitPerm x).isSome ∨ (splitPerm y).isSome) : concatRule R x y = concatRule2 R x y := by
  rcases h with h | h
  · obtain ⟨a, ha⟩ := Option.isSome_iff_exists.mp h
    obtain ⟨rfl, -⟩ := splitPerm_some (as := a.1) (p := a.2) ha
    exact concatRule_series_left _ _ _
  · obtain ⟨a, ha⟩ := Option.isSome_iff_exists.mp h
    obtain ⟨rfl, -⟩ := splitPerm_some (as := a.1) (p := a.2) ha
    exact concatRule_series_right _ _ _

/-- the rules for trailing permutations -/
theorem CR_split {n d : ℕ} (H : ∀ m d', m < n ∨ (m = n ∧ d' < d) → CC A m d' ∧ SC A m d') {x y : Circ A} (hx : Gd x) (hy : Gd y)
    (hn : x.cdim + y.cdim ≤ n) (hd : deep x + deep y ≤ d) (hs : (splitPerm x).isSome ∨ (splitPerm y).isSome) :
    ∃ c, Cv (fun f => CR A f x y) (some c) ∧ Gd c ∧ c.cdim = x.cdim + y.cdim ∧ deep c ≤ deep x + deep y ∧ (deep c < deep x + deep y ∨ Simple c) := by
  have px := hx.pos
  have py := hy.pos
  have heq : ∀ f, CR A f x y = concatRule2 (opsAt true f) x y := fun f => concatRule2_eq hs
  cases hsx : splitPerm x with
  | some ap =>
    obtain ⟨as, p⟩ := ap
    obtain ⟨a1, a2, x', a3, a4, a5, a6⟩ := prefix_conv hx hsx ((H x.cdim (deep x) (.inl (by omega))).2)
    cases hsy : splitPerm y with
    | some bq =>
      obtain ⟨bs, q⟩ := bq
      obtain ⟨b1, b2, y', b3, b4, b5, b6⟩ := prefix_conv hy hsy ((H y.cdim (deep y) (.inl (by omega))).2)
      obtain ⟨l, r, c, h1, h2, h3, h4, h5, h6, h7⟩ := tail_conv H (D := deep x + deep y) a4 b4 (zero_perm a1) (zero_perm b1) (by rw [a5]; exact a2) (by rw [b5]; exact b2)
        (m := x.cdim + y.cdim) (by rw [a5, b5]) hn hd (by
          rcases a6 with a6 | ⟨a6, a7⟩
          · left; rcases b6 with b6 | ⟨b6, -⟩ <;> omega
          · rcases b6 with b6 | ⟨b6, b7⟩
            · left; omega
            · exact .inr ⟨by omega, a7, b7⟩)
      refine ⟨c, ?_, h4, h5, h6, h7⟩
      refine Cv.congr ?_ fun f => (heq f).trans (by unfold concatRule2; rw [hsx, hsy])
      dsimp only
      refine Cv.bind a3 ?_
      refine Cv.bind b3 ?_
      refine Cv.bind h1 ?_
      refine Cv.bind h2 ?_
      refine Cv.bind h3 ?_
      exact Cv.const rfl
    | none =>
      obtain ⟨l, r, c, h1, h2, h3, h4, h5, h6, h7⟩ := tail_conv H (D := deep x + deep y) a4 hy (zero_perm a1) (zero_cid py) (by rw [a5]; exact a2) (cid_cdim _)
        (m := x.cdim + y.cdim) (by rw [a5]) hn hd (by
          rcases a6 with a6 | ⟨a6, a7⟩
          · left; omega
          · exact .inr ⟨by omega, a7, hsy⟩)
      refine ⟨c, ?_, h4, h5, h6, h7⟩
      refine Cv.congr ?_ fun f => (heq f).trans (by unfold concatRule2; rw [hsx, hsy])
      dsimp only
      refine Cv.bind a3 ?_
      refine Cv.bind h1 ?_
      refine Cv.bind h2 ?_
      refine Cv.bind h3 ?_
      exact Cv.const rfl
  | none =>
    cases hsy : splitPerm y with
    | some bq =>
      obtain ⟨bs, q⟩ := bq
      obtain ⟨b1, b2, y', b3, b4, b5, b6⟩ := prefix_conv hy hsy ((H y.cdim (deep y) (.inl (by omega))).2)
      obtain ⟨l, r, c, h1, h2, h3, h4, h5, h6, h7⟩ := tail_conv H (D := deep x + deep y) hx b4 (zero_cid px) (zero_perm b1) (cid_cdim _) (by rw [b5]; exact b2)
        (m := x.cdim + y.cdim) (by rw [b5]) hn hd (by
          rcases b6 with b6 | ⟨b6, b7⟩
          · left; omega
          · exact .inr ⟨by omega, hsx, b7⟩)
      refine ⟨c, ?_, h4, h5, h6, h7⟩
      refine Cv.congr ?_ fun f => (heq f).trans (by unfold concatRule2; rw [hsx, hsy])
      dsimp only
      refine Cv.bind b3 ?_
      refine Cv.bind h1 ?_
      refine Cv.bind h2 ?_
      refine Cv.bind h3 ?_
      exact Cv.const rfl
    | none => simp [hsx, hsy] at hs

theorem CC_step {n d : ℕ} (H : ∀ m d', m < n ∨ (m = n ∧ d' < d) → CC A m d' ∧ SC A m d') : CC A n d := by
  intro l hne hg hn hd
  have hD : Decr (CR A) isZero flatConcat (fun z => Gd z ∧ flatConcat z = none) (leC True Simple (wC n)) (ltC True Simple (wC n))
      (fun m => sumCdim m ≤ n ∧ deepList m ≤ d) (wl (wC n)) := by
    refine decrC fun x y hx hy h1 h2 => ?_
    simp only [sumCdim, deepList, Nat.add_zero] at h1 h2
    by_cases hs : (splitPerm x).isSome ∨ (splitPerm y).isSome
    · obtain ⟨c, ⟨f, c1⟩, c2, c3, c4, c5⟩ := CR_split H hx.1 hy.1 h1 h2 hs
      refine ⟨f, some c, c1 f le_rfl, fun r hr => ?_⟩
      cases hr
      obtain ⟨r1, r2, r3, r4, r5, r6⟩ := rest_gd c2
      have hw : wl (wC n) (rest isZero flatConcat c) < wl (wC n) [x, y] := by
        have h3 := wl_rest (n := n) c2 (by omega)
        have h4 : wl (wC n) [x, y] = wC n x + wC n y := by simp [wl]
        have h5 : deep c * (n + 1) ≤ deep x * (n + 1) + deep y * (n + 1) := by
          rw [← Nat.add_mul]
          exact Nat.mul_le_mul_right _ c4
        have h6 : deep x * (n + 1) + deep y * (n + 1) + (n + 1) < wC n x + wC n y := by
          unfold wC
          rcases hs with hs | hs
          · rw [if_neg (by simpa [← Option.isSome_iff_ne_none] using hs)]
            split <;> omega
          · rw [if_neg (c := (splitPerm y).isNone = true) (by simpa [← Option.isSome_iff_ne_none] using hs)]
            split <;> omega
        omega
      refine ⟨r1, r2, ⟨?_, ?_, hw.le, ?_, ?_⟩, hw⟩
      · rw [r3, c3]
        simp [sumCdim]
      · rw [r4]
        simpa [deepList] using c4
      · simp [r5]
      · rcases c5 with c5 | c5
        · left
          rw [r4]
          exact ⟨trivial, by simpa [deepList] using c5⟩
        · exact .inr (.inr fun z hz => by rw [r6 z hz]; exact c5)
    · rw [not_or] at hs
      have sx : splitPerm x = none := by simpa using hs.1
      have sy : splitPerm y = none := by simpa using hs.2
      obtain ⟨o, e, ho⟩ := CR_plain ⟨hx.1, hx.2, sx⟩ ⟨hy.1, hy.2, sy⟩
      refine ⟨0, o, e 0, fun r hr => ?_⟩
      obtain ⟨h3, h4, h5, h6, h7⟩ := ho r hr
      rw [rest_single h3.notZero h4]
      have hw : wl (wC n) [r] < wl (wC n) [x, y] := by
        have e1 : wl (wC n) [x, y] = wC n x + wC n y := by simp [wl]
        have e2 : wl (wC n) [r] = wC n r := by simp [wl]
        rw [e1, e2]
        unfold wC
        rw [sx, sy, splitPerm_noSeries h5]
        have := Nat.mul_le_mul_right (n + 1) h7
        rw [Nat.add_mul] at this
        simp only [Option.isNone_none, if_true]
        omega
      refine ⟨fun z hz => by rw [List.mem_singleton.mp hz]; exact ⟨h3, h4⟩, .singleton _, ⟨?_, ?_, hw.le, by simp, .inr (.inr fun z hz => ?_)⟩, hw⟩
      · simp [sumCdim, h6]
      · simpa [deepList] using h7
      · cases hz
        exact .of_none h5
  have ha := assoc_gd hg
  have hs := assoc_concat_sum l
  have hdp := assoc_deep l
  obtain ⟨f, m, e, res⟩ := decr_reduce hD _ (Engine.assoc flatConcat l) le_rfl ha ⟨by rw [hs, hn], by rw [hdp]; exact hd⟩
  have hlen := assoc_len hg
  have hlne : Engine.assoc flatConcat l ≠ [] := fun h => by
    have := List.length_pos_iff.mpr hne
    rw [h] at hlen
    simp only [List.length_nil] at hlen
    omega
  obtain ⟨b1, b2, b3, b4, b5⟩ := res.below
  obtain ⟨r, h1, h2, h3, h4, h5⟩ := concat_finish hne hg e res.all res.chain (fun h => hlne (b4.mp h))
  refine ⟨r, h1, h2, by rw [h3, b1, hs, hn], by rw [h4, ← hdp]; exact b2, fun h => ?_⟩
  rcases b5 with ⟨-, b5⟩ | b5 | b5
  · left
    rw [h4, ← hdp]
    exact b5
  · right
    rcases h5 with h5 | ⟨rfl, -⟩
    · rw [← b5, h5] at hlen
      simp at hlen
      omega
    · exact .of_none rfl
  · right
    rcases h5 with h5 | ⟨rfl, -⟩
    · exact b5 r h5
    · exact .of_none rfl

end QNET.Circuit
