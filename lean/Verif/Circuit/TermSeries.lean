import Verif.Circuit.TermBlocks

/-!
# Series products of simplified circuits (tools for C78)
-/

namespace QNET.Circuit

open QNET.Perm QNET.CPerm CircAlg

variable {A : Type} [Ring A] [StarRing A] [Algebra ℂ A]

/-! ### from the reduced operands to the series product -/

/-- an operand of a series product with `n` channels -/
def PS (n : ℕ) (z : Circ A) : Prop := Gd z ∧ flatSeries z = none ∧ z.cdim = n ∧ z ≠ .id1

theorem assoc_series_deep : ∀ l : List (Circ A), deepList (Engine.assoc flatSeries l) = deepList l
  | [] => rfl
  | c :: l => by
    rw [Engine.assoc, List.flatMap_cons, deepList_append, deep_flatSeries, deepList, ← assoc_series_deep l]
    rfl

theorem filter_cid_deep : ∀ l : List (Circ A), deepList (l.filter fun x => !isCid x) = deepList l
  | [] => rfl
  | c :: l => by
    rw [List.filter_cons]
    cases h : isCid c with
    | true =>
      have : deep c = 0 := by rw [isCid_iff.mp h, deep_cid]
      simp only [Bool.not_true, Bool.false_eq_true, if_false]
      rw [filter_cid_deep l, deepList, this, Nat.zero_add]
    | false => simp [deepList, filter_cid_deep l]

/-- the operands of a series product that are looked at -/
noncomputable def opsOf (l : List (Circ A)) : List (Circ A) := (Engine.assoc flatSeries l).filter fun x => !isCid x

theorem opsOf_deep (l : List (Circ A)) : deepList (opsOf l) = deepList l := by rw [opsOf, filter_cid_deep, assoc_series_deep]

theorem assoc_series_gd {n : ℕ} {l : List (Circ A)} (h : ∀ c ∈ l, Gd c ∧ c.cdim = n) : ∀ z ∈ Engine.assoc flatSeries l, Gd z ∧ flatSeries z = none ∧ z.cdim = n := by
  intro z hz
  rw [Engine.assoc, List.mem_flatMap] at hz
  obtain ⟨c, hc, hz⟩ := hz
  obtain ⟨h1, h2⟩ := h c hc
  cases hf : flatSeries c with
  | some m =>
    rw [hf] at hz
    have e := flatSeries_eq hf
    subst e
    cases h1 with
    | series m k g1 g2 g3 _ =>
      rw [Gd.series_cdim g1 fun c hc => (g3 c hc).2.1] at h2
      exact ⟨g2 z hz, (g3 z hz).1, (g3 z hz).2.1.trans h2⟩
  | none =>
    rw [hf] at hz
    rw [List.mem_singleton.mp hz]
    exact ⟨h1, hf, h2⟩

theorem opsOf_mem {n : ℕ} {l : List (Circ A)} (h : ∀ c ∈ l, Gd c ∧ c.cdim = n) : ∀ z ∈ opsOf l, PS n z ∧ isCid z = false := by
  intro z hz
  rw [opsOf, List.mem_filter] at hz
  obtain ⟨h1, h2, h3⟩ := assoc_series_gd h z hz.1
  have h4 : isCid z = false := by simpa using hz.2
  refine ⟨⟨h1, h2, h3, ?_⟩, h4⟩
  rintro rfl
  have := isCid_cid (A := A) 1
  rw [show (cid 1 : Circ A) = .id1 from rfl, h4] at this
  cases this

theorem series_small {n : ℕ} {l : List (Circ A)} (hne : l ≠ []) (h : ∀ c ∈ l, Gd c ∧ c.cdim = n) : (opsOf l = [] → Ser l (cid n)) ∧ (∀ x, opsOf l = [x] → Ser l x) := by
  have ha := assoc_series_gd h
  have hane : Engine.assoc flatSeries l ≠ [] := by
    cases l with
    | nil => exact absurd rfl hne
    | cons c l =>
      intro e
      rw [Engine.assoc, List.flatMap_cons, List.append_eq_nil_iff] at e
      have h1 := (h c (by simp)).1
      have e1 := e.1
      cases h1 with
      | series m k g1 _ _ _ =>
        have e1 : m = [] := e1
        rw [e1] at g1
        simp at g1
      | _ => cases e1
  generalize hL : Engine.assoc flatSeries l = L at *
  cases L with
  | nil => exact absurd rfl hane
  | cons o L =>
    have hS : ∀ f, seriesCreate (opsAt (A := A) true f) f l = (match (match opsOf l with
        | [] => Engine.Outcome.single o
        | [x] => .single x
        | l => .operands l) with
      | .single c => .ok c
      | .operands l =>
        if l.all (fun c => c.cdim == headCdim l) then
          match Engine.matchReplaceBinary (seriesRule (opsAt true f)) .id1 isId1 flatSeries f l with
          | .error e => .error e
          | .ok (.single c) => .ok c
          | .ok (.operands l') => .ok (.series l')
        else .error .valueError) := by
      intro f
      unfold seriesCreate Engine.filterNeutral
      rw [hL, opsOf, hL]
      dsimp only
      generalize List.filter (fun x => !isCid x) (o :: L) = F
      match F with
      | [] => rfl
      | [_] => rfl
      | _ :: _ :: _ => rfl
    constructor
    · intro h0
      have ho : o = cid n := by
        have h1 : isCid o = true := by
          by_contra hc
          have : o ∈ opsOf l := by
            rw [opsOf, hL]
            exact List.mem_filter.mpr ⟨by simp, by simpa using hc⟩
          rw [h0] at this
          cases this
        rw [isCid_iff.mp h1, (ha o (by simp)).2.2]
      refine Ser.mk (f := 0) ?_
      rw [hS, h0]
      dsimp only
      rw [ho]
    · intro x h0
      refine Ser.mk (f := 0) ?_
      rw [hS, h0]

theorem series_finish {n : ℕ} {l m : List (Circ A)} {f : ℕ} (h : ∀ c ∈ l, Gd c ∧ c.cdim = n) (h2 : 2 ≤ (opsOf l).length)
    (e : Engine.reduce (SR A f) isId1 flatSeries f (opsOf l) = .ok m) (hm : ∀ z ∈ m, PS n z) (hc : m.IsChain (NoRule (SR A))) (h0 : m = [] → n = 1) :
    ∃ r, Ser l r ∧ Gd r ∧ r.cdim = n ∧ deep r = deepList m ∧ ((m = [] ∧ r = .id1) ∨ m = [r] ∨ (r = .series m ∧ 2 ≤ m.length)) := by
  have hmem := opsOf_mem h
  have key : ∀ r, seriesCreate (opsAt true f) f l = .ok r → Ser l r := fun r h => Ser.mk h
  have hcr : seriesCreate (opsAt (A := A) true f) f l = (match Engine.matchReplaceBinary (SR A f) .id1 isId1 flatSeries f (opsOf l) with
        | .error e => .error e
        | .ok (.single c) => .ok c
        | .ok (.operands l) => .ok (.series l)) := by
    unfold seriesCreate Engine.filterNeutral
    have hall : (opsOf l).all (fun c => c.cdim == headCdim (opsOf l)) = true := by
      rw [List.all_eq_true]
      intro c hc
      have h1 : headCdim (opsOf l) = n := by
        generalize opsOf l = F at hmem h2
        cases F with
        | nil => simp at h2
        | cons x F => exact (hmem x (by simp)).1.2.2.1
      rw [h1, (hmem c hc).1.2.2.1]
      simp
    generalize hL : Engine.assoc flatSeries l = L
    cases L with
    | nil =>
      exfalso
      rw [opsOf, hL] at h2
      simp at h2
    | cons o L =>
      have : opsOf l = (o :: L).filter fun x => !isCid x := by rw [opsOf, hL]
      rw [← this]
      generalize opsOf l = F at h2 hall
      match F, h2 with
      | x :: y :: F, _ =>
        dsimp only
        rw [if_pos hall]
        rfl
  unfold Engine.matchReplaceBinary at hcr
  rw [e] at hcr
  match m with
  | [] => exact ⟨.id1, key _ hcr, .id1, (h0 rfl).symm, rfl, .inl ⟨rfl, rfl⟩⟩
  | [z] => exact ⟨z, key z hcr, (hm z (by simp)).1, (hm z (by simp)).2.2.1, by simp [deepList], .inr (.inl rfl)⟩
  | z :: w :: m =>
    exact ⟨_, key _ hcr, .series _ n (by simp) (fun c hc => (hm c hc).1) (fun c hc => (hm c hc).2) hc, (hm z (by simp)).2.2.1, rfl, .inr (.inr ⟨rfl, by simp⟩)⟩

/-! ### a series product with a permutation on the right -/

section
variable {α : Type}

theorem reduce_pair_none {rule : α → α → Res (Option α)} {neutral : α → Bool} {flat : α → Option (List α)} {x y : α} (h : rule x y = .ok none) :
    Engine.reduce rule neutral flat 2 [x, y] = .ok [x, y] := by
  simp [Engine.reduce, Engine.combine, h]

theorem reduce_pair_some {rule : α → α → Res (Option α)} {neutral : α → Bool} {flat : α → Option (List α)} {x y r : α} (h : rule x y = .ok (some r)) (hn : neutral r = false)
    (hf : flat r = none) : Engine.reduce rule neutral flat 3 [x, y] = .ok [r] := by
  simp [Engine.reduce, Engine.combine, h, hn, hf]
end

theorem SR_perm_right {l : Circ A} {q : List ℕ} (hl : Gd l) (hq : Reachable (.perm q)) (hp : ∀ p, l ≠ .perm p) (f : ℕ) : SR A f l (.perm q) = .ok none := by
  have hi : seriesInverseRules l (.perm q) = none := by
    cases h : seriesInverseRules l (.perm q) with
    | none => rfl
    | some r =>
      have := (seriesInverseRules_gd hl (.perm q hq) h).2.2
      simp [deep] at this
  unfold SR seriesRule
  cases hl with
  | perm p _ => exact absurd rfl (hp p)
  | _ => exact congrArg Except.ok hi

theorem opsOf_pair {a b : Circ A} (ha : flatSeries a = none) (hb : flatSeries b = none) : opsOf [a, b] = [a, b].filter fun x => !isCid x := by
  rw [opsOf, Engine.assoc, List.flatMap_cons, List.flatMap_cons, ha, hb]
  rfl

theorem perm_not_cid {q : List ℕ} : isCid (.perm q : Circ A) = false := by
  cases h : isCid (.perm q : Circ A) with
  | false => rfl
  | true => exact absurd (isCid_iff.mp h).symm (cid_ne_perm _ _)

theorem cid_noSeries' {n : ℕ} : flatSeries (cid n : Circ A) = none := noSeries_cid n

/-- the series product of a circuit with a permutation or an identity -/
theorem series_two {l r : Circ A} {n : ℕ} (hl : Gd l) (hs : flatSeries l = none) (dl : l.cdim = n) (hr : Zero r) (dr : r.cdim = n) :
    ∃ c, Ser [l, r] c ∧ Gd c ∧ c.cdim = n ∧ deep c = deep l ∧ (flatSeries c = none ∨ ∃ q, c = .series [l, .perm q] ∧ ¬ Zero l) := by
  have hg : ∀ c ∈ [l, r], Gd c ∧ c.cdim = n := by
    intro c hc
    simp only [List.mem_cons, List.not_mem_nil, or_false] at hc
    rcases hc with rfl | rfl
    · exact ⟨hl, dl⟩
    · exact ⟨hr.gd, dr⟩
  obtain ⟨s1, s2⟩ := series_small (by simp) hg
  have hF := opsOf_pair hs hr.noSeries
  cases cl : isCid l with
  | true =>
    have e : l = cid n := by rw [← dl]; exact isCid_iff.mp cl
    cases cr : isCid r with
    | true =>
      rw [List.filter_cons, List.filter_cons, cl, cr] at hF
      exact ⟨cid n, s1 hF, cid_gd (by rw [← dl]; exact hl.pos), cid_cdim n, by rw [deep_cid, e, deep_cid], .inl cid_noSeries'⟩
    | false =>
      rw [List.filter_cons, List.filter_cons, cl, cr] at hF
      exact ⟨r, s2 r hF, hr.gd, dr, by rw [hr.deep, e, deep_cid], .inl hr.noSeries⟩
  | false =>
    cases cr : isCid r with
    | true =>
      rw [List.filter_cons, List.filter_cons, cl, cr] at hF
      exact ⟨l, s2 l hF, hl, dl, rfl, .inl hs⟩
    | false =>
      rw [List.filter_cons, List.filter_cons, cl, cr] at hF
      replace hF : opsOf [l, r] = [l, r] := hF
      obtain ⟨pc, hpc, hpos, rfl⟩ := hr
      cases pc with
      | cid k => rw [show (ofPC (.cid k) : Circ A) = cid k from rfl, isCid_cid] at cr; cases cr
      | perm q =>
        replace dr : q.length = n := dr
        have h2 := perm_length_pos hpc
        by_cases hp : ∃ p, l = .perm p
        · obtain ⟨p, rfl⟩ := hp
          replace dl : p.length = n := dl
          cases hl with
          | perm _ hp =>
            obtain ⟨c, e1, e2, e3⟩ := swp_ok (reachable_perm.mp hp).1 (reachable_perm.mp hpc).1 (by rw [dl, dr])
            have hcd : (ofPC c : Circ A).cdim = n := by rw [ofPC_cdim, e2.cdim, e3, comp_length, dr]
            have hz : Zero (ofPC c : Circ A) := ⟨c, e2, by rw [← ofPC_cdim (A := A), hcd]; omega, rfl⟩
            have hid : isId1 (ofPC c : Circ A) = false := by
              cases h : isId1 (ofPC c : Circ A) with
              | false => rfl
              | true =>
                rw [isId1_eq h] at hcd
                simp only [Circ.cdim] at hcd
                omega
            have er : Engine.reduce (SR A 3) isId1 flatSeries 3 (opsOf [.perm p, ofPC (.perm q)]) = .ok [ofPC c] := by
              rw [hF]
              refine reduce_pair_some ?_ hid hz.noSeries
              show seriesRule _ (.perm p) (.perm q) = _
              simp only [seriesRule, e1]
              rfl
            obtain ⟨r, h1, h2, h3, h4, h5⟩ := series_finish hg (by rw [hF]; simp) er (fun z hz' => by
              rw [List.mem_singleton.mp hz']
              refine ⟨hz.gd, hz.noSeries, hcd, fun h => ?_⟩
              rw [h] at hid
              cases hid) (.singleton _) (by simp)
            rcases h5 with ⟨h5, -⟩ | h5 | ⟨-, h5⟩
            · cases h5
            · injection h5 with h5
              subst h5
              exact ⟨_, h1, h2, h3, by rw [hz.deep]; rfl, .inl hz.noSeries⟩
            · simp at h5
        · push Not at hp
          have er : Engine.reduce (SR A 2) isId1 flatSeries 2 (opsOf [l, ofPC (.perm q)]) = .ok [l, .perm q] := by
            rw [hF]
            exact reduce_pair_none (SR_perm_right hl hpc hp 2)
          obtain ⟨r, h1, h2, h3, h4, h5⟩ := series_finish hg (by rw [hF]; simp) er (fun z hz' => by
            simp only [List.mem_cons, List.not_mem_nil, or_false] at hz'
            rcases hz' with rfl | rfl
            · refine ⟨hl, hs, dl, ?_⟩
              rintro rfl
              simp only [Circ.cdim] at dl
              omega
            · exact ⟨.perm q hpc, rfl, dr, by simp⟩) (.cons_cons ⟨0, SR_perm_right hl hpc hp 0⟩ (.singleton _)) (by simp)
          rcases h5 with ⟨h5, -⟩ | h5 | ⟨h5, -⟩
          · cases h5
          · simp at h5
          · refine ⟨r, h1, h2, h3, by rw [h4]; simp [deepList, deep], .inr ⟨q, h5, ?_⟩⟩
            rintro ⟨pc, -, -, e⟩
            cases pc with
            | perm p => exact hp p e
            | cid k => rw [e, show (ofPC (.cid k) : Circ A) = cid k from rfl, isCid_cid] at cl; cases cl

/-! ### the operands before a trailing permutation -/

/-- every rule that applies to the operands removes a component -/
def PairDrop (x y : Circ A) : Prop := ∀ f s, SR A f x y = .ok (some s) → deepList (rest isId1 flatSeries s) < deep x + deep y

theorem noRule_pairDrop {x y : Circ A} (h : NoRule (SR A) x y) : PairDrop x y := by
  obtain ⟨f, h⟩ := h
  intro f' s h'
  have h1 := SR_mono f (max f f') (by omega) x y _ h
  have h2 := SR_mono f' (max f f') (by omega) x y _ h'
  rw [h1] at h2
  injection h2 with h2
  cases h2

theorem tensor_none {x y : Circ A} {n : ℕ} (hx : blockStructure x = .ok [n]) (hy : blockStructure y = .ok [n]) (R : Ops A) : tensorDecompose R x y = .ok none := by
  unfold tensorDecompose
  split
  · rfl
  · rw [hx]
    change (blockStructure y >>= _) = _
    rw [hy]
    have : commonStructure ([n].length + [n].length + 1) [n] [n] = .ok [n] := by simp [commonStructure, commonLoop, bind, Except.bind]
    change (commonStructure _ _ _ >>= _) = _
    rw [this]
    rfl

theorem single_left {x : Circ A} {n : ℕ} (hx : Gd x) (dx : x.cdim = n) (h : NoRule (SR A) x (cid n)) : blockStructure x = .ok [n] := by
  obtain ⟨st, e, hp, hs, hne, -⟩ := blocks_gd hx
  rw [dx] at hs
  have hn : 0 < n := by rw [← dx]; exact hx.pos
  have := noRule_tensor h (cid_ne_perm n) e (blockStructure_cid hn) (st := st) (by
    have := commonStructure_ones st (st.length + (List.replicate n 1).length + 1) (by omega) hp
    rwa [hs] at this)
  match st, this, hne with
  | [a], _, _ =>
    simp only [List.sum_cons, List.sum_nil, Nat.add_zero] at hs
    rw [hs] at e
    exact e
  | _ :: _ :: _, h, _ => simp at h

theorem single_right {x : Circ A} {n : ℕ} (hx : Gd x) (dx : x.cdim = n) (hp' : ∀ q, x ≠ .perm q) (h : NoRule (SR A) (cid n) x) : blockStructure x = .ok [n] := by
  obtain ⟨st, e, hp, hs, hne, -⟩ := blocks_gd hx
  rw [dx] at hs
  have hn : 0 < n := by rw [← dx]; exact hx.pos
  have := noRule_tensor h hp' (blockStructure_cid hn) e (st := st) (by
    have := commonStructure_ones' st ((List.replicate n 1).length + st.length + 1) (by omega) hp
    rwa [hs] at this)
  match st, this, hne with
  | [a], _, _ =>
    simp only [List.sum_cons, List.sum_nil, Nat.add_zero] at hs
    rw [hs] at e
    exact e
  | _ :: _ :: _, h, _ => simp at h

theorem gap_pairDrop {x y : Circ A} {n : ℕ} (hx : Gd x) (hy : Gd y) (dx : x.cdim = n) (dy : y.cdim = n) (h1 : NoRule (SR A) x (cid n)) (h2 : NoRule (SR A) (cid n) y) : PairDrop x y := by
  have bx := single_left hx dx h1
  have nx : ∀ p, x ≠ .perm p := by
    rintro p rfl
    exact noRule_perm_cid h1
  intro f s h
  rcases SR_some h with ⟨p, q, c, rfl, -⟩ | ⟨s', t, rfl, rfl, -, rfl⟩ | h | ⟨p, rfl, -⟩ | h
  · exact absurd rfl (nx p)
  · simp [rest, isId1, flatSeries, deepList, deep]
  · exfalso
    have : tensorDecompose (opsAt true f) x y = .ok none := by
      by_cases hp : ∃ q, y = .perm q
      · obtain ⟨q, rfl⟩ := hp
        rfl
      · push Not at hp
        exact tensor_none bx (single_right hy dy hp h2) _
    rw [this] at h
    injection h with h
    cases h
  · exact absurd rfl (nx p)
  · obtain ⟨rfl, h3, h4⟩ := seriesInverseRules_gd hx hy h
    have : deepList (rest isId1 flatSeries (cid x.cdim : Circ A)) = 0 := by
      unfold rest
      split
      · rfl
      · rw [cid_noSeries', Option.getD_none, deepList, deep_cid]
        rfl
    omega

theorem filter_chain {α : Type} {R : α → α → Prop} {P : α → Bool} (hR : ∀ c c', P c = false → P c' = false → ¬ R c c') : ∀ l : List α, l.IsChain R →
    (l.filter P).IsChain (fun x y => R x y ∨ ∃ c, c ∈ l ∧ P c = false ∧ R x c ∧ R c y)
  | [], _ => .nil
  | [x], _ => by
    rw [List.filter_cons]
    split
    · exact .singleton _
    · exact .nil
  | x :: y :: l, h => by
    rw [List.isChain_cons_cons] at h
    have mono : ∀ (a : α) (l m : List α), m.IsChain (fun x y => R x y ∨ ∃ c, c ∈ l ∧ P c = false ∧ R x c ∧ R c y) →
        m.IsChain (fun x y => R x y ∨ ∃ c, c ∈ a :: l ∧ P c = false ∧ R x c ∧ R c y) := fun a l m h =>
      h.imp fun u v huv => by
        rcases huv with huv | ⟨c, hc, h1⟩
        · exact .inl huv
        · exact .inr ⟨c, by simp [hc], h1⟩
    have ih := mono x _ _ (filter_chain hR (y :: l) h.2)
    rw [List.filter_cons]
    split
    · next hx =>
      cases hy : P y with
      | true =>
        rw [List.filter_cons, if_pos hy] at ih ⊢
        exact .cons_cons (.inl h.1) ih
      | false =>
        rw [List.filter_cons, if_neg (by simp [hy])] at ih ⊢
        match l, h with
        | [], _ => exact .singleton _
        | z :: l, h =>
          have h3 := h.2
          rw [List.isChain_cons_cons] at h3
          cases hz : P z with
          | false => exact absurd h3.1 (hR y z hy hz)
          | true =>
            rw [List.filter_cons, if_pos hz] at ih ⊢
            exact .cons_cons (.inr ⟨y, by simp, hy, h.1, h3.1⟩) ih
    · exact ih

/-- the operands before a trailing permutation: rules can only remove components, and the last operand is no permutation -/
theorem prefix_drop {as : List (Circ A)} {p : List ℕ} (h : Gd (.series (as ++ [.perm p]))) :
    (as.filter fun x => !isCid x).IsChain PairDrop ∧ splitPerm (.series (as.filter fun x => !isCid x) : Circ A) = none ∧ opsOf as = as.filter fun x => !isCid x := by
  generalize hl : as ++ [.perm p] = l at h
  cases h with
  | series l n h1 h2 h3 h4 =>
    subst hl
    have ha : ∀ z ∈ as, Gd z ∧ flatSeries z = none ∧ z.cdim = n ∧ z ≠ .id1 := fun z hz => ⟨h2 z (by simp [hz]), h3 z (by simp [hz])⟩
    have hcid : ∀ z ∈ as, (!isCid z) = false → z = cid n ∧ 2 ≤ n := by
      intro z hz h
      have h5 : z = cid n := by
        rw [← (ha z hz).2.2.1]
        exact isCid_iff.mp (by simpa using h)
      refine ⟨h5, ?_⟩
      have h6 := (ha z hz).1.pos
      rw [(ha z hz).2.2.1] at h6
      by_contra hc
      have : n = 1 := by omega
      subst this
      exact (ha z hz).2.2.2 h5
    have hchain : as.IsChain (NoRule (SR A)) := h4.left_of_append
    -- restrict the relation to members
    have hchain' : as.IsChain (fun x y => x ∈ as ∧ y ∈ as ∧ NoRule (SR A) x y) := by
      have : ∀ l : List (Circ A), l.IsChain (NoRule (SR A)) → l.IsChain (fun x y => x ∈ l ∧ y ∈ l ∧ NoRule (SR A) x y) := by
        intro l
        induction l with
        | nil => exact fun _ => .nil
        | cons x l ih =>
          intro h
          cases l with
          | nil => exact .singleton _
          | cons y l =>
            rw [List.isChain_cons_cons] at h
            exact .cons_cons ⟨by simp, by simp, h.1⟩ ((ih h.2).imp fun u v huv => ⟨by simp [huv.1], by simp [huv.2.1], huv.2.2⟩)
      exact this as hchain
    refine ⟨?_, ?_, ?_⟩
    · have := filter_chain (P := fun x => !isCid x) (fun c c' hc hc' hr => by
        obtain ⟨e1, hn⟩ := hcid c hr.1 hc
        obtain ⟨e2, -⟩ := hcid c' hr.2.1 hc'
        have := hr.2.2
        rw [e1, e2] at this
        exact noRule_cid_cid hn this) as hchain'
      refine this.imp ?_
      rintro x y (⟨-, -, hr⟩ | ⟨c, hc, hP, ⟨hx, -, hr1⟩, ⟨-, hy, hr2⟩⟩)
      · exact noRule_pairDrop hr
      · obtain ⟨rfl, -⟩ := hcid c hc hP
        exact gap_pairDrop (ha x hx).1 (ha y hy).1 (ha x hx).2.2.1 (ha y hy).2.2.1 hr1 hr2
    · cases hs : splitPerm (.series (as.filter fun x => !isCid x) : Circ A) with
      | none => rfl
      | some ap =>
        exfalso
        obtain ⟨e, -⟩ := splitPerm_some hs
        injection e with e
        rcases List.eq_nil_or_concat as with rfl | ⟨as', z, rfl⟩
        · simp at e
        · rw [List.concat_eq_append] at *
          have hz : NoRule (SR A) z (.perm p) := by
            rw [List.isChain_append] at h4
            exact h4.2.2 z (by simp) _ (by simp)
          cases hc : isCid z with
          | false =>
            rw [List.filter_append, List.filter_cons, hc] at e
            have := List.append_inj_right' e (by simp)
            simp only [Bool.not_false, if_true, List.filter_nil, List.cons.injEq, and_true] at this
            subst this
            obtain ⟨f, h, -⟩ := noRule_SR hz
            exact h _ _ ⟨rfl, rfl⟩
          | true =>
            rw [List.filter_append, List.filter_cons, hc] at e
            simp only [Bool.not_true, Bool.false_eq_true, if_false, List.filter_nil, List.append_nil] at e
            obtain ⟨e1, hn⟩ := hcid z (by simp) (by simp [hc])
            rcases List.eq_nil_or_concat as' with rfl | ⟨as2, w, rfl⟩
            · simp at e
            · rw [List.concat_eq_append] at *
              have hw : NoRule (SR A) w z := by
                rw [List.isChain_append] at hchain
                exact hchain.2.2 w (by simp) _ (by simp)
              cases hc' : isCid w with
              | true =>
                obtain ⟨e2, -⟩ := hcid w (by simp) (by simp [hc'])
                rw [e1, e2] at hw
                exact noRule_cid_cid hn hw
              | false =>
                rw [List.filter_append, List.filter_cons, hc'] at e
                have := List.append_inj_right' e (by simp)
                simp only [Bool.not_false, if_true, List.filter_nil, List.cons.injEq, and_true] at this
                subst this
                rw [e1] at hw
                exact noRule_perm_cid hw
    · rw [opsOf]
      congr 1
      clear * - ha
      induction as with
      | nil => rfl
      | cons a as ih =>
        rw [Engine.assoc, List.flatMap_cons, (ha a (by simp)).2.1]
        exact congrArg (a :: ·) (ih fun z hz => ha z (by simp [hz]))

end QNET.Circuit
