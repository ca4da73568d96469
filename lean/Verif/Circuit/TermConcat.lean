import Verif.Circuit.TermGood

/-!
# Concatenations of simplified circuits (tools for C78)
-/

namespace QNET.Circuit

open QNET.Perm QNET.CPerm CircAlg

variable {A : Type} [Ring A] [StarRing A] [Algebra ℂ A]

/-! ### the order on lists of operands of concatenations -/

/-- total weight -/
def wl (w : Circ A → ℕ) (l : List (Circ A)) : ℕ := (l.map w).sum

theorem wl_append (w : Circ A → ℕ) (l m : List (Circ A)) : wl w (l ++ m) = wl w l + wl w m := by simp [wl]

/-- `m` may replace `l` -/
def leC (D : Prop) (Q : Circ A → Prop) (w : Circ A → ℕ) (m l : List (Circ A)) : Prop :=
  sumCdim m = sumCdim l ∧ deepList m ≤ deepList l ∧ wl w m ≤ wl w l ∧ (m = [] ↔ l = []) ∧ ((D ∧ deepList m < deepList l) ∨ m = l ∨ ∀ z, m = [z] → Q z)

/-- `m` may replace `l` and is smaller -/
def ltC (D : Prop) (Q : Circ A → Prop) (w : Circ A → ℕ) (m l : List (Circ A)) : Prop := leC D Q w m l ∧ wl w m < wl w l

theorem leC_trans {D : Prop} {Q : Circ A → Prop} {w : Circ A → ℕ} {k l m : List (Circ A)} (h : leC D Q w k l) (h' : leC D Q w l m) : leC D Q w k m := by
  obtain ⟨a1, a2, a3, a4, a5⟩ := h
  obtain ⟨b1, b2, b3, b4, b5⟩ := h'
  refine ⟨a1.trans b1, a2.trans b2, a3.trans b3, a4.trans b4, ?_⟩
  rcases a5 with ⟨hD, h1⟩ | rfl | h1
  · exact .inl ⟨hD, by omega⟩
  · exact b5
  · exact .inr (.inr h1)

theorem leC_ctx {D : Prop} {Q : Circ A → Prop} {w : Circ A → ℕ} {l m : List (Circ A)} (a b : List (Circ A)) (h : leC D Q w l m) : leC D Q w (a ++ l ++ b) (a ++ m ++ b) := by
  obtain ⟨a1, a2, a3, a4, a5⟩ := h
  refine ⟨by simp only [sumCdim_append, a1], by simp only [deepList_append]; omega, by simp only [wl_append]; omega, by simp only [List.append_eq_nil_iff, a4], ?_⟩
  rcases a5 with ⟨hD, h1⟩ | rfl | h1
  · exact .inl ⟨hD, by simp only [deepList_append]; omega⟩
  · exact .inr (.inl rfl)
  · by_cases hl : l = []
    · rw [hl, a4.mp hl]
      exact .inr (.inl rfl)
    · refine .inr (.inr fun z hz => h1 z ?_)
      have hlen := congrArg List.length hz
      have := List.length_pos_iff.mpr hl
      simp only [List.length_append, List.length_cons, List.length_nil] at hlen
      have ha : a = [] := List.length_eq_zero_iff.mp (by omega)
      have hb : b = [] := List.length_eq_zero_iff.mp (by omega)
      subst ha hb
      simpa using hz

theorem decrC {D : Prop} {Q : Circ A → Prop} {w : Circ A → ℕ} {P : Circ A → Prop} {n d : ℕ}
    (conv : ∀ x y, P x → P y → sumCdim [x, y] ≤ n → deepList [x, y] ≤ d → ∃ f o, CR A f x y = .ok o ∧
      ∀ r, o = some r → (∀ z ∈ rest isZero flatConcat r, P z) ∧ (rest isZero flatConcat r).IsChain (NoRule (CR A)) ∧ ltC D Q w (rest isZero flatConcat r) [x, y]) :
    Decr (CR A) isZero flatConcat P (leC D Q w) (ltC D Q w) (fun l => sumCdim l ≤ n ∧ deepList l ≤ d) (wl w) where
  mono := CR_mono
  conv x y hx hy hb := conv x y hx hy hb.1 hb.2
  le_refl l := ⟨rfl, le_rfl, le_rfl, Iff.rfl, .inr (.inl rfl)⟩
  le_trans := leC_trans
  lt_le h := h.1
  ctx := leC_ctx
  key_ctx a b h := by simp only [wl_append]; have := h.2; omega
  key_le h := h.2.2.1
  key_sub a b := by rw [wl_append]; omega
  bd_le h hb := ⟨by rw [h.1]; exact hb.1, h.2.1.trans hb.2⟩
  bd_left hb := by simp only [sumCdim_append, deepList_append] at hb; constructor <;> omega
  bd_right hb := by simp only [sumCdim_append, deepList_append] at hb; constructor <;> omega

/-! ### from the reduced operands to the concatenation -/

theorem Gd.notZero {c : Circ A} (h : Gd c) : isZero c = false := by cases h <;> rfl

theorem assoc_gd {l : List (Circ A)} (h : ∀ c ∈ l, Gd c) : ∀ z ∈ Engine.assoc flatConcat l, Gd z ∧ flatConcat z = none := by
  intro z hz
  rw [Engine.assoc, List.mem_flatMap] at hz
  obtain ⟨c, hc, hz⟩ := hz
  have := h c hc
  cases this with
  | concat m _ h1 h2 _ => exact ⟨h1 z hz, h2 z hz⟩
  | _ =>
    replace hz := List.mem_singleton.mp hz
    subst hz
    exact ⟨h _ hc, rfl⟩

theorem assoc_split {l : List (Circ A)} (h : ∀ c ∈ l, Gd c) (hs : ∀ c ∈ l, splitPerm c = none) : ∀ z ∈ Engine.assoc flatConcat l, splitPerm z = none := by
  intro z hz
  rw [Engine.assoc, List.mem_flatMap] at hz
  obtain ⟨c, hc, hz⟩ := hz
  cases hf : flatConcat c with
  | none =>
    rw [hf] at hz
    rw [List.mem_singleton.mp hz]
    exact hs c hc
  | some m =>
    rw [hf] at hz
    have e := flatConcat_eq hf
    have := h c hc
    rw [e] at this
    exact this.concat_split z hz

theorem assoc_deep : ∀ l : List (Circ A), deepList (Engine.assoc flatConcat l) = deepList l
  | [] => rfl
  | c :: l => by
    rw [Engine.assoc, List.flatMap_cons, deepList_append, deep_flatConcat, deepList, ← assoc_deep l]
    rfl

theorem assoc_len {l : List (Circ A)} (h : ∀ c ∈ l, Gd c) : l.length ≤ (Engine.assoc flatConcat l).length := by
  induction l with
  | nil => simp
  | cons c l ih =>
    have h1 := ih fun d hd => h d (by simp [hd])
    have h2 : 1 ≤ ((flatConcat c).getD [c]).length := by
      cases h c (by simp) with
      | concat m hm _ _ _ => show 1 ≤ m.length; omega
      | _ => exact le_rfl
    rw [Engine.assoc] at h1 ⊢
    simp only [List.flatMap_cons, List.length_append, List.length_cons]
    omega

theorem concat_finish {l m : List (Circ A)} {f : ℕ} (hne : l ≠ []) (hg : ∀ c ∈ l, Gd c)
    (e : Engine.reduce (CR A f) isZero flatConcat f (Engine.assoc flatConcat l) = .ok m) (hm : ∀ z ∈ m, Gd z ∧ flatConcat z = none) (hc : m.IsChain (NoRule (CR A))) (hmn : m ≠ []) :
    ∃ r, Con l r ∧ Gd r ∧ r.cdim = sumCdim m ∧ deep r = deepList m ∧ (m = [r] ∨ (r = .concat m ∧ 2 ≤ m.length)) := by
  have hz := assoc_gd hg
  have hlen := assoc_len hg
  have hF : (Engine.assoc flatConcat l).filter (fun x => !isZero x) = Engine.assoc flatConcat l :=
    List.filter_eq_self.mpr fun z hz' => by rw [(hz z hz').1.notZero]; rfl
  have key : ∀ r, concatCreate (opsAt true f) f l = .ok r → Con l r := fun r h => Con.mk h
  generalize hL : Engine.assoc flatConcat l = L at *
  match L with
  | [] =>
    have := List.length_pos_iff.mpr hne
    simp only [List.length_nil] at hlen
    omega
  | [x] =>
    have e1 : m = [x] := by
      cases f with
      | zero => simp [Engine.reduce] at e
      | succ f => simpa [Engine.reduce] using e.symm
    subst e1
    refine ⟨x, key x ?_, (hm x (by simp)).1, by simp [sumCdim], by simp [deepList], .inl rfl⟩
    unfold concatCreate Engine.createAssoc Engine.filterNeutral
    rw [hL]
    dsimp only
    rw [hF]
  | x :: y :: L =>
    have hcr : concatCreate (opsAt true f) f l = (match Engine.matchReplaceBinary (CR A f) .zero isZero flatConcat f (x :: y :: L) with
        | .error e => .error e
        | .ok (.single c) => .ok c
        | .ok (.operands l) => .ok (.concat l)) := by
      unfold concatCreate Engine.createAssoc Engine.filterNeutral
      rw [hL]
      dsimp only
      rw [hF]
      rfl
    unfold Engine.matchReplaceBinary at hcr
    rw [e] at hcr
    match m with
    | [] => exact absurd rfl hmn
    | [z] => exact ⟨z, key z hcr, (hm z (by simp)).1, by simp [sumCdim], by simp [deepList], .inl rfl⟩
    | z :: w :: m =>
      exact ⟨_, key _ hcr, .concat _ (by simp) (fun c hc => (hm c hc).1) (fun c hc => (hm c hc).2) hc, rfl, rfl, .inr ⟨rfl, by simp⟩⟩

/-! ### concatenations without trailing permutations -/

theorem concatenate_ne {p q : List ℕ} (h : p ≠ List.range p.length ∨ q ≠ List.range q.length) : concatenate p q ≠ List.range (concatenate p q).length := by
  intro e
  have hl : (concatenate p q).length = p.length + q.length := by simp [concatenate]
  rw [hl, List.range_add, concatenate, fromBlocks_cons] at e
  have := List.append_inj e (by simp)
  rcases h with h | h
  · exact h this.1
  · apply h
    have h2 := this.2
    rw [fromBlocks_cons] at h2
    simp only [fromBlocks, fromBlocksLoop, List.map_nil, List.append_nil] at h2
    apply List.ext_getElem (by simp)
    intro i h3 h4
    have := congrArg (fun l : List ℕ => l[i]?) h2
    simp only [List.getElem?_map, List.getElem?_eq_getElem h3, Option.map_some] at this
    rw [List.getElem?_range (by simpa using h4)] at this
    simp only [Option.map_some, Option.some.injEq] at this
    rw [List.getElem_range]
    omega

theorem concatenate_create {p q : List ℕ} (hp : Valid p) (hq : Valid q) (h : p ≠ List.range p.length ∨ q ≠ List.range q.length) :
    create (concatenate p q) = .ok (.perm (concatenate p q)) ∧ Reachable (.perm (concatenate p q)) ∧ (concatenate p q).length = p.length + q.length := by
  have hv : Valid (concatenate p q) := fromBlocks_valid (by simp [hp, hq])
  have hne := concatenate_ne h
  exact ⟨by rw [create_ok hv, if_neg hne], reachable_perm.mpr ⟨hv, hne⟩, by simp [concatenate]⟩

/-- what is known about an operand -/
def Plain0 (z : Circ A) : Prop := Gd z ∧ flatConcat z = none ∧ splitPerm z = none

/-- the rules on operands without trailing permutations -/
theorem CR_plain {x y : Circ A} (hx : Plain0 x) (hy : Plain0 y) : ∃ o, (∀ f, CR A f x y = .ok o) ∧ ∀ r, o = some r →
    Gd r ∧ flatConcat r = none ∧ flatSeries r = none ∧ r.cdim = x.cdim + y.cdim ∧ deep r ≤ deep x + deep y := by
  obtain ⟨gx, fx, sx⟩ := hx
  obtain ⟨gy, fy, sy⟩ := hy
  have none_case : (∀ f, CR A f x y = concatRule2 (opsAt true f) x y) → ∃ o, (∀ f, CR A f x y = .ok o) ∧ ∀ r, o = some r →
      Gd r ∧ flatConcat r = none ∧ flatSeries r = none ∧ r.cdim = x.cdim + y.cdim ∧ deep r ≤ deep x + deep y := by
    intro h
    refine ⟨none, fun f => ?_, fun r hr => nomatch hr⟩
    rw [h f]
    unfold concatRule2
    rw [sx, sy]
  have perm_case : ∀ {p q : List ℕ}, Valid p → Valid q → (p ≠ List.range p.length ∨ q ≠ List.range q.length) → x.cdim = p.length → y.cdim = q.length →
      (∀ f, CR A f x y = (do let c ← create (concatenate p q); .ok (some (ofPC c)))) → ∃ o, (∀ f, CR A f x y = .ok o) ∧ ∀ r, o = some r →
      Gd r ∧ flatConcat r = none ∧ flatSeries r = none ∧ r.cdim = x.cdim + y.cdim ∧ deep r ≤ deep x + deep y := by
    intro p q hp hq hne dx dy h
    obtain ⟨e1, e2, e3⟩ := concatenate_create hp hq hne
    refine ⟨some (.perm (concatenate p q)), fun f => ?_, fun r hr => ?_⟩
    · rw [h f, e1]
      rfl
    · cases hr
      exact ⟨.perm _ e2, rfl, rfl, by rw [dx, dy]; exact e3, by simp [deep]⟩
  have v1 : Valid [0] := by show [0].Perm (List.range 1); exact List.Perm.refl _
  cases gx with
  | slh s hs =>
    cases gy with
    | slh t ht =>
      refine ⟨some (.slh (SLH.concat s t)), fun f => rfl, fun r hr => ?_⟩
      cases hr
      exact ⟨.slh _ (by show 0 < s.n + t.n; omega), rfl, rfl, rfl, by simp [deep]⟩
    | _ => exact none_case fun _ => rfl
  | perm p hp =>
    have hp' := reachable_perm.mp hp
    cases gy with
    | perm q hq => exact perm_case hp'.1 (reachable_perm.mp hq).1 (.inl hp'.2) rfl rfl fun _ => rfl
    | id1 => exact perm_case hp'.1 v1 (.inl hp'.2) rfl rfl fun _ => rfl
    | _ => exact none_case fun _ => rfl
  | id1 =>
    cases gy with
    | perm q hq =>
      have hq' := reachable_perm.mp hq
      exact perm_case v1 hq'.1 (.inr hq'.2) rfl rfl fun _ => rfl
    | _ => exact none_case fun _ => rfl
  | _ => cases gy <;> exact none_case fun _ => rfl

theorem rest_single {r : Circ A} (h1 : isZero r = false) (h2 : flatConcat r = none) : rest isZero flatConcat r = [r] := by
  simp [rest, h1, h2]

/-- a concatenation of circuits without trailing permutations -/
theorem concat_plain {l : List (Circ A)} (hne : l ≠ []) (hg : ∀ c ∈ l, Gd c) (hs : ∀ c ∈ l, splitPerm c = none) :
    ∃ r, Con l r ∧ Gd r ∧ r.cdim = sumCdim l ∧ deep r ≤ deepList l ∧ (2 ≤ l.length → flatSeries r = none) := by
  have hd : Decr (CR A) isZero flatConcat Plain0 (leC False (fun z => flatSeries z = none) (fun _ => 1)) (ltC False (fun z => flatSeries z = none) (fun _ => 1))
      (fun m => sumCdim m ≤ sumCdim l ∧ deepList m ≤ deepList l) (wl fun _ => 1) := by
    refine decrC fun x y hx hy _ _ => ?_
    obtain ⟨o, e, ho⟩ := CR_plain hx hy
    refine ⟨0, o, e 0, fun r hr => ?_⟩
    obtain ⟨h1, h2, h3, h4, h5⟩ := ho r hr
    rw [rest_single h1.notZero h2]
    have h6 : splitPerm r = none := by
      unfold splitPerm
      split
      · cases h3
      · rfl
    refine ⟨fun z hz => by rw [List.mem_singleton.mp hz]; exact ⟨h1, h2, h6⟩, .singleton _, ⟨?_, ?_, ?_, by simp, .inr (.inr fun z hz => ?_)⟩, ?_⟩
    · simp [sumCdim, h4]
    · simp [deepList]; omega
    · simp [wl]
    · cases hz; exact h3
    · simp [wl]
  have ha := assoc_gd hg
  have hb := assoc_split hg hs
  obtain ⟨f, m, e, res⟩ := decr_reduce hd _ (Engine.assoc flatConcat l) le_rfl (fun z hz => ⟨(ha z hz).1, (ha z hz).2, hb z hz⟩)
    ⟨(assoc_concat_sum l).le, (assoc_deep l).le⟩
  have hlen := assoc_len hg
  have hlne : Engine.assoc flatConcat l ≠ [] := fun h => by
    have := List.length_pos_iff.mpr hne
    rw [h] at hlen
    simp only [List.length_nil] at hlen
    omega
  obtain ⟨b1, b2, b3, b4, b5⟩ := res.below
  obtain ⟨r, h1, h2, h3, h4, h5⟩ := concat_finish hne hg e (fun z hz => ⟨(res.all z hz).1, (res.all z hz).2.1⟩) res.chain (fun h => hlne (b4.mp h))
  refine ⟨r, h1, h2, by rw [h3, b1, assoc_concat_sum], by rw [h4]; rw [assoc_deep] at b2; exact b2, fun h => ?_⟩
  rcases h5 with h5 | ⟨rfl, -⟩
  · rcases b5 with ⟨hf, -⟩ | h6 | h6
    · exact hf.elim
    · rw [← h6, h5] at hlen
      simp at hlen
      omega
    · exact h6 r h5
  · rfl

end QNET.Circuit
