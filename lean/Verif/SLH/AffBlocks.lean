import Verif.SLH.AffPerm
import Mathlib.Algebra.BigOperators.Group.List.Basic

/-! # Permuting whole blocks of a concatenation -/

namespace QNET.Aff

open Finset QNET.Perm QNET.CPerm

variable {A : Type*} [Ring A]

/-- concatenation of all blocks -/
def cat (l : List (Aff A)) : Aff A := l.foldr concat (one 0)

theorem cat_n (l : List (Aff A)) : (cat l).n = (l.map Aff.n).sum := by
  induction l with
  | nil => rfl
  | cons a l ih => simp only [cat, List.foldr_cons, List.map_cons, List.sum_cons] at *; rw [← ih]; rfl

theorem cat_K (l : List (Aff A)) : (cat l).K = (l.map Aff.K).sum := by
  induction l with
  | nil => rfl
  | cons a l ih => simp only [cat, List.foldr_cons, List.map_cons, List.sum_cons] at *; rw [← ih]; rfl

theorem cat_S (l : List (Aff A)) : ∀ (k k' j j' : ℕ) (hk : k < l.length) (hk' : k' < l.length), j < l[k].n → j' < l[k'].n →
    (cat l).S (offsetOf (l.map Aff.n) k + j) (offsetOf (l.map Aff.n) k' + j') = if k = k' then l[k].S j j' else 0 := by
  induction l with
  | nil => intro k k' j j' hk; simp at hk
  | cons a l ih =>
    intro k k' j j' hk hk' hj hj'
    change (concat a (cat l)).S _ _ = _
    cases k with
    | zero =>
      cases k' with
      | zero => 
        simp only [offsetOf, List.take_zero, List.sum_nil, Nat.zero_add, List.getElem_cons_zero, if_true] at *
        rw [concat_ll hj hj']
      | succ k' =>
        simp only [offsetOf, List.take_zero, List.sum_nil, Nat.zero_add, List.getElem_cons_zero, List.map_cons, List.take_succ_cons, List.sum_cons] at *
        rw [concat_lr hj (by omega), if_neg (by omega)]
    | succ k =>
      cases k' with
      | zero => 
        simp only [offsetOf, List.take_zero, List.sum_nil, Nat.zero_add, List.getElem_cons_zero, List.map_cons, List.take_succ_cons, List.sum_cons] at *
        rw [concat_rl (by omega) hj', if_neg (by omega)]
      | succ k' =>
        have := ih k k' j j' (by simpa using hk) (by simpa using hk') (by simpa using hj) (by simpa using hj')
        simp only [offsetOf, List.map_cons, List.take_succ_cons, List.sum_cons, List.getElem_cons_succ, Nat.add_right_cancel_iff] at *
        rw [concat_rr (by omega) (by omega), ← this]
        congr 1 <;> omega

theorem cat_L (l : List (Aff A)) : ∀ (k j : ℕ) (hk : k < l.length), j < l[k].n →
    (cat l).L (offsetOf (l.map Aff.n) k + j) = l[k].L j := by
  induction l with
  | nil => intro k j hk; simp at hk
  | cons a l ih =>
    intro k j hk hj
    change (concat a (cat l)).L _ = _
    cases k with
    | zero =>
      simp only [offsetOf, List.take_zero, List.sum_nil, Nat.zero_add, List.getElem_cons_zero] at *
      rw [concat_Ll hj]
    | succ k =>
      have := ih k j (by simpa using hk) (by simpa using hj)
      simp only [offsetOf, List.map_cons, List.take_succ_cons, List.sum_cons, List.getElem_cons_succ] at *
      rw [concat_Lr (by omega), ← this]
      congr 1; omega

theorem cat_R (l : List (Aff A)) : ∀ (k j : ℕ) (hk : k < l.length), j < l[k].n →
    (cat l).R (offsetOf (l.map Aff.n) k + j) = l[k].R j := by
  induction l with
  | nil => intro k j hk; simp at hk
  | cons a l ih =>
    intro k j hk hj
    change (concat a (cat l)).R _ = _
    cases k with
    | zero =>
      simp only [offsetOf, List.take_zero, List.sum_nil, Nat.zero_add, List.getElem_cons_zero] at *
      rw [concat_Rl hj]
    | succ k =>
      have := ih k j (by simpa using hk) (by simpa using hj)
      simp only [offsetOf, List.map_cons, List.take_succ_cons, List.sum_cons, List.getElem_cons_succ] at *
      rw [concat_Rr (by omega), ← this]
      congr 1; omega

theorem block_perm {bp : List Nat} {ts : List (Aff A)} (h : Valid bp) (hl : bp.length = ts.length) :
    series (perm (fbp bp (ts.map Aff.n))) (cat ts) =
      series (cat ((inv bp).map (fun k => ts.getD k (one 0)))) (perm (fbp bp (ts.map Aff.n))) := by
  set s := ts.map Aff.n with hs
  have hl' : bp.length = s.length := by rw [hs, List.length_map, hl]
  have hF := fbp_valid h hl'
  have hFl := fbp_length h hl'
  set us := (inv bp).map (fun k => ts.getD k (one 0)) with hus
  have husl : us.length = bp.length := by simp [hus]
  have hperm : us.Perm ts := by
    have h1 : us.Perm ((List.range bp.length).map (fun k => ts.getD k (one 0))) := by
      have := inv_valid h
      unfold Valid at this
      rw [inv_length] at this
      exact this.map _
    refine h1.trans (List.Perm.of_eq ?_)
    apply List.ext_getElem (by simp [hl])
    intro i h1 h2
    simp [List.getElem?_eq_getElem h2]
  have hslot : us.map Aff.n = slotSizes bp s := by
    simp only [hus, slotSizes, List.map_map, hs]
    apply List.map_congr_left
    intro k hk
    have hk' : k < ts.length := by
      have := (inv_valid h).mem_iff k |>.mp hk
      simp at this; omega
    simp [List.getElem?_eq_getElem hk']
  -- where a channel goes
  have hget : ∀ k (hk : k < bp.length), us[bp[k]]'(by rw [husl]; exact h.lt hk) = ts[k]'(by omega) := by
    intro k hk
    simp only [hus, List.getElem_map]
    rw [inv_getElem_getElem h hk]
    simp [List.getElem?_eq_getElem (show k < ts.length by omega)]
  have loc : ∀ c c', (fbp bp s)[c]? = some c' → ∃ k, ∃ hk : k < bp.length, ∃ j, j < (ts[k]'(by omega)).n ∧
      c = offsetOf s k + j ∧ c' = offsetOf (us.map Aff.n) bp[k] + j := by
    intro c c' hc
    have hlt := (Valid.getElem?_lt hF hc).1
    rw [hFl] at hlt
    obtain ⟨k, hk, j, hj, rfl⟩ := exists_block s c hlt
    refine ⟨k, by omega, j, by simpa [hs] using hj, rfl, ?_⟩
    have := fbp_getElem? h hl' (k := k) (j := j) (by omega) hj
    rw [this] at hc
    injection hc with hc
    rw [hslot]; exact hc.symm
  apply perm_conj hF
  · rw [cat_n, hFl]
  · rw [cat_n, hFl, (hperm.map Aff.n).sum_eq]
  · intro c d c' d' hc hd
    obtain ⟨k, hk, j, hj, rfl, rfl⟩ := loc c c' hc
    obtain ⟨k', hk', j', hj', rfl, rfl⟩ := loc d d' hd
    have e := hget k hk
    have e' := hget k' hk'
    rw [cat_S us _ _ _ _ (by rw [husl]; exact h.lt hk) (by rw [husl]; exact h.lt hk') (by rw [e]; exact hj) (by rw [e']; exact hj'),
      cat_S ts _ _ _ _ (by omega) (by omega) hj hj']
    by_cases hkk : k = k'
    · subst hkk; rw [if_pos rfl, if_pos rfl, e]
    · rw [if_neg hkk, if_neg]
      intro hb
      exact hkk ((h.nodup.getElem_inj_iff).mp hb)
  · intro c c' hc
    obtain ⟨k, hk, j, hj, rfl, rfl⟩ := loc c c' hc
    have e := hget k hk
    rw [cat_L us _ _ (by rw [husl]; exact h.lt hk) (by rw [e]; exact hj), cat_L ts _ _ (by omega) hj, e]
  · intro c c' hc
    obtain ⟨k, hk, j, hj, rfl, rfl⟩ := loc c c' hc
    have e := hget k hk
    rw [cat_R us _ _ (by rw [husl]; exact h.lt hk) (by rw [e]; exact hj), cat_R ts _ _ (by omega) hj, e]
  · rw [cat_K, cat_K, (hperm.map Aff.K).sum_eq]

end QNET.Aff
