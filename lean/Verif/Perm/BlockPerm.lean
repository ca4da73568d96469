import Verif.Perm.BlockLoop
import Mathlib.Algebra.BigOperators.Group.List.Basic

/-! # `full_block_perm` and `block_perm_and_perms_within_blocks` (helper lemmas) -/

namespace QNET.Perm

theorem getD_lt {l : List Nat} {i : Nat} (h : i < l.length) : l.getD i 0 = l[i] := by
  simp [List.getD_eq_getElem?_getD, List.getElem?_eq_getElem h]

/-! ### flatten / offsets -/

theorem flatten_getElem? {α : Type} (ls : List (List α)) : ∀ (k j : Nat) (hk : k < ls.length), j < ls[k].length →
    ls.flatten[offsetOf (ls.map List.length) k + j]? = ls[k][j]? := by
  induction ls with
  | nil => intro k j hk; simp at hk
  | cons l ls ih =>
    intro k j hk hj
    cases k with
    | zero => simp only [offsetOf, List.take_zero, List.sum_nil, Nat.zero_add, List.flatten_cons, List.getElem_cons_zero] at *
              rw [List.getElem?_append_left hj]
    | succ k =>
      simp only [List.getElem_cons_succ] at hj ⊢
      simp only [offsetOf, List.map_cons, List.take_succ_cons, List.sum_cons, List.flatten_cons]
      rw [List.getElem?_append_right (by omega)]
      rw [show l.length + (List.take k (List.map List.length ls)).sum + j - l.length =
        offsetOf (ls.map List.length) k + j by simp [offsetOf]; omega]
      exact ih k j (by simpa using hk) hj

theorem offset_lt_sum (s : List Nat) : ∀ (k : Nat) (hk : k < s.length) (j : Nat), j < s[k] → offsetOf s k + j < s.sum := by
  induction s with
  | nil => intro k hk; simp at hk
  | cons a s ih =>
    intro k hk j hj
    cases k with
    | zero => simp [offsetOf] at *; omega
    | succ k =>
      have := ih k (by simpa using hk) j (by simpa using hj)
      simp only [offsetOf, List.take_succ_cons, List.sum_cons] at *
      omega

theorem exists_block (s : List Nat) : ∀ i, i < s.sum → ∃ k, ∃ hk : k < s.length, ∃ j, j < s[k] ∧ i = offsetOf s k + j := by
  induction s with
  | nil => intro i hi; simp at hi
  | cons a s ih =>
    intro i hi
    by_cases h : i < a
    · exact ⟨0, by simp, i, by simpa using h, by simp [offsetOf]⟩
    · simp only [List.sum_cons] at hi
      obtain ⟨k, hk, j, hj, e⟩ := ih (i - a) (by omega)
      refine ⟨k + 1, by simpa using hk, j, by simpa using hj, ?_⟩
      simp only [offsetOf, List.take_succ_cons, List.sum_cons] at *
      omega

theorem offsetOf_succ (s : List Nat) (k : Nat) (hk : k < s.length) : offsetOf s (k + 1) = offsetOf s k + s[k] := by
  simp only [offsetOf]
  rw [List.take_succ_eq_append_getElem hk, List.sum_append]
  simp

theorem offsetOf_mono (s : List Nat) {a b : Nat} (h : a ≤ b) : offsetOf s a ≤ offsetOf s b := by
  obtain ⟨c, rfl⟩ := Nat.exists_eq_add_of_le h
  simp only [offsetOf, List.take_add, List.sum_append]; omega

theorem offsetOf_step (s : List Nat) {a b : Nat} (h : a < b) (ha : a < s.length) : offsetOf s a + s[a] ≤ offsetOf s b := by
  rw [← offsetOf_succ s a ha]
  exact offsetOf_mono s h

/-! ### ranks -/

theorem countP_lt_range (x : Nat) : ∀ n, x ≤ n → (List.range n).countP (fun j => decide (j < x)) = x := by
  intro n
  induction n with
  | zero => intro h; simp; omega
  | succ n ih =>
    intro h
    rw [List.range_succ, List.countP_append]
    by_cases hx : x ≤ n
    · rw [ih hx]; simp; omega
    · have : x = n + 1 := by omega
      subst this
      have : (List.range n).countP (fun j => decide (j < n + 1)) = n := by
        rw [List.countP_eq_length.mpr]
        · simp
        · intro a ha; simp at ha; simp; omega
      rw [this]; simp

theorem map_getD_range (w : List Nat) : (List.range w.length).map (fun j => w.getD j 0) = w := by
  apply List.ext_getElem (by simp)
  intro i h1 h2
  simp [h2]

theorem rank_eq {w : List Nat} (h : Valid w) {i : Nat} (hi : i < w.length) :
    (List.range w.length).countP (fun j => decide (w.getD j 0 < w[i])) = w[i] := by
  have e : (List.range w.length).countP (fun j => decide (w.getD j 0 < w[i]))
      = w.countP (fun v => decide (v < w[i])) := by
    generalize w[i] = v
    conv_rhs => rw [← map_getD_range w]
    rw [List.countP_map]; simp [Function.comp_def]
  rw [e, h.countP_eq, countP_lt_range _ _ (Nat.le_of_lt (h.lt hi))]

theorem rank_unique {w v : List Nat} (hw : Valid w) (hv : Valid v) (hl : w.length = v.length)
    (ho : ∀ i j (hi : i < w.length) (hj : j < w.length), w[i] < w[j] ↔ v[i]'(by omega) < v[j]'(by omega)) : w = v := by
  apply List.ext_getElem hl
  intro i h1 h2
  rw [← rank_eq hw h1, ← rank_eq hv h2, ← hl]
  apply List.countP_congr
  intro j hj
  have hj' : j < w.length := by simpa using hj
  have := ho j i hj' h1
  have hj2 : j < v.length := by omega
  simp [hj', hj2, this]

/-! ### argsort -/

theorem argsort_perm (n : Nat) (keys : List Nat) : (argsort n keys).Perm (List.range n) := isort_perm _ _

@[simp] theorem argsort_length (n : Nat) (keys : List Nat) : (argsort n keys).length = n := by
  simpa using (argsort_perm n keys).length_eq

theorem argsort_valid (n : Nat) (keys : List Nat) : Valid (argsort n keys) := by
  unfold Valid; rw [argsort_length]; exact argsort_perm n keys

theorem argsort_mono (n : Nat) (keys : List Nat) {i j : Nat} (h : i < j) (hj : j < (argsort n keys).length) :
    keys.getD (argsort n keys)[i] 0 ≤ keys.getD (argsort n keys)[j] 0 := by
  have := isort_pairwise (le := fun a b : Nat => decide (keys.getD a 0 ≤ keys.getD b 0))
    (by intro a b c; simp; omega) (by intro a b; simp; omega) (List.range n)
  have h2 := List.pairwise_iff_getElem.mp this i j (by
    show i < (argsort n keys).length; omega) hj h
  exact of_decide_eq_true h2

/-- the inverse of `argsort` compares like the keys -/
theorem inv_argsort_lt {n : Nat} {keys : List Nat} (hl : keys.length = n) (hnd : keys.Nodup) {a b : Nat}
    (ha : a < n) (hb : b < n) :
    (inv (argsort n keys))[a]'(by simpa using ha) < (inv (argsort n keys))[b]'(by simpa using hb) ↔
      keys[a]'(by omega) < keys[b]'(by omega) := by
  have hv := argsort_valid n keys
  have key : ∀ a b (ha : a < n) (hb : b < n),
      (inv (argsort n keys))[a]'(by simpa using ha) < (inv (argsort n keys))[b]'(by simpa using hb) →
      keys[a]'(by omega) < keys[b]'(by omega) := by
    intro a b ha hb h
    have hj : (inv (argsort n keys))[b]'(by simpa using hb) < (argsort n keys).length := inv_lt hv _
    have := argsort_mono n keys h hj
    rw [getElem_inv hv (k := a) (by simpa using ha), getElem_inv hv (k := b) (by simpa using hb)] at this
    have ha' : a < keys.length := by omega
    have hb' : b < keys.length := by omega
    simp only [List.getD_eq_getElem?_getD, List.getElem?_eq_getElem ha', List.getElem?_eq_getElem hb',
      Option.getD_some] at this
    have hne : keys[a] ≠ keys[b] := by
      intro e
      have := (List.Nodup.getElem_inj_iff hnd).mp e
      subst this; omega
    omega
  constructor
  · exact key a b ha hb
  · intro h
    rcases Nat.lt_trichotomy ((inv (argsort n keys))[a]'(by simpa using ha)) ((inv (argsort n keys))[b]'(by simpa using hb)) with h1 | h1 | h1
    · exact h1
    · have := (List.Nodup.getElem_inj_iff (inv_valid hv).nodup).mp h1
      subst this; omega
    · have := key b a hb ha h1; omega

theorem foldl_min_le (l : List Nat) : ∀ a, l.foldl min a ≤ a ∧ ∀ x ∈ l, l.foldl min a ≤ x := by
  induction l with
  | nil => simp
  | cons b t ih =>
    intro a
    have := ih (min a b)
    simp only [List.foldl_cons]
    refine ⟨by omega, ?_⟩
    intro x hx
    rcases List.mem_cons.mp hx with h | h
    · subst h; omega
    · exact this.2 x h

theorem foldl_min_mem (l : List Nat) : ∀ a, l.foldl min a = a ∨ l.foldl min a ∈ l := by
  induction l with
  | nil => simp
  | cons b t ih =>
    intro a
    simp only [List.foldl_cons]
    rcases ih (min a b) with h | h
    · rw [h]
      rcases Nat.le_total a b with h' | h'
      · left; exact Nat.min_eq_left h'
      · right; simp [Nat.min_eq_right h']
    · right; exact List.mem_cons_of_mem _ h

/-- the minimum value -/
def minV (l : List Nat) : Nat := match l with | [] => 0 | x :: xs => xs.foldl min x

theorem minOf_ok {l : List Nat} (h : l ≠ []) : minOf l = .ok (minV l) ∧ minV l ∈ l ∧ ∀ x ∈ l, minV l ≤ x := by
  obtain ⟨a, t, rfl⟩ := List.exists_cons_of_ne_nil h
  refine ⟨rfl, ?_, ?_⟩
  · rcases foldl_min_mem t a with h | h
    · simp [minV, h]
    · exact List.mem_cons_of_mem _ h
  · intro x hx
    have := foldl_min_le t a
    rcases List.mem_cons.mp hx with h | h
    · subst h; exact this.1
    · exact this.2 x h

theorem argsort_first {n : Nat} {keys : List Nat} (hl : keys.length = n) (h : 0 < n) :
    keys.getD ((argsort n keys)[0]'(by simpa using h)) 0 = minV keys := by
  obtain ⟨-, h1, h2⟩ := minOf_ok (l := keys) (by intro e; subst e; simp at hl; omega)
  have hv := argsort_valid n keys
  have hlt : (argsort n keys)[0]'(by simpa using h) < keys.length := by
    have := hv.lt (i := 0) (by simpa using h); simpa [hl] using this
  apply Nat.le_antisymm
  · obtain ⟨i, hi, e⟩ := List.mem_iff_getElem.mp h1
    rw [← e]
    have hin : i ∈ argsort n keys := (hv.mem_iff i).mpr (by simpa [← hl] using hi)
    obtain ⟨k, hk, e2⟩ := List.mem_iff_getElem.mp hin
    by_cases hk0 : k = 0
    · subst hk0; rw [e2]; simp [hi]
    · have := argsort_mono n keys (i := 0) (j := k) (by omega) hk
      rw [e2] at this
      simpa [hi] using this
  · apply h2
    simp [hlt]

theorem argsort_last {n : Nat} {keys : List Nat} (hl : keys.length = n) (h : 0 < n) :
    keys.getD ((argsort n keys)[n - 1]'(by simp; omega)) 0 = maxOf keys := by
  have hne : keys ≠ [] := by intro e; subst e; simp at hl; omega
  have hv := argsort_valid n keys
  have hlt : (argsort n keys)[n - 1]'(by simp; omega) < keys.length := by
    have := hv.lt (i := n - 1) (by simp; omega); simpa [hl] using this
  apply Nat.le_antisymm
  · apply le_maxOf; simp [hlt]
  · obtain ⟨i, hi, e⟩ := List.mem_iff_getElem.mp (maxOf_mem hne)
    rw [← e]
    have hin : i ∈ argsort n keys := (hv.mem_iff i).mpr (by simpa [← hl] using hi)
    obtain ⟨k, hk, e2⟩ := List.mem_iff_getElem.mp hin
    have hk' : k < n := by simpa using hk
    by_cases hk0 : k = n - 1
    · subst hk0; rw [e2]; simp [hi]
    · have := argsort_mono n keys (i := k) (j := n - 1) (by omega) (by simp; omega)
      rw [e2] at this
      simpa [hi] using this

/-! ### `full_block_perm` -/

/-- sizes of the blocks in slot order -/
def slotSizes (bp s : List Nat) : List Nat := (inv bp).map (fun b => s.getD b 0)

@[simp] theorem slotSizes_length (bp s : List Nat) : (slotSizes bp s).length = bp.length := by simp [slotSizes]

theorem slotSizes_perm {bp s : List Nat} (h : Valid bp) (hl : bp.length = s.length) : (slotSizes bp s).Perm s := by
  have h1 : (slotSizes bp s).Perm ((List.range s.length).map (fun b => s.getD b 0)) := by
    apply List.Perm.map
    have := inv_valid h
    unfold Valid at this
    rw [inv_length, hl] at this
    exact this
  rwa [map_getD_range] at h1

theorem slotSizes_getElem {bp s : List Nat} (h : Valid bp) (hl : bp.length = s.length) {k : Nat} (hk : k < bp.length) :
    (slotSizes bp s)[bp[k]]'(by simpa using h.lt hk) = s[k] := by
  simp only [slotSizes, List.getElem_map]
  rw [inv_getElem_getElem h hk]
  have : k < s.length := by omega
  simp [this]

theorem blockRange_ok {bp s : List Nat} (h : Valid bp) (hl : bp.length = s.length) {k len : Nat} (hk : k < bp.length) :
    blockRange bp (inv bp) s k len = .ok (List.range' (offsetOf (slotSizes bp s) bp[k]) len) := by
  have hm : (List.range bp[k]).mapM (fun j => do
      let b ← getItem (inv bp) j
      getItem s b) = .ok ((List.range bp[k]).map (fun j => (slotSizes bp s).getD j 0)) := by
    apply mapM_ok_of
    intro j hj
    have hj' : j < (inv bp).length := by
      have := List.mem_range.mp hj; have := h.lt hk; simp; omega
    have hb := inv_lt h hj'
    have hb2 : (inv bp)[j] < s.length := by omega
    have hj2 : j < (slotSizes bp s).length := by simpa using hj'
    rw [getItem_ok hj']
    simp only [bind, Except.bind]
    rw [getItem_ok hb2]
    rw [getD_lt hj2]
    simp only [slotSizes, List.getElem_map]
    rw [getD_lt hb2]
  unfold blockRange
  rw [getItem_ok hk]
  simp only [bind, Except.bind] at hm ⊢
  rw [hm]
  simp only [Except.ok.injEq]
  congr 1
  unfold offsetOf
  congr 1
  have hlt := h.lt hk
  apply List.ext_getElem
  · simp; omega
  intro i h1 h2
  have : i < (slotSizes bp s).length := by simp at h1 ⊢; omega
  simp only [List.getElem_map, List.getElem_range, List.getElem_take]
  rw [getD_lt this]

/-- the value of `full_block_perm` -/
def fbp (bp s : List Nat) : List Nat :=
  (bp.map (fun q => List.range' (offsetOf (slotSizes bp s) q) ((slotSizes bp s).getD q 0))).flatten

theorem flatten_ranges (s : List Nat) :
    ∀ off, ((List.range s.length).map (fun q => List.range' (off + offsetOf s q) (s.getD q 0))).flatten = List.range' off s.sum := by
  induction s with
  | nil => simp
  | cons a s ih =>
    intro off
    rw [List.length_cons, List.range_succ_eq_map, List.map_cons, List.flatten_cons, List.map_map]
    have := ih (off + a)
    simp only [Function.comp_def, offsetOf, List.take_zero, List.sum_nil, Nat.add_zero, List.getD_cons_zero,
      List.take_succ_cons, List.sum_cons, List.getD_cons_succ] at this ⊢
    simp only [← Nat.add_assoc, this]
    rw [← List.range'_append_1]

theorem fbp_perm {bp s : List Nat} (h : Valid bp) (hl : bp.length = s.length) : (fbp bp s).Perm (List.range s.sum) := by
  have h1 : (fbp bp s).Perm ((List.range bp.length).map
      (fun q => List.range' (offsetOf (slotSizes bp s) q) ((slotSizes bp s).getD q 0))).flatten := by
    unfold fbp
    exact List.Perm.flatten (List.Perm.map _ h)
  have h2 := flatten_ranges (slotSizes bp s) 0
  simp only [Nat.zero_add, slotSizes_length] at h2
  rw [h2, (slotSizes_perm h hl).sum_eq, ← List.range_eq_range'] at h1
  exact h1

theorem fbp_length {bp s : List Nat} (h : Valid bp) (hl : bp.length = s.length) : (fbp bp s).length = s.sum := by
  simpa using (fbp_perm h hl).length_eq

theorem fbp_valid {bp s : List Nat} (h : Valid bp) (hl : bp.length = s.length) : Valid (fbp bp s) := by
  unfold Valid; rw [fbp_length h hl]; exact fbp_perm h hl

theorem fullBlockPerm_ok {bp s : List Nat} (h : Valid bp) (hl : bp.length = s.length) :
    fullBlockPerm bp s = .ok (fbp bp s) := by
  unfold fullBlockPerm
  rw [invert_ok h]
  simp only [bind, Except.bind]
  have hm : s.zipIdx.mapM (fun (len, k) => blockRange bp (inv bp) s k len) =
      .ok (s.zipIdx.map (fun x => List.range' (offsetOf (slotSizes bp s) (bp.getD x.2 0)) x.1)) := by
    apply mapM_ok_of
    rintro ⟨len, k⟩ hx
    rw [List.mem_zipIdx_iff_getElem?] at hx
    obtain ⟨hk, e⟩ := List.getElem?_eq_some_iff.mp hx
    simp only at hk e ⊢
    have hk' : k < bp.length := by omega
    rw [blockRange_ok h hl hk']
    simp [hk']
  have hm' : (s.zipIdx.map (fun x => List.range' (offsetOf (slotSizes bp s) (bp.getD x.2 0)) x.1)) =
      (bp.map (fun q => List.range' (offsetOf (slotSizes bp s) q) ((slotSizes bp s).getD q 0))) := by
    apply List.ext_getElem (by simp [hl])
    intro i h1 h2
    simp only [List.length_map] at h2
    have := slotSizes_getElem h hl h2
    have hlt : bp[i] < (slotSizes bp s).length := by simpa using h.lt h2
    simp only [List.getElem_map, List.getElem_zipIdx, Nat.zero_add]
    rw [getD_lt h2, getD_lt hlt, this]
  simp only [hm, hm']
  rw [if_pos]
  · rfl
  · rw [sorted_eq_range_iff]; exact fbp_perm h hl

theorem fbp_getElem? {bp s : List Nat} (h : Valid bp) (hl : bp.length = s.length) {k j : Nat} (hk : k < bp.length)
    (hj : j < s[k]) : (fbp bp s)[offsetOf s k + j]? = some (offsetOf (slotSizes bp s) bp[k] + j) := by
  have hlt : bp[k] < (slotSizes bp s).length := by simpa using h.lt hk
  have hlen : (bp.map (fun q => List.range' (offsetOf (slotSizes bp s) q) ((slotSizes bp s).getD q 0))).map List.length = s := by
    apply List.ext_getElem (by simp [hl])
    intro i h1 h2
    simp only [List.length_map] at h1
    have := slotSizes_getElem h hl h1
    have hlt : bp[i] < (slotSizes bp s).length := by simpa using h.lt h1
    simp only [List.getElem_map, List.length_range']
    rw [getD_lt hlt, this]
  have hss := slotSizes_getElem h hl hk
  have := flatten_getElem? (bp.map (fun q => List.range' (offsetOf (slotSizes bp s) q) ((slotSizes bp s).getD q 0))) k j
    (by simpa using hk) (by
      simp only [List.getElem_map, List.length_range']
      rw [getD_lt hlt, hss]; exact hj)
  rw [hlen] at this
  unfold fbp
  rw [this]
  simp only [List.getElem_map]
  rw [getD_lt hlt, hss, List.getElem?_range' hj]
  simp

end QNET.Perm
