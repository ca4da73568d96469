import Verif.SLH.AffFb
import Verif.CPerm.Thm

/-! # Permutations as affine data -/

namespace QNET.Aff

open Finset QNET.Perm QNET.CPerm

variable {A : Type*} [Ring A]

/-- the routing matrix of a permutation, without any dynamics -/
def perm (p : List Nat) : Aff A := mk' p.length (fun k j => if p[j]? = some k then 1 else 0) (fun _ => 0) (fun _ => 0) 0

@[simp] theorem perm_n (p : List Nat) : (perm p : Aff A).n = p.length := rfl
@[simp] theorem perm_L (p : List Nat) (i : ℕ) : (perm p : Aff A).L i = 0 := by simp [perm, mk']
@[simp] theorem perm_R (p : List Nat) (i : ℕ) : (perm p : Aff A).R i = 0 := by simp [perm, mk']
@[simp] theorem perm_K (p : List Nat) : (perm p : Aff A).K = 0 := rfl

theorem perm_S {p : List Nat} (h : Valid p) (k j : ℕ) : (perm p : Aff A).S k j = if p[j]? = some k then 1 else 0 := by
  by_cases hkj : k < p.length ∧ j < p.length
  · exact mk'_S hkj.1 hkj.2
  · rw [(perm p : Aff A).hS k j hkj, if_neg]
    intro hc
    obtain ⟨h1, h2⟩ := List.getElem?_eq_some_iff.mp hc
    exact hkj ⟨by rw [← h2]; exact h.lt h1, h1⟩

theorem perm_range (n : ℕ) : (perm (List.range n) : Aff A) = one n := by
  refine ext' (by simp) ?_ ?_ ?_ ?_
  · intro i j hi hj
    simp only [perm_n, List.length_range] at hi hj
    rw [perm_S (valid_range n), one_S hi hj, List.getElem?_range hj]
    simp [eq_comm]
  all_goals simp

theorem Valid.exists_preimage {p : List Nat} (h : Valid p) {k : ℕ} (hk : k < p.length) : ∃ j, j < p.length ∧ p[j]? = some k := by
  have := List.mem_iff_getElem.mp ((h.mem_iff k).mpr hk)
  obtain ⟨j, hj, e⟩ := this
  exact ⟨j, hj, by rw [List.getElem?_eq_getElem hj, e]⟩

theorem Valid.getElem?_inj {p : List Nat} (h : Valid p) {i j k : ℕ} (hi : p[i]? = some k) (hj : p[j]? = some k) : i = j := by
  obtain ⟨h1, h2⟩ := List.getElem?_eq_some_iff.mp hi
  obtain ⟨h3, h4⟩ := List.getElem?_eq_some_iff.mp hj
  exact (h.nodup.getElem_inj_iff).mp (h2.trans h4.symm)

theorem Valid.getElem?_lt {p : List Nat} (h : Valid p) {i k : ℕ} (hi : p[i]? = some k) : i < p.length ∧ k < p.length := by
  obtain ⟨h1, h2⟩ := List.getElem?_eq_some_iff.mp hi
  exact ⟨h1, by rw [← h2]; exact h.lt h1⟩

/-- multiplying with a routing matrix from the left -/
theorem sum_perm_left {p : List Nat} (h : Valid p) (f : ℕ → A) {j k : ℕ} (hj : p[j]? = some k) :
    ∑ m ∈ range p.length, (perm p : Aff A).S k m * f m = f j := by
  rw [Finset.sum_eq_single j]
  · rw [perm_S h, if_pos hj, one_mul]
  · intro m _ hm
    rw [perm_S h, if_neg, zero_mul]
    intro hc; exact hm (Valid.getElem?_inj h hc hj)
  · intro hc; exact absurd (Finset.mem_range.mpr (Valid.getElem?_lt h hj).1) hc

/-- multiplying with a routing matrix from the right -/
theorem sum_perm_right {p : List Nat} (h : Valid p) (f : ℕ → A) {j k : ℕ} (hj : p[j]? = some k) :
    ∑ m ∈ range p.length, f m * (perm p : Aff A).S m j = f k := by
  rw [Finset.sum_eq_single k]
  · rw [perm_S h, if_pos hj, mul_one]
  · intro m _ hm
    rw [perm_S h, if_neg, mul_zero]
    rw [hj]; simpa using hm.symm
  · intro hc; exact absurd (Finset.mem_range.mpr (Valid.getElem?_lt h hj).2) hc

theorem perm_comp {a b : List Nat} (ha : Valid a) (hb : Valid b) (hl : a.length = b.length) :
    (perm (comp a b) : Aff A) = series (perm a) (perm b) := by
  have hv := comp_valid hl ha hb
  refine ext' (by simp [hl]) ?_ ?_ ?_ ?_
  · intro i j hi hj
    simp only [perm_n, comp_length] at hi hj
    rw [perm_S hv, series_S (by simpa [hl] using hi) (by simpa [hl] using hj)]
    have hbj := List.getElem?_eq_getElem hj
    have := sum_perm_right hb (fun m => (perm a : Aff A).S i m) hbj
    simp only [perm_n]
    rw [hl, this, perm_S ha, comp_getElem? hl hb hbj]
  · intro i hi; rw [series_L (by simpa [hl] using hi)]; simp
  · intro i hi; rw [series_R (by simpa [hl] using hi)]; simp
  · rw [series_K]; simp

theorem perm_inv_series {p : List Nat} (h : Valid p) : series (perm (inv p)) (perm p) = (one p.length : Aff A) := by
  rw [← perm_comp (inv_valid h) h (by simp), inv_comp h, perm_range]

theorem perm_series_inv {p : List Nat} (h : Valid p) : series (perm p) (perm (inv p)) = (one p.length : Aff A) := by
  rw [← perm_comp h (inv_valid h) (by simp), comp_inv h, perm_range]

/-- `p` passes `i` straight to `o`, the rest is `red` -/
theorem thread_perm {p red : List Nat} {o i : ℕ} (hp : Valid p) (hr : Valid red) (hl : red.length = p.length - 1)
    (hpo : p[i]? = some o) (h : ∀ l z : ℕ, red[l]? = some z → p[up i l]? = some (up o z)) :
    Thread o i (perm p : Aff A) (perm red) := by
  obtain ⟨hi, ho⟩ := Valid.getElem?_lt hp hpo
  refine ⟨by simp; omega, ho, hi, ?_, ?_, ?_, ?_, by simp, by simp, by simp, by simp, by simp⟩
  · intro k l hk hl'
    simp only [perm_n] at hk hl'
    rw [perm_S hp, perm_S hr, h l red[l] (List.getElem?_eq_getElem hl'), List.getElem?_eq_getElem hl']
    by_cases e : red[l] = k
    · rw [e]; simp
    · rw [if_neg, if_neg]
      · simpa using e
      · intro hc; injection hc with hc; exact e (up_inj hc)
  · intro l hl'
    simp only [perm_n] at hl'
    rw [perm_S hp, h l red[l] (List.getElem?_eq_getElem hl'), if_neg]
    intro hc; injection hc with hc; exact up_ne _ _ hc
  · intro k hk
    rw [perm_S hp, hpo, if_neg]
    intro hc; injection hc with hc; exact up_ne _ _ hc.symm
  · rw [perm_S hp, if_pos hpo]

/-- closing a proper loop of a permutation -/
theorem fb_perm {p r : List Nat} {o i : ℕ} (hp : Valid p) (hr : Valid r) (hl : r.length = p.length - 1)
    (hi : i < p.length) (hne : p[i]? ≠ some o) (h : ClosesLoop p o i r) :
    fb o i 1 (perm p : Aff A) = perm r := by
  obtain ⟨y, hy⟩ : ∃ y, p[i]? = some y := ⟨_, List.getElem?_eq_getElem hi⟩
  have hyo : y ≠ o := by rintro rfl; exact hne hy
  refine ext' (by simp [hl]) ?_ ?_ ?_ ?_
  · intro k l hk hl'
    simp only [fb_n, perm_n] at hk hl'
    rw [fb_S hk hl', perm_S hp, perm_S hp, perm_S hp, perm_S hr]
    obtain ⟨x, hx⟩ : ∃ x, p[up i l]? = some x := ⟨_, List.getElem?_eq_getElem (up_lt hl')⟩
    obtain ⟨z, hz, hz1, hz2⟩ := h l x y hl' hx hy
    rw [skip_eq_up] at hz1 hz2
    rw [hx, hz, hy]
    by_cases hxo : x = o
    · have := hz2 hxo
      simp only [Option.some.injEq, hxo, if_true, mul_one]
      rw [if_neg (fun e => up_ne _ _ e.symm), zero_add]
      by_cases e : z = k
      · rw [if_pos e, if_pos (by rw [← this, e])]
      · rw [if_neg e, if_neg (by rw [← this]; intro hc; exact e (up_inj hc))]
    · have := hz1 hxo
      simp only [Option.some.injEq, hxo, if_false, mul_zero, add_zero]
      by_cases e : z = k
      · rw [if_pos e, if_pos (by rw [← this, e])]
      · rw [if_neg e, if_neg (by rw [← this]; intro hc; exact e (up_inj hc))]
  · intro k hk; rw [fb_L hk]; simp
  · intro k hk; rw [fb_R hk]; simp
  · rw [fb_K]; simp

/-- `p ++ (q shifted)` -/
theorem perm_concat {p q : List Nat} (hp : Valid p) (hq : Valid q) :
    (perm (p ++ q.map (· + p.length)) : Aff A) = concat (perm p) (perm q) := by
  refine ext' (by simp) ?_ ?_ ?_ ?_
  · intro i j hi hj
    simp only [perm_n, List.length_append, List.length_map] at hi hj
    rw [perm, mk'_S (by simpa using hi) (by simpa using hj), concat_S (by simpa using hi) (by simpa using hj)]
    simp only [perm_n, perm_S hp, perm_S hq]
    by_cases hj' : j < p.length
    · rw [List.getElem?_append_left hj']
      by_cases hi' : i < p.length
      · simp [hi', hj']
      · simp only [hi', hj', if_false, if_true]
        rw [if_neg]
        intro hc; exact hi' (Valid.getElem?_lt hp hc).2
    · rw [List.getElem?_append_right (by omega), List.getElem?_map]
      by_cases hi' : i < p.length
      · simp only [hi', hj', if_false, if_true]
        rw [if_neg]
        intro hc
        rw [Option.map_eq_some_iff] at hc
        obtain ⟨a, _, ha⟩ := hc; omega
      · simp only [hi', hj', if_false]
        by_cases e : q[j - p.length]? = some (i - p.length)
        · rw [if_pos e, if_pos]; rw [e]; simp; omega
        · rw [if_neg e, if_neg]
          intro hc
          rw [Option.map_eq_some_iff] at hc
          obtain ⟨a, ha, ha'⟩ := hc
          apply e; rw [ha]; congr 1; omega
  · intro i hi
    rw [concat_L (by simpa using hi)]; simp
  · intro i hi
    rw [concat_R (by simpa using hi)]; simp
  · rw [concat_K]; simp

/-- relabelling the channels -/
theorem perm_conj {p : List Nat} (hp : Valid p) {X Y : Aff A} (hX : X.n = p.length) (hY : Y.n = p.length)
    (hS : ∀ c d c' d', p[c]? = some c' → p[d]? = some d' → Y.S c' d' = X.S c d)
    (hL : ∀ c c', p[c]? = some c' → Y.L c' = X.L c) (hR : ∀ c c', p[c]? = some c' → Y.R c' = X.R c) (hK : Y.K = X.K) :
    series (perm p) X = series Y (perm p) := by
  refine ext' (by simp [hY]) ?_ ?_ ?_ ?_
  · intro i j hi hj
    simp only [series_n, perm_n] at hi hj
    obtain ⟨c, hc, hci⟩ := Valid.exists_preimage hp hi
    have hdj := List.getElem?_eq_getElem hj
    rw [series_S hi hj, series_S (by omega) (by omega)]
    have e1 := sum_perm_left (A := A) hp (fun m => X.S m j) hci
    have e2 := sum_perm_right (A := A) hp (fun m => Y.S i m) hdj
    simp only [perm_n, hY]
    rw [e1, e2, hS c j i _ hci hdj]
  · intro i hi
    simp only [series_n, perm_n] at hi
    obtain ⟨c, hc, hci⟩ := Valid.exists_preimage hp hi
    rw [series_L hi, series_L (by omega)]
    have e1 := sum_perm_left (A := A) hp (fun m => X.L m) hci
    simp only [perm_n]
    rw [e1, ← hL c i hci]; simp
  · intro j hj
    simp only [series_n, perm_n] at hj
    rw [series_R hj, series_R (by omega)]
    have hdj := List.getElem?_eq_getElem hj
    have e2 := sum_perm_right (A := A) hp (fun m => Y.R m) hdj
    simp only [perm_R, zero_mul, Finset.sum_const_zero, add_zero, zero_add, hY]
    rw [e2, hR j _ hdj]
  · rw [series_K, series_K]; simp [hK]

end QNET.Aff
