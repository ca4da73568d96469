import Verif.CPerm.Lemmas
import Verif.CPerm.Spec
import Verif.Perm.Thm

/-! # Property theorems for permutation circuits, on the level of image tuples (C08–C11, C50, C51)

The scattering-matrix and SLH parts are in `Verif/SLH/PermThm.lean`. -/

namespace QNET.CPerm

open QNET.Perm QNET.Aff

theorem skip_eq_up : skip = up := rfl

/-! ### C08 -/

/-- C08: `CPermutation.create` raises `BadPermutationError` exactly for malformed tuples and never fails otherwise; the
identity tuple gives the pass-through circuit, every other permutation a `CPermutation` with the given tuple. -/
theorem C08_create (p : List Nat) :
    (create p = .error .badPermutation ↔ ¬ IsBijection p) ∧
    (create (List.range p.length) = .ok (.cid p.length)) ∧
    (IsBijection p → p ≠ List.range p.length → create p = .ok (.perm p)) ∧
    (IsBijection p → ∃ c, create p = .ok c ∧ c.cdim = p.length ∧ c.tuple = p) := by
  refine ⟨?_, ?_, ?_, ?_⟩
  · rw [← valid_iff]
    by_cases h : Valid p
    · rw [create_ok h]; simp [h]
    · rw [create_err h]; simp [h]
  · rw [create_ok (valid_range _)]; simp
  · intro h h2; rw [create_ok ((valid_iff p).mpr h), if_neg h2]
  · intro h
    have hc := create_ok ((valid_iff p).mpr h)
    exact ⟨_, hc, (create_tuple hc).2.2, (create_tuple hc).2.1⟩

/-- C08: for permutation circuits of equal size, `a << b` sends input `j` to `a(b(j))`. -/
theorem C08_series {a b : PC} (ha : Reachable a) (hb : Reachable b) (h : a.cdim = b.cdim) :
    ∃ c, series a b = .ok c ∧ Reachable c ∧ c.cdim = a.cdim ∧
      ∀ j x : Nat, b.tuple[j]? = some x → c.tuple[j]? = a.tuple[x]? := by
  obtain ⟨c, e, r, t⟩ := series_ok ha hb h
  refine ⟨c, e, r, ?_, ?_⟩
  · rw [r.cdim, t, h, hb.cdim]; simp
  · intro j x hx
    rw [t, comp_getElem? (by rw [← ha.cdim, ← hb.cdim, h]) hb.valid hx]

/-- C08: two genuine permutations of different size are rejected. -/
theorem C08_series_size {p q : List Nat} (h : p.length ≠ q.length) :
    series (.perm p) (.perm q) = .error .valueError := by simp [series, h]

/-- C08: `series_inverse` is the two-sided inverse. -/
theorem C08_inverse {a : PC} (ha : Reachable a) :
    ∃ b, seriesInverse a = .ok b ∧ Reachable b ∧ series a b = .ok (.cid a.cdim) ∧ series b a = .ok (.cid a.cdim) ∧
      seriesInverse b = .ok a := by
  have va := ha.valid
  obtain ⟨b, e, rb, t⟩ := seriesInverse_ok ha
  have hd : a.cdim = b.cdim := by rw [ha.cdim, rb.cdim, t]; simp
  obtain ⟨c, e1, r1, t1⟩ := series_ok ha rb hd
  obtain ⟨d, e2, r2, t2⟩ := series_ok rb ha hd.symm
  obtain ⟨a', e3, r3, t3⟩ := seriesInverse_ok rb
  refine ⟨b, e, rb, ?_, ?_, ?_⟩
  · rw [e1, reachable_ext r1 (reachable_cid a.cdim)]
    rw [t1, t, comp_inv va, ha.cdim]; rfl
  · rw [e2, reachable_ext r2 (reachable_cid a.cdim)]
    rw [t2, t, inv_comp va, ha.cdim]; rfl
  · rw [e3, reachable_ext r3 ha]
    rw [t3, t, inv_inv va]

/-- C08: series composition is associative. -/
theorem C08_assoc {a b c : PC} (ha : Reachable a) (hb : Reachable b) (hc : Reachable c) (h1 : a.cdim = b.cdim)
    (h2 : b.cdim = c.cdim) :
    ∃ ab bc r, series a b = .ok ab ∧ series b c = .ok bc ∧ series ab c = .ok r ∧ series a bc = .ok r := by
  obtain ⟨ab, e1, r1, d1, t1⟩ := C08_series ha hb h1
  obtain ⟨bc, e2, r2, d2, t2⟩ := C08_series hb hc h2
  obtain ⟨l, e3, r3, d3, t3⟩ := C08_series r1 hc (by omega)
  obtain ⟨r, e4, r4, d4, t4⟩ := C08_series ha r2 (by omega)
  have : l = r := by
    apply reachable_ext r3 r4
    apply List.ext_getElem?
    intro j
    by_cases hj : j < c.tuple.length
    · have hx := List.getElem?_eq_getElem hj
      rw [t3 j _ hx]
      have hx' : c.tuple[j] < b.tuple.length := by
        have := hc.valid.lt hj
        rw [← hb.cdim, h2, hc.cdim]; exact this
      have hy := List.getElem?_eq_getElem hx'
      rw [t1 _ _ hy, t4 j b.tuple[c.tuple[j]] (by rw [t2 j _ hx, hy])]
    · rw [List.getElem?_eq_none (by rw [← r3.cdim, d3, d1, h1, h2, hc.cdim]; omega),
        List.getElem?_eq_none (by rw [← r4.cdim, d4, h1, h2, hc.cdim]; omega)]
  subst this
  exact ⟨ab, bc, l, e1, e2, e3, e4⟩

example : create [2, 0, 1] = .ok (.perm [2, 0, 1]) := by decide +kernel
example : series (.perm [2, 0, 1]) (.perm [1, 0, 2]) = .ok (.perm [0, 2, 1]) := by decide +kernel
example : series (.perm [2, 0, 1]) (.perm [1, 2, 0]) = .ok (.cid 3) := by decide +kernel
example : Reachable (.perm [2, 0, 1]) := ⟨[2, 0, 1], by decide +kernel⟩

/-! ### C09 -/

/-- C09: for a dict `m` (distinct keys) whose keys and values lie in `range(n)` and whose values are distinct,
`map_channels(m, n)` is a permutation circuit that sends `k` to `m[k]` and keeps the order of the other channels. -/
theorem C09_map_channels {m : List (Nat × Nat)} {n : Nat} (hk : (m.map Prod.fst).Nodup)
    (hv : (m.map Prod.snd).Nodup) (hkn : ∀ k v, (k, v) ∈ m → k < n ∧ v < n) :
    ∃ c, mapChannels m n = .ok c ∧ IsBijection c.tuple ∧ c.cdim = n ∧ c.tuple.length = n ∧
      (∀ k v, (k, v) ∈ m → c.tuple[k]? = some v) ∧
      (∀ i j x y : Nat, i < j → (∀ v, (i, v) ∉ m) → (∀ v, (j, v) ∉ m) → c.tuple[i]? = some x →
        c.tuple[j]? = some y → x < y) := by
  obtain ⟨p, e, hl, hvv, h1, h2⟩ := mapTuple_ok (m := m) (n := n) hk hv
    (by rintro k hk'; obtain ⟨⟨a, b⟩, h, rfl⟩ := List.mem_map.mp hk'; exact (hkn a b h).1)
    (by rintro k hk'; obtain ⟨⟨a, b⟩, h, rfl⟩ := List.mem_map.mp hk'; exact (hkn a b h).2)
  have hc := create_ok hvv
  have ht := create_tuple hc
  refine ⟨_, by simp only [mapChannels, e]; exact hc, ?_, by rw [ht.2.2, hl], by rw [ht.2.1, hl], ?_, ?_⟩
  · rw [ht.2.1]; exact (valid_iff p).mp hvv
  · rw [ht.2.1]; exact h1
  · rw [ht.2.1]
    intro i j x y hij hi hj
    refine h2 i j x y hij ?_ ?_
    · intro h; obtain ⟨⟨a, b⟩, h', rfl⟩ := List.mem_map.mp h; exact hi b h'
    · intro h; obtain ⟨⟨a, b⟩, h', rfl⟩ := List.mem_map.mp h; exact hj b h'

/-- C09: maps that are not injective or leave the range are rejected with `ValueError`. -/
theorem C09_map_channels_rejects {m : List (Nat × Nat)} {n : Nat}
    (h : ¬ ((m.map Prod.snd).Nodup ∧ ∀ k v, (k, v) ∈ m → k < n ∧ v < n)) :
    mapChannels m n = .error .valueError := by
  unfold mapChannels
  rw [mapTuple_err]
  · rfl
  · rintro ⟨h1, h2, h3⟩
    exact h ⟨h1, fun k v hm => ⟨h2 k (List.mem_map.mpr ⟨_, hm, rfl⟩), h3 v (List.mem_map.mpr ⟨_, hm, rfl⟩)⟩⟩

example : mapChannels [(0, 2), (3, 0)] 4 = .ok (.perm [2, 1, 3, 0]) := by decide +kernel
example : mapChannels [(0, 2), (3, 2)] 4 = .error .valueError := by decide +kernel

/-! ### C10 -/

/-- C10: `CPermutation.feedback(out_port=o, in_port=i)` returns a permutation circuit on `n-1` channels that is obtained
by closing the loop. -/
theorem C10_feedback {p : List Nat} {o i : Nat} (hp : Reachable (.perm p)) (ho : o < p.length) (hi : i < p.length) :
    ∃ c, feedback p o i = .ok c ∧ Reachable c ∧ c.cdim = p.length - 1 ∧ IsBijection c.tuple ∧
      ClosesLoop p o i c.tuple := by
  obtain ⟨c, e, r, d, h⟩ := feedback_ok hp ho hi
  exact ⟨c, e, r, d, (valid_iff _).mp r.valid, h⟩

/-- C10: the specification `ClosesLoop` determines the result. -/
theorem C10_unique {p r r' : List Nat} {o i : Nat} (hi : i < p.length)
    (hr : r.length = p.length - 1) (hr' : r'.length = p.length - 1) (h : ClosesLoop p o i r)
    (h' : ClosesLoop p o i r') : r = r' := by
  apply List.ext_getElem (by omega)
  intro l h1 h2
  have hl : up i l < p.length := up_lt (by omega)
  obtain ⟨z, hz, hz1, hz2⟩ := h l _ _ (by omega) (List.getElem?_eq_getElem hl) (List.getElem?_eq_getElem hi)
  obtain ⟨w, hw, hw1, hw2⟩ := h' l _ _ (by omega) (List.getElem?_eq_getElem hl) (List.getElem?_eq_getElem hi)
  rw [List.getElem?_eq_getElem h1] at hz
  rw [List.getElem?_eq_getElem h2] at hw
  injection hz with hz
  injection hw with hw
  rw [hz, hw]
  by_cases hx : p[up i l] = o
  · exact up_inj ((hz2 hx).trans (hw2 hx).symm)
  · exact up_inj ((hz1 hx).trans (hw1 hx).symm)

example : feedback [2, 0, 1, 3] 1 0 = .ok (.perm [0, 1, 2]) ∨ feedback [2, 0, 1, 3] 1 0 = .ok (.cid 3) := by
  decide +kernel
example : feedback [2, 3, 1, 0] 1 0 = .ok (.perm [2, 1, 0]) := by decide +kernel

/-! ### C11 -/

theorem up_last {n k : Nat} (h : k < n) : up n k = k := by unfold up; rw [if_pos h]

/-- the routing equation of `_factor_rhs` in terms of the modelled operations -/
theorem factor_equation {p red m1 m2 : List Nat} {o i : Nat} (hr : Valid red)
    (hi : i < p.length) (ho : o < p.length) (hpo : p[i]? = some o)
    (hl : red.length = p.length - 1)
    (h : ∀ l x, l < p.length - 1 → p[up i l]? = some x → ∃ z, red[l]? = some z ∧ up o z = x)
    (e1 : mapTuple [(p.length - 1, i)] p.length = .ok m1) (e2 : mapTuple [(p.length - 1, o)] p.length = .ok m2) :
    comp p m1 = comp m2 (fromBlocks [red, [0]]) := by
  obtain ⟨m1', e1', l1, v1, a1, b1⟩ := mapTuple_single (show p.length - 1 < p.length by omega) hi
  obtain ⟨m2', e2', l2, v2, a2, b2⟩ := mapTuple_single (show p.length - 1 < p.length by omega) ho
  rw [e1] at e1'; injection e1' with e1'; subst e1'
  rw [e2] at e2'; injection e2' with e2'; subst e2'
  have hfb : fromBlocks [red, [0]] = red ++ [p.length - 1] := by simp [fromBlocks, fromBlocksLoop, hl]
  rw [hfb]
  have hv' : Valid (red ++ [p.length - 1]) := by
    apply valid_of_nodup_lt
    · rw [List.nodup_append]
      refine ⟨hr.nodup, by simp, ?_⟩
      intro a ha b hb
      have := (hr.mem_iff a).mp ha
      simp at hb; omega
    · intro x hx
      simp only [List.mem_append, List.mem_singleton] at hx
      simp only [List.length_append, List.length_singleton]
      rcases hx with hx | hx
      · have := (hr.mem_iff x).mp hx; omega
      · omega
  apply List.ext_getElem?
  intro j
  by_cases hj : j < p.length
  · by_cases hjl : j = p.length - 1
    · rw [hjl, comp_getElem? l1.symm v1 a1, comp_getElem? (by simp; omega) hv' (x := p.length - 1), hpo, a2]
      rw [List.getElem?_append_right (by omega), hl]; simp
    · have hj' : j < p.length - 1 := by omega
      have hb1 := b1 j hj'
      rw [up_last hj'] at hb1
      have hpu := List.getElem?_eq_getElem (up_lt (o := i) hj')
      obtain ⟨z, hz, hz'⟩ := h j _ hj' hpu
      have hzl : z < p.length - 1 := by
        obtain ⟨hz1, hz2⟩ := List.getElem?_eq_some_iff.mp hz
        rw [← hz2, ← hl]; exact hr.lt hz1
      rw [comp_getElem? l1.symm v1 hb1, hpu, comp_getElem? (by simp; omega) hv' (x := z)]
      · have hb2 := b2 z hzl
        rw [up_last hzl] at hb2
        rw [hb2, hz']
      · rw [List.getElem?_append_left (by omega)]; exact hz
  · rw [List.getElem?_eq_none (by simp; omega), List.getElem?_eq_none (by simp; omega)]

/-- C11: `_factor_rhs(in_port)` never fails (in particular its assertion holds); with `p` the returned port and `r` the
reduced permutation, `self << m_{n-1 → in_port} = m_{n-1 → p} << (r + cid(1))`. -/
theorem C11_factor_rhs {p : List Nat} {i : Nat} (hp : Reachable (.perm p)) (hi : i < p.length) :
    ∃ o red m1 m2, factorRhs p i = .ok (o, red) ∧ p[i]? = some o ∧ Reachable red ∧ red.cdim = p.length - 1 ∧
      mapTuple [(p.length - 1, i)] p.length = .ok m1 ∧ mapTuple [(p.length - 1, o)] p.length = .ok m2 ∧
      ∃ q, compose p m1 = .ok q ∧ compose m2 (concatenate red.tuple [0]) = .ok q := by
  obtain ⟨o, red, e, hpo, r, d, h⟩ := factorRhs_ok hp hi
  have hv : Valid p := hp.valid
  have ho : o < p.length := by
    obtain ⟨h1, h2⟩ := List.getElem?_eq_some_iff.mp hpo
    rw [← h2]; exact hv.lt h1
  obtain ⟨m1, e1, l1, v1, a1, b1⟩ := mapTuple_single (show p.length - 1 < p.length by omega) hi
  obtain ⟨m2, e2, l2, v2, a2, b2⟩ := mapTuple_single (show p.length - 1 < p.length by omega) ho
  have hl : red.tuple.length = p.length - 1 := by rw [← r.cdim, d]
  have key := factor_equation r.valid hi ho hpo hl h e1 e2
  refine ⟨o, red, m1, m2, e, hpo, r, d, e1, e2, comp p m1, compose_ok l1.symm v1, ?_⟩
  have hfl : (fromBlocks [red.tuple, [0]]).length = p.length := by
    simp [fromBlocks, fromBlocksLoop, hl]; omega
  unfold concatenate
  by_cases hvb : Valid (fromBlocks [red.tuple, [0]])
  · rw [compose_ok (by rw [l2, hfl]) hvb, key]
  · exfalso
    apply hvb
    have hfb : fromBlocks [red.tuple, [0]] = red.tuple ++ [p.length - 1] := by simp [fromBlocks, fromBlocksLoop, hl]
    rw [hfb]
    apply valid_of_nodup_lt
    · rw [List.nodup_append]
      refine ⟨r.valid.nodup, by simp, ?_⟩
      intro a ha b hb
      have := (r.valid.mem_iff a).mp ha
      simp at hb; omega
    · intro x hx
      simp only [List.mem_append, List.mem_singleton] at hx
      simp only [List.length_append, List.length_singleton]
      rcases hx with hx | hx
      · have := (r.valid.mem_iff x).mp hx; omega
      · omega

/-- C11: the reduced permutation routes the remaining channels as before. -/
theorem C11_factor_rhs_pointwise {p : List Nat} {i o : Nat} {red : PC} (hp : Reachable (.perm p)) (hi : i < p.length)
    (h : factorRhs p i = .ok (o, red)) :
    p[i]? = some o ∧ ∀ l z : Nat, red.tuple[l]? = some z → p[skip i l]? = some (skip o z) := by
  obtain ⟨o', red', e, hpo, r, d, h'⟩ := factorRhs_ok hp hi
  rw [h] at e; injection e with e; obtain ⟨rfl, rfl⟩ := Prod.mk.inj e
  refine ⟨hpo, ?_⟩
  intro l z hz
  obtain ⟨h1, -⟩ := List.getElem?_eq_some_iff.mp hz
  have hl : l < p.length - 1 := by rw [← d, r.cdim]; exact h1
  obtain ⟨w, hw, hw'⟩ := h' l _ hl (List.getElem?_eq_getElem (up_lt (o := i) hl))
  rw [hz] at hw; injection hw with hw; subst hw
  rw [skip_eq_up, hw', List.getElem?_eq_getElem (up_lt (o := i) hl)]

/-- C11: `_factor_lhs(out_port)`: never fails, and `m_{out_port → n-1} << self = (r + cid(1)) << m_{p → n-1}`, stated
pointwise: the loop channel goes straight from `p` to `out_port` and `r` routes the others as before. -/
theorem C11_factor_lhs {p : List Nat} {o : Nat} (hp : Reachable (.perm p)) (ho : o < p.length) :
    ∃ i red, factorLhs p o = .ok (i, red) ∧ p[i]? = some o ∧ Reachable red ∧ red.cdim = p.length - 1 ∧
      ∀ l z : Nat, red.tuple[l]? = some z → p[skip i l]? = some (skip o z) := by
  obtain ⟨i, red, e, hpo, r, d, h'⟩ := factorLhs_ok hp ho
  refine ⟨i, red, e, hpo, r, d, ?_⟩
  intro l z hz
  obtain ⟨h1, -⟩ := List.getElem?_eq_some_iff.mp hz
  have hl : l < p.length - 1 := by rw [← d, r.cdim]; exact h1
  obtain ⟨w, hw, hw'⟩ := h' l _ hl (List.getElem?_eq_getElem (up_lt (o := i) hl))
  rw [hz] at hw; injection hw with hw; subst hw
  rw [skip_eq_up, hw', List.getElem?_eq_getElem (up_lt (o := i) hl)]

/-- `m_{a → b}` inverted is `m_{b → a}` -/
theorem mapTuple_inv {a b n : Nat} {m m' : List Nat} (ha : a < n) (hb : b < n) (e : mapTuple [(a, b)] n = .ok m)
    (e' : mapTuple [(b, a)] n = .ok m') : m' = inv m := by
  obtain ⟨m1, e1, l1, v1, a1, b1⟩ := mapTuple_single ha hb
  obtain ⟨m2, e2, l2, v2, a2, b2⟩ := mapTuple_single hb ha
  rw [e] at e1; injection e1 with e1; subst e1
  rw [e'] at e2; injection e2 with e2; subst e2
  apply List.ext_getElem (by simp [l1, l2])
  intro k h1 h2
  rw [inv_getElem]
  have hk : k < n := by omega
  by_cases h : k = b
  · subst h
    obtain ⟨h3, h4⟩ := List.getElem?_eq_some_iff.mp a1
    obtain ⟨h5, h6⟩ := List.getElem?_eq_some_iff.mp a2
    rw [h6, ← h4]
    simp only [h4]
    conv_rhs => rw [← h4]
    exact (v1.nodup.idxOf_getElem a h3).symm
  · have hd := b2 (down b k) (down_lt h hk hb)
    rw [up_down h] at hd
    obtain ⟨h5, h6⟩ := List.getElem?_eq_some_iff.mp hd
    rw [h6]
    have hd' := b1 (down b k) (down_lt h hk hb)
    rw [up_down h] at hd'
    obtain ⟨h7, h8⟩ := List.getElem?_eq_some_iff.mp hd'
    conv_rhs => rw [← h8]
    exact (v1.nodup.idxOf_getElem _ h7).symm

example : factorRhs [2, 3, 1, 0] 0 = .ok (2, .perm [2, 1, 0]) := by decide +kernel
example : factorLhs [2, 3, 1, 0] 1 = .ok (2, .perm [1, 2, 0]) := by decide +kernel

/-! ### C50: `extract_channel` -/

/-- C50: `extract_channel(k, n)` sends channel `k` to the last output and keeps the order of the others: it equals
`map_channels({k: n-1}, n)`. -/
theorem C50_extract_channel {k n : Nat} (hk : k < n) :
    ∃ c, extractChannel k n = .ok c ∧ mapChannels [(k, n - 1)] n = .ok c ∧ c.cdim = n ∧ c.tuple[k]? = some (n - 1) ∧
      ∀ j, j < n - 1 → c.tuple[skip k j]? = some j := by
  obtain ⟨p, e, hl, hv, h1, h2⟩ := mapTuple_single hk (show n - 1 < n by omega)
  have hp : p = List.range k ++ [n - 1] ++ List.range' k (n - 1 - k) := by
    apply List.ext_getElem (by simp; omega)
    intro j hj1 hj2
    by_cases hjk : j = k
    · subst hjk
      obtain ⟨h3, h4⟩ := List.getElem?_eq_some_iff.mp h1
      rw [h4]
      simp [List.getElem_append]
    · have h5 := h2 (down k j) (down_lt hjk (by omega) hk)
      rw [up_down hjk, up_last (down_lt hjk (by omega) hk)] at h5
      obtain ⟨h6, h7⟩ := List.getElem?_eq_some_iff.mp h5
      rw [h7]
      unfold down
      by_cases hlt : j < k
      · rw [if_pos hlt]; simp [List.getElem_append, hlt, show j < k + 1 by omega]
      · rw [if_neg hlt, List.getElem_append_right (by simp; omega)]; simp; omega
  have hc := create_ok hv
  have ht := create_tuple hc
  refine ⟨_, by unfold extractChannel; rw [← hp]; exact hc, by simp only [mapChannels, e]; exact hc,
    by rw [ht.2.2, hl], by rw [ht.2.1, h1], ?_⟩
  intro j hj
  have := h2 j hj
  rw [up_last hj] at this
  rw [ht.2.1, skip_eq_up, this]

example : extractChannel 1 4 = .ok (.perm [0, 3, 1, 2]) := by decide +kernel

/-! ### C51: `index_in_block` -/

theorem sum_take_le_of_le (s : List Nat) {i j : Nat} (h : i ≤ j) : (s.take i).sum ≤ (s.take j).sum := by
  obtain ⟨d, rfl⟩ : ∃ d, j = i + d := ⟨j - i, by omega⟩
  rw [List.take_add, List.sum_append]; omega

theorem blockSearch_spec (s : List Nat) (ch : Nat) (hch : ch < s.sum) : ∀ fuel i, s.sum ≤ i + fuel → 1 ≤ i →
    (s.take (i - 1)).sum ≤ ch → (∀ x ∈ s, 0 < x) →
    let r := blockSearch s s.sum ch i fuel
    1 ≤ r ∧ (s.take (r - 1)).sum ≤ ch ∧ ch < (s.take r).sum
  | 0, i, hf, hi, hb, hpos => by
    have hlen : s.length ≤ s.sum := by
      clear hf hi hb hch
      induction s with
      | nil => simp
      | cons a t ih =>
        have h1 := hpos a (by simp)
        have h2 := ih (fun x hx => hpos x (by simp [hx]))
        simp only [List.length_cons, List.sum_cons]; omega
    simp only [blockSearch]
    refine ⟨hi, hb, ?_⟩
    rw [List.take_of_length_le (by omega)]; exact hch
  | fuel + 1, i, hf, hi, hb, hpos => by
    unfold blockSearch
    split
    · rename_i h
      exact blockSearch_spec s ch hch fuel (i + 1) (by omega) (by omega) (by simpa using h.1) hpos
    · rename_i h
      refine ⟨hi, hb, ?_⟩
      rw [not_and_or] at h
      rcases h with h | h
      · omega
      · have hlen : s.length ≤ s.sum := by
          clear hf hi hb hch h
          induction s with
          | nil => simp
          | cons a t ih =>
            have h1 := hpos a (by simp)
            have h2 := ih (fun x hx => hpos x (by simp [hx]))
            simp only [List.length_cons, List.sum_cons]; omega
        rw [List.take_of_length_le (by omega)]; exact hch

/-- C51: for a circuit whose blocks all have at least one channel, `index_in_block(ch)` returns the pair `(j, b)` with
`ch = offset of block b + j` and `j < size of block b`; it raises `ValueError` exactly for `ch ≥ cdim`. -/
theorem C51_index_in_block {s : List Nat} {ch : Nat} (hpos : ∀ x ∈ s, 0 < x) :
    (s.sum ≤ ch → indexInBlock s s.sum ch = .error .valueError) ∧
    (ch < s.sum → ∃ j b z, indexInBlock s s.sum ch = .ok (j, b) ∧ s[b]? = some z ∧ j < z ∧ ch = offsetOf s b + j) := by
  constructor
  · intro h; simp [indexInBlock, h]
  · intro h
    unfold indexInBlock
    rw [if_neg (by omega)]
    split
    · rename_i h1
      match s, h1 with
      | [a], _ => exact ⟨ch, 0, a, rfl, rfl, by simpa using h, by simp [offsetOf]⟩
    · obtain ⟨h1, h2, h3⟩ := blockSearch_spec s ch h s.sum 1 (by omega) (by omega) (by simp) hpos
      set r := blockSearch s s.sum ch 1 s.sum with hr
      have hlt : r - 1 < s.length := by
        by_contra hc
        rw [List.take_of_length_le (by omega)] at h2
        omega
      have hs : (s.take r).sum = (s.take (r - 1)).sum + s[r - 1] := by
        obtain ⟨t, ht⟩ : ∃ t, r = t + 1 := ⟨r - 1, by omega⟩
        simp only [ht, Nat.add_sub_cancel] at hlt ⊢
        rw [List.take_add_one, List.getElem?_eq_getElem hlt, List.sum_append]
        simp only [Option.toList_some, List.sum_cons, List.sum_nil, Nat.add_zero]
      refine ⟨_, _, s[r - 1], rfl, List.getElem?_eq_getElem hlt, by omega, by unfold offsetOf; omega⟩

example : indexInBlock [2, 1, 3] 6 4 = .ok (1, 2) := by decide +kernel

end QNET.CPerm
