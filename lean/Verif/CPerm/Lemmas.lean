import Verif.CPerm.MapChan

/-! # Lemmas about series products, feedback and factoring of permutation circuits -/

namespace QNET.CPerm

open QNET.Perm QNET.Aff

/-- A permutation circuit that the API can return: some call of `CPermutation.create` returns it. -/
def Reachable (c : PC) : Prop := ∃ p, create p = .ok c

theorem Reachable.valid {c : PC} (h : Reachable c) : Valid c.tuple := by
  obtain ⟨p, e⟩ := h
  have := create_tuple e
  rw [this.2.1]; exact this.1

theorem Reachable.cdim {c : PC} (h : Reachable c) : c.cdim = c.tuple.length := by
  obtain ⟨p, e⟩ := h
  have := create_tuple e
  rw [this.2.1, this.2.2]

theorem reachable_cid (n : Nat) : Reachable (.cid n) :=
  ⟨List.range n, by rw [create_ok (valid_range n)]; simp⟩

theorem reachable_perm {p : List Nat} : Reachable (.perm p) ↔ Valid p ∧ p ≠ List.range p.length := by
  constructor
  · rintro ⟨q, e⟩
    have h := create_tuple e
    simp only [PC.tuple] at h
    refine ⟨h.2.1 ▸ h.1, ?_⟩
    intro hc
    obtain ⟨h1, h2, _⟩ := h
    subst h2
    rw [create_ok h1, if_pos hc] at e
    cases e
  · rintro ⟨h1, h2⟩
    exact ⟨p, by rw [create_ok h1, if_neg h2]⟩

theorem reachable_ext {c d : PC} (hc : Reachable c) (hd : Reachable d) (h : c.tuple = d.tuple) : c = d := by
  obtain ⟨p, hp⟩ := hc
  obtain ⟨q, hq⟩ := hd
  exact create_inj p q hp hq h

theorem swp_ok {p q : List Nat} (hp : Valid p) (hq : Valid q) (hl : p.length = q.length) :
    ∃ c, seriesWithPermutation p q = .ok c ∧ Reachable c ∧ c.tuple = comp p q := by
  unfold seriesWithPermutation
  have e : q.mapM (getItem p) = .ok (comp p q) := by
    unfold comp
    apply mapM_ok_of
    intro x hx
    have : x < p.length := by rw [hl]; exact (hq.mem_iff x).mp hx
    rw [getItem_ok this]; simp [this]
  rw [e]
  have hv := comp_valid hl hp hq
  refine ⟨_, create_ok hv, ⟨_, create_ok hv⟩, (create_tuple (create_ok hv)).2.1⟩

theorem comp_range_right {p : List Nat} : comp p (List.range p.length) = p := by
  apply List.ext_getElem (by simp)
  intro i h1 h2
  rw [comp_getElem (by simp) (valid_range _) (by simpa using h2)]; simp

theorem comp_range_left {p : List Nat} (h : Valid p) : comp (List.range p.length) p = p := by
  apply List.ext_getElem (by simp)
  intro i h1 h2
  rw [comp_getElem (by simp) h h2]; simp

theorem series_ok {a b : PC} (ha : Reachable a) (hb : Reachable b) (h : a.cdim = b.cdim) :
    ∃ c, series a b = .ok c ∧ Reachable c ∧ c.tuple = comp a.tuple b.tuple := by
  have va := ha.valid
  have vb := hb.valid
  rw [ha.cdim, hb.cdim] at h
  cases a with
  | perm p =>
    cases b with
    | perm q =>
      simp only [PC.tuple] at *
      obtain ⟨c, e, h1, h2⟩ := swp_ok va vb h
      exact ⟨c, by simp [series, h, e], h1, h2⟩
    | cid m =>
      simp only [PC.tuple, List.length_range] at *
      subst h
      exact ⟨.perm p, rfl, ha, comp_range_right.symm⟩
  | cid n =>
    cases b with
    | perm q =>
      simp only [PC.tuple, List.length_range] at *
      subst h
      exact ⟨.perm q, rfl, hb, (comp_range_left vb).symm⟩
    | cid m =>
      simp only [PC.tuple, List.length_range] at *
      subst h
      exact ⟨.cid n, rfl, ha, by
        have := comp_range_right (p := List.range n)
        simpa using this.symm⟩

theorem seriesInverse_ok {a : PC} (ha : Reachable a) :
    ∃ c, seriesInverse a = .ok c ∧ Reachable c ∧ c.tuple = inv a.tuple := by
  cases a with
  | perm p =>
    have h := reachable_perm.mp ha
    refine ⟨.perm (inv p), by simp [seriesInverse, invert_ok h.1]; rfl, reachable_perm.mpr ⟨inv_valid h.1, ?_⟩, rfl⟩
    intro hc
    apply h.2
    have := congrArg inv hc
    rw [inv_inv h.1] at this
    rw [this]
    simp only [inv_length]
    have e := inv_comp (valid_range p.length)
    rw [this]
    apply List.ext_getElem (by simp)
    intro i h1 h2
    rw [inv_getElem]
    simp only [inv_length, List.length_range] at h1 ⊢
    have := (List.nodup_range (n := p.length)).idxOf_getElem i (by simpa using h1)
    simpa using this
  | cid n =>
    refine ⟨.cid n, rfl, ha, ?_⟩
    simp only [PC.tuple]
    apply List.ext_getElem (by simp)
    intro i h1 h2
    rw [inv_getElem]
    simp only [List.length_range] at h1
    have := (List.nodup_range (n := n)).idxOf_getElem i (by simpa using h1)
    simpa using this.symm

theorem mapChannels_single {a b n : Nat} (ha : a < n) (hb : b < n) :
    ∃ c, mapChannels [(a, b)] n = .ok c ∧ Reachable c ∧ c.cdim = n ∧ c.tuple.length = n ∧ c.tuple[a]? = some b ∧
      ∀ l < n - 1, c.tuple[up a l]? = some (up b l) := by
  obtain ⟨p, e, hl, hv, h1, h2⟩ := mapTuple_single ha hb
  have hc := create_ok hv
  have ht := create_tuple hc
  refine ⟨_, by simp only [mapChannels, e]; exact hc, ⟨_, hc⟩, by rw [ht.2.2, hl], by rw [ht.2.1, hl], ?_, ?_⟩
  · rw [ht.2.1]; exact h1
  · rw [ht.2.1]; exact h2

theorem comp_getElem? {a b : List Nat} (hl : a.length = b.length) (hb : Valid b) {i x : Nat} (h : b[i]? = some x) :
    (comp a b)[i]? = a[x]? := by
  obtain ⟨hi, rfl⟩ := List.getElem?_eq_some_iff.mp h
  have : b[i] < a.length := by rw [hl]; exact hb.lt hi
  rw [List.getElem?_eq_getElem (by simpa using hi), comp_getElem hl hb hi, List.getElem?_eq_getElem this]

/-- The composite `m_{out → n-1} ≪ p ≪ m_{n-1 → inp}`. -/
theorem conjugate_ok {p : List Nat} {o i : Nat} (hp : Reachable (.perm p)) (ho : o < p.length) (hi : i < p.length) :
    ∃ c, conjugate p o i = .ok c ∧ Reachable c ∧ c.tuple.length = p.length ∧
      (∀ j x, j < p.length → p[if j = p.length - 1 then i else up i j]? = some x →
        c.tuple[j]? = some (if x = o then p.length - 1 else down o x)) := by
  have hv : Valid p := hp.valid
  obtain ⟨m1, e1, r1, d1, l1, a1, b1⟩ := mapChannels_single ho (show p.length - 1 < p.length by omega)
  obtain ⟨m2, e2, r2, d2, l2, a2, b2⟩ := mapChannels_single (show p.length - 1 < p.length by omega) hi
  obtain ⟨s1, e3, r3, t3⟩ := series_ok r1 hp (by rw [d1]; rfl)
  have t3 : s1.tuple = comp m1.tuple p := t3
  have l3 : s1.tuple.length = p.length := by rw [t3]; simp
  obtain ⟨s2, e4, r4, t4⟩ := series_ok r3 r2 (by rw [r3.cdim, l3, d2])
  refine ⟨s2, by simp only [conjugate, e1, e2, bind, Except.bind, e3, e4], r4, by rw [t4]; simp [l2], ?_⟩
  intro j x hj hx
  have hm2 : m2.tuple[j]? = some (if j = p.length - 1 then i else up i j) := by
    split
    · rename_i h; subst h; exact a2
    · have := b2 j (by omega)
      rwa [show up (p.length - 1) j = j from by unfold up; rw [if_pos (by omega)]] at this
  rw [t4, comp_getElem? (by rw [l3, l2]) r2.valid hm2, t3,
    comp_getElem? (by rw [l1]) hv hx]
  have hx' : x < p.length := by
    obtain ⟨h1, h2⟩ := List.getElem?_eq_some_iff.mp hx
    rw [← h2]; exact hv.lt h1
  split
  · rename_i h; subst h; exact a1
  · rename_i h
    have := b1 (down o x) (down_lt h hx' ho)
    rw [up_down h] at this
    rw [this, show up (p.length - 1) (down o x) = down o x from by
      unfold up; rw [if_pos (down_lt h hx' ho)]]

theorem perm_length_pos {p : List Nat} (hp : Reachable (.perm p)) : 2 ≤ p.length := by
  obtain ⟨hv, hne⟩ := reachable_perm.mp hp
  by_contra hc
  match p, hc with
  | [], _ => simp at hne
  | [x], _ =>
    have := hv.lt (i := 0) (by simp)
    simp at this
    subst this
    exact hne (by decide)
  | _ :: _ :: _, hc => simp at hc

/-- `CPermutation._feedback`. -/
theorem feedback_ok {p : List Nat} {o i : Nat} (hp : Reachable (.perm p)) (ho : o < p.length) (hi : i < p.length) :
    ∃ c, feedback p o i = .ok c ∧ Reachable c ∧ c.cdim = p.length - 1 ∧
      ∀ l x y, l < p.length - 1 → p[up i l]? = some x → p[i]? = some y → ∃ z, c.tuple[l]? = some z ∧
        (x ≠ o → up o z = x) ∧ (x = o → up o z = y) := by
  have hv : Valid p := hp.valid
  have hn := perm_length_pos hp
  obtain ⟨c, e, rc, lc, hc⟩ := conjugate_ok hp ho hi
  have hq : ∀ l x, l < p.length - 1 → p[up i l]? = some x →
      c.tuple[l]? = some (if x = o then p.length - 1 else down o x) := by
    intro l x hl hx
    exact hc l x (by omega) (by rw [if_neg (by omega)]; exact hx)
  have hlast : ∀ y, p[i]? = some y → c.tuple[p.length - 1]? = some (if y = o then p.length - 1 else down o y) := by
    intro y hy
    exact hc _ y (by omega) (by rw [if_pos rfl]; exact hy)
  have hinj : ∀ l, l < p.length - 1 → p[up i l]? ≠ p[i]? := by
    intro l hl h
    have h1 : up i l < p.length := up_lt hl
    rw [List.getElem?_eq_getElem h1, List.getElem?_eq_getElem hi] at h
    injection h with h
    exact up_ne i l ((hv.nodup.getElem_inj_iff).mp h)
  have vc := rc.valid
  cases c with
  | cid m =>
    simp only [PC.tuple, List.length_range] at *
    subst lc
    refine ⟨.cid (p.length - 1), by simp [feedback, e, bind, Except.bind], reachable_cid _, rfl, ?_⟩
    intro l x y hl hx hy
    refine ⟨l, by simp [PC.tuple, hl], ?_⟩
    have h1 := hq l x hl hx
    rw [List.getElem?_range (by omega)] at h1
    injection h1 with h1
    split at h1
    · omega
    · rename_i h; exact ⟨fun _ => by rw [h1, up_down h], fun h' => absurd h' h⟩
  | perm np =>
    simp only [PC.tuple] at vc lc hc hq hlast
    have hnm : p.length - 1 ∈ np := (vc.mem_iff _).mpr (by omega)
    have hidx := index_ok hnm
    have hidxlt : np.idxOf (p.length - 1) < np.length := List.idxOf_lt_length_iff.mpr hnm
    have hget := getItem_ok (s := np) (i := p.length - 1) (by omega)
    set r := (np.set (np.idxOf (p.length - 1)) (np[p.length - 1]'(by omega))).dropLast with hr
    have hrl : r.length = p.length - 1 := by simp [hr, lc]
    obtain ⟨y, hy⟩ : ∃ y, p[i]? = some y := ⟨_, List.getElem?_eq_getElem hi⟩
    have hy' : y < p.length := by
      obtain ⟨h1, h2⟩ := List.getElem?_eq_some_iff.mp hy
      rw [← h2]; exact hv.lt h1
    have hlastval := hlast y hy
    rw [List.getElem?_eq_getElem (by omega)] at hlastval
    injection hlastval with hlastval
    have hrget : ∀ l x, l < p.length - 1 → p[up i l]? = some x →
        r[l]? = some (if x = o then down o y else down o x) := by
      intro l x hl hx
      have h1 := hq l x hl hx
      have h2 : r[l]? = (np.set (np.idxOf (p.length - 1)) (np[p.length - 1]'(by omega)))[l]? := by
        rw [hr, List.getElem?_dropLast]; rw [if_pos]; simp; omega
      rw [h2]
      by_cases hxo : x = o
      · rw [if_pos hxo] at h1
        obtain ⟨h3, h4⟩ := List.getElem?_eq_some_iff.mp h1
        have h5 : np.idxOf (p.length - 1) = l := by
          rw [← h4]; exact vc.nodup.idxOf_getElem l h3
        rw [if_pos hxo, List.getElem?_set, if_pos h5, if_pos hidxlt, hlastval, if_neg]
        intro h6
        exact hinj l hl (by rw [hx, hy, hxo, h6])
      · rw [if_neg hxo] at h1 ⊢
        have hx' : x < p.length := by
          obtain ⟨h1, h2⟩ := List.getElem?_eq_some_iff.mp hx
          rw [← h2]; exact hv.lt h1
        rw [List.getElem?_set, if_neg, h1]
        intro h5
        obtain ⟨h3, h4⟩ := List.getElem?_eq_some_iff.mp h1
        have h6 : np[np.idxOf (p.length - 1)]'hidxlt = p.length - 1 := by simp
        have h7 := down_lt hxo hx' ho
        simp only [h5] at h6
        omega
    have hrv : Valid r := by
      apply valid_of_nodup_lt
      · rw [List.nodup_iff_injective_getElem]
        intro ⟨a, ha⟩ ⟨b, hb⟩ hab
        simp only at hab
        rw [hrl] at ha hb
        have hga : up i a < p.length := up_lt ha
        have hgb : up i b < p.length := up_lt hb
        have h1 := hrget a _ ha (List.getElem?_eq_getElem hga)
        have h2 := hrget b _ hb (List.getElem?_eq_getElem hgb)
        rw [List.getElem?_eq_getElem (by omega)] at h1 h2
        injection h1 with h1
        injection h2 with h2
        have hya : p[up i a] ≠ y := fun h => hinj a ha (by rw [List.getElem?_eq_getElem hga, hy, h])
        have hyb : p[up i b] ≠ y := fun h => hinj b hb (by rw [List.getElem?_eq_getElem hgb, hy, h])
        have hdinj : ∀ s t, s ≠ o → t ≠ o → down o s = down o t → s = t := by
          intro s t hs ht h
          have := congrArg (up o) h
          rwa [up_down hs, up_down ht] at this
        have hfin : p[up i a] = p[up i b] := by
          rw [h1, h2] at hab
          split at hab <;> split at hab
          · omega
          · rename_i c1 c2
            exfalso
            have hyo : y ≠ o := fun h => hya (by omega)
            exact hyb (hdinj _ _ hyo c2 hab).symm
          · rename_i c1 c2
            exfalso
            have hyo : y ≠ o := fun h => hyb (by omega)
            exact hya (hdinj _ _ c1 hyo hab)
          · rename_i c1 c2; exact hdinj _ _ c1 c2 hab
        have := up_inj ((hv.nodup.getElem_inj_iff).mp hfin)
        simp [this]
      · intro z hz
        obtain ⟨l, hl, rfl⟩ := List.mem_iff_getElem.mp hz
        rw [hrl] at hl
        have hg : up i l < p.length := up_lt hl
        have h1 := hrget l _ hl (List.getElem?_eq_getElem hg)
        rw [List.getElem?_eq_getElem (by omega)] at h1
        injection h1 with h1
        rw [h1, hrl]
        split
        · rename_i hh
          apply down_lt _ hy' ho
          intro h
          exact hinj l hl (by rw [List.getElem?_eq_getElem hg, hy, h, hh])
        · rename_i hh; exact down_lt hh (hv.lt hg) ho
    have hcr := create_ok hrv
    have htr := create_tuple hcr
    refine ⟨_, by simp only [feedback, e, bind, Except.bind, hidx, hget]; exact hcr, ⟨_, hcr⟩,
      by rw [htr.2.2, hrl], ?_⟩
    intro l x y' hl hx hy2
    rw [hy] at hy2; injection hy2 with hy2; subst hy2
    refine ⟨_, by rw [htr.2.1]; exact hrget l x hl hx, ?_, ?_⟩
    · intro h; rw [if_neg h, up_down h]
    · intro h; rw [if_pos h, up_down]
      intro h'; exact hinj l hl (by rw [hx, hy, h, h'])

theorem conj_straight {p : List Nat} {o i : Nat} (hp : Reachable (.perm p)) (hi : i < p.length)
    (hpo : p[i]? = some o) (ho : o < p.length) :
    ∃ c, conjugate p o i = .ok c ∧ Reachable c ∧ c.tuple.length = p.length ∧
      c.tuple[p.length - 1]? = some (p.length - 1) ∧
      (∀ l x, l < p.length - 1 → p[up i l]? = some x → c.tuple[l]? = some (down o x) ∧ x ≠ o) := by
  have hv : Valid p := hp.valid
  obtain ⟨c, e, rc, lc, hc⟩ := conjugate_ok hp ho hi
  refine ⟨c, e, rc, lc, ?_, ?_⟩
  · have := hc (p.length - 1) o (by omega) (by rw [if_pos rfl]; exact hpo)
    rwa [if_pos rfl] at this
  · intro l x hl hx
    have hxo : x ≠ o := by
      rintro rfl
      have h1 := up_lt (o := i) hl
      rw [← hx, List.getElem?_eq_getElem h1, List.getElem?_eq_getElem hi] at hpo
      injection hpo with h
      exact up_ne i l ((hv.nodup.getElem_inj_iff).mp h).symm
    have := hc l x (by omega) (by rw [if_neg (by omega)]; exact hx)
    rw [if_neg hxo] at this
    exact ⟨this, hxo⟩

theorem dropLast_valid {q : List Nat} (hv : Valid q) {n : Nat} (hl : q.length = n) (hn : 0 < n)
    (h : q[n - 1]? = some (n - 1)) : Valid q.dropLast := by
  have h1 := List.getElem?_eq_some_iff.mp h
  apply valid_of_nodup_lt
  · exact hv.nodup.sublist (List.dropLast_sublist q)
  · intro x hx
    obtain ⟨l, hl2, rfl⟩ := List.mem_iff_getElem.mp hx
    simp only [List.length_dropLast] at hl2 ⊢
    rw [List.getElem_dropLast]
    have h2 := hv.lt (i := l) (by omega)
    have h3 : q[l] ≠ n - 1 := by
      intro hc
      have := (hv.nodup.getElem_inj_iff (hi := by omega) (hj := h1.1)).mp (hc.trans h1.2.symm)
      omega
    omega

/-- common tail of `_factor_rhs` and `_factor_lhs` -/
theorem factor_core {p : List Nat} {o i : Nat} (hp : Reachable (.perm p)) (hi : i < p.length)
    (hpo : p[i]? = some o) (ho : o < p.length) :
    ∃ red, (do
        let c ← conjugate p o i
        match c with
        | .perm q => do
          let last ← getItem q (p.length - 1)
          if last ≠ p.length - 1 then .error .assertion else do
            let red ← create q.dropLast
            .ok red
        | .cid _ => .ok (.cid (p.length - 1)) : Res PC) = .ok red ∧ Reachable red ∧ red.cdim = p.length - 1 ∧
      ∀ l x, l < p.length - 1 → p[up i l]? = some x → ∃ z, red.tuple[l]? = some z ∧ up o z = x := by
  have hn := perm_length_pos hp
  obtain ⟨c, e, rc, lc, h1, h2⟩ := conj_straight hp hi hpo ho
  have vc := rc.valid
  cases c with
  | cid m =>
    simp only [PC.tuple, List.length_range] at *
    subst lc
    refine ⟨.cid (p.length - 1), by simp [e, bind, Except.bind], reachable_cid _, rfl, ?_⟩
    intro l x hl hx
    obtain ⟨h3, h4⟩ := h2 l x hl hx
    rw [List.getElem?_range (by omega)] at h3
    injection h3 with h3
    exact ⟨l, by simp [PC.tuple, hl], by rw [h3, up_down h4]⟩
  | perm q =>
    simp only [PC.tuple] at vc lc h1 h2
    have hdv := dropLast_valid vc lc (by omega) h1
    have hcr := create_ok hdv
    have htr := create_tuple hcr
    have hget : getItem q (p.length - 1) = .ok (p.length - 1) := getItem_eq_ok_iff.mpr h1
    refine ⟨_, by simp only [e, bind, Except.bind, hget, ne_eq, not_true_eq_false, if_false, hcr], ⟨_, hcr⟩,
      by rw [htr.2.2]; simp [lc], ?_⟩
    intro l x hl hx
    obtain ⟨h3, h4⟩ := h2 l x hl hx
    refine ⟨_, ?_, up_down h4⟩
    rw [htr.2.1, List.getElem?_dropLast, if_pos (by omega)]; exact h3

theorem factorRhs_ok {p : List Nat} {i : Nat} (hp : Reachable (.perm p)) (hi : i < p.length) :
    ∃ o red, factorRhs p i = .ok (o, red) ∧ p[i]? = some o ∧ Reachable red ∧ red.cdim = p.length - 1 ∧
      ∀ l x, l < p.length - 1 → p[up i l]? = some x → ∃ z, red.tuple[l]? = some z ∧ up o z = x := by
  have hv : Valid p := hp.valid
  have hpo := List.getElem?_eq_getElem hi
  obtain ⟨red, e, r1, r2, r3⟩ := factor_core hp hi hpo (hv.lt hi)
  refine ⟨p[i], red, ?_, hpo, r1, r2, r3⟩
  simp only [factorRhs, getItem_ok hi, bind, Except.bind] at e ⊢
  cases hcj : conjugate p p[i] i with
  | error x => rw [hcj] at e; simp at e
  | ok c =>
    rw [hcj] at e
    cases c with
    | cid m => simp at e ⊢; exact e
    | perm q =>
      simp only at e ⊢
      cases hg : getItem q (p.length - 1) with
      | error x => rw [hg] at e; simp at e
      | ok last =>
        rw [hg] at e
        simp only at e ⊢
        split at e
        · cases e
        · rename_i hne
          rw [if_neg hne]
          cases hcr : create q.dropLast with
          | error x => rw [hcr] at e; simp at e
          | ok red' => rw [hcr] at e; simp at e ⊢; exact e

theorem factorLhs_ok {p : List Nat} {o : Nat} (hp : Reachable (.perm p)) (ho : o < p.length) :
    ∃ i red, factorLhs p o = .ok (i, red) ∧ p[i]? = some o ∧ Reachable red ∧ red.cdim = p.length - 1 ∧
      ∀ l x, l < p.length - 1 → p[up i l]? = some x → ∃ z, red.tuple[l]? = some z ∧ up o z = x := by
  have hv : Valid p := hp.valid
  have hmem : o ∈ p := (hv.mem_iff o).mpr ho
  have hi : p.idxOf o < p.length := List.idxOf_lt_length_iff.mpr hmem
  have hpo : p[p.idxOf o]? = some o := by rw [List.getElem?_eq_getElem hi]; simp
  obtain ⟨red, e, r1, r2, r3⟩ := factor_core hp hi hpo ho
  refine ⟨p.idxOf o, red, ?_, hpo, r1, r2, r3⟩
  simp only [factorLhs, ho, not_true_eq_false, if_false, index_ok hmem, bind, Except.bind] at e ⊢
  cases hcj : conjugate p o (p.idxOf o) with
  | error x => rw [hcj] at e; simp at e
  | ok c =>
    rw [hcj] at e
    cases c with
    | cid m => simp at e ⊢; exact e
    | perm q =>
      simp only at e ⊢
      cases hg : getItem q (p.length - 1) with
      | error x => rw [hg] at e; simp at e
      | ok last =>
        rw [hg] at e
        simp only at e ⊢
        split at e
        · cases e
        · rename_i hne
          rw [if_neg hne]
          cases hcr : create q.dropLast with
          | error x => rw [hcr] at e; simp at e
          | ok red' => rw [hcr] at e; simp at e ⊢; exact e

end QNET.CPerm
