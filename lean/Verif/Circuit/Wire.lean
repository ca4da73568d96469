import Verif.Circuit.Pad

/-!
# Wiring specification for `connect` and the algebra behind it

`Wired` says what it means that `r` is the triple `s` with some outputs fed into some inputs. Stated with the input/output
relation of `Verif/SLH/Spec.lean` alone, without functions of the model.
-/

namespace QNET.SLH

open Finset QNET.Perm

variable {A : Type} [Ring A] [StarRing A] [Algebra ℂ A]

/-- How many ports below `j` are not in the list. -/
def freeBelow (ports : List ℕ) (j : ℕ) : ℕ := ((range j).filter (fun i => i ∉ ports)).card

/-- The inputs of the full system, if the signals on the connections are `w 0, w 1, …` (connection `k` ends in input
`ins[k]`) and the other inputs, in increasing order, are `u 0, u 1, …`. -/
def wiredInput (ins : List ℕ) (w u : ℕ → A) (j : ℕ) : A :=
  if j ∈ ins then w (ins.idxOf j) else u (freeBelow ins j)

/-- `r` is `s` with output `outs[k]` connected to input `ins[k]` for all `k`: for all external inputs `u` there is exactly one
choice of the signals `w` on the connections that is consistent with the outputs of `s`; with it, the remaining outputs of
`s` (in increasing order) are those of `r`, and the drift rows agree. -/
def Wired (s r : SLH A) (outs ins : List ℕ) : Prop :=
  r.n = s.n - outs.length ∧ ∀ u : ℕ → A, ∃ w : ℕ → A,
    (∀ k o : ℕ, outs[k]? = some o → output s (wiredInput ins w u) o = w k) ∧
    (∀ w' : ℕ → A, (∀ k o : ℕ, outs[k]? = some o → output s (wiredInput ins w' u) o = w' k) → ∀ k, k < outs.length → w' k = w k) ∧
    (∀ j, j < s.n → j ∉ outs → output s (wiredInput ins w u) j = output r u (freeBelow outs j)) ∧
    driftOutput s (wiredInput ins w u) = driftOutput r u

/-! ### congruence, series, permutations -/

theorem output_congr {a : SLH A} {v v' : ℕ → A} (h : ∀ j, j < a.n → v j = v' j) (k : ℕ) : output a v k = output a v' k := by
  unfold output
  congr 1
  exact Finset.sum_congr rfl (fun j hj => by rw [h j (mem_range.mp hj)])

theorem driftOutput_congr {a : SLH A} {v v' : ℕ → A} (h : ∀ j, j < a.n → v j = v' j) : driftOutput a v = driftOutput a v' := by
  unfold driftOutput
  congr 1
  exact Finset.sum_congr rfl (fun j hj => by rw [h j (mem_range.mp hj)])

variable [StarModule ℂ A]

theorem output_series {a b : SLH A} (hn : a.n = b.n) (v : ℕ → A) {k : ℕ} (hk : k < a.n) :
    output (series a b) v k = output a (output b v) k := by
  unfold output
  rw [series_n]
  have e1 : ∀ j, j < a.n → (series a b).S k j = ∑ m ∈ range a.n, a.S k m * b.S m j := fun j hj => mk'_S hk hj
  have e2 : (series a b).L k = ∑ m ∈ range a.n, a.S k m * b.L m + a.L k := mk'_L hk
  rw [e2, Finset.sum_congr rfl (fun j hj => by rw [e1 j (mem_range.mp hj)])]
  simp only [mul_add, Finset.sum_add_distrib, Finset.sum_mul, Finset.mul_sum, hn]
  rw [Finset.sum_comm]
  simp only [mul_assoc]
  abel


theorem driftOutput_aff (a : SLH A) (v : ℕ → A) : driftOutput a v = ∑ j ∈ range a.n, (toAff a).R j * v j + (toAff a).K := by
  unfold driftOutput
  congr 1
  exact Finset.sum_congr rfl (fun j _ => by rw [toAff_R']; rfl)

theorem driftOutput_series {a b : SLH A} (hn : a.n = b.n) (ha : Iso a) (v : ℕ → A) :
    driftOutput (series a b) v = driftOutput a (output b v) + driftOutput b v := by
  simp only [driftOutput_aff, toAff_series hn ha, series_n]
  have e1 : ∀ j, j < a.n → (Aff.series (toAff a) (toAff b)).R j = (toAff b).R j + ∑ k ∈ range a.n, (toAff a).R k * b.S k j := by
    intro j hj
    show (if j < a.n then _ else _) = _
    rw [if_pos hj]
    simp only [toAff_n, toAff_S]
  have e2 : (Aff.series (toAff a) (toAff b)).K = (toAff a).K + (toAff b).K + ∑ k ∈ range a.n, (toAff a).R k * b.L k := by
    show (toAff a).K + (toAff b).K + ∑ k ∈ range a.n, (toAff a).R k * (toAff b).L k = _
    simp only [toAff_L]
  rw [e2, Finset.sum_congr rfl (fun j hj => by rw [e1 j (mem_range.mp hj)])]
  simp only [output, add_mul, mul_add, Finset.sum_add_distrib, Finset.sum_mul, Finset.mul_sum, hn, mul_assoc]
  rw [Finset.sum_comm (s := range b.n) (t := range b.n)]
  abel

theorem output_ofPerm {p : List Nat} (h : Valid p) (v : ℕ → A) {j k : ℕ} (hj : p[j]? = some k) : output (ofPerm p : SLH A) v k = v j := by
  unfold output
  rw [ofPerm_n, Circuit.ofPerm_L, add_zero, Finset.sum_eq_single j]
  · rw [Circuit.ofPerm_S h, if_pos hj, one_mul]
  · intro m _ hm
    rw [Circuit.ofPerm_S h, if_neg, zero_mul]
    intro hc; exact hm (Aff.Valid.getElem?_inj h hc hj)
  · intro hc; exact absurd (Finset.mem_range.mpr (Aff.Valid.getElem?_lt h hj).1) hc

theorem driftOutput_ofPerm (p : List Nat) (v : ℕ → A) : driftOutput (ofPerm p : SLH A) v = 0 := by
  unfold driftOutput drift noiseCoeff
  have : (ofPerm p : SLH A).H = 0 := rfl
  simp [Circuit.ofPerm_L, this]

/-! ### closing the last channels one after the other -/

/-- The loop `for k in range(nfb): combined = combined.feedback()` on triples. -/
noncomputable def closeLast : ℕ → SLH A → Res (SLH A)
  | 0, a => .ok a
  | m + 1, a => do
    let b ← feedback a (a.n - 1) (a.n - 1)
    closeLast m b

/-- inputs of a system whose last `m` inputs are `w` -/
def appendInput (n m : ℕ) (w u : ℕ → A) (j : ℕ) : A := if j < n - m then u j else w (j - (n - m))


theorem feedback_iso {a b : SLH A} {o i : ℕ} (ha : Iso a) (ho : o < a.n) (hi : i < a.n) (hb : feedback a o i = .ok b) :
    Iso b ∧ b.n = a.n - 1 := by
  by_cases hw : WellPosed a o i
  · obtain ⟨c, hc, hx⟩ := hw
    obtain ⟨b', e, h1, -, h2, -⟩ := feedback_ok ha ho hi hc hx
    rw [e] at hb; injection hb with hb; subst hb
    exact ⟨h2, h1⟩
  · rw [feedback_err ha ho hi hw] at hb; cases hb

theorem closeLast_wired : ∀ (m : ℕ) (t r : SLH A), Iso t → m ≤ t.n → closeLast m t = .ok r →
    Iso r ∧ r.n = t.n - m ∧ ∀ u : ℕ → A, ∃ w : ℕ → A,
      (∀ k, k < m → output t (appendInput t.n m w u) (t.n - m + k) = w k) ∧
      (∀ w' : ℕ → A, (∀ k, k < m → output t (appendInput t.n m w' u) (t.n - m + k) = w' k) → ∀ k, k < m → w' k = w k) ∧
      (∀ k, k < t.n - m → output t (appendInput t.n m w u) k = output r u k) ∧
      driftOutput t (appendInput t.n m w u) = driftOutput r u
  | 0, t, r, ht, _, h => by
    injection h with h; subst h
    refine ⟨ht, rfl, fun u => ⟨u, ?_, ?_, ?_, ?_⟩⟩
    · intro k hk; omega
    · intro _ _ k hk; omega
    · intro k _
      exact output_congr (fun j hj => if_pos hj) k
    · exact driftOutput_congr (fun j hj => if_pos hj)
  | m + 1, t, r, ht, hm, h => by
    obtain ⟨b, hb, h⟩ := (Circuit.bind_ok.mp h)
    have hlt : t.n - 1 < t.n := by omega
    obtain ⟨hbi, hbn⟩ := feedback_iso ht hlt hlt hb
    obtain ⟨hr, hrn, IH⟩ := closeLast_wired m b r hbi (by omega) h
    refine ⟨hr, by omega, fun u => ?_⟩
    obtain ⟨w, w1, w2, w3, w4⟩ := IH u
    -- inputs of `t` made from those of `b`
    have hin : ∀ (w : ℕ → A) (x : A) (j : ℕ), j < t.n →
        loopInput (t.n - 1) x (appendInput b.n m w u) j = appendInput t.n (m + 1) (fun k => if k = m then x else w k) u j := by
      intro w x j hj
      unfold loopInput appendInput
      by_cases h1 : j = t.n - 1
      · rw [if_pos h1, if_neg (by omega)]; beta_reduce; rw [if_pos (by omega)]
      · rw [if_neg h1, if_pos (by omega)]
        by_cases h2 : j < t.n - (m + 1)
        · rw [if_pos (by omega), if_pos h2]
        · rw [if_neg (by omega), if_neg h2]; beta_reduce; rw [if_neg (by omega)]
          congr 1; omega
    obtain ⟨x, x1, x2, x3, x4⟩ := C16_io_elimination ht hlt hlt hb (appendInput b.n m w u)
    have hskip : ∀ k, k < t.n - 1 → CPerm.skip (t.n - 1) k = k := fun k hk => if_pos hk
    refine ⟨fun k => if k = m then x else w k, ?_, ?_, ?_, ?_⟩
    · intro k hk
      rw [← output_congr (hin w x)]
      beta_reduce
      by_cases h1 : k = m
      · rw [if_pos h1]
        rw [show t.n - (m + 1) + k = t.n - 1 by omega]
        exact x1
      · rw [if_neg h1]
        have := x3 (t.n - (m + 1) + k) (by omega)
        rw [hskip _ (by omega)] at this
        rw [this, ← w1 k (by omega)]
        congr 1; omega
    · intro w' hw' k hk
      -- the last signal is determined by the others
      have hin' : ∀ j, j < t.n → loopInput (t.n - 1) (w' m) (appendInput b.n m w' u) j = appendInput t.n (m + 1) w' u j := by
        intro j hj
        rw [hin w' (w' m) j hj]
        unfold appendInput
        split
        · rfl
        · beta_reduce
          split
          · rename_i h; rw [h]
          · rfl
      obtain ⟨y, y1, y2, y3, -⟩ := C16_io_elimination ht hlt hlt hb (appendInput b.n m w' u)
      have hy : w' m = y := by
        apply y2
        rw [output_congr hin']
        have := hw' m (by omega)
        rwa [show t.n - (m + 1) + m = t.n - 1 by omega] at this
      have hlow : ∀ k, k < m → w' k = w k := by
        apply w2
        intro k hk
        have e1 := y3 (b.n - m + k) (by omega)
        rw [hskip _ (by omega), ← hy, output_congr hin'] at e1
        rw [← e1, ← hw' k (by omega)]
        congr 1; omega
      show w' k = if k = m then x else w k
      by_cases h1 : k = m
      · rw [if_pos h1, h1, hy]
        refine x2 y ?_
        rw [output_congr (v' := loopInput (t.n - 1) y (appendInput b.n m w' u))]
        · exact y1
        · intro j hj
          unfold loopInput
          split
          · rfl
          · rw [if_pos (by omega), if_pos (by omega)]
            unfold appendInput
            split
            · rfl
            · exact (hlow _ (by omega)).symm
      · rw [if_neg h1]; exact hlow k (by omega)
    · intro k hk
      rw [← output_congr (hin w x)]
      have := x3 k (by omega)
      rw [hskip _ (by omega)] at this
      rw [this]; exact w3 k (by omega)
    · rw [← driftOutput_congr (hin w x), x4, w4]

/-! ### routing the ports to the last channels -/

omit [StarRing A] [Algebra ℂ A] [StarModule ℂ A] [Ring A] in
theorem freeBelow_eq {p : List Nat} {n m : ℕ} {ports : List ℕ} (hp : Valid p) (hn : p.length = n) (hl : ports.length = m) (hm : m ≤ n)
    (h1 : ∀ k o : ℕ, ports[k]? = some o → p[o]? = some (n - m + k))
    (h2 : ∀ i j x y : ℕ, i < j → i ∉ ports → j ∉ ports → p[i]? = some x → p[j]? = some y → x < y)
    {j x : ℕ} (hj : j ∉ ports) (hx : p[j]? = some x) : x = freeBelow ports j ∧ x < n - m := by
  have hlow : ∀ j x : ℕ, j ∉ ports → p[j]? = some x → x < n - m := by
    intro j x hj hx
    by_contra hc
    have hxn := (Aff.Valid.getElem?_lt hp hx).2
    have hk : x - (n - m) < ports.length := by omega
    have e := h1 _ _ (List.getElem?_eq_getElem hk)
    rw [show n - m + (x - (n - m)) = x by omega] at e
    have := Aff.Valid.getElem?_inj hp hx e
    exact hj (this ▸ List.getElem_mem _)
  refine ⟨?_, hlow j x hj hx⟩
  unfold freeBelow
  have hjl := (Aff.Valid.getElem?_lt hp hx).1
  rw [← Finset.card_range x]
  symm
  refine Finset.card_bij (fun i _ => p.getD i 0) ?_ ?_ ?_
  · intro i hi
    rw [mem_filter, mem_range] at hi
    have hil : i < p.length := by omega
    rw [List.getD_eq_getElem?_getD, List.getElem?_eq_getElem hil, Option.getD_some, mem_range]
    exact h2 i j _ x hi.1 hi.2 hj (List.getElem?_eq_getElem hil) hx
  · intro i hi i' hi' e
    rw [mem_filter, mem_range] at hi hi'
    have hil : i < p.length := by omega
    have hil' : i' < p.length := by omega
    rw [List.getD_eq_getElem?_getD, List.getD_eq_getElem?_getD, List.getElem?_eq_getElem hil, List.getElem?_eq_getElem hil',
      Option.getD_some, Option.getD_some] at e
    exact (hp.nodup.getElem_inj_iff).mp e
  · intro y hy
    rw [mem_range] at hy
    obtain ⟨i, hi, e⟩ := Aff.Valid.exists_preimage hp (k := y) (by have := (Aff.Valid.getElem?_lt hp hx).2; omega)
    refine ⟨i, ?_, ?_⟩
    · rw [mem_filter, mem_range]
      have hip : i ∉ ports := by
        intro hc
        obtain ⟨k, hk⟩ := List.mem_iff_getElem?.mp hc
        have := h1 k i hk
        rw [this] at e
        injection e with e
        have := hlow j x hj hx
        omega
      refine ⟨?_, hip⟩
      rcases Nat.lt_trichotomy i j with h | h | h
      · exact h
      · subst h; rw [hx] at e; injection e with e; omega
      · have := h2 j i x y h hj hip hx e; omega
    · rw [List.getD_eq_getElem?_getD, e]; rfl

theorem wired_of_perms {s r : SLH A} {po pi : List Nat} {outs ins : List ℕ} (hs : Iso s) (hpo : Valid po) (hpi : Valid pi)
    (hno : po.length = s.n) (hni : pi.length = s.n) (hl : ins.length = outs.length) (hm : outs.length ≤ s.n)
    (o1 : ∀ k o : ℕ, outs[k]? = some o → po[o]? = some (s.n - outs.length + k))
    (o2 : ∀ i j x y : ℕ, i < j → i ∉ outs → j ∉ outs → po[i]? = some x → po[j]? = some y → x < y)
    (i1 : ∀ k i : ℕ, ins[k]? = some i → pi[s.n - outs.length + k]? = some i)
    (i2 : ∀ i j x y : ℕ, i < j → j < s.n - outs.length → pi[i]? = some x → pi[j]? = some y → x < y)
    (h : closeLast outs.length (series (series (ofPerm po) s) (ofPerm pi)) = .ok r) : Wired s r outs ins := by
  set t := series (series (ofPerm po) s) (ofPerm pi) with htdef
  have htn : t.n = s.n := hno
  have hoi : Iso (series (ofPerm po) s) := Iso.series hno (Iso.ofPerm hpo) hs
  have hti : Iso t := Iso.series (by show po.length = pi.length; omega) hoi (Iso.ofPerm hpi)
  obtain ⟨hr, hrn, H⟩ := closeLast_wired outs.length t r hti (by omega) h
  -- the inputs seen by `s`
  have q1 : ∀ k i : ℕ, ins[k]? = some i → (inv pi)[i]? = some (s.n - outs.length + k) := by
    intro k i hk
    obtain ⟨a, b⟩ := List.getElem?_eq_some_iff.mp (i1 k i hk)
    subst b
    rw [List.getElem?_eq_some_iff]
    exact ⟨by simpa using hpi.lt a, inv_getElem_getElem hpi a⟩
  have qinv : ∀ i x : ℕ, (inv pi)[i]? = some x → pi[x]? = some i := by
    intro i x hx
    obtain ⟨a, b⟩ := List.getElem?_eq_some_iff.mp hx
    have ha : i < pi.length := by simpa using a
    obtain ⟨j, hj, e⟩ := Aff.Valid.exists_preimage hpi ha
    obtain ⟨c, d⟩ := List.getElem?_eq_some_iff.mp e
    have := inv_getElem_getElem hpi c
    subst d
    rw [← b, this]; exact e
  have q2 : ∀ i j x y : ℕ, i < j → i ∉ ins → j ∉ ins → (inv pi)[i]? = some x → (inv pi)[j]? = some y → x < y := by
    intro i j x y hij hi hj hx hy
    have hx' := qinv _ _ hx
    have hy' := qinv _ _ hy
    have hlow : ∀ i x : ℕ, i ∉ ins → pi[x]? = some i → x < s.n - outs.length := by
      intro i x hi hx
      by_contra hc
      have hxn := (Aff.Valid.getElem?_lt hpi hx).1
      have hk : x - (s.n - outs.length) < ins.length := by omega
      have e := i1 _ _ (List.getElem?_eq_getElem hk)
      rw [show s.n - outs.length + (x - (s.n - outs.length)) = x by omega, hx] at e
      injection e with e
      exact hi (e ▸ List.getElem_mem _)
    have hxl := hlow i x hi hx'
    have hyl := hlow j y hj hy'
    rcases Nat.lt_trichotomy x y with h | h | h
    · exact h
    · subst h; rw [hx'] at hy'; injection hy' with hy'; omega
    · have := i2 y x j i h hxl hy' hx'; omega
  have hinp : ∀ (w u : ℕ → A) (j : ℕ), j < s.n → output (ofPerm pi : SLH A) (appendInput t.n outs.length w u) j = wiredInput ins w u j := by
    intro w u j hj
    obtain ⟨x, hx, e⟩ := Aff.Valid.exists_preimage hpi (k := j) (by omega)
    have hxi : (inv pi)[j]? = some x := by
      obtain ⟨a, b⟩ := List.getElem?_eq_some_iff.mp e
      subst b
      rw [List.getElem?_eq_some_iff]
      exact ⟨by simpa using hpi.lt a, inv_getElem_getElem hpi a⟩
    rw [output_ofPerm hpi _ e, htn]
    unfold wiredInput appendInput
    by_cases hc : j ∈ ins
    · rw [if_pos hc]
      have hk := List.idxOf_lt_length_iff.mpr hc
      have e2 := q1 (ins.idxOf j) j (by rw [List.getElem?_eq_getElem hk, List.getElem_idxOf])
      rw [hxi] at e2; injection e2 with e2
      rw [if_neg (by omega)]
      congr 1; omega
    · rw [if_neg hc]
      obtain ⟨h1, h2⟩ := freeBelow_eq (inv_valid hpi) (by simpa using hni) hl hm q1 q2 hc hxi
      rw [if_pos h2, h1]
  -- the outputs of `t` are those of `s`
  have hout : ∀ (w u : ℕ → A) (j k : ℕ), po[j]? = some k → output t (appendInput t.n outs.length w u) k = output s (wiredInput ins w u) j := by
    intro w u j k hjk
    have hk := (Aff.Valid.getElem?_lt hpo hjk).2
    rw [htdef, output_series (by show po.length = pi.length; omega) _ (by exact hk), output_series hno _ (by exact hk), output_ofPerm hpo _ hjk]
    exact output_congr (hinp w u) j
  have hdrift : ∀ w u : ℕ → A, driftOutput t (appendInput t.n outs.length w u) = driftOutput s (wiredInput ins w u) := by
    intro w u
    rw [htdef, driftOutput_series (by show po.length = pi.length; omega) hoi, driftOutput_series hno (Iso.ofPerm hpo),
      driftOutput_ofPerm, driftOutput_ofPerm, zero_add, add_zero]
    exact driftOutput_congr (hinp w u)
  refine ⟨by omega, fun u => ?_⟩
  obtain ⟨w, w1, w2, w3, w4⟩ := H u
  have key : ∀ w : ℕ → A, (∀ k o : ℕ, outs[k]? = some o → output s (wiredInput ins w u) o = w k) ↔
      (∀ k, k < outs.length → output t (appendInput t.n outs.length w u) (t.n - outs.length + k) = w k) := by
    intro w
    constructor
    · intro hh k hk
      have e := List.getElem?_eq_getElem hk
      rw [htn] at *
      have := hout w u _ _ (o1 k _ e)
      rw [htn] at this
      rw [this]; exact hh k _ e
    · intro hh k o e
      have hk := (List.getElem?_eq_some_iff.mp e).1
      rw [← hout w u _ _ (o1 k _ e), ← htn]
      exact hh k hk
  refine ⟨w, (key w).mpr w1, fun w' hw' => w2 w' ((key w').mp hw'), ?_, ?_⟩
  · intro j hj hjo
    obtain ⟨x, hx⟩ : ∃ x, po[j]? = some x := ⟨_, List.getElem?_eq_getElem (by omega)⟩
    obtain ⟨h1, h2⟩ := freeBelow_eq hpo hno rfl hm o1 o2 hjo hx
    rw [← hout w u _ _ hx, ← h1]
    exact w3 x (by omega)
  · rw [← hdrift, w4]

end QNET.SLH
