import Verif.Circuit.Thm
import Verif.Util.KernelRfl

/-!
# C09: `pad_with_identity`
-/

namespace QNET.Circuit

open QNET.Perm QNET.CPerm Finset

variable {A : Type} [Ring A] [StarRing A] [Algebra ℂ A] [StarModule ℂ A]

/-- `pad_with_identity(circuit, k, n)`, circuit_algebra.py lines 1421-1452: the permutation of `padTuple` behind, and its inverse in
front of, `circuit + circuit_identity(n)`. -/
def padWithIdentity (e : Expr A) (k n : ℕ) : Res (Expr A) := do
  let q ← invert (padTuple e.channels k n)
  .ok (.series (.series (.cperm q) (.concat e (.cid n))) (.cperm (padTuple e.channels k n)))

/-- Specification: `r` is `s` with `n` pass-through channels inserted at index `k`. Channel `c` of `s` is channel `c` (`c < k`) or
`c + n` of `r`; channel `k + j` with `j < n` just passes through. -/
structure IsPadded (s r : SLH A) (k n : ℕ) : Prop where
  channels : r.n = s.n + n
  S_inner : ∀ c d, c < s.n → d < s.n → r.S (if c < k then c else c + n) (if d < k then d else d + n) = s.S c d
  S_pass : ∀ j j', j < n → j' < n → r.S (k + j) (k + j') = if j = j' then 1 else 0
  S_in : ∀ c j, c < s.n → j < n → r.S (if c < k then c else c + n) (k + j) = 0
  S_out : ∀ c j, c < s.n → j < n → r.S (k + j) (if c < k then c else c + n) = 0
  L_inner : ∀ c, c < s.n → r.L (if c < k then c else c + n) = s.L c
  L_pass : ∀ j, j < n → r.L (k + j) = 0
  H_eq : r.H = s.H

theorem padTuple_get (N k n : ℕ) (hk : k ≤ N) (i : ℕ) (hi : i < N + n) :
    (padTuple N k n)[i]? = some (if i < k then i else if i < k + n then N + (i - k) else i - n) := by
  unfold padTuple
  by_cases h1 : i < k
  · rw [List.append_assoc, List.getElem?_append_left (by simpa using h1), if_pos h1]
    simp [h1]
  · rw [if_neg h1]
    by_cases h2 : i < k + n
    · have : i - k < n := by omega
      rw [if_pos h2, List.getElem?_append_left (by simp; omega), List.getElem?_append_right (by simp; omega)]
      simp [this]
    · have : i - (k + n) < N - k := by omega
      rw [if_neg h2, List.getElem?_append_right (by simp; omega)]
      simp [this]; omega

theorem padTuple_length (N k n : ℕ) (hk : k ≤ N) : (padTuple N k n).length = N + n := by
  simp [padTuple]; omega

theorem padTuple_valid (N k n : ℕ) (hk : k ≤ N) : Valid (padTuple N k n) := by
  have hl := padTuple_length N k n hk
  have hg := padTuple_get N k n hk
  apply valid_of_nodup_lt
  · rw [List.nodup_iff_getElem?_ne_getElem?]
    intro i j hij hj
    rw [hl] at hj
    rw [hg i (by omega), hg j hj]
    intro h
    injection h with h
    split at h <;> split at h <;> (try split at h) <;> (try split at h) <;> omega
  · intro x hx
    rw [List.mem_iff_getElem?] at hx
    obtain ⟨i, hi⟩ := hx
    have : i < N + n := by rw [← hl]; exact (List.getElem?_eq_some_iff.mp hi).1
    rw [hg i this] at hi
    injection hi with hi
    rw [hl, ← hi]
    split <;> (try split) <;> omega

theorem ofPerm_S {p : List Nat} (h : Valid p) (k j : ℕ) : (SLH.ofPerm p : SLH A).S k j = if p[j]? = some k then 1 else 0 := by
  by_cases hc : k < p.length ∧ j < p.length
  · exact if_pos hc
  · rw [if_neg]
    · exact if_neg hc
    · intro hj
      exact hc ⟨(Aff.Valid.getElem?_lt h hj).2, (Aff.Valid.getElem?_lt h hj).1⟩

theorem ofPerm_L (p : List Nat) (i : ℕ) : (SLH.ofPerm p : SLH A).L i = 0 := by simp [SLH.ofPerm, SLH.mk']

/-- a routing circuit in front of a component relabels its outputs -/
theorem ofPerm_series {p : List Nat} (h : Valid p) {X : SLH A} (hX : X.n = p.length) {j k : ℕ} (hj : p[j]? = some k) :
    (∀ l, l < X.n → (SLH.series (SLH.ofPerm p) X).S k l = X.S j l) ∧ (SLH.series (SLH.ofPerm p) X).L k = X.L j ∧
    (SLH.series (SLH.ofPerm p) X).H = X.H := by
  have hk := (Aff.Valid.getElem?_lt h hj).2
  have key : ∀ f : ℕ → A, ∑ m ∈ range p.length, (SLH.ofPerm p : SLH A).S k m * f m = f j := by
    intro f
    rw [Finset.sum_eq_single j]
    · rw [ofPerm_S h, if_pos hj, one_mul]
    · intro m _ hm
      rw [ofPerm_S h, if_neg, zero_mul]
      intro hc; exact hm (Aff.Valid.getElem?_inj h hc hj)
    · intro hc; exact absurd (Finset.mem_range.mpr (Aff.Valid.getElem?_lt h hj).1) hc
  refine ⟨?_, ?_, ?_⟩
  · intro l hl
    unfold SLH.series
    rw [SLH.mk'_S (by simpa using hk) (by rw [SLH.ofPerm_n, ← hX]; exact hl)]
    exact key (fun m => X.S m l)
  · unfold SLH.series
    rw [SLH.mk'_L (by simpa using hk), ofPerm_L, add_zero]
    exact key (fun m => X.L m)
  · show 0 + X.H + SLH.imAdjoint _ = X.H
    simp [ofPerm_L, SLH.imAdjoint]

/-- a routing circuit behind a component relabels its inputs -/
theorem series_ofPerm {p : List Nat} (h : Valid p) {X : SLH A} (hX : X.n = p.length) {j k : ℕ} (hj : p[j]? = some k) :
    (∀ l, l < X.n → (SLH.series X (SLH.ofPerm p)).S l j = X.S l k) := by
  have hk := Aff.Valid.getElem?_lt h hj
  intro l hl
  unfold SLH.series
  rw [SLH.mk'_S hl (by rw [hX]; exact hk.1), hX]
  rw [Finset.sum_eq_single k]
  · rw [ofPerm_S h, if_pos hj, mul_one]
  · intro m _ hm
    rw [ofPerm_S h, if_neg, mul_zero]
    rw [hj]; simpa using hm.symm
  · intro hc; exact absurd (Finset.mem_range.mpr hk.2) hc

theorem series_ofPerm_L (p : List Nat) (X : SLH A) : (∀ l, (SLH.series X (SLH.ofPerm p)).L l = X.L l) ∧
    (SLH.series X (SLH.ofPerm p)).H = X.H := by
  constructor
  · intro l
    by_cases hl : l < X.n
    · unfold SLH.series
      rw [SLH.mk'_L hl]; simp [ofPerm_L]
    · rw [X.hL l hl]; exact if_neg hl
  · show X.H + 0 + SLH.imAdjoint _ = X.H
    simp [ofPerm_L, SLH.imAdjoint]

theorem padded_entries {X : SLH A} {π : List Nat} (hv : Valid π) (hX : X.n = π.length) {i i' : ℕ} (hi : π[i]? = some i') :
    let r := SLH.series (SLH.series (SLH.ofPerm (inv π)) X) (SLH.ofPerm π)
    (∀ j j' : ℕ, π[j]? = some j' → r.S i j = X.S i' j') ∧ r.L i = X.L i' ∧ r.H = X.H := by
  have hq : (inv π)[i']? = some i := by
    obtain ⟨h1, h2⟩ := List.getElem?_eq_some_iff.mp hi
    subst h2
    rw [List.getElem?_eq_some_iff]
    exact ⟨by simpa using hv.lt h1, inv_getElem_getElem hv h1⟩
  have e1 := ofPerm_series (inv_valid hv) (X := X) (by simpa using hX) hq
  have hn : (SLH.series (SLH.ofPerm (inv π)) X).n = π.length := inv_length π
  have hil := (Aff.Valid.getElem?_lt hv hi).1
  refine ⟨?_, ?_, ?_⟩
  · intro j j' hj
    rw [series_ofPerm hv hn hj i (by rw [hn]; exact hil)]
    exact e1.1 j' (by rw [hX]; exact (Aff.Valid.getElem?_lt hv hj).2)
  · rw [(series_ofPerm_L _ _).1]; exact e1.2.1
  · rw [(series_ofPerm_L _ _).2]; exact e1.2.2

/-- C09: what `pad_with_identity(circuit, k, n)` builds stands for the triple of the circuit with `n` pass-through channels
inserted at index `k`, for every circuit, every `k ≤ circuit.cdim` and every `n`. -/
theorem C09_pad (ρ : Valuation A) {e : Expr A} {s : SLH A} {k n : ℕ} (hw : e.WellFormed) (hs : e.eval ρ.val = .ok s)
    (hk : k ≤ e.channels) :
    ∃ e' r, padWithIdentity e k n = .ok e' ∧ e'.WellFormed ∧ e'.eval ρ.val = .ok r ∧ IsPadded s r k n := by
  have hex : ∃ t : Inst.T A, (slhAlg ρ).mean e = some t ∧ t.1 = s ∧ s.n = e.channels :=
    mean_of_eval (leaf := Inst.leafT) e s hw (leavesIn_wf e hw) hs
  obtain ⟨t, -, -, hsn⟩ := hex
  have hv := padTuple_valid e.channels k n hk
  have hlen := padTuple_length e.channels k n hk
  have hget := padTuple_get e.channels k n hk
  refine ⟨_, SLH.series (SLH.series (SLH.ofPerm (inv (padTuple e.channels k n))) (SLH.concat s (SLH.passThrough n)))
    (SLH.ofPerm (padTuple e.channels k n)), by rw [padWithIdentity, invert_ok hv]; rfl, ?_, ?_, ?_⟩
  · refine ⟨⟨(valid_iff _).mp (inv_valid hv), ⟨hw, trivial⟩, ?_⟩, (valid_iff _).mp hv, ?_⟩
    · simp [Expr.channels, hlen]
    · simp [Expr.channels]
  · simp only [Expr.eval, hs]; rfl
  · rw [← hsn] at hv hlen hget hk ⊢
    have hX : (SLH.concat s (SLH.passThrough n)).n = (padTuple s.n k n).length := by rw [hlen]; rfl
    have hins : ∀ c, c < s.n → (padTuple s.n k n)[if c < k then c else c + n]? = some c := by
      intro c hc
      by_cases h : c < k
      · rw [if_pos h, hget c (by omega), if_pos h]
      · rw [if_neg h, hget (c + n) (by omega), if_neg (by omega), if_neg (by omega)]; simp
    have hpas : ∀ j, j < n → (padTuple s.n k n)[k + j]? = some (s.n + j) := by
      intro j hj
      rw [hget (k + j) (by omega), if_neg (by omega), if_pos (by omega)]; simp
    have cS := fun (i j : ℕ) (hi : i < s.n + n) (hj : j < s.n + n) =>
      SLH.mk'_S (n := s.n + (SLH.passThrough n : SLH A).n) (S := fun i j => if i < s.n then (if j < s.n then s.S i j else 0) else
        (if j < s.n then 0 else (SLH.passThrough n : SLH A).S (i - s.n) (j - s.n)))
        (L := fun i => if i < s.n then s.L i else (SLH.passThrough n : SLH A).L (i - s.n)) (H := s.H + (SLH.passThrough n : SLH A).H) (i := i) (j := j) hi hj
    have cL := fun (i : ℕ) (hi : i < s.n + n) =>
      SLH.mk'_L (n := s.n + (SLH.passThrough n : SLH A).n) (S := fun i j => if i < s.n then (if j < s.n then s.S i j else 0) else
        (if j < s.n then 0 else (SLH.passThrough n : SLH A).S (i - s.n) (j - s.n)))
        (L := fun i => if i < s.n then s.L i else (SLH.passThrough n : SLH A).L (i - s.n)) (H := s.H + (SLH.passThrough n : SLH A).H) (i := i) hi
    refine ⟨?_, ?_, ?_, ?_, ?_, ?_, ?_, ?_⟩
    · simp [hlen]
    · intro c d hc hd
      rw [(padded_entries hv hX (hins c hc)).1 _ _ (hins d hd)]
      rw [SLH.concat, cS c d (by omega) (by omega)]; simp [hc, hd]
    · intro j j' hj hj'
      rw [(padded_entries hv hX (hpas j hj)).1 _ _ (hpas j' hj')]
      rw [SLH.concat, cS _ _ (by omega) (by omega)]
      simp [SLH.passThrough, SLH.mk', hj, hj']
    · intro c j hc hj
      rw [(padded_entries hv hX (hins c hc)).1 _ _ (hpas j hj)]
      rw [SLH.concat, cS _ _ (by omega) (by omega)]; simp [hc]
    · intro c j hc hj
      rw [(padded_entries hv hX (hpas j hj)).1 _ _ (hins c hc)]
      rw [SLH.concat, cS _ _ (by omega) (by omega)]; simp [hc]
    · intro c hc
      rw [(padded_entries hv hX (hins c hc)).2.1, SLH.concat, cL _ (by omega)]; simp [hc]
    · intro j hj
      rw [(padded_entries hv hX (hpas j hj)).2.1, SLH.concat, cL _ (by omega)]
      simp [SLH.passThrough, SLH.mk']
    · by_cases h0 : s.n + n = 0
      · have : (padTuple s.n k n) = [] := List.eq_nil_of_length_eq_zero (by omega)
        rw [this, (series_ofPerm_L _ _).2]
        show 0 + (s.H + 0) + SLH.imAdjoint _ = s.H
        simp [ofPerm_L, SLH.imAdjoint]
      · obtain ⟨m, hm⟩ : ∃ m, (padTuple s.n k n)[0]? = some m := ⟨_, hget 0 (by omega)⟩
        rw [(padded_entries hv hX hm).2.2]
        show s.H + 0 = s.H
        simp

/-- C09: the padded circuit after all automatic rewriting, for circuits of symbols, permutations and identities. -/
theorem C09_pad_simplified (ρ : Valuation A) {e e' : Expr A} {s : SLH A} {c : Circ A} {k n fuel : ℕ} (hw : e.WellFormed)
    (hsym : e.Symbolic) (hs : e.eval ρ.val = .ok s) (hk : k ≤ e.channels) (he : padWithIdentity e k n = .ok e')
    (hc : simplify false fuel e' = .ok c) : ∃ r, c.toSLH ρ.val = .ok r ∧ IsPadded s r k n := by
  obtain ⟨e'', r, h1, h2, h3, h4⟩ := C09_pad (n := n) ρ hw hs hk
  have h1' := h1
  rw [he] at h1; injection h1 with h1; subst h1
  refine ⟨r, C17_symbolic ρ h2 ?_ h3 hc, h4⟩
  rw [padWithIdentity, invert_ok (padTuple_valid _ _ _ hk)] at he
  injection he with he
  rw [← he]
  exact ⟨⟨trivial, hsym, trivial⟩, trivial⟩

/-- The documented example: `pad_with_identity(A + B, 1, 2)` is `A + cid(2) + B`. -/
example : (do simplify false 20 (← padWithIdentity (.concat (.sym 0 1) (.sym 1 1) : Expr ℂ) 1 2)) =
    .ok (.concat [.sym 0 1, .id1, .id1, .sym 1 1]) := by
  kernel_rfl

/-- Non-trivial expressions satisfy the hypotheses of `C17_symbolic`, `C18_cdim_symbolic` and `C09_pad_simplified`, for every choice of
components: `P(1,0,2) << (A + B)` with a two-channel `A` and a one-channel `B`. -/
example (ρ : Valuation ℂ) : let e : Expr ℂ := .series (.cperm [1, 0, 2]) (.concat (.sym 0 2) (.sym 1 1))
    e.WellFormed ∧ e.Symbolic ∧ (∃ s, e.eval ρ.val = .ok s) ∧
    simplify false 20 e = .ok (.concat [.series [.perm [1, 0], .sym 0 2], .sym 1 1]) := by
  refine ⟨⟨(valid_iff _).mp ((check_iff [1, 0, 2]).mp (by decide +kernel)), ⟨Nat.succ_pos _, Nat.succ_pos _⟩, rfl⟩, ⟨trivial, trivial, trivial⟩, ⟨_, rfl⟩, ?_⟩
  kernel_rfl

end QNET.Circuit
