import Verif.Network.Thm

/-!
# Equations of motion of systems built by `connect` (C70)

`connect` (`src/qnet/algebra/toolbox/circuit_manipulation.py`) is modelled in `Verif/Circuit/Connect.lean`.
-/

namespace QNET.Network

open Finset SLH Circuit
open QNET.Perm (Res)

variable {A : Type} [Ring A] [StarRing A] [Algebra ℂ A]

/-! ### Sums over ports -/

theorem freeBelow_lt {ports : List ℕ} {i j : ℕ} (hi : i ∉ ports) (h : i < j) : freeBelow ports i < freeBelow ports j := by
  unfold freeBelow
  refine Finset.card_lt_card ⟨?_, fun hs => ?_⟩
  · intro x hx
    simp only [Finset.mem_filter, Finset.mem_range] at hx ⊢
    exact ⟨by omega, hx.2⟩
  · have := hs (x := i) (by simp only [Finset.mem_filter, Finset.mem_range]; exact ⟨h, hi⟩)
    simp at this

theorem card_free {ports : List ℕ} {n : ℕ} (hd : ports.Nodup) (hlt : ∀ x ∈ ports, x < n) : ((range n).filter (fun i => i ∉ ports)).card = n - ports.length := by
  have h1 : (range n).filter (fun i => i ∉ ports) = range n \ ports.toFinset := by
    ext x; simp
  rw [h1, Finset.card_sdiff_of_subset (fun x hx => by simpa using hlt x (by simpa using hx)), List.toFinset_card_of_nodup hd, Finset.card_range]

theorem getD_lt {l : List ℕ} {k : ℕ} (h : k < l.length) : l.getD k 0 = l[k] := by simp [List.getD_eq_getElem?_getD, h]

/-- a sum over all ports is the sum over the connected ports and over the other ports in their order -/
theorem sum_ports {B : Type} [AddCommMonoid B] {ports : List ℕ} {n : ℕ} (hd : ports.Nodup) (hlt : ∀ x ∈ ports, x < n) (F f g : ℕ → B)
    (hf : ∀ k p : ℕ, ports[k]? = some p → F p = f k) (hg : ∀ j, j < n → j ∉ ports → F j = g (freeBelow ports j)) :
    ∑ j ∈ range n, F j = ∑ k ∈ range ports.length, f k + ∑ k ∈ range (n - ports.length), g k := by
  rw [← Finset.sum_filter_add_sum_filter_not (range n) (fun j => j ∈ ports)]
  congr 1
  · have h1 : (range n).filter (fun j => j ∈ ports) = ports.toFinset := by
      ext x
      simp only [Finset.mem_filter, Finset.mem_range, List.mem_toFinset]
      exact ⟨fun h => h.2, fun h => ⟨hlt x h, h⟩⟩
    rw [h1]
    symm
    refine Finset.sum_bij (fun k _ => ports.getD k 0) ?_ ?_ ?_ ?_
    · intro k hk
      have := mem_range.mp hk
      rw [getD_lt this]; simp
    · intro k hk k' hk' h
      have h1 := mem_range.mp hk
      have h2 := mem_range.mp hk'
      rw [getD_lt h1, getD_lt h2] at h
      exact (List.Nodup.getElem_inj_iff hd).mp h
    · intro p hp
      obtain ⟨k, hk, e⟩ := List.getElem_of_mem (List.mem_toFinset.mp hp)
      exact ⟨k, mem_range.mpr hk, by rw [getD_lt hk, e]⟩
    · intro k hk
      have h1 := mem_range.mp hk
      rw [getD_lt h1]
      exact (hf k _ (List.getElem?_eq_getElem h1)).symm
  · refine Finset.sum_nbij (freeBelow ports) ?_ ?_ ?_ ?_
    · intro j hj
      simp only [Finset.mem_filter, Finset.mem_range] at hj
      rw [mem_range, ← card_free hd hlt]
      exact freeBelow_lt hj.2 hj.1
    · intro j hj j' hj' h
      simp only [Finset.coe_filter, Finset.mem_range, Set.mem_ofPred_eq] at hj hj'
      rcases Nat.lt_trichotomy j j' with h1 | h1 | h1
      · have := freeBelow_lt hj.2 h1; omega
      · exact h1
      · have := freeBelow_lt hj'.2 h1; omega
    · refine Finset.surjOn_of_injOn_of_card_le _ ?_ ?_ ?_
      · intro j hj
        simp only [Finset.coe_filter, Finset.mem_range, Set.mem_ofPred_eq] at hj
        rw [Finset.coe_range, Set.mem_Iio, ← card_free hd hlt]
        exact freeBelow_lt hj.2 hj.1
      · intro j hj j' hj' h
        simp only [Finset.coe_filter, Finset.mem_range, Set.mem_ofPred_eq] at hj hj'
        rcases Nat.lt_trichotomy j j' with h1 | h1 | h1
        · have := freeBelow_lt hj.2 h1; omega
        · exact h1
        · have := freeBelow_lt hj'.2 h1; omega
      · rw [Finset.card_range, card_free hd hlt]
    · intro j hj
      simp only [Finset.mem_filter, Finset.mem_range] at hj
      exact hg j hj.1 hj.2

/-! ### C70 -/

/-- The connected system evolves as the system without connections whose connected inputs are driven by the fields on the connections. -/
theorem evolve_wired {s r : SLH A} {outs ins : List ℕ} (h : Wired s r outs ins) (ho : outs.Nodup) (hi : ins.Nodup) (hl : outs.length = ins.length)
    (hol : ∀ x ∈ outs, x < s.n) (hil : ∀ x ∈ ins, x < s.n) (u w : ℕ → A) (hw : ∀ k o : ℕ, outs[k]? = some o → output s (wiredInput ins w u) o = w k) (X : A) :
    evolve r X u = evolve s X (wiredInput ins w u) := by
  obtain ⟨hn, h⟩ := h
  obtain ⟨w', h1, h2, h3, h4⟩ := h u
  have hww := h2 w hw
  have hin : ∀ j, wiredInput ins w u j = wiredInput ins w' u j := by
    intro j
    unfold wiredInput
    split
    · next hj => exact hww _ (by rw [hl]; exact List.idxOf_lt_length_iff.mpr hj)
    · rfl
  have e1 := sum_ports ho hol (fun k => star (output s (wiredInput ins w u) k) * X * output s (wiredInput ins w u) k) (fun k => star (w k) * X * w k)
    (fun k => star (output r u k) * X * output r u k) (fun k p hk => by simp only [hw k p hk])
    (fun j hj hjo => by simp only [output_congr (fun j _ => hin j), h3 j hj hjo])
  have e2 := sum_ports hi hil (fun k => star (wiredInput ins w u k) * X * wiredInput ins w u k) (fun k => star (w k) * X * w k)
    (fun k => star (u k) * X * u k) (fun k p hk => by
      have hk' := List.getElem?_eq_some_iff.mp hk
      have : wiredInput ins w u p = w k := by
        unfold wiredInput
        rw [if_pos (List.mem_of_getElem? hk), ← hk'.2, hi.idxOf_getElem]
      simp only [this])
    (fun j hj hjo => by simp only [wiredInput, if_neg hjo])
  unfold evolve
  rw [e1, e2, driftOutput_congr (fun j _ => hin j), h4, hn, hl]
  abel

variable [StarModule ℂ A]

theorem evolve_sideBySide : ∀ (ss : List (SLH A)) (X : A) (u : ℕ → A),
    evolve (sideBySide ss) X u = ∑ i ∈ range ss.length, evolve (ss.getD i (passThrough 0)) X (fun j => u (((ss.take i).map SLH.n).sum + j))
  | [], X, u => by
    rw [List.length_nil, Finset.sum_range_zero]
    exact (evolve_passThrough 0 X u).2
  | s :: ss, X, u => by
    change evolve (SLH.concat s (sideBySide ss)) X u = _
    rw [evolve_concat, evolve_sideBySide ss, List.length_cons, Finset.sum_range_succ', add_comm]
    congr 1
    · refine Finset.sum_congr rfl fun i _ => ?_
      simp [Nat.add_assoc]
    · simp

theorem sideBySide_n {ρ : Valuation A} {fuel : ℕ} {comps : List (Component A)} {ss : List (SLH A)} (hc : List.Forall₂ (ComponentOf ρ fuel) comps ss) :
    (sideBySide ss).n = (comps.map fun c => c.circ.cdim).sum := by
  induction hc with
  | nil => rfl
  | cons h _ ih =>
    obtain ⟨e, hw, hsym, hs, hd⟩ := h
    change _ + (sideBySide _).n = _
    rw [ih, List.map_cons, List.sum_cons, C18_cdim_symbolic ρ hw hsym hs hd, (eval_unitary ρ hw hs).2]

/-- C70 for `connect(components, connections)`: the equation of motion of the returned system is the sum of the equations of motion of the components, where component number `i` is driven by
the external fields at its open inputs and by the fields on the connections at its connected inputs; the field on each connection is the output of the source. -/
theorem C70_connect_partial (ρ : Valuation A) {comps : List (Component A)} {conns : List Connection} {ss : List (SLH A)} {fuel : ℕ} {r : SLH A}
    (hlab : Labelled comps) (hc : List.Forall₂ (ComponentOf ρ fuel) comps ss) (h : connectSLH ρ.val false fuel comps conns = .ok r) {outs : List ℕ}
    (hout : List.Forall₂ (IsSource comps) conns outs) (hon : outs.Nodup) (u : ℕ → A) :
    ∃ ins, List.Forall₂ (IsTarget comps) conns ins ∧ (∃ w : ℕ → A, ∀ k o : ℕ, outs[k]? = some o → output (sideBySide ss) (wiredInput ins w u) o = w k) ∧
      ∀ w : ℕ → A, (∀ k o : ℕ, outs[k]? = some o → output (sideBySide ss) (wiredInput ins w u) o = w k) → ∀ X, evolve r X u = ∑ i ∈ range ss.length, evolve (ss.getD i (passThrough 0)) X (fun j => wiredInput ins w u (((ss.take i).map SLH.n).sum + j)) := by
  obtain ⟨outs', ins, h1, h2, h3, h4⟩ := C46_wiring_partial ρ hlab hc h
  obtain rfl : outs' = outs := forall₂_unique (R := IsSource comps) (fun _ _ _ a b => IsPort.unique a b) h1 hout
  have hw := h4 hon
  obtain ⟨w₀, g0, -⟩ := hw.2 u
  refine ⟨ins, h2, ⟨w₀, g0⟩, fun w g1 X => ?_⟩
  have lt : ∀ {l : List ℕ} {labels}, List.Forall₂ (fun conn k => ∃ c p, IsPort comps labels c p k ∧ (c = conn.src ∨ c = conn.dst)) conns l → ∀ x ∈ l, x < (sideBySide ss).n := by
    intro l labels hl x hx
    obtain ⟨k, hk, rfl⟩ := List.getElem_of_mem hx
    have := (List.forall₂_iff_get.mp hl).2 k (by rw [(List.forall₂_iff_get.mp hl).1]; exact hk) hk
    obtain ⟨c, p, hp, -⟩ := this
    rw [sideBySide_n hc]
    exact hp.lt
  rw [evolve_wired hw hon h3 (h1.length_eq.symm.trans h2.length_eq) (lt (h1.imp fun c k h => ⟨_, _, h, .inl rfl⟩)) (lt (h2.imp fun c k h => ⟨_, _, h, .inr rfl⟩)) u w g1 X, evolve_sideBySide]

end QNET.Network
