import Verif.Perm.Lemmas
import Verif.Perm.Spec
import Mathlib.Data.List.Chain

/-! # The cycle loop: invariant and correctness (helper lemmas) -/

namespace QNET.Perm

/-- `b` is the image of `a`. -/
def Step (p : List Nat) (a b : Nat) : Prop := p[a]? = some b

theorem Step.inj {p : List Nat} (h : Valid p) {a b y : Nat} (h1 : Step p a y) (h2 : Step p b y) : a = b := by
  unfold Step at *
  rw [List.getElem?_eq_some_iff] at h1 h2
  obtain ⟨ha, e1⟩ := h1
  obtain ⟨hb, e2⟩ := h2
  exact (List.Nodup.getElem_inj_iff h.nodup).mp (e1.trans e2.symm)

theorem chain_pred {R : Nat → Nat → Prop} {c : List Nat} (hc : c.IsChain R) {q : Nat} (hq : q ∈ c)
    (hne : c.head? ≠ some q) : ∃ x ∈ c.dropLast, R x q := by
  induction c with
  | nil => simp at hq
  | cons a t ih =>
    cases t with
    | nil => simp at hq; simp [hq] at hne
    | cons b t' =>
      rw [List.isChain_cons_cons] at hc
      by_cases hqb : q = b
      · subst hqb; exact ⟨a, by simp, hc.1⟩
      · have hq' : q ∈ b :: t' := by
          rcases List.mem_cons.mp hq with h | h
          · subst h; simp at hne
          · exact h
        obtain ⟨x, hx, hr⟩ := ih hc.2 hq' (by simpa using fun h => hqb h.symm)
        exact ⟨x, by rw [List.dropLast_cons_cons]; exact List.mem_cons_of_mem _ hx, hr⟩

/-- A finished cycle. -/
structure CycOK (p c : List Nat) : Prop where
  ne : c ≠ []
  chain : c.IsChain (Step p)
  close : Step p (c.getLast ne) (c.head ne)
  minFirst : ∀ x ∈ c, c.headD 0 ≤ x

theorem CycOK.pred {p c : List Nat} (h : CycOK p c) {q : Nat} (hq : q ∈ c) : ∃ x ∈ c, Step p x q := by
  by_cases hh : c.head? = some q
  · refine ⟨c.getLast h.ne, List.getLast_mem _, ?_⟩
    have := h.close
    rw [List.head?_eq_some_head h.ne] at hh
    simp at hh
    rwa [hh] at this
  · obtain ⟨x, hx, hr⟩ := chain_pred h.chain hq hh
    exact ⟨x, List.dropLast_subset _ hx, hr⟩

structure LoopInv (p : List Nat) (pIndex : Nat) (cur rem : List Nat) (cycles : List (List Nat)) : Prop where
  ne : cur ≠ []
  last : pIndex = cur.getLast ne
  chain : cur.IsChain (Step p)
  part : (cycles.flatten ++ cur ++ rem).Perm (List.range p.length)
  remSorted : rem.Pairwise (· < ·)
  curMin : ∀ x ∈ cur, cur.headD 0 ≤ x
  remMin : ∀ x ∈ rem, cur.headD 0 < x
  cyc : ∀ c ∈ cycles, CycOK p c
  heads : ((cycles ++ [cur]).map (fun c => c.headD 0)).Pairwise (· < ·)

theorem cycleLoop_ok {p : List Nat} (hp : Valid p) (pIndex : Nat) (cur rem : List Nat) (cycles : List (List Nat))
    (inv : LoopInv p pIndex cur rem cycles) :
    ∃ cs, cycleLoop p pIndex cur rem cycles = .ok cs ∧ (∀ c ∈ cs, CycOK p c) ∧
      cs.flatten.Perm (List.range p.length) ∧ (cs.map (fun c => c.headD 0)).Pairwise (· < ·) := by
  obtain ⟨c0, ct, rfl⟩ := List.exists_cons_of_ne_nil inv.ne
  have hmem : ∀ x, x ∈ cycles.flatten ∨ x ∈ c0 :: ct ∨ x ∈ rem ↔ x < p.length := by
    intro x
    have := inv.part.mem_iff (a := x)
    simp only [List.mem_append, List.mem_range] at this
    rw [← this]; tauto
  have hnd : (cycles.flatten ++ (c0 :: ct) ++ rem).Nodup := inv.part.nodup_iff.mpr List.nodup_range
  have hpi : pIndex ∈ c0 :: ct := by rw [inv.last]; exact List.getLast_mem _
  have hlt : pIndex < p.length := (hmem _).mp (Or.inr (Or.inl hpi))
  have hstep : Step p pIndex p[pIndex] := by simp [Step, hlt]
  rw [cycleLoop.eq_def]
  simp only [List.getElem?_eq_getElem hlt]
  by_cases hq : p[pIndex] = c0
  · have hok : CycOK p (c0 :: ct) := by
      refine ⟨inv.ne, inv.chain, ?_, inv.curMin⟩
      have := inv.last
      rw [← inv.last]
      simpa [hq] using hstep
    have hcyc : ∀ c ∈ cycles ++ [c0 :: ct], CycOK p c := by
      intro c hc
      rcases List.mem_append.mp hc with h | h
      · exact inv.cyc c h
      · simp at h; subst h; exact hok
    simp only [hq, if_true]
    cases rem with
    | nil =>
      refine ⟨_, rfl, hcyc, ?_, inv.heads⟩
      have := inv.part
      simpa using this
    | cons r rest =>
      simp only
      apply cycleLoop_ok hp
      have hrs := List.pairwise_cons.mp inv.remSorted
      refine ⟨by simp, by simp, by simp, ?_, hrs.2, by simp, by simpa using hrs.1, hcyc, ?_⟩
      · have := inv.part
        simpa using this
      · have h1 := inv.heads
        rw [List.map_append, List.pairwise_append]
        refine ⟨h1, by simp, ?_⟩
        intro a ha b hb
        simp only [List.map_cons, List.headD_cons, List.map_nil, List.mem_singleton] at hb
        rw [hb]
        have hc0r : c0 < r := by simpa using inv.remMin r (by simp)
        rw [List.map_append, List.mem_append] at ha
        rcases ha with ha | ha
        · rw [List.map_append, List.pairwise_append] at h1
          have := h1.2.2 a ha c0 (by simp)
          omega
        · simp at ha; omega
  · have hqlt : p[pIndex] < p.length := hp.lt hlt
    have hqrem : p[pIndex] ∈ rem := by
      rcases (hmem _).mpr hqlt with h | h | h
      · exfalso
        obtain ⟨c, hc, hqc⟩ := List.mem_flatten.mp h
        obtain ⟨x, hx, hs⟩ := (inv.cyc c hc).pred hqc
        have : x = pIndex := Step.inj hp hs hstep
        subst this
        rw [List.append_assoc, List.nodup_append] at hnd
        exact hnd.2.2 x (List.mem_flatten.mpr ⟨c, hc, hx⟩) x (by simp only [List.mem_append]; left; exact hpi) rfl
      · exfalso
        obtain ⟨x, hx, hs⟩ := chain_pred inv.chain h (by simpa using fun h => hq h.symm)
        have hxe : x = pIndex := Step.inj hp hs hstep
        have hcnd : (c0 :: ct).Nodup := by
          rw [List.append_assoc, List.nodup_append] at hnd
          exact (List.nodup_append.mp hnd.2.1).1
        rw [← List.dropLast_append_getLast inv.ne, List.nodup_append] at hcnd
        exact hcnd.2.2 x hx _ (by simp) (hxe.trans inv.last)
      · exact h
    simp only [hq, if_false, hqrem, if_true]
    have hdec : (rem.erase p[pIndex]).length < rem.length := by
      have := List.length_erase_of_mem hqrem
      have := List.length_pos_of_mem hqrem
      omega
    apply cycleLoop_ok hp
    refine ⟨by simp, by simp, ?_, ?_, ?_, ?_, ?_, inv.cyc, ?_⟩
    · rw [List.isChain_append]
      refine ⟨inv.chain, by simp, ?_⟩
      intro a ha b hb
      simp at hb
      subst hb
      rw [List.getLast?_eq_some_getLast inv.ne] at ha
      simp only [Option.mem_def, Option.some.injEq] at ha
      subst ha
      rw [← inv.last]; exact hstep
    · refine List.Perm.trans ?_ inv.part
      rw [List.append_assoc, List.append_assoc, List.append_assoc]
      apply List.Perm.append_left
      apply List.Perm.append_left
      simpa using (List.perm_cons_erase hqrem).symm
    · exact List.Pairwise.sublist (List.erase_sublist) inv.remSorted
    · intro x hx
      have : ((c0 :: ct) ++ [p[pIndex]]).headD 0 = c0 := by simp
      rw [this]
      rcases List.mem_append.mp hx with h | h
      · simpa using inv.curMin x h
      · simp at h; subst h
        have := inv.remMin _ hqrem
        simp at this; omega
    · intro x hx
      have := inv.remMin x (List.mem_of_mem_erase hx)
      simpa using this
    · have := inv.heads
      simpa using this
termination_by rem.length

theorem toCycles_ok {p : List Nat} (hp : Valid p) (hne : p ≠ []) :
    ∃ cs, toCycles p = .ok cs ∧ (∀ c ∈ cs, CycOK p c) ∧
      cs.flatten.Perm (List.range p.length) ∧ (cs.map (fun c => c.headD 0)).Pairwise (· < ·) := by
  unfold toCycles
  simp only [(check_iff p).mpr hp, Bool.not_true, Bool.false_eq_true, if_false]
  apply cycleLoop_ok hp
  have hpos : 0 < p.length := List.length_pos_iff.mpr hne
  refine ⟨by simp, by simp, by simp, ?_, List.pairwise_lt_range', by simp, ?_, by simp, by simp⟩
  · have : ([] : List (List Nat)).flatten ++ [0] ++ List.range' 1 (p.length - 1) = List.range p.length := by
      rw [List.range_eq_range']
      obtain ⟨n, hn⟩ : ∃ n, p.length = n + 1 := ⟨p.length - 1, by omega⟩
      rw [hn]; simp [List.range'_succ]
    rw [this]
  · intro x hx
    simp [List.mem_range'_1] at hx
    simp; omega

theorem CycOK.follows {p c : List Nat} (h : CycOK p c) : FollowsCycle p c := by
  intro i hi
  by_cases hl : i + 1 < c.length
  · have := List.isChain_iff_getElem.mp h.chain i hl
    simpa [Step, Nat.mod_eq_of_lt hl] using this
  · have e : i = c.length - 1 := by omega
    have := h.close
    rw [List.getLast_eq_getElem, List.head_eq_getElem] at this
    subst e
    have e2 : (c.length - 1 + 1) % c.length = 0 := by
      rw [Nat.sub_add_cancel (by omega)]; simp
    simpa [Step, e2] using this

theorem perm_range_count {l : List Nat} {n : Nat} (h : l.Perm (List.range n)) (k : Nat) :
    l.count k = if k < n then 1 else 0 := by
  rw [h.count_eq, List.count_range]

theorem range_perm_of_count {l : List Nat} {n : Nat} (h : ∀ k, l.count k = if k < n then 1 else 0) :
    l.Perm (List.range n) := by
  rw [List.perm_iff_count]
  intro k
  rw [h, List.count_range]

end QNET.Perm
