import Verif.Perm.Cycles

/-! # Rebuilding permutations from cycles, block decomposition (helper lemmas) -/

namespace QNET.Perm

/-- position `x` of the (shifted) result already holds the right value -/
def GoodAt (p : List Nat) (off : Nat) (res : List Nat) (x : Nat) : Prop :=
  res[x - off]? = some (p.getD x 0 - off)

theorem Step.getD {p : List Nat} {a b : Nat} (h : Step p a b) : p.getD a 0 = b := by
  simp [Step] at h; simp [h]

theorem goodAt_set {p : List Nat} {off : Nat} {res : List Nat} {x y : Nat} (hx : off ≤ x) (hy : off ≤ y)
    (hlt : x - off < res.length) (h : y = x ∨ GoodAt p off res y) :
    GoodAt p off (res.set (x - off) (p.getD x 0 - off)) y := by
  unfold GoodAt at *
  by_cases e : y = x
  · subst e; simp [hlt]
  · have : x - off ≠ y - off := by omega
    rw [List.getElem?_set_ne this]
    rcases h with h | h
    · exact absurd h e
    · exact h

theorem fromCycleLoop_ok {p : List Nat} {off first : Nat} (m : Nat) (rest : List Nat) :
    ∀ (x1 : Nat) (res : List Nat), res.length = m →
    (hch : (x1 :: rest).IsChain (Step p)) →
    (hcl : Step p ((x1 :: rest).getLast (by simp)) first) →
    (hr : ∀ x ∈ x1 :: rest, off ≤ x ∧ x < off + m) →
    ∃ res', fromCycleLoop off (first - off) res (x1 - off) rest = .ok res' ∧ res'.length = m ∧
      ∀ y, off ≤ y → (y ∈ x1 :: rest ∨ GoodAt p off res y) → GoodAt p off res' y := by
  induction rest with
  | nil =>
    intro x1 res hl hch hcl hr
    simp at hcl
    have hx := hr x1 (by simp)
    refine ⟨res.set (x1 - off) (first - off), ?_, by simp [hl], ?_⟩
    · rw [fromCycleLoop, setItem, if_pos (by omega)]
    · intro y hy h
      rw [← hcl.getD]
      apply goodAt_set hx.1 hy (by omega)
      simpa using h
  | cons x2 rest ih =>
    intro x1 res hl hch hcl hr
    rw [List.isChain_cons_cons] at hch
    have hx := hr x1 (by simp)
    have hx2 := hr x2 (by simp)
    obtain ⟨res', h1, h2, h3⟩ := ih x2 (res.set (x1 - off) (x2 - off)) (by simp [hl]) hch.2
      (by simpa using hcl) (fun x h => hr x (List.mem_cons_of_mem _ h))
    refine ⟨res', ?_, h2, ?_⟩
    · have e1 : subIdx x2 off = .ok (x2 - off) := by rw [subIdx, if_neg (by omega)]
      have e2 : setItem res (x1 - off) (x2 - off) = .ok (res.set (x1 - off) (x2 - off)) := by
        rw [setItem, if_pos (by omega)]
      rw [fromCycleLoop]
      simp only [e1, e2, bind, Except.bind]
      exact h1
    · intro y hy h
      apply h3 y hy
      by_cases hin : y ∈ x2 :: rest
      · left; exact hin
      · right
        rw [← hch.1.getD]
        apply goodAt_set hx.1 hy (by omega)
        rcases h with h | h
        · rcases List.mem_cons.mp h with h | h
          · left; exact h
          · exact absurd h hin
        · right; exact h

theorem fromCyclesLoop_ok {p : List Nat} {off : Nat} (m : Nat) (cs : List (List Nat)) :
    ∀ (res : List Nat), res.length = m → (∀ c ∈ cs, CycOK p c) →
    (∀ x ∈ cs.flatten, off ≤ x ∧ x < off + m) →
    ∃ res', fromCyclesLoop off res cs = .ok res' ∧ res'.length = m ∧
      ∀ y, off ≤ y → (y ∈ cs.flatten ∨ GoodAt p off res y) → GoodAt p off res' y := by
  induction cs with
  | nil => intro res hl _ _; exact ⟨res, rfl, hl, by simp⟩
  | cons c cs ih =>
    intro res hl hc hr
    have hok := hc c (by simp)
    obtain ⟨c0, ct, rfl⟩ := List.exists_cons_of_ne_nil hok.ne
    have hr1 : ∀ x ∈ c0 :: ct, off ≤ x ∧ x < off + m := fun x hx => hr x (by
      rw [List.flatten_cons]; exact List.mem_append_left _ hx)
    obtain ⟨r1, a1, a2, a3⟩ := fromCycleLoop_ok (p := p) (off := off) (first := c0) m ct c0 res hl hok.chain
      (by simpa using hok.close) hr1
    obtain ⟨r2, b1, b2, b3⟩ := ih r1 a2 (fun c h => hc c (by simp [h])) (fun x hx => hr x (by
      rw [List.flatten_cons]; exact List.mem_append_right _ hx))
    refine ⟨r2, ?_, b2, ?_⟩
    · rw [fromCyclesLoop, subIdx, if_neg (by have := hr1 c0 (by simp); omega)]
      simp only [bind, Except.bind, a1]
      exact b1
    · intro y hy h
      apply b3 y hy
      rw [List.flatten_cons, List.mem_append] at h
      rcases h with (h | h) | h
      · right; exact a3 y hy (Or.inl h)
      · left; exact h
      · right; exact a3 y hy (Or.inr h)

/-- the restriction of `p` to the interval `[off, off+m)`, shifted to start at zero -/
def restrict (p : List Nat) (off m : Nat) : List Nat :=
  (List.range' off m).map (fun x => p.getD x 0 - off)

@[simp] theorem restrict_length (p : List Nat) (off m : Nat) : (restrict p off m).length = m := by simp [restrict]

theorem restrict_getElem (p : List Nat) (off m : Nat) {i : Nat} (hi : i < (restrict p off m).length) :
    (restrict p off m)[i] = p.getD (off + i) 0 - off := by
  simp [restrict]

theorem CycOK.succ {p c : List Nat} (h : CycOK p c) {x : Nat} (hx : x ∈ c) : p.getD x 0 ∈ c := by
  obtain ⟨i, hi, rfl⟩ := List.mem_iff_getElem.mp hx
  have := h.follows i hi
  rw [Step.getD (p := p) this]
  exact List.getElem_mem _

theorem flatten_succ {p : List Nat} {cs : List (List Nat)} (h : ∀ c ∈ cs, CycOK p c) {x : Nat} (hx : x ∈ cs.flatten) :
    p.getD x 0 ∈ cs.flatten := by
  obtain ⟨c, hc, hxc⟩ := List.mem_flatten.mp hx
  exact List.mem_flatten.mpr ⟨c, hc, (h c hc).succ hxc⟩

/-- an interval closed under `p` -/
def ClosedInterval (p : List Nat) (off m : Nat) : Prop :=
  off + m ≤ p.length ∧ ∀ x, off ≤ x → x < off + m → off ≤ p.getD x 0 ∧ p.getD x 0 < off + m

theorem restrict_valid {p : List Nat} (hp : Valid p) {off m : Nat} (hc : ClosedInterval p off m) :
    Valid (restrict p off m) := by
  apply valid_of_nodup_lt
  · rw [List.nodup_iff_injective_getElem]
    intro ⟨i, hi⟩ ⟨j, hj⟩ hij
    simp only [restrict_getElem] at hij
    simp only [restrict_length] at hi hj
    have h1 := hc.2 (off + i) (by omega) (by omega)
    have h2 := hc.2 (off + j) (by omega) (by omega)
    have e : p.getD (off + i) 0 = p.getD (off + j) 0 := by omega
    have hli : off + i < p.length := by have := hc.1; omega
    have hlj : off + j < p.length := by have := hc.1; omega
    simp only [List.getD_eq_getElem?_getD, List.getElem?_eq_getElem hli, List.getElem?_eq_getElem hlj,
      Option.getD_some] at e
    have := (List.Nodup.getElem_inj_iff hp.nodup).mp e
    simp; omega
  · intro x hx
    obtain ⟨i, hi, rfl⟩ := List.mem_iff_getElem.mp hx
    rw [restrict_getElem]
    simp only [restrict_length] at hi ⊢
    have := hc.2 (off + i) (by omega) (by omega)
    omega

theorem fromCycles_ok {p : List Nat} (hp : Valid p) {off m : Nat} {cs : List (List Nat)} (hcs : ∀ c ∈ cs, CycOK p c)
    (hpart : cs.flatten.Perm (List.range' off m)) (hlen : off + m ≤ p.length) :
    fromCycles cs off = .ok (restrict p off m) ∧ ClosedInterval p off m ∧ (cs.map List.length).sum = m := by
  have hsum : (cs.map List.length).sum = m := by
    have := hpart.length_eq
    simpa [List.length_flatten] using this
  have hmem : ∀ x, x ∈ cs.flatten ↔ off ≤ x ∧ x < off + m := by
    intro x; rw [hpart.mem_iff, List.mem_range'_1]
  obtain ⟨res, h1, h2, h3⟩ := fromCyclesLoop_ok (p := p) (off := off) m cs (List.range m) (by simp) hcs
    (fun x hx => (hmem x).mp hx)
  have hcl : ClosedInterval p off m := by
    refine ⟨hlen, fun x a b => ?_⟩
    exact (hmem _).mp (flatten_succ hcs ((hmem x).mpr ⟨a, b⟩))
  have hres : res = restrict p off m := by
    apply List.ext_getElem (by simp [h2])
    intro i hi hj
    have hi' : i < m := by omega
    have := h3 (off + i) (by omega) (Or.inl ((hmem _).mpr (by omega)))
    unfold GoodAt at this
    rw [show off + i - off = i by omega, List.getElem?_eq_getElem hi] at this
    rw [restrict_getElem]
    simpa using this
  refine ⟨?_, hcl, hsum⟩
  unfold fromCycles
  simp only [hsum, bind, Except.bind, h1]
  have hv := restrict_valid hp hcl
  unfold Valid at hv
  rw [restrict_length] at hv
  rw [hres, if_pos ((sorted_eq_range_iff _ _).mpr hv)]

theorem restrict_zero (p : List Nat) : restrict p 0 p.length = p := by
  apply List.ext_getElem (by simp)
  intro i h1 h2
  rw [restrict_getElem]
  simp [h2]

end QNET.Perm
