import Verif.Circuit.TermEngine
import Verif.Circuit.TermPerm

/-!
# Simplified circuits with permutations (tools for C78)
-/

namespace QNET.Circuit

open QNET.Perm QNET.CPerm CircAlg

variable {A : Type} [Ring A] [StarRing A] [Algebra ℂ A]

/-! ### results from some recursion limit on -/

/-- from some recursion limit on, the result is `v` -/
def Cv {β : Type} (F : ℕ → Res β) (v : β) : Prop := ∃ f0, ∀ f, f0 ≤ f → F f = .ok v

theorem Cv.const {β : Type} {x : Res β} {v : β} (h : x = .ok v) : Cv (fun _ => x) v := ⟨0, fun _ _ => h⟩

theorem Cv.bind {β γ : Type} {F : ℕ → Res β} {G : ℕ → β → Res γ} {v : β} {w : γ} (h : Cv F v) (h' : Cv (fun f => G f v) w) : Cv (fun f => F f >>= G f) w := by
  obtain ⟨f1, h1⟩ := h
  obtain ⟨f2, h2⟩ := h'
  refine ⟨max f1 f2, fun f hf => ?_⟩
  dsimp only
  rw [h1 f (by omega)]
  exact h2 f (by omega)

theorem Cv.of_mono {β : Type} {F : ℕ → Res β} {v : β} (hm : ∀ f f', f ≤ f' → Le (F f) (F f')) {f : ℕ} (h : F f = .ok v) : Cv F v :=
  ⟨f, fun f' hf => hm f f' hf v h⟩

theorem Cv.unique {β : Type} {F : ℕ → Res β} {v w : β} (h : Cv F v) (h' : Cv F w) : v = w := by
  obtain ⟨f1, h1⟩ := h
  obtain ⟨f2, h2⟩ := h'
  have := h1 (max f1 f2) (by omega)
  rw [h2 (max f1 f2) (by omega)] at this
  injection this with h
  exact h.symm

theorem Cv.congr {β : Type} {F G : ℕ → Res β} {v : β} (h : Cv F v) (e : ∀ f, G f = F f) : Cv G v := by
  obtain ⟨f1, h1⟩ := h
  exact ⟨f1, fun f hf => (e f).trans (h1 f hf)⟩

theorem Cv.mapM {α β : Type} {F : ℕ → α → Res β} {Q : α → β → Prop} :
    ∀ l : List α, (∀ x ∈ l, ∃ v, Cv (fun f => F f x) v ∧ Q x v) → ∃ vs, Cv (fun f => l.mapM (F f)) vs ∧ List.Forall₂ Q l vs
  | [], _ => ⟨[], ⟨0, fun _ _ => rfl⟩, .nil⟩
  | x :: l, h => by
    obtain ⟨v, ⟨f1, e1⟩, q1⟩ := h x (by simp)
    obtain ⟨vs, ⟨f2, e2⟩, q2⟩ := Cv.mapM l fun y hy => h y (by simp [hy])
    refine ⟨v :: vs, ⟨max f1 f2, fun f hf => ?_⟩, .cons q1 q2⟩
    dsimp only at e1 e2 ⊢
    rw [List.mapM_cons, e1 f (by omega), e2 f (by omega)]
    rfl

/-- the series product of `l` is `c` -/
def Ser (l : List (Circ A)) (c : Circ A) : Prop := Cv (fun f => (opsAt true f).series l) c
/-- the concatenation of `l` is `c` -/
def Con (l : List (Circ A)) (c : Circ A) : Prop := Cv (fun f => (opsAt true f).concat l) c
/-- the inverse of `c` is `d` -/
def Inv (c d : Circ A) : Prop := Cv (fun f => (opsAt true f).inverse c) d

theorem Ser.mk {l : List (Circ A)} {c : Circ A} {f : ℕ} (h : seriesCreate (opsAt true f) f l = .ok c) : Ser l c :=
  Cv.of_mono (f := f + 1) (fun _ _ hf => (opsAt_mono (by simp) hf).series l) h
theorem Con.mk {l : List (Circ A)} {c : Circ A} {f : ℕ} (h : concatCreate (opsAt true f) f l = .ok c) : Con l c :=
  Cv.of_mono (f := f + 1) (fun _ _ hf => (opsAt_mono (by simp) hf).concat l) h
theorem Inv.mk {c d : Circ A} (h : Cv (fun f => inverseCreate (opsAt true f) c) d) : Inv c d := by
  obtain ⟨f0, h⟩ := h
  exact Cv.of_mono (f := f0 + 1) (fun _ _ hf => (opsAt_mono (by simp) hf).inverse c) (h f0 le_rfl)

variable (A) in
/-- the rules for series products -/
noncomputable def SR (f : ℕ) : Circ A → Circ A → Res (Option (Circ A)) := seriesRule (opsAt true f)
variable (A) in
/-- the rules for concatenations -/
noncomputable def CR (f : ℕ) : Circ A → Circ A → Res (Option (Circ A)) := concatRule (opsAt true f)

theorem SR_mono (f f' : ℕ) (h : f ≤ f') (x y : Circ A) : Le (SR A f x y) (SR A f' x y) := seriesRule_mono (opsAt_mono (by simp) h) x y
theorem CR_mono (f f' : ℕ) (h : f ≤ f') (x y : Circ A) : Le (CR A f x y) (CR A f' x y) := concatRule_mono (opsAt_mono (by simp) h) x y

/-! ### the circuits -/

/-- what simplification without feedback yields -/
inductive Gd : Circ A → Prop
  | sym (a n : ℕ) : 0 < n → Gd (.sym a n)
  | inv (a n : ℕ) : 0 < n → Gd (.inv (.sym a n))
  | slh (s : SLH A) : 0 < s.n → Gd (.slh s)
  | id1 : Gd .id1
  | perm (p : List ℕ) : Reachable (.perm p) → Gd (.perm p)
  | concat (l : List (Circ A)) : 2 ≤ l.length → (∀ c ∈ l, Gd c) → (∀ c ∈ l, flatConcat c = none) → l.IsChain (NoRule (CR A)) → Gd (.concat l)
  | series (l : List (Circ A)) (n : ℕ) : 2 ≤ l.length → (∀ c ∈ l, Gd c) → (∀ c ∈ l, flatSeries c = none ∧ c.cdim = n ∧ c ≠ .id1) → l.IsChain (NoRule (SR A)) → Gd (.series l)

theorem Gd.pos {c : Circ A} (h : Gd c) : 0 < c.cdim := by
  induction h with
  | sym a n h => exact h
  | inv a n h => exact h
  | slh s h => exact h
  | id1 => exact Nat.one_pos
  | perm p h => have := perm_length_pos h; simp only [Circ.cdim]; omega
  | concat l hl _ _ _ ih =>
    rw [Circ.cdim]
    cases l with
    | nil => simp at hl
    | cons c l =>
      have := ih c (by simp)
      rw [sumCdim]
      omega
  | series l n hl _ _ _ ih =>
    rw [Circ.cdim]
    cases l with
    | nil => simp at hl
    | cons c l => exact ih c (by simp)

theorem Gd.series_cdim {l : List (Circ A)} {n : ℕ} (hl : 2 ≤ l.length) (hn : ∀ c ∈ l, c.cdim = n) : (Circ.series l).cdim = n := by
  rw [Circ.cdim]
  cases l with
  | nil => simp at hl
  | cons c l => exact hn c (by simp)

theorem cid_gd : ∀ {n : ℕ}, 0 < n → Gd (cid n : Circ A)
  | 1, _ => .id1
  | n + 2, _ => by
    refine .concat _ (by simp) (fun c hc => by rw [List.eq_of_mem_replicate hc]; exact .id1) (fun c hc => by rw [List.eq_of_mem_replicate hc]; rfl) ?_
    generalize n + 2 = k
    induction k with
    | zero => exact .nil
    | succ k ih =>
      cases k with
      | zero => exact .singleton _
      | succ k => exact .cons_cons ⟨0, rfl⟩ ih

theorem ofPC_gd {c : PC} (h : Reachable c) (hn : 0 < c.cdim) : Gd (ofPC c : Circ A) := by
  cases c with
  | perm p => exact .perm p h
  | cid n => exact cid_gd hn

theorem ofPC_cdim (c : PC) : (ofPC c : Circ A).cdim = c.cdim := by
  cases c with
  | perm p => rfl
  | cid n => exact cid_cdim n

mutual
/-- the number of components -/
def deep : Circ A → ℕ
  | .series l => deepList l
  | .concat l => deepList l
  | .perm _ => 0
  | .id1 => 0
  | .zero => 0
  | _ => 1
/-- the number of components of all of them -/
def deepList : List (Circ A) → ℕ
  | [] => 0
  | c :: l => deep c + deepList l
end

theorem deepList_eq : ∀ l : List (Circ A), deepList l = (l.map deep).sum
  | [] => rfl
  | c :: l => by rw [deepList, deepList_eq l]; rfl

theorem deepList_append (l m : List (Circ A)) : deepList (l ++ m) = deepList l + deepList m := by simp [deepList_eq]
theorem sumCdim_append (l m : List (Circ A)) : sumCdim (l ++ m) = sumCdim l + sumCdim m := by simp [sumCdim_eq]

theorem deep_cid : ∀ n : ℕ, deep (cid n : Circ A) = 0
  | 0 => rfl
  | 1 => rfl
  | n + 2 => by rw [cid, deep, deepList_eq]; simp [deep]

theorem deep_ofPC (c : PC) : deep (ofPC c : Circ A) = 0 := by
  cases c with
  | perm p => rfl
  | cid n => exact deep_cid n

theorem deep_flatConcat (c : Circ A) : deepList ((flatConcat c).getD [c]) = deep c := by
  cases c <;> simp [flatConcat, deepList, deep]
theorem deep_flatSeries (c : Circ A) : deepList ((flatSeries c).getD [c]) = deep c := by
  cases c <;> simp [flatSeries, deepList, deep]

theorem isCid_cid (n : ℕ) : isCid (cid n : Circ A) = true := by
  rw [isCid, cid_cdim]
  match n with
  | 0 => rfl
  | 1 => rfl
  | n + 2 =>
    rw [cid, beq]
    generalize n + 2 = k
    induction k with
    | zero => rfl
    | succ k ih => rw [List.replicate_succ, beqList, ih]; rfl

theorem isCid_iff {c : Circ A} : isCid c = true ↔ c = cid c.cdim :=
  ⟨fun h => beq_cid h, fun h => by rw [h]; exact isCid_cid _⟩

/-! ### the rules for concatenations -/

theorem splitPerm_some {c : Circ A} {as : List (Circ A)} {p : List ℕ} (h : splitPerm c = some (as, p)) : c = .series (as ++ [.perm p]) ∧ as ≠ [] := by
  unfold splitPerm at h
  split at h
  · next ops =>
    split at h
    · next q hq =>
      split at h
      · cases h
      · next hne =>
        injection h with h
        injection h with h1 h2
        subst h1 h2
        refine ⟨?_, hne⟩
        obtain ⟨hops, e⟩ := List.getLast?_eq_some_iff.mp hq
        rw [e]
        simp
    · cases h
  · cases h

theorem splitPerm_append {as : List (Circ A)} {p : List ℕ} (h : as ≠ []) : splitPerm (.series (as ++ [.perm p]) : Circ A) = some (as, p) := by
  simp [splitPerm, h]

/-- the last rules for concatenations -/
def concatRule2 (R : Ops A) (a b : Circ A) : Res (Option (Circ A)) :=
    match splitPerm a, splitPerm b with
    | some (as, p), some (bs, q) => do
      let x ← R.series as
      let y ← R.series bs
      let l ← R.concat [x, y]
      let r ← R.concat [.perm p, .perm q]
      let c ← R.series [l, r]
      .ok (some c)
    | some (as, p), none => do
      let x ← R.series as
      let l ← R.concat [x, b]
      let r ← R.concat [.perm p, cid b.cdim]
      let c ← R.series [l, r]
      .ok (some c)
    | none, some (bs, q) => do
      let y ← R.series bs
      let l ← R.concat [a, y]
      let r ← R.concat [cid a.cdim, .perm q]
      let c ← R.series [l, r]
      .ok (some c)
    | none, none => .ok none

theorem concatRule_series_left (R : Ops A) (l : List (Circ A)) (b : Circ A) : concatRule R (.series l) b = concatRule2 R (.series l) b := by cases b <;> rfl
theorem concatRule_series_right (R : Ops A) (a : Circ A) (l : List (Circ A)) : concatRule R a (.series l) = concatRule2 R a (.series l) := by cases a <;> rfl

theorem noRule_split {x y : Circ A} (h : NoRule (CR A) x y) : splitPerm x = none ∧ splitPerm y = none := by
  obtain ⟨f, h⟩ := h
  have key : ∀ R : Ops A, concatRule2 R x y = .ok none → splitPerm x = none ∧ splitPerm y = none := by
    intro R h
    unfold concatRule2 at h
    split at h
    · exfalso
      simp only [bind_ok] at h
      obtain ⟨_, _, _, _, _, _, _, _, _, _, h⟩ := h
      injection h with h
      cases h
    · exfalso
      simp only [bind_ok] at h
      obtain ⟨_, _, _, _, _, _, _, _, h⟩ := h
      injection h with h
      cases h
    · exfalso
      simp only [bind_ok] at h
      obtain ⟨_, _, _, _, _, _, _, _, h⟩ := h
      injection h with h
      cases h
    · next h1 h2 => exact ⟨h1, h2⟩
  cases hx : splitPerm x with
  | some a =>
    rw [← hx]
    obtain ⟨rfl, -⟩ := splitPerm_some hx
    rw [CR, concatRule_series_left] at h
    exact key _ h
  | none =>
    refine ⟨rfl, ?_⟩
    cases hy : splitPerm y with
    | none => rfl
    | some b =>
      rw [← hy]
      obtain ⟨rfl, -⟩ := splitPerm_some hy
      rw [CR, concatRule_series_right] at h
      exact (key _ h).2

theorem chain_mem {α : Type} {R : α → α → Prop} {P : α → Prop} (h : ∀ x y, R x y → P x ∧ P y) : ∀ l : List α, l.IsChain R → 2 ≤ l.length → ∀ c ∈ l, P c
  | x :: y :: l, hc, _, c, hm => by
    rw [List.isChain_cons_cons] at hc
    rcases List.mem_cons.mp hm with rfl | hm
    · exact (h _ _ hc.1).1
    · match l with
      | [] => rw [List.mem_singleton.mp hm]; exact (h _ _ hc.1).2
      | z :: l => exact chain_mem h _ hc.2 (by simp) c hm

theorem Gd.concat_split {l : List (Circ A)} (h : Gd (.concat l)) : ∀ c ∈ l, splitPerm c = none := by
  cases h with
  | concat l hl _ _ hc => exact chain_mem (fun x y h => noRule_split h) l hc hl

theorem noRule_perm {p : List ℕ} : ¬ (NoRule (CR A) (.perm p) .id1 ∨ NoRule (CR A) .id1 (.perm p)) := by
  rintro (⟨f, h⟩ | ⟨f, h⟩)
  · change (create _ >>= fun c => _) = _ at h
    rw [bind_ok] at h
    obtain ⟨_, _, h⟩ := h
    injection h with h
    cases h
  · change (create _ >>= fun c => _) = _ at h
    rw [bind_ok] at h
    obtain ⟨_, _, h⟩ := h
    injection h with h
    cases h

theorem noRule_perm_perm {p q : List ℕ} : ¬ NoRule (CR A) (.perm p) (.perm q) := by
  rintro ⟨f, h⟩
  change (create _ >>= fun c => _) = _ at h
  rw [bind_ok] at h
  obtain ⟨_, _, h⟩ := h
  injection h with h
  cases h

/-! ### the rules for series products -/

theorem noRule_SR {x y : Circ A} (h : NoRule (SR A) x y) : ∃ f, (∀ p q, ¬ (x = .perm p ∧ y = .perm q)) ∧ (∀ s t, ¬ (x = .slh s ∧ y = .slh t)) ∧
    tensorDecompose (opsAt true f) x y = .ok none ∧ (∀ p, x = .perm p → factorPermutation (opsAt true f) p y = .ok none) ∧ seriesInverseRules x y = none := by
  obtain ⟨f, h⟩ := h
  refine ⟨f, ?_⟩
  unfold SR seriesRule at h
  rw [bind_ok] at h
  obtain ⟨o, h1, h⟩ := h
  cases o with
  | some c => injection h with h; cases h
  | none =>
    dsimp only at h
    rw [bind_ok] at h
    obtain ⟨o2, h2, h⟩ := h
    cases o2 with
    | some c => injection h with h; cases h
    | none =>
      dsimp only at h
      rw [bind_ok] at h
      obtain ⟨o3, h3, h⟩ := h
      cases o3 with
      | some c => injection h with h; cases h
      | none =>
        injection h with h
        refine ⟨?_, ?_, h2, ?_, h⟩
        · rintro p q ⟨rfl, rfl⟩
          dsimp only at h1
          rw [bind_ok] at h1
          obtain ⟨_, _, h1⟩ := h1
          injection h1 with h1
          cases h1
        · rintro s t ⟨rfl, rfl⟩
          dsimp only at h1
          split at h1
          · cases h1
          · injection h1 with h1; cases h1
        · rintro p rfl
          exact h3

/-- how a rule applies -/
theorem SR_some {f : ℕ} {x y r : Circ A} (h : SR A f x y = .ok (some r)) :
    (∃ p q c, x = .perm p ∧ y = .perm q ∧ seriesWithPermutation p q = .ok c ∧ r = ofPC c) ∨ (∃ s t, x = .slh s ∧ y = .slh t ∧ s.n = t.n ∧ r = .slh (SLH.series s t)) ∨
    tensorDecompose (opsAt true f) x y = .ok (some r) ∨ (∃ p, x = .perm p ∧ factorPermutation (opsAt true f) p y = .ok (some r)) ∨ seriesInverseRules x y = some r := by
  unfold SR seriesRule at h
  rw [bind_ok] at h
  obtain ⟨o, h1, h⟩ := h
  cases o with
  | some c =>
    injection h with h
    injection h with h
    subst h
    split at h1
    · rw [bind_ok] at h1
      obtain ⟨c, h2, h1⟩ := h1
      injection h1 with h1
      injection h1 with h1
      exact .inl ⟨_, _, c, rfl, rfl, h2, h1.symm⟩
    · split at h1
      · cases h1
      · next hn =>
        injection h1 with h1
        injection h1 with h1
        exact .inr (.inl ⟨_, _, rfl, rfl, by simpa using hn, h1.symm⟩)
    · injection h1 with h1; cases h1
  | none =>
    dsimp only at h
    rw [bind_ok] at h
    obtain ⟨o2, h2, h⟩ := h
    cases o2 with
    | some c =>
      injection h with h
      injection h with h
      subst h
      exact .inr (.inr (.inl h2))
    | none =>
      dsimp only at h
      rw [bind_ok] at h
      obtain ⟨o3, h3, h⟩ := h
      cases o3 with
      | some c =>
        injection h with h
        injection h with h
        subst h
        split at h3
        · exact .inr (.inr (.inr (.inl ⟨_, rfl, h3⟩)))
        · injection h3 with h3; cases h3
      | none =>
        injection h with h
        exact .inr (.inr (.inr (.inr h)))

/-- the last rules, for a circuit with another left factor -/
theorem seriesInverseRules_gd {a b r : Circ A} (ha : Gd a) (hb : Gd b) (h : seriesInverseRules a b = some r) : r = cid a.cdim ∧ 1 ≤ deep a ∧ 1 ≤ deep b := by
  unfold seriesInverseRules at h
  cases hb with
  | inv b n hn =>
    dsimp only at h
    split at h
    · next hc =>
      injection h with h
      rw [beq_sym hc] at h ⊢
      exact ⟨h.symm, by simp [deep], by simp [deep]⟩
    · split at h
      · next y =>
        split at h
        · next hc =>
          injection h with h
          cases ha with
          | inv a m hm => simp [beq] at hc
        · cases h
      · cases h
  | _ =>
    dsimp only at h
    split at h
    · next y =>
      split at h
      · next hc =>
        injection h with h
        cases ha with
        | inv a m hm =>
          have := sym_beq hc
          cases this <;> exact ⟨h.symm, by simp [deep], by simp [deep]⟩
      · cases h
    · cases h

/-! ### block structures and identities -/

theorem commonLoop_ones : ∀ (k f r : ℕ) (a : ℕ) (l : List ℕ), k < f → r + k = a → ∀ (rest : List ℕ), commonLoop f a r l (List.replicate k 1 ++ rest) = .ok (a, l, rest)
  | 0, f + 1, r, a, l, _, h, rest => by
    unfold commonLoop
    rw [if_neg (by omega), if_neg (by omega)]
    rfl
  | k + 1, f + 1, r, a, l, hf, h, rest => by
    unfold commonLoop
    rw [if_neg (by omega), if_pos (by omega), List.replicate_succ]
    exact commonLoop_ones k f (r + 1) a l (by omega) (by omega) rest

theorem commonLoop_ones' : ∀ (k f r : ℕ) (a : ℕ) (l : List ℕ), k < f → r + k = a → ∀ (rest : List ℕ), commonLoop f r a (List.replicate k 1 ++ rest) l = .ok (a, rest, l)
  | 0, f + 1, r, a, l, _, h, rest => by
    unfold commonLoop
    rw [if_neg (by omega), if_neg (by omega)]
    simp at h
    subst h
    rfl
  | k + 1, f + 1, r, a, l, hf, h, rest => by
    unfold commonLoop
    rw [if_pos (by omega), List.replicate_succ]
    exact commonLoop_ones' k f (r + 1) a l (by omega) (by omega) rest

theorem commonStructure_ones : ∀ (l : List ℕ) (f : ℕ), l.length < f → (∀ x ∈ l, 0 < x) → commonStructure f l (List.replicate l.sum 1) = .ok l
  | [], f + 1, _, _ => by simp [commonStructure]
  | a :: l, f + 1, hf, hp => by
    have ha := hp a (by simp)
    obtain ⟨k, rfl⟩ : ∃ k, a = k + 1 := ⟨a - 1, by omega⟩
    rw [commonStructure, if_neg (by simp), if_neg (by simp)]
    have e : List.replicate ((k + 1) :: l).sum 1 = 1 :: (List.replicate k 1 ++ List.replicate l.sum 1) := by
      rw [List.sum_cons, List.replicate_append_replicate, show k + 1 + l.sum = (k + l.sum) + 1 by omega, List.replicate_succ]
    rw [e]
    simp only [List.headD_cons, List.tail_cons]
    rw [commonLoop_ones k _ 1 (k + 1) l (by simp; omega) (by omega)]
    change (commonStructure f l _ >>= _) = _
    rw [commonStructure_ones l f (by simpa using hf) fun x hx => hp x (by simp [hx])]
    rfl

theorem commonStructure_ones' : ∀ (l : List ℕ) (f : ℕ), l.length < f → (∀ x ∈ l, 0 < x) → commonStructure f (List.replicate l.sum 1) l = .ok l
  | [], f + 1, _, _ => by simp [commonStructure]
  | a :: l, f + 1, hf, hp => by
    have ha := hp a (by simp)
    obtain ⟨k, rfl⟩ : ∃ k, a = k + 1 := ⟨a - 1, by omega⟩
    rw [commonStructure, if_neg (by simp), if_neg (by simp)]
    have e : List.replicate ((k + 1) :: l).sum 1 = 1 :: (List.replicate k 1 ++ List.replicate l.sum 1) := by
      rw [List.sum_cons, List.replicate_append_replicate, show k + 1 + l.sum = (k + l.sum) + 1 by omega, List.replicate_succ]
    rw [e]
    simp only [List.headD_cons, List.tail_cons]
    rw [commonLoop_ones' k _ 1 (k + 1) l (by simp; omega) (by omega)]
    change (commonStructure f _ l >>= _) = _
    rw [commonStructure_ones' l f (by simpa using hf) fun x hx => hp x (by simp [hx])]
    rfl

theorem blockStructure_cid : ∀ {n : ℕ}, 0 < n → blockStructure (cid n : Circ A) = .ok (List.replicate n 1)
  | 1, _ => rfl
  | n + 2, _ => by
    rw [cid, blockStructure]
    generalize n + 2 = k
    induction k with
    | zero => rfl
    | succ k ih => rw [List.replicate_succ, blockStructureList, ih]; rfl

theorem noRule_tensor {x y : Circ A} {l r st : List ℕ} (h : NoRule (SR A) x y) (hy : ∀ q, y ≠ .perm q) (hl : blockStructure x = .ok l) (hr : blockStructure y = .ok r)
    (hst : commonStructure (l.length + r.length + 1) l r = .ok st) : st.length ≤ 1 := by
  obtain ⟨f, -, -, h, -, -⟩ := noRule_SR h
  unfold tensorDecompose at h
  split at h
  · exact absurd rfl (hy _)
  · rw [bind_ok] at h
    obtain ⟨l', e, h⟩ := h
    rw [hl] at e
    injection e with e
    subst e
    rw [bind_ok] at h
    obtain ⟨r', e, h⟩ := h
    rw [hr] at e
    injection e with e
    subst e
    rw [bind_ok] at h
    obtain ⟨st', e, h⟩ := h
    rw [hst] at e
    injection e with e
    subst e
    by_contra hc
    rw [if_pos (by omega)] at h
    rw [bind_ok] at h
    obtain ⟨_, _, h⟩ := h
    rw [bind_ok] at h
    obtain ⟨_, _, h⟩ := h
    rw [bind_ok] at h
    obtain ⟨_, _, h⟩ := h
    rw [bind_ok] at h
    obtain ⟨_, _, h⟩ := h
    injection h with h
    cases h

end QNET.Circuit
