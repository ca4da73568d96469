import Verif.Cache.Rules

/-!
# C24: rules and caches are restored
-/

namespace QNET.Cache.Rules

namespace World

theorem lookup_setAttr_self {w : World} (hm : MroOk w.mro) (c : ℕ) (a : Attr) (r : ℕ) : (w.setAttr c a r).lookup c a = some r := by
  obtain ⟨l, hl⟩ := hm.head c
  show (w.mro c).findSome? _ = _
  rw [hl]
  simp [setAttr]

theorem lookup_own {w : World} (hm : MroOk w.mro) {c : ℕ} {a : Attr} {r : ℕ} (h : w.own c a = some r) : w.lookup c a = some r := by
  obtain ⟨l, hl⟩ := hm.head c
  show (w.mro c).findSome? _ = _
  rw [hl]
  simp [h]

theorem lookup_setAttr (w : World) (c d : ℕ) (a b : Attr) (r : ℕ) :
    (w.setAttr c a r).lookup d b = w.lookup d b ∨ ((w.setAttr c a r).lookup d b = some r ∧ b = a ∧ c ∈ w.mro d) := by
  show (w.mro d).findSome? _ = (w.mro d).findSome? _ ∨ _ ∧ _
  have : (w.setAttr c a r).lookup d b = (w.mro d).findSome? (fun e => if e = c ∧ b = a then some r else w.own e b) := rfl
  rw [this]
  simp only [setAttr]
  induction w.mro d with
  | nil => simp
  | cons e l ih =>
    simp only [List.findSome?_cons]
    by_cases h : e = c ∧ b = a
    · rw [if_pos h]; right; exact ⟨rfl, h.2, by simp [h.1]⟩
    · rw [if_neg h]
      cases hx : w.own e b with
      | some x => simp
      | none =>
        simp only
        rcases ih with ih | ⟨i1, i2, i3⟩
        · exact Or.inl ih
        · exact Or.inr ⟨i1, i2, by simp [i3]⟩

theorem lookup_bindNew (w : World) (c d : ℕ) (a b : Attr) (o : Obj) :
    (w.bindNew c a o).lookup d b = w.lookup d b ∨ ((w.bindNew c a o).lookup d b = some w.heap.length ∧ b = a ∧ c ∈ w.mro d) :=
  lookup_setAttr w c d a b w.heap.length

theorem lookup_bindNew_self {w : World} (hm : MroOk w.mro) (c : ℕ) (a : Attr) (o : Obj) : (w.bindNew c a o).lookup c a = some w.heap.length :=
  lookup_setAttr_self hm c a w.heap.length

theorem content_bindNew {w : World} {c r : ℕ} {a : Attr} {o : Obj} (hr : r < w.heap.length) : (w.bindNew c a o).content r = w.content r := by
  simp [bindNew, content, List.getD, List.getElem?_append_left hr]

theorem content_bindNew_self {w : World} {c : ℕ} {a : Attr} {o : Obj} : (w.bindNew c a o).content w.heap.length = o := by
  simp [bindNew, content, List.getD]

theorem content_modify {w : World} {r s : ℕ} {o : Obj} (h : r ≠ s) : (w.modify r o).content s = w.content s := by
  simp [modify, content, List.getD, List.getElem?_set_ne h]

/-- if nothing is found for `c`, nothing is found for its ancestors -/
theorem lookup_none_mono {w : World} (hm : MroOk w.mro) {c d : ℕ} {a : Attr} (h : w.lookup c a = none) (hd : d ∈ w.mro c) : w.lookup d a = none := by
  unfold lookup at h ⊢
  rw [List.findSome?_eq_none_iff] at h ⊢
  intro e he
  exact h e (hm.trans c d hd e he)

end World

open World

/-! ### induction principle -/

/-- A property that is preserved by binding new objects, by changing objects, and by binding objects that have been found before. -/
structure Stable (T : ℕ → Prop) (P : World → Prop) : Prop where
  bindNew : ∀ w d a r o, T d → P w → w.lookup d a = some r → P (w.bindNew d a o)
  modify : ∀ w d a r o, T d → P w → w.lookup d a = some r → P (w.modify r o)
  setAttr : ∀ w w' d a r, T d → P w → w.lookup d a = some r → P w' → P (w'.setAttr d a r)

theorem Stable.replace {T : ℕ → Prop} {P : World → Prop} (hP : Stable T P) {w : World} {d : ℕ} {a : Attr} {o : Obj → Obj} (hd : T d) (h : P w) :
    P (replaceAttr d a o w) := by
  unfold replaceAttr
  split
  · rename_i r hr; exact hP.bindNew w d a r _ hd h hr
  · exact h

/-- saved references that have been found in worlds with the property -/
def SavedOk (T : ℕ → Prop) (P : World → Prop) (saved : List (ℕ × (Attr → Option ℕ))) : Prop :=
  ∀ p ∈ saved, T p.1 ∧ ∀ a r, p.2 a = some r → ∃ w, P w ∧ w.lookup p.1 a = some r

theorem Stable.enterRules {T : ℕ → Prop} {P : World → Prop} (hP : Stable T P) (clear : Bool) : ∀ (cs : List ℕ) (w : World), (∀ c ∈ cs, T c) → P w →
    P (enterRules clear cs w).1 ∧ SavedOk T P (enterRules clear cs w).2
  | [], w, _, h => ⟨h, by intro p hp; simp [Rules.enterRules] at hp⟩
  | c :: cs, w, hT, h => by
    have hc := hT c (by simp)
    have h1 := hP.replace (a := .instances) (o := fun _ => []) hc h
    have h2 := hP.replace (a := .simplifications) (o := id) hc h1
    have h3 := hP.replace (a := .rules) (o := fun o => if clear then [] else o) hc h2
    have h4 := hP.replace (a := .binaryRules) (o := fun o => if clear then [] else o) hc h3
    obtain ⟨i1, i2⟩ := hP.enterRules clear cs _ (fun d hd => hT d (by simp [hd])) h4
    refine ⟨i1, ?_⟩
    intro p hp
    rcases List.mem_cons.mp hp with rfl | hp
    · exact ⟨hc, fun a r hr => ⟨w, h, hr⟩⟩
    · exact i2 p hp

theorem Stable.enterCache {T : ℕ → Prop} {P : World → Prop} (hP : Stable T P) : ∀ (cs : List ℕ) (w : World), (∀ c ∈ cs, T c) → P w →
    P (enterCache cs w).1 ∧ SavedOk T P (enterCache cs w).2
  | [], w, _, h => ⟨h, by intro p hp; simp [Rules.enterCache] at hp⟩
  | c :: cs, w, hT, h => by
    have hc := hT c (by simp)
    have h1 := hP.replace (a := .instances) (o := fun _ => []) hc h
    obtain ⟨i1, i2⟩ := hP.enterCache cs _ (fun d hd => hT d (by simp [hd])) h1
    refine ⟨i1, ?_⟩
    intro p hp
    rcases List.mem_cons.mp hp with rfl | hp
    · exact ⟨hc, fun a r hr => ⟨w, h, hr⟩⟩
    · exact i2 p hp

theorem Stable.restoreAttrs {T : ℕ → Prop} {P : World → Prop} (hP : Stable T P) {c : ℕ} {s : Attr → Option ℕ} (hc : T c)
    (hs : ∀ a r, s a = some r → ∃ w, P w ∧ w.lookup c a = some r) : ∀ (attrs : List Attr) (w : World), P w → P (attrs.foldl (restoreAttr c s) w)
  | [], _, h => h
  | a :: as, w, h => by
    refine hP.restoreAttrs hc hs as _ ?_
    unfold restoreAttr
    split
    · rename_i r hr
      obtain ⟨w0, h0, hl⟩ := hs a r hr
      exact hP.setAttr w0 w c a r hc h0 hl h
    · exact h

theorem Stable.leave {T : ℕ → Prop} {P : World → Prop} (hP : Stable T P) (attrs : List Attr) : ∀ (saved : List (ℕ × (Attr → Option ℕ))) (w : World),
    SavedOk T P saved → P w → P (leave attrs saved w)
  | [], _, _, h => h
  | (c, s) :: l, w, hs, h => by
    obtain ⟨h1, h2⟩ := hs (c, s) (by simp)
    exact hP.leave attrs l _ (fun p hp => hs p (by simp [hp])) (hP.restoreAttrs h1 h2 attrs w h)

/-- a stable property is preserved by programs -/
theorem Stable.exec {T : ℕ → Prop} {P : World → Prop} (hP : Stable T P) : ∀ (p : Prog) (w : World), OnlyOn T p → P w → P (exec p w).1 := by
  intro p
  induction p with
  | done => intro w _ h; exact h
  | raise => intro w _ h; exact h
  | mutate c a f next ih =>
    intro w ho h
    unfold Rules.exec
    split
    · exact h
    · rename_i r hr
      split
      · exact h
      · exact ih _ ho.2 (hP.modify w c a r _ ho.1 h hr)
  | rebind c a o next ih =>
    intro w ho h
    unfold Rules.exec
    split
    · exact h
    · rename_i r hr
      exact ih _ ho.2 (hP.bindNew w c a r _ ho.1 h hr)
  | tempRules cs clear body next ih1 ih2 =>
    intro w ho h
    obtain ⟨e1, e2⟩ := hP.enterRules clear cs w ho.1 h
    have h3 := hP.leave allAttrs _ _ e2 (ih1 _ ho.2.1 e1)
    unfold Rules.exec
    dsimp only
    split
    · exact h3
    · exact ih2 _ ho.2.2 h3
  | tempCache cs body next ih1 ih2 =>
    intro w ho h
    obtain ⟨e1, e2⟩ := hP.enterCache cs w ho.1 h
    have h3 := hP.leave [.instances] _ _ e2 (ih1 _ ho.2.1 e1)
    unfold Rules.exec
    dsimp only
    split
    · exact h3
    · exact ih2 _ ho.2.2 h3
  | attempt body next ih1 ih2 =>
    intro w ho h
    unfold Rules.exec
    exact ih2 _ ho.2 (ih1 _ ho.1 h)
  | read k ih =>
    intro w ho h
    unfold Rules.exec
    exact ih w w (ho w) h

/-! ### stable properties -/

theorem stable_mro (T : ℕ → Prop) (m : ℕ → List ℕ) : Stable T (fun w => w.mro = m) :=
  ⟨fun _ _ _ _ _ _ h _ => h, fun _ _ _ _ _ _ h _ => h, fun _ _ _ _ _ _ _ _ h => h⟩

theorem stable_none (T : ℕ → Prop) {m : ℕ → List ℕ} (hm : MroOk m) (c : ℕ) (a : Attr) : Stable T (fun w => w.mro = m ∧ w.lookup c a = none) := by
  refine ⟨?_, ?_, ?_⟩
  · rintro w d b r o - ⟨h1, h2⟩ hl
    refine ⟨h1, ?_⟩
    rcases lookup_bindNew w d c b a o with h | ⟨-, h3, h4⟩
    · rw [h, h2]
    · subst h3
      rw [lookup_none_mono (h1 ▸ hm) h2 h4] at hl
      cases hl
  · rintro w d b r o - ⟨h1, h2⟩ hl
    exact ⟨h1, h2⟩
  · rintro w w' d b r - ⟨h1, h2⟩ hl ⟨h1', h2'⟩
    refine ⟨h1', ?_⟩
    rcases lookup_setAttr w' d c b a r with h | ⟨-, h3, h4⟩
    · rw [h, h2']
    · subst h3
      rw [lookup_none_mono (h1 ▸ hm) h2 (by rw [h1, ← h1']; exact h4)] at hl
      cases hl

theorem stable_content (T : ℕ → Prop) (r0 : ℕ) (o0 : Obj) :
    Stable T (fun w => r0 < w.heap.length ∧ w.content r0 = o0 ∧ ∀ d, T d → ∀ a, w.lookup d a ≠ some r0) := by
  refine ⟨?_, ?_, ?_⟩
  · rintro w d a r o - ⟨h1, h2, h3⟩ hl
    refine ⟨by simp [World.bindNew]; omega, by rw [content_bindNew h1, h2], ?_⟩
    intro e he b
    rcases lookup_bindNew w d e a b o with h | ⟨h, -⟩
    · rw [h]; exact h3 e he b
    · rw [h]; simp; omega
  · rintro w d a r o hd ⟨h1, h2, h3⟩ hl
    refine ⟨by simpa [World.modify] using h1, ?_, h3⟩
    rw [content_modify, h2]
    rintro rfl
    exact h3 d hd a hl
  · rintro w w' d a r hd ⟨-, -, h3⟩ hl ⟨h1', h2', h3'⟩
    refine ⟨h1', h2', ?_⟩
    intro e he b
    rcases lookup_setAttr w' d e a b r with h | ⟨h, -⟩
    · rw [h]; exact h3' e he b
    · rw [h]; intro hr; injection hr with hr; subst hr; exact h3 d hd a hl

/-! ### entering -/

/-- what entering a block does to the references of a class and to the objects -/
structure Entered (w w1 : World) : Prop where
  mro : w1.mro = w.mro
  len : w.heap.length ≤ w1.heap.length
  content : ∀ r, r < w.heap.length → w1.content r = w.content r
  lookup : ∀ d a, w1.lookup d a = w.lookup d a ∨ ∃ r, w.heap.length ≤ r ∧ w1.lookup d a = some r

theorem Entered.refl (w : World) : Entered w w := ⟨rfl, Nat.le_refl _, fun _ _ => rfl, fun _ _ => Or.inl rfl⟩

theorem Entered.trans {w w1 w2 : World} (h1 : Entered w w1) (h2 : Entered w1 w2) : Entered w w2 := by
  refine ⟨h2.mro.trans h1.mro, Nat.le_trans h1.len h2.len, ?_, ?_⟩
  · intro r hr; rw [h2.content r (Nat.lt_of_lt_of_le hr h1.len), h1.content r hr]
  · intro d a
    rcases h2.lookup d a with h | ⟨r, hr, h⟩
    · rw [h]; exact h1.lookup d a
    · exact Or.inr ⟨r, Nat.le_trans h1.len hr, h⟩

theorem Entered.replace (w : World) (c : ℕ) (a : Attr) (o : Obj → Obj) : Entered w (replaceAttr c a o w) := by
  unfold replaceAttr
  split
  · refine ⟨rfl, by simp [World.bindNew], fun r hr => content_bindNew hr, ?_⟩
    intro d b
    rcases lookup_bindNew w c d a b (o (w.content _)) with h | ⟨h, -⟩
    · exact Or.inl h
    · exact Or.inr ⟨_, Nat.le_refl _, h⟩
  · exact Entered.refl w

/-- after replacing an attribute, nothing old is found -/
theorem replace_fresh {w : World} (hm : MroOk w.mro) (c : ℕ) (a : Attr) (o : Obj → Obj) :
    (replaceAttr c a o w).lookup c a = none ∨ ∃ r, w.heap.length ≤ r ∧ (replaceAttr c a o w).lookup c a = some r := by
  unfold replaceAttr
  split
  · right; exact ⟨_, Nat.le_refl _, lookup_bindNew_self hm c a _⟩
  · left; assumption

theorem replace_other {w : World} {c d : ℕ} (hcd : c ∉ w.mro d) (a : Attr) (o : Obj → Obj) (b : Attr) : (replaceAttr c a o w).lookup d b = w.lookup d b := by
  unfold replaceAttr
  split
  · rcases lookup_bindNew w c d a b (o (w.content _)) with h | ⟨-, -, h⟩
    · exact h
    · exact absurd h hcd
  · rfl

theorem Fresh.later {w1 w2 : World} {c : ℕ} {a : Attr} {n : ℕ} (hn : n ≤ w1.heap.length) (h : w1.lookup c a = none ∨ ∃ r, n ≤ r ∧ w1.lookup c a = some r)
    (he : Entered w1 w2) : w2.lookup c a = none ∨ ∃ r, n ≤ r ∧ w2.lookup c a = some r := by
  rcases he.lookup c a with h' | ⟨r, hr, h'⟩
  · rw [h']; exact h
  · exact Or.inr ⟨r, Nat.le_trans hn hr, h'⟩

theorem enterRules_spec (clear : Bool) : ∀ (cs : List ℕ) (w : World), MroOk w.mro → Entered w (enterRules clear cs w).1 ∧
    (∀ c ∈ cs, ∀ a, (enterRules clear cs w).1.lookup c a = none ∨ ∃ r, w.heap.length ≤ r ∧ (enterRules clear cs w).1.lookup c a = some r) ∧
    (enterRules clear cs w).2.map Prod.fst = cs ∧
    (cs.Pairwise (fun c d => c ∉ w.mro d) → ∀ p ∈ (enterRules clear cs w).2, ∀ a, p.2 a = w.lookup p.1 a)
  | [], w, _ => ⟨Entered.refl w, by simp, rfl, by simp [enterRules]⟩
  | c :: cs, w, hm => by
    set w1 := replaceAttr c .instances (fun _ => []) w with hw1
    set w2 := replaceAttr c .simplifications id w1 with hw2
    set w3 := replaceAttr c .rules (fun o => if clear then [] else o) w2 with hw3
    set w4 := replaceAttr c .binaryRules (fun o => if clear then [] else o) w3 with hw4
    have hE : enterRules clear (c :: cs) w = ((enterRules clear cs w4).1, (c, fun a => w.lookup c a) :: (enterRules clear cs w4).2) := rfl
    have e1 : Entered w w1 := Entered.replace ..
    have e2 : Entered w1 w2 := Entered.replace ..
    have e3 : Entered w2 w3 := Entered.replace ..
    have e4 : Entered w3 w4 := Entered.replace ..
    have m1 : MroOk w1.mro := by rw [e1.mro]; exact hm
    have m2 : MroOk w2.mro := by rw [e2.mro]; exact m1
    have m3 : MroOk w3.mro := by rw [e3.mro]; exact m2
    have m4 : MroOk w4.mro := by rw [e4.mro]; exact m3
    obtain ⟨i1, i2, i3, i4⟩ := enterRules_spec clear cs w4 m4
    have e14 : Entered w w4 := ((e1.trans e2).trans e3).trans e4
    have l1 := e1.len
    have l2 := e2.len
    have l3 := e3.len
    have l4 := e4.len
    rw [hE]
    refine ⟨e14.trans i1, ?_, ?_, ?_⟩
    · intro d hd a
      have hc4 : ∀ a, w4.lookup c a = none ∨ ∃ r, w.heap.length ≤ r ∧ w4.lookup c a = some r := by
        intro a
        cases a with
        | instances => exact Fresh.later l1 (replace_fresh hm c _ _) ((e2.trans e3).trans e4)
        | simplifications =>
          refine Fresh.later (by omega) ?_ (e3.trans e4)
          rcases replace_fresh m1 c .simplifications id with h | ⟨r, hr, h⟩
          · exact Or.inl h
          · exact Or.inr ⟨r, by omega, h⟩
        | rules =>
          refine Fresh.later (by omega) ?_ e4
          rcases replace_fresh m2 c .rules (fun o => if clear then [] else o) with h | ⟨r, hr, h⟩
          · exact Or.inl h
          · exact Or.inr ⟨r, by omega, h⟩
        | binaryRules =>
          rcases replace_fresh m3 c .binaryRules (fun o => if clear then [] else o) with h | ⟨r, hr, h⟩
          · exact Or.inl h
          · exact Or.inr ⟨r, by omega, h⟩
      rcases List.mem_cons.mp hd with rfl | hd
      · exact Fresh.later (by omega) (hc4 a) i1
      · rcases i2 d hd a with h | ⟨r, hr, h⟩
        · exact Or.inl h
        · exact Or.inr ⟨r, by omega, h⟩
    · simp [i3]
    · intro hp p hpm a
      rw [List.pairwise_cons] at hp
      rcases List.mem_cons.mp hpm with rfl | hpm
      · rfl
      · have hp1 : p.1 ∈ cs := by rw [← i3]; exact List.mem_map_of_mem hpm
        have hn := hp.1 p.1 hp1
        rw [i4 (by rw [e14.mro]; exact hp.2) p hpm a, hw4, replace_other (by rw [e3.mro, e2.mro, e1.mro]; exact hn), hw3,
          replace_other (by rw [e2.mro, e1.mro]; exact hn), hw2, replace_other (by rw [e1.mro]; exact hn), hw1, replace_other hn]

theorem enterCache_spec : ∀ (cs : List ℕ) (w : World), MroOk w.mro → Entered w (enterCache cs w).1 ∧
    (∀ c ∈ cs, (enterCache cs w).1.lookup c .instances = none ∨ ∃ r, w.heap.length ≤ r ∧ (enterCache cs w).1.lookup c .instances = some r) ∧
    (enterCache cs w).2.map Prod.fst = cs ∧
    (cs.Pairwise (fun c d => c ∉ w.mro d) → ∀ p ∈ (enterCache cs w).2, ∀ a, p.2 a = w.lookup p.1 a)
  | [], w, _ => ⟨Entered.refl w, by simp, rfl, by simp [enterCache]⟩
  | c :: cs, w, hm => by
    set w1 := replaceAttr c .instances (fun _ => []) w with hw1
    have hE : enterCache (c :: cs) w = ((enterCache cs w1).1, (c, fun a => w.lookup c a) :: (enterCache cs w1).2) := rfl
    have e1 : Entered w w1 := Entered.replace ..
    have m1 : MroOk w1.mro := by rw [e1.mro]; exact hm
    obtain ⟨i1, i2, i3, i4⟩ := enterCache_spec cs w1 m1
    have l1 := e1.len
    rw [hE]
    refine ⟨e1.trans i1, ?_, ?_, ?_⟩
    · intro d hd
      rcases List.mem_cons.mp hd with rfl | hd
      · exact Fresh.later l1 (replace_fresh hm d _ _) i1
      · rcases i2 d hd with h | ⟨r, hr, h⟩
        · exact Or.inl h
        · exact Or.inr ⟨r, by omega, h⟩
    · simp [i3]
    · intro hp p hpm a
      rw [List.pairwise_cons] at hp
      rcases List.mem_cons.mp hpm with rfl | hpm
      · rfl
      · have hp1 : p.1 ∈ cs := by rw [← i3]; exact List.mem_map_of_mem hpm
        rw [i4 (by rw [e1.mro]; exact hp.2) p hpm a, hw1, replace_other (hp.1 p.1 hp1)]

/-! ### leaving -/

theorem restoreAttrs_own (c : ℕ) (s : Attr → Option ℕ) : ∀ (attrs : List Attr) (w : World) (d : ℕ) (a : Attr),
    (attrs.foldl (restoreAttr c s) w).own d a = if d = c ∧ a ∈ attrs then (s a).or (w.own d a) else w.own d a
  | [], w, d, a => by simp
  | b :: as, w, d, a => by
    rw [List.foldl_cons, restoreAttrs_own c s as]
    have : (restoreAttr c s w b).own d a = if d = c ∧ a = b then (s a).or (w.own d a) else w.own d a := by
      unfold restoreAttr
      split
      · rename_i r hr
        simp only [World.setAttr]
        split
        · rename_i h; rw [h.2, hr]; rfl
        · rfl
      · rename_i hr
        split
        · rename_i h; rw [h.2, hr]; rfl
        · rfl
    rw [this]
    by_cases hd : d = c <;> by_cases hb : a = b <;> by_cases ha : a ∈ as <;> simp [hd, hb, ha]
    · subst hb; simp [ha]
      cases s a <;> simp
    · subst hb; simp [ha]

theorem restoreAttrs_rest (c : ℕ) (s : Attr → Option ℕ) : ∀ (attrs : List Attr) (w : World),
    (attrs.foldl (restoreAttr c s) w).heap = w.heap ∧ (attrs.foldl (restoreAttr c s) w).mro = w.mro
  | [], w => ⟨rfl, rfl⟩
  | b :: as, w => by
    rw [List.foldl_cons]
    obtain ⟨h1, h2⟩ := restoreAttrs_rest c s as (restoreAttr c s w b)
    rw [h1, h2]
    unfold restoreAttr
    split <;> exact ⟨rfl, rfl⟩

theorem leave_spec (attrs : List Attr) : ∀ (saved : List (ℕ × (Attr → Option ℕ))) (w : World),
    (leave attrs saved w).heap = w.heap ∧ (leave attrs saved w).mro = w.mro ∧
    (∀ d a, d ∉ saved.map Prod.fst → (leave attrs saved w).own d a = w.own d a) ∧
    ((saved.map Prod.fst).Nodup → ∀ p ∈ saved, ∀ a ∈ attrs, ∀ r, p.2 a = some r → (leave attrs saved w).own p.1 a = some r)
  | [], w => ⟨rfl, rfl, fun _ _ _ => rfl, by simp⟩
  | (c, s) :: l, w => by
    obtain ⟨i1, i2, i3, i4⟩ := leave_spec attrs l (attrs.foldl (restoreAttr c s) w)
    obtain ⟨r1, r2⟩ := restoreAttrs_rest c s attrs w
    refine ⟨i1.trans r1, i2.trans r2, ?_, ?_⟩
    · intro d a hd
      simp only [List.map_cons, List.mem_cons, not_or] at hd
      show (leave attrs l _).own d a = _
      rw [i3 d a hd.2, restoreAttrs_own, if_neg (fun h => hd.1 h.1)]
    · intro hn p hp a ha r hr
      simp only [List.map_cons, List.nodup_cons] at hn
      show (leave attrs l _).own _ a = _
      rcases List.mem_cons.mp hp with rfl | hp
      · rw [i3 c a hn.1, restoreAttrs_own, if_pos ⟨rfl, ha⟩]
        simp only at hr
        rw [hr]; rfl
      · exact i4 hn.2 p hp a ha r hr

theorem onlyOn_true : ∀ p : Prog, OnlyOn (fun _ => True) p := by
  intro p
  induction p with
  | done => trivial
  | raise => trivial
  | mutate c a f next ih => exact ⟨trivial, ih⟩
  | rebind c a o next ih => exact ⟨trivial, ih⟩
  | tempRules cs clear body next ih1 ih2 => exact ⟨fun _ _ => trivial, ih1, ih2⟩
  | tempCache cs body next ih1 ih2 => exact ⟨fun _ _ => trivial, ih1, ih2⟩
  | attempt body next ih1 ih2 => exact ⟨ih1, ih2⟩
  | read k ih => exact ih

theorem exec_tempRules (cs : List ℕ) (clear : Bool) (body : Prog) (w : World) : exec (.tempRules cs clear body .done) w =
    (leave allAttrs (enterRules clear cs w).2 (exec body (enterRules clear cs w).1).1, (exec body (enterRules clear cs w).1).2) := by
  rw [exec]
  split
  · rename_i h; rw [h]
  · rename_i h; rw [exec, Bool.not_eq_true _ |>.mp h]

theorem exec_tempCache (cs : List ℕ) (body : Prog) (w : World) : exec (.tempCache cs body .done) w =
    (leave [.instances] (enterCache cs w).2 (exec body (enterCache cs w).1).1, (exec body (enterCache cs w).1).2) := by
  rw [exec]
  split
  · rename_i h; rw [h]
  · rename_i h; rw [exec, Bool.not_eq_true _ |>.mp h]

theorem pairwise_nodup {m : ℕ → List ℕ} (hm : MroOk m) {cs : List ℕ} (h : cs.Pairwise (fun c d => c ∉ m d)) : cs.Nodup := by
  refine h.imp ?_
  rintro c d h rfl
  obtain ⟨l, hl⟩ := hm.head c
  exact h (by simp [hl])

/-- C24: after `with temporary_rules(*classes, clear=clear): body` - whether the body ends normally or with an exception, whatever it
does, also with nested blocks - every attribute (instance cache, simplifications, rules, binary rules) of every class in `classes` refers to
the same object as before, and that object has the same contents as before, unless the body operates on another class which shares
the object. The classes must be different, and none may be listed before a class derived from it. -/
theorem C24_temporary_rules (w : World) (hm : MroOk w.mro) (cs : List ℕ) (clear : Bool) (body : Prog)
    (hcs : cs.Pairwise (fun c d => c ∉ w.mro d)) (T : ℕ → Prop) (hT : OnlyOn T body) (hw : ∀ c a r, w.lookup c a = some r → r < w.heap.length) :
    (exec (.tempRules cs clear body .done) w).2 = (exec body (enterRules clear cs w).1).2 ∧
    ∀ c ∈ cs, ∀ a, (exec (.tempRules cs clear body .done) w).1.lookup c a = w.lookup c a ∧
      ∀ r, w.lookup c a = some r → (∀ d, T d → d ∉ cs → ∀ b, w.lookup d b ≠ some r) →
        (exec (.tempRules cs clear body .done) w).1.content r = w.content r := by
  obtain ⟨e1, e2, e3, e4⟩ := enterRules_spec clear cs w hm
  set w1 := (enterRules clear cs w).1 with hw1
  set saved := (enterRules clear cs w).2 with hsaved
  have hex : (exec (.tempRules cs clear body .done) w).1 = leave allAttrs saved (exec body w1).1 := by
    rw [exec_tempRules]
  have hex2 : (exec (.tempRules cs clear body .done) w).2 = (exec body w1).2 := by
    rw [exec_tempRules]
  refine ⟨hex2, ?_⟩
  intro c hc a
  obtain ⟨l1, l2, -, l4⟩ := leave_spec allAttrs saved (exec body w1).1
  have hnd : (saved.map Prod.fst).Nodup := by rw [e3]; exact pairwise_nodup hm hcs
  obtain ⟨p, hp, hpc⟩ := List.mem_map.mp (show c ∈ saved.map Prod.fst by rw [e3]; exact hc)
  have hps : p.2 a = w.lookup c a := by rw [e4 hcs p hp a, hpc]
  have hmro : (exec (.tempRules cs clear body .done) w).1.mro = w.mro :=
    (stable_mro (fun _ => True) w.mro).exec _ w (onlyOn_true _) rfl
  refine ⟨?_, ?_⟩
  · cases hl : w.lookup c a with
    | none => exact ((stable_none (fun _ => True) hm c a).exec _ w (onlyOn_true _) ⟨rfl, hl⟩).2
    | some r =>
      refine lookup_own (by rw [hmro]; exact hm) ?_
      rw [hex]
      have := l4 hnd p hp a (by cases a <;> simp [allAttrs]) r (by rw [hps, hl])
      rw [hpc] at this
      exact this
  · intro r hr hT'
    have hrl := hw c a r hr
    have hP := (stable_content T r (w.content r)).exec body w1 hT ⟨Nat.lt_of_lt_of_le hrl e1.len, e1.content r hrl, ?_⟩
    · rw [hex]
      show (leave allAttrs saved (exec body w1).1).heap.getD r [] = _
      rw [l1]
      exact hP.2.1
    · intro d hd b hb
      by_cases hdc : d ∈ cs
      · rcases e2 d hdc b with h | ⟨r', hr', h⟩
        · rw [h] at hb; cases hb
        · rw [h] at hb; injection hb with hb; omega
      · rcases e1.lookup d b with h | ⟨r', hr', h⟩
        · rw [h] at hb; exact hT' d hd hdc b hb
        · rw [h] at hb; injection hb with hb; omega

/-- C24, in particular: if the body operates only on the named classes, all objects reachable from them are exactly as before. -/
theorem C24_temporary_rules_closed (w : World) (hm : MroOk w.mro) (cs : List ℕ) (clear : Bool) (body : Prog)
    (hcs : cs.Pairwise (fun c d => c ∉ w.mro d)) (hT : OnlyOn (fun c => c ∈ cs) body) (hw : ∀ c a r, w.lookup c a = some r → r < w.heap.length) :
    ∀ c ∈ cs, ∀ a, (exec (.tempRules cs clear body .done) w).1.lookup c a = w.lookup c a ∧
      ∀ r, w.lookup c a = some r → (exec (.tempRules cs clear body .done) w).1.content r = w.content r := by
  intro c hc a
  obtain ⟨h1, h2⟩ := (C24_temporary_rules w hm cs clear body hcs _ hT hw).2 c hc a
  exact ⟨h1, fun r hr => h2 r hr (fun d hd hd' => absurd hd hd')⟩

/-- C24 for `with temporary_instance_cache(*classes): body`: the same for the instance caches. -/
theorem C24_temporary_instance_cache (w : World) (hm : MroOk w.mro) (cs : List ℕ) (body : Prog)
    (hcs : cs.Pairwise (fun c d => c ∉ w.mro d)) (T : ℕ → Prop) (hT : OnlyOn T body) (hw : ∀ c a r, w.lookup c a = some r → r < w.heap.length) :
    (exec (.tempCache cs body .done) w).2 = (exec body (enterCache cs w).1).2 ∧
    ∀ c ∈ cs, (exec (.tempCache cs body .done) w).1.lookup c .instances = w.lookup c .instances ∧
      ∀ r, w.lookup c .instances = some r → (∀ d, T d → ∀ b, (d ∉ cs ∨ b ≠ .instances) → w.lookup d b ≠ some r) →
        (exec (.tempCache cs body .done) w).1.content r = w.content r := by
  obtain ⟨e1, e2, e3, e4⟩ := enterCache_spec cs w hm
  set w1 := (enterCache cs w).1 with hw1
  set saved := (enterCache cs w).2 with hsaved
  have hex : (exec (.tempCache cs body .done) w).1 = leave [.instances] saved (exec body w1).1 := by
    rw [exec_tempCache]
  have hex2 : (exec (.tempCache cs body .done) w).2 = (exec body w1).2 := by
    rw [exec_tempCache]
  refine ⟨hex2, ?_⟩
  intro c hc
  obtain ⟨l1, l2, -, l4⟩ := leave_spec [.instances] saved (exec body w1).1
  have hnd : (saved.map Prod.fst).Nodup := by rw [e3]; exact pairwise_nodup hm hcs
  obtain ⟨p, hp, hpc⟩ := List.mem_map.mp (show c ∈ saved.map Prod.fst by rw [e3]; exact hc)
  have hps : p.2 .instances = w.lookup c .instances := by rw [e4 hcs p hp _, hpc]
  have hmro : (exec (.tempCache cs body .done) w).1.mro = w.mro :=
    (stable_mro (fun _ => True) w.mro).exec _ w (onlyOn_true _) rfl
  refine ⟨?_, ?_⟩
  · cases hl : w.lookup c .instances with
    | none => exact ((stable_none (fun _ => True) hm c .instances).exec _ w (onlyOn_true _) ⟨rfl, hl⟩).2
    | some r =>
      refine lookup_own (by rw [hmro]; exact hm) ?_
      rw [hex]
      have := l4 hnd p hp .instances (by simp) r (by rw [hps, hl])
      rw [hpc] at this
      exact this
  · intro r hr hT'
    have hrl := hw c _ r hr
    have hP := (stable_content T r (w.content r)).exec body w1 hT ⟨Nat.lt_of_lt_of_le hrl e1.len, e1.content r hrl, ?_⟩
    · rw [hex]
      show (leave [.instances] saved (exec body w1).1).heap.getD r [] = _
      rw [l1]
      exact hP.2.1
    · intro d hd b hb
      by_cases hdc : d ∈ cs ∧ b = .instances
      · obtain ⟨hdc, rfl⟩ := hdc
        rcases e2 d hdc with h | ⟨r', hr', h⟩
        · rw [h] at hb; cases hb
        · rw [h] at hb; injection hb with hb; omega
      · rcases e1.lookup d b with h | ⟨r', hr', h⟩
        · rw [h] at hb; exact hT' d hd b (by tauto) hb
        · rw [h] at hb; injection hb with hb; omega

/-! ### entering: what the body sees -/

theorem replace_content {w : World} (hm : MroOk w.mro) (c : ℕ) (a : Attr) (o : Obj → Obj) {r : ℕ} (hr : w.lookup c a = some r) :
    ∃ r', (replaceAttr c a o w).lookup c a = some r' ∧ (replaceAttr c a o w).content r' = o (w.content r) ∧ r' < (replaceAttr c a o w).heap.length := by
  unfold replaceAttr
  rw [hr]
  exact ⟨_, lookup_bindNew_self hm c a _, content_bindNew_self, by simp [World.bindNew]⟩

theorem replace_attr_other {w : World} (c d : ℕ) (a b : Attr) (hab : b ≠ a) (o : Obj → Obj) : (replaceAttr c a o w).lookup d b = w.lookup d b := by
  unfold replaceAttr
  split
  · rcases lookup_bindNew w c d a b (o (w.content _)) with h | ⟨-, h, -⟩
    · exact h
    · exact absurd h hab
  · rfl

/-- C24, at the beginning of the block (for one class): the instance cache is empty, the simplifications are those from before, the
rules also (or empty with `clear`). -/
theorem C24_block_starts (w : World) (hm : MroOk w.mro) (c : ℕ) (clear : Bool) (hw : ∀ c a r, w.lookup c a = some r → r < w.heap.length)
    (a : Attr) {r : ℕ} (hr : w.lookup c a = some r) :
    ∃ r', (enterRules clear [c] w).1.lookup c a = some r' ∧ (enterRules clear [c] w).1.content r' =
      (match a with
      | .instances => []
      | .simplifications => w.content r
      | .rules => if clear then [] else w.content r
      | .binaryRules => if clear then [] else w.content r) := by
  set w1 := replaceAttr c .instances (fun _ => []) w with hw1
  set w2 := replaceAttr c .simplifications id w1 with hw2
  set w3 := replaceAttr c .rules (fun o => if clear then [] else o) w2 with hw3
  set w4 := replaceAttr c .binaryRules (fun o => if clear then [] else o) w3 with hw4
  have hE : (enterRules clear [c] w).1 = w4 := rfl
  rw [hE]
  have e1 : Entered w w1 := Entered.replace ..
  have e2 : Entered w1 w2 := Entered.replace ..
  have e3 : Entered w2 w3 := Entered.replace ..
  have e4 : Entered w3 w4 := Entered.replace ..
  have m1 : MroOk w1.mro := by rw [e1.mro]; exact hm
  have m2 : MroOk w2.mro := by rw [e2.mro]; exact m1
  have m3 : MroOk w3.mro := by rw [e3.mro]; exact m2
  have hrl := hw c a r hr
  have := e1.len
  have := e2.len
  have := e3.len
  cases a with
  | instances =>
    obtain ⟨r', h1, h2, h3⟩ := replace_content hm c .instances (fun _ => []) hr
    refine ⟨r', ?_, ?_⟩
    · rw [hw4, replace_attr_other _ _ _ _ (by decide), hw3, replace_attr_other _ _ _ _ (by decide), hw2, replace_attr_other _ _ _ _ (by decide)]
      exact h1
    · rw [((e2.trans e3).trans e4).content r' h3]; exact h2
  | simplifications =>
    have hr1 : w1.lookup c .simplifications = some r := by rw [hw1, replace_attr_other _ _ _ _ (by decide)]; exact hr
    obtain ⟨r', h1, h2, h3⟩ := replace_content m1 c .simplifications id hr1
    refine ⟨r', ?_, ?_⟩
    · rw [hw4, replace_attr_other _ _ _ _ (by decide), hw3, replace_attr_other _ _ _ _ (by decide)]
      exact h1
    · rw [(e3.trans e4).content r' h3, h2, id, e1.content r hrl]
  | rules =>
    have hr2 : w2.lookup c .rules = some r := by
      rw [hw2, replace_attr_other _ _ _ _ (by decide), hw1, replace_attr_other _ _ _ _ (by decide)]; exact hr
    obtain ⟨r', h1, h2, h3⟩ := replace_content m2 c .rules (fun o => if clear then [] else o) hr2
    refine ⟨r', ?_, ?_⟩
    · rw [hw4, replace_attr_other _ _ _ _ (by decide)]
      exact h1
    · rw [e4.content r' h3, h2, (e1.trans e2).content r hrl]
  | binaryRules =>
    have hr3 : w3.lookup c .binaryRules = some r := by
      rw [hw3, replace_attr_other _ _ _ _ (by decide), hw2, replace_attr_other _ _ _ _ (by decide), hw1, replace_attr_other _ _ _ _ (by decide)]
      exact hr
    obtain ⟨r', h1, h2, h3⟩ := replace_content m3 c .binaryRules (fun o => if clear then [] else o) hr3
    refine ⟨r', h1, ?_⟩
    rw [h2, ((e1.trans e2).trans e3).content r hrl]

/-! ### limits -/

/-- A world as in QNET: `Expression` (class 0) has the instance cache (object 0) and empty simplifications (object 1); the classes 1 and 2
are derived from it and have rules (objects 2 and 3) of their own, class 3 is derived from class 1. -/
def demo : World where
  heap := [[(10, 100)], [], [(5, 50)], [(6, 60)]]
  own c a := match c, a with
    | 0, .instances => some 0
    | 0, .simplifications => some 1
    | 1, .rules => some 2
    | 2, .rules => some 3
    | _, _ => none
  mro c := match c with
    | 0 => [0]
    | 3 => [3, 1, 0]
    | n => [n, 0]

theorem demo_mro : MroOk demo.mro := by
  constructor
  · intro c
    unfold demo
    dsimp only
    split
    · exact ⟨_, rfl⟩
    · exact ⟨_, rfl⟩
    · exact ⟨_, rfl⟩
  · intro c d hd e he
    unfold demo at hd he ⊢
    dsimp only at hd he ⊢
    split at hd
    · simp at hd; subst hd; simpa using he
    · simp at hd
      rcases hd with rfl | rfl | rfl <;> simp at he ⊢ <;> tauto
    · rename_i h0 h3
      simp at hd
      rcases hd with rfl | rfl
      · split at he <;> simp_all
      · simp at he ⊢; tauto

/-- a body that adds and deletes rules, fills the cache, has a nested block, and raises an exception -/
def demoBody : Prog :=
  .mutate 1 .rules (fun o => some ((7, 70) :: o)) <| .mutate 1 .instances (fun o => some ((11, 110) :: o)) <|
    .attempt (.tempRules [2] true (.rebind 2 .rules [(8, 80)] .raise) .done) <| .rebind 1 .rules [] .raise

theorem demo_refs : ∀ c a r, demo.lookup c a = some r → r < demo.heap.length := by
  intro c a r h
  unfold World.lookup at h
  obtain ⟨d, -, hd⟩ := List.exists_of_findSome?_eq_some h
  simp only [demo] at hd
  split at hd <;> simp_all [demo] <;> omega

/-- the hypotheses are met -/
example : OnlyOn (fun c => c ∈ [1, 2]) demoBody ∧ [1, 2].Pairwise (fun c d => c ∉ demo.mro d) := by
  refine ⟨?_, by decide⟩
  simp [demoBody, OnlyOn]
example : (exec (.tempRules [1, 2] false demoBody .done) demo).2 = true ∧ (exec (.tempRules [1, 2] false demoBody .done) demo).1.heap.length > 4 := by
  decide +kernel

/-- The instance caches of all classes are one dictionary: instances of a class that is not named end up in the cache the named class
had before (here class 2; its instances may have been simplified with the temporary rules of class 1). -/
theorem C24_shared_cache_refuted : ∃ (w : World) (body : Prog) (r : ℕ), MroOk w.mro ∧ w.lookup 1 .instances = some r ∧
    (exec (.tempRules [1] false body .done) w).1.lookup 1 .instances = some r ∧
    (exec (.tempRules [1] false body .done) w).1.content r ≠ w.content r :=
  ⟨demo, .mutate 2 .instances (fun o => some ((12, 120) :: o)) .done, 0, demo_mro, by decide +kernel, by decide +kernel, by decide +kernel⟩

/-- With a class named twice, its cache and rules are not restored: afterwards the cache is that of the block. -/
theorem C24_duplicate_refuted : ∃ (w : World) (body : Prog), MroOk w.mro ∧ OnlyOn (fun c => c ∈ [1]) body ∧
    (exec (.tempRules [1, 1] true body .done) w).1.lookup 1 .rules ≠ w.lookup 1 .rules ∧
    ((exec (.tempRules [1, 1] true body .done) w).1.lookup 1 .rules).map (exec (.tempRules [1, 1] true body .done) w).1.content = some [] ∧
    (w.lookup 1 .rules).map w.content = some [(5, 50)] :=
  ⟨demo, .done, demo_mro, trivial, by decide +kernel, by decide +kernel, by decide +kernel⟩

/-- With a class named before a class derived from it that inherits its attributes, those of the derived class are not restored: it keeps
the temporary rules of the block. -/
theorem C24_derived_refuted : ∃ (w : World) (body : Prog), MroOk w.mro ∧ OnlyOn (fun c => c ∈ [1, 3]) body ∧
    ((exec (.tempRules [1, 3] false body .done) w).1.lookup 3 .rules).map (exec (.tempRules [1, 3] false body .done) w).1.content =
      some [(7, 70), (5, 50)] ∧
    (w.lookup 3 .rules).map w.content = some [(5, 50)] :=
  ⟨demo, .mutate 1 .rules (fun o => some ((7, 70) :: o)) .done, demo_mro, by simp [OnlyOn], by decide +kernel, by decide +kernel⟩

end QNET.Cache.Rules
