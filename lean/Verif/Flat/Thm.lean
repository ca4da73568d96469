import Verif.Flat.Model

/-!
# C105: the flat API: proofs
-/

namespace QNET.Flat
variable {N : Type} [LinearOrder N]

/-- what `addNames` does -/
theorem addNames_spec (sub : N → Option ℕ) : ∀ (ns : List N) (a : N → Option ℕ) (l : List N), (∀ n ∈ ns, sub n ≠ none) →
    (∃ a' l', addNames sub ns a l = .ok (a', l') ∧ (∀ n ∈ ns, a' n = sub n) ∧ (∀ n, a n ≠ none → a' n = a n) ∧ (∀ n, n ∉ ns → a' n = a n) ∧
      ∃ new, l' = l ++ new ∧ new.Nodup ∧ ∀ n, n ∈ new ↔ n ∈ ns ∧ a n = none) ∨
    (addNames sub ns a l = .error .importing ∧ ∃ n ∈ ns, ∃ o o', sub n = some o ∧ a n = some o' ∧ o' ≠ o)
  | [], a, l, _ => .inl ⟨a, l, rfl, nofun, fun _ _ => rfl, fun _ _ => rfl, [], by simp⟩
  | n :: ns, a, l, h => by
    obtain ⟨o, ho⟩ := Option.ne_none_iff_exists'.mp (h n (List.mem_cons_self ..))
    have hns : ∀ x ∈ ns, sub x ≠ none := fun x hx => h x (List.mem_cons_of_mem _ hx)
    rw [addNames, ho]
    cases ha : a n with
    | some o' =>
      by_cases e : o' = o
      · subst e
        simp only [if_pos]
        rcases addNames_spec sub ns a l hns with ⟨a', l', k, h1, h2, h3, new, h4, h5, h6⟩ | ⟨k, x, hx, o1, o2, k1, k2, k3⟩
        · refine .inl ⟨a', l', k, ?_, h2, fun x hx => h3 x fun hx' => hx (List.mem_cons_of_mem _ hx'), new, h4, h5, ?_⟩
          · intro x hx
            rcases List.mem_cons.mp hx with rfl | hx
            · rw [h2 x (by rw [ha]; exact Option.some_ne_none _), ha, ho]
            · exact h1 x hx
          · intro x
            rw [h6, List.mem_cons]
            constructor
            · rintro ⟨u, v⟩; exact ⟨.inr u, v⟩
            · rintro ⟨rfl | u, v⟩
              · rw [ha] at v; exact absurd v (Option.some_ne_none _)
              · exact ⟨u, v⟩
        · exact .inr ⟨k, x, List.mem_cons_of_mem _ hx, o1, o2, k1, k2, k3⟩
      · exact .inr ⟨by simp only [if_neg e], n, List.mem_cons_self .., o, o', ho, ha, e⟩
    | none =>
      simp only
      rcases addNames_spec sub ns (Function.update a n (some o)) (l ++ [n]) hns with ⟨a', l', k, h1, h2, h3, new, h4, h5, h6⟩ | ⟨k, x, hx, o1, o2, k1, k2, k3⟩
      · have hn : a' n = some o := by
          rw [h2 n (by rw [Function.update_self]; exact Option.some_ne_none _), Function.update_self]
        refine .inl ⟨a', l', k, ?_, ?_, ?_, n :: new, by rw [h4, List.append_assoc]; rfl, ?_, ?_⟩
        · intro x hx
          rcases List.mem_cons.mp hx with rfl | hx
          · rw [hn, ho]
          · exact h1 x hx
        · intro x hx
          have e : x ≠ n := by rintro rfl; exact hx ha
          rw [h2 x (by rw [Function.update_of_ne e]; exact hx), Function.update_of_ne e]
        · intro x hx
          rw [List.mem_cons, not_or] at hx
          rw [h3 x hx.2, Function.update_of_ne hx.1]
        · rw [List.nodup_cons]
          refine ⟨fun hx => ?_, h5⟩
          have := ((h6 n).mp hx).2
          rw [Function.update_self] at this
          exact absurd this (Option.some_ne_none _)
        · intro x
          rw [List.mem_cons, h6, List.mem_cons]
          by_cases e : x = n
          · subst e; simp [ha]
          · rw [Function.update_of_ne e]; simp [e]
      · refine .inr ⟨k, x, List.mem_cons_of_mem _ hx, o1, o2, k1, ?_, k3⟩
        by_cases e : x = n
        · subst e
          rw [Function.update_self] at k2
          rw [ho] at k1
          exact absurd (by rw [← Option.some.inj k1, ← Option.some.inj k2]) k3
        · rwa [Function.update_of_ne e] at k2

/-- exported -/
def Mod.Exp (m : Mod N) (n : N) (o : ℕ) : Prop := n ∈ m.all ∧ m.attrs n = some o

theorem admits_iff {c : Cfg} {m : Mod N} : c.admits m = true ↔ c.Wants m := by
  unfold Cfg.admits Cfg.Wants
  cases c.incl <;> simp

variable (pr : N → Bool)

theorem pub_own {c : Cfg} {m : Mod N} {n : N} {o : ℕ} (h : m.Exp n o) : m.Pub pr c n o := by
  cases m
  exact .inl h

/-- the result of a module -/
def Good (c : Cfg) (m m' : Mod N) : Prop := m'.id = m.id ∧ m'.pkg = m.pkg ∧ (∀ n o, m'.Exp n o ↔ m.Pub pr c n o) ∧ ∀ n ∈ m'.all, m'.attrs n ≠ none

/-- the result of the loop -/
def GoodLoop (c : Cfg) (s : Subs N) (a a' : N → Option ℕ) (l l' : List N) : Prop :=
  (∀ n o, a n = some o → n ∉ s.bound pr c → a' n = some o) ∧ (∀ n o, s.Pub pr c n o → a' n = some o) ∧
  (∀ n o, a' n = some o → n ∉ s.bound pr c → a n = some o ∨ s.Pub pr c n o) ∧
  ∃ new, l' = l ++ new ∧ new.Nodup ∧ (∀ n ∈ new, a n = none ∧ ∃ o, s.Pub pr c n o) ∧ ∀ n o, s.Pub pr c n o → a n = none → n ∈ new

theorem mem_isort {x : N} {l : List N} : x ∈ isort (fun x y => decide (x ≤ y)) l ↔ x ∈ l := (isort_perm _ l).mem_iff

mutual
theorem flat_spec (c : Cfg) : (m : Mod N) → m.Clean pr c →
    (∃ m', m.flat pr c = .ok m' ∧ Good pr c m m') ∨ (m.flat pr c = .error .importing ∧ ∃ n o o', o ≠ o' ∧ m.Pub pr c n o ∧ m.Pub pr c n o')
  | .mk i a l p s, h => by
    obtain ⟨h1, h2, h3⟩ := h
    rw [Mod.flat]
    rcases loop_spec c s a (l.getD []) h3 (fun n o hp => (h2 n o hp).1) with ⟨a', l', s', k, g1, g2, g3, new, g4, g5, g6, g7⟩ | ⟨k, n, o, o', hne, hp, hp'⟩
    · refine .inl ⟨.mk i a' (some (isort (fun x y => decide (x ≤ y)) l')) p s', by rw [k]; rfl, rfl, rfl, ?_, ?_⟩
      · intro n o
        change (n ∈ isort _ l' ∧ a' n = some o) ↔ (n ∈ l.getD [] ∧ a n = some o) ∨ s.Pub pr c n o
        rw [mem_isort, g4, List.mem_append]
        constructor
        · rintro ⟨hn | hn, ho⟩
          · rcases g3 n o ho (h1 n hn).2 with k | k
            · exact .inl ⟨hn, k⟩
            · exact .inr k
          · obtain ⟨hn0, o2, hp⟩ := g6 n hn
            rcases g3 n o ho (h2 n o2 hp).1 with k | k
            · rw [hn0] at k; exact absurd k.symm (Option.some_ne_none _)
            · exact .inr k
        · rintro (⟨hn, ho⟩ | hp)
          · exact ⟨.inl hn, g1 n o ho (h1 n hn).2⟩
          · refine ⟨?_, g2 n o hp⟩
            rcases (h2 n o hp).2 with k | k
            · exact .inr (g7 n o hp k)
            · exact .inl k
      · intro n hn
        change n ∈ isort _ l' at hn
        change a' n ≠ none
        rw [mem_isort, g4, List.mem_append] at hn
        rcases hn with hn | hn
        · obtain ⟨o, ho⟩ := Option.ne_none_iff_exists'.mp (h1 n hn).1
          rw [g1 n o ho (h1 n hn).2]
          exact Option.some_ne_none _
        · obtain ⟨_, o2, hp⟩ := g6 n hn
          rw [g2 n o2 hp]
          exact Option.some_ne_none _
    · refine .inr ⟨by rw [k]; rfl, n, o, o', hne, .inr hp, ?_⟩
      rcases hp' with hp' | hp'
      · rcases (h2 n o hp).2 with k | k
        · rw [k] at hp'; exact absurd hp'.symm (Option.some_ne_none _)
        · exact .inl ⟨k, hp'⟩
      · exact .inr hp'
theorem loop_spec (c : Cfg) : (s : Subs N) → (a : N → Option ℕ) → (l : List N) → s.Clean pr c → (∀ n o, s.Pub pr c n o → n ∉ s.bound pr c) →
    (∃ a' l' s', s.loop pr c a l = .ok (a', l', s') ∧ GoodLoop pr c s a a' l l') ∨
    (s.loop pr c a l = .error .importing ∧ ∃ n o o', o ≠ o' ∧ s.Pub pr c n o ∧ (a n = some o' ∨ s.Pub pr c n o'))
  | .nil, a, l, _, _ => .inl ⟨a, l, .nil, by rw [Subs.loop], fun _ _ h _ => h, nofun, fun _ _ h _ => .inl h, [], by simp, by simp, by simp, nofun⟩
  | .cons name m rest, a, l, hc, H => by
    obtain ⟨hc1, hc2⟩ := hc
    rw [Subs.loop]
    have H2 : ∀ n o, rest.Pub pr c n o → n ∉ rest.bound pr c := fun n o hp hb => H n o (.inr hp) (by rw [Subs.bound]; exact List.mem_append_right _ hb)
    by_cases hp : (pr name && !c.priv) = true
    · -- private
      rw [if_pos hp]
      have hpub : ∀ n o, (Subs.cons name m rest).Pub pr c n o ↔ rest.Pub pr c n o := by
        intro n o
        rw [Subs.Pub]
        constructor
        · rintro (⟨k, _⟩ | k)
          · simp only [Bool.and_eq_true, Bool.not_eq_true'] at hp
            rw [k hp.1] at hp; exact absurd hp.2 (by simp)
          · exact k
        · exact .inr
      have hb : (Subs.cons name m rest).bound pr c = rest.bound pr c := by rw [Subs.bound, if_pos hp, List.nil_append]
      rcases loop_spec c rest a l hc2 H2 with ⟨a', l', s', k, g⟩ | ⟨k, g⟩
      · refine .inl ⟨a', l', .cons name m s', by rw [k]; rfl, ?_⟩
        unfold GoodLoop at g ⊢
        simp only [hpub, hb]
        exact g
      · refine .inr ⟨by rw [k]; rfl, ?_⟩
        simp only [hpub]
        exact g
    · rw [if_neg hp]
      have hp' : pr name = true → c.priv = true := by
        intro k
        rw [k, Bool.true_and, Bool.not_eq_true', Bool.not_eq_false] at hp
        exact hp
      have hb : (Subs.cons name m rest).bound pr c = name :: rest.bound pr c := by rw [Subs.bound, if_neg hp]; rfl
      by_cases ha : c.admits m = true
      · rw [if_neg (by rw [ha]; decide)]
        -- what the child exports
        have hpub : ∀ n o, (Subs.cons name m rest).Pub pr c n o ↔ (m.Exp n o ∨ (c.deep = true ∧ m.pkg = true ∧ m.Pub pr {} n o)) ∨ rest.Pub pr c n o := by
          intro n o
          rw [Subs.Pub]
          exact ⟨fun k => k.imp (fun k => k.2.2) id, fun k => k.imp (fun k => ⟨hp', admits_iff.mp ha, k⟩) id⟩
        have child : (∃ m', (if (c.deep && m.pkg) = true then m.flat pr {} else .ok m.setAll) = .ok m' ∧ m'.id = m.id ∧
              (∀ n o, m'.Exp n o ↔ (m.Exp n o ∨ (c.deep = true ∧ m.pkg = true ∧ m.Pub pr {} n o))) ∧ ∀ n ∈ m'.all, m'.attrs n ≠ none) ∨
            ((if (c.deep && m.pkg) = true then m.flat pr {} else .ok m.setAll) = .error .importing ∧
              ∃ n o o', o ≠ o' ∧ (c.deep = true ∧ m.pkg = true ∧ m.Pub pr {} n o) ∧ (c.deep = true ∧ m.pkg = true ∧ m.Pub pr {} n o')) := by
          obtain ⟨k1, k2⟩ := hc1 hp' (admits_iff.mp ha)
          by_cases hd : (c.deep && m.pkg) = true
          · rw [if_pos hd]
            rw [Bool.and_eq_true] at hd
            rcases flat_spec {} m (k2 hd.1 hd.2) with ⟨m', e, g1, g2, g3, g4⟩ | ⟨e, n, o, o', hne, q1, q2⟩
            · refine .inl ⟨m', e, g1, fun n o => ?_, g4⟩
              rw [g3]
              exact ⟨fun k => .inr ⟨hd.1, hd.2, k⟩, fun k => k.elim (pub_own pr) fun k => k.2.2⟩
            · exact .inr ⟨e, n, o, o', hne, ⟨hd.1, hd.2, q1⟩, hd.1, hd.2, q2⟩
          · rw [if_neg hd]
            refine .inl ⟨m.setAll, rfl, by cases m; rfl, fun n o => ?_, ?_⟩
            · have e : m.setAll.Exp n o ↔ m.Exp n o := by cases m; rfl
              rw [e]
              refine ⟨.inl, fun k => k.elim id fun k => ?_⟩
              exact absurd (by rw [k.1, k.2.1]; rfl) hd
            · cases m; exact k1
        generalize (if (c.deep && m.pkg) = true then m.flat pr {} else .ok m.setAll) = r at child ⊢
        rcases child with ⟨m', rfl, g1, g3, g4⟩ | ⟨rfl, n, o, o', hne, q1, q2⟩
        · simp only [Except.bind, bind]
          have hname : ∀ n o, (m.Exp n o ∨ (c.deep = true ∧ m.pkg = true ∧ m.Pub pr {} n o)) ∨ rest.Pub pr c n o → n ≠ name := by
            intro n o k e
            have := H n o ((hpub n o).mpr k)
            rw [hb, e] at this
            exact this (List.mem_cons_self ..)
          rcases addNames_spec m'.attrs m'.all (Function.update a name (some m.id)) l g4 with ⟨a1, l1, e1, f1, f2, f3, new, f4, f5, f6⟩ | ⟨e1, n, hn, o, o', q1, q2, hne⟩
          · rw [e1]
            simp only
            -- attributes after the child
            have fa : ∀ n, n ≠ name → ∀ o, a n = some o → a1 n = some o := by
              intro n e o k
              have : Function.update a name (some m.id) n = some o := by rw [Function.update_of_ne e]; exact k
              rw [f2 n (by rw [this]; exact Option.some_ne_none _), this]
            have fe : ∀ n o, m'.Exp n o → a1 n = some o := fun n o k => by rw [f1 n k.1, k.2]
            have fb : ∀ n, n ≠ name → ∀ o, a1 n = some o → a n = some o ∨ m'.Exp n o := by
              intro n e o k
              by_cases hn : n ∈ m'.all
              · exact .inr ⟨hn, by rw [← f1 n hn]; exact k⟩
              · rw [f3 n hn, Function.update_of_ne e] at k
                exact .inl k
            rcases loop_spec c rest a1 l1 hc2 H2 with ⟨a', l', s', k, u1, u2, u3, new', u4, u5, u6, u7⟩ | ⟨k, n, o, o', hne, q1, q2⟩
            · refine .inl ⟨a', l', .cons name m' s', by rw [k], ?_, ?_, ?_, new ++ new', by rw [u4, f4, List.append_assoc], ?_, ?_, ?_⟩
              · intro n o k1 k2
                rw [hb, List.mem_cons, not_or] at k2
                exact u1 n o (fa n k2.1 o k1) k2.2
              · intro n o k1
                have k3 := H n o k1
                rw [hb, List.mem_cons, not_or] at k3
                rcases (hpub n o).mp k1 with k2 | k2
                · exact u1 n o (fe n o ((g3 n o).mpr k2)) k3.2
                · exact u2 n o k2
              · intro n o k1 k2
                rw [hb, List.mem_cons, not_or] at k2
                rw [hpub, ← g3]
                rcases u3 n o k1 k2.2 with k3 | k3
                · rcases fb n k2.1 o k3 with k4 | k4
                  · exact .inl k4
                  · exact .inr (.inl k4)
                · exact .inr (.inr k3)
              · rw [List.nodup_append]
                refine ⟨f5, u5, fun x hx y hy e => ?_⟩
                subst e
                obtain ⟨o, ho⟩ := Option.ne_none_iff_exists'.mp (g4 x ((f6 x).mp hx).1)
                have := (u6 x hy).1
                rw [fe x o ⟨((f6 x).mp hx).1, ho⟩] at this
                exact absurd this (Option.some_ne_none _)
              · intro n hn
                rcases List.mem_append.mp hn with hn | hn
                · obtain ⟨v1, v2⟩ := (f6 n).mp hn
                  obtain ⟨o, ho⟩ := Option.ne_none_iff_exists'.mp (g4 n v1)
                  have hx := (g3 n o).mp ⟨v1, ho⟩
                  rw [Function.update_of_ne (hname n o (.inl hx))] at v2
                  exact ⟨v2, o, (hpub n o).mpr (.inl hx)⟩
                · obtain ⟨v1, o, v2⟩ := u6 n hn
                  have hx := hname n o (.inr v2)
                  refine ⟨?_, o, (hpub n o).mpr (.inr v2)⟩
                  cases hq : a n with
                  | none => rfl
                  | some o' => rw [fa n hx o' hq] at v1; exact absurd v1 (Option.some_ne_none _)
              · intro n o k1 k2
                rcases (hpub n o).mp k1 with k3 | k3
                · refine List.mem_append_left _ ((f6 n).mpr ⟨((g3 n o).mpr k3).1, ?_⟩)
                  rw [Function.update_of_ne (hname n o (.inl k3))]
                  exact k2
                · by_cases hn : n ∈ m'.all
                  · refine List.mem_append_left _ ((f6 n).mpr ⟨hn, ?_⟩)
                    rw [Function.update_of_ne (hname n o (.inr k3))]
                    exact k2
                  · refine List.mem_append_right _ (u7 n o k3 ?_)
                    rw [f3 n hn, Function.update_of_ne (hname n o (.inr k3))]
                    exact k2
            · refine .inr ⟨by rw [k], n, o, o', hne, (hpub n o).mpr (.inr q1), ?_⟩
              rw [hpub, ← g3]
              rcases q2 with q2 | q2
              · rcases fb n (hname n o (.inr q1)) o' q2 with k4 | k4
                · exact .inl k4
                · exact .inr (.inl k4)
              · exact .inr (.inr q2)
          · rw [e1]
            have hx := (g3 n o).mp ⟨hn, q1⟩
            refine .inr ⟨rfl, n, o, o', fun e => hne e.symm, (hpub n o).mpr (.inl hx), .inl ?_⟩
            rwa [Function.update_of_ne (hname n o (.inl hx))] at q2
        · exact .inr ⟨rfl, n, o, o', hne, (hpub n o).mpr (.inl (.inr q1)), .inr ((hpub n o').mpr (.inl (.inr q2)))⟩
      · rw [if_pos (by rw [Bool.not_eq_true] at ha; rw [ha]; rfl)]
        have hpub : ∀ n o, (Subs.cons name m rest).Pub pr c n o ↔ rest.Pub pr c n o := by
          intro n o
          rw [Subs.Pub]
          exact ⟨fun k => k.elim (fun k => absurd (admits_iff.mpr k.2.1) ha) id, .inr⟩
        have hname : ∀ n o, rest.Pub pr c n o → n ≠ name := by
          intro n o k e
          have := H n o ((hpub n o).mpr k)
          rw [hb, e] at this
          exact this (List.mem_cons_self ..)
        rcases loop_spec c rest (Function.update a name (some m.id)) l hc2 H2 with ⟨a', l', s', k, u1, u2, u3, new, u4, u5, u6, u7⟩ | ⟨k, n, o, o', hne, q1, q2⟩
        · refine .inl ⟨a', l', .cons name m s', by rw [k]; rfl, ?_, ?_, ?_, new, u4, u5, ?_, ?_⟩
          · intro n o k1 k2
            rw [hb, List.mem_cons, not_or] at k2
            exact u1 n o (by rw [Function.update_of_ne k2.1]; exact k1) k2.2
          · intro n o k1
            exact u2 n o ((hpub n o).mp k1)
          · intro n o k1 k2
            rw [hb, List.mem_cons, not_or] at k2
            rw [hpub]
            have := u3 n o k1 k2.2
            rwa [Function.update_of_ne k2.1] at this
          · intro n hn
            obtain ⟨v1, o, v2⟩ := u6 n hn
            rw [Function.update_of_ne (hname n o v2)] at v1
            exact ⟨v1, o, (hpub n o).mpr v2⟩
          · intro n o k1 k2
            have k3 := (hpub n o).mp k1
            exact u7 n o k3 (by rw [Function.update_of_ne (hname n o k3)]; exact k2)
        · refine .inr ⟨by rw [k]; rfl, n, o, o', hne, (hpub n o).mpr q1, ?_⟩
          rw [hpub]
          rwa [Function.update_of_ne (hname n o q1)] at q2
end

/-- the names of the submodules that are used are different from each other -/
def Subs.names : Subs N → List N
  | .nil => []
  | .cons n _ r => n :: r.names

/-- the submodules that are used, with their names -/
def Subs.Used (c : Cfg) : Subs N → N × Mod N → Prop
  | .nil, _ => False
  | .cons n m r, q => ((pr n = true → c.priv = true) ∧ c.Wants m ∧ q = (n, m)) ∨ r.Used c q

theorem addNames_keep {sub : N → Option ℕ} {ns : List N} {a a' : N → Option ℕ} {l l' : List N} (h : addNames sub ns a l = .ok (a', l')) {x : N} {o : ℕ}
    (hx : a x = some o) : a' x = some o := by
  induction ns generalizing a l with
  | nil => rw [addNames] at h; injection h with h; injection h with h1 h2; rw [← h1]; exact hx
  | cons n ns ih =>
    rw [addNames] at h
    split at h
    · exact nomatch h
    · split at h
      · split at h
        · exact ih h hx
        · exact nomatch h
      · rename_i hn
        refine ih h ?_
        rw [Function.update_of_ne (by rintro rfl; rw [hx] at hn; exact nomatch hn)]
        exact hx

theorem loop_names {c : Cfg} {s : Subs N} : ∀ {a a' : N → Option ℕ} {l l' : List N} {s' : Subs N}, s.loop pr c a l = .ok (a', l', s') → s.names.Nodup →
    (∀ x o, a x = some o → x ∉ s.names → a' x = some o) ∧ ∀ p, s.Used pr c p → a' p.1 = some p.2.id := by
  induction s using Subs.rec (motive_1 := fun _ => True) with
  | mk => trivial
  | nil =>
    intro a a' l l' s' h _
    rw [Subs.loop] at h
    injection h with h; injection h with h1 h2
    rw [← h1]
    exact ⟨fun _ _ h _ => h, nofun⟩
  | cons n m r _ ih =>
    intro a a' l l' s' h hd
    rw [Subs.names, List.nodup_cons] at hd
    rw [Subs.loop] at h
    have step : ∀ {a1 : N → Option ℕ} {l1 : List N} {f : Subs N → Subs N}, (r.loop pr c a1 l1 >>= fun q => .ok (q.1, q.2.1, f q.2.2)) = .ok (a', l', s') →
        (∀ x o, a1 x = some o → x ∉ r.names → a' x = some o) ∧ ∀ p, r.Used pr c p → a' p.1 = some p.2.id := by
      intro a1 l1 f h
      cases hr : r.loop pr c a1 l1 with
      | error e => rw [hr] at h; exact nomatch h
      | ok q =>
        rw [hr] at h
        injection h with h; injection h with h1 h2
        obtain ⟨q1, q2, q3⟩ := q
        have := ih hr hd.2
        rw [← h1]
        exact this
    by_cases hp : (pr n && !c.priv) = true
    · rw [if_pos hp] at h
      obtain ⟨k1, k2⟩ := step h
      refine ⟨fun x o hx hn => k1 x o hx fun k => hn (by rw [Subs.names]; exact List.mem_cons_of_mem _ k), fun p hp' => ?_⟩
      rcases hp' with hp' | hp'
      · simp only [Bool.and_eq_true, Bool.not_eq_true'] at hp
        rw [hp'.1 hp.1] at hp; exact absurd hp.2 (by simp)
      · exact k2 p hp'
    · rw [if_neg hp] at h
      by_cases ha : c.admits m = true
      · rw [if_neg (by rw [ha]; decide)] at h
        cases hm : (if (c.deep && m.pkg) = true then m.flat pr {} else .ok m.setAll) with
        | error e => rw [hm] at h; exact nomatch h
        | ok m' =>
          rw [hm] at h
          change (addNames m'.attrs m'.all (Function.update a n (some m.id)) l >>= _) = _ at h
          cases hq : addNames m'.attrs m'.all (Function.update a n (some m.id)) l with
          | error e => rw [hq] at h; exact nomatch h
          | ok q =>
            rw [hq] at h
            obtain ⟨q1, q2⟩ := q
            obtain ⟨k1, k2⟩ := step h
            refine ⟨fun x o hx hn => ?_, fun p hp' => ?_⟩
            · rw [Subs.names, List.mem_cons, not_or] at hn
              exact k1 x o (addNames_keep hq (by rw [Function.update_of_ne hn.1]; exact hx)) hn.2
            · rcases hp' with hp' | hp'
              · rw [hp'.2.2]
                exact k1 n m.id (addNames_keep hq (by rw [Function.update_self])) hd.1
              · exact k2 p hp'
      · rw [if_pos (by rw [Bool.not_eq_true] at ha; rw [ha]; rfl)] at h
        obtain ⟨k1, k2⟩ := step h
        refine ⟨fun x o hx hn => ?_, fun p hp' => hp'.elim (fun k => absurd (admits_iff.mpr k.2.1) ha) (k2 p)⟩
        rw [Subs.names, List.mem_cons, not_or] at hn
        exact k1 x o (by rw [Function.update_of_ne hn.1]; exact hx) hn.2

/-! ### theorems -/

/-- **C105** exports: if the import succeeds, the public names of the package are its own and those of all submodules at every depth, and they denote the same objects -/
theorem C105_exports_partial {c : Cfg} {m m' : Mod N} (h : m.Clean pr c) (hm : m.flat pr c = .ok m') (n : N) (o : ℕ) :
    (n ∈ m'.all ∧ m'.attrs n = some o) ↔ m.Pub pr c n o := by
  rcases flat_spec pr c m h with ⟨m'', e, g⟩ | ⟨e, _⟩
  · rw [hm] at e
    injection e with e
    subst e
    exact g.2.2.1 n o
  · rw [hm] at e; exact nomatch e

/-- **C105** conflicts: the import succeeds if and only if no public name denotes two different objects; otherwise it raises ImportError -/
theorem C105_conflicts_partial {c : Cfg} {m : Mod N} (h : m.Clean pr c) :
    ((∃ m', m.flat pr c = .ok m') ↔ ∀ n o o', m.Pub pr c n o → m.Pub pr c n o' → o = o') ∧
    ((∃ n o o', o ≠ o' ∧ m.Pub pr c n o ∧ m.Pub pr c n o') → m.flat pr c = .error .importing) := by
  have key := flat_spec pr c m h
  refine ⟨⟨fun ⟨m', hm⟩ n o o' k k' => ?_, fun k => ?_⟩, fun ⟨n, o, o', hne, k, k'⟩ => ?_⟩
  · rw [← C105_exports_partial pr h hm] at k k'
    exact Option.some.inj (k.2.symm.trans k'.2)
  · rcases key with ⟨m', e, _⟩ | ⟨_, n, o, o', hne, p, p'⟩
    · exact ⟨m', e⟩
    · exact absurd (k n o o' p p') hne
  · rcases key with ⟨m', e, _⟩ | ⟨e, _⟩
    · rw [← C105_exports_partial pr h e] at k k'
      exact absurd (Option.some.inj (k.2.symm.trans k'.2)) hne
    · exact e

/-- **C105** the submodules are attributes of the package, whatever the modules contain -/
theorem C105_submodules {c : Cfg} {i : ℕ} {a : N → Option ℕ} {l : Option (List N)} {p : Bool} {s : Subs N} {m' : Mod N} (hn : s.names.Nodup)
    (hm : (Mod.mk i a l p s).flat pr c = .ok m') : ∀ q, s.Used pr c q → m'.attrs q.1 = some q.2.id := by
  rw [Mod.flat] at hm
  cases hl : s.loop pr c a (l.getD []) with
  | error e => rw [hl] at hm; exact nomatch hm
  | ok r =>
    rw [hl] at hm
    injection hm with hm
    obtain ⟨r1, r2, r3⟩ := r
    rw [← hm]
    exact (loop_names pr hl hn).2

/-- **C105** `__all__` is sorted, and has no repetitions if it had none -/
theorem C105_sorted {c : Cfg} {m m' : Mod N} (h : m.Clean pr c) (hm : m.flat pr c = .ok m') :
    m'.all.Pairwise (· ≤ ·) ∧ (m.all.Nodup → m'.all.Nodup) := by
  obtain ⟨i, a, l, p, s⟩ := m
  obtain ⟨h1, h2, h3⟩ := h
  rw [Mod.flat] at hm
  rcases loop_spec pr c s a (l.getD []) h3 (fun n o hp => (h2 n o hp).1) with ⟨a', l', s', k, g1, g2, g3, new, g4, g5, g6, g7⟩ | ⟨k, _⟩
  · rw [k] at hm
    injection hm with hm
    rw [← hm]
    refine ⟨?_, fun hd => ?_⟩
    · have := isort_pairwise (le := fun x y : N => decide (x ≤ y)) (by simpa using fun a b c => le_trans) (by simpa using le_total) l'
      exact this.imp (by simp)
    · refine (isort_perm _ l').nodup_iff.mpr ?_
      rw [g4, List.nodup_append]
      refine ⟨hd, g5, fun x hx y hy e => ?_⟩
      subst e
      exact (h1 x hx).1 (g6 x hy).1
  · rw [k] at hm; exact nomatch hm

/-! ### what is not done -/

section examples

/-- names that begin with an underscore -/
def exPriv (n : ℕ) : Bool := n = 99

/-- attributes as a list -/
def at_ (l : List (ℕ × ℕ)) (n : ℕ) : Option ℕ := (l.find? fun p => p.1 = n).map (·.2)
/-- a module with public objects -/
def leaf (i : ℕ) (l : List (ℕ × ℕ)) : Mod ℕ := .mk i (at_ l) (some (l.map (·.1))) false .nil

/-- what is visible of a result: `__all__` and the attributes with these names -/
def view (ns : List ℕ) : Except Err (Mod ℕ) → Option (List ℕ × List (Option ℕ))
  | .ok m => some (m.all, ns.map m.attrs)
  | .error _ => none

/-- **C105** refuted without the condition on names of submodules: a submodule (here 6, named 10) silently replaces the public object 1 named 10 of another submodule;
there is no ImportError -/
theorem C105_refuted_module_name :
    view [10] ((Mod.mk 0 (at_ []) (some []) true (.cons 5 (leaf 4 [(10, 1)]) (.cons 10 (leaf 6 []) .nil))).flat exPriv {}) = some ([10], [some 6]) := by decide +kernel

/-- **C105** refuted: names that the `__init__` of a subpackage imports itself (here the object 1 named 10) without listing them are not passed on to the package -/
theorem C105_refuted_imported :
    view [10] ((Mod.mk 0 (at_ []) (some []) true (.cons 5 (.mk 4 (at_ [(10, 1)]) (some []) true (.cons 7 (leaf 8 [(10, 1)]) .nil)) .nil)).flat exPriv {}) =
      some ([], [none]) := by decide +kernel

/-- **C105** refuted: `exclude` is not passed on: a module in a subpackage that is to be excluded (8) is imported -/
theorem C105_refuted_exclude :
    view [10] ((Mod.mk 0 (at_ []) (some []) true (.cons 5 (.mk 4 (at_ []) (some []) true (.cons 7 (leaf 8 [(10, 1)]) .nil)) .nil)).flat exPriv {excl := [8]}) =
      some ([10], [some 1]) := by decide +kernel

/-- a package with a subpackage: one object is exported twice, one module is private -/
def exPkg : Mod ℕ := .mk 0 (at_ [(20, 2)]) (some [20]) true
  (.cons 5 (.mk 4 (at_ [(10, 1)]) (some [10]) true (.cons 7 (leaf 8 [(12, 3), (11, 7)]) .nil)) (.cons 99 (leaf 9 [(30, 5)]) (.cons 6 (leaf 3 [(11, 7)]) .nil)))
example : view [5, 6, 10, 11, 12, 20, 30, 99] (exPkg.flat exPriv {}) =
    some ([10, 11, 12, 20], [some 4, some 3, some 1, some 7, some 3, some 2, none, none]) := by decide +kernel

theorem leaf_exp {i : ℕ} {l : List (ℕ × ℕ)} {n o : ℕ} (h : n ∈ (leaf i l).all ∧ (leaf i l).attrs n = some o) : (n, o) ∈ l := by
  obtain ⟨_, h⟩ := h
  change at_ l n = some o at h
  unfold at_ at h
  obtain ⟨p, hp, e⟩ := Option.map_eq_some_iff.mp h
  have h1 := List.mem_of_find?_eq_some hp
  have h2 := List.find?_some hp
  rw [← e, ← of_decide_eq_true h2]
  exact h1

/-- the hypotheses hold for this package -/
example : exPkg.Clean exPriv {} := by
  have priv : ∀ n, (exPriv n = true → ({} : Cfg).priv = true) → n ≠ 99 := by
    rintro n h rfl
    exact absurd (h (by decide)) (by decide)
  refine ⟨by decide +kernel, ?_, ?_⟩
  · intro n o h
    have : (n, o) ∈ [(10, 1), (12, 3), (11, 7)] := by
      rcases h with ⟨_, _, h | ⟨_, _, h⟩⟩ | h | h | h
      · obtain ⟨h1, h2⟩ := h
        rw [show n = 10 by simpa [Mod.all] using h1] at h2 ⊢
        rw [show o = 1 by simpa [Mod.attrs, at_] using h2.symm]
        simp
      · rcases h with ⟨h1, h2⟩ | ⟨_, _, h | ⟨_, h, _⟩⟩ | h
        · rw [show n = 10 by simpa using h1] at h2 ⊢
          rw [show o = 1 by simpa [at_] using h2.symm]
          simp
        · exact List.mem_cons_of_mem _ (leaf_exp h)
        · exact absurd h (by decide)
        · exact h.elim
      · exact absurd rfl (priv 99 h.1)
      · rcases h with ⟨_, _, h | ⟨_, h, _⟩⟩
        · have := leaf_exp h
          rw [List.mem_singleton] at this
          rw [this]; simp
        · exact absurd h (by decide)
      · exact h.elim
    simp only [List.mem_cons, Prod.mk.injEq, List.not_mem_nil, or_false] at this
    rcases this with ⟨rfl, _⟩ | ⟨rfl, _⟩ | ⟨rfl, _⟩ <;> decide +kernel
  · refine ⟨fun _ _ => ⟨by decide +kernel, fun _ _ => ⟨by decide +kernel, ?_, fun _ _ => ⟨by decide +kernel, fun _ h => absurd h (by decide)⟩, trivial⟩⟩,
      fun _ _ => ⟨by decide +kernel, fun _ h => absurd h (by decide)⟩, fun _ _ => ⟨by decide +kernel, fun _ h => absurd h (by decide)⟩, trivial⟩
    rintro n o (⟨_, _, h | ⟨_, h, _⟩⟩ | h)
    · have := leaf_exp h
      simp only [List.mem_cons, Prod.mk.injEq, List.not_mem_nil, or_false] at this
      rcases this with ⟨rfl, _⟩ | ⟨rfl, _⟩ <;> decide +kernel
    · exact absurd h (by decide)
    · exact h.elim

/-- two different objects with the same public name -/
example : (Mod.mk 0 (at_ []) (some []) true (.cons 5 (leaf 4 [(10, 1)]) (.cons 6 (leaf 3 [(10, 2)]) .nil))).flat exPriv {} matches .error .importing := by decide +kernel

end examples

end QNET.Flat
