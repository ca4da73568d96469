import Verif.Pattern.Lemmas

/-!
# C20, C21: matching is sound and complete; findall and finditer
-/

namespace QNET.Pattern

variable {env : Env}

/-- matching with `p` is sound -/
def SoundAt (env : Env) (p : Pat) : Prop := ∀ e r, matchP env p e = .ok (some r) → Sat env r.get p e ∧ Good p r

/-- matching with `p` is complete -/
def CompleteAt (env : Env) (p : Pat) : Prop := ∀ e B, Sat env B p e → ∃ r, matchP env p e = .ok (some r) ∧ ∀ k v, r.get k = some v → B k = some v

theorem matchers_eq (ps : List Pat) : matchers env ps = ps.map (fun p => (p, fun e => matchP env p e)) := by
  induction ps with
  | nil => rfl
  | cons p ps ih => rw [matchers, ih]; rfl

theorem matchersKw_eq (ps : List Pat) : matchersKw env ps = ps.map (fun p => fun e => matchP env p e) := by
  induction ps with
  | nil => rfl
  | cons p ps ih => rw [matchersKw, ih]; rfl

/-! ### the phase of the loop in which the non-single pattern is matched -/

theorem phase2_sound {q : Pat} (hq : q.mode ≠ .single) (hin : innerListNames q = []) (hs : SoundAt env q) :
    ∀ (as : List Ex) (d d' : MD) (L : List Ex), d.merge ≠ 0 → (∀ n, q.wc = some n → d.get n = some (.many L)) →
    runArgs [(q, fun e => matchP env q e)] as (some q) d = .ok (some d') →
    d'.merge = d.merge ∧ (d.KeysNodup → d'.KeysNodup) ∧ (∀ a ∈ as, SatCore env d'.get q a) ∧
    (∀ n, q.wc = some n → d'.get n = some (.many (app d.merge L as))) ∧
    (∀ k v, q.wc ≠ some k → d.get k = some v → d'.get k = some v) ∧
    (∀ k l, q.wc ≠ some k → d'.get k = some (.many l) → d.get k = some (.many l)) := by
  intro as
  induction as with
  | nil =>
    intro d d' L hmg hown h
    rw [runArgs, checkLast_self hq] at h
    injection h with h; injection h with h; subst h
    refine ⟨rfl, id, by simp, ?_, fun k v _ h => h, fun k v _ h => h⟩
    intro n hn
    rw [hown n hn]
    unfold app; split <;> simp
  | cons a as ih =>
    intro d d' L hmg hown h
    rw [runArgs] at h
    split at h
    · cases h
    · cases h
    · rename_i r hr
      obtain ⟨⟨hsc, how⟩, hg⟩ := hs a r hr
      split at h
      · cases h
      · rename_i d1 hd1
        have hsing : q.isSingle = false := by simpa [Pat.isSingle] using hq
        rw [hsing] at h
        simp only [Bool.false_eq_true, if_false] at h
        obtain ⟨s1, s2, s3, s4, s5, s6⟩ := step hq hin hg how hmg (fun n hn => Or.inl (hown n hn)) hd1
        obtain ⟨i1, i2, i3, i4, i5, i6⟩ := ih d1 d' (app d.merge L [a]) (by rw [s1]; exact hmg) s3 h
        refine ⟨i1.trans s1, fun h => i2 (s2 h), ?_, ?_, ?_, ?_⟩
        · intro b hb
          rcases List.mem_cons.mp hb with rfl | hb
          · refine SatCore.keep q b ?_ hsc
            intro k v hv
            by_cases hk : q.wc = some k
            · right
              have := how k hk
              rw [if_neg hq, hv] at this
              injection this with this
              exact ⟨⟨_, this⟩, by rw [hin]; simp⟩
            · left
              exact i5 k v hk (s5 k v hk hv)
          · exact i3 b hb
        · intro n hn
          rw [i4 n hn, s1, app_app]
          rfl
        · intro k v hk hv
          exact i5 k v hk (s4 k v hk hv)
        · intro k l hk hv
          rcases s6 k _ hk (i6 k l hk hv) with h1 | h1
          · exact h1
          · exfalso
            have := hg.lists k l h1
            rw [listNames_eq, if_neg hq, hin, List.append_nil] at this
            exact hk (by simpa using this)

theorem phase2_complete {q : Pat} (hq : q.mode ≠ .single) (hin : innerListNames q = []) (hs : SoundAt env q) (hc : CompleteAt env q) (B : Asg)
    (hB : ∀ n, q.wc = some n → ∃ l, B n = some (.many l)) :
    ∀ (as : List Ex) (c : Option Pat) (d : MD) (L : List Ex), (as ≠ [] ∨ c = some q) → d.merge ≠ 0 → OwnIs d q L →
    (∀ k v, q.wc ≠ some k → d.get k = some v → B k = some v) → (∀ a ∈ as, SatCore env B q a) →
    ∃ d', runArgs [(q, fun e => matchP env q e)] as c d = .ok (some d') ∧ ∀ k v, q.wc ≠ some k → d'.get k = some v → B k = some v := by
  intro as
  induction as with
  | nil =>
    intro c d L hcur hmg hown hd _
    rcases hcur with h | rfl
    · exact absurd rfl h
    · refine ⟨d, ?_, hd⟩
      rw [runArgs, checkLast_self hq]
  | cons a as ih =>
    intro c d L _ hmg hown hd hsat
    -- the assignment in which the name of `q` stands for `[a]`
    let B' : Asg := fun k => if q.wc = some k then some (.many [a]) else B k
    have hsat' : Sat env B' q a := by
      refine ⟨SatCore.keep q a ?_ (hsat a (by simp)), ?_⟩
      · intro k v hv
        by_cases hk : q.wc = some k
        · right
          obtain ⟨l, hl⟩ := hB k hk
          rw [hv] at hl; injection hl with hl
          exact ⟨⟨l, hl⟩, by rw [hin]; simp⟩
        · left
          show (if q.wc = some k then _ else B k) = _
          rw [if_neg hk, hv]
      · intro n hn
        show (if q.wc = some n then _ else B n) = _
        rw [if_pos hn, if_neg hq]
    obtain ⟨r, hr, hrB⟩ := hc a B' hsat'
    obtain ⟨⟨hsc, how⟩, hg⟩ := hs a r hr
    have hrB' : ∀ k v, q.wc ≠ some k → r.get k = some v → B k = some v := by
      intro k v hk hv
      have : (if q.wc = some k then _ else B k) = _ := hrB k v hv
      rwa [if_neg hk] at this
    obtain ⟨d1, hd1⟩ := step_ok hq hg how hmg hown (fun k x y hk hx hy => by
      have e1 := hd k x hk hx
      have e2 := hrB' k y hk hy
      rw [e1] at e2; injection e2)
    obtain ⟨s1, s2, s3, s4, s5, s6⟩ := step hq hin hg how hmg hown hd1
    obtain ⟨d', e1, e2⟩ := ih (some q) d1 (app d.merge L [a]) (Or.inr rfl) (by rw [s1]; exact hmg) (fun n hn => Or.inl (s3 n hn)) (by
      intro k v hk hv
      rcases s6 k v hk hv with h1 | h1
      · exact hd k v hk h1
      · exact hrB' k v hk h1) (fun b hb => hsat b (by simp [hb]))
    refine ⟨d', ?_, e2⟩
    have hsing : q.isSingle = false := by simpa [Pat.isSingle] using hq
    rw [runArgs, hr]
    simp only [hd1, hsing, Bool.false_eq_true, if_false]
    exact e1

/-! ### the loop over the arguments -/

/-- the tail of the pattern list: nothing, or one non-single pattern without list names inside -/
def TailOK (T : List Pat) : Prop := T = [] ∨ ∃ q, T = [q] ∧ q.mode ≠ .single ∧ innerListNames q = []

theorem loop_sound {T : List Pat} (hT : TailOK T) (hTs : ∀ q ∈ T, SoundAt env q) :
    ∀ (S : List Pat), (∀ p ∈ S, p.mode = .single) → (∀ p ∈ S, SoundAt env p) →
    ∀ (as : List Ex) (c : Option Pat) (d d' : MD), (∀ p, c = some p → p.mode = .single) → (T ≠ [] → d.merge ≠ 0) →
    (listNamesL (S ++ T)).Nodup → (∀ k l, d.get k = some (.many l) → k ∉ listNamesL (S ++ T)) →
    runArgs (matchers env (S ++ T)) as c d = .ok (some d') →
    ∃ as1 as2, as = as1 ++ as2 ∧ List.Forall₂ (fun p a => Sat env d'.get p a) S as1 ∧ (T = [] → as2 = []) ∧
      (∀ q, T = [q] → (∀ a ∈ as2, SatCore env d'.get q a) ∧ (q.mode = .oneOrMore → as2 ≠ []) ∧
        ∀ n, q.wc = some n → d'.get n = some (.many (app d.merge [] as2))) ∧
      d'.merge = d.merge ∧ (d.KeysNodup → d'.KeysNodup) ∧ (∀ k v, d.get k = some v → d'.get k = some v) ∧
      (∀ k l, d'.get k = some (.many l) → d.get k = some (.many l) ∨ k ∈ listNamesL (S ++ T)) := by
  intro S
  induction S with
  | nil =>
    intro _ _ as c d d' hcur hmg hnd hdis h
    rcases hT with rfl | ⟨q, rfl, hq, hin⟩
    · cases as with
      | nil =>
        simp only [List.append_nil, matchers, runArgs] at h
        injection h with h; injection h with h; subst h
        exact ⟨[], [], rfl, .nil, by simp, by simp, rfl, id, fun k v h => h, fun k l h => Or.inl h⟩
      | cons a as => simp [matchers, runArgs] at h
    · have hs := hTs q (by simp)
      have hlq : ∀ k, k ∈ listNamesL ([] ++ [q]) ↔ q.wc = some k := by
        intro k
        simp only [List.nil_append, listNamesL, List.append_nil]
        rw [listNames_eq, if_neg hq, hin, List.append_nil]
        simp
      have hmg' : d.merge ≠ 0 := hmg (by simp)
      cases as with
      | nil =>
        cases c with
        | none => simp [matchers, runArgs] at h
        | some p =>
          simp only [List.nil_append, matchers, runArgs] at h
          rw [checkLast_single hq (hcur p rfl)] at h
          injection h with h
          cases hm : q.mode with
          | single => exact absurd hm hq
          | oneOrMore => simp [hm] at h
          | zeroOrMore =>
            simp only [hm] at h
            cases hw : q.wc with
            | none =>
              simp only [hw] at h
              injection h with h; subst h
              refine ⟨[], [], rfl, .nil, by simp, ?_, rfl, id, fun k v h => h, fun k l h => Or.inl h⟩
              intro q' hq'
              injection hq' with hq'; subst hq'
              refine ⟨by simp, by simp [hm], by simp [hw]⟩
            | some n =>
              simp only [hw] at h
              have hnone : d.get n = none := by
                cases hg : d.get n with
                | none => rfl
                | some v =>
                  exfalso
                  cases v with
                  | many l => exact hdis n l hg ((hlq n).mpr hw)
                  | one e =>
                    rw [(MD.set_spec d n (.many [])).2.2 _ hg (by simp [comb])] at h
                    cases h
              obtain ⟨d1, e1, e2, e3, e4⟩ := (MD.set_spec d n (.many [])).1 hnone
              rw [h] at e1; injection e1 with e1; subst e1
              refine ⟨[], [], rfl, .nil, by simp, ?_, e2, e3, ?_, ?_⟩
              · intro q' hq'
                injection hq' with hq'; subst hq'
                refine ⟨by simp, by simp [hm], ?_⟩
                intro n' hn'
                rw [hw] at hn'; injection hn' with hn'; subst hn'
                rw [e4, if_pos rfl]
                unfold app; split <;> simp
              · intro k v hv
                rw [e4]
                split
                · rename_i hk; subst hk; rw [hnone] at hv; cases hv
                · exact hv
              · intro k l hv
                rw [e4] at hv
                split at hv
                · rename_i hk; subst hk; exact Or.inr ((hlq _).mpr hw)
                · exact Or.inl hv
      | cons a as =>
        simp only [List.nil_append, matchers] at h
        rw [runArgs] at h
        split at h
        · cases h
        · cases h
        · rename_i r hr
          obtain ⟨⟨hsc, how⟩, hg⟩ := hs a r hr
          split at h
          · cases h
          · rename_i d1 hd1
            have hsing : q.isSingle = false := by simpa [Pat.isSingle] using hq
            rw [hsing] at h
            simp only [Bool.false_eq_true, if_false] at h
            -- the name of `q` is not used yet
            have hnone : ∀ n, q.wc = some n → d.get n = none := by
              intro n hn
              cases hgn : d.get n with
              | none => rfl
              | some v =>
                exfalso
                cases v with
                | many l => exact hdis n l hgn ((hlq n).mpr hn)
                | one e =>
                  obtain ⟨-, -, h3, -⟩ := (MD.update_spec r.items d hg.nodup).1 d1 hd1
                  have hrn := how n hn
                  rw [if_neg hq] at hrn
                  obtain ⟨z, hz⟩ := h3 n _ _ hgn hrn
                  simp [comb] at hz
            obtain ⟨s1, s2, s3, s4, s5, s6⟩ := step (L := []) hq hin hg how hmg' (fun n hn => Or.inr ⟨rfl, hnone n hn⟩) hd1
            obtain ⟨i1, i2, i3, i4, i5, i6⟩ := phase2_sound hq hin hs as d1 d' (app d.merge [] [a]) (by rw [s1]; exact hmg') s3 h
            refine ⟨[], a :: as, rfl, .nil, by simp, ?_, i1.trans s1, fun h => i2 (s2 h), ?_, ?_⟩
            · intro q' hq'
              injection hq' with hq'; subst hq'
              refine ⟨?_, by simp, ?_⟩
              · intro b hb
                rcases List.mem_cons.mp hb with rfl | hb
                · refine SatCore.keep q b ?_ hsc
                  intro k v hv
                  by_cases hk : q.wc = some k
                  · right
                    have := how k hk
                    rw [if_neg hq, hv] at this
                    injection this with this
                    exact ⟨⟨_, this⟩, by rw [hin]; simp⟩
                  · left
                    exact i5 k v hk (s5 k v hk hv)
                · exact i3 b hb
              · intro n hn
                rw [i4 n hn, s1, app_app]
                rfl
            · intro k v hv
              by_cases hk : q.wc = some k
              · rw [hnone k hk] at hv; cases hv
              · exact i5 k v hk (s4 k v hk hv)
            · intro k l hv
              by_cases hk : q.wc = some k
              · exact Or.inr ((hlq k).mpr hk)
              · rcases s6 k _ hk (i6 k l hk hv) with h1 | h1
                · exact Or.inl h1
                · have := hg.lists k l h1
                  rw [listNames_eq, if_neg hq, hin, List.append_nil] at this
                  exact Or.inr ((hlq k).mpr (by simpa using this))
  | cons p S ih =>
    intro hS hSs as c d d' hcur hmg hnd hdis h
    rw [List.cons_append] at hnd hdis h ⊢
    rw [matchers] at h
    rw [listNamesL, List.nodup_append] at hnd
    have hp : p.mode = .single := hS p (by simp)
    cases as with
    | nil =>
      exfalso
      cases c with
      | none => simp [runArgs] at h
      | some c =>
        rw [runArgs] at h
        cases p with
        | expr x => simp [checkLast] at h
        | pat hh ha as' ks kp m w cc =>
          simp only [Pat.mode] at hp
          subst hp
          simp [checkLast] at h
    | cons a as =>
      rw [runArgs] at h
      split at h
      · cases h
      · cases h
      · rename_i r hr
        obtain ⟨hsat, hg⟩ := hSs p (by simp) a r hr
        split at h
        · cases h
        · rename_i d1 hd1
          have hsing : p.isSingle = true := by simpa [Pat.isSingle] using hp
          rw [hsing] at h
          simp only [if_true] at h
          have hdisj : ∀ k a b, d.get k = some (.many a) → r.get k = some (.many b) → False := by
            intro k x y hx hy
            exact hdis k x hx (by rw [listNamesL]; simp [hg.lists k y hy])
          obtain ⟨u1, u2, u3, u4, u5⟩ := upd hg.nodup hd1 hdisj
          obtain ⟨as1, as2, e1, e2, e3, e4, e5, e6, e7, e8⟩ := ih (fun x hx => hS x (by simp [hx])) (fun x hx => hSs x (by simp [hx]))
            as (some p) d1 d' (by intro x hx; injection hx with hx; subst hx; exact hp) (by rw [u1]; exact hmg) hnd.2.1 (by
              intro k l hk hc
              rcases u5 k _ hk with h1 | h1
              · exact hdis k l h1 (by rw [listNamesL]; simp [hc])
              · exact hnd.2.2 k (hg.lists k l h1) k hc rfl) h
          refine ⟨a :: as1, as2, by rw [e1]; rfl, .cons ?_ e2, e3, ?_, e5.trans u1, fun h => e6 (u2 h), fun k v hv => e7 k v (u3 k v hv), ?_⟩
          · exact hsat.keep (Keeps.of_le _ (fun k v hv => e7 k v (u4 k v hv)))
          · rw [u1] at e4; exact e4
          · intro k l hv
            rcases e8 k l hv with h1 | h1
            · rcases u5 k _ h1 with h2 | h2
              · exact Or.inl h2
              · exact Or.inr (by rw [listNamesL]; simp [hg.lists k l h2])
            · exact Or.inr (by rw [listNamesL]; simp [h1])

theorem loop_complete {T : List Pat} (hT : TailOK T) (hTs : ∀ q ∈ T, SoundAt env q) (hTc : ∀ q ∈ T, CompleteAt env q) (B : Asg) (as2 : List Ex)
    (hT0 : T = [] → as2 = []) :
    ∀ (S : List Pat), (∀ p ∈ S, p.mode = .single) → (∀ p ∈ S, SoundAt env p) → (∀ p ∈ S, CompleteAt env p) →
    ∀ (as1 : List Ex) (c : Option Pat) (d : MD), (∀ p, c = some p → p.mode = .single) → (T ≠ [] → d.merge ≠ 0) →
    (S = [] → T ≠ [] → as2 = [] → c ≠ none) →
    (listNamesL (S ++ T)).Nodup → (∀ k l, d.get k = some (.many l) → k ∉ listNamesL (S ++ T)) →
    List.Forall₂ (fun p a => Sat env B p a) S as1 →
    (∀ q, T = [q] → (∀ a ∈ as2, SatCore env B q a) ∧ (q.mode = .oneOrMore → as2 ≠ []) ∧
        ∀ n, q.wc = some n → B n = some (.many (app d.merge [] as2))) →
    (∀ k v, d.get k = some v → B k = some v) →
    ∃ d', runArgs (matchers env (S ++ T)) (as1 ++ as2) c d = .ok (some d') ∧ ∀ k v, d'.get k = some v → B k = some v := by
  intro S
  induction S with
  | nil =>
    intro _ _ _ as1 c d hcur hmg hcr hnd hdis hfa hq hd
    cases hfa
    rw [List.nil_append, List.nil_append] at *
    rcases hT with rfl | ⟨q, rfl, hqm, hin⟩
    · rw [hT0 rfl]
      exact ⟨d, by simp [matchers, runArgs], hd⟩
    · have hs := hTs q (by simp)
      obtain ⟨q1, q2, q3⟩ := hq q rfl
      have hlq : ∀ k, k ∈ listNamesL [q] ↔ q.wc = some k := by
        intro k
        simp only [listNamesL, List.append_nil]
        rw [listNames_eq, if_neg hqm, hin, List.append_nil]
        simp
      have hnone : ∀ n, q.wc = some n → d.get n = none := by
        intro n hn
        cases hg : d.get n with
        | none => rfl
        | some v =>
          exfalso
          have := hd n v hg
          rw [q3 n hn] at this
          injection this with this
          subst this
          exact hdis n _ hg ((hlq n).mpr hn)
      have hmg' : d.merge ≠ 0 := hmg (by simp)
      by_cases has : as2 = []
      · subst has
        cases c with
        | none => exact absurd rfl (hcr rfl (by simp) rfl)
        | some c =>
          have hz : q.mode = .zeroOrMore := by
            cases hm : q.mode with
            | single => exact absurd hm hqm
            | oneOrMore => exact absurd rfl (q2 hm)
            | zeroOrMore => rfl
          simp only [matchers, runArgs]
          rw [checkLast_single hqm (hcur c rfl), hz]
          simp only
          cases hw : q.wc with
          | none => exact ⟨d, rfl, hd⟩
          | some n =>
            obtain ⟨d1, e1, e2, e3, e4⟩ := (MD.set_spec d n (.many [])).1 (hnone n hw)
            refine ⟨d1, by simp only [e1], ?_⟩
            intro k v hv
            rw [e4] at hv
            split at hv
            · rename_i hk; subst hk
              rw [q3 _ hw]
              rw [← hv]
              unfold app; split <;> simp
            · exact hd k v hv
      · obtain ⟨d', e1, e2⟩ := phase2_complete hqm hin hs (hTc q (by simp)) B (fun n hn => ⟨_, q3 n hn⟩) as2 c d [] (Or.inl has) hmg'
          (fun n hn => Or.inr ⟨rfl, hnone n hn⟩) (fun k v _ hv => hd k v hv) q1
        refine ⟨d', e1, ?_⟩
        intro k v hv
        by_cases hk : q.wc = some k
        · -- the value collected under the name of `q`
          have hT' : TailOK [q] := Or.inr ⟨q, rfl, hqm, hin⟩
          obtain ⟨bs1, bs2, f1, f2, -, f4, -⟩ := loop_sound hT' hTs [] (by simp) (by simp) as2 c d d' hcur hmg (by simpa using hnd)
            (by simpa using hdis) (by simpa [matchers] using e1)
          cases f2
          rw [List.nil_append] at f1
          subst f1
          have := (f4 q rfl).2.2 k hk
          rw [this] at hv
          rw [q3 k hk, hv]
        · exact e2 k v hk hv
  | cons p S ih =>
    intro hS hSs hSc as1 c d hcur hmg hcr hnd hdis hfa hq hd
    rw [List.cons_append] at hnd hdis ⊢
    cases hfa with
    | @cons _ a _ as1 hsat hfa =>
      have hnd0 := hnd
      rw [listNamesL, List.nodup_append] at hnd
      have hp : p.mode = .single := hS p (by simp)
      obtain ⟨r, hr, hrB⟩ := hSc p (by simp) a B hsat
      obtain ⟨hsat', hg⟩ := hSs p (by simp) a r hr
      obtain ⟨d1, hd1⟩ := upd_ok hg.nodup (d := d) (by
        intro k x y hx hy
        have e1 := hd k x hx
        have e2 := hrB k y hy
        rw [e1] at e2; injection e2)
      have hdisj : ∀ k a b, d.get k = some (.many a) → r.get k = some (.many b) → False := by
        intro k x y hx hy
        exact hdis k x hx (by rw [listNamesL]; simp [hg.lists k y hy])
      obtain ⟨u1, u2, u3, u4, u5⟩ := upd hg.nodup hd1 hdisj
      obtain ⟨d', e1, e2⟩ := ih (fun x hx => hS x (by simp [hx])) (fun x hx => hSs x (by simp [hx])) (fun x hx => hSc x (by simp [hx]))
        as1 (some p) d1 (by intro x hx; injection hx with hx; subst hx; exact hp) (by rw [u1]; exact hmg) (by simp) hnd.2.1 (by
          intro k l hk hc
          rcases u5 k _ hk with h1 | h1
          · exact hdis k l h1 (by rw [listNamesL]; simp [hc])
          · exact hnd.2.2 k (hg.lists k l h1) k hc rfl) hfa (by rw [u1]; exact hq) (by
          intro k v hv
          rcases u5 k v hv with h1 | h1
          · exact hd k v h1
          · exact hrB k v h1)
      refine ⟨d', ?_, e2⟩
      have hsing : p.isSingle = true := by simpa [Pat.isSingle] using hp
      rw [List.cons_append, matchers, runArgs, hr]
      simp only [hd1, hsing, if_true]
      exact e1

/-! ### keyword arguments -/

theorem kw_sound (e : Ex) : ∀ (ps : List Pat) (ks : List ℕ) (d d' : MD), (∀ p ∈ ps, SoundAt env p) → (listNamesL ps).Nodup →
    (∀ k l, d.get k = some (.many l) → k ∉ listNamesL ps) → runKw e (ks.zip (matchersKw env ps)) d = .ok (some d') →
    SatKw env d'.get ks ps e ∧ d'.merge = d.merge ∧ (d.KeysNodup → d'.KeysNodup) ∧ (∀ k v, d.get k = some v → d'.get k = some v) ∧
      (∀ k l, d'.get k = some (.many l) → d.get k = some (.many l) ∨ k ∈ listNamesL ps) := by
  intro ps
  induction ps with
  | nil =>
    intro ks d d' _ _ _ h
    simp only [matchersKw, List.zip_nil_right, runKw] at h
    injection h with h; injection h with h; subst h
    exact ⟨by simp [SatKw], rfl, id, fun k v h => h, fun k l h => Or.inl h⟩
  | cons p ps ih =>
    intro ks d d' hs hnd hdis h
    cases ks with
    | nil =>
      simp only [matchersKw, List.zip_nil_left, runKw] at h
      injection h with h; injection h with h; subst h
      exact ⟨by simp [SatKw], rfl, id, fun k v h => h, fun k l h => Or.inl h⟩
    | cons k ks =>
      rw [listNamesL, List.nodup_append] at hnd
      simp only [matchersKw, List.zip_cons_cons, runKw] at h
      split at h
      · cases h
      · rename_i v hv
        split at h
        · cases h
        · cases h
        · rename_i r hr
          obtain ⟨hsat, hg⟩ := hs p (by simp) v r hr
          split at h
          · cases h
          · rename_i d1 hd1
            have hdisj : ∀ k a b, d.get k = some (.many a) → r.get k = some (.many b) → False := by
              intro k x y hx hy
              exact hdis k x hx (by rw [listNamesL]; simp [hg.lists k y hy])
            obtain ⟨u1, u2, u3, u4, u5⟩ := upd hg.nodup hd1 hdisj
            obtain ⟨e1, e5, e6, e7, e8⟩ := ih ks d1 d' (fun x hx => hs x (by simp [hx])) hnd.2.1 (by
              intro k l hk hc
              rcases u5 k _ hk with h1 | h1
              · exact hdis k l h1 (by rw [listNamesL]; simp [hc])
              · exact hnd.2.2 k (hg.lists k l h1) k hc rfl) h
            refine ⟨?_, e5.trans u1, fun h => e6 (u2 h), fun k v hv => e7 k v (u3 k v hv), ?_⟩
            · simp only [SatKw]
              have := hsat.keep (B' := d'.get) (Keeps.of_le _ (fun k v hv => e7 k v (u4 k v hv)))
              exact ⟨⟨v, (kw_iff _ _ _).mp hv, this.1, this.2⟩, e1⟩
            · intro k l hv
              rcases e8 k l hv with h1 | h1
              · rcases u5 k _ h1 with h2 | h2
                · exact Or.inl h2
                · exact Or.inr (by rw [listNamesL]; simp [hg.lists k l h2])
              · exact Or.inr (by rw [listNamesL]; simp [h1])

theorem kw_complete (e : Ex) (B : Asg) : ∀ (ps : List Pat) (ks : List ℕ) (d : MD), (∀ p ∈ ps, SoundAt env p) → (∀ p ∈ ps, CompleteAt env p) →
    (listNamesL ps).Nodup → (∀ k l, d.get k = some (.many l) → k ∉ listNamesL ps) → SatKw env B ks ps e →
    (∀ k v, d.get k = some v → B k = some v) →
    ∃ d', runKw e (ks.zip (matchersKw env ps)) d = .ok (some d') ∧ ∀ k v, d'.get k = some v → B k = some v := by
  intro ps
  induction ps with
  | nil =>
    intro ks d _ _ _ _ _ hd
    exact ⟨d, by simp [matchersKw, runKw], hd⟩
  | cons p ps ih =>
    intro ks d hs hc hnd hdis hsat hd
    cases ks with
    | nil => exact ⟨d, by simp [matchersKw, runKw], hd⟩
    | cons k ks =>
      rw [listNamesL, List.nodup_append] at hnd
      simp only [SatKw] at hsat
      obtain ⟨⟨v, hv, h1, h2⟩, h3⟩ := hsat
      rw [← kw_iff] at hv
      obtain ⟨r, hr, hrB⟩ := hc p (by simp) v B ⟨h1, h2⟩
      obtain ⟨hsat', hg⟩ := hs p (by simp) v r hr
      obtain ⟨d1, hd1⟩ := upd_ok hg.nodup (d := d) (by
        intro k x y hx hy
        have e1 := hd k x hx
        have e2 := hrB k y hy
        rw [e1] at e2; injection e2)
      have hdisj : ∀ k a b, d.get k = some (.many a) → r.get k = some (.many b) → False := by
        intro k x y hx hy
        exact hdis k x hx (by rw [listNamesL]; simp [hg.lists k y hy])
      obtain ⟨u1, u2, u3, u4, u5⟩ := upd hg.nodup hd1 hdisj
      obtain ⟨d', e1, e2⟩ := ih ks d1 (fun x hx => hs x (by simp [hx])) (fun x hx => hc x (by simp [hx])) hnd.2.1 (by
          intro k l hk hc
          rcases u5 k _ hk with h1 | h1
          · exact hdis k l h1 (by rw [listNamesL]; simp [hc])
          · exact hnd.2.2 k (hg.lists k l h1) k hc rfl) h3 (by
          intro k v hv
          rcases u5 k v hv with h1 | h1
          · exact hd k v h1
          · exact hrB k v h1)
      refine ⟨d', ?_, e2⟩
      simp only [matchersKw, List.zip_cons_cons, runKw, hv, hr, hd1]
      exact e1

/-! ### the order of the loop -/

/-- the patterns in the order of the loop -/
theorem args_cases {args : List Pat} (h1 : argsAccepted args = true) (h2 : (args.filter (fun q => !q.isSingle)).length ≤ 1) :
    ((∀ p ∈ args, p.mode = .single) ∧ onLeft args = false ∧ mergeOf args = 0) ∨
    (∃ q S, args = q :: S ∧ q.mode ≠ .single ∧ (∀ p ∈ S, p.mode = .single) ∧ onLeft args = true ∧ mergeOf args = 1) ∨
    (∃ q S, args = S ++ [q] ∧ q.mode ≠ .single ∧ (∀ p ∈ S, p.mode = .single) ∧ onLeft args = false ∧ mergeOf args = -1) := by
  have hsing : ∀ p : Pat, p.isSingle = true ↔ p.mode = .single := by intro p; simp [Pat.isSingle]
  by_cases hall : args.all Pat.isSingle = true
  · left
    refine ⟨?_, ?_, ?_⟩
    · intro p hp
      exact (hsing p).mp (List.all_eq_true.mp hall p hp)
    · cases args with
      | nil => rfl
      | cons q S =>
        have := List.all_eq_true.mp hall q (by simp)
        simp [onLeft, this]
    · simp [mergeOf, hall]
  · right
    cases args with
    | nil => simp at hall
    | cons q S =>
      by_cases hq : q.isSingle = true
      · right
        -- the last one is not single
        have hS : ¬ S.all Pat.isSingle = true := by simpa [hq] using hall
        rcases List.eq_nil_or_concat S with rfl | ⟨S', x, rfl⟩
        · simp at hS
        · rw [List.concat_eq_append] at *
          simp only [argsAccepted, List.drop_succ_cons, List.drop_zero, List.dropLast_concat] at h1
          have hx : x.isSingle = false := by
            rw [List.all_append, h1] at hS
            simpa using hS
          refine ⟨x, q :: S', rfl, ?_, ?_, ?_, ?_⟩
          · intro hc; rw [(hsing x).mpr hc] at hx; cases hx
          · intro p hp
            rcases List.mem_cons.mp hp with rfl | hp
            · exact (hsing _).mp hq
            · exact (hsing p).mp (List.all_eq_true.mp h1 p hp)
          · simp [onLeft, hq]
          · simp only [mergeOf]
            rw [if_neg hall]
            simp [onLeft, hq]
      · left
        have hq' : q.isSingle = false := by simpa using hq
        refine ⟨q, S, rfl, fun hc => hq ((hsing q).mpr hc), ?_, by simp [onLeft, hq'], ?_⟩
        · intro p hp
          rw [← hsing]
          by_contra hc
          have : p ∈ S.filter (fun q => !q.isSingle) := List.mem_filter.mpr ⟨hp, by simpa using hc⟩
          have hlen := List.length_pos_of_mem this
          simp [hq'] at h2
          have := h2 p hp
          rw [this] at hc; exact hc rfl
        · simp only [mergeOf]
          rw [if_neg hall]
          simp [onLeft, hq']

theorem satArgs_append {B : Asg} : ∀ (ps qs : List Pat) (as : List Ex), SatArgs env B (ps ++ qs) as ↔
    ∃ a b, as = a ++ b ∧ SatArgs env B ps a ∧ SatArgs env B qs b := by
  intro ps
  induction ps with
  | nil =>
    intro qs as
    simp only [List.nil_append, SatArgs]
    constructor
    · intro h; exact ⟨[], as, rfl, rfl, h⟩
    · rintro ⟨a, b, h1, rfl, h3⟩; rw [h1]; exact h3
  | cons p ps ih =>
    intro qs as
    simp only [List.cons_append, SatArgs]
    constructor
    · rintro ⟨part, rest, h1, h2, h3, h4⟩
      obtain ⟨a, b, h5, h6, h7⟩ := (ih qs rest).mp h4
      exact ⟨part ++ a, b, by rw [h1, h5, List.append_assoc], ⟨part, a, rfl, h2, h3, h6⟩, h7⟩
    · rintro ⟨a, b, h1, ⟨part, rest, h2, h3, h4, h5⟩, h6⟩
      exact ⟨part, rest ++ b, by rw [h1, h2, List.append_assoc], h3, h4, (ih qs _).mpr ⟨rest, b, rfl, h5, h6⟩⟩

theorem satArgs_singles {B : Asg} : ∀ (ps : List Pat) (as : List Ex), (∀ p ∈ ps, p.mode = .single) →
    (SatArgs env B ps as ↔ List.Forall₂ (fun p a => Sat env B p a) ps as) := by
  intro ps
  induction ps with
  | nil => intro as _; simp [SatArgs]
  | cons p ps ih =>
    intro as h
    have hp := h p (by simp)
    simp only [SatArgs]
    constructor
    · rintro ⟨part, rest, h1, h2, h3, h4⟩
      simp only [PartOK, hp] at h3
      obtain ⟨a, rfl, h5⟩ := h3
      rw [h1]
      refine .cons ⟨h2 a (by simp), ?_⟩ ((ih rest (fun x hx => h x (by simp [hx]))).mp h4)
      intro n hn; rw [if_pos hp]; exact h5 n hn
    · intro hf
      cases hf with
      | @cons _ a _ as hs hf =>
        refine ⟨[a], as, rfl, ?_, ?_, (ih as (fun x hx => h x (by simp [hx]))).mpr hf⟩
        · intro b hb; simp at hb; subst hb; exact hs.1
        · simp only [PartOK, hp]
          refine ⟨a, rfl, fun n hn => ?_⟩
          have := hs.2 n hn
          rwa [if_pos hp] at this

theorem satArgs_more {B : Asg} {q : Pat} (hq : q.mode ≠ .single) (as : List Ex) : SatArgs env B [q] as ↔
    (∀ a ∈ as, SatCore env B q a) ∧ (q.mode = .oneOrMore → as ≠ []) ∧ ∀ n, q.wc = some n → B n = some (.many as) := by
  simp only [SatArgs, PartOK]
  cases hm : q.mode with
  | single => exact absurd hm hq
  | oneOrMore =>
    constructor
    · rintro ⟨part, rest, h1, h2, h3, rfl⟩
      rw [List.append_nil] at h1; subst h1
      exact ⟨h2, fun _ => h3.1, h3.2⟩
    · rintro ⟨h1, h2, h3⟩
      exact ⟨as, [], by simp, h1, ⟨h2 rfl, h3⟩, rfl⟩
  | zeroOrMore =>
    constructor
    · rintro ⟨part, rest, h1, h2, h3, rfl⟩
      rw [List.append_nil] at h1; subst h1
      exact ⟨h2, by simp, h3⟩
    · rintro ⟨h1, h2, h3⟩
      exact ⟨as, [], by simp, h1, h3, rfl⟩

/-- inner list names of a non-single pattern in scope -/
theorem WFP.inner {p : Pat} (h : WFP p) (hm : p.mode ≠ .single) : innerListNames p = [] := by
  cases p with
  | expr e => simp [innerListNames]
  | pat hd ha as ks kp m w c =>
    simp only [WFP] at h
    exact h.2.2.2 hm

theorem wfpl_mem : ∀ (ps : List Pat), WFPL ps → ∀ p ∈ ps, WFP p
  | [], _, _, h => by simp at h
  | q :: ps, hw, p, h => by
    simp only [WFPL] at hw
    rcases List.mem_cons.mp h with rfl | h
    · exact hw.1
    · exact wfpl_mem ps hw.2 p h

theorem listNames_sub {ps : List Pat} (hn : (listNamesL ps).Nodup) : ∀ p ∈ ps, (listNames p).Nodup := by
  induction ps with
  | nil => simp
  | cons q ps ih =>
    rw [listNamesL, List.nodup_append] at hn
    intro p hp
    rcases List.mem_cons.mp hp with rfl | hp
    · exact hn.1
    · exact ih hn.2.1 p hp

theorem matchers_reverse (ps : List Pat) : (matchers env ps).reverse = matchers env ps.reverse := by
  rw [matchers_eq, matchers_eq, List.map_reverse]

/-- the loop over the arguments, in whichever order -/
theorem args_sound {args : List Pat} {as : List Ex} {d1 : MD} (h1 : argsAccepted args = true) (h2 : (args.filter (fun q => !q.isSingle)).length ≤ 1)
    (hw : WFPL args) (hs : ∀ p ∈ args, SoundAt env p) (hnd : (listNamesL args).Nodup)
    (h : (if onLeft args then runArgs (matchers env args).reverse as.reverse none ⟨[], mergeOf args⟩
      else runArgs (matchers env args) as none ⟨[], mergeOf args⟩) = .ok (some d1)) :
    SatArgs env d1.get args as ∧ d1.KeysNodup ∧ ∀ k l, d1.get k = some (.many l) → k ∈ listNamesL args := by
  have hd0 : ∀ (m : ℤ) k l, (⟨[], m⟩ : MD).get k = some (.many l) → False := by intro m k l h; simp [MD.get] at h
  have hn0 : ∀ m : ℤ, (⟨[], m⟩ : MD).KeysNodup := by intro m; simp [MD.KeysNodup]
  rcases args_cases h1 h2 with ⟨c1, c2, c3⟩ | ⟨q, S, rfl, c1, c2, c3, c4⟩ | ⟨q, S, rfl, c1, c2, c3, c4⟩
  · rw [c2] at h
    simp only [Bool.false_eq_true, if_false] at h
    obtain ⟨as1, as2, e1, e2, e3, -, -, e6, -, e8⟩ := loop_sound (T := []) (Or.inl rfl) (by simp) args c1 hs as none _ d1 (by simp) (by simp)
      (by simpa using hnd) (fun k l hk => (hd0 _ k l hk).elim) (by simpa using h)
    rw [e3 rfl, List.append_nil] at e1
    subst e1
    refine ⟨(satArgs_singles args as c1).mpr e2, e6 (hn0 _), ?_⟩
    intro k l hk
    rcases e8 k l hk with h | h
    · exact (hd0 _ k l h).elim
    · simpa using h
  · rw [c3] at h
    simp only [if_true] at h
    rw [matchers_reverse, List.reverse_cons] at h
    have hq := wfpl_mem _ hw q (by simp)
    have hnd' : (listNamesL (S.reverse ++ [q])).Nodup := by
      rw [← List.reverse_cons]
      exact (listNamesL_reverse _).nodup_iff.mpr hnd
    obtain ⟨as1, as2, e1, e2, e3, e4, -, e6, -, e8⟩ := loop_sound (T := [q]) (Or.inr ⟨q, rfl, c1, hq.inner c1⟩) (by
        intro x hx; simp at hx; subst hx; exact hs _ (by simp)) S.reverse (by simpa using c2) (by
        intro x hx; exact hs x (by simp at hx; simp [hx])) as.reverse none _ d1 (by simp) (by rw [c4]; simp) hnd'
      (fun k l hk => (hd0 _ k l hk).elim) h
    have has : as = as2.reverse ++ as1.reverse := by
      have := congrArg List.reverse e1
      simpa using this
    refine ⟨?_, e6 (hn0 _), ?_⟩
    · have hsplit : q :: S = [q] ++ S := rfl
      rw [hsplit, satArgs_append]
      refine ⟨as2.reverse, as1.reverse, has, ?_, ?_⟩
      · rw [satArgs_more c1]
        obtain ⟨f1, f2, f3⟩ := e4 q rfl
        refine ⟨by simpa using f1, by simpa using f2, ?_⟩
        intro n hn
        rw [f3 n hn, c4]
        simp [app]
      · rw [satArgs_singles S _ c2]
        have := List.rel_reverse e2
        simpa using this
    · intro k l hk
      rcases e8 k l hk with h | h
      · exact (hd0 _ k l h).elim
      · rw [← List.reverse_cons] at h
        exact (listNamesL_reverse _).mem_iff.mp h
  · rw [c3] at h
    simp only [Bool.false_eq_true, if_false] at h
    have hq := wfpl_mem _ hw q (by simp)
    obtain ⟨as1, as2, e1, e2, e3, e4, -, e6, -, e8⟩ := loop_sound (T := [q]) (Or.inr ⟨q, rfl, c1, hq.inner c1⟩) (by
        intro x hx; simp at hx; subst hx; exact hs _ (by simp)) S c2 (by
        intro x hx; exact hs x (by simp [hx])) as none _ d1 (by simp) (by rw [c4]; simp) hnd
      (fun k l hk => (hd0 _ k l hk).elim) h
    refine ⟨?_, e6 (hn0 _), ?_⟩
    · rw [satArgs_append]
      refine ⟨as1, as2, e1, (satArgs_singles S _ c2).mpr e2, ?_⟩
      rw [satArgs_more c1]
      obtain ⟨f1, f2, f3⟩ := e4 q rfl
      refine ⟨f1, f2, ?_⟩
      intro n hn
      rw [f3 n hn, c4]
      simp [app]
    · intro k l hk
      rcases e8 k l hk with h | h
      · exact (hd0 _ k l h).elim
      · exact h

theorem args_complete {args : List Pat} {as : List Ex} {B : Asg} (h1 : argsAccepted args = true) (h2 : (args.filter (fun q => !q.isSingle)).length ≤ 1)
    (hw : WFPL args) (hs : ∀ p ∈ args, SoundAt env p) (hc : ∀ p ∈ args, CompleteAt env p) (hnd : (listNamesL args).Nodup)
    (hlone : ∀ q, args = [q] → q.mode ≠ .zeroOrMore) (hsat : SatArgs env B args as) :
    ∃ d1, (if onLeft args then runArgs (matchers env args).reverse as.reverse none ⟨[], mergeOf args⟩
      else runArgs (matchers env args) as none ⟨[], mergeOf args⟩) = .ok (some d1) ∧ ∀ k v, d1.get k = some v → B k = some v := by
  have hd0 : ∀ (m : ℤ) k l, (⟨[], m⟩ : MD).get k = some (.many l) → False := by intro m k l h; simp [MD.get] at h
  have hd1 : ∀ (m : ℤ) k v, (⟨[], m⟩ : MD).get k = some v → B k = some v := by intro m k l h; simp [MD.get] at h
  rcases args_cases h1 h2 with ⟨c1, c2, c3⟩ | ⟨q, S, rfl, c1, c2, c3, c4⟩ | ⟨q, S, rfl, c1, c2, c3, c4⟩
  · rw [c2]
    simp only [Bool.false_eq_true, if_false]
    have := loop_complete (T := []) (Or.inl rfl) (by simp) (by simp) B [] (by simp) args c1 hs hc as none ⟨[], mergeOf args⟩ (by simp) (by simp)
      (by simp) (by simpa using hnd) (fun k l hk => (hd0 _ k l hk).elim) ((satArgs_singles args as c1).mp hsat) (by simp) (hd1 _)
    simpa using this
  · rw [c3]
    simp only [if_true]
    rw [matchers_reverse, List.reverse_cons]
    have hq := wfpl_mem _ hw q (by simp)
    have hnd' : (listNamesL (S.reverse ++ [q])).Nodup := by
      rw [← List.reverse_cons]
      exact (listNamesL_reverse _).nodup_iff.mpr hnd
    have hsplit : q :: S = [q] ++ S := rfl
    rw [hsplit, satArgs_append] at hsat
    obtain ⟨as2, as1, e1, e2, e3⟩ := hsat
    rw [satArgs_more c1] at e2
    have hrev : as.reverse = as1.reverse ++ as2.reverse := by rw [e1]; simp
    rw [hrev]
    refine loop_complete (T := [q]) (Or.inr ⟨q, rfl, c1, hq.inner c1⟩) (by
        intro x hx; simp at hx; subst hx; exact hs _ (by simp)) (by
        intro x hx; simp at hx; subst hx; exact hc _ (by simp)) B as2.reverse (by simp) S.reverse (by simpa using c2) (by
        intro x hx; exact hs x (by simp at hx; simp [hx])) (by
        intro x hx; exact hc x (by simp at hx; simp [hx])) as1.reverse none _ (by simp) (by rw [c4]; simp) ?_ hnd'
      (fun k l hk => (hd0 _ k l hk).elim) ?_ ?_ (hd1 _)
    · intro hS _ has
      have hS' : S = [] := by simpa using hS
      subst hS'
      have has' : as2 = [] := by simpa using has
      have := hlone q rfl
      exfalso
      cases hm : q.mode with
      | single => exact c1 hm
      | oneOrMore => exact e2.2.1 hm has'
      | zeroOrMore => exact this hm
    · have := List.rel_reverse ((satArgs_singles S _ c2).mp e3)
      simpa using this
    · intro q' hq'
      injection hq' with hq'; subst hq'
      refine ⟨by simpa using e2.1, by simpa using e2.2.1, ?_⟩
      intro n hn
      rw [e2.2.2 n hn, c4]
      simp [app]
  · rw [c3]
    simp only [Bool.false_eq_true, if_false]
    have hq := wfpl_mem _ hw q (by simp)
    rw [satArgs_append] at hsat
    obtain ⟨as1, as2, e1, e2, e3⟩ := hsat
    rw [satArgs_more c1] at e3
    rw [e1]
    refine loop_complete (T := [q]) (Or.inr ⟨q, rfl, c1, hq.inner c1⟩) (by
        intro x hx; simp at hx; subst hx; exact hs _ (by simp)) (by
        intro x hx; simp at hx; subst hx; exact hc _ (by simp)) B as2 (by simp) S c2 (by
        intro x hx; exact hs x (by simp [hx])) (by
        intro x hx; exact hc x (by simp [hx])) as1 none _ (by simp) (by rw [c4]; simp) ?_ hnd
      (fun k l hk => (hd0 _ k l hk).elim) ((satArgs_singles S _ c2).mp e2) ?_ (hd1 _)
    · intro hS _ has
      subst hS
      have := hlone q rfl
      exfalso
      cases hm : q.mode with
      | single => exact c1 hm
      | oneOrMore => exact e3.2.1 hm has
      | zeroOrMore => exact this hm
    · intro q' hq'
      injection hq' with hq'; subst hq'
      refine ⟨e3.1, e3.2.1, ?_⟩
      intro n hn
      rw [e3.2.2 n hn, c4]
      simp [app]

end QNET.Pattern
