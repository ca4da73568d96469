import Verif.Util.KernelRfl
import Verif.Pattern.Thm

/-!
# C20, C21: main theorems
-/

namespace QNET.Pattern

variable {env : Env}

theorem body_sound {hd : Option ℕ} {ha : Bool} {args : List Pat} {ks : List ℕ} {kp : List Pat} {m : Mode} {w : Option ℕ} {c : List ℕ}
    (hw : WFP (.pat hd ha args ks kp m w c)) (hn : (listNames (.pat hd ha args ks kp m w c)).Nodup)
    (hs : ha = true → ∀ p ∈ args, SoundAt env p) (hk : ∀ p ∈ kp, SoundAt env p) : SoundAt env (.pat hd ha args ks kp m w c) := by
  intro e r h
  simp only [matchP] at h
  split at h
  swap
  · cases h
  rename_i hcond
  rw [Bool.and_eq_true] at hcond
  simp only [WFP] at hw
  simp only [listNames] at hn
  rw [List.nodup_append] at hn
  obtain ⟨hn1, hn3, hn4⟩ := hn
  rw [List.nodup_append] at hn1
  obtain ⟨-, hn2, hn5⟩ := hn1
  unfold body at h
  split at h
  · cases h
  · cases h
  · rename_i d1 hd1
    unfold argPhase at hd1
    -- after the positional arguments
    have hA : (ha = true → ∃ cls as ks' vs, e = .node cls as ks' vs ∧ SatArgs env d1.get args as) ∧ d1.KeysNodup ∧
        ∀ k l, d1.get k = some (.many l) → k ∈ (if ha then listNamesL args else []) := by
      by_cases hha : ha = true
      · rw [if_pos hha] at hd1
        cases e with
        | leaf a => simp at hd1
        | node cls as ks' vs =>
          simp only [if_pos hha] at hd1
          rw [if_pos hha] at hn2
          obtain ⟨a1, a2, a3⟩ := hw.1 hha
          obtain ⟨b1, b2, b3⟩ := args_sound a1 a2 a3 (hs hha) hn2 hd1
          refine ⟨fun _ => ⟨cls, as, ks', vs, rfl, b1⟩, b2, ?_⟩
          rw [if_pos hha]; exact b3
      · rw [if_neg hha] at hd1
        injection hd1 with hd1; injection hd1 with hd1; subst hd1
        refine ⟨fun h => absurd h hha, by simp [MD.KeysNodup], ?_⟩
        intro k l hkl; simp [MD.get] at hkl
    obtain ⟨hA1, hA2, hA3⟩ := hA
    split at h
    · cases h
    · cases h
    · rename_i d2 hd2
      obtain ⟨k1, k2, k3, k4, k5⟩ := kw_sound e kp ks d1 d2 hk hn3 (by
        intro k l hkl hc
        exact hn4 k (List.mem_append_right _ (hA3 k l hkl)) k hc rfl) hd2
      have hlist2 : ∀ k l, d2.get k = some (.many l) → k ∈ (if ha then listNamesL args else []) ++ listNamesL kp := by
        intro k l hkl
        rcases k5 k l hkl with h1 | h1
        · exact List.mem_append_left _ (hA3 k l h1)
        · exact List.mem_append_right _ h1
      -- satisfaction for any extension of the dictionary
      have hcore : ∀ r : MD, (∀ k v, d2.get k = some v → r.get k = some v) → SatCore env r.get (.pat hd ha args ks kp m w c) e := by
        intro r hr
        simp only [SatCore]
        refine ⟨?_, ?_, ?_, ?_⟩
        · intro h0 e0; subst e0; simpa [headOK] using hcond.1
        · intro c0 hc0; exact List.all_eq_true.mp hcond.2 c0 hc0
        · intro hha
          obtain ⟨cls, as, ks', vs, e1, e2⟩ := hA1 hha
          exact ⟨cls, as, ks', vs, e1, SatArgs.keep args as (Keeps.of_le _ (fun k v hv => hr k v (k4 k v hv))) e2⟩
        · exact SatKw.keep ks kp e (Keeps.of_le _ hr) k1
      cases hwc : w with
      | none =>
        subst hwc
        simp only [bindOwn] at h
        injection h with h; injection h with h; subst h
        refine ⟨⟨hcore d2 (fun _ _ h => h), ?_⟩, k3 hA2, ?_⟩
        · intro n hn; simp [Pat.wc] at hn
        · intro k l hkl
          simp only [listNames]
          rw [List.append_assoc]
          exact List.mem_append_right _ (hlist2 k l hkl)
      | some n =>
        subst hwc
        simp only [bindOwn] at h
        injection h with h
        obtain ⟨s1, s2, s3⟩ := MD.set_spec d2 n (if m = .single then .one e else .many [e])
        -- the name is new, or already has this value
        have hres : ∀ k v, d2.get k = some v → r.get k = some v := by
          cases hg : d2.get n with
          | none =>
            obtain ⟨r', e1, -, -, e4⟩ := s1 hg
            rw [h] at e1; injection e1 with e1; subst e1
            intro k v hv
            rw [e4, if_neg]
            · exact hv
            · rintro rfl; rw [hg] at hv; cases hv
          | some x =>
            cases hc : comb d2.merge x (if m = .single then .one e else .many [e]) with
            | none => rw [s3 x hg hc] at h; cases h
            | some z =>
              obtain ⟨r', e1, -, -, e4⟩ := s2 x z hg hc
              rw [h] at e1; injection e1 with e1; subst e1
              have hzx := comb_eq hc (by
                rintro ⟨a, b, rfl, hb⟩
                by_cases hm : m = .single
                · rw [if_pos hm] at hb; cases hb
                · have hmem := hlist2 n a hg
                  rw [hw.2.2.2 hm] at hmem
                  simp at hmem)
              intro k v hv
              rw [e4]
              split
              · rename_i hk; subst hk; rw [hg] at hv; rw [← hv, hzx.1]
              · exact hv
        have hown : r.get n = some (if m = .single then .one e else .many [e]) := by
          cases hg : d2.get n with
          | none =>
            obtain ⟨r', e1, -, -, e4⟩ := s1 hg
            rw [h] at e1; injection e1 with e1; subst e1
            rw [e4, if_pos rfl]
          | some x =>
            cases hc : comb d2.merge x (if m = .single then .one e else .many [e]) with
            | none => rw [s3 x hg hc] at h; cases h
            | some z =>
              obtain ⟨r', e1, -, -, e4⟩ := s2 x z hg hc
              rw [h] at e1; injection e1 with e1; subst e1
              have hzx := comb_eq hc (by
                rintro ⟨a, b, rfl, hb⟩
                by_cases hm : m = .single
                · rw [if_pos hm] at hb; cases hb
                · have hmem := hlist2 n a hg
                  rw [hw.2.2.2 hm] at hmem
                  simp at hmem)
              rw [e4, if_pos rfl, hzx.1, hzx.2]
        have hnodup : r.KeysNodup ∧ ∀ k, r.get k = if k = n then r.get n else d2.get k := by
          cases hg : d2.get n with
          | none =>
            obtain ⟨r', e1, -, e3, e4⟩ := s1 hg
            rw [h] at e1; injection e1 with e1; subst e1
            refine ⟨e3 (k3 hA2), fun k => ?_⟩
            split
            · rename_i hk; rw [hk]
            · rename_i hk; rw [e4, if_neg hk]
          | some x =>
            cases hc : comb d2.merge x (if m = .single then .one e else .many [e]) with
            | none => rw [s3 x hg hc] at h; cases h
            | some z =>
              obtain ⟨r', e1, -, e3, e4⟩ := s2 x z hg hc
              rw [h] at e1; injection e1 with e1; subst e1
              refine ⟨e3 (k3 hA2), fun k => ?_⟩
              split
              · rename_i hk; rw [hk]
              · rename_i hk; rw [e4, if_neg hk]
        refine ⟨⟨hcore r hres, ?_⟩, hnodup.1, ?_⟩
        · intro n' hn'
          simp only [Pat.wc, Option.some.injEq] at hn'
          subst hn'
          exact hown
        · intro k l hkl
          rw [hnodup.2 k] at hkl
          simp only [listNames]
          rw [List.append_assoc]
          split at hkl
          · rename_i hk
            subst hk
            rw [hown] at hkl
            by_cases hm : m = .single
            · rw [if_pos hm] at hkl; cases hkl
            · rw [if_neg hm]; simp
          · exact List.mem_append_right _ (hlist2 k l hkl)

mutual
theorem sound_aux : ∀ p : Pat, WFP p → (listNames p).Nodup → SoundAt env p
  | .expr x, _, _ => by
    intro e r h
    simp only [matchP] at h
    injection h with h
    split at h
    · rename_i he
      injection h with h; subst h
      refine ⟨⟨by simpa [SatCore] using he, by intro n hn; simp [Pat.wc] at hn⟩, by simp [MD.KeysNodup], ?_⟩
      intro k l hk; simp [MD.get] at hk
    · cases h
  | .pat hd ha args ks kp m w c, hw, hn => by
    have hw' := hw
    simp only [WFP] at hw'
    have hn' := hn
    simp only [listNames] at hn'
    rw [List.nodup_append] at hn'
    obtain ⟨hn1, hn3, -⟩ := hn'
    rw [List.nodup_append] at hn1
    refine body_sound hw hn ?_ ?_
    · intro hha
      have h2 := hn1.2.1
      rw [if_pos hha] at h2
      exact soundL_aux args (hw'.1 hha).2.2 h2
    · exact soundL_aux kp hw'.2.2.1 hn3
theorem soundL_aux : ∀ ps : List Pat, WFPL ps → (listNamesL ps).Nodup → ∀ p ∈ ps, SoundAt env p
  | [], _, _, _, h => by simp at h
  | q :: ps, hw, hn, p, h => by
    simp only [WFPL] at hw
    rw [listNamesL, List.nodup_append] at hn
    rcases List.mem_cons.mp h with e | h
    · rw [e]; exact sound_aux q hw.1 hn.1
    · exact soundL_aux ps hw.2 hn.2.1 p h
end

theorem body_complete {hd : Option ℕ} {ha : Bool} {args : List Pat} {ks : List ℕ} {kp : List Pat} {m : Mode} {w : Option ℕ} {c : List ℕ}
    (hw : WFP (.pat hd ha args ks kp m w c)) (hn : (listNames (.pat hd ha args ks kp m w c)).Nodup)
    (hl : ha = true → ∀ q, args = [q] → q.mode ≠ .zeroOrMore)
    (hs : ha = true → ∀ p ∈ args, SoundAt env p) (hk : ∀ p ∈ kp, SoundAt env p)
    (hc : ha = true → ∀ p ∈ args, CompleteAt env p) (hkc : ∀ p ∈ kp, CompleteAt env p) : CompleteAt env (.pat hd ha args ks kp m w c) := by
  intro e B hsat
  obtain ⟨hcore, hown⟩ := hsat
  simp only [SatCore] at hcore
  obtain ⟨h1, h2, h3, h4⟩ := hcore
  simp only [WFP] at hw
  simp only [listNames] at hn
  rw [List.nodup_append] at hn
  obtain ⟨hn1, hn3, hn4⟩ := hn
  rw [List.nodup_append] at hn1
  obtain ⟨-, hn2, hn5⟩ := hn1
  have hcond : (headOK env hd e && c.all (fun c => env.cond c e)) = true := by
    rw [Bool.and_eq_true]
    refine ⟨?_, List.all_eq_true.mpr h2⟩
    cases hd with
    | none => rfl
    | some h => exact h1 h rfl
  -- positional arguments
  have hA : ∃ d1 : MD, argPhase ha args (matchers env args) e ⟨[], if ha then mergeOf args else 0⟩ = .ok (some d1) ∧ (∀ k v, d1.get k = some v → B k = some v) ∧
      ∀ k l, d1.get k = some (.many l) → k ∈ (if ha then listNamesL args else []) := by
    by_cases hha : ha = true
    · obtain ⟨cls, as, ks', vs, rfl, hsa⟩ := h3 hha
      obtain ⟨a1, a2, a3⟩ := hw.1 hha
      rw [if_pos hha] at hn2
      obtain ⟨d1, e1, e2⟩ := args_complete a1 a2 a3 (hs hha) (hc hha) hn2 (hl hha) hsa
      obtain ⟨-, -, b3⟩ := args_sound a1 a2 a3 (hs hha) hn2 e1
      refine ⟨d1, ?_, e2, ?_⟩
      · simp only [argPhase, if_pos hha]; exact e1
      · rw [if_pos hha]; exact b3
    · refine ⟨⟨[], if ha then mergeOf args else 0⟩, by simp [argPhase, hha], ?_, ?_⟩
      · intro k v hv; simp [MD.get] at hv
      · intro k l hv; simp [MD.get] at hv
  obtain ⟨d1, e1, e2, e3⟩ := hA
  have hdis : ∀ k l, d1.get k = some (.many l) → k ∉ listNamesL kp := by
    intro k l hkl hc
    exact hn4 k (List.mem_append_right _ (e3 k l hkl)) k hc rfl
  obtain ⟨d2, f1, f2⟩ := kw_complete e B kp ks d1 hk hkc hn3 hdis h4 e2
  obtain ⟨-, -, -, -, k5⟩ := kw_sound e kp ks d1 d2 hk hn3 hdis f1
  have hmatch : ∀ r, bindOwn m w e d2 = .ok (some r) → matchP env (.pat hd ha args ks kp m w c) e = .ok (some r) := by
    intro r hr
    simp only [matchP]
    rw [if_pos hcond]
    unfold body
    simp only [e1, f1]
    exact hr
  cases hwc : w with
  | none =>
    refine ⟨d2, ?_, f2⟩
    rw [← hwc]
    apply hmatch
    rw [hwc]; rfl
  | some n =>
    have hB : B n = some (if m = .single then .one e else .many [e]) := hown n (by simp [Pat.wc, hwc])
    obtain ⟨s1, s2, s3⟩ := MD.set_spec d2 n (if m = .single then .one e else .many [e])
    have hset : ∃ r, d2.set n (if m = .single then .one e else .many [e]) = some r ∧ ∀ k v, r.get k = some v → B k = some v := by
      cases hg : d2.get n with
      | none =>
        obtain ⟨r, g1, -, -, g4⟩ := s1 hg
        refine ⟨r, g1, ?_⟩
        intro k v hv
        rw [g4] at hv
        split at hv
        · rename_i hk; subst hk; rw [hB, hv]
        · exact f2 k v hv
      | some x =>
        have hx := f2 n x hg
        rw [hB] at hx
        injection hx with hx
        have hnl : ¬ ∃ a b, x = Val.many a ∧ (if m = .single then Val.one e else .many [e]) = .many b := by
          rintro ⟨a, b, rfl, hb⟩
          by_cases hm : m = .single
          · rw [if_pos hm] at hb; cases hb
          · have hmem : n ∈ (if ha then listNamesL args else []) ++ listNamesL kp := by
              rcases k5 n a hg with h | h
              · exact List.mem_append_left _ (e3 n a h)
              · exact List.mem_append_right _ h
            rw [hw.2.2.2 hm] at hmem
            simp at hmem
        obtain ⟨z, hz⟩ := comb_self d2.merge x
        have hz' : comb d2.merge x (if m = .single then .one e else .many [e]) = some z := by rw [hx]; exact hz
        have hzx := comb_eq hz' hnl
        obtain ⟨r, g1, -, -, g4⟩ := s2 x z hg hz'
        refine ⟨r, g1, ?_⟩
        intro k v hv
        rw [g4] at hv
        split at hv
        · rename_i hk; subst hk; rw [hB, ← hv, hzx.1, hx]
        · exact f2 k v hv
    obtain ⟨r, hr, hrB⟩ := hset
    refine ⟨r, ?_, hrB⟩
    rw [← hwc]
    apply hmatch
    rw [hwc]
    simp only [bindOwn, hr]

mutual
theorem complete_aux : ∀ p : Pat, WFP p → (listNames p).Nodup → NoLoneStar p → CompleteAt env p
  | .expr x, _, _, _ => by
    intro e B hsat
    have he : x = e := by simpa [SatCore] using hsat.1
    refine ⟨⟨[], 0⟩, by simp [matchP, he], ?_⟩
    intro k v hv; simp [MD.get] at hv
  | .pat hd ha args ks kp m w c, hw, hn, hl => by
    have hw' := hw
    simp only [WFP] at hw'
    have hn' := hn
    simp only [listNames] at hn'
    rw [List.nodup_append] at hn'
    obtain ⟨hn1, hn3, -⟩ := hn'
    rw [List.nodup_append] at hn1
    have h2 := hn1.2.1
    simp only [NoLoneStar] at hl
    refine body_complete hw hn (fun hha => (hl.1 hha).1) ?_ ?_ ?_ ?_
    · intro hha
      rw [if_pos hha] at h2
      exact soundL_aux args (hw'.1 hha).2.2 h2
    · exact soundL_aux kp hw'.2.2.1 hn3
    · intro hha
      rw [if_pos hha] at h2
      exact completeL_aux args (hw'.1 hha).2.2 h2 (hl.1 hha).2
    · exact completeL_aux kp hw'.2.2.1 hn3 hl.2
theorem completeL_aux : ∀ ps : List Pat, WFPL ps → (listNamesL ps).Nodup → NoLoneStarL ps → ∀ p ∈ ps, CompleteAt env p
  | [], _, _, _, _, h => by simp at h
  | q :: ps, hw, hn, hl, p, h => by
    simp only [WFPL] at hw
    simp only [NoLoneStarL] at hl
    rw [listNamesL, List.nodup_append] at hn
    rcases List.mem_cons.mp h with e | h
    · rw [e]; exact complete_aux q hw.1 hn.1 hl.1
    · exact completeL_aux ps hw.2 hn.2.1 hl.2 p h
end

/-- C20, soundness: if `match_pattern(p, e)` succeeds, the bindings of the result make `e` an instance of the pattern: all types,
conditions, arguments and keyword arguments agree at every level, a repeated wildcard stands for equal expressions, and a list wildcard
for exactly the list of arguments it stands for. -/
theorem C20_sound (env : Env) {p : Pat} (hp : WF p) {e : Ex} {r : MD} (h : matchP env p e = .ok (some r)) : Sat env r.get p e :=
  (sound_aux p hp.1 hp.2 e r h).1

/-- C20, completeness: if some assignment of the wildcards makes `e` an instance of the pattern, then `match_pattern` succeeds, and each
of its bindings is the one of that assignment. (Excluded: a pattern whose only argument pattern is a "zero or more" wildcard, see
`C20_lone_star_refuted`.) -/
theorem C20_complete_partial (env : Env) {p : Pat} (hp : WF p) (hl : NoLoneStar p) {e : Ex} {B : Asg} (h : Sat env B p e) :
    ∃ r, matchP env p e = .ok (some r) ∧ Sat env r.get p e ∧ ∀ k v, r.get k = some v → B k = some v := by
  obtain ⟨r, h1, h2⟩ := complete_aux p hp.1 hp.2 hl e B h
  exact ⟨r, h1, C20_sound env hp h1, h2⟩

/-- C20: so matching decides whether `e` is an instance of the pattern. -/
theorem C20_iff_partial (env : Env) {p : Pat} (hp : WF p) (hl : NoLoneStar p) (e : Ex) :
    (∃ r, matchP env p e = .ok (some r)) ↔ ∃ B : Asg, Sat env B p e :=
  ⟨fun ⟨r, h⟩ => ⟨r.get, C20_sound env hp h⟩, fun ⟨_, h⟩ => let ⟨r, h1, _⟩ := C20_complete_partial env hp hl h; ⟨r, h1⟩⟩

/-- an interpretation of types and conditions for examples: type `n` accepts the expressions of class `n` -/
def env0 : Env where
  isinst h e := match e with
    | .leaf _ => false
    | .node c _ _ _ => c = h
  cond _ e := match e with
    | .leaf a => a < 10
    | _ => true

/-- Completeness is false without that restriction: `pattern(Cls, wc('A___'))` matches an expression without arguments (with `A = []`),
but matching raises `UnboundLocalError`. -/
theorem C20_lone_star_refuted : ∃ (p : Pat) (e : Ex) (B : Asg), WF p ∧ Sat env0 B p e ∧ matchP env0 p e = .error .unboundLocal := by
  refine ⟨patternP (some 0) [wcP (some 1) .zeroOrMore none], .node 0 [] [] [], fun _ => some (.many []), ?_, ?_, rfl⟩
  · refine ⟨?_, by decide⟩
    simp [patternP, wcP, WFP, WFPL, argsAccepted, Pat.isSingle, Pat.mode, listNamesL, listNames]
  · refine ⟨?_, by intro n hn; simp [patternP, Pat.wc] at hn⟩
    simp [patternP, wcP, SatCore, SatArgs, SatKw, PartOK, Pat.mode, env0]

/-- Two "more" wildcards, one at each end of the argument list, are accepted by the constructor, but then the first argument pattern is
never looked at: `pattern(Cls, wc('A__', head=Cls2), wc('B__'))` matches an expression without any argument of type `Cls2`. -/
theorem C20_two_stars_refuted : ∃ (p : Pat) (args : List Pat) (e : Ex) (r : MD), p = patternP (some 0) args ∧ argsAccepted args = true ∧
    matchP env0 p e = .ok (some r) ∧ ¬ ∃ B, Sat env0 B p e := by
  refine ⟨_, [wcP (some 1) .oneOrMore (some 7), wcP (some 2) .oneOrMore none], .node 0 [.leaf 0, .leaf 1] [] [],
    ⟨[(2, .many [.leaf 0, .leaf 1])], 1⟩, rfl, by decide, rfl, ?_⟩
  rintro ⟨B, h, -⟩
  simp only [patternP, wcP, SatCore] at h
  obtain ⟨cls, as, ks, vs, h1, h2⟩ := h.2.2.1 rfl
  simp only [SatArgs, PartOK, Pat.mode, Pat.wc] at h2
  obtain ⟨part, rest, h3, h4, ⟨h5, -⟩, -⟩ := h2
  obtain ⟨a, part', rfl⟩ := List.exists_cons_of_ne_nil h5
  have := (h4 a (by simp)).1 7 rfl
  injection h1 with h1a h1
  rw [← h1] at h3
  simp only [List.cons_append, List.cons.injEq] at h3
  rw [← h3.1] at this
  simp [env0] at this

/-- A list wildcard name used at two levels is concatenated instead of compared: `pattern(Cls0, pattern(Cls1, wc('A__')), wc('A__'))`
matches although no value of `A` fits both places. -/
theorem C20_repeated_list_name_refuted : ∃ (p : Pat) (e : Ex) (r : MD), WFP p ∧ matchP env0 p e = .ok (some r) ∧ ¬ ∃ B, Sat env0 B p e := by
  refine ⟨patternP (some 0) [patternP (some 1) [wcP (some 5) .oneOrMore none], wcP (some 5) .oneOrMore none],
    .node 0 [.node 1 [.leaf 0] [] [], .leaf 1] [] [], ⟨[(5, .many [.leaf 0, .leaf 1])], -1⟩, ?_, rfl, ?_⟩
  · simp [patternP, wcP, WFP, WFPL, argsAccepted, Pat.isSingle, Pat.mode, listNamesL, listNames]
  · rintro ⟨B, h, -⟩
    simp only [patternP, wcP, SatCore] at h
    obtain ⟨cls, as, ks, vs, h1, h2⟩ := h.2.2.1 rfl
    injection h1 with h1a h1
    simp only [SatArgs, PartOK, Pat.mode, Pat.wc] at h2
    obtain ⟨part, rest, h3, h4, ⟨x, rfl, -⟩, part2, rest2, h5, -, ⟨h7, h8⟩, rfl⟩ := h2
    rw [← h1] at h3
    simp only [List.cons_append, List.nil_append, List.cons.injEq] at h3
    obtain ⟨hx, hr⟩ := h3
    have h9 := h4 x (by simp)
    rw [← hx] at h9
    simp only [SatCore] at h9
    obtain ⟨cls', as', ks', vs', g1, g2⟩ := h9.2.2.1 rfl
    injection g1 with g1a g1
    simp only [SatArgs, PartOK, Pat.mode, Pat.wc] at g2
    obtain ⟨part3, rest3, g3, -, ⟨g5, g6⟩, rfl⟩ := g2
    have e1 := h8 5 rfl
    have e2 := g6 5 rfl
    rw [List.append_nil] at h5 g3
    rw [← h5, ← hr] at e1
    rw [← g3, ← g1] at e2
    rw [e1] at e2
    simp at e2

/-- the pattern of the class documentation: concatenation of two series products -/
def pDoc : Pat := patternP (some 0) [patternP (some 1) [wcP (some 1) .oneOrMore (some 2), wcP (some 2) .single (some 3)],
  patternP (some 1) [wcP (some 3) .oneOrMore (some 2), wcP (some 4) .single (some 3)]]

/-- an expression it matches -/
def eDoc : Ex := .node 0 [.node 1 [.node 2 [.leaf 1] [] [], .node 2 [.leaf 2] [] [], .node 3 [.leaf 0] [] []] [] [],
  .node 1 [.node 2 [.leaf 3] [] [], .node 2 [.leaf 4] [] [], .node 3 [.leaf 9] [] []] [] []] [] []

example : WF pDoc ∧ NoLoneStar pDoc := by
  refine ⟨⟨?_, by decide⟩, ?_⟩
  · simp [pDoc, patternP, wcP, WFP, WFPL, argsAccepted, Pat.isSingle, Pat.mode, listNamesL, listNames]
  · simp [pDoc, patternP, wcP, NoLoneStar, NoLoneStarL]

example : (matchP env0 pDoc eDoc).toOption.bind (fun r => r.map (fun r => (r.get 1, r.get 2))) =
    some (some (.many [.node 2 [.leaf 1] [] [], .node 2 [.leaf 2] [] []]), some (.one (.node 3 [.leaf 0] [] []))) := by decide +kernel

/-! ### C21 -/

/-- does the pattern match? -/
def matchesB (env : Env) (p : Pat) (e : Ex) : Bool :=
  match matchP env p e with
  | .ok (some _) => true
  | _ => false

/-- the match result, if the pattern matches -/
def matchO (env : Env) (p : Pat) (e : Ex) : Option MD :=
  match matchP env p e with
  | .ok r => r
  | _ => none

mutual
theorem findall_eq (env : Env) (p : Pat) : ∀ (e : Ex), (∀ x ∈ occurrences e, ∃ r, matchP env p x = .ok r) →
    findall env p e = .ok ((occurrences e).filter (matchesB env p)) ∧ finditer env p e = .ok ((occurrences e).filterMap (matchO env p))
  | .leaf a, h => by
    obtain ⟨r, hr⟩ := h (.leaf a) (by simp [occurrences])
    simp only [findall, finditer, hr, occurrences]
    cases r with
    | none => simp [matchesB, matchO, hr, List.filter, List.filterMap]; exact ⟨rfl, rfl⟩
    | some m => simp [matchesB, matchO, hr, List.filter, List.filterMap]; exact ⟨rfl, rfl⟩
  | .node c as ks vs, h => by
    have h1 := findallL_eq env p as (fun x hx => h x (by simp [occurrences, hx]))
    have h2 := findallL_eq env p vs (fun x hx => h x (by simp [occurrences, hx]))
    obtain ⟨r, hr⟩ := h (.node c as ks vs) (by simp [occurrences])
    simp only [findall, finditer, h1.1, h1.2, h2.1, h2.2, hr, occurrences, List.filter_append, List.filterMap_append]
    cases r with
    | none =>
      have e1 : List.filter (matchesB env p) [Ex.node c as ks vs] = [] := by simp [matchesB, hr]
      have e2 : List.filterMap (matchO env p) [Ex.node c as ks vs] = [] := by simp [matchO, hr]
      rw [e1, e2, List.append_nil, List.append_nil]
      exact ⟨rfl, rfl⟩
    | some m =>
      have e1 : List.filter (matchesB env p) [Ex.node c as ks vs] = [Ex.node c as ks vs] := by simp [matchesB, hr]
      have e2 : List.filterMap (matchO env p) [Ex.node c as ks vs] = [m] := by simp [matchO, hr]
      rw [e1, e2]
      exact ⟨rfl, rfl⟩
theorem findallL_eq (env : Env) (p : Pat) : ∀ (es : List Ex), (∀ x ∈ occurrencesL es, ∃ r, matchP env p x = .ok r) →
    findallL env p es = .ok ((occurrencesL es).filter (matchesB env p)) ∧ finditerL env p es = .ok ((occurrencesL es).filterMap (matchO env p))
  | [], _ => by simp only [findallL, finditerL, occurrencesL]; exact ⟨rfl, rfl⟩
  | a :: as, h => by
    have h1 := findall_eq env p a (fun x hx => h x (by simp [occurrencesL, hx]))
    have h2 := findallL_eq env p as (fun x hx => h x (by simp [occurrencesL, hx]))
    simp only [findallL, finditerL, h1.1, h1.2, h2.1, h2.2, occurrencesL, List.filter_append, List.filterMap_append]
    exact ⟨rfl, rfl⟩
end

/-- C21: `findall(e)` is the list of all occurrences of sub-expressions of `e` (including `e` itself and those in keyword arguments) that
match, each occurrence once, arguments before the expression containing them; `finditer(e)` yields the match results of the same
occurrences in the same order. (If matching one of the sub-expressions raises an exception, see `C20_lone_star_refuted`, so does the search.) -/
theorem C21_findall (env : Env) (p : Pat) (e : Ex) (h : ∀ x ∈ occurrences e, ∃ r, matchP env p x = .ok r) :
    findall env p e = .ok ((occurrences e).filter (matchesB env p)) ∧
    ∃ l, finditer env p e = .ok l ∧ List.Forall₂ (fun x m => matchP env p x = .ok (some m)) ((occurrences e).filter (matchesB env p)) l := by
  obtain ⟨h1, h2⟩ := findall_eq env p e h
  refine ⟨h1, _, h2, ?_⟩
  have : ∀ l : List Ex, List.Forall₂ (fun x m => matchP env p x = .ok (some m)) (l.filter (matchesB env p)) (l.filterMap (matchO env p)) := by
    intro l
    induction l with
    | nil => exact .nil
    | cons x l ih =>
      cases hx : matchP env p x with
      | error c =>
        have e1 : matchesB env p x = false := by simp [matchesB, hx]
        have e2 : matchO env p x = none := by simp [matchO, hx]
        rw [List.filter_cons_of_neg (by simp [e1]), List.filterMap_cons_none e2]; exact ih
      | ok r =>
        cases r with
        | none =>
          have e1 : matchesB env p x = false := by simp [matchesB, hx]
          have e2 : matchO env p x = none := by simp [matchO, hx]
          rw [List.filter_cons_of_neg (by simp [e1]), List.filterMap_cons_none e2]; exact ih
        | some m =>
          have e1 : matchesB env p x = true := by simp [matchesB, hx]
          have e2 : matchO env p x = some m := by simp [matchO, hx]
          rw [List.filter_cons_of_pos e1, List.filterMap_cons_some e2]
          exact .cons hx ih
  exact this _

/-- `x` is `e` or occurs in an argument or keyword argument of `e` -/
inductive SubEx : Ex → Ex → Prop where
  | refl (e : Ex) : SubEx e e
  | arg {x a : Ex} {c : ℕ} {as : List Ex} {ks : List ℕ} {vs : List Ex} : a ∈ as → SubEx x a → SubEx x (.node c as ks vs)
  | kw {x a : Ex} {c : ℕ} {as : List Ex} {ks : List ℕ} {vs : List Ex} : a ∈ vs → SubEx x a → SubEx x (.node c as ks vs)

mutual
theorem mem_occurrences (x : Ex) : ∀ e : Ex, x ∈ occurrences e → SubEx x e
  | .leaf a, h => by simp [occurrences] at h; subst h; exact .refl _
  | .node c as ks vs, h => by
    simp only [occurrences, List.mem_append, List.mem_singleton] at h
    rcases h with (h | h) | h
    · obtain ⟨a, ha, hs⟩ := mem_occurrencesL x as h
      exact .arg ha hs
    · obtain ⟨a, ha, hs⟩ := mem_occurrencesL x vs h
      exact .kw ha hs
    · subst h; exact .refl _
theorem mem_occurrencesL (x : Ex) : ∀ es : List Ex, x ∈ occurrencesL es → ∃ a ∈ es, SubEx x a
  | [], h => by simp [occurrencesL] at h
  | a :: as, h => by
    simp only [occurrencesL, List.mem_append] at h
    rcases h with h | h
    · exact ⟨a, by simp, mem_occurrences x a h⟩
    · obtain ⟨b, hb, hs⟩ := mem_occurrencesL x as h
      exact ⟨b, by simp [hb], hs⟩
end

theorem occurrencesL_mem {es : List Ex} {a x : Ex} (ha : a ∈ es) (hx : x ∈ occurrences a) : x ∈ occurrencesL es := by
  induction es with
  | nil => simp at ha
  | cons b es ih =>
    simp only [occurrencesL, List.mem_append]
    rcases List.mem_cons.mp ha with rfl | ha
    · exact Or.inl hx
    · exact Or.inr (ih ha)

theorem occurrences_iff (x e : Ex) : x ∈ occurrences e ↔ SubEx x e := by
  refine ⟨mem_occurrences x e, fun h => ?_⟩
  induction h with
  | refl => cases x <;> simp [occurrences]
  | arg ha _ ih => simp [occurrences, occurrencesL_mem ha ih]
  | kw ha _ ih => simp [occurrences, occurrencesL_mem ha ih]

/-- C21: the elements of `findall(e)` are exactly the matching sub-expressions of `e`. -/
theorem C21_exactly (env : Env) (p : Pat) (e : Ex) (h : ∀ x, SubEx x e → ∃ r, matchP env p x = .ok r) :
    ∃ l, findall env p e = .ok l ∧ ∀ x, x ∈ l ↔ SubEx x e ∧ ∃ m, matchP env p x = .ok (some m) := by
  refine ⟨_, (findall_eq env p e (fun x hx => h x ((occurrences_iff x e).mp hx))).1, fun x => ?_⟩
  rw [List.mem_filter, occurrences_iff]
  constructor
  · rintro ⟨h1, h2⟩
    refine ⟨h1, ?_⟩
    unfold matchesB at h2
    split at h2
    · rename_i m hm; exact ⟨m, hm⟩
    · cases h2
  · rintro ⟨h1, m, hm⟩
    exact ⟨h1, by simp [matchesB, hm]⟩

example : (findall env0 (wcP (some 1) .single (some 2)) eDoc).toOption = some [.node 2 [.leaf 1] [] [], .node 2 [.leaf 2] [] [],
    .node 2 [.leaf 3] [] [], .node 2 [.leaf 4] [] []] := by decide +kernel

/-! ### Equality of patterns -/

mutual
/-- the pattern without its heads -/
def Pat.forgetHeads : Pat → Pat
  | .expr e => .expr e
  | .pat _ ha as ks ps m w c => .pat none ha (Pat.forgetHeadsL as) ks (Pat.forgetHeadsL ps) m w c
/-- for lists -/
def Pat.forgetHeadsL : List Pat → List Pat
  | [] => []
  | p :: ps => p.forgetHeads :: Pat.forgetHeadsL ps
end

mutual
theorem peq_iff : ∀ p q : Pat, p.peq q = true ↔ p.forgetHeads = q.forgetHeads
  | .expr a, .expr b => by simp [Pat.peq, Pat.forgetHeads]
  | .expr a, .pat .. => by simp [Pat.peq, Pat.forgetHeads]
  | .pat .., .expr _ => by simp [Pat.peq, Pat.forgetHeads]
  | .pat _ ha as ks ps m w c, .pat _ hb bs ls qs n x d => by
    simp only [Pat.peq, Pat.forgetHeads, Pat.pat.injEq, Bool.and_eq_true, beq_iff_eq, decide_eq_true_eq, peqL_iff as bs, peqL_iff ps qs, true_and]
    tauto
theorem peqL_iff : ∀ p q : List Pat, Pat.peqL p q = true ↔ Pat.forgetHeadsL p = Pat.forgetHeadsL q
  | [], [] => by simp [Pat.peqL, Pat.forgetHeadsL]
  | [], _ :: _ => by simp [Pat.peqL, Pat.forgetHeadsL]
  | _ :: _, [] => by simp [Pat.peqL, Pat.forgetHeadsL]
  | p :: ps, q :: qs => by simp [Pat.peqL, Pat.forgetHeadsL, peq_iff p q, peqL_iff ps qs]
end

/-- C20: two patterns compare as equal if and only if they are the same except for the heads (types) anywhere in them. -/
theorem C20_pattern_eq (p q : Pat) : p.peq q = true ↔ p.forgetHeads = q.forgetHeads := peq_iff p q

/-- C20: hence two patterns that compare as equal need not match the same expressions: `wc(head=A) == wc(head=B)`, but they match different expressions. -/
theorem C20_pattern_eq_refuted : ∃ (env : Env) (p q : Pat) (e : Ex), p.peq q = true ∧ (matchP env p e).map Option.isSome = .ok true ∧ (matchP env q e).map Option.isSome = .ok false :=
  ⟨⟨fun h e => match e with | .node c _ _ _ => h == c | .leaf _ => false, fun _ _ => true⟩,
    .pat (some 1) false [] [] [] .single none [], .pat (some 2) false [] [] [] .single none [], .node 1 [] [] [], by kernel_rfl, by kernel_rfl, by kernel_rfl⟩

end QNET.Pattern
