import Verif.Pattern.Dict
import Mathlib.Data.List.Forall2

/-!
# Lemmas about matching
-/

namespace QNET.Pattern

variable {env : Env}

theorem listNames_eq (p : Pat) : listNames p = (if p.mode = .single then [] else p.wc.toList) ++ innerListNames p := by
  cases p with
  | expr e => simp [listNames, innerListNames, Pat.mode]
  | pat h ha as ks kp m w c => cases m <;> simp [listNames, innerListNames, Pat.mode, Pat.wc, List.append_assoc]

theorem listNamesL_append (a b : List Pat) : listNamesL (a ++ b) = listNamesL a ++ listNamesL b := by
  induction a with
  | nil => rfl
  | cons p a ih => simp [listNamesL, ih, List.append_assoc]

theorem listNamesL_reverse (a : List Pat) : (listNamesL a.reverse).Perm (listNamesL a) := by
  induction a with
  | nil => exact .refl _
  | cons p a ih =>
    rw [List.reverse_cons, listNamesL_append]
    simp only [listNamesL, List.append_nil]
    exact (List.perm_append_comm).trans (ih.append_left _)

theorem own_mem_listNames {p : Pat} {n : ℕ} (hm : p.mode ≠ .single) (hw : p.wc = some n) : n ∈ listNames p := by
  rw [listNames_eq, if_neg hm, hw]; simp

/-! ### monotonicity of satisfaction -/

/-- values are kept, except for lists whose names are not in `L` -/
def Keeps (L : List ℕ) (B B' : Asg) : Prop := ∀ m v, B m = some v → B' m = some v ∨ (∃ l, v = Val.many l) ∧ m ∉ L

theorem Keeps.mono {L L' : List ℕ} {B B' : Asg} (h : Keeps L B B') (hL : ∀ x ∈ L', x ∈ L) : Keeps L' B B' := by
  intro m v hv
  rcases h m v hv with h1 | ⟨h1, h2⟩
  · exact Or.inl h1
  · exact Or.inr ⟨h1, fun hc => h2 (hL _ hc)⟩

theorem Keeps.of_le {B B' : Asg} (L : List ℕ) (h : ∀ m v, B m = some v → B' m = some v) : Keeps L B B' := fun m v hv => Or.inl (h m v hv)

theorem Keeps.one {L : List ℕ} {B B' : Asg} (h : Keeps L B B') {n : ℕ} {a : Ex} (hv : B n = some (.one a)) : B' n = some (.one a) := by
  rcases h n _ hv with h1 | ⟨⟨l, h1⟩, -⟩
  · exact h1
  · cases h1

theorem Keeps.many {L : List ℕ} {B B' : Asg} (h : Keeps L B B') {n : ℕ} {v : Val} (hn : n ∈ L) (hv : B n = some v) : B' n = some v := by
  rcases h n _ hv with h1 | ⟨-, h1⟩
  · exact h1
  · exact absurd hn h1

theorem PartOK.keep {q : Pat} {part : List Ex} {B B' : Asg} (h : Keeps (listNames q) B B') (hp : PartOK B q part) : PartOK B' q part := by
  unfold PartOK at *
  cases hm : q.mode with
  | single =>
    rw [hm] at hp
    obtain ⟨a, h1, h2⟩ := hp
    exact ⟨a, h1, fun n hn => h.one (h2 n hn)⟩
  | oneOrMore =>
    rw [hm] at hp
    exact ⟨hp.1, fun n hn => h.many (own_mem_listNames (by simp [hm]) hn) (hp.2 n hn)⟩
  | zeroOrMore =>
    rw [hm] at hp
    exact fun n hn => h.many (own_mem_listNames (by simp [hm]) hn) (hp n hn)

theorem OwnName.keep {q : Pat} {e : Ex} {B B' : Asg} (h : Keeps (listNames q) B B') (hp : OwnName B q e) : OwnName B' q e := by
  intro n hn
  have := hp n hn
  by_cases hm : q.mode = .single
  · rw [if_pos hm] at this ⊢; exact h.one this
  · rw [if_neg hm] at this ⊢; exact h.many (own_mem_listNames hm hn) this

mutual
theorem SatCore.keep {B B' : Asg} : ∀ (p : Pat) (e : Ex), Keeps (innerListNames p) B B' → SatCore env B p e → SatCore env B' p e
  | .expr _, _, _, h => h
  | .pat head hasArgs args keys kwpats m w conds, e, hk, h => by
    simp only [SatCore] at h ⊢
    refine ⟨h.1, h.2.1, fun ha => ?_, ?_⟩
    · obtain ⟨cls, as, ks, vs, e1, e2⟩ := h.2.2.1 ha
      exact ⟨cls, as, ks, vs, e1, SatArgs.keep args as (hk.mono (fun x hx => by simp [innerListNames, ha, hx])) e2⟩
    · exact SatKw.keep keys kwpats e (hk.mono (fun x hx => by simp [innerListNames, hx])) h.2.2.2
theorem SatArgs.keep {B B' : Asg} : ∀ (ps : List Pat) (as : List Ex), Keeps (listNamesL ps) B B' → SatArgs env B ps as → SatArgs env B' ps as
  | [], _, _, h => h
  | q :: ps, as, hk, h => by
    simp only [SatArgs] at h ⊢
    obtain ⟨part, rest, h1, h2, h3, h4⟩ := h
    have hq : Keeps (listNames q) B B' := hk.mono (fun x hx => by simp [listNamesL, hx])
    refine ⟨part, rest, h1, fun a ha => ?_, h3.keep hq, ?_⟩
    · exact SatCore.keep q a (hq.mono (fun x hx => by rw [listNames_eq]; simp [hx])) (h2 a ha)
    · exact SatArgs.keep ps rest (hk.mono (fun x hx => by simp [listNamesL, hx])) h4
theorem SatKw.keep {B B' : Asg} : ∀ (ks : List ℕ) (ps : List Pat) (e : Ex), Keeps (listNamesL ps) B B' → SatKw env B ks ps e → SatKw env B' ks ps e
  | _, [], _, _, _ => by simp [SatKw]
  | [], _ :: _, _, _, _ => by simp [SatKw]
  | k :: ks, q :: ps, e, hk, h => by
    simp only [SatKw] at h ⊢
    obtain ⟨⟨v, h1, h2, h3⟩, h4⟩ := h
    have hq : Keeps (listNames q) B B' := hk.mono (fun x hx => by simp [listNamesL, hx])
    refine ⟨⟨v, h1, SatCore.keep q v (hq.mono (fun x hx => by rw [listNames_eq]; simp [hx])) h2, h3.keep hq⟩, ?_⟩
    exact SatKw.keep ks ps e (hk.mono (fun x hx => by simp [listNamesL, hx])) h4
end

theorem Sat.keep {B B' : Asg} {p : Pat} {e : Ex} (hk : Keeps (listNames p) B B') (h : Sat env B p e) : Sat env B' p e :=
  ⟨SatCore.keep p e (hk.mono (fun x hx => by rw [listNames_eq]; simp [hx])) h.1, h.2.keep hk⟩

/-! ### updating with results -/

/-- what is known of the result of matching `p` -/
structure Good (p : Pat) (r : MD) : Prop where
  nodup : r.KeysNodup
  lists : ∀ k l, r.get k = some (.many l) → k ∈ listNames p

theorem comb_self (mg : ℤ) (x : Val) : ∃ z, comb mg x x = some z := by
  cases x with
  | one e => exact ⟨.one e, by simp [comb]⟩
  | many l =>
    simp only [comb]
    split
    · exact ⟨_, rfl⟩
    · split
      · exact ⟨_, rfl⟩
      · exact ⟨_, if_pos trivial⟩

theorem comb_eq {mg : ℤ} {x y z : Val} (h : comb mg x y = some z) (hne : ¬ ∃ a b, x = .many a ∧ y = .many b) : z = x ∧ y = x := by
  cases x with
  | one a =>
    cases y with
    | one b =>
      simp only [comb] at h
      split at h
      · rename_i e; injection h with h; exact ⟨h.symm, e.symm⟩
      · cases h
    | many b => simp [comb] at h
  | many a =>
    cases y with
    | one b => simp [comb] at h
    | many b => exact absurd ⟨a, b, rfl, rfl⟩ hne

theorem upd {d d' r : MD} (hr : r.KeysNodup) (h : d.update r.items = some d')
    (hdis : ∀ k a b, d.get k = some (.many a) → r.get k = some (.many b) → False) :
    d'.merge = d.merge ∧ (d.KeysNodup → d'.KeysNodup) ∧ (∀ k v, d.get k = some v → d'.get k = some v) ∧
    (∀ k v, r.get k = some v → d'.get k = some v) ∧ (∀ k v, d'.get k = some v → d.get k = some v ∨ r.get k = some v) := by
  obtain ⟨h1, h2, h3, h4⟩ := (MD.update_spec r.items d hr).1 d' h
  have key : ∀ k x y, d.get k = some x → r.get k = some y → d'.get k = some x ∧ y = x := by
    intro k x y hx hy
    obtain ⟨z, hz⟩ := h3 k x y hx hy
    obtain ⟨e1, e2⟩ := comb_eq hz (by rintro ⟨a, b, rfl, rfl⟩; exact hdis k a b hx hy)
    refine ⟨?_, e2⟩
    have hy' : r.items.lookup k = some y := hy
    rw [h4 k, hx, hy']
    simp only [comb?]
    rw [hz, e1]
  have hlr : ∀ k, r.items.lookup k = r.get k := fun _ => rfl
  refine ⟨h1, h2, ?_, ?_, ?_⟩
  · intro k v hv
    cases hy : r.get k with
    | none => rw [h4 k, hv, hlr, hy]; rfl
    | some y => exact (key k v y hv hy).1
  · intro k v hv
    cases hx : d.get k with
    | none => rw [h4 k, hx, hlr, hv]; rfl
    | some x => rw [(key k x v hx hv).1, (key k x v hx hv).2]
  · intro k v hv
    cases hx : d.get k with
    | none => right; rw [h4 k, hx, hlr] at hv; exact hv
    | some x =>
      cases hy : r.get k with
      | none => left; rw [h4 k, hx, hlr, hy] at hv; exact hv
      | some y => left; rw [← hv, (key k x y hx hy).1]

theorem upd_ok {d r : MD} (hr : r.KeysNodup) (h : ∀ k x y, d.get k = some x → r.get k = some y → x = y) : ∃ d', d.update r.items = some d' := by
  apply (MD.update_spec r.items d hr).2
  intro k x y hx hy
  rw [h k x y hx hy]
  exact comb_self _ _

/-- the list after the arguments `as` have been added to `l` -/
def app (mg : ℤ) (l as : List Ex) : List Ex := if mg < 0 then l ++ as else as.reverse ++ l

theorem app_app (mg : ℤ) (l a b : List Ex) : app mg (app mg l a) b = app mg l (a ++ b) := by
  unfold app
  split <;> simp

/-- the list collected so far under the name of `q` -/
def OwnIs (d : MD) (q : Pat) (L : List Ex) : Prop := ∀ n, q.wc = some n → d.get n = some (.many L) ∨ (L = [] ∧ d.get n = none)

/-- one more argument for a non-single pattern -/
theorem step {q : Pat} {d d' r : MD} {a : Ex} {L : List Ex} (hq : q.mode ≠ .single) (hin : innerListNames q = [])
    (hg : Good q r) (how : OwnName r.get q a) (hmg : d.merge ≠ 0) (hown : OwnIs d q L) (h : d.update r.items = some d') :
    d'.merge = d.merge ∧ (d.KeysNodup → d'.KeysNodup) ∧ (∀ n, q.wc = some n → d'.get n = some (.many (app d.merge L [a]))) ∧
    (∀ k v, q.wc ≠ some k → d.get k = some v → d'.get k = some v) ∧ (∀ k v, q.wc ≠ some k → r.get k = some v → d'.get k = some v) ∧
    (∀ k v, q.wc ≠ some k → d'.get k = some v → d.get k = some v ∨ r.get k = some v) := by
  obtain ⟨h1, h2, h3, h4⟩ := (MD.update_spec r.items d hg.nodup).1 d' h
  have hlr : ∀ k, r.items.lookup k = r.get k := fun _ => rfl
  have hlist : ∀ k l, r.get k = some (.many l) → q.wc = some k := by
    intro k l hk
    have := hg.lists k l hk
    rw [listNames_eq, if_neg hq, hin, List.append_nil] at this
    simpa using this
  have key : ∀ k x y, q.wc ≠ some k → d.get k = some x → r.get k = some y → d'.get k = some x ∧ y = x := by
    intro k x y hk hx hy
    obtain ⟨z, hz⟩ := h3 k x y hx hy
    obtain ⟨e1, e2⟩ := comb_eq hz (by rintro ⟨a, b, rfl, rfl⟩; exact hk (hlist k b hy))
    refine ⟨?_, e2⟩
    rw [h4 k, hx, hlr, hy]
    simp only [comb?]
    rw [hz, e1]
  refine ⟨h1, h2, ?_, ?_, ?_, ?_⟩
  · intro n hn
    have hr := how n hn
    rw [if_neg hq] at hr
    rw [h4 n, hlr, hr]
    rcases hown n hn with h5 | ⟨h5, h6⟩
    · rw [h5]
      simp only [comb?, comb, app]
      split
      · rfl
      · rw [if_pos (by omega)]
        simp
    · rw [h6, h5]
      simp [comb?, app]
  · intro k v hk hv
    cases hy : r.get k with
    | none => rw [h4 k, hv, hlr, hy]; rfl
    | some y => exact (key k v y hk hv hy).1
  · intro k v hk hv
    cases hx : d.get k with
    | none => rw [h4 k, hx, hlr, hv]; rfl
    | some x => rw [(key k x v hk hx hv).1, (key k x v hk hx hv).2]
  · intro k v hk hv
    cases hx : d.get k with
    | none => right; rw [h4 k, hx, hlr] at hv; exact hv
    | some x =>
      cases hy : r.get k with
      | none => left; rw [h4 k, hx, hlr, hy] at hv; exact hv
      | some y => left; rw [← hv, (key k x y hk hx hy).1]

theorem step_ok {q : Pat} {d r : MD} {a : Ex} {L : List Ex} (hq : q.mode ≠ .single) (hg : Good q r) (how : OwnName r.get q a)
    (hmg : d.merge ≠ 0) (hown : OwnIs d q L) (h : ∀ k x y, q.wc ≠ some k → d.get k = some x → r.get k = some y → x = y) :
    ∃ d', d.update r.items = some d' := by
  apply (MD.update_spec r.items d hg.nodup).2
  intro k x y hx hy
  by_cases hk : q.wc = some k
  · have hr := how k hk
    rw [if_neg hq] at hr
    have hy' : r.get k = some y := hy
    rw [hr] at hy'
    injection hy' with hy'
    rcases hown k hk with h5 | ⟨h5, h6⟩
    · rw [h5] at hx
      injection hx with hx
      rw [← hx, ← hy']
      simp only [comb]
      split
      · exact ⟨_, rfl⟩
      · rw [if_pos (by omega)]; exact ⟨_, rfl⟩
    · rw [h6] at hx; cases hx
  · rw [h k x y hk hx hy]
    exact comb_self _ _

/-! ### equality of patterns -/

mutual
theorem Pat.peq_self : ∀ p : Pat, p.peq p = true
  | .expr e => by simp [Pat.peq]
  | .pat h ha as ks ps m w c => by simp [Pat.peq, Pat.peqL_self as, Pat.peqL_self ps]
theorem Pat.peqL_self : ∀ p : List Pat, Pat.peqL p p = true
  | [] => by simp [Pat.peqL]
  | p :: ps => by simp [Pat.peqL, Pat.peq_self p, Pat.peqL_self ps]
end

theorem Pat.peq_mode {p q : Pat} (h : p.peq q = true) : p.mode = q.mode := by
  cases p <;> cases q <;> simp [Pat.peq, Pat.mode] at *
  exact h.1.1.2

theorem checkLast_self {q : Pat} (hq : q.mode ≠ .single) (d : MD) : checkLast q q d = some d := by
  cases q with
  | expr e => simp [Pat.mode] at hq
  | pat h ha as ks ps m w c =>
    cases m with
    | single => simp [Pat.mode] at hq
    | oneOrMore => simp [checkLast, Pat.peq_self]
    | zeroOrMore => cases w <;> simp [checkLast, Pat.peq_self]

theorem checkLast_single {q c : Pat} (hq : q.mode ≠ .single) (hc : c.mode = .single) (d : MD) :
    checkLast q c d = match q.mode with
      | .zeroOrMore => (match q.wc with | none => some d | some n => d.set n (.many []))
      | _ => none := by
  have hne : q.peq c = false := by
    cases h : q.peq c with
    | false => rfl
    | true => rw [Pat.peq_mode h] at hq; exact absurd hc hq
  cases q with
  | expr e => simp [Pat.mode] at hq
  | pat h ha as ks ps m w cc =>
    cases m with
    | single => simp [Pat.mode] at hq
    | oneOrMore => simp [checkLast, hne, Pat.mode]
    | zeroOrMore => cases w <;> simp [checkLast, hne, Pat.mode, Pat.wc]

end QNET.Pattern
