import Mathlib.Data.List.Basic
import Verif.Cache.Key

/-!
# C23: instance caching

Model of `Expression.create` (`src/qnet/algebra/core/abstract_algebra.py`, lines 104-186), of the flag `instance_caching` and of
`no_instance_caching` (`src/qnet/algebra/toolbox/core.py`, lines 13-27).
-/

namespace QNET.Cache

variable {Call Val Err K : Type} [DecidableEq K]

/-- What `create` does after the look-up in the cache: the simplifications (and the constructor), as a program that may call `create` of
any class again, look at the results (a value or an exception), and finally return or raise. -/
inductive Comp (Call Val Err : Type) where
  | ret (r : Except Err Val)
  | call (c : Call) (k : Except Err Val → Comp Call Val Err)

/-- The dictionaries `_instances`. The first component of every key is the class, so that one dictionary is enough. The class attribute
`_create_idempotent` is `False` for all classes of the library, and the branches for it (lines 161-168, 179-182) are not modelled. -/
abbrev Cache (K Val : Type) := List (K × Val)

/-- `cls._instances[key] = simplified` if `instance_caching`, lines 158-159, 177-178; nothing if an exception is raised. -/
def store (on : Bool) (k : K) (r : Except Err Val) (ca : Cache K Val) : Cache K Val :=
  match on, r with
  | true, .ok v => (k, v) :: ca
  | _, _ => ca

mutual
/-- `Run on ca c r ca'`: with the caching flag `on` and the cache `ca`, the call `c` has the result `r` and leaves the cache `ca'`
(lines 104-186). -/
inductive Run (code : Call → Comp Call Val Err) (key : Call → K) (on : Bool) : Cache K Val → Call → Except Err Val → Cache K Val → Prop
  | hit {ca c v} : on = true → ca.lookup (key c) = some v → Run code key on ca c (.ok v) ca
  | miss {ca c r ca'} : (on = true → ca.lookup (key c) = none) → RunC code key on ca (code c) r ca' →
      Run code key on ca c r (store on (key c) r ca')
/-- the same for programs -/
inductive RunC (code : Call → Comp Call Val Err) (key : Call → K) (on : Bool) : Cache K Val → Comp Call Val Err → Except Err Val → Cache K Val → Prop
  | ret {ca r} : RunC code key on ca (.ret r) r ca
  | call {ca c k r1 ca1 r2 ca2} : Run code key on ca c r1 ca1 → RunC code key on ca1 (k r1) r2 ca2 → RunC code key on ca (.call c k) r2 ca2
end

mutual
/-- A call without any caches. -/
inductive Fresh (code : Call → Comp Call Val Err) : Call → Except Err Val → Prop
  | mk {c r} : FreshC code (code c) r → Fresh code c r
/-- A program without any caches. -/
inductive FreshC (code : Call → Comp Call Val Err) : Comp Call Val Err → Except Err Val → Prop
  | ret {r} : FreshC code (.ret r) r
  | call {c k r1 r2} : Fresh code c r1 → FreshC code (k r1) r2 → FreshC code (.call c k) r2
end

/-- A user's actions: calls of `create`, and setting the flag (directly or by entering or leaving `no_instance_caching()`). -/
inductive Act (Call : Type) where
  | create (c : Call)
  | caching (b : Bool)

/-- A history of actions with the results of its calls. -/
inductive History (code : Call → Comp Call Val Err) (key : Call → K) : Bool → Cache K Val → List (Act Call) → List (Call × Except Err Val) → Bool → Cache K Val → Prop
  | nil {on ca} : History code key on ca [] [] on ca
  | create {on ca c r ca1 l rs on2 ca2} : Run code key on ca c r ca1 → History code key on ca1 l rs on2 ca2 →
      History code key on ca (.create c :: l) ((c, r) :: rs) on2 ca2
  | caching {on ca b l rs on2 ca2} : History code key b ca l rs on2 ca2 → History code key on ca (.caching b :: l) rs on2 ca2

/-- Results are related if both are values that are related, or both are the same exception. -/
def RelRes (rv : Val → Val → Prop) : Except Err Val → Except Err Val → Prop
  | .ok v, .ok w => rv v w
  | .error e, .error f => e = f
  | _, _ => False

/-- Two programs do the same up to related calls and values. -/
def CompEq (rc : Call → Call → Prop) (rv : Val → Val → Prop) : Comp Call Val Err → Comp Call Val Err → Prop
  | .ret r, .ret s => RelRes rv r s
  | .call c k, .call d k' => rc c d ∧ ∀ r s, RelRes rv r s → CompEq rc rv (k r) (k' s)
  | _, _ => False

/-- `==` (`rv` on expressions, `rc` on the arguments of calls) is an equivalence that is respected by all simplifications, and calls have
equal keys only if their arguments are `==`. -/
structure Respects (code : Call → Comp Call Val Err) (key : Call → K) (rc : Call → Call → Prop) (rv : Val → Val → Prop) : Prop where
  equivC : Equivalence rc
  equivV : Equivalence rv
  code : ∀ c d, rc c d → CompEq rc rv (code c) (code d)
  key : ∀ c d, key c = key d → rc c d

section proofs

variable {code : Call → Comp Call Val Err} {key : Call → K} {rc : Call → Call → Prop} {rv : Val → Val → Prop}

theorem RelRes.refl (h : Equivalence rv) (r : Except Err Val) : RelRes rv r r := by
  cases r with
  | ok v => exact h.refl v
  | error e => rfl

theorem RelRes.symm (h : Equivalence rv) {r s : Except Err Val} (hrs : RelRes rv r s) : RelRes rv s r := by
  cases r <;> cases s <;> simp only [RelRes] at hrs ⊢
  · exact hrs.symm
  · exact h.symm hrs

theorem RelRes.trans (h : Equivalence rv) {r s t : Except Err Val} (h1 : RelRes rv r s) (h2 : RelRes rv s t) : RelRes rv r t := by
  cases r <;> cases s <;> cases t <;> simp only [RelRes] at h1 h2 ⊢
  · exact h1.trans h2
  · exact h.trans h1 h2

mutual
/-- related calls have related results without caches -/
theorem fresh_congr (H : Respects code key rc rv) {c d : Call} {r : Except Err Val} (hcd : rc c d) :
    Fresh code c r → ∃ s, Fresh code d s ∧ RelRes rv r s
  | .mk h => by
    obtain ⟨s, h1, h2⟩ := freshC_congr H (H.code c d hcd) h
    exact ⟨s, .mk h1, h2⟩
theorem freshC_congr (H : Respects code key rc rv) {p q : Comp Call Val Err} {r : Except Err Val} (hpq : CompEq rc rv p q) :
    FreshC code p r → ∃ s, FreshC code q s ∧ RelRes rv r s
  | .ret => by
    cases q with
    | ret s => exact ⟨s, .ret, hpq⟩
    | call => exact hpq.elim
  | .call h1 h2 => by
    cases q with
    | ret s => exact hpq.elim
    | call d k' =>
      obtain ⟨hcd, hk⟩ := hpq
      obtain ⟨s1, f1, e1⟩ := fresh_congr H hcd h1
      obtain ⟨s2, f2, e2⟩ := freshC_congr H (hk _ _ e1) h2
      exact ⟨s2, .call f1 f2, e2⟩
end

mutual
/-- without caches, the result of a call is unique -/
theorem fresh_det {c : Call} {r s : Except Err Val} : Fresh code c r → Fresh code c s → r = s
  | .mk h, .mk h' => freshC_det h h'
theorem freshC_det {p : Comp Call Val Err} {r s : Except Err Val} : FreshC code p r → FreshC code p s → r = s
  | .ret, h => by cases h; rfl
  | .call h1 h2, h => by
    cases h with
    | call h1' h2' =>
      have := fresh_det h1 h1'
      subst this
      exact freshC_det h2 h2'
end

/-- every entry is, up to `==`, what a fresh call with that key would return -/
def SoundCache (code : Call → Comp Call Val Err) (key : Call → K) (rv : Val → Val → Prop) (ca : Cache K Val) : Prop :=
  ∀ c v, ca.lookup (key c) = some v → ∃ w, Fresh code c (.ok w) ∧ rv v w

theorem soundCache_store (H : Respects code key rc rv) {on : Bool} {c : Call} {r s : Except Err Val} {ca : Cache K Val}
    (hs : SoundCache code key rv ca) (hf : Fresh code c s) (hrs : RelRes rv r s) : SoundCache code key rv (store on (key c) r ca) := by
  cases on with
  | false => cases r <;> exact hs
  | true =>
    cases r with
    | error e => exact hs
    | ok v =>
      intro d w hw
      simp only [store, List.lookup_cons] at hw
      split at hw
      · rename_i hk
        injection hw with hw
        subst hw
        have hkey : key d = key c := by simpa using hk
        obtain ⟨t, ht, hst⟩ := fresh_congr H (H.key c d hkey.symm) hf
        have := hrs.trans H.equivV hst
        cases t with
        | error => exact this.elim
        | ok x => exact ⟨x, ht, this⟩
      · exact hs d w hw

mutual
theorem run_sound (H : Respects code key rc rv) {on : Bool} {ca ca' : Cache K Val} {c d : Call} {r : Except Err Val}
    (hs : SoundCache code key rv ca) (hcd : rc c d) : Run code key on ca c r ca' →
    (∃ s, Fresh code d s ∧ RelRes rv r s) ∧ SoundCache code key rv ca'
  | .hit _ hl => by
    obtain ⟨w, hw, hvw⟩ := hs c _ hl
    obtain ⟨s, hs', hws⟩ := fresh_congr H hcd hw
    exact ⟨⟨s, hs', RelRes.trans H.equivV (s := .ok w) hvw hws⟩, hs⟩
  | .miss _ h => by
    obtain ⟨⟨s, h1, h2⟩, h3⟩ := runC_sound H hs (H.code c c (H.equivC.refl c)) h
    obtain ⟨t, h4, h5⟩ := fresh_congr H hcd (.mk h1)
    exact ⟨⟨t, h4, h2.trans H.equivV h5⟩, soundCache_store H h3 (.mk h1) h2⟩
theorem runC_sound (H : Respects code key rc rv) {on : Bool} {ca ca' : Cache K Val} {p q : Comp Call Val Err} {r : Except Err Val}
    (hs : SoundCache code key rv ca) (hpq : CompEq rc rv p q) : RunC code key on ca p r ca' →
    (∃ s, FreshC code q s ∧ RelRes rv r s) ∧ SoundCache code key rv ca'
  | .ret => by
    cases q with
    | ret s => exact ⟨⟨s, .ret, hpq⟩, hs⟩
    | call => exact hpq.elim
  | .call h1 h2 => by
    cases q with
    | ret => exact hpq.elim
    | call d k' =>
      obtain ⟨hcd, hk⟩ := hpq
      obtain ⟨⟨s1, f1, e1⟩, g1⟩ := run_sound H hs hcd h1
      obtain ⟨⟨s2, f2, e2⟩, g2⟩ := runC_sound H g1 (hk _ _ e1) h2
      exact ⟨⟨s2, .call f1 f2, e2⟩, g2⟩
end

mutual
/-- if the call ends without caches, it ends with caches -/
theorem run_complete (H : Respects code key rc rv) {on : Bool} {ca : Cache K Val} {c d : Call} {s : Except Err Val}
    (hs : SoundCache code key rv ca) (hdc : rc d c) : Fresh code d s → ∃ r ca', Run code key on ca c r ca'
  | .mk h => by
    cases on with
    | false =>
      obtain ⟨r, ca', h'⟩ := runC_complete H (on := false) hs (H.code d c hdc) h
      exact ⟨r, _, .miss (by simp) h'⟩
    | true =>
      cases hl : ca.lookup (key c) with
      | some v => exact ⟨_, _, .hit rfl hl⟩
      | none =>
        obtain ⟨r, ca', h'⟩ := runC_complete H (on := true) hs (H.code d c hdc) h
        exact ⟨r, _, .miss (fun _ => hl) h'⟩
theorem runC_complete (H : Respects code key rc rv) {on : Bool} {ca : Cache K Val} {p q : Comp Call Val Err} {s : Except Err Val}
    (hs : SoundCache code key rv ca) (hqp : CompEq rc rv q p) : FreshC code q s → ∃ r ca', RunC code key on ca p r ca'
  | .ret => by
    cases p with
    | ret r => exact ⟨_, _, .ret⟩
    | call => exact hqp.elim
  | .call h1 h2 => by
    cases p with
    | ret => exact hqp.elim
    | call c k' =>
      obtain ⟨hcd, hk⟩ := hqp
      obtain ⟨r1, ca1, g1⟩ := run_complete H (on := on) hs hcd h1
      obtain ⟨⟨s1, f1, e1⟩, hs1⟩ := run_sound H hs (H.equivC.symm hcd) g1
      rw [fresh_det f1 h1] at e1
      obtain ⟨r2, ca2, g2⟩ := runC_complete H (on := on) hs1 (hk _ _ (e1.symm H.equivV)) h2
      exact ⟨r2, ca2, .call g1 g2⟩
end

theorem history_sound (H : Respects code key rc rv) {on on' : Bool} {ca ca' : Cache K Val} {l : List (Act Call)} {rs : List (Call × Except Err Val)}
    (h : History code key on ca l rs on' ca') : SoundCache code key rv ca →
    (∀ p ∈ rs, ∃ s, Fresh code p.1 s ∧ RelRes rv p.2 s) ∧ SoundCache code key rv ca' := by
  induction h with
  | nil => intro hs; exact ⟨by simp, hs⟩
  | create h1 _ ih =>
    intro hs
    obtain ⟨h3, h4⟩ := run_sound H hs (H.equivC.refl _) h1
    obtain ⟨h5, h6⟩ := ih h4
    refine ⟨?_, h6⟩
    intro p hp
    rcases List.mem_cons.mp hp with rfl | hp
    · exact h3
    · exact h5 p hp
  | caching _ ih => exact ih

/-- C23 (partial: for simplifications that respect `==`, see `C23_feedback_refuted` for one that does not): in any history of `create`
calls that begins with an empty cache, with the caching switched on and off at any time, each call has the result - up to `==` - of a fresh
call without caches; exceptions are the same. -/
theorem C23_transparent_partial (H : Respects code key rc rv) (on : Bool) (l : List (Act Call)) {rs : List (Call × Except Err Val)} {on' : Bool}
    {ca' : Cache K Val} (h : History code key on [] l rs on' ca') : ∀ p ∈ rs, ∃ s, Fresh code p.1 s ∧ RelRes rv p.2 s :=
  (history_sound H h (fun c v hv => by simp at hv)).1

/-- C23: and caching does not make a call hang: if a call ends without caches, it ends after any history. -/
theorem C23_terminates_partial (H : Respects code key rc rv) (on : Bool) (l : List (Act Call)) {rs : List (Call × Except Err Val)} {on' : Bool}
    {ca' : Cache K Val} (h : History code key on [] l rs on' ca') {c : Call} {s : Except Err Val} (hf : Fresh code c s) :
    ∃ r ca'', Run code key on' ca' c r ca'' ∧ RelRes rv r s := by
  have hs := (history_sound H h (fun c v hv => by simp at hv)).2
  obtain ⟨r, ca'', h1⟩ := run_complete H (on := on') hs (H.equivC.refl c) hf
  obtain ⟨⟨s', f, e⟩, -⟩ := run_sound H hs (H.equivC.refl c) h1
  exact ⟨r, ca'', h1, fresh_det hf f ▸ e⟩

/-- C23, when the key determines the arguments (as for calls in the scope of `C45_injective_partial`): results are exactly the same. -/
theorem C23_exact (hk : Function.Injective key) (on : Bool) (l : List (Act Call)) {rs : List (Call × Except Err Val)} {on' : Bool}
    {ca' : Cache K Val} (h : History code key on [] l rs on' ca') : ∀ p ∈ rs, Fresh code p.1 p.2 := by
  have hrel : ∀ r s : Except Err Val, RelRes Eq r s → r = s := by
    intro r s h; cases r <;> cases s <;> simp_all [RelRes]
  have hcomp : ∀ p : Comp Call Val Err, CompEq Eq Eq p p := by
    intro p
    induction p with
    | ret r => exact RelRes.refl ⟨fun _ => rfl, fun h => h.symm, fun h h' => h.trans h'⟩ r
    | call c k ih => exact ⟨rfl, fun r s hrs => by rw [← hrel r s hrs]; exact ih r⟩
  have H : Respects code key Eq Eq := ⟨eq_equivalence, eq_equivalence, fun c d e => e ▸ hcomp _, fun c d e => hk e⟩
  intro p hp
  obtain ⟨s, h1, h2⟩ := C23_transparent_partial H on l h p hp
  rw [hrel _ _ h2]; exact h1

end proofs

/-! ### a concrete case -/

/-- a recursive class: `create(n, tag)` calls `create(n - 1, tag)`; the result does not depend on the tag, which is not in the key -/
def toy : ℕ × Bool → Comp (ℕ × Bool) ℕ Unit
  | (0, _) => .ret (.ok 0)
  | (n + 1, b) => .call (n, b) (fun r => .ret (r.map (· + 1)))

theorem toy_respects : Respects toy Prod.fst (fun c d => c.1 = d.1) Eq := by
  refine ⟨⟨fun _ => rfl, fun h => h.symm, fun h h' => h.trans h'⟩, eq_equivalence, ?_, fun _ _ h => h⟩
  rintro ⟨n, b⟩ ⟨m, b'⟩ (rfl : n = m)
  cases n with
  | zero => rfl
  | succ n =>
    refine ⟨rfl, ?_⟩
    intro r s h
    cases r <;> cases s <;> simp_all [RelRes, CompEq, Except.map]

example : ∃ ca, History toy Prod.fst true [] [.create (1, true), .caching false, .create (1, false), .caching true, .create (1, false)]
    [((1, true), .ok 1), ((1, false), .ok 1), ((1, false), .ok 1)] true ca := by
  refine ⟨_, .create (.miss (by simp) (.call (.miss (by simp) .ret) .ret)) (.caching (.create (.miss (by simp) (.call (.miss (by simp) .ret) .ret))
    (.caching (.create (.hit rfl rfl) .nil))))⟩

end QNET.Cache
