import Verif.Indexed.Thm81
import Mathlib.Algebra.Field.Basic
import Mathlib.Algebra.Field.Rat

/-!
# C99: integer powers of an indexed sum of scalars

`ScalarIndexedSum.__pow__` multiplies the sum by itself, each time with new (primed) indices.
-/

namespace QNET.Indexed

/-! ### model -/

/-- the result of `__pow__` -/
inductive PowRes where
  /-- the scalar `One` -/
  | one
  /-- a scalar expression -/
  | term (t : Term)
  /-- `ScalarPower(t, -1)` -/
  | inv (t : Term)
  deriving DecidableEq

/-- the loop of `ScalarIndexedSum.__pow__` (`scalar_algebra.py`, lines 1022-1025): `res = self`, then `k` times `res = res * self`. The
product of two indexed sums is that of `QuantumIndexedSum.__mul__`. Simplification: if a product were not an indexed sum (then it would be multiplied
differently) an exception is raised; by `powLoop_spec` that does not happen for the sums of the theorems. -/
def powLoop (create : Term → List Range → Res Term) (t : Term) (rs : List Range) : ℕ → Res Term
  | 0 => .ok (.sum t rs)
  | k + 1 => do
    match ← powLoop create t rs k with
    | .sum t' rs' => sumMulSum create t' rs' t rs
    | _ => .error .attributeError

/-- `ScalarIndexedSum.__pow__` (`scalar_algebra.py`, lines 1011-1030) for an exponent of type `int`. `1 / x` is `ScalarPower.create(x, -1)`
(`Scalar.__rtruediv__`, lines 142-148). Exponents that are not whole numbers give `ScalarPower(self, other)` (line 1030) and are not modelled. -/
def sumPow (create : Term → List Range → Res Term) (t : Term) (rs : List Range) (z : ℤ) : Res PowRes :=
  if z = 0 then .ok .one
  else if z = 1 then .ok (.term (.sum t rs))
  else if z > 1 then (powLoop create t rs (z - 1).toNat).map .term
  else if -z = 1 then .ok (.inv (.sum t rs))
  else (powLoop create t rs (-z - 1).toNat).map .inv

/-- the same for a whole number of type `float` (or a wrapped number): `range(other - 1)` raises `TypeError` -/
def sumPowFloat (t : Term) (rs : List Range) (z : ℤ) : Res PowRes :=
  if z = 0 then .ok .one
  else if z = 1 then .ok (.term (.sum t rs))
  else if z > 1 then .error .typeError
  else if -z = 1 then .ok (.inv (.sum t rs))
  else .error .typeError

/-- `ScalarIndexedSum.create` (simplifications, `scalar_algebra.py` lines 948-951): `assoc_indexed` and `indexed_sum_over_const`. Simplification: without
`indexed_sum_over_kronecker` (C47), which does not change terms without Kronecker deltas. -/
def scalarCreate (t : Term) (rs : List Range) : Res Term := assocIndexed createConst t rs

/-! ### specification -/

/-- the value, in a field -/
def PowRes.eval {S R : Type} [CommSemiring S] [Field R] [Algebra S R] (I : Interp S R) : PowRes → Env → R
  | .one, _ => 1
  | .term t, ρ => t.eval I ρ
  | .inv t, ρ => (t.eval I ρ)⁻¹

/-- the sum of `t` over `rs`: the indices have different names; every index occurs in the term (otherwise `create` would have taken it out of
the sum); no other index symbol in the term, and no index of a sum inside of the term, has one of these names -/
structure Clean (t : Term) (rs : List Range) : Prop where
  nonempty : rs ≠ []
  names : (rs.map (fun r => r.sym.name)).Nodup
  occur : ∀ s ∈ rs.map Range.sym, s ∈ t.free
  others : ∀ s ∈ t.free, s.name ∈ rs.map (fun r => r.sym.name) → s ∈ rs.map Range.sym
  inner : ∀ s ∈ t.bound, s.name ∉ rs.map (fun r => r.sym.name)
  wf : t.WF

/-- `s` with `k` more primes -/
def Sym.shift (k : ℕ) (s : Sym) : Sym := ⟨s.name, s.primed + k⟩

/-! ### renaming always works -/

theorem substRanges_rename {i n : Sym} : ∀ (rs : List Range), ∃ rs', substRanges (single i (.sym n)) rs = .ok rs' ∧
    rs'.map Range.sym = (rs.map Range.sym).map (fun s => if s = i then n else s) ∧ rs'.map Range.values = rs.map Range.values
  | [] => ⟨[], rfl, rfl, rfl⟩
  | r :: rs => by
    obtain ⟨rs', h1, h2, h3⟩ := substRanges_rename (i := i) (n := n) rs
    obtain ⟨r', hr⟩ : ∃ r', r.subst (single i (.sym n)) = .ok r' := by
      unfold Range.subst single
      by_cases h : r.sym = i
      · simp only [h, if_true, Option.getD_some]
        cases r <;> exact ⟨_, rfl⟩
      · simp only [h, if_false, Option.getD_none]
        cases r <;> exact ⟨_, rfl⟩
    refine ⟨r' :: rs', ?_, ?_, ?_⟩
    · unfold substRanges at h1 ⊢
      rw [List.mapM_cons, hr]
      simp only [bind, Except.bind]
      rw [h1]
      rfl
    · simp only [List.map_cons, h2, (Range.subst_single hr).1]
    · simp only [List.map_cons, h3, (Range.subst_single hr).2]

theorem rename_ok {i n : Sym} : ∀ (t : Term), t.WF → i ∉ t.bound → n ∉ t.bound → ∃ t', t.subst (single i (.sym n)) = .ok t' ∧ t'.WF ∧ t'.bound = t.bound
  | .fn f xs, hw, hi, hn => ⟨_, rfl, trivial, rfl⟩
  | .scal c xs t, hw, hi, hn => by
    obtain ⟨u, h1, h2, h3⟩ := rename_ok t hw hi hn
    exact ⟨.scal c (xs.map (Ix.subst (single i (.sym n)))) u, by rw [Term.subst, h1]; rfl, h2, h3⟩
  | .delta a b t, hw, hi, hn => by
    obtain ⟨u, h1, h2, h3⟩ := rename_ok t hw hi hn
    exact ⟨.delta (a.subst (single i (.sym n))) (b.subst (single i (.sym n))) u, by rw [Term.subst, h1]; rfl, h2, h3⟩
  | .pw r x t, hw, hi, hn => by
    obtain ⟨u, h1, h2, h3⟩ := rename_ok t hw hi hn
    exact ⟨.pw r (x.subst (single i (.sym n))) u, by rw [Term.subst, h1]; rfl, h2, h3⟩
  | .nmul m t, hw, hi, hn => by
    obtain ⟨u, h1, h2, h3⟩ := rename_ok t hw hi hn
    exact ⟨.nmul m u, by rw [Term.subst, h1]; rfl, h2, h3⟩
  | .add a b, hw, hi, hn => by
    simp only [Term.bound, List.mem_append, not_or] at hi hn
    obtain ⟨u, h1, h2, h3⟩ := rename_ok a hw.1 hi.1 hn.1
    obtain ⟨v, k1, k2, k3⟩ := rename_ok b hw.2 hi.2 hn.2
    exact ⟨.add u v, by rw [Term.subst, h1, k1]; rfl, ⟨h2, k2⟩, by simp only [Term.bound, h3, k3]⟩
  | .mul a b, hw, hi, hn => by
    simp only [Term.bound, List.mem_append, not_or] at hi hn
    obtain ⟨u, h1, h2, h3⟩ := rename_ok a hw.1 hi.1 hn.1
    obtain ⟨v, k1, k2, k3⟩ := rename_ok b hw.2 hi.2 hn.2
    exact ⟨.mul u v, by rw [Term.subst, h1, k1]; rfl, ⟨h2, k2⟩, by simp only [Term.bound, h3, k3]⟩
  | .sum t rs, hw, hi, hn => by
    simp only [Term.bound, List.mem_append, not_or] at hi hn
    obtain ⟨u, h1, h2, h3⟩ := rename_ok t hw.1 hi.1 hn.1
    have hr : substRanges (single i (.sym n)) rs = .ok rs := substRanges_id (fun s hs => by
      unfold single
      rw [if_neg]
      rintro rfl
      exact hi.2 hs)
    refine ⟨.sum u rs, ?_, ⟨h2, hw.2⟩, by simp only [Term.bound, h3]⟩
    rw [Term.subst, h1, hr]
    show mkSum u rs = _
    rw [mkSum, if_pos hw.2]

theorem rename_free {i n : Sym} {t t' : Term} (h : t.subst (single i (.sym n)) = .ok t') (hi : i ∉ t.bound) (hn : n ∉ t.bound) (s : Sym) :
    s ∈ t'.free ↔ ∃ k ∈ t.free, s = if k = i then n else k := by
  have hs : Safe (single i (.sym n)) t := by
    intro s hs
    have hsi : s ≠ i := fun hc => hi (hc ▸ hs)
    have hsn : s ≠ n := fun hc => hn (hc ▸ hs)
    refine ⟨by simp [single, hsi], fun k _ x hx => ?_⟩
    unfold single at hx
    split at hx
    · cases hx
      simpa [Ix.syms] using hsn
    · cases hx
  rw [free_safe t t' h hs s]
  refine exists_congr fun k => and_congr_right fun _ => ?_
  unfold single
  split
  · simp [Ix.syms]
  · simp [Ix.syms]

/-! ### new names -/

theorem primeLoop_name (X : List Sym) : ∀ (n : ℕ) (s : Sym), (primeLoop X n s).name = s.name
  | 0, _ => rfl
  | n + 1, s => by
    unfold primeLoop
    split
    · exact primeLoop_name X n s.incr
    · rfl

theorem fresh_name (X : List Sym) (s : Sym) : (fresh X s).name = s.name := primeLoop_name X _ s

theorem primeLoop_shift (X : List Sym) : ∀ (n k : ℕ) (s : Sym), k ≤ n → (∀ j < k, s.shift j ∈ X) → s.shift k ∉ X → primeLoop X n s = s.shift k
  | 0, k, s, hk, _, _ => by
    have : k = 0 := by omega
    subst this
    rfl
  | n + 1, 0, s, _, _, h => by
    unfold primeLoop
    rw [if_neg (by simpa [Sym.shift] using h)]
    rfl
  | n + 1, k + 1, s, hk, h1, h2 => by
    unfold primeLoop
    rw [if_pos (by simpa [Sym.shift] using h1 0 (by omega))]
    have hsh : ∀ j, s.incr.shift j = s.shift (j + 1) := fun j => by simp [Sym.incr, Sym.shift, Nat.add_assoc, Nat.add_comm 1 j]
    rw [primeLoop_shift X n k s.incr (by omega) (fun j hj => by rw [hsh]; exact h1 _ (by omega)) (by rw [hsh]; exact h2), hsh]

theorem shift_inj {s : Sym} {j k : ℕ} (h : s.shift j = s.shift k) : j = k := by
  simp only [Sym.shift, Sym.mk.injEq, true_and] at h
  omega

theorem fresh_shift {X : List Sym} {k : ℕ} {s : Sym} (h1 : ∀ j < k, s.shift j ∈ X) (h2 : s.shift k ∉ X) : fresh X s = s.shift k := by
  refine primeLoop_shift X X.length k s ?_ h1 h2
  have hn : ((List.range k).map (fun j => s.shift j)).Nodup := List.Nodup.map (fun a b hab => shift_inj hab) List.nodup_range
  have hsub : ((List.range k).map (fun j => s.shift j)) ⊆ X := by
    intro x hx
    obtain ⟨j, hj, rfl⟩ := List.mem_map.1 hx
    exact h1 j (List.mem_range.1 hj)
  have := (List.subperm_of_subset hn hsub).length_le
  simpa using this

/-! ### the loop of `make_disjunct_indices` -/

theorem names_of_syms (rs : List Range) : rs.map (fun r => r.sym.name) = (rs.map Range.sym).map Sym.name := by
  rw [List.map_map]; rfl

theorem nodup_of_names {rs : List Range} (h : (rs.map (fun r => r.sym.name)).Nodup) : (rs.map Range.sym).Nodup := by
  rw [names_of_syms] at h
  exact List.Nodup.of_map _ h

theorem disjunctLoop_ok (X : List Sym) (N : List ℕ) : ∀ (todo : List Range) (u : Term) (qs : List Range), u.WF →
    (∀ s ∈ u.bound, s.name ∉ N) → qs.map (fun r => r.sym.name) = N → N.Nodup → (todo.map Range.sym).Nodup → (∀ r ∈ todo, r.sym ∈ qs.map Range.sym) →
    ∃ u' qs', disjunctLoop X todo (.sum u qs) = .ok (.sum u' qs') ∧ u'.WF ∧ u'.bound = u.bound ∧
      (∀ s ∈ u'.free, s ∈ qs'.map Range.sym ∨ (s ∈ u.free ∧ s ∉ qs.map Range.sym)) ∧
      ((∀ s ∈ qs.map Range.sym, s ∈ u.free) → ∀ s ∈ qs'.map Range.sym, s ∈ u'.free)
  | [], u, qs, hw, _, _, _, _, _ => ⟨u, qs, rfl, hw, rfl, fun s hs => by
      by_cases h : s ∈ qs.map Range.sym
      · exact .inl h
      · exact .inr ⟨hs, h⟩, fun h => h⟩
  | r :: todo, u, qs, hw, hb, hN, hnd, htn, ht => by
    simp only [List.map_cons, List.nodup_cons] at htn
    unfold disjunctLoop
    split
    · have hrq := ht r (by simp)
      have hr : r.sym.name ∈ N := by
        rw [← hN, names_of_syms]
        exact List.mem_map.2 ⟨_, hrq, rfl⟩
      have hi : r.sym ∉ u.bound := fun h => hb _ h hr
      have hn : fresh X r.sym ∉ u.bound := fun h => hb _ h (by rw [fresh_name]; exact hr)
      obtain ⟨u1, h1, h2, h3⟩ := rename_ok (i := r.sym) (n := fresh X r.sym) u hw hi hn
      obtain ⟨qs1, k1, k2, _⟩ := substRanges_rename (i := r.sym) (n := fresh X r.sym) qs
      have hN1 : qs1.map (fun r => r.sym.name) = N := by
        rw [names_of_syms, k2, ← hN, names_of_syms, List.map_map]
        refine List.map_congr_left fun s _ => ?_
        simp only [Function.comp]
        split
        · rename_i h; rw [fresh_name, h]
        · rfl
      have hsub : (Term.sum u qs).subst (single r.sym (.sym (fresh X r.sym))) = .ok (.sum u1 qs1) := by
        rw [Term.subst, h1, k1]
        show mkSum u1 qs1 = _
        rw [mkSum, if_pos (nodup_of_names (by rw [hN1]; exact hnd))]
      obtain ⟨u', qs', a1, a2, a3, a4, a5⟩ := disjunctLoop_ok X N todo u1 qs1 h2 (by rw [h3]; exact hb) hN1 hnd htn.2 (fun q hq => by
        rw [k2, List.mem_map]
        refine ⟨q.sym, ht q (by simp [hq]), if_neg ?_⟩
        intro hc
        exact htn.1 (hc ▸ List.mem_map.2 ⟨q, hq, rfl⟩))
      refine ⟨u', qs', ?_, a2, a3.trans h3, ?_, ?_⟩
      · rw [hsub]; exact a1
      · intro s hs
        rcases a4 s hs with h | ⟨h, hq⟩
        · exact .inl h
        · right
          obtain ⟨k, hk, rfl⟩ := (rename_free h1 hi hn s).1 h
          rw [k2, List.mem_map] at hq
          have hkq : k ∉ qs.map Range.sym := fun hc => hq ⟨k, hc, rfl⟩
          split at hq
          · rename_i hki
            subst hki
            exact absurd hrq hkq
          · rename_i hki
            rw [if_neg hki]
            exact ⟨hk, hkq⟩
      · intro hocc
        refine a5 fun s hs => ?_
        rw [k2, List.mem_map] at hs
        obtain ⟨k, hk, rfl⟩ := hs
        exact (rename_free h1 hi hn _).2 ⟨k, hocc k hk, rfl⟩
    · exact disjunctLoop_ok X N todo u qs hw hb hN hnd htn.2 (fun q hq => ht q (by simp [hq]))

/-! ### the powers -/

theorem overConst_keep {t : Term} {rs : List Range} (hne : rs ≠ []) (h : ∀ s ∈ rs.map Range.sym, s ∈ t.free) : overConst t rs = .sum t rs := by
  have key : ∀ (qs nrs : List Range), (∀ s ∈ qs.map Range.sym, s ∈ t.free) → qs.foldl (constStep t.free) (t, nrs) = (t, nrs ++ qs) := by
    intro qs
    induction qs with
    | nil => intro nrs _; simp
    | cons q qs ih =>
      intro nrs hq
      have h1 : constStep t.free (t, nrs) q = (t, nrs ++ [q]) := by
        unfold constStep
        rw [if_neg (by simpa using hq q.sym (by simp))]
      rw [List.foldl_cons, h1, ih _ (fun s hs => hq s (by simp only [List.map_cons, List.mem_cons]; exact .inr hs)), List.append_assoc]
      rfl
  unfold overConst
  simp only [key rs [] h, List.nil_append]
  rw [if_neg hne]

theorem sumMulSum_scalarCreate (t : Term) (rs : List Range) (u : Term) (qs : List Range) : sumMulSum scalarCreate t rs u qs = sumMulSum createConst t rs u qs := rfl

/-- the indices of the `k`-th power -/
def blocks (k : ℕ) (rs : List Range) : List Sym := (List.range k).flatMap (fun j => rs.map (fun r => r.sym.shift j))

theorem mem_blocks {k : ℕ} {rs : List Range} {s : Sym} : s ∈ blocks k rs ↔ ∃ j < k, ∃ r ∈ rs, s = r.sym.shift j := by
  unfold blocks
  simp only [List.mem_flatMap, List.mem_range, List.mem_map]
  constructor
  · rintro ⟨j, hj, r, hr, rfl⟩; exact ⟨j, hj, r, hr, rfl⟩
  · rintro ⟨j, hj, r, hr, rfl⟩; exact ⟨j, hj, r, hr, rfl⟩

theorem blocks_succ (k : ℕ) (rs : List Range) : blocks (k + 1) rs = blocks k rs ++ rs.map (fun r => r.sym.shift k) := by
  unfold blocks
  rw [List.range_succ, List.flatMap_append]
  simp

theorem sym_of_name {rs : List Range} (h : (rs.map (fun r => r.sym.name)).Nodup) {s s' : Sym} (h1 : s ∈ rs.map Range.sym) (h2 : s' ∈ rs.map Range.sym)
    (hn : s.name = s'.name) : s = s' := by
  rw [names_of_syms] at h
  exact List.inj_on_of_nodup_map h h1 h2 hn

theorem name_mem {rs : List Range} {s : Sym} (h : s ∈ rs.map Range.sym) : s.name ∈ rs.map (fun r => r.sym.name) := by
  rw [names_of_syms]
  exact List.mem_map.2 ⟨s, h, rfl⟩

theorem shift_not_mem_blocks {rs : List Range} (h : (rs.map (fun r => r.sym.name)).Nodup) {k j : ℕ} (hj : k ≤ j) {s : Sym} (hs : s ∈ rs.map Range.sym) :
    s.shift j ∉ blocks k rs := by
  intro hc
  obtain ⟨i, hi, r, hr, he⟩ := mem_blocks.1 hc
  have : s = r.sym := sym_of_name h hs (List.mem_map.2 ⟨r, hr, rfl⟩) (by
    have := congrArg Sym.name he
    exact this)
  subst this
  have := shift_inj he
  omega

theorem fresh_blocks {t : Term} {rs : List Range} (hc : Clean t rs) {k : ℕ} {s : Sym} (hs : s ∈ rs.map Range.sym) :
    fresh (blocks k rs) s = s.shift k := by
  refine fresh_shift (fun j hj => ?_) (shift_not_mem_blocks hc.names le_rfl hs)
  obtain ⟨r, hr, rfl⟩ := List.mem_map.1 hs
  exact mem_blocks.2 ⟨j, hj, r, hr, rfl⟩

section

variable {S R : Type} [CommSemiring S] [Semiring R] [Algebra S R]

theorem powLoop_spec (I : Interp S R) {t : Term} {rs : List Range} (hc : Clean t rs) : ∀ (k : ℕ), ∃ t' rs', powLoop scalarCreate t rs k = .ok (.sum t' rs') ∧
    (∀ ρ, (Term.sum t' rs').eval I ρ = (Term.sum t rs).eval I ρ ^ (k + 1)) ∧ rs'.map Range.sym = blocks (k + 1) rs ∧
    rs'.map Range.values = (List.replicate (k + 1) (rs.map Range.values)).flatten ∧
    (∀ s ∈ t'.free, s ∈ rs'.map Range.sym ∨ (s ∈ t.free ∧ s ∉ rs.map Range.sym)) ∧ (∀ s ∈ rs'.map Range.sym, s ∈ t'.free) ∧
    t'.WF ∧ ∀ s ∈ t'.bound, s ∈ t.bound
  | 0 => by
    refine ⟨t, rs, rfl, fun ρ => by simp, ?_, by simp, fun s hs => ?_, hc.occur, hc.wf, fun s hs => hs⟩
    · simp only [blocks, Nat.zero_add, List.range_one, List.flatMap_cons, List.flatMap_nil, List.append_nil]
      refine List.map_congr_left fun r _ => ?_
      simp [Sym.shift]
    · by_cases h : s ∈ rs.map Range.sym
      · exact .inl h
      · exact .inr ⟨hs, h⟩
  | k + 1 => by
    obtain ⟨t', rs', h1, h2, h3, h4, h5, h6, h7, h8⟩ := powLoop_spec I hc k
    have hnr := nodup_of_names hc.names
    obtain ⟨u', qs', a1, a2, a3, a4, a5⟩ := disjunctLoop_ok (rs'.map Range.sym) (rs.map (fun r => r.sym.name)) rs t rs hc.wf hc.inner rfl hc.names hnr
      (fun r hr => List.mem_map.2 ⟨r, hr, rfl⟩)
    have hun : NamesUnused (rs'.map Range.sym) t rs := by
      intro s hs _
      rw [h3, fresh_blocks hc hs]
      have hno : s.shift (k + 1) ∉ rs.map Range.sym := by
        intro hx
        have := sym_of_name hc.names hx hs rfl
        have := shift_inj (s := s) (j := k + 1) (k := 0) (by rw [this]; rfl)
        omega
      refine ⟨fun hx => ?_, hno⟩
      rcases (mem_allSyms t _).1 hx with hx | hx
      · exact hno (hc.others _ hx (name_mem (s := s) hs))
      · exact hc.inner _ hx (name_mem (s := s) hs)
    obtain ⟨u2, qs2, he, b1, b2, b3, b4, b5⟩ := C34_make_disjunct I hnr hun a1
    cases he
    have hsym : qs'.map Range.sym = rs.map (fun r => r.sym.shift (k + 1)) := by
      rw [b5, List.map_map]
      refine List.map_congr_left fun r hr => ?_
      have hs : r.sym ∈ rs.map Range.sym := List.mem_map.2 ⟨r, hr, rfl⟩
      simp only [Function.comp, newName]
      rw [h3, if_pos (mem_blocks.2 ⟨0, Nat.succ_pos k, r, hr, by simp [Sym.shift]⟩), fresh_blocks hc hs]
    have hne' : rs' ≠ [] := by
      rintro rfl
      obtain ⟨r, hr⟩ := List.exists_mem_of_ne_nil _ hc.nonempty
      have := mem_blocks (k := k + 1).2 ⟨0, by omega, r, hr, rfl⟩
      rw [← h3] at this
      simp at this
    have hnr' : (rs'.map Range.sym).Nodup := by
      rw [h3]
      clear * - hc
      induction k with
      | zero =>
        simp only [blocks, Nat.zero_add, List.range_one, List.flatMap_cons, List.flatMap_nil, List.append_nil]
        exact nodup_of_names hc.names
      | succ k ih =>
        rw [blocks_succ, List.nodup_append]
        refine ⟨ih, ?_, ?_⟩
        · have := hc.names
          refine List.Nodup.of_map Sym.name ?_
          rw [List.map_map]
          exact this
        · intro a ha b hb hab
          subst hab
          obtain ⟨r, hr, rfl⟩ := List.mem_map.1 hb
          exact shift_not_mem_blocks hc.names le_rfl (List.mem_map.2 ⟨r, hr, rfl⟩) ha
    have hno := nodup_append_ranges hnr' b1 b2
    have hocc : ∀ s ∈ (rs' ++ qs').map Range.sym, s ∈ (Term.mul t' u').free := by
      intro s hs
      rw [List.map_append, List.mem_append] at hs
      simp only [Term.free, List.mem_append]
      rcases hs with hs | hs
      · exact .inl (h6 s hs)
      · exact .inr (a5 hc.occur s hs)
    have hres : sumMulSum createConst t' rs' t rs = .ok (.sum (.mul t' u') (rs' ++ qs')) := by
      unfold sumMulSum makeDisjunct
      rw [a1]
      show createConst (.mul t' u') (rs' ++ qs') = _
      rw [createConst, if_pos hno, overConst_keep (by simp [hne']) hocc]
    refine ⟨.mul t' u', rs' ++ qs', ?_, ?_, ?_, ?_, ?_, hocc, ⟨h7, a2⟩, ?_⟩
    · rw [powLoop, h1]
      show sumMulSum scalarCreate t' rs' t rs = _
      rw [sumMulSum_scalarCreate, hres]
    · intro ρ
      have hf1 : ∀ s ∈ t'.free, s ∉ (rs.map Range.sym).map (newName (rs'.map Range.sym)) := by
        intro s hs hx
        have hx2 : s ∈ qs'.map Range.sym := by rw [b5]; exact hx
        rcases h5 s hs with h | ⟨h, h'⟩
        · exact b2 s hx2 h
        · rw [hsym] at hx2
          obtain ⟨r, hr, rfl⟩ := List.mem_map.1 hx2
          exact h' (hc.others _ h (name_mem (s := r.sym) (List.mem_map.2 ⟨r, hr, rfl⟩)))
      have hf2 : ∀ s ∈ (Term.sum t rs).free, s ∉ rs'.map Range.sym := by
        intro s hs hx
        simp only [Term.free, List.mem_filter, decide_eq_true_eq] at hs
        rw [h3] at hx
        obtain ⟨j, _, r, hr, rfl⟩ := mem_blocks.1 hx
        exact hs.2 (hc.others _ hs.1 (name_mem (s := r.sym) (List.mem_map.2 ⟨r, hr, rfl⟩)))
      rw [C34_product I (createOk_const I) hnr' hnr hne' hun hf1 hf2 hres ρ, h2, ← pow_succ]
    · rw [List.map_append, h3, hsym, ← blocks_succ]
    · rw [List.map_append, h4, b4, List.replicate_succ' (n := k + 1), List.flatten_append]
      simp
    · intro s hs
      simp only [Term.free, List.mem_append] at hs
      rw [List.map_append, List.mem_append]
      rcases hs with hs | hs
      · rcases h5 s hs with h | h
        · exact .inl (.inl h)
        · exact .inr h
      · rcases a4 s hs with h | h
        · exact .inl (.inr h)
        · exact .inr h
    · intro s hs
      simp only [Term.bound, List.mem_append] at hs
      rcases hs with hs | hs
      · exact h8 s hs
      · rw [a3] at hs; exact hs

/-- C99: the `n`-th power (`n ≥ 1`) of an indexed sum is again an indexed sum, with the value of the `n`-th power; its indices are those of the
sum, `n` times, with 0, 1, ..., `n - 1` more primes, and run over the same values; its term depends on no symbol on which the sum does not depend. -/
theorem C99_terms_partial (I : Interp S R) {t : Term} {rs : List Range} (hc : Clean t rs) (n : ℕ) (hn : 1 ≤ n) :
    ∃ t' rs', sumPow scalarCreate t rs n = .ok (.term (.sum t' rs')) ∧ (∀ ρ, (Term.sum t' rs').eval I ρ = (Term.sum t rs).eval I ρ ^ n) ∧
      rs'.map Range.sym = (List.range n).flatMap (fun j => rs.map (fun r => (⟨r.sym.name, r.sym.primed + j⟩ : Sym))) ∧
      rs'.map Range.values = (List.replicate n (rs.map Range.values)).flatten ∧
      ∀ s ∈ (Term.sum t' rs').free, s ∈ (Term.sum t rs).free := by
  obtain ⟨k, rfl⟩ : ∃ k, n = k + 1 := ⟨n - 1, by omega⟩
  obtain ⟨t', rs', h1, h2, h3, h4, h5, _⟩ := powLoop_spec I hc k
  refine ⟨t', rs', ?_, h2, h3, h4, ?_⟩
  · unfold sumPow
    rw [if_neg (by push_cast; omega)]
    by_cases hk : k = 0
    · subst hk
      cases h1
      rfl
    · rw [if_neg (by push_cast; omega), if_pos (by push_cast; omega), show ((k + 1 : ℕ) - 1 : ℤ).toNat = k by push_cast; omega, h1]
      rfl
  · intro s hs
    simp only [Term.free, List.mem_filter, decide_eq_true_eq] at hs ⊢
    rcases h5 s hs.1 with h | h
    · exact absurd h hs.2
    · exact h

end

/-- C99: `x ** z` of an indexed sum `x` of scalars denotes the `z`-th power of its value, for every integer `z`, and does not fail. (A
negative power of 0 is not defined; `0⁻¹` is 0 in Lean.) -/
theorem C99_power_partial {S R : Type} [CommSemiring S] [Field R] [Algebra S R] (I : Interp S R) {t : Term} {rs : List Range} (hc : Clean t rs) (z : ℤ) :
    ∃ e, sumPow scalarCreate t rs z = .ok e ∧ ∀ ρ, e.eval I ρ = (Term.sum t rs).eval I ρ ^ z := by
  rcases lt_trichotomy z 0 with hz | rfl | hz
  · obtain ⟨t', rs', h1, h2, _⟩ := powLoop_spec I hc (-z - 1).toNat
    refine ⟨.inv (.sum t' rs'), ?_, fun ρ => ?_⟩
    · unfold sumPow
      rw [if_neg (by omega), if_neg (by omega), if_neg (by omega)]
      by_cases hk : -z = 1
      · rw [if_pos hk]
        rw [hk] at h1
        cases h1
        rfl
      · rw [if_neg hk, h1]
        rfl
    · show ((Term.sum t' rs').eval I ρ)⁻¹ = _
      rw [h2, ← zpow_natCast, ← zpow_neg]
      congr 1
      push_cast
      omega
  · exact ⟨.one, rfl, fun ρ => (zpow_zero _).symm⟩
  · obtain ⟨n, rfl⟩ := Int.eq_ofNat_of_zero_le hz.le
    obtain ⟨t', rs', h1, h2, _⟩ := C99_terms_partial I hc n (by omega)
    exact ⟨_, h1, fun ρ => (h2 ρ).trans (zpow_natCast _ _).symm⟩

/-- C99: a whole exponent of type `float` other than -1, 0 and 1 raises `TypeError`. -/
theorem C99_float (t : Term) (rs : List Range) (z : ℤ) : sumPowFloat t rs z = .error .typeError ↔ z ≠ 0 ∧ z ≠ 1 ∧ z ≠ -1 := by
  unfold sumPowFloat
  split_ifs <;> simp <;> omega

theorem blocks_one (k : ℕ) (r : Range) : blocks k [r] = (List.range k).map (fun j => r.sym.shift j) := by
  unfold blocks
  simp only [List.map_cons, List.map_nil]
  rw [← List.flatMap_singleton' (l := (List.range k).map (fun j => r.sym.shift j)), List.flatMap_map]

/-- C99 is false for powers of powers: if `x` is a sum over one index and `y = x ** m` with `m ≥ 2`, then `y ** n` raises `ValueError` for every
`n ≥ 2` (and `y * y` does), because two indices get the same new name. -/
theorem C99_refuted_nested {t : Term} {r : Range} (hc : Clean t [r]) (m n : ℕ) (hm : 2 ≤ m) (hn : 2 ≤ n) :
    ∃ t' rs', sumPow scalarCreate t [r] m = .ok (.term (.sum t' rs')) ∧ sumPow scalarCreate t' rs' n = .error .valueError := by
  obtain ⟨k, rfl⟩ : ∃ k, m = k + 2 := ⟨m - 2, by omega⟩
  obtain ⟨l, rfl⟩ : ∃ l, n = l + 2 := ⟨n - 2, by omega⟩
  obtain ⟨t', rs', h1, -, h3, -, -, -, h7, h8⟩ := powLoop_spec (S := ℕ) (R := ℕ) ⟨fun _ _ => 0, fun _ _ => 0⟩ hc (k + 1)
  refine ⟨t', rs', ?_, ?_⟩
  · unfold sumPow
    rw [if_neg (by push_cast; omega), if_neg (by push_cast; omega), if_pos (by push_cast; omega), show ((k + 2 : ℕ) - 1 : ℤ).toNat = k + 1 by push_cast; omega, h1]
    rfl
  -- the first two indices of the power
  obtain ⟨r0, r1, rest, rfl⟩ : ∃ r0 r1 rest, rs' = r0 :: r1 :: rest := by
    have hl := congrArg List.length h3
    simp [blocks_one] at hl
    match rs', hl with
    | r0 :: r1 :: rest, _ => exact ⟨r0, r1, rest, rfl⟩
  have hr : r.sym ∈ [r].map Range.sym := by simp
  have hsyms : (r0 :: r1 :: rest).map Range.sym = r.sym.shift 0 :: r.sym.shift 1 :: (List.range k).map (fun j => r.sym.shift (j + 2)) := by
    rw [h3, blocks_one, List.range_succ_eq_map, List.range_succ_eq_map]
    simp only [List.map_cons, List.map_map, Function.comp_def]
  simp only [List.map_cons, List.cons.injEq] at hsyms
  obtain ⟨e0, e1, e2⟩ := hsyms
  set X := (r0 :: r1 :: rest).map Range.sym with hX
  have hnX : r.sym.shift (k + 2) ∉ X := by
    rw [h3]
    exact shift_not_mem_blocks hc.names le_rfl hr
  have f0 : fresh X r0.sym = r.sym.shift (k + 2) := by
    rw [e0, h3]
    have : r.sym.shift 0 = r.sym := by simp [Sym.shift]
    rw [this]
    exact fresh_blocks hc hr
  have f1 : fresh X r1.sym = r.sym.shift (k + 2) := by
    have hsh : ∀ j, (r.sym.shift 1).shift j = r.sym.shift (j + 1) := fun j => by simp [Sym.shift, Nat.add_assoc, Nat.add_comm 1 j]
    rw [e1, fresh_shift (k := k + 1), hsh]
    · intro j hj
      rw [hsh, h3, blocks_one]
      exact List.mem_map.2 ⟨j + 1, List.mem_range.2 (by omega), rfl⟩
    · rw [hsh]; exact hnX
  have hbn : ∀ s ∈ t'.bound, s.name ≠ r.sym.name := fun s hs hx => hc.inner s (h8 s hs) (by simpa using hx)
  have hne : ∀ j, r.sym.shift j ∉ t'.bound := fun j hj => hbn _ hj rfl
  -- the first index is renamed
  obtain ⟨u1, a1, a2, a3⟩ := rename_ok (i := r0.sym) (n := fresh X r0.sym) t' h7 (by rw [e0]; exact hne _) (by rw [f0]; exact hne _)
  obtain ⟨qs1, b1, b2, _⟩ := substRanges_rename (i := r0.sym) (n := fresh X r0.sym) (r0 :: r1 :: rest)
  have h01 : r1.sym ≠ r0.sym := by
    rw [e0, e1]
    intro hx
    have := shift_inj hx
    omega
  have hnodup : X.Nodup := by
    rw [h3, blocks_one]
    exact List.Nodup.map (fun a b hab => shift_inj hab) List.nodup_range
  have hmem0 : r0.sym ∈ X := by rw [hX]; simp
  have hmem1 : r1.sym ∈ X := by rw [hX]; simp
  have hq1 : (qs1.map Range.sym).Nodup := by
    rw [b2]
    refine List.Nodup.map_on ?_ hnodup
    intro a ha b hb hab
    split at hab <;> split at hab
    · rename_i h h'; rw [h, h']
    · rw [f0] at hab; exact absurd (hab ▸ hb) hnX
    · rw [f0] at hab; exact absurd (hab ▸ ha) hnX
    · exact hab
  have s1 : (Term.sum t' (r0 :: r1 :: rest)).subst (single r0.sym (.sym (fresh X r0.sym))) = .ok (.sum u1 qs1) := by
    rw [Term.subst, a1, b1]
    show mkSum u1 qs1 = _
    rw [mkSum, if_pos hq1]
  -- the second index gets the same name
  obtain ⟨u2, c1, _, _⟩ := rename_ok (i := r1.sym) (n := fresh X r1.sym) u1 a2 (by rw [a3, e1]; exact hne _) (by rw [a3, f1]; exact hne _)
  obtain ⟨qs2, d1, d2, _⟩ := substRanges_rename (i := r1.sym) (n := fresh X r1.sym) qs1
  have hq2 : ¬ (qs2.map Range.sym).Nodup := by
    rw [d2, b2, f0, f1]
    simp only [List.map_cons, if_true, if_neg h01]
    have hx : r.sym.shift (k + 2) ≠ r1.sym := fun hx => hnX (hx ▸ hmem1)
    rw [if_neg hx]
    simp
  have s2 : (Term.sum u1 qs1).subst (single r1.sym (.sym (fresh X r1.sym))) = .error .valueError := by
    rw [Term.subst, c1, d1]
    show mkSum u2 qs2 = _
    rw [mkSum, if_neg hq2]
  have hdis : makeDisjunct X t' (r0 :: r1 :: rest) = .error .valueError := by
    unfold makeDisjunct disjunctLoop
    rw [if_pos hmem0, s1]
    show disjunctLoop X (r1 :: rest) (.sum u1 qs1) = _
    unfold disjunctLoop
    rw [if_pos hmem1, s2]
    rfl
  have hmul : sumMulSum scalarCreate t' (r0 :: r1 :: rest) t' (r0 :: r1 :: rest) = .error .valueError := by
    unfold sumMulSum
    rw [hdis]
    rfl
  have hloop : ∀ l, powLoop scalarCreate t' (r0 :: r1 :: rest) (l + 1) = .error .valueError := by
    intro l
    induction l with
    | zero => rw [powLoop, powLoop]; exact hmul
    | succ l ih => rw [powLoop, ih]; rfl
  unfold sumPow
  rw [if_neg (by push_cast; omega), if_neg (by push_cast; omega), if_pos (by push_cast; omega), show ((l + 2 : ℕ) - 1 : ℤ).toNat = l + 1 by push_cast; omega, hloop]
  rfl

/-- C99 is false if a primed version of the index is in use: `(∑_i a_{i,i'}) ** 2` becomes `∑_{i,i'} a_{i,i'} a_{i',i'}`. -/
theorem C99_refuted_primed : ∃ (t : Term) (e : PowRes) (ρ : Env), sumPow scalarCreate t [r12 symI] 2 = .ok e ∧
    (∀ x, e = .term x → x.eval demo ρ ≠ (Term.sum t [r12 symI]).eval demo ρ ^ 2) ∧ ∃ x, e = .term x :=
  ⟨.fn 0 [.sym symI, .sym symI'], _, fun _ => .int 0, rfl, by rintro x ⟨⟩; decide +kernel, _, rfl⟩

/-- a concrete case: `∑_{i,j} a_{i,j} b_k` -/
example : Clean (.mul (.fn 0 [.sym symI, .sym symJ]) (.fn 1 [.sym ⟨2, 0⟩])) [r12 symI, r12 symJ] :=
  ⟨by decide, by decide, by decide, by decide, by decide, ⟨trivial, trivial⟩⟩

/-- and its square -/
example : sumPow scalarCreate (.fn 0 [.sym symI, .sym symJ]) [r12 symI, r12 symJ] 2 =
    .ok (.term (.sum (.mul (.fn 0 [.sym symI, .sym symJ]) (.fn 0 [.sym symI', .sym ⟨1, 1⟩])) [r12 symI, r12 symJ, r12 symI', r12 ⟨1, 1⟩])) := by rfl

example : sumPow scalarCreate (.fn 0 [.sym symI]) [r12 symI] (-1) = .ok (.inv (.sum (.fn 0 [.sym symI]) [r12 symI])) := by rfl

end QNET.Indexed
