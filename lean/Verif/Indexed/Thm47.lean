import Verif.Indexed.Thm34

/-!
# C47: sums over Kronecker deltas
-/

namespace QNET.Indexed

variable {S R : Type} [CommSemiring S] [Semiring R] [Algebra S R]

/-- the symbol of the range does not occur in the solution, and the delta says that the index has the value of the solution -/
theorem solve_spec {i : Sym} {a b x : Ix} (h : solveDelta i a b = some x) :
    i ∉ x.syms ∧ ∀ (ρ : Env) (v : Val), (a.eval (ρ.upd i v) = b.eval (ρ.upd i v) ↔ v = x.eval ρ) := by
  have hne : ∀ {y : Ix}, y ≠ .sym i → i ∉ y.syms ∧ ∀ (ρ : Env) (v : Val), y.eval (ρ.upd i v) = y.eval ρ := by
    intro y hy
    have : i ∉ y.syms := by
      cases y with
      | val v => simp [Ix.syms]
      | sym k =>
        simp only [Ix.syms, List.mem_singleton]
        rintro rfl
        exact hy rfl
    exact ⟨this, fun ρ v => Ix.eval_congr (fun s hs => if_neg (fun (hc : s = i) => this (hc ▸ hs)))⟩
  unfold solveDelta at h
  split at h
  · rename_i hc
    obtain ⟨rfl, hb⟩ := hc
    cases h
    refine ⟨(hne hb).1, fun ρ v => ?_⟩
    rw [(hne hb).2]
    simp [Ix.eval, Env.upd]
  · split at h
    · rename_i hc
      obtain ⟨rfl, ha⟩ := hc
      cases h
      refine ⟨(hne ha).1, fun ρ v => ?_⟩
      rw [(hne ha).2]
      simp only [Ix.eval, Env.upd, if_true]
      exact eq_comm
    · cases h

theorem over_single_upd (ρ : Env) (i : Sym) (x : Ix) : ρ.over (single i x) = ρ.upd i (x.eval ρ) := by
  funext k
  unfold Env.over single Env.upd
  split
  · rfl
  · rfl

theorem sum_delta {M : Type} [AddCommMonoid M] (g : Val → M) (w : Val) : ∀ vs : List Val, (vs.map (fun v => if v = w then g v else 0)).sum = vs.count w • g w
  | [] => by simp
  | v :: vs => by
    simp only [List.map_cons, List.sum_cons, sum_delta g w vs, List.count_cons]
    by_cases h : v = w
    · subst h; simp [add_smul, add_comm]
    · simp [h]

/-- the sum over the delta: as many copies of the new term as the value occurs in the range -/
theorem delta_value (I : Interp S R) {r : Range} {a b x : Ix} {u u' : Term} (hs : solveDelta r.sym a b = some x) (hu : u.subst (single r.sym x) = .ok u')
    (hcap : NoCapture r.sym x u) (ρ : Env) : (Term.sum (.delta a b u) [r]).eval I ρ = r.values.count (x.eval ρ) • u'.eval I ρ := by
  obtain ⟨_, h1⟩ := solve_spec hs
  simp only [Term.eval, sumOver]
  rw [Term.eval_subst_single I u u' hu hcap, over_single_upd]
  rw [← sum_delta (fun v => u.eval I (ρ.upd r.sym v)) (x.eval ρ) r.values]
  congr 1
  apply List.map_congr_left
  intro v _
  by_cases h : v = x.eval ρ
  · rw [if_pos ((h1 ρ v).2 h), if_pos h]
  · rw [if_neg (fun hc => h ((h1 ρ v).1 hc)), if_neg h]

/-- values a nested sum visits -/
theorem sumOver_congr_on {M : Type} [AddCommMonoid M] {f g : Env → M} : ∀ (rs : List Range) (ρ : Env), (rs.map Range.sym).Nodup →
    (∀ ρ' : Env, (∀ s, s ∉ rs.map Range.sym → ρ' s = ρ s) → (∀ q ∈ rs, ρ' q.sym ∈ q.values) → f ρ' = g ρ') → sumOver rs f ρ = sumOver rs g ρ
  | [], ρ, _, h => h ρ (fun _ _ => rfl) (by simp)
  | r :: rs, ρ, hn, h => by
    simp only [List.map_cons, List.nodup_cons] at hn
    simp only [sumOver]
    congr 1
    apply List.map_congr_left
    intro v hv
    refine sumOver_congr_on rs _ hn.2 ?_
    intro ρ' h1 h2
    refine h ρ' ?_ ?_
    · intro s hs
      simp only [List.map_cons, List.mem_cons, not_or] at hs
      rw [h1 s hs.2]
      simp [Env.upd, hs.1]
    · intro q hq
      rcases List.mem_cons.1 hq with rfl | hq
      · rw [h1 _ hn.1]
        simpa [Env.upd] using hv
      · exact h2 q hq

/-- C47: the value of `∑_{i ∈ r, ...} δ_{a,b} u`, for several ranges of which `r` is one, in terms of the simplified sum: the term with the index
replaced by the solution `x`, as often as the value of `x` occurs in the range `r`. -/
theorem C47_delta_sum (I : Interp S R) {pre post : List Range} {r : Range} {a b x : Ix} {u u' : Term} (hn : ((pre ++ r :: post).map Range.sym).Nodup)
    (hs : solveDelta r.sym a b = some x) (hr : deltaSummation r a b u = some (.ok u')) (hcap : NoCapture r.sym x u) (ρ : Env) :
    (Term.sum (.delta a b u) (pre ++ r :: post)).eval I ρ = sumOver (pre ++ post) (fun ρ' => r.values.count (x.eval ρ') • u'.eval I ρ') ρ := by
  have hu : u.subst (single r.sym x) = .ok u' := by
    simpa [deltaSummation, hs] using hr
  have hp : (pre ++ r :: post).Perm ((pre ++ post) ++ [r]) := by
    rw [List.append_assoc]
    exact List.Perm.append_left pre (List.perm_append_singleton r post).symm
  have h0 : (Term.sum (.delta a b u) (pre ++ r :: post)).eval I ρ = sumOver (pre ++ r :: post) ((Term.delta a b u).eval I) ρ := rfl
  rw [h0, sumOver_perm _ hp hn, sumOver_append _ (pre ++ post) [r]]
  congr 1
  funext ρ'
  exact delta_value I hs hu hcap ρ'

/-- C47 (value in the range): if the range has no repeated values and the solution always lies in it, then the simplified sum has the value of
the sum. -/
theorem C47_in_range (I : Interp S R) {pre post : List Range} {r : Range} {a b x : Ix} {u u' : Term} (hn : ((pre ++ r :: post).map Range.sym).Nodup)
    (hs : solveDelta r.sym a b = some x) (hr : deltaSummation r a b u = some (.ok u')) (hcap : NoCapture r.sym x u) (ρ : Env) (hv : r.values.Nodup)
    (hx : match x with
      | .val v => v ∈ r.values
      | .sym j => (∀ q ∈ pre ++ post, q.sym = j → ∀ v ∈ q.values, v ∈ r.values) ∧ (j ∉ (pre ++ post).map Range.sym → ρ j ∈ r.values)) :
    (Term.sum (.delta a b u) (pre ++ r :: post)).eval I ρ = (Term.sum u' (pre ++ post)).eval I ρ := by
  rw [C47_delta_sum I hn hs hr hcap]
  have hp : (pre ++ r :: post).Perm ((pre ++ post) ++ [r]) := by
    rw [List.append_assoc]
    exact List.Perm.append_left pre (List.perm_append_singleton r post).symm
  have hno : ((pre ++ post).map Range.sym).Nodup := by
    have := (hp.map Range.sym).nodup_iff.1 hn
    rw [List.map_append, List.nodup_append] at this
    exact this.1
  refine sumOver_congr_on _ ρ hno ?_
  intro ρ' h1 h2
  have hmem : x.eval ρ' ∈ r.values := by
    cases x with
    | val v => exact hx
    | sym j =>
      simp only [Ix.eval]
      by_cases hj : j ∈ (pre ++ post).map Range.sym
      · obtain ⟨q, hq, rfl⟩ := List.mem_map.1 hj
        exact hx.1 q hq rfl _ (h2 q hq)
      · rw [h1 j hj]
        exact hx.2 hj
  rw [List.count_eq_one_of_mem hv hmem, one_smul]

/-- C47 is false in general (1): by default the range is ignored: `∑_{i ∈ {1, 2}} δ_{i,7} A_i` becomes `A_7`, but is 0. -/
theorem C47_out_of_range_refuted : ∃ (u u' : Term) (ρ : Env), deltaSummation (r12 symI) (.sym symI) (.val (.int 7)) u = some (.ok u') ∧
    (Term.sum (.delta (.sym symI) (.val (.int 7)) u) [r12 symI]).eval demo ρ = 0 ∧ u'.eval demo ρ ≠ 0 :=
  ⟨.fn 0 [.sym symI], _, fun _ => .int 0, rfl, by decide +kernel, by decide +kernel⟩

/-- C47 is false in general (2): a repeated value counts only once: `∑_{i ∈ (1, 1)} δ_{i,1} A_i` becomes `A_1`, but is `2 A_1`. -/
theorem C47_repeated_refuted : ∃ (u u' : Term) (ρ : Env), deltaSummation (.list symI [.int 1, .int 1]) (.sym symI) (.val (.int 1)) u = some (.ok u') ∧
    (Term.sum (.delta (.sym symI) (.val (.int 1)) u) [.list symI [.int 1, .int 1]]).eval demo ρ ≠ u'.eval demo ρ :=
  ⟨.fn 0 [.sym symI], _, fun _ => .int 0, rfl, by decide +kernel⟩

/-- C47: with `_RESOLVE_KRONECKER_WITH_PIECEWISE = True`, lists without repeated values and integer ranges: the term for a value in the range, and 0 otherwise. -/
theorem C47_piecewise (I : Interp S R) {pre post : List Range} {r : Range} {a b x : Ix} {u u' : Term} (hn : ((pre ++ r :: post).map Range.sym).Nodup)
    (hs : solveDelta r.sym a b = some x) (hr : deltaSummationPw r a b u = some (.ok u')) (hcap : NoCapture r.sym x u) (ρ : Env) (hv : r.values.Nodup)
    (hk : (∃ s vs, r = .list s vs) ∨ (∃ s c d st, st ≠ 0 ∧ r = .range s c d st)) :
    (Term.sum (.delta a b u) (pre ++ r :: post)).eval I ρ = (Term.sum u' (pre ++ post)).eval I ρ := by
  simp only [deltaSummationPw, hs, Option.map_some, Option.some.injEq] at hr
  obtain ⟨w, hw, rfl⟩ := Except.map_ok hr
  rw [C47_delta_sum I hn hs (u' := w) (by simp [deltaSummation, hs, hw]) hcap]
  simp only [Term.eval]
  congr 1
  funext ρ'
  have hpw : r.piecewiseOne (x.eval ρ') = true ↔ x.eval ρ' ∈ r.values := by
    rcases hk with ⟨s, vs, rfl⟩ | ⟨s, c, d, st, hst, rfl⟩
    · simp [Range.piecewiseOne, Range.values, Range.gen]
    · cases x.eval ρ' with
      | int z => simp [Range.piecewiseOne, Range.values, Range.gen, hst]
      | str n => simp [Range.piecewiseOne, Range.values, Range.gen, hst]
  by_cases h : x.eval ρ' ∈ r.values
  · rw [if_pos (hpw.2 h), List.count_eq_one_of_mem hv h, one_smul]
  · rw [if_neg (fun hc => h (hpw.1 hc)), List.count_eq_zero_of_not_mem h, zero_smul]

/-- C47 is false in general (3), even with `Piecewise`: the interval of a Fock space of dimension 2 contains 2. -/
theorem C47_fock_refuted : ∃ (u u' : Term) (ρ : Env), deltaSummationPw (.fock symI (some 2)) (.sym symI) (.val (.int 2)) u = some (.ok u') ∧
    (Term.sum (.delta (.sym symI) (.val (.int 2)) u) [.fock symI (some 2)]).eval demo ρ = 0 ∧ u'.eval demo ρ ≠ 0 :=
  ⟨.fn 0 [.sym symI], _, fun _ => .int 0, rfl, by decide +kernel, by decide +kernel⟩

/-- a concrete case: `∑_{i ∈ {1,2}, j ∈ {1,2}} δ_{i,j} A_{i,j} = ∑_i A_{i,i}` -/
example : deltaSummation (r12 symJ) (.sym symI) (.sym symJ) (.fn 3 [.sym symI, .sym symJ]) = some (.ok (.fn 3 [.sym symI, .sym symI])) ∧
    solveDelta symJ (.sym symI) (.sym symJ) = some (.sym symI) ∧ NoCapture symJ (.sym symI) (.fn 3 [.sym symI, .sym symJ]) := by
  unfold NoCapture
  decide +kernel

end QNET.Indexed
