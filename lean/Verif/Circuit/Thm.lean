import Verif.Circuit.Inst
import Verif.Circuit.Mono
import Verif.Circuit.Spec

/-!
# C12, C17, C18: automatic simplification of circuits
-/

namespace QNET.Circuit

open QNET.Perm QNET.CPerm Inst

variable {A : Type} [Ring A] [StarRing A] [Algebra ℂ A] [StarModule ℂ A]

/-! ### the value of a circuit is its SLH triple -/

theorem seriesFold_ok (ρ : Valuation A) (us : List (T A)) : ∀ (t : T A), (∀ u ∈ us, u.1.n = t.1.n) →
    seriesFold t.1 (us.map Subtype.val) = .ok (us.foldl Inst.series t).1 := by
  induction us with
  | nil => intro t _; rfl
  | cons u us ih =>
    intro t h
    have hu := h u (by simp)
    rw [List.map_cons, List.foldl_cons, seriesFold, if_pos hu.symm, ← ih]
    · congr 1
      unfold Inst.series; rw [dif_pos hu.symm]
    · intro v hv
      rw [n_series, h v (by simp [hv])]

theorem concatFold_ok (us : List (T A)) : ∀ (t : T A), (us.map Subtype.val).foldl SLH.concat t.1 = (us.foldl Inst.concat t).1 := by
  induction us with
  | nil => intro t; rfl
  | cons u us ih => intro t; rw [List.map_cons, List.foldl_cons, List.foldl_cons, ← ih]; rfl

variable {ρ : Valuation A} {leaf : SLH A → Option (T A)} {h1 h2 h3 h4 h5}

/-- `SLH` leaves are interpreted by themselves -/
def LeafOk (leaf : SLH A → Option (T A)) : Prop := ∀ s t, leaf s = some t → t.1 = s

theorem toSLH_sym {s n : ℕ} (hn : 0 < n) : (symT ρ s n).1 = ρ.val s n := by unfold symT; rw [dif_pos hn]

mutual
theorem toSLH_of_den (hl : LeafOk leaf) : ∀ (c : Circ A) (t : T A), (slhAlgWith ρ leaf h1 h2 h3 h4 h5).den c = some t →
    c.toSLH ρ.val = .ok t.1
  | .sym s n, t, h => by
    simp only [CircAlg.den] at h
    split at h
    · rename_i hn
      injection h with h
      rw [← h]
      simp only [Circ.toSLH]
      exact congrArg Except.ok (toSLH_sym hn).symm
    · cases h
  | .slh s, t, h => by
    simp only [CircAlg.den] at h
    simp only [Circ.toSLH]
    exact congrArg Except.ok (hl s t h).symm
  | .perm p, t, h => by
    simp only [CircAlg.den] at h
    split at h
    · rename_i hp
      injection h with h
      rw [← h]
      simp only [Circ.toSLH]
      change _ = Except.ok (Inst.perm p : T A).1
      unfold Inst.perm; rw [dif_pos ((check_iff p).mp hp.1)]
    · cases h
  | .id1, t, h => by simp only [CircAlg.den] at h; injection h with h; rw [← h]; rfl
  | .zero, t, h => by simp only [CircAlg.den] at h; injection h with h; rw [← h]; rfl
  | .series ops, t, h => by
    simp only [CircAlg.den] at h
    replace h := Option.bind_eq_some_iff.mp h
    obtain ⟨ts, g1, g2⟩ := h
    have e := toSLHList_of_den hl ops ts g1
    simp only [Circ.toSLH, e]
    cases ts with
    | nil => cases g2
    | cons u us =>
      simp only [CircAlg.foldSeries] at g2
      split at g2
      · rename_i hd
        injection g2 with g2
        rw [← g2]
        exact seriesFold_ok ρ us u hd.2
      · cases g2
  | .concat ops, t, h => by
    simp only [CircAlg.den] at h
    replace h := Option.bind_eq_some_iff.mp h
    obtain ⟨ts, g1, g2⟩ := h
    have e := toSLHList_of_den hl ops ts g1
    simp only [Circ.toSLH, e]
    cases ts with
    | nil => cases g2
    | cons u us =>
      simp only [CircAlg.foldConcat] at g2
      split at g2
      · injection g2 with g2
        rw [← g2]
        exact congrArg Except.ok (concatFold_ok us u)
      · cases g2
  | .fb c o i, t, h => by
    simp only [CircAlg.den] at h
    replace h := Option.bind_eq_some_iff.mp h
    obtain ⟨u, g1, g2⟩ := h
    have e := toSLH_of_den hl c u g1
    simp only [Circ.toSLH, e]
    exact (fb_iff.mp g2).2.2.2
  | .inv (.sym s n), t, h => by
    simp only [CircAlg.den] at h
    split at h
    · rename_i hn
      injection h with h; rw [← h]
      simp only [Circ.toSLH]
      change Except.ok (SLH.inverse (ρ.val s n)) = Except.ok (SLH.inverse (symT ρ s n).1)
      rw [toSLH_sym hn]
    · cases h
  | .inv (.slh _), t, h => by simp [CircAlg.den] at h
  | .inv (.perm _), t, h => by simp [CircAlg.den] at h
  | .inv .id1, t, h => by simp [CircAlg.den] at h
  | .inv .zero, t, h => by simp [CircAlg.den] at h
  | .inv (.series _), t, h => by simp [CircAlg.den] at h
  | .inv (.concat _), t, h => by simp [CircAlg.den] at h
  | .inv (.fb _ _ _), t, h => by simp [CircAlg.den] at h
  | .inv (.inv _), t, h => by simp [CircAlg.den] at h
theorem toSLHList_of_den (hl : LeafOk leaf) : ∀ (l : List (Circ A)) (ts : List (T A)),
    (slhAlgWith ρ leaf h1 h2 h3 h4 h5).denList l = some ts → toSLHList ρ.val l = .ok (ts.map Subtype.val)
  | [], ts, h => by simp only [CircAlg.denList] at h; injection h with h; subst h; rfl
  | c :: cs, ts, h => by
    simp only [CircAlg.denList] at h
    replace h := Option.bind_eq_some_iff.mp h
    obtain ⟨t, g1, g2⟩ := h
    replace g2 := Option.map_eq_some_iff.mp g2
    obtain ⟨us, g2, rfl⟩ := g2
    have e1 := toSLH_of_den hl c t g1
    have e2 := toSLHList_of_den hl cs us g2
    simp only [toSLHList, e1, e2]
    rfl
end

/-! ### the meaning of the user's expression -/

/-- `SLH` leaves of the expression have a value -/
def LeavesIn (leaf : SLH A → Option (T A)) : Expr A → Prop
  | .slh s => ∃ t, leaf s = some t ∧ t.1 = s
  | .series a b => LeavesIn leaf a ∧ LeavesIn leaf b
  | .concat a b => LeavesIn leaf a ∧ LeavesIn leaf b
  | .feedback a _ _ => LeavesIn leaf a
  | .inverse a => LeavesIn leaf a
  | _ => True

theorem mean_of_eval : ∀ (e : Expr A) (s : SLH A), e.WellFormed → LeavesIn leaf e → e.eval ρ.val = .ok s →
    ∃ t : T A, (slhAlgWith ρ leaf h1 h2 h3 h4 h5).mean e = some t ∧ t.1 = s ∧ s.n = e.channels := by
  intro e
  induction e with
  | sym a n =>
    intro s hw _ h
    injection h with h
    have hn : 0 < n := hw
    exact ⟨symT ρ a n, if_pos hn, by rw [toSLH_sym hn, h], by rw [← h]; exact ρ.dim a n hn⟩
  | slh x =>
    intro s hw hl h
    injection h with h
    obtain ⟨t, e1, e2⟩ := hl
    exact ⟨t, e1, by rw [e2, h], by rw [← h]; rfl⟩
  | cperm p =>
    intro s hw _ h
    injection h with h
    have hv : Valid p := (valid_iff p).mpr hw
    refine ⟨Inst.perm p, if_pos ((check_iff p).mpr hv), ?_, by rw [← h]; rfl⟩
    unfold Inst.perm; rw [dif_pos hv, ← h]
  | cid n =>
    intro s hw _ h
    injection h with h
    exact ⟨Inst.one n, rfl, h, by rw [← h]; rfl⟩
  | series a b iha ihb =>
    intro s hw hl h
    simp only [Expr.eval] at h
    rw [bind_ok] at h; obtain ⟨x, g1, h⟩ := h
    rw [bind_ok] at h; obtain ⟨y, g2, h⟩ := h
    injection h with h
    obtain ⟨t, e1, e2, e3⟩ := iha x hw.1 hl.1 g1
    obtain ⟨u, f1, f2, f3⟩ := ihb y hw.2.1 hl.2 g2
    have hd : t.1.n = u.1.n := by rw [e2, f2, e3, f3]; exact hw.2.2
    refine ⟨Inst.series t u, ?_, ?_, ?_⟩
    · simp only [CircAlg.mean, e1, f1, Option.bind_some]
      exact if_pos hd
    · unfold Inst.series; rw [dif_pos hd]
      change SLH.series t.1 u.1 = s
      rw [← h, e2, f2]
    · rw [← h]; exact e3
  | concat a b iha ihb =>
    intro s hw hl h
    simp only [Expr.eval] at h
    rw [bind_ok] at h; obtain ⟨x, g1, h⟩ := h
    rw [bind_ok] at h; obtain ⟨y, g2, h⟩ := h
    injection h with h
    obtain ⟨t, e1, e2, e3⟩ := iha x hw.1 hl.1 g1
    obtain ⟨u, f1, f2, f3⟩ := ihb y hw.2 hl.2 g2
    refine ⟨Inst.concat t u, ?_, ?_, ?_⟩
    · simp only [CircAlg.mean, e1, f1, Option.bind_some]
      rfl
    · change SLH.concat t.1 u.1 = s
      rw [← h, e2, f2]
    · rw [← h]; change x.n + y.n = _; rw [e3, f3]; rfl
  | feedback a o i iha =>
    intro s hw hl h
    simp only [Expr.eval] at h
    rw [bind_ok] at h; obtain ⟨x, g1, h⟩ := h
    obtain ⟨t, e1, e2, e3⟩ := iha x hw.1 hl g1
    have hx : t.1.n = a.channels := by rw [e2, e3]
    have ho : o < t.1.n := by rw [hx]; exact hw.2.2.1
    have hi : i < t.1.n := by rw [hx]; exact hw.2.2.2
    rw [← e2] at h
    obtain ⟨c, hc, hxx⟩ := (SLH.C16_error_iff t.2.1.1 ho hi).1.mp ⟨_, h⟩
    obtain ⟨b', e, h6, -, h7, h8⟩ := SLH.feedback_ok t.2.1.1 ho hi hc hxx
    rw [h] at e; injection e with e
    have h2' : 2 ≤ t.1.n := by rw [hx]; exact hw.2.1
    refine ⟨⟨s, by rw [e]; exact ⟨⟨h7, h8 t.2.1.2⟩, fun h0 => by omega⟩⟩, ?_, rfl, ?_⟩
    · simp only [CircAlg.mean, e1, Option.bind_some]
      exact fb_iff.mpr ⟨h2', ho, hi, h⟩
    · rw [e, h6, hx]; rfl
  | inverse a iha =>
    intro s hw hl h
    simp only [Expr.eval] at h
    rw [bind_ok] at h; obtain ⟨x, g1, h⟩ := h
    injection h with h
    obtain ⟨t, e1, e2, e3⟩ := iha x hw.1 hl g1
    have hx : t.1.n = a.channels := by rw [e2, e3]
    refine ⟨Inst.inv t, ?_, ?_, ?_⟩
    · simp only [CircAlg.mean, e1, Option.bind_some]
      exact if_pos (show 0 < t.1.n by rw [hx]; exact hw.2)
    · change SLH.inverse t.1 = s
      rw [← h, e2]
    · rw [← h]; exact e3

theorem leavesIn_wf : ∀ (e : Expr A), e.WellFormed → LeavesIn leafT e := by
  intro e
  induction e with
  | slh s => intro h; exact ⟨⟨s, h.1, fun h0 => absurd h0 (by have := h.2; omega)⟩, leafT_iff.mpr ⟨rfl, h.2⟩, rfl⟩
  | series a b iha ihb => intro h; exact ⟨iha h.1, ihb h.2.1⟩
  | concat a b iha ihb => intro h; exact ⟨iha h.1, ihb h.2⟩
  | feedback a o i iha => intro h; exact iha h.1
  | inverse a iha => intro h; exact iha h.1
  | _ => intro _; trivial

theorem leavesIn_symbolic (leaf : SLH A → Option (T A)) : ∀ (e : Expr A), e.Symbolic → LeavesIn leaf e := by
  intro e
  induction e with
  | slh s => intro h; exact h.elim
  | series a b iha ihb => intro h; exact ⟨iha h.1, ihb h.2⟩
  | concat a b iha ihb => intro h; exact ⟨iha h.1, ihb h.2⟩
  | feedback a o i iha => intro h; exact iha h
  | inverse a iha => intro h; exact iha h
  | _ => intro _; trivial

/-! ### C17 -/

/-- C17 for expressions with symbols, permutations and identities: the circuit returned after all rewriting has, for every
choice of unitary components for the symbols, exactly the triple (`S`, `L` and `H`) that the expression stands for. `fuel` is
Python's recursion limit; `eval` is defined when the feedback loops are well posed. -/
theorem C17_symbolic (ρ : Valuation A) {e : Expr A} {s : SLH A} {c : Circ A} {fuel : ℕ} (hw : e.WellFormed) (hsym : e.Symbolic)
    (hs : e.eval ρ.val = .ok s) (hc : simplify false fuel e = .ok c) : c.toSLH ρ.val = .ok s := by
  obtain ⟨t, e1, e2, -⟩ := mean_of_eval (ρ := ρ) (leaf := fun _ => none) (h1 := fun _ _ h => nomatch h) (h2 := fun _ _ _ _ h => nomatch h)
    (h3 := fun _ _ _ _ h => nomatch h) (h4 := fun _ _ h => nomatch h) (h5 := fun _ _ _ _ _ _ h => nomatch h) e s hw (leavesIn_symbolic _ e hsym) hs
  have := CircAlg.simplify_sound (M := symAlg ρ) (s := false) (Or.inr (fun _ => rfl)) e1 hc
  rw [← e2]
  exact toSLH_of_den (leaf := fun _ => none) (fun _ _ h => (nomatch (h : none = some _))) c t this

/-- C17 for expressions with `SLH` triples. `simplify true` is the code with one extra error: closing the loop of an `SLH` triple with
a single channel is refused, as it is for every other kind of circuit. When the evaluation does not do this, the code (`simplify false`)
returns the same circuit, and its triple is the one that the expression stands for. Missing: evaluations that close the only
channel of an `SLH` triple, for which the statement is false (`C17_refuted_zero_channels`). -/
theorem C17_slh_partial (ρ : Valuation A) {e : Expr A} {s : SLH A} {c : Circ A} {fuel : ℕ} (hw : e.WellFormed)
    (hs : e.eval ρ.val = .ok s) (hc : simplify true fuel e = .ok c) :
    simplify false fuel e = .ok c ∧ c.toSLH ρ.val = .ok s := by
  refine ⟨simplify_mono (b := true) (b' := false) (by simp) (Nat.le_refl _) e c hc, ?_⟩
  obtain ⟨t, e1, e2, -⟩ := mean_of_eval (ρ := ρ) (leaf := leafT) e s hw (leavesIn_wf e hw) hs
  have := CircAlg.simplify_sound (M := slhAlg ρ) (s := true) (Or.inl rfl) e1 hc
  rw [← e2]
  exact toSLH_of_den (fun _ _ h => (leafT_iff.mp h).1) c t this

/-- C17: a result does not depend on the recursion limit, as long as the limit suffices. -/
theorem C17_limit_independent {e : Expr A} {c : Circ A} {f f' : ℕ} (hf : f ≤ f') (h : simplify false f e = .ok c) :
    simplify false f' e = .ok c := simplify_mono (by simp) hf e c h

/-! ### C18 -/

/-- C18: simplification preserves the number of channels. -/
theorem C18_cdim_symbolic (ρ : Valuation A) {e : Expr A} {s : SLH A} {c : Circ A} {fuel : ℕ} (hw : e.WellFormed) (hsym : e.Symbolic)
    (hs : e.eval ρ.val = .ok s) (hc : simplify false fuel e = .ok c) : c.cdim = e.channels := by
  obtain ⟨t, e1, e2, e3⟩ := mean_of_eval (ρ := ρ) (leaf := fun _ => none) (h1 := fun _ _ h => nomatch h) (h2 := fun _ _ _ _ h => nomatch h)
    (h3 := fun _ _ _ _ h => nomatch h) (h4 := fun _ _ h => nomatch h) (h5 := fun _ _ _ _ _ _ h => nomatch h) e s hw (leavesIn_symbolic _ e hsym) hs
  have := (CircAlg.simplify_sound (M := symAlg ρ) (s := false) (Or.inr (fun _ => rfl)) e1 hc).cdim
  rw [this, ← e3, ← e2]; rfl

/-- C18: the same with `SLH` triples, if no single-channel triple is closed. -/
theorem C18_cdim_slh_partial (ρ : Valuation A) {e : Expr A} {s : SLH A} {c : Circ A} {fuel : ℕ} (hw : e.WellFormed)
    (hs : e.eval ρ.val = .ok s) (hc : simplify true fuel e = .ok c) : c.cdim = e.channels := by
  obtain ⟨t, e1, e2, e3⟩ := mean_of_eval (ρ := ρ) (leaf := leafT) e s hw (leavesIn_wf e hw) hs
  have := (CircAlg.simplify_sound (M := slhAlg ρ) (s := true) (Or.inl rfl) e1 hc).cdim
  rw [this, ← e3, ← e2]; rfl

end QNET.Circuit
