import Verif.Indexed.Thm33
import Verif.Indexed.Thm34

/-!
# Symbols of an expression, and substitution of index symbols (C81)

`substitute(var_map)` for expressions with indexed sums, `abstract_algebra.py` lines 387-419 and 672-692, `indices.py` lines 216-226, 450-454, 493-497, 536-539. In labels and coefficients SymPy replaces one symbol after the other; index ranges look their symbol up in `var_map`.
-/

namespace QNET.Indexed

variable {S R : Type} [CommSemiring S] [Semiring R] [Algebra S R]

/-! ### model -/

/-- `expr.subs(var_map)` of SymPy: the items of `var_map` one after the other, in the order chosen by SymPy -/
def Ix.substSeq (l : List (Sym × Ix)) (x : Ix) : Ix := l.foldl (fun x p => x.subst (single p.1 p.2)) x

/-- `var_map.get` -/
def lookup (l : List (Sym × Ix)) : VarMap := fun s => (l.find? fun p => p.1 = s).map Prod.snd

/-- `term.substitute(var_map)`; `l` is `var_map` in the order chosen by SymPy -/
def Term.substPy (l : List (Sym × Ix)) : Term → Res Term
  | .fn f xs => .ok (.fn f (xs.map (Ix.substSeq l)))
  | .scal c xs t => (t.substPy l).map (.scal c (xs.map (Ix.substSeq l)))
  | .delta a b t => (t.substPy l).map (.delta (a.substSeq l) (b.substSeq l))
  | .pw r x t => (t.substPy l).map (.pw r (x.substSeq l))
  | .nmul n t => (t.substPy l).map (.nmul n)
  | .add a b => do .ok (.add (← a.substPy l) (← b.substPy l))
  | .mul a b => do .ok (.mul (← a.substPy l) (← b.substPy l))
  | .sum t rs => do
    let t' ← t.substPy l
    let rs' ← substRanges (lookup l) rs
    mkSum t' rs'

/-! ### Specification -/

section Spec

/-- no symbol that is replaced occurs in a replacement -/
def Independent (l : List (Sym × Ix)) : Prop := ∀ p ∈ l, ∀ q ∈ l, p.1 ∉ q.2.syms

/-- bound symbols are not replaced, and do not occur in the replacements of free symbols -/
def Safe (σ : VarMap) (t : Term) : Prop := ∀ s ∈ t.bound, σ s = none ∧ ∀ k ∈ t.free, ∀ x, σ k = some x → s ∉ x.syms

/-- indexed sums are not nested -/
def Flat : Term → Prop
  | .fn _ _ => True
  | .scal _ _ t => Flat t
  | .delta _ _ t => Flat t
  | .pw _ _ t => Flat t
  | .nmul _ t => Flat t
  | .add a b => Flat a ∧ Flat b
  | .mul a b => Flat a ∧ Flat b
  | .sum t _ => t.bound = []

end Spec

/-! ### SymPy's successive substitution -/

theorem subst_other {i : Sym} {x y : Ix} (h : i ∉ y.syms) : y.subst (single i x) = y := by
  cases y with
  | sym s =>
    have : single i x s = none := if_neg (fun hc => h (by rw [hc]; simp [Ix.syms]))
    simp [Ix.subst, this]
  | val v => rfl

theorem substSeq_other : ∀ {l : List (Sym × Ix)} {y : Ix}, (∀ p ∈ l, p.1 ∉ y.syms) → Ix.substSeq l y = y
  | [], _, _ => rfl
  | p :: l, y, h => by
    show Ix.substSeq l (y.subst (single p.1 p.2)) = y
    rw [subst_other (h p List.mem_cons_self)]
    exact substSeq_other fun q hq => h q (List.mem_cons_of_mem _ hq)

theorem substSeq_eq : ∀ {l : List (Sym × Ix)}, Independent l → ∀ x : Ix, Ix.substSeq l x = x.subst (lookup l)
  | [], _, x => by cases x <;> rfl
  | p :: l, h, x => by
    show Ix.substSeq l (x.subst (single p.1 p.2)) = _
    have hl : Independent l := fun q hq r hr => h q (List.mem_cons_of_mem _ hq) r (List.mem_cons_of_mem _ hr)
    cases x with
    | val v => rw [show (Ix.val v).subst (single p.1 p.2) = .val v from rfl, substSeq_eq hl]; rfl
    | sym s =>
      by_cases hs : s = p.1
      · subst hs
        have e1 : (Ix.sym p.1).subst (single p.1 p.2) = p.2 := by simp [Ix.subst, single]
        have e2 : (Ix.sym p.1).subst (lookup (p :: l)) = p.2 := by simp [Ix.subst, lookup]
        rw [e1, e2]
        exact substSeq_other fun q hq => h q (List.mem_cons_of_mem _ hq) p List.mem_cons_self
      · have e1 : (Ix.sym s).subst (single p.1 p.2) = .sym s := by simp [Ix.subst, single, hs]
        rw [e1, substSeq_eq hl]
        have : lookup (p :: l) s = lookup l s := by
          unfold lookup
          rw [List.find?_cons_of_neg (by simpa using Ne.symm hs)]
        simp [Ix.subst, this]

theorem substPy_eq {l : List (Sym × Ix)} (h : Independent l) : ∀ t : Term, t.substPy l = t.subst (lookup l)
  | .fn f xs => by simp only [Term.substPy, Term.subst, funext (substSeq_eq h)]
  | .scal c xs t => by simp only [Term.substPy, Term.subst, funext (substSeq_eq h), substPy_eq h t]
  | .delta a b t => by simp only [Term.substPy, Term.subst, substSeq_eq h, substPy_eq h t]
  | .pw r x t => by simp only [Term.substPy, Term.subst, substSeq_eq h, substPy_eq h t]
  | .nmul n t => by simp only [Term.substPy, Term.subst, substPy_eq h t]
  | .add a b => by simp only [Term.substPy, Term.subst, substPy_eq h a, substPy_eq h b]
  | .mul a b => by simp only [Term.substPy, Term.subst, substPy_eq h a, substPy_eq h b]
  | .sum t rs => by simp only [Term.substPy, Term.subst, substPy_eq h t]

/-! ### value after a substitution -/

theorem sumOver_safe {M : Type} [AddCommMonoid M] {f : Env → M} {F : List Sym} (hf : ∀ ρ ρ' : Env, (∀ s ∈ F, ρ s = ρ' s) → f ρ = f ρ') {σ : VarMap} :
    ∀ (rs : List Range), (∀ r ∈ rs, σ r.sym = none ∧ ∀ k ∈ F, ∀ x, σ k = some x → r.sym ∉ x.syms) → ∀ ρ : Env,
    sumOver rs (fun ρ => f (ρ.over σ)) ρ = sumOver rs f (ρ.over σ)
  | [], _, ρ => rfl
  | r :: rs, h, ρ => by
    simp only [sumOver]
    congr 1
    apply List.map_congr_left
    intro v _
    rw [sumOver_safe hf rs (fun y hy => h y (List.mem_cons_of_mem _ hy))]
    refine sumOver_congr hf rs _ _ fun s hs _ => ?_
    obtain ⟨h1, h2⟩ := h r List.mem_cons_self
    unfold Env.over Env.upd
    by_cases hk : s = r.sym
    · subst hk
      simp [h1, Ix.eval]
    · rw [if_neg hk]
      beta_reduce
      cases hσ : σ s with
      | none => exact if_neg hk
      | some x => exact Ix.eval_congr (x := x) fun a ha => if_neg fun (hc : a = r.sym) => h2 s hs x hσ (hc ▸ ha)

theorem substRanges_none {σ : VarMap} : ∀ {rs rs' : List Range}, substRanges σ rs = .ok rs' → (∀ r ∈ rs, σ r.sym = none) → rs' = rs
  | [], rs', h, _ => by cases h; rfl
  | r :: rs, rs', h, hn => by
    obtain ⟨q, qs, h1, h2, rfl⟩ := mapM_ok_cons h
    rw [substRanges_none h2 (fun y hy => hn y (List.mem_cons_of_mem _ hy))]
    congr 1
    simp only [Range.subst, hn r List.mem_cons_self, Option.getD_none] at h1
    cases r <;> (simp only [Range.sym] at h1; cases h1; rfl)

theorem Safe.left {σ : VarMap} {a b : Term} (h : Safe σ (.add a b)) : Safe σ a := fun s hs =>
  ⟨(h s (by simp [Term.bound, hs])).1, fun k hk => (h s (by simp [Term.bound, hs])).2 k (by simp [Term.free, hk])⟩
theorem Safe.right {σ : VarMap} {a b : Term} (h : Safe σ (.add a b)) : Safe σ b := fun s hs =>
  ⟨(h s (by simp [Term.bound, hs])).1, fun k hk => (h s (by simp [Term.bound, hs])).2 k (by simp [Term.free, hk])⟩
theorem Safe.scal {σ : VarMap} {c : ℕ} {xs : List Ix} {a : Term} (h : Safe σ (.scal c xs a)) : Safe σ a := fun s hs =>
  ⟨(h s hs).1, fun k hk => (h s hs).2 k (by simp [Term.free, hk])⟩
theorem Safe.delta {σ : VarMap} {x y : Ix} {a : Term} (h : Safe σ (.delta x y a)) : Safe σ a := fun s hs =>
  ⟨(h s hs).1, fun k hk => (h s hs).2 k (by simp [Term.free, hk])⟩
theorem Safe.pw {σ : VarMap} {r : Range} {y : Ix} {a : Term} (h : Safe σ (.pw r y a)) : Safe σ a := fun s hs =>
  ⟨(h s hs).1, fun k hk => (h s hs).2 k (by simp [Term.free, hk])⟩

theorem Safe.ranges {σ : VarMap} {t : Term} {rs : List Range} (h : Safe σ (.sum t rs)) : ∀ r ∈ rs, σ r.sym = none ∧ ∀ k ∈ t.free, ∀ x, σ k = some x → r.sym ∉ x.syms := by
  intro r hr
  have hb : r.sym ∈ (Term.sum t rs).bound := by
    simp only [Term.bound, List.mem_append, List.mem_map]
    exact .inr ⟨r, hr, rfl⟩
  refine ⟨(h _ hb).1, fun k hk x hx => ?_⟩
  by_cases hks : k ∈ rs.map Range.sym
  · obtain ⟨q, hq, rfl⟩ := List.mem_map.mp hks
    have hqb : q.sym ∈ (Term.sum t rs).bound := by
      simp only [Term.bound, List.mem_append, List.mem_map]
      exact .inr ⟨q, hq, rfl⟩
    rw [(h _ hqb).1] at hx
    cases hx
  · exact (h _ hb).2 k (by simp only [Term.free, List.mem_filter, hk, true_and, decide_eq_true_eq]; exact hks) x hx

theorem Safe.body {σ : VarMap} {t : Term} {rs : List Range} (h : Safe σ (.sum t rs)) : Safe σ t := by
  intro s hs
  have hb : s ∈ (Term.sum t rs).bound := by
    simp only [Term.bound, List.mem_append]
    exact .inl hs
  refine ⟨(h s hb).1, fun k hk x hx => ?_⟩
  by_cases hks : k ∈ rs.map Range.sym
  · obtain ⟨q, hq, rfl⟩ := List.mem_map.mp hks
    rw [(h.ranges q hq).1] at hx
    cases hx
  · exact (h _ hb).2 k (by simp only [Term.free, List.mem_filter, hk, true_and, decide_eq_true_eq]; exact hks) x hx

theorem eval_safe (I : Interp S R) {σ : VarMap} : ∀ (t t' : Term), t.subst σ = .ok t' → Safe σ t → ∀ ρ, t'.eval I ρ = t.eval I (ρ.over σ)
  | .fn f xs, t', h, hn, ρ => by cases h; simp only [Term.eval, Ix.evals_subst]
  | .scal c xs t, t', h, hn, ρ => by
    obtain ⟨u, h1, rfl⟩ := Except.map_ok h
    simp only [Term.eval, Ix.evals_subst, eval_safe I t u h1 hn.scal]
  | .delta a b t, t', h, hn, ρ => by
    obtain ⟨u, h1, rfl⟩ := Except.map_ok h
    simp only [Term.eval, Ix.eval_subst, eval_safe I t u h1 hn.delta]
  | .pw r y t, t', h, hn, ρ => by
    obtain ⟨u, h1, rfl⟩ := Except.map_ok h
    simp only [Term.eval, Ix.eval_subst, eval_safe I t u h1 hn.pw]
  | .nmul m t, t', h, hn, ρ => by
    obtain ⟨u, h1, rfl⟩ := Except.map_ok h
    simp only [Term.eval, eval_safe I t u h1 hn]
  | .add a b, t', h, hn, ρ => by
    obtain ⟨a', h1, h⟩ := Except.bind_ok h
    obtain ⟨b', h2, h⟩ := Except.bind_ok h
    cases h
    simp only [Term.eval, eval_safe I a a' h1 hn.left, eval_safe I b b' h2 hn.right]
  | .mul a b, t', h, hn, ρ => by
    obtain ⟨a', h1, h⟩ := Except.bind_ok h
    obtain ⟨b', h2, h⟩ := Except.bind_ok h
    cases h
    simp only [Term.eval, eval_safe I a a' h1 (Safe.left (b := b) hn), eval_safe I b b' h2 (Safe.right (a := a) hn)]
  | .sum t rs, t', h, hn, ρ => by
    obtain ⟨u, h1, h⟩ := Except.bind_ok h
    obtain ⟨rs', h2, h⟩ := Except.bind_ok h
    obtain ⟨rfl, _⟩ := mkSum_ok h
    rw [substRanges_none h2 (fun r hr => (hn.ranges r hr).1)]
    simp only [Term.eval]
    rw [← sumOver_safe (F := t.free) (fun ρ ρ' hh => Term.eval_congr I t ρ ρ' hh) rs hn.ranges]
    congr 1
    funext ρ'
    exact eval_safe I t u h1 hn.body ρ'

/-! ### free symbols after a substitution -/

theorem Ix.mem_subst {σ : VarMap} {x : Ix} {s : Sym} : s ∈ (x.subst σ).syms ↔ ∃ k ∈ x.syms, s ∈ ((σ k).getD (.sym k)).syms := by
  cases x <;> simp [Ix.subst, Ix.syms]

theorem mem_substs {σ : VarMap} {xs : List Ix} {s : Sym} : s ∈ (xs.map (Ix.subst σ)).flatMap Ix.syms ↔ ∃ k ∈ xs.flatMap Ix.syms, s ∈ ((σ k).getD (.sym k)).syms := by
  simp only [List.mem_flatMap, List.mem_map]
  constructor
  · rintro ⟨_, ⟨x, hx, rfl⟩, hs⟩
    obtain ⟨k, hk, hs⟩ := Ix.mem_subst.mp hs
    exact ⟨k, ⟨x, hx, hk⟩, hs⟩
  · rintro ⟨k, ⟨x, hx, hk⟩, hs⟩
    exact ⟨_, ⟨x, hx, rfl⟩, Ix.mem_subst.mpr ⟨k, hk, hs⟩⟩

theorem free_safe {σ : VarMap} : ∀ (t t' : Term), t.subst σ = .ok t' → Safe σ t → ∀ s, s ∈ t'.free ↔ ∃ k ∈ t.free, s ∈ ((σ k).getD (.sym k)).syms
  | .fn f xs, t', h, hn, s => by cases h; exact mem_substs
  | .scal c xs t, t', h, hn, s => by
    obtain ⟨u, h1, rfl⟩ := Except.map_ok h
    simp only [Term.free, List.mem_append, mem_substs, free_safe t u h1 hn.scal s, or_and_right, exists_or]
  | .delta a b t, t', h, hn, s => by
    obtain ⟨u, h1, rfl⟩ := Except.map_ok h
    simp only [Term.free, List.mem_append, Ix.mem_subst, free_safe t u h1 hn.delta s, or_and_right, exists_or]
  | .pw r y t, t', h, hn, s => by
    obtain ⟨u, h1, rfl⟩ := Except.map_ok h
    simp only [Term.free, List.mem_append, Ix.mem_subst, free_safe t u h1 hn.pw s, or_and_right, exists_or]
  | .nmul m t, t', h, hn, s => by
    obtain ⟨u, h1, rfl⟩ := Except.map_ok h
    exact free_safe t u h1 hn s
  | .add a b, t', h, hn, s => by
    obtain ⟨a', h1, h⟩ := Except.bind_ok h
    obtain ⟨b', h2, h⟩ := Except.bind_ok h
    cases h
    simp only [Term.free, List.mem_append, free_safe a a' h1 hn.left s, free_safe b b' h2 hn.right s, or_and_right, exists_or]
  | .mul a b, t', h, hn, s => by
    obtain ⟨a', h1, h⟩ := Except.bind_ok h
    obtain ⟨b', h2, h⟩ := Except.bind_ok h
    cases h
    simp only [Term.free, List.mem_append, free_safe a a' h1 (Safe.left (b := b) hn) s, free_safe b b' h2 (Safe.right (a := a) hn) s, or_and_right, exists_or]
  | .sum t rs, t', h, hn, s => by
    obtain ⟨u, h1, h⟩ := Except.bind_ok h
    obtain ⟨rs', h2, h⟩ := Except.bind_ok h
    obtain ⟨rfl, _⟩ := mkSum_ok h
    rw [substRanges_none h2 (fun r hr => (hn.ranges r hr).1)]
    simp only [Term.free, List.mem_filter, decide_eq_true_eq, free_safe t u h1 hn.body s]
    constructor
    · rintro ⟨⟨k, hk, hs⟩, hr⟩
      refine ⟨k, ⟨hk, fun hks => ?_⟩, hs⟩
      obtain ⟨q, hq, rfl⟩ := List.mem_map.mp hks
      rw [(hn.ranges q hq).1] at hs
      simp only [Option.getD_none, Ix.syms, List.mem_singleton] at hs
      exact hr (hs ▸ hks)
    · rintro ⟨k, ⟨hk, hks⟩, hs⟩
      refine ⟨⟨k, hk, hs⟩, fun hsr => ?_⟩
      obtain ⟨q, hq, rfl⟩ := List.mem_map.mp hsr
      cases hσ : σ k with
      | none =>
        rw [hσ] at hs
        simp only [Option.getD_none, Ix.syms, List.mem_singleton] at hs
        exact hks (hs ▸ hsr)
      | some x =>
        rw [hσ] at hs
        exact (hn.ranges q hq).2 k hk x hσ hs

theorem mem_allSyms : ∀ (t : Term) (s : Sym), s ∈ t.allSyms ↔ s ∈ t.free ∨ s ∈ t.bound
  | .fn f xs, s => by simp [Term.allSyms, Term.free, Term.bound]
  | .scal c xs t, s => by simp only [Term.allSyms, Term.free, Term.bound, List.mem_append, mem_allSyms t s]; tauto
  | .delta a b t, s => by simp only [Term.allSyms, Term.free, Term.bound, List.mem_append, mem_allSyms t s]; tauto
  | .pw r x t, s => by simp only [Term.allSyms, Term.free, Term.bound, List.mem_append, mem_allSyms t s]; tauto
  | .nmul n t, s => mem_allSyms t s
  | .add a b, s => by simp only [Term.allSyms, Term.free, Term.bound, List.mem_append, mem_allSyms a s, mem_allSyms b s]; tauto
  | .mul a b, s => by simp only [Term.allSyms, Term.free, Term.bound, List.mem_append, mem_allSyms a s, mem_allSyms b s]; tauto
  | .sum t rs, s => by
    simp only [Term.allSyms, Term.free, Term.bound, List.mem_append, mem_allSyms t s, List.mem_filter, decide_eq_true_eq]
    tauto

theorem bound_flat : ∀ (t : Term), Flat t → t.boundSymbols = t.bound
  | .fn f xs, _ => rfl
  | .scal c xs t, h => bound_flat t h
  | .delta a b t, h => bound_flat t h
  | .pw r x t, h => bound_flat t h
  | .nmul n t, h => bound_flat t h
  | .add a b, h => by rw [Term.boundSymbols, Term.bound, bound_flat a h.1, bound_flat b h.2]
  | .mul a b, h => by rw [Term.boundSymbols, Term.bound, bound_flat a h.1, bound_flat b h.2]
  | .sum t rs, h => by rw [Term.boundSymbols, Term.bound, show t.bound = [] from h, List.nil_append]

theorem subst_id {σ : VarMap} : ∀ (t : Term), t.WF → (∀ s ∈ t.allSyms, σ s = none) → t.subst σ = .ok t
  | .fn f xs, _, h => by
    have : xs.map (Ix.subst σ) = xs := by
      refine (List.map_congr_left fun x hx => ?_).trans (List.map_id xs)
      cases x with
      | sym s => simp [Ix.subst, h s (by simp only [Term.allSyms, List.mem_flatMap]; exact ⟨_, hx, by simp [Ix.syms]⟩)]
      | val v => rfl
    rw [Term.subst, this]
  | .scal c xs t, hw, h => by
    have : xs.map (Ix.subst σ) = xs := by
      refine (List.map_congr_left fun x hx => ?_).trans (List.map_id xs)
      cases x with
      | sym s => simp [Ix.subst, h s (by simp only [Term.allSyms, List.mem_append, List.mem_flatMap]; exact .inl ⟨_, hx, by simp [Ix.syms]⟩)]
      | val v => rfl
    rw [Term.subst, this, subst_id t hw (fun s hs => h s (by simp [Term.allSyms, hs]))]
    rfl
  | .delta a b t, hw, h => by
    have key : ∀ x : Ix, (∀ s ∈ x.syms, σ s = none) → x.subst σ = x := by
      intro x hx
      cases x with
      | sym s => simp [Ix.subst, hx s (by simp [Ix.syms])]
      | val v => rfl
    rw [Term.subst, key a (fun s hs => h s (by simp [Term.allSyms, hs])), key b (fun s hs => h s (by simp [Term.allSyms, hs])), subst_id t hw (fun s hs => h s (by simp [Term.allSyms, hs]))]
    rfl
  | .pw r x t, hw, h => by
    have key : ∀ x : Ix, (∀ s ∈ x.syms, σ s = none) → x.subst σ = x := by
      intro x hx
      cases x with
      | sym s => simp [Ix.subst, hx s (by simp [Ix.syms])]
      | val v => rfl
    rw [Term.subst, key x (fun s hs => h s (by simp [Term.allSyms, hs])), subst_id t hw (fun s hs => h s (by simp [Term.allSyms, hs]))]
    rfl
  | .nmul n t, hw, h => by rw [Term.subst, subst_id t hw h]; rfl
  | .add a b, hw, h => by
    rw [Term.subst, subst_id a hw.1 (fun s hs => h s (by simp [Term.allSyms, hs])), subst_id b hw.2 (fun s hs => h s (by simp [Term.allSyms, hs]))]
    rfl
  | .mul a b, hw, h => by
    rw [Term.subst, subst_id a hw.1 (fun s hs => h s (by simp [Term.allSyms, hs])), subst_id b hw.2 (fun s hs => h s (by simp [Term.allSyms, hs]))]
    rfl
  | .sum t rs, hw, h => by
    rw [Term.subst, subst_id t hw.1 (fun s hs => h s (by simp [Term.allSyms, hs])), substRanges_id (fun s hs => h s (by simp only [Term.allSyms, List.mem_append]; exact .inr hs))]
    show mkSum t rs = _
    rw [mkSum, if_pos hw.2]

/-! ### C81 -/

/-- C81: the value of an expression depends on its `free_symbols` only. -/
theorem C81_free_symbols (I : Interp S R) (t : Term) (ρ ρ' : Env) (h : ∀ s ∈ t.free, ρ s = ρ' s) : t.eval I ρ = t.eval I ρ' := Term.eval_congr I t ρ ρ' h

/-- C81: `substitute` replaces free symbols: the value of the result is the value of the expression with the replacements as values of the symbols, and its free symbols are those of the replacements and those not replaced. For all maps
whose replacements do not contain replaced symbols and that do not involve bound symbols. Missing: other maps (false, see below). -/
theorem C81_substitute_partial (I : Interp S R) (l : List (Sym × Ix)) (hl : Independent l) (t t' : Term) (ht : t.WF) (hs : Safe (lookup l) t) :
    (∃ r, t.substPy l = .ok r) ∧ (t.substPy l = .ok t' → (∀ ρ : Env, t'.eval I ρ = t.eval I (fun s => ((lookup l s).getD (.sym s)).eval ρ)) ∧
    ∀ s, s ∈ t'.free ↔ ∃ k ∈ t.free, s ∈ ((lookup l k).getD (.sym k)).syms) := by
  rw [substPy_eq hl]
  exact ⟨Term.subst_total t ht fun s h => (hs s h).1, fun h => ⟨eval_safe I t t' h hs, free_safe t t' h hs⟩⟩

/-- C81: `substitute` leaves an expression unchanged if no replaced symbol occurs in it, free or bound. -/
theorem C81_unaffected (l : List (Sym × Ix)) (t : Term) (ht : t.WF) (h : ∀ p ∈ l, p.1 ∉ t.free ∧ p.1 ∉ t.bound) : t.substPy l = .ok t := by
  have hseq : ∀ x : Ix, (∀ s ∈ x.syms, s ∈ t.allSyms) → Ix.substSeq l x = x := by
    intro x hx
    refine substSeq_other fun p hp hm => ?_
    rcases (mem_allSyms t _).mp (hx _ hm) with h1 | h1
    · exact (h p hp).1 h1
    · exact (h p hp).2 h1
  have hlook : ∀ s ∈ t.allSyms, lookup l s = none := by
    intro s hs
    unfold lookup
    rw [List.find?_eq_none.mpr]
    · rfl
    · intro p hp
      simp only [decide_eq_true_eq]
      rintro rfl
      rcases (mem_allSyms t _).mp hs with h1 | h1
      · exact (h p hp).1 h1
      · exact (h p hp).2 h1
  have key : ∀ u : Term, (∀ s ∈ u.allSyms, s ∈ t.allSyms) → u.substPy l = u.subst (lookup l) := by
    intro u
    have hix : ∀ x : Ix, (∀ s ∈ x.syms, s ∈ t.allSyms) → Ix.substSeq l x = x.subst (lookup l) := by
      intro x hx
      rw [hseq x hx]
      cases x with
      | sym s => simp [Ix.subst, hlook s (hx s (by simp [Ix.syms]))]
      | val v => rfl
    have hixs : ∀ xs : List Ix, (∀ s ∈ xs.flatMap Ix.syms, s ∈ t.allSyms) → xs.map (Ix.substSeq l) = xs.map (Ix.subst (lookup l)) := fun xs hxs =>
      List.map_congr_left fun x hx => hix x fun s hs => hxs s (List.mem_flatMap.mpr ⟨x, hx, hs⟩)
    induction u with
    | fn f xs => intro hu; simp only [Term.substPy, Term.subst, hixs xs hu]
    | scal c xs u ih =>
      intro hu
      simp only [Term.substPy, Term.subst, hixs xs (fun s hs => hu s (by simp only [Term.allSyms, List.mem_append]; exact .inl hs)), ih (fun s hs => hu s (by simp [Term.allSyms, hs]))]
    | delta a b u ih =>
      intro hu
      simp only [Term.substPy, Term.subst, hix a (fun s hs => hu s (by simp [Term.allSyms, hs])), hix b (fun s hs => hu s (by simp [Term.allSyms, hs])), ih (fun s hs => hu s (by simp [Term.allSyms, hs]))]
    | pw r x u ih =>
      intro hu
      simp only [Term.substPy, Term.subst, hix x (fun s hs => hu s (by simp [Term.allSyms, hs])), ih (fun s hs => hu s (by simp [Term.allSyms, hs]))]
    | nmul n u ih => intro hu; simp only [Term.substPy, Term.subst, ih hu]
    | add a b iha ihb => intro hu; simp only [Term.substPy, Term.subst, iha (fun s hs => hu s (by simp [Term.allSyms, hs])), ihb (fun s hs => hu s (by simp [Term.allSyms, hs]))]
    | mul a b iha ihb => intro hu; simp only [Term.substPy, Term.subst, iha (fun s hs => hu s (by simp [Term.allSyms, hs])), ihb (fun s hs => hu s (by simp [Term.allSyms, hs]))]
    | sum u rs ih => intro hu; simp only [Term.substPy, Term.subst, ih (fun s hs => hu s (by simp [Term.allSyms, hs]))]
  rw [key t fun s hs => hs]
  exact subst_id t ht hlook

/-- C81: a symbol occurs in an expression whose sums are not nested exactly if it is in `free_symbols` or `bound_symbols`. Missing: nested sums (false). -/
theorem C81_all_symbols_partial (t : Term) (h : Flat t) (s : Sym) : s ∈ t.allSyms ↔ s ∈ t.free ∨ s ∈ t.boundSymbols := by
  rw [bound_flat t h, mem_allSyms]

/-! ### the limits -/

/-- C81 fails for nested sums: `bound_symbols` of `∑_i A_i ∑_j B_ij` is `{i}`, and `j` is not in `free_symbols` either. -/
theorem C81_refuted_nested : let t : Term := .sum (.mul (.fn 0 [.sym symI]) (.sum (.fn 1 [.sym symI, .sym symJ]) [r12 symJ])) [r12 symI]
    symJ ∈ t.allSyms ∧ symJ ∉ t.free ∧ symJ ∉ t.boundSymbols := by decide +kernel

/-- C81: because of this, the product of `∑_j C_j` and `D ∑_i A_i ∑_j B_ij` contains two sums over `j`, one inside the other, and cannot be written out (`TypeError`). -/
theorem C81_refuted_product : ∃ e : Term, (match sumMulOther mkSum (.fn 3 [.sym symJ]) [r12 symJ]
      (.mul (.fn 2 []) (.sum (.mul (.fn 0 [.sym symI]) (.sum (.fn 1 [.sym symI, .sym symJ]) [r12 symJ])) [r12 symI])) with
    | .ok (.sum t rs) => e = .sum t rs ∧ doitAll t rs = .error .typeError
    | _ => False) := ⟨_, rfl, by decide +kernel⟩

/-- C81 fails for replacements that contain a bound symbol: `{j: i}` turns `∑_i A_ij` into `∑_i A_ii`. -/
theorem C81_refuted_capture : ∃ (t t' : Term) (ρ : Env), t = .sum (.fn 0 [.sym symI, .sym symJ]) [r12 symI] ∧ t.substPy [(symJ, .sym symI)] = .ok t' ∧
    t'.eval demo ρ ≠ t.eval demo (fun s => ((lookup [(symJ, .sym symI)] s).getD (.sym s)).eval ρ) :=
  ⟨_, _, fun _ => .int 0, rfl, rfl, by decide +kernel⟩

/-- C81 fails for bound symbols: `{i: j}` turns `∑_i A_ij` into `∑_j A_jj`, although `i` is not free. -/
theorem C81_refuted_bound : ∃ (t t' : Term) (ρ : Env), t = .sum (.fn 0 [.sym symI, .sym symJ]) [r12 symI] ∧ symI ∉ t.free ∧ t.substPy [(symI, .sym symJ)] = .ok t' ∧ t'.eval demo ρ ≠ t.eval demo ρ :=
  ⟨_, _, fun _ => .int 0, rfl, by decide +kernel, rfl, by decide +kernel⟩

/-- C81 fails for bound symbols: `{i: 1}` is a `TypeError` for `∑_i A_i`. -/
theorem C81_refuted_bound_value : (Term.sum (.fn 0 [.sym symI]) [r12 symI]).substPy [(symI, .val (.int 1))] = .error .typeError := rfl

/-- C81 fails for maps that exchange two symbols: in whatever order SymPy replaces them, `A_ij` becomes `A_ii` or `A_jj`. -/
theorem C81_refuted_swap : (Term.fn 0 [.sym symI, .sym symJ]).substPy [(symI, .sym symJ), (symJ, .sym symI)] = .ok (.fn 0 [.sym symI, .sym symI]) ∧
    (Term.fn 0 [.sym symI, .sym symJ]).substPy [(symJ, .sym symI), (symI, .sym symJ)] = .ok (.fn 0 [.sym symJ, .sym symJ]) := ⟨rfl, rfl⟩

/-- the hypotheses can be met: `{j: k, m: 2}` in `∑_i A_ij B_m` -/
example : let l : List (Sym × Ix) := [(symJ, .sym ⟨2, 0⟩), (⟨3, 0⟩, .val (.int 2))]
    let t : Term := .sum (.mul (.fn 0 [.sym symI, .sym symJ]) (.fn 1 [.sym ⟨3, 0⟩])) [r12 symI]
    Independent l ∧ t.WF ∧ Safe (lookup l) t ∧ Flat t := by
  refine ⟨by unfold Independent; decide +kernel, by simp [Term.WF], ?_, rfl⟩
  intro s hs
  simp [Term.bound, Range.sym] at hs
  subst hs
  refine ⟨rfl, ?_⟩
  have : ∀ k ∈ [symI, symJ, (⟨3, 0⟩ : Sym)], ∀ x ∈ lookup [(symJ, .sym ⟨2, 0⟩), (⟨3, 0⟩, .val (.int 2))] k, symI ∉ x.syms := by decide +kernel
  intro k hk x hx
  refine this k ?_ x hx
  simp [Term.free, Ix.syms] at hk
  simp [hk.1]

end QNET.Indexed
