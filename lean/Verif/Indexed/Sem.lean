import Verif.Indexed.Term
import Verif.Indexed.Thm32
import Mathlib.Algebra.Algebra.Basic
import Mathlib.Data.List.Perm.Basic
import Mathlib.Algebra.BigOperators.Ring.List

/-!
# The value of terms with indexed sums; substitution lemmas
-/

namespace QNET.Indexed

/-- valuations of the index symbols -/
abbrev Env := Sym → Val

/-- update -/
def Env.upd (ρ : Env) (s : Sym) (v : Val) : Env := fun k => if k = s then v else ρ k

/-- the value of a label -/
def Ix.eval (ρ : Env) : Ix → Val
  | .sym s => ρ s
  | .val v => v

/-- the values of a finite range (nothing for an infinite range or a range with step 0) -/
def Range.values (r : Range) : List Val :=
  match r.gen with
  | .ok (.fin l) => l
  | _ => []

/-- a range with finitely many values -/
def Range.Finite (r : Range) : Prop := ∃ l, r.gen = .ok (.fin l)

/-- nested sums: `∑_{v ∈ r} ...` for every range, from left to right -/
def sumOver {R : Type} [AddCommMonoid R] : List Range → (Env → R) → Env → R
  | [], f, ρ => f ρ
  | r :: rs, f, ρ => (r.values.map (fun v => sumOver rs f (ρ.upd r.sym v))).sum

/-- an interpretation of the symbols: operators in a semiring `R`, scalars in a commutative semiring `S` -/
structure Interp (S R : Type) where
  fn : ℕ → List Val → R
  sc : ℕ → List Val → S

variable {S R : Type} [CommSemiring S] [Semiring R] [Algebra S R]

/-- the value of a term -/
def Term.eval (I : Interp S R) : Term → Env → R
  | .fn f xs, ρ => I.fn f (xs.map (Ix.eval ρ))
  | .scal c xs t, ρ => I.sc c (xs.map (Ix.eval ρ)) • t.eval I ρ
  | .delta a b t, ρ => if a.eval ρ = b.eval ρ then t.eval I ρ else 0
  | .pw r x t, ρ => if r.piecewiseOne (x.eval ρ) then t.eval I ρ else 0
  | .nmul n t, ρ => n • t.eval I ρ
  | .add a b, ρ => a.eval I ρ + b.eval I ρ
  | .mul a b, ρ => a.eval I ρ * b.eval I ρ
  | .sum t rs, ρ => sumOver rs (t.eval I) ρ

/-- all symbols, free or bound -/
def Term.allSyms : Term → List Sym
  | .fn _ xs => xs.flatMap Ix.syms
  | .scal _ xs t => xs.flatMap Ix.syms ++ t.allSyms
  | .delta a b t => a.syms ++ b.syms ++ t.allSyms
  | .pw _ x t => x.syms ++ t.allSyms
  | .nmul _ t => t.allSyms
  | .add a b => a.allSyms ++ b.allSyms
  | .mul a b => a.allSyms ++ b.allSyms
  | .sum t rs => t.allSyms ++ rs.map Range.sym

/-! ### dependence on the free symbols only -/

theorem Ix.eval_congr {ρ ρ' : Env} {x : Ix} (h : ∀ s ∈ x.syms, ρ s = ρ' s) : x.eval ρ = x.eval ρ' := by
  cases x with
  | sym s => exact h s (by simp [Ix.syms])
  | val v => rfl

theorem Ix.evals_congr {ρ ρ' : Env} {xs : List Ix} (h : ∀ s ∈ xs.flatMap Ix.syms, ρ s = ρ' s) : xs.map (Ix.eval ρ) = xs.map (Ix.eval ρ') :=
  List.map_congr_left fun x hx => Ix.eval_congr fun s hs => h s (List.mem_flatMap.2 ⟨x, hx, hs⟩)

theorem sumOver_congr {M : Type} [AddCommMonoid M] {f g : Env → M} {F : List Sym} (hfg : ∀ ρ ρ' : Env, (∀ s ∈ F, ρ s = ρ' s) → f ρ = g ρ') :
    ∀ (rs : List Range) (ρ ρ' : Env), (∀ s ∈ F, s ∉ rs.map Range.sym → ρ s = ρ' s) → sumOver rs f ρ = sumOver rs g ρ'
  | [], ρ, ρ', h => hfg ρ ρ' (fun s hs => h s hs (by simp))
  | r :: rs, ρ, ρ', h => by
    simp only [sumOver]
    congr 1
    apply List.map_congr_left
    intro v _
    refine sumOver_congr hfg rs _ _ ?_
    intro s hs hn
    unfold Env.upd
    split
    · rfl
    · rename_i hne
      exact h s hs (by simpa [hn] using hne)

theorem Term.eval_congr (I : Interp S R) : ∀ (t : Term) (ρ ρ' : Env), (∀ s ∈ t.free, ρ s = ρ' s) → t.eval I ρ = t.eval I ρ'
  | .fn f xs, ρ, ρ', h => by simp only [Term.eval, Ix.evals_congr (xs := xs) h]
  | .scal c xs t, ρ, ρ', h => by
    simp only [Term.eval]
    rw [Ix.evals_congr (fun s hs => h s (by simp only [Term.free, List.mem_append]; exact Or.inl hs)),
      Term.eval_congr I t ρ ρ' (fun s hs => h s (by simp [Term.free, hs]))]
  | .delta a b t, ρ, ρ', h => by
    simp only [Term.eval]
    rw [Ix.eval_congr (x := a) (fun s hs => h s (by simp [Term.free, hs])), Ix.eval_congr (x := b) (fun s hs => h s (by simp [Term.free, hs])),
      Term.eval_congr I t ρ ρ' (fun s hs => h s (by simp [Term.free, hs]))]
  | .pw r x t, ρ, ρ', h => by
    simp only [Term.eval]
    rw [Ix.eval_congr (x := x) (fun s hs => h s (by simp [Term.free, hs])), Term.eval_congr I t ρ ρ' (fun s hs => h s (by simp [Term.free, hs]))]
  | .nmul n t, ρ, ρ', h => by simp only [Term.eval, Term.eval_congr I t ρ ρ' h]
  | .add a b, ρ, ρ', h => by
    simp only [Term.eval]
    rw [Term.eval_congr I a ρ ρ' (fun s hs => h s (by simp [Term.free, hs])), Term.eval_congr I b ρ ρ' (fun s hs => h s (by simp [Term.free, hs]))]
  | .mul a b, ρ, ρ', h => by
    simp only [Term.eval]
    rw [Term.eval_congr I a ρ ρ' (fun s hs => h s (by simp [Term.free, hs])), Term.eval_congr I b ρ ρ' (fun s hs => h s (by simp [Term.free, hs]))]
  | .sum t rs, ρ, ρ', h => by
    simp only [Term.eval]
    refine sumOver_congr (F := t.free) (fun ρ ρ' hh => Term.eval_congr I t ρ ρ' hh) rs ρ ρ' ?_
    intro s hs hn
    refine h s ?_
    simp only [Term.free, List.mem_filter, hs, true_and, decide_eq_true_eq]
    exact hn

theorem Term.free_sub_all : ∀ (t : Term) (s : Sym), s ∈ t.free → s ∈ t.allSyms
  | .fn f xs, s, h => h
  | .scal c xs t, s, h => by
    simp only [Term.free, Term.allSyms, List.mem_append] at h ⊢
    exact h.imp id (Term.free_sub_all t s)
  | .delta a b t, s, h => by
    simp only [Term.free, Term.allSyms, List.mem_append] at h ⊢
    exact h.imp id (Term.free_sub_all t s)
  | .pw r x t, s, h => by
    simp only [Term.free, Term.allSyms, List.mem_append] at h ⊢
    exact h.imp id (Term.free_sub_all t s)
  | .nmul n t, s, h => Term.free_sub_all t s h
  | .add a b, s, h => by
    simp only [Term.free, Term.allSyms, List.mem_append] at h ⊢
    exact h.imp (Term.free_sub_all a s) (Term.free_sub_all b s)
  | .mul a b, s, h => by
    simp only [Term.free, Term.allSyms, List.mem_append] at h ⊢
    exact h.imp (Term.free_sub_all a s) (Term.free_sub_all b s)
  | .sum t rs, s, h => by
    simp only [Term.free, Term.allSyms, List.mem_append, List.mem_filter] at h ⊢
    exact Or.inl (Term.free_sub_all t s h.1)

/-! ### inversion of monadic definitions -/

theorem Except.bind_ok {ε α β : Type} {x : Except ε α} {f : α → Except ε β} {b : β} (h : x >>= f = .ok b) : ∃ a, x = .ok a ∧ f a = .ok b := by
  cases x with
  | error e => cases h
  | ok a => exact ⟨a, rfl, h⟩

theorem Except.map_ok {ε α β : Type} {x : Except ε α} {f : α → β} {b : β} (h : x.map f = .ok b) : ∃ a, x = .ok a ∧ f a = b := by
  cases x with
  | error e => cases h
  | ok a => cases h; exact ⟨a, rfl, rfl⟩

theorem mapM_ok_cons {ε α β : Type} {f : α → Except ε β} {a : α} {l : List α} {r : List β} (h : (a :: l).mapM f = .ok r) :
    ∃ b bs, f a = .ok b ∧ l.mapM f = .ok bs ∧ r = b :: bs := by
  rw [List.mapM_cons] at h
  obtain ⟨b, h1, h⟩ := Except.bind_ok h
  obtain ⟨bs, h2, h⟩ := Except.bind_ok h
  cases h
  exact ⟨b, bs, h1, h2, rfl⟩

theorem mapM_ok_forall₂ {ε α β : Type} {f : α → Except ε β} : ∀ {l : List α} {r : List β}, l.mapM f = .ok r → List.Forall₂ (fun a b => f a = .ok b) l r
  | [], r, h => by cases h; exact .nil
  | a :: l, r, h => by
    obtain ⟨b, bs, h1, h2, rfl⟩ := mapM_ok_cons h
    exact .cons h1 (mapM_ok_forall₂ h2)

theorem fock_gen (s s' : Sym) (d : Option ℕ) : (Range.fock s d).gen = (Range.fock s' d).gen := by cases d <;> rfl

/-- the ranges differ only in the index symbols -/
theorem Range.subst_gen {σ : VarMap} {r r' : Range} (h : r.subst σ = .ok r') : (σ r.sym).getD (.sym r.sym) = .sym r'.sym ∧ r'.gen = r.gen := by
  unfold Range.subst at h
  split at h
  · cases h
  · rename_i s hs
    rw [hs]
    cases r with
    | list s vs => cases h; exact ⟨rfl, rfl⟩
    | range s a b st => cases h; exact ⟨rfl, rfl⟩
    | fock s d => cases h; exact ⟨rfl, fock_gen _ _ _⟩

theorem Range.subst_ok {σ : VarMap} {r r' : Range} (h : r.subst σ = .ok r') : (σ r.sym).getD (.sym r.sym) = .sym r'.sym ∧ r'.values = r.values := by
  obtain ⟨h1, h2⟩ := Range.subst_gen h
  exact ⟨h1, by unfold Range.values; rw [h2]⟩

theorem Range.finite_of_subst {σ : VarMap} {r r' : Range} (h : r.subst σ = .ok r') (hf : r.Finite) : r'.Finite := by
  unfold Range.Finite
  rw [(Range.subst_gen h).2]
  exact hf

/-! ### substitution of values -/

/-- the valuation after a substitution -/
def Env.over (ρ : Env) (σ : VarMap) : Env := fun s => ((σ s).getD (.sym s)).eval ρ

/-- all replacements are values -/
def ValuesOnly (σ : VarMap) : Prop := ∀ s x, σ s = some x → ∃ v, x = .val v

theorem Ix.eval_subst (ρ : Env) (σ : VarMap) (x : Ix) : (x.subst σ).eval ρ = x.eval (ρ.over σ) := by
  cases x <;> rfl

theorem Ix.evals_subst (ρ : Env) (σ : VarMap) (xs : List Ix) : (xs.map (Ix.subst σ)).map (Ix.eval ρ) = xs.map (Ix.eval (ρ.over σ)) := by
  simp [List.map_map, Function.comp_def, Ix.eval_subst]

theorem over_upd {σ : VarMap} {s : Sym} (h : σ s = none) (hv : ValuesOnly σ) (ρ : Env) (v : Val) : (ρ.upd s v).over σ = (ρ.over σ).upd s v := by
  funext k
  unfold Env.over Env.upd
  by_cases hk : k = s
  · subst hk; simp [h, Ix.eval]
  · simp only [hk, if_false]
    cases hσ : σ k with
    | none => simp [Ix.eval, hk]
    | some x => obtain ⟨v', rfl⟩ := hv k x hσ; simp [Ix.eval]

theorem substRanges_values {σ : VarMap} (hv : ValuesOnly σ) : ∀ {rs rs' : List Range}, substRanges σ rs = .ok rs' → rs' = rs ∧ ∀ r ∈ rs, σ r.sym = none
  | [], rs', h => by cases h; simp
  | r :: rs, rs', h => by
    obtain ⟨q, qs, h1, h2, rfl⟩ := mapM_ok_cons h
    obtain ⟨rfl, h3⟩ := substRanges_values hv h2
    have h4 : σ r.sym = none := by
      cases hσ : σ r.sym with
      | none => rfl
      | some x =>
        obtain ⟨v, rfl⟩ := hv _ _ hσ
        simp only [Range.subst, hσ, Option.getD_some] at h1
        cases h1
    refine ⟨?_, ?_⟩
    · congr 1
      simp only [Range.subst, h4, Option.getD_none] at h1
      cases r <;> (simp only [Range.sym] at h1; cases h1; rfl)
    · intro x hx
      rcases List.mem_cons.1 hx with rfl | hx
      · exact h4
      · exact h3 x hx

theorem sumOver_over {M : Type} [AddCommMonoid M] {f : Env → M} {σ : VarMap} (hv : ValuesOnly σ) : ∀ (rs : List Range), (∀ r ∈ rs, σ r.sym = none) → ∀ ρ : Env,
    sumOver rs (fun ρ => f (ρ.over σ)) ρ = sumOver rs f (ρ.over σ)
  | [], _, ρ => rfl
  | r :: rs, h, ρ => by
    simp only [sumOver]
    congr 1
    apply List.map_congr_left
    intro v _
    rw [sumOver_over hv rs (fun x hx => h x (by simp [hx]))]
    rw [over_upd (h r (by simp)) hv]

theorem mkSum_ok {t : Term} {rs : List Range} {e : Term} (h : mkSum t rs = .ok e) : e = .sum t rs ∧ (rs.map Range.sym).Nodup := by
  unfold mkSum at h
  split at h
  · rename_i hn; cases h; exact ⟨rfl, hn⟩
  · cases h

/-- substitution of values: the value under the updated valuation -/
theorem Term.eval_subst (I : Interp S R) {σ : VarMap} (hv : ValuesOnly σ) : ∀ (t t' : Term), t.subst σ = .ok t' → ∀ ρ, t'.eval I ρ = t.eval I (ρ.over σ)
  | .fn f xs, t', h, ρ => by cases h; simp only [Term.eval, Ix.evals_subst]
  | .scal c xs t, t', h, ρ => by
    obtain ⟨u, h1, rfl⟩ := Except.map_ok h
    simp only [Term.eval, Ix.evals_subst, Term.eval_subst I hv t u h1]
  | .delta a b t, t', h, ρ => by
    obtain ⟨u, h1, rfl⟩ := Except.map_ok h
    simp only [Term.eval, Ix.eval_subst, Term.eval_subst I hv t u h1]
  | .pw r x t, t', h, ρ => by
    obtain ⟨u, h1, rfl⟩ := Except.map_ok h
    simp only [Term.eval, Ix.eval_subst, Term.eval_subst I hv t u h1]
  | .nmul n t, t', h, ρ => by
    obtain ⟨u, h1, rfl⟩ := Except.map_ok h
    simp only [Term.eval, Term.eval_subst I hv t u h1]
  | .add a b, t', h, ρ => by
    obtain ⟨a', h1, h⟩ := Except.bind_ok h
    obtain ⟨b', h2, h⟩ := Except.bind_ok h
    cases h
    simp only [Term.eval, Term.eval_subst I hv a a' h1, Term.eval_subst I hv b b' h2]
  | .mul a b, t', h, ρ => by
    obtain ⟨a', h1, h⟩ := Except.bind_ok h
    obtain ⟨b', h2, h⟩ := Except.bind_ok h
    cases h
    simp only [Term.eval, Term.eval_subst I hv a a' h1, Term.eval_subst I hv b b' h2]
  | .sum t rs, t', h, ρ => by
    obtain ⟨u, h1, h⟩ := Except.bind_ok h
    obtain ⟨rs', h2, h⟩ := Except.bind_ok h
    obtain ⟨rfl, _⟩ := mkSum_ok h
    obtain ⟨rfl, h3⟩ := substRanges_values hv h2
    simp only [Term.eval]
    rw [← sumOver_over hv rs' h3]
    congr 1
    funext ρ'
    exact Term.eval_subst I hv t u h1 ρ'

/-! ### renaming a symbol -/

/-- the valuation before renaming `i` to `n` -/
def Env.ren (ρ : Env) (i n : Sym) : Env := ρ.upd i (ρ n)

theorem over_single (ρ : Env) (i n : Sym) : ρ.over (single i (.sym n)) = ρ.ren i n := by
  funext k
  unfold Env.over Env.ren Env.upd single
  split
  · rfl
  · rfl

theorem Range.subst_single {r r' : Range} {i n : Sym} (h : r.subst (single i (.sym n)) = .ok r') : r'.sym = (if r.sym = i then n else r.sym) ∧ r'.values = r.values := by
  obtain ⟨h1, h2⟩ := Range.subst_ok h
  refine ⟨?_, h2⟩
  unfold single at h1
  by_cases hi : r.sym = i
  · rw [if_pos hi] at h1 ⊢
    simpa using h1.symm
  · rw [if_neg hi] at h1 ⊢
    simpa using h1.symm

theorem sumOver_ren {M : Type} [AddCommMonoid M] {f : Env → M} {i n : Sym} {F : List Sym} (hf : ∀ ρ ρ' : Env, (∀ s ∈ F, ρ s = ρ' s) → f ρ = f ρ') (hF : n ∉ F) :
    ∀ (rs rs' : List Range), List.Forall₂ (fun r r' => r.subst (single i (.sym n)) = .ok r') rs rs' → n ∉ rs.map Range.sym → ∀ ρ : Env,
      sumOver rs' (fun ρ => f (ρ.ren i n)) ρ = sumOver rs f (ρ.ren i n)
  | [], _, .nil, _, ρ => rfl
  | r :: rs, _ :: _, .cons (b := r') h hs, hn, ρ => by
    obtain ⟨h1, h2⟩ := Range.subst_single h
    have hn1 : r.sym ≠ n := fun hc => hn (by simp [hc])
    have hn2 : n ∉ rs.map Range.sym := fun hc => hn (by simp only [List.map_cons, List.mem_cons]; exact Or.inr hc)
    simp only [sumOver]
    rw [h1, h2]
    congr 1
    apply List.map_congr_left
    intro v _
    rw [sumOver_ren hf hF rs _ hs hn2]
    by_cases hi : r.sym = i
    · rw [if_pos hi]
      refine sumOver_congr (F := F) hf rs _ _ ?_
      intro s hsF _
      have : s ≠ n := fun hc => hF (hc ▸ hsF)
      unfold Env.ren Env.upd
      rw [hi]
      by_cases hsi : s = i
      · simp [hsi]
      · simp [hsi, this]
    · rw [if_neg hi]
      congr 1
      funext k
      unfold Env.ren Env.upd
      by_cases hk : k = i
      · subst hk; simp [Ne.symm hi, Ne.symm hn1]
      · simp [hk]

/-- renaming to a new symbol -/
theorem Term.eval_rename (I : Interp S R) {i n : Sym} : ∀ (t t' : Term), t.subst (single i (.sym n)) = .ok t' → n ∉ t.allSyms → ∀ ρ, t'.eval I ρ = t.eval I (ρ.ren i n)
  | .fn f xs, t', h, hn, ρ => by cases h; simp only [Term.eval, Ix.evals_subst, over_single]
  | .scal c xs t, t', h, hn, ρ => by
    obtain ⟨u, h1, rfl⟩ := Except.map_ok h
    simp only [Term.allSyms, List.mem_append, not_or] at hn
    simp only [Term.eval, Ix.evals_subst, over_single, Term.eval_rename I t u h1 hn.2]
  | .delta a b t, t', h, hn, ρ => by
    obtain ⟨u, h1, rfl⟩ := Except.map_ok h
    simp only [Term.allSyms, List.mem_append, not_or] at hn
    simp only [Term.eval, Ix.eval_subst, over_single, Term.eval_rename I t u h1 hn.2]
  | .pw r x t, t', h, hn, ρ => by
    obtain ⟨u, h1, rfl⟩ := Except.map_ok h
    simp only [Term.allSyms, List.mem_append, not_or] at hn
    simp only [Term.eval, Ix.eval_subst, over_single, Term.eval_rename I t u h1 hn.2]
  | .nmul m t, t', h, hn, ρ => by
    obtain ⟨u, h1, rfl⟩ := Except.map_ok h
    simp only [Term.eval, Term.eval_rename I t u h1 hn]
  | .add a b, t', h, hn, ρ => by
    obtain ⟨a', h1, h⟩ := Except.bind_ok h
    obtain ⟨b', h2, h⟩ := Except.bind_ok h
    cases h
    simp only [Term.allSyms, List.mem_append, not_or] at hn
    simp only [Term.eval, Term.eval_rename I a a' h1 hn.1, Term.eval_rename I b b' h2 hn.2]
  | .mul a b, t', h, hn, ρ => by
    obtain ⟨a', h1, h⟩ := Except.bind_ok h
    obtain ⟨b', h2, h⟩ := Except.bind_ok h
    cases h
    simp only [Term.allSyms, List.mem_append, not_or] at hn
    simp only [Term.eval, Term.eval_rename I a a' h1 hn.1, Term.eval_rename I b b' h2 hn.2]
  | .sum t rs, t', h, hn, ρ => by
    obtain ⟨u, h1, h⟩ := Except.bind_ok h
    obtain ⟨rs', h2, h⟩ := Except.bind_ok h
    obtain ⟨rfl, _⟩ := mkSum_ok h
    simp only [Term.allSyms, List.mem_append, not_or] at hn
    simp only [Term.eval]
    have h3 : u.eval I = fun ρ => t.eval I (ρ.ren i n) := funext fun ρ => Term.eval_rename I t u h1 hn.1 ρ
    rw [h3]
    exact sumOver_ren (F := t.free) (fun ρ ρ' hh => Term.eval_congr I t ρ ρ' hh) (fun hc => hn.1 (Term.free_sub_all t n hc)) rs rs' (mapM_ok_forall₂ h2) hn.2 ρ

/-! ### substitution of a symbol or value for a free symbol -/

/-- no bound symbol of the term is `i` or occurs in `x` -/
def NoCapture (i : Sym) (x : Ix) (t : Term) : Prop := ∀ s ∈ t.bound, s ≠ i ∧ s ∉ x.syms

theorem sumOver_single {M : Type} [AddCommMonoid M] {f : Env → M} {i : Sym} {x : Ix} : ∀ (rs : List Range), (∀ r ∈ rs, r.sym ≠ i ∧ r.sym ∉ x.syms) → ∀ ρ : Env,
    sumOver rs (fun ρ => f (ρ.over (single i x))) ρ = sumOver rs f (ρ.over (single i x))
  | [], _, ρ => rfl
  | r :: rs, h, ρ => by
    simp only [sumOver]
    congr 1
    apply List.map_congr_left
    intro v _
    rw [sumOver_single rs (fun y hy => h y (by simp [hy]))]
    congr 1
    obtain ⟨h1, h2⟩ := h r (by simp)
    funext k
    unfold Env.over Env.upd single
    by_cases hk : k = i
    · subst hk
      simp only [if_true, Option.getD_some, Ne.symm h1, if_false]
      exact Ix.eval_congr (fun s hs => if_neg (fun (hc : s = r.sym) => h2 (hc ▸ hs)))
    · simp [hk, Ix.eval]

theorem substRanges_single {i : Sym} {x : Ix} : ∀ {rs rs' : List Range}, substRanges (single i x) rs = .ok rs' → (∀ r ∈ rs, r.sym ≠ i) → rs' = rs
  | [], rs', h, _ => by cases h; rfl
  | r :: rs, rs', h, hn => by
    obtain ⟨q, qs, h1, h2, rfl⟩ := mapM_ok_cons h
    rw [substRanges_single h2 (fun y hy => hn y (by simp [hy]))]
    congr 1
    have h4 : (single i x) r.sym = none := if_neg (hn r (by simp))
    simp only [Range.subst, h4, Option.getD_none] at h1
    cases r <;> (simp only [Range.sym] at h1; cases h1; rfl)

theorem Term.eval_subst_single (I : Interp S R) {i : Sym} {x : Ix} : ∀ (t t' : Term), t.subst (single i x) = .ok t' → NoCapture i x t →
    ∀ ρ, t'.eval I ρ = t.eval I (ρ.over (single i x))
  | .fn f xs, t', h, hn, ρ => by cases h; simp only [Term.eval, Ix.evals_subst]
  | .scal c xs t, t', h, hn, ρ => by
    obtain ⟨u, h1, rfl⟩ := Except.map_ok h
    simp only [Term.eval, Ix.evals_subst, Term.eval_subst_single I t u h1 hn]
  | .delta a b t, t', h, hn, ρ => by
    obtain ⟨u, h1, rfl⟩ := Except.map_ok h
    simp only [Term.eval, Ix.eval_subst, Term.eval_subst_single I t u h1 hn]
  | .pw r y t, t', h, hn, ρ => by
    obtain ⟨u, h1, rfl⟩ := Except.map_ok h
    simp only [Term.eval, Ix.eval_subst, Term.eval_subst_single I t u h1 hn]
  | .nmul m t, t', h, hn, ρ => by
    obtain ⟨u, h1, rfl⟩ := Except.map_ok h
    simp only [Term.eval, Term.eval_subst_single I t u h1 hn]
  | .add a b, t', h, hn, ρ => by
    obtain ⟨a', h1, h⟩ := Except.bind_ok h
    obtain ⟨b', h2, h⟩ := Except.bind_ok h
    cases h
    simp only [Term.eval, Term.eval_subst_single I a a' h1 (fun s hs => hn s (by simp [Term.bound, hs])),
      Term.eval_subst_single I b b' h2 (fun s hs => hn s (by simp [Term.bound, hs]))]
  | .mul a b, t', h, hn, ρ => by
    obtain ⟨a', h1, h⟩ := Except.bind_ok h
    obtain ⟨b', h2, h⟩ := Except.bind_ok h
    cases h
    simp only [Term.eval, Term.eval_subst_single I a a' h1 (fun s hs => hn s (by simp [Term.bound, hs])),
      Term.eval_subst_single I b b' h2 (fun s hs => hn s (by simp [Term.bound, hs]))]
  | .sum t rs, t', h, hn, ρ => by
    obtain ⟨u, h1, h⟩ := Except.bind_ok h
    obtain ⟨rs', h2, h⟩ := Except.bind_ok h
    obtain ⟨rfl, _⟩ := mkSum_ok h
    have hr : ∀ r ∈ rs, r.sym ≠ i ∧ r.sym ∉ x.syms := fun r hr => hn r.sym (by simp only [Term.bound, List.mem_append, List.mem_map]; exact Or.inr ⟨r, hr, rfl⟩)
    rw [substRanges_single h2 (fun r h => (hr r h).1)]
    simp only [Term.eval]
    rw [← sumOver_single rs hr]
    congr 1
    funext ρ'
    exact Term.eval_subst_single I t u h1 (fun s hs => hn s (by simp only [Term.bound, List.mem_append]; exact Or.inl hs)) ρ'

end QNET.Indexed
