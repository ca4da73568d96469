import Mathlib.Algebra.Star.Basic
import Mathlib.Tactic.NoncommRing

/-!
# Reading expressions (specification for C73)

The usual conventions for reading a formula: products bind stronger than sums, a sum over an index extends over the following product,
`^H` applies to the factor before it, a sign applies to the following product, factors may follow each other without a product sign.
-/

namespace QNET.Ascii

/-- a name and its arguments (0: none) -/
abbrev Sym := ℕ × ℕ

/-- the symbols of a formula; `leaf`: an operator symbol, `ket`/`bra`: `|l>` and `<l|`, `sc`: a scalar without sign, `big`: a sum sign with its indices -/
inductive Tok where
  | leaf (l : Sym)
  | ket (l : ℕ)
  | bra (l : ℕ)
  | sc (s : ℕ)
  | big (i : ℕ)
  | one | zero | plus | minus | mul | dag | lpar | rpar | lbr | rbr | comma
  deriving DecidableEq, Repr

/-- formulas -/
inductive Tree where
  | leaf (l : Sym)
  | ket (l : ℕ)
  | bra (l : ℕ)
  | sc (s : ℕ)
  | one | zero
  | neg (t : Tree)
  | add (a b : Tree)
  | sub (a b : Tree)
  | mul (a b : Tree)
  | star (t : Tree)
  | comm (a b : Tree)
  | big (i : ℕ) (t : Tree)
  deriving DecidableEq, Repr

/-- tokens a factor can begin with -/
def starts : List Tok → Bool
  | .leaf _ :: _ => true
  | .ket _ :: _ => true
  | .bra _ :: _ => true
  | .sc _ :: _ => true
  | .one :: _ => true
  | .zero :: _ => true
  | .lpar :: _ => true
  | .lbr :: _ => true
  | _ => false

mutual
/-- a sum: an optional sign, a term, and more terms with signs -/
def pSum : ℕ → List Tok → Option (Tree × List Tok)
  | 0, _ => none
  | n + 1, .minus :: r => (pTerm n r).bind fun x => pSumLoop n (.neg x.1) x.2
  | n + 1, ts => (pTerm n ts).bind fun x => pSumLoop n x.1 x.2
def pSumLoop : ℕ → Tree → List Tok → Option (Tree × List Tok)
  | 0, _, _ => none
  | n + 1, acc, .plus :: r => (pTerm n r).bind fun x => pSumLoop n (.add acc x.1) x.2
  | n + 1, acc, .minus :: r => (pTerm n r).bind fun x => pSumLoop n (.sub acc x.1) x.2
  | _ + 1, acc, ts => some (acc, ts)
/-- a term: a product, or a sum over an index of a term -/
def pTerm : ℕ → List Tok → Option (Tree × List Tok)
  | 0, _ => none
  | n + 1, .big i :: r => (pTerm n r).bind fun x => some (.big i x.1, x.2)
  | n + 1, ts => pProd n ts
/-- a product -/
def pProd : ℕ → List Tok → Option (Tree × List Tok)
  | 0, _ => none
  | n + 1, ts => (pFac n ts).bind fun x => pProdLoop n x.1 x.2
def pProdLoop : ℕ → Tree → List Tok → Option (Tree × List Tok)
  | 0, _, _ => none
  | n + 1, acc, .mul :: r => (pFac n r).bind fun x => pProdLoop n (.mul acc x.1) x.2
  | n + 1, acc, ts => if starts ts then (pFac n ts).bind fun x => pProdLoop n (.mul acc x.1) x.2 else some (acc, ts)
/-- a factor: a symbol, a formula in parentheses or a commutator, followed by any number of `^H` -/
def pFac : ℕ → List Tok → Option (Tree × List Tok)
  | 0, _ => none
  | n + 1, ts => (pBase n ts).bind fun x => pDag n x.1 x.2
def pDag : ℕ → Tree → List Tok → Option (Tree × List Tok)
  | 0, _, _ => none
  | n + 1, acc, .dag :: r => pDag n (.star acc) r
  | _ + 1, acc, ts => some (acc, ts)
def pBase : ℕ → List Tok → Option (Tree × List Tok)
  | 0, _ => none
  | _ + 1, .leaf l :: r => some (.leaf l, r)
  | _ + 1, .ket l :: r => some (.ket l, r)
  | _ + 1, .bra l :: r => some (.bra l, r)
  | _ + 1, .sc s :: r => some (.sc s, r)
  | _ + 1, .one :: r => some (.one, r)
  | _ + 1, .zero :: r => some (.zero, r)
  | n + 1, .lpar :: r => (pSum n r).bind fun x => match x.2 with
    | .rpar :: r => some (x.1, r)
    | _ => none
  | n + 1, .lbr :: r => (pSum n r).bind fun x => match x.2 with
    | .comma :: r => (pSum n r).bind fun y => match y.2 with
      | .rbr :: r => some (.comm x.1 y.1, r)
      | _ => none
    | _ => none
  | _ + 1, _ => none
end

/-- `ts` is read as `t` (the number bounds the depth of the recursion) -/
def Reads (ts : List Tok) (t : Tree) : Prop := ∃ N, ∀ n ≥ N, pSum n ts = some (t, [])

/-- a text is read in at most one way -/
theorem Reads.unique {ts : List Tok} {t t' : Tree} (h : Reads ts t) (h' : Reads ts t') : t = t' := by
  obtain ⟨N, h⟩ := h
  obtain ⟨M, h'⟩ := h'
  have := (h (max N M) (le_max_left ..)).symm.trans (h' (max N M) (le_max_right ..))
  simpa using this

/-! ### Values -/

/-- What the symbols stand for, in a ring with an involution that contains operators, states (as maps to and from a trivial space) and scalars.
Scalars commute with everything; sums over an index are additive and compatible with the adjoint. -/
structure Val (A : Type*) [Ring A] [StarRing A] where
  leaf : Sym → A
  ket : ℕ → A
  sc : ℕ → A
  sc_comm : ∀ s a, sc s * a = a * sc s
  big : ℕ → A →+ A
  big_star : ∀ i a, star (big i a) = big i (star a)

variable {A : Type*} [Ring A] [StarRing A]

def Tree.den (v : Val A) : Tree → A
  | .leaf l => v.leaf l
  | .ket l => v.ket l
  | .bra l => Star.star (v.ket l)
  | .sc s => v.sc s
  | .one => 1
  | .zero => 0
  | .neg t => -t.den v
  | .add a b => a.den v + b.den v
  | .sub a b => a.den v - b.den v
  | .mul a b => a.den v * b.den v
  | .star t => Star.star (t.den v)
  | .comm a b => a.den v * b.den v - b.den v * a.den v
  | .big i t => v.big i (t.den v)

/-- the text has the value `x` -/
def HasValue (v : Val A) (ts : List Tok) (x : A) : Prop := ∃ t, Reads ts t ∧ t.den v = x

/-! ### A grammar for the texts with a given value -/

mutual
inductive IsSum (v : Val A) : List Tok → A → Prop
  | term {p : List Tok} {x : A} : IsTerm v p x → IsSum v p x
  | neg {p : List Tok} {x : A} : IsTerm v p x → IsSum v (.minus :: p) (-x)
  | add {s p : List Tok} {x y : A} : IsSum v s x → IsTerm v p y → IsSum v (s ++ .plus :: p) (x + y)
  | sub {s p : List Tok} {x y : A} : IsSum v s x → IsTerm v p y → IsSum v (s ++ .minus :: p) (x - y)
inductive IsTerm (v : Val A) : List Tok → A → Prop
  | prod {p : List Tok} {x : A} : IsProd v p x → IsTerm v p x
  | big {p : List Tok} {x : A} (i : ℕ) : IsTerm v p x → IsTerm v (.big i :: p) (v.big i x)
inductive IsProd (v : Val A) : List Tok → A → Prop
  | fac {p : List Tok} {x : A} : IsFac v p x → IsProd v p x
  | mul {p f : List Tok} {x y : A} : IsProd v p x → IsFac v f y → IsProd v (p ++ .mul :: f) (x * y)
  | jux {p f : List Tok} {x y : A} : IsProd v p x → IsFac v f y → IsProd v (p ++ f) (x * y)
inductive IsFac (v : Val A) : List Tok → A → Prop
  | leaf (l : Sym) : IsFac v [.leaf l] (v.leaf l)
  | ket (l : ℕ) : IsFac v [.ket l] (v.ket l)
  | bra (l : ℕ) : IsFac v [.bra l] (Star.star (v.ket l))
  | sc (s : ℕ) : IsFac v [.sc s] (v.sc s)
  | one : IsFac v [.one] 1
  | zero : IsFac v [.zero] 0
  | dag {f : List Tok} {x : A} : IsFac v f x → IsFac v (f ++ [.dag]) (Star.star x)
  | paren {s : List Tok} {x : A} : IsSum v s x → IsFac v (.lpar :: (s ++ [.rpar])) x
  | comm {s t : List Tok} {x y : A} : IsSum v s x → IsSum v t y → IsFac v (.lbr :: (s ++ .comma :: (t ++ [.rbr]))) (x * y - y * x)
end

/-! ### The reader finds the value -/

theorem IsFac.starts {v : Val A} {f : List Tok} {x : A} : IsFac v f x → ∀ r, Ascii.starts (f ++ r) = true
  | .leaf _, _ => rfl
  | .ket _, _ => rfl
  | .bra _, _ => rfl
  | .sc _, _ => rfl
  | .one, _ => rfl
  | .zero, _ => rfl
  | .dag h, r => by rw [List.append_assoc]; exact h.starts _
  | .paren _, _ => rfl
  | .comm _ _, _ => rfl

theorem starts_not {ts : List Tok} (h : starts ts = true) : (∀ r, ts ≠ .mul :: r) ∧ (∀ r, ts ≠ .minus :: r) ∧ (∀ r, ts ≠ .plus :: r) ∧ (∀ i r, ts ≠ .big i :: r) ∧ (∀ r, ts ≠ .dag :: r) := by
  refine ⟨?_, ?_, ?_, ?_, ?_⟩ <;> intros <;> rintro rfl <;> cases h

theorem IsProd.starts {v : Val A} {f : List Tok} {x : A} : IsProd v f x → ∀ r, Ascii.starts (f ++ r) = true
  | .fac h, r => h.starts r
  | .mul h _, r => by rw [List.append_assoc]; exact h.starts _
  | .jux h _, r => by rw [List.append_assoc]; exact h.starts _

theorem IsTerm.no_minus {v : Val A} {f : List Tok} {x : A} : IsTerm v f x → ∀ r r', f ++ r ≠ .minus :: r'
  | .prod h, r, r' => (starts_not (h.starts r)).2.1 r'
  | .big i h, r, r' => by simp

/-- what may follow a term -/
def StopP (r : List Tok) : Prop := starts r = false ∧ (∀ r', r ≠ .mul :: r') ∧ ∀ r', r ≠ .dag :: r'
/-- what may follow a sum -/
def StopS (r : List Tok) : Prop := StopP r ∧ (∀ r', r ≠ .plus :: r') ∧ ∀ r', r ≠ .minus :: r'

theorem stopP_cons {t : Tok} {r : List Tok} (h : t = .plus ∨ t = .minus ∨ t = .rpar ∨ t = .rbr ∨ t = .comma) : StopP (t :: r) := by
  rcases h with rfl | rfl | rfl | rfl | rfl <;> exact ⟨rfl, by simp, by simp⟩
theorem stopS_cons {t : Tok} {r : List Tok} (h : t = .rpar ∨ t = .rbr ∨ t = .comma) : StopS (t :: r) := by
  rcases h with rfl | rfl | rfl <;> exact ⟨⟨rfl, by simp, by simp⟩, by simp, by simp⟩
theorem stopS_nil : StopS [] := ⟨⟨rfl, by simp, by simp⟩, by simp, by simp⟩

theorem pSum_of {ts : List Tok} (h : ∀ r, ts ≠ .minus :: r) (n : ℕ) : pSum (n + 1) ts = (pTerm n ts).bind fun x => pSumLoop n x.1 x.2 := by
  rw [pSum]
  exact fun r => h r
theorem pTerm_of {ts : List Tok} (h : ∀ i r, ts ≠ .big i :: r) (n : ℕ) : pTerm (n + 1) ts = pProd n ts := by
  rw [pTerm]
  exact fun i r => h i r
theorem pProdLoop_of {ts : List Tok} (h : starts ts = true) (acc : Tree) (n : ℕ) : pProdLoop (n + 1) acc ts = (pFac n ts).bind fun x => pProdLoop n (.mul acc x.1) x.2 := by
  rw [pProdLoop, if_pos h]
  exact fun r => (starts_not h).1 r
theorem pProdLoop_stop {ts : List Tok} (h : StopP ts) (acc : Tree) (n : ℕ) : pProdLoop (n + 1) acc ts = some (acc, ts) := by
  rw [pProdLoop, if_neg (by simp [h.1])]
  exact fun r => h.2.1 r
theorem pSumLoop_stop {ts : List Tok} (h : StopS ts) (acc : Tree) (n : ℕ) : pSumLoop (n + 1) acc ts = some (acc, ts) := by
  rw [pSumLoop]
  · exact fun r => h.2.1 r
  · exact fun r => h.2.2 r
theorem pDag_stop {ts : List Tok} (h : ∀ r, ts ≠ .dag :: r) (acc : Tree) (n : ℕ) : pDag (n + 1) acc ts = some (acc, ts) := by
  rw [pDag]
  exact fun r => h r

/-- the reader of factors, with the `^H` still to come -/
def FacOk (v : Val A) (f : List Tok) (x : A) : Prop := ∃ t : Tree, t.den v = x ∧ ∃ N k : ℕ, ∀ n ≥ N, ∀ r, pFac (n + k) (f ++ r) = pDag n t r
def ProdOk (v : Val A) (p : List Tok) (x : A) : Prop := ∃ t : Tree, t.den v = x ∧ ∃ N k : ℕ, ∀ n ≥ N, ∀ r, (∀ r', r ≠ .dag :: r') → pProd (n + k) (p ++ r) = pProdLoop n t r
def TermOk (v : Val A) (p : List Tok) (x : A) : Prop := ∃ t : Tree, t.den v = x ∧ ∃ N : ℕ, ∀ n ≥ N, ∀ r, StopP r → pTerm n (p ++ r) = some (t, r)
def SumOk (v : Val A) (p : List Tok) (x : A) : Prop := ∃ t : Tree, t.den v = x ∧ ∃ N k : ℕ, ∀ n ≥ N, ∀ r, StopP r → pSum (n + k) (p ++ r) = pSumLoop n t r

theorem FacOk.base {v : Val A} {f : List Tok} {t : Tree} {N : ℕ} (h : ∀ n ≥ N, ∀ r, pBase n (f ++ r) = some (t, r)) : FacOk v f (t.den v) :=
  ⟨t, rfl, N, 1, fun n hn r => by rw [pFac, h n hn]; rfl⟩

theorem FacOk.tok {v : Val A} {a : Tok} {t : Tree} (h : ∀ n r, pBase (n + 1) (a :: r) = some (t, r)) : FacOk v [a] (t.den v) :=
  .base (N := 1) fun n hn r => by
    obtain ⟨n, rfl⟩ := Nat.exists_eq_add_of_le' hn
    exact h n r

/-- a factor is read until something other than `^H` follows -/
theorem FacOk.stop {v : Val A} {f : List Tok} {x : A} (h : FacOk v f x) : ∃ t : Tree, t.den v = x ∧ ∃ N : ℕ, ∀ n ≥ N, ∀ r, (∀ r', r ≠ .dag :: r') → pFac n (f ++ r) = some (t, r) := by
  obtain ⟨t, ht, N, k, h⟩ := h
  refine ⟨t, ht, N + 1 + k, fun n hn r hr => ?_⟩
  obtain ⟨m, rfl⟩ := Nat.exists_eq_add_of_le' hn
  rw [show m + (N + 1 + k) = (m + N + 1) + k by omega, h _ (by omega), pDag_stop hr]

theorem SumOk.stop {v : Val A} {s : List Tok} {x : A} (h : SumOk v s x) : ∃ t : Tree, t.den v = x ∧ ∃ N : ℕ, ∀ n ≥ N, ∀ r, StopS r → pSum n (s ++ r) = some (t, r) := by
  obtain ⟨t, ht, N, k, h⟩ := h
  refine ⟨t, ht, N + 1 + k, fun n hn r hr => ?_⟩
  obtain ⟨m, rfl⟩ := Nat.exists_eq_add_of_le' hn
  rw [show m + (N + 1 + k) = (m + N + 1) + k by omega, h _ (by omega) r hr.1, pSumLoop_stop hr]

mutual
theorem IsFac.ok {v : Val A} {f : List Tok} {x : A} : IsFac v f x → FacOk v f x
  | .leaf l => .tok (t := .leaf l) fun n r => rfl
  | .ket l => .tok (t := .ket l) fun n r => rfl
  | .bra l => .tok (t := .bra l) fun n r => rfl
  | .sc s => .tok (t := .sc s) fun n r => rfl
  | .one => .tok (t := .one) fun n r => rfl
  | .zero => .tok (t := .zero) fun n r => rfl
  | .dag h => by
    obtain ⟨t, ht, N, k, h⟩ := h.ok
    refine ⟨.star t, by rw [Tree.den, ht], N, k + 1, fun n hn r => ?_⟩
    rw [List.append_assoc, show n + (k + 1) = (n + 1) + k by omega, h _ (by omega)]
    rfl
  | .paren h => by
    obtain ⟨t, ht, N, h⟩ := h.ok.stop
    rw [← ht]
    refine .base (N := N + 1) fun n hn r => ?_
    obtain ⟨m, rfl⟩ := Nat.exists_eq_add_of_le' hn
    rw [List.cons_append, List.append_assoc, List.singleton_append, show m + (N + 1) = (m + N) + 1 by omega, pBase, h _ (by omega) _ (stopS_cons (.inl rfl))]
    rfl
  | .comm h h' => by
    obtain ⟨t, ht, N, h⟩ := h.ok.stop
    obtain ⟨t', ht', N', h'⟩ := h'.ok.stop
    rw [← ht, ← ht']
    refine .base (t := .comm t t') (N := N + N' + 1) fun n hn r => ?_
    obtain ⟨m, rfl⟩ := Nat.exists_eq_add_of_le' hn
    rw [List.cons_append, List.append_assoc, List.cons_append, List.append_assoc, List.singleton_append, show m + (N + N' + 1) = (m + N + N') + 1 by omega, pBase,
      h _ (by omega) _ (stopS_cons (.inr (.inr rfl)))]
    dsimp only [Option.bind_some]
    rw [h' _ (by omega) _ (stopS_cons (.inr (.inl rfl)))]
    rfl
theorem IsProd.ok {v : Val A} {p : List Tok} {x : A} : IsProd v p x → ProdOk v p x
  | .fac h => by
    obtain ⟨t, ht, N, h⟩ := h.ok.stop
    refine ⟨t, ht, N, 1, fun n hn r hr => ?_⟩
    rw [pProd, h n hn r hr]
    rfl
  | .mul h h' => by
    obtain ⟨t, ht, N, k, h⟩ := h.ok
    obtain ⟨t', ht', N', h'⟩ := h'.ok.stop
    refine ⟨.mul t t', by rw [Tree.den, ht, ht'], N + N', k + 1, fun n hn r hr => ?_⟩
    rw [List.append_assoc, show n + (k + 1) = (n + 1) + k by omega, h _ (by omega) _ (by simp), List.cons_append, pProdLoop, h' n (by omega) r hr]
    rfl
  | .jux h h0 => by
    obtain ⟨t, ht, N, k, h⟩ := h.ok
    obtain ⟨t', ht', N', h'⟩ := h0.ok.stop
    refine ⟨.mul t t', by rw [Tree.den, ht, ht'], N + N', k + 1, fun n hn r hr => ?_⟩
    have hs := h0.starts r
    rw [List.append_assoc, show n + (k + 1) = (n + 1) + k by omega, h _ (by omega) _ (starts_not hs).2.2.2.2, pProdLoop_of hs, h' n (by omega) r hr]
    rfl
theorem IsTerm.ok {v : Val A} {p : List Tok} {x : A} : IsTerm v p x → TermOk v p x
  | .prod h0 => by
    obtain ⟨t, ht, N, k, h⟩ := h0.ok
    refine ⟨t, ht, N + 1 + k + 1, fun n hn r hr => ?_⟩
    obtain ⟨m, rfl⟩ := Nat.exists_eq_add_of_le' hn
    rw [show m + (N + 1 + k + 1) = (m + N + 1 + k) + 1 by omega, pTerm_of (starts_not (h0.starts r)).2.2.2.1, h _ (by omega) r hr.2.2, pProdLoop_stop hr]
  | .big i h => by
    obtain ⟨t, ht, N, h⟩ := h.ok
    refine ⟨.big i t, by rw [Tree.den, ht], N + 1, fun n hn r hr => ?_⟩
    obtain ⟨m, rfl⟩ := Nat.exists_eq_add_of_le' hn
    rw [show m + (N + 1) = (m + N) + 1 by omega, List.cons_append, pTerm, h _ (by omega) r hr]
    rfl
theorem IsSum.ok {v : Val A} {p : List Tok} {x : A} : IsSum v p x → SumOk v p x
  | .term h0 => by
    obtain ⟨t, ht, N, h⟩ := h0.ok
    refine ⟨t, ht, N, 1, fun n hn r hr => ?_⟩
    rw [pSum_of (h0.no_minus r), h n hn r hr]
    rfl
  | .neg h0 => by
    obtain ⟨t, ht, N, h⟩ := h0.ok
    refine ⟨.neg t, by rw [Tree.den, ht], N, 1, fun n hn r hr => ?_⟩
    rw [List.cons_append, pSum, h n hn r hr]
    rfl
  | .add h h' => by
    obtain ⟨t, ht, N, k, h⟩ := h.ok
    obtain ⟨t', ht', N', h'⟩ := h'.ok
    refine ⟨.add t t', by rw [Tree.den, ht, ht'], N + N', k + 1, fun n hn r hr => ?_⟩
    rw [List.append_assoc, List.cons_append, show n + (k + 1) = (n + 1) + k by omega, h _ (by omega) _ (stopP_cons (.inl rfl)), pSumLoop, h' n (by omega) r hr]
    rfl
  | .sub h h' => by
    obtain ⟨t, ht, N, k, h⟩ := h.ok
    obtain ⟨t', ht', N', h'⟩ := h'.ok
    refine ⟨.sub t t', by rw [Tree.den, ht, ht'], N + N', k + 1, fun n hn r hr => ?_⟩
    rw [List.append_assoc, List.cons_append, show n + (k + 1) = (n + 1) + k by omega, h _ (by omega) _ (stopP_cons (.inr (.inl rfl))), pSumLoop, h' n (by omega) r hr]
    rfl
end

/-- a text of the grammar is read, with the value of the grammar -/
theorem IsSum.hasValue {v : Val A} {ts : List Tok} {x : A} (h : IsSum v ts x) : HasValue v ts x := by
  obtain ⟨t, ht, N, h⟩ := h.ok.stop
  refine ⟨t, ⟨N, fun n hn => ?_⟩, ht⟩
  have := h n hn [] stopS_nil
  rwa [List.append_nil] at this

theorem HasValue.unique {v : Val A} {ts : List Tok} {x y : A} (h : HasValue v ts x) (h' : HasValue v ts y) : x = y := by
  obtain ⟨t, h, rfl⟩ := h
  obtain ⟨t', h', rfl⟩ := h'
  rw [h.unique h']

end QNET.Ascii
