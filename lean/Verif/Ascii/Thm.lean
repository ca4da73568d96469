import Verif.Ascii.Print
import Mathlib.Algebra.BigOperators.Group.List.Lemmas
import Mathlib.Algebra.Star.BigOperators

/-!
# Printed formulas have the value of the expression (C73)
-/

namespace QNET.Ascii

variable {A : Type*} [Ring A] [StarRing A]

/-! ### Values of expressions -/

def STxt.den (v : Val A) (s : STxt) : A :=
  (if s.neg then -v.sc s.first else v.sc s.first) + (s.more.map fun x => if x.1 then -v.sc x.2 else v.sc x.2).sum

def Coef.den (v : Val A) : Coef → A
  | .minusOne => -1
  | .gen t _ _ => t.den v

mutual
/-- the operator or state an expression stands for -/
def Ex.den (v : Val A) : Ex → A
  | .sym l => v.leaf l
  | .loc l d => if d then star (v.leaf l) else v.leaf l
  | .ket l => v.ket l
  | .one => 1
  | .zero => 0
  | .plus es => (dens v es).sum
  | .times es => (dens v es).prod
  | .smul c e => c.den v * e.den v
  | .adj e => star (e.den v)
  | .comm a b => a.den v * b.den v - b.den v * a.den v
  | .opket op k => op.den v * k.den v
  | .bra k => star (k.den v)
  | .ketbra k b => k.den v * star (b.den v)
  | .braket b k => star (b.den v) * k.den v
  | .isum i e => v.big i (e.den v)
def dens (v : Val A) : List Ex → List A
  | [] => []
  | e :: es => e.den v :: dens v es
end

/-- the value of an expression or of its adjoint -/
def val (v : Val A) (a : Bool) (e : Ex) : A := if a then star (e.den v) else e.den v

/-! ### Which expressions are printed correctly -/

/-- the text of the conjugate is right -/
def Coef.Ok (v : Val A) : Coef → Prop
  | .minusOne => True
  | .gen t c _ => c.den v = star (t.den v) ∧ (c.more = [] ↔ t.more = [])

/-- a sum made with QNET's `ScalarPlus` -/
def Coef.qnetSum : Coef → Bool
  | .minusOne => false
  | .gen t _ q => q && !t.more.isEmpty

/-- expressions that count as a product although their text is a sum or has a sign: a scalar sum times the identity, a scalar whose conjugate has a sign, the adjoint of `Adjoint(A + B)` -/
def Loose (a : Bool) : Ex → Bool
  | .smul (.gen x y _) e => !x.neg && ((if a then y else x).neg || (!x.more.isEmpty && pp a e == some [.one]))
  | .adj (.sym _) => false
  | .adj (.loc _ _) => false
  | .adj e => a && (decide (prec e < 50) || Loose false e)
  | .bra k => Loose (!a) k
  | _ => false

mutual
/-- no part of the expression has one of the shapes for which the printer is wrong; the conditions other than the one for coefficients only mention what is printed -/
def Tidy (v : Val A) (a : Bool) : Ex → Prop
  | .sym _ => True
  | .loc _ _ => True
  | .ket _ => True
  | .one => True
  | .zero => True
  | .plus es => es ≠ [] ∧ Tidys v a es
  | .times es => es ≠ [] ∧ Tidys v a es ∧ (∀ e ∈ es, Loose a e = false) ∧ (a = true → (dens v es).Pairwise Commute)
  | .smul c e => c.Ok v ∧ Tidy v a e ∧ Loose a e = false ∧ (c.qnetSum = true → pp a e = some [.one] ∧ 50 ≤ prec e)
  | .adj (.sym l) => l.2 = 0
  | .adj (.loc l _) => l.2 = 0
  | .adj e => Tidy v false e
  | .comm x y => Tidy v false x ∧ Tidy v false y
  | .opket op k => Tidy v a op ∧ Tidy v a k ∧ Loose a op = false ∧ Loose a k = false ∧ (∀ r, pp false op ≠ some (.minus :: r))
  | .bra k => Tidy v (!a) k
  | .ketbra k b => Tidy v a k ∧ Tidy v (!a) b ∧ Loose a k = false ∧ Loose (!a) b = false
  | .braket b k => Tidy v a k ∧ Tidy v (!a) b ∧ Loose a k = false ∧ Loose (!a) b = false
  | .isum _ e => Tidy v a e ∧ Loose a e = false
def Tidys (v : Val A) (a : Bool) : List Ex → Prop
  | [] => True
  | e :: es => Tidy v a e ∧ Tidys v a es
end

/-! ### Signs outside of brackets -/

/-- is there a sign or a sum symbol outside of brackets? (`d`: number of open brackets) -/
def scan : ℕ → List Tok → Bool
  | _, [] => false
  | d, .lpar :: r => scan (d + 1) r
  | d, .lbr :: r => scan (d + 1) r
  | d, .rpar :: r => scan (d - 1) r
  | d, .rbr :: r => scan (d - 1) r
  | d, .plus :: r => d == 0 || scan d r
  | d, .minus :: r => d == 0 || scan d r
  | d, .big _ :: r => d == 0 || scan d r
  | d, _ :: r => scan d r

mutual
theorem IsFac.scan {v : Val A} {f : List Tok} {x : A} : IsFac v f x → ∀ d r, Ascii.scan d (f ++ r) = Ascii.scan d r
  | .leaf _, _, _ => rfl
  | .ket _, _, _ => rfl
  | .bra _, _, _ => rfl
  | .sc _, _, _ => rfl
  | .one, _, _ => rfl
  | .zero, _, _ => rfl
  | .dag h, d, r => by rw [List.append_assoc, h.scan]; rfl
  | .paren h, d, r => by
    rw [List.cons_append, List.append_assoc]
    show Ascii.scan (d + 1) _ = _
    rw [h.scan_in (d + 1) (by omega)]; rfl
  | .comm h h', d, r => by
    rw [List.cons_append, List.append_assoc, List.cons_append, List.append_assoc]
    show Ascii.scan (d + 1) _ = _
    rw [h.scan_in (d + 1) (by omega)]
    show Ascii.scan (d + 1) (_ ++ _) = _
    rw [h'.scan_in (d + 1) (by omega)]; rfl
theorem IsProd.scan {v : Val A} {f : List Tok} {x : A} : IsProd v f x → ∀ d r, Ascii.scan d (f ++ r) = Ascii.scan d r
  | .fac h, d, r => h.scan d r
  | .mul h h', d, r => by
    rw [List.append_assoc, h.scan, List.cons_append]
    exact h'.scan d r
  | .jux h h', d, r => by rw [List.append_assoc, h.scan, h'.scan]
theorem IsTerm.scan_in {v : Val A} {f : List Tok} {x : A} : IsTerm v f x → ∀ d, 0 < d → ∀ r, Ascii.scan d (f ++ r) = Ascii.scan d r
  | .prod h, d, _, r => h.scan d r
  | .big i h, d, hd, r => by
    rw [List.cons_append]
    show (d == 0 || Ascii.scan d _) = _
    rw [h.scan_in d hd, beq_false_of_ne (by omega), Bool.false_or]
theorem IsSum.scan_in {v : Val A} {f : List Tok} {x : A} : IsSum v f x → ∀ d, 0 < d → ∀ r, Ascii.scan d (f ++ r) = Ascii.scan d r
  | .term h, d, hd, r => h.scan_in d hd r
  | .neg h, d, hd, r => by
    rw [List.cons_append]
    show (d == 0 || Ascii.scan d _) = _
    rw [h.scan_in d hd, beq_false_of_ne (by omega), Bool.false_or]
  | .add h h', d, hd, r => by
    rw [List.append_assoc, h.scan_in d hd, List.cons_append]
    show (d == 0 || Ascii.scan d _) = _
    rw [h'.scan_in d hd, beq_false_of_ne (by omega), Bool.false_or]
  | .sub h h', d, hd, r => by
    rw [List.append_assoc, h.scan_in d hd, List.cons_append]
    show (d == 0 || Ascii.scan d _) = _
    rw [h'.scan_in d hd, beq_false_of_ne (by omega), Bool.false_or]
end

theorem IsTerm.scan0 {v : Val A} {f : List Tok} {x : A} : IsTerm v f x → ∀ r, scan 0 (f ++ r) = true ∨ scan 0 (f ++ r) = scan 0 r
  | .prod h, r => .inr (h.scan 0 r)
  | .big i h, r => .inl rfl
theorem IsSum.scan0 {v : Val A} {f : List Tok} {x : A} : IsSum v f x → ∀ r, scan 0 r = true → scan 0 (f ++ r) = true
  | .term h, r, hr => (h.scan0 r).elim id fun h => h.trans hr
  | .neg h, r, hr => rfl
  | .add h h', r, hr => by
    rw [List.append_assoc]
    exact h.scan0 _ rfl
  | .sub h h', r, hr => by
    rw [List.append_assoc]
    exact h.scan0 _ rfl

theorem IsTerm.prod_of {v : Val A} {f : List Tok} {x : A} : IsTerm v f x → scan 0 f = false → IsProd v f x
  | .prod h, _ => h
  | .big i h, hf => by cases hf
/-- a text without signs outside of brackets is a product -/
theorem IsSum.prod_of {v : Val A} {f : List Tok} {x : A} : IsSum v f x → scan 0 f = false → IsProd v f x
  | .term h, hf => h.prod_of hf
  | .neg h, hf => by cases hf
  | .add h h', hf => by rw [h.scan0 _ rfl] at hf; cases hf
  | .sub h h', hf => by rw [h.scan0 _ rfl] at hf; cases hf

theorem IsProd.plain {v : Val A} {f : List Tok} {x : A} (h : IsProd v f x) : Ascii.scan 0 f = false := by
  have := h.scan 0 []
  rwa [List.append_nil] at this

theorem IsFac.isSum {v : Val A} {f : List Tok} {x : A} (h : IsFac v f x) : IsSum v f x := .term (.prod (.fac h))
theorem IsProd.isSum {v : Val A} {f : List Tok} {x : A} (h : IsProd v f x) : IsSum v f x := .term (.prod h)

theorem IsProd.no_minus {v : Val A} {f : List Tok} {x : A} (h : IsProd v f x) (r : List Tok) : f ≠ .minus :: r := by
  have := (starts_not (h.starts [])).2.1 r
  rwa [List.append_nil] at this

/-- products can be joined -/
theorem IsProd.mul' {v : Val A} {p q : List Tok} {x y : A} (hp : IsProd v p x) : IsProd v q y → IsProd v (p ++ .mul :: q) (x * y)
  | .fac h => .mul hp h
  | .mul h h' => by
    rw [← List.cons_append, ← List.append_assoc, ← mul_assoc]
    exact .mul (hp.mul' h) h'
  | .jux h h' => by
    rw [← List.cons_append, ← List.append_assoc, ← mul_assoc]
    exact .jux (hp.mul' h) h'
theorem IsProd.jux' {v : Val A} {p q : List Tok} {x y : A} (hp : IsProd v p x) : IsProd v q y → IsProd v (p ++ q) (x * y)
  | .fac h => .jux hp h
  | .mul h h' => by
    rw [← List.append_assoc, ← mul_assoc]
    exact .mul (hp.jux' h) h'
  | .jux h h' => by
    rw [← List.append_assoc, ← mul_assoc]
    exact .jux (hp.jux' h) h'

/-- a text with a sign in front -/
def withSign (ts : List Tok) : List Tok := if startsMinus ts then ts else .plus :: ts

theorem IsSum.ne_nil {v : Val A} {s : List Tok} {x : A} : IsSum v s x → s ≠ []
  | .term (.prod h) => by
    rintro rfl
    have := h.starts []
    cases this
  | .term (.big i h) => by simp
  | .neg h => by simp
  | .add h h' => by simp
  | .sub h h' => by simp

theorem startsMinus_append {s : List Tok} (h : s ≠ []) (r : List Tok) : startsMinus (s ++ r) = startsMinus s := by
  obtain - | ⟨t, s⟩ := s
  · exact absurd rfl h
  · cases t <;> rfl

theorem startsMinus_iff {s : List Tok} : startsMinus s = true ↔ ∃ r, s = .minus :: r := by
  obtain - | ⟨t, s⟩ := s
  · simp [startsMinus]
  · cases t <;> simp [startsMinus]

theorem IsTerm.startsMinus {v : Val A} {s : List Tok} {x : A} (h : IsTerm v s x) : Ascii.startsMinus s = false := by
  by_contra hc
  obtain ⟨r, hr⟩ := startsMinus_iff.mp (by simpa using hc)
  have := h.no_minus [] r
  rw [List.append_nil] at this
  exact this hr

/-- sums can be joined -/
theorem IsSum.append {v : Val A} {s t : List Tok} {x y : A} (hs : IsSum v s x) : IsSum v t y → IsSum v (s ++ withSign t) (x + y)
  | .term h => by
    rw [withSign, h.startsMinus]
    exact .add hs h
  | .neg h => by
    rw [← sub_eq_add_neg]
    exact .sub hs h
  | .add h h' => by
    have := hs.append h
    rw [withSign, startsMinus_append h.ne_nil, ← add_assoc]
    rw [withSign] at this
    split_ifs with hc
    · rw [if_pos hc] at this
      rw [← List.append_assoc]
      exact .add this h'
    · rw [if_neg hc] at this
      rw [← List.cons_append, ← List.append_assoc]
      exact .add this h'
  | .sub h h' => by
    have := hs.append h
    rw [withSign, startsMinus_append h.ne_nil, ← add_sub_assoc]
    rw [withSign] at this
    split_ifs with hc
    · rw [if_pos hc] at this
      rw [← List.append_assoc]
      exact .sub this h'
    · rw [if_neg hc] at this
      rw [← List.cons_append, ← List.append_assoc]
      exact .sub this h'

theorem IsSum.parens {v : Val A} {s : List Tok} {x : A} (h : IsSum v s x) : IsProd v (Ascii.parens s) x := .fac (.paren h)

theorem par_isProd {v : Val A} {s : List Tok} {x : A} {l p : ℕ} (h : IsSum v s x) (h' : l ≤ p → scan 0 s = false) : IsProd v (par l p s) x := by
  rw [par]
  split_ifs with hc
  · exact h.parens
  · exact h.prod_of (h' (by omega))

/-! ### Scalars -/

theorem STxt.sum_more {v : Val A} : ∀ (l : List (Bool × ℕ)) (s : List Tok) (x : A), IsSum v s x →
    IsSum v (s ++ l.flatMap fun x => [if x.1 then .minus else .plus, .sc x.2]) (x + (l.map fun x => if x.1 then -v.sc x.2 else v.sc x.2).sum)
  | [], s, x, h => by simpa using h
  | (b, c) :: l, s, x, h => by
    rw [List.flatMap_cons, ← List.append_assoc, List.map_cons, List.sum_cons, ← add_assoc]
    refine sum_more l _ _ ?_
    cases b
    · exact h.add (.prod (.fac (.sc c)))
    · simp only [if_true, ← sub_eq_add_neg]
      exact h.sub (.prod (.fac (.sc c)))

theorem STxt.isSum (v : Val A) (s : STxt) : IsSum v s.toks (s.den v) := by
  rw [STxt.toks, STxt.den, show Tok.sc s.first :: (s.more.flatMap fun x => [if x.1 then Tok.minus else .plus, .sc x.2]) = [.sc s.first] ++ _ from rfl, ← List.append_assoc]
  refine STxt.sum_more _ _ _ ?_
  cases s.neg
  · exact IsFac.isSum (.sc _)
  · exact .neg (.prod (.fac (.sc _)))

theorem STxt.plain {s : STxt} (h : s.neg = false) (h' : s.more = []) : scan 0 s.toks = false := by
  rw [STxt.toks, h, h']; rfl

theorem STxt.comm (v : Val A) (s : STxt) (x : A) : Commute (s.den v) x := by
  have hc : ∀ c : ℕ, Commute (v.sc c) x := fun c => v.sc_comm c x
  refine Commute.add_left ?_ (Commute.list_sum_left _ _ fun y hy => ?_)
  · cases s.neg
    · exact hc _
    · exact (hc _).neg_left
  · obtain ⟨⟨b, c⟩, -, rfl⟩ := List.mem_map.mp hy
    cases b
    · exact hc _
    · exact (hc _).neg_left

/-! ### The main induction -/

theorem prec_cases : ∀ e : Ex, prec e = 40 ∨ 50 ≤ prec e
  | .sym _ => .inr (by simp [prec])
  | .loc _ _ => .inr (by simp [prec])
  | .ket _ => .inr (by simp [prec])
  | .one => .inr (by simp [prec])
  | .zero => .inr (by simp [prec])
  | .plus _ => .inl (by simp [prec])
  | .times _ => .inr (by simp [prec])
  | .smul c _ => by rw [prec]; split_ifs <;> simp
  | .adj _ => .inr (by simp [prec])
  | .comm _ _ => .inr (by simp [prec])
  | .opket op _ => by rw [prec]; split <;> [split_ifs <;> simp; simp]
  | .bra k => by rw [prec]; exact prec_cases k
  | .ketbra _ _ => .inr (by simp [prec])
  | .braket _ _ => .inr (by simp [prec])
  | .isum _ _ => .inl (by simp [prec])

theorem joinMul_isProd {v : Val A} : ∀ {ts : List (List Tok)} {xs : List A}, List.Forall₂ (IsProd v) ts xs → ts ≠ [] → IsProd v (joinMul ts) xs.prod
  | _, _, .nil, h => absurd rfl h
  | _, _, .cons h .nil, _ => by simpa [joinMul] using h
  | _, _, .cons (a := t) (b := x) h (.cons (a := t') (l₁ := ts) h' hs), _ => by
    have ih := joinMul_isProd (.cons h' hs) (by simp)
    rw [List.prod_cons, show joinMul (t :: t' :: ts) = t ++ .mul :: joinMul (t' :: ts) from rfl]
    exact h.mul' ih

theorem signed_eq {p : ℕ} (hp : 40 ≤ p) (ts : List Tok) : (signed p ts).1 :: (signed p ts).2 = withSign ts ∧ (if (signed p ts).1 = .plus then [] else [(signed p ts).1]) ++ (signed p ts).2 = ts := by
  have hpar : ∀ l, par 40 p l = l := fun l => by rw [par, if_neg (by omega)]
  obtain - | ⟨t, ts⟩ := ts
  · simp [signed, hpar, withSign, startsMinus]
  · cases t <;> simp [signed, hpar, withSign, startsMinus]

theorem joinTerms_isSum {v : Val A} {p : ℕ} {t : List Tok} {x : A} (hp : 40 ≤ p) (h : IsSum v t x) : ∀ {l : List (Tok × List Tok)} {xs : List A},
    List.Forall₂ (fun y z => ∃ p t, 40 ≤ p ∧ y = signed p t ∧ IsSum v t z) l xs → IsSum v (joinTerms (signed p t :: l)) (x + xs.sum) := by
  intro l xs hl
  have key : ∀ (l : List (Tok × List Tok)) (xs : List A) (s : List Tok) (x : A), IsSum v s x →
      List.Forall₂ (fun y z => ∃ p t, 40 ≤ p ∧ y = signed p t ∧ IsSum v t z) l xs → IsSum v (s ++ l.flatMap fun x => x.1 :: x.2) (x + xs.sum) := by
    intro l
    induction l with
    | nil => rintro xs s x h ⟨⟩; simpa using h
    | cons y l ih =>
      rintro xs s x h (_ | ⟨⟨p, t, hp, rfl, ht⟩, hl⟩)
      rw [List.flatMap_cons, (signed_eq hp t).1, List.sum_cons, ← add_assoc, ← List.append_assoc]
      exact ih _ _ _ (h.append ht) hl
  show IsSum v ((if (signed p t).1 = .plus then [] else [(signed p t).1]) ++ (signed p t).2 ++ _) _
  rw [(signed_eq hp t).2]
  exact key l xs t x h hl

theorem dens_eq (v : Val A) : ∀ es : List Ex, dens v es = es.map (Ex.den v)
  | [] => rfl
  | e :: es => by rw [dens, List.map_cons, dens_eq v es]

theorem star_prod_comm : ∀ {l : List A}, l.Pairwise Commute → star l.prod = (l.map star).prod
  | [], _ => by simp
  | x :: l, h => by
    rw [List.pairwise_cons] at h
    rw [List.prod_cons, List.map_cons, List.prod_cons, ← star_prod_comm h.2, ← star_mul]
    congr 1
    exact Commute.list_prod_right _ _ h.1

/-- what is proved by induction -/
def Good (v : Val A) (a : Bool) (e : Ex) (ts : List Tok) : Prop :=
  IsSum v ts (val v a e) ∧ (50 ≤ prec e → Loose a e = false → scan 0 ts = false)

theorem Good.par {v : Val A} {a : Bool} {e : Ex} {ts : List Tok} (h : Good v a e ts) (hl : Loose a e = false) : IsProd v (par 50 (prec e) ts) (val v a e) :=
  par_isProd h.1 fun hp => h.2 hp hl

theorem isProd_one {v : Val A} {x : A} (h : IsProd v [.one] x) : x = 1 :=
  h.isSum.hasValue.unique (IsFac.isSum (v := v) .one).hasValue

theorem daggered_fac {v : Val A} {f : List Tok} {x : A} (h : IsFac v f x) (d : Bool) : IsFac v (daggered d f) (if d then star x else x) := by
  cases d
  · exact h
  · exact .dag h

theorem Good.fac {v : Val A} {a : Bool} {e : Ex} {ts : List Tok} {x : A} (h : IsFac v ts x) (hx : x = val v a e) : Good v a e ts := by
  subst hx
  exact ⟨h.isSum, fun _ _ => (IsProd.fac h).plain⟩

theorem Good.prod {v : Val A} {a : Bool} {e : Ex} {ts : List Tok} {x : A} (h : IsProd v ts x) (hx : x = val v a e) : Good v a e ts := by
  subst hx
  exact ⟨h.isSum, fun _ _ => h.plain⟩

theorem ppSmul_good {v : Val A} {a : Bool} {c : Coef} {e : Ex} {t : List Tok} (hc : c.Ok v) (he : IsProd v t (val v a e)) (hq : c.qnetSum = true → t = [.one])
    (ht : t = [.one] → pp a e = some [.one]) : Good v a (.smul c e) (ppSmul a c t) := by
  obtain - | ⟨x, y, q⟩ := c
  · have hv : val v a (.smul .minusOne e) = -val v a e := by
      cases a <;> simp [val, Ex.den, Coef.den]
    refine ⟨?_, fun hp => ?_⟩
    · rw [hv]
      exact .neg (.prod he)
    · rw [prec] at hp
      exact absurd hp (by decide)
  · have hcs : (if a then y else x).den v = if a then star (x.den v) else x.den v := by
      cases a
      · rfl
      · exact hc.1
    have hv : val v a (.smul (.gen x y q) e) = (if a then y else x).den v * val v a e := by
      rw [hcs]
      cases a
      · rfl
      · show star (x.den v * e.den v) = star (x.den v) * star (e.den v)
        rw [(STxt.comm v x (e.den v)).eq, star_mul]
    have hmore : (if a then y else x).more = [] ↔ x.more = [] := by
      cases a
      · exact Iff.rfl
      · exact hc.2
    simp only [ppSmul]
    have hloose : Loose a (.smul (.gen x y q) e) = (!x.neg && ((if a then y else x).neg || (!x.more.isEmpty && pp a e == some [.one]))) := by rw [Loose]
    clear hcs
    generalize (if a then y else x) = z at *
    split_ifs with h1 h2
    · subst h1
      refine ⟨?_, fun hp hl => ?_⟩
      · rw [hv, isProd_one he, mul_one]
        exact STxt.isSum v _
      · rw [hloose, ht rfl] at hl
        have hx : x.neg = false := by
          by_contra hx
          rw [prec, Coef.neg, if_pos (by simpa using hx)] at hp
          omega
        simp [hx] at hl
        exact STxt.plain hl.1 (hmore.mpr hl.2)
    · exact .prod (hv ▸ (IsSum.parens (STxt.isSum v _)).mul' he) rfl
    · have hx : x.more = [] := by
        by_contra hx
        simp [Coef.parens, hx] at h2
        exact h1 (hq (by simp [Coef.qnetSum, hx, h2]))
      by_cases hn : z.neg = true
      · refine ⟨?_, fun hp hl => ?_⟩
        · rw [hv, STxt.toks, STxt.den, hmore.mpr hx, if_pos hn, if_pos hn, List.map_nil, List.sum_nil, add_zero, neg_mul]
          exact .neg (.prod (IsProd.mul' (.fac (.sc _)) he))
        · rw [hloose] at hl
          have hx : x.neg = false := by
            by_contra hx
            rw [prec, Coef.neg, if_pos (by simpa using hx)] at hp
            omega
          simp [hx, hn] at hl
      · have hp : IsProd v z.toks (z.den v) :=
          (STxt.isSum v _).prod_of (STxt.plain (by simpa using hn) (hmore.mpr hx))
        exact .prod (hv ▸ hp.mul' he) rfl

theorem val_mul_comm {v : Val A} {a : Bool} {x y : A} : (if a then star (x * y) else x * y) = if a then star y * star x else x * y := by
  cases a <;> simp

theorem adj_good {v : Val A} {a : Bool} {e : Ex} {t : List Tok} (h : Good v false e t) (hl : Loose a (.adj e) = (a && (decide (prec e < 50) || Loose false e))) :
    Good v a (.adj e) (if a then t else parens t ++ [.dag]) := by
  cases a
  · exact .fac (.dag (.paren h.1)) rfl
  · refine ⟨?_, fun _ hl' => ?_⟩
    · show IsSum v t (star (star (e.den v)))
      rw [star_star]
      exact h.1
    · rw [hl] at hl'
      simp at hl'
      exact h.2 hl'.1 hl'.2

theorem par_one {l p : ℕ} {t : List Tok} (h : par l p t = [.one]) : t = [.one] := by
  rw [par] at h
  split_ifs at h with hc
  · simp [parens] at h
  · exact h

theorem bra_prec (a : Bool) (k : Ex) : prec (.bra k) = prec k ∧ Loose a (.bra k) = Loose (!a) k := ⟨by rw [prec], by rw [Loose]⟩

theorem adj_cases (v : Val A) (a : Bool) (e : Ex) : (∃ l, e = .sym l) ∨ (∃ l d, e = .loc l d) ∨
    (pp a (.adj e) = (pp false e).map (fun t => if a then t else parens t ++ [.dag]) ∧ Tidy v a (.adj e) = Tidy v false e ∧
      Loose a (.adj e) = (a && (decide (prec e < 50) || Loose false e))) := by
  cases e
  case sym l => exact .inl ⟨l, rfl⟩
  case loc l d => exact .inr (.inl ⟨l, d, rfl⟩)
  all_goals
    refine .inr (.inr ⟨?_, ?_, ?_⟩)
    · rfl
    · rfl
    · rfl

theorem val_false (v : Val A) : val v false = Ex.den v := rfl

mutual
theorem pp_good (v : Val A) : ∀ (e : Ex) (a : Bool) (ts : List Tok), pp a e = some ts → Tidy v a e → Good v a e ts
  | .sym l, a, ts, h, _ => by
    rw [pp, Option.some_inj] at h
    subst h
    exact .fac (daggered_fac (.leaf l) a) rfl
  | .loc l d, a, ts, h, _ => by
    rw [pp, Option.some_inj] at h
    subst h
    refine .fac (daggered_fac (.leaf l) _) ?_
    cases a <;> cases d <;> simp [val, Ex.den]
  | .ket l, a, ts, h, _ => by
    rw [pp, Option.some_inj] at h
    subst h
    cases a
    · exact .fac (.ket l) rfl
    · exact .fac (.bra l) rfl
  | .one, a, ts, h, _ => by
    cases a
    · rw [pp] at h
      cases h
      exact .fac .one rfl
    · rw [pp] at h
      cases h
  | .zero, a, ts, h, _ => by
    cases a
    · rw [pp] at h
      cases h
      exact .fac .zero rfl
    · rw [pp] at h
      cases h
  | .plus es, a, ts, h, ht => by
    rw [pp] at h
    obtain ⟨l, hl, rfl⟩ := Option.map_eq_some_iff.mp h
    rw [Tidy] at ht
    refine ⟨?_, fun hp => ?_⟩
    · have hf := terms_good v es a l hl ht.2
      have hv : val v a (.plus es) = (es.map (val v a)).sum := by
        cases a
        · rw [val_false, Ex.den, dens_eq]
        · have : ∀ l : List A, star l.sum = (l.map star).sum := fun l => map_list_sum (starAddEquiv (R := A)) l
          simp [val, Ex.den, dens_eq, this]
          rfl
      rw [hv]
      obtain - | ⟨e, es⟩ := es
      · exact absurd rfl ht.1
      · obtain - | ⟨⟨p, t, hp, rfl, h1⟩, h2⟩ := hf
        rw [List.map_cons, List.sum_cons]
        exact joinTerms_isSum hp h1 h2
    · rw [prec] at hp
      omega
  | .times es, a, ts, h, ht => by
    rw [pp] at h
    obtain ⟨l, hl, rfl⟩ := Option.map_eq_some_iff.mp h
    rw [Tidy] at ht
    have hf := factors_good v es a l hl ht.2.1 ht.2.2.1
    have hne : l ≠ [] := by
      rintro rfl
      obtain - | ⟨e, es⟩ := es
      · exact ht.1 rfl
      · cases hf
    refine .prod (joinMul_isProd hf hne) ?_
    cases a
    · rw [val_false, Ex.den, dens_eq]
    · show _ = star (Ex.den v (.times es))
      rw [Ex.den, star_prod_comm (ht.2.2.2 rfl), dens_eq, List.map_map]
      rfl
  | .smul c e, a, ts, h, ht => by
    rw [pp] at h
    obtain ⟨t, hl, rfl⟩ := Option.map_eq_some_iff.mp h
    rw [Tidy] at ht
    have hg := pp_good v e a t hl ht.2.1
    refine ppSmul_good ht.1 (hg.par ht.2.2.1) (fun hq => ?_) fun h1 => ?_
    · obtain ⟨h1, h2⟩ := ht.2.2.2 hq
      rw [hl, Option.some_inj] at h1
      rw [par, if_neg (by omega), h1]
    · rw [hl, par_one h1]
  | .adj e, a, ts, h, ht => by
    rcases adj_cases v a e with ⟨l, rfl⟩ | ⟨l, d, rfl⟩ | ⟨h1, h2, h3⟩
    · rw [pp, Option.some_inj] at h
      subst h
      rw [Tidy] at ht
      have hb : bare l = l := by rw [bare, ← ht]
      rw [hb]
      refine .fac (daggered_fac (.leaf l) _) ?_
      cases a <;> simp [val, Ex.den]
    · rw [pp, Option.some_inj] at h
      subst h
      rw [Tidy] at ht
      have hb : bare l = l := by rw [bare, ← ht]
      rw [hb]
      refine .fac (daggered_fac (.leaf l) _) ?_
      cases a <;> cases d <;> simp [val, Ex.den]
    · rw [h1] at h
      obtain ⟨t, hl, rfl⟩ := Option.map_eq_some_iff.mp h
      rw [h2] at ht
      exact adj_good (pp_good v e false t hl ht) h3
  | .comm x y, a, ts, h, ht => by
    rw [pp] at h
    obtain ⟨s, hs, h⟩ := Option.bind_eq_some_iff.mp h
    obtain ⟨t, hl, rfl⟩ := Option.map_eq_some_iff.mp h
    rw [Tidy] at ht
    refine .fac (daggered_fac (.comm (pp_good v x false s hs ht.1).1 (pp_good v y false t hl ht.2).1) a) ?_
    cases a <;> simp [val, Ex.den]
  | .opket op k, a, ts, h, ht => by
    rw [pp] at h
    obtain ⟨o, ho, h⟩ := Option.bind_eq_some_iff.mp h
    obtain ⟨s, hs, h⟩ := Option.bind_eq_some_iff.mp h
    obtain ⟨t, hl, rfl⟩ := Option.map_eq_some_iff.mp h
    rw [Tidy] at ht
    obtain ⟨h1, h2, h3, h4, h5⟩ := ht
    have hm : startsMinus o = false := by
      by_contra hc
      obtain ⟨r, hr⟩ := startsMinus_iff.mp (by simpa using hc)
      exact h5 r (by rw [ho, hr])
    simp only [hm]
    have g1 := (pp_good v op a s hs h1).par h3
    have g2 := (pp_good v k a t hl h2).par h4
    cases a
    · exact .prod (g1.jux' g2) rfl
    · refine .prod (g2.jux' g1) ?_
      simp [val, Ex.den]
  | .bra k, a, ts, h, ht => by
    rw [pp] at h
    rw [Tidy] at ht
    have hg := pp_good v k (!a) ts h ht
    rw [Good, (bra_prec a k).1, (bra_prec a k).2]
    have hv : val v a (.bra k) = val v (!a) k := by cases a <;> simp [val, Ex.den]
    rw [hv]
    exact hg
  | .ketbra k b, a, ts, h, ht => by
    rw [pp] at h
    obtain ⟨s, hs, h⟩ := Option.bind_eq_some_iff.mp h
    obtain ⟨t, hl, rfl⟩ := Option.map_eq_some_iff.mp h
    rw [Tidy] at ht
    obtain ⟨h1, h2, h3, h4⟩ := ht
    have g1 := (pp_good v k a t hl h1).par h3
    have g2 := (pp_good v b (!a) s hs h2).par h4
    cases a
    · exact .prod (g1.jux' g2) (by simp [val, Ex.den])
    · exact .prod (g2.jux' g1) (by simp [val, Ex.den])
  | .braket b k, a, ts, h, ht => by
    rw [pp] at h
    obtain ⟨s, hs, h⟩ := Option.bind_eq_some_iff.mp h
    obtain ⟨t, hl, rfl⟩ := Option.map_eq_some_iff.mp h
    rw [Tidy] at ht
    obtain ⟨h1, h2, h3, h4⟩ := ht
    have g1 := (pp_good v k a t hl h1).par h3
    have g2 := (pp_good v b (!a) s hs h2).par h4
    have key : ∀ {p q : List Tok} {x y : A}, IsProd v p x → IsProd v q y → IsProd v (p ++ (if b.isKet && k.isKet then [] else [.mul]) ++ q) (x * y) := by
      intro p q x y hp hq
      split_ifs
      · rw [List.append_nil]
        exact hp.jux' hq
      · rw [List.append_assoc]
        exact hp.mul' hq
    cases a
    · exact .prod (key g2 g1) (by simp [val, Ex.den])
    · exact .prod (key g1 g2) (by simp [val, Ex.den])
  | .isum i e, a, ts, h, ht => by
    rw [pp] at h
    obtain ⟨t, hl, rfl⟩ := Option.map_eq_some_iff.mp h
    rw [Tidy] at ht
    have hg := pp_good v e a t hl ht.1
    refine ⟨?_, fun hp => ?_⟩
    · have hv : val v a (.isum i e) = v.big i (val v a e) := by
        cases a
        · rfl
        · exact v.big_star i _
      rw [hv]
      refine .term (.big i (.prod (par_isProd hg.1 fun hp => hg.2 ?_ ht.2)))
      rcases prec_cases e with h40 | h50
      · omega
      · exact h50
    · rw [prec] at hp
      omega
termination_by e => sizeOf e
theorem terms_good (v : Val A) : ∀ (es : List Ex) (a : Bool) (l : List (Tok × List Tok)), ppTerms a es = some l → Tidys v a es →
    List.Forall₂ (fun y z => ∃ p t, 40 ≤ p ∧ y = signed p t ∧ IsSum v t z) l (es.map (val v a))
  | [], a, l, h, _ => by
    rw [ppTerms] at h
    cases h
    exact .nil
  | e :: es, a, l, h, ht => by
    rw [ppTerms] at h
    obtain ⟨t, hs, h⟩ := Option.bind_eq_some_iff.mp h
    obtain ⟨l, hl, rfl⟩ := Option.map_eq_some_iff.mp h
    rw [Tidys] at ht
    refine .cons ⟨prec e, t, ?_, rfl, (pp_good v e a t hs ht.1).1⟩ (terms_good v es a l hl ht.2)
    rcases prec_cases e with h | h <;> omega
termination_by es => sizeOf es
theorem factors_good (v : Val A) : ∀ (es : List Ex) (a : Bool) (l : List (List Tok)), ppFactors a es = some l → Tidys v a es → (∀ e ∈ es, Loose a e = false) →
    List.Forall₂ (IsProd v) l (es.map (val v a))
  | [], a, l, h, _, _ => by
    rw [ppFactors] at h
    cases h
    exact .nil
  | e :: es, a, l, h, ht, hn => by
    rw [ppFactors] at h
    obtain ⟨t, hs, h⟩ := Option.bind_eq_some_iff.mp h
    obtain ⟨l, hl, rfl⟩ := Option.map_eq_some_iff.mp h
    rw [Tidys] at ht
    exact .cons ((pp_good v e a t hs ht.1).par (hn e (by simp))) (factors_good v es a l hl ht.2 fun e he => hn e (by simp [he]))
termination_by es => sizeOf es
end

end QNET.Ascii
