import Verif.Ascii.Thm
import Mathlib.LinearAlgebra.Matrix.ConjTranspose
import Mathlib.LinearAlgebra.Matrix.Notation

/-!
# C73: what the printed formula means
-/

namespace QNET.Ascii

variable {A : Type*} [Ring A] [StarRing A]

/-- The text of an expression, read by the usual rules for formulas, has the value of the expression (and of its adjoint, for the text printed inside a `Bra`), unless a part has one of the
shapes excluded by `Tidy` — each of them is shown below to be printed wrongly. -/
theorem C73_value_partial (v : Val A) (a : Bool) (e : Ex) (ts : List Tok) (h : pp a e = some ts) (ht : Tidy v a e) : HasValue v ts (if a then star (e.den v) else e.den v) :=
  (pp_good v e a ts h ht).1.hasValue

/-- two expressions with the same text have the same value -/
theorem C73_same_text (v : Val A) (e e' : Ex) (ts : List Tok) (h : pp false e = some ts) (h' : pp false e' = some ts) (ht : Tidy v false e) (ht' : Tidy v false e') :
    e.den v = e'.den v :=
  (C73_value_partial v false e ts h ht).unique (C73_value_partial v false e' ts h' ht')

/-- every text is read in at most one way -/
theorem C73_unambiguous (v : Val A) (ts : List Tok) (x y : A) (h : HasValue v ts x) (h' : HasValue v ts y) : x = y := h.unique h'

/-! ### Printing does not fail -/

mutual
/-- neither the identity nor the zero operator occur -/
def Ex.noUnit : Ex → Bool
  | .sym _ => true
  | .loc _ _ => true
  | .ket _ => true
  | .one => false
  | .zero => false
  | .plus es => noUnits es
  | .times es => noUnits es
  | .smul _ e => e.noUnit
  | .adj e => e.noUnit
  | .comm a b => a.noUnit && b.noUnit
  | .opket a b => a.noUnit && b.noUnit
  | .bra k => k.noUnit
  | .ketbra a b => a.noUnit && b.noUnit
  | .braket a b => a.noUnit && b.noUnit
  | .isum _ e => e.noUnit
def noUnits : List Ex → Bool
  | [] => true
  | e :: es => e.noUnit && noUnits es
end

mutual
theorem pp_total : ∀ (e : Ex), e.noUnit = true → ∀ a, ∃ ts, pp a e = some ts
  | .sym l, _, a => ⟨_, rfl⟩
  | .loc l d, _, a => ⟨_, rfl⟩
  | .ket l, _, a => ⟨_, rfl⟩
  | .one, h, _ => by rw [Ex.noUnit] at h; cases h
  | .zero, h, _ => by rw [Ex.noUnit] at h; cases h
  | .plus es, h, a => by
    rw [Ex.noUnit] at h
    obtain ⟨l, hl⟩ := ppTerms_total es h a
    exact ⟨_, by rw [pp, hl]; rfl⟩
  | .times es, h, a => by
    rw [Ex.noUnit] at h
    obtain ⟨l, hl⟩ := ppFactors_total es h a
    exact ⟨_, by rw [pp, hl]; rfl⟩
  | .smul c e, h, a => by
    rw [Ex.noUnit] at h
    obtain ⟨l, hl⟩ := pp_total e h a
    exact ⟨_, by rw [pp, hl]; rfl⟩
  | .adj e, h, a => by
    rw [Ex.noUnit] at h
    obtain ⟨l, hl⟩ := pp_total e h false
    rcases adj_cases (⟨fun _ => 0, fun _ => 0, fun _ => 0, fun _ _ => by simp, fun _ => 0, fun _ _ => by simp⟩ : Val ℤ) a e with ⟨l, rfl⟩ | ⟨l, d, rfl⟩ | ⟨h1, -⟩
    · exact ⟨_, rfl⟩
    · exact ⟨_, rfl⟩
    · exact ⟨_, by rw [h1, hl]; rfl⟩
  | .comm x y, h, a => by
    rw [Ex.noUnit, Bool.and_eq_true] at h
    obtain ⟨l, hl⟩ := pp_total x h.1 false
    obtain ⟨l', hl'⟩ := pp_total y h.2 false
    exact ⟨_, by rw [pp, hl, hl']; rfl⟩
  | .opket x y, h, a => by
    rw [Ex.noUnit, Bool.and_eq_true] at h
    obtain ⟨o, ho⟩ := pp_total x h.1 false
    obtain ⟨l, hl⟩ := pp_total x h.1 a
    obtain ⟨l', hl'⟩ := pp_total y h.2 a
    exact ⟨_, by rw [pp, ho, hl, hl']; rfl⟩
  | .bra k, h, a => by
    rw [Ex.noUnit] at h
    obtain ⟨l, hl⟩ := pp_total k h (!a)
    exact ⟨_, by rw [pp, hl]⟩
  | .ketbra x y, h, a => by
    rw [Ex.noUnit, Bool.and_eq_true] at h
    obtain ⟨l, hl⟩ := pp_total x h.1 a
    obtain ⟨l', hl'⟩ := pp_total y h.2 (!a)
    exact ⟨_, by rw [pp, hl, hl']; rfl⟩
  | .braket x y, h, a => by
    rw [Ex.noUnit, Bool.and_eq_true] at h
    obtain ⟨l, hl⟩ := pp_total x h.1 (!a)
    obtain ⟨l', hl'⟩ := pp_total y h.2 a
    exact ⟨_, by rw [pp, hl, hl']; rfl⟩
  | .isum i e, h, a => by
    rw [Ex.noUnit] at h
    obtain ⟨l, hl⟩ := pp_total e h a
    exact ⟨_, by rw [pp, hl]; rfl⟩
theorem ppTerms_total : ∀ (es : List Ex), noUnits es = true → ∀ a, ∃ l, ppTerms a es = some l
  | [], _, a => ⟨_, rfl⟩
  | e :: es, h, a => by
    rw [noUnits, Bool.and_eq_true] at h
    obtain ⟨t, ht⟩ := pp_total e h.1 a
    obtain ⟨l, hl⟩ := ppTerms_total es h.2 a
    exact ⟨_, by rw [ppTerms, ht, hl]; rfl⟩
theorem ppFactors_total : ∀ (es : List Ex), noUnits es = true → ∀ a, ∃ l, ppFactors a es = some l
  | [], _, a => ⟨_, rfl⟩
  | e :: es, h, a => by
    rw [noUnits, Bool.and_eq_true] at h
    obtain ⟨t, ht⟩ := pp_total e h.1 a
    obtain ⟨l, hl⟩ := ppFactors_total es h.2 a
    exact ⟨_, by rw [ppFactors, ht, hl]; rfl⟩
end

/-- printing only fails for expressions that contain the identity or the zero operator -/
theorem C73_total (e : Ex) (h : e.noUnit = true) : ∃ ts, pp false e = some ts := pp_total e h false

/-! ### Examples and refutations -/

/-- a value in 2x2 matrices -/
def v0 : Val (Matrix (Fin 2) (Fin 2) ℤ) where
  leaf l := if l = (0, 0) then !![0, 1; 0, 0] else if l.1 = 1 then !![1, 0; 0, 0] else !![0, 0; 0, 1]
  ket l := !![1, 0; (l : ℤ), 0]
  sc s := (s : ℤ) • 1
  sc_comm s a := by simpa using (Nat.cast_commute s a).eq
  big _ := AddMonoidHom.id _ + AddMonoidHom.id _
  big_star _ a := by simp

/-- the text is not read as the value of the expression -/
def Wrong (e : Ex) : Prop := ∃ ts, pp false e = some ts ∧ ∃ x, HasValue v0 ts x ∧ ¬ HasValue v0 ts (e.den v0)

theorem Wrong.of {e : Ex} {ts : List Tok} {t : Tree} (h : pp false e = some ts) (N : ℕ) (ht : ∀ n, pSum (n + N) ts = some (t, [])) (hx : t.den v0 ≠ e.den v0) : Wrong e := by
  have hr : HasValue v0 ts (t.den v0) := ⟨t, ⟨N, fun n hn => by
    obtain ⟨m, rfl⟩ := Nat.exists_eq_add_of_le' hn
    exact ht m⟩, rfl⟩
  exact ⟨ts, h, _, hr, fun h' => hx (hr.unique h')⟩

/-- `A - 2 * (A + C^H) * B` -/
def ex1 : Ex := .plus [.sym (0, 0), .smul (.gen ⟨true, 2, []⟩ ⟨true, 2, []⟩ false) (.times [.plus [.sym (0, 0), .adj (.sym (5, 0))], .sym (1, 0)])]

theorem C73_nonvacuous : Tidy v0 false ex1 ∧ pp false ex1 =
    some [.leaf (0, 0), .minus, .sc 2, .mul, .lpar, .leaf (0, 0), .plus, .leaf (5, 0), .dag, .rpar, .mul, .leaf (1, 0)] := by
  refine ⟨?_, rfl⟩
  simp [ex1, Tidy, Tidys, Coef.Ok, Coef.qnetSum, Loose, STxt.den, v0]

/-- (a) `Bra(A * B |ψ>)` is printed as `<ψ| A^H * B^H` -/
theorem C73_refuted_product : Wrong (.bra (.opket (.times [.sym (0, 0), .sym (1, 0)]) (.ket 1))) :=
  .of rfl 20 (fun _ => rfl) (by decide +kernel)

/-- (b) a coefficient made with `ScalarPlus` gets no parentheses: `x + y * A` for `(x + y) * A` -/
theorem C73_refuted_scalarplus : Wrong (.smul (.gen ⟨false, 2, [(false, 3)]⟩ ⟨false, 2, [(false, 3)]⟩ true) (.sym (0, 0))) :=
  .of rfl 20 (fun _ => rfl) (by decide +kernel)

/-- (c) a scalar sum times the identity counts as a product: `Sum_i x + y` for `Sum_i (x + y)` -/
theorem C73_refuted_scalar_in_sum : Wrong (.isum 0 (.smul (.gen ⟨false, 2, [(false, 3)]⟩ ⟨false, 2, [(false, 3)]⟩ false) .one)) :=
  .of rfl 20 (fun _ => rfl) (by decide +kernel)

/-- (d) the adjoint of a symbol is printed without its arguments: `A^H` for `A(t)^H` -/
theorem C73_refuted_args : Wrong (.adj (.sym (0, 1))) :=
  .of rfl 20 (fun _ => rfl) (by decide +kernel)

/-- (e) no parentheses for the adjoint of the adjoint of a sum: `<ψ| A + B` for `<ψ| (A + B)` (only when `Adjoint` is instantiated directly: `create` distributes over sums) -/
theorem C73_refuted_adjoint_sum : Wrong (.bra (.opket (.adj (.plus [.sym (0, 0), .sym (2, 0)])) (.ket 1))) :=
  .of rfl 20 (fun _ => rfl) (by decide +kernel)

/-- (f) no parentheses for an operator sum that begins with a sign: `-A + B |ψ>` for `(-A + B) |ψ>` -/
theorem C73_refuted_sign : Wrong (.opket (.plus [.smul .minusOne (.sym (0, 0)), .sym (1, 0)]) (.ket 1)) :=
  .of rfl 20 (fun _ => rfl) (by decide +kernel)

/-- (g) the identity inside a `Bra`: a `TypeError` -/
theorem C73_refuted_identity : pp false (.bra (.opket (.plus [.one, .sym (0, 0)]) (.ket 1))) = none := rfl

/-- (h) a scalar whose conjugate begins with a sign: `<ψ| -x * A` for the adjoint of `(c * A) |ψ>` with `c` purely imaginary is read as `<ψ| - x * A` (only when `OperatorTimesKet` is instantiated directly: `create` pulls scalars out) -/
theorem C73_refuted_conjugate : ∃ ts, pp false (.bra (.opket (.smul (.gen ⟨false, 2, []⟩ ⟨true, 2, []⟩ false) (.sym (0, 0))) (.ket 1))) = some ts ∧
    Reads ts (.sub (.bra 1) (.mul (.sc 2) (.star (.leaf (0, 0))))) :=
  ⟨_, rfl, 20, fun n hn => by
    obtain ⟨m, rfl⟩ := Nat.exists_eq_add_of_le' hn
    rfl⟩

/-- `Sum_i <1| A^H (A - 2 * B) |2> ...`: a larger text with brackets of every kind -/
def ex2 : Ex := .isum 0 (.times [.ketbra (.plus [.ket 1, .smul .minusOne (.ket 2)]) (.opket (.plus [.sym (0, 0), .loc (1, 3) true]) (.ket 1)), .comm (.sym (0, 0)) (.adj (.times [.sym (1, 0), .sym (0, 0)])),
  .smul (.gen ⟨false, 2, [(true, 3)]⟩ ⟨false, 2, [(true, 3)]⟩ false) (.sym (0, 0))])

theorem C73_nonvacuous_large : Tidy v0 false ex2 ∧ pp false ex2 =
    some [.big 0, .lpar, .ket 1, .minus, .ket 2, .rpar, .bra 1, .lpar, .leaf (0, 0), .dag, .plus, .leaf (1, 3), .rpar, .mul,
      .lbr, .leaf (0, 0), .comma, .lpar, .leaf (1, 0), .mul, .leaf (0, 0), .rpar, .dag, .rbr, .mul, .lpar, .sc 2, .minus, .sc 3, .rpar, .mul, .leaf (0, 0)] := by
  refine ⟨?_, rfl⟩
  simp [ex2, Tidy, Tidys, Coef.Ok, Coef.qnetSum, Loose, STxt.den, v0, pp, ppTerms, joinTerms, signed, prec, par, daggered]

/-- an adjoint of a product whose factors commute: `Bra(|1> * |1>)` -/
theorem C73_nonvacuous_commute : Tidy v0 true (.times [.ket 0, .ket 0]) ∧ pp true (.times [.ket 0, .ket 0]) = some [.bra 0, .mul, .bra 0] := by
  refine ⟨?_, rfl⟩
  simp [Tidy, Tidys, Loose, dens]

end QNET.Ascii
