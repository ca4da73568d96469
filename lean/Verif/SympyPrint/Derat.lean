import Verif.Perm.Model
import Mathlib.Analysis.SpecialFunctions.Pow.Real
import Mathlib.Analysis.SpecialFunctions.Sqrt
import Mathlib.Data.Complex.Basic

/-!
# C96: `derationalize_denom` (`src/qnet/printing/sympy.py` lines 50-93)

The printers write `sqrt(2)/2` as `1/sqrt(2)`. They rely on the identity in the docstring: the product of the returned `numerator / sqrt(denom_sq)` and
`post_factor` equals the expression.

Simplifications: a factor of a sympy `Mul` is a `Rational` (lowest terms, positive denominator), a `Pow` or something else; powers and others are numbered,
with arbitrary complex values. `factor == sqrt(denom_sq)` is sympy's `Pow(d, 1/2)`, taken as the constructor `root d` (for a `d` with a square factor sympy's
`sqrt(d)` is no `Pow`, and no `factor` is equal to it: `isRoot` is false). `Mul(*post_factors)` is the list of its factors, its value the product.
-/

namespace QNET.Derat

open QNET.Perm (Res Err)

/-! ## the code -/

/-- factors: `Rational(n, d)`, `Pow(d, Rational(1, 2))` for an integer `d`, other powers, everything else -/
inductive Factor where
  | rat (n : ℤ) (d : ℕ)
  | root (d : ℕ)
  | pow (i : ℕ)
  | other (i : ℕ)
deriving DecidableEq

/-- a sympy expression: a `Mul` with its `args`, or anything else -/
inductive SExpr where
  | mul (args : List Factor)
  | nonMul
deriving DecidableEq

/-- the variables of the loop: `r_pos >= 0`, `p_pos >= 0`, `numerator`, `denom_sq`, `post_factors` (lines 71-75; of the positions only the sign is used) -/
structure St where
  r : Bool
  p : Bool
  num : ℤ
  den : ℕ
  post : List Factor

/-- lines 71-75 -/
def St.init : St := ⟨false, false, 0, 1, []⟩

/-- `factor == sqrt(denom_sq)`: sympy evaluates the square root of an integer with a square factor, so that it is no single `Pow` -/
def isRoot (sqf : ℕ → Bool) (f : Factor) (d : ℕ) : Bool :=
  match f with
  | .root d' => d' == d && sqf d
  | _ => false

/-- `isinstance(factor, Pow)` -/
def isPow : Factor → Bool
  | .root _ => true
  | .pow _ => true
  | _ => false

/-- the body of the loop, lines 78-87 -/
def step (sqf : ℕ → Bool) (s : St) (f : Factor) : St :=
  match f, s.r with
  | .rat n d, false => { s with r := true, num := n, den := d }
  | f, r =>
    if isPow f && r then
      if isRoot sqf f s.den then { s with p := true } else { s with post := s.post ++ [f] }
    else { s with post := s.post ++ [f] }

/-- `derationalize_denom`, lines 76-93 -/
def derat (sqf : ℕ → Bool) : SExpr → Res (ℤ × ℕ × List Factor)
  | .nonMul => .error .valueError
  | .mul args =>
    let s := args.foldl (step sqf) St.init
    if s.r && s.p then .ok (s.num, s.den, s.post) else .error .valueError

/-! ## specification -/

/-- the value of a factor, from values of the powers and of the other factors -/
noncomputable def Factor.val (v w : ℕ → ℂ) : Factor → ℂ
  | .rat n d => (n : ℂ) / (d : ℂ)
  | .root d => ((Real.sqrt d : ℝ) : ℂ)
  | .pow i => v i
  | .other i => w i

/-- the value of a product -/
noncomputable def prodVal (v w : ℕ → ℂ) (l : List Factor) : ℂ := (l.map (Factor.val v w)).prod

/-- the factor is a `Rational` -/
def Factor.isRat : Factor → Bool
  | .rat _ _ => true
  | _ => false

/-! ## proofs -/

variable (sqf : ℕ → Bool) (v w : ℕ → ℂ)

theorem prodVal_append (a b : List Factor) : prodVal v w (a ++ b) = prodVal v w a * prodVal v w b := by
  simp [prodVal]

theorem step_found (s : St) (hr : s.r = true) (f : Factor) :
    step sqf s f = if isRoot sqf f s.den then { s with p := true } else { s with post := s.post ++ [f] } := by
  obtain ⟨r, p, n, d, post⟩ := s
  simp only at hr
  subst hr
  cases f <;> simp [step, isPow, isRoot]

/-- the loop after the first rational -/
theorem loop_found (n : ℤ) (d : ℕ) : ∀ (l : List Factor) (p : Bool) (post : List Factor),
    l.foldl (step sqf) ⟨true, p, n, d, post⟩ =
      ⟨true, p || l.any (isRoot sqf · d), n, d, post ++ l.filter (fun f => !isRoot sqf f d)⟩
  | [], p, post => by simp
  | f :: l, p, post => by
    rw [List.foldl_cons, step_found sqf _ rfl]
    by_cases h : isRoot sqf f d = true
    · rw [if_pos h, loop_found n d l]; simp [h]
    · rw [if_neg h, loop_found n d l]; simp [h]

/-- the loop before the first rational -/
theorem loop_before : ∀ (l : List Factor) (_ : ∀ f ∈ l, f.isRat = false) (s : St), s.r = false →
    l.foldl (step sqf) s = { s with post := s.post ++ l }
  | [], _, s, _ => by simp
  | f :: l, h, s, hs => by
    obtain ⟨r, p, n, d, post⟩ := s
    simp only at hs
    subst hs
    have h1 : step sqf ⟨false, p, n, d, post⟩ f = ⟨false, p, n, d, post ++ [f]⟩ := by
      have := h f List.mem_cons_self
      cases f <;> simp_all [step, Factor.isRat]
    rw [List.foldl_cons, h1, loop_before l (fun f hf => h f (List.mem_cons_of_mem _ hf)) _ rfl]
    simp

theorem first_rat : ∀ l : List Factor, (∀ f ∈ l, f.isRat = false) ∨
    ∃ a n d b, l = a ++ .rat n d :: b ∧ ∀ f ∈ a, f.isRat = false
  | [] => .inl (by simp)
  | f :: l => by
    cases f with
    | rat n d => exact .inr ⟨[], n, d, l, rfl, by simp⟩
    | _ =>
      rcases first_rat l with h | ⟨a, n, d, b, rfl, h⟩
      · left; intro f hf
        rcases List.mem_cons.mp hf with rfl | hf
        · rfl
        · exact h f hf
      · right
        refine ⟨_ :: a, n, d, b, rfl, ?_⟩
        intro f hf
        rcases List.mem_cons.mp hf with rfl | hf
        · rfl
        · exact h f hf

theorem derat_split (a b : List Factor) (n : ℤ) (d : ℕ) (ha : ∀ f ∈ a, f.isRat = false) :
    derat sqf (.mul (a ++ .rat n d :: b)) =
      if b.any (isRoot sqf · d) then .ok (n, d, a ++ b.filter (fun f => !isRoot sqf f d)) else .error .valueError := by
  have h0 : step sqf ⟨false, false, 0, 1, a⟩ (.rat n d) = ⟨true, false, n, d, a⟩ := rfl
  have hl : (a ++ .rat n d :: b).foldl (step sqf) St.init = ⟨true, b.any (isRoot sqf · d), n, d, a ++ b.filter (fun f => !isRoot sqf f d)⟩ := by
    rw [List.foldl_append, List.foldl_cons, loop_before sqf a ha St.init rfl]
    simp only [St.init, List.nil_append]
    rw [h0, loop_found]
    simp
  simp only [derat, hl, Bool.true_and]

theorem derat_none (l : List Factor) (h : ∀ f ∈ l, f.isRat = false) : derat sqf (.mul l) = .error .valueError := by
  simp only [derat]
  rw [loop_before sqf l h St.init rfl]
  simp [St.init]

theorem filter_prod (d : ℕ) : ∀ b : List Factor,
    prodVal v w b = ((Real.sqrt d : ℝ) : ℂ) ^ (b.countP (isRoot sqf · d)) * prodVal v w (b.filter (fun f => !isRoot sqf f d))
  | [] => by simp [prodVal]
  | f :: b => by
    have ih := filter_prod d b
    have e : prodVal v w (f :: b) = f.val v w * prodVal v w b := by simp [prodVal]
    rw [e, ih]
    by_cases h : isRoot sqf f d = true
    · have hf : f = .root d := by
        cases f <;> simp_all [isRoot]
      have hv : f.val v w = ((Real.sqrt d : ℝ) : ℂ) := by rw [hf]; rfl
      rw [hv, List.countP_cons_of_pos (p := (isRoot sqf · d)) h, List.filter_cons_of_neg (by simp [h]), pow_succ]
      ring
    · rw [List.countP_cons_of_neg (p := (isRoot sqf · d)) h, List.filter_cons_of_pos (by simp [h])]
      have : prodVal v w (f :: b.filter (fun f => !isRoot sqf f d)) = f.val v w * prodVal v w (b.filter (fun f => !isRoot sqf f d)) := by simp [prodVal]
      rw [this]; ring

theorem cancel (d : ℕ) (hd : 0 < d) (n : ℂ) : n / (d : ℂ) * ((Real.sqrt d : ℝ) : ℂ) = n / ((Real.sqrt d : ℝ) : ℂ) := by
  have h1 : ((Real.sqrt d : ℝ) : ℂ) * ((Real.sqrt d : ℝ) : ℂ) = (d : ℂ) := by
    rw [← Complex.ofReal_mul, Real.mul_self_sqrt (by positivity)]; simp
  have h2 : ((Real.sqrt d : ℝ) : ℂ) ≠ 0 := by
    rw [Complex.ofReal_ne_zero]; exact (Real.sqrt_pos.mpr (by exact_mod_cast hd)).ne'
  rw [← h1]
  field_simp

/-! ## results -/

/-- **C96**: the identity of the docstring. For a `Mul` in which no two factors are equal (sympy collects equal factors) and the rational has a positive
denominator: if `(numerator, denom_sq, post_factor)` is returned, then `(numerator / sqrt(denom_sq)) * post_factor` is the value of the expression. -/
theorem C96_identity_partial (args : List Factor) (hnd : args.Nodup) (hd : ∀ n d, Factor.rat n d ∈ args → 0 < d)
    {n : ℤ} {d : ℕ} {post : List Factor} (h : derat sqf (.mul args) = .ok (n, d, post)) :
    (n : ℂ) / ((Real.sqrt d : ℝ) : ℂ) * prodVal v w post = prodVal v w args := by
  rcases first_rat args with hn | ⟨a, n', d', b, rfl, ha⟩
  · rw [derat_none sqf args hn] at h; cases h
  · rw [derat_split sqf a b n' d' ha] at h
    split at h
    · next hany =>
      simp only [Except.ok.injEq, Prod.mk.injEq] at h
      obtain ⟨rfl, rfl, rfl⟩ := h
      have hd' : 0 < d' := hd n' d' (by simp)
      have hb : b.Nodup := by
        have := (List.nodup_append.mp hnd).2.1
        exact (List.nodup_cons.mp this).2
      have hc : b.countP (isRoot sqf · d') = 1 := by
        apply le_antisymm
        · rw [List.countP_eq_length_filter]
          by_contra hlt
          have h2 : (b.filter (isRoot sqf · d')).Nodup := hb.filter _
          have hall : ∀ f ∈ b.filter (isRoot sqf · d'), f = .root d' := by
            intro f hf
            have := (List.mem_filter.mp hf).2
            cases f <;> simp_all [isRoot]
          rcases hl : b.filter (isRoot sqf · d') with _ | ⟨x, _ | ⟨y, l⟩⟩
          · rw [hl] at hlt; simp at hlt
          · rw [hl] at hlt; simp at hlt
          · rw [hl] at h2 hall
            have hx := hall x (by simp)
            have hy := hall y (by simp)
            rw [hx, hy] at h2
            simp at h2
        · exact List.countP_pos_iff.mpr (by simpa using hany)
      have e : prodVal v w (.rat n' d' :: b) = (n' : ℂ) / (d' : ℂ) * prodVal v w b := by simp [prodVal, Factor.val]
      rw [prodVal_append, prodVal_append, e, filter_prod sqf v w d' b, hc, pow_one, ← cancel d' hd']
      ring
    · cases h

/-- **C96**: it returns a result exactly if, after the first `Rational(n, d)` among the factors, the factor `sqrt(d)` occurs and is a single power;
in every other case (also for expressions that are no `Mul`) it raises a `ValueError`. -/
theorem C96_accepts (e : SExpr) :
    ((∃ r, derat sqf e = .ok r) ↔
      ∃ a n d b, e = .mul (a ++ .rat n d :: b) ∧ (∀ f ∈ a, f.isRat = false) ∧ Factor.root d ∈ b ∧ sqf d = true) ∧
    ((∀ r, derat sqf e ≠ .ok r) → derat sqf e = .error .valueError) := by
  constructor
  · constructor
    · rintro ⟨r, h⟩
      cases e with
      | nonMul => cases h
      | mul args =>
        rcases first_rat args with hn | ⟨a, n', d', b, rfl, ha⟩
        · rw [derat_none sqf args hn] at h; cases h
        · rw [derat_split sqf a b n' d' ha] at h
          split at h
          · next hany =>
            obtain ⟨f, hf, hr⟩ := List.any_eq_true.mp hany
            have : f = .root d' ∧ sqf d' = true := by cases f <;> simp_all [isRoot]
            exact ⟨a, n', d', b, rfl, ha, this.1 ▸ hf, this.2⟩
          · cases h
    · rintro ⟨a, n, d, b, rfl, ha, hm, hs⟩
      rw [derat_split sqf a b n d ha, if_pos (List.any_eq_true.mpr ⟨_, hm, by simp [isRoot, hs]⟩)]
      exact ⟨_, rfl⟩
  · intro h
    cases e with
    | nonMul => rfl
    | mul args =>
      simp only [derat] at h ⊢
      split
      · next hc => exact absurd (by rw [if_pos hc]) (h _)
      · rfl

/-- **C96**: an unevaluated `Mul` may repeat a factor; all occurrences of the root are dropped, so that for
`Mul(Rational(1, 2), sqrt(2), sqrt(2), evaluate=False)`, whose value is 1, the result `1/sqrt(2)` is returned. -/
theorem C96_refuted_repeated (hs : sqf 2 = true) :
    derat sqf (.mul [.rat 1 2, .root 2, .root 2]) = .ok (1, 2, []) ∧
      ((1 : ℤ) : ℂ) / ((Real.sqrt (2 : ℕ) : ℝ) : ℂ) * prodVal v w [] ≠ prodVal v w [.rat 1 2, .root 2, .root 2] := by
  constructor
  · have := derat_split sqf [] [.root 2, .root 2] 1 2 (by simp)
    simpa [isRoot, hs] using this
  · have hv : prodVal v w [.rat 1 2, .root 2, .root 2] = 1 := by
      have h1 : ((Real.sqrt 2 : ℝ) : ℂ) * ((Real.sqrt 2 : ℝ) : ℂ) = 2 := by
        rw [← Complex.ofReal_mul, Real.mul_self_sqrt (by norm_num)]; simp
      simp [prodVal, Factor.val, h1]
    rw [hv]
    simp only [prodVal, List.map_nil, List.prod_nil, mul_one]
    intro h
    have h2 : ((1 / Real.sqrt (2 : ℕ) : ℝ) : ℂ) = ((1 : ℝ) : ℂ) := by push_cast; simpa using h
    have h3 : 1 / Real.sqrt (2 : ℕ) = (1 : ℝ) := Complex.ofReal_injective h2
    have h4 : Real.sqrt (2 : ℕ) = 1 := by
      have hpos : Real.sqrt (2 : ℕ) ≠ 0 := (Real.sqrt_pos.mpr (by norm_num)).ne'
      field_simp at h3
      exact h3.symm
    have h5 : Real.sqrt (2 : ℕ) * Real.sqrt (2 : ℕ) = 2 := by
      rw [Real.mul_self_sqrt (by norm_num)]; norm_num
    rw [h4] at h5
    norm_num at h5

/-- `3 * x * exp(i y) / sqrt(2)`, as sympy stores it -/
example : derat (fun _ => true) (.mul [.rat 3 2, .root 2, .other 0, .pow 1]) = .ok (3, 2, [.other 0, .pow 1]) := by decide
example : [Factor.rat 3 2, .root 2, .other 0, .pow 1].Nodup := by decide
/-- `Rational(5, 4) * sqrt(3)` -/
example : derat (fun d => d == 3) (.mul [.rat 5 4, .root 3]) = .error .valueError := by decide

end QNET.Derat
