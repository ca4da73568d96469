import Verif.Liouv.Model
import Mathlib.LinearAlgebra.Matrix.Notation
import Mathlib.LinearAlgebra.Matrix.Basis
import Mathlib.Data.Matrix.Basis

/-! # The normal form of a Liouvillian (C80) -/

namespace QNET.Liouv

variable {Op A : Type} [DecidableEq Op] [Ring A] [Algebra ℂ A] [StarRing A] [StarModule ℂ A]

/-! ### Specification -/

section Spec

/-- the master equation with Hamilton operator `H` and collapse operators `Ls` -/
noncomputable def generate (H : A) (Ls : List A) (X : A) : A :=
  -(Complex.I • (H * X - X * H)) + (Ls.map fun L => L * X * star L - (1 / 2 : ℂ) • (star L * L * X + X * (star L * L))).sum

/-- what a summand does with `X`; `oth` for the summands of another form -/
def Summand.act (val : Op → A) (oth : A → A) (s : Summand Op) (X : A) : A :=
  match s.kind with
  | .pre x => s.coeff.val • (val x * X)
  | .post x => s.coeff.val • (X * val x)
  | .prePost x y => s.coeff.val • (val x * X * val y)
  | .other => oth X

/-- what the sum does with `X` -/
def action (val : Op → A) (oth : A → A) (l : List (Summand Op)) (X : A) : A := (l.map fun s => s.act val oth X).sum

/-- the pairs of operators of the terms `SPre(x) * SPost(y)` -/
def pairs : List (Summand Op) → List (Op × Op)
  | [] => []
  | s :: l => match s.kind with
    | .prePost x y => (x, y) :: pairs l
    | _ => pairs l

/-- summands are collected, terms `SPre(x) * SPost(y)` have `y = x.adjoint()` and a rate that is not negative, and for numerical evaluation no rate is the object `One` -/
structure Good (adj : Op → Op) (symbolic : Bool) (l : List (Summand Op)) : Prop where
  collected : (pairs l).Nodup
  diagonal : ∀ s ∈ l, ∀ x y, s.kind = .prePost x y → y = adj x
  rate : ∀ s ∈ l, ∀ x y, s.kind = .prePost x y → ∃ r : ℝ, 0 ≤ r ∧ s.coeff.val = r
  notOne : ∀ s ∈ l, ∀ x y, s.kind = .prePost x y → s.coeff = .one → symbolic = true

end Spec

/-! ### the loop -/

/-- value of a dictionary -/
def formVal (val : Op → A) (f : Form Op) (X : A) : A := (f.map fun e => e.2.2.val • (val e.1 * X * val e.2.1)).sum

theorem set_new {f : Form Op} {x y : Op} {c : Coeff} (h : (x, y) ∉ f.map fun e => (e.1, e.2.1)) : f.set x y c = f ++ [(x, y, c)] := by
  rw [Form.set, List.filter_eq_self.mpr]
  intro e he
  simp only [decide_not, Bool.not_eq_true', decide_eq_false_iff_not]
  rintro ⟨rfl, rfl⟩
  exact h (List.mem_map.mpr ⟨e, he, rfl⟩)

/-- what the loop has computed -/
theorem loop_spec (val : Op → A) (oth : A → A) : ∀ (l : List (Summand Op)) (st st' : St Op A), loop val st l = .ok st' → ((st.form.map fun e => (e.1, e.2.1)) ++ pairs l).Nodup →
    (∀ X, st'.spres * X + X * st'.sposts + formVal val st'.form X = st.spres * X + X * st.sposts + formVal val st.form X + action val oth l X) ∧
    (∀ e ∈ st'.form, e ∈ st.form ∨ ∃ s ∈ l, s.kind = .prePost e.1 e.2.1 ∧ s.coeff = e.2.2) ∧
    (st.symbolic = true → st'.symbolic = true) ∧
    (∀ s ∈ l, ∀ x y z b, s.kind = .prePost x y → s.coeff = .sym z b → st'.symbolic = true) ∧
    ((st'.form.map fun e => (e.1, e.2.1)) = (st.form.map fun e => (e.1, e.2.1)) ++ pairs l)
  | [], st, st', h, _ => by
    cases h
    refine ⟨fun X => by simp [action], fun e he => .inl he, id, by simp, by simp [pairs]⟩
  | s :: l, st, st', h, hn => by
    obtain ⟨c, k⟩ := s
    rw [loop, step] at h
    cases k with
    | pre x =>
      obtain ⟨h1, h2, h3, h4, h5⟩ := loop_spec val oth l _ st' h (by simpa [pairs] using hn)
      refine ⟨fun X => ?_, ?_, h3, ?_, by simpa [pairs] using h5⟩
      · rw [h1 X]
        simp only [action, List.map_cons, List.sum_cons, Summand.act, add_mul, smul_mul_assoc]
        abel
      · intro e he
        rcases h2 e he with h | ⟨s, hs, h⟩
        · exact .inl h
        · exact .inr ⟨s, List.mem_cons_of_mem _ hs, h⟩
      · intro s hs x y z b hk hc
        rcases List.mem_cons.mp hs with rfl | hs
        · cases hk
        · exact h4 s hs x y z b hk hc
    | post x =>
      obtain ⟨h1, h2, h3, h4, h5⟩ := loop_spec val oth l _ st' h (by simpa [pairs] using hn)
      refine ⟨fun X => ?_, ?_, h3, ?_, by simpa [pairs] using h5⟩
      · rw [h1 X]
        simp only [action, List.map_cons, List.sum_cons, Summand.act, mul_add, mul_smul_comm]
        abel
      · intro e he
        rcases h2 e he with h | ⟨s, hs, h⟩
        · exact .inl h
        · exact .inr ⟨s, List.mem_cons_of_mem _ hs, h⟩
      · intro s hs x y z b hk hc
        rcases List.mem_cons.mp hs with rfl | hs
        · cases hk
        · exact h4 s hs x y z b hk hc
    | prePost x y =>
      have hnew : (x, y) ∉ st.form.map fun e => (e.1, e.2.1) := by
        intro hm
        have := (List.nodup_append.mp hn).2.2 _ hm (x, y) (by simp [pairs])
        exact this rfl
      obtain ⟨h1, h2, h3, h4, h5⟩ := loop_spec val oth l _ st' h (by
        dsimp only
        rw [set_new hnew]
        simpa [pairs] using hn)
      dsimp only at h1 h2 h3 h5
      rw [set_new hnew] at h1 h2 h5
      refine ⟨fun X => ?_, ?_, fun hs => h3 (by rw [hs]; rfl), ?_, by simpa [pairs] using h5⟩
      · rw [h1 X]
        simp only [action, List.map_cons, List.sum_cons, Summand.act, formVal, List.map_append, List.sum_append, List.map_nil, List.sum_nil, add_zero]
        abel
      · intro e he
        rcases h2 e he with h | ⟨s, hs, h⟩
        · rcases List.mem_append.mp h with h | h
          · exact .inl h
          · rw [List.mem_singleton] at h
            subst h
            exact .inr ⟨_, List.mem_cons_self, rfl, rfl⟩
        · exact .inr ⟨s, List.mem_cons_of_mem _ hs, h⟩
      · intro s hs x' y' z b hk hc
        rcases List.mem_cons.mp hs with rfl | hs
        · cases hc
          exact h3 (by simp)
        · exact h4 s hs x' y' z b hk hc
    | other => cases h

theorem loop_total (val : Op → A) : ∀ (l : List (Summand Op)) (st : St Op A), (∀ s ∈ l, s.kind ≠ .other) → ∃ st', loop val st l = .ok st' := by
  intro l
  induction l with
  | nil => exact fun st _ => ⟨st, rfl⟩
  | cons s l ih =>
    intro st h
    have h2 : ∃ st', step val st s = .ok st' := by
      rw [step]
      split
      · exact ⟨_, rfl⟩
      · exact ⟨_, rfl⟩
      · exact ⟨_, rfl⟩
      · rename_i hk
        exact absurd hk (h s List.mem_cons_self)
    obtain ⟨st', h2⟩ := h2
    obtain ⟨st'', h3⟩ := ih st' (fun s hs => h s (List.mem_cons_of_mem _ hs))
    exact ⟨st'', by rw [loop, h2]; exact h3⟩

theorem keys_nil {f : Form Op} (h : f.keys = []) : f = [] := by
  cases f with
  | nil => rfl
  | cons e f =>
    have : e.1 ∈ Form.keys (e :: f) := List.mem_dedup.mpr (by simp)
    rw [h] at this
    cases this

/-- one key, and all values at its adjoint: one entry -/
theorem keys_one {f : Form Op} {l : Op} {adj : Op → Op} (h : f.keys = [l]) (hd : ∀ e ∈ f, e.2.1 = adj e.1) (hn : (f.map fun e => (e.1, e.2.1)).Nodup) : ∃ c, f = [(l, adj l, c)] := by
  have hall : ∀ e ∈ f, e.1 = l ∧ e.2.1 = adj l := by
    intro e he
    have : e.1 ∈ f.keys := List.mem_dedup.mpr (List.mem_map.mpr ⟨e, he, rfl⟩)
    rw [h, List.mem_singleton] at this
    exact ⟨this, by rw [hd e he, this]⟩
  cases f with
  | nil => simp [Form.keys] at h
  | cons e f =>
    cases f with
    | nil =>
      obtain ⟨x, y, c⟩ := e
      obtain ⟨h1, h2⟩ := hall _ List.mem_cons_self
      dsimp only at h1 h2
      exact ⟨c, by rw [h1, h2]⟩
    | cons e' f =>
      have h1 := hall e (by simp)
      have h2 := hall e' (by simp)
      simp [h1, h2] at hn

theorem get_single (l y : Op) (c : Coeff) : Form.get [(l, y, c)] l y = c := by
  simp [Form.get]

theorem half_pow {r : ℝ} (hr : 0 ≤ r) : ((r : ℂ) ^ (1 / 2 : ℂ)) = ((Real.sqrt r : ℝ) : ℂ) := by
  rw [Real.sqrt_eq_rpow, Complex.ofReal_cpow hr]
  norm_num

theorem sqrt_mul_self (r : ℝ) (hr : 0 ≤ r) : ((Real.sqrt r : ℝ) : ℂ) * ((Real.sqrt r : ℝ) : ℂ) = (r : ℂ) := by
  rw [← Complex.ofReal_mul, Real.mul_self_sqrt hr]

/-- the collapse operators reproduce the terms `SPre * SPost`, and the corresponding term is added to `spres` and `sposts` -/
theorem collapse_spec {adj : Op → Op} {val : Op → A} (hadj : ∀ x, val (adj x) = star (val x)) {sy : Bool} {f : Form Op} {basis : List Op} {D : A} {Ls : List A}
    (hb : sortedKeys f = .ok basis) (h : collapse adj val sy f basis = .ok (D, Ls)) (hd : ∀ e ∈ f, e.2.1 = adj e.1) (hn : (f.map fun e => (e.1, e.2.1)).Nodup)
    (hr : ∀ e ∈ f, ∃ r : ℝ, 0 ≤ r ∧ e.2.2.val = r) (h1 : ∀ e ∈ f, e.2.2 = .one → sy = true) (X : A) :
    (Ls.map fun L => L * X * star L - (1 / 2 : ℂ) • (star L * L * X + X * (star L * L))).sum = formVal val f X - D * X - X * D := by
  rw [sortedKeys] at hb
  split at hb
  · rename_i hk
    cases hb
    have := keys_nil hk
    subst this
    rw [collapse] at h
    split at h
    · cases h
      simp [formVal]
    · cases h
  · rename_i l hk
    cases hb
    obtain ⟨c, rfl⟩ := keys_one hk hd hn
    rw [collapse, get_single] at h
    obtain ⟨r, hr0, hrc⟩ := hr _ (List.mem_singleton.mpr rfl)
    dsimp only at hrc
    have main : ∀ s : ℂ, s * s = r → star s = s → s • val l * X * star (s • val l) - (1 / 2 : ℂ) • (star (s • val l) * (s • val l) * X + X * (star (s • val l) * (s • val l))) =
        (r : ℂ) • (val l * X * star (val l)) - ((r / 2 : ℂ) • (star (val l) * val l)) * X - X * ((r / 2 : ℂ) • (star (val l) * val l)) := by
      intro s hs hss
      simp only [star_smul, hss, smul_mul_assoc, mul_smul_comm, smul_smul, hs, mul_assoc]
      module
    have hstar : star (((Real.sqrt r : ℝ) : ℂ)) = ((Real.sqrt r : ℝ) : ℂ) := Complex.conj_ofReal _
    cases hc : checkOne c with
    | error e => rw [hc] at h; cases h
    | ok u =>
      rw [hc] at h
      replace h : (if sy = true then Except.ok ((c.val / 2) • (val (adj l) * val l), [(c.val ^ (1 / 2 : ℂ)) • val l]) else
        match c.complex with
        | none => .error .typeError
        | some z =>
          if z.re < 0 then .error .nan
          else .ok ((1 / 2 : ℂ) • (star (((Real.sqrt z.re : ℝ) : ℂ) • val l) * (((Real.sqrt z.re : ℝ) : ℂ) • val l)), [((Real.sqrt z.re : ℝ) : ℂ) • val l])) = (Except.ok (D, Ls) : Res _) := h
      cases sy with
      | true =>
        cases h
        rw [hrc, half_pow hr0]
        simp only [List.map_cons, List.map_nil, List.sum_cons, List.sum_nil, add_zero, formVal, hrc, hadj]
        exact main _ (sqrt_mul_self r hr0) hstar
      | false =>
        simp only [Bool.false_eq_true, if_false] at h
        cases c with
        | one => exact absurd (h1 _ (List.mem_singleton.mpr rfl) rfl) (by simp)
        | sym z b => cases h
        | num z =>
          have hz : z = r := hrc
          subst hz
          simp only [Coeff.complex, Complex.ofReal_re, if_neg (not_lt.mpr hr0)] at h
          cases h
          simp only [List.map_cons, List.map_nil, List.sum_cons, List.sum_nil, add_zero, formVal, Coeff.val, hadj]
          rw [main _ (sqrt_mul_self r hr0) hstar]
          simp only [star_smul, hstar, smul_mul_assoc, mul_smul_comm, smul_smul, mul_assoc]
          have e : ((1 / 2 : ℂ) * (((Real.sqrt r : ℝ) : ℂ) * ((Real.sqrt r : ℝ) : ℂ))) = r / 2 := by rw [sqrt_mul_self r hr0]; ring
          rw [e]
  · cases hb

/-! ### C80 -/

/-- the result differs from the given super-operator exactly by the operator whose vanishing the code tests -/
theorem main_eq {adj : Op → Op} {val : Op → A} (hadj : ∀ x, val (adj x) = star (val x)) (oth : A → A) {sy : Bool} {l : List (Summand Op)} (hg : Good adj sy l) {H W : A} {Ls : List A}
    (h : normalForm adj val sy l = .ok (H, Ls, W)) (X : A) : generate H Ls X = action val oth l X - X * W := by
  rw [normalForm] at h
  cases hl : loop val ⟨0, 0, [], sy⟩ l with
  | error e => rw [hl] at h; cases h
  | ok st =>
    rw [hl] at h
    cases hb : sortedKeys st.form with
    | error e =>
      replace h : (sortedKeys st.form).bind _ = _ := h
      rw [hb] at h; cases h
    | ok basis =>
      replace h : (sortedKeys st.form).bind _ = _ := h
      rw [hb] at h
      cases hc : collapse adj val st.symbolic st.form basis with
      | error e =>
        replace h : Except.map _ (collapse adj val st.symbolic st.form basis) = _ := h
        rw [hc] at h; cases h
      | ok r =>
        replace h : Except.map _ (collapse adj val st.symbolic st.form basis) = _ := h
        rw [hc] at h
        obtain ⟨D, Ls'⟩ := r
        cases h
        obtain ⟨h1, h2, h3, h4, h5⟩ := loop_spec val oth l _ st hl (by simpa using hg.collected)
        have hmem : ∀ e ∈ st.form, ∃ s ∈ l, s.kind = .prePost e.1 e.2.1 ∧ s.coeff = e.2.2 := by
          intro e he
          rcases h2 e he with h | h
          · cases h
          · exact h
        have hs := collapse_spec hadj hb hc (by
            intro e he
            obtain ⟨s, hs, hk, _⟩ := hmem e he
            exact hg.diagonal s hs _ _ hk) (by rw [h5]; simpa using hg.collected) (by
            intro e he
            obtain ⟨s, hs, hk, hv⟩ := hmem e he
            rw [← hv]
            exact hg.rate s hs _ _ hk) (by
            intro e he h1'
            obtain ⟨s, hs, hk, hv⟩ := hmem e he
            exact h3 (hg.notOne s hs _ _ hk (hv.trans h1'))) X
        have hx := h1 X
        simp only [zero_mul, mul_zero, formVal, List.map_nil, List.sum_nil, add_zero, zero_add] at hx
        rw [generate, hs, ← hx]
        have hI : ∀ Y : A, Complex.I • Complex.I • Y = -Y := by
          intro Y
          rw [smul_smul, Complex.I_mul_I, neg_smul, one_smul]
        simp only [smul_mul_assoc, mul_smul_comm, ← smul_sub, hI, formVal]
        noncomm_ring

/-- C80: if the test of the code for a malformed Liouvillian gives zero, the Hamilton operator and the collapse operators that are returned generate the given super-operator. In every *-algebra, for all summands. Missing: see the refutations. -/
theorem C80_test_partial {adj : Op → Op} {val : Op → A} (hadj : ∀ x, val (adj x) = star (val x)) (oth : A → A) {sy : Bool} {l : List (Summand Op)} (hg : Good adj sy l) {H : A} {Ls : List A}
    (h : normalForm adj val sy l = .ok (H, Ls, 0)) (X : A) : generate H Ls X = action val oth l X := by
  rw [main_eq hadj oth hg h X, mul_zero, sub_zero]

section Matrix
variable {n : Type} [Fintype n] [DecidableEq n]

theorem trace_generate (H : Matrix n n ℂ) (Ls : List (Matrix n n ℂ)) (X : Matrix n n ℂ) : (generate H Ls X).trace = 0 := by
  have h : ∀ Ls : List (Matrix n n ℂ), ((Ls.map fun L => L * X * star L - (1 / 2 : ℂ) • (star L * L * X + X * (star L * L))).sum).trace = 0 := by
    intro Ls
    induction Ls with
    | nil => simp
    | cons L Ls ih =>
      rw [List.map_cons, List.sum_cons, Matrix.trace_add, ih, add_zero, Matrix.trace_sub, Matrix.trace_smul, Matrix.trace_add, Matrix.trace_mul_comm X (star L * L)]
      rw [Matrix.trace_mul_comm (L * X) (star L), ← mul_assoc (star L) L X, smul_eq_mul]
      ring
  rw [generate, Matrix.trace_add, h, Matrix.trace_neg, Matrix.trace_smul, Matrix.trace_sub, Matrix.trace_mul_comm H X]
  simp

/-- C80: on a space of any finite dimension, if the given super-operator preserves the trace (as Liouvillians do), the test of the code succeeds, and the Hamilton operator and the collapse operators that are returned generate it. -/
theorem C80_equivalent_partial {adj : Op → Op} {val : Op → Matrix n n ℂ} (hadj : ∀ x, val (adj x) = star (val x)) (oth : Matrix n n ℂ → Matrix n n ℂ) {sy : Bool} {l : List (Summand Op)} (hg : Good adj sy l)
    (htr : ∀ X, (action val oth l X).trace = 0) {H W : Matrix n n ℂ} {Ls : List (Matrix n n ℂ)} (h : normalForm adj val sy l = .ok (H, Ls, W)) :
    W = 0 ∧ ∀ X, generate H Ls X = action val oth l X := by
  have hW : W = 0 := by
    apply Matrix.ext_iff_trace_mul_left.mpr
    intro X
    have h1 := congrArg Matrix.trace (main_eq hadj oth hg h X)
    rw [trace_generate, Matrix.trace_sub, htr, zero_sub] at h1
    rw [mul_zero, Matrix.trace_zero]
    exact neg_eq_zero.mp h1.symm
  subst hW
  exact ⟨rfl, C80_test_partial hadj oth hg h⟩

/-- C80: if, moreover, the super-operator preserves Hermiticity, the Hamilton operator is Hermitian up to a multiple of the identity, which does not contribute to the dynamics. -/
theorem C80_hermitian_partial {adj : Op → Op} {val : Op → Matrix n n ℂ} (hadj : ∀ x, val (adj x) = star (val x)) (oth : Matrix n n ℂ → Matrix n n ℂ) {sy : Bool} {l : List (Summand Op)} (hg : Good adj sy l)
    (htr : ∀ X, (action val oth l X).trace = 0) (hh : ∀ X, action val oth l (star X) = star (action val oth l X)) {H W : Matrix n n ℂ} {Ls : List (Matrix n n ℂ)}
    (h : normalForm adj val sy l = .ok (H, Ls, W)) : ∃ c : ℂ, H - star H = Matrix.scalar n c := by
  obtain ⟨_, he⟩ := C80_equivalent_partial hadj oth hg htr h
  have hD : ∀ (Ls : List (Matrix n n ℂ)) (X : Matrix n n ℂ), star ((Ls.map fun L => L * X * star L - (1 / 2 : ℂ) • (star L * L * X + X * (star L * L))).sum) =
      (Ls.map fun L => L * star X * star L - (1 / 2 : ℂ) • (star L * L * star X + star X * (star L * L))).sum := by
    intro Ls X
    induction Ls with
    | nil => simp
    | cons L Ls ih =>
      rw [List.map_cons, List.sum_cons, star_add, ih, List.map_cons, List.sum_cons]
      congr 1
      simp only [star_sub, star_mul, star_star, star_smul, star_add, mul_assoc]
      have : star (1 / 2 : ℂ) = 1 / 2 := by simp
      rw [this, add_comm (star X * (star L * L))]
  have hc : ∀ X : Matrix n n ℂ, Commute (H - star H) X := by
    intro X
    have h1 := hh (star X)
    rw [← he, ← he, star_star, generate, generate, star_add, hD, star_star] at h1
    have h2 := add_right_cancel h1
    simp only [star_neg, star_smul, star_sub, star_mul, star_star] at h2
    have hI : star Complex.I = -Complex.I := Complex.conj_I
    rw [hI, neg_smul, neg_neg] at h2
    have h3 : Complex.I • (H * X - X * H) = Complex.I • (star H * X - X * star H) := by
      rw [← neg_inj, h2, ← smul_neg]
      congr 1
      abel
    have h4 := smul_right_injective (Matrix n n ℂ) Complex.I_ne_zero h3
    show (H - star H) * X = X * (H - star H)
    rw [sub_mul, mul_sub]
    have h5 : H * X - X * H = star H * X - X * star H := h4
    have h6 : H * X - X * H + X * H - star H * X = star H * X - X * star H + X * H - star H * X := by rw [h5]
    have e1 : H * X - X * H + X * H - star H * X = H * X - star H * X := by abel
    have e2 : star H * X - X * star H + X * H - star H * X = X * H - X * star H := by abel
    rw [e1, e2] at h6
    exact h6
  obtain ⟨c, hc⟩ := Matrix.mem_range_scalar_of_commute_single (M := H - star H) (fun i j _ => (hc _).symm)
  exact ⟨c, hc.symm⟩

end Matrix

/-- C80: the function returns a result for summands with exactly one operator `x` in terms `SPre(x)*SPost(y)`, unless SymPy cannot see that the rate is real. -/
theorem C80_total_partial {adj : Op → Op} {val : Op → A} {sy : Bool} {l : List (Summand Op)} (hg : Good adj sy l) (ho : ∀ s ∈ l, s.kind ≠ .other) {x : Op}
    (h1 : (pairs l).map Prod.fst = [x]) (hs : ∀ s ∈ l, ∀ z, s.coeff ≠ .sym z false) : ∃ r, normalForm adj val sy l = .ok r := by
  obtain ⟨st, hl⟩ := loop_total val l ⟨0, 0, [], sy⟩ ho
  obtain ⟨_, h2, h3, h4, h5⟩ := loop_spec val id l _ st hl (by simpa using hg.collected)
  simp only [List.map_nil, List.nil_append] at h5
  have hk : st.form.keys = [x] := by
    have : st.form.map Prod.fst = (pairs l).map Prod.fst := by
      rw [← h5, List.map_map]
      rfl
    rw [Form.keys, this, h1]
    rfl
  have hb : sortedKeys st.form = .ok [x] := by rw [sortedKeys, hk]
  have hmem : ∀ e ∈ st.form, ∃ s ∈ l, s.kind = .prePost e.1 e.2.1 ∧ s.coeff = e.2.2 := by
    intro e he
    rcases h2 e he with h | h
    · cases h
    · exact h
  obtain ⟨c, hf⟩ := keys_one (adj := adj) hk (by
    intro e he
    obtain ⟨s, hs, hk, _⟩ := hmem e he
    exact hg.diagonal s hs _ _ hk) (by rw [h5]; exact hg.collected)
  obtain ⟨s, hsl, hsk, hsc⟩ := hmem (x, adj x, c) (by rw [hf]; exact List.mem_singleton.mpr rfl)
  obtain ⟨r, hr0, hr⟩ := hg.rate s hsl _ _ hsk
  dsimp only at hsk hsc
  have hcol : ∃ q, collapse adj val st.symbolic st.form [x] = .ok q := by
    rw [collapse, hf, get_single]
    cases c with
    | one =>
      rw [h3 (hg.notOne s hsl _ _ hsk hsc)]
      exact ⟨_, rfl⟩
    | num z =>
      rw [hsc] at hr
      have hz : z = r := hr
      cases st.symbolic with
      | true => exact ⟨_, rfl⟩
      | false =>
        have hz' : ¬ z.re < 0 := by rw [hz, Complex.ofReal_re]; exact not_lt.mpr hr0
        exact ⟨_, if_neg hz'⟩
    | sym z b =>
      cases b with
      | false => exact absurd hsc (hs s hsl z)
      | true =>
        rw [h4 s hsl _ _ z true hsk hsc]
        exact ⟨_, rfl⟩
  obtain ⟨q, hq⟩ := hcol
  rw [normalForm, hl]
  show ∃ r, (sortedKeys st.form).bind _ = .ok r
  rw [hb]
  show ∃ r, Except.map _ (collapse adj val st.symbolic st.form [x]) = .ok r
  rw [hq]
  exact ⟨_, rfl⟩

/-! ### the limits -/

/-- C80 fails for Liouvillians without collapse operators: `liouvillian_normal_form(liouvillian(H))` raises `LinAlgError`, for every `H` (unless `symbolic` is given). -/
theorem C80_refuted_hamiltonian (adj : Op → Op) (val : Op → A) (H : Op) :
    normalForm adj val false [⟨.num (-Complex.I), .pre H⟩, ⟨.num Complex.I, .post H⟩] = .error .linAlg := rfl

/-- C80 fails for two or more operators in the terms `SPre(x)*SPost(y)`: operators cannot be sorted (`TypeError`). -/
theorem C80_refuted_two (adj : Op → Op) (val : Op → A) (sy : Bool) (l : List (Summand Op)) (ho : ∀ s ∈ l, s.kind ≠ .other) (hc : (pairs l).Nodup) (x y : Op) (hx : x ∈ (pairs l).map Prod.fst) (hy : y ∈ (pairs l).map Prod.fst)
    (hxy : x ≠ y) : normalForm adj val sy l = .error .typeError := by
  obtain ⟨st, hl⟩ := loop_total val l ⟨0, 0, [], sy⟩ ho
  obtain ⟨_, _, _, _, h5⟩ := loop_spec val id l _ st hl (by simpa using hc)
  simp only [List.map_nil, List.nil_append] at h5
  have hk : ∀ z ∈ (pairs l).map Prod.fst, z ∈ st.form.keys := by
    intro z hz
    rw [← h5, List.map_map] at hz
    exact List.mem_dedup.mpr hz
  have hb : sortedKeys st.form = .error .typeError := by
    have h1 := hk x hx
    have h2 := hk y hy
    rw [sortedKeys]
    split
    · rename_i h; rw [h] at h1; cases h1
    · rename_i l' h
      rw [h, List.mem_singleton] at h1 h2
      exact absurd (h1.trans h2.symm) hxy
    · rfl
  rw [normalForm, hl]
  show (sortedKeys st.form).bind _ = _
  rw [hb]
  rfl

/-- C80 fails for summands of another form: `BadLiouvillianError`, e.g. for the term `-IdentitySuperOperator` of `lindblad(U)` with `U.adjoint() * U == IdentityOperator`. -/
theorem C80_refuted_identity (adj : Op → Op) (val : Op → A) (sy : Bool) (c : Coeff) (x : Op) :
    normalForm adj val sy [⟨c, .other⟩, ⟨.one, .prePost x (adj x)⟩] = .error .badLiouvillian := rfl

/-- C80 fails for rates that SymPy does not recognise as real (e.g. a symbol without assumptions): `TypeError`. -/
theorem C80_refuted_symbol (adj : Op → Op) (val : Op → A) (sy : Bool) (z : ℂ) (x : Op) :
    normalForm adj val sy [⟨.sym z false, .prePost x (adj x)⟩] = .error .typeError := by
  cases sy <;> simp [normalForm, loop, step, Except.bind, sortedKeys, Form.keys, Form.set, collapse, Form.get, checkOne, Except.map]

/-- the lowering operator of a two-level system -/
def lower : Matrix (Fin 2) (Fin 2) ℂ := !![0, 1; 0, 0]

/-- three operators: `L`, `L.adjoint()`, `L.adjoint()*L` -/
def demoVal : Fin 3 → Matrix (Fin 2) (Fin 2) ℂ
  | 0 => lower
  | 1 => star lower
  | 2 => star lower * lower

/-- adjoints of the three operators -/
def demoAdj : Fin 3 → Fin 3
  | 0 => 1
  | 1 => 0
  | 2 => 2

/-- the summands of `lindblad(sqrt(c) * L)` -/
noncomputable def demo (c : Coeff) : List (Summand (Fin 3)) := [⟨c, .prePost 0 1⟩, ⟨.num (-c.val / 2), .pre 2⟩, ⟨.num (-c.val / 2), .post 2⟩]

theorem demoAdj_ok (x : Fin 3) : demoVal (demoAdj x) = star (demoVal x) := by
  fin_cases x <;> simp [demoVal, demoAdj]

theorem demo_trace (c : Coeff) (oth) (X : Matrix (Fin 2) (Fin 2) ℂ) : (action demoVal oth (demo c) X).trace = 0 := by
  simp only [action, demo, List.map_cons, List.map_nil, List.sum_cons, List.sum_nil, Summand.act, demoVal, Matrix.trace_add, Matrix.trace_smul, Matrix.trace_zero, Coeff.val]
  rw [Matrix.trace_mul_comm (lower * X) (star lower), ← mul_assoc, Matrix.trace_mul_comm X (star lower * lower), smul_eq_mul, smul_eq_mul]
  ring

/-- C80 fails for the rate `One`: `liouvillian_normal_form(lindblad(L))` returns the collapse operator `0 * L` (since `complex(One)` is `1j`), which does not generate the decay. -/
theorem C80_refuted_one : ∃ (H : Matrix (Fin 2) (Fin 2) ℂ) (W : Matrix (Fin 2) (Fin 2) ℂ), normalForm demoAdj demoVal false (demo .one) = .ok (H, [0], W) ∧
    ∃ X, generate H [0] X ≠ action demoVal id (demo .one) X := by
  have e : normalForm demoAdj demoVal false (demo .one) = .ok (Complex.I • (-(1 / 2 : ℂ) • (star lower * lower)), [0], (-(1 : ℂ)) • (star lower * lower)) := by
    simp [normalForm, demo, loop, step, Except.bind, sortedKeys, Form.keys, Form.set, collapse, Form.get, checkOne, Except.map, demoAdj, Coeff.complex, Coeff.val, demoVal]
    constructor
    · module
    · module
  refine ⟨_, _, e, !![0, 0; 0, 1], ?_⟩
  intro h
  have h0 := congrFun (congrFun h 0) 0
  have hl : star lower = !![0, 0; 1, 0] := by
    ext i j
    fin_cases i <;> fin_cases j <;> simp [lower, Matrix.star_apply]
  simp only [generate, action, demo, Summand.act, demoVal, hl, List.map_cons, List.map_nil, List.sum_cons, List.sum_nil] at h0
  simp [lower, Coeff.val] at h0

/-- the hypotheses can be met: decay with rate 4 of a two-level system -/
example : Good demoAdj false (demo (.num 4)) ∧ (∀ s ∈ demo (.num 4), s.kind ≠ .other) ∧ (pairs (demo (.num 4))).map Prod.fst = [0] ∧ (∀ s ∈ demo (.num 4), ∀ z, s.coeff ≠ .sym z false) ∧
    (∀ X, (action demoVal id (demo (.num 4)) X).trace = 0) := by
  refine ⟨⟨by simp [demo, pairs], ?_, ?_, ?_⟩, by simp [demo], by simp [demo, pairs], by simp [demo], demo_trace _ _⟩
  · intro s hs x y hk
    simp only [demo, List.mem_cons, List.not_mem_nil, or_false] at hs
    rcases hs with rfl | rfl | rfl <;> cases hk
    rfl
  · intro s hs x y hk
    simp only [demo, List.mem_cons, List.not_mem_nil, or_false] at hs
    rcases hs with rfl | rfl | rfl <;> cases hk
    exact ⟨4, by norm_num, by simp [Coeff.val]⟩
  · intro s hs x y hk h1
    simp only [demo, List.mem_cons, List.not_mem_nil, or_false] at hs
    rcases hs with rfl | rfl | rfl <;> cases hk
    cases h1

end QNET.Liouv
