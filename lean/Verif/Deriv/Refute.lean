import Verif.Deriv.Main
import Verif.Util.KernelRfl
import Mathlib.Analysis.Calculus.Deriv.Pow
import Mathlib.Analysis.Complex.Basic

/-!
# C88: examples and counterexamples
-/

namespace QNET.Deriv

open QNET.Perm (Res Err)
open scoped ContDiff

/-- SymPy's test, taken as: the symbol does not occur; symbols 3, 4, 5 are the dummies for 0, 1, 2 -/
def E6 : Env (Fin 6) := ⟨fun e s => decide (s ∉ e.free), fun i => if i < 3 then i + 3 else i, fun i => decide (3 ≤ i)⟩

theorem diff_eval_zero {ι : Type} [LinearOrder ι] {e : Sc ι} {s : ι} (h : s ∉ e.free) (ρ : ι → ℝ) : (e.diff s).eval ρ = 0 := by
  induction e with
  | num q => simp [Sc.diff, Sc.eval]
  | sym i =>
    simp only [Sc.free, Finset.mem_singleton] at h
    have h' : ¬ (i = s) := fun e => h e.symm
    simp [Sc.diff, h', Sc.eval]
  | add a b ha hb =>
    simp only [Sc.free, Finset.mem_union, not_or] at h
    simp [Sc.diff, Sc.eval, ha h.1, hb h.2]
  | mul a b ha hb =>
    simp only [Sc.free, Finset.mem_union, not_or] at h
    simp [Sc.diff, Sc.eval, ha h.1, hb h.2]

/-- three parameters -/
abbrev t : Fin 6 := 0
abbrev s : Fin 6 := 1
abbrev x : Fin 6 := 2

/-- `A(t)`, `A(t, s)` -/
abbrev At : DX (Fin 6) := .sym 0 [.sym t]
abbrev Ats : DX (Fin 6) := .sym 0 [.sym t, .sym s]

/-- examples of functions -/
def Fid : ℕ → List ℝ → ℝ := fun _ l => l.headD 0
def Fsq : ℕ → List ℝ → ℝ := fun _ l => l.headD 0 ^ 2

theorem pd_id : pd t (val Fid At) = fun _ => 1 := by
  funext ρ
  show deriv (fun u => Function.update ρ t u t) (ρ t) = 1
  simp only [Function.update_self]
  exact deriv_id _

theorem val_sq (ρ : Fin 6 → ℝ) : val Fsq At ρ = ρ t ^ 2 := rfl

theorem pd_sq : pd t (val Fsq At) = fun ρ => 2 * ρ t := by
  funext ρ
  show deriv (fun u => Function.update ρ t u t ^ 2) (ρ t) = _
  simp only [Function.update_self]
  simp

/-- C88 is false of the code for `substitute`: `A(t).diff(t).substitute({t: 0})` and `A(t).diff(t).substitute({t: s})` are zero, also if the derivative
is 1 everywhere. -/
theorem C88_refuted_substitute (n : ℕ) : ∃ D, diff E6 (n + 8) At t 1 = .ok D ∧ (∀ ρ, val Fid D ρ = 1) ∧
    subst E6 (n + 8) [(t, .sc (.num 0))] [] D = .ok .zero ∧ subst E6 (n + 8) [(t, .sc (.sym s))] [] D = .ok .zero := by
  refine ⟨.deriv At [(t, 1)] [], rfl, fun ρ => ?_, rfl, rfl⟩
  exact congrFun pd_id _

/-- C88 is false of the code for the chain rule: `A(t).diff(t).evaluate_at({t: 2*s}).diff(s)` is a derivative that vanishes for `A(t) = t^2`, where
the operator is `4 s` and its derivative 4. -/
theorem C88_refuted_chain (n : ℕ) : ∃ D D1 r, diff E6 (n + 8) At t 1 = .ok D ∧ evaluateAt D [(t, .sc (.mul (.num 2) (.sym s)))] = .ok D1 ∧
    diff E6 (n + 8) D1 s 1 = .ok r ∧ ∀ ρ, val Fsq D1 ρ = 4 * ρ s ∧ pd s (val Fsq D1) ρ = 4 ∧ val Fsq r ρ = 0 := by
  refine ⟨.deriv At [(t, 1)] [], .deriv At [(t, 1)] [(t, .sc (.mul (.num 2) (.sym s)))],
    .deriv At [(t, 1), (s, 1)] [(t, .sc (.mul (.num 2) (.sym s)))], rfl, rfl, rfl, fun ρ => ?_⟩
  have h1 : ∀ ρ, val Fsq (.deriv At [(t, 1)] [(t, .sc (.mul (.num 2) (.sym s)))]) ρ = 4 * ρ s := by
    intro ρ
    show pd t (val Fsq At) (point _ ρ) = _
    rw [pd_sq, point_single]
    simp only [Function.update_self, PV.eval, Sc.eval]
    push_cast; ring
  refine ⟨h1 ρ, ?_, ?_⟩
  · show deriv (fun u => val Fsq _ (Function.update ρ s u)) (ρ s) = 4
    simp only [h1, Function.update_self]
    rw [deriv_const_mul _ differentiableAt_fun_id]
    simp
  · show pd s (pd t (val Fsq At)) (point _ ρ) = 0
    rw [pd_sq, pd_const_in]
    · rfl
    · intro ρ u; simp [Function.update_of_ne (show t ≠ s by decide)]

/-- C88 is false of the code if a parameter is replaced by an expression that contains it: `A(t).diff(t).evaluate_at({t: t + 1}).diff(t)` is zero. -/
theorem C88_refuted_shift (n : ℕ) : ∃ D D1, diff E6 (n + 8) At t 1 = .ok D ∧ evaluateAt D [(t, .sc (.add (.sym t) (.num 1)))] = .ok D1 ∧
    diff E6 (n + 8) D1 t 1 = .ok .zero ∧ ∀ ρ, pd t (val Fsq D1) ρ = 2 := by
  refine ⟨.deriv At [(t, 1)] [], .deriv At [(t, 1)] [(t, .sc (.add (.sym t) (.num 1)))], rfl, rfl, rfl, fun ρ => ?_⟩
  have h1 : ∀ ρ, val Fsq (.deriv At [(t, 1)] [(t, .sc (.add (.sym t) (.num 1)))]) ρ = 2 * (ρ t + 1) := by
    intro ρ
    show pd t (val Fsq At) (point _ ρ) = _
    rw [pd_sq, point_single]
    simp only [Function.update_self, PV.eval, Sc.eval]
    push_cast; ring
  show deriv (fun u => val Fsq _ (Function.update ρ t u)) (ρ t) = 2
  simp only [h1, Function.update_self]
  rw [deriv_const_mul _ (differentiableAt_fun_id.add_const 1)]
  simp

/-- C88 is false of the code for derivatives at a Python number: the coefficient of `t` in the series of `A(t, s)` about the number 0 cannot be
differentiated (`AttributeError`). -/
theorem C88_refuted_number (n : ℕ) : ∃ D D1, diff E6 (n + 8) Ats t 1 = .ok D ∧ evaluateAt D [(t, .py 0)] = .ok D1 ∧
    series E6 (n + 8) 0 [.sym t, .sym s] t (.py 0) 1 = .ok [(0, .sym 0 [.num 0, .sym s]), (1, D1)] ∧
    diff E6 (n + 8) D1 s 1 = .error .attributeError :=
  ⟨.deriv Ats [(t, 1)] [], .deriv Ats [(t, 1)] [(t, .py 0)], rfl, rfl, rfl, rfl⟩

/-- C88 is false of the code if an abstract operator is replaced by an explicit one: with `A(t) -> t^2 B`, the derivative of `A(t)` at `t = s` becomes
the derivative at `t`. -/
theorem C88_refuted_explicit (n : ℕ) : ∃ D D1 r, diff E6 (n + 8) At t 1 = .ok D ∧ evaluateAt D [(t, .sc (.sym s))] = .ok D1 ∧
    subst E6 (n + 8) [] [(At, .expl (.mul (.sym t) (.sym t)) 1 false)] D1 = .ok r ∧
    ∀ (F : ℕ → List ℝ → ℝ) ρ, val F r ρ = 2 * ρ t * F 1 [] ∧
      val F (.deriv (.expl (.mul (.sym t) (.sym t)) 1 false) [(t, 1)] [(t, .sc (.sym s))]) ρ = 2 * ρ s * F 1 [] := by
  refine ⟨.deriv At [(t, 1)] [], .deriv At [(t, 1)] [(t, .sc (.sym s))],
    .expl (.add (.mul (.num 1) (.sym t)) (.mul (.sym t) (.num 1))) 1 false, rfl, rfl, rfl, fun F ρ => ⟨?_, ?_⟩⟩
  · simp only [val, Sc.eval, smul_eq_mul, Bool.false_eq_true, if_false]; push_cast; ring
  · show pd t (val F (.expl (.mul (.sym t) (.sym t)) 1 false)) (point _ ρ) = _
    have h : pd t (val F (.expl (.mul (.sym t) (.sym t)) 1 false : DX (Fin 6))) = fun ρ => 2 * ρ t * F 1 [] := by
      funext ρ
      show deriv (fun u => (Function.update ρ t u t * Function.update ρ t u t) • F 1 []) (ρ t) = _
      simp only [Function.update_self, smul_eq_mul]
      rw [deriv_mul_const (differentiableAt_fun_id.mul differentiableAt_fun_id)]
      congr 1
      have : (fun u : ℝ => u * u) = fun u => u ^ 2 := by funext u; ring
      rw [this]; simp
    rw [h, point_single]
    simp [PV.eval, Sc.eval]

/-- C88 is false of the code for the zeroth derivative with respect to a parameter that does not occur: `A(t).diff(s, 0)` is zero. -/
theorem C88_refuted_zeroth (n : ℕ) : diff E6 (n + 8) At s 0 = .ok .zero ∧ ∃ ρ, val Fid At ρ ≠ 0 :=
  ⟨rfl, fun _ => 1, by simp [val, Fid, Sc.eval]⟩

/-! ### derivatives of evaluated derivatives -/

/-- `f(t, s, x) = t^2 s x` -/
def Fn : ℕ → List ℝ → ℝ := fun _ l => (l.getD 0 0) ^ 2 * l.getD 1 0 * l.getD 2 0
abbrev Atsx : DX (Fin 6) := .sym 0 [.sym t, .sym s, .sym x]

theorem pd_s_n : pd s (val Fn Atsx) = fun ρ => ρ t ^ 2 * ρ x := by
  funext ρ
  show deriv (fun u => Function.update ρ s u t ^ 2 * Function.update ρ s u s * Function.update ρ s u x) (ρ s) = _
  simp only [Function.update_self, Function.update_of_ne (show t ≠ s by decide), Function.update_of_ne (show x ≠ s by decide)]
  rw [deriv_mul_const (differentiableAt_fun_id.const_mul _), deriv_const_mul _ differentiableAt_fun_id]
  simp

theorem pd_t_n : pd t (val Fn Atsx) = fun ρ => 2 * ρ t * ρ s * ρ x := by
  funext ρ
  show deriv (fun u => Function.update ρ t u t ^ 2 * Function.update ρ t u s * Function.update ρ t u x) (ρ t) = _
  simp only [Function.update_self, Function.update_of_ne (show s ≠ t by decide), Function.update_of_ne (show x ≠ t by decide)]
  rw [deriv_mul_const ((differentiableAt_fun_id.pow 2).mul_const _), deriv_mul_const (differentiableAt_fun_id.pow 2)]
  simp

theorem pd_st_n : pd s (pd t (val Fn Atsx)) = fun ρ => 2 * ρ t * ρ x := by
  rw [pd_t_n]
  funext ρ
  show deriv (fun u => 2 * Function.update ρ s u t * Function.update ρ s u s * Function.update ρ s u x) (ρ s) = _
  simp only [Function.update_self, Function.update_of_ne (show t ≠ s by decide), Function.update_of_ne (show x ≠ s by decide)]
  rw [deriv_mul_const (differentiableAt_fun_id.const_mul _), deriv_const_mul _ differentiableAt_fun_id]
  simp

/-- C88 is false of the code for evaluated derivatives of evaluated derivatives: the `free_symbols` miss a parameter. With
`g = A(t, s, x).diff(t).diff(s).evaluate_at({t: s})` and `h = g.diff(s).evaluate_at({s: 0})`, no symbol is free in `h`, and `h.diff(x)` is zero. For
`A(t, s, x) = t^2 s x`, `g = 2 s x`, `h = 2 x`, and the derivative is 2. -/
theorem C88_refuted_nested (n : ℕ) : ∃ a b g c h, diff E6 (n + 8) Atsx t 1 = .ok a ∧ diff E6 (n + 8) a s 1 = .ok b ∧
    evaluateAt b [(t, .sc (.sym s))] = .ok g ∧ diff E6 (n + 8) g s 1 = .ok c ∧ evaluateAt c [(s, .sc (.num 0))] = .ok h ∧
    free E6 (n + 8) h = .ok ∅ ∧ diff E6 (n + 8) h x 1 = .ok .zero ∧
    ∀ ρ, val Fn g ρ = 2 * ρ s * ρ x ∧ val Fn h ρ = 2 * ρ x ∧ pd x (val Fn h) ρ = 2 := by
  refine ⟨.deriv Atsx [(t, 1)] [], .deriv Atsx [(t, 1), (s, 1)] [], .deriv Atsx [(t, 1), (s, 1)] [(t, .sc (.sym s))],
    .deriv (.deriv Atsx [(t, 1), (s, 1)] [(t, .sc (.sym s))]) [(s, 1)] [],
    .deriv (.deriv Atsx [(t, 1), (s, 1)] [(t, .sc (.sym s))]) [(s, 1)] [(s, .sc (.num 0))], rfl, rfl, rfl, rfl, rfl, rfl, rfl, ?_⟩
  have hg : val Fn (.deriv Atsx [(t, 1), (s, 1)] [(t, .sc (.sym s))]) = fun ρ => 2 * ρ s * ρ x := by
    funext ρ
    show pd s (pd t (val Fn Atsx)) (point _ ρ) = _
    rw [pd_st_n, point_single]
    simp only [Function.update_self, PV.eval, Sc.eval, Function.update_of_ne (show x ≠ t by decide)]
  have hh : val Fn (.deriv (.deriv Atsx [(t, 1), (s, 1)] [(t, .sc (.sym s))]) [(s, 1)] [(s, .sc (.num 0))]) = fun ρ => 2 * ρ x := by
    funext ρ
    show pd s (val Fn (.deriv Atsx [(t, 1), (s, 1)] [(t, .sc (.sym s))])) (point _ ρ) = _
    have h2 : pd s (fun ρ : Fin 6 → ℝ => 2 * ρ s * ρ x) = fun ρ => 2 * ρ x := by
      funext ρ
      show deriv (fun u => 2 * Function.update ρ s u s * Function.update ρ s u x) (ρ s) = _
      simp only [Function.update_self, Function.update_of_ne (show x ≠ s by decide)]
      rw [deriv_mul_const (differentiableAt_fun_id.const_mul _), deriv_const_mul _ differentiableAt_fun_id]
      simp
    rw [hg, h2, point_single]
    simp only [Function.update_of_ne (show x ≠ s by decide)]
  intro ρ
  refine ⟨congrFun hg ρ, congrFun hh ρ, ?_⟩
  rw [hh]
  show deriv (fun u => 2 * Function.update ρ x u x) (ρ x) = 2
  simp only [Function.update_self]
  rw [deriv_const_mul _ differentiableAt_fun_id]
  simp

/-! ### the hypotheses of the theorems can be met -/

theorem E6_ok : E6.Ok := by
  refine ⟨fun e s h ρ => diff_eval_zero (of_decide_eq_true h) ρ, fun i => ?_⟩
  revert i; decide

theorem Fsq_smooth : Smooth Fsq := by
  intro a n
  cases n with
  | zero =>
    simp only [Fsq, List.ofFn_zero, List.headD_nil]
    exact contDiff_const
  | succ n =>
    simp only [Fsq, List.ofFn_succ, List.headD_cons]
    exact (contDiff_apply ℝ ℝ 0).pow 2

/-- `A(t).diff(t, 2).evaluate_at({t: s})`: the derivative at another symbol is regular and simple for `s`, and its derivative is the third one. -/
example : ∃ r, diff E6 20 (.deriv At [(t, 2)] [(t, .sc (.sym s))]) s 1 = .ok r ∧
    val Fsq r = pd s (val Fsq (.deriv At [(t, 2)] [(t, .sc (.sym s))])) := by
  refine ⟨_, rfl, C88_diff_partial E6_ok Fsq_smooth (k := 1) ?_ ?_ ?_ le_rfl (n := 20) rfl⟩
  · exact ⟨trivial, ⟨by decide, by decide, by decide, by decide⟩, Or.inr trivial⟩
  · exact (by decide : ∀ i ∈ freeArgs [Sc.sym t], E6.isDum i = false)
  · intro _; exact ⟨by decide, by decide⟩

example : ∃ l, series E6 8 0 [.sym t] t (.sc (.sym s)) 3 = .ok l ∧ l.length = 4 := ⟨_, rfl, rfl⟩

example (ρ : Fin 6 → ℝ) : ∃ l, series E6 8 0 [.sym t] t (.py 1) 2 = .ok l ∧
    (fun u => val Fsq At (Function.update ρ t u) - (l.map (fun p => ((u - (PV.py 1).eval ρ) ^ p.1 / (p.1.factorial : ℝ)) • val Fsq p.2 ρ)).sum)
      =O[nhds ((PV.py 1).eval ρ)] fun u => (u - (PV.py 1).eval ρ) ^ 3 :=
  ⟨_, rfl, C88_series_remainder E6_ok Fsq_smooth 0 (by decide) t (.py 1) 2 le_rfl rfl ρ⟩

example : ∃ r, (diff E6 8 Ats t 1 >>= fun y => diff E6 8 y s 1) = .ok r ∧ (diff E6 8 Ats s 1 >>= fun y => diff E6 8 y t 1) = .ok r :=
  C88_order (by decide) (by decide) (by decide)

end QNET.Deriv
