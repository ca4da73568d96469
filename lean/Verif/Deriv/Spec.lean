import Verif.Deriv.Model
import Mathlib.Analysis.Calculus.ContDiff.Basic
import Mathlib.Analysis.Calculus.ContDiff.Operations
import Mathlib.Analysis.Calculus.FDeriv.Symmetric
import Mathlib.Analysis.Calculus.Deriv.Basic
import Mathlib.Analysis.Calculus.Deriv.Pi
import Mathlib.Analysis.Calculus.Deriv.Mul
import Mathlib.Analysis.Calculus.MeanValue
import Mathlib.Analysis.CStarAlgebra.Basic
import Mathlib.Topology.Algebra.Module.Star

/-!
# C88: what operators that depend on parameters stand for

The parameters are real numbers `ρ : ι → ℝ`. The values are vectors in a normed space with a star operation (e.g. operators).
-/

namespace QNET.Deriv

open scoped ContDiff

set_option linter.unusedSectionVars false

variable {ι : Type} [LinearOrder ι]

/-- the value of a scalar -/
noncomputable def Sc.eval (ρ : ι → ℝ) : Sc ι → ℝ
  | .num q => q
  | .sym i => ρ i
  | .add a b => a.eval ρ + b.eval ρ
  | .mul a b => a.eval ρ * b.eval ρ

/-- the value of an evaluation point -/
noncomputable def PV.eval (ρ : ι → ℝ) : PV ι → ℝ
  | .py q => q
  | .sc e => e.eval ρ

/-- the parameters after setting those in `v` -/
noncomputable def point (v : List (ι × PV ι)) (ρ : ι → ℝ) : ι → ℝ := fun i =>
  match get v i with
  | some p => p.eval ρ
  | none => ρ i

variable {V : Type} [NormedAddCommGroup V] [NormedSpace ℝ V]

/-- the partial derivative with respect to the parameter `s` -/
noncomputable def pd (s : ι) (f : (ι → ℝ) → V) : (ι → ℝ) → V := fun ρ => deriv (fun u => f (Function.update ρ s u)) (ρ s)

/-- repeated partial derivatives -/
noncomputable def pds (d : List (ι × ℕ)) (f : (ι → ℝ) → V) : (ι → ℝ) → V := d.foldl (fun g p => (pd p.1)^[p.2] g) f

section
variable [StarAddMonoid V]

/-- the value of an operator as a function of the parameters; `F a` is the function with name `a` -/
noncomputable def val (F : ℕ → List ℝ → V) : DX ι → (ι → ℝ) → V
  | .zero, _ => 0
  | .sym a args, ρ => F a (args.map (Sc.eval ρ))
  | .expl c a dag, ρ => c.eval ρ • (if dag then star (F a []) else F a [])
  | .adj x, ρ => star (val F x ρ)
  | .deriv x d v, ρ => pds d (val F x) (point v ρ)
end

/-- the functions are smooth in their arguments -/
def Smooth (F : ℕ → List ℝ → V) : Prop := ∀ a n, ContDiff ℝ ∞ (fun v : Fin n → ℝ => F a (List.ofFn v))

/-- `f` depends on the parameters in `S` only -/
def DependsOn {β : Type} (f : (ι → ℝ) → β) (S : Finset ι) : Prop := ∀ ρ ρ' : ι → ℝ, (∀ i ∈ S, ρ i = ρ' i) → f ρ = f ρ'

/-- SymPy's zero test is right if it says yes; dummies are recognised -/
structure Env.Ok (E : Env ι) : Prop where
  dz : ∀ e s, E.dz e s = true → ∀ ρ, (e.diff s).eval ρ = 0
  dum : ∀ i, E.isDum (E.dum i) = true

/-! ### partial derivatives -/

section calculus
variable [Fintype ι]

theorem update_hasFDeriv (ρ : ι → ℝ) (s : ι) (u : ℝ) : HasDerivAt (fun u => Function.update ρ s u) (Pi.single s 1) u := by
  exact hasDerivAt_update ρ s u

theorem pd_eq {s : ι} {f : (ι → ℝ) → V} (hf : Differentiable ℝ f) : pd s f = fun ρ => fderiv ℝ f ρ (Pi.single s 1) := by
  funext ρ
  have h1 : HasFDerivAt f (fderiv ℝ f (Function.update ρ s (ρ s))) (Function.update ρ s (ρ s)) := (hf _).hasFDerivAt
  have h2 := h1.comp_hasDerivAt (ρ s) (update_hasFDeriv ρ s (ρ s))
  have h3 := h2.deriv
  rw [Function.update_eq_self] at h3
  exact h3

theorem smooth_diff {f : (ι → ℝ) → V} (hf : ContDiff ℝ ∞ f) : Differentiable ℝ f := hf.differentiable (by simp)

theorem pd_smooth {f : (ι → ℝ) → V} (hf : ContDiff ℝ ∞ f) (s : ι) : ContDiff ℝ ∞ (pd s f) := by
  rw [pd_eq (smooth_diff hf)]
  exact (hf.fderiv_right (m := ∞) (by simp)).clm_apply contDiff_const

theorem pdn_smooth {f : (ι → ℝ) → V} (hf : ContDiff ℝ ∞ f) (s : ι) (k : ℕ) : ContDiff ℝ ∞ ((pd s)^[k] f) := by
  induction k generalizing f with
  | zero => exact hf
  | succ k ih => exact ih (pd_smooth hf s)

theorem pds_smooth {f : (ι → ℝ) → V} (hf : ContDiff ℝ ∞ f) (d : List (ι × ℕ)) : ContDiff ℝ ∞ (pds d f) := by
  induction d generalizing f with
  | nil => exact hf
  | cons p d ih => exact ih (pdn_smooth hf p.1 p.2)

theorem pd_comm {f : (ι → ℝ) → V} (hf : ContDiff ℝ ∞ f) (s t : ι) : pd s (pd t f) = pd t (pd s f) := by
  have h : ∀ a b : ι, pd a (pd b f) = fun ρ => fderiv ℝ (fderiv ℝ f) ρ (Pi.single a 1) (Pi.single b 1) := by
    intro a b
    rw [pd_eq (smooth_diff (pd_smooth hf b)), pd_eq (smooth_diff hf)]
    funext ρ
    have h1 : DifferentiableAt ℝ (fderiv ℝ f) ρ :=
      ((hf.fderiv_right (m := ∞) (by simp)).differentiable (by simp)) ρ
    rw [fderiv_clm_apply h1 (differentiableAt_const _)]
    simp
  rw [h, h]
  funext ρ
  exact (hf.contDiffAt.isSymmSndFDerivAt (by simp only [minSmoothness_of_isRCLikeNormedField]; exact WithTop.coe_le_coe.mpr (le_top : (2 : ℕ∞) ≤ ⊤))) _ _

theorem eval_smooth (e : Sc ι) : ContDiff ℝ ∞ (fun ρ => e.eval ρ) := by
  induction e with
  | num q => exact contDiff_const
  | sym i => exact contDiff_apply ℝ ℝ i
  | add a b ha hb => exact ha.add hb
  | mul a b ha hb => exact ha.mul hb

theorem point_smooth (v : List (ι × PV ι)) : ContDiff ℝ ∞ (point v) := by
  rw [contDiff_pi]
  intro i
  unfold point
  cases get v i with
  | none => exact contDiff_apply ℝ ℝ i
  | some p =>
    cases p with
    | py q => exact contDiff_const
    | sc e => exact eval_smooth e

theorem map_ofFn {α β : Type} (l : List α) (f : α → β) : l.map f = List.ofFn (fun i : Fin l.length => f l[i]) := by
  apply List.ext_getElem <;> simp

variable [StarAddMonoid V] [NormedStarGroup V] [StarModule ℝ V]

theorem star_smooth {f : (ι → ℝ) → V} (hf : ContDiff ℝ ∞ f) : ContDiff ℝ ∞ (fun ρ => star (f ρ)) :=
  (starL' ℝ : V ≃L[ℝ] V).contDiff.comp hf

theorem val_smooth {F : ℕ → List ℝ → V} (hF : Smooth F) (x : DX ι) : ContDiff ℝ ∞ (val F x) := by
  induction x with
  | zero => exact contDiff_const
  | sym a args =>
    have h : val F (.sym a args) = (fun v : Fin args.length → ℝ => F a (List.ofFn v)) ∘ (fun ρ i => (args[i]).eval ρ) := by
      funext ρ
      simp only [val, Function.comp, map_ofFn]
    rw [h]
    exact (hF a _).comp (contDiff_pi.mpr fun i => eval_smooth _)
  | expl c a dag => exact (eval_smooth c).smul contDiff_const
  | adj x ih => exact star_smooth ih
  | deriv x d v ih => exact (pds_smooth ih d).comp (point_smooth v)

theorem pd_star {f : (ι → ℝ) → V} (hf : ContDiff ℝ ∞ f) (s : ι) : pd s (fun ρ => star (f ρ)) = fun ρ => star (pd s f ρ) := by
  rw [pd_eq (smooth_diff (star_smooth hf)), pd_eq (smooth_diff hf)]
  funext ρ
  have h := ((starL' ℝ : V ≃L[ℝ] V).hasFDerivAt (x := f ρ)).comp ρ (smooth_diff hf ρ).hasFDerivAt
  have h2 := h.fderiv
  have h3 : (fun ρ => star (f ρ)) = (⇑(starL' ℝ : V ≃L[ℝ] V)) ∘ f := by funext ρ; simp
  rw [h3, h2]
  simp

theorem pdn_star {f : (ι → ℝ) → V} (hf : ContDiff ℝ ∞ f) (s : ι) (k : ℕ) :
    (pd s)^[k] (fun ρ => star (f ρ)) = fun ρ => star ((pd s)^[k] f ρ) := by
  induction k generalizing f with
  | zero => rfl
  | succ k ih => rw [Function.iterate_succ_apply, pd_star hf, ih (pd_smooth hf s)]; rfl

theorem pds_star {f : (ι → ℝ) → V} (hf : ContDiff ℝ ∞ f) (d : List (ι × ℕ)) :
    pds d (fun ρ => star (f ρ)) = fun ρ => star (pds d f ρ) := by
  induction d generalizing f with
  | nil => rfl
  | cons p d ih =>
    show pds d ((pd p.1)^[p.2] fun ρ => star (f ρ)) = _
    rw [pdn_star hf, ih (pdn_smooth hf _ _)]
    rfl

end calculus

/-! ### dependence on parameters -/

theorem DependsOn.mono {β : Type} {f : (ι → ℝ) → β} {S T : Finset ι} (h : DependsOn f S) (hST : S ⊆ T) : DependsOn f T :=
  fun ρ ρ' hr => h ρ ρ' fun i hi => hr i (hST hi)

theorem update_agree {S : Finset ι} {ρ ρ' : ι → ℝ} (h : ∀ i ∈ S, ρ i = ρ' i) (s : ι) (u : ℝ) :
    ∀ i ∈ S, Function.update ρ s u i = Function.update ρ' s u i := by
  intro i hi
  by_cases he : i = s
  · subst he; simp
  · simp [Function.update_of_ne he, h i hi]

theorem pd_of_not_mem {f : (ι → ℝ) → V} {S : Finset ι} (h : DependsOn f S) {s : ι} (hs : s ∉ S) : pd s f = 0 := by
  funext ρ
  have : (fun u => f (Function.update ρ s u)) = fun _ => f ρ := by
    funext u
    refine h _ _ fun i hi => ?_
    rw [Function.update_of_ne (by rintro rfl; exact hs hi)]
  show deriv _ _ = _
  rw [this]; simp

theorem pd_depends {f : (ι → ℝ) → V} {S : Finset ι} (h : DependsOn f S) (s : ι) : DependsOn (pd s f) S := by
  by_cases hs : s ∈ S
  · intro ρ ρ' hr
    have : (fun u => f (Function.update ρ s u)) = fun u => f (Function.update ρ' s u) := by
      funext u; exact h _ _ (update_agree hr s u)
    show deriv _ _ = deriv _ _
    rw [this, hr s hs]
  · rw [pd_of_not_mem h hs]; exact fun _ _ _ => rfl

theorem pdn_depends {f : (ι → ℝ) → V} {S : Finset ι} (h : DependsOn f S) (s : ι) (k : ℕ) : DependsOn ((pd s)^[k] f) S := by
  induction k generalizing f with
  | zero => exact h
  | succ k ih => exact ih (pd_depends h s)

theorem pds_depends {f : (ι → ℝ) → V} {S : Finset ι} (h : DependsOn f S) (d : List (ι × ℕ)) : DependsOn (pds d f) S := by
  induction d generalizing f with
  | nil => exact h
  | cons p d ih => exact ih (pdn_depends h p.1 p.2)

theorem pd_zero (s : ι) : pd s (0 : (ι → ℝ) → V) = 0 := by funext ρ; show deriv (fun _ => (0 : V)) _ = _; simp

theorem pdn_zero (s : ι) (k : ℕ) : (pd s)^[k] (0 : (ι → ℝ) → V) = 0 := by
  induction k with
  | zero => rfl
  | succ k ih => rw [Function.iterate_succ_apply, pd_zero, ih]

theorem pds_zero (d : List (ι × ℕ)) : pds d (0 : (ι → ℝ) → V) = 0 := by
  induction d with
  | nil => rfl
  | cons p d ih => show pds d ((pd p.1)^[p.2] 0) = 0; rw [pdn_zero, ih]

theorem eval_depends (e : Sc ι) : DependsOn (fun ρ => e.eval ρ) e.free := by
  intro ρ ρ' h
  induction e with
  | num q => rfl
  | sym i => exact h i (by simp [Sc.free])
  | add a b ha hb => simp only [Sc.eval] at *; rw [ha fun i hi => h i (by simp [Sc.free, hi]), hb fun i hi => h i (by simp [Sc.free, hi])]
  | mul a b ha hb => simp only [Sc.eval] at *; rw [ha fun i hi => h i (by simp [Sc.free, hi]), hb fun i hi => h i (by simp [Sc.free, hi])]

theorem eval_diff [Fintype ι] (e : Sc ι) (s : ι) (ρ : ι → ℝ) : pd s (fun ρ => e.eval ρ) ρ = (e.diff s).eval ρ := by
  have key : ∀ u, HasDerivAt (fun u => e.eval (Function.update ρ s u)) ((e.diff s).eval (Function.update ρ s u)) u := by
    intro u
    induction e with
    | num q => simpa [Sc.eval, Sc.diff] using hasDerivAt_const u (q : ℝ)
    | sym i =>
      by_cases h : i = s
      · subst h; simpa [Sc.eval, Sc.diff] using hasDerivAt_id' u
      · simpa [Sc.eval, Sc.diff, h, Function.update_of_ne h] using hasDerivAt_const u (ρ i)
    | add a b ha hb => exact ha.add hb
    | mul a b ha hb => exact ha.mul hb
  have := (key (ρ s)).deriv
  rw [Function.update_eq_self] at this
  exact this

/-- if the derivative of a scalar vanishes everywhere, the scalar does not change with the parameter -/
theorem eval_const [Fintype ι] {e : Sc ι} {s : ι} (h : ∀ ρ, (e.diff s).eval ρ = 0) (ρ : ι → ℝ) (u : ℝ) : e.eval (Function.update ρ s u) = e.eval ρ := by
  have hd : Differentiable ℝ (fun u => e.eval (Function.update ρ s u)) := by
    have h1 : Differentiable ℝ (fun u : ℝ => Function.update ρ s u) := fun u => (update_hasFDeriv ρ s u).differentiableAt
    exact ((eval_smooth e).differentiable (by simp)).comp h1
  have h2 : ∀ u, deriv (fun u => e.eval (Function.update ρ s u)) u = 0 := by
    intro u
    have h3 := eval_diff e s (Function.update ρ s u)
    simp only [pd, Function.update_idem, Function.update_self] at h3
    rw [h3, h]
  have := is_const_of_deriv_eq_zero hd h2 u (ρ s)
  simpa using this

end QNET.Deriv
