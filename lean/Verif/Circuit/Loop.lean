import Verif.Circuit.Mono
import Verif.Circuit.Spec
import Verif.Circuit.Inst
import Verif.Util.KernelRfl

/-!
# A circuit whose simplification does not terminate (C78)

Rule R001 of `Feedback` (`_rules.py` lines 996-1003) replaces a series product by its double inverse when this is a different expression. For some products the double inverse of the double inverse is the
product itself, so that `Feedback.create` calls itself without end.
-/

namespace QNET.Circuit

open QNET.Perm QNET.CPerm

variable {A : Type} [Ring A] [StarRing A] [Algebra ℂ A]

/-- `((cid(2) + B) << CPermutation((0, 3, 1, 2)) << (T + cid(2)))` -/
def loopInner : Expr A := .series (.series (.concat (.cid 2) (.sym 1 2)) (.cperm [0, 3, 1, 2])) (.concat (.sym 7 2) (.cid 2))

/-- `loopInner.feedback(out_port=2, in_port=2)` -/
def loopExpr : Expr A := .feedback loopInner 2 2

def loopC : Circ A := .series [.concat [.id1, .id1, .sym 1 2], .perm [0, 3, 1, 2], .concat [.sym 7 2, .id1, .id1]]
def loopD : Circ A := .series [.concat [.id1, .id1, .sym 1 2], .perm [0, 2, 3, 1], .concat [.series [.perm [0, 2, 1], .concat [.sym 7 2, .id1]], .id1], .perm [0, 1, 3, 2]]

def loopI : Circ A :=
  .series [.concat [.inv (.sym 7 2), .id1, .id1], .concat [.id1, .series [.perm [0, 2, 1], .concat [.series [.perm [1, 0], .inv (.sym 1 2)], .id1]]], .perm [0, 3, 1, 2]]
def loopJ : Circ A := .series [.concat [.inv (.sym 7 2), .perm [1, 0]], .concat [.id1, .series [.perm [1, 0], .inv (.sym 1 2)], .id1], .perm [0, 3, 1, 2]]

theorem inner_eq : simplify (A := A) false 12 loopInner = .ok loopC := by kernel_rfl
theorem inv_C : (opsAt (A := A) false 16).inverse loopC = .ok loopI := by kernel_rfl
theorem inv_I : (opsAt (A := A) false 16).inverse loopI = .ok loopD := by kernel_rfl
theorem inv_D : (opsAt (A := A) false 16).inverse loopD = .ok loopJ := by kernel_rfl
theorem inv_J : (opsAt (A := A) false 16).inverse loopJ = .ok loopC := by kernel_rfl
theorem ne_DC : beq (loopD : Circ A) loopC = false := by kernel_rfl
theorem ne_CD : beq (loopC : Circ A) loopD = false := by kernel_rfl

/-- the result of an operation is unique -/
theorem inverse_unique {f g : ℕ} {c d e : Circ A} (h : (opsAt false f).inverse c = .ok d) (h' : (opsAt false g).inverse c = .ok e) : d = e := by
  have h1 := (opsAt_mono (b := false) (b' := false) (by simp) (Nat.le_max_left f g)).inverse c d h
  have h2 := (opsAt_mono (b := false) (b' := false) (by simp) (Nat.le_max_right f g)).inverse c e h'
  rw [h1] at h2
  exact Except.ok.inj h2

/-- one step of the loop -/
theorem feedback_step {f : ℕ} {ops : List (Circ A)} {i d v : Circ A} {o p : ℕ} (hn : 1 < (Circ.series ops).cdim) (h1 : (opsAt false 16).inverse (.series ops) = .ok i)
    (h2 : (opsAt false 16).inverse i = .ok d) (hd : ∃ l, d = .series l) (hb : beq d (.series ops) = false)
    (h : (opsAt false (f + 1)).feedback (.series ops) o p = .ok v) : (opsAt false f).feedback d o p = .ok v := by
  change feedbackCreate false (opsAt false f) (.series ops) o p = .ok v at h
  unfold feedbackCreate at h
  rw [if_neg (by omega)] at h
  simp only [feedbackRules, seriesFeedback] at h
  cases ha : (opsAt false f).inverse (Circ.series ops) with
  | error e => rw [ha] at h; cases h
  | ok a =>
    rw [ha] at h
    have : a = i := inverse_unique ha h1
    subst this
    change ((((opsAt false f).inverse a >>= fun b => _) >>= _) >>= _) = _ at h
    cases hb' : (opsAt false f).inverse a with
    | error e => rw [hb'] at h; cases h
    | ok b =>
      rw [hb'] at h
      have : b = d := inverse_unique hb' h2
      subst this
      change (((if beq b (.series ops) = true then _ else _) >>= _) >>= _) = _ at h
      rw [hb] at h
      obtain ⟨l, rfl⟩ := hd
      change (((feedbackMethod false (opsAt false f) (.series l) o p >>= fun r => .ok (some r)) >>= _) >>= _) = _ at h
      change ((((opsAt false f).feedback (.series l) o p >>= fun r => .ok (some r)) >>= _) >>= _) = _ at h
      cases hf : (opsAt false f).feedback (Circ.series l) o p with
      | error e => rw [hf] at h; cases h
      | ok r => rw [hf] at h; exact h

theorem loop_never : ∀ (f : ℕ) (v : Circ A), (opsAt false f).feedback loopC 2 2 ≠ .ok v ∧ (opsAt false f).feedback loopD 2 2 ≠ .ok v
  | 0, v => ⟨(fun h => nomatch h), (fun h => nomatch h)⟩
  | f + 1, v => ⟨fun h => (loop_never f v).2 (feedback_step (by show 1 < 4; omega) inv_C inv_I ⟨_, rfl⟩ ne_DC h),
      fun h => (loop_never f v).1 (feedback_step (by show 1 < 4; omega) inv_D inv_J ⟨_, rfl⟩ ne_CD h)⟩

theorem loop_expr (f : ℕ) (v : Circ A) : simplify (A := A) false f loopExpr ≠ .ok v := by
  intro h
  rw [loopExpr, simplify] at h
  cases hx : simplify (A := A) false f loopInner with
  | error e => rw [hx] at h; cases h
  | ok x =>
    rw [hx] at h
    have h1 := simplify_mono (A := A) (b := false) (b' := false) (by simp) (Nat.le_max_left f 12) loopInner x hx
    have h2 := simplify_mono (A := A) (b := false) (b' := false) (by simp) (Nat.le_max_right f 12) loopInner loopC inner_eq
    rw [h1] at h2
    cases Except.ok.inj h2
    exact (loop_never f v).1 h

/-- success or `RecursionError` -/
def okOrRec {α : Type} : Res α → Bool
  | .ok _ => true
  | .error .recursion => true
  | _ => false

theorem inner_low : ((List.range 12).all fun f => okOrRec (simplify (A := A) false f loopInner)) = true := by kernel_rfl
theorem low_C : ((List.range 16).all fun f => okOrRec ((opsAt (A := A) false f).inverse loopC)) = true := by kernel_rfl
theorem low_I : ((List.range 16).all fun f => okOrRec ((opsAt (A := A) false f).inverse loopI)) = true := by kernel_rfl
theorem low_D : ((List.range 16).all fun f => okOrRec ((opsAt (A := A) false f).inverse loopD)) = true := by kernel_rfl
theorem low_J : ((List.range 16).all fun f => okOrRec ((opsAt (A := A) false f).inverse loopJ)) = true := by kernel_rfl

theorem low_any {c d : Circ A} (h : ((List.range 16).all fun f => okOrRec ((opsAt (A := A) false f).inverse c)) = true) (h' : (opsAt (A := A) false 16).inverse c = .ok d) (f : ℕ) :
    (opsAt (A := A) false f).inverse c = .ok d ∨ (opsAt (A := A) false f).inverse c = .error .recursion := by
  by_cases hf : f < 16
  · have := List.all_eq_true.mp h f (List.mem_range.mpr hf)
    cases hx : (opsAt (A := A) false f).inverse c with
    | ok v => exact .inl (by rw [inverse_unique hx h'])
    | error e => rw [hx] at this; cases e <;> first | exact .inr rfl | cases this
  · exact .inl ((opsAt_mono (b := false) (b' := false) (by simp) (by omega : 16 ≤ f)).inverse c d h')

/-- one step of the loop, with the reason for the failure -/
theorem feedback_step_rec {f : ℕ} {ops l : List (Circ A)} {i : Circ A} {o p : ℕ} (hn : 1 < (Circ.series ops).cdim)
    (h1 : (opsAt false f).inverse (.series ops) = .ok i ∨ (opsAt false f).inverse (.series ops) = .error .recursion)
    (h2 : (opsAt false f).inverse i = .ok (.series l) ∨ (opsAt false f).inverse i = .error .recursion) (hb : beq (.series l) (.series ops) = false)
    (h : (opsAt false f).feedback (.series l) o p = .error .recursion) : (opsAt false (f + 1)).feedback (.series ops) o p = .error .recursion := by
  change feedbackCreate false (opsAt false f) (.series ops) o p = _
  unfold feedbackCreate
  rw [if_neg (by omega)]
  simp only [feedbackRules, seriesFeedback]
  rcases h1 with h1 | h1
  · rw [h1]
    change ((((opsAt false f).inverse i >>= fun b => _) >>= _) >>= _) = _
    rcases h2 with h2 | h2
    · rw [h2]
      change (((if beq (.series l) (.series ops) = true then _ else _) >>= _) >>= _) = _
      rw [hb]
      change ((((opsAt false f).feedback (.series l) o p >>= fun r => .ok (some r)) >>= _) >>= _) = _
      rw [h]
      rfl
    · rw [h2]; rfl
  · rw [h1]; rfl

theorem loop_rec : ∀ f : ℕ, (opsAt (A := A) false f).feedback loopC 2 2 = .error .recursion ∧ (opsAt (A := A) false f).feedback loopD 2 2 = .error .recursion
  | 0 => ⟨rfl, rfl⟩
  | f + 1 => ⟨feedback_step_rec (by show 1 < 4; omega) (low_any low_C inv_C f) (low_any low_I inv_I f) ne_DC (loop_rec f).2,
      feedback_step_rec (by show 1 < 4; omega) (low_any low_D inv_D f) (low_any low_J inv_J f) ne_CD (loop_rec f).1⟩

theorem loop_expr_rec (f : ℕ) : simplify (A := A) false f loopExpr = .error .recursion := by
  have hi : simplify (A := A) false f loopInner = .ok loopC ∨ simplify (A := A) false f loopInner = .error .recursion := by
    by_cases hf : f < 12
    · have := List.all_eq_true.mp (inner_low (A := A)) f (List.mem_range.mpr hf)
      cases hx : simplify (A := A) false f loopInner with
      | ok v =>
        have h1 := simplify_mono (A := A) (b := false) (b' := false) (by simp) (by omega : f ≤ 12) loopInner v hx
        rw [inner_eq] at h1
        exact .inl h1.symm
      | error e => rw [hx] at this; cases e <;> first | exact .inr rfl | cases this
    · exact .inl (simplify_mono (A := A) (b := false) (b' := false) (by simp) (by omega : 12 ≤ f) loopInner loopC inner_eq)
  rw [loopExpr, simplify]
  rcases hi with h | h
  · rw [h]
    exact (loop_rec f).1
  · rw [h]; rfl

/-- all symbols are straight connections -/
noncomputable def straight [StarModule ℂ A] : Valuation A where
  val _ n := SLH.passThrough n
  unitary _ n _ := SLH.passThrough_unitary n
  dim _ _ _ := rfl

/-- C78 fails for feedback: `((cid(2) + B) << CPermutation((0, 3, 1, 2)) << (T + cid(2))).feedback(out_port=2, in_port=2)` is a meaningful circuit of three channels without SLH objects, the loop is well
posed for suitable components `B` and `T`, but its construction ends with a `RecursionError` whatever the recursion limit is. -/
theorem C78_refuted_feedback [StarModule ℂ A] [Nontrivial A] : (loopExpr : Expr A).WellFormed ∧ (loopExpr : Expr A).Symbolic ∧ (∃ s, (loopExpr : Expr A).eval straight.val = .ok s) ∧
    ∀ f, simplify (A := A) false f loopExpr = .error .recursion := by
  have hbij : IsBijection [0, 3, 1, 2] := (C01_check_iff _).mp (by decide +kernel)
  refine ⟨⟨⟨⟨⟨trivial, by show 0 < 2; omega⟩, hbij, rfl⟩, ⟨by show 0 < 2; omega, trivial⟩, rfl⟩, by show 2 ≤ 4; omega, by show 2 < 4; omega, by show 2 < 4; omega⟩,
    ⟨⟨⟨trivial, trivial⟩, trivial⟩, trivial, trivial⟩, ?_, loop_expr_rec⟩
  have hv : Valid [0, 3, 1, 2] := (check_iff _).mp (by decide +kernel)
  set a : SLH A := SLH.series (SLH.series (SLH.concat (SLH.passThrough 2) (SLH.passThrough 2)) (SLH.ofPerm [0, 3, 1, 2])) (SLH.concat (SLH.passThrough 2) (SLH.passThrough 2)) with ha
  have e1 : (loopInner : Expr A).eval straight.val = .ok a := rfl
  have p2 := (SLH.passThrough_unitary (A := A) 2).1
  have hI : SLH.Iso a := SLH.Iso.series rfl (SLH.Iso.series rfl (p2.concat p2) (SLH.Iso.ofPerm hv)) (p2.concat p2)
  have hs : a.S 2 2 = 0 := by
    simp [ha, SLH.series, SLH.concat, SLH.mk', SLH.ofPerm, SLH.passThrough, Finset.sum_range_succ]
  obtain ⟨s, hs⟩ := (SLH.C16_error_iff (o := 2) (i := 2) hI (by show 2 < 4; omega) (by show 2 < 4; omega)).1.mpr ⟨1, one_ne_zero, by rw [hs]; simp⟩
  exact ⟨s, by rw [loopExpr, Expr.eval, e1]; exact hs⟩

end QNET.Circuit
