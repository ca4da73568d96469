import Verif.Convert.Kets

/-!
# C66: `SLH_to_qutip` and `_time_dependent_to_qutip`
-/

namespace QNET.Convert

open QNET.Perm (Res Err)
open QNET.Mat (Mat identity dot scalarMul)
open QNET.Trace (Cfg ActsOn embed)
open QNET.Indexed (Except.bind_ok mapM_ok_forall₂)
open Finset Matrix

variable {ι : Type} [Fintype ι] [LinearOrder ι] {K : Type} [Field K] [StarRing K] {Time : Type}

/-! ## Model -/

/-- A summand of an expanded operator: without the time symbol; a `ScalarTimesOperator` whose coefficient is a `ScalarValue` that depends
on time (a function of time), with a time-independent operator; or another time-dependent operator. -/
inductive Summand (Time ι K : Type) where
  | stat (e : Ex ι K)
  | drv (f : Time → K) (e : Ex ι K)
  | other

/-- An operator as `_time_dependent_to_qutip` sees it: `const` does not contain the time symbol; otherwise what `op.expand()` returns, a
sum or a single term. -/
inductive TOp (Time ι K : Type) where
  | const (e : Ex ι K)
  | sum (ts : List (Summand Time ι K))
  | single (t : Summand Time ι K)

/-- What is returned: an object, `[object, coefficient]`, or a list of such items -/
inductive Item (Time K : Type) where
  | obj (M : Mat K)
  | pair (M : Mat K) (f : Time → K)

/-- the returned value -/
inductive Out (Time K : Type) where
  | item (i : Item Time K)
  | nested (l : List (Item Time K))

/-- One term with the time symbol, to_qutip.py lines 434-461 (`convert_as='pyfunc'`). A single term in which the time symbol no longer
appears after the expansion (`stat`) is neither an `OperatorPlus` nor, in this model, a `ScalarTimesOperator`: `ValueError`. -/
def termQ (conv : Ex ι K → Res (Mat K)) : Summand Time ι K → Res (Item Time K)
  | .drv f e => do
    let M ← conv e
    .ok (.pair M f)
  | .stat _ => .error .valueError
  | .other => .error .valueError

/-- the first loop, lines 423-429: the time-independent part -/
def staticLoop (conv : Ex ι K → Res (Mat K)) : List (Summand Time ι K) → Option (Mat K) → Res (Option (Mat K))
  | [], acc => .ok acc
  | .stat e :: ts, none => do
    let M ← conv e
    staticLoop conv ts (some M)
  | .stat e :: ts, some A => do
    let M ← conv e
    let A ← addQ A M
    staticLoop conv ts (some A)
  | _ :: ts, acc => staticLoop conv ts acc

/-- the second loop, lines 430-433 -/
def drivenLoop (conv : Ex ι K → Res (Mat K)) : List (Summand Time ι K) → Res (List (Item Time K))
  | [] => .ok []
  | .stat _ :: ts => drivenLoop conv ts
  | t :: ts => do
    let i ← termQ conv t
    let l ← drivenLoop conv ts
    .ok (i :: l)

/-- `_time_dependent_to_qutip`, to_qutip.py lines 412-463; `conv` is `convert_to_qutip(·, full_space)`. -/
def timeQ (conv : Ex ι K → Res (Mat K)) : TOp Time ι K → Res (Out Time K)
  | .const e => do
    let M ← conv e
    .ok (.item (.obj M))
  | .sum ts => do
    let s ← staticLoop conv ts none
    let l ← drivenLoop conv ts
    .ok (.nested ((s.map Item.obj).toList ++ l))
  | .single t => do
    let i ← termQ conv t
    .ok (.item i)

/-- `SLH_to_qutip` without a time symbol, to_qutip.py lines 147-165, after `move_drive_to_H` (C55): a scalar coupling is multiplied with the
identity, collapse operators with `norm('max') == 0` are dropped. -/
def slhQ [DecidableEq K] (conv : Ex ι K → Res (Mat K)) (H : Ex ι K) (Ls : List (K ⊕ Ex ι K)) : Res (Mat K × List (Mat K)) := do
  let h ← conv H
  let ls ← Ls.mapM fun L => conv (match L with | .inl c => .scal c .one | .inr e => e)
  .ok (h, ls.filter fun M => !M.allZero fun x => decide (x = 0))

/-! ## Specification -/

/-- the operator of a summand at time `t` -/
def Summand.val {d : ι → ℕ} (I : Interp d K) (junk : Time → Trace.Mat d K) (t : Time) : Summand Time ι K → Trace.Mat d K
  | .stat e => e.val I
  | .drv f e => f t • e.val I
  | .other => junk t

/-- the operator at time `t` -/
def TOp.val {d : ι → ℕ} (I : Interp d K) (junk : Time → Trace.Mat d K) (t : Time) : TOp Time ι K → Trace.Mat d K
  | .const e => e.val I
  | .sum ts => (ts.map (Summand.val I junk t)).sum
  | .single s => s.val I junk t

/-- the matrix of an item at time `t` -/
def Item.at (t : Time) : Item Time K → Mat K
  | .obj M => M
  | .pair M f => scalarMul (f t) M

/-- How QuTiP reads the returned value: a list is the sum of its items. -/
def Out.Reads (d : ι → ℕ) (fs : List ι) (t : Time) (V : Trace.Mat d K) : Out Time K → Prop
  | .item i => Represents d fs (i.at t) V
  | .nested l => ∃ vs : List (Trace.Mat d K), List.Forall₂ (fun i v => Represents d fs (Item.at t i) v) l vs ∧ vs.sum = V

/-- the Lindblad dissipator `D[L] ρ = L ρ L† - (L†L ρ + ρ L†L)/2` -/
def dissipator {d : ι → ℕ} (L ρ : Trace.Mat d K) : Trace.Mat d K := L * ρ * Lᴴ - (2⁻¹ : K) • (Lᴴ * L * ρ + ρ * (Lᴴ * L))

/-- the operator of a coupling -/
def couplingVal {d : ι → ℕ} (I : Interp d K) : K ⊕ Ex ι K → Trace.Mat d K
  | .inl c => c • 1
  | .inr e => e.val I

/-! ## Theorems -/

theorem static_rep {d : ι → ℕ} {fs : List ι} (I : Interp d K) {conv : Ex ι K → Res (Mat K)}
    (hc : ∀ e M, conv e = .ok M → Represents d fs M (e.val I)) : ∀ (ts : List (Summand Time ι K)) (acc : Option (Mat K)) (v : Trace.Mat d K)
    (r : Option (Mat K)), (∀ A ∈ acc, Represents d fs A v) → (acc = none → v = 0) → staticLoop conv ts acc = .ok r →
    ∃ w, v + w = v + (ts.filterMap fun s => match s with | .stat e => some (e.val I) | _ => none).sum ∧
      (∀ A ∈ r, Represents d fs A (v + w)) ∧ (r = none → v + w = 0)
  | [], acc, v, r, h1, h2, h => by
    rw [staticLoop] at h
    cases h
    exact ⟨0, by simp, by simpa using h1, by simpa using h2⟩
  | .stat e :: ts, none, v, r, h1, h2, h => by
    rw [staticLoop] at h
    obtain ⟨M, hM, h⟩ := Except.bind_ok h
    have hv := h2 rfl
    subst hv
    obtain ⟨w, hw, h3, h4⟩ := static_rep I hc ts (some M) (e.val I) r (by
      rintro A ⟨⟩
      exact hc e M hM) (by simp) h
    refine ⟨e.val I + w, ?_, by simpa using h3, by simpa using h4⟩
    simp [hw]
  | .stat e :: ts, some A, v, r, h1, h2, h => by
    rw [staticLoop] at h
    obtain ⟨M, hM, h⟩ := Except.bind_ok h
    obtain ⟨A', hA, h⟩ := Except.bind_ok h
    obtain ⟨w, hw, h3, h4⟩ := static_rep I hc ts (some A') (v + e.val I) r (by
      rintro B ⟨⟩
      exact add_rep (h1 A rfl) (hc e M hM) hA) (by simp) h
    refine ⟨e.val I + w, ?_, by simpa [add_assoc] using h3, by simpa [add_assoc] using h4⟩
    simpa [add_assoc] using hw
  | .drv f e :: ts, acc, v, r, h1, h2, h => by
    rw [staticLoop] at h
    · obtain ⟨w, hw, h3⟩ := static_rep I hc ts acc v r h1 h2 h
      exact ⟨w, by simpa using hw, h3⟩
    all_goals simp
  | .other :: ts, acc, v, r, h1, h2, h => by
    rw [staticLoop] at h
    · obtain ⟨w, hw, h3⟩ := static_rep I hc ts acc v r h1 h2 h
      exact ⟨w, by simpa using hw, h3⟩
    all_goals simp

theorem driven_rep {d : ι → ℕ} {fs : List ι} (I : Interp d K) (junk : Time → Trace.Mat d K) {conv : Ex ι K → Res (Mat K)}
    (hc : ∀ e M, conv e = .ok M → Represents d fs M (e.val I)) (t : Time) : ∀ (ts : List (Summand Time ι K)) (r : List (Item Time K)),
    drivenLoop conv ts = .ok r → ∃ vs, List.Forall₂ (fun i v => Represents d fs (Item.at t i) v) r vs ∧
      (ts.filterMap fun s => match s with | .stat e => some (e.val I) | _ => none).sum + vs.sum = (ts.map (Summand.val I junk t)).sum
  | [], r, h => by
    rw [drivenLoop] at h
    cases h
    exact ⟨[], .nil, by simp⟩
  | .stat e :: ts, r, h => by
    rw [drivenLoop] at h
    obtain ⟨vs, h1, h2⟩ := driven_rep I junk hc t ts r h
    exact ⟨vs, h1, by simp [Summand.val, ← h2, add_assoc]⟩
  | .drv f e :: ts, r, h => by
    rw [drivenLoop, termQ] at h
    · obtain ⟨i, hi, h⟩ := Except.bind_ok h
      obtain ⟨l, hl, h⟩ := Except.bind_ok h
      obtain ⟨M, hM, hi⟩ := Except.bind_ok hi
      cases hi
      cases h
      obtain ⟨vs, h1, h2⟩ := driven_rep I junk hc t ts l hl
      refine ⟨f t • e.val I :: vs, .cons (scal_rep (hc e M hM) (f t)) h1, ?_⟩
      simp only [List.filterMap_cons, List.sum_cons, List.map_cons, Summand.val, ← h2]
      rw [add_left_comm]
    all_goals simp
  | .other :: ts, r, h => by
    rw [drivenLoop, termQ] at h
    · simp [bind, Except.bind] at h
    all_goals simp

/-- C66: at every time, the (nested) value returned by `_time_dependent_to_qutip` reads as the matrix of the operator at that time.
`conv` is any conversion that is right (C64). -/
theorem C66_time_dependent {d : ι → ℕ} {fs : List ι} (I : Interp d K) (junk : Time → Trace.Mat d K) {conv : Ex ι K → Res (Mat K)}
    (hc : ∀ e M, conv e = .ok M → Represents d fs M (e.val I)) (op : TOp Time ι K) (r : Out Time K) (h : timeQ conv op = .ok r) (t : Time) :
    r.Reads d fs t (op.val I junk t) := by
  have hterm : ∀ s i, termQ conv s = .ok i → Represents d fs (Item.at t i) (Summand.val I junk t s) := by
    intro s i hi
    cases s with
    | stat e => simp [termQ] at hi
    | other => simp [termQ] at hi
    | drv f e =>
      rw [termQ] at hi
      obtain ⟨M, hM, hi⟩ := Except.bind_ok hi
      cases hi
      exact scal_rep (hc e M hM) (f t)
  cases op with
  | const e =>
    rw [timeQ] at h
    obtain ⟨M, hM, h⟩ := Except.bind_ok h
    cases h
    exact hc e M hM
  | single s =>
    rw [timeQ] at h
    obtain ⟨i, hi, h⟩ := Except.bind_ok h
    cases h
    exact hterm s i hi
  | sum ts =>
    rw [timeQ] at h
    obtain ⟨s, hs, h⟩ := Except.bind_ok h
    obtain ⟨l, hl, h⟩ := Except.bind_ok h
    cases h
    obtain ⟨w, hw, h1, h2⟩ := static_rep I hc ts none 0 s (by simp) (by simp) hs
    obtain ⟨vs, h3, h4⟩ := driven_rep I junk hc t ts l hl
    simp only [zero_add] at hw h1 h2
    rw [TOp.val, ← h4, ← hw]
    cases s with
    | none =>
      rw [h2 rfl]
      exact ⟨vs, by simpa using h3, by simp⟩
    | some A => exact ⟨w :: vs, .cons (h1 A rfl) h3, by simp⟩

/-- C66: a sum of time-independent operators and operators with a time-dependent coefficient is always converted, if its operators are,
to matrices of one shape. -/
theorem C66_time_total {n : ℕ} {conv : Ex ι K → Res (Mat K)} (ts : List (Summand Time ι K))
    (h : ∀ s ∈ ts, (∃ e M, s = .stat e ∧ conv e = .ok M ∧ Shape M n) ∨ ∃ f e M, s = .drv f e ∧ conv e = .ok M) :
    ∃ r, timeQ conv (.sum ts) = .ok r := by
  have h1 : ∀ acc : Option (Mat K), (∀ A ∈ acc, Shape A n) → ∃ r, staticLoop conv ts acc = .ok r := by
    induction ts with
    | nil => exact fun acc _ => ⟨acc, rfl⟩
    | cons s ts ih =>
      intro acc hacc
      have ih := ih fun x hx => h x (List.mem_cons_of_mem _ hx)
      rcases h s (by simp) with ⟨e, M, rfl, hM, hs⟩ | ⟨f, e, M, rfl, hM⟩
      · cases acc with
        | none =>
          rw [staticLoop, hM]
          exact ih (some M) (by rintro A ⟨⟩; exact hs)
        | some A =>
          have hA := hacc A rfl
          rw [staticLoop, hM]
          simp only [bind, Except.bind]
          rw [addQ, if_pos ⟨by rw [hA.1, hs.1], by rw [hA.2, hs.2]⟩]
          exact ih (some _) (by rintro B ⟨⟩; exact ⟨hA.1, hA.2⟩)
      · rw [staticLoop]
        · exact ih acc hacc
        all_goals simp
  have h2 : ∃ l, drivenLoop conv ts = .ok l := by
    clear h1
    induction ts with
    | nil => exact ⟨[], rfl⟩
    | cons s ts ih =>
      obtain ⟨l, hl⟩ := ih fun x hx => h x (List.mem_cons_of_mem _ hx)
      rcases h s (by simp) with ⟨e, M, rfl, hM, hs⟩ | ⟨f, e, M, rfl, hM⟩
      · exact ⟨l, by rw [drivenLoop]; exact hl⟩
      · refine ⟨.pair M f :: l, ?_⟩
        rw [drivenLoop, termQ, hM, hl]
        · rfl
        all_goals simp
  obtain ⟨s, hs⟩ := h1 none (by simp)
  obtain ⟨l, hl⟩ := h2
  exact ⟨_, by rw [timeQ, hs, hl]; rfl⟩

/-- C66 refuted: if the time dependence cancels in the expansion and one term that is not a product with a scalar is left, the conversion
fails with `ValueError`, although the operator can be converted. -/
theorem C66_cancel_refuted (conv : Ex ι K → Res (Mat K)) (e : Ex ι K) : timeQ (Time := Time) conv (.single (.stat e)) = .error .valueError := rfl

theorem zero_of_allZero [DecidableEq K] {d : ι → ℕ} {S : Finset ι} {M : Mat K} {V : Trace.Mat d K} (hV : ActsOn S V) (h : Represents d (factors S) M V)
    (hz : M.allZero (fun x => decide (x = 0)) = true) : V = 0 := by
  ext x y
  by_cases hxy : ∀ i ∉ factors S, x i = y i
  · rw [← h.2.2 x y hxy]
    simp only [QNET.Mat.Mat.allZero, List.all_eq_true, List.mem_range, decide_eq_true_eq] at hz
    have hx := idx_lt (d := d) (factors S) x
    have hy := idx_lt (d := d) (factors S) y
    rw [← h.1] at hx
    rw [← h.2.1] at hy
    simpa using hz _ hx _ hy
  · push Not at hxy
    obtain ⟨i, hi, hne⟩ := hxy
    exact hV.1 x y i (fun h => hi (mem_factors.mpr h)) hne

/-- C66: `SLH_to_qutip` (no time symbol) returns the matrix of the Hamiltonian, and matrices of a selection of the couplings that generates
the same dissipation, for every density matrix. The couplings are operators on the space `S`. -/
theorem C66_slh [DecidableEq K] {d : ι → ℕ} {S : Finset ι} (I : Interp d K) {conv : Ex ι K → Res (Mat K)}
    (hc : ∀ e M, conv e = .ok M → Represents d (factors S) M (e.val I)) (H : Ex ι K) (Ls : List (K ⊕ Ex ι K))
    (hS : ∀ e, .inr e ∈ Ls → e.space ⊆ S) (MH : Mat K) (Ms : List (Mat K)) (h : slhQ conv H Ls = .ok (MH, Ms)) :
    Represents d (factors S) MH (H.val I) ∧ ∃ kept : List (K ⊕ Ex ι K), kept.Sublist Ls ∧
      List.Forall₂ (fun L M => Represents d (factors S) M (couplingVal I L)) kept Ms ∧
      ∀ ρ, (kept.map fun L => dissipator (couplingVal I L) ρ).sum = (Ls.map fun L => dissipator (couplingVal I L) ρ).sum := by
  rw [slhQ] at h
  obtain ⟨m, hm, h'⟩ := Except.bind_ok h
  obtain ⟨ls, hls, h''⟩ := Except.bind_ok h'
  cases h''
  refine ⟨hc H _ hm, ?_⟩
  have hf := mapM_ok_forall₂ hls
  clear hls h h'
  induction hf with
  | nil => exact ⟨[], .slnil, .nil, fun _ => rfl⟩
  | @cons L M Ls ls h1 h2 ih =>
    obtain ⟨kept, k1, k2, k3⟩ := ih fun e he => hS e (List.mem_cons_of_mem _ he)
    have hrep : Represents d (factors S) M (couplingVal I L) ∧ ActsOn S (couplingVal I L) := by
      cases L with
      | inl c =>
        have := hc _ _ h1
        rw [Ex.val, Ex.val] at this
        exact ⟨this, (Trace.actsOn_one S).smul c⟩
      | inr e => exact ⟨hc _ _ h1, (Ex.val_acts I e).mono (hS e (by simp))⟩
    by_cases hz : M.allZero (fun x => decide (x = 0)) = true
    · refine ⟨kept, k1.cons _, ?_, fun ρ => ?_⟩
      · rw [List.filter_cons_of_neg (by simpa using hz)]
        exact k2
      · rw [List.map_cons, List.sum_cons, ← k3, zero_of_allZero hrep.2 hrep.1 hz]
        simp [dissipator]
    · refine ⟨L :: kept, k1.cons_cons _, ?_, fun ρ => ?_⟩
      · rw [List.filter_cons_of_pos (by simpa using hz)]
        exact .cons hrep.1 k2
      · rw [List.map_cons, List.map_cons, List.sum_cons, List.sum_cons, k3]

/-- the coupling 0 is dropped, the couplings `a` and 1/2 are kept -/
example : ((slhQ (convQ exEnv 10 Finset.univ) (.loc 0 .create) [.inr .zero, .inr (.loc 1 .destroy), .inl (1/2)]).map fun r => r.2.length) =
    .ok 2 := by kernel_rfl

/-! ## coefficients as strings -/

/-- `re.sub("I", "(1.0j)", str(coeff))`, to_qutip.py line 454 -/
def strCoeff (s : List Char) : List Char := s.flatMap fun c => if c = 'I' then "(1.0j)".toList else [c]

/-- C66: a coefficient in which the letter `I` does not appear is passed on unchanged. -/
theorem C66_str_partial (s : List Char) (h : 'I' ∉ s) : strCoeff s = s := by
  induction s with
  | nil => rfl
  | cons c s ih =>
    rw [List.mem_cons, not_or] at h
    rw [strCoeff, List.flatMap_cons, if_neg (Ne.symm h.1)]
    have := ih h.2
    rw [strCoeff] at this
    rw [this]
    rfl

/-- C66 refuted: with `convert_as='str'` every letter `I` is replaced, also in the name of a symbol. -/
theorem C66_str_refuted : strCoeff "Isat*t".toList = "(1.0j)sat*t".toList := by decide

end QNET.Convert
