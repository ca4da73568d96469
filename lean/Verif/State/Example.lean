import Verif.State.Final
import Verif.Util.KernelRfl
import Mathlib.Tactic.FinCases

/-!
# C58-C60: examples and refutations

Three local spaces 0, 1, 2 of dimension 2, with integer amplitudes. `KetSymbol` number `a` is the product of the basis states
`|a mod 2>`; `OperatorSymbol`s are `|f><f|` with `f` the sum of all basis states.
-/

namespace QNET.State

open QNET.Perm (Res Err)
open QNET.Trace (Cfg Mat ActsOn embed embed_actsOn actsOn_zero actsOn_one)
open QNET.Indexed (Except.bind_ok)
open Matrix

/-- dimensions -/
abbrev exD : Fin 3 → ℕ := fun _ => 2

/-- product of basis states -/
def exKet (a : ℕ) (s : Finset (Fin 3)) : Vec exD ℤ := fun x => if ∀ i ∈ s, (x i : ℕ) = a % 2 then 1 else 0

/-- a creation operator, truncated, and other local operators -/
def exLoc (a : ℕ) : Matrix (Fin 2) (Fin 2) ℤ := Matrix.of fun i j => if i = 1 ∧ j = 0 then (a : ℤ) + 1 else 0

/-- displacement -/
def exDisp (u : ℤ) : Matrix (Fin 2) (Fin 2) ℤ := Matrix.of fun i j => if i = j then 1 else if i = 0 then u else -u

/-- the interpretation -/
def exI : Interp (Fin 3) exD ℤ where
  ref := fun _ => 0
  ket := exKet
  ket_dep := by
    intro a s x y h
    simp only [exKet]
    congr 1
    refine propext ⟨fun hx i hi => by rw [← h i hi]; exact hx i hi, fun hx i hi => by rw [h i hi]; exact hx i hi⟩
  norm := by
    intro a s
    rw [inner, Fintype.sum_eq_single (fun i => if i ∈ s then ⟨a % 2, Nat.mod_lt _ (by norm_num)⟩ else 0)]
    · rw [if_pos fun i hi => by simp [hi]]
      simp only [exKet]
      rw [if_pos fun i hi => by simp [hi]]
      rfl
    · intro z hz
      split
      · rename_i h
        simp only [exKet]
        split
        · rename_i h2
          exact absurd (funext fun i => by
            by_cases hi : i ∈ s
            · rw [if_pos hi]; exact Fin.ext (h2 i hi)
            · rw [if_neg hi]; exact h i hi) hz
        · simp
      · rfl
  op := fun _ s => outer s 1 1
  op_acts := fun _ s => outer_actsOn (dependsOn_one _) (dependsOn_one _)
  loc := fun a l => embed l (exLoc a)
  loc_acts := fun _ l => embed_actsOn l _
  disp := fun u l => embed l (exDisp u)
  disp_acts := fun _ l => embed_actsOn l _
  disp_star := by
    intro u l
    ext x y
    simp only [conjTranspose_apply, embed, of_apply]
    have : (∀ j, j ≠ l → y j = x j) ↔ ∀ j, j ≠ l → x j = y j := ⟨fun h j hj => (h j hj).symm, fun h j hj => (h j hj).symm⟩
    by_cases h : ∀ j, j ≠ l → x j = y j
    · rw [if_pos (this.mpr h), if_pos h]
      generalize x l = p
      generalize y l = q
      revert p q
      show ∀ p q : Fin 2, star (exDisp u q p) = exDisp (-u) p q
      intro p q
      fin_cases p <;> fin_cases q <;> simp [exDisp]
    · rw [if_neg fun hh => h (this.mp hh), if_neg h, star_zero]

/-- product of scalars -/
def exScMul : Sc (Fin 3) ℤ → Sc (Fin 3) ℤ → Sc (Fin 3) ℤ
  | .val a, .val b => .val (a * b)
  | a, b => .mul a b

/-- products of operators; the product of two transition operators of one space is simplified -/
def exTimes : List (Op (Fin 3) ℤ) → Op (Fin 3) ℤ
  | [] => .one
  | [A] => A
  | [.sigma j k l, .sigma j' k' l'] =>
    if l = l' then (if k = j' then .sigma j k' l else .zero) else .times [.sigma j k l, .sigma j' k' l']
  | l => .times l

/-- the rest of QNET -/
def exMk : Mk (Fin 3) ℤ where
  scMul a b := .ok (exScMul a b)
  scConj
    | .val a => .ok (.val (star a))
    | a => .ok (.conj a)
  opTimes l := .ok (exTimes l)
  opScal c A := .ok (.scal c A)
  opAdj A := .ok (.adj A)
  sort l := l
  locals s := (List.finRange 3).filter (· ∈ s)
  rule _ _ := none
  strict := false

theorem unit_mul {j k j' k' : ℕ} (hk : k < 2) : (Matrix.of fun (a b : Fin 2) => if (a : ℕ) = j ∧ (b : ℕ) = k then (1 : ℤ) else 0) *
    (Matrix.of fun (a b : Fin 2) => if (a : ℕ) = j' ∧ (b : ℕ) = k' then (1 : ℤ) else 0) =
    if k = j' then Matrix.of fun (a b : Fin 2) => if (a : ℕ) = j ∧ (b : ℕ) = k' then (1 : ℤ) else 0 else 0 := by
  ext a b
  rw [mul_apply, Fintype.sum_eq_single (⟨k, hk⟩ : Fin 2)]
  · by_cases h : k = j'
    · subst h
      simp only [of_apply]
      by_cases ha : (a : ℕ) = j <;> by_cases hb : (b : ℕ) = k' <;> simp [ha, hb]
    · simp [h]
  · intro c hc
    have : (c : ℕ) ≠ k := fun h => hc (Fin.ext h)
    simp [this]

theorem exMk_sound : exMk.Sound exI where
  scMul := by
    intro u v w h hu hv
    injection h with h; subst h
    unfold exScMul
    split
    · exact ⟨by rw [Sc.wf]; trivial, by rw [Sc.ev, Sc.ev, Sc.ev]⟩
    · exact ⟨by rw [Sc.wf]; exact ⟨hu, hv⟩, by rw [Sc.ev.eq_3]⟩
  scMul_zero := by
    intro u v w h hz
    injection h with h; subst h
    unfold exScMul at hz
    split at hz
    · simpa [Sc.isZero] using hz
    · simp [Sc.isZero] at hz
  scConj := by
    intro u w h hu
    cases u <;> (injection h with h; subst h)
    · exact ⟨by rw [Sc.wf]; trivial, by rw [Sc.ev, Sc.ev]⟩
    all_goals exact ⟨by rw [Sc.wf.eq_4]; exact hu, by rw [Sc.ev.eq_4]⟩
  opTimes := by
    intro l A h hl
    injection h with h; subst h
    unfold exTimes
    split
    · exact ⟨by rw [Op.wf]; trivial, by rw [Op.ev]; rfl⟩
    · exact ⟨hl _ (by simp), by simp⟩
    · rename_i j k l j' k' l'
      have h1 := hl (.sigma j k l) (by simp)
      have h2 := hl (.sigma j' k' l') (by simp)
      have h1' := h1
      have h2' := h2
      rw [Op.wf] at h1 h2
      split
      · rename_i hll
        subst hll
        have key : ((List.map (Op.ev exI) [.sigma j k l, .sigma j' k' l]).prod : Mat exD ℤ) =
            embed l (if k = j' then Matrix.of fun (a b : Fin 2) => if (a : ℕ) = j ∧ (b : ℕ) = k' then (1 : ℤ) else 0 else 0) := by
          rw [← unit_mul h1.2, ← Trace.embed_mul]
          simp only [List.map_cons, List.map_nil, List.prod_cons, List.prod_nil, mul_one]
          rw [Op.ev, Op.ev]
        split
        · rename_i hk
          rw [if_pos hk] at key
          exact ⟨by rw [Op.wf]; exact ⟨h1.1, h2.2⟩, by rw [key, Op.ev]⟩
        · rename_i hk
          rw [if_neg hk] at key
          refine ⟨by rw [Op.wf]; trivial, ?_⟩
          rw [key, Op.ev]
          ext x y
          simp [embed]
      · exact ⟨by rw [Op.wf, opsWf_iff]; exact hl, by rw [Op.ev, opEvL_eq]⟩
    · exact ⟨by rw [Op.wf.eq_7, opsWf_iff]; exact hl, by rw [Op.ev.eq_7, opEvL_eq]⟩
  opScal := by
    intro u A B h hu hA
    injection h with h; subst h
    exact ⟨by rw [Op.wf]; exact ⟨hu, hA⟩, by rw [Op.ev.eq_9]⟩
  opAdj := by
    intro A B h hA
    injection h with h; subst h
    exact ⟨by rw [Op.wf]; exact hA, by rw [Op.ev.eq_10]⟩
  sort := fun l => List.Perm.refl _
  rule := by intro A t r h; cases h

/-- symbols for the refutations -/
def psi01 : Ket (Fin 3) ℤ := .sym 1 {0, 1}
/-- a ket of space 2 -/
def phi2 : Ket (Fin 3) ℤ := .sym 0 {2}
/-- an operator on spaces 0 and 1 -/
def opX : Op (Fin 3) ℤ := .sym 0 {0, 1}

/-- `|0><0| X |1><1|` where `X` acts on spaces 0 and 1, the transition operators on 1 -/
def opS : Op (Fin 3) ℤ := .times [.sigma 0 0 1, opX, .sigma 1 1 1]

/-- C58 is false as it stands: `|0><0| X |1><1|` (`X` on two spaces, the others on one of them) applied to the product of a state of
these spaces and another gives zero, because `act_locally_times_tensor` separates `X` from the two other factors,
whose product is zero and thus has the trivial space; but the product of the operators does not vanish on this state -/
theorem C58_refuted : eltMul exMk.code 9 (.op opS) (.ket (.tensor [psi01, phi2])) = .ok (.ket .zero) ∧ opS.wf exD ∧ (Ket.tensor [psi01, phi2]).wf exD ∧
    ¬ Elt.Product exI (.op opS) (.ket (.tensor [psi01, phi2])) (.ket .zero) := by
  refine ⟨by kernel_rfl, ?_, ?_, ?_⟩
  · rw [opS, opX, Op.wf, opsWf_iff]
    intro t ht
    simp only [List.mem_cons, List.not_mem_nil, or_false] at ht
    rcases ht with rfl | rfl | rfl <;> rw [Op.wf] <;> simp [exD]
  · rw [psi01, phi2, Ket.wf, ketsWf_iff]
    refine ⟨?_, by kernel_rfl, by kernel_rfl⟩
    intro t ht
    simp only [List.mem_cons, List.not_mem_nil, or_false] at ht
    rcases ht with rfl | rfl <;> rw [Ket.wf] <;> trivial
  · rw [Elt.Product, Ket.ev.eq_1]
    intro h
    have h2 := congrFun h (fun _ => 0)
    have h3 : ((opS.ev exI) *ᵥ ((Ket.tensor [psi01, phi2]).ev exI)) (fun _ => 0) = 1 := by kernel_rfl
    rw [h3] at h2
    cases h2

/-- the value of the expressions for which C58 is proved: `a` applied to one factor, an inner and an outer product -/
example : eltMul exMk.checked 9 (.op (.loc 0 0)) (.ket (.tensor [.basis 0 0, phi2])) = .ok (.ket (.tensor [.opKet (.loc 0 0) (.basis 0 0), phi2])) ∧
    eltMul exMk.checked 9 (.bra (.tensor [.basis 1 0, phi2])) (.ket (.tensor [.basis 1 0, .sym 1 {2}])) =
      .ok (.sc (.mul (.val 1) (.braket phi2 (.sym 1 {2})))) ∧
    eltMul exMk.checked 9 (.ket (.tensor [.basis 1 0, .coh (.val 3) 2])) (.bra (.tensor [.basis 1 0, .basis 0 2])) =
      .ok (.op (.times [.sigma 1 1 0, .times [.disp (.val 3) 2, .sigma 0 0 2]])) := ⟨by kernel_rfl, by kernel_rfl, by kernel_rfl⟩

/-- C59 is false as it stands: the inner product of basis states of different spaces is not refused, but evaluated to 1 or 0; and the
outer product of `ZeroKet` with itself is refused as one of states of different spaces -/
theorem C59_refuted :
    eltMul exMk.code 9 (.bra (.basis 0 0)) (.ket (.basis 0 1)) = .ok (.sc (.val 1)) ∧
    eltMul exMk.code 9 (.bra (.basis 0 0)) (.ket (.basis 1 1)) = .ok (.sc (.val 0)) ∧
    (Ket.basis 0 0 : Ket (Fin 3) ℤ).space ≠ (Ket.basis 0 1 : Ket (Fin 3) ℤ).space ∧
    eltMul exMk.code 9 (.ket .zero) (.bra .zero) = .error .algebraError :=
  ⟨by kernel_rfl, by kernel_rfl, by rw [Ket.space, Ket.space]; decide, by kernel_rfl⟩

/-- products of states of different spaces that are refused -/
example : eltMul exMk.code 9 (.ket (.basis 0 0)) (.bra (.basis 0 1)) = .error .algebraError ∧
    eltMul exMk.code 9 (.bra (.basis 0 0)) (.ket phi2) = .error .algebraError ∧
    eltMul exMk.code 9 (.ket (.basis 0 0)) (.ket (.basis 1 0)) = .error .algebraError := ⟨by kernel_rfl, by kernel_rfl, by kernel_rfl⟩

/-! ## C60: evaluation does not always end -/

/-- a coherent state -/
def coh0 : Ket (Fin 3) ℤ := .coh (.val 1) 0
/-- `Create` on space 0 -/
def cr : Op (Fin 3) ℤ := .loc 0 0

/-- C60: `a† a† |α>` is never finished: `a†` is applied to `a† |α>`, which gives `(a† a†) |α>` again -/
theorem C60_create_create_refuted (n : ℕ) : eltMul exMk.code n (.op (.times [cr, cr])) (.ket coh0) = .error .recursion := by
  have key : ∀ n, opKet exMk.code n (.times [cr, cr]) coh0 = .error .recursion ∧ opKet exMk.code (n + 1) (.times [cr, cr]) coh0 = .error .recursion := by
    intro n
    induction n with
    | zero => exact ⟨by kernel_rfl, by kernel_rfl⟩
    | succ n ih =>
      refine ⟨ih.2, ?_⟩
      cases n with
      | zero => kernel_rfl
      | succ n =>
        have : opKet exMk.code (n + 1 + 1 + 1) (.times [cr, cr]) coh0 = opKet exMk.code (n + 1) (.times [cr, cr]) coh0 := by kernel_rfl
        rw [this]
        exact ih.1
  show (opKet exMk.code n (.times [cr, cr]) coh0 >>= fun r => _) = _
  rw [(key n).1]
  rfl

/-- `|0>|0>` on spaces 0 and 1 -/
def ket01 : List (Ket (Fin 3) ℤ) := [.basis 0 0, .basis 0 1]
/-- `|0>|0>` on spaces 0 and 2 -/
def ket02 : List (Ket (Fin 3) ℤ) := [.basis 0 0, .basis 0 2]

theorem split_loop : ∀ m n, splitKets exMk.code n ket01 ket02 m {0} = .error .recursion := by
  intro m
  induction m with
  | zero => intro n; kernel_rfl
  | succ m ih =>
    intro n
    cases n with
    | zero => kernel_rfl
    | succ n =>
      have : splitKets exMk.code (n + 1) ket01 ket02 (m + 1) {0} = splitKets exMk.code (n + 1) ket01 ket02 m {0} := by kernel_rfl
      rw [this, ih]

/-- C60: the inner and the outer product of two product states of different spaces, which should be refused, are never finished -/
theorem C60_unequal_refuted (n : ℕ) : eltMul exMk.code n (.bra (.tensor ket01)) (.ket (.tensor ket02)) = .error .recursion ∧
    eltMul exMk.code n (.ket (.tensor ket01)) (.bra (.tensor ket02)) = .error .recursion := by
  cases n with
  | zero => exact ⟨by kernel_rfl, by kernel_rfl⟩
  | succ n =>
    have h : decompose exMk.code n ket01 ket02 = .error .recursion := by
      show (splitKets exMk.code n ket01 ket02 n {0} >>= fun r => _) = _
      rw [split_loop]
      rfl
    constructor
    · show ((decompose exMk.code n ket01 ket02 >>= fun r => _) >>= fun r => _) = _
      rw [h]; rfl
    · show ((decompose exMk.code n ket01 ket02 >>= fun r => _) >>= fun r => _) = _
      rw [h]; rfl

/-- an operator on spaces 1 and 2 -/
def opY : Op (Fin 3) ℤ := .sym 0 {1, 2}

/-- C60: `X Y`, with `X` on spaces 0 and 1 and `Y` on 1 and 2, applied to a product of a state of 0 and 1 and a state of 2, is never finished:
`factor_for_space` calls `TensorKet.create()` without operands -/
theorem C60_operator_refuted (n : ℕ) : eltMul exMk.code n (.op (.times [opX, opY])) (.ket (.tensor [psi01, phi2])) = .error .recursion := by
  match n with
  | 0 => kernel_rfl
  | 1 => kernel_rfl
  | 2 => kernel_rfl
  | 3 => kernel_rfl
  | n + 4 => kernel_rfl

/-- C60: an inner product of two product states of the same space, but with interlocking factors, is never finished, for the same reason -/
theorem C60_interlocking_refuted (n : ℕ) :
    eltMul exMk.code n (.bra (.tensor [psi01, phi2])) (.ket (.tensor [.sym 0 {0}, .sym 0 {1, 2}])) = .error .recursion := by
  match n with
  | 0 => kernel_rfl
  | 1 => kernel_rfl
  | 2 => kernel_rfl
  | 3 => kernel_rfl
  | n + 4 => kernel_rfl

end QNET.State
