import Verif.Convert.Ops

/-!
# C64: SymPy matrices; what cannot be converted, and what is converted wrongly
-/

namespace QNET.Convert

open QNET.Perm (Res Err)
open QNET.Mat (Mat identity dot scalarMul)
open QNET.Trace (Cfg ActsOn embed embed_actsOn actsOn_zero actsOn_one)
open QNET.Indexed (Except.bind_ok mapM_ok_forall₂)
open Finset

variable {ι : Type} [Fintype ι] [LinearOrder ι] {K : Type} [Field K] [StarRing K]

omit [StarRing K] in
theorem sum_single {f : ℕ → K} {i : ℕ} : ∀ {l : List ℕ}, l.Nodup → (∀ k ∈ l, k ≠ i → f k = 0) → (l.map f).sum = if i ∈ l then f i else 0
  | [], _, _ => by simp
  | a :: l, hn, h => by
    rw [List.nodup_cons] at hn
    have ih := sum_single hn.2 fun k hk => h k (List.mem_cons_of_mem _ hk)
    rw [List.map_cons, List.sum_cons, ih]
    by_cases ha : a = i
    · subst ha
      simp [hn.1]
    · simp [h a (by simp) ha, Ne.symm ha]

omit [Fintype ι] [LinearOrder ι] [StarRing K] in
/-- the loop of `SympyCreate` computes the creation operator -/
theorem sympyCreate_eq (T : Env ι K) (n i j : ℕ) (hi : i < n) : (sympyCreate T n).e i j = if i = j + 1 then T.sqrt i else 0 := by
  simp only [sympyCreate]
  rw [sum_single (i := i) (List.nodup_range' ..)]
  · by_cases h : i = j + 1
    · have : i ∈ List.range' 1 (n - 1) := by rw [List.mem_range'_1]; omega
      rw [if_pos this, if_pos h]
      have : j = i - 1 := by omega
      simp [this]
    · rw [if_neg h]
      split
      · rename_i hm
        rw [List.mem_range'_1] at hm
        have : ¬ j = i - 1 := by omega
        simp [this]
      · rfl
  · intro k _ hk
    simp [Ne.symm hk]

/-- operators that `convert_to_sympy_matrix` handles correctly on a space of dimension `n` -/
def Atom.SympyOk (n : ℕ) : Atom K → Prop
  | .jz => False
  | .jplus => n = 2
  | .jminus => n = 2
  | _ => True

theorem atomS_ok (T : Env ι K) (hsq : ∀ n, star (T.sqrt n) = T.sqrt n) (other : Atom K → ℕ → ℕ → K) (J : Interp T.d K) (l : ι) (a : Atom K)
    (ha : a.SympyOk (T.d l)) : AtomOk T (std T false other J) (atomS T) l a := by
  intro M h
  have hadj : ∀ i j, i < T.d l → j < T.d l → (Mat.adjoint (sympyCreate T (T.d l))).e i j = if j = i + 1 then T.sqrt j else 0 := by
    intro i j hi hj
    simp only [Mat.adjoint, Mat.elementWise, Mat.transpose]
    rw [sympyCreate_eq T _ _ _ hj]
    split <;> simp [hsq]
  cases a with
  | create =>
    cases h
    exact local_rep (f := elem T.sqrt T.expI false (T.d l) other _) rfl rfl fun i hi j hj => sympyCreate_eq T _ _ _ hi
  | destroy =>
    cases h
    exact local_rep (f := elem T.sqrt T.expI false (T.d l) other _) rfl rfl fun i hi j hj => hadj i j hi hj
  | phase u =>
    cases h
    exact local_rep (f := elem T.sqrt T.expI false (T.d l) other _) rfl rfl fun i hi j hj => rfl
  | sigma j k =>
    simp only [atomS] at h
    obtain ⟨ket, hk, h⟩ := Except.bind_ok h
    obtain ⟨bra, hb, h⟩ := Except.bind_ok h
    split at hk
    · cases hk
      split at hb
      · cases hb
        simp only [dot, Mat.adjoint, Mat.elementWise, Mat.transpose, ne_eq, not_true_eq_false, if_false] at h
        cases h
        refine local_rep (f := elem T.sqrt T.expI false (T.d l) other (.sigma j k)) rfl rfl fun a ha b hb => ?_
        simp only [elem]
        by_cases ha : a = j <;> by_cases hb : b = k <;> simp [ha, hb]
      · simp at hb
    · simp at hk
  | jz => simp [Atom.SympyOk] at ha
  | jplus =>
    cases h
    refine local_rep (f := elem T.sqrt T.expI false (T.d l) other _) rfl rfl fun i hi j hj => ?_
    rw [sympyCreate_eq T _ _ _ hi]
    simp only [Atom.SympyOk] at ha
    rw [ha] at hi hj
    simp only [elem, ha]
    by_cases h : i = j + 1
    · have : j = 0 := by omega
      subst this
      simp [h]
    · simp [h]
  | jminus =>
    cases h
    refine local_rep (f := elem T.sqrt T.expI false (T.d l) other _) rfl rfl fun i hi j hj => ?_
    rw [hadj _ _ hi hj]
    simp only [Atom.SympyOk] at ha
    rw [ha] at hi hj
    simp only [elem, ha]
    by_cases h : j = i + 1
    · have : i = 0 := by omega
      subst this
      simp [h]
    · simp [h]
  | displace u => simp [atomS] at h
  | squeeze u => simp [atomS] at h
  | unknown => simp [atomS] at h

/-- C64: if `convert_to_sympy_matrix(expr, full_space)` returns a matrix, it is the matrix of the operator on `full_space`. Excluded are
`Jz`, and `Jplus` and `Jminus` on spins other than 1/2 (`C64_sympy_spin_refuted`). `star` is complex conjugation; square roots of natural
numbers are real. -/
theorem C64_sympy_partial (T : Env ι K) (hsq : ∀ n, star (T.sqrt n) = T.sqrt n) (hmap : T.mapping = fun _ => none)
    (other : Atom K → ℕ → ℕ → K) (J : Interp T.d K) (hex : ExpandOk T (std T false other J) fun l a => a.SympyOk (T.d l)) (n : ℕ)
    (S : Finset ι) (e : Ex ι K) (M : Mat K) (h : convS T n S e = .ok (some M)) (ha : e.All fun l a => a.SympyOk (T.d l)) :
    Represents T.d (factors S) M (e.val (std T false other J)) :=
  convS_val T _ (fun l a h => atomS_ok T hsq other J l a h) hmap hex n S e M h ha

/-! ## a concrete case -/

section example_

instance : StarRing ℚ := starRingOfComm

/-- two local spaces of dimensions 2 and 3; `sqrt` is a stand-in that can be computed with -/
def exEnv : Env (Fin 2) ℚ where
  d := ![2, 3]
  sqrt n := n
  expI x := x
  mapping _ := none
  expand _ := none

/-- `a₁† + 2·σ₀₁⁽⁰⁾ a₁†`: a sum with a product, `Fin 2` local spaces -/
def exEx : Ex (Fin 2) ℚ := .plus [.loc 1 .create, .scal 2 (.times [.loc 0 (.sigma 0 1), .loc 1 .create])]

/-- the conditions of `C64_qutip_total` are met -/
example : exEx.Convertible exEnv.d Finset.univ ∧ exEx.depth ≤ 10 := by
  constructor
  · simp [exEx, Ex.Convertible, ConvertibleL, ConvertibleO, exEnv, Ex.space, Finset.univ_nonempty.ne_empty]
  · decide

/-- what an outcome shows: the shape and an entry -/
def look (r : Res (Mat ℚ)) (i j : ℕ) : Option (ℕ × ℕ × ℚ) := match r with
  | .ok M => some (M.r, M.c, M.e i j)
  | .error _ => none

/-- the row of the configuration (0, 1) is 1, the column of (1, 0) is 3 -/
example : look (convQ exEnv 10 Finset.univ exEx) 1 3 = some (6, 6, 2) ∧ look (convQ exEnv 10 Finset.univ exEx) 1 0 = some (6, 6, 1) :=
  ⟨by kernel_rfl, by kernel_rfl⟩

/-- the conditions of `C64_qutip_partial` and `C64_sympy_partial` are met -/
example (J : Interp exEnv.d ℚ) (other : Atom ℚ → ℕ → ℕ → ℚ) : MappingOk exEnv (std exEnv false other J) ∧
    (ExpandOk exEnv (std exEnv false other J) fun _ a => a.NoSpin) ∧ (exEx.All fun _ a => a.NoSpin) ∧
    exEx.Placed exEnv.mapping Finset.univ ∧ (exEx.All fun l a => a.SympyOk (exEnv.d l)) ∧ ∀ n, star (exEnv.sqrt n) = exEnv.sqrt n := by
  refine ⟨fun e M h => by simp [exEnv] at h, fun ts e h => by simp [exEnv] at h, ?_, ?_, ?_, fun n => rfl⟩
  · simp [exEx, Ex.All, AllL, Atom.NoSpin]
  · simp [exEx, Ex.Placed, PlacedL, PlacedO, exEnv]
  · simp [exEx, Ex.All, AllL, Atom.SympyOk]

end example_

/-! ## refutations -/

/-- C64 refuted: the documentation promises that every operator with known dimensions is converted. An `Adjoint` is never converted to
QuTiP: `TypeError` (the argument of `qutip.dag` is the QNET expression, not the object). -/
theorem C64_adjoint_refuted (T : Env ι K) (n : ℕ) (S : Finset ι) (t : Ex ι K) (hs : t.space ⊆ S) (hS : S ≠ ∅) (hm : T.mapping (.adj t) = none) :
    convQ T (n + 1) S (.adj t) = .error .typeError := by
  rw [convQ.eq_def]
  simp only
  rw [if_neg (not_not.mpr (by rw [Ex.space]; exact hs)), if_neg hS, hm]

/-- C64 refuted: a `KetBra` is never converted: `ValueError`. The code that is meant to convert it is not reached. -/
theorem C64_ketbra_refuted (T : Env ι K) (n : ℕ) (S s : Finset ι) (hs : s ⊆ S) (hS : S ≠ ∅) (hm : T.mapping (.ketbra s) = none) :
    convQ T (n + 1) S (.ketbra s) = .error .valueError := by
  rw [convQ.eq_def]
  simp only
  rw [if_neg (not_not.mpr (by rw [Ex.space]; exact hs)), if_neg hS, hm]

/-- C64 refuted: `Phase`, `Displace` and `Squeeze` are never converted to QuTiP: `AttributeError`. -/
theorem C64_phase_refuted (T : Env ι K) (n : ℕ) (l : ι) (u : K) (a : Atom K) (ha : a = .phase u ∨ a = .displace u ∨ a = .squeeze u)
    (hm : T.mapping (.loc l a) = none) : convQ T (n + 1) {l} (.loc l a) = .error .attributeError := by
  rw [convQ.eq_def]
  simp only
  rw [if_neg (by simp [Ex.space]), if_neg (by simp), hm]
  simp only [ne_eq, not_true_eq_false, if_false]
  rcases ha with rfl | rfl | rfl <;> rfl

/-- C64 refuted: the levels of a spin are numbered from the bottom in QNET, so that `Jz |0⟩ = -j |0⟩` (C38), but the QuTiP object of
`Jz` has `+j` there. Products with a projector `|0⟩⟨0|` are therefore converted to the matrix of another operator: here `Jz |0⟩⟨0|` for a
spin 1/2, with the entry 1/2 instead of -1/2. -/
theorem C64_qutip_spin_refuted : ∃ (T : Env (Fin 1) ℚ) (M : Mat ℚ), T.d 0 = 2 ∧ T.mapping = (fun _ => none) ∧
    convQ T 3 {0} (.times [.loc 0 .jz, .loc 0 (.sigma 0 0)]) = .ok M ∧ ∀ J other, ¬ Represents T.d (factors {0}) M
      ((Ex.times [.loc 0 .jz, .loc 0 (.sigma 0 0)]).val (std T false other J)) := by
  let T : Env (Fin 1) ℚ := ⟨fun _ => 2, fun n => n, fun x => x, fun _ => none, fun _ => none⟩
  obtain ⟨M, hM, -, -⟩ := C64_qutip_total T rfl 3 {0} (.times [.loc 0 .jz, .loc 0 (.sigma 0 0)]) (by decide) (by
    simp [Ex.Convertible, ConvertibleO, Ex.space, T])
  refine ⟨T, M, rfl, rfl, hM, fun J other h => ?_⟩
  have h2 := C64_qutip_spin_partial T other J (fun e M h => by simp [T] at h) (fun ts e h => by simp [T] at h) 3 {0} _ M hM
    (by simp [Ex.All, AllL]) (by simp [Ex.Placed, PlacedO, T])
  let x : Cfg T.d := fun _ => (0 : Fin 2)
  have e1 := h.2.2 x x (fun _ _ => rfl)
  have e2 := h2.2.2 x x (fun _ _ => rfl)
  rw [e1] at e2
  have hl : ∀ top, (Ex.times [.loc 0 .jz, .loc 0 (.sigma 0 0)]).val (std T top other J) x x = if top then (1/2 : ℚ) else -1/2 := by
    intro top
    rw [Ex.val, valL, valL, valL, Ex.val, Ex.val]
    simp only [List.prod_cons, List.prod_nil, mul_one]
    rw [QNET.Trace.embed_mul]
    rw [embed, if_pos (by simp), Matrix.mul_apply]
    have : ∀ f : Fin 2 → ℚ, ∑ i, f i = f 0 + f 1 := fun f => Fin.sum_univ_two f
    rw [this]
    cases top <;> simp [std, elem, x, T] <;> norm_num
  rw [hl, hl] at e2
  norm_num at e2

/-- C64 refuted: the mapping is consulted for a sub-expression whatever the space of the conversion is, and the result is not extended to
the larger space. A symbol on one factor, added to an operator on another, is a `TypeError` although the matrix of the symbol is given. -/
theorem C64_mapping_refuted : ∃ (T : Env (Fin 2) ℚ) (M : Mat ℚ), T.d 0 = 2 ∧ T.d 1 = 2 ∧ T.mapping (.sym 0 {0}) = some M ∧
    M.r = 2 ∧ M.c = 2 ∧ convQ T 5 Finset.univ (.plus [.sym 0 {0}, .loc 1 .create]) = .error .typeError := by
  refine ⟨⟨fun _ => 2, fun n => n, fun x => x, fun e => match e with | .sym 0 _ => some (identity 2) | _ => none, fun _ => none⟩, identity 2,
    rfl, rfl, rfl, rfl, rfl, ?_⟩
  kernel_rfl

/-- C64 refuted: `convert_to_sympy_matrix` of `Jz` is the creation operator: for a spin 1/2 the entry in row 1 and column 0 is √1, not 0. -/
theorem C64_sympy_spin_refuted (T : Env ι K) (l : ι) (hd : T.d l = 2) (h1 : T.sqrt 1 = 1) : ∃ M, convS T 1 {l} (.loc l .jz) = .ok (some M) ∧ M.e 1 0 = 1 := by
  refine ⟨sympyCreate T (T.d l), ?_, ?_⟩
  · rw [convS.eq_def]
    simp [Ex.space, atomS]
    rfl
  · rw [sympyCreate_eq T _ _ _ (by omega)]
    simp [h1]

/-- C64 refuted: `convert_to_sympy_matrix` of `Jplus` for a spin 1 has the entry √1 where the operator has √2. -/
theorem C64_sympy_jplus_refuted (T : Env ι K) (l : ι) (hd : T.d l = 3) : ∃ M, convS T 1 {l} (.loc l .jplus) = .ok (some M) ∧ M.e 1 0 = T.sqrt 1 ∧
    elem T.sqrt T.expI false 3 (fun _ _ _ => 0) .jplus 1 0 = T.sqrt 2 := by
  refine ⟨sympyCreate T (T.d l), ?_, ?_, ?_⟩
  · rw [convS.eq_def]
    simp [Ex.space, atomS]
    rfl
  · rw [sympyCreate_eq T _ _ _ (by omega)]
    simp
  · simp [elem]

/-- C64 refuted: `ZeroOperator` is converted to the number 0, not to a matrix; the adjoint of it is an `AttributeError`. -/
theorem C64_sympy_zero_refuted (T : Env ι K) (n : ℕ) (S : Finset ι) : convS T (n + 1) S .zero = .ok none ∧
    convS T (n + 2) S (.adj .zero) = .error .attributeError := by
  have h : ∀ n, convS T (n + 1) S .zero = .ok none := by
    intro n
    rw [convS.eq_def]
    simp [Ex.space]
  refine ⟨h n, ?_⟩
  rw [convS.eq_def]
  simp only
  rw [if_neg (by simp [Ex.space]), h n]
  rfl

/-- C64 refuted: `Displace` and `Squeeze` are never converted to SymPy matrices. -/
theorem C64_sympy_displace_refuted (T : Env ι K) (n : ℕ) (l : ι) (u : K) (a : Atom K) (ha : a = .displace u ∨ a = .squeeze u) :
    convS T (n + 1) {l} (.loc l a) = .error .attributeError := by
  rw [convS.eq_def]
  simp only
  rw [if_neg (by simp [Ex.space])]
  simp only [ne_eq, not_true_eq_false, if_false]
  rcases ha with rfl | rfl <;> rfl

end QNET.Convert
