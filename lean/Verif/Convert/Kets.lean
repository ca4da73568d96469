import Verif.Convert.OpsSympy

/-!
# C65: states as QuTiP objects; super-operators
-/

namespace QNET.Convert

open QNET.Perm (Res Err)
open QNET.Mat (Mat identity dot scalarMul)
open QNET.Trace (Cfg ActsOn embed)
open QNET.Indexed (Except.bind_ok mapM_ok_forall₂)
open Finset

variable {ι : Type} [Fintype ι] [LinearOrder ι] {K : Type} [Field K] [StarRing K]

/-! ## Specification: the wave function of a ket -/

variable {d : ι → ℕ} (I : Interp d K) (coh : ι → K → State.Vec d K) (symK : ℕ → Finset ι → State.Vec d K)

mutual
/-- the wave function of a ket, a function of the basis indices of all local spaces: the tensor product is the pointwise product -/
def Kt.val : Kt ι K → State.Vec d K
  | .basis l i => State.basisVec i l
  | .coherent l u => coh l u
  | .plus ts => (kvalL ts).sum
  | .tensor ts => (kvalL ts).prod
  | .scal c t => c • t.val
  | .opTimes A t => (A.val I).mulVec t.val
  | .bra t => star t.val
  | .sym a s => symK a s
/-- a list of kets -/
def kvalL : List (Kt ι K) → List (State.Vec d K)
  | [] => []
  | t :: ts => t.val :: kvalL ts
end

mutual
/-- What the constructors of states guarantee: the summands of a `KetPlus` are on the same space (`_check_kets`, state_algebra.py lines
428-431); the operands of a `TensorKet` are on different local spaces, in the canonical order (lines 441-447). -/
def Kt.WF : Kt ι K → Prop
  | .basis _ _ => True
  | .coherent _ _ => True
  | .plus ts => ∃ S, SameSpace S ts
  | .tensor ts => TensorWF ts ∧ ts.Pairwise fun a b => ∀ i j, a.space = {i} → b.space = {j} → i < j
  | .scal _ t => t.WF
  | .opTimes _ t => t.WF
  | .bra t => t.WF
  | .sym _ _ => True
/-- kets on the space `S` -/
def SameSpace (S : Finset ι) : List (Kt ι K) → Prop
  | [] => True
  | t :: ts => (t.space = S ∧ t.WF) ∧ SameSpace S ts
/-- well-formed factors -/
def TensorWF : List (Kt ι K) → Prop
  | [] => True
  | t :: ts => t.WF ∧ TensorWF ts
end

omit [Fintype ι] [Field K] [StarRing K] in
theorem SameSpace_iff {S : Finset ι} {ts : List (Kt ι K)} : SameSpace S ts ↔ ∀ t ∈ ts, t.space = S ∧ t.WF := by
  induction ts with
  | nil => simp [SameSpace]
  | cons t ts ih => simp [SameSpace, ih]

omit [Fintype ι] [Field K] [StarRing K] in
theorem TensorWF_iff {ts : List (Kt ι K)} : TensorWF ts ↔ ∀ t ∈ ts, t.WF := by
  induction ts with
  | nil => simp [TensorWF]
  | cons t ts ih => simp [TensorWF, ih]

theorem kvalL_eq (l : List (Kt ι K)) : kvalL I coh symK l = l.map (Kt.val I coh symK) := by
  induction l with
  | nil => rfl
  | cons a l ih => rw [kvalL, ih]; rfl

/-! ## columns -/

omit [StarRing K] in
theorem add_ket {fs : List ι} {A B C : Mat K} {v w : State.Vec d K} (hA : RepresentsKet d fs A v)
    (hB : RepresentsKet d fs B w) (h : addQ A B = .ok C) : RepresentsKet d fs C (v + w) := by
  rw [addQ] at h
  split at h
  · cases h
    exact ⟨hA.1, hA.2.1, fun x => by simp [hA.2.2 x, hB.2.2 x]⟩
  · simp at h

omit [StarRing K] in
theorem sumQ_ket {fs : List ι} {α : Type} (v : α → State.Vec d K) {l : List α} {ms : List (Mat K)} {M : Mat K}
    (h : List.Forall₂ (fun o m => RepresentsKet d fs m (v o)) l ms) (hM : sumQ ms = .ok M) : RepresentsKet d fs M (l.map v).sum := by
  cases h with
  | nil => simp [sumQ] at hM
  | @cons o m l ms hm hms =>
    rw [sumQ] at hM
    rw [List.map_cons, List.sum_cons]
    generalize v o = w at hm
    induction hms generalizing m w with
    | nil =>
      simp only [List.foldlM_nil, pure, Except.pure] at hM
      cases hM
      simpa using hm
    | cons h1 h2 ih =>
      rw [List.foldlM_cons] at hM
      obtain ⟨m', hm', hM⟩ := Except.bind_ok hM
      rw [List.map_cons, List.sum_cons, ← add_assoc]
      exact ih hM _ (add_ket hm h1 hm')

omit [StarRing K] in
theorem kronL_ket {v : ι → State.Vec d K} {fs : List ι} {ms : List (Mat K)} (h : List.Forall₂ (fun l m => RepresentsKet d [l] m (v l)) fs ms) :
    RepresentsKet d fs (kronL ms) (fs.map v).prod := by
  induction h with
  | nil => exact ⟨by simp [kronL, identity], by simp [kronL, identity], fun x => by simp [kronL, identity, idx]⟩
  | cons h1 h2 ih =>
    rw [kronL, List.map_cons, List.prod_cons]
    exact kron_ket h1 ih

omit [Fintype ι] in
/-- a strictly increasing list is the list of the factors of its set -/
theorem factors_of_sorted {ls : List ι} (h : ls.Pairwise (· < ·)) : factors ls.toFinset = ls := by
  rw [factors_eq]
  refine List.Perm.eq_of_pairwise' (r := (· ≤ ·)) (Finset.pairwise_sort _ _) (h.imp le_of_lt) ?_
  have hn : ls.Nodup := h.imp ne_of_lt
  rw [List.perm_ext_iff_of_nodup (Finset.sort_nodup _ _) hn]
  simp

/-- the tensor product of states of increasing local spaces -/
theorem tensor_ket (v : Kt ι K → State.Vec d K) {ts : List (Kt ι K)} {ms : List (Mat K)}
    (h : List.Forall₂ (fun t m => ∃ l, t.space = {l} ∧ RepresentsKet d [l] m (v t)) ts ms)
    (ho : ts.Pairwise fun a b => ∀ i j, a.space = {i} → b.space = {j} → i < j) :
    ∃ ls : List ι, ls.Pairwise (· < ·) ∧ ls.toFinset = kspaceL ts ∧ (∀ l ∈ ls, ∃ t ∈ ts, t.space = {l}) ∧
      RepresentsKet d ls (kronL ms) (ts.map v).prod := by
  induction h with
  | nil =>
    exact ⟨[], .nil, by simp [kspaceL], by simp, ⟨by simp [kronL, identity], by simp [kronL, identity],
      fun x => by simp [kronL, identity, idx]⟩⟩
  | @cons t m ts ms h1 h2 ih =>
    obtain ⟨l, hl, hr⟩ := h1
    rw [List.pairwise_cons] at ho
    obtain ⟨ls, hs, hset, hmem, hrep⟩ := ih ho.2
    refine ⟨l :: ls, ?_, by simp [kspaceL, hset, hl], ?_, ?_⟩
    · rw [List.pairwise_cons]
      refine ⟨fun l' hl' => ?_, hs⟩
      obtain ⟨t', ht', hs'⟩ := hmem l' hl'
      exact ho.1 t' ht' l l' hl hs'
    · intro x hx
      rcases List.mem_cons.mp hx with rfl | hx
      · exact ⟨t, by simp, hl⟩
      · obtain ⟨t', ht', hs'⟩ := hmem x hx
        exact ⟨t', List.mem_cons_of_mem _ ht', hs'⟩
    · rw [kronL, List.map_cons, List.prod_cons]
      exact kron_ket hr hrep

/-! ## theorems -/

/-- C65: if `convert_to_qutip(ket)` returns an object (with `full_space = ket.space`), it is the column of the state in the tensor product
basis of the local factors in canonical order. Hypothesis: `expand` of a ket preserves the value and the space. Kets in a larger space are
excluded (`C65_larger_space_refuted`). -/
theorem C65_ket_partial (T : Env ι K) (expandK : Kt ι K → Option (Kt ι K)) (I : Interp T.d K) (coh : ι → K → State.Vec T.d K)
    (symK : ℕ → Finset ι → State.Vec T.d K)
    (hex : ∀ ts k', expandK (.tensor ts) = some k' → k'.val I coh symK = (Kt.tensor ts).val I coh symK ∧ k'.space = (Kt.tensor ts).space ∧
      ((Kt.tensor ts).WF → k'.WF)) :
    ∀ (n : ℕ) (k : Kt ι K) (M : Mat K), convK T expandK n k.space k = .ok M → k.WF →
      RepresentsKet T.d (factors k.space) M (k.val I coh symK)
  | 0, k, M, h, _ => by simp [convK] at h
  | n + 1, k, M, h, hw => by
    rw [convK.eq_def] at h
    simp only [subset_refl, not_true_eq_false, if_false, ne_eq] at h
    split at h
    · simp at h
    rename_i hS
    cases k with
    | basis l i =>
      simp only [basisQ] at h
      split at h
      · cases h
        rw [Kt.space, factors_single, Kt.val]
        refine ⟨by simp, rfl, fun x => ?_⟩
        rw [idx_single]
        rfl
      · simp at h
    | coherent l u => simp at h
    | plus ts =>
      simp only at h
      obtain ⟨ms, hms, h'⟩ := Except.bind_ok h
      clear h
      rw [Kt.WF] at hw
      obtain ⟨S, hw⟩ := hw
      rw [SameSpace_iff] at hw
      rw [Kt.val, kvalL_eq]
      have hsp : ∀ ts : List (Kt ι K), ts ≠ [] → (∀ t ∈ ts, t.space = S ∧ t.WF) → kspaceL ts = S := by
        intro ts hne
        induction ts with
        | nil => exact absurd rfl hne
        | cons t ts ih =>
          intro h
          rw [kspaceL, (h t (by simp)).1]
          cases ts with
          | nil => simp [kspaceL]
          | cons t' ts => rw [ih (by simp) fun x hx => h x (List.mem_cons_of_mem _ hx), Finset.union_self]
      have hne : ts ≠ [] := by
        rintro rfl
        simp only [List.mapM_nil, pure, Except.pure] at hms
        cases hms
        simp [sumQ] at h'
      have hs : (Kt.plus ts).space = S := by rw [Kt.space]; exact hsp ts hne hw
      rw [hs] at hms ⊢
      refine sumQ_ket _ ?_ h'
      have hf := mapM_ok_forall₂ hms
      clear h' hms hS hsp hne hs
      induction hf with
      | nil => exact .nil
      | @cons t m _ _ h1 h2 ih =>
        have ht := hw t (by simp)
        have hr := C65_ket_partial T expandK I coh symK hex n t m (by rw [ht.1]; exact h1) ht.2
        rw [ht.1] at hr
        exact .cons hr (ih fun x hx => hw x (List.mem_cons_of_mem _ hx))
    | tensor ts =>
      simp only at h
      split at h
      · split at h
        · simp at h
        · rename_i k' hk'
          obtain ⟨h1, h2, h3⟩ := hex ts k' hk'
          rw [← h1, ← h2]
          rw [← h2] at h
          exact C65_ket_partial T expandK I coh symK hex n k' M h (h3 hw)
      · rename_i hany
        obtain ⟨ms, hms, h'⟩ := Except.bind_ok h
        cases h'
        rw [Kt.WF, TensorWF_iff] at hw
        obtain ⟨hwf, hord⟩ := hw
        rw [Kt.val, kvalL_eq, Kt.space]
        have hf := mapM_ok_forall₂ hms
        have hf' : List.Forall₂ (fun t m => ∃ l, t.space = {l} ∧ RepresentsKet T.d [l] m (t.val I coh symK)) ts ms := by
          have hle : ∀ t ∈ ts, t.space.card ≤ 1 := by
            intro t ht
            by_contra hc
            exact hany (List.any_eq_true.mpr ⟨t, ht, by simpa using hc⟩)
          clear hms h hS hord hany
          induction hf with
          | nil => exact .nil
          | @cons t m _ _ h1 h2 ih =>
            refine .cons ?_ (ih (fun x hx => hwf x (List.mem_cons_of_mem _ hx)) fun x hx => hle x (List.mem_cons_of_mem _ hx))
            have hr := C65_ket_partial T expandK I coh symK hex n t m h1 (hwf t (by simp))
            have hne : t.space ≠ ∅ := by
              intro h0
              cases n with
              | zero => simp [convK] at h1
              | succ n =>
                rw [convK.eq_def] at h1
                simp [h0] at h1
            obtain ⟨l, hl⟩ := Finset.card_eq_one.mp (le_antisymm (hle t (by simp)) (Finset.card_pos.mpr (Finset.nonempty_iff_ne_empty.mpr hne)))
            rw [hl, factors_single] at hr
            exact ⟨l, hl, hr⟩
        obtain ⟨ls, hs, hset, -, hrep⟩ := tensor_ket _ hf' hord
        rw [← hset, factors_of_sorted hs]
        exact hrep
    | scal c t =>
      simp only at h
      obtain ⟨m, hm, h⟩ := Except.bind_ok h
      cases h
      rw [Kt.WF] at hw
      rw [Kt.space] at hm ⊢
      have := C65_ket_partial T expandK I coh symK hex n t m hm hw
      rw [Kt.val]
      exact ⟨this.1, this.2.1, fun x => by simp [scalarMul, this.2.2 x]⟩
    | opTimes A t => simp at h
    | bra t => simp at h
    | sym a s => simp at h

/-! ## a concrete case -/

/-- `|1⟩ ⊗ |2⟩ - 3 |0⟩ ⊗ |0⟩` on spaces of dimensions 2 and 3 -/
def exKet : Kt (Fin 2) ℚ := .plus [.tensor [.basis 0 1, .basis 1 2], .scal (-3) (.tensor [.basis 0 0, .basis 1 0])]

example : exKet.WF ∧ exKet.space = Finset.univ := by
  constructor
  · simp [exKet, Kt.WF, SameSpace, TensorWF, Kt.space, kspaceL]
  · decide

example : look (convK exEnv (fun _ => none) 10 exKet.space exKet) 5 0 = some (6, 1, 1) := by kernel_rfl
example : look (convK exEnv (fun _ => none) 10 exKet.space exKet) 0 0 = some (6, 1, -3) := by kernel_rfl

/-! ## which kets can be converted -/

mutual
/-- basis states with an index in range, sums that are not empty, tensor products of states of single local spaces -/
def Kt.Convertible (d : ι → ℕ) : Kt ι K → Prop
  | .basis l i => i < d l
  | .coherent _ _ => False
  | .plus ts => ts ≠ [] ∧ KConvertibleL d ts
  | .tensor ts => ts ≠ [] ∧ (∀ t ∈ ts, ∃ l, t.space = {l}) ∧ KConvertibleL d ts
  | .scal _ t => t.Convertible d
  | .opTimes _ _ => False
  | .bra _ => False
  | .sym _ _ => False
/-- all operands -/
def KConvertibleL (d : ι → ℕ) : List (Kt ι K) → Prop
  | [] => True
  | t :: ts => t.Convertible d ∧ KConvertibleL d ts
end

mutual
/-- a bound for the number of nested calls -/
def Kt.depth : Kt ι K → ℕ
  | .basis _ _ => 1
  | .coherent _ _ => 1
  | .plus ts => kdepthL ts + 1
  | .tensor ts => kdepthL ts + 1
  | .scal _ t => t.depth + 1
  | .opTimes _ t => t.depth + 1
  | .bra t => t.depth + 1
  | .sym _ _ => 1
/-- the maximum -/
def kdepthL : List (Kt ι K) → ℕ
  | [] => 0
  | t :: ts => max t.depth (kdepthL ts)
end

omit [Fintype ι] [LinearOrder ι] [Field K] [StarRing K] in
theorem kdepth_mem {t : Kt ι K} : ∀ {ts : List (Kt ι K)}, t ∈ ts → t.depth ≤ kdepthL ts
  | a :: ts, h => by
    rw [kdepthL]
    rcases List.mem_cons.mp h with rfl | h
    · exact le_max_left _ _
    · exact (kdepth_mem h).trans (le_max_right _ _)

omit [Fintype ι] [Field K] [StarRing K] in
theorem KConvertibleL_iff {d : ι → ℕ} {ts : List (Kt ι K)} : KConvertibleL d ts ↔ ∀ t ∈ ts, t.Convertible d := by
  induction ts with
  | nil => simp [KConvertibleL]
  | cons t ts ih => simp [KConvertibleL, ih]

omit [Fintype ι] [Field K] [StarRing K] in
theorem kspaceL_same {S : Finset ι} : ∀ {ts : List (Kt ι K)}, ts ≠ [] → (∀ t ∈ ts, t.space = S) → kspaceL ts = S
  | [], hne, _ => absurd rfl hne
  | [t], _, h => by simp [kspaceL, h t (by simp)]
  | t :: t' :: ts, _, h => by
    rw [kspaceL, h t (by simp), kspaceL_same (List.cons_ne_nil _ _) fun x hx => h x (List.mem_cons_of_mem _ hx), Finset.union_self]

omit [StarRing K] in
theorem sumQ_total_ket {r c : ℕ} {ms : List (Mat K)} (hne : ms ≠ []) (h : ∀ M ∈ ms, M.r = r ∧ M.c = c) : ∃ M, sumQ ms = .ok M := by
  cases ms with
  | nil => exact absurd rfl hne
  | cons m ms =>
    rw [sumQ]
    have hm := h m (by simp)
    replace h : ∀ M ∈ ms, M.r = r ∧ M.c = c := fun M hM => h M (List.mem_cons_of_mem _ hM)
    clear hne
    induction ms generalizing m with
    | nil => exact ⟨m, rfl⟩
    | cons a ms ih =>
      have ha := h a (by simp)
      rw [List.foldlM_cons, addQ, if_pos ⟨by rw [hm.1, ha.1], by rw [hm.2, ha.2]⟩]
      exact ih _ ⟨hm.1, hm.2⟩ fun M hM => h M (List.mem_cons_of_mem _ hM)

/-- C65: every well-formed ket that satisfies `Convertible` is converted on its own space. -/
theorem C65_ket_total (T : Env ι K) : ∀ (n : ℕ) (k : Kt ι K), k.depth ≤ n →
    k.WF → k.Convertible T.d → k.space ≠ ∅ ∧ ∃ M, convK T (fun _ => none) n k.space k = .ok M
  | 0, k, hd, _, _ => by cases k <;> simp [Kt.depth] at hd
  | n + 1, k, hd, hw, hc => by
    let J : Interp T.d K := ⟨fun _ _ => 0, fun _ _ => 0, fun _ _ => Trace.actsOn_zero _, fun _ => 0, fun _ => Trace.actsOn_zero _⟩
    have hval := C65_ket_partial T (fun _ => none) J (fun _ _ => 0) (fun _ _ => 0) (fun ts k' h => by simp at h)
    rw [convK.eq_def]
    simp only [subset_refl, not_true_eq_false, if_false, ne_eq]
    cases k with
    | basis l i =>
      rw [Kt.Convertible] at hc
      refine ⟨by simp [Kt.space], ?_⟩
      rw [if_neg (by simp [Kt.space])]
      simp only [basisQ, if_pos hc]
      exact ⟨_, rfl⟩
    | coherent l u => simp [Kt.Convertible] at hc
    | plus ts =>
      rw [Kt.Convertible, KConvertibleL_iff] at hc
      rw [Kt.WF] at hw
      obtain ⟨S, hw⟩ := hw
      rw [SameSpace_iff] at hw
      rw [Kt.depth] at hd
      have hsp : (Kt.plus ts).space = S := by
        rw [Kt.space]
        exact kspaceL_same hc.1 fun t ht => (hw t ht).1
      rw [hsp]
      have hts : ∀ t ∈ ts, S ≠ ∅ ∧ ∃ M, convK T (fun _ => none) n S t = .ok M := by
        intro t ht
        have := C65_ket_total T n t (by have := kdepth_mem ht; omega) (hw t ht).2 (hc.2 t ht)
        rwa [(hw t ht).1] at this
      have hne : S ≠ ∅ := by
        obtain ⟨t, ht⟩ := List.exists_mem_of_ne_nil _ hc.1
        exact (hts t ht).1
      refine ⟨hne, ?_⟩
      rw [if_neg hne]
      obtain ⟨ms, hms⟩ := mapM_total' (f := convK T (fun _ => none) n S) fun t ht => (hts t ht).2
      simp only
      rw [hms]
      have hf := mapM_ok_forall₂ hms
      refine sumQ_total_ket (r := ((factors S).map T.d).prod) (c := 1) ?_ ?_
      · rintro rfl
        cases hf
        exact hc.1 rfl
      · intro M hM
        obtain ⟨t, ht, h1⟩ := forall₂_mem_right hf hM
        have := hval n t M (by rw [(hw t ht).1]; exact h1) (hw t ht).2
        rw [(hw t ht).1] at this
        exact ⟨this.1, this.2.1⟩
    | tensor ts =>
      rw [Kt.Convertible, KConvertibleL_iff] at hc
      rw [Kt.WF, TensorWF_iff] at hw
      rw [Kt.depth] at hd
      have hne : (Kt.tensor ts).space ≠ ∅ := by
        obtain ⟨t, ht⟩ := List.exists_mem_of_ne_nil _ hc.1
        obtain ⟨l, hl⟩ := hc.2.1 t ht
        have : ∀ ts : List (Kt ι K), t ∈ ts → l ∈ kspaceL ts := by
          intro ts
          induction ts with
          | nil => simp
          | cons a ts ih =>
            intro h
            rw [kspaceL]
            rcases List.mem_cons.mp h with rfl | h
            · simp [hl]
            · simp [ih h]
        rw [Kt.space]
        exact Finset.ne_empty_of_mem (this ts ht)
      refine ⟨hne, ?_⟩
      rw [if_neg hne]
      have hany : ts.any (fun o => decide (1 < o.space.card)) = false := by
        rw [List.any_eq_false]
        intro o ho
        obtain ⟨l, hl⟩ := hc.2.1 o ho
        simp [hl]
      simp only [hany, Bool.false_eq_true, if_false]
      obtain ⟨ms, hms⟩ := mapM_total' (f := fun o : Kt ι K => convK T (fun _ => none) n o.space o) (l := ts) fun t ht =>
        (C65_ket_total T n t (by have := kdepth_mem ht; omega) (hw.1 t ht) (hc.2.2 t ht)).2
      rw [hms]
      exact ⟨_, rfl⟩
    | scal c t =>
      rw [Kt.Convertible] at hc
      rw [Kt.WF] at hw
      rw [Kt.depth] at hd
      obtain ⟨h1, M, hM⟩ := C65_ket_total T n t (by omega) hw hc
      rw [Kt.space]
      refine ⟨h1, ?_⟩
      rw [if_neg h1]
      simp only
      rw [hM]
      exact ⟨_, rfl⟩
    | opTimes A t => simp [Kt.Convertible] at hc
    | bra t => simp [Kt.Convertible] at hc
    | sym a s => simp [Kt.Convertible] at hc

example : exKet.Convertible exEnv.d ∧ exKet.depth ≤ 10 := by
  constructor
  · simp [exKet, Kt.Convertible, KConvertibleL, exEnv, Kt.space]
  · decide

/-! ## refutations -/

omit [StarRing K] in
/-- C65 refuted: a ket cannot be converted in a larger space, but no error is raised: the result of `convert_to_qutip(|0⟩, full_space)` for
two factors of dimension 2 is a 4×2 matrix, not a column. -/
theorem C65_larger_space_refuted : ∃ (T : Env (Fin 2) ℚ) (M : Mat ℚ), (∀ l, T.d l = 2) ∧
    convK T (fun _ => none) 3 Finset.univ (.basis 0 0) = .ok M ∧ M.r = 4 ∧ M.c = 2 := by
  let T : Env (Fin 2) ℚ := ⟨fun _ => 2, fun n => n, fun x => x, fun _ => none, fun _ => none⟩
  have h : (convK T (fun _ => none) 3 Finset.univ (.basis 0 0)).map (fun M => (M.r, M.c)) = .ok (4, 2) := by kernel_rfl
  cases hM : convK T (fun _ => none) 3 Finset.univ (.basis 0 0) with
  | error e => rw [hM] at h; cases h
  | ok M =>
    rw [hM] at h
    have h' : (M.r, M.c) = (4, 2) := Except.ok.inj h
    exact ⟨T, M, fun _ => rfl, hM, (Prod.ext_iff.mp h').1, (Prod.ext_iff.mp h').2⟩

omit [Fintype ι] [StarRing K] in
/-- C65 refuted: `CoherentStateKet`, `OperatorTimesKet`, `Bra` are never converted, in any space. -/
theorem C65_never_refuted (T : Env ι K) (expandK : Kt ι K → Option (Kt ι K)) (k : Kt ι K)
    (hk : (∃ l u, k = .coherent l u) ∨ (∃ A t, k = .opTimes A t) ∨ ∃ t, k = .bra t) :
    ∀ (n : ℕ) (S : Finset ι) (M : Mat K), convK T expandK n S k ≠ .ok M
  | 0, S, M => by simp [convK]
  | n + 1, S, M => by
    intro h
    rw [convK.eq_def] at h
    simp only at h
    split at h
    · simp at h
    split at h
    · simp at h
    split at h
    · obtain ⟨l, -, h⟩ := Except.bind_ok h
      obtain ⟨m, hm, -⟩ := Except.bind_ok h
      exact C65_never_refuted T expandK k hk n _ m hm
    · rcases hk with ⟨l, u, rfl⟩ | ⟨A, t, rfl⟩ | ⟨t, rfl⟩ <;> simp at h

omit [Fintype ι] [StarRing K] in
/-- C65 refuted: a `BraKet` is never converted, in any space. -/
theorem C65_braket_refuted (S : Finset ι) (M : Mat K) : convBraKet S ≠ .ok M := by
  rw [convBraKet]
  split
  · simp
  · intro h
    obtain ⟨_, -, h⟩ := Except.bind_ok h
    simp at h

omit [Fintype ι] [StarRing K] [Field K] in
/-- C65 refuted: no super-operator is ever converted, in any space. -/
theorem C65_super_refuted : ∀ (n : ℕ) (S : Finset ι) (p : Sp ι K) (M : Mat K), convSp n S p ≠ .ok M
  | 0, S, p, M => by simp [convSp]
  | n + 1, S, p, M => by
    rw [convSp]
    split_ifs <;> first | exact C65_super_refuted n _ p M | simp

end QNET.Convert
