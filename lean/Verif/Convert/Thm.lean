import Verif.Convert.Rep
import Verif.Indexed.Sem
import Verif.Indexed.Thm33

/-!
# C64: the matrix of an operator expression (QuTiP and SymPy)
-/

namespace QNET.Convert

open QNET.Perm (Res Err)
open QNET.Mat (Mat identity dot scalarMul)
open QNET.Trace (Cfg ActsOn embed embed_actsOn actsOn_zero actsOn_one)
open QNET.Indexed (Except.bind_ok mapM_ok_forall₂ mapM_total)
open Finset

variable {ι : Type} [Fintype ι] [LinearOrder ι] {K : Type} [Field K] [StarRing K]

/-- An interpretation of the atoms as operators: a matrix for every kind of local operator on every local space, and operators for
symbols and outer products, which act on their space. -/
structure Interp (d : ι → ℕ) (K : Type) [Field K] where
  loc : ∀ l, Atom K → Matrix (Fin (d l)) (Fin (d l)) K
  sym : ℕ → Finset ι → Trace.Mat d K
  sym_acts : ∀ a s, ActsOn s (sym a s)
  kb : Finset ι → Trace.Mat d K
  kb_acts : ∀ s, ActsOn s (kb s)

variable {d : ι → ℕ} (I : Interp d K)

mutual
/-- the operator that an expression denotes, on the product of all local spaces -/
def Ex.val : Ex ι K → Trace.Mat d K
  | .one => 1
  | .zero => 0
  | .loc l a => embed l (I.loc l a)
  | .sym a s => I.sym a s
  | .plus ts => (valL ts).sum
  | .times ts => (valL ts).prod
  | .scal c t => c • t.val
  | .adj t => (t.val).conjTranspose
  | .ketbra s => I.kb s
/-- values of a list -/
def valL : List (Ex ι K) → List (Trace.Mat d K)
  | [] => []
  | t :: ts => t.val :: valL ts
end

theorem valL_eq (l : List (Ex ι K)) : valL I l = l.map (Ex.val I) := by
  induction l with
  | nil => rfl
  | cons a l ih => rw [valL, ih]; rfl

omit [Fintype ι] [Field K] [StarRing K] in
theorem mem_spaceL {t : Ex ι K} : ∀ {l : List (Ex ι K)}, t ∈ l → t.space ⊆ spaceL l
  | a :: l, h => by
    rw [spaceL]
    rcases List.mem_cons.mp h with rfl | h
    · exact Finset.subset_union_left
    · exact (mem_spaceL h).trans Finset.subset_union_right

mutual
/-- an expression acts on its space -/
theorem Ex.val_acts : ∀ e : Ex ι K, ActsOn e.space (e.val I)
  | .one => by rw [Ex.val]; exact actsOn_one _
  | .zero => by rw [Ex.val]; exact actsOn_zero _
  | .loc l a => by rw [Ex.val]; exact embed_actsOn l _
  | .sym a s => by rw [Ex.val]; exact I.sym_acts a s
  | .plus ts => by rw [Ex.val, Ex.space]; exact (valL_acts ts).1
  | .times ts => by rw [Ex.val, Ex.space]; exact (valL_acts ts).2
  | .scal c t => by rw [Ex.val, Ex.space]; exact (Ex.val_acts t).smul c
  | .adj t => by rw [Ex.val, Ex.space]; exact (Ex.val_acts t).star
  | .ketbra s => by rw [Ex.val]; exact I.kb_acts s
/-- the same for lists -/
theorem valL_acts : ∀ l : List (Ex ι K), ActsOn (spaceL l) (valL I l).sum ∧ ActsOn (spaceL l) (valL I l).prod
  | [] => ⟨by simpa [valL, spaceL] using actsOn_zero _, by simpa [valL, spaceL] using actsOn_one _⟩
  | t :: ts => by
    have h := Ex.val_acts t
    have h2 := valL_acts ts
    rw [valL, spaceL, List.sum_cons, List.prod_cons]
    exact ⟨(h.mono Finset.subset_union_left).add (h2.1.mono Finset.subset_union_right),
      (h.mono Finset.subset_union_left).mul (h2.2.mono Finset.subset_union_right)⟩
end

/-! ## lists -/

omit [Fintype ι] in
theorem factors_nodup (S : Finset ι) : (factors S).Nodup := by
  rw [factors_eq]
  exact Finset.sort_nodup _ _

omit [Fintype ι] in
theorem mem_factors {S : Finset ι} {l : ι} : l ∈ factors S ↔ l ∈ S := by
  rw [factors_eq]
  exact Finset.mem_sort _

omit [Fintype ι] in
theorem factors_toFinset (S : Finset ι) : (factors S).toFinset = S := by
  rw [factors_eq]
  exact Finset.sort_toFinset _ _

omit [Fintype ι] in
theorem factors_single (l : ι) : factors ({l} : Finset ι) = [l] := by
  rw [factors_eq]
  exact Finset.sort_singleton _ _

omit [StarRing K] in
theorem one_rep (l : ι) : Represents d [l] (identity (d l) : Mat K) 1 := by
  refine ⟨by simp [identity], by simp [identity], fun x y h => ?_⟩
  rw [idx_single, idx_single]
  simp only [identity, Matrix.one_apply]
  have : (x l : ℕ) = y l ↔ x = y := by
    constructor
    · intro hxy
      refine agree_all h fun i hi => ?_
      rw [List.mem_singleton] at hi
      subst hi
      exact Fin.ext hxy
    · rintro rfl; rfl
  simp only [this]

omit [StarRing K] in
theorem zeros_rep (l : ι) : Represents d [l] (Mat.zeros (d l) (d l) : Mat K) 0 :=
  ⟨by simp [Mat.zeros], by simp [Mat.zeros], fun x y _ => by simp [Mat.zeros]⟩

omit [StarRing K] in
theorem placeAt_rep (T : Env ι K) {l : ι} {m : Mat K} {V : Trace.Mat T.d K} (hm : Represents T.d [l] m V) : ∀ {fs : List ι}, l ∈ fs → fs.Nodup →
    List.Forall₂ (fun s M => Represents T.d [s] M (if s = l then V else 1)) fs (placeAt T fs l m)
  | [], h, _ => by simp at h
  | s :: t, h, hn => by
    rw [List.nodup_cons] at hn
    by_cases hs : s = l
    · subst hs
      simp only [placeAt, List.idxOf_cons_self, List.take_zero, List.map_nil, List.nil_append, List.drop_succ_cons, List.drop_zero,
        List.cons_append]
      refine .cons (by simpa using hm) ?_
      have hne : ∀ x ∈ t, x ≠ s := fun x hx hxs => hn.1 (hxs ▸ hx)
      clear h hn hm
      induction t with
      | nil => exact .nil
      | cons a t ih =>
        refine .cons ?_ (ih fun x hx => hne x (List.mem_cons_of_mem _ hx))
        rw [if_neg (hne a (by simp))]
        exact one_rep a
    · have hl : l ∈ t := by
        rcases List.mem_cons.mp h with rfl | h
        · exact absurd rfl hs
        · exact h
      have : placeAt T (s :: t) l m = identity (T.d s) :: placeAt T t l m := by
        simp [placeAt, List.idxOf_cons_ne _ hs]
      rw [this]
      exact .cons (by rw [if_neg hs]; exact one_rep s) (placeAt_rep T hm hl hn.2)

omit [Fintype ι] in
theorem prod_ite {R : Type} [Monoid R] {l : ι} {V : R} : ∀ {fs : List ι}, fs.Nodup → (l ∈ fs → (fs.map fun s => if s = l then V else 1).prod = V) ∧
    (l ∉ fs → (fs.map fun s => if s = l then V else 1).prod = 1)
  | [], _ => ⟨by simp, by simp⟩
  | s :: t, hn => by
    rw [List.nodup_cons] at hn
    have ih := prod_ite (l := l) (V := V) hn.2
    simp only [List.map_cons, List.prod_cons, List.mem_cons, not_or]
    by_cases hs : s = l
    · subst hs
      simp [ih.2 hn.1]
    · simp only [if_neg hs, one_mul]
      exact ⟨fun h => ih.1 (h.resolve_left (Ne.symm hs)), fun h => ih.2 h.2⟩

omit [StarRing K] in
theorem sumQ_rep {fs : List ι} {α : Type} (v : α → Trace.Mat d K) {l : List α} {ms : List (Mat K)} {M : Mat K}
    (h : List.Forall₂ (fun o m => Represents d fs m (v o)) l ms) (hM : sumQ ms = .ok M) : Represents d fs M (l.map v).sum := by
  cases h with
  | nil => simp [sumQ] at hM
  | @cons o m l ms hm hms =>
    rw [sumQ] at hM
    rw [List.map_cons, List.sum_cons]
    generalize v o = w at hm
    induction hms generalizing m w with
    | nil =>
      simp only [List.foldlM_nil, pure, Except.pure] at hM
      cases hM
      simpa using hm
    | cons h1 h2 ih =>
      rw [List.foldlM_cons] at hM
      obtain ⟨m', hm', hM⟩ := Except.bind_ok hM
      rw [List.map_cons, List.sum_cons, ← add_assoc]
      exact ih hM _ (add_rep hm h1 hm')

omit [StarRing K] in
theorem prodQ_rep {fs : List ι} (hn : fs.Nodup) {α : Type} (v : α → Trace.Mat d K) {l : List α} {ms : List (Mat K)} {M : Mat K}
    (h : List.Forall₂ (fun o m => Represents d fs m (v o) ∧ ActsOn fs.toFinset (v o)) l ms) (hM : prodQ ms = .ok M) :
    Represents d fs M (l.map v).prod := by
  cases h with
  | nil => simp [prodQ] at hM
  | @cons o m l ms hm hms =>
    rw [prodQ] at hM
    rw [List.map_cons, List.prod_cons]
    generalize v o = w at hm
    induction hms generalizing m w with
    | nil =>
      simp only [List.foldlM_nil, pure, Except.pure] at hM
      cases hM
      simpa using hm.1
    | cons h1 h2 ih =>
      rw [List.foldlM_cons] at hM
      obtain ⟨m', hm', hM⟩ := Except.bind_ok hM
      rw [List.map_cons, List.prod_cons, ← mul_assoc]
      exact ih hM _ ⟨dot_rep hn hm.1 h1.1 hm.2 hm', hm.2.mul h1.2⟩

/-- pulling out factors that commute with all factors before them -/
theorem filter_prod {α R : Type} [Monoid R] (v : α → R) (p : α → Bool) : ∀ ops : List α,
    (∀ a ∈ ops, ∀ b ∈ ops, p a = false → p b = true → v a * v b = v b * v a) →
    (ops.map v).prod = ((ops.filter p).map v).prod * ((ops.filter fun o => !p o).map v).prod
  | [], _ => by simp
  | a :: ops, h => by
    have ih := filter_prod v p ops fun x hx y hy => h x (List.mem_cons_of_mem _ hx) y (List.mem_cons_of_mem _ hy)
    rw [List.map_cons, List.prod_cons, ih]
    by_cases hp : p a = true
    · simp [hp, mul_assoc]
    · have hp' : p a = false := by simpa using hp
      have hc : v a * ((ops.filter p).map v).prod = ((ops.filter p).map v).prod * v a := by
        have : ∀ b ∈ ops.filter p, v a * v b = v b * v a := by
          intro b hb
          rw [List.mem_filter] at hb
          exact h a (by simp) b (List.mem_cons_of_mem _ hb.1) hp' hb.2
        generalize ops.filter p = q at this
        induction q with
        | nil => simp
        | cons b q ihq =>
          rw [List.map_cons, List.prod_cons, ← mul_assoc, this b (by simp), mul_assoc, ihq fun c hc => this c (by simp [hc]), mul_assoc]
      simp only [List.filter_cons, hp', Bool.false_eq_true, if_false, Bool.not_false, if_true, List.map_cons, List.prod_cons]
      rw [← mul_assoc, hc, mul_assoc]

/-- grouping the factors by local space does not change the product -/
theorem regroup : ∀ (fs : List ι) (ts : List (Ex ι K)), fs.Nodup → (∀ o ∈ ts, ∃ l ∈ fs, o.space = {l}) →
    (fs.map fun l => ((ts.filter fun o => decide (o.space = {l})).map (Ex.val I)).prod).prod = (ts.map (Ex.val I)).prod
  | [], ts, _, h => by
    cases ts with
    | nil => simp
    | cons o ts => obtain ⟨l, hl, -⟩ := h o (by simp); simp at hl
  | l :: t, ts, hn, h => by
    rw [List.nodup_cons] at hn
    have hsplit := filter_prod (Ex.val I) (fun o => decide (o.space = {l})) ts (by
      intro a ha b hb hpa hpb
      simp only [decide_eq_false_iff_not, decide_eq_true_eq] at hpa hpb
      obtain ⟨l', hl', ha'⟩ := h a ha
      refine (Ex.val_acts I a).commute (Ex.val_acts I b) ?_
      rw [ha', hpb, Finset.disjoint_singleton]
      rintro rfl
      exact hpa ha')
    rw [hsplit, List.map_cons, List.prod_cons]
    congr 1
    rw [← regroup t (ts.filter fun o => !decide (o.space = {l})) hn.2 (by
      intro o ho
      rw [List.mem_filter] at ho
      obtain ⟨l', hl', h'⟩ := h o ho.1
      rcases List.mem_cons.mp hl' with rfl | hl'
      · simp [h'] at ho
      · exact ⟨l', hl', h'⟩)]
    congr 1
    refine List.map_congr_left fun l' hl' => ?_
    rw [List.filter_filter]
    congr 2
    refine List.filter_congr fun o _ => ?_
    by_cases ho : o.space = {l'}
    · have : l' ≠ l := fun h => hn.1 (h ▸ hl')
      simp [ho, this]
    · simp [ho]

omit [Fintype ι] [Field K] [StarRing K] in
theorem ck_cons (o : Ex ι K) (ts : List (Ex ι K)) (fs : List ι) :
    ck (o :: ts) fs = (fs.map fun l => if o.space = {l} then 1 else 0).sum + ck ts fs := by
  induction fs with
  | nil => rfl
  | cons l t ih =>
    simp only [ck, List.map_cons, List.sum_cons] at ih ⊢
    rw [ih]
    by_cases h : o.space = {l}
    · simp [h, List.filter_cons]; omega
    · simp [h, List.filter_cons]; omega

omit [Fintype ι] [Field K] [StarRing K] in
theorem contrib (S : Finset ι) : ∀ {fs : List ι}, fs.Nodup → (fs.map fun l => if S = {l} then 1 else 0).sum ≤ 1 ∧
    ((fs.map fun l => if S = {l} then 1 else 0).sum = 1 → ∃ l ∈ fs, S = {l}) ∧ ((∃ l ∈ fs, S = {l}) → (fs.map fun l => if S = {l} then 1 else 0).sum = 1)
  | [], _ => by simp
  | l :: t, hn => by
    rw [List.nodup_cons] at hn
    obtain ⟨h1, h2, h3⟩ := contrib S hn.2
    simp only [List.map_cons, List.sum_cons]
    by_cases h : S = {l}
    · have : (t.map fun l => if S = {l} then 1 else 0).sum = 0 := by
        by_contra hne
        obtain ⟨l', hl', h'⟩ := h2 (by omega)
        rw [h, Finset.singleton_inj] at h'
        exact hn.1 (h' ▸ hl')
      rw [this]
      simp [h]
    · simp only [if_neg h, zero_add, List.mem_cons]
      refine ⟨h1, fun hs => ?_, ?_⟩
      · obtain ⟨l', hl', h'⟩ := h2 hs
        exact ⟨l', Or.inr hl', h'⟩
      · rintro ⟨l', hl' | hl', h'⟩
        · subst hl'; exact absurd h' h
        · exact h3 ⟨l', hl', h'⟩

omit [Fintype ι] [Field K] [StarRing K] in
/-- the assertion `ck == len(expr.operands)` holds exactly if every factor acts on one of the local spaces -/
theorem ck_iff {fs : List ι} (hn : fs.Nodup) (ts : List (Ex ι K)) :
    ck ts fs ≤ ts.length ∧ (ck ts fs = ts.length ↔ ∀ o ∈ ts, ∃ l ∈ fs, o.space = {l}) := by
  induction ts with
  | nil =>
    have : ck ([] : List (Ex ι K)) fs = 0 := by
      simp [ck]
    simp [this]
  | cons o ts ih =>
    obtain ⟨h1, h2, h3⟩ := contrib o.space hn
    rw [ck_cons, List.length_cons]
    refine ⟨by omega, ?_⟩
    constructor
    · intro h x hx
      rcases List.mem_cons.mp hx with rfl | hx
      · exact h2 (by omega)
      · exact ih.2.mp (by omega) x hx
    · intro h
      rw [h3 (h o (by simp)), ih.2.mpr fun x hx => h x (List.mem_cons_of_mem _ hx)]
      omega

end QNET.Convert
