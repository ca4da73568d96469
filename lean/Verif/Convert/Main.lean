import Verif.Convert.Thm

/-!
# C64, C65: conversion theorems
-/

namespace QNET.Convert

open QNET.Perm (Res Err)
open QNET.Mat (Mat identity dot scalarMul)
open QNET.Trace (Cfg ActsOn embed embed_actsOn actsOn_zero actsOn_one)
open QNET.Indexed (Except.bind_ok mapM_ok_forall₂ mapM_total)
open Finset

variable {ι : Type} [Fintype ι] [LinearOrder ι] {K : Type} [Field K] [StarRing K]

mutual
/-- every local operator in the expression satisfies `p` -/
def Ex.All (p : ι → Atom K → Prop) : Ex ι K → Prop
  | .one => True
  | .zero => True
  | .loc l a => p l a
  | .sym _ _ => True
  | .plus ts => AllL p ts
  | .times ts => AllL p ts
  | .scal _ t => t.All p
  | .adj t => t.All p
  | .ketbra _ => True
/-- the same for lists -/
def AllL (p : ι → Atom K → Prop) : List (Ex ι K) → Prop
  | [] => True
  | t :: ts => t.All p ∧ AllL p ts
end

mutual
/-- Where the `mapping` is consulted for an expression in the conversion of `e` on the space `S`, the expression is on that space. -/
def Ex.Placed (mp : Ex ι K → Option (Mat K)) : Finset ι → Ex ι K → Prop
  | S, .one => mp .one ≠ none → S = ∅
  | S, .zero => mp .zero ≠ none → S = ∅
  | S, .loc l a => mp (.loc l a) ≠ none → S = {l}
  | S, .sym a s => mp (.sym a s) ≠ none → S = s
  | S, .plus ts => (mp (.plus ts) ≠ none → S = spaceL ts) ∧ PlacedL mp S ts
  | S, .times ts => (mp (.times ts) ≠ none → S = spaceL ts) ∧ PlacedO mp ts
  | S, .scal c t => (mp (.scal c t) ≠ none → S = t.space) ∧ t.Placed mp S
  | S, .adj t => mp (.adj t) ≠ none → S = t.space
  | S, .ketbra s => mp (.ketbra s) ≠ none → S = s
/-- every summand, on the same space -/
def PlacedL (mp : Ex ι K → Option (Mat K)) : Finset ι → List (Ex ι K) → Prop
  | _, [] => True
  | S, t :: ts => t.Placed mp S ∧ PlacedL mp S ts
/-- every factor, on its own space -/
def PlacedO (mp : Ex ι K → Option (Mat K)) : List (Ex ι K) → Prop
  | [] => True
  | t :: ts => t.Placed mp t.space ∧ PlacedO mp ts
end

omit [Fintype ι] [LinearOrder ι] [Field K] [StarRing K] in
theorem AllL_iff {p : ι → Atom K → Prop} {ts : List (Ex ι K)} : AllL p ts ↔ ∀ t ∈ ts, t.All p := by
  induction ts with
  | nil => simp [AllL]
  | cons t ts ih => simp [AllL, ih]

omit [Fintype ι] [Field K] [StarRing K] in
theorem PlacedL_iff {mp : Ex ι K → Option (Mat K)} {S : Finset ι} {ts : List (Ex ι K)} : PlacedL mp S ts ↔ ∀ t ∈ ts, t.Placed mp S := by
  induction ts with
  | nil => simp [PlacedL]
  | cons t ts ih => simp [PlacedL, ih]

omit [Fintype ι] [Field K] [StarRing K] in
theorem PlacedO_iff {mp : Ex ι K → Option (Mat K)} {ts : List (Ex ι K)} : PlacedO mp ts ↔ ∀ t ∈ ts, t.Placed mp t.space := by
  induction ts with
  | nil => simp [PlacedO]
  | cons t ts ih => simp [PlacedO, ih]

omit [Fintype ι] [Field K] [StarRing K] in
theorem Placed_space {mp : Ex ι K → Option (Mat K)} {S : Finset ι} {e : Ex ι K} (h : e.Placed mp S) (hm : mp e ≠ none) : S = e.space := by
  cases e <;> simp only [Ex.Placed] at h <;> simp only [Ex.space] <;> first | exact h hm | exact h.1 hm

variable (T : Env ι K) (I : Interp T.d K)

/-- the matrices of the `mapping` represent the operators they stand for, on the space of the operator -/
def MappingOk : Prop := ∀ e M, T.mapping e = some M → Represents T.d (factors e.space) M (e.val I)

/-- what is assumed of `expr.expand()`: the value is unchanged (C30), no other kinds of local operators appear (`p`), and mapped
expressions keep their place -/
def ExpandOk (p : ι → Atom K → Prop) : Prop := ∀ ts e', T.expand (.times ts) = some e' → e'.val I = (Ex.times ts).val I ∧
  ((Ex.times ts).All p → e'.All p) ∧ ∀ S, (Ex.times ts).Placed T.mapping S → e'.Placed T.mapping S

/-- the conversion of a local operator on its own space is right, where it succeeds -/
def AtomOk (atom : ℕ → Atom K → Res (Mat K)) (l : ι) (a : Atom K) : Prop :=
  ∀ M, atom (T.d l) a = .ok M → Represents T.d [l] M (embed l (I.loc l a))

omit [StarRing K] in
theorem loc_rep {S : Finset ι} {l : ι} (hl : l ∈ S) {m : Mat K} {V : Trace.Mat T.d K} (hV : ActsOn {l} V) (hm : Represents T.d [l] m V) :
    Represents T.d (factors S) (kronL (placeAt T (factors S) l m)) V := by
  have h := kronL_rep (f := fun s => if s = l then V else 1) (by
    intro s
    by_cases hs : s = l
    · simpa [hs] using hV
    · simpa [hs] using actsOn_one _) (factors_nodup S) (placeAt_rep T hm (mem_factors.mpr hl) (factors_nodup S))
  rwa [(prod_ite (factors_nodup S)).1 (mem_factors.mpr hl)] at h

omit [StarRing K] in
theorem ones_rep (S : Finset ι) : Represents T.d (factors S) (kronL ((factors S).map fun s => identity (T.d s))) (1 : Trace.Mat T.d K) := by
  have h := kronL_rep (d := T.d) (K := K) (f := fun _ => 1) (fun l => actsOn_one _) (factors_nodup S)
    (ms := (factors S).map fun s => identity (T.d s)) (by
      rw [List.forall₂_map_right_iff, List.forall₂_same]
      exact fun s _ => one_rep s)
  simpa using h

omit [StarRing K] in
theorem zeros_rep' {S : Finset ι} (hS : S ≠ ∅) :
    Represents T.d (factors S) (kronL ((factors S).map fun s => Mat.zeros (T.d s) (T.d s))) (0 : Trace.Mat T.d K) := by
  have h := kronL_rep (d := T.d) (K := K) (f := fun _ => 0) (fun l => actsOn_zero _) (factors_nodup S)
    (ms := (factors S).map fun s => Mat.zeros (T.d s) (T.d s)) (by
      rw [List.forall₂_map_right_iff, List.forall₂_same]
      exact fun s _ => zeros_rep s)
  obtain ⟨l, hl⟩ := Finset.nonempty_iff_ne_empty.mpr hS
  have : ((factors S).map fun _ => (0 : Trace.Mat T.d K)).prod = 0 :=
    List.prod_eq_zero (List.mem_map.mpr ⟨l, mem_factors.mpr hl, rfl⟩)
  rwa [this] at h

/-- the product branch -/
theorem times_rep {S : Finset ι} {ts : List (Ex ι K)} {conv : ι → Ex ι K → Res (Mat K)} {bys : List (Mat K)}
    (hconv : ∀ o ∈ ts, ∀ l M, o.space = {l} → conv l o = .ok M → Represents T.d [l] M (o.val I))
    (hb : (factors S).mapM (fun ls => bySpace T (conv ls) ts ls) = .ok bys) (hck : ck ts (factors S) = ts.length) :
    Represents T.d (factors S) (kronL bys) ((Ex.times ts).val I) := by
  have hcov := (ck_iff (factors_nodup S) ts).2.mp hck
  rw [Ex.val, valL_eq, ← regroup I (factors S) ts (factors_nodup S) hcov]
  refine kronL_rep ?_ (factors_nodup S) ?_
  · intro l
    have : ∀ q : List (Ex ι K), (∀ o ∈ q, o.space = {l}) → ActsOn {l} (q.map (Ex.val I)).prod := by
      intro q hq
      induction q with
      | nil => simpa using actsOn_one _
      | cons o q ih =>
        rw [List.map_cons, List.prod_cons]
        have := Ex.val_acts I o
        rw [hq o (by simp)] at this
        exact this.mul (ih fun x hx => hq x (List.mem_cons_of_mem _ hx))
    exact this _ fun o ho => by simpa using (List.mem_filter.mp ho).2
  · refine (mapM_ok_forall₂ hb).imp ?_
    intro l M hM
    rw [bySpace] at hM
    obtain ⟨ms, hms, hM⟩ := Except.bind_ok hM
    have hf := mapM_ok_forall₂ hms
    split at hM
    · refine prodQ_rep (by simp) (Ex.val I) ?_ hM
      have : ∀ {q : List (Ex ι K)} {ms : List (Mat K)}, (∀ o ∈ q, o ∈ ts ∧ o.space = {l}) → List.Forall₂ (fun a b => conv l a = .ok b) q ms →
          List.Forall₂ (fun o m => Represents T.d [l] m (o.val I) ∧ ActsOn [l].toFinset (o.val I)) q ms := by
        intro q ms hq h
        induction h with
        | nil => exact .nil
        | @cons o' m' _ _ h1 h2 ih =>
          have ho := hq o' (by simp)
          have ha := Ex.val_acts I o'
          rw [ho.2] at ha
          exact .cons ⟨hconv _ ho.1 l _ ho.2 h1, by simpa using ha⟩ (ih fun x hx => hq x (List.mem_cons_of_mem _ hx))
      exact this (fun o ho => by simpa using List.mem_filter.mp ho) hf
    · rename_i hlen
      cases hM
      have : (ts.filter fun o => decide (o.space = {l})) = [] := by
        have := hf.length_eq
        rw [← List.length_eq_zero_iff]
        omega
      rw [this]
      simpa using one_rep l

/-- The value theorem for QuTiP. -/
theorem convQ_val {p : ι → Atom K → Prop} (hat : ∀ l a, p l a → AtomOk T I (atomQ T) l a) (hmap : MappingOk T I) (hex : ExpandOk T I p) : ∀ (n : ℕ) (S : Finset ι) (e : Ex ι K) (M : Mat K),
    convQ T n S e = .ok M → e.All p → e.Placed T.mapping S → Represents T.d (factors S) M (e.val I)
  | 0, S, e, M, h, _, _ => by simp [convQ] at h
  | n + 1, S, e, M, h, ha, hp => by
    rw [convQ.eq_def] at h
    simp only at h
    split at h
    · simp at h
    rename_i hsub
    rw [not_not] at hsub
    split at h
    · simp at h
    rename_i hS
    split at h
    · rename_i M' hM'
      cases h
      rw [Placed_space hp (by rw [hM']; simp)]
      exact hmap e _ hM'
    · rename_i hnone
      clear hnone
      cases e with
      | one =>
        cases h
        rw [Ex.val]
        exact ones_rep T S
      | zero =>
        cases h
        rw [Ex.val]
        exact zeros_rep' T hS
      | loc l a =>
        simp only at h
        split at h
        · obtain ⟨m, hm, h⟩ := Except.bind_ok h
          cases h
          have hm' := convQ_val hat hmap hex n {l} (.loc l a) m hm ha (by rw [Ex.Placed]; exact fun _ => rfl)
          rw [factors_single] at hm'
          exact loc_rep T (by simpa [Ex.space] using hsub) (Ex.val_acts I (.loc l a)) hm'
        · rename_i hSl
          rw [not_not] at hSl
          subst hSl
          rw [factors_single, Ex.val]
          exact hat _ _ ha M h
      | sym a s => simp at h
      | plus ts =>
        simp only at h
        obtain ⟨ms, hms, h'⟩ := Except.bind_ok h
        clear h
        rw [Ex.val, valL_eq]
        rw [Ex.All, AllL_iff] at ha
        rw [Ex.Placed, PlacedL_iff] at hp
        refine sumQ_rep (Ex.val I) ?_ h'
        have hf := mapM_ok_forall₂ hms
        clear h' hms hsub
        replace hp := hp.2
        induction hf with
        | nil => exact .nil
        | cons h1 h2 ih =>
          exact .cons (convQ_val hat hmap hex n S _ _ h1 (ha _ (by simp)) (hp _ (by simp)))
            (ih (fun x hx => ha x (List.mem_cons_of_mem _ hx)) (fun x hx => hp x (List.mem_cons_of_mem _ hx)))
      | times ts =>
        simp only at h
        split at h
        · split at h
          · simp at h
          · rename_i e' he'
            obtain ⟨h1, h2, h3⟩ := hex ts e' he'
            rw [← h1]
            exact convQ_val hat hmap hex n S e' M h (h2 ha) (h3 S hp)
        · obtain ⟨bys, hb, h⟩ := Except.bind_ok h
          split at h
          · rename_i hck
            cases h
            rw [Ex.All, AllL_iff] at ha
            rw [Ex.Placed, PlacedO_iff] at hp
            refine times_rep T I (conv := fun ls o => convQ T n {ls} o) ?_ hb hck
            intro o ho l M hl hM
            have hpo := hp.2 o ho
            rw [hl] at hpo
            have := convQ_val hat hmap hex n {l} o M hM (ha o ho) hpo
            rwa [factors_single] at this
          · simp at h
      | scal c t =>
        simp only at h
        obtain ⟨m, hm, h⟩ := Except.bind_ok h
        cases h
        rw [Ex.val]
        rw [Ex.All] at ha
        rw [Ex.Placed] at hp
        exact scal_rep (convQ_val hat hmap hex n S t m hm ha hp.2) c
      | adj t => simp at h
      | ketbra s => simp at h

theorem idx_inj {d : ι → ℕ} : ∀ {fs : List ι} {x y : Cfg d}, idx d fs x = idx d fs y → ∀ i ∈ fs, x i = y i
  | [], _, _, _, i, hi => by simp at hi
  | l :: t, x, y, h, i, hi => by
    have h1 : (x l : ℕ) = y l := by rw [← idx_div l t x, ← idx_div l t y, h]
    have h2 : idx d t x = idx d t y := by rw [← idx_mod l t x, ← idx_mod l t y, h]
    rcases List.mem_cons.mp hi with rfl | hi
    · exact Fin.ext h1
    · exact idx_inj h2 i hi

theorem identity_rep {d : ι → ℕ} (fs : List ι) : Represents d fs (identity (fs.map d).prod : Mat K) 1 := by
  refine ⟨rfl, rfl, fun x y h => ?_⟩
  simp only [identity, Matrix.one_apply]
  have : idx d fs x = idx d fs y ↔ x = y := ⟨fun hxy => agree_all h (idx_inj hxy), fun h => by rw [h]⟩
  simp only [this]

/-- The value theorem for SymPy. -/
theorem convS_val {p : ι → Atom K → Prop} (hat : ∀ l a, p l a → AtomOk T I (atomS T) l a) (hmap : T.mapping = fun _ => none)
    (hex : ExpandOk T I p) : ∀ (n : ℕ) (S : Finset ι) (e : Ex ι K) (M : Mat K),
    convS T n S e = .ok (some M) → e.All p → Represents T.d (factors S) M (e.val I)
  | 0, S, e, M, h, _ => by simp [convS] at h
  | n + 1, S, e, M, h, ha => by
    rw [convS.eq_def] at h
    simp only at h
    split at h
    · simp at h
    rename_i hsub
    rw [not_not] at hsub
    cases e with
    | one =>
      cases h
      rw [Ex.val]
      exact identity_rep _
    | zero => simp at h
    | loc l a =>
      simp only at h
      split at h
      · obtain ⟨m, hm, h⟩ := Except.bind_ok h
        cases m with
        | none => simp at h
        | some m =>
          cases h
          have hm' := convS_val hat hmap hex n {l} (.loc l a) m hm ha
          rw [factors_single] at hm'
          exact loc_rep T (by simpa [Ex.space] using hsub) (Ex.val_acts I (.loc l a)) hm'
      · rename_i hSl
        rw [not_not] at hSl
        subst hSl
        obtain ⟨m, hm, h⟩ := Except.bind_ok h
        cases h
        rw [factors_single, Ex.val]
        exact hat _ _ ha _ hm
    | sym a s => simp at h
    | plus ts =>
      simp only at h
      obtain ⟨ms, hms, h'⟩ := Except.bind_ok h
      obtain ⟨m, hm, h''⟩ := Except.bind_ok h'
      cases h''
      clear h h'
      rw [Ex.val, valL_eq]
      rw [Ex.All, AllL_iff] at ha
      refine sumQ_rep (Ex.val I) ?_ hm
      have hf := mapM_ok_forall₂ hms
      clear hm hms hsub
      induction hf with
      | nil => exact .nil
      | cons h1 h2 ih =>
        obtain ⟨m', hm', h1⟩ := Except.bind_ok h1
        cases m' with
        | none => simp at h1
        | some m' =>
          cases h1
          exact .cons (convS_val hat hmap hex n S _ _ hm' (ha _ (by simp))) (ih (fun x hx => ha x (List.mem_cons_of_mem _ hx)))
    | times ts =>
      simp only at h
      split at h
      · split at h
        · simp at h
        · rename_i e' he'
          obtain ⟨h1, h2, h3⟩ := hex ts e' he'
          rw [← h1]
          exact convS_val hat hmap hex n S e' M h (h2 ha)
      · obtain ⟨bys, hb, h⟩ := Except.bind_ok h
        split at h
        · rename_i hck
          cases h
          rw [Ex.All, AllL_iff] at ha
          refine times_rep T I ?_ hb hck
          intro o ho l M hl hM
          obtain ⟨m, hm, hM⟩ := Except.bind_ok hM
          cases m with
          | none => simp at hM
          | some m =>
            cases hM
            have := convS_val hat hmap hex n {l} o M hm (ha o ho)
            rwa [factors_single] at this
        · simp at h
    | scal c t =>
      simp only at h
      obtain ⟨m, hm, h⟩ := Except.bind_ok h
      cases m with
      | none => simp at h
      | some m =>
        cases h
        rw [Ex.val]
        rw [Ex.All] at ha
        exact scal_rep (convS_val hat hmap hex n S t m hm ha) c
    | adj t =>
      simp only at h
      obtain ⟨m, hm, h⟩ := Except.bind_ok h
      cases m with
      | none => simp at h
      | some m =>
        cases h
        rw [Ex.val]
        rw [Ex.All] at ha
        exact adj_rep (convS_val hat hmap hex n S t m hm ha)
    | ketbra s => simp at h

end QNET.Convert
