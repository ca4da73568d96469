import Verif.Indexed.Sem

/-!
# C33: writing out an indexed sum gives the sum of its terms
-/

namespace QNET.Indexed

variable {S R : Type} [CommSemiring S] [Semiring R] [Algebra S R]

/-! ### sums over lists -/

theorem sum_comm {M α β : Type} [AddCommMonoid M] (l : List α) (m : List β) (g : α → β → M) :
    (l.map fun a => (m.map fun b => g a b).sum).sum = (m.map fun b => (l.map fun a => g a b).sum).sum := by
  induction l with
  | nil => simp
  | cons a l ih => simp only [List.map_cons, List.sum_cons, ih, List.sum_map_add]

theorem upd_comm (ρ : Env) {s k : Sym} (h : s ≠ k) (v w : Val) : (ρ.upd s v).upd k w = (ρ.upd k w).upd s v := by
  funext x
  unfold Env.upd
  by_cases h1 : x = k
  · subst h1; simp [Ne.symm h]
  · simp [h1]

theorem sumOver_append {M : Type} [AddCommMonoid M] (f : Env → M) : ∀ (as bs : List Range) (ρ : Env), sumOver (as ++ bs) f ρ = sumOver as (sumOver bs f) ρ
  | [], bs, ρ => rfl
  | a :: as, bs, ρ => by simp only [List.cons_append, sumOver, sumOver_append f as bs]

/-- the order of the ranges does not matter -/
theorem sumOver_perm {M : Type} [AddCommMonoid M] (f : Env → M) {rs rs' : List Range} (h : rs.Perm rs') : (rs.map Range.sym).Nodup → ∀ ρ : Env, sumOver rs f ρ = sumOver rs' f ρ := by
  induction h with
  | nil => intro _ ρ; rfl
  | cons r _ ih =>
    intro hn ρ
    simp only [List.map_cons, List.nodup_cons] at hn
    simp only [sumOver, ih hn.2]
  | swap r q l =>
    intro hn ρ
    simp only [List.map_cons, List.nodup_cons, List.mem_cons, not_or] at hn
    simp only [sumOver]
    rw [sum_comm]
    congr 1
    apply List.map_congr_left
    intro v _
    congr 1
    apply List.map_congr_left
    intro w _
    rw [upd_comm _ hn.1.1]
  | trans h1 _ ih1 ih2 =>
    intro hn ρ
    rw [ih1 hn, ih2 ((h1.map Range.sym).nodup_iff.1 hn)]

theorem addAll_eval (I : Interp S R) {ts : List Term} {e : Term} (h : addAll ts = .ok e) (ρ : Env) : e.eval I ρ = (ts.map (fun t => t.eval I ρ)).sum := by
  cases ts with
  | nil => cases h
  | cons t ts =>
    cases h
    simp only [List.map_cons, List.sum_cons]
    induction ts generalizing t with
    | nil => simp
    | cons u ts ih =>
      rw [List.foldl_cons, ih]
      simp only [Term.eval, List.map_cons, List.sum_cons]
      rw [add_assoc]

/-! ### the terms -/

theorem toMap_values (d : Dict) : ValuesOnly d.toMap := by
  intro s x h
  unfold Dict.toMap at h
  cases hg : d.get s with
  | none => rw [hg] at h; cases h
  | some v => rw [hg] at h; cases h; exact ⟨v, rfl⟩

theorem over_zip_cons (ρ : Env) {s : Sym} {ss : List Sym} {v : Val} {vs : List Val} (h : s ∉ ss) :
    ρ.over (Dict.toMap ((s :: ss).zip (v :: vs))) = (ρ.upd s v).over (Dict.toMap (ss.zip vs)) := by
  funext k
  unfold Env.over Dict.toMap Dict.get
  simp only [List.zip_cons_cons, List.find?_cons]
  by_cases hk : s = k
  · subst hk
    have : (ss.zip vs).find? (fun x => decide (x.1 = s)) = none := by
      rw [List.find?_eq_none]
      intro x hx hxs
      simp only [decide_eq_true_eq] at hxs
      exact h (hxs ▸ (List.of_mem_zip hx).1)
    rw [this]
    simp [Ix.eval, Env.upd]
  · simp only [hk, decide_false, Bool.false_eq_true]
    cases (ss.zip vs).find? (fun x => decide (x.1 = k)) with
    | none => simp [Ix.eval, Env.upd, Ne.symm hk]
    | some x => rfl

theorem sum_product {M : Type} [AddCommMonoid M] (f : Env → M) : ∀ (rs : List Range), (rs.map Range.sym).Nodup → ∀ ρ : Env,
    ((product (rs.map Range.values)).map (fun c => f (ρ.over (Dict.toMap ((rs.map Range.sym).zip c))))).sum = sumOver rs f ρ
  | [], _, ρ => by
    simp only [List.map_nil, product, List.map_cons, List.sum_cons, List.sum_nil, add_zero, sumOver]
    rfl
  | r :: rs, hn, ρ => by
    simp only [List.map_cons, List.nodup_cons] at hn
    simp only [sumOver]
    simp only [List.map_cons, product]
    induction r.values with
    | nil => simp
    | cons v vs ih =>
      simp only [List.flatMap_cons, List.map_append, List.sum_append, List.map_cons, List.sum_cons, ih, List.map_map, Function.comp_def]
      congr 1
      rw [← sum_product f rs hn.2]
      congr 1
      apply List.map_congr_left
      intro c _
      rw [over_zip_cons ρ hn.1]

theorem len_finite {r : Range} {n : ℕ} (h : r.len = .ok n) : r.gen = .ok (.fin r.values) := by
  cases r with
  | list s vs => rfl
  | range s a b st =>
    unfold Range.values
    simp only [Range.len] at h
    simp only [Range.gen]
    split at h
    · cases h
    · rename_i hs; simp [hs]
  | fock s d =>
    cases d with
    | none => cases h
    | some d => rfl

theorem sumLen_finite : ∀ {rs : List Range} {n : ℕ}, sumLen rs = .ok n → valuesOf rs (rs.map Range.values)
  | [], n, _ => trivial
  | r :: rs, n, h => by
    simp only [sumLen] at h
    split at h
    · cases h
    · cases h
    · rename_i m hm
      obtain ⟨k, hk, _⟩ := Except.map_ok h
      exact ⟨len_finite hm, sumLen_finite hk⟩

theorem finite_valuesOf : ∀ {rs : List Range}, (∀ r ∈ rs, r.Finite) → valuesOf rs (rs.map Range.values)
  | [], _ => trivial
  | r :: rs, h => by
    obtain ⟨l, hl⟩ := h r (by simp)
    refine ⟨?_, finite_valuesOf (fun q hq => h q (by simp [hq]))⟩
    unfold Range.values
    rw [hl]

theorem terms_eval (I : Interp S R) (t : Term) (ρ : Env) : ∀ {ds : List Dict} {ts : List Term}, ds.mapM (fun d => t.subst d.toMap) = .ok ts →
    ts.map (fun u => u.eval I ρ) = ds.map (fun d => t.eval I (ρ.over d.toMap))
  | [], ts, h => by cases h; rfl
  | d :: ds, ts, h => by
    obtain ⟨u, us, h1, h2, rfl⟩ := mapM_ok_cons h
    simp only [List.map_cons, terms_eval I t ρ h2, Term.eval_subst I (toMap_values d) t u h1]

/-- C33: `doit()` of an indexed sum over finite ranges has the value of the sum: the nested sum over all index values of the value of the
term. -/
theorem C33_doit (I : Interp S R) {t e : Term} {rs : List Range} (hn : (rs.map Range.sym).Nodup) (h : doitAll t rs = .ok e) (ρ : Env) :
    e.eval I ρ = sumOver rs (fun ρ' => t.eval I ρ') ρ := by
  unfold doitAll at h
  obtain ⟨n, h1, h⟩ := Except.bind_ok h
  have hv := sumLen_finite h1
  rw [C32_yield_from_ranges rs _ hv hn] at h
  obtain ⟨ds, h2, h⟩ := Except.bind_ok h
  cases h2
  obtain ⟨ts, h3, h⟩ := Except.bind_ok h
  split at h
  · cases h
  · rw [addAll_eval I h, terms_eval I t ρ h3, List.map_map, ← sum_product _ rs hn]
    rfl

/-- nested sums have distinct index symbols, as every `IndexedSum` object -/
def Term.WF : Term → Prop
  | .fn _ _ => True
  | .scal _ _ t => t.WF
  | .delta _ _ t => t.WF
  | .pw _ _ t => t.WF
  | .nmul _ t => t.WF
  | .add a b => a.WF ∧ b.WF
  | .mul a b => a.WF ∧ b.WF
  | .sum t rs => t.WF ∧ (rs.map Range.sym).Nodup

theorem substRanges_id {σ : VarMap} : ∀ {rs : List Range}, (∀ s ∈ rs.map Range.sym, σ s = none) → substRanges σ rs = .ok rs
  | [], _ => rfl
  | r :: rs, h => by
    have h1 : r.subst σ = .ok r := by
      unfold Range.subst
      rw [h r.sym (by simp)]
      cases r <;> rfl
    have h2 := substRanges_id (σ := σ) (rs := rs) (fun s hs => h s (by simp only [List.map_cons, List.mem_cons]; exact Or.inr hs))
    unfold substRanges at h2 ⊢
    rw [List.mapM_cons, h1, h2]
    rfl

theorem Term.subst_total {σ : VarMap} : ∀ (t : Term), t.WF → (∀ s ∈ t.bound, σ s = none) → ∃ t', t.subst σ = .ok t'
  | .fn f xs, _, _ => ⟨_, rfl⟩
  | .scal c xs t, h, hb => by obtain ⟨u, hu⟩ := Term.subst_total t h hb; exact ⟨_, by simp only [Term.subst, hu]; rfl⟩
  | .delta a b t, h, hb => by obtain ⟨u, hu⟩ := Term.subst_total t h hb; exact ⟨_, by simp only [Term.subst, hu]; rfl⟩
  | .pw r x t, h, hb => by obtain ⟨u, hu⟩ := Term.subst_total t h hb; exact ⟨_, by simp only [Term.subst, hu]; rfl⟩
  | .nmul n t, h, hb => by obtain ⟨u, hu⟩ := Term.subst_total t h hb; exact ⟨_, by simp only [Term.subst, hu]; rfl⟩
  | .add a b, h, hb => by
    obtain ⟨u, hu⟩ := Term.subst_total a h.1 (fun s hs => hb s (by simp [Term.bound, hs]))
    obtain ⟨w, hw⟩ := Term.subst_total b h.2 (fun s hs => hb s (by simp [Term.bound, hs]))
    exact ⟨_, by simp only [Term.subst, hu, hw]; rfl⟩
  | .mul a b, h, hb => by
    obtain ⟨u, hu⟩ := Term.subst_total a h.1 (fun s hs => hb s (by simp [Term.bound, hs]))
    obtain ⟨w, hw⟩ := Term.subst_total b h.2 (fun s hs => hb s (by simp [Term.bound, hs]))
    exact ⟨_, by simp only [Term.subst, hu, hw]; rfl⟩
  | .sum t rs, h, hb => by
    obtain ⟨u, hu⟩ := Term.subst_total t h.1 (fun s hs => hb s (by simp only [Term.bound, List.mem_append]; exact Or.inl hs))
    have hr := substRanges_id (σ := σ) (rs := rs) (fun s hs => hb s (by simp only [Term.bound, List.mem_append]; exact Or.inr hs))
    exact ⟨.sum u rs, by simp only [Term.subst, hu, hr, bind, Except.bind, mkSum, h.2, if_true]⟩

theorem mapM_total {α β : Type} {f : α → Res β} : ∀ {l : List α}, (∀ a ∈ l, ∃ b, f a = .ok b) → ∃ r, l.mapM f = .ok r ∧ r.length = l.length
  | [], _ => ⟨[], rfl, rfl⟩
  | a :: l, h => by
    obtain ⟨b, hb⟩ := h a (by simp)
    obtain ⟨r, hr, hl⟩ := mapM_total (l := l) (fun x hx => h x (by simp [hx]))
    exact ⟨b :: r, by rw [List.mapM_cons, hb, hr]; rfl, by simp [hl]⟩

theorem get_zip_none {ss : List Sym} {vs : List Val} {s : Sym} (h : s ∉ ss) : Dict.toMap (ss.zip vs) s = none := by
  unfold Dict.toMap Dict.get
  have : (ss.zip vs).find? (fun x => decide (x.1 = s)) = none := by
    rw [List.find?_eq_none]
    intro x hx hxs
    simp only [decide_eq_true_eq] at hxs
    exact h (hxs ▸ (List.of_mem_zip hx).1)
  rw [this]; rfl

theorem valuesOf_sumLen {rs : List Range} {ls : List (List Val)} (h : valuesOf rs ls) : sumLen rs = .ok (product ls).length := C32_sum_length rs ls h

/-- C33: `doit()` succeeds for 1 to 1001 terms, if the term has no nested sum over one of the same index symbols. -/
theorem C33_doit_total {t : Term} {rs : List Range} (hn : (rs.map Range.sym).Nodup) (hf : ∀ r ∈ rs, r.Finite) (ht : t.WF)
    (hb : ∀ s ∈ t.bound, s ∉ rs.map Range.sym) (h1 : 1 ≤ (rs.map (fun r => r.values.length)).prod) (h2 : (rs.map (fun r => r.values.length)).prod ≤ 1001) :
    ∃ e, doitAll t rs = .ok e := by
  have hv := finite_valuesOf hf
  have hl : (product (rs.map Range.values)).length = (rs.map (fun r => r.values.length)).prod := by
    rw [product_length, List.map_map]; rfl
  unfold doitAll
  rw [valuesOf_sumLen hv, C32_yield_from_ranges rs _ hv hn]
  simp only [bind, Except.bind]
  obtain ⟨ts, hts, hlen⟩ := mapM_total (f := fun (d : Dict) => t.subst d.toMap) (l := (product (rs.map Range.values)).map (fun c => (rs.map Range.sym).zip c)) (by
    intro d hd
    obtain ⟨c, _, rfl⟩ := List.mem_map.1 hd
    exact Term.subst_total t ht (fun s hs => get_zip_none (hb s hs)))
  rw [hts]
  simp only
  rw [List.length_map, hl] at hlen
  rw [if_neg (by simp only [expandLimit]; omega)]
  cases ts with
  | nil => simp at hlen; omega
  | cons u us => exact ⟨_, rfl⟩

/-- C33: no terms at all: the result is `None`. -/
theorem C33_empty_range_refuted (t : Term) (s : Sym) : doitAll t [.list s []] = .error .noneResult := rfl

/-- C33: with `max_terms = k`, the sum of the values of the first `k` terms: finite ranges. -/
theorem C33_max_terms (I : Interp S R) {t e : Term} {rs : List Range} {k : ℕ} (hn : (rs.map Range.sym).Nodup) (hf : ∀ r ∈ rs, r.Finite)
    (h : doitMax t rs k = .ok e) (ρ : Env) :
    e.eval I ρ = (((product (rs.map Range.values)).take k).map (fun c => t.eval I (ρ.over (Dict.toMap ((rs.map Range.sym).zip c))))).sum := by
  unfold doitMax at h
  split at h
  · cases h
  · have hv := finite_valuesOf hf
    have h0 : takeFromRanges rs (k + 1) = .ok (((product (rs.map Range.values)).take (k + 1)).map (fun c => (rs.map Range.sym).zip c)) := by
      unfold takeFromRanges
      rw [iter_lists rs _ hv]
      simp only [bind, Except.bind]
      have : (rs.zip (rs.map Range.values)).map (fun x => Gen.fin (x.2.map (fun v => ([(x.1.sym, v)] : Dict)))) =
          ((rs.zip (rs.map Range.values)).map (fun x => x.2.map (fun v => ([(x.1.sym, v)] : Dict)))).map .fin := by rw [List.map_map]; rfl
      rw [this, C32_first_items]
      simp only [product_dicts rs _ (valuesOf_length hv), ← List.map_take, List.map_map, Except.ok.injEq]
      apply List.map_congr_left
      intro c hc
      simp only [Function.comp, mergeDicts]
      rw [merge_singletons _ _ [] (by rw [product_item_length (List.mem_of_mem_take hc)]; simp) (by simpa using hn)]
      rfl
    rw [h0] at h
    obtain ⟨ds, h2, h⟩ := Except.bind_ok h
    cases h2
    obtain ⟨ts, h3, h⟩ := Except.bind_ok h
    rw [addAll_eval I h]
    rw [List.map_take, terms_eval I t ρ h3, List.map_map, ← List.map_take, List.take_take]
    rw [Nat.min_eq_left (Nat.le_succ k)]
    rfl

/-- C33: with `max_terms = k`, the sum of the values of the first `k` terms: a sum over an infinite Fock space. -/
theorem C33_max_terms_infinite (I : Interp S R) {t e : Term} {s : Sym} {k : ℕ} (h : doitMax t [.fock s none] k = .ok e) (ρ : Env) :
    e.eval I ρ = ((List.range k).map (fun n => t.eval I (ρ.upd s (.int (n : ℕ))))).sum := by
  unfold doitMax at h
  split at h
  · cases h
  · have h0 : takeFromRanges [.fock s none] (k + 1) = .ok ((List.range (k + 1)).map (fun n => [(s, .int (n : ℕ))])) := by
      unfold takeFromRanges
      have hi : (([.fock s none] : List Range).mapM Range.iter : Res (List (Gen Dict))) = .ok [.inf (fun n => [(s, .int (n : ℕ))])] := rfl
      rw [hi]
      simp only [bind, Except.bind]
      have := C32_infinite_outer (fun n : ℕ => ([(s, .int (n : ℕ))] : Dict)) [] (by simp [product]) (k + 1)
      simp only [List.map_nil] at this
      rw [this]
      simp only [product, List.length_cons, List.length_nil, Nat.zero_add, Nat.div_one, Nat.mod_one, List.map_map, Except.ok.injEq]
      apply List.map_congr_left
      intro n _
      rfl
    rw [h0] at h
    obtain ⟨ds, h2, h⟩ := Except.bind_ok h
    cases h2
    obtain ⟨ts, h3, h⟩ := Except.bind_ok h
    rw [addAll_eval I h, List.map_take, terms_eval I t ρ h3, List.map_map, ← List.map_take]
    have : (List.range (k + 1)).take k = List.range k := by rw [List.range_succ]; simp
    rw [this]
    congr 1
    apply List.map_congr_left
    intro n _
    simp only [Function.comp]
    congr 1
    funext x
    unfold Env.over Dict.toMap Dict.get Env.upd
    by_cases hx : s = x
    · subst hx; simp [Ix.eval]
    · simp [hx, Ne.symm hx, Ix.eval]

/-! ### one index after the other -/

theorem over_one (ρ : Env) (s : Sym) (v : Val) : ρ.over (Dict.toMap [(s, v)]) = ρ.upd s v := by
  have := over_zip_cons ρ (s := s) (ss := []) (v := v) (vs := []) (by simp)
  simp only [List.zip_cons_cons, List.zip_nil_left] at this
  rw [this]
  rfl

theorem expandRange_eval (I : Interp S R) {t u : Term} {r : Range} (h : expandRange t r = .ok u) (ρ : Env) : u.eval I ρ = sumOver [r] (t.eval I) ρ := by
  unfold expandRange at h
  obtain ⟨g, hg, h⟩ := Except.bind_ok h
  cases g with
  | inf f => cases h
  | fin vs =>
    obtain ⟨ts, h3, h⟩ := Except.bind_ok h
    split at h
    · cases h
    · rw [addAll_eval I h]
      have hts : ∀ {vs : List Val} {ts : List Term}, vs.mapM (fun v => t.subst (Dict.toMap [(r.sym, v)])) = .ok ts →
          ts.map (fun u => u.eval I ρ) = vs.map (fun v => t.eval I (ρ.upd r.sym v)) := by
        intro vs
        induction vs with
        | nil => intro ts h; cases h; rfl
        | cons v vs ih =>
          intro ts h
          obtain ⟨w, ws, h1, h2, rfl⟩ := mapM_ok_cons h
          simp only [List.map_cons, ih h2, Term.eval_subst I (toMap_values _) t w h1, over_one]
      rw [hts h3]
      simp only [sumOver, Range.values, hg]

theorem select_perm {s : Sym} {rs others : List Range} {r : Range} (hn : (rs.map Range.sym).Nodup) (h : selectRange s rs = (some r, others)) : rs.Perm (others ++ [r]) := by
  unfold selectRange at h
  simp only [Prod.mk.injEq] at h
  obtain ⟨h1, rfl⟩ := h
  have hlen : (rs.filter (fun r => decide (r.sym = s))).length ≤ 1 := by
    have hnd : ((rs.filter (fun r => decide (r.sym = s))).map Range.sym).Nodup := hn.sublist (List.filter_sublist.map _)
    match hm : rs.filter (fun r => decide (r.sym = s)) with
    | [] => rw [hm]; simp
    | [_] => rw [hm]; simp
    | a :: b :: l =>
      exfalso
      rw [hm] at hnd
      have ha : a ∈ rs.filter (fun r => decide (r.sym = s)) := by rw [hm]; simp
      have hb : b ∈ rs.filter (fun r => decide (r.sym = s)) := by rw [hm]; simp
      simp only [List.mem_filter, decide_eq_true_eq] at ha hb
      simp only [List.map_cons, List.nodup_cons, List.mem_cons, not_or] at hnd
      exact hnd.1.1 (ha.2.trans hb.2.symm)
  have he : rs.filter (fun r => decide (r.sym = s)) = [r] := by
    generalize rs.filter (fun r => decide (r.sym = s)) = l at hlen h1
    match l with
    | [] => cases h1
    | [a] => simp only [List.getLast?_singleton, Option.some.injEq] at h1; rw [h1]
    | _ :: _ :: _ => simp at hlen
  have := List.filter_append_perm (fun r : Range => decide (r.sym = s)) rs
  rw [he] at this
  refine this.symm.trans (List.perm_append_comm.trans ?_)
  simp

/-- `create` preserves values and returns well-formed sums -/
def CreateOk (I : Interp S R) (create : Term → List Range → Res Term) : Prop :=
  ∀ t rs e, rs ≠ [] → (rs.map Range.sym).Nodup → create t rs = .ok e → (∀ ρ, e.eval I ρ = sumOver rs (t.eval I) ρ) ∧ ∀ t' rs', e = .sum t' rs' → (rs'.map Range.sym).Nodup

/-- C33: expanding the sum for some of the indices, one after the other, in any order, does not change the value. -/
theorem C33_over_indices (I : Interp S R) (create : Term → List Range → Res Term) (hc : CreateOk I create) :
    ∀ (ss : List Sym) (t e : Term) (rs : List Range), (rs.map Range.sym).Nodup → doitOver create ss t rs = .ok e → ∀ ρ : Env, e.eval I ρ = sumOver rs (fun ρ' => t.eval I ρ') ρ
  | [], t, e, rs, hn, h, ρ => by cases h; rfl
  | s :: ss, t, e, rs, hn, h, ρ => by
    simp only [doitOver] at h
    split at h
    · cases h; rfl
    · rename_i r others hsel
      obtain ⟨u, hu, h⟩ := Except.bind_ok h
      have hp := select_perm hn hsel
      have hv : sumOver rs (fun ρ' => t.eval I ρ') ρ = sumOver others (fun ρ' => u.eval I ρ') ρ := by
        rw [sumOver_perm _ hp hn, sumOver_append]
        congr 1
        funext ρ'
        exact (expandRange_eval I hu ρ').symm
      split at h
      · rename_i h0
        cases h
        rw [hv, h0]; rfl
      · rename_i hne
        obtain ⟨w, hw, h⟩ := Except.bind_ok h
        have hno : (others.map Range.sym).Nodup := by
          have := ((hp.map Range.sym).nodup_iff.1 hn)
          rw [List.map_append, List.nodup_append] at this
          exact this.1
        obtain ⟨h1, h2⟩ := hc u others w hne hno hw
        split at h
        · rename_i t' rs'
          rw [C33_over_indices I create hc ss t' e rs' (h2 _ _ rfl) h ρ, hv, ← h1]
          rfl
        · cases h

/-- C33: plain instantiation preserves values. -/
theorem createOk_mkSum (I : Interp S R) : CreateOk I mkSum := by
  intro t rs e hne hn h
  obtain ⟨rfl, _⟩ := mkSum_ok h
  exact ⟨fun ρ => rfl, by intro t' rs' h; cases h; exact hn⟩

/-! ### sums over terms that do not depend on an index -/

/-- the loop -/
abbrev constLoop (F : List Sym) (rs : List Range) (acc : Term × List Range) : Term × List Range := rs.foldl (constStep F) acc

theorem len_values {r : Range} {n : ℕ} (h : r.len = .ok n) : n = r.values.length := by
  have := (C32_range_length r).1 _ (len_finite h)
  rw [this] at h
  cases h; rfl

theorem sumOver_nmul (I : Interp S R) (n : ℕ) (t : Term) : ∀ (rs : List Range) (ρ : Env), sumOver rs ((Term.nmul n t).eval I) ρ = n • sumOver rs (t.eval I) ρ
  | [], ρ => rfl
  | r :: rs, ρ => by
    simp only [sumOver, sumOver_nmul I n t rs]
    induction r.values with
    | nil => simp
    | cons v vs ih => simp only [List.map_cons, List.sum_cons, smul_add, ih]

theorem constLoop_spec (I : Interp S R) (F : List Sym) : ∀ (rs : List Range) (t : Term) (nrs : List Range), t.free = F → ((nrs ++ rs).map Range.sym).Nodup → ∀ ρ,
    sumOver (constLoop F rs (t, nrs)).2 ((constLoop F rs (t, nrs)).1.eval I) ρ = sumOver (nrs ++ rs) (t.eval I) ρ ∧ ((constLoop F rs (t, nrs)).2.map Range.sym).Nodup
  | [], t, nrs, _, hn, ρ => by simp only [constLoop, List.foldl_nil, List.append_nil] at hn ⊢; exact ⟨trivial, hn⟩
  | r :: rs, t, nrs, ht, hn, ρ => by
    have keep := constLoop_spec I F rs t (nrs ++ [r]) ht (by simpa using hn) ρ
    rw [List.append_assoc] at keep
    simp only [List.singleton_append] at keep
    have hstep : constLoop F (r :: rs) (t, nrs) = constLoop F rs (constStep F (t, nrs) r) := rfl
    rw [hstep]
    by_cases hF : r.sym ∉ F
    · cases hl : r.len with
      | error e =>
        have : constStep F (t, nrs) r = (t, nrs ++ [r]) := by simp [constStep, hF, hl]
        rw [this]
        exact keep
      | ok n =>
        have : constStep F (t, nrs) r = (.nmul n t, nrs) := by simp [constStep, hF, hl]
        rw [this]
        have hp : (nrs ++ r :: rs).Perm ((nrs ++ rs) ++ [r]) := by
          rw [List.append_assoc]
          exact List.Perm.append_left nrs (List.perm_append_singleton r rs).symm
        have hn' : ((nrs ++ rs).map Range.sym).Nodup := by
          have := (hp.map Range.sym).nodup_iff.1 hn
          rw [List.map_append, List.nodup_append] at this
          exact this.1
        obtain ⟨h1, h2⟩ := constLoop_spec I F rs (.nmul n t) nrs ht hn' ρ
        refine ⟨?_, h2⟩
        rw [h1, sumOver_perm _ hp hn, sumOver_append _ (nrs ++ rs)]
        congr 1
        funext ρ'
        simp only [Term.eval, sumOver]
        have : ∀ v, t.eval I (ρ'.upd r.sym v) = t.eval I ρ' := by
          intro v
          refine Term.eval_congr I t _ _ ?_
          intro s hs
          unfold Env.upd
          rw [if_neg]
          intro hc
          exact hF (hc ▸ ht ▸ hs)
        simp only [this, List.map_const', List.sum_replicate]
        rw [len_values hl]
    · have : constStep F (t, nrs) r = (t, nrs ++ [r]) := by simp only [constStep, hF, if_false]
      rw [this]
      exact keep

theorem constLoop_nil (F : List Sym) : ∀ (rs : List Range) (t : Term) (nrs : List Range), (constLoop F rs (t, nrs)).2 = [] →
    nrs = [] ∧ ((rs = [] ∧ (constLoop F rs (t, nrs)).1 = t) ∨ ∃ n u, (constLoop F rs (t, nrs)).1 = .nmul n u)
  | [], t, nrs, h => ⟨h, Or.inl ⟨rfl, rfl⟩⟩
  | r :: rs, t, nrs, h => by
    have hstep : constLoop F (r :: rs) (t, nrs) = constLoop F rs (constStep F (t, nrs) r) := rfl
    rw [hstep] at h ⊢
    obtain ⟨t', nrs', hx, hcase⟩ : ∃ t' nrs', constStep F (t, nrs) r = (t', nrs') ∧ (nrs' = nrs ++ [r] ∨ (nrs' = nrs ∧ ∃ n, t' = .nmul n t)) := by
      unfold constStep
      split
      · split
        · exact ⟨_, _, rfl, Or.inr ⟨rfl, _, rfl⟩⟩
        · exact ⟨_, _, rfl, Or.inl rfl⟩
      · exact ⟨_, _, rfl, Or.inl rfl⟩
    rw [hx] at h ⊢
    obtain ⟨h1, h2⟩ := constLoop_nil F rs t' nrs' h
    rcases hcase with rfl | ⟨rfl, n, rfl⟩
    · simp at h1
    · refine ⟨h1, Or.inr ?_⟩
      rcases h2 with ⟨_, h3⟩ | h3
      · exact ⟨n, t, h3⟩
      · exact h3

/-- C33, `Sum(j, 1, N)(a) = N a`: pulling the ranges whose index does not occur in the term out of the sum does not change the value. -/
theorem C33_sum_over_const (I : Interp S R) (t : Term) (rs : List Range) (hn : (rs.map Range.sym).Nodup) (ρ : Env) :
    (overConst t rs).eval I ρ = sumOver rs (fun ρ' => t.eval I ρ') ρ := by
  have h := (constLoop_spec I t.free rs t [] rfl (by simpa using hn) ρ).1
  unfold overConst
  simp only
  split
  · rename_i h0
    unfold constLoop at h
    rw [h0] at h
    exact h
  · exact h

/-- `create` with the elimination of unused indices -/
def createConst (t : Term) (rs : List Range) : Res Term := if (rs.map Range.sym).Nodup then .ok (overConst t rs) else .error .valueError

/-- C33: so does `create` with the elimination of unused indices. -/
theorem createOk_const (I : Interp S R) : CreateOk I createConst := by
  intro t rs e hne hn h
  unfold createConst at h
  rw [if_pos hn] at h
  cases h
  refine ⟨fun ρ => C33_sum_over_const I t rs hn ρ, ?_⟩
  intro t' rs' he
  have h2 := (constLoop_spec I t.free rs t [] rfl (by simpa using hn) (fun _ => .int 0)).2
  unfold overConst at he
  simp only at he
  split at he
  · rename_i h0
    rcases (constLoop_nil t.free rs t [] h0).2 with ⟨h3, _⟩ | ⟨n, u, h3⟩
    · exact absurd h3 hne
    · rw [h3] at he; cases he
  · cases he
    exact h2

/-- a concrete case: `∑_{i ∈ {1, 2}, j ∈ 0..1} A_{i,j}`, expanded for `j`, then for `i` -/
example : doitOver mkSum [⟨1, 0⟩, ⟨0, 0⟩] (.fn 5 [.sym ⟨0, 0⟩, .sym ⟨1, 0⟩]) [.list ⟨0, 0⟩ [.int 1, .int 2], .range ⟨1, 0⟩ 0 1 1] =
    .ok (.add (.add (.fn 5 [.val (.int 1), .val (.int 0)]) (.fn 5 [.val (.int 1), .val (.int 1)]))
      (.add (.fn 5 [.val (.int 2), .val (.int 0)]) (.fn 5 [.val (.int 2), .val (.int 1)]))) := by rfl

/-- C33: an index that is no index of the sum ends the expansion: the indices after it are not expanded. -/
theorem C33_unknown_index (create : Term → List Range → Res Term) (s : Sym) (ss : List Sym) (t : Term) (rs : List Range) (h : s ∉ rs.map Range.sym) :
    doitOver create (s :: ss) t rs = .ok (.sum t rs) := by
  have : rs.filter (fun r => decide (r.sym = s)) = [] := by
    rw [List.filter_eq_nil_iff]
    intro r hr hs
    simp only [decide_eq_true_eq] at hs
    exact h (List.mem_map.2 ⟨r, hr, hs⟩)
  simp [doitOver, selectRange, this]

end QNET.Indexed
