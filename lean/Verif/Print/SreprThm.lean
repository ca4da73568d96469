import Verif.Print.Srepr

/-!
# `eval(srepr(expr)) == expr` (C71)
-/

namespace QNET.Print

/-! ### Specification -/

/-- an equivalence that is preserved when objects are put together -/
structure Congr (R : Obj → Obj → Prop) : Prop where
  refl : ∀ a, R a a
  symm : ∀ a b, R a b → R b a
  trans : ∀ a b c, R a b → R b c → R a c
  expr : ∀ cls args args' keys vals vals', List.Forall₂ R args args' → List.Forall₂ R vals vals' → R (.expr cls args keys vals) (.expr cls args' keys vals')
  tup : ∀ l l', List.Forall₂ R l l' → R (.tup l) (.tup l')
  lst : ∀ l l', List.Forall₂ R l l' → R (.lst l) (.lst l')
  arr : ∀ d s rows rows', List.Forall₂ (List.Forall₂ R) rows rows' → R (.arr d s rows) (.arr d s rows')

mutual
/-- Objects that exist in QNET: names are identifiers; singletons are available in the context under their name; the class names of QNET are not those of SymPy;
arrays have two dimensions and at least one row. -/
def Obj.WF (E : Env) : Obj → Prop
  | .sing n => ValidName n ∧ isNumber n = false ∧ E.val n = some (.sing n)
  | .expr cls args keys vals => ValidName cls ∧ cls ≠ nArray ∧ E.sympy cls = false ∧ Obj.WFL E args ∧ keys.length = vals.length ∧ (∀ k ∈ keys, ValidName k) ∧ Obj.WFL E vals
  | .tup l => Obj.WFL E l
  | .lst l => Obj.WFL E l
  | .arr d shape rows => ValidName d ∧ rows ≠ [] ∧ (∃ m, shape = [rows.length, m] ∧ ∀ r ∈ rows, r.length = m) ∧ Obj.WFR E rows
  | .str _ => True
  | .int _ => True
  | .leaf p => p.Ok ∧ ∃ f a k v, p = .call f a k v ∧ E.sympy f = true ∧ f ≠ nArray
def Obj.WFL (E : Env) : List Obj → Prop
  | [] => True
  | o :: l => o.WF E ∧ Obj.WFL E l
def Obj.WFR (E : Env) : List (List Obj) → Prop
  | [] => True
  | r :: l => Obj.WFL E r ∧ Obj.WFR E l
end

mutual
/-- all arrays have at least one column -/
def Obj.Columns : Obj → Prop
  | .expr _ args _ vals => Obj.ColumnsL args ∧ Obj.ColumnsL vals
  | .arr _ _ rows => Obj.ColumnsR rows
  | _ => True
def Obj.ColumnsL : List Obj → Prop
  | [] => True
  | o :: l => o.Columns ∧ Obj.ColumnsL l
def Obj.ColumnsR : List (List Obj) → Prop
  | [] => True
  | r :: l => r ≠ [] ∧ Obj.ColumnsL r ∧ Obj.ColumnsR l
end

/-- the text evaluates to an object that is equivalent to `o` -/
def EvaluatesTo (E : Env) (R : Obj → Obj → Prop) (s : List Char) (o : Obj) : Prop := ∃ p o', parse s = some p ∧ eval E p = some o' ∧ R o' o

/-! ### Tokens that mean an object -/

def WsOk (t : List Tok) : Prop := ∀ x ∈ t, x.isWs = true → x.Valid

variable {E : Env} {R : Obj → Obj → Prop} {H : Host}

def Means (E : Env) (R : Obj → Obj → Prop) (t : List Tok) (o : Obj) : Prop := ∃ p : Py, p.Ok ∧ nw t = p.ts ∧ WsOk t ∧ ∃ o', eval E p = some o' ∧ R o' o

theorem Means.evaluates {t : List Tok} {o : Obj} (h : Means E R t o) : EvaluatesTo E R (text t) o := by
  obtain ⟨p, hp, ht, hw, o', he, hr⟩ := h
  exact ⟨p, o', parse_text hp ht hw, he, hr⟩

theorem WsOk.append {a b : List Tok} (ha : WsOk a) (hb : WsOk b) : WsOk (a ++ b) := fun x hx => (List.mem_append.mp hx).elim (ha x) (hb x)
theorem WsOk.cons {a : Tok} {b : List Tok} (ha : a.isWs = true → a.Valid) (hb : WsOk b) : WsOk (a :: b) := fun x hx h => by
  rcases List.mem_cons.mp hx with rfl | hx
  · exact ha h
  · exact hb x hx h
theorem WsOk.nil : WsOk [] := fun _ h => by cases h
theorem WsOk.sym {c : Char} {b : List Tok} (hb : WsOk b) : WsOk (.sym c :: b) := .cons (fun h => by cases h) hb
theorem WsOk.word {c : Name} {b : List Tok} (hb : WsOk b) : WsOk (.word c :: b) := .cons (fun h => by cases h) hb
theorem WsOk.str {c : List Char} {b : List Tok} (hb : WsOk b) : WsOk (.str c :: b) := .cons (fun h => by cases h) hb
theorem WsOk.sp {b : List Tok} (hb : WsOk b) : WsOk (.ws ' ' :: b) := .cons (fun _ => rfl) hb
theorem WsOk.nl {b : List Tok} (hb : WsOk b) : WsOk (.ws '\n' :: b) := .cons (fun _ => rfl) hb
theorem WsOk.sub {a b : List Tok} (h : ∀ x ∈ b, x ∈ a) (ha : WsOk a) : WsOk b := fun x hx => ha x (h x hx)

theorem WsOk.joinC : ∀ {l : List (List Tok)}, (∀ a ∈ l, WsOk a) → WsOk (joinC l)
  | [], _ => .nil
  | [a], h => h a List.mem_cons_self
  | a :: b :: l, h => (h a List.mem_cons_self).append (.sym (.sp (WsOk.joinC fun x hx => h x (List.mem_cons_of_mem _ hx))))

mutual
theorem wsOk_toks : ∀ p : Py, WsOk p.toks
  | .word w => .word .nil
  | .neg w => .sym (.word .nil)
  | .str s => .str .nil
  | .call f args keys vals => by
    rw [Py.toks]
    refine .word (.sym ((WsOk.joinC fun a ha => ?_).append (.sym .nil)))
    rcases List.mem_append.mp ha with h | h
    · exact wsOk_toksList args a h
    · exact wsOk_toksKw keys vals a h
  | .tup l => by
    rw [Py.toks]
    refine .sym (((WsOk.joinC (wsOk_toksList l)).append ?_).append (.sym .nil))
    split
    · exact .sym .nil
    · exact .nil
  | .lst comma l => by
    rw [Py.toks]
    refine .sym (((WsOk.joinC (wsOk_toksList l)).append ?_).append (.sym .nil))
    split
    · exact .sym .nil
    · exact .nil
theorem wsOk_toksList : ∀ (l : List Py), ∀ a ∈ Py.toksList l, WsOk a
  | [], a, h => by simp [Py.toksList] at h
  | p :: l, a, h => by
    rw [Py.toksList] at h
    rcases List.mem_cons.mp h with rfl | h
    · exact wsOk_toks p
    · exact wsOk_toksList l a h
theorem wsOk_toksKw : ∀ (ks : List Name) (l : List Py), ∀ a ∈ Py.toksKw ks l, WsOk a
  | k :: ks, p :: l, a, h => by
    rw [Py.toksKw] at h
    rcases List.mem_cons.mp h with rfl | h
    · exact .word (.sym (wsOk_toks p))
    · exact wsOk_toksKw ks l a h
  | [], _, a, h => by simp [Py.toksKw] at h
  | _ :: _, [], a, h => by simp [Py.toksKw] at h
end

/-! ### Lists of objects -/

/-- what a list of texts says: the expressions, their values -/
theorem means_list : ∀ {ts : List (List Tok)} {l : List Obj}, List.Forall₂ (Means E R) ts l →
    ∃ (ps : List Py) (os : List Obj), ts.map nw = Py.tsList ps ∧ Py.OkList ps ∧ (∀ t ∈ ts, WsOk t) ∧ evalList E ps = some os ∧ List.Forall₂ R os l ∧ ps.length = l.length
  | _, _, .nil => ⟨[], [], rfl, trivial, by simp, rfl, .nil, rfl⟩
  | _, _, .cons (a := t) h hs => by
    obtain ⟨p, hp, ht, hw, o', he, hr⟩ := h
    obtain ⟨ps, os, h1, h2, h3, h4, h5, h6⟩ := means_list hs
    refine ⟨p :: ps, o' :: os, ?_, ?_, ?_, ?_, .cons hr h5, by simp [h6]⟩
    · rw [List.map_cons, Py.tsList, ht, h1]
    · rw [Py.OkList]; exact ⟨hp, h2⟩
    · intro x hx
      rcases List.mem_cons.mp hx with rfl | hx
      exacts [hw, h3 x hx]
    · rw [evalList, he, Option.bind_some, h4]; rfl

theorem commas_append : ∀ a b : List (List Tok), commas (a ++ b) = commas a ++ (if b = [] then [] else (if a = [] then [] else [.sym ',']) ++ commas b)
  | [], b => by by_cases h : b = [] <;> simp [h, commas]
  | [x], b => by
    by_cases h : b = []
    · simp [h]
    · obtain ⟨y, ys, rfl⟩ := List.exists_cons_of_ne_nil h
      simp [commas]
  | x :: y :: l, b => by
    have := commas_append (y :: l) b
    rw [List.cons_append, List.cons_append, commas, ← List.cons_append, this]
    · by_cases h : b = [] <;> simp [h, commas]
    · simp

theorem nw_headToks (cls : Name) (args kws : List (List Tok)) :
    nw (headToks cls args kws) = .word cls :: .sym '(' :: (commas (args.map nw ++ kws.map nw) ++ [.sym ')']) := by
  rw [headToks, nw_word, nw_sym, nw_append, nw_append, nw_joinC, commas_append]
  by_cases h : kws = []
  · simp [h, nw, Tok.isWs]
  · by_cases ha : args = []
    · simp [h, ha, nw_joinC]; rfl
    · simp only [h, ha, if_false, nw_append, nw_joinC, List.map_eq_nil_iff]; rfl

theorem kwToks_map : ∀ (keys : List Name) (ts : List (List Tok)), (kwToks keys ts).map nw = kwToks keys (ts.map nw)
  | [], _ => by simp [kwToks]
  | _ :: _, [] => by simp [kwToks]
  | k :: ks, t :: ts => by rw [kwToks, List.map_cons, nw_word, nw_sym, kwToks_map, List.map_cons, kwToks]

theorem kwToks_ts : ∀ (keys : List Name) (ps : List Py), kwToks keys (Py.tsList ps) = Py.tsKw keys ps
  | [], _ => by simp [kwToks, Py.tsKw]
  | _ :: _, [] => by simp [kwToks, Py.tsKw, Py.tsList]
  | k :: ks, p :: ps => by rw [Py.tsList, kwToks, kwToks_ts, Py.tsKw]

theorem kwToks_ws : ∀ (keys : List Name) (ts : List (List Tok)), (∀ t ∈ ts, WsOk t) → ∀ t ∈ kwToks keys ts, WsOk t
  | [], _, _, t, h => by simp [kwToks] at h
  | _ :: _, [], _, t, h => by simp [kwToks] at h
  | k :: ks, t :: ts, hw, x, h => by
    rw [kwToks] at h
    rcases List.mem_cons.mp h with rfl | h
    · exact .word (.sym (hw t List.mem_cons_self))
    · exact kwToks_ws ks ts (fun y hy => hw y (List.mem_cons_of_mem _ hy)) x h

/-- an expression whose parts are printed correctly -/
theorem means_expr (hR : Congr R) {cls : Name} {args vals : List Obj} {keys : List Name} {ta tv : List (List Tok)} (hc : ValidName cls) (hn : cls ≠ nArray)
    (hs : E.sympy cls = false) (hk : keys.length = vals.length) (hkv : ∀ k ∈ keys, ValidName k)
    (ha : List.Forall₂ (Means E R) ta args) (hv : List.Forall₂ (Means E R) tv vals) {t : List Tok}
    (ht : nw t = nw (headToks cls ta (kwToks keys tv))) (hw : WsOk t) : Means E R t (.expr cls args keys vals) := by
  obtain ⟨pa, oa, a1, a2, a3, a4, a5, a6⟩ := means_list ha
  obtain ⟨pv, ov, v1, v2, v3, v4, v5, v6⟩ := means_list hv
  refine ⟨.call cls pa keys pv, ?_, ?_, hw, .expr cls oa keys ov, ?_, hR.expr _ _ _ _ _ _ a5 v5⟩
  · rw [Py.Ok]; exact ⟨hc, a2, by omega, hkv, v2⟩
  · rw [ht, nw_headToks, kwToks_map, a1, v1, kwToks_ts, Py.ts]
  · rw [eval, if_neg hn, if_neg (by simp [hs]), a4, v4]; rfl

theorem nw_seqToks (op cl : Char) (l : List (List Tok)) : nw (seqToks op cl l) = .sym op :: (commas (l.map nw) ++ (if l.length = 1 then [.sym ','] else []) ++ [.sym cl]) := by
  rw [seqToks, nw_sym, nw_append, nw_append, nw_joinC]
  split <;> rfl

theorem headToks_ws {cls : Name} {args kws : List (List Tok)} (ha : ∀ t ∈ args, WsOk t) (hk : ∀ t ∈ kws, WsOk t) : WsOk (headToks cls args kws) := by
  refine .word (.sym (((WsOk.joinC ha).append ?_).append (.sym .nil)))
  split
  · exact .nil
  · refine WsOk.append ?_ (.joinC hk)
    split
    · exact .nil
    · exact .sym (.sp .nil)

theorem seqToks_ws {op cl : Char} {l : List (List Tok)} (h : ∀ t ∈ l, WsOk t) : WsOk (seqToks op cl l) := by
  refine .sym (((WsOk.joinC h).append ?_).append (.sym .nil))
  split
  · exact .sym .nil
  · exact .nil

theorem means_tup (hR : Congr R) {l : List Obj} {tl : List (List Tok)} (h : List.Forall₂ (Means E R) tl l) {t : List Tok} (ht : nw t = nw (seqToks '(' ')' tl)) (hw : WsOk t) :
    Means E R t (.tup l) := by
  obtain ⟨ps, os, a1, a2, a3, a4, a5, a6⟩ := means_list h
  refine ⟨.tup ps, ?_, ?_, hw, .tup os, ?_, hR.tup _ _ a5⟩
  · rw [Py.Ok]; exact a2
  · rw [ht, nw_seqToks, a1, Py.ts, h.length_eq, a6]
  · rw [eval, a4]; rfl

theorem means_lst (hR : Congr R) {l : List Obj} {tl : List (List Tok)} (h : List.Forall₂ (Means E R) tl l) {t : List Tok} (ht : nw t = nw (seqToks '[' ']' tl)) (hw : WsOk t) :
    Means E R t (.lst l) := by
  obtain ⟨ps, os, a1, a2, a3, a4, a5, a6⟩ := means_list h
  refine ⟨.lst (decide (l.length = 1)) ps, ?_, ?_, hw, .lst os, ?_, hR.lst _ _ a5⟩
  · rw [Py.Ok]; exact ⟨fun h1 h2 => by subst h2; simp at a6 h1; omega, a2⟩
  · rw [ht, nw_seqToks, a1, Py.ts, h.length_eq]; simp
  · rw [eval, a4]; rfl

theorem means_str (s : List Char) (hR : Congr R) {t : List Tok} (ht : nw t = [.str s]) (hw : WsOk t) : Means E R t (.str s) :=
  ⟨.str s, by rw [Py.Ok]; trivial, ht, hw, .str s, by rw [eval], hR.refl _⟩

theorem natText_isNumber (n : ℕ) : isNumber (natText n) = true := by
  obtain ⟨c, w, h, hd⟩ := natText_digit n
  rw [h]; exact hd

theorem means_int (z : ℤ) (hR : Congr R) {t : List Tok} (ht : nw t = intToks z) (hw : WsOk t) : Means E R t (.int z) := by
  unfold intToks at ht
  by_cases hz : z < 0
  · rw [if_pos hz] at ht
    refine ⟨.neg (natText z.natAbs), by rw [Py.Ok]; exact natText_valid _, ht, hw, .int z, ?_, hR.refl _⟩
    rw [eval, if_pos (natText_isNumber _), readNat_natText]
    congr 2; omega
  · rw [if_neg hz] at ht
    refine ⟨.word (natText z.natAbs), by rw [Py.Ok]; exact natText_valid _, ht, hw, .int z, ?_, hR.refl _⟩
    rw [eval, if_pos (natText_isNumber _), readNat_natText]
    congr 2; omega

theorem intToks_nw (z : ℤ) : nw (intToks z) = intToks z := by unfold intToks; split <;> rfl
theorem intToks_ws (z : ℤ) : WsOk (intToks z) := by
  unfold intToks; split
  · exact .sym (.word .nil)
  · exact .word .nil

theorem means_sing {n : Name} (hR : Congr R) (h : Obj.WF E (.sing n)) {t : List Tok} (ht : nw t = [.word n]) (hw : WsOk t) : Means E R t (.sing n) := by
  rw [Obj.WF] at h
  exact ⟨.word n, by rw [Py.Ok]; exact h.1, ht, hw, .sing n, by rw [eval, if_neg (by simp [h.2.1]), h.2.2], hR.refl _⟩

theorem means_leaf {p : Py} (hR : Congr R) (h : Obj.WF E (.leaf p)) {t : List Tok} (ht : nw t = p.ts) (hw : WsOk t) : Means E R t (.leaf p) := by
  rw [Obj.WF] at h
  obtain ⟨hp, f, a, k, v, rfl, hs, hn⟩ := h
  exact ⟨_, hp, ht, hw, .leaf (.call f a k v), by rw [eval, if_neg hn, if_pos hs], hR.refl _⟩

/-- rows of an array -/
def MeansRow (E : Env) (R : Obj → Obj → Prop) (t : List Tok) (row : List Obj) : Prop :=
  ∃ (ps : List Py) (os : List Obj), nw t = .sym '[' :: (commas (Py.tsList ps) ++ [.sym ']']) ∧ Py.OkList ps ∧ evalList E ps = some os ∧ List.Forall₂ R os row

theorem means_rows : ∀ {ts : List (List Tok)} {rows : List (List Obj)}, List.Forall₂ (MeansRow E R) ts rows →
    ∃ (ps : List Py) (oss : List (List Obj)), ts.map nw = Py.tsList ps ∧ Py.OkList ps ∧ evalList E ps = some (oss.map .lst) ∧ List.Forall₂ (List.Forall₂ R) oss rows
  | _, _, .nil => ⟨[], [], rfl, trivial, rfl, .nil⟩
  | _, _, .cons h hs => by
    obtain ⟨ps, os, a1, a2, a3, a4⟩ := h
    obtain ⟨qs, oss, b1, b2, b3, b4⟩ := means_rows hs
    refine ⟨.lst false ps :: qs, os :: oss, ?_, ?_, ?_, .cons a4 b4⟩
    · rw [List.map_cons, Py.tsList, a1, b1, Py.ts]; simp
    · rw [Py.OkList, Py.Ok]; exact ⟨⟨by simp, a2⟩, b2⟩
    · rw [evalList, eval, a3, b3]; rfl

theorem mapM_rowOf : ∀ l : List (List Obj), (l.map Obj.lst).mapM Obj.rowOf = some l
  | [] => rfl
  | x :: l => by
    rw [List.map_cons, List.mapM_cons, mapM_rowOf l]
    rfl

theorem mkArray_ok {d : Name} {rows : List (List Obj)} {m : ℕ} (h0 : rows ≠ []) (h : ∀ r ∈ rows, r.length = m) : mkArray d rows = some (.arr d [rows.length, m] rows) := by
  obtain ⟨r, l, rfl⟩ := List.exists_cons_of_ne_nil h0
  have hr := h r List.mem_cons_self
  unfold mkArray
  dsimp only
  rw [if_pos, hr]
  rw [List.all_eq_true]
  intro x hx
  simp [h x (List.mem_cons_of_mem _ hx), hr]

theorem forall₂_rows_length {S : Obj → Obj → Prop} {m : ℕ} : ∀ {a b : List (List Obj)}, List.Forall₂ (List.Forall₂ S) a b → (∀ r ∈ b, r.length = m) → ∀ r ∈ a, r.length = m
  | _, _, .nil, _, r, hr => by cases hr
  | _, _, .cons h hs, hb, r, hr => by
    rcases List.mem_cons.mp hr with rfl | hr
    · rw [h.length_eq]; exact hb _ List.mem_cons_self
    · exact forall₂_rows_length hs (fun x hx => hb x (List.mem_cons_of_mem _ hx)) r hr

theorem means_arr (hR : Congr R) {d : Name} {shape : List ℕ} {rows : List (List Obj)} (h : Obj.WF E (.arr d shape rows)) {ts : List (List Tok)}
    (hr : List.Forall₂ (MeansRow E R) ts rows) {t : List Tok}
    (ht : nw t = [.word nArray, .sym '(', .sym '['] ++ commas (ts.map nw) ++ [.sym ']', .sym ',', .word nDtype, .sym '=', .word d, .sym ')']) (hw : WsOk t) :
    Means E R t (.arr d shape rows) := by
  rw [Obj.WF] at h
  obtain ⟨hd, h0, ⟨m, rfl, hm⟩, -⟩ := h
  obtain ⟨ps, oss, b1, b2, b3, b4⟩ := means_rows hr
  have hne : oss ≠ [] := by
    rintro rfl
    cases b4
    exact h0 rfl
  refine ⟨.call nArray [.lst false ps] [nDtype] [.word d], ?_, ?_, hw, .arr d [rows.length, m] oss, ?_, hR.arr _ _ _ _ b4⟩
  · simp only [Py.Ok, Py.OkList]
    refine ⟨⟨by decide, by decide⟩, ⟨⟨by simp, b2⟩, trivial⟩, rfl, ?_, hd, trivial⟩
    intro k hk
    rw [List.mem_singleton] at hk
    subst hk
    exact ⟨by decide, by decide⟩
  · rw [ht, b1]
    simp [Py.ts, Py.tsList, Py.tsKw, commas]
  · rw [eval, if_pos rfl, evalList, eval, b3]
    simp only [Option.bind_some, evalList, evalArray, if_true, mapM_rowOf]
    rw [mkArray_ok hne (forall₂_rows_length b4 hm), b4.length_eq]

/-! ### The cache -/

/-- every entry of the cache evaluates to an object that is equivalent to its key -/
def CacheOk (E : Env) (R : Obj → Obj → Prop) (c : Cache) : Prop := ∀ e ∈ c, Means E R e.2 e.1

theorem Means.congr (hR : Congr R) {t : List Tok} {a b : Obj} (h : Means E R t a) (hab : R a b) : Means E R t b := by
  obtain ⟨p, hp, ht, hw, o', he, hr⟩ := h
  exact ⟨p, hp, ht, hw, o', he, hR.trans _ _ _ hr hab⟩

theorem getC_means (hR : Congr R) (hH : ∀ a b, H.same a b = true → R a b) {c : Cache} (hc : CacheOk E R c) {o : Obj} {t : List Tok} (h : getC H c o = some t) : Means E R t o := by
  unfold getC at h
  split at h
  · cases hf : c.find? fun e => H.same e.1 o with
    | none => rw [hf] at h; cases h
    | some e =>
      rw [hf] at h
      injection h with h
      subst h
      exact (hc e (List.mem_of_find?_eq_some hf)).congr hR (hH _ _ (by simpa using List.find?_some hf))
  · cases h

theorem putC_ok (hR : Congr R) (hH : ∀ a b, H.same a b = true → R a b) {c : Cache} (hc : CacheOk E R c) {o : Obj} {t : List Tok} (h : Means E R t o) : CacheOk E R (putC H c o t) := by
  unfold putC
  split
  · split
    · intro e he
      obtain ⟨x, hx, rfl⟩ := List.mem_map.mp he
      split
      · next hs => exact h.congr hR (hR.symm _ _ (hH _ _ hs))
      · exact hc x hx
    · intro e he
      rcases List.mem_append.mp he with he | he
      · exact hc e he
      · rw [List.mem_singleton] at he
        subst he
        exact h
  · exact hc

theorem cached_means (hR : Congr R) (hH : ∀ a b, H.same a b = true → R a b) {f : Cache → Option (List Tok × Cache)} {o : Obj} {c : Cache} (hc : CacheOk E R c)
    (hf : ∀ r, f c = some r → Means E R r.1 o ∧ CacheOk E R r.2) {r : List Tok × Cache} (h : cached H f o c = some r) : Means E R r.1 o ∧ CacheOk E R r.2 := by
  unfold cached at h
  split at h
  · next t ht =>
    injection h with h; subst h
    exact ⟨getC_means hR hH hc ht, hc⟩
  · obtain ⟨x, hx, h⟩ := Option.bind_eq_some_iff.mp h
    injection h with h; subst h
    obtain ⟨h1, h2⟩ := hf x hx
    refine ⟨h1, ?_⟩
    dsimp only
    split
    · exact h2
    · exact putC_ok hR hH h2 h1

/-! ### The flat printer -/

mutual
theorem flatNew_means (hR : Congr R) (hH : ∀ a b, H.same a b = true → R a b) (top : Bool) : ∀ (o : Obj) (c : Cache) (r : List Tok × Cache), o.WF E → CacheOk E R c →
    flatNew H top o c = some r → Means E R r.1 o ∧ CacheOk E R r.2
  | .sing n, c, r, hw, hc, h => by
    rw [flatNew] at h; injection h with h; subst h
    exact ⟨means_sing hR hw rfl (.word .nil), hc⟩
  | .expr cls args keys vals, c, r, hw, hc, h => by
    rw [flatNew] at h
    obtain ⟨v, hv, h⟩ := Option.bind_eq_some_iff.mp h
    obtain ⟨a, ha, h⟩ := Option.bind_eq_some_iff.mp h
    injection h with h; subst h
    rw [Obj.WF] at hw
    obtain ⟨w1, w2, w3, w4, w5, w6, w7⟩ := hw
    obtain ⟨hv1, hv2⟩ := flatArgs_means hR hH vals c v w7 hc hv
    obtain ⟨ha1, ha2⟩ := flatArgs_means hR hH args v.2 a w4 hv2 ha
    obtain ⟨_, _, _, _, a3, _⟩ := means_list ha1
    obtain ⟨_, _, _, _, v3, _⟩ := means_list hv1
    exact ⟨means_expr hR w1 w2 w3 w5 w6 ha1 hv1 rfl (headToks_ws a3 (kwToks_ws _ _ v3)), ha2⟩
  | .tup l, c, r, hw, hc, h => by
    rw [flatNew] at h
    obtain ⟨v, hv, h⟩ := Option.bind_eq_some_iff.mp h
    injection h with h; subst h
    rw [Obj.WF] at hw
    obtain ⟨h1, h2⟩ := flatItems_means hR hH l c v hw hc hv
    obtain ⟨_, _, _, _, a3, _⟩ := means_list h1
    exact ⟨means_tup hR h1 rfl (seqToks_ws a3), h2⟩
  | .lst l, c, r, hw, hc, h => by
    rw [flatNew] at h
    obtain ⟨v, hv, h⟩ := Option.bind_eq_some_iff.mp h
    injection h with h; subst h
    rw [Obj.WF] at hw
    obtain ⟨h1, h2⟩ := flatItems_means hR hH l c v hw hc hv
    obtain ⟨_, _, _, _, a3, _⟩ := means_list h1
    exact ⟨means_lst hR h1 rfl (seqToks_ws a3), h2⟩
  | .arr d shape rows, c, r, hw, hc, h => by
    rw [flatNew] at h
    split at h
    · obtain ⟨v, hv, h⟩ := Option.bind_eq_some_iff.mp h
      injection h with h; subst h
      have hw' := hw
      rw [Obj.WF] at hw'
      obtain ⟨h1, h2, h3⟩ := flatRows_means hR hH rows c v hw'.2.2.2 hc hv
      refine ⟨means_arr hR hw h1 ?_ ?_, h3⟩
      · rw [nw_append, nw_append, nw_joinC]; rfl
      · exact ((WsOk.word (.sym (.sym .nil))).append (.joinC h2)).append (.sym (.sym (.sp (.word (.sym (.word (.sym .nil)))))))
    · cases h
  | .str s, c, r, hw, hc, h => by
    rw [flatNew] at h; injection h with h; subst h
    exact ⟨means_str s hR rfl (.str .nil), hc⟩
  | .int z, c, r, hw, hc, h => by
    rw [flatNew] at h; injection h with h; subst h
    exact ⟨means_int z hR (intToks_nw z) (intToks_ws z), hc⟩
  | .leaf p, c, r, hw, hc, h => by
    rw [flatNew] at h; injection h with h; subst h
    exact ⟨means_leaf hR hw (nw_toks p) (wsOk_toks p), hc⟩
theorem flatArgs_means (hR : Congr R) (hH : ∀ a b, H.same a b = true → R a b) : ∀ (l : List Obj) (c : Cache) (r : List (List Tok) × Cache), Obj.WFL E l → CacheOk E R c →
    flatArgs H l c = some r → List.Forall₂ (Means E R) r.1 l ∧ CacheOk E R r.2
  | [], c, r, _, hc, h => by
    rw [flatArgs] at h; injection h with h; subst h
    exact ⟨.nil, hc⟩
  | o :: l, c, r, hw, hc, h => by
    rw [flatArgs] at h
    obtain ⟨v, hv, h⟩ := Option.bind_eq_some_iff.mp h
    obtain ⟨a, ha, h⟩ := Option.bind_eq_some_iff.mp h
    injection h with h; subst h
    rw [Obj.WFL] at hw
    obtain ⟨h1, h2⟩ := cached_means hR hH hc (fun r hr => flatNew_means hR hH true o c r hw.1 hc hr) hv
    obtain ⟨h3, h4⟩ := flatArgs_means hR hH l v.2 a hw.2 h2 ha
    exact ⟨.cons h1 h3, h4⟩
theorem flatItems_means (hR : Congr R) (hH : ∀ a b, H.same a b = true → R a b) : ∀ (l : List Obj) (c : Cache) (r : List (List Tok) × Cache), Obj.WFL E l → CacheOk E R c →
    flatItems H l c = some r → List.Forall₂ (Means E R) r.1 l ∧ CacheOk E R r.2
  | [], c, r, _, hc, h => by
    rw [flatItems] at h; injection h with h; subst h
    exact ⟨.nil, hc⟩
  | o :: l, c, r, hw, hc, h => by
    rw [flatItems] at h
    obtain ⟨v, hv, h⟩ := Option.bind_eq_some_iff.mp h
    obtain ⟨a, ha, h⟩ := Option.bind_eq_some_iff.mp h
    injection h with h; subst h
    rw [Obj.WFL] at hw
    obtain ⟨h1, h2⟩ := flatNew_means hR hH false o c v hw.1 hc hv
    obtain ⟨h3, h4⟩ := flatItems_means hR hH l v.2 a hw.2 h2 ha
    exact ⟨.cons h1 h3, h4⟩
theorem flatRows_means (hR : Congr R) (hH : ∀ a b, H.same a b = true → R a b) : ∀ (l : List (List Obj)) (c : Cache) (r : List (List Tok) × Cache), Obj.WFR E l → CacheOk E R c →
    flatRows H l c = some r → List.Forall₂ (MeansRow E R) r.1 l ∧ (∀ t ∈ r.1, WsOk t) ∧ CacheOk E R r.2
  | [], c, r, _, hc, h => by
    rw [flatRows] at h; injection h with h; subst h
    exact ⟨.nil, by simp, hc⟩
  | o :: l, c, r, hw, hc, h => by
    rw [flatRows] at h
    obtain ⟨v, hv, h⟩ := Option.bind_eq_some_iff.mp h
    obtain ⟨a, ha, h⟩ := Option.bind_eq_some_iff.mp h
    injection h with h; subst h
    rw [Obj.WFR] at hw
    obtain ⟨h1, h2⟩ := flatArgs_means hR hH o c v hw.1 hc hv
    obtain ⟨h3, h4, h5⟩ := flatRows_means hR hH l v.2 a hw.2 h2 ha
    obtain ⟨ps, os, a1, a2, a3, a4, a5, a6⟩ := means_list h1
    refine ⟨.cons ⟨ps, os, ?_, a2, a4, a5⟩ h3, ?_, h5⟩
    · rw [nw_sym, nw_append, nw_joinC, a1]; rfl
    · intro t ht
      rcases List.mem_cons.mp ht with rfl | ht
      · exact .sym ((WsOk.joinC a3).append (.sym .nil))
      · exact h4 t ht
end

end QNET.Print
