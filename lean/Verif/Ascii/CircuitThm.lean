import Verif.Ascii.Circuit
import Verif.SLH.Thm

/-! # C84: theorems -/

namespace QNET.CircText

variable {M : Type} (μ : Meaning M)

/-! ### The reader is a function -/

mutual
theorem atom_mono (tight loose : Tok) : ∀ (n : ℕ) (ts : List Tok) (p : M × List Tok), atom μ tight loose n ts = some p → atom μ tight loose (n + 1) ts = some p
  | 0, ts, p, h => by unfold atom at h; cases h
  | n + 1, [], p, h => by simp [atom] at h
  | n + 1, t :: ts, p, h => by
    cases t <;> simp only [atom] at h ⊢ <;> try exact h
    all_goals
      obtain ⟨q, hq, h⟩ := Option.bind_eq_some_iff.mp h
      rw [expr_mono tight loose n ts q hq]
      exact h
theorem term_mono (tight loose : Tok) : ∀ (n : ℕ) (ts : List Tok) (p : M × List Tok), term μ tight loose n ts = some p → term μ tight loose (n + 1) ts = some p
  | 0, ts, p, h => by simp [term] at h
  | n + 1, ts, p, h => by
    simp only [term] at h ⊢
    obtain ⟨q, hq, h⟩ := Option.bind_eq_some_iff.mp h
    rw [atom_mono tight loose n ts q hq]
    exact termLoop_mono tight loose n _ _ _ h
theorem termLoop_mono (tight loose : Tok) : ∀ (n : ℕ) (x : M) (ts : List Tok) (p : M × List Tok), termLoop μ tight loose n x ts = some p →
    termLoop μ tight loose (n + 1) x ts = some p
  | 0, x, ts, p, h => by simp [termLoop] at h
  | n + 1, x, [], p, h => by simpa [termLoop] using h
  | n + 1, x, t :: ts, p, h => by
    simp only [termLoop] at h ⊢
    by_cases ht : t = tight
    · rw [if_pos ht] at h ⊢
      obtain ⟨q, hq, h⟩ := Option.bind_eq_some_iff.mp h
      rw [atom_mono tight loose n ts q hq]
      exact termLoop_mono tight loose n _ _ _ h
    · rw [if_neg ht] at h ⊢
      exact h
theorem expr_mono (tight loose : Tok) : ∀ (n : ℕ) (ts : List Tok) (p : M × List Tok), expr μ tight loose n ts = some p → expr μ tight loose (n + 1) ts = some p
  | 0, ts, p, h => by simp [expr] at h
  | n + 1, ts, p, h => by
    simp only [expr] at h ⊢
    obtain ⟨q, hq, h⟩ := Option.bind_eq_some_iff.mp h
    rw [term_mono tight loose n ts q hq]
    exact exprLoop_mono tight loose n _ _ _ h
theorem exprLoop_mono (tight loose : Tok) : ∀ (n : ℕ) (x : M) (ts : List Tok) (p : M × List Tok), exprLoop μ tight loose n x ts = some p →
    exprLoop μ tight loose (n + 1) x ts = some p
  | 0, x, ts, p, h => by simp [exprLoop] at h
  | n + 1, x, [], p, h => by simpa [exprLoop] using h
  | n + 1, x, t :: ts, p, h => by
    simp only [exprLoop] at h ⊢
    by_cases ht : t = loose
    · rw [if_pos ht] at h ⊢
      obtain ⟨q, hq, h⟩ := Option.bind_eq_some_iff.mp h
      rw [term_mono tight loose n ts q hq]
      exact exprLoop_mono tight loose n _ _ _ h
    · rw [if_neg ht] at h ⊢
      exact h
end

theorem expr_le (tight loose : Tok) (n m : ℕ) (h : n ≤ m) (ts : List Tok) (p : M × List Tok) (hp : expr μ tight loose n ts = some p) :
    expr μ tight loose m ts = some p := by
  induction h with
  | refl => exact hp
  | step _ ih => exact expr_mono μ tight loose _ ts p ih

/-- C84: a text has at most one meaning. -/
theorem C84_unambiguous (tight loose : Tok) (ts : List Tok) (x y : M) (hx : Reads μ tight loose ts x) (hy : Reads μ tight loose ts y) : x = y := by
  obtain ⟨n, hn⟩ := hx
  obtain ⟨m, hm⟩ := hy
  have h1 := expr_le μ tight loose n (max n m) (le_max_left _ _) ts _ hn
  have h2 := expr_le μ tight loose m (max n m) (le_max_right _ _) ts _ hm
  rw [h1] at h2
  injection h2 with h2
  exact congrArg Prod.fst h2

/-! ### Chains -/

/-- the text is read as an atom -/
def ReadsAtom (tight loose : Tok) (ts : List Tok) (x : M) : Prop := ∀ rest, ∃ N, ∀ n, N ≤ n → atom μ tight loose n (ts ++ rest) = some (x, rest)

/-- a non-empty chain of atoms with one sign -/
inductive Chain (tight loose : Tok) (op : Tok) : List Tok → M → Prop
  | single {ts x} : ReadsAtom μ tight loose ts x → Chain tight loose op ts x
  | cons {ts x ts' y} : ReadsAtom μ tight loose ts x → Chain tight loose op ts' y → Chain tight loose op (ts ++ op :: ts') (μ.ap op x y)

theorem ap_assoc (op : Tok) (x y z : M) : μ.ap op (μ.ap op x y) z = μ.ap op x (μ.ap op y z) := by
  unfold Meaning.ap
  split
  · exact μ.ser_assoc x y z
  · exact μ.con_assoc x y z

theorem Chain.append {tight loose op : Tok} {ts ts' : List Tok} {x y : M} (h : Chain μ tight loose op ts x) (h' : Chain μ tight loose op ts' y) :
    Chain μ tight loose op (ts ++ op :: ts') (μ.ap op x y) := by
  induction h with
  | single h => exact .cons h h'
  | cons h1 _ ih =>
    rw [ap_assoc, List.append_assoc, List.cons_append]
    exact .cons h1 ih

/-- a text after an expression: the end, or a closing bracket -/
def Closing : List Tok → Prop
  | [] => True
  | t :: _ => t ≠ .ser ∧ t ≠ .con

/-- the next sign is not `t` -/
def NotNext (t : Tok) : List Tok → Prop
  | [] => True
  | u :: _ => u ≠ t

theorem termLoop_stop (tight loose : Tok) (x : M) (rest : List Tok) (h : NotNext tight rest) (n : ℕ) (hn : 1 ≤ n) :
    termLoop μ tight loose n x rest = some (x, rest) := by
  obtain ⟨k, rfl⟩ : ∃ k, n = k + 1 := ⟨n - 1, by omega⟩
  cases rest with
  | nil => simp [termLoop]
  | cons t r =>
    simp only [termLoop]
    rw [if_neg h]

theorem exprLoop_stop (tight loose : Tok) (x : M) (rest : List Tok) (h : NotNext loose rest) (n : ℕ) (hn : 1 ≤ n) :
    exprLoop μ tight loose n x rest = some (x, rest) := by
  obtain ⟨k, rfl⟩ : ∃ k, n = k + 1 := ⟨n - 1, by omega⟩
  cases rest with
  | nil => simp [exprLoop]
  | cons t r =>
    simp only [exprLoop]
    rw [if_neg h]

/-- a chain of the tight sign is read by the loop of a term -/
theorem chain_termLoop {tight loose : Tok} {ts : List Tok} {x : M} (h : Chain μ tight loose tight ts x) : ∀ (a : M) (rest : List Tok),
    NotNext tight rest → ∃ N, ∀ n, N ≤ n → termLoop μ tight loose n a (tight :: ts ++ rest) = some (μ.ap tight a x, rest) := by
  induction h with
  | single h =>
    intro a rest hr
    obtain ⟨N, hN⟩ := h rest
    refine ⟨N + 2, fun n hn => ?_⟩
    obtain ⟨k, rfl⟩ : ∃ k, n = k + 1 := ⟨n - 1, by omega⟩
    simp only [List.cons_append, termLoop, if_true]
    rw [hN k (by omega)]
    exact termLoop_stop μ tight loose _ rest hr k (by omega)
  | cons h1 _ ih =>
    rename_i t1 x1 t2 y2 _
    intro a rest hr
    obtain ⟨N, hN⟩ := h1 (tight :: t2 ++ rest)
    obtain ⟨N', hN'⟩ := ih (μ.ap tight a x1) rest hr
    refine ⟨N + N' + 2, fun n hn => ?_⟩
    obtain ⟨k, rfl⟩ : ∃ k, n = k + 1 := ⟨n - 1, by omega⟩
    simp only [List.cons_append, termLoop, if_true]
    rw [show t1 ++ tight :: t2 ++ rest = t1 ++ (tight :: t2 ++ rest) by simp, hN k (by omega)]
    dsimp only [Option.bind]
    rw [hN' k (by omega), ap_assoc]

theorem chain_term {tight loose : Tok} {ts : List Tok} {x : M} (h : Chain μ tight loose tight ts x) (rest : List Tok) (hr : NotNext tight rest) :
    ∃ N, ∀ n, N ≤ n → term μ tight loose n (ts ++ rest) = some (x, rest) := by
  cases h with
  | single h =>
    obtain ⟨N, hN⟩ := h rest
    refine ⟨N + 2, fun n hn => ?_⟩
    obtain ⟨k, rfl⟩ : ∃ k, n = k + 1 := ⟨n - 1, by omega⟩
    simp only [term]
    rw [hN k (by omega)]
    exact termLoop_stop μ tight loose _ rest hr k (by omega)
  | cons h1 h2 =>
    rename_i t1 x1 t2 y2
    obtain ⟨N, hN⟩ := h1 (tight :: t2 ++ rest)
    obtain ⟨N', hN'⟩ := chain_termLoop μ h2 x1 rest hr
    refine ⟨N + N' + 2, fun n hn => ?_⟩
    obtain ⟨k, rfl⟩ : ∃ k, n = k + 1 := ⟨n - 1, by omega⟩
    simp only [term]
    rw [show t1 ++ tight :: t2 ++ rest = t1 ++ (tight :: t2 ++ rest) by simp, hN k (by omega)]
    exact hN' k (by omega)

/-- an atom is a term -/
theorem atom_term {tight loose : Tok} {ts : List Tok} {x : M} (h : ReadsAtom μ tight loose ts x) (rest : List Tok) (hr : NotNext tight rest) :
    ∃ N, ∀ n, N ≤ n → term μ tight loose n (ts ++ rest) = some (x, rest) := chain_term μ (Chain.single h) rest hr

theorem chain_exprLoop {tight loose : Tok} (hne : loose ≠ tight) {ts : List Tok} {x : M} (h : Chain μ tight loose loose ts x) : ∀ (a : M) (rest : List Tok),
    NotNext tight rest → NotNext loose rest → ∃ N, ∀ n, N ≤ n → exprLoop μ tight loose n a (loose :: ts ++ rest) = some (μ.ap loose a x, rest) := by
  induction h with
  | single h =>
    intro a rest hr hr'
    obtain ⟨N, hN⟩ := atom_term μ h rest hr
    refine ⟨N + 2, fun n hn => ?_⟩
    obtain ⟨k, rfl⟩ : ∃ k, n = k + 1 := ⟨n - 1, by omega⟩
    simp only [List.cons_append, exprLoop, if_true]
    rw [hN k (by omega)]
    exact exprLoop_stop μ tight loose _ rest hr' k (by omega)
  | cons h1 _ ih =>
    rename_i t1 x1 t2 y2 _
    intro a rest hr hr'
    obtain ⟨N, hN⟩ := atom_term μ h1 (loose :: t2 ++ rest) hne
    obtain ⟨N', hN'⟩ := ih (μ.ap loose a x1) rest hr hr'
    refine ⟨N + N' + 2, fun n hn => ?_⟩
    obtain ⟨k, rfl⟩ : ∃ k, n = k + 1 := ⟨n - 1, by omega⟩
    simp only [List.cons_append, exprLoop, if_true]
    rw [show t1 ++ loose :: t2 ++ rest = t1 ++ (loose :: t2 ++ rest) by simp, hN k (by omega)]
    dsimp only [Option.bind]
    rw [hN' k (by omega), ap_assoc]

/-- the text is read as an expression before a closing bracket -/
def ReadsExpr (tight loose : Tok) (ts : List Tok) (x : M) : Prop := ∀ rest, Closing rest → ∃ N, ∀ n, N ≤ n → expr μ tight loose n (ts ++ rest) = some (x, rest)

/-- the two signs, in some order -/
def Signs (tight loose : Tok) : Prop := (tight = .con ∧ loose = .ser) ∨ (tight = .ser ∧ loose = .con)

theorem closing_notNext {tight loose : Tok} (hs : Signs tight loose) {rest : List Tok} (h : Closing rest) : NotNext tight rest ∧ NotNext loose rest := by
  cases rest with
  | nil => exact ⟨trivial, trivial⟩
  | cons t r =>
    obtain ⟨h1, h2⟩ := h
    rcases hs with ⟨rfl, rfl⟩ | ⟨rfl, rfl⟩
    · exact ⟨h2, h1⟩
    · exact ⟨h1, h2⟩

theorem chain_expr {tight loose : Tok} (hs : Signs tight loose) {op : Tok} (hop : op = .ser ∨ op = .con) {ts : List Tok} {x : M}
    (h : Chain μ tight loose op ts x) : ReadsExpr μ tight loose ts x := by
  intro rest hc
  obtain ⟨hr, hr'⟩ := closing_notNext hs hc
  have hne : loose ≠ tight := by rcases hs with ⟨rfl, rfl⟩ | ⟨rfl, rfl⟩ <;> simp
  have hop' : op = tight ∨ op = loose := by
    rcases hs with ⟨rfl, rfl⟩ | ⟨rfl, rfl⟩ <;> rcases hop with rfl | rfl <;> simp
  rcases hop' with rfl | rfl
  · obtain ⟨N, hN⟩ := chain_term μ h rest hr
    refine ⟨N + 2, fun n hn => ?_⟩
    obtain ⟨k, rfl⟩ : ∃ k, n = k + 1 := ⟨n - 1, by omega⟩
    simp only [expr]
    rw [hN k (by omega)]
    exact exprLoop_stop μ _ loose _ rest hr' k (by omega)
  · cases h with
    | single h =>
      obtain ⟨N, hN⟩ := atom_term μ h rest hr
      refine ⟨N + 2, fun n hn => ?_⟩
      obtain ⟨k, rfl⟩ : ∃ k, n = k + 1 := ⟨n - 1, by omega⟩
      simp only [expr]
      rw [hN k (by omega)]
      exact exprLoop_stop μ tight _ _ rest hr' k (by omega)
    | cons h1 h2 =>
      rename_i t1 x1 t2 y2
      obtain ⟨N, hN⟩ := atom_term μ h1 (op :: t2 ++ rest) hne
      obtain ⟨N', hN'⟩ := chain_exprLoop μ hne h2 x1 rest hr hr'
      refine ⟨N + N' + 2, fun n hn => ?_⟩
      obtain ⟨k, rfl⟩ : ∃ k, n = k + 1 := ⟨n - 1, by omega⟩
      simp only [expr]
      rw [show t1 ++ op :: t2 ++ rest = t1 ++ (op :: t2 ++ rest) by simp, hN k (by omega)]
      exact hN' k (by omega)

theorem paren_atom {tight loose : Tok} {ts : List Tok} {x : M} (h : ReadsExpr μ tight loose ts x) : ReadsAtom μ tight loose (paren ts) x := by
  intro rest
  obtain ⟨N, hN⟩ := h (.rp :: rest) ⟨by simp, by simp⟩
  refine ⟨N + 1, fun n hn => ?_⟩
  obtain ⟨k, rfl⟩ : ∃ k, n = k + 1 := ⟨n - 1, by omega⟩
  simp only [paren, List.cons_append, atom]
  rw [show ts ++ [Tok.rp] ++ rest = ts ++ (.rp :: rest) by simp, hN k (by omega)]
  rfl

theorem fb_atom {tight loose : Tok} {ts : List Tok} {x : M} (h : ReadsExpr μ tight loose ts x) (o i : ℕ) :
    ReadsAtom μ tight loose (.lb :: ts ++ [.fbr o i]) (μ.fb x o i) := by
  intro rest
  obtain ⟨N, hN⟩ := h (.fbr o i :: rest) ⟨by simp, by simp⟩
  refine ⟨N + 1, fun n hn => ?_⟩
  obtain ⟨k, rfl⟩ : ∃ k, n = k + 1 := ⟨n - 1, by omega⟩
  simp only [List.cons_append, atom]
  rw [show ts ++ [Tok.fbr o i] ++ rest = ts ++ (.fbr o i :: rest) by simp, hN k (by omega)]
  rfl

theorem inv_atom {tight loose : Tok} {ts : List Tok} {x : M} (h : ReadsExpr μ tight loose ts x) :
    ReadsAtom μ tight loose (.lb :: ts ++ [.invr]) (μ.inv x) := by
  intro rest
  obtain ⟨N, hN⟩ := h (.invr :: rest) ⟨by simp, by simp⟩
  refine ⟨N + 1, fun n hn => ?_⟩
  obtain ⟨k, rfl⟩ : ∃ k, n = k + 1 := ⟨n - 1, by omega⟩
  simp only [List.cons_append, atom]
  rw [show ts ++ [Tok.invr] ++ rest = ts ++ (.invr :: rest) by simp, hN k (by omega)]
  rfl

theorem tok_atom {tight loose : Tok} {t : Tok} {x : M} (h : ∀ n ts, atom μ tight loose (n + 1) (t :: ts) = some (x, ts)) : ReadsAtom μ tight loose [t] x := by
  intro rest
  refine ⟨1, fun n hn => ?_⟩
  obtain ⟨k, rfl⟩ : ∃ k, n = k + 1 := ⟨n - 1, by omega⟩
  exact h k rest

/-! ### Printing -/

theorem join_cons (sep : Tok) (x : List Tok) (l : List (List Tok)) (h : l ≠ []) : join sep (x :: l) = x ++ sep :: join sep l := by
  cases l with
  | nil => exact absurd rfl h
  | cons y l => rfl

theorem denSer_cons (e : Ex) (l : List Ex) (h : l ≠ []) : denSer μ (e :: l) = μ.ser (den μ e) (denSer μ l) := by
  cases l with
  | nil => exact absurd rfl h
  | cons y l => simp only [denSer]

theorem denCon_cons (e : Ex) (l : List Ex) (h : l ≠ []) : denCon μ (e :: l) = μ.con (den μ e) (denCon μ l) := by
  cases l with
  | nil => exact absurd rfl h
  | cons y l => simp only [denCon]

/-- what is proved of an expression: the kind of its text -/
def Good (tight loose : Tok) (e : Ex) : Prop :=
  (e.isSer = true → Chain μ tight loose .ser (pp e) (den μ e)) ∧ (e.isCon = true → Chain μ tight loose .con (pp e) (den μ e)) ∧
  (e.isSer = false → e.isCon = false → ReadsAtom μ tight loose (pp e) (den μ e))

theorem Good.expr {tight loose : Tok} (hs : Signs tight loose) {e : Ex} (h : Good μ tight loose e) : ReadsExpr μ tight loose (pp e) (den μ e) := by
  obtain ⟨h1, h2, h3⟩ := h
  cases hser : e.isSer with
  | true => exact chain_expr μ hs (Or.inl rfl) (h1 hser)
  | false =>
    cases hcon : e.isCon with
    | true => exact chain_expr μ hs (Or.inr rfl) (h2 hcon)
    | false => exact chain_expr μ hs (Or.inl rfl) (.single (h3 hser hcon))

theorem Good.inSer {tight loose : Tok} (hs : Signs tight loose) {e : Ex} (h : Good μ tight loose e) :
    Chain μ tight loose .ser (if e.isCon then paren (pp e) else pp e) (den μ e) := by
  cases hcon : e.isCon with
  | true => exact .single (paren_atom μ (h.expr μ hs))
  | false =>
    cases hser : e.isSer with
    | true => exact h.1 hser
    | false => exact .single (h.2.2 hser hcon)

theorem Good.inCon {tight loose : Tok} (hs : Signs tight loose) {e : Ex} (h : Good μ tight loose e) :
    Chain μ tight loose .con (if e.isSer then paren (pp e) else pp e) (den μ e) := by
  cases hser : e.isSer with
  | true => exact .single (paren_atom μ (h.expr μ hs))
  | false =>
    cases hcon : e.isCon with
    | true => exact h.2.1 hcon
    | false => exact .single (h.2.2 hser hcon)

theorem ppSer_ne (l : List Ex) (h : l ≠ []) : ppSer l ≠ [] := by
  cases l with
  | nil => exact absurd rfl h
  | cons e l => simp [ppSer]

theorem ppCon_ne (c : ℕ) (l : List Ex) (h : c ≠ 0 ∨ l ≠ []) : ppCon c l ≠ [] := by
  induction l generalizing c with
  | nil =>
    rcases h with h | h
    · simp [ppCon, pending, h]
    · exact absurd rfl h
  | cons e l ih =>
    unfold ppCon
    split
    · exact ih _ (Or.inl (by omega))
    · simp

theorem chain_ser {tight loose : Tok} (hs : Signs tight loose) : ∀ l : List Ex, l ≠ [] → (∀ e ∈ l, Good μ tight loose e) →
    Chain μ tight loose .ser (join .ser (ppSer l)) (denSer μ l)
  | [], h, _ => absurd rfl h
  | [e], _, hg => by
    simp only [ppSer, join, denSer]
    exact (hg e (by simp)).inSer μ hs
  | e :: f :: l, _, hg => by
    rw [denSer_cons μ e _ (by simp)]
    rw [show ppSer (e :: f :: l) = (if e.isCon then paren (pp e) else pp e) :: ppSer (f :: l) by rw [ppSer]]
    rw [join_cons _ _ _ (ppSer_ne _ (by simp))]
    have := Chain.append μ ((hg e (by simp)).inSer μ hs) (chain_ser hs (f :: l) (by simp) (fun x hx => hg x (List.mem_cons_of_mem _ hx)))
    exact this

/-- the value of a concatenation after `c` identities -/
def denPend (c : ℕ) (l : List Ex) : M := if l = [] then μ.cid c else if c = 0 then denCon μ l else μ.con (μ.cid c) (denCon μ l)

theorem denPend_one (c : ℕ) (l : List Ex) : denPend μ c (.one :: l) = denPend μ (c + 1) l := by
  unfold denPend
  rw [if_neg (by simp)]
  cases l with
  | nil =>
    simp only [if_true]
    split
    · rename_i h; subst h; simp [denCon, den]
    · simp [denCon, den, μ.con_cid]
  | cons e l =>
    have hd : (if c + 1 = 0 then denCon μ (e :: l) else μ.con (μ.cid (c + 1)) (denCon μ (e :: l))) = μ.con (μ.cid (c + 1)) (denCon μ (e :: l)) := if_neg (by omega)
    have hd' : (if e :: l = [] then μ.cid (c + 1) else if c + 1 = 0 then denCon μ (e :: l) else μ.con (μ.cid (c + 1)) (denCon μ (e :: l)))
      = μ.con (μ.cid (c + 1)) (denCon μ (e :: l)) := by rw [if_neg (by simp), hd]
    rw [hd', denCon_cons μ .one _ (by simp)]
    by_cases hc : c = 0
    · subst hc; simp [den]
    · rw [if_neg hc]
      simp only [den]
      rw [← μ.con_assoc, μ.con_cid]

theorem cid_atom (tight loose : Tok) (c : ℕ) : ReadsAtom μ tight loose [.cid c] (μ.cid c) := tok_atom μ (fun n ts => by simp [atom])

theorem chain_con {tight loose : Tok} (hs : Signs tight loose) : ∀ (l : List Ex) (c : ℕ), c ≠ 0 ∨ l ≠ [] → (∀ e ∈ l, Good μ tight loose e) →
    Chain μ tight loose .con (join .con (ppCon c l)) (denPend μ c l) := by
  intro l
  induction l with
  | nil =>
    intro c h _
    have hc : c ≠ 0 := by rcases h with h | h; exact h; exact absurd rfl h
    simp only [ppCon, pending, if_neg hc, join, denPend, if_true]
    exact .single (cid_atom μ tight loose c)
  | cons e l ih =>
    intro c _ hg
    unfold ppCon
    by_cases h1 : e.isOne = true
    · rw [if_pos h1]
      have : e = .one := by cases e <;> simp [Ex.isOne] at h1; rfl
      subst this
      rw [denPend_one]
      exact ih (c + 1) (Or.inl (by omega)) (fun x hx => hg x (List.mem_cons_of_mem _ hx))
    · rw [if_neg h1]
      have he := (hg e (by simp)).inCon μ hs
      have htail : Chain μ tight loose .con (join .con ((if e.isSer then paren (pp e) else pp e) :: ppCon 0 l)) (denCon μ (e :: l)) := by
        cases l with
        | nil =>
          simp only [ppCon, pending, if_true, join, denCon]
          exact he
        | cons f l =>
          rw [join_cons _ _ _ (ppCon_ne 0 _ (Or.inr (by simp))), denCon_cons μ e _ (by simp)]
          have h2 := ih 0 (Or.inr (by simp)) (fun x hx => hg x (List.mem_cons_of_mem _ hx))
          unfold denPend at h2
          rw [if_neg (by simp), if_pos rfl] at h2
          exact Chain.append μ he h2
      have hd : denPend μ c (e :: l) = if c = 0 then denCon μ (e :: l) else μ.con (μ.cid c) (denCon μ (e :: l)) := if_neg (by simp)
      rw [hd]
      by_cases hc : c = 0
      · rw [if_pos hc]
        simp only [pending, if_pos hc, List.nil_append]
        exact htail
      · rw [if_neg hc]
        simp only [pending, if_neg hc, List.singleton_append]
        rw [join_cons _ _ _ (by simp)]
        exact Chain.append μ (Chain.single (cid_atom μ tight loose c)) htail

theorem good {tight loose : Tok} (hs : Signs tight loose) : ∀ e : Ex, e.wf → Good μ tight loose e
  | .sym a d, _ => ⟨by simp [Ex.isSer], by simp [Ex.isCon], fun _ _ => by
      simp only [pp, den]; exact tok_atom μ (fun n ts => by simp [atom])⟩
  | .perm p, _ => ⟨by simp [Ex.isSer], by simp [Ex.isCon], fun _ _ => by
      simp only [pp, den]; exact tok_atom μ (fun n ts => by simp [atom])⟩
  | .one, _ => ⟨by simp [Ex.isSer], by simp [Ex.isCon], fun _ _ => by
      simp only [pp, den]; exact tok_atom μ (fun n ts => by simp [atom])⟩
  | .zero, _ => ⟨by simp [Ex.isSer], by simp [Ex.isCon], fun _ _ => by
      simp only [pp, den]; exact tok_atom μ (fun n ts => by simp [atom])⟩
  | .ser l, h => ⟨fun _ => by
      simp only [Ex.wf] at h
      simp only [pp, den]
      exact chain_ser μ hs l h.1 (fun e he => good hs e (h.2 e he)), by simp [Ex.isCon], by simp [Ex.isSer]⟩
  | .con l, h => ⟨by simp [Ex.isSer], fun _ => by
      simp only [Ex.wf] at h
      simp only [pp, den]
      have := chain_con μ hs l 0 (Or.inr h.1) (fun e he => good hs e (h.2 e he))
      unfold denPend at this
      rw [if_neg h.1, if_pos rfl] at this
      exact this, by simp [Ex.isCon]⟩
  | .fb e o i, h => ⟨by simp [Ex.isSer], by simp [Ex.isCon], fun _ _ => by
      simp only [Ex.wf] at h
      simp only [pp, den]
      exact fb_atom μ ((good hs e h).expr μ hs) o i⟩
  | .inv e, h => ⟨by simp [Ex.isSer], by simp [Ex.isCon], fun _ _ => by
      simp only [Ex.wf] at h
      simp only [pp, den]
      exact inv_atom μ ((good hs e h).expr μ hs)⟩

/-- C84 (partial: for texts as sequences of pieces, and symbols known by label and arguments; see the refutations below): the text of a circuit,
read by the usual rules, means that circuit - whether `<<` or `+` is taken to bind tighter. In Python, `+` binds tighter than `<<`. -/
theorem C84_reads_partial (tight loose : Tok) (hs : Signs tight loose) (e : Ex) (h : e.wf) : Reads μ tight loose (pp e) (den μ e) := by
  obtain ⟨N, hN⟩ := (good μ hs e h).expr μ hs [] trivial
  refine ⟨N, ?_⟩
  have := hN N (le_refl _)
  rwa [List.append_nil] at this

/-- C84: circuits with the same sequence of pieces are the same circuit, for every meaning of the symbols. -/
theorem C84_same_text (e e' : Ex) (h : e.wf) (h' : e'.wf) (hp : pp e = pp e') : den μ e = den μ e' := by
  have h1 := C84_reads_partial μ .con .ser (Or.inl ⟨rfl, rfl⟩) e h
  have h2 := C84_reads_partial μ .con .ser (Or.inl ⟨rfl, rfl⟩) e' h'
  rw [hp] at h1
  exact C84_unambiguous μ _ _ _ _ _ h1 h2

/-! ### The meaning as SLH triples -/

section slh

variable {A : Type} [Ring A] [StarRing A] [Algebra ℂ A] [StarModule ℂ A]

theorem passThrough_physical (n : ℕ) : SLH.Physical (SLH.passThrough n : SLH A) :=
  ⟨(SLH.passThrough_unitary n).1, (SLH.passThrough_unitary n).2, by simp [SLH.passThrough, SLH.mk']⟩

theorem passThrough_concat (m n : ℕ) : SLH.concat (SLH.passThrough m) (SLH.passThrough n) = (SLH.passThrough (m + n) : SLH A) := by
  apply SLH.toAff_inj
  rw [SLH.toAff_concat, SLH.toAff_passThrough, SLH.toAff_passThrough, SLH.toAff_passThrough, Aff.one_concat_one]

open Classical QNET.SLH in
/-- The meaning of circuits as physical SLH triples; `none` if the circuit does not exist, because numbers of channels do not agree, or a loop is
not well posed. -/
noncomputable def slhMeaning (sym : Name → Option {s : SLH A // Physical s}) : Meaning (Option {s : SLH A // Physical s}) where
  sym := sym
  perm := fun p => if h : QNET.Perm.IsBijection p then some ⟨ofPerm p, C15_perm h⟩ else none
  cid := fun n => some ⟨passThrough n, passThrough_physical n⟩
  ser := fun a b => match a, b with
    | some a, some b => if h : a.1.n = b.1.n then some ⟨series a.1 b.1, C15_series h a.2 b.2⟩ else none
    | _, _ => none
  con := fun a b => match a, b with
    | some a, some b => some ⟨concat a.1 b.1, C15_concat a.2 b.2⟩
    | _, _ => none
  fb := fun a o i => match a with
    | some a =>
      if h : o < a.1.n ∧ i < a.1.n ∧ ∃ b, feedback a.1 o i = .ok b then some ⟨h.2.2.choose, (C15_feedback h.1 h.2.1 a.2 h.2.2.choose_spec).1⟩ else none
    | none => none
  inv := fun a => a.map (fun a => ⟨inverse a.1, C15_inverse a.2⟩)
  ser_assoc := by
    intro a b c
    rcases a with _ | ⟨a, ha⟩
    · rfl
    rcases b with _ | ⟨b, hb⟩
    · cases c <;> rfl
    rcases c with _ | ⟨c, hc⟩
    · dsimp only
      by_cases h : a.n = b.n
      · rw [dif_pos h]
      · rw [dif_neg h]
    dsimp only
    by_cases h1 : a.n = b.n
    · by_cases h2 : b.n = c.n
      · have h3 : (series a b).n = c.n := h1.trans h2
        have h4 : a.n = (series b c).n := h1
        rw [dif_pos h1, dif_pos h2]
        dsimp only
        rw [dif_pos h3, dif_pos h4]
        congr 2
        exact C13_assoc h1 h2 ha.1 hb.1
      · have h3 : ¬ (series a b).n = c.n := fun h => h2 (h1.symm.trans h)
        rw [dif_pos h1, dif_neg h2]
        dsimp only
        rw [dif_neg h3]
    · rw [dif_neg h1]
      by_cases h2 : b.n = c.n
      · have h4 : ¬ a.n = (series b c).n := h1
        rw [dif_pos h2]
        dsimp only
        rw [dif_neg h4]
      · rw [dif_neg h2]
  con_assoc := by
    intro a b c
    rcases a with _ | ⟨a, ha⟩
    · rfl
    rcases b with _ | ⟨b, hb⟩
    · cases c <;> rfl
    rcases c with _ | ⟨c, hc⟩
    · rfl
    dsimp only
    congr 2
    exact C14_assoc a b c
  con_cid := by
    intro m n
    dsimp only
    congr 2
    exact passThrough_concat m n

/-- C84 (partial, as `C84_reads_partial`): in particular, the text of a circuit is read as the SLH triple of the circuit. -/
theorem C84_slh_partial (sym : Name → Option {s : SLH A // SLH.Physical s}) (tight loose : Tok) (hs : Signs tight loose) (e : Ex) (h : e.wf)
    (s : SLH A) (hphys : SLH.Physical s) (he : den (slhMeaning sym) e = some ⟨s, hphys⟩) (x : Option {s : SLH A // SLH.Physical s}) :
    Reads (slhMeaning sym) tight loose (pp e) x ↔ x = some ⟨s, hphys⟩ := by
  have h1 := C84_reads_partial (slhMeaning sym) tight loose hs e h
  rw [he] at h1
  exact ⟨fun hx => C84_unambiguous _ _ _ _ _ _ hx h1, fun hx => hx ▸ h1⟩

end slh

/-! ### Examples and refutations -/

/-- a symbol without arguments -/
def plain (c : Char) : Ex := .sym ⟨[c], []⟩ 1

/-- `((A << B) + cid(2)) << [[C + D]_{1->0} + P]^{-1}`: all kinds of nesting -/
def exCircuit : Ex := .ser [.con [.ser [plain 'A', plain 'B'], .one, .one], .inv (.con [.fb (.con [plain 'C', plain 'D']) 1 0, .perm [1, 0]])]

example : exCircuit.wf := by simp [exCircuit, plain, Ex.wf]

example : text (pp exCircuit) = ['(', '(', 'A', ' ', '<', '<', ' ', 'B', ')', ' ', '+', ' ', 'c', 'i', 'd', '(', '2', ')', ')', ' ', '<', '<', ' ',
    '[', '[', 'C', ' ', '+', ' ', 'D', ']', '_', '{', '1', '-', '>', '0', '}', ' ', '+', ' ', 'P', 'e', 'r', 'm', '(', '1', ',', ' ', '0', ')',
    ']', '^', '{', '-', '1', '}'] := by decide +kernel

/-- characters allowed after the underscore of a label -/
def subscriptChar (c : Char) : Bool := c.isAlphanum || c ∈ ['(', ')', '.', '+', '-']

/-- `CircuitSymbol._rx_label`, circuit_algebra.py line 590 -/
def labelOk (l : List Char) : Bool :=
  match l with
  | [] => false
  | c :: cs => c.isAlpha && (match cs.dropWhile Char.isAlphanum with
    | [] => true
    | d :: ds => d == '_' && ds != [] && ds.all subscriptChar)

/-- C84 refuted (for texts as sequences of characters): the symbol `CircuitSymbol('Perm', 1, 0, cdim=2)` is printed like the permutation (1, 0),
`CircuitSymbol('cid', 2, cdim=2)` like two pass-through channels, and the symbol `A_b` with the argument `x` like the symbol `A_b(x)`. -/
theorem C84_refuted_names :
    (labelOk ['P', 'e', 'r', 'm'] = true ∧ text (pp (.sym ⟨['P', 'e', 'r', 'm'], [['1'], ['0']]⟩ 2)) = text (pp (.perm [1, 0]))) ∧
    (labelOk ['c', 'i', 'd'] = true ∧ text (pp (.sym ⟨['c', 'i', 'd'], [['2']]⟩ 2)) = text (pp (.con [.one, .one]))) ∧
    (labelOk ['A', '_', 'b'] = true ∧ labelOk ['A', '_', 'b', '(', 'x', ')'] = true ∧
      text (pp (.sym ⟨['A', '_', 'b'], [['x']]⟩ 1)) = text (pp (.sym ⟨['A', '_', 'b', '(', 'x', ')'], []⟩ 1))) := by decide +kernel

/-- C84 refuted (the number of channels): symbols with the same label and arguments and any numbers of channels have the same text. -/
theorem C84_refuted_cdim (a : Name) (m n : ℕ) : pp (.sym a m) = pp (.sym a n) := by simp [pp]

end QNET.CircText
