import Verif.Print.Lex

/-!
# Python expressions: calls, literals, tuples and lists (specification for C71)
-/

namespace QNET.Print

/-- Python expressions. `lst comma l`: whether there is a comma after the last element (no difference for the value). -/
inductive Py where
  | word (w : Name)
  | neg (w : Name)
  | str (s : List Char)
  | call (f : Name) (args : List Py) (keys : List Name) (vals : List Py)
  | tup (l : List Py)
  | lst (comma : Bool) (l : List Py)

/-- join with `", "` -/
def joinC : List (List Tok) → List Tok
  | [] => []
  | [a] => a
  | a :: l => a ++ .sym ',' :: .ws ' ' :: joinC l

mutual
/-- the usual text of a Python expression on one line -/
def Py.toks : Py → List Tok
  | .word w => [.word w]
  | .neg w => [.sym '-', .word w]
  | .str s => [.str s]
  | .call f args keys vals => .word f :: .sym '(' :: (joinC (Py.toksList args ++ Py.toksKw keys vals) ++ [.sym ')'])
  | .tup l => .sym '(' :: (joinC (Py.toksList l) ++ (if l.length = 1 then [.sym ','] else []) ++ [.sym ')'])
  | .lst comma l => .sym '[' :: (joinC (Py.toksList l) ++ (if comma then [.sym ','] else []) ++ [.sym ']'])
def Py.toksList : List Py → List (List Tok)
  | [] => []
  | p :: l => p.toks :: Py.toksList l
def Py.toksKw : List Name → List Py → List (List Tok)
  | k :: ks, p :: l => (.word k :: .sym '=' :: p.toks) :: Py.toksKw ks l
  | _, _ => []
end

/-! ### Parser -/

mutual
/-- recursive descent; `n` bounds the depth of the recursion -/
def parseE : ℕ → List Tok → Option (Py × List Tok)
  | 0, _ => none
  | n + 1, .word w :: .sym '(' :: r => do
    let (as, ks, vs, r) ← parseArgs n r
    some (.call w as ks vs, r)
  | _ + 1, .word w :: r => some (.word w, r)
  | _ + 1, .sym '-' :: .word w :: r => some (.neg w, r)
  | _ + 1, .str s :: r => some (.str s, r)
  | n + 1, .sym '(' :: r => do
    let (l, comma, r) ← parseItems n ')' r
    if l.length = 1 ∧ comma = false then
      match l with
      | [p] => some (p, r)
      | _ => none
    else some (.tup l, r)
  | n + 1, .sym '[' :: r => do
    let (l, comma, r) ← parseItems n ']' r
    some (.lst comma l, r)
  | _ + 1, _ => none
/-- the items of a tuple or list, whether there is a trailing comma -/
def parseItems : ℕ → Char → List Tok → Option (List Py × Bool × List Tok)
  | 0, _, _ => none
  | n + 1, close, ts =>
    if ts.head? = some (.sym close) then some ([], false, ts.tail) else do
    let (p, r) ← parseE n ts
    match r with
    | .sym c :: r =>
      if c = close then some ([p], false, r) else if c = ',' then do
        let (l, comma, r) ← parseItems n close r
        some (p :: l, l.isEmpty || comma, r)
      else none
    | _ => none
/-- the arguments of a call; positional arguments first -/
def parseArgs : ℕ → List Tok → Option (List Py × List Name × List Py × List Tok)
  | 0, _ => none
  | _ + 1, .sym ')' :: r => some ([], [], [], r)
  | n + 1, .word k :: .sym '=' :: ts => do
    let (p, r) ← parseE n ts
    match r with
    | .sym ')' :: r => some ([], [k], [p], r)
    | .sym ',' :: r => do
      let (as, ks, vs, r) ← parseArgs n r
      if as.isEmpty then some ([], k :: ks, p :: vs, r) else none
    | _ => none
  | n + 1, ts => do
    let (p, r) ← parseE n ts
    match r with
    | .sym ')' :: r => some ([p], [], [], r)
    | .sym ',' :: r => do
      let (as, ks, vs, r) ← parseArgs n r
      some (p :: as, ks, vs, r)
    | _ => none
end

/-- the Python expression with the given source text -/
def parse (s : List Char) : Option Py := do
  let ts ← lex s
  let (p, r) ← parseE (2 * ts.length + 2) ts
  if r.isEmpty then some p else none

/-! ### Parsing the usual text gives the expression -/

def ValidName (w : Name) : Prop := (Tok.word w).Valid

mutual
/-- words are well-formed; lists have a trailing comma only if they have elements; keywords and values correspond -/
def Py.Ok : Py → Prop
  | .word w => ValidName w
  | .neg w => ValidName w
  | .str _ => True
  | .call f args keys vals => ValidName f ∧ Py.OkList args ∧ keys.length = vals.length ∧ (∀ k ∈ keys, ValidName k) ∧ Py.OkList vals
  | .tup l => Py.OkList l
  | .lst comma l => (comma = true → l ≠ []) ∧ Py.OkList l
def Py.OkList : List Py → Prop
  | [] => True
  | p :: l => p.Ok ∧ Py.OkList l
end

/-- the tokens after an item: the text continues with a comma or a closing bracket -/
def Stop (r : List Tok) : Prop := ∃ c r', r = .sym c :: r' ∧ (c = ',' ∨ c = ')' ∨ c = ']')

theorem nw_sym (c : Char) (l : List Tok) : nw (.sym c :: l) = .sym c :: nw l := rfl
theorem nw_word (c : Name) (l : List Tok) : nw (.word c :: l) = .word c :: nw l := rfl
theorem nw_str (c : List Char) (l : List Tok) : nw (.str c :: l) = .str c :: nw l := rfl
theorem nw_ws (c : Char) (l : List Tok) : nw (.ws c :: l) = nw l := rfl
theorem nw_nil : nw [] = [] := rfl

/-- the tokens of a list of items without white space -/
def commas : List (List Tok) → List Tok
  | [] => []
  | [a] => a
  | a :: l => a ++ .sym ',' :: commas l

theorem nw_joinC : ∀ l : List (List Tok), nw (joinC l) = commas (l.map nw)
  | [] => rfl
  | [a] => rfl
  | a :: b :: l => by
    rw [joinC, nw_append, nw_sym, nw_ws, nw_joinC (b :: l)]
    · rfl
    · simp

mutual
/-- the tokens of an expression, without white space -/
def Py.ts : Py → List Tok
  | .word w => [.word w]
  | .neg w => [.sym '-', .word w]
  | .str s => [.str s]
  | .call f args keys vals => .word f :: .sym '(' :: (commas (Py.tsList args ++ Py.tsKw keys vals) ++ [.sym ')'])
  | .tup l => .sym '(' :: (commas (Py.tsList l) ++ (if l.length = 1 then [.sym ','] else []) ++ [.sym ')'])
  | .lst comma l => .sym '[' :: (commas (Py.tsList l) ++ (if comma then [.sym ','] else []) ++ [.sym ']'])
def Py.tsList : List Py → List (List Tok)
  | [] => []
  | p :: l => p.ts :: Py.tsList l
def Py.tsKw : List Name → List Py → List (List Tok)
  | k :: ks, p :: l => (.word k :: .sym '=' :: p.ts) :: Py.tsKw ks l
  | _, _ => []
end

mutual
theorem nw_toks : ∀ p : Py, nw p.toks = p.ts
  | .word w => rfl
  | .neg w => rfl
  | .str s => rfl
  | .call f args keys vals => by
    rw [Py.toks, Py.ts, nw_word, nw_sym, nw_append, nw_joinC, List.map_append, nw_toksList args, nw_toksKw keys vals]
    rfl
  | .tup l => by
    rw [Py.toks, Py.ts, nw_sym, nw_append, nw_append, nw_joinC, nw_toksList l]
    split <;> rfl
  | .lst comma l => by
    rw [Py.toks, Py.ts, nw_sym, nw_append, nw_append, nw_joinC, nw_toksList l]
    split <;> rfl
theorem nw_toksList : ∀ l : List Py, (Py.toksList l).map nw = Py.tsList l
  | [] => rfl
  | p :: l => by rw [Py.toksList, Py.tsList, List.map_cons, nw_toks p, nw_toksList l]
theorem nw_toksKw : ∀ (ks : List Name) (l : List Py), (Py.toksKw ks l).map nw = Py.tsKw ks l
  | k :: ks, p :: l => by rw [Py.toksKw, Py.tsKw, List.map_cons, nw_word, nw_sym, nw_toks p, nw_toksKw ks l]
  | [], l => by simp [Py.toksKw, Py.tsKw]
  | _ :: _, [] => by simp [Py.toksKw, Py.tsKw]
end

/-! first tokens -/

/-- tokens an expression can begin with -/
def Starts (t : Tok) : Prop := (∃ w, t = .word w) ∨ (∃ s, t = .str s) ∨ t = .sym '-' ∨ t = .sym '(' ∨ t = .sym '['

theorem Py.ts_start (p : Py) : ∃ t r, p.ts = t :: r ∧ Starts t := by
  cases p with
  | word w => exact ⟨_, _, rfl, .inl ⟨_, rfl⟩⟩
  | neg w => exact ⟨_, _, rfl, .inr (.inr (.inl rfl))⟩
  | str s => exact ⟨_, _, rfl, .inr (.inl ⟨_, rfl⟩)⟩
  | call f a k v => exact ⟨_, _, by rw [Py.ts], .inl ⟨_, rfl⟩⟩
  | tup l => exact ⟨_, _, by rw [Py.ts], .inr (.inr (.inr (.inl rfl)))⟩
  | lst c l => exact ⟨_, _, by rw [Py.ts], .inr (.inr (.inr (.inr rfl)))⟩

theorem Starts.not_close {t : Tok} (h : Starts t) {c : Char} (hc : c = ')' ∨ c = ']' ∨ c = ',') : t ≠ .sym c := by
  rintro rfl
  rcases h with ⟨w, h⟩ | ⟨s, h⟩ | h | h | h <;> cases h <;> rcases hc with h | h | h <;> revert h <;> decide

/-! size -/

theorem tsList_ne {p : Py} : 0 < p.ts.length := by
  obtain ⟨t, r, h, -⟩ := p.ts_start
  rw [h]; simp

theorem commas_cons (a : List Tok) (l : List (List Tok)) : commas (a :: l) = a ++ (match l with | [] => [] | _ => .sym ',' :: commas l) := by
  cases l with
  | nil => simp [commas]
  | cons b l => rfl

theorem parseArgs_step (n : ℕ) (ts : List Tok) (h1 : ∀ r, ts ≠ .sym ')' :: r) (h2 : ∀ k r, ts ≠ .word k :: .sym '=' :: r) :
    parseArgs (n + 1) ts = (do
      let (p, r) ← parseE n ts
      match r with
      | .sym ')' :: r => some ([p], [], [], r)
      | .sym ',' :: r => do
        let (as, ks, vs, r) ← parseArgs n r
        some (p :: as, ks, vs, r)
      | _ => none) := by
  rw [parseArgs]
  · exact fun r h => h1 r h
  · exact fun k r h => h2 k r h

theorem parseE_word (n : ℕ) (w : Name) (r : List Tok) (h : ∀ r', r ≠ .sym '(' :: r') : parseE (n + 1) (.word w :: r) = some (.word w, r) := by
  rw [parseE]
  exact fun r' h' => h r' (by simpa using h')

theorem Stop.not_open {r : List Tok} (h : Stop r) : (∀ r', r ≠ .sym '(' :: r') ∧ ∀ r', r ≠ .sym '=' :: r' := by
  obtain ⟨c, r', rfl, h⟩ := h
  refine ⟨fun r'' e => ?_, fun r'' e => ?_⟩ <;> injection e with e <;> injection e with e <;> subst e <;> rcases h with h | h | h <;> revert h <;> decide

/-- an expression in positional position does not look like a keyword argument -/
theorem Py.ts_not_keyword (p : Py) (r : List Tok) (hr : ∀ r', r ≠ .sym '=' :: r') : ∀ k r', p.ts ++ r ≠ .word k :: .sym '=' :: r' := by
  intro k r'
  cases p with
  | word w => intro h; simp only [Py.ts, List.cons_append, List.nil_append, List.cons.injEq] at h; exact hr _ h.2
  | neg w => intro h; simp [Py.ts] at h
  | str s => intro h; simp [Py.ts] at h
  | call f a k v => intro h; simp [Py.ts] at h
  | tup l => intro h; simp [Py.ts] at h
  | lst c l => intro h; simp [Py.ts] at h

mutual
theorem parseE_ts : ∀ (p : Py) (n : ℕ) (r : List Tok), p.Ok → (∀ r', r ≠ .sym '(' :: r') → 2 * p.ts.length ≤ n → parseE n (p.ts ++ r) = some (p, r)
  | .word w, n, r, _, hr, hn => by
    obtain ⟨n, rfl⟩ := Nat.exists_eq_add_of_le' (show 1 ≤ n by simp [Py.ts] at hn; omega)
    exact parseE_word n w r hr
  | .neg w, n, r, _, _, hn => by
    obtain ⟨n, rfl⟩ := Nat.exists_eq_add_of_le' (show 1 ≤ n by simp [Py.ts] at hn; omega)
    simp [Py.ts, parseE]
  | .str s, n, r, _, _, hn => by
    obtain ⟨n, rfl⟩ := Nat.exists_eq_add_of_le' (show 1 ≤ n by simp [Py.ts] at hn; omega)
    simp [Py.ts, parseE]
  | .call f args keys vals, n, r, h, _, hn => by
    rw [Py.Ok] at h
    rw [Py.ts, List.length_cons, List.length_cons, List.length_append] at hn
    obtain ⟨n, rfl⟩ := Nat.exists_eq_add_of_le' (show 1 ≤ n by omega)
    rw [Py.ts, List.cons_append, List.cons_append, List.append_assoc, List.singleton_append, parseE,
      parseArgs_ts args keys vals n r h.2.1 h.2.2.1 h.2.2.2.2 (by simp at hn; omega)]
    rfl
  | .tup l, n, r, h, _, hn => by
    rw [Py.Ok] at h
    rw [Py.ts, List.length_cons, List.length_append, List.length_append] at hn
    obtain ⟨n, rfl⟩ := Nat.exists_eq_add_of_le' (show 1 ≤ n by omega)
    have := parseItems_ts l ')' (.inl rfl) (decide (l.length = 1)) n r h (fun e he => by simp [he] at e) (by
      by_cases h1 : l.length = 1 <;> simp [h1] at hn ⊢ <;> omega)
    rw [Py.ts, List.cons_append, List.append_assoc, List.append_assoc, List.singleton_append, parseE]
    simp only [decide_eq_true_eq] at this
    rw [this]
    by_cases h1 : l.length = 1
    · simp [h1]
    · simp [h1]
  | .lst comma l, n, r, h, _, hn => by
    rw [Py.Ok] at h
    rw [Py.ts, List.length_cons, List.length_append, List.length_append] at hn
    obtain ⟨n, rfl⟩ := Nat.exists_eq_add_of_le' (show 1 ≤ n by omega)
    have := parseItems_ts l ']' (.inr rfl) comma n r h.2 h.1 (by
      cases comma <;> simp at hn ⊢ <;> omega)
    rw [Py.ts, List.cons_append, List.append_assoc, List.append_assoc, List.singleton_append, parseE, this]
    rfl
  termination_by p => (sizeOf p, 0)
  decreasing_by all_goals (simp_wf; omega)
theorem parseItems_ts : ∀ (l : List Py) (close : Char), (close = ')' ∨ close = ']') → ∀ (comma : Bool) (n : ℕ) (r : List Tok), Py.OkList l → (comma = true → l ≠ []) →
    2 * ((commas (Py.tsList l)).length + (if comma then 1 else 0)) + 1 ≤ n →
    parseItems n close (commas (Py.tsList l) ++ ((if comma = true then [.sym ','] else []) ++ .sym close :: r)) = some (l, comma, r)
  | [], close, hc, comma, n, r, _, h, hn => by
    obtain ⟨n, rfl⟩ := Nat.exists_eq_add_of_le' (show 1 ≤ n by omega)
    have : comma = false := by
      cases comma with
      | false => rfl
      | true => exact absurd rfl (h rfl)
    subst this
    simp [Py.tsList, commas, parseItems]
  | [p], close, hc, comma, n, r, hok, h, hn => by
    rw [Py.OkList] at hok
    simp only [Py.tsList, commas] at hn ⊢
    have hp : 0 < p.ts.length := tsList_ne
    obtain ⟨n, rfl⟩ := Nat.exists_eq_add_of_le' (show 1 ≤ n by omega)
    obtain ⟨t, r0, e, ht⟩ := p.ts_start
    have h0 : (p.ts ++ ((if comma = true then [Tok.sym ','] else []) ++ .sym close :: r)).head? ≠ some (.sym close) := by
      rw [e]
      simpa using ht.not_close (by rcases hc with h | h <;> simp [h])
    rw [parseItems, if_neg h0]
    have hcl : ∀ r', (if comma = true then [Tok.sym ','] else []) ++ .sym close :: r ≠ .sym '(' :: r' := by
      intro r' e
      cases comma with
      | true => simp at e
      | false => rcases hc with h | h <;> simp [h] at e
    rw [parseE_ts p n _ hok.1 hcl (by split at hn <;> omega)]
    cases comma with
    | false => simp
    | true =>
      obtain ⟨n, rfl⟩ := Nat.exists_eq_add_of_le' (show 1 ≤ n by simp at hn; omega)
      have hcc : ',' ≠ close := by rcases hc with h | h <;> subst h <;> decide
      simp [hcc, parseItems]
  | p :: q :: l, close, hc, comma, n, r, hok, h, hn => by
    rw [Py.OkList] at hok
    have hp : 0 < p.ts.length := tsList_ne
    have e : commas (Py.tsList (p :: q :: l)) = p.ts ++ .sym ',' :: commas (Py.tsList (q :: l)) := by simp only [Py.tsList]; rfl
    rw [e] at hn ⊢
    rw [List.length_append, List.length_cons] at hn
    obtain ⟨n, rfl⟩ := Nat.exists_eq_add_of_le' (show 1 ≤ n by omega)
    obtain ⟨t, r0, et, ht⟩ := p.ts_start
    rw [List.append_assoc, List.cons_append]
    have h0 : (p.ts ++ .sym ',' :: (commas (Py.tsList (q :: l)) ++ ((if comma = true then [Tok.sym ','] else []) ++ .sym close :: r))).head? ≠ some (.sym close) := by
      rw [et]
      simpa using ht.not_close (by rcases hc with h | h <;> simp [h])
    have hcc : ',' ≠ close := by rcases hc with h | h <;> subst h <;> decide
    rw [parseItems, if_neg h0, parseE_ts p n _ hok.1 (fun r' e => by simp at e) (by omega)]
    have ih := parseItems_ts (q :: l) close hc comma n r hok.2 (fun _ => by simp) (by omega)
    simp only [Option.bind_eq_bind, Option.bind_some, hcc, if_false, if_true, ih]
    simp
  termination_by l => (sizeOf l, 0)
  decreasing_by all_goals (simp_wf; omega)
theorem parseArgs_ts : ∀ (args : List Py) (keys : List Name) (vals : List Py) (n : ℕ) (r : List Tok), Py.OkList args → keys.length = vals.length → Py.OkList vals →
    2 * (commas (Py.tsList args ++ Py.tsKw keys vals)).length + 1 ≤ n →
    parseArgs n (commas (Py.tsList args ++ Py.tsKw keys vals) ++ .sym ')' :: r) = some (args, keys, vals, r)
  | [], keys, vals, n, r, _, hl, hv, hn => by
    rw [Py.tsList, List.nil_append] at hn ⊢
    exact parseKw_ts keys vals n r hl hv hn
  | p :: args, keys, vals, n, r, ha, hl, hv, hn => by
    rw [Py.OkList] at ha
    have hp : 0 < p.ts.length := tsList_ne
    rw [Py.tsList, List.cons_append, commas_cons, List.length_append] at hn
    rw [Py.tsList, List.cons_append, commas_cons, List.append_assoc]
    obtain ⟨n, rfl⟩ := Nat.exists_eq_add_of_le' (show 1 ≤ n by omega)
    obtain ⟨t, r0, et, ht⟩ := p.ts_start
    cases hx : Py.tsList args ++ Py.tsKw keys vals with
    | nil =>
      rw [hx] at hn
      dsimp only at hn ⊢
      rw [List.nil_append, parseArgs_step]
      · rw [parseE_ts p n _ ha.1 (fun r' e => by simp at e) (by simp at hn; omega)]
        have h1 : args = [] := by
          cases args with
          | nil => rfl
          | cons a l => simp [Py.tsList] at hx
        subst h1
        have h2 : keys = [] ∧ vals = [] := by
          cases keys <;> cases vals <;> simp [Py.tsKw, Py.tsList] at hx hl ⊢
        obtain ⟨rfl, rfl⟩ := h2
        rfl
      · intro r' e
        rw [et, List.cons_append] at e
        injection e with e
        exact ht.not_close (.inl rfl) e
      · exact p.ts_not_keyword _ (fun r' e => by simp at e)
    | cons x xs =>
      rw [hx] at hn
      dsimp only at hn ⊢
      have ih := parseArgs_ts args keys vals n r ha.2 hl hv (by rw [hx]; simp at hn; omega)
      rw [hx] at ih
      rw [List.cons_append, parseArgs_step]
      · rw [parseE_ts p n _ ha.1 (fun r' e => by simp at e) (by simp at hn; omega)]
        simp only [Option.bind_eq_bind, Option.bind_some, ih]
      · intro r' e
        rw [et, List.cons_append] at e
        injection e with e
        exact ht.not_close (.inl rfl) e
      · exact p.ts_not_keyword _ (fun r' e => by simp at e)
  termination_by args _ vals => (sizeOf args + sizeOf vals, 1)
  decreasing_by all_goals (simp_wf; omega)
theorem parseKw_ts : ∀ (keys : List Name) (vals : List Py) (n : ℕ) (r : List Tok), keys.length = vals.length → Py.OkList vals →
    2 * (commas (Py.tsKw keys vals)).length + 1 ≤ n →
    parseArgs n (commas (Py.tsKw keys vals) ++ .sym ')' :: r) = some ([], keys, vals, r)
  | keys, [], n, r, hl, _, hn => by
    have : keys = [] := List.length_eq_zero_iff.mp hl
    subst this
    obtain ⟨n, rfl⟩ := Nat.exists_eq_add_of_le' (show 1 ≤ n by omega)
    simp [Py.tsKw, commas, parseArgs]
  | [], p :: vals, n, r, hl, _, hn => by simp at hl
  | k :: keys, p :: vals, n, r, hl, hv, hn => by
    rw [Py.OkList] at hv
    have hp : 0 < p.ts.length := tsList_ne
    rw [Py.tsKw, commas_cons, List.length_append] at hn
    rw [Py.tsKw, commas_cons, List.append_assoc, List.cons_append, List.cons_append]
    obtain ⟨n, rfl⟩ := Nat.exists_eq_add_of_le' (show 1 ≤ n by omega)
    have hl' : keys.length = vals.length := by simpa using hl
    cases hx : Py.tsKw keys vals with
    | nil =>
      rw [hx] at hn
      dsimp only at hn ⊢
      rw [List.nil_append, parseArgs, parseE_ts p n _ hv.1 (fun r' e => by simp at e) (by simp at hn; omega)]
      have h2 : keys = [] ∧ vals = [] := by
        cases keys <;> cases vals <;> simp [Py.tsKw] at hx hl' ⊢
      obtain ⟨rfl, rfl⟩ := h2
      rfl
    | cons x xs =>
      rw [hx] at hn
      dsimp only at hn ⊢
      have ih := parseKw_ts keys vals n r hl' hv.2 (by rw [hx]; simp at hn; omega)
      rw [hx] at ih
      rw [List.cons_append, parseArgs, parseE_ts p n _ hv.1 (fun r' e => by simp at e) (by simp at hn; omega)]
      simp only [Option.bind_eq_bind, Option.bind_some, ih]
      rfl
  termination_by _ vals => (sizeOf vals, 0)
  decreasing_by all_goals (simp_wf; omega)
end

/-! ### The text of an expression -/

theorem Apart.cons {a : Tok} {l : List Tok} (h : Apart l) (ha : ∀ b r, l = b :: r → ¬ a.Stick b) : Apart (a :: l) := by
  cases l with
  | nil => trivial
  | cons b l => exact ⟨ha b l rfl, h⟩

theorem Apart.tail {a : Tok} {l : List Tok} (h : Apart (a :: l)) : Apart l := by
  cases l with
  | nil => trivial
  | cons b l => exact h.2

theorem Apart.append : ∀ {l r : List Tok}, Apart l → Apart r → (∀ c r', r = c :: r' → ∃ d, c = .sym d) → Apart (l ++ r)
  | [], r, _, hr, _ => hr
  | a :: l, r, hl, hr, h => by
    refine (Apart.append hl.tail hr h).cons fun b r' e => ?_
    cases l with
    | nil =>
      obtain ⟨d, rfl⟩ := h b r' e
      cases a <;> exact id
    | cons x xs =>
      injection e with e _
      subst e
      exact hl.1

theorem sym_apart {c : Char} {l : List Tok} (h : Apart l) : Apart (.sym c :: l) := h.cons fun _ _ _ => id

/-- valid tokens that do not stick together -/
def Good (l : List Tok) : Prop := (∀ t ∈ l, t.Valid) ∧ Apart l

theorem Good.append {l r : List Tok} (hl : Good l) (hr : Good r) (h : ∀ c r', r = c :: r' → ∃ d, c = .sym d) : Good (l ++ r) :=
  ⟨fun t ht => (List.mem_append.mp ht).elim (hl.1 t) (hr.1 t), hl.2.append hr.2 h⟩

theorem Good.sym {c : Char} {l : List Tok} (hc : isSym c = true) (h : Good l) : Good (.sym c :: l) :=
  ⟨fun t ht => by rcases List.mem_cons.mp ht with rfl | ht; exacts [hc, h.1 t ht], sym_apart h.2⟩

theorem Good.word {w : Name} {c : Char} {l : List Tok} (hw : ValidName w) (h : Good (.sym c :: l)) : Good (.word w :: .sym c :: l) :=
  ⟨fun t ht => by rcases List.mem_cons.mp ht with rfl | ht; exacts [hw, h.1 t ht], h.2.cons fun b r e => by injection e with e _; subst e; exact id⟩

theorem Good.nil : Good [] := ⟨by simp, trivial⟩

theorem good_commas : ∀ {l : List (List Tok)}, (∀ a ∈ l, Good a) → Good (commas l)
  | [], _ => .nil
  | [a], h => h a List.mem_cons_self
  | a :: b :: l, h => by
    change Good (a ++ .sym ',' :: commas (b :: l))
    exact (h a List.mem_cons_self).append (.sym rfl (good_commas fun x hx => h x (List.mem_cons_of_mem _ hx))) fun c r' e => by
      injection e with e _; exact ⟨_, e.symm⟩

mutual
theorem good_ts : ∀ p : Py, p.Ok → Good p.ts
  | .word w, h => by
    rw [Py.Ok] at h
    exact ⟨fun t ht => by rw [Py.ts, List.mem_singleton] at ht; rw [ht]; exact h, trivial⟩
  | .neg w, h => by
    rw [Py.Ok] at h
    exact .sym rfl ⟨fun t ht => by rw [List.mem_singleton] at ht; rw [ht]; exact h, trivial⟩
  | .str s, _ => ⟨fun t ht => by rw [Py.ts, List.mem_singleton] at ht; rw [ht]; trivial, trivial⟩
  | .call f args keys vals, h => by
    rw [Py.Ok] at h
    rw [Py.ts]
    refine .word h.1 (.sym rfl ((good_commas fun a ha => ?_).append (.sym rfl .nil) fun c r' e => by injection e with e _; exact ⟨_, e.symm⟩))
    rcases List.mem_append.mp ha with ha | ha
    · exact good_tsList args h.2.1 a ha
    · exact good_tsKw keys vals h.2.2.2.1 h.2.2.2.2 a ha
  | .tup l, h => by
    rw [Py.Ok] at h
    rw [Py.ts]
    refine .sym rfl (((good_commas (good_tsList l h)).append ?_ ?_).append (.sym rfl .nil) fun c r' e => by injection e with e _; exact ⟨_, e.symm⟩)
    · split
      · exact .sym rfl .nil
      · exact .nil
    · intro c r' e
      split at e
      · injection e with e _; exact ⟨_, e.symm⟩
      · cases e
  | .lst comma l, h => by
    rw [Py.Ok] at h
    rw [Py.ts]
    refine .sym rfl (((good_commas (good_tsList l h.2)).append ?_ ?_).append (.sym rfl .nil) fun c r' e => by injection e with e _; exact ⟨_, e.symm⟩)
    · split
      · exact .sym rfl .nil
      · exact .nil
    · intro c r' e
      split at e
      · injection e with e _; exact ⟨_, e.symm⟩
      · cases e
theorem good_tsList : ∀ l : List Py, Py.OkList l → ∀ a ∈ Py.tsList l, Good a
  | [], _, a, ha => by simp [Py.tsList] at ha
  | p :: l, h, a, ha => by
    rw [Py.OkList] at h
    rw [Py.tsList] at ha
    rcases List.mem_cons.mp ha with rfl | ha
    · exact good_ts p h.1
    · exact good_tsList l h.2 a ha
theorem good_tsKw : ∀ (ks : List Name) (l : List Py), (∀ k ∈ ks, ValidName k) → Py.OkList l → ∀ a ∈ Py.tsKw ks l, Good a
  | k :: ks, p :: l, hk, h, a, ha => by
    rw [Py.OkList] at h
    rw [Py.tsKw] at ha
    rcases List.mem_cons.mp ha with rfl | ha
    · exact .word (hk k List.mem_cons_self) (.sym rfl (good_ts p h.1))
    · exact good_tsKw ks l (fun k' hk' => hk k' (List.mem_cons_of_mem _ hk')) h.2 a ha
  | [], l, _, _, a, ha => by simp [Py.tsKw] at ha
  | _ :: _, [], _, _, a, ha => by simp [Py.tsKw] at ha
end

/-- Any text that has the tokens of an expression, with white space in between, is the source of that expression. -/
theorem parse_text {l : List Tok} {p : Py} (hp : p.Ok) (hl : nw l = p.ts) (hws : ∀ t ∈ l, t.isWs = true → t.Valid) : parse (text l) = some p := by
  have hg := good_ts p hp
  rw [← hl] at hg
  have hv : ∀ t ∈ l, t.Valid := by
    intro t ht
    by_cases h : t.isWs = true
    · exact hws t ht h
    · exact hg.1 t (List.mem_filter.mpr ⟨ht, by simpa using h⟩)
  unfold parse
  rw [lex_text l hv (.of_nw hg.2), hl]
  have := parseE_ts p (2 * p.ts.length + 2) [] hp (fun r' e => by cases e) (by omega)
  rw [List.append_nil] at this
  simp [this]

end QNET.Print
