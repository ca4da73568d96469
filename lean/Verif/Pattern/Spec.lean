import Verif.Pattern.Model

/-!
# Specification of pattern matching (C20-C22)
-/

namespace QNET.Pattern

/-- An assignment of values to wildcard names. -/
abbrev Asg := ℕ → Option Val

/-- The arguments that one pattern in an argument list stands for, and the value of its name: a single pattern stands for one argument,
which is the value of its name; a "more" pattern for a list of arguments, which is the value of its name. -/
def PartOK (B : Asg) (q : Pat) (part : List Ex) : Prop :=
  match q.mode with
  | .single => ∃ a, part = [a] ∧ ∀ n, q.wc = some n → B n = some (.one a)
  | .oneOrMore => part ≠ [] ∧ ∀ n, q.wc = some n → B n = some (.many part)
  | .zeroOrMore => ∀ n, q.wc = some n → B n = some (.many part)

/-- The value of the name of `p` when `p` is matched as a whole against `e` (for a "more" pattern, the list `[e]`). -/
def OwnName (B : Asg) (p : Pat) (e : Ex) : Prop := ∀ n, p.wc = some n → B n = some (if p.mode = .single then .one e else .many [e])

/-- the keyword argument `k` of the expression `e` has the value `v` (the first one, if a list of keywords contained `k` twice) -/
def HasKw (e : Ex) (k : ℕ) (v : Ex) : Prop :=
  ∃ cls as ks vs, e = .node cls as ks vs ∧ ∃ i : ℕ, ks[i]? = some k ∧ vs[i]? = some v ∧ ∀ j : ℕ, j < i → ks[j]? ≠ some k

theorem kw_iff (e : Ex) (k : ℕ) (v : Ex) : e.kw k = some v ↔ HasKw e k v := by
  cases e with
  | leaf a => simp [Ex.kw, HasKw]
  | node cls as ks vs =>
    have main : ∀ (ks : List ℕ) (vs : List Ex), (ks.zip vs).lookup k = some v ↔
        ∃ i : ℕ, ks[i]? = some k ∧ vs[i]? = some v ∧ ∀ j : ℕ, j < i → ks[j]? ≠ some k := by
      intro ks
      induction ks with
      | nil => simp
      | cons a ks ih =>
        intro vs
        cases vs with
        | nil => simp
        | cons b vs =>
          rw [List.zip_cons_cons, List.lookup_cons]
          by_cases hak : k = a
          · subst hak
            simp only [beq_self_eq_true]
            constructor
            · intro h; exact ⟨0, by simp, by simpa using h, by simp⟩
            · rintro ⟨i, h1, h2, h3⟩
              cases i with
              | zero => simpa using h2
              | succ i => exact absurd (by simp) (h3 0 (by omega))
          · rw [beq_false_of_ne hak]
            simp only [ih]
            constructor
            · rintro ⟨i, h1, h2, h3⟩
              refine ⟨i + 1, by simpa using h1, by simpa using h2, ?_⟩
              intro j hj
              cases j with
              | zero => simpa using fun e => hak e.symm
              | succ j => simpa using h3 j (by omega)
            · rintro ⟨i, h1, h2, h3⟩
              cases i with
              | zero => exact absurd (by simpa using h1) (fun e : a = k => hak e.symm)
              | succ i => exact ⟨i, by simpa using h1, by simpa using h2, fun j hj => by simpa using h3 (j + 1) (by omega)⟩
    rw [Ex.kw, main]
    constructor
    · rintro ⟨i, h⟩; exact ⟨cls, as, ks, vs, rfl, i, h⟩
    · rintro ⟨_, _, _, _, e, i, h⟩
      cases e
      exact ⟨i, h⟩

mutual
/-- `e` is an instance of the pattern `p` under the assignment `B`, not counting the value assigned to the name of `p` itself: type and
conditions hold, the arguments of `e` are matched by the argument patterns, and every keyword pattern by the keyword argument. -/
def SatCore (env : Env) (B : Asg) : Pat → Ex → Prop
  | .expr x, e => x = e
  | .pat head hasArgs args keys kwpats _ _ conds, e =>
    (∀ h, head = some h → env.isinst h e = true) ∧ (∀ c ∈ conds, env.cond c e = true) ∧
    (hasArgs = true → ∃ cls as ks vs, e = .node cls as ks vs ∧ SatArgs env B args as) ∧ SatKw env B keys kwpats e
/-- The argument list `as` is a concatenation of parts, one for each pattern. -/
def SatArgs (env : Env) (B : Asg) : List Pat → List Ex → Prop
  | [], as => as = []
  | q :: ps, as => ∃ part rest, as = part ++ rest ∧ (∀ a ∈ part, SatCore env B q a) ∧ PartOK B q part ∧ SatArgs env B ps rest
/-- Every keyword pattern matches the keyword argument of `e`. -/
def SatKw (env : Env) (B : Asg) : List ℕ → List Pat → Ex → Prop
  | _, [], _ => True
  | [], _ :: _, _ => True
  | k :: ks, q :: ps, e => (∃ v, HasKw e k v ∧ SatCore env B q v ∧ OwnName B q v) ∧ SatKw env B ks ps e
end

/-- `e` is an instance of the pattern `p` under the assignment `B`. -/
def Sat (env : Env) (B : Asg) (p : Pat) (e : Ex) : Prop := SatCore env B p e ∧ OwnName B p e

mutual
/-- the names of all wildcards in `p` that stand for lists (with repetitions) -/
def listNames : Pat → List ℕ
  | .expr _ => []
  | .pat _ hasArgs args _ kwpats mode wc _ =>
    (if mode = .single then [] else wc.toList) ++ (if hasArgs then listNamesL args else []) ++ listNamesL kwpats
/-- the list names of a list of patterns -/
def listNamesL : List Pat → List ℕ
  | [] => []
  | p :: ps => listNames p ++ listNamesL ps
end

/-- names of lists strictly inside `p` -/
def innerListNames : Pat → List ℕ
  | .expr _ => []
  | .pat _ hasArgs args _ kwpats _ _ _ => (if hasArgs then listNamesL args else []) ++ listNamesL kwpats

mutual
/-- Patterns in scope of C20: at each level there is at most one non-single argument pattern, and it is the first or the last one (the
constructor rejects other positions, but accepts a non-single pattern at both ends); there are no names for lists inside a non-single
pattern; as many keyword names as keyword patterns. -/
def WFP : Pat → Prop
  | .expr _ => True
  | .pat _ hasArgs args keys kwpats mode _ _ =>
    (hasArgs = true → argsAccepted args = true ∧ (args.filter (fun q => !q.isSingle)).length ≤ 1 ∧ WFPL args) ∧
    keys.length = kwpats.length ∧ WFPL kwpats ∧
    (mode ≠ .single → (if hasArgs then listNamesL args else []) ++ listNamesL kwpats = [])
/-- the same for lists of patterns -/
def WFPL : List Pat → Prop
  | [] => True
  | p :: ps => WFP p ∧ WFPL ps
end

/-- Patterns in scope of C20, and every name for a list is used only once. -/
def WF (p : Pat) : Prop := WFP p ∧ (listNames p).Nodup

mutual
/-- no sub-pattern has a single "zero or more" pattern as its list of arguments -/
def NoLoneStar : Pat → Prop
  | .expr _ => True
  | .pat _ hasArgs args _ kwpats _ _ _ =>
    (hasArgs = true → (∀ q, args = [q] → q.mode ≠ .zeroOrMore) ∧ NoLoneStarL args) ∧ NoLoneStarL kwpats
/-- the same for lists -/
def NoLoneStarL : List Pat → Prop
  | [] => True
  | p :: ps => NoLoneStar p ∧ NoLoneStarL ps
end

mutual
/-- all occurrences of sub-expressions, arguments before the expression itself, from left to right -/
def occurrences : Ex → List Ex
  | .leaf a => [.leaf a]
  | .node c as ks vs => occurrencesL as ++ occurrencesL vs ++ [.node c as ks vs]
/-- for lists -/
def occurrencesL : List Ex → List Ex
  | [] => []
  | a :: as => occurrences a ++ occurrencesL as
end

end QNET.Pattern
