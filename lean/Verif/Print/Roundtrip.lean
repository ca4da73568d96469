import Verif.Print.SreprInd
import Verif.Util.KernelRfl

/-!
# `srepr` round trip (C71): theorems, examples and counterexamples
-/

namespace QNET.Print

variable {E : Env} {R : Obj → Obj → Prop} {H : Host}

/-- a cache given by the user: each text is the source of a Python expression whose value is the key, for example the name of a variable that holds it -/
def UserCache (E : Env) (c : Cache) : Prop := ∀ e ∈ c, ∃ p : Py, p.Ok ∧ e.2 = p.toks ∧ eval E p = some e.1

theorem UserCache.ok (hR : Congr R) {c : Cache} (h : UserCache E c) : CacheOk E R c := fun e he => by
  obtain ⟨p, hp, ht, hv⟩ := h e he
  exact ⟨p, hp, by rw [ht, nw_toks], by rw [ht]; exact wsOk_toks p, e.1, hv, hR.refl _⟩

/-- `eval(srepr(expr, cache=cache))` is equivalent to `expr`, for every equivalence that contains Python's `==` and is preserved when objects are put together;
afterwards, every entry of the cache evaluates to an object that is equivalent to its key. -/
theorem C71_roundtrip_partial (hR : Congr R) (hH : ∀ a b, H.same a b = true → R a b) {o : Obj} (ho : o.WF E) {c : Cache} (hc : UserCache E c) {s : List Char} {c' : Cache}
    (h : srepr H o c = some (s, c')) : EvaluatesTo E R s o ∧ ∀ e ∈ c', EvaluatesTo E R (text e.2) e.1 := by
  obtain ⟨r, hr, h⟩ := Option.bind_eq_some_iff.mp h
  injection h with h
  injection h with h1 h2
  subst h1 h2
  obtain ⟨h1, h2⟩ := cached_means hR hH (hc.ok hR) (fun r hr => flatNew_means hR hH true o c r ho (hc.ok hR) hr) hr
  exact ⟨h1.evaluates, fun e he => (h2 e he).evaluates⟩

/-- the same for `srepr(expr, indented=True, cache=cache)`, if all arrays have at least one column -/
theorem C71_roundtrip_indented_partial (hR : Congr R) (hH : ∀ a b, H.same a b = true → R a b) {o : Obj} (ho : o.WF E) (hcol : o.Columns) {c : Cache} (hc : UserCache E c) {s : List Char} {c' : Cache}
    (h : sreprIndented H o c = some (s, c')) : EvaluatesTo E R s o ∧ ∀ e ∈ c', EvaluatesTo E R (text e.2) e.1 := by
  obtain ⟨r, hr, h⟩ := Option.bind_eq_some_iff.mp h
  injection h with h
  injection h with h1 h2
  subst h1 h2
  obtain ⟨h1, h2⟩ := cachedI_means (s := (c, 0)) hR hH (hc.ok hR) (fun r hr => indNew_means hR hH o (c, 0) r ho hcol (hc.ok hR) hr) hr
  exact ⟨h1.evaluates, fun e he => (h2 e he).evaluates⟩

theorem congr_eq : Congr (fun a b : Obj => a = b) where
  refl _ := rfl
  symm _ _ h := h.symm
  trans _ _ _ h h' := h.trans h'
  expr _ _ _ _ _ _ h h' := by rw [List.forall₂_eq_eq_eq] at h h'; rw [h, h']
  tup _ _ h := by rw [List.forall₂_eq_eq_eq] at h; rw [h]
  lst _ _ h := by rw [List.forall₂_eq_eq_eq] at h; rw [h]
  arr _ _ _ _ h := by rw [List.forall₂_eq_eq_eq, List.forall₂_eq_eq_eq] at h; rw [h]

/-- "an identical expression": if only identical objects are equal, the value is the object itself, in both formats -/
theorem C71_identical (hH : ∀ a b, H.same a b = true → a = b) {o : Obj} (ho : o.WF E) {c : Cache} (hc : UserCache E c) {s : List Char} {c' : Cache} :
    (srepr H o c = some (s, c') → ∃ p, parse s = some p ∧ eval E p = some o) ∧
    (o.Columns → sreprIndented H o c = some (s, c') → ∃ p, parse s = some p ∧ eval E p = some o) := by
  refine ⟨fun h => ?_, fun hcol h => ?_⟩
  · obtain ⟨⟨p, o', h1, h2, rfl⟩, -⟩ := C71_roundtrip_partial (R := fun a b => a = b) congr_eq hH ho hc h
    exact ⟨p, h1, h2⟩
  · obtain ⟨⟨p, o', h1, h2, rfl⟩, -⟩ := C71_roundtrip_indented_partial (R := fun a b => a = b) congr_eq hH ho hcol hc h
    exact ⟨p, h1, h2⟩

/-- different expressions have different texts (with `cache=None`), if only identical objects are equal -/
theorem C71_injective (hH : ∀ a b, H.same a b = true → a = b) {o o' : Obj} (ho : o.WF E) (ho' : o'.WF E) {s : List Char} {c c' : Cache}
    (h : srepr H o [] = some (s, c)) (h' : srepr H o' [] = some (s, c')) : o = o' := by
  obtain ⟨p, h1, h2⟩ := (C71_identical hH ho (by simp [UserCache])).1 h
  obtain ⟨p', h1', h2'⟩ := (C71_identical hH ho' (by simp [UserCache])).1 h'
  rw [h1] at h1'
  injection h1' with e
  subst e
  rw [h2] at h2'
  injection h2'

/-! ### The printers succeed -/

mutual
/-- no array is an element of a tuple or list, and all arrays have two dimensions -/
def Obj.Printable : Obj → Prop
  | .expr _ args _ vals => Obj.PrintableL args ∧ Obj.PrintableL vals
  | .tup l => Obj.PrintableI l
  | .lst l => Obj.PrintableI l
  | .arr _ shape rows => shape.length = 2 ∧ Obj.PrintableR rows
  | _ => True
def Obj.PrintableL : List Obj → Prop
  | [] => True
  | o :: l => o.Printable ∧ Obj.PrintableL l
def Obj.PrintableI : List Obj → Prop
  | [] => True
  | o :: l => o.Printable ∧ (∀ d s r, o ≠ .arr d s r) ∧ Obj.PrintableI l
def Obj.PrintableR : List (List Obj) → Prop
  | [] => True
  | r :: l => Obj.PrintableL r ∧ Obj.PrintableR l
end

theorem cached_total {f : Cache → Option (List Tok × Cache)} (hf : ∀ c, ∃ r, f c = some r) (o : Obj) (c : Cache) : ∃ r, cached H f o c = some r := by
  unfold cached
  cases getC H c o with
  | some t => exact ⟨_, rfl⟩
  | none =>
    obtain ⟨r, hr⟩ := hf c
    exact ⟨_, by simp only [hr, Option.bind_some]; rfl⟩

mutual
theorem flatNew_total (top : Bool) : ∀ (o : Obj) (c : Cache), o.Printable → (top = false → ∀ d s r, o ≠ .arr d s r) → ∃ r, flatNew H top o c = some r
  | .sing n, c, _, _ => ⟨_, by rw [flatNew]⟩
  | .expr cls args keys vals, c, h, _ => by
    rw [Obj.Printable] at h
    obtain ⟨v, hv⟩ := flatArgs_total vals c h.2
    obtain ⟨a, ha⟩ := flatArgs_total args v.2 h.1
    exact ⟨_, by rw [flatNew, hv, Option.bind_some, ha, Option.bind_some]⟩
  | .tup l, c, h, _ => by
    rw [Obj.Printable] at h
    obtain ⟨v, hv⟩ := flatItems_total l c h
    exact ⟨_, by rw [flatNew, hv, Option.bind_some]⟩
  | .lst l, c, h, _ => by
    rw [Obj.Printable] at h
    obtain ⟨v, hv⟩ := flatItems_total l c h
    exact ⟨_, by rw [flatNew, hv, Option.bind_some]⟩
  | .arr d shape rows, c, h, ht => by
    rw [Obj.Printable] at h
    obtain ⟨v, hv⟩ := flatRows_total rows c h.2
    have : top = true := by
      cases top with
      | true => rfl
      | false => exact absurd rfl (ht rfl d shape rows)
    exact ⟨_, by rw [flatNew, if_pos ⟨this, h.1⟩, hv, Option.bind_some]⟩
  | .str s, c, _, _ => ⟨_, by rw [flatNew]⟩
  | .int z, c, _, _ => ⟨_, by rw [flatNew]⟩
  | .leaf p, c, _, _ => ⟨_, by rw [flatNew]⟩
theorem flatArgs_total : ∀ (l : List Obj) (c : Cache), Obj.PrintableL l → ∃ r, flatArgs H l c = some r
  | [], c, _ => ⟨_, by rw [flatArgs]⟩
  | o :: l, c, h => by
    rw [Obj.PrintableL] at h
    obtain ⟨v, hv⟩ := cached_total (H := H) (fun c => flatNew_total true o c h.1 (by simp)) o c
    obtain ⟨a, ha⟩ := flatArgs_total l v.2 h.2
    exact ⟨_, by rw [flatArgs, hv, Option.bind_some, ha, Option.bind_some]⟩
theorem flatItems_total : ∀ (l : List Obj) (c : Cache), Obj.PrintableI l → ∃ r, flatItems H l c = some r
  | [], c, _ => ⟨_, by rw [flatItems]⟩
  | o :: l, c, h => by
    rw [Obj.PrintableI] at h
    obtain ⟨v, hv⟩ := flatNew_total false o c h.1 (fun _ => h.2.1)
    obtain ⟨a, ha⟩ := flatItems_total l v.2 h.2.2
    exact ⟨_, by rw [flatItems, hv, Option.bind_some, ha, Option.bind_some]⟩
theorem flatRows_total : ∀ (l : List (List Obj)) (c : Cache), Obj.PrintableR l → ∃ r, flatRows H l c = some r
  | [], c, _ => ⟨_, by rw [flatRows]⟩
  | o :: l, c, h => by
    rw [Obj.PrintableR] at h
    obtain ⟨v, hv⟩ := flatArgs_total o c h.1
    obtain ⟨a, ha⟩ := flatRows_total l v.2 h.2
    exact ⟨_, by rw [flatRows, hv, Option.bind_some, ha, Option.bind_some]⟩
end

/-- `srepr` gives a text for every object without arrays in tuples -/
theorem C71_total (H : Host) {o : Obj} (h : o.Printable) (c : Cache) : ∃ r, srepr H o c = some r := by
  obtain ⟨r, hr⟩ := cached_total (H := H) (fun c => flatNew_total true o c h (by simp)) o c
  exact ⟨_, by unfold srepr; rw [hr, Option.bind_some]⟩

mutual
/-- no arrays at all -/
def Obj.NoArr : Obj → Prop
  | .expr _ args _ vals => Obj.NoArrL args ∧ Obj.NoArrL vals
  | .tup l => Obj.NoArrL l
  | .lst l => Obj.NoArrL l
  | .arr _ _ _ => False
  | _ => True
def Obj.NoArrL : List Obj → Prop
  | [] => True
  | o :: l => o.NoArr ∧ Obj.NoArrL l
end

mutual
/-- no array anywhere inside of a tuple or list, and all arrays have two dimensions -/
def Obj.PrintableInd : Obj → Prop
  | .expr _ args _ vals => Obj.PrintableIndL args ∧ Obj.PrintableIndL vals
  | .tup l => Obj.NoArrL l
  | .lst l => Obj.NoArrL l
  | .arr _ shape rows => shape.length = 2 ∧ Obj.PrintableIndR rows
  | _ => True
def Obj.PrintableIndL : List Obj → Prop
  | [] => True
  | o :: l => o.PrintableInd ∧ Obj.PrintableIndL l
def Obj.PrintableIndR : List (List Obj) → Prop
  | [] => True
  | r :: l => Obj.PrintableIndL r ∧ Obj.PrintableIndR l
end

mutual
theorem plain_total : ∀ o : Obj, o.NoArr → ∃ t, plain o = some t
  | .sing n, _ => ⟨_, by rw [plain]⟩
  | .expr cls args keys vals, h => by
    rw [Obj.NoArr] at h
    obtain ⟨v, hv⟩ := plainList_total vals h.2
    obtain ⟨a, ha⟩ := plainList_total args h.1
    exact ⟨_, by rw [plain, hv, Option.bind_some, ha, Option.bind_some]⟩
  | .tup l, h => by
    rw [Obj.NoArr] at h
    obtain ⟨v, hv⟩ := plainList_total l h
    exact ⟨_, by rw [plain, hv, Option.bind_some]⟩
  | .lst l, h => by
    rw [Obj.NoArr] at h
    obtain ⟨v, hv⟩ := plainList_total l h
    exact ⟨_, by rw [plain, hv, Option.bind_some]⟩
  | .arr d s r, h => by rw [Obj.NoArr] at h; exact h.elim
  | .str s, _ => ⟨_, by rw [plain]⟩
  | .int z, _ => ⟨_, by rw [plain]⟩
  | .leaf p, _ => ⟨_, by rw [plain]⟩
theorem plainList_total : ∀ l : List Obj, Obj.NoArrL l → ∃ t, plainList l = some t
  | [], _ => ⟨_, by rw [plainList]⟩
  | o :: l, h => by
    rw [Obj.NoArrL] at h
    obtain ⟨v, hv⟩ := plain_total o h.1
    obtain ⟨a, ha⟩ := plainList_total l h.2
    exact ⟨_, by rw [plainList, hv, Option.bind_some, ha, Option.bind_some]⟩
end

theorem cachedI_total {f : IState → Option (List Tok × IState)} (hf : ∀ c, ∃ r, f c = some r) (o : Obj) (c : IState) : ∃ r, cachedI H f o c = some r := by
  unfold cachedI
  cases getC H c.1 o with
  | some t => exact ⟨_, rfl⟩
  | none =>
    obtain ⟨r, hr⟩ := hf c
    exact ⟨_, by simp only [hr, Option.bind_some]; rfl⟩

mutual
theorem indNew_total : ∀ (o : Obj) (c : IState), o.PrintableInd → ∃ r, indNew H o c = some r
  | .sing n, c, _ => ⟨_, by rw [indNew]⟩
  | .expr cls args keys vals, c, h => by
    rw [Obj.PrintableInd] at h
    obtain ⟨a, ha⟩ := indArgs_total args (c.1, c.2 + 1) h.1
    obtain ⟨v, hv⟩ := indKws_total vals keys a.2 h.2
    exact ⟨_, by rw [indNew, ha, Option.bind_some, hv, Option.bind_some]⟩
  | .tup l, c, h => by
    rw [Obj.PrintableInd] at h
    obtain ⟨v, hv⟩ := plainList_total l h
    exact ⟨_, by rw [indNew, hv, Option.bind_some]⟩
  | .lst l, c, h => by
    rw [Obj.PrintableInd] at h
    obtain ⟨v, hv⟩ := plainList_total l h
    exact ⟨_, by rw [indNew, hv, Option.bind_some]⟩
  | .arr d shape rows, c, h => by
    rw [Obj.PrintableInd] at h
    obtain ⟨v, hv⟩ := indRows_total rows (c.1, c.2 + 2) h.2
    exact ⟨_, by rw [indNew, if_pos h.1, hv, Option.bind_some]⟩
  | .str s, c, _ => ⟨_, by rw [indNew]⟩
  | .int z, c, _ => ⟨_, by rw [indNew]⟩
  | .leaf p, c, _ => ⟨_, by rw [indNew]⟩
theorem indArgs_total : ∀ (l : List Obj) (c : IState), Obj.PrintableIndL l → ∃ r, indArgs H l c = some r
  | [], c, _ => ⟨_, by rw [indArgs]⟩
  | o :: l, c, h => by
    rw [Obj.PrintableIndL] at h
    obtain ⟨v, hv⟩ := cachedI_total (H := H) (fun c => indNew_total o c h.1) o c
    obtain ⟨a, ha⟩ := indArgs_total l v.2 h.2
    exact ⟨_, by rw [indArgs, hv, Option.bind_some, ha, Option.bind_some]⟩
theorem indKws_total : ∀ (l : List Obj) (ks : List Name) (c : IState), Obj.PrintableIndL l → ∃ r, indKws H ks l c = some r
  | [], ks, c, _ => ⟨([], c), by cases ks <;> simp [indKws]⟩
  | o :: l, [], c, _ => ⟨([], c), by simp [indKws]⟩
  | o :: l, k :: ks, c, h => by
    rw [Obj.PrintableIndL] at h
    obtain ⟨v, hv⟩ := cachedI_total (H := H) (fun c => indNew_total o c h.1) o c
    obtain ⟨a, ha⟩ := indKws_total l ks v.2 h.2
    exact ⟨_, by rw [indKws, hv, Option.bind_some, ha, Option.bind_some]⟩
theorem indRows_total : ∀ (l : List (List Obj)) (c : IState), Obj.PrintableIndR l → ∃ r, indRows H l c = some r
  | [], c, _ => ⟨_, by rw [indRows]⟩
  | o :: l, c, h => by
    rw [Obj.PrintableIndR] at h
    obtain ⟨v, hv⟩ := indArgs_total o c h.1
    obtain ⟨a, ha⟩ := indRows_total l v.2 h.2
    exact ⟨_, by rw [indRows, hv, Option.bind_some, ha, Option.bind_some]⟩
end

/-- `srepr(…, indented=True)` gives a text for every object without arrays inside of tuples -/
theorem C71_total_indented (H : Host) {o : Obj} (h : o.PrintableInd) (c : Cache) : ∃ r, sreprIndented H o c = some r := by
  obtain ⟨r, hr⟩ := cachedI_total (H := H) (fun c => indNew_total o c h) o (c, 0)
  exact ⟨_, by unfold sreprIndented; rw [hr, Option.bind_some]⟩

/-! ### Example: the documentation of `srepr` -/

mutual
def beqPy : Py → Py → Bool
  | .word a, .word b => a == b
  | .neg a, .neg b => a == b
  | .str a, .str b => a == b
  | .call f a k v, .call f' a' k' v' => f == f' && beqPyL a a' && k == k' && beqPyL v v'
  | .tup a, .tup b => beqPyL a b
  | .lst c a, .lst d b => c == d && beqPyL a b
  | _, _ => false
def beqPyL : List Py → List Py → Bool
  | [], [] => true
  | a :: l, b :: m => beqPy a b && beqPyL l m
  | _, _ => false
end

mutual
/-- equality of all data -/
def beqObj : Obj → Obj → Bool
  | .sing a, .sing b => a == b
  | .expr f a k v, .expr f' a' k' v' => f == f' && beqObjL a a' && k == k' && beqObjL v v'
  | .tup a, .tup b => beqObjL a b
  | .lst a, .lst b => beqObjL a b
  | .arr d s r, .arr d' s' r' => d == d' && s == s' && beqObjR r r'
  | .str a, .str b => a == b
  | .int a, .int b => a == b
  | .leaf a, .leaf b => beqPy a b
  | _, _ => false
def beqObjL : List Obj → List Obj → Bool
  | [], [] => true
  | a :: l, b :: m => beqObj a b && beqObjL l m
  | _, _ => false
def beqObjR : List (List Obj) → List (List Obj) → Bool
  | [], [] => true
  | a :: l, b :: m => beqObjL a b && beqObjR l m
  | _, _ => false
end

mutual
theorem beqPy_eq : ∀ a b : Py, beqPy a b = true → a = b
  | .word a, b, h => by cases b <;> simp [beqPy] at h ⊢; exact h
  | .neg a, b, h => by cases b <;> simp [beqPy] at h ⊢; exact h
  | .str a, b, h => by cases b <;> simp [beqPy] at h ⊢; exact h
  | .call f a k v, b, h => by
    cases b <;> simp [beqPy] at h ⊢
    exact ⟨h.1.1.1, beqPyL_eq a _ h.1.1.2, h.1.2, beqPyL_eq v _ h.2⟩
  | .tup a, b, h => by
    cases b <;> simp [beqPy] at h ⊢
    exact beqPyL_eq a _ h
  | .lst c a, b, h => by
    cases b <;> simp [beqPy] at h ⊢
    exact ⟨h.1, beqPyL_eq a _ h.2⟩
theorem beqPyL_eq : ∀ a b : List Py, beqPyL a b = true → a = b
  | [], b, h => by cases b <;> simp [beqPyL] at h ⊢
  | a :: l, b, h => by
    cases b with
    | nil => simp [beqPyL] at h
    | cons x m =>
      simp [beqPyL] at h
      rw [beqPy_eq a x h.1, beqPyL_eq l m h.2]
end

mutual
theorem beqObj_eq : ∀ a b : Obj, beqObj a b = true → a = b
  | .sing a, b, h => by cases b <;> simp [beqObj] at h ⊢; exact h
  | .expr f a k v, b, h => by
    cases b <;> simp [beqObj] at h ⊢
    exact ⟨h.1.1.1, beqObjL_eq a _ h.1.1.2, h.1.2, beqObjL_eq v _ h.2⟩
  | .tup a, b, h => by cases b <;> simp [beqObj] at h ⊢; exact beqObjL_eq a _ h
  | .lst a, b, h => by cases b <;> simp [beqObj] at h ⊢; exact beqObjL_eq a _ h
  | .arr d s r, b, h => by
    cases b <;> simp [beqObj] at h ⊢
    exact ⟨h.1.1, h.1.2, beqObjR_eq r _ h.2⟩
  | .str a, b, h => by cases b <;> simp [beqObj] at h ⊢; exact h
  | .int a, b, h => by cases b <;> simp [beqObj] at h ⊢; exact h
  | .leaf a, b, h => by cases b <;> simp [beqObj] at h ⊢; exact beqPy_eq a _ h
theorem beqObjL_eq : ∀ a b : List Obj, beqObjL a b = true → a = b
  | [], b, h => by cases b <;> simp [beqObjL] at h ⊢
  | a :: l, b, h => by
    cases b with
    | nil => simp [beqObjL] at h
    | cons x m =>
      simp [beqObjL] at h
      rw [beqObj_eq a x h.1, beqObjL_eq l m h.2]
theorem beqObjR_eq : ∀ a b : List (List Obj), beqObjR a b = true → a = b
  | [], b, h => by cases b <;> simp [beqObjR] at h ⊢
  | a :: l, b, h => by
    cases b with
    | nil => simp [beqObjR] at h
    | cons x m =>
      simp [beqObjR] at h
      rw [beqObjL_eq a x h.1, beqObjR_eq l m h.2]
end

def nm (s : String) : Name := s.toList

/-- equality of all data; everything but lists and arrays can be hashed -/
def host : Host := ⟨beqObj, fun o => match o with | .lst _ => false | .arr _ _ _ => false | _ => true⟩

def hs1 : Obj := .expr (nm "LocalSpace") [.str (nm "1")] [] []
def opA : Obj := .expr (nm "OperatorSymbol") [.str (nm "A")] [nm "hs"] [hs1]
def opB : Obj := .expr (nm "OperatorSymbol") [.str (nm "B")] [nm "hs"] [hs1]
/-- `A + B` -/
def sumAB : Obj := .expr (nm "OperatorPlus") [opA, opB] [] []

/-- the context has the singletons `IdentityOperator` and `One`, the object `hs`, and SymPy's `Symbol` -/
def env : Env where
  val w := if w = nm "hs" then some hs1 else if w = nm "IdentityOperator" then some (.sing w) else if w = nm "One" then some (.sing w) else none
  sympy w := decide (w = nm "Symbol")

/-- the texts are those of the documentation (`printing/__init__.py` 505-527) -/
theorem C71_example :
    (srepr host sumAB []).map (·.1) = some (nm "OperatorPlus(OperatorSymbol('A', hs=LocalSpace('1')), OperatorSymbol('B', hs=LocalSpace('1')))") ∧
    (srepr host sumAB [(hs1, [.word (nm "hs")])]).map (·.1) = some (nm "OperatorPlus(OperatorSymbol('A', hs=hs), OperatorSymbol('B', hs=hs))") ∧
    (sreprIndented host sumAB []).map (·.1) =
      some (nm "OperatorPlus(\n    OperatorSymbol(\n        'A',\n        hs=LocalSpace(\n            '1')),\n    OperatorSymbol(\n        'B',\n        hs=LocalSpace(\n            '1')))") := by
  refine ⟨?_, ?_, ?_⟩ <;> decide +kernel

theorem sumAB_wf : sumAB.WF env := by
  have h : ∀ s : String, (nm s ≠ [] ∧ ∀ c ∈ nm s, isWord c = true) → ValidName (nm s) := fun _ h => h
  simp only [sumAB, opA, opB, hs1, Obj.WF, Obj.WFL]
  refine ⟨h _ (by decide), by decide, by decide, ⟨⟨h _ (by decide), by decide, by decide, ⟨trivial, trivial⟩, rfl, ?_, ?_, trivial⟩,
    ⟨h _ (by decide), by decide, by decide, ⟨trivial, trivial⟩, rfl, ?_, ?_, trivial⟩, trivial⟩, rfl, by simp, trivial⟩
  · intro k hk; rw [List.mem_singleton] at hk; subst hk; exact h _ (by decide)
  · exact ⟨h _ (by decide), by decide, by decide, ⟨trivial, trivial⟩, rfl, by simp, trivial⟩
  · intro k hk; rw [List.mem_singleton] at hk; subst hk; exact h _ (by decide)
  · exact ⟨h _ (by decide), by decide, by decide, ⟨trivial, trivial⟩, rfl, by simp, trivial⟩

/-- the hypotheses of the theorems hold for the example of the documentation, with a cache -/
theorem C71_nonvacuous : sumAB.WF env ∧ sumAB.Columns ∧ sumAB.Printable ∧ sumAB.PrintableInd ∧ UserCache env [(hs1, [.word (nm "hs")])] ∧ ∀ a b, host.same a b = true → a = b := by
  refine ⟨sumAB_wf, ?_, ?_, ?_, ?_, beqObj_eq⟩
  · simp [sumAB, opA, opB, hs1, Obj.Columns, Obj.ColumnsL]
  · simp [sumAB, opA, opB, hs1, Obj.Printable, Obj.PrintableL]
  · simp [sumAB, opA, opB, hs1, Obj.PrintableInd, Obj.PrintableIndL]
  · intro e he
    rw [List.mem_singleton] at he
    subst he
    exact ⟨.word (nm "hs"), by rw [Py.Ok]; exact ⟨by decide, by decide⟩, rfl, by kernel_rfl⟩

/-! ### What fails -/

/-- the identity matrix without rows, as in the `S` of a system without channels -/
def noRows : Obj := .expr (nm "Matrix") [.arr (nm "object") [0, 0] []] [] []
/-- a matrix with one row without entries -/
def noColumns : Obj := .expr (nm "Matrix") [.arr (nm "object") [1, 0] [[]]] [] []

/-- The indented text of a matrix without entries is not a Python expression. The flat text of a matrix without rows is that of an array with one dimension, which is another object.
(`sreprprinter.py` 122, 124: `lines[-1][:-1]` removes the opening bracket.) -/
theorem C71_refuted_empty_array :
    (sreprIndented host noRows []).map (·.1) = some (nm "Matrix(\n    array(], dtype=object))") ∧
    (sreprIndented host noRows []).bind (fun r => parse r.1) = none ∧
    (sreprIndented host noColumns []).bind (fun r => parse r.1) = none ∧
    ((srepr host noRows []).bind fun r => (parse r.1).bind (eval env)) = some (.expr (nm "Matrix") [.arr (nm "object") [0] []] [] []) := by
  have h1 : (sreprIndented host noRows []).map (·.1) = some (nm "Matrix(\n    array(], dtype=object))") := by decide +kernel
  refine ⟨h1, ?_, ?_, ?_⟩
  · kernel_rfl
  · kernel_rfl
  · kernel_rfl

/-- `2 == ScalarValue(2)` (`scalar_algebra.py`), all else as before -/
def hostScalar : Host where
  same a b := beqObj a b || match a, b with
    | .int z, .expr cls [.int w] [] [] => cls == nm "ScalarValue" && z == w
    | .expr cls [.int w] [] [], .int z => cls == nm "ScalarValue" && z == w
    | _, _ => false
  hash := host.hash

/-- Equal is not identical: as `2 == ScalarValue(2)`, the printer's cache confuses them, and the second argument is printed like the first one. -/
theorem C71_refuted_identical :
    (srepr hostScalar (.expr (nm "F") [.expr (nm "ScalarValue") [.int 2] [] [], .int 2] [] []) []).map (·.1) = some (nm "F(ScalarValue(2), ScalarValue(2))") ∧
    (srepr host (.expr (nm "F") [.expr (nm "ScalarValue") [.int 2] [] [], .int 2] [] []) []).map (·.1) = some (nm "F(ScalarValue(2), 2)") := by
  constructor <;> decide +kernel

/-- after an array, `_print_level` is off by one: the second matrix is indented by one more level (the text is still correct) -/
theorem C71_drift : (sreprIndented host (.expr (nm "F") [.arr (nm "object") [1, 1] [[.int 1]], .int 2] [] []) []).map (·.1) =
    some (nm "F(\n    array([\n        [\n            1\n        ]], dtype=object),\n        2)") := by decide +kernel

end QNET.Print
