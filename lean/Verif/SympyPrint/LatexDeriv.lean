import Verif.SympyPrint.LatexContent

/-!
# C104: LaTeX of derivatives (`src/qnet/printing/latexprinter.py` lines 301-328)

The text of the operand (in parentheses if needed), of the symbols and of the values are parameters; the result can be used as a part of the expressions of C104.
-/

namespace QNET.Latex

/-- `^{n}` -/
def powTex (n : ℕ) : S := '^' :: '{' :: Nat.toDigits 10 n ++ ['}']

/-- one factor of the denominator, lines 307-312 -/
def denTex (v : S × ℕ) : S := if v.2 = 1 then "\\partial ".toList ++ v.1 else "\\partial ".toList ++ (v.1 ++ powTex v.2)

/-- the fraction and the operand, lines 303-316 -/
def fracTex (n : ℕ) (vars : List (S × ℕ)) (op : S) : S :=
  ('\\' :: "frac".toList ++ '{' :: ((if n > 1 then '\\' :: "partial".toList ++ powTex n else '\\' :: "partial".toList) ++ ['}'])) ++
    ('{' :: joinWith " ".toList (vars.map denTex) ++ ['}']) ++ " ".toList ++ op

/-- `sym=val` -/
def valTex (p : S × S) : S := p.1 ++ '=' :: p.2

/-- `_print_QuantumDerivative`, lines 301-328 -/
def derivTex (n : ℕ) (vars : List (S × ℕ)) (op : S) (vals : List (S × S)) : S :=
  if vals = [] then fracTex n vars op
  else "\\left. ".toList ++ fracTex n vars op ++ " \\right\\vert".toList ++ ('_' :: '{' :: joinWith ", ".toList (vals.map valTex) ++ ['}'])

theorem txt_digits (n : ℕ) : Txt (Nat.toDigits 10 n) :=
  txt_number ⟨Nat.toDigits_ne_nil, fun c hc => .inl (Nat.isDigit_of_mem_toDigits (by decide) (by decide) hc)⟩

theorem txt_pow {t : S} (ht : Nuc t) (n : ℕ) : Txt (t ++ powTex n) := by
  have := txt_scripts ht Txt.nil (txt_digits n)
  rw [scripts, if_pos rfl, List.nil_append, if_neg Nat.toDigits_ne_nil] at this
  exact this

theorem lit_partial : Lit "\\partial ".toList := ⟨fun a ha => by rw [ha.eq]; exact ⟨false, false, rfl⟩, by decide +kernel⟩

theorem pt_den {v : S × ℕ} (h : Txt (if v.2 = 1 then v.1 else v.1 ++ powTex v.2)) : PT (denTex v) := by
  have e : "\\partial ".toList = '\\' :: "partial ".toList := by decide +kernel
  have hl := lit_partial
  unfold denTex
  generalize "\\partial ".toList = u at *
  split at h
  · rw [if_pos ‹_›]
    exact pt_litHead e (by decide) (by decide) hl h
  · rw [if_neg ‹_›]
    exact pt_litHead e (by decide) (by decide) hl h

theorem pt_frac {n : ℕ} {vars : List (S × ℕ)} {op : S} (hv : ∀ v ∈ vars, Txt (if v.2 = 1 then v.1 else v.1 ++ powTex v.2)) (ho : PT op) : PT (fracTex n vars op) := by
  have hs : Nuc ('\\' :: "partial".toList) := nuc_sym (by decide +kernel)
  have hnum : Txt (if n > 1 then '\\' :: "partial".toList ++ powTex n else '\\' :: "partial".toList) := by
    split
    · exact txt_pow hs n
    · exact hs.txt
  have hden : Txt (joinWith " ".toList (vars.map denTex)) := (pt_join (x := ' ') (sep' := []) (by
    intro t ht
    obtain ⟨v, hv', rfl⟩ := List.mem_map.mp ht
    exact pt_den (hv v hv')) lit_space rfl (by decide)).1
  have k1 := nuc_mathMac (w := "frac".toList) (by decide +kernel) hnum
  have k2 := nuc_group hden
  have hsp := lit_space
  unfold fracTex
  generalize (if n > 1 then '\\' :: "partial".toList ++ powTex n else '\\' :: "partial".toList) = num at *
  generalize joinWith " ".toList (vars.map denTex) = den at *
  rw [List.cons_append] at k2 ⊢
  have k3 : Txt ('\\' :: "frac".toList ++ '{' :: (num ++ ['}']) ++ '{' :: (den ++ ['}'])) := k1.txt.append (by decide) k2.txt
  have k4 : PT ('\\' :: "frac".toList ++ '{' :: (num ++ ['}']) ++ '{' :: (den ++ ['}'])) := by
    simp only [List.cons_append] at k3 ⊢
    exact pt_of_char (by decide) (by decide) k3
  have k5 := k4.lit hsp rfl (by decide) ho
  simp only [List.cons_append, List.append_assoc] at k5 ⊢
  exact k5

theorem txt_val {p : S × S} (h1 : Txt p.1) (h2 : Txt p.2) : Txt (valTex p) := h1.append (by decide) (txt_cons (by decide) h2)

theorem go_leftDot {a : St} (ha : Math a) {t : S} (ht : Txt t) : Go a (a.flags false false) ("\\left. ".toList ++ t ++ " \\right\\vert".toList) := by
  refine nuc_delims (x := ' ') (fun a ha => by rw [ha.eq]; rfl) (fun a ha f g => ?_) rfl (by decide) ht a ha
  refine go_of_run (m := _) (by rw [ha.eq]; rfl) ?_ ?_ ha.2.1
  · rw [ha.eq]; rfl
  · simp

theorem pt_joinVals {vals : List (S × S)} (h : ∀ p ∈ vals, Txt p.1 ∧ Txt p.2) : Txt (joinWith ", ".toList (vals.map valTex)) := by
  have hc : Lit ", ".toList := ⟨fun a ha => by rw [ha.eq]; exact ⟨_, _, rfl⟩, by decide⟩
  induction vals with
  | nil => exact Txt.nil
  | cons p l ih =>
    have hp := txt_val (h p (by simp)).1 (h p (by simp)).2
    cases l with
    | nil => exact hp
    | cons q l =>
      have k := hc.txt (ih fun p hp => h p (List.mem_cons_of_mem _ hp))
      change Txt (valTex p ++ ", ".toList ++ joinWith ", ".toList ((q :: l).map valTex))
      rw [List.append_assoc]
      exact hp.append (by decide) k

theorem pt_deriv {n : ℕ} {vars : List (S × ℕ)} {op : S} {vals : List (S × S)} (hv : ∀ v ∈ vars, Txt (if v.2 = 1 then v.1 else v.1 ++ powTex v.2)) (ho : PT op)
    (h : ∀ p ∈ vals, Txt p.1 ∧ Txt p.2) : PT (derivTex n vars op vals) := by
  have k := pt_frac (n := n) hv ho
  have kv := pt_joinVals h
  have e : "\\left. ".toList = '\\' :: "left. ".toList := by decide +kernel
  unfold derivTex
  split
  · exact k
  · have kk : Txt ("\\left. ".toList ++ fracTex n vars op ++ " \\right\\vert".toList ++ ('_' :: '{' :: joinWith ", ".toList (vals.map valTex) ++ ['}'])) :=
      fun a ha => ⟨_, _, (go_leftDot ha k.1).append (by decide) (go_sub (ha.flags false false) rfl kv)⟩
    generalize "\\left. ".toList = u at *
    subst e
    simp only [List.cons_append] at kk ⊢
    exact pt_of_char (by decide) (by decide) kk

/-- **C104** derivatives: the text is complete, and can be a part of other expressions, if the operand, the values and the symbols (with their exponents) are -/
theorem C104_derivative_partial {n : ℕ} {vars : List (S × ℕ)} {op : S} {vals : List (S × S)} (hv : ∀ v ∈ vars, whole (if v.2 = 1 then v.1 else v.1 ++ powTex v.2) = true)
    (ho : goodAtom op) (h : ∀ p ∈ vals, whole p.1 = true ∧ whole p.2 = true) : goodAtom (derivTex n vars op vals) := by
  have k := pt_deriv (n := n) (vars := vars) (op := op) (vals := vals) (fun v hv' => (txt_iff _).mpr (hv v hv')) ⟨(txt_iff _).mpr ho.1, fun u hu => (txt_iff _).mpr (ho.2 u hu)⟩
    (fun p hp => ⟨(txt_iff _).mpr (h p hp).1, (txt_iff _).mpr (h p hp).2⟩)
  exact ⟨(txt_iff _).mp k.1, fun u hu => (txt_iff _).mp (k.2 u hu)⟩

/-- specification: what the text of a derivative has to show, in this order: the total order if it is not 1, the variables with their orders if these are not 1, the
operand, and for evaluated derivatives the variables with their values -/
def derivContent (n : ℕ) (vars : List (S × ℕ)) (op : S) (vals : List (S × S)) : S :=
  (if n ≤ 1 then [] else vis (Nat.toDigits 10 n)) ++ (vars.flatMap fun v => vis v.1 ++ if v.2 = 1 then [] else vis (Nat.toDigits 10 v.2)) ++ vis op ++
    vals.flatMap fun p => vis p.1 ++ '=' :: vis p.2

theorem hasAll_map {α : Type} (f : α → S) (g : α → S) (h : ∀ a, Has (f a) (g a)) : ∀ l : List α, HasAll (l.flatMap f) (l.map g)
  | [] => .nil
  | a :: l => by
    rw [List.flatMap_cons, List.map_cons]
    exact .cons (h a) (hasAll_map f g h l)

theorem has_pow (n : ℕ) : Has (vis (Nat.toDigits 10 n)) (powTex n) := (((has_vis _).left _).cons _).cons _

theorem has_den (v : S × ℕ) : Has (vis v.1 ++ if v.2 = 1 then [] else vis (Nat.toDigits 10 v.2)) (denTex v) := by
  unfold denTex
  generalize "\\partial ".toList = u
  split
  · rw [List.append_nil]; exact (has_vis _).right _
  · exact ((has_vis _).append (has_pow _)).right _

theorem has_frac (n : ℕ) (vars : List (S × ℕ)) (op : S) : Has ((if n ≤ 1 then [] else vis (Nat.toDigits 10 n)) ++
    (vars.flatMap fun v => vis v.1 ++ if v.2 = 1 then [] else vis (Nat.toDigits 10 v.2)) ++ vis op) (fracTex n vars op) := by
  have hd := has_join " ".toList (hasAll_map _ denTex has_den vars)
  unfold fracTex
  generalize joinWith " ".toList (vars.map denTex) = den at *
  refine ((Has.append ?_ ((hd.cons _).left _)).left _).append (has_vis op)
  generalize "frac".toList = u
  generalize "partial".toList = w
  refine (((Has.left ?_ _).cons _).right _).cons _
  by_cases h : n ≤ 1
  · rw [if_pos h]; exact has_nil _
  · rw [if_neg h, if_pos (by omega)]
    exact (has_pow n).right _

/-- **C104** derivatives: the order, all variables with their orders, the operand, and the values at which the derivative is taken are in the text, in this order -/
theorem C104_derivative_content (n : ℕ) (vars : List (S × ℕ)) (op : S) (vals : List (S × S)) :
    (derivContent n vars op vals).Sublist (vis (derivTex n vars op vals)) := by
  have k := has_frac n vars op
  unfold derivTex derivContent
  by_cases hz : vals = []
  · subst hz
    rw [List.flatMap_nil, List.append_nil, if_pos rfl]
    exact k
  · rw [if_neg hz]
    have hv : ∀ p : S × S, Has (vis p.1 ++ '=' :: vis p.2) (valTex p) := by
      intro p
      refine (has_vis _).append ?_
      rw [Has, vis_cons _ (by decide)]
    have hj := has_join ", ".toList (hasAll_map _ valTex hv vals)
    generalize joinWith ", ".toList (vals.map valTex) = j at *
    generalize "\\left. ".toList = u
    generalize " \\right\\vert".toList = w
    exact Has.append ((k.right _).left _) (((hj.cons _).cons _).left _)

/-- the content of a derivative at a point -/
example : derivContent 3 [("t".toList, 1), ("x_{0}".toList, 2)] "\\hat{A}".toList [("t".toList, "0".toList), ("x_{0}".toList, "a".toList)] =
    "3tx_{0}2\\hat{A}t=0x_{0}=a".toList := by decide +kernel

/-- **C104** refuted: the second derivative by a symbol with a superscript (`x__1`) has two superscripts -/
theorem C104_refuted_derivative : whole "x^{1}".toList = true ∧
    derivTex 2 [("x^{1}".toList, 2)] "\\hat{A}^{(q)}".toList [] = "\\frac{\\partial^{2}}{\\partial x^{1}^{2}} \\hat{A}^{(q)}".toList ∧
    valid (derivTex 2 [("x^{1}".toList, 2)] "\\hat{A}^{(q)}".toList []) = false := by decide +kernel

/-- a derivative at a point -/
example : derivTex 3 [("t".toList, 1), ("x_{0}".toList, 2)] "\\hat{A}^{(q)}\\left(t, x_{0}\\right)".toList [("t".toList, "0".toList), ("x_{0}".toList, "a^{2}".toList)] =
    "\\left. \\frac{\\partial^{3}}{\\partial t \\partial x_{0}^{2}} \\hat{A}^{(q)}\\left(t, x_{0}\\right) \\right\\vert_{t=0, x_{0}=a^{2}}".toList := by decide +kernel
/-- the hypotheses hold -/
example : (∀ v ∈ [("t".toList, 1), ("x_{0}".toList, 2)], whole (if v.2 = 1 then v.1 else v.1 ++ powTex v.2) = true) ∧
    goodAtom "\\hat{A}^{(q)}\\left(t, x_{0}\\right)".toList :=
  ⟨by decide +kernel, goodAtom_of (by decide +kernel) (by decide +kernel)⟩

end QNET.Latex
