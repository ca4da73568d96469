import Verif.SympyPrint.LatexC104

/-!
# C104: LaTeX of whole expressions: nothing is lost and the order is kept
-/

namespace QNET.Latex

/-- the visible characters -/
def vis (t : S) : S := t.filter (· != ' ')

mutual
/-- specification: the symbols, states and scalars of an expression in reading order (without the coefficient -1, for which there is a sign, and without the identity
in multiples of it) -/
def Ex.content : Ex → S
  | .atom t => vis t
  | .call name args => vis name ++ args.content
  | .plus l => l.content
  | .times l => l.content
  | .tensor l => l.content
  | .scale m _ pt c t => if m then '-' :: t.content else c.content ++ (if parenIf pt t.tex = "1".toList ∨ parenIf pt t.tex = "\\mathbb{1}".toList then [] else t.content)
  | .comm _ a b => a.content ++ b.content
  | .trace hs e => vis (hsLabel hs) ++ e.content
  | .adj e => e.content
  | .plusCC _ _ e => e.content ++ "c.c.".toList
  | .pinv _ e => e.content ++ ['+']
  | .apply _ _ adjoint a b => if adjoint then b.content ++ a.content else a.content ++ b.content
  | .sopTimes _ a b => a.content ++ b.content
  | .spre _ e => e.content
  | .sum rs _ e => vis (rs.flatMap Range.index) ++ e.content
  | .cid => []
  | .component label args => vis (renderStr label) ++ args.content
  | .series l => l.content
  | .concat l => l.content
  | .feedback o i e => e.content ++ vis o ++ vis i
  | .sinv e => e.content
def Args.content : Args → S
  | .nil => []
  | .cons _ e l => e.content ++ l.content
end

theorem vis_append (a b : S) : vis (a ++ b) = vis a ++ vis b := List.filter_append ..
theorem vis_cons {c : Char} (t : S) (h : c ≠ ' ') : vis (c :: t) = c :: vis t := by rw [vis, List.filter_cons, if_pos (by simpa using h)]; rfl

theorem vis_lstrip (t : S) : vis (lstrip t) = vis t := by
  induction t with
  | nil => rfl
  | cons c t ih =>
    rw [lstrip, List.dropWhile_cons]
    split
    · rename_i h
      rw [show List.dropWhile (· == ' ') t = lstrip t from rfl, ih, vis, vis, List.filter_cons, if_neg (by simpa using h)]
    · rfl

theorem vis_reverse (t : S) : vis t.reverse = (vis t).reverse := List.filter_reverse ..

theorem vis_strip (t : S) : vis (strip t) = vis t := by
  rw [strip, vis_reverse, vis_lstrip, vis_reverse, List.reverse_reverse, vis_lstrip]

/-- the visible characters of `t` contain `w` in this order -/
def Has (w t : S) : Prop := List.Sublist w (vis t)

theorem Has.append {v w s t : S} (h1 : Has v s) (h2 : Has w t) : Has (v ++ w) (s ++ t) := by
  rw [Has, vis_append]
  exact List.Sublist.append h1 h2
theorem Has.left {w s : S} (h : Has w s) (t : S) : Has w (s ++ t) := by
  rw [Has, vis_append]
  exact h.trans (List.sublist_append_left ..)
theorem Has.right {w s : S} (h : Has w s) (t : S) : Has w (t ++ s) := by
  rw [Has, vis_append]
  exact h.trans (List.sublist_append_right ..)
theorem Has.cons {w s : S} (h : Has w s) (c : Char) : Has w (c :: s) := h.right [c]
theorem has_vis (t : S) : Has (vis t) t := List.Sublist.refl _
theorem has_nil (t : S) : Has [] t := List.nil_sublist _
theorem Has.strip {w s : S} (h : Has w s) : Has w (strip s) := by
  rw [Has, vis_strip]
  exact h

theorem has_paren {w t : S} (h : Has w t) : Has w (parenTex t) := (h.right _).left _
theorem has_bracket {w t : S} (h : Has w t) : Has w (bracketTex t) := (h.right _).left _
theorem has_parenIf {w t : S} {b : Bool} (h : Has w t) : Has w (parenIf b t) := by
  cases b
  · exact h
  · exact has_paren h

/-- contents of several texts, in order -/
inductive HasAll : S → List S → Prop
  | nil : HasAll [] []
  | cons {v w t l} : Has v t → HasAll w l → HasAll (v ++ w) (t :: l)
  | skip {w t l} : HasAll w l → HasAll w (t :: l)

theorem has_join {w : S} {l : List S} (sep : S) (h : HasAll w l) : Has w (joinWith sep l) := by
  induction h with
  | nil => exact has_nil _
  | @cons v w t l h1 h2 ih =>
    cases l with
    | nil =>
      cases h2
      rw [List.append_nil]
      exact h1
    | cons u l => exact (h1.left sep).append ih
  | @skip w t l h ih =>
    cases l with
    | nil =>
      cases h
      exact has_nil _
    | cons u l => exact ih.right _

theorem has_scale {m pc pt : Bool} {v w c t : S} (hc : Has v c) (ht : Has w t) :
    Has (if m then '-' :: w else v ++ (if parenIf pt t = "1".toList ∨ parenIf pt t = "\\mathbb{1}".toList then [] else w)) (scaleTex m pc pt c t) := by
  have k := has_parenIf (b := pt) ht
  have e : vis "- ".toList = ['-'] := by decide +kernel
  have e1 : Has ['-'] "- ".toList := by rw [Has, e]
  have e2 : Has ['-'] ['-'] := has_vis ['-']
  unfold scaleTex
  dsimp only
  generalize parenIf pt t = u at *
  generalize "- ".toList = lm at *
  cases m
  · rw [if_neg Bool.false_ne_true, if_neg Bool.false_ne_true]
    split
    · rw [List.append_nil]; exact hc
    · exact ((has_parenIf hc.strip).left _).append k.strip
  · rw [if_pos rfl, if_pos rfl]
    split
    · exact e1.append k
    · exact e2.append k

theorem has_signed {w t : S} {p : Bool} (h : Has w t) : Has w ((signed p t).1 :: (signed p t).2) := by
  unfold signed
  split
  · rename_i u
    change Has w ('-' :: parenIf p (strip u))
    have h' : List.Sublist w (vis ('-' :: u)) := h
    rw [vis_cons u (by decide)] at h'
    have k : Has (vis u) (parenIf p (strip u)) := has_parenIf (has_vis u).strip
    rw [Has, vis_cons _ (by decide)]
    exact h'.trans (List.Sublist.cons_cons _ k)
  · exact (has_parenIf h).cons _

/-- contents of terms with signs -/
inductive HasTerms : S → List (Char × S) → Prop
  | nil : HasTerms [] []
  | cons {v w c t l} : Has v (if c = '+' then t else c :: t) → HasTerms w l → HasTerms (v ++ w) ((c, t) :: l)

theorem has_terms_tail {w : S} {l : List (Char × S)} (h : HasTerms w l) : Has w (l.flatMap fun p => [' ', p.1, ' '] ++ p.2) := by
  induction h with
  | nil => exact has_nil _
  | @cons v w c t l h1 h2 ih =>
    rw [List.flatMap_cons]
    refine Has.append ?_ ih
    split at h1
    · exact h1.right _
    · change Has v ([' '] ++ (c :: ([' '] ++ t)))
      refine Has.right ?_ _
      have e : vis (c :: ([' '] ++ t)) = vis (c :: t) := by
        rw [show c :: ([' '] ++ t) = [c] ++ ([' '] ++ t) from rfl, show c :: t = [c] ++ t from rfl, vis_append, vis_append, vis_append]; rfl
      rw [Has, e]
      exact h1

theorem has_terms {w : S} {l : List (Char × S)} (h : HasTerms w l) : Has w (joinTerms l) := by
  cases h with
  | nil => exact has_nil _
  | @cons v w c t l h1 h2 =>
    rw [joinTerms]
    refine Has.append ?_ (has_terms_tail h2)
    split at h1
    · rename_i hc
      rw [if_pos hc]
      exact h1
    · rename_i hc
      rw [if_neg hc]
      exact h1

theorem has_joinC (l : List S) : Has (vis l.flatten) (joinC l) := by
  induction l with
  | nil => exact has_nil _
  | cons t l ih =>
    cases l with
    | nil => simpa [joinC] using has_vis t
    | cons u l =>
      rw [List.flatten_cons, vis_append]
      have e : joinC (t :: u :: l) = t ++ ',' :: joinC (u :: l) := by rw [joinC]; exact nofun
      rw [e]
      exact (has_vis t).append (ih.cons _)

/-- one sum sign shows its indices and limits -/
theorem has_sumSign (is : List S) (rhs top : S) : Has (vis (is.flatten ++ rhs ++ top)) (sumSign is rhs top) := by
  have k1 : Has (vis is.flatten ++ vis rhs) (joinC is ++ rhs) := (has_joinC is).append (has_vis rhs)
  rw [vis_append, vis_append, sumSign]
  generalize joinC is ++ rhs = bottom at k1 ⊢
  refine Has.left ?_ _
  refine Has.append ?_ ?_
  · refine Has.right ?_ _
    split
    · rename_i h; rw [h] at k1; exact k1
    · exact (k1.right _).left _
  · split
    · rename_i h; rw [h]; exact has_nil _
    · exact ((has_vis top).right _).left _

theorem sumLoop_indices (l : List Range) (is : List S) (rhs top : S) : Has (vis (is.flatten ++ l.flatMap Range.index)) (sumLoop is rhs top l) := by
  induction l generalizing is rhs top with
  | nil =>
    rw [List.flatMap_nil, List.append_nil, sumLoop]
    have k := has_sumSign is rhs top
    refine List.Sublist.trans ?_ k
    rw [vis_append, vis_append, List.append_assoc]
    exact List.sublist_append_left ..
  | cons r l ih =>
    rw [sumLoop, List.flatMap_cons]
    split
    · rw [vis_append]
      refine Has.append ?_ (by simpa using ih [r.index] r.rhs r.top)
      have k := has_sumSign is rhs top
      refine List.Sublist.trans ?_ k
      rw [vis_append, vis_append, List.append_assoc]
      exact List.sublist_append_left ..
    · simpa using ih (is ++ [r.index]) rhs top

theorem sumLoop_limits (l : List Range) (is : List S) (rhs top : S) :
    (∀ i ∈ is, Has (vis (i ++ rhs ++ top)) (sumLoop is rhs top l)) ∧ ∀ r ∈ l, Has (vis (r.index ++ r.rhs ++ r.top)) (sumLoop is rhs top l) := by
  have key : ∀ is : List S, ∀ rhs top : S, ∀ i ∈ is, Has (vis (i ++ rhs ++ top)) (sumSign is rhs top) := by
    intro is rhs top i hi
    refine List.Sublist.trans ?_ (has_sumSign is rhs top)
    refine List.Sublist.filter _ ?_
    exact List.Sublist.append (List.Sublist.append (List.sublist_flatten_of_mem hi) (List.Sublist.refl _)) (List.Sublist.refl _)
  induction l generalizing is rhs top with
  | nil => exact ⟨fun i hi => by rw [sumLoop]; exact key is rhs top i hi, nofun⟩
  | cons r l ih =>
    rw [sumLoop]
    split
    · obtain ⟨h1, h2⟩ := ih [r.index] r.rhs r.top
      refine ⟨fun i hi => (key is rhs top i hi).left _, fun q hq => ?_⟩
      rcases List.mem_cons.mp hq with rfl | hq
      · exact (h1 _ (List.mem_singleton_self _)).right _
      · exact (h2 q hq).right _
    · rename_i h
      simp only [not_or, not_not, ne_eq] at h
      obtain ⟨h1, h2⟩ := ih (is ++ [r.index]) rhs top
      refine ⟨fun i hi => h1 i (List.mem_append_left _ hi), fun q hq => ?_⟩
      rcases List.mem_cons.mp hq with rfl | hq
      · rw [h.1, h.2]
        exact h1 _ (by simp)
      · exact h2 q hq

/-- **C104** the sum signs show each index with its lower and its upper limit -/
theorem C104_limits (rs : List Range) {r : Range} (h : r ∈ rs) : (vis (r.index ++ r.rhs ++ r.top)).Sublist (vis (sumSigns rs)) := by
  cases rs with
  | nil => exact nomatch h
  | cons q l =>
    obtain ⟨h1, h2⟩ := sumLoop_limits l [q.index] q.rhs q.top
    rcases List.mem_cons.mp h with rfl | h
    · exact h1 _ (List.mem_singleton_self _)
    · exact h2 r h

theorem sumSigns_indices (rs : List Range) : Has (vis (rs.flatMap Range.index)) (sumSigns rs) := by
  cases rs with
  | nil => exact has_nil _
  | cons r l => simpa [sumSigns] using sumLoop_indices l [r.index] r.rhs r.top

theorem tex_trace (hs e) : (Ex.trace hs e).tex = "{\\rm tr}".toList ++ ('_' :: '{' :: hsLabel hs ++ ['}']) ++ bracketTex e.tex := by rw [Ex.tex.eq_def]
theorem tex_adj (e : Ex) : (Ex.adj e).tex = parenTex e.tex ++ "^\\dagger".toList := by rw [Ex.tex.eq_def]
theorem tex_spre (p e) : (Ex.spre p e).tex = (if p then "\\mathrm{SPost}".toList else "\\mathrm{SPre}".toList) ++ parenTex e.tex := by rw [Ex.tex.eq_def]
theorem tex_component (l a) : (Ex.component l a).tex = '{' :: ("\\rm ".toList ++ renderStr l) ++ ['}'] ++ a.call := by rw [Ex.tex.eq_def]
theorem tex_feedback (o i e) : (Ex.feedback o i e).tex = "\\left\\lfloor".toList ++ ('{' :: e.tex ++ ['}']) ++ "\\right\\rfloor".toList ++
    ('_' :: '{' :: (o ++ "\\rightarrow{}".toList ++ i) ++ ['}']) := by rw [Ex.tex.eq_def]
theorem tex_call (n a) : (Ex.call n a).tex = n ++ a.call := by rw [Ex.tex.eq_def]
theorem tex_plus (l) : (Ex.plus l).tex = joinTerms l.terms := by rw [Ex.tex.eq_def]
theorem tex_times (l) : (Ex.times l).tex = joinWith " ".toList l.texts := by rw [Ex.tex.eq_def]
theorem tex_tensor (l) : (Ex.tensor l).tex = joinWith " \\otimes ".toList l.texts := by rw [Ex.tex.eq_def]
theorem tex_series (l) : (Ex.series l).tex = joinWith " \\lhd ".toList l.texts := by rw [Ex.tex.eq_def]
theorem tex_concat (l) : (Ex.concat l).tex = joinWith " \\boxplus ".toList (l.parts 0) := by rw [Ex.tex.eq_def]
theorem tex_scale (m pc pt c t) : (Ex.scale m pc pt c t).tex = scaleTex m pc pt c.tex t.tex := by rw [Ex.tex.eq_def]

theorem has_call {args : Args} {w : S} (h : HasAll w args.plain) : Has w args.call := by
  cases args with
  | nil => rw [Args.plain] at h; cases h; exact has_nil _
  | cons p e l => rw [Args.plain] at h; rw [Args.call]; exact has_paren (has_join _ h)

theorem has_cc (m : Bool) : Has "c.c.".toList ((if m then " - ".toList else " + ".toList) ++ "c.c.".toList) := by
  have e : vis "c.c.".toList = "c.c.".toList := by decide +kernel
  have k := has_vis "c.c.".toList
  rw [e] at k
  exact k.right _

theorem has_plus : Has ['+'] "^+".toList := by
  have e : vis "^+".toList = ['^', '+'] := by decide +kernel
  rw [Has, e]
  exact List.Sublist.cons _ (List.Sublist.refl _)

theorem isCid_content {e : Ex} (h : e.isCid = true) : e.content = [] := by
  cases e <;> first | rfl | (exact absurd h (by simp [Ex.isCid]))

mutual
theorem Ex.has : (e : Ex) → Has e.content e.tex
  | .atom t => has_vis t
  | .call name args => by
    rw [tex_call, Ex.content]
    exact (has_vis name).append (has_call args.has.2.2.1)
  | .plus l => by rw [tex_plus, Ex.content]; exact has_terms l.has.2.1
  | .times l => by rw [tex_times, Ex.content]; exact has_join _ l.has.1
  | .tensor l => by rw [tex_tensor, Ex.content]; exact has_join _ l.has.1
  | .scale m pc pt c t => by rw [tex_scale, Ex.content]; exact has_scale c.has t.has
  | .comm d a b => by
    rw [tex_comm, Ex.content]
    exact (has_bracket ((a.has.left _).append b.has)).left _
  | .trace hs e => by
    rw [tex_trace, Ex.content]
    exact Has.append (Has.right (((has_vis (hsLabel hs)).left _).cons _ |>.cons _) _) (has_bracket e.has)
  | .adj e => by rw [tex_adj, Ex.content]; exact (has_paren e.has).left _
  | .plusCC m p e => by
    rw [tex_plusCC, Ex.content, List.append_assoc]
    exact (has_parenIf e.has).append (has_cc m)
  | .pinv p e => by rw [tex_pinv, Ex.content]; exact (has_parenIf e.has).append has_plus
  | .apply pa pb adjoint a b => by
    rw [tex_apply, Ex.content]
    split
    · exact ((has_parenIf b.has).left _).append (has_parenIf a.has)
    · exact ((has_parenIf a.has).left _).append (has_parenIf b.has)
  | .sopTimes p a b => by rw [tex_sopTimes, Ex.content]; exact (has_parenIf a.has).append (has_bracket b.has)
  | .spre post e => by rw [tex_spre, Ex.content]; exact (has_paren e.has).right _
  | .sum rs p e => by rw [tex_sum, Ex.content]; exact (sumSigns_indices rs).append (has_parenIf e.has)
  | .cid => has_nil _
  | .component label args => by
    rw [tex_component, Ex.content]
    exact Has.append ((((has_vis _).right _).left _).cons _) (has_call args.has.2.2.1)
  | .series l => by rw [tex_series, Ex.content]; exact has_join _ l.has.1
  | .concat l => by rw [tex_concat, Ex.content]; exact has_join _ (l.has.2.2.2 0)
  | .feedback o i e => by
    rw [tex_feedback, Ex.content, List.append_assoc]
    refine Has.append ?_ ?_
    · exact (((e.has.left _).cons _).right _).left _
    · exact ((((has_vis o).left _).append (has_vis i)).left _).cons _ |>.cons _
  | .sinv e => by rw [tex_sinv, Ex.content]; exact (has_bracket e.has).left _
theorem Args.has : (l : Args) → HasAll l.content l.texts ∧ HasTerms l.content l.terms ∧ HasAll l.content l.plain ∧ ∀ n, HasAll l.content (l.parts n)
  | .nil => ⟨.nil, .nil, .nil, fun n => by
    rw [Args.parts, Args.content]
    split
    · exact .nil
    · exact .skip .nil⟩
  | .cons p e l => by
    obtain ⟨h1, h2, h3, h4⟩ := l.has
    have he := e.has
    refine ⟨?_, ?_, ?_, fun n => ?_⟩
    · rw [Args.content, Args.texts]; exact .cons (has_parenIf he) h1
    · rw [Args.content, Args.terms]
      have k := has_signed (p := p) he
      refine .cons (c := (signed p e.tex).1) (t := (signed p e.tex).2) ?_ h2
      split
      · rename_i hc
        have k2 : ∀ u : S, e.tex ≠ '-' :: u := by
          intro u hu
          rw [hu] at hc
          exact absurd (show ('-' : Char) = '+' from hc) (by decide)
        have k3 : (signed p e.tex).2 = parenIf p e.tex := by
          unfold signed
          split
          · rename_i u hu; exact absurd hu (k2 u)
          · rfl
        rw [k3]
        exact has_parenIf he
      · exact k
    · rw [Args.content, Args.plain]; exact .cons he h3
    · rw [Args.content, Args.parts]
      split
      · rename_i hc
        rw [isCid_content hc]
        exact h4 _
      · have k : HasAll (e.content ++ l.content) ((if e.isSeries then parenTex e.tex else parenIf p e.tex) :: l.parts 0) := by
          refine .cons ?_ (h4 0)
          split
          · exact has_paren he
          · exact has_parenIf he
        split
        · exact k
        · exact .skip k
end

/-- **C104** no symbol, state, scalar, index or label of an expression is lost in the LaTeX, and they are in the order of the operands -/
theorem C104_content (e : Ex) : e.content.Sublist (vis e.tex) := e.has

/-- identities, `n` of them, before other operands -/
def cids : ℕ → Args → Args
  | 0, l => l
  | n + 1, l => .cons false .cid (cids n l)

theorem parts_cids (n k : ℕ) (l : Args) : (cids n l).parts k = l.parts (n + k) := by
  induction n generalizing k with
  | zero => rw [cids, Nat.zero_add]
  | succ n ih =>
    rw [cids, Args.parts, if_pos (by rfl), ih]
    congr 1
    omega

/-- **C104** in a concatenation `n` identities in a row are printed as one identity with `n` channels, before another operand and at the end -/
theorem C104_identities (n : ℕ) (hn : n ≠ 0) (p : Bool) (e : Ex) (l : Args) (he : e.isCid = false) :
    (cids n .nil).parts 0 = [cidTex n] ∧ (cids n (.cons p e l)).parts 0 = cidTex n :: (Args.cons p e l).parts 0 ∧
    (Args.cons p e l).parts 0 = (if e.isSeries then parenTex e.tex else parenIf p e.tex) :: l.parts 0 := by
  have h0 : ∀ m, (Args.cons p e l).parts m = (if m = 0 then [] else [cidTex m]) ++ (if e.isSeries then parenTex e.tex else parenIf p e.tex) :: l.parts 0 := by
    intro m
    rw [Args.parts, if_neg (by rw [he]; simp)]
  refine ⟨?_, ?_, ?_⟩
  · rw [parts_cids, Args.parts, if_neg (by omega), Nat.add_zero]
  · rw [parts_cids, h0, h0, if_neg (by omega), if_pos rfl]
    rfl
  · rw [h0, if_pos rfl]; rfl

example : exTrace.content = "q_{1}\\otimesq_{2}\\hat{A}_{1}^{(q)}\\hat{B}^{(q)}-\\hat{C}^{(q)\\dagger}".toList := by decide +kernel
example : exCircuit.content = "A_{1}\\alphaB10".toList := by decide +kernel

end QNET.Latex
