import Verif.SympyPrint.LatexOp

/-!
# C103: states, products of basis states, and what is not complete LaTeX
-/

namespace QNET.Latex

theorem ketBraPkg_eq (sh : ShowHs) (i j h : S) : ketBraPkg sh i j h = statePkg false .no i h ++ "\\!".toList ++ statePkg true sh j h := by
  have e : hsScript .no h = [] := rfl
  unfold ketBraPkg statePkg
  rw [e]
  generalize hsScript sh h = v
  generalize "\\Ket{".toList = u
  generalize "\\Bra{".toList = u'
  generalize "\\!".toList = u''
  simp

theorem txt_ketBraPkg {sh : ShowHs} {i j h : S} (hi : Txt i) (hj : Txt j) (hh : Txt h) : Txt (ketBraPkg sh i j h) := by
  have m3 : "\\!".toList = ['\\', '!'] := by decide +kernel
  have k1 : Nuc (statePkg false .no i h) := by
    have := nuc_mathMac (w := "Ket".toList) (by decide +kernel) hi
    have e : hsScript .no h = [] := rfl
    have m1 : "\\Ket{".toList = '\\' :: ("Ket".toList ++ ['{']) := by decide +kernel
    unfold statePkg
    rw [e, if_neg (by simp), m1]
    generalize "Ket".toList = u at *
    simpa using this
  have k3 : Txt (statePkg true sh j h) := txt_statePkg hj hh
  rw [ketBraPkg_eq, m3]
  generalize statePkg true sh j h = t at k3
  generalize statePkg false .no i h = s at k1
  intro a ha
  obtain ⟨f, g, k3⟩ := k3 _ (ha.flags false false)
  refine ⟨f, g, ?_⟩
  have e : (a.flags false false).run ['\\', '!'] = some (a.flags false false) := by rw [ha.eq]; rfl
  have k4 := (k1 a ha).append (x := '\\') (t := '!' :: t) (by decide) (Go.pre e k3)
  rw [flags_flags] at k4; simpa using k4

/-- **C103** states and products of states are complete LaTeX -/
theorem C103_states {sh : ShowHs} {i j : S} {hs : List S} (hi : GoodLabel i) (hj : GoodLabel j) (hh : ∀ l ∈ hs, GoodLabel l) :
    valid (ketFmt sh (renderStr i) (hsLabel hs)) = true ∧ valid (braFmt sh (renderStr i) (hsLabel hs)) = true ∧
    valid (ketBraFmt sh (renderStr i) (renderStr j) (hsLabel hs)) = true ∧ valid (braKetFmt sh (renderStr i) (renderStr j) (hsLabel hs)) = true ∧
    (∀ bra, valid (statePkg bra sh (renderStr i) (hsLabel hs)) = true) ∧ valid (ketBraPkg sh (renderStr i) (renderStr j) (hsLabel hs)) = true ∧
    valid (braKetPkg .no (renderStr i) (renderStr j) (hsLabel hs)) = true :=
  have ti := txt_label hi
  have tj := txt_label hj
  have th := txt_hsLabel hh
  ⟨(txt_ket ti th).valid, (txt_bra ti th).valid, (txt_ketBra ti tj th).valid, (txt_braKet ti tj th).valid, fun _ => (txt_statePkg ti th).valid,
    (txt_ketBraPkg ti tj th).valid, (nuc_braKetPkg ti tj).txt.valid⟩

/-! #### products of basis states -/

theorem trWord_char {c : Char} (h : c.isAlphanum = true) : renderStr [c] = [c] := by
  have hg : GoodName [c] := by
    refine ⟨by simp, by simpa using h, ?_, ?_, ?_⟩
    · rw [withDigits]
      by_cases ha : c.isAlpha = true
      · simp [ha]
      · simp [ha]
    · have : ∀ w ∈ badWords, w.length ≠ 1 := by decide +kernel
      exact fun k => this _ k rfl
    · intro k
      have := congrArg List.length k
      have e : "omicron".toList.length = 7 := by decide +kernel
      rw [e] at this
      simp at this
  rw [(name_cases hg).1]
  by_cases ha : c.isAlpha = true
  · have := (Fix.single c ha).1
    rwa [splitSep_none (by simpa using alpha_not_sep ha)] at this
  · exact trWord_other (c := c) (by simp) (by simpa using ha)

/-- **C103** labels of products of basis states are complete LaTeX if they are joined by commas, or if all labels are single letters or digits -/
theorem C103_tensor_partial {small : Bool} {labels : List S} (h : ∀ l ∈ labels, GoodLabel l)
    (hc : small = false ∨ (∃ l ∈ labels, isSingle (renderStr l) = false) ∨ ∀ l ∈ labels, ∃ c, l = [c] ∧ c.isAlphanum = true) :
    valid (tensorLabel small labels) = true := by
  have hj : Txt (joinC (labels.map renderStr)) := txt_joinC (by simpa using fun l hl => txt_label (h l hl))
  rw [tensorLabel]
  split
  · rename_i hs
    rw [Bool.and_eq_true, List.all_eq_true] at hs
    rcases hc with hc | ⟨l, hl, hc⟩ | hc
    · rw [hc] at hs; exact absurd hs.1 Bool.false_ne_true
    · have := hs.2 _ (List.mem_map_of_mem hl)
      rw [hc] at this; exact absurd this Bool.false_ne_true
    · have e : labels.map renderStr = labels := by
        refine (List.map_congr_left fun l hl => ?_).trans (List.map_id _)
        obtain ⟨c, rfl, hc⟩ := hc l hl
        exact trWord_char hc
      rw [e]
      have hp : ∀ c ∈ labels.flatten, plain c = true := by
        intro c hcm
        obtain ⟨l, hl, hcm⟩ := List.mem_flatten.mp hcm
        obtain ⟨d, rfl, hd⟩ := hc l hl
        rw [List.mem_singleton] at hcm
        rw [hcm]; exact tame_plain (alnum_tame hd)
      by_cases h0 : labels.flatten = []
      · rw [h0]; exact Txt.nil.valid
      · exact (nuc_plain hp h0).txt.valid
  · exact hj.valid

/-- **C103** both labels are in the text, in order, between delimiters that do not depend on the labels; the label of the space follows -/
theorem C103_state_parts (sh : ShowHs) : ∃ post post' : S → S, (∀ h, sh ≠ .no → ∃ u v, post h = u ++ h ++ v) ∧ (∀ h, sh ≠ .no → ∃ u v, post' h = u ++ h ++ v) ∧
    ∀ i j h, ketFmt sh i h = "\\left\\lvert ".toList ++ i ++ " \\right\\rangle".toList ++ post h ∧
      braFmt sh i h = "\\left\\langle ".toList ++ i ++ " \\right\\rvert".toList ++ post' h ∧
      ketBraFmt sh i j h = "\\left\\lvert ".toList ++ i ++ " \\middle\\rangle\\!\\middle\\langle ".toList ++ j ++ " \\right\\rvert".toList ++ post h ∧
      braKetFmt sh i j h = "\\left\\langle ".toList ++ i ++ " \\middle\\vert ".toList ++ j ++ " \\right\\rangle".toList ++ post h ∧
      ketBraPkg sh i j h = statePkg false .no i h ++ "\\!".toList ++ statePkg true sh j h ∧
      statePkg false sh i h = "\\Ket{".toList ++ i ++ ['}'] ++ post h ∧ statePkg true sh i h = "\\Bra{".toList ++ i ++ ['}'] ++ post h := by
  have key : ∀ sh h, sh ≠ ShowHs.no → ∃ u v, hsScript sh h = u ++ h ++ v := by
    intro sh h hn
    cases sh with
    | no => exact absurd rfl hn
    | sup => exact ⟨['^', '{', '('], [')', '}'], by simp [hsScript, inParens]⟩
    | sub => exact ⟨['_', '{', '('], [')', '}'], by simp [hsScript, inParens]⟩
  refine ⟨hsScript sh, hsScript (if sh = .sub then .sup else sh), fun h hn => key _ _ hn, fun h hn => key _ _ (by split <;> simp_all), fun i j h => ?_⟩
  refine ⟨?_, ?_, ?_, ?_, ketBraPkg_eq _ _ _ _, ?_, ?_⟩
  · unfold ketFmt; with_reducible rfl
  · unfold braFmt; with_reducible rfl
  · unfold ketBraFmt; with_reducible rfl
  · unfold braKetFmt; with_reducible rfl
  · unfold statePkg; rw [if_neg (by simp)]
  · unfold statePkg; rw [if_pos rfl]

/-! ### what is not complete -/

/-- **C103** refuted: the basis states 'up', 'g' of a product of small spaces are printed without a space: the command `\uparrowg` -/
theorem C103_refuted_tensor : tensorLabel true ["up".toList, "g".toList] = "\\uparrowg".toList ∧ valid (tensorLabel true ["up".toList, "g".toList]) = false ∧
    GoodLabel "up".toList ∧ GoodLabel "g".toList := by
  refine ⟨by decide +kernel, by decide +kernel, ?_, ?_⟩ <;> (unfold GoodLabel; decide +kernel)

/-- **C103** refuted: names of operators with digits have a subscript in text mode -/
theorem C103_refuted_digits : renderOp .no false false "A1".toList [] = "\\text{A_{1}}".toList ∧ valid (renderOp .no false false "A1".toList []) = false := by
  decide +kernel

/-- **C103** refuted: symbols that are not among the single letters become math in text mode -/
theorem C103_refuted_symbols : renderOp .no false false "varsigma".toList [] = "\\text{\\varsigma}".toList ∧
    valid (renderOp .no false false "varsigma".toList []) = false ∧ renderOp .no false false "hbar".toList [] = "\\text{\\hbar}".toList ∧
    valid (renderOp .no false false "hbar".toList []) = false := by decide +kernel

/-- **C103** refuted: inner products with the braket package have a superscript without braces -/
theorem C103_refuted_braket : braKetPkg .sup "0".toList "1".toList "q".toList = "\\Braket{0 | 1}^(q)".toList ∧
    valid (braKetPkg .sup "0".toList "1".toList "q".toList) = false ∧ valid (braKetPkg .sub "0".toList "1".toList "q".toList) = false := by decide +kernel

/-- **C103** refuted: with `show_hs_label='subscript'` bras have the label as a superscript (without the braket package) -/
theorem C103_refuted_bra (label h : S) : braFmt .sub label h = braFmt .sup label h := rfl

/-- the reader rejects what is not LaTeX -/
example : valid "\\left\\lvert 0 \\right".toList = false ∧ valid "a_{1}_{2}".toList = false ∧ valid "\\text{a".toList = false ∧ valid "a}".toList = false ∧
    valid "\\foo".toList = false ∧ valid "a^".toList = false ∧ valid "\\hat".toList = false ∧ valid "a^{b}^{c}".toList = false := by decide +kernel
/-- and accepts what is -/
example : valid "\\hat{a}_{1,(q)}^{\\dagger}".toList = true ∧ valid "\\left\\langle a_{1} \\middle\\vert b \\right\\rangle^{(q_{1} \\otimes q_{2})}".toList = true := by
  decide +kernel

example : GoodLabel "alpha_1,beta__2".toList ∧ renderStr "alpha_1,beta__2".toList = "\\alpha_{1,\\beta}^{2}".toList := by
  unfold GoodLabel; decide +kernel
example : GoodName "sigma".toList ∧ renderOp .sup false true "sigma_x".toList ["q1".toList] = "\\hat{\\sigma}_{x}^{(q_{1})\\dagger}".toList := by
  unfold GoodName; decide +kernel
example : GoodName "Foo".toList ∧ renderOp .sub false true "Foo_mu".toList ["q1".toList, "atom".toList] = "\\text{Foo}_{\\mu,(q_{1} \\otimes \\text{atom})}^{\\dagger}".toList := by
  unfold GoodName; decide +kernel
example : GoodName "L".toList ∧ renderOp .no true false "L".toList ["q".toList] = "\\mathrm{L}".toList := by unfold GoodName; decide +kernel
example : ketFmt .sup (tensorLabel true ["0".toList, "1".toList]) (hsLabel ["a".toList, "b".toList]) =
    "\\left\\lvert 01 \\right\\rangle^{(a \\otimes b)}".toList := by decide +kernel

end QNET.Latex
