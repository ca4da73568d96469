import Verif.Circuit.Model

/-!
# Results do not depend on the recursion limit

If evaluation succeeds within a recursion limit, then it gives the same result for all larger limits; and if it succeeds in the
strict variant then it gives the same result in the code.
-/

namespace QNET.Circuit

open QNET.Perm QNET.CPerm

variable {A : Type} [Ring A] [StarRing A] [Algebra ℂ A]

/-- a successful result of `x` is also the result of `y` -/
def Le {α : Type} (x y : Res α) : Prop := ∀ v, x = .ok v → y = .ok v

theorem Le.refl {α : Type} (x : Res α) : Le x x := fun _ h => h
theorem Le.error {α : Type} (e : Err) (y : Res α) : Le (.error e) y := fun _ h => nomatch h

theorem Le.bind {α β : Type} {x y : Res α} {f g : α → Res β} (h : Le x y) (h' : ∀ v, Le (f v) (g v)) : Le (x >>= f) (y >>= g) := by
  intro v hv
  cases hx : x with
  | error e => rw [hx] at hv; cases hv
  | ok u =>
    rw [hx] at hv
    rw [h u hx]
    exact h' u v hv

theorem Le.mapM {α β : Type} {f g : α → Res β} (h : ∀ x, Le (f x) (g x)) (l : List α) : Le (l.mapM f) (l.mapM g) := by
  induction l with
  | nil => exact Le.refl _
  | cons a l ih =>
    rw [List.mapM_cons, List.mapM_cons]
    exact (h a).bind fun _ => ih.bind fun _ => Le.refl _

theorem Le.matchOpt {α β : Type} {x y : Res (Option α)} {f : α → Res β} {g g' : Res β} (h : Le x y) (h' : Le g g') :
    Le (x >>= fun o => match o with | some r => f r | none => g) (y >>= fun o => match o with | some r => f r | none => g') := by
  apply h.bind
  intro v
  cases v with
  | none => exact h'
  | some r => exact Le.refl _

structure LeOps (R R' : Ops A) : Prop where
  series : ∀ l, Le (R.series l) (R'.series l)
  concat : ∀ l, Le (R.concat l) (R'.concat l)
  feedback : ∀ c o i, Le (R.feedback c o i) (R'.feedback c o i)
  inverse : ∀ c, Le (R.inverse c) (R'.inverse c)

variable {R R' : Ops A}

theorem regroup_mono (h : LeOps R R') : ∀ (st : List Nat) (bs : List (Circ A)), Le (regroup R st bs) (regroup R' st bs)
  | [], _ => Le.refl _
  | bl :: st, bs => by
    simp only [regroup]
    apply (Le.refl _).bind
    rintro ⟨t, n, r⟩
    dsimp only
    split
    · exact Le.refl _
    · exact (h.concat _).bind fun _ => (regroup_mono h st r).bind fun _ => Le.refl _

mutual
theorem ownBlocks_mono (h : LeOps R R') : ∀ c : Circ A, Le (ownBlocks R c) (ownBlocks R' c)
  | .perm p => Le.refl _
  | .concat ops => by
    simp only [ownBlocks]
    exact (ownBlocksList_mono h ops).bind fun _ => (Le.refl _).bind fun _ => regroup_mono h _ _
  | .sym _ _ => Le.refl _
  | .slh _ => Le.refl _
  | .id1 => Le.refl _
  | .zero => Le.refl _
  | .series _ => Le.refl _
  | .fb _ _ _ => Le.refl _
  | .inv _ => Le.refl _
theorem ownBlocksList_mono (h : LeOps R R') : ∀ l : List (Circ A), Le (ownBlocksList R l) (ownBlocksList R' l)
  | [] => Le.refl _
  | c :: cs => by
    simp only [ownBlocksList]
    exact (ownBlocks_mono h c).bind fun _ => (ownBlocksList_mono h cs).bind fun _ => Le.refl _
end

theorem getBlocks_mono (h : LeOps R R') (c : Circ A) (st : List Nat) : Le (getBlocks R c st) (getBlocks R' c st) := by
  cases c with
  | concat ops =>
    simp only [getBlocks]
    exact (ownBlocksList_mono h ops).bind fun _ => regroup_mono h _ _
  | _ => exact Le.refl _

theorem slhFeedback_mono {b b' : Bool} (hb : b' = true → b = true) (s : SLH A) (o i : Nat) : Le (slhFeedback b s o i) (slhFeedback b' s o i) := by
  unfold slhFeedback
  cases b <;> cases b'
  · exact Le.refl _
  · exact absurd (hb rfl) (by simp)
  · split
    · exact Le.error _ _
    · simp only [Bool.false_and, Bool.false_eq_true, if_false]; exact Le.refl _
  · exact Le.refl _

theorem feedbackMethodWith_mono {b b' : Bool} (hb : b' = true → b = true) (h : LeOps R R')
    {F F' : List (Circ A) → Nat → Nat → Res (Circ A)} (hF : ∀ l o i, Le (F l o i) (F' l o i)) (c : Circ A) (o i : Nat) :
    Le (feedbackMethodWith b R F c o i) (feedbackMethodWith b' R' F' c o i) := by
  cases c with
  | slh s => exact slhFeedback_mono hb s o i
  | perm p => exact Le.refl _
  | concat ops => exact hF ops o i
  | _ => exact h.feedback _ _ _

theorem concatFeedback_mono {b b' : Bool} (hb : b' = true → b = true) (h : LeOps R R') (ops : List (Circ A)) (o i : Nat) :
    Le (concatFeedback b R ops o i) (concatFeedback b' R' ops o i) := by
  have hfb := feedbackMethodWith_mono hb h (F := fun l o i => R.feedback (.concat l) o i) (F' := fun l o i => R'.feedback (.concat l) o i)
    (fun l o i => h.feedback _ _ _)
  unfold concatFeedback
  dsimp only
  split
  · split
    · exact Le.refl _
    · exact (hfb _ _ _).bind fun _ => h.concat _
  · apply (Le.refl _).bind
    rintro ⟨inIdx, inBlock⟩
    apply (Le.refl _).bind
    rintro ⟨outIdx, outBlock⟩
    apply (ownBlocks_mono h _).bind
    intro blocks
    dsimp only
    split
    · apply (h.concat _).bind
      intro before
      split
      · exact (hfb _ _ _).bind fun _ => (h.concat _).bind fun _ => (h.concat _).bind fun _ => h.concat _
      · exact (Le.refl _).bind fun _ => (h.concat _).bind fun _ => (h.concat _).bind fun _ => h.concat _
    · split
      · exact (h.concat _).bind fun _ => (h.concat _).bind fun _ => (h.concat _).bind fun _ => (Le.refl _).bind fun _ =>
          (h.concat _).bind fun _ => (h.series _).bind fun _ => h.series _
      · exact (h.concat _).bind fun _ => (h.concat _).bind fun _ => (h.concat _).bind fun _ => (Le.refl _).bind fun _ =>
          (h.concat _).bind fun _ => (h.series _).bind fun _ => h.series _

theorem feedbackMethod_mono {b b' : Bool} (hb : b' = true → b = true) (h : LeOps R R') (c : Circ A) (o i : Nat) :
    Le (feedbackMethod b R c o i) (feedbackMethod b' R' c o i) :=
  feedbackMethodWith_mono hb h (concatFeedback_mono hb h) c o i

theorem factorizeForRhs_mono (h : LeOps R R') (p : List Nat) (rhs : Circ A) : Le (factorizeForRhs R p rhs) (factorizeForRhs R' p rhs) := by
  unfold factorizeForRhs
  apply (Le.refl _).bind
  intro st
  apply (Le.refl _).bind
  rintro ⟨bp, ws⟩
  apply (Le.refl _).bind
  intro f
  split
  · exact Le.refl _
  · refine (Le.refl _).bind fun _ => (Le.refl _).bind fun _ => (h.concat _).bind fun _ => (getBlocks_mono h _ _).bind fun _ =>
      (Le.refl _).bind fun _ => ?_
    apply Le.bind
    · apply Le.mapM
      intro k
      exact (Le.refl _).bind fun _ => (Le.refl _).bind fun _ => h.series _
    · intro sm
      exact (h.concat _).bind fun _ => (h.inverse _).bind fun _ => (h.series _).bind fun _ => (h.inverse _).bind fun _ =>
        (h.series _).bind fun _ => Le.refl _

theorem tensorDecompose_mono (h : LeOps R R') (a b : Circ A) : Le (tensorDecompose R a b) (tensorDecompose R' a b) := by
  have key : Le (do
      let l ← blockStructure a
      let r ← blockStructure b
      let st ← commonStructure (l.length + r.length + 1) l r
      if st.length > 1 then do
        let bl ← getBlocks R a st
        let br ← getBlocks R b st
        let cs ← (bl.zip br).mapM (fun (a, b) => R.series [a, b])
        let c ← R.concat cs
        .ok (some c)
      else .ok none) (do
      let l ← blockStructure a
      let r ← blockStructure b
      let st ← commonStructure (l.length + r.length + 1) l r
      if st.length > 1 then do
        let bl ← getBlocks R' a st
        let br ← getBlocks R' b st
        let cs ← (bl.zip br).mapM (fun (a, b) => R'.series [a, b])
        let c ← R'.concat cs
        .ok (some c)
      else .ok none) := by
    refine (Le.refl _).bind fun _ => (Le.refl _).bind fun _ => (Le.refl _).bind fun _ => ?_
    split
    · refine (getBlocks_mono h _ _).bind fun _ => (getBlocks_mono h _ _).bind fun _ => ?_
      apply Le.bind
      · apply Le.mapM
        rintro ⟨x, y⟩
        exact h.series _
      · intro cs
        exact (h.concat _).bind fun _ => Le.refl _
    · exact Le.refl _
  cases b with
  | perm q => exact Le.refl _
  | _ => exact key

theorem factorPermutation_mono (h : LeOps R R') (p : List Nat) (b : Circ A) : Le (factorPermutation R p b) (factorPermutation R' p b) := by
  unfold factorPermutation
  apply (Le.refl _).bind
  intro rbs
  split
  · exact Le.refl _
  · split
    · apply (factorizeForRhs_mono h _ _).bind
      rintro ⟨x, y, z⟩
      dsimp only
      split
      · exact Le.refl _
      · exact (h.series _).bind fun _ => Le.refl _
    · exact Le.refl _

theorem seriesRule_mono (h : LeOps R R') (a b : Circ A) : Le (seriesRule R a b) (seriesRule R' a b) := by
  unfold seriesRule
  apply (Le.refl _).bind
  intro first
  cases first with
  | some c => exact Le.refl _
  | none =>
    apply (tensorDecompose_mono h a b).bind
    intro o
    cases o with
    | some c => exact Le.refl _
    | none =>
      dsimp only
      apply Le.bind
      · split
        · exact factorPermutation_mono h _ _
        · exact Le.refl _
      · intro fourth; exact Le.refl _

theorem concatRule_mono (h : LeOps R R') (a b : Circ A) : Le (concatRule R a b) (concatRule R' a b) := by
  unfold concatRule
  dsimp only
  split
  · exact Le.refl _
  · exact Le.refl _
  · exact Le.refl _
  · exact Le.refl _
  · split
    · exact (h.series _).bind fun _ => (h.series _).bind fun _ => (h.concat _).bind fun _ => (h.concat _).bind fun _ =>
        (h.series _).bind fun _ => Le.refl _
    · exact (h.series _).bind fun _ => (h.concat _).bind fun _ => (h.concat _).bind fun _ =>
        (h.series _).bind fun _ => Le.refl _
    · exact (h.series _).bind fun _ => (h.concat _).bind fun _ => (h.concat _).bind fun _ =>
        (h.series _).bind fun _ => Le.refl _
    · exact Le.refl _

theorem seriesFeedback_mono {b b' : Bool} (hb : b' = true → b = true) (h : LeOps R R') (c : Circ A) (o i : Nat) :
    Le (seriesFeedback b R c o i) (seriesFeedback b' R' c o i) := by
  unfold seriesFeedback
  refine (h.inverse _).bind fun _ => (h.inverse _).bind fun _ => ?_
  split
  · exact Le.refl _
  · exact (feedbackMethod_mono hb h _ _ _).bind fun _ => Le.refl _

theorem pullOutPermLhs_mono (h : LeOps R R') (p : List Nat) (rest : List (Circ A)) (o i : Nat) :
    Le (pullOutPermLhs R p rest o i) (pullOutPermLhs R' p rest o i) := by
  unfold pullOutPermLhs
  apply (Le.refl _).bind
  rintro ⟨x, y⟩
  exact (h.series _).bind fun _ => (h.feedback _ _ _).bind fun _ => (h.series _).bind fun _ => Le.refl _

theorem pullOutPermRhs_mono (h : LeOps R R') (p : List Nat) (rest : List (Circ A)) (o i : Nat) :
    Le (pullOutPermRhs R rest p o i) (pullOutPermRhs R' rest p o i) := by
  unfold pullOutPermRhs
  apply (Le.refl _).bind
  rintro ⟨x, y⟩
  exact (h.series _).bind fun _ => (h.feedback _ _ _).bind fun _ => (h.series _).bind fun _ => Le.refl _

theorem threeBlocks_mono (h : LeOps R R') (c : Circ A) (k : Nat) : Le (threeBlocks R c k) (threeBlocks R' c k) := by
  unfold threeBlocks
  apply (Le.refl _).bind
  rintro ⟨x, y⟩
  exact (Le.refl _).bind fun _ => (Le.refl _).bind fun _ => (getBlocks_mono h _ _).bind fun _ => Le.refl _

theorem concat3_mono (h : LeOps R R') (x y z : Circ A) : Le (concat3 R x y z) (concat3 R' x y z) :=
  (h.concat _).bind fun _ => h.concat _

theorem pullOutBlocksLhs_mono (h : LeOps R R') (c : Circ A) (rest : List (Circ A)) (o i : Nat) :
    Le (pullOutBlocksLhs R c rest o i) (pullOutBlocksLhs R' c rest o i) := by
  unfold pullOutBlocksLhs
  apply (threeBlocks_mono h _ _).bind
  rintro ⟨before, block, after, nb, nm, na⟩
  dsimp only
  split
  · exact (concat3_mono h _ _ _).bind fun _ => (concat3_mono h _ _ _).bind fun _ => (h.series _).bind fun _ =>
      (h.feedback _ _ _).bind fun _ => (h.series _).bind fun _ => Le.refl _
  · split
    · exact (concat3_mono h _ _ _).bind fun _ => (h.series _).bind fun _ =>
        (h.feedback _ _ _).bind fun _ => (h.series _).bind fun _ => Le.refl _
    · exact Le.refl _

theorem pullOutBlocksRhs_mono (h : LeOps R R') (c : Circ A) (rest : List (Circ A)) (o i : Nat) :
    Le (pullOutBlocksRhs R rest c o i) (pullOutBlocksRhs R' rest c o i) := by
  unfold pullOutBlocksRhs
  apply (threeBlocks_mono h _ _).bind
  rintro ⟨before, block, after, nb, nm, na⟩
  dsimp only
  split
  · exact (concat3_mono h _ _ _).bind fun _ => (concat3_mono h _ _ _).bind fun _ => (h.series _).bind fun _ =>
      (h.feedback _ _ _).bind fun _ => (h.series _).bind fun _ => Le.refl _
  · split
    · exact (concat3_mono h _ _ _).bind fun _ => (h.series _).bind fun _ =>
        (h.feedback _ _ _).bind fun _ => (h.series _).bind fun _ => Le.refl _
    · exact Le.refl _

theorem feedbackRules_mono {b b' : Bool} (hb : b' = true → b = true) (h : LeOps R R') (c : Circ A) (o i : Nat) :
    Le (feedbackRules b R c o i) (feedbackRules b' R' c o i) := by
  cases c with
  | series ops =>
    unfold feedbackRules
    apply (seriesFeedback_mono hb h _ _ _).bind
    intro x
    cases x with
    | some r => exact Le.refl _
    | none =>
      dsimp only
      apply Le.bind
      · unfold feedbackLhsRules
        split
        · exact pullOutPermLhs_mono h _ _ _ _
        · exact pullOutBlocksLhs_mono h _ _ _ _
        · exact Le.refl _
      · intro y
        cases y with
        | some r => exact Le.refl _
        | none =>
          dsimp only
          unfold feedbackRhsRules
          split
          · exact Le.refl _
          · split
            · exact pullOutPermRhs_mono h _ _ _ _
            · exact pullOutBlocksRhs_mono h _ _ _ _
            · exact Le.refl _
  | _ => exact Le.refl _

/-! ### the engine -/

section Engine
variable {α : Type} {r r' : α → α → Res (Option α)}

theorem combine_mono (h : ∀ x y, Le (r x y) (r' x y)) (ne : α → Bool) (fl : α → Option (List α)) :
    ∀ (f f' : Nat), f ≤ f' → ∀ a b, Le (Engine.combine r ne fl f a b) (Engine.combine r' ne fl f' a b)
  | 0, _, _, a, b => Le.error _ _
  | f + 1, 0, hf, a, b => absurd hf (by omega)
  | f + 1, f' + 1, hf, a, b => by
    have ih := combine_mono h ne fl f f' (by omega)
    intro v hv
    unfold Engine.combine at hv ⊢
    split at hv
    · rename_i x y b' hx
      split at hv
      · cases hv
      · rename_i hr; rw [h _ _ _ hr]; exact hv
      · rename_i c hr
        rw [h _ _ _ hr]
        simp only
        split at hv
        · rename_i hne
          rw [if_pos hne]; exact ih _ _ _ hv
        · rename_i hne
          rw [if_neg hne]
          split at hv
          · cases hv
          · rename_i m hm
            rw [ih _ _ _ hm]
            exact ih _ _ _ hv
    · exact hv

theorem reduce_mono (h : ∀ x y, Le (r x y) (r' x y)) (ne : α → Bool) (fl : α → Option (List α)) :
    ∀ (f f' : Nat), f ≤ f' → ∀ l, Le (Engine.reduce r ne fl f l) (Engine.reduce r' ne fl f' l)
  | 0, _, _, l => Le.error _ _
  | f + 1, 0, hf, l => absurd hf (by omega)
  | f + 1, f' + 1, hf, l => by
    have ih := reduce_mono h ne fl f f' (by omega)
    intro v hv
    unfold Engine.reduce at hv ⊢
    split at hv
    · rename_i hl; rw [if_pos hl]; exact hv
    · rename_i hl
      rw [if_neg hl]
      split at hv
      · cases hv
      · rename_i a ha
        rw [ih _ _ ha]
        simp only
        split at hv
        · cases hv
        · rename_i b hb
          rw [ih _ _ hb]
          exact combine_mono h ne fl f f' (by omega) _ _ _ hv

theorem matchReplaceBinary_mono (h : ∀ x y, Le (r x y) (r' x y)) (e : α) (ne : α → Bool) (fl : α → Option (List α))
    {f f' : Nat} (hf : f ≤ f') (l : List α) :
    Le (Engine.matchReplaceBinary r e ne fl f l) (Engine.matchReplaceBinary r' e ne fl f' l) := by
  intro v hv
  unfold Engine.matchReplaceBinary at hv ⊢
  cases hr : Engine.reduce r ne fl f l with
  | error e => rw [hr] at hv; cases hv
  | ok m => rw [hr] at hv; rw [reduce_mono h ne fl f f' hf l m hr]; exact hv

end Engine

/-! ### the entry points -/

theorem seriesCreate_mono (h : LeOps R R') {f f' : Nat} (hf : f ≤ f') (l : List (Circ A)) :
    Le (seriesCreate R f l) (seriesCreate R' f' l) := by
  unfold seriesCreate
  split
  · exact Le.refl _
  · rename_i m hm
    split
    · intro v hv
      cases hr : Engine.matchReplaceBinary (seriesRule R) .id1 isId1 flatSeries f m with
      | error e => rw [hr] at hv; cases hv
      | ok x =>
        rw [hr] at hv
        rw [matchReplaceBinary_mono (seriesRule_mono h) _ _ _ hf m x hr]; exact hv
    · exact Le.refl _

theorem concatCreate_mono (h : LeOps R R') {f f' : Nat} (hf : f ≤ f') (l : List (Circ A)) :
    Le (concatCreate R f l) (concatCreate R' f' l) := by
  intro v hv
  unfold concatCreate Engine.createAssoc at hv ⊢
  cases hm : Engine.filterNeutral .zero isZero (Engine.assoc flatConcat l) with
  | single c => rw [hm] at hv; exact hv
  | operands m =>
    rw [hm] at hv
    simp only at hv ⊢
    cases hr : Engine.matchReplaceBinary (concatRule R) .zero isZero flatConcat f m with
    | error e => rw [hr] at hv; cases hv
    | ok x =>
      rw [hr] at hv
      rw [matchReplaceBinary_mono (concatRule_mono h) _ _ _ hf m x hr]; exact hv

theorem feedbackCreate_mono {b b' : Bool} (hb : b' = true → b = true) (h : LeOps R R') (c : Circ A) (o i : Nat) :
    Le (feedbackCreate b R c o i) (feedbackCreate b' R' c o i) := by
  have gen : Le (do
      match ← feedbackRules b R c o i with
      | some r => .ok r
      | none => .ok (.fb c o i)) (do
      match ← feedbackRules b' R' c o i with
      | some r => .ok r
      | none => .ok (.fb c o i)) := (feedbackRules_mono hb h c o i).bind fun _ => Le.refl _
  unfold feedbackCreate
  split
  · exact Le.refl _
  · cases c with
    | concat ops => exact concatFeedback_mono hb h _ _ _
    | slh s => exact slhFeedback_mono hb _ _ _
    | perm p => exact Le.refl _
    | _ => exact gen

theorem inverseCreate_mono (h : LeOps R R') (c : Circ A) : Le (inverseCreate R c) (inverseCreate R' c) := by
  cases c with
  | series ops => exact (Le.mapM h.inverse _).bind fun _ => h.series _
  | concat ops => exact (Le.mapM h.inverse _).bind fun _ => h.concat _
  | fb c o i => exact (h.inverse _).bind fun _ => h.feedback _ _ _
  | _ => exact Le.refl _

theorem opsAt_mono {b b' : Bool} (hb : b' = true → b = true) : ∀ {f f' : Nat}, f ≤ f' → LeOps (opsAt (A := A) b f) (opsAt b' f')
  | 0, _, _ => ⟨fun _ => Le.error _ _, fun _ => Le.error _ _, fun _ _ _ => Le.error _ _, fun _ => Le.error _ _⟩
  | f + 1, 0, h => absurd h (by omega)
  | f + 1, f' + 1, h => by
    have ih := opsAt_mono hb (f := f) (f' := f') (by omega)
    exact ⟨seriesCreate_mono ih (by omega), concatCreate_mono ih (by omega), feedbackCreate_mono hb ih, inverseCreate_mono ih⟩

theorem simplify_mono {b b' : Bool} (hb : b' = true → b = true) {f f' : Nat} (hf : f ≤ f') (e : Expr A) :
    Le (simplify b f e) (simplify b' f' e) := by
  have h := opsAt_mono (A := A) hb hf
  induction e with
  | sym a n => exact Le.refl _
  | slh s => exact Le.refl _
  | cperm p => exact Le.refl _
  | cid n => exact Le.refl _
  | series a c iha ihc => exact iha.bind fun _ => ihc.bind fun _ => h.series _
  | concat a c iha ihc => exact iha.bind fun _ => ihc.bind fun _ => h.concat _
  | feedback a o i iha => exact iha.bind fun _ => feedbackMethod_mono hb h _ _ _
  | inverse a iha => exact iha.bind fun _ => h.inverse _

end QNET.Circuit
