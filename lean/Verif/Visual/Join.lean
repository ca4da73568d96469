import Verif.Visual.Pic
import Mathlib.Tactic.Ring

/-! # Drawings: putting pictures side by side, wires, feedback loops -/

namespace QNET.Draw

/-! ### Following strokes -/

theorem Reach.mono {l m : List (Pt × Pt)} (h : ∀ x ∈ l, x ∈ m) {p q : Pt} (r : Reach l p q) : Reach m p q := by
  induction r with
  | refl => exact .refl
  | tail _ hx ih => exact ih.tail (h _ hx)

theorem Reach.refl {l : List (Pt × Pt)} {p : Pt} : Reach l p p := Relation.ReflTransGen.refl

theorem Reach.trans' {l : List (Pt × Pt)} {p q r : Pt} (h : Reach l p q) (h' : Reach l q r) : Reach l p r := Relation.ReflTransGen.trans h h'

theorem Reach.step {l : List (Pt × Pt)} {p q : Pt} (h : (p, q) ∈ l) : Reach l p q := Relation.ReflTransGen.single h

theorem Reach.last {l : List (Pt × Pt)} {p q : Pt} (h : Reach l p q) : p = q ∨ ∃ r, Reach l p r ∧ (r, q) ∈ l := by
  rcases Relation.ReflTransGen.cases_tail h with h | ⟨r, h1, h2⟩
  · exact .inl h.symm
  · exact .inr ⟨r, h1, h2⟩

theorem Reach.first {l : List (Pt × Pt)} {p q : Pt} (h : Reach l p q) : p = q ∨ ∃ r, (p, r) ∈ l ∧ Reach l r q := Relation.ReflTransGen.cases_head h

theorem Reach.split {l l1 l2 : List (Pt × Pt)} (hl : ∀ x ∈ l, x ∈ l1 ∨ x ∈ l2) (h : ∀ a b c, (a, b) ∈ l2 → (b, c) ∉ l1) {p q : Pt} (r : Reach l p q) : ∃ z, Reach l1 p z ∧ Reach l2 z q := by
  induction r using Relation.ReflTransGen.head_induction_on with
  | refl => exact ⟨q, .refl, .refl⟩
  | head hx hr ih =>
    obtain ⟨z, h1, h2⟩ := ih
    rcases hl _ hx with h3 | h3
    · exact ⟨z, (Reach.step h3).trans' h1, h2⟩
    · rcases h1.first with rfl | ⟨r, h4, -⟩
      · exact ⟨_, .refl, (Reach.step h3).trans' h2⟩
      · exact absurd h4 (h _ _ _ h3)

theorem shiftPt_inj {dx dy : ℚ} {p q : Pt} (h : shiftPt dx dy p = shiftPt dx dy q) : p = q := by
  simp only [shiftPt, Prod.mk.injEq, add_left_inj] at h
  exact Prod.ext h.1 h.2

theorem mem_shiftSegs {dx dy : ℚ} {l : List (Pt × Pt)} {a b : Pt} : (a, b) ∈ shiftSegs dx dy l ↔ ∃ a' b', (a', b') ∈ l ∧ a = shiftPt dx dy a' ∧ b = shiftPt dx dy b' := by
  simp only [shiftSegs, List.mem_map, Prod.mk.injEq]
  constructor
  · rintro ⟨x, h, rfl, rfl⟩
    exact ⟨x.1, x.2, h, rfl, rfl⟩
  · rintro ⟨a', b', h, rfl, rfl⟩
    exact ⟨(a', b'), h, rfl, rfl⟩

theorem Reach.shift {dx dy : ℚ} {l : List (Pt × Pt)} {p q : Pt} (h : Reach l p q) : Reach (shiftSegs dx dy l) (shiftPt dx dy p) (shiftPt dx dy q) := by
  induction h with
  | refl => exact .refl
  | tail _ h ih => exact ih.trans' (.step (mem_shiftSegs.mpr ⟨_, _, h, rfl, rfl⟩))

theorem Reach.unshift' {dx dy : ℚ} {l : List (Pt × Pt)} {p Q : Pt} (h : Reach (shiftSegs dx dy l) (shiftPt dx dy p) Q) : ∃ q, Q = shiftPt dx dy q ∧ Reach l p q := by
  induction h with
  | refl => exact ⟨p, rfl, .refl⟩
  | tail _ h ih =>
    obtain ⟨q, rfl, h2⟩ := ih
    obtain ⟨a, b, h3, h4, h5⟩ := mem_shiftSegs.mp h
    rw [← shiftPt_inj h4] at h3
    exact ⟨b, h5, h2.trans' (.step h3)⟩

theorem Reach.unshift {dx dy : ℚ} {l : List (Pt × Pt)} {p q : Pt} (h : Reach (shiftSegs dx dy l) (shiftPt dx dy p) (shiftPt dx dy q)) : Reach l p q := by
  obtain ⟨q', h1, h2⟩ := h.unshift'
  rwa [shiftPt_inj h1]

/-! ### Invariant -/

structure Inv (P : Params) (D : Pic) (N : Net) : Prop where
  wpos : 0 < D.w
  hpos : 0 ≤ D.h
  len : D.cin.length = D.cout.length
  cin : ∀ y ∈ D.cin, 0 < y ∧ y < D.h
  cout : ∀ y ∈ D.cout, 0 < y ∧ y < D.h
  cin_sorted : D.cin.Pairwise (· < ·)
  cout_sorted : D.cout.Pairwise (· < ·)
  tail : ∀ a b, (a, b) ∈ D.segs → 0 ≤ a.1 ∧ a.1 < D.w ∧ 0 < a.2 ∧ a.2 < D.h
  head : ∀ a b, (a, b) ∈ D.segs → 0 < b.1 ∧ b.1 ≤ D.w ∧ 0 < b.2 ∧ b.2 < D.h
  seg_in : ∀ a b, (a, b) ∈ D.segs → a.1 = 0 → a.2 ∈ D.cin
  seg_out : ∀ a b, (a, b) ∈ D.segs → b.1 = D.w → b.2 ∈ D.cout
  box : ∀ B ∈ D.boxes, 0 ≤ B.x ∧ B.x + 1 ≤ D.w ∧ 0 ≤ B.y ∧ B.y + B.n ≤ D.h
  net : ∀ s d, N s d ↔ ∃ p q, D.src P s p ∧ D.dst P d q ∧ Reach D.segs p q

theorem Pic.src.congr {P : Params} {D D' : Pic} (hb : D'.boxes = D.boxes) (hc : D'.cin = D.cin) {s : Src} {p : Pt} (h : D.src P s p) : D'.src P s p := by
  cases h with
  | inp h => exact .inp (hc ▸ h)
  | box h h' => exact .box (hb ▸ h) h'

theorem Pic.dst.congr {P : Params} {D D' : Pic} (hb : D'.boxes = D.boxes) (hc : D'.cout = D.cout) (hw : D'.w = D.w) {d : Dst} {p : Pt} (h : D.dst P d p) : D'.dst P d p := by
  cases h with
  | out h => rw [← hw]; exact .out (hc ▸ h)
  | box h h' => exact .box (hb ▸ h) h'

theorem Inv.congr {P : Params} {D D' : Pic} {N : Net} (h : Inv P D N) (hs : ∀ x, x ∈ D'.segs ↔ x ∈ D.segs) (hb : D'.boxes = D.boxes) (hw : D'.w = D.w) (hh : D.h ≤ D'.h) (hi : D'.cin = D.cin)
    (ho : D'.cout = D.cout) : Inv P D' N where
  wpos := hw ▸ h.wpos
  hpos := h.hpos.trans hh
  len := by rw [hi, ho, h.len]
  cin y hy := by have := h.cin y (hi ▸ hy); exact ⟨this.1, this.2.trans_le hh⟩
  cout y hy := by have := h.cout y (ho ▸ hy); exact ⟨this.1, this.2.trans_le hh⟩
  cin_sorted := hi ▸ h.cin_sorted
  cout_sorted := ho ▸ h.cout_sorted
  tail a b hx := by
    have := h.tail a b ((hs _).mp hx)
    rw [hw]
    exact ⟨this.1, this.2.1, this.2.2.1, this.2.2.2.trans_le hh⟩
  head a b hx := by
    have := h.head a b ((hs _).mp hx)
    rw [hw]
    exact ⟨this.1, this.2.1, this.2.2.1, this.2.2.2.trans_le hh⟩
  seg_in a b hx := by rw [hi]; exact h.seg_in a b ((hs _).mp hx)
  seg_out a b hx := by rw [ho, hw]; exact h.seg_out a b ((hs _).mp hx)
  box B hB := by
    have := h.box B (hb ▸ hB)
    rw [hw]
    exact ⟨this.1, this.2.1, this.2.2.1, this.2.2.2.trans hh⟩
  net s d := by
    rw [h.net]
    constructor
    · rintro ⟨p, q, h1, h2, h3⟩
      exact ⟨p, q, h1.congr hb hi, h2.congr hb ho hw, h3.mono fun x hx => (hs x).mpr hx⟩
    · rintro ⟨p, q, h1, h2, h3⟩
      exact ⟨p, q, h1.congr hb.symm hi.symm, h2.congr hb.symm ho.symm hw.symm, h3.mono fun x hx => (hs x).mp hx⟩

theorem Inv.congrNet {P : Params} {D : Pic} {N N' : Net} (h : Inv P D N) (hn : ∀ s d, N' s d ↔ N s d) : Inv P D N' :=
  { h with net := fun s d => (hn s d).trans (h.net s d) }

theorem Inv.inp_lt {P : Params} {D : Pic} {N : Net} (h : Inv P D N) {k : ℕ} {d : Dst} (hk : N (.inp k) d) : k < D.cin.length := by
  obtain ⟨p, q, h1, -, -⟩ := (h.net _ _).mp hk
  cases h1 with
  | inp h => exact (List.getElem?_eq_some_iff.mp h).1

theorem Inv.out_lt {P : Params} {D : Pic} {N : Net} (h : Inv P D N) {k : ℕ} {s : Src} (hk : N s (.out k)) : k < D.cout.length := by
  obtain ⟨p, q, -, h1, -⟩ := (h.net _ _).mp hk
  cases h1 with
  | out h => exact (List.getElem?_eq_some_iff.mp h).1

theorem mem_shiftBoxes {dx dy : ℚ} {l : List Box} {B : Box} : B ∈ shiftBoxes dx dy l ↔ ∃ B' ∈ l, B = { B' with x := B'.x + dx, y := B'.y + dy } := by
  simp only [shiftBoxes, List.mem_map, eq_comm]

/-! ### Side by side -/

/-- `B` to the right of `A`, ports at the same height -/
def join (A B : Pic) : Pic := ⟨A.segs ++ shiftSegs A.w 0 B.segs, A.boxes ++ shiftBoxes A.w 0 B.boxes, A.w + B.w, max B.h A.h, A.cin, B.cout⟩

section
variable {P : Params} (hP : P.Good)
include hP

theorem src_x {D : Pic} {N : Net} (h : Inv P D N) {s : Src} {p : Pt} (hs : D.src P s p) : 0 ≤ p.1 ∧ p.1 < D.w := by
  have h1 := hP.rh
  have h2 := hP.rh'
  cases hs with
  | inp _ => exact ⟨le_rfl, h.wpos⟩
  | box hB _ =>
    have := h.box _ hB
    constructor <;> dsimp only <;> linarith

theorem dst_x {D : Pic} {N : Net} (h : Inv P D N) {d : Dst} {p : Pt} (hs : D.dst P d p) : 0 < p.1 ∧ p.1 ≤ D.w := by
  have h1 := hP.rh
  have h2 := hP.rh'
  cases hs with
  | out _ => exact ⟨h.wpos, le_rfl⟩
  | box hB _ =>
    have := h.box _ hB
    constructor <;> dsimp only <;> linarith

theorem src_box_x {D : Pic} {N : Net} (h : Inv P D N) {b : List ℕ} {k : ℕ} {p : Pt} (hs : D.src P (.box b k) p) : 0 < p.1 := by
  have h1 := hP.rh
  have h2 := hP.rh'
  cases hs with
  | box hB _ =>
    have := h.box _ hB
    dsimp only
    linarith

theorem dst_box_x {D : Pic} {N : Net} (h : Inv P D N) {b : List ℕ} {k : ℕ} {p : Pt} (hs : D.dst P (.box b k) p) : p.1 < D.w := by
  have h1 := hP.rh
  have h2 := hP.rh'
  cases hs with
  | box hB _ =>
    have := h.box _ hB
    dsimp only
    linarith

omit hP in
theorem join_src {A B : Pic} {s : Src} {p : Pt} : (join A B).src P s p ↔ A.src P s p ∨ ∃ b k q, s = .box b k ∧ B.src P s q ∧ p = shiftPt A.w 0 q := by
  constructor
  · rintro (h | ⟨h, h'⟩)
    · exact .inl (.inp h)
    · rcases List.mem_append.mp h with h | h
      · exact .inl (.box h h')
      · obtain ⟨B', hB, rfl⟩ := mem_shiftBoxes.mp h
        refine .inr ⟨_, _, _, rfl, .box (B := B') hB h', ?_⟩
        simp only [shiftPt, Prod.mk.injEq]
        constructor <;> ring
  · rintro (h | ⟨b, k, q, rfl, h, rfl⟩)
    · cases h with
      | inp h => exact .inp h
      | box h h' => exact .box (List.mem_append_left _ h) h'
    · cases h with
      | @box B' _ h h' =>
        have := Pic.src.box (P := P) (D := join A B) (k := k) (List.mem_append_right _ (mem_shiftBoxes.mpr ⟨B', h, rfl⟩)) h'
        convert this using 1
        simp only [shiftPt, Prod.mk.injEq]
        constructor <;> ring

omit hP in
theorem join_dst {A B : Pic} {d : Dst} {p : Pt} : (join A B).dst P d p ↔ (∃ b k, d = .box b k ∧ A.dst P d p) ∨ ∃ q, B.dst P d q ∧ p = shiftPt A.w 0 q := by
  constructor
  · rintro (h | ⟨h, h'⟩)
    · exact .inr ⟨_, .out h, by simp [shiftPt, join, add_comm]⟩
    · rcases List.mem_append.mp h with h | h
      · exact .inl ⟨_, _, rfl, .box h h'⟩
      · obtain ⟨B', hB, rfl⟩ := mem_shiftBoxes.mp h
        refine .inr ⟨_, .box (B := B') hB h', ?_⟩
        simp only [shiftPt, Prod.mk.injEq]
        constructor <;> ring
  · rintro (⟨b, k, rfl, h⟩ | ⟨q, h, rfl⟩)
    · cases h with
      | box h h' => exact .box (List.mem_append_left _ h) h'
    · cases h with
      | @out k y h =>
        have := Pic.dst.out (P := P) (D := join A B) (k := k) (y := y) h
        convert this using 1
        simp [shiftPt, join, add_comm]
      | @box B' k h h' =>
        have := Pic.dst.box (P := P) (D := join A B) (k := k) (List.mem_append_right _ (mem_shiftBoxes.mpr ⟨B', h, rfl⟩)) h'
        convert this using 1
        simp only [shiftPt, Prod.mk.injEq]
        constructor <;> ring

theorem join_inv {A B : Pic} {M N : Net} (hA : Inv P A M) (hB : Inv P B N) (h : A.cout = B.cin) : Inv P (join A B) (seqNet M N) where
  wpos := by have := hA.wpos; have := hB.wpos; simp only [join]; linarith
  hpos := le_max_of_le_left hB.hpos
  len := by simp only [join]; rw [hA.len, h, hB.len]
  cin y hy := by have := hA.cin y hy; exact ⟨this.1, this.2.trans_le (le_max_right _ _)⟩
  cout y hy := by have := hB.cout y hy; exact ⟨this.1, this.2.trans_le (le_max_left _ _)⟩
  cin_sorted := hA.cin_sorted
  cout_sorted := hB.cout_sorted
  tail a b hx := by
    have h1 := hA.wpos; have h2 := hB.wpos
    have h3 := le_max_left B.h A.h; have h4 := le_max_right B.h A.h
    rcases List.mem_append.mp hx with hx | hx
    · have := hA.tail a b hx
      simp only [join]
      refine ⟨this.1, ?_, this.2.2.1, ?_⟩ <;> linarith
    · obtain ⟨a', b', hy, rfl, rfl⟩ := mem_shiftSegs.mp hx
      have := hB.tail a' b' hy
      simp only [join, shiftPt]
      refine ⟨?_, ?_, ?_, ?_⟩ <;> linarith
  head a b hx := by
    have h1 := hA.wpos; have h2 := hB.wpos
    have h3 := le_max_left B.h A.h; have h4 := le_max_right B.h A.h
    rcases List.mem_append.mp hx with hx | hx
    · have := hA.head a b hx
      simp only [join]
      refine ⟨this.1, ?_, this.2.2.1, ?_⟩ <;> linarith
    · obtain ⟨a', b', hy, rfl, rfl⟩ := mem_shiftSegs.mp hx
      have := hB.head a' b' hy
      simp only [join, shiftPt]
      refine ⟨?_, ?_, ?_, ?_⟩ <;> linarith
  seg_in a b hx h0 := by
    rcases List.mem_append.mp hx with hx | hx
    · exact hA.seg_in a b hx h0
    · obtain ⟨a', b', hy, rfl, rfl⟩ := mem_shiftSegs.mp hx
      have := hB.tail a' b' hy
      have := hA.wpos
      simp only [shiftPt] at h0
      linarith
  seg_out a b hx h0 := by
    rcases List.mem_append.mp hx with hx | hx
    · have := hA.head a b hx
      have := hB.wpos
      simp only [join] at h0
      linarith
    · obtain ⟨a', b', hy, rfl, rfl⟩ := mem_shiftSegs.mp hx
      simp only [shiftPt, join] at h0 ⊢
      rw [add_zero]
      exact hB.seg_out a' b' hy (by linarith)
  box B' hx := by
    have h1 := hA.wpos; have h2 := hB.wpos
    have h3 := le_max_left B.h A.h; have h4 := le_max_right B.h A.h
    rcases List.mem_append.mp hx with hx | hx
    · have := hA.box _ hx
      simp only [join]
      refine ⟨this.1, ?_, this.2.2.1, ?_⟩ <;> linarith
    · obtain ⟨B', hy, rfl⟩ := mem_shiftBoxes.mp hx
      have := hB.box _ hy
      simp only [join]
      refine ⟨?_, ?_, ?_, ?_⟩ <;> linarith
  net s d := by
    constructor
    · rintro (hM | hN | ⟨hM, hN⟩)
      · obtain ⟨p, q, h1, h2, h3⟩ := (hA.net _ _).mp hM
        exact ⟨p, q, join_src.mpr (.inl h1), join_dst.mpr (.inl ⟨_, _, rfl, h2⟩), h3.mono fun x => List.mem_append_left _⟩
      · obtain ⟨p, q, h1, h2, h3⟩ := (hB.net _ _).mp hN
        exact ⟨_, _, join_src.mpr (.inr ⟨_, _, _, rfl, h1, rfl⟩), join_dst.mpr (.inr ⟨_, h2, rfl⟩), h3.shift.mono fun x => List.mem_append_right _⟩
      · obtain ⟨p, q, h1, h2, h3⟩ := (hA.net _ _).mp hM
        obtain ⟨p', q', h1', h2', h3'⟩ := (hB.net _ _).mp hN
        refine ⟨p, _, join_src.mpr (.inl h1), join_dst.mpr (.inr ⟨_, h2', rfl⟩), ?_⟩
        have e : q = shiftPt A.w 0 p' := by
          cases h2 with
          | out h2 =>
            cases h1' with
            | inp h1' =>
              rw [h, h1'] at h2
              cases h2
              simp [shiftPt]
        exact (h3.mono fun x => List.mem_append_left _).trans' (e ▸ h3'.shift.mono fun x => List.mem_append_right _)
    · rintro ⟨p, q, h1, h2, h3⟩
      have lB : ∀ {a b : Pt}, (a, b) ∈ shiftSegs A.w 0 B.segs → A.w ≤ a.1 ∧ A.w < b.1 := by
        intro a b hx
        obtain ⟨a', b', hy, rfl, rfl⟩ := mem_shiftSegs.mp hx
        have h1 := hB.tail a' b' hy
        have h2 := hB.head a' b' hy
        simp only [shiftPt]
        constructor <;> linarith
      obtain ⟨r, h4, h5⟩ := h3.split (l1 := A.segs) (l2 := shiftSegs A.w 0 B.segs) (fun x hx => List.mem_append.mp hx) (by
        intro a b c hx hy
        have h1 := (lB hx).2
        have h2 := hA.tail b c hy
        linarith)
      rcases join_src.mp h1 with g1 | ⟨b, k, p0, rfl, g1, rfl⟩
      · have hp := src_x hP hA g1
        rcases join_dst.mp h2 with ⟨b, k, rfl, g2⟩ | ⟨q0, g2, rfl⟩
        · have hq := dst_box_x hP hA g2
          rcases h5.last with rfl | ⟨z, -, hz⟩
          · exact .first ((hA.net _ _).mpr ⟨_, _, g1, g2, h4⟩)
          · have := (lB hz).2
            linarith
        · have hq := dst_x hP hB g2
          have hr : r.1 ≤ A.w := by
            rcases h4.last with rfl | ⟨z, -, hz⟩
            · exact hp.2.le
            · exact (hA.head _ _ hz).2.1
          rcases h5.first with rfl | ⟨z, hz, -⟩
          · simp only [shiftPt] at hr
            linarith
          · have hr' : r.1 = A.w := le_antisymm hr (lB hz).1
            have hr2 : r.2 ∈ A.cout := by
              rcases h4.last with rfl | ⟨z, -, hz⟩
              · linarith
              · exact hA.seg_out _ _ hz hr'
            obtain ⟨k, hk⟩ := List.mem_iff_getElem?.mp hr2
            have e1 : r = (A.w, r.2) := Prod.ext hr' rfl
            have e2 : r = shiftPt A.w 0 (0, r.2) := Prod.ext (by simp [shiftPt, hr']) (by simp [shiftPt])
            refine .through (k := k) ((hA.net _ _).mpr ⟨p, r, g1, ?_, h4⟩) ((hB.net _ _).mpr ⟨(0, r.2), q0, .inp (h ▸ hk), g2, ?_⟩)
            · rw [e1]
              exact .out hk
            · rw [e2] at h5
              exact h5.unshift
      · have hp := src_box_x hP hB g1
        have e : r = shiftPt A.w 0 p0 := by
          rcases h4.first with rfl | ⟨z, hz, -⟩
          · rfl
          · have := hA.tail _ _ hz
            simp only [shiftPt] at this
            linarith
        subst e
        rcases join_dst.mp h2 with ⟨b, k, rfl, g2⟩ | ⟨q0, g2, rfl⟩
        · have hq := dst_box_x hP hA g2
          rcases h5.last with rfl | ⟨z, -, hz⟩
          · simp only [shiftPt] at hq
            linarith
          · have := (lB hz).2
            linarith
        · exact .second ((hB.net _ _).mpr ⟨_, _, g1, g2, h5.unshift⟩)

end

end QNET.Draw
