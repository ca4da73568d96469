import Verif.Visual.Loop

/-! # Drawings: the picture shows the circuit (C77) -/

namespace QNET.Draw

variable {P : Params}

/-! ### Boxes -/

/-- two boxes that do not overlap -/
def Apart (B C : Box) : Prop := B.x + 1 ≤ C.x ∨ C.x + 1 ≤ B.x ∨ B.y + B.n ≤ C.y ∨ C.y + C.n ≤ B.y

theorem Apart.symm {B C : Box} (h : Apart B C) : Apart C B := by
  unfold Apart at *
  tauto

/-- `bs` are the boxes described by `Q`, each once, not overlapping -/
structure Boxes (bs : List Box) (Q : List ℕ → String → ℕ → Prop) : Prop where
  apart : bs.Pairwise Apart
  mem : ∀ p name n, Q p name n ↔ ∃ B ∈ bs, B.path = p ∧ B.name = name ∧ B.n = n
  once : (bs.map Box.path).Nodup

theorem Boxes.shift {bs : List Box} {Q : List ℕ → String → ℕ → Prop} (h : Boxes bs Q) (dx dy : ℚ) : Boxes (shiftBoxes dx dy bs) Q where
  apart := by
    rw [shiftBoxes, List.pairwise_map]
    refine h.apart.imp fun {a b} h => ?_
    unfold Apart at *
    dsimp only
    rcases h with h | h | h | h
    · left; linarith
    · right; left; linarith
    · right; right; left; linarith
    · right; right; right; linarith
  mem p name n := by
    rw [h.mem]
    constructor
    · rintro ⟨B, hB, h1⟩
      exact ⟨_, mem_shiftBoxes.mpr ⟨B, hB, rfl⟩, h1⟩
    · rintro ⟨B, hB, h1⟩
      obtain ⟨B', hB', rfl⟩ := mem_shiftBoxes.mp hB
      exact ⟨B', hB', h1⟩
  once := by
    have : (shiftBoxes dx dy bs).map Box.path = bs.map Box.path := by simp [shiftBoxes, Function.comp_def]
    rw [this]
    exact h.once

theorem Boxes.tag {bs : List Box} {Q : List ℕ → String → ℕ → Prop} (h : Boxes bs Q) (j : ℕ) : Boxes (tagBoxes j bs) fun p name n => ∃ q, p = j :: q ∧ Q q name n where
  apart := by
    rw [tagBoxes, List.pairwise_map]
    exact h.apart
  mem p name n := by
    constructor
    · rintro ⟨q, rfl, hq⟩
      obtain ⟨B, hB, rfl, rfl, rfl⟩ := (h.mem _ _ _).mp hq
      exact ⟨{ B with path := j :: B.path }, List.mem_map.mpr ⟨B, hB, rfl⟩, rfl, rfl, rfl⟩
    · rintro ⟨B, hB, rfl, rfl, rfl⟩
      obtain ⟨B', hB', rfl⟩ := List.mem_map.mp hB
      exact ⟨B'.path, rfl, (h.mem _ _ _).mpr ⟨B', hB', rfl, rfl, rfl⟩⟩
  once := by
    have : (tagBoxes j bs).map Box.path = (bs.map Box.path).map (List.cons j) := by simp [tagBoxes, Function.comp_def]
    rw [this]
    exact h.once.map fun a b h => by simpa using h

theorem Boxes.append {as bs : List Box} {Q R : List ℕ → String → ℕ → Prop} (hA : Boxes as Q) (hB : Boxes bs R) (hap : ∀ A ∈ as, ∀ B ∈ bs, Apart A B)
    (hQR : ∀ p a b c d, Q p a b → R p c d → False) : Boxes (as ++ bs) fun p name n => Q p name n ∨ R p name n where
  apart := List.pairwise_append.mpr ⟨hA.apart, hB.apart, hap⟩
  mem p name n := by
    rw [hA.mem, hB.mem]
    simp only [List.mem_append, or_and_right, exists_or]
  once := by
    rw [List.map_append]
    refine List.nodup_append.mpr ⟨hA.once, hB.once, ?_⟩
    rintro a ha b hb rfl
    obtain ⟨A, hA', rfl⟩ := List.mem_map.mp ha
    obtain ⟨B, hB', h⟩ := List.mem_map.mp hb
    exact hQR A.path A.name A.n B.name B.n ((hA.mem _ _ _).mpr ⟨A, hA', rfl, rfl, rfl⟩) ((hB.mem _ _ _).mpr ⟨B, hB', h, rfl, rfl⟩)

theorem Boxes.congr {bs : List Box} {Q R : List ℕ → String → ℕ → Prop} (h : Boxes bs Q) (hQ : ∀ p name n, R p name n ↔ Q p name n) : Boxes bs R :=
  { h with mem := fun p name n => (hQ p name n).trans (h.mem p name n) }

/-- the boxes of an expression -/
def Occ (c : Circ) (p : List ℕ) (name : String) (n : ℕ) : Prop := c.at p = some (.box name n)

/-- the boxes of operands, the first of which has the number `j` -/
def OccAll (j : ℕ) (ops : List Circ) (p : List ℕ) (name : String) (n : ℕ) : Prop := ∃ (i : ℕ) (c : Circ) (q : List ℕ), p = (j + i) :: q ∧ ops[i]? = some c ∧ Occ c q name n

theorem OccAll_cons (j : ℕ) (c : Circ) (cs : List Circ) (p : List ℕ) (name : String) (n : ℕ) : OccAll j (c :: cs) p name n ↔ OccAll (j + 1) cs p name n ∨ ∃ q, p = j :: q ∧ Occ c q name n := by
  constructor
  · rintro ⟨i, d, q, rfl, h1, h2⟩
    cases i with
    | zero =>
      cases h1
      exact .inr ⟨q, rfl, h2⟩
    | succ i => exact .inl ⟨i, d, q, by rw [show j + 1 + i = j + (i + 1) by omega], h1, h2⟩
  · rintro (⟨i, d, q, rfl, h1, h2⟩ | ⟨q, rfl, h⟩)
    · exact ⟨i + 1, d, q, by rw [show j + 1 + i = j + (i + 1) by omega], h1, h2⟩
    · exact ⟨0, c, q, rfl, rfl, h⟩

theorem OccAll_apart {j : ℕ} {c : Circ} {cs : List Circ} {p : List ℕ} {a : String} {b : ℕ} {e : String} {f : ℕ} (h : OccAll (j + 1) cs p a b) : ¬ ∃ q, p = j :: q ∧ Occ c q e f := by
  rintro ⟨q, rfl, -⟩
  obtain ⟨i, d, q', h1, -⟩ := h
  injection h1 with h1
  omega

theorem apart_of_x {A B : Pic} {M N : Net} (hA : Inv P A M) (hB : Inv P B N) {d e : ℚ} (hd : A.w ≤ d) : ∀ C ∈ A.boxes, ∀ E ∈ shiftBoxes d e B.boxes, Apart C E := by
  intro C hC E hE
  obtain ⟨E, hE', rfl⟩ := mem_shiftBoxes.mp hE
  have h1 := hA.box C hC
  have h2 := hB.box E hE'
  left
  dsimp only
  linarith

theorem apart_of_y {A B : Pic} {M N : Net} (hA : Inv P A M) (hB : Inv P B N) : ∀ C ∈ A.boxes, ∀ E ∈ shiftBoxes 0 A.h B.boxes, Apart C E := by
  intro C hC E hE
  obtain ⟨E, hE', rfl⟩ := mem_shiftBoxes.mp hE
  have h1 := hA.box C hC
  have h2 := hB.box E hE'
  right; right; left
  dsimp only
  linarith

/-! ### Concatenations -/

def emptyPic (w : ℚ) : Pic := ⟨[], [], w, 0, [], []⟩

theorem emptyPic_inv {w : ℚ} (hw : 0 < w) : Inv P (emptyPic w) fun _ _ => False where
  wpos := hw
  hpos := le_rfl
  len := rfl
  cin y hy := by simp [emptyPic] at hy
  cout y hy := by simp [emptyPic] at hy
  cin_sorted := by simp [emptyPic]
  cout_sorted := by simp [emptyPic]
  tail a b h := by simp [emptyPic] at h
  head a b h := by simp [emptyPic] at h
  seg_in a b h := by simp [emptyPic] at h
  seg_out a b h := by simp [emptyPic] at h
  box B h := by simp [emptyPic] at h
  net s d := by
    constructor
    · exact False.elim
    · rintro ⟨p, q, h, -, -⟩
      cases h with
      | inp h => simp [emptyPic] at h
      | box h => simp [emptyPic] at h

/-- a picture with its output lines extended to the width `W` -/
def extend (W : ℚ) (D : Pic) : Pic := if D.w = W then D else join D (wires (W - D.w) D.h D.cout D.cout)

theorem extend_w (W : ℚ) (D : Pic) : (extend W D).w = W := by
  rw [extend]
  split_ifs with h
  · exact h
  · simp [join, wires]

theorem extend_rest (W : ℚ) (D : Pic) : (extend W D).h = D.h ∧ (extend W D).cin = D.cin ∧ (extend W D).cout = D.cout ∧ (extend W D).boxes = D.boxes := by
  rw [extend]
  split_ifs with h
  · simp
  · simp [join, wires, shiftBoxes]

theorem extend_inv (hP : P.Good) {W : ℚ} {D : Pic} {N : Net} (h : Inv P D N) (hW : D.w ≤ W) : Inv P (extend W D) N := by
  rw [extend]
  split_ifs with hw
  · exact h
  · have hJ := straight_inv (P := P) (w := W - D.w) (h := D.h) (ys := D.cout) (zs := D.cout) (by have := lt_of_le_of_ne hW hw; linarith) h.hpos rfl h.cout h.cout h.cout_sorted h.cout_sorted
    exact (join_inv hP h hJ rfl).congrNet (seq_range_right fun k s hk => h.out_lt hk)

def stackAll (W : ℚ) : List (Pic × ℕ) → Pic
  | [] => emptyPic W
  | D :: Ds => stack (extend W D.1) (stackAll W Ds)

theorem stackAll_w (W : ℚ) (Ds : List (Pic × ℕ)) : (stackAll W Ds).w = W := by
  cases Ds
  · rfl
  · exact extend_w W _

/-- the pictures on top of each other, without extensions -/
def base : List (Pic × ℕ) → Pic
  | [] => emptyPic 0
  | D :: Ds => stack D.1 (base Ds)

def widths : List (Pic × ℕ) → List ℚ
  | [] => []
  | D :: Ds => List.replicate D.2 D.1.w ++ widths Ds

theorem shiftSegs_append (a b : ℚ) (l m : List (Pt × Pt)) : shiftSegs a b (l ++ m) = shiftSegs a b l ++ shiftSegs a b m := by simp [shiftSegs]
theorem shiftBoxes_append (a b : ℚ) (l m : List Box) : shiftBoxes a b (l ++ m) = shiftBoxes a b l ++ shiftBoxes a b m := by simp [shiftBoxes]

theorem push_all : ∀ (subs : List (Pic × ℕ)) (S : Stack), subs.foldl (fun (S : Stack) D => S.push D.1 D.2) S =
    ⟨S.segs ++ shiftSegs 0 S.voffset (base subs).segs, S.boxes ++ shiftBoxes 0 S.voffset (base subs).boxes, S.voffset + (base subs).h, S.cin ++ (base subs).cin.map (· + S.voffset),
      S.cout ++ (base subs).cout.map (· + S.voffset), S.widths ++ widths subs⟩
  | [], S => by simp [base, emptyPic, shiftSegs, shiftBoxes, widths]
  | D :: Ds, S => by
    rw [List.foldl_cons, push_all Ds]
    simp only [Stack.push, base, stack, widths, shiftSegs_append, shiftBoxes_append, shiftSegs_shift, shiftBoxes_shift, List.map_append, List.map_map, List.append_assoc, Stack.mk.injEq,
      List.append_cancel_left_eq, zero_add, add_zero]
    refine ⟨?_, ?_, ?_, ?_, ?_, trivial⟩
    · rw [add_comm]
    · rw [add_comm]
    · ring
    · refine List.map_congr_left fun x _ => ?_
      simp only [Function.comp]
      ring
    · refine List.map_congr_left fun x _ => ?_
      simp only [Function.comp]
      ring

/-- the extensions -/
def ext (W : ℚ) (ws ys : List ℚ) : List (Pt × Pt) := (ws.zip ys).filterMap fun v => if v.1 = W then none else some (((v.1, v.2), (W, v.2)) : Pt × Pt)

theorem mem_ext {W : ℚ} {ws ys : List ℚ} {a b : Pt} : (a, b) ∈ ext W ws ys ↔ a ∈ ws.zip ys ∧ a.1 ≠ W ∧ b = (W, a.2) := by
  simp only [ext, List.mem_filterMap]
  constructor
  · rintro ⟨v, h1, h2⟩
    split_ifs at h2 with h
    simp only [Option.some.injEq, Prod.mk.injEq] at h2
    obtain ⟨rfl, rfl⟩ := h2
    exact ⟨h1, h, rfl⟩
  · rintro ⟨h1, h2, rfl⟩
    exact ⟨a, h1, by simp [h2]⟩

theorem mem_extend {W : ℚ} {D : Pic} {a b : Pt} : (a, b) ∈ (extend W D).segs ↔ (a, b) ∈ D.segs ∨ (a, b) ∈ ext W (List.replicate D.cout.length D.w) D.cout := by
  rw [mem_ext, extend]
  have hz : ∀ x : Pt, x ∈ (List.replicate D.cout.length D.w).zip D.cout ↔ x.1 = D.w ∧ x.2 ∈ D.cout := by
    intro x
    rw [mem_zip_iff]
    constructor
    · rintro ⟨k, h1, h2⟩
      refine ⟨?_, List.mem_of_getElem? h2⟩
      rw [List.getElem?_replicate] at h1
      split_ifs at h1
      exact (Option.some.inj h1).symm
    · rintro ⟨h1, h2⟩
      obtain ⟨k, hk⟩ := List.mem_iff_getElem?.mp h2
      exact ⟨k, by rw [List.getElem?_replicate_of_lt (List.getElem?_eq_some_iff.mp hk).1, h1], hk⟩
  rw [hz]
  split_ifs with h
  · constructor
    · exact .inl
    · rintro (h' | ⟨⟨h1, -⟩, h2, -⟩)
      · exact h'
      · exact absurd (h1.trans h) h2
  · simp only [join, List.mem_append]
    refine or_congr Iff.rfl ?_
    rw [mem_shiftSegs]
    constructor
    · rintro ⟨a', b', h1, rfl, rfl⟩
      obtain ⟨k, y, z, h2, h3, rfl, rfl⟩ := mem_wires.mp h1
      have e : y = z := by
        rw [h2] at h3
        exact Option.some.inj h3
      subst e
      simp [shiftPt, List.mem_of_getElem? h2, h]
    · rintro ⟨⟨h1, h2⟩, h3, rfl⟩
      obtain ⟨k, hk⟩ := List.mem_iff_getElem?.mp h2
      refine ⟨(0, a.2), (W - D.w, a.2), mem_wires.mpr ⟨k, _, _, hk, hk, rfl, rfl⟩, ?_, ?_⟩
      · exact Prod.ext (by simp [shiftPt, h1]) (by simp [shiftPt])
      · simp [shiftPt]

theorem base_cout : ∀ {subs : List (Pic × ℕ)}, (∀ D ∈ subs, D.1.cout.length = D.2) → (widths subs).length = (base subs).cout.length
  | [], _ => rfl
  | D :: Ds, h => by
    have ih := base_cout (subs := Ds) fun D hD => h D (by simp [hD])
    simp [widths, base, stack, h D (by simp), ih]

theorem stackAll_eq (W : ℚ) : ∀ {subs : List (Pic × ℕ)}, (∀ D ∈ subs, D.1.cout.length = D.2) → (∀ a b, (a, b) ∈ (stackAll W subs).segs ↔ (a, b) ∈ (base subs).segs ++ ext W (widths subs) (base subs).cout) ∧
    (stackAll W subs).boxes = (base subs).boxes ∧ (stackAll W subs).h = (base subs).h ∧ (stackAll W subs).cin = (base subs).cin ∧ (stackAll W subs).cout = (base subs).cout
  | [], _ => by simp [stackAll, base, emptyPic, ext, widths]
  | D :: Ds, h => by
    obtain ⟨h1, h2, h3, h4, h5⟩ := stackAll_eq W (subs := Ds) fun D hD => h D (by simp [hD])
    obtain ⟨e1, e2, e3, e4⟩ := extend_rest W D.1
    have hD := h D (by simp)
    refine ⟨fun a b => ?_, ?_, ?_, ?_, ?_⟩
    · have hx : ext W (widths (D :: Ds)) (base (D :: Ds)).cout = ext W (List.replicate D.2 D.1.w) D.1.cout ++ ext W (widths Ds) ((base Ds).cout.map (· + D.1.h)) := by
        simp only [ext, widths, base, stack]
        rw [List.zip_append (by simp [hD]), List.filterMap_append]
      have hy : ∀ a b, (a, b) ∈ shiftSegs 0 D.1.h (ext W (widths Ds) (base Ds).cout) ↔ (a, b) ∈ ext W (widths Ds) ((base Ds).cout.map (· + D.1.h)) := by
        intro a b
        rw [mem_shiftSegs, mem_ext]
        constructor
        · rintro ⟨a', b', g1, rfl, rfl⟩
          obtain ⟨g2, g3, rfl⟩ := mem_ext.mp g1
          obtain ⟨k, g4, g5⟩ := mem_zip_iff.mp g2
          refine ⟨mem_zip_iff.mpr ⟨k, by simpa [shiftPt] using g4, by simp [shiftPt, g5]⟩, by simpa [shiftPt] using g3, by simp [shiftPt]⟩
        · rintro ⟨g2, g3, rfl⟩
          obtain ⟨k, g4, g5⟩ := mem_zip_iff.mp g2
          rw [List.getElem?_map, Option.map_eq_some_iff] at g5
          obtain ⟨y, g5, g6⟩ := g5
          refine ⟨(a.1, y), (W, y), mem_ext.mpr ⟨mem_zip_iff.mpr ⟨k, g4, g5⟩, g3, rfl⟩, Prod.ext (by simp [shiftPt]) (by simp [shiftPt, g6]), by simp [shiftPt, g6]⟩
      have hz : ∀ a b, (a, b) ∈ shiftSegs 0 D.1.h (stackAll W Ds).segs ↔ (a, b) ∈ shiftSegs 0 D.1.h (base Ds).segs ∨ (a, b) ∈ shiftSegs 0 D.1.h (ext W (widths Ds) (base Ds).cout) := by
        intro a b
        rw [← List.mem_append, ← shiftSegs_append, mem_shiftSegs, mem_shiftSegs]
        simp only [h1]
      simp only [stackAll, stack, List.mem_append, e1]
      rw [mem_extend, hz, hx, hy, ← hD]
      simp only [base, stack, List.mem_append]
      tauto
    · simp only [stackAll, stack, base, e1, e4, h2]
    · simp only [stackAll, stack, base, e1, h3]
    · simp only [stackAll, stack, base, e1, e2, h4]
    · simp only [stackAll, stack, base, e1, e3, h5]

theorem foldl_max_ge (xs : List ℚ) : ∀ x, x ≤ xs.foldl max x ∧ ∀ y ∈ xs, y ≤ xs.foldl max x := by
  induction xs with
  | nil => simp
  | cons z xs ih =>
    intro x
    obtain ⟨h1, h2⟩ := ih (max x z)
    rw [List.foldl_cons]
    refine ⟨(le_max_left _ _).trans h1, fun y hy => ?_⟩
    rcases List.mem_cons.mp hy with rfl | hy
    · exact (le_max_right _ _).trans h1
    · exact h2 y hy

theorem foldl_min_le (xs : List ℚ) : ∀ x, xs.foldl min x ≤ x ∧ ∀ y ∈ xs, xs.foldl min x ≤ y := by
  induction xs with
  | nil => simp
  | cons z xs ih =>
    intro x
    obtain ⟨h1, h2⟩ := ih (min x z)
    rw [List.foldl_cons]
    refine ⟨h1.trans (min_le_left _ _), fun y hy => ?_⟩
    rcases List.mem_cons.mp hy with rfl | hy
    · exact h1.trans (min_le_right _ _)
    · exact h2 y hy

/-- the picture of a concatenation is that of extended pictures on top of each other -/
theorem drawConcat_eq {subs : List (Pic × ℕ)} (hl : ∀ D ∈ subs, D.1.cout.length = D.2) (hpos : ∀ D ∈ subs, 0 < D.2) (hne : subs ≠ []) :
    ∃ W D, drawConcat subs = some D ∧ (∀ D ∈ subs, D.1.w ≤ W) ∧ (∀ x, x ∈ D.segs ↔ x ∈ (stackAll W subs).segs) ∧ D.boxes = (stackAll W subs).boxes ∧ D.w = W ∧
      D.h = (stackAll W subs).h ∧ D.cin = (stackAll W subs).cin ∧ D.cout = (stackAll W subs).cout := by
  have hw : ∀ D ∈ subs, D.1.w ∈ widths subs := by
    clear hne hl
    induction subs with
    | nil => simp
    | cons D Ds ih =>
      intro E hE
      rw [widths, List.mem_append]
      rcases List.mem_cons.mp hE with rfl | hE
      · exact .inl (List.mem_replicate.mpr ⟨(hpos _ (by simp)).ne', rfl⟩)
      · exact .inr (ih (fun D hD => hpos D (by simp [hD])) E hE)
  have e0 := push_all subs ⟨[], [], 0, [], [], []⟩
  simp only [List.nil_append, zero_add] at e0
  have s0 : shiftSegs 0 0 (base subs).segs = (base subs).segs := by simp [shiftSegs, shiftPt]
  have b0 : shiftBoxes 0 0 (base subs).boxes = (base subs).boxes := by simp [shiftBoxes]
  have m0 : ∀ l : List ℚ, l.map (· + 0) = l := by simp
  rw [s0, b0, m0, m0] at e0
  cases hws : widths subs with
  | nil =>
    cases subs with
    | nil => exact absurd rfl hne
    | cons D Ds =>
      have := hw D (by simp)
      rw [hws] at this
      simp at this
  | cons x xs =>
    obtain ⟨h1, h2, h3, h4, h5⟩ := stackAll_eq (xs.foldl max x) hl
    obtain ⟨m1, m2⟩ := foldl_max_ge xs x
    obtain ⟨n1, n2⟩ := foldl_min_le xs x
    have hmx : ∀ y ∈ widths subs, y ≤ xs.foldl max x := by
      intro y hy
      rw [hws] at hy
      rcases List.mem_cons.mp hy with rfl | hy
      · exact m1
      · exact m2 y hy
    have hmn : ∀ y ∈ widths subs, xs.foldl min x ≤ y := by
      intro y hy
      rw [hws] at hy
      rcases List.mem_cons.mp hy with rfl | hy
      · exact n1
      · exact n2 y hy
    have guard : (if xs.foldl max x > xs.foldl min x then ext (xs.foldl max x) (widths subs) (base subs).cout else []) = ext (xs.foldl max x) (widths subs) (base subs).cout := by
      split_ifs with hg
      · rfl
      · refine (List.eq_nil_iff_forall_not_mem.mpr ?_).symm
        rintro ⟨a, b⟩ hab
        obtain ⟨g1, g2, -⟩ := mem_ext.mp hab
        obtain ⟨k, g3, -⟩ := mem_zip_iff.mp g1
        have g4 := List.mem_of_getElem? g3
        exact g2 (le_antisymm (hmx _ g4) ((not_lt.mp hg).trans (hmn _ g4)))
    refine ⟨xs.foldl max x, ⟨(base subs).segs ++ ext (xs.foldl max x) (widths subs) (base subs).cout, (base subs).boxes, xs.foldl max x, (base subs).h, (base subs).cin, (base subs).cout⟩, ?_,
      fun D hD => hmx _ (hw D hD), fun x => (h1 x.1 x.2).symm, h2.symm, rfl, h3.symm, h4.symm, h5.symm⟩
    rw [drawConcat, e0]
    simp only [hws]
    rw [← hws]
    have := guard
    simp only [ext] at this ⊢
    rw [this]

/-! ### The picture of a circuit -/

theorem drawSeries_cons (D : Pic) (rest : List Pic) : drawSeries P (D :: rest) = some (match drawSeries P rest with
    | none => D
    | some E => attach P E D) := by
  rw [drawSeries, drawSeries, List.reverse_cons]
  cases h : rest.reverse with
  | nil => simp
  | cons g gs => simp

mutual
theorem wf_cdim : ∀ c : Circ, c.WF → 0 < c.cdim
  | .idn, _ => by simp [Circ.cdim]
  | .zero, h => by simp [Circ.WF] at h
  | .box _ n, h => by simpa [Circ.cdim, Circ.WF] using h
  | .perm p, h => by
    simp only [Circ.WF] at h
    rw [Circ.cdim]
    exact List.length_pos_iff.mpr h.1
  | .series [], h => by simp [Circ.WF] at h
  | .series (c :: cs), h => by
    simp only [Circ.WF, WFSeries] at h
    obtain ⟨-, n, h1, -⟩ := h
    have := wf_cdim c h1
    simpa [Circ.cdim] using this
  | .concat [], h => by simp [Circ.WF] at h
  | .concat (c :: cs), h => by
    simp only [Circ.WF, WFAll] at h
    have := wf_cdim c h.2.1
    simp only [Circ.cdim, cdimAll]
    omega
  | .fb c o i, h => by
    simp only [Circ.WF] at h
    simp only [Circ.cdim]
    omega
end

theorem series_cdim {n : ℕ} {ops : List Circ} (hne : ops ≠ []) (h : WFSeries n ops) : (Circ.series ops).cdim = n := by
  cases ops with
  | nil => exact absurd rfl hne
  | cons c cs =>
    simp only [WFSeries] at h
    simp [Circ.cdim, h.2.1]

/-- everything about the picture of an expression -/
structure Ok (P : Params) (D : Pic) (N : Net) (n : ℕ) (Q : List ℕ → String → ℕ → Prop) : Prop where
  inv : Inv P D N
  len : D.cin.length = n
  boxes : Boxes D.boxes Q

theorem Ok.tag {D : Pic} {N : Net} {n : ℕ} {Q : List ℕ → String → ℕ → Prop} (h : Ok P D N n Q) (j : ℕ) : Ok P (D.tag j) (tagNet j N) n fun p name n => ∃ q, p = j :: q ∧ Q q name n :=
  ⟨tag_inv h.inv j, h.len, h.boxes.tag j⟩

theorem drawAll_length {P : Params} : ∀ {j : ℕ} {ops : List Circ} {subs : List (Pic × ℕ)}, drawAll P j ops = some subs → subs.length = ops.length
  | j, [], subs, h => by
    rw [drawAll] at h
    cases h
    rfl
  | j, c :: cs, subs, h => by
    rw [drawAll] at h
    obtain ⟨D, -, h⟩ := Option.bind_eq_some_iff.mp h
    obtain ⟨l, h1, rfl⟩ := Option.map_eq_some_iff.mp h
    simp [drawAll_length h1]

mutual
theorem draw_ok (hP : P.Good) : ∀ c : Circ, c.WF → ∃ D, draw P c = some D ∧ Ok P D (net c) c.cdim (Occ c)
  | .idn, _ => by
    refine ⟨_, by rw [draw], by rw [net]; exact drawId_inv, rfl, ⟨by simp [drawId], ?_, by simp [drawId]⟩⟩
    intro p name n
    cases p <;> simp [Occ, Circ.at, drawId]
  | .zero, h => by simp [Circ.WF] at h
  | .box name n, h => by
    refine ⟨_, by rw [draw], by rw [net]; exact drawBox_inv hP name, by simp [drawBox, halves, Circ.cdim], ⟨by simp [drawBox], ?_, by simp [drawBox]⟩⟩
    intro p name n
    cases p <;> simp [Occ, Circ.at, drawBox]
  | .perm p, h => by
    simp only [Circ.WF] at h
    refine ⟨_, by rw [draw], by rw [net]; exact drawPerm_inv hP h.2.2, by simp [drawPerm, halves, Circ.cdim], ⟨by simp [drawPerm], ?_, by simp [drawPerm]⟩⟩
    intro p name n
    cases p <;> simp [Occ, Circ.at, drawPerm]
  | .series ops, h => by
    simp only [Circ.WF] at h
    obtain ⟨h0, n, h⟩ := h
    have hne : ops ≠ [] := by
      rintro rfl
      simp at h0
    obtain ⟨subs, h1, h2⟩ := drawSeries_ok hP 0 n ops h
    obtain ⟨D, h3, h4⟩ := h2 hne
    refine ⟨D, ?_, ?_, ?_, ?_⟩
    · rw [draw, if_pos h0, h1]
      exact h3
    · rw [net]
      exact h4.inv
    · rw [series_cdim hne h]
      exact h4.len
    · refine h4.boxes.congr fun p name n => ?_
      cases p with
      | nil => simp [Occ, OccAll, Circ.at]
      | cons i q =>
        simp only [Occ, OccAll, Circ.at, Nat.zero_add]
        constructor
        · intro h
          cases hc : ops[i]? with
          | none => simp [hc] at h
          | some c =>
            simp only [hc] at h
            exact ⟨i, c, q, rfl, hc, h⟩
        · rintro ⟨i', c, q', e, hc, h⟩
          injection e with e1 e2
          subst e1 e2
          simp [hc, h]
  | .concat ops, h => by
    simp only [Circ.WF] at h
    obtain ⟨hne, h⟩ := h
    obtain ⟨subs, h1, h2, h3⟩ := drawConcat_ok hP 0 ops h
    have hne' : subs ≠ [] := by
      intro e
      have := drawAll_length h1
      rw [e] at this
      exact hne (List.length_eq_zero_iff.mp this.symm)
    obtain ⟨W, D, g1, g2, g3, g4, g5, g6, g7, g8⟩ := drawConcat_eq (fun D hD => (h2 D hD).1) (fun D hD => (h2 D hD).2.1) hne'
    have hW : 0 < W := by
      cases subs with
      | nil => exact absurd rfl hne'
      | cons E Es => exact (h2 E (by simp)).2.2.trans_le (g2 E (by simp))
    have h4 := h3 W hW g2
    refine ⟨D, ?_, ?_, ?_, ?_⟩
    · rw [draw, h1]
      exact g1
    · rw [net]
      exact h4.inv.congr g3 g4 (g5.trans (stackAll_w W subs).symm) g6.ge g7 g8
    · rw [g7, h4.len, Circ.cdim]
    · rw [g4]
      refine h4.boxes.congr fun p name n => ?_
      cases p with
      | nil => simp [Occ, OccAll, Circ.at]
      | cons i q =>
        simp only [Occ, OccAll, Circ.at, Nat.zero_add]
        constructor
        · intro h
          cases hc : ops[i]? with
          | none => simp [hc] at h
          | some c =>
            simp only [hc] at h
            exact ⟨i, c, q, rfl, hc, h⟩
        · rintro ⟨i', c, q', e, hc, h⟩
          injection e with e1 e2
          subst e1 e2
          simp [hc, h]
  | .fb c o i, h => by
    simp only [Circ.WF] at h
    obtain ⟨h0, -, h1, h2⟩ := h
    obtain ⟨D, h3, h4⟩ := draw_ok hP c h0
    have h5 := h4.tag 0
    have hi : i < (D.tag 0).cin.length := by rw [h5.len]; exact h2
    have ho : o < (D.tag 0).cout.length := by rw [← h5.inv.len, h5.len]; exact h1
    refine ⟨loopPic P (D.tag 0) o i (D.tag 0).cout[o] (D.tag 0).cin[i], ?_, ?_, ?_, ?_⟩
    · rw [draw, h3, Option.bind_some, drawFb, List.getElem?_eq_getElem hi, List.getElem?_eq_getElem ho]
      rfl
    · rw [net]
      exact loop_inv hP h5.inv (List.getElem?_eq_getElem ho) (List.getElem?_eq_getElem hi)
    · simp only [loopPic]
      rw [List.length_eraseIdx_of_lt hi, h5.len, Circ.cdim]
    · refine (h5.boxes.shift _ _).congr fun p name n => ?_
      cases p with
      | nil => simp [Occ, Circ.at]
      | cons j q =>
        cases j with
        | zero => simp [Occ, Circ.at]
        | succ j => simp [Occ, Circ.at]
theorem drawSeries_ok (hP : P.Good) : ∀ (j n : ℕ) (ops : List Circ), WFSeries n ops → ∃ subs, drawAll P j ops = some subs ∧
    (ops ≠ [] → ∃ D, drawSeries P (subs.map Prod.fst) = some D ∧ Ok P D (netSeries j ops) n (OccAll j ops))
  | j, n, [], _ => ⟨[], by rw [drawAll], fun h => absurd rfl h⟩
  | j, n, c :: cs, h => by
    simp only [WFSeries] at h
    obtain ⟨h1, h2, h3⟩ := h
    obtain ⟨D, h4, h5⟩ := draw_ok hP c h1
    obtain ⟨subs, h6, h7⟩ := drawSeries_ok hP (j + 1) n cs h3
    have h8 := h5.tag j
    refine ⟨(D.tag j, c.cdim) :: subs, by rw [drawAll, h4, h6]; rfl, fun _ => ?_⟩
    rw [List.map_cons, drawSeries_cons]
    cases cs with
    | nil =>
      rw [drawAll] at h6
      cases h6
      refine ⟨_, rfl, ?_, ?_, ?_⟩
      · rw [netSeries]
        exact h8.inv
      · rw [← h2]
        exact h8.len
      · refine h8.boxes.congr fun p name m => ?_
        rw [OccAll_cons]
        simp [OccAll]
    | cons d ds =>
      obtain ⟨E, h9, h10⟩ := h7 (by simp)
      rw [h9]
      refine ⟨_, rfl, ?_, ?_, ?_⟩
      · have : netSeries j (c :: d :: ds) = seqNet (netSeries (j + 1) (d :: ds)) (tagNet j (net c)) := by
          rw [netSeries]
          simp
        rw [this]
        exact attach_inv hP h10.inv h8.inv (by rw [← h10.inv.len, h10.len, h8.len, h2])
      · exact h10.len
      · refine Boxes.congr ?_ (OccAll_cons j c (d :: ds))
        simp only [attach]
        exact h10.boxes.append (h8.boxes.shift _ _) (apart_of_x h10.inv h8.inv (by split_ifs <;> [(have := hP.rp; linarith); simp])) fun p a b e f hp => OccAll_apart hp
theorem drawConcat_ok (hP : P.Good) : ∀ (j : ℕ) (ops : List Circ), WFAll ops → ∃ subs, drawAll P j ops = some subs ∧ (∀ D ∈ subs, D.1.cout.length = D.2 ∧ 0 < D.2 ∧ 0 < D.1.w) ∧
    ∀ W, 0 < W → (∀ D ∈ subs, D.1.w ≤ W) → Ok P (stackAll W subs) (netConcat j ops) (cdimAll ops) (OccAll j ops)
  | j, [], _ => by
    refine ⟨[], by rw [drawAll], by simp, fun W hW _ => ⟨?_, rfl, ⟨by simp [stackAll, emptyPic], ?_, by simp [stackAll, emptyPic]⟩⟩⟩
    · rw [netConcat]
      exact emptyPic_inv hW
    · intro p name n
      simp [OccAll, stackAll, emptyPic]
  | j, c :: cs, h => by
    simp only [WFAll] at h
    obtain ⟨h1, h3⟩ := h
    obtain ⟨D, h4, h5⟩ := draw_ok hP c h1
    obtain ⟨subs, h6, h7, h9⟩ := drawConcat_ok hP (j + 1) cs h3
    have h8 := h5.tag j
    refine ⟨(D.tag j, c.cdim) :: subs, by rw [drawAll, h4, h6]; rfl, ?_, fun W hW hle => ?_⟩
    · intro E hE
      rcases List.mem_cons.mp hE with rfl | hE
      · exact ⟨by rw [← h8.inv.len, h8.len], wf_cdim c h1, h8.inv.wpos⟩
      · exact h7 E hE
    · have h10 := h9 W hW fun D hD => hle D (by simp [hD])
      have h11 := extend_inv hP h8.inv (hle _ (List.mem_cons_self ..))
      obtain ⟨e1, e2, e3, e4⟩ := extend_rest W (D.tag j)
      refine ⟨?_, ?_, ?_⟩
      · rw [netConcat, stackAll]
        exact stack_inv h11 h10.inv (by rw [e2]; exact h8.len) (by rw [extend_w, stackAll_w])
      · simp only [stackAll, stack, List.length_append, List.length_map, cdimAll]
        rw [e2, h8.len, h10.len]
      · refine Boxes.congr (Q := fun p name n => (∃ q, p = j :: q ∧ Occ c q name n) ∨ OccAll (j + 1) cs p name n) ?_ fun p name n => (OccAll_cons j c cs p name n).trans or_comm
        simp only [stackAll, stack]
        have hap := apart_of_y h11 h10.inv
        rw [e4] at hap ⊢
        exact h8.boxes.append (h10.boxes.shift _ _) hap fun p a b e f hq hp => OccAll_apart hp hq
end

/-! ### Results -/

/-- what it means that a picture shows a circuit -/
structure Shows (P : Params) (D : Pic) (c : Circ) : Prop where
  /-- as many input and output ports as channels, in their order from top to bottom -/
  inputs : D.cin.length = c.cdim ∧ D.cin.Pairwise (· < ·)
  outputs : D.cout.length = c.cdim ∧ D.cout.Pairwise (· < ·)
  /-- the boxes are those of the expression, each once -/
  boxes : ∀ p name n, c.at p = some (.box name n) ↔ ∃ B ∈ D.boxes, B.path = p ∧ B.name = name ∧ B.n = n
  once : (D.boxes.map Box.path).Nodup
  /-- they do not overlap -/
  apart : D.boxes.Pairwise Apart
  /-- everything is inside the announced dimensions -/
  inside : (∀ B ∈ D.boxes, 0 ≤ B.x ∧ B.x + 1 ≤ D.w ∧ 0 ≤ B.y ∧ B.y + B.n ≤ D.h) ∧ (∀ s ∈ D.segs, ∀ p ∈ [s.1, s.2], 0 ≤ p.1 ∧ p.1 ≤ D.w ∧ 0 < p.2 ∧ p.2 < D.h)
  /-- following the strokes from where a signal begins one arrives exactly where the circuit takes it -/
  wiring : ∀ s d, net c s d ↔ ∃ p q, D.src P s p ∧ D.dst P d q ∧ Reach D.segs p q
  /-- a point tells of which signal it is the beginning or the end -/
  src_inj : ∀ s s' p, D.src P s p → D.src P s' p → s = s'
  dst_inj : ∀ d d' p, D.dst P d p → D.dst P d' p → d = d'

theorem box_eq {bs : List Box} (h : bs.Pairwise Apart) {B C : Box} (hB : B ∈ bs) (hC : C ∈ bs) (hn : ¬ Apart B C) : B = C := by
  by_contra hne
  have : Std.Symm Apart := ⟨fun _ _ h => h.symm⟩
  exact hn (h.forall hB hC hne)

theorem ports_apart {B C : Box} {k m : ℕ} {a : ℚ} (ha : 0 < a) (ha' : a < 1) (hk : k < B.n) (hm : m < C.n) (h : ((B.x + a, B.y + (k + 1 / 2 : ℚ)) : Pt) = (C.x + a, C.y + (m + 1 / 2 : ℚ))) :
    ¬ Apart B C := by
  injection h with h1 h2
  have e1 : (k : ℚ) + 1 ≤ B.n := by exact_mod_cast hk
  have e2 : (m : ℚ) + 1 ≤ C.n := by exact_mod_cast hm
  have e3 : (0 : ℚ) ≤ k := by positivity
  have e4 : (0 : ℚ) ≤ m := by positivity
  rintro (h | h | h | h) <;> linarith

theorem port_index {B : Box} {k m : ℕ} {a b : ℚ} (h : ((a, B.y + (k + 1 / 2 : ℚ)) : Pt) = (b, B.y + (m + 1 / 2 : ℚ))) : k = m := by
  injection h with _ h
  have : (k : ℚ) = m := by linarith
  exact_mod_cast this

/-- **C77.** For every circuit that has no empty part, whose series products have operands with equal numbers of channels and whose feedback ports exist, `draw_circuit_canvas` returns a picture, and the picture shows
the circuit: the same boxes and the same connections. -/
theorem C77_drawing (P : Params) (hP : P.Good) (c : Circ) (hc : c.WF) : ∃ D, draw P c = some D ∧ Shows P D c := by
  obtain ⟨D, h1, h2⟩ := draw_ok hP c hc
  have r1 := hP.rh
  have r2 := hP.rh'
  refine ⟨D, h1, ⟨h2.len, h2.inv.cin_sorted⟩, ⟨h2.inv.len ▸ h2.len, h2.inv.cout_sorted⟩, h2.boxes.mem, h2.boxes.once, h2.boxes.apart, ⟨h2.inv.box, ?_⟩, h2.inv.net, ?_, ?_⟩
  · intro s hs p hp
    have t := h2.inv.tail s.1 s.2 hs
    have t' := h2.inv.head s.1 s.2 hs
    rcases List.mem_cons.mp hp with rfl | hp
    · exact ⟨t.1, t.2.1.le, t.2.2⟩
    · rw [List.mem_singleton.mp hp]
      exact ⟨t'.1.le, t'.2⟩
  · intro s s' p hs hs'
    cases hs with
    | @inp k y h =>
      generalize e : ((0, y) : Pt) = p at hs'
      cases hs' with
      | inp h' =>
        injection e with _ e
        subst e
        rw [sorted_getElem_inj h2.inv.cin_sorted h h']
      | @box C m hC hm =>
        injection e with e
        have := h2.inv.box C hC
        linarith
    | @box B k hB hk =>
      generalize e : ((B.x + 1 - P.rh, B.y + (k + 1 / 2 : ℚ)) : Pt) = p at hs'
      cases hs' with
      | inp h' =>
        injection e with e
        have := h2.inv.box B hB
        linarith
      | @box C m hC hm =>
        have hBC : B = C := by
          refine box_eq h2.boxes.apart hB hC (ports_apart (a := 1 - P.rh) (by linarith) (by linarith) hk hm ?_)
          rw [← add_sub_assoc, ← add_sub_assoc]
          exact e
        subst hBC
        rw [port_index e]
  · intro s s' p hs hs'
    cases hs with
    | @out k y h =>
      generalize e : ((D.w, y) : Pt) = p at hs'
      cases hs' with
      | out h' =>
        injection e with _ e
        subst e
        rw [sorted_getElem_inj h2.inv.cout_sorted h h']
      | @box C m hC hm =>
        injection e with e
        have := h2.inv.box C hC
        linarith
    | @box B k hB hk =>
      generalize e : ((B.x + P.rh, B.y + (k + 1 / 2 : ℚ)) : Pt) = p at hs'
      cases hs' with
      | out h' =>
        injection e with e
        have := h2.inv.box B hB
        linarith
      | @box C m hC hm =>
        have hBC : B = C := box_eq h2.boxes.apart hB hC (ports_apart (by linarith) (by linarith) hk hm e)
        subst hBC
        rw [port_index e]

/-- the default margins are admissible -/
theorem C77_defaults : defaults.Good := ⟨by norm_num [defaults], by norm_num [defaults], by norm_num [defaults], by norm_num [defaults]⟩

/-! ### Examples -/

/-- `[(A + cid(1)) << P(1,0) << B]` with feedback from output 0 to input 1, `A` with one channel, `B` with two -/
def ex : Circ := .fb (.series [.concat [.box "A" 1, .idn], .perm [1, 0], .box "B" 2]) 0 1

/-- the hypotheses are met -/
theorem C77_nonvacuous : ex.WF := by
  simp only [ex, Circ.WF, WFSeries, WFAll, Circ.cdim, cdimAll]
  refine ⟨⟨by decide, 2, ?_⟩, by decide, by decide, by decide⟩
  simp [Circ.cdim, cdimAll]

/-- the input goes to the first input of `B`; its second output goes through `A` back to its second input; its first output goes out -/
theorem C77_example : net ex (.inp 0) (.box [0, 2] 0) ∧ net ex (.box [0, 2] 1) (.box [0, 0, 0] 0) ∧ net ex (.box [0, 0, 0] 0) (.box [0, 2] 1) ∧ net ex (.box [0, 2] 0) (.out 0) := by
  have hB0 : net (.box "B" 2) (.inp 0) (.box [] 0) := by rw [net]; exact .enter (by decide)
  have hB1 : net (.box "B" 2) (.inp 1) (.box [] 1) := by rw [net]; exact .enter (by decide)
  have hB2 : net (.box "B" 2) (.box [] 0) (.out 0) := by rw [net]; exact .leave (by decide)
  have hB3 : net (.box "B" 2) (.box [] 1) (.out 1) := by rw [net]; exact .leave (by decide)
  have hp0 : net (.perm [1, 0]) (.inp 0) (.out 1) := by rw [net]; exact .mk rfl
  have hp1 : net (.perm [1, 0]) (.inp 1) (.out 0) := by rw [net]; exact .mk rfl
  have hA0 : net (.box "A" 1) (.inp 0) (.box [] 0) := by rw [net]; exact .enter (by decide)
  have hA1 : net (.box "A" 1) (.box [] 0) (.out 0) := by rw [net]; exact .leave (by decide)
  have hC0 : net (.concat [.box "A" 1, .idn]) (.inp 0) (.box [0] 0) := by rw [net, netConcat]; exact .upper (.mk hA0)
  have hC1 : net (.concat [.box "A" 1, .idn]) (.box [0] 0) (.out 0) := by rw [net, netConcat]; exact .upper (.mk hA1)
  have hC2 : net (.concat [.box "A" 1, .idn]) (.inp 1) (.out 1) := by
    rw [net, netConcat, netConcat, show Circ.cdim (.box "A" 1) = 1 from rfl]
    have hid : net .idn (.inp 0) (.out 0) := by rw [net]; exact .mk
    exact .lower (s := .inp 0) (d := .out 0) (.upper (.mk hid))
  have hS : ∀ s d, seqNet (seqNet (tagNet 2 (net (.box "B" 2))) (tagNet 1 (net (.perm [1, 0])))) (tagNet 0 (net (.concat [.box "A" 1, .idn]))) s d →
      net (.series [.concat [.box "A" 1, .idn], .perm [1, 0], .box "B" 2]) s d := by
    intro s d h
    rw [net, netSeries, netSeries, netSeries] <;> first | exact h | simp
  have h1 := hS _ _ (.first (.first (.mk hB0)))
  have h2 := hS _ _ (.through (.through (.mk hB3) (.mk hp1)) (.mk hC0))
  have h3 := hS _ _ (.second (.mk hC1))
  have h4 := hS _ _ (.through (.through (.mk hB2) (.mk hp0)) (.mk hC2))
  have h5 := hS _ _ (.first (.first (.mk hB1)))
  simp only [ex]
  rw [net]
  exact ⟨.direct (.mk h1), .direct (.mk h2), .loop (.mk h3) (.mk h5), .direct (.mk h4)⟩

/-- the picture of the example with the default margins: strokes are connectors and the loop -/
theorem C77_picture : (draw defaults (.series [.perm [1, 0], .box "B" 2])).map (fun D => (D.segs, D.w, D.h)) =
    some ([((0, 1 / 2), (1 / 10, 1 / 2)), ((9 / 10, 1 / 2), (1, 1 / 2)), ((0, 3 / 2), (1 / 10, 3 / 2)), ((9 / 10, 3 / 2), (1, 3 / 2)), ((1, 1 / 2), (14 / 10, 3 / 2)), ((1, 3 / 2), (14 / 10, 1 / 2))],
      14 / 10, 2) := by decide +kernel

/-- The circuit without channels, which is an expression like any other, is not drawn: an exception is raised. -/
theorem C77_refuted_zero (P : Params) : draw P .zero = none := by rw [draw]

/-- lines 300-326 of `draw_circuit`, after the picture has been made: what is returned, and whether a file is written; `none` stands for the exception. -/
def save (gs : Bool) (filename : String) : Option (Bool × Bool) :=
  if ["pdf", "eps", "ps"].any fun s => (("." ++ s).toList.isSuffixOf filename.toList) then some (true, true)
  else if ["png", "jpg"].any fun s => (("." ++ s).toList.isSuffixOf filename.toList) then (if gs then some (true, true) else none)
  else some (true, false)

/-- `draw_circuit` is documented to return `True` if printing was successful. For a file name with another suffix it returns `True` and writes nothing. -/
theorem C77_refuted_suffix : save true "circuit.svg" = some (true, false) := by decide +kernel

end QNET.Draw
