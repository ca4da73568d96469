import Verif.Visual.Parts

/-! # Drawings: series products, stacks, feedback loops, tags -/

namespace QNET.Draw

variable {P : Params}

/-! ### Tags -/

theorem tag_src {D : Pic} {j : ℕ} {s : Src} {p : Pt} : (D.tag j).src P s p ↔ ∃ s', s = s'.tag j ∧ D.src P s' p := by
  constructor
  · rintro (h | ⟨h, h'⟩)
    · exact ⟨_, rfl, .inp h⟩
    · obtain ⟨B, hB, rfl⟩ := List.mem_map.mp h
      exact ⟨.box B.path _, rfl, .box hB h'⟩
  · rintro ⟨s', rfl, h⟩
    cases h with
    | inp h => exact .inp h
    | @box B k h h' => exact .box (D := D.tag j) (B := { B with path := j :: B.path }) (List.mem_map.mpr ⟨B, h, rfl⟩) h'

theorem tag_dst {D : Pic} {j : ℕ} {s : Dst} {p : Pt} : (D.tag j).dst P s p ↔ ∃ s', s = s'.tag j ∧ D.dst P s' p := by
  constructor
  · rintro (h | ⟨h, h'⟩)
    · exact ⟨_, rfl, .out h⟩
    · obtain ⟨B, hB, rfl⟩ := List.mem_map.mp h
      exact ⟨.box B.path _, rfl, .box hB h'⟩
  · rintro ⟨s', rfl, h⟩
    cases h with
    | out h => exact .out (D := D.tag j) h
    | @box B k h h' => exact .box (D := D.tag j) (B := { B with path := j :: B.path }) (List.mem_map.mpr ⟨B, h, rfl⟩) h'

theorem tag_inv {D : Pic} {N : Net} (h : Inv P D N) (j : ℕ) : Inv P (D.tag j) (tagNet j N) where
  wpos := h.wpos
  hpos := h.hpos
  len := h.len
  cin := h.cin
  cout := h.cout
  cin_sorted := h.cin_sorted
  cout_sorted := h.cout_sorted
  tail := h.tail
  head := h.head
  seg_in := h.seg_in
  seg_out := h.seg_out
  box B hB := by
    obtain ⟨B, hB', rfl⟩ := List.mem_map.mp hB
    exact h.box B hB'
  net s d := by
    constructor
    · rintro ⟨hN⟩
      obtain ⟨p, q, h1, h2, h3⟩ := (h.net _ _).mp hN
      exact ⟨p, q, tag_src.mpr ⟨_, rfl, h1⟩, tag_dst.mpr ⟨_, rfl, h2⟩, h3⟩
    · rintro ⟨p, q, h1, h2, h3⟩
      obtain ⟨s, rfl, g1⟩ := tag_src.mp h1
      obtain ⟨d, rfl, g2⟩ := tag_dst.mp h2
      exact .mk ((h.net _ _).mpr ⟨p, q, g1, g2, h3⟩)

/-! ### Series products -/

theorem shiftSegs_shift {a b c d : ℚ} (l : List (Pt × Pt)) : shiftSegs a b (shiftSegs c d l) = shiftSegs (c + a) (d + b) l := by
  simp only [shiftSegs, List.map_map]
  refine List.map_congr_left fun x _ => ?_
  simp [shiftPt, add_assoc]

theorem shiftBoxes_shift {a b c d : ℚ} (l : List Box) : shiftBoxes a b (shiftBoxes c d l) = shiftBoxes (c + a) (d + b) l := by
  simp only [shiftBoxes, List.map_map]
  refine List.map_congr_left fun x _ => ?_
  simp [add_assoc]

theorem attach_inv (hP : P.Good) {A B : Pic} {M N : Net} (hA : Inv P A M) (hB : Inv P B N) (hl : A.cout.length = B.cin.length) : Inv P (attach P A B) (seqNet M N) := by
  by_cases h : A.cout = B.cin
  · refine (join_inv hP hA hB h).congr ?_ ?_ ?_ ?_ rfl rfl <;> simp [attach, h, join]
  · have hJ : Inv P (wires P.rp (max B.h A.h) A.cout B.cin) (permNet (List.range A.cout.length)) := by
      refine straight_inv hP.rp (le_max_of_le_left hB.hpos) hl (fun y hy => ?_) (fun y hy => ?_) hA.cout_sorted hB.cin_sorted
      · exact ⟨(hA.cout y hy).1, (hA.cout y hy).2.trans_le (le_max_right _ _)⟩
      · exact ⟨(hB.cin y hy).1, (hB.cin y hy).2.trans_le (le_max_left _ _)⟩
    have hC := (join_inv hP hJ hB rfl).congrNet (N' := N) (seq_range_left fun k d hk => hl ▸ hB.inp_lt hk)
    refine (join_inv hP hA hC rfl).congr ?_ ?_ ?_ ?_ rfl rfl
    · intro x
      have e1 : shiftSegs A.w 0 (shiftSegs P.rp 0 B.segs) = shiftSegs (A.w + P.rp) 0 B.segs := by rw [shiftSegs_shift, add_comm, add_zero]
      have e2 : shiftSegs A.w 0 (wires P.rp (max B.h A.h) A.cout B.cin).segs = (A.cout.zip B.cin).map fun y => (((A.w, y.1), (A.w + P.rp, y.2)) : Pt × Pt) := by
        simp only [shiftSegs, wires, List.map_map]
        refine List.map_congr_left fun y _ => ?_
        simp [shiftPt, add_comm]
      have e3 : shiftSegs A.w 0 (join (wires P.rp (max B.h A.h) A.cout B.cin) B).segs = shiftSegs A.w 0 (wires P.rp (max B.h A.h) A.cout B.cin).segs ++ shiftSegs A.w 0 (shiftSegs P.rp 0 B.segs) := by
        simp [join, shiftSegs, wires]
      simp only [attach, join] at e3 ⊢
      rw [e3, e1, e2]
      simp [h]
    · have e1 : shiftBoxes A.w 0 (shiftBoxes P.rp 0 B.boxes) = shiftBoxes (A.w + P.rp) 0 B.boxes := by rw [shiftBoxes_shift, add_comm, add_zero]
      simp [attach, h, join, wires, e1]
    · simp [attach, h, join, wires]
      ring
    · simp [attach, join, wires]

/-! ### Stacks -/

def stack (A B : Pic) : Pic :=
  ⟨A.segs ++ shiftSegs 0 A.h B.segs, A.boxes ++ shiftBoxes 0 A.h B.boxes, A.w, A.h + B.h, A.cin ++ B.cin.map (· + A.h), A.cout ++ B.cout.map (· + A.h)⟩

theorem src_y {D : Pic} {N : Net} (h : Inv P D N) {s : Src} {p : Pt} (hs : D.src P s p) : 0 < p.2 ∧ p.2 < D.h := by
  cases hs with
  | inp h' => exact h.cin _ (List.mem_of_getElem? h')
  | @box B k hB hk =>
    have := h.box _ hB
    have h1 : (k : ℚ) + 1 ≤ B.n := by exact_mod_cast hk
    have h2 : (0 : ℚ) ≤ k := by positivity
    constructor <;> dsimp only <;> linarith

theorem dst_y {D : Pic} {N : Net} (h : Inv P D N) {d : Dst} {p : Pt} (hs : D.dst P d p) : 0 < p.2 ∧ p.2 < D.h := by
  cases hs with
  | out h' => exact h.cout _ (List.mem_of_getElem? h')
  | @box B k hB hk =>
    have := h.box _ hB
    have h1 : (k : ℚ) + 1 ≤ B.n := by exact_mod_cast hk
    have h2 : (0 : ℚ) ≤ k := by positivity
    constructor <;> dsimp only <;> linarith

theorem append_get {l m : List ℚ} {a : ℚ} {k : ℕ} {y : ℚ} : (l ++ m.map (· + a))[k]? = some y ↔ l[k]? = some y ∨ ∃ j z, k = l.length + j ∧ m[j]? = some z ∧ y = z + a := by
  by_cases hk : k < l.length
  · rw [List.getElem?_append_left hk]
    constructor
    · exact .inl
    · rintro (h | ⟨j, z, rfl, -, -⟩)
      · exact h
      · omega
  · rw [List.getElem?_append_right (by omega), List.getElem?_map, Option.map_eq_some_iff]
    constructor
    · rintro ⟨z, h1, rfl⟩
      exact .inr ⟨_, z, by omega, h1, rfl⟩
    · rintro (h | ⟨j, z, rfl, h1, rfl⟩)
      · exact absurd (List.getElem?_eq_some_iff.mp h).1 hk
      · exact ⟨z, by rwa [Nat.add_sub_cancel_left], rfl⟩

theorem stack_src {A B : Pic} {n : ℕ} (hn : A.cin.length = n) {s : Src} {p : Pt} : (stack A B).src P s p ↔ A.src P s p ∨ ∃ s' q, s = s'.shift n ∧ B.src P s' q ∧ p = shiftPt 0 A.h q := by
  constructor
  · rintro (h | ⟨h, h'⟩)
    · rcases append_get.mp h with h | ⟨j, z, rfl, g, rfl⟩
      · exact .inl (.inp h)
      · exact .inr ⟨.inp j, _, by rw [hn]; rfl, .inp g, by simp [shiftPt]⟩
    · rcases List.mem_append.mp h with h | h
      · exact .inl (.box h h')
      · obtain ⟨B', hB, rfl⟩ := mem_shiftBoxes.mp h
        refine .inr ⟨.box B'.path _, _, rfl, .box (B := B') hB h', ?_⟩
        simp only [shiftPt, Prod.mk.injEq]
        constructor <;> ring
  · rintro (h | ⟨s', q, rfl, h, rfl⟩)
    · cases h with
      | inp h => exact .inp (append_get.mpr (.inl h))
      | box h h' => exact .box (List.mem_append_left _ h) h'
    · cases h with
      | @inp k y h =>
        have := Pic.src.inp (P := P) (D := stack A B) (k := n + k) (y := y + A.h) (append_get.mpr (.inr ⟨k, y, by rw [hn], h, rfl⟩))
        simpa [shiftPt, Src.shift] using this
      | @box B' k h h' =>
        have := Pic.src.box (P := P) (D := stack A B) (k := k) (List.mem_append_right _ (mem_shiftBoxes.mpr ⟨B', h, rfl⟩)) h'
        have e : ∀ {a b c d : ℚ}, a = c → b = d → ((a, b) : Pt) = (c, d) := fun h h' => by rw [h, h']
        convert this using 1
        all_goals first | rfl | exact e (by dsimp only; ring) (by dsimp only; ring)

theorem stack_dst {A B : Pic} {n : ℕ} (hn : A.cout.length = n) (hw : A.w = B.w) {s : Dst} {p : Pt} : (stack A B).dst P s p ↔ A.dst P s p ∨ ∃ s' q, s = s'.shift n ∧ B.dst P s' q ∧ p = shiftPt 0 A.h q := by
  constructor
  · rintro (h | ⟨h, h'⟩)
    · rcases append_get.mp h with h | ⟨j, z, rfl, g, rfl⟩
      · exact .inl (.out h)
      · exact .inr ⟨.out j, _, by rw [hn]; rfl, .out g, by simp [shiftPt, stack, hw]⟩
    · rcases List.mem_append.mp h with h | h
      · exact .inl (.box h h')
      · obtain ⟨B', hB, rfl⟩ := mem_shiftBoxes.mp h
        refine .inr ⟨.box B'.path _, _, rfl, .box (B := B') hB h', ?_⟩
        simp only [shiftPt, Prod.mk.injEq]
        constructor <;> ring
  · rintro (h | ⟨s', q, rfl, h, rfl⟩)
    · cases h with
      | out h => exact .out (D := stack A B) (append_get.mpr (.inl h))
      | box h h' => exact .box (List.mem_append_left _ h) h'
    · cases h with
      | @out k y h =>
        have := Pic.dst.out (P := P) (D := stack A B) (k := n + k) (y := y + A.h) (append_get.mpr (.inr ⟨k, y, by rw [hn], h, rfl⟩))
        simpa [shiftPt, Dst.shift, stack, hw] using this
      | @box B' k h h' =>
        have := Pic.dst.box (P := P) (D := stack A B) (k := k) (List.mem_append_right _ (mem_shiftBoxes.mpr ⟨B', h, rfl⟩)) h'
        have e : ∀ {a b c d : ℚ}, a = c → b = d → ((a, b) : Pt) = (c, d) := fun h h' => by rw [h, h']
        convert this using 1
        all_goals first | rfl | exact e (by dsimp only; ring) (by dsimp only; ring)

theorem stack_sorted {l m : List ℚ} {a : ℚ} (hl : l.Pairwise (· < ·)) (hm : m.Pairwise (· < ·)) (h1 : ∀ y ∈ l, y < a) (h2 : ∀ y ∈ m, 0 < y) : (l ++ m.map (· + a)).Pairwise (· < ·) := by
  rw [List.pairwise_append]
  refine ⟨hl, ?_, ?_⟩
  · rw [List.pairwise_map]
    exact hm.imp fun h => by linarith
  · intro x hx y hy
    obtain ⟨z, hz, rfl⟩ := List.mem_map.mp hy
    have := h1 x hx
    have := h2 z hz
    linarith

theorem stack_inv {A B : Pic} {M N : Net} {n : ℕ} (hA : Inv P A M) (hB : Inv P B N) (hn : A.cin.length = n) (hw : A.w = B.w) : Inv P (stack A B) (parNet n M N) where
  wpos := hA.wpos
  hpos := by have := hA.hpos; have := hB.hpos; simp only [stack]; linarith
  len := by simp [stack, hA.len, hB.len]
  cin y hy := by
    have hA0 := hA.hpos; have hB0 := hB.hpos
    simp only [stack] at hy ⊢
    rcases List.mem_append.mp hy with hy | hy
    · have := hA.cin y hy
      exact ⟨this.1, by linarith⟩
    · obtain ⟨z, hz, rfl⟩ := List.mem_map.mp hy
      have := hB.cin z hz
      constructor <;> linarith
  cout y hy := by
    have hA0 := hA.hpos; have hB0 := hB.hpos
    simp only [stack] at hy ⊢
    rcases List.mem_append.mp hy with hy | hy
    · have := hA.cout y hy
      exact ⟨this.1, by linarith⟩
    · obtain ⟨z, hz, rfl⟩ := List.mem_map.mp hy
      have := hB.cout z hz
      constructor <;> linarith
  cin_sorted := stack_sorted hA.cin_sorted hB.cin_sorted (fun y hy => (hA.cin y hy).2) (fun y hy => (hB.cin y hy).1)
  cout_sorted := stack_sorted hA.cout_sorted hB.cout_sorted (fun y hy => (hA.cout y hy).2) (fun y hy => (hB.cout y hy).1)
  tail a b hx := by
    have hA0 := hA.hpos; have hB0 := hB.hpos
    rcases List.mem_append.mp hx with hx | hx
    · have := hA.tail a b hx
      simp only [stack]
      exact ⟨this.1, this.2.1, this.2.2.1, by linarith⟩
    · obtain ⟨a', b', hy, rfl, rfl⟩ := mem_shiftSegs.mp hx
      have := hB.tail a' b' hy
      simp only [stack, shiftPt]
      refine ⟨?_, ?_, ?_, ?_⟩ <;> linarith
  head a b hx := by
    have hA0 := hA.hpos; have hB0 := hB.hpos
    rcases List.mem_append.mp hx with hx | hx
    · have := hA.head a b hx
      simp only [stack]
      exact ⟨this.1, this.2.1, this.2.2.1, by linarith⟩
    · obtain ⟨a', b', hy, rfl, rfl⟩ := mem_shiftSegs.mp hx
      have := hB.head a' b' hy
      simp only [stack, shiftPt]
      refine ⟨?_, ?_, ?_, ?_⟩ <;> linarith
  seg_in a b hx h0 := by
    rcases List.mem_append.mp hx with hx | hx
    · exact List.mem_append_left _ (hA.seg_in a b hx h0)
    · obtain ⟨a', b', hy, rfl, rfl⟩ := mem_shiftSegs.mp hx
      exact List.mem_append_right _ (List.mem_map.mpr ⟨_, hB.seg_in a' b' hy (by simpa [shiftPt] using h0), rfl⟩)
  seg_out a b hx h0 := by
    rcases List.mem_append.mp hx with hx | hx
    · exact List.mem_append_left _ (hA.seg_out a b hx h0)
    · obtain ⟨a', b', hy, rfl, rfl⟩ := mem_shiftSegs.mp hx
      exact List.mem_append_right _ (List.mem_map.mpr ⟨_, hB.seg_out a' b' hy (by simpa [shiftPt, stack, hw] using h0), rfl⟩)
  box B' hx := by
    have hA0 := hA.hpos; have hB0 := hB.hpos
    rcases List.mem_append.mp hx with hx | hx
    · have := hA.box _ hx
      simp only [stack]
      exact ⟨this.1, this.2.1, this.2.2.1, by linarith⟩
    · obtain ⟨B', hy, rfl⟩ := mem_shiftBoxes.mp hx
      have := hB.box _ hy
      simp only [stack]
      refine ⟨?_, ?_, ?_, ?_⟩ <;> linarith
  net s d := by
    have hno : A.cout.length = n := hA.len ▸ hn
    constructor
    · rintro (hM | hN)
      · obtain ⟨p, q, h1, h2, h3⟩ := (hA.net _ _).mp hM
        exact ⟨p, q, (stack_src hn).mpr (.inl h1), (stack_dst hno hw).mpr (.inl h2), h3.mono fun x => List.mem_append_left _⟩
      · obtain ⟨p, q, h1, h2, h3⟩ := (hB.net _ _).mp hN
        exact ⟨_, _, (stack_src hn).mpr (.inr ⟨_, _, rfl, h1, rfl⟩), (stack_dst hno hw).mpr (.inr ⟨_, _, rfl, h2, rfl⟩), h3.shift.mono fun x => List.mem_append_right _⟩
    · rintro ⟨p, q, h1, h2, h3⟩
      have lB : ∀ {a b : Pt}, (a, b) ∈ shiftSegs 0 A.h B.segs → A.h < a.2 ∧ A.h < b.2 := by
        intro a b hx
        obtain ⟨a', b', hy, rfl, rfl⟩ := mem_shiftSegs.mp hx
        have h1 := hB.tail a' b' hy
        have h2 := hB.head a' b' hy
        simp only [shiftPt]
        constructor <;> linarith
      obtain ⟨r, h4, h5⟩ := h3.split (l1 := A.segs) (l2 := shiftSegs 0 A.h B.segs) (fun x hx => List.mem_append.mp hx) (by
        intro a b c hx hy
        have h1 := (lB hx).2
        have h2 := hA.tail b c hy
        linarith)
      rcases (stack_src hn).mp h1 with g1 | ⟨s, p0, rfl, g1, rfl⟩
      · have hp := src_y hA g1
        have hr : r.2 < A.h := by
          rcases h4.last with rfl | ⟨z, -, hz⟩
          · exact hp.2
          · exact (hA.head _ _ hz).2.2.2
        obtain rfl : r = q := by
          rcases h5.first with h | ⟨z, hz, -⟩
          · exact h
          · have := (lB hz).1
            linarith
        rcases (stack_dst hno hw).mp h2 with g2 | ⟨d, q0, rfl, g2, rfl⟩
        · exact .upper ((hA.net _ _).mpr ⟨_, _, g1, g2, h4⟩)
        · have := dst_y hB g2
          simp only [shiftPt] at hr
          linarith
      · have hp := src_y hB g1
        obtain rfl : shiftPt 0 A.h p0 = r := by
          rcases h4.first with h | ⟨z, hz, -⟩
          · exact h
          · have := hA.tail _ _ hz
            simp only [shiftPt] at this
            linarith
        rcases (stack_dst hno hw).mp h2 with g2 | ⟨d, q0, rfl, g2, rfl⟩
        · have hq := dst_y hA g2
          rcases h5.last with rfl | ⟨z, -, hz⟩
          · simp only [shiftPt] at hq
            linarith
          · have := (lB hz).2
            linarith
        · exact .lower ((hB.net _ _).mpr ⟨_, _, g1, g2, h5.unshift⟩)

end QNET.Draw
