import Verif.Visual.Comp

/-! # Drawings: feedback loops and concatenations -/

namespace QNET.Draw

variable {P : Params}

theorem erase_get (l : List ℚ) (i k : ℕ) : (l.eraseIdx i)[k]? = l[skip i k]? := by
  rw [List.getElem?_eraseIdx, skip]
  split_ifs <;> rfl

theorem skip_ne (i k : ℕ) : skip i k ≠ i := by
  rw [skip]
  split_ifs <;> omega

/-- the picture of a feedback loop -/
def loopPic (P : Params) (D : Pic) (o i : ℕ) (yo yi : ℚ) : Pic :=
  ⟨shiftSegs (P.rh / 2) 0 D.segs ++ [((D.w + P.rh / 2, yo), (P.rh / 2, yi))] ++ (D.cin.eraseIdx i).map (fun y => ((0, y), (P.rh / 2, y))) ++
      (D.cout.eraseIdx o).map (fun y => ((D.w + P.rh / 2, y), (D.w + P.rh, y))),
    shiftBoxes (P.rh / 2) 0 D.boxes, D.w + P.rh, D.h + P.rv, D.cin.eraseIdx i, D.cout.eraseIdx o⟩

theorem mem_loopPic {D : Pic} {o i : ℕ} {yo yi : ℚ} {a b : Pt} : (a, b) ∈ (loopPic P D o i yo yi).segs ↔
    ((a, b) ∈ shiftSegs (P.rh / 2) 0 D.segs ∨ a = (D.w + P.rh / 2, yo) ∧ b = (P.rh / 2, yi)) ∨ (∃ y ∈ D.cin.eraseIdx i, a = (0, y) ∧ b = (P.rh / 2, y)) ∨
      ∃ y ∈ D.cout.eraseIdx o, a = (D.w + P.rh / 2, y) ∧ b = (D.w + P.rh, y) := by
  simp only [loopPic, List.mem_append, List.mem_map, List.mem_singleton, Prod.mk.injEq, or_assoc]
  refine or_congr Iff.rfl (or_congr Iff.rfl (or_congr ?_ ?_))
  · exact exists_congr fun y => and_congr_right fun _ => and_congr eq_comm eq_comm
  · exact exists_congr fun y => and_congr_right fun _ => and_congr eq_comm eq_comm

theorem loop_reach {l : List (Pt × Pt)} {e : Pt × Pt} {p q : Pt} (h : Reach (l ++ [e]) p q) : Reach l p q ∨ Reach l p e.1 ∧ Reach l e.2 q := by
  induction h using Relation.ReflTransGen.head_induction_on with
  | refl => exact .inl .refl
  | head hx _ ih =>
    rcases List.mem_append.mp hx with hx | hx
    · rcases ih with ih | ⟨h1, h2⟩
      · exact .inl ((Reach.step hx).trans' ih)
      · exact .inr ⟨(Reach.step hx).trans' h1, h2⟩
    · obtain rfl := List.mem_singleton.mp hx
      rcases ih with ih | ⟨h1, h2⟩
      · exact .inr ⟨.refl, ih⟩
      · exact .inr ⟨.refl, h2⟩

theorem loop_src {D : Pic} {o i : ℕ} {yo yi : ℚ} {s : Src} {p : Pt} : (loopPic P D o i yo yi).src P s p ↔
    (∃ k y, s = .inp k ∧ p = (0, y) ∧ D.cin[skip i k]? = some y) ∨ (∃ b k q, s = .box b k ∧ D.src P s q ∧ p = shiftPt (P.rh / 2) 0 q) := by
  constructor
  · rintro (h | ⟨h, h'⟩)
    · exact .inl ⟨_, _, rfl, rfl, (erase_get ..).symm.trans h⟩
    · obtain ⟨B', hB, rfl⟩ := mem_shiftBoxes.mp h
      refine .inr ⟨_, _, _, rfl, .box (B := B') hB h', ?_⟩
      simp only [shiftPt, Prod.mk.injEq]
      constructor <;> ring
  · rintro (⟨k, y, rfl, rfl, h⟩ | ⟨b, k, q, rfl, h, rfl⟩)
    · exact .inp ((erase_get ..).trans h)
    · cases h with
      | @box B' k h h' =>
        have := Pic.src.box (P := P) (D := loopPic P D o i yo yi) (k := k) (mem_shiftBoxes.mpr ⟨B', h, rfl⟩) h'
        have e : ∀ {a b c d : ℚ}, a = c → b = d → ((a, b) : Pt) = (c, d) := fun h h' => by rw [h, h']
        convert this using 1
        exact e (by dsimp only; ring) (by dsimp only; ring)

theorem loop_dst {D : Pic} {o i : ℕ} {yo yi : ℚ} {s : Dst} {p : Pt} : (loopPic P D o i yo yi).dst P s p ↔
    (∃ k y, s = .out k ∧ p = (D.w + P.rh, y) ∧ D.cout[skip o k]? = some y) ∨ (∃ b k q, s = .box b k ∧ D.dst P s q ∧ p = shiftPt (P.rh / 2) 0 q) := by
  constructor
  · rintro (h | ⟨h, h'⟩)
    · exact .inl ⟨_, _, rfl, rfl, (erase_get ..).symm.trans h⟩
    · obtain ⟨B', hB, rfl⟩ := mem_shiftBoxes.mp h
      refine .inr ⟨_, _, _, rfl, .box (B := B') hB h', ?_⟩
      simp only [shiftPt, Prod.mk.injEq]
      constructor <;> ring
  · rintro (⟨k, y, rfl, rfl, h⟩ | ⟨b, k, q, rfl, h, rfl⟩)
    · exact .out (D := loopPic P D o i yo yi) ((erase_get ..).trans h)
    · cases h with
      | @box B' k h h' =>
        have := Pic.dst.box (P := P) (D := loopPic P D o i yo yi) (k := k) (mem_shiftBoxes.mpr ⟨B', h, rfl⟩) h'
        have e : ∀ {a b c d : ℚ}, a = c → b = d → ((a, b) : Pt) = (c, d) := fun h h' => by rw [h, h']
        convert this using 1
        exact e (by dsimp only; ring) (by dsimp only; ring)

theorem loop_inv (hP : P.Good) {D : Pic} {N : Net} (hD : Inv P D N) {o i : ℕ} {yo yi : ℚ} (ho : D.cout[o]? = some yo) (hi : D.cin[i]? = some yi) : Inv P (loopPic P D o i yo yi) (fbNet o i N) := by
  have r1 := hP.rh
  have r2 := hP.rh'
  have r3 := hP.rv
  have w0 := hD.wpos
  have yo0 := hD.cout yo (List.mem_of_getElem? ho)
  have yi0 := hD.cin yi (List.mem_of_getElem? hi)
  have ci : ∀ y ∈ D.cin.eraseIdx i, 0 < y ∧ y < D.h := fun y hy => hD.cin y (List.mem_of_mem_eraseIdx hy)
  have co : ∀ y ∈ D.cout.eraseIdx o, 0 < y ∧ y < D.h := fun y hy => hD.cout y (List.mem_of_mem_eraseIdx hy)
  constructor
  case wpos => simp only [loopPic]; linarith
  case hpos => have := hD.hpos; simp only [loopPic]; linarith
  case len =>
    have h1 := (List.getElem?_eq_some_iff.mp ho).1
    have h2 := (List.getElem?_eq_some_iff.mp hi).1
    simp only [loopPic]
    rw [List.length_eraseIdx_of_lt h1, List.length_eraseIdx_of_lt h2, hD.len]
  case cin =>
    intro y hy
    have := ci y hy
    simp only [loopPic]
    constructor <;> linarith
  case cout =>
    intro y hy
    have := co y hy
    simp only [loopPic]
    constructor <;> linarith
  case cin_sorted => exact hD.cin_sorted.sublist (List.eraseIdx_sublist ..)
  case cout_sorted => exact hD.cout_sorted.sublist (List.eraseIdx_sublist ..)
  case tail =>
    intro a b hx
    rcases mem_loopPic.mp hx with (hx | ⟨rfl, rfl⟩) | ⟨y, hy, rfl, rfl⟩ | ⟨y, hy, rfl, rfl⟩
    · obtain ⟨a', b', hy, rfl, rfl⟩ := mem_shiftSegs.mp hx
      have := hD.tail _ _ hy
      simp only [loopPic, shiftPt]
      refine ⟨?_, ?_, ?_, ?_⟩ <;> linarith
    · simp only [loopPic]
      refine ⟨?_, ?_, ?_, ?_⟩ <;> linarith
    · have := ci y hy
      simp only [loopPic]
      refine ⟨?_, ?_, ?_, ?_⟩ <;> linarith
    · have := co y hy
      simp only [loopPic]
      refine ⟨?_, ?_, ?_, ?_⟩ <;> linarith
  case head =>
    intro a b hx
    rcases mem_loopPic.mp hx with (hx | ⟨rfl, rfl⟩) | ⟨y, hy, rfl, rfl⟩ | ⟨y, hy, rfl, rfl⟩
    · obtain ⟨a', b', hy, rfl, rfl⟩ := mem_shiftSegs.mp hx
      have := hD.head _ _ hy
      simp only [loopPic, shiftPt]
      refine ⟨?_, ?_, ?_, ?_⟩ <;> linarith
    · simp only [loopPic]
      refine ⟨?_, ?_, ?_, ?_⟩ <;> linarith
    · have := ci y hy
      simp only [loopPic]
      refine ⟨?_, ?_, ?_, ?_⟩ <;> linarith
    · have := co y hy
      simp only [loopPic]
      refine ⟨?_, ?_, ?_, ?_⟩ <;> linarith
  case seg_in =>
    intro a b hx h0
    rcases mem_loopPic.mp hx with (hx | ⟨rfl, rfl⟩) | ⟨y, hy, rfl, rfl⟩ | ⟨y, hy, rfl, rfl⟩
    · obtain ⟨a', b', hy, rfl, rfl⟩ := mem_shiftSegs.mp hx
      have := hD.tail _ _ hy
      simp only [shiftPt] at h0
      linarith
    · simp only at h0
      linarith
    · exact hy
    · simp only at h0
      linarith
  case seg_out =>
    intro a b hx h0
    simp only [loopPic] at h0
    rcases mem_loopPic.mp hx with (hx | ⟨rfl, rfl⟩) | ⟨y, hy, rfl, rfl⟩ | ⟨y, hy, rfl, rfl⟩
    · obtain ⟨a', b', hy, rfl, rfl⟩ := mem_shiftSegs.mp hx
      have := hD.head _ _ hy
      simp only [shiftPt] at h0
      linarith
    · simp only at h0
      linarith
    · simp only at h0
      linarith
    · exact hy
  case box =>
    intro B hB
    obtain ⟨B', hy, rfl⟩ := mem_shiftBoxes.mp hB
    have := hD.box _ hy
    simp only [loopPic]
    refine ⟨?_, ?_, ?_, ?_⟩ <;> linarith
  case net =>
    have sub : ∀ x ∈ shiftSegs (P.rh / 2) 0 D.segs, x ∈ (loopPic P D o i yo yi).segs := fun x hx => by simp [loopPic, hx]
    -- begin and end of a signal in the inner picture
    have srcTo : ∀ {s : Src} {p0 : Pt}, D.src P (s.opn i) p0 → ∃ p, (loopPic P D o i yo yi).src P s p ∧ Reach (loopPic P D o i yo yi).segs p (shiftPt (P.rh / 2) 0 p0) := by
      intro s p0 h
      cases s with
      | inp k =>
        cases h with
        | @inp _ y h =>
          refine ⟨(0, y), loop_src.mpr (.inl ⟨k, y, rfl, rfl, h⟩), .step (mem_loopPic.mpr (.inr (.inl ⟨y, List.mem_of_getElem? ((erase_get ..).trans h), rfl, ?_⟩)))⟩
          simp [shiftPt]
      | box b k => exact ⟨_, loop_src.mpr (.inr ⟨b, k, _, rfl, h, rfl⟩), .refl⟩
    have dstTo : ∀ {d : Dst} {q0 : Pt}, D.dst P (d.opn o) q0 → ∃ q, (loopPic P D o i yo yi).dst P d q ∧ Reach (loopPic P D o i yo yi).segs (shiftPt (P.rh / 2) 0 q0) q := by
      intro d q0 h
      cases d with
      | out k =>
        cases h with
        | @out _ y h =>
          refine ⟨(D.w + P.rh, y), loop_dst.mpr (.inl ⟨k, y, rfl, rfl, h⟩), .step (mem_loopPic.mpr (.inr (.inr ⟨y, List.mem_of_getElem? ((erase_get ..).trans h), ?_, rfl⟩)))⟩
          simp [shiftPt]
      | box b k => exact ⟨_, loop_dst.mpr (.inr ⟨b, k, _, rfl, h, rfl⟩), .refl⟩
    intro s d
    constructor
    · rintro (h | ⟨h, h'⟩)
      · obtain ⟨p0, q0, h1, h2, h3⟩ := (hD.net _ _).mp h
        obtain ⟨p, hp, hp'⟩ := srcTo h1
        obtain ⟨q, hq, hq'⟩ := dstTo h2
        exact ⟨p, q, hp, hq, hp'.trans' ((h3.shift.mono sub).trans' hq')⟩
      · obtain ⟨p0, q0, h1, h2, h3⟩ := (hD.net _ _).mp h
        obtain ⟨p1, q1, h1', h2', h3'⟩ := (hD.net _ _).mp h'
        obtain ⟨p, hp, hp'⟩ := srcTo h1
        obtain ⟨q, hq, hq'⟩ := dstTo h2'
        refine ⟨p, q, hp, hq, hp'.trans' ((h3.shift.mono sub).trans' (Reach.trans' (.step (mem_loopPic.mpr (.inl (.inr ⟨?_, ?_⟩)))) ((h3'.shift.mono sub).trans' hq')))⟩
        · cases h2 with
          | out h2 =>
            rw [ho] at h2
            cases h2
            simp [shiftPt]
        · cases h1' with
          | inp h1' =>
            rw [hi] at h1'
            cases h1'
            simp [shiftPt]
    · rintro ⟨p, q, h1, h2, h3⟩
      -- leave the input connectors
      have hq0 : 0 < q.1 := by
        rcases loop_dst.mp h2 with ⟨k, y, rfl, rfl, -⟩ | ⟨b, k, q0, rfl, g, rfl⟩
        · simp only
          linarith
        · have := dst_x hP hD g
          simp only [shiftPt]
          linarith
      have A1 : ∃ p0, D.src P (s.opn i) p0 ∧ Reach (loopPic P D o i yo yi).segs (shiftPt (P.rh / 2) 0 p0) q := by
        rcases loop_src.mp h1 with ⟨k, y, rfl, rfl, g⟩ | ⟨b, k, p0, rfl, g, rfl⟩
        · refine ⟨(0, y), .inp g, ?_⟩
          rcases h3.first with rfl | ⟨r, h4, h5⟩
          · simp at hq0
          · rcases mem_loopPic.mp h4 with (hx | ⟨e1, rfl⟩) | ⟨y', hy, e1, rfl⟩ | ⟨y', hy, e1, rfl⟩
            · obtain ⟨a', b', hy, e1, rfl⟩ := mem_shiftSegs.mp hx
              have := hD.tail _ _ hy
              injection e1 with e1
              linarith
            · injection e1 with e1
              linarith
            · injection e1 with _ e1
              subst e1
              simpa [shiftPt] using h5
            · injection e1 with e1
              linarith
        · exact ⟨p0, g, h3⟩
      obtain ⟨p0, g1, h4⟩ := A1
      have hp0 := src_x hP hD g1
      -- no input connectors after the beginning, output connectors at the end
      obtain ⟨r0, h5, h6⟩ := h4.split (l1 := (D.cin.eraseIdx i).map (fun y => (((0, y), (P.rh / 2, y)) : Pt × Pt)))
        (l2 := (shiftSegs (P.rh / 2) 0 D.segs ++ [((D.w + P.rh / 2, yo), (P.rh / 2, yi))]) ++ (D.cout.eraseIdx o).map (fun y => (((D.w + P.rh / 2, y), (D.w + P.rh, y)) : Pt × Pt)))
        (fun x hx => by
          simp only [loopPic, List.mem_append] at hx ⊢
          tauto) (by
          intro a b c hx hy
          obtain ⟨y, -, e⟩ := List.mem_map.mp hy
          injection e with e
          have : 0 < b.1 := by
            rcases List.mem_append.mp hx with hx | hx
            · rcases List.mem_append.mp hx with hx | hx
              · obtain ⟨a', b', hz, rfl, rfl⟩ := mem_shiftSegs.mp hx
                have := hD.head _ _ hz
                simp only [shiftPt]
                linarith
              · obtain e := List.mem_singleton.mp hx
                injection e with _ e
                subst e
                simp only
                linarith
            · obtain ⟨y, -, e⟩ := List.mem_map.mp hx
              injection e with _ e
              subst e
              simp only
              linarith
          rw [← e] at this
          simp at this)
      obtain rfl : shiftPt (P.rh / 2) 0 p0 = r0 := by
        rcases h5.first with h | ⟨r, hx, -⟩
        · exact h
        · obtain ⟨y, -, e⟩ := List.mem_map.mp hx
          injection e with e
          injection e with e
          linarith
      obtain ⟨r, h7, h8⟩ := h6.split (l1 := shiftSegs (P.rh / 2) 0 D.segs ++ [((D.w + P.rh / 2, yo), (P.rh / 2, yi))])
        (l2 := (D.cout.eraseIdx o).map (fun y => (((D.w + P.rh / 2, y), (D.w + P.rh, y)) : Pt × Pt)))
        (fun x hx => List.mem_append.mp hx) (by
          intro a b c hx hy
          obtain ⟨y, -, e⟩ := List.mem_map.mp hx
          injection e with _ e
          subst e
          rcases List.mem_append.mp hy with hy | hy
          · obtain ⟨a', b', hz, e, rfl⟩ := mem_shiftSegs.mp hy
            have := hD.tail _ _ hz
            injection e with e
            linarith
          · obtain e := List.mem_singleton.mp hy
            injection e with e
            injection e with e
            linarith)
      have hr : r.1 ≤ D.w + P.rh / 2 := by
        rcases h7.last with rfl | ⟨z, -, hz⟩
        · simp only [shiftPt]
          linarith
        · rcases List.mem_append.mp hz with hz | hz
          · obtain ⟨a', b', hy, rfl, rfl⟩ := mem_shiftSegs.mp hz
            have := hD.head _ _ hy
            simp only [shiftPt]
            linarith
          · obtain e := List.mem_singleton.mp hz
            injection e with _ e
            subst e
            simp only
            linarith
      have A2 : ∃ q0, D.dst P (d.opn o) q0 ∧ r = shiftPt (P.rh / 2) 0 q0 := by
        rcases loop_dst.mp h2 with ⟨k, y, rfl, rfl, g⟩ | ⟨b, k, q0, rfl, g, rfl⟩
        · refine ⟨(D.w, y), .out g, ?_⟩
          rcases h8.last with rfl | ⟨z, h9, hz⟩
          · simp only at hr
            linarith
          · obtain ⟨y', -, e⟩ := List.mem_map.mp hz
            injection e with e1 e2
            injection e2 with _ e2
            subst e1 e2
            rcases h9.last with rfl | ⟨z, -, hz⟩
            · simp [shiftPt]
            · obtain ⟨y', -, e⟩ := List.mem_map.mp hz
              injection e with _ e
              injection e with e
              linarith
        · have := dst_box_x hP hD g
          refine ⟨q0, g, ?_⟩
          rcases h8.last with rfl | ⟨z, -, hz⟩
          · rfl
          · obtain ⟨y', -, e⟩ := List.mem_map.mp hz
            injection e with _ e
            injection e with e
            linarith
      obtain ⟨q0, g2, rfl⟩ := A2
      rcases loop_reach h7 with h | ⟨h, h'⟩
      · exact .direct ((hD.net _ _).mpr ⟨_, _, g1, g2, h.unshift⟩)
      · refine .loop ((hD.net _ _).mpr ⟨_, _, g1, .out ho, ?_⟩) ((hD.net _ _).mpr ⟨_, _, .inp hi, g2, ?_⟩)
        · refine Reach.unshift (dx := P.rh / 2) (dy := 0) ?_
          simpa [shiftPt] using h
        · refine Reach.unshift (dx := P.rh / 2) (dy := 0) ?_
          simpa [shiftPt] using h'

end QNET.Draw
