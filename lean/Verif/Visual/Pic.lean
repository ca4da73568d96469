import Mathlib.Data.List.Basic
import Mathlib.Data.List.Range
import Mathlib.Data.List.Nodup
import Mathlib.Data.Rat.Init
import Mathlib.Algebra.Order.Ring.Rat
import Mathlib.Logic.Relation
import Mathlib.Tactic.Common
import Mathlib.Tactic.Linarith
import Mathlib.Tactic.NormNum

/-!
# Drawings of circuits (C77)

Model of `/repo/src/qnet/visualization/circuit_pyx.py` lines 58-266, `draw_circuit_canvas`. Of a canvas we keep the strokes that stand for channels, each as the pair of its end points in the order in which it
is drawn (lines, curves, and the polygon of a feedback loop are not distinguished), and the boxes with the position of the expression they stand for. Coordinates are exact rational numbers in units of
`hunit` and `vunit`; dashed frames and texts are left out. Components, symbols, inverses of these and `SLH` objects are all boxes.
-/

namespace QNET.Draw

/-- circuit expressions -/
inductive Circ where
  | idn
  | zero
  | box (name : String) (n : ℕ)
  | perm (p : List ℕ)
  | series (ops : List Circ)
  | concat (ops : List Circ)
  | fb (c : Circ) (out inp : ℕ)

mutual
/-- `cdim`: circuit_algebra.py 1030, 1063, 620, 758, 1096, 1122-1126, 1243-1247 -/
def Circ.cdim : Circ → ℕ
  | .idn => 1
  | .zero => 0
  | .box _ n => n
  | .perm p => p.length
  | .series ops => match ops with
    | [] => 0
    | c :: _ => c.cdim
  | .concat ops => cdimAll ops
  | .fb c _ _ => c.cdim - 1
def cdimAll : List Circ → ℕ
  | [] => 0
  | c :: cs => c.cdim + cdimAll cs
end

/-- the keyword arguments `rhmargin`, `rvmargin`, `rpermutation_length` -/
structure Params where
  rh : ℚ
  rv : ℚ
  rp : ℚ

/-- lines 30-32 -/
def defaults : Params := ⟨1 / 10, 2 / 10, 4 / 10⟩

/-- a point: distance from the left, distance from the top -/
abbrev Pt := ℚ × ℚ

structure Box where
  /-- position of the expression in the circuit: operand numbers -/
  path : List ℕ
  name : String
  n : ℕ
  x : ℚ
  y : ℚ

/-- what `draw_circuit_canvas` returns: canvas, dimensions, positions of input and output ports -/
structure Pic where
  segs : List (Pt × Pt)
  boxes : List Box
  w : ℚ
  h : ℚ
  cin : List ℚ
  cout : List ℚ

def shiftPt (dx dy : ℚ) (p : Pt) : Pt := (p.1 + dx, p.2 + dy)
def shiftSegs (dx dy : ℚ) (l : List (Pt × Pt)) : List (Pt × Pt) := l.map fun s => (shiftPt dx dy s.1, shiftPt dx dy s.2)
def shiftBoxes (dx dy : ℚ) (l : List Box) : List Box := l.map fun B => { B with x := B.x + dx, y := B.y + dy }
def tagBoxes (j : ℕ) (l : List Box) : List Box := l.map fun B => { B with path := j :: B.path }

/-- the canvas of the operand number `j` -/
def Pic.tag (j : ℕ) (D : Pic) : Pic := { D with boxes := tagBoxes j D.boxes }

/-- `tuple((.5 + k) for k in range(nc))` (lines 100, 113) -/
def halves (n : ℕ) : List ℚ := (List.range n).map fun k : ℕ => (k : ℚ) + 1 / 2

/-- lines 87-90: a line going through -/
def drawId : Pic := ⟨[((0, 1 / 2), (1, 1 / 2))], [], 1, 1, [1 / 2], [1 / 2]⟩

/-- lines 92-106: a box with its connectors -/
def drawBox (P : Params) (name : String) (n : ℕ) : Pic :=
  ⟨(halves n).flatMap fun y => [((0, y), (P.rh, y)), ((1 - P.rh, y), (1, y))], [⟨[], name, n, 0, 0⟩], 1, n, halves n, halves n⟩

/-- lines 108-127: a permutation -/
def drawPerm (P : Params) (p : List ℕ) : Pic :=
  let c := halves p.length
  let t := p.map fun k => c.getD k 0
  ⟨(c.zip t).map fun y => ((0, y.1), (P.rp, y.2)), [], P.rp, p.length, c, c⟩

/-- one step of the loop in lines 152-174: `hoffset` is the width of the canvas so far -/
def attach (P : Params) (A B : Pic) : Pic :=
  let gap := if A.cout ≠ B.cin then P.rp else 0
  let curves := if A.cout ≠ B.cin then (A.cout.zip B.cin).map fun y => (((A.w, y.1), (A.w + P.rp, y.2)) : Pt × Pt) else []
  ⟨A.segs ++ curves ++ shiftSegs (A.w + gap) 0 B.segs, A.boxes ++ shiftBoxes (A.w + gap) 0 B.boxes, A.w + gap + B.w, max B.h A.h, A.cin, B.cout⟩

/-- lines 129-180: a series product; the operands are drawn from the last to the first -/
def drawSeries (P : Params) (subs : List Pic) : Option Pic :=
  match subs.reverse with
  | [] => none
  | g :: gs => some (gs.foldl (attach P) g)

/-- the state of the loop in lines 189-207 -/
structure Stack where
  segs : List (Pt × Pt)
  boxes : List Box
  voffset : ℚ
  cin : List ℚ
  cout : List ℚ
  widths : List ℚ

def Stack.push (S : Stack) (D : Pic) (cdim : ℕ) : Stack :=
  ⟨S.segs ++ shiftSegs 0 S.voffset D.segs, S.boxes ++ shiftBoxes 0 S.voffset D.boxes, S.voffset + D.h, S.cin ++ D.cin.map (· + S.voffset), S.cout ++ D.cout.map (· + S.voffset),
    S.widths ++ List.replicate cdim D.w⟩

/-- lines 182-229: a concatenation -/
def drawConcat (subs : List (Pic × ℕ)) : Option Pic :=
  let S := subs.foldl (fun (S : Stack) D => S.push D.1 D.2) (⟨[], [], 0, [], [], []⟩ : Stack)
  match S.widths with
  | [] => none
  | x :: xs =>
    let mx := xs.foldl max x
    let mn := xs.foldl min x
    let ext := if mx > mn then (S.widths.zip S.cout).filterMap fun v => if v.1 = mx then none else some (((v.1, v.2), (mx, v.2)) : Pt × Pt) else []
    some ⟨S.segs ++ ext, S.boxes, mx, S.voffset, S.cin, S.cout⟩

/-- lines 231-266: a feedback loop -/
def drawFb (P : Params) (D : Pic) (out inp : ℕ) : Option Pic :=
  match D.cout[out]?, D.cin[inp]? with
  | some yo, some yi =>
    let cin := D.cin.eraseIdx inp
    let cout := D.cout.eraseIdx out
    some ⟨shiftSegs (P.rh / 2) 0 D.segs ++ [((D.w + P.rh / 2, yo), (P.rh / 2, yi))] ++ cin.map (fun y => ((0, y), (P.rh / 2, y))) ++ cout.map (fun y => ((D.w + P.rh / 2, y), (D.w + P.rh, y))),
      shiftBoxes (P.rh / 2) 0 D.boxes, D.w + P.rh, D.h + P.rv, cin, cout⟩
  | _, _ => none

mutual
/-- `draw_circuit_canvas` (lines 58-268); `none` stands for an exception. The canvas of an operand is tagged with the number of the operand. -/
def draw (P : Params) : Circ → Option Pic
  | .idn => some drawId
  | .zero => none
  | .box name n => some (drawBox P name n)
  | .perm p => some (drawPerm P p)
  | .series ops => if ops.length > 1 then (drawAll P 0 ops).bind fun subs => drawSeries P (subs.map Prod.fst) else none
  | .concat ops => (drawAll P 0 ops).bind drawConcat
  | .fb c out inp => (draw P c).bind fun D => drawFb P (D.tag 0) out inp
def drawAll (P : Params) (j : ℕ) : List Circ → Option (List (Pic × ℕ))
  | [] => some []
  | c :: cs => (draw P c).bind fun D => (drawAll P (j + 1) cs).map fun l => (D.tag j, c.cdim) :: l
end

/-! ### Specification: what is connected with what in a circuit -/

/-- where a signal can come from: an input of the circuit or an output of a box; boxes are named by their position -/
inductive Src where
  | inp (k : ℕ)
  | box (p : List ℕ) (k : ℕ)

/-- where a signal can go to: an output of the circuit or an input of a box -/
inductive Dst where
  | out (k : ℕ)
  | box (p : List ℕ) (k : ℕ)

abbrev Net := Src → Dst → Prop

def Src.tag (j : ℕ) : Src → Src
  | .inp k => .inp k
  | .box p k => .box (j :: p) k
def Dst.tag (j : ℕ) : Dst → Dst
  | .out k => .out k
  | .box p k => .box (j :: p) k

/-- the connections in the operand number `j` -/
inductive tagNet (j : ℕ) (A : Net) : Net
  | mk {s d} : A s d → tagNet j A (s.tag j) (d.tag j)

/-- the signals run through `A` and then through `B` -/
inductive seqNet (A B : Net) : Net
  | first {s p k} : A s (.box p k) → seqNet A B s (.box p k)
  | second {p k d} : B (.box p k) d → seqNet A B (.box p k) d
  | through {s k d} : A s (.out k) → B (.inp k) d → seqNet A B s d

def Src.shift (n : ℕ) : Src → Src
  | .inp k => .inp (n + k)
  | .box p k => .box p k
def Dst.shift (n : ℕ) : Dst → Dst
  | .out k => .out (n + k)
  | .box p k => .box p k

/-- `A` with `n` channels above `B` -/
inductive parNet (n : ℕ) (A B : Net) : Net
  | upper {s d} : A s d → parNet n A B s d
  | lower {s d} : B s d → parNet n A B (s.shift n) (d.shift n)

/-- the number of a channel before the channel `i` is removed -/
def skip (i k : ℕ) : ℕ := if k < i then k else k + 1

def Src.opn (i : ℕ) : Src → Src
  | .inp k => .inp (skip i k)
  | .box p k => .box p k
def Dst.opn (o : ℕ) : Dst → Dst
  | .out k => .out (skip o k)
  | .box p k => .box p k

/-- output `o` is connected with input `i` -/
inductive fbNet (o i : ℕ) (A : Net) : Net
  | direct {s d} : A (s.opn i) (d.opn o) → fbNet o i A s d
  | loop {s d} : A (s.opn i) (.out o) → A (.inp i) (d.opn o) → fbNet o i A s d

inductive idNet : Net
  | mk : idNet (.inp 0) (.out 0)

inductive boxNet (n : ℕ) : Net
  | enter {k} : k < n → boxNet n (.inp k) (.box [] k)
  | leave {k} : k < n → boxNet n (.box [] k) (.out k)

/-- input `k` goes to output `p[k]` -/
inductive permNet (p : List ℕ) : Net
  | mk {k m} : p[k]? = some m → permNet p (.inp k) (.out m)

mutual
/-- the connections in a circuit -/
def net : Circ → Net
  | .idn => idNet
  | .zero => fun _ _ => False
  | .box _ n => boxNet n
  | .perm p => permNet p
  | .series ops => netSeries 0 ops
  | .concat ops => netConcat 0 ops
  | .fb c o i => fbNet o i (tagNet 0 (net c))
/-- a series product `a << b << ...`: signals run through the last operand first -/
def netSeries (j : ℕ) : List Circ → Net
  | [] => fun _ _ => False
  | [c] => tagNet j (net c)
  | c :: cs => seqNet (netSeries (j + 1) cs) (tagNet j (net c))
def netConcat (j : ℕ) : List Circ → Net
  | [] => fun _ _ => False
  | c :: cs => parNet c.cdim (tagNet j (net c)) (netConcat (j + 1) cs)
end

/-- the expression at a position -/
def Circ.at : Circ → List ℕ → Option Circ
  | c, [] => some c
  | .series ops, i :: p => match ops[i]? with
    | none => none
    | some c => c.at p
  | .concat ops, i :: p => match ops[i]? with
    | none => none
    | some c => c.at p
  | .fb c _ _, 0 :: p => c.at p
  | _, _ :: _ => none

mutual
/-- circuits that `create` can return: no empty circuits, permutations of a set of channels, equal numbers of channels in series, existing feedback ports -/
def Circ.WF : Circ → Prop
  | .idn => True
  | .zero => False
  | .box _ n => 0 < n
  | .perm p => p ≠ [] ∧ p.Nodup ∧ ∀ m ∈ p, m < p.length
  | .series ops => 1 < ops.length ∧ ∃ n, WFSeries n ops
  | .concat ops => ops ≠ [] ∧ WFAll ops
  | .fb c o i => c.WF ∧ 1 < c.cdim ∧ o < c.cdim ∧ i < c.cdim
def WFSeries (n : ℕ) : List Circ → Prop
  | [] => True
  | c :: cs => c.WF ∧ c.cdim = n ∧ WFSeries n cs
def WFAll : List Circ → Prop
  | [] => True
  | c :: cs => c.WF ∧ WFAll cs
end

/-! ### What the picture shows -/

/-- one can follow strokes from one point to the other -/
def Reach (l : List (Pt × Pt)) : Pt → Pt → Prop := Relation.ReflTransGen fun a b => (a, b) ∈ l

/-- the point where a signal begins: an input port of the picture, the inner end of an output connector of a box -/
inductive Pic.src (P : Params) (D : Pic) : Src → Pt → Prop
  | inp {k y} : D.cin[k]? = some y → Pic.src P D (.inp k) (0, y)
  | box {B k} : B ∈ D.boxes → k < B.n → Pic.src P D (.box B.path k) (B.x + 1 - P.rh, B.y + (k + 1 / 2 : ℚ))

/-- the point where a signal ends: an output port of the picture, the inner end of an input connector of a box -/
inductive Pic.dst (P : Params) (D : Pic) : Dst → Pt → Prop
  | out {k y} : D.cout[k]? = some y → Pic.dst P D (.out k) (D.w, y)
  | box {B k} : B ∈ D.boxes → k < B.n → Pic.dst P D (.box B.path k) (B.x + P.rh, B.y + (k + 1 / 2 : ℚ))

/-- admissible margins -/
structure Params.Good (P : Params) : Prop where
  rh : 0 < P.rh
  rh' : P.rh < 1 / 2
  rv : 0 ≤ P.rv
  rp : 0 < P.rp

end QNET.Draw
