import Verif.Eval.Conll18Scores

/-!
# Property C116: `util.MarkDiff` (udapi/block/util/markdiff.py)

The two trees are lists of words as in `Verif.Eval.Conll18`: the word at position `i` has ord `i + 1`, the root has ord 0.
-/

namespace Verif.Eval
namespace MarkDiff
open Verif.Py Diff Conll

/-- The values of the attributes (`n.get_attrs(self.attrs)`, node.py:794-838, before `undefs`) at the time of the comparison
(markdiff.py:65), the ord of the parent and
the values of the attributes `Mark`, `ToDo`, `Bug` and `Align` of `misc`. Simplified: these four names are
different. -/
structure Node where
  vals : List (Option Str) := []
  parent : Nat := 0
  mark : Option Str := none
  todo : Option Str := none
  bug : Option Str := none
  align : Option Nat := none
  deriving DecidableEq

/-- `'_'.join(n.get_attrs(self.attrs, undefs="_"))` (markdiff.py:65-66) -/
def token (n : Node) : Str := join ['_'] (n.vals.map (fun v => v.getD ['_']))

/-- The parameters; `markAttr` is false for `mark_attr=0`, `align` is the value of the parameter `align`. -/
structure Params where
  markAttr : Bool := true
  mark : Str := ['1']
  add : Bool := false
  ignoreParent : Bool := false
  align : Str := []

def sBoth : Str := ['b', 'o', 't', 'h']
def sFromPred : Str := ['f', 'r', 'o', 'm', '-', 'p', 'r', 'e', 'd']
def sFromGold : Str := ['f', 'r', 'o', 'm', '-', 'g', 'o', 'l', 'd']

/-- The node at a position. -/
def nodeAt (ns : List Node) (i : Nat) : Node := ns.getD i {}

/-- `diffs` (markdiff.py:65-68) -/
def diffs (pred gold : List Node) : List Op := opcodes (pred.map token) (gold.map token)

/-- `edit in {'equal', 'replace'}` -/
def Tag.aligns : Tag → Bool
  | .equal | .replace => true
  | _ => false

/-- The pairs `(i, i - pred_lo + gold_lo)` of the loop over the operations (markdiff.py:71-75). -/
def pairs (ops : List Op) : List (Nat × Nat) :=
  ops.flatMap (fun o => if Tag.aligns o.tag then (List.range' o.i1 (o.i2 - o.i1)).map (fun i => (i, i - o.i1 + o.j1)) else [])

/-- The positions marked for one operation (markdiff.py:81-93) in the predicted and in the gold tree. -/
def opMarks (ignoreParent : Bool) (pred gold : List Node) (al : List (Nat × Nat)) (o : Op) : List Nat × List Nat :=
  if o.tag = .equal then
    let bad := ((List.range' o.i1 (o.i2 - o.i1)).zip (List.range' o.j1 (o.j2 - o.j1))).filter
      (fun x => !ignoreParent && decide (mapGet al (nodeAt pred x.1).parent ≠ some (nodeAt gold x.2).parent))
    (bad.map (·.1), bad.map (·.2))
  else (List.range' o.i1 (o.i2 - o.i1), List.range' o.j1 (o.j2 - o.j1))

/-- The marked positions of the predicted and of the gold tree. -/
def marks (ignoreParent : Bool) (pred gold : List Node) : List Nat × List Nat :=
  let ops := diffs pred gold
  (ops.flatMap (fun o => (opMarks ignoreParent pred gold (pairs ops) o).1),
   ops.flatMap (fun o => (opMarks ignoreParent pred gold (pairs ops) o).2))

/-- `del node.misc[...]` (markdiff.py:54-58) -/
def clear (p : Params) (n : Node) : Node :=
  if p.add then n else { n with mark := if p.markAttr then none else n.mark, todo := none, bug := none }

/-- `node.misc[self.mark_attr] = self.mark` for the marked positions. -/
def setMarks (p : Params) (ps : List Nat) (ns : List Node) : List Node :=
  ns.mapIdx (fun i n => if p.markAttr && ps.contains i then { n with mark := some p.mark } else n)

/-- `misc["Align"]` of the predicted words (markdiff.py:76-77). -/
def alignPred (p : Params) (al : List (Nat × Nat)) (ns : List Node) : List Node :=
  if p.align = sBoth ∨ p.align = sFromPred then
    al.foldl (fun ns x => ns.modify x.1 (fun n => { n with align := some (x.2 + 1) })) ns
  else ns

/-- `misc["Align"]` of the gold words (markdiff.py:78-79); `none`: `gold_nodes[...]` raises IndexError. -/
def alignGold (p : Params) (al : List (Nat × Nat)) (ns : List Node) : Option (List Node) :=
  if p.align = sBoth ∨ p.align = sFromGold then
    if al.all (fun x => decide (x.2 < ns.length)) then
      some (al.foldl (fun ns x => ns.modify x.2 (fun n => { n with align := some (x.1 + 1) })) ns)
    else none
  else some ns

/-- `process_tree` (markdiff.py:50-93): the two trees afterwards and whether the comment `Mark = 1` was added to both.
`none`: IndexError. Simplified: the state in which the exception leaves the trees is not modelled. -/
def processTree (p : Params) (pred gold : List Node) : Option (List Node × List Node × Bool) :=
  let pred := pred.map (clear p)
  let gold := gold.map (clear p)
  let comment := decide (pred.length ≠ gold.length) && p.markAttr
  let al := pairs (diffs pred gold)
  let ms := marks p.ignoreParent pred gold
  match alignGold p al gold with
  | none => none
  | some g => some (setMarks p ms.1 (alignPred p al pred), setMarks p ms.2 g, comment)

/-- The counters of the statistics that do not depend on the values (markdiff.py:86, 104-110). -/
structure Stats where
  onlyParent : Nat := 0
  parent : Nat := 0
  addWord : Nat := 0
  deleteWord : Nat := 0
  deriving DecidableEq

/-- What one operation adds to the statistics if `print_stats` is set (markdiff.py:81-111). -/
def opStats (ignoreParent : Bool) (pred gold : List Node) (al : List (Nat × Nat)) (s : Stats) (o : Op) : Stats :=
  let bad := fun x : Nat × Nat =>
    !ignoreParent && decide (mapGet al (nodeAt pred x.1).parent ≠ some (nodeAt gold x.2).parent)
  let n := min (o.i2 - o.i1) (o.j2 - o.j1)
  match o.tag with
  | .equal => { s with onlyParent := s.onlyParent +
      (((List.range' o.i1 (o.i2 - o.i1)).zip (List.range' o.j1 (o.j2 - o.j1))).filter bad).length }
  | .replace =>
    { s with parent := s.parent + (((List.range' o.i1 n).zip (List.range' o.j1 n)).filter bad).length
             addWord := s.addWord + (o.j2 - (o.j1 + n)), deleteWord := s.deleteWord + (o.i2 - (o.i1 + n)) }
  | _ => { s with addWord := s.addWord + (o.j2 - o.j1), deleteWord := s.deleteWord + (o.i2 - o.i1) }

def stats (ignoreParent : Bool) (pred gold : List Node) : Stats :=
  (diffs pred gold).foldl (opStats ignoreParent pred gold (pairs (diffs pred gold))) {}

end MarkDiff
end Verif.Eval
