import Verif.Py.Str
import Verif.Py.Sort

/-!
# write.TextModeTrees: the drawing of the edges (udapi/block/write/textmodetrees.py)

The rows are numbered from 0 as in `allnodes`; `par` is the row of the parent, `none` for the node whose subtree is drawn and
for empty nodes. Simplified: no colours, so `lengths[idx] == len(lines[idx])`.
-/

namespace Verif.Write.Draw
open Verif.Py

/-- The printed nodes. -/
structure T where
  n : Nat
  par : Nat → Option Nat
  root : Nat

/-- The parameters `indent`, `hints` and what `add_node` appends to a row right after the node: `' ' + ' '.join(values)` with
`layout='classic'` (textmodetrees.py:364-377), nothing with the other layouts, and nothing for the technical root. -/
structure P where
  indent : Nat := 1
  hints : Bool := true
  text : Nat → Str := fun _ => []

/-- The rows of the children of a node. -/
def kids (t : T) (v : Nat) : List Nat := (List.range t.n).filter (fun c => t.par c == some v)

/-- `node.is_leaf()` -/
def leaf (t : T) (v : Nat) : Bool := (kids t v).isEmpty

/-- The rows of `node.children(add_self=1)` -/
def family (t : T) (v : Nat) : List Nat := (List.range t.n).filter (fun c => c == v || t.par c == some v)

/-- `min_idx` (textmodetrees.py:275) -/
def lo (t : T) (v : Nat) : Nat := (family t v).headD v
/-- `max_idx` (textmodetrees.py:275) -/
def hi (t : T) (v : Nat) : Nat := (family t v).getLastD v

/-- `max_length` (textmodetrees.py:276) -/
def maxLen (rows : Nat → Str) (l h : Nat) : Nat := (List.range' l (h + 1 - l)).foldl (fun m i => max m (rows i).length) 0

/-- `self._ends(idx, '─╭╰╪┡┢')` (textmodetrees.py:337-338) -/
def ends (s : Str) : Bool :=
  match s.getLast? with
  | none => false
  | some c => ['─', '╭', '╰', '╪', '┡', '┢'].contains c

def line (p : P) : Str := List.replicate p.indent '─'
def space (p : P) : Str := List.replicate p.indent ' '

/-- `self._draw[is_bottommost][is_topmost]` (textmodetrees.py:200-202) -/
def nodeChar (bot top : Bool) : Char :=
  match bot, top with
  | false, false => '┾'
  | false, true => '┮'
  | true, false => '┶'
  | true, true => '╼'

/-- `self._space[precedes_parent][is_topmost_or_bottommost]` (textmodetrees.py:206-209) -/
def kidChar (p : P) (precedes edge : Bool) : Char :=
  match precedes, edge with
  | true, true => '╭'
  | false, true => '╰'
  | true, false => if p.hints then '┢' else '├'
  | false, false => if p.hints then '┡' else '├'

/-- `self._vert[is_crossing]` (textmodetrees.py:210) -/
def vert (p : P) (crossing : Bool) : Str := if crossing then line p ++ ['╪'] else space p ++ ['│']

/-- The row filled up to `max_length` (textmodetrees.py:279-280). -/
def fill (L : Nat) (row : Str) : Str := row ++ List.replicate (L - row.length) (if ends row then '─' else ' ')

/-- What is added to row `i` for the node `v` (textmodetrees.py:277-299). -/
def stepRow (p : P) (t : T) (v L i : Nat) (row : Str) : Str :=
  let top := i == lo t v
  let bot := i == hi t v
  if i = v then fill L row ++ (line p ++ [nodeChar bot top]) ++ p.text v
  else if t.par i ≠ some v then fill L row ++ vert p (ends (fill L row))
  else fill L row ++ (space p ++ [kidChar p (decide (i < v)) (top || bot)]) ++
    (if leaf t i then line p ++ ['╼'] ++ p.text i else [])

/-- The body of the loop for one node of the stack (textmodetrees.py:274-299). -/
def drawNode (p : P) (t : T) (rows : Nat → Str) (v : Nat) : Nat → Str := fun i =>
  if lo t v ≤ i ∧ i ≤ hi t v then stepRow p t v (maxLen rows (lo t v) (hi t v)) i (rows i) else rows i

/-- `while stack` (textmodetrees.py:272-303); `sort` is the sorting of the stack. -/
def loop (p : P) (t : T) (sort : List Nat → List Nat) : Nat → List Nat → (Nat → Str) → (Nat → Str)
  | 0, _, rows => rows
  | fuel + 1, stack, rows =>
    match stack.getLast? with
    | none => rows
    | some v => loop p t sort fuel (sort (stack.dropLast ++ (kids t v).filter (fun c => !leaf t c))) (drawNode p t rows v)

/-- `stack.sort(key=lambda x: -self._gaps[x.ord])` if `minimize_cross` (textmodetrees.py:302-303). -/
def sortStack (minimizeCross : Bool) (gaps : Nat → Int) (stack : List Nat) : List Nat :=
  if minimizeCross then pySort (fun a b => decide (-gaps a ≤ -gaps b)) stack else stack

/-- `self.lines` after the loop (textmodetrees.py:262-303). At most `n` nodes are taken from the stack (`loop_spec`). -/
def draw (p : P) (t : T) (sort : List Nat → List Nat) : Nat → Str := loop p t sort t.n [t.root] (fun _ => [])

/-- A column of attributes (textmodetrees.py:313-317): with the layouts `align` and `align-words` the rows are first filled up to
the longest one. -/
def addColumn (align : Bool) (n : Nat) (rows text : Nat → Str) : Nat → Str := fun i =>
  (if align then rows i ++ List.replicate (maxLen rows 0 (n - 1) - (rows i).length) ' ' else rows i) ++ text i

/-- What is printed (textmodetrees.py:305-323): with `layout='classic'` one column with the attributes of empty nodes, with
`layout='align'` a column for each attribute, and one column with the other layouts. -/
def finish (align : Bool) (n : Nat) (rows : Nat → Str) (columns : List (Nat → Str)) : Nat → Str :=
  columns.foldl (addColumn align n) rows

/-- `_compute_gaps` (textmodetrees.py:228-236): the leftmost and rightmost row, the number of nodes and the gaps of the
subtrees. -/
def computeGaps (t : T) : Nat → Nat → (Nat → Int) → (Nat × Nat × Nat) × (Nat → Int)
  | 0, v, g => ((v, v, 1), g)
  | fuel + 1, v, g =>
    let r := (kids t v).foldl (fun (s : (Nat × Nat × Nat) × (Nat → Int)) c =>
      let q := computeGaps t fuel c s.2
      ((min q.1.1 s.1.1, max q.1.2.1 s.1.2.1, s.1.2.2 + q.1.2.2), q.2)) ((v, v, 0), g)
    ((r.1.1, r.1.2.1, r.1.2.2 + 1), fun x => if x = v then (r.1.2.1 : Int) - r.1.1 - r.1.2.2 else r.2 x)

/-! ## Reading a drawing -/

/-- A node: ┾ ┮ ┶ ╼ -/
def isNode (c : Char) : Prop := c = '┾' ∨ c = '┮' ∨ c = '┶' ∨ c = '╼'

/-- A horizontal line, possibly with a bridge: ─ ╪ -/
def isLine (c : Char) : Prop := c = '─' ∨ c = '╪'

/-- There is a node in the row and column. -/
def NodeIn (rows : Nat → Str) (i k : Nat) : Prop := ∃ c, (rows i)[k]? = some c ∧ isNode c

/-- Symbols with a vertical line through. -/
def isVert (c : Char) : Prop := c = '│' ∨ c = '╪' ∨ c = '┢' ∨ c = '┡'

/-- In the drawing there is an edge between the nodes in rows `c` and `v`, where `v` is the parent: from the node in row `c` a
horizontal line leads to the left to a corner, and from the corner, up or down according to its shape, a vertical line leads to
the node in row `v`. -/
def Edge (rows : Nat → Str) (c v : Nat) : Prop :=
  ∃ k m, k < m ∧ NodeIn rows c m ∧ (∀ j, k < j → j < m → ∃ ch, (rows c)[j]? = some ch ∧ isLine ch) ∧ NodeIn rows v k ∧
    (((rows c)[k]? = some '┢' ∨ (rows c)[k]? = some '╭') ∧ c < v ∧ (∀ i, c < i → i < v → ∃ ch, (rows i)[k]? = some ch ∧ isVert ch) ∨
     ((rows c)[k]? = some '┡' ∨ (rows c)[k]? = some '╰') ∧ v < c ∧ (∀ i, v < i → i < c → ∃ ch, (rows i)[k]? = some ch ∧ isVert ch))

end Verif.Write.Draw
