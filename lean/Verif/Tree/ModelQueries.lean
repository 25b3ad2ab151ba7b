import Verif.Tree.Model

/-!
# Heap model: queries on trees
-/

namespace Verif.Tree

/-! ## Non-projectivity -/

/-- `Node.is_nonprojective` (node.py:925-952). `none`: the loop of `unordered_descendants` does not end. -/
def isNonprojective (h : Heap) (x : Nat) : Option Bool :=
  match h.parent x with
  | none => some false
  | some p =>
    if isRoot h p then some false
    else
      let o1 := if h.ord x > h.ord p then h.ord p else h.ord x
      let o2 := if h.ord x > h.ord p then h.ord x else h.ord p
      let distance : Int := (o2 : Int) - o1
      if distance = 1 then some false
      else
        match unorderedDescendants h p with
        | none => none
        | some ds =>
          let span := ds.filter (fun n => h.ord n > o1 && h.ord n < o2)
          some (decide ((span.length : Int) ≠ distance - 1))

/-- `while node._parent: node = node._parent; ancestors.add(node)` (node.py:962-966): the set of the
nodes passed and the last one. `none`: the loop does not end. -/
def climbAll (h : Heap) : Nat → List Nat → Nat → Option (List Nat × Nat)
  | 0, _, _ => none
  | fuel + 1, acc, x =>
    match h.parent x with
    | none => some (acc, x)
    | some p => climbAll h fuel (acc ++ [p]) p

/-- `a.precedes(b)` (node.py:745-759). Simplified: nodes of different trees (bundle numbers, zones) are
left out: `none`. -/
def precedes (h : Heap) (a b : Nat) : Option Bool :=
  if h.root a = h.root b then some (decide (h.ord a < h.ord b)) else none

/-- `l[:k]` with Python's rule for negative `k`. -/
def pyTake (l : List Nat) (k : Int) : List Nat :=
  if 0 ≤ k then l.take k.toNat else l.take ((l.length : Int) + k).toNat

/-- `for left_node in ...: if self.precedes(left_node._parent) and left_node._parent not in ancestors:
return True` (node.py:968-970). `none` is an exception. -/
def gapLeftLoop (h : Heap) (x : Nat) (anc : List Nat) : List Nat → Option Bool
  | [] => some false
  | z :: l =>
    match h.parent z with
    | none => none
    | some p =>
      match precedes h x p with
      | none => none
      | some b => if b = true ∧ p ∉ anc then some true else gapLeftLoop h x anc l

/-- `for right_node in ...: if right_node._parent.precedes(self) and right_node._parent not in ancestors:
return True` (node.py:971-973). -/
def gapRightLoop (h : Heap) (x : Nat) (anc : List Nat) : List Nat → Option Bool
  | [] => some false
  | z :: l =>
    match h.parent z with
    | none => none
    | some p =>
      match precedes h p x with
      | none => none
      | some b => if b = true ∧ p ∉ anc then some true else gapRightLoop h x anc l

/-- `Node.is_nonprojective_gap` (node.py:954-974). -/
def isNonprojectiveGap (h : Heap) (x : Nat) : Option Bool :=
  match climbAll h (h.next + 1) [x] x with
  | none => none
  | some (anc, top) =>
    match gapLeftLoop h x anc (pyTake (h.words top) ((h.ord x : Int) - 1)) with
    | none => none
    | some true => some true
    | some false => gapRightLoop h x anc ((h.words top).drop (h.ord x))

/-! ## The minimal common treelet -/

/-- Values of the dict `in_treelet`: `1`, or the child from which the node was reached. -/
inductive Mark where
  | sure
  | via (c : Nat)
  deriving DecidableEq, Repr

/-- State of `find_minimal_common_treelet`: `nodes`, `in_treelet` (by ord), `new_nodes` (by ord, in order
of insertion), `highest`. -/
structure TL where
  queue : List Nat
  mark : Nat → Option Mark
  new : List (Nat × Nat)
  highest : Option Nat

/-- `d[k] = v` for a dict in order of insertion. -/
def dictSet (d : List (Nat × Nat)) (k v : Nat) : List (Nat × Nat) :=
  if d.any (fun e => e.1 = k) then d.map (fun e => if e.1 = k then (k, v) else e) else d ++ [(k, v)]

/-- One round of `while len(nodes) > 1` (node.py:1213-1222); `node` was popped, `q` is the rest. -/
def tlStep (h : Heap) (s : TL) (node : Nat) (q : List Nat) : TL :=
  match h.parent node with
  | none => { s with queue := q, highest := some node }
  | some p =>
    if (s.mark (h.ord p)).isSome then { s with queue := q, mark := upd s.mark (h.ord p) (some .sure) }
    else
      { s with
        queue := q ++ [p]
        mark := upd s.mark (h.ord p) (some (.via node))
        new := dictSet s.new (h.ord p) p }

/-- `while len(nodes) > 1` (node.py:1213-1222). -/
def tlLoop (h : Heap) : Nat → TL → Option TL
  | fuel, s =>
    match s.queue with
    | a :: b :: q =>
      match fuel with
      | 0 => none
      | fuel + 1 => tlLoop h fuel (tlStep h s a (b :: q))
    | _ => some s

/-- `while child != 1` (node.py:1232-1236). `none` is a `KeyError`, or a loop that does not end. -/
def tlDown (h : Heap) (mark : Nat → Option Mark) : Nat → List (Nat × Nat) → Nat →
    Option (Nat × List (Nat × Nat))
  | 0, _, _ => none
  | fuel + 1, new, top =>
    match mark (h.ord top) with
    | none => none
    | some .sure => some (top, new)
    | some (.via c) =>
      if new.any (fun e => e.1 = h.ord top) then
        tlDown h mark fuel (new.filter (fun e => e.1 ≠ h.ord top)) c
      else none

/-- `{node._ord: 1 for node in nodes}` (node.py:1195) -/
def tlMarks (h : Heap) (nodes : List Nat) : Nat → Option Mark :=
  fun o => if nodes.any (fun x => h.ord x = o) then some .sure else none

/-- Step 1 (node.py:1194-1222). Each round pops a node or moves one place up, so `len(nodes)` times the
number of objects bounds the number of rounds. -/
def tlClimb (h : Heap) (nodes : List Nat) : Option TL :=
  tlLoop h (nodes.length + h.next) ⟨nodes, tlMarks h nodes, [], none⟩

/-- `find_minimal_common_treelet(*nodes)` (node.py:1179-1239): the root of the treelet and the added
nodes. `none`: an exception (or a loop that does not end). -/
def treelet (h : Heap) (nodes : List Nat) : Option (Nat × List Nat) :=
  match tlClimb h nodes with
  | none => none
  | some s =>
    match (match s.highest with | some t => some t | none => s.queue.head?) with
    | none => none
    | some t => (tlDown h s.mark (h.next + 1) s.new t).map (fun res => (res.1, res.2.map (·.2)))

end Verif.Tree
