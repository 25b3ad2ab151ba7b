import Verif.Py.Sort

/-!
# Heap model of dependency trees

Objects of the classes `Node` and `Root` (udapi/core/node.py, udapi/core/root.py) are natural numbers;
the slots used for the topology and the word order are functions on them. Several trees live in one
heap, so that calls mixing nodes of different trees can be expressed.

Simplified: attributes without influence on topology and word order (form, lemma, feats, ...) are left
out. Empty nodes and multi-word tokens are modelled separately (`Verif.Empty`, `Verif.Mwt`).
-/

namespace Verif.Tree
open Verif.Py

/-- Assignment to one entry of a function. -/
def upd (f : Nat → α) (i : Nat) (v : α) : Nat → α := fun j => if j = i then v else f j

/-- The slots of `Node` (node.py:70-87) and `Root` (root.py:14-40) for topology and word order. -/
structure Heap where
  /-- `_parent` -/
  parent : Nat → Option Nat
  /-- `_children` -/
  children : Nat → List Nat
  /-- `_ord` -/
  ord : Nat → Nat
  /-- `_root` (a `Root` is its own `_root`, root.py:21) -/
  root : Nat → Nat
  /-- `_descendants` of a `Root` -/
  words : Nat → List Nat
  /-- the next unused object -/
  next : Nat

/-- No objects. -/
def Heap.init : Heap where
  parent := fun _ => none
  children := fun _ => []
  ord := fun _ => 0
  root := fun _ => 0
  words := fun _ => []
  next := 0

/-- Exceptions. `diverges` stands for a loop that does not end. -/
inductive Err where
  | attributeError
  | valueError
  | cycleError
  | indexError
  | typeError
  | diverges
  deriving DecidableEq, Repr

/-- `isinstance(x, Root)` / `x.is_root()` (node.py:490-497, root.py:135-137) -/
def isRoot (h : Heap) (x : Nat) : Bool := h.root x = x

/-- `Root()` (root.py:18-40): a new tree without words. -/
def newTree (h : Heap) : Heap where
  parent := upd h.parent h.next none
  children := upd h.children h.next []
  ord := upd h.ord h.next 0
  root := upd h.root h.next h.next
  words := upd h.words h.next []
  next := h.next + 1

/-- `Node.create_child` (node.py:433-440). The new object is `h.next`. -/
def createChild (h : Heap) (x : Nat) : Heap where
  parent := upd h.parent h.next (some x)
  children := upd (upd h.children h.next []) x (h.children x ++ [h.next])
  ord := upd h.ord h.next ((h.words (h.root x)).length + 1)
  root := upd h.root h.next (h.root x)
  words := upd h.words (h.root x) (h.words (h.root x) ++ [h.next])
  next := h.next + 1

/-- `a <= b` in the sense used by `list.sort()` on nodes, that is `not b < a` (node.py:129-136). -/
def ordLe (ord : Nat → Nat) (a b : Nat) : Bool := ord a ≤ ord b

/-- `nodes.sort()` / `sorted(nodes)` -/
def sortNodes (ord : Nat → Nat) (l : List Nat) : List Nat := pySort (ordLe ord) l

/-- `while climber: if climber is node: return True; climber = climber._parent` (node.py:426-430).
`none`: the loop does not end. -/
def climbTo (h : Heap) (a : Nat) : Nat → Option Nat → Option Bool
  | _, none => some false
  | 0, some _ => none
  | fuel + 1, some c => if c = a then some true else climbTo h a fuel (h.parent c)

/-- `x.is_descendant_of(a)` (node.py:423-431; root.py:128-133 for a `Root`). -/
def isDescendantOf (h : Heap) (x a : Nat) : Option Bool :=
  if isRoot h x then some false
  else if h.children a = [] then some false
  else climbTo h a (h.next + 1) (h.parent x)

/-- The loop of `unordered_descendants` and `descendants` (node.py:413-419, 479-488): pop the last
element of the stack, append its children to the stack and to the result. -/
def descLoop (h : Heap) : Nat → List Nat → List Nat → Option (List Nat)
  | fuel, stack, out =>
    match stack.getLast? with
    | none => some out
    | some n =>
      match fuel with
      | 0 => none
      | fuel + 1 => descLoop h fuel (stack.dropLast ++ h.children n) (out ++ h.children n)

/-- `Node.unordered_descendants` (node.py:479-488). -/
def unorderedDescendants (h : Heap) (x : Nat) : Option (List Nat) :=
  descLoop h (h.next + 1) (h.children x) (h.children x)

/-- `Node.descendants` (node.py:389-421) and `Root.descendants` (root.py:119-126). -/
def descendants (h : Heap) (x : Nat) : Option (List Nat) :=
  if isRoot h x then some (h.words x)
  else (unorderedDescendants h x).map (sortNodes h.ord)

/-- `a > b` on nodes: `functools.total_ordering` defines it as `not a < b and a != b`. -/
def nodeGt (ord : Nat → Nat) (a b : Nat) : Bool := !(ord a < ord b) && a ≠ b

/-- Insert into a child list (node.py:345-349). -/
def addChild (ord : Nat → Nat) (l : List Nat) (x : Nat) : List Nat :=
  match l.getLast? with
  | none => l ++ [x]
  | some y => if nodeGt ord x y then l ++ [x] else sortNodes ord (l ++ [x])

/-- The `parent` setter (node.py:311-349; root.py:114-117 for a `Root`). The new parent is `None` or a
`Node`. On an exception the returned heap is the one left behind.
Simplified: an `EmptyNode` as the new parent is not part of this heap. -/
def setParent (h : Heap) (x : Nat) (np : Option Nat) : Heap × Option Err :=
  if isRoot h x then (h, some .attributeError)
  else if h.parent x = np then (h, none)
  else match np with
  | none => (h, some .valueError)
  | some p =>
    if x = p then (h, some .cycleError)
    else match (if h.children x = [] then some false else isDescendantOf h p x) with
    | none => (h, some .diverges)
    | some true => (h, some .cycleError)
    | some false =>
      match h.parent x with
      | none =>
        ({ h with
            parent := upd h.parent x (some p)
            children := upd h.children p (addChild h.ord (h.children p) x) }, none)
      | some q =>
        if x ∉ h.children q then (h, some .valueError)
        else
          let ch := upd h.children q ((h.children q).erase x)
          if h.root q ≠ h.root p then ({ h with children := ch }, some .valueError)
          else
            ({ h with
                parent := upd h.parent x (some p)
                children := upd ch p (addChild h.ord (ch p) x) }, none)

/-- `for (new_ord, node) in enumerate(nodes, start): node.ord = new_ord` (node.py:542-543, 568-569) -/
def renumber (ord : Nat → Nat) : Nat → List Nat → (Nat → Nat)
  | _, [] => ord
  | k, x :: l => renumber (upd ord x k) (k + 1) l

/-- `for child in children: child._parent = p` (node.py:523-524) -/
def setParents (parent : Nat → Option Nat) (p : Option Nat) : List Nat → (Nat → Option Nat)
  | [] => parent
  | x :: l => setParents (upd parent x p) p l

/-- `Node.remove` (node.py:508-569) without the parts about empty nodes. `rehang` is
`children is not None and children.startswith('rehang')`; warnings are left out. -/
def remove (h : Heap) (x : Nat) (rehang : Bool) : Heap × Option Err :=
  match h.parent x with
  | none => (h, some .attributeError)
  | some q =>
    if x ∉ h.children q then (h, some .valueError)
    else
      let ch := upd h.children q ((h.children q).erase x)
      let h1 : Heap :=
        if rehang && !(ch x).isEmpty then
          { h with
            parent := setParents h.parent (some q) (ch x)
            children := upd (upd ch q (sortNodes h.ord (ch q ++ ch x))) x [] }
        else { h with children := ch }
      if h1.children x = [] then
        if x ∈ h1.words (h1.root x) then
          let ws := (h1.words (h1.root x)).erase x
          ({ h1 with
              words := upd h1.words (h1.root x) ws
              ord := renumber h1.ord (h1.ord x) (ws.drop (h1.ord x - 1)) }, none)
        else (h1, none)
      else
        match unorderedDescendants h1 (h1.root x) with
        | none => (h1, some .diverges)
        | some ds =>
          let ws := sortNodes h1.ord ds
          ({ h1 with
              words := upd h1.words (h1.root x) ws
              ord := renumber h1.ord 1 ws }, none)

/-! ## Word order

The loops of `_shift_before_ord` (node.py:582-672) work on the list `all_nodes` and the `_ord` slots;
`none` is an `IndexError`. All indices below are non-negative because words have ords from 1 and
`reference_ord >= 1`; the one place where Python's negative indices matter (`nodes_to_move[mov_ord]`
with `mov_ord == -1`) uses `pyIndex`. -/

/-- `all_nodes` and the `_ord` slots. -/
structure WO where
  ws : List Nat
  ord : Nat → Nat

/-- `all_nodes[i - 1] = node; node._ord = i` -/
def WO.put (s : WO) (i x : Nat) : Option WO :=
  if i - 1 < s.ws.length then some { ws := s.ws.set (i - 1) x, ord := upd s.ord x i } else none

/-- `all_nodes[trg - 1] = all_nodes[src - 1]; all_nodes[trg - 1]._ord = trg` -/
def WO.move (s : WO) (trg src : Nat) : Option WO :=
  match s.ws[src - 1]? with
  | none => none
  | some x => s.put trg x

/-- `l[i]` with Python's rule for negative `i`. -/
def pyIndex (l : List Nat) (i : Int) : Option Nat :=
  if 0 ≤ i then l[i.toNat]? else if 0 ≤ (l.length : Int) + i then l[((l.length : Int) + i).toNat]? else none

/-- `for i_ord in range(my_ord, reference_ord - 1)` (node.py:591-593); `n` iterations from `i`. -/
def singleRight (s : WO) (i : Nat) : Nat → Option WO
  | 0 => some s
  | n + 1 => match s.move i (i + 1) with
    | none => none
    | some s => singleRight s (i + 1) n

/-- `for i_ord in range(my_ord, reference_ord, -1)` (node.py:600-602); `n` iterations from `i`. -/
def singleLeft (s : WO) (i : Nat) : Nat → Option WO
  | 0 => some s
  | n + 1 => match s.move i (i - 1) with
    | none => none
    | some s => singleLeft s (i - 1) n

/-- The branch for a single node (node.py:587-611). -/
def shiftSingle (s : WO) (x ref : Nat) : Option WO :=
  let my := s.ord x
  if my + 1 < ref then
    match singleRight s my (ref - 1 - my) with
    | none => none
    | some s => s.put (ref - 1) x
  else if ref < my then
    match singleLeft s my (my - ref) with
    | none => none
    | some s => s.put ref x
  else some s

/-- `while src_ord >= reference_ord` for a block without gaps (node.py:622-627). -/
def blockRight (s : WO) (ref : Nat) (trg : Nat) : Nat → Option WO
  | 0 => if ref = 0 then none else some s
  | src + 1 =>
    if ref ≤ src + 1 then
      match s.move trg (src + 1) with
      | none => none
      | some s => blockRight s ref (trg - 1) src
    else some s

/-- `while src_ord < reference_ord` for a block without gaps (node.py:628-632); `n` iterations.
Returns also the final `trg_ord`. -/
def blockLeft (s : WO) (trg src : Nat) : Nat → Option (WO × Nat)
  | 0 => some (s, trg)
  | n + 1 =>
    match s.move trg src with
    | none => none
    | some s => blockLeft s (trg + 1) (src + 1) n

/-- `for node in nodes_to_move: all_nodes[trg_ord - 1], node._ord = node, trg_ord; trg_ord += 1`
(node.py:635-637, 669-671) -/
def putAll (s : WO) (trg : Nat) : List Nat → Option WO
  | [] => some s
  | x :: l => match s.put trg x with
    | none => none
    | some s => putAll s (trg + 1) l

/-- The branch for a block without gaps (node.py:621-639). -/
def shiftBlock (s : WO) (S : List Nat) (first last ref : Nat) : Option WO :=
  match blockRight s ref last (first - 1) with
  | none => none
  | some s =>
    match blockLeft s first (last + 1) (ref - (last + 1)) with
    | none => none
    | some (s, trg) => putAll s (if ref < first then ref else trg) S

/-- First loop for a block with gaps (node.py:643-652): `src_ord` decreases in each round of the inner
or of the outer loop. -/
def gapRight (s : WO) (S : List Nat) (ref : Nat) (trg : Nat) (mov : Int) : Nat → Option WO
  | 0 => if ref = 0 then none else some s
  | src + 1 =>
    if ref ≤ src + 1 then
      match s.ws[src]?, pyIndex S mov with
      | some y, some z =>
        if y = z then gapRight s S ref trg (mov - 1) src
        else match s.move trg (src + 1) with
          | none => none
          | some s => gapRight s S ref (trg - 1) mov src
      | _, _ => none
    else some s

/-- Second loop for a block with gaps (node.py:656-665); `n` is `reference_ord - src_ord`. Returns also
the final `trg_ord`. -/
def gapLeft (s : WO) (S : List Nat) (trg src mov : Nat) : Nat → Option (WO × Nat)
  | 0 => some (s, trg)
  | n + 1 =>
    match s.ws[src - 1]? with
    | none => none
    | some y =>
      if S[mov]? = some y then gapLeft s S trg (src + 1) (mov + 1) n
      else match s.move trg src with
        | none => none
        | some s => gapLeft s S (trg + 1) (src + 1) mov n

/-- The branch for a block with gaps (node.py:642-671). -/
def shiftGaps (s : WO) (S : List Nat) (first last ref : Nat) : Option WO :=
  match gapRight s S ref last (S.length - 2) (last - 1) with
  | none => none
  | some s =>
    match gapLeft s S first (first + 1) 1 (ref - (first + 1)) with
    | none => none
    | some (s, trg) => putAll s (if ref < first then ref else trg) S

/-- `_shift_before_ord` (node.py:582-672) without the parts about empty nodes. -/
def shiftBeforeOrd (h : Heap) (x ref : Nat) (withoutChildren : Bool) : Heap × Option Err :=
  let r := h.root x
  let s : WO := ⟨h.words r, h.ord⟩
  let res : Option WO ⊕ Err :=
    if withoutChildren || (h.children x).isEmpty then .inl (shiftSingle s x ref)
    else
      match descendants h x with
      | none => .inr .diverges
      | some ds =>
        -- `self.descendants(add_self=True)` (node.py:1167-1171)
        let S := sortNodes h.ord (ds ++ [x])
        match S.head?, S.getLast? with
        | some f, some l =>
          let first := h.ord f
          let last := h.ord l
          if last + 1 = first + S.length then .inl (shiftBlock s S first last ref)
          else .inl (shiftGaps s S first last ref)
        | _, _ => .inr .indexError
  match res with
  | .inr e => (h, some e)
  | .inl none => (h, some .indexError)
  | .inl (some s) =>
    match h.parent x with
    | none => ({ h with words := upd h.words r s.ws, ord := s.ord }, some .attributeError)
    | some q =>
      ({ h with
          words := upd h.words r s.ws
          ord := s.ord
          children := upd h.children q (sortNodes s.ord (h.children q)) }, none)

/-- The four public methods. -/
inductive ShiftKind where
  | afterNode
  | beforeNode
  | afterSubtree
  | beforeSubtree
  deriving DecidableEq, Repr

/-- `for node in reference_node.unordered_descendants(): if node._ord > ref_ord and node is not self`
(node.py:703-705) -/
def maxOrd (ord : Nat → Nat) (x : Nat) : Nat → List Nat → Nat
  | m, [] => m
  | m, y :: l => maxOrd ord x (if m < ord y && y ≠ x then ord y else m) l

/-- node.py:721-723 -/
def minOrd (ord : Nat → Nat) (x : Nat) : Nat → List Nat → Nat
  | m, [] => m
  | m, y :: l => minOrd ord x (if ord y < m && y ≠ x then ord y else m) l

/-- `reference_ord` passed to `_shift_before_ord` (node.py:680, 690, 702-706, 720-724). -/
def refOrd (h : Heap) (k : ShiftKind) (x y : Nat) : Option Nat :=
  match k with
  | .afterNode => some (h.ord y + 1)
  | .beforeNode => some (h.ord y)
  | .afterSubtree => (unorderedDescendants h y).map (fun ds => maxOrd h.ord x (h.ord y) ds + 1)
  | .beforeSubtree => (unorderedDescendants h y).map (fun ds => minOrd h.ord x (h.ord y) ds)

/-- `shift_after_node`, `shift_before_node`, `shift_after_subtree`, `shift_before_subtree`
(node.py:674-724). Not for `x` a `Root`. -/
def shift (h : Heap) (k : ShiftKind) (x y : Nat) (withoutChildren skipIfDescendant : Bool) :
    Heap × Option Err :=
  if (k = .beforeNode ∨ k = .beforeSubtree) ∧ isRoot h y then (h, some .valueError)
  else
    match (if withoutChildren then some false else isDescendantOf h y x) with
    | none => (h, some .diverges)
    | some true => if skipIfDescendant then (h, none) else (h, some .valueError)
    | some false =>
      match refOrd h k x y with
      | none => (h, some .diverges)
      | some ref => shiftBeforeOrd h x ref withoutChildren

/-- `Root.flatten` (root.py:304-316), topology only. -/
def flatten (h : Heap) (r : Nat) : Heap where
  parent := fun y => if y ∈ h.words r then some r else h.parent y
  children := fun y =>
    if y ∈ h.words r then [] else if y = r then h.words r else h.children y
  ord := h.ord
  root := h.root
  words := h.words
  next := h.next

/-! ## Reading lists of nodes -/

/-- `ListOfNodes.__call__` (node.py:1167-1176): the list itself after the call, and the result. -/
def callList (ord : Nat → Nat) (items : List Nat) (origin : Nat)
    (addSelf followingOnly precedingOnly : Bool) : List Nat × List Nat :=
  let items := if addSelf then sortNodes ord (items ++ [origin]) else items
  (items,
    if precedingOnly then items.filter (fun y => ord y ≤ ord origin)
    else if followingOnly then items.filter (fun y => ord origin ≤ ord y)
    else items)

/-- `Node.siblings` (node.py:374-387); `none` is the `AttributeError` for a `Root`. -/
def siblings (h : Heap) (x : Nat) : Option (List Nat) :=
  (h.parent x).map (fun p => (h.children p).filter (fun y => y ≠ x))

/-- `Node.prev_node` (node.py:726-734). An `IndexError` would show as `none`. -/
def prevNode (h : Heap) (x : Nat) : Option Nat :=
  if h.ord x = 0 then none
  else if h.ord x = 1 then some (h.root x)
  else (h.words (h.root x))[h.ord x - 2]?

/-- `Node.next_node` (node.py:736-743). -/
def nextNode (h : Heap) (x : Nat) : Option Nat := (h.words (h.root x))[h.ord x]?

/-! ## Histories -/

/-- The calls. -/
inductive Op where
  | newTree
  | createChild (x : Nat)
  | setParent (x : Nat) (p : Option Nat)
  | remove (x : Nat) (rehang : Bool)
  | shift (k : ShiftKind) (x y : Nat) (withoutChildren skipIfDescendant : Bool)
  | flatten (r : Nat)
  deriving DecidableEq, Repr

/-- The heap after a call, and the exception raised. -/
def step (h : Heap) : Op → Heap × Option Err
  | .newTree => (newTree h, none)
  | .createChild x => (createChild h x, none)
  | .setParent x p => setParent h x p
  | .remove x rehang => remove h x rehang
  | .shift k x y w s => shift h k x y w s
  | .flatten r => (flatten h r, none)

end Verif.Tree
