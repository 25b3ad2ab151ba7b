import Verif.Py.Sort

/-!
# Model of empty nodes

`root.empty_nodes` is a list of empty nodes; each is represented by its `_ord` in tenths (1.3 is 13), a
word with ord `k` by `10 * k`. Simplified: exact arithmetic on tenths in place of binary floats with
`round(_, 1)`; ords with two decimal places (`OrdTuple`) are left out, except that creating one raises.
-/

namespace Verif.Empty
open Verif.Py

/-- `empty_nodes.sort()` -/
def sortOrds (l : List Nat) : List Nat := pySort (fun a b => decide (a ≤ b)) l

/-! ## `Node.create_empty_child` -/

/-- `for empty in self._root.empty_nodes: ...` (node.py:461-470). `none` is the `TypeError` of
`OrdTuple(base_ord, 10)`, whose `__init__` takes one argument (node.py:1089). -/
def createLoop (base : Nat) : Nat → List Nat → Option Nat
  | new, [] => some new
  | new, e :: E =>
    if e > new then some new
    else if e = new then
      if new = base + 9 then none else createLoop base (new + 1) E
    else createLoop base new E

/-- `Node.create_empty_child` (node.py:442-476) on a node with `_ord` `o` (in tenths): the ord of the new
node and the new list of empty nodes. `after=False` is for words only (an empty node before the first word
would give a negative number). -/
def createEmptyChild (E : List Nat) (o : Nat) (after : Bool) : Option (Nat × List Nat) :=
  let base := if after then o else o - 10
  match createLoop base (base + 1) E with
  | none => none
  | some new =>
    match E.getLast? with
    | none => some (new, E ++ [new])
    | some l => if new > l then some (new, E ++ [new]) else some (new, sortOrds (E ++ [new]))

/-! ## `Node.remove` -/

/-- Removing the word with ord `o` without children (node.py:544-551): the new ords of the empty nodes. -/
def leafLoop (o : Nat) : Nat → List Nat → List Nat
  | _, [] => []
  | last, e :: E =>
    let e' := if e > 10 * o then (if e - 10 ≤ last then last + 1 else e - 10) else e
    e' :: leafLoop o e' E

/-- An item of `root.descendants_and_empty`: its ord in tenths, and the word number if it is a word. -/
abbrev Item := Nat × Option Nat

/-- `root.descendants_and_empty` (root.py:262-264) for `n` words. -/
def items (n : Nat) (E : List Nat) : List Item :=
  pySort (fun a b => decide (a.1 ≤ b.1))
    ((List.range' 1 n).map (fun k => (10 * k, some k)) ++ E.map (fun e => (e, none)))

/-- The loop that fills `empty_follows` (node.py:557-563): for each empty node, in order, the word it
follows (0: the technical root). `removed` are the words in `will_be_removed`. -/
def followsLoop (removed : Nat → Bool) : Nat → List Item → List (Nat × Nat)
  | _, [] => []
  | prev, (e, none) :: l => (e, prev) :: followsLoop removed prev l
  | prev, (_, some k) :: l => followsLoop removed (if removed k then prev else k) l

/-- The ord of the old word `k` after the removal: its place among the words that stay
(node.py:577; 0 for the root). -/
def newOrd (removed : Nat → Bool) (k : Nat) : Nat :=
  ((List.range' 1 k).filter (fun j => !removed j)).length

/-- `while new_ord <= last_ord: new_ord = round(new_ord + 0.1, 1)` (node.py:578-579) -/
def bump (last new : Nat) : Nat := if new ≤ last then last + 1 else new

/-- The loop that renumbers the empty nodes (node.py:574-580). -/
def subtreeLoop (removed : Nat → Bool) : Nat → List (Nat × Nat) → List Nat
  | _, [] => []
  | last, (e, prev) :: l =>
    let e' := bump last (10 * newOrd removed prev + e % 10)
    e' :: subtreeLoop removed e' l

/-- Removing a word with its subtree (node.py:552-580): the new ords of the empty nodes. -/
def subtreeRemove (n : Nat) (removed : Nat → Bool) (E : List Nat) : List Nat :=
  subtreeLoop removed 0 (followsLoop removed 0 (items n E))

/-! ## Word-order shifts -/

/-- Shifting a single word from place `my` before place `ref` (node.py:596-598, 605-609): the new ords of
the empty nodes. Shifts of a word with its subtree change no empty node (node.py:613-614). -/
def shiftEmpties (my ref : Nat) (E : List Nat) : List Nat :=
  if ref > my + 1 then E.map (fun e => if e > 10 * my ∧ e < 10 * ref then e - 10 else e)
  else if ref < my then E.map (fun e => if e < 10 * my ∧ e > 10 * ref then e + 10 else e)
  else E

/-! ## `EmptyNode.remove` -/

/-- `EmptyNode.remove` (node.py:1066-1074) on the empty node with ord `x`: the new list of empty nodes
(ords are pairwise different, so the node is found by its ord). -/
def removeEmpty (x : Nat) (E : List Nat) : List Nat :=
  (E.filter (fun e => e ≠ x)).map (fun e => if e > x ∧ e < x + 10 then e - 1 else e)

/-- The value of `_deps` (node.py:268-305): a list of `{'parent': p, 'deprel': d}`, or the set that
`EmptyNode.remove` puts there. -/
inductive Deps where
  /-- parents and relations -/
  | list (l : List (Nat × List Char))
  /-- the set `{('parent', 'deprel')}` -/
  | keyNames
  deriving DecidableEq

/-- `if n._deps: n._deps = {(deprel, parent) for deprel, parent in n._deps if parent != self}`
(node.py:1075-1077): iterating over the list gives dicts, and unpacking a dict with two keys gives the names
of the keys, `'parent'` and `'deprel'`, in this order. The string `'deprel'` differs from every node.
`_deps = None` (not parsed yet) is `none`. -/
def cleanDeps : Option Deps → Option Deps
  | none => none
  | some (.list []) => some (.list [])
  | some (.list (_ :: _)) => some .keyNames
  | some .keyNames => some .keyNames

end Verif.Empty
