import Verif.Tree.Model

/-!
# Specification vocabulary for dependency trees
-/

namespace Verif.Tree

/-- `Anc h a x`: following parent links from `x` (at least one step) leads to `a`. -/
inductive Anc (h : Heap) (a : Nat) : Nat → Prop
  | parent {x : Nat} : h.parent x = some a → Anc h a x
  | step {x p : Nat} : h.parent x = some p → Anc h a p → Anc h a x

/-- `r` is the technical root of a tree in the heap. -/
def IsTree (h : Heap) (r : Nat) : Prop := r < h.next ∧ h.root r = r

/-- `x` is a node of the tree with technical root `r` (the root or one of its words). -/
def InTree (h : Heap) (r x : Nat) : Prop := x = r ∨ x ∈ h.words r

/-- The tree of `r` is a well-formed ordered tree. -/
structure WF (h : Heap) (r : Nat) : Prop where
  /-- the words are numbered 1, 2, 3, ... in word order -/
  ords : (h.words r).map h.ord = List.range' 1 (h.words r).length
  /-- the technical root is the zeroth word and has no parent -/
  rootOrd : h.ord r = 0
  rootParent : h.parent r = none
  /-- `x.root` of a word -/
  rootOf : ∀ x ∈ h.words r, h.root x = r
  /-- the parent of a word is a node of the tree -/
  parentIn : ∀ x ∈ h.words r, ∃ p, h.parent x = some p ∧ InTree h r p
  /-- parent links lead from every word to the technical root -/
  reach : ∀ x ∈ h.words r, Anc h r x
  /-- the children of a node are exactly the words whose parent it is -/
  childIff : ∀ p, InTree h r p → ∀ x, x ∈ h.children p ↔ (x ∈ h.words r ∧ h.parent x = some p)
  /-- children are listed in word order, without repetition -/
  childSorted : ∀ p, InTree h r p → (h.children p).Pairwise (fun x y => h.ord x < h.ord y)
  /-- all words are allocated objects -/
  alloc : ∀ x ∈ h.words r, x < h.next

/-- Every tree of the heap is well formed. -/
def Inv (h : Heap) : Prop := ∀ r, IsTree h r → WF h r

/-- The word order after moving the words `S` to the place before position `ref` (counted from 1) of
the word order `W`: the other words before that position, then `S`, then the other words. -/
def moved (W S : List Nat) (ref : Nat) : List Nat :=
  (W.take (ref - 1)).filter (fun y => y ∉ S) ++ S ++ (W.drop (ref - 1)).filter (fun y => y ∉ S)

/-- The words moved by `x.shift_...(without_children=wc)`. -/
def Moving (h : Heap) (x : Nat) (wc : Bool) (z : Nat) : Prop := z = x ∨ (wc = false ∧ Anc h x z)

/-- The words a `shift_*` call refers to: the reference node, or its subtree. -/
def RefWord (h : Heap) (k : ShiftKind) (y z : Nat) : Prop :=
  z = y ∨ ((k = .afterSubtree ∨ k = .beforeSubtree) ∧ Anc h y z)

/-- `k` is one of the "after" calls. -/
def IsAfter (k : ShiftKind) : Prop := k = .afterNode ∨ k = .afterSubtree

/-- The calls allowed in a history: they act on nodes that belong to a tree at that time, and both
nodes belong to the same tree. -/
def Allowed (h : Heap) : Op → Prop
  | .newTree => True
  | .createChild x => ∃ r, IsTree h r ∧ InTree h r x
  | .setParent x none => ∃ r, IsTree h r ∧ InTree h r x
  | .setParent x (some p) => ∃ r, IsTree h r ∧ InTree h r x ∧ InTree h r p
  | .remove x _ => ∃ r, IsTree h r ∧ x ∈ h.words r
  | .shift _ x y _ _ => ∃ r, IsTree h r ∧ x ∈ h.words r ∧ InTree h r y
  | .flatten r => IsTree h r

/-- Heaps reachable by allowed calls from the empty heap, whether or not the calls raise. -/
inductive Reachable : Heap → Prop
  | init : Reachable Heap.init
  | step {h : Heap} (o : Op) : Reachable h → Allowed h o → Reachable (step h o).1

end Verif.Tree
