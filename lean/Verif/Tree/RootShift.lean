import Verif.Tree.LemmasShiftHeap

/-!
# Property C57: shifting the technical root

`Root` overrides only `shift` (root.py:152-154); the inherited `shift_after_node` and friends
(node.py:674-724) can be called on a `Root`, whose `_ord` is 0, so that `_shift_before_ord` uses the
index -1. The heap model of `shift` is for words only; here is the branch for a single node with
Python's rule for negative indices.
-/

namespace Verif.Tree

/-- `l[i] = x` with Python's rule for negative `i`; `none` is an `IndexError`. -/
def pySet (l : List Nat) (i : Int) (x : Nat) : Option (List Nat) :=
  let j := if 0 ≤ i then i else l.length + i
  if 0 ≤ j ∧ j < l.length then some (l.set j.toNat x) else none

/-- `for i_ord in range(i, reference_ord - 1): all_nodes[i_ord - 1] = all_nodes[i_ord]`
(node.py:591-593), `n` rounds, word list only. -/
def rootLoop (ws : List Nat) (i : Nat) : Nat → Option (List Nat)
  | 0 => some ws
  | n + 1 => match ws[i]? with
    | none => none
    | some y => match pySet ws ((i : Int) - 1) y with
      | none => none
      | some ws => rootLoop ws (i + 1) n

/-- `root._shift_before_ord(ref, without_children=True)` (node.py:588-611) with `my_ord = 0`: the word
list left behind. Every run ends with an exception: `self._parent._children` with `_parent = None`. -/
def rootShiftSingle (ws : List Nat) (r ref : Nat) : Option (List Nat) :=
  if 1 < ref then
    match rootLoop ws 0 (ref - 1) with
    | none => none
    | some ws => pySet ws ((ref : Int) - 2) r
  else some ws

theorem pySet_some {l : List Nat} {i : Int} {x : Nat} (h1 : -(l.length : Int) ≤ i) (h2 : i < l.length) :
    ∃ l', pySet l i x = some l' ∧ l'.length = l.length ∧ x ∈ l' := by
  unfold pySet
  simp only
  have hj : 0 ≤ (if 0 ≤ i then i else (l.length : Int) + i) ∧
      (if 0 ≤ i then i else (l.length : Int) + i) < l.length := by split <;> omega
  rw [if_pos hj]
  refine ⟨_, rfl, by simp, ?_⟩
  exact List.mem_set (by omega) x

theorem rootLoop_some (n : Nat) : ∀ (ws : List Nat) (i : Nat), i + n ≤ ws.length →
    ∃ ws', rootLoop ws i n = some ws' ∧ ws'.length = ws.length := by
  induction n with
  | zero => intro ws i _; exact ⟨ws, rfl, rfl⟩
  | succ n ih =>
    intro ws i h
    have hi : ws[i]? = some (ws[i]'(by omega)) := List.getElem?_eq_getElem _
    obtain ⟨l', h1, h2, _⟩ := pySet_some (l := ws) (i := (i : Int) - 1) (x := ws[i]'(by omega))
      (by omega) (by omega)
    obtain ⟨l'', h3, h4⟩ := ih l' (i + 1) (by omega)
    exact ⟨l'', by simp only [rootLoop, hi, h1, h3], by omega⟩

/-- C57 is violated: in every tree, for every word `y`, `root.shift_after_node(y, without_children=True)`
puts the technical root among the words (and then raises `AttributeError`). -/
theorem C57_root_shift_violated {h : Heap} {r y : Nat} (hh : Reachable h) (hr : IsTree h r)
    (hy : y ∈ h.words r) :
    r ∉ h.words r ∧
    ∃ ws', rootShiftSingle (h.words r) r (h.ord y + 1) = some ws' ∧ r ∈ ws' ∧
      ws'.length = (h.words r).length := by
  have w := inv_reachable hh r hr
  have h1 := w.ord_pos hy
  have h2 := w.ord_le hy
  refine ⟨w.root_not_mem, ?_⟩
  obtain ⟨l, hl, hlen⟩ := rootLoop_some (h.ord y) (h.words r) 0 (by omega)
  obtain ⟨l', hl', hlen', hm⟩ := pySet_some (l := l) (i := ((h.ord y + 1 : Nat) : Int) - 2) (x := r)
    (by omega) (by omega)
  refine ⟨l', ?_, hm, by omega⟩
  unfold rootShiftSingle
  rw [if_pos (by omega), Nat.add_sub_cancel, hl]
  exact hl'

/-- C57 (partial): with its subtree, the root cannot be shifted relative to a word: the call raises
`ValueError` (or is skipped) and changes nothing. Missing: `without_children=True`. -/
theorem C57_root_shift_subtree_partial {h : Heap} {r y : Nat} (hh : Reachable h) (hr : IsTree h r)
    (hy : y ∈ h.words r) (k : ShiftKind) (skip : Bool) :
    shift h k r y false skip = (h, if skip then none else some .valueError) := by
  have w := inv_reachable hh r hr
  obtain ⟨b, hb, hbi⟩ := w.isDescendantOf_eq hr (x := y) (a := r) (Or.inr hy) (Or.inl rfl)
  have : b = true := hbi.2 (w.reach y hy)
  subst this
  unfold shift
  rw [if_neg (by rw [w.not_root hy]; simp)]
  simp only [Bool.false_eq_true, if_false, hb]
  cases skip <;> rfl

example : rootShiftSingle [1, 2, 3] 0 3 = some [2, 0, 1] := by decide

end Verif.Tree
