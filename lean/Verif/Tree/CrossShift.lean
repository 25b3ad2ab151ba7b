import Verif.Tree.Treelet

/-!
# Property C15 for a reference node of another tree, and property C58

`Verif.Tree.shift` returns the old heap if one of the loops raises an `IndexError`. In a well-formed tree
with a reference node of the same tree this never happens (`C15_shift_structure_partial`). Here is the loop
of the single-node branch with the state it leaves behind, for references outside the tree.
-/

namespace Verif.Tree

/-- `for i_ord in range(my_ord, reference_ord - 1)` (node.py:591-593), `n` rounds from `i`: the state left
behind and whether an `IndexError` was raised. -/
def singleRightKeep (s : WO) (i : Nat) : Nat → WO × Bool
  | 0 => (s, true)
  | n + 1 => match s.move i (i + 1) with
    | none => (s, false)
    | some s => singleRightKeep s (i + 1) n

/-- The branch for a single node (node.py:587-611) when it moves to the right. -/
def shiftSingleRightKeep (s : WO) (x ref : Nat) : WO × Bool :=
  match singleRightKeep s (s.ord x) (ref - 1 - s.ord x) with
  | (s, false) => (s, false)
  | (s, true) => match s.put (ref - 1) x with
    | none => (s, false)
    | some s => (s, true)

/-- The loop agrees with the one of the heap model as long as nothing is raised. -/
theorem singleRightKeep_eq (n : Nat) : ∀ (s : WO) (i : Nat),
    (∀ s', singleRight s i n = some s' → singleRightKeep s i n = (s', true)) ∧
    (singleRight s i n = none → (singleRightKeep s i n).2 = false) := by
  induction n with
  | zero => intro s i; simp [singleRight, singleRightKeep]
  | succ n ih =>
    intro s i
    simp only [singleRight, singleRightKeep]
    cases s.move i (i + 1) with
    | none => simp
    | some s' => exact ih s' (i + 1)

theorem shiftSingleRightKeep_eq (s : WO) (x ref : Nat) (hlt : s.ord x + 1 < ref) :
    (∀ s', shiftSingle s x ref = some s' → shiftSingleRightKeep s x ref = (s', true)) ∧
    (shiftSingle s x ref = none → (shiftSingleRightKeep s x ref).2 = false) := by
  unfold shiftSingle shiftSingleRightKeep
  simp only
  rw [if_pos hlt]
  obtain ⟨h1, h2⟩ := singleRightKeep_eq (ref - 1 - s.ord x) s (s.ord x)
  cases hs : singleRight s (s.ord x) (ref - 1 - s.ord x) with
  | none =>
    have := h2 hs
    cases hk : singleRightKeep s (s.ord x) (ref - 1 - s.ord x) with
    | mk a b => rw [hk] at this; simp only at this; subst this; simp
  | some s' =>
    rw [h1 s' hs]
    simp only
    cases s'.put (ref - 1) x <;> simp

/-- Two trees: root 0 with words 1 2, root 3 with words 4 5 6 7. -/
def exTwo : Heap := runOps Heap.init
  [.newTree, .createChild 0, .createChild 0, .newTree, .createChild 3, .createChild 3, .createChild 3,
    .createChild 3]

theorem exTwo_reachable : Reachable exTwo := by
  unfold exTwo runOps
  simp only [List.foldl]
  refine .step (.createChild 3) (.step (.createChild 3) (.step (.createChild 3) (.step (.createChild 3)
    (.step .newTree (.step (.createChild 0) (.step (.createChild 0) (.step .newTree .init trivial) ?_) ?_)
      trivial) ?_) ?_) ?_) ?_
  · exact ⟨0, ⟨by decide, by decide⟩, Or.inl rfl⟩
  · exact ⟨0, ⟨by decide, by decide⟩, Or.inl rfl⟩
  · exact ⟨3, ⟨by decide, by decide⟩, Or.inl rfl⟩
  · exact ⟨3, ⟨by decide, by decide⟩, Or.inl rfl⟩
  · exact ⟨3, ⟨by decide, by decide⟩, Or.inl rfl⟩
  · exact ⟨3, ⟨by decide, by decide⟩, Or.inl rfl⟩

/-- C15 is violated for a reference node of another tree: the code does not check it. With two words 1 2
in one tree, `1.shift_after_node(7)`, where 7 is the fourth word of another tree, raises an `IndexError`
and leaves the words 2 2: word 1 is lost and word 2 occurs twice. -/
theorem C15_shift_other_tree_violated :
    Reachable exTwo ∧ IsTree exTwo 0 ∧ exTwo.words 0 = [1, 2] ∧ exTwo.root 7 = 3 ∧
    (shift exTwo .afterNode 1 7 false false).2 = some .indexError ∧
    refOrd exTwo .afterNode 1 7 = some 5 ∧
    (shiftSingleRightKeep ⟨exTwo.words 0, exTwo.ord⟩ 1 5).2 = false ∧
    (shiftSingleRightKeep ⟨exTwo.words 0, exTwo.ord⟩ 1 5).1.ws = [2, 2] := by
  refine ⟨exTwo_reachable, ⟨by decide, by decide⟩, ?_⟩
  decide

/-- C15, for any heap and any arguments whatsoever (also nodes of different trees): parents and roots are
never changed by a shift call. -/
theorem C15_parents_never_change (h : Heap) (k : ShiftKind) (x y : Nat) (wc skip : Bool) :
    (shift h k x y wc skip).1.parent = h.parent ∧ (shift h k x y wc skip).1.root = h.root := by
  have hb : ∀ ref, (shiftBeforeOrd h x ref wc).1.parent = h.parent ∧
      (shiftBeforeOrd h x ref wc).1.root = h.root := by
    intro ref
    unfold shiftBeforeOrd
    simp only
    split
    · exact ⟨rfl, rfl⟩
    · exact ⟨rfl, rfl⟩
    · split <;> exact ⟨rfl, rfl⟩
  unfold shift
  split
  · exact ⟨rfl, rfl⟩
  · split
    · exact ⟨rfl, rfl⟩
    · split <;> exact ⟨rfl, rfl⟩
    · split
      · exact ⟨rfl, rfl⟩
      · exact hb _

/-! ## C58 -/

section
variable {h : Heap} {r x : Nat}

/-- C58 is violated by every node: `nodes = node.children`, then `nodes(add_self=True)` twice on the same
list returns the node itself twice (and the list object has grown). -/
theorem C58_add_self_twice_violated (hh : Reachable h) (hr : IsTree h r) (hx : InTree h r x) :
    let once := (callList h.ord (h.children x) x true false false).1
    (callList h.ord once x true false false).2.count x = 2 ∧ once ≠ h.children x := by
  have w := inv_reachable hh r hr
  have hnot : x ∉ h.children x := fun hm => w.anc_irrefl hx (.parent (w.child_parent hx hm))
  have hc : (sortNodes h.ord (h.children x ++ [x])).count x = 1 := by
    rw [(sortNodes_perm h.ord _).count_eq]
    simp [List.count_eq_zero.2 hnot]
  constructor
  · show (sortNodes h.ord (sortNodes h.ord (h.children x ++ [x]) ++ [x])).count x = 2
    rw [(sortNodes_perm h.ord _).count_eq, List.count_append, hc]
    simp
  · intro e
    have h1 : (sortNodes h.ord (h.children x ++ [x])).length = (h.children x).length := by
      exact congrArg List.length e
    rw [(sortNodes_perm h.ord _).length_eq] at h1
    simp at h1

/-- C58 (partial): calls without `add_self` leave the list as it was and return a part of it in the same
order, for any list object. Missing: calls with `add_self`. -/
theorem C58_call_keeps_list_partial (ord : Nat → Nat) (items : List Nat) (origin : Nat) (fol pre : Bool) :
    (callList ord items origin false fol pre).1 = items ∧
    (callList ord items origin false fol pre).2.Sublist items := by
  refine ⟨rfl, ?_⟩
  simp only [callList, Bool.false_eq_true, if_false]
  split
  · exact List.filter_sublist
  · split
    · exact List.filter_sublist
    · exact List.Sublist.refl _

example : (callList ex.ord (callList ex.ord (ex.children 1) 1 true false false).1 1 true false false).2 =
    [1, 1, 2, 4] := by decide

end
end Verif.Tree
