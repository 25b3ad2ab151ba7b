import Verif.Tree.LemmasEdit
import Verif.Py.Str

/-!
# Properties C51 and C87: flattening trees (udapi/core/root.py:304-316, udapi/block/transform/flatten.py)

`deprel` is a function from nodes to strings beside the heap.
-/

namespace Verif.Tree
open Verif.Py

def dRoot : Str := ['r', 'o', 'o', 't']
def dDep : Str := ['d', 'e', 'p']

/-- `root.flatten(deprel)` (root.py:304-316): the heap and the relations. The argument is not used. -/
def flattenCall (h : Heap) (d : Nat → Str) (r : Nat) (_deprel : Str) : Heap × (Nat → Str) := (flatten h r, d)

/-- `for node in nodes: node.parent = target; node.deprel = dep`, where the target may depend on the node. -/
def attachAll (target : Heap → Nat → Nat) (dep : Str) : Heap → (Nat → Str) → List Nat → Heap × (Nat → Str) × Option Err
  | h, d, [] => (h, d, none)
  | h, d, x :: xs =>
    match setParent h x (some (target h x)) with
    | (h', some e) => (h', d, some e)
    | (h', none) => attachAll target dep h' (upd d x dep) xs

/-- `transform.Flatten.process_tree` (flatten.py:17-25) -/
def flattenBlock (oneroot : Bool) (h : Heap) (d : Nat → Str) (r : Nat) : Heap × (Nat → Str) × Option Err :=
  match attachAll (fun h x => h.root x) dRoot h d (h.words r) with
  | (h1, d1, some e) => (h1, d1, some e)
  | (h1, d1, none) =>
    if oneroot then
      match h1.words r with
      | [] => (h1, d1, some .indexError)
      | first :: rest => attachAll (fun _ _ => first) dDep h1 d1 rest
    else (h1, d1, none)

/-! ## Proofs -/

/-- C51, the part that holds: the words and their order stay, every word depends on the root, and the tree is well formed.
What is missing: the relations. -/
theorem C51_flat_partial {h : Heap} {r : Nat} (hi : Inv h) (hr : IsTree h r) (d : Nat → Str) (deprel : Str) :
    let h' := (flattenCall h d r deprel).1
    Inv h' ∧ h'.words r = h.words r ∧ h'.children r = h.words r ∧ ∀ x ∈ h.words r, h'.parent x = some r ∧ h'.children x = [] := by
  refine ⟨inv_flatten hi hr, rfl, ?_, ?_⟩
  · have := (hi r hr).root_not_mem
    simp [flattenCall, flatten, this]
  · intro x hx
    simp [flattenCall, flatten, hx]

/-- C51 does not hold: `flatten` changes no relation, whatever the tree and the argument. -/
theorem C51_deprel_violated (h : Heap) (d : Nat → Str) (r : Nat) (deprel : Str) : (flattenCall h d r deprel).2 = d ∧
    ∀ x ∈ h.words r, d x ≠ deprel → (flattenCall h d r deprel).2 x ≠ deprel := ⟨rfl, fun _ _ h => h⟩

/-- One assignment of a parent that is not below the node. -/
theorem attach_one {h : Heap} {r x p : Nat} (hi : Inv h) (hr : IsTree h r) (hx : x ∈ h.words r) (hp : InTree h r p) (hxp : p ≠ x)
    (hc : ¬ Anc h x p) : ∃ h', setParent h x (some p) = (h', none) ∧ Inv h' ∧ IsTree h' r ∧ h'.words = h.words ∧ h'.root = h.root ∧
      h'.ord = h.ord ∧ h'.parent = upd h.parent x (some p) := by
  have w := hi r hr
  obtain ⟨q, hq, _⟩ := w.parentIn x hx
  by_cases hqp : q = p
  · subst hqp
    refine ⟨h, setParent_same w hx hq, hi, hr, rfl, rfl, rfl, ?_⟩
    funext y
    unfold upd
    by_cases hy : y = x
    · rw [if_pos hy, hy, hq]
    · rw [if_neg hy]
  · exact ⟨_, setParent_ok w hr hx hp hq hqp hxp hc, inv_reattach hi hr hx hp hq hqp hxp hc, hr, rfl, rfl, rfl, rfl⟩

/-- The first loop. -/
theorem attach_root {r : Nat} : ∀ (xs : List Nat) (h : Heap) (d : Nat → Str), Inv h → IsTree h r → (∀ x ∈ xs, x ∈ h.words r) →
    ∃ h' d', attachAll (fun h x => h.root x) dRoot h d xs = (h', d', none) ∧ Inv h' ∧ IsTree h' r ∧ h'.words = h.words ∧ h'.ord = h.ord ∧
      (∀ x ∈ xs, h'.parent x = some r ∧ d' x = dRoot) ∧ ∀ x, x ∉ xs → h'.parent x = h.parent x ∧ d' x = d x
  | [], h, d, hi, hr, _ => ⟨h, d, rfl, hi, hr, rfl, rfl, fun x hx => absurd hx List.not_mem_nil, fun _ _ => ⟨rfl, rfl⟩⟩
  | x :: xs, h, d, hi, hr, hin => by
    have w := hi r hr
    have hx := hin x (List.mem_cons_self ..)
    obtain ⟨h1, e1, i1, t1, w1, r1, o1, p1⟩ := attach_one hi hr hx (.inl rfl) (fun e => w.root_not_mem (e ▸ hx)) w.not_anc_root
    obtain ⟨h2, d2, e2, i2, t2, w2, o2, m2, n2⟩ := attach_root xs h1 (upd d x dRoot) i1 t1 (fun y hy => by
      rw [w1]; exact hin y (List.mem_cons_of_mem _ hy))
    refine ⟨h2, d2, ?_, i2, t2, by rw [w2, w1], by rw [o2, o1], ?_, ?_⟩
    · unfold attachAll
      rw [w.rootOf x hx, e1]
      exact e2
    · intro y hy
      by_cases hyx : y ∈ xs
      · exact m2 y hyx
      · have : y = x := by
          rcases List.mem_cons.1 hy with h | h
          · exact h
          · exact absurd h hyx
        subst this
        rw [(n2 y hyx).1, (n2 y hyx).2, p1]
        exact ⟨by simp [upd], by simp [upd]⟩
    · intro y hy
      have h1 : y ≠ x := fun e => hy (e ▸ List.mem_cons_self ..)
      have h2 : y ∉ xs := fun e => hy (List.mem_cons_of_mem _ e)
      rw [(n2 y h2).1, (n2 y h2).2, p1]
      exact ⟨upd_ne _ _ h1, upd_ne _ _ h1⟩

/-- C87: transform.Flatten accepts every tree. The words and their order stay, the tree is well formed, every word depends on the
root with the relation `root`, and other trees and relations are not changed. -/
theorem C87_flat {h : Heap} {r : Nat} (hi : Inv h) (hr : IsTree h r) (d : Nat → Str) :
    ∃ h' d', flattenBlock false h d r = (h', d', none) ∧ Inv h' ∧ h'.words = h.words ∧ h'.ord = h.ord ∧
      (∀ x ∈ h.words r, h'.parent x = some r ∧ d' x = dRoot) ∧ ∀ x, x ∉ h.words r → h'.parent x = h.parent x ∧ d' x = d x := by
  obtain ⟨h1, d1, e1, i1, _, w1, o1, m1, n1⟩ := attach_root (h.words r) h d hi hr (fun _ h => h)
  refine ⟨h1, d1, ?_, i1, w1, o1, m1, n1⟩
  unfold flattenBlock
  rw [e1]
  rfl

/-- The second loop: all words but the first one are attached to the first one. -/
theorem attach_first {r first : Nat} : ∀ (xs : List Nat) (h : Heap) (d : Nat → Str), Inv h → IsTree h r → first ∈ h.words r →
    h.parent first = some r → first ∉ xs → (∀ x ∈ xs, x ∈ h.words r) →
    ∃ h' d', attachAll (fun _ _ => first) dDep h d xs = (h', d', none) ∧ Inv h' ∧ h'.words = h.words ∧ h'.ord = h.ord ∧
      (∀ x ∈ xs, h'.parent x = some first ∧ d' x = dDep) ∧ ∀ x, x ∉ xs → h'.parent x = h.parent x ∧ d' x = d x
  | [], h, d, hi, hr, _, _, _, _ => ⟨h, d, rfl, hi, rfl, rfl, fun x hx => absurd hx List.not_mem_nil, fun _ _ => ⟨rfl, rfl⟩⟩
  | x :: xs, h, d, hi, hr, hf, hp, hfx, hin => by
    have w := hi r hr
    have hx := hin x (List.mem_cons_self ..)
    have hne : first ≠ x := fun e => hfx (e ▸ List.mem_cons_self ..)
    have hxr : x ≠ r := fun e => w.root_not_mem (e ▸ hx)
    have hanc : ¬ Anc h x first := by
      intro ha
      cases ha with
      | parent h1 => rw [hp] at h1; exact hxr (Option.some.inj h1).symm
      | step h1 h2 =>
        rw [hp] at h1
        obtain rfl := Option.some.inj h1
        exact w.not_anc_root h2
    obtain ⟨h1, e1, i1, t1, w1, r1, o1, p1⟩ := attach_one hi hr hx (.inr hf) hne hanc
    obtain ⟨h2, d2, e2, i2, w2, o2, m2, n2⟩ := attach_first xs h1 (upd d x dDep) i1 t1 (by rw [w1]; exact hf)
      (by rw [p1, upd_ne _ _ hne, hp]) (fun e => hfx (List.mem_cons_of_mem _ e)) (fun y hy => by
        rw [w1]; exact hin y (List.mem_cons_of_mem _ hy))
    refine ⟨h2, d2, ?_, i2, by rw [w2, w1], by rw [o2, o1], ?_, ?_⟩
    · unfold attachAll
      rw [e1]
      exact e2
    · intro y hy
      by_cases hyx : y ∈ xs
      · exact m2 y hyx
      · have : y = x := by
          rcases List.mem_cons.1 hy with h | h
          · exact h
          · exact absurd h hyx
        subst this
        rw [(n2 y hyx).1, (n2 y hyx).2, p1]
        exact ⟨by simp [upd], by simp [upd]⟩
    · intro y hy
      have h1 : y ≠ x := fun e => hy (e ▸ List.mem_cons_self ..)
      have h2 : y ∉ xs := fun e => hy (List.mem_cons_of_mem _ e)
      rw [(n2 y h2).1, (n2 y h2).2, p1]
      exact ⟨upd_ne _ _ h1, upd_ne _ _ h1⟩

/-- C87 with `oneroot`, for trees that have words: the first word depends on the root with `root`, all others on the first one with
`dep`. -/
theorem C87_oneroot_partial {h : Heap} {r : Nat} (hi : Inv h) (hr : IsTree h r) (d : Nat → Str) {first : Nat} {rest : List Nat}
    (hw : h.words r = first :: rest) :
    ∃ h' d', flattenBlock true h d r = (h', d', none) ∧ Inv h' ∧ h'.words = h.words ∧ h'.ord = h.ord ∧
      h'.parent first = some r ∧ d' first = dRoot ∧ ∀ x ∈ rest, h'.parent x = some first ∧ d' x = dDep := by
  obtain ⟨h1, d1, e1, i1, t1, w1, o1, m1, _⟩ := attach_root (h.words r) h d hi hr (fun _ h => h)
  have w := i1 r t1
  have hw1 : h1.words r = first :: rest := by rw [w1, hw]
  have hn := w.nodup
  rw [hw1, List.nodup_cons] at hn
  have hf : first ∈ h.words r := by rw [hw]; exact List.mem_cons_self ..
  obtain ⟨h2, d2, e2, i2, w2, o2, m2, n2⟩ := attach_first rest h1 d1 i1 t1 (by rw [w1]; exact hf) (m1 first hf).1 hn.1 (fun y hy => by
    rw [hw1]; exact List.mem_cons_of_mem _ hy)
  refine ⟨h2, d2, ?_, i2, by rw [w2, w1], by rw [o2, o1], by rw [(n2 first hn.1).1, (m1 first hf).1],
    by rw [(n2 first hn.1).2, (m1 first hf).2], m2⟩
  unfold flattenBlock
  rw [e1]
  simp only [if_true, hw1]
  exact e2

/-- C87 does not hold with `oneroot` for trees without words: the block raises. -/
theorem C87_no_words_violated (h : Heap) (d : Nat → Str) (r : Nat) (hw : h.words r = []) :
    (flattenBlock true h d r).2.2 = some .indexError := by
  unfold flattenBlock
  rw [hw]
  simp only [attachAll, if_true, hw]

/-- A root with a chain of three words. -/
def exChain : Heap := createChild (createChild (createChild (newTree Heap.init) 0) 1) 2

example : exChain.words 0 = [1, 2, 3] ∧ exChain.parent 3 = some 2 ∧ (flattenBlock false exChain (fun _ => []) 0).1.parent 3 = some 0 ∧
    (flattenBlock true exChain (fun _ => []) 0).1.parent 3 = some 1 ∧ (flattenBlock true exChain (fun _ => []) 0).2.1 3 = dDep ∧
    (flattenCall exChain (fun _ => []) 0 dRoot).1.parent 3 = some 0 ∧ (flattenCall exChain (fun _ => []) 0 dRoot).2 3 = [] := by
  decide +kernel

end Verif.Tree
