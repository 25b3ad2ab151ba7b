import Verif.Tree.Lemmas

/-! # The loops that climb up and walk down a tree -/

namespace Verif.Tree
open Verif.Py

/-- An ancestor is reached through one of its children. -/
theorem anc_child {h : Heap} {a x : Nat} (ha : Anc h a x) :
    ∃ c, h.parent c = some a ∧ (c = x ∨ Anc h c x) := by
  induction ha with
  | parent hp => exact ⟨_, hp, Or.inl rfl⟩
  | step hp _ ih =>
    obtain ⟨c, hc, hor⟩ := ih
    refine ⟨c, hc, Or.inr ?_⟩
    rcases hor with rfl | hcx
    · exact .parent hp
    · exact .step hp hcx

namespace WF
variable {h : Heap} {r : Nat}

theorem length_le_next (w : WF h r) (hr : r < h.next) {l : List Nat} (hn : l.Nodup)
    (hin : ∀ x ∈ l, InTree h r x) : l.length ≤ h.next :=
  length_le_of_nodup_lt hn (fun x hx => by
    rcases hin x hx with rfl | hm
    · exact hr
    · exact w.alloc x hm)

theorem path (w : WF h r) (a : Nat) : ∀ x, InTree h r x →
    ∃ l : List Nat, l.Nodup ∧ (∀ y ∈ l, y = x ∨ Anc h y x) ∧
      ∀ f, l.length ≤ f → ∃ b, climbTo h a f (some x) = some b ∧ (b = true ↔ (x = a ∨ Anc h a x)) := by
  apply w.induct
  · refine ⟨[r], by simp, by simp, ?_⟩
    intro f hf
    obtain ⟨f, rfl⟩ : ∃ g, f = g + 1 := ⟨f - 1, by simp at hf; omega⟩
    by_cases hra : r = a
    · exact ⟨true, by simp [climbTo, hra], by simp [hra]⟩
    · refine ⟨false, by simp [climbTo, hra, w.rootParent], ?_⟩
      simp [hra, w.not_anc_root]
  · rintro x p hx hp hin ⟨l, hn, hl, hc⟩
    have hnx : x ∉ l := by
      intro hm
      rcases hl x hm with rfl | ha
      · exact w.anc_irrefl (Or.inr hx) (.parent hp)
      · exact w.anc_irrefl (Or.inr hx) (.step hp ha)
    refine ⟨x :: l, by simp [hn, hnx], ?_, ?_⟩
    · intro y hy
      rcases List.mem_cons.1 hy with rfl | hy
      · exact Or.inl rfl
      · right
        rcases hl y hy with rfl | ha
        · exact .parent hp
        · exact .step hp ha
    · intro f hf
      obtain ⟨f, rfl⟩ : ∃ g, f = g + 1 := ⟨f - 1, by simp at hf; omega⟩
      simp only [List.length_cons, Nat.add_le_add_iff_right] at hf
      by_cases hxa : x = a
      · exact ⟨true, by simp [climbTo, hxa], by simp [hxa]⟩
      · obtain ⟨b, hb, hiff⟩ := hc f hf
        refine ⟨b, by simp [climbTo, hxa, hp, hb], ?_⟩
        rw [hiff]
        constructor
        · rintro (rfl | ha)
          · exact Or.inr (.parent hp)
          · exact Or.inr (.step hp ha)
        · rintro (rfl | ha)
          · exact absurd rfl hxa
          · obtain ⟨q, hq, hor⟩ := anc_iff.1 ha
            rw [hp] at hq
            cases hq
            exact hor

/-- `is_descendant_of` terminates and decides the ancestor relation. -/
theorem isDescendantOf_eq (w : WF h r) (hr : IsTree h r) {x a : Nat} (hx : InTree h r x)
    (ha : InTree h r a) : ∃ b, isDescendantOf h x a = some b ∧ (b = true ↔ Anc h a x) := by
  unfold isDescendantOf
  rcases hx with rfl | hx
  · have : isRoot h x = true := by simp [isRoot, hr.2]
    exact ⟨false, by simp [this], by simp [w.not_anc_root]⟩
  · rw [w.not_root hx]
    by_cases hc : h.children a = []
    · refine ⟨false, by simp [hc], ?_⟩
      simp only [Bool.false_eq_true, false_iff]
      intro hanc
      obtain ⟨c, hca, hor⟩ := anc_child hanc
      have hcw : c ∈ h.words r := by
        rcases hor with rfl | hcx
        · exact hx
        · rcases w.anc_in (Or.inr hx) hcx with rfl | hm
          · rw [w.rootParent] at hca; simp at hca
          · exact hm
      have := w.mem_children hcw hca
      rw [hc] at this
      simp at this
    · obtain ⟨p, hp, hin⟩ := w.parentIn x hx
      obtain ⟨l, hn, hl, hcl⟩ := w.path a p hin
      have hlen : l.length ≤ h.next := w.length_le_next hr.1 hn (fun y hy => by
        rcases hl y hy with rfl | hyp
        · exact hin
        · exact w.anc_in hin hyp)
      obtain ⟨b, hb, hiff⟩ := hcl (h.next + 1) (by omega)
      refine ⟨b, by simp [hc, hp, hb], ?_⟩
      rw [hiff]
      constructor
      · intro hor; exact anc_iff.2 ⟨p, hp, hor⟩
      · intro hanc
        obtain ⟨q, hq, hor⟩ := anc_iff.1 hanc
        rw [hp] at hq
        cases hq
        exact hor

end WF

/-! ## The stack loop -/

theorem descLoop_nil (h : Heap) (f : Nat) (out : List Nat) : descLoop h f [] out = some out := by
  unfold descLoop; rfl

theorem descLoop_concat (h : Heap) (f : Nat) (st : List Nat) (n : Nat) (out : List Nat) :
    descLoop h (f + 1) (st ++ [n]) out = descLoop h f (st ++ h.children n) (out ++ h.children n) := by
  rw [descLoop]
  simp

/-- What the loop has established: `popped` are the nodes already expanded. -/
structure Walk (h : Heap) (a : Nat) (popped stack out : List Nat) : Prop where
  perm : out.Perm (popped ++ stack)
  nodup : out.Nodup
  sound : ∀ x ∈ out, Anc h a x
  parents : ∀ x ∈ out, ∃ p, h.parent x = some p ∧ (p = a ∨ p ∈ popped)
  closed : ∀ p, p = a ∨ p ∈ popped → ∀ x ∈ h.children p, x ∈ out

namespace WF
variable {h : Heap} {r : Nat}

theorem walk_start (w : WF h r) {a : Nat} (ha : InTree h r a) :
    Walk h a [] (h.children a) (h.children a) where
  perm := by simp
  nodup := w.children_nodup ha
  sound := fun x hx => .parent (w.child_parent ha hx)
  parents := fun x hx => ⟨a, w.child_parent ha hx, Or.inl rfl⟩
  closed := by
    rintro p (rfl | hp)
    · exact fun x hx => hx
    · simp at hp

theorem walk_step (w : WF h r) {a n : Nat} {popped st out : List Nat} (ha : InTree h r a)
    (hin : ∀ x ∈ out, x ∈ h.words r)
    (hw : Walk h a popped (st ++ [n]) out) :
    Walk h a (popped ++ [n]) (st ++ h.children n) (out ++ h.children n) := by
  have hnd : (popped ++ (st ++ [n])).Nodup := hw.perm.nodup_iff.1 hw.nodup
  have hn : n ∈ out := hw.perm.mem_iff.2 (by simp)
  have hnw : InTree h r n := Or.inr (hin n hn)
  have hnp : n ∉ popped := by
    intro hm
    rw [List.nodup_append] at hnd
    exact hnd.2.2 n hm n (by simp) rfl
  have hna : n ≠ a := by
    rintro rfl
    exact w.anc_irrefl ha (hw.sound _ hn)
  refine ⟨?_, ?_, ?_, ?_, ?_⟩
  · have h1 : (out ++ h.children n).Perm (popped ++ (st ++ [n]) ++ h.children n) :=
      hw.perm.append_right _
    refine h1.trans ?_
    have h2 : (popped ++ (st ++ [n]) ++ h.children n) = popped ++ ((st ++ [n]) ++ h.children n) := by
      simp
    have h3 : (popped ++ [n] ++ (st ++ h.children n)) = popped ++ (([n] ++ st) ++ h.children n) := by
      simp
    rw [h2, h3]
    exact (List.perm_append_comm.append_right _).append_left _
  · rw [List.nodup_append]
    refine ⟨hw.nodup, w.children_nodup hnw, ?_⟩
    rintro c hc _ hcn rfl
    obtain ⟨p, hp, hor⟩ := hw.parents c hc
    rw [w.child_parent hnw hcn] at hp
    cases hp
    rcases hor with rfl | hm
    · exact hna rfl
    · exact hnp hm
  · intro x hx
    rcases List.mem_append.1 hx with hx | hx
    · exact hw.sound x hx
    · exact (hw.sound n hn).trans (.parent (w.child_parent hnw hx))
  · intro x hx
    rcases List.mem_append.1 hx with hx | hx
    · obtain ⟨p, hp, hor⟩ := hw.parents x hx
      refine ⟨p, hp, ?_⟩
      rcases hor with rfl | hm
      · exact Or.inl rfl
      · exact Or.inr (List.mem_append_left _ hm)
    · exact ⟨n, w.child_parent hnw hx, Or.inr (by simp)⟩
  · intro p hp x hx
    by_cases hpn : p = n
    · subst hpn; exact List.mem_append_right _ hx
    · apply List.mem_append_left
      apply hw.closed p ?_ x hx
      rcases hp with rfl | hm
      · exact Or.inl rfl
      · right
        rcases List.mem_append.1 hm with hm | hm
        · exact hm
        · simp at hm; exact absurd hm hpn

theorem walk_loop (w : WF h r) (hr : r < h.next) {a : Nat} (ha : InTree h r a) :
    ∀ (f : Nat) (popped stack out : List Nat), Walk h a popped stack out →
      (∀ x ∈ out, x ∈ h.words r) → h.next + 1 ≤ f + popped.length →
      ∃ res popped', descLoop h f stack out = some res ∧ Walk h a popped' [] res ∧
        ∀ x ∈ res, x ∈ h.words r := by
  intro f
  induction f with
  | zero =>
    intro popped stack out hw hin hf
    have hlen : (popped ++ stack).length ≤ h.next := by
      apply w.length_le_next hr (hw.perm.nodup_iff.1 hw.nodup)
      intro x hx
      exact Or.inr (hin x (hw.perm.mem_iff.2 hx))
    simp at hlen
    omega
  | succ f ih =>
    intro popped stack out hw hin hf
    rcases List.eq_nil_or_concat stack with rfl | ⟨st, n, rfl⟩
    · exact ⟨out, popped, descLoop_nil .., hw, hin⟩
    · simp only [List.concat_eq_append] at hw ⊢
      rw [descLoop_concat]
      have hn : n ∈ out := hw.perm.mem_iff.2 (by simp)
      apply ih (popped ++ [n]) _ _ (w.walk_step ha hin hw)
      · intro x hx
        rcases List.mem_append.1 hx with hx | hx
        · exact hin x hx
        · exact w.child_mem (Or.inr (hin n hn)) hx
      · simp only [List.length_append, List.length_singleton]
        omega

/-- `unordered_descendants` terminates and lists the proper descendants, each once. -/
theorem unorderedDescendants_eq (w : WF h r) (hr : r < h.next) {a : Nat} (ha : InTree h r a) :
    ∃ ds, unorderedDescendants h a = some ds ∧ ds.Nodup ∧
      (∀ x, x ∈ ds ↔ (x ∈ h.words r ∧ Anc h a x)) := by
  obtain ⟨res, popped, he, hw, hin⟩ := w.walk_loop hr ha (h.next + 1) [] _ _ (w.walk_start ha)
    (fun x hx => w.child_mem ha hx) (by simp)
  refine ⟨res, he, hw.nodup, fun x => ⟨fun hx => ⟨hin x hx, hw.sound x hx⟩, ?_⟩⟩
  rintro ⟨hxw, hanc⟩
  have hres : ∀ x, x ∈ res ↔ x ∈ popped := by
    intro x; rw [hw.perm.mem_iff]; simp
  induction hanc with
  | parent hp => exact hw.closed _ (Or.inl rfl) _ (w.mem_children hxw hp)
  | step hp hanc ih =>
    have hpw := w.word_of_anc (w.parent_in hxw hp) hanc
    have := (hres _).1 (ih hpw)
    exact hw.closed _ (Or.inr this) _ (w.mem_children hxw hp)

/-- `descendants`: the proper descendants in word order. -/
theorem descendants_eq (w : WF h r) (hr : IsTree h r) {a : Nat} (ha : InTree h r a) :
    ∃ ds, descendants h a = some ds ∧ ds.Pairwise (fun x y => h.ord x < h.ord y) ∧
      (∀ x, x ∈ ds ↔ (x ∈ h.words r ∧ Anc h a x)) := by
  unfold descendants
  rcases ha with rfl | ha
  · refine ⟨h.words a, by simp [isRoot, hr.2], aligned_pairwise w.aligned, ?_⟩
    intro x
    exact ⟨fun hx => ⟨hx, w.reach x hx⟩, fun hx => hx.1⟩
  · rw [w.not_root ha]
    obtain ⟨ds, he, hn, hmem⟩ := w.unorderedDescendants_eq hr.1 (Or.inr ha)
    refine ⟨sortNodes h.ord ds, by simp [he], ?_, ?_⟩
    · apply sortNodes_pairwise hn
      intro x hx y hy e
      exact w.ord_inj (Or.inr ((hmem x).1 hx).1) (Or.inr ((hmem y).1 hy).1) e
    · intro x; rw [mem_sortNodes, hmem]

end WF
end Verif.Tree
