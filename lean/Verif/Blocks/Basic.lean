import Verif.Tree.Flatten
import Verif.Deprel.Model

/-!
# Blocks that rehang words: common part

The state of a block is a heap of trees and the relations (`deprel`) of the nodes, `None` or a string.
-/

namespace Verif.Blocks
open Verif.Py Verif.Tree

/-- `node.deprel` of all nodes. -/
abbrev Rels := Nat → Option Str

/-- `for x in xs: f(x)`, as in `for node in tree.descendants: self.process_node(node)` (block.py:61-62). The first exception ends the
loop. -/
def forNodes (f : σ → α → σ × Option Err) : σ → List α → σ × Option Err
  | s, [] => (s, none)
  | s, x :: xs =>
    match f s x with
    | (s', some e) => (s', some e)
    | (s', none) => forNodes f s' xs

/-- `node.parent.parent` -/
def grandparent (h : Heap) (x : Nat) : Option Nat := (h.parent x).bind h.parent

/-! ## Specification vocabulary -/

/-- `q` is the nearest ancestor of `x` that is not skipped. -/
def Nearest (h : Heap) (skip : Nat → Prop) (x q : Nat) : Prop :=
  Anc h q x ∧ ¬ skip q ∧ ∀ a, Anc h a x → Anc h q a → skip a

/-! ## Lemmas -/

theorem forNodes_inv (f : σ → α → σ × Option Err) (P : List α → σ → Prop) (l : List α)
    (hstep : ∀ done x rest s, l = done ++ x :: rest → P done s → ∃ s', f s x = (s', none) ∧ P (done ++ [x]) s') :
    ∀ s, P [] s → ∃ s', forNodes f s l = (s', none) ∧ P l s' := by
  have key : ∀ rest done s, l = done ++ rest → P done s → ∃ s', forNodes f s rest = (s', none) ∧ P l s' := by
    intro rest
    induction rest with
    | nil =>
      intro done s hl hp
      rw [List.append_nil] at hl
      exact ⟨s, rfl, hl ▸ hp⟩
    | cons x rest ih =>
      intro done s hl hp
      obtain ⟨s1, e1, p1⟩ := hstep done x rest s hl hp
      obtain ⟨s2, e2, p2⟩ := ih (done ++ [x]) s1 (by rw [hl]; simp) p1
      refine ⟨s2, ?_, p2⟩
      unfold forNodes
      rw [e1]
      exact e2
  exact fun s hp => key l [] s rfl hp

/-- Number of edges from `x` up to `r`. -/
inductive Depth (h : Heap) (r : Nat) : Nat → Nat → Prop
  | root : Depth h r r 0
  | step {x p n : Nat} : h.parent x = some p → Depth h r p n → Depth h r x (n + 1)

theorem depth_exists {h : Heap} {r : Nat} (w : WF h r) : ∀ x, InTree h r x → ∃ n, n ≤ (h.words r).length ∧ Depth h r x n := by
  intro x hx
  have key : ∃ (n : Nat) (L : List Nat), Depth h r x n ∧ L.length = n ∧ L.Nodup ∧ (∀ a ∈ L, a ∈ h.words r) ∧ ∀ a ∈ L, a = x ∨ Anc h a x := by
    refine w.induct (fun x => ∃ (n : Nat) (L : List Nat), Depth h r x n ∧ L.length = n ∧ L.Nodup ∧ (∀ a ∈ L, a ∈ h.words r) ∧
      ∀ a ∈ L, a = x ∨ Anc h a x) ?_ ?_ x hx
    · exact ⟨0, [], .root, rfl, List.nodup_nil, fun a ha => absurd ha List.not_mem_nil, fun a ha => absurd ha List.not_mem_nil⟩
    · intro x p hx hp hpin ⟨n, L, hd, hl, hn, hw, ha⟩
      refine ⟨n + 1, x :: L, .step hp hd, by simp [hl], List.nodup_cons.2 ⟨?_, hn⟩, ?_, ?_⟩
      · intro hxL
        rcases ha x hxL with e | e
        · exact w.anc_irrefl (.inr hx) (.parent (e ▸ hp))
        · exact w.anc_irrefl (.inr hx) (.step hp e)
      · intro a hm
        rcases List.mem_cons.1 hm with rfl | hm
        · exact hx
        · exact hw a hm
      · intro a hm
        rcases List.mem_cons.1 hm with rfl | hm
        · exact .inl rfl
        · rcases ha a hm with e | e
          · exact .inr (.parent (e ▸ hp))
          · exact .inr (.step hp e)
  obtain ⟨n, L, hd, hl, hn, hw, _⟩ := key
  exact ⟨n, by rw [← hl]; exact length_le_of_nodup_subset hn hw, hd⟩

/-- The number of words is below the number of objects. -/
theorem words_lt_next {h : Heap} {r : Nat} (w : WF h r) (hr : IsTree h r) : (h.words r).length < h.next := by
  have : (r :: h.words r).length ≤ h.next := length_le_of_nodup_lt (List.nodup_cons.2 ⟨w.root_not_mem, w.nodup⟩) (fun x hx => by
    rcases List.mem_cons.1 hx with rfl | hx
    · exact hr.1
    · exact w.alloc x hx)
  simp at this
  omega

/-- The parent of the parent of a word, if the parent is not the root. -/
theorem lift_target {h : Heap} {r x p : Nat} (w : WF h r) (hx : x ∈ h.words r) (hp : h.parent x = some p) (hpr : p ≠ r) :
    ∃ g, h.parent p = some g ∧ InTree h r g ∧ g ≠ x ∧ ¬ Anc h x g := by
  have hpw : p ∈ h.words r := (w.parent_in hx hp).resolve_left hpr
  obtain ⟨g, hg, hgin⟩ := w.parentIn p hpw
  refine ⟨g, hg, hgin, ?_, ?_⟩
  · intro e
    exact w.anc_irrefl (.inr hx) (.step hp (.parent (e ▸ hg)))
  · intro ha
    exact w.anc_irrefl (.inr hx) (.step hp (.step hg ha))

theorem anc_lift {h h' : Heap} {x p g : Nat} (hp : h.parent x = some p) (hg : h.parent p = some g)
    (hpar : h'.parent = upd h.parent x (some g)) {a y : Nat} (ha : Anc h' a y) : Anc h a y := by
  induction ha with
  | parent e =>
    rename_i y
    rw [hpar] at e
    by_cases hy : y = x
    · subst hy
      rw [upd_same] at e
      exact .step hp (.parent (hg.trans e))
    · rw [upd_ne _ _ hy] at e
      exact .parent e
  | step e _ ih =>
    rename_i y q _
    rw [hpar] at e
    by_cases hy : y = x
    · subst hy
      rw [upd_same] at e
      exact .step hp (.step (hg.trans e) ih)
    · rw [upd_ne _ _ hy] at e
      exact .step e ih

/-- The nearest ancestor that is not skipped, along the path. -/
inductive Near (h : Heap) (skip : Nat → Prop) : Nat → Nat → Prop
  | here {x q : Nat} : h.parent x = some q → ¬ skip q → Near h skip x q
  | up {x p q : Nat} : h.parent x = some p → skip p → Near h skip p q → Near h skip x q

theorem Near.anc {h : Heap} {skip : Nat → Prop} {x q : Nat} (n : Near h skip x q) : Anc h q x ∧ ¬ skip q := by
  induction n with
  | here hp hs => exact ⟨.parent hp, hs⟩
  | up hp _ _ ih => exact ⟨.step hp ih.1, ih.2⟩

theorem Near.nearest {h : Heap} {r : Nat} (w : WF h r) {skip : Nat → Prop} {x q : Nat} (hx : x ∈ h.words r) (n : Near h skip x q) :
    Nearest h skip x q := by
  refine ⟨n.anc.1, n.anc.2, ?_⟩
  induction n with
  | here hp hs =>
    rename_i x q
    intro a hax hqa
    rcases anc_iff.1 hax with ⟨p, hp', e⟩
    rw [hp] at hp'
    obtain rfl := Option.some.inj hp'
    have hin := w.parent_in hx hp
    rcases e with rfl | e
    · exact absurd hqa (w.anc_irrefl hin)
    · exact absurd (hqa.trans e) (w.anc_irrefl hin)
  | up hp hs n ih =>
    rename_i x p q
    intro a hax hqa
    rcases anc_iff.1 hax with ⟨p', hp', e⟩
    rw [hp] at hp'
    obtain rfl := Option.some.inj hp'
    rcases e with rfl | e
    · exact hs
    · refine ih ?_ a e hqa
      exact w.word_of_anc (w.parent_in hx hp) n.anc.1

/-- Lifting a word over a skipped node does not change the nearest node that is not skipped. -/
theorem Near.lift {h h' : Heap} {r : Nat} (w : WF h r) {skip : Nat → Prop} {y p g : Nat} (hy : y ∈ h.words r)
    (hp : h.parent y = some p) (hs : skip p) (hg : h.parent p = some g)
    (hpar : h'.parent = upd h.parent y (some g)) {x q : Nat} (n : Near h skip x q) : Near h' skip x q := by
  have hpy : p ≠ y := fun e => w.anc_irrefl (.inr hy) (.parent (e ▸ hp))
  induction n with
  | here e hq =>
    rename_i x q
    by_cases hx : x = y
    · subst hx
      rw [hp] at e
      obtain rfl := Option.some.inj e
      exact absurd hs hq
    · exact .here (by rw [hpar, upd_ne _ _ hx, e]) hq
  | up e hsk _ ih =>
    rename_i x p' q _
    by_cases hx : x = y
    · subst hx
      rw [hp] at e
      obtain rfl := Option.some.inj e
      have e' : h'.parent p = some g := by rw [hpar, upd_ne _ _ hpy, hg]
      have ex : h'.parent x = some g := by rw [hpar, upd_same]
      cases ih with
      | here e2 hq2 =>
        rw [e'] at e2
        obtain rfl := Option.some.inj e2
        exact .here ex hq2
      | up e2 hs2 n2 =>
        rw [e'] at e2
        obtain rfl := Option.some.inj e2
        exact .up ex hs2 n2
    · exact .up (by rw [hpar, upd_ne _ _ hx, e]) hsk ih

theorem near_exists {h : Heap} {r : Nat} (w : WF h r) {skip : Nat → Prop} (hr : ¬ skip r) (x : Nat) (hx : x ∈ h.words r) :
    ∃ q, Near h skip x q ∧ InTree h r q := by
  have key : ∀ x, InTree h r x → x ∈ h.words r → ∃ q, Near h skip x q ∧ InTree h r q := by
    refine w.induct (fun x => x ∈ h.words r → ∃ q, Near h skip x q ∧ InTree h r q) ?_ ?_
    · exact fun h => absurd h w.root_not_mem
    · intro x p hx hp hpin ih _
      by_cases hs : skip p
      · rcases hpin with rfl | hpw
        · exact absurd hs hr
        · obtain ⟨q, n, hq⟩ := ih hpw
          exact ⟨q, .up hp hs n, hq⟩
      · exact ⟨p, .here hp hs, hpin⟩
  exact key x (.inr hx) hx

theorem Near.unique {h : Heap} {skip : Nat → Prop} {x q q' : Nat} (n : Near h skip x q) (n' : Near h skip x q') : q = q' := by
  induction n with
  | here e hs =>
    cases n' with
    | here e' hs' => rw [e] at e'; exact Option.some.inj e'
    | up e' hs' _ =>
      rw [e] at e'
      obtain rfl := Option.some.inj e'
      exact absurd hs' hs
  | up e hs _ ih =>
    cases n' with
    | here e' hs' =>
      rw [e] at e'
      obtain rfl := Option.some.inj e'
      exact absurd hs hs'
    | up e' hs' n' =>
      rw [e] at e'
      obtain rfl := Option.some.inj e'
      exact ih n'

/-- Attaching a word to its nearest node that is not skipped does not change these nodes. -/
theorem Near.jump {h h' : Heap} {skip : Nat → Prop} {y a : Nat} (hy : Near h skip y a)
    (hpar : h'.parent = upd h.parent y (some a)) {x q : Nat} (n : Near h skip x q) : Near h' skip x q := by
  have hya : Near h' skip y a := .here (by rw [hpar, upd_same]) hy.anc.2
  induction n with
  | here e hq =>
    rename_i x q
    by_cases hx : x = y
    · subst hx
      rwa [Near.unique (.here e hq) hy]
    · exact .here (by rw [hpar, upd_ne _ _ hx, e]) hq
  | up e hsk n ih =>
    rename_i x p' q
    by_cases hx : x = y
    · subst hx
      rwa [Near.unique (.up e hsk n) hy]
    · exact .up (by rw [hpar, upd_ne _ _ hx, e]) hsk ih

/-- A loop that acts for one item only. -/
theorem forNodes_single [DecidableEq α] (f : σ → α → σ × Option Err) (u : α) (hne : ∀ s a, a ≠ u → f s a = (s, none)) :
    ∀ (l : List α) (s : σ), l.Nodup → forNodes f s l = if u ∈ l then f s u else (s, none)
  | [], s, _ => rfl
  | a :: l, s, hn => by
    rw [List.nodup_cons] at hn
    unfold forNodes
    by_cases ha : a = u
    · subst ha
      rw [if_pos (List.mem_cons_self ..)]
      cases hf : f s a with
      | mk s' o =>
        cases o with
        | some e => rfl
        | none =>
          simp only
          rw [forNodes_single f a hne l s' hn.2, if_neg hn.1]
    · rw [hne s a ha]
      simp only
      rw [forNodes_single f u hne l s hn.2]
      simp [Ne.symm ha]

end Verif.Blocks
