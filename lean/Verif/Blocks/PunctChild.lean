import Verif.Blocks.Basic

/-!
# Property C88: ud.FixPunctChild (udapi/block/ud/fixpunctchild.py)
-/

namespace Verif.Blocks
open Verif.Py Verif.Tree

def sPunct : Str := ['p', 'u', 'n', 'c', 't']

/-- `while node.parent.deprel == 'punct': node.parent = node.parent.parent` (fixpunctchild.py:9-10). The loop is cut after `fuel`
rounds. -/
def punctUp (d : Rels) (x : Nat) : Nat → Heap → Heap × Option Err
  | 0, h => (h, some .diverges)
  | fuel + 1, h =>
    match h.parent x with
    | none => (h, some .attributeError)
    | some p =>
      if d p = some sPunct then
        match setParent h x (h.parent p) with
        | (h', some e) => (h', some e)
        | (h', none) => punctUp d x fuel h'
      else (h, none)

/-- `ud.FixPunctChild` on one tree (fixpunctchild.py:8-10). -/
def fixPunctChild (h : Heap) (d : Rels) (r : Nat) : Heap × Option Err :=
  forNodes (fun h x => punctUp d x (h.next + 1) h) h (h.words r)

/-! ## Proofs -/

/-- The loop for one word. -/
theorem punctUp_spec {d : Rels} {r x : Nat} (hdr : d r ≠ some sPunct) : ∀ (fuel n : Nat) (h : Heap) (p : Nat), Inv h → IsTree h r →
    x ∈ h.words r → h.parent x = some p → Depth h r p n → n < fuel →
    ∃ h', punctUp d x fuel h = (h', none) ∧ Inv h' ∧ IsTree h' r ∧ h'.words = h.words ∧ h'.ord = h.ord ∧ h'.root = h.root ∧
      (∀ z, z ≠ x → h'.parent z = h.parent z) ∧
      (∃ q, h'.parent x = some q ∧ d q ≠ some sPunct) ∧
      (∀ y q, Near h (fun a => d a = some sPunct) y q → Near h' (fun a => d a = some sPunct) y q)
  | 0, n, h, p, _, _, _, _, _, hf => absurd hf (Nat.not_lt_zero _)
  | fuel + 1, n, h, p, hi, hr, hx, hp, hd, hf => by
    have w := hi r hr
    unfold punctUp
    rw [hp]
    simp only
    by_cases hs : d p = some sPunct
    · rw [if_pos hs]
      have hpr : p ≠ r := fun e => hdr (e ▸ hs)
      obtain ⟨g, hg, hgin, hgx, hga⟩ := lift_target w hx hp hpr
      obtain ⟨h1, e1, i1, t1, w1, r1, o1, p1⟩ := attach_one hi hr hx hgin hgx hga
      rw [hg, e1]
      simp only
      cases hd with
      | root => exact absurd rfl hpr
      | step hg' hd' =>
        rename_i g' m
        rw [hg] at hg'
        obtain rfl := Option.some.inj hg'
        have hdep : Depth h1 r g m := by
          have : ∀ z k, Depth h r z k → ¬ Anc h x z → z ≠ x → Depth h1 r z k := by
            intro z k hz
            induction hz with
            | root => exact fun _ _ => .root
            | step e _ ih =>
              intro hna hne
              refine .step (by rw [p1, upd_ne _ _ hne, e]) (ih (fun ha => hna (.step e ha)) ?_)
              intro e2
              exact hna (.parent (e2 ▸ e))
          exact this g m hd' hga hgx
        obtain ⟨h2, e2, i2, t2, w2, o2, r2, k2, q2, n2⟩ := punctUp_spec hdr fuel m h1 g i1 t1 (by rw [w1]; exact hx)
          (by rw [p1, upd_same]) hdep (by omega)
        refine ⟨h2, e2, i2, t2, by rw [w2, w1], by rw [o2, o1], by rw [r2, r1], ?_, q2, ?_⟩
        · intro z hz
          rw [k2 z hz, p1, upd_ne _ _ hz]
        · intro y q hn
          exact n2 y q (hn.lift w hx hp hs hg p1)
    · rw [if_neg hs]
      exact ⟨h, rfl, hi, hr, rfl, rfl, rfl, fun _ _ => rfl, ⟨p, hp, hs⟩, fun _ _ hn => hn⟩

/-- C88: ud.FixPunctChild accepts every tree. It keeps the words, their order and all other trees, leaves a well-formed tree, and
attaches every word to its nearest ancestor that is no punctuation. -/
theorem C88_nearest {h : Heap} {r : Nat} (hi : Inv h) (hr : IsTree h r) (d : Rels) (hdr : d r ≠ some sPunct) :
    ∃ h', fixPunctChild h d r = (h', none) ∧ Inv h' ∧ IsTree h' r ∧ h'.words = h.words ∧ h'.ord = h.ord ∧ h'.root = h.root ∧
      (∀ z, z ∉ h.words r → h'.parent z = h.parent z) ∧
      ∀ x ∈ h.words r, ∃ q, h'.parent x = some q ∧ Nearest h (fun a => d a = some sPunct) x q := by
  have w := hi r hr
  obtain ⟨h', e, i', t', w', o', r', out', n', don'⟩ := forNodes_inv (fun h x => punctUp d x (h.next + 1) h)
    (fun done k => Inv k ∧ IsTree k r ∧ k.words = h.words ∧ k.ord = h.ord ∧ k.root = h.root ∧
      (∀ z, z ∉ h.words r → k.parent z = h.parent z) ∧
      (∀ y q, Near h (fun a => d a = some sPunct) y q → Near k (fun a => d a = some sPunct) y q) ∧
      ∀ x ∈ done, ∃ q, k.parent x = some q ∧ d q ≠ some sPunct)
    (h.words r) (by
      intro done x rest k hl ⟨i1, t1, w1, o1, r1, out1, n1, d1⟩
      have hx : x ∈ h.words r := by rw [hl]; simp
      have wk := i1 r t1
      have hxk : x ∈ k.words r := by rw [w1]; exact hx
      obtain ⟨p, hp, hpin⟩ := wk.parentIn x hxk
      obtain ⟨n, hn, hd⟩ := depth_exists wk p hpin
      have hlt := words_lt_next wk t1
      obtain ⟨h2, e2, i2, t2, w2, o2, r2, k2, q2, n2⟩ := punctUp_spec hdr (k.next + 1) n k p i1 t1 hxk hp hd (by omega)
      refine ⟨h2, e2, i2, t2, by rw [w2, w1], by rw [o2, o1], by rw [r2, r1], ?_, fun y q hn => n2 y q (n1 y q hn), ?_⟩
      · intro z hz
        rw [k2 z (fun e => hz (e ▸ hx)), out1 z hz]
      · intro y hy
        by_cases hyx : y = x
        · rw [hyx]; exact q2
        · rw [k2 y hyx]
          rw [List.mem_append, List.mem_singleton] at hy
          exact d1 y (hy.resolve_right hyx))
    h ⟨hi, hr, rfl, rfl, rfl, fun _ _ => rfl, fun _ _ hn => hn, fun x hx => absurd hx List.not_mem_nil⟩
  refine ⟨h', e, i', t', w', o', r', out', ?_⟩
  intro x hx
  obtain ⟨q, hq, hnq⟩ := don' x hx
  obtain ⟨q0, hn0, _⟩ := near_exists w (skip := fun a => d a = some sPunct) hdr x hx
  have : q = q0 := by
    cases n' x q0 hn0 with
    | here e' _ => rw [hq] at e'; exact Option.some.inj e'
    | up e' hs _ =>
      rw [hq] at e'
      obtain rfl := Option.some.inj e'
      exact absurd hs hnq
  subst this
  exact ⟨q, hq, hn0.nearest w hx⟩

/-- C88: after the block, words with the relation `punct` have no children. -/
theorem C88_leaves {h : Heap} {r : Nat} (hi : Inv h) (hr : IsTree h r) (d : Rels) (hdr : d r ≠ some sPunct) :
    ∀ x ∈ h.words r, d x = some sPunct → (fixPunctChild h d r).1.children x = [] := by
  obtain ⟨h', e, i', t', w', _, _, _, hq⟩ := C88_nearest hi hr d hdr
  intro x hx hd
  rw [e]
  have wf' := i' r t'
  apply List.eq_nil_iff_forall_not_mem.2
  intro c hc
  have := (wf'.childIff x (.inr (by rw [w']; exact hx)) c).1 hc
  obtain ⟨q, hpq, hn⟩ := hq c (by rw [← w']; exact this.1)
  rw [this.2] at hpq
  obtain rfl := Option.some.inj hpq
  exact hn.2.1 hd

/-- A chain of three words: the first two are punctuation. -/
def exPunct : Heap := createChild (createChild (createChild (newTree Heap.init) 0) 1) 2

def exPunctRels : Rels := fun x => if x = 1 ∨ x = 2 then some sPunct else none

example : exPunct.parent 3 = some 2 ∧ (fixPunctChild exPunct exPunctRels 0).1.parent 3 = some 0 ∧
    (fixPunctChild exPunct exPunctRels 0).1.children 0 = [1, 2, 3] ∧ (fixPunctChild exPunct exPunctRels 0).2 = none := by decide +kernel

example : (punctUp (fun _ => some sPunct) 3 9 exPunct).2 = some .valueError := by decide +kernel

end Verif.Blocks
