import Verif.Blocks.Basic

/-!
# Property C119: choose_root of util.ResegmentGold (udapi/block/util/resegmentgold.py:131-146)
-/

namespace Verif.Blocks.Reseg
open Verif.Py Verif.Tree

/-- `abs(n.ord - g_subroot.ord)` -/
def dist (h : Heap) (gOrd x : Nat) : Nat := (h.ord x - gOrd) + (gOrd - h.ord x)

/-- `the_subroot` (resegmentgold.py:133-142): the word and whether it gets `Rehanged`. `gold` is the form and ord of
`g_tree.children[0]`, `none` if the gold tree has no words; `none` as a result: IndexError. -/
def subroot (h : Heap) (form : Nat → Str) (was : Nat → Bool) (gold : Option (Str × Nat)) (r : Nat) : Option (Nat × Bool) :=
  match (h.children r).filter was with
  | [] => (h.children r).head?.map (fun c => (c, true))
  | c :: cs =>
    match gold with
    | none => none
    | some (gf, go) =>
      match pySort (fun x y => decide (dist h go x ≤ dist h go y)) ((c :: cs).filter (fun x => form x == gf)) with
      | [] => some (c, false)
      | x :: _ => some (x, false)

/-- The body of the loop (resegmentgold.py:143-146); `reh`: `misc['Rehanged'] == 'Yes'`. -/
def rehangStep (s : Nat) (st : Heap × (Nat → Bool)) (x : Nat) : (Heap × (Nat → Bool)) × Option Err :=
  if x = s then (st, none)
  else
    match setParent st.1 x (some s) with
    | (h', some e) => ((h', st.2), some e)
    | (h', none) => ((h', upd st.2 x true), none)

/-- `choose_root` (resegmentgold.py:131-146) -/
def chooseRoot (h : Heap) (reh : Nat → Bool) (form : Nat → Str) (was : Nat → Bool) (gold : Option (Str × Nat)) (r : Nat) :
    (Heap × (Nat → Bool)) × Option Err :=
  match subroot h form was gold r with
  | none => ((h, reh), some .indexError)
  | some (s, b) => forNodes (rehangStep s) (h, if b then upd reh s true else reh) (h.children r)

/-! ## Which word is chosen -/

/-- The word `s` is a right choice among the children of the root. -/
structure Choice (h : Heap) (form : Nat → Str) (was : Nat → Bool) (gf : Str) (go : Nat) (r s : Nat) : Prop where
  /-- it is a child of the root -/
  child : s ∈ h.children r
  /-- it was a child of a root in the pred zone if any child of the root was -/
  original : (∃ c ∈ h.children r, was c = true) → was s = true
  /-- it has the form of the child of the gold root if any such word has -/
  sameForm : (∃ c ∈ h.children r, was c = true ∧ form c = gf) → form s = gf ∧
    ∀ c ∈ h.children r, was c = true → form c = gf → ((h.ord s : Int) - go).natAbs ≤ ((h.ord c : Int) - go).natAbs

theorem subroot_spec {h : Heap} {form : Nat → Str} {was : Nat → Bool} {gf : Str} {go r : Nat} (hc : h.children r ≠ []) :
    ∃ s b, subroot h form was (some (gf, go)) r = some (s, b) ∧ Choice h form was gf go r s ∧
      (b = true ↔ ¬ ∃ c ∈ h.children r, was c = true) := by
  unfold subroot
  cases hf : (h.children r).filter was with
  | nil =>
    have hno : ¬ ∃ c ∈ h.children r, was c = true := by
      rintro ⟨c, h1, h2⟩
      have : c ∈ (h.children r).filter was := List.mem_filter.2 ⟨h1, h2⟩
      rw [hf] at this
      exact absurd this List.not_mem_nil
    obtain ⟨c, cs, e⟩ := List.exists_cons_of_ne_nil hc
    refine ⟨c, true, by simp [e], ⟨by simp [e], fun hw => absurd hw hno, ?_⟩, by simp [hno]⟩
    rintro ⟨d, h1, h2, _⟩
    exact absurd ⟨d, h1, h2⟩ hno
  | cons c cs =>
    have hmem : ∀ x, x ∈ c :: cs ↔ x ∈ h.children r ∧ was x = true := fun x => by rw [← hf, List.mem_filter]
    have hc0 := (hmem c).1 (by simp)
    have hex : ∃ c ∈ h.children r, was c = true := ⟨c, hc0⟩
    simp only
    cases hs : pySort (fun x y => decide (dist h go x ≤ dist h go y)) ((c :: cs).filter (fun x => form x == gf)) with
    | nil =>
      refine ⟨c, false, rfl, ⟨hc0.1, fun _ => hc0.2, ?_⟩, by simp [hex]⟩
      rintro ⟨d, h1, h2, h3⟩
      have : d ∈ pySort (fun x y => decide (dist h go x ≤ dist h go y)) ((c :: cs).filter (fun x => form x == gf)) := by
        rw [mem_pySort, List.mem_filter]
        exact ⟨(hmem d).2 ⟨h1, h2⟩, by simp [h3]⟩
      rw [hs] at this
      exact absurd this List.not_mem_nil
    | cons x xs =>
      have hx : x ∈ pySort (fun x y => decide (dist h go x ≤ dist h go y)) ((c :: cs).filter (fun x => form x == gf)) := by
        rw [hs]; simp
      rw [mem_pySort, List.mem_filter, hmem] at hx
      have hp := pySort_pairwise (le := fun x y => decide (dist h go x ≤ dist h go y))
        (by intro a b c; simp only [decide_eq_true_eq]; omega) (by intro a b; simp only [decide_eq_true_eq]; omega) (l := (c :: cs).filter (fun x => form x == gf))
      rw [hs, List.pairwise_cons] at hp
      refine ⟨x, false, rfl, ⟨hx.1.1, fun _ => hx.1.2, ?_⟩, by simp [hex]⟩
      intro _
      refine ⟨by simpa using hx.2, ?_⟩
      intro d h1 h2 h3
      have hd : d ∈ pySort (fun x y => decide (dist h go x ≤ dist h go y)) ((c :: cs).filter (fun x => form x == gf)) := by
        rw [mem_pySort, List.mem_filter]
        exact ⟨(hmem d).2 ⟨h1, h2⟩, by simp [h3]⟩
      rw [hs, List.mem_cons] at hd
      rcases hd with rfl | hd
      · exact Nat.le_refl _
      · have := of_decide_eq_true (hp.1 d hd)
        unfold dist at this
        omega

/-! ## The tree afterwards -/

/-- C119: if both trees have words, `choose_root` leaves a well-formed tree with the same words in which exactly one word
depends on the root: a word chosen by the documented preferences. The other children of the root depend on it and are marked as
rehanged, all other words keep their parents; the chosen word is marked only if no child of the root was one in the pred zone. -/
theorem C119_choose_root {h : Heap} {r : Nat} (hi : Inv h) (hr : IsTree h r) (hw : h.words r ≠ []) (reh : Nat → Bool)
    (form : Nat → Str) (was : Nat → Bool) (gf : Str) (go : Nat) :
    ∃ h' reh' s, chooseRoot h reh form was (some (gf, go)) r = ((h', reh'), none) ∧ Choice h form was gf go r s ∧ Inv h' ∧
      h'.words = h.words ∧ h'.ord = h.ord ∧ h'.children r = [s] ∧
      (∀ x, h'.parent x = if x ∈ h.children r ∧ x ≠ s then some s else h.parent x) ∧
      ∀ x, reh' x = true ↔ reh x = true ∨ (x ∈ h.children r ∧ x ≠ s) ∨ (x = s ∧ ¬ ∃ c ∈ h.children r, was c = true) := by
  have w := hi r hr
  have hch : h.children r ≠ [] := by
    intro hc
    obtain ⟨x, hx⟩ := List.exists_mem_of_ne_nil _ hw
    have key : ∀ x, InTree h r x → x = r := by
      refine w.induct (fun x => x = r) rfl ?_
      intro x p hx hp _ e
      subst e
      have := w.mem_children hx hp
      rw [hc] at this
      exact absurd this List.not_mem_nil
    exact w.root_not_mem (key x (.inr hx) ▸ hx)
  obtain ⟨s, b, hsub, hchoice, hb⟩ := subroot_spec (form := form) (was := was) (gf := gf) (go := go) hch
  have hmem : ∀ x ∈ h.children r, x ∈ h.words r ∧ h.parent x = some r := fun x hx => (w.childIff r (.inl rfl) x).1 hx
  have hs := hmem s hchoice.child
  have hnd := w.children_nodup (p := r) (.inl rfl)
  obtain ⟨⟨h1, r1⟩, e1, i1, t1, w1, o1, p1, q1⟩ := forNodes_inv (rehangStep s)
    (fun done st => Inv st.1 ∧ IsTree st.1 r ∧ st.1.words = h.words ∧ st.1.ord = h.ord ∧
      (∀ x, st.1.parent x = if x ∈ done ∧ x ≠ s then some s else h.parent x) ∧
      ∀ x, st.2 x = if x ∈ done ∧ x ≠ s then true else (if b then upd reh s true else reh) x)
    (h.children r) (by
      intro done x more st hl ⟨i1, t1, w1, o1, p1, q1⟩
      have hxr : x ∈ h.children r := by rw [hl]; simp
      have hx := hmem x hxr
      by_cases hxs : x = s
      · refine ⟨st, by unfold rehangStep; rw [if_pos hxs], i1, t1, w1, o1, ?_, ?_⟩
        · intro y
          rw [p1]
          by_cases hy : y = s
          · simp [hy]
          · have : y ≠ x := fun e => hy (e.trans hxs)
            simp [hy, this]
        · intro y
          rw [q1]
          by_cases hy : y = s
          · simp [hy]
          · have : y ≠ x := fun e => hy (e.trans hxs)
            simp [hy, this]
      · have ws := i1 r t1
        have hanc : ¬ Anc st.1 x s := by
          have hp0 : st.1.parent s = some r := by
            rw [p1, if_neg (by simp), hs.2]
          intro ha
          rcases anc_iff.1 ha with ⟨p, hp, e⟩
          rw [hp0] at hp
          obtain rfl := Option.some.inj hp
          rcases e with e | e
          · exact w.root_not_mem (e ▸ hx.1)
          · exact ws.not_anc_root e
        obtain ⟨h2, e2, i2, t2, w2, _, o2, p2⟩ := attach_one i1 t1 (by rw [w1]; exact hx.1) (.inr (by rw [w1]; exact hs.1))
          (fun e => hxs e.symm) hanc
        refine ⟨(h2, upd st.2 x true), by unfold rehangStep; rw [if_neg hxs, e2], i2, t2, by rw [w2, w1], by rw [o2, o1], ?_, ?_⟩
        · intro y
          rw [p2]
          by_cases hy : y = x
          · rw [hy, upd_same, if_pos (by simp [hxs])]
          · rw [upd_ne _ _ hy, p1]
            simp [hy]
        · intro y
          by_cases hy : y = x
          · simp [hy, hxs]
          · simp only
            rw [upd_ne _ _ hy, q1]
            simp [hy])
    (h, if b then upd reh s true else reh) ⟨hi, hr, rfl, rfl, fun x => by simp, fun x => by simp⟩
  simp only at i1 t1 w1 o1 p1 q1
  have wf1 := i1 r t1
  refine ⟨h1, r1, s, ?_, hchoice, i1, w1, o1, ?_, p1, ?_⟩
  · unfold chooseRoot
    rw [hsub]
    exact e1
  · refine sorted_ext (ord := h1.ord) (wf1.childSorted r (.inl rfl)) (List.pairwise_singleton ..) ?_
    intro y
    rw [wf1.childIff r (.inl rfl), List.mem_singleton, p1, w1]
    constructor
    · rintro ⟨hy, hp⟩
      refine Classical.byContradiction (fun hys => ?_)
      by_cases hm : y ∈ h.children r
      · rw [if_pos ⟨hm, hys⟩] at hp
        exact w.root_not_mem ((Option.some.inj hp) ▸ hs.1)
      · rw [if_neg (fun e => hm e.1)] at hp
        exact hm (w.mem_children hy hp)
    · rintro rfl
      exact ⟨hs.1, by rw [if_neg (by simp), hs.2]⟩
  · intro x
    rw [q1]
    by_cases hm : x ∈ h.children r ∧ x ≠ s
    · rw [if_pos hm]
      simp [hm]
    · rw [if_neg hm]
      cases hbb : b with
      | true =>
        have hno := hb.1 hbb
        simp only [if_true]
        by_cases hxs : x = s
        · rw [hxs, upd_same]
          exact ⟨fun _ => Or.inr (Or.inr ⟨rfl, hno⟩), fun _ => rfl⟩
        · rw [upd_ne _ _ hxs]
          constructor
          · exact Or.inl
          · rintro (h | h | h)
            · exact h
            · exact absurd h hm
            · exact absurd h.1 hxs
      | false =>
        have hyes : ¬ ¬ ∃ c ∈ h.children r, was c = true := fun hn => by
          have := hb.2 hn
          rw [hbb] at this
          cases this
        simp only [Bool.false_eq_true, if_false]
        constructor
        · exact Or.inl
        · rintro (h | h | h)
          · exact h
          · exact absurd h hm
          · exact absurd h.2 hyes

/-- C119: a gold tree without words raises IndexError whenever a child of the pred root was one before. -/
theorem C119_empty_gold_violated (h : Heap) (r : Nat) (reh : Nat → Bool) (form : Nat → Str) (was : Nat → Bool)
    (hc : ∃ c ∈ h.children r, was c = true) : chooseRoot h reh form was none r = ((h, reh), some .indexError) := by
  obtain ⟨c, h1, h2⟩ := hc
  have : subroot h form was none r = none := by
    unfold subroot
    cases hf : (h.children r).filter was with
    | nil =>
      have : c ∈ (h.children r).filter was := List.mem_filter.2 ⟨h1, h2⟩
      rw [hf] at this
      exact absurd this List.not_mem_nil
    | cons => rfl
  unfold chooseRoot
  rw [this]

/-- Three words below the root. -/
def exThree : Heap := createChild (createChild (createChild (newTree Heap.init) 0) 0) 0

/-- Words 2 and 3 were children of the root; 3 has the form `b`. -/
example : (chooseRoot exThree (fun _ => false) (fun x => if x = 3 then ['b'] else ['a']) (fun x => decide (2 ≤ x)) (some (['b'], 1)) 0).1.1.children 0
    = [3] := by decide +kernel

example : (chooseRoot exThree (fun _ => false) (fun _ => ['a']) (fun x => decide (2 ≤ x)) (some (['b'], 1)) 0).1.1.children 0 = [2] ∧
    (chooseRoot exThree (fun _ => false) (fun _ => ['a']) (fun _ => false) (some (['b'], 1)) 0).1.2 1 = true := by decide +kernel

end Verif.Blocks.Reseg
