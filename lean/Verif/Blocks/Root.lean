import Verif.Blocks.Basic

/-!
# Property C90: ud.FixRoot (udapi/block/ud/fixroot.py)
-/

namespace Verif.Blocks
open Verif.Py Verif.Tree Verif.Deprel

def sParataxis : Str := ['p', 'a', 'r', 'a', 't', 'a', 'x', 'i', 's']

/-- `rchildren[i+1].parent = rchildren[0]; rchildren[i+1].deprel = 'parataxis'` (fixroot.py:31-32) -/
def rootStep (c0 : Nat) (s : Heap × Rels) (x : Nat) : (Heap × Rels) × Option Err :=
  match setParent s.1 x (some c0) with
  | (h', some e) => ((h', s.2), some e)
  | (h', none) => ((h', upd s.2 x (some sParataxis)), none)

/-- `for n in root.descendants: if not n.parent == root and n.udeprel == 'root': n.deprel = 'parataxis'` (fixroot.py:35-37) -/
def demote (h : Heap) (r : Nat) : List Nat → Rels → Rels
  | [], d => d
  | n :: ns, d => demote h r ns (if h.parent n ≠ some r ∧ getU (d n) = some dRoot then upd d n (some sParataxis) else d)

/-- `ud.FixRoot.process_tree` (fixroot.py:27-37) -/
def fixRoot (h : Heap) (d : Rels) (r : Nat) : (Heap × Rels) × Option Err :=
  match h.children r with
  | [] => ((h, d), some .indexError)
  | c0 :: rest =>
    match forNodes (rootStep c0) (h, d) rest with
    | (s, some e) => (s, some e)
    | ((h1, d1), none) =>
      let d2 := if getU (d1 c0) ≠ some dRoot then upd d1 c0 (some dRoot) else d1
      ((h1, demote h1 r (h1.words r) d2), none)

/-! ## Proofs -/

theorem demote_spec (h : Heap) (r : Nat) : ∀ (ns : List Nat), ns.Nodup → ∀ (d : Rels) (n : Nat),
    demote h r ns d n = if n ∈ ns ∧ h.parent n ≠ some r ∧ getU (d n) = some dRoot then some sParataxis else d n
  | [], _, d, n => by simp [demote]
  | m :: ns, hn, d, n => by
    rw [List.nodup_cons] at hn
    unfold demote
    rw [demote_spec h r ns hn.2]
    by_cases hnm : n = m
    · subst hnm
      rw [if_neg (by simp [hn.1])]
      by_cases hc : h.parent n ≠ some r ∧ getU (d n) = some dRoot
      · rw [if_pos hc, upd_same, if_pos ⟨List.mem_cons_self .., hc⟩]
      · rw [if_neg hc, if_neg (fun h => hc h.2)]
    · have hd : (if h.parent m ≠ some r ∧ getU (d m) = some dRoot then upd d m (some sParataxis) else d) n = d n := by
        split
        · exact upd_ne _ _ hnm
        · rfl
      rw [hd]
      have hm : n ∈ m :: ns ↔ n ∈ ns := by simp [hnm]
      by_cases hc : n ∈ ns ∧ h.parent n ≠ some r ∧ getU (d n) = some dRoot
      · rw [if_pos hc, if_pos ⟨hm.2 hc.1, hc.2⟩]
      · rw [if_neg hc, if_neg (fun h => hc ⟨hm.1 h.1, h.2⟩)]

/-- C90, for trees with words: ud.FixRoot keeps the words and their order and leaves a well-formed tree. The first child `c0` of the
root stays its child, with the relation `root` or a subtype of it; the other children of the root are attached to `c0` with the
relation `parataxis`. All other words keep their parents, and their relations unless these are `root` or a subtype. -/
theorem C90_fixed_partial {h : Heap} {r : Nat} (hi : Inv h) (hr : IsTree h r) (d : Rels) (hw : h.words r ≠ []) :
    ∃ h' d' c0 rest, fixRoot h d r = ((h', d'), none) ∧ Inv h' ∧ h'.words = h.words ∧ h'.ord = h.ord ∧ h.children r = c0 :: rest ∧
      h'.children r = [c0] ∧ (∀ x, h'.parent x = if x ∈ rest then some c0 else h.parent x) ∧
      (d' c0 = if getU (d c0) = some dRoot then d c0 else some dRoot) ∧
      (∀ x ∈ rest, d' x = some sParataxis) ∧
      (∀ x ∈ h.words r, x ∉ h.children r → d' x = if getU (d x) = some dRoot then some sParataxis else d x) ∧
      ∀ x, x ∉ h.words r → d' x = d x := by
  have w := hi r hr
  have hch : h.children r ≠ [] := by
    intro hc
    obtain ⟨x, hx⟩ := List.exists_mem_of_ne_nil _ hw
    have key : ∀ x, InTree h r x → x = r := by
      refine w.induct (fun x => x = r) rfl ?_
      intro x p hx hp _ e
      subst e
      have := w.mem_children hx hp
      rw [hc] at this
      exact absurd this List.not_mem_nil
    exact w.root_not_mem (key x (.inr hx) ▸ hx)
  obtain ⟨c0, rest, hcr⟩ := List.exists_cons_of_ne_nil hch
  have hmem : ∀ x ∈ c0 :: rest, x ∈ h.words r ∧ h.parent x = some r := fun x hx => (w.childIff r (.inl rfl) x).1 (hcr ▸ hx)
  have hcn := w.children_nodup (p := r) (.inl rfl)
  rw [hcr, List.nodup_cons] at hcn
  have hc0 := hmem c0 (List.mem_cons_self ..)
  obtain ⟨⟨h1, d1⟩, e1, i1, t1, w1, o1, p1, q1⟩ := forNodes_inv (rootStep c0)
    (fun done s => Inv s.1 ∧ IsTree s.1 r ∧ s.1.words = h.words ∧ s.1.ord = h.ord ∧
      (∀ x, s.1.parent x = if x ∈ done then some c0 else h.parent x) ∧ ∀ x, s.2 x = if x ∈ done then some sParataxis else d x)
    rest (by
      intro done x more s hl ⟨i1, t1, w1, o1, p1, q1⟩
      have hxr : x ∈ rest := by rw [hl]; simp
      have hx := hmem x (List.mem_cons_of_mem _ hxr)
      have hne : c0 ≠ x := fun e => hcn.1 (e ▸ hxr)
      have ws := i1 r t1
      have hanc : ¬ Anc s.1 x c0 := by
        have hp0 : s.1.parent c0 = some r := by
          have hn : c0 ∉ done := fun hm => hcn.1 (by rw [hl]; exact List.mem_append_left _ hm)
          rw [p1, if_neg hn, hc0.2]
        intro ha
        rcases anc_iff.1 ha with ⟨p, hp, e⟩
        rw [hp0] at hp
        obtain rfl := Option.some.inj hp
        rcases e with e | e
        · exact w.root_not_mem (e ▸ hx.1)
        · exact ws.not_anc_root e
      obtain ⟨h2, e2, i2, t2, w2, _, o2, p2⟩ := attach_one i1 t1 (by rw [w1]; exact hx.1) (.inr (by rw [w1]; exact hc0.1)) hne hanc
      refine ⟨(h2, upd s.2 x (some sParataxis)), by unfold rootStep; rw [e2], i2, t2, by rw [w2, w1], by rw [o2, o1], ?_, ?_⟩
      · intro y
        rw [p2]
        by_cases hy : y = x
        · rw [hy, upd_same, if_pos (by simp)]
        · rw [upd_ne _ _ hy, p1]
          simp [hy]
      · intro y
        by_cases hy : y = x
        · simp [hy]
        · simp only
          rw [upd_ne _ _ hy, q1]
          simp [hy])
    (h, d) ⟨hi, hr, rfl, rfl, fun x => by simp, fun x => by simp⟩
  simp only at i1 t1 w1 o1 p1 q1
  have wf1 := i1 r t1
  have hnd1 := wf1.nodup
  refine ⟨h1, demote h1 r (h1.words r) (if getU (d1 c0) ≠ some dRoot then upd d1 c0 (some dRoot) else d1), c0, rest, ?_, i1, w1, o1, hcr, ?_, p1,
    ?_, ?_, ?_, ?_⟩
  · unfold fixRoot
    rw [hcr]
    simp only [e1]
  · refine sorted_ext (ord := h1.ord) (wf1.childSorted r (.inl rfl)) (List.pairwise_singleton ..) ?_
    intro y
    rw [wf1.childIff r (.inl rfl), List.mem_singleton, p1, w1]
    constructor
    · rintro ⟨hy, hp⟩
      by_cases hm : y ∈ rest
      · rw [if_pos hm] at hp
        exact absurd hc0.1 (fun e => w.root_not_mem ((Option.some.inj hp) ▸ e))
      · rw [if_neg hm] at hp
        have := w.mem_children hy hp
        rw [hcr] at this
        exact (List.mem_cons.1 this).resolve_right hm
    · rintro rfl
      exact ⟨hc0.1, by rw [if_neg hcn.1, hc0.2]⟩
  · rw [demote_spec _ _ _ hnd1, if_neg (fun hc => hc.2.1 (by rw [p1, if_neg hcn.1, hc0.2]))]
    have : d1 c0 = d c0 := by rw [q1, if_neg hcn.1]
    rw [this]
    by_cases hg : getU (d c0) = some dRoot
    · rw [if_neg (by simpa using hg), if_pos hg, this]
    · rw [if_pos hg, if_neg hg, upd_same]
  · intro x hx
    have hne : x ≠ c0 := fun e => hcn.1 (e ▸ hx)
    have hd : (if getU (d1 c0) ≠ some dRoot then upd d1 c0 (some dRoot) else d1) x = some sParataxis := by
      split
      · rw [upd_ne _ _ hne, q1, if_pos hx]
      · rw [q1, if_pos hx]
    rw [demote_spec _ _ _ hnd1, hd]
    simp
  · intro x hx hnc
    rw [hcr] at hnc
    have hne : x ≠ c0 := fun e => hnc (e ▸ List.mem_cons_self ..)
    have hnr : x ∉ rest := fun e => hnc (List.mem_cons_of_mem _ e)
    have hd : (if getU (d1 c0) ≠ some dRoot then upd d1 c0 (some dRoot) else d1) x = d x := by
      split
      · rw [upd_ne _ _ hne, q1, if_neg hnr]
      · rw [q1, if_neg hnr]
    rw [demote_spec _ _ _ hnd1, hd]
    have hpx : h1.parent x ≠ some r := by
      rw [p1, if_neg hnr]
      intro e
      have := w.mem_children hx e
      rw [hcr] at this
      exact hnc this
    simp [w1, hx, hpx]
  · intro x hx
    have hne : x ≠ c0 := fun e => hx (e ▸ hc0.1)
    have hnr : x ∉ rest := fun e => hx (hmem x (List.mem_cons_of_mem _ e)).1
    have hd : (if getU (d1 c0) ≠ some dRoot then upd d1 c0 (some dRoot) else d1) x = d x := by
      split
      · rw [upd_ne _ _ hne, q1, if_neg hnr]
      · rw [q1, if_neg hnr]
    rw [demote_spec _ _ _ hnd1, hd, w1]
    simp [hx]

/-- C90: after the block, a word has the relation `root` or a subtype exactly if it is the only child of the root. -/
theorem C90_one_root_partial {h : Heap} {r : Nat} (hi : Inv h) (hr : IsTree h r) (d : Rels) (hw : h.words r ≠ []) :
    ∃ h' d', fixRoot h d r = ((h', d'), none) ∧ ∃ c0, ∀ x ∈ h.words r,
      (h'.parent x = some r ↔ x = c0) ∧ (getU (d' x) = some dRoot ↔ x = c0) := by
  have w := hi r hr
  obtain ⟨h', d', c0, rest, e, i', w', o', hcr, hone, hpar, hd0, hdr, hdo, hout⟩ := C90_fixed_partial hi hr d hw
  refine ⟨h', d', e, c0, ?_⟩
  have hcn := w.children_nodup (p := r) (.inl rfl)
  rw [hcr, List.nodup_cons] at hcn
  have hmem : ∀ x ∈ c0 :: rest, x ∈ h.words r ∧ h.parent x = some r := fun x hx => (w.childIff r (.inl rfl) x).1 (hcr ▸ hx)
  have hc0 := hmem c0 (List.mem_cons_self ..)
  intro x hx
  constructor
  · rw [hpar]
    constructor
    · intro hp
      by_cases hm : x ∈ rest
      · rw [if_pos hm] at hp
        exact absurd hc0.1 (fun e => w.root_not_mem ((Option.some.inj hp) ▸ e))
      · rw [if_neg hm] at hp
        have := w.mem_children hx hp
        rw [hcr] at this
        exact (List.mem_cons.1 this).resolve_right hm
    · rintro rfl
      rw [if_neg hcn.1, hc0.2]
  · by_cases hxc : x = c0
    · subst hxc
      rw [hd0]
      by_cases hg : getU (d x) = some dRoot
      · rw [if_pos hg]; simp [hg]
      · rw [if_neg hg]
        simp only [iff_true]
        decide
    · simp only [hxc, iff_false]
      by_cases hm : x ∈ rest
      · rw [hdr x hm]; decide
      · rw [hdo x hx (by rw [hcr]; simp [hxc, hm])]
        by_cases hg : getU (d x) = some dRoot
        · rw [if_pos hg]; decide
        · rw [if_neg hg]; exact hg

/-- C90 does not hold for trees without words: the block raises. -/
theorem C90_no_words_violated {h : Heap} {r : Nat} (hi : Inv h) (hr : IsTree h r) (d : Rels) (hw : h.words r = []) :
    fixRoot h d r = ((h, d), some .indexError) := by
  have hc : h.children r = [] := by
    apply List.eq_nil_iff_forall_not_mem.2
    intro x hx
    have := ((hi r hr).childIff r (.inl rfl) x).1 hx
    rw [hw] at this
    exact absurd this.1 List.not_mem_nil
  unfold fixRoot
  rw [hc]

/-- Two words below the root and a third below the second. -/
def exTwoTops : Heap := createChild (createChild (createChild (newTree Heap.init) 0) 0) 2

def exTwoTopsRels : Rels := fun x => if x = 3 then some dRoot else if x = 1 then some dDep else none

example : (fixRoot exTwoTops exTwoTopsRels 0).1.1.children 0 = [1] ∧ (fixRoot exTwoTops exTwoTopsRels 0).1.1.children 1 = [2] ∧
    (fixRoot exTwoTops exTwoTopsRels 0).1.2 1 = some dRoot ∧ (fixRoot exTwoTops exTwoTopsRels 0).1.2 3 = some sParataxis := by decide +kernel

end Verif.Blocks
