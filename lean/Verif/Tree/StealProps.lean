import Verif.Tree.StealLoop

/-!
# Property C50: `steal_nodes` moves words between trees
-/

namespace Verif.Tree
open Verif.Py

/-- Two trees and some words of one of them. -/
structure Given (h : Heap) (old t : Nat) (nodes : List Nat) : Prop where
  inv : Inv h
  isOld : IsTree h old
  isT : IsTree h t
  ne : old ≠ t
  some : nodes ≠ []
  sub : ∀ x ∈ nodes, x ∈ h.words old
  nodup : nodes.Nodup

/-- The same with a source that is well formed only up to the numbering of its words. -/
structure Given0 (h : Heap) (old t : Nat) (nodes : List Nat) : Prop where
  wOld : WFo h old
  wT : WF h t
  isOld : IsTree h old
  isT : IsTree h t
  ne : old ≠ t
  some : nodes ≠ []
  sub : ∀ x ∈ nodes, x ∈ h.words old
  nodup : nodes.Nodup

theorem Given.weak {h : Heap} {old t : Nat} {nodes : List Nat} (g : Given h old t nodes) : Given0 h old t nodes :=
  ⟨(g.inv old g.isOld).weaken, g.inv t g.isT, g.isOld, g.isT, g.ne, g.some, g.sub, g.nodup⟩

/-- The words to be moved, in word order. -/
def inOrder (h : Heap) (old : Nat) (nodes : List Nat) : List Nat := (h.words old).filter (fun y => y ∈ nodes)

/-- `root.multiword_tokens` and `word.multiword_token` agree. -/
def Mwts.Ok (m : Mwts) : Prop := ∀ w j, m.of w = some j → w ∈ m.words j ∧ j ∈ m.list (m.root j) ∧ j < m.next ∧ (m.list (m.root j)).Nodup

section
variable {h : Heap} {old t : Nat} {nodes : List Nat}

theorem sort_eq (g : Given0 h old t nodes) : sortNodes h.ord nodes = inOrder h old nodes := by
  have w := g.wOld
  apply sorted_ext (ord := h.ord)
  · exact sortNodes_pairwise g.nodup (fun x hx y hy e => w.ord_inj (g.sub x hx) (g.sub y hy) e)
  · exact w.sorted.sublist List.filter_sublist
  · intro x
    rw [mem_sortNodes, inOrder, List.mem_filter, decide_eq_true_eq]
    exact ⟨fun hx => ⟨g.sub x hx, hx⟩, fun hx => hx.2⟩

theorem mem_inOrder (g : Given0 h old t nodes) {x : Nat} : x ∈ inOrder h old nodes ↔ x ∈ nodes := by
  rw [← sort_eq g, mem_sortNodes]

theorem call_of (g : Given0 h old t nodes) : Call h old t (inOrder h old nodes) where
  wOld := g.wOld
  wT := g.wT
  isOld := g.isOld
  isT := g.isT
  ne := g.ne
  sub := fun x hx => g.sub x ((mem_inOrder g).1 hx)
  sorted := g.wOld.sorted.sublist List.filter_sublist

theorem steal_eq (g : Given0 h old t nodes) (m : Mwts) : steal h m t nodes =
    (let S := inOrder h old nodes
     let whole := decide (S = h.words old)
     let h1 := stealLoop whole old t S (h.words t).length h S
     if whole then
        let m1 := { m with list := upd (upd m.list t (m.list t ++ m.list old)) old [] }
        ({ h1 with words := upd (upd h1.words old []) t (upd h1.words old [] t ++ S) }, m1, none)
     else
        let w1 := upd h1.words old ((h1.words old).filter (fun n => n ∉ S))
        match mwtLoop t S (S.getLast?.bind m.of) m S with
        | (m1, some e) => ({ h1 with words := w1 }, m1, some e)
        | (m1, none) => ({ h1 with words := upd w1 t (w1 t ++ S) }, m1, none)) := by
  have w := g.wOld
  have e := sort_eq g
  have hr : ∀ x ∈ nodes, h.root x = old := fun x hx => w.rootOf x (g.sub x hx)
  cases nodes with
  | nil => exact absurd rfl g.some
  | cons x xs =>
    unfold steal
    simp only
    have hany : ¬ xs.any (fun y => decide (h.root y ≠ old)) = true := by
      intro ha
      obtain ⟨y, hy, hne⟩ := List.any_eq_true.1 ha
      simp [hr y (List.mem_cons_of_mem _ hy)] at hne
    rw [hr x (List.mem_cons_self ..), if_neg hany, e]
    rfl

theorem whole_iff (_ : Given0 h old t nodes) : inOrder h old nodes = h.words old ↔ ∀ y ∈ h.words old, y ∈ nodes := by
  unfold inOrder
  rw [List.filter_eq_self]
  simp

/-- The loop over the nodes, in a state without errors. -/
theorem si_steal (g : Given0 h old t nodes) :
    SI h (stealLoop (decide (inOrder h old nodes = h.words old)) old t (inOrder h old nodes) (h.words t).length h (inOrder h old nodes)) old t
      (inOrder h old nodes) (inOrder h old nodes) := by
  have c := call_of g
  have := si_loop c (whole := decide (inOrder h old nodes = h.words old)) (fun e y hy => by
    rw [of_decide_eq_true e]; exact hy) (inOrder h old nodes) [] h rfl (si_init h c)
  exact this

/-- After a call that does not raise the heap is as described. -/
theorem done_steal (g : Given0 h old t nodes) {m m' : Mwts} {h' : Heap} (e : steal h m t nodes = (h', m', none)) :
    Done h h' old t (inOrder h old nodes) := by
  have si := si_steal g
  rw [steal_eq g] at e
  simp only at e
  have hot := g.ne
  by_cases hw : inOrder h old nodes = h.words old
  · rw [if_pos (by simpa using hw)] at e
    injection e with e1 e2
    rw [← e1]
    apply done_of_si si
    · simp only [upd, if_true, if_neg (Ne.symm hot), si.words]
    · simp only [upd, if_true, if_neg hot, si.words]
      symm
      rw [List.filter_eq_nil_iff]
      intro y hy
      rw [hw]
      simp [hy]
    · intro r h1 h2
      simp only [upd, if_neg h1, if_neg h2, si.words]
  · rw [if_neg (by simpa using hw)] at e
    split at e
    · injection e with _ e2
      injection e2 with _ e3
      cases e3
    · injection e with e1 e2
      rw [← e1]
      apply done_of_si si
      · simp only [upd, if_true, if_neg (Ne.symm hot), si.words]
      · simp only [upd, if_neg hot, si.words, if_true]
      · intro r h1 h2
        simp only [upd, if_neg h1, if_neg h2, si.words]

/-- The words that stay are numbered 1, 2, ... exactly if they precede all words that are moved. -/
theorem kept_aligned (g : Given h old t nodes) :
    Aligned h.ord 1 ((h.words old).filter (fun n => n ∉ inOrder h old nodes)) ↔
      ∀ x ∈ nodes, ∀ y ∈ h.words old, y ∉ nodes → h.ord y < h.ord x := by
  have w := g.inv old g.isOld
  have e : (h.words old).filter (fun n => decide (n ∉ inOrder h old nodes)) = (h.words old).filter (fun n => decide (n ∉ nodes)) := by
    apply List.filter_congr
    intro x _
    simp [mem_inOrder g.weak]
  rw [e]
  constructor
  · intro ha x hx y hy hyn
    apply Classical.byContradiction
    intro hlt
    have hne : h.ord y ≠ h.ord x := fun e => hyn (by rw [w.ord_inj (.inr hy) (.inr (g.sub x hx)) e]; exact hx)
    have hyk : y ∈ (h.words old).filter (fun n => decide (n ∉ nodes)) := List.mem_filter.2 ⟨hy, by simpa using hyn⟩
    obtain ⟨_, h2, h3⟩ := aligned_mem ha hyk
    have hx1 := w.ord_pos (g.sub x hx)
    have hlen : h.ord x - 1 < ((h.words old).filter (fun n => decide (n ∉ nodes))).length := by omega
    have hz := List.getElem?_eq_getElem hlen
    have hzo := aligned_get ha hz
    have hzm := List.mem_filter.1 (List.getElem_mem hlen)
    have : ((h.words old).filter (fun n => decide (n ∉ nodes)))[h.ord x - 1] = x :=
      w.ord_inj (.inr hzm.1) (.inr (g.sub x hx)) (by omega)
    have h4 := hzm.2
    rw [this] at h4
    simp [hx] at h4
  · intro hb
    have hs : (h.words old).filter (fun n => decide (n ∉ nodes)) ++ inOrder h old nodes = h.words old := by
      apply sorted_ext (ord := h.ord)
      · rw [List.pairwise_append]
        refine ⟨(aligned_pairwise w.aligned).sublist List.filter_sublist, (call_of g.weak).sorted, ?_⟩
        intro a ha b hb'
        have ha := List.mem_filter.1 ha
        exact hb b ((mem_inOrder g.weak).1 hb') a ha.1 (by simpa using ha.2)
      · exact aligned_pairwise w.aligned
      · intro x
        rw [List.mem_append, List.mem_filter, mem_inOrder g.weak]
        constructor
        · rintro (h1 | h1)
          · exact h1.1
          · exact g.sub x h1
        · intro hx
          by_cases hn : x ∈ nodes
          · exact .inr hn
          · exact .inl ⟨hx, by simpa using hn⟩
    have := w.aligned
    rw [← hs, aligned_append] at this
    exact this.1

/-- C50 for calls that do not raise: the words of the target are its old ones followed by the moved ones in word order, the
source keeps the others in their order, edges among moved words and among kept words stay and all others now lead to the
technical roots, the target and all other trees are well formed, and the source is well formed if and only if the words that
stay precede the words that are moved.
What is missing: multi-word tokens and the numbering of the source, see below. -/
theorem C50_moved_partial (g : Given h old t nodes) {m m' : Mwts} {h' : Heap} (e : steal h m t nodes = (h', m', none)) :
    h'.words t = h.words t ++ inOrder h old nodes ∧ h'.words old = (h.words old).filter (fun y => y ∉ nodes) ∧
    (∀ x ∈ nodes, ∀ p, h.parent x = some p → h'.parent x = some (if p ∈ nodes then p else t)) ∧
    (∀ x ∈ h.words old, x ∉ nodes → ∀ p, h.parent x = some p → h'.parent x = some (if p ∈ nodes then old else p)) ∧
    (∀ x, x ∉ h.words old → h'.parent x = h.parent x) ∧
    (∀ r, IsTree h' r ↔ IsTree h r) ∧ (∀ r, IsTree h r → r ≠ old → WF h' r) ∧
    (WF h' old ↔ ∀ x ∈ nodes, ∀ y ∈ h.words old, y ∉ nodes → h.ord y < h.ord x) := by
  have c := call_of g.weak
  have d := done_steal g.weak e
  have hm : ∀ x, x ∈ inOrder h old nodes ↔ x ∈ nodes := fun x => mem_inOrder g.weak
  refine ⟨d.wT, ?_, ?_, ?_, ?_, fun r => d.isTree c r, ?_, ?_⟩
  · rw [d.wOld]
    apply List.filter_congr
    intro x _
    simp [hm]
  · intro x hx p hp
    rw [d.parentS ((hm x).2 hx) hp]
    simp [hm]
  · intro x hx hn p hp
    rw [d.parentK hx (fun h => hn ((hm x).1 h)) hp]
    simp [hm]
  · intro x hx
    exact d.parentO (fun h => hx (g.sub x ((hm x).1 h))) hx
  · intro r hr hne
    by_cases ht : r = t
    · rw [ht]; exact d.wf_target c
    · exact d.wf_other c (g.inv r hr) hr hne ht
  · rw [← kept_aligned g]
    refine ⟨fun w => ?_, d.wf_source c⟩
    have := w.aligned
    rw [d.wOld] at this
    exact (aligned_congr (fun x hx => d.ordO c (by simpa using (List.mem_filter.1 hx).2))).1 this

/-- C50 for a whole tree: nothing is raised, all trees are well formed, the source has no words, the edges stay except those to
the technical root, and the tokens of the source are now in the list of the target. -/
theorem C50_whole_partial (g : Given h old t nodes) (m : Mwts) (hw : ∀ y ∈ h.words old, y ∈ nodes) :
    ∃ h' m', steal h m t nodes = (h', m', none) ∧ Inv h' ∧ h'.words t = h.words t ++ h.words old ∧ h'.words old = [] ∧
      (∀ x ∈ h.words old, ∀ p, h.parent x = some p → h'.parent x = some (if p = old then t else p)) ∧
      m'.list t = m.list t ++ m.list old ∧ m'.list old = [] ∧ m'.of = m.of ∧ m'.words = m.words := by
  have hall := (whole_iff g.weak).2 hw
  have e := steal_eq g.weak m
  simp only at e
  rw [if_pos (by simpa using hall)] at e
  obtain ⟨h1, h2, h3, _, _, h6, h7, h8⟩ := C50_moved_partial g e
  refine ⟨_, _, e, ?_, ?_, ?_, ?_, ?_, ?_, rfl, rfl⟩
  · intro r hr
    by_cases hro : r = old
    · rw [hro]
      exact h8.2 (fun x _ y hy hn => absurd (hw y hy) hn)
    · exact h7 r ((h6 r).1 hr) hro
  · rw [h1, hall]
  · rw [h2, List.filter_eq_nil_iff]
    intro y hy
    simp [hw y hy]
  · intro x hx p hp
    rw [h3 x (hw x hx) p hp]
    congr 1
    by_cases hpo : p = old
    · rw [if_pos hpo, if_neg]
      intro hn
      exact (g.inv old g.isOld).root_not_mem (hpo ▸ g.sub p hn)
    · rw [if_neg hpo, if_pos]
      exact ((g.inv old g.isOld).parent_in hx hp).elim (fun h => absurd h hpo) (fun h => hw p h)
  · show upd (upd m.list t _) old [] t = _
    rw [upd_ne _ _ (Ne.symm g.ne)]
    simp [upd]
  · simp [upd]

theorem mwtLoop_none (t : Nat) (S : List Nat) (m : Mwts) : ∀ xs, mwtLoop t S none m xs = (m, none)
  | [] => rfl
  | _ :: xs => mwtLoop_none t S m xs

/-- C50: if the last of the moved words is not in a multi-word token, nothing is raised (so the theorem above applies), and no
token is touched. -/
theorem C50_part_partial (g : Given h old t nodes) (m : Mwts) {y : Nat} (hy : y ∈ h.words old) (hyn : y ∉ nodes)
    (hl : (inOrder h old nodes).getLast?.bind m.of = none) : ∃ h', steal h m t nodes = (h', m, none) := by
  rw [steal_eq g.weak]
  simp only
  rw [if_neg, hl, mwtLoop_none]
  · exact ⟨_, rfl⟩
  · intro hd
    exact hyn ((whole_iff g.weak).1 (of_decide_eq_true hd) y hy)

/-- Nodes of several trees are rejected and nothing is changed. -/
theorem C50_several_trees_partial (h : Heap) (m : Mwts) (t x y : Nat) (xs : List Nat) (hy : y ∈ xs) (hne : h.root y ≠ h.root x) :
    steal h m t (x :: xs) = (h, m, some .valueError) := by
  unfold steal
  simp only
  rw [if_pos]
  rw [List.any_eq_true]
  exact ⟨y, hy, by simpa using hne⟩

/-- C50 does not hold: whenever a word stays after a word that is moved, the source is not well formed. -/
theorem C50_ords_violated (g : Given h old t nodes) {m m' : Mwts} {h' : Heap} (e : steal h m t nodes = (h', m', none)) {x y : Nat}
    (hx : x ∈ nodes) (hy : y ∈ h.words old) (hyn : y ∉ nodes) (hlt : h.ord x < h.ord y) : ¬ WF h' old := by
  intro w
  have := (C50_moved_partial g e).2.2.2.2.2.2.2.1 w x hx y hy hyn
  omega

/-- C50 does not hold: if a whole tree is moved, its multi-word tokens still refer to the source, so removing one of them raises
and leaves it in the target, but without its words. -/
theorem C50_mwt_root_violated (g : Given h old t nodes) (m : Mwts) (hw : ∀ y ∈ h.words old, y ∈ nodes) {j : Nat} (hj : j ∈ m.list old)
    (hr : m.root j = old) : ∃ h' m', steal h m t nodes = (h', m', none) ∧ j ∈ m'.list t ∧ m'.root j = old ∧
      ∃ m'', mwtRemove m' j = (m'', some .valueError) ∧ j ∈ m''.list t ∧ ∀ x ∈ m.words j, m''.of x = none := by
  have hall := (whole_iff g.weak).2 hw
  have e := steal_eq g.weak m
  simp only at e
  rw [if_pos (by simpa using hall)] at e
  have hlt : upd (upd m.list t (m.list t ++ m.list old)) old [] t = m.list t ++ m.list old := by
    rw [upd_ne _ _ (Ne.symm g.ne)]
    simp [upd]
  have hset : ∀ (l : List Nat) (f : Nat → Option Nat) (x : Nat), (x ∈ l ∨ f x = none) → setOf f none l x = none := by
    intro l
    induction l with
    | nil => intro f x hx; exact hx.elim (fun h => absurd h List.not_mem_nil) id
    | cons a l ih =>
      intro f x hx
      apply ih
      by_cases hxa : x = a
      · exact .inr (by simp [upd, hxa])
      · rcases hx with hx | hx
        · exact .inl ((List.mem_cons.1 hx).resolve_left hxa)
        · exact .inr (by rw [upd_ne _ _ hxa]; exact hx)
  refine ⟨_, _, e, ?_, hr, ?_⟩
  · show j ∈ upd (upd m.list t _) old [] t
    rw [hlt]
    exact List.mem_append_right _ hj
  · unfold mwtRemove
    simp only
    rw [if_neg]
    · refine ⟨_, rfl, ?_, fun x hx => hset _ _ x (.inl hx)⟩
      show j ∈ upd (upd m.list t _) old [] t
      rw [hlt]
      exact List.mem_append_right _ hj
    · rw [hr]
      simp [upd]

/-- C50 does not hold: if only a part of a tree is moved and its last word is not in a multi-word token, the tokens of all other
moved words stay in the list of the source. -/
theorem C50_mwt_stays_violated (g : Given h old t nodes) {m : Mwts} {y : Nat} (hy : y ∈ h.words old) (hyn : y ∉ nodes)
    (hl : (inOrder h old nodes).getLast?.bind m.of = none) {x j : Nat} (hx : x ∈ nodes) (hj : m.of x = some j) (hjo : j ∈ m.list old)
    (hjt : j ∉ m.list t) : ∃ h' m', steal h m t nodes = (h', m', none) ∧ x ∈ h'.words t ∧ m'.of x = some j ∧ j ∈ m'.list old ∧ j ∉ m'.list t := by
  obtain ⟨h', e⟩ := C50_part_partial g m hy hyn hl
  refine ⟨h', m, e, ?_, hj, hjo, hjt⟩
  rw [(C50_moved_partial g e).1]
  exact List.mem_append_right _ ((mem_inOrder g.weak).2 hx)

theorem setOf_none_keep {l : List Nat} {v : Option Nat} : ∀ {f : Nat → Option Nat} {x : Nat}, x ∉ l → setOf f v l x = f x := by
  induction l with
  | nil => intro f x _; rfl
  | cons a l ih =>
    intro f x hx
    rw [setOf, ih (fun h => hx (List.mem_cons_of_mem _ h)), upd_ne _ _ (fun e : x = a => hx (by rw [e]; exact List.mem_cons_self ..))]

theorem setOf_none {l : List Nat} : ∀ {f : Nat → Option Nat} {x : Nat}, x ∈ l → setOf f none l x = none := by
  induction l with
  | nil => intro f x hx; exact absurd hx List.not_mem_nil
  | cons a l ih =>
    intro f x hx
    by_cases hxl : x ∈ l
    · exact ih hxl
    · rw [setOf, setOf_none_keep hxl]
      rcases List.mem_cons.1 hx with h | h
      · simp [upd, h]
      · exact absurd h hxl

theorem removeOld_none (m : Mwts) : ∀ (ws : List Nat), (∀ w ∈ ws, m.of w = none) → mwtRemoveOld m ws = (m, none)
  | [], _ => rfl
  | w :: ws, h => by
    unfold mwtRemoveOld
    rw [h w (List.mem_cons_self ..)]
    exact removeOld_none m ws (fun v hv => h v (List.mem_cons_of_mem _ hv))

/-- C50 does not hold: if only a part of a tree is moved, namely at least two words, and the last of them is in a multi-word token,
the call raises, and the moved words are in neither tree. -/
theorem C50_mwt_last_violated (g : Given h old t nodes) {m : Mwts} (hm : m.Ok) {y : Nat} (hy : y ∈ h.words old) (hyn : y ∉ nodes)
    {a b : Nat} {rest : List Nat} {j : Nat} (hS : inOrder h old nodes = rest ++ [a, b]) (hj : m.of b = some j) :
    ∃ h' m', steal h m t nodes = (h', m', some .valueError) ∧
      ∀ x ∈ nodes, h'.root x = t ∧ x ∉ h'.words t ∧ x ∉ h'.words old := by
  have c := call_of g.weak
  have si := si_steal g.weak
  obtain ⟨hbw, hjl, hjn, hnd⟩ := hm b j hj
  have hloop : ∃ m', mwtLoop t (inOrder h old nodes) (some j) m (inOrder h old nodes) = (m', some .valueError) := by
    have h1 : mwtRemove m j = ({ m with of := setOf m.of none (m.words j), list := upd m.list (m.root j) ((m.list (m.root j)).erase j) }, none) := by
      unfold mwtRemove
      simp only
      rw [if_pos hjl]
    have hlen : ∃ u v l, inOrder h old nodes = u :: v :: l := by
      rw [hS]
      cases rest with
      | nil => exact ⟨a, b, [], rfl⟩
      | cons u rest =>
        cases rest with
        | nil => exact ⟨u, a, [b], rfl⟩
        | cons v rest => exact ⟨u, v, rest ++ [a, b], rfl⟩
    obtain ⟨u, v, l, hl⟩ := hlen
    have hne : (m.words j).filter (fun w => decide (w ∈ inOrder h old nodes)) ≠ [] := by
      intro e
      rw [List.filter_eq_nil_iff] at e
      have := e b hbw
      rw [hS] at this
      simp at this
    have key : ∀ S xs, (m.words j).filter (fun w => decide (w ∈ S)) ≠ [] → ∃ m', mwtLoop t S (some j) m (u :: v :: xs) = (m', some .valueError) := by
      intro S xs hne
      unfold mwtLoop
      simp only [h1]
      unfold mwtCreate
      rw [removeOld_none]
      · simp only
        rw [if_neg hne]
        simp only
        unfold mwtLoop
        simp only
        unfold mwtRemove
        simp only
        have hjne : j ≠ m.next := Nat.ne_of_lt hjn
        have hnot : j ∉ upd (upd m.list (m.root j) ((m.list (m.root j)).erase j)) t (upd m.list (m.root j) ((m.list (m.root j)).erase j) t ++ [m.next])
            (upd m.root m.next t j) := by
          rw [upd_ne _ _ hjne]
          have hx : j ∉ (m.list (m.root j)).erase j := fun h => ((List.Nodup.mem_erase_iff hnd).1 h).1 rfl
          by_cases hrt : m.root j = t
          · rw [← hrt]
            simp [upd, hx, hjne]
          · rw [upd_ne _ _ hrt]
            simp [upd, hx]
        rw [if_neg hnot]
        exact ⟨_, rfl⟩
      · intro w hw
        exact setOf_none (List.mem_filter.1 hw).1
    have := key (inOrder h old nodes) l hne
    rw [hl] at this ⊢
    exact this
  obtain ⟨m', hloop⟩ := hloop
  have hlast : (inOrder h old nodes).getLast?.bind m.of = some j := by
    rw [hS]
    simp [hj]
  have hw : ¬ inOrder h old nodes = h.words old := fun e => hyn ((whole_iff g.weak).1 e y hy)
  have e := steal_eq g.weak m
  simp only at e
  rw [if_neg (by simpa using hw), hlast, hloop] at e
  refine ⟨_, m', e, ?_⟩
  intro x hx
  have hxS := (mem_inOrder g.weak).2 hx
  refine ⟨?_, ?_, ?_⟩
  · show (stealLoop _ _ _ _ _ _ _).root x = t
    rw [si.root, if_pos hxS]
  · show x ∉ upd _ old _ t
    rw [upd_ne _ _ (Ne.symm g.ne), si.words]
    intro h1
    exact c.disj (.inr (g.sub x hx)) (.inr h1)
  · show x ∉ upd _ old _ old
    simp [upd, hxS]

end

/-! ## Examples -/

/-- Two trees: `0` with the words 1, 2, 3, where 2 depends on 1 and 3 on 2, and `4` with the word 5. -/
def exTwoTrees : Heap := createChild (newTree (createChild (createChild (createChild (newTree Heap.init) 0) 1) 2)) 4

def exTokens : Mwts := ⟨fun w => if w = 2 ∨ w = 3 then some 0 else none, fun _ => [2, 3], fun _ => 0, fun r => if r = 0 then [0] else [], 1⟩

def noTokens : Mwts := ⟨fun _ => none, fun _ => [], fun _ => 0, fun _ => [], 0⟩

/-- Words 1 and 3 are moved: 2 is cut off and attached to the root, and so is 3, in the other tree. -/
example : let r := steal exTwoTrees noTokens 4 [3, 1]
    r.2.2 = none ∧ r.1.words 4 = [5, 1, 3] ∧ r.1.words 0 = [2] ∧ r.1.parent 3 = some 4 ∧ r.1.parent 2 = some 0 ∧ r.1.ord 2 = 2 ∧
    r.1.ord 3 = 3 ∧ r.1.children 4 = [5, 1, 3] ∧ r.1.children 0 = [2] ∧ r.1.children 1 = [] := by decide +kernel

example : let r := steal exTwoTrees exTokens 4 [1, 2, 3]
    r.2.2 = none ∧ r.1.words 4 = [5, 1, 2, 3] ∧ r.2.1.list 4 = [0] ∧ r.2.1.root 0 = 0 ∧ (mwtRemove r.2.1 0).2 = some .valueError := by
  decide +kernel

example : let r := steal exTwoTrees exTokens 4 [2, 3]
    r.2.2 = some .valueError ∧ r.1.words 4 = [5] ∧ r.1.words 0 = [1] ∧ r.1.root 2 = 4 := by decide +kernel

end Verif.Tree
