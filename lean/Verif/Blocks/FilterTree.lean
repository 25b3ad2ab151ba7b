import Verif.Blocks.Leaf
import Verif.Tree.LemmasRemove

/-!
# Property C132: util.Filter (udapi/block/util/filter.py)

The expressions of the parameters are functions of the trees and the node; they do not change anything and do not
raise. `tree.remove()` (removing the tree from its bundle) is a flag of the result.
-/

namespace Verif.Blocks
open Verif.Py Verif.Tree

/-- `eval(expression)` for a node (or the root). -/
abbrev Expr := Heap → Nat → Bool

/-- The parameters (filter.py:30-79). `mark` says whether `self.mark` is a non-empty string. -/
structure FilterOpts where
  deleteTree : Option Expr := none
  deleteTreeIfNode : Option Expr := none
  deleteSubtree : Option Expr := none
  keepTree : Option Expr := none
  keepTreeIfNode : Option Expr := none
  keepSubtree : Option Expr := none
  keepNode : Option Expr := none
  mark : Bool := false

/-- What `process_tree` leaves behind: the trees, whether this tree was removed from its bundle, the nodes that got
`misc['Mark']`, and the exception. -/
structure FilterOut where
  heap : Heap
  removed : Bool := false
  marked : List Nat := []
  err : Option Err := none

/-- filter.py:95-99 -/
def deleteSubtrees (p : Expr) (h : Heap) (r : Nat) : Heap × Option Err :=
  forNodes (fun h x => if p h x then remove h x false else (h, none)) h (h.words r)

/-- filter.py:125-128: `kept_subtrees` is not empty. -/
def keepSubtrees (kept : List Nat) (h : Heap) (r : Nat) : Heap × Option Err :=
  match forNodes (fun h x => setParent h x (some r)) h kept with
  | (h, some e) => (h, some e)
  | (h, none) => forNodes (fun h x => remove h x false) h ((h.children r).filter (fun n => n ∉ kept))

/-- filter.py:130-136 -/
def filterNodes (p : Expr) (h : Heap) (r : Nat) : FilterOut :=
  let del := (h.words r).filter (fun x => !p h x)
  if del = h.words r then { heap := h, removed := true }
  else
    match forNodes (fun h x => remove h x true) h del with
    | (h, e) => { heap := h, err := e }

/-- filter.py:117-136 -/
def filterKeep (o : FilterOpts) (h : Heap) (r : Nat) : FilterOut :=
  let rest (h : Heap) : FilterOut :=
    match o.keepNode with
    | none => { heap := h }
    | some p => filterNodes p h r
  match o.keepSubtree with
  | none => rest h
  | some p =>
    let kept := (h.words r).filter (fun x => p h x)
    if kept = [] then { heap := h, removed := true }
    else
      match keepSubtrees kept h r with
      | (h, some e) => { heap := h, err := some e }
      | (h, none) => rest h

/-- filter.py:101-115 and the rest. -/
def filterTrees (o : FilterOpts) (h : Heap) (r : Nat) : FilterOut :=
  if o.keepTree.any (fun p => !p h r) then { heap := h, removed := true }
  else
    match o.keepTreeIfNode with
    | some p =>
      let found := (h.words r).filter (fun x => p h x)
      { heap := h, removed := found.isEmpty, marked := if o.mark then found else [] }
    | none => filterKeep o h r

/-- `Filter.process_tree` (filter.py:81-136). -/
def filterTree (o : FilterOpts) (h : Heap) (r : Nat) : FilterOut :=
  if o.deleteTree.any (fun p => p h r) then { heap := h, removed := true }
  else if o.deleteTreeIfNode.any (fun p => (h.words r).any (fun x => p h x)) then { heap := h, removed := true }
  else
    match o.deleteSubtree with
    | none => filterTrees o h r
    | some p =>
      match deleteSubtrees p h r with
      | (h, some e) => { heap := h, err := some e }
      | (h, none) => filterTrees o h r

/-! ## Specification vocabulary -/

/-- `x` is `a` or lies in the subtree of `a`. -/
def Under (h : Heap) (a x : Nat) : Prop := x = a ∨ Anc h a x

/-! ## Proofs -/

theorem anc_same {h h' : Heap} (hp : h'.parent = h.parent) {a x : Nat} (ha : Anc h a x) : Anc h' a x := by
  induction ha with
  | parent e => exact .parent (by rw [hp]; exact e)
  | step e _ ih => exact .step (by rw [hp]; exact e) ih

theorem anc_same_iff {h h' : Heap} (hp : h'.parent = h.parent) (a x : Nat) : Anc h' a x ↔ Anc h a x :=
  ⟨anc_same hp.symm, anc_same hp⟩

/-- `remove()` of a node that is not in the tree any more but still a child of its parent. -/
theorem remove_detached {h : Heap} {r x q : Nat} (w : WF h r) (hr : IsTree h r) (hx : x ∉ h.words r) (hrt : h.root x = r)
    (hq : h.parent x = some q) (hqn : ¬ InTree h r q) (hm : x ∈ h.children q) :
    remove h x false = ({ h with children := upd h.children q ((h.children q).erase x) }, none) := by
  have w1 : WF { h with children := upd h.children q ((h.children q).erase x) } r := by
    refine w.congr (Nat.le_refl _) rfl (fun _ _ => rfl) ?_ (fun _ _ => rfl) (fun _ _ => rfl)
    intro y hy
    exact upd_ne _ _ (fun e => hqn (e ▸ hy))
  obtain ⟨ds, hds, hdn, hdm⟩ := w1.unorderedDescendants_eq (a := r) hr.1 (.inl rfl)
  have hdm' : ∀ y, y ∈ ds ↔ y ∈ h.words r := by
    intro y
    rw [hdm]
    exact ⟨fun h => h.1, fun h => ⟨h, w1.reach y h⟩⟩
  have hsort : sortNodes h.ord ds = h.words r := by
    refine sorted_ext (ord := h.ord) (sortNodes_pairwise hdn ?_) (aligned_pairwise w.aligned) (fun y => by rw [mem_sortNodes, hdm'])
    intro a ha b hb e
    exact w.ord_inj (.inr ((hdm' a).1 ha)) (.inr ((hdm' b).1 hb)) e
  have hren := renumber_spec w.nodup h.ord 1
  have hord : renumber h.ord 1 (h.words r) = h.ord := by
    funext y
    by_cases hy : y ∈ h.words r
    · have e : (h.words r).map (renumber h.ord 1 (h.words r)) = (h.words r).map h.ord := hren.1.trans w.ords.symm
      exact List.map_inj_left.1 e y hy
    · exact hren.2 y hy
  have hws : upd h.words r (h.words r) = h.words := by
    funext y
    by_cases hy : y = r
    · subst hy; simp
    · exact upd_ne _ _ hy
  unfold remove
  simp only [hq, hm, not_true, if_false, Bool.false_and, Bool.false_eq_true, hrt, hx, hds, hsort, hord, hws]
  split <;> rfl

/-- The subtrees of the words `D` have been deleted from the tree of `r` in `h`. -/
structure Gone (h : Heap) (r : Nat) (D : List Nat) (h' : Heap) : Prop where
  inv : Inv h'
  tree : IsTree h' r
  parent : h'.parent = h.parent
  root : h'.root = h.root
  next : h'.next = h.next
  sub : (h'.words r).Sublist (h.words r)
  mem : ∀ z, z ∈ h'.words r ↔ (z ∈ h.words r ∧ ∀ d ∈ D, ¬ Under h d z)
  other : ∀ r', r' ≠ r → h'.words r' = h.words r'
  child : ∀ z ∈ h.words r, z ∉ D → ∀ q, h.parent z = some q → z ∈ h'.children q

theorem Gone.start {h : Heap} {r : Nat} (hi : Inv h) (hr : IsTree h r) : Gone h r [] h :=
  ⟨hi, hr, rfl, rfl, rfl, List.Sublist.refl _, fun z => by simp, fun _ _ => rfl, fun _ hz _ _ hq => (hi r hr).mem_children hz hq⟩

theorem Gone.step {h s : Heap} {r x : Nat} {D : List Nat} (hi : Inv h) (hr : IsTree h r) (g : Gone h r D s) (hD : ∀ d ∈ D, d ∈ h.words r)
    (hx : x ∈ h.words r) (hxD : x ∉ D) : ∃ s', remove s x false = (s', none) ∧ Gone h r (D ++ [x]) s' := by
  have w := hi r hr
  have ws := g.inv r g.tree
  obtain ⟨q, hq, hqin⟩ := w.parentIn x hx
  have hqs : s.parent x = some q := by rw [g.parent]; exact hq
  have hxc := g.child x hx hxD q hq
  have hmemD : ∀ z, (∀ d ∈ D ++ [x], ¬ Under h d z) ↔ ((∀ d ∈ D, ¬ Under h d z) ∧ z ≠ x ∧ ¬ Anc h x z) := by
    intro z
    simp only [List.forall_mem_append, List.forall_mem_singleton]
    unfold Under
    rw [not_or]
  have hchild : ∀ z ∈ h.words r, z ∉ D ++ [x] → ∀ p, h.parent z = some p →
      z ∈ upd s.children q ((s.children q).erase x) p := by
    intro z hz hzD p hp
    simp only [List.mem_append, List.mem_singleton, not_or] at hzD
    have := g.child z hz hzD.1 p hp
    by_cases hpq : p = q
    · subst hpq
      rw [upd_same]
      exact (List.mem_erase_of_ne hzD.2).2 this
    · rw [upd_ne _ _ hpq]; exact this
  by_cases hxs : x ∈ s.words r
  · obtain ⟨W, o, he, hsub, hmem, hal, ho⟩ := remove_plain ws g.tree hxs hqs
    have hinv := inv_remove g.inv g.tree hxs false
    rw [he] at hinv
    have hw : (pruned s r x q W o).words r = W := by simp [pruned]
    refine ⟨_, he, hinv, ⟨g.tree.1, g.tree.2⟩, g.parent, g.root, g.next, by rw [hw]; exact hsub.trans g.sub, ?_, ?_, hchild⟩
    · intro z
      rw [hw, hmem, g.mem, hmemD, anc_same_iff g.parent]
      grind
    · intro r' hne
      rw [← g.other r' hne]
      exact upd_ne _ _ hne
  · have hd : ∃ d ∈ D, Under h d x := by
      apply Classical.byContradiction
      intro hcon
      exact hxs ((g.mem x).2 ⟨hx, fun d hd hu => hcon ⟨d, hd, hu⟩⟩)
    obtain ⟨d, hdD, hdx⟩ := hd
    have hda : Anc h d x := by
      rcases hdx with e | e
      · exact absurd (e ▸ hdD) hxD
      · exact e
    have hdq : d = q ∨ Anc h d q := by
      rcases anc_iff.1 hda with ⟨p, hp, e⟩
      rw [hq] at hp
      obtain rfl := Option.some.inj hp
      rcases e with e | e
      · exact .inl e.symm
      · exact .inr e
    have hqn : ¬ InTree s r q := by
      rintro (e | e)
      · rcases hdq with e' | e'
        · exact w.root_not_mem ((e'.trans e) ▸ hD d hdD)
        · exact w.not_anc_root (e ▸ e')
      · have := ((g.mem q).1 e).2 d hdD
        exact this (hdq.elim (fun e => .inl e.symm) .inr)
    have hqroot : h.root q = r := by
      rcases hqin with e | e
      · rw [e]; exact hr.2
      · exact w.rootOf q e
    have he := remove_detached ws g.tree hxs (by rw [g.root]; exact w.rootOf x hx) hqs hqn hxc
    refine ⟨_, he, ?_, ⟨g.tree.1, g.tree.2⟩, g.parent, g.root, g.next, g.sub, ?_, g.other, hchild⟩
    · intro r' hr'
      have hr'' : IsTree s r' := hr'
      refine (g.inv r' hr'').congr (Nat.le_refl _) rfl (fun _ _ => rfl) ?_ (fun _ _ => rfl) (fun _ _ => rfl)
      intro y hy
      refine upd_ne _ _ ?_
      intro e
      subst e
      have h1 := inTree_root (g.inv r' hr'') hr'' hy
      rw [g.root, hqroot] at h1
      exact hqn (h1 ▸ hy)
    · intro z
      show z ∈ s.words r ↔ _
      rw [g.mem, hmemD]
      constructor
      · rintro ⟨hz, h2⟩
        refine ⟨hz, h2, ?_, ?_⟩
        · intro e
          exact h2 d hdD (.inr (e ▸ hda))
        · intro e
          exact h2 d hdD (.inr (hda.trans e))
      · rintro ⟨hz, h2, _⟩
        exact ⟨hz, h2⟩

theorem deleteSubtrees_gone {h : Heap} {r : Nat} (hi : Inv h) (hr : IsTree h r) (c : Nat → Bool) :
    ∃ h', deleteSubtrees (fun _ => c) h r = (h', none) ∧ Gone h r ((h.words r).filter c) h' := by
  have w := hi r hr
  unfold deleteSubtrees
  refine forNodes_inv _ (fun done s => Gone h r (done.filter c) s) (h.words r) ?_ h (Gone.start hi hr)
  intro done x rest s hl g
  have hn := w.nodup
  rw [hl] at hn
  by_cases hc : c x = true
  · rw [if_pos hc]
    have hx : x ∈ h.words r := by rw [hl]; simp
    have hxd : x ∉ done.filter c := by
      intro hm
      have := (List.mem_filter.1 hm).1
      grind
    obtain ⟨s', e', g'⟩ := g.step hi hr (fun d hd => by rw [hl]; exact List.mem_append_left _ (List.mem_filter.1 hd).1) hx hxd
    exact ⟨s', e', by rw [List.filter_append, List.filter_cons_of_pos hc]; exact g'⟩
  · rw [if_neg hc]
    exact ⟨s, rfl, by rw [List.filter_append, List.filter_cons_of_neg hc]; simpa using g⟩

/-- Deleting subtrees of the children of the root. -/
theorem removeAll_gone {h : Heap} {r : Nat} (hi : Inv h) (hr : IsTree h r) (l : List Nat) (hn : l.Nodup) (hl : ∀ x ∈ l, x ∈ h.words r) :
    ∃ h', forNodes (fun h x => remove h x false) h l = (h', none) ∧ Gone h r l h' := by
  refine forNodes_inv _ (fun done s => Gone h r done s) l ?_ h (Gone.start hi hr)
  intro done x rest s hle g
  rw [hle] at hn
  refine g.step hi hr (fun d hd => hl d (by rw [hle]; exact List.mem_append_left _ hd)) (hl x (by rw [hle]; simp)) ?_
  intro hm
  grind

theorem keepSubtrees_spec {h : Heap} {r : Nat} (hi : Inv h) (hr : IsTree h r) (kept : List Nat) (hn : kept.Nodup)
    (hk : ∀ x ∈ kept, x ∈ h.words r) :
    ∃ h', keepSubtrees kept h r = (h', none) ∧ Inv h' ∧ IsTree h' r ∧ h'.root = h.root ∧ (h'.words r).Sublist (h.words r) ∧
      (∀ z, z ∈ h'.words r ↔ (z ∈ h.words r ∧ ∃ k ∈ kept, Under h k z)) ∧
      (∀ z, h'.parent z = if z ∈ kept then some r else h.parent z) ∧ ∀ r', r' ≠ r → h'.words r' = h.words r' := by
  have w := hi r hr
  have hnear : ∀ c ∈ kept, Near h (fun a => a ∈ h.words r) c r := by
    intro c hc
    obtain ⟨q, nq, hq⟩ := near_exists w (skip := fun a => a ∈ h.words r) w.root_not_mem c (hk c hc)
    rcases hq with rfl | hq
    · exact nq
    · exact absurd hq nq.anc.2
  obtain ⟨s, es, is, ts, ws, os, rs, ps, _⟩ := attach_list (skip := fun a => a ∈ h.words r) (a := r) kept h hi hr hn
    (fun c hc => ⟨hk c hc, hnear c hc⟩)
  have wfs := is r ts
  obtain ⟨h', e', g⟩ := removeAll_gone is ts ((s.children r).filter (fun n => n ∉ kept))
    ((wfs.children_nodup (.inl rfl)).filter _) (fun x hx => wfs.child_mem (.inl rfl) (List.mem_filter.1 hx).1)
  have hmemr : ∀ n, n ∈ (s.children r).filter (fun n => n ∉ kept) ↔ (n ∈ h.words r ∧ h.parent n = some r ∧ n ∉ kept) := by
    intro n
    rw [List.mem_filter, wfs.childIff r (.inl rfl), ws, ps]
    by_cases hnk : n ∈ kept
    · simp [hnk]
    · simp [hnk]
  have key : ∀ z, InTree h r z → z ∈ h.words r →
      ((∀ n ∈ (s.children r).filter (fun n => n ∉ kept), ¬ Under s n z) ↔ ∃ k ∈ kept, Under h k z) := by
    refine w.induct (fun z => z ∈ h.words r →
      ((∀ n ∈ (s.children r).filter (fun n => n ∉ kept), ¬ Under s n z) ↔ ∃ k ∈ kept, Under h k z)) ?_ ?_
    · exact fun hm => absurd hm w.root_not_mem
    · intro z p hz hp hpin ih _
      by_cases hzk : z ∈ kept
      · refine ⟨fun _ => ⟨z, hzk, .inl rfl⟩, fun _ n hnm hu => ?_⟩
        rcases hu with e | e
        · subst e
          exact ((hmemr z).1 hnm).2.2 hzk
        · rcases anc_iff.1 e with ⟨p', hp', e'⟩
          rw [ps, if_pos hzk] at hp'
          obtain rfl := Option.some.inj hp'
          rcases e' with e' | e'
          · exact w.root_not_mem (e' ▸ ((hmemr n).1 hnm).1)
          · exact wfs.not_anc_root e'
      · have hps : s.parent z = some p := by rw [ps, if_neg hzk]; exact hp
        rcases hpin with rfl | hpw
        · constructor
          · intro hall
            exact absurd (.inl rfl) (hall z ((hmemr z).2 ⟨hz, hp, hzk⟩))
          · rintro ⟨k, hkk, hu⟩
            rcases hu with e | e
            · exact absurd (e ▸ hkk) hzk
            · rcases anc_iff.1 e with ⟨p', hp', e'⟩
              rw [hp] at hp'
              obtain rfl := Option.some.inj hp'
              rcases e' with e' | e'
              · exact absurd (e' ▸ hk k hkk) w.root_not_mem
              · exact absurd e' w.not_anc_root
        · have hl : ∀ n ∈ (s.children r).filter (fun n => n ∉ kept), Under s n z ↔ Under s n p := by
            intro n hnm
            have hnz : z ≠ n := by
              rintro rfl
              have := ((hmemr z).1 hnm).2.1
              rw [hp] at this
              exact w.root_not_mem (Option.some.inj this ▸ hpw)
            unfold Under
            rw [anc_iff]
            constructor
            · rintro (e | ⟨p', hp', e⟩)
              · exact absurd e hnz
              · rw [hps] at hp'
                obtain rfl := Option.some.inj hp'
                rcases e with e | e
                · exact .inl e
                · exact .inr e
            · rintro (e | e)
              · exact .inr ⟨p, hps, .inl e⟩
              · exact .inr ⟨p, hps, .inr e⟩
          have hr' : ∀ k ∈ kept, Under h k z ↔ Under h k p := by
            intro k hkk
            have hnz : z ≠ k := fun e => hzk (e ▸ hkk)
            unfold Under
            rw [anc_iff]
            constructor
            · rintro (e | ⟨p', hp', e⟩)
              · exact absurd e hnz
              · rw [hp] at hp'
                obtain rfl := Option.some.inj hp'
                rcases e with e | e
                · exact .inl e
                · exact .inr e
            · rintro (e | e)
              · exact .inr ⟨p, hp, .inl e⟩
              · exact .inr ⟨p, hp, .inr e⟩
          have := ih hpw
          constructor
          · intro hall
            obtain ⟨k, hkk, hu⟩ := this.1 (fun n hnm hu => hall n hnm ((hl n hnm).2 hu))
            exact ⟨k, hkk, (hr' k hkk).2 hu⟩
          · rintro ⟨k, hkk, hu⟩ n hnm hun
            exact this.2 ⟨k, hkk, (hr' k hkk).1 hu⟩ n hnm ((hl n hnm).1 hun)
  refine ⟨h', ?_, g.inv, g.tree, g.root.trans rs, by rw [← ws]; exact g.sub, ?_, ?_, ?_⟩
  · unfold keepSubtrees
    rw [es]
    exact e'
  · intro z
    rw [g.mem, ws]
    exact ⟨fun ⟨hz, hh⟩ => ⟨hz, (key z (.inr hz) hz).1 hh⟩, fun ⟨hz, hh⟩ => ⟨hz, (key z (.inr hz) hz).2 hh⟩⟩
  · intro z
    rw [g.parent]
    exact ps z
  · intro r' hne
    rw [g.other r' hne, ws]

theorem Near.mono {h : Heap} {skip skip' : Nat → Prop} {x q : Nat} (n : Near h skip x q) (hs : ∀ a, skip a → skip' a) (hq : ¬ skip' q) :
    Near h skip' x q := by
  induction n with
  | here e _ => exact .here e hq
  | up e h1 _ ih => exact .up e (hs _ h1) (ih hq)

theorem Near.through {h : Heap} {skip skip' : Nat → Prop} {z x q : Nat} (n : Near h skip z x) (hs : ∀ a, skip a → skip' a)
    (hx : skip' x) (nq : Near h skip' x q) : Near h skip' z q := by
  induction n with
  | here e _ => exact .up e hx nq
  | up e h1 _ ih => exact .up e (hs _ h1) (ih hx nq)

/-- The words `D` have been deleted one by one, with their children rehanged. -/
structure Spliced (h : Heap) (r : Nat) (D : List Nat) (h' : Heap) : Prop where
  inv : Inv h'
  tree : IsTree h' r
  root : h'.root = h.root
  words : h'.words r = (h.words r).filter (fun z => z ∉ D)
  parent : ∀ z ∈ h'.words r, ∃ q, h'.parent z = some q ∧ Near h (fun a => a ∈ D) z q
  other : ∀ r', r' ≠ r → h'.words r' = h.words r'

theorem removeRehang_spec {h : Heap} {r : Nat} (hi : Inv h) (hr : IsTree h r) (l : List Nat) (hn : l.Nodup) (hl : ∀ x ∈ l, x ∈ h.words r) :
    ∃ h', forNodes (fun h x => remove h x true) h l = (h', none) ∧ Spliced h r l h' := by
  have w := hi r hr
  refine forNodes_inv _ (fun done s => Spliced h r done s) l ?_ h ?_
  · intro done x rest s hle g
    rw [hle] at hn
    have hxd : x ∉ done := by
      intro hm
      grind
    have hxw : x ∈ h.words r := hl x (by rw [hle]; simp)
    have hxs : x ∈ s.words r := by
      rw [g.words]
      exact List.mem_filter.2 ⟨hxw, by simpa using hxd⟩
    have ws := g.inv r g.tree
    obtain ⟨q, hq, nq⟩ := g.parent x hxs
    obtain ⟨o, he, hal, ho⟩ := remove_rehang ws hxs hq
    have hinv := inv_remove g.inv g.tree hxs true
    rw [he] at hinv
    have hwe : (spliced s r x q o).words r = (s.words r).erase x := by simp [spliced]
    have hqin := ws.parent_in hxs hq
    have hqx : q ≠ x := fun e => ws.anc_irrefl (.inr hxs) (.parent (e ▸ hq))
    have hnotin : ∀ a, InTree s r a → a ≠ x → a ∉ done ++ [x] := by
      intro a ha hax hm
      rcases List.mem_append.1 hm with hm | hm
      · rcases ha with e | e
        · exact w.root_not_mem (e ▸ hl a (by rw [hle]; exact List.mem_append_left _ hm))
        · rw [g.words] at e
          have := (List.mem_filter.1 e).2
          simp at this
          exact this hm
      · exact hax (List.mem_singleton.1 hm)
    have nq' : Near h (fun a => a ∈ done ++ [x]) x q := nq.mono (fun a ha => List.mem_append_left _ ha) (hnotin q hqin hqx)
    refine ⟨_, he, hinv, ⟨g.tree.1, g.tree.2⟩, g.root, ?_, ?_, ?_⟩
    · rw [hwe, ws.nodup.erase_eq_filter, g.words, List.filter_filter]
      congr 1
      funext z
      by_cases hzx : z = x <;> by_cases hzd : z ∈ done <;> simp [hzx, hzd]
    · intro z hz
      rw [hwe] at hz
      have hzx : z ≠ x := fun e => ws.nodup.not_mem_erase (e ▸ hz)
      have hzs := List.mem_of_mem_erase hz
      obtain ⟨p, hp, np⟩ := g.parent z hzs
      show ∃ q', (if z ∈ s.children x then some q else s.parent z) = some q' ∧ _
      by_cases hpx : p = x
      · subst hpx
        rw [if_pos ((ws.childIff p (.inr hxs) z).2 ⟨hzs, hp⟩)]
        exact ⟨q, rfl, np.through (fun a ha => List.mem_append_left _ ha) (by simp) nq'⟩
      · rw [if_neg]
        · exact ⟨p, hp, np.mono (fun a ha => List.mem_append_left _ ha) (hnotin p (ws.parent_in hzs hp) hpx)⟩
        · intro hm
          have := ((ws.childIff x (.inr hxs) z).1 hm).2
          rw [hp] at this
          exact hpx (Option.some.inj this)
    · intro r' hne
      rw [← g.other r' hne]
      exact upd_ne _ _ hne
  · refine ⟨hi, hr, rfl, ?_, ?_, fun _ _ => rfl⟩
    · rw [List.filter_eq_self.2]
      simp
    · intro z hz
      obtain ⟨q, hq, _⟩ := w.parentIn z hz
      exact ⟨q, hq, .here hq (by simp)⟩

/-- Sentence of five words: 1 below 2, 2 and 5 below the root, 3 below 4, 4 below 2. -/
def filterEx : Heap where
  parent := fun x => match x with | 1 => some 2 | 2 => some 0 | 3 => some 4 | 4 => some 2 | 5 => some 0 | _ => none
  children := fun x => match x with | 0 => [2, 5] | 2 => [1, 4] | 4 => [3] | _ => []
  ord := fun x => x
  root := fun _ => 0
  words := fun x => match x with | 0 => [1, 2, 3, 4, 5] | _ => []
  next := 6

section Props
variable {h : Heap} {r : Nat}

/-- `delete_subtree` deletes exactly the subtrees of the words for which the expression (here one that does not
depend on the rest of the tree) is true, although some of these subtrees lie inside of others. The other words keep
their order and their parents. No exception is raised and the tree stays in its bundle, even if no word is left. -/
theorem C132_delete_subtree (hi : Inv h) (hr : IsTree h r) (c : Nat → Bool) :
    let out := filterTree { deleteSubtree := some (fun _ => c) } h r
    out.err = none ∧ out.removed = false ∧ Inv out.heap ∧ out.heap.parent = h.parent ∧
    (out.heap.words r).Sublist (h.words r) ∧
    (∀ z, z ∈ out.heap.words r ↔ (z ∈ h.words r ∧ c z = false ∧ ∀ a ∈ h.words r, Anc h a z → c a = false)) ∧
    ∀ r', r' ≠ r → out.heap.words r' = h.words r' := by
  intro out
  obtain ⟨h', e, g⟩ := deleteSubtrees_gone hi hr c
  have hout : out = { heap := h' } := by
    show filterTree { deleteSubtree := some (fun _ => c) } h r = _
    simp [filterTree, e, filterTrees, filterKeep]
  rw [hout]
  refine ⟨rfl, rfl, g.inv, g.parent, g.sub, ?_, g.other⟩
  intro z
  rw [g.mem]
  constructor
  · rintro ⟨hz, hh⟩
    refine ⟨hz, ?_, ?_⟩
    · cases hc : c z with
      | false => rfl
      | true => exact absurd (.inl rfl) (hh z (List.mem_filter.2 ⟨hz, hc⟩))
    · intro a ha haz
      cases hc : c a with
      | false => rfl
      | true => exact absurd (.inr haz) (hh a (List.mem_filter.2 ⟨ha, hc⟩))
  · rintro ⟨hz, h1, h2⟩
    refine ⟨hz, ?_⟩
    intro d hd hu
    obtain ⟨hdw, hdc⟩ := List.mem_filter.1 hd
    rcases hu with e | e
    · rw [← e, h1] at hdc
      cases hdc
    · rw [h2 d hdw e] at hdc
      cases hdc

example : (filterTree { deleteSubtree := some (fun _ x => x = 3 || x = 4) } filterEx 0).heap.words 0 = [1, 2, 5] ∧
    (filterTree { deleteSubtree := some (fun _ _ => true) } filterEx 0).heap.words 0 = [] ∧
    (filterTree { deleteSubtree := some (fun _ _ => true) } filterEx 0).removed = false := by decide

/-- `keep_subtree` removes the tree from the bundle if the expression is true for no word. Otherwise it keeps exactly the words
that are, or lie below, a word for which the expression is true, in their order. -/
theorem C132_keep_subtree (hi : Inv h) (hr : IsTree h r) (p : Expr) :
    let out := filterTree { keepSubtree := some p } h r
    out.err = none ∧ (out.removed = true ↔ ∀ x ∈ h.words r, p h x = false) ∧ (out.removed = true → out.heap = h) ∧
    (out.removed = false → Inv out.heap ∧ (out.heap.words r).Sublist (h.words r) ∧
      (∀ z, z ∈ out.heap.words r ↔ (z ∈ h.words r ∧ (p h z = true ∨ ∃ a ∈ h.words r, Anc h a z ∧ p h a = true))) ∧
      (∀ z ∈ out.heap.words r, p h z = false → out.heap.parent z = h.parent z) ∧
      (∀ z ∈ out.heap.words r, p h z = true → out.heap.parent z = some r) ∧
      ∀ r', r' ≠ r → out.heap.words r' = h.words r') := by
  intro out
  have w := hi r hr
  have hnil : (h.words r).filter (fun x => p h x) = [] ↔ ∀ x ∈ h.words r, p h x = false := by
    rw [List.filter_eq_nil_iff]
    simp
  by_cases hk : (h.words r).filter (fun x => p h x) = []
  · have hout : out = { heap := h, removed := true } := by
      show filterTree { keepSubtree := some p } h r = _
      simp only [filterTree, filterTrees, filterKeep, Option.any, hk, if_true]
      rfl
    rw [hout]
    exact ⟨rfl, ⟨fun _ => hnil.1 hk, fun _ => rfl⟩, fun _ => rfl, fun e => by cases e⟩
  · obtain ⟨h', e, hinv, ht, hroot, hsub, hmem, hpar, hoth⟩ := keepSubtrees_spec hi hr ((h.words r).filter (fun x => p h x))
      (w.nodup.filter _) (fun x hx => (List.mem_filter.1 hx).1)
    have hout : out = { heap := h' } := by
      show filterTree { keepSubtree := some p } h r = _
      simp only [filterTree, filterTrees, filterKeep, Option.any, hk, e, if_false]
      rfl
    rw [hout]
    refine ⟨rfl, ⟨fun e => (by cases e), fun e => absurd (hnil.2 e) hk⟩, fun e => (by cases e), fun _ => ⟨hinv, hsub, ?_, ?_, ?_, hoth⟩⟩
    · intro z
      rw [hmem]
      constructor
      · rintro ⟨hz, k, hkk, hu⟩
        obtain ⟨hkw, hkp⟩ := List.mem_filter.1 hkk
        rcases hu with rfl | hu
        · exact ⟨hz, .inl hkp⟩
        · exact ⟨hz, .inr ⟨k, hkw, hu, hkp⟩⟩
      · rintro ⟨hz, hp | ⟨a, ha, haz, hp⟩⟩
        · exact ⟨hz, z, List.mem_filter.2 ⟨hz, hp⟩, .inl rfl⟩
        · exact ⟨hz, a, List.mem_filter.2 ⟨ha, hp⟩, .inr haz⟩
    · intro z hz hp
      rw [hpar, if_neg]
      intro hm
      have := (List.mem_filter.1 hm).2
      rw [hp] at this
      cases this
    · intro z hz hp
      rw [hpar, if_pos]
      exact List.mem_filter.2 ⟨((hmem z).1 hz).1, hp⟩

example : (filterTree { keepSubtree := some (fun _ x => x = 4) } filterEx 0).heap.words 0 = [3, 4] ∧
    (filterTree { keepSubtree := some (fun _ x => x = 4) } filterEx 0).heap.parent 4 = some 0 ∧
    (filterTree { keepSubtree := some (fun _ x => x = 4) } filterEx 0).heap.parent 3 = some 4 := by decide

/-- The kept subtrees are not kept as they are: a word for which the expression is true is attached to the root even if it lies
inside of another kept subtree, where it had another parent. -/
theorem C132_nested_violated (hi : Inv h) (hr : IsTree h r) (p : Expr) {a x : Nat} (ha : a ∈ h.words r) (hx : x ∈ h.words r)
    (hpa : p h a = true) (hpx : p h x = true) (hax : h.parent x = some a) :
    let out := filterTree { keepSubtree := some p } h r
    x ∈ out.heap.words r ∧ a ∈ out.heap.words r ∧ out.heap.parent x = some r ∧ out.heap.parent x ≠ h.parent x := by
  intro out
  have w := hi r hr
  obtain ⟨_, h1, _, h2⟩ := C132_keep_subtree hi hr p
  have hrem : out.removed = false := by
    cases hc : out.removed with
    | false => rfl
    | true =>
      have := h1.1 hc a ha
      rw [hpa] at this
      cases this
  obtain ⟨_, _, hm, _, hp, _⟩ := h2 hrem
  have hxo : x ∈ out.heap.words r := (hm x).2 ⟨hx, .inl hpx⟩
  refine ⟨hxo, (hm a).2 ⟨ha, .inl hpa⟩, hp x hxo hpx, ?_⟩
  rw [hp x hxo hpx, hax]
  intro e
  exact w.root_not_mem (Option.some.inj e ▸ ha)

example : (filterTree { keepSubtree := some (fun _ x => x = 4 || x = 3) } filterEx 0).heap.parent 3 = some 0 := by decide

/-- `keep_node` removes the tree from the bundle if the expression is true for no word. Otherwise it keeps exactly the
words for which it is true, in their order, each attached to its nearest ancestor that is kept (or to the root). -/
theorem C132_keep_node (hi : Inv h) (hr : IsTree h r) (p : Expr) :
    let out := filterTree { keepNode := some p } h r
    out.err = none ∧ (out.removed = true ↔ ∀ x ∈ h.words r, p h x = false) ∧ (out.removed = true → out.heap = h) ∧
    (out.removed = false → Inv out.heap ∧ out.heap.words r = (h.words r).filter (p h) ∧
      (∀ z ∈ out.heap.words r, ∃ q, out.heap.parent z = some q ∧ Nearest h (fun a => a ∈ h.words r ∧ p h a = false) z q) ∧
      ∀ r', r' ≠ r → out.heap.words r' = h.words r') := by
  intro out
  have w := hi r hr
  have hall : (h.words r).filter (fun x => !p h x) = h.words r ↔ ∀ x ∈ h.words r, p h x = false := by
    rw [List.filter_eq_self]
    simp
  by_cases hk : (h.words r).filter (fun x => !p h x) = h.words r
  · have hout : out = { heap := h, removed := true } := by
      show filterTree { keepNode := some p } h r = _
      simp only [filterTree, filterTrees, filterKeep, filterNodes, Option.any, hk, if_true]
      rfl
    rw [hout]
    exact ⟨rfl, ⟨fun _ => hall.1 hk, fun _ => rfl⟩, fun _ => rfl, fun e => by cases e⟩
  · obtain ⟨h', e, g⟩ := removeRehang_spec hi hr ((h.words r).filter (fun x => !p h x)) (w.nodup.filter _)
      (fun x hx => (List.mem_filter.1 hx).1)
    have hout : out = { heap := h' } := by
      show filterTree { keepNode := some p } h r = _
      simp only [filterTree, filterTrees, filterKeep, filterNodes, Option.any, hk, if_false, e]
      rfl
    rw [hout]
    refine ⟨rfl, ⟨fun e => (by cases e), fun e => absurd (hall.2 e) hk⟩, fun e => (by cases e), fun _ => ⟨g.inv, ?_, ?_, g.other⟩⟩
    · show h'.words r = _
      rw [g.words]
      apply List.filter_congr
      intro z hz
      cases hp : p h z <;> simp [hz, hp]
    · intro z hz
      obtain ⟨q, hq, nq⟩ := g.parent z hz
      refine ⟨q, hq, ?_⟩
      have hzw : z ∈ h.words r := by
        have hz' : z ∈ h'.words r := hz
        rw [g.words] at hz'
        exact (List.mem_filter.1 hz').1
      obtain ⟨n1, n2, n3⟩ := nq.nearest w hzw
      have hiff : ∀ a, a ∈ (h.words r).filter (fun x => !p h x) ↔ (a ∈ h.words r ∧ p h a = false) := by
        intro a
        rw [List.mem_filter]
        simp
      exact ⟨n1, fun e => n2 ((hiff q).2 e), fun a h1 h2 => (hiff a).1 (n3 a h1 h2)⟩

example : (filterTree { keepNode := some (fun _ x => x = 1 || x = 3) } filterEx 0).heap.words 0 = [1, 3] ∧
    (filterTree { keepNode := some (fun _ x => x = 2 || x = 3) } filterEx 0).heap.parent 3 = some 2 ∧
    (filterTree { keepNode := some (fun _ x => x = 1 || x = 3) } filterEx 0).heap.parent 3 = some 0 := by decide

/-- The parameters about whole trees: the tree is removed from its bundle exactly if one of the conditions for its deletion
holds. The trees themselves are not changed. With `mark`, exactly the words that made the tree be kept are marked. -/
theorem C132_trees (o : FilterOpts) (h1 : o.deleteSubtree = none) (h2 : o.keepSubtree = none) (h3 : o.keepNode = none) :
    let out := filterTree o h r
    out.err = none ∧ out.heap = h ∧
    (out.removed = true ↔
      (∃ p, o.deleteTree = some p ∧ p h r = true) ∨ (∃ p, o.deleteTreeIfNode = some p ∧ ∃ x ∈ h.words r, p h x = true) ∨
      (∃ p, o.keepTree = some p ∧ p h r = false) ∨ (∃ p, o.keepTreeIfNode = some p ∧ ∀ x ∈ h.words r, p h x = false)) ∧
    (out.removed = false → ∀ x, x ∈ out.marked ↔
      (o.mark = true ∧ x ∈ h.words r ∧ ∃ p, o.keepTreeIfNode = some p ∧ p h x = true)) := by
  intro out
  cases o with
  | mk d1 d2 d3 k1 k2 k3 k4 m =>
    simp only at h1 h2 h3
    subst h1 h2 h3
    have hout : out = filterTree ⟨d1, d2, none, k1, k2, none, none, m⟩ h r := rfl
    unfold filterTree filterTrees filterKeep at hout
    by_cases c1 : d1.any (fun p => p h r) = true
    · rw [hout]
      simp only [c1, if_true]
      refine ⟨trivial, trivial, ⟨fun _ => .inl ?_, fun _ => trivial⟩, fun e => by cases e⟩
      cases d1 with
      | none => cases c1
      | some p => exact ⟨p, rfl, c1⟩
    · by_cases c2 : d2.any (fun p => (h.words r).any (fun x => p h x)) = true
      · rw [hout]
        simp only [c1, c2, if_true]
        refine ⟨rfl, rfl, ⟨fun _ => .inr (.inl ?_), fun _ => rfl⟩, fun e => by cases e⟩
        cases d2 with
        | none => cases c2
        | some p => exact ⟨p, rfl, List.any_eq_true.1 c2⟩
      · by_cases c3 : k1.any (fun p => !p h r) = true
        · rw [hout]
          simp only [c1, c2, c3, if_true]
          refine ⟨rfl, rfl, ⟨fun _ => .inr (.inr (.inl ?_)), fun _ => rfl⟩, fun e => by cases e⟩
          cases k1 with
          | none => cases c3
          | some p => exact ⟨p, rfl, by simpa using c3⟩
        · have n1 : ¬ ∃ p, d1 = some p ∧ p h r = true := by
            rintro ⟨p, rfl, hp⟩
            exact c1 hp
          have n2 : ¬ ∃ p, d2 = some p ∧ ∃ x ∈ h.words r, p h x = true := by
            rintro ⟨p, rfl, hp⟩
            exact c2 (List.any_eq_true.2 hp)
          have n3 : ¬ ∃ p, k1 = some p ∧ p h r = false := by
            rintro ⟨p, rfl, hp⟩
            exact c3 (by simp [hp])
          rw [hout]
          cases k2 with
          | none =>
            simp only [c1, c2, c3]
            refine ⟨rfl, rfl, ⟨fun e => (by cases e), ?_⟩, ?_⟩
            · rintro (e | e | e | ⟨p, e, _⟩)
              · exact absurd e n1
              · exact absurd e n2
              · exact absurd e n3
              · cases e
            · intro _ x
              constructor
              · intro e
                cases e
              · rintro ⟨_, _, p, e, _⟩
                cases e
          | some p =>
            simp only [c1, c2, c3]
            refine ⟨rfl, rfl, ⟨fun e => .inr (.inr (.inr ⟨p, rfl, ?_⟩)), ?_⟩, ?_⟩
            · simpa using e
            · rintro (e | e | e | ⟨p', e, hall⟩)
              · exact absurd e n1
              · exact absurd e n2
              · exact absurd e n3
              · obtain rfl := Option.some.inj e
                simpa using hall
            · intro _ x
              cases m with
              | false => simp
              | true => simp [List.mem_filter]

example : (filterTree { keepTreeIfNode := some (fun h x => h.parent x = some 2), mark := true } filterEx 0).marked = [1, 4] ∧
    (filterTree { keepTreeIfNode := some (fun h x => h.parent x = some 3) } filterEx 0).removed = true ∧
    (filterTree { deleteTreeIfNode := some (fun h x => h.parent x = some 2) } filterEx 0).removed = true := by decide

/-- Contrary to the documentation (the parameters are evaluated in their order), `keep_subtree` and
`keep_node` are not evaluated at all if `keep_tree_if_node` is given, whatever they are. -/
theorem C132_order_violated (o : FilterOpts) (p : Expr) (q q' : Option Expr) :
    filterTree { o with keepTreeIfNode := some p, keepSubtree := q, keepNode := q' } h r =
      filterTree { o with keepTreeIfNode := some p, keepSubtree := none, keepNode := none } h r := by
  unfold filterTree filterTrees
  rfl

example : (filterTree { keepTreeIfNode := some (fun _ _ => true), keepNode := some (fun _ _ => false) } filterEx 0).removed = false ∧
    (filterTree { keepNode := some (fun _ _ => false) } filterEx 0).removed = true := by decide

end Props

end Verif.Blocks
