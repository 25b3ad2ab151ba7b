import Verif.Py.Str

/-!
# Which trees and nodes a block gets (udapi/core/block.py:54-166)

The methods `process_*` of the block itself are only recorded as calls. Simplified: they do not change the document and
raise no exception; coreference entities and mentions are left out.
-/

namespace Verif.Run
open Verif.Py

/-- A tree: its identity, zone, words and empty nodes. -/
structure Tr where
  id : Nat
  zone : Str
  words : List Nat
  empties : List Nat := []
  deriving DecidableEq

/-- A bundle: its identity and trees. -/
structure Bun where
  id : Nat
  trees : List Tr
  deriving DecidableEq

/-- The parameter `if_empty_tree`. -/
inductive IfEmpty
  | process
  | skip
  | skipWarn
  | delete
  | fail
  | unknown
  deriving DecidableEq

inductive DErr
  | exception
  | valueError
  deriving DecidableEq

/-- The methods that the block overrides (block.py:92-95). -/
structure Overrides where
  bundle : Bool := false
  tree : Bool := false
  node : Bool := false
  empty : Bool := false

inductive Visit
  | bundle (id : Nat)
  | tree (id : Nat)
  | node (id : Nat)
  | empty (id : Nat)
  deriving DecidableEq

/-- `all` -/
def allZones : Str := ['a', 'l', 'l']

/-- The end of `_should_process_tree` (block.py:160-166). -/
def zoneSelected (zones zone : Str) : Bool :=
  if zones = allZones then true
  else if zones = [] ∧ zone = [] then true
  else if zone ∈ split ',' zones then true
  else false

/-- The answer of `_should_process_tree` (block.py:145-166): process the tree, remove it from its bundle, or an error. -/
inductive Should
  | yes
  | no
  | remove
  | error (e : DErr)
  deriving DecidableEq

def shouldProcess (zones : Str) (mode : IfEmpty) (t : Tr) : Should :=
  if mode ≠ .process ∧ t.words = [] then
    match mode with
    | .skip => .no
    | .delete => .remove
    | .skipWarn => .no
    | .fail => .error .exception
    | _ => .error .valueError
  else if zoneSelected zones t.zone then .yes else .no

/-- What is done with a tree that should be processed (block.py:116-124). -/
def visitTree (o : Overrides) (t : Tr) : List Visit :=
  if o.tree then [.tree t.id]
  else (if o.node then t.words.map .node else []) ++ (if o.empty then t.empties.map .empty else [])

/-- The loop `for tree in bundle` (block.py:114-124). `tree.remove()` (root.py:150) gives the bundle a new list, so the
loop still goes over the old one. The second list is the current `bundle.trees`. -/
def visitTrees (o : Overrides) (zones : Str) (mode : IfEmpty) : List Tr → List Tr → List Visit × List Tr × Option DErr
  | [], cur => ([], cur, none)
  | t :: ts, cur =>
    match shouldProcess zones mode t with
    | .yes =>
      let (vs, cur, e) := visitTrees o zones mode ts cur
      (visitTree o t ++ vs, cur, e)
    | .no => visitTrees o zones mode ts cur
    | .remove => visitTrees o zones mode ts (cur.filter (fun u => u.id ≠ t.id))
    | .error e => ([], cur, some e)

/-- The loop over the bundles (block.py:107-124): the calls, the document afterwards and the error, if any. -/
def visitBundles (o : Overrides) (zones : Str) (mode : IfEmpty) : List Bun → List Visit × List Bun × Option DErr
  | [] => ([], [], none)
  | b :: bs =>
    if o.bundle then
      let (vs, d, e) := visitBundles o zones mode bs
      (.bundle b.id :: vs, b :: d, e)
    else
      match visitTrees o zones mode b.trees b.trees with
      | (vs, ts, some e) => (vs, { b with trees := ts } :: bs, some e)
      | (vs, ts, none) =>
        let (vs', d, e) := visitBundles o zones mode bs
        (vs ++ vs', { b with trees := ts } :: d, e)

/-- `process_document` (block.py:81-124) -/
def processDocument (o : Overrides) (zones : Str) (mode : IfEmpty) (doc : List Bun) : List Visit × List Bun × Option DErr :=
  if o.bundle || o.tree || o.node || o.empty then visitBundles o zones mode doc else ([], doc, some .exception)

/-! ## Specification -/

/-- `zones` selects a zone: all zones, or the listed ones. -/
def Selects (zones : Str) (z : Str) : Prop :=
  zones = allZones ∨ ∃ zs : List Str, zs ≠ [] ∧ (∀ x ∈ zs, ',' ∉ x) ∧ zones = join [','] zs ∧ z ∈ zs

theorem zoneSelected_iff (zones z : Str) : zoneSelected zones z = true ↔ Selects zones z := by
  unfold zoneSelected Selects
  by_cases h1 : zones = allZones
  · simp [h1]
  · simp only [h1, false_or]
    constructor
    · intro h
      have hm : z ∈ split ',' zones := by
        by_cases h2 : zones = [] ∧ z = []
        · obtain ⟨rfl, rfl⟩ := h2; simp [split]
        · rw [if_neg h2] at h
          by_cases h3 : z ∈ split ',' zones
          · exact h3
          · rw [if_neg h3] at h; cases h
      exact ⟨split ',' zones, split_ne_nil _ _, not_mem_split _ _, (join_split _ _).symm, hm⟩
    · rintro ⟨zs, h2, h3, h4, h5⟩
      have : split ',' zones = zs := by rw [h4]; exact split_join h2 h3
      rw [this, if_pos h5]
      simp

/-! ## Proofs -/

theorem visitTrees_calls (o : Overrides) (zones : Str) (mode : IfEmpty) (hm : mode ≠ .fail ∧ mode ≠ .unknown) :
    ∀ (ts cur : List Tr), (visitTrees o zones mode ts cur).2.2 = none ∧
      (visitTrees o zones mode ts cur).1 =
        (ts.filter (fun t => zoneSelected zones t.zone && (mode == .process || !t.words.isEmpty))).flatMap (visitTree o) ∧
      (visitTrees o zones mode ts cur).2.1 =
        (if mode = .delete then cur.filter (fun u => ts.all (fun t => !t.words.isEmpty || u.id ≠ t.id)) else cur) := by
  intro ts
  induction ts with
  | nil =>
    intro cur
    refine ⟨rfl, rfl, ?_⟩
    show cur = _
    split
    · rw [List.filter_eq_self.2 (by simp)]
    · rfl
  | cons t ts ih =>
    intro cur
    obtain ⟨i1, i2, i3⟩ := ih cur
    unfold visitTrees shouldProcess
    by_cases hw : t.words = []
    · by_cases hp : mode = .process
      · subst hp
        rw [if_neg (by simp)]
        by_cases hz : zoneSelected zones t.zone = true
        · rw [if_pos hz]
          simp only
          refine ⟨i1, ?_, ?_⟩
          · rw [List.filter_cons_of_pos (by simp [hz]), List.flatMap_cons, i2]
          · rw [i3]; rfl
        · rw [if_neg hz]
          simp only
          refine ⟨i1, ?_, ?_⟩
          · rw [List.filter_cons_of_neg (by simp [hz]), i2]
          · rw [i3]; rfl
      · rw [if_pos ⟨hp, hw⟩]
        have hf : (t :: ts).filter (fun t => zoneSelected zones t.zone && (mode == .process || !t.words.isEmpty)) =
            ts.filter (fun t => zoneSelected zones t.zone && (mode == .process || !t.words.isEmpty)) := by
          rw [List.filter_cons_of_neg (by simp [hw, hp])]
        rw [hf]
        cases mode with
        | process => exact absurd rfl hp
        | skip => exact ⟨i1, i2, i3⟩
        | skipWarn => exact ⟨i1, i2, i3⟩
        | fail => exact absurd rfl hm.1
        | unknown => exact absurd rfl hm.2
        | delete =>
          obtain ⟨j1, j2, j3⟩ := ih (cur.filter (fun u => u.id ≠ t.id))
          refine ⟨j1, j2, ?_⟩
          show (visitTrees o zones .delete ts (cur.filter (fun u => u.id ≠ t.id))).2.1 = _
          rw [j3, if_pos rfl, if_pos rfl, List.filter_filter]
          apply List.filter_congr
          intro u _
          simp [hw, Bool.and_comm]
    · rw [if_neg (by simp [hw])]
      by_cases hz : zoneSelected zones t.zone = true
      · rw [if_pos hz]
        simp only
        refine ⟨i1, ?_, ?_⟩
        · rw [List.filter_cons_of_pos (by simp [hz, hw]), List.flatMap_cons, i2]
        · rw [i3]
          split
          · apply List.filter_congr; intro u _; simp [hw]
          · rfl
      · rw [if_neg hz]
        simp only
        refine ⟨i1, ?_, ?_⟩
        · rw [List.filter_cons_of_neg (by simp [hz]), i2]
        · rw [i3]
          split
          · apply List.filter_congr; intro u _; simp [hw]
          · rfl

/-- Tree identities are unique. -/
def UniqueIds (doc : List Bun) : Prop := ∀ b ∈ doc, (b.trees.map (·.id)).Nodup

theorem keep_nonempty {ts : List Tr} (hn : (ts.map (·.id)).Nodup) :
    ts.filter (fun u => ts.all (fun t => !t.words.isEmpty || u.id ≠ t.id)) = ts.filter (fun u => !u.words.isEmpty) := by
  apply List.filter_congr
  intro u hu
  rw [Bool.eq_iff_iff, List.all_eq_true]
  constructor
  · intro h
    have := h u hu
    simpa using this
  · intro h t ht
    by_cases hid : u.id = t.id
    · have : u = t := by
        have hp := List.pairwise_map.1 hn
        rcases List.mem_iff_getElem.1 hu with ⟨i, hi, rfl⟩
        rcases List.mem_iff_getElem.1 ht with ⟨j, hj, rfl⟩
        have := List.pairwise_iff_getElem.1 hp
        rcases Nat.lt_trichotomy i j with h | h | h
        · exact absurd hid (this i j hi hj h)
        · subst h; rfl
        · exact absurd hid.symm (this j i hj hi h)
      subst this
      simpa using h
    · simp [hid]

theorem visitBundles_spec (o : Overrides) (ho : o.bundle = false) (zones : Str) (mode : IfEmpty)
    (hm : mode ≠ .fail ∧ mode ≠ .unknown) : ∀ (doc : List Bun), UniqueIds doc →
    (visitBundles o zones mode doc).2.2 = none ∧
    (visitBundles o zones mode doc).1 = ((doc.flatMap (·.trees)).filter
        (fun t => zoneSelected zones t.zone && (mode == .process || !t.words.isEmpty))).flatMap (visitTree o) ∧
    (visitBundles o zones mode doc).2.1 =
      (if mode = .delete then doc.map (fun b => { b with trees := b.trees.filter (fun t => !t.words.isEmpty) }) else doc) := by
  intro doc
  induction doc with
  | nil => intro _; refine ⟨rfl, rfl, ?_⟩; show [] = _; split <;> rfl
  | cons b bs ih =>
    intro hu
    obtain ⟨i1, i2, i3⟩ := ih (fun c hc => hu c (List.mem_cons_of_mem _ hc))
    obtain ⟨t1, t2, t3⟩ := visitTrees_calls o zones mode hm b.trees b.trees
    unfold visitBundles
    rw [if_neg (by simp [ho])]
    generalize hv : visitTrees o zones mode b.trees b.trees = r at *
    obtain ⟨vs, ts, e⟩ := r
    simp only at t1 t2 t3
    subst t1
    simp only
    refine ⟨i1, ?_, ?_⟩
    · rw [List.flatMap_cons, List.filter_append, List.flatMap_append, t2, i2]
    · rw [i3, t3]
      split
      · rw [List.map_cons, keep_nonempty (hu b (List.mem_cons_self ..))]
      · rfl

/-- C44: for every document, choice of zones and value of `if_empty_tree` (other than `fail`), a block that overrides
`process_tree` gets exactly one call for each tree of the selected zones, in document order; trees without words are left
out unless `if_empty_tree=process`. A block that overrides `process_node` and/or `process_empty_node` gets one call for
each word and/or empty node of these trees, in order. -/
theorem C44_visits (o : Overrides) (ho : o.bundle = false)
    (zones : Str) (mode : IfEmpty) (hm : mode ≠ .fail ∧ mode ≠ .unknown) (doc : List Bun) (hu : UniqueIds doc)
    (wanted : Tr → Bool) (hw : ∀ t, wanted t = true ↔ Selects zones t.zone ∧ (mode = .process ∨ t.words ≠ [])) :
    let (calls, _, err) := processDocument o zones mode doc
    let trees := (doc.flatMap (·.trees)).filter wanted
    (o.tree = true → err = none ∧ calls = trees.map (fun t => .tree t.id)) ∧
    (o.tree = false → o.node = true → o.empty = false → err = none ∧ calls = (trees.flatMap (·.words)).map .node) ∧
    (o.tree = false → o.node = false → o.empty = true → err = none ∧ calls = (trees.flatMap (·.empties)).map .empty) ∧
    (o.tree = false → o.node = true → o.empty = true → err = none ∧
      calls = trees.flatMap (fun t => t.words.map .node ++ t.empties.map .empty)) ∧
    (o.tree = false → o.node = false → o.empty = false → err = some .exception ∧ calls = []) := by
  have key : (o.bundle || o.tree || o.node || o.empty) = true → (processDocument o zones mode doc).2.2 = none ∧
      (processDocument o zones mode doc).1 = ((doc.flatMap (·.trees)).filter wanted).flatMap (visitTree o) := by
    intro hp
    obtain ⟨h1, h2, _⟩ := visitBundles_spec o ho zones mode hm doc hu
    unfold processDocument
    rw [if_pos hp]
    refine ⟨h1, ?_⟩
    rw [h2]
    congr 1
    apply List.filter_congr
    intro t _
    rw [Bool.eq_iff_iff, hw]
    simp [zoneSelected_iff]
  have flat : ∀ {β : Type} (f : β → Visit) (g : Tr → List β) (ts : List Tr),
      ts.flatMap (fun t => (g t).map f) = (ts.flatMap g).map f := by
    intro β f g ts
    induction ts with
    | nil => rfl
    | cons t ts ih => simp [ih]
  simp only
  refine ⟨fun h => ?_, fun h h' h'' => ?_, fun h h' h'' => ?_, fun h h' h'' => ?_, fun h h' h'' => ?_⟩
  · obtain ⟨k1, k2⟩ := key (by simp [h])
    refine ⟨k1, ?_⟩
    rw [k2, ← List.flatMap_singleton' (l := List.map _ _), List.flatMap_map]
    congr 1; funext t; simp [visitTree, h]
  · obtain ⟨k1, k2⟩ := key (by simp [h'])
    refine ⟨k1, ?_⟩
    rw [k2, ← flat]
    congr 1; funext t; simp [visitTree, h, h', h'']
  · obtain ⟨k1, k2⟩ := key (by simp [h''])
    refine ⟨k1, ?_⟩
    rw [k2, ← flat]
    congr 1; funext t; simp [visitTree, h, h', h'']
  · obtain ⟨k1, k2⟩ := key (by simp [h'])
    refine ⟨k1, ?_⟩
    rw [k2]
    congr 1; funext t; simp [visitTree, h, h', h'']
  · unfold processDocument
    simp [ho, h, h', h'']

/-- C44 (partial): only `if_empty_tree=delete` changes the document. With all zones selected it removes exactly the
trees without words, and keeps everything else in order. Missing: the same with some zones selected, which is false
(`C44_delete_violated`). -/
theorem C44_delete_partial (o : Overrides) (ho : o.bundle = false) (ho' : o.tree = true ∨ o.node = true ∨ o.empty = true)
    (zones : Str) (mode : IfEmpty) (hm : mode ≠ .fail ∧ mode ≠ .unknown) (doc : List Bun) (hu : UniqueIds doc) :
    (mode ≠ .delete → (processDocument o zones mode doc).2.1 = doc) ∧
    (mode = .delete → zones = allZones → (processDocument o zones mode doc).2.1 =
      doc.map (fun b => { b with trees := b.trees.filter (fun t => decide (t.words ≠ [])) })) := by
  have hp : (o.bundle || o.tree || o.node || o.empty) = true := by
    rcases ho' with h | h | h <;> simp [h]
  obtain ⟨_, _, h3⟩ := visitBundles_spec o ho zones mode hm doc hu
  unfold processDocument
  rw [if_pos hp, h3]
  refine ⟨fun h => if_neg h, fun h _ => ?_⟩
  rw [if_pos h]
  apply List.map_congr_left
  intro b _
  congr 1
  apply List.filter_congr
  intro t _
  rw [Bool.eq_iff_iff]
  simp

/-- C44 is violated: with `if_empty_tree=delete`, for every document and every choice of zones, the trees without words
of the zones that were not selected are deleted as well. -/
theorem C44_delete_violated (o : Overrides) (ho : o.bundle = false) (ho' : o.tree = true ∨ o.node = true ∨ o.empty = true)
    (zones : Str) (doc : List Bun) (hu : UniqueIds doc) (b : Bun) (_ : b ∈ doc) (t : Tr) (_ : t ∈ b.trees)
    (he : t.words = []) (_ : ¬ Selects zones t.zone) :
    ∀ c ∈ (processDocument o zones .delete doc).2.1, t ∉ c.trees := by
  have hp : (o.bundle || o.tree || o.node || o.empty) = true := by
    rcases ho' with h | h | h <;> simp [h]
  obtain ⟨_, _, h3⟩ := visitBundles_spec o ho zones .delete (by decide) doc hu
  unfold processDocument
  rw [if_pos hp, h3, if_pos rfl]
  intro c hc hm
  obtain ⟨b', _, rfl⟩ := List.mem_map.1 hc
  have := (List.mem_filter.1 hm).2
  simp [he] at this

/-- C44: with `if_empty_tree=fail`, a tree without words stops the run even in a zone that was not selected. -/
theorem C44_fail_violated (o : Overrides) (zones : Str) (cur ts : List Tr) (t : Tr) (he : t.words = [])
    (_ : ¬ Selects zones t.zone) : (visitTrees o zones .fail (t :: ts) cur).2.2 = some .exception := by
  unfold visitTrees shouldProcess
  simp [he]

def zoneEn : Str := "en".toList
def zoneCs : Str := "cs".toList
def dispatchDemo : List Bun := [⟨1, [⟨1, zoneEn, [5, 6], [7]⟩, ⟨2, zoneCs, [], []⟩]⟩, ⟨2, [⟨1, zoneEn, [8], []⟩]⟩]

example : UniqueIds dispatchDemo ∧
    (processDocument { tree := true } zoneEn .delete dispatchDemo).1 = [.tree 1, .tree 1] ∧
    (processDocument { node := true, empty := true } allZones .skip dispatchDemo).1 =
      [.node 5, .node 6, .empty 7, .node 8] ∧
    (processDocument { tree := true } zoneEn .delete dispatchDemo).2.1 =
      [⟨1, [⟨1, zoneEn, [5, 6], [7]⟩]⟩, ⟨2, [⟨1, zoneEn, [8], []⟩]⟩] := by
  unfold UniqueIds
  decide

end Verif.Run
