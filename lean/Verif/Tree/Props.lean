import Verif.Tree.LemmasShiftHeap

/-!
# Properties C07-C18 and C56: trees

The statements use the calls of the model (`step`, `setParent`, `createChild`, `remove`, `shift`,
`descendants`, ...) and the specification in `Verif.Tree.Spec`.
-/

namespace Verif.Tree
open Verif.Py

/-- A history as a list of calls. -/
def runOps (h : Heap) (ops : List Op) : Heap := ops.foldl (fun h o => (step h o).1) h

/-- Example tree used beside the theorems: root 0; words 1 2 3 4 in this order; 2 and 4 depend on 1,
3 depends on 4 and 1 on the root. -/
def ex : Heap := runOps Heap.init
  [.newTree, .createChild 0, .createChild 1, .createChild 0, .createChild 1, .setParent 3 (some 4)]

section
variable {h : Heap} {r x y p : Nat}

/-- In a well-formed tree the child lists are determined by the parents and the word order. -/
theorem WF.children_eq (w : WF h r) {c : Nat} (hc : InTree h r c) :
    h.children c = (h.words r).filter (fun z => h.parent z = some c) := by
  apply sorted_ext (w.childSorted c hc) ((aligned_pairwise w.aligned).filter _)
  intro z
  rw [w.childIff c hc]
  simp

/-! ## C07 -/

/-- C07: after every history of edits, every tree is well formed. -/
theorem C07_history_wellformed (hh : Reachable h) (hr : IsTree h r) : WF h r :=
  inv_reachable hh r hr

/-- C07, spelled out for the values a user reads: `root.descendants` is the list of all words in word
order with `ord` 1..n; from every word, repeated `.parent` ends at the root; `.children` are the words
with this parent in word order. -/
theorem C07_history_reads (hh : Reachable h) (hr : IsTree h r) :
    descendants h r = some (h.words r) ∧
    (h.words r).map h.ord = List.range' 1 (h.words r).length ∧
    (∀ z ∈ h.words r, Anc h r z) ∧
    (∀ c, InTree h r c → h.children c = (h.words r).filter (fun z => h.parent z = some c)) := by
  have w := inv_reachable hh r hr
  exact ⟨by simp [descendants, isRoot, hr.2], w.ords, w.reach, fun c hc => w.children_eq hc⟩

theorem ex_reachable : Reachable ex := by
  unfold ex runOps
  simp only [List.foldl]
  refine .step (.setParent 3 (some 4)) (.step (.createChild 1) (.step (.createChild 0)
    (.step (.createChild 1) (.step (.createChild 0) (.step .newTree .init trivial) ?_) ?_) ?_) ?_) ?_
  · exact ⟨0, ⟨by decide, by decide⟩, Or.inl rfl⟩
  · exact ⟨0, ⟨by decide, by decide⟩, Or.inr (by decide)⟩
  · exact ⟨0, ⟨by decide, by decide⟩, Or.inl rfl⟩
  · exact ⟨0, ⟨by decide, by decide⟩, Or.inr (by decide)⟩
  · exact ⟨0, ⟨by decide, by decide⟩, Or.inr (by decide), Or.inr (by decide)⟩

example : Reachable ex ∧ IsTree ex 0 ∧ ex.words 0 = [1, 2, 3, 4] ∧ ex.children 1 = [2, 4] ∧
    ex.parent 3 = some 4 := ⟨ex_reachable, ⟨by decide, by decide⟩, by decide, by decide, by decide⟩

/-! ## C08 -/

/-- C08 (partial): an assignment of a parent from the same tree (or of `None`, or to the root) that
raises leaves the heap exactly as it was. Missing: parents from another tree, where it is false. -/
theorem C08_rejected_unchanged_partial (hh : Reachable h) (hr : IsTree h r) (hx : InTree h r x)
    (np : Option Nat) (hp : ∀ p, np = some p → InTree h r p) (e : Err)
    (he : (setParent h x np).2 = some e) : (setParent h x np).1 = h := by
  have w := inv_reachable hh r hr
  rcases hx with rfl | hx
  · rw [setParent_root hr]
  · cases np with
    | none => rw [setParent_none w hx]
    | some p =>
      have hpin := hp p rfl
      by_cases hc : p = x ∨ Anc h x p
      · rw [setParent_cycle w hr hx hpin hc]
      · obtain ⟨q, hq, _⟩ := w.parentIn x hx
        by_cases hqp : q = p
        · rw [setParent_same w hx (by rw [hq, hqp])]
        · rw [setParent_ok w hr hx hpin hq hqp (fun e' => hc (Or.inl e')) (fun e' => hc (Or.inr e'))]
            at he
          simp at he

example : (setParent ex 4 (some 3)).2 = some .cycleError ∧ (setParent ex 0 (some 1)).2 = some .attributeError ∧
    (setParent ex 1 none).2 = some .valueError := by decide

/-- C08 is violated: assigning a parent from another tree raises `ValueError` but removes the node from
the children of its parent, so the tree is no longer well formed. -/
theorem C08_rejected_unchanged_violated :
    ∃ (h : Heap) (x p : Nat), Reachable h ∧ (setParent h x (some p)).2 = some .valueError ∧
      (setParent h x (some p)).1.children 0 ≠ h.children 0 ∧ ¬ WF (setParent h x (some p)).1 0 := by
  refine ⟨runOps Heap.init [.newTree, .createChild 0, .newTree], 1, 2, ?_, by decide, by decide, ?_⟩
  · refine .step .newTree (.step (.createChild 0) (.step .newTree .init trivial) ?_) trivial
    exact ⟨0, ⟨by decide, by decide⟩, Or.inl rfl⟩
  · intro w
    have := (w.childIff 0 (Or.inl rfl) 1).2 (by decide)
    revert this
    decide

/-! ## C09 -/

/-- C09: within one tree, assigning a parent raises `CycleError` exactly if the new parent is the node
or one of its descendants; otherwise it succeeds. -/
theorem C09_cycleError_iff (hh : Reachable h) (hr : IsTree h r) (hx : x ∈ h.words r)
    (hp : InTree h r p) :
    ((setParent h x (some p)).2 = some .cycleError ↔ (p = x ∨ Anc h x p)) ∧
    (¬ (p = x ∨ Anc h x p) → (setParent h x (some p)).2 = none) := by
  have w := inv_reachable hh r hr
  by_cases hc : p = x ∨ Anc h x p
  · rw [setParent_cycle w hr hx hp hc]; simp [hc]
  · obtain ⟨q, hq, _⟩ := w.parentIn x hx
    by_cases hqp : q = p
    · rw [setParent_same w hx (by rw [hq, hqp])]; simp [hc]
    · rw [setParent_ok w hr hx hp hq hqp (fun e' => hc (Or.inl e')) (fun e' => hc (Or.inr e'))]
      simp [hc]

example : Anc ex 1 3 ∧ 1 ∈ ex.words 0 ∧ InTree ex 0 3 :=
  ⟨.step (p := 4) (by decide) (.parent (by decide)), by decide, Or.inr (by decide)⟩

/-! ## C10 -/

/-- C10: a successful assignment sets this one parent; all other parents, the word order, all ords and
everything outside the tree stay; the child lists are those given by the new parents in word order. -/
theorem C10_setParent_frame (hh : Reachable h) (hr : IsTree h r) (hx : x ∈ h.words r)
    (hp : InTree h r p) (hok : (setParent h x (some p)).2 = none) :
    let h' := (setParent h x (some p)).1
    h'.parent x = some p ∧ (∀ z, z ≠ x → h'.parent z = h.parent z) ∧
    h'.words = h.words ∧ h'.ord = h.ord ∧ h'.root = h.root ∧
    (∀ c, InTree h r c → h'.children c = (h.words r).filter (fun z => h'.parent z = some c)) ∧
    (∀ c, ¬ InTree h r c → h'.children c = h.children c) := by
  intro h'
  have w := inv_reachable hh r hr
  have hc : ¬ (p = x ∨ Anc h x p) := by
    intro hc
    have := (C09_cycleError_iff hh hr hx hp).1.2 hc
    rw [hok] at this
    simp at this
  obtain ⟨q, hq, hqin⟩ := w.parentIn x hx
  by_cases hqp : q = p
  · have he : h' = h := by
      show (setParent h x (some p)).1 = h
      rw [setParent_same w hx (by rw [hq, hqp])]
    rw [he]
    exact ⟨by rw [hq, hqp], fun _ _ => rfl, rfl, rfl, rfl, fun c hc => w.children_eq hc, fun _ _ => rfl⟩
  · have he : h' = reattach h x q p := by
      show (setParent h x (some p)).1 = _
      rw [setParent_ok w hr hx hp hq hqp (fun e' => hc (Or.inl e')) (fun e' => hc (Or.inr e'))]
    have w' := wf_reattach w hx hp hq hqp (fun e' => hc (Or.inl e')) (fun e' => hc (Or.inr e'))
    rw [he]
    refine ⟨by simp [reattach], fun z hz => upd_ne _ _ hz, rfl, rfl, rfl, fun c hc => ?_, fun c hc => ?_⟩
    · exact w'.children_eq hc
    · show upd (upd _ _ _) _ _ c = _
      rw [upd_ne _ _ (fun e => hc (by rw [e]; exact hp)), upd_ne _ _ (fun e => hc (by rw [e]; exact hqin))]

example : (setParent ex 4 (some 2)).2 = none ∧ ((setParent ex 4 (some 2)).1.children 1) = [2] ∧
    ((setParent ex 4 (some 2)).1.children 2) = [4] := by decide

/-! ## C11 -/

/-- C11: `create_child` appends one new word; nothing else changes. The new node is `h.next`. -/
theorem C11_createChild_frame (hh : Reachable h) (hr : IsTree h r) (hx : InTree h r x) :
    let h' := createChild h x
    let n := h.next
    ¬ InTree h r n ∧ h'.words r = h.words r ++ [n] ∧ h'.ord n = (h.words r).length + 1 ∧
    h'.parent n = some x ∧ h'.root n = r ∧ h'.children n = [] ∧ h'.children x = h.children x ++ [n] ∧
    (∀ z, z ≠ n → h'.parent z = h.parent z ∧ h'.ord z = h.ord z ∧ h'.root z = h.root z) ∧
    (∀ z, z ≠ n → z ≠ x → h'.children z = h.children z) ∧
    (∀ z, z ≠ r → h'.words z = h.words z) := by
  intro h' n
  have w := inv_reachable hh r hr
  have hroot := inTree_root w hr hx
  have hxn : x ≠ h.next := by have := inTree_lt w hr hx; omega
  refine ⟨fun hin => ?_, createChild_words hroot, ?_, ?_, ?_, createChild_children_new hxn,
    createChild_children_parent, ?_, ?_, ?_⟩
  · have : h.next < h.next := inTree_lt w hr hin
    omega
  · simp [h', n, createChild, hroot]
  · simp [h', n, createChild]
  · simp [h', n, createChild, hroot]
  · intro z hz
    exact ⟨upd_ne _ _ hz, upd_ne _ _ hz, upd_ne _ _ hz⟩
  · intro z hz hzx; exact createChild_children_old hz hzx
  · intro z hz
    show upd h.words (h.root x) _ z = _
    rw [hroot, upd_ne _ _ hz]

example : (createChild ex 4).words 0 = [1, 2, 3, 4, 5] ∧ (createChild ex 4).children 4 = [3, 5] := by decide

/-! ## C12, C13 -/

/-- C12: `remove()` leaves exactly the words that are neither the node nor its descendants, in the same
relative order, with the same parents, numbered 1..m; child lists follow; other trees are untouched. -/
theorem C12_remove_deletes_subtree (hh : Reachable h) (hr : IsTree h r) (hx : x ∈ h.words r) :
    let h' := (remove h x false).1
    (remove h x false).2 = none ∧
    (h'.words r).Sublist (h.words r) ∧
    (∀ z, z ∈ h'.words r ↔ (z ∈ h.words r ∧ z ≠ x ∧ ¬ Anc h x z)) ∧
    (h'.words r).map h'.ord = List.range' 1 (h'.words r).length ∧
    h'.parent = h.parent ∧ h'.root = h.root ∧
    (∀ c, InTree h' r c → h'.children c = (h'.words r).filter (fun z => h.parent z = some c)) ∧
    (∀ r', r' ≠ r → h'.words r' = h.words r') ∧
    (∀ z, ¬ InTree h r z → h'.ord z = h.ord z ∧ h'.children z = h.children z) := by
  intro h'
  have w := inv_reachable hh r hr
  obtain ⟨q, hq, hqin⟩ := w.parentIn x hx
  obtain ⟨W, o, he, hsub, hmem, hal, ho⟩ := remove_plain w hr hx hq
  have he1 : h' = pruned h r x q W o := by show (remove h x false).1 = _; rw [he]
  have w' := wf_pruned w hx hq hsub hmem hal ho
  have hw : (pruned h r x q W o).words r = W := by simp [pruned]
  rw [he1, he]
  refine ⟨rfl, by rw [hw]; exact hsub, by rw [hw]; exact hmem, w'.ords, rfl, rfl, ?_, ?_, ?_⟩
  · intro c hc; exact w'.children_eq hc
  · intro r' hne; exact upd_ne _ _ hne
  · intro z hz
    refine ⟨ho z (fun hm => hz (Or.inr ((hmem z).1 hm).1)), ?_⟩
    exact upd_ne _ _ (fun e => hz (by rw [e]; exact hqin))

example : ((remove ex 4 false).1.words 0) = [1, 2] ∧ ((remove ex 2 false).1.words 0) = [1, 3, 4] := by decide

/-- C13: `remove(children='rehang')` deletes one word; its children get its parent; all other parents
and the relative word order stay; words are renumbered. -/
theorem C13_remove_rehang (hh : Reachable h) (hr : IsTree h r) (hx : x ∈ h.words r) :
    let h' := (remove h x true).1
    (remove h x true).2 = none ∧
    h'.words r = (h.words r).filter (fun z => z ≠ x) ∧
    (h'.words r).map h'.ord = List.range' 1 (h'.words r).length ∧
    (∀ z ∈ h'.words r, h.parent z = some x → h'.parent z = h.parent x) ∧
    (∀ z ∈ h'.words r, h.parent z ≠ some x → h'.parent z = h.parent z) ∧
    (∀ c, InTree h' r c → h'.children c = (h'.words r).filter (fun z => h'.parent z = some c)) ∧
    (∀ r', r' ≠ r → h'.words r' = h.words r') ∧
    (∀ z, ¬ InTree h r z →
      h'.parent z = h.parent z ∧ h'.ord z = h.ord z ∧ h'.children z = h.children z) := by
  intro h'
  have w := inv_reachable hh r hr
  obtain ⟨q, hq, hqin⟩ := w.parentIn x hx
  obtain ⟨o, he, hal, ho⟩ := remove_rehang w hx hq
  have he1 : h' = spliced h r x q o := by show (remove h x true).1 = _; rw [he]
  have w' := wf_spliced w hx hq hal ho
  have hw : (spliced h r x q o).words r = (h.words r).erase x := by simp [spliced]
  rw [he1, he]
  refine ⟨rfl, ?_, w'.ords, ?_, ?_, ?_, ?_, ?_⟩
  · rw [hw, w.nodup.erase_eq_filter]
    congr 1
    funext z
    by_cases hzx : z = x <;> simp [hzx]
  · intro z hz hzp
    rw [hw] at hz
    have hzw := List.mem_of_mem_erase hz
    have := w.mem_children hzw hzp
    show (if z ∈ h.children x then some q else h.parent z) = h.parent x
    rw [if_pos this, hq]
  · intro z hz hzp
    show (if z ∈ h.children x then some q else h.parent z) = h.parent z
    rw [if_neg (fun hm => hzp (w.child_parent (Or.inr hx) hm))]
  · intro c hc; exact w'.children_eq hc
  · intro r' hne; exact upd_ne _ _ hne
  · intro z hz
    refine ⟨?_, ho z (fun hm => hz (Or.inr (List.mem_of_mem_erase hm))), ?_⟩
    · show (if z ∈ h.children x then some q else h.parent z) = h.parent z
      rw [if_neg (fun hm => hz (Or.inr (w.child_mem (Or.inr hx) hm)))]
    · show upd (upd _ _ _) _ _ z = _
      rw [upd_ne _ _ (fun e => hz (by rw [e]; exact Or.inr hx)), upd_ne _ _ (fun e => hz (by rw [e]; exact hqin))]

example : ((remove ex 4 true).1.words 0) = [1, 2, 3] ∧ ((remove ex 4 true).1.parent 3) = some 1 := by decide

/-! ## C56 -/

/-- C56 is violated: a second `remove()` of the same node raises `ValueError`, in every tree, for every
node and every mode (although the code provides for this case and means to ignore it). -/
theorem C56_second_remove_violated (hh : Reachable h) (hr : IsTree h r) (hx : x ∈ h.words r)
    (b b' : Bool) : (remove (remove h x b).1 x b').2 = some .valueError := by
  have w := inv_reachable hh r hr
  obtain ⟨q, hq, hqin⟩ := w.parentIn x hx
  have hqx : q ≠ x := by
    rintro rfl
    exact w.anc_irrefl hqin (.parent hq)
  cases b with
  | false =>
    obtain ⟨W, o, he, _⟩ := remove_plain w hr hx hq
    rw [he]
    have h1 : (pruned h r x q W o).parent x = some q := hq
    have h2 : x ∉ (pruned h r x q W o).children q := by
      show x ∉ upd h.children q _ q
      rw [upd_same, (w.children_nodup hqin).mem_erase_iff]
      simp
    unfold remove
    simp [h1, h2]
  | true =>
    obtain ⟨o, he, _⟩ := remove_rehang w hx hq
    rw [he]
    have hxc : x ∉ h.children x := fun hm => w.anc_irrefl (Or.inr hx) (.parent (w.child_parent (Or.inr hx) hm))
    have h1 : (spliced h r x q o).parent x = some q := by
      show (if x ∈ h.children x then some q else h.parent x) = some q
      rw [if_neg hxc, hq]
    have h2 : x ∉ (spliced h r x q o).children q := by
      show x ∉ upd (upd h.children q _) x _ q
      rw [upd_ne _ _ hqx, upd_same, mem_sortNodes, List.mem_append,
        (w.children_nodup hqin).mem_erase_iff]
      simp [hxc]
    unfold remove
    simp [h1, h2]

/-- C56 (partial): the refused second `remove()` changes nothing. Missing: it should not raise. -/
theorem C56_second_remove_unchanged_partial (hh : Reachable h) (hr : IsTree h r) (hx : x ∈ h.words r)
    (b b' : Bool) : (remove (remove h x b).1 x b').1 = (remove h x b).1 := by
  have he := C56_second_remove_violated hh hr hx b b'
  revert he
  generalize (remove h x b).1 = g
  unfold remove
  cases g.parent x with
  | none => simp
  | some q =>
    by_cases hm : x ∉ g.children q
    · simp [hm]
    · simp only [hm, if_false]
      repeat' split
      all_goals simp

/-! ## C14, C15 -/

/-- C14, for every call: the moved words form one block in their previous relative order, and all other
words keep their relative order. -/
theorem C14_shift_block (hh : Reachable h) (hr : IsTree h r) (hx : x ∈ h.words r) (hy : InTree h r y)
    (k : ShiftKind) (wc skip : Bool) (hok : (shift h k x y wc skip).2 = none)
    (hskip : ¬ (wc = false ∧ Anc h x y)) :
    ∃ L S R, (shift h k x y wc skip).1.words r = L ++ S ++ R ∧
      S.Sublist (h.words r) ∧ (∀ z, z ∈ S ↔ z ∈ h.words r ∧ Moving h x wc z) ∧
      (L ++ R).Sublist (h.words r) ∧ (∀ z, z ∈ L ++ R ↔ z ∈ h.words r ∧ ¬ Moving h x wc z) := by
  have w := inv_reachable hh r hr
  obtain ⟨q, hq, _⟩ := w.parentIn x hx
  rcases shift_cases w hr hx hy k wc skip with ⟨_, _, he⟩ | ⟨_, a, b, he⟩ | ⟨_, _, ref, _, h1, h2, he⟩
  · rw [he] at hok; simp at hok
  · exact absurd ⟨a, b⟩ hskip
  · obtain ⟨S, o, hS, he', _⟩ := shiftBeforeOrd_spec w hr hx hq h1 h2 wc
    refine ⟨_, S, _, by rw [he, he']; simp only [shifted, upd_same]; rfl, hS.1, hS.2, ?_, ?_⟩
    · rw [← List.filter_append, List.take_append_drop]; exact List.filter_sublist
    · intro z
      rw [← List.filter_append, List.take_append_drop, List.mem_filter]
      simp only [decide_eq_true_eq, hS.2 z, Moving]
      constructor
      · rintro ⟨a, b⟩; exact ⟨a, fun hm => b ⟨a, hm⟩⟩
      · rintro ⟨a, b⟩; exact ⟨a, fun hm => b hm.2⟩

/-- The words before position `ref` in a well-formed tree. -/
theorem WF.mem_take (w : WF h r) {ref z : Nat} (hz : z ∈ h.words r) :
    z ∈ (h.words r).take (ref - 1) ↔ h.ord z < ref := by
  have hg := w.get_ord hz
  have hp := w.ord_pos hz
  constructor
  · intro hm
    obtain ⟨i, hi, hiz⟩ := List.mem_iff_getElem.1 hm
    have hi' : i < ref - 1 := by simp at hi; omega
    have : (h.words r)[i]? = some z := by
      rw [← hiz, List.getElem_take]
      exact List.getElem?_eq_getElem _
    have := aligned_get w.aligned this
    omega
  · intro hlt
    apply List.mem_of_getElem? (i := h.ord z - 1)
    rw [List.getElem?_take_of_lt (by omega)]
    exact hg

theorem WF.mem_drop (w : WF h r) {ref z : Nat} (hz : z ∈ h.words r) :
    z ∈ (h.words r).drop (ref - 1) ↔ ref ≤ h.ord z := by
  have hn := w.nodup
  have ht := w.mem_take (ref := ref) hz
  rw [← List.take_append_drop (ref - 1) (h.words r), List.nodup_append] at hn
  constructor
  · intro hm
    apply Nat.le_of_not_lt
    intro hlt
    exact hn.2.2 z (ht.2 hlt) z hm rfl
  · intro hle
    have := hz
    rw [← List.take_append_drop (ref - 1) (h.words r)] at this
    rcases List.mem_append.1 this with hm | hm
    · have := ht.1 hm; omega
    · exact hm

/-- The last element of a list sorted by `f`. -/
theorem getLast?_of_max {f : Nat → Nat} {l : List Nat} (hl : l.Pairwise (fun a b => f a < f b)) {z : Nat}
    (hz : z ∈ l) (hmax : ∀ y ∈ l, f y ≤ f z) : l.getLast? = some z := by
  have hne : l ≠ [] := List.ne_nil_of_mem hz
  rw [List.getLast?_eq_some_getLast hne]
  congr 1
  have e := List.dropLast_concat_getLast hne
  rw [← e] at hl hz
  rcases List.mem_append.1 hz with hm | hm
  · have h1 := (List.pairwise_append.1 hl).2.2 z hm (l.getLast hne) (by simp)
    have h2 := hmax (l.getLast hne) (List.getLast_mem hne)
    omega
  · exact (List.mem_singleton.1 hm).symm

theorem head?_of_min {f : Nat → Nat} {l : List Nat} (hl : l.Pairwise (fun a b => f a < f b)) {z : Nat}
    (hz : z ∈ l) (hmin : ∀ y ∈ l, f z ≤ f y) : l.head? = some z := by
  cases l with
  | nil => simp at hz
  | cons a l =>
    rcases List.mem_cons.1 hz with rfl | hm
    · rfl
    · have h1 := (List.pairwise_cons.1 hl).1 z hm
      have h2 := hmin a (by simp)
      omega

/-- The reference position: the end (or the beginning) of the words referred to, when none of the words
that decide it moves. -/
theorem refOrd_extreme (w : WF h r) (hr : IsTree h r) (hy : InTree h r y) {k : ShiftKind} {wc : Bool}
    (hyx : y ≠ x) (hanc : ¬ (wc = false ∧ Anc h x y))
    (hsub : (k = .afterSubtree ∨ k = .beforeSubtree) → wc = true ∨ ¬ Anc h y x) {ref : Nat}
    (href : refOrd h k x y = some ref) :
    ∃ z, RefWord h k y z ∧ InTree h r z ∧ ¬ Moving h x wc z ∧
      ((IsAfter k ∧ ref = h.ord z + 1 ∧
        ∀ z', InTree h r z' → RefWord h k y z' → ¬ Moving h x wc z' → h.ord z' ≤ h.ord z) ∨
       (¬ IsAfter k ∧ ref = h.ord z ∧
        ∀ z', InTree h r z' → RefWord h k y z' → ¬ Moving h x wc z' → h.ord z ≤ h.ord z')) := by
  have hyM : ¬ Moving h x wc y := by
    rintro (e | e)
    · exact hyx e
    · exact hanc e
  -- no descendant of the reference other than the node itself moves
  have hdM : (k = .afterSubtree ∨ k = .beforeSubtree) → ∀ z, Anc h y z → z ≠ x → ¬ Moving h x wc z := by
    intro hk z hz hzx
    rintro (e | ⟨hwc, e⟩)
    · exact hzx e
    · rcases hsub hk with h' | h'
      · rw [h'] at hwc; simp at hwc
      · rcases anc_linear hz e with e' | e' | e'
        · exact hyx e'
        · exact h' e'
        · exact hanc ⟨hwc, e'⟩
  obtain ⟨ds, hds, _, hm⟩ := w.unorderedDescendants_eq hr.1 hy
  cases k with
  | afterNode =>
    simp only [refOrd, Option.some.injEq] at href
    refine ⟨y, Or.inl rfl, hy, hyM, Or.inl ⟨Or.inl rfl, href.symm, ?_⟩⟩
    rintro z' _ (rfl | ⟨hk, _⟩) _
    · exact Nat.le_refl _
    · simp at hk
  | beforeNode =>
    simp only [refOrd, Option.some.injEq] at href
    refine ⟨y, Or.inl rfl, hy, hyM, Or.inr ⟨by simp [IsAfter], href.symm, ?_⟩⟩
    rintro z' _ (rfl | ⟨hk, _⟩) _
    · exact Nat.le_refl _
    · simp at hk
  | afterSubtree =>
    simp only [refOrd, hds, Option.map_some, Option.some.injEq] at href
    obtain ⟨m1, m2, m3⟩ := maxOrd_spec h.ord x ds (h.ord y)
    have hall : ∀ z', InTree h r z' → RefWord h .afterSubtree y z' → ¬ Moving h x wc z' →
        h.ord z' ≤ maxOrd h.ord x (h.ord y) ds := by
      rintro z' hz' (rfl | ⟨_, ha⟩) hmv
      · exact m1
      · exact m2 z' ((hm z').2 ⟨w.word_of_anc hz' ha, ha⟩) (fun e => hmv (Or.inl e))
    rcases m3 with m3 | ⟨z, hz, hzx, m3⟩
    · refine ⟨y, Or.inl rfl, hy, hyM, Or.inl ⟨Or.inr rfl, by omega, ?_⟩⟩
      rw [m3] at hall; exact hall
    · have hz' := (hm z).1 hz
      refine ⟨z, Or.inr ⟨Or.inl rfl, hz'.2⟩, Or.inr hz'.1, hdM (Or.inl rfl) z hz'.2 hzx,
        Or.inl ⟨Or.inr rfl, by omega, ?_⟩⟩
      rw [m3] at hall; exact hall
  | beforeSubtree =>
    simp only [refOrd, hds, Option.map_some, Option.some.injEq] at href
    obtain ⟨m1, m2, m3⟩ := minOrd_spec h.ord x ds (h.ord y)
    have hall : ∀ z', InTree h r z' → RefWord h .beforeSubtree y z' → ¬ Moving h x wc z' →
        minOrd h.ord x (h.ord y) ds ≤ h.ord z' := by
      rintro z' hz' (rfl | ⟨_, ha⟩) hmv
      · exact m1
      · exact m2 z' ((hm z').2 ⟨w.word_of_anc hz' ha, ha⟩) (fun e => hmv (Or.inl e))
    rcases m3 with m3 | ⟨z, hz, hzx, m3⟩
    · refine ⟨y, Or.inl rfl, hy, hyM, Or.inr ⟨by simp [IsAfter], by omega, ?_⟩⟩
      rw [m3] at hall; exact hall
    · have hz' := (hm z).1 hz
      refine ⟨z, Or.inr ⟨Or.inr rfl, hz'.2⟩, Or.inr hz'.1, hdM (Or.inr rfl) z hz'.2 hzx,
        Or.inr ⟨by simp [IsAfter], by omega, ?_⟩⟩
      rw [m3] at hall; exact hall

/-- C14 (partial): the block of moved words stands immediately after (before) the reference word or
subtree, counting only words that did not move and the root as the zeroth word. Missing: a node moved
with its subtree after or before a subtree that contains it, where this is false; a node shifted relative
to itself; a skipped call (`skip_if_descendant` with a descendant as the reference), which moves nothing. -/
theorem C14_shift_position_partial (hh : Reachable h) (hr : IsTree h r) (hx : x ∈ h.words r)
    (hy : InTree h r y) (k : ShiftKind) (wc skip : Bool) (hok : (shift h k x y wc skip).2 = none)
    (hyx : y ≠ x) (hskip : ¬ (wc = false ∧ Anc h x y))
    (hsub : (k = .afterSubtree ∨ k = .beforeSubtree) → wc = true ∨ ¬ Anc h y x) :
    ∃ L S R, (shift h k x y wc skip).1.words r = L ++ S ++ R ∧
      (∀ z, z ∈ S ↔ z ∈ h.words r ∧ Moving h x wc z) ∧
      (IsAfter k → (∃ z, (r :: L).getLast? = some z ∧ RefWord h k y z) ∧ ∀ z ∈ R, ¬ RefWord h k y z) ∧
      (¬ IsAfter k → (∃ z, R.head? = some z ∧ RefWord h k y z) ∧ ∀ z ∈ L, ¬ RefWord h k y z) := by
  have w := inv_reachable hh r hr
  obtain ⟨q, hq, _⟩ := w.parentIn x hx
  rcases shift_cases w hr hx hy k wc skip with ⟨_, _, he⟩ | ⟨_, a, b, he⟩ |
    ⟨hnr, _, ref, href, h1, h2, he⟩
  · rw [he] at hok; simp at hok
  · exact absurd ⟨a, b⟩ hskip
  · obtain ⟨S, o, hS, he', _⟩ := shiftBeforeOrd_spec w hr hx hq h1 h2 wc
    obtain ⟨z, hz1, hz2, hz3, hz4⟩ := refOrd_extreme w hr hy hyx hskip hsub href
    have hzS : z ∉ S := fun hm => hz3 ((hS.2 z).1 hm).2
    have hsort := aligned_pairwise w.aligned
    refine ⟨_, S, _, by rw [he, he']; simp only [shifted, upd_same]; rfl, hS.2, ?_, ?_⟩
    · intro hk
      rcases hz4 with ⟨_, hz4, hz5⟩ | ⟨hk', _⟩
      · constructor
        · refine ⟨z, ?_, hz1⟩
          rcases hz2 with rfl | hz2
          · have : ref - 1 = 0 := by rw [hz4, w.rootOrd]
            rw [this]; simp
          · have : (((h.words r).take (ref - 1)).filter (fun y => y ∉ S)).getLast? = some z := by
              apply getLast?_of_max (f := h.ord)
              · exact (hsort.sublist (List.take_sublist _ _)).filter _
              · rw [List.mem_filter]
                exact ⟨(w.mem_take hz2).2 (by omega), by simpa using hzS⟩
              · intro y' hy'
                have h3 := (List.mem_filter.1 hy').1
                have := (w.mem_take (List.mem_of_mem_take h3)).1 h3
                omega
            rw [List.getLast?_cons, this]
            rfl
        · intro z' hz' hrw
          rw [List.mem_filter] at hz'
          have h3 := List.mem_of_mem_drop hz'.1
          have h4 := (w.mem_drop h3).1 hz'.1
          have h5 := hz5 z' (Or.inr h3) hrw (fun hm => by
            have : z' ∈ S := (hS.2 z').2 ⟨h3, hm⟩
            simp [this] at hz')
          omega
      · exact absurd hk hk'
    · intro hk
      rcases hz4 with ⟨hk', _⟩ | ⟨_, hz4, hz5⟩
      · exact absurd hk' hk
      · have hzw : z ∈ h.words r := by
          rcases hz2 with rfl | hz2
          · have := w.rootOrd; omega
          · exact hz2
        constructor
        · refine ⟨z, ?_, hz1⟩
          apply head?_of_min (f := h.ord)
          · exact (hsort.sublist (List.drop_sublist _ _)).filter _
          · rw [List.mem_filter]
            exact ⟨(w.mem_drop hzw).2 (by omega), by simpa using hzS⟩
          · intro y' hy'
            have h3 := (List.mem_filter.1 hy').1
            have := (w.mem_drop (List.mem_of_mem_drop h3)).1 h3
            omega
        · intro z' hz' hrw
          rw [List.mem_filter] at hz'
          have h3 := List.mem_of_mem_take hz'.1
          have h4 := (w.mem_take h3).1 hz'.1
          have h5 := hz5 z' (Or.inr h3) hrw (fun hm => by
            have : z' ∈ S := (hS.2 z').2 ⟨h3, hm⟩
            simp [this] at hz')
          omega

/-- C14 for `shift_after_node` and `shift_before_node`: the block of moved words stands immediately
after (before) the reference node among the words that did not move. -/
theorem C14_shift_node_position (hh : Reachable h) (hr : IsTree h r) (hx : x ∈ h.words r)
    (hy : InTree h r y) (wc skip : Bool) (hyx : y ≠ x) (hskip : ¬ (wc = false ∧ Anc h x y)) :
    (∃ L S R, (shift h .afterNode x y wc skip).1.words r = L ++ S ++ R ∧
      (∀ z, z ∈ S ↔ z ∈ h.words r ∧ Moving h x wc z) ∧ (r :: L).getLast? = some y) ∧
    (y ≠ r → ∃ L S R, (shift h .beforeNode x y wc skip).1.words r = L ++ S ++ R ∧
      (∀ z, z ∈ S ↔ z ∈ h.words r ∧ Moving h x wc z) ∧ R.head? = some y) := by
  have w := inv_reachable hh r hr
  have hok : ∀ k, (k = .beforeNode → y ≠ r) → (k = .beforeSubtree → y ≠ r) →
      (shift h k x y wc skip).2 = none := by
    intro k hk hk'
    obtain ⟨q, hq, _⟩ := w.parentIn x hx
    rcases shift_cases w hr hx hy k wc skip with ⟨a, b, he⟩ | ⟨_, a, b, he⟩ |
      ⟨hnr, _, ref, href, h1, h2, he⟩
    · rcases a with a | a
      · exact absurd b (hk a)
      · exact absurd b (hk' a)
    · exact absurd ⟨a, b⟩ hskip
    · obtain ⟨S, o, hS, he', _⟩ := shiftBeforeOrd_spec w hr hx hq h1 h2 wc
      rw [he, he']
  constructor
  · obtain ⟨L, S, R, a, b, c, _⟩ := C14_shift_position_partial hh hr hx hy .afterNode wc skip
      (hok _ (by simp) (by simp)) hyx hskip (by simp)
    obtain ⟨⟨z, hz, hzr⟩, _⟩ := c (Or.inl rfl)
    rcases hzr with rfl | ⟨hk, _⟩
    · exact ⟨L, S, R, a, b, hz⟩
    · simp at hk
  · intro hyr
    obtain ⟨L, S, R, a, b, _, c⟩ := C14_shift_position_partial hh hr hx hy .beforeNode wc skip
      (hok _ (fun _ => hyr) (by simp)) hyx hskip (by simp)
    obtain ⟨⟨z, hz, hzr⟩, _⟩ := c (by simp [IsAfter])
    rcases hzr with rfl | ⟨hk, _⟩
    · exact ⟨L, S, R, a, b, hz⟩
    · simp at hk

example : ((shift ex .afterNode 4 1 false false).1.words 0) = [1, 3, 4, 2] ∧
    ((shift ex .beforeSubtree 2 4 true false).1.words 0) = [1, 2, 3, 4] ∧
    ((shift ex .afterSubtree 2 4 true false).1.words 0) = [1, 3, 4, 2] := by decide

/-- The tree of the next theorem: words 1 2 3 4, with 2 under 1, 4 under 2, and 3 and 1 under the root. -/
def ex2 : Heap := runOps Heap.init
  [.newTree, .createChild 0, .createChild 1, .createChild 0, .createChild 2]

/-- C14 is violated: `shift_after_subtree` with the reference an ancestor of the node. In 1 2 3 4 with
2 under 1, 4 under 2 and 3 outside the subtree of 1, moving 2 (with 4) after the subtree of 1 gives
1 3 2 4: the block follows 3, which is outside the reference subtree. -/
theorem C14_shift_after_subtree_violated :
    Reachable ex2 ∧ IsTree ex2 0 ∧ (shift ex2 .afterSubtree 2 1 false false).2 = none ∧
      (shift ex2 .afterSubtree 2 1 false false).1.words 0 = [1, 3, 2, 4] ∧
      (∀ z ∈ ex2.words 0, Moving ex2 2 false z ↔ z = 2 ∨ z = 4) ∧ ¬ RefWord ex2 .afterSubtree 1 3 := by
  have hreach : Reachable ex2 := by
    unfold ex2 runOps
    simp only [List.foldl]
    refine .step (.createChild 2) (.step (.createChild 0)
      (.step (.createChild 1) (.step (.createChild 0) (.step .newTree .init trivial) ?_) ?_) ?_) ?_
    · exact ⟨0, ⟨by decide, by decide⟩, Or.inl rfl⟩
    · exact ⟨0, ⟨by decide, by decide⟩, Or.inr (by decide)⟩
    · exact ⟨0, ⟨by decide, by decide⟩, Or.inl rfl⟩
    · exact ⟨0, ⟨by decide, by decide⟩, Or.inr (by decide)⟩
  have htree : IsTree ex2 0 := ⟨by decide, by decide⟩
  have w := inv_reachable hreach 0 htree
  refine ⟨hreach, htree, by decide, by decide, ?_, ?_⟩
  · intro z hz
    obtain ⟨b, hb, hbi⟩ := w.isDescendantOf_eq htree (x := z) (a := 2) (Or.inr hz) (Or.inr (by decide))
    have hz' : z = 1 ∨ z = 2 ∨ z = 3 ∨ z = 4 := by
      have : ex2.words 0 = [1, 2, 3, 4] := by decide
      rw [this] at hz; simpa using hz
    unfold Moving
    rw [← hbi]
    rcases hz' with rfl | rfl | rfl | rfl
    · have : isDescendantOf ex2 1 2 = some false := by decide
      rw [this] at hb; cases hb; simp
    · simp
    · have : isDescendantOf ex2 3 2 = some false := by decide
      rw [this] at hb; cases hb; simp
    · have : isDescendantOf ex2 4 2 = some true := by decide
      rw [this] at hb; cases hb; simp
  · rintro (e | ⟨_, e⟩)
    · simp at e
    · obtain ⟨b, hb, hbi⟩ := w.isDescendantOf_eq htree (x := 3) (a := 1) (Or.inr (by decide))
        (Or.inr (by decide))
      have : isDescendantOf ex2 3 1 = some false := by decide
      rw [this] at hb
      cases hb
      exact absurd (hbi.2 e) (by simp)

/-- C15 (partial): a shift call on a word with a reference node of the same tree never changes a parent,
and such a call that raises changes nothing. Missing: reference nodes of other trees, where the second
part is false (`C15_shift_other_tree_violated`). -/
theorem C15_shift_structure_partial (hh : Reachable h) (hr : IsTree h r) (hx : x ∈ h.words r)
    (hy : InTree h r y) (k : ShiftKind) (wc skip : Bool) :
    (shift h k x y wc skip).1.parent = h.parent ∧ (shift h k x y wc skip).1.root = h.root ∧
    (∀ c z, z ∈ (shift h k x y wc skip).1.children c ↔ z ∈ h.children c) ∧
    (∀ e, (shift h k x y wc skip).2 = some e → e = .valueError ∧ (shift h k x y wc skip).1 = h) := by
  have w := inv_reachable hh r hr
  obtain ⟨q, hq, _⟩ := w.parentIn x hx
  rcases shift_cases w hr hx hy k wc skip with ⟨_, _, he⟩ | ⟨_, a, b, he⟩ | ⟨_, _, ref, _, h1, h2, he⟩
  · rw [he]; simp
  · rw [he]; cases skip <;> simp
  · obtain ⟨S, o, hS, he', _⟩ := shiftBeforeOrd_spec w hr hx hq h1 h2 wc
    rw [he, he']
    refine ⟨rfl, rfl, ?_, by simp⟩
    intro c z
    show z ∈ upd h.children q _ c ↔ _
    by_cases hc : c = q
    · subst hc; rw [upd_same, mem_sortNodes]
    · rw [upd_ne _ _ hc]

example : (shift ex .afterNode 1 3 false false).2 = some .valueError ∧
    (shift ex .beforeNode 1 0 true false).2 = some .valueError := by decide

/-! ## C16 -/

/-- C16: `node.descendants` are the words from which parent links lead to the node, each once, in word
order; `unordered_descendants` the same without the order; `is_descendant_of` agrees. -/
theorem C16_descendants (hh : Reachable h) (hr : IsTree h r) (hx : InTree h r x) :
    (∃ ds, descendants h x = some ds ∧ ds.Sublist (h.words r) ∧ ds.Nodup ∧
      ∀ z, z ∈ ds ↔ z ∈ h.words r ∧ Anc h x z) ∧
    (∃ ds, unorderedDescendants h x = some ds ∧ ds.Nodup ∧ ∀ z, z ∈ ds ↔ z ∈ h.words r ∧ Anc h x z) ∧
    (∀ y, InTree h r y → ∃ b, isDescendantOf h y x = some b ∧ (b = true ↔ Anc h x y)) := by
  have w := inv_reachable hh r hr
  refine ⟨?_, w.unorderedDescendants_eq hr.1 hx, fun y hy => w.isDescendantOf_eq hr hy hx⟩
  obtain ⟨ds, h1, h2, h3⟩ := w.descendants_eq hr hx
  refine ⟨ds, h1, ?_, pairwise_ord_nodup h2, h3⟩
  rw [← filter_of_sorted h2 (aligned_pairwise w.aligned) (fun y hy => ((h3 y).1 hy).1)]
  exact List.filter_sublist

example : descendants ex 1 = some [2, 3, 4] ∧ isDescendantOf ex 3 1 = some true ∧
    isDescendantOf ex 1 3 = some false := by decide

/-! ## C17 -/

/-- `nodes(...)` on a list in word order that does not contain the origin. -/
theorem callList_spec (w : WF h r) {items : List Nat} (hx : InTree h r x)
    (hin : ∀ z ∈ items, z ∈ h.words r) (hs : items.Pairwise (fun a b => h.ord a < h.ord b))
    (hnot : x ∉ items) (addSelf fol pre : Bool) :
    (callList h.ord items x addSelf fol pre).2.Pairwise (fun a b => h.ord a < h.ord b) ∧
    ∀ z, z ∈ (callList h.ord items x addSelf fol pre).2 ↔
      (z ∈ items ∨ (addSelf = true ∧ z = x)) ∧
      (pre = true → z = x ∨ h.ord z < h.ord x) ∧
      (pre = false → fol = true → z = x ∨ h.ord x < h.ord z) := by
  have hinT : ∀ z ∈ items ++ [x], InTree h r z := by
    intro z hz
    rcases List.mem_append.1 hz with hz | hz
    · exact Or.inr (hin z hz)
    · rw [List.mem_singleton.1 hz]; exact hx
  have key : ∀ l : List Nat, l.Pairwise (fun a b => h.ord a < h.ord b) →
      (∀ z, z ∈ l ↔ (z ∈ items ∨ (addSelf = true ∧ z = x))) →
      (callList h.ord items x addSelf fol pre).2 =
        (if pre then l.filter (fun y => h.ord y ≤ h.ord x)
          else if fol then l.filter (fun y => h.ord x ≤ h.ord y) else l) →
      (callList h.ord items x addSelf fol pre).2.Pairwise (fun a b => h.ord a < h.ord b) ∧
      ∀ z, z ∈ (callList h.ord items x addSelf fol pre).2 ↔
        (z ∈ items ∨ (addSelf = true ∧ z = x)) ∧
        (pre = true → z = x ∨ h.ord z < h.ord x) ∧
        (pre = false → fol = true → z = x ∨ h.ord x < h.ord z) := by
    intro l hl hm he
    have hne : ∀ z, z ∈ l → h.ord z = h.ord x → z = x := by
      intro z hz hzx
      apply w.ord_inj _ hx hzx
      rcases (hm z).1 hz with hz | ⟨_, rfl⟩
      · exact Or.inr (hin z hz)
      · exact hx
    rw [he]
    cases pre with
    | true =>
      simp only [if_true]
      refine ⟨hl.filter _, ?_⟩
      intro z
      simp only [List.mem_filter, decide_eq_true_eq, ← hm z]
      constructor
      · rintro ⟨a, b⟩
        refine ⟨a, fun _ => ?_, by simp⟩
        by_cases hzx : h.ord z = h.ord x
        · exact Or.inl (hne z a hzx)
        · right; omega
      · rintro ⟨a, b, _⟩
        refine ⟨a, ?_⟩
        rcases b trivial with rfl | b
        · exact Nat.le_refl _
        · omega
    | false =>
      cases fol with
      | true =>
        simp only [if_true, if_false, Bool.false_eq_true]
        refine ⟨hl.filter _, ?_⟩
        intro z
        simp only [List.mem_filter, decide_eq_true_eq, ← hm z]
        constructor
        · rintro ⟨a, b⟩
          refine ⟨a, by simp, fun _ _ => ?_⟩
          by_cases hzx : h.ord z = h.ord x
          · exact Or.inl (hne z a hzx)
          · right; omega
        · rintro ⟨a, _, b⟩
          refine ⟨a, ?_⟩
          rcases b trivial trivial with rfl | b
          · exact Nat.le_refl _
          · omega
      | false =>
        simp only [if_false, Bool.false_eq_true]
        refine ⟨hl, ?_⟩
        intro z
        simp [← hm z]
  cases addSelf with
  | false => exact key items hs (by simp) rfl
  | true =>
    refine key (sortNodes h.ord (items ++ [x])) ?_ ?_ rfl
    · apply sortNodes_pairwise
      · rw [List.nodup_append]
        refine ⟨pairwise_ord_nodup hs, by simp, ?_⟩
        intro a ha b hb hab
        rw [List.mem_singleton] at hb
        subst hb hab
        exact hnot ha
      · intro a ha b hb hab
        exact w.ord_inj (hinT a ha) (hinT b hb) hab
    · intro z; rw [mem_sortNodes]; simp

/-- C17 for `node.children(...)`: exactly the children (and the node if `add_self`) before or at
(after or at) the node, in word order. If both filters are given, `preceding_only` wins. -/
theorem C17_children_call (hh : Reachable h) (hr : IsTree h r) (hx : InTree h r x)
    (addSelf fol pre : Bool) :
    let res := (callList h.ord (h.children x) x addSelf fol pre).2
    res.Pairwise (fun a b => h.ord a < h.ord b) ∧
    ∀ z, z ∈ res ↔ ((z ∈ h.words r ∧ h.parent z = some x) ∨ (addSelf = true ∧ z = x)) ∧
      (pre = true → z = x ∨ h.ord z < h.ord x) ∧
      (pre = false → fol = true → z = x ∨ h.ord x < h.ord z) := by
  have w := inv_reachable hh r hr
  have := callList_spec w hx (fun z hz => w.child_mem hx hz) (w.childSorted x hx)
    (fun hm => w.anc_irrefl hx (.parent (w.child_parent hx hm))) addSelf fol pre
  simpa only [w.childIff x hx] using this

/-- C17 for `node.descendants(...)`. -/
theorem C17_descendants_call (hh : Reachable h) (hr : IsTree h r) (hx : InTree h r x)
    (addSelf fol pre : Bool) :
    ∃ ds, descendants h x = some ds ∧
    let res := (callList h.ord ds x addSelf fol pre).2
    res.Pairwise (fun a b => h.ord a < h.ord b) ∧
    ∀ z, z ∈ res ↔ ((z ∈ h.words r ∧ Anc h x z) ∨ (addSelf = true ∧ z = x)) ∧
      (pre = true → z = x ∨ h.ord z < h.ord x) ∧
      (pre = false → fol = true → z = x ∨ h.ord x < h.ord z) := by
  have w := inv_reachable hh r hr
  obtain ⟨ds, h1, h2, h3⟩ := w.descendants_eq hr hx
  refine ⟨ds, h1, ?_⟩
  have := callList_spec w hx (fun z hz => ((h3 z).1 hz).1) h2
    (fun hm => w.anc_irrefl hx ((h3 x).1 hm).2) addSelf fol pre
  simpa only [h3] using this

/-- C17 for `node.siblings(...)`. -/
theorem C17_siblings_call (hh : Reachable h) (hr : IsTree h r) (hx : x ∈ h.words r)
    (addSelf fol pre : Bool) :
    ∃ ss, siblings h x = some ss ∧
    let res := (callList h.ord ss x addSelf fol pre).2
    res.Pairwise (fun a b => h.ord a < h.ord b) ∧
    ∀ z, z ∈ res ↔ ((z ∈ h.words r ∧ h.parent z = h.parent x ∧ z ≠ x) ∨ (addSelf = true ∧ z = x)) ∧
      (pre = true → z = x ∨ h.ord z < h.ord x) ∧
      (pre = false → fol = true → z = x ∨ h.ord x < h.ord z) := by
  have w := inv_reachable hh r hr
  obtain ⟨q, hq, hqin⟩ := w.parentIn x hx
  refine ⟨(h.children q).filter (fun y => y ≠ x), by simp only [siblings, hq, Option.map_some], ?_⟩
  have hm : ∀ z, z ∈ (h.children q).filter (fun y => decide (y ≠ x)) ↔
      z ∈ h.words r ∧ h.parent z = h.parent x ∧ z ≠ x := by
    intro z
    rw [List.mem_filter, w.childIff q hqin, hq]
    simp only [decide_eq_true_eq, and_assoc]
  have := callList_spec w (x := x) (Or.inr hx) (fun z hz => ((hm z).1 hz).1)
    ((w.childSorted q hqin).filter _) (fun hmm => ((hm x).1 hmm).2.2 rfl) addSelf fol pre
  simpa only [hm, hq] using this

example : (callList ex.ord (ex.children 1) 1 true false false).2 = [1, 2, 4] ∧
    (callList ex.ord (ex.children 4) 4 true false true).2 = [3, 4] ∧
    siblings ex 2 = some [4] := by decide

/-! ## C18 -/

/-- C18: `next_node` and `prev_node` are inverse on the nodes of a tree (the root is the zeroth word);
the root has no `prev_node` and the last node no `next_node`. -/
theorem C18_prev_next (hh : Reachable h) (hr : IsTree h r) :
    (∀ x y, InTree h r x → InTree h r y → (nextNode h x = some y ↔ prevNode h y = some x)) ∧
    (∀ x, InTree h r x → (prevNode h x = none ↔ x = r)) ∧
    (∀ x, InTree h r x → (nextNode h x = none ↔ (r :: h.words r).getLast? = some x)) := by
  have w := inv_reachable hh r hr
  have hnext : ∀ x y, InTree h r x → (nextNode h x = some y ↔ y ∈ h.words r ∧ h.ord y = h.ord x + 1) := by
    intro x y hx
    unfold nextNode
    rw [inTree_root w hr hx]
    constructor
    · intro hg
      have := aligned_get w.aligned hg
      exact ⟨List.mem_of_getElem? hg, by omega⟩
    · rintro ⟨hy, ho⟩
      have := w.get_ord hy
      rw [ho, Nat.add_sub_cancel] at this
      exact this
  have hprev : ∀ x y, InTree h r y → InTree h r x → (prevNode h y = some x ↔ h.ord y = h.ord x + 1) := by
    intro x y hy hx
    unfold prevNode
    rw [inTree_root w hr hy]
    by_cases h0 : h.ord y = 0
    · simp [h0]
    · rw [if_neg h0]
      by_cases h1 : h.ord y = 1
      · rw [if_pos h1]
        constructor
        · intro e; cases e; rw [w.rootOrd]; omega
        · intro e
          congr 1
          apply w.ord_inj (Or.inl rfl) hx
          rw [w.rootOrd]; omega
      · rw [if_neg h1]
        constructor
        · intro hg
          have := aligned_get w.aligned hg
          omega
        · intro e
          have hxw : x ∈ h.words r := by
            rcases hx with rfl | hx
            · have := w.rootOrd; omega
            · exact hx
          have := w.get_ord hxw
          rw [show h.ord y - 2 = h.ord x - 1 by omega]
          exact this
  have hwlen : ∀ x, InTree h r x → h.ord x ≤ (h.words r).length := fun x hx => ord_le_of_inTree w hx
  refine ⟨?_, ?_, ?_⟩
  · intro x y hx hy
    rw [hnext x y hx, hprev x y hy hx]
    constructor
    · exact fun h' => h'.2
    · intro e
      refine ⟨?_, e⟩
      rcases hy with rfl | hy
      · have := w.rootOrd; omega
      · exact hy
  · intro x hx
    constructor
    · intro hp
      rcases hx with rfl | hxw
      · rfl
      · exfalso
        have hpos := w.ord_pos hxw
        have hle := w.ord_le hxw
        unfold prevNode at hp
        rw [if_neg (by omega)] at hp
        split at hp
        · simp at hp
        · rw [w.rootOf x hxw, List.getElem?_eq_none_iff] at hp
          omega
    · rintro rfl
      simp [prevNode, w.rootOrd]
  · intro x hx
    have hlast : (r :: h.words r).getLast? = some x ↔ h.ord x = (h.words r).length := by
      have hps : (r :: h.words r).Pairwise (fun a b => h.ord a < h.ord b) := by
        rw [List.pairwise_cons]
        refine ⟨fun z hz => ?_, aligned_pairwise w.aligned⟩
        have := w.ord_pos hz
        rw [w.rootOrd]; omega
      have hmx : x ∈ r :: h.words r := by
        rcases hx with rfl | hx
        · simp
        · simp [hx]
      constructor
      · intro hg
        rcases List.eq_nil_or_concat (h.words r) with hnil | ⟨l, b, hb⟩
        · rw [hnil] at hg ⊢
          simp only [List.getLast?_singleton, Option.some.injEq] at hg
          rw [← hg, w.rootOrd]; rfl
        · rw [List.concat_eq_append] at hb
          have e : (r :: h.words r).getLast? = some b := by
            rw [hb, ← List.cons_append, List.getLast?_append]; rfl
          rw [e] at hg
          cases hg
          have ha := w.aligned
          rw [hb] at ha
          have := (aligned_cons.1 (aligned_append.1 ha).2).1
          rw [hb, this]; simp; omega
      · intro ho
        apply getLast?_of_max hps hmx
        intro y hy
        rw [ho]
        rcases List.mem_cons.1 hy with rfl | hy
        · rw [w.rootOrd]; omega
        · exact w.ord_le hy
    rw [hlast]
    unfold nextNode
    rw [inTree_root w hr hx, List.getElem?_eq_none_iff]
    have := hwlen x hx
    omega

/-- Following `next_node` from `x`, at most `n` times. -/
def follow (h : Heap) : Nat → Nat → List Nat
  | 0, _ => []
  | n + 1, x => match nextNode h x with
    | none => []
    | some y => y :: follow h n y

/-- C18: repeated `next_node` from the root enumerates the words in word order and then stops. -/
theorem C18_enumerates (hh : Reachable h) (hr : IsTree h r) (n : Nat) (hn : (h.words r).length < n) :
    follow h n r = h.words r := by
  have w := inv_reachable hh r hr
  have key : ∀ (n : Nat) (A B : List Nat) (x : Nat), h.words r = A ++ B → InTree h r x →
      h.ord x = A.length → B.length < n → follow h n x = B := by
    intro n
    induction n with
    | zero => intro A B x _ _ _ hl; omega
    | succ n ih =>
      intro A B x hW hx ho hl
      unfold follow
      have hnx : nextNode h x = B.head? := by
        unfold nextNode
        rw [inTree_root w hr hx, hW, ho, List.getElem?_append_right (Nat.le_refl _), Nat.sub_self,
          List.head?_eq_getElem?]
      rw [hnx]
      cases B with
      | nil => rfl
      | cons b B =>
        simp only [List.head?_cons]
        congr 1
        apply ih (A ++ [b]) B b (by rw [hW]; simp)
        · right; rw [hW]; simp
        · have ha := w.aligned
          rw [hW] at ha
          have := (aligned_cons.1 (aligned_append.1 ha).2).1
          rw [this]; simp; omega
        · simp at hl; omega
  exact key n [] (h.words r) r rfl (Or.inl rfl) w.rootOrd hn

example : nextNode ex 0 = some 1 ∧ prevNode ex 1 = some 0 ∧ nextNode ex 4 = none ∧
    follow ex 5 0 = [1, 2, 3, 4] := by decide

end
end Verif.Tree
