import Verif.Tree.TreeletAny
import Verif.Py.Sort

/-!
# Property C143: `corefud.SingleParent`

Source: `udapi/block/corefud/singleparent.py`. The dependencies of an empty node are pairs of a parent and a relation; `isEmpty` says which
parents are empty nodes. The counters and warnings are left out.
-/

namespace Verif.Deps.SingleParent
open Verif.Py Verif.Tree Verif.Tree.TreeletAny

abbrev Dep := Nat × Str

/-- `[d for d in empty.deps if d['parent'] is p]` -/
def keep (deps : List Dep) (p : Nat) : List Dep := deps.filter (fun d => d.1 = p)

/-- `nonempty_parents` (singleparent.py:18-19) -/
def words (isEmpty : Nat → Bool) (deps : List Dep) : List Nat := (deps.map (·.1)).filter (fun p => !isEmpty p)

/-- The body of the loop over the empty nodes (singleparent.py:15-40): the new value of `empty.deps`. `D h` is `_get_attr('depth')`.
`none`: an exception. -/
def single (h : Heap) (isEmpty : Nat → Bool) (deps : List Dep) : Option (List Dep) :=
  if deps.length > 1 then
    if words isEmpty deps = [] then some []
    else
      match treelet h (words isEmpty deps) with
      | none => none
      | some (hi, _) =>
        if hi ∈ words isEmpty deps then some (keep deps hi)
        else
          match pySort (fun a b => decide (D h a ≤ D h b)) (words isEmpty deps) with
          | [] => none
          | a :: _ => some (keep deps a)
  else some deps

/-! ## Proofs -/

variable {h : Heap} {r : Nat} {isEmpty : Nat → Bool} {deps : List Dep}

theorem mem_words {p : Nat} : p ∈ words isEmpty deps ↔ (∃ d ∈ deps, d.1 = p) ∧ isEmpty p = false := by
  unfold words
  simp

theorem head_min (f : Nat → Nat) {l : List Nat} {a : Nat} {t : List Nat} (e : pySort (fun a b => decide (f a ≤ f b)) l = a :: t) :
    a ∈ l ∧ ∀ x ∈ l, f a ≤ f x := by
  have hp : (pySort (fun a b => decide (f a ≤ f b)) l).Pairwise (fun a b => decide (f a ≤ f b) = true) :=
    pySort_pairwise (by intro a b c; simp; omega) (by intro a b; simp; omega) l
  refine ⟨by rw [← mem_pySort (le := fun a b => decide (f a ≤ f b)), e]; exact List.mem_cons_self .., fun x hx => ?_⟩
  rw [← mem_pySort (le := fun a b => decide (f a ≤ f b)), e] at hx
  rw [e, List.pairwise_cons] at hp
  rcases List.mem_cons.1 hx with rfl | hx
  · exact Nat.le_refl _
  · simpa using hp.1 x hx

theorem anc_depth (w : WF h r) (hr : IsTree h r) {a x : Nat} (ha : Anc h a x) : InTree h r x → D h a < D h x := by
  have hD := depths w hr
  induction ha with
  | @parent x hp =>
    intro hx
    have := hD.child x _ hx hp
    omega
  | @step x p hp _ ih =>
    intro hx
    have := hD.child x p hx hp
    have := ih (parent_inTree w hx hp)
    omega

/-- An empty node with several enhanced dependencies, of which at least one is on a word, keeps exactly the dependencies on one word; no other
word among the parents is higher in the tree. No exception is raised. -/
theorem C143_kept_partial (hh : Reachable h) (hr : IsTree h r) (hlen : 2 ≤ deps.length)
    (hin : ∀ d ∈ deps, isEmpty d.1 = false → InTree h r d.1) (hne : ∃ d ∈ deps, isEmpty d.1 = false) :
    ∃ p, single h isEmpty deps = some (deps.filter (fun d => d.1 = p)) ∧ (∃ d ∈ deps, d.1 = p) ∧ isEmpty p = false ∧
      ∀ d ∈ deps, isEmpty d.1 = false → ∀ n m, DepthIs h p n → DepthIs h d.1 m → n ≤ m := by
  have w := inv_reachable hh r hr
  have hw : words isEmpty deps ≠ [] := by
    obtain ⟨d, hd, he⟩ := hne
    exact List.ne_nil_of_mem (mem_words.2 ⟨⟨d, hd, rfl⟩, he⟩)
  have hwin : ∀ i ∈ words isEmpty deps, InTree h r i := by
    intro i hi
    obtain ⟨⟨d, hd, rfl⟩, he⟩ := mem_words.1 hi
    exact hin d hd he
  obtain ⟨top, added, ht, -, d, hd, hmin⟩ := C21_any_partial hh hr hw hwin
  unfold single
  rw [if_pos (by omega), if_neg hw, ht]
  simp only
  by_cases htop : top ∈ words isEmpty deps
  · rw [if_pos htop]
    obtain ⟨h1, h2⟩ := mem_words.1 htop
    refine ⟨top, rfl, h1, h2, fun e he hee n m hn hm => ?_⟩
    rw [depth_unique hn hd]
    exact hmin e.1 (mem_words.2 ⟨⟨e, he, rfl⟩, hee⟩) m hm
  · rw [if_neg htop]
    cases hs : pySort (fun a b => decide (D h a ≤ D h b)) (words isEmpty deps) with
    | nil =>
      have := (pySort_perm (fun a b => decide (D h a ≤ D h b)) (words isEmpty deps)).length_eq
      rw [hs] at this
      exact absurd (List.eq_nil_of_length_eq_zero this.symm) hw
    | cons a t =>
      obtain ⟨h1, h2⟩ := head_min (D h) hs
      obtain ⟨h3, h4⟩ := mem_words.1 h1
      refine ⟨a, rfl, h3, h4, fun e he hee n m hn hm => ?_⟩
      rw [depth_unique hn (depth_D w hr (hwin a h1)), depth_unique hm (depth_D w hr (hin e he hee))]
      exact h2 e.1 (mem_words.2 ⟨⟨e, he, rfl⟩, hee⟩)

/-- If one of the words among the parents governs all the others, it is the one that is kept. -/
theorem C143_governor (hh : Reachable h) (hr : IsTree h r) (hlen : 2 ≤ deps.length)
    (hin : ∀ d ∈ deps, isEmpty d.1 = false → InTree h r d.1) {p : Nat} (hp : ∃ d ∈ deps, d.1 = p) (hpe : isEmpty p = false)
    (hgov : ∀ d ∈ deps, isEmpty d.1 = false → d.1 = p ∨ Anc h p d.1) :
    single h isEmpty deps = some (deps.filter (fun d => d.1 = p)) := by
  have w := inv_reachable hh r hr
  obtain ⟨d, hd, rfl⟩ := hp
  obtain ⟨q, h1, ⟨e, he, rfl⟩, h3, h4⟩ := C143_kept_partial hh hr hlen hin ⟨d, hd, hpe⟩
  rw [h1]
  rcases hgov e he h3 with e' | e'
  · rw [e']
  · have h5 := h4 d hd hpe _ _ (depth_D w hr (hin e he h3)) (depth_D w hr (hin d hd hpe))
    have h6 := anc_depth w hr e' (hin e he h3)
    omega

/-- Nodes with at most one dependency stay as they are, and a second run of the block changes nothing. -/
theorem C143_again (hh : Reachable h) (hr : IsTree h r) (hin : ∀ d ∈ deps, isEmpty d.1 = false → InTree h r d.1) :
    (deps.length ≤ 1 → single h isEmpty deps = some deps) ∧
    ∃ out, single h isEmpty deps = some out ∧ (∀ d ∈ out, ∀ e ∈ out, d.1 = e.1) ∧ single h isEmpty out = some out := by
  have hfew : ∀ l : List Dep, l.length ≤ 1 → single h isEmpty l = some l := by
    intro l hl
    unfold single
    rw [if_neg (by omega)]
  refine ⟨hfew deps, ?_⟩
  by_cases hlen : deps.length ≤ 1
  · refine ⟨deps, hfew deps hlen, ?_, hfew deps hlen⟩
    match deps, hlen with
    | [], _ => exact fun d hd => (by cases hd)
    | [a], _ =>
      intro d hd e he
      rw [List.mem_singleton.1 hd, List.mem_singleton.1 he]
  · by_cases hne : ∃ d ∈ deps, isEmpty d.1 = false
    · obtain ⟨p, h1, h2, h3, -⟩ := C143_kept_partial hh hr (by omega) hin hne
      have hall : ∀ d ∈ deps.filter (fun d => d.1 = p), d.1 = p := fun d hd => by simpa using (List.mem_filter.1 hd).2
      refine ⟨_, h1, fun d hd e he => (hall d hd).trans (hall e he).symm, ?_⟩
      by_cases hl2 : (deps.filter (fun d => d.1 = p)).length ≤ 1
      · exact hfew _ hl2
      · have hg := C143_governor (deps := deps.filter (fun d => d.1 = p)) (isEmpty := isEmpty) hh hr (by omega)
          (fun d hd he => hin d (List.mem_filter.1 hd).1 he) (p := p) (by
            obtain ⟨d, hd, e⟩ := h2
            exact ⟨d, List.mem_filter.2 ⟨hd, by simpa using e⟩, e⟩) h3 (fun d hd _ => Or.inl (hall d hd))
        rw [hg]
        congr 1
        exact List.filter_eq_self.2 (fun d hd => by simpa using hall d hd)
    · refine ⟨[], ?_, fun d hd => (by cases hd), hfew [] (by simp)⟩
      unfold single
      rw [if_pos (by omega), if_pos]
      refine List.eq_nil_iff_forall_not_mem.2 (fun p hp => ?_)
      obtain ⟨⟨d, hd, rfl⟩, he⟩ := mem_words.1 hp
      exact hne ⟨d, hd, he⟩

/-- If all parents are empty nodes, the node loses all its dependencies, and the column DEPS becomes empty. -/
theorem C143_empty_violated (hlen : 2 ≤ deps.length) (he : ∀ d ∈ deps, isEmpty d.1 = true) : single h isEmpty deps = some [] := by
  unfold single
  rw [if_pos (by omega), if_pos]
  refine List.eq_nil_iff_forall_not_mem.2 (fun p hp => ?_)
  obtain ⟨⟨d, hd, rfl⟩, he'⟩ := mem_words.1 hp
  rw [he d hd] at he'
  cases he'

/-- In the tree of C21: 1 and 2 below the root, 3 below 2, 4 below 3; 9 is an empty node. -/
example : single exTl (fun x => x == 9) [(4, ['a']), (9, ['b']), (1, ['c']), (1, ['d'])] = some [(1, ['c']), (1, ['d'])] ∧
    single exTl (fun x => x == 9) [(4, ['a']), (3, ['b'])] = some [(3, ['b'])] := by decide

end Verif.Deps.SingleParent
