import Verif.Blocks.JoinSent

/-!
# `util.SplitSentence` (properties C101 and C102)
-/

namespace Verif.Sent
open Verif.Tree Verif.Py

/-- `n.ord > 1 and n.misc[name] and misc_value == None or n.misc[name] == misc_value` (splitsentence.py:55) -/
def cutHere (value : Option Str) (d : Doc) (n : Nat) : Bool := (1 < d.heap.ord n && d.attr n ≠ [] && value = none) || value = some (d.attr n)

def dRoot : Str := ['r', 'o', 'o', 't']

/-- `make_zeros_roots` (splitsentence.py:123-131): `for n in root.descendants: if n.parent.is_root(): n.deprel = 'root'` -/
def zeroRoots (h : Heap) (f : Nat → Str) : List Nat → (Nat → Str)
  | [] => f
  | n :: ns =>
    zeroRoots h
      (match h.parent n with
      | some p => if isRoot h p then upd f n dRoot else f
      | none => f) ns

/-- `document.create_bundle()`, its id, and a tree without words in it (document.py:58-64, splitsentence.py:62-65) -/
def newBundle (d : Doc) (id : Str) : Doc :=
  { d with
    heap := newTree d.heap
    empty := upd d.empty d.heap.next []
    bundles := d.bundles ++ [d.nextB]
    trees := upd d.trees d.nextB [d.heap.next]
    zone := upd d.zone d.heap.next []
    bid := upd d.bid d.nextB id
    number := upd d.number d.nextB (d.bundles.length + 1)
    nextB := d.nextB + 1 }

/-- `'B'`, `'C'`, ... -/
def letter (i : Nat) : Char := Char.ofNat (66 + i)

/-- `n.ord < next_first_node_id`, unless there is no next split point (splitsentence.py:68-72) -/
def beforeNext (f : Nat → Nat) : Option Nat → Nat → Bool
  | none, _ => true
  | some q, n => decide (f n < f q)

/-- The loop over the split points (splitsentence.py:61-82). -/
def splitGo (k r : Nat) (id : Str) : Nat → List Nat → Doc → Doc × Option Err
  | _, [], d => (d, none)
  | i, p :: ps, d =>
    let d1 := newBundle d (id ++ [letter i])
    let nodes := (d1.heap.words r).filter (fun n => decide (d1.heap.ord p ≤ d1.heap.ord n) && beforeNext d1.heap.ord ps.head? n)
    match steal d1.heap d1.mwts d.heap.next nodes with
    | (h, m, some e) => ({ d1 with heap := h, mwts := m }, some (.steal e))
    | (h, m, none) =>
      splitGo k r id (i + 1) ps
        { d1 with
          heap := h
          mwts := m
          deprel := zeroRoots h d1.deprel (h.words d.heap.next)
          bundles := d.bundles.take (k + i + 1) ++ d.nextB :: d.bundles.drop (k + i + 1)
          attr := upd d1.attr p [] }

/-- The body of the loop with `misc_name` (splitsentence.py:54-91) for bundle `b` at position `k`. -/
def splitBundle (value : Option Str) (k b : Nat) (d : Doc) : Doc × Option Err :=
  match getTree d b [] with
  | .error e => (d, some e)
  | .ok r =>
    let points := (d.heap.words r).filter (cutHere value d)
    if points = [] then (d, none)
    else
      match splitGo k r (d.bid b) 0 points d with
      | (d1, some e) => (d1, some e)
      | (d1, none) =>
        ({ d1 with
            bid := upd d1.bid b (d1.bid b ++ ['A'])
            deprel := zeroRoots d1.heap d1.deprel (d1.heap.words r)
            number := renumber d1.number (k + 1) (d1.bundles.drop (k + 1)) }, none)

/-- The loop over the bundles, which also visits the new ones. `none`: it did not end within `fuel` rounds. -/
def splitLoop (value : Option Str) : Nat → Nat → Doc → Option (Doc × Option Err)
  | fuel, k, d =>
    match d.bundles[k]? with
    | none => some (d, none)
    | some b =>
      match fuel with
      | 0 => none
      | fuel + 1 =>
        match splitBundle value k b d with
        | (d', some e) => some (d', some e)
        | (d', none) => splitLoop value fuel (k + 1) d'

/-- The loop with `sent_id` and `word_id` (splitsentence.py:92-121). `logging.fatal` does not end the program. -/
def splitById (sid : Str) (w : Nat) : Nat → List Nat → Doc → Doc × Option Err
  | _, [], d => (d, none)
  | k, b :: bs, d =>
    if d.bid b = sid then
      match getTree d b [] with
      | .error e => (d, some e)
      | .ok r =>
        let nodes := (d.heap.words r).filter (fun n => decide (w ≤ d.heap.ord n))
        let d1 := newBundle d (d.bid b ++ ['B'])
        let bs1 := d.bundles.take (k + 1) ++ d.nextB :: d.bundles.drop (k + 1)
        let d2 := { d1 with bundles := bs1, number := renumber d1.number (k + 1) (bs1.drop (k + 1)), bid := upd d1.bid b (d1.bid b ++ ['A']) }
        match steal d2.heap d2.mwts d.heap.next nodes with
        | (h, m, some e) => ({ d2 with heap := h, mwts := m }, some (.steal e))
        | (h, m, none) =>
          ({ d2 with heap := h, mwts := m, deprel := zeroRoots h (zeroRoots h d2.deprel (h.words r)) (h.words d.heap.next) }, none)
    else splitById sid w (k + 1) bs d

/-- `x.precedes(y)` (node.py:745-759) for words of the bundles `b` and `c` of one document. -/
def precedesIn (d : Doc) (b c x y : Nat) : Bool := if d.heap.root x = d.heap.root y then d.heap.ord x < d.heap.ord y else d.number b < d.number c

/-! ## Specification vocabulary -/

/-- The words before the first one with `f`, and every word with `f` together with the words up to the next one. -/
def chunks (f : Nat → Bool) : List Nat → List Nat × List (Nat × List Nat)
  | [] => ([], [])
  | x :: l => if f x then ([], (x, (chunks f l).1) :: (chunks f l).2) else (x :: (chunks f l).1, (chunks f l).2)

/-- A list cut before every element with `f`. -/
def pieces (f : Nat → Bool) (W : List Nat) : List (List Nat) := (chunks f W).1 :: (chunks f W).2.map (fun c => c.1 :: c.2)

/-! ## Proofs: lists -/

theorem chunks_eq (f : Nat → Bool) : ∀ W : List Nat, W = (chunks f W).1 ++ (chunks f W).2.flatMap (fun c => c.1 :: c.2)
  | [] => rfl
  | x :: l => by
    have ih := chunks_eq f l
    unfold chunks
    split
    · simp [← ih]
    · simp [← ih]

theorem chunks_filter (f : Nat → Bool) : ∀ W : List Nat, W.filter f = (chunks f W).2.map (·.1)
  | [] => rfl
  | x :: l => by
    have ih := chunks_filter f l
    unfold chunks
    by_cases hx : f x = true
    · rw [if_pos hx, List.filter_cons_of_pos hx, ih]
      rfl
    · rw [if_neg hx, List.filter_cons_of_neg hx, ih]

theorem chunks_first (f : Nat → Bool) : ∀ (W : List Nat), ∀ x ∈ (chunks f W).1, f x = false
  | [], x, hx => absurd hx List.not_mem_nil
  | y :: l, x, hx => by
    have ih := chunks_first f l
    unfold chunks at hx
    by_cases hy : f y = true
    · rw [if_pos hy] at hx
      exact absurd hx List.not_mem_nil
    · rw [if_neg hy] at hx
      rcases List.mem_cons.1 hx with rfl | hx
      · simpa using hy
      · exact ih x hx

theorem pieces_flatten (f : Nat → Bool) (W : List Nat) : (pieces f W).flatten = W := by
  conv => rhs; rw [chunks_eq f W]
  unfold pieces
  rw [List.flatten_cons, List.flatMap_def]

theorem pieces_none {f : Nat → Bool} {W : List Nat} (h : W.filter f = []) : pieces f W = [W] := by
  have h1 := chunks_filter f W
  rw [h] at h1
  have h2 : (chunks f W).2 = [] := by
    cases hc : (chunks f W).2 with
    | nil => rfl
    | cons c cs => rw [hc] at h1; cases h1
  have h3 := chunks_eq f W
  rw [h2] at h3
  unfold pieces
  rw [h2]
  simpa using h3.symm

theorem chunks_mem (f : Nat → Bool) : ∀ (W : List Nat), ∀ c ∈ (chunks f W).2, f c.1 = true ∧ (∀ x ∈ c.2, f x = false) ∧ (c.1 :: c.2).Sublist W
  | [], c, hc => absurd hc List.not_mem_nil
  | y :: l, c, hc => by
    unfold chunks at hc
    by_cases hy : f y = true
    · rw [if_pos hy] at hc
      rcases List.mem_cons.1 hc with rfl | hc
      · refine ⟨hy, chunks_first f l, ?_⟩
        have h1 : (chunks f l).1.Sublist l := by
          conv => rhs; rw [chunks_eq f l]
          exact List.sublist_append_left _ _
        exact h1.cons_cons y
      · obtain ⟨h1, h2, h3⟩ := chunks_mem f l c hc
        exact ⟨h1, h2, h3.cons y⟩
    · rw [if_neg hy] at hc
      obtain ⟨h1, h2, h3⟩ := chunks_mem f l c hc
      exact ⟨h1, h2, h3.cons y⟩

theorem chunks_congr {f g : Nat → Bool} : ∀ {W : List Nat}, (∀ x ∈ W, f x = g x) → chunks f W = chunks g W
  | [], _ => rfl
  | x :: l, h => by
    unfold chunks
    rw [h x (List.mem_cons_self ..), chunks_congr (fun y hy => h y (List.mem_cons_of_mem _ hy))]

/-- Selecting a part of an increasing list by its bounds. -/
theorem filter_segment {f : Nat → Nat} {A B : List Nat} {p : Nat} {t : List Nat} (hs : (A ++ (p :: t ++ B)).Pairwise (fun a b => f a < f b)) :
    (A ++ (p :: t ++ B)).filter (fun n => decide (f p ≤ f n) && beforeNext f B.head? n) = p :: t := by
  have hA : ∀ a ∈ A, f a < f p := fun a ha => (List.pairwise_append.1 hs).2.2 a ha p (by simp)
  have h2 := (List.pairwise_append.1 hs).2.1
  have hpt : ∀ a ∈ t, f p < f a := by
    intro a ha
    rw [List.cons_append, List.pairwise_cons] at h2
    exact h2.1 a (List.mem_append_left _ ha)
  have hB : ∀ a ∈ p :: t, ∀ b ∈ B, f a < f b := (List.pairwise_append.1 h2).2.2
  have hBB := (List.pairwise_append.1 h2).2.1
  rw [List.filter_append, List.filter_append, List.filter_eq_nil_iff.2, List.filter_eq_self.2, List.filter_eq_nil_iff.2]
  · simp
  · intro b hb
    cases B with
    | nil => exact absurd hb List.not_mem_nil
    | cons q B =>
      have : f q ≤ f b := by
        rcases List.mem_cons.1 hb with rfl | hb
        · exact Nat.le_refl _
        · exact Nat.le_of_lt ((List.pairwise_cons.1 hBB).1 b hb)
      simp only [Bool.and_eq_true, decide_eq_true_eq, not_and, List.head?_cons, beforeNext]
      omega
  · intro a ha
    have h1 : f p ≤ f a := by
      rcases List.mem_cons.1 ha with rfl | ha
      · exact Nat.le_refl _
      · exact Nat.le_of_lt (hpt a ha)
    cases B with
    | nil => simp [h1, beforeNext]
    | cons q B =>
      have := hB a ha q (List.mem_cons_self ..)
      simp [h1, this, beforeNext]
  · intro a ha
    have := hA a ha
    have : ¬ f p ≤ f a := by omega
    simp [this]

theorem zeroRoots_eq (h : Heap) : ∀ (ns : List Nat) (f : Nat → Str) (x : Nat),
    zeroRoots h f ns x = if x ∈ ns ∧ ∃ p, h.parent x = some p ∧ isRoot h p = true then dRoot else f x
  | [], f, x => by simp [zeroRoots]
  | n :: ns, f, x => by
    rw [zeroRoots, zeroRoots_eq h ns]
    by_cases hx : x ∈ ns ∧ ∃ p, h.parent x = some p ∧ isRoot h p = true
    · rw [if_pos hx, if_pos ⟨List.mem_cons_of_mem _ hx.1, hx.2⟩]
    · rw [if_neg hx]
      by_cases hn : x = n
      · subst hn
        cases hp : h.parent x with
        | none => simp
        | some p =>
          by_cases hr : isRoot h p = true
          · simp [hr, upd]
          · simp [hr]
      · have : (x ∈ n :: ns ∧ ∃ p, h.parent x = some p ∧ isRoot h p = true) ↔ (x ∈ ns ∧ ∃ p, h.parent x = some p ∧ isRoot h p = true) := by
          simp [hn]
        rw [if_neg (fun hh => hx (this.1 hh))]
        cases h.parent n with
        | none => rfl
        | some p =>
          simp only
          split
          · exact upd_ne _ _ hn
          · rfl

/-! ## Proofs: one new tree -/

theorem wf_newTree (h : Heap) : WF (newTree h) h.next := by
  have hw : (newTree h).words h.next = [] := by simp [newTree]
  have hc : (newTree h).children h.next = [] := by simp [newTree]
  have hin : ∀ p, InTree (newTree h) h.next p → p = h.next := by
    rintro p (rfl | hp)
    · rfl
    · rw [hw] at hp; simp at hp
  refine ⟨?_, ?_, ?_, ?_, ?_, ?_, ?_, ?_, ?_⟩
  · simp [hw]
  · simp [newTree]
  · simp [newTree]
  · rw [hw]; simp
  · rw [hw]; simp
  · rw [hw]; simp
  · intro p hp x; rw [hin p hp, hc, hw]; simp
  · intro p hp; rw [hin p hp, hc]; simp
  · rw [hw]; simp

theorem wf_newTree_old {h : Heap} {s : Nat} (w : WF h s) (hs : IsTree h s) : WF (newTree h) s := by
  have hsn : s ≠ h.next := Nat.ne_of_lt hs.1
  have hne : ∀ x, InTree h s x → x ≠ h.next := by
    intro x hx; have := inTree_lt w hs hx; omega
  refine w.congr (by simp [newTree]) (upd_ne _ _ hsn) ?_ ?_ ?_ ?_
  · intro x hx; exact upd_ne _ _ (hne x hx)
  · intro x hx; exact upd_ne _ _ (hne x hx)
  · intro x hx; exact upd_ne _ _ (hne x hx)
  · intro x hx; exact upd_ne _ _ (hne x hx)

theorem wfo_newTree_old {h : Heap} {s : Nat} (w : WFo h s) (hs : IsTree h s) : WFo (newTree h) s := by
  have hsn : s ≠ h.next := Nat.ne_of_lt hs.1
  have hws : (newTree h).words s = h.words s := upd_ne _ _ hsn
  have hw : ∀ x ∈ h.words s, x ≠ h.next := fun x hx => Nat.ne_of_lt (w.alloc x hx)
  have ho : ∀ x ∈ h.words s, (newTree h).ord x = h.ord x := fun x hx => upd_ne _ _ (hw x hx)
  have hin : ∀ p, InTree (newTree h) s p ↔ InTree h s p := by
    intro p
    unfold InTree
    rw [hws]
  have hne : ∀ p, InTree h s p → p ≠ h.next := by
    rintro p (rfl | hp)
    · exact hsn
    · exact hw p hp
  have hc := wf_newTree_old w.compact ⟨hs.1, hs.2⟩
  refine ⟨?_, ?_, ?_, hc.rootParent, hc.rootOf, hc.parentIn, ?_, hc.childIff, ?_, hc.alloc⟩
  · rw [hws]
    refine w.sorted.imp_of_mem ?_
    intro a b ha hb hab
    rw [ho a ha, ho b hb]
    exact hab
  · intro x hx
    rw [hws] at hx
    rw [ho x hx]
    exact w.pos x hx
  · rw [show (newTree h).ord s = h.ord s from upd_ne _ _ hsn]
    exact w.rootOrd
  · intro x hx
    exact WFo.anc_ord (f := (newTree h).ord) (hc.reach x hx)
  · intro p hp
    have hp := (hin p).1 hp
    rw [show (newTree h).children p = h.children p from upd_ne _ _ (hne p hp)]
    refine (w.childSorted p hp).imp_of_mem ?_
    intro a b ha hb hab
    rw [ho a (w.child_mem hp ha), ho b (w.child_mem hp hb)]
    exact hab

/-- Without multi-word tokens nothing is raised. -/
theorem steal_ok {h : Heap} {old t : Nat} {nodes : List Nat} (g : Given0 h old t nodes) {m : Mwts} (hm : ∀ x, m.of x = none) :
    ∃ h' m', steal h m t nodes = (h', m', none) ∧ m'.of = m.of := by
  rw [steal_eq g]
  simp only
  by_cases hw : inOrder h old nodes = h.words old
  · rw [if_pos (by simpa using hw)]
    exact ⟨_, _, rfl, rfl⟩
  · have hl : (inOrder h old nodes).getLast?.bind m.of = none := by
      cases (inOrder h old nodes).getLast? with
      | none => rfl
      | some x => exact hm x
    rw [if_neg (by simpa using hw), hl, mwtLoop_none]
    exact ⟨_, _, rfl, rfl⟩

/-! ## Proofs: edges -/

/-- Every word is in a tree and keeps its parent if both are in the same tree; otherwise it is attached to its technical root. -/
structure Edges (h0 h : Heap) : Prop where
  next : h0.next ≤ h.next
  lt : ∀ s, IsTree h0 s → ∀ x, InTree h0 s x → h.root x < h.next
  home : ∀ s, IsTree h0 s → ∀ x, InTree h0 s x → InTree h (h.root x) x
  word : ∀ s, IsTree h0 s → ∀ x ∈ h0.words s, x ∈ h.words (h.root x)
  edge : ∀ s, IsTree h0 s → ∀ x ∈ h0.words s, ∀ q, h0.parent x = some q → h.parent x = some (if h.root q = h.root x then q else h.root x)

theorem edges_refl {h : Heap} (hi : Inv h) : Edges h h where
  next := Nat.le_refl _
  lt := fun s hs x hx => by rw [inTree_root (hi s hs) hs hx]; exact hs.1
  home := fun s hs x hx => by rw [inTree_root (hi s hs) hs hx]; exact hx
  word := fun s hs x hx => by rw [(hi s hs).rootOf x hx]; exact hx
  edge := fun s hs x hx q hq => by
    rw [(hi s hs).rootOf x hx, inTree_root (hi s hs) hs ((hi s hs).parent_in hx hq), if_pos rfl, hq]

theorem edges_newTree {h0 h : Heap} (hi : Inv h0) (e : Edges h0 h) : Edges h0 (newTree h) := by
  have hne : ∀ s, IsTree h0 s → ∀ x, InTree h0 s x → x ≠ h.next := by
    intro s hs x hx
    have := inTree_lt (hi s hs) hs hx
    have := e.next
    omega
  have hr : ∀ s, IsTree h0 s → ∀ x, InTree h0 s x → (newTree h).root x = h.root x := fun s hs x hx => upd_ne _ _ (hne s hs x hx)
  have hw : ∀ s, IsTree h0 s → ∀ x, InTree h0 s x → (newTree h).words (h.root x) = h.words (h.root x) :=
    fun s hs x hx => upd_ne _ _ (Nat.ne_of_lt (e.lt s hs x hx))
  refine ⟨Nat.le_succ_of_le e.next, ?_, ?_, ?_, ?_⟩
  · intro s hs x hx
    rw [hr s hs x hx]
    exact Nat.lt_succ_of_lt (e.lt s hs x hx)
  · intro s hs x hx
    unfold InTree
    rw [hr s hs x hx, hw s hs x hx]
    exact e.home s hs x hx
  · intro s hs x hx
    rw [hr s hs x (.inr hx), hw s hs x (.inr hx)]
    exact e.word s hs x hx
  · intro s hs x hx q hq
    rw [hr s hs x (.inr hx), hr s hs q ((hi s hs).parent_in hx hq), show (newTree h).parent x = h.parent x from upd_ne _ _ (hne s hs x (.inr hx))]
    exact e.edge s hs x hx q hq

theorem edges_steal {h0 h h' : Heap} {old t : Nat} {S : List Nat} (hi : Inv h0) (e : Edges h0 h) (c : Call h old t S) (d : Done h h' old t S)
    (ht : h.words t = []) (hn : h0.next ≤ t) : Edges h0 h' := by
  have hxt : ∀ s, IsTree h0 s → ∀ x, InTree h0 s x → h.root x ≠ t := by
    intro s hs x hx hr
    have h1 := e.home s hs x hx
    have h2 := inTree_lt (hi s hs) hs hx
    rw [hr] at h1
    rcases h1 with h1 | h1
    · omega
    · rw [ht] at h1
      exact absurd h1 List.not_mem_nil
  have hS : ∀ x ∈ S, h.root x = old := fun x hx => c.wOld.rootOf x (c.sub x hx)
  have hwold : ∀ s, IsTree h0 s → ∀ x ∈ h0.words s, x ∈ h'.words (h'.root x) := by
    intro s hs x hx
    have h1 := e.word s hs x hx
    have h2 := hxt s hs x (.inr hx)
    rw [d.root]
    by_cases hxS : x ∈ S
    · rw [if_pos hxS, d.wT]
      exact List.mem_append_right _ hxS
    · rw [if_neg hxS]
      by_cases ho : h.root x = old
      · rw [ho] at h1 ⊢
        rw [d.wOld]
        exact List.mem_filter.2 ⟨h1, by simpa using hxS⟩
      · rw [d.wO _ h2 ho]
        exact h1
  refine ⟨by rw [d.next]; exact e.next, ?_, ?_, hwold, ?_⟩
  · intro s hs x hx
    rw [d.root, d.next]
    split
    · exact c.isT.1
    · exact e.lt s hs x hx
  · rintro s hs x (rfl | hx)
    · have h1 := e.home x hs x (.inl rfl)
      have h2 := hxt x hs x (.inl rfl)
      rw [d.root]
      by_cases hxS : x ∈ S
      · rw [if_pos hxS]
        right
        rw [d.wT]
        exact List.mem_append_right _ hxS
      · rw [if_neg hxS]
        rcases h1 with h1 | h1
        · exact .inl h1
        · right
          by_cases ho : h.root x = old
          · rw [ho] at h1 ⊢
            rw [d.wOld]
            exact List.mem_filter.2 ⟨h1, by simpa using hxS⟩
          · rw [d.wO _ h2 ho]
            exact h1
    · exact .inr (hwold s hs x hx)
  · intro s hs x hx q hq
    have h1 := e.edge s hs x hx q hq
    have hqt := hxt s hs q ((hi s hs).parent_in hx hq)
    have hxx := hxt s hs x (.inr hx)
    have hold : old ∉ S := fun hm => c.wOld.root_not_mem (c.sub old hm)
    rw [d.root x, d.root q]
    by_cases hxS : x ∈ S
    · rw [d.parentS hxS h1, hS x hxS]
      by_cases hqr : h.root q = old
      · rw [if_pos hqr]
        by_cases hqS : q ∈ S
        · simp [hxS, hqS]
        · have := c.ne
          simp [hxS, hqS, hqr, this]
      · have hqS : q ∉ S := fun hm => hqr (hS q hm)
        rw [if_neg hqr, if_neg hold]
        simp [hxS, hqS, hqt]
    · by_cases hxo : h.root x = old
      · have hxw : x ∈ h.words old := by rw [← hxo]; exact e.word s hs x hx
        rw [d.parentK hxw hxS h1, hxo]
        by_cases hqr : h.root q = old
        · rw [if_pos hqr]
          by_cases hqS : q ∈ S
          · have := Ne.symm c.ne
            simp [hxS, hqS, this]
          · simp [hxS, hqS, hqr]
        · have hqS : q ∉ S := fun hm => hqr (hS q hm)
          rw [if_neg hqr, if_neg hold]
          simp [hxS, hqS, hqr]
      · have hxw : x ∉ h.words old := fun hm => hxo (c.wOld.rootOf x hm)
        rw [d.parentO hxS hxw, h1]
        by_cases hqS : q ∈ S
        · rw [hS q hqS, if_neg (Ne.symm hxo)]
          simp [hxS, hqS, Ne.symm hxx]
        · simp [hxS, hqS]

/-! ## Proofs: one split point -/

/-- A document in which the tree `r` is well formed only up to the numbering of its words, and without multi-word tokens. -/
structure Semi (d : Doc) (r : Nat) : Prop where
  wr : WFo d.heap r
  isR : IsTree d.heap r
  others : ∀ s, IsTree d.heap s → s ≠ r → WF d.heap s
  nodup : d.bundles.Nodup
  tree : ∀ b ∈ d.bundles, ∃ s, d.trees b = [s] ∧ d.zone s = [] ∧ IsTree d.heap s
  own : ∀ b ∈ d.bundles, ∀ c ∈ d.bundles, ∀ s, s ∈ d.trees b → s ∈ d.trees c → b = c
  fresh : ∀ b ∈ d.bundles, b < d.nextB
  noTok : ∀ x, d.mwts.of x = none

/-- What stays outside the nodes `X`. -/
structure Frame (X : List Nat) (d d' : Doc) : Prop where
  next : d.heap.next ≤ d'.heap.next
  nextB : d.nextB ≤ d'.nextB
  keep : ∀ c ∈ d.bundles, c ∈ d'.bundles
  sent : ∀ c ∈ d.bundles, (∀ x ∈ X, x ∉ sentence d c) → sentence d' c = sentence d c
  parent : ∀ x, x < d.heap.next → x ∉ X → d'.heap.parent x = d.heap.parent x
  root : ∀ x, x < d.heap.next → x ∉ X → d'.heap.root x = d.heap.root x
  ord : ∀ x, x < d.heap.next → x ∉ X → d'.heap.ord x = d.heap.ord x
  attr : ∀ x, x ∉ X → d'.attr x = d.attr x
  deprel : ∀ x, x ∉ X → d'.deprel x = d.deprel x
  empty : ∀ s, s < d.heap.next → d'.empty s = d.empty s
  trees : ∀ c, c < d.nextB → d'.trees c = d.trees c

theorem Frame.refl (X : List Nat) (d : Doc) : Frame X d d :=
  ⟨Nat.le_refl _, Nat.le_refl _, fun _ h => h, fun _ _ _ => rfl, fun _ _ _ => rfl, fun _ _ _ => rfl, fun _ _ _ => rfl, fun _ _ => rfl, fun _ _ => rfl,
    fun _ _ => rfl, fun _ _ => rfl⟩

theorem Frame.trans {X Y Z : List Nat} {d d1 d2 : Doc} (f : Frame X d d1) (g : Frame Y d1 d2) (hX : ∀ x ∈ X, x ∈ Z) (hY : ∀ x ∈ Y, x ∈ Z) :
    Frame Z d d2 where
  next := Nat.le_trans f.next g.next
  nextB := Nat.le_trans f.nextB g.nextB
  keep := fun c hc => g.keep c (f.keep c hc)
  sent := fun c hc h => by
    have h1 := f.sent c hc (fun x hx => h x (hX x hx))
    rw [g.sent c (f.keep c hc) (fun x hx => by rw [h1]; exact h x (hY x hx)), h1]
  parent := fun x hx hn => by
    rw [g.parent x (Nat.lt_of_lt_of_le hx f.next) (fun h => hn (hY x h)), f.parent x hx (fun h => hn (hX x h))]
  root := fun x hx hn => by
    rw [g.root x (Nat.lt_of_lt_of_le hx f.next) (fun h => hn (hY x h)), f.root x hx (fun h => hn (hX x h))]
  ord := fun x hx hn => by
    rw [g.ord x (Nat.lt_of_lt_of_le hx f.next) (fun h => hn (hY x h)), f.ord x hx (fun h => hn (hX x h))]
  attr := fun x hn => by rw [g.attr x (fun h => hn (hY x h)), f.attr x (fun h => hn (hX x h))]
  deprel := fun x hn => by rw [g.deprel x (fun h => hn (hY x h)), f.deprel x (fun h => hn (hX x h))]
  empty := fun s hs => by rw [g.empty s (Nat.lt_of_lt_of_le hs f.next), f.empty s hs]
  trees := fun c hc => by rw [g.trees c (Nat.lt_of_lt_of_le hc f.nextB), f.trees c hc]

theorem split_step {d : Doc} {r k i b p : Nat} {id : Str} {t A B Pre N Post ps : List Nat} (s : Semi d r) (hw : d.heap.words r = A ++ (p :: t ++ B))
    (hps : ps.head? = B.head?) (hbs : d.bundles = Pre ++ b :: (N ++ Post)) (hk : Pre.length = k) (hi : N.length = i) (ht : d.trees b = [r]) :
    ∃ d2, splitGo k r id i (p :: ps) d = splitGo k r id (i + 1) ps d2 ∧ Semi d2 r ∧ Frame (d.heap.words r) d d2 ∧ d2.heap.words r = A ++ B ∧
      d2.bundles = Pre ++ b :: ((N ++ [d.nextB]) ++ Post) ∧ sentence d2 d.nextB = p :: t ∧ d2.bid = upd d.bid d.nextB (id ++ [letter i]) ∧
      d2.nextB = d.nextB + 1 ∧ d2.attr = upd d.attr p [] ∧ (∀ x ∈ A ++ B, d2.heap.ord x = d.heap.ord x) ∧
      (∀ x ∈ p :: t, d2.deprel x = if d2.heap.parent x = some (d2.heap.root x) then dRoot else d.deprel x) ∧
      (∀ x, x ∉ p :: t → d2.deprel x = d.deprel x) ∧ (∀ x ∈ p :: t, d2.heap.root x = d.heap.next) ∧
      (∀ h0 : Heap, Inv h0 → Edges h0 d.heap → Edges h0 d2.heap) ∧ (∀ c, c ≠ d.nextB → d2.number c = d.number c) := by
  have hrn : r ≠ d.heap.next := Nat.ne_of_lt s.isR.1
  have hbm : b ∈ d.bundles := by rw [hbs]; simp
  have hwn : (newTree d.heap).words r = A ++ (p :: t ++ B) := by rw [← hw]; exact upd_ne _ _ hrn
  have w1 : WFo (newTree d.heap) r := wfo_newTree_old s.wr s.isR
  have hsort := w1.sorted
  rw [hwn] at hsort
  have hnodes : ((newTree d.heap).words r).filter (fun n => decide ((newTree d.heap).ord p ≤ (newTree d.heap).ord n) &&
      beforeNext (newTree d.heap).ord ps.head? n) = p :: t := by
    rw [hwn, hps]
    exact filter_segment (f := (newTree d.heap).ord) hsort
  have hnd : (A ++ (p :: t ++ B)).Nodup := by rw [← hwn]; exact w1.nodup
  have isR1 : IsTree (newTree d.heap) r := ⟨Nat.lt_succ_of_lt s.isR.1, by rw [show (newTree d.heap).root r = d.heap.root r from upd_ne _ _ hrn]; exact s.isR.2⟩
  have isT1 : IsTree (newTree d.heap) d.heap.next := ⟨Nat.lt_succ_self _, by simp [newTree]⟩
  have gv : Given0 (newTree d.heap) r d.heap.next (p :: t) := by
    refine ⟨w1, wf_newTree d.heap, isR1, isT1, hrn, by simp, ?_, ?_⟩
    · intro x hx
      rw [hwn]
      exact List.mem_append_right _ (List.mem_append_left _ hx)
    · exact (List.nodup_append.1 (List.nodup_append.1 hnd).2.1).1
  obtain ⟨h, m, e, hmo⟩ := steal_ok gv s.noTok
  have c := call_of gv
  have dn := done_steal gv e
  have hS : inOrder (newTree d.heap) r (p :: t) = p :: t := by
    unfold inOrder
    rw [hwn, List.filter_append, List.filter_append, List.filter_eq_nil_iff.2, List.filter_eq_self.2, List.filter_eq_nil_iff.2]
    · simp
    · intro x hx
      have := (List.nodup_append.1 (List.nodup_append.1 hnd).2.1).2.2
      simp only [decide_eq_true_eq]
      exact fun hm => this x hm x hx rfl
    · intro x hx
      simpa using hx
    · intro x hx
      have := (List.nodup_append.1 hnd).2.2
      simp only [decide_eq_true_eq]
      exact fun hm => this x hx x (List.mem_append_left _ hm) rfl
  rw [hS] at c dn
  have hAB : ∀ x ∈ A ++ B, x ∉ p :: t := by
    intro x hx hm
    rcases List.mem_append.1 hx with hx | hx
    · exact (List.nodup_append.1 hnd).2.2 x hx x (List.mem_append_left _ hm) rfl
    · exact (List.nodup_append.1 (List.nodup_append.1 hnd).2.1).2.2 x hm x hx rfl
  have hwr : h.words r = A ++ B := by
    rw [dn.wOld, hwn, List.filter_append, List.filter_append, List.filter_eq_self.2, List.filter_eq_nil_iff.2, List.filter_eq_self.2]
    · simp
    · intro x hx
      simpa using hAB x (List.mem_append_right _ hx)
    · intro x hx
      simp [List.mem_cons.1 hx]
    · intro x hx
      simpa using hAB x (List.mem_append_left _ hx)
  have hwt : h.words d.heap.next = p :: t := by
    rw [dn.wT]
    simp [newTree]
  have hlt : ∀ x ∈ d.heap.words r, x < d.heap.next := s.wr.alloc
  have hptW : ∀ x ∈ p :: t, x ∈ d.heap.words r := by
    intro x hx
    rw [hw]
    exact List.mem_append_right _ (List.mem_append_left _ hx)
  have hABW : ∀ x ∈ A ++ B, x ∈ d.heap.words r := by
    intro x hx
    rw [hw]
    rcases List.mem_append.1 hx with hx | hx
    · exact List.mem_append_left _ hx
    · exact List.mem_append_right _ (List.mem_append_right _ hx)
  have hmem : ∀ x, x ∈ d.heap.words r → x ∈ A ++ B ∨ x ∈ p :: t := by
    intro x hx
    rw [hw] at hx
    rcases List.mem_append.1 hx with hx | hx
    · exact .inl (List.mem_append_left _ hx)
    · rcases List.mem_append.1 hx with hx | hx
      · exact .inr hx
      · exact .inl (List.mem_append_right _ hx)
  have hnb : d.nextB ∉ d.bundles := fun hm => Nat.lt_irrefl _ (s.fresh _ hm)
  have hbundles : d.bundles.take (k + i + 1) ++ d.nextB :: d.bundles.drop (k + i + 1) = Pre ++ b :: ((N ++ [d.nextB]) ++ Post) := by
    have hl : k + i + 1 = (Pre ++ b :: N).length := by simp [← hk, ← hi]; omega
    have hd : d.bundles = (Pre ++ b :: N) ++ Post := by rw [hbs]; simp
    rw [hd, hl, List.take_left, List.drop_left]
    simp
  have hisT : ∀ q, q < d.heap.next → (IsTree h q ↔ IsTree d.heap q) := by
    intro q hq
    rw [dn.isTree c]
    unfold IsTree
    rw [show (newTree d.heap).root q = d.heap.root q from upd_ne _ _ (Nat.ne_of_lt hq)]
    constructor
    · exact fun h => ⟨hq, h.2⟩
    · exact fun h => ⟨Nat.lt_succ_of_lt hq, h.2⟩
  have htr : ∀ c' ∈ d.bundles, upd d.trees d.nextB [d.heap.next] c' = d.trees c' := fun c' hc => upd_ne _ _ (fun e => hnb (e ▸ hc))
  have hmb : ∀ c', c' ∈ d.bundles.take (k + i + 1) ++ d.nextB :: d.bundles.drop (k + i + 1) ↔ c' = d.nextB ∨ c' ∈ d.bundles := by
    intro c'
    rw [List.perm_middle.mem_iff, List.mem_cons, List.take_append_drop]
  have hwo : ∀ q, q < d.heap.next → q ≠ r → h.words q = d.heap.words q := by
    intro q hq hqr
    rw [dn.wO q (Nat.ne_of_lt hq) hqr]
    exact upd_ne _ _ (Nat.ne_of_lt hq)
  refine ⟨{ newBundle d (id ++ [letter i]) with
      heap := h
      mwts := m
      deprel := zeroRoots h d.deprel (h.words d.heap.next)
      bundles := d.bundles.take (k + i + 1) ++ d.nextB :: d.bundles.drop (k + i + 1)
      attr := upd d.attr p [] },
    ?_, ⟨dn.wfo_source c, (dn.isTree c r).2 isR1, ?_, ?_, ?_, ?_, ?_, ?_⟩, ⟨?_, ?_, ?_, ?_, ?_, ?_, ?_, ?_, ?_, ?_, ?_⟩, hwr, hbundles, ?_, rfl, rfl, rfl, ?_, ?_, ?_, ?_, ?_, ?_⟩
  · conv => lhs; unfold splitGo
    simp only
    rw [show steal (newBundle d (id ++ [letter i])).heap (newBundle d (id ++ [letter i])).mwts d.heap.next
      (List.filter (fun n => decide ((newBundle d (id ++ [letter i])).heap.ord p ≤ (newBundle d (id ++ [letter i])).heap.ord n) &&
        beforeNext (newBundle d (id ++ [letter i])).heap.ord ps.head? n) ((newBundle d (id ++ [letter i])).heap.words r)) = (h, m, none) from
      (congrArg (steal (newTree d.heap) d.mwts d.heap.next) hnodes).trans e]
    rfl
  · intro q hq hqr
    rw [dn.isTree c] at hq
    by_cases hqn : q = d.heap.next
    · subst hqn
      exact dn.wf_target c
    · have hq' : IsTree d.heap q := by
        have h1 : q < d.heap.next := by have := hq.1; simp only [newTree] at this; omega
        refine ⟨h1, ?_⟩
        rw [← show (newTree d.heap).root q = d.heap.root q from upd_ne _ _ hqn]
        exact hq.2
      exact dn.wf_other c (wf_newTree_old (s.others q hq' hqr) hq') hq hqr hqn
  · show (d.bundles.take (k + i + 1) ++ d.nextB :: d.bundles.drop (k + i + 1)).Nodup
    have hpm : (d.bundles.take (k + i + 1) ++ d.nextB :: d.bundles.drop (k + i + 1)).Perm (d.nextB :: d.bundles) := by
      refine List.perm_middle.trans ?_
      rw [List.take_append_drop]
    rw [hpm.nodup_iff, List.nodup_cons]
    exact ⟨hnb, s.nodup⟩
  · intro c' hc
    have hc : c' ∈ d.bundles.take (k + i + 1) ++ d.nextB :: d.bundles.drop (k + i + 1) := hc
    by_cases hcn : c' = d.nextB
    · subst hcn
      refine ⟨d.heap.next, by simp [newBundle], by simp [newBundle], (dn.isTree c _).2 isT1⟩
    · have hcb := (hmb c').1 hc
      obtain ⟨q, h1, h2, h3⟩ := s.tree c' (hcb.resolve_left hcn)
      exact ⟨q, (htr c' (hcb.resolve_left hcn)).trans h1, (upd_ne _ _ (Nat.ne_of_lt h3.1)).trans h2, (hisT q h3.1).2 h3⟩
  · have key : ∀ c1, c1 = d.nextB ∨ c1 ∈ d.bundles → ∀ q, q ∈ upd d.trees d.nextB [d.heap.next] c1 →
        (c1 = d.nextB ∧ q = d.heap.next) ∨ (c1 ∈ d.bundles ∧ q ∈ d.trees c1 ∧ q < d.heap.next) := by
      intro c1 hc1 q hq
      by_cases hcn : c1 = d.nextB
      · subst hcn
        exact .inl ⟨rfl, by simpa [upd] using hq⟩
      · have hcb := hc1.resolve_left hcn
        rw [htr c1 hcb] at hq
        obtain ⟨q', h1, _, h3⟩ := s.tree c1 hcb
        have hqq : q = q' := by rw [h1] at hq; simpa using hq
        exact .inr ⟨hcb, hq, hqq ▸ h3.1⟩
    intro c1 hc1 c2 hc2 q h1 h2
    rcases key c1 ((hmb c1).1 hc1) q h1 with ⟨h3, h4⟩ | ⟨h3, h4, h5⟩ <;> rcases key c2 ((hmb c2).1 hc2) q h2 with ⟨h6, h7⟩ | ⟨h6, h7, h8⟩
    · rw [h3, h6]
    · omega
    · omega
    · exact s.own c1 h3 c2 h6 q h4 h7
  · intro c1 hc1
    show c1 < d.nextB + 1
    rcases (hmb c1).1 hc1 with h1 | h1
    · omega
    · have := s.fresh c1 h1
      omega
  · intro x
    show m.of x = none
    rw [hmo]
    exact s.noTok x
  · show d.heap.next ≤ h.next
    rw [dn.next]
    exact Nat.le_succ _
  · exact Nat.le_succ _
  · intro c1 hc1
    exact (hmb c1).2 (.inr hc1)
  · intro c1 hc1 hx
    obtain ⟨q, h1, _, h3⟩ := s.tree c1 hc1
    show (upd d.trees d.nextB [d.heap.next] c1).flatMap h.words = _
    rw [htr c1 hc1, Good.sentence_eq h1, h1]
    have hqr : q ≠ r := by
      rintro rfl
      refine hx p (hptW p (List.mem_cons_self ..)) ?_
      rw [Good.sentence_eq h1]
      exact hptW p (List.mem_cons_self ..)
    simpa using hwo q h3.1 hqr
  · intro x hx hxw
    show h.parent x = _
    rw [dn.parentO (fun hm => hxw (hptW x hm)) (by rw [show (newTree d.heap).words r = d.heap.words r from upd_ne _ _ hrn]; exact hxw)]
    exact upd_ne _ _ (Nat.ne_of_lt hx)
  · intro x hx hxw
    show h.root x = _
    rw [dn.root, if_neg (fun hm => hxw (hptW x hm))]
    exact upd_ne _ _ (Nat.ne_of_lt hx)
  · intro x hx hxw
    show h.ord x = _
    rw [dn.ordO c (fun hm => hxw (hptW x hm))]
    exact upd_ne _ _ (Nat.ne_of_lt hx)
  · intro x hxw
    exact upd_ne _ _ (fun e => hxw (e ▸ hptW p (List.mem_cons_self ..)))
  · intro x hxw
    show zeroRoots h d.deprel (h.words d.heap.next) x = _
    rw [zeroRoots_eq, if_neg]
    rw [hwt]
    exact fun hh => hxw (hptW x hh.1)
  · intro q hq
    exact upd_ne _ _ (Nat.ne_of_lt hq)
  · intro c1 hc1
    exact upd_ne _ _ (Nat.ne_of_lt hc1)
  · show (upd d.trees d.nextB [d.heap.next] d.nextB).flatMap h.words = _
    simpa [upd] using hwt
  · intro x hx
    show h.ord x = _
    rw [dn.ordO c (hAB x hx)]
    exact upd_ne _ _ (Nat.ne_of_lt (hlt x (hABW x hx)))
  · intro x hx
    show zeroRoots h d.deprel (h.words d.heap.next) x = if h.parent x = some (h.root x) then dRoot else d.deprel x
    have wt := dn.wf_target c
    have hxt : x ∈ h.words d.heap.next := by rw [hwt]; exact hx
    rw [zeroRoots_eq, wt.rootOf x hxt]
    have : (x ∈ h.words d.heap.next ∧ ∃ p, h.parent x = some p ∧ isRoot h p = true) ↔ h.parent x = some d.heap.next := by
      constructor
      · rintro ⟨_, q, h1, h2⟩
        have h3 : h.root q = q := by simpa [isRoot] using h2
        have h4 := inTree_root wt ((dn.isTree c _).2 isT1) (wt.parent_in hxt h1)
        rw [h1, ← h3, h4]
      · intro h1
        refine ⟨hxt, _, h1, ?_⟩
        simpa [isRoot] using ((dn.isTree c _).2 isT1).2
    by_cases hp : h.parent x = some d.heap.next
    · rw [if_pos (this.2 hp), if_pos hp]
    · rw [if_neg (fun hh => hp (this.1 hh)), if_neg hp]
  · intro x hx
    show zeroRoots h d.deprel (h.words d.heap.next) x = _
    rw [zeroRoots_eq, if_neg]
    rw [hwt]
    exact fun hh => hx hh.1
  · intro x hx
    show h.root x = _
    rw [dn.root, if_pos hx]
  · intro h0 hi0 e0
    refine edges_steal hi0 (edges_newTree hi0 e0) c dn (by simp [newTree]) e0.next
  · intro c1 hc1
    exact upd_ne _ _ hc1

/-- The words of the parts that are split off. -/
def partWords (cs : List (Nat × List Nat)) : List Nat := cs.flatMap (fun c => c.1 :: c.2)

theorem split_go {r k b : Nat} {id : Str} {A Pre Post : List Nat} (hk : Pre.length = k) : ∀ (cs : List (Nat × List Nat)) (i : Nat) (d : Doc) (N : List Nat),
    Semi d r → d.heap.words r = A ++ partWords cs → d.bundles = Pre ++ b :: (N ++ Post) → N.length = i → d.trees b = [r] →
    ∃ d' N', splitGo k r id i (cs.map (·.1)) d = (d', none) ∧ Semi d' r ∧ Frame (d.heap.words r) d d' ∧ d'.heap.words r = A ∧
      d'.bundles = Pre ++ b :: ((N ++ N') ++ Post) ∧ N'.map (sentence d') = cs.map (fun c => c.1 :: c.2) ∧ (∀ c ∈ N', d.nextB ≤ c) ∧
      N'.map d'.bid = (List.range' i cs.length).map (fun j => id ++ [letter j]) ∧ (∀ c, c < d.nextB → d'.bid c = d.bid c) ∧
      (∀ x, d'.attr x = if x ∈ cs.map (·.1) then [] else d.attr x) ∧ (∀ x ∈ A, d'.heap.ord x = d.heap.ord x) ∧
      (∀ x ∈ partWords cs, d'.deprel x = if d'.heap.parent x = some (d'.heap.root x) then dRoot else d.deprel x) ∧
      (∀ x, x ∉ partWords cs → d'.deprel x = d.deprel x) ∧
      (∀ h0 : Heap, Inv h0 → Edges h0 d.heap → Edges h0 d'.heap) ∧ (∀ c, c < d.nextB → d'.number c = d.number c)
  | [], i, d, N, s, hw, hbs, hi, ht => by
    refine ⟨d, [], rfl, s, Frame.refl _ _, by simpa [partWords] using hw, by simpa using hbs, rfl, ?_, rfl, fun _ _ => rfl, ?_, fun _ _ => rfl, ?_, fun _ _ => rfl,
      fun _ _ e => e, fun _ _ => rfl⟩
    · intro c hc
      exact absurd hc List.not_mem_nil
    · intro x
      simp
    · intro x hx
      exact absurd hx (by simp [partWords])
  | (p, t) :: cs, i, d, N, s, hw, hbs, hi, ht => by
    have hpw : partWords ((p, t) :: cs) = p :: t ++ partWords cs := rfl
    have hw' : d.heap.words r = A ++ (p :: t ++ partWords cs) := by rw [hw, hpw]
    have hps : (cs.map (·.1)).head? = (partWords cs).head? := by
      cases cs with
      | nil => rfl
      | cons c cs => rfl
    obtain ⟨d2, e, s2, f2, w2, b2, se2, id2, n2, a2, o2, de2, du2, r2, ed2, nu2⟩ := split_step (id := id) s hw' hps hbs hk hi ht
    have hbm : b ∈ d.bundles := by rw [hbs]; simp
    have ht2 : d2.trees b = [r] := by rw [f2.trees b (s.fresh b hbm), ht]
    obtain ⟨d', N', e', s', f', w', b', se', ge', id', idk, a', o', de', du', ed', nu'⟩ :=
      split_go hk cs (i + 1) d2 (N ++ [d.nextB]) s2 w2 b2 (by simp [hi]) ht2
    have hnd : (A ++ (p :: t ++ partWords cs)).Nodup := by rw [← hw']; exact s.wr.nodup
    have hnot : ∀ x ∈ p :: t, x ∉ d2.heap.words r := by
      intro x hx hm
      rw [w2] at hm
      rcases List.mem_append.1 hm with hm | hm
      · exact (List.nodup_append.1 hnd).2.2 x hm x (List.mem_append_left _ hx) rfl
      · exact (List.nodup_append.1 (List.nodup_append.1 hnd).2.1).2.2 x hx x hm rfl
    have hsub : ∀ x ∈ d2.heap.words r, x ∈ d.heap.words r := by
      intro x hx
      rw [w2] at hx
      rw [hw']
      rcases List.mem_append.1 hx with hx | hx
      · exact List.mem_append_left _ hx
      · exact List.mem_append_right _ (List.mem_append_right _ hx)
    have hlt2 : ∀ x ∈ p :: t, x < d2.heap.next := by
      intro x hx
      refine Nat.lt_of_lt_of_le (s.wr.alloc x ?_) f2.next
      rw [hw']
      exact List.mem_append_right _ (List.mem_append_left _ hx)
    have hnb2 : d.nextB ∈ d2.bundles := by rw [b2]; simp
    refine ⟨d', d.nextB :: N', by rw [List.map_cons, e]; exact e', s', f2.trans f' (fun _ h => h) hsub, w', by rw [b']; simp, ?_, ?_, ?_, ?_, ?_, ?_, ?_, ?_, ?_, ?_⟩
    · rw [List.map_cons, List.map_cons, se', f'.sent d.nextB hnb2, se2]
      intro x hx hm
      rw [se2] at hm
      exact hnot x hm hx
    · intro c hc
      rcases List.mem_cons.1 hc with rfl | hc
      · exact Nat.le_refl _
      · have := ge' c hc
        rw [n2] at this
        omega
    · rw [List.map_cons, id', idk d.nextB (by rw [n2]; exact Nat.lt_succ_self _), id2, List.length_cons, List.range'_succ, List.map_cons]
      simp [upd]
    · intro c hc
      rw [idk c (by rw [n2]; exact Nat.lt_succ_of_lt hc), id2]
      exact upd_ne _ _ (Nat.ne_of_lt hc)
    · intro x
      rw [a', a2]
      by_cases hx : x ∈ cs.map (·.1)
      · simp only [hx, if_true, List.map_cons, List.mem_cons, or_true]
      · by_cases hxp : x = p
        · simp [hxp, upd]
        · simp only [hx, if_false, List.map_cons, List.mem_cons, hxp, or_self]
          exact upd_ne _ _ hxp
    · intro x hx
      rw [o' x hx, o2 x (List.mem_append_left _ hx)]
    · intro x hx
      rw [hpw] at hx
      rcases List.mem_append.1 hx with hx | hx
      · rw [f'.deprel x (hnot x hx), f'.parent x (hlt2 x hx) (hnot x hx), f'.root x (hlt2 x hx) (hnot x hx)]
        exact de2 x hx
      · rw [de' x hx, du2 x (fun hm => (List.nodup_append.1 (List.nodup_append.1 hnd).2.1).2.2 x hm x hx rfl)]
    · intro x hx
      rw [hpw] at hx
      rw [du' x (fun hm => hx (List.mem_append_right _ hm)), du2 x (fun hm => hx (List.mem_append_left _ hm))]
    · intro h0 hi0 e0
      exact ed' h0 hi0 (ed2 h0 hi0 e0)
    · intro c hc
      rw [nu' c (by rw [n2]; exact Nat.lt_succ_of_lt hc), nu2 c (Nat.ne_of_lt hc)]

/-- The pieces of the sentence of a bundle. -/
def parts (value : Option Str) (d : Doc) (b : Nat) : List (List Nat) := pieces (cutHere value d) (sentence d b)

/-- Whether a bundle is split. -/
def isCut (value : Option Str) (d : Doc) (b : Nat) : Bool := (sentence d b).any (cutHere value d)

/-- The ids of the pieces. -/
def partIds (value : Option Str) (d : Doc) (b : Nat) : List Str :=
  if isCut value d b then (List.range (parts value d b).length).map (fun j => d.bid b ++ [Char.ofNat (65 + j)]) else [d.bid b]

theorem split_none {value : Option Str} {d : Doc} (g : Good d) {k b : Nat} (hb : b ∈ d.bundles) (hc : isCut value d b = false) :
    splitBundle value k b d = (d, none) := by
  obtain ⟨r, ht, hz, hr⟩ := g.tree b hb
  unfold splitBundle
  rw [Good.getTree_eq ht hz]
  simp only
  rw [if_pos]
  unfold isCut at hc
  rw [Good.sentence_eq ht, List.any_eq_false] at hc
  exact List.filter_eq_nil_iff.2 hc

theorem split_some {value : Option Str} {d : Doc} (g : Good d) (hm : ∀ x, d.mwts.of x = none) {k b : Nat} {Pre Post : List Nat}
    (hbs : d.bundles = Pre ++ b :: Post) (hk : Pre.length = k) (hc : isCut value d b = true) :
    ∃ d' N, splitBundle value k b d = (d', none) ∧ Good d' ∧ (∀ x, d'.mwts.of x = none) ∧ Frame (sentence d b) d d' ∧
      d'.bundles = Pre ++ b :: (N ++ Post) ∧ (b :: N).map (sentence d') = parts value d b ∧ (b :: N).map d'.bid = partIds value d b ∧
      N.length + 1 = (parts value d b).length ∧ N ≠ [] ∧
      (∀ c ∈ d.bundles, c ≠ b → d'.bid c = d.bid c) ∧
      (∀ x ∈ sentence d b, d'.attr x = if cutHere value d x then [] else d.attr x) ∧
      (∀ x ∈ (chunks (cutHere value d) (sentence d b)).1, d'.heap.ord x = d.heap.ord x) ∧
      (∀ x ∈ sentence d b, d'.deprel x = if d'.heap.parent x = some (d'.heap.root x) then dRoot else d.deprel x) ∧
      (∀ h0 : Heap, Inv h0 → Edges h0 d.heap → Edges h0 d'.heap) ∧
      Aligned d'.number (k + 1) (N ++ Post) ∧ (∀ c ∈ Pre ++ [b], d'.number c = d.number c) := by
  have hb : b ∈ d.bundles := by rw [hbs]; simp
  obtain ⟨r, ht, hz, hr⟩ := g.tree b hb
  have hsb := Good.sentence_eq ht
  have hpts := chunks_filter (cutHere value d) (d.heap.words r)
  have hne : (d.heap.words r).filter (cutHere value d) ≠ [] := by
    intro he
    unfold isCut at hc
    rw [hsb, List.any_eq_true] at hc
    obtain ⟨x, hx, hy⟩ := hc
    exact List.filter_eq_nil_iff.1 he x hx hy
  have s : Semi d r := ⟨(g.inv r hr).weaken, hr, fun s hs _ => g.inv s hs, g.nodup, g.tree, g.own, g.fresh, hm⟩
  have hwp : d.heap.words r = (chunks (cutHere value d) (d.heap.words r)).1 ++ partWords (chunks (cutHere value d) (d.heap.words r)).2 :=
    chunks_eq (cutHere value d) (d.heap.words r)
  obtain ⟨d1, N, e1, s1, f1, w1, b1, se1, ge1, id1, idk1, a1, o1, de1, du1, ed1, nu1⟩ :=
    split_go (id := d.bid b) hk (chunks (cutHere value d) (d.heap.words r)).2 0 d [] s hwp hbs rfl ht
  generalize hA : (chunks (cutHere value d) (d.heap.words r)).1 = A at *
  generalize hC : (chunks (cutHere value d) (d.heap.words r)).2 = C at *
  have hal : Aligned d1.heap.ord 1 A := by
    have := (g.inv r hr).aligned
    rw [hwp, aligned_append] at this
    exact (aligned_congr o1).2 this.1
  have wr1 : WF d1.heap r := s1.wr.strengthen (by rw [w1]; exact hal)
  have hnd : (A ++ partWords C).Nodup := by rw [← hwp]; exact (g.inv r hr).nodup
  have hnb : ∀ c ∈ N, c ∉ d.bundles := by
    intro c hc hm
    have := ge1 c hc
    have := g.fresh c hm
    omega
  have hbN : b ∉ N := fun h => hnb b h hb
  have hb1 : b ∈ d1.bundles := f1.keep b hb
  have htr1 : d1.trees b = [r] := by rw [f1.trees b (g.fresh b hb), ht]
  have hdrop : d1.bundles.drop (k + 1) = N ++ Post := by
    rw [b1, show Pre ++ b :: ([] ++ N ++ Post) = (Pre ++ [b]) ++ (N ++ Post) by simp, show k + 1 = (Pre ++ [b]).length by simp [hk], List.drop_left]
  have hnd1 := s1.nodup
  rw [b1, show Pre ++ b :: ([] ++ N ++ Post) = (Pre ++ [b]) ++ (N ++ Post) by simp] at hnd1
  have hCne : C ≠ [] := by
    rintro rfl
    rw [hpts] at hne
    exact hne rfl
  have hlenN : N.length = C.length := by
    have := congrArg List.length se1
    simpa using this
  have hparts : parts value d b = A :: C.map (fun c => c.1 :: c.2) := by
    unfold parts pieces
    rw [hsb, hA, hC]
  have hbid : d1.bid b = d.bid b := idk1 b (g.fresh b hb)
  have hmemC : ∀ x, x ∈ C.map (·.1) ↔ x ∈ d.heap.words r ∧ cutHere value d x = true := by
    intro x
    rw [← hpts, List.mem_filter]
  refine ⟨{ d1 with
      bid := upd d1.bid b (d1.bid b ++ ['A'])
      deprel := zeroRoots d1.heap d1.deprel (d1.heap.words r)
      number := renumber d1.number (k + 1) (d1.bundles.drop (k + 1)) }, N, ?_, ⟨?_, s1.nodup, s1.tree, s1.own, s1.fresh⟩, s1.noTok,
    ⟨f1.next, f1.nextB, f1.keep, ?_, ?_, ?_, ?_, ?_, ?_, f1.empty, f1.trees⟩, by simpa using b1, ?_, ?_, ?_, ?_, ?_, ?_, ?_, ?_, ed1, ?_, ?_⟩
  · unfold splitBundle
    rw [Good.getTree_eq ht hz]
    simp only
    rw [if_neg hne, hpts, e1]
  · intro q hq
    by_cases hqr : q = r
    · subst hqr
      exact wr1
    · exact s1.others q hq hqr
  · rw [hsb]
    exact f1.sent
  · rw [hsb]
    exact f1.parent
  · rw [hsb]
    exact f1.root
  · rw [hsb]
    exact f1.ord
  · rw [hsb]
    exact f1.attr
  · rw [hsb]
    intro x hx
    show zeroRoots d1.heap d1.deprel (d1.heap.words r) x = _
    rw [zeroRoots_eq, if_neg, f1.deprel x hx]
    rintro ⟨h1, _⟩
    rw [w1] at h1
    exact hx (by rw [hwp]; exact List.mem_append_left _ h1)
  · rw [hparts, List.map_cons]
    congr 1
    show (d1.trees b).flatMap d1.heap.words = _
    rw [htr1, ← w1]
    simp
  · unfold partIds
    rw [if_pos hc, hparts, List.length_cons, List.length_map, List.range_succ_eq_map, List.map_cons, List.map_cons, List.map_map]
    congr 1
    · simp [upd, hbid]
    · have : N.map (upd d1.bid b (d1.bid b ++ ['A'])) = N.map d1.bid := by
        apply List.map_congr_left
        intro c hcN
        exact upd_ne _ _ (fun e => hbN (e ▸ hcN))
      show N.map (upd d1.bid b (d1.bid b ++ ['A'])) = _
      rw [this, id1, List.range_eq_range']
      apply List.map_congr_left
      intro j _
      simp only [letter, Function.comp]
      rw [show 66 + j = 65 + (j + 1) by omega]
  · rw [hparts, hlenN]
    simp
  · intro e
    rw [e] at hlenN
    exact hCne (List.length_eq_zero_iff.1 hlenN.symm)
  · intro c hcb hcne
    show upd d1.bid b _ c = _
    rw [upd_ne _ _ hcne, idk1 c (g.fresh c hcb)]
  · intro x hx
    rw [hsb] at hx
    show d1.attr x = _
    rw [a1]
    by_cases hcut : cutHere value d x = true
    · rw [if_pos ((hmemC x).2 ⟨hx, hcut⟩), if_pos hcut]
    · rw [if_neg (fun hh => hcut ((hmemC x).1 hh).2), if_neg hcut]
  · rw [hsb, hA]
    exact o1
  · intro x hx
    rw [hsb, hwp] at hx
    show zeroRoots d1.heap d1.deprel (d1.heap.words r) x = if d1.heap.parent x = some (d1.heap.root x) then dRoot else d.deprel x
    rw [zeroRoots_eq, w1]
    rcases List.mem_append.1 hx with hxA | hxC
    · have hxr : x ∈ d1.heap.words r := by rw [w1]; exact hxA
      rw [wr1.rootOf x hxr, du1 x (fun hm => (List.nodup_append.1 hnd).2.2 x hxA x hm rfl)]
      have : (x ∈ A ∧ ∃ p, d1.heap.parent x = some p ∧ isRoot d1.heap p = true) ↔ d1.heap.parent x = some r := by
        constructor
        · rintro ⟨_, q, h1, h2⟩
          have h3 : d1.heap.root q = q := by simpa [isRoot] using h2
          have h4 := inTree_root wr1 s1.isR (wr1.parent_in hxr h1)
          rw [h1, ← h3, h4]
        · intro h1
          exact ⟨hxA, _, h1, by simpa [isRoot] using s1.isR.2⟩
      by_cases hp : d1.heap.parent x = some r
      · rw [if_pos (this.2 hp), if_pos hp]
      · rw [if_neg (fun hh => hp (this.1 hh)), if_neg hp]
    · rw [if_neg (fun hh => (List.nodup_append.1 hnd).2.2 x hh.1 x hxC rfl), de1 x hxC]
  · show Aligned (renumber d1.number (k + 1) (d1.bundles.drop (k + 1))) (k + 1) (N ++ Post)
    rw [hdrop]
    exact renumber_aligned (List.nodup_append.1 hnd1).2.1 _ _
  · intro c hcm
    show renumber d1.number (k + 1) (d1.bundles.drop (k + 1)) c = _
    rw [hdrop, (renumber_spec (List.nodup_append.1 hnd1).2.1 _ _).2 c (fun hm => (List.nodup_append.1 hnd1).2.2 c hcm c hm rfl)]
    refine nu1 c (g.fresh c ?_)
    rw [hbs]
    rcases List.mem_append.1 hcm with h | h
    · exact List.mem_append_left _ h
    · exact List.mem_append_right _ (by simp at h; simp [h])

/-! ## Proofs: the whole document -/

theorem Good.word_lt {d : Doc} (g : Good d) {b x : Nat} (hb : b ∈ d.bundles) (hx : x ∈ sentence d b) : x < d.heap.next := by
  obtain ⟨r, ht, _, hr⟩ := g.tree b hb
  rw [Good.sentence_eq ht] at hx
  exact (g.inv r hr).alloc x hx

/-- The pieces are not split again. -/
theorem new_not_cut {value : Option Str} (hv : value ≠ some []) {d d' : Doc} (g : Good d) {b c : Nat} {N : List Nat} (hb : b ∈ d.bundles)
    (hs : (b :: N).map (sentence d') = parts value d b)
    (ha : ∀ x ∈ sentence d b, d'.attr x = if cutHere value d x then [] else d.attr x) (hc : c ∈ N) : isCut value d' c = false := by
  obtain ⟨r, ht, _, hr⟩ := g.tree b hb
  have w := g.inv r hr
  have hsb := Good.sentence_eq ht
  unfold parts pieces at hs
  rw [List.map_cons] at hs
  injection hs with _ hs
  have hcm : sentence d' c ∈ (chunks (cutHere value d) (sentence d b)).2.map (fun c => c.1 :: c.2) := by
    rw [← hs]
    exact List.mem_map_of_mem hc
  obtain ⟨⟨p, t⟩, h1, h2⟩ := List.mem_map.1 hcm
  obtain ⟨h3, h4, h5⟩ := chunks_mem _ _ _ h1
  unfold isCut
  rw [← h2, List.any_eq_false]
  intro x hx
  have hxw : x ∈ sentence d b := h5.subset hx
  unfold cutHere
  rw [ha x hxw]
  by_cases hcut : cutHere value d x = true
  · rw [if_pos hcut]
    cases value with
    | none => simp
    | some v =>
      have : v ≠ [] := fun e => hv (by rw [e])
      simp [this]
  · rw [if_neg hcut]
    cases value with
    | some v =>
      intro hh
      apply hcut
      unfold cutHere
      simpa using hh
    | none =>
      have hxt : x ∈ t := by
        rcases List.mem_cons.1 hx with rfl | hx
        · exact absurd h3 hcut
        · exact hx
      have hsort : (p :: t).Pairwise (fun a b => d.heap.ord a < d.heap.ord b) := by
        rw [hsb] at h5
        exact (aligned_pairwise w.aligned).sublist h5
      have hlt := (List.pairwise_cons.1 hsort).1 x hxt
      have hpos : 1 ≤ d.heap.ord p := w.ord_pos (by rw [← hsb]; exact h5.subset (List.mem_cons_self ..))
      have h1x : 1 < d.heap.ord x := by omega
      have : d.attr x = [] := by
        apply Classical.byContradiction
        intro hne
        apply hcut
        unfold cutHere
        simp [h1x, hne]
      simp [this]

theorem getElem?_mid {α : Type} {A B : List α} {x : α} {k : Nat} (hk : A.length = k) : (A ++ x :: B)[k]? = some x := by
  subst hk
  simp

theorem split_skip {value : Option Str} : ∀ (N Pre L : List Nat) (d : Doc) (fuel : Nat), Good d → d.bundles = Pre ++ (N ++ L) →
    (∀ c ∈ N, isCut value d c = false) → splitLoop value (fuel + N.length) Pre.length d = splitLoop value fuel (Pre ++ N).length d
  | [], Pre, L, d, fuel, _, _, _ => by simp
  | c :: N, Pre, L, d, fuel, g, hbs, hc => by
    have hcm : c ∈ d.bundles := by rw [hbs]; simp
    have ih := split_skip N (Pre ++ [c]) L d fuel g (by rw [hbs]; simp) (fun x hx => hc x (List.mem_cons_of_mem _ hx))
    rw [List.length_cons, ← Nat.add_assoc]
    conv => lhs; unfold splitLoop
    rw [hbs, show Pre ++ (c :: N ++ L) = Pre ++ c :: (N ++ L) by simp, getElem?_mid rfl]
    simp only
    rw [split_none g hcm (hc c (List.mem_cons_self ..))]
    simp only
    rw [show Pre.length + 1 = (Pre ++ [c]).length by simp, ih]
    simp

theorem splitLoop_mono {value : Option Str} (m : Nat) : ∀ {fuel k : Nat} {d : Doc} {res : Doc × Option Err}, splitLoop value fuel k d = some res →
    splitLoop value (fuel + m) k d = some res := by
  intro fuel
  induction fuel with
  | zero =>
    intro k d res h
    unfold splitLoop at h ⊢
    cases hb : d.bundles[k]? with
    | none => rw [hb] at h; exact h
    | some b => rw [hb] at h; cases h
  | succ fuel ih =>
    intro k d res h
    rw [show fuel + 1 + m = (fuel + m) + 1 by omega]
    unfold splitLoop at h ⊢
    cases hb : d.bundles[k]? with
    | none => rw [hb] at h; exact h
    | some b =>
      rw [hb] at h
      simp only at h ⊢
      cases hs : splitBundle value k b d with
      | mk d' o =>
        rw [hs] at h
        cases o with
        | some e => exact h
        | none => exact ih h

theorem parts_uncut {value : Option Str} {d : Doc} {b : Nat} (h : isCut value d b = false) : parts value d b = [sentence d b] := by
  unfold parts
  apply pieces_none
  unfold isCut at h
  rw [List.any_eq_false] at h
  exact List.filter_eq_nil_iff.2 h

theorem split_loop {value : Option Str} (hv : value ≠ some []) {h0 : Heap} (hi0 : Inv h0) : ∀ (L Pre : List Nat) (d : Doc), Good d →
    (∀ x, d.mwts.of x = none) → d.bundles = Pre ++ L → Edges h0 d.heap → ∀ fuel, (L.flatMap (parts value d)).length ≤ fuel →
    ∃ d' M, splitLoop value fuel Pre.length d = some (d', none) ∧ Good d' ∧ Edges h0 d'.heap ∧ Frame (L.flatMap (sentence d)) d d' ∧
      d'.bundles = Pre ++ M ∧ M.map (sentence d') = L.flatMap (parts value d) ∧ M.map d'.bid = L.flatMap (partIds value d) ∧
      (∀ c ∈ Pre, d'.bid c = d.bid c) ∧
      (∀ b ∈ L, ∀ x ∈ sentence d b, d'.attr x = if cutHere value d x then [] else d.attr x) ∧
      (∀ b ∈ L, ∀ x ∈ sentence d b, d'.deprel x =
        if isCut value d b = true ∧ d'.heap.parent x = some (d'.heap.root x) then dRoot else d.deprel x) ∧
      (∀ b ∈ L, sentence d' b = (chunks (cutHere value d) (sentence d b)).1) ∧
      (L.any (isCut value d) = false → d' = d) ∧
      (L.any (isCut value d) = true → ∃ P b R L', M = P ++ b :: R ∧ R ≠ [] ∧ L = P ++ b :: L' ∧ Aligned d'.number (Pre.length + P.length + 1) R ∧
        ∀ c ∈ Pre ++ (P ++ [b]), d'.number c = d.number c)
  | [], Pre, d, g, hm, hbs, he, fuel, hf => by
    refine ⟨d, [], ?_, g, he, Frame.refl _ _, hbs, rfl, rfl, fun _ _ => rfl, ?_, ?_, ?_, fun _ => rfl, ?_⟩
    · unfold splitLoop
      rw [hbs]
      simp
    · intro b hb
      exact absurd hb List.not_mem_nil
    · intro b hb
      exact absurd hb List.not_mem_nil
    · intro b hb
      exact absurd hb List.not_mem_nil
    · intro h
      cases h
  | b :: L, Pre, d, g, hm, hbs, he, fuel, hf => by
    have hb : b ∈ d.bundles := by rw [hbs]; simp
    have hnd := g.nodup
    rw [hbs] at hnd
    have hbL : b ∉ L := (List.nodup_cons.1 (List.nodup_append.1 hnd).2.1).1
    have hLd : ∀ c ∈ L, c ∈ d.bundles := by
      intro c hc
      rw [hbs]
      simp [hc]
    have hdis : ∀ c ∈ L, ∀ x ∈ sentence d c, x ∉ sentence d b := by
      intro c hc x hx hxb
      exact hbL ((g.disjoint (hLd c hc) hb hx hxb) ▸ hc)
    rw [List.flatMap_cons, List.length_append] at hf
    have hpl : 1 ≤ (parts value d b).length := by simp [parts, pieces]
    obtain ⟨f, rfl⟩ : ∃ f, fuel = f + 1 := ⟨fuel - 1, by omega⟩
    have hstep : ∀ d1, splitBundle value Pre.length b d = (d1, none) →
        splitLoop value (f + 1) Pre.length d = splitLoop value f (Pre.length + 1) d1 := by
      intro d1 e
      conv => lhs; unfold splitLoop
      rw [hbs, getElem?_mid rfl]
      simp only
      rw [e]
    by_cases hc : isCut value d b = true
    · obtain ⟨d1, N, e1, g1, m1, f1, b1, se1, id1, len1, ne1, idk1, a1, _, de1, ed1, nu1, nuk1⟩ := split_some g hm hbs rfl hc
      have hsL : ∀ c ∈ L, sentence d1 c = sentence d c := by
        intro c hcL
        exact f1.sent c (hLd c hcL) (fun x hx hxc => hdis c hcL x hxc hx)
      have hcutL : ∀ c ∈ L, ∀ x ∈ sentence d c, cutHere value d1 x = cutHere value d x := by
        intro c hcL x hx
        unfold cutHere
        rw [f1.ord x (g.word_lt (hLd c hcL) hx) (hdis c hcL x hx), f1.attr x (hdis c hcL x hx)]
      have hiL : ∀ c ∈ L, isCut value d1 c = isCut value d c := by
        intro c hcL
        unfold isCut
        rw [hsL c hcL, Bool.eq_iff_iff, List.any_eq_true, List.any_eq_true]
        constructor
        · rintro ⟨x, hx, hy⟩
          exact ⟨x, hx, by rw [hcutL c hcL x hx] at hy; exact hy⟩
        · rintro ⟨x, hx, hy⟩
          exact ⟨x, hx, by rw [hcutL c hcL x hx]; exact hy⟩
      have hpL : ∀ c ∈ L, parts value d1 c = parts value d c := by
        intro c hcL
        unfold parts pieces
        rw [hsL c hcL, chunks_congr (hcutL c hcL)]
      have hidL : ∀ c ∈ L, partIds value d1 c = partIds value d c := by
        intro c hcL
        unfold partIds
        rw [hiL c hcL, hpL c hcL, idk1 c (hLd c hcL) (fun e => hbL (e ▸ hcL))]
      have hfm : L.flatMap (parts value d1) = L.flatMap (parts value d) := by
        rw [List.flatMap_def, List.flatMap_def, List.map_congr_left hpL]
      have hfi : L.flatMap (partIds value d1) = L.flatMap (partIds value d) := by
        rw [List.flatMap_def, List.flatMap_def, List.map_congr_left hidL]
      have hfs : L.flatMap (sentence d1) = L.flatMap (sentence d) := by
        rw [List.flatMap_def, List.flatMap_def, List.map_congr_left hsL]
      have hfuel : (L.flatMap (parts value d1)).length ≤ f - N.length := by
        rw [hfm]
        omega
      obtain ⟨d', M, e', g', ed', f', b', se', id', idk', a', de', fp', nn', nu'⟩ :=
        split_loop hv hi0 L (Pre ++ b :: N) d1 g1 m1 (by rw [b1]; simp) (ed1 h0 hi0 he) (f - N.length) hfuel
      have hskip := split_skip N (Pre ++ [b]) L d1 (f - N.length) g1 (by rw [b1]; simp) (fun c hcN => new_not_cut hv g hb se1 a1 hcN)
      have hnd1 := g1.nodup
      rw [b1] at hnd1
      have hbN : ∀ c ∈ b :: N, c ∈ d1.bundles ∧ c ∉ L := by
        intro c hcm
        refine ⟨?_, ?_⟩
        · rw [b1]
          rcases List.mem_cons.1 hcm with h | h
          · simp [h]
          · simp [h]
        · intro hcL
          have h1 : (b :: N ++ L).Nodup := by
            have := (List.nodup_append.1 hnd1).2.1
            simpa using this
          exact (List.nodup_append.1 h1).2.2 c hcm c hcL rfl
      have hdis1 : ∀ c ∈ b :: N, ∀ x ∈ sentence d1 c, x ∉ L.flatMap (sentence d1) := by
        intro c hcm x hx hxL
        obtain ⟨c', hc', hx'⟩ := List.mem_flatMap.1 hxL
        have hc'1 : c' ∈ d1.bundles := by rw [b1]; simp [hc']
        exact (hbN c hcm).2 ((g1.disjoint (hbN c hcm).1 hc'1 hx hx') ▸ hc')
      have hsbN : ∀ c ∈ b :: N, sentence d' c = sentence d1 c := by
        intro c hcm
        exact f'.sent c (hbN c hcm).1 (fun x hx hxc => hdis1 c hcm x hxc hx)
      have hbw : ∀ x ∈ sentence d b, x ∉ L.flatMap (sentence d1) := by
        intro x hx hxL
        rw [hfs] at hxL
        obtain ⟨c', hc', hx'⟩ := List.mem_flatMap.1 hxL
        exact hdis c' hc' x hx' hx
      have hbx : ∀ x ∈ sentence d b, x < d1.heap.next := fun x hx => Nat.lt_of_lt_of_le (g.word_lt hb hx) f1.next
      refine ⟨d', b :: (N ++ M), ?_, g', ed', ?_, by rw [b']; simp, ?_, ?_, ?_, ?_, ?_, ?_, ?_, ?_⟩
      · rw [hstep d1 e1]
        have hfe : f = (f - N.length) + N.length := by omega
        rw [show Pre.length + 1 = (Pre ++ [b]).length by simp]
        rw [hfe, hskip, show (Pre ++ [b] ++ N) = Pre ++ b :: N by simp]
        exact e'
      · refine f1.trans f' ?_ ?_
        · intro x hx
          rw [List.flatMap_cons]
          exact List.mem_append_left _ hx
        · intro x hx
          rw [hfs] at hx
          rw [List.flatMap_cons]
          exact List.mem_append_right _ hx
      · rw [show b :: (N ++ M) = (b :: N) ++ M from rfl, List.map_append, List.map_congr_left hsbN, se1, se', hfm, List.flatMap_cons]
      · rw [show b :: (N ++ M) = (b :: N) ++ M from rfl, List.map_append, List.map_congr_left (fun c hcm => idk' c (List.mem_append_right _ hcm)), id1, id', hfi,
          List.flatMap_cons]
      · intro c hcP
        rw [idk' c (List.mem_append_left _ hcP), idk1 c (by rw [hbs]; simp [hcP])]
        rintro rfl
        exact (List.nodup_append.1 hnd).2.2 c hcP c (by simp) rfl
      · intro c hcm x hx
        rcases List.mem_cons.1 hcm with rfl | hcL
        · rw [f'.attr x (hbw x hx), a1 x hx]
        · rw [a' c hcL x (by rw [hsL c hcL]; exact hx), hcutL c hcL x hx, f1.attr x (hdis c hcL x hx)]
      · intro c hcm x hx
        rcases List.mem_cons.1 hcm with rfl | hcL
        · rw [f'.deprel x (hbw x hx), f'.parent x (hbx x hx) (hbw x hx), f'.root x (hbx x hx) (hbw x hx), de1 x hx]
          simp [hc]
        · rw [de' c hcL x (by rw [hsL c hcL]; exact hx), hiL c hcL, f1.deprel x (hdis c hcL x hx)]
      · intro c hcm
        rcases List.mem_cons.1 hcm with rfl | hcL
        · rw [hsbN c (by simp)]
          have := se1
          unfold parts pieces at this
          rw [List.map_cons] at this
          injection this
        · rw [fp' c hcL, hsL c hcL, chunks_congr (hcutL c hcL)]
      · intro h
        simp [hc] at h
      · intro _
        refine ⟨[], b, N ++ M, L, rfl, ?_, rfl, ?_, ?_⟩
        · intro e
          exact ne1 (List.append_eq_nil_iff.1 e).1
        · have hany : L.any (isCut value d1) = false ∨ L.any (isCut value d1) = true := by
            cases L.any (isCut value d1) <;> simp
          rcases hany with ha | ha
          · have := nn' ha
            subst this
            rw [b1] at b'
            have hML : L = M := by
              have : Pre ++ b :: N ++ L = Pre ++ b :: N ++ M := by simpa using b'
              exact List.append_cancel_left this
            rw [← hML]
            exact nu1
          · obtain ⟨P, b2, R, L', hM, _, hL, hal, hk⟩ := nu' ha
            have h1 : Aligned d1.number (Pre.length + 1) (N ++ (P ++ [b2]) ++ L') := by
              have := nu1
              rw [hL] at this
              simpa using this
            have h2 := (aligned_append.1 h1).1
            have h3 : Aligned d'.number (Pre.length + 1) (N ++ (P ++ [b2])) := by
              refine (aligned_congr ?_).2 h2
              intro c hcm
              apply hk
              rcases List.mem_append.1 hcm with h | h
              · exact List.mem_append_left _ (List.mem_append_right _ (List.mem_cons_of_mem _ h))
              · exact List.mem_append_right _ h
            rw [hM, show N ++ (P ++ b2 :: R) = N ++ (P ++ [b2]) ++ R by simp]
            refine aligned_append.2 ⟨h3, ?_⟩
            rw [show Pre.length + ([] : List Nat).length + 1 + (N ++ (P ++ [b2])).length = (Pre ++ b :: N).length + P.length + 1 by simp; omega]
            exact hal
        · intro c hcm
          have hcm' : c ∈ Pre ++ [b] := by simpa using hcm
          have hany : L.any (isCut value d1) = false ∨ L.any (isCut value d1) = true := by
            cases L.any (isCut value d1) <;> simp
          rcases hany with ha | ha
          · rw [nn' ha]
            exact nuk1 c hcm'
          · obtain ⟨P, b2, R, L', hM, _, hL, hal, hk⟩ := nu' ha
            rw [hk c, nuk1 c hcm']
            rcases List.mem_append.1 hcm' with h | h
            · exact List.mem_append_left _ (List.mem_append_left _ h)
            · exact List.mem_append_left _ (List.mem_append_right _ (by simp at h; simp [h]))
    · have hc : isCut value d b = false := by simpa using hc
      have hpb := parts_uncut hc
      have hlen : (L.flatMap (parts value d)).length ≤ f := by
        rw [hpb, List.length_singleton] at hf
        omega
      obtain ⟨d', M, e', g', ed', f', b', se', id', idk', a', de', fp', nn', nu'⟩ :=
        split_loop hv hi0 L (Pre ++ [b]) d g hm (by rw [hbs]; simp) he f hlen
      have hbw : ∀ x ∈ sentence d b, x ∉ L.flatMap (sentence d) := by
        intro x hx hxL
        obtain ⟨c', hc', hx'⟩ := List.mem_flatMap.1 hxL
        exact hdis c' hc' x hx' hx
      have hncut : ∀ x ∈ sentence d b, ¬ cutHere value d x = true := by
        unfold isCut at hc
        exact List.any_eq_false.1 hc
      refine ⟨d', b :: M, ?_, g', ed', ?_, by rw [b']; simp, ?_, ?_, ?_, ?_, ?_, ?_, ?_, ?_⟩
      · rw [hstep d (split_none g hb hc), show Pre.length + 1 = (Pre ++ [b]).length by simp]
        exact e'
      · refine (Frame.refl (L.flatMap (sentence d)) d).trans f' ?_ ?_
        · intro x hx
          rw [List.flatMap_cons]
          exact List.mem_append_right _ hx
        · intro x hx
          rw [List.flatMap_cons]
          exact List.mem_append_right _ hx
      · rw [List.map_cons, se', List.flatMap_cons, hpb, f'.sent b hb (fun x hx hxb => hbw x hxb hx)]
        rfl
      · rw [List.map_cons, id', List.flatMap_cons, idk' b (by simp)]
        simp [partIds, hc]
      · intro c hcP
        exact idk' c (List.mem_append_left _ hcP)
      · intro c hcm x hx
        rcases List.mem_cons.1 hcm with rfl | hcL
        · rw [f'.attr x (hbw x hx), if_neg (hncut x hx)]
        · exact a' c hcL x hx
      · intro c hcm x hx
        rcases List.mem_cons.1 hcm with rfl | hcL
        · rw [f'.deprel x (hbw x hx)]
          simp [hc]
        · exact de' c hcL x hx
      · intro c hcm
        rcases List.mem_cons.1 hcm with rfl | hcL
        · rw [f'.sent c hb (fun x hx hxb => hbw x hxb hx)]
          unfold parts pieces at hpb
          injection hpb with h1 _
          exact h1.symm
        · exact fp' c hcL
      · intro h
        rw [List.any_cons, hc, Bool.false_or] at h
        exact nn' h
      · intro h
        rw [List.any_cons, hc, Bool.false_or] at h
        obtain ⟨P, b2, R, L', hM, hR, hL, hal, hk⟩ := nu' h
        refine ⟨b :: P, b2, R, L', by rw [hM]; rfl, hR, by rw [hL]; rfl, ?_, ?_⟩
        · rw [show Pre.length + (b :: P).length + 1 = (Pre ++ [b]).length + P.length + 1 by simp; omega]
          exact hal
        · intro c hcm
          apply hk
          simpa using hcm

/-! ## Properties -/

/-- `pieces` cuts exactly before the elements with `f`: no element is lost, and an element is preceded by another one in its piece
if and only if it does not have `f`, except at the beginning of the list. -/
theorem C101_pieces (f : Nat → Bool) (W : List Nat) : (pieces f W).flatten = W ∧
    ∃ A rest, pieces f W = A :: rest ∧ (∀ x ∈ A, f x = false) ∧ ∀ P ∈ rest, ∃ p t, P = p :: t ∧ f p = true ∧ ∀ x ∈ t, f x = false := by
  refine ⟨pieces_flatten f W, _, _, rfl, chunks_first f W, ?_⟩
  intro P hP
  obtain ⟨c, hc, rfl⟩ := List.mem_map.1 hP
  obtain ⟨h1, h2, _⟩ := chunks_mem f W c hc
  exact ⟨c.1, c.2, rfl, h1, h2⟩

/-- Before which words of a sentence it is split: those with the attribute except the first word, or those with the given value. -/
theorem C101_marked {d : Doc} (g : Good d) {b x : Nat} (hb : b ∈ d.bundles) (hx : x ∈ sentence d b) (v : Str) :
    (cutHere none d x = true ↔ d.attr x ≠ [] ∧ (sentence d b).head? ≠ some x) ∧ (cutHere (some v) d x = true ↔ d.attr x = v) := by
  constructor
  · obtain ⟨r, ht, _, hr⟩ := g.tree b hb
    have hsb := Good.sentence_eq ht
    have ha := (g.inv r hr).aligned
    rw [← hsb] at ha
    have key : 1 < d.heap.ord x ↔ (sentence d b).head? ≠ some x := by
      cases hs : sentence d b with
      | nil => rw [hs] at hx; cases hx
      | cons y l =>
        rw [hs] at ha hx
        obtain ⟨h1, h2⟩ := aligned_cons.1 ha
        simp only [List.head?_cons, ne_eq, Option.some.injEq]
        constructor
        · rintro h rfl
          omega
        · intro h
          rcases List.mem_cons.1 hx with rfl | hx
          · exact absurd rfl h
          · exact (aligned_mem h2 hx).1
    rw [← key]
    simp [cutHere, and_comm]
  · simp [cutHere]
    exact eq_comm

/-- C101, the part that holds: `util.SplitSentence` with a MISC attribute splits every sentence exactly before the words with the
attribute. No word is lost and the order stays. All trees are well formed. A word keeps its parent if that is in the same sentence and
otherwise is attached to the technical root. In sentences that were split the words attached to the technical root get the relation
`root`. The attribute is removed from the words where a sentence was split. The pieces get the id of the sentence with the letters A, B, ...
What is missing: empty nodes, multi-word tokens, and the attribute at the first word if `misc_value` is given. -/
theorem C101_split_partial {value : Option Str} (hv : value ≠ some []) {d : Doc} (g : Good d) (hm : ∀ x, d.mwts.of x = none) :
    ∃ d', (∀ fuel, (d.bundles.flatMap (parts value d)).length ≤ fuel → splitLoop value fuel 0 d = some (d', none)) ∧ Good d' ∧
      d'.bundles.map (sentence d') = d.bundles.flatMap (fun b => pieces (cutHere value d) (sentence d b)) ∧ docWords d' = docWords d ∧
      d'.bundles.map d'.bid = d.bundles.flatMap (partIds value d) ∧
      (∀ x ∈ docWords d, ∀ q, d.heap.parent x = some q →
        d'.heap.parent x = some (if d'.heap.root q = d'.heap.root x then q else d'.heap.root x)) ∧
      (∀ x ∈ docWords d, d'.attr x = if cutHere value d x then [] else d.attr x) ∧
      (∀ b ∈ d.bundles, ∀ x ∈ sentence d b, d'.deprel x =
        if isCut value d b = true ∧ d'.heap.parent x = some (d'.heap.root x) then dRoot else d.deprel x) := by
  have key := fun fuel hf => split_loop hv g.inv d.bundles [] d g hm rfl (edges_refl g.inv) fuel hf
  obtain ⟨d', M, e, g', ed, f, b', se, id', _, a, de, _, _⟩ := key _ (Nat.le_refl _)
  have b' : d'.bundles = M := b'
  refine ⟨d', ?_, g', by rw [b']; exact se, ?_, by rw [b']; exact id', ?_, ?_, de⟩
  · intro fuel hf
    obtain ⟨k, rfl⟩ := Nat.exists_eq_add_of_le hf
    exact splitLoop_mono k e
  · show d'.bundles.flatMap (sentence d') = d.bundles.flatMap (sentence d)
    rw [b', List.flatMap_def, se]
    generalize d.bundles = L
    induction L with
    | nil => rfl
    | cons b L ih =>
      rw [List.flatMap_cons, List.flatten_append, ih, List.flatMap_cons]
      congr 1
      exact pieces_flatten _ _
  · intro x hx q hq
    obtain ⟨b, hb, hxb⟩ := Good.mem_docWords.1 hx
    obtain ⟨r, ht, _, hr⟩ := g.tree b hb
    rw [Good.sentence_eq ht] at hxb
    exact ed.edge r hr x hxb q hq
  · intro x hx
    obtain ⟨b, hb, hxb⟩ := Good.mem_docWords.1 hx
    exact a b hb x hxb

/-- C101 does not hold: if `misc_value` is given and the first word of a sentence has it, a sentence without words is left. -/
theorem C101_first_violated {v : Str} (hv : v ≠ []) {d : Doc} (g : Good d) (hm : ∀ x, d.mwts.of x = none) {b x : Nat} (hb : b ∈ d.bundles)
    (hx : (sentence d b).head? = some x) (ha : d.attr x = v) :
    ∃ d', (∀ fuel, (d.bundles.flatMap (parts (some v) d)).length ≤ fuel → splitLoop (some v) fuel 0 d = some (d', none)) ∧
      [] ∈ d'.bundles.map (sentence d') := by
  obtain ⟨d', h1, _, h2, _⟩ := C101_split_partial (value := some v) (by simpa using hv) g hm
  refine ⟨d', h1, ?_⟩
  rw [h2, List.mem_flatMap]
  refine ⟨b, hb, ?_⟩
  cases hs : sentence d b with
  | nil => rw [hs] at hx; cases hx
  | cons y l =>
    rw [hs] at hx
    obtain rfl : y = x := by simpa using hx
    have : cutHere (some v) d y = true := by simp [cutHere, ha]
    unfold pieces chunks
    rw [if_pos this]
    exact List.mem_cons_self ..

/-- C101 does not hold: all empty nodes stay in the first piece. -/
theorem C101_empty_violated {value : Option Str} (hv : value ≠ some []) {d : Doc} (g : Good d) (hm : ∀ x, d.mwts.of x = none) {b r : Nat}
    (hb : b ∈ d.bundles) (ht : d.trees b = [r]) : ∃ d', (∀ fuel, (d.bundles.flatMap (parts value d)).length ≤ fuel → splitLoop value fuel 0 d = some (d', none)) ∧
      b ∈ d'.bundles ∧ d'.trees b = [r] ∧ d'.heap.words r = (sentence d b).takeWhile (fun x => !cutHere value d x) ∧ d'.empty r = d.empty r := by
  obtain ⟨d', M, e, g', ed, f, b', se, id', _, a, de, fp, _⟩ := split_loop hv g.inv d.bundles [] d g hm rfl (edges_refl g.inv) _ (Nat.le_refl _)
  obtain ⟨r', ht', _, hr⟩ := g.tree b hb
  rw [ht] at ht'
  obtain rfl : r = r' := by simpa using ht'
  have htr : d'.trees b = [r] := by rw [f.trees b (g.fresh b hb), ht]
  refine ⟨d', ?_, f.keep b hb, htr, ?_, f.empty r hr.1⟩
  · intro fuel hf
    obtain ⟨k, rfl⟩ := Nat.exists_eq_add_of_le hf
    exact splitLoop_mono k e
  · rw [← Good.sentence_eq htr, fp b hb]
    generalize sentence d b = W
    induction W with
    | nil => rfl
    | cons y l ih =>
      unfold chunks
      by_cases hy : cutHere value d y = true
      · rw [if_pos hy, List.takeWhile_cons_of_neg (by simp [hy])]
      · rw [if_neg hy, List.takeWhile_cons_of_pos (by simp [hy]), ih]

/-- C101 does not hold: with an empty `misc_value` the loop does not end if a word has no such attribute. -/
theorem C101_loop_violated {d : Doc} (g : Good d) (hm : ∀ x, d.mwts.of x = none) {x : Nat} (hx : x ∈ docWords d) (ha : d.attr x = []) (fuel : Nat) :
    splitLoop (some []) fuel 0 d = none := by
  have key : ∀ (fuel : Nat) (L Pre : List Nat) (d : Doc), Good d → (∀ x, d.mwts.of x = none) → d.bundles = Pre ++ L →
      L.any (isCut (some []) d) = true → splitLoop (some []) fuel Pre.length d = none := by
    intro fuel
    induction fuel with
    | zero =>
      intro L Pre d g hm hbs ha
      cases L with
      | nil => cases ha
      | cons b L =>
        unfold splitLoop
        rw [hbs, getElem?_mid rfl]
    | succ fuel ih =>
      intro L Pre d g hm hbs ha
      cases L with
      | nil => cases ha
      | cons b L =>
        unfold splitLoop
        rw [hbs, getElem?_mid rfl]
        simp only
        have hb : b ∈ d.bundles := by rw [hbs]; simp
        by_cases hc : isCut (some []) d b = true
        · obtain ⟨d1, N, e1, g1, m1, f1, b1, se1, id1, len1, ne1, idk1, a1, _⟩ := split_some g hm hbs rfl hc
          rw [e1]
          simp only
          rw [show Pre.length + 1 = (Pre ++ [b]).length by simp]
          refine ih (N ++ L) (Pre ++ [b]) d1 g1 m1 (by rw [b1]; simp) ?_
          cases N with
          | nil => exact absurd rfl ne1
          | cons c N =>
            unfold parts pieces at se1
            rw [List.map_cons, List.map_cons] at se1
            injection se1 with _ se1
            have hcm : sentence d1 c ∈ (chunks (cutHere (some []) d) (sentence d b)).2.map (fun c => c.1 :: c.2) := by
              rw [← se1]
              exact List.mem_cons_self ..
            obtain ⟨⟨p, t⟩, h1, h2⟩ := List.mem_map.1 hcm
            obtain ⟨h3, _, h5⟩ := chunks_mem _ _ _ h1
            rw [List.any_eq_true]
            refine ⟨c, by simp, ?_⟩
            unfold isCut
            rw [List.any_eq_true]
            refine ⟨p, by rw [← h2]; exact List.mem_cons_self .., ?_⟩
            unfold cutHere
            rw [a1 p (h5.subset (List.mem_cons_self ..)), if_pos h3]
            simp
        · have hc : isCut (some []) d b = false := by simpa using hc
          rw [split_none g hb hc]
          simp only
          rw [show Pre.length + 1 = (Pre ++ [b]).length by simp]
          refine ih L (Pre ++ [b]) d g hm (by rw [hbs]; simp) ?_
          rw [List.any_cons, hc, Bool.false_or] at ha
          exact ha
  refine key fuel d.bundles [] d g hm rfl ?_
  obtain ⟨b, hb, hxb⟩ := Good.mem_docWords.1 hx
  rw [List.any_eq_true]
  refine ⟨b, hb, ?_⟩
  unfold isCut
  rw [List.any_eq_true]
  exact ⟨x, hxb, by simp [cutHere, ha]⟩

/-- C101 does not hold: if the first piece that is split off has at least two words and its last word is in a multi-word token, an
exception is raised and its words are in no sentence. -/
theorem C101_mwt_violated {value : Option Str} {d : Doc} (g : Good d) (hm : d.mwts.Ok) {k b r : Nat} (hb : b ∈ d.bundles) (ht : d.trees b = [r])
    {A u : List Nat} {x y j : Nat} {rest : List (List Nat)} (hp : parts value d b = A :: (u ++ [x, y]) :: rest) (hne : A ++ rest.flatten ≠ [])
    (hj : d.mwts.of y = some j) :
    ∃ d', splitBundle value k b d = (d', some (.steal .valueError)) ∧ ∀ z ∈ u ++ [x, y], z ∉ d'.heap.words r ∧ z ∉ d'.heap.words d.heap.next ∧
      d'.heap.root z = d.heap.next := by
  obtain ⟨r', ht', hz, hr⟩ := g.tree b hb
  rw [ht] at ht'
  obtain rfl : r = r' := by simpa using ht'
  have hsb := Good.sentence_eq ht
  have hpts := chunks_filter (cutHere value d) (d.heap.words r)
  have hwp : d.heap.words r = (chunks (cutHere value d) (d.heap.words r)).1 ++ partWords (chunks (cutHere value d) (d.heap.words r)).2 :=
    chunks_eq (cutHere value d) (d.heap.words r)
  unfold parts pieces at hp
  rw [hsb] at hp
  injection hp with hA hp
  cases hC : (chunks (cutHere value d) (d.heap.words r)).2 with
  | nil => rw [hC] at hp; cases hp
  | cons c cs =>
    obtain ⟨p, t⟩ := c
    rw [hC, List.map_cons] at hp
    injection hp with hpt hcs
    simp only at hpt
    rw [hC] at hpts hwp
    rw [hA, show partWords ((p, t) :: cs) = p :: t ++ partWords cs from rfl] at hwp
    have hrest : rest.flatten = partWords cs := by rw [← hcs, partWords, List.flatMap_def]
    have hi1 := inv_newTree g.inv
    have hrn : r ≠ d.heap.next := Nat.ne_of_lt hr.1
    have hwn : (newTree d.heap).words r = A ++ (p :: t ++ partWords cs) := by rw [← hwp]; exact upd_ne _ _ hrn
    have isR1 : IsTree (newTree d.heap) r := ⟨Nat.lt_succ_of_lt hr.1, by rw [show (newTree d.heap).root r = d.heap.root r from upd_ne _ _ hrn]; exact hr.2⟩
    have isT1 : IsTree (newTree d.heap) d.heap.next := ⟨Nat.lt_succ_self _, by simp [newTree]⟩
    have w1 := hi1 r isR1
    have hsort := aligned_pairwise w1.aligned
    have hnd := w1.nodup
    rw [hwn] at hsort hnd
    have hps : (cs.map (·.1)).head? = (partWords cs).head? := by
      cases cs with
      | nil => rfl
      | cons c cs => rfl
    have hnodes : ((newTree d.heap).words r).filter (fun n => decide ((newTree d.heap).ord p ≤ (newTree d.heap).ord n) &&
        beforeNext (newTree d.heap).ord (cs.map (·.1)).head? n) = u ++ [x, y] := by
      rw [hwn, hps, ← hpt]
      exact filter_segment (f := (newTree d.heap).ord) hsort
    have hnot : ∀ z ∈ A ++ rest.flatten, z ∉ p :: t := by
      intro z hz hm
      rw [hrest] at hz
      rcases List.mem_append.1 hz with hz | hz
      · exact (List.nodup_append.1 hnd).2.2 z hz z (List.mem_append_left _ hm) rfl
      · exact (List.nodup_append.1 (List.nodup_append.1 hnd).2.1).2.2 z hm z hz rfl
    have gv : Given (newTree d.heap) r d.heap.next (u ++ [x, y]) := by
      rw [← hpt]
      refine ⟨hi1, isR1, isT1, hrn, by simp, ?_, (List.nodup_append.1 (List.nodup_append.1 hnd).2.1).1⟩
      intro z hz
      rw [hwn]
      exact List.mem_append_right _ (List.mem_append_left _ hz)
    have hS : inOrder (newTree d.heap) r (u ++ [x, y]) = u ++ [x, y] := by
      rw [← sort_eq gv.weak]
      refine sorted_ext (ord := (newTree d.heap).ord) ?_ ?_ ?_
      · exact sortNodes_pairwise gv.nodup (fun a ha b hb e => w1.ord_inj (.inr (gv.sub a ha)) (.inr (gv.sub b hb)) e)
      · rw [← hpt]
        exact (List.pairwise_append.1 (List.pairwise_append.1 hsort).2.1).1
      · intro z
        exact mem_sortNodes
    obtain ⟨z, hzm⟩ : ∃ z, z ∈ A ++ rest.flatten := List.exists_mem_of_ne_nil _ hne
    have hzw : z ∈ (newTree d.heap).words r := by
      rw [hwn]
      rw [hrest] at hzm
      rcases List.mem_append.1 hzm with h | h
      · exact List.mem_append_left _ h
      · exact List.mem_append_right _ (List.mem_append_right _ h)
    obtain ⟨h', m', e, hout⟩ := C50_mwt_last_violated gv hm hzw (by rw [← hpt]; exact hnot z hzm) hS hj
    refine ⟨{ newBundle d (d.bid b ++ [letter 0]) with heap := h', mwts := m' }, ?_, ?_⟩
    · unfold splitBundle
      rw [Good.getTree_eq ht hz]
      simp only
      rw [if_neg (by rw [hpts]; simp), hpts, List.map_cons]
      conv => lhs; unfold splitGo
      simp only
      rw [show steal (newBundle d (d.bid b ++ [letter 0])).heap (newBundle d (d.bid b ++ [letter 0])).mwts d.heap.next
        (List.filter (fun n => decide ((newBundle d (d.bid b ++ [letter 0])).heap.ord p ≤ (newBundle d (d.bid b ++ [letter 0])).heap.ord n) &&
          beforeNext (newBundle d (d.bid b ++ [letter 0])).heap.ord (cs.map (·.1)).head? n) ((newBundle d (d.bid b ++ [letter 0])).heap.words r)) =
          (h', m', some .valueError) from
        (congrArg (steal (newTree d.heap) d.mwts d.heap.next) hnodes).trans e]
    · intro z hz
      obtain ⟨h1, h2, h3⟩ := hout z hz
      exact ⟨h3, h2, h1⟩

/-- C102 does not hold: if the bundles are numbered 1, 2, ... as `create_bundle` does, then after any split two neighbouring bundles have the
same number. -/
theorem C102_number_violated {value : Option Str} (hv : value ≠ some []) {d : Doc} (g : Good d) (hm : ∀ x, d.mwts.of x = none)
    (hn : Aligned d.number 1 d.bundles) (hc : d.bundles.any (isCut value d) = true) :
    ∃ d', (∀ fuel, (d.bundles.flatMap (parts value d)).length ≤ fuel → splitLoop value fuel 0 d = some (d', none)) ∧
      ∃ P b c R, d'.bundles = P ++ b :: c :: R ∧ b ≠ c ∧ d'.number b = d'.number c ∧
        ∀ x ∈ sentence d' b, ∀ y ∈ sentence d' c, precedesIn d' b c x y = false ∧ precedesIn d' c b y x = false := by
  obtain ⟨d', M, e, g', ed, f, b', se, id', _, a, de, fp, _, nu⟩ := split_loop hv g.inv d.bundles [] d g hm rfl (edges_refl g.inv) _ (Nat.le_refl _)
  obtain ⟨P, b, R, L', hM, hR, hL, hal, hk⟩ := nu hc
  refine ⟨d', ?_, ?_⟩
  · intro fuel hf
    obtain ⟨k, rfl⟩ := Nat.exists_eq_add_of_le hf
    exact splitLoop_mono k e
  · cases R with
    | nil => exact absurd rfl hR
    | cons c R =>
      have b' : d'.bundles = M := b'
      have hbc : b ≠ c := by
        have hnd := g'.nodup
        rw [b', hM] at hnd
        have := (List.nodup_cons.1 (List.nodup_append.1 hnd).2.1).1
        intro e
        exact this (by rw [e]; exact List.mem_cons_self ..)
      have hnum : d'.number b = d'.number c := by
        rw [hk b (by simp), (aligned_cons.1 hal).1]
        rw [hL, aligned_append, aligned_cons] at hn
        rw [hn.2.1]
        simp
        omega
      refine ⟨P, b, c, R, by rw [b', hM], hbc, hnum, ?_⟩
      intro x hx y hy
      have hb' : b ∈ d'.bundles := by rw [b', hM]; simp
      have hc' : c ∈ d'.bundles := by rw [b', hM]; simp
      obtain ⟨r, h1, _, h2⟩ := g'.tree b hb'
      obtain ⟨q, h3, _, h4⟩ := g'.tree c hc'
      have hne : d'.heap.root x ≠ d'.heap.root y := by
        rw [g'.root_eq hb' h1 hx, g'.root_eq hc' h3 hy]
        rintro rfl
        exact hbc (g'.own b hb' c hc' r (by simp [h1]) (by simp [h3]))
      simp [precedesIn, hne, Ne.symm hne, hnum]

/-- C102, the part that holds: if the bundles are numbered 0, 1, ..., they are afterwards. -/
theorem C102_zero_partial {value : Option Str} (hv : value ≠ some []) {d : Doc} (g : Good d) (hm : ∀ x, d.mwts.of x = none)
    (hn : Aligned d.number 0 d.bundles) :
    ∃ d', (∀ fuel, (d.bundles.flatMap (parts value d)).length ≤ fuel → splitLoop value fuel 0 d = some (d', none)) ∧
      Aligned d'.number 0 d'.bundles := by
  obtain ⟨d', M, e, g', ed, f, b', se, id', _, a, de, fp, nn, nu⟩ := split_loop hv g.inv d.bundles [] d g hm rfl (edges_refl g.inv) _ (Nat.le_refl _)
  refine ⟨d', ?_, ?_⟩
  · intro fuel hf
    obtain ⟨k, rfl⟩ := Nat.exists_eq_add_of_le hf
    exact splitLoop_mono k e
  · have hany : d.bundles.any (isCut value d) = false ∨ d.bundles.any (isCut value d) = true := by
      cases d.bundles.any (isCut value d) <;> simp
    rcases hany with ha | ha
    · rw [nn ha]
      exact hn
    · obtain ⟨P, b, R, L', hM, hR, hL, hal, hk⟩ := nu ha
      have b' : d'.bundles = M := b'
      rw [b', hM, show P ++ b :: R = (P ++ [b]) ++ R by simp, aligned_append]
      constructor
      · rw [hL, show P ++ b :: L' = (P ++ [b]) ++ L' by simp, aligned_append] at hn
        exact (aligned_congr (fun c hc => hk c hc)).2 hn.1
      · simpa using hal

/-- C101 for `sent_id` and `word_id`: the first sentence with that id is split before the word with that number and nothing else is
split. Edges as above.
What is missing: empty nodes and multi-word tokens. -/
theorem C101_id_partial {sid : Str} {w : Nat} {d : Doc} (g : Good d) (hm : ∀ x, d.mwts.of x = none) {b : Nat} {Pre Post : List Nat}
    (hbs : d.bundles = Pre ++ b :: Post) (hpre : ∀ c ∈ Pre, d.bid c ≠ sid) (hid : d.bid b = sid) (hw1 : 1 ≤ w) (hw2 : w ≤ (sentence d b).length) :
    ∃ d', splitById sid w 0 d.bundles d = (d', none) ∧ Good d' ∧
      d'.bundles.map (sentence d') = Pre.map (sentence d) ++ (sentence d b).take (w - 1) :: (sentence d b).drop (w - 1) :: Post.map (sentence d) ∧
      d'.bundles.map d'.bid = Pre.map d.bid ++ (sid ++ ['A']) :: (sid ++ ['B']) :: Post.map d.bid ∧ docWords d' = docWords d ∧
      (∀ x ∈ docWords d, ∀ q, d.heap.parent x = some q →
        d'.heap.parent x = some (if d'.heap.root q = d'.heap.root x then q else d'.heap.root x)) := by
  have hb : b ∈ d.bundles := by rw [hbs]; simp
  obtain ⟨r, ht, hz, hr⟩ := g.tree b hb
  have hsb := Good.sentence_eq ht
  have wf := g.inv r hr
  rw [hsb] at hw2 ⊢
  have hskip : ∀ (P : List Nat) (k : Nat), (∀ c ∈ P, d.bid c ≠ sid) → splitById sid w k (P ++ b :: Post) d = splitById sid w (k + P.length) (b :: Post) d := by
    intro P
    induction P with
    | nil => intro k _; rfl
    | cons c P ih =>
      intro k hP
      rw [List.cons_append]
      conv => lhs; unfold splitById
      rw [if_neg (hP c (List.mem_cons_self ..)), ih (k + 1) (fun x hx => hP x (List.mem_cons_of_mem _ hx)), List.length_cons,
        show k + 1 + P.length = k + (P.length + 1) by omega]
  -- the words that are moved
  have hsplit := List.take_append_drop (w - 1) (d.heap.words r)
  cases hdr : (d.heap.words r).drop (w - 1) with
  | nil =>
    have := congrArg List.length hdr
    simp at this
    omega
  | cons p t =>
    have hal := wf.aligned
    have hwp : d.heap.words r = (d.heap.words r).take (w - 1) ++ (p :: t ++ []) := by
      rw [List.append_nil, ← hdr]
      exact hsplit.symm
    generalize hA : (d.heap.words r).take (w - 1) = A at *
    have hAl : A.length = w - 1 := by
      rw [← hA, List.length_take]
      omega
    have hordp : d.heap.ord p = w := by
      rw [hwp, aligned_append] at hal
      have := (aligned_cons.1 hal.2).1
      rw [hAl] at this
      omega
    have hnodes : (d.heap.words r).filter (fun n => decide (w ≤ d.heap.ord n)) = p :: t := by
      have hsort := aligned_pairwise hal
      rw [hwp] at hsort
      have := filter_segment (f := d.heap.ord) hsort
      rw [← hwp, hordp] at this
      simpa [beforeNext] using this
    have s : Semi d r := ⟨wf.weaken, hr, fun s hs _ => g.inv s hs, g.nodup, g.tree, g.own, g.fresh, hm⟩
    obtain ⟨d2, e2, s2, f2, w2, b2, se2, id2, n2, a2, o2, _, _, r2, ed2, nu2⟩ :=
      split_step (id := sid) (ps := []) (N := []) (Post := Post) (k := Pre.length) (i := 0) s hwp rfl (by rw [hbs]; rfl) rfl rfl ht
    have e3 : splitGo Pre.length r sid 0 [p] d = (d2, none) := by rw [e2]; rfl
    -- the same call of `steal_nodes`
    have hrn : r ≠ d.heap.next := Nat.ne_of_lt hr.1
    have hordn : ∀ n ∈ d.heap.words r, (newTree d.heap).ord n = d.heap.ord n := fun n hn => upd_ne _ _ (Nat.ne_of_lt (wf.alloc n hn))
    have hnodes' : ((newTree d.heap).words r).filter (fun n => decide ((newTree d.heap).ord p ≤ (newTree d.heap).ord n) &&
        beforeNext (newTree d.heap).ord ([] : List Nat).head? n) = p :: t := by
      rw [show (newTree d.heap).words r = d.heap.words r from upd_ne _ _ hrn, ← hnodes]
      have hpm : p ∈ d.heap.words r := by rw [hwp]; simp
      apply List.filter_congr
      intro n hn
      rw [hordn n hn, hordn p hpm, hordp]
      simp [beforeNext]
    cases hst : steal (newTree d.heap) d.mwts d.heap.next (p :: t) with
    | mk h rest =>
      obtain ⟨m, o⟩ := rest
      unfold splitGo at e3
      simp only at e3
      rw [show steal (newBundle d (sid ++ [letter 0])).heap (newBundle d (sid ++ [letter 0])).mwts d.heap.next
        (List.filter (fun n => decide ((newBundle d (sid ++ [letter 0])).heap.ord p ≤ (newBundle d (sid ++ [letter 0])).heap.ord n) &&
          beforeNext (newBundle d (sid ++ [letter 0])).heap.ord ([] : List Nat).head? n) ((newBundle d (sid ++ [letter 0])).heap.words r)) = (h, m, o) from
        (congrArg (steal (newTree d.heap) d.mwts d.heap.next) hnodes').trans hst] at e3
      cases o with
      | some e => simp at e3
      | none =>
        simp only [splitGo] at e3
        injection e3 with e3 _
        have hh : d2.heap = h := by rw [← e3]
        have htr : d2.trees = upd d.trees d.nextB [d.heap.next] := by rw [← e3]; rfl
        have hzn : d2.zone = upd d.zone d.heap.next [] := by rw [← e3]; rfl
        have hbn : d.bundles.take (Pre.length + 1) ++ d.nextB :: d.bundles.drop (Pre.length + 1) = d2.bundles := by rw [← e3]
        have hnb : d.nextB ∉ d.bundles := fun hm => Nat.lt_irrefl _ (s.fresh _ hm)
        have hbnb : b ≠ d.nextB := fun e => hnb (e ▸ hb)
        have hnd := g.nodup
        rw [hbs] at hnd
        have hbPre : b ∉ Pre := fun hm => (List.nodup_append.1 hnd).2.2 b hm b (by simp) rfl
        have hbPost : b ∉ Post := (List.nodup_cons.1 (List.nodup_append.1 hnd).2.1).1
        have hwf2 : WF d2.heap r := by
          refine s2.wr.strengthen ?_
          rw [w2, List.append_nil]
          rw [hwp, aligned_append] at hal
          exact (aligned_congr (fun x hx => o2 x (by simpa using hx))).2 hal.1
        have hmap : (d.bundles.take (Pre.length + 1) ++ d.nextB :: d.bundles.drop (Pre.length + 1)).map (fun c => (upd d.trees d.nextB [d.heap.next] c).flatMap h.words) =
            Pre.map (sentence d) ++ A :: (p :: t) :: Post.map (sentence d) := by
          have hsent : (fun c => (upd d.trees d.nextB [d.heap.next] c).flatMap h.words) = sentence d2 := by
            funext c
            show _ = (d2.trees c).flatMap d2.heap.words
            rw [htr, hh]
          rw [hbn, hsent, b2]
          have hsame : ∀ c ∈ d.bundles, c ≠ b → sentence d2 c = sentence d c := by
            intro c hc hcb
            refine f2.sent c hc ?_
            intro x hx hxc
            exact hcb (g.disjoint hc hb hxc (by rw [hsb]; exact hx))
          have hbs2 : sentence d2 b = A := by
            have : d2.trees b = [r] := by rw [htr, upd_ne _ _ hbnb, ht]
            rw [Good.sentence_eq this, w2, List.append_nil]
          rw [List.map_append, List.map_cons, hbs2]
          simp only [List.nil_append, List.cons_append, List.map_cons]
          rw [se2]
          congr 1
          · apply List.map_congr_left
            intro c hc
            exact hsame c (by rw [hbs]; simp [hc]) (fun e => hbPre (e ▸ hc))
          · congr 2
            apply List.map_congr_left
            intro c hc
            exact hsame c (by rw [hbs]; simp [hc]) (fun e => hbPost (e ▸ hc))
        refine ⟨{ newBundle d (sid ++ ['B']) with
            heap := h
            mwts := m
            bundles := d.bundles.take (Pre.length + 1) ++ d.nextB :: d.bundles.drop (Pre.length + 1)
            number := renumber (upd d.number d.nextB (d.bundles.length + 1)) (Pre.length + 1)
              ((d.bundles.take (Pre.length + 1) ++ d.nextB :: d.bundles.drop (Pre.length + 1)).drop (Pre.length + 1))
            bid := upd (upd d.bid d.nextB (sid ++ ['B'])) b (upd d.bid d.nextB (sid ++ ['B']) b ++ ['A'])
            deprel := zeroRoots h (zeroRoots h d.deprel (h.words r)) (h.words d.heap.next) }, ?_, ?_, ?_, ?_, ?_, ?_⟩
        · rw [hbs, hskip Pre 0 hpre, Nat.zero_add, ← hbs]
          unfold splitById
          rw [if_pos hid, Good.getTree_eq ht hz]
          simp only
          rw [hnodes, show steal (newBundle d (d.bid b ++ ['B'])).heap (newBundle d (d.bid b ++ ['B'])).mwts d.heap.next (p :: t) = (h, m, none) from hst]
          simp only [hid]
          rfl
        · refine ⟨?_, ?_, ?_, ?_, ?_⟩
          · intro q hq
            show WF h q
            rw [← hh] at hq ⊢
            by_cases hqr : q = r
            · rw [hqr]; exact hwf2
            · exact s2.others q hq hqr
          · show (d.bundles.take (Pre.length + 1) ++ d.nextB :: d.bundles.drop (Pre.length + 1)).Nodup
            rw [hbn]; exact s2.nodup
          · intro c hc
            have hc : c ∈ d2.bundles := by rw [← hbn]; exact hc
            obtain ⟨q, h1, h2, h3⟩ := s2.tree c hc
            rw [htr] at h1
            rw [hzn] at h2
            rw [hh] at h3
            exact ⟨q, h1, h2, h3⟩
          · intro c hc c' hc' q h1 h2
            have hc : c ∈ d2.bundles := by rw [← hbn]; exact hc
            have hc' : c' ∈ d2.bundles := by rw [← hbn]; exact hc'
            exact s2.own c hc c' hc' q (by rw [htr]; exact h1) (by rw [htr]; exact h2)
          · intro c hc
            have hc : c ∈ d2.bundles := by rw [← hbn]; exact hc
            have := s2.fresh c hc
            rw [n2] at this
            exact this
        · exact hmap
        · show (d.bundles.take (Pre.length + 1) ++ d.nextB :: d.bundles.drop (Pre.length + 1)).map
            (upd (upd d.bid d.nextB (sid ++ ['B'])) b (upd d.bid d.nextB (sid ++ ['B']) b ++ ['A'])) = _
          rw [hbn, b2]
          have hsame : ∀ c ∈ d.bundles, c ≠ b → upd (upd d.bid d.nextB (sid ++ ['B'])) b (upd d.bid d.nextB (sid ++ ['B']) b ++ ['A']) c = d.bid c := by
            intro c hc hcb
            have hcn : c ≠ d.nextB := fun e => hnb (e ▸ hc)
            rw [upd_ne _ _ hcb, upd_ne _ _ hcn]
          simp only [List.map_append, List.map_cons, List.nil_append, List.cons_append]
          congr 1
          · apply List.map_congr_left
            intro c hc
            exact hsame c (by rw [hbs]; simp [hc]) (fun e => hbPre (e ▸ hc))
          · congr 1
            · rw [upd_ne _ _ hbnb, hid]
              simp [upd]
            · congr 1
              · rw [upd_ne _ _ (Ne.symm hbnb)]
                simp [upd]
              · apply List.map_congr_left
                intro c hc
                exact hsame c (by rw [hbs]; simp [hc]) (fun e => hbPost (e ▸ hc))
        · show (d.bundles.take (Pre.length + 1) ++ d.nextB :: d.bundles.drop (Pre.length + 1)).flatMap
            (fun c => (upd d.trees d.nextB [d.heap.next] c).flatMap h.words) = docWords d
          rw [List.flatMap_def, hmap, docWords, hbs, List.flatMap_def, List.map_append, List.map_cons, hsb, hwp]
          simp
        · intro x hx q hq
          show h.parent x = some (if h.root q = h.root x then q else h.root x)
          obtain ⟨c, hc, hxc⟩ := Good.mem_docWords.1 hx
          obtain ⟨q', ht', _, hr'⟩ := g.tree c hc
          rw [Good.sentence_eq ht'] at hxc
          have := (ed2 d.heap g.inv (edges_refl g.inv)).edge q' hr' x hxc q hq
          rw [hh] at this
          exact this

/-- C101 does not hold: if `word_id` is larger than the number of words, an exception is raised after a bundle without words has been
added and the id has been changed. -/
theorem C101_id_range_violated {sid : Str} {w : Nat} {d : Doc} (g : Good d) {b : Nat} {Post : List Nat} (hbs : d.bundles = b :: Post) (hid : d.bid b = sid)
    (hw : (sentence d b).length < w) : ∃ d', splitById sid w 0 d.bundles d = (d', some (.steal .indexError)) ∧ d'.bundles = b :: d.nextB :: Post ∧
      sentence d' d.nextB = [] ∧ d'.bid b = sid ++ ['A'] := by
  have hb : b ∈ d.bundles := by rw [hbs]; simp
  obtain ⟨r, ht, hz, hr⟩ := g.tree b hb
  have hnb : d.nextB ∉ d.bundles := fun hm => Nat.lt_irrefl _ (g.fresh _ hm)
  have hbnb : b ≠ d.nextB := fun e => hnb (e ▸ hb)
  have hnodes : (d.heap.words r).filter (fun n => decide (w ≤ d.heap.ord n)) = [] := by
    rw [List.filter_eq_nil_iff]
    intro n hn
    have := (aligned_mem (g.inv r hr).aligned hn).2.1
    rw [Good.sentence_eq ht] at hw
    simp
    omega
  rw [hbs]
  unfold splitById
  rw [if_pos hid, Good.getTree_eq ht hz]
  simp only
  rw [hnodes]
  refine ⟨_, rfl, ?_, ?_, ?_⟩
  · rw [hbs]
    rfl
  · show (upd d.trees d.nextB [d.heap.next] d.nextB).flatMap (newTree d.heap).words = []
    simp [upd, newTree]
  · show upd (upd d.bid d.nextB _) b (upd d.bid d.nextB _ b ++ ['A']) b = _
    simp [upd, hbnb, hid]

/-! ## Examples -/

/-- Word 2 has the attribute; so does word 6, which is the first word of its sentence. -/
def exSplit : Doc := exDoc (fun x => if x = 2 ∨ x = 6 then ['Y'] else [])

example : ∃ r, splitLoop none 9 0 exSplit = some r ∧ r.2 = none ∧ r.1.bundles.map (sentence r.1) = [[1], [2], [4], [6, 7]] ∧
    r.1.bundles.map r.1.bid = [['s', '0', 'A'], ['s', '0', 'B'], ['s', '1'], ['s', '2']] ∧ r.1.heap.parent 2 = some 8 ∧ r.1.attr 2 = [] ∧
    r.1.attr 6 = ['Y'] ∧ r.1.deprel 2 = dRoot := ⟨_, rfl, by decide +kernel⟩

example : (splitLoop (some ['Y']) 9 0 exSplit).map (fun r => (r.2, r.1.bundles.map (sentence r.1), r.1.bundles.map r.1.number)) =
    some (none, [[1], [2], [4], [], [6, 7]], [1, 1, 2, 3, 4]) := by decide +kernel

example : let r := splitById ['s', '2'] 2 0 exSplit.bundles exSplit
    (r.2, r.1.bundles.map (sentence r.1), r.1.heap.parent 7) = (none, [[1, 2], [4], [6], [7]], some 8) := by decide +kernel

end Verif.Sent
