import Verif.Py.Num

/-!
# Properties C52 and C86: segment.Simple (udapi/block/segment/simple.py)

`is_boundary` (simple.py:30-54) is an arbitrary function, and so is `_should_process_tree` as a function of the zone. A bundle is
its id, its number (`none`: the attribute is not set) and the zones and texts of its trees, which have no nodes (otherwise the
block raises, simple.py:80-81).
-/

namespace Verif.Text
open Verif.Py

/-- The loop of `segment_string` (simple.py:62-69); `cur` is the last of the segments. -/
def segLoop (keep : Bool) (boundary : Str → Str → Bool) : Str → Str → List Str → List Str
  | _, cur, [] => [cur]
  | prev, cur, t :: ts =>
    if boundary prev t then (if keep then cur ++ [' '] else cur) :: segLoop keep boundary t t ts
    else segLoop keep boundary t (cur ++ ' ' :: t) ts

/-- `segment_string(string)` (simple.py:57-70) -/
def segment (keep : Bool) (boundary : Str → Str → Bool) (s : Str) : List Str :=
  match split ' ' s with
  | [] => []
  | t :: ts => segLoop keep boundary t t ts

structure Bun where
  id : Str
  number : Option Nat
  trees : List (Str × Str)
  deriving DecidableEq

/-- The new bundles of one tree (simple.py:87-90). -/
def newBundles (orig zone : Str) : Nat → List Str → List Bun
  | _, [] => []
  | i, s :: ss => ⟨orig ++ '-' :: natStr i, none, [(zone, s)]⟩ :: newBundles orig zone (i + 1) ss

/-- The loop over the trees of a bundle (simple.py:78-90): the id, the trees, and the new bundles. -/
def segTrees (seg : Str → List Str) (should : Str → Bool) : Str → List (Str × Str) → Str × List (Str × Str) × List Bun
  | id, [] => (id, [], [])
  | id, (z, x) :: ts =>
    if should z then
      let r := segTrees seg should (id ++ ['-', '1']) ts
      match seg x with
      | s :: s' :: ss => (r.1, (z, s) :: r.2.1, newBundles id z 2 (s' :: ss) ++ r.2.2)
      | _ => (r.1, (z, x) :: r.2.1, r.2.2)
    else
      let r := segTrees seg should id ts
      (r.1, (z, x) :: r.2.1, r.2.2)

/-- `process_document(doc)` (simple.py:73-91) -/
def segDoc (seg : Str → List Str) (should : Str → Bool) (doc : List Bun) : List Bun :=
  doc.flatMap (fun b => let r := segTrees seg should b.id b.trees; ⟨r.1, b.number, r.2.1⟩ :: r.2.2)

/-- The texts of a zone, in the order of the bundles. -/
def texts (z : Str) (doc : List Bun) : List Str := doc.flatMap (fun b => (b.trees.filter (fun p => p.1 == z)).map (·.2))

/-! ## Proofs -/

theorem segLoop_ne (keep : Bool) (boundary : Str → Str → Bool) : ∀ (ts : List Str) (prev cur : Str), segLoop keep boundary prev cur ts ≠ []
  | [], _, _ => by simp [segLoop]
  | t :: ts, prev, cur => by
    unfold segLoop
    split
    · simp
    · exact segLoop_ne keep boundary ts _ _

/-- The pieces joined with a space, after the first one. -/
theorem join_cons_ne {x : Str} {l : List Str} (h : l ≠ []) : join [' '] (x :: l) = x ++ ' ' :: join [' '] l := by
  cases l with
  | nil => exact absurd rfl h
  | cons y l => show x ++ [' '] ++ join [' '] (y :: l) = _; simp

theorem segLoop_join (boundary : Str → Str → Bool) : ∀ (ts : List Str) (prev cur : Str),
    join [' '] (segLoop false boundary prev cur ts) = join [' '] (cur :: ts)
  | [], _, _ => rfl
  | t :: ts, prev, cur => by
    unfold segLoop
    split
    · rw [if_neg (by decide), join_cons_ne (segLoop_ne _ _ _ _ _), segLoop_join boundary ts t t, join_cons_ne (l := t :: ts) (by simp)]
    · rw [segLoop_join boundary ts t _, join_cons_ne (x := cur) (by simp)]
      cases ts with
      | nil => rfl
      | cons y ys => rw [join_cons_ne (by simp), join_cons_ne (x := t) (by simp)]; simp

theorem segLoop_flatten (boundary : Str → Str → Bool) : ∀ (ts : List Str) (prev cur : Str),
    (segLoop true boundary prev cur ts).flatten = join [' '] (cur :: ts)
  | [], _, cur => by simp [segLoop, join]
  | t :: ts, prev, cur => by
    unfold segLoop
    split
    · rw [if_pos rfl, List.flatten_cons, segLoop_flatten boundary ts t t, join_cons_ne (l := t :: ts) (by simp)]
      simp
    · rw [segLoop_flatten boundary ts t _, join_cons_ne (x := cur) (by simp)]
      cases ts with
      | nil => rfl
      | cons y ys => rw [join_cons_ne (by simp), join_cons_ne (x := t) (by simp)]; simp

/-- C52: for every text and every decision about boundaries, there is at least one sentence; the sentences joined with spaces give
back the text, and with `keep_spaces` their concatenation does. -/
theorem C52_string (boundary : Str → Str → Bool) (s : Str) :
    segment false boundary s ≠ [] ∧ join [' '] (segment false boundary s) = s ∧
    segment true boundary s ≠ [] ∧ (segment true boundary s).flatten = s := by
  have hj := join_split ' ' s
  unfold segment
  cases h : split ' ' s with
  | nil => exact absurd h (split_ne_nil ' ' s)
  | cons t ts =>
    rw [h] at hj
    exact ⟨segLoop_ne _ _ _ _ _, by simp only; rw [segLoop_join, hj], segLoop_ne _ _ _ _ _, by simp only; rw [segLoop_flatten, hj]⟩

theorem texts_cons (z : Str) (b : Bun) (d : List Bun) : texts z (b :: d) = (b.trees.filter (fun p => p.1 == z)).map (·.2) ++ texts z d := rfl

theorem texts_append (z : Str) (a b : List Bun) : texts z (a ++ b) = texts z a ++ texts z b := by
  unfold texts; rw [List.flatMap_append]

theorem texts_new (id zone z : Str) : ∀ (ss : List Str) (i : Nat), texts z (newBundles id zone i ss) = if zone = z then ss else []
  | [], i => by unfold newBundles; simp [texts]
  | s :: ss, i => by
    unfold newBundles
    rw [texts_cons, texts_new id zone z ss (i + 1)]
    by_cases h : zone = z
    · simp [h]
    · simp [h]

theorem segTrees_texts (seg : Str → List Str) (should : Str → Bool) (z : Str) (hseg : ∀ x, seg x ≠ [])
    (h1 : ∀ x s, seg x = [s] → s = x) : ∀ (ts : List (Str × Str)) (id : Str), (ts.map (·.1)).Nodup →
    ((segTrees seg should id ts).2.1.filter (fun p => p.1 == z)).map (·.2) ++ texts z (segTrees seg should id ts).2.2 =
      ((ts.filter (fun p => p.1 == z)).map (·.2)).flatMap (fun x => if should z then seg x else [x]) ∧
    (z ∉ ts.map (·.1) → ((segTrees seg should id ts).2.1.filter (fun p => p.1 == z)).map (·.2) = [] ∧ texts z (segTrees seg should id ts).2.2 = [])
  | [], _, _ => ⟨by simp [segTrees, texts], fun _ => by simp [segTrees, texts]⟩
  | (zone, x) :: ts, id, hn => by
    rw [List.map_cons, List.nodup_cons] at hn
    unfold segTrees
    by_cases hz : zone = z
    · subst hz
      have hz' : ((zone == zone) : Bool) = true := by simp
      refine ⟨?_, fun h => absurd (List.mem_cons_self ..) h⟩
      have hts : ts.filter (fun p => p.1 == zone) = [] := by
        rw [List.filter_eq_nil_iff]
        intro p hp he
        exact hn.1 (by simp only [beq_iff_eq] at he; exact List.mem_map.2 ⟨p, hp, he⟩)
      by_cases hs : should zone = true
      · rw [if_pos hs]
        obtain ⟨_, h3⟩ := segTrees_texts seg should zone hseg h1 ts (id ++ ['-', '1']) hn.2
        obtain ⟨h4, h5⟩ := h3 hn.1
        cases hx : seg x with
        | nil => exact absurd hx (hseg x)
        | cons s ss =>
          cases ss with
          | nil => simp [h4, h5, hts, hs, hx, h1 x s hx]
          | cons s' ss =>
            simp only [List.filter_cons, hz', if_true, List.map_cons, List.cons_append, h4, List.nil_append, texts_append, h5,
              List.append_nil, texts_new, hts, hs, List.map_nil, List.flatMap_cons, List.flatMap_nil, hx]
      · rw [if_neg hs]
        obtain ⟨_, h3⟩ := segTrees_texts seg should zone hseg h1 ts id hn.2
        obtain ⟨h4, h5⟩ := h3 hn.1
        simp [h4, h5, hts, hs]
    · have hzb : ((zone == z) : Bool) = false := by simpa using hz
      have key : ∀ id', (((segTrees seg should id' ts).2.1.filter (fun p => p.1 == z)).map (·.2) ++ texts z (segTrees seg should id' ts).2.2 =
          ((((zone, x) :: ts).filter (fun p => p.1 == z)).map (·.2)).flatMap (fun x => if should z then seg x else [x])) ∧
          (z ∉ ((zone, x) :: ts).map (·.1) → ((segTrees seg should id' ts).2.1.filter (fun p => p.1 == z)).map (·.2) = [] ∧
            texts z (segTrees seg should id' ts).2.2 = []) := by
        intro id'
        obtain ⟨a, b⟩ := segTrees_texts seg should z hseg h1 ts id' hn.2
        refine ⟨?_, fun h => b (fun h' => h (List.mem_cons_of_mem _ h'))⟩
        rw [a]
        simp [hzb]
      by_cases hs : should zone = true
      · rw [if_pos hs]
        obtain ⟨a, b⟩ := key (id ++ ['-', '1'])
        cases hx : seg x with
        | nil => exact absurd hx (hseg x)
        | cons s ss =>
          cases ss with
          | nil =>
            simp only [List.filter_cons, hzb, Bool.false_eq_true, if_false] at a b ⊢
            exact ⟨a, b⟩
          | cons s' ss =>
            simp only [List.filter_cons, hzb, Bool.false_eq_true, if_false, texts_append, texts_new, hz, List.nil_append] at a b ⊢
            exact ⟨a, b⟩
      · rw [if_neg hs]
        obtain ⟨a, b⟩ := key id
        simp only [List.filter_cons, hzb, Bool.false_eq_true, if_false] at a b ⊢
        exact ⟨a, b⟩

/-- C52: in a document with any zones, the texts of each zone that is processed become their sentences, in the same order; the
other zones are not changed. -/
theorem C52_document (keep : Bool) (boundary : Str → Str → Bool) (should : Str → Bool) (doc : List Bun) (z : Str)
    (hz : ∀ b ∈ doc, (b.trees.map (·.1)).Nodup) :
    texts z (segDoc (segment keep boundary) should doc) =
      (texts z doc).flatMap (fun x => if should z then segment keep boundary x else [x]) := by
  have hseg : ∀ x, segment keep boundary x ≠ [] := by
    intro x
    cases keep with
    | false => exact (C52_string boundary x).1
    | true => exact (C52_string boundary x).2.2.1
  have h1 : ∀ x s, segment keep boundary x = [s] → s = x := by
    intro x s h
    cases keep with
    | false => have := (C52_string boundary x).2.1; rw [h] at this; exact this
    | true => have := (C52_string boundary x).2.2.2; rw [h] at this; simpa using this
  induction doc with
  | nil => rfl
  | cons b doc ih =>
    have e : segDoc (segment keep boundary) should (b :: doc) =
        (⟨(segTrees (segment keep boundary) should b.id b.trees).1, b.number, (segTrees (segment keep boundary) should b.id b.trees).2.1⟩ ::
          (segTrees (segment keep boundary) should b.id b.trees).2.2) ++ segDoc (segment keep boundary) should doc := rfl
    rw [e, texts_append, ih (fun b' hb' => hz b' (List.mem_cons_of_mem _ hb')), texts_cons, texts_cons, List.flatMap_append,
      (segTrees_texts _ should z hseg h1 b.trees b.id (hz b (List.mem_cons_self ..))).1]

/-- A boundary after a full stop. -/
def exBoundary (a _b : Str) : Bool := a.getLast? == some '.'

example : segment false exBoundary ['A', 'b', '.', ' ', 'C', ' ', 'd', '.'] = [['A', 'b', '.'], ['C', ' ', 'd', '.']] ∧
    segment true exBoundary ['A', 'b', '.', ' ', 'C', ' ', 'd', '.'] = [['A', 'b', '.', ' '], ['C', ' ', 'd', '.']] := by decide +kernel

/-! ## C86: ids and numbers of the bundles -/

theorem id_inj {a b : Str} {i j : Nat} (h : a ++ '-' :: natStr i = b ++ '-' :: natStr j) : a = b ∧ i = j := by
  have hi : '-' ∉ (natStr i).reverse := fun hm => not_mem_natStr (by decide) i (List.mem_reverse.1 hm)
  have hj : '-' ∉ (natStr j).reverse := fun hm => not_mem_natStr (by decide) j (List.mem_reverse.1 hm)
  have h := congrArg List.reverse h
  simp only [List.reverse_append, List.reverse_cons, List.append_assoc, List.singleton_append] at h
  have e1 := splitOnce_append hi a.reverse
  have e2 := splitOnce_append hj b.reverse
  rw [h, e2] at e1
  injection e1 with e3 e4
  injection e4 with e4
  exact ⟨(List.reverse_inj.1 e4).symm, natStr_inj (List.reverse_inj.1 e3.symm)⟩

theorem newBundles_ids (id z : Str) : ∀ (ss : List Str) (i : Nat), (newBundles id z i ss).map Bun.id =
    (List.range' i ss.length).map (fun k => id ++ '-' :: natStr k)
  | [], _ => rfl
  | s :: ss, i => by
    unfold newBundles
    rw [List.map_cons, newBundles_ids id z ss (i + 1), List.length_cons, List.range'_succ]
    rfl

theorem natStr_one : natStr 1 = ['1'] := by decide +kernel

/-- The ids of the bundles that come from a bundle with one tree. -/
theorem segTrees_single (seg : Str → List Str) (hseg : ∀ x, seg x ≠ []) (b : Bun) (z x : Str) (hb : b.trees = [(z, x)]) :
    (segDoc seg (fun _ => true) [b]).map Bun.id = (List.range' 1 (seg x).length).map (fun k => b.id ++ '-' :: natStr k) := by
  unfold segDoc
  rw [List.flatMap_cons, List.flatMap_nil, List.append_nil, hb]
  unfold segTrees
  cases hx : seg x with
  | nil => exact absurd hx (hseg x)
  | cons s ss =>
    cases ss with
    | nil => simp [segTrees, natStr_one]
    | cons s' ss =>
      simp only [if_true, segTrees, List.append_nil, List.map_cons, newBundles_ids, List.length_cons]
      rw [List.range'_succ (s := 1)]
      simp [natStr_one]

/-- C86, the part about ids that holds: if every bundle has one tree and the ids are distinct, then they are distinct after
segmentation. What is missing: bundles with several trees. -/
theorem C86_ids_partial (seg : Str → List Str) (hseg : ∀ x, seg x ≠ []) (doc : List Bun) (h1 : ∀ b ∈ doc, ∃ z x, b.trees = [(z, x)])
    (hn : (doc.map Bun.id).Nodup) : ((segDoc seg (fun _ => true) doc).map Bun.id).Nodup ∧
      ∀ i ∈ (segDoc seg (fun _ => true) doc).map Bun.id, ∃ b ∈ doc, ∃ k, i = b.id ++ '-' :: natStr k := by
  induction doc with
  | nil => exact ⟨List.nodup_nil, fun i hi => by cases hi⟩
  | cons b doc ih =>
    rw [List.map_cons, List.nodup_cons] at hn
    obtain ⟨ih1, ih2⟩ := ih (fun b' hb' => h1 b' (List.mem_cons_of_mem _ hb')) hn.2
    obtain ⟨z, x, hb⟩ := h1 b (List.mem_cons_self ..)
    have e : segDoc seg (fun _ => true) (b :: doc) = segDoc seg (fun _ => true) [b] ++ segDoc seg (fun _ => true) doc := by
      unfold segDoc; rw [List.flatMap_cons, List.flatMap_cons, List.flatMap_nil, List.append_nil]
    rw [e, List.map_append, segTrees_single seg hseg b z x hb]
    constructor
    · rw [List.nodup_append]
      refine ⟨?_, ih1, ?_⟩
      · rw [List.nodup_iff_pairwise_ne, List.pairwise_map]
        refine List.Pairwise.imp ?_ (List.nodup_range' (s := 1))
        intro p q hpq h'
        exact hpq (id_inj h').2
      · intro i hi j hj hij
        obtain ⟨k, _, rfl⟩ := List.mem_map.1 hi
        obtain ⟨b', hb', k', rfl⟩ := ih2 j hj
        exact hn.1 (by rw [(id_inj hij).1]; exact List.mem_map_of_mem hb')
    · intro i hi
      rcases List.mem_append.1 hi with hi | hi
      · obtain ⟨k, _, rfl⟩ := List.mem_map.1 hi
        exact ⟨b, List.mem_cons_self .., k, rfl⟩
      · obtain ⟨b', hb', k, hk⟩ := ih2 i hi
        exact ⟨b', List.mem_cons_of_mem _ hb', k, hk⟩

example : (segDoc (segment false exBoundary) (fun _ => true)
    [⟨['s'], some 0, [([], ['A', '.', ' ', 'B'])]⟩, ⟨['t'], some 1, [([], ['C'])]⟩]) =
    [⟨['s', '-', '1'], some 0, [([], ['A', '.'])]⟩, ⟨['s', '-', '2'], none, [([], ['B'])]⟩, ⟨['t', '-', '1'], some 1, [([], ['C'])]⟩] := by
  decide +kernel

/-- C86 does not hold for ids: with two trees in a bundle, the second one is segmented after the id of the bundle was changed. If the
next bundle has the id so obtained, and its text is segmented too, two new bundles get the same id. -/
theorem C86_ids_violated (seg : Str → List Str) (id : Str) (n m : Option Nat) (z1 z2 z3 x1 x2 x3 s2 s3 : Str) (hz : z1 ≠ z2)
    (h2 : ∃ s r, seg x2 = s :: s2 :: r) (h3 : ∃ s r, seg x3 = s :: s3 :: r) :
    let doc : List Bun := [⟨id, n, [(z1, x1), (z2, x2)]⟩, ⟨id ++ ['-', '1'], m, [(z3, x3)]⟩]
    (doc.map Bun.id).Nodup ∧ (∀ b ∈ doc, (b.trees.map (·.1)).Nodup) ∧ ¬ ((segDoc seg (fun _ => true) doc).map Bun.id).Nodup := by
  obtain ⟨a2, r2, h2⟩ := h2
  obtain ⟨a3, r3, h3⟩ := h3
  refine ⟨?_, ?_, ?_⟩
  · simp
  · intro b hb
    simp only [List.mem_cons, List.not_mem_nil, or_false] at hb
    rcases hb with rfl | rfl
    · simpa using hz
    · simp
  · intro hnd
    have two : ∀ (l r : List Str), (id ++ ['-', '1'] ++ '-' :: natStr 2) ∈ l → (id ++ ['-', '1'] ++ '-' :: natStr 2) ∈ r → ¬ (l ++ r).Nodup := by
      intro l r hl hr hn
      rw [List.nodup_append] at hn
      exact hn.2.2 _ hl _ hr rfl
    have e : ∀ (a b : Bun), segDoc seg (fun _ => true) [a, b] = segDoc seg (fun _ => true) [a] ++ segDoc seg (fun _ => true) [b] := by
      intro a b
      unfold segDoc; simp only [List.flatMap_cons, List.flatMap_nil, List.append_nil]
    rw [e, List.map_append] at hnd
    refine two _ _ ?_ ?_ hnd
    · refine List.mem_map.2 ⟨⟨id ++ ['-', '1'] ++ '-' :: natStr 2, none, [(z2, s2)]⟩, ?_, rfl⟩
      have hm : (⟨id ++ ['-', '1'] ++ '-' :: natStr 2, none, [(z2, s2)]⟩ : Bun) ∈ (segTrees seg (fun _ => true) (id ++ ['-', '1']) [(z2, x2)]).2.2 := by
        unfold segTrees
        rw [h2]
        simp [newBundles]
      unfold segDoc
      simp only [List.flatMap_cons, List.flatMap_nil, List.append_nil]
      apply List.mem_cons_of_mem
      unfold segTrees
      simp only [if_true]
      split
      · exact List.mem_append_right _ hm
      · exact hm
    · refine List.mem_map.2 ⟨⟨id ++ ['-', '1'] ++ '-' :: natStr 2, none, [(z3, s3)]⟩, ?_, rfl⟩
      unfold segDoc
      simp only [List.flatMap_cons, List.flatMap_nil, List.append_nil]
      apply List.mem_cons_of_mem
      unfold segTrees
      rw [h3]
      simp [newBundles]

example : ((segDoc (segment false exBoundary) (fun _ => true) [⟨['s'], some 0, [(['e', 'n'], ['A']), (['d', 'e'], ['B', '.', ' ', 'C'])]⟩,
    ⟨['s', '-', '1'], some 1, [(['e', 'n'], ['D', '.', ' ', 'E'])]⟩]).map Bun.id) =
    [['s', '-', '1', '-', '1'], ['s', '-', '1', '-', '2'], ['s', '-', '1', '-', '1'], ['s', '-', '1', '-', '2']] := by decide +kernel

/-- C86 does not hold for numbers: whenever a text has more than one sentence, the new bundles have no number at all. -/
theorem C86_numbers_violated (seg : Str → List Str) (should : Str → Bool) (doc : List Bun) (b : Bun) (hb : b ∈ doc)
    (z x : Str) (hz : should z = true) (hx : (z, x) ∈ b.trees) (hs : 2 ≤ (seg x).length) :
    ∃ b' ∈ segDoc seg should doc, b'.number = none := by
  have key : ∀ (ts : List (Str × Str)) (id : Str), (z, x) ∈ ts → ∃ b' ∈ (segTrees seg should id ts).2.2, b'.number = none := by
    intro ts
    induction ts with
    | nil => intro id h; cases h
    | cons p ts ih =>
      intro id h
      obtain ⟨z', x'⟩ := p
      unfold segTrees
      rcases List.mem_cons.1 h with h | h
      · injection h with e1 e2
        subst e1 e2
        rw [if_pos hz]
        match hq : seg x, hs with
        | s :: s' :: ss, _ => exact ⟨_, List.mem_append_left _ (List.mem_cons_self ..), rfl⟩
      · by_cases hs' : should z' = true
        · rw [if_pos hs']
          obtain ⟨b', h1, h2⟩ := ih (id ++ ['-', '1']) h
          simp only
          split
          · exact ⟨b', List.mem_append_right _ h1, h2⟩
          · exact ⟨b', h1, h2⟩
        · rw [if_neg hs']
          exact ih id h
  obtain ⟨b', h1, h2⟩ := key b.trees b.id hx
  refine ⟨b', ?_, h2⟩
  unfold segDoc
  exact List.mem_flatMap.2 ⟨b, hb, List.mem_cons_of_mem _ h1⟩

end Verif.Text
