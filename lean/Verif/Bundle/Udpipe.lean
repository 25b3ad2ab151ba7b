import Verif.Py.Num

/-!
# Property C177: udpipe.Base on documents (udapi/block/udpipe/base.py, udapi/tool/udpipeonline.py)

The analysis of one tree is given by arbitrary functions (see `Verif.Blocks.TagParse` for the tree that they leave). A bundle is the object
(`none`: made by the block), its id, and its trees with their zones. Simplified: bundle ids are strings; `_should_process_tree` is
a function of the zone; the `sent_id` of trees and the slot `number` are left out.
-/

namespace Verif.Bundle.Udpipe
open Verif.Py

inductive Err where
  | valueError
  | tool
  deriving DecidableEq, Repr

structure Bun (τ : Type) where
  obj : Option Nat
  id : Str
  trees : List (Str × τ)
  deriving DecidableEq

/-- What the tool and the tree classes do with one tree. -/
structure Tool (τ : Type) where
  /-- `for subroot in tree.children: subroot.remove()` (base.py:161-162) -/
  clear : τ → τ
  /-- `tokenize_tag_parse_tree`: the first of the returned trees is the given tree -/
  tok : τ → Except Err (List τ)
  /-- `tag_parse_tree` -/
  tagParse : τ → Except Err τ
  /-- `segment_text(tree.text)` -/
  sents : τ → List Str
  /-- `tree.text = sentence` -/
  setText : Str → τ → τ
  /-- a tree without words with the given text -/
  ofText : Str → τ

/-- The parameters of the block (base.py:122-129). -/
structure Opts where
  tok : Bool
  tag : Bool
  parse : Bool
  reseg : Bool
  deleteNodes : Bool
  should : Str → Bool

/-- `for i, new_tree in enumerate(new_trees[1:], 2)` (base.py:169-173) -/
def newBundles (orig zone : Str) : Nat → List τ → List (Bun τ)
  | _, [] => []
  | i, t :: ts => ⟨none, orig ++ '-' :: natStr i, [(zone, t)]⟩ :: newBundles orig zone (i + 1) ts

/-- One tree that is to be processed (base.py:160-188): the tree, the id of its bundle, and the new bundles. -/
def procTree (T : Tool τ) (o : Opts) (id zone : Str) (t : τ) : Except Err (τ × Str × List (Bun τ)) :=
  let t1 := if o.deleteNodes then T.clear t else t
  if o.tok then
    match T.tok t1 with
    | .error e => .error e
    | .ok [] => .ok (t1, id, [])
    | .ok (n :: ns) =>
      if o.reseg ∧ ns ≠ [] then .ok (n, id ++ ['-', '1'], newBundles id zone 2 ns) else .ok (n, id, [])
  else if ¬ o.reseg ∧ (o.tag ∨ o.parse) then
    match T.tagParse t1 with
    | .error e => .error e
    | .ok n => .ok (n, id, [])
  else if o.reseg ∧ ¬ o.tag ∧ ¬ o.parse then
    match T.sents t1 with
    | s :: s' :: ss => .ok (T.setText s t1, id ++ ['-', '1'], newBundles id zone 2 ((s' :: ss).map T.ofText))
    | _ => .ok (t1, id, [])
  else .error .valueError

/-- The loop over the trees of a bundle (base.py:157-188): the id, the trees, and what is appended to `new_bundles`
(`none`: the bundle itself). -/
def procTrees (T : Tool τ) (o : Opts) : Str → List (Str × τ) → Except Err (Str × List (Str × τ) × List (Option (Bun τ)))
  | id, [] => .ok (id, [], [])
  | id, (z, t) :: ts =>
    match (if o.should z then procTree T o id z t else .ok (t, id, [])) with
    | .error e => .error e
    | .ok (t', id', ns) =>
      match procTrees T o id' ts with
      | .error e => .error e
      | .ok (id'', ts', items) => .ok (id'', (z, t') :: ts', none :: (ns.map some ++ items))

/-- One bundle: the part of `new_bundles` appended for it. -/
def procBundle (T : Tool τ) (o : Opts) (b : Bun τ) : Except Err (List (Bun τ)) :=
  match procTrees T o b.id b.trees with
  | .error e => .error e
  | .ok (id, ts, items) => .ok (items.map (fun i => i.getD ⟨b.obj, id, ts⟩))

/-- `process_document(doc)` (base.py:149-189) when the whole document is not processed at once. -/
def procDoc (T : Tool τ) (o : Opts) : List (Bun τ) → Except Err (List (Bun τ))
  | [] => .ok []
  | b :: bs =>
    match procBundle T o b with
    | .error e => .error e
    | .ok l =>
      match procDoc T o bs with
      | .error e => .error e
      | .ok l' => .ok (l ++ l')

/-- The loop over the trees returned by the web service (udpipeonline.py:160-168). -/
def onlineTrees (newId : Nat → Str) : Nat → List τ → List (Bun τ) → List (Bun τ)
  | _, [], bs => bs
  | k, t :: ts, b :: bs => { b with trees := [([], t)] } :: onlineTrees newId (k + 1) ts bs
  | k, t :: ts, [] => ⟨none, newId k, [([], t)]⟩ :: onlineTrees newId (k + 1) ts []

/-- `UDPipeOnline.process_document` (udpipeonline.py:131-168); `run` is the analysis of all texts at once, `newId` the ids that
`create_bundle` gives. -/
def onlineDoc (run : List τ → List τ) (newId : Nat → Str) (doc : List (Bun τ)) : List (Bun τ) :=
  onlineTrees newId 0 (run (doc.flatMap (fun b => b.trees.map (·.2)))) doc

def sPre : Str := ['p', 'r', 'e', 's', 'e', 'g', 'm', 'e', 'n', 't', 'e', 'd']
def sRan : Str := ['r', 'a', 'n', 'g', 'e', 's']

/-- `params["tokenizer"]` in `process_document` (udpipeonline.py:135-143) -/
def docTokenizer (reseg ranges : Bool) : Str :=
  if ranges then (if reseg then sRan else sPre ++ ';' :: sRan) else if reseg then [] else sPre

/-- `params["tokenizer"]` in `tokenize_tag_parse_tree` (udpipeonline.py:104-110) -/
def treeTokenizer (reseg ranges : Bool) : Str :=
  if ranges then (if reseg then sPre ++ ';' :: sRan else sRan) else if reseg then [] else sPre

/-! ## Proofs -/

/-- The objects of the bundles of a document, without the new ones. -/
def objs (bs : List (Bun τ)) : List Nat := bs.filterMap (·.obj)

theorem newBundles_obj (orig zone : Str) : ∀ (ts : List τ) (i : Nat), ∀ b ∈ newBundles orig zone i ts, b.obj = none
  | t :: ts, i, b, h => by
    rcases List.mem_cons.1 h with rfl | h
    · rfl
    · exact newBundles_obj orig zone ts (i + 1) b h

theorem procTree_new {T : Tool τ} {o : Opts} {id zone : Str} {t : τ} {r : τ × Str × List (Bun τ)} (h : procTree T o id zone t = .ok r) :
    ∀ b ∈ r.2.2, b.obj = none := by
  revert h
  unfold procTree
  simp only
  intro h b hb
  repeat' split at h
  all_goals first
    | (cases h; exact newBundles_obj _ _ _ _ b hb)
    | (cases h; exact absurd hb List.not_mem_nil)
    | exact absurd h (by simp)

theorem procTrees_items {T : Tool τ} {o : Opts} : ∀ (ts : List (Str × τ)) {id : Str} {r : Str × List (Str × τ) × List (Option (Bun τ))},
    procTrees T o id ts = .ok r → r.2.1.map (·.1) = ts.map (·.1) ∧
      ∀ b : Bun τ, objs (r.2.2.map (fun i => i.getD b)) = List.flatten (List.replicate ts.length b.obj.toList)
  | [], id, r, h => by
    cases h
    exact ⟨rfl, fun _ => rfl⟩
  | (z, t) :: ts, id, r, h => by
    unfold procTrees at h
    cases hp : (if o.should z then procTree T o id z t else .ok (t, id, [])) with
    | error e => rw [hp] at h; exact absurd h (by simp)
    | ok q =>
      obtain ⟨t', id', ns⟩ := q
      rw [hp] at h
      simp only at h
      cases hq : procTrees T o id' ts with
      | error e => rw [hq] at h; exact absurd h (by simp)
      | ok q =>
        obtain ⟨id'', ts', items⟩ := q
        rw [hq] at h
        cases h
        obtain ⟨ih1, ih2⟩ := procTrees_items ts hq
        refine ⟨by simp [ih1], ?_⟩
        intro b
        have hns : ∀ c ∈ ns, c.obj = none := by
          by_cases hz : o.should z
          · rw [if_pos hz] at hp
            exact procTree_new hp
          · rw [if_neg hz] at hp
            cases hp
            exact fun c hc => absurd hc List.not_mem_nil
        have h0 : objs ((ns.map some).map (fun i => i.getD b)) = [] := by
          unfold objs
          rw [List.filterMap_eq_nil_iff]
          intro c hc
          simp only [List.map_map, List.mem_map, Function.comp] at hc
          obtain ⟨d, hd, e⟩ := hc
          rw [← e]
          exact hns d hd
        have e1 : ∀ (l m : List (Bun τ)), objs (l ++ m) = objs l ++ objs m := fun l m => List.filterMap_append
        have e2 : ∀ m : List (Bun τ), objs (b :: m) = b.obj.toList ++ objs m := by
          intro m
          unfold objs
          cases hb : b.obj <;> simp [hb]
        simp only [List.map_cons, List.map_append, Option.getD_none, e1, e2, h0, List.nil_append, ih2 b]
        simp [List.replicate_succ]

/-- C177: each bundle is in the resulting document as often as it has trees, and the order of the bundles stays. -/
theorem C177_bundles {T : Tool τ} {o : Opts} : ∀ {doc res : List (Bun τ)}, procDoc T o doc = .ok res →
    objs res = doc.flatMap (fun b => (List.replicate b.trees.length b.obj.toList).flatten)
  | [], res, h => by cases h; rfl
  | b :: bs, res, h => by
    unfold procDoc procBundle at h
    cases hp : procTrees T o b.id b.trees with
    | error e => rw [hp] at h; exact absurd h (by simp)
    | ok q =>
      obtain ⟨id, ts, items⟩ := q
      rw [hp] at h
      simp only at h
      cases hq : procDoc T o bs with
      | error e => rw [hq] at h; exact absurd h (by simp)
      | ok l' =>
        rw [hq] at h
        cases h
        have := (procTrees_items b.trees hp).2 ⟨b.obj, id, ts⟩
        rw [List.flatMap_cons, ← C177_bundles hq, ← this]
        exact List.filterMap_append

/-- C177, the part that holds: if every bundle has one tree, the bundles of the document are in the result, once each and in their
order. What is missing: bundles with several trees, or without trees. -/
theorem C177_bundles_partial {T : Tool τ} {o : Opts} {doc res : List (Bun τ)} (h : procDoc T o doc = .ok res)
    (h1 : ∀ b ∈ doc, b.trees.length = 1) : objs res = objs doc := by
  rw [C177_bundles h]
  clear h
  induction doc with
  | nil => rfl
  | cons b bs ih =>
    rw [List.flatMap_cons, ih (fun c hc => h1 c (List.mem_cons_of_mem _ hc)), h1 b (List.mem_cons_self ..)]
    unfold objs
    cases hb : b.obj <;> simp [hb]

theorem count_other {k : Nat} : ∀ {l : List (Bun τ)}, k ∉ objs l →
    (l.flatMap (fun b => (List.replicate b.trees.length b.obj.toList).flatten)).count k = 0 := by
  intro l hl
  rw [List.count_eq_zero]
  intro hm
  obtain ⟨d, hd1, hd2⟩ := List.mem_flatMap.1 hm
  obtain ⟨m, hm1, hm2⟩ := List.mem_flatten.1 hd2
  rw [(List.mem_replicate.1 hm1).2] at hm2
  refine hl (List.mem_filterMap.2 ⟨d, hd1, ?_⟩)
  cases hdo : d.obj with
  | none => rw [hdo] at hm2; simp at hm2
  | some j => rw [hdo] at hm2; simp at hm2; rw [hm2]

/-- C177 does not hold: a bundle with more than one tree is in the resulting document more than once, and a bundle without trees
is lost; this is so for all documents, zones and parameters, also if no tree is to be processed. -/
theorem C177_bundles_violated {T : Tool τ} {o : Opts} {l m res : List (Bun τ)} {b : Bun τ} (h : procDoc T o (l ++ b :: m) = .ok res) {k : Nat}
    (hk : b.obj = some k) (hl : k ∉ objs l) (hm : k ∉ objs m) : (objs res).count k = b.trees.length := by
  rw [C177_bundles h, List.flatMap_append, List.flatMap_cons, List.count_append, List.count_append, count_other hl, count_other hm, hk]
  rw [Nat.zero_add, Nat.add_zero]
  generalize b.trees.length = n
  induction n with
  | zero => rfl
  | succ n ih =>
    rw [List.replicate_succ, List.flatten_cons, List.count_append, ih]
    simp [Nat.add_comm]

/-- The bundles of the sentences after the first. -/
theorem newBundles_get (orig zone : Str) : ∀ (ts : List τ) (i j : Nat), (newBundles orig zone i ts)[j]? =
    (ts[j]?).map (fun t => ⟨none, orig ++ '-' :: natStr (i + j), [(zone, t)]⟩)
  | [], i, j => by simp [newBundles]
  | t :: ts, i, 0 => by simp [newBundles]
  | t :: ts, i, j + 1 => by
    simp only [newBundles, List.getElem?_cons_succ]
    rw [newBundles_get orig zone ts (i + 1) j]
    rw [Nat.add_right_comm, Nat.add_assoc]

/-- C177: when the only tree of a bundle is split into several trees, there is one bundle for each, in the order of the sentences, all in the
zone of the tree; the ids are the id of the bundle followed by `-1`, `-2`, ..., and the first is the bundle itself. -/
theorem C177_resegment {T : Tool τ} {o : Opts} (ht : o.tok = true) (hs : o.reseg = true) {b : Bun τ} {z : Str} {t n n' : τ} {ns : List τ}
    (hb : b.trees = [(z, t)]) (hz : o.should z = true) (hr : T.tok (if o.deleteNodes = true then T.clear t else t) = .ok (n :: n' :: ns)) :
    ∃ bs, procBundle T o b = .ok bs ∧ bs.length = (n :: n' :: ns).length ∧ ∀ (i : Nat) (m : τ), (n :: n' :: ns)[i]? = some m →
      bs[i]? = some ⟨if i = 0 then b.obj else none, b.id ++ '-' :: natStr (i + 1), [(z, m)]⟩ := by
  refine ⟨⟨b.obj, b.id ++ ['-', '1'], [(z, n)]⟩ :: newBundles b.id z 2 (n' :: ns), ?_, ?_, ?_⟩
  · have hc : o.reseg = true ∧ n' :: ns ≠ [] := ⟨hs, List.cons_ne_nil _ _⟩
    simp only [procBundle, hb, procTrees, hz, if_true, procTree, ht, hr, if_pos hc]
    simp [Function.comp_def]
  · have h1 : ∀ (ts : List τ) (i : Nat), (newBundles b.id z i ts).length = ts.length := by
      intro ts
      induction ts with
      | nil => intro i; rfl
      | cons t ts ih => intro i; simp [newBundles, ih]
    rw [List.length_cons, h1, List.length_cons (as := n' :: ns)]
  · intro i m hm
    cases i with
    | zero =>
      simp only [List.getElem?_cons_zero, Option.some.injEq] at hm ⊢
      subst hm
      have : natStr (0 + 1) = ['1'] := by decide +kernel
      simp [this]
    | succ i =>
      simp only [List.getElem?_cons_succ] at hm ⊢
      rw [newBundles_get, hm]
      have : 2 + i = i + 1 + 1 := by omega
      simp [this]

/-- C177: without resegmentation the tree of a bundle with one tree is replaced, and the bundle keeps its id. -/
theorem C177_same {T : Tool τ} {o : Opts} (hs : o.reseg = false) {b : Bun τ} {z : Str} {t : τ} (hb : b.trees = [(z, t)]) (hz : o.should z = true) :
    let t1 := if o.deleteNodes = true then T.clear t else t
    (o.tok = true → ∀ n ns, T.tok t1 = .ok (n :: ns) → procBundle T o b = .ok [⟨b.obj, b.id, [(z, n)]⟩]) ∧
    (o.tok = false → o.tag = true ∨ o.parse = true → ∀ n, T.tagParse t1 = .ok n → procBundle T o b = .ok [⟨b.obj, b.id, [(z, n)]⟩]) := by
  simp only
  refine ⟨?_, ?_⟩
  · intro ht n ns hn
    simp only [procBundle, hb, procTrees, hz, if_true, procTree, ht, hn, hs, Bool.false_eq_true, false_and, if_false]
    simp
  · intro ht hp n hn
    simp only [procBundle, hb, procTrees, hz, if_true, procTree, ht, hn, hs, Bool.false_eq_true, if_false]
    rw [if_pos ⟨not_false, hp⟩]
    simp

/-- C177: the text of the sentences alone can be split as well. -/
theorem C177_segment {T : Tool τ} {o : Opts} (ht : o.tok = false) (hs : o.reseg = true) (hta : o.tag = false) (hpa : o.parse = false)
    {b : Bun τ} {z : Str} {t : τ} {s s' : Str} {ss : List Str} (hb : b.trees = [(z, t)]) (hz : o.should z = true) (hd : o.deleteNodes = false)
    (hr : T.sents t = s :: s' :: ss) :
    ∃ rest, procBundle T o b = .ok (⟨b.obj, b.id ++ ['-', '1'], [(z, T.setText s t)]⟩ :: rest) ∧ rest.length = (s' :: ss).length ∧
      ∀ (i : Nat) (u : Str), (s' :: ss)[i]? = some u → rest[i]? = some ⟨none, b.id ++ '-' :: natStr (i + 2), [(z, T.ofText u)]⟩ := by
  refine ⟨newBundles b.id z 2 ((s' :: ss).map T.ofText), ?_, ?_, ?_⟩
  · simp only [procBundle, hb, procTrees, hz, if_true, procTree, hd, ht, hs, hta, hpa, Bool.false_eq_true, if_false, hr]
    simp [Function.comp_def]
  · have h1 : ∀ (ts : List τ) (i : Nat), (newBundles b.id z i ts).length = ts.length := by
      intro ts
      induction ts with
      | nil => intro i; rfl
      | cons t ts ih => intro i; simp [newBundles, ih]
    rw [h1, List.length_map]
  · intro i u hu
    rw [newBundles_get, List.getElem?_map, hu]
    simp [Nat.add_comm]

/-- C177: a bundle with one tree that is not to be processed stays as it is. -/
theorem C177_other_zones {T : Tool τ} {o : Opts} {b : Bun τ} {z : Str} {t : τ} (hb : b.trees = [(z, t)]) (hz : o.should z = false) :
    procBundle T o b = .ok [b] := by
  obtain ⟨obj, id, trees⟩ := b
  simp only at hb
  subst hb
  simp [procBundle, procTrees, hz]

/-- C177: combinations of parameters that are not implemented are rejected for each tree that is to be processed, and no others: without
tokenization there must be either resegmentation, or tagging or parsing, and not both. -/
theorem C177_options {T : Tool τ} {o : Opts} (htok : ∀ t, ∃ l, T.tok t = .ok l) (htp : ∀ t, ∃ n, T.tagParse t = .ok n) (id z : Str) (t : τ) :
    procTree T o id z t = .error .valueError ↔ o.tok = false ∧ (o.reseg = true ↔ o.tag = true ∨ o.parse = true) := by
  obtain ⟨tok, tag, parse, reseg, dn, should⟩ := o
  obtain ⟨l, hl⟩ := htok (if dn then T.clear t else t)
  obtain ⟨n, hn⟩ := htp (if dn then T.clear t else t)
  unfold procTree
  simp only [hl, hn]
  cases tok
  · cases tag <;> cases parse <;> cases reseg <;> simp
    all_goals (split <;> simp)
  · simp only [if_true, Bool.true_eq_false, false_and, iff_false]
    cases l with
    | nil => simp
    | cons a l =>
      simp only
      split <;> simp

/-- C177 does not hold for the alignment of zones: if both trees of a bundle are split in two, their second sentences are in different
bundles, with ids of different form. -/
theorem C177_zones_violated {T : Tool τ} {o : Opts} (ht : o.tok = true) (hs : o.reseg = true) {b : Bun τ} {y z : Str} {t u t1 t2 u1 u2 : τ}
    (hb : b.trees = [(y, t), (z, u)]) (hy : o.should y = true) (hz : o.should z = true) (hd : o.deleteNodes = false)
    (h1 : T.tok t = .ok [t1, t2]) (h2 : T.tok u = .ok [u1, u2]) :
    let b' : Bun τ := ⟨b.obj, b.id ++ ['-', '1', '-', '1'], [(y, t1), (z, u1)]⟩
    procBundle T o b = .ok [b', ⟨none, b.id ++ ['-', '2'], [(y, t2)]⟩, b', ⟨none, b.id ++ ['-', '1', '-', '2'], [(z, u2)]⟩] := by
  have hc1 : o.reseg = true ∧ [t2] ≠ [] := ⟨hs, List.cons_ne_nil _ _⟩
  have hc2 : o.reseg = true ∧ [u2] ≠ [] := ⟨hs, List.cons_ne_nil _ _⟩
  have h2s : natStr 2 = ['2'] := by decide +kernel
  simp only [procBundle, hb, procTrees, hy, hz, if_true, procTree, hd, ht, Bool.false_eq_true, if_false, h1, h2, if_pos hc1, if_pos hc2, newBundles, h2s]
  simp

/-! ### The web service -/

theorem onlineTrees_get (newId : Nat → Str) : ∀ (ts : List τ) (bs : List (Bun τ)) (k i : Nat) (t : τ), ts[i]? = some t →
    (onlineTrees newId k ts bs)[i]? = some (match bs[i]? with
      | some b => { b with trees := [([], t)] }
      | none => ⟨none, newId (k + i), [([], t)]⟩)
  | t :: ts, b :: bs, k, 0, u, h => by
    simp only [List.getElem?_cons_zero, Option.some.injEq] at h
    subst h
    simp [onlineTrees]
  | t :: ts, [], k, 0, u, h => by
    simp only [List.getElem?_cons_zero, Option.some.injEq] at h
    subst h
    simp [onlineTrees]
  | t :: ts, b :: bs, k, i + 1, u, h => by
    simp only [List.getElem?_cons_succ] at h
    simp only [onlineTrees, List.getElem?_cons_succ]
    rw [onlineTrees_get newId ts bs (k + 1) i u h]
    simp [Nat.add_comm, Nat.add_left_comm]
  | t :: ts, [], k, i + 1, u, h => by
    simp only [List.getElem?_cons_succ] at h
    simp only [onlineTrees, List.getElem?_cons_succ]
    rw [onlineTrees_get newId ts [] (k + 1) i u h]
    simp [Nat.add_comm, Nat.add_left_comm]

theorem onlineTrees_length (newId : Nat → Str) : ∀ (ts : List τ) (bs : List (Bun τ)) (k : Nat),
    (onlineTrees newId k ts bs).length = max ts.length bs.length
  | [], bs, k => by simp [onlineTrees]
  | t :: ts, b :: bs, k => by
    simp only [onlineTrees, List.length_cons, onlineTrees_length newId ts bs (k + 1)]
    omega
  | t :: ts, [], k => by
    simp only [onlineTrees, List.length_cons, onlineTrees_length newId ts [] (k + 1)]
    simp

/-- C177, the web service, the part that holds: if each bundle has one tree, and the service returns one tree for each tree, then the
document has the same bundles with the same ids, and each has the analysis of its own tree. What is missing: the zone is lost,
bundles with several trees, and the case that the service returns fewer trees. -/
theorem C177_online_partial {f : τ → τ} {newId : Nat → Str} {doc : List (Bun τ)} (h1 : ∀ b ∈ doc, ∃ z t, b.trees = [(z, t)]) :
    (onlineDoc (List.map f) newId doc).length = doc.length ∧ ∀ (i : Nat) (b : Bun τ) (z : Str) (t : τ), doc[i]? = some b → b.trees = [(z, t)] →
      (onlineDoc (List.map f) newId doc)[i]? = some ⟨b.obj, b.id, [([], f t)]⟩ := by
  have key : ∀ (l : List (Bun τ)), (∀ b ∈ l, ∃ z t, b.trees = [(z, t)]) → (l.flatMap (fun b => b.trees.map (·.2))).length = l.length ∧
      ∀ (i : Nat) (b : Bun τ) (z : Str) (t : τ), l[i]? = some b → b.trees = [(z, t)] → (l.flatMap (fun b => b.trees.map (·.2)))[i]? = some t := by
    intro l
    induction l with
    | nil => intro _; exact ⟨rfl, fun i b z t h => by simp at h⟩
    | cons c l ih =>
      intro hc
      obtain ⟨y, u, hu⟩ := hc c (List.mem_cons_self ..)
      obtain ⟨ih1, ih2⟩ := ih (fun b hb => hc b (List.mem_cons_of_mem _ hb))
      refine ⟨by rw [List.flatMap_cons, hu]; simpa using ih1, ?_⟩
      intro i b z t hi hb
      rw [List.flatMap_cons, hu]
      cases i with
      | zero =>
        simp only [List.getElem?_cons_zero, Option.some.injEq] at hi
        subst hi
        rw [hu] at hb
        simp only [List.cons.injEq, Prod.mk.injEq, and_true] at hb
        simp [hb.2]
      | succ i =>
        simp only [List.getElem?_cons_succ] at hi
        simpa using ih2 i b z t hi hb
  obtain ⟨k1, k2⟩ := key doc h1
  unfold onlineDoc
  refine ⟨by rw [onlineTrees_length, List.length_map, k1]; omega, ?_⟩
  intro i b z t hi hb
  have := onlineTrees_get newId (List.map f (doc.flatMap (fun b => b.trees.map (·.2)))) doc 0 i (f t) (by rw [List.getElem?_map, k2 i b z t hi hb]; rfl)
  rw [this, hi]

/-- C177 does not hold for the web service if the first bundle has two trees: the second bundle then has the analysis of the second tree of
the first bundle. -/
theorem C177_online_zones_violated {f : τ → τ} {newId : Nat → Str} {b c : Bun τ} {bs : List (Bun τ)} {y z : Str} {t u : τ} {ts : List (Str × τ)}
    (hb : b.trees = (y, t) :: (z, u) :: ts) :
    ∃ rest, onlineDoc (List.map f) newId (b :: c :: bs) = ⟨b.obj, b.id, [([], f t)]⟩ :: ⟨c.obj, c.id, [([], f u)]⟩ :: rest := by
  unfold onlineDoc
  simp [hb, onlineTrees]

/-- C177 does not hold for the web service if it returns fewer trees than there are bundles: the other bundles stay without analysis. -/
theorem C177_online_rest_violated (newId : Nat → Str) : ∀ (ts : List τ) (bs : List (Bun τ)) (k i : Nat), ts.length ≤ i →
    i < bs.length → (onlineTrees newId k ts bs)[i]? = bs[i]?
  | [], bs, k, i, _, _ => rfl
  | t :: ts, b :: bs, k, i + 1, h1, h2 => by
    simp only [onlineTrees, List.getElem?_cons_succ]
    exact C177_online_rest_violated newId ts bs (k + 1) i (by simpa using h1) (by simpa using h2)

/-- C177: the web service is asked to keep the sentences of a document if and only if they are not to be split. -/
theorem C177_presegmented (reseg ranges : Bool) : (sPre ∈ split ';' (docTokenizer reseg ranges) ↔ reseg = false) ∧
    (sRan ∈ split ';' (docTokenizer reseg ranges) ↔ ranges = true) := by
  cases reseg <;> cases ranges <;> decide

/-- C177 does not hold for single trees if ranges are asked for: the web service is asked to keep the sentences exactly if they are to be
split. -/
theorem C177_presegmented_violated (reseg : Bool) : (sPre ∈ split ';' (treeTokenizer reseg true) ↔ reseg = true) ∧
    (sPre ∈ split ';' (treeTokenizer reseg false) ↔ reseg = false) := by
  cases reseg <;> decide

/-! ## Examples -/

/-- Texts as trees; the tool splits them at commas. -/
def exTool : Tool Str where
  clear := id
  tok := fun t => .ok (split ',' t)
  tagParse := fun t => .ok ('!' :: t)
  sents := split ','
  setText := fun s _ => s
  ofText := id

def exOpts : Opts := ⟨true, true, true, true, false, fun z => z != ['x']⟩

example : (procDoc exTool exOpts [⟨some 0, ['s'], [([], ['a', ',', 'b', ',', 'c'])]⟩, ⟨some 1, ['t'], [(['x'], ['d', ',', 'e'])]⟩]).toOption =
    some [⟨some 0, ['s', '-', '1'], [([], ['a'])]⟩, ⟨none, ['s', '-', '2'], [([], ['b'])]⟩, ⟨none, ['s', '-', '3'], [([], ['c'])]⟩,
      ⟨some 1, ['t'], [(['x'], ['d', ',', 'e'])]⟩] := by decide +kernel

example : (procDoc exTool { exOpts with reseg := false, tok := false } [⟨some 0, ['s'], [(['y'], ['a']), (['z'], ['b'])]⟩, ⟨some 1, ['t'], []⟩]).toOption =
    some [⟨some 0, ['s'], [(['y'], ['!', 'a']), (['z'], ['!', 'b'])]⟩, ⟨some 0, ['s'], [(['y'], ['!', 'a']), (['z'], ['!', 'b'])]⟩] := by
  decide +kernel

example : onlineDoc (List.map (fun t => '!' :: t)) (fun k => natStr (k + 1)) [⟨some 0, ['s'], [(['y'], ['a']), (['z'], ['b'])]⟩,
      ⟨some 1, ['t'], [(['y'], ['c'])]⟩] =
    [⟨some 0, ['s'], [([], ['!', 'a'])]⟩, ⟨some 1, ['t'], [([], ['!', 'b'])]⟩, ⟨none, ['3'], [([], ['!', 'c'])]⟩] := by decide +kernel

end Verif.Bundle.Udpipe
