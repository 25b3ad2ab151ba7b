import Verif.Run.ReaderSplit

/-!
# `sent_id_filter` (udapi/core/basereader.py:91-113)
-/

namespace Verif.Run.Filter
open Verif.Py Verif.Run

/-- A tree as returned by `read_tree`: its identity, `sent_id` and `newdoc` (`some []` is `True`). -/
structure Tree where
  id : Nat
  sentId : Option Str
  newdoc : Option Str
  deriving DecidableEq

/-- `self.sent_id_filter.match(tree.sent_id) is not None`; a tree without an id and a bundle has the `sent_id` `?` (root.py:42-52). -/
def Tree.fits (keep : Str → Bool) (t : Tree) : Bool := keep (t.sentId.getD ['?'])

/-- The loop of `filtered_read_tree` (basereader.py:101-113) with `skipped_newdoc`; the tree and what is left of the file. -/
def filtered (keep : Str → Bool) : Option Str → List Tree → Option (Tree × List Tree)
  | _, [] => none
  | skipped, t :: ts =>
    if t.fits keep then some (if skipped ≠ none ∧ t.newdoc = none then { t with newdoc := skipped } else t, ts)
    else filtered keep (if t.newdoc ≠ none then t.newdoc else skipped) ts

/-- The trees of a file as returned by `filtered_read_tree`. The first argument is their greatest number. -/
def readAllTrees (keep : Str → Bool) : Nat → List Tree → List Tree
  | 0, _ => []
  | n + 1, ts =>
    match filtered keep none ts with
    | none => []
    | some (t, rest) => t :: readAllTrees keep n rest

/-! ## Specification -/

/-- The tree matches the filter: by its `sent_id`, or `?` if it has none. -/
def Matches (keep : Str → Bool) (t : Tree) : Bool := match t.sentId with | some s => keep s | none => keep ['?']

/-- The trees of a document that match the filter; the first one has the `newdoc` of the document. -/
def restrict (P : Tree → Bool) (d : List Tree) : List Tree :=
  match d.filter P with
  | [] => []
  | t :: r => { t with newdoc := (d.head?.bind Tree.newdoc) } :: r

/-- The division of a file into its documents: all but the first one start with `newdoc`, there is none inside. -/
structure Division (ds : List (List Tree)) : Prop where
  inside : ∀ d ∈ ds, ∃ t r, d = t :: r ∧ ∀ x ∈ r, x.newdoc = none
  start : ∀ d ∈ ds.tail, ∀ t, d.head? = some t → t.newdoc ≠ none

/-! ## Proofs -/

/-- All trees, with the state of the loop. -/
def go (keep : Str → Bool) : Option Str → List Tree → List Tree
  | _, [] => []
  | skipped, t :: ts =>
    if t.fits keep then (if skipped ≠ none ∧ t.newdoc = none then { t with newdoc := skipped } else t) :: go keep none ts
    else go keep (if t.newdoc ≠ none then t.newdoc else skipped) ts

theorem go_filtered (keep : Str → Bool) : ∀ (ts : List Tree) (sk : Option Str),
    go keep sk ts = (match filtered keep sk ts with | none => [] | some (t, rest) => t :: go keep none rest)
  | [], _ => rfl
  | t :: ts, sk => by
    conv => lhs; unfold go
    unfold filtered
    split
    · rfl
    · exact go_filtered keep ts _

theorem filtered_length (keep : Str → Bool) : ∀ (ts : List Tree) (sk : Option Str) (t : Tree) (rest : List Tree),
    filtered keep sk ts = some (t, rest) → rest.length < ts.length
  | [], _, _, _, h => by cases h
  | u :: ts, sk, t, rest, h => by
    unfold filtered at h
    split at h
    · injection h with h
      injection h with _ h
      subst h
      simp
    · have := filtered_length keep ts _ t rest h
      simp
      omega

theorem readAllTrees_go (keep : Str → Bool) : ∀ (n : Nat) (ts : List Tree), ts.length ≤ n → readAllTrees keep n ts = go keep none ts
  | 0, ts, h => by
    have : ts = [] := List.length_eq_zero_iff.1 (by omega)
    subst this
    rfl
  | n + 1, ts, h => by
    unfold readAllTrees
    rw [go_filtered]
    cases hf : filtered keep none ts with
    | none => rfl
    | some q =>
      obtain ⟨t, rest⟩ := q
      have := filtered_length keep ts none t rest hf
      simp only
      rw [readAllTrees_go keep n rest (by omega)]

/-- The trees of a document after its first one. -/
theorem go_inside (keep : Str → Bool) (rest : List Tree) : ∀ (r : List Tree) (sk : Option Str), (∀ x ∈ r, x.newdoc = none) →
    go keep sk (r ++ rest) = (match r.filter (Tree.fits keep) with
      | [] => go keep sk rest
      | t :: r' => { t with newdoc := sk } :: (r' ++ go keep none rest))
  | [], _, _ => rfl
  | t :: r, sk, h => by
    have ht := h t (List.mem_cons_self ..)
    have hr : ∀ x ∈ r, x.newdoc = none := fun x hx => h x (List.mem_cons_of_mem _ hx)
    rw [List.cons_append]
    conv => lhs; unfold go
    cases hk : t.fits keep with
    | false =>
      rw [if_neg (by simp), if_neg (fun hx => hx ht), go_inside keep rest r sk hr, List.filter_cons_of_neg (by rw [hk]; simp)]
    | true =>
      rw [if_pos rfl, List.filter_cons_of_pos hk]
      simp only
      have e : (if sk ≠ none ∧ t.newdoc = none then { t with newdoc := sk } else t) = { t with newdoc := sk } := by
        split
        · rfl
        · next hx =>
          have : sk = none := Classical.byContradiction (fun hs => hx ⟨hs, ht⟩)
          rw [this, ← ht]
      rw [e, go_inside keep rest r none hr]
      congr 1
      cases hf : r.filter (Tree.fits keep) with
      | nil => rfl
      | cons u us =>
        have hu : u ∈ r := (List.mem_filter.1 (hf ▸ List.mem_cons_self .. : u ∈ r.filter (Tree.fits keep))).1
        have : ({ u with newdoc := none } : Tree) = u := by rw [← hr u hu]
        simp only [this, List.cons_append]

theorem go_division (keep : Str → Bool) : ∀ (ds : List (List Tree)) (sk : Option Str), Division ds →
    (∀ d, ds.head? = some d → sk = none ∨ ∀ t, d.head? = some t → t.newdoc ≠ none) →
    go keep sk ds.flatten = ds.flatMap (restrict (Tree.fits keep))
  | [], _, _, _ => rfl
  | d :: ds, sk, hd, hsk => by
    obtain ⟨t, r, rfl, hr⟩ := hd.inside d (List.mem_cons_self ..)
    have hd' : Division ds := ⟨fun x hx => hd.inside x (List.mem_cons_of_mem _ hx), fun x hx => hd.start x (List.mem_of_mem_tail hx)⟩
    have hnext : ∀ sk' : Option Str, ∀ d, ds.head? = some d → sk' = none ∨ ∀ t, d.head? = some t → t.newdoc ≠ none := by
      intro sk' d hx
      exact .inr (hd.start d (by
        cases ds with
        | nil => cases hx
        | cons e ds => injection hx with hx; rw [← hx]; exact List.mem_cons_self ..))
    have ih := fun sk' => go_division keep ds sk' hd' (hnext sk')
    have hkt : sk = none ∨ t.newdoc ≠ none := (hsk (t :: r) rfl).imp id (fun h => h t rfl)
    rw [List.flatten_cons, List.cons_append, List.flatMap_cons]
    conv => lhs; unfold go
    have hh : (t :: r).head?.bind Tree.newdoc = t.newdoc := rfl
    cases hk : t.fits keep with
    | true =>
      have e : (if sk ≠ none ∧ t.newdoc = none then { t with newdoc := sk } else t) = t := by
        rw [if_neg (fun hx => hkt.elim hx.1 (fun h => h hx.2))]
      have hrr : restrict (Tree.fits keep) (t :: r) = t :: r.filter (Tree.fits keep) := by
        unfold restrict
        rw [List.filter_cons_of_pos hk]
        simp only [hh]
      rw [if_pos rfl, e, hrr, go_inside keep ds.flatten r none hr]
      cases hf : r.filter (Tree.fits keep) with
      | nil =>
        simp only
        rw [ih none]
        rfl
      | cons u us =>
        have hu : u ∈ r := (List.mem_filter.1 (hf ▸ List.mem_cons_self .. : u ∈ r.filter (Tree.fits keep))).1
        have : ({ u with newdoc := none } : Tree) = u := by rw [← hr u hu]
        simp only [this]
        rw [ih none]
        rfl
    | false =>
      have e : (if t.newdoc ≠ none then t.newdoc else sk) = t.newdoc := by
        split
        · rfl
        · next hx =>
          have h0 : t.newdoc = none := Classical.not_not.1 hx
          rw [h0]
          exact hkt.elim id (fun h => absurd h0 h)
      rw [if_neg (by simp), e, go_inside keep ds.flatten r t.newdoc hr]
      unfold restrict
      rw [List.filter_cons_of_neg (by rw [hk]; simp), hh]
      cases hf : r.filter (Tree.fits keep) with
      | nil =>
        simp only [List.nil_append]
        exact ih t.newdoc
      | cons u us =>
        simp only
        rw [ih none]
        rfl

theorem fits_eq (keep : Str → Bool) : Tree.fits keep = Matches keep := by
  funext t
  unfold Tree.fits Matches
  cases t.sentId <;> rfl

/-- C126: with `sent_id_filter` exactly the matching sentences of a file are read, in their order, and the document marks are kept: for the
division of the file into documents, what is read are the matching sentences of each document, and the first of them has the
`newdoc` of its document, also if the sentence that had it was skipped. -/
theorem C126_filter (keep : Str → Bool) {ds : List (List Tree)} (hd : Division ds) (n : Nat) (hn : ds.flatten.length ≤ n) :
    readAllTrees keep n ds.flatten = ds.flatMap (restrict (Matches keep)) ∧
    (readAllTrees keep n ds.flatten).map (fun t => (t.id, t.sentId)) = (ds.flatten.filter (Matches keep)).map (fun t => (t.id, t.sentId)) := by
  have h1 : readAllTrees keep n ds.flatten = ds.flatMap (restrict (Matches keep)) := by
    rw [readAllTrees_go keep n _ hn]
    rw [← fits_eq]
    exact go_division keep ds none hd (fun _ _ => .inl rfl)
  refine ⟨h1, ?_⟩
  rw [h1]
  clear hn h1 hd
  induction ds with
  | nil => rfl
  | cons d ds ih =>
    rw [List.flatMap_cons, List.map_append, ih, List.flatten_cons, List.filter_append, List.map_append]
    congr 1
    unfold restrict
    cases d.filter (Matches keep) with
    | nil => rfl
    | cons t r => rfl

/-- A tree for the model of the documents. -/
def Tree.sent (t : Tree) : Sent := ⟨t.id, t.sentId, t.newdoc.isSome⟩

/-- C126: together with `split_docs` (and no other limits): the documents are those of the file, each with its matching sentences, and the
documents without any are left out. -/
theorem C126_split {c : RConf} (hc : Splits c) (keep : Str → Bool) {ds : List (List Tree)} (hd : Division ds) (n : Nat)
    (hn : ds.flatten.length ≤ n) (hne : ∃ t ∈ ds.flatten, Matches keep t = true) :
    ∃ docs, readAll c [(readAllTrees keep n ds.flatten).map Tree.sent] = some docs ∧
      docs.map (fun d => (d.flatMap (·.sents)).map (·.id)) =
        (ds.map (fun d => (d.filter (Matches keep)).map (·.id))).filter (· ≠ []) := by
  have h1 := (C126_filter keep hd n hn).1
  have hres : ∀ d, restrict (Matches keep) d = [] ↔ d.filter (Matches keep) = [] := by
    intro d
    unfold restrict
    cases d.filter (Matches keep) with
    | nil => simp
    | cons t r => simp
  -- the documents that are left
  have hsub : ∀ (es : List (List Tree)), ((es.map (restrict (Matches keep))).filter (· ≠ [])).flatten = es.flatMap (restrict (Matches keep)) := by
    intro es
    induction es with
    | nil => rfl
    | cons d es ih =>
      rw [List.map_cons, List.flatMap_cons, ← ih]
      cases hr : restrict (Matches keep) d with
      | nil => rw [List.filter_cons_of_neg (by simp)]; rfl
      | cons t r => rw [List.filter_cons_of_pos (by simp)]; rfl
  have hins : ∀ d ∈ (ds.map (restrict (Matches keep))).filter (· ≠ []), ∃ t r, d = t :: r ∧ ∀ x ∈ r, x.newdoc = none := by
    intro d hx
    obtain ⟨hx, hx'⟩ := List.mem_filter.1 hx
    obtain ⟨e, he, rfl⟩ := List.mem_map.1 hx
    obtain ⟨t, r, rfl, hr⟩ := hd.inside e he
    unfold restrict at hx' ⊢
    cases hf : (t :: r).filter (Matches keep) with
    | nil => rw [hf] at hx'; simp at hx'
    | cons u us =>
      refine ⟨_, _, rfl, ?_⟩
      intro x hxu
      have hus : us.Sublist r := by
        have : (u :: us).Sublist (t :: r) := hf ▸ List.filter_sublist
        cases this with
        | cons _ h => exact (List.sublist_cons_self u us).trans h
        | cons_cons _ h => exact h
      exact hr x (hus.subset hxu)
  have hstart : ∀ d ∈ ((ds.map (restrict (Matches keep))).filter (· ≠ [])).tail, ∀ t, d.head? = some t → t.newdoc ≠ none := by
    have later : ∀ (es : List (List Tree)), (∀ d ∈ es, ∀ t, d.head? = some t → t.newdoc ≠ none) →
        ∀ d ∈ (es.map (restrict (Matches keep))).filter (· ≠ []), ∀ t, d.head? = some t → t.newdoc ≠ none := by
      intro es hes d hx t ht
      obtain ⟨hx, _⟩ := List.mem_filter.1 hx
      obtain ⟨e, he, rfl⟩ := List.mem_map.1 hx
      unfold restrict at ht
      cases e with
      | nil => cases ht
      | cons y e =>
        cases hf : (y :: e).filter (Matches keep) with
        | nil => rw [hf] at ht; cases ht
        | cons u us =>
          rw [hf] at ht
          injection ht with ht
          rw [← ht]
          exact hes _ he y rfl
    cases ds with
    | nil => intro d hx; cases hx
    | cons e es =>
      intro d hx
      refine later es hd.start d ?_
      rw [List.map_cons] at hx
      by_cases he : restrict (Matches keep) e = []
      · rw [List.filter_cons_of_neg (by simp [he])] at hx
        exact List.mem_of_mem_tail hx
      · rw [List.filter_cons_of_pos (by simp [he])] at hx
        exact hx
  have hfl : ds.flatMap (restrict (Matches keep)) ≠ [] := by
    obtain ⟨t, ht, hk⟩ := hne
    obtain ⟨d, hd', htd⟩ := List.mem_flatten.1 ht
    intro hx
    rw [List.flatMap_eq_nil_iff] at hx
    have := (hres d).1 (hx d hd')
    rw [List.filter_eq_nil_iff] at this
    exact this t htd hk
  obtain ⟨docs, e1, e2⟩ := C125_split_partial hc (f := (ds.flatMap (restrict (Matches keep))).map Tree.sent) (fs := []) (by simp [hfl])
    (fun g hg => absurd hg List.not_mem_nil) (ds := ((ds.map (restrict (Matches keep))).filter (· ≠ [])).map (·.map Tree.sent))
    (by rw [← hsub ds]; simp [List.map_flatten])
    (by
      intro d hx
      obtain ⟨e, he, rfl⟩ := List.mem_map.1 hx
      obtain ⟨t, r, rfl, hr⟩ := hins e he
      refine ⟨_, _, rfl, ?_⟩
      intro x hxr
      obtain ⟨y, hy, rfl⟩ := List.mem_map.1 hxr
      simp [Tree.sent, hr y hy])
    (by
      intro d hx t ht
      rw [← List.map_tail] at hx
      obtain ⟨e, he, rfl⟩ := List.mem_map.1 hx
      rw [List.head?_map] at ht
      cases heh : e.head? with
      | none => rw [heh] at ht; cases ht
      | some y =>
        rw [heh] at ht
        injection ht with ht
        rw [← ht]
        have := hstart e he y heh
        cases hn : y.newdoc with
        | none => exact absurd hn this
        | some v => simp [Tree.sent, hn])
  refine ⟨docs, by rw [h1]; exact e1, ?_⟩
  have e3 := congrArg (List.map (List.map Sent.id)) e2
  simp only [List.map_map] at e3
  have e4 : docs.map (fun d => (d.flatMap (·.sents)).map (·.id)) = docs.map (List.map Sent.id ∘ fun d => d.flatMap (·.sents)) := rfl
  rw [e4, e3]
  clear e1 e2 e3 e4 hne hfl hstart hins h1 hn hd
  induction ds with
  | nil => rfl
  | cons d ds ih =>
    rw [List.map_cons, List.map_cons]
    cases hf : d.filter (Matches keep) with
    | nil =>
      have hr := (hres d).2 hf
      rw [List.filter_cons_of_neg (by simp [hr]), List.filter_cons_of_neg (by simp)]
      exact ih
    | cons t r =>
      have hr : restrict (Matches keep) d ≠ [] := fun hx => by have := (hres d).1 hx; rw [hf] at this; cases this
      rw [List.filter_cons_of_pos (by simp [hr]), List.filter_cons_of_pos (by simp), List.map_cons, ih]
      congr 1
      unfold restrict
      rw [hf]
      simp [Tree.sent]

/-! ## Examples -/

def ft (n : Nat) (s : Str) (nd : Option Str := none) : Tree := ⟨n, some s, nd⟩

/-- The first sentence of each document and the second document are skipped. -/
example : readAllTrees (fun s => s.head? == some 'a') 9
    [ft 1 ['b', '1'] (some ['x']), ft 2 ['a', '2'], ft 3 ['b', '3'] (some []), ft 4 ['b', '4'] (some ['y']), ft 5 ['a', '5'], ft 6 ['a', '6']] =
    [ft 2 ['a', '2'] (some ['x']), ft 5 ['a', '5'] (some ['y']), ft 6 ['a', '6']] := rfl

example : Division [[ft 1 ['b', '1'] (some ['x']), ft 2 ['a', '2']], [ft 3 ['b', '3'] (some [])]] ∧
    Splits { splitDocs := true } := by
  refine ⟨⟨?_, ?_⟩, ⟨rfl, rfl, rfl⟩⟩
  · intro d hd
    rcases List.mem_cons.1 hd with rfl | hd
    · exact ⟨_, _, rfl, by simp [ft]⟩
    · rw [List.mem_singleton.1 hd]
      exact ⟨_, _, rfl, by simp⟩
  · intro d hd t ht
    rw [List.mem_singleton.1 hd] at ht
    injection ht with ht
    rw [← ht]
    simp [ft]

example : readAll { splitDocs := true } [[⟨1, none, true⟩, ⟨2, none, false⟩, ⟨3, none, true⟩], [⟨4, none, false⟩]] =
    some [[⟨none, [⟨1, none, true⟩]⟩, ⟨none, [⟨2, none, false⟩]⟩], [⟨none, [⟨3, none, true⟩]⟩, ⟨none, [⟨4, none, false⟩]⟩]] := rfl

end Verif.Run.Filter
