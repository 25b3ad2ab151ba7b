import Verif.Text.Compute
import Verif.Run.Dispatch

/-!
# Property C181: counting words, tokens and documents (udapi/block/util/wc.py)

Simplified: the trees of a document are those of C84 with the number of empty nodes and whether `newdoc` and `newpar` are set (are
true as conditions). A tree is identified by the indices of its bundle and of itself in the bundle. The trees are those selected by
`zones` (C44, block.py:145-166 with the default `if_empty_tree`).
-/

namespace Verif.Text
open Verif.Py

/-- What `Wc` reads of a tree. -/
structure WcTree where
  zone : Str
  tree : Tree
  empties : Nat
  newdoc : Bool
  newpar : Bool
  deriving DecidableEq

/-- The counters (wc.py:15-16). -/
structure Counts where
  trees : Nat := 0
  words : Nat := 0
  mwts : Nat := 0
  tokens : Nat := 0
  empty : Nat := 0
  docs : Nat := 0
  pars : Nat := 0
  deriving DecidableEq

/-- `process_tree` (wc.py:19-29) for the tree at `pos`; `first` is the position of `tree.document[0].trees[0]` if there is such a
tree. `none` is the IndexError if there is none. -/
def wcTree (first : Option (Nat × Nat)) (pos : Nat × Nat) (t : WcTree) (c : Counts) : Option Counts :=
  let c := { c with
    trees := c.trees + 1
    words := c.words + t.tree.words.length
    mwts := c.mwts + t.tree.mwts.length
    tokens := c.tokens + (if t.tree.mwts.length ≠ 0 then (tokens t.tree).length else t.tree.words.length)
    empty := c.empty + t.empties }
  let c' := if t.newdoc then some { c with docs := c.docs + 1 }
    else match first with
      | none => none
      | some f => some (if pos = f then { c with docs := c.docs + 1 } else c)
  c'.map fun c => if t.newpar then { c with pars := c.pars + 1 } else c

/-- The position of `document[0].trees[0]` (wc.py:26). -/
def firstTree : List (List WcTree) → Option (Nat × Nat)
  | (_ :: _) :: _ => some (0, 0)
  | _ => none

/-- The trees of a document in their order, with their positions. -/
def positions (doc : List (List WcTree)) : List ((Nat × Nat) × WcTree) :=
  doc.zipIdx.flatMap fun b => b.1.zipIdx.map fun t => ((b.2, t.2), t.1)

/-- The trees one after the other (block.py:97-124). -/
def wcLoop (zones : Str) (first : Option (Nat × Nat)) : List ((Nat × Nat) × WcTree) → Counts → Option Counts
  | [], c => some c
  | (pos, t) :: rest, c =>
    if Run.zoneSelected zones t.zone then (wcTree first pos t c).bind (wcLoop zones first rest)
    else wcLoop zones first rest c

/-- `Wc` applied to one document. -/
def wcDoc (zones : Str) (doc : List (List WcTree)) (c : Counts) : Option Counts :=
  wcLoop zones (firstTree doc) (positions doc) c

/-- `process_end` with `tsv` (wc.py:32-33). -/
def wcTsv (c : Counts) : Str :=
  join ['\t'] ([c.trees, c.words, c.tokens, c.mwts, c.empty, c.docs, c.pars].map natStr)

/-- The lines of `process_end` without `tsv` (wc.py:35-43): the numbers of trees, words, multi-word tokens, tokens, empty nodes,
documents, paragraphs; `none` if the line is not printed. -/
def wcLines (c : Counts) : List (Option Nat) :=
  let pos (n : Nat) : Option Nat := if n ≠ 0 then some n else none
  [some c.trees, some c.words, pos c.mwts, if c.mwts ≠ 0 then some c.tokens else none, pos c.empty, pos c.docs, pos c.pars]

/-! ## The statement -/

/-- Every multi-word token has a word. -/
def Tree.Used (t : Tree) : Prop := ∀ j < t.mwts.length, ∃ w ∈ t.words, w.mwt = some j

/-- The trees of the document in the zones. -/
def selected (zones : Str) (doc : List (List WcTree)) : List WcTree :=
  doc.flatten.filter fun t => Run.zoneSelected zones t.zone

/-- The number of words outside multi-word tokens. -/
def outside (t : Tree) : Nat := t.words.countP (·.mwt.isNone)

theorem countP_range {α : Type} (p : α → Bool) : ∀ l : List α,
    (List.range l.length).countP (fun i => (l[i]?.map p).getD false) = l.countP p := by
  intro l
  induction l with
  | nil => rfl
  | cons a l ih =>
    rw [List.length_cons, List.range_succ_eq_map, List.countP_cons, List.countP_map, List.countP_cons, ← ih]
    congr 1

/-- The number of tokens: the words outside multi-word tokens and the multi-word tokens. -/
theorem tokens_length {t : Tree} (hok : t.Ok) (hu : t.Used) : (tokens t).length = outside t + t.mwts.length := by
  obtain ⟨hnd, hmem⟩ := C84_tokens hok
  let p : Nat → Bool := fun i => (t.words[i]?.map (·.mwt.isNone)).getD false
  have hnd' : (((List.range t.words.length).filter p).map Tok.word ++ (List.range t.mwts.length).map Tok.mwt).Nodup := by
    refine List.nodup_append.2 ⟨?_, ?_, ?_⟩
    · exact List.Pairwise.map _ (fun a b h he => h (by injection he)) (List.nodup_range.filter p)
    · exact List.Pairwise.map _ (fun a b h he => h (by injection he)) List.nodup_range
    · intro a ha b hb
      obtain ⟨_, _, rfl⟩ := List.mem_map.1 ha
      obtain ⟨_, _, rfl⟩ := List.mem_map.1 hb
      exact fun h => by cases h
  have hp := (List.perm_ext_iff_of_nodup hnd hnd').2 (by
    intro x
    rw [hmem, List.mem_append, List.mem_map, List.mem_map]
    constructor
    · rintro ⟨i, w, hw, rfl⟩
      have hi : i < t.words.length := (List.getElem?_eq_some_iff.1 hw).1
      cases hm : w.mwt with
      | none =>
        refine Or.inl ⟨i, List.mem_filter.2 ⟨List.mem_range.2 hi, ?_⟩, by simp [tokOf, hm]⟩
        simp [p, hw, hm]
      | some j =>
        obtain ⟨m, hj, _⟩ := hok i w j hw hm
        exact Or.inr ⟨j, List.mem_range.2 (List.getElem?_eq_some_iff.1 hj).1, by simp [tokOf, hm]⟩
    · rintro (⟨i, hi, rfl⟩ | ⟨j, hj, rfl⟩)
      · obtain ⟨h1, h2⟩ := List.mem_filter.1 hi
        have hw := List.getElem?_eq_getElem (List.mem_range.1 h1)
        refine ⟨i, _, hw, ?_⟩
        simp only [p, hw, Option.map_some, Option.getD_some, Option.isNone_iff_eq_none] at h2
        simp [tokOf, h2]
      · obtain ⟨w, hw, hm⟩ := hu j (List.mem_range.1 hj)
        obtain ⟨i, hi⟩ := List.getElem?_of_mem hw
        exact ⟨i, w, hi, by simp [tokOf, hm]⟩)
  rw [hp.length_eq, List.length_append, List.length_map, List.length_map, List.length_range, ← List.countP_eq_length_filter]
  rw [outside, ← countP_range (fun w : Word => w.mwt.isNone) t.words]

theorem outside_of_no_mwts {t : Tree} (hok : t.Ok) (h : t.mwts = []) : outside t = t.words.length := by
  rw [outside, List.countP_eq_length]
  intro w hw
  obtain ⟨i, hi⟩ := List.getElem?_of_mem hw
  cases hm : w.mwt with
  | none => rfl
  | some j =>
    obtain ⟨m, hj, _⟩ := hok i w j hi hm
    rw [h] at hj
    cases hj

/-- Sum of `f` over the list. -/
def total (f : WcTree → Nat) (l : List WcTree) : Nat := (l.map f).sum

theorem wcLoop_spec (zones : Str) (first : Option (Nat × Nat)) : ∀ (l : List ((Nat × Nat) × WcTree)) (c : Counts),
    (∀ p ∈ l, p.2.tree.Ok ∧ p.2.tree.Used) →
    (first = none → ∀ p ∈ l, Run.zoneSelected zones p.2.zone = true → p.2.newdoc = true) →
    let sel := (l.map (·.2)).filter fun t => Run.zoneSelected zones t.zone
    wcLoop zones first l c = some
      { trees := c.trees + sel.length
        words := c.words + total (·.tree.words.length) sel
        mwts := c.mwts + total (·.tree.mwts.length) sel
        tokens := c.tokens + total (fun t => outside t.tree + t.tree.mwts.length) sel
        empty := c.empty + total (·.empties) sel
        docs := c.docs + l.countP fun p => Run.zoneSelected zones p.2.zone && (p.2.newdoc || decide (some p.1 = first))
        pars := c.pars + sel.countP (·.newpar) } := by
  intro l
  induction l with
  | nil => intro c _ _; simp [wcLoop, total]
  | cons p rest ih =>
    obtain ⟨pos, t⟩ := p
    intro c hok hfirst
    have hok' := fun p hp => hok p (List.mem_cons_of_mem _ hp)
    have hfirst' := fun h p hp => hfirst h p (List.mem_cons_of_mem _ hp)
    rw [wcLoop]
    by_cases hz : Run.zoneSelected zones t.zone = true
    · rw [if_pos hz]
      have htok : (if t.tree.mwts.length ≠ 0 then (tokens t.tree).length else t.tree.words.length) =
          outside t.tree + t.tree.mwts.length := by
        obtain ⟨h1, h2⟩ := hok (pos, t) (List.mem_cons_self ..)
        by_cases hm : t.tree.mwts.length ≠ 0
        · rw [if_pos hm, tokens_length h1 h2]
        · rw [if_neg hm]
          have hm' : t.tree.mwts = [] := List.length_eq_zero_iff.1 (by omega)
          rw [outside_of_no_mwts h1 hm', hm']
          rfl
      have hstep : ∃ d, wcTree first pos t c = some d ∧ d =
          { trees := c.trees + 1, words := c.words + t.tree.words.length, mwts := c.mwts + t.tree.mwts.length
            tokens := c.tokens + (outside t.tree + t.tree.mwts.length), empty := c.empty + t.empties
            docs := c.docs + if (t.newdoc || decide (some pos = first)) = true then 1 else 0
            pars := c.pars + if t.newpar = true then 1 else 0 } := by
        refine ⟨_, ?_, rfl⟩
        simp only [wcTree, htok]
        cases hn : t.newdoc with
        | true => cases t.newpar <;> simp
        | false =>
          cases hf : first with
          | none =>
            have := hfirst hf (pos, t) (List.mem_cons_self ..) hz
            rw [hn] at this
            cases this
          | some f =>
            by_cases hp : pos = f
            · cases t.newpar <;> simp [hp]
            · cases t.newpar <;> simp [hp]
      obtain ⟨d, hd, he⟩ := hstep
      rw [hd, Option.bind_some, ih d hok' hfirst', he]
      simp only [List.map_cons, List.filter_cons, hz, if_true, List.length_cons, total, List.map_cons, List.sum_cons,
        List.countP_cons, Bool.true_and]
      congr 1
      congr 1 <;> omega
    · rw [if_neg hz, ih c hok' hfirst']
      have hz' : Run.zoneSelected zones t.zone = false := by simpa using hz
      simp [hz']

theorem map_snd_zipIdx {α : Type} : ∀ (l : List α) (n : Nat), (l.zipIdx n).map (·.1) = l := by
  intro l
  induction l with
  | nil => intro n; rfl
  | cons a l ih => intro n; rw [List.zipIdx_cons, List.map_cons, ih]

theorem positions_trees_aux : ∀ (doc : List (List WcTree)) (n : Nat),
    ((doc.zipIdx n).flatMap fun b => b.1.zipIdx.map fun t => ((b.2, t.2), t.1)).map (·.2) = doc.flatten := by
  intro doc
  induction doc with
  | nil => intro n; rfl
  | cons b doc ih =>
    intro n
    rw [List.zipIdx_cons, List.flatMap_cons, List.map_append, ih, List.flatten_cons, List.map_map]
    congr 1
    exact map_snd_zipIdx b 0

theorem positions_trees (doc : List (List WcTree)) : (positions doc).map (·.2) = doc.flatten := positions_trees_aux doc 0

/-- Only the first tree of the first bundle has the position `(0, 0)`. -/
theorem positions_first (t : WcTree) (b : List WcTree) (doc : List (List WcTree)) :
    ∃ rest, positions ((t :: b) :: doc) = ((0, 0), t) :: rest ∧ ∀ p ∈ rest, p.1 ≠ (0, 0) := by
  refine ⟨_, by rw [positions, List.zipIdx_cons, List.flatMap_cons, List.zipIdx_cons, List.map_cons, List.cons_append], ?_⟩
  intro p hp
  rcases List.mem_append.1 hp with hp | hp
  · obtain ⟨⟨u, j⟩, hu, rfl⟩ := List.mem_map.1 hp
    have := (List.mem_zipIdx hu).1
    simp only [ne_eq, Prod.mk.injEq, not_and]
    omega
  · obtain ⟨⟨b', i⟩, hb, hp⟩ := List.mem_flatMap.1 hp
    obtain ⟨⟨u, j⟩, hu, rfl⟩ := List.mem_map.1 hp
    have := (List.mem_zipIdx hb).1
    simp only [ne_eq, Prod.mk.injEq, not_and]
    omega

theorem wc_hyps {doc : List (List WcTree)} (hok : ∀ t ∈ doc.flatten, t.tree.Ok ∧ t.tree.Used) :
    ∀ p ∈ positions doc, p.2.tree.Ok ∧ p.2.tree.Used := by
  intro p hp
  apply hok
  rw [← positions_trees]
  exact List.mem_map_of_mem hp

/-- **C181.** In a document whose first bundle has a tree, the numbers are those of the trees in the zones. The tokens are the
words outside multi-word tokens and the multi-word tokens. The documents are the trees with `newdoc`, and one more if the first
tree of the document is in the zones and has no `newdoc`. -/
theorem C181_counts (zones : Str) (t : WcTree) (b : List WcTree) (doc : List (List WcTree)) (c : Counts)
    (hok : ∀ t' ∈ ((t :: b) :: doc).flatten, t'.tree.Ok ∧ t'.tree.Used) :
    let sel := selected zones ((t :: b) :: doc)
    wcDoc zones ((t :: b) :: doc) c = some
      { trees := c.trees + sel.length
        words := c.words + (sel.map fun t => t.tree.words.length).sum
        mwts := c.mwts + (sel.map fun t => t.tree.mwts.length).sum
        tokens := c.tokens + (sel.map fun t => outside t.tree + t.tree.mwts.length).sum
        empty := c.empty + (sel.map fun t => t.empties).sum
        docs := c.docs + sel.countP (·.newdoc) + (if Run.zoneSelected zones t.zone = true ∧ t.newdoc = false then 1 else 0)
        pars := c.pars + sel.countP (·.newpar) } := by
  intro sel
  have h := wcLoop_spec zones (some (0, 0)) (positions ((t :: b) :: doc)) c (wc_hyps hok) (by intro h; cases h)
  rw [positions_trees] at h
  rw [wcDoc, firstTree]
  rw [h]
  congr 1
  have hd : (positions ((t :: b) :: doc)).countP (fun p =>
      Run.zoneSelected zones p.2.zone && (p.2.newdoc || decide (some p.1 = some (0, 0)))) =
      sel.countP (·.newdoc) + (if Run.zoneSelected zones t.zone = true ∧ t.newdoc = false then 1 else 0) := by
    obtain ⟨rest, hp, hr⟩ := positions_first t b doc
    have hsel : sel = (t :: rest.map (·.2)).filter fun t => Run.zoneSelected zones t.zone := by
      show List.filter _ _ = _
      rw [← positions_trees, hp]
      rfl
    have hrest : rest.countP (fun p => Run.zoneSelected zones p.2.zone && (p.2.newdoc || decide (some p.1 = some (0, 0)))) =
        ((rest.map (·.2)).filter fun t => Run.zoneSelected zones t.zone).countP (·.newdoc) := by
      rw [List.countP_filter, List.countP_map]
      apply List.countP_congr
      intro p hp
      have := hr p hp
      simp [this, Bool.and_comm]
    rw [hp, List.countP_cons, hrest, hsel, List.filter_cons]
    cases hz : Run.zoneSelected zones t.zone <;> cases hn : t.newdoc <;> simp [hn]
  rw [hd]
  simp only [total, sel, selected]
  congr 1
  omega

/-- **C181, violated.** If no tree in the zones has `newdoc` and the first tree of the document is not in the zones, no document is
counted, however many trees there are. -/
theorem C181_zone_violated (zones : Str) (t : WcTree) (b : List WcTree) (doc : List (List WcTree)) (c : Counts)
    (hok : ∀ t' ∈ ((t :: b) :: doc).flatten, t'.tree.Ok ∧ t'.tree.Used)
    (hz : Run.zoneSelected zones t.zone = false) (hn : ∀ t' ∈ selected zones ((t :: b) :: doc), t'.newdoc = false) :
    ∃ d, wcDoc zones ((t :: b) :: doc) c = some d ∧ d.docs = c.docs ∧
      d.trees = c.trees + (selected zones ((t :: b) :: doc)).length := by
  refine ⟨_, C181_counts zones t b doc c hok, ?_, rfl⟩
  have : (selected zones ((t :: b) :: doc)).countP (·.newdoc) = 0 := by
    rw [List.countP_eq_zero]
    intro t' ht'
    simp [hn t' ht']
  simp [this, hz]

theorem wcLoop_none (zones : Str) : ∀ (l : List ((Nat × Nat) × WcTree)) (c : Counts),
    (∃ p ∈ l, Run.zoneSelected zones p.2.zone = true ∧ p.2.newdoc = false) → wcLoop zones none l c = none := by
  intro l
  induction l with
  | nil => rintro c ⟨p, hp, _⟩; cases hp
  | cons p rest ih =>
    obtain ⟨pos, t⟩ := p
    rintro c ⟨q, hq, h1, h2⟩
    rw [wcLoop]
    rcases List.mem_cons.1 hq with rfl | hq
    · rw [if_pos h1]
      have h2 : t.newdoc = false := h2
      simp [wcTree, h2]
    · by_cases hz : Run.zoneSelected zones t.zone = true
      · rw [if_pos hz]
        cases wcTree none pos t c with
        | none => rfl
        | some d => exact ih d ⟨q, hq, h1, h2⟩
      · rw [if_neg hz]
        exact ih c ⟨q, hq, h1, h2⟩

/-- **C181, violated.** If the first bundle has no tree, every tree in the zones without `newdoc` raises an exception. -/
theorem C181_empty_bundle_violated (zones : Str) (doc : List (List WcTree)) (c : Counts)
    (h : ∃ t ∈ doc.flatten, Run.zoneSelected zones t.zone = true ∧ t.newdoc = false) : wcDoc zones ([] :: doc) c = none := by
  obtain ⟨t, ht, h1, h2⟩ := h
  rw [wcDoc, firstTree]
  · apply wcLoop_none
    have : t ∈ (positions ([] :: doc)).map (·.2) := by rw [positions_trees]; simpa using ht
    obtain ⟨p, hp, rfl⟩ := List.mem_map.1 this
    exact ⟨p, hp, h1, h2⟩
  · intro _ _ _ h
    cases h

/-- **C181.** The numbers can be read from the line of tab-separated values. -/
theorem C181_tsv (c : Counts) : (split '\t' (wcTsv c)).map parseNat =
    [c.trees, c.words, c.tokens, c.mwts, c.empty, c.docs, c.pars].map some := by
  rw [wcTsv, split_join (by simp)]
  · simp [parseNat_natStr]
  · intro p hp
    obtain ⟨n, _, rfl⟩ := List.mem_map.1 hp
    exact not_mem_natStr (by decide) n

/-- **C181.** The printed lines determine all numbers if those of a tree without multi-word tokens were counted: a missing line is
the number 0, or, for the tokens, the number of words. -/
theorem C181_lines (c : Counts) (h : c.mwts = 0 → c.tokens = c.words) :
    ∃ w m k e d p, wcLines c = [some c.trees, some w, m, k, e, d, p] ∧ c.words = w ∧ c.mwts = m.getD 0 ∧ c.tokens = k.getD w ∧
      c.empty = e.getD 0 ∧ c.docs = d.getD 0 ∧ c.pars = p.getD 0 := by
  have hg : ∀ n : Nat, n = (if n ≠ 0 then some n else none : Option Nat).getD 0 := by
    intro n; by_cases hn : n = 0 <;> simp [hn]
  refine ⟨_, _, _, _, _, _, rfl, rfl, hg _, ?_, hg _, hg _, hg _⟩
  by_cases hm : c.mwts = 0
  · simp [hm, h hm]
  · simp [hm]

/-- **C181.** Without multi-word tokens, the number of tokens is the number of words; so the lines tell all numbers. -/
theorem C181_no_mwts (zones : Str) (t : WcTree) (b : List WcTree) (doc : List (List WcTree)) (c d : Counts)
    (hok : ∀ t' ∈ ((t :: b) :: doc).flatten, t'.tree.Ok ∧ t'.tree.Used) (hc : c.mwts = 0 → c.tokens = c.words)
    (hd : wcDoc zones ((t :: b) :: doc) c = some d) : d.mwts = 0 → d.tokens = d.words := by
  rw [C181_counts zones t b doc c hok, Option.some.injEq] at hd
  subst hd
  intro h0
  simp only at h0 ⊢
  have h1 : c.mwts = 0 := by omega
  have h2 : ((selected zones ((t :: b) :: doc)).map fun t => t.tree.mwts.length).sum = 0 := by omega
  rw [hc h1]
  congr 2
  apply List.map_congr_left
  intro u hu
  have hz : u.tree.mwts.length = 0 := by
    have := List.sum_eq_zero_iff_forall_eq_nat.1 h2 _ (List.mem_map_of_mem hu)
    exact this
  have hm : u.tree.mwts = [] := List.length_eq_zero_iff.1 hz
  rw [outside_of_no_mwts (hok u (List.mem_filter.1 hu).1).1 hm, hm]
  rfl

section
private def wt (z : Str) (n : Nat) (nd : Bool) : WcTree := ⟨z, ⟨List.replicate n ⟨['a'], false, none⟩, []⟩, 1, nd, nd⟩
private def exDoc : List (List WcTree) :=
  [[wt [] 2 false, wt ['c', 's'] 3 false], [⟨[], exTree, 0, true, true⟩]]
example : wcDoc Run.allZones exDoc {} =
    some { trees := 3, words := 11, mwts := 2, tokens := 9, empty := 2, docs := 2, pars := 1 } := by decide
example : wcDoc ['c', 's'] exDoc {} = some { trees := 1, words := 3, tokens := 3, empty := 1 } := by decide
example : wcDoc Run.allZones ([] :: exDoc) {} = none := by decide
example : wcLines { trees := 1, words := 3, tokens := 3, empty := 1 } = [some 1, some 3, none, none, some 1, none, none] := by
  decide
end

end Verif.Text
