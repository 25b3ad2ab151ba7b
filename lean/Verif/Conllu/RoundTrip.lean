import Verif.Conllu.WriteLemmas
import Verif.Empty.Props

/-!
# Writing CoNLL-U and reading it back: theorems
-/

namespace Verif.Conllu
open Verif.Py
open Verif.Tree

/-! ## Vocabulary -/

/-- The tree with root `r` is representable in CoNLL-U: a well-formed tree whose attributes are
representable, whose empty nodes are sorted and have decimal numbers, and whose multi-word tokens cover
contiguous words that have no `SpaceAfter` of their own. -/
structure Writable (lower : Str → Str) (t : Tree) (r : Nat) : Prop where
  wf : WF t.heap r
  words : ∀ x ∈ t.heap.words r, WordOk lower (t.attrs x)
  notArtificial : ∀ x, t.heap.words r = [x] → dictCol lower (t.attrs x).misc ≠ emptyYes
  empties : ∀ e ∈ t.empties, EmptyOk lower e.attrs ∧ FracOk e.ord.frac
  emptiesSorted : t.empties.Pairwise (fun a b => a.ord.le b.ord = true)
  mwt : Mwt.Inv t.mwt
  tokens : ∀ m ∈ t.mwt.mwts, t.mwt.words m ≠ [] ∧ Plain (t.mwtForm m) ∧ SlotWritable lower (t.mwtMisc m) ∧
    ∃ A B, t.heap.words r = A ++ mwtWords t m ++ B
  tokenWords : ∀ m ∈ t.mwt.mwts, ∀ x ∈ t.mwt.words m, dictGet (t.attrs x).misc spaceAfter = none

/-- The tree `t'` with root `r'` is the same as `t` with root `r`, except for the identity of the objects,
the order of the tokens in `root.multiword_tokens`, and the text form of FEATS and MISC. -/
structure SameTree (t : Tree) (r : Nat) (t' : Tree) (r' : Nat) : Prop where
  wf : WF t'.heap r'
  length : (t'.heap.words r').length = (t.heap.words r).length
  /-- the `k`-th words have the same attributes, and their parents the same position -/
  words : ∀ (k x x' : Nat), (t.heap.words r)[k]? = some x → (t'.heap.words r')[k]? = some x' →
    EqAttrs (t.attrs x) (t'.attrs x') ∧ (t'.heap.parent x').map t'.heap.ord = (t.heap.parent x).map t.heap.ord
  emptyOrds : t'.empties.map (·.ord) = t.empties.map (·.ord)
  empties : ∀ (k : Nat) (e e' : ENode), t.empties[k]? = some e → t'.empties[k]? = some e' → EqAttrs e.attrs e'.attrs
  /-- `word.multiword_token` agrees with the tokens of the tree -/
  mwt : Mwt.Inv t'.mwt
  /-- the tokens are the same, in some order: same words, form and MISC -/
  tokens : ∃ L : List Nat, L.Perm t.mwt.mwts ∧ L.length = t'.mwt.mwts.length ∧
    ∀ (k m m' : Nat), L[k]? = some m → t'.mwt.mwts[k]? = some m' →
      (t'.mwt.words m').map t'.heap.ord = (mwtWords t m).map t.heap.ord ∧ t'.mwtForm m' = t.mwtForm m ∧
      ∀ name, dictGet (t'.mwtMisc m') name = dictGet (t.mwtMisc m) name

/-! ## The loop over the nodes -/

def Item.word? : Item → Option Nat
  | .word x => some x
  | .empty _ => none

def Item.empty? : Item → Option ENode
  | .word _ => none
  | .empty e => some e

/-- The tokens printed before the words `ws`. -/
def printed (t : Tree) : Nat → List Nat → List Nat
  | _, [] => []
  | last, x :: l =>
    match mwtBefore t last x with
    | none => printed t last l
    | some m => m :: printed t (((mwtWords t m).getLast?.map t.heap.ord).getD 0) l

/-- What is read from the line of a word. -/
def wordRec (lower : Str → Str) (t : Tree) (x : Nat) : Nat × Attrs × Int :=
  (t.heap.ord x, wordAttrs (nodeCols lower (natStr (t.heap.ord x)) (headCol t x) (t.attrs x)),
    ((((t.heap.parent x).map t.heap.ord).getD 0 : Nat) : Int))

def emptyRec (lower : Str → Str) (e : ENode) : ENode :=
  ⟨e.ord, emptyAttrs (nodeCols lower e.ord.str ['_'] e.attrs)⟩

def mwtRec (lower : Str → Str) (t : Tree) (m : Nat) : List Str :=
  mwtCols lower (((mwtWords t m).head?.map t.heap.ord).getD 0) (((mwtWords t m).getLast?.map t.heap.ord).getD 0)
    (t.mwtForm m) (t.mwtMisc m)

theorem mwtWords_ne {t : Tree} {m : Nat} (h : t.mwt.words m ≠ []) : mwtWords t m ≠ [] := by
  intro e
  have : (mwtWords t m).length = (t.mwt.words m).length := by
    unfold mwtWords Tree.sortNodes
    exact length_pySort
  rw [e] at this
  exact h (List.length_eq_zero_iff.1 this.symm)

theorem mwtLine_eq (lower : Str → Str) {t : Tree} {m : Nat} (h : mwtWords t m ≠ []) :
    ∃ a b, (mwtWords t m).head? = some a ∧ (mwtWords t m).getLast? = some b ∧
    mwtLine lower t m = some (join ['\t'] [natStr (t.heap.ord a) ++ '-' :: natStr (t.heap.ord b), colOr (t.mwtForm m),
      "_\t_\t_\t_\t_\t_\t_".toList, dictCol lower (t.mwtMisc m)]) := by
  cases ha : (mwtWords t m).head? with
  | none => exact absurd (List.head?_eq_none_iff.1 ha) h
  | some a =>
    cases hb : (mwtWords t m).getLast? with
    | none => exact absurd (List.getLast?_eq_none_iff.1 hb) h
    | some b =>
      refine ⟨a, b, rfl, rfl, ?_⟩
      unfold mwtLine
      rw [ha, hb]

theorem headCol_eq {t : Tree} {x p : Nat} (h : t.heap.parent x = some p) : headCol t x = natStr (t.heap.ord p) := by
  unfold headCol; rw [h]

theorem readLines_cons {o : Opts} {a a' : Acc} {l : Str} {ls : List Str} (h : readLine o a l = .ok a') :
    readLines o a (l :: ls) = readLines o a' ls := by
  simp only [readLines, h]

/-- Reading the lines written for a list of nodes. -/
theorem read_writeLoop {lower : Str → Str} {t : Tree} (o : Opts) : ∀ (items : List Item) (last : Nat) (acc : Acc),
    (∀ x ∈ items.filterMap Item.word?, WordOk lower (t.attrs x) ∧ (∃ p, t.heap.parent x = some p) ∧
      ∀ m, t.mwt.mwtOf x = some m → mwtWords t m ≠ [] ∧ Plain (t.mwtForm m) ∧ SlotWritable lower (t.mwtMisc m)) →
    (∀ e ∈ items.filterMap Item.empty?, EmptyOk lower e.attrs ∧ FracOk e.ord.frac) →
    ∃ ls, writeLoop lower t last items = some ls ∧ readLines o acc ls =
      .ok ⟨acc.words ++ (items.filterMap Item.word?).map (wordRec lower t),
        acc.empties ++ (items.filterMap Item.empty?).map (emptyRec lower),
        acc.mwts ++ (printed t last (items.filterMap Item.word?)).map (mwtRec lower t)⟩
  | [], last, acc, _, _ => ⟨[], rfl, by simp [readLines, printed]⟩
  | .empty e :: l, last, acc, hw, he => by
    have he' := he e (by simp [Item.empty?])
    obtain ⟨ls, h1, h2⟩ := read_writeLoop o l last { acc with empties := acc.empties ++ [emptyRec lower e] }
      (fun x hx => hw x (by simpa [Item.word?] using hx)) (fun e' h' => he e' (by simp [Item.empty?, h']))
    refine ⟨nodeLine lower e.ord.str ['_'] e.attrs :: ls, by simp [writeLoop, h1], ?_⟩
    rw [readLines_cons (readLine_empty o acc he'.1 he'.2)]
    refine Eq.trans h2 ?_
    rw [show (Item.empty e :: l).filterMap Item.word? = l.filterMap Item.word? from rfl,
      show (Item.empty e :: l).filterMap Item.empty? = e :: l.filterMap Item.empty? from rfl]
    simp
  | .word x :: l, last, acc, hw, he => by
    obtain ⟨hx1, ⟨p, hp⟩, hx3⟩ := hw x (by simp [Item.word?])
    have hwl : ∀ acc', readLine o acc' (nodeLine lower (natStr (t.heap.ord x)) (headCol t x) (t.attrs x)) =
        .ok { acc' with words := acc'.words ++ [wordRec lower t x] } := by
      intro acc'
      rw [headCol_eq hp, readLine_word o acc' hx1]
      simp [wordRec, headCol_eq hp, hp]
    have hwf : (Item.word x :: l).filterMap Item.word? = x :: l.filterMap Item.word? := rfl
    have hef : (Item.word x :: l).filterMap Item.empty? = l.filterMap Item.empty? := rfl
    have hw' : ∀ y ∈ l.filterMap Item.word?, WordOk lower (t.attrs y) ∧ (∃ p, t.heap.parent y = some p) ∧
        ∀ m, t.mwt.mwtOf y = some m → mwtWords t m ≠ [] ∧ Plain (t.mwtForm m) ∧ SlotWritable lower (t.mwtMisc m) :=
      fun y hy => hw y (by rw [hwf]; exact List.mem_cons_of_mem _ hy)
    rw [hef] at he
    cases hb : mwtBefore t last x with
    | none =>
      obtain ⟨ls, h1, h2⟩ := read_writeLoop o l last { acc with words := acc.words ++ [wordRec lower t x] } hw' he
      refine ⟨nodeLine lower (natStr (t.heap.ord x)) (headCol t x) (t.attrs x) :: ls, by simp [writeLoop, hb, h1], ?_⟩
      rw [readLines_cons (hwl acc)]
      refine Eq.trans h2 ?_
      rw [hwf, hef]
      simp [printed, hb]
    | some m =>
      have hm : t.mwt.mwtOf x = some m := by
        unfold mwtBefore at hb
        split at hb
        · rename_i m' hm'
          split at hb
          · rw [hm', hb]
          · simp at hb
        · simp at hb
      obtain ⟨n1, n2, n3⟩ := hx3 m hm
      obtain ⟨a, b, ha, hb', hml⟩ := mwtLine_eq lower n1
      obtain ⟨ls, h1, h2⟩ := read_writeLoop o l (((mwtWords t m).getLast?.map t.heap.ord).getD 0)
        { acc with words := acc.words ++ [wordRec lower t x], mwts := acc.mwts ++ [mwtRec lower t m] } hw' he
      refine ⟨_, by simp only [writeLoop, hb, hml, h1, Option.map_some]; rfl, ?_⟩
      rw [readLines_cons (readLine_mwt o acc n2 n3 _ _), readLines_cons (hwl _)]
      have : mwtCols lower (t.heap.ord a) (t.heap.ord b) (t.mwtForm m) (t.mwtMisc m) = mwtRec lower t m := by
        simp [mwtRec, ha, hb']
      rw [this]
      refine Eq.trans h2 ?_
      rw [hwf, hef]
      simp [printed, hb]

/-! ## The order of the nodes -/

theorem eord_trans : ∀ a b c : EOrd, a.le b = true → b.le c = true → a.le c = true := by
  intro a b c h1 h2
  simp only [EOrd.le, Bool.or_eq_true, Bool.and_eq_true, decide_eq_true_eq] at *
  rcases h1 with h1 | ⟨h1, h1'⟩ <;> rcases h2 with h2 | ⟨h2, h2'⟩
  · left; omega
  · left; omega
  · left; omega
  · right; exact ⟨by omega, List.le_trans h1' h2'⟩

theorem eord_total : ∀ a b : EOrd, a.le b = true ∨ b.le a = true := by
  intro a b
  simp only [EOrd.le, Bool.or_eq_true, Bool.and_eq_true, decide_eq_true_eq]
  rcases Nat.lt_trichotomy a.major b.major with h | h | h
  · exact Or.inl (Or.inl h)
  · rcases List.le_total a.frac b.frac with h' | h'
    · exact Or.inl (Or.inr ⟨h, h'⟩)
    · exact Or.inr (Or.inr ⟨h.symm, h'⟩)
  · exact Or.inr (Or.inl h)

theorem filterMap_word_map : ∀ (l : List Nat), (l.map Item.word).filterMap Item.word? = l
  | [] => rfl
  | a :: l => congrArg (a :: ·) (filterMap_word_map l)

theorem filterMap_empty_map : ∀ (l : List ENode), (l.map Item.empty).filterMap Item.empty? = l
  | [] => rfl
  | a :: l => congrArg (a :: ·) (filterMap_empty_map l)

theorem filterMap_word_empty (l : List ENode) : (l.map Item.empty).filterMap Item.word? = [] := by
  induction l with
  | nil => rfl
  | cons a l ih => simp [Item.word?]

theorem filterMap_empty_word (l : List Nat) : (l.map Item.word).filterMap Item.empty? = [] := by
  induction l with
  | nil => rfl
  | cons a l ih => simp [Item.empty?]

theorem filterMap_filter_isSome {α β : Type} (f : α → Option β) (l : List α) :
    (l.filter (fun a => (f a).isSome)).filterMap f = l.filterMap f := by
  induction l with
  | nil => rfl
  | cons a l ih =>
    cases h : f a with
    | none => simp [h, ih]
    | some b => simp [h, ih]

theorem filter_words (ws : List Nat) (es : List ENode) :
    (ws.map Item.word ++ es.map Item.empty).filter (fun a => a.word?.isSome) = ws.map Item.word := by
  rw [List.filter_append, List.filter_eq_self.2 (by simp [Item.word?]), List.filter_eq_nil_iff.2 (by simp [Item.word?]),
    List.append_nil]

theorem filter_empties (ws : List Nat) (es : List ENode) :
    (ws.map Item.word ++ es.map Item.empty).filter (fun a => a.empty?.isSome) = es.map Item.empty := by
  rw [List.filter_append, List.filter_eq_nil_iff.2 (by simp [Item.empty?]), List.filter_eq_self.2 (by simp [Item.empty?]),
    List.nil_append]

/-- The written nodes are the words in word order and the empty nodes in their order. -/
theorem writeItems_parts {t : Tree} {r : Nat} (hw : (t.heap.words r).map t.heap.ord = List.range' 1 (t.heap.words r).length)
    (he : t.empties.Pairwise (fun a b => a.ord.le b.ord = true)) :
    (writeItems t r).filterMap Item.word? = t.heap.words r ∧ (writeItems t r).filterMap Item.empty? = t.empties := by
  unfold writeItems
  split
  · rename_i h
    rw [filterMap_word_map, filterMap_empty_word, h]
    exact ⟨rfl, rfl⟩
  · have tr : ∀ a b c : Item, (a.ord t).le (b.ord t) = true → (b.ord t).le (c.ord t) = true → (a.ord t).le (c.ord t) = true :=
      fun a b c => eord_trans _ _ _
    have to : ∀ a b : Item, (a.ord t).le (b.ord t) = true ∨ (b.ord t).le (a.ord t) = true := fun a b => eord_total _ _
    have hp : (t.heap.words r).Pairwise (fun a b => t.heap.ord a < t.heap.ord b) := by
      rw [← List.pairwise_map (f := t.heap.ord) (R := (· < ·)), hw]
      exact List.pairwise_lt_range'
    constructor
    · rw [← filterMap_filter_isSome, pySort_filter tr to, filter_words, pySort_of_pairwise, filterMap_word_map]
      rw [List.pairwise_map]
      refine hp.imp ?_
      intro a b h
      simp [Item.ord, EOrd.le, h]
    · rw [← filterMap_filter_isSome, pySort_filter tr to, filter_empties, pySort_of_pairwise, filterMap_empty_map]
      rw [List.pairwise_map]
      exact he

/-! ## The printed tokens -/

def tokMwt : Mwt.Token → Option Nat
  | .word _ => none
  | .mwt m => some m

theorem printed_tokenLoop {t : Tree} : ∀ (ws : List Nat) (last : Nat) (ts : List Mwt.Token),
    Mwt.tokenLoop (mwtWords t) t.mwt.mwtOf t.heap.ord last ws = some ts →
    printed t last ws = ts.filterMap tokMwt ∧ (∀ w, Mwt.Token.word w ∈ ts → t.mwt.mwtOf w = none) ∧
      ∀ m, Mwt.Token.mwt m ∈ ts → ∃ x ∈ ws, t.mwt.mwtOf x = some m
  | [], last, ts, h => by
    have : ts = [] := by simpa [Mwt.tokenLoop] using h.symm
    subst this
    exact ⟨rfl, by simp, by simp⟩
  | x :: ws, last, ts, h => by
    simp only [Mwt.tokenLoop] at h
    cases hx : t.mwt.mwtOf x with
    | none =>
      rw [hx] at h
      simp only at h
      obtain ⟨ts', h1, h2⟩ := Option.map_eq_some_iff.1 h
      obtain ⟨a, b, c⟩ := printed_tokenLoop ws last ts' h1
      subst h2
      refine ⟨?_, ?_, ?_⟩
      · simp only [printed, mwtBefore, hx]
        exact a
      · intro w hw
        rcases List.mem_cons.1 hw with e | hw
        · rw [Mwt.Token.word.inj e]; exact hx
        · exact b w hw
      · intro m hm
        rcases List.mem_cons.1 hm with e | hm
        · simp at e
        · obtain ⟨y, h1, h2⟩ := c m hm
          exact ⟨y, List.mem_cons_of_mem _ h1, h2⟩
    | some m =>
      rw [hx] at h
      simp only at h
      by_cases ho : t.heap.ord x > last
      · rw [if_pos ho] at h
        cases hl : (mwtWords t m).getLast? with
        | none => rw [hl] at h; simp at h
        | some l =>
          rw [hl] at h
          simp only at h
          obtain ⟨ts', h1, h2⟩ := Option.map_eq_some_iff.1 h
          obtain ⟨a, b, c⟩ := printed_tokenLoop ws _ ts' h1
          subst h2
          refine ⟨?_, ?_, ?_⟩
          · simp only [printed, mwtBefore, hx, if_pos ho, hl, Option.map_some, Option.getD_some]
            rw [a]
            rfl
          · intro w hw
            rcases List.mem_cons.1 hw with e | hw
            · simp at e
            · exact b w hw
          · intro m' hm
            rcases List.mem_cons.1 hm with e | hm
            · rw [Mwt.Token.mwt.inj e]; exact ⟨x, List.mem_cons_self, hx⟩
            · obtain ⟨y, h1, h2⟩ := c m' hm
              exact ⟨y, List.mem_cons_of_mem _ h1, h2⟩
      · rw [if_neg ho] at h
        obtain ⟨a, b, c⟩ := printed_tokenLoop ws last ts h
        refine ⟨?_, b, ?_⟩
        · simp only [printed, mwtBefore, hx, if_neg ho]
          exact a
        · intro m' hm
          obtain ⟨y, h1, h2⟩ := c m' hm
          exact ⟨y, List.mem_cons_of_mem _ h1, h2⟩

theorem mem_mwtWords {t : Tree} {m x : Nat} : x ∈ mwtWords t m ↔ x ∈ t.mwt.words m := by
  unfold mwtWords Tree.sortNodes
  exact mem_pySort

/-- The tokens printed are the tokens of the tree. -/
theorem printed_perm {lower : Str → Str} {t : Tree} {r : Nat} (W : Writable lower t r) :
    (printed t 0 (t.heap.words r)).Perm t.mwt.mwts := by
  have hr : Mwt.Ranges (mwtWords t) t.mwt.mwtOf (t.heap.words r) := by
    intro w _ m hm
    obtain ⟨h1, h2⟩ := (W.mwt.names w m).1 hm
    refine ⟨mem_mwtWords.2 h2, ?_, (W.tokens m h1).2.2.2⟩
    intro x hx
    exact (W.mwt.names x m).2 ⟨h1, mem_mwtWords.1 hx⟩
  obtain ⟨ts, h1, h2, h3⟩ := Mwt.C23_token_descendants W.wf.ords hr
  obtain ⟨h4, h5, h6⟩ := printed_tokenLoop _ _ _ h1
  rw [h4]
  have hmem : ∀ m, m ∈ ts.filterMap tokMwt ↔ Mwt.Token.mwt m ∈ ts := by
    intro m
    rw [List.mem_filterMap]
    constructor
    · rintro ⟨tk, htk, e⟩
      cases tk with
      | word w => simp [tokMwt] at e
      | mwt m' => simp only [tokMwt, Option.some.injEq] at e; rw [← e]; exact htk
    · intro h; exact ⟨_, h, rfl⟩
  have hnd : (ts.filterMap tokMwt).Nodup := by
    refine List.pairwise_filterMap.2 (h3.imp ?_)
    intro a b hab x hx y hy e
    subst e
    cases a with
    | word w => simp [tokMwt] at hx
    | mwt m =>
      cases b with
      | word w => simp [tokMwt] at hy
      | mwt m' =>
        simp only [tokMwt, Option.some.injEq] at hx hy
        exact hab (by rw [hx, hy])
  refine (List.perm_ext_iff_of_nodup hnd W.mwt.nodup).2 ?_
  intro m
  rw [hmem]
  constructor
  · intro h
    obtain ⟨x, _, hx⟩ := h6 m h
    exact ((W.mwt.names x m).1 hx).1
  · intro hm
    obtain ⟨hne, _, _, A, B, e⟩ := W.tokens m hm
    obtain ⟨x, hx⟩ := List.exists_mem_of_ne_nil _ hne
    have hxm := (W.mwt.names x m).2 ⟨hm, hx⟩
    have hxw : x ∈ t.heap.words r := by rw [e]; simp [mem_mwtWords.2 hx]
    rw [← h2, List.mem_flatMap] at hxw
    obtain ⟨tk, htk, hxt⟩ := hxw
    cases tk with
    | word w =>
      simp only [Mwt.Token.words, List.mem_singleton] at hxt
      subst hxt
      rw [h5 x htk] at hxm
      simp at hxm
    | mwt m' =>
      have hx' : x ∈ t.mwt.words m' := mem_mwtWords.1 hxt
      obtain ⟨y, _, hy⟩ := h6 m' htk
      have hm' := ((W.mwt.names y m').1 hy).1
      have := (W.mwt.names x m').2 ⟨hm', hx'⟩
      rw [hxm] at this
      rw [Option.some.inj this]
      exact htk

/-! ## Reading the tokens -/

theorem EqAttrs.refl (a : Attrs) : EqAttrs a a := ⟨rfl, rfl, rfl, rfl, fun _ => rfl, rfl, rfl, fun _ => rfl⟩

theorem EqAttrs.trans {a b c : Attrs} (h1 : EqAttrs a b) (h2 : EqAttrs b c) : EqAttrs a c :=
  ⟨h2.form.trans h1.form, h2.lemma.trans h1.lemma, h2.upos.trans h1.upos, h2.xpos.trans h1.xpos,
    fun n => (h2.feats n).trans (h1.feats n), h2.deprel.trans h1.deprel, h2.rawDeps.trans h1.rawDeps,
    fun n => (h2.misc n).trans (h1.misc n)⟩

/-- A token line: first and last word, form, MISC. -/
structure TokLine where
  a : Nat
  b : Nat
  form : Option Str
  misc : Option DualDict.State

def TokLine.words (k : TokLine) : List Nat := List.range' k.a (k.b + 1 - k.a)

theorem slice_eq {n a b : Nat} (hb : b ≤ n) : sliceNodes n a b = List.range' a (b + 1 - a) := by
  unfold sliceNodes
  rw [List.range_eq_range']
  rw [Verif.Empty.take_range _ _ _ (by omega), Verif.Empty.drop_range]
  simp

theorem create_next (s : Mwt.St) (h : Mwt.Inv s) (ws : List Nat) : (Mwt.create s ws).1.next = s.next + 1 := by
  obtain ⟨s', h1, _, _, h4, _⟩ := Mwt.removeOld_spec ws h
  unfold Mwt.create
  rw [h1]
  simp [h4]

theorem noSpace_of_none {m : Option DualDict.State} (h : dictGet m spaceAfter = none) : noSpaceAfter m = false := by
  unfold noSpaceAfter DualDict.read
  unfold dictGet at h
  rw [h]
  decide

/-- Reading the lines of tokens that do not overlap. -/
theorem readMwts_tokens {lower : Str → Str} {n : Nat} : ∀ (F : List TokLine) (t0 : Tree),
    Mwt.Inv t0.mwt → (∀ x, SlotOk (t0.attrs x).misc) →
    (∀ k ∈ F, k.a ≤ k.b ∧ k.b ≤ n ∧ Plain k.form ∧ SlotWritable lower k.misc ∧
      ∀ x ∈ k.words, t0.mwt.mwtOf x = none ∧ dictGet (t0.attrs x).misc spaceAfter = none) →
    F.Pairwise (fun k k' => ∀ x ∈ k.words, x ∉ k'.words) →
    ∃ t', readMwts n t0 (F.map (fun k => mwtCols lower k.a k.b k.form k.misc)) = .ok t' ∧ t'.heap = t0.heap ∧
      t'.empties = t0.empties ∧ Mwt.Inv t'.mwt ∧ (∀ x, EqAttrs (t0.attrs x) (t'.attrs x)) ∧
      t'.mwt.mwts = t0.mwt.mwts ++ List.range' t0.mwt.next F.length ∧
      (∀ m ∈ t0.mwt.mwts, t'.mwt.words m = t0.mwt.words m ∧ t'.mwtForm m = t0.mwtForm m ∧ t'.mwtMisc m = t0.mwtMisc m) ∧
      ∀ (i : Nat) (k : TokLine), F[i]? = some k → t'.mwt.words (t0.mwt.next + i) = k.words ∧
        t'.mwtForm (t0.mwt.next + i) = k.form ∧
        ∀ name, dictGet (t'.mwtMisc (t0.mwt.next + i)) name = dictGet k.misc name
  | [], t0, I, _, _, _ => ⟨t0, rfl, rfl, rfl, I, fun x => EqAttrs.refl _, by simp, fun _ _ => ⟨rfl, rfl, rfl⟩, by simp⟩
  | k :: F, t0, I, hs, hF, hP => by
    obtain ⟨hab, hbn, hform, hmisc, hfree⟩ := hF k List.mem_cons_self
    obtain ⟨hP1, hP2⟩ := List.pairwise_cons.1 hP
    have hne : k.words ≠ [] := by
      intro e
      have := congrArg List.length e
      simp only [TokLine.words, List.length_range', List.length_nil] at this
      omega
    obtain ⟨c1, c2, c3, c4, c5⟩ := Mwt.create_spec I k.words hne
    have c6 := create_next t0.mwt I k.words
    have hfilter : t0.mwt.mwts.filter (fun m => k.words.all (fun w => w ∉ t0.mwt.words m)) = t0.mwt.mwts := by
      rw [List.filter_eq_self]
      intro m hm
      rw [List.all_eq_true]
      intro w hw
      simp only [decide_not, Bool.not_eq_eq_eq_not, Bool.not_true, decide_eq_false_iff_not]
      intro hw'
      have := (I.names w m).2 ⟨hm, hw'⟩
      rw [(hfree w hw).1] at this
      simp at this
    rw [hfilter] at c3
    have hno : noSpaceAfter ((k.words.getLast?.map (fun x => (t0.attrs x).misc)).getD none) = false := by
      cases hl : k.words.getLast? with
      | none => exact absurd (List.getLast?_eq_none_iff.1 hl) hne
      | some l =>
        exact noSpace_of_none (hfree l (List.mem_of_getLast? hl)).2
    let t1 : Tree := { t0 with
      mwt := (Mwt.create t0.mwt k.words).1
      mwtForm := upd t0.mwtForm t0.mwt.next k.form
      mwtMisc := upd t0.mwtMisc t0.mwt.next (mkDict (dictCol lower k.misc))
      attrs := fun x => if x ∈ k.words then { t0.attrs x with misc := setSpaceAfter (t0.attrs x).misc [] } else t0.attrs x }
    have hrd : readMwt t0 n (mwtCols lower k.a k.b k.form k.misc) = .ok t1 := by
      have hcol0 : col (mwtCols lower k.a k.b k.form k.misc) 0 = natStr k.a ++ '-' :: natStr k.b := rfl
      have hcol1 : col (mwtCols lower k.a k.b k.form k.misc) 1 = colOr k.form := rfl
      have hlast : (mwtCols lower k.a k.b k.form k.misc).getLast?.getD [] = dictCol lower k.misc := rfl
      have hsplit : split '-' (natStr k.a ++ '-' :: natStr k.b) = [natStr k.a, natStr k.b] := by
        have := split_join (c := '-') (ps := [natStr k.a, natStr k.b]) (by simp)
          (by
            intro c hc
            simp only [List.mem_cons, List.not_mem_nil, or_false] at hc
            rcases hc with rfl | rfl <;> exact not_mem_natStr (by decide) _)
        simpa [join] using this
      unfold readMwt
      rw [hcol0, hsplit, hcol1, hlast]
      simp only [pyInt_natStr]
      rw [slice_eq (by simpa using hbn)]
      have hw : List.range' (Int.ofNat k.a).toNat ((Int.ofNat k.b).toNat + 1 - (Int.ofNat k.a).toNat) = k.words := by
        simp [TokLine.words]
      rw [hw]
      unfold createMwt
      cases hc : Mwt.create t0.mwt k.words with
      | mk s e =>
        rw [hc] at c1
        simp only at c1
        subst c1
        simp only [hno, Bool.false_eq_true, if_false, (plain_col hform).1]
        simp only [t1, hc]
    have heq1 : ∀ x, EqAttrs (t0.attrs x) (t1.attrs x) := by
      intro x
      show EqAttrs (t0.attrs x) (if x ∈ k.words then _ else _)
      split
      · rename_i hx
        refine ⟨rfl, rfl, rfl, rfl, fun _ => rfl, rfl, rfl, ?_⟩
        intro name
        show dictGet (setSpaceAfter (t0.attrs x).misc []) name = _
        rw [dictGet_delete (hs x)]
        split
        · rename_i e; rw [e]; exact (hfree x hx).2.symm
        · rfl
      · exact EqAttrs.refl _
    have hs1 : ∀ x, SlotOk (t1.attrs x).misc := by
      intro x
      show SlotOk (if x ∈ k.words then ({ t0.attrs x with misc := setSpaceAfter (t0.attrs x).misc [] } : Attrs)
        else t0.attrs x).misc
      split
      · exact slotOk_set (hs x) []
      · exact hs x
    have hF1 : ∀ k' ∈ F, k'.a ≤ k'.b ∧ k'.b ≤ n ∧ Plain k'.form ∧ SlotWritable lower k'.misc ∧
        ∀ x ∈ k'.words, t1.mwt.mwtOf x = none ∧ dictGet (t1.attrs x).misc spaceAfter = none := by
      intro k' hk'
      obtain ⟨f1, f2, f3, f4, f5⟩ := hF k' (List.mem_cons_of_mem _ hk')
      refine ⟨f1, f2, f3, f4, ?_⟩
      intro x hx
      refine ⟨?_, by rw [(heq1 x).misc]; exact (f5 x hx).2⟩
      cases he : t1.mwt.mwtOf x with
      | none => rfl
      | some m =>
        obtain ⟨h1, h2⟩ := (c2.names x m).1 he
        rw [c3] at h1
        rcases List.mem_append.1 h1 with h1 | h1
        · rw [c5 m h1] at h2
          have := (I.names x m).2 ⟨h1, h2⟩
          rw [(f5 x hx).1] at this
          simp at this
        · rw [List.mem_singleton] at h1
          rw [h1, c4] at h2
          exact absurd hx (hP1 k' hk' x h2)
    obtain ⟨t', d1, d2, d3, d4, d5, d6, d7, d8⟩ := readMwts_tokens F t1 c2 hs1 hF1 hP2
    have hnext : t0.mwt.next ∉ t0.mwt.mwts := fun h => Nat.lt_irrefl _ (I.alloc _ h)
    have hnew := d7 t0.mwt.next (by show _ ∈ (Mwt.create t0.mwt k.words).1.mwts; rw [c3]; simp)
    refine ⟨t', ?_, d2, d3, d4, fun x => (heq1 x).trans (d5 x), ?_, ?_, ?_⟩
    · simp only [List.map_cons, readMwts, hrd]
      exact d1
    · rw [d6]
      show (Mwt.create t0.mwt k.words).1.mwts ++ List.range' (Mwt.create t0.mwt k.words).1.next F.length = _
      rw [c3, c6, List.length_cons, List.range'_succ]
      simp
    · intro m hm
      obtain ⟨e1, e2, e3⟩ := d7 m (by show _ ∈ (Mwt.create t0.mwt k.words).1.mwts; rw [c3]; simp [hm])
      have hne' : m ≠ t0.mwt.next := fun e => hnext (e ▸ hm)
      refine ⟨e1.trans (c5 m hm), e2.trans ?_, e3.trans ?_⟩
      · show upd _ _ _ m = _
        rw [upd_ne _ _ hne']
      · show upd _ _ _ m = _
        rw [upd_ne _ _ hne']
    · intro i k' hk'
      cases i with
      | zero =>
        simp only [List.getElem?_cons_zero, Option.some.injEq] at hk'
        subst hk'
        simp only [Nat.add_zero]
        obtain ⟨e1, e2, e3⟩ := hnew
        refine ⟨e1.trans c4, e2.trans ?_, ?_⟩
        · show upd _ _ _ _ = _
          simp [upd]
        · intro name
          rw [e3]
          show dictGet (upd _ _ _ _) name = _
          simp only [upd, if_true]
          exact (slot_roundtrip hmisc).1 name
      | succ i =>
        have := d8 i k' (by simpa using hk')
        have e : t1.mwt.next + i = t0.mwt.next + (i + 1) := by
          show (Mwt.create t0.mwt k.words).1.next + i = _
          rw [c6]; omega
        rw [e] at this
        exact this

/-! ## C29 -/

theorem readLines_append (o : Opts) : ∀ (l1 l2 : List Str) (a b : Acc), readLines o a l1 = .ok b →
    readLines o a (l1 ++ l2) = readLines o b l2
  | [], l2, a, b, h => by
    have := Except.ok.inj h
    subst this
    rfl
  | l :: l1, l2, a, b, h => by
    simp only [List.cons_append, readLines] at h ⊢
    cases h1 : readLine o a l with
    | error e => rw [h1] at h; simp at h
    | ok c =>
      rw [h1] at h
      exact readLines_append o l1 l2 c b h

/-- What the reader collects from the written lines. -/
theorem read_written {lower : Str → Str} {t : Tree} {r : Nat} (W : Writable lower t r) (o : Opts) :
    ∃ lines a, writeNodes lower t r = some lines ∧ readLines o ⟨[], [], []⟩ lines = .ok a ∧ a.words ≠ [] ∧
      a.words.length ≤ (t.heap.words r).length + 1 ∧
      realWords lower a.words = (t.heap.words r).map (wordRec lower t) ∧
      a.empties = t.empties.map (emptyRec lower) ∧
      a.mwts = (printed t 0 (t.heap.words r)).map (mwtRec lower t) := by
  obtain ⟨hw, he⟩ := writeItems_parts W.wf.ords W.emptiesSorted
  obtain ⟨ls, h1, h2⟩ := read_writeLoop (lower := lower) (t := t) o (writeItems t r) 0 ⟨[], [], []⟩
    (by
      intro x hx
      rw [hw] at hx
      obtain ⟨p, hp, _⟩ := W.wf.parentIn x hx
      refine ⟨W.words x hx, ⟨p, hp⟩, ?_⟩
      intro m hm
      obtain ⟨q1, q2, q3, _⟩ := W.tokens m ((W.mwt.names x m).1 hm).1
      exact ⟨mwtWords_ne q1, q2, q3⟩)
    (by rw [he]; exact W.empties)
  rw [hw, he] at h2
  simp only [List.nil_append] at h2
  by_cases hn : t.heap.words r = []
  · refine ⟨ls ++ [artificialLine], ⟨[(1, ⟨some ['_'], some ['_'], none, none, none, none, some ['_'], mkDict emptyYes⟩, 0)],
      t.empties.map (emptyRec lower), (printed t 0 (t.heap.words r)).map (mwtRec lower t)⟩, ?_, ?_, by simp, by simp, ?_, rfl, rfl⟩
    · simp only [writeNodes, h1, Option.map_some, if_pos hn]
    · rw [readLines_append o _ _ _ _ h2, hn]
      rfl
    · rw [hn]
      rfl
  · refine ⟨ls, _, ?_, h2, by simpa using hn, by simp, ?_, rfl, rfl⟩
    · simp only [writeNodes, h1, Option.map_some, if_neg hn]
    · unfold realWords
      simp only
      cases hws : t.heap.words r with
      | nil => rfl
      | cons x l =>
        cases l with
        | cons y l => rfl
        | nil =>
          simp only [List.map_cons, List.map_nil]
          rw [if_neg]
          intro e
          exact W.notArtificial x hws (dictCol_mkDict lower _ (Or.inr e)).2

/-- The parents in terms of positions. -/
def posHeap (t : Tree) (r : Nat) : Heap :=
  { startHeap [] with
    parent := fun y => if y = 0 then none else ((t.heap.words r)[y - 1]?).bind (fun x => (t.heap.parent x).map t.heap.ord) }

theorem ord_at {h : Heap} {r : Nat} (wf : WF h r) {k x : Nat} (e : (h.words r)[k]? = some x) : h.ord x = k + 1 := by
  have h1 : ((h.words r).map h.ord)[k]? = some (h.ord x) := by rw [List.getElem?_map, e]; rfl
  have hk : k < (h.words r).length := (List.getElem?_eq_some_iff.1 e).1
  rw [wf.ords, List.getElem?_range' hk] at h1
  simp at h1
  omega

theorem at_ord {h : Heap} {r : Nat} (wf : WF h r) {x : Nat} (hx : x ∈ h.words r) :
    1 ≤ h.ord x ∧ (h.words r)[h.ord x - 1]? = some x := by
  obtain ⟨k, hk⟩ := List.mem_iff_getElem?.1 hx
  have := ord_at wf hk
  rw [this]
  exact ⟨by omega, by simpa using hk⟩

theorem posHeap_parent {t : Tree} {r x : Nat} (wf : WF t.heap r) (hx : x ∈ t.heap.words r) :
    (posHeap t r).parent (t.heap.ord x) = (t.heap.parent x).map t.heap.ord := by
  obtain ⟨h1, h2⟩ := at_ord wf hx
  simp only [posHeap]
  rw [if_neg (by omega), h2]
  rfl

theorem posHeap_ends {t : Tree} {r : Nat} (wf : WF t.heap r) : ∀ y, Ends (posHeap t r) y := by
  have hroot : Ends (posHeap t r) 0 := .stop (by simp [posHeap])
  have key : ∀ x, Anc t.heap r x → x ∈ t.heap.words r → Ends (posHeap t r) (t.heap.ord x) := by
    intro x ha
    induction ha with
    | @parent x e =>
      intro hx
      refine .step (p := 0) ?_ hroot
      rw [posHeap_parent wf hx, e]
      simp [wf.rootOrd]
    | @step x p e _ ih =>
      intro hx
      obtain ⟨p', e', hp'⟩ := wf.parentIn x hx
      rw [e] at e'
      have := Option.some.inj e'
      subst this
      refine .step (p := t.heap.ord p) (by rw [posHeap_parent wf hx, e]; rfl) ?_
      rcases hp' with rfl | hp'
      · rw [wf.rootOrd]; exact hroot
      · exact ih hp'
  intro y
  by_cases h0 : y = 0
  · rw [h0]; exact hroot
  · cases hx : (t.heap.words r)[y - 1]? with
    | none => exact .stop (by simp [posHeap, h0, hx])
    | some x =>
      have hm := List.mem_of_getElem? hx
      have := key x (wf.reach x hm) hm
      rw [ord_at wf hx] at this
      rwa [show y - 1 + 1 = y from by omega] at this

theorem parent_pos {t : Tree} {r x : Nat} (wf : WF t.heap r) (hx : x ∈ t.heap.words r) :
    ∃ p, t.heap.parent x = some p ∧ t.heap.ord p ≤ (t.heap.words r).length := by
  obtain ⟨p, hp, hin⟩ := wf.parentIn x hx
  refine ⟨p, hp, ?_⟩
  rcases hin with rfl | hin
  · rw [wf.rootOrd]; exact Nat.zero_le _
  · obtain ⟨h1, h2⟩ := at_ord wf hin
    have := (List.getElem?_eq_some_iff.1 h2).1
    omega

theorem contig {t : Tree} {r m : Nat} (wf : WF t.heap r) {A B : List Nat} (hne : mwtWords t m ≠ [])
    (e : t.heap.words r = A ++ mwtWords t m ++ B) :
    (mwtWords t m).map t.heap.ord = List.range' (A.length + 1) (mwtWords t m).length ∧
    (mwtWords t m).head?.map t.heap.ord = some (A.length + 1) ∧
    (mwtWords t m).getLast?.map t.heap.ord = some (A.length + (mwtWords t m).length) ∧
    A.length + (mwtWords t m).length ≤ (t.heap.words r).length := by
  have h1 : (mwtWords t m).map t.heap.ord = List.range' (A.length + 1) (mwtWords t m).length := by
    apply List.ext_getElem?
    intro i
    rw [List.getElem?_map, Verif.Empty.get_range]
    by_cases hi : i < (mwtWords t m).length
    · rw [if_pos hi, List.getElem?_eq_getElem hi]
      have : (t.heap.words r)[A.length + i]? = some (mwtWords t m)[i] := by
        rw [e, List.append_assoc, List.getElem?_append_right (by omega), Nat.add_sub_cancel_left,
          List.getElem?_append_left hi, List.getElem?_eq_getElem hi]
      simp only [Option.map_some, ord_at wf this]
      congr 1
      omega
    · rw [if_neg hi, List.getElem?_eq_none (by omega)]
      rfl
  have hlen : 0 < (mwtWords t m).length := List.length_pos_iff.2 hne
  refine ⟨h1, ?_, ?_, ?_⟩
  · rw [← List.head?_map, h1, List.head?_range']
    simp [hne]
  · rw [← List.getLast?_map, h1, List.getLast?_range']
    rw [if_neg (by omega)]
    congr 1
    omega
  · rw [e]; simp

/-- C29 (partial): for every tree that is representable in CoNLL-U, with any numbers of words, empty nodes and
multi-word tokens, `write.Conllu` prints lines from which `read.Conllu`, with any options, builds the same
tree. Missing: words of multi-word tokens with a `SpaceAfter` of their own (`C29_space_after_violated`)
and values `None` that are not told apart from `_` (`C29_no_form_violated`), where the claim is false. -/
theorem C29_roundtrip_partial {lower : Str → Str} {t : Tree} {r : Nat} (W : Writable lower t r) (o : Opts)
    {fuel : Nat} (hf : (t.heap.words r).length + 1 < fuel) :
    ∃ lines t', writeNodes lower t r = some lines ∧ readTree lower o fuel lines = .ok (some t') ∧
      SameTree t r t' 0 := by
  have wf := W.wf
  obtain ⟨lines, a, h1, h2, h3, _, h4, h5, h6⟩ := read_written W o
  have hords : ((t.heap.words r).map (wordRec lower t)).map (·.1) = List.range' 1 (t.heap.words r).length := by
    rw [List.map_map, ← wf.ords]; rfl
  have hlen : ((t.heap.words r).map (wordRec lower t)).length = (t.heap.words r).length := List.length_map ..
  -- the parents
  have hidx : ∀ (j : Nat) (i : Int), (((t.heap.words r).map (wordRec lower t)).map (·.2.2))[j]? = some i →
      ∃ p, pyIdx ((t.heap.words r).length + 1) i = some p ∧ (posHeap t r).parent (1 + j) = some p := by
    intro j i hj
    rw [List.map_map, List.getElem?_map] at hj
    obtain ⟨x, hx, hxi⟩ := Option.map_eq_some_iff.1 hj
    have hm := List.mem_of_getElem? hx
    obtain ⟨p, hp, hle⟩ := parent_pos wf hm
    refine ⟨t.heap.ord p, ?_, ?_⟩
    · have : i = ((t.heap.ord p : Nat) : Int) := by
        rw [← hxi]
        simp [wordRec, hp]
      rw [this]
      unfold pyIdx
      rw [if_pos (by omega), if_pos (by omega)]
      simp
    · have := posHeap_parent wf hm
      rw [ord_at wf hx] at this
      rw [Nat.add_comm, this, hp]
      rfl
  have hends := posHeap_ends wf
  obtain ⟨hp, l1, l2⟩ := linkAll_succeeds (o := o) (n := (t.heap.words r).length) hf hends
    (((t.heap.words r).map (wordRec lower t)).map (·.2.2)) 1 (startHeap (((t.heap.words r).map (wordRec lower t)).map (·.1)))
    (linv_start _ _) (Nat.le_refl 1) (by intro x p e; simp [startHeap] at e) hidx
  obtain ⟨I, g, _⟩ := linkAll_ok hf _ 1 _ hp (linv_start _ _) (Nat.le_refl 1)
    (by
      intro _ j i hj hi
      obtain ⟨p, e1, e2⟩ := hidx j i hj
      rw [hi] at e1
      rw [← Option.some.inj e1] at e2
      exact (hends (1 + j)).irrefl (.parent e2)) l1
  have hll : (((t.heap.words r).map (wordRec lower t)).map (fun w : Nat × Attrs × Int => w.1)).length =
      (t.heap.words r).length := by simp
  have hwf : WF hp 0 := by
    refine wf_of_linked (ords := ((t.heap.words r).map (wordRec lower t)).map (·.1)) (by rw [hll]; exact hords) ?_ g
    rw [hll]
    simpa [Nat.add_comm] using I
  have hwords : hp.words 0 = List.range' 1 (t.heap.words r).length := by
    rw [g.words]
    show List.range' 1 (List.length _) = _
    rw [hll]
  -- the tokens
  have hperm := printed_perm W
  have htok : ∀ m ∈ printed t 0 (t.heap.words r), m ∈ t.mwt.mwts := fun m hm => hperm.mem_iff.1 hm
  let tl : Nat → TokLine := fun m =>
    ⟨((mwtWords t m).head?.map t.heap.ord).getD 0, ((mwtWords t m).getLast?.map t.heap.ord).getD 0,
      t.mwtForm m, t.mwtMisc m⟩
  have hmw : (printed t 0 (t.heap.words r)).map (mwtRec lower t) =
      ((printed t 0 (t.heap.words r)).map tl).map (fun k => mwtCols lower k.a k.b k.form k.misc) := by
    rw [List.map_map]; rfl
  have htw : ∀ m ∈ t.mwt.mwts, (tl m).words = (mwtWords t m).map t.heap.ord ∧ (tl m).a ≤ (tl m).b ∧
      (tl m).b ≤ (t.heap.words r).length := by
    intro m hm
    obtain ⟨hne, _, _, A, B, e⟩ := W.tokens m hm
    have hne' := mwtWords_ne hne
    obtain ⟨c1, c2, c3, c4⟩ := contig wf hne' e
    have hl : 0 < (mwtWords t m).length := List.length_pos_iff.2 hne'
    simp only [TokLine.words, tl, c2, c3, Option.getD_some, c1]
    refine ⟨?_, by omega, by omega⟩
    congr 1
    omega
  let noAttrs : Attrs := ⟨none, none, none, none, none, none, none, none⟩
  let t0 : Tree :=
    { heap := hp
      attrs := fun x => if x = 0 then noAttrs else
        ((((t.heap.words r).map (wordRec lower t)).map (·.2.1))[x - 1]?).getD noAttrs
      empties := t.empties.map (emptyRec lower)
      mwt := Mwt.St.init
      mwtForm := fun _ => none
      mwtMisc := fun _ => none }
  have hat : ∀ (k x : Nat), (t.heap.words r)[k]? = some x → EqAttrs (t.attrs x) (t0.attrs (k + 1)) := by
    intro k x hx
    have : t0.attrs (k + 1) = (wordRec lower t x).2.1 := by
      show (if k + 1 = 0 then noAttrs else
        ((((t.heap.words r).map (wordRec lower t)).map (·.2.1))[k + 1 - 1]?).getD noAttrs) = _
      rw [if_neg (by omega), Nat.add_sub_cancel, List.map_map, List.getElem?_map, hx]
      rfl
    rw [this]
    exact wordAttrs_eq (W.words x (List.mem_of_getElem? hx)) _ _
  have hslot : ∀ x, SlotOk (t0.attrs x).misc := by
    intro x
    show SlotOk (if x = 0 then noAttrs else
      ((((t.heap.words r).map (wordRec lower t)).map (·.2.1))[x - 1]?).getD noAttrs).misc
    split
    · exact (List.Pairwise.nil : DualDict.NodupKeys [])
    · rw [List.map_map, List.getElem?_map]
      cases (t.heap.words r)[x - 1]? with
      | none => exact (List.Pairwise.nil : DualDict.NodupKeys [])
      | some l => exact slotOk_mkDict _
  have hin : ∀ m ∈ t.mwt.mwts, ∀ x ∈ mwtWords t m, x ∈ t.heap.words r := by
    intro m hm x hx
    obtain ⟨_, _, _, A, B, e⟩ := W.tokens m hm
    rw [e]; simp [hx]
  obtain ⟨t', r1, r2, r3, r4, r5, r6, _, r8⟩ := readMwts_tokens (lower := lower) (n := (t.heap.words r).length)
    ((printed t 0 (t.heap.words r)).map tl) t0
    ⟨by simp [t0, Mwt.St.init], by simp [t0, Mwt.St.init], by simp [t0, Mwt.St.init]⟩ hslot
    (by
      intro k hk
      obtain ⟨m, hm, rfl⟩ := List.mem_map.1 hk
      have hm := htok m hm
      obtain ⟨w1, w2, w3⟩ := htw m hm
      obtain ⟨_, q2, q3, _⟩ := W.tokens m hm
      refine ⟨w2, w3, q2, q3, ?_⟩
      intro y hy
      refine ⟨rfl, ?_⟩
      rw [w1] at hy
      obtain ⟨x, hx, rfl⟩ := List.mem_map.1 hy
      obtain ⟨o1, o2⟩ := at_ord wf (hin m hm x hx)
      have := (hat _ x o2).misc spaceAfter
      rw [show t.heap.ord x - 1 + 1 = t.heap.ord x from by omega] at this
      rw [this]
      exact W.tokenWords m hm x (mem_mwtWords.1 hx))
    (by
      rw [List.pairwise_map]
      have hnd : (printed t 0 (t.heap.words r)).Nodup := hperm.nodup_iff.2 W.mwt.nodup
      refine hnd.imp_of_mem ?_
      intro m m' hm hm' hne y hy hy'
      have hm := htok m hm
      have hm' := htok m' hm'
      rw [(htw m hm).1] at hy
      rw [(htw m' hm').1] at hy'
      obtain ⟨x, hx, rfl⟩ := List.mem_map.1 hy
      obtain ⟨x', hx', e⟩ := List.mem_map.1 hy'
      have o1 := (at_ord wf (hin m hm x hx)).2
      have o2 := (at_ord wf (hin m' hm' x' hx')).2
      rw [e, o1] at o2
      have := Option.some.inj o2
      subst this
      have n1 := (W.mwt.names x m).2 ⟨hm, mem_mwtWords.1 hx⟩
      have n2 := (W.mwt.names x m').2 ⟨hm', mem_mwtWords.1 hx'⟩
      rw [n1] at n2
      exact hne (Option.some.inj n2))
  refine ⟨lines, t', h1, ?_, ?_⟩
  · unfold readTree
    rw [h2]
    simp only
    rw [if_neg h3, h4, h5, h6, hmw]
    simp only [hlen]
    rw [l1]
    simp only
    rw [r1]
  · have hordp : ∀ y, y ≤ (t.heap.words r).length → t'.heap.ord y = y := by
      intro y hy
      rw [r2]
      by_cases h0 : y = 0
      · rw [h0]; exact hwf.rootOrd
      · have : (hp.words 0)[y - 1]? = some y := by
          rw [hwords, List.getElem?_range' (by omega)]
          congr 1
          omega
        have := ord_at hwf this
        show hp.ord y = y
        omega
    refine ⟨by rw [r2]; exact hwf, ?_, ?_, ?_, ?_, r4, ?_⟩
    · rw [r2]
      show (hp.words 0).length = _
      rw [hwords, List.length_range']
    · intro k x x' hx hx'
      have hk : k < (t.heap.words r).length := (List.getElem?_eq_some_iff.1 hx).1
      have hx'' : x' = k + 1 := by
        rw [r2] at hx'
        have hx' : (hp.words 0)[k]? = some x' := hx'
        rw [hwords, List.getElem?_range' hk] at hx'
        have := Option.some.inj hx'
        omega
      subst hx''
      refine ⟨(hat k x hx).trans (r5 _), ?_⟩
      have hm := List.mem_of_getElem? hx
      obtain ⟨p, hpp, hle⟩ := parent_pos wf hm
      have hq : ∃ q, hp.parent (k + 1) = some q := by
        obtain ⟨q, hq, _⟩ := hwf.parentIn (k + 1) (by rw [hwords, List.mem_range'_1]; omega)
        exact ⟨q, hq⟩
      obtain ⟨q, hq⟩ := hq
      have := l2 _ _ hq
      have hpos := posHeap_parent wf hm
      rw [ord_at wf hx, this, hpp] at hpos
      have hqp : q = t.heap.ord p := Option.some.inj hpos
      have : t'.heap.parent (k + 1) = some q := by rw [r2]; exact hq
      rw [this, hpp, hqp]
      simp only [Option.map_some]
      rw [hordp _ hle]
    · rw [r3]
      show (t.empties.map (emptyRec lower)).map (·.ord) = _
      rw [List.map_map]; rfl
    · intro k e e' he he'
      rw [r3] at he'
      have he' : (t.empties.map (emptyRec lower))[k]? = some e' := he'
      rw [List.getElem?_map, he] at he'
      have := Option.some.inj he'
      subst this
      exact emptyAttrs_eq (W.empties e (List.mem_of_getElem? he)).1 _ _
    · have r6' : t'.mwt.mwts = List.range' 0 (printed t 0 (t.heap.words r)).length := by
        rw [r6]
        show [] ++ List.range' 0 _ = _
        rw [List.nil_append, List.length_map]
      refine ⟨printed t 0 (t.heap.words r), hperm, by rw [r6', List.length_range'], ?_⟩
      intro k m m' hk hk'
      have hkl : k < (printed t 0 (t.heap.words r)).length := (List.getElem?_eq_some_iff.1 hk).1
      rw [r6', List.getElem?_range' hkl] at hk'
      have hmk : m' = k := by
        have := Option.some.inj hk'; omega
      subst hmk
      have := r8 m' (tl m) (by rw [List.getElem?_map, hk]; rfl)
      have hz : t0.mwt.next + m' = m' := Nat.zero_add _
      rw [hz] at this
      obtain ⟨s1, s2, s3⟩ := this
      refine ⟨?_, s2, s3⟩
      have hm := htok m (List.mem_of_getElem? hk)
      obtain ⟨w1, _, w3⟩ := htw m hm
      rw [s1]
      rw [show (tl m).words.map t'.heap.ord = (tl m).words from ?_, w1]
      conv => rhs; rw [← List.map_id (tl m).words]
      apply List.map_congr_left
      intro y hy
      refine hordp y ?_
      have := List.mem_range'_1.1 hy
      omega

/-! ### What cannot survive -/

/-- The words of the tokens have no `SpaceAfter`. -/
def NoInnerSpace (t : Tree) : Prop :=
  ∀ m ∈ t.mwt.mwts, ∀ x ∈ t.mwt.words m, dictGet (t.attrs x).misc spaceAfter = none

theorem createMwt_noSpace {t t' : Tree} {ws : List Nat} {form : Option Str} {misc : Str}
    (hs : ∀ x, SlotOk (t.attrs x).misc) (hi : Mwt.Inv t.mwt) (hn : NoInnerSpace t)
    (h : createMwt t ws form misc = .ok t') : Mwt.Inv t'.mwt ∧ NoInnerSpace t' := by
  have hne : ws ≠ [] := by
    rintro rfl
    simp [createMwt, Mwt.create, Mwt.removeOld] at h
  obtain ⟨c1, c2, c3, c4, c5⟩ := Mwt.create_spec hi ws hne
  unfold createMwt at h
  cases hc : Mwt.create t.mwt ws with
  | mk s e =>
    rw [hc] at c1 c2 c3 c4 c5 h
    simp only at c1 c2 c3 c4 c5
    subst c1
    have e := Except.ok.inj h
    subst e
    refine ⟨c2, ?_⟩
    intro m hm x hx
    have hm : m ∈ s.mwts := hm
    have hx : x ∈ s.words m := hx
    show dictGet (if x ∈ ws then ({ t.attrs x with misc := setSpaceAfter (t.attrs x).misc [] } : Attrs)
      else t.attrs x).misc spaceAfter = none
    split
    · show dictGet (setSpaceAfter (t.attrs x).misc []) spaceAfter = none
      rw [dictGet_delete (hs x), if_pos rfl]
    · rename_i hxw
      rw [c3] at hm
      rcases List.mem_append.1 hm with hm | hm
      · have hm := (List.mem_filter.1 hm).1
        rw [c5 m hm] at hx
        exact hn m hm x hx
      · rw [List.mem_singleton] at hm
        rw [hm, c4] at hx
        exact absurd hx hxw

theorem readMwts_noSpace {n : Nat} : ∀ {fs : List (List Str)} {t t' : Tree}, (∀ x, SlotOk (t.attrs x).misc) →
    Mwt.Inv t.mwt → NoInnerSpace t → readMwts n t fs = .ok t' → NoInnerSpace t'
  | [], t, t', _, _, hn, h => by
    have e := Except.ok.inj h
    subst e
    exact hn
  | f :: fs, t, t', hs, hi, hn, h => by
    simp only [readMwts] at h
    cases h1 : readMwt t n f with
    | error e => rw [h1] at h; simp at h
    | ok b =>
      rw [h1] at h
      obtain ⟨ws, form, misc, h2⟩ := readMwt_ok h1
      obtain ⟨_, _, _, a4⟩ := createMwt_ok hs h2
      obtain ⟨b1, b2⟩ := createMwt_noSpace hs hi hn h2
      exact readMwts_noSpace a4 b1 b2 h

/-- C29 is violated: in no tree that `read.Conllu` returns, whatever the lines, does a word of a multi-word
token have a `SpaceAfter` in its MISC. So a tree that has one there does not come back. -/
theorem C29_space_after_violated {lower : Str → Str} {o : Opts} {fuel : Nat} {lines : List Str} {t : Tree}
    (h : readTree lower o fuel lines = .ok (some t)) :
    ∀ m ∈ t.mwt.mwts, ∀ x ∈ t.mwt.words m, dictGet (t.attrs x).misc spaceAfter = none := by
  unfold readTree at h
  split at h
  · simp at h
  · rename_i a ha
    split at h
    · simp at h
    · simp only at h
      split at h
      · simp at h
      · split at h
        · simp at h
        · rename_i hp hl t' ht
          have e := Option.some.inj (Except.ok.inj h)
          subst e
          refine readMwts_noSpace (fs := a.mwts) ?_ ?_ ?_ ht
          · intro x
            show SlotOk (if x = 0 then (⟨none, none, none, none, none, none, none, none⟩ : Attrs) else
              (((realWords lower a.words).map (fun w : Nat × Attrs × Int => w.2.1))[x - 1]?).getD
                ⟨none, none, none, none, none, none, none, none⟩).misc
            have hw := readLines_ok ha
            simp only [List.nil_append] at hw
            rw [hw, realWords_eq]
            split
            · exact (List.Pairwise.nil : DualDict.NodupKeys [])
            · rw [List.map_map, List.getElem?_map]
              cases (realLines lines)[x - 1]? with
              | none => exact (List.Pairwise.nil : DualDict.NodupKeys [])
              | some l => exact slotOk_mkDict _
          · exact ⟨by simp [Mwt.St.init], by simp [Mwt.St.init], by simp [Mwt.St.init]⟩
          · intro m hm
            simp [Mwt.St.init] at hm

/-- C29 is violated: in no tree that `read.Conllu` returns does a word have no form or no lemma. So a tree
with a word whose form is `None`, as `create_child()` makes them, does not come back. -/
theorem C29_no_form_violated {lower : Str → Str} {o : Opts} {fuel : Nat} {lines : List Str} {t : Tree}
    (h : readTree lower o fuel lines = .ok (some t)) (k : Nat) (hk : k < (realLines lines).length) :
    (t.attrs (k + 1)).form ≠ none ∧ (t.attrs (k + 1)).lemma ≠ none := by
  obtain ⟨_, _, _, _, h1⟩ := readTree_parts h
  have := h1 k _ (List.getElem?_eq_getElem hk)
  rw [this.form, this.lemma]
  simp [attrsOf, wordAttrs]

/-! ### An instance -/

/-- `Case=Nom` -/
def demoFeats : Option DualDict.State := some ⟨some "Case=Nom".toList, []⟩

/-- Words `1 a` and `2 b`, the first hanging on the second, both in the token `1-2 ab`, and an empty node `1.1`. -/
def demo : Tree where
  heap := attach (attach (startHeap [1, 2]) 1 2) 2 0
  attrs := fun x => ⟨some (if x = 1 then ['a'] else ['b']), some ['l'], some "NOUN".toList, none, demoFeats,
    if x = 1 then some "nsubj".toList else none, some ['_'], none⟩
  empties := [⟨⟨1, ['1']⟩, ⟨some ['e'], some ['e'], some ['_'], some ['_'], none, none, some "2:dep".toList, none⟩⟩]
  mwt := (Mwt.create Mwt.St.init [1, 2]).1
  mwtForm := fun _ => some "ab".toList
  mwtMisc := fun _ => demoFeats

theorem demo_slot : SlotWritable id demoFeats := by
  refine Or.inr ⟨[.setStr "Case=Nom".toList], rfl, ?_, ?_, ?_, by decide⟩
  · intro k v h
    have h' : (if k = "Case".toList then some (DualDict.Val.str "Nom".toList) else none) = some v := by
      rw [← h]
      by_cases e : k = "Case".toList
      · rw [if_pos e, e]; rfl
      · rw [if_neg e]
        show none = DualDict.lookup [("Case".toList, DualDict.Val.str "Nom".toList)] k
        simp only [DualDict.lookup]
        rw [if_neg (fun e' => e e'.symm)]
    split at h'
    · rename_i e
      rw [← Option.some.inj h', e]
      exact ⟨⟨(by decide : '|' ∉ "Case".toList), (by decide : '=' ∉ "Case".toList)⟩,
        (by decide : '|' ∉ "Nom".toList)⟩
    · simp at h'
  · intro e
    have := congrFun e "Case".toList
    exact absurd this (by decide)
  · intro e
    have := congrFun e "Case".toList
    exact absurd this (by decide)

example : ∃ lines t', writeNodes id demo 0 = some lines ∧ readTree id ⟨true, false⟩ 10 lines = .ok (some t') ∧
    SameTree demo 0 t' 0 := by
  have hI : LInv 2 3 demo.heap :=
    ((linv_start [1, 2] 2).attach (by decide) (by decide) (by decide) (not_anc_of_none rfl)).attach (by decide)
      (by decide) (by decide) (not_anc_of_none rfl)
  have hg : Grown (startHeap [1, 2]) demo.heap := ⟨fun _ _ e => by simp [startHeap] at e, rfl, rfl, rfl, rfl⟩
  have hwf : WF demo.heap 0 := wf_of_linked (ords := [1, 2]) rfl hI hg
  have hw : demo.heap.words 0 = [1, 2] := rfl
  refine C29_roundtrip_partial ⟨hwf, ?_, ?_, ?_, ?_, ?_, ?_, ?_⟩ ⟨true, false⟩ (by rw [hw]; decide)
  · intro x hx
    have h1 : PlainOr_ (if x = 1 then some "nsubj".toList else none) := by
      by_cases e : x = 1
      · rw [if_pos e]; exact Or.inr ⟨_, rfl, by decide, by decide⟩
      · rw [if_neg e]; exact Or.inl rfl
    have h2 : '\t' ∉ (if x = 1 then ['a'] else ['b']) := by
      by_cases e : x = 1
      · rw [if_pos e]; decide
      · rw [if_neg e]; decide
    exact ⟨⟨_, rfl, h2⟩, ⟨_, rfl, by decide⟩, Or.inr ⟨_, rfl, by decide, by decide⟩, Or.inl rfl, demo_slot, h1,
      ⟨_, rfl, by decide⟩, Or.inl rfl⟩
  · intro x hx; rw [hw] at hx; simp at hx
  · intro e he
    rw [show demo.empties = [⟨⟨1, ['1']⟩, ⟨some ['e'], some ['e'], some ['_'], some ['_'], none, none,
      some "2:dep".toList, none⟩⟩] from rfl, List.mem_singleton] at he
    subst he
    exact ⟨⟨⟨_, rfl, by decide⟩, ⟨_, rfl, by decide⟩, ⟨_, rfl, by decide⟩, ⟨_, rfl, by decide⟩, Or.inl rfl, rfl,
      ⟨_, rfl, by decide⟩, Or.inl rfl⟩, by decide, '1', rfl, by decide⟩
  · exact List.pairwise_singleton ..
  · exact (Mwt.create_spec (s := Mwt.St.init) ⟨by simp [Mwt.St.init], by simp [Mwt.St.init], by simp [Mwt.St.init]⟩
      [1, 2] (by simp)).2.1
  · intro m hm
    have hm0 : m = 0 := by simpa using (show m ∈ [0] from hm)
    subst hm0
    exact ⟨by decide, ⟨_, rfl, by decide⟩, demo_slot, [], [], by decide⟩
  · intro m _ x _
    rfl

end Verif.Conllu
