import Verif.Conllu.Read

/-!
# What the reader makes of the lines the writer prints
-/

namespace Verif.Conllu
open Verif.Py
open Verif.Tree

/-! ## Columns -/

theorem columns_join {cols : List Str} (h10 : cols.length = 10) (ht : ∀ c ∈ cols, '\t' ∉ c) :
    split '\t' (join ['\t'] cols) = cols :=
  split_join (by intro e; rw [e] at h10; simp at h10) ht

/-- A line made of ten columns without tabs is read as these columns. -/
theorem readLine_join (o : Opts) (a : Acc) {c : Char} {id : Str} {rest : List Str} (hc : c ≠ '#')
    (h10 : ((c :: id) :: rest).length = 10) (ht : ∀ s ∈ (c :: id) :: rest, '\t' ∉ s) :
    readLine o a (join ['\t'] ((c :: id) :: rest)) = readFields o a ((c :: id) :: rest) := by
  have hs := columns_join h10 ht
  obtain ⟨l, hl⟩ : ∃ l, join ['\t'] ((c :: id) :: rest) = c :: l := by
    cases rest with
    | nil => exact ⟨id, rfl⟩
    | cons q qs => exact ⟨_, rfl⟩
  rw [hl] at hs ⊢
  unfold readLine
  split
  · rename_i e; simp at e
  · rename_i e; exact absurd (List.cons.inj e).1 hc
  · unfold fieldsOf
    rw [hs]
    simp [h10]

/-! ## Slots -/

/-- A representable value of FEATS or MISC: nothing, or the outcome of any calls on a `DualDict` whose names
and values the text form can represent, and whose text has no tab. -/
def SlotWritable (lower : Str → Str) (m : Option DualDict.State) : Prop :=
  m = none ∨ ∃ ops, m = some (DualDict.run DualDict.dd lower DualDict.init ops) ∧
    (∀ k v, dictGet m k = some v → DualDict.Spec.okName DualDict.Spec.ud k ∧ DualDict.Spec.okVal DualDict.Spec.ud v) ∧
    dictGet m ≠ DualDict.Spec.flag [] ∧ dictGet m ≠ DualDict.Spec.flag ['_'] ∧ '\t' ∉ dictCol lower m

theorem dictGet_mkDict (t : Str) (name : Str) (h : t ≠ []) :
    dictGet (mkDict t) name = DualDict.Spec.ofText DualDict.dd t name := by
  unfold mkDict
  by_cases e : t = ['_']
  · rw [if_pos (Or.inr e)]
    subst e
    rfl
  · rw [if_neg (by simp [h, e])]
    exact DualDict.ofText_lookup DualDict.dd t name

theorem slot_roundtrip {lower : Str → Str} {m : Option DualDict.State} (h : SlotWritable lower m) :
    (∀ name, dictGet (mkDict (dictCol lower m)) name = dictGet m name) ∧ '\t' ∉ dictCol lower m := by
  rcases h with rfl | ⟨ops, rfl, h1, h2, h3, h4⟩
  · refine ⟨fun name => rfl, ?_⟩
    show '\t' ∉ ['_']
    decide
  · refine ⟨?_, h4⟩
    intro name
    have hn := DualDict.nodup_run DualDict.dd lower DualDict.init ops (List.Pairwise.nil)
    have ht : DualDict.TextInv (DualDict.run DualDict.dd lower DualDict.init ops) :=
      DualDict.textInv_run lower (s := DualDict.init) List.Pairwise.nil (by intro t ht; simp [DualDict.init] at ht) ops
    have hr : DualDict.Representable (DualDict.abs DualDict.dd (DualDict.run DualDict.dd lower DualDict.init ops)) :=
      ⟨fun k v h => (h1 k v h).1, fun k v h => (h1 k v h).2, h2, h3⟩
    have := congrFun (DualDict.shown_roundtrip lower hn ht hr) name
    have hs : DualDict.shown DualDict.dd lower (DualDict.run DualDict.dd lower DualDict.init ops) =
        dictCol lower (some (DualDict.run DualDict.dd lower DualDict.init ops)) := rfl
    rw [hs] at this
    have hne : dictCol lower (some (DualDict.run DualDict.dd lower DualDict.init ops)) = [] ∨
        dictCol lower (some (DualDict.run DualDict.dd lower DualDict.init ops)) ≠ [] := by
      cases dictCol lower (some (DualDict.run DualDict.dd lower DualDict.init ops)) <;> simp
    rcases hne with e | e
    · rw [e] at this ⊢
      exact this
    · rw [dictGet_mkDict _ _ e]
      have e' : DualDict.dd.storeStr (dictCol lower (some (DualDict.run DualDict.dd lower DualDict.init ops))) =
          dictCol lower (some (DualDict.run DualDict.dd lower DualDict.init ops)) := if_neg e
      rw [e'] at this
      exact this

/-! ## Representable attributes -/

/-- A present value without tabs. -/
def Plain (v : Option Str) : Prop := ∃ s, v = some s ∧ '\t' ∉ s

/-- An absent value, or one other than `_`, without tabs. -/
def PlainOr_ (v : Option Str) : Prop := v = none ∨ ∃ s, v = some s ∧ '\t' ∉ s ∧ s ≠ ['_']

/-- The attributes of a word that CoNLL-U can represent. -/
structure WordOk (lower : Str → Str) (a : Attrs) : Prop where
  form : Plain a.form
  lemma : Plain a.lemma
  upos : PlainOr_ a.upos
  xpos : PlainOr_ a.xpos
  feats : SlotWritable lower a.feats
  deprel : PlainOr_ a.deprel
  rawDeps : Plain a.rawDeps
  misc : SlotWritable lower a.misc

/-- The attributes of an empty node that CoNLL-U can represent. -/
structure EmptyOk (lower : Str → Str) (a : Attrs) : Prop where
  form : Plain a.form
  lemma : Plain a.lemma
  upos : Plain a.upos
  xpos : Plain a.xpos
  feats : SlotWritable lower a.feats
  deprel : a.deprel = none
  rawDeps : Plain a.rawDeps
  misc : SlotWritable lower a.misc

/-- Equal attributes; FEATS and MISC are equal as mappings. -/
structure EqAttrs (old new : Attrs) : Prop where
  form : new.form = old.form
  lemma : new.lemma = old.lemma
  upos : new.upos = old.upos
  xpos : new.xpos = old.xpos
  feats : ∀ name, dictGet new.feats name = dictGet old.feats name
  deprel : new.deprel = old.deprel
  rawDeps : new.rawDeps = old.rawDeps
  misc : ∀ name, dictGet new.misc name = dictGet old.misc name

theorem plain_col {v : Option Str} (h : Plain v) : some (colOr v) = v ∧ '\t' ∉ colOr v := by
  obtain ⟨s, rfl, h⟩ := h
  exact ⟨rfl, h⟩

theorem plainOr_col {v : Option Str} (h : PlainOr_ v) : unless_ (colOr v) = v ∧ '\t' ∉ colOr v := by
  rcases h with rfl | ⟨s, rfl, h, hs⟩
  · refine ⟨rfl, ?_⟩
    show '\t' ∉ ['_']
    decide
  · exact ⟨by simp [unless_, colOr, hs], h⟩

/-- The columns of a node line. -/
def nodeCols (lower : Str → Str) (id head : Str) (a : Attrs) : List Str :=
  [id, colOr a.form, colOr a.lemma, colOr a.upos, colOr a.xpos, dictCol lower a.feats, head,
    colOr a.deprel, colOr a.rawDeps, dictCol lower a.misc]

theorem wordAttrs_eq {lower : Str → Str} {a : Attrs} (h : WordOk lower a) (id head : Str) :
    EqAttrs a (wordAttrs (nodeCols lower id head a)) :=
  ⟨(plain_col h.form).1, (plain_col h.lemma).1, (plainOr_col h.upos).1, (plainOr_col h.xpos).1,
    (slot_roundtrip h.feats).1, (plainOr_col h.deprel).1, (plain_col h.rawDeps).1, (slot_roundtrip h.misc).1⟩

theorem emptyAttrs_eq {lower : Str → Str} {a : Attrs} (h : EmptyOk lower a) (id head : Str) :
    EqAttrs a (emptyAttrs (nodeCols lower id head a)) :=
  ⟨(plain_col h.form).1, (plain_col h.lemma).1, (plain_col h.upos).1, (plain_col h.xpos).1,
    (slot_roundtrip h.feats).1, h.deprel.symm, (plain_col h.rawDeps).1, (slot_roundtrip h.misc).1⟩

theorem wordCols_tab {lower : Str → Str} {a : Attrs} (h : WordOk lower a) {id head : Str} (hi : '\t' ∉ id)
    (hh : '\t' ∉ head) : ∀ c ∈ nodeCols lower id head a, '\t' ∉ c := by
  intro c hc
  simp only [nodeCols, List.mem_cons, List.not_mem_nil, or_false] at hc
  rcases hc with rfl | rfl | rfl | rfl | rfl | rfl | rfl | rfl | rfl | rfl
  · exact hi
  · exact (plain_col h.form).2
  · exact (plain_col h.lemma).2
  · exact (plainOr_col h.upos).2
  · exact (plainOr_col h.xpos).2
  · exact (slot_roundtrip h.feats).2
  · exact hh
  · exact (plainOr_col h.deprel).2
  · exact (plain_col h.rawDeps).2
  · exact (slot_roundtrip h.misc).2

theorem emptyCols_tab {lower : Str → Str} {a : Attrs} (h : EmptyOk lower a) {id head : Str} (hi : '\t' ∉ id)
    (hh : '\t' ∉ head) : ∀ c ∈ nodeCols lower id head a, '\t' ∉ c := by
  intro c hc
  simp only [nodeCols, List.mem_cons, List.not_mem_nil, or_false] at hc
  rcases hc with rfl | rfl | rfl | rfl | rfl | rfl | rfl | rfl | rfl | rfl
  · exact hi
  · exact (plain_col h.form).2
  · exact (plain_col h.lemma).2
  · exact (plain_col h.upos).2
  · exact (plain_col h.xpos).2
  · exact (slot_roundtrip h.feats).2
  · exact hh
  · rw [h.deprel]; show '\t' ∉ ['_']; decide
  · exact (plain_col h.rawDeps).2
  · exact (slot_roundtrip h.misc).2

/-! ## Numbers of empty nodes -/

/-- Decimals: digits, at least one, the last is not 0. -/
def FracOk (s : Str) : Prop := (∀ c ∈ s, 48 ≤ c.toNat ∧ c.toNat ≤ 57) ∧ ∃ l, s.getLast? = some l ∧ l ≠ '0'

theorem digitVal_isSome {c : Char} (h : 48 ≤ c.toNat ∧ c.toNat ≤ 57) : (digitVal c).isSome := by
  simp [digitVal, h]

theorem pyFloat_str {e : EOrd} (h : FracOk e.frac) : pyFloat e.str = some e := by
  obtain ⟨hd, l, hl, hl0⟩ := h
  have hne : e.frac ≠ [] := by intro e'; rw [e'] at hl; simp at hl
  unfold pyFloat EOrd.str
  rw [if_neg hne, splitOnce_append (not_mem_natStr (by decide) _)]
  simp only
  have h1 : allDigits (natStr e.major) = true := by
    simp only [allDigits, List.all_eq_true]
    exact fun c hc => digitVal_isSome (natStr_digits _ c hc)
  have h2 : allDigits e.frac = true := by
    simp only [allDigits, List.all_eq_true]
    exact fun c hc => digitVal_isSome (hd c hc)
  rw [if_pos ⟨h1, h2, fun h => hne h.2⟩, parseDigits_natStr]
  have : dropZeros e.frac = e.frac := by
    unfold dropZeros
    rw [dropWhile_of_head, List.reverse_reverse]
    intro c hc
    rw [List.head?_reverse, hl] at hc
    rw [← Option.some.inj hc]
    simp [hl0]
  rw [this]
  rfl

theorem eord_str_chars {e : EOrd} (h : FracOk e.frac) :
    '\t' ∉ e.str ∧ '-' ∉ e.str ∧ '.' ∈ e.str ∧ ∃ c r, e.str = c :: r ∧ c ≠ '#' := by
  have hne : e.frac ≠ [] := by
    obtain ⟨_, l, hl, _⟩ := h
    intro e'; rw [e'] at hl; simp at hl
  have key : ∀ c : Char, ¬ (48 ≤ c.toNat ∧ c.toNat ≤ 57) → c ≠ '.' → c ∉ e.str := by
    intro c hc hdot hm
    unfold EOrd.str at hm
    rw [if_neg hne] at hm
    rcases List.mem_append.1 hm with hm | hm
    · exact hc (natStr_digits _ c hm)
    · rcases List.mem_cons.1 hm with hm | hm
      · exact hdot hm
      · exact hc (h.1 c hm)
  refine ⟨key _ (by decide) (by decide), key _ (by decide) (by decide), ?_, ?_⟩
  · simp [EOrd.str]
  · unfold EOrd.str
    cases hn : natStr e.major with
    | nil => exact absurd hn (natStr_ne_nil _)
    | cons c r =>
      refine ⟨c, _, rfl, ?_⟩
      rintro rfl
      have := natStr_digits e.major '#' (by rw [hn]; simp)
      exact absurd this (by decide)

theorem natStr_head (n : Nat) : ∃ c r, natStr n = c :: r ∧ c ≠ '#' := by
  cases hn : natStr n with
  | nil => exact absurd hn (natStr_ne_nil _)
  | cons c r =>
    refine ⟨c, r, rfl, ?_⟩
    rintro rfl
    have := natStr_digits n '#' (by rw [hn]; simp)
    exact absurd this (by decide)

/-! ## Single lines -/

/-- Reading the line of a word. -/
theorem readLine_word (o : Opts) (acc : Acc) {lower : Str → Str} {a : Attrs} (h : WordOk lower a) (k p : Nat) :
    readLine o acc (nodeLine lower (natStr k) (natStr p) a) =
      .ok { acc with words := acc.words ++ [(k, wordAttrs (nodeCols lower (natStr k) (natStr p) a), (p : Int))] } := by
  have ht := wordCols_tab h (id := natStr k) (head := natStr p) (not_mem_natStr (by decide) k)
    (not_mem_natStr (by decide) p)
  obtain ⟨c, r, hc, hne⟩ := natStr_head k
  have e : nodeLine lower (natStr k) (natStr p) a = join ['\t'] (nodeCols lower (natStr k) (natStr p) a) := rfl
  rw [e]
  have hrl : readLine o acc (join ['\t'] (nodeCols lower (natStr k) (natStr p) a)) =
      readFields o acc (nodeCols lower (natStr k) (natStr p) a) := by
    have : nodeCols lower (natStr k) (natStr p) a = (c :: r) :: (nodeCols lower (natStr k) (natStr p) a).tail := by
      simp only [nodeCols, List.tail_cons, hc]
    rw [this] at ht ⊢
    exact readLine_join o acc hne rfl ht
  rw [hrl]
  have hcol0 : col (nodeCols lower (natStr k) (natStr p) a) 0 = natStr k := rfl
  have hcol6 : col (nodeCols lower (natStr k) (natStr p) a) 6 = natStr p := rfl
  unfold readFields
  rw [hcol0, hcol6, if_neg (not_mem_natStr (by decide) k), if_neg (not_mem_natStr (by decide) k), pyInt_natStr]
  simp only [readHead, pyInt_natStr]
  rfl

/-- Reading the line of an empty node. -/
theorem readLine_empty (o : Opts) (acc : Acc) {lower : Str → Str} {e : ENode} (h : EmptyOk lower e.attrs)
    (he : FracOk e.ord.frac) :
    readLine o acc (nodeLine lower e.ord.str ['_'] e.attrs) =
      .ok { acc with empties := acc.empties ++ [⟨e.ord, emptyAttrs (nodeCols lower e.ord.str ['_'] e.attrs)⟩] } := by
  obtain ⟨h1, h2, h3, c, r, hc, hne⟩ := eord_str_chars he
  have ht := emptyCols_tab h (id := e.ord.str) (head := ['_']) h1 (by decide)
  have e1 : nodeLine lower e.ord.str ['_'] e.attrs = join ['\t'] (nodeCols lower e.ord.str ['_'] e.attrs) := rfl
  rw [e1]
  have hrl : readLine o acc (join ['\t'] (nodeCols lower e.ord.str ['_'] e.attrs)) =
      readFields o acc (nodeCols lower e.ord.str ['_'] e.attrs) := by
    have : nodeCols lower e.ord.str ['_'] e.attrs = (c :: r) :: (nodeCols lower e.ord.str ['_'] e.attrs).tail := by
      simp only [nodeCols, List.tail_cons, hc]
    rw [this] at ht ⊢
    exact readLine_join o acc hne rfl ht
  rw [hrl]
  have hcol0 : col (nodeCols lower e.ord.str ['_'] e.attrs) 0 = e.ord.str := rfl
  unfold readFields
  rw [hcol0, if_neg h2, if_pos h3, pyFloat_str he]

/-- The columns of a token line. -/
def mwtCols (lower : Str → Str) (a b : Nat) (form : Option Str) (misc : Option DualDict.State) : List Str :=
  [natStr a ++ '-' :: natStr b, colOr form, ['_'], ['_'], ['_'], ['_'], ['_'], ['_'], ['_'], dictCol lower misc]

/-- Reading the line of a multi-word token. -/
theorem readLine_mwt (o : Opts) (acc : Acc) {lower : Str → Str} {form : Option Str}
    {misc : Option DualDict.State} (hf : Plain form) (hm : SlotWritable lower misc) (a b : Nat) :
    readLine o acc (join ['\t'] [natStr a ++ '-' :: natStr b, colOr form, "_\t_\t_\t_\t_\t_\t_".toList,
        dictCol lower misc]) =
      .ok { acc with mwts := acc.mwts ++ [mwtCols lower a b form misc] } := by
  have e : join ['\t'] [natStr a ++ '-' :: natStr b, colOr form, "_\t_\t_\t_\t_\t_\t_".toList, dictCol lower misc] =
      join ['\t'] (mwtCols lower a b form misc) := by
    simp [join, mwtCols]
  have ht : ∀ c ∈ mwtCols lower a b form misc, '\t' ∉ c := by
    intro c hc
    simp only [mwtCols, List.mem_cons, List.not_mem_nil, or_false] at hc
    have h_ : '\t' ∉ (['_'] : Str) := by decide
    rcases hc with rfl | rfl | rfl | rfl | rfl | rfl | rfl | rfl | rfl | rfl
    · simp only [List.mem_append, List.mem_cons, not_or]
      exact ⟨not_mem_natStr (by decide) a, by decide, not_mem_natStr (by decide) b⟩
    · exact (plain_col hf).2
    · exact h_
    · exact h_
    · exact h_
    · exact h_
    · exact h_
    · exact h_
    · exact h_
    · exact (slot_roundtrip hm).2
  obtain ⟨c, r, hc, hne⟩ := natStr_head a
  rw [e]
  have hrl : readLine o acc (join ['\t'] (mwtCols lower a b form misc)) =
      readFields o acc (mwtCols lower a b form misc) := by
    have : mwtCols lower a b form misc = (c :: (r ++ '-' :: natStr b)) :: (mwtCols lower a b form misc).tail := by
      simp only [mwtCols, List.tail_cons, hc, List.cons_append]
    rw [this] at ht ⊢
    exact readLine_join o acc hne rfl ht
  rw [hrl]
  have hcol0 : col (mwtCols lower a b form misc) 0 = natStr a ++ '-' :: natStr b := rfl
  unfold readFields
  rw [hcol0, if_pos (by simp)]

end Verif.Conllu
