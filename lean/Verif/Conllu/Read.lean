import Verif.Conllu.Link
import Verif.Mwt.Props
import Verif.DualDict.LemmasText

/-!
# Reading CoNLL-U sentences: theorems
-/

namespace Verif.Conllu
open Verif.Py
open Verif.Tree

/-! ## Vocabulary -/

/-- The columns of a line, filled up with `_` to ten. -/
def columns (line : Str) : List Str := split '\t' line ++ List.replicate (10 - (split '\t' line).length) ['_']

/-- The line describes a word: it is no comment, and its ID is neither a range nor a decimal number. -/
def isWordLine (line : Str) : Bool :=
  line.head? ≠ some '#' ∧ '-' ∉ col (columns line) 0 ∧ '.' ∉ col (columns line) 0

/-- The lines of the words. -/
def wordLines (lines : List Str) : List Str := lines.filter isWordLine

/-- The number in the ID column. -/
def idOf (line : Str) : Nat := ((pyInt (col (columns line) 0)).getD 0).toNat

/-- The number in the HEAD column, 0 for `_`. -/
def headOf (line : Str) : Int := (pyInt (col (columns line) 6)).getD 0

/-- The attributes in the other columns. -/
def attrsOf (line : Str) : Attrs := wordAttrs (columns line)

/-- The value of `name` in a slot that may be `None`. -/
def dictGet (m : Option DualDict.State) (name : Str) : Option DualDict.Val :=
  DualDict.lookup (DualDict.deserialize DualDict.dd (m.getD DualDict.init)).dict name

/-! ## The loop over the lines -/

theorem fieldsOf_ok {o : Opts} {line : Str} {f : List Str} (h : fieldsOf o line = .ok f) : f = columns line := by
  unfold fieldsOf at h
  unfold columns
  simp only at h
  split at h
  · split at h
    · simp at h
    · exact (Except.ok.inj h).symm
  · rename_i hl
    have : (split '\t' line).length = 10 := by omega
    rw [this]
    simpa using (Except.ok.inj h).symm

theorem readHead_ok {o : Opts} {t : Str} {h : Int} (e : readHead o t = .ok h) : h = (pyInt t).getD 0 := by
  unfold readHead at e
  cases hp : pyInt t with
  | some n => rw [hp] at e; simp at e; simp [e]
  | none =>
    rw [hp] at e
    simp only at e
    split at e
    · simp only [Except.ok.injEq] at e; simp [← e]
    · simp at e

/-- What one line adds. -/
theorem readLine_ok {o : Opts} {a a' : Acc} {line : Str} (h : readLine o a line = .ok a') :
    a'.words = a.words ++ (if isWordLine line then [(idOf line, attrsOf line, headOf line)] else []) := by
  unfold readLine at h
  split at h
  · simp at h
  · have e := Except.ok.inj h
    subst e
    simp [isWordLine]
  · rename_i l h1 h2
    cases hf : fieldsOf o line with
    | error e => rw [hf] at h; simp at h
    | ok f =>
      rw [hf] at h
      have e := fieldsOf_ok hf
      subst e
      have hc : line.head? ≠ some '#' := by
        cases line with
        | nil => simp
        | cons c cs =>
          intro e
          simp only [List.head?_cons, Option.some.injEq] at e
          subst e
          exact h2 cs rfl
      simp only [readFields] at h
      by_cases hm : '-' ∈ col (columns line) 0
      · rw [if_pos hm] at h
        have e := Except.ok.inj h
        subst e
        simp [isWordLine, hm]
      · rw [if_neg hm] at h
        by_cases hd : '.' ∈ col (columns line) 0
        · rw [if_pos hd] at h
          cases hp : pyFloat (col (columns line) 0) with
          | none => rw [hp] at h; simp at h
          | some q =>
            rw [hp] at h
            have e := Except.ok.inj h
            subst e
            simp [isWordLine, hd]
        · rw [if_neg hd] at h
          have hw : isWordLine line = true := by
            simp only [isWordLine, decide_eq_true_eq]; exact ⟨hc, hm, hd⟩
          rw [hw]
          cases hp : pyInt (col (columns line) 0) with
          | none => rw [hp] at h; simp at h
          | some k =>
            rw [hp] at h
            simp only at h
            cases hh : readHead o (col (columns line) 6) with
            | error e => rw [hh] at h; simp at h
            | ok i =>
              rw [hh] at h
              have e := Except.ok.inj h
              subst e
              simp [idOf, attrsOf, headOf, hp, readHead_ok hh]

theorem readLines_ok {o : Opts} : ∀ {lines : List Str} {a a' : Acc}, readLines o a lines = .ok a' →
    a'.words = a.words ++ (wordLines lines).map (fun l => (idOf l, attrsOf l, headOf l))
  | [], a, a', h => by
    have := Except.ok.inj h
    simp [wordLines, this]
  | l :: ls, a, a', h => by
    simp only [readLines] at h
    cases h1 : readLine o a l with
    | error e => rw [h1] at h; simp at h
    | ok b =>
      rw [h1] at h
      rw [readLines_ok h, readLine_ok h1]
      unfold wordLines
      by_cases hw : isWordLine l
      · simp [hw]
      · simp [hw]

/-! ## Multi-word tokens leave the rest alone -/

/-- The names of a slot are distinct. -/
def SlotOk (m : Option DualDict.State) : Prop := DualDict.NodupKeys (m.getD DualDict.init).dict

theorem slotOk_mkDict (t : Str) : SlotOk (mkDict t) := by
  unfold mkDict SlotOk
  split
  · exact (List.Pairwise.nil : DualDict.NodupKeys [])
  · simp [DualDict.NodupKeys]

theorem slotOk_set {m : Option DualDict.State} (h : SlotOk m) (v : Str) : SlotOk (setSpaceAfter m v) :=
  DualDict.nodup_step DualDict.dd id (m.getD DualDict.init) (.set spaceAfter (some (.str v))) h

/-- Assigning `''` to `SpaceAfter` removes it and leaves the rest. -/
theorem dictGet_delete {m : Option DualDict.State} (h : SlotOk m) (name : Str) :
    dictGet (setSpaceAfter m []) name = if name = spaceAfter then none else dictGet m name := by
  have hd' := DualDict.abs_nodup_aux DualDict.dd h
  show DualDict.lookup (DualDict.abs DualDict.dd (DualDict.setItem DualDict.dd _ _ _).1) name = _
  rw [DualDict.abs_setItem]
  simp only [DualDict.Spec.deletes, decide_true, if_true]
  rw [DualDict.lookup_erase hd']
  by_cases e : name = spaceAfter
  · simp [e]
  · rw [if_neg e, if_neg e]; rfl

/-- `new` is `old`, or `old` without `SpaceAfter`. -/
def SameMisc (old new : Option DualDict.State) : Prop :=
  new = old ∨ ∀ name, dictGet new name = if name = spaceAfter then none else dictGet old name

/-- The slots other than MISC agree, and MISC agrees up to `SpaceAfter`. -/
structure SameAttrs (old new : Attrs) : Prop where
  form : new.form = old.form
  lemma : new.lemma = old.lemma
  upos : new.upos = old.upos
  xpos : new.xpos = old.xpos
  feats : new.feats = old.feats
  deprel : new.deprel = old.deprel
  rawDeps : new.rawDeps = old.rawDeps
  misc : SameMisc old.misc new.misc

theorem SameAttrs.refl (a : Attrs) : SameAttrs a a := ⟨rfl, rfl, rfl, rfl, rfl, rfl, rfl, Or.inl rfl⟩

theorem SameMisc.trans {a b c : Option DualDict.State} (h1 : SameMisc a b) (h2 : SameMisc b c) : SameMisc a c := by
  rcases h2 with rfl | h2
  · exact h1
  · rcases h1 with rfl | h1
    · exact Or.inr h2
    · right
      intro name
      rw [h2, h1]
      split <;> rfl

theorem SameAttrs.trans {a b c : Attrs} (h1 : SameAttrs a b) (h2 : SameAttrs b c) : SameAttrs a c :=
  ⟨h2.form.trans h1.form, h2.lemma.trans h1.lemma, h2.upos.trans h1.upos, h2.xpos.trans h1.xpos,
    h2.feats.trans h1.feats, h2.deprel.trans h1.deprel, h2.rawDeps.trans h1.rawDeps, h1.misc.trans h2.misc⟩

theorem createMwt_ok {t t' : Tree} {ws : List Nat} {form : Option Str} {misc : Str}
    (hs : ∀ x, SlotOk (t.attrs x).misc) (h : createMwt t ws form misc = .ok t') :
    t'.heap = t.heap ∧ t'.empties = t.empties ∧ (∀ x, SameAttrs (t.attrs x) (t'.attrs x)) ∧
      (∀ x, SlotOk (t'.attrs x).misc) := by
  unfold createMwt at h
  split at h
  · simp at h
  · simp at h
  · have e := Except.ok.inj h
    subst e
    refine ⟨rfl, rfl, ?_, ?_⟩
    · intro x
      simp only
      split
      · exact ⟨rfl, rfl, rfl, rfl, rfl, rfl, rfl, Or.inr (dictGet_delete (hs x))⟩
      · exact SameAttrs.refl _
    · intro x
      simp only
      split
      · exact slotOk_set (hs x) []
      · exact hs x

theorem readMwt_ok {t t' : Tree} {n : Nat} {f : List Str} (h : readMwt t n f = .ok t') :
    ∃ ws form misc, createMwt t ws form misc = .ok t' := by
  unfold readMwt at h
  split at h
  · split at h
    · exact ⟨_, _, _, h⟩
    · simp at h
  · simp at h

theorem readMwts_ok {n : Nat} : ∀ {fs : List (List Str)} {t t' : Tree}, (∀ x, SlotOk (t.attrs x).misc) →
    readMwts n t fs = .ok t' →
    t'.heap = t.heap ∧ t'.empties = t.empties ∧ (∀ x, SameAttrs (t.attrs x) (t'.attrs x)) ∧
      (∀ x, SlotOk (t'.attrs x).misc)
  | [], t, t', hs, h => by
    have e := Except.ok.inj h
    subst e
    exact ⟨rfl, rfl, fun x => SameAttrs.refl _, hs⟩
  | f :: fs, t, t', hs, h => by
    simp only [readMwts] at h
    cases h1 : readMwt t n f with
    | error e => rw [h1] at h; simp at h
    | ok b =>
      rw [h1] at h
      obtain ⟨ws, form, misc, h2⟩ := readMwt_ok h1
      obtain ⟨a1, a2, a3, a4⟩ := createMwt_ok hs h2
      obtain ⟨b1, b2, b3, b4⟩ := readMwts_ok a4 h
      exact ⟨b1.trans a1, b2.trans a2, fun x => (a3 x).trans (b3 x), b4⟩

/-! ## C28 -/

/-- The words that count: a single artificial word marked `Empty=Yes` does not. -/
def realLines (lines : List Str) : List Str :=
  match wordLines lines with
  | [l] => if col (columns l) 9 = emptyYes then [] else [l]
  | ls => ls

theorem dictCol_mkDict (lower : Str → Str) (t : Str) (h : t = emptyYes ∨ dictCol lower (mkDict t) = emptyYes) :
    dictCol lower (mkDict t) = emptyYes ∧ t = emptyYes := by
  rcases h with rfl | h
  · exact ⟨rfl, rfl⟩
  · refine ⟨h, ?_⟩
    unfold mkDict at h
    split at h
    · exact absurd (show (['_'] : Str) = emptyYes from h) (by decide)
    · exact h

theorem realWords_eq (lower : Str → Str) (lines : List Str) :
    realWords lower ((wordLines lines).map (fun l => (idOf l, attrsOf l, headOf l))) =
      (realLines lines).map (fun l => (idOf l, attrsOf l, headOf l)) := by
  unfold realLines realWords
  cases hw : wordLines lines with
  | nil => rfl
  | cons l ls =>
    cases ls with
    | nil =>
      simp only [List.map_cons, List.map_nil]
      have hm : (attrsOf l).misc = mkDict (col (columns l) 9) := rfl
      rw [hm]
      by_cases e : col (columns l) 9 = emptyYes
      · rw [if_pos (dictCol_mkDict lower _ (Or.inl e)).1, if_pos e]; rfl
      · rw [if_neg (fun e' => e (dictCol_mkDict lower _ (Or.inr e')).2), if_neg e]; rfl
    | cons l' ls => rfl

/-- A word line names itself as its HEAD: the `k`-th of `n` words. -/
def SelfLoop (ls : List Str) : Prop :=
  ∃ (k : Nat) (l : Str), ls[k]? = some l ∧ pyIdx (ls.length + 1) (headOf l) = some (k + 1)

/-- How `readTree` proceeds when the lines can be parsed. -/
theorem readTree_parts {lower : Str → Str} {o : Opts} {fuel : Nat} {lines : List Str} {t : Tree}
    (h : readTree lower o fuel lines = .ok (some t)) :
    wordLines lines ≠ [] ∧
    ∃ hp, linkAll o (realLines lines).length fuel (startHeap ((realLines lines).map idOf)) 1
        ((realLines lines).map headOf) = .ok hp ∧ t.heap = hp ∧
      ∀ (k : Nat) (l : Str), (realLines lines)[k]? = some l → SameAttrs (attrsOf l) (t.attrs (k + 1)) := by
  unfold readTree at h
  cases ha : readLines o ⟨[], [], []⟩ lines with
  | error e => rw [ha] at h; simp at h
  | ok a =>
    rw [ha] at h
    simp only at h
    have hw : a.words = (wordLines lines).map (fun l => (idOf l, attrsOf l, headOf l)) := by
      have := readLines_ok ha; simpa using this
    by_cases hne : a.words = []
    · rw [if_pos hne] at h; simp at h
    · rw [if_neg hne] at h
      refine ⟨fun e => hne (by rw [hw, e]; rfl), ?_⟩
      rw [hw, realWords_eq lower lines] at h
      simp only [List.map_map, List.length_map] at h
      cases hl : linkAll o (realLines lines).length fuel (startHeap ((realLines lines).map idOf)) 1
          ((realLines lines).map headOf) with
      | error e =>
        have : linkAll o (realLines lines).length fuel
          (startHeap ((realLines lines).map ((fun x : Nat × Attrs × Int => x.1) ∘ fun l => (idOf l, attrsOf l, headOf l)))) 1
          ((realLines lines).map ((fun x : Nat × Attrs × Int => x.2.2) ∘ fun l => (idOf l, attrsOf l, headOf l))) = .error e := hl
        rw [this] at h; simp at h
      | ok hp =>
        have : linkAll o (realLines lines).length fuel
          (startHeap ((realLines lines).map ((fun x : Nat × Attrs × Int => x.1) ∘ fun l => (idOf l, attrsOf l, headOf l)))) 1
          ((realLines lines).map ((fun x : Nat × Attrs × Int => x.2.2) ∘ fun l => (idOf l, attrsOf l, headOf l))) = .ok hp := hl
        rw [this] at h
        simp only at h
        refine ⟨hp, rfl, ?_⟩
        split at h
        · simp at h
        · rename_i t' ht
          have e := Option.some.inj (Except.ok.inj h)
          subst e
          have hs : ∀ x, SlotOk ((if x = 0 then (⟨none, none, none, none, none, none, none, none⟩ : Attrs) else
              (((realLines lines).map ((fun x : Nat × Attrs × Int => x.2.1) ∘ fun l => (idOf l, attrsOf l, headOf l)))[x - 1]?).getD
                ⟨none, none, none, none, none, none, none, none⟩)).misc := by
            intro x
            split
            · exact (List.Pairwise.nil : DualDict.NodupKeys [])
            · rw [List.getElem?_map]
              cases (realLines lines)[x - 1]? with
              | none => exact (List.Pairwise.nil : DualDict.NodupKeys [])
              | some l => exact slotOk_mkDict _
          obtain ⟨h1, _, h3, _⟩ := readMwts_ok hs ht
          refine ⟨h1, ?_⟩
          intro k l hkl
          have := h3 (k + 1)
          simp only [Nat.add_sub_cancel, List.getElem?_map, hkl] at this
          exact this

/-- C28 (partial): whatever the lines, if the word lines are numbered 1, 2, 3, ... in this order and, when
`fix_cycles` is set, no word is its own HEAD, then a tree that is returned is well formed, has one word for
each word line, and the `k`-th word carries the attributes of the `k`-th word line (without `SpaceAfter` if
it became part of a multi-word token) and hangs on the node its HEAD stands for; with `fix_cycles` it may
hang on the root instead, but only if the node of its HEAD is below it.
Missing: other numberings (`C28_ids_violated`) and words attached to themselves with `fix_cycles`
(`C28_self_loop_violated`), where the claim is false; negative HEADs count from the end
(`C28_negative_head_violated`). -/
theorem C28_read_partial {lower : Str → Str} {o : Opts} {fuel : Nat} {lines : List Str} {t : Tree}
    (hf : (wordLines lines).length + 1 < fuel)
    (hids : (realLines lines).map idOf = List.range' 1 (realLines lines).length)
    (hself : o.fixCycles = true → ¬ SelfLoop (realLines lines))
    (h : readTree lower o fuel lines = .ok (some t)) :
    WF t.heap 0 ∧ t.heap.words 0 = List.range' 1 (realLines lines).length ∧
    ∀ (k : Nat) (l : Str), (realLines lines)[k]? = some l →
      SameAttrs (attrsOf l) (t.attrs (k + 1)) ∧
      HangsOn o (realLines lines).length t.heap (k + 1) (headOf l) := by
  obtain ⟨_, hp, hl, e, hat⟩ := readTree_parts h
  have hlen : (realLines lines).length ≤ (wordLines lines).length := by
    unfold realLines
    split
    · rename_i l hw
      rw [hw]
      split <;> simp
    · exact Nat.le_refl _
  have hlen' : ((realLines lines).map idOf).length = (realLines lines).length := List.length_map ..
  obtain ⟨I, g, hh⟩ := linkAll_ok (by omega) _ 1 _ hp (linv_start _ _) (Nat.le_refl 1)
    (by
      intro hfx j i hj hi
      rw [List.getElem?_map] at hj
      cases hjl : (realLines lines)[j]? with
      | none => rw [hjl] at hj; simp at hj
      | some l =>
        rw [hjl] at hj
        have := Option.some.inj hj
        exact hself hfx ⟨j, l, hjl, by rw [this, hi, Nat.add_comm]⟩) hl
  rw [List.length_map, Nat.add_comm] at I
  rw [e]
  refine ⟨?_, ?_, ?_⟩
  · refine wf_of_linked (ords := (realLines lines).map idOf) (by rw [hlen']; exact hids) ?_ g
    rw [hlen']; exact I
  · rw [g.words]
    show List.range' 1 ((realLines lines).map idOf).length = _
    rw [hlen']
  · intro k l hkl
    refine ⟨hat k l hkl, ?_⟩
    have := hh k (headOf l) (by rw [List.getElem?_map, hkl]; rfl)
    rw [Nat.add_comm] at this
    exact this

theorem linkAll_ends {o : Opts} {n fuel : Nat} (hf : n + 1 < fuel) : ∀ (is : List Int) (k : Nat) (h : Heap),
    LInv n k h → 1 ≤ k →
    (o.fixCycles = true → ∀ (j : Nat) (i : Int), is[j]? = some i → pyIdx (n + 1) i ≠ some (k + j)) →
    linkAll o n fuel h k is ≠ .error .diverges
  | [], k, h, I, hk, _ => by simp [linkAll]
  | i :: is, k, h, I, hk, hself => by
    simp only [linkAll]
    cases h1 : linkOne o n fuel h k i with
    | error e =>
      simp only [ne_eq, Except.error.injEq]
      rintro rfl
      rw [linkOne_spec I hf i (fun hfx => hself hfx 0 i rfl)] at h1
      split at h1
      · simp at h1
      · split at h1
        · simp at h1
        · split at h1
          · simp at h1
          · split at h1
            · simp at h1
            · split at h1 <;> simp at h1
    | ok h2 =>
      obtain ⟨p, _, _, I2⟩ := linkOne_ok I hk hf i (fun hfx => hself hfx 0 i rfl) h1
      exact linkAll_ends hf is (k + 1) h2 I2 (by omega)
        (fun hfx j i' e => by
          have := hself hfx (j + 1) i' (by simpa using e)
          rw [show k + (j + 1) = k + 1 + j from by omega] at this
          exact this)

theorem readMwts_ends {n : Nat} : ∀ (fs : List (List Str)) (t : Tree), readMwts n t fs ≠ .error .diverges
  | [], t => by simp [readMwts]
  | f :: fs, t => by
    simp only [readMwts]
    cases h1 : readMwt t n f with
    | error e =>
      simp only [ne_eq, Except.error.injEq]
      rintro rfl
      unfold readMwt at h1
      split at h1
      · split at h1
        · unfold createMwt at h1
          split at h1 <;> simp at h1
        · simp at h1
      · simp at h1
    | ok b => exact readMwts_ends fs b

theorem readLine_ends (o : Opts) (a : Acc) (l : Str) : readLine o a l ≠ .error .diverges := by
  unfold readLine fieldsOf readFields readHead
  grind

theorem readLines_ends (o : Opts) : ∀ (ls : List Str) (a : Acc), readLines o a ls ≠ .error .diverges
  | [], a => by simp [readLines]
  | l :: ls, a => by
    simp only [readLines]
    cases h1 : readLine o a l with
    | error e =>
      simp only [ne_eq, Except.error.injEq]
      rintro rfl
      exact readLine_ends o a l h1
    | ok b => exact readLines_ends o ls b

/-- C28, termination: reading ends, unless `fix_cycles` is set and a word is its own HEAD. -/
theorem C28_read_ends {lower : Str → Str} {o : Opts} {fuel : Nat} {lines : List Str}
    (hf : (wordLines lines).length + 1 < fuel)
    (hself : o.fixCycles = true → ¬ SelfLoop (realLines lines)) :
    readTree lower o fuel lines ≠ .error .diverges := by
  unfold readTree
  cases ha : readLines o ⟨[], [], []⟩ lines with
  | error e =>
    simp only [ne_eq, Except.error.injEq]
    rintro rfl
    exact readLines_ends o lines _ ha
  | ok a =>
    simp only
    have hw : a.words = (wordLines lines).map (fun l => (idOf l, attrsOf l, headOf l)) := by
      have := readLines_ok ha; simpa using this
    split
    · simp
    · have hr : realWords lower a.words = (realLines lines).map (fun l => (idOf l, attrsOf l, headOf l)) := by
        rw [hw]; exact realWords_eq lower lines
      have hlen : (realLines lines).length ≤ (wordLines lines).length := by
        unfold realLines
        split
        · rename_i l hw
          rw [hw]
          split <;> simp
        · exact Nat.le_refl _
      split
      · rename_i e he
        simp only [ne_eq, Except.error.injEq]
        rintro rfl
        revert he
        refine linkAll_ends (by rw [hr, List.length_map]; omega) _ 1 _ (linv_start _ _) (Nat.le_refl 1) ?_
        intro hfx j i hj hi
        rw [hr, List.map_map, List.getElem?_map] at hj
        rw [hr, List.length_map] at hi
        cases hjl : (realLines lines)[j]? with
        | none => rw [hjl] at hj; simp at hj
        | some l =>
          rw [hjl] at hj
          have := Option.some.inj hj
          exact hself hfx ⟨j, l, hjl, by rw [← Nat.add_comm 1 j, ← hi, ← this]; rfl⟩
      · split
        · rename_i e he
          simp only [ne_eq, Except.error.injEq]
          rintro rfl
          exact readMwts_ends _ _ he
        · simp

/-- C28, no false alarms: if the lines can be parsed, there is a word and no multi-word token, and the HEADs
are the parents of a tree (parent links from every word end), then a tree is returned, with or without
`fix_cycles`. -/
theorem C28_no_false_alarm {lower : Str → Str} {o : Opts} {fuel : Nat} {lines : List Str} {a : Acc}
    (hf : (wordLines lines).length + 1 < fuel)
    (ha : readLines o ⟨[], [], []⟩ lines = .ok a) (hne : wordLines lines ≠ []) (hm : a.mwts = [])
    (H : Heap) (hends : ∀ x, Ends H x)
    (hH : ∀ (k : Nat) (l : Str), (realLines lines)[k]? = some l →
      ∃ p, p ≤ (realLines lines).length ∧ headOf l = p ∧ H.parent (k + 1) = some p) :
    ∃ t, readTree lower o fuel lines = .ok (some t) := by
  have hw : a.words = (wordLines lines).map (fun l => (idOf l, attrsOf l, headOf l)) := by
    have := readLines_ok ha; simpa using this
  have hr : realWords lower a.words = (realLines lines).map (fun l => (idOf l, attrsOf l, headOf l)) := by
    rw [hw]; exact realWords_eq lower lines
  have hlen : (realLines lines).length ≤ (wordLines lines).length := by
    unfold realLines
    split
    · rename_i l hw
      rw [hw]
      split <;> simp
    · exact Nat.le_refl _
  obtain ⟨h', hl, _⟩ := linkAll_succeeds (o := o) (n := (realWords lower a.words).length) (fuel := fuel)
    (by rw [hr, List.length_map]; omega) hends ((realWords lower a.words).map (·.2.2)) 1
    (startHeap ((realWords lower a.words).map (·.1))) (linv_start _ _) (Nat.le_refl 1)
    (by intro x p e; simp [startHeap] at e)
    (by
      intro j i hj
      rw [hr, List.map_map, List.getElem?_map] at hj
      cases hjl : (realLines lines)[j]? with
      | none => rw [hjl] at hj; simp at hj
      | some l =>
        rw [hjl] at hj
        have := Option.some.inj hj
        obtain ⟨p, h1, h2, h3⟩ := hH j l hjl
        refine ⟨p, ?_, by rw [Nat.add_comm]; exact h3⟩
        have hi : i = (p : Int) := by rw [← this]; exact h2
        rw [hi, hr, List.length_map]
        unfold pyIdx
        rw [if_pos (by omega), if_pos (by omega)]
        simp)
  unfold readTree
  rw [ha]
  simp only
  rw [if_neg (by rw [hw]; simpa using hne), hl]
  simp only [hm, readMwts]
  exact ⟨_, rfl⟩

/-! ### Witnesses -/

/-- Ten columns with the given ID and HEAD. -/
def wline (id head : String) : Str := (id ++ "\ta\tb\tX\t_\t_\t" ++ head ++ "\tdep\t_\t_").toList

/-- What a test can see of the result: the parents of the first objects and the `ord`s of the words. -/
def seen (r : Except Err (Option Tree)) (n : Nat) : Option (List (Option Nat) × List Nat × List (List Nat)) :=
  match r with
  | .ok (some t) => some ((List.range n).map t.heap.parent, (t.heap.words 0).map t.heap.ord,
      (List.range n).map t.heap.children)
  | _ => none

/-- Reading two words gives a well-formed tree (an instance of `C28_read_partial`). -/
example : seen (readTree id ⟨true, false⟩ 10 ["# x".toList, wline "1" "2", wline "2" "0"]) 3 =
    some ([none, some 2, some 0], [1, 2], [[2], [], [1]]) := by decide

/-- A cycle of two words is an error, and is fixed with `fix_cycles`. -/
example : seen (readTree id ⟨true, false⟩ 10 [wline "1" "2", wline "2" "1"]) 3 = none ∧
    seen (readTree id ⟨true, true⟩ 10 [wline "1" "2", wline "2" "1"]) 3 =
      some ([none, some 2, some 0], [1, 2], [[2], [], [1]]) := by decide

/-- C28 is violated with `fix_cycles`: a word that is its own HEAD stays its own parent, and is also among
the children of the root, so the result is not a tree. -/
theorem C28_self_loop_violated :
    seen (readTree id ⟨true, true⟩ 10 [wline "1" "1"]) 2 = some ([none, some 1], [1], [[1], [1]]) := by decide

/-- C28 is violated: the ID column is not checked, so words may be numbered in any way. -/
theorem C28_ids_violated :
    seen (readTree id ⟨true, false⟩ 10 [wline "7" "2", wline "7" "0"]) 3 =
      some ([none, some 2, some 0], [7, 7], [[2], [], [1]]) := by decide

/-- C28 is violated: a negative HEAD is accepted, even with `strict`, and counts from the last word. -/
theorem C28_negative_head_violated :
    seen (readTree id ⟨true, false⟩ 10 [wline "1" "-1", wline "2" "0"]) 3 =
      some ([none, some 2, some 0], [1, 2], [[2], [], [1]]) := by decide

theorem climb_loop (h : Heap) (a c : Nat) (hc : h.parent c = some c) (hne : c ≠ a) :
    ∀ fuel, climbTo h a fuel (some c) = none
  | 0 => rfl
  | fuel + 1 => by simp only [climbTo, if_neg hne, hc]; exact climb_loop h a c hc hne fuel

/-- C28 is violated with `fix_cycles`: after a word that is its own HEAD, the climbing loop may never end,
whatever the bound. -/
theorem C28_diverges_violated (fuel : Nat) :
    readTree id ⟨true, true⟩ fuel [wline "1" "1", wline "2" "3", wline "3" "1"] = .error .diverges := by
  have hr : readLines ⟨true, true⟩ ⟨[], [], []⟩ [wline "1" "1", wline "2" "3", wline "3" "1"] =
      .ok ⟨[(1, attrsOf (wline "1" "1"), 1), (2, attrsOf (wline "2" "3"), 3), (3, attrsOf (wline "3" "1"), 1)],
        [], []⟩ := rfl
  have hl : linkAll ⟨true, true⟩ 3 fuel (startHeap [1, 2, 3]) 1 [1, 3, 1] = .error .diverges := by
    show (match (match climbTo (attach (attach (attach (startHeap [1, 2, 3]) 1 0) 1 1) 2 3) 3 fuel (some 1) with
      | none => Except.error Err.diverges
      | some false => Except.ok (attach (attach (attach (attach (startHeap [1, 2, 3]) 1 0) 1 1) 2 3) 3 1)
      | some true => Except.ok (attach (attach (attach (attach (startHeap [1, 2, 3]) 1 0) 1 1) 2 3) 3 0)) with
      | .error e => .error e
      | .ok h => .ok h) = Except.error Err.diverges
    rw [climb_loop _ 3 1 rfl (by decide)]
  unfold readTree
  rw [hr]
  simp only
  rw [if_neg (by simp)]
  show (match linkAll ⟨true, true⟩ 3 fuel (startHeap [1, 2, 3]) 1 [1, 3, 1] with
    | .error e => Except.error e
    | .ok h => _) = _
  rw [hl]

end Verif.Conllu
