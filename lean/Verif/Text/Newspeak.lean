import Verif.Py.Str

/-!
# Property C233: demo.Newspeak (udapi/block/demo/newspeak.py)

`process_node` (lines 44-67). `gen lemma tag` are the forms that MorphoDiTa generates (`udapi/tool/morphodita.py:21-30`), any function. `low` is the lower case of a letter. `none`: `IndexError`. Tags
that are too short are handled as by Python slices. The capital letter of the first word and the new text (`process_tree`, lines 31-42) are not modelled.
-/

namespace Verif.Text.Newspeak

abbrev Str := List Char

inductive Degree | pos | cmp | sup
deriving DecidableEq

structure Word where
  form : Str
  lemma : Str
  xpos : Str
  degree : Degree
deriving DecidableEq

/-- `ANTONYMS` (lines 13-18) -/
def antonym (l : Str) : Option Str :=
  if l = ['š', 'p', 'a', 't', 'n', 'ý'] then some ['d', 'o', 'b', 'r', 'ý'] else if l = ['p', 'o', 'm', 'a', 'l', 'ý'] then some ['r', 'y', 'c', 'h', 'l', 'ý'] else none

/-- `xpos[:i] + c + xpos[i+1:]` -/
def put (t : Str) (i : Nat) (c : Char) : Str := t.take i ++ c :: t.drop (i + 1)

/-- `form.lower().startswith('ne')` -/
def startsNe (low : Char → Char) (f : Str) : Bool := (f.take 2).map low == ['n', 'e']

/-- Lines 45-57 -/
def swap (low : Char → Char) (gen : Str → Str → List Str) (w : Word) : Option Word :=
  match antonym w.lemma with
  | none => some w
  | some a =>
    match w.xpos[11]? with
    | none => none
    | some c =>
      if c = 'N' then
        if startsNe low w.form then some { w with lemma := a, xpos := put w.xpos 10 'A', form := w.form.drop 2 } else some w
      else match gen a w.xpos with
        | [] => some w
        | f :: _ => some { w with lemma := a, xpos := put w.xpos 10 'N', form := ['n', 'e'] ++ f }

def degPrefix : Degree → Str
  | .sup => ['p', 'ř', 'e', 'v', 'e', 'l', 'e']
  | _ => ['v', 'e', 'l', 'e']

/-- Lines 59-67 -/
def degree (gen : Str → Str → List Str) (w : Word) : Word :=
  if w.degree = .pos then w else
    match gen w.lemma (put w.xpos 9 '1') with
    | [] => w
    | f :: _ => { w with form := degPrefix w.degree ++ f }

def node (low : Char → Char) (gen : Str → Str → List Str) (w : Word) : Option Word := (swap low gen w).map (degree gen)

/-! ## Lemmas -/

theorem antonym_final {l a : Str} (h : antonym l = some a) : antonym a = none := by
  unfold antonym at h
  split at h
  · cases h; decide
  · split at h
    · cases h; decide
    · cases h

theorem degree_same (gen : Str → Str → List Str) (w : Word) : (degree gen w).lemma = w.lemma ∧ (degree gen w).xpos = w.xpos ∧ (degree gen w).degree = w.degree := by
  unfold degree
  split
  · exact ⟨rfl, rfl, rfl⟩
  · split <;> exact ⟨rfl, rfl, rfl⟩

theorem degree_twice (gen : Str → Str → List Str) (w : Word) : degree gen (degree gen w) = degree gen w := by
  by_cases h : w.degree = .pos
  · simp only [degree, if_pos h]
  · cases hg : gen w.lemma (put w.xpos 9 '1') with
    | nil =>
      have e : degree gen w = w := by simp only [degree, if_neg h, hg]
      rw [e, e]
    | cons f l =>
      have e : degree gen w = { w with form := degPrefix w.degree ++ f } := by simp only [degree, if_neg h, hg]
      rw [e]
      simp only [degree, if_neg h, hg]

/-- The prefixes do not start with `ne`. -/
theorem degree_ne {low : Char → Char} (hv : low 'v' ≠ 'n') (hp : low 'p' ≠ 'n') (gen : Str → Str → List Str) (w : Word) (h : startsNe low w.form = false) :
    startsNe low (degree gen w).form = false := by
  unfold degree
  split
  · exact h
  · split
    · exact h
    · cases w.degree <;> simp [startsNe, degPrefix, hv, hp]

theorem put_length {t : Str} {i : Nat} (h : i < t.length) (c : Char) : (put t i c).length = t.length := by
  simp [put]
  omega

theorem put_get {t : Str} {i : Nat} (h : i < t.length) (c : Char) (j : Nat) : (put t i c)[j]? = if j = i then some c else t[j]? := by
  unfold put
  have hl : (t.take i).length = i := by simp; omega
  by_cases hj : j < i
  · rw [List.getElem?_append_left (by omega), List.getElem?_take_of_lt hj, if_neg (by omega)]
  · rw [List.getElem?_append_right (by omega), hl]
    by_cases he : j = i
    · rw [if_pos he, he]; simp
    · rw [if_neg he]
      obtain ⟨k, rfl⟩ : ∃ k, j = i + 1 + k := ⟨j - i - 1, by omega⟩
      have : i + 1 + k - i = k + 1 := by omega
      rw [this, List.getElem?_cons_succ, List.getElem?_drop]

/-! ## Theorems -/

/-- The only exception: a word with an antonym whose tag is too short. -/
theorem C233_exception (low : Char → Char) (gen : Str → Str → List Str) (w : Word) : node low gen w = none ↔ antonym w.lemma ≠ none ∧ w.xpos.length ≤ 11 := by
  simp only [node, Option.map_eq_none_iff, swap]
  split
  · next h => simp [h]
  · next a h =>
    split
    · next hx => simp [h, List.getElem?_eq_none_iff.1 hx]
    · next c hx =>
      have : ¬ w.xpos.length ≤ 11 := by
        intro hl
        rw [List.getElem?_eq_none hl] at hx
        cases hx
      simp only [this, and_false, iff_false]
      split
      · split <;> exact (nomatch ·)
      · split <;> exact (nomatch ·)

/-- A second run changes nothing, whatever the generator does. -/
theorem C233_twice {low : Char → Char} (hv : low 'v' ≠ 'n') (hp : low 'p' ≠ 'n') (gen : Str → Str → List Str) {w w' : Word} (h : node low gen w = some w') : node low gen w' = some w' := by
  unfold node at h
  rw [Option.map_eq_some_iff] at h
  obtain ⟨v, hs, rfl⟩ := h
  obtain ⟨hl, hx, _⟩ := degree_same gen v
  have fin : swap low gen (degree gen v) = some (degree gen v) := by
    unfold swap at hs
    split at hs
    · next ha =>
      cases hs
      simp only [swap, hl, ha]
    · next a ha =>
      split at hs
      · cases hs
      · next c hc =>
        split at hs
        · next hN =>
          split at hs
          · cases hs
            have := antonym_final ha
            simp only [swap, hl, this]
          · next hn =>
            cases hs
            have hn' := degree_ne hv hp gen w (by simpa using hn)
            simp only [swap, hl, ha, hx, hc, if_pos hN, hn', Bool.false_eq_true, if_false]
        · next hN =>
          split at hs
          · next hg =>
            cases hs
            simp only [swap, hl, ha, hx, hc, if_neg hN, hg]
          · cases hs
            have := antonym_final ha
            simp only [swap, hl, this]
  simp only [node, fin, Option.map_some, degree_twice]

/-- The degree stays, and so does the tag except for the polarity in position 10. The lemma is the old one or its antonym. -/
theorem C233_tag {low : Char → Char} {gen : Str → Str → List Str} {w w' : Word} (h : node low gen w = some w') :
    w'.degree = w.degree ∧ w'.xpos.length = w.xpos.length ∧ (∀ j, j ≠ 10 → w'.xpos[j]? = w.xpos[j]?) ∧ (w'.lemma = w.lemma ∨ antonym w.lemma = some w'.lemma) ∧
    (w'.lemma = w.lemma → w'.xpos = w.xpos) := by
  unfold node at h
  rw [Option.map_eq_some_iff] at h
  obtain ⟨v, hs, rfl⟩ := h
  obtain ⟨hl, hx, hd⟩ := degree_same gen v
  rw [hl, hx, hd]
  have hself : ∀ {a : Str}, antonym w.lemma = some a → a ≠ w.lemma := by
    intro a ha e
    have := antonym_final ha
    rw [e, ha] at this
    cases this
  unfold swap at hs
  split at hs
  · cases hs; exact ⟨rfl, rfl, fun _ _ => rfl, .inl rfl, fun _ => rfl⟩
  · next a ha =>
    split at hs
    · cases hs
    · next c hc =>
      have hlen : 10 < w.xpos.length := by
        have := (List.getElem?_eq_some_iff.1 hc).1
        omega
      split at hs
      · split at hs
        · cases hs
          exact ⟨rfl, put_length hlen _, fun j hj => by simp [put_get hlen, hj], .inr ha, fun e => absurd e (hself ha)⟩
        · cases hs; exact ⟨rfl, rfl, fun _ _ => rfl, .inl rfl, fun _ => rfl⟩
      · split at hs
        · cases hs; exact ⟨rfl, rfl, fun _ _ => rfl, .inl rfl, fun _ => rfl⟩
        · cases hs
          exact ⟨rfl, put_length hlen _, fun j hj => by simp [put_get hlen, hj], .inr ha, fun e => absurd e (hself ha)⟩

/-- Comparatives and superlatives of other lemmas get the prefix before a generated form of the first degree, or stay if there is none; words of the first degree stay. -/
theorem C233_degree (low : Char → Char) (gen : Str → Str → List Str) {w : Word} (ha : antonym w.lemma = none) (hx : 9 < w.xpos.length) :
    (w.degree = .pos → node low gen w = some w) ∧
    (w.degree ≠ .pos → ∃ t, t.length = w.xpos.length ∧ t[9]? = some '1' ∧ (∀ j, j ≠ 9 → t[j]? = w.xpos[j]?) ∧
      (gen w.lemma t = [] → node low gen w = some w) ∧
      (∀ f l, gen w.lemma t = f :: l → ∃ w', node low gen w = some w' ∧ w'.lemma = w.lemma ∧ w'.form = (if w.degree = .sup then ['p', 'ř', 'e', 'v', 'e', 'l', 'e'] else ['v', 'e', 'l', 'e']) ++ f)) := by
  have hs : swap low gen w = some w := by simp only [swap, ha]
  constructor
  · intro hd
    simp only [node, hs, Option.map_some, degree, if_pos hd]
  · intro hd
    refine ⟨put w.xpos 9 '1', put_length hx _, by simp [put_get hx], fun j hj => by simp [put_get hx, hj], ?_, ?_⟩
    · intro hg
      simp only [node, hs, Option.map_some, degree, if_neg hd, hg]
    · intro f l hg
      refine ⟨{ w with form := degPrefix w.degree ++ f }, by simp only [node, hs, Option.map_some, degree, if_neg hd, hg], rfl, ?_⟩
      cases hq : w.degree <;> simp [degPrefix]

/-- A word of the first degree whose tag is affirmative and whose antonym can be generated becomes the negated antonym, with a negative tag. -/
theorem C233_antonym_partial (low : Char → Char) (gen : Str → Str → List Str) {w : Word} {a f : Str} {l : List Str} {c : Char} (ha : antonym w.lemma = some a) (hd : w.degree = .pos)
    (hc : w.xpos[11]? = some c) (hN : c ≠ 'N') (hg : gen a w.xpos = f :: l) :
    ∃ w', node low gen w = some w' ∧ w'.lemma = a ∧ w'.form = ['n', 'e'] ++ f ∧ w'.xpos[10]? = some 'N' := by
  have hlen : 10 < w.xpos.length := by
    have := (List.getElem?_eq_some_iff.1 hc).1
    omega
  refine ⟨{ w with lemma := a, xpos := put w.xpos 10 'N', form := ['n', 'e'] ++ f }, ?_, rfl, rfl, by simp [put_get hlen]⟩
  have : swap low gen w = some { w with lemma := a, xpos := put w.xpos 10 'N', form := ['n', 'e'] ++ f } := by simp only [swap, ha, hc, if_neg hN, hg]
  simp only [node, this, Option.map_some, degree, hd, if_true]

/-- The test reads position 11 of the tag, but the polarity is in position 10. A negated word becomes the antonym with a second negation: its tag stays negative, and the form starts with `nene` if the
generator follows the tag. -/
theorem C233_negated_violated (low : Char → Char) (gen : Str → Str → List Str) {w : Word} {a f : Str} {l : List Str} (ha : antonym w.lemma = some a) (hd : w.degree = .pos)
    (hn : w.xpos[10]? = some 'N') (hc : w.xpos[11]? = some '-') (hg : gen a w.xpos = (['n', 'e'] ++ f) :: l) :
    ∃ w', node low gen w = some w' ∧ w'.lemma = a ∧ w'.form = ['n', 'e', 'n', 'e'] ++ f ∧ w'.xpos = w.xpos := by
  have hlen : 10 < w.xpos.length := (List.getElem?_eq_some_iff.1 hn).1
  have hp : put w.xpos 10 'N' = w.xpos := by
    apply List.ext_getElem?
    intro j
    rw [put_get hlen]
    split
    · next e => rw [e, hn]
    · rfl
  refine ⟨{ w with lemma := a, xpos := put w.xpos 10 'N', form := ['n', 'e'] ++ (['n', 'e'] ++ f) }, ?_, rfl, rfl, hp⟩
  have : swap low gen w = some { w with lemma := a, xpos := put w.xpos 10 'N', form := ['n', 'e'] ++ (['n', 'e'] ++ f) } := by
    simp only [swap, ha, hc, hg]
    rw [if_neg (by decide)]
  simp only [node, this, Option.map_some, degree, hd, if_true]

/-! ## Examples -/

def exTag : Str := ['A', 'A', 'F', 'S', '1', '-', '-', '-', '-', '1', 'A', '-', '-', '-', '-']
def exNeg : Str := ['A', 'A', 'F', 'S', '1', '-', '-', '-', '-', '1', 'N', '-', '-', '-', '-']
def exCmp : Str := ['A', 'A', 'F', 'S', '1', '-', '-', '-', '-', '2', 'A', '-', '-', '-', '-']
def exGen (l t : Str) : List Str :=
  if l = ['d', 'o', 'b', 'r', 'ý'] then (if t[10]? = some 'N' then [['n', 'e', 'd', 'o', 'b', 'r', 'á']] else [['d', 'o', 'b', 'r', 'á']]) else if l = ['n', 'o', 'v', 'ý'] ∧ t[9]? = some '1' then [['n', 'o', 'v', 'á']] else []

example : node id exGen ⟨['š', 'p', 'a', 't', 'n', 'á'], ['š', 'p', 'a', 't', 'n', 'ý'], exTag, .pos⟩ = some ⟨['n', 'e', 'd', 'o', 'b', 'r', 'á'], ['d', 'o', 'b', 'r', 'ý'], exNeg, .pos⟩ := by decide
example : node id exGen ⟨['n', 'e', 'š', 'p', 'a', 't', 'n', 'á'], ['š', 'p', 'a', 't', 'n', 'ý'], exNeg, .pos⟩ = some ⟨['n', 'e', 'n', 'e', 'd', 'o', 'b', 'r', 'á'], ['d', 'o', 'b', 'r', 'ý'], exNeg, .pos⟩ := by decide
example : node id exGen ⟨['n', 'o', 'v', 'ě', 'j', 'š', 'í'], ['n', 'o', 'v', 'ý'], exCmp, .cmp⟩ = some ⟨['v', 'e', 'l', 'e', 'n', 'o', 'v', 'á'], ['n', 'o', 'v', 'ý'], exCmp, .cmp⟩ := by decide
example : node id exGen ⟨['n', 'e', 'j', 'n', 'o', 'v', 'ě', 'j', 'š', 'í'], ['n', 'o', 'v', 'ý'], exCmp, .sup⟩ = some ⟨['p', 'ř', 'e', 'v', 'e', 'l', 'e', 'n', 'o', 'v', 'á'], ['n', 'o', 'v', 'ý'], exCmp, .sup⟩ := by decide
example : node id exGen ⟨['h', 'o', 'r', 'š', 'í'], ['š', 'p', 'a', 't', 'n', 'ý'], exCmp, .cmp⟩ = some ⟨['v', 'e', 'l', 'e', 'n', 'e', 'd', 'o', 'b', 'r', 'á'], ['d', 'o', 'b', 'r', 'ý'], put exCmp 10 'N', .cmp⟩ := by decide
example : node id exGen ⟨['š', 'p', 'a', 't', 'n', 'á'], ['š', 'p', 'a', 't', 'n', 'ý'], ['A', 'A'], .pos⟩ = none := by decide

end Verif.Text.Newspeak
