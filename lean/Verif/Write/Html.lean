import Verif.Py.Str

/-!
# Properties C182 and C183: trees and sentences in HTML (udapi/block/write/textmodetreeshtml.py, sentenceshtml.py)

`view` is what a browser shows of a piece of HTML: tags are dropped and the named characters are decoded. It is the reference for
the statements and not part of udapi. Simplified: comments of trees and the drawing of edges (C147) are left out, and the texts of
the attributes are given.
-/

namespace Verif.Write
open Verif.Py

/-! ## The reference: what a browser shows -/

inductive VState
  | text
  | tag
  | entity (acc : Str)
  deriving DecidableEq

/-- The characters named in HTML that occur here. -/
def named (name : Str) : Option Char :=
  if name = ['a', 'm', 'p'] then some '&'
  else if name = ['l', 't'] then some '<'
  else if name = ['g', 't'] then some '>'
  else if name = ['q', 'u', 'o', 't'] then some '"'
  else if name = ['#', 'x', '2', '7'] then some '\''
  else none

def stepText (c : Char) : VState × Str :=
  if c = '<' then (.tag, []) else if c = '&' then (.entity [], []) else (.text, [c])

/-- One character of HTML: the next state and the characters shown. -/
def vstep : VState → Char → VState × Str
  | .text, c => stepText c
  | .tag, c => if c = '>' then (.text, []) else (.tag, [])
  | .entity acc, c =>
    if c = ';' then (.text, match named acc with | some x => [x] | none => '&' :: acc ++ [';'])
    else if c.isAlphanum ∨ c = '#' then (.entity (acc ++ [c]), [])
    else ((stepText c).1, '&' :: acc ++ (stepText c).2)

def vrun : VState → Str → Str
  | .entity acc, [] => '&' :: acc
  | _, [] => []
  | st, c :: r => (vstep st c).2 ++ vrun (vstep st c).1 r

/-- The text shown for a piece of HTML. -/
def view (s : Str) : Str := vrun .text s

/-! ## The model -/

/-- One character in `html.escape` of the Python library. -/
def escapeChar (c : Char) : Str :=
  if c = '&' then ['&', 'a', 'm', 'p', ';']
  else if c = '<' then ['&', 'l', 't', ';']
  else if c = '>' then ['&', 'g', 't', ';']
  else if c = '"' then ['&', 'q', 'u', 'o', 't', ';']
  else if c = '\'' then ['&', '#', 'x', '2', '7', ';']
  else [c]

/-- `html.escape(s)`; the library replaces `&` first, so every character is replaced once. -/
def escape (s : Str) : Str := s.flatMap escapeChar

/-- `colorize_attr` (textmodetreeshtml.py:77-80). -/
def colorizeAttr (attr value : Str) : Str :=
  ['<', 's', 'p', 'a', 'n', ' ', 'c', 'l', 'a', 's', 's', '=', '\''] ++ attr ++ ['\'', '>'] ++ escape value ++
    ['<', '/', 's', 'p', 'a', 'n', '>']

/-- `add_node` of TextModeTrees (textmodetrees.py:364-377): what is added to the line of a node other than the root. -/
def addNodeText (color marked : Bool) (cells : List (Str × Str)) : Str :=
  let values := cells.map fun p => if color then colorizeAttr p.1 p.2 else p.2
  if !color && marked then [' ', '*', '*'] ++ join [' '] values ++ ['*', '*'] else ' ' :: join [' '] values

/-- `add_node` of TextModeTreesHtml (textmodetreeshtml.py:64-69). -/
def addNodeHtml (color marked : Bool) (cells : List (Str × Str)) : Str :=
  (if marked then ['<', 'm', 'a', 'r', 'k', '>'] else []) ++ addNodeText color marked cells ++
    (if marked then ['<', '/', 'm', 'a', 'r', 'k', '>'] else [])

/-- The line of the text in `print_headers` (textmodetreeshtml.py:85-87). -/
def textHeader (text : Str) : Str := escape (['#', ' ', 't', 'e', 'x', 't', ' ', '=', ' '] ++ text)

/-- The line of the id in `print_headers` (textmodetreeshtml.py:83-84). -/
def idHeader (address : Str) : Str := ['#', ' ', 's', 'e', 'n', 't', '_', 'i', 'd', ' ', '=', ' '] ++ escape address

/-- `process_tree` of SentencesHtml (sentenceshtml.py:36-37). -/
def sentenceItem (sentId text : Str) : Str :=
  [' ', ' ', '<', 'l', 'i', ' ', 'i', 'd', '=', '"'] ++ sentId ++ ['"', '>'] ++ text ++ ['<', '/', 'l', 'i', '>']

/-! ## Proofs -/

theorem vrun_tag {s : Str} (h : '>' ∉ s) (r : Str) : vrun .tag (s ++ '>' :: r) = vrun .text r := by
  induction s with
  | nil => simp [vrun, vstep]
  | cons c s ih =>
    have hc : c ≠ '>' := fun e => h (by simp [e])
    have hs : '>' ∉ s := fun e => h (List.mem_cons_of_mem _ e)
    rw [List.cons_append, vrun, vstep, if_neg hc]
    · exact ih hs

theorem view_tag {s : Str} (h : '>' ∉ s) (r : Str) : vrun .text ('<' :: s ++ '>' :: r) = vrun .text r := by
  rw [List.cons_append, vrun, vstep, stepText, if_pos rfl]
  · exact vrun_tag h r

theorem vrun_escape (s r : Str) : vrun .text (escape s ++ r) = s ++ vrun .text r := by
  induction s with
  | nil => rfl
  | cons c s ih =>
    rw [escape, List.flatMap_cons, List.append_assoc]
    have ih : vrun .text (s.flatMap escapeChar ++ r) = s ++ vrun .text r := ih
    have key : ∀ t, vrun .text (escapeChar c ++ t) = c :: vrun .text t := by
      intro t
      unfold escapeChar
      by_cases h1 : c = '&'
      · subst h1; rfl
      rw [if_neg h1]
      by_cases h2 : c = '<'
      · subst h2; rfl
      rw [if_neg h2]
      by_cases h3 : c = '>'
      · subst h3; rfl
      rw [if_neg h3]
      by_cases h4 : c = '"'
      · subst h4; rfl
      rw [if_neg h4]
      by_cases h5 : c = '\''
      · subst h5; rfl
      rw [if_neg h5, List.singleton_append, vrun, vstep, stepText, if_neg h2, if_neg h1]
      · rfl
    rw [key, ih]
    rfl

theorem vrun_colorize {attr : Str} (h : '>' ∉ attr) (value r : Str) :
    vrun .text (colorizeAttr attr value ++ r) = value ++ vrun .text r := by
  have e : colorizeAttr attr value ++ r = '<' :: (['s', 'p', 'a', 'n', ' ', 'c', 'l', 'a', 's', 's', '=', '\''] ++ attr ++ ['\'']) ++
      '>' :: (escape value ++ ('<' :: ['/', 's', 'p', 'a', 'n'] ++ '>' :: r)) := by
    simp [colorizeAttr]
  rw [e, view_tag (by simp [h]), vrun_escape, view_tag (by simp)]

theorem vrun_plain {c : Char} (h1 : c ≠ '<') (h2 : c ≠ '&') (r : Str) : vrun .text (c :: r) = c :: vrun .text r := by
  rw [vrun, vstep, stepText, if_neg h1, if_neg h2]
  · rfl

theorem vrun_cells : ∀ (cells : List (Str × Str)) (r : Str), (∀ p ∈ cells, '>' ∉ p.1) →
    vrun .text (join [' '] (cells.map fun p => colorizeAttr p.1 p.2) ++ r) = join [' '] (cells.map (·.2)) ++ vrun .text r := by
  intro cells
  induction cells with
  | nil => intro r _; rfl
  | cons p cells ih =>
    intro r h
    cases cells with
    | nil => simp only [List.map_cons, List.map_nil, join]; exact vrun_colorize (h p (by simp)) _ _
    | cons q cells =>
      have := ih r (fun p hp => h p (List.mem_cons_of_mem _ hp))
      simp only [List.map_cons, join, List.append_assoc] at this ⊢
      rw [vrun_colorize (h p (by simp)), List.singleton_append, vrun_plain (by decide) (by decide), this]
      rfl

/-- **C182.** With colors, the text shown for a node is the text of the node without colors and without mark, whatever
characters the attributes have. -/
theorem C182_node (marked : Bool) (cells : List (Str × Str)) (h : ∀ p ∈ cells, '>' ∉ p.1) :
    view (addNodeHtml true marked cells) = ' ' :: join [' '] (cells.map (·.2)) := by
  have key : ∀ r, vrun .text (addNodeText true marked cells ++ r) = ' ' :: join [' '] (cells.map (·.2)) ++ vrun .text r := by
    intro r
    simp only [addNodeText, Bool.not_true, Bool.false_and, if_true]
    rw [if_neg (by decide), List.cons_append, vrun_plain (by decide) (by decide), vrun_cells cells r h]
    rfl
  unfold view addNodeHtml
  cases marked with
  | false =>
    have := key []
    simpa [vrun] using this
  | true =>
    simp only [if_true]
    rw [List.append_assoc, show (['<', 'm', 'a', 'r', 'k', '>'] : Str) ++
      (addNodeText true true cells ++ ['<', '/', 'm', 'a', 'r', 'k', '>']) =
      '<' :: ['m', 'a', 'r', 'k'] ++ '>' :: (addNodeText true true cells ++ ['<', '/', 'm', 'a', 'r', 'k', '>']) from rfl,
      view_tag (by decide), key]
    rw [show (['<', '/', 'm', 'a', 'r', 'k', '>'] : Str) = '<' :: ['/', 'm', 'a', 'r', 'k'] ++ '>' :: [] from rfl,
      view_tag (by decide)]
    simp [vrun]

/-- **C182.** The headers show the id and the text as they are. -/
theorem C182_headers (text address : Str) :
    view (textHeader text) = ['#', ' ', 't', 'e', 'x', 't', ' ', '=', ' '] ++ text ∧
    view (idHeader address) = ['#', ' ', 's', 'e', 'n', 't', '_', 'i', 'd', ' ', '=', ' '] ++ address := by
  constructor
  · have := vrun_escape (['#', ' ', 't', 'e', 'x', 't', ' ', '=', ' '] ++ text) []
    simpa [view, textHeader, vrun] using this
  · have := vrun_escape address []
    simp only [List.append_nil] at this
    simp only [view, idHeader, List.cons_append, List.nil_append]
    iterate 12 rw [vrun_plain (by decide) (by decide)]
    rw [this]
    simp [vrun]

/-- The characters read but not yet shown. -/
def pending : VState → Nat
  | .entity acc => acc.length + 1
  | _ => 0

theorem vstep_length (st : VState) (c : Char) : (vstep st c).2.length + pending (vstep st c).1 ≤ pending st + 1 := by
  have ht : (stepText c).2.length + pending (stepText c).1 ≤ 1 := by
    unfold stepText
    repeat' split
    all_goals simp [pending]
  cases st with
  | text => simpa [vstep, pending] using ht
  | tag =>
    rw [vstep]
    split <;> simp [pending]
  | entity acc =>
    rw [vstep]
    split
    · simp only [pending]
      split <;> simp
    · split
      · simp [pending]
      · show ('&' :: acc ++ (stepText c).2).length + pending (stepText c).1 ≤ acc.length + 1 + 1
        simp only [List.length_append, List.length_cons]
        omega

theorem vrun_length : ∀ (s : Str) (st : VState), (vrun st s).length ≤ pending st + s.length := by
  intro s
  induction s with
  | nil => intro st; cases st <;> simp [vrun, pending]
  | cons c s ih =>
    intro st
    have h1 := vstep_length st c
    have h2 := ih (vstep st c).1
    have : vrun st (c :: s) = (vstep st c).2 ++ vrun (vstep st c).1 s := by cases st <;> rfl
    rw [this, List.length_append, List.length_cons]
    omega

theorem vrun_length_lt : ∀ (s : Str) (st : VState), '<' ∈ s → (vrun st s).length < pending st + s.length := by
  intro s
  induction s with
  | nil => intro st h; cases h
  | cons c s ih =>
    intro st h
    have e : vrun st (c :: s) = (vstep st c).2 ++ vrun (vstep st c).1 s := by cases st <;> rfl
    rw [e, List.length_append, List.length_cons]
    by_cases hs : '<' ∈ s
    · have h1 := vstep_length st c
      have h2 := ih (vstep st c).1 hs
      omega
    · rcases List.mem_cons.1 h with rfl | h
      · have h2 := vrun_length s (vstep st '<').1
        have h3 : (vstep st '<').2.length + pending (vstep st '<').1 ≤ pending st := by
          cases st with
          | text => decide
          | tag => decide
          | entity acc =>
            have e1 : ('<' : Char) ≠ ';' := by decide
            have e2 : ¬ (('<' : Char).isAlphanum = true ∨ ('<' : Char) = '#') := by decide
            rw [vstep, if_neg e1, if_neg e2]
            simp [stepText, pending]
        omega
      · exact absurd h hs

/-- **C182, violated.** With `color=0` and a `<` in an attribute, the text shown is shorter than the text of the node, for marked
and for unmarked nodes: characters are missing. -/
theorem C182_color_violated (marked : Bool) (cells : List (Str × Str)) (h : ∃ p ∈ cells, '<' ∈ p.2) :
    (view (addNodeHtml false marked cells)).length < (addNodeText false marked cells).length := by
  have hmem : '<' ∈ addNodeText false marked cells := by
    have hj : ∀ l : List Str, (∃ v ∈ l, '<' ∈ v) → '<' ∈ join [' '] l := by
      intro l
      induction l with
      | nil => rintro ⟨v, hv, _⟩; cases hv
      | cons a l ih =>
        rintro ⟨v, hv, hc⟩
        cases l with
        | nil => simp at hv; subst hv; exact hc
        | cons b l =>
          rw [join]
          rcases List.mem_cons.1 hv with rfl | hv
          · simp [hc]
          · exact List.mem_append_right _ (ih ⟨v, hv, hc⟩)
    obtain ⟨p, hp, hc⟩ := h
    have := hj (cells.map (·.2)) ⟨p.2, List.mem_map_of_mem hp, hc⟩
    have hv : cells.map (fun p => if (false : Bool) = true then colorizeAttr p.1 p.2 else p.2) = cells.map (·.2) := by simp
    simp only [addNodeText, hv]
    cases marked
    · simp [this]
    · simp [this]
  unfold view addNodeHtml
  cases marked with
  | false =>
    have := vrun_length_lt _ .text hmem
    simpa [pending] using this
  | true =>
    simp only [if_true]
    have hm2 : '<' ∈ addNodeText false true cells := hmem
    have e : (['<', 'm', 'a', 'r', 'k', '>'] : Str) ++ addNodeText false true cells ++ ['<', '/', 'm', 'a', 'r', 'k', '>'] =
      '<' :: ['m', 'a', 'r', 'k'] ++ '>' :: (addNodeText false true cells ++ ['<', '/', 'm', 'a', 'r', 'k', '>']) := by simp
    rw [e, view_tag (by decide)]
    -- the end tag adds nothing
    have hend : ∀ (s : Str) (st : VState), '<' ∈ s →
        (vrun st (s ++ ['<', '/', 'm', 'a', 'r', 'k', '>'])).length < pending st + s.length := by
      have hle : ∀ (s : Str) (st : VState),
          (vrun st (s ++ ['<', '/', 'm', 'a', 'r', 'k', '>'])).length ≤ pending st + s.length := by
        intro s
        induction s with
        | nil =>
          intro st
          cases st with
          | text => decide
          | tag => decide
          | entity acc =>
            have e1 : ('<' : Char) ≠ ';' := by decide
            have e2 : ¬ (('<' : Char).isAlphanum = true ∨ ('<' : Char) = '#') := by decide
            rw [List.nil_append, vrun, vstep, if_neg e1, if_neg e2]
            · simp [stepText, vrun, vstep, pending]
        | cons c s ih =>
          intro st
          have h1 := vstep_length st c
          have h2 := ih (vstep st c).1
          have e : vrun st (c :: s ++ ['<', '/', 'm', 'a', 'r', 'k', '>']) =
            (vstep st c).2 ++ vrun (vstep st c).1 (s ++ ['<', '/', 'm', 'a', 'r', 'k', '>']) := by cases st <;> rfl
          rw [e, List.length_append, List.length_cons]
          omega
      intro s
      induction s with
      | nil => intro st h; cases h
      | cons c s ih =>
        intro st h
        have e : vrun st (c :: s ++ ['<', '/', 'm', 'a', 'r', 'k', '>']) =
          (vstep st c).2 ++ vrun (vstep st c).1 (s ++ ['<', '/', 'm', 'a', 'r', 'k', '>']) := by cases st <;> rfl
        rw [e, List.length_append, List.length_cons]
        by_cases hs : '<' ∈ s
        · have h1 := vstep_length st c
          have h2 := ih (vstep st c).1 hs
          omega
        · rcases List.mem_cons.1 h with rfl | h
          · have h2 := hle s (vstep st '<').1
            have h3 : (vstep st '<').2.length + pending (vstep st '<').1 ≤ pending st := by
              cases st with
              | text => decide
              | tag => decide
              | entity acc =>
                have e1 : ('<' : Char) ≠ ';' := by decide
                have e2 : ¬ (('<' : Char).isAlphanum = true ∨ ('<' : Char) = '#') := by decide
                rw [vstep, if_neg e1, if_neg e2]
                simp [stepText, pending]
            omega
          · exact absurd h hs
    have := hend _ .text hm2
    simpa [pending] using this

/-- **C182, partial.** In SentencesHtml a sentence without `<` and `&` is shown as it is, after the two spaces before the item.
The full statement, for all sentences, fails (`C182_sentence_violated`). -/
theorem C182_sentence_partial {sentId text : Str} (hid : '>' ∉ sentId) (h1 : '<' ∉ text) (h2 : '&' ∉ text) :
    view (sentenceItem sentId text) = [' ', ' '] ++ text := by
  have hp : ∀ (s r : Str), '<' ∉ s → '&' ∉ s → vrun .text (s ++ r) = s ++ vrun .text r := by
    intro s r
    induction s with
    | nil => intro _ _; rfl
    | cons c s ih =>
      intro h1 h2
      rw [List.cons_append, vrun_plain (fun e => h1 (by simp [e])) (fun e => h2 (by simp [e])),
        ih (fun e => h1 (List.mem_cons_of_mem _ e)) (fun e => h2 (List.mem_cons_of_mem _ e))]
      rfl
  have e : sentenceItem sentId text = [' ', ' '] ++ ('<' :: (['l', 'i', ' ', 'i', 'd', '=', '"'] ++ sentId ++ ['"']) ++
      '>' :: (text ++ ('<' :: ['/', 'l', 'i'] ++ '>' :: []))) := by simp [sentenceItem]
  rw [view, e, hp _ _ (by decide) (by decide), view_tag (by simp [hid]), hp _ _ h1 h2, view_tag (by decide)]
  simp [vrun]

/-- **C182, violated.** In SentencesHtml, what is between `<` and `>` in a sentence is not shown: the sentence is shown as the one
without it. -/
theorem C182_sentence_violated {sentId : Str} (hid : '>' ∉ sentId) (a b tag : Str) (ha1 : '<' ∉ a) (ha2 : '&' ∉ a)
    (hb1 : '<' ∉ b) (hb2 : '&' ∉ b) (ht : '>' ∉ tag) :
    view (sentenceItem sentId (a ++ ('<' :: tag ++ '>' :: b))) = view (sentenceItem sentId (a ++ b)) := by
  have hp : ∀ (s r : Str), '<' ∉ s → '&' ∉ s → vrun .text (s ++ r) = s ++ vrun .text r := by
    intro s r
    induction s with
    | nil => intro _ _; rfl
    | cons c s ih =>
      intro h1 h2
      rw [List.cons_append, vrun_plain (fun e => h1 (by simp [e])) (fun e => h2 (by simp [e])),
        ih (fun e => h1 (List.mem_cons_of_mem _ e)) (fun e => h2 (List.mem_cons_of_mem _ e))]
      rfl
  rw [C182_sentence_partial (text := a ++ b) hid (by simp [ha1, hb1]) (by simp [ha2, hb2])]
  have e : sentenceItem sentId (a ++ ('<' :: tag ++ '>' :: b)) =
      [' ', ' '] ++ ('<' :: (['l', 'i', ' ', 'i', 'd', '=', '"'] ++ sentId ++ ['"']) ++
      '>' :: (a ++ ('<' :: tag ++ '>' :: (b ++ ('<' :: ['/', 'l', 'i'] ++ '>' :: []))))) := by simp [sentenceItem]
  rw [view, e, hp _ _ (by decide) (by decide), view_tag (by simp [hid]), hp _ _ ha1 ha2, view_tag ht, hp _ _ hb1 hb2,
    view_tag (by decide)]
  simp [vrun]

section
example : view ['a', '&', 'l', 't', ';', '<', 'b', '>', 'c', '&', ' ', '&', 'x', ';'] = ['a', '<', 'c', '&', ' ', '&', 'x', ';'] := by
  decide
example : view (addNodeHtml true true [(['f'], ['<', '3', '&']), (['u'], ['X'])]) = [' ', '<', '3', '&', ' ', 'X'] := by decide
example : view (addNodeHtml false true [(['f'], ['<', '3', '>']), (['u'], ['X'])]) = [' ', '*', '*', ' ', 'X', '*', '*'] := by decide
example : view (sentenceItem ['1'] ['a', '<', 'b', '>']) = [' ', ' ', 'a'] := by decide
end

/-! ## Which trees of a bundle are printed (C183) -/

/-- What matters of a tree: is it in the zones (`_should_process_tree`), which of its nodes are marked, is its comment marked and
comments are printed (textmodetrees.py:244-246). -/
structure HTree where
  inZone : Bool
  marked : List Bool
  comment : Bool
  deriving DecidableEq

/-- `should_print_tree` (textmodetrees.py:238-246). -/
def shouldPrint (markedOnly : Bool) (t : HTree) (allnodes : List Bool) : Bool :=
  if !markedOnly then true else if allnodes.any id then true else t.comment

/-- The loop of `process_bundle` (textmodetreeshtml.py:95-102): the indices of the marked trees. `allnodes` is unbound (`none`) at
first; `none` as result is the UnboundLocalError. -/
def markedLoop (markedOnly : Bool) : Option (List Bool) → Nat → List HTree → Option (List Nat)
  | _, _, [] => some []
  | allnodes, i, t :: ts =>
    let allnodes := if t.inZone then some t.marked else allnodes
    match allnodes with
    | none => none
    | some ns =>
      (markedLoop markedOnly (some ns) (i + 1) ts).map fun r => if shouldPrint markedOnly t ns then i :: r else r

/-- `process_bundle` with `zones_in_rows` (textmodetreeshtml.py:91-111): the indices of the printed trees. -/
def htmlBundle (markedOnly wholeBundle : Bool) (ts : List HTree) : Option (List Nat) :=
  (markedLoop markedOnly none 0 ts).map fun r =>
    if r = [] then [] else if wholeBundle then List.range ts.length else r

/-- The tree is to be printed: it has a marked node or comment, or all trees are printed. -/
def HTree.wanted (markedOnly : Bool) (t : HTree) : Prop := markedOnly = false ∨ true ∈ t.marked ∨ t.comment = true

theorem shouldPrint_iff (markedOnly : Bool) (t : HTree) (ns : List Bool) :
    shouldPrint markedOnly t ns = true ↔ markedOnly = false ∨ true ∈ ns ∨ t.comment = true := by
  unfold shouldPrint
  cases markedOnly with
  | false => simp
  | true =>
    by_cases h : true ∈ ns
    · have : ns.any id = true := List.any_eq_true.2 ⟨true, h, rfl⟩
      simp [h]
    · have : ns.any id = false := by
        rw [List.any_eq_false]
        intro x hx hid
        exact h (by have : x = true := hid; rw [← this]; exact hx)
      simp [h]

/-- The last tree in the zones at or before the index `i`. -/
def LastIn (ts : List HTree) (i j : Nat) (u : HTree) : Prop :=
  j ≤ i ∧ ts[j]? = some u ∧ u.inZone = true ∧ ∀ (k : Nat) (v : HTree), j < k → k ≤ i → ts[k]? = some v → v.inZone = false

theorem markedLoop_spec (mo : Bool) (all : List HTree) : ∀ (ts : List HTree) (i : Nat) (ns : List Bool),
    ts = all.drop i → (∃ j u, j < i ∧ LastIn all (i - 1) j u ∧ u.marked = ns) →
    ∃ r, markedLoop mo (some ns) i ts = some r ∧ ∀ x, x ∈ r ↔ i ≤ x ∧ ∃ t, all[x]? = some t ∧
      ∃ j u, LastIn all x j u ∧ (mo = false ∨ true ∈ u.marked ∨ t.comment = true) := by
  intro ts
  induction ts with
  | nil =>
    intro i ns hts _
    refine ⟨[], rfl, ?_⟩
    intro x
    have hlen : all.length ≤ i := List.drop_eq_nil_iff.1 hts.symm
    constructor
    · intro h; cases h
    · rintro ⟨h1, t, ht, _⟩
      have := (List.getElem?_eq_some_iff.1 ht).1
      omega
  | cons t ts ih =>
    intro i ns hts hlast
    obtain ⟨j, u, hj, ⟨hl1, hl2, hl3, hl4⟩, hu⟩ := hlast
    have hti : all[i]? = some t := by
      have := congrArg (fun l : List HTree => l[0]?) hts
      simpa using this.symm
    have hts' : ts = all.drop (i + 1) := by
      have := congrArg List.tail hts
      simpa using this
    have hcur : ∃ j' u', LastIn all i j' u' ∧ (if t.inZone then some t.marked else some ns) = some u'.marked := by
      cases hz : t.inZone with
      | true => exact ⟨i, t, ⟨Nat.le_refl _, hti, hz, fun k v h1 h2 => by omega⟩, rfl⟩
      | false =>
        refine ⟨j, u, ⟨by omega, hl2, hl3, ?_⟩, by simp [hu]⟩
        intro k v h1 h2 h3
        by_cases hk : k = i
        · subst hk; rw [hti] at h3; injection h3 with h3; rw [← h3]; exact hz
        · exact hl4 k v h1 (by omega) h3
    obtain ⟨j', u', hlast', hns'⟩ := hcur
    obtain ⟨r, hr, hmem⟩ := ih (i + 1) u'.marked hts' ⟨j', u', by have := hlast'.1; omega, by simpa using hlast', rfl⟩
    refine ⟨if shouldPrint mo t u'.marked then i :: r else r, ?_, ?_⟩
    · simp only [markedLoop, hns', hr]
      rfl
    · have huniq : ∀ j u, LastIn all i j u → u = u' := by
        rintro j u ⟨h1, h2, h3, h4⟩
        obtain ⟨g1, g2, g3, g4⟩ := hlast'
        have : j = j' := by
          apply Nat.le_antisymm
          · exact Nat.not_lt.1 fun hlt => by
              have := g4 j u hlt h1 h2
              rw [h3] at this
              cases this
          · exact Nat.not_lt.1 fun hlt => by
              have := h4 j' u' hlt g1 g2
              rw [g3] at this
              cases this
        subst this
        rw [g2] at h2
        injection h2 with h2
        exact h2.symm
      have hhere : shouldPrint mo t u'.marked = true ↔
          ∃ t', all[i]? = some t' ∧ ∃ j u, LastIn all i j u ∧ (mo = false ∨ true ∈ u.marked ∨ t'.comment = true) := by
        rw [shouldPrint_iff]
        constructor
        · intro h; exact ⟨t, hti, j', u', hlast', h⟩
        · rintro ⟨t', ht', j, u, hju, h⟩
          rw [hti] at ht'
          injection ht' with ht'
          subst ht'
          rw [huniq j u hju] at h
          exact h
      intro x
      by_cases hs : shouldPrint mo t u'.marked = true
      · rw [if_pos hs, List.mem_cons, hmem]
        constructor
        · rintro (rfl | ⟨h1, h2⟩)
          · exact ⟨Nat.le_refl _, hhere.1 hs⟩
          · exact ⟨by omega, h2⟩
        · rintro ⟨h1, h2⟩
          by_cases hx : x = i
          · exact Or.inl hx
          · exact Or.inr ⟨by omega, h2⟩
      · rw [if_neg hs, hmem]
        constructor
        · rintro ⟨h1, h2⟩
          exact ⟨by omega, h2⟩
        · rintro ⟨h1, h2⟩
          refine ⟨?_, h2⟩
          by_cases hx : x = i
          · subst hx; exact absurd (hhere.2 h2) hs
          · omega

theorem markedLoop_first (mo : Bool) (t : HTree) (ts : List HTree) (hz : t.inZone = true) :
    ∃ r, markedLoop mo none 0 (t :: ts) = some r ∧ ∀ x, x ∈ r ↔ ∃ t', (t :: ts)[x]? = some t' ∧
      ∃ j u, LastIn (t :: ts) x j u ∧ (mo = false ∨ true ∈ u.marked ∨ t'.comment = true) := by
  have hl0 : LastIn (t :: ts) 0 0 t := ⟨Nat.le_refl _, rfl, hz, fun k v h1 h2 => by omega⟩
  obtain ⟨r, hr, hmem⟩ := markedLoop_spec mo (t :: ts) ts 1 t.marked rfl ⟨0, t, by omega, hl0, rfl⟩
  refine ⟨if shouldPrint mo t t.marked then 0 :: r else r, ?_, ?_⟩
  · simp only [markedLoop, hz, if_true]
    rw [hr]
    rfl
  · have hhere : shouldPrint mo t t.marked = true ↔ ∃ t', (t :: ts)[0]? = some t' ∧
        ∃ j u, LastIn (t :: ts) 0 j u ∧ (mo = false ∨ true ∈ u.marked ∨ t'.comment = true) := by
      rw [shouldPrint_iff]
      constructor
      · intro h; exact ⟨t, rfl, 0, t, hl0, h⟩
      · rintro ⟨t', ht', j, u, ⟨h1, h2, _⟩, h⟩
        have hj : j = 0 := by omega
        subst hj
        simp only [List.getElem?_cons_zero, Option.some.injEq] at ht' h2
        subst ht' h2
        exact h
    intro x
    by_cases hs : shouldPrint mo t t.marked = true
    · rw [if_pos hs, List.mem_cons, hmem]
      constructor
      · rintro (rfl | ⟨_, h2⟩)
        · exact hhere.1 hs
        · exact h2
      · intro h2
        by_cases hx : x = 0
        · exact Or.inl hx
        · exact Or.inr ⟨by omega, h2⟩
    · rw [if_neg hs, hmem]
      constructor
      · rintro ⟨_, h2⟩; exact h2
      · intro h2
        refine ⟨?_, h2⟩
        by_cases hx : x = 0
        · subst hx; exact absurd (hhere.2 h2) hs
        · omega

/-- **C183.** If all trees of the bundle are in the zones, the printed trees are those with a mark, or all of them if the whole
bundle is asked for and one has a mark. -/
theorem C183_all_zones (mo wb : Bool) (ts : List HTree) (hz : ∀ t ∈ ts, t.inZone = true) :
    ∃ r, htmlBundle mo wb ts = some r ∧ ∀ x, x ∈ r ↔ ∃ t, ts[x]? = some t ∧
      (t.wanted mo ∨ (wb = true ∧ ∃ u ∈ ts, u.wanted mo)) := by
  cases ts with
  | nil => exact ⟨[], rfl, fun x => ⟨fun h => (by cases h), fun ⟨t, ht, _⟩ => (by cases ht)⟩⟩
  | cons t ts =>
    obtain ⟨r, hr, hmem⟩ := markedLoop_first mo t ts (hz t (by simp))
    have hmem' : ∀ x, x ∈ r ↔ ∃ t', (t :: ts)[x]? = some t' ∧ t'.wanted mo := by
      intro x
      rw [hmem]
      constructor
      · rintro ⟨t', ht', j, u, ⟨h1, h2, h3, h4⟩, h⟩
        have hj : j = x := by
          apply Nat.le_antisymm h1
          exact Nat.not_lt.1 fun hlt => by
            have := h4 x t' hlt (Nat.le_refl _) ht'
            rw [hz t' (List.mem_of_getElem? ht')] at this
            cases this
        subst hj
        rw [ht'] at h2
        injection h2 with h2
        subst h2
        exact ⟨t', ht', h⟩
      · rintro ⟨t', ht', h⟩
        exact ⟨t', ht', x, t', ⟨Nat.le_refl _, ht', hz t' (List.mem_of_getElem? ht'), fun k v h1 h2 => by omega⟩, h⟩
    refine ⟨_, by rw [htmlBundle, hr]; rfl, ?_⟩
    intro x
    show x ∈ (if r = [] then [] else if wb = true then List.range (t :: ts).length else r) ↔ _
    by_cases hr0 : r = []
    · rw [if_pos hr0]
      have hnone : ∀ u ∈ t :: ts, ¬ u.wanted mo := by
        intro u hu hw
        obtain ⟨i, hi⟩ := List.getElem?_of_mem hu
        have := (hmem' i).2 ⟨u, hi, hw⟩
        rw [hr0] at this
        cases this
      constructor
      · intro h; cases h
      · rintro ⟨t', ht', h | ⟨_, u, hu, h⟩⟩
        · exact absurd h (hnone t' (List.mem_of_getElem? ht'))
        · exact absurd h (hnone u hu)
    · rw [if_neg hr0]
      obtain ⟨y, hy⟩ := List.exists_mem_of_ne_nil _ hr0
      obtain ⟨u, hu, hw⟩ := (hmem' y).1 hy
      cases wb with
      | false =>
        rw [if_neg (by decide), hmem']
        simp
      | true =>
        rw [if_pos rfl, List.mem_range]
        constructor
        · intro hx
          exact ⟨_, List.getElem?_eq_getElem hx, Or.inr ⟨rfl, u, List.mem_of_getElem? hu, hw⟩⟩
        · rintro ⟨t', ht', _⟩
          exact (List.getElem?_eq_some_iff.1 ht').1

theorem markedLoop_order (mo : Bool) : ∀ (ts : List HTree) (a : Option (List Bool)) (i : Nat) (r : List Nat),
    markedLoop mo a i ts = some r → r.Pairwise (· < ·) ∧ ∀ x ∈ r, i ≤ x := by
  intro ts
  induction ts with
  | nil => intro a i r h; simp only [markedLoop, Option.some.injEq] at h; subst h; simp
  | cons t ts ih =>
    intro a i r h
    simp only [markedLoop] at h
    split at h
    · cases h
    · rename_i ns _
      obtain ⟨r', hr', rfl⟩ := Option.map_eq_some_iff.1 h
      obtain ⟨h1, h2⟩ := ih _ _ _ hr'
      split
      · refine ⟨List.pairwise_cons.2 ⟨fun x hx => ?_, h1⟩, ?_⟩
        · have := h2 x hx; omega
        · intro x hx
          rcases List.mem_cons.1 hx with rfl | hx
          · exact Nat.le_refl _
          · have := h2 x hx; omega
      · exact ⟨h1, fun x hx => by have := h2 x hx; omega⟩

/-- **C183.** The trees are printed in their order in the bundle, each once. -/
theorem C183_order (mo wb : Bool) (ts : List HTree) (r : List Nat) (h : htmlBundle mo wb ts = some r) :
    r.Pairwise (· < ·) := by
  obtain ⟨r', hr', rfl⟩ := Option.map_eq_some_iff.1 h
  split
  · exact List.Pairwise.nil
  · split
    · exact List.pairwise_lt_range
    · exact (markedLoop_order mo ts none 0 r' hr').1

/-- **C183, violated.** If the first tree of the bundle is not in the zones, an exception is raised, even if no tree of the bundle
is to be printed. -/
theorem C183_first_violated (mo wb : Bool) (t : HTree) (ts : List HTree) (hz : t.inZone = false) :
    htmlBundle mo wb (t :: ts) = none := by
  simp [htmlBundle, markedLoop, hz]

/-- **C183, violated.** If the first tree of the bundle is in the zones, a tree outside the zones is printed whenever all trees are
printed or the last tree in the zones before it has a mark, even if it has no mark itself. -/
theorem C183_zone_violated (mo wb : Bool) (t : HTree) (ts : List HTree) (hz : t.inZone = true) {x j : Nat} {v u : HTree}
    (hv : (t :: ts)[x]? = some v) (hl : LastIn (t :: ts) x j u) (hm : mo = false ∨ true ∈ u.marked) :
    ∃ r, htmlBundle mo wb (t :: ts) = some r ∧ x ∈ r := by
  obtain ⟨r, hr, hmem⟩ := markedLoop_first mo t ts hz
  have hx : x ∈ r := (hmem x).2 ⟨v, hv, j, u, hl, hm.elim Or.inl (fun h => Or.inr (Or.inl h))⟩
  refine ⟨_, by rw [htmlBundle, hr]; rfl, ?_⟩
  show x ∈ (if r = [] then [] else if wb = true then List.range (t :: ts).length else r)
  rw [if_neg (fun h => by rw [h] at hx; cases hx)]
  split
  · exact List.mem_range.2 (List.getElem?_eq_some_iff.1 hv).1
  · exact hx

example : htmlBundle true false [⟨true, [false, true], false⟩, ⟨true, [false], false⟩, ⟨true, [false], true⟩] = some [0, 2] := by
  decide
example : htmlBundle true true [⟨true, [false, true], false⟩, ⟨true, [false], false⟩, ⟨true, [false], true⟩] = some [0, 1, 2] := by
  decide
example : htmlBundle true false [⟨true, [false, true], false⟩, ⟨false, [false], false⟩] = some [0, 1] := by decide
example : htmlBundle true false [⟨false, [false, true], false⟩, ⟨true, [true], false⟩] = none := by decide

end Verif.Write
