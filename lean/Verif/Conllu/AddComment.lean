import Verif.Conllu.MetaProps
import Verif.Text.SpaceAfter
import Verif.Text.Comply

/-!
# Property C150: adding comments and repairing the text (udapi/core/root.py, udapi/block/ud/convert1to2.py)

The lines of a comment are those that write.Conllu prints (`tree.comment.splitlines()` without the empty ones).
-/

namespace Verif.Conllu.AddComment
open Verif.Py Verif.Conllu.Meta
open Verif.Text.Comply (normal)

/-- `root.add_comment(string)` (root.py:225-230) -/
def addComment (comment : Option Str) (string : Str) : Str :=
  match comment with
  | none => string
  | some c => rstrip c ++ ['\n', ' '] ++ string

/-- `if_missing` of `get_sentence` -/
inductive Sentence
  | text (s : Str) (warned : Bool)
  | runtimeError
  deriving DecidableEq

/-- `root.get_sentence(if_missing)` (root.py:204-223) -/
def getSentence (stored : Option Str) (computed : Str) (ifMissing : Str) : Sentence :=
  match stored with
  | some s => .text s false
  | none =>
    if ifMissing = ['f', 'a', 't', 'a', 'l'] then .runtimeError
    else
      let warned := List.isPrefixOf ['w', 'a', 'r', 'n'] ifMissing
      if List.isSuffixOf ['d', 'e', 't', 'o', 'k', 'e', 'n', 'i', 'z', 'e'] ifMissing then .text computed warned
      else .text [] warned

def orig : Str := ['T', 'o', 'D', 'o', 'O', 'r', 'i', 'g', 'T', 'e', 'x', 't', ' ', '=', ' ']

/-- `fix_text(root)` (convert1to2.py:338-349); the pair is `root.text` and `root.comment`. -/
def fixText (computed : Str) (s : Option Str × Option Str) : Option Str × Option Str :=
  match s.1 with
  | none => (some computed, s.2)
  | some stored =>
    if stored ≠ computed then
      if normal stored ≠ computed then (some computed, some (addComment s.2 (orig ++ stored)))
      else s
    else s

/-! ## What the properties say -/

/-- The lines that the writer prints. -/
def lines (c : Str) : List Str := (splitlines [] c).filter (fun l => decide (l ≠ []))

def linesOf (c : Option Str) : List Str := (c.map lines).getD []

/-- The last character is white space. -/
def EndsWs (l : Str) : Prop := ∃ l' x, l = l' ++ [x] ∧ isWs x = true

/-! ## Lines -/

theorem isWs_of_break {c : Char} (h : isBreak c = true) : isWs c = true := by
  simp only [isBreak, isWs, Bool.or_eq_true, Bool.and_eq_true, decide_eq_true_eq, beq_iff_eq] at h ⊢
  omega

/-- The nonempty lines, the current line being `cur` (reversed). -/
def ne (cur s : Str) : List Str := (splitlines cur s).filter (fun l => decide (l ≠ []))

theorem splitlines_newline (x : Str) : ∀ (d cur : Str),
    splitlines cur (d ++ '\n' :: x) = splitlines cur (d ++ ['\n']) ++ splitlines [] x := by
  intro d
  induction d with
  | nil =>
    intro cur
    simp only [List.nil_append]
    rw [splitlines, splitlines, if_neg (by simp), if_pos (by decide), if_neg (by simp), if_pos (by decide)]
    rfl
  | cons c d ih =>
    intro cur
    rw [List.cons_append, List.cons_append, splitlines, splitlines]
    have hh : (d ++ '\n' :: x).head? = (d ++ ['\n']).head? := by cases d <;> rfl
    rw [hh]
    split
    · exact ih cur
    · split
      · rw [ih []]; rfl
      · exact ih (c :: cur)

theorem sl_break {b : Char} (hb : isBreak b = true) (cur : Str) : splitlines cur [b] = [cur.reverse] := by
  simp [splitlines, hb]

theorem ne_break {b : Char} (hb : isBreak b = true) : ∀ (s cur : Str), ne cur (s ++ [b]) = ne cur s := by
  intro s
  unfold ne
  induction s with
  | nil =>
    intro cur
    rw [List.nil_append, sl_break hb, splitlines]
    by_cases hc : cur = []
    · subst hc; rfl
    · rw [if_neg hc]
  | cons c s ih =>
    intro cur
    cases s with
    | nil =>
      have e1 : splitlines cur [c] = if isBreak c then [cur.reverse] else splitlines (c :: cur) [] := by
        simp [splitlines]
      have e2 : splitlines cur ([c] ++ [b]) = if c = '\r' ∧ b = '\n' then [cur.reverse]
          else if isBreak c then cur.reverse :: splitlines [] [b] else splitlines (c :: cur) [b] := by
        rw [List.cons_append, splitlines, List.nil_append, sl_break hb]
        simp
      rw [e1, e2]
      split
      · rename_i hc
        rw [hc.1, if_pos (by decide)]
      · split
        · rw [sl_break hb, show [List.reverse cur, List.reverse []] = [List.reverse cur] ++ [[]] from rfl, List.filter_append]
          exact List.append_nil _
        · exact ih (c :: cur)
    | cons d s =>
      rw [List.cons_append, splitlines, splitlines]
      have hh : ((d :: s) ++ [b]).head? = (d :: s).head? := rfl
      rw [hh]
      split
      · exact ih cur
      · split
        · rw [List.filter_cons, List.filter_cons, ih []]
        · exact ih (c :: cur)

theorem ne_breaks : ∀ (w s : Str), (∀ c ∈ w, isBreak c = true) → ∀ cur, ne cur (s ++ w) = ne cur s := by
  intro w
  induction w with
  | nil => intro s _ cur; rw [List.append_nil]
  | cons b w ih =>
    intro s h cur
    rw [show s ++ b :: w = (s ++ [b]) ++ w by simp, ih _ (fun c hc => h c (List.mem_cons_of_mem _ hc)),
      ne_break (h b List.mem_cons_self)]

theorem ne_last {x : Char} (hx : isBreak x = false) : ∀ (s cur : Str), ∃ L l, ne cur (s ++ [x]) = L ++ [l ++ [x]] := by
  intro s
  unfold ne
  have hr : x ≠ '\r' := by rintro rfl; exact absurd hx (by decide)
  induction s with
  | nil =>
    intro cur
    refine ⟨[], cur.reverse, ?_⟩
    simp [splitlines, hx]
  | cons c s ih =>
    intro cur
    rw [List.cons_append, splitlines]
    split
    · exact ih cur
    · split
      · obtain ⟨L, l, e⟩ := ih []
        rw [List.filter_cons]
        split
        · exact ⟨cur.reverse :: L, l, by rw [e]; rfl⟩
        · exact ⟨L, l, e⟩
      · exact ih (c :: cur)

theorem rstrip_last {s d : Str} {x : Char} (h : rstrip s = d ++ [x]) : isWs x = false := by
  unfold rstrip at h
  have h' := congrArg List.reverse h
  rw [List.reverse_reverse, List.reverse_append] at h'
  have : (s.reverse.dropWhile isWs).head? = some x := by rw [h']; rfl
  have hh := List.head?_dropWhile_not isWs s.reverse
  rw [this] at hh
  simpa using hh

theorem splitlines_plain : ∀ (u cur : Str), (∀ x ∈ u, isBreak x = false) → cur ++ u ≠ [] → splitlines cur u = [cur.reverse ++ u] := by
  intro u
  induction u with
  | nil => intro cur _ hne; rw [splitlines, if_neg (by simpa using hne), List.append_nil]
  | cons y u ih =>
    intro cur hu hne
    have hy := hu y List.mem_cons_self
    rw [splitlines, if_neg, if_neg (by simp [hy]), ih (y :: cur) (fun z hz => hu z (List.mem_cons_of_mem _ hz)) (by simp)]
    · simp
    · rintro ⟨rfl, _⟩; exact absurd hy (by decide)

theorem lines_plain {u : Str} (h : ∀ x ∈ u, isBreak x = false) (hne : u ≠ []) : lines u = [u] := by
  unfold lines
  rw [splitlines_plain u [] h (by simpa using hne)]
  simp [hne]

theorem lines_add {c t : Str} (ht : ∀ x ∈ t, isBreak x = false) : lines (addComment (some c) t) = lines (rstrip c) ++ [' ' :: t] := by
  show lines (rstrip c ++ ['\n', ' '] ++ t) = _
  unfold lines
  rw [show rstrip c ++ ['\n', ' '] ++ t = rstrip c ++ '\n' :: (' ' :: t) by simp, splitlines_newline, List.filter_append]
  have e1 := ne_break (b := '\n') (by decide) (rstrip c) []
  unfold ne at e1
  rw [e1]
  congr 1
  exact lines_plain (u := ' ' :: t) (by
    intro x hx
    rcases List.mem_cons.1 hx with rfl | hx
    · decide
    · exact ht x hx) (by simp)

theorem last_rstrip (c : Str) : ∀ l, (lines (rstrip c)).getLast? = some l → ¬ EndsWs l := by
  intro l hl
  rcases List.eq_nil_or_concat (rstrip c) with h | ⟨d, x, h⟩
  · rw [h] at hl; cases hl
  · rw [List.concat_eq_append] at h
    have hx := rstrip_last h
    have hb : isBreak x = false := by
      cases hb : isBreak x with
      | false => rfl
      | true => rw [isWs_of_break hb] at hx; cases hx
    obtain ⟨L, l', e⟩ := ne_last hb d []
    have e' : lines (rstrip c) = L ++ [l' ++ [x]] := by rw [h]; exact e
    rw [e', List.getLast?_append] at hl
    simp only [List.getLast?_singleton, Option.some_or, Option.some.injEq] at hl
    rintro ⟨l2, y, e2, hy⟩
    rw [← hl] at e2
    have := (List.append_inj' e2 rfl).2
    simp only [List.cons.injEq, and_true] at this
    rw [← this, hx] at hy
    cases hy

theorem split_ws (w : Str) (hw : ∀ c ∈ w, isWs c = true) :
    (∀ c ∈ w, isBreak c = true) ∨ ∃ w1 x w2, w = w1 ++ [x] ++ w2 ∧ isBreak x = false ∧ isWs x = true ∧ ∀ c ∈ w2, isBreak c = true := by
  induction w with
  | nil => exact Or.inl (by simp)
  | cons c w ih =>
    rcases ih (fun d hd => hw d (List.mem_cons_of_mem _ hd)) with h | ⟨w1, x, w2, e, h1, h2, h3⟩
    · cases hb : isBreak c with
      | true =>
        left
        intro d hd
        rcases List.mem_cons.1 hd with rfl | hd
        · exact hb
        · exact h d hd
      | false => exact Or.inr ⟨[], c, w, rfl, hb, hw c List.mem_cons_self, h⟩
    · exact Or.inr ⟨c :: w1, x, w2, by rw [e]; rfl, h1, h2, h3⟩

/-- **C150 (adding a comment).** A line is added after the lines of the comment. The other lines are kept
exactly if the last one does not end with white space. -/
theorem C150_add {c t : Str} (ht : ∀ x ∈ t, isBreak x = false) :
    lines (addComment (some c) t) = lines c ++ [' ' :: t] ↔ ∀ l, (lines c).getLast? = some l → ¬ EndsWs l := by
  rw [lines_add ht]
  constructor
  · intro h
    rw [← List.append_cancel_right h]
    exact last_rstrip c
  · intro h
    congr 1
    obtain ⟨w, e, hw⟩ := Verif.Text.rstrip_split c
    rcases split_ws w hw with hb | ⟨w1, x, w2, ew, h1, h2, h3⟩
    · have := ne_breaks w (rstrip c) hb []
      rw [← e] at this
      exact this.symm
    · exfalso
      obtain ⟨L, l, el⟩ := ne_last h1 (rstrip c ++ w1) []
      have e2 := ne_breaks w2 (rstrip c ++ w1 ++ [x]) h3 []
      have e3 : c = rstrip c ++ w1 ++ [x] ++ w2 := by
        have := e
        rw [ew] at this
        simpa using this
      rw [← e3, el] at e2
      exact h (l ++ [x]) (by show (ne [] c).getLast? = _; rw [e2]; simp) ⟨l, x, rfl, h2⟩

/-- **C150 violated (adding a comment).** If the last line ends with white space, this line is not kept:
it is stripped or missing. -/
theorem C150_add_violated {c t : Str} (ht : ∀ x ∈ t, isBreak x = false) {L : List Str} {l : Str} (hl : lines c = L ++ [l]) (he : EndsWs l) :
    lines (addComment (some c) t) ≠ L ++ [l, ' ' :: t] := by
  intro h
  have h' : lines (addComment (some c) t) = lines c ++ [' ' :: t] := by rw [h, hl]; simp
  exact (C150_add ht).1 h' l (by rw [hl]; simp) he

/-- **C150 (free comments).** Apart from the added one, the free comments stay. -/
theorem C150_free_partial {c t : Str} (ht : ∀ x ∈ t, isBreak x = false) (hl : ∀ l, (lines c).getLast? = some l → ¬ EndsWs l) :
    freeComments (addComment (some c) t) = freeComments c ++ [' ' :: t] := by
  have h := (C150_add (c := c) ht).2 hl
  have hf : ∀ d, freeComments d = (lines d).filter (fun l => decide (l ∉ placeholders)) := by
    intro d
    unfold freeComments lines
    rw [List.filter_filter]
    apply List.filter_congr
    intro l _
    simp [Bool.decide_and]
  rw [hf, hf, h, List.filter_append]
  have e : (' ' :: t) ∉ placeholders := by
    intro hm
    simp [placeholders, pSentId, pText, pNewdoc, pNewpar, pEntity] at hm
  rw [List.filter_cons, if_pos (by rw [decide_eq_true_eq]; exact e)]
  rfl

/-- **C150 (repairing the text).** Afterwards the text is the one computed from the words, up to white space.
A text that differs is kept in the last line of the comment; otherwise the comment stays. A second run changes nothing. -/
theorem C150_text (computed : Str) (s : Option Str × Option Str) :
    let s' := fixText computed s
    (∃ u, s'.1 = some u ∧ (u = computed ∨ normal u = computed) ∧ (u ≠ computed → s.1 = some u)) ∧
    (∀ old, s.1 = some old → old ≠ computed → normal old ≠ computed → (∀ x ∈ old, isBreak x = false) →
      ∃ L l, linesOf s'.2 = L ++ [l] ∧ (l = orig ++ old ∨ l = ' ' :: (orig ++ old)) ∧
        ((∀ l, (linesOf s.2).getLast? = some l → ¬ EndsWs l) → L = linesOf s.2)) ∧
    ((∀ old, s.1 = some old → old = computed ∨ normal old = computed) → s'.2 = s.2) ∧
    fixText computed s' = s' := by
  obtain ⟨t, c⟩ := s
  have hbr : ∀ old : Str, (∀ x ∈ old, isBreak x = false) → ∀ x ∈ orig ++ old, isBreak x = false := by
    intro old ho x hx
    rcases List.mem_append.1 hx with hx | hx
    · have : ∀ x ∈ orig, isBreak x = false := by decide
      exact this x hx
    · exact ho x hx
  cases t with
  | none =>
    refine ⟨⟨computed, rfl, Or.inl rfl, fun h => absurd rfl h⟩, ?_, fun _ => rfl, ?_⟩
    · intro old h; cases h
    · simp [fixText]
  | some old =>
    by_cases h1 : old = computed
    · have e : fixText computed (some old, c) = (some old, c) := by simp [fixText, h1]
      simp only [e]
      refine ⟨⟨old, rfl, Or.inl h1, fun _ => rfl⟩, ?_, fun _ => trivial, trivial⟩
      intro o h h2
      cases h
      exact absurd h1 h2
    · by_cases h2 : normal old = computed
      · have e : fixText computed (some old, c) = (some old, c) := by simp [fixText, h2]
        simp only [e]
        refine ⟨⟨old, rfl, Or.inr h2, fun _ => rfl⟩, ?_, fun _ => trivial, trivial⟩
        intro o h _ h3
        cases h
        exact absurd h2 h3
      · have e : fixText computed (some old, c) = (some computed, some (addComment c (orig ++ old))) := by simp [fixText, h1, h2]
        simp only [e]
        refine ⟨⟨computed, rfl, Or.inl rfl, fun h => absurd rfl h⟩, ?_, ?_, by simp [fixText]⟩
        · intro o h _ _ ho
          cases h
          cases c with
          | none =>
            refine ⟨[], orig ++ old, ?_, Or.inl rfl, fun _ => rfl⟩
            show lines (orig ++ old) = _
            have := lines_plain (hbr old ho) (by simp [orig])
            rw [this]; rfl
          | some c => exact ⟨lines (rstrip c), _, lines_add (hbr old ho), Or.inr rfl, fun h => by
              have h' := (C150_add (c := c) (hbr old ho)).2 h
              rw [lines_add (hbr old ho)] at h'
              exact List.append_cancel_right h'⟩
        · intro h
          rcases h old rfl with h | h
          · exact absurd h h1
          · exact absurd h h2

/-- **C150 (the sentence).** `get_sentence` returns the stored text; by default the computed one if there is none.
After `fix_text` no mode fails or warns. -/
theorem C150_sentence (computed : Str) (s : Option Str × Option Str) (mode : Str) :
    (∀ t, s.1 = some t → getSentence s.1 computed mode = .text t false) ∧
    (s.1 = none → getSentence s.1 computed ['d', 'e', 't', 'o', 'k', 'e', 'n', 'i', 'z', 'e'] = .text computed false ∧
      getSentence s.1 computed ['e', 'm', 'p', 't', 'y'] = .text [] false) ∧
    (∃ u, (u = computed ∨ normal u = computed) ∧ getSentence (fixText computed s).1 computed mode = .text u false) := by
  refine ⟨?_, ?_, ?_⟩
  · intro t h; rw [h]; rfl
  · intro h; rw [h]; exact ⟨rfl, rfl⟩
  · obtain ⟨⟨u, h1, h2, _⟩, _⟩ := C150_text computed s
    exact ⟨u, h2, by rw [h1]; rfl⟩

example : lines (addComment (some [' ', 'a', '\n', ' ', 'b', '\n']) ['c']) = [[' ', 'a'], [' ', 'b'], [' ', 'c']] := by decide
example : lines (addComment (some [' ', 'a', ' ', '\n']) ['c']) = [[' ', 'a'], [' ', 'c']] := by decide
example : lines (addComment (some [' ', 'a', '\n', ' ', '\n']) ['c']) = [[' ', 'a'], [' ', 'c']] := by decide
example : fixText ['a', ' ', 'b'] (some ['a', ' ', ' ', 'b'], some []) = (some ['a', ' ', ' ', 'b'], some []) := by decide
example : (fixText ['a', ' ', 'b'] (some ['a', 'b'], some [' ', 'x', '\n'])).1 = some ['a', ' ', 'b'] ∧
    linesOf (fixText ['a', ' ', 'b'] (some ['a', 'b'], some [' ', 'x', '\n'])).2 = [[' ', 'x'], ' ' :: (orig ++ ['a', 'b'])] := by decide

end Verif.Conllu.AddComment
