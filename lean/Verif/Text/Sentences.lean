import Verif.Py.Text
import Verif.Py.Str

/-!
# Property C157: plain text sentences (udapi/block/read/sentences.py, read/text.py, read/addsentences.py, write/sentences.py)

A file is the string that Python's text mode delivers, with `\n` at line ends. One file and one document; every bundle has one tree, and
the bundles have the numbers 1, 2, 3 and so on (C05). A tree is its text (what `get_sentence` returns, C150) and whether `newdoc` and `newpar` are set.
-/

namespace Verif.Text.Sentences
open Verif.Py

/-- `readline()` until the end of the file: the lines with their line ends -/
def lines : Str → List Str
  | [] => []
  | c :: s =>
    if c = '\n' then ['\n'] :: lines s
    else
      match lines s with
      | [] => [[c]]
      | l :: ls => (c :: l) :: ls

/-- `line in {'\n', '\r\n'}` -/
def blank (l : Str) : Bool := decide (l = ['\n']) || decide (l = ['\r', '\n'])

/-- `line.rstrip(chars)` -/
def rstripSet (chars : List Char) (s : Str) : Str := (s.reverse.dropWhile (fun c => chars.contains c)).reverse

/-- The parameters of read.Sentences -/
structure Opt where
  ignore : Bool
  newdocIf : Bool
  chars : List Char

structure T where
  text : Str
  newdoc : Bool
  deriving DecidableEq, Repr

/-- `read_tree()` of read.Sentences until it returns `None` (sentences.py:38-57); the flag is `preceded_by_empty_line`. -/
def readAll (o : Opt) : Bool → List Str → List T
  | _, [] => []
  | pre, l :: ls =>
    if (o.ignore || o.newdocIf) && blank l then readAll o true ls
    else ⟨rstripSet o.chars l, o.newdocIf && pre⟩ :: readAll o false ls

/-- read.Sentences on one file (sentences.py:20-63); the errors are the `ValueError` of `__init__` and the `IndexError` of
`after_process_document`. -/
def readSentences (o : Opt) (file : Str) : Except Unit (List T) :=
  if o.ignore = true ∧ o.newdocIf = true then .error ()
  else
    let ts := readAll o false (lines file)
    if o.newdocIf then
      match ts with
      | [] => .error ()
      | t :: ts => .ok ({ t with newdoc := true } :: ts)
    else .ok ts

/-- A tree to be written. -/
structure W where
  text : Str
  newdoc : Bool
  newpar : Bool

/-- `process_tree(tree)` of write.Sentences (write/sentences.py:34-39) for all bundles; `k` is `tree.bundle.number`. -/
def writeAll (nd np : Bool) : Nat → List W → Str
  | _, [] => []
  | k, w :: ws =>
    (if nd = true ∧ w.newdoc = true ∧ k > 1 then ['\n'] else []) ++ (if np = true ∧ w.newpar = true ∧ k > 1 then ['\n'] else []) ++
      (w.text ++ ['\n']) ++ writeAll nd np (k + 1) ws

/-- write.Sentences for the whole document -/
def writeSentences (nd np : Bool) (ws : List W) : Str := writeAll nd np 1 ws

/-- `read_tree()` of read.Text until it returns `None` (text.py:31-57); `acc` is `lines`. -/
def readText (chars : List Char) : List Str → List Str → List Str
  | acc, [] => if acc = [] then [] else [join [' '] acc]
  | acc, l :: ls =>
    if blank l then
      if acc = [] then readText chars [] ls else join [' '] acc :: readText chars [] ls
    else readText chars (acc ++ [rstripSet chars l]) ls

/-- The text and the comment of a tree. -/
structure C where
  text : Option Str
  comment : Str
  deriving DecidableEq, Repr

/-- The loop of `process_document` of read.AddSentences (addsentences.py:44-53): the trees, the rest of the file, and whether the
`IOError` was raised; `into = none` is `into='text'`. -/
def addSentences (into : Option Str) : List C → List Str → List C × List Str × Bool
  | [], ls => ([], ls, false)
  | c :: cs, [] => (c :: cs, [], true)
  | c :: cs, l :: ls =>
    let c' : C := match into with
      | none => { c with text := some (rstrip l) }
      | some n => { c with comment := c.comment ++ ([' '] ++ n ++ [' ', '=', ' '] ++ rstrip l ++ ['\n']) }
    let res := addSentences into cs ls
    (c' :: res.1, res.2)

/-! ## What the properties say -/

/-- The string is one line. -/
def OneLine (s : Str) : Prop := '\n' ∉ s

/-- The line is not empty: something stands before the line end. -/
def Full (s : Str) : Prop := OneLine s ∧ s ≠ [] ∧ s ≠ ['\r']

/-- The string does not end with one of the characters. -/
def NoEnd (chars : List Char) (s : Str) : Prop := ∀ c, s.getLast? = some c → c ∉ chars

/-! ## Lemmas -/

theorem lines_line {s r : Str} (h : OneLine s) : lines (s ++ '\n' :: r) = (s ++ ['\n']) :: lines r := by
  induction s with
  | nil => rw [List.nil_append, lines, if_pos rfl]; rfl
  | cons c s ih =>
    have hc : c ≠ '\n' := fun e => h (by rw [e]; exact List.mem_cons_self)
    rw [List.cons_append, lines, if_neg hc, ih (fun hm => h (List.mem_cons_of_mem _ hm))]
    rfl

theorem lines_flat (ls : List Str) (h : ∀ l ∈ ls, OneLine l) : lines (ls.flatMap (fun l => l ++ ['\n'])) = ls.map (fun l => l ++ ['\n']) := by
  induction ls with
  | nil => rfl
  | cons l ls ih =>
    rw [List.flatMap_cons, List.append_assoc, List.singleton_append, lines_line (h l List.mem_cons_self), ih (fun m hm => h m (List.mem_cons_of_mem _ hm))]
    rfl

theorem rstripSet_line {chars : List Char} {s : Str} (hn : '\n' ∈ chars) (hs : NoEnd chars s) : rstripSet chars (s ++ ['\n']) = s := by
  unfold rstripSet
  rw [List.reverse_append, List.reverse_singleton, List.singleton_append, List.dropWhile_cons, if_pos (by simpa using hn), dropWhile_of_head, List.reverse_reverse]
  intro c hc
  rw [List.head?_reverse] at hc
  simpa using hs c hc

theorem blank_full {s : Str} (h : Full s) : blank (s ++ ['\n']) = false := by
  obtain ⟨_, h2, h3⟩ := h
  unfold blank
  simp only [Bool.or_eq_false_iff, decide_eq_false_iff_not]
  refine ⟨fun e => ?_, fun e => ?_⟩
  · cases s with
    | nil => exact h2 rfl
    | cons c s => have := congrArg List.length e; simp at this
  · apply h3
    have : s ++ ['\n'] = ['\r'] ++ ['\n'] := e
    exact List.append_cancel_right this

/-! ## Theorems -/

/-- **C157, one sentence per line.** With no options, what write.Sentences writes is read back: the same number of sentences with the
same texts, if these are single lines that do not end with a character that is stripped. No sentence starts a document. -/
theorem C157_roundtrip {ws : List W} {chars : List Char} (hn : '\n' ∈ chars) (h : ∀ w ∈ ws, OneLine w.text ∧ NoEnd chars w.text) :
    readSentences ⟨false, false, chars⟩ (writeSentences false false ws) = .ok (ws.map (fun w => ⟨w.text, false⟩)) := by
  have hw : ∀ (ws : List W) (k : Nat), writeAll false false k ws = (ws.map (·.text)).flatMap (fun l => l ++ ['\n']) := by
    intro ws
    induction ws with
    | nil => intro k; rfl
    | cons w ws ih => intro k; simp [writeAll, ih (k + 1)]
  have hr : ∀ (ls : List Str) (b : Bool), readAll ⟨false, false, chars⟩ b ls = ls.map (fun l => ⟨rstripSet chars l, false⟩) := by
    intro ls
    induction ls with
    | nil => intro b; rfl
    | cons l ls ih => intro b; simp [readAll, ih]
  have h1 : ∀ l ∈ ws.map (·.text), OneLine l := by
    intro l hl
    obtain ⟨w, hw, rfl⟩ := List.mem_map.1 hl
    exact (h w hw).1
  simp only [readSentences, writeSentences, hw, lines_flat _ h1, hr]
  rw [if_neg (by simp), if_neg (by simp), List.map_map, List.map_map]
  congr 1
  apply List.map_congr_left
  intro w hw
  simp only [Function.comp]
  rw [rstripSet_line hn (h w hw).2]

/-- **C157, documents.** With `newdoc=1` of the writer and `newdoc_if_empty_line=1` of the reader also the starts of documents are read
back, for texts that are not empty; the first sentence always starts a document. -/
theorem C157_newdoc {ws : List W} {chars : List Char} (hn : '\n' ∈ chars) (hne : ws ≠ []) (h : ∀ w ∈ ws, Full w.text ∧ NoEnd chars w.text) :
    ∃ ts, readSentences ⟨false, true, chars⟩ (writeSentences true false ws) = .ok ts ∧ ts.map (·.text) = ws.map (·.text) ∧
      ∀ (k : Nat) (t : T) (w : W), ts[k]? = some t → ws[k]? = some w → (t.newdoc = true ↔ k = 0 ∨ w.newdoc = true) := by
  have key : ∀ (ws : List W) (k : Nat), k ≥ 1 → (∀ w ∈ ws, Full w.text ∧ NoEnd chars w.text) →
      readAll ⟨false, true, chars⟩ false (lines (writeAll true false (k + 1) ws)) = ws.map (fun w => ⟨w.text, w.newdoc⟩) := by
    intro ws
    induction ws with
    | nil => intro k _ _; rfl
    | cons w ws ih =>
      intro k hk h
      have ih' := ih (k + 1) (by omega) (fun v hv => h v (List.mem_cons_of_mem _ hv))
      obtain ⟨hf, he⟩ := h w List.mem_cons_self
      have hl : lines (w.text ++ '\n' :: writeAll true false (k + 1 + 1) ws) = (w.text ++ ['\n']) :: lines (writeAll true false (k + 1 + 1) ws) := lines_line hf.1
      have hread : ∀ b, readAll ⟨false, true, chars⟩ b ((w.text ++ ['\n']) :: lines (writeAll true false (k + 1 + 1) ws)) =
          ⟨w.text, b⟩ :: ws.map (fun w => ⟨w.text, w.newdoc⟩) := by
        intro b
        rw [readAll, blank_full hf, ih', rstripSet_line hn he]
        simp
      cases hd : w.newdoc with
      | false =>
        have : writeAll true false (k + 1) (w :: ws) = w.text ++ '\n' :: writeAll true false (k + 1 + 1) ws := by simp [writeAll, hd]
        rw [this, hl, hread, List.map_cons, hd]
      | true =>
        have : writeAll true false (k + 1) (w :: ws) = '\n' :: (w.text ++ '\n' :: writeAll true false (k + 1 + 1) ws) := by
          simp [writeAll, hd, show 0 < k from hk]
        rw [this, lines, if_pos rfl, readAll, if_pos (by simp [blank]), hl, hread, List.map_cons, hd]
  cases ws with
  | nil => exact absurd rfl hne
  | cons w ws =>
    obtain ⟨hf, he⟩ := h w List.mem_cons_self
    have : writeSentences true false (w :: ws) = w.text ++ '\n' :: writeAll true false (1 + 1) ws := by simp [writeSentences, writeAll]
    have hall : readAll ⟨false, true, chars⟩ false (lines (writeSentences true false (w :: ws))) = ⟨w.text, false⟩ :: ws.map (fun w => ⟨w.text, w.newdoc⟩) := by
      rw [this, lines_line hf.1, readAll, blank_full hf, key ws 1 (by omega) (fun v hv => h v (List.mem_cons_of_mem _ hv)), rstripSet_line hn he]
      simp
    refine ⟨⟨w.text, true⟩ :: ws.map (fun w => ⟨w.text, w.newdoc⟩), ?_, ?_, ?_⟩
    · simp only [readSentences, hall]
      rw [if_neg (by simp), if_pos trivial]
    · simp [Function.comp_def]
    · intro k t v h1 h2
      cases k with
      | zero => simp only [List.getElem?_cons_zero, Option.some.injEq] at h1; subst h1; simp
      | succ k =>
        simp only [List.getElem?_cons_succ, List.getElem?_map] at h1 h2
        rw [h2] at h1
        simp only [Option.map_some, Option.some.injEq] at h1
        subst h1
        simp

/-- **C157 violated (empty texts).** With `newdoc_if_empty_line=1` a sentence with an empty text is lost: fewer sentences are read than
were written. -/
theorem C157_empty_violated {ws : List W} {chars : List Char} {nd np : Bool} {ts : List T} (h : ∀ w ∈ ws, OneLine w.text) (he : ∃ w ∈ ws, w.text = [])
    (hr : readSentences ⟨false, true, chars⟩ (writeSentences nd np ws) = .ok ts) : ts.length < ws.length := by
  have nl : ∀ (b : Bool) (s : Str) (p : Bool), readAll ⟨false, true, chars⟩ p (lines ((if b = true then ['\n'] else []) ++ s)) =
      readAll ⟨false, true, chars⟩ (p || b) (lines s) := by
    intro b s p
    cases b with
    | false => simp
    | true =>
      rw [if_pos rfl, List.singleton_append, lines, if_pos rfl, readAll, if_pos (by simp [blank])]
      simp
  have hlen : ∀ (p q : Bool) (ls : List Str), (readAll ⟨false, true, chars⟩ p ls).length = (readAll ⟨false, true, chars⟩ q ls).length := by
    intro p q ls
    induction ls generalizing p q with
    | nil => rfl
    | cons l ls ih =>
      rw [readAll, readAll]
      split
      · rfl
      · simp
  have step : ∀ (k : Nat) (w : W) (ws : List W) (p : Bool), OneLine w.text →
      (readAll ⟨false, true, chars⟩ p (lines (writeAll nd np k (w :: ws)))).length =
        (if blank (w.text ++ ['\n']) then 0 else 1) + (readAll ⟨false, true, chars⟩ false (lines (writeAll nd np (k + 1) ws))).length := by
    intro k w ws p hw
    have e : writeAll nd np k (w :: ws) = (if decide (nd = true ∧ w.newdoc = true ∧ k > 1) = true then ['\n'] else []) ++
        ((if decide (np = true ∧ w.newpar = true ∧ k > 1) = true then ['\n'] else []) ++ (w.text ++ '\n' :: writeAll nd np (k + 1) ws)) := by
      rw [writeAll]; simp
    rw [e, nl, nl, lines_line hw, readAll]
    cases hb : blank (w.text ++ ['\n']) with
    | true =>
      rw [if_pos (by simp), if_pos rfl, Nat.zero_add]
      exact hlen _ _ _
    | false => simp; omega
  have all : ∀ (ws : List W) (k : Nat) (p : Bool), (∀ w ∈ ws, OneLine w.text) →
      (readAll ⟨false, true, chars⟩ p (lines (writeAll nd np k ws))).length ≤ ws.length ∧
      ((∃ w ∈ ws, w.text = []) → (readAll ⟨false, true, chars⟩ p (lines (writeAll nd np k ws))).length < ws.length) := by
    intro ws
    induction ws with
    | nil => intro k p _; exact ⟨Nat.le_refl _, fun ⟨w, hw, _⟩ => by cases hw⟩
    | cons w ws ih =>
      intro k p h
      obtain ⟨i1, i2⟩ := ih (k + 1) false (fun v hv => h v (List.mem_cons_of_mem _ hv))
      rw [step k w ws p (h w List.mem_cons_self), List.length_cons]
      refine ⟨by split <;> omega, ?_⟩
      rintro ⟨v, hv, hv0⟩
      rcases List.mem_cons.1 hv with rfl | hv
      · rw [hv0, if_pos (by decide)]; omega
      · have := i2 ⟨v, hv, hv0⟩
        split <;> omega
  have := (all ws 1 false h).2 he
  have hl : ts.length = (readAll ⟨false, true, chars⟩ false (lines (writeAll nd np 1 ws))).length := by
    simp only [readSentences, writeSentences] at hr
    rw [if_neg (by simp), if_pos trivial] at hr
    split at hr
    · cases hr
    · rename_i t ts' e
      cases hr
      rw [e]; rfl
  omega

/-- **C157 violated (no sentence).** With `newdoc_if_empty_line=1` a file that contains only empty lines, or nothing, makes the reader fail
instead of giving an empty document. -/
theorem C157_none_violated (chars : List Char) (n : Nat) : readSentences ⟨false, true, chars⟩ (List.replicate n '\n') = .error () := by
  have : ∀ (n : Nat) (p : Bool), readAll ⟨false, true, chars⟩ p (lines (List.replicate n '\n')) = [] := by
    intro n
    induction n with
    | zero => intro p; rfl
    | succ n ih =>
      intro p
      rw [List.replicate_succ, lines, if_pos rfl, readAll, if_pos (by simp [blank])]
      exact ih true
  simp only [readSentences, this]
  rw [if_neg (by simp), if_pos trivial]

/-- **C157, read.Text.** Paragraphs of lines that are not empty, with one or more empty lines after each, and any number of empty lines at
the beginning: each paragraph is one sentence, its lines joined by spaces. -/
theorem C157_text {chars : List Char} (n0 : Nat) (ps : List (List Str × Nat)) (h : ∀ p ∈ ps, p.1 ≠ [] ∧ ∀ l ∈ p.1, Full l) :
    readText chars [] (lines (List.replicate n0 '\n' ++ ps.flatMap (fun p => p.1.flatMap (fun l => l ++ ['\n']) ++ List.replicate (p.2 + 1) '\n'))) =
      ps.map (fun p => join [' '] (p.1.map (fun l => rstripSet chars (l ++ ['\n'])))) := by
  have blanks : ∀ (n : Nat) (s : Str), readText chars [] (lines (List.replicate n '\n' ++ s)) = readText chars [] (lines s) := by
    intro n s
    induction n with
    | zero => rfl
    | succ n ih =>
      rw [List.replicate_succ, List.cons_append, lines, if_pos rfl, readText, if_pos (by decide), if_pos rfl]
      exact ih
  have para : ∀ (ls : List Str) (acc : List Str) (s : Str), (∀ l ∈ ls, Full l) →
      readText chars acc (lines (ls.flatMap (fun l => l ++ ['\n']) ++ s)) = readText chars (acc ++ ls.map (fun l => rstripSet chars (l ++ ['\n']))) (lines s) := by
    intro ls
    induction ls with
    | nil => intro acc s _; simp
    | cons l ls ih =>
      intro acc s h
      have hf := h l List.mem_cons_self
      have e : (l :: ls).flatMap (fun l => l ++ ['\n']) ++ s = l ++ '\n' :: (ls.flatMap (fun l => l ++ ['\n']) ++ s) := by simp
      rw [e, lines_line hf.1, readText, if_neg (by rw [blank_full hf]; simp), ih _ _ (fun m hm => h m (List.mem_cons_of_mem _ hm))]
      simp
  rw [blanks]
  induction ps with
  | nil => rfl
  | cons p ps ih =>
    obtain ⟨hne, hfull⟩ := h p List.mem_cons_self
    rw [List.flatMap_cons, List.append_assoc, para _ _ _ hfull, List.replicate_succ, List.nil_append, List.cons_append, lines, if_pos rfl, readText,
      if_pos (by decide), if_neg (by simpa using hne), blanks, ih (fun q hq => h q (List.mem_cons_of_mem _ hq)), List.map_cons]

/-- **C157, read.AddSentences.** The `k`-th tree gets the `k`-th line of the file, without the white space at its end, as its text or as a
comment; the rest of the file remains for the next document. If the file has fewer lines than there are trees, and only then, an exception
is raised. -/
theorem C157_add (into : Option Str) (cs : List C) (ls : List Str) :
    (addSentences into cs ls).1.length = cs.length ∧ (addSentences into cs ls).2.1 = ls.drop cs.length ∧
    ((addSentences into cs ls).2.2 = true ↔ ls.length < cs.length) ∧
    ∀ (k : Nat) (c : C), cs[k]? = some c →
      (addSentences into cs ls).1[k]? = some (match ls[k]?, into with
        | none, _ => c
        | some l, none => ⟨some (rstrip l), c.comment⟩
        | some l, some n => ⟨c.text, c.comment ++ ([' '] ++ n ++ [' ', '=', ' '] ++ rstrip l ++ ['\n'])⟩) := by
  induction cs generalizing ls with
  | nil => exact ⟨rfl, rfl, by simp [addSentences], fun k c h => by simp at h⟩
  | cons c cs ih =>
    cases ls with
    | nil => exact ⟨rfl, by simp [addSentences], by simp [addSentences], fun k c' h => by simpa [addSentences] using h⟩
    | cons l ls =>
      obtain ⟨h1, h2, h3, h4⟩ := ih ls
      simp only [addSentences]
      refine ⟨by simp [h1], by simp [h2], by simp only [List.length_cons]; rw [h3]; omega, ?_⟩
      intro k c' hk
      cases k with
      | zero =>
        simp only [List.getElem?_cons_zero, Option.some.injEq] at hk ⊢
        subst hk
        cases into <;> rfl
      | succ k =>
        simp only [List.getElem?_cons_succ] at hk ⊢
        exact h4 k c' hk

/-! ## Examples -/

def dflt : List Char := ['\r', '\n', ' ']
def exWs : List W := [⟨['a', ' ', 'b'], false, false⟩, ⟨['c'], true, false⟩, ⟨['d'], false, true⟩]

example : (readSentences ⟨false, true, dflt⟩ (writeSentences true false exWs)).toOption = some [⟨['a', ' ', 'b'], true⟩, ⟨['c'], true⟩, ⟨['d'], false⟩] := by
  decide
example : writeSentences true true exWs = ['a', ' ', 'b', '\n', '\n', 'c', '\n', '\n', 'd', '\n'] := by decide
example : readText dflt [] (lines ['\n', 'a', '\n', 'b', ' ', '\n', '\n', '\n', 'c']) = [['a', ' ', 'b'], ['c']] := by decide
example : addSentences none [⟨none, []⟩, ⟨none, []⟩] (lines ['a', '\n', 'b', '\n', 'c', '\n']) = ([⟨some ['a'], []⟩, ⟨some ['b'], []⟩], [['c', '\n']], false) := by decide

end Verif.Text.Sentences
