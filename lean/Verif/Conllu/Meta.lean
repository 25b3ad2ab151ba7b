import Verif.Py.Text

/-!
# Model of reading and writing the comment lines of a CoNLL-U sentence

`read.Conllu.parse_comment_line` with its regular expressions (udapi/block/read/conllu.py:13-17, 37-81) and the
part of `write.Conllu.process_tree` that prints comments (udapi/block/write/conllu.py:28-112).

Simplified: values of `json_*` comments are kept as text (`json.loads` and `json.dumps` are not modelled);
`tree.sent_id` and `tree.compute_text()` are given.
-/

namespace Verif.Conllu.Meta
open Verif.Py

/-- `newdoc` and `newpar`: `None`, `True` or a string. -/
inductive Mark where
  | absent
  | flag
  | id (v : Str)
  deriving DecidableEq, Repr

/-- Python's truth value of a mark. -/
def Mark.truthy : Mark → Bool
  | .absent => false
  | .flag => true
  | .id v => v ≠ []

/-! ## Texts -/

/-- `# sent_id` -/
def kSentId : Str := ['#', ' ', 's', 'e', 'n', 't', '_', 'i', 'd']
/-- `# text` -/
def kText : Str := ['#', ' ', 't', 'e', 'x', 't']
/-- `id` -/
def kId : Str := ['i', 'd']
/-- `# newpar` -/
def kNewpar : Str := ['#', ' ', 'n', 'e', 'w', 'p', 'a', 'r']
/-- `# newdoc` -/
def kNewdoc : Str := ['#', ' ', 'n', 'e', 'w', 'd', 'o', 'c']
/-- `# doc_json_` -/
def kDocJson : Str := ['#', ' ', 'd', 'o', 'c', '_', 'j', 's', 'o', 'n', '_']
/-- `# json_` -/
def kJson : Str := ['#', ' ', 'j', 's', 'o', 'n', '_']
/-- `# global` -/
def kGlobal : Str := ['#', ' ', 'g', 'l', 'o', 'b', 'a', 'l']
/-- `Entity` -/
def kEntity : Str := ['E', 'n', 't', 'i', 't', 'y']
/-- `$SENT_ID` -/
def pSentId : Str := ['$', 'S', 'E', 'N', 'T', '_', 'I', 'D']
/-- `$TEXT` -/
def pText : Str := ['$', 'T', 'E', 'X', 'T']
/-- `$NEWPAR` -/
def pNewpar : Str := ['$', 'N', 'E', 'W', 'P', 'A', 'R']
/-- `$NEWDOC` -/
def pNewdoc : Str := ['$', 'N', 'E', 'W', 'D', 'O', 'C']
/-- `$GLOBAL.ENTITY` -/
def pEntity : Str := ['$', 'G', 'L', 'O', 'B', 'A', 'L', '.', 'E', 'N', 'T', 'I', 'T', 'Y']
/-- ` id = ` -/
def lId : Str := [' ', 'i', 'd', ' ', '=', ' ']
/-- ` sent_id = ` -/
def lSentId : Str := [' ', 's', 'e', 'n', 't', '_', 'i', 'd', ' ', '=', ' ']
/-- ` text = ` -/
def lText : Str := [' ', 't', 'e', 'x', 't', ' ', '=', ' ']
/-- ` newdoc` -/
def lNewdoc : Str := [' ', 'n', 'e', 'w', 'd', 'o', 'c']
/-- ` newpar` -/
def lNewpar : Str := [' ', 'n', 'e', 'w', 'p', 'a', 'r']
/-- ` global.Entity = ` -/
def lEntity : Str := [' ', 'g', 'l', 'o', 'b', 'a', 'l', '.', 'E', 'n', 't', 'i', 't', 'y', ' ', '=', ' ']
/-- ` global.columns` -/
def lColumns : Str := [' ', 'g', 'l', 'o', 'b', 'a', 'l', '.', 'c', 'o', 'l', 'u', 'm', 'n', 's']
/-- ` = ` -/
def lEq : Str := [' ', '=', ' ']

/-! ## Reading -/

/-- What follows the prefix `p`. -/
def after : Str → Str → Option Str
  | [], s => some s
  | c :: p, d :: s => if c = d then after p s else none
  | _ :: _, [] => none

/-- `\s*` -/
def skipWs (s : Str) : Str := s.dropWhile isWs

/-- `\S+` at a character that is not white space -/
def nonWs (s : Str) : Str := s.takeWhile (fun c => !isWs c)

/-- `\s*(.+)`: if only white space follows, the last of it is the value. The line has no newline. -/
def wsRest (r : Str) : Option Str :=
  if skipWs r = [] then r.getLast?.map ([·]) else some (skipWs r)

/-- `RE_SENT_ID` (read/conllu.py:13): `^# sent_id\s*=?\s*(\S+)` -/
def matchSentId (line : Str) : Option Str :=
  match after kSentId line with
  | none => none
  | some r =>
    match skipWs r with
    | [] => none
    | c :: r2 => if c = '=' ∧ skipWs r2 ≠ [] then some (nonWs (skipWs r2)) else some (nonWs (c :: r2))

/-- `RE_TEXT` (read/conllu.py:14): `^# text\s*=\s*(.*)` -/
def matchText (line : Str) : Option Str :=
  match after kText line with
  | none => none
  | some r =>
    match skipWs r with
    | [] => none
    | c :: r2 => if c = '=' then some (skipWs r2) else none

/-- `(?:\s+id\s*=\s*(.+))?$` (read/conllu.py:15) after `# newpar` or `# newdoc`. -/
def matchMark (r : Str) : Option Mark :=
  if r = [] then some .flag
  else if skipWs r = r then none
  else
    match after kId (skipWs r) with
    | none => none
    | some r1 =>
      match skipWs r1 with
      | [] => none
      | c :: r2 => if c = '=' then (wsRest r2).map .id else none

/-- `([^ =]+)\s*=\s*(.+)` (read/conllu.py:16) after `json_`. -/
def matchJson (r : Str) : Option (Str × Str) :=
  let k := r.takeWhile (fun c => c ≠ ' ' ∧ c ≠ '=')
  if k = [] then none
  else
    match skipWs (r.drop k.length) with
    | [] => none
    | c :: r2 => if c = '=' then (wsRest r2).map (k, ·) else none

/-- `RE_GLOBAL_ENTITY` (read/conllu.py:17): `^# global.Entity\s*=\s*(\S+)` -/
def matchEntity (line : Str) : Option Str :=
  match after kGlobal line with
  | some (_ :: r0) =>
    match after kEntity r0 with
    | none => none
    | some r =>
      match skipWs r with
      | [] => none
      | c :: r2 => if c = '=' ∧ skipWs r2 ≠ [] then some (nonWs (skipWs r2)) else none
  | _ => none

/-- What a comment line says. -/
inductive Ev where
  | sentId (v : Str)
  | text (v : Str)
  | newpar (m : Mark)
  | newdoc (m : Mark)
  | json (doc : Bool) (k v : Str)
  | entity (v : Str)
  | free (c : Str)
  deriving DecidableEq, Repr

/-- First answer that is not `none`. -/
def orElse {α : Type} : Option α → Option α → Option α
  | some a, _ => some a
  | none, b => b

/-- The tests of `parse_comment_line` in their order (read/conllu.py:39-81). -/
def classify (line : Str) : Ev :=
  match matchSentId line with
  | some v => .sentId v
  | none =>
  match matchText line with
  | some v => .text v
  | none =>
  match (after kNewpar line).bind matchMark with
  | some m => .newpar m
  | none =>
  match (after kNewdoc line).bind matchMark with
  | some m => .newdoc m
  | none =>
  match (after kDocJson line).bind matchJson with
  | some (k, v) => .json true k v
  | none =>
  match (after kJson line).bind matchJson with
  | some (k, v) => .json false k v
  | none =>
  match matchEntity line with
  | some v => .entity v
  | none => .free (line.drop 1)

/-- What reading collects: attributes of the root, and `_global_entity` of the reader. -/
structure Attr where
  sentId : Option Str
  text : Option Str
  newdoc : Mark
  newpar : Mark
  comment : Str
  json : List (Bool × Str × Str)
  entity : Option Str
  deriving DecidableEq

/-- A new `Root` (root.py:18-40). -/
def fresh : Attr := ⟨none, none, .absent, .absent, [], [], none⟩

/-- The line added to `root.comment` (read/conllu.py:42, 48, 56, 59, 78, 81). -/
def Ev.comment : Ev → Str
  | .sentId _ => pSentId ++ ['\n']
  | .text _ => pText ++ ['\n']
  | .newpar _ => pNewpar ++ ['\n']
  | .newdoc _ => pNewdoc ++ ['\n']
  | .json _ _ _ => []
  | .entity _ => pEntity ++ ['\n']
  | .free c => c ++ ['\n']

/-- The effect of a comment line (read/conllu.py:39-81). -/
def apply (a : Attr) (e : Ev) : Attr :=
  let b : Attr := match e with
    | .sentId v => { a with sentId := some v }
    | .text v => { a with text := some v }
    | .newpar m => { a with newpar := m }
    | .newdoc m => { a with newdoc := m }
    | .json d k v => { a with json := a.json ++ [(d, k, v)] }
    | .entity v => { a with entity := some v }
    | .free _ => a
  { b with comment := a.comment ++ e.comment }

/-- Reading the comment lines of a sentence. -/
def readComments (lines : List Str) : Attr := (lines.map classify).foldl apply fresh

/-! ## Writing -/

/-- Line boundaries of `str.splitlines`. -/
def isBreak (c : Char) : Bool :=
  let n := c.toNat
  (10 ≤ n && n ≤ 13) || (28 ≤ n && n ≤ 30) || n == 0x85 || n == 0x2028 || n == 0x2029

/-- `s.splitlines()`; `cur` is the current line reversed. -/
def splitlines (cur : Str) : Str → List Str
  | [] => if cur = [] then [] else [cur.reverse]
  | c :: r =>
    if c = '\r' ∧ r.head? = some '\n' then splitlines cur r
    else if isBreak c then cur.reverse :: splitlines [] r
    else splitlines (c :: cur) r

/-- What the writer looks at: attributes of the tree, `document.meta['global.Entity']`, options. -/
structure W where
  printSentId : Bool
  printText : Bool
  sentId : Str
  text : Option Str
  computed : Str
  newdoc : Mark
  newpar : Mark
  comment : Str
  entity : Option Str
  json : List (Str × Str)

/-- `tree.document.meta.get('global.Entity')` if it is true -/
def W.ge (w : W) : Option Str :=
  match w.entity with
  | some v => if v = [] then none else some v
  | none => none

/-- `tree.text.replace('\n', '').replace('\r', '').rstrip()`, or the computed text (write/conllu.py:37-40, 103) -/
def W.theText (w : W) : Str :=
  match w.text with
  | none => w.computed
  | some t => rstrip ((t.filter (· ≠ '\n')).filter (· ≠ '\r'))

/-- `' newdoc' + (' id = ' + tree.newdoc if tree.newdoc is not True else '')` (write/conllu.py:44, 50, 72, 89) -/
def markLine (name : Str) : Mark → Str
  | .id v => name ++ lId ++ v
  | _ => name

def W.sentIdLine (w : W) : Str := lSentId ++ w.sentId
def W.textLine (w : W) : Str := lText ++ w.theText
def W.newdocLine (w : W) : Str := markLine lNewdoc w.newdoc
def W.newparLine (w : W) : Str := markLine lNewpar w.newpar
def entityLine (ge : Str) : Str := lEntity ++ ge

/-- Replacing a placeholder (write/conllu.py:31-59); `none` is `None`. -/
def W.replace (w : W) (c : Str) : Option Str :=
  if c = pSentId then if w.printSentId then some w.sentIdLine else none
  else if c = pText then if w.printText then some w.textLine else some c
  else if c = pNewdoc then if w.printSentId ∧ w.newdoc.truthy then some w.newdocLine else none
  else if c = pNewpar then if w.printSentId ∧ w.newpar.truthy then some w.newparLine else none
  else if c = pEntity then w.ge.map entityLine
  else some c

/-- Index of the last line equal to `c` (`i_newdoc` etc., write/conllu.py:30-59). -/
def lastIdx (c : Str) : List Str → Option Nat
  | [] => none
  | l :: ls =>
    match lastIdx c ls with
    | some i => some (i + 1)
    | none => if l = c then some 0 else none

/-- `if c_line: print('#' + c_line)` -/
def shown (cl : List (Option Str)) : List Str :=
  cl.filterMap (fun c => match c with
    | some s => if s = [] then none else some ('#' :: s)
    | none => none)

/-- Number of comment lines dealt with (`printed_i + 1`), and the lines printed. -/
abbrev St := Nat × List Str

/-- `print('#…')` if the placeholder is missing, otherwise the `while` loop (write/conllu.py:71-77, 80-86, 88-94,
95-101). -/
def step (cl : List (Option Str)) (line : Str) : Option Nat → St → St
  | none, s => (s.1, s.2 ++ ['#' :: line])
  | some i, s => if s.1 ≤ i then (i + 1, s.2 ++ shown ((cl.take (i + 1)).drop s.1)) else s

/-- The lines printed for newdoc, global.Entity, newpar and sent_id (write/conllu.py:70-101). -/
def W.special (w : W) (ls : List Str) (cl : List (Option Str)) (s : St) : St :=
  let a := if w.newdoc.truthy then
      let a := step cl w.newdocLine (lastIdx pNewdoc ls) s
      match w.ge with
      | some g => step cl (entityLine g) (lastIdx pEntity ls) a
      | none => a
    else s
  let b := if w.newpar.truthy then step cl w.newparLine (lastIdx pNewpar ls) a else a
  step cl w.sentIdLine (lastIdx pSentId ls) b

/-- `comment_lines[0].startswith(' global.columns')` (write/conllu.py:66-68) -/
def columnsLine (cl : List (Option Str)) : St :=
  match cl with
  | some c :: _ => if (after lColumns c).isSome then (1, ['#' :: c]) else (0, [])
  | _ => (0, [])

/-- A line `# json_key = value` (write/conllu.py:112). -/
def jsonLine (p : Str × Str) : Str := kJson ++ p.1 ++ lEq ++ p.2

/-- Printing the comments (write/conllu.py:28-112); `none` is `AttributeError`, raised when the first comment line
is `None`. The json items are given in the order of their keys. -/
def W.write (w : W) : Option (List Str) :=
  let ls := splitlines [] w.comment
  let cl := ls.map w.replace
  if cl.head? = some none then none
  else
    let s0 := columnsLine cl
    let s1 := if w.printSentId then w.special ls cl s0 else s0
    let s2 : St := if w.printText = true ∧ lastIdx pText ls = none then (s1.1, s1.2 ++ ['#' :: w.textLine]) else s1
    some (s2.2 ++ shown (cl.drop s2.1) ++ w.json.map jsonLine)

end Verif.Conllu.Meta
