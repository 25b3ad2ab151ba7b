import Verif.Conllu.Model

/-!
# Model of splitting a CoNLL-U file into sentences

`read.Conllu.read_trees` and `read_tree` (udapi/block/read/conllu.py:83-120), with the loops of
`BaseReader` that call them as far as they decide which sentences are read (udapi/core/basereader.py:115-174,
215-224). Reading one sentence from its lines is a parameter `parse`; `none` is the answer `None`.
-/

namespace Verif.Conllu
open Verif.Py

/-- `re.split(r'\n\n+', text)` (read/conllu.py:91): `cur` is the current piece reversed, `sep` tells that the
run of newlines just met has not ended. -/
def reSplit (cur : Str) (sep : Bool) : Str → List Str
  | [] => [cur.reverse]
  | c :: r =>
    if sep = true ∧ c = '\n' then reSplit cur true r
    else if c = '\n' ∧ r.head? = some '\n' then cur.reverse :: reSplit [] true r
    else reSplit (c :: cur) false r

/-- The lists of lines given to `read_tree_from_lines` when the file is read at once (read/conllu.py:90-91). -/
def blocksFast (text : Str) : List (List Str) :=
  ((reSplit [] false text).filter (fun s => s ≠ [])).map (split '\n')

/-- `for line in filehandle`, with `line.rstrip()` (read/conllu.py:96-97, 115-116). -/
def fileLines (text : Str) : List Str :=
  let ps := split '\n' text
  (if ps.getLast? = some [] then ps.dropLast else ps).map rstrip

/-- The lines up to the next empty line, and the lines after it (read/conllu.py:115-119). -/
def nextBlock : List Str → List Str × List Str
  | [] => ([], [])
  | l :: ls => if l = [] then ([], ls) else ((l :: (nextBlock ls).1), (nextBlock ls).2)

theorem nextBlock_le (ls : List Str) : (nextBlock ls).2.length ≤ ls.length := by
  induction ls with
  | nil => exact Nat.le_refl _
  | cons l ls ih =>
    unfold nextBlock
    split
    · simp
    · simp only [List.length_cons]; omega

theorem nextBlock_lt {ls : List Str} (h : ls ≠ []) : (nextBlock ls).2.length < ls.length := by
  cases ls with
  | nil => exact absurd rfl h
  | cons l ls =>
    unfold nextBlock
    split
    · simp
    · simp only [List.length_cons]
      have := nextBlock_le ls
      omega

/-- Reading a file sentence by sentence (read/conllu.py:111-120, basereader.py:216-224): `read_tree` until
it answers `None`, which is taken for the end of the file. -/
def readSlow {T : Type} (parse : List Str → Option T) (ls : List Str) : List T :=
  if h : ls = [] then []
  else
    match parse (nextBlock ls).1 with
    | none => []
    | some t => t :: readSlow parse (nextBlock ls).2
termination_by ls.length
decreasing_by exact nextBlock_lt h

/-- Reading a file at once (read/conllu.py:84-91, basereader.py:128-140). `None` among the trees is skipped,
but `trees[0].newdoc` (basereader.py:134) raises `AttributeError` if the first one is `None`: `none`. -/
def readFast {T : Type} (parse : List Str → Option T) (text : Str) : Option (List T) :=
  match (blocksFast text).map parse with
  | none :: _ => none
  | ts => some (ts.filterMap id)

/-- Reading with `max_docs` (read/conllu.py:95-109). `tree.newdoc` raises `AttributeError` if the tree is
`None`: `none`. Lines after the last empty line are not read. -/
def readMax {T : Type} (parse : List Str → Option T) (newdoc : T → Bool) (max : Nat) :
    List Str → Nat → List Str → Option (List T)
  | _, _, [] => some []
  | cur, docs, l :: ls =>
    if l = [] then
      match parse cur with
      | none => none
      | some t =>
        if newdoc t then
          if docs = max then some []
          else (readMax parse newdoc max [] (docs + 1) ls).map (t :: ·)
        else (readMax parse newdoc max [] docs ls).map (t :: ·)
    else readMax parse newdoc max (cur ++ [l]) docs ls

end Verif.Conllu
