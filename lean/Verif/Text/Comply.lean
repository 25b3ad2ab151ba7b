import Verif.Text.Tokenize
import Verif.Eval.Diff

/-!
# ud.ComplyWithText (udapi/block/ud/complywithtext.py)

The tree is the list of its tokens (words and multi-word tokens, C84) with their forms and `SpaceAfter=No`. Left out: the
dependencies and other attributes of new nodes, `Typo`, `CorrectForm` and `Added` marks, the texts of warnings.
-/

namespace Verif.Text.Comply
open Verif.Py
open Verif.Eval.Diff (Op Tag opcodes)
open Verif.Run (wsSplit)

/-- A token; `orig` is its position in `root.token_descendants` before the block, `none` for new ones; `words` are the positions of
the words of a new multi-word token. -/
structure Tk where
  orig : Option Nat := none
  form : Str
  no : Bool := false
  mwt : Bool := false
  words : List Nat := []
  deriving DecidableEq

/-- The parameters of the block (complywithtext.py:36-93); `isP` is the class `\p{P}` and `isDigit` is `[0-9]`. -/
structure Par where
  fixText : Bool := true
  preferMwt : Bool := true
  goeswith : Bool := true
  maxMwt : Nat := 4
  addPunct : Bool := true
  deletePunct : Bool := true
  hyphen : Bool := true
  formLabel : Str := ['C', 'o', 'r', 'r', 'e', 'c', 't', 'F', 'o', 'r', 'm']
  textLabel : Str := ['O', 'r', 'i', 'g', 'T', 'e', 'x', 't']
  isP : Char → Bool

/-- Exceptions: `IndexError`, `AttributeError`, `TypeError`, `AssertionError`. -/
inductive Err where
  | index | attr | type | assert
  deriving DecidableEq

/-! ## The characters of the tree -/

/-- No space is added after the last token (`node != nodes[-1]`, complywithtext.py:324). -/
def close : List Tk → List Tk
  | [] => []
  | [t] => [{ t with no := true }]
  | t :: u :: ts => t :: close (u :: ts)

/-- The form with the space after it (complywithtext.py:323-325). -/
def spaced (t : Tk) : Str := if t.no then t.form else t.form ++ [' ']

/-- `tree_chars` (complywithtext.py:320-329) -/
def chars (toks : List Tk) : Str := ((close toks).map spaced).flatten

/-- The node at the first character of each piece and `None` at the others (complywithtext.py:327-328). -/
def starts : Nat → List Str → List (Option Nat)
  | _, [] => []
  | k, s :: ss => (some k :: List.replicate (s.length - 1) none) ++ starts (k + 1) ss

/-- `char_nodes` (complywithtext.py:320-329), with the positions of the tokens. -/
def nodes (toks : List Tk) : List (Option Nat) := starts 0 ((close toks).map spaced)

/-! ## The differences -/

/-- `s[lo:hi]` -/
def slice (s : Str) (lo hi : Nat) : Str := (s.take hi).drop lo

/-- `s[k] == ' '` -/
def isSp (s : Str) (k : Nat) : Except Err Bool :=
  match s[k]? with
  | some c => .ok (c == ' ')
  | none => .error .index

/-- `s[k - 1] == ' '`, which is the last character for `k == 0`. -/
def isSpBefore (s : Str) (k : Nat) : Except Err Bool :=
  if k = 0 then (match s.getLast? with | some c => .ok (c == ' ') | none => .error .index) else isSp s (k - 1)

/-- One step of `unspace_diffs` (complywithtext.py:162-181); `none` if the diff is left out. Simplified: `text_hi - 1` is 0 and
not -1 for `text_hi == 0`, which needs a text that ends with a space. -/
def unspace1 (tree text : Str) (o : Op) : Except Err (Option Op) := do
  let (ilo, ihi, jlo, jhi) ← (if o.tag = .insert then (.ok (o.i1, o.i2, o.j1, o.j2) : Except Err (Nat × Nat × Nat × Nat)) else do
    let a ← isSp tree o.i1
    let b ← isSpBefore tree o.i2
    let c ← isSp text o.j1
    let d ← isSpBefore text o.j2
    .ok (if a then o.i1 + 1 else o.i1, if b then o.i2 - 1 else o.i2, if c then o.j1 + 1 else o.j1, if d then o.j2 - 1 else o.j2))
  let old := slice tree ilo ihi
  let new := slice text jlo jhi
  if old = [] ∧ new = [] then .ok none
  else .ok (some ⟨if old = new then .equal else if old = [] then .insert else o.tag, ilo, ihi, jlo, jhi⟩)

/-- `unspace_diffs` (complywithtext.py:160-182) -/
def unspace (tree text : Str) : List Op → Except Err (List Op)
  | [] => .ok []
  | o :: os => do
    let d ← unspace1 tree text o
    let ds ← unspace tree text os
    .ok (d.toList ++ ds)

/-- `char_nodes[k] is not None` -/
def start (cn : List (Option Nat)) (k : Nat) : Bool := match cn[k]? with | some (some _) => true | _ => false

/-- The number of steps of the loop in complywithtext.py:197-199. -/
def skip (cn : List (Option Nat)) : Nat → Nat → Nat
  | _, 0 => 0
  | i, n + 1 => if start cn i then 0 else skip cn (i + 1) n + 1

/-- The loop in complywithtext.py:209-215. -/
def back (cn : List (Option Nat)) (i1 j1 : Nat) : Nat → Nat → Except Err (Nat × Nat)
  | 0, pt => if start cn 0 then .ok (0, pt) else .error .assert
  | p + 1, pt => if start cn (p + 1) then .ok (p + 1, pt) else if p < i1 ∨ pt < j1 + 1 then .error .assert else back cn i1 j1 p (pt - 1)

/-- `merge_diffs` (complywithtext.py:184-218); the first argument is `diffs` from its end. -/
def merge (cn : List (Option Nat)) : List Op → List Op → Except Err (List Op)
  | acc, [] => .ok acc
  | acc, d :: ds =>
    if d.tag ≠ .insert ∧ cn.length ≤ d.i1 then .error .index
    else if d.tag ≠ .insert ∧ start cn d.i1 = true then merge cn (d :: acc) ds
    else if d.tag = .equal then
      match acc with
      | [] => .error .index
      | l :: acc =>
        let t := skip cn d.i1 (d.i2 - d.i1)
        let l' : Op := ⟨.replace, l.i1, d.i1 + t, l.j1, d.j1 + t⟩
        if d.i1 + t < d.i2 then merge cn (⟨.equal, d.i1 + t, d.i2, d.j1 + t, d.j2⟩ :: l' :: acc) ds else merge cn (l' :: acc) ds
    else
      match acc with
      | [] => merge cn [d] ds
      | l :: acc =>
        if l.tag ≠ .equal then merge cn (⟨.replace, l.i1, d.i2, l.j1, d.j2⟩ :: acc) ds
        else
          match back cn l.i1 l.j1 (l.i2 - 1) (l.j2 - 1) with
          | .error e => .error e
          | .ok (p, pt) => merge cn (⟨.replace, p, d.i2, pt, d.j2⟩ :: ⟨.equal, l.i1, p, l.j1, pt⟩ :: acc) ds

/-! ## Solving the differences -/

/-- Replace each of the tokens that come from `ks`. -/
def edit (f : Nat → Tk → List Tk) (ks : List Nat) (toks : List Tk) : List Tk :=
  toks.flatMap (fun t => match t.orig with | some k => if ks.contains k then f k t else [t] | none => [t])

/-- `new = node.create_child(form=...)`, `new.shift_after_node(node)` -/
def after (k : Nat) (toks : List Tk) (form : Str) : List Tk := edit (fun _ t => [t, { form := form }]) [k] toks
/-- `new = node.create_child(form=...)`, `new.shift_before_node(node)` -/
def before (k : Nat) (toks : List Tk) (form : Str) : List Tk := edit (fun _ t => [{ form := form }, t]) [k] toks
/-- `node.form = form` -/
def setForm (k : Nat) (form : Str) (toks : List Tk) : List Tk := edit (fun _ t => [{ t with form := form }]) [k] toks
/-- `node.remove(children='rehang')` -/
def removeAll (ks : List Nat) (toks : List Tk) : List Tk := edit (fun _ _ => []) ks toks
/-- `create_multiword_token(nodes, form)` (root.py:170-191): the new token is in the place of the first word; `no` is
`SpaceAfter=No` of the last word. -/
def makeMwt (k0 : Nat) (ks : List Nat) (form : Str) (no : Bool) (toks : List Tk) : List Tk :=
  edit (fun k _ => if k = k0 then [{ form := form, no := no, mwt := true, words := ks }] else []) ks toks

def find (toks : List Tk) (k : Nat) : Option Tk := toks.find? (fun t => t.orig == some k)

/-- `regex.fullmatch('\p{P}+', s)` -/
def punct (p : Par) (s : Str) : Bool := s ≠ [] && s.all p.isP

def isDigit (c : Char) : Bool := decide ('0' ≤ c ∧ c ≤ '9')

/-- `allow_space(form)` (complywithtext.py:95-98): `[0-9 ]+([,.][0-9]+)?` -/
def allowSpace (s : Str) : Bool :=
  let a := s.takeWhile (fun c => isDigit c || c == ' ')
  a ≠ [] && (match s.drop a.length with | [] => true | c :: r => (c == ',' || c == '.') && r ≠ [] && r.all isDigit)

/-- `store_previous_form(node)` (complywithtext.py:100-105): a multi-word token has no `feats`. -/
def storePrevious (p : Par) (t : Tk) : Except Err Unit :=
  if t.form ≠ ['\'', '\''] ∧ t.form ≠ ['`', '`'] ∧ p.formLabel = ['C', 'o', 'r', 'r', 'e', 'c', 't', 'F', 'o', 'r', 'm'] ∧ t.mwt = true
  then .error .attr else .ok ()

/-- `solve_diff(nodes, form)` (complywithtext.py:256-317); the result with `true` if a warning was logged. -/
def solveDiff (p : Par) (toks : List Tk) (ks : List Nat) (form : Str) : Except Err (List Tk × Bool) :=
  match ks with
  | [] => .error .index
  | k :: rest =>
    match find toks k with
    | none => .error .index
    | some t =>
      if form.contains ' ' then
        let nodeForm := if p.hyphen ∧ t.form.map (fun c => if c = '-' then ' ' else c) = form then t.form.filter (· != '-') else t.form
        if rest = [] then
          if nodeForm = form.filter (· != ' ') then
            if allowSpace form then do
              storePrevious p t
              .ok (setForm k form toks, false)
            else if p.goeswith then do
              storePrevious p t
              if t.mwt then .error .attr
              else match wsSplit form with
                | [] => .error .index
                | f :: fs => .ok (fs.reverse.foldl (after k) (setForm k f toks), false)
            else .ok (toks, true)
          else if p.addPunct ∧ t.form.isPrefixOf form = true ∧ form.drop t.form.length ≠ [] ∧
              (form.drop t.form.length).all (fun c => c == ' ' || p.isP c) = true then
            if t.mwt ∧ wsSplit (form.drop t.form.length) ≠ [] then .error .attr
            else .ok ((wsSplit (form.drop t.form.length)).reverse.foldl (after k) toks, false)
          else .ok (toks, true)
        else .ok (toks, true)
      else if rest ≠ [] then
        let ts := (k :: rest).filterMap (find toks)
        if p.preferMwt = false ∧ (ts.map Tk.form).flatten = form then .ok (toks, false)
        else if ts.any Tk.mwt then .ok (toks, true)
        else if ts.length > p.maxMwt then .ok (toks, true)
        else .ok (makeMwt k (k :: rest) form ((ts.getLast?.map Tk.no).getD false) toks, false)
      else if p.addPunct ∧ t.form.isPrefixOf form = true ∧ punct p (form.drop t.form.length) = true then
        if t.mwt then .error .attr else .ok (after k toks (form.drop t.form.length), false)
      else do
        storePrevious p t
        .ok (setForm k form toks, false)

/-- One step of `solve_diffs` (complywithtext.py:221-254). -/
def solve1 (p : Par) (cn : List (Option Nat)) (text : Str) (toks : List Tk) (d : Op) : Except Err (List Tk × Bool) :=
  match d.tag with
  | .equal => .ok (toks, false)
  | .insert =>
    let forms := split ' ' (slice text d.j1 d.j2)
    if forms.all (punct p) ∧ p.addPunct then
      match cn[d.i1]? with
      | some (some k) =>
        match find toks k with
        | some t => if t.mwt then .error .attr else .ok (forms.reverse.foldl (before k) toks, false)
        | none => .error .attr
      | some none => .error .attr
      | none => .error .index
    else .ok (toks, true)
  | .delete =>
    let ks := ((cn.take d.i2).drop d.i1).filterMap id
    if (ks.filterMap (find toks)).all (fun t => punct p t.form) then
      if p.deletePunct then
        if (ks.filterMap (find toks)).any Tk.mwt then .error .type else .ok (removeAll ks toks, false)
      else .ok (toks, true)
    else .ok (toks, true)
  | .replace => solveDiff p toks (((cn.take d.i2).drop d.i1).filterMap id) (strip (slice text d.j1 d.j2))

/-- `solve_diffs` (complywithtext.py:220-254) -/
def solve (p : Par) (cn : List (Option Nat)) (text : Str) : List Tk → List Op → Except Err (List Tk × Bool)
  | toks, [] => .ok (toks, false)
  | toks, d :: ds => do
    let (toks, w) ← solve1 p cn text toks d
    let (toks, w') ← solve p cn text toks ds
    .ok (toks, w || w')

/-! ## The whole block -/

/-- Fill `SpaceAfter=No` (complywithtext.py:138-150). -/
def fillNo : Str → List Tk → List Tk
  | _, [] => []
  | text, t :: ts =>
    if t.form.isPrefixOf text then
      let r := text.drop t.form.length
      if r = [] ∨ startsWs r = true then { t with no := false } :: fillNo (lstrip r) ts else { t with no := true } :: fillNo r ts
    else t :: ts

/-- `root.compute_text()` by C84. -/
def compute (toks : List Tk) : Str := rstrip (detok (toks.map (fun t => (t.form, t.no))))

/-- The tree: `root.text`, the comments added and the tokens; `warned`: a warning was logged by `solve_diffs`. -/
structure Doc where
  text : Str
  comments : List Str
  toks : List Tk
  warned : Bool := false
  deriving DecidableEq

/-- `root.add_comment(f'{previous_text_label} = {root.text}')` if the label is not empty. -/
def comment (p : Par) (text : Str) (cs : List Str) : List Str :=
  if p.textLabel = [] then cs else cs ++ [p.textLabel ++ [' ', '=', ' '] ++ text]

/-- The tokens numbered by their positions. -/
def number (toks : List Tk) : List Tk := toks.mapIdx (fun k t => { t with orig := some k, words := [] })

/-- The differences after `merge_diffs` (complywithtext.py:122-133). -/
def diffs (toks : List Tk) (text : Str) : Except Err (List Op) := do
  let ds ← unspace (chars toks) text (opcodes (chars toks) text)
  let m ← merge (nodes toks) [] ds
  .ok m.reverse

/-- `' '.join(text.split())` (complywithtext.py:114) -/
def normal (text : Str) : Str := join [' '] (wsSplit text)

/-- `process_tree(root)` (complywithtext.py:107-158) -/
def process (p : Par) (r : Doc) : Except Err Doc :=
  let text := normal r.text
  let r1 := if r.text ≠ text ∧ p.fixText then { r with comments := comment p r.text r.comments, text := text } else r
  if text = compute r1.toks then .ok r1
  else do
    let ds ← diffs r1.toks text
    let (toks, w) ← solve p (nodes r1.toks) text (number r1.toks) ds
    let r2 := { r1 with toks := fillNo text toks, warned := w }
    if p.fixText ∧ text ≠ compute r2.toks then .ok { r2 with comments := comment p r2.text r2.comments, text := compute r2.toks }
    else .ok r2

end Verif.Text.Comply
