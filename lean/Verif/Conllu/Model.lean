import Verif.Py.Text
import Verif.Tree.Model
import Verif.Mwt.Model
import Verif.DualDict.Model

/-!
# Model of reading and writing CoNLL-U sentences

`read.Conllu.read_tree_from_lines` (udapi/block/read/conllu.py:125-228) on a list of lines, and the part of
`write.Conllu.process_tree` (udapi/block/write/conllu.py:114-141) that prints words, empty nodes and
multi-word tokens. Comment lines are in `Verif.Conllu.Meta`.

Simplified: numbers of empty nodes are exact decimals in place of binary floats; exponents, signs and
underscores in them are not modelled (`notModelled`).
-/

namespace Verif.Conllu
open Verif.Py
open Verif.Tree (Heap upd climbTo)

/-- Exceptions. `diverges` stands for a loop that does not end. -/
inductive Err where
  | runtimeError
  | valueError
  | indexError
  | diverges
  | notModelled
  deriving DecidableEq, Repr

/-- Options of the reader (read/conllu.py:23-35). -/
structure Opts where
  strict : Bool
  fixCycles : Bool

/-- The slots of a `Node` besides topology and word order (node.py:70-105). `rawDeps` is `raw_deps`. -/
structure Attrs where
  form : Option Str
  lemma : Option Str
  upos : Option Str
  xpos : Option Str
  feats : Option DualDict.State
  deprel : Option Str
  rawDeps : Option Str
  misc : Option DualDict.State
  deriving DecidableEq

/-- The ord of an empty node: the part before the decimal point, and the decimals without trailing zeros. -/
structure EOrd where
  major : Nat
  frac : Str
  deriving DecidableEq, Repr

/-- An `EmptyNode`. -/
structure ENode where
  ord : EOrd
  attrs : Attrs
  deriving DecidableEq

/-- A tree: topology and word order, attributes, empty nodes, multi-word tokens with form and MISC. -/
structure Tree where
  heap : Heap
  attrs : Nat → Attrs
  empties : List ENode
  mwt : Mwt.St
  mwtForm : Nat → Option Str
  mwtMisc : Nat → Option DualDict.State

/-! ## Reading -/

/-- `DualDict(t) if t and t != '_' else None` (node.py:97, 99; mwt.py:12) -/
def mkDict (t : Str) : Option DualDict.State :=
  if t = [] ∨ t = ['_'] then none
  else some { string := some t, dict := [] }

/-- `'_'` becomes `None` (read/conllu.py:150-155). -/
def unless_ (t : Str) : Option Str := if t = ['_'] then none else some t

/-- The `i`-th column. -/
def col (f : List Str) (i : Nat) : Str := f.getD i []

/-- `fields = line.split('\t')` and the padding (read/conllu.py:134-138). -/
def fieldsOf (o : Opts) (line : Str) : Except Err (List Str) :=
  let f := split '\t' line
  if f.length ≠ 10 then
    if o.strict then .error .runtimeError
    else .ok (f ++ List.replicate (10 - f.length) ['_'])
  else .ok f

/-- The attributes of a word (read/conllu.py:150-163). -/
def wordAttrs (f : List Str) : Attrs where
  form := some (col f 1)
  lemma := some (col f 2)
  upos := unless_ (col f 3)
  xpos := unless_ (col f 4)
  feats := mkDict (col f 5)
  deprel := unless_ (col f 7)
  rawDeps := some (col f 8)
  misc := mkDict (col f 9)

/-- The attributes of an empty node (read/conllu.py:143-148). -/
def emptyAttrs (f : List Str) : Attrs where
  form := some (col f 1)
  lemma := some (col f 2)
  upos := some (col f 3)
  xpos := some (col f 4)
  feats := mkDict (col f 5)
  deprel := none
  rawDeps := some (col f 8)
  misc := mkDict (col f 9)

/-- Decimals without trailing zeros. -/
def dropZeros (s : Str) : Str := (s.reverse.dropWhile (· = '0')).reverse

/-- Only ASCII digits. -/
def allDigits (s : Str) : Bool := s.all (fun c => (digitVal c).isSome)

/-- `float(s)` (node.py:1055) for `<digits>.<digits>`. -/
def pyFloat (s : Str) : Option EOrd :=
  match splitOnce '.' s with
  | (a, some b) =>
    if allDigits a ∧ allDigits b ∧ ¬ (a = [] ∧ b = []) then
      some ⟨(parseDigits 0 a).getD 0, dropZeros b⟩
    else none
  | _ => none

/-- What the loop over the lines has collected: for each word its `_ord`, attributes and HEAD (`nodes`,
`parents`), the empty nodes, the lines of multi-word tokens. -/
structure Acc where
  words : List (Nat × Attrs × Int)
  empties : List ENode
  mwts : List (List Str)

/-- A HEAD column (read/conllu.py:164-172). -/
def readHead (o : Opts) (t : Str) : Except Err Int :=
  match pyInt t with
  | some n => .ok n
  | none => if o.strict = false ∧ t = ['_'] then .ok 0 else .error .valueError

/-- One line that is not a comment, split into columns (read/conllu.py:139-174). The first column has no `-`
when it is given to `int`, so the number is not negative. -/
def readFields (o : Opts) (a : Acc) (f : List Str) : Except Err Acc :=
  if '-' ∈ col f 0 then .ok { a with mwts := a.mwts ++ [f] }
  else if '.' ∈ col f 0 then
    match pyFloat (col f 0) with
    | none => .error .notModelled
    | some e => .ok { a with empties := a.empties ++ [⟨e, emptyAttrs f⟩] }
  else
    match pyInt (col f 0) with
    | none => .error .valueError
    | some k =>
      match readHead o (col f 6) with
      | .error e => .error e
      | .ok h => .ok { a with words := a.words ++ [(k.toNat, wordAttrs f, h)] }

/-- One line (read/conllu.py:131-174). `line[0]` raises `IndexError` for an empty line. -/
def readLine (o : Opts) (a : Acc) : Str → Except Err Acc
  | [] => .error .indexError
  | '#' :: _ => .ok a
  | line =>
    match fieldsOf o line with
    | .error e => .error e
    | .ok f => readFields o a f

/-- The loop over the lines. -/
def readLines (o : Opts) : Acc → List Str → Except Err Acc
  | a, [] => .ok a
  | a, l :: ls =>
    match readLine o a l with
    | .error e => .error e
    | .ok a => readLines o a ls

/-- `l[i]` for a list of length `len`: the position, `none` for `IndexError`. -/
def pyIdx (len : Nat) (i : Int) : Option Nat :=
  if 0 ≤ i then (if i.toNat < len then some i.toNat else none)
  else if 0 ≤ i + len then some (i + len).toNat else none

/-- `node._parent = parent; parent._children.append(node)` (read/conllu.py:215-216) -/
def attach (h : Heap) (x p : Nat) : Heap :=
  { h with parent := upd h.parent x (some p), children := upd h.children p (h.children p ++ [x]) }

/-- One turn of the loop that sets the parents (read/conllu.py:193-216): word `x` with HEAD `i`; `fuel` bounds
the climbing loop. With `fix_cycles`, a word attached to itself is attached to the root, and then, as the
code goes on, to itself. -/
def linkOne (o : Opts) (n fuel : Nat) (h : Heap) (x : Nat) (i : Int) : Except Err Heap :=
  match pyIdx (n + 1) i with
  | none => .error .valueError
  | some p =>
    if x = p then
      if o.fixCycles then .ok (attach (attach h x 0) x p) else .error .valueError
    else if h.children x = [] then .ok (attach h x p)
    else
      match climbTo h x fuel (h.parent p) with
      | none => .error .diverges
      | some false => .ok (attach h x p)
      | some true => if o.fixCycles then .ok (attach h x 0) else .error .valueError

/-- The loop that sets the parents (read/conllu.py:192-216), from word `x` on. -/
def linkAll (o : Opts) (n fuel : Nat) : Heap → Nat → List Int → Except Err Heap
  | h, _, [] => .ok h
  | h, x, i :: is =>
    match linkOne o n fuel h x i with
    | .error e => .error e
    | .ok h => linkAll o n fuel h (x + 1) is

/-- The objects before the parents are set: the root is object 0, the words are 1, 2, ... in the order of
their lines, with the `_ord` of their ID column. -/
def startHeap (ords : List Nat) : Heap where
  parent := fun _ => none
  children := fun _ => []
  ord := fun x => (0 :: ords).getD x 0
  root := fun _ => 0
  words := upd (fun _ => []) 0 (List.range' 1 ords.length)
  next := ords.length + 1

/-- `'SpaceAfter'` -/
def spaceAfter : Str := "SpaceAfter".toList

/-- `x.misc['SpaceAfter'] = v` on a slot `_misc` that may be `None` (node.py:231-233, mwt.py:23-25). -/
def setSpaceAfter (m : Option DualDict.State) (v : Str) : Option DualDict.State :=
  some (DualDict.setItem DualDict.dd (m.getD DualDict.init) spaceAfter (some (.str v))).1

/-- `x.misc['SpaceAfter'] == 'No'` -/
def noSpaceAfter (m : Option DualDict.State) : Bool :=
  DualDict.read (DualDict.deserialize DualDict.dd (m.getD DualDict.init)).dict spaceAfter = .str "No".toList

/-- `Root.create_multiword_token(words, form, misc)` (root.py:170-191). -/
def createMwt (t : Tree) (ws : List Nat) (form : Option Str) (misc : Str) : Except Err Tree :=
  match Mwt.create t.mwt ws with
  | (_, some .valueError) => .error .valueError
  | (_, some .indexError) => .error .indexError
  | (s, none) =>
    let m := t.mwt.next
    let no := noSpaceAfter ((ws.getLast?.map (fun x => (t.attrs x).misc)).getD none)
    .ok { t with
      mwt := s
      mwtForm := upd t.mwtForm m form
      mwtMisc := upd t.mwtMisc m (if no then setSpaceAfter (mkDict misc) "No".toList else mkDict misc)
      attrs := fun x => if x ∈ ws then { t.attrs x with misc := setSpaceAfter (t.attrs x).misc [] } else t.attrs x }

/-- `nodes[a:b + 1]` for non-negative `a` and `b`; `nodes` are the root and `n` words. -/
def sliceNodes (n a b : Nat) : List Nat := ((List.range (n + 1)).take (b + 1)).drop a

/-- One multi-word token (read/conllu.py:219-226). -/
def readMwt (t : Tree) (n : Nat) (f : List Str) : Except Err Tree :=
  match split '-' (col f 0) with
  | [a, b] =>
    match pyInt a, pyInt b with
    | some a, some b => createMwt t (sliceNodes n a.toNat b.toNat) (some (col f 1)) (f.getLast?.getD [])
    | _, _ => .error .valueError
  | _ => .error .valueError

/-- The loop over the multi-word tokens (read/conllu.py:219-226). -/
def readMwts (n : Nat) : Tree → List (List Str) → Except Err Tree
  | t, [] => .ok t
  | t, f :: fs =>
    match readMwt t n f with
    | .error e => .error e
    | .ok t => readMwts n t fs

/-- `str(d)` (dualdict.py:41-50) -/
def dictStr (lower : Str → Str) (s : DualDict.State) : Str :=
  match s.string with
  | some t => t
  | none => DualDict.serialize DualDict.dd lower s.dict

/-- `'_' if slot is None else str(slot)` (write/conllu.py:121,134-135); `str(node.misc)` gives the same. -/
def dictCol (lower : Str → Str) : Option DualDict.State → Str
  | none => ['_']
  | some s => dictStr lower s

/-- `'Empty=Yes'` -/
def emptyYes : Str := "Empty=Yes".toList

/-- The words left after the test for an artificial node (read/conllu.py:186-189). -/
def realWords (lower : Str → Str) (ws : List (Nat × Attrs × Int)) : List (Nat × Attrs × Int) :=
  match ws with
  | [w] => if dictCol lower w.2.1.misc = emptyYes then [] else [w]
  | ws => ws

/-- `read_tree_from_lines` (read/conllu.py:125-228); `none` is `None`. -/
def readTree (lower : Str → Str) (o : Opts) (fuel : Nat) (lines : List Str) : Except Err (Option Tree) :=
  match readLines o ⟨[], [], []⟩ lines with
  | .error e => .error e
  | .ok a =>
    if a.words = [] then .ok none
    else
      let ws := realWords lower a.words
      match linkAll o ws.length fuel (startHeap (ws.map (·.1))) 1 (ws.map (·.2.2)) with
      | .error e => .error e
      | .ok h =>
        let noAttrs : Attrs := ⟨none, none, none, none, none, none, none, none⟩
        let t : Tree :=
          { heap := h
            attrs := fun x => if x = 0 then noAttrs else ((ws.map (·.2.1))[x - 1]?).getD noAttrs
            empties := a.empties
            mwt := Mwt.St.init
            mwtForm := fun _ => none
            mwtMisc := fun _ => none }
        match readMwts ws.length t a.mwts with
        | .error e => .error e
        | .ok t => .ok (some t)

/-! ## Writing -/

/-- `'_' if v is None else v` -/
def colOr (v : Option Str) : Str := v.getD ['_']

/-- `str(_ord)` of an empty node -/
def EOrd.str (e : EOrd) : Str := natStr e.major ++ '.' :: (if e.frac = [] then ['0'] else e.frac)

/-- A node line (write/conllu.py:132-135). -/
def nodeLine (lower : Str → Str) (id head : Str) (a : Attrs) : Str :=
  join ['\t'] [id, colOr a.form, colOr a.lemma, colOr a.upos, colOr a.xpos, dictCol lower a.feats, head,
    colOr a.deprel, colOr a.rawDeps, dictCol lower a.misc]

/-- The HEAD column of a word (write/conllu.py:124-130). -/
def headCol (t : Tree) (x : Nat) : Str :=
  match t.heap.parent x with
  | none => ['_']
  | some p => natStr (t.heap.ord p)

/-- A word or an empty node. -/
inductive Item where
  | word (x : Nat)
  | empty (e : ENode)

/-- `_ord` -/
def Item.ord (t : Tree) : Item → EOrd
  | .word x => ⟨t.heap.ord x, []⟩
  | .empty e => e.ord

/-- `a <= b` for decimals -/
def EOrd.le (a b : EOrd) : Bool := decide (a.major < b.major) || (decide (a.major = b.major) && decide (a.frac ≤ b.frac))

/-- `nodes` (write/conllu.py:15-19): the words and the empty nodes of the tree with root `r`, sorted. -/
def writeItems (t : Tree) (r : Nat) : List Item :=
  if t.empties = [] then (t.heap.words r).map .word
  else pySort (fun a b => (a.ord t).le (b.ord t)) ((t.heap.words r).map .word ++ t.empties.map .empty)

/-- The words of a token as sorted by `mwt.ord_range` (mwt.py:34-38). -/
def mwtWords (t : Tree) (m : Nat) : List Nat := Tree.sortNodes t.heap.ord (t.mwt.words m)

/-- The line of a multi-word token (write/conllu.py:118-121). `none` is `IndexError` (no words). -/
def mwtLine (lower : Str → Str) (t : Tree) (m : Nat) : Option Str :=
  match (mwtWords t m).head?, (mwtWords t m).getLast? with
  | some a, some b =>
    some (join ['\t'] [natStr (t.heap.ord a) ++ '-' :: natStr (t.heap.ord b), colOr (t.mwtForm m),
      "_\t_\t_\t_\t_\t_\t_".toList, dictCol lower (t.mwtMisc m)])
  | _, _ => none

/-- The token printed before the word `x`, if any (write/conllu.py:116-117). -/
def mwtBefore (t : Tree) (last x : Nat) : Option Nat :=
  match t.mwt.mwtOf x with
  | some m => if t.heap.ord x > last then some m else none
  | none => none

/-- The loop over the nodes (write/conllu.py:114-135); `last` is `last_mwt_id`. -/
def writeLoop (lower : Str → Str) (t : Tree) : Nat → List Item → Option (List Str)
  | _, [] => some []
  | last, .empty e :: l =>
    (writeLoop lower t last l).map (nodeLine lower e.ord.str ['_'] e.attrs :: ·)
  | last, .word x :: l =>
    let line := nodeLine lower (natStr (t.heap.ord x)) (headCol t x) (t.attrs x)
    match mwtBefore t last x with
    | none => (writeLoop lower t last l).map (line :: ·)
    | some m =>
      match mwtLine lower t m with
      | none => none
      | some ml =>
        (writeLoop lower t (((mwtWords t m).getLast?.map t.heap.ord).getD 0) l).map (fun ls => ml :: line :: ls)

/-- The artificial node printed for a tree without words (write/conllu.py:140-141). -/
def artificialLine : Str := "1\t_\t_\t_\t_\t_\t0\t_\t_\tEmpty=Yes".toList

/-- The lines of the nodes of a tree (write/conllu.py:114-141). -/
def writeNodes (lower : Str → Str) (t : Tree) (r : Nat) : Option (List Str) :=
  (writeLoop lower t 0 (writeItems t r)).map
    (fun ls => if t.heap.words r = [] then ls ++ [artificialLine] else ls)

end Verif.Conllu
