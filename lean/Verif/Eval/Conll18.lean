import Verif.Coref.Order
import Verif.Deprel.Model
import Verif.Eval.Diff
import Verif.Py.Sort

/-!
# `eval.Conll18` (udapi/block/eval/conll18.py) and `eval.Conll17` (udapi/block/eval/conll17.py)

The two trees of a bundle are the lists of their words in the order of the sentence: the word at position `i` has ord `i + 1`,
and the technical root has ord 0.
-/

namespace Verif.Eval
namespace Conll
open Verif.Py Verif.Coref Diff

/-- `CONTENT` (conll18.py:98-101) -/
def content : List Str :=
  [['n', 's', 'u', 'b', 'j'], ['o', 'b', 'j'], ['i', 'o', 'b', 'j'], ['c', 's', 'u', 'b', 'j'],
   ['c', 'c', 'o', 'm', 'p'], ['x', 'c', 'o', 'm', 'p'], ['o', 'b', 'l'], ['v', 'o', 'c', 'a', 't', 'i', 'v', 'e'],
   ['e', 'x', 'p', 'l'], ['d', 'i', 's', 'l', 'o', 'c', 'a', 't', 'e', 'd'], ['a', 'd', 'v', 'c', 'l'],
   ['a', 'd', 'v', 'm', 'o', 'd'], ['d', 'i', 's', 'c', 'o', 'u', 'r', 's', 'e'], ['n', 'm', 'o', 'd'],
   ['a', 'p', 'p', 'o', 's'], ['n', 'u', 'm', 'm', 'o', 'd'], ['a', 'c', 'l'], ['a', 'm', 'o', 'd'],
   ['c', 'o', 'n', 'j'], ['f', 'i', 'x', 'e', 'd'], ['f', 'l', 'a', 't'], ['c', 'o', 'm', 'p', 'o', 'u', 'n', 'd'],
   ['l', 'i', 's', 't'], ['p', 'a', 'r', 'a', 't', 'a', 'x', 'i', 's'], ['o', 'r', 'p', 'h', 'a', 'n'],
   ['g', 'o', 'e', 's', 'w', 'i', 't', 'h'], ['r', 'e', 'p', 'a', 'r', 'a', 'n', 'd', 'u', 'm'],
   ['r', 'o', 'o', 't'], ['d', 'e', 'p']]

/-- `FUNCTIONAL` (conll18.py:102) -/
def functional : List Str :=
  [['a', 'u', 'x'], ['c', 'o', 'p'], ['m', 'a', 'r', 'k'], ['d', 'e', 't'], ['c', 'l', 'f'], ['c', 'a', 's', 'e'],
   ['c', 'c']]

/-- `UNIV_FEATS` (conll18.py:103-105) -/
def univFeats : List Str :=
  [['P', 'r', 'o', 'n', 'T', 'y', 'p', 'e'], ['N', 'u', 'm', 'T', 'y', 'p', 'e'], ['P', 'o', 's', 's'],
   ['R', 'e', 'f', 'l', 'e', 'x'], ['F', 'o', 'r', 'e', 'i', 'g', 'n'], ['A', 'b', 'b', 'r'],
   ['G', 'e', 'n', 'd', 'e', 'r'], ['A', 'n', 'i', 'm', 'a', 'c', 'y'], ['N', 'u', 'm', 'b', 'e', 'r'],
   ['C', 'a', 's', 'e'], ['D', 'e', 'f', 'i', 'n', 'i', 't', 'e'], ['D', 'e', 'g', 'r', 'e', 'e'],
   ['V', 'e', 'r', 'b', 'F', 'o', 'r', 'm'], ['M', 'o', 'o', 'd'], ['T', 'e', 'n', 's', 'e'],
   ['A', 's', 'p', 'e', 'c', 't'], ['V', 'o', 'i', 'c', 'e'], ['E', 'v', 'i', 'd', 'e', 'n', 't'],
   ['P', 'o', 'l', 'a', 'r', 'i', 't', 'y'], ['P', 'e', 'r', 's', 'o', 'n'], ['P', 'o', 'l', 'i', 't', 'e']]

/-- `CLAS_IGNORE` (conll17.py:99) -/
def clasIgnore : List Str :=
  [['a', 'u', 'x'], ['c', 'a', 's', 'e'], ['c', 'c'], ['c', 'l', 'f'], ['c', 'o', 'p'], ['d', 'e', 't'],
   ['m', 'a', 'r', 'k'], ['p', 'u', 'n', 'c', 't']]

/-- What the evaluation looks at in a word. `feats` is `str(node.feats)`, `parent` the ord of the parent; `rehanged` and
`funcMissing` say whether `misc['Rehanged']` and `misc['FuncChildMissing']` are non-empty. Simplified: the attributes are
strings (`None` is possible for `deprel` only). -/
structure Word where
  form : Str := []
  lemma : Str := ['_']
  upos : Str := ['_']
  xpos : Str := ['_']
  feats : Str := ['_']
  deprel : Option Str := none
  parent : Nat := 0
  rehanged : Bool := false
  funcMissing : Bool := false
  deriving DecidableEq

/-- `node.udeprel` (node.py:138-144) -/
def Word.udeprel (w : Word) : Option Str := Deprel.getU w.deprel

/-- The word at a position. -/
def wordAt (ws : List Word) (i : Nat) : Word := ws.getD i {}

/-- `u in CONTENT` and the like -/
def inSet (l : List Str) : Option Str → Bool
  | some u => l.contains u
  | none => false

/-- `<=` of Python strings -/
def strLe (a b : Str) : Bool := !strLt b a

/-- `x.split('=', 1)[0] in UNIV_FEATS` (conll18.py:129) -/
def isUniv (x : Str) : Bool := univFeats.contains (splitOnce '=' x).1

/-- `_ufeats` (conll18.py:128-129) -/
def ufeats (feats : Str) : Str := join ['|'] (pySort strLe ((split '|' feats).filter isUniv))

/-- `aligned` (conll18.py:135-144): pairs of positions. `lower` stands for `str.lower`. -/
def align (lower : Str → Str) (pred gold : List Word) : List (Nat × Nat) :=
  Diff.aligned (opcodes (pred.map (fun w => lower w.form)) (gold.map (fun w => lower w.form)))

/-- `align_map.get(node)` (conll18.py:145-147) by the ords; the last assignment to a key counts. -/
def mapGet (al : List (Nat × Nat)) (o : Nat) : Option Nat :=
  (((0, 0) :: al.map (fun x => (x.1 + 1, x.2 + 1))).reverse).lookup o

/-- `[c for c in node.children if ...]`: the positions of the children of the node with the given ord. -/
def kids (ws : List Word) (o : Nat) (f : Word → Bool) : List Nat :=
  (List.range ws.length).filter (fun c => decide ((wordAt ws c).parent = o) && f (wordAt ws c))

/-- The loop of `_morpho_match` (conll18.py:193-199). `feats_match[p_child]` is the comparison with the word that `p_child`
is aligned with, that is with `g_child`. -/
def childrenMatch (pred gold : List Word) (al : List (Nat × Nat)) : List (Nat × Nat) → Bool
  | [] => true
  | (p, g) :: rest =>
    if mapGet al (p + 1) ≠ some (g + 1) then false
    else if (wordAt pred p).udeprel ≠ (wordAt gold g).udeprel then false
    else if (wordAt pred p).upos ≠ (wordAt gold g).upos ∨ ufeats (wordAt pred p).feats ≠ ufeats (wordAt gold g).feats then
      false
    else childrenMatch pred gold al rest

/-- `_morpho_match` (conll18.py:186-200) -/
def morphoMatch (pred gold : List Word) (al : List (Nat × Nat)) (p g : Nat) : Bool :=
  if (wordAt pred p).upos ≠ (wordAt gold g).upos ∨ ufeats (wordAt pred p).feats ≠ ufeats (wordAt gold g).feats then false
  else
    let pc := kids pred (p + 1) (fun w => inSet functional w.udeprel && !w.rehanged)
    let gc := kids gold (g + 1) (fun w => inSet functional w.udeprel)
    if pc.length ≠ gc.length then false
    else childrenMatch pred gold al (pc.zip gc)

/-- `Counter()` with the keys of conll18.py:150-175. -/
structure Count where
  pred : Nat := 0
  gold : Nat := 0
  words : Nat := 0
  predCont : Nat := 0
  goldCont : Nat := 0
  aligCont : Nat := 0
  upos : Nat := 0
  xpos : Nat := 0
  lemmas : Nat := 0
  ufeats : Nat := 0
  allTags : Nat := 0
  uas : Nat := 0
  las : Nat := 0
  clas : Nat := 0
  blex : Nat := 0
  mlas : Nat := 0
  deriving DecidableEq

/-- `Counter.update` -/
def Count.add (a b : Count) : Count where
  pred := a.pred + b.pred
  gold := a.gold + b.gold
  words := a.words + b.words
  predCont := a.predCont + b.predCont
  goldCont := a.goldCont + b.goldCont
  aligCont := a.aligCont + b.aligCont
  upos := a.upos + b.upos
  xpos := a.xpos + b.xpos
  lemmas := a.lemmas + b.lemmas
  ufeats := a.ufeats + b.ufeats
  allTags := a.allTags + b.allTags
  uas := a.uas + b.uas
  las := a.las + b.las
  clas := a.clas + b.clas
  blex := a.blex + b.blex
  mlas := a.mlas + b.mlas

/-- What one aligned pair adds (conll18.py:158-175): the nested `if`s of the loop. -/
def pairCount (pred gold : List Word) (al : List (Nat × Nat)) (x : Nat × Nat) : Count :=
  let p := wordAt pred x.1
  let g := wordAt gold x.2
  let feats := decide (Conll.ufeats p.feats = Conll.ufeats g.feats)
  let head := decide (mapGet al p.parent = some g.parent) && !p.rehanged
  { upos := if p.upos = g.upos then 1 else 0
    xpos := if p.xpos = g.xpos then 1 else 0
    lemmas := if g.lemma = ['_'] ∨ p.lemma = g.lemma then 1 else 0
    ufeats := if feats then 1 else 0
    allTags := if feats ∧ p.upos = g.upos ∧ p.xpos = g.xpos then 1 else 0
    uas := if head then 1 else 0
    las := if head then (if p.udeprel = g.udeprel then 1 else 0) else 0
    clas := if head then (if p.udeprel = g.udeprel then (if inSet content g.udeprel then 1 else 0) else 0) else 0
    blex := if head then (if p.udeprel = g.udeprel then (if inSet content g.udeprel then
      (if g.lemma = ['_'] ∨ g.lemma = p.lemma then 1 else 0) else 0) else 0) else 0
    mlas := if head then (if p.udeprel = g.udeprel then (if inSet content g.udeprel then
      (if morphoMatch pred gold al x.1 x.2 then (if p.funcMissing then 0 else 1) else 0) else 0) else 0) else 0 }

/-- The counts known before the loop over the aligned pairs (conll18.py:150-156). -/
def baseCount (pred gold : List Word) (al : List (Nat × Nat)) : Count where
  pred := pred.length
  gold := gold.length
  words := al.length
  predCont := (pred.filter (fun w => inSet content w.udeprel)).length
  goldCont := (gold.filter (fun w => inSet content w.udeprel)).length
  aligCont := (al.filter (fun x => inSet content (wordAt gold x.2).udeprel)).length

/-- `process_tree` (conll18.py:131-176) for a predicted and a gold tree: what it adds to `total_count`. -/
def treeCount (lower : Str → Str) (pred gold : List Word) : Count :=
  let al := align lower pred gold
  (al.map (pairCount pred gold al)).foldl Count.add (baseCount pred gold al)

/-- `total_count` after all the trees. -/
def totalCount (lower : Str → Str) (ts : List (List Word × List Word)) : Count :=
  (ts.map (fun t => treeCount lower t.1 t.2)).foldl Count.add {}

/-- `prec_rec_f1` (conll18.py:234-239, conll17.py:185-190): precision, recall, F1 and aligned accuracy. Simplified: rational
numbers in place of floating point numbers. -/
def precRecF1 (correct pred gold alig : Nat) : Rat × Rat × Rat × Rat :=
  (if pred = 0 then 0 else (correct : Rat) / (pred : Nat),
   if gold = 0 then 0 else (correct : Rat) / (gold : Nat),
   if pred + gold = 0 then 0 else 2 * (correct : Rat) / ((pred + gold : Nat) : Rat),
   if alig = 0 then 0 else (correct : Rat) / (alig : Nat))

/-- The metrics printed by `process_end` (conll18.py:209-210). -/
inductive Metric where
  | words | upos | xpos | ufeats | allTags | lemmas | uas | las | clas | mlas | blex
  deriving DecidableEq

def Metric.correct (c : Count) : Metric → Nat
  | .words => c.words | .upos => c.upos | .xpos => c.xpos | .ufeats => c.ufeats | .allTags => c.allTags
  | .lemmas => c.lemmas | .uas => c.uas | .las => c.las | .clas => c.clas | .mlas => c.mlas | .blex => c.blex

/-- Is the metric restricted to content words (conll18.py:218-223)? -/
def Metric.cont : Metric → Bool
  | .clas | .mlas | .blex => true
  | _ => false

/-- The line of a metric (conll18.py:216-231). -/
def Metric.scores (c : Count) (m : Metric) : Rat × Rat × Rat × Rat :=
  if m.cont then precRecF1 (m.correct c) c.predCont c.goldCont c.aligCont
  else precRecF1 (m.correct c) c.pred c.gold c.words

/-- `count[key]` (a `Counter` gives 0 for an unknown key). -/
def Count.get (c : Count) (key : String) : Nat :=
  match key with
  | "pred" => c.pred | "gold" => c.gold | "Words" => c.words
  | "pred_cont" => c.predCont | "gold_cont" => c.goldCont | "alig_cont" => c.aligCont
  | "UPOS" => c.upos | "XPOS" => c.xpos | "Lemmas" => c.lemmas | "UFeats" => c.ufeats | "AllTags" => c.allTags
  | "UAS" => c.uas | "LAS" => c.las | "CLAS" => c.clas | "BLEX" => c.blex | "MLAS" => c.mlas
  | _ => 0

/-- What `print_raw` prints for a sentence (conll18.py:178-184). -/
def rawScores (printRaw : String) (c : Count) : List Nat :=
  if printRaw = "CLAS" ∨ printRaw = "BLEX" ∨ printRaw = "MLAS" then
    ["pred_cont", "gold_cont", "alig_cont", printRaw].map c.get
  else ["pred", "gold", "Words", printRaw].map c.get

/-! ## `eval.Conll17` -/

/-- `Counter()` with the keys of conll17.py:144-153. -/
structure Count17 where
  upos : Nat := 0
  xpos : Nat := 0
  feats : Nat := 0
  lemma : Nat := 0
  uas : Nat := 0
  las : Nat := 0
  clas : Nat := 0
  deriving DecidableEq

def Count17.add (a b : Count17) : Count17 where
  upos := a.upos + b.upos
  xpos := a.xpos + b.xpos
  feats := a.feats + b.feats
  lemma := a.lemma + b.lemma
  uas := a.uas + b.uas
  las := a.las + b.las
  clas := a.clas + b.clas

/-- What one aligned pair adds (conll17.py:144-153). -/
def pairCount17 (pred gold : List Word) (al : List (Nat × Nat)) (x : Nat × Nat) : Count17 :=
  let p := wordAt pred x.1
  let g := wordAt gold x.2
  let head := decide (mapGet al p.parent = some g.parent)
  { upos := if p.upos = g.upos then 1 else 0
    xpos := if p.xpos = g.xpos then 1 else 0
    feats := if p.feats = g.feats then 1 else 0
    lemma := if p.lemma = g.lemma then 1 else 0
    uas := if head then 1 else 0
    las := if head then (if p.udeprel = g.udeprel then 1 else 0) else 0
    clas := if head then (if p.udeprel = g.udeprel then (if inSet clasIgnore g.udeprel then 0 else 1) else 0) else 0 }

/-- `process_tree` (conll17.py:118-154): the counts of the aligned pairs. -/
def treeCount17 (lower : Str → Str) (pred gold : List Word) : Count17 :=
  let al := align lower pred gold
  (al.map (pairCount17 pred gold al)).foldl Count17.add {}

end Conll
end Verif.Eval
