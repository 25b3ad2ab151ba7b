import Verif.Text.Compute
import Verif.DualDict.Spec

/-!
# ud.AddMwt (udapi/block/ud/addmwt.py)

`process_node` with the analysis of the node given, for every analysis that a subclass may return. FEATS and MISC are plain
mappings (property C01: the class `DualDict` behaves like them). Simplified: the attributes of the analysis are given already
split at white space; `main` is not negative; `postprocess_mwt` does nothing (line 111-113); empty nodes and enhanced
dependencies are left out. `str.isupper`, `str.upper` and `str.title` are parameters. The multi-word token of a word is found
in the list of tokens (the slot `_mwt`, property C22); new nodes are moved to their place as in property C14.
-/

namespace Verif.Text.AddMwt
open Verif.Py Verif.DualDict
open Verif.DualDict.Spec (Map)

/-- A word. The technical root is the node `0`. -/
structure Wd where
  id : Nat
  parent : Nat
  form : Str
  lemma : Option Str := none
  upos : Option Str := none
  xpos : Option Str := none
  deprel : Option Str := none
  feats : Map := fun _ => none
  misc : Map := fun _ => none

/-- A multi-word token; `words` are the ids of its words. -/
structure Tk where
  words : List Nat
  form : Str
  misc : Map

/-- A tree: the words in their order, the multi-word tokens, the id of the next new node. -/
structure Sent where
  ws : List Wd
  mwts : List Tk
  next : Nat

/-- The analysis of `multiword_analysis` (addmwt.py:89-106). -/
structure An where
  form : List Str
  main : Nat := 0
  subtree : Bool := false
  lemma : Option (List Str) := none
  upos : Option (List Str) := none
  xpos : Option (List Str) := none
  feats : Option (List Str) := none
  deprel : Option (List Str) := none
  misc : Option (List Str) := none

/-- `str.isupper`, `str.upper` and `str.title` -/
structure Case where
  isUpper : Str → Bool
  upper : Str → Str
  title : Str → Str

/-- `'SpaceAfter'` -/
def sa : Str := ['S', 'p', 'a', 'c', 'e', 'A', 'f', 't', 'e', 'r']
/-- `'SpacesAfter'` -/
def ssa : Str := ['S', 'p', 'a', 'c', 'e', 's', 'A', 'f', 't', 'e', 'r']
/-- `'SpacesBefore'` -/
def ssb : Str := ['S', 'p', 'a', 'c', 'e', 's', 'B', 'e', 'f', 'o', 'r', 'e']
/-- `'Entity'` -/
def ent : Str := ['E', 'n', 't', 'i', 't', 'y']

/-- `misc['SpaceAfter'] == 'No'` -/
def noSpace (m : Map) : Bool := m sa == some (.str ['N', 'o'])

/-- `bool(misc[a])` (numbers and other objects are left out) -/
def truthy (v : Option Val) : Bool := match v with | none => false | some v => v != .str []

/-- `misc[k] = v` -/
def put (m : Map) (k : Str) (v : Option Val) : Map := fun k' => if k' = k then (if truthy v then v else none) else m k'

/-- `a.update(b)` of `MutableMapping`: `a[k] = b[k]` for every name of `b` -/
def merge (a b : Map) : Map := fun k => match b k with | none => a k | some v => if v = .str [] then none else some v

/-- The mapping written as `s` (`set_mapping`, dualdict.py:114-116) -/
def ofStr (s : Str) : Map := Spec.ofText Spec.ud (Spec.ud.storeStr s)

/-- `parent.create_child(form=form)` (node.py:433-440) -/
def newWd (id parent : Nat) (form : Str) : Wd := { id := id, parent := parent, form := form }

/-- The words for the forms of the analysis (addmwt.py:24-36): the new nodes before the node, the node, the new nodes after it.
`none` is an `IndexError` (`forms[main]`). -/
def build (o : Wd) (next : Nat) (a : An) : Option (List Wd) :=
  let par := if a.subtree then o.id else o.parent
  match a.form[a.main]? with
  | none => none
  | some f =>
    some ((a.form.take a.main).mapIdx (fun i g => newWd (next + i) par g) ++ { o with form := f } ::
      (a.form.drop (a.main + 1)).mapIdx (fun i g => newWd (next + a.main + i) par g))

/-- `nodes[0].form = nodes[0].form.title()` (addmwt.py:42) -/
def titleFirst (c : Case) : List Wd → List Wd
  | [] => []
  | w :: ws => { w with form := c.title w.form } :: ws

/-- The case of the letters (addmwt.py:38-42). `none` is an `IndexError` (`orig_attr['form'][0]`). -/
def recase (c : Case) (o : Wd) (g : List Wd) : Option (List Wd) :=
  if c.isUpper o.form then some (g.map (fun w => { w with form := c.upper w.form }))
  else
    match o.form with
    | [] => none
    | ch :: _ => some (if c.isUpper [ch] then titleFirst c g else g)

/-- The loop over the words for one attribute (addmwt.py:46-73); `f` is `setattr`. `none` is an `IndexError` (`values[i]`). -/
def fill (f : Wd → Str → Wd) : List Wd → List Str → Option (List Wd)
  | [], _ => some []
  | _ :: _, [] => none
  | w :: ws, v :: vs => (fill f ws vs).map (f w v :: ·)

/-- The loop if the analysis has the attribute (addmwt.py:46). -/
def fillIf (f : Wd → Str → Wd) (g : List Wd) : Option (List Str) → Option (List Wd)
  | none => some g
  | some vs => fill f g vs

/-- The value of an attribute: `*` is the original value (addmwt.py:53-54, 72-73). -/
def pick (o : Option Str) (v : Str) : Option Str := if v = ['*'] then o else some v

/-- The value of `feats` (addmwt.py:53-54, 67-73). -/
def pickFeats (o : Map) (v : Str) : Map :=
  if v = ['*'] then o
  else if '*' ∈ v then fun k => if ofStr v k = some (.str ['*']) then (if truthy (o k) then o k else none) else ofStr v k
  else ofStr v

/-- The names that stay with the token (addmwt.py:61). -/
def spaces : List Str := [sa, ssa, ssb]

/-- The loop over the words for `misc` (addmwt.py:46-73); `om` is `orig_attr['misc']`. -/
def fillMisc : Map → List Wd → List Str → Option (List Wd)
  | _, [], _ => some []
  | _, _ :: _, [] => none
  | om, w :: ws, v :: vs =>
    if v = ['*'] then
      (fillMisc (fun k => if k ∈ spaces ∧ truthy (om k) then om k else none) ws vs).map
        ({ w with misc := fun k => if k ∈ spaces ∧ truthy (om k) then none else om k } :: ·)
    else (fillMisc om ws vs).map ({ w with misc := ofStr v } :: ·)

/-- The words with their attributes (addmwt.py:44-73). -/
def attrs (o : Wd) (a : An) (g : List Wd) : Option (List Wd) :=
  let g := g.map (fun w => if w.id = o.id then { w with misc := fun _ => none } else w)
  (fillIf (fun w v => { w with lemma := pick o.lemma v }) g a.lemma).bind fun g =>
  (fillIf (fun w v => { w with upos := pick o.upos v }) g a.upos).bind fun g =>
  (fillIf (fun w v => { w with xpos := pick o.xpos v }) g a.xpos).bind fun g =>
  (fillIf (fun w v => { w with feats := pickFeats o.feats v }) g a.feats).bind fun g =>
  (fillIf (fun w v => { w with deprel := pick o.deprel v }) g a.deprel).bind fun g =>
  match a.misc with
  | none => some g
  | some vs => fillMisc o.misc g vs

/-- `nodes[0].misc['Entity'] = mwt_misc['Entity']` (addmwt.py:78) -/
def entFirst (v : Option Val) : List Wd → List Wd
  | [] => []
  | w :: ws => { w with misc := put w.misc ent v } :: ws

/-- The multi-word token of a word. -/
def mwtOf (mwts : List Tk) (x : Nat) : Option Tk := mwts.find? (fun t => x ∈ t.words)

/-- `word.misc["SpaceAfter"] = ""` for the words of a token (root.py:189-190) -/
def unspace (l : List Nat) (w : Wd) : Wd := if w.id ∈ l then { w with misc := put w.misc sa none } else w

/-- `root.create_multiword_token(words, form, misc)` (root.py:170-191) for words that belong to no token. -/
def create (ws : List Wd) (mwts : List Tk) (words : List Nat) (form : Str) (misc : Map) : List Wd × List Tk :=
  let no := ((ws.find? (fun w => some w.id = words.getLast?)).map (fun w => noSpace w.misc)).getD false
  (ws.map (unspace words), mwts ++ [{ words := words, form := form, misc := if no then put misc sa (some (.str ['N', 'o'])) else misc }])

/-- `mwt_words[mwt_words.index(node):mwt_words.index(node)+1] = nodes` (addmwt.py:86) -/
def subst (v : Nat) (l : List Nat) : List Nat → List Nat
  | [] => []
  | x :: xs => if x = v then l ++ xs else x :: subst v l xs

/-- The words before the node, the node, the words after it. -/
def locate (v : Nat) : List Wd → Option (List Wd × Wd × List Wd)
  | [] => none
  | w :: ws => if w.id = v then some ([], w, ws) else (locate v ws).map (fun (p, o, q) => (w :: p, o, q))

/-- `process_node(node)` for a node with an analysis (addmwt.py:12-90). `none`: an exception was raised. -/
def splitNode (c : Case) (s : Sent) (v : Nat) (a : An) : Option Sent :=
  (locate v s.ws).bind fun (pre, o, post) =>
  (build o s.next a).bind fun g =>
  (recase c o g).bind fun g =>
  (attrs o a g).bind fun g =>
  let e := truthy (o.misc ent)
  let g := if e then entFirst (o.misc ent) g else g
  let misc := if e then put o.misc ent none else o.misc
  let ws := pre ++ g ++ post
  let (ws, mwts) :=
    match mwtOf s.mwts v with
    | none => create ws s.mwts (g.map (·.id)) o.form misc
    | some t => create ws (s.mwts.filter (fun t => v ∉ t.words)) (subst v (g.map (·.id)) t.words) t.form (merge misc t.misc)
  some { ws := ws, mwts := mwts, next := s.next + (a.form.length - 1) }

/-- `process_node(node)` (addmwt.py:9-90) -/
def step (c : Case) (f : Sent → Nat → Option An) (s : Sent) (v : Nat) : Option Sent :=
  match f s v with
  | none => some s
  | some a => splitNode c s v a

/-- `process_tree` (core/block.py:55-62): the nodes that the tree has at the beginning, in their order. -/
def run (c : Case) (f : Sent → Nat → Option An) (s : Sent) : Option Sent :=
  (s.ws.map (·.id)).foldlM (step c f) s

/-! ## What it should do -/

/-- The words `ws` are the words of the tokens `l`, given by their forms and whether a space follows: each token is a word that
belongs to no multi-word token, or a multi-word token with its words, which belong to no other one. -/
inductive Tiles (mwts : List Tk) : List Wd → List (Str × Bool) → Prop
  | nil : Tiles mwts [] []
  | word {w : Wd} {ws : List Wd} {l : List (Str × Bool)} (h : ∀ t ∈ mwts, w.id ∉ t.words) (hr : Tiles mwts ws l) :
      Tiles mwts (w :: ws) ((w.form, noSpace w.misc) :: l)
  | mwt {t : Tk} {g ws : List Wd} {l : List (Str × Bool)} (ht : t ∈ mwts) (hg : g.map (·.id) = t.words) (hne : g ≠ [])
      (hu : ∀ t' ∈ mwts, ∀ x ∈ t.words, x ∈ t'.words → t' = t) (hr : Tiles mwts ws l) :
      Tiles mwts (g ++ ws) ((t.form, noSpace t.misc) :: l)

/-- The tree as `compute_text` and `token_descendants` see it. -/
def Sent.toTree (s : Sent) : Tree where
  words := s.ws.map (fun w => { form := w.form, no := noSpace w.misc, mwt := s.mwts.findIdx? (fun t => w.id ∈ t.words) })
  mwts := s.mwts.map (fun t => { form := t.form, no := noSpace t.misc, last := (s.ws.map (·.id)).idxOf (t.words.getLastD 0) + 1 })

/-- The nodes are different, and new nodes are new. -/
structure Wf (s : Sent) : Prop where
  nodup : (s.ws.map (·.id)).Nodup
  fresh : ∀ w ∈ s.ws, w.id < s.next
  words : ∀ t ∈ s.mwts, ∀ x ∈ t.words, x ∈ s.ws.map (·.id)

end Verif.Text.AddMwt
