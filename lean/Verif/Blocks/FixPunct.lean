import Verif.Blocks.PunctChild
import Verif.Tree.Nonproj

/-!
# Property C113: ud.FixPunct (udapi/block/ud/fixpunct.py)

Left out: `copy_to_enhanced` (fixpunct.py:114-115, 121-124), which writes the enhanced dependencies only, and nodes without a form.
-/

namespace Verif.Blocks.Punct
open Verif.Py Verif.Tree Verif.Deprel

/-- What the block reads of the nodes: `node.upos == 'PUNCT'`, `node.form`, and its option `check_paired_punct_upos`. -/
structure Info where
  punct : Nat → Bool
  form : Nat → Str
  checkUpos : Bool

/-- `a in b` for strings -/
def isSub (a : Str) : Str → Bool
  | [] => a.isEmpty
  | c :: b => a.isPrefixOf (c :: b) || isSub a b

/-- `PAIRED_PUNCT` (fixpunct.py:24-39) -/
def pairs : List (Str × Str) :=
  [(['('], [')']), (['['], [']']), (['{'], ['}']), (['"'], ['"']), (['\''], ['\'']), (['“'], ['”']), (['„'], ['“']), (['«'], ['»']),
    (['‹'], ['›']), (['《'], ['》']), (['「'], ['」']), (['『'], ['』']), (['¿'], ['?']), (['¡'], ['!'])]

/-- the string `'"` (fixpunct.py:69, 220) -/
def quotes : Str := ['\'', '"']

/-- `FINAL_PUNCT` (fixpunct.py:41) -/
def finalPunct : Str := ['.', '?', '!']

/-- `_is_punct` (fixpunct.py:64-73) -/
def isPunct (I : Info) (x : Nat) : Bool :=
  if I.punct x then true
  else if I.checkUpos then false
  else if isSub (I.form x) quotes then false
  else pairs.any (fun pr => pr.1 = I.form x) || pairs.any (fun pr => pr.2 = I.form x)

/-- Values of `_punct_type`, a list indexed by ord. -/
inductive PType where
  | opening
  | closing
  deriving DecidableEq, Repr

/-- `while self._is_punct(node.parent): node.parent = node.parent.parent` for all words (fixpunct.py:79-81): the loop of
ud.FixPunctChild with another test. -/
def noPunctChildren (I : Info) (h : Heap) (r : Nat) : Heap × Option Err :=
  fixPunctChild h (fun a => if isPunct I a then some sPunct else none) r

/-- `_causes_gap` (fixpunct.py:215-216). `none`: an exception, or a loop that does not end. -/
def causesGap (h : Heap) (x : Nat) : Option Bool :=
  match isNonprojectiveGap h x with
  | none => none
  | some false => some false
  | some true =>
    match h.parent x with
    | none => none
    | some p => (isNonprojectiveGap h p).map (fun b => !b)

/-! ## Paired punctuation -/

/-- The loop of `_fix_paired_punct` (fixpunct.py:222-231). -/
def findClosing (I : Info) (op cl : Str) : Nat → List Nat → Option Nat
  | _, [] => none
  | lvl, n :: ns =>
    if I.form n = cl then
      if 0 < lvl then findClosing I op cl (lvl - 1) ns else some n
    else if I.form n = op then findClosing I op cl (lvl + 1) ns
    else findClosing I op cl lvl ns

/-- What one node adds to `heads` and `punct_heads` (fixpunct.py:239-257). -/
def pairHead (h : Heap) (o c x : Nat) : Option Nat :=
  if x = o ∨ x = c then none
  else
    match h.parent x with
    | none => none
    | some p =>
      if h.ord o < h.ord x ∧ h.ord x < h.ord c then
        if h.ord p < h.ord o ∨ h.ord c < h.ord p then some x else none
      else if h.ord o < h.ord p ∧ h.ord p < h.ord c then some p
      else none

/-- `heads` after the sorting (fixpunct.py:237-279) -/
def pairHeads (I : Info) (h : Heap) (r o c : Nat) : List Nat :=
  let all := (h.words r).filterMap (pairHead h o c)
  let heads := all.filter (fun x => !I.punct x)
  sortNodes h.ord (if heads = [] then all.filter I.punct else heads)

/-- `self._causes_gap(node)` or one of the other reasons to go on (fixpunct.py:294-295, 300-301) -/
def pairBad (I : Info) (h : Heap) (x p : Nat) : Option Bool :=
  if I.punct p then some true
  else
    match isNonprojective h x with
    | none => none
    | some true => some true
    | some false => causesGap h x

/-- `opening_node.parent = opening_node.parent.next_node` as long as the parent is bad (fixpunct.py:293-296) -/
def moveOpening (I : Info) (o c : Nat) : Nat → Heap → Heap × Option Err
  | 0, h => (h, some .diverges)
  | fuel + 1, h =>
    match h.parent o with
    | none => (h, some .attributeError)
    | some p =>
      if h.ord p < h.ord c - 1 then
        match pairBad I h o p with
        | none => (h, some .diverges)
        | some false => (h, none)
        | some true =>
          match setParent h o (nextNode h p) with
          | (h', some e) => (h', some e)
          | (h', none) => moveOpening I o c fuel h'
      else (h, none)

/-- The same for the closing node (fixpunct.py:299-302) -/
def moveClosing (I : Info) (o c : Nat) : Nat → Heap → Heap × Option Err
  | 0, h => (h, some .diverges)
  | fuel + 1, h =>
    match h.parent c with
    | none => (h, some .attributeError)
    | some p =>
      if h.ord o + 1 < h.ord p then
        match pairBad I h c p with
        | none => (h, some .diverges)
        | some false => (h, none)
        | some true =>
          match setParent h c (prevNode h p) with
          | (h', some e) => (h', some e)
          | (h', none) => moveClosing I o c fuel h'
      else (h, none)

/-- `if self._causes_gap(opening_node)` (fixpunct.py:291-296) -/
def repairOpening (I : Info) (h : Heap) (o c : Nat) : Heap × Option Err :=
  match causesGap h o with
  | none => (h, some .diverges)
  | some false => (h, none)
  | some true =>
    match setParent h o (nextNode h o) with
    | (h', some e) => (h', some e)
    | (h', none) => moveOpening I o c (h.next + 1) h'

/-- `if self._causes_gap(closing_node)` (fixpunct.py:297-302) -/
def repairClosing (I : Info) (h : Heap) (o c : Nat) : Heap × Option Err :=
  match causesGap h c with
  | none => (h, some .diverges)
  | some false => (h, none)
  | some true =>
    match setParent h c (prevNode h c) with
    | (h', some e) => (h', some e)
    | (h', none) => moveClosing I o c (h.next + 1) h'

/-- Trees and `_punct_type`. -/
abbrev PState := Heap × (Nat → Option PType)

/-- `_fix_pair` (fixpunct.py:233-302) -/
def fixPair (I : Info) (r : Nat) (s : PState) (o c : Nat) : PState × Option Err :=
  match pairHeads I s.1 r o c with
  | [] => (s, none)
  | f :: rest =>
    match setParent s.1 o (some f) with
    | (h1, some e) => ((h1, s.2), some e)
    | (h1, none) =>
      match setParent h1 c (some ((f :: rest).getLastD f)) with
      | (h2, some e) => ((h2, s.2), some e)
      | (h2, none) =>
        let ty := upd (upd s.2 (s.1.ord o) (some .opening)) (s.1.ord c) (some .closing)
        match repairOpening I h2 o c with
        | (h3, some e) => ((h3, ty), some e)
        | (h3, none) =>
          match repairClosing I h3 o c with
          | (h4, e) => ((h4, ty), e)

/-- The second loop of `process_tree` with `_fix_paired_punct` (fixpunct.py:90-94, 218-231) for one node. -/
def pairStep (I : Info) (r : Nat) (s : PState) (x : Nat) : PState × Option Err :=
  if s.2 (s.1.ord x) = some .closing then (s, none)
  else
    match pairs.lookup (I.form x) with
    | none => (s, none)
    | some cl =>
      if (I.checkUpos || isSub (I.form x) quotes) && !I.punct x then (s, none)
      else
        match findClosing I (I.form x) cl 0 ((s.1.words r).drop (s.1.ord x)) with
        | none => (s, none)
        | some c => fixPair I r s x c

/-! ## Other punctuation -/

/-- `node.descendants(add_self=1)` -/
def withSelf (h : Heap) (x : Nat) : Option (List Nat) := (descendants h x).map (fun ds => sortNodes h.ord (ds ++ [x]))

/-- Punctuation around the subtree of the parent `p` (fixpunct.py:137-140); `pd` are `p` and its descendants. -/
def asPair (I : Info) (h : Heap) (x p : Nat) (pd : List Nat) : Bool :=
  match pd.head?, pd.getLast? with
  | some f, some l =>
    decide (x = f ∨ x = l) && decide (pd.length + h.ord f = h.ord l + 1) && I.punct f && I.punct l &&
      decide (h.parent f = some p) && decide (h.parent l = some p)
  | _, _ => false

/-- `while l_cand.ord > 0 and l_cand.upos == 'PUNCT'` (fixpunct.py:147-151). The outer `none` is an exception. -/
def leftCand (I : Info) (ty : Nat → Option PType) (h : Heap) (x : Nat) : Nat → Nat → Option (Option Nat)
  | 0, _ => none
  | fuel + 1, l =>
    if 0 < h.ord l ∧ I.punct l then
      if ty (h.ord l) = some .opening ∧ h.parent l ≠ some x then some none
      else
        match prevNode h l with
        | none => none
        | some l' => leftCand I ty h x fuel l'
    else some (some l)

/-- `while r_cand is not None and r_cand.upos == 'PUNCT'` (fixpunct.py:152-156) -/
def rightCand (I : Info) (ty : Nat → Option PType) (h : Heap) (x : Nat) : Nat → Option Nat → Option (Option Nat)
  | _, none => some none
  | 0, some _ => none
  | fuel + 1, some c =>
    if I.punct c then
      if ty (h.ord c) = some .closing ∧ h.parent c ≠ some x then some none
      else rightCand I ty h x fuel (nextNode h c)
    else some (some c)

/-- The path of the left candidate (fixpunct.py:165-168) -/
def leftPath (h : Heap) (x : Nat) : Nat → Nat → Option (List Nat)
  | 0, _ => none
  | fuel + 1, c =>
    match h.parent c with
    | none => none
    | some p =>
      if isRoot h p = false ∧ h.ord p < h.ord x then
        match (withSelf h c).bind List.getLast? with
        | none => none
        | some l => if h.ord x < h.ord l then some [c] else (leftPath h x fuel p).map (fun ps => c :: ps)
      else some [c]

/-- The path of the right candidate (fixpunct.py:169-173) -/
def rightPath (h : Heap) (x : Nat) : Nat → Nat → Option (List Nat)
  | 0, _ => none
  | fuel + 1, c =>
    match h.parent c with
    | none => none
    | some p =>
      if isRoot h p = false ∧ h.ord x < h.ord p then
        match (withSelf h c).bind List.head? with
        | none => none
        | some f => if h.ord f < h.ord x then some [c] else (rightPath h x fuel p).map (fun ps => c :: ps)
      else some [c]

/-- The rest of `_will_be_projective` after the assignment (fixpunct.py:213) -/
def projHere (h : Heap) (x : Nat) : Option Bool :=
  match isNonprojective h x with
  | none => none
  | some true => some false
  | some false => (causesGap h x).map (fun b => !b)

/-- `[n for n in path if n and self._will_be_projective(node, n)]` (fixpunct.py:178-179, 211-213): the tree afterwards, and the
list. -/
def keepProj (x : Nat) : Heap → List Nat → (Heap × List Nat) × Option Err
  | h, [] => ((h, []), none)
  | h, n :: ns =>
    match setParent h x (some n) with
    | (h', some e) => ((h', []), some e)
    | (h', none) =>
      match projHere h' x with
      | none => ((h', []), some .diverges)
      | some b =>
        match keepProj x h' ns with
        | ((h2, l), e) => ((h2, if b then n :: l else l), e)

/-- The choice between the two candidates (fixpunct.py:180-197): `cand` and `path`. The outer `none` is an exception. -/
def choose (h : Heap) (lp rp : List Nat) : Option (Option (Nat × List Nat)) :=
  match lp.getLast?, rp.getLast? with
  | none, none => some none
  | some l, none => some (some (l, lp ++ rp))
  | none, some c => some (some (c, lp ++ rp))
  | some l, some c =>
    match isDescendantOf h l c with
    | none => none
    | some true => some (some (l, lp))
    | some false =>
      match isDescendantOf h c l with
      | none => none
      | some true => some (some (c, rp))
      | some false => some (some (l, lp ++ rp))

/-- `if node.parent not in path: node.parent = cand` and `node.deprel = 'punct'` (fixpunct.py:207-209) -/
def attachTo (s : Heap × Rels) (x p cand : Nat) (path : List Nat) : (Heap × Rels) × Option Err :=
  if p ∈ path then ((s.1, upd s.2 x (some sPunct)), none)
  else
    match setParent s.1 x (some cand) with
    | (h', some e) => ((h', s.2), some e)
    | (h', none) => ((h', upd s.2 x (some sPunct)), none)

/-- The part of `_fix_subord_punct` from the filtering of the candidates on (fixpunct.py:177-209) -/
def reattach (s : Heap × Rels) (x p : Nat) (lpath rpath : List Nat) : (Heap × Rels) × Option Err :=
  match keepProj x s.1 lpath with
  | ((h1, _), some e) => ((h1, s.2), some e)
  | ((h1, lp), none) =>
    match keepProj x h1 rpath with
    | ((h2, _), some e) => ((h2, s.2), some e)
    | ((h2, rp), none) =>
      match setParent h2 x (some p) with
      | (h3, some e) => ((h3, s.2), some e)
      | (h3, none) =>
        match choose h3 lp rp with
        | none => ((h3, s.2), some .diverges)
        | some none => ((h3, s.2), none)
        | some (some (cand, path)) => attachTo (h3, s.2) x p cand path

/-- `l_path` before the filtering (fixpunct.py:144, 147-151, 161-168) -/
def leftPaths (I : Info) (ty : Nat → Option PType) (h : Heap) (x : Nat) : Option (List Nat) :=
  match prevNode h x with
  | none => none
  | some l0 =>
    match leftCand I ty h x (h.next + 1) l0 with
    | none => none
    | some none => some []
    | some (some l) => if isRoot h l then some [] else leftPath h x (h.next + 1) l

/-- `r_path` before the filtering (fixpunct.py:144-146, 152-156, 169-173) -/
def rightPaths (I : Info) (ty : Nat → Option PType) (h : Heap) (x : Nat) : Option (List Nat) :=
  match rightCand I ty h x (h.next + 1) (if isSub (I.form x) finalPunct then none else nextNode h x) with
  | none => none
  | some none => some []
  | some (some c) => rightPath h x (h.next + 1) c

/-- `_fix_subord_punct` (fixpunct.py:126-209) -/
def fixSubord (I : Info) (ty : Nat → Option PType) (s : Heap × Rels) (x : Nat) : (Heap × Rels) × Option Err :=
  match s.1.parent x with
  | none => (s, some .attributeError)
  | some p =>
    if I.form x = ['.'] ∧ prevNode s.1 x = some p then (s, none)
    else
      match withSelf s.1 p with
      | none => (s, some .diverges)
      | some pd =>
        if asPair I s.1 x p pd then (s, none)
        else
          match leftPaths I ty s.1 x, rightPaths I ty s.1 x with
          | some lp, some rp => reattach s x p lp rp
          | _, _ => (s, some .diverges)

/-- The third loop (fixpunct.py:97-99) for one node. -/
def subordStep (I : Info) (ty : Nat → Option PType) (s : Heap × Rels) (x : Nat) : (Heap × Rels) × Option Err :=
  if I.punct x ∧ ty (s.1.ord x) = none then fixSubord I ty s x else (s, none)

/-! ## The root -/

/-- `for a_subroot in root.children: if a_subroot != selected_subroot: a_subroot.parent = selected_subroot` (fixpunct.py:106-108) for
one node -/
def subrootStep (sel : Nat) (h : Heap) (x : Nat) : Heap × Option Err := if x = sel then (h, none) else setParent h x (some sel)

/-- fixpunct.py:104-108 -/
def oneSubroot (h : Heap) (d : Rels) (r : Nat) : Heap × Option Err :=
  match h.children r with
  | c0 :: c1 :: cs =>
    let sel := ((c0 :: c1 :: cs).find? (fun n => getU (d n) = some dRoot)).getD c0
    forNodes (subrootStep sel) h (c0 :: c1 :: cs)
  | _ => (h, none)

/-- `if another_node.udeprel == 'root': another_node.udeprel = 'punct'` (fixpunct.py:116-118) -/
def unroot (d : Rels) : List Nat → Rels
  | [] => d
  | n :: ns => unroot (if getU (d n) = some dRoot then upd d n (setU sPunct (d n)) else d) ns

/-- fixpunct.py:112-118 -/
def rootRel (h : Heap) (d : Rels) (r : Nat) : Rels × Option Err :=
  match h.children r with
  | [] => (d, some .indexError)
  | c :: _ =>
    if getU (d c) = some dRoot then (d, none)
    else
      match descendants h c with
      | none => (d, some .diverges)
      | some ds => (unroot (upd d c (setU dRoot (d c))) ds, none)

/-- `ud.FixPunct.process_tree` (fixpunct.py:75-124) -/
def fixPunct (I : Info) (h : Heap) (d : Rels) (r : Nat) : (Heap × Rels) × Option Err :=
  match noPunctChildren I h r with
  | (h1, some e) => ((h1, d), some e)
  | (h1, none) =>
    match forNodes (pairStep I r) (h1, fun _ => none) (h1.words r) with
    | ((h2, _), some e) => ((h2, d), some e)
    | ((h2, ty), none) =>
      match forNodes (subordStep I ty) (h2, d) (h2.words r) with
      | ((h3, d3), some e) => ((h3, d3), some e)
      | ((h3, d3), none) =>
        match oneSubroot h3 d3 r with
        | (h4, some e) => ((h4, d3), some e)
        | (h4, none) =>
          match rootRel h4 d3 r with
          | (d4, e) => ((h4, d4), e)

end Verif.Blocks.Punct
