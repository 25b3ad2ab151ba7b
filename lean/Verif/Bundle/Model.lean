import Verif.Py.Str
import Verif.Py.Num

/-!
# Model of bundles, zones and addresses

Trees (roots) and bundles are natural numbers. Simplified: `root.json['__doc__']` (bundle.py:98-101) is left
out, and so are the nodes of the trees.
-/

namespace Verif.Bundle
open Verif.Py

/-- `bundle.trees`, `bundle._bundle_id`, `root._zone`, `root._bundle`, `root._sent_id`; trees from `next`
on do not exist yet. -/
structure St where
  trees : Nat → List Nat
  bid : Nat → Option Str
  zone : Nat → Option Str
  bundleOf : Nat → Option Nat
  sentId : Nat → Option Str
  next : Nat

inductive Err where
  | valueError
  | exception
  | typeError
  | attributeError
  deriving DecidableEq, Repr

/-- `[a-z-]` -/
def lowerDash (c : Char) : Bool := (97 ≤ c.toNat && c.toNat ≤ 122) || c == '-'

/-- `[A-Za-z0-9-]` -/
def alnumDash (c : Char) : Bool :=
  (65 ≤ c.toNat && c.toNat ≤ 90) || (97 ≤ c.toNat && c.toNat ≤ 122) || (48 ≤ c.toNat && c.toNat ≤ 57) || c == '-'

/-- `$` in a Python regular expression: at the end, or before a final newline. -/
def atEnd (s : Str) : Bool := s == [] || s == ['\n']

/-- `VALID_ZONE_REGEX.match(zone)` with `^[a-z-]*(_[A-Za-z0-9-]+)?$` (bundle.py:8). The character classes
do not contain `_` or a newline, so greedy matching needs no backtracking. -/
def zoneMatch (z : Str) : Bool :=
  match z.dropWhile lowerDash with
  | '_' :: r => (r.takeWhile alnumDash != []) && atEnd (r.dropWhile alnumDash)
  | r => atEnd r

/-- `Bundle.check_zone` (bundle.py:79-87) -/
def checkZone (s : St) (b : Nat) (z : Str) : Option Err :=
  if ¬ zoneMatch z then some .valueError
  else if z = ['a', 'l', 'l'] then some .valueError
  else if some z ∈ (s.trees b).map s.zone then some .exception
  else none

/-- Function update. -/
def upd (f : Nat → α) (x : Nat) (v : α) : Nat → α := fun y => if y = x then v else f y

/-- `Bundle.add_tree` (bundle.py:89-102) -/
def addTree (s : St) (b t : Nat) : St × Option Err :=
  let s1 := if s.zone t = none then { s with zone := upd s.zone t (some []) } else s
  let z := (s1.zone t).getD []
  match checkZone s1 b z with
  | some e => (s1, some e)
  | none =>
    let s2 :=
      match s1.bid b with
      | some (c :: i) =>
        { s1 with sentId := upd s1.sentId t (some (if z ≠ [] then (c :: i) ++ '/' :: z else c :: i)) }
      | _ => s1
    ({ s2 with bundleOf := upd s2.bundleOf t (some b), trees := upd s2.trees b (s2.trees b ++ [t]) }, none)

/-- `Bundle.create_tree` (bundle.py:72-77) -/
def createTree (s : St) (b : Nat) (z : Option Str) : St × Option Err :=
  let s1 := { s with
    zone := upd s.zone s.next z
    bundleOf := upd s.bundleOf s.next none
    sentId := upd s.sentId s.next none
    next := s.next + 1 }
  addTree s1 b s.next

/-- `root.remove()` (root.py:139-150). `_bundle` of the root keeps its value. -/
def removeTree (s : St) (t : Nat) : St × Option Err :=
  match s.bundleOf t with
  | none => (s, some .attributeError)
  | some b => ({ s with trees := upd s.trees b ((s.trees b).filter (fun u => u ≠ t)) }, none)

/-- `bundle.address()` (bundle.py:112-114) -/
def bundleAddress (s : St) (b : Nat) : Str :=
  match s.bid b with
  | none => ['?']
  | some i => i

/-- `'/' + zone if zone else ''` -/
def slashZone (z : Str) : Str := if z ≠ [] then '/' :: z else []

/-- `root.zone = zone` (root.py:91-104) -/
def setZone (s : St) (t : Nat) (z : Str) : St × Option Err :=
  match s.bundleOf t with
  | some b =>
    match checkZone s b z with
    | some e => (s, some e)
    | none =>
      ({ s with zone := upd s.zone t (some z),
                sentId := upd s.sentId t (some (bundleAddress s b ++ slashZone z)) }, none)
  | none =>
    let i :=
      match s.sentId t with
      | some (c :: i) => (splitOnce '/' (c :: i)).1
      | _ => ['?']
    ({ s with zone := upd s.zone t (some z), sentId := upd s.sentId t (some (i ++ slashZone z)) }, none)

/-- `bundle.bundle_id = id` (bundle.py:31-38). The trees of a bundle have a zone that is not `None`. -/
def setBundleId (s : St) (b : Nat) (i : Str) : St :=
  let sentId :=
    match s.trees b with
    | [t] => if s.zone t = some [] then upd s.sentId t (some i)
             else upd s.sentId t (some (i ++ '/' :: (s.zone t).getD []))
    | ts => fun u => if u ∈ ts then some (i ++ '/' :: (s.zone u).getD []) else s.sentId u
  { s with bid := upd s.bid b (some i), sentId := sentId }

/-- `root.sent_id = id` (root.py:53-61) -/
def setSentId (s : St) (t : Nat) (i : Str) : St × Option Err :=
  match s.bundleOf t with
  | none => ({ s with sentId := upd s.sentId t (some i) }, none)
  | some b =>
    let s1 := setBundleId s b (splitOnce '/' i).1
    match (splitOnce '/' i).2 with
    | none => ({ s1 with sentId := upd s1.sentId t (some i) }, none)
    | some z =>
      match setZone s1 t z with
      | (s2, some e) => (s2, some e)
      | (s2, none) => ({ s2 with sentId := upd s2.sentId t (some i) }, none)

/-- `root.sent_id` (root.py:42-51): the new state and the value. -/
def getSentId (s : St) (t : Nat) : St × Str :=
  match s.sentId t with
  | some i => (s, i)
  | none =>
    let z := slashZone ((s.zone t).getD [])
    match s.bundleOf t with
    | some b => ({ s with sentId := upd s.sentId t (some (bundleAddress s b ++ z)) }, bundleAddress s b ++ z)
    | none => (s, '?' :: z)

/-- `bundle.get_tree(zone)` (bundle.py:54-63) -/
def getTree (s : St) (b : Nat) (z : Str) : Except Err Nat :=
  match (s.trees b).filter (fun t => s.zone t = some z) with
  | [t] => .ok t
  | _ => .error .exception

/-- `bundle.has_tree(zone)` (bundle.py:65-70) -/
def hasTree (s : St) (b : Nat) (z : Str) : Bool := (s.trees b).any (fun t => s.zone t = some z)

/-- Calls by the user. -/
inductive Op where
  | newTree (z : Option Str)
  | create (b : Nat) (z : Option Str)
  | add (b t : Nat)
  | remove (t : Nat)
  | setZone (t : Nat) (z : Str)
  | setBundleId (b : Nat) (i : Str)
  | setSentId (t : Nat) (i : Str)
  | getSentId (t : Nat)
  deriving DecidableEq, Repr

def step (s : St) : Op → St × Option Err
  | .newTree z => ({ s with zone := upd s.zone s.next z, bundleOf := upd s.bundleOf s.next none,
                            sentId := upd s.sentId s.next none, next := s.next + 1 }, none)
  | .create b z => createTree s b z
  | .add b t => addTree s b t
  | .remove t => removeTree s t
  | .setZone t z => setZone s t z
  | .setBundleId b i => (setBundleId s b i, none)
  | .setSentId t i => setSentId s t i
  | .getSentId t => ((getSentId s t).1, none)

/-! ## Documents -/

/-- `document.bundles` with the number and the id of each bundle, and `_highest_bundle_id`. -/
structure Doc where
  bundles : List Nat
  number : Nat → Nat
  id : Nat → Str
  highest : Nat
  next : Nat

/-- `Document()` (document.py:27-29) -/
def Doc.init : Doc := ⟨[], fun _ => 0, fun _ => [], 0, 0⟩

/-- `document.create_bundle()` (document.py:58-64); the new bundle is `d.next`. -/
def createBundle (d : Doc) : Doc :=
  { bundles := d.bundles ++ [d.next]
    number := upd d.number d.next (d.bundles ++ [d.next]).length
    id := upd d.id d.next (natStr (d.highest + 1))
    highest := d.highest + 1
    next := d.next + 1 }

/-- `for i, bundle in enumerate(bundles): bundle.number = i` (bundle.py:109-110) -/
def enumerate : Nat → List Nat → (Nat → Nat) → (Nat → Nat)
  | _, [], f => f
  | i, b :: bs, f => enumerate (i + 1) bs (upd f b i)

/-- `bundle.remove()` (bundle.py:106-110) -/
def removeBundle (d : Doc) (b : Nat) : Doc :=
  let bs := d.bundles.filter (fun x => x ≠ b)
  { d with bundles := bs, number := enumerate 0 bs d.number }

inductive DocOp where
  | create
  | remove (b : Nat)
  | setId (b : Nat) (i : Str)
  deriving DecidableEq, Repr

def docStep (d : Doc) : DocOp → Doc
  | .create => createBundle d
  | .remove b => removeBundle d b
  | .setId b i => { d with id := upd d.id b i }

end Verif.Bundle
