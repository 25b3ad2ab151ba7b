import Verif.DualDict.Model

/-!
# Specification of the mapping classes

A plain mapping is a function from names to optional values. The specification says what each call
does to it, without strings, caches or insertion order.
-/

namespace Verif.DualDict.Spec
open Verif.Py Verif.DualDict

/-- A plain mapping. -/
abbrev Map := Str → Option Val

def empty : Map := fun _ => none

def update (m : Map) (k : Str) (v : Option Val) : Map := fun k' => if k' = k then v else m k'

/-- The mapping given by pairs: the last pair with a name wins. -/
def ofPairs (ps : List (Str × Val)) : Map :=
  fun k => (ps.reverse.find? (fun p => p.1 = k)).map (·.2)

/-- A written item: a name, or a name and a value separated by the first `kvSep`. -/
def itemOf (cfg : Cfg) (item : Str) : Str × Val :=
  ((splitOnce cfg.kvSep item).1,
    match (splitOnce cfg.kvSep item).2 with
    | some v => Val.str v
    | none => Val.tru)

/-- The mapping written as text: items separated by `itemSep`. -/
def ofText (cfg : Cfg) (s : Str) : Map :=
  if s = cfg.emptyStr then empty
  else ofPairs ((split cfg.itemSep s).map (itemOf cfg))

/-- Does assigning this value delete the name? (`None` and `''`) -/
def deletes : Option Val → Bool
  | none => true
  | some v => v = .str []

/-- The effect of a call on a plain mapping. -/
def step (cfg : Cfg) (m : Map) : Op → Map
  | .set k v =>
    if deletes v then update m k none
    else match v.bind cfg.storeVal with
      | some w => update m k (some w)
      | none => m
  | .del k => update m k none
  | .pop k => update m k none
  | .clear => empty
  | .setNone => empty
  | .setStr s => ofText cfg (cfg.storeStr s)
  | .setDict ps => ofPairs ps
  | _ => m

def run (cfg : Cfg) (m : Map) (ops : List Op) : Map := ops.foldl (step cfg) m

/-- The documented text form of FEATS and MISC: items joined by `|`, name and value by `=`, the empty
mapping is `_` (or the empty string when assigned), values are stored as given. -/
def ud : Cfg where
  itemSep := '|'
  kvSep := '='
  emptyStr := ['_']
  clearStr := ['_']
  storeStr := fun s => if s = [] then ['_'] else s
  storeVal := some

/-- A string with every comma written as `%2C`. -/
def noCommas (s : Str) : Str := s.flatMap (fun c => if c = ',' then ['%', '2', 'C'] else [c])

/-- The documented text form of the "other" attributes of entities: items joined by `,`, name and
value by `:`, the empty mapping is the empty string, string values are stored with escaped commas,
other values are refused. -/
def other : Cfg where
  itemSep := ','
  kvSep := ':'
  emptyStr := []
  clearStr := []
  storeStr := fun s => s
  storeVal := fun
    | .str s => some (.str (noCommas s))
    | _ => none

/-- Calls that do not modify the mapping. -/
def readOnly : Op → Bool
  | .get _ | .getDefault .. | .setdefault .. | .contains _ | .iter | .len | .str | .setOther => true
  | _ => false

/-- A name that the text form can represent. -/
def okName (cfg : Cfg) (k : Str) : Prop := cfg.itemSep ∉ k ∧ cfg.kvSep ∉ k

/-- A value that the text form can represent. -/
def okVal (cfg : Cfg) : Val → Prop
  | .tru => True
  | .str v => cfg.itemSep ∉ v
  | .obj _ => False

/-- How an item is written: a flag as its name alone, anything else as name, `kvSep`, text. -/
def written (cfg : Cfg) : Str × Val → Str
  | (k, .tru) => k
  | (k, .str v) => k ++ [cfg.kvSep] ++ v
  | (k, .obj t) => k ++ [cfg.kvSep] ++ t

/-- The mapping with a single flag. -/
def flag (k : Str) : Map := fun k' => if k' = k then some .tru else none

/-- A call after which the text has to be computed anew. -/
def rewrites : Op → Bool
  | .set .. | .setDict _ => true
  | _ => false

end Verif.DualDict.Spec
