import Verif.Py.Str
import Verif.Py.Sort

/-!
# Model of `DualDict` and `OtherDualDict`

`udapi/core/dualdict.py` and `udapi/core/coref.py` 970-1086 contain two copies of the same class with
different separators; `Cfg` holds the differences, `dd` and `odd` are the two classes.
-/

namespace Verif.DualDict
open Verif.Py

/-- A Python value stored in the mapping. `obj t` is any object other than `True` and strings
(numbers, `False`, `None` inside a dict argument, ...) whose `format()` text is `t`. -/
inductive Val where
  | tru
  | str (s : Str)
  | obj (shown : Str)
  deriving DecidableEq, Repr

/-- A Python `dict` with string keys, in insertion order. -/
abbrev Dict := List (Str × Val)

/-- `d.get(k)` -/
def lookup (d : Dict) (k : Str) : Option Val :=
  match d with
  | [] => none
  | (k', v) :: r => if k' = k then some v else lookup r k

/-- `d[k] = v`: keeps the position of an existing key, appends a new one. -/
def insert (d : Dict) (k : Str) (v : Val) : Dict :=
  match d with
  | [] => [(k, v)]
  | (k', v') :: r => if k' = k then (k', v) :: r else (k', v') :: insert r k v

/-- `del d[k]` (no effect if absent; the code catches `KeyError`). -/
def erase (d : Dict) (k : Str) : Dict :=
  match d with
  | [] => []
  | (k', v') :: r => if k' = k then r else (k', v') :: erase r k

/-- `dict(pairs)`, and the loop `self._dict[name] = value` of `_deserialize_if_empty`. -/
def ofPairs (ps : List (Str × Val)) : Dict := ps.foldl (fun d p => insert d p.1 p.2) []

/-- What differs between the two classes. -/
structure Cfg where
  /-- separator of items: `'|'` (dualdict.py:49,54) or `','` (coref.py:1014,1019) -/
  itemSep : Char
  /-- separator of name and value: `'='` (dualdict.py:48,55) or `':'` (coref.py:1013,1020) -/
  kvSep : Char
  /-- string of the empty mapping: `'_'` (dualdict.py:49,53) or `''` (coref.py:1014,1018) -/
  emptyStr : Str
  /-- string stored by `clear`: `'_'` in both classes (dualdict.py:95, coref.py:1061) -/
  clearStr : Str
  /-- string stored by `set_mapping(str)`: dualdict.py:116, coref.py:1081 -/
  storeStr : Str → Str
  /-- value stored by `__setitem__`; `none` if preparing it raises `AttributeError`
  (dualdict.py:70, coref.py:1037-1038) -/
  storeVal : Val → Option Val

/-- `value.replace(',', '%2C')` (coref.py:1037) -/
def escapeComma : Str → Str
  | [] => []
  | c :: s => if c = ',' then '%' :: '2' :: 'C' :: escapeComma s else c :: escapeComma s

/-- `DualDict` (udapi/core/dualdict.py:6-121) -/
def dd : Cfg where
  itemSep := '|'
  kvSep := '='
  emptyStr := ['_']
  clearStr := ['_']
  storeStr := fun s => if s = [] then ['_'] else s
  storeVal := some

/-- `OtherDualDict` (udapi/core/coref.py:971-1086); `True.replace` does not exist. -/
def odd : Cfg where
  itemSep := ','
  kvSep := ':'
  emptyStr := []
  clearStr := ['_']
  storeStr := fun s => s
  storeVal := fun
    | .str s => some (.str (escapeComma s))
    | _ => none

/-- The two slots `_string` and `_dict` (dualdict.py:31, coref.py:996). -/
structure State where
  string : Option Str
  dict : Dict
  deriving DecidableEq, Repr

/-- One `name=value` item (dualdict.py:55-59, coref.py:1020-1024). -/
def parseItem (cfg : Cfg) (item : Str) : Str × Val :=
  match splitOnce cfg.kvSep item with
  | (name, some value) => (name, .str value)
  | (name, none) => (name, .tru)

/-- The loop in `_deserialize_if_empty` (dualdict.py:54-60, coref.py:1019-1025). -/
def parse (cfg : Cfg) (s : Str) : Dict := ofPairs ((split cfg.itemSep s).map (parseItem cfg))

/-- `_deserialize_if_empty` (dualdict.py:52-60, coref.py:1017-1025). -/
def deserialize (cfg : Cfg) (s : State) : State :=
  match s.dict, s.string with
  | [], some t => if t = cfg.emptyStr then s else { s with dict := parse cfg t }
  | _, _ => s

/-- One serialized item (dualdict.py:45-48, coref.py:1010-1013). -/
def showItem (cfg : Cfg) (p : Str × Val) : Str :=
  match p.2 with
  | .tru => p.1
  | .str v => p.1 ++ cfg.kvSep :: v
  | .obj t => p.1 ++ cfg.kvSep :: t

/-- The comparison made by `sorted(..., key=lambda s: s[0].lower())` (dualdict.py:44, coref.py:1009).
Strings compare by code points. `lower` is `str.lower`, left as an arbitrary function. -/
def itemLe (lower : Str → Str) (a b : Str × Val) : Bool := decide (lower a.1 ≤ lower b.1)

/-- The serialized form of a dict (dualdict.py:43-49, coref.py:1008-1014). -/
def serialize (cfg : Cfg) (lower : Str → Str) (d : Dict) : Str :=
  if d = [] then cfg.emptyStr
  else join [cfg.itemSep] ((pySort (itemLe lower) d).map (showItem cfg))

/-- Calls on the object. -/
inductive Op where
  /-- `d[k] = v`, `none` is Python's `None` -/
  | set (k : Str) (v : Option Val)
  /-- `del d[k]` -/
  | del (k : Str)
  | clear
  /-- `d.set_mapping(None)` -/
  | setNone
  /-- `d.set_mapping(s)` for a string -/
  | setStr (s : Str)
  /-- `d.set_mapping(m)` for a mapping given by its pairs -/
  | setDict (m : List (Str × Val))
  /-- `d.set_mapping(x)` for any other object -/
  | setOther
  /-- `d.pop(k)` inherited from `MutableMapping` -/
  | pop (k : Str)
  /-- `d[k]` -/
  | get (k : Str)
  /-- `d.get(k, default)` inherited from `Mapping` -/
  | getDefault (k : Str) (default : Val)
  /-- `d.setdefault(k, default)` inherited from `MutableMapping` -/
  | setdefault (k : Str) (default : Val)
  /-- `k in d` -/
  | contains (k : Str)
  /-- `list(d)` -/
  | iter
  /-- `len(d)` -/
  | len
  /-- `str(d)` -/
  | str
  deriving DecidableEq, Repr

/-- Result of a call. -/
inductive Out where
  | unit
  | val (v : Val)
  | bool (b : Bool)
  | nat (n : Nat)
  | keys (ks : List Str)
  | text (s : Str)
  | valueError
  | attributeError
  deriving DecidableEq, Repr

/-- `self._dict.get(key, '')` -/
def read (d : Dict) (k : Str) : Val := (lookup d k).getD (.str [])

/-- `__delitem__` (dualdict.py:74-80, coref.py:1040-1046). -/
def delItem (cfg : Cfg) (s : State) (k : Str) : State :=
  let s := deserialize cfg s
  match lookup s.dict k with
  | some _ => { string := none, dict := erase s.dict k }
  | none => s

/-- `__setitem__` (dualdict.py:66-72, coref.py:1031-1038). -/
def setItem (cfg : Cfg) (s : State) (k : Str) (v : Option Val) : State × Out :=
  let s := { deserialize cfg s with string := none }
  match v with
  | none => (delItem cfg s k, .unit)
  | some v =>
    if v = .str [] then (delItem cfg s k, .unit)
    else
      match cfg.storeVal v with
      | some w => ({ s with dict := insert s.dict k w }, .unit)
      | none => (s, .attributeError)

/-- `clear` (dualdict.py:94-96, coref.py:1060-1062). -/
def clear (cfg : Cfg) : State := { string := some cfg.clearStr, dict := [] }

/-- One call: new state and result.
`__getitem__` 62-64, `__iter__` 82-84, `__len__` 86-88, `__contains__` 90-92, `__str__` 41-50,
`set_mapping` 102-121 of dualdict.py (coref.py 1027-1029, 1048-1058, 1006-1015, 1068-1086).
`pop`, `get`, `setdefault` are those of `collections.abc`: they call `self[key]` and react to
`KeyError`, which `__getitem__` never raises. -/
def step (cfg : Cfg) (lower : Str → Str) (s : State) : Op → State × Out
  | .set k v => setItem cfg s k v
  | .del k => (delItem cfg s k, .unit)
  | .clear => (clear cfg, .unit)
  | .setNone => (clear cfg, .unit)
  | .setStr t => ({ string := some (cfg.storeStr t), dict := [] }, .unit)
  | .setDict m => ({ string := none, dict := ofPairs m }, .unit)
  | .setOther => (s, .valueError)
  | .pop k =>
    let s := deserialize cfg s
    (delItem cfg s k, .val (read s.dict k))
  | .get k => let s := deserialize cfg s; (s, .val (read s.dict k))
  | .getDefault k _ => let s := deserialize cfg s; (s, .val (read s.dict k))
  | .setdefault k _ => let s := deserialize cfg s; (s, .val (read s.dict k))
  | .contains k => let s := deserialize cfg s; (s, .bool (lookup s.dict k).isSome)
  | .iter => let s := deserialize cfg s; (s, .keys (s.dict.map (·.1)))
  | .len => let s := deserialize cfg s; (s, .nat s.dict.length)
  | .str =>
    match s.string with
    | some t => (s, .text t)
    | none =>
      let t := serialize cfg lower s.dict
      ({ s with string := some t }, .text t)

/-- `DualDict()` (dualdict.py:33-39). `DualDict(value)` is `init` followed by `set_mapping`,
`DualDict(**kwargs)` is `init` followed by `setDict`. -/
def init : State := { string := none, dict := [] }

/-- The state after a sequence of calls. -/
def run (cfg : Cfg) (lower : Str → Str) (s : State) (ops : List Op) : State :=
  ops.foldl (fun s o => (step cfg lower s o).1) s

end Verif.DualDict
