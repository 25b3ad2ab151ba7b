import Verif.Py.Str
import Verif.Py.Num

/-!
# Model of enhanced dependencies

Nodes are natural numbers. The ord of an empty node is kept in tenths (1.3 is 13), as in `Verif.Empty`.
-/

namespace Verif.Deps
open Verif.Py

/-- `_ord`: an integer for the technical root (0) and words, a number with one decimal place for empty
nodes. -/
inductive Ord where
  | word (k : Nat)
  | empty (e : Nat)
  deriving DecidableEq, Repr

/-- `str(node._ord)` -/
def Ord.str : Ord → Str
  | .word k => natStr k
  | .empty e => natStr (e / 10) ++ '.' :: natStr (e % 10)

/-- A tree: `[root] + root._descendants`, `root.empty_nodes` and the ord of every node. -/
structure Env where
  nodes : List Nat
  empties : List Nat
  ord : Nat → Ord

inductive Err where
  | valueError
  | indexError
  | attributeError
  deriving DecidableEq, Repr

/-- A list of `{'parent': p, 'deprel': d}`. -/
abbrev DepList := List (Nat × Str)

/-- The two slots `_raw_deps` and `_deps` of a node. -/
structure St where
  raw : Option Str
  deps : Option DepList
  deriving DecidableEq

/-- A new node (node.py:100-101). -/
def St.init : St := ⟨some ['_'], none⟩

/-- `f"{dep['parent']._ord}:{dep['deprel']}"` (node.py:255) -/
def depStr (env : Env) (d : Nat × Str) : Str := (env.ord d.1).str ++ ':' :: d.2

/-- `node.raw_deps` (node.py:242-256): the new state and the value. -/
def getRaw (env : Env) (s : St) : St × Option Str :=
  match s.deps with
  | some (d :: l) =>
    let raw := join ['|'] ((d :: l).map (depStr env))
    ({ s with raw := some raw }, some raw)
  | _ => (s, s.raw)

/-- `node.raw_deps = value` (node.py:258-266) -/
def setRaw (v : Str) (_ : St) : St := ⟨some v, none⟩

/-- `node.deps = value` (node.py:300-304) -/
def setDeps (l : DepList) (_ : St) : St := ⟨none, some l⟩

/-- Finding the parent (node.py:288-296). Simplified: `int(head)` is modelled for strings of digits only,
see `parseNat`. -/
def findParent (env : Env) (head : Str) : Except Err Nat :=
  if '.' ∈ head then
    match env.empties.find? (fun x => (env.ord x).str == head) with
    | none => .error .valueError
    | some x => .ok x
  else
    match parseNat head with
    | none => .error .valueError
    | some k =>
      match env.nodes[k]? with
      | none => .error .indexError
      | some x => .ok x

/-- The loop over the items (node.py:285-296). The list filled so far stays in `_deps` if an item raises. -/
def parseLoop (env : Env) : DepList → List Str → DepList × Option Err
  | acc, [] => (acc, none)
  | acc, item :: items =>
    match splitOnce ':' item with
    | (_, none) => (acc, some .valueError)
    | (head, some deprel) =>
      match findParent env head with
      | .error e => (acc, some e)
      | .ok p => parseLoop env (acc ++ [(p, deprel)]) items

/-- `node.deps` (node.py:268-298): the new state, and the value or the exception. -/
def getDeps (env : Env) (s : St) : St × Except Err DepList :=
  match s.deps with
  | some l => (s, .ok l)
  | none =>
    match s.raw with
    | none => ({ s with deps := some [] }, .error .attributeError)
    | some raw =>
      if raw = ['_'] then ({ s with deps := some [] }, .ok [])
      else
        let r := parseLoop env [] (split '|' raw)
        ({ s with deps := some r.1 }, match r.2 with | none => .ok r.1 | some e => .error e)

/-- In-place edits of the list that `node.deps` returns (`append`, `clear`, `remove`, ...). -/
def editDeps (f : DepList → DepList) (s : St) : St := { s with deps := s.deps.map f }

end Verif.Deps
