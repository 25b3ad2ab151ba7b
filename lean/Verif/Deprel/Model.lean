import Verif.Py.Str

/-!
# Model of `deprel`, `udeprel` and `sdeprel`

`deprel` is `None` or a string.
-/

namespace Verif.Deprel
open Verif.Py

/-- `node.udeprel` (node.py:138-144) -/
def getU : Option Str → Option Str
  | none => none
  | some d => (split ':' d).head?

/-- `node.sdeprel` (node.py:154-167) -/
def getS : Option Str → Option Str
  | none => none
  | some d =>
    match splitOnce ':' d with
    | (_, some s) => some s
    | (_, none) => some []

/-- `node.udeprel = value` (node.py:146-152) -/
def setU (value : Str) (d : Option Str) : Option Str :=
  match getS d with
  | none => some value
  | some s => if s ≠ [] then some (value ++ [':'] ++ s) else some value

/-- `node.sdeprel = value` (node.py:169-175). The outer `none` is the `TypeError` of `None + ':'`. -/
def setS (value : Option Str) (d : Option Str) : Option (Option Str) :=
  match value with
  | some (c :: v) =>
    match getU d with
    | none => none
    | some u => some (some (u ++ [':'] ++ (c :: v)))
  | _ => some (getU d)

end Verif.Deprel
