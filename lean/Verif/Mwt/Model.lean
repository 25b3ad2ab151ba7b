/-!
# Model of multi-word tokens

Words and multi-word tokens of one tree are natural numbers. Simplified: forms and MISC of tokens are left
out (also the move of `SpaceAfter=No` from the last word to the token, root.py:187-190).
-/

namespace Verif.Mwt

/-- The slots involved: `root._mwts`, `mwt.words`, `word._mwt`. -/
structure St where
  mwts : List Nat
  words : Nat → List Nat
  mwtOf : Nat → Option Nat
  next : Nat

/-- A tree without multi-word tokens. -/
def St.init : St := ⟨[], fun _ => [], fun _ => none, 0⟩

inductive Err where
  | valueError
  | indexError
  deriving DecidableEq, Repr

/-- `for word in words: word._mwt = v` (mwt.py:14-15, 42-43) -/
def setMwt (f : Nat → Option Nat) (v : Option Nat) : List Nat → (Nat → Option Nat)
  | [] => f
  | w :: ws => setMwt (fun x => if x = w then v else f x) v ws

/-- `MWT.remove` (mwt.py:40-44). `list.remove` raises `ValueError` if the token is not in the list. -/
def removeMwt (s : St) (m : Nat) : St × Option Err :=
  let s1 := { s with mwtOf := setMwt s.mwtOf none (s.words m) }
  if m ∈ s1.mwts then ({ s1 with mwts := s1.mwts.erase m }, none) else (s1, some .valueError)

/-- `for w in words: if w.multiword_token: w.multiword_token.remove()` (root.py:181-183) -/
def removeOld (s : St) : List Nat → St × Option Err
  | [] => (s, none)
  | w :: ws =>
    match s.mwtOf w with
    | none => removeOld s ws
    | some m =>
      match removeMwt s m with
      | (s, some e) => (s, some e)
      | (s, none) => removeOld s ws

/-- `Root.create_multiword_token(words)` (root.py:170-191), with `MWT.__init__` (mwt.py:9-15). The new
token is `s.next`. `words[-1]` (root.py:187) raises `IndexError` for an empty list. -/
def create (s : St) (ws : List Nat) : St × Option Err :=
  match removeOld s ws with
  | (s, some e) => (s, some e)
  | (s, none) =>
    let s1 : St :=
      { mwts := s.mwts ++ [s.next]
        words := fun m => if m = s.next then ws else s.words m
        mwtOf := setMwt s.mwtOf (some s.next) ws
        next := s.next + 1 }
    (s1, if ws = [] then some .indexError else none)

inductive Op where
  | create (ws : List Nat)
  | remove (m : Nat)
  deriving DecidableEq, Repr

def step (s : St) : Op → St × Option Err
  | .create ws => create s ws
  | .remove m => removeMwt s m

/-! ## `token_descendants` -/

/-- An item of `root.token_descendants`. -/
inductive Token where
  | word (w : Nat)
  | mwt (m : Nat)
  deriving DecidableEq, Repr

/-- The loop of `Root.token_descendants` (root.py:250-260). `none` is an `IndexError` (`mwt.words[-1]`). -/
def tokenLoop (words : Nat → List Nat) (mwtOf : Nat → Option Nat) (ord : Nat → Nat) :
    Nat → List Nat → Option (List Token)
  | _, [] => some []
  | last, n :: ns =>
    match mwtOf n with
    | some m =>
      if ord n > last then
        match (words m).getLast? with
        | none => none
        | some l => (tokenLoop words mwtOf ord (ord l) ns).map (Token.mwt m :: ·)
      else tokenLoop words mwtOf ord last ns
    | none => (tokenLoop words mwtOf ord last ns).map (Token.word n :: ·)

/-- `Root.token_descendants` (root.py:232-260); `ds` is `root._descendants`. -/
def tokenDescendants (words : Nat → List Nat) (mwtOf : Nat → Option Nat) (ord : Nat → Nat)
    (ds : List Nat) : Option (List Token) := tokenLoop words mwtOf ord 0 ds

/-- `token.words` (node.py:913-923 for a node, mwt.py for a token). -/
def Token.words (words : Nat → List Nat) : Token → List Nat
  | .word w => [w]
  | .mwt m => words m

/-! ## `ud.RemoveMwt` -/

/-- `for mwt in root.multiword_tokens: ...; mwt.remove()` (block/ud/removemwt.py:8-18): a Python `for` over
a list keeps an index into the list, and `mwt.remove()` removes the current element from this same list.
`i` is the index. Simplified: the edits of the words (forms, `word.remove(children='rehang')`) do not
touch the list. -/
def removeLoop : Nat → Nat → List Nat → List Nat
  | 0, _, l => l
  | fuel + 1, i, l =>
    match l[i]? with
    | none => l
    | some m => removeLoop fuel (i + 1) (l.erase m)

/-- `RemoveMwt.process_tree`: the multi-word tokens left in the tree. -/
def removeMwtBlock (mwts : List Nat) : List Nat := removeLoop (mwts.length + 1) 0 mwts

end Verif.Mwt
