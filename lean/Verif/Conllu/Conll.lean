import Verif.Conllu.Read

/-!
# Property C169: CoNLL-like files with other columns (udapi/block/read/conll.py)

The reader is a copy of `read.Conllu` with names of columns. How a line is split into columns is a parameter `sp`, `split '\t'` for `separator=tab`. Names of columns other than those of CoNLL-U
are not modelled. Comment lines are left out as in `Model.lean`.
-/

namespace Verif.Conllu.Conll
open Verif.Py Verif.Tree Verif.Conllu

def nOrd : Str := ['o', 'r', 'd']
def nForm : Str := ['f', 'o', 'r', 'm']
def nLemma : Str := ['l', 'e', 'm', 'm', 'a']
def nUpos : Str := ['u', 'p', 'o', 's']
def nXpos : Str := ['x', 'p', 'o', 's']
def nFeats : Str := ['f', 'e', 'a', 't', 's']
def nHead : Str := ['h', 'e', 'a', 'd']
def nDeprel : Str := ['d', 'e', 'p', 'r', 'e', 'l']
def nDeps : Str := ['d', 'e', 'p', 's']
def nMisc : Str := ['m', 'i', 's', 'c']

/-- The default of the parameter `attributes` -/
def defaultNames : List Str := [nOrd, nForm, nLemma, nUpos, nXpos, nFeats, nHead, nDeprel, nDeps, nMisc]

/-- `node.feats = v`, `node.misc = v` (node.py:204-208, 236-240; dualdict.py:114-116) -/
def setDict (v : Str) : Option DualDict.State := some { string := some (if v = [] then ['_'] else v), dict := [] }

/-- `setattr(node, n, v)` for a value that is not `_` (conll.py:104) -/
def setAttr (a : Attrs) (n v : Str) : Except Err Attrs :=
  if n = nForm then .ok { a with form := some v }
  else if n = nLemma then .ok { a with lemma := some v }
  else if n = nUpos then .ok { a with upos := some v }
  else if n = nXpos then .ok { a with xpos := some v }
  else if n = nFeats then .ok { a with feats := setDict v }
  else if n = nDeprel then .ok { a with deprel := some v }
  else if n = nMisc then .ok { a with misc := setDict v }
  else .error .notModelled

/-- One column of the word number `k` (conll.py:84-104): its attributes and `parents` -/
def setCol (o : Opts) (k : Nat) (s : Attrs × List Int) (n v : Str) : Except Err (Attrs × List Int) :=
  if n = nHead then
    match readHead o v with
    | .error e => .error e
    | .ok h => .ok (s.1, s.2 ++ [h])
  else if n = nOrd then (if pyInt v = some (k : Int) then .ok s else .error .valueError)
  else if n = nDeps then .ok ({ s.1 with rawDeps := some v }, s.2)
  else if n ≠ ['_'] ∧ v ≠ ['_'] then
    match setAttr s.1 n v with
    | .error e => .error e
    | .ok a => .ok (a, s.2)
  else .ok s

def setCols (o : Opts) (k : Nat) : Attrs × List Int → List (Str × Str) → Except Err (Attrs × List Int)
  | s, [] => .ok s
  | s, c :: cs =>
    match setCol o k s c.1 c.2 with
    | .error e => .error e
    | .ok s => setCols o k s cs

/-- The attributes of a new node (node.py:88-105) -/
def newAttrs : Attrs := ⟨none, none, none, none, none, none, some ['_'], none⟩

/-- The words with their attributes, `parents` without the root, the empty nodes, the lines of multi-word tokens -/
structure AccC where
  words : List Attrs
  heads : List Int
  empties : List ENode
  mwts : List (List Str)

/-- The columns (conll.py:55-66) -/
def fieldsC (sp : Str → List Str) (names : List Str) (o : Opts) (line : Str) : Except Err (List Str) :=
  let f := sp line
  if f.length ≠ names.length then
    if o.strict then .error .runtimeError
    else .ok (f ++ List.replicate (names.length - f.length) ['_'])
  else .ok f

/-- The rest of `parse_node_line` (conll.py:67-101) -/
def readFieldsC (names : List Str) (o : Opts) (a : AccC) (f : List Str) : Except Err AccC :=
  if '-' ∈ col f 0 then .ok { a with mwts := a.mwts ++ [f] }
  else if '.' ∈ col f 0 then
    if f.length < 10 then .error .indexError
    else
      match pyFloat (col f 0) with
      | none => .error .notModelled
      | some e => .ok { a with empties := a.empties ++ [⟨e, emptyAttrs f⟩] }
  else
    match setCols o (a.words.length + 1) (newAttrs, a.heads) (names.zip f) with
    | .error e => .error e
    | .ok s => .ok { a with words := a.words ++ [s.1], heads := s.2 }

/-- One line (conll.py:109-113) -/
def readLineC (sp : Str → List Str) (names : List Str) (o : Opts) (a : AccC) : Str → Except Err AccC
  | [] => .error .indexError
  | '#' :: _ => .ok a
  | line =>
    match fieldsC sp names o line with
    | .error e => .error e
    | .ok f => readFieldsC names o a f

def readLinesC (sp : Str → List Str) (names : List Str) (o : Opts) : AccC → List Str → Except Err AccC
  | a, [] => .ok a
  | a, l :: ls =>
    match readLineC sp names o a l with
    | .error e => .error e
    | .ok a => readLinesC sp names o a ls

/-- One turn of the loop that sets the parents (conll.py:131-154). If there is no number for the word, the message of the exception raises `IndexError`. -/
def linkOneC (o : Opts) (n fuel : Nat) (h : Heap) (x : Nat) (i : Option Int) : Except Err Heap :=
  match i with
  | none => .error .indexError
  | some i =>
    match pyIdx (n + 1) i with
    | none => .error .valueError
    | some p =>
      if x = p then
        if o.fixCycles then .ok (attach h x 0) else .error .valueError
      else if h.children x = [] then .ok (attach h x p)
      else
        match climbTo h x fuel (h.parent p) with
        | none => .error .diverges
        | some false => .ok (attach h x p)
        | some true => if o.fixCycles then .ok (attach h x 0) else .error .valueError

def linkAllC (o : Opts) (n fuel : Nat) : Heap → Nat → List (Option Int) → Except Err Heap
  | h, _, [] => .ok h
  | h, x, i :: is =>
    match linkOneC o n fuel h x i with
    | .error e => .error e
    | .ok h => linkAllC o n fuel h (x + 1) is

/-- After `create_child` (node.py:433-440) for each of `n` words: they are children of the root. -/
def startHeapC (n : Nat) : Heap where
  parent := fun x => if 1 ≤ x ∧ x ≤ n then some 0 else none
  children := upd (fun _ => []) 0 (List.range' 1 n)
  ord := fun x => (0 :: List.range' 1 n).getD x 0
  root := fun _ => 0
  words := upd (fun _ => []) 0 (List.range' 1 n)
  next := n + 1

/-- The words left after the test for an artificial node (conll.py:125-128) -/
def realWordsC (lower : Str → Str) (ws : List Attrs) : List Attrs :=
  match ws with
  | [w] => if dictCol lower w.misc = emptyYes then [] else [w]
  | ws => ws

/-- `read_tree_from_lines` (conll.py:104-162) -/
def readTreeC (sp : Str → List Str) (names : List Str) (lower : Str → Str) (o : Opts) (fuel : Nat) (lines : List Str) : Except Err (Option Tree) :=
  match readLinesC sp names o ⟨[], [], [], []⟩ lines with
  | .error e => .error e
  | .ok a =>
    if a.words = [] then .ok none
    else
      let ws := realWordsC lower a.words
      match linkAllC o ws.length fuel (startHeapC ws.length) 1 ((List.range ws.length).map (fun i => a.heads[i]?)) with
      | .error e => .error e
      | .ok h =>
        let noAttrs : Attrs := ⟨none, none, none, none, none, none, none, none⟩
        let t : Tree :=
          { heap := h
            attrs := fun x => if x = 0 then noAttrs else (ws[x - 1]?).getD noAttrs
            empties := a.empties
            mwt := Mwt.St.init
            mwtForm := fun _ => none
            mwtMisc := fun _ => none }
        match readMwts ws.length t a.mwts with
        | .error e => .error e
        | .ok t => .ok (some t)

/-! ## What the properties say -/

/-- The numbers in the ID column are 1, 2, 3, ... -/
def Numbered : Nat → List Str → Prop
  | _, [] => True
  | k, l :: ls => if isWordLine l then pyInt (col (columns l) 0) = some ((k + 1 : Nat) : Int) ∧ Numbered (k + 1) ls else Numbered k ls

/-- FEATS and MISC are not empty texts. -/
def Filled (lines : List Str) : Prop := ∀ l ∈ lines, col (columns l) 5 ≠ [] ∧ col (columns l) 9 ≠ []

/-- Form and lemma `_` are `None`. -/
def norm (a : Attrs) : Attrs := { a with form := a.form.bind unless_, lemma := a.lemma.bind unless_ }

/-- The tree with all words added to the children of the root, before those that are there -/
def conv (t : Tree) : Tree :=
  { t with heap := { t.heap with children := upd t.heap.children 0 (t.heap.words 0 ++ t.heap.children 0) }, attrs := fun x => norm (t.attrs x) }

/-! ## Lemmas -/

theorem ten {f : List Str} (h : 10 ≤ f.length) : ∃ a b c d e g i j k l r, f = a :: b :: c :: d :: e :: g :: i :: j :: k :: l :: r := by
  match f, h with
  | a :: b :: c :: d :: e :: g :: i :: j :: k :: l :: r, _ => exact ⟨a, b, c, d, e, g, i, j, k, l, r, rfl⟩
  | [], h | [_], h | [_, _], h | [_, _, _], h | [_, _, _, _], h | [_, _, _, _, _], h | [_, _, _, _, _, _], h | [_, _, _, _, _, _, _], h | [_, _, _, _, _, _, _, _], h
  | [_, _, _, _, _, _, _, _, _], h => simp at h

theorem mkDict_set {v : Str} (h : v ≠ []) : mkDict v = if v = ['_'] then none else setDict v := by
  unfold mkDict setDict
  by_cases h1 : v = ['_']
  · simp [h1]
  · rw [if_neg (fun e => e.elim h h1), if_neg h1, if_neg h]

theorem col_form (o : Opts) (k : Nat) (s : Attrs × List Int) (v : Str) : setCol o k s nForm v = .ok ({ s.1 with form := if v = ['_'] then s.1.form else some v }, s.2) := by
  by_cases h : v = ['_']
  · subst h; rfl
  · rw [if_neg h]; simp [setCol, setAttr, h, nHead, nOrd, nDeps, nForm]

theorem col_lemma (o : Opts) (k : Nat) (s : Attrs × List Int) (v : Str) : setCol o k s nLemma v = .ok ({ s.1 with lemma := if v = ['_'] then s.1.lemma else some v }, s.2) := by
  by_cases h : v = ['_']
  · subst h; rfl
  · rw [if_neg h]; simp [setCol, setAttr, h, nHead, nOrd, nDeps, nForm, nLemma]

theorem col_upos (o : Opts) (k : Nat) (s : Attrs × List Int) (v : Str) : setCol o k s nUpos v = .ok ({ s.1 with upos := if v = ['_'] then s.1.upos else some v }, s.2) := by
  by_cases h : v = ['_']
  · subst h; rfl
  · rw [if_neg h]; simp [setCol, setAttr, h, nHead, nOrd, nDeps, nForm, nLemma, nUpos]

theorem col_xpos (o : Opts) (k : Nat) (s : Attrs × List Int) (v : Str) : setCol o k s nXpos v = .ok ({ s.1 with xpos := if v = ['_'] then s.1.xpos else some v }, s.2) := by
  by_cases h : v = ['_']
  · subst h; rfl
  · rw [if_neg h]; simp [setCol, setAttr, h, nHead, nOrd, nDeps, nForm, nLemma, nUpos, nXpos]

theorem col_feats (o : Opts) (k : Nat) (s : Attrs × List Int) (v : Str) : setCol o k s nFeats v = .ok ({ s.1 with feats := if v = ['_'] then s.1.feats else setDict v }, s.2) := by
  by_cases h : v = ['_']
  · subst h; rfl
  · rw [if_neg h]; simp [setCol, setAttr, h, nHead, nOrd, nDeps, nForm, nLemma, nUpos, nXpos, nFeats]

theorem col_deprel (o : Opts) (k : Nat) (s : Attrs × List Int) (v : Str) : setCol o k s nDeprel v = .ok ({ s.1 with deprel := if v = ['_'] then s.1.deprel else some v }, s.2) := by
  by_cases h : v = ['_']
  · subst h; rfl
  · rw [if_neg h]; simp [setCol, setAttr, h, nHead, nOrd, nDeps, nForm, nLemma, nUpos, nXpos, nFeats, nDeprel]

theorem col_misc (o : Opts) (k : Nat) (s : Attrs × List Int) (v : Str) : setCol o k s nMisc v = .ok ({ s.1 with misc := if v = ['_'] then s.1.misc else setDict v }, s.2) := by
  by_cases h : v = ['_']
  · subst h; rfl
  · rw [if_neg h]; simp [setCol, setAttr, h, nHead, nOrd, nDeps, nForm, nLemma, nUpos, nXpos, nFeats, nDeprel, nMisc]

theorem col_deps (o : Opts) (k : Nat) (s : Attrs × List Int) (v : Str) : setCol o k s nDeps v = .ok ({ s.1 with rawDeps := some v }, s.2) := by
  simp [setCol, nHead, nOrd, nDeps]

theorem col_ord (o : Opts) (k : Nat) (s : Attrs × List Int) (v : Str) : setCol o k s nOrd v = if pyInt v = some (k : Int) then .ok s else .error .valueError := by
  simp [setCol, nHead, nOrd]

theorem col_head (o : Opts) (k : Nat) (s : Attrs × List Int) (v : Str) : setCol o k s nHead v = match readHead o v with
    | .error e => .error e
    | .ok h => .ok (s.1, s.2 ++ [h]) := by
  simp [setCol, nHead]

theorem setCols_default (o : Opts) (k : Nat) (hs : List Int) {f : List Str} (hl : 10 ≤ f.length) (h5 : col f 5 ≠ []) (h9 : col f 9 ≠ []) :
    setCols o k (newAttrs, hs) (defaultNames.zip f) =
      if pyInt (col f 0) = some (k : Int) then
        match readHead o (col f 6) with
        | .error e => .error e
        | .ok h => .ok (norm (wordAttrs f), hs ++ [h])
      else .error .valueError := by
  obtain ⟨a, b, c, d, e, g, i, j, l, m, r, rfl⟩ := ten hl
  have e5 : mkDict g = if g = ['_'] then none else setDict g := mkDict_set h5
  have e9 : mkDict m = if m = ['_'] then none else setDict m := mkDict_set h9
  have hz : defaultNames.zip (a :: b :: c :: d :: e :: g :: i :: j :: l :: m :: r) =
    [(nOrd, a), (nForm, b), (nLemma, c), (nUpos, d), (nXpos, e), (nFeats, g), (nHead, i), (nDeprel, j), (nDeps, l), (nMisc, m)] := rfl
  have hc0 : col (a :: b :: c :: d :: e :: g :: i :: j :: l :: m :: r) 0 = a := rfl
  have hc6 : col (a :: b :: c :: d :: e :: g :: i :: j :: l :: m :: r) 6 = i := rfl
  have hw : wordAttrs (a :: b :: c :: d :: e :: g :: i :: j :: l :: m :: r) = ⟨some b, some c, unless_ d, unless_ e, mkDict g, unless_ j, some l, mkDict m⟩ := rfl
  rw [hz, hc0, hc6, hw]
  simp only [setCols, col_ord]
  by_cases ha : pyInt a = some (k : Int)
  · rw [if_pos ha, if_pos ha]
    simp only [col_form, col_lemma, col_upos, col_xpos, col_feats, col_head]
    cases readHead o i with
    | error e => rfl
    | ok h =>
      simp only [col_deprel, col_deps, col_misc, newAttrs]
      unfold norm
      dsimp only [Option.bind_some]
      rw [e5, e9]
      rfl
  · rw [if_neg ha, if_neg ha]

/-- The reader's states belong together. -/
structure Same (a : Acc) (c : AccC) : Prop where
  words : c.words = a.words.map (fun w => norm w.2.1)
  heads : c.heads = a.words.map (·.2.2)
  empties : c.empties = a.empties
  mwts : c.mwts = a.mwts

/-- Two results belong together. -/
def Res {α β : Type} (R : α → β → Prop) (x : Except Err α) (y : Except Err β) : Prop :=
  (∃ e, x = .error e ∧ y = .error e) ∨ ∃ a b, x = .ok a ∧ y = .ok b ∧ R a b

def NumSame (a : Acc) (c : AccC) : Prop := Same a c ∧ a.words.map (·.1) = List.range' 1 a.words.length

theorem fieldsC_eq (o : Opts) (l : Str) : fieldsC (split '\t') defaultNames o l = fieldsOf o l := rfl

theorem columns_len (l : Str) : 10 ≤ (columns l).length := by
  unfold columns
  rw [List.length_append, List.length_replicate]
  omega

theorem readLine_cons {o : Opts} {a : Acc} {x : Char} (hx : x ≠ '#') (l : Str) : readLine o a (x :: l) = match fieldsOf o (x :: l) with
    | .error e => .error e
    | .ok f => readFields o a f := by
  unfold readLine
  split
  · rename_i h; cases h
  · rename_i h; exact absurd (List.cons.inj h).1 hx
  · rfl

theorem readLineC_cons {sp : Str → List Str} {names : List Str} {o : Opts} {a : AccC} {x : Char} (hx : x ≠ '#') (l : Str) :
    readLineC sp names o a (x :: l) = match fieldsC sp names o (x :: l) with
    | .error e => .error e
    | .ok f => readFieldsC names o a f := by
  unfold readLineC
  split
  · rename_i h; cases h
  · rename_i h; exact absurd (List.cons.inj h).1 hx
  · rfl

theorem readLine_same {o : Opts} {a : Acc} {c : AccC} (h : NumSame a c) {l : Str} (hf : col (columns l) 5 ≠ [] ∧ col (columns l) 9 ≠ [])
    (hn : isWordLine l = true → pyInt (col (columns l) 0) = some ((a.words.length + 1 : Nat) : Int)) :
    Res (fun a' c' => NumSame a' c' ∧ a'.words.length = a.words.length + (if isWordLine l then 1 else 0)) (readLine o a l) (readLineC (split '\t') defaultNames o c l) := by
  obtain ⟨hs, hr⟩ := h
  cases l with
  | nil => exact .inl ⟨_, rfl, rfl⟩
  | cons x l =>
  by_cases hx : x = '#'
  · subst hx
    have : isWordLine ('#' :: l) = false := by simp [isWordLine]
    rw [this]
    exact .inr ⟨_, _, rfl, rfl, ⟨hs, hr⟩, rfl⟩
  · have hh : (x :: l).head? ≠ some '#' := by simpa using hx
    rw [readLine_cons hx, readLineC_cons hx]
    generalize x :: l = l at *
    rw [fieldsC_eq]
    cases hfo : fieldsOf o l with
    | error e => exact .inl ⟨e, rfl, rfl⟩
    | ok f =>
      have hfc := fieldsOf_ok hfo
      subst hfc
      dsimp only
      unfold readFields readFieldsC
      by_cases m1 : '-' ∈ col (columns l) 0
      · have hw : isWordLine l = false := by simp [isWordLine, m1]
        rw [if_pos m1, if_pos m1, hw]
        exact .inr ⟨_, _, rfl, rfl, ⟨⟨hs.words, hs.heads, hs.empties, by simp [hs.mwts]⟩, hr⟩, rfl⟩
      · rw [if_neg m1, if_neg m1]
        by_cases m2 : '.' ∈ col (columns l) 0
        · have hw : isWordLine l = false := by simp [isWordLine, m2]
          rw [if_pos m2, if_pos m2, hw, if_neg (show ¬ (columns l).length < 10 from Nat.not_lt.2 (columns_len l))]
          cases pyFloat (col (columns l) 0) with
          | none => exact .inl ⟨_, rfl, rfl⟩
          | some e => exact .inr ⟨_, _, rfl, rfl, ⟨⟨hs.words, hs.heads, by simp [hs.empties], hs.mwts⟩, hr⟩, rfl⟩
        · have hw : isWordLine l = true := by simp [isWordLine, m1, m2, hh]
          rw [if_neg m2, if_neg m2, setCols_default o _ _ (columns_len l) hf.1 hf.2, hn hw]
          have hlen : c.words.length = a.words.length := by rw [hs.words, List.length_map]
          rw [hlen, if_pos rfl, hw]
          dsimp only
          cases readHead o (col (columns l) 6) with
          | error e => exact .inl ⟨e, rfl, rfl⟩
          | ok h =>
            refine .inr ⟨_, _, rfl, rfl, ⟨⟨?_, ?_, hs.empties, hs.mwts⟩, ?_⟩, ?_⟩
            · dsimp only; rw [hs.words]; simp
            · dsimp only; rw [hs.heads]; simp
            · dsimp only
              rw [List.map_append, hr, List.length_append, List.length_singleton, List.range'_1_concat]
              rw [show (1 : Nat) + a.words.length = a.words.length + 1 by omega]
              rfl
            · simp

theorem readLines_same {o : Opts} : ∀ {ls : List Str} {a : Acc} {c : AccC}, NumSame a c → Filled ls → Numbered a.words.length ls →
    Res NumSame (readLines o a ls) (readLinesC (split '\t') defaultNames o c ls) := by
  intro ls
  induction ls with
  | nil => intro a c h _ _; exact .inr ⟨a, c, rfl, rfl, h⟩
  | cons l ls ih =>
    intro a c h hf hn
    have hl : isWordLine l = true → pyInt (col (columns l) 0) = some ((a.words.length + 1 : Nat) : Int) := by
      intro hw
      rw [Numbered, if_pos hw] at hn
      exact hn.1
    unfold readLines readLinesC
    rcases readLine_same h (hf l List.mem_cons_self) hl with ⟨e, e1, e2⟩ | ⟨a', c', e1, e2, e3, e4⟩
    · rw [e1, e2]; exact .inl ⟨e, rfl, rfl⟩
    · rw [e1, e2]
      dsimp only
      refine ih e3 (fun x hx => hf x (List.mem_cons_of_mem _ hx)) ?_
      rw [e4]
      rw [Numbered] at hn
      by_cases hw : isWordLine l = true
      · rw [if_pos hw] at hn ⊢; exact hn.2
      · rw [if_neg hw] at hn ⊢; exact hn

/-! ### The parents -/

/-- The trees before word `x` is attached -/
structure Lk (n x : Nat) (h c : Heap) : Prop where
  parent : ∀ y, c.parent y = if x ≤ y ∧ y ≤ n then some 0 else h.parent y
  free : ∀ y, (y = 0 ∨ x ≤ y) → h.parent y = none
  children : c.children = upd h.children 0 (List.range' 1 n ++ h.children 0)
  ord : c.ord = h.ord
  root : c.root = h.root
  words : c.words = h.words
  next : c.next = h.next

theorem climb_same {n x : Nat} {h c : Heap} (hl : Lk n x h c) (hx : 1 ≤ x) {a : Nat} (ha : a ≠ 0) : ∀ (fuel : Nat) (p : Option Nat) (b : Bool),
    climbTo h a fuel p = some b → climbTo c a (fuel + 1) p = some b := by
  have zero : ∀ fuel, climbTo c a (fuel + 1) (some 0) = some false := by
    intro fuel
    rw [climbTo, if_neg (fun e => ha e.symm), hl.parent, if_neg (by omega), hl.free 0 (.inl rfl)]
    cases fuel <;> rfl
  intro fuel
  induction fuel with
  | zero =>
    intro p b hb
    cases p with
    | none => exact hb
    | some q => cases hb
  | succ fuel ih =>
    intro p b hb
    cases p with
    | none => exact hb
    | some q =>
      rw [climbTo] at hb ⊢
      by_cases hq : q = a
      · rw [if_pos hq] at hb ⊢; exact hb
      · rw [if_neg hq] at hb ⊢
        rw [hl.parent]
        by_cases hr : x ≤ q ∧ q ≤ n
        · rw [if_pos hr, zero]
          rw [hl.free q (.inr hr.1)] at hb
          cases fuel <;> exact hb
        · rw [if_neg hr]; exact ih _ _ hb

theorem climb_start {n x : Nat} {h c : Heap} (hl : Lk n x h c) (hx : 1 ≤ x) {a : Nat} (ha : a ≠ 0) {fuel p : Nat} {b : Bool}
    (hb : climbTo h a fuel (h.parent p) = some b) : climbTo c a (fuel + 1) (c.parent p) = some b := by
  rw [hl.parent]
  by_cases hr : x ≤ p ∧ p ≤ n
  · rw [if_pos hr]
    rw [hl.free p (.inr hr.1)] at hb
    have : some b = some false := by rw [← hb]; cases fuel <;> rfl
    rw [climbTo, if_neg (fun e => ha e.symm), hl.parent, if_neg (by omega), hl.free 0 (.inl rfl), this]
    cases fuel <;> rfl
  · rw [if_neg hr]; exact climb_same hl hx ha _ _ _ hb

theorem attach_same {n x : Nat} {h c : Heap} (hl : Lk n x h c) (hx : 1 ≤ x) (p : Nat) : Lk n (x + 1) (attach h x p) (attach c x p) := by
  refine ⟨?_, ?_, ?_, hl.ord, hl.root, hl.words, hl.next⟩
  · intro y
    simp only [attach, upd]
    by_cases e : y = x
    · subst e; simp; omega
    · rw [if_neg e, if_neg e, hl.parent]
      by_cases h1 : x ≤ y ∧ y ≤ n
      · rw [if_pos h1, if_pos (by omega)]
      · rw [if_neg h1, if_neg (by omega)]
  · intro y hy
    simp only [attach, upd]
    rw [if_neg (by omega)]
    exact hl.free y (by omega)
  · simp only [attach, hl.children]
    funext q
    simp only [upd]
    by_cases h1 : q = p
    · subst h1
      by_cases h2 : q = 0
      · subst h2; simp
      · simp [h2]
    · by_cases h2 : q = 0
      · subst h2
        simp [fun e : (0 : Nat) = p => h1 e]
      · simp [h1, h2]

theorem link_same {o : Opts} (ho : o.fixCycles = false) {n x fuel : Nat} {h c : Heap} (hl : Lk n x h c) (hx : 1 ≤ x) (i : Int) (hd : linkOne o n fuel h x i ≠ .error .diverges) :
    Res (Lk n (x + 1)) (linkOne o n fuel h x i) (linkOneC o n (fuel + 1) c x (some i)) := by
  unfold linkOne at hd ⊢
  unfold linkOneC
  dsimp only
  cases hp : pyIdx (n + 1) i with
  | none => exact .inl ⟨_, rfl, rfl⟩
  | some p =>
    rw [hp] at hd
    dsimp only at hd ⊢
    by_cases hxp : x = p
    · rw [if_pos hxp, if_pos hxp, ho]
      exact .inl ⟨_, rfl, rfl⟩
    · rw [if_neg hxp] at hd ⊢
      rw [if_neg hxp]
      have hch : c.children x = h.children x := by
        rw [hl.children]; simp only [upd]; rw [if_neg (by omega)]
      rw [hch]
      by_cases hc : h.children x = []
      · rw [if_pos hc, if_pos hc]
        exact .inr ⟨_, _, rfl, rfl, attach_same hl hx p⟩
      · rw [if_neg hc] at hd ⊢
        rw [if_neg hc]
        cases hcl : climbTo h x fuel (h.parent p) with
        | none => rw [hcl] at hd; exact absurd rfl hd
        | some b =>
          rw [climb_start hl hx (by omega) hcl]
          cases b
          · exact .inr ⟨_, _, rfl, rfl, attach_same hl hx p⟩
          · dsimp only
            rw [ho]
            exact .inl ⟨_, rfl, rfl⟩

theorem linkAll_same {o : Opts} (ho : o.fixCycles = false) {n fuel : Nat} : ∀ {is : List Int} {x : Nat} {h c : Heap}, Lk n x h c → 1 ≤ x → linkAll o n fuel h x is ≠ .error .diverges →
    Res (Lk n (x + is.length)) (linkAll o n fuel h x is) (linkAllC o n (fuel + 1) c x (is.map some)) := by
  intro is
  induction is with
  | nil => intro x h c hl _ _; exact .inr ⟨h, c, rfl, rfl, hl⟩
  | cons i is ih =>
    intro x h c hl hx hd
    rw [List.map_cons]
    unfold linkAll at hd ⊢
    unfold linkAllC
    have hd' : linkOne o n fuel h x i ≠ .error .diverges := by
      intro e; rw [e] at hd; exact hd rfl
    rcases link_same ho hl hx i hd' with ⟨e, e1, e2⟩ | ⟨a, b, e1, e2, e3⟩
    · rw [e1, e2]; exact .inl ⟨e, rfl, rfl⟩
    · rw [e1] at hd ⊢
      rw [e2]
      dsimp only at hd ⊢
      have := ih e3 (by omega) hd
      rw [show x + 1 + is.length = x + (i :: is).length by simp; omega] at this
      exact this

theorem Lk_end {n x : Nat} {h c : Heap} (hl : Lk n x h c) (hx : n < x) : c = { h with children := upd h.children 0 (List.range' 1 n ++ h.children 0) } := by
  obtain ⟨p1, c1, o1, r1, w1, n1⟩ := c
  obtain ⟨p2, c2, o2, r2, w2, n2⟩ := h
  have h1 : p1 = p2 := funext fun y => by have := hl.parent y; dsimp only at this; rw [this, if_neg (by omega)]
  have h2 := hl.children
  have h3 := hl.ord
  have h4 := hl.root
  have h5 := hl.words
  have h6 := hl.next
  dsimp only at h2 h3 h4 h5 h6
  subst h1 h2 h3 h4 h5 h6
  rfl

theorem link_words {h : Heap} {x p : Nat} : (attach h x p).words = h.words := rfl

theorem linkOne_words {o : Opts} {n fuel : Nat} {h h' : Heap} {x : Nat} {i : Int} (e : linkOne o n fuel h x i = .ok h') : h'.words = h.words := by
  unfold linkOne at e
  split at e
  · cases e
  · split at e
    · split at e
      · cases e; rfl
      · cases e
    · split at e
      · cases e; rfl
      · split at e
        · cases e
        · cases e; rfl
        · split at e
          · cases e; rfl
          · cases e

theorem linkAll_words {o : Opts} {n fuel : Nat} : ∀ {is : List Int} {h h' : Heap} {x : Nat}, linkAll o n fuel h x is = .ok h' → h'.words = h.words := by
  intro is
  induction is with
  | nil => intro h h' x e; cases e; rfl
  | cons i is ih =>
    intro h h' x e
    unfold linkAll at e
    cases h1 : linkOne o n fuel h x i with
    | error e' => rw [h1] at e; cases e
    | ok g => rw [h1] at e; dsimp only at e; rw [ih e, linkOne_words h1]

/-! ### The multi-word tokens -/

theorem createMwt_conv (t : Tree) (ws : List Nat) (form : Option Str) (misc : Str) :
    createMwt (conv t) ws form misc = match createMwt t ws form misc with
      | .error e => .error e
      | .ok t => .ok (conv t) := by
  unfold createMwt
  have h1 : (conv t).mwt = t.mwt := rfl
  rw [h1]
  cases Mwt.create t.mwt ws with
  | mk s e =>
    cases e with
    | some e => cases e <;> rfl
    | none =>
      dsimp only
      have h2 : (fun x => ((conv t).attrs x).misc) = fun x => (t.attrs x).misc := rfl
      rw [h2]
      congr 1
      unfold conv
      congr 1
      funext x
      dsimp only
      split <;> rfl

theorem readMwt_conv (n : Nat) (f : List Str) (t : Tree) : readMwt (conv t) n f = match readMwt t n f with
      | .error e => .error e
      | .ok t => .ok (conv t) := by
  unfold readMwt
  split
  · cases pyInt _ with
    | none => rfl
    | some a =>
      cases pyInt _ with
      | none => rfl
      | some b => exact createMwt_conv _ _ _ _
  · rfl

theorem readMwts_conv (n : Nat) : ∀ (fs : List (List Str)) (t : Tree), readMwts n (conv t) fs = match readMwts n t fs with
      | .error e => .error e
      | .ok t => .ok (conv t) := by
  intro fs
  induction fs with
  | nil => intro t; rfl
  | cons f fs ih =>
    intro t
    rw [readMwts, readMwts, readMwt_conv]
    cases readMwt t n f with
    | error e => rfl
    | ok t' => exact ih t'

theorem realWords_same (lower : Str → Str) {a : Acc} {c : AccC} (h : Same a c) : realWordsC lower c.words = (realWords lower a.words).map (fun w => norm w.2.1) := by
  rw [h.words]
  match a.words with
  | [] => rfl
  | [w] =>
    simp only [List.map_cons, List.map_nil, realWordsC, realWords]
    have : (norm w.2.1).misc = w.2.1.misc := rfl
    rw [this]
    split <;> rfl
  | w :: v :: ws => rfl

theorem createMwt_heap {t t' : Tree} {ws : List Nat} {form : Option Str} {misc : Str} (h : createMwt t ws form misc = .ok t') : t'.heap = t.heap := by
  unfold createMwt at h
  split at h
  · cases h
  · cases h
  · cases h; rfl

theorem readMwt_heap {t t' : Tree} {n : Nat} {f : List Str} (h : readMwt t n f = .ok t') : t'.heap = t.heap := by
  unfold readMwt at h
  split at h
  · split at h
    · exact createMwt_heap h
    · cases h
  · cases h

theorem readMwts_heap {n : Nat} : ∀ {fs : List (List Str)} {t t' : Tree}, readMwts n t fs = .ok t' → t'.heap = t.heap := by
  intro fs
  induction fs with
  | nil => intro t t' h; cases h; rfl
  | cons f fs ih =>
    intro t t' h
    rw [readMwts] at h
    cases h1 : readMwt t n f with
    | error e => rw [h1] at h; cases h
    | ok u => rw [h1] at h; rw [ih h, readMwt_heap h1]

theorem real_take (lower : Str → Str) (ws : List (Nat × Attrs × Int)) : realWords lower ws = ws ∨ realWords lower ws = [] := by
  match ws with
  | [] => exact .inl rfl
  | [w] =>
    unfold realWords
    dsimp only
    split
    · exact .inr rfl
    · exact .inl rfl
  | w :: v :: ws => exact .inl rfl

/-! ## The properties -/

/-- **C169 (the same trees, partial)** For lines with the numbers 1, 2, 3, ... the default columns give the same results as `read.Conllu`: the same exceptions, and the same trees
but for `None` in place of `_` in forms and lemmas, and the list of the children of the root. Missing: this list, see `C169_children_violated`; `fix_cycles`. -/
theorem C169_same_partial {lower : Str → Str} {o : Opts} {fuel : Nat} {lines : List Str} (ho : o.fixCycles = false) (hn : Numbered 0 lines) (hf : Filled lines)
    (hfuel : (wordLines lines).length + 1 < fuel) :
    readTreeC (split '\t') defaultNames lower o (fuel + 1) lines = match readTree lower o fuel lines with
      | .error e => .error e
      | .ok none => .ok none
      | .ok (some t) => .ok (some (conv t)) := by
  have hd := C28_read_ends (lower := lower) (o := o) hfuel (fun e => by rw [ho] at e; cases e)
  unfold readTree at hd ⊢
  unfold readTreeC
  rcases readLines_same (o := o) (a := ⟨[], [], []⟩) (c := ⟨[], [], [], []⟩) ⟨⟨rfl, rfl, rfl, rfl⟩, rfl⟩ hf hn with ⟨e, e1, e2⟩ | ⟨a, c, e1, e2, hs, hr⟩
  · rw [e1, e2]
  · rw [e1] at hd ⊢
    rw [e2]
    dsimp only at hd ⊢
    by_cases h0 : a.words = []
    · rw [if_pos h0, if_pos (by rw [hs.words, h0]; rfl)]
    · rw [if_neg h0] at hd ⊢
      rw [if_neg (by rw [hs.words]; simpa using h0), realWords_same lower hs]
      have hids : (realWords lower a.words).map (·.1) = List.range' 1 (realWords lower a.words).length := by
        rcases real_take lower a.words with e | e
        · rw [e]; exact hr
        · rw [e]; rfl
      have hheads : (List.range (realWords lower a.words).length).map (fun i => c.heads[i]?) = ((realWords lower a.words).map (·.2.2)).map some := by
        rcases real_take lower a.words with e | e
        · rw [e, hs.heads]
          apply List.ext_getElem?
          intro i
          rw [List.getElem?_map, List.getElem?_map]
          by_cases hi : i < a.words.length
          · rw [List.getElem?_range hi, List.getElem?_map, Option.map_some, List.getElem?_map, List.getElem?_eq_getElem hi]; rfl
          · rw [List.getElem?_eq_none_iff.2 (by simpa using hi), List.getElem?_eq_none_iff.2 (by simpa using hi)]; rfl
        · rw [e]; rfl
      generalize realWords lower a.words = ws at *
      rw [List.length_map, hheads]
      have hstart : Lk ws.length 1 (startHeap (ws.map (·.1))) (startHeapC ws.length) := by
        rw [hids]
        refine ⟨fun y => rfl, fun _ _ => rfl, ?_, rfl, rfl, ?_, ?_⟩
        · funext q; simp [startHeapC, startHeap, upd]
        · simp [startHeapC, startHeap]
        · simp [startHeapC, startHeap]
      have hd' : linkAll o ws.length fuel (startHeap (ws.map (·.1))) 1 (ws.map (·.2.2)) ≠ .error .diverges := by
        intro e; rw [e] at hd; exact hd rfl
      rcases linkAll_same ho hstart (Nat.le_refl 1) hd' with ⟨e, e3, e4⟩ | ⟨h, hc, e3, e4, e5⟩
      · rw [e3, e4]
      · have hw : h.words 0 = List.range' 1 ws.length := by
          rw [linkAll_words e3]; simp [startHeap, upd]
        rw [e3, e4]
        dsimp only
        have he := Lk_end e5 (by simp)
        rw [← hw] at he
        rw [hs.empties, hs.mwts]
        have key : ({ heap := hc
                      attrs := fun x => if x = 0 then ⟨none, none, none, none, none, none, none, none⟩ else ((ws.map (fun w => norm w.2.1))[x - 1]?).getD ⟨none, none, none, none, none, none, none, none⟩
                      empties := a.empties
                      mwt := Mwt.St.init
                      mwtForm := fun _ => none
                      mwtMisc := fun _ => none } : Tree) =
            conv { heap := h
                   attrs := fun x => if x = 0 then ⟨none, none, none, none, none, none, none, none⟩ else ((ws.map (·.2.1))[x - 1]?).getD ⟨none, none, none, none, none, none, none, none⟩
                   empties := a.empties
                   mwt := Mwt.St.init
                   mwtForm := fun _ => none
                   mwtMisc := fun _ => none } := by
          unfold conv
          rw [he]
          congr 1
          funext x
          dsimp only
          by_cases hx : x = 0
          · rw [if_pos hx, if_pos hx]; rfl
          · rw [if_neg hx, if_neg hx, List.getElem?_map, List.getElem?_map]
            cases ws[x - 1]? <;> rfl
        rw [key, readMwts_conv]
        cases readMwts ws.length _ a.mwts <;> rfl

theorem nodeLine_norm (lower : Str → Str) (i d : Str) (a : Attrs) : nodeLine lower i d (norm a) = nodeLine lower i d a := by
  have h : ∀ v : Option Str, colOr (v.bind unless_) = colOr v := by
    intro v
    cases v with
    | none => rfl
    | some s =>
      by_cases hs : s = ['_']
      · subst hs; rfl
      · simp [unless_, hs]
  unfold nodeLine norm
  dsimp only
  rw [h, h]

theorem writeLoop_conv (lower : Str → Str) (t : Tree) : ∀ (l : List Item) (last : Nat), writeLoop lower (conv t) last l = writeLoop lower t last l := by
  intro l
  induction l with
  | nil => intro last; rfl
  | cons i l ih =>
    intro last
    cases i with
    | empty e => simp only [writeLoop, ih]
    | word x =>
      have h1 : mwtBefore (conv t) last x = mwtBefore t last x := rfl
      have h2 : ∀ m, mwtLine lower (conv t) m = mwtLine lower t m := fun _ => rfl
      have h3 : headCol (conv t) x = headCol t x := rfl
      have h4 : (conv t).heap.ord = t.heap.ord := rfl
      have h5 : ∀ m, mwtWords (conv t) m = mwtWords t m := fun _ => rfl
      have h6 : (conv t).attrs x = norm (t.attrs x) := rfl
      simp only [writeLoop, h1, h2, h3, h4, h5, h6, nodeLine_norm, ih]

/-- **C169 (the same files)** What `write.Conllu` prints after `read.Conll` is what it prints after `read.Conllu`. -/
theorem C169_written (lower : Str → Str) (t : Tree) : writeNodes lower (conv t) 0 = writeNodes lower t 0 := by
  unfold writeNodes
  have h1 : writeItems (conv t) 0 = writeItems t 0 := rfl
  have h2 : (conv t).heap.words = t.heap.words := rfl
  rw [h1, writeLoop_conv, h2]

theorem ids_of {lines : List Str} : ∀ {k : Nat}, Numbered k lines → (wordLines lines).map idOf = List.range' (k + 1) (wordLines lines).length := by
  induction lines with
  | nil => intro k _; rfl
  | cons l ls ih =>
    intro k h
    rw [Numbered] at h
    unfold wordLines at ih ⊢
    rw [List.filter_cons]
    by_cases hw : isWordLine l = true
    · rw [if_pos hw] at h ⊢
      rw [List.map_cons, ih h.2, List.length_cons, List.range'_succ]
      congr 1
      unfold idOf
      rw [h.1]
      rfl
    · rw [if_neg hw] at h ⊢
      exact ih h

theorem real_ids {lines : List Str} (h : Numbered 0 lines) : (realLines lines).map idOf = List.range' 1 (realLines lines).length := by
  have := ids_of h
  unfold realLines
  split
  · rename_i l hl
    rw [hl] at this
    split
    · rfl
    · exact this
  · exact this

/-- **C169 (children of the root, violated)** In every tree that is read, all words are among the children of the root, the words that depend on it even twice. -/
theorem C169_children_violated {lower : Str → Str} {o : Opts} {fuel : Nat} {lines : List Str} {t : Tree} (ho : o.fixCycles = false) (hn : Numbered 0 lines) (hf : Filled lines)
    (hfuel : (wordLines lines).length + 1 < fuel) (h : readTreeC (split '\t') defaultNames lower o (fuel + 1) lines = .ok (some t)) :
    ∀ x ∈ t.heap.words 0, x ∈ t.heap.children 0 ∧ (t.heap.parent x = some 0 → 2 ≤ (t.heap.children 0).count x) := by
  rw [C169_same_partial ho hn hf hfuel] at h
  cases hr : readTree lower o fuel lines with
  | error e => rw [hr] at h; cases h
  | ok m =>
    cases m with
    | none => rw [hr] at h; cases h
    | some u =>
      rw [hr] at h
      dsimp only at h
      cases h
      obtain ⟨hw, _, _⟩ := C28_read_partial hfuel (real_ids hn) (fun e => by rw [ho] at e; cases e) hr
      intro x hx
      have hx' : x ∈ u.heap.words 0 := hx
      have hc : (conv u).heap.children 0 = u.heap.words 0 ++ u.heap.children 0 := rfl
      rw [hc]
      refine ⟨List.mem_append_left _ hx', fun hp => ?_⟩
      have h2 : x ∈ u.heap.children 0 := (hw.childIff 0 (.inl rfl) x).2 ⟨hx', hp⟩
      have c1 := List.count_pos_iff.2 hx'
      have c2 := List.count_pos_iff.2 h2
      rw [List.count_append]
      omega

/-! ### The order of columns -/

def Plain (n : Str) : Prop := n = nForm ∨ n = nLemma ∨ n = nUpos ∨ n = nXpos ∨ n = nFeats ∨ n = nDeprel ∨ n = nDeps ∨ n = nMisc

theorem col_us (o : Opts) (k : Nat) (s : Attrs × List Int) (v : Str) : setCol o k s ['_'] v = .ok s := by
  simp [setCol, nHead, nOrd, nDeps]

/-- What a column does with the attributes -/
def fa (n v : Str) (a : Attrs) : Attrs :=
  match setCol ⟨false, false⟩ 0 (a, []) n v with
  | .ok s => s.1
  | .error _ => a

theorem col_plain {n : Str} (h : Plain n) (o : Opts) (k : Nat) (s : Attrs × List Int) (v : Str) : setCol o k s n v = .ok (fa n v s.1, s.2) := by
  unfold fa
  rcases h with rfl | rfl | rfl | rfl | rfl | rfl | rfl | rfl <;> simp only [col_form, col_lemma, col_upos, col_xpos, col_feats, col_deprel, col_deps, col_misc]

theorem fa_comm {n m : Str} (hn : Plain n) (hm : Plain m) (h : n ≠ m) (v w : Str) (a : Attrs) : fa m w (fa n v a) = fa n v (fa m w a) := by
  unfold fa
  rcases hn with rfl | rfl | rfl | rfl | rfl | rfl | rfl | rfl <;> rcases hm with rfl | rfl | rfl | rfl | rfl | rfl | rfl | rfl <;>
    first
    | exact absurd rfl h
    | simp only [col_form, col_lemma, col_upos, col_xpos, col_feats, col_deprel, col_deps, col_misc]

def two (o : Opts) (k : Nat) (s : Attrs × List Int) (c d : Str × Str) : Except Err (Attrs × List Int) :=
  match setCol o k s c.1 c.2 with
  | .error e => .error e
  | .ok s => setCol o k s d.1 d.2

theorem head_err {o : Opts} {v : Str} {e : Err} (h : readHead o v = .error e) : e = .valueError := by
  unfold readHead at h
  split at h
  · cases h
  · split at h
    · cases h
    · cases h; rfl

def Known (n : Str) : Prop := n = nOrd ∨ n = nHead ∨ n = ['_'] ∨ Plain n

theorem two_comm (o : Opts) (k : Nat) (s : Attrs × List Int) {c d : Str × Str} (hc : Known c.1) (hd : Known d.1) (h : c.1 ≠ d.1 ∨ c.1 = ['_']) : two o k s c d = two o k s d c := by
  obtain ⟨n, v⟩ := c
  obtain ⟨m, w⟩ := d
  have us : ∀ (s : Attrs × List Int) (n v w : Str), two o k s (['_'], v) (n, w) = two o k s (n, w) (['_'], v) := by
    intro s n v w
    simp only [two, col_us]
    cases setCol o k s n w <;> rfl
  by_cases h1 : n = ['_']
  · subst h1; exact us _ _ _ _
  by_cases h2 : m = ['_']
  · subst h2; exact (us _ _ _ _).symm
  have hne : n ≠ m := h.elim id (fun e => absurd e h1)
  rcases hc with rfl | rfl | rfl | hc
  · rcases hd with rfl | rfl | rfl | hd
    · exact absurd rfl hne
    · simp only [two, col_ord, col_head]
      by_cases g : pyInt v = some (k : Int)
      · rw [if_pos g]
        cases readHead o w <;> dsimp only
        rw [if_pos g]
      · rw [if_neg g]
        cases hh : readHead o w with
        | error e => rw [head_err hh]
        | ok i => dsimp only; rw [if_neg g]
    · exact absurd rfl h2
    · simp only [two, col_ord, col_plain hd]
      by_cases g : pyInt v = some (k : Int)
      · rw [if_pos g, if_pos g]
      · rw [if_neg g, if_neg g]
  · rcases hd with rfl | rfl | rfl | hd
    · simp only [two, col_ord, col_head]
      by_cases g : pyInt w = some (k : Int)
      · rw [if_pos g]
        cases readHead o v <;> dsimp only
        rw [if_pos g]
      · rw [if_neg g]
        cases hh : readHead o v with
        | error e => rw [head_err hh]
        | ok i => dsimp only; rw [if_neg g]
    · exact absurd rfl hne
    · exact absurd rfl h2
    · simp only [two, col_head, col_plain hd]
      cases readHead o v <;> rfl
  · exact absurd rfl h1
  · rcases hd with rfl | rfl | rfl | hd
    · simp only [two, col_ord, col_plain hc]
      by_cases g : pyInt w = some (k : Int)
      · rw [if_pos g, if_pos g]
      · rw [if_neg g, if_neg g]
    · simp only [two, col_head, col_plain hc]
      cases readHead o w <;> rfl
    · exact absurd rfl h2
    · simp only [two, col_plain hc, col_plain hd]
      rw [fa_comm hc hd hne]

theorem setCols_two (o : Opts) (k : Nat) (s : Attrs × List Int) (c d : Str × Str) (cs : List (Str × Str)) :
    setCols o k s (c :: d :: cs) = match two o k s c d with
      | .error e => .error e
      | .ok s => setCols o k s cs := by
  simp only [setCols, two]
  cases setCol o k s c.1 c.2 <;> rfl

/-- **C169 (the order of columns)** The columns of a word can be in any order, if their names are known and no name other than `_` is repeated. -/
theorem C169_columns {o : Opts} {k : Nat} : ∀ {cs ds : List (Str × Str)}, cs.Perm ds → (∀ c ∈ cs, Known c.1) → cs.Pairwise (fun c d => c.1 ≠ d.1 ∨ c.1 = ['_']) →
    ∀ s, setCols o k s cs = setCols o k s ds := by
  intro cs ds h
  induction h with
  | nil => intro _ _ s; rfl
  | cons c _ ih =>
    intro h1 h2 s
    rw [setCols, setCols]
    cases setCol o k s c.1 c.2 with
    | error e => rfl
    | ok s => exact ih (fun x hx => h1 x (List.mem_cons_of_mem _ hx)) (List.pairwise_cons.1 h2).2 s
  | swap c d l =>
    intro h1 h2 s
    rw [setCols_two, setCols_two, two_comm o k s (h1 d (by simp)) (h1 c (by simp)) ((List.pairwise_cons.1 h2).1 c (by simp))]
  | trans p q ih1 ih2 =>
    intro h1 h2 s
    rw [ih1 h1 h2 s]
    refine ih2 (fun x hx => h1 x (p.mem_iff.2 hx)) ?_ s
    refine (p.pairwise_iff ?_).1 h2
    intro x y hxy
    rcases hxy with h | h
    · exact .inl (fun e => h e.symm)
    · by_cases e : x.1 = y.1
      · exact .inr (e ▸ h)
      · exact .inl (fun e' => e e'.symm)

/-- **C169 (no column `head`, violated)** Without a column `head` no sentence with words can be read: the result is always an IndexError. -/
theorem C169_nohead_violated {sp : Str → List Str} {names : List Str} {lower : Str → Str} {o : Opts} {fuel : Nat} {lines : List Str} {a : AccC} (hn : nHead ∉ names)
    (h : readLinesC sp names o ⟨[], [], [], []⟩ lines = .ok a) (hw : realWordsC lower a.words ≠ []) : readTreeC sp names lower o fuel lines = .error .indexError := by
  have c0 : ∀ {k : Nat} {cs : List (Str × Str)} {s s' : Attrs × List Int}, (∀ c ∈ cs, c.1 ≠ nHead) → setCols o k s cs = .ok s' → s'.2 = s.2 := by
    intro k cs
    induction cs with
    | nil => intro s s' _ e; cases e; rfl
    | cons c cs ih =>
      intro s s' hc e
      rw [setCols] at e
      cases e1 : setCol o k s c.1 c.2 with
      | error x => rw [e1] at e; cases e
      | ok u =>
        rw [e1] at e
        rw [ih (fun x hx => hc x (List.mem_cons_of_mem _ hx)) e]
        unfold setCol at e1
        rw [if_neg (hc c List.mem_cons_self)] at e1
        split at e1
        · split at e1
          · cases e1; rfl
          · cases e1
        · split at e1
          · cases e1; rfl
          · split at e1
            · split at e1
              · cases e1
              · cases e1; rfl
            · cases e1; rfl
  have l0 : ∀ {ls : List Str} {b b' : AccC}, readLinesC sp names o b ls = .ok b' → b'.heads = b.heads := by
    intro ls
    induction ls with
    | nil => intro b b' e; cases e; rfl
    | cons l ls ih =>
      intro b b' e
      rw [readLinesC] at e
      cases e1 : readLineC sp names o b l with
      | error x => rw [e1] at e; cases e
      | ok u =>
        rw [e1] at e
        rw [ih e]
        cases l with
        | nil => cases e1
        | cons x l =>
          by_cases hx : x = '#'
          · subst hx; cases e1; rfl
          · rw [readLineC_cons hx] at e1
            cases e2 : fieldsC sp names o (x :: l) with
            | error y => rw [e2] at e1; cases e1
            | ok f =>
              rw [e2] at e1
              dsimp only at e1
              unfold readFieldsC at e1
              split at e1
              · cases e1; rfl
              · split at e1
                · split at e1
                  · cases e1
                  · split at e1
                    · cases e1
                    · cases e1; rfl
                · split at e1
                  · cases e1
                  · rename_i s hs
                    cases e1
                    exact c0 (fun c hc e => hn (e ▸ (List.of_mem_zip hc).1)) hs
  have hh : a.heads = [] := l0 h
  unfold readTreeC
  rw [h]
  dsimp only
  have h0 : a.words ≠ [] := by
    intro e; rw [e] at hw; exact hw rfl
  rw [if_neg h0, hh]
  cases hr : realWordsC lower a.words with
  | nil => exact absurd hr hw
  | cons w ws =>
    rw [List.length_cons, List.range_succ_eq_map, List.map_cons, linkAllC]
    rfl

/-- **C169 (the first column, violated)** Whatever the names are, a line is the line of a word only if its first column contains neither a hyphen nor a full stop; so words such as `.` or `e-mail` are no
words if the first column is that of the forms. -/
theorem C169_first_violated {names : List Str} {o : Opts} {a b : AccC} {f : List Str} (h : readFieldsC names o a f = .ok b) :
    b.words.length = a.words.length + (if '-' ∈ col f 0 ∨ '.' ∈ col f 0 then 0 else 1) := by
  unfold readFieldsC at h
  by_cases h1 : '-' ∈ col f 0
  · rw [if_pos h1] at h; cases h; rw [if_pos (.inl h1)]; rfl
  rw [if_neg h1] at h
  by_cases h2 : '.' ∈ col f 0
  · rw [if_pos h2] at h
    rw [if_pos (.inr h2)]
    split at h
    · cases h
    · split at h
      · cases h
      · cases h; rfl
  · rw [if_neg h2] at h
    rw [if_neg (fun e => e.elim h1 h2)]
    split at h
    · cases h
    · cases h; simp

/-- One column changes no attribute of another name. -/
theorem setCol_other {o : Opts} {k : Nat} {s s' : Attrs × List Int} {n v : Str} (h : setCol o k s n v = .ok s') :
    (n ≠ nForm → s'.1.form = s.1.form) ∧ (n ≠ nLemma → s'.1.lemma = s.1.lemma) ∧ (n ≠ nUpos → s'.1.upos = s.1.upos) ∧ (n ≠ nXpos → s'.1.xpos = s.1.xpos) ∧
      (n ≠ nFeats → s'.1.feats = s.1.feats) ∧ (n ≠ nDeprel → s'.1.deprel = s.1.deprel) ∧ (n ≠ nDeps → s'.1.rawDeps = s.1.rawDeps) ∧ (n ≠ nMisc → s'.1.misc = s.1.misc) := by
  by_cases g : Plain n
  · rcases g with rfl | rfl | rfl | rfl | rfl | rfl | rfl | rfl <;>
      simp only [col_form, col_lemma, col_upos, col_xpos, col_feats, col_deprel, col_deps, col_misc] at h <;> cases h <;>
      refine ⟨fun e => ?_, fun e => ?_, fun e => ?_, fun e => ?_, fun e => ?_, fun e => ?_, fun e => ?_, fun e => ?_⟩ <;> first | rfl | exact absurd rfl e
  · have e : s'.1 = s.1 := by
      unfold Plain at g
      simp only [not_or] at g
      obtain ⟨g1, g2, g3, g4, g5, g6, g7, g8⟩ := g
      unfold setCol at h
      split at h
      · split at h
        · cases h
        · cases h; rfl
      · split at h
        · split at h
          · cases h; rfl
          · cases h
        · split at h
          · unfold setAttr at h
            simp only [if_neg g1, if_neg g2, if_neg g3, if_neg g4, if_neg g5, if_neg g6, if_neg g8] at h
            cases h
          · cases h; rfl
    rw [e]
    exact ⟨fun _ => rfl, fun _ => rfl, fun _ => rfl, fun _ => rfl, fun _ => rfl, fun _ => rfl, fun _ => rfl, fun _ => rfl⟩

theorem setCols_other {o : Opts} {k : Nat} : ∀ {cs : List (Str × Str)} {s s' : Attrs × List Int}, setCols o k s cs = .ok s' →
    (nForm ∉ cs.map (·.1) → s'.1.form = s.1.form) ∧ (nLemma ∉ cs.map (·.1) → s'.1.lemma = s.1.lemma) ∧ (nUpos ∉ cs.map (·.1) → s'.1.upos = s.1.upos) ∧
      (nXpos ∉ cs.map (·.1) → s'.1.xpos = s.1.xpos) ∧ (nFeats ∉ cs.map (·.1) → s'.1.feats = s.1.feats) ∧ (nDeprel ∉ cs.map (·.1) → s'.1.deprel = s.1.deprel) ∧
      (nDeps ∉ cs.map (·.1) → s'.1.rawDeps = s.1.rawDeps) ∧ (nMisc ∉ cs.map (·.1) → s'.1.misc = s.1.misc) := by
  intro cs
  induction cs with
  | nil =>
    intro s s' h; cases h
    exact ⟨fun _ => rfl, fun _ => rfl, fun _ => rfl, fun _ => rfl, fun _ => rfl, fun _ => rfl, fun _ => rfl, fun _ => rfl⟩
  | cons c cs ih =>
    intro s s' h
    rw [setCols] at h
    cases h1 : setCol o k s c.1 c.2 with
    | error e => rw [h1] at h; cases h
    | ok u =>
      rw [h1] at h
      obtain ⟨a1, a2, a3, a4, a5, a6, a7, a8⟩ := ih h
      obtain ⟨b1, b2, b3, b4, b5, b6, b7, b8⟩ := setCol_other h1
      have sp : ∀ {n : Str}, n ∉ (c :: cs).map (·.1) → c.1 ≠ n ∧ n ∉ cs.map (·.1) := fun {n} e => ⟨fun x => e (by rw [List.map_cons, x]; exact List.mem_cons_self), fun x => e (List.mem_cons_of_mem _ x)⟩
      exact ⟨fun e => (a1 (sp e).2).trans (b1 (sp e).1), fun e => (a2 (sp e).2).trans (b2 (sp e).1), fun e => (a3 (sp e).2).trans (b3 (sp e).1), fun e => (a4 (sp e).2).trans (b4 (sp e).1),
        fun e => (a5 (sp e).2).trans (b5 (sp e).1), fun e => (a6 (sp e).2).trans (b6 (sp e).1), fun e => (a7 (sp e).2).trans (b7 (sp e).1), fun e => (a8 (sp e).2).trans (b8 (sp e).1)⟩

/-- **C169 (missing columns)** An attribute without a column is `None`, DEPS is `_`. -/
theorem C169_missing {names : List Str} {o : Opts} {a b : AccC} {f : List Str} (h : readFieldsC names o a f = .ok b) (hf : '-' ∉ col f 0 ∧ '.' ∉ col f 0) :
    ∃ w, b.words = a.words ++ [w] ∧ (nForm ∉ names → w.form = none) ∧ (nLemma ∉ names → w.lemma = none) ∧ (nUpos ∉ names → w.upos = none) ∧ (nXpos ∉ names → w.xpos = none) ∧
      (nFeats ∉ names → w.feats = none) ∧ (nDeprel ∉ names → w.deprel = none) ∧ (nDeps ∉ names → w.rawDeps = some ['_']) ∧ (nMisc ∉ names → w.misc = none) := by
  unfold readFieldsC at h
  rw [if_neg hf.1, if_neg hf.2] at h
  split at h
  · cases h
  · rename_i s hs
    cases h
    have ho := setCols_other hs
    have hz : ∀ {n : Str}, n ∉ names → n ∉ (names.zip f).map (·.1) := by
      intro n hn hm
      obtain ⟨c, hc, rfl⟩ := List.mem_map.1 hm
      exact hn (List.of_mem_zip hc).1
    obtain ⟨a1, a2, a3, a4, a5, a6, a7, a8⟩ := ho
    exact ⟨s.1, rfl, fun e => a1 (hz e), fun e => a2 (hz e), fun e => a3 (hz e), fun e => a4 (hz e), fun e => a5 (hz e), fun e => a6 (hz e), fun e => a7 (hz e), fun e => a8 (hz e)⟩

/-! ## Examples -/

/-- `attributes=form,_,head` -/
def exNames : List Str := [nForm, ['_'], nHead]

example : (readTreeC (split '\t') exNames id ⟨false, false⟩ 9 ["a\tx\t2".toList, "b\ty\t0".toList]).toOption.isSome = true := by decide +kernel
example : (match readTreeC (split '\t') exNames id ⟨false, false⟩ 9 ["a\tx\t2".toList, "b\ty\t0".toList] with
  | .ok (some t) => some (t.heap.children 0, t.heap.children 2, (t.attrs 1).form)
  | _ => none) = some ([1, 2, 2], [1], some ['a']) := by decide +kernel
example : (match readTreeC (split '\t') defaultNames id ⟨false, false⟩ 9 ["1\ta\t_\tX\t_\t_\t0\tr\t_\t_".toList] with
  | .ok (some t) => some (t.heap.children 0, (t.attrs 1).lemma)
  | _ => none) = some ([1, 1], none) := by decide +kernel
example : Numbered 0 ["1\ta\t_\tX\t_\t_\t0\tr\t_\t_".toList] ∧ Filled ["1\ta\t_\tX\t_\t_\t0\tr\t_\t_".toList] := by
  refine ⟨?_, ?_⟩
  · rw [Numbered, if_pos (by decide +kernel)]; exact ⟨by decide +kernel, trivial⟩
  · intro l hl; rw [List.mem_singleton.1 hl]; exact ⟨by decide +kernel, by decide +kernel⟩

end Verif.Conllu.Conll
