import Verif.Py.Num

/-!
# Property C192: trees in the format of Treex (udapi/block/write/treex.py)

A tree is a forest: the children of a node and its right brothers. Each element of XML is a token; the indentation is left out. The
readers are the reference for the statements and not part of udapi.
-/

namespace Verif.Write.Treex
open Verif.Py

/-- The printed values of a node: form, lemma, upos and deprel (`none` for None and for the empty string), xpos and feats. -/
structure Vals where
  form : Option Str
  lemma_ : Option Str
  upos : Option Str
  deprel : Option Str
  xpos : Str
  feats : Str
  deriving DecidableEq

inductive Forest
  | nil
  | cons (ord : Nat) (vals : Vals) (children : Forest) (next : Forest)
  deriving DecidableEq

inductive Tag
  | form | lemma_ | tag | deprel
  deriving DecidableEq

inductive Tok
  | lm (id : Str)
  | ord (n : Nat)
  | field (t : Tag) (v : Str)
  | conll (xpos feats : Str)
  | children
  | endChildren
  | endLm
  deriving DecidableEq

/-- `<tag>%s</tag>` if there is a value (treex.py:46-53). -/
def field (t : Tag) : Option Str → List Tok
  | none => []
  | some v => [.field t v]

def fields (v : Vals) : List Tok :=
  field .form v.form ++ field .lemma_ v.lemma_ ++ field .tag v.upos ++ field .deprel v.deprel ++ [.conll v.xpos v.feats]

def nodeId (treeId : Str) (n : Nat) : Str := treeId ++ ['-', 'n'] ++ natStr n

/-- `print_subtree` (treex.py:39-64) for the nodes that are children of one node. -/
def print (treeId : Str) : Forest → List Tok
  | .nil => []
  | .cons n v cs next =>
    [.lm (nodeId treeId n), .ord n] ++ fields v ++
    (if cs = .nil then [] else [.children] ++ print treeId cs ++ [.endChildren]) ++ [.endLm] ++ print treeId next

/-- `print_subtree` for the root. -/
def printRoot (treeId : Str) (cs : Forest) : List Tok :=
  [.ord 0] ++ (if cs = .nil then [] else [.children] ++ print treeId cs ++ [.endChildren])

/-- The language and the selector of a zone (treex.py:28-29). -/
def zoneParts (zone : Str) : Str × Str :=
  match split '_' zone with
  | [l, s] => (l, s)
  | _ => (['u', 'n', 'd'], zone)

/-- `tree_id` (treex.py:30). -/
def treeId (bundleId zone : Str) : Str := bundleId ++ '-' :: (zoneParts zone).1

/-- `"<%s>%s</%s>"` for a value. -/
def element (name v : Str) : Str := '<' :: name ++ '>' :: v ++ '<' :: '/' :: name ++ ['>']

/-! ## Reading a tree -/

def readField (t : Tag) : List Tok → Option Str × List Tok
  | .field u v :: ts => if u = t then (some v, ts) else (none, .field u v :: ts)
  | ts => (none, ts)

def readVals (ts : List Tok) : Option (Vals × List Tok) :=
  let f := readField .form ts
  let l := readField .lemma_ f.2
  let u := readField .tag l.2
  let d := readField .deprel u.2
  match d.2 with
  | .conll x y :: ts => some (⟨f.1, l.1, u.1, d.1, x, y⟩, ts)
  | _ => none

/-- The elements `<LM>` up to an element that is none. -/
def read : Nat → List Tok → Option (Forest × List Tok)
  | 0, _ => none
  | fuel + 1, .lm _ :: .ord n :: ts =>
    (readVals ts).bind fun (v, ts) =>
      match ts with
      | .children :: ts =>
        (read fuel ts).bind fun (cs, ts) =>
          match ts with
          | .endChildren :: .endLm :: ts => (read fuel ts).map fun (next, ts) => (.cons n v cs next, ts)
          | _ => none
      | .endLm :: ts => (read fuel ts).map fun (next, ts) => (.cons n v .nil next, ts)
      | _ => none
  | _ + 1, ts => some (.nil, ts)

theorem readField_field (t : Tag) (o : Option Str) (ts : List Tok) (h : ∀ v us, ts ≠ .field t v :: us) :
    readField t (field t o ++ ts) = (o, ts) := by
  cases o with
  | some v => simp [field, readField]
  | none =>
    show readField t ts = _
    cases ts with
    | nil => rfl
    | cons x ts =>
      cases x with
      | field u v =>
        have : u ≠ t := by rintro rfl; exact h v ts rfl
        simp [readField, this]
      | _ => rfl

theorem readVals_fields (v : Vals) (ts : List Tok) : readVals (fields v ++ ts) = some (v, ts) := by
  have key : ∀ (t : Tag) (o : Option Str) (us : List Tok) (u : Tag), u ≠ t → (∀ v ws, us ≠ .field u v :: ws) →
      ∀ v ws, field t o ++ us ≠ .field u v :: ws := by
    intro t o us u hu hus v ws
    cases o with
    | none => exact hus v ws
    | some x =>
      intro h
      simp only [field, List.cons_append, List.cons.injEq, Tok.field.injEq] at h
      exact hu h.1.1.symm
  have hc : ∀ (u : Tag) w ws, (.conll v.xpos v.feats :: ts : List Tok) ≠ .field u w :: ws := by intro u w ws h; cases h
  have e : fields v ++ ts = field .form v.form ++ (field .lemma_ v.lemma_ ++ (field .tag v.upos ++ (field .deprel v.deprel ++
      (.conll v.xpos v.feats :: ts)))) := by simp [fields]
  rw [e, readVals]
  rw [readField_field .form, readField_field .lemma_, readField_field .tag, readField_field .deprel]
  · exact hc _
  · exact key _ _ _ _ (by decide) (hc _)
  · exact key _ _ _ _ (by decide) (key _ _ _ _ (by decide) (hc _))
  · exact key _ _ _ _ (by decide) (key _ _ _ _ (by decide) (key _ _ _ _ (by decide) (hc _)))

def size : Forest → Nat
  | .nil => 0
  | .cons _ _ cs next => size cs + size next + 1

theorem read_nil (fuel : Nat) (ts : List Tok) (h : ∀ i us, ts ≠ .lm i :: us) : read (fuel + 1) ts = some (.nil, ts) := by
  cases ts with
  | nil => rfl
  | cons x ts =>
    cases x with
    | lm i => exact absurd rfl (h i ts)
    | _ => rfl

theorem read_print (tid : Str) : ∀ (f : Forest) (fuel : Nat) (ts : List Tok), size f < fuel → (∀ i us, ts ≠ .lm i :: us) →
    read fuel (print tid f ++ ts) = some (f, ts) := by
  intro f
  induction f with
  | nil =>
    intro fuel ts hf h
    cases fuel with
    | zero => omega
    | succ fuel => exact read_nil fuel ts h
  | cons n v cs next ih1 ih2 =>
    intro fuel ts hf h
    cases fuel with
    | zero => omega
    | succ fuel =>
      simp only [size] at hf
      by_cases hc : cs = .nil
      · have e : print tid (.cons n v cs next) ++ ts = .lm (nodeId tid n) :: .ord n :: (fields v ++ (.endLm :: (print tid next ++ ts))) := by
          simp [print, hc]
        rw [e, read, readVals_fields]
        simp only [Option.bind_some]
        rw [ih2 fuel ts (by omega) h, hc]
        rfl
      · have e : print tid (.cons n v cs next) ++ ts = .lm (nodeId tid n) :: .ord n :: (fields v ++ (.children :: (print tid cs ++
            (.endChildren :: .endLm :: (print tid next ++ ts))))) := by
          simp [print, hc]
        rw [e, read, readVals_fields]
        simp only [Option.bind_some]
        rw [ih1 fuel _ (by omega) (by intro i us h; cases h)]
        simp only [Option.bind_some]
        rw [ih2 fuel ts (by omega) h]
        rfl

/-- **C192.** A tree is read back from what is printed: the words, their order, parents and printed values. -/
theorem C192_tree (tid : Str) (f : Forest) : ∃ fuel, (printRoot tid f = [.ord 0] ∧ f = .nil) ∨
    ∃ ts, printRoot tid f = .ord 0 :: .children :: ts ∧ read fuel ts = some (f, [.endChildren]) := by
  refine ⟨size f + 1, ?_⟩
  by_cases hf : f = .nil
  · exact .inl ⟨by simp [printRoot, hf], hf⟩
  · refine .inr ⟨print tid f ++ [.endChildren], by simp [printRoot, hf], ?_⟩
    exact read_print tid f _ _ (by omega) (by intro i us h; cases h)

/-! ## Ids -/

/-- The ids in the printed tree and the ords in it. -/
def ids : List Tok → List Str := List.filterMap fun t => match t with | .lm i => some i | _ => none
def ords : Forest → List Nat
  | .nil => []
  | .cons n _ cs next => n :: ords cs ++ ords next

theorem ids_fields (v : Vals) : ids (fields v) = [] := by
  obtain ⟨f, l, u, d, x, y⟩ := v
  cases f <;> cases l <;> cases u <;> cases d <;> rfl

theorem ids_append (a b : List Tok) : ids (a ++ b) = ids a ++ ids b := List.filterMap_append

theorem ids_print (tid : Str) (f : Forest) : ids (print tid f) = (ords f).map (nodeId tid) := by
  induction f with
  | nil => rfl
  | cons n v cs next ih1 ih2 =>
    have h1 : ids [.lm (nodeId tid n), .ord n] = [nodeId tid n] := rfl
    have h2 : ids [Tok.endLm] = [] := rfl
    have h3 : ids (if cs = .nil then [] else [.children] ++ print tid cs ++ [.endChildren]) = (ords cs).map (nodeId tid) := by
      split
      · rename_i hc; rw [hc]; rfl
      · rw [ids_append, ids_append, ih1]
        show [] ++ _ ++ [] = _
        simp
    rw [print, ids_append, ids_append, ids_append, ids_append, h1, h2, h3, ids_fields, ih2]
    simp [ords]

/-- **C192.** The nodes of a tree have different ids. -/
theorem C192_ids (tid : Str) (f : Forest) (h : (ords f).Nodup) : (ids (print tid f)).Nodup := by
  rw [ids_print]
  refine List.Pairwise.map _ ?_ h
  intro a b hab he
  exact hab (natStr_inj (List.append_cancel_left he))

/-- **C192, violated.** Two trees of a bundle with the same language have the same ids. -/
theorem C192_ids_violated (b l s s' : Str) (hl : '_' ∉ l) (hs : '_' ∉ s) (hs' : '_' ∉ s') :
    treeId b (l ++ '_' :: s) = treeId b (l ++ '_' :: s') := by
  simp [treeId, zoneParts, split_append hl, split_of_not_mem hs, split_of_not_mem hs']

theorem split_two {z l s : Str} (h : split '_' z = [l, s]) : z = l ++ '_' :: s := by
  have := join_split '_' z
  rw [h] at this
  simpa [join] using this.symm

/-- **C192.** A zone with one underscore is divided there, any other zone is the selector for an unknown language. -/
theorem C192_zone (z : Str) : (∀ l s, z = l ++ '_' :: s → '_' ∉ l → '_' ∉ s → zoneParts z = (l, s)) ∧
    ((∀ l s, z = l ++ '_' :: s → '_' ∉ l → '_' ∈ s) → zoneParts z = (['u', 'n', 'd'], z)) := by
  constructor
  · rintro l s rfl hl hs
    simp [zoneParts, split_append hl, split_of_not_mem hs]
  · intro h
    unfold zoneParts
    split
    · rename_i l s hls
      have hm := not_mem_split '_' z
      rw [hls] at hm
      exact absurd (h l s (split_two hls) (hm l (by simp))) (hm s (by simp))
    · rfl

/-- **C192, violated.** The zones `x` and `und_x` are printed alike. -/
theorem C192_zone_violated (x : Str) (h : '_' ∉ x) : zoneParts x = zoneParts (['u', 'n', 'd'] ++ '_' :: x) := by
  have h1 : zoneParts x = (['u', 'n', 'd'], x) := by simp [zoneParts, split_of_not_mem h]
  rw [h1, (C192_zone _).1 _ _ rfl (by decide) h]

/-! ## Values -/

/-- The reference: the text of an element of XML and the rest; `none` for an ampersand (the entities of XML are not used). -/
def readText : Str → Option (Str × Str)
  | [] => none
  | c :: s => if c = '<' then some ([], c :: s) else if c = '&' then none else (readText s).map fun y => (c :: y.1, y.2)

theorem text_iff (name v : Str) : (readText (v ++ '<' :: '/' :: name ++ ['>']) = some (v, '<' :: '/' :: name ++ ['>'])) ↔
    ('<' ∉ v ∧ '&' ∉ v) := by
  induction v with
  | nil => simp [readText]
  | cons c v ih =>
    by_cases h1 : c = '<'
    · subst h1
      simp [readText]
    by_cases h2 : c = '&'
    · subst h2
      simp [readText]
    have e : readText (c :: v ++ '<' :: '/' :: name ++ ['>']) = (readText (v ++ '<' :: '/' :: name ++ ['>'])).map fun y => (c :: y.1, y.2) := by
      simp [readText, h1, h2]
    rw [e]
    have h1' : ¬ '<' = c := fun h => h1 h.symm
    have h2' : ¬ '&' = c := fun h => h2 h.symm
    simp only [List.mem_cons, h1', h2', false_or]
    rw [← ih]
    cases readText (v ++ '<' :: '/' :: name ++ ['>']) with
    | none => simp
    | some y =>
      obtain ⟨a, b⟩ := y
      simp

/-- **C192, partial: for values without markup.** A value is read back exactly if it has neither `<` nor `&`. -/
theorem C192_text_partial (name v : Str) : ∃ rest, element name v = '<' :: name ++ '>' :: rest ∧
    ((readText rest = some (v, '<' :: '/' :: name ++ ['>'])) ↔ ('<' ∉ v ∧ '&' ∉ v)) :=
  ⟨v ++ '<' :: '/' :: name ++ ['>'], by simp [element], text_iff name v⟩

theorem markup (name a b : Str) (ha : '<' ∉ a ∧ '&' ∉ a) :
    readText (a ++ '&' :: b ++ '<' :: '/' :: name ++ ['>']) = none ∧
    (readText (a ++ '<' :: b ++ '<' :: '/' :: name ++ ['>'])).map Prod.fst = some a := by
  obtain ⟨h1, h2⟩ := ha
  induction a with
  | nil => simp [readText]
  | cons c a ih =>
    simp only [List.mem_cons, not_or] at h1 h2
    obtain ⟨i1, i2⟩ := ih h1.2 h2.2
    have hc1 : c ≠ '<' := fun h => h1.1 h.symm
    have hc2 : c ≠ '&' := fun h => h2.1 h.symm
    simp only [List.cons_append, readText, hc1, hc2, if_false]
    rw [i1]
    refine ⟨rfl, ?_⟩
    rw [Option.map_map]
    cases hr : readText (a ++ '<' :: b ++ '<' :: '/' :: name ++ ['>']) with
    | none => rw [hr] at i2; cases i2
    | some y =>
      rw [hr] at i2
      simp only [Option.map_some, Option.some.injEq] at i2
      simp [i2]

/-- **C192, violated.** Values are not escaped: a form such as `AT&T` is no XML, and a form with `<` is cut there. -/
theorem C192_markup_violated (name a b : Str) (ha : '<' ∉ a ∧ '&' ∉ a) :
    (∃ rest, element name (a ++ '&' :: b) = '<' :: name ++ '>' :: rest ∧ readText rest = none) ∧
    ∃ rest, element name (a ++ '<' :: b) = '<' :: name ++ '>' :: rest ∧ (readText rest).map Prod.fst = some a :=
  ⟨⟨_, by simp [element], (markup name a b ha).1⟩, ⟨_, by simp [element], (markup name a b ha).2⟩⟩

/-! ## Examples -/

def exVals : Vals := ⟨some ['a'], none, some ['X'], some ['d'], ['_'], ['_']⟩

example : printRoot ['s'] (.cons 2 exVals (.cons 1 exVals .nil .nil) .nil) =
    [.ord 0, .children, .lm ['s', '-', 'n', '2'], .ord 2, .field .form ['a'], .field .tag ['X'], .field .deprel ['d'], .conll ['_'] ['_'],
     .children, .lm ['s', '-', 'n', '1'], .ord 1, .field .form ['a'], .field .tag ['X'], .field .deprel ['d'], .conll ['_'] ['_'], .endLm,
     .endChildren, .endLm, .endChildren] := by decide +kernel
example : treeId ['s'] ['e', 'n', '_', 'a'] = ['s', '-', 'e', 'n'] := by decide
example : element ['f'] ['a'] = ['<', 'f', '>', 'a', '<', '/', 'f', '>'] := by decide

end Verif.Write.Treex
