import Verif.Conllu.Conll
import Verif.Conllu.Meta
import Verif.DualDict.PunctType

/-!
# Property C175: CoNLL-U Plus files (udapi/block/read/conllup.py)

The reader is `read.Conll` with names of columns taken from the header `# global.columns` and with a place for columns of other names, which is MISC. The names stay in the reader
(`self.node_attributes`) from one sentence, and from one file, to the next. `str.lower` and `str.capitalize` are arbitrary functions. Comment lines other than the header are left out
as in `Model.lean`.
-/

namespace Verif.Conllu.Conllup
open Verif.Py Verif.Tree Verif.Conllu Verif.Conllu.Conll

/-- The exceptions of `read.Conll`, and two more -/
inductive ErrP where
  | base (e : Err)
  | typeError
  | notImplemented
  deriving DecidableEq

/-- `columns` -/
def kColumns : Str := ['c', 'o', 'l', 'u', 'm', 'n', 's']

/-- `RE_GLOBAL_COLUMNS` (conllup.py:16): `^# global.columns\s*=\s*(.+)` -/
def matchColumns (line : Str) : Option Str :=
  match Meta.after Meta.kGlobal line with
  | some (_ :: r0) =>
    match Meta.after kColumns r0 with
    | none => none
    | some r =>
      match Meta.skipWs r with
      | [] => none
      | c :: r2 => if c = '=' then Meta.wsRest r2 else none
  | _ => none

/-- `COLUMN_MAP.get(v, v.lower())` (conllup.py:17-19, 51) -/
def colName (lower : Str → Str) (v : Str) : Str := if v = ['I', 'D'] then nOrd else lower v

/-- `NORMAL_ATTRS` (conllup.py:20) -/
def normals : List Str := [nForm, nLemma, nUpos, nXpos, nFeats, nDeprel, nMisc]

/-- A word while its columns are read: attributes, `parents`, `nonstandard_attrs` -/
structure PS where
  attrs : Attrs
  heads : List Int
  extra : List (Str × Str)

/-- The column `head` (conllup.py:77-88) -/
def readHeadP (o : Opts) (v : Str) : Except Err Int := if v = ['?', '?', '?'] then .ok 0 else readHead o v

/-- One column of the word number `k` (conllup.py:76-101) -/
def setColP (o : Opts) (k : Nat) (s : PS) (n v : Str) : Except Err PS :=
  if n = nHead then
    match readHeadP o v with
    | .error e => .error e
    | .ok h => .ok { s with heads := s.heads ++ [h] }
  else if n = nOrd then (if pyInt v = some (k : Int) then .ok s else .error .valueError)
  else if n = nDeps then .ok { s with attrs := { s.attrs with rawDeps := some v } }
  else if v = ['_'] ∧ n ≠ nForm then .ok s
  else if n = ['_'] then .ok s
  else if n ∈ normals then
    match setAttr s.attrs n v with
    | .error e => .error e
    | .ok a => .ok { s with attrs := a }
  else .ok { s with extra := s.extra ++ [(n, v)] }

def setColsP (o : Opts) (k : Nat) : PS → List (Str × Str) → Except Err PS
  | s, [] => .ok s
  | s, c :: cs =>
    match setColP o k s c.1 c.2 with
    | .error e => .error e
    | .ok s => setColsP o k s cs

/-- `node.misc[attribute_name.capitalize()] = value` (conllup.py:104-105) -/
def setExtra (cap : Str → Str) (m : Option DualDict.State) (p : Str × Str) : Option DualDict.State :=
  some (DualDict.setItem DualDict.dd (m.getD DualDict.init) (cap p.1) (some (.str p.2))).1

/-- The attributes of the word when all columns are read -/
def finAttrs (cap : Str → Str) (s : PS) : Attrs := { s.attrs with misc := s.extra.foldl (setExtra cap) s.attrs.misc }

/-- `parse_node_line` after the columns are split (conllup.py:64-107) -/
def readFieldsP (cap : Str → Str) (names : List Str) (o : Opts) (a : AccC) (f : List Str) : Except ErrP AccC :=
  if '-' ∈ col f 0 then .ok { a with mwts := a.mwts ++ [f] }
  else if '.' ∈ col f 0 then .error .notImplemented
  else
    match setColsP o (a.words.length + 1) ⟨newAttrs, a.heads, []⟩ (names.zip f) with
    | .error e => .error (.base e)
    | .ok s => .ok { a with words := a.words ++ [finAttrs cap s], heads := s.heads }

/-- A line of a word (conllup.py:57-107); `len(None)` raises TypeError. -/
def readNodeP (cap : Str → Str) (st : Option (List Str)) (o : Opts) (a : AccC) (line : Str) : Except ErrP AccC :=
  match st with
  | none => .error .typeError
  | some names =>
    match fieldsC (split '\t') names o line with
    | .error e => .error (.base e)
    | .ok f => readFieldsP cap names o a f

/-- A comment line (conllup.py:45-55): what it does with the names -/
def readComment (lower : Str → Str) (st : Option (List Str)) (line : Str) : Option (List Str) :=
  match st with
  | some names => some names
  | none => (matchColumns line).map (fun g => (split ' ' g).map (colName lower))

/-- One line (conll.py:110-114) -/
def readLineP (lower cap : Str → Str) (o : Opts) (st : Option (List Str)) (a : AccC) : Str → Except ErrP (Option (List Str) × AccC)
  | [] => .error (.base .indexError)
  | '#' :: l => .ok (readComment lower st ('#' :: l), a)
  | line =>
    match readNodeP cap st o a line with
    | .error e => .error e
    | .ok a => .ok (st, a)

def readLinesP (lower cap : Str → Str) (o : Opts) : Option (List Str) → AccC → List Str → Except ErrP (Option (List Str) × AccC)
  | st, a, [] => .ok (st, a)
  | st, a, l :: ls =>
    match readLineP lower cap o st a l with
    | .error e => .error e
    | .ok (st, a) => readLinesP lower cap o st a ls

/-- `read_tree_from_lines` of read.Conll after the lines are read (conll.py:116-162) -/
def finish (lower : Str → Str) (o : Opts) (fuel : Nat) (a : AccC) : Except Err (Option Tree) :=
  if a.words = [] then .ok none
  else
    let ws := realWordsC lower a.words
    match linkAllC o ws.length fuel (startHeapC ws.length) 1 ((List.range ws.length).map (fun i => a.heads[i]?)) with
    | .error e => .error e
    | .ok h =>
      let noAttrs : Attrs := ⟨none, none, none, none, none, none, none, none⟩
      let t : Tree :=
        { heap := h
          attrs := fun x => if x = 0 then noAttrs else (ws[x - 1]?).getD noAttrs
          empties := a.empties
          mwt := Mwt.St.init
          mwtForm := fun _ => none
          mwtMisc := fun _ => none }
      match readMwts ws.length t a.mwts with
      | .error e => .error e
      | .ok t => .ok (some t)

/-- It is what `readTreeC` does. -/
theorem readTreeC_finish (sp : Str → List Str) (names : List Str) (lower : Str → Str) (o : Opts) (fuel : Nat) (lines : List Str) :
    readTreeC sp names lower o fuel lines = match readLinesC sp names o ⟨[], [], [], []⟩ lines with
      | .error e => .error e
      | .ok a => finish lower o fuel a := rfl

/-- One sentence: the names that are kept, and the tree -/
def readTreeP (lower cap : Str → Str) (o : Opts) (fuel : Nat) (st : Option (List Str)) (lines : List Str) : Except ErrP (Option (List Str) × Option Tree) :=
  match readLinesP lower cap o st ⟨[], [], [], []⟩ lines with
  | .error e => .error e
  | .ok (st, a) =>
    match finish lower o fuel a with
    | .error e => .error (.base e)
    | .ok t => .ok (st, t)

/-- The sentences of all files that the reader is given, in their order -/
def readAll (lower cap : Str → Str) (o : Opts) (fuel : Nat) : Option (List Str) → List (List Str) → Except ErrP (List (Option Tree))
  | _, [] => .ok []
  | st, s :: ss =>
    match readTreeP lower cap o fuel st s with
    | .error e => .error e
    | .ok (st, t) =>
      match readAll lower cap o fuel st ss with
      | .error e => .error e
      | .ok ts => .ok (t :: ts)

/-! ## What the properties say -/

/-- The names of columns that have a place other than MISC -/
def Own (n : Str) : Prop := n ∈ [nOrd, nForm, nLemma, nUpos, nXpos, nFeats, nHead, nDeprel, nDeps, nMisc, ['_']]

instance : DecidablePred Own := fun n => inferInstanceAs (Decidable (n ∈ _))

/-- `_` and no column of this name are no value. -/
def value (v : Str) : Option Str := if v = ['_'] then none else some v

/-- The column number `i` of a line is of name `n` and its text is `v`. Missing columns are `_`. -/
def Column (names : List Str) (line : Str) (i : Nat) (n v : Str) : Prop := names[i]? = some n ∧ v = ((split '\t' line)[i]?).getD ['_']

/-- A header -/
def isHeader (line : Str) : Bool := line.head? = some '#' && (matchColumns line).isSome

/-! ## One word -/

theorem setColP_lemmas {o : Opts} {k : Nat} {s s' : PS} {n v : Str} (h : setColP o k s n v = .ok s') :
    s'.attrs.form = (if n = nForm then some v else s.attrs.form) ∧
    s'.attrs.lemma = (if n = nLemma ∧ v ≠ ['_'] then some v else s.attrs.lemma) ∧
    s'.attrs.upos = (if n = nUpos ∧ v ≠ ['_'] then some v else s.attrs.upos) ∧
    s'.attrs.xpos = (if n = nXpos ∧ v ≠ ['_'] then some v else s.attrs.xpos) ∧
    s'.attrs.feats = (if n = nFeats ∧ v ≠ ['_'] then setDict v else s.attrs.feats) ∧
    s'.attrs.deprel = (if n = nDeprel ∧ v ≠ ['_'] then some v else s.attrs.deprel) ∧
    s'.attrs.rawDeps = (if n = nDeps then some v else s.attrs.rawDeps) ∧
    s'.attrs.misc = (if n = nMisc ∧ v ≠ ['_'] then setDict v else s.attrs.misc) ∧
    s'.extra = (if ¬ Own n ∧ v ≠ ['_'] then s.extra ++ [(n, v)] else s.extra) ∧
    s'.heads.length = (if n = nHead then s.heads.length + 1 else s.heads.length) := by
  by_cases g : n ∈ normals
  · simp only [normals, List.mem_cons, List.not_mem_nil, or_false] at g
    by_cases hv : v = ['_']
    · rcases g with rfl | rfl | rfl | rfl | rfl | rfl | rfl <;>
        simp [setColP, setAttr, hv, normals, nForm, nLemma, nUpos, nXpos, nFeats, nHead, nDeprel, nDeps, nMisc, nOrd] at h <;> subst h <;>
        simp [Own, hv, nForm, nLemma, nUpos, nXpos, nFeats, nHead, nDeprel, nDeps, nMisc, nOrd]
    · rcases g with rfl | rfl | rfl | rfl | rfl | rfl | rfl <;>
        simp [setColP, setAttr, hv, normals, nForm, nLemma, nUpos, nXpos, nFeats, nHead, nDeprel, nDeps, nMisc, nOrd] at h <;> subst h <;>
        simp [Own, hv, nForm, nLemma, nUpos, nXpos, nFeats, nHead, nDeprel, nDeps, nMisc, nOrd]
  · have g' := g
    simp only [normals, List.mem_cons, List.not_mem_nil, or_false, not_or] at g'
    obtain ⟨g1, g2, g3, g4, g5, g6, g7⟩ := g'
    unfold setColP at h
    simp only [g1, g2, g3, g4, g5, g6, g7, false_and, if_false, Own, List.mem_cons, List.not_mem_nil, or_false, false_or]
    split at h
    · rename_i hn
      split at h
      · cases h
      · cases h; simp [hn, nOrd, nHead, nDeps]
    · rename_i hn
      split at h
      · rename_i hn'
        split at h
        · cases h; simp [hn', nOrd, nHead, nDeps]
        · cases h
      · rename_i hn'
        split at h
        · rename_i hd; cases h; simp [hd, nOrd, nHead, nDeps]
        · rename_i hd
          split at h
          · rename_i hv; cases h; simp [hn, hn', hd, hv.1]
          · rename_i hv
            have hv' : v ≠ ['_'] := fun e => hv ⟨e, g1⟩
            split at h
            · rename_i hu; cases h; simp [hu, nHead, nDeps]
            · rename_i hu
              cases h
              simp [hn, hn', hd, hu, hv']

/-- What a part of the state is after all columns, if one column changes it by `φ` -/
theorem setColsP_fold {α : Type} {o : Opts} {k : Nat} (g : PS → α) (φ : Str → Str → α → α) (hg : ∀ {s s' : PS} {n v : Str}, setColP o k s n v = .ok s' → g s' = φ n v (g s)) :
    ∀ {cs : List (Str × Str)} {s s' : PS}, setColsP o k s cs = .ok s' → g s' = cs.foldl (fun x c => φ c.1 c.2 x) (g s) := by
  intro cs
  induction cs with
  | nil => intro s s' h; cases h; rfl
  | cons c cs ih =>
    intro s s' h
    rw [setColsP] at h
    cases e : setColP o k s c.1 c.2 with
    | error x => rw [e] at h; cases h
    | ok u => rw [e] at h; rw [List.foldl_cons, ← hg e]; exact ih h

/-- The only column of a name decides. -/
theorem fold_one {α : Type} (n : Str) (P : Str → Prop) [DecidablePred P] (f : Str → α) : ∀ (cs : List (Str × Str)) (x : α),
    (n ∉ cs.map (·.1) → cs.foldl (fun x c => if c.1 = n ∧ P c.2 then f c.2 else x) x = x) ∧
    (∀ l v r, cs = l ++ (n, v) :: r → n ∉ l.map (·.1) → n ∉ r.map (·.1) → cs.foldl (fun x c => if c.1 = n ∧ P c.2 then f c.2 else x) x = if P v then f v else x) := by
  have none' : ∀ (cs : List (Str × Str)) (x : α), n ∉ cs.map (·.1) → cs.foldl (fun x c => if c.1 = n ∧ P c.2 then f c.2 else x) x = x := by
    intro cs
    induction cs with
    | nil => intro x _; rfl
    | cons c cs ih =>
      intro x h
      rw [List.map_cons] at h
      have h1 : c.1 ≠ n := fun e => h (e ▸ List.mem_cons_self)
      rw [List.foldl_cons, if_neg (fun e => h1 e.1)]
      exact ih x (fun e => h (List.mem_cons_of_mem _ e))
  intro cs x
  refine ⟨none' cs x, ?_⟩
  intro l v r e h1 h2
  subst e
  rw [List.foldl_append, none' l x h1, List.foldl_cons]
  have : (if (n, v).1 = n ∧ P (n, v).2 then f (n, v).2 else x) = if P v then f v else x := by simp
  rw [this, none' r _ h2]

/-- Splitting the columns at one of them -/
theorem zip_split {names f : List Str} {i : Nat} {n v : Str} (h1 : names[i]? = some n) (h2 : f[i]? = some v) (hu : ∀ j, names[j]? = some n → j = i) :
    ∃ l r, names.zip f = l ++ (n, v) :: r ∧ n ∉ l.map (·.1) ∧ n ∉ r.map (·.1) := by
  induction names generalizing f i with
  | nil => simp at h1
  | cons m names ih =>
    cases f with
    | nil => simp at h2
    | cons w f =>
      cases i with
      | zero =>
        simp only [List.getElem?_cons_zero, Option.some.injEq] at h1 h2
        subst h1; subst h2
        refine ⟨[], names.zip f, rfl, (by simp), fun hm => ?_⟩
        obtain ⟨c, hc, e⟩ := List.mem_map.1 hm
        have := (List.of_mem_zip hc).1
        rw [e] at this
        obtain ⟨j, hj⟩ := List.getElem?_of_mem this
        have := hu (j + 1) (by rw [List.getElem?_cons_succ]; exact hj)
        omega
      | succ i =>
        rw [List.getElem?_cons_succ] at h1 h2
        obtain ⟨l, r, e1, e2, e3⟩ := ih h1 h2 (fun j hj => by have := hu (j + 1) (by rw [List.getElem?_cons_succ]; exact hj); omega)
        refine ⟨(m, w) :: l, r, by rw [List.zip_cons_cons, e1]; rfl, ?_, e3⟩
        rw [List.map_cons]
        intro hm
        rcases List.mem_cons.1 hm with e | e
        · have := hu 0 (by rw [List.getElem?_cons_zero, e]); omega
        · exact e2 e

theorem fieldsC_get {names : List Str} {o : Opts} {line : Str} {f : List Str} (h : fieldsC (split '\t') names o line = .ok f) {i : Nat} (hi : i < names.length) :
    f[i]? = some (((split '\t' line)[i]?).getD ['_']) := by
  unfold fieldsC at h
  dsimp only at h
  split at h
  · split at h
    · cases h
    · cases h
      by_cases hl : i < (split '\t' line).length
      · rw [List.getElem?_append_left hl, List.getElem?_eq_getElem hl]; rfl
      · rw [List.getElem?_append_right (by omega), List.getElem?_replicate, if_pos (by omega), List.getElem?_eq_none_iff.2 (by omega)]; rfl
  · rename_i hl
    cases h
    rw [List.getElem?_eq_getElem (by omega)]; rfl

theorem fieldsC_first {names : List Str} {o : Opts} {line : Str} {f : List Str} (h : fieldsC (split '\t') names o line = .ok f) : col f 0 = col (split '\t' line) 0 := by
  have hne := split_ne_nil '\t' line
  unfold fieldsC at h
  dsimp only at h
  split at h
  · split at h
    · cases h
    · cases h
      cases hs : split '\t' line with
      | nil => exact absurd hs hne
      | cons a r => rfl
  · cases h; rfl

theorem readNodeP_ok {cap : Str → Str} {names : List Str} {o : Opts} {a b : AccC} {line : Str} (h : readNodeP cap (some names) o a line = .ok b)
    (hw : '-' ∉ col (split '\t' line) 0) :
    ∃ f s, fieldsC (split '\t') names o line = .ok f ∧ setColsP o (a.words.length + 1) ⟨newAttrs, a.heads, []⟩ (names.zip f) = .ok s ∧
      b = { a with words := a.words ++ [finAttrs cap s], heads := s.heads } := by
  unfold readNodeP at h
  dsimp only at h
  cases hf : fieldsC (split '\t') names o line with
  | error e => rw [hf] at h; cases h
  | ok f =>
    rw [hf] at h
    dsimp only at h
    unfold readFieldsP at h
    rw [fieldsC_first hf, if_neg hw] at h
    split at h
    · cases h
    · cases hs : setColsP o (a.words.length + 1) ⟨newAttrs, a.heads, []⟩ (names.zip f) with
      | error e => rw [hs] at h; cases h
      | ok s => rw [hs] at h; cases h; exact ⟨f, s, rfl, hs, rfl⟩

theorem not_zip {names f : List Str} {n : Str} (h : n ∉ names) : n ∉ (names.zip f).map (·.1) := by
  intro hm
  obtain ⟨c, hc, e⟩ := List.mem_map.1 hm
  exact h (e ▸ (List.of_mem_zip hc).1)

/-- **C175 (the attributes of a word)** The word that is read from a line has as each of its attributes the text of the column of that name, if no other column is of that name: `_` is no value except
for the form and DEPS; a column that is missing in the line is `_`; without a column of that name the attribute is not set. -/
theorem C175_word {cap : Str → Str} {names : List Str} {o : Opts} {a b : AccC} {line : Str} (h : readNodeP cap (some names) o a line = .ok b)
    (hw : '-' ∉ col (split '\t' line) 0) :
    ∃ w, b.words = a.words ++ [w] ∧
      (∀ i n v, Column names line i n v → (∀ j, names[j]? = some n → j = i) →
        (n = nForm → w.form = some v) ∧ (n = nLemma → w.lemma = value v) ∧ (n = nUpos → w.upos = value v) ∧ (n = nXpos → w.xpos = value v) ∧
        (n = nFeats → w.feats = (value v).bind setDict) ∧ (n = nDeprel → w.deprel = value v) ∧ (n = nDeps → w.rawDeps = some v)) ∧
      (nForm ∉ names → w.form = none) ∧ (nLemma ∉ names → w.lemma = none) ∧ (nUpos ∉ names → w.upos = none) ∧ (nXpos ∉ names → w.xpos = none) ∧
        (nFeats ∉ names → w.feats = none) ∧ (nDeprel ∉ names → w.deprel = none) ∧ (nDeps ∉ names → w.rawDeps = some ['_']) := by
  obtain ⟨f, s, hf, hs, rfl⟩ := readNodeP_ok h hw
  have f1 := setColsP_fold (o := o) (k := a.words.length + 1) (fun s => s.attrs.form) (fun n v x => if n = nForm ∧ True then some v else x)
    (fun h => by have := (setColP_lemmas h).1; simpa using this) hs
  have f2 := setColsP_fold (o := o) (k := a.words.length + 1) (fun s => s.attrs.lemma) (fun n v x => if n = nLemma ∧ v ≠ ['_'] then some v else x)
    (fun h => (setColP_lemmas h).2.1) hs
  have f3 := setColsP_fold (o := o) (k := a.words.length + 1) (fun s => s.attrs.upos) (fun n v x => if n = nUpos ∧ v ≠ ['_'] then some v else x)
    (fun h => (setColP_lemmas h).2.2.1) hs
  have f4 := setColsP_fold (o := o) (k := a.words.length + 1) (fun s => s.attrs.xpos) (fun n v x => if n = nXpos ∧ v ≠ ['_'] then some v else x)
    (fun h => (setColP_lemmas h).2.2.2.1) hs
  have f5 := setColsP_fold (o := o) (k := a.words.length + 1) (fun s => s.attrs.feats) (fun n v x => if n = nFeats ∧ v ≠ ['_'] then setDict v else x)
    (fun h => (setColP_lemmas h).2.2.2.2.1) hs
  have f6 := setColsP_fold (o := o) (k := a.words.length + 1) (fun s => s.attrs.deprel) (fun n v x => if n = nDeprel ∧ v ≠ ['_'] then some v else x)
    (fun h => (setColP_lemmas h).2.2.2.2.2.1) hs
  have f7 := setColsP_fold (o := o) (k := a.words.length + 1) (fun s => s.attrs.rawDeps) (fun n v x => if n = nDeps ∧ True then some v else x)
    (fun h => by have := (setColP_lemmas h).2.2.2.2.2.2.1; simpa using this) hs
  dsimp only at f1 f2 f3 f4 f5 f6 f7
  refine ⟨finAttrs cap s, rfl, ?_, ?_, ?_, ?_, ?_, ?_, ?_, ?_⟩
  · intro i n v ⟨hc1, hc2⟩ hu
    have hi : i < names.length := (List.getElem?_eq_some_iff.1 hc1).1
    obtain ⟨l, r, e1, e2, e3⟩ := zip_split hc1 (hc2 ▸ fieldsC_get hf hi) hu
    refine ⟨?_, ?_, ?_, ?_, ?_, ?_, ?_⟩ <;> intro hn <;> subst hn
    · exact f1.trans (((fold_one nForm (fun _ => True) some _ _).2 l v r e1 e2 e3).trans (if_pos trivial))
    · refine f2.trans (((fold_one nLemma (fun v => v ≠ ['_']) some _ _).2 l v r e1 e2 e3).trans ?_); unfold value; by_cases hv : v = ['_'] <;> simp [hv, newAttrs]
    · refine f3.trans (((fold_one nUpos (fun v => v ≠ ['_']) some _ _).2 l v r e1 e2 e3).trans ?_); unfold value; by_cases hv : v = ['_'] <;> simp [hv, newAttrs]
    · refine f4.trans (((fold_one nXpos (fun v => v ≠ ['_']) some _ _).2 l v r e1 e2 e3).trans ?_); unfold value; by_cases hv : v = ['_'] <;> simp [hv, newAttrs]
    · refine f5.trans (((fold_one nFeats (fun v => v ≠ ['_']) setDict _ _).2 l v r e1 e2 e3).trans ?_); unfold value; by_cases hv : v = ['_'] <;> simp [hv, newAttrs]
    · refine f6.trans (((fold_one nDeprel (fun v => v ≠ ['_']) some _ _).2 l v r e1 e2 e3).trans ?_); unfold value; by_cases hv : v = ['_'] <;> simp [hv, newAttrs]
    · exact f7.trans (((fold_one nDeps (fun _ => True) some _ _).2 l v r e1 e2 e3).trans (if_pos trivial))
  · intro hn; exact f1.trans ((fold_one nForm (fun _ => True) some _ _).1 (not_zip hn))
  · intro hn; exact f2.trans ((fold_one nLemma (fun v => v ≠ ['_']) some _ _).1 (not_zip hn))
  · intro hn; exact f3.trans ((fold_one nUpos (fun v => v ≠ ['_']) some _ _).1 (not_zip hn))
  · intro hn; exact f4.trans ((fold_one nXpos (fun v => v ≠ ['_']) some _ _).1 (not_zip hn))
  · intro hn; exact f5.trans ((fold_one nFeats (fun v => v ≠ ['_']) setDict _ _).1 (not_zip hn))
  · intro hn; exact f6.trans ((fold_one nDeprel (fun v => v ≠ ['_']) some _ _).1 (not_zip hn))
  · intro hn; exact f7.trans ((fold_one nDeps (fun _ => True) some _ _).1 (not_zip hn))

/-- **C175 (the head)** The head of a word is the number in the column `head`, 0 if it is `???`, and 0 if it is `_` and the reader is not strict. -/
theorem C175_head {cap : Str → Str} {names : List Str} {o : Opts} {a b : AccC} {line : Str} (h : readNodeP cap (some names) o a line = .ok b)
    (hw : '-' ∉ col (split '\t' line) 0) {i : Nat} {v : Str} (hc : Column names line i nHead v) (hu : ∀ j, names[j]? = some nHead → j = i) :
    ∃ d : Int, b.heads = a.heads ++ [d] ∧ (v = ['?', '?', '?'] ∧ d = 0 ∨ v ≠ ['?', '?', '?'] ∧ pyInt v = some d ∨ v = ['_'] ∧ o.strict = false ∧ d = 0) := by
  obtain ⟨f, s, hf, hs, rfl⟩ := readNodeP_ok h hw
  have none' : ∀ {cs : List (Str × Str)} {s s' : PS}, setColsP o (a.words.length + 1) s cs = .ok s' → nHead ∉ cs.map (·.1) → s'.heads = s.heads := by
    intro cs
    induction cs with
    | nil => intro s s' h _; cases h; rfl
    | cons c cs ih =>
      intro s s' h hn
      rw [setColsP] at h
      cases e : setColP o (a.words.length + 1) s c.1 c.2 with
      | error x => rw [e] at h; cases h
      | ok u =>
        rw [e] at h
        rw [ih h (fun x => hn (List.mem_cons_of_mem _ x))]
        have hc : c.1 ≠ nHead := fun x => hn (by rw [List.map_cons, x]; exact List.mem_cons_self)
        unfold setColP at e
        rw [if_neg hc] at e
        split at e
        · split at e
          · cases e; rfl
          · cases e
        · split at e
          · cases e; rfl
          · split at e
            · cases e; rfl
            · split at e
              · cases e; rfl
              · split at e
                · split at e
                  · cases e
                  · cases e; rfl
                · cases e; rfl
  have app : ∀ {l r : List (Str × Str)} {s s' : PS}, setColsP o (a.words.length + 1) s (l ++ r) = .ok s' →
      ∃ u, setColsP o (a.words.length + 1) s l = .ok u ∧ setColsP o (a.words.length + 1) u r = .ok s' := by
    intro l r
    induction l with
    | nil => intro s s' h; exact ⟨s, rfl, h⟩
    | cons c l ih =>
      intro s s' h
      rw [List.cons_append, setColsP] at h
      rw [setColsP]
      cases e : setColP o (a.words.length + 1) s c.1 c.2 with
      | error x => rw [e] at h; cases h
      | ok u => rw [e] at h; exact ih h
  have hi : i < names.length := (List.getElem?_eq_some_iff.1 hc.1).1
  obtain ⟨l, r, e1, e2, e3⟩ := zip_split hc.1 (hc.2 ▸ fieldsC_get hf hi) hu
  rw [e1] at hs
  obtain ⟨u, hu1, hu2⟩ := app hs
  rw [setColsP] at hu2
  cases e : setColP o (a.words.length + 1) u nHead v with
  | error x => rw [e] at hu2; cases hu2
  | ok w =>
    rw [e] at hu2
    have h1 := none' hu1 e2
    have h2 := none' hu2 e3
    unfold setColP at e
    rw [if_pos rfl] at e
    cases hd : readHeadP o v with
    | error x => rw [hd] at e; cases e
    | ok d =>
      rw [hd] at e
      cases e
      refine ⟨d, h2.trans (by rw [h1]), ?_⟩
      unfold readHeadP at hd
      split at hd
      · rename_i hv; cases hd; exact .inl ⟨hv, rfl⟩
      · rename_i hv
        unfold readHead at hd
        split at hd
        · rename_i n hn; cases hd; exact .inr (.inl ⟨hv, hn⟩)
        · split at hd
          · rename_i hx; cases hd; exact .inr (.inr ⟨hx.2, hx.1, rfl⟩)
          · cases hd

/-! ## MISC -/

/-- `node.misc` -/
def miscOf (w : Attrs) : DualDict.Dict := DualDict.abs DualDict.dd (w.misc.getD DualDict.init)

/-- One assignment -/
def setStr (d : DualDict.Dict) (k v : Str) : DualDict.Dict := if v = [] then DualDict.erase d k else DualDict.insert d k (.str v)

theorem setExtra_abs (cap : Str → Str) (m : Option DualDict.State) (p : Str × Str) :
    DualDict.abs DualDict.dd ((setExtra cap m p).getD DualDict.init) = setStr (DualDict.abs DualDict.dd (m.getD DualDict.init)) (cap p.1) p.2 := by
  unfold setExtra setStr
  rw [Option.getD_some]
  by_cases h : p.2 = []
  · rw [if_pos h, h, DualDict.PunctType.setItem_del, DualDict.abs_of_string_none]
  · rw [if_neg h, DualDict.PunctType.setItem_val _ _ h, DualDict.abs_of_string_none]

theorem foldl_extra_abs (cap : Str → Str) : ∀ (l : List (Str × Str)) (m : Option DualDict.State),
    DualDict.abs DualDict.dd ((l.foldl (setExtra cap) m).getD DualDict.init) = l.foldl (fun d p => setStr d (cap p.1) p.2) (DualDict.abs DualDict.dd (m.getD DualDict.init)) := by
  intro l
  induction l with
  | nil => intro m; rfl
  | cons p l ih => intro m; rw [List.foldl_cons, List.foldl_cons, ih, setExtra_abs]

theorem setStr_nodup {d : DualDict.Dict} (h : DualDict.NodupKeys d) (k v : Str) : DualDict.NodupKeys (setStr d k v) := by
  unfold setStr
  split
  · exact DualDict.nodup_erase h k
  · exact DualDict.nodup_insert h k _

theorem lookup_setStr {d : DualDict.Dict} (h : DualDict.NodupKeys d) (k v k' : Str) :
    DualDict.lookup (setStr d k v) k' = if k' = k then (if v = [] then none else some (.str v)) else DualDict.lookup d k' := by
  unfold setStr
  split
  · rw [DualDict.lookup_erase h]
  · rw [DualDict.lookup_insert]

theorem fold_other (cap : Str → Str) (k : Str) : ∀ (l : List (Str × Str)) (d : DualDict.Dict), DualDict.NodupKeys d → (∀ p ∈ l, cap p.1 ≠ k) →
    DualDict.NodupKeys (l.foldl (fun d p => setStr d (cap p.1) p.2) d) ∧ DualDict.lookup (l.foldl (fun d p => setStr d (cap p.1) p.2) d) k = DualDict.lookup d k := by
  intro l
  induction l with
  | nil => intro d h _; exact ⟨h, rfl⟩
  | cons p l ih =>
    intro d h hk
    rw [List.foldl_cons]
    obtain ⟨a, b⟩ := ih _ (setStr_nodup h _ _) (fun q hq => hk q (List.mem_cons_of_mem _ hq))
    refine ⟨a, b.trans ?_⟩
    rw [lookup_setStr h, if_neg (fun e => hk p List.mem_cons_self e.symm)]

theorem fold_nodup (cap : Str → Str) : ∀ (l : List (Str × Str)) (d : DualDict.Dict), DualDict.NodupKeys d → DualDict.NodupKeys (l.foldl (fun d p => setStr d (cap p.1) p.2) d) := by
  intro l
  induction l with
  | nil => intro d h; exact h
  | cons p l ih => intro d h; rw [List.foldl_cons]; exact ih _ (setStr_nodup h _ _)

theorem extra_fold : ∀ (cs : List (Str × Str)) (x : List (Str × Str)),
    cs.foldl (fun x c => if ¬ Own c.1 ∧ c.2 ≠ ['_'] then x ++ [(c.1, c.2)] else x) x = x ++ cs.filter (fun c => decide (¬ Own c.1 ∧ c.2 ≠ ['_'])) := by
  intro cs
  induction cs with
  | nil => intro x; simp
  | cons c cs ih =>
    intro x
    rw [List.foldl_cons, ih, List.filter_cons]
    by_cases h : ¬ Own c.1 ∧ c.2 ≠ ['_']
    · rw [if_pos h, if_pos (decide_eq_true h)]; simp
    · rw [if_neg h, if_neg (fun e => h (of_decide_eq_true e))]

/-- The mapping that the text of the column `misc` is -/
def parsed (v : Str) : DualDict.Dict := if v = [] ∨ v = ['_'] then [] else DualDict.parse DualDict.dd v

theorem parsed_nodup (v : Str) : DualDict.NodupKeys (parsed v) := by
  unfold parsed
  split
  · exact List.nodup_nil
  · exact DualDict.ofPairs_nodup _

theorem setDict_abs {v : Str} (h : v ≠ ['_']) : DualDict.abs DualDict.dd ((setDict v).getD DualDict.init) = parsed v := by
  unfold setDict parsed
  rw [Option.getD_some, DualDict.abs_nil_some]
  by_cases h0 : v = []
  · rw [if_pos h0, if_pos (show ['_'] = DualDict.dd.emptyStr from rfl), if_pos (.inl h0)]
  · rw [if_neg h0, if_neg (show ¬ v = DualDict.dd.emptyStr from h), if_neg (fun e => e.elim h0 h)]

/-- A column other than those with their own place -/
theorem mem_extra {names f : List Str} {line : Str} {o : Opts} (hf : fieldsC (split '\t') names o line = .ok f) {p : Str × Str}
    (hp : p ∈ (names.zip f).filter (fun c => decide (¬ Own c.1 ∧ c.2 ≠ ['_']))) : ∃ i, Column names line i p.1 p.2 ∧ ¬ Own p.1 ∧ p.2 ≠ ['_'] := by
  obtain ⟨h1, h2⟩ := List.mem_filter.1 hp
  have h2 := of_decide_eq_true h2
  obtain ⟨i, hi⟩ := List.getElem?_of_mem h1
  rw [List.getElem?_zip_eq_some] at hi
  have hl : i < names.length := (List.getElem?_eq_some_iff.1 hi.1).1
  exact ⟨i, ⟨hi.1, Option.some.inj (hi.2.symm.trans (fieldsC_get hf hl))⟩, h2⟩

/-- **C175 (columns of other names)** The text of a column whose name is none of CoNLL-U is in MISC under the capitalized name of the column, if it is not empty or `_` and no other such name has the
same capitalized name, whatever the column `misc` has there. Every other key has the value that it has in the column `misc`, and none without such a column. -/
theorem C175_misc {cap : Str → Str} {names : List Str} {o : Opts} {a b : AccC} {line : Str} (h : readNodeP cap (some names) o a line = .ok b)
    (hw : '-' ∉ col (split '\t' line) 0) :
    ∃ w, b.words = a.words ++ [w] ∧
      (∀ i n v, Column names line i n v → ¬ Own n → v ≠ ['_'] → (∀ j m, names[j]? = some m → ¬ Own m → cap m = cap n → j = i) →
        DualDict.lookup (miscOf w) (cap n) = if v = [] then none else some (.str v)) ∧
      (∀ k, (∀ i n v, Column names line i n v → ¬ Own n → v ≠ ['_'] → cap n ≠ k) →
        (∀ i v, Column names line i nMisc v → (∀ j, names[j]? = some nMisc → j = i) → DualDict.lookup (miscOf w) k = DualDict.lookup (parsed v) k) ∧
        (nMisc ∉ names → DualDict.lookup (miscOf w) k = none)) := by
  obtain ⟨f, s, hf, hs, rfl⟩ := readNodeP_ok h hw
  have f8 := setColsP_fold (o := o) (k := a.words.length + 1) (fun s => s.attrs.misc) (fun n v x => if n = nMisc ∧ v ≠ ['_'] then setDict v else x)
    (fun h => (setColP_lemmas h).2.2.2.2.2.2.2.1) hs
  have f9 := setColsP_fold (o := o) (k := a.words.length + 1) (fun s => s.extra) (fun n v x => if ¬ Own n ∧ v ≠ ['_'] then x ++ [(n, v)] else x)
    (fun h => (setColP_lemmas h).2.2.2.2.2.2.2.2.1) hs
  dsimp only at f8 f9
  rw [extra_fold, List.nil_append] at f9
  have hm : miscOf (finAttrs cap s) = s.extra.foldl (fun d p => setStr d (cap p.1) p.2) (DualDict.abs DualDict.dd (s.attrs.misc.getD DualDict.init)) := foldl_extra_abs cap _ _
  have hdict : s.attrs.misc = none ∨ ∃ v, v ≠ ['_'] ∧ s.attrs.misc = setDict v := by
    rw [f8]
    generalize names.zip f = cs
    have : ∀ x : Option DualDict.State, (x = none ∨ ∃ v, v ≠ ['_'] ∧ x = setDict v) →
        (cs.foldl (fun x c => if c.1 = nMisc ∧ c.2 ≠ ['_'] then setDict c.2 else x) x = none ∨
          ∃ v, v ≠ ['_'] ∧ cs.foldl (fun x c => if c.1 = nMisc ∧ c.2 ≠ ['_'] then setDict c.2 else x) x = setDict v) := by
      induction cs with
      | nil => intro x hx; exact hx
      | cons c cs ih =>
        intro x hx
        rw [List.foldl_cons]
        refine ih _ ?_
        split
        · rename_i hc; exact .inr ⟨c.2, hc.2, rfl⟩
        · exact hx
    exact this none (.inl rfl)
  have hnd : DualDict.NodupKeys (DualDict.abs DualDict.dd (s.attrs.misc.getD DualDict.init)) := by
    rcases hdict with e | ⟨v, hv, e⟩
    · rw [e]; exact List.nodup_nil
    · rw [e, setDict_abs hv]; exact parsed_nodup v
  refine ⟨finAttrs cap s, rfl, ?_, ?_⟩
  · intro i n v ⟨hc1, hc2⟩ ho hv hu
    have hi : i < names.length := (List.getElem?_eq_some_iff.1 hc1).1
    obtain ⟨l, r, e1, e2, e3⟩ := zip_split hc1 (hc2 ▸ fieldsC_get hf hi) (fun j hj => hu j n hj ho rfl)
    have hr : ∀ p ∈ r, ¬ Own p.1 → cap p.1 ≠ cap n := by
      intro p hp hpo hcap
      obtain ⟨q, hq⟩ := List.getElem?_of_mem hp
      have hz : (names.zip f)[l.length + 1 + q]? = some p := by
        rw [e1, List.getElem?_append_right (by omega), show l.length + 1 + q - l.length = q + 1 by omega, List.getElem?_cons_succ]; exact hq
      have hz0 : (names.zip f)[l.length]? = some (n, v) := by rw [e1, List.getElem?_append_right (by omega)]; simp
      rw [List.getElem?_zip_eq_some] at hz hz0
      have j1 := hu _ _ hz.1 hpo hcap
      have j2 := hu _ _ hz0.1 ho rfl
      omega
    rw [hm, f9, e1, List.filter_append, List.filter_cons, if_pos (decide_eq_true (show ¬ Own (n, v).1 ∧ (n, v).2 ≠ ['_'] from ⟨ho, hv⟩)), List.foldl_append, List.foldl_cons]
    have hn2 := fold_nodup cap (l.filter (fun c => decide (¬ Own c.1 ∧ c.2 ≠ ['_']))) _ hnd
    rw [(fold_other cap (cap n) _ _ (setStr_nodup hn2 _ _) ?_).2, lookup_setStr hn2, if_pos rfl]
    intro p hp
    exact hr p (List.mem_filter.1 hp).1 (of_decide_eq_true (List.mem_filter.1 hp).2).1
  · intro k hk
    have hl : DualDict.lookup (miscOf (finAttrs cap s)) k = DualDict.lookup (DualDict.abs DualDict.dd (s.attrs.misc.getD DualDict.init)) k := by
      rw [hm, f9]
      refine (fold_other cap k _ _ hnd ?_).2
      intro p hp
      obtain ⟨i, h1, h2, h3⟩ := mem_extra hf hp
      exact hk i p.1 p.2 h1 h2 h3
    rw [hl, f8]
    refine ⟨?_, ?_⟩
    · intro i v ⟨hc1, hc2⟩ hu
      have hi : i < names.length := (List.getElem?_eq_some_iff.1 hc1).1
      obtain ⟨l, r, e1, e2, e3⟩ := zip_split hc1 (hc2 ▸ fieldsC_get hf hi) hu
      rw [show (names.zip f).foldl (fun x c => if c.1 = nMisc ∧ c.2 ≠ ['_'] then setDict c.2 else x) newAttrs.misc = if v ≠ ['_'] then setDict v else none from
        (fold_one nMisc (fun v => v ≠ ['_']) setDict _ _).2 l v r e1 e2 e3]
      by_cases hv : v = ['_']
      · rw [if_neg (fun e => e hv), hv]; rfl
      · rw [if_pos hv, setDict_abs hv]
    · intro hn
      rw [show (names.zip f).foldl (fun x c => if c.1 = nMisc ∧ c.2 ≠ ['_'] then setDict c.2 else x) newAttrs.misc = none from
        (fold_one nMisc (fun v => v ≠ ['_']) setDict _ _).1 (not_zip hn)]
      rfl

/-! ## The header -/

/-- **C175 (the names in the header)** The names of the columns are those in the header in lower case, `ord` for ID. -/
theorem C175_names {lower : Str → Str} {n : Str} {ns : List Str} (h1 : ∀ m ∈ n :: ns, ' ' ∉ m) (h2 : ∃ c r, n = c :: r ∧ isWs c = false) :
    readComment lower none (['#'] ++ Meta.lColumns ++ Meta.lEq ++ join [' '] (n :: ns)) = some ((n :: ns).map (fun m => if m = ['I', 'D'] then nOrd else lower m)) := by
  obtain ⟨c, r, hn, hc⟩ := h2
  obtain ⟨r', hr'⟩ : ∃ r', join [' '] (n :: ns) = c :: r' := by
    subst hn
    cases ns with
    | nil => exact ⟨r, rfl⟩
    | cons m ns => exact ⟨_, rfl⟩
  have hm : matchColumns (['#'] ++ Meta.lColumns ++ Meta.lEq ++ join [' '] (n :: ns)) = some (join [' '] (n :: ns)) := by
    rw [hr']
    have hs : Meta.skipWs (' ' :: c :: r') = c :: r' := by
      unfold Meta.skipWs
      rw [List.dropWhile_cons_of_pos (by decide), List.dropWhile_cons_of_neg (by simp [hc])]
    have hw : Meta.wsRest (' ' :: c :: r') = some (c :: r') := by
      unfold Meta.wsRest; rw [hs, if_neg (by simp)]
    have : matchColumns (['#'] ++ Meta.lColumns ++ Meta.lEq ++ c :: r') = Meta.wsRest (' ' :: c :: r') := rfl
    rw [this, hw]
  unfold readComment
  dsimp only
  rw [hm, Option.map_some, split_join (by simp) h1]
  rfl

theorem readComment_some (lower : Str → Str) (names : List Str) (l : Str) : readComment lower (some names) l = some names := rfl

theorem readLineP_hash {lower cap : Str → Str} {o : Opts} {st : Option (List Str)} {a : AccC} {l : Str} (h : l.head? = some '#') :
    readLineP lower cap o st a l = .ok (readComment lower st l, a) := by
  cases l with
  | nil => cases h
  | cons c l => rw [List.head?_cons, Option.some.injEq] at h; subst h; rfl

theorem readLineP_node {lower cap : Str → Str} {o : Opts} {st : Option (List Str)} {a : AccC} {l : Str} (h0 : l ≠ []) (h : l.head? ≠ some '#') :
    readLineP lower cap o st a l = match readNodeP cap st o a l with
      | .error e => .error e
      | .ok a => .ok (st, a) := by
  unfold readLineP
  split
  · exact absurd rfl h0
  · exact absurd rfl h
  · rfl

/-- Comments that are no headers -/
def Comments (cs : List Str) : Prop := ∀ c ∈ cs, c.head? = some '#' ∧ isHeader c = false

theorem readLinesP_comments {lower cap : Str → Str} {o : Opts} {a : AccC} {cs : List Str} (h : Comments cs) (ls : List Str) (st : Option (List Str)) :
    readLinesP lower cap o st a (cs ++ ls) = readLinesP lower cap o st a ls := by
  induction cs with
  | nil => rfl
  | cons c cs ih =>
    obtain ⟨h1, h2⟩ := h c List.mem_cons_self
    have hm : matchColumns c = none := by
      unfold isHeader at h2
      rw [h1] at h2
      cases hc : matchColumns c with
      | none => rfl
      | some g => rw [hc] at h2; simp at h2
    have hr : readComment lower st c = st := by
      unfold readComment
      cases st with
      | some n => rfl
      | none => rw [hm]; rfl
    rw [List.cons_append, readLinesP, readLineP_hash h1, hr]
    exact ih (fun x hx => h x (List.mem_cons_of_mem _ hx))

/-- **C175 (the header)** If the first sentence has, before its words, a header, then all sentences are read with the names of that header: as if they were given by `attributes`. -/
theorem C175_header {lower cap : Str → Str} {o : Opts} {fuel : Nat} {cs rest : List Str} {l g : Str} (hc : Comments cs) (hl : l.head? = some '#') (hg : matchColumns l = some g)
    (ss : List (List Str)) :
    readAll lower cap o fuel none ((cs ++ l :: rest) :: ss) = readAll lower cap o fuel (some ((split ' ' g).map (colName lower))) ((cs ++ l :: rest) :: ss) := by
  have : readTreeP lower cap o fuel none (cs ++ l :: rest) = readTreeP lower cap o fuel (some ((split ' ' g).map (colName lower))) (cs ++ l :: rest) := by
    unfold readTreeP
    rw [readLinesP_comments hc, readLinesP_comments hc, readLinesP, readLinesP, readLineP_hash hl, readLineP_hash hl]
    have : readComment lower none l = some ((split ' ' g).map (colName lower)) := by unfold readComment; rw [hg]; rfl
    rw [this, readComment_some]
  rw [readAll, readAll, this]

theorem readLinesP_kept {lower cap : Str → Str} {o : Opts} {names : List Str} : ∀ {ls : List Str} {a b : AccC} {st : Option (List Str)},
    readLinesP lower cap o (some names) a ls = .ok (st, b) → st = some names := by
  intro ls
  induction ls with
  | nil => intro a b st h; cases h; rfl
  | cons l ls ih =>
    intro a b st h
    rw [readLinesP] at h
    by_cases h0 : l = []
    · subst h0; cases h
    · by_cases h1 : l.head? = some '#'
      · rw [readLineP_hash h1] at h; exact ih h
      · rw [readLineP_node h0 h1] at h
        cases e : readNodeP cap (some names) o a l with
        | error x => rw [e] at h; cases h
        | ok a' => rw [e] at h; exact ih h

theorem readLinesP_filter {lower cap : Str → Str} {o : Opts} {names : List Str} : ∀ (ls : List Str) (a : AccC),
    readLinesP lower cap o (some names) a (ls.filter (fun l => !isHeader l)) = readLinesP lower cap o (some names) a ls := by
  intro ls
  induction ls with
  | nil => intro a; rfl
  | cons l ls ih =>
    intro a
    rw [List.filter_cons]
    by_cases h : isHeader l = true
    · rw [h, if_neg (by simp), ih, readLinesP]
      have h1 : l.head? = some '#' := by unfold isHeader at h; simp at h; exact h.1
      rw [readLineP_hash h1, readComment_some]
    · rw [if_pos (by simpa using h), readLinesP, readLinesP]
      cases hr : readLineP lower cap o (some names) a l with
      | error e => rfl
      | ok p =>
        obtain ⟨st, a'⟩ := p
        dsimp only
        have hst : st = some names := readLinesP_kept (ls := [l]) (a := a) (b := a') (lower := lower) (cap := cap) (o := o) (by rw [readLinesP, hr]; rfl)
        rw [hst]; exact ih a'

/-- **C175 (another header, violated)** Once the names are known, headers have no effect: sentences, also those of other files, are read as if the headers were not there. So a file with other columns
than the first file is read with the columns of the first file. -/
theorem C175_second_header_violated {lower cap : Str → Str} {o : Opts} {fuel : Nat} {names : List Str} (ss : List (List Str)) :
    readAll lower cap o fuel (some names) ss = readAll lower cap o fuel (some names) (ss.map (fun s => s.filter (fun l => !isHeader l))) := by
  induction ss with
  | nil => rfl
  | cons s ss ih =>
    rw [List.map_cons, readAll, readAll]
    have : readTreeP lower cap o fuel (some names) (s.filter (fun l => !isHeader l)) = readTreeP lower cap o fuel (some names) s := by
      unfold readTreeP; rw [readLinesP_filter]
    rw [this]
    cases h : readTreeP lower cap o fuel (some names) s with
    | error e => rfl
    | ok p =>
      obtain ⟨st, t⟩ := p
      have hst : st = some names := by
        unfold readTreeP at h
        cases h1 : readLinesP lower cap o (some names) ⟨[], [], [], []⟩ s with
        | error e => rw [h1] at h; cases h
        | ok q =>
          obtain ⟨st', a⟩ := q
          rw [h1] at h
          dsimp only at h
          cases h2 : finish lower o fuel a with
          | error e => rw [h2] at h; cases h
          | ok t' => rw [h2] at h; cases h; exact readLinesP_kept h1
      dsimp only
      rw [hst, ih]

/-- **C175 (no header)** Without a header before the first word, and without `attributes`, the reader raises TypeError. -/
theorem C175_no_header {lower cap : Str → Str} {o : Opts} {fuel : Nat} {cs rest : List Str} {l : Str} (hc : Comments cs) (h0 : l ≠ []) (hl : l.head? ≠ some '#') (ss : List (List Str)) :
    readAll lower cap o fuel none ((cs ++ l :: rest) :: ss) = .error .typeError := by
  have : readTreeP lower cap o fuel none (cs ++ l :: rest) = .error .typeError := by
    unfold readTreeP
    rw [readLinesP_comments hc, readLinesP, readLineP_node h0 hl]
    rfl
  rw [readAll, this]

/-- **C175 (empty nodes, violated)** A sentence with an empty node cannot be read. -/
theorem C175_empty_violated {cap : Str → Str} {names : List Str} {o : Opts} {a : AccC} {line : Str} (h1 : '-' ∉ col (split '\t' line) 0) (h2 : '.' ∈ col (split '\t' line) 0)
    (hl : o.strict = false) : readNodeP cap (some names) o a line = .error .notImplemented := by
  unfold readNodeP
  dsimp only
  cases hf : fieldsC (split '\t') names o line with
  | error e =>
    unfold fieldsC at hf
    rw [hl] at hf
    dsimp only at hf
    split at hf
    · cases hf
    · cases hf
  | ok f =>
    dsimp only
    unfold readFieldsP
    rw [fieldsC_first hf, if_neg h1, if_pos h2]

/-- **C175 (multi-word tokens, violated)** The names have no effect on the line of a multi-word token, only their number has: the second column is taken as the form and the last one as MISC. -/
theorem C175_mwt_violated {cap : Str → Str} {names names' : List Str} {o : Opts} {a : AccC} {line : Str} (hl : names.length = names'.length) (h : '-' ∈ col (split '\t' line) 0) :
    readNodeP cap (some names) o a line = readNodeP cap (some names') o a line := by
  unfold readNodeP
  dsimp only
  have he : fieldsC (split '\t') names o line = fieldsC (split '\t') names' o line := by unfold fieldsC; rw [hl]
  rw [he]
  cases hf : fieldsC (split '\t') names' o line with
  | error e => rfl
  | ok f =>
    dsimp only
    unfold readFieldsP
    rw [fieldsC_first hf, if_pos h, if_pos h]

/-! ## The columns of CoNLL-U -/

/-- The form `_` is `None`. -/
def unform (a : Attrs) : Attrs := { a with form := a.form.bind unless_ }

def unformT (t : Tree) : Tree := { t with attrs := fun x => unform (t.attrs x) }

/-- No empty node, and no HEAD `???` -/
def PlainLine (l : Str) : Prop := l.head? = some '#' ∨ '-' ∈ col (columns l) 0 ∨ '.' ∉ col (columns l) 0 ∧ col (columns l) 6 ≠ ['?', '?', '?']

theorem setColsP_default (o : Opts) (k : Nat) (hs : List Int) {f : List Str} (hl : 10 ≤ f.length) (h6 : col f 6 ≠ ['?', '?', '?']) :
    (∃ e, setColsP o k ⟨newAttrs, hs, []⟩ (defaultNames.zip f) = .error e ∧ setCols o k (newAttrs, hs) (defaultNames.zip f) = .error e) ∨
    ∃ a h, setColsP o k ⟨newAttrs, hs, []⟩ (defaultNames.zip f) = .ok ⟨a, h, []⟩ ∧ setCols o k (newAttrs, hs) (defaultNames.zip f) = .ok (unform a, h) := by
  obtain ⟨a, b, c, d, e, g, i, j, l, m, r, rfl⟩ := ten hl
  have hz : defaultNames.zip (a :: b :: c :: d :: e :: g :: i :: j :: l :: m :: r) =
    [(nOrd, a), (nForm, b), (nLemma, c), (nUpos, d), (nXpos, e), (nFeats, g), (nHead, i), (nDeprel, j), (nDeps, l), (nMisc, m)] := rfl
  have hc6 : i ≠ ['?', '?', '?'] := h6
  have p0 : ∀ s v, setColP o k s nOrd v = if pyInt v = some (k : Int) then .ok s else .error .valueError := by intro s v; simp [setColP, nHead, nOrd]
  have p1 : ∀ s v, setColP o k s nForm v = .ok { s with attrs := { s.attrs with form := some v } } := by
    intro s v; simp [setColP, setAttr, normals, nHead, nOrd, nDeps, nForm]
  have p2 : ∀ s v, setColP o k s nLemma v = .ok { s with attrs := { s.attrs with lemma := if v = ['_'] then s.attrs.lemma else some v } } := by
    intro s v; by_cases hv : v = ['_'] <;> simp [setColP, setAttr, normals, hv, nHead, nOrd, nDeps, nForm, nLemma]
  have p3 : ∀ s v, setColP o k s nUpos v = .ok { s with attrs := { s.attrs with upos := if v = ['_'] then s.attrs.upos else some v } } := by
    intro s v; by_cases hv : v = ['_'] <;> simp [setColP, setAttr, normals, hv, nHead, nOrd, nDeps, nForm, nLemma, nUpos]
  have p4 : ∀ s v, setColP o k s nXpos v = .ok { s with attrs := { s.attrs with xpos := if v = ['_'] then s.attrs.xpos else some v } } := by
    intro s v; by_cases hv : v = ['_'] <;> simp [setColP, setAttr, normals, hv, nHead, nOrd, nDeps, nForm, nLemma, nUpos, nXpos]
  have p5 : ∀ s v, setColP o k s nFeats v = .ok { s with attrs := { s.attrs with feats := if v = ['_'] then s.attrs.feats else setDict v } } := by
    intro s v; by_cases hv : v = ['_'] <;> simp [setColP, setAttr, normals, hv, nHead, nOrd, nDeps, nForm, nLemma, nUpos, nXpos, nFeats]
  have p6 : ∀ s, setColP o k s nHead i = match readHead o i with | .error e => .error e | .ok h => .ok { s with heads := s.heads ++ [h] } := by
    intro s; simp [setColP, readHeadP, hc6]
  have p7 : ∀ s v, setColP o k s nDeprel v = .ok { s with attrs := { s.attrs with deprel := if v = ['_'] then s.attrs.deprel else some v } } := by
    intro s v; by_cases hv : v = ['_'] <;> simp [setColP, setAttr, normals, hv, nHead, nOrd, nDeps, nForm, nLemma, nUpos, nXpos, nFeats, nDeprel]
  have p8 : ∀ s v, setColP o k s nDeps v = .ok { s with attrs := { s.attrs with rawDeps := some v } } := by
    intro s v; simp [setColP, nHead, nOrd, nDeps]
  have p9 : ∀ s v, setColP o k s nMisc v = .ok { s with attrs := { s.attrs with misc := if v = ['_'] then s.attrs.misc else setDict v } } := by
    intro s v; by_cases hv : v = ['_'] <;> simp [setColP, setAttr, normals, hv, nHead, nOrd, nDeps, nForm, nLemma, nUpos, nXpos, nFeats, nDeprel, nMisc]
  rw [hz]
  simp only [setCols, setColsP, col_ord, p0]
  by_cases ha : pyInt a = some (k : Int)
  · rw [if_pos ha, if_pos ha]
    simp only [col_form, col_lemma, col_upos, col_xpos, col_feats, col_head, p1, p2, p3, p4, p5, p6]
    cases readHead o i with
    | error e => exact .inl ⟨e, rfl, rfl⟩
    | ok h =>
      simp only [col_deprel, col_deps, col_misc, p7, p8, p9]
      exact .inr ⟨_, _, rfl, rfl⟩
  · rw [if_neg ha, if_neg ha]
    exact .inl ⟨_, rfl, rfl⟩

/-- The accumulators of the two readers -/
structure SameP (c p : AccC) : Prop where
  words : c.words = p.words.map unform
  heads : c.heads = p.heads
  empties : c.empties = p.empties
  mwts : c.mwts = p.mwts

theorem fieldsC_columns {o : Opts} {l : Str} {f : List Str} (h : fieldsC (split '\t') defaultNames o l = .ok f) : f = columns l := fieldsOf_ok (fieldsC_eq o l ▸ h)

theorem columns_first (l : Str) : col (columns l) 0 = col (split '\t' l) 0 := by
  have := split_ne_nil '\t' l
  unfold columns
  cases h : split '\t' l with
  | nil => exact absurd h this
  | cons a r => rfl

theorem readLines_sameP {lower cap : Str → Str} {o : Opts} : ∀ {ls : List Str} {c p : AccC}, SameP c p → (∀ l ∈ ls, PlainLine l) →
    (∃ e, readLinesC (split '\t') defaultNames o c ls = .error e ∧ readLinesP lower cap o (some defaultNames) p ls = .error (.base e)) ∨
    ∃ c' p', readLinesC (split '\t') defaultNames o c ls = .ok c' ∧ readLinesP lower cap o (some defaultNames) p ls = .ok (some defaultNames, p') ∧ SameP c' p' := by
  intro ls
  induction ls with
  | nil => intro c p h _; exact .inr ⟨c, p, rfl, rfl, h⟩
  | cons l ls ih =>
    intro c p h hp
    rw [readLinesC, readLinesP]
    have hps : ∀ x ∈ ls, PlainLine x := fun x hx => hp x (List.mem_cons_of_mem _ hx)
    have hpl := hp l List.mem_cons_self
    cases l with
    | nil => exact .inl ⟨_, rfl, rfl⟩
    | cons x l =>
      by_cases hx : x = '#'
      · subst hx
        rw [readLineP_hash rfl, readComment_some]
        exact ih h hps
      · have hh : (x :: l).head? ≠ some '#' := by simpa using hx
        rw [readLineC_cons hx, readLineP_node (by simp) hh]
        unfold readNodeP
        dsimp only
        cases hf : fieldsC (split '\t') defaultNames o (x :: l) with
        | error e => exact .inl ⟨e, rfl, rfl⟩
        | ok f =>
          have hfc := fieldsC_columns hf
          subst hfc
          dsimp only
          unfold readFieldsC readFieldsP
          by_cases m1 : '-' ∈ col (columns (x :: l)) 0
          · rw [if_pos m1, if_pos m1]
            exact ih ⟨h.words, h.heads, h.empties, by simp [h.mwts]⟩ hps
          · rw [if_neg m1, if_neg m1]
            obtain ⟨m2, m3⟩ := (hpl.resolve_left hh).resolve_left m1
            rw [if_neg m2, if_neg m2]
            have hlen : c.words.length = p.words.length := by rw [h.words, List.length_map]
            rw [hlen, h.heads]
            rcases setColsP_default o (p.words.length + 1) p.heads (columns_len (x :: l)) m3 with ⟨e, e1, e2⟩ | ⟨a, hd, e1, e2⟩
            · rw [e1, e2]; exact .inl ⟨e, rfl, rfl⟩
            · rw [e1, e2]
              refine ih ⟨?_, rfl, h.empties, h.mwts⟩ hps
              dsimp only
              rw [h.words, List.map_append]
              rfl

theorem createMwt_unform (t : Tree) (ws : List Nat) (form : Option Str) (misc : Str) :
    createMwt (unformT t) ws form misc = match createMwt t ws form misc with
      | .error e => .error e
      | .ok t => .ok (unformT t) := by
  unfold createMwt
  have h1 : (unformT t).mwt = t.mwt := rfl
  rw [h1]
  cases Mwt.create t.mwt ws with
  | mk s e =>
    cases e with
    | some e => cases e <;> rfl
    | none =>
      dsimp only
      have h2 : (fun x => ((unformT t).attrs x).misc) = fun x => (t.attrs x).misc := rfl
      rw [h2]
      congr 1
      unfold unformT
      congr 1
      funext x
      dsimp only
      split <;> rfl

theorem readMwts_unform (n : Nat) : ∀ (fs : List (List Str)) (t : Tree), readMwts n (unformT t) fs = match readMwts n t fs with
      | .error e => .error e
      | .ok t => .ok (unformT t) := by
  have one : ∀ (f : List Str) (t : Tree), readMwt (unformT t) n f = match readMwt t n f with
      | .error e => .error e
      | .ok t => .ok (unformT t) := by
    intro f t
    unfold readMwt
    split
    · cases pyInt _ with
      | none => rfl
      | some a =>
        cases pyInt _ with
        | none => rfl
        | some b => exact createMwt_unform _ _ _ _
    · rfl
  intro fs
  induction fs with
  | nil => intro t; rfl
  | cons f fs ih =>
    intro t
    rw [readMwts, readMwts, one]
    cases readMwt t n f with
    | error e => rfl
    | ok t' => exact ih t'

theorem finish_unform {lower : Str → Str} {o : Opts} {fuel : Nat} {c p : AccC} (h : SameP c p) :
    finish lower o fuel c = match finish lower o fuel p with
      | .error e => .error e
      | .ok t => .ok (t.map unformT) := by
  unfold finish
  by_cases h0 : p.words = []
  · rw [if_pos h0, if_pos (by rw [h.words, h0]; rfl)]; rfl
  · rw [if_neg h0, if_neg (by rw [h.words]; simpa using h0)]
    have hw : realWordsC lower c.words = (realWordsC lower p.words).map unform := by
      rw [h.words]
      match p.words with
      | [] => rfl
      | [w] =>
        simp only [List.map_cons, List.map_nil, realWordsC]
        have : (unform w).misc = w.misc := rfl
        rw [this]
        split <;> rfl
      | w :: v :: ws => rfl
    rw [hw, h.heads, h.empties, h.mwts]
    dsimp only
    rw [List.length_map]
    cases linkAllC o (realWordsC lower p.words).length fuel (startHeapC (realWordsC lower p.words).length) 1 ((List.range (realWordsC lower p.words).length).map (fun i => p.heads[i]?)) with
    | error e => rfl
    | ok hp =>
      dsimp only
      generalize realWordsC lower p.words = ws
      have key : ({ heap := hp
                    attrs := fun x => if x = 0 then ⟨none, none, none, none, none, none, none, none⟩ else ((ws.map unform)[x - 1]?).getD ⟨none, none, none, none, none, none, none, none⟩
                    empties := p.empties
                    mwt := Mwt.St.init
                    mwtForm := fun _ => none
                    mwtMisc := fun _ => none } : Tree) =
          unformT { heap := hp
                    attrs := fun x => if x = 0 then ⟨none, none, none, none, none, none, none, none⟩ else (ws[x - 1]?).getD ⟨none, none, none, none, none, none, none, none⟩
                    empties := p.empties
                    mwt := Mwt.St.init
                    mwtForm := fun _ => none
                    mwtMisc := fun _ => none } := by
        unfold unformT
        congr 1
        funext x
        dsimp only
        by_cases hx : x = 0
        · rw [if_pos hx, if_pos hx]; rfl
        · rw [if_neg hx, if_neg hx, List.getElem?_map]
          cases ws[x - 1]? <;> rfl
      rw [key, readMwts_unform]
      cases readMwts ws.length _ p.mwts <;> rfl

theorem writeNodes_unform (lower : Str → Str) (t : Tree) : writeNodes lower (unformT t) 0 = writeNodes lower t 0 := by
  have hl : ∀ (i d : Str) (a : Attrs), nodeLine lower i d (unform a) = nodeLine lower i d a := by
    intro i d a
    have h : ∀ v : Option Str, colOr (v.bind unless_) = colOr v := by
      intro v
      cases v with
      | none => rfl
      | some s =>
        by_cases hs : s = ['_']
        · subst hs; rfl
        · simp [unless_, hs]
    unfold nodeLine unform
    dsimp only
    rw [h]
  have hloop : ∀ (l : List Item) (last : Nat), writeLoop lower (unformT t) last l = writeLoop lower t last l := by
    intro l
    induction l with
    | nil => intro last; rfl
    | cons i l ih =>
      intro last
      cases i with
      | empty e => simp only [writeLoop, ih]
      | word x =>
        have h1 : mwtBefore (unformT t) last x = mwtBefore t last x := rfl
        have h2 : ∀ m, mwtLine lower (unformT t) m = mwtLine lower t m := fun _ => rfl
        have h3 : headCol (unformT t) x = headCol t x := rfl
        have h4 : (unformT t).heap.ord = t.heap.ord := rfl
        have h5 : ∀ m, mwtWords (unformT t) m = mwtWords t m := fun _ => rfl
        have h6 : (unformT t).attrs x = unform (t.attrs x) := rfl
        simp only [writeLoop, h1, h2, h3, h4, h5, h6, hl, ih]
  unfold writeNodes
  have h1 : writeItems (unformT t) 0 = writeItems t 0 := rfl
  have h2 : (unformT t).heap.words = t.heap.words := rfl
  rw [h1, hloop, h2]

/-- **C175 (the columns of CoNLL-U)** With the columns of CoNLL-U a sentence without empty nodes and without HEAD `???` is read as by `read.Conll`, with the same exceptions, except that the form `_` is
kept; what `write.Conllu` prints is the same. -/
theorem C175_standard {lower cap : Str → Str} {o : Opts} {fuel : Nat} {lines : List Str} (h : ∀ l ∈ lines, PlainLine l) :
    (∃ e, readTreeP lower cap o fuel (some defaultNames) lines = .error (.base e) ∧ readTreeC (split '\t') defaultNames lower o fuel lines = .error e) ∨
    (readTreeP lower cap o fuel (some defaultNames) lines = .ok (some defaultNames, none) ∧ readTreeC (split '\t') defaultNames lower o fuel lines = .ok none) ∨
    ∃ t, readTreeP lower cap o fuel (some defaultNames) lines = .ok (some defaultNames, some t) ∧ readTreeC (split '\t') defaultNames lower o fuel lines = .ok (some (unformT t)) ∧
      writeNodes lower (unformT t) 0 = writeNodes lower t 0 := by
  rw [readTreeC_finish]
  unfold readTreeP
  rcases readLines_sameP (lower := lower) (cap := cap) (o := o) (c := ⟨[], [], [], []⟩) (p := ⟨[], [], [], []⟩) ⟨rfl, rfl, rfl, rfl⟩ h with ⟨e, e1, e2⟩ | ⟨c, p, e1, e2, hs⟩
  · rw [e1, e2]; exact .inl ⟨e, rfl, rfl⟩
  · rw [e1, e2]
    dsimp only
    rw [finish_unform hs]
    cases finish lower o fuel p with
    | error e => exact .inl ⟨e, rfl, rfl⟩
    | ok r =>
      cases r with
      | none => exact .inr (.inl ⟨rfl, rfl⟩)
      | some t => exact .inr (.inr ⟨t, rfl, rfl, writeNodes_unform lower t⟩)

/-! ## Examples -/

/-- Lower-casing of ASCII letters -/
def exLower (s : Str) : Str := s.map Char.toLower
def exCap : Str → Str
  | [] => []
  | c :: s => c.toUpper :: exLower s

/-- `# global.columns = ID FORM HEAD PARSEME:MWE` -/
def exHeader : Str := "# global.columns = ID FORM HEAD PARSEME:MWE".toList

example : matchColumns exHeader = some "ID FORM HEAD PARSEME:MWE".toList := by decide +kernel
example : (split ' ' "ID FORM LEMMA UPOS XPOS FEATS HEAD DEPREL DEPS MISC".toList).map (colName exLower) = defaultNames := by decide +kernel

/-- The header, two words and a multi-word token; the second file has another order of columns. -/
def exFile : List Str := [exHeader, "1-2\tab\t_\t_".toList, "1\ta\t2\t1:VID".toList, "2\tb\t???\t*".toList]
def exFile2 : List Str := ["# global.columns = ID LEMMA HEAD FORM".toList, "1\ta\t0\tb".toList]

def exShow : Except ErrP (List (Option Tree)) → Option (List (List (Option Str × Str)))
  | .ok ts => some (ts.map (fun t => match t with
    | some t => (t.heap.words 0).map (fun x => ((t.attrs x).form, dictCol exLower (t.attrs x).misc))
    | none => []))
  | .error _ => none

example : exShow (readAll exLower exCap ⟨false, false⟩ 9 none [exFile]) = some [[(some ['a'], "Parseme:mwe=1:VID".toList), (some ['b'], "Parseme:mwe=*".toList)]] := by decide +kernel
example : exShow (readAll exLower exCap ⟨false, false⟩ 9 none [exFile2]) = some [[(some ['b'], ['_'])]] := by decide +kernel
/-- After the first file, the lemma of the second one is its form. -/
example : (exShow (readAll exLower exCap ⟨false, false⟩ 9 none [exFile, exFile2])).map (fun l => l.drop 1) = some [[(some ['a'], "Parseme:mwe=b".toList)]] := by decide +kernel
/-- With the columns `ID LEMMA FORM HEAD` the lemma of a multi-word token is its form. -/
example : (match readTreeP exLower exCap ⟨false, false⟩ 9 (some [nOrd, nLemma, nForm, nHead]) ["1-2\tL\tF\t_".toList, "1\ta\tb\t0".toList, "2\tc\td\t1".toList] with
  | .ok (_, some t) => some (t.mwtForm 0, (t.attrs 1).form)
  | _ => none) = some (some ['L'], some ['b']) := by decide +kernel
example : Comments ["# text = a".toList] ∧ matchColumns exHeader ≠ none := by
  refine ⟨?_, by decide +kernel⟩
  intro c hc; rw [List.mem_singleton.1 hc]; exact ⟨by decide +kernel, by decide +kernel⟩
example : ∀ l ∈ ["# x".toList, "1\ta\t_\tX\t_\t_\t0\tr\t_\t_".toList], PlainLine l := by
  intro l hl
  rcases List.mem_cons.1 hl with e | e
  · rw [e]; exact .inl (by decide +kernel)
  · rw [List.mem_singleton.1 e]; exact .inr (.inr ⟨by decide +kernel, by decide +kernel⟩)

end Verif.Conllu.Conllup
