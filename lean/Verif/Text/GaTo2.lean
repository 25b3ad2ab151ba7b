/-!
# Property C236: ud.ga.To2, ud.he.FixNeg and ud.ro.FixNeg (udapi/block/ud/ga/to2.py, udapi/block/ud/he/fixneg.py, udapi/block/ud/ro/fixneg.py)

FEATS are a function from names to values, the empty string for a missing feature. `todo` is the value of `ToDo` in MISC, empty if it is missing; `ud.Convert1to2` puts its notes there, separated by
commas (`udapi/block/ud/convert1to2.py:94-104`). `par` is the number of the parent, 0 for the technical root, whose lemma is not `ag`. Warnings are left out.
-/

namespace Verif.Text.GaTo2

abbrev Str := List Char
abbrev Feats := Str → Str

def set (f : Feats) (k v : Str) : Feats := fun x => if x = k then v else f x

structure Word where
  form : Str
  lem : Str
  upos : Str
  xpos : Str
  deprel : Str
  par : Nat
  feats : Feats
  todo : Str

/-- `p in s` -/
def has (p : Str) : Str → Bool
  | [] => p.isPrefixOf []
  | c :: s => p.isPrefixOf (c :: s) || has p s

/-- Lines 13-14 -/
def gaCase (f : Feats) : Feats := if f ['C', 'a', 's', 'e'] = ['C', 'o', 'm'] then set f ['C', 'a', 's', 'e'] ['N', 'o', 'm', 'A', 'c', 'c'] else f

/-- Lines 15-20 -/
def gaForm (upos : Str) (f : Feats) : Feats :=
  if f ['F', 'o', 'r', 'm'] = ['E', 'm', 'p', 'h'] then
    if upos = ['P', 'R', 'O', 'N'] ∨ upos = ['A', 'D', 'P'] then set (set f ['P', 'r', 'o', 'n', 'T', 'y', 'p', 'e'] ['E', 'm', 'p']) ['F', 'o', 'r', 'm'] [] else set f ['F', 'o', 'r', 'm'] ['E', 'm', 'p']
  else f

/-- Lines 25-26 and 29-30 -/
def gaXpos (xpos : Str) (f : Feats) : Feats :=
  let f := if xpos = ['A', 'b', 'r'] then set f ['A', 'b', 'b', 'r'] ['Y', 'e', 's'] else f
  if xpos = ['F', 'o', 'r', 'e', 'i', 'g', 'n'] then set f ['F', 'o', 'r', 'e', 'i', 'g', 'n'] ['Y', 'e', 's'] else f

/-- Lines 34-38; `ag`: the word before has the lemma `ag` and depends on this one -/
def gaVerb (ag : Bool) (f : Feats) : Feats :=
  if f ['V', 'e', 'r', 'b', 'F', 'o', 'r', 'm'] = ['I', 'n', 'f'] ∨ f ['V', 'e', 'r', 'b', 'F', 'o', 'r', 'm'] = ['V', 'n', 'o', 'u', 'n'] ∨ f ['V', 'e', 'r', 'b', 'F', 'o', 'r', 'm'] = ['G', 'e', 'r'] then set f ['V', 'e', 'r', 'b', 'F', 'o', 'r', 'm'] (if ag then ['V', 'n', 'o', 'u', 'n'] else ['I', 'n', 'f']) else f

/-- Lines 21-24 -/
def gaDeprel (d : Str) : Str := if d = ['n', 'm', 'o', 'd', ':', 'p', 'r', 'e', 'p'] then ['o', 'b', 'l', ':', 'p', 'r', 'e', 'p'] else if d = ['n', 'm', 'o', 'd', ':', 't', 'm', 'o', 'd'] then ['o', 'b', 'l', ':', 't', 'm', 'o', 'd'] else d

/-- `To2.process_node` (ga/to2.py:12-38) -/
def ga (ag : Bool) (w : Word) : Word :=
  { w with
    feats := gaVerb ag (gaXpos w.xpos (gaForm w.upos (gaCase w.feats)))
    deprel := gaDeprel w.deprel
    upos := if w.xpos = ['C', 'o', 'p'] then ['A', 'U', 'X'] else w.upos
    todo := if has ['n', 'm', 'o', 'd'] w.todo then [] else w.todo }

def isAg (i : Nat) (prev : Option Word) : Bool :=
  match prev with
  | none => false
  | some p => p.lem == ['a', 'g'] && p.par == i

/-- The words of a sentence from number `i` on, after the word `prev` -/
def gaRun : Nat → Option Word → List Word → List Word
  | _, _, [] => []
  | i, prev, w :: rest => ga (isAg i prev) w :: gaRun (i + 1) (some (ga (isAg i prev) w)) rest

/-- `FixNeg.process_node` for Hebrew (he/fixneg.py:13-25) -/
def he (w : Word) : Word :=
  if w.deprel = ['n', 'e', 'g'] then
    if w.feats ['V', 'e', 'r', 'b', 'T', 'y', 'p', 'e'] = ['C', 'o', 'p'] then
      { w with upos := ['A', 'U', 'X'], deprel := ['c', 'o', 'p'], feats := set w.feats ['V', 'e', 'r', 'b', 'T', 'y', 'p', 'e'] [], todo := if w.todo = ['n', 'e', 'g'] then [] else w.todo }
    else w
  else w

/-- `FixNeg.process_node` for Romanian (ro/fixneg.py:13-20) -/
def ro (w : Word) : Word :=
  if w.deprel = ['n', 'e', 'g'] then
    { w with
      feats := if w.upos = ['P', 'R', 'O', 'N'] ∧ w.form = ['n', 'e'] then set (fun _ => []) ['P', 'o', 'l', 'a', 'r', 'i', 't', 'y'] ['N', 'e', 'g'] else w.feats
      upos := ['A', 'D', 'V']
      deprel := ['a', 'd', 'v', 'm', 'o', 'd'] }
  else w

/-! ## Lemmas -/

theorem has_iff (p : Str) : ∀ s, has p s = true ↔ ∃ a b, s = a ++ p ++ b
  | [] => by
    simp only [has, List.isPrefixOf_iff_prefix]
    constructor
    · rintro ⟨t, h⟩
      exact ⟨[], t, by simpa using h.symm⟩
    · rintro ⟨a, b, h⟩
      have := List.append_eq_nil_iff.1 h.symm
      rw [(List.append_eq_nil_iff.1 this.1).2]
      exact ⟨[], rfl⟩
  | c :: s => by
    simp only [has, Bool.or_eq_true, List.isPrefixOf_iff_prefix, has_iff p s]
    constructor
    · rintro (⟨t, h⟩ | ⟨a, b, h⟩)
      · exact ⟨[], t, by simpa using h.symm⟩
      · exact ⟨c :: a, b, by simp [h]⟩
    · rintro ⟨a, b, h⟩
      cases a with
      | nil => exact .inl ⟨b, by simpa using h.symm⟩
      | cons x a =>
        simp only [List.cons_append, List.cons.injEq] at h
        exact .inr ⟨a, b, by simpa using h.2⟩

def gaFeats (upos xpos : Str) (ag : Bool) (f : Feats) : Feats := gaVerb ag (gaXpos xpos (gaForm upos (gaCase f)))

theorem caseP (f : Feats) (k : Str) : gaCase f k = if k = ['C', 'a', 's', 'e'] then (if f ['C', 'a', 's', 'e'] = ['C', 'o', 'm'] then ['N', 'o', 'm', 'A', 'c', 'c'] else f ['C', 'a', 's', 'e']) else f k := by
  unfold gaCase
  by_cases h : f ['C', 'a', 's', 'e'] = ['C', 'o', 'm'] <;> by_cases hk : k = ['C', 'a', 's', 'e']
  · simp [set, h, hk]
  · simp [set, h, hk]
  · subst hk; simp [h]
  · simp only [if_neg h, if_neg hk]

theorem formP (u : Str) (f : Feats) (k : Str) : gaForm u f k = if f ['F', 'o', 'r', 'm'] = ['E', 'm', 'p', 'h'] then
    (if u = ['P', 'R', 'O', 'N'] ∨ u = ['A', 'D', 'P'] then (if k = ['F', 'o', 'r', 'm'] then [] else if k = ['P', 'r', 'o', 'n', 'T', 'y', 'p', 'e'] then ['E', 'm', 'p'] else f k) else if k = ['F', 'o', 'r', 'm'] then ['E', 'm', 'p'] else f k) else f k := by
  unfold gaForm
  split
  · split <;> simp only [set]
  · rfl

theorem xposP (x : Str) (f : Feats) (k : Str) : gaXpos x f k = if k = ['F', 'o', 'r', 'e', 'i', 'g', 'n'] ∧ x = ['F', 'o', 'r', 'e', 'i', 'g', 'n'] then ['Y', 'e', 's'] else if k = ['A', 'b', 'b', 'r'] ∧ x = ['A', 'b', 'r'] then ['Y', 'e', 's'] else f k := by
  unfold gaXpos
  by_cases h1 : x = ['A', 'b', 'r']
  · subst h1
    by_cases hk : k = ['A', 'b', 'b', 'r'] <;> simp [set, hk]
  · by_cases h2 : x = ['F', 'o', 'r', 'e', 'i', 'g', 'n']
    · subst h2
      by_cases hk : k = ['F', 'o', 'r', 'e', 'i', 'g', 'n'] <;> simp [set, hk]
    · simp [h1, h2]

theorem verbP (ag : Bool) (f : Feats) (k : Str) : gaVerb ag f k = if k = ['V', 'e', 'r', 'b', 'F', 'o', 'r', 'm'] ∧ (f ['V', 'e', 'r', 'b', 'F', 'o', 'r', 'm'] = ['I', 'n', 'f'] ∨ f ['V', 'e', 'r', 'b', 'F', 'o', 'r', 'm'] = ['V', 'n', 'o', 'u', 'n'] ∨ f ['V', 'e', 'r', 'b', 'F', 'o', 'r', 'm'] = ['G', 'e', 'r']) then (if ag then ['V', 'n', 'o', 'u', 'n'] else ['I', 'n', 'f']) else f k := by
  unfold gaVerb
  split
  · next h => simp only [set, h, and_true]
  · next h => simp only [h, and_false, if_false]

theorem feats_case (u x : Str) (ag : Bool) (f : Feats) : gaFeats u x ag f ['C', 'a', 's', 'e'] = if f ['C', 'a', 's', 'e'] = ['C', 'o', 'm'] then ['N', 'o', 'm', 'A', 'c', 'c'] else f ['C', 'a', 's', 'e'] := by
  simp [gaFeats, verbP, xposP, formP, caseP]

theorem feats_form (u x : Str) (ag : Bool) (f : Feats) : gaFeats u x ag f ['F', 'o', 'r', 'm'] = if f ['F', 'o', 'r', 'm'] = ['E', 'm', 'p', 'h'] then (if u = ['P', 'R', 'O', 'N'] ∨ u = ['A', 'D', 'P'] then [] else ['E', 'm', 'p']) else f ['F', 'o', 'r', 'm'] := by
  simp [gaFeats, verbP, xposP, formP, caseP]

theorem feats_pron (u x : Str) (ag : Bool) (f : Feats) : gaFeats u x ag f ['P', 'r', 'o', 'n', 'T', 'y', 'p', 'e'] = if f ['F', 'o', 'r', 'm'] = ['E', 'm', 'p', 'h'] ∧ (u = ['P', 'R', 'O', 'N'] ∨ u = ['A', 'D', 'P']) then ['E', 'm', 'p'] else f ['P', 'r', 'o', 'n', 'T', 'y', 'p', 'e'] := by
  by_cases h : f ['F', 'o', 'r', 'm'] = ['E', 'm', 'p', 'h'] <;> by_cases h' : u = ['P', 'R', 'O', 'N'] ∨ u = ['A', 'D', 'P'] <;> simp [gaFeats, verbP, xposP, formP, caseP, h, h']

theorem feats_abbr (u x : Str) (ag : Bool) (f : Feats) : gaFeats u x ag f ['A', 'b', 'b', 'r'] = if x = ['A', 'b', 'r'] then ['Y', 'e', 's'] else f ['A', 'b', 'b', 'r'] := by
  simp [gaFeats, verbP, xposP, formP, caseP]

theorem feats_foreign (u x : Str) (ag : Bool) (f : Feats) : gaFeats u x ag f ['F', 'o', 'r', 'e', 'i', 'g', 'n'] = if x = ['F', 'o', 'r', 'e', 'i', 'g', 'n'] then ['Y', 'e', 's'] else f ['F', 'o', 'r', 'e', 'i', 'g', 'n'] := by
  simp [gaFeats, verbP, xposP, formP, caseP]

theorem feats_verb (u x : Str) (ag : Bool) (f : Feats) : gaFeats u x ag f ['V', 'e', 'r', 'b', 'F', 'o', 'r', 'm'] =
    if f ['V', 'e', 'r', 'b', 'F', 'o', 'r', 'm'] = ['I', 'n', 'f'] ∨ f ['V', 'e', 'r', 'b', 'F', 'o', 'r', 'm'] = ['V', 'n', 'o', 'u', 'n'] ∨ f ['V', 'e', 'r', 'b', 'F', 'o', 'r', 'm'] = ['G', 'e', 'r'] then (if ag then ['V', 'n', 'o', 'u', 'n'] else ['I', 'n', 'f']) else f ['V', 'e', 'r', 'b', 'F', 'o', 'r', 'm'] := by
  simp [gaFeats, verbP, xposP, formP, caseP]

theorem feats_other (u x : Str) (ag : Bool) (f : Feats) {k : Str} (hk : k ∉ ([['C', 'a', 's', 'e'], ['F', 'o', 'r', 'm'], ['P', 'r', 'o', 'n', 'T', 'y', 'p', 'e'], ['A', 'b', 'b', 'r'], ['F', 'o', 'r', 'e', 'i', 'g', 'n'], ['V', 'e', 'r', 'b', 'F', 'o', 'r', 'm']] : List Str)) : gaFeats u x ag f k = f k := by
  simp only [List.mem_cons, List.not_mem_nil, or_false, not_or] at hk
  obtain ⟨h1, h2, h3, h4, h5, h6⟩ := hk
  simp only [gaFeats, verbP, xposP, formP, caseP, h1, h2, h3, h4, h5, h6, false_and, if_false, ite_self]

theorem feats_twice (u u' x : Str) (ag : Bool) (f : Feats) : gaFeats u' x ag (gaFeats u x ag f) = gaFeats u x ag f := by
  have nf : gaFeats u x ag f ['F', 'o', 'r', 'm'] ≠ ['E', 'm', 'p', 'h'] := by
    rw [feats_form]
    split
    · split <;> decide
    · assumption
  funext k
  by_cases hk : k ∈ ([['C', 'a', 's', 'e'], ['F', 'o', 'r', 'm'], ['P', 'r', 'o', 'n', 'T', 'y', 'p', 'e'], ['A', 'b', 'b', 'r'], ['F', 'o', 'r', 'e', 'i', 'g', 'n'], ['V', 'e', 'r', 'b', 'F', 'o', 'r', 'm']] : List Str)
  · simp only [List.mem_cons, List.not_mem_nil, or_false] at hk
    rcases hk with rfl | rfl | rfl | rfl | rfl | rfl
    · rw [feats_case u', feats_case u]
      split
      · rfl
      · rfl
    · rw [feats_form u', if_neg nf]
    · rw [feats_pron u', if_neg (fun g => nf g.1)]
    · rw [feats_abbr u', feats_abbr u]
      split <;> rfl
    · rw [feats_foreign u', feats_foreign u]
      split <;> rfl
    · rw [feats_verb u', feats_verb u]
      split
      · cases ag <;> simp
      · rfl
  · exact feats_other _ _ _ _ hk

theorem ga_twice (ag : Bool) (w : Word) : ga ag (ga ag w) = ga ag w := by
  have h1 : gaDeprel (gaDeprel w.deprel) = gaDeprel w.deprel := by
    have : gaDeprel w.deprel = ['o', 'b', 'l', ':', 'p', 'r', 'e', 'p'] ∨ gaDeprel w.deprel = ['o', 'b', 'l', ':', 't', 'm', 'o', 'd'] ∨ (gaDeprel w.deprel = w.deprel ∧ w.deprel ≠ ['n', 'm', 'o', 'd', ':', 'p', 'r', 'e', 'p'] ∧ w.deprel ≠ ['n', 'm', 'o', 'd', ':', 't', 'm', 'o', 'd']) := by
      unfold gaDeprel
      split
      · exact .inl rfl
      · split
        · exact .inr (.inl rfl)
        · next a b => exact .inr (.inr ⟨rfl, a, b⟩)
    rcases this with h | h | ⟨h, _, _⟩
    · rw [h]; decide
    · rw [h]; decide
    · rw [h, h]
  have h2 := feats_twice w.upos (if w.xpos = ['C', 'o', 'p'] then ['A', 'U', 'X'] else w.upos) w.xpos ag w.feats
  have h3 : (if w.xpos = ['C', 'o', 'p'] then ['A', 'U', 'X'] else if w.xpos = ['C', 'o', 'p'] then ['A', 'U', 'X'] else w.upos) = if w.xpos = ['C', 'o', 'p'] then ['A', 'U', 'X'] else w.upos := by split <;> rfl
  have h4 : (if has ['n', 'm', 'o', 'd'] (if has ['n', 'm', 'o', 'd'] w.todo then [] else w.todo) then [] else if has ['n', 'm', 'o', 'd'] w.todo then [] else w.todo) = if has ['n', 'm', 'o', 'd'] w.todo then [] else w.todo := by
    cases h : has ['n', 'm', 'o', 'd'] w.todo with
    | true => simp
    | false => simp [h]
  show Word.mk _ _ _ _ _ _ _ _ = Word.mk _ _ _ _ _ _ _ _
  congr 1

theorem isAg_ga (i : Nat) (b : Bool) (w : Word) : isAg i (some (ga b w)) = isAg i (some w) := rfl

theorem gaRun_get : ∀ (s : List Word) (i : Nat) (prev : Option Word) (j : Nat), (gaRun i prev s)[j]? = s[j]?.map (ga (isAg (i + j) (if j = 0 then prev else s[j - 1]?)))
  | [], i, prev, j => by simp [gaRun]
  | w :: rest, i, prev, 0 => by simp [gaRun]
  | w :: rest, i, prev, j + 1 => by
    simp only [gaRun, List.getElem?_cons_succ]
    rw [gaRun_get rest (i + 1) _ j]
    have e : i + 1 + j = i + (j + 1) := by omega
    rw [e]
    cases j with
    | zero => simp [isAg_ga]
    | succ j => simp

/-! ## Theorems -/

/-- Number `j` (from 0) of the Irish sentence becomes a verbal noun exactly if it was a non-finite verb and the word before it has the lemma `ag` and depends on it; other non-finite verbs are infinitives. -/
theorem C236_ga_verb {s : List Word} {j : Nat} {w w' : Word} (h : s[j]? = some w) (h' : (gaRun 1 none s)[j]? = some w') :
    (w.feats ['V', 'e', 'r', 'b', 'F', 'o', 'r', 'm'] ∈ ([['I', 'n', 'f'], ['V', 'n', 'o', 'u', 'n'], ['G', 'e', 'r']] : List Str) →
      (w'.feats ['V', 'e', 'r', 'b', 'F', 'o', 'r', 'm'] = ['V', 'n', 'o', 'u', 'n'] ↔ 0 < j ∧ ∃ p, s[j - 1]? = some p ∧ p.lem = ['a', 'g'] ∧ p.par = j + 1) ∧ (w'.feats ['V', 'e', 'r', 'b', 'F', 'o', 'r', 'm'] ≠ ['V', 'n', 'o', 'u', 'n'] → w'.feats ['V', 'e', 'r', 'b', 'F', 'o', 'r', 'm'] = ['I', 'n', 'f'])) ∧
    (w.feats ['V', 'e', 'r', 'b', 'F', 'o', 'r', 'm'] ∉ ([['I', 'n', 'f'], ['V', 'n', 'o', 'u', 'n'], ['G', 'e', 'r']] : List Str) → w'.feats ['V', 'e', 'r', 'b', 'F', 'o', 'r', 'm'] = w.feats ['V', 'e', 'r', 'b', 'F', 'o', 'r', 'm']) := by
  rw [gaRun_get, h] at h'
  simp only [Option.map_some, Option.some.injEq] at h'
  have hag : isAg (1 + j) (if j = 0 then none else s[j - 1]?) = true ↔ 0 < j ∧ ∃ p, s[j - 1]? = some p ∧ p.lem = ['a', 'g'] ∧ p.par = j + 1 := by
    cases j with
    | zero => simp [isAg]
    | succ j =>
      have h1 : ¬ (j + 1 = 0) := by omega
      rw [if_neg h1]
      cases hp : s[j + 1 - 1]? with
      | none => simp [isAg]
      | some p => simp [isAg, Nat.add_comm]
  generalize isAg (1 + j) (if j = 0 then none else s[j - 1]?) = ag at h' hag
  have e : w'.feats = gaFeats w.upos w.xpos ag w.feats := by rw [← h']; rfl
  rw [e, feats_verb, ← hag]
  simp only [List.mem_cons, List.not_mem_nil, or_false]
  constructor
  · intro hv
    rw [if_pos hv]
    cases ag <;> simp
  · intro hv
    rw [if_neg hv]

/-- What every Irish word is afterwards, and what stays. -/
theorem C236_ga_word {s : List Word} {j : Nat} {w w' : Word} (h : s[j]? = some w) (h' : (gaRun 1 none s)[j]? = some w') :
    (w'.form = w.form ∧ w'.lem = w.lem ∧ w'.xpos = w.xpos ∧ w'.par = w.par) ∧
    (w'.feats ['C', 'a', 's', 'e'] ≠ ['C', 'o', 'm'] ∧ w'.feats ['F', 'o', 'r', 'm'] ≠ ['E', 'm', 'p', 'h'] ∧ w'.deprel ≠ ['n', 'm', 'o', 'd', ':', 'p', 'r', 'e', 'p'] ∧ w'.deprel ≠ ['n', 'm', 'o', 'd', ':', 't', 'm', 'o', 'd']) ∧
    (w.xpos = ['C', 'o', 'p'] → w'.upos = ['A', 'U', 'X']) ∧ (w.xpos ≠ ['C', 'o', 'p'] → w'.upos = w.upos) ∧
    (w.xpos = ['A', 'b', 'r'] → w'.feats ['A', 'b', 'b', 'r'] = ['Y', 'e', 's']) ∧ (w.xpos = ['F', 'o', 'r', 'e', 'i', 'g', 'n'] → w'.feats ['F', 'o', 'r', 'e', 'i', 'g', 'n'] = ['Y', 'e', 's']) ∧
    (w.feats ['F', 'o', 'r', 'm'] = ['E', 'm', 'p', 'h'] → if w.upos = ['P', 'R', 'O', 'N'] ∨ w.upos = ['A', 'D', 'P'] then w'.feats ['P', 'r', 'o', 'n', 'T', 'y', 'p', 'e'] = ['E', 'm', 'p'] ∧ w'.feats ['F', 'o', 'r', 'm'] = [] else w'.feats ['P', 'r', 'o', 'n', 'T', 'y', 'p', 'e'] = w.feats ['P', 'r', 'o', 'n', 'T', 'y', 'p', 'e'] ∧ w'.feats ['F', 'o', 'r', 'm'] = ['E', 'm', 'p']) ∧
    (∀ k, k ∉ ([['C', 'a', 's', 'e'], ['F', 'o', 'r', 'm'], ['P', 'r', 'o', 'n', 'T', 'y', 'p', 'e'], ['A', 'b', 'b', 'r'], ['F', 'o', 'r', 'e', 'i', 'g', 'n'], ['V', 'e', 'r', 'b', 'F', 'o', 'r', 'm']] : List Str) → w'.feats k = w.feats k) ∧
    ((¬ ∃ a b, w.todo = a ++ ['n', 'm', 'o', 'd'] ++ b) → w'.todo = w.todo) := by
  rw [gaRun_get, h] at h'
  simp only [Option.map_some, Option.some.injEq] at h'
  generalize isAg (1 + j) (if j = 0 then none else s[j - 1]?) = ag at h'
  subst h'
  have hf : (ga ag w).feats = gaFeats w.upos w.xpos ag w.feats := rfl
  rw [hf]
  refine ⟨⟨rfl, rfl, rfl, rfl⟩, ⟨?_, ?_, ?_, ?_⟩, ?_, ?_, ?_, ?_, ?_, ?_, ?_⟩
  · rw [feats_case]
    split
    · decide
    · assumption
  · rw [feats_form]
    split
    · split <;> decide
    · assumption
  · show gaDeprel w.deprel ≠ _
    unfold gaDeprel
    split
    · decide
    · split
      · decide
      · assumption
  · show gaDeprel w.deprel ≠ _
    unfold gaDeprel
    split
    · decide
    · split
      · decide
      · assumption
  · intro hx
    exact if_pos hx
  · intro hx
    exact if_neg hx
  · intro hx
    rw [feats_abbr, if_pos hx]
  · intro hx
    rw [feats_foreign, if_pos hx]
  · intro he
    split
    · next hu => exact ⟨by rw [feats_pron, if_pos ⟨he, hu⟩], by rw [feats_form, if_pos he, if_pos hu]⟩
    · next hu => exact ⟨by rw [feats_pron, if_neg (fun g => hu g.2)], by rw [feats_form, if_pos he, if_neg hu]⟩
  · intro k hk
    exact feats_other _ _ _ _ hk
  · intro ht
    exact if_neg (fun g => ht ((has_iff _ _).1 g))

/-- The Irish block twice is the block once, and has as many words. -/
theorem C236_ga_twice (s : List Word) : gaRun 1 none (gaRun 1 none s) = gaRun 1 none s ∧ (gaRun 1 none s).length = s.length := by
  have len : ∀ (s : List Word) (i : Nat) (p : Option Word), (gaRun i p s).length = s.length := by
    intro s
    induction s with
    | nil => intro i p; rfl
    | cons w rest ih => intro i p; simp [gaRun, ih]
  have tw : ∀ (s : List Word) (i : Nat) (p : Option Word), gaRun i p (gaRun i p s) = gaRun i p s := by
    intro s
    induction s with
    | nil => intro i p; rfl
    | cons w rest ih =>
      intro i p
      simp only [gaRun, ga_twice, ih]
  exact ⟨tw s 1 none, len s 1 none⟩

/-- All notes of a word are lost with the note on `nmod`, whatever else they say. -/
theorem C236_ga_todo_violated (ag : Bool) (w : Word) (a b : Str) (h : w.todo = a ++ ['n', 'm', 'o', 'd'] ++ b) : (ga ag w).todo = [] :=
  if_pos ((has_iff _ _).2 ⟨a, b, h⟩)

/-- Hebrew negative copulas become `cop` without `VerbType`, other words stay; a second run changes nothing. -/
theorem C236_he (w : Word) :
    (w.deprel = ['n', 'e', 'g'] ∧ w.feats ['V', 'e', 'r', 'b', 'T', 'y', 'p', 'e'] = ['C', 'o', 'p'] → (he w).deprel = ['c', 'o', 'p'] ∧ (he w).upos = ['A', 'U', 'X'] ∧ (he w).feats ['V', 'e', 'r', 'b', 'T', 'y', 'p', 'e'] = [] ∧ (he w).form = w.form ∧ (he w).par = w.par ∧ (he w).lem = w.lem ∧ (w.todo = ['n', 'e', 'g'] → (he w).todo = []) ∧ ∀ k, k ≠ ['V', 'e', 'r', 'b', 'T', 'y', 'p', 'e'] → (he w).feats k = w.feats k) ∧
    (¬ (w.deprel = ['n', 'e', 'g'] ∧ w.feats ['V', 'e', 'r', 'b', 'T', 'y', 'p', 'e'] = ['C', 'o', 'p']) → he w = w) ∧ he (he w) = he w := by
  have stay : ∀ w, ¬ (w.deprel = ['n', 'e', 'g'] ∧ w.feats ['V', 'e', 'r', 'b', 'T', 'y', 'p', 'e'] = ['C', 'o', 'p']) → he w = w := by
    intro w h
    unfold he
    split
    · split
      · next a b => exact absurd ⟨a, b⟩ h
      · rfl
    · rfl
  have go : w.deprel = ['n', 'e', 'g'] ∧ w.feats ['V', 'e', 'r', 'b', 'T', 'y', 'p', 'e'] = ['C', 'o', 'p'] → he w = { w with upos := ['A', 'U', 'X'], deprel := ['c', 'o', 'p'], feats := set w.feats ['V', 'e', 'r', 'b', 'T', 'y', 'p', 'e'] [], todo := if w.todo = ['n', 'e', 'g'] then [] else w.todo } := by
    intro h
    simp only [he, h.1, h.2, if_true]
  refine ⟨?_, stay w, ?_⟩
  · intro h
    rw [go h]
    refine ⟨rfl, rfl, by simp [set], rfl, rfl, rfl, fun g => if_pos g, ?_⟩
    intro k hk
    exact if_neg hk
  · by_cases h : w.deprel = ['n', 'e', 'g'] ∧ w.feats ['V', 'e', 'r', 'b', 'T', 'y', 'p', 'e'] = ['C', 'o', 'p']
    · apply stay
      rw [go h]
      intro g
      exact absurd (show (['c', 'o', 'p'] : Str) = ['n', 'e', 'g'] from g.1) (by decide)
    · rw [stay w h, stay w h]

/-- The note on a solved `neg` stays if there is another one besides it. -/
theorem C236_he_todo_violated (w : Word) (b : Str) (h : w.deprel = ['n', 'e', 'g'] ∧ w.feats ['V', 'e', 'r', 'b', 'T', 'y', 'p', 'e'] = ['C', 'o', 'p']) (ht : w.todo = ['n', 'e', 'g', ','] ++ b) : (he w).todo = w.todo := by
  simp only [he, h.1, h.2, if_true]
  rw [if_neg]
  rw [ht]
  simp

/-- No Romanian word has the relation `neg` afterwards; only `ne` loses its features, other words stay, and a second run changes nothing. -/
theorem C236_ro (w : Word) :
    (ro w).deprel ≠ ['n', 'e', 'g'] ∧ (w.deprel = ['n', 'e', 'g'] → (ro w).deprel = ['a', 'd', 'v', 'm', 'o', 'd'] ∧ (ro w).upos = ['A', 'D', 'V'] ∧ (ro w).form = w.form ∧ (ro w).par = w.par) ∧
    (w.deprel = ['n', 'e', 'g'] → w.upos = ['P', 'R', 'O', 'N'] → w.form = ['n', 'e'] → ∀ k, (ro w).feats k = if k = ['P', 'o', 'l', 'a', 'r', 'i', 't', 'y'] then ['N', 'e', 'g'] else []) ∧ ((w.upos ≠ ['P', 'R', 'O', 'N'] ∨ w.form ≠ ['n', 'e']) → (ro w).feats = w.feats) ∧
    (w.deprel ≠ ['n', 'e', 'g'] → ro w = w) ∧ ro (ro w) = ro w := by
  have stay : ∀ w, w.deprel ≠ ['n', 'e', 'g'] → ro w = w := by
    intro w h
    unfold ro
    exact if_neg h
  have no : (ro w).deprel ≠ ['n', 'e', 'g'] := by
    unfold ro
    split
    · simp
    · assumption
  refine ⟨no, ?_, ?_, ?_, stay w, stay _ no⟩
  · intro h
    simp only [ro, h, if_true, and_self]
  · intro h hu hf k
    simp only [ro, h, hu, hf, and_self, if_true, set]
  · intro h
    unfold ro
    split
    · refine if_neg ?_
      rintro ⟨a, b⟩
      rcases h with h | h
      · exact h a
      · exact h b
    · rfl

/-! ## Examples -/

def exW (l u x d : Str) (p : Nat) (f : Feats) (t : Str) : Word := ⟨l, l, u, x, d, p, f, t⟩

def exS : List Word := [exW ['a', 'g'] ['A', 'D', 'P'] ['S', 'i', 'm', 'p'] ['c', 'a', 's', 'e'] 2 (fun _ => []) [], exW ['d', 'é', 'a', 'n', 'a', 'm', 'h'] ['N', 'O', 'U', 'N'] ['V', 'e', 'r', 'b', 'a', 'l'] ['r', 'o', 'o', 't'] 0 (set (set (fun _ => []) ['V', 'e', 'r', 'b', 'F', 'o', 'r', 'm'] ['I', 'n', 'f']) ['C', 'a', 's', 'e'] ['C', 'o', 'm']) ['n', 'm', 'o', 'd', ',', 'n', 'e', 'g']]

example : (gaRun 1 none exS).map (fun w => (w.feats ['V', 'e', 'r', 'b', 'F', 'o', 'r', 'm'], w.feats ['C', 'a', 's', 'e'], w.todo)) = [([], [], []), (['V', 'n', 'o', 'u', 'n'], ['N', 'o', 'm', 'A', 'c', 'c'], [])] := by decide
example : (he (exW ['א', 'י', 'נ', 'ם'] ['V', 'E', 'R', 'B'] [] ['n', 'e', 'g'] 2 (set (fun _ => []) ['V', 'e', 'r', 'b', 'T', 'y', 'p', 'e'] ['C', 'o', 'p']) ['n', 'e', 'g'])).todo = [] := by decide
example : (ro (exW ['n', 'e'] ['P', 'R', 'O', 'N'] [] ['n', 'e', 'g'] 2 (set (fun _ => []) ['C', 'a', 's', 'e'] ['A', 'c', 'c']) [])).feats ['C', 'a', 's', 'e'] = [] := by decide

end Verif.Text.GaTo2
