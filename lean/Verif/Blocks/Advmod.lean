import Verif.Blocks.Basic

/-!
# Property C134: ud.FixAdvmodByUpos (udapi/block/ud/fixadvmodbyupos.py)
-/

namespace Verif.Blocks.Advmod
open Verif.Py Verif.Tree Verif.Deprel Verif.Blocks

def rAdvmod : Str := ['a', 'd', 'v', 'm', 'o', 'd']
def rObl : Str := ['o', 'b', 'l']
def rAdvcl : Str := ['a', 'd', 'v', 'c', 'l']
def rAux : Str := ['a', 'u', 'x']
def rMark : Str := ['m', 'a', 'r', 'k']
def rCase : Str := ['c', 'a', 's', 'e']
def rCc : Str := ['c', 'c']
def rDiscourse : Str := ['d', 'i', 's', 'c', 'o', 'u', 'r', 's', 'e']
def rDep : Str := ['d', 'e', 'p']
def rExpl : Str := ['e', 'x', 'p', 'l']
def rCop : Str := ['c', 'o', 'p']
def rDet : Str := ['d', 'e', 't']
def rNsubj : Str := ['n', 's', 'u', 'b', 'j']
def rNmod : Str := ['n', 'm', 'o', 'd']
def rAmod : Str := ['a', 'm', 'o', 'd']
def rNummod : Str := ['n', 'u', 'm', 'm', 'o', 'd']
def rPunct : Str := ['p', 'u', 'n', 'c', 't']
def pNoun : Str := ['N', 'O', 'U', 'N']
def pPropn : Str := ['P', 'R', 'O', 'P', 'N']
def pPron : Str := ['P', 'R', 'O', 'N']
def pDet : Str := ['D', 'E', 'T']
def pNum : Str := ['N', 'U', 'M']
def pVerb : Str := ['V', 'E', 'R', 'B']
def pAux : Str := ['A', 'U', 'X']
def pAdp : Str := ['A', 'D', 'P']
def pSconj : Str := ['S', 'C', 'O', 'N', 'J']
def pCconj : Str := ['C', 'C', 'O', 'N', 'J']
def pIntj : Str := ['I', 'N', 'T', 'J']
def pAdj : Str := ['A', 'D', 'J']
def pAdv : Str := ['A', 'D', 'V']
def pX : Str := ['X']
def pPunct : Str := ['P', 'U', 'N', 'C', 'T']

/-- The new value of `deprel` for advmod, where `p` is `node.upos` and `q` is `node.parent.upos` (fixadvmodbyupos.py:14-31). -/
def ofAdvmod (p q : Option Str) : Str :=
  if p = some pNoun ∨ p = some pPropn ∨ p = some pPron ∨ p = some pDet ∨ p = some pNum then rObl
  else if p = some pVerb then rAdvcl
  else if p = some pAux then rAux
  else if p = some pAdp ∨ p = some pSconj then
    if q = some pVerb then rMark else rCase
  else if p = some pCconj then rCc
  else if p = some pIntj then rDiscourse
  else rDep

/-- fixadvmodbyupos.py:34-40; `none`: the relation is not changed. -/
def ofExpl (p : Option Str) : Option Str :=
  if p = some pAux then some rAux
  else if p = some pAdp then some rCase
  else if p = some pCconj then some rCc
  else none

/-- fixadvmodbyupos.py:47-51 -/
def ofMark (p : Option Str) : Option Str :=
  if p = some pPron ∨ p = some pDet then some rNsubj
  else if p = some pIntj then some rDiscourse
  else none

/-- fixadvmodbyupos.py:52-58 -/
def ofCc (p : Option Str) : Option Str :=
  if p = some pAux then some rAux
  else if p = some pDet then some rDet
  else if p = some pIntj then some rDiscourse
  else none

/-- fixadvmodbyupos.py:59-71 -/
def ofDet (p : Option Str) : Option Str :=
  if p = some pNoun then some rNmod
  else if p = some pAdj then some rAmod
  else if p = some pAdv then some rAdvmod
  else if p = some pAux then some rAux
  else if p = some pVerb then some rDep
  else if p = some pX then some rDep
  else none

/-- The new value of `deprel`, for the values of `node.udeprel`, `node.upos` and `node.parent.upos`; `none`: it is
not changed (fixadvmodbyupos.py:13-79). -/
def newRel (u p q : Option Str) : Option Str :=
  if u = some rAdvmod then some (ofAdvmod p q)
  else if u = some rExpl then ofExpl p
  else if u = some rAux ∨ u = some rCop then (if p ≠ some pAux then some rDep else none)
  else if u = some rCase then (if p = some pDet then some rDet else none)
  else if u = some rMark then ofMark p
  else if u = some rCc then ofCc p
  else if u = some rDet then ofDet p
  else if u = some rNummod then (if p = some pPron then some rNmod else if p = some pDet then some rDet else none)
  else if u = some rPunct then (if p ≠ some pPunct then some rDep else none)
  else none

/-- `process_node(node)`; `upos` of all nodes -/
def fixNode (h : Heap) (upos : Nat → Option Str) (d : Rels) (x : Nat) : Rels :=
  match newRel (getU (d x)) (upos x) ((h.parent x).bind upos) with
  | some e => upd d x (some e)
  | none => d

/-- The block on one tree. -/
def fixAdvmod (h : Heap) (upos : Nat → Option Str) (d : Rels) (r : Nat) : Rels := (h.words r).foldl (fixNode h upos) d

/-! ## What it should do -/

/-- The relation `u` is used with a part of speech it should not be used with. -/
def Bad (u p : Option Str) : Prop :=
  (u = some rAdvmod ∧ p ≠ some pAdv) ∨
  (u = some rExpl ∧ (p = some pAux ∨ p = some pAdp ∨ p = some pCconj)) ∨
  ((u = some rAux ∨ u = some rCop) ∧ p ≠ some pAux) ∨
  (u = some rCase ∧ p = some pDet) ∨
  (u = some rMark ∧ (p = some pPron ∨ p = some pDet ∨ p = some pIntj)) ∨
  (u = some rCc ∧ (p = some pAux ∨ p = some pDet ∨ p = some pIntj)) ∨
  (u = some rDet ∧ (p = some pNoun ∨ p = some pAdj ∨ p = some pAdv ∨ p = some pAux ∨ p = some pVerb ∨ p = some pX)) ∨
  (u = some rNummod ∧ (p = some pPron ∨ p = some pDet)) ∨
  (u = some rPunct ∧ p ≠ some pPunct)

/-! ## Proofs -/

theorem getU_rAdvmod : getU (some rAdvmod) = some rAdvmod := rfl
theorem getU_rObl : getU (some rObl) = some rObl := rfl
theorem getU_rAdvcl : getU (some rAdvcl) = some rAdvcl := rfl
theorem getU_rAux : getU (some rAux) = some rAux := rfl
theorem getU_rMark : getU (some rMark) = some rMark := rfl
theorem getU_rCase : getU (some rCase) = some rCase := rfl
theorem getU_rCc : getU (some rCc) = some rCc := rfl
theorem getU_rDiscourse : getU (some rDiscourse) = some rDiscourse := rfl
theorem getU_rDep : getU (some rDep) = some rDep := rfl
theorem getU_rExpl : getU (some rExpl) = some rExpl := rfl
theorem getU_rCop : getU (some rCop) = some rCop := rfl
theorem getU_rDet : getU (some rDet) = some rDet := rfl
theorem getU_rNsubj : getU (some rNsubj) = some rNsubj := rfl
theorem getU_rNmod : getU (some rNmod) = some rNmod := rfl
theorem getU_rAmod : getU (some rAmod) = some rAmod := rfl
theorem getU_rNummod : getU (some rNummod) = some rNummod := rfl
theorem getU_rPunct : getU (some rPunct) = some rPunct := rfl

set_option linter.unusedSimpArgs false

/-- The new relation is not used with a wrong part of speech, and it has no subtype. -/
def Fine (e : Str) (p : Option Str) : Prop := ¬ Bad (some e) p ∧ getU (some e) = some e

theorem fine_advmod (p q : Option Str) : Fine (ofAdvmod p q) p := by
  unfold ofAdvmod
  repeat' split
  all_goals refine ⟨?_, rfl⟩
  all_goals unfold Bad
  all_goals first
    | (simp_all [rAdvmod, rObl, rAdvcl, rAux, rMark, rCase, rCc, rDiscourse, rDep, rExpl, rCop, rDet, rNsubj, rNmod, rAmod, rNummod, rPunct, pNoun, pPropn, pPron, pDet, pNum, pVerb, pAux, pAdp, pSconj, pCconj, pIntj, pAdj, pAdv, pX, pPunct]; done)
    | (rename_i ha _; rcases ha with ha | ha <;> simp [ha, rAdvmod, rObl, rAdvcl, rAux, rMark, rCase, rCc, rDiscourse, rDep, rExpl, rCop, rDet, rNsubj, rNmod, rAmod, rNummod, rPunct, pNoun, pPropn, pPron, pDet, pNum, pVerb, pAux, pAdp, pSconj, pCconj, pIntj, pAdj, pAdv, pX, pPunct])

theorem fine_expl {p : Option Str} {e : Str} (h : ofExpl p = some e) : Fine e p := by
  unfold ofExpl at h
  repeat' split at h
  all_goals first
    | (cases h; done)
    | skip
  all_goals injection h with h; subst h
  all_goals refine ⟨?_, rfl⟩
  all_goals unfold Bad
  all_goals simp_all [rAdvmod, rObl, rAdvcl, rAux, rMark, rCase, rCc, rDiscourse, rDep, rExpl, rCop, rDet, rNsubj, rNmod, rAmod, rNummod, rPunct, pNoun, pPropn, pPron, pDet, pNum, pVerb, pAux, pAdp, pSconj, pCconj, pIntj, pAdj, pAdv, pX, pPunct]

theorem fine_mark {p : Option Str} {e : Str} (h : ofMark p = some e) : Fine e p := by
  unfold ofMark at h
  repeat' split at h
  all_goals first
    | (cases h; done)
    | skip
  all_goals injection h with h; subst h
  all_goals refine ⟨?_, rfl⟩
  all_goals unfold Bad
  all_goals simp_all [rAdvmod, rObl, rAdvcl, rAux, rMark, rCase, rCc, rDiscourse, rDep, rExpl, rCop, rDet, rNsubj, rNmod, rAmod, rNummod, rPunct, pNoun, pPropn, pPron, pDet, pNum, pVerb, pAux, pAdp, pSconj, pCconj, pIntj, pAdj, pAdv, pX, pPunct]

theorem fine_cc {p : Option Str} {e : Str} (h : ofCc p = some e) : Fine e p := by
  unfold ofCc at h
  repeat' split at h
  all_goals first
    | (cases h; done)
    | skip
  all_goals injection h with h; subst h
  all_goals refine ⟨?_, rfl⟩
  all_goals unfold Bad
  all_goals simp_all [rAdvmod, rObl, rAdvcl, rAux, rMark, rCase, rCc, rDiscourse, rDep, rExpl, rCop, rDet, rNsubj, rNmod, rAmod, rNummod, rPunct, pNoun, pPropn, pPron, pDet, pNum, pVerb, pAux, pAdp, pSconj, pCconj, pIntj, pAdj, pAdv, pX, pPunct]

theorem fine_det {p : Option Str} {e : Str} (h : ofDet p = some e) : Fine e p := by
  unfold ofDet at h
  repeat' split at h
  all_goals first
    | (cases h; done)
    | skip
  all_goals injection h with h; subst h
  all_goals refine ⟨?_, rfl⟩
  all_goals unfold Bad
  all_goals simp_all [rAdvmod, rObl, rAdvcl, rAux, rMark, rCase, rCc, rDiscourse, rDep, rExpl, rCop, rDet, rNsubj, rNmod, rAmod, rNummod, rPunct, pNoun, pPropn, pPron, pDet, pNum, pVerb, pAux, pAdp, pSconj, pCconj, pIntj, pAdj, pAdv, pX, pPunct]

theorem newRel_valid {u p q : Option Str} {e : Str} (h : newRel u p q = some e) : ¬ Bad (some e) p ∧ getU (some e) = some e := by
  unfold newRel at h
  by_cases h1 : u = some rAdvmod
  · rw [if_pos h1] at h
    injection h with h
    exact h ▸ fine_advmod p q
  rw [if_neg h1] at h
  by_cases h2 : u = some rExpl
  · rw [if_pos h2] at h
    exact fine_expl h
  rw [if_neg h2] at h
  by_cases h3 : u = some rAux ∨ u = some rCop
  · rw [if_pos h3] at h
    split at h
    · injection h with h
      subst h
      exact ⟨by simp [Bad, rAdvmod, rObl, rAdvcl, rAux, rMark, rCase, rCc, rDiscourse, rDep, rExpl, rCop, rDet, rNsubj, rNmod, rAmod, rNummod, rPunct, pNoun, pPropn, pPron, pDet, pNum, pVerb, pAux, pAdp, pSconj, pCconj, pIntj, pAdj, pAdv, pX, pPunct], rfl⟩
    · cases h
  rw [if_neg h3] at h
  by_cases h4 : u = some rCase
  · rw [if_pos h4] at h
    split at h
    · next hp =>
      injection h with h
      subst h hp
      exact ⟨by simp [Bad, rAdvmod, rObl, rAdvcl, rAux, rMark, rCase, rCc, rDiscourse, rDep, rExpl, rCop, rDet, rNsubj, rNmod, rAmod, rNummod, rPunct, pNoun, pPropn, pPron, pDet, pNum, pVerb, pAux, pAdp, pSconj, pCconj, pIntj, pAdj, pAdv, pX, pPunct], rfl⟩
    · cases h
  rw [if_neg h4] at h
  by_cases h5 : u = some rMark
  · rw [if_pos h5] at h
    exact fine_mark h
  rw [if_neg h5] at h
  by_cases h6 : u = some rCc
  · rw [if_pos h6] at h
    exact fine_cc h
  rw [if_neg h6] at h
  by_cases h7 : u = some rDet
  · rw [if_pos h7] at h
    exact fine_det h
  rw [if_neg h7] at h
  by_cases h8 : u = some rNummod
  · rw [if_pos h8] at h
    repeat' split at h
    · injection h with h
      subst h
      exact ⟨by simp [Bad, rAdvmod, rObl, rAdvcl, rAux, rMark, rCase, rCc, rDiscourse, rDep, rExpl, rCop, rDet, rNsubj, rNmod, rAmod, rNummod, rPunct, pNoun, pPropn, pPron, pDet, pNum, pVerb, pAux, pAdp, pSconj, pCconj, pIntj, pAdj, pAdv, pX, pPunct], rfl⟩
    · next hp =>
      injection h with h
      subst h hp
      exact ⟨by simp [Bad, rAdvmod, rObl, rAdvcl, rAux, rMark, rCase, rCc, rDiscourse, rDep, rExpl, rCop, rDet, rNsubj, rNmod, rAmod, rNummod, rPunct, pNoun, pPropn, pPron, pDet, pNum, pVerb, pAux, pAdp, pSconj, pCconj, pIntj, pAdj, pAdv, pX, pPunct], rfl⟩
    · cases h
  rw [if_neg h8] at h
  by_cases h9 : u = some rPunct
  · rw [if_pos h9] at h
    split at h
    · injection h with h
      subst h
      exact ⟨by simp [Bad, rAdvmod, rObl, rAdvcl, rAux, rMark, rCase, rCc, rDiscourse, rDep, rExpl, rCop, rDet, rNsubj, rNmod, rAmod, rNummod, rPunct, pNoun, pPropn, pPron, pDet, pNum, pVerb, pAux, pAdp, pSconj, pCconj, pIntj, pAdj, pAdv, pX, pPunct], rfl⟩
    · cases h
  · rw [if_neg h9] at h
    cases h

theorem newRel_of (u p q : Option Str) : newRel u p q = none ↔ (u ≠ some rAdvmod ∧ ¬ Bad u p) := by
  by_cases h1 : u = some rAdvmod
  · subst h1
    simp [newRel]
  by_cases h2 : u = some rExpl
  · subst h2
    simp only [newRel, Bad, ofExpl]
    simp [rAdvmod, rObl, rAdvcl, rAux, rMark, rCase, rCc, rDiscourse, rDep, rExpl, rCop, rDet, rNsubj, rNmod, rAmod, rNummod, rPunct]
    grind
  by_cases h3 : u = some rAux
  · subst h3
    simp only [newRel, Bad]
    simp [rAdvmod, rObl, rAdvcl, rAux, rMark, rCase, rCc, rDiscourse, rDep, rExpl, rCop, rDet, rNsubj, rNmod, rAmod, rNummod, rPunct]
  by_cases h3' : u = some rCop
  · subst h3'
    simp only [newRel, Bad]
    simp [rAdvmod, rObl, rAdvcl, rAux, rMark, rCase, rCc, rDiscourse, rDep, rExpl, rCop, rDet, rNsubj, rNmod, rAmod, rNummod, rPunct]
  by_cases h4 : u = some rCase
  · subst h4
    simp only [newRel, Bad]
    simp [rAdvmod, rObl, rAdvcl, rAux, rMark, rCase, rCc, rDiscourse, rDep, rExpl, rCop, rDet, rNsubj, rNmod, rAmod, rNummod, rPunct]
  by_cases h5 : u = some rMark
  · subst h5
    simp only [newRel, Bad, ofMark]
    simp [rAdvmod, rObl, rAdvcl, rAux, rMark, rCase, rCc, rDiscourse, rDep, rExpl, rCop, rDet, rNsubj, rNmod, rAmod, rNummod, rPunct]
    grind
  by_cases h6 : u = some rCc
  · subst h6
    simp only [newRel, Bad, ofCc]
    simp [rAdvmod, rObl, rAdvcl, rAux, rMark, rCase, rCc, rDiscourse, rDep, rExpl, rCop, rDet, rNsubj, rNmod, rAmod, rNummod, rPunct]
    grind
  by_cases h7 : u = some rDet
  · subst h7
    simp only [newRel, Bad, ofDet]
    simp [rAdvmod, rObl, rAdvcl, rAux, rMark, rCase, rCc, rDiscourse, rDep, rExpl, rCop, rDet, rNsubj, rNmod, rAmod, rNummod, rPunct]
    grind
  by_cases h8 : u = some rNummod
  · subst h8
    simp only [newRel, Bad]
    simp [rAdvmod, rObl, rAdvcl, rAux, rMark, rCase, rCc, rDiscourse, rDep, rExpl, rCop, rDet, rNsubj, rNmod, rAmod, rNummod, rPunct]
    grind
  by_cases h9 : u = some rPunct
  · subst h9
    simp only [newRel, Bad]
    simp [rAdvmod, rObl, rAdvcl, rAux, rMark, rCase, rCc, rDiscourse, rDep, rExpl, rCop, rDet, rNsubj, rNmod, rAmod, rNummod, rPunct]
  · simp [newRel, Bad, h1, h2, h3, h3', h4, h5, h6, h7, h8, h9]

/-- A relation used with a wrong part of speech is changed. -/
theorem newRel_none {u p q : Option Str} (h : newRel u p q = none) : ¬ Bad u p := ((newRel_of u p q).1 h).2

theorem newRel_keep {u p q : Option Str} (h : ¬ Bad u p) (hu : u ≠ some rAdvmod) : newRel u p q = none :=
  (newRel_of u p q).2 ⟨hu, h⟩

/-- The loop changes each word by itself. -/
theorem fixAdvmod_eq {h : Heap} {r : Nat} (w : WF h r) (upos : Nat → Option Str) (d : Rels) (x : Nat) :
    fixAdvmod h upos d r x = if x ∈ h.words r then (newRel (getU (d x)) (upos x) ((h.parent x).bind upos)).or (d x) else d x := by
  unfold fixAdvmod
  have key : ∀ (l : List Nat) (d : Rels), l.Nodup → l.foldl (fixNode h upos) d x =
      if x ∈ l then (newRel (getU (d x)) (upos x) ((h.parent x).bind upos)).or (d x) else d x := by
    intro l
    induction l with
    | nil => intro d _; rfl
    | cons a l ih =>
      intro d hn
      rw [List.nodup_cons] at hn
      rw [List.foldl_cons, ih _ hn.2]
      have hne : ∀ y, y ≠ a → fixNode h upos d a y = d y := by
        intro y hy
        unfold fixNode
        cases newRel (getU (d a)) (upos a) ((h.parent a).bind upos) with
        | some e => exact upd_ne _ _ hy
        | none => rfl
      by_cases hxa : x = a
      · subst hxa
        rw [if_neg hn.1, if_pos (List.mem_cons_self ..)]
        unfold fixNode
        cases newRel (getU (d x)) (upos x) ((h.parent x).bind upos) with
        | some e => exact upd_same ..
        | none => rfl
      · rw [hne x hxa]
        simp [hxa]
  exact key _ d w.nodup

section Props
variable {h : Heap} {r : Nat}

/-- After the block no word has a relation that should not be used with its part of speech. -/
theorem C134_valid (w : WF h r) (upos : Nat → Option Str) (d : Rels) : ∀ x ∈ h.words r, ¬ Bad (getU (fixAdvmod h upos d r x)) (upos x) := by
  intro x hx
  rw [fixAdvmod_eq w, if_pos hx]
  cases hn : newRel (getU (d x)) (upos x) ((h.parent x).bind upos) with
  | none => exact newRel_none hn
  | some e =>
    obtain ⟨h1, h2⟩ := newRel_valid hn
    show ¬ Bad (getU (some e)) (upos x)
    rw [h2]
    exact h1

/-- What a wrong advmod becomes: nominals become obl, verbs advcl, prepositions and subordinators mark below a verb and case elsewhere,
coordinators cc, auxiliaries aux, interjections discourse. -/
theorem C134_repair (w : WF h r) (upos : Nat → Option Str) (d : Rels) {x : Nat} (hx : x ∈ h.words r) (hu : getU (d x) = some rAdvmod) :
    (∀ p ∈ [pNoun, pPropn, pPron, pDet, pNum], upos x = some p → fixAdvmod h upos d r x = some rObl) ∧
    (upos x = some pVerb → fixAdvmod h upos d r x = some rAdvcl) ∧
    (upos x = some pAux → fixAdvmod h upos d r x = some rAux) ∧
    (∀ p ∈ [pAdp, pSconj], upos x = some p → ∀ q, h.parent x = some q → upos q = some pVerb → fixAdvmod h upos d r x = some rMark) ∧
    (∀ p ∈ [pAdp, pSconj], upos x = some p → ∀ q, h.parent x = some q → upos q ≠ some pVerb → fixAdvmod h upos d r x = some rCase) ∧
    (upos x = some pCconj → fixAdvmod h upos d r x = some rCc) ∧
    (upos x = some pIntj → fixAdvmod h upos d r x = some rDiscourse) := by
  rw [fixAdvmod_eq w, if_pos hx, hu]
  have hn : ∀ p q, newRel (some rAdvmod) p q = some (ofAdvmod p q) := fun p q => if_pos rfl
  rw [hn]
  refine ⟨?_, ?_, ?_, ?_, ?_, ?_, ?_⟩
  · intro p hp e
    rw [e]
    simp only [List.mem_cons, List.not_mem_nil, or_false] at hp
    rcases hp with rfl | rfl | rfl | rfl | rfl <;> rfl
  · intro e; rw [e]; rfl
  · intro e; rw [e]; rfl
  · intro p hp e q hq hv
    rw [e, hq]
    simp only [List.mem_cons, List.not_mem_nil, or_false] at hp
    rcases hp with rfl | rfl <;> simp [hv, ofAdvmod, pNoun, pPropn, pPron, pDet, pNum, pVerb, pAux, pAdp, pSconj]
  · intro p hp e q hq hv
    rw [e, hq]
    simp only [List.mem_cons, List.not_mem_nil, or_false] at hp
    rcases hp with rfl | rfl
    · show some (if upos q = some pVerb then rMark else rCase) = _
      rw [if_neg hv]
    · show some (if upos q = some pVerb then rMark else rCase) = _
      rw [if_neg hv]
  · intro e; rw [e]; rfl
  · intro e; rw [e]; rfl

/-- All other relations, except advmod, stay, and so do those of other trees. -/
theorem C134_frame_partial (w : WF h r) (upos : Nat → Option Str) (d : Rels) (x : Nat) :
    (x ∉ h.words r → fixAdvmod h upos d r x = d x) ∧
    (¬ Bad (getU (d x)) (upos x) → getU (d x) ≠ some rAdvmod → fixAdvmod h upos d r x = d x) := by
  rw [fixAdvmod_eq w]
  constructor
  · intro hx
    rw [if_neg hx]
  · intro hb hu
    rw [newRel_keep hb hu]
    simp

/-- Contrary to the documentation (advmod is changed if the part of speech is not ADV), every adverb with advmod (or a subtype of it) gets
the relation dep. -/
theorem C134_adv_violated (w : WF h r) (upos : Nat → Option Str) (d : Rels) {x : Nat} (hx : x ∈ h.words r) (hp : upos x = some pAdv)
    (hu : getU (d x) = some rAdvmod) : fixAdvmod h upos d r x = some rDep := by
  rw [fixAdvmod_eq w, if_pos hx, hp, hu]
  rfl

/-- A second run changes the result: an adverb with det gets advmod in the first run and dep in the second one. -/
theorem C134_again_violated (w : WF h r) (upos : Nat → Option Str) (d : Rels) {x : Nat} (hx : x ∈ h.words r) (hp : upos x = some pAdv)
    (hu : getU (d x) = some rDet) :
    fixAdvmod h upos d r x = some rAdvmod ∧ fixAdvmod h upos (fixAdvmod h upos d r) r x = some rDep := by
  have h1 : fixAdvmod h upos d r x = some rAdvmod := by
    rw [fixAdvmod_eq w, if_pos hx, hp, hu]
    rfl
  exact ⟨h1, C134_adv_violated w upos _ hx hp (by rw [h1]; rfl)⟩

end Props

/-- Two words: an adverb and a preposition below it. -/
example :
    let h : Heap := { parent := fun x => if x = 1 then some 0 else if x = 2 then some 1 else none
                      children := fun x => if x = 0 then [1] else if x = 1 then [2] else []
                      ord := id, root := fun _ => 0, words := fun x => if x = 0 then [1, 2] else [], next := 3 }
    let upos : Nat → Option Str := fun x => if x = 1 then some pAdv else some pAdp
    fixAdvmod h upos (fun _ => some rAdvmod) 0 1 = some rDep ∧ fixAdvmod h upos (fun _ => some rAdvmod) 0 2 = some rCase ∧
      fixAdvmod h upos (fun _ => some rDet) 0 1 = some rAdvmod ∧ fixAdvmod h upos (fun _ => some rDet) 0 2 = some rDet := by decide

end Verif.Blocks.Advmod
