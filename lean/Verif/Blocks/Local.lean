import Verif.Blocks.Basic
import Verif.Tree.Props
import Verif.Deprel.Props

/-!
# Property C149: the node-local edits of ud.Convert1to2 (udapi/block/ud/convert1to2.py)

`skip` is empty. The `ToDo` marks in MISC are left out. An absent feature has the value `[]`.
-/

namespace Verif.Blocks.Local
open Verif.Py Verif.Tree Verif.Deprel Verif.Blocks

/-- The annotation of a word. -/
structure Word where
  upos : Option Str
  rel : Option Str
  feats : Str → Str

def sCONJ : Str := ['C', 'O', 'N', 'J']
def sCCONJ : Str := ['C', 'C', 'O', 'N', 'J']
def sAUX : Str := ['A', 'U', 'X']
def sPRON : Str := ['P', 'R', 'O', 'N']
def sADV : Str := ['A', 'D', 'V']
def sPART : Str := ['P', 'A', 'R', 'T']
def sDET : Str := ['D', 'E', 'T']
def sINTJ : Str := ['I', 'N', 'T', 'J']
def sVERB : Str := ['V', 'E', 'R', 'B']
def sADJ : Str := ['A', 'D', 'J']
def sNOUN : Str := ['N', 'O', 'U', 'N']
def sPROPN : Str := ['P', 'R', 'O', 'P', 'N']
def sNUM : Str := ['N', 'U', 'M']
def rCop : Str := ['c', 'o', 'p']
def rNeg : Str := ['n', 'e', 'g']
def rNmod : Str := ['n', 'm', 'o', 'd']
def rObl : Str := ['o', 'b', 'l']
def rDet : Str := ['d', 'e', 't']
def rAdvmod : Str := ['a', 'd', 'v', 'm', 'o', 'd']
def rForeign : Str := ['f', 'o', 'r', 'e', 'i', 'g', 'n']
def tTmod : Str := ['t', 'm', 'o', 'd']
def tSubj : Str := ['s', 'u', 'b', 'j']
def fForeign : Str := ['F', 'o', 'r', 'e', 'i', 'g', 'n']
def fPolarity : Str := ['P', 'o', 'l', 'a', 'r', 'i', 't', 'y']
def fPronType : Str := ['P', 'r', 'o', 'n', 'T', 'y', 'p', 'e']
def fNegative : Str := ['N', 'e', 'g', 'a', 't', 'i', 'v', 'e']
def fAspect : Str := ['A', 's', 'p', 'e', 'c', 't']
def fVerbForm : Str := ['V', 'e', 'r', 'b', 'F', 'o', 'r', 'm']
def fDefinite : Str := ['D', 'e', 'f', 'i', 'n', 'i', 't', 'e']
def vYes : Str := ['Y', 'e', 's']
def vNeg : Str := ['N', 'e', 'g']
def vPro : Str := ['P', 'r', 'o']
def vProsp : Str := ['P', 'r', 'o', 's', 'p']
def vTrans : Str := ['T', 'r', 'a', 'n', 's']
def vConv : Str := ['C', 'o', 'n', 'v']
def vRed : Str := ['R', 'e', 'd']
def vCons : Str := ['C', 'o', 'n', 's']

/-- `a in b` for strings -/
def hasSub (a : Str) : Str → Bool
  | [] => a.isPrefixOf []
  | c :: b => a.isPrefixOf (c :: b) || hasSub a b

/-- `node.feats[k] = v` -/
def setFeat (w : Word) (k v : Str) : Word := { w with feats := fun x => if x = k then v else w.feats x }

/-- `DEPREL_CHANGE` (convert1to2.py:19-27) -/
def change : List (Str × Str) :=
  [(['m', 'w', 'e'], ['f', 'i', 'x', 'e', 'd']), (['d', 'o', 'b', 'j'], ['o', 'b', 'j']),
    (['n', 's', 'u', 'b', 'j', 'p', 'a', 's', 's'], ['n', 's', 'u', 'b', 'j', ':', 'p', 'a', 's', 's']),
    (['c', 's', 'u', 'b', 'j', 'p', 'a', 's', 's'], ['c', 's', 'u', 'b', 'j', ':', 'p', 'a', 's', 's']),
    (['a', 'u', 'x', 'p', 'a', 's', 's'], ['a', 'u', 'x', ':', 'p', 'a', 's', 's']), (['n', 'a', 'm', 'e'], ['f', 'l', 'a', 't', ':', 'n', 'a', 'm', 'e']),
    (rForeign, ['f', 'l', 'a', 't'])]

/-- `change_upos(node)` (convert1to2.py:106-110) -/
def changeUpos (w : Word) : Word := if w.upos = some sCONJ then { w with upos := some sCCONJ } else w

/-- `change_upos_copula(node)` (convert1to2.py:112-116) -/
def changeCop (w : Word) : Word :=
  if w.rel = some rCop ∧ ¬ (w.upos = some sAUX ∨ w.upos = some sPRON) then { w with upos := some sAUX } else w

/-- `change_deprel_simple(node)` (convert1to2.py:118-132) -/
def changeSimple (w : Word) : Word :=
  let w1 := if getU w.rel = some rForeign then setFeat w fForeign vYes else w
  match (getU w.rel).bind (fun u => change.lookup u) with
  | none => w1
  | some new =>
    match getS w.rel with
    | some (c :: s) => if ':' ∈ new then { w1 with rel := some new } else { w1 with rel := some (new ++ [':'] ++ c :: s) }
    | _ => { w1 with rel := some new }

/-- `is_verbal(node)` (convert1to2.py:160-165) -/
def isVerbal (h : Heap) (s : Nat → Word) (p : Nat) : Bool :=
  (s p).upos = some sVERB || (h.children p).any (fun c => (s c).rel = some rCop)

/-- `change_neg(node)` (convert1to2.py:134-158) -/
def changeNeg (h : Heap) (s : Nat → Word) (n : Nat) : Word :=
  let w := s n
  if w.rel = some rNeg then
    let w := if hasSub vNeg (w.feats fPronType) then w else setFeat w fPolarity vNeg
    if w.upos = some sADV ∨ w.upos = some sPART ∨ w.upos = some sAUX then { w with rel := some rAdvmod }
    else if w.upos = some sDET then { w with rel := some rDet }
    else if w.upos = some sINTJ then
      let w := { w with rel := some rAdvmod }
      match h.parent n with
      | none => w
      | some p => if isVerbal h (upd s n w) p then { w with upos := some sPART } else w
    else w
  else w

/-- `any("subj" in child.deprel or child.deprel == 'cop' for child in node.children)`; `none`: `TypeError` -/
def hasCop : List (Option Str) → Option Bool
  | [] => some false
  | none :: _ => none
  | some x :: l => if hasSub tSubj x = true ∨ x = rCop then some true else hasCop l

inductive Nominal | no | yes | maybe
  deriving DecidableEq

/-- `is_nominal(node)` (convert1to2.py:167-184); `none`: `TypeError` -/
def isNominal (h : Heap) (s : Nat → Word) (p : Nat) : Option Nominal :=
  let u := (s p).upos
  if u = some sVERB ∨ u = some sAUX ∨ u = some sADV then some .no
  else
    match hasCop ((h.children p).map (fun c => (s c).rel)) with
    | none => none
    | some b =>
      if u = some sADJ then some (if b then .no else .maybe)
      else if u = some sNOUN ∨ u = some sPRON ∨ u = some sPROPN ∨ u = some sNUM ∨ u = some sDET then some (if b then .maybe else .yes)
      else some .maybe

/-- `change_nmod(node)` (convert1to2.py:186-197) -/
def changeNmod (h : Heap) (s : Nat → Word) (n : Nat) : Except Err Word :=
  let w := s n
  if getU w.rel = some rNmod then
    match h.parent n with
    | none => .error .attributeError
    | some p =>
      match isNominal h s p with
      | none => .error .typeError
      | some k =>
        if k = .no then .ok { w with rel := setU rObl w.rel }
        else if w.rel = some (rNmod ++ [':'] ++ tTmod) then .ok { w with rel := some (rObl ++ [':'] ++ tTmod) }
        else .ok w
  else .ok w

/-- `change_feats(node)` (convert1to2.py:199-219) -/
def changeFeats (w : Word) : Word :=
  let w := if w.feats fNegative ≠ [] then setFeat (setFeat w fPolarity (w.feats fNegative)) fNegative [] else w
  let w := if w.feats fAspect = vPro then setFeat w fAspect vProsp else w
  let w := if w.feats fVerbForm = vTrans then setFeat w fVerbForm vConv else w
  let w := if w.feats fDefinite = vRed then setFeat w fDefinite vCons else w
  if w.feats fForeign = fForeign then setFeat w fForeign vYes else w

/-- The edits of one word (convert1to2.py:59-70) -/
def step (h : Heap) (s : Nat → Word) (n : Nat) : (Nat → Word) × Option Err :=
  let s := upd s n (changeSimple (changeCop (changeUpos (s n))))
  let s := upd s n (changeNeg h s n)
  match changeNmod h s n with
  | .error e => (s, some e)
  | .ok w => (upd s n (changeFeats w), none)

/-- The loop over the words (convert1to2.py:58-70) -/
def localEdits (h : Heap) (r : Nat) (s : Nat → Word) : (Nat → Word) × Option Err := forNodes (step h) s (h.words r)

/-! ## Specification vocabulary -/

/-- The relation `u`, with the subtype `t` if there is one. -/
def withSub (u t : Str) : Str := if t = [] then u else u ++ [':'] ++ t

/-- The relations of UD 1 with their subtypes, and what becomes of them. -/
inductive Renamed : Str → Str → Str → Prop
  | mwe (t : Str) : Renamed ['m', 'w', 'e'] t (withSub ['f', 'i', 'x', 'e', 'd'] t)
  | dobj (t : Str) : Renamed ['d', 'o', 'b', 'j'] t (withSub ['o', 'b', 'j'] t)
  | foreign (t : Str) : Renamed rForeign t (withSub ['f', 'l', 'a', 't'] t)
  | nsubjpass (t : Str) : Renamed ['n', 's', 'u', 'b', 'j', 'p', 'a', 's', 's'] t ['n', 's', 'u', 'b', 'j', ':', 'p', 'a', 's', 's']
  | csubjpass (t : Str) : Renamed ['c', 's', 'u', 'b', 'j', 'p', 'a', 's', 's'] t ['c', 's', 'u', 'b', 'j', ':', 'p', 'a', 's', 's']
  | auxpass (t : Str) : Renamed ['a', 'u', 'x', 'p', 'a', 's', 's'] t ['a', 'u', 'x', ':', 'p', 'a', 's', 's']
  | name (t : Str) : Renamed ['n', 'a', 'm', 'e'] t ['f', 'l', 'a', 't', ':', 'n', 'a', 'm', 'e']

/-- What the edits of the word `n` see of the word `x`: its new annotation if it precedes `n`, else the old one. -/
def seen (h : Heap) (r : Nat) (s s' : Nat → Word) (n x : Nat) : Word := if x ∈ h.words r ∧ h.ord x < h.ord n then s' x else s x

/-- `p` is a predicate: a verb, auxiliary or adverb, or an adjective with a subject or copula. -/
def Pred (h : Heap) (r : Nat) (s : Nat → Word) (p : Nat) : Prop :=
  (s p).upos = some sVERB ∨ (s p).upos = some sAUX ∨ (s p).upos = some sADV ∨
    (s p).upos = some sADJ ∧ ∃ c ∈ h.words r, h.parent c = some p ∧ ∃ x, (s c).rel = some x ∧ (x = rCop ∨ tSubj <:+: x)

/-- `p` is a verb or has a copula. -/
def Verbal (h : Heap) (r : Nat) (s : Nat → Word) (p : Nat) : Prop :=
  (s p).upos = some sVERB ∨ ∃ c ∈ h.words r, h.parent c = some p ∧ (s c).rel = some rCop

/-- The new relation `y` of a word with the relation `x` below `p`; `s` is what the edits of the word see. -/
def NewRel (h : Heap) (r : Nat) (s : Nat → Word) (u : Option Str) (p : Nat) (x : Str) (y : Str) : Prop :=
  (∀ v t, Parts x v t → (∀ z, Renamed v t z → y = z) ∧
    (v = rNmod → (Pred h r s p → y = withSub rObl t) ∧ (¬ Pred h r s p → y = if x = rNmod ++ [':'] ++ tTmod then rObl ++ [':'] ++ tTmod else x)) ∧
    ((∀ z, ¬ Renamed v t z) → v ≠ rNmod → x ≠ rNeg → y = x)) ∧
  (x = rNeg → (u = some sADV ∨ u = some sPART ∨ u = some sAUX ∨ u = some sINTJ → y = rAdvmod) ∧ (u = some sDET → y = rDet) ∧
    (u ≠ some sADV → u ≠ some sPART → u ≠ some sAUX → u ≠ some sINTJ → u ≠ some sDET → y = rNeg))

/-- The new part of speech of a word with the old one `u` and the relation `x`. -/
def NewUpos (h : Heap) (r : Nat) (s : Nat → Word) (p : Nat) (x : Str) (u u' : Option Str) : Prop :=
  (x = rCop → u ≠ some sAUX → u ≠ some sPRON → u' = some sAUX) ∧
  (x ≠ rCop → u = some sCONJ → u' = some sCCONJ) ∧
  (x = rNeg → u = some sINTJ → Verbal h r s p → u' = some sPART) ∧
  ((x = rCop → u = some sAUX ∨ u = some sPRON) → u ≠ some sCONJ → ¬ (x = rNeg ∧ u = some sINTJ ∧ Verbal h r s p) → u' = u)

/-- The new features `g` of a word with the relation `x` and the features `f`. -/
def NewFeats (x : Str) (f g : Str → Str) : Prop :=
  (g fForeign = if getU (some x) = some rForeign ∨ f fForeign = fForeign then vYes else f fForeign) ∧
  (g fAspect = if f fAspect = vPro then vProsp else f fAspect) ∧
  (g fVerbForm = if f fVerbForm = vTrans then vConv else f fVerbForm) ∧
  (g fDefinite = if f fDefinite = vRed then vCons else f fDefinite) ∧
  g fNegative = [] ∧
  (f fNegative ≠ [] → g fPolarity = f fNegative) ∧
  (f fNegative = [] → x = rNeg → ¬ vNeg <:+: f fPronType → g fPolarity = vNeg) ∧
  (f fNegative = [] → ¬ (x = rNeg ∧ ¬ vNeg <:+: f fPronType) → g fPolarity = f fPolarity) ∧
  ∀ k, k ∉ [fForeign, fAspect, fVerbForm, fDefinite, fNegative, fPolarity] → g k = f k

/-! ## Proofs -/

theorem hasSub_iff {a b : Str} : hasSub a b = true ↔ a <:+: b := by
  induction b with
  | nil => simp [hasSub]
  | cons c b ih =>
    simp only [hasSub, Bool.or_eq_true, ih, List.isPrefixOf_iff_prefix]
    rw [List.infix_cons_iff]

theorem hasCop_some : ∀ (l : List (Option Str)), (∀ x ∈ l, x ≠ none) →
    ∃ b, hasCop l = some b ∧ (b = true ↔ ∃ x, some x ∈ l ∧ (x = rCop ∨ tSubj <:+: x))
  | [], _ => ⟨false, rfl, by simp⟩
  | none :: l, h => absurd rfl (h none (by simp))
  | some x :: l, h => by
    simp only [hasCop, hasSub_iff]
    split
    · rename_i hx
      exact ⟨true, rfl, by simp; exact .inl hx.symm⟩
    · rename_i hx
      obtain ⟨b, e, hb⟩ := hasCop_some l (fun y hy => h y (List.mem_cons_of_mem _ hy))
      refine ⟨b, e, hb.trans ?_⟩
      constructor
      · rintro ⟨y, hy, k⟩
        exact ⟨y, List.mem_cons_of_mem _ hy, k⟩
      · rintro ⟨y, hy, k⟩
        rcases List.mem_cons.1 hy with e | hy
        · obtain rfl := Option.some.inj e
          exact absurd k.symm hx
        · exact ⟨y, hy, k⟩

section Lemmas
variable {h : Heap} {r : Nat} {s s' : Nat → Word}

theorem nominal (w : WF h r) {p : Nat} (hp : InTree h r p) (hs : ∀ c ∈ h.words r, (s c).rel ≠ none) :
    ∃ k, isNominal h s p = some k ∧ (k = .no ↔ Pred h r s p) := by
  unfold isNominal Pred
  simp only
  split
  · rename_i k
    refine ⟨_, rfl, by simp; rcases k with k | k | k <;> simp [k]⟩
  · rename_i k
    obtain ⟨b, e, hb⟩ := hasCop_some ((h.children p).map (fun c => (s c).rel)) (by
      intro x hx
      obtain ⟨c, hc, rfl⟩ := List.mem_map.1 hx
      exact hs c ((w.childIff p hp c).1 hc).1)
    rw [e]
    have hb' : b = true ↔ ∃ c ∈ h.words r, h.parent c = some p ∧ ∃ x, (s c).rel = some x ∧ (x = rCop ∨ tSubj <:+: x) := by
      rw [hb]
      constructor
      · rintro ⟨x, hx, k⟩
        obtain ⟨c, hc, hcx⟩ := List.mem_map.1 hx
        exact ⟨c, ((w.childIff p hp c).1 hc).1, ((w.childIff p hp c).1 hc).2, x, hcx, k⟩
      · rintro ⟨c, h1, h2, x, h3, k⟩
        exact ⟨x, List.mem_map.2 ⟨c, (w.childIff p hp c).2 ⟨h1, h2⟩, h3⟩, k⟩
    rw [← hb']
    have hA : ¬ sADJ = sNOUN := by decide
    simp only [not_or] at k
    simp only
    split
    · rename_i ka
      refine ⟨_, rfl, ?_⟩
      cases b <;> simp [ka] <;> decide
    · rename_i ka
      split
      · refine ⟨_, rfl, ?_⟩
        cases b <;> simp [ka, k]
      · refine ⟨_, rfl, ?_⟩
        simp [ka, k]

theorem verbal (w : WF h r) {p : Nat} (hp : InTree h r p) : isVerbal h s p = true ↔ Verbal h r s p := by
  unfold isVerbal Verbal
  simp only [Bool.or_eq_true, decide_eq_true_eq, List.any_eq_true]
  constructor
  · rintro (k | ⟨c, hc, k⟩)
    · exact .inl k
    · exact .inr ⟨c, ((w.childIff p hp c).1 hc).1, ((w.childIff p hp c).1 hc).2, k⟩
  · rintro (k | ⟨c, h1, h2, k⟩)
    · exact .inl k
    · exact .inr ⟨c, (w.childIff p hp c).2 ⟨h1, h2⟩, k⟩

theorem parts_exists (x : Str) : ∃ v t, Parts x v t := ⟨_, _, parts_iff.2 ⟨rfl, rfl⟩⟩

theorem parts_unique {x v t v' t' : Str} (h1 : Parts x v t) (h2 : Parts x v' t') : v' = v ∧ t' = t := by
  obtain ⟨a, b⟩ := parts_iff.1 h1
  obtain ⟨a', b'⟩ := parts_iff.1 h2
  exact ⟨a'.symm.trans a, b'.symm.trans b⟩

theorem lookup_cases {v z : Str} (hl : change.lookup v = some z) (t : Str) :
    (':' ∈ z ∧ Renamed v t z ∧ ∀ z', Renamed v t z' → z' = z) ∨ (':' ∉ z ∧ Renamed v t (withSub z t) ∧ ∀ z', Renamed v t z' → z' = withSub z t) := by
  unfold change at hl
  simp only [List.lookup] at hl
  repeat' split at hl
  all_goals first
    | (rename_i k
       have hx := eq_of_beq k
       obtain rfl := Option.some.inj hl
       subst hx
       first
         | exact .inl ⟨by decide, by constructor, fun z' hz => by cases hz; rfl⟩
         | exact .inr ⟨by decide, by constructor, fun z' hz => by cases hz; rfl⟩)
    | cases hl

theorem lookup_none {v : Str} (hl : change.lookup v = none) (t z : Str) : ¬ Renamed v t z := by
  intro k
  cases k <;> revert hl <;> decide

theorem simple_ok {w : Word} {x : Str} (hx : w.rel = some x) :
    ∃ y, (changeSimple w).rel = some y ∧ (changeSimple w).upos = w.upos ∧
      (changeSimple w).feats = (if getU (some x) = some rForeign then setFeat w fForeign vYes else w).feats ∧
      ∀ v t, Parts x v t → (∀ z, Renamed v t z → y = z) ∧ ((∀ z, ¬ Renamed v t z) → y = x) := by
  obtain ⟨v, t, hvt⟩ := parts_exists x
  obtain ⟨hu, ht⟩ := (C06_get x v t).1 hvt
  have huniq : ∀ (P : Str → Str → Prop), P v t → ∀ v' t', Parts x v' t' → P v' t' := by
    intro P hP v' t' h'
    obtain ⟨rfl, rfl⟩ := parts_unique hvt h'
    exact hP
  unfold changeSimple
  simp only [hx, hu, ht, Option.bind_some]
  generalize hw1 : (if some v = some rForeign then setFeat w fForeign vYes else w) = w1
  have h1 : w1.rel = some x ∧ w1.upos = w.upos := by
    rw [← hw1]
    split <;> exact ⟨hx, rfl⟩
  cases hl : change.lookup v with
  | none => exact ⟨x, h1.1, h1.2, rfl, huniq (fun v t => (∀ z, Renamed v t z → x = z) ∧ ((∀ z, ¬ Renamed v t z) → x = x)) ⟨fun z k => absurd k (lookup_none hl t z), fun _ => rfl⟩⟩
  | some new =>
    have key : ∀ y, Renamed v t y → (∀ z', Renamed v t z' → z' = y) → ∀ v t, Parts x v t → (∀ z, Renamed v t z → y = z) ∧ ((∀ z, ¬ Renamed v t z) → y = x) :=
      fun y h1 h2 => huniq (fun v t => (∀ z, Renamed v t z → y = z) ∧ ((∀ z, ¬ Renamed v t z) → y = x)) ⟨fun z k => (h2 z k).symm, fun k => absurd h1 (k y)⟩
    have hc := lookup_cases hl t
    cases t with
    | nil =>
      refine ⟨new, rfl, h1.2, rfl, ?_⟩
      rcases hc with ⟨-, k1, k2⟩ | ⟨-, k1, k2⟩
      · exact key new k1 k2
      · exact key new k1 k2
    | cons c t =>
      simp only
      rcases hc with ⟨k0, k1, k2⟩ | ⟨k0, k1, k2⟩
      · rw [if_pos k0]
        exact ⟨new, rfl, h1.2, rfl, key new k1 k2⟩
      · rw [if_neg k0]
        refine ⟨withSub new (c :: t), ?_, h1.2, rfl, key _ k1 k2⟩
        unfold withSub
        rw [if_neg (by simp)]

theorem not_renamed_neg (t z : Str) : ¬ Renamed rNeg t z := lookup_none (by decide) t z
theorem not_renamed_nmod (t z : Str) : ¬ Renamed rNmod t z := lookup_none (by decide) t z
theorem not_renamed_cop (t z : Str) : ¬ Renamed rCop t z := lookup_none (by decide) t z

theorem parts_plain {v : Str} (hv : ':' ∉ v) : Parts v v [] := ⟨hv, .inl ⟨rfl, rfl⟩⟩

theorem withSub_parts {u : Str} (hu : ':' ∉ u) (t : Str) : Parts (withSub u t) u t := by
  unfold withSub
  split
  · rename_i k
    subst k
    exact parts_plain hu
  · exact ⟨hu, .inr rfl⟩

/-- The new relations do not begin with relations of UD 1, with `nmod`, `neg` or `cop`. -/
theorem renamed_parts {v t z : Str} (hz : Renamed v t z) : ∃ v' t', Parts z v' t' ∧ change.lookup v' = none ∧ v' ≠ rNmod ∧ v' ≠ rNeg ∧ v' ≠ rCop := by
  cases hz
  · exact ⟨_, t, withSub_parts (by decide) t, by decide⟩
  · exact ⟨_, t, withSub_parts (by decide) t, by decide⟩
  · exact ⟨_, t, withSub_parts (by decide) t, by decide⟩
  · exact ⟨['n', 's', 'u', 'b', 'j'], ['p', 'a', 's', 's'], ⟨by decide, .inr (by decide)⟩, by decide⟩
  · exact ⟨['c', 's', 'u', 'b', 'j'], ['p', 'a', 's', 's'], ⟨by decide, .inr (by decide)⟩, by decide⟩
  · exact ⟨['a', 'u', 'x'], ['p', 'a', 's', 's'], ⟨by decide, .inr (by decide)⟩, by decide⟩
  · exact ⟨['f', 'l', 'a', 't'], ['n', 'a', 'm', 'e'], ⟨by decide, .inr (by decide)⟩, by decide⟩

theorem setU_obl {x : Str} {v t : Str} (h : Parts x v t) : setU rObl (some x) = some (withSub rObl t) := by
  unfold setU withSub
  rw [((C06_get x v t).1 h).2]
  simp only [ne_eq]
  by_cases ht : t = [] <;> simp [ht]

theorem feat_ite (w : Word) (k a b x : Str) :
    (if w.feats k = a then setFeat w k b else w).feats x = if x = k ∧ w.feats k = a then b else w.feats x := by
  by_cases h : w.feats k = a
  · simp only [h, if_true, and_true]
    rfl
  · simp [h]

/-- One replacement of a value. -/
def chg (f : Str → Str) (k a b : Str) : Str → Str := fun x => if x = k ∧ f k = a then b else f x

def chgNeg (f : Str → Str) : Str → Str :=
  fun k => if k = fNegative then [] else if k = fPolarity ∧ f fNegative ≠ [] then f fNegative else f k

theorem feat_chg (w : Word) (k a b : Str) : (if w.feats k = a then setFeat w k b else w).feats = chg w.feats k a b := funext (feat_ite w k a b)

theorem feat_neg (w : Word) : (if w.feats fNegative ≠ [] then setFeat (setFeat w fPolarity (w.feats fNegative)) fNegative [] else w).feats = chgNeg w.feats := by
  funext k
  unfold chgNeg
  by_cases hn : w.feats fNegative = []
  · rw [if_neg (by simp [hn])]
    by_cases hk : k = fNegative
    · rw [if_pos hk, hk, hn]
    · rw [if_neg hk, if_neg (by simp [hn])]
  · rw [if_pos hn]
    simp only [setFeat]
    by_cases hk : k = fNegative
    · rw [if_pos hk, if_pos hk]
    · rw [if_neg hk, if_neg hk]
      by_cases hp : k = fPolarity
      · rw [if_pos hp, if_pos ⟨hp, hn⟩]
      · rw [if_neg hp, if_neg (fun k => hp k.1)]

theorem changeFeats_eq (w : Word) : (changeFeats w).feats =
    chg (chg (chg (chg (chgNeg w.feats) fAspect vPro vProsp) fVerbForm vTrans vConv) fDefinite vRed vCons) fForeign fForeign vYes := by
  unfold changeFeats
  simp only
  rw [feat_chg, feat_chg, feat_chg, feat_chg, feat_neg]

theorem chg_same (f : Str → Str) (k a b : Str) : chg f k a b k = if f k = a then b else f k := by simp [chg]
theorem chg_ne (f : Str → Str) {k x : Str} (a b : Str) (h : x ≠ k) : chg f k a b x = f x := by simp [chg, h]

theorem feats_ok {w : Word} {f : Str → Str} {x : Str}
    (hw : ∀ k, w.feats k = if k = fPolarity ∧ x = rNeg ∧ ¬ vNeg <:+: f fPronType then vNeg else if k = fForeign ∧ getU (some x) = some rForeign then vYes else f k) :
    NewFeats x f (changeFeats w).feats := by
  have hn : w.feats fNegative = f fNegative := by
    rw [hw, if_neg (fun k => absurd k.1 (by decide)), if_neg (fun k => absurd k.1 (by decide))]
  have hloc : ∀ k, k ≠ fPolarity → k ≠ fForeign → w.feats k = f k := by
    intro k h1 h2
    rw [hw, if_neg (fun k => h1 k.1), if_neg (fun k => h2 k.1)]
  have hcn : ∀ k, k ≠ fNegative → k ≠ fPolarity → chgNeg w.feats k = w.feats k := by
    intro k h1 h2
    unfold chgNeg
    rw [if_neg h1, if_neg (fun k => h2 k.1)]
  rw [changeFeats_eq]
  refine ⟨?_, ?_, ?_, ?_, ?_, ?_, ?_, ?_, ?_⟩
  · rw [chg_same, chg_ne _ _ _ (by decide), chg_ne _ _ _ (by decide), chg_ne _ _ _ (by decide), hcn _ (by decide) (by decide)]
    have hf : w.feats fForeign = if getU (some x) = some rForeign then vYes else f fForeign := by
      rw [hw, if_neg (fun k => absurd k.1 (by decide))]
      simp
    rw [hf]
    by_cases h1 : getU (some x) = some rForeign
    · rw [if_pos h1, if_neg (by decide), if_pos (.inl h1)]
    · rw [if_neg h1]
      simp only [h1, false_or]
  · rw [chg_ne _ _ _ (by decide), chg_ne _ _ _ (by decide), chg_ne _ _ _ (by decide), chg_same, hcn _ (by decide) (by decide), hloc _ (by decide) (by decide)]
  · rw [chg_ne _ _ _ (by decide), chg_ne _ _ _ (by decide), chg_same, chg_ne _ _ _ (by decide), hcn _ (by decide) (by decide), hloc _ (by decide) (by decide)]
  · rw [chg_ne _ _ _ (by decide), chg_same, chg_ne _ _ _ (by decide), chg_ne _ _ _ (by decide), hcn _ (by decide) (by decide), hloc _ (by decide) (by decide)]
  · rw [chg_ne _ _ _ (by decide), chg_ne _ _ _ (by decide), chg_ne _ _ _ (by decide), chg_ne _ _ _ (by decide)]
    unfold chgNeg
    rw [if_pos rfl]
  · intro k
    rw [chg_ne _ _ _ (by decide), chg_ne _ _ _ (by decide), chg_ne _ _ _ (by decide), chg_ne _ _ _ (by decide)]
    unfold chgNeg
    rw [if_neg (by decide), hn, if_pos ⟨rfl, k⟩]
  · intro k k1 k2
    rw [chg_ne _ _ _ (by decide), chg_ne _ _ _ (by decide), chg_ne _ _ _ (by decide), chg_ne _ _ _ (by decide)]
    unfold chgNeg
    rw [if_neg (by decide), hn, if_neg (fun h => h.2 k), hw, if_pos ⟨rfl, k1, k2⟩]
  · intro k k1
    rw [chg_ne _ _ _ (by decide), chg_ne _ _ _ (by decide), chg_ne _ _ _ (by decide), chg_ne _ _ _ (by decide)]
    unfold chgNeg
    rw [if_neg (by decide), hn, if_neg (fun h => h.2 k), hw, if_neg (fun h => k1 h.2), if_neg (fun h => absurd h.1 (by decide))]
  · intro k hk
    simp only [List.mem_cons, List.not_mem_nil, or_false, not_or] at hk
    obtain ⟨k1, k2, k3, k4, k5, k6⟩ := hk
    rw [chg_ne _ _ _ k1, chg_ne _ _ _ k4, chg_ne _ _ _ k3, chg_ne _ _ _ k2, hcn _ k5 k6, hloc _ k6 k1]

theorem upos_ok (w : Word) (x : Str) (hx : w.rel = some x) :
    (changeCop (changeUpos w)).rel = some x ∧ (changeCop (changeUpos w)).feats = w.feats ∧
      (x = rCop → w.upos ≠ some sAUX → w.upos ≠ some sPRON → (changeCop (changeUpos w)).upos = some sAUX) ∧
      (x = rCop → (w.upos = some sAUX ∨ w.upos = some sPRON) → (changeCop (changeUpos w)).upos = w.upos) ∧
      (x ≠ rCop → (changeCop (changeUpos w)).upos = if w.upos = some sCONJ then some sCCONJ else w.upos) := by
  have e1 : ¬ sCCONJ = sAUX := by decide
  have e2 : ¬ sCCONJ = sPRON := by decide
  have e3 : ¬ sAUX = sCONJ := by decide
  have e4 : ¬ sPRON = sCONJ := by decide
  unfold changeCop changeUpos
  by_cases h1 : w.upos = some sCONJ
  · by_cases h2 : x = rCop <;> simp [h1, hx, h2, e1, e2]
    intro k
    rcases k with k | k
    · exact absurd k.symm e3
    · exact absurd k.symm e4
  · by_cases h2 : x = rCop
    · by_cases h3 : w.upos = some sAUX ∨ w.upos = some sPRON
      · rcases h3 with h3 | h3 <;> simp [hx, h2, h3, e3, e4]
      · simp only [not_or] at h3
        simp [h1, hx, h2, h3]
    · simp [h1, hx, h2]

theorem changeFeats_same (w : Word) : (changeFeats w).rel = w.rel ∧ (changeFeats w).upos = w.upos := by
  have key : ∀ (c : Prop) [Decidable c] (w w' : Word), w'.rel = w.rel → w'.upos = w.upos → (if c then w' else w).rel = w.rel ∧ (if c then w' else w).upos = w.upos := by
    intro c _ w w' h1 h2
    split
    · exact ⟨h1, h2⟩
    · exact ⟨rfl, rfl⟩
  unfold changeFeats
  simp only
  obtain ⟨a1, a2⟩ := key (w.feats fNegative ≠ []) w (setFeat (setFeat w fPolarity (w.feats fNegative)) fNegative []) rfl rfl
  generalize (if w.feats fNegative ≠ [] then setFeat (setFeat w fPolarity (w.feats fNegative)) fNegative [] else w) = w1 at *
  obtain ⟨b1, b2⟩ := key (w1.feats fAspect = vPro) w1 (setFeat w1 fAspect vProsp) rfl rfl
  generalize (if w1.feats fAspect = vPro then setFeat w1 fAspect vProsp else w1) = w2 at *
  obtain ⟨c1, c2⟩ := key (w2.feats fVerbForm = vTrans) w2 (setFeat w2 fVerbForm vConv) rfl rfl
  generalize (if w2.feats fVerbForm = vTrans then setFeat w2 fVerbForm vConv else w2) = w3 at *
  obtain ⟨d1, d2⟩ := key (w3.feats fDefinite = vRed) w3 (setFeat w3 fDefinite vCons) rfl rfl
  generalize (if w3.feats fDefinite = vRed then setFeat w3 fDefinite vCons else w3) = w4 at *
  obtain ⟨e1, e2⟩ := key (w4.feats fForeign = fForeign) w4 (setFeat w4 fForeign vYes) rfl rfl
  exact ⟨by rw [e1, d1, c1, b1, a1], by rw [e2, d2, c2, b2, a2]⟩

/-- The edit of `neg` in full. -/
theorem neg_ok {n p : Nat} (hp : h.parent n = some p) (hx : (s n).rel = some rNeg) :
    (∀ k, (changeNeg h s n).feats k = if k = fPolarity ∧ ¬ vNeg <:+: (s n).feats fPronType then vNeg else (s n).feats k) ∧
    ((s n).upos = some sADV ∨ (s n).upos = some sPART ∨ (s n).upos = some sAUX → (changeNeg h s n).rel = some rAdvmod ∧ (changeNeg h s n).upos = (s n).upos) ∧
    ((s n).upos = some sDET → (changeNeg h s n).rel = some rDet ∧ (changeNeg h s n).upos = (s n).upos) ∧
    ((s n).upos = some sINTJ → (changeNeg h s n).rel = some rAdvmod ∧
      ∃ w, w.rel = some rAdvmod ∧ (changeNeg h s n).upos = if isVerbal h (upd s n w) p then some sPART else some sINTJ) ∧
    ((s n).upos ≠ some sADV → (s n).upos ≠ some sPART → (s n).upos ≠ some sAUX → (s n).upos ≠ some sDET → (s n).upos ≠ some sINTJ →
      (changeNeg h s n).rel = some rNeg ∧ (changeNeg h s n).upos = (s n).upos) := by
  unfold changeNeg
  simp only [hx, if_true, hasSub_iff, hp]
  generalize hw : (if vNeg <:+: (s n).feats fPronType then s n else setFeat (s n) fPolarity vNeg) = w
  have h1 : w.rel = some rNeg ∧ w.upos = (s n).upos := by
    rw [← hw]
    split <;> exact ⟨hx, rfl⟩
  have h2 : ∀ k, w.feats k = if k = fPolarity ∧ ¬ vNeg <:+: (s n).feats fPronType then vNeg else (s n).feats k := by
    intro k
    rw [← hw]
    split
    · rename_i hc
      simp [hc]
    · rename_i hc
      simp [hc, setFeat]
  rw [h1.2]
  generalize (s n).upos = u at *
  by_cases c1 : u = some sADV ∨ u = some sPART ∨ u = some sAUX
  · rw [if_pos c1]
    refine ⟨h2, fun _ => ⟨rfl, rfl⟩, ?_, ?_, ?_⟩
    · rintro rfl
      exact absurd c1 (by decide)
    · rintro rfl
      exact absurd c1 (by decide)
    · intro k1 k2 k3
      rcases c1 with c | c | c
      · exact absurd c k1
      · exact absurd c k2
      · exact absurd c k3
  · rw [if_neg c1]
    by_cases c2 : u = some sDET
    · rw [if_pos c2]
      refine ⟨h2, fun k => absurd k c1, fun _ => ⟨rfl, rfl⟩, ?_, fun _ _ _ k => absurd c2 k⟩
      intro k
      rw [c2] at k
      exact absurd k (by decide)
    · rw [if_neg c2]
      by_cases c3 : u = some sINTJ
      · rw [if_pos c3]
        refine ⟨?_, fun k => absurd k c1, fun k => absurd k c2, fun _ => ?_, fun _ _ _ _ k => absurd c3 k⟩
        · split <;> exact h2
        · refine ⟨by split <;> rfl, { w with rel := some rAdvmod, upos := u }, rfl, ?_⟩
          split
          · rfl
          · exact c3
      · rw [if_neg c3]
        exact ⟨h2, fun k => absurd k c1, fun k => absurd k c2, fun k => absurd k c3, fun _ _ _ _ _ => h1⟩

theorem verbal_upd {n p : Nat} {w : Word} (hpn : p ≠ n) (h1 : w.rel ≠ some rCop) (h2 : (s n).rel ≠ some rCop) : Verbal h r (upd s n w) p ↔ Verbal h r s p := by
  have key : ∀ c, (upd s n w c).rel = some rCop ↔ (s c).rel = some rCop := by
    intro c
    by_cases hc : c = n
    · subst hc
      rw [upd_same]
      exact ⟨fun k => absurd k h1, fun k => absurd k h2⟩
    · rw [upd_ne _ _ hc]
  unfold Verbal
  rw [upd_ne _ _ hpn]
  simp only [key]

theorem pred_upd {n p : Nat} {w : Word} (hpn : p ≠ n) (h1 : w.rel = (s n).rel) : Pred h r (upd s n w) p ↔ Pred h r s p := by
  have key : ∀ c, (upd s n w c).rel = (s c).rel := by
    intro c
    by_cases hc : c = n
    · subst hc
      rw [upd_same, h1]
    · rw [upd_ne _ _ hc]
  unfold Pred
  rw [upd_ne _ _ hpn]
  simp only [key]

theorem step_ok (w : WF h r) {n p : Nat} {x : Str} (hn : n ∈ h.words r) (hp : h.parent n = some p) (hx : (s n).rel = some x)
    (hs : ∀ c ∈ h.words r, (s c).rel ≠ none) :
    ∃ w', step h s n = (upd s n w', none) ∧ (∃ y, w'.rel = some y ∧ NewRel h r s (s n).upos p x y) ∧
      NewUpos h r s p x (s n).upos w'.upos ∧ NewFeats x (s n).feats w'.feats := by
  have hpi : InTree h r p := w.parent_in hn hp
  have hpn : p ≠ n := fun e => w.anc_irrefl (.inr hn) (.parent (e ▸ hp))
  obtain ⟨r1, f1, u1, u2, u3⟩ := upos_ok (s n) x hx
  obtain ⟨y, r2, up2, f2, hy⟩ := simple_ok r1
  obtain ⟨v, t, hvt⟩ := parts_exists x
  have hu := ((C06_get x v t).1 hvt).1
  -- the word after the first three edits
  generalize hw1 : changeSimple (changeCop (changeUpos (s n))) = w1 at *
  have hupd : ∀ (a b : Word), upd (upd s n a) n b = upd s n b := fun a b => by
    funext z
    unfold upd
    split <;> rfl
  have hf1 : ∀ k, w1.feats k = if k = fForeign ∧ getU (some x) = some rForeign then vYes else (s n).feats k := by
    intro k
    rw [f2]
    by_cases hc : getU (some x) = some rForeign
    · simp only [hc, if_true, and_true, setFeat, f1]
    · simp only [hc, if_false, and_false, f1]
  by_cases hneg : x = rNeg
  · -- neg
    subst hneg
    have hyx : y = rNeg := (hy rNeg [] (parts_plain (by decide))).2 (not_renamed_neg [])
    subst hyx
    have hup : w1.upos = if (s n).upos = some sCONJ then some sCCONJ else (s n).upos := by rw [up2]; exact u3 (by decide)
    have hup' : ∀ a, a ≠ sCCONJ → a ≠ sCONJ → (w1.upos = some a ↔ (s n).upos = some a) := by
      intro a ha hb
      rw [hup]
      split
      · rename_i hc
        rw [hc]
        exact ⟨fun k => absurd (Option.some.inj k).symm ha, fun k => absurd (Option.some.inj k).symm hb⟩
      · exact Iff.rfl
    have hs1 : upd s n w1 n = w1 := upd_same _ _ _
    obtain ⟨k1, k2, k3, k4, k5⟩ := neg_ok (s := upd s n w1) hp (by rw [hs1]; exact r2)
    rw [hs1] at k1 k2 k3 k4 k5
    generalize hw2 : changeNeg h (upd s n w1) n = w2 at *
    have hrel : w2.rel = some rAdvmod ∨ w2.rel = some rDet ∨ w2.rel = some rNeg := by
      by_cases c1 : w1.upos = some sADV ∨ w1.upos = some sPART ∨ w1.upos = some sAUX
      · exact .inl (k2 c1).1
      · simp only [not_or] at c1
        by_cases c2 : w1.upos = some sDET
        · exact .inr (.inl (k3 c2).1)
        · by_cases c3 : w1.upos = some sINTJ
          · exact .inl (k4 c3).1
          · exact .inr (.inr (k5 c1.1 c1.2.1 c1.2.2 c2 c3).1)
    have hnn : getU w2.rel ≠ some rNmod := by
      rcases hrel with e | e | e <;> rw [e] <;> decide
    refine ⟨changeFeats w2, ?_, ?_, ?_, ?_⟩
    · unfold step
      simp only [hw1, hw2, hupd]
      unfold changeNmod
      simp only [upd_same, if_neg hnn]
    · rw [(changeFeats_same w2).1]
      have e1 := hup' sADV (by decide) (by decide)
      have e2 := hup' sPART (by decide) (by decide)
      have e3 := hup' sAUX (by decide) (by decide)
      have e4 := hup' sINTJ (by decide) (by decide)
      have e5 := hup' sDET (by decide) (by decide)
      obtain ⟨y, hy'⟩ : ∃ y, w2.rel = some y := by
        rcases hrel with e | e | e <;> exact ⟨_, e⟩
      refine ⟨y, hy', ?_, fun _ => ⟨?_, ?_, ?_⟩⟩
      · intro v' t' hvt'
        obtain ⟨rfl, rfl⟩ := parts_unique (parts_plain (show ':' ∉ rNeg by decide)) hvt'
        exact ⟨fun z hz => absurd hz (not_renamed_neg _ z), fun k => absurd k (by decide), fun _ _ k => absurd rfl k⟩
      · rintro (k | k | k | k)
        · exact Option.some.inj (hy'.symm.trans (k2 (.inl (e1.2 k))).1)
        · exact Option.some.inj (hy'.symm.trans (k2 (.inr (.inl (e2.2 k)))).1)
        · exact Option.some.inj (hy'.symm.trans (k2 (.inr (.inr (e3.2 k)))).1)
        · exact Option.some.inj (hy'.symm.trans (k4 (e4.2 k)).1)
      · intro k
        exact Option.some.inj (hy'.symm.trans (k3 (e5.2 k)).1)
      · intro a1 a2 a3 a4 a5
        exact Option.some.inj (hy'.symm.trans (k5 (fun k => a1 (e1.1 k)) (fun k => a2 (e2.1 k)) (fun k => a3 (e3.1 k)) (fun k => a5 (e5.1 k)) (fun k => a4 (e4.1 k))).1)
    · rw [(changeFeats_same w2).2]
      have e4 := hup' sINTJ (by decide) (by decide)
      have hsame : (s n).upos ≠ some sINTJ → w2.upos = w1.upos := by
        intro hne
        by_cases c1 : w1.upos = some sADV ∨ w1.upos = some sPART ∨ w1.upos = some sAUX
        · exact (k2 c1).2
        · simp only [not_or] at c1
          by_cases c2 : w1.upos = some sDET
          · exact (k3 c2).2
          · exact (k5 c1.1 c1.2.1 c1.2.2 c2 (fun k => hne (e4.1 k))).2
      have hV : (s n).upos = some sINTJ → (Verbal h r s p → w2.upos = some sPART) ∧ (¬ Verbal h r s p → w2.upos = some sINTJ) := by
        intro k
        obtain ⟨-, w3, k6, k7⟩ := k4 (e4.2 k)
        rw [hupd] at k7
        have := (verbal (s := upd s n w3) w hpi).trans (verbal_upd (s := s) (h := h) (r := r) hpn (by rw [k6]; decide) (by rw [hx]; decide))
        constructor
        · intro kv
          rw [k7, if_pos (this.2 kv)]
        · intro kv
          rw [k7, if_neg (fun k => kv (this.1 k))]
      refine ⟨fun k => absurd k (by decide), fun _ k => ?_, fun _ k kv => (hV k).1 kv, fun _ k1 k2 => ?_⟩
      · rw [hsame (by rw [k]; decide), hup, if_pos k]
      · by_cases kI : (s n).upos = some sINTJ
        · rw [kI]
          exact (hV kI).2 (fun kv => k2 ⟨rfl, kI, kv⟩)
        · rw [hsame kI, hup, if_neg k1]
    · refine feats_ok (fun k => ?_)
      rw [k1, hf1, hf1]
      have e1 : ¬ getU (some rNeg) = some rForeign := by decide
      simp [e1]
  · have hyn : y ≠ rNeg := by
      rintro rfl
      by_cases hren : ∃ z, Renamed v t z
      · obtain ⟨z, hz⟩ := hren
        have := (hy v t hvt).1 z hz
        obtain ⟨v', t', k1, -, -, k2, -⟩ := renamed_parts hz
        rw [← this] at k1
        exact k2 (parts_unique (parts_plain (by decide)) k1).1
      · exact hneg ((hy v t hvt).2 (fun z hz => hren ⟨z, hz⟩)).symm
    have hs1 : upd s n w1 n = w1 := upd_same _ _ _
    have hw2 : changeNeg h (upd s n w1) n = w1 := by
      unfold changeNeg
      simp only [hs1]
      rw [if_neg (by rw [r2]; exact fun k => hyn (Option.some.inj k))]
    have hfe : NewFeats x (s n).feats (changeFeats w1).feats := feats_ok (fun k => by
      rw [hf1, if_neg (c := _ ∧ _ ∧ _) (fun k => hneg k.2.1)])
    have hup : NewUpos h r s p x (s n).upos w1.upos := by
      rw [up2]
      refine ⟨u1, fun k1 k2 => ?_, fun k => absurd k hneg, fun k1 k2 _ => ?_⟩
      · rw [u3 k1, if_pos k2]
      · by_cases hc : x = rCop
        · exact u2 hc (k1 hc)
        · rw [u3 hc, if_neg k2]
    by_cases hnm : v = rNmod
    · -- nmod
      subst hnm
      have hyx : y = x := (hy _ _ hvt).2 (not_renamed_nmod t)
      subst hyx
      obtain ⟨k, e, hk⟩ := nominal (s := upd s n w1) w hpi (by
        intro c hc
        by_cases hcn : c = n
        · rw [hcn, hs1, r2]
          simp
        · rw [upd_ne _ _ hcn]
          exact hs c hc)
      rw [pred_upd (s := s) (h := h) (r := r) hpn (by rw [r2, hx])] at hk
      have hnew : ∃ w2, changeNmod h (upd s n w1) n = .ok w2 ∧ w2.upos = w1.upos ∧ w2.feats = w1.feats ∧
          ∃ z, w2.rel = some z ∧ (Pred h r s p → z = withSub rObl t) ∧
            (¬ Pred h r s p → z = if y = rNmod ++ [':'] ++ tTmod then rObl ++ [':'] ++ tTmod else y) := by
        unfold changeNmod
        simp only [hs1, r2, hu, if_true, hp, e]
        by_cases hP : Pred h r s p
        · rw [if_pos (hk.2 hP)]
          exact ⟨_, rfl, rfl, rfl, withSub rObl t, setU_obl hvt, fun _ => rfl, fun k => absurd hP k⟩
        · rw [if_neg (fun k => hP (hk.1 k))]
          split
          · rename_i hc
            refine ⟨_, rfl, rfl, rfl, _, rfl, fun k => absurd k hP, fun _ => ?_⟩
            rw [if_pos (Option.some.inj hc)]
          · rename_i hc
            refine ⟨_, rfl, rfl, rfl, y, r2, fun k => absurd k hP, fun _ => ?_⟩
            rw [if_neg (fun k => hc (by rw [k]))]
      obtain ⟨w2, e2, a1, a2, z, a3, a4, a5⟩ := hnew
      refine ⟨changeFeats w2, ?_, ⟨z, by rw [(changeFeats_same w2).1, a3], ?_, fun k => absurd k hneg⟩, by rw [(changeFeats_same w2).2, a1]; exact hup, ?_⟩
      · unfold step
        simp only [hw1, hw2, hupd, e2]
      · intro v' t' hvt'
        obtain ⟨rfl, rfl⟩ := parts_unique hvt hvt'
        exact ⟨fun z hz => absurd hz (not_renamed_nmod _ z), fun _ => ⟨a4, a5⟩, fun _ k => absurd rfl k⟩
      · refine feats_ok (fun k => ?_)
        rw [a2, hf1, if_neg (c := _ ∧ _ ∧ _) (fun k => hneg k.2.1)]
    · have hnn : getU w1.rel ≠ some rNmod := by
        rw [r2]
        intro k
        obtain ⟨v', t', hv'⟩ := parts_exists y
        have hu' := ((C06_get y v' t').1 hv').1
        have hv'' : v' = rNmod := Option.some.inj (hu'.symm.trans k)
        by_cases hren : ∃ z, Renamed v t z
        · obtain ⟨z, hz⟩ := hren
          have := (hy v t hvt).1 z hz
          obtain ⟨v2, t2, k1, -, k2, -⟩ := renamed_parts hz
          rw [← this] at k1
          exact k2 ((parts_unique hv' k1).1.trans hv'')
        · have := (hy v t hvt).2 (fun z hz => hren ⟨z, hz⟩)
          rw [this] at hv'
          exact hnm ((parts_unique hv' hvt).1.trans hv'')
      refine ⟨changeFeats w1, ?_, ⟨y, by rw [(changeFeats_same w1).1, r2], ?_, fun k => absurd k hneg⟩, by rw [(changeFeats_same w1).2]; exact hup, hfe⟩
      · unfold step
        simp only [hw1, hw2, hupd]
        unfold changeNmod
        simp only [upd_same, if_neg hnn]
      · intro v' t' hvt'
        obtain ⟨rfl, rfl⟩ := parts_unique hvt hvt'
        exact ⟨(hy _ _ hvt).1, fun k => absurd k hnm, fun k _ _ => (hy _ _ hvt).2 k⟩

theorem newRel_congr {s1 s2 : Nat → Word} {u : Option Str} {p : Nat} {x y : Str} (hP : Pred h r s1 p ↔ Pred h r s2 p) (hn : NewRel h r s1 u p x y) :
    NewRel h r s2 u p x y := by
  unfold NewRel at *
  simp only [hP] at hn
  exact hn

theorem newUpos_congr {s1 s2 : Nat → Word} {u u' : Option Str} {p : Nat} {x : Str} (hV : Verbal h r s1 p ↔ Verbal h r s2 p)
    (hn : NewUpos h r s1 p x u u') : NewUpos h r s2 p x u u' := by
  unfold NewUpos at *
  simp only [hV] at hn
  exact hn

theorem context_congr {s1 s2 : Nat → Word} {p : Nat} (hp : s1 p = s2 p) (hw : ∀ c ∈ h.words r, s1 c = s2 c) :
    (Pred h r s1 p ↔ Pred h r s2 p) ∧ (Verbal h r s1 p ↔ Verbal h r s2 p) := by
  unfold Pred Verbal
  rw [hp]
  constructor
  · constructor
    · rintro (k | k | k | ⟨k, c, h1, h2, x, h3, h4⟩)
      · exact .inl k
      · exact .inr (.inl k)
      · exact .inr (.inr (.inl k))
      · exact .inr (.inr (.inr ⟨k, c, h1, h2, x, by rw [← hw c h1]; exact h3, h4⟩))
    · rintro (k | k | k | ⟨k, c, h1, h2, x, h3, h4⟩)
      · exact .inl k
      · exact .inr (.inl k)
      · exact .inr (.inr (.inl k))
      · exact .inr (.inr (.inr ⟨k, c, h1, h2, x, by rw [hw c h1]; exact h3, h4⟩))
  · constructor
    · rintro (k | ⟨c, h1, h2, h3⟩)
      · exact .inl k
      · exact .inr ⟨c, h1, h2, by rw [← hw c h1]; exact h3⟩
    · rintro (k | ⟨c, h1, h2, h3⟩)
      · exact .inl k
      · exact .inr ⟨c, h1, h2, by rw [hw c h1]; exact h3⟩

/-- C149 for all trees in which every word has a relation: no exception; the new relation, part of speech and features of every word. Of a word
before it, the edits of a word see the new annotation; of the others, the old one. -/
theorem C149_result (hi : Inv h) (hr : IsTree h r) (hs : ∀ n ∈ h.words r, (s n).rel ≠ none) :
    ∃ s', localEdits h r s = (s', none) ∧ (∀ x, x ∉ h.words r → s' x = s x) ∧
      ∀ n ∈ h.words r, ∀ p, h.parent n = some p → ∀ x, (s n).rel = some x →
        (∃ y, (s' n).rel = some y ∧ NewRel h r (seen h r s s' n) (s n).upos p x y) ∧
        NewUpos h r (seen h r s s' n) p x (s n).upos (s' n).upos ∧ NewFeats x (s n).feats (s' n).feats := by
  have w := hi r hr
  have hsort := aligned_pairwise w.aligned
  obtain ⟨s', e, -, hrest, hdone⟩ := forNodes_inv (step h) (fun done t => (∀ c ∈ h.words r, (t c).rel ≠ none) ∧ (∀ x, x ∉ done → t x = s x) ∧
      ∀ n ∈ done, ∀ p, h.parent n = some p → ∀ x, (s n).rel = some x →
        (∃ y, (t n).rel = some y ∧ NewRel h r (seen h r s t n) (s n).upos p x y) ∧
        NewUpos h r (seen h r s t n) p x (s n).upos (t n).upos ∧ NewFeats x (s n).feats (t n).feats) (h.words r) (by
    rintro done n rest t hl ⟨i1, i2, i3⟩
    have hn : n ∈ h.words r := by rw [hl]; simp
    have hlt : ∀ c ∈ h.words r, c ∈ done ↔ h.ord c < h.ord n := by
      intro c hc
      rw [hl] at hsort hc
      obtain ⟨-, h2, h3⟩ := List.pairwise_append.1 hsort
      constructor
      · exact fun k => h3 c k n (by simp)
      · intro k
        rcases List.mem_append.1 hc with k' | k'
        · exact k'
        · rcases List.mem_cons.1 k' with rfl | k'
          · omega
          · have := (List.pairwise_cons.1 h2).1 c k'
            omega
    have hdw : ∀ c ∈ done, c ∈ h.words r := fun c hc => by rw [hl]; exact List.mem_append_left _ hc
    have hnd : n ∉ done := fun k => by have := (hlt n hn).1 k; omega
    obtain ⟨p, hp, hpi⟩ := w.parentIn n hn
    have htn : t n = s n := i2 n hnd
    obtain ⟨x, hx⟩ : ∃ x, (t n).rel = some x := by
      cases hc : (t n).rel with
      | none => exact absurd hc (i1 n hn)
      | some x => exact ⟨x, rfl⟩
    obtain ⟨w', e, ⟨y, hy, hR⟩, hU, hF⟩ := step_ok w hn hp hx i1
    -- what the edits see
    have hseen : ∀ c, seen h r s (upd t n w') n c = t c := by
      intro c
      unfold seen
      split
      · rename_i hc
        exact upd_ne _ _ (fun e => by rw [e] at hc; omega)
      · rename_i hc
        refine (i2 c (fun k => hc ⟨hdw c k, (hlt c (hdw c k)).1 k⟩)).symm
    refine ⟨upd t n w', e, ?_, ?_, ?_⟩
    · intro c hc
      by_cases hcn : c = n
      · rw [hcn, upd_same, hy]
        simp
      · rw [upd_ne _ _ hcn]
        exact i1 c hc
    · intro c hc
      rw [List.mem_append, not_or] at hc
      rw [upd_ne _ _ (fun e => hc.2 (by simp [e]))]
      exact i2 c hc.1
    · intro m hm q hq z hz
      rcases List.mem_append.1 hm with hm | hm
      · have hmn : m ≠ n := fun e => hnd (e ▸ hm)
        obtain ⟨⟨y', j1, j2⟩, j3, j4⟩ := i3 m hm q hq z hz
        have hsm : ∀ c, seen h r s t m c = seen h r s (upd t n w') m c := by
          intro c
          unfold seen
          split
          · rename_i hc
            have := (hlt m (hdw m hm)).1 hm
            rw [upd_ne _ _ (fun e => by rw [e] at hc; omega)]
          · rfl
        obtain ⟨c1, c2⟩ := context_congr (h := h) (r := r) (hsm q) (fun c _ => hsm c)
        rw [upd_ne _ _ hmn]
        exact ⟨⟨y', j1, newRel_congr c1 j2⟩, newUpos_congr c2 j3, j4⟩
      · obtain rfl := List.mem_singleton.1 hm
        obtain rfl := Option.some.inj (hp.symm.trans hq)
        rw [← htn] at hz ⊢
        obtain rfl := Option.some.inj (hx.symm.trans hz)
        obtain ⟨c1, c2⟩ := context_congr (h := h) (r := r) (hseen p).symm (fun c _ => (hseen c).symm)
        rw [upd_same]
        exact ⟨⟨y, hy, newRel_congr c1 hR⟩, newUpos_congr c2 hU, hF⟩) s ⟨hs, fun _ _ => rfl, fun n hn => absurd hn List.not_mem_nil⟩
  exact ⟨s', e, hrest, hdone⟩

/-- The relations of UD 1 that UD 2 does not have. -/
def ud1 : List Str :=
  [['m', 'w', 'e'], ['d', 'o', 'b', 'j'], ['n', 's', 'u', 'b', 'j', 'p', 'a', 's', 's'], ['c', 's', 'u', 'b', 'j', 'p', 'a', 's', 's'],
    ['a', 'u', 'x', 'p', 'a', 's', 's'], ['n', 'a', 'm', 'e'], ['f', 'o', 'r', 'e', 'i', 'g', 'n']]

theorem ud1_iff {v : Str} (t : Str) : v ∈ ud1 ↔ ∃ z, Renamed v t z := by
  constructor
  · intro k
    simp only [ud1, List.mem_cons, List.not_mem_nil, or_false] at k
    rcases k with rfl | rfl | rfl | rfl | rfl | rfl | rfl
    · exact ⟨_, .mwe t⟩
    · exact ⟨_, .dobj t⟩
    · exact ⟨_, .nsubjpass t⟩
    · exact ⟨_, .csubjpass t⟩
    · exact ⟨_, .auxpass t⟩
    · exact ⟨_, .name t⟩
    · exact ⟨_, .foreign t⟩
  · rintro ⟨z, k⟩
    cases k <;> decide

theorem ud1_lookup {v : Str} (hl : change.lookup v = none) : v ∉ ud1 := fun k => by
  obtain ⟨z, hz⟩ := (ud1_iff []).1 k
  exact lookup_none hl [] z hz

/-- If `u:t` contains `subj` and `u` does not, then every relation with the subtype `t` does. -/
theorem sub_of_withSub {x v t u' : Str} (hvt : Parts x v t) (hs' : tSubj <:+: withSub u' t) (hnu : ¬ tSubj <:+: u') : tSubj <:+: x := by
  unfold withSub at hs'
  split at hs'
  · exact absurd hs' hnu
  · rename_i htn
    have : tSubj <:+: t := by
      obtain ⟨a, b, hab⟩ := hs'
      rw [List.append_assoc, List.append_assoc] at hab
      rcases List.append_eq_append_iff.1 hab with ⟨c, hc1, hc2⟩ | ⟨c, hc1, hc2⟩
      · rcases List.append_eq_append_iff.1 hc2 with ⟨d, hd1, hd2⟩ | ⟨d, hd1, hd2⟩
        · exact absurd ⟨a, d, by rw [hc1, hd1]; simp⟩ hnu
        · cases d with
          | nil => exact absurd ⟨a, [], by rw [hc1]; simp at hd1; simp [hd1]⟩ hnu
          | cons d0 d =>
            rw [List.singleton_append, List.cons_append] at hd2
            have h0 := (List.cons.inj hd2).1
            have : ':' ∈ tSubj := by rw [hd1, h0]; simp
            exact absurd this (by decide)
      · cases c with
        | nil =>
          rw [List.nil_append, List.singleton_append] at hc2
          have := congrArg List.head? hc2
          simp [tSubj] at this
        | cons c0 c =>
          have h0 := (List.cons.inj hc2).2
          exact ⟨c, b, by rw [List.append_assoc]; exact h0.symm⟩
    rcases hvt.2 with ⟨-, k⟩ | k
    · exact absurd k htn
    · rw [k]
      exact this.trans ⟨v ++ [':'], [], by simp⟩

/-- What can be said of the new relation without the context: it begins with no relation of UD 1; it is `cop` if the old one was, and `neg` only
if it was; it begins with `nmod` only if the old one did and is not changed. -/
theorem newRel_shape {u : Option Str} {p : Nat} {x y : Str} (hn : NewRel h r s u p x y) :
    (∀ v t, Parts y v t → v ∉ ud1) ∧ (y = rCop ↔ x = rCop) ∧ (y = rNeg → x = rNeg) ∧
      (∀ t, Parts y rNmod t → y = x ∧ ¬ Pred h r s p ∧ x ≠ rNmod ++ [':'] ++ tTmod) ∧ (tSubj <:+: y → tSubj <:+: x) := by
  obtain ⟨v, t, hvt⟩ := parts_exists x
  obtain ⟨n1, n2⟩ := hn
  obtain ⟨n3, n4, n5⟩ := n1 v t hvt
  have hpl : ∀ v, ':' ∉ v → ∀ v' t', Parts v v' t' → v' = v := fun v hv v' t' hp => (parts_unique (parts_plain hv) hp).1
  have huq : ∀ {a b c d e : Str}, Parts a b c → Parts a d e → d = b := fun h1 h2 => (parts_unique h1 h2).1
  by_cases hneg : x = rNeg
  · subst hneg
    have hy : y = rAdvmod ∨ y = rDet ∨ y = rNeg := by
      obtain ⟨m1, m2, m3⟩ := n2 rfl
      by_cases c1 : u = some sADV ∨ u = some sPART ∨ u = some sAUX ∨ u = some sINTJ
      · exact .inl (m1 c1)
      · simp only [not_or] at c1
        by_cases c2 : u = some sDET
        · exact .inr (.inl (m2 c2))
        · exact .inr (.inr (m3 c1.1 c1.2.1 c1.2.2.1 c1.2.2.2 c2))
    have hns : ¬ tSubj <:+: y := by
      rw [← hasSub_iff]
      rcases hy with rfl | rfl | rfl <;> decide
    refine ⟨?_, ?_, fun _ => rfl, ?_, fun k => absurd k hns⟩
    · intro v' t' hp
      rcases hy with rfl | rfl | rfl
      · rw [hpl _ (by decide) _ _ hp]; decide
      · rw [hpl _ (by decide) _ _ hp]; decide
      · rw [hpl _ (by decide) _ _ hp]; decide
    · rcases hy with rfl | rfl | rfl <;> decide
    · intro t' hp
      rcases hy with rfl | rfl | rfl
      · exact absurd (hpl _ (by decide) _ _ hp) (by decide)
      · exact absurd (hpl _ (by decide) _ _ hp) (by decide)
      · exact absurd (hpl _ (by decide) _ _ hp) (by decide)
  · by_cases hren : ∃ z, Renamed v t z
    · obtain ⟨z, hz⟩ := hren
      have hyz := n3 z hz
      subst hyz
      obtain ⟨v', t', k1, k2, k3, k4, k5⟩ := renamed_parts hz
      have hxv : x ≠ rCop := by
        rintro rfl
        have := hpl _ (by decide) _ _ hvt
        subst this
        exact not_renamed_cop _ _ hz
      refine ⟨fun v2 t2 hp => ?_, ?_, ?_, ?_, ?_⟩
      · rw [huq k1 hp]
        exact ud1_lookup k2
      · refine ⟨fun e => ?_, fun e => absurd e hxv⟩
        subst e
        exact absurd (hpl _ (by decide) _ _ k1) k5
      · intro e
        subst e
        exact absurd (hpl _ (by decide) _ _ k1) k4
      · intro t2 hp
        exact absurd (huq k1 hp).symm k3
      · intro hsub
        have hx' : x = v ∨ x = v ++ [':'] ++ t := by
          rcases hvt.2 with ⟨k, -⟩ | k
          · exact .inl k
          · exact .inr k
        have hvx : v <:+: x := by
          rcases hx' with rfl | rfl
          · exact List.infix_refl _
          · exact ⟨[], [':'] ++ t, by simp⟩
        have hws := fun (u' : Str) k1 k2 => sub_of_withSub (u' := u') hvt k1 k2
        cases hz with
        | mwe => exact hws _ hsub (by rw [← hasSub_iff]; decide)
        | dobj => exact hws _ hsub (by rw [← hasSub_iff]; decide)
        | foreign => exact hws _ hsub (by rw [← hasSub_iff]; decide)
        | nsubjpass => exact .trans (hasSub_iff.1 (by decide)) hvx
        | csubjpass => exact .trans (hasSub_iff.1 (by decide)) hvx
        | auxpass => exact absurd hsub (by rw [← hasSub_iff]; decide)
        | name => exact absurd hsub (by rw [← hasSub_iff]; decide)
    · have hno : ∀ z, ¬ Renamed v t z := fun z hz => hren ⟨z, hz⟩
      by_cases hnm : v = rNmod
      · subst hnm
        obtain ⟨m1, m2⟩ := n4 rfl
        have hx : x ≠ rCop := by
          rintro rfl
          exact absurd (hpl _ (by decide) _ _ hvt) (by decide)
        have hobl : ∀ t', (tSubj <:+: withSub rObl t' → tSubj <:+: x) → y = withSub rObl t' →
            (∀ v t, Parts y v t → v ∉ ud1) ∧ (y = rCop ↔ x = rCop) ∧ (y = rNeg → x = rNeg) ∧
            (∀ t, Parts y rNmod t → y = x ∧ ¬ Pred h r s p ∧ x ≠ rNmod ++ [':'] ++ tTmod) ∧ (tSubj <:+: y → tSubj <:+: x) := by
          rintro t' hsub rfl
          have hP := withSub_parts (show ':' ∉ rObl by decide) t'
          refine ⟨fun v t' hp => ?_, ⟨fun k => ?_, fun k => absurd k hx⟩, fun k => ?_, fun t' hp => absurd (huq hP hp) (by decide), hsub⟩
          · rw [huq hP hp]
            decide
          · rw [k] at hP
            exact absurd (hpl _ (by decide) _ _ hP) (by decide)
          · rw [k] at hP
            exact absurd (hpl _ (by decide) _ _ hP) (by decide)
        by_cases hPr : Pred h r s p
        · exact hobl t (fun k => sub_of_withSub hvt k (by rw [← hasSub_iff]; decide)) (m1 hPr)
        · have hy := m2 hPr
          split at hy
          · exact hobl tTmod (fun k => absurd k (by rw [← hasSub_iff]; decide)) hy
          · rename_i htm
            subst hy
            refine ⟨fun v' t' hp => ?_, Iff.rfl, fun k => k, fun t' hp => ⟨rfl, hPr, htm⟩, fun k => k⟩
            rw [huq hvt hp]
            exact fun k => hren ((ud1_iff t).1 k)
      · have hyx := n5 hno hnm hneg
        subst hyx
        refine ⟨fun v' t' hp => ?_, Iff.rfl, fun k => k, fun t' hp => absurd (huq hvt hp).symm hnm, fun k => k⟩
        rw [huq hvt hp]
        exact fun k => hren ((ud1_iff t).1 k)

/-- After the edits no word has a relation of UD 1, the part of speech CONJ or one of the changed features, and copulas are AUX or PRON. -/
theorem C149_clean (hi : Inv h) (hr : IsTree h r) (hs : ∀ n ∈ h.words r, (s n).rel ≠ none) :
    ∃ s', localEdits h r s = (s', none) ∧ ∀ n ∈ h.words r,
      (∃ y, (s' n).rel = some y ∧ ∀ v t, Parts y v t → v ∉ ud1) ∧ (s' n).upos ≠ some sCONJ ∧
      ((s' n).rel = some rCop → (s' n).upos = some sAUX ∨ (s' n).upos = some sPRON) ∧
      (s' n).feats fNegative = [] ∧ (s' n).feats fAspect ≠ vPro ∧ (s' n).feats fVerbForm ≠ vTrans ∧ (s' n).feats fDefinite ≠ vRed ∧
      (s' n).feats fForeign ≠ fForeign := by
  have w := hi r hr
  obtain ⟨s', e, -, hres⟩ := C149_result hi hr hs
  refine ⟨s', e, fun n hn => ?_⟩
  obtain ⟨p, hp, -⟩ := w.parentIn n hn
  obtain ⟨x, hx⟩ : ∃ x, (s n).rel = some x := Option.ne_none_iff_exists'.1 (hs n hn)
  obtain ⟨⟨y, hy, hR⟩, ⟨u1, u2, u3, u4⟩, f1, f2, f3, f4, f5, -⟩ := hres n hn p hp x hx
  obtain ⟨c1, c2, -⟩ := newRel_shape hR
  refine ⟨⟨y, hy, c1⟩, ?_, ?_, f5, ?_, ?_, ?_, ?_⟩
  · by_cases k1 : x = rCop
    · by_cases k2 : (s n).upos = some sAUX ∨ (s n).upos = some sPRON
      · rw [u4 (fun _ => k2) (by rcases k2 with k | k <;> rw [k] <;> decide) (fun k => absurd (k1.symm.trans k.1) (by decide))]
        rcases k2 with k | k <;> rw [k] <;> decide
      · simp only [not_or] at k2
        rw [u1 k1 k2.1 k2.2]
        decide
    · by_cases k2 : (s n).upos = some sCONJ
      · rw [u2 k1 k2]
        decide
      · by_cases k3 : x = rNeg ∧ (s n).upos = some sINTJ ∧ Verbal h r (seen h r s s' n) p
        · rw [u3 k3.1 k3.2.1 k3.2.2]
          decide
        · rw [u4 (fun k => absurd k k1) k2 k3]
          exact k2
  · intro k
    have k1 : x = rCop := c2.1 (Option.some.inj (hy.symm.trans k))
    by_cases k2 : (s n).upos = some sAUX ∨ (s n).upos = some sPRON
    · rw [u4 (fun _ => k2) (by rcases k2 with k | k <;> rw [k] <;> decide) (fun k => absurd (k1.symm.trans k.1) (by decide))]
      exact k2
    · simp only [not_or] at k2
      exact .inl (u1 k1 k2.1 k2.2)
  · rw [f2]; split
    · decide
    · assumption
  · rw [f3]; split
    · decide
    · assumption
  · rw [f4]; split
    · decide
    · assumption
  · rw [f1]; split
    · decide
    · rename_i k
      exact fun k' => k (.inr k')

/-- C149: a second run changes nothing, if no `nmod` dependent precedes a copula that is neither AUX nor PRON, and the old feature Negative of
words that remain `neg` is Neg or absent. -/
theorem C149_idempotent_partial (hi : Inv h) (hr : IsTree h r) (hs : ∀ n ∈ h.words r, (s n).rel ≠ none)
    (hcop : ∀ n ∈ h.words r, ∀ p ∈ h.words r, h.parent n = some p → getU (s n).rel = some rNmod → (s p).rel = some rCop → h.ord n < h.ord p →
      (s p).upos = some sAUX ∨ (s p).upos = some sPRON)
    (hneg : ∀ n ∈ h.words r, (s n).rel = some rNeg → (s n).feats fNegative = [] ∨ (s n).feats fNegative = vNeg ∨ vNeg <:+: (s n).feats fPronType ∨
      (s n).upos = some sADV ∨ (s n).upos = some sPART ∨ (s n).upos = some sAUX ∨ (s n).upos = some sINTJ ∨ (s n).upos = some sDET) :
    ∃ s', localEdits h r s = (s', none) ∧ localEdits h r s' = (s', none) := by
  have w := hi r hr
  obtain ⟨s', e, hout, hres⟩ := C149_result hi hr hs
  obtain ⟨s'', e', hclean⟩ := C149_clean hi hr hs
  obtain rfl := (Prod.mk.inj (e.symm.trans e')).1
  refine ⟨s', e, ?_⟩
  obtain ⟨t, et, hto, ht⟩ := C149_result hi hr (s := s') (fun n hn => by
    obtain ⟨⟨y, hy, -⟩, -⟩ := hclean n hn
    rw [hy]
    simp)
  rw [et]
  refine congrArg (·, none) ?_
  -- relations and parts of speech, in word order
  have key : ∀ k, ∀ n ∈ h.words r, h.ord n < k → t n = s' n := by
    intro k
    induction k with
    | zero => intro n _ k; omega
    | succ k ih =>
      intro n hn hnk
      obtain ⟨p, hp, hpi⟩ := w.parentIn n hn
      obtain ⟨x, hx⟩ : ∃ x, (s n).rel = some x := Option.ne_none_iff_exists'.1 (hs n hn)
      obtain ⟨⟨y, hy, hR⟩, ⟨u1, u2, u3, u4⟩, f1, f2, f3, f4, f5, f6, f7, f8, f9⟩ := hres n hn p hp x hx
      obtain ⟨⟨z, hz, hR'⟩, ⟨v1, v2, v3, v4⟩, g1, g2, g3, g4, g5, g6, g7, g8, g9⟩ := ht n hn p hp y hy
      obtain ⟨⟨y', hy', c1⟩, c2, c3, c4, c5, c6, c7, c8⟩ := hclean n hn
      obtain rfl := Option.some.inj (hy.symm.trans hy')
      obtain ⟨d1, d2, d3, d4, -⟩ := newRel_shape hR
      have hseen : ∀ c ∈ h.words r, seen h r s' t n c = s' c := by
        intro c hc
        unfold seen
        split
        · rename_i hlt
          exact ih c hc (by omega)
        · rfl
      have hseenr : ∀ c, c ∉ h.words r → seen h r s' t n c = s' c := by
        intro c hc
        unfold seen
        rw [if_neg (fun k => hc k.1)]
      have hall : ∀ c, seen h r s' t n c = s' c := fun c => by
        by_cases hc : c ∈ h.words r
        · exact hseen c hc
        · exact hseenr c hc
      -- the words that remain `neg`
      have hrem : y = rNeg → x = rNeg ∧ (s n).upos ≠ some sADV ∧ (s n).upos ≠ some sPART ∧ (s n).upos ≠ some sAUX ∧ (s n).upos ≠ some sINTJ ∧
          (s n).upos ≠ some sDET := by
        intro hyn
        have hxn := d3 hyn
        obtain ⟨m1, m2, -⟩ := hR.2 hxn
        refine ⟨hxn, fun k => ?_, fun k => ?_, fun k => ?_, fun k => ?_, fun k => ?_⟩
        · exact absurd (hyn.symm.trans (m1 (.inl k))) (by decide)
        · exact absurd (hyn.symm.trans (m1 (.inr (.inl k)))) (by decide)
        · exact absurd (hyn.symm.trans (m1 (.inr (.inr (.inl k))))) (by decide)
        · exact absurd (hyn.symm.trans (m1 (.inr (.inr (.inr k))))) (by decide)
        · exact absurd (hyn.symm.trans (m2 k)) (by decide)
      have hrel : z = y := by
        obtain ⟨v, tt, hvt⟩ := parts_exists y
        obtain ⟨m1, m2, m3⟩ := hR'.1 v tt hvt
        have hno : ∀ z, ¬ Renamed v tt z := fun z hz => c1 v tt hvt ((ud1_iff tt).2 ⟨z, hz⟩)
        by_cases hyn : y = rNeg
        · obtain ⟨hxn, a1, a2, a3, a4, a5⟩ := hrem hyn
          have hup : ∀ a, a ≠ sCCONJ → (s n).upos ≠ some a → (s' n).upos ≠ some a := by
            intro a ha hne
            by_cases k2 : (s n).upos = some sCONJ
            · rw [u2 (by rw [hxn]; decide) k2]
              exact fun k => ha (Option.some.inj k).symm
            · rw [u4 (fun k => absurd (hxn.symm.trans k) (by decide)) k2 (fun k => a4 k.2.1)]
              exact hne
          rw [(hR'.2 hyn).2.2 (hup _ (by decide) a1) (hup _ (by decide) a2) (hup _ (by decide) a3) (hup _ (by decide) a4) (hup _ (by decide) a5), hyn]
        · by_cases hnm : v = rNmod
          · subst hnm
            obtain ⟨hyx, hnP, htm⟩ := d4 tt hvt
            have hnP' : ¬ Pred h r (seen h r s' t n) p := by
              -- the relations and parts of speech seen in the first run
              have hu : ∀ a, a ∈ [sVERB, sAUX, sADV, sADJ] → (s' p).upos = some a → (seen h r s s' n p).upos = some a := by
                intro a ha hup
                unfold seen
                split
                · exact hup
                · rename_i hnlt
                  rcases hpi with rfl | hpw
                  · rw [hout _ w.root_not_mem] at hup
                    exact hup
                  · have hlt : h.ord n < h.ord p := by
                      have : h.ord p ≠ h.ord n := fun k => w.anc_irrefl (.inr hn) (.parent (w.ord_inj (.inr hpw) (.inr hn) k ▸ hp))
                      have : ¬ h.ord p < h.ord n := fun k => hnlt ⟨hpw, k⟩
                      omega
                    obtain ⟨q, hq, -⟩ := w.parentIn p hpw
                    obtain ⟨xp, hxp⟩ : ∃ x, (s p).rel = some x := Option.ne_none_iff_exists'.1 (hs p hpw)
                    obtain ⟨-, ⟨b1, b2, b3, b4⟩, -⟩ := hres p hpw q hq xp hxp
                    have hkeep : (s' p).upos = (s p).upos ∨ (s' p).upos = some sCCONJ ∨ (s' p).upos = some sPART := by
                      by_cases j1 : (s p).upos = some sCONJ
                      · by_cases j2 : xp = rCop
                        · have := hcop n hn p hpw hp (by rw [hx, ← hyx]; exact ((C06_get _ _ _).1 hvt).1) (by rw [hxp, j2]) hlt
                          rw [j1] at this
                          exact absurd this (by decide)
                        · exact .inr (.inl (b2 j2 j1))
                      · by_cases j3 : xp = rNeg ∧ (s p).upos = some sINTJ ∧ Verbal h r (seen h r s s' p) q
                        · exact .inr (.inr (b3 j3.1 j3.2.1 j3.2.2))
                        · refine .inl (b4 (fun j2 => ?_) j1 j3)
                          exact hcop n hn p hpw hp (by rw [hx, ← hyx]; exact ((C06_get _ _ _).1 hvt).1) (by rw [hxp, j2]) hlt
                    rcases hkeep with k | k | k
                    · rw [← k]; exact hup
                    · rw [hup] at k
                      rw [Option.some.inj k] at ha
                      exact absurd ha (by decide)
                    · rw [hup] at k
                      rw [Option.some.inj k] at ha
                      exact absurd ha (by decide)
              intro hP
              apply hnP
              unfold Pred at hP ⊢
              rw [hall p] at hP
              rcases hP with k | k | k | ⟨k, c, k1, k2, xc, k3, k4⟩
              · exact .inl (hu _ (by decide) k)
              · exact .inr (.inl (hu _ (by decide) k))
              · exact .inr (.inr (.inl (hu _ (by decide) k)))
              · refine .inr (.inr (.inr ⟨hu _ (by decide) k, c, k1, k2, ?_⟩))
                rw [hall c] at k3
                unfold seen
                split
                · exact ⟨xc, k3, k4⟩
                · obtain ⟨x0, hx0⟩ : ∃ x, (s c).rel = some x := Option.ne_none_iff_exists'.1 (hs c k1)
                  obtain ⟨⟨yc, hyc, hRc⟩, -⟩ := hres c k1 p k2 x0 hx0
                  obtain rfl := Option.some.inj (k3.symm.trans hyc)
                  obtain ⟨-, q1, -, -, q2⟩ := newRel_shape hRc
                  rcases k4 with k4 | k4
                  · exact ⟨x0, hx0, .inl (q1.1 k4)⟩
                  · exact ⟨x0, hx0, .inr (q2 k4)⟩
            rw [(m2 rfl).2 hnP', if_neg (by rw [hyx]; exact htm)]
          · exact m3 hno hnm hyn
      subst hrel
      have hupos : (t n).upos = (s' n).upos := by
        refine v4 (fun k => c3 (by rw [hy, k])) c2 ?_
        rintro ⟨k1, k2, -⟩
        obtain ⟨hxn, a1, a2, a3, a4, a5⟩ := hrem k1
        by_cases k3 : (s n).upos = some sCONJ
        · rw [u2 (by rw [hxn]; decide) k3] at k2
          exact absurd k2 (by decide)
        · rw [u4 (fun k => absurd (hxn.symm.trans k) (by decide)) k3 (fun k => a4 k.2.1)] at k2
          exact a4 k2
      have hfor : ¬ getU (some z) = some rForeign := by
        intro k
        obtain ⟨v, tt, hvt⟩ := parts_exists z
        rw [((C06_get _ _ _).1 hvt).1] at k
        obtain rfl := Option.some.inj k
        exact c1 _ _ hvt (by decide)
      have hfe : (t n).feats = (s' n).feats := by
        funext k
        by_cases k1 : k = fForeign
        · rw [k1, g1, if_neg (fun k => k.elim hfor c8)]
        · by_cases k2 : k = fAspect
          · rw [k2, g2, if_neg c5]
          · by_cases k3 : k = fVerbForm
            · rw [k3, g3, if_neg c6]
            · by_cases k4 : k = fDefinite
              · rw [k4, g4, if_neg c7]
              · by_cases k5 : k = fNegative
                · rw [k5, g5, f5]
                · by_cases k6 : k = fPolarity
                  · rw [k6]
                    by_cases hc : z = rNeg ∧ ¬ vNeg <:+: (s' n).feats fPronType
                    · rw [g7 f5 hc.1 hc.2]
                      obtain ⟨hxn, a1, a2, a3, a4, a5⟩ := hrem hc.1
                      have hpt : (s' n).feats fPronType = (s n).feats fPronType := f9 _ (by decide)
                      rw [hpt] at hc
                      rcases hneg n hn (by rw [hx, hxn]) with j | j | j | j | j | j | j | j
                      · exact (f7 j hxn hc.2).symm
                      · rw [f6 (by rw [j]; decide), j]
                      · exact absurd j hc.2
                      · exact absurd j a1
                      · exact absurd j a2
                      · exact absurd j a3
                      · exact absurd j a4
                      · exact absurd j a5
                    · exact g8 f5 hc
                  · exact g9 k (by simp [k1, k2, k3, k4, k5, k6])
      cases hA : t n with
      | mk a1 a2 a3 =>
        cases hB : s' n with
        | mk b1 b2 b3 =>
          rw [hA, hB] at hupos hfe
          rw [hA] at hz
          rw [hB] at hy
          simp only at hupos hfe hz hy
          rw [hupos, hfe, hz, hy]
  funext n
  by_cases hn : n ∈ h.words r
  · exact key (h.ord n + 1) n hn (by omega)
  · exact hto n hn

/-- An `nmod` dependent before a copula that is a noun remains `nmod`, but becomes `obl` in a second run. -/
theorem C149_copula_violated (hi : Inv h) (hr : IsTree h r) (hs : ∀ n ∈ h.words r, (s n).rel ≠ none) {n p : Nat} (hn : n ∈ h.words r)
    (hp : p ∈ h.words r) (hnp : h.parent n = some p) (hlt : h.ord n < h.ord p) (hrn : (s n).rel = some rNmod) (hrp : (s p).rel = some rCop)
    (hup : (s p).upos = some sNOUN) :
    ∃ s' s'', localEdits h r s = (s', none) ∧ localEdits h r s' = (s'', none) ∧ (s' n).rel = some rNmod ∧ (s'' n).rel = some rObl := by
  have w := hi r hr
  obtain ⟨s', e, -, hres⟩ := C149_result hi hr hs
  have hs' : ∀ n ∈ h.words r, (s' n).rel ≠ none := fun m hm => by
    obtain ⟨q, hq, -⟩ := w.parentIn m hm
    obtain ⟨x, hx⟩ : ∃ x, (s m).rel = some x := Option.ne_none_iff_exists'.1 (hs m hm)
    obtain ⟨⟨y, hy, -⟩, -⟩ := hres m hm q hq x hx
    rw [hy]
    simp
  obtain ⟨s'', e', -, hres'⟩ := C149_result hi hr hs'
  have hpn : Parts rNmod rNmod [] := parts_plain (by decide)
  have h1 : (s' n).rel = some rNmod := by
    obtain ⟨⟨y, hy, hR⟩, -⟩ := hres n hn p hnp rNmod hrn
    rw [hy, ((hR.1 _ _ hpn).2.1 rfl).2 ?_, if_neg (by decide)]
    have : (seen h r s s' n p).upos = some sNOUN := by
      unfold seen
      rw [if_neg (fun k => by omega), hup]
    unfold Pred
    rw [this]
    rintro (k | k | k | ⟨k, -⟩) <;> exact absurd k (by decide)
  have h2 : (s' p).upos = some sAUX := by
    obtain ⟨q, hq, -⟩ := w.parentIn p hp
    obtain ⟨-, ⟨u1, -⟩, -⟩ := hres p hp q hq rCop hrp
    exact u1 rfl (by rw [hup]; decide) (by rw [hup]; decide)
  refine ⟨s', s'', e, e', h1, ?_⟩
  obtain ⟨⟨y, hy, hR⟩, -⟩ := hres' n hn p hnp rNmod h1
  rw [hy, ((hR.1 _ _ hpn).2.1 rfl).1 ?_]
  · rfl
  · refine .inr (.inl ?_)
    unfold seen
    rw [if_neg (fun k => by omega), h2]

/-- A noun with the relation `neg` and a feature Negative other than Neg gets the polarity from that feature, and Polarity=Neg in a second
run. -/
theorem C149_polarity_violated (hi : Inv h) (hr : IsTree h r) (hs : ∀ n ∈ h.words r, (s n).rel ≠ none) {n : Nat} (hn : n ∈ h.words r)
    (hrn : (s n).rel = some rNeg) (hun : (s n).upos = some sNOUN) (hfn : (s n).feats fNegative ≠ []) (hpt : ¬ vNeg <:+: (s n).feats fPronType) :
    ∃ s' s'', localEdits h r s = (s', none) ∧ localEdits h r s' = (s'', none) ∧ (s' n).feats fPolarity = (s n).feats fNegative ∧
      (s'' n).feats fPolarity = vNeg := by
  have w := hi r hr
  obtain ⟨s', e, -, hres⟩ := C149_result hi hr hs
  have hs' : ∀ n ∈ h.words r, (s' n).rel ≠ none := fun m hm => by
    obtain ⟨q, hq, -⟩ := w.parentIn m hm
    obtain ⟨x, hx⟩ : ∃ x, (s m).rel = some x := Option.ne_none_iff_exists'.1 (hs m hm)
    obtain ⟨⟨y, hy, -⟩, -⟩ := hres m hm q hq x hx
    rw [hy]
    simp
  obtain ⟨s'', e', -, hres'⟩ := C149_result hi hr hs'
  obtain ⟨p, hp, -⟩ := w.parentIn n hn
  obtain ⟨⟨y, hy, hR⟩, -, f1, f2, f3, f4, f5, f6, f7, f8, f9⟩ := hres n hn p hp rNeg hrn
  have hyn : y = rNeg := (hR.2 rfl).2.2 (by rw [hun]; decide) (by rw [hun]; decide) (by rw [hun]; decide) (by rw [hun]; decide) (by rw [hun]; decide)
  subst hyn
  obtain ⟨-, -, g1, g2, g3, g4, g5, g6, g7, g8, g9⟩ := hres' n hn p hp rNeg hy
  exact ⟨s', s'', e, e', f6 hfn, g7 f5 rfl (by rw [f9 _ (by decide)]; exact hpt)⟩

end Lemmas

/-! ## Examples -/

/-- 1 "not", 2 "house", 3 "yesterday", 4 "is", 5 "him": 1, 3 and 5 below 4, 2 below 1. -/
def exLo : Heap := runOps Heap.init [.newTree, .createChild 0, .createChild 1, .createChild 0, .createChild 0, .createChild 0, .setParent 1 (some 4), .setParent 3 (some 4), .setParent 5 (some 4)]

def exLoS : Nat → Word := fun x =>
  if x = 1 then ⟨some sINTJ, some rNeg, fun k => if k = fNegative then vNeg else []⟩
  else if x = 2 then ⟨some sCONJ, some (rForeign ++ [':', 'x']), fun _ => []⟩
  else if x = 3 then ⟨some sNOUN, some (rNmod ++ [':'] ++ tTmod), fun _ => []⟩
  else if x = 4 then ⟨some sVERB, some ['r', 'o', 'o', 't'], fun k => if k = fAspect then vPro else []⟩
  else if x = 5 then ⟨some sPRON, some ['d', 'o', 'b', 'j'], fun _ => []⟩
  else ⟨none, none, fun _ => []⟩

example : let res := localEdits exLo 0 exLoS
    res.2 = none ∧ [1, 2, 3, 4, 5].map (fun x => (res.1 x).rel) =
      [some rAdvmod, some ['f', 'l', 'a', 't', ':', 'x'], some (rObl ++ [':'] ++ tTmod), some ['r', 'o', 'o', 't'], some ['o', 'b', 'j']] ∧
    [1, 2, 3, 4, 5].map (fun x => (res.1 x).upos) = [some sPART, some sCCONJ, some sNOUN, some sVERB, some sPRON] := by decide

example : let res := localEdits exLo 0 exLoS
    (res.1 1).feats fPolarity = vNeg ∧ (res.1 1).feats fNegative = [] ∧ (res.1 2).feats fForeign = vYes ∧ (res.1 4).feats fAspect = vProsp := by decide

end Verif.Blocks.Local
