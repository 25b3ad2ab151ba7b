import Verif.Blocks.Basic
import Verif.Tree.Props

/-!
# Property C145: corefud.FixToValidate (udapi/block/corefud/fixtovalidate.py)

The first two steps are modelled for one tree (they treat the trees of a document independently). Enhanced dependencies are left out.
-/

namespace Verif.Blocks.Validate
open Verif.Py Verif.Tree Verif.Blocks

abbrev Rels := Nat → Option Str

def rRoot : Str := ['r', 'o', 'o', 't']
def rCc : Str := ['c', 'c']
def rAmod : Str := ['a', 'm', 'o', 'd']
def rObl : Str := ['o', 'b', 'l']
def rParataxis : Str := ['p', 'a', 'r', 'a', 't', 'a', 'x', 'i', 's']
def pPunct : Str := ['P', 'U', 'N', 'C', 'T']
def pCconj : Str := ['C', 'C', 'O', 'N', 'J']
def pAdj : Str := ['A', 'D', 'J']
def pPropn : Str := ['P', 'R', 'O', 'P', 'N']
def pNoun : Str := ['N', 'O', 'U', 'N']
def pVerb : Str := ['V', 'E', 'R', 'B']

/-- `_set_root_deprel` for one tree (fixtovalidate.py:6-10) -/
def setRoot (d : Rels) (children : List Nat) : Rels :=
  children.foldl (fun d x => if d x ≠ some rRoot then upd d x (some rRoot) else d) d

/-- fixtovalidate.py:19-26; `u` is `node.upos`, `pu` is `parent.upos` -/
def newRel (u pu : Option Str) : Str :=
  if u = some pCconj then rCc
  else if u = some pAdj ∧ pu = some pPropn then rAmod
  else if u = some pNoun ∧ pu = some pVerb then rObl
  else rParataxis

/-- The body of the loop in `_unset_root_deprel` (fixtovalidate.py:14-26) -/
def unsetStep (upos : Nat → Option Str) (s : Heap × Rels) (x : Nat) : (Heap × Rels) × Option Err :=
  match s.1.parent x with
  | none => (s, none)
  | some p =>
    if s.2 x = some rRoot ∧ ¬ isRoot s.1 p then
      if upos p = some pPunct ∧ s.1.parent p ≠ none then
        match setParent s.1 x (s.1.parent p) with
        | (h, some e) => ((h, s.2), some e)
        | (h, none) => ((h, upd s.2 x (some (newRel (upos x) (upos p)))), none)
      else ((s.1, upd s.2 x (some (newRel (upos x) (upos p)))), none)
    else (s, none)

/-- The first two steps for one tree (fixtovalidate.py:37-38). -/
def fixRoots (upos : Nat → Option Str) (h : Heap) (d : Rels) (r : Nat) : (Heap × Rels) × Option Err :=
  forNodes (unsetStep upos) (h, setRoot d (h.children r)) (h.words r)

/-- A sentence for `_space_before_pardoc`: is `newdoc` or `newpar` set, and `no_space_after` of its words. -/
structure Sent where
  start : Bool
  noSpace : List Bool
  deriving DecidableEq, Repr

/-- `del last_node.misc["SpaceAfter"]` if `last_node.no_space_after` -/
def clearLast (s : Sent) : Sent := { s with noSpace := s.noSpace.dropLast ++ [false] }

/-- `_space_before_pardoc` (fixtovalidate.py:28-34). `none`: IndexError. -/
def fixSpaces : List Sent → Option (List Sent)
  | [] => some []
  | s :: rest =>
    if s.noSpace = [] then none
    else (fixSpaces rest).map (fun r => (if (rest.head?.map (·.start)).getD false then clearLast s else s) :: r)

/-! ## Proofs -/

section Lemmas
variable {upos : Nat → Option Str} {h : Heap} {r : Nat}

theorem setRoot_eq (d : Rels) (l : List Nat) (x : Nat) : setRoot d l x = if x ∈ l then some rRoot else d x := by
  unfold setRoot
  induction l generalizing d with
  | nil => simp
  | cons a l ih =>
    rw [List.foldl_cons, ih]
    by_cases hx : x ∈ l
    · simp [hx]
    · rw [if_neg hx]
      by_cases hxa : x = a
      · subst hxa
        rw [if_pos (List.mem_cons_self ..)]
        split
        · exact upd_same ..
        · rename_i hc
          exact Decidable.not_not.1 hc
      · rw [if_neg (show ¬ x ∈ a :: l from fun k => (List.mem_cons.1 k).elim hxa hx)]
        split
        · exact upd_ne _ _ hxa
        · rfl

theorem newRel_ne (u pu : Option Str) : newRel u pu ≠ rRoot := by
  unfold newRel
  split
  · decide
  · split
    · decide
    · split <;> decide

/-- The new relation: cc exactly for conjunctions, amod exactly for adjectives below proper nouns, obl exactly for nouns below verbs, parataxis
for all other words. -/
theorem C145_relation (u pu : Option Str) :
    (newRel u pu = rCc ↔ u = some pCconj) ∧ (newRel u pu = rAmod ↔ u = some pAdj ∧ pu = some pPropn) ∧
      (newRel u pu = rObl ↔ u = some pNoun ∧ pu = some pVerb) ∧
      (newRel u pu = rParataxis ↔ u ≠ some pCconj ∧ ¬ (u = some pAdj ∧ pu = some pPropn) ∧ ¬ (u = some pNoun ∧ pu = some pVerb)) := by
  unfold newRel
  have h1 : some pCconj ≠ some pAdj := by decide
  have h2 : some pCconj ≠ some pNoun := by decide
  have h3 : some pAdj ≠ some pNoun := by decide
  have d1 : rCc ≠ rAmod := by decide
  have d2 : rCc ≠ rObl := by decide
  have d3 : rCc ≠ rParataxis := by decide
  have d4 : rAmod ≠ rObl := by decide
  have d5 : rAmod ≠ rParataxis := by decide
  have d6 : rObl ≠ rParataxis := by decide
  by_cases c1 : u = some pCconj
  · subst c1
    simp [h1, h2, d1, d2, d3]
  · by_cases c2 : u = some pAdj ∧ pu = some pPropn
    · obtain ⟨rfl, rfl⟩ := c2
      simp [h1.symm, h3, d1.symm, d4, d5]
    · by_cases c3 : u = some pNoun ∧ pu = some pVerb
      · obtain ⟨rfl, rfl⟩ := c3
        simp [h2.symm, h3.symm, d2.symm, d4.symm, d6]
      · simp [c1, c2, c3, d3.symm, d5.symm, d6.symm]

/-- The block ends without an exception; words and order stay, and the tree is well formed again. Words below the technical root stay there
and have the relation root. Other words with the relation root get another relation; their parent stays unless it is punctuation, in which case
they move to a node above it. All other words keep parents and relations. -/
theorem C145_roots (hh : Inv h) (hr : IsTree h r) (d : Rels) :
    ∃ h' d', fixRoots upos h d r = ((h', d'), none) ∧ WF h' r ∧ h'.words = h.words ∧ h'.ord = h.ord ∧
      ∀ x ∈ h.words r, ∀ p, h.parent x = some p →
        (p = r → h'.parent x = some r ∧ d' x = some rRoot) ∧
        (p ≠ r → d x = some rRoot → d' x = some (newRel (upos x) (upos p)) ∧ (upos p ≠ some pPunct → h'.parent x = some p) ∧
          (upos p = some pPunct → ∃ q, h'.parent x = some q ∧ Anc h q p ∧ (h.parent p = some r → q = r))) ∧
        (p ≠ r → d x ≠ some rRoot → d' x = d x ∧ h'.parent x = some p) := by
  have w0 := hh r hr
  have hd1 : ∀ x ∈ h.words r, ∀ p, h.parent x = some p → setRoot d (h.children r) x = if p = r then some rRoot else d x := by
    intro x hx p hp
    rw [setRoot_eq]
    have : x ∈ h.children r ↔ p = r := by
      rw [w0.childIff r (.inl rfl), hp]
      exact ⟨fun k => Option.some.inj k.2, fun k => ⟨hx, by rw [k]⟩⟩
    by_cases hpr : p = r
    · rw [if_pos (this.2 hpr), if_pos hpr]
    · rw [if_neg (fun k => hpr (this.1 k)), if_neg hpr]
  let Done : Heap → Rels → Nat → Nat → Prop := fun h' d' x p =>
    (p = r → h'.parent x = some r ∧ d' x = some rRoot) ∧
    (p ≠ r → d x = some rRoot → d' x = some (newRel (upos x) (upos p)) ∧ (upos p ≠ some pPunct → h'.parent x = some p) ∧
      (upos p = some pPunct → ∃ q, h'.parent x = some q ∧ Anc h q p ∧ (h.parent p = some r → q = r))) ∧
    (p ≠ r → d x ≠ some rRoot → d' x = d x ∧ h'.parent x = some p)
  obtain ⟨⟨h', d'⟩, e, i, t, w', o', -, -, hdone⟩ := forNodes_inv (unsetStep upos) (fun done s => Inv s.1 ∧ IsTree s.1 r ∧ s.1.words = h.words ∧
      s.1.ord = h.ord ∧ (∀ a b, Anc s.1 a b → Anc h a b) ∧
      (∀ x ∈ h.words r, x ∉ done → s.1.parent x = h.parent x ∧ s.2 x = setRoot d (h.children r) x) ∧
      (∀ x ∈ h.words r, x ∈ done → ∀ p, h.parent x = some p → Done s.1 s.2 x p)) (h.words r) (by
    rintro done x rest ⟨s, ds⟩ hl ⟨i, t, w', o', hanc, hun, hdone⟩
    have hnd := w0.nodup
    have hx : x ∈ h.words r := by rw [hl]; simp
    have hxd : x ∉ done := by
      rw [hl] at hnd
      intro hc
      exact (List.nodup_append.1 hnd).2.2 x hc x (by simp) rfl
    obtain ⟨p, hp, hpin⟩ := w0.parentIn x hx
    obtain ⟨u1, u2⟩ := hun x hx hxd
    simp only at i t w' o' hanc u1 u2
    rw [hd1 x hx p hp] at u2
    rw [hp] at u1
    have ws := i r t
    have hroot : isRoot s p = true ↔ p = r := by
      constructor
      · intro k
        rcases hpin with e | e
        · exact e
        · have := ws.not_root (x := p) (by rw [w']; exact e)
          rw [this] at k
          cases k
      · rintro rfl
        simpa [isRoot] using t.2
    -- how the statement for the whole list follows when only `x` is changed
    have fin : ∀ (s' : Heap) (ds' : Rels), Inv s' → IsTree s' r → s'.words = h.words → s'.ord = h.ord → (∀ a b, Anc s' a b → Anc h a b) →
        (∀ z, z ≠ x → s'.parent z = s.parent z ∧ ds' z = ds z) → Done s' ds' x p →
        Inv s' ∧ IsTree s' r ∧ s'.words = h.words ∧ s'.ord = h.ord ∧ (∀ a b, Anc s' a b → Anc h a b) ∧
          (∀ z ∈ h.words r, z ∉ done ++ [x] → s'.parent z = h.parent z ∧ ds' z = setRoot d (h.children r) z) ∧
          (∀ z ∈ h.words r, z ∈ done ++ [x] → ∀ p, h.parent z = some p → Done s' ds' z p) := by
      intro s' ds' i' t' w'' o'' hanc' hfr hdx
      refine ⟨i', t', w'', o'', hanc', ?_, ?_⟩
      · intro z hz hzd
        obtain ⟨f1, f2⟩ := hfr z (fun e => hzd (by simp [e]))
        obtain ⟨g1, g2⟩ := hun z hz (fun hc => hzd (by simp [hc]))
        exact ⟨f1.trans g1, f2.trans g2⟩
      · intro z hz hzd p' hp'
        by_cases hzx : z = x
        · subst hzx
          have := Option.some.inj (hp.symm.trans hp')
          exact this ▸ hdx
        · have hz' : z ∈ done := by
            rcases List.mem_append.1 hzd with k | k
            · exact k
            · exact absurd (List.mem_singleton.1 k) hzx
          obtain ⟨f1, f2⟩ := hfr z hzx
          have hd := hdone z hz hz' p' hp'
          simp only [Done] at hd ⊢
          rw [f1, f2]
          exact hd
    unfold unsetStep
    simp only [u1]
    by_cases hpr : p = r
    · refine ⟨(s, ds), by rw [if_neg (fun k => k.2 (hroot.2 hpr))], ?_⟩
      refine fin s ds i t w' o' hanc (fun z _ => ⟨rfl, rfl⟩) ⟨fun _ => ⟨by rw [u1, hpr], by rw [u2, if_pos hpr]⟩, fun k => absurd hpr k, fun k => absurd hpr k⟩
    · rw [if_neg hpr] at u2
      by_cases hdr : d x = some rRoot
      · rw [if_pos ⟨u2.trans hdr, fun k => hpr (hroot.1 k)⟩]
        by_cases hpu : upos p = some pPunct
        · have hpw : p ∈ h.words r := hpin.resolve_left hpr
          obtain ⟨g, hg, hgin, hgx, hgn⟩ := lift_target ws (by rw [w']; exact hx) u1 hpr
          obtain ⟨s', e1, i1, t1, w1, r1, o1, p1⟩ := attach_one i t (by rw [w']; exact hx) hgin hgx hgn
          refine ⟨(s', upd ds x (some (newRel (upos x) (upos p)))), by rw [if_pos ⟨hpu, by rw [hg]; exact fun k => (by cases k)⟩, hg, e1], ?_⟩
          refine fin s' _ i1 t1 (by rw [w1, w']) (by rw [o1, o']) (fun a b k => hanc a b (anc_lift u1 hg p1 k)) ?_ ?_
          · intro z hz
            exact ⟨by rw [p1, upd_ne _ _ hz], upd_ne _ _ hz⟩
          · refine ⟨fun k => absurd k hpr, fun _ _ => ⟨upd_same .., fun k => absurd hpu k, fun _ => ⟨g, by rw [p1, upd_same], hanc _ _ (.parent hg), ?_⟩⟩,
              fun _ k => absurd hdr k⟩
            intro hpr'
            have : s.parent p = some r := by
              by_cases hpd : p ∈ done
              · exact ((hdone p hpw hpd r hpr').1 rfl).1
              · rw [(hun p hpw hpd).1, hpr']
            exact Option.some.inj (hg.symm.trans this)
        · refine ⟨(s, upd ds x (some (newRel (upos x) (upos p)))), by rw [if_neg (fun k => hpu k.1)], ?_⟩
          refine fin s _ i t w' o' hanc (fun z hz => ⟨rfl, upd_ne _ _ hz⟩) ?_
          exact ⟨fun k => absurd k hpr, fun _ _ => ⟨upd_same .., fun _ => u1, fun k => absurd k hpu⟩, fun _ k => absurd hdr k⟩
      · refine ⟨(s, ds), by rw [if_neg (fun k => hdr (u2.symm.trans k.1))], ?_⟩
        exact fin s ds i t w' o' hanc (fun z _ => ⟨rfl, rfl⟩) ⟨fun k => absurd k hpr, fun _ k => absurd k hdr, fun _ _ => ⟨u2, u1⟩⟩) (h, setRoot d (h.children r))
    ⟨hh, hr, rfl, rfl, fun _ _ k => k, fun _ _ _ => ⟨rfl, rfl⟩, fun _ _ k => absurd k (by simp)⟩
  exact ⟨h', d', e, i r t, w', o', fun x hx p hp => hdone x hx hx p hp⟩

/-- After the block a word with the relation root depends on the technical root. If no punctuation below the technical root had a dependent
with the relation root, the converse holds, too. -/
theorem C145_valid_partial (hh : Inv h) (hr : IsTree h r) (d : Rels) :
    ∃ h' d', fixRoots upos h d r = ((h', d'), none) ∧ (∀ x ∈ h.words r, d' x = some rRoot → h'.parent x = some r) ∧
      ((∀ x ∈ h.words r, ∀ p, h.parent x = some p → d x = some rRoot → ¬ (upos p = some pPunct)) →
        ∀ x ∈ h.words r, (d' x = some rRoot ↔ h'.parent x = some r)) := by
  obtain ⟨h', d', e, -, -, -, hx⟩ := C145_roots (upos := upos) hh hr d
  have h1 : ∀ x ∈ h.words r, d' x = some rRoot → h'.parent x = some r := by
    intro x hxw hdx
    obtain ⟨p, hp, _⟩ := (hh r hr).parentIn x hxw
    obtain ⟨k1, k2, k3⟩ := hx x hxw p hp
    by_cases hpr : p = r
    · exact (k1 hpr).1
    · by_cases hdr : d x = some rRoot
      · rw [(k2 hpr hdr).1] at hdx
        exact absurd (Option.some.inj hdx) (newRel_ne _ _)
      · rw [(k3 hpr hdr).1] at hdx
        exact absurd hdx hdr
  refine ⟨h', d', e, h1, fun hno x hxw => ⟨h1 x hxw, fun hp' => ?_⟩⟩
  obtain ⟨p, hp, _⟩ := (hh r hr).parentIn x hxw
  obtain ⟨k1, k2, k3⟩ := hx x hxw p hp
  by_cases hpr : p = r
  · exact (k1 hpr).2
  · by_cases hdr : d x = some rRoot
    · rw [(k2 hpr hdr).2.1 (hno x hxw p hp hdr)] at hp'
      exact absurd (Option.some.inj hp') hpr
    · rw [(k3 hpr hdr).2] at hp'
      exact absurd (Option.some.inj hp') hpr

/-- A word with the relation root whose parent is punctuation below the technical root moves to the technical root and gets the relation cc or
parataxis there: the block makes this tree invalid. -/
theorem C145_punct_violated (hh : Inv h) (hr : IsTree h r) (d : Rels) {x p : Nat} (hx : x ∈ h.words r) (hp : h.parent x = some p) (hpr : h.parent p = some r)
    (hdx : d x = some rRoot) (hu : upos p = some pPunct) :
    ∃ h' d', fixRoots upos h d r = ((h', d'), none) ∧ h'.parent x = some r ∧ (d' x = some rCc ∨ d' x = some rParataxis) := by
  obtain ⟨h', d', e, -, -, -, hxx⟩ := C145_roots (upos := upos) hh hr d
  have hne : p ≠ r := fun k => by rw [k, (hh r hr).rootParent] at hpr; cases hpr
  obtain ⟨k1, -, k3⟩ := (hxx x hx p hp).2.1 hne hdx
  obtain ⟨q, hq, -, hqr⟩ := k3 hu
  refine ⟨h', d', e, by rw [hq, hqr hpr], ?_⟩
  rw [k1]
  unfold newRel
  rw [hu]
  split
  · exact .inl rfl
  · rw [if_neg (fun k => absurd k.2 (by decide)), if_neg (fun k => absurd k.2 (by decide))]
    exact .inr rfl

end Lemmas

/-- If every sentence has a word: no sentence before a new paragraph or document ends without a space; everything else stays. -/
theorem C145_space_partial (l : List Sent) (hl : ∀ s ∈ l, s.noSpace ≠ []) :
    ∃ l', fixSpaces l = some l' ∧ l'.length = l.length ∧
      ∀ (i : Nat) s, l[i]? = some s → ∃ s', l'[i]? = some s' ∧ s'.start = s.start ∧ s'.noSpace.length = s.noSpace.length ∧
        (∀ k, k + 1 < s.noSpace.length → s'.noSpace[k]? = s.noSpace[k]?) ∧
        (∀ t, l[i + 1]? = some t → t.start = true → s'.noSpace.getLast? = some false) ∧
        ((∀ t, l[i + 1]? = some t → t.start = false) → s' = s) := by
  induction l with
  | nil => exact ⟨[], rfl, rfl, fun i s k => (by simp at k)⟩
  | cons a l ih =>
    obtain ⟨l', e, hlen, hl'⟩ := ih (fun s hs => hl s (List.mem_cons_of_mem _ hs))
    have ha := hl a (List.mem_cons_self ..)
    refine ⟨_, by rw [fixSpaces, if_neg ha, e, Option.map_some], by simp [hlen], fun i s hi => ?_⟩
    cases i with
    | succ i =>
      simp only [List.getElem?_cons_succ] at hi ⊢
      exact hl' i s hi
    | zero =>
      have : a = s := by simpa using hi
      subst this
      have hn : ∀ t, (a :: l)[0 + 1]? = some t ↔ l.head? = some t := by
        intro t
        cases l <;> simp
      have hpos : 0 < a.noSpace.length := List.length_pos_iff.2 ha
      simp only [List.getElem?_cons_zero, Option.some.injEq, exists_eq_left', hn]
      cases hh : l.head? with
      | none => simp
      | some t =>
        simp only [Option.map_some, Option.getD_some, Option.some.injEq, forall_eq']
        by_cases hs : t.start = true
        · simp only [hs, if_true, clearLast]
          refine ⟨trivial, by simp; omega, fun k hk => ?_, fun _ => by simp, fun k => (by cases k)⟩
          rw [List.getElem?_append_left (by simp; omega), List.getElem?_dropLast, if_pos (by omega)]
        · simp [hs]

/-- A sentence without words makes the block fail, wherever it is. -/
theorem C145_empty_violated (l : List Sent) {s : Sent} (hs : s ∈ l) (he : s.noSpace = []) : fixSpaces l = none := by
  induction l with
  | nil => cases hs
  | cons a l ih =>
    rw [fixSpaces]
    rcases List.mem_cons.1 hs with rfl | hs
    · rw [if_pos he]
    · split
      · rfl
      · rw [ih hs]
        rfl

example : fixSpaces [⟨true, [true, true]⟩, ⟨false, [true]⟩, ⟨true, [false, true]⟩] =
    some [⟨true, [true, true]⟩, ⟨false, [false]⟩, ⟨true, [false, true]⟩] := by decide

/-- `ex` (2 and 4 depend on 1, 3 on 4) with the relation root everywhere; 1 is punctuation. -/
example : let res := fixRoots (fun x => if x = 1 then some pPunct else none) ex (fun _ => some rRoot) 0
    res.2 = none ∧ [1, 2, 3, 4].map res.1.1.parent = [some 0, some 0, some 4, some 0] ∧
      [1, 2, 3, 4].map res.1.2 = [some rRoot, some rParataxis, some rParataxis, some rParataxis] := by decide

end Verif.Blocks.Validate
