import Verif.Py.Str

/-!
# Properties C95 and C96: bridging links of mentions (udapi/core/coref.py:214-218, 413-532)

Mentions and `BridgingLinks` objects are named by numbers; entities are values of any type with decidable identity. Every operation
returns the new state together with an exception, if any.
Simplified: `strict` is `True`, as everywhere in coref.py; a new link is a pair of an entity and a relation, so that `v[0]` and `v[1]`
work; positions of links are natural numbers.
-/

namespace Verif.Coref.B
open Verif.Py

/-- `BridgingLink` (coref.py:413-418) -/
structure Link (ε : Type) where
  target : ε
  relation : Str
  deriving DecidableEq

/-- `_entity` and `_bridging` of the mentions, `src_mention` and `_data` of the `BridgingLinks` objects. -/
structure St (ε : Type) where
  entOf : Nat → ε
  bridging : Nat → Option Nat
  src : Nat → Nat
  data : Nat → List (Link ε)
  next : Nat

inductive Err
  | valueError | indexError | keyError | typeError
  deriving DecidableEq

def upd {α : Type} (f : Nat → α) (k : Nat) (v : α) : Nat → α := fun x => if x = k then v else f x

variable {ε : Type} [DecidableEq ε]

/-- `BridgingLinks(m)` or `BridgingLinks(m, [])` (coref.py:474-487) -/
def newLinks (s : St ε) (m : Nat) : St ε × Nat :=
  ({ s with bridging := upd s.bridging m (some s.next), src := upd s.src s.next m, data := upd s.data s.next [], next := s.next + 1 }, s.next)

/-- `m.bridging` (coref.py:214-218); an object without links is false. -/
def getBridging (s : St ε) (m : Nat) : St ε × Nat :=
  match s.bridging m with
  | none => newLinks s m
  | some b => if s.data b = [] then newLinks s m else (s, b)

/-- `bl.insert(k, l)` (coref.py:504-507) -/
def insertLink (s : St ε) (b k : Nat) (l : Link ε) : St ε × Option Err :=
  if l.target = s.entOf (s.src b) then (s, some .valueError)
  else ({ s with data := upd s.data b ((s.data b).take k ++ l :: (s.data b).drop k) }, none)

/-- `bl.append(l)`: `self.insert(len(self), l)` of `MutableSequence`. -/
def appendLink (s : St ε) (b : Nat) (l : Link ε) : St ε × Option Err := insertLink s b (s.data b).length l

/-- `bl[k] = l` (coref.py:496-499) -/
def setLink (s : St ε) (b k : Nat) (l : Link ε) : St ε × Option Err :=
  if l.target = s.entOf (s.src b) then (s, some .valueError)
  else if k < (s.data b).length then ({ s with data := upd s.data b ((s.data b).set k l) }, none)
  else (s, some .indexError)

/-- `del bl[k]` (coref.py:501-502) -/
def delLink (s : St ε) (b k : Nat) : St ε × Option Err :=
  if k < (s.data b).length then ({ s with data := upd s.data b ((s.data b).eraseIdx k) }, none)
  else (s, some .indexError)

/-- `bl(relations_re)` (coref.py:513-520), where `p` tells which relations match. The constructor is called with a list of
`BridgingLink` objects and reads `v[0]` of each (coref.py:481), which raises `TypeError`. -/
def query (s : St ε) (b : Nat) (p : Str → Bool) : St ε × Except Err Nat :=
  match (s.data b).filter (fun l => p l.relation) with
  | [] => let (s', b') := newLinks s (s.src b); (s', .ok b')
  | _ :: _ => (s, .error .typeError)

/-- Calls on mentions and links. -/
inductive Op (ε : Type) where
  | get (m : Nat)
  | insert (b k : Nat) (l : Link ε)
  | set (b k : Nat) (l : Link ε)
  | del (b k : Nat)
  | query (b : Nat) (p : Str → Bool)

def Op.run (s : St ε) : Op ε → St ε
  | .get m => (getBridging s m).1
  | .insert b k l => (insertLink s b k l).1
  | .set b k l => (setLink s b k l).1
  | .del b k => (delLink s b k).1
  | .query b p => (B.query s b p).1

/-- The object a call refers to exists. -/
def Op.Ok (s : St ε) : Op ε → Prop
  | .get _ => True
  | .insert b _ _ => b < s.next
  | .set b _ _ => b < s.next
  | .del b _ => b < s.next
  | .query b _ => b < s.next

/-- No mention has links yet. -/
def init (entOf : Nat → ε) : St ε := ⟨entOf, fun _ => none, fun _ => 0, fun _ => [], 0⟩

/-- States that arise by calls. -/
inductive Reach (entOf : Nat → ε) : St ε → Prop
  | init : Reach entOf (init entOf)
  | step {s : St ε} (o : Op ε) : Reach entOf s → o.Ok s → Reach entOf (o.run s)

/-! ## Specification vocabulary -/

/-- The links of a mention, as `entity.all_bridging()` lists them (coref.py:392-396) and as they are stored in MISC. -/
def links (s : St ε) (m : Nat) : List (Link ε) :=
  match s.bridging m with
  | none => []
  | some b => s.data b

/-! ## Proofs -/

theorem upd_same {α : Type} (f : Nat → α) (k : Nat) (v : α) : upd f k v k = v := by simp [upd]
theorem upd_other {α : Type} (f : Nat → α) {k x : Nat} (v : α) (h : x ≠ k) : upd f k v x = f x := by simp [upd, h]

/-- Every mention has its own object. -/
structure Inv (s : St ε) : Prop where
  src : ∀ m b, s.bridging m = some b → s.src b = m ∧ b < s.next

omit [DecidableEq ε] in
theorem newLinks_inv {s : St ε} (h : Inv s) (m : Nat) : Inv (newLinks s m).1 := by
  constructor
  intro m' b hb
  simp only [newLinks] at hb ⊢
  by_cases hm : m' = m
  · subst hm
    rw [upd_same] at hb
    obtain rfl := Option.some.inj hb
    exact ⟨upd_same .., Nat.lt_succ_self _⟩
  · rw [upd_other _ _ hm] at hb
    obtain ⟨h1, h2⟩ := h.src m' b hb
    rw [upd_other _ _ (Nat.ne_of_lt h2)]
    exact ⟨h1, Nat.lt_succ_of_lt h2⟩

omit [DecidableEq ε] in
theorem getBridging_inv {s : St ε} (h : Inv s) (m : Nat) : Inv (getBridging s m).1 := by
  unfold getBridging
  split
  · exact newLinks_inv h m
  · split
    · exact newLinks_inv h m
    · exact h

theorem run_inv {s : St ε} (h : Inv s) (o : Op ε) : Inv (o.run s) := by
  cases o with
  | get m => exact getBridging_inv h m
  | insert b k l =>
    unfold Op.run insertLink
    simp only
    split
    · exact h
    · exact ⟨h.src⟩
  | set b k l =>
    unfold Op.run setLink
    simp only
    repeat' split
    · exact h
    · exact ⟨h.src⟩
    · exact h
  | del b k =>
    unfold Op.run delLink
    simp only
    split
    · exact ⟨h.src⟩
    · exact h
  | query b p =>
    unfold Op.run B.query
    simp only
    split
    · exact newLinks_inv h _
    · exact h

theorem reach_inv {entOf : Nat → ε} {s : St ε} (h : Reach entOf s) : Inv s := by
  induction h with
  | init => exact ⟨fun m b hb => by cases hb⟩
  | step o _ _ ih => exact run_inv ih o

theorem run_entOf (s : St ε) (o : Op ε) : (o.run s).entOf = s.entOf := by
  cases o <;> unfold Op.run
  · simp only [getBridging]
    repeat' split
    all_goals rfl
  · simp only [insertLink]; split <;> rfl
  · simp only [setLink]; repeat' split
    all_goals rfl
  · simp only [delLink]; split <;> rfl
  · simp only [B.query]; split <;> rfl

theorem reach_entOf {entOf : Nat → ε} {s : St ε} (h : Reach entOf s) : s.entOf = entOf := by
  induction h with
  | init => rfl
  | step o _ _ ih => rw [run_entOf, ih]

omit [DecidableEq ε] in
/-- Editing an object changes the links of its mention only. -/
theorem links_edit {s : St ε} (h : Inv s) {m b : Nat} (hb : s.bridging m = some b) (l : List (Link ε)) :
    links { s with data := upd s.data b l } m = l ∧ ∀ m', m' ≠ m → links { s with data := upd s.data b l } m' = links s m' := by
  constructor
  · simp only [links, hb]
    exact upd_same ..
  · intro m' hm
    simp only [links]
    cases hb' : s.bridging m' with
    | none => rfl
    | some b' =>
      simp only
      refine upd_other _ _ ?_
      rintro rfl
      exact hm ((h.src m' b' hb').1.symm.trans (h.src m b' hb).1)

/-- C95, the part that holds: reading `m.bridging` does not change the links of any mention. If `m` has links, the object is always the
same. Links inserted, replaced or deleted through the object of a mention are those of the mention, and no other mention changes.
A link to the entity of the mention itself is rejected, and nothing changes.
What is missing: edits through an object read while the mention had no links. -/
theorem C95_edit_partial {entOf : Nat → ε} {s : St ε} (h : Reach entOf s) (m : Nat) :
    (∀ m', links (getBridging s m).1 m' = links s m') ∧
    (links s m ≠ [] → ∃ b, getBridging s m = (s, b) ∧ s.bridging m = some b) ∧
    (getBridging s m).1.bridging m = some (getBridging s m).2 ∧
    ∀ b, s.bridging m = some b → ∀ k l,
      (l.target = entOf m → insertLink s b k l = (s, some .valueError) ∧ setLink s b k l = (s, some .valueError)) ∧
      (l.target ≠ entOf m → ∃ s', insertLink s b k l = (s', none) ∧ links s' m = (links s m).take k ++ l :: (links s m).drop k ∧
        ∀ m', m' ≠ m → links s' m' = links s m') ∧
      (l.target ≠ entOf m → k < (links s m).length → ∃ s', setLink s b k l = (s', none) ∧ links s' m = (links s m).set k l ∧
        ∀ m', m' ≠ m → links s' m' = links s m') ∧
      (k < (links s m).length → ∃ s', delLink s b k = (s', none) ∧ links s' m = (links s m).eraseIdx k ∧
        ∀ m', m' ≠ m → links s' m' = links s m') := by
  have hi := reach_inv h
  have hnew : links s m = [] → ∀ m', links (newLinks s m).1 m' = links s m' := by
    intro he m'
    by_cases hm : m' = m
    · subst hm
      rw [he]
      simp only [links, newLinks, upd_same]
    · simp only [links, newLinks]
      rw [upd_other _ _ hm]
      cases hb' : s.bridging m' with
      | none => rfl
      | some b' => exact upd_other _ _ (Nat.ne_of_lt (hi.src m' b' hb').2)
  refine ⟨?_, ?_, ?_, ?_⟩
  · unfold getBridging
    cases hb : s.bridging m with
    | none => exact hnew (by simp [links, hb])
    | some b =>
      simp only
      split
      · rename_i hd
        exact hnew (by simp [links, hb, hd])
      · exact fun _ => rfl
  · intro hne
    unfold getBridging
    cases hb : s.bridging m with
    | none => exact absurd (by simp [links, hb]) hne
    | some b =>
      refine ⟨b, ?_, rfl⟩
      simp only
      rw [if_neg (fun hd => hne (by simp [links, hb, hd]))]
  · unfold getBridging
    cases hb : s.bridging m with
    | none => exact upd_same ..
    | some b =>
      simp only
      split
      · exact upd_same ..
      · exact hb
  · intro b hb k l
    have hsrc : s.entOf (s.src b) = entOf m := by rw [(hi.src m b hb).1, reach_entOf h]
    have hl : links s m = s.data b := by simp [links, hb]
    refine ⟨?_, ?_, ?_, ?_⟩
    · intro he
      rw [← hsrc] at he
      exact ⟨if_pos he, if_pos he⟩
    · intro he
      rw [← hsrc] at he
      unfold insertLink
      rw [if_neg he, hl]
      exact ⟨_, rfl, links_edit hi hb _⟩
    · intro he hk
      rw [← hsrc] at he
      rw [hl] at hk
      unfold setLink
      rw [if_neg he, if_pos hk, hl]
      exact ⟨_, rfl, links_edit hi hb _⟩
    · intro hk
      rw [hl] at hk
      unfold delLink
      rw [if_pos hk, hl]
      exact ⟨_, rfl, links_edit hi hb _⟩

/-- `m.bridging.append(l)` -/
def addLink (s : St ε) (m : Nat) (l : Link ε) : St ε × Option Err := appendLink (getBridging s m).1 (getBridging s m).2 l

/-- C95: `m.bridging.append(l)` adds the link to the links of `m`, also if there were none, and changes no other mention. -/
theorem C95_append_partial {entOf : Nat → ε} {s : St ε} (h : Reach entOf s) (m : Nat) (l : Link ε) (hl : l.target ≠ entOf m) :
    ∃ s', addLink s m l = (s', none) ∧ Reach entOf s' ∧ links s' m = links s m ++ [l] ∧ ∀ m', m' ≠ m → links s' m' = links s m' := by
  obtain ⟨h1, _, h3, _⟩ := C95_edit_partial h m
  have hg : Reach entOf (getBridging s m).1 := .step (.get m) h trivial
  obtain ⟨_, _, _, h4⟩ := C95_edit_partial hg m
  obtain ⟨s', e, hm, ho⟩ := (h4 _ h3 ((getBridging s m).1.data (getBridging s m).2).length l).2.1 hl
  have hd : links (getBridging s m).1 m = (getBridging s m).1.data (getBridging s m).2 := by
    unfold links
    rw [h3]
  refine ⟨s', e, ?_, ?_, fun m' hm' => by rw [ho m' hm', h1]⟩
  · have := Reach.step (.insert (getBridging s m).2 ((getBridging s m).1.data (getBridging s m).2).length l) hg
      ((reach_inv hg).src m _ h3).2
    unfold Op.run at this
    simp only at this
    rw [e] at this
    exact this
  · rw [hm, ← h1 m, hd, List.take_length, List.drop_length]

/-- C95 does not hold: if `m` has no links, a link appended to an object read before another look at `m.bridging` is lost, for every
mention and link. -/
theorem C95_lost_violated {entOf : Nat → ε} {s : St ε} (h : Reach entOf s) (m : Nat) (l : Link ε) (he : links s m = []) :
    links (appendLink (getBridging (getBridging s m).1 m).1 (getBridging s m).2 l).1 m = [] := by
  have hi := reach_inv h
  have hg : getBridging s m = newLinks s m := by
    unfold getBridging
    cases hb : s.bridging m with
    | none => rfl
    | some b =>
      simp only
      rw [if_pos (by simpa [links, hb] using he)]
  have hb1 : (newLinks s m).1.bridging m = some s.next := upd_same ..
  have hd1 : (newLinks s m).1.data s.next = [] := upd_same ..
  have hg2 : getBridging (newLinks s m).1 m = newLinks (newLinks s m).1 m := by
    conv => lhs; unfold getBridging
    rw [hb1]
    simp only
    rw [if_pos hd1]
  rw [hg, hg2]
  have hb2 : (newLinks (newLinks s m).1 m).1.bridging m = some (s.next + 1) := upd_same ..
  have hd2 : (newLinks (newLinks s m).1 m).1.data (s.next + 1) = [] := upd_same ..
  unfold appendLink insertLink
  split
  · unfold links
    rw [hb2]
    exact hd2
  · unfold links
    simp only
    rw [hb2]
    simp only
    rw [upd_other]
    · exact hd2
    · exact Nat.succ_ne_self _

/-- C96 does not hold for any mention with links: selecting links by relation raises `TypeError` if some link matches. If none
matches, all links of the mention are lost. -/
theorem C96_query_violated {entOf : Nat → ε} {s : St ε} (h : Reach entOf s) {m b : Nat} (hb : s.bridging m = some b)
    (p : Str → Bool) :
    ((∃ l ∈ links s m, p l.relation = true) → (query s b p).2 = .error .typeError) ∧
    ((∀ l ∈ links s m, p l.relation = false) → ∃ b', (query s b p).2 = .ok b' ∧ links (query s b p).1 m = []) := by
  have hl : links s m = s.data b := by simp [links, hb]
  rw [hl]
  constructor
  · rintro ⟨l, hm, hp⟩
    unfold query
    cases hf : (s.data b).filter (fun l => p l.relation) with
    | nil => exact absurd hp (by simpa using List.filter_eq_nil_iff.1 hf l hm)
    | cons => rfl
  · intro hn
    have hf : (s.data b).filter (fun l => p l.relation) = [] := List.filter_eq_nil_iff.2 (fun l hl => by simp [hn l hl])
    unfold query
    rw [hf]
    refine ⟨s.next, rfl, ?_⟩
    simp only [newLinks, links, ((reach_inv h).src m b hb).1, upd_same]

/-- C96, the part that holds: a rejected selection changes nothing, and no selection changes the links of other mentions.
What is missing: the result, and that the links of the mention itself stay. -/
theorem C96_others_partial {entOf : Nat → ε} {s : St ε} (h : Reach entOf s) {m b : Nat} (hb : s.bridging m = some b) (p : Str → Bool) :
    ((∃ l ∈ links s m, p l.relation = true) → (query s b p).1 = s) ∧ ∀ m', m' ≠ m → links (query s b p).1 m' = links s m' := by
  have hi := reach_inv h
  have hl : links s m = s.data b := by simp [links, hb]
  rw [hl]
  unfold query
  cases hf : (s.data b).filter (fun l => p l.relation) with
  | nil =>
    refine ⟨fun ⟨l, hm, hp⟩ => absurd hp (by simpa using List.filter_eq_nil_iff.1 hf l hm), fun m' hm => ?_⟩
    simp only [newLinks, links, (hi.src m b hb).1]
    rw [upd_other _ _ hm]
    cases hb' : s.bridging m' with
    | none => rfl
    | some b' => exact upd_other _ _ (Nat.ne_of_lt (hi.src m' b' hb').2)
  | cons => exact ⟨fun _ => rfl, fun _ _ => rfl⟩

def sPart : Str := ['p', 'a', 'r', 't']

/-- Mention 1 of entity 10 has a link to entity 20. -/
def exSt : St Nat := (addLink (init (fun m => 10 * m)) 1 ⟨20, sPart⟩).1

example : links exSt 1 = [⟨20, sPart⟩] ∧ links (query exSt 0 (fun r => r == [])).1 1 = [] ∧ (query exSt 0 (fun r => r == sPart)).2.isOk = false ∧
    (addLink exSt 1 ⟨10, sPart⟩).2 = some .valueError := by decide

end Verif.Coref.B
