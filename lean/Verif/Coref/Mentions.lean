import Verif.Py.Sort

/-!
# Properties C79-C82: mentions, their words and their entities (udapi/core/coref.py:113-258, 355-389)

Nodes, mentions and entities are named by numbers. Every operation returns the new state together with an exception, if any.
Simplified: mentions of one zone only, so that comparing two mentions does not raise (C37, C77); the order of nodes is given
by a number, the order of mentions by an arbitrary function `le` of their words and entity; `set` keeps the order.
Comparing a mention that has no words gives it its head as its only word (coref.py:160-163). This effect is left out of the
operations and is a function of its own, `touch`; the histories `Reach` have no mentions without words.
-/

namespace Verif.Coref.M
open Verif.Py

/-- `_words`, `_head` and `_entity` of the mentions, `_mentions` of the nodes and of the entities. -/
structure St where
  words : Nat → List Nat
  head : Nat → Nat
  entOf : Nat → Nat
  back : Nat → List Nat
  ent : Nat → List Nat
  next : Nat

inductive Err
  | valueError | indexError
  deriving DecidableEq

/-- How nodes and mentions are compared: `node.ord` and `not another < self`. -/
structure Cmp where
  ord : Nat → Nat
  le : List Nat × Nat → List Nat × Nat → Bool

def upd {α : Type} (f : Nat → α) (k : Nat) (v : α) : Nat → α := fun x => if x = k then v else f x

/-- The comparison of two mentions in a state. -/
def St.le (c : Cmp) (s : St) (a b : Nat) : Bool := c.le (s.words a, s.entOf a) (s.words b, s.entOf b)

/-- `list(set(ws))` -/
def uniq : List Nat → List Nat
  | [] => []
  | x :: xs => if x ∈ xs then uniq xs else x :: uniq xs

/-- Adding the mention to `node._mentions` (coref.py:123-129 and 242-246). `self > last` is `not self < last and self != last`,
so that both branches leave the list sorted if it was sorted before; the first one does not sort. -/
def addBack (c : Cmp) (s : St) (m x : Nat) : St :=
  match (s.back x).getLast? with
  | none => { s with back := upd s.back x [m] }
  | some l =>
    if s.le c l m then { s with back := upd s.back x (s.back x ++ [m]) }
    else { s with back := upd s.back x (pySort (s.le c) (s.back x ++ [m])) }

/-- The loop over the old words (coref.py:238-242): the mention is removed from the words that are not kept; `list.remove`
raises ValueError when it is not there. -/
def dropBacks (new : List Nat) (m : Nat) : St → List Nat → St × Option Err
  | s, [] => (s, none)
  | s, x :: xs =>
    if x ∈ new then dropBacks new m s xs
    else if m ∈ s.back x then dropBacks new m { s with back := upd s.back x ((s.back x).erase m) } xs
    else (s, some .valueError)

/-- The loop over the new words (coref.py:244-250). -/
def addBacks (c : Cmp) (kept : List Nat) (m : Nat) : St → List Nat → St
  | s, [] => s
  | s, x :: xs => if x ∈ kept then addBacks c kept m s xs else addBacks c kept m (addBack c s m x) xs

/-- `mention.words = new_words` (coref.py:231-250) -/
def setWords (c : Cmp) (s : St) (m : Nat) (new : List Nat) : St × Option Err :=
  if new ≠ [] ∧ s.head m ∉ new then (s, some .valueError)
  else
    let new' := pySort (fun a b => decide (c.ord a ≤ c.ord b)) (uniq new)
    match dropBacks new' m s (s.words m) with
    | (s', some e) => (s', some e)
    | (s', none) =>
      (addBacks c ((s.words m).filter (· ∈ new')) m { s' with words := upd s'.words m new' } new', none)

/-- The argument `span` of `create_mention`: not given (or empty), not a span, or the nodes it denotes (C36). -/
inductive Span
  | no | bad | nodes (ns : List Nat)

def Span.given : Span → Bool
  | .no => false
  | _ => true

/-- `head and ... head not in words` -/
def missing (head : Option Nat) (ws : List Nat) : Bool :=
  match head with
  | none => false
  | some h => !ws.contains h

/-- `mention.span = new_span` (coref.py:256-258) -/
def setSpan (c : Cmp) (s : St) (m : Nat) : Span → St × Option Err
  | .no => (s, some .valueError)
  | .bad => (s, some .valueError)
  | .nodes ns => setWords c s m ns

/-- `CorefMention(words=[head], head=head, entity=e)` (coref.py:113-129) -/
def newMention (c : Cmp) (s : St) (e h : Nat) : St :=
  addBack c { s with words := upd s.words s.next [h], head := upd s.head s.next h, entOf := upd s.entOf s.next e,
                     ent := upd s.ent e (s.ent e ++ [s.next]), next := s.next + 1 } s.next h

/-- `self._mentions.sort()` -/
def sortEnt (c : Cmp) (s : St) (e : Nat) : St := { s with ent := upd s.ent e (pySort (s.le c) (s.ent e)) }

/-- `entity.create_mention(head, words, span)` (coref.py:355-389) -/
def create (c : Cmp) (s : St) (e : Nat) (head : Option Nat) (words : Option (List Nat)) (span : Span) : St × Option Err :=
  let ws := words.getD []
  if ws ≠ [] ∧ span.given = true then (s, some .valueError)
  else if ws ≠ [] ∧ missing head ws = true then (s, some .valueError)
  else
    match head, words with
    | none, none => (s, some .valueError)
    | none, some [] => (s, some .indexError)
    | _, _ =>
      let h := head.getD (ws.headD 0)
      let s1 := newMention c s e h
      let m := s.next
      let r := if ws ≠ [] then setWords c s1 m ws else (s1, none)
      match r with
      | (s2, some err) => (s2, some err)
      | (s2, none) =>
        match span with
        | .no => (sortEnt c s2 e, none)
        | sp =>
          match setSpan c s2 m sp with
          | (s3, some err) => (s3, some err)
          | (s3, none) => (sortEnt c s3 e, none)

/-- `mention.remove()` (coref.py:264-267) -/
def removeM (s : St) (m : Nat) : St × Option Err :=
  match dropBacks [] m s (s.words m) with
  | (s', some e) => (s', some e)
  | (s', none) =>
    if m ∈ s'.ent (s'.entOf m) then
      ({ s' with ent := upd s'.ent (s'.entOf m) ((s'.ent (s'.entOf m)).erase m) }, none)
    else (s', some .valueError)

/-- `bisect.insort`: the element goes before the first one it is smaller than (the list is sorted). -/
def insort (le : Nat → Nat → Bool) (m : Nat) : List Nat → List Nat
  | [] => [m]
  | x :: xs => if le x m then x :: insort le m xs else m :: x :: xs

/-- `mention.entity = new_entity` (coref.py:204-212) -/
def setEntity (c : Cmp) (s : St) (m e : Nat) : St × Option Err :=
  if m ∈ s.ent (s.entOf m) then
    let s' := { s with ent := upd s.ent (s.entOf m) ((s.ent (s.entOf m)).erase m), entOf := upd s.entOf m e }
    ({ s' with ent := upd s'.ent e (insort (s'.le c) m (s'.ent e)) }, none)
  else (s, some .valueError)

/-- `mention.head = new_head` (coref.py:194-198) -/
def setHead (s : St) (m h : Nat) : St × Option Err :=
  if s.words m ≠ [] ∧ h ∉ s.words m then (s, some .valueError)
  else ({ s with head := upd s.head m h }, none)

/-- The effect of a comparison on a mention (coref.py:160-163). -/
def touch (s : St) (m : Nat) : St := if s.words m = [] then { s with words := upd s.words m [s.head m] } else s

/-- A call of the API. -/
inductive Op
  | create (e : Nat) (head : Option Nat) (words : Option (List Nat)) (span : Span)
  | setWords (m : Nat) (ws : List Nat)
  | setSpan (m : Nat) (sp : Span)
  | remove (m : Nat)
  | setEntity (m e : Nat)
  | setHead (m h : Nat)

/-- A mention that was created and not removed. -/
def St.Live (s : St) (m : Nat) : Prop := m ∈ s.ent (s.entOf m)

def Op.run (c : Cmp) (s : St) : Op → St × Option Err
  | .create e h w sp => M.create c s e h w sp
  | .setWords m ws => M.setWords c s m ws
  | .setSpan m sp => M.setSpan c s m sp
  | .remove m => M.removeM s m
  | .setEntity m e => M.setEntity c s m e
  | .setHead m h => M.setHead s m h

/-- The span, if given and readable, denotes some node. -/
def Span.Some : Span → Prop
  | .nodes ns => ns ≠ []
  | _ => True

/-- The mention the call is made on was not removed, and the call does not make a mention empty. -/
def Op.Ok (s : St) : Op → Prop
  | .create _ _ _ sp => sp.Some
  | .setWords m ws => s.Live m ∧ ws ≠ []
  | .setSpan m sp => s.Live m ∧ sp.Some
  | .remove m => s.Live m
  | .setEntity m _ => s.Live m
  | .setHead m _ => s.Live m

/-- A document without mentions. -/
def init : St := ⟨fun _ => [], fun _ => 0, fun _ => 0, fun _ => [], fun _ => [], 0⟩

/-- The states reached by calls, some of which may have been rejected. -/
inductive Reach (c : Cmp) : St → Prop
  | init : Reach c init
  | step {s : St} (o : Op) : Reach c s → o.Ok s → Reach c (o.run c s).1

/-! ## Proofs -/

theorem upd_same {α : Type} (f : Nat → α) (k : Nat) (v : α) : upd f k v k = v := by simp [upd]
theorem upd_other {α : Type} (f : Nat → α) {k x : Nat} (v : α) (h : x ≠ k) : upd f k v x = f x := by simp [upd, h]

theorem mem_uniq {x : Nat} : ∀ {l : List Nat}, x ∈ uniq l ↔ x ∈ l
  | [] => by simp [uniq]
  | y :: l => by
    unfold uniq
    split
    · rename_i hy
      rw [mem_uniq, List.mem_cons]
      constructor
      · exact Or.inr
      · rintro (rfl | h)
        · exact hy
        · exact h
    · rw [List.mem_cons, List.mem_cons, mem_uniq]

theorem nodup_uniq : ∀ (l : List Nat), (uniq l).Nodup
  | [] => by simp [uniq]
  | y :: l => by
    unfold uniq
    split
    · exact nodup_uniq l
    · rename_i hy
      rw [List.nodup_cons]
      exact ⟨fun h => hy (mem_uniq.1 h), nodup_uniq l⟩

theorem insort_perm (le : Nat → Nat → Bool) (m : Nat) : ∀ l : List Nat, (insort le m l).Perm (m :: l)
  | [] => List.Perm.refl _
  | x :: xs => by
    unfold insort
    split
    · exact ((insort_perm le m xs).cons x).trans (List.Perm.swap ..)
    · exact List.Perm.refl _

/-- The consistency of the links: `P` says which mentions are live. -/
structure Inv (s : St) : Prop where
  back : ∀ m x, m ∈ s.back x ↔ s.Live m ∧ x ∈ s.words m
  nodupB : ∀ x, (s.back x).Nodup
  nodupW : ∀ m, s.Live m → (s.words m).Nodup
  entOf : ∀ e m, m ∈ s.ent e → s.entOf m = e
  nodupE : ∀ e, (s.ent e).Nodup
  fresh : ∀ e m, m ∈ s.ent e → m < s.next

theorem addBack_perm (c : Cmp) (s : St) (m x : Nat) : ∃ l, l.Perm (s.back x ++ [m]) ∧ addBack c s m x = { s with back := upd s.back x l } := by
  unfold addBack
  split
  · rename_i h
    rw [List.getLast?_eq_none_iff] at h
    exact ⟨[m], by rw [h]; exact List.Perm.refl _, rfl⟩
  · split
    · exact ⟨_, List.Perm.refl _, rfl⟩
    · exact ⟨_, pySort_perm _ _, rfl⟩

/-- What changes when backlinks are changed: nothing else. -/
structure SameBut (s t : St) : Prop where
  words : t.words = s.words
  head : t.head = s.head
  entOf : t.entOf = s.entOf
  ent : t.ent = s.ent
  next : t.next = s.next

theorem SameBut.refl (s : St) : SameBut s s := ⟨rfl, rfl, rfl, rfl, rfl⟩
theorem SameBut.trans {s t u : St} (h : SameBut s t) (k : SameBut t u) : SameBut s u :=
  ⟨k.words.trans h.words, k.head.trans h.head, k.entOf.trans h.entOf, k.ent.trans h.ent, k.next.trans h.next⟩

theorem addBack_spec (c : Cmp) (s : St) (m x : Nat) :
    SameBut s (addBack c s m x) ∧ (∀ n y, n ∈ (addBack c s m x).back y ↔ n ∈ s.back y ∨ (n = m ∧ y = x)) ∧
    (m ∉ s.back x → (∀ y, (s.back y).Nodup) → ∀ y, ((addBack c s m x).back y).Nodup) := by
  obtain ⟨l, hp, e⟩ := addBack_perm c s m x
  rw [e]
  refine ⟨⟨rfl, rfl, rfl, rfl, rfl⟩, ?_, ?_⟩
  · intro n y
    by_cases hy : y = x
    · subst hy
      simp only [upd_same, hp.mem_iff, List.mem_append, List.mem_singleton]
      simp
    · simp only [upd_other _ _ hy, hy, and_false, or_false]
  · intro hm hn y
    by_cases hy : y = x
    · subst hy
      simp only [upd_same]
      rw [hp.nodup_iff, List.nodup_append]
      exact ⟨hn y, by simp, by intro a ha b hb; rw [List.mem_singleton.1 hb]; rintro rfl; exact hm ha⟩
    · simp only [upd_other _ _ hy]; exact hn y

theorem dropBacks_spec (new : List Nat) (m : Nat) : ∀ (xs : List Nat) (s : St), xs.Nodup → (∀ x ∈ xs, m ∈ s.back x) →
    (∀ y, (s.back y).Nodup) →
    ∃ t, dropBacks new m s xs = (t, none) ∧ SameBut s t ∧
      (∀ n y, n ∈ t.back y ↔ n ∈ s.back y ∧ ¬ (n = m ∧ y ∈ xs ∧ y ∉ new)) ∧ (∀ y, (t.back y).Nodup)
  | [], s, _, _, hn => ⟨s, rfl, SameBut.refl s, by simp, hn⟩
  | x :: xs, s, hnd, hb, hn => by
    rw [List.nodup_cons] at hnd
    unfold dropBacks
    by_cases hx : x ∈ new
    · rw [if_pos hx]
      obtain ⟨t, e, sb, h1, h2⟩ := dropBacks_spec new m xs s hnd.2 (fun y hy => hb y (List.mem_cons_of_mem _ hy)) hn
      refine ⟨t, e, sb, ?_, h2⟩
      intro n y
      rw [h1]
      constructor
      · rintro ⟨a, b⟩
        refine ⟨a, fun ⟨e1, e2, e3⟩ => ?_⟩
        rcases List.mem_cons.1 e2 with rfl | e2
        · exact e3 hx
        · exact b ⟨e1, e2, e3⟩
      · rintro ⟨a, b⟩
        exact ⟨a, fun ⟨e1, e2, e3⟩ => b ⟨e1, List.mem_cons_of_mem _ e2, e3⟩⟩
    · rw [if_neg hx, if_pos (hb x (List.mem_cons_self ..))]
      obtain ⟨t, e, sb, h1, h2⟩ := dropBacks_spec new m xs { s with back := upd s.back x ((s.back x).erase m) } hnd.2
        (by
          intro y hy
          have hyx : y ≠ x := fun e => hnd.1 (e ▸ hy)
          simp only [upd_other _ _ hyx]
          exact hb y (List.mem_cons_of_mem _ hy))
        (by
          intro y
          by_cases hyx : y = x
          · subst hyx; simp only [upd_same]; exact (hn y).erase m
          · simp only [upd_other _ _ hyx]; exact hn y)
      refine ⟨t, e, ⟨sb.words, sb.head, sb.entOf, sb.ent, sb.next⟩, ?_, h2⟩
      intro n y
      rw [h1]
      by_cases hyx : y = x
      · subst hyx
        simp only [upd_same]
        rw [(hn y).mem_erase_iff]
        constructor
        · rintro ⟨⟨a, b⟩, _⟩
          exact ⟨b, fun h => a h.1⟩
        · rintro ⟨a, b⟩
          refine ⟨⟨fun h => b ⟨h, List.mem_cons_self .., hx⟩, a⟩, fun h => hnd.1 h.2.1⟩
      · simp only [upd_other _ _ hyx]
        constructor
        · rintro ⟨a, b⟩
          refine ⟨a, fun ⟨e1, e2, e3⟩ => ?_⟩
          rcases List.mem_cons.1 e2 with h | e2
          · exact hyx h
          · exact b ⟨e1, e2, e3⟩
        · rintro ⟨a, b⟩
          exact ⟨a, fun ⟨e1, e2, e3⟩ => b ⟨e1, List.mem_cons_of_mem _ e2, e3⟩⟩

theorem addBacks_spec (c : Cmp) (kept : List Nat) (m : Nat) : ∀ (xs : List Nat) (s : St), xs.Nodup →
    (∀ x ∈ xs, x ∉ kept → m ∉ s.back x) → (∀ y, (s.back y).Nodup) →
    SameBut s (addBacks c kept m s xs) ∧
      (∀ n y, n ∈ (addBacks c kept m s xs).back y ↔ n ∈ s.back y ∨ (n = m ∧ y ∈ xs ∧ y ∉ kept)) ∧
      (∀ y, ((addBacks c kept m s xs).back y).Nodup)
  | [], s, _, _, hn => ⟨SameBut.refl s, by simp [addBacks], hn⟩
  | x :: xs, s, hnd, hb, hn => by
    rw [List.nodup_cons] at hnd
    unfold addBacks
    by_cases hx : x ∈ kept
    · rw [if_pos hx]
      obtain ⟨sb, h1, h2⟩ := addBacks_spec c kept m xs s hnd.2 (fun y hy => hb y (List.mem_cons_of_mem _ hy)) hn
      refine ⟨sb, ?_, h2⟩
      intro n y
      rw [h1]
      constructor
      · rintro (a | ⟨a, b, d⟩)
        · exact Or.inl a
        · exact Or.inr ⟨a, List.mem_cons_of_mem _ b, d⟩
      · rintro (a | ⟨a, b, d⟩)
        · exact Or.inl a
        · rcases List.mem_cons.1 b with rfl | b
          · exact absurd hx d
          · exact Or.inr ⟨a, b, d⟩
    · rw [if_neg hx]
      obtain ⟨sb0, g1, g2⟩ := addBack_spec c s m x
      obtain ⟨sb, h1, h2⟩ := addBacks_spec c kept m xs (addBack c s m x) hnd.2
        (by
          intro y hy hk h
          rcases (g1 m y).1 h with h | ⟨_, h⟩
          · exact hb y (List.mem_cons_of_mem _ hy) hk h
          · exact hnd.1 (h ▸ hy))
        (g2 (hb x (List.mem_cons_self ..) hx) hn)
      refine ⟨sb0.trans sb, ?_, h2⟩
      intro n y
      rw [h1, g1]
      constructor
      · rintro ((a | ⟨a, rfl⟩) | ⟨a, b, d⟩)
        · exact Or.inl a
        · exact Or.inr ⟨a, List.mem_cons_self .., hx⟩
        · exact Or.inr ⟨a, List.mem_cons_of_mem _ b, d⟩
      · rintro (a | ⟨a, b, d⟩)
        · exact Or.inl (Or.inl a)
        · rcases List.mem_cons.1 b with rfl | b
          · exact Or.inl (Or.inr ⟨a, rfl⟩)
          · exact Or.inr ⟨a, b, d⟩

/-- The words stored by the setter. -/
def sortedWords (c : Cmp) (new : List Nat) : List Nat := pySort (fun a b => decide (c.ord a ≤ c.ord b)) (uniq new)

theorem mem_sortedWords {c : Cmp} {new : List Nat} {x : Nat} : x ∈ sortedWords c new ↔ x ∈ new := by
  unfold sortedWords
  rw [(pySort_perm _ _).mem_iff, mem_uniq]

theorem nodup_sortedWords (c : Cmp) (new : List Nat) : (sortedWords c new).Nodup := by
  unfold sortedWords
  rw [(pySort_perm _ _).nodup_iff]
  exact nodup_uniq new

/-- What an accepted assignment does to the words and the lists of the entities, and that only a missing head is rejected. -/
theorem setWords_spec {c : Cmp} {s : St} (h : Inv s) {m : Nat} (hl : s.Live m) (new : List Nat) :
    (new ≠ [] ∧ s.head m ∉ new ∧ setWords c s m new = (s, some .valueError)) ∨
    ((new = [] ∨ s.head m ∈ new) ∧ ∃ t, setWords c s m new = (t, none) ∧ Inv t ∧ t.words = upd s.words m (sortedWords c new) ∧
      t.head = s.head ∧ t.entOf = s.entOf ∧ t.ent = s.ent ∧ t.next = s.next) := by
  unfold setWords
  by_cases hh : new ≠ [] ∧ s.head m ∉ new
  · rw [if_pos hh]; exact Or.inl ⟨hh.1, hh.2, rfl⟩
  · rw [if_neg hh]
    right
    refine ⟨by by_cases e : new = []; exact Or.inl e; exact Or.inr (Decidable.not_not.1 (fun h' => hh ⟨e, h'⟩)), ?_⟩
    show ∃ t, (match dropBacks (sortedWords c new) m s (s.words m) with
      | (s', some e) => (s', some e)
      | (s', none) => (addBacks c ((s.words m).filter (· ∈ sortedWords c new)) m
          { s' with words := upd s'.words m (sortedWords c new) } (sortedWords c new), none)) = (t, none) ∧ _
    obtain ⟨t, e, sb, h1, h2⟩ := dropBacks_spec (sortedWords c new) m (s.words m) s (h.nodupW m hl)
      (fun x hx => (h.back m x).2 ⟨hl, hx⟩) h.nodupB
    rw [e]
    obtain ⟨sb', g1, g2⟩ := addBacks_spec c ((s.words m).filter (· ∈ sortedWords c new)) m (sortedWords c new)
      { t with words := upd t.words m (sortedWords c new) } (nodup_sortedWords c new)
      (by
        intro x hx hk hm
        have := (h1 m x).1 hm
        exact hk (List.mem_filter.2 ⟨((h.back m x).1 this.1).2, by simpa using hx⟩))
      h2
    refine ⟨_, rfl, ?_, ?_, ?_, ?_, ?_, ?_⟩
    · have hw : (addBacks c ((s.words m).filter (· ∈ sortedWords c new)) m
          { t with words := upd t.words m (sortedWords c new) } (sortedWords c new)).words = upd s.words m (sortedWords c new) := by
        rw [sb'.words, sb.words]
      have hlive : ∀ n, (addBacks c ((s.words m).filter (· ∈ sortedWords c new)) m
          { t with words := upd t.words m (sortedWords c new) } (sortedWords c new)).Live n ↔ s.Live n := by
        intro n
        unfold St.Live
        rw [sb'.ent, sb'.entOf]
        simp only [sb.ent, sb.entOf]
      refine ⟨?_, g2, ?_, ?_, ?_, ?_⟩
      · intro n y
        rw [hw, hlive]
        rw [show n ∈ (addBacks c ((s.words m).filter (· ∈ sortedWords c new)) m
          { t with words := upd t.words m (sortedWords c new) } (sortedWords c new)).back y ↔ _ from g1 n y]
        rw [show n ∈ (St.back { t with words := upd t.words m (sortedWords c new) }) y ↔ _ from h1 n y, h.back]
        by_cases hn : n = m
        · subst hn
          simp only [upd_same, hl, true_and, List.mem_filter, decide_eq_true_eq]
          by_cases a : y ∈ s.words n <;> by_cases b : y ∈ sortedWords c new <;> simp [a, b]
        · simp only [upd_other _ _ hn, hn, false_and, or_false, not_false_eq_true, and_true]
      · intro n hn
        rw [hw]
        by_cases e' : n = m
        · subst e'; rw [upd_same]; exact nodup_sortedWords c new
        · rw [upd_other _ _ e']; exact h.nodupW n ((hlive n).1 hn)
      · intro e n hn
        rw [sb'.ent] at hn
        rw [sb'.entOf]
        simp only [sb.ent] at hn
        simp only [sb.entOf]
        exact h.entOf e n hn
      · intro e
        rw [sb'.ent]
        simp only [sb.ent]
        exact h.nodupE e
      · intro e n hn
        rw [sb'.ent] at hn
        rw [sb'.next]
        simp only [sb.ent] at hn
        simp only [sb.next]
        exact h.fresh e n hn
    · rw [sb'.words, sb.words]
    · rw [sb'.head]; exact sb.head
    · rw [sb'.entOf]; exact sb.entOf
    · rw [sb'.ent]; exact sb.ent
    · rw [sb'.next]; exact sb.next

theorem inv_init : Inv init := by
  constructor <;> simp [init, St.Live]

theorem sortEnt_inv {c : Cmp} {s : St} (h : Inv s) (e : Nat) : Inv (sortEnt c s e) := by
  have hm : ∀ e' m, m ∈ (sortEnt c s e).ent e' ↔ m ∈ s.ent e' := by
    intro e' m
    unfold sortEnt
    by_cases h' : e' = e
    · subst h'; simp only [upd_same, (pySort_perm _ _).mem_iff]
    · simp only [upd_other _ _ h']
  have hl : ∀ m, (sortEnt c s e).Live m ↔ s.Live m := fun m => hm _ m
  refine ⟨?_, h.nodupB, ?_, ?_, ?_, ?_⟩
  · intro m x; rw [hl]; exact h.back m x
  · intro m x; exact h.nodupW m ((hl m).1 x)
  · intro e' m x; exact h.entOf e' m ((hm e' m).1 x)
  · intro e'
    unfold sortEnt
    by_cases h' : e' = e
    · subst h'; simp only [upd_same, (pySort_perm _ _).nodup_iff]; exact h.nodupE _
    · simp only [upd_other _ _ h']; exact h.nodupE _
  · intro e' m x; exact h.fresh e' m ((hm e' m).1 x)

theorem newMention_spec {c : Cmp} {s : St} (h : Inv s) (e hd : Nat) :
    Inv (newMention c s e hd) ∧ (newMention c s e hd).words = upd s.words s.next [hd] ∧
    (newMention c s e hd).head = upd s.head s.next hd ∧ (newMention c s e hd).entOf = upd s.entOf s.next e ∧
    (newMention c s e hd).ent = upd s.ent e (s.ent e ++ [s.next]) ∧ (newMention c s e hd).next = s.next + 1 := by
  unfold newMention
  obtain ⟨sb, g1, g2⟩ := addBack_spec c { s with words := upd s.words s.next [hd], head := upd s.head s.next hd, entOf := upd s.entOf s.next e, ent := upd s.ent e (s.ent e ++ [s.next]), next := s.next + 1 } s.next hd
  have hfr : ∀ x, s.next ∉ s.back x := by
    intro x hx
    have := ((h.back s.next x).1 hx).1
    exact Nat.lt_irrefl _ (h.fresh _ _ this)
  have hent : ∀ e' m, m ∈ upd s.ent e (s.ent e ++ [s.next]) e' ↔ m ∈ s.ent e' ∨ (e' = e ∧ m = s.next) := by
    intro e' m
    by_cases h' : e' = e
    · subst h'; simp [upd_same]
    · simp [upd_other _ _ h', h']
  refine ⟨?_, sb.words, sb.head, sb.entOf, sb.ent, sb.next⟩
  have hl : ∀ m, (addBack c { s with words := upd s.words s.next [hd], head := upd s.head s.next hd, entOf := upd s.entOf s.next e, ent := upd s.ent e (s.ent e ++ [s.next]), next := s.next + 1 } s.next hd).Live m ↔ m = s.next ∨ s.Live m := by
    intro m
    unfold St.Live
    rw [sb.ent, sb.entOf]
    simp only
    rw [hent]
    by_cases hm : m = s.next
    · subst hm; simp [upd_same]
    · simp [upd_other _ _ hm, hm]
  refine ⟨?_, g2 (hfr hd) h.nodupB, ?_, ?_, ?_, ?_⟩
  · intro m x
    rw [hl, sb.words, g1]
    simp only
    by_cases hm : m = s.next
    · subst hm
      simp [upd_same, hfr x]
    · simp only [upd_other _ _ hm, hm, false_or, false_and, or_false]
      exact h.back m x
  · intro m hm
    rw [sb.words]
    simp only
    rcases (hl m).1 hm with rfl | hm'
    · simp [upd_same]
    · have : m ≠ s.next := fun e' => Nat.lt_irrefl _ (e' ▸ h.fresh _ _ hm')
      rw [upd_other _ _ this]
      exact h.nodupW m hm'
  · intro e' m hm
    rw [sb.ent] at hm
    rw [sb.entOf]
    simp only at hm ⊢
    rcases (hent e' m).1 hm with hm | ⟨rfl, rfl⟩
    · have : m ≠ s.next := fun e' => Nat.lt_irrefl _ (e' ▸ h.fresh _ _ hm)
      rw [upd_other _ _ this]; exact h.entOf e' m hm
    · exact upd_same ..
  · intro e'
    rw [sb.ent]
    simp only
    by_cases h' : e' = e
    · subst h'
      rw [upd_same, List.nodup_append]
      refine ⟨h.nodupE _, by simp, ?_⟩
      intro a ha b hb
      rw [List.mem_singleton.1 hb]
      exact Nat.ne_of_lt (h.fresh _ _ ha)
    · rw [upd_other _ _ h']; exact h.nodupE e'
  · intro e' m hm
    rw [sb.ent] at hm
    rw [sb.next]
    simp only at hm ⊢
    rcases (hent e' m).1 hm with hm | ⟨_, rfl⟩
    · exact Nat.lt_succ_of_lt (h.fresh e' m hm)
    · exact Nat.lt_succ_self _

theorem newMention_live {c : Cmp} {s : St} (h : Inv s) (e hd : Nat) : (newMention c s e hd).Live s.next := by
  obtain ⟨_, _, _, h3, h4, _⟩ := newMention_spec (c := c) h e hd
  unfold St.Live
  rw [h3, h4, upd_same, upd_same]
  simp

theorem setWords_inv {c : Cmp} {s : St} (h : Inv s) {m : Nat} (hl : s.Live m) (new : List Nat) : Inv (setWords c s m new).1 := by
  rcases setWords_spec (c := c) h hl new with ⟨_, _, e⟩ | ⟨_, t, e, ht, _⟩
  · rw [e]; exact h
  · rw [e]; exact ht

theorem setWords_live {c : Cmp} {s : St} (h : Inv s) {m : Nat} (hl : s.Live m) (new : List Nat) (n : Nat) :
    (setWords c s m new).1.Live n ↔ s.Live n := by
  rcases setWords_spec (c := c) h hl new with ⟨_, _, e⟩ | ⟨_, t, e, _, _, _, h3, h4, _⟩
  · rw [e]
  · rw [e]; unfold St.Live; rw [h3, h4]

theorem setSpan_inv {c : Cmp} {s : St} (h : Inv s) {m : Nat} (hl : s.Live m) (sp : Span) : Inv (setSpan c s m sp).1 := by
  cases sp with
  | no => exact h
  | bad => exact h
  | nodes ns => exact setWords_inv h hl ns

/-- The end of `create_mention`, after the words were set. -/
def finish (c : Cmp) (s2 : St) (e m : Nat) (span : Span) : St × Option Err :=
  match span with
  | .no => (sortEnt c s2 e, none)
  | sp =>
    match setSpan c s2 m sp with
    | (s3, some err) => (s3, some err)
    | (s3, none) => (sortEnt c s3 e, none)

theorem finish_inv {c : Cmp} {s : St} (h : Inv s) (e : Nat) {m : Nat} (hl : s.Live m) (sp : Span) : Inv (finish c s e m sp).1 := by
  unfold finish
  split
  · exact sortEnt_inv h e
  · have := setSpan_inv (c := c) h hl sp
    split
    · rename_i heq; rw [heq] at this; exact this
    · rename_i heq; rw [heq] at this; exact sortEnt_inv this e

/-- `create_mention` after the checks of the arguments. -/
def build (c : Cmp) (s : St) (e h : Nat) (ws : List Nat) (span : Span) : St × Option Err :=
  match (if ws ≠ [] then setWords c (newMention c s e h) s.next ws else (newMention c s e h, none)) with
  | (s2, some err) => (s2, some err)
  | (s2, none) => finish c s2 e s.next span

theorem create_eq (c : Cmp) (s : St) (e : Nat) (head : Option Nat) (words : Option (List Nat)) (span : Span) :
    (∃ err, create c s e head words span = (s, some err)) ∨
    (∃ h ws, create c s e head words span = build c s e h ws span ∧ ws = words.getD [] ∧ (ws ≠ [] → h ∈ ws) ∧
      (ws ≠ [] → span = .no) ∧ (∀ x, head = some x → h = x)) := by
  unfold create
  simp only
  split
  · exact Or.inl ⟨_, rfl⟩
  · rename_i h1
    split
    · exact Or.inl ⟨_, rfl⟩
    · rename_i h2
      have hsp : words.getD [] ≠ [] → span = .no := by
        intro h
        cases span with
        | no => rfl
        | bad => exact absurd ⟨h, rfl⟩ h1
        | nodes ns => exact absurd ⟨h, rfl⟩ h1
      split
      · exact Or.inl ⟨_, rfl⟩
      · exact Or.inl ⟨_, rfl⟩
      · rename_i h3 h4
        refine Or.inr ⟨head.getD ((words.getD []).headD 0), words.getD [], rfl, rfl, ?_, hsp, ?_⟩
        · intro hne
          cases head with
          | some x =>
            exact Decidable.not_not.1 (fun h => h2 ⟨hne, by simpa [missing] using h⟩)
          | none =>
            cases hw : words.getD [] with
            | nil => exact absurd hw hne
            | cons a l => simp
        · intro x hx; subst hx; rfl

theorem build_inv {c : Cmp} {s : St} (h : Inv s) (e hd : Nat) (ws : List Nat) (span : Span) : Inv (build c s e hd ws span).1 := by
  unfold build
  have hn := (newMention_spec (c := c) h e hd).1
  have hl := newMention_live (c := c) h e hd
  by_cases hw : ws ≠ []
  · rw [if_pos hw]
    have h1 := setWords_inv (c := c) hn hl ws
    have h2 := (setWords_live (c := c) hn hl ws s.next).2 hl
    split
    · rename_i heq; rw [heq] at h1; exact h1
    · rename_i heq; rw [heq] at h1 h2; exact finish_inv h1 e h2 span
  · rw [if_neg hw]; exact finish_inv hn e hl span

theorem removeM_inv {s : St} (h : Inv s) {m : Nat} (hl : s.Live m) : Inv (removeM s m).1 ∧ (removeM s m).2 = none ∧
    ¬ (removeM s m).1.Live m ∧ (removeM s m).1.ent = upd s.ent (s.entOf m) ((s.ent (s.entOf m)).erase m) ∧
    (removeM s m).1.words = s.words ∧ (removeM s m).1.entOf = s.entOf ∧ (removeM s m).1.head = s.head := by
  unfold removeM
  obtain ⟨t, e, sb, h1, h2⟩ := dropBacks_spec [] m (s.words m) s (h.nodupW m hl)
      (fun x hx => (h.back m x).2 ⟨hl, hx⟩) h.nodupB
  rw [e]
  simp only
  have hin : m ∈ t.ent (t.entOf m) := by rw [sb.ent, sb.entOf]; exact hl
  rw [if_pos hin]
  have hent : ∀ e' n, n ∈ upd t.ent (t.entOf m) ((t.ent (t.entOf m)).erase m) e' ↔ n ∈ s.ent e' ∧ n ≠ m := by
    intro e' n
    rw [sb.ent, sb.entOf]
    by_cases h' : e' = s.entOf m
    · subst h'; rw [upd_same, (h.nodupE _).mem_erase_iff]; exact And.comm
    · rw [upd_other _ _ h']
      constructor
      · intro hn
        refine ⟨hn, fun e2 => h' ?_⟩
        rw [← h.entOf e' n hn, e2]
      · exact fun x => x.1
  refine ⟨⟨?_, h2, ?_, ?_, ?_, ?_⟩, rfl, ?_, ?_, sb.words, sb.entOf, sb.head⟩
  · intro n x
    show n ∈ t.back x ↔ n ∈ upd t.ent (t.entOf m) ((t.ent (t.entOf m)).erase m) (t.entOf n) ∧ x ∈ t.words n
    rw [h1, hent, h.back, sb.entOf, sb.words]
    unfold St.Live
    constructor
    · rintro ⟨⟨a, b⟩, d⟩
      exact ⟨⟨a, fun e' => d ⟨e', e' ▸ b, by simp⟩⟩, b⟩
    · rintro ⟨⟨a, b⟩, d⟩
      exact ⟨⟨a, d⟩, fun h' => b h'.1⟩
  · intro n hn
    have := (hent _ n).1 hn
    show (t.words n).Nodup
    rw [sb.words]
    rw [sb.entOf] at this
    exact h.nodupW n this.1
  · intro e' n hn
    show t.entOf n = e'
    rw [sb.entOf]
    exact h.entOf e' n ((hent e' n).1 hn).1
  · intro e'
    show (upd t.ent (t.entOf m) ((t.ent (t.entOf m)).erase m) e').Nodup
    rw [sb.ent, sb.entOf]
    by_cases h' : e' = s.entOf m
    · subst h'; rw [upd_same]; exact (h.nodupE _).erase m
    · rw [upd_other _ _ h']; exact h.nodupE e'
  · intro e' n hn
    show n < t.next
    rw [sb.next]
    exact h.fresh e' n ((hent e' n).1 hn).1
  · intro hn
    exact ((hent _ m).1 hn).2 rfl
  · show upd t.ent (t.entOf m) ((t.ent (t.entOf m)).erase m) = _
    rw [sb.ent, sb.entOf]

theorem setEntity_inv {c : Cmp} {s : St} (h : Inv s) {m : Nat} (hl : s.Live m) (e : Nat) : Inv (setEntity c s m e).1 := by
  unfold setEntity
  rw [if_pos (show m ∈ s.ent (s.entOf m) from hl)]
  have hent : ∀ e' n, n ∈ upd (upd s.ent (s.entOf m) ((s.ent (s.entOf m)).erase m)) e
      (insort (St.le c { s with ent := upd s.ent (s.entOf m) ((s.ent (s.entOf m)).erase m), entOf := upd s.entOf m e }) m
        (upd s.ent (s.entOf m) ((s.ent (s.entOf m)).erase m) e)) e' ↔ (n ∈ s.ent e' ∧ n ≠ m) ∨ (n = m ∧ e' = e) := by
    intro e' n
    have h0 : n ∈ upd s.ent (s.entOf m) ((s.ent (s.entOf m)).erase m) e' ↔ n ∈ s.ent e' ∧ n ≠ m := by
      by_cases h' : e' = s.entOf m
      · subst h'; rw [upd_same, (h.nodupE _).mem_erase_iff]; exact And.comm
      · rw [upd_other _ _ h']
        constructor
        · intro hn
          refine ⟨hn, fun e2 => h' ?_⟩
          rw [← h.entOf e' n hn, e2]
        · exact fun x => x.1
    by_cases h' : e' = e
    · subst h'
      rw [upd_same, (insort_perm _ _ _).mem_iff, List.mem_cons, h0]
      simp only [and_true]
      exact Or.comm
    · rw [upd_other _ _ h', h0]
      simp [h']
  refine ⟨?_, h.nodupB, ?_, ?_, ?_, ?_⟩
  · intro n x
    show n ∈ s.back x ↔ n ∈ upd _ e _ (upd s.entOf m e n) ∧ x ∈ s.words n
    rw [hent, h.back]
    by_cases hn : n = m
    · subst hn
      simp [upd_same, hl]
    · simp only [upd_other _ _ hn, hn, ne_eq, not_false_eq_true, and_true, false_and, or_false]
      rfl
  · intro n hn
    show (s.words n).Nodup
    rcases (hent _ n).1 hn with h' | h'
    · by_cases hn : n = m
      · exact absurd hn h'.2
      · apply h.nodupW n
        have := h'.1
        simp only [upd_other _ _ hn] at this
        exact this
    · rw [h'.1]; exact h.nodupW m hl
  · intro e' n hn
    show upd s.entOf m e n = e'
    rcases (hent e' n).1 hn with h' | h'
    · rw [upd_other _ _ h'.2]; exact h.entOf e' n h'.1
    · rw [h'.1, upd_same, h'.2]
  · intro e'
    show List.Nodup (upd _ e _ e')
    have h0 : ∀ e', (upd s.ent (s.entOf m) ((s.ent (s.entOf m)).erase m) e').Nodup := by
      intro e'
      by_cases h' : e' = s.entOf m
      · subst h'; rw [upd_same]; exact (h.nodupE _).erase m
      · rw [upd_other _ _ h']; exact h.nodupE e'
    by_cases h' : e' = e
    · subst h'
      rw [upd_same, (insort_perm _ _ _).nodup_iff, List.nodup_cons]
      refine ⟨?_, h0 e'⟩
      intro hm
      have hm : m ∈ upd s.ent (s.entOf m) ((s.ent (s.entOf m)).erase m) e' := hm
      by_cases h2 : e' = s.entOf m
      · subst h2; rw [upd_same] at hm; exact ((h.nodupE _).mem_erase_iff.1 hm).1 rfl
      · rw [upd_other _ _ h2] at hm; exact h2 (h.entOf e' m hm).symm
    · rw [upd_other _ _ h']; exact h0 e'
  · intro e' n hn
    show n < s.next
    rcases (hent e' n).1 hn with h' | h'
    · exact h.fresh e' n h'.1
    · rw [h'.1]; exact h.fresh _ _ hl

theorem setHead_inv {s : St} (h : Inv s) (m hd : Nat) : Inv (setHead s m hd).1 := by
  unfold setHead
  split
  · exact h
  · exact ⟨h.back, h.nodupB, h.nodupW, h.entOf, h.nodupE, h.fresh⟩

theorem reach_inv {c : Cmp} {s : St} (h : Reach c s) : Inv s := by
  induction h with
  | init => exact inv_init
  | step o _ hok ih =>
    cases o with
    | create e hd ws sp =>
      simp only [Op.run]
      rcases create_eq c _ e hd ws sp with ⟨err, e1⟩ | ⟨h', ws', e1, _⟩
      · rw [e1]; exact ih
      · rw [e1]; exact build_inv ih e h' ws' sp
    | setWords m ws => exact setWords_inv ih hok.1 ws
    | setSpan m sp => exact setSpan_inv ih hok.1 sp
    | remove m => exact (removeM_inv ih hok).1
    | setEntity m e => exact setEntity_inv ih hok e
    | setHead m h => exact setHead_inv ih m h

/-- C79 (partial): after any sequence of calls (some of which may be rejected) that leaves no mention without words, on mentions
that were not removed, a mention is listed
at a word exactly when the word belongs to it; every list has every mention at most once, and the mention is listed at
exactly one entity. Missing: mentions that were made empty. -/
theorem C79_backlinks_partial {c : Cmp} {s : St} (h : Reach c s) :
    (∀ m x, m ∈ s.back x ↔ s.Live m ∧ x ∈ s.words m) ∧ (∀ x, (s.back x).Nodup) ∧ (∀ e, (s.ent e).Nodup) ∧
    (∀ m e, m ∈ s.ent e ↔ s.Live m ∧ s.entOf m = e) := by
  have hi := reach_inv h
  refine ⟨hi.back, hi.nodupB, hi.nodupE, ?_⟩
  intro m e
  constructor
  · intro hm
    have := hi.entOf e m hm
    exact ⟨by unfold St.Live; rw [this]; exact hm, this⟩
  · rintro ⟨hl, rfl⟩; exact hl

/-- C79 (partial): on such mentions `remove` never fails and takes the mention out of all lists. -/
theorem C79_remove_partial {c : Cmp} {s : St} (h : Reach c s) {m : Nat} (hl : s.Live m) :
    (removeM s m).2 = none ∧ (∀ x, m ∉ (removeM s m).1.back x) ∧ ∀ e, m ∉ (removeM s m).1.ent e := by
  obtain ⟨hi, h2, h3, _, _, h5, _⟩ := removeM_inv (reach_inv h) hl
  refine ⟨h2, fun x hx => h3 ((hi.back m x).1 hx).1, fun e he => h3 ?_⟩
  unfold St.Live
  rw [hi.entOf e m he]
  exact he

/-- By the number of words, the longer first, and then by the first word. -/
def exCmp : Cmp := ⟨id, fun a b => decide (a.1.headD 0 < b.1.headD 0 ∨ (a.1.headD 0 = b.1.headD 0 ∧ b.1.length ≤ a.1.length))⟩

/-- Two mentions of words 2, 3 and 3, 4; then the first one is extended by word 4 and the second one is removed. -/
def exState : St := (removeM (setWords exCmp (create exCmp (create exCmp init 7 (some 2) (some [3, 2]) .no).1 7 (some 3) (some [3, 4]) .no).1 0 [4, 2, 3]).1 1).1

example : Reach exCmp exState ∧ exState.words 0 = [2, 3, 4] ∧ exState.back 4 = [0] ∧ exState.back 3 = [0] ∧ exState.ent 7 = [0] := by
  refine ⟨?_, by decide, by decide, by decide, by decide⟩
  exact Reach.step (.remove 1) (Reach.step (.setWords 0 [4, 2, 3]) (Reach.step (.create 7 (some 3) (some [3, 4]) .no)
    (Reach.step (.create 7 (some 2) (some [3, 2]) .no) Reach.init trivial) trivial)
    ⟨show 0 ∈ _ by decide, by simp⟩) (show 1 ∈ _ by decide)

/-- C79 does not hold: a mention that was made empty gets its head as its word when it is compared with another one, and is not
listed there. From then on `remove` raises, and leaves the mention in its entity; this happens in every state. -/
theorem C79_emptied_violated {c : Cmp} {s : St} (h : Reach c s) {m : Nat} (hl : s.Live m) :
    (setWords c s m []).2 = none ∧
    let t := touch (setWords c s m []).1 m
    t.words m = [s.head m] ∧ m ∉ t.back (s.head m) ∧ (removeM t m).2 = some .valueError ∧ (removeM t m).1.Live m := by
  rcases setWords_spec (c := c) (reach_inv h) hl [] with ⟨h1, _⟩ | ⟨_, t, e, hi, hw, hh, heo, hen, _⟩
  · exact absurd rfl h1
  · rw [e]
    have hwm : t.words m = [] := by rw [hw, upd_same]; rfl
    have hnb : m ∉ t.back (s.head m) := by
      intro hx
      have := ((hi.back m _).1 hx).2
      rw [hwm] at this
      cases this
    have ht : touch t m = { t with words := upd t.words m [s.head m] } := by unfold touch; rw [if_pos hwm, hh]
    have hrm : removeM (touch t m) m = (touch t m, some .valueError) := by
      have hd : dropBacks [] m (touch t m) ((touch t m).words m) = (touch t m, some .valueError) := by
        rw [ht]
        simp only [upd_same]
        unfold dropBacks
        rw [if_neg (by simp), if_neg hnb]
      unfold removeM
      rw [hd]
    refine ⟨rfl, ?_, ?_, ?_, ?_⟩
    · rw [ht]; simp only [upd_same]
    · rw [ht]; exact hnb
    · rw [hrm]
    · rw [hrm, ht]
      show m ∈ t.ent (t.entOf m)
      rw [hen, heo]; exact hl

/-- Two mentions of one entity; the second one is made empty and compared by sorting. -/
example : let s := (create exCmp (create exCmp init 7 (some 2) (some [3, 2]) .no).1 7 (some 5) none .no).1
    let t := touch (setWords exCmp s 1 []).1 1
    t.words 1 = [5] ∧ t.back 5 = [] ∧ (removeM t 1).2 = some .valueError ∧ t.ent 7 = [0, 1] := by decide

/-! ## C81: a rejected call changes nothing -/

/-- C81 does not hold: `create_mention(head, span=...)` with a span that is not readable or does not contain the head is
rejected, and the new mention stays in the entity and at the head, in every state. -/
theorem C81_create_violated {c : Cmp} {s : St} (h : Reach c s) (e hd : Nat) (sp : Span)
    (hsp : sp = .bad ∨ ∃ ns, sp = .nodes ns ∧ ns ≠ [] ∧ hd ∉ ns) :
    (create c s e (some hd) none sp).2 = some .valueError ∧ s.next ∉ s.ent e ∧
    s.next ∈ (create c s e (some hd) none sp).1.ent e ∧ s.next ∈ (create c s e (some hd) none sp).1.back hd := by
  have hi := reach_inv h
  have hn := newMention_spec (c := c) hi e hd
  have hl := newMention_live (c := c) hi e hd
  have key : create c s e (some hd) none sp = (newMention c s e hd, some .valueError) := by
    rcases hsp with rfl | ⟨ns, rfl, h1, h2⟩
    · rfl
    · have : setWords c (newMention c s e hd) s.next ns = (newMention c s e hd, some .valueError) := by
        unfold setWords
        rw [hn.2.2.1, upd_same, if_pos ⟨h1, h2⟩]
      show (match setWords c (newMention c s e hd) s.next ns with
        | (s3, some err) => (s3, some err)
        | (s3, none) => (sortEnt c s3 e, none)) = _
      rw [this]
  rw [key]
  refine ⟨rfl, fun hx => Nat.lt_irrefl _ (hi.fresh e _ hx), ?_, ?_⟩
  · rw [hn.2.2.2.2.1, upd_same]; simp
  · rw [hn.1.back, hn.2.1, upd_same]; exact ⟨hl, by simp⟩

example : ∃ (s : St), Reach exCmp s ∧ (create exCmp s 7 (some 2) none (.nodes [3, 4])).1.ent 7 = [0] :=
  ⟨init, Reach.init, by decide⟩

/-- C81, the part that holds: rejected assignments to `words` and `span` change nothing, and neither do calls of
`create_mention` without a span, nor assignments to `head`. What is missing: calls of `create_mention` with a span. -/
theorem C81_atomic_partial {c : Cmp} {s : St} (h : Reach c s) :
    (∀ m ws, s.Live m → (setWords c s m ws).2 ≠ none → (setWords c s m ws).1 = s) ∧
    (∀ m sp, s.Live m → (setSpan c s m sp).2 ≠ none → (setSpan c s m sp).1 = s) ∧
    (∀ e hd ws, (create c s e hd ws .no).2 ≠ none → (create c s e hd ws .no).1 = s) ∧
    (∀ m hd, (setHead s m hd).2 ≠ none → (setHead s m hd).1 = s) := by
  have hi := reach_inv h
  have key : ∀ m ws, s.Live m → (setWords c s m ws).2 ≠ none → (setWords c s m ws).1 = s := by
    intro m ws hl hne
    rcases setWords_spec (c := c) hi hl ws with ⟨_, _, e⟩ | ⟨_, t, e, _⟩
    · rw [e]
    · rw [e] at hne; exact absurd rfl hne
  refine ⟨key, ?_, ?_, ?_⟩
  · intro m sp hl hne
    cases sp with
    | no => rfl
    | bad => rfl
    | nodes ns => exact key m ns hl hne
  · intro e hd ws hne
    rcases create_eq c s e hd ws .no with ⟨err, e1⟩ | ⟨h', ws', e1, _, hmem, _⟩
    · rw [e1]
    · exfalso
      rw [e1] at hne
      apply hne
      unfold build
      have hn := newMention_spec (c := c) hi e h'
      by_cases hw : ws' ≠ []
      · rw [if_pos hw]
        rcases setWords_spec (c := c) hn.1 (newMention_live hi e h') ws' with ⟨_, h2, _⟩ | ⟨_, t, e2, _⟩
        · rw [hn.2.2.1, upd_same] at h2
          exact absurd (hmem hw) h2
        · rw [e2]; rfl
      · rw [if_neg hw]; rfl
  · intro m hd hne
    unfold setHead at hne ⊢
    split
    · rfl
    · rename_i h'; rw [if_neg h'] at hne; exact absurd rfl hne

example : (setWords exCmp (create exCmp init 7 (some 2) (some [3, 2]) .no).1 0 [3]).2 = some .valueError ∧
    (create exCmp init 7 (some 2) (some [3]) .no).2 = some .valueError := by decide

/-! ## C82: the head is one of the words -/

/-- C82 does not hold: assigning an empty list of words is accepted for every mention, and so is a span that denotes no node of
the tree; the mention has no words then. -/
theorem C82_empty_violated {c : Cmp} {s : St} (h : Reach c s) {m : Nat} (hl : s.Live m) :
    (setWords c s m []).2 = none ∧ (setWords c s m []).1.words m = [] ∧
    (setSpan c s m (.nodes [])).2 = none ∧ (setSpan c s m (.nodes [])).1.words m = [] ∧ (setWords c s m []).1.Live m := by
  rcases setWords_spec (c := c) (reach_inv h) hl [] with ⟨h1, _⟩ | ⟨_, t, e, _, hw, _⟩
  · exact absurd rfl h1
  · have : t.words m = [] := by rw [hw, upd_same]; rfl
    refine ⟨by rw [e], by rw [e]; exact this, by rw [setSpan, e], by rw [setSpan, e]; exact this, ?_⟩
    exact (setWords_live (reach_inv h) hl [] m).2 hl

def HeadIn (s : St) : Prop := ∀ m, s.Live m → s.head m ∈ s.words m

theorem setWords_headIn {c : Cmp} {s : St} (h : Inv s) (hh : HeadIn s) {m : Nat} (hl : s.Live m) {ws : List Nat} (hne : ws ≠ []) :
    HeadIn (setWords c s m ws).1 := by
  rcases setWords_spec (c := c) h hl ws with ⟨_, _, e⟩ | ⟨h1, t, e, _, hw, hhd, h3, h4, _⟩
  · rw [e]; exact hh
  · rw [e]
    intro n hn
    show t.head n ∈ t.words n
    rw [hhd, hw]
    by_cases hnm : n = m
    · subst hnm
      rw [upd_same, mem_sortedWords]
      exact h1.resolve_left hne
    · rw [upd_other _ _ hnm]
      apply hh
      unfold St.Live at hn ⊢
      rw [← h3, ← h4]; exact hn

theorem sortEnt_headIn {c : Cmp} {s : St} (hh : HeadIn s) (e : Nat) : HeadIn (sortEnt c s e) := by
  intro m hm
  apply hh
  unfold St.Live sortEnt at hm
  unfold St.Live
  by_cases h' : s.entOf m = e
  · simp only [h', upd_same, (pySort_perm _ _).mem_iff] at hm
    rw [h']; exact hm
  · simp only [upd_other _ _ h'] at hm; exact hm

/-- C82, the part that holds: as long as no call gives a mention an empty list of words, the head is one of the words. What is
missing: empty lists. -/
theorem C82_head_partial {c : Cmp} {s : St} (h : Reach c s) : ∀ m, s.Live m → s.head m ∈ s.words m := by
  show HeadIn s
  induction h with
  | init => intro m hm; simp [St.Live, init] at hm
  | @step s o hr hok ih =>
    have hi := reach_inv hr
    cases o with
    | create e hd ws sp =>
      simp only [Op.run]
      rcases create_eq c s e hd ws sp with ⟨err, e1⟩ | ⟨h', ws', e1, _, hmem, hsp, _⟩
      · rw [e1]; exact ih
      · rw [e1]
        have hn := newMention_spec (c := c) hi e h'
        have hl := newMention_live (c := c) hi e h'
        have hh : HeadIn (newMention c s e h') := by
          intro m hm
          rw [hn.2.2.1, hn.2.1]
          by_cases hms : m = s.next
          · subst hms; rw [upd_same, upd_same]; simp
          · rw [upd_other _ _ hms, upd_other _ _ hms]
            apply ih
            unfold St.Live at hm ⊢
            rw [hn.2.2.2.1, hn.2.2.2.2.1, upd_other _ _ hms] at hm
            by_cases he : s.entOf m = e
            · rw [he, upd_same] at hm
              rw [he]
              exact (List.mem_append.1 hm).resolve_right (by simpa using hms)
            · rw [upd_other _ _ he] at hm; exact hm
        have fin : ∀ s2 : St, Inv s2 → HeadIn s2 → s2.Live s.next → HeadIn (finish c s2 e s.next sp).1 := by
          intro s2 i2 h2 l2
          cases sp with
          | no => exact sortEnt_headIn h2 e
          | bad => exact h2
          | nodes ns =>
            have := setWords_headIn (c := c) i2 h2 l2 (ws := ns) hok
            unfold finish
            simp only [setSpan]
            split
            · rename_i heq; rw [heq] at this; exact this
            · rename_i heq; rw [heq] at this; exact sortEnt_headIn this e
        unfold build
        by_cases hw : ws' ≠ []
        · rw [if_pos hw]
          have a1 := setWords_headIn (c := c) hn.1 hh hl hw
          have a2 := setWords_inv (c := c) hn.1 hl ws'
          have a3 := (setWords_live (c := c) hn.1 hl ws' s.next).2 hl
          split
          · rename_i heq; rw [heq] at a1; exact a1
          · rename_i heq; rw [heq] at a1 a2 a3; exact fin _ a2 a1 a3
        · rw [if_neg hw]; exact fin _ hn.1 hh hl
    | setWords m ws => exact setWords_headIn hi ih hok.1 hok.2
    | setSpan m sp =>
      cases sp with
      | no => exact ih
      | bad => exact ih
      | nodes ns => exact setWords_headIn hi ih hok.1 hok.2
    | remove m =>
      obtain ⟨_, _, _, h4, h5, h6, h7⟩ := removeM_inv hi hok
      intro n hn
      show (removeM s m).1.head n ∈ (removeM s m).1.words n
      rw [h5, h7]
      apply ih
      have hn : n ∈ (removeM s m).1.ent ((removeM s m).1.entOf n) := hn
      rw [h4, h6] at hn
      unfold St.Live
      by_cases he : s.entOf n = s.entOf m
      · rw [he, upd_same] at hn; rw [he]; exact List.mem_of_mem_erase hn
      · rw [upd_other _ _ he] at hn; exact hn
    | setEntity m e =>
      have hi' := setEntity_inv (c := c) hi hok e
      have hst : ∀ n, (setEntity c s m e).1.words n = s.words n ∧ (setEntity c s m e).1.head n = s.head n ∧
          (setEntity c s m e).1.back n = s.back n := by
        intro n; unfold setEntity; split <;> exact ⟨rfl, rfl, rfl⟩
      intro n hn
      show (setEntity c s m e).1.head n ∈ (setEntity c s m e).1.words n
      rw [(hst n).1, (hst n).2.1]
      by_cases hnl : s.Live n
      · exact ih n hnl
      · exfalso
        apply hnl
        have hn : n ∈ (setEntity c s m e).1.ent ((setEntity c s m e).1.entOf n) := hn
        unfold setEntity at hn
        rw [if_pos (show m ∈ s.ent (s.entOf m) from hok)] at hn
        simp only at hn
        by_cases hnm : n = m
        · rw [hnm]; exact hok
        · rw [upd_other _ _ hnm] at hn
          by_cases he : s.entOf n = e
          · rw [he, upd_same, (insort_perm _ _ _).mem_iff] at hn
            have := (List.mem_cons.1 hn).resolve_left hnm
            unfold St.Live
            rw [he]
            by_cases h2 : e = s.entOf m
            · rw [h2, upd_same] at this; rw [h2]; exact List.mem_of_mem_erase this
            · rw [upd_other _ _ h2] at this; exact this
          · rw [upd_other _ _ he] at hn
            unfold St.Live
            by_cases h2 : s.entOf n = s.entOf m
            · rw [h2, upd_same] at hn; rw [h2]; exact List.mem_of_mem_erase hn
            · rw [upd_other _ _ h2] at hn; exact hn
    | setHead m hd =>
      intro n hn
      simp only [Op.run] at hn ⊢
      unfold setHead at hn ⊢
      split
      · rename_i h'; rw [if_pos h'] at hn; exact ih n hn
      · rename_i h'
        rw [if_neg h'] at hn
        have hn : s.Live n := hn
        show upd s.head m hd n ∈ s.words n
        by_cases hnm : n = m
        · subst hnm
          rw [upd_same]
          have hne : s.words n ≠ [] := by
            intro h0
            have := ih n hn
            rw [h0] at this
            cases this
          exact Decidable.not_not.1 (fun hx => h' ⟨hne, hx⟩)
        · rw [upd_other _ _ hnm]; exact ih n hn

example : ∃ s, Reach exCmp s ∧ s.Live 0 ∧ s.words 0 = [2, 3] ∧ s.head 0 = 3 :=
  ⟨_, Reach.step (.create 7 (some 3) (some [3, 2]) .no) Reach.init trivial, (show 0 ∈ _ by decide), by decide, by decide⟩

end Verif.Coref.M
