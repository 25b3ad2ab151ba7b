import Verif.Py.Str

/-!
# Properties C37, C77 and C78: the order of mentions and entities (udapi/core/coref.py:142-175, 282-289, 311-328)

Nodes and trees are named by numbers. `World` gives the tree and the ord of every node and the zone, document and bundle
number of every tree. An ord may be scaled by ten to make room for empty nodes.
-/

namespace Verif.Coref
open Verif.Py

structure World where
  nodes : List Nat
  root : Nat → Nat
  ord : Nat → Nat
  zone : Nat → Nat
  doc : Nat → Nat
  number : Nat → Nat

/-- `a.precedes(b)` (node.py:745-759); `none`: ValueError. -/
def precedes (w : World) (a b : Nat) : Option Bool :=
  if w.root a = w.root b then some (decide (w.ord a < w.ord b))
  else if w.zone (w.root a) ≠ w.zone (w.root b) then none
  else if w.doc (w.root a) ≠ w.doc (w.root b) then none
  else some (decide (w.number (w.root a) < w.number (w.root b)))

/-- `_words`, `_head` and the id of `_entity`. -/
structure Mention where
  words : List Nat
  head : Nat
  eid : Str

/-- `_words` after the first lines of `__lt__` (coref.py:160-163). -/
def Mention.ws (m : Mention) : List Nat := if m.words = [] then [m.head] else m.words

theorem Mention.ws_ne_nil (m : Mention) : m.ws ≠ [] := by unfold Mention.ws; split <;> simp_all

/-- `self._words[0]` -/
def Mention.first (m : Mention) : Nat := m.ws.head m.ws_ne_nil
/-- `self._words[-1]` -/
def Mention.last (m : Mention) : Nat := m.ws.getLast m.ws_ne_nil

/-- `<` of Python strings: by code points from the left. -/
def strLt : Str → Str → Bool
  | _, [] => false
  | [], _ :: _ => true
  | a :: as, b :: bs => if a.toNat < b.toNat then true else if b.toNat < a.toNat then false else strLt as bs

/-- `CorefMention.__lt__` (coref.py:142-175) -/
def mentionLt (w : World) (a b : Mention) : Option Bool :=
  if a.first = b.first then
    if a.ws.length > b.ws.length then some true
    else if a.ws.length < b.ws.length then some false
    else
      match precedes w a.last b.last with
      | none => none
      | some true => some true
      | some false =>
        match precedes w b.last a.last with
        | none => none
        | some true => some false
        | some false => some (strLt a.eid b.eid)
  else precedes w a.first b.first

/-- `CorefMentionSubspan`: the words of the subspan and the mention it belongs to. -/
structure Subspan where
  words : List Nat
  ne : words ≠ []
  mention : Mention

/-- `CorefMentionSubspan.__lt__` (coref.py:282-289) -/
def subspanLt (w : World) (a b : Subspan) : Option Bool :=
  if a.words.head a.ne = b.words.head b.ne then
    if a.words.length > b.words.length then some true
    else if a.words.length < b.words.length then some false
    else mentionLt w a.mention b.mention
  else precedes w (a.words.head a.ne) (b.words.head b.ne)

/-- `CorefEntity.__lt__` (coref.py:311-328); an entity is its id and its mentions. -/
def entityLt (w : World) (a b : Str × List Mention) : Option Bool :=
  match a.2, b.2 with
  | [], [] => some (strLt a.1 b.1)
  | [], _ :: _ => some true
  | _ :: _, [] => some false
  | m :: _, n :: _ => mentionLt w m n

/-! ## Specification -/

/-- Position in the document: bundle by bundle, then by ord. -/
def World.Before (w : World) (x y : Nat) : Prop :=
  w.number (w.root x) < w.number (w.root y) ∨ (w.number (w.root x) = w.number (w.root y) ∧ w.ord x < w.ord y)

/-- One zone of one document: one tree per bundle (C32, C34), and the nodes of a tree have different ords (C07, C24). -/
structure World.Ok (w : World) : Prop where
  tree : ∀ x ∈ w.nodes, ∀ y ∈ w.nodes, w.number (w.root x) = w.number (w.root y) → w.root x = w.root y
  node : ∀ x ∈ w.nodes, ∀ y ∈ w.nodes, w.root x = w.root y → w.ord x = w.ord y → x = y
  zone : ∀ x ∈ w.nodes, ∀ y ∈ w.nodes, w.zone (w.root x) = w.zone (w.root y)
  doc : ∀ x ∈ w.nodes, ∀ y ∈ w.nodes, w.doc (w.root x) = w.doc (w.root y)

/-- The words of the mention are nodes of the document. -/
def World.Has (w : World) (m : Mention) : Prop := m.head ∈ w.nodes ∧ ∀ x ∈ m.words, x ∈ w.nodes

/-- The documented order: first word, then the longer mention first, then the last word, then the id. -/
def World.Lt (w : World) (a b : Mention) : Prop :=
  w.Before a.first b.first ∨ (a.first = b.first ∧ (b.ws.length < a.ws.length ∨ (a.ws.length = b.ws.length ∧
    (w.Before a.last b.last ∨ (a.last = b.last ∧ strLt a.eid b.eid = true)))))

/-! ## Proofs -/

theorem World.Has.ws {w : World} {m : Mention} (h : w.Has m) : ∀ x ∈ m.ws, x ∈ w.nodes := by
  unfold Mention.ws
  split
  · intro x hx; rw [List.mem_singleton.1 hx]; exact h.1
  · exact h.2

theorem World.Has.first {w : World} {m : Mention} (h : w.Has m) : m.first ∈ w.nodes := h.ws _ (List.head_mem _)
theorem World.Has.last {w : World} {m : Mention} (h : w.Has m) : m.last ∈ w.nodes := h.ws _ (List.getLast_mem _)

theorem strLt_irrefl : ∀ s : Str, strLt s s = false
  | [] => rfl
  | a :: s => by simp [strLt, strLt_irrefl s]

theorem strLt_trans : ∀ {a b c : Str}, strLt a b = true → strLt b c = true → strLt a c = true
  | _, [], _, h, _ => by simp [strLt] at h
  | _, _ :: _, [], _, h => by simp [strLt] at h
  | [], _ :: _, _ :: _, _, _ => rfl
  | x :: a, y :: b, z :: c, h1, h2 => by
    unfold strLt at h1 h2 ⊢
    by_cases e1 : x.toNat < y.toNat
    · by_cases e2 : y.toNat < z.toNat
      · rw [if_pos (by omega)]
      · rw [if_neg e2] at h2
        by_cases e3 : z.toNat < y.toNat
        · rw [if_pos e3] at h2; cases h2
        · rw [if_pos (by omega)]
    · rw [if_neg e1] at h1
      by_cases e1' : y.toNat < x.toNat
      · rw [if_pos e1'] at h1; cases h1
      · rw [if_neg e1'] at h1
        by_cases e2 : y.toNat < z.toNat
        · rw [if_pos (by omega)]
        · rw [if_neg e2] at h2
          by_cases e3 : z.toNat < y.toNat
          · rw [if_pos e3] at h2; cases h2
          · rw [if_neg e3] at h2
            rw [if_neg (by omega), if_neg (by omega)]
            exact strLt_trans h1 h2

theorem strLt_total : ∀ {a b : Str}, strLt a b = false → strLt b a = false → a = b
  | [], [], _, _ => rfl
  | [], _ :: _, h, _ => by simp [strLt] at h
  | _ :: _, [], _, h => by simp [strLt] at h
  | x :: a, y :: b, h1, h2 => by
    unfold strLt at h1 h2
    by_cases e1 : x.toNat < y.toNat
    · rw [if_pos e1] at h1; cases h1
    · by_cases e2 : y.toNat < x.toNat
      · rw [if_pos e2] at h2; cases h2
      · rw [if_neg e1, if_neg e2] at h1
        rw [if_neg e2, if_neg e1] at h2
        rw [strLt_total h1 h2, Char.toNat_inj.1 (show x.toNat = y.toNat by omega)]

theorem precedes_eq {w : World} (h : w.Ok) {x y : Nat} (hx : x ∈ w.nodes) (hy : y ∈ w.nodes) :
    ∃ b, precedes w x y = some b ∧ (b = true ↔ w.Before x y) := by
  unfold precedes
  by_cases e : w.root x = w.root y
  · rw [if_pos e]
    refine ⟨_, rfl, ?_⟩
    unfold World.Before
    rw [e]
    simp
  · rw [if_neg e, if_neg (by simp [h.zone x hx y hy]), if_neg (by simp [h.doc x hx y hy])]
    refine ⟨_, rfl, ?_⟩
    unfold World.Before
    have : w.number (w.root x) ≠ w.number (w.root y) := fun e' => e (h.tree x hx y hy e')
    simp only [decide_eq_true_eq]
    omega

theorem before_irrefl {w : World} {x : Nat} : ¬ w.Before x x := by unfold World.Before; omega
theorem before_trans {w : World} {x y z : Nat} (h1 : w.Before x y) (h2 : w.Before y z) : w.Before x z := by
  unfold World.Before at *; omega
theorem before_total {w : World} (h : w.Ok) {x y : Nat} (hx : x ∈ w.nodes) (hy : y ∈ w.nodes) (h1 : ¬ w.Before x y)
    (h2 : ¬ w.Before y x) : x = y := by
  unfold World.Before at *
  have hn : w.number (w.root x) = w.number (w.root y) := by omega
  exact h.node x hx y hy (h.tree x hx y hy hn) (by omega)

/-- C37: within one zone of a document, comparing two mentions never fails and gives the documented order. -/
theorem C37_order {w : World} (h : w.Ok) {a b : Mention} (ha : w.Has a) (hb : w.Has b) :
    ∃ r, mentionLt w a b = some r ∧ (r = true ↔ w.Lt a b) := by
  unfold mentionLt World.Lt
  by_cases e : a.first = b.first
  · rw [if_pos e]
    have hnb : ¬ w.Before a.first b.first := by rw [e]; exact before_irrefl
    by_cases l1 : a.ws.length > b.ws.length
    · rw [if_pos l1]; exact ⟨true, rfl, by simp only [true_iff]; exact Or.inr ⟨e, Or.inl l1⟩⟩
    · rw [if_neg l1]
      by_cases l2 : a.ws.length < b.ws.length
      · rw [if_pos l2]
        refine ⟨false, rfl, ?_⟩
        simp only [Bool.false_eq_true, false_iff]
        rintro (h' | ⟨_, h' | ⟨h', _⟩⟩)
        · exact hnb h'
        · omega
        · omega
      · rw [if_neg l2]
        have hl : a.ws.length = b.ws.length := by omega
        obtain ⟨r1, e1, s1⟩ := precedes_eq h ha.last hb.last
        obtain ⟨r2, e2, s2⟩ := precedes_eq h hb.last ha.last
        rw [e1, e2]
        cases r1 with
        | true => exact ⟨true, rfl, by simp only [true_iff]; exact Or.inr ⟨e, Or.inr ⟨hl, Or.inl (s1.1 rfl)⟩⟩⟩
        | false =>
          have n1 : ¬ w.Before a.last b.last := fun x => by simpa using s1.2 x
          cases r2 with
          | true =>
            refine ⟨false, rfl, ?_⟩
            simp only [Bool.false_eq_true, false_iff]
            rintro (h' | ⟨_, h' | ⟨_, h' | ⟨h', _⟩⟩⟩)
            · exact hnb h'
            · omega
            · exact n1 h'
            · have := s2.1 rfl
              rw [h'] at this
              exact before_irrefl this
          | false =>
            have n2 : ¬ w.Before b.last a.last := fun x => by simpa using s2.2 x
            have el := before_total h ha.last hb.last n1 n2
            refine ⟨_, rfl, ?_⟩
            constructor
            · intro h'; exact Or.inr ⟨e, Or.inr ⟨hl, Or.inr ⟨el, h'⟩⟩⟩
            · rintro (h' | ⟨_, h' | ⟨_, h' | ⟨_, h'⟩⟩⟩)
              · exact absurd h' hnb
              · omega
              · exact absurd h' n1
              · exact h'
  · rw [if_neg e]
    obtain ⟨r, e1, s1⟩ := precedes_eq h ha.first hb.first
    refine ⟨r, e1, s1.trans ⟨Or.inl, ?_⟩⟩
    rintro (h' | ⟨h', _⟩)
    · exact h'
    · exact absurd h' e

theorem lt_trans' {w : World} {a b c : Mention} (h1 : w.Lt a b) (h2 : w.Lt b c) : w.Lt a c := by
  unfold World.Lt at *
  rcases h1 with h1 | ⟨e1, h1⟩
  · left
    rcases h2 with h2 | ⟨e2, _⟩
    · exact before_trans h1 h2
    · rw [← e2]; exact h1
  · rcases h2 with h2 | ⟨e2, h2⟩
    · left; rw [e1]; exact h2
    · refine Or.inr ⟨e1.trans e2, ?_⟩
      rcases h1 with h1 | ⟨l1, h1⟩
      · left
        rcases h2 with h2 | ⟨l2, _⟩ <;> omega
      · rcases h2 with h2 | ⟨l2, h2⟩
        · left; omega
        · refine Or.inr ⟨by omega, ?_⟩
          rcases h1 with h1 | ⟨f1, h1⟩
          · left
            rcases h2 with h2 | ⟨f2, _⟩
            · exact before_trans h1 h2
            · rw [← f2]; exact h1
          · rcases h2 with h2 | ⟨f2, h2⟩
            · left; rw [f1]; exact h2
            · exact Or.inr ⟨f1.trans f2, strLt_trans h1 h2⟩

theorem lt_irrefl' {w : World} {a : Mention} : ¬ w.Lt a a := by
  unfold World.Lt
  rintro (h | ⟨_, h | ⟨_, h | ⟨_, h⟩⟩⟩)
  · exact before_irrefl h
  · omega
  · exact before_irrefl h
  · rw [strLt_irrefl] at h; cases h

theorem lt_total' {w : World} (h : w.Ok) {a b : Mention} (ha : w.Has a) (hb : w.Has b) (h1 : ¬ w.Lt a b) (h2 : ¬ w.Lt b a) :
    a.first = b.first ∧ a.last = b.last ∧ a.ws.length = b.ws.length ∧ a.eid = b.eid := by
  unfold World.Lt at h1 h2
  have e : a.first = b.first := before_total h ha.first hb.first (fun x => h1 (Or.inl x)) (fun x => h2 (Or.inl x))
  have l : a.ws.length = b.ws.length := by
    rcases Nat.lt_trichotomy a.ws.length b.ws.length with x | x | x
    · exact absurd (Or.inr ⟨e.symm, Or.inl x⟩) h2
    · exact x
    · exact absurd (Or.inr ⟨e, Or.inl x⟩) h1
  have f : a.last = b.last := before_total h ha.last hb.last
    (fun x => h1 (Or.inr ⟨e, Or.inr ⟨l, Or.inl x⟩⟩)) (fun x => h2 (Or.inr ⟨e.symm, Or.inr ⟨l.symm, Or.inl x⟩⟩))
  refine ⟨e, f, l, strLt_total ?_ ?_⟩
  · cases hs : strLt a.eid b.eid with
    | false => rfl
    | true => exact absurd (Or.inr ⟨e, Or.inr ⟨l, Or.inr ⟨f, hs⟩⟩⟩) h1
  · cases hs : strLt b.eid a.eid with
    | false => rfl
    | true => exact absurd (Or.inr ⟨e.symm, Or.inr ⟨l.symm, Or.inr ⟨f.symm, hs⟩⟩⟩) h2

theorem ok_iff {r : Option Bool} {p : Prop} (h : ∃ b, r = some b ∧ (b = true ↔ p)) : (r = some true ↔ p) ∧ (r = some false ↔ ¬ p) := by
  obtain ⟨b, rfl, hb⟩ := h
  cases b <;> simp_all

/-- C37: no mention is before itself. -/
theorem C37_irreflexive {w : World} (h : w.Ok) {a : Mention} (ha : w.Has a) : mentionLt w a a = some false :=
  (ok_iff (C37_order h ha ha)).2.2 lt_irrefl'

/-- C37: the order is transitive. -/
theorem C37_transitive {w : World} (h : w.Ok) {a b c : Mention} (ha : w.Has a) (hb : w.Has b) (hc : w.Has c)
    (h1 : mentionLt w a b = some true) (h2 : mentionLt w b c = some true) : mentionLt w a c = some true :=
  (ok_iff (C37_order h ha hc)).1.2
    (lt_trans' ((ok_iff (C37_order h ha hb)).1.1 h1) ((ok_iff (C37_order h hb hc)).1.1 h2))

/-- C37: mentions that are incomparable start at the same word, end at the same word, have the same length and the same
entity id. -/
theorem C37_incomparable {w : World} (h : w.Ok) {a b : Mention} (ha : w.Has a) (hb : w.Has b)
    (h1 : mentionLt w a b = some false) (h2 : mentionLt w b a = some false) :
    a.first = b.first ∧ a.last = b.last ∧ a.ws.length = b.ws.length ∧ a.eid = b.eid :=
  lt_total' h ha hb ((ok_iff (C37_order h ha hb)).2.1 h1) ((ok_iff (C37_order h hb ha)).2.1 h2)

/-- Two sentences (trees 100 and 101) of three words each. -/
def exWorld : World where
  nodes := [1, 2, 3, 4, 5, 6]
  root := fun x => if x ≤ 3 then 100 else 101
  ord := fun x => if x ≤ 3 then x else x - 3
  zone := fun _ => 0
  doc := fun _ => 0
  number := fun r => r - 99

theorem exWorld_ok : exWorld.Ok := by
  refine ⟨?_, ?_, ?_, ?_⟩ <;> (unfold exWorld; decide)

example : mentionLt exWorld ⟨[1, 2, 3], 1, ['e', '1']⟩ ⟨[1, 2], 1, ['e', '0']⟩ = some true ∧
    mentionLt exWorld ⟨[1, 2], 1, ['e', '1']⟩ ⟨[1, 3], 1, ['e', '0']⟩ = some true ∧
    mentionLt exWorld ⟨[1, 3], 1, ['e', '1']⟩ ⟨[1, 3], 3, ['e', '2']⟩ = some true ∧
    mentionLt exWorld ⟨[3], 3, ['e', '1']⟩ ⟨[4, 5, 6], 4, ['e', '1']⟩ = some true ∧
    exWorld.Has ⟨[1, 2, 3], 1, ['e', '1']⟩ := by
  refine ⟨by decide, by decide, by decide, by decide, ?_⟩
  unfold World.Has exWorld; decide

/-- The documented order of subspans. -/
def World.SubLt (w : World) (a b : Subspan) : Prop :=
  w.Before (a.words.head a.ne) (b.words.head b.ne) ∨ (a.words.head a.ne = b.words.head b.ne ∧
    (b.words.length < a.words.length ∨ (a.words.length = b.words.length ∧ w.Lt a.mention b.mention)))

/-- The same for the continuous parts of mentions, which the serializer sorts. -/
theorem C37_subspan_order {w : World} (h : w.Ok) {a b : Subspan} (ha : w.Has a.mention) (hb : w.Has b.mention)
    (ha' : ∀ x ∈ a.words, x ∈ w.nodes) (hb' : ∀ x ∈ b.words, x ∈ w.nodes) :
    ∃ r, subspanLt w a b = some r ∧ (r = true ↔ w.SubLt a b) := by
  unfold subspanLt World.SubLt
  by_cases e : a.words.head a.ne = b.words.head b.ne
  · rw [if_pos e]
    have hnb : ¬ w.Before (a.words.head a.ne) (b.words.head b.ne) := by rw [e]; exact before_irrefl
    by_cases l1 : a.words.length > b.words.length
    · rw [if_pos l1]; exact ⟨true, rfl, by simp only [true_iff]; exact Or.inr ⟨e, Or.inl l1⟩⟩
    · rw [if_neg l1]
      by_cases l2 : a.words.length < b.words.length
      · rw [if_pos l2]
        refine ⟨false, rfl, ?_⟩
        simp only [Bool.false_eq_true, false_iff]
        rintro (h' | ⟨_, h' | ⟨h', _⟩⟩)
        · exact hnb h'
        · omega
        · omega
      · rw [if_neg l2]
        obtain ⟨r, e1, s1⟩ := C37_order h ha hb
        refine ⟨r, e1, s1.trans ⟨fun x => Or.inr ⟨e, Or.inr ⟨by omega, x⟩⟩, ?_⟩⟩
        rintro (h' | ⟨_, h' | ⟨_, h'⟩⟩)
        · exact absurd h' hnb
        · omega
        · exact h'
  · rw [if_neg e]
    obtain ⟨r, e1, s1⟩ := precedes_eq h (ha' _ (List.head_mem a.ne)) (hb' _ (List.head_mem b.ne))
    refine ⟨r, e1, s1.trans ⟨Or.inl, ?_⟩⟩
    rintro (h' | ⟨h', _⟩)
    · exact h'
    · exact absurd h' e

theorem C37_subspan_irreflexive {w : World} {a : Subspan} : ¬ w.SubLt a a := by
  unfold World.SubLt
  rintro (h | ⟨_, h | ⟨_, h⟩⟩)
  · exact before_irrefl h
  · omega
  · exact lt_irrefl' h

theorem C37_subspan_transitive {w : World} {a b c : Subspan} (h1 : w.SubLt a b) (h2 : w.SubLt b c) : w.SubLt a c := by
  unfold World.SubLt at *
  rcases h1 with h1 | ⟨e1, h1⟩
  · left
    rcases h2 with h2 | ⟨e2, _⟩
    · exact before_trans h1 h2
    · rw [← e2]; exact h1
  · rcases h2 with h2 | ⟨e2, h2⟩
    · left; rw [e1]; exact h2
    · refine Or.inr ⟨e1.trans e2, ?_⟩
      rcases h1 with h1 | ⟨l1, h1⟩
      · left
        rcases h2 with h2 | ⟨l2, _⟩ <;> omega
      · rcases h2 with h2 | ⟨l2, h2⟩
        · left; omega
        · exact Or.inr ⟨by omega, lt_trans' h1 h2⟩

example : subspanLt exWorld ⟨[1, 2], by simp, ⟨[1, 2, 4], 1, ['e']⟩⟩ ⟨[1], by simp, ⟨[1, 3], 1, ['e']⟩⟩ = some true := by decide

/-- The claim of C37 depends on `_words` being in word order: the stored list is compared, and moving a word does not
re-sort it. Whatever the stored lists are, only their first elements are looked at when these differ. -/
theorem C37_stored_order {w : World} {a b : Mention} (hne : a.first ≠ b.first) :
    mentionLt w a b = precedes w a.first b.first := if_neg hne

/-- Word 3 was moved before word 1 after the mention of words 1 and 3 had been made (ord of 3 is now 0): the mention starts
at word 3, before the mention of the single word 2 (ord 1), and yet it is sorted after it. -/
theorem C37_moved_words_violated : ∃ (w : World) (a b : Mention), w.Ok ∧ w.Has a ∧ w.Has b ∧
    (∃ x ∈ a.words, ∀ y ∈ b.words, w.Before x y) ∧ mentionLt w a b = some false ∧ mentionLt w b a = some true :=
  ⟨⟨[1, 2, 3], fun _ => 100, fun x => if x = 3 then 0 else if x = 2 then 1 else 2, fun _ => 0, fun _ => 0, fun _ => 1⟩,
    ⟨[1, 3], 1, ['e']⟩, ⟨[2], 2, ['f']⟩, ⟨by decide, by decide, by decide, by decide⟩,
    by unfold World.Has; decide, by unfold World.Has; decide, by unfold World.Before; decide, by decide, by decide⟩

/-- The last part of the claim fails then: two mentions of one entity are incomparable although one starts at word 2 (moved to
the front) and the other one at word 1. -/
theorem C37_moved_incomparable_violated : ∃ (w : World) (a b : Mention), w.Ok ∧ w.Has a ∧ w.Has b ∧
    mentionLt w a b = some false ∧ mentionLt w b a = some false ∧ ∃ x ∈ a.words, ∀ y ∈ b.words, w.Before x y :=
  ⟨⟨[1, 2, 3, 4], fun _ => 100, fun x => if x = 2 then 0 else x, fun _ => 0, fun _ => 0, fun _ => 1⟩,
    ⟨[1, 2, 4], 1, ['e']⟩, ⟨[1, 3, 4], 1, ['e']⟩, ⟨by decide, by decide, by decide, by decide⟩,
    by unfold World.Has; decide, by unfold World.Has; decide, by decide, by decide, by unfold World.Before; decide⟩

/-- Where the stored words are in word order, `first` is the word the mention starts at and `last` the word it ends at. What is
missing for the full claim: mentions whose words were moved. -/
theorem C37_stored_sorted_partial {w : World} {m : Mention} (hs : m.ws.Pairwise w.Before) :
    ∀ x ∈ m.ws, (x = m.first ∨ w.Before m.first x) ∧ (x = m.last ∨ w.Before x m.last) := by
  intro x hx
  constructor
  · have h : m.ws = m.first :: m.ws.tail := (List.cons_head_tail m.ws_ne_nil).symm
    rw [h] at hx hs
    rcases List.mem_cons.1 hx with h | h
    · exact Or.inl h
    · exact Or.inr ((List.pairwise_cons.1 hs).1 x h)
  · have h : m.ws = m.ws.dropLast ++ [m.last] := (List.dropLast_concat_getLast m.ws_ne_nil).symm
    rw [h] at hx hs
    rcases List.mem_append.1 hx with h | h
    · exact Or.inr ((List.pairwise_append.1 hs).2.2 x h _ (List.mem_singleton.2 rfl))
    · exact Or.inl (List.mem_singleton.1 h)

example : (Mention.ws ⟨[1, 3, 4], 1, ['e']⟩).Pairwise exWorld.Before := by unfold World.Before Mention.ws exWorld; decide

/-! ## C77: the mentions of a document can be listed -/

/-- C77 does not hold: two mentions in different zones cannot be compared at all, in whatever document. `doc.coref_mentions`
(document.py:149-156) sorts all mentions of the document, and sorting compares the first two of the list first. -/
theorem C77_zones_violated {w : World} {a b : Mention} (h : w.zone (w.root a.first) ≠ w.zone (w.root b.first)) :
    mentionLt w a b = none ∧ mentionLt w b a = none := by
  have hr : w.root a.first ≠ w.root b.first := fun e => h (by rw [e])
  have hf : a.first ≠ b.first := fun e => hr (by rw [e])
  constructor
  · unfold mentionLt precedes
    rw [if_neg hf, if_neg hr, if_pos h]
  · unfold mentionLt precedes
    rw [if_neg (Ne.symm hf), if_neg (Ne.symm hr), if_pos (Ne.symm h)]

example : ∃ (w : World) (a b : Mention), w.zone (w.root a.first) ≠ w.zone (w.root b.first) ∧ w.Has a ∧ w.Has b :=
  ⟨⟨[1, 2], id, fun _ => 1, id, fun _ => 0, fun _ => 1⟩, ⟨[1], 1, ['e']⟩, ⟨[2], 2, ['e']⟩, by decide, by unfold World.Has; decide,
    by unfold World.Has; decide⟩

/-! ## C78: the order of entities -/

/-- All mentions of the entity lie in the document. -/
def World.HasE (w : World) (e : Str × List Mention) : Prop := ∀ m ∈ e.2, w.Has m

/-- C78: comparing entities never fails within one zone; no entity is before itself. -/
theorem C78_irreflexive {w : World} (h : w.Ok) {a : Str × List Mention} (ha : w.HasE a) : entityLt w a a = some false := by
  obtain ⟨i, ms⟩ := a
  cases ms with
  | nil => simp [entityLt, strLt_irrefl]
  | cons m ms => exact C37_irreflexive h (ha m (List.mem_cons_self ..))

/-- C78: the order of entities is transitive. -/
theorem C78_transitive {w : World} (h : w.Ok) {a b c : Str × List Mention} (ha : w.HasE a) (hb : w.HasE b) (hc : w.HasE c)
    (h1 : entityLt w a b = some true) (h2 : entityLt w b c = some true) : entityLt w a c = some true := by
  obtain ⟨i, ms⟩ := a
  obtain ⟨j, ns⟩ := b
  obtain ⟨k, os⟩ := c
  cases ms <;> cases ns <;> cases os <;> simp only [entityLt, Option.some.injEq, Bool.false_eq_true] at h1 h2 ⊢
  · exact strLt_trans h1 h2
  · exact C37_transitive h (ha _ (List.mem_cons_self ..)) (hb _ (List.mem_cons_self ..)) (hc _ (List.mem_cons_self ..)) h1 h2

/-- C78: incomparable entities either have no mentions and the same id, or their first mentions start and end at the same
words, are equally long and bear the same id. -/
theorem C78_incomparable {w : World} (h : w.Ok) {a b : Str × List Mention} (ha : w.HasE a) (hb : w.HasE b)
    (h1 : entityLt w a b = some false) (h2 : entityLt w b a = some false) :
    (a.2 = [] ∧ b.2 = [] ∧ a.1 = b.1) ∨
    ∃ m ms n ns, a.2 = m :: ms ∧ b.2 = n :: ns ∧ m.first = n.first ∧ m.last = n.last ∧ m.ws.length = n.ws.length ∧ m.eid = n.eid := by
  obtain ⟨i, ms⟩ := a
  obtain ⟨j, ns⟩ := b
  cases ms <;> cases ns <;> simp only [entityLt, Option.some.injEq, Bool.true_eq_false] at h1 h2 ⊢
  · exact Or.inl ⟨trivial, trivial, strLt_total h1 h2⟩
  · exact Or.inr ⟨_, _, _, _, rfl, rfl,
      C37_incomparable h (ha _ (List.mem_cons_self ..)) (hb _ (List.mem_cons_self ..)) h1 h2⟩

example : entityLt exWorld (['b'], []) (['a'], [⟨[1], 1, ['a']⟩]) = some true ∧
    entityLt exWorld (['b'], [⟨[2], 2, ['b']⟩]) (['a'], [⟨[4], 4, ['a']⟩, ⟨[1], 1, ['a']⟩]) = some true := by decide

end Verif.Coref
