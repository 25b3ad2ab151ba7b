import Verif.Coref.Mentions
import Verif.Coref.Order

/-!
# Property C106: corefud.MergeSameSpan (udapi/block/corefud/mergesamespan.py:18-52)

On the states of `Mentions.lean`. `eid` gives the id of an entity. The block collects the mentions of the tree in a `set`; the order in which it
goes through them is arbitrary, so it is a parameter `l`. Simplified: the warning is left out.
-/

namespace Verif.Coref.MergeSpan
open Verif.Py
open Verif.Coref (strLt strLt_trans strLt_total strLt_irrefl)
open Verif.Coref.M

/-- `itertools.combinations(l, 2)` -/
def combos : List Nat → List (Nat × Nat)
  | [] => []
  | a :: l => l.map (fun b => (a, b)) ++ combos l

/-- `set(a) == set(b)` -/
def sameSet (a b : List Nat) : Bool := a.all (fun x => decide (x ∈ b)) && b.all (fun x => decide (x ∈ a))

/-- `mB.words = []` and the removal from `mB.entity.mentions`, whose ValueError is ignored (mergesamespan.py:48-52). -/
def dropMention (c : Cmp) (s : St) (m : Nat) : St × Option Err :=
  match setWords c s m [] with
  | (s', some e) => (s', some e)
  | (s', none) => ({ s' with ent := upd s'.ent (s'.entOf m) ((s'.ent (s'.entOf m)).erase m) }, none)

/-- The body of the loop (mergesamespan.py:25-52). -/
def mergePair (c : Cmp) (eid : Nat → Str) (same : Bool) (s : St) (p : Nat × Nat) : St × Option Err :=
  if same = true ∧ s.entOf p.1 ≠ s.entOf p.2 then (s, none)
  else
    let q := if strLt (eid (s.entOf p.2)) (eid (s.entOf p.1)) then (p.2, p.1) else p
    if sameSet (s.words q.1) (s.words q.2) then dropMention c s q.2 else (s, none)

def mergeLoop (c : Cmp) (eid : Nat → Str) (same : Bool) : St → List (Nat × Nat) → St × Option Err
  | s, [] => (s, none)
  | s, p :: ps =>
    match mergePair c eid same s p with
    | (s', some e) => (s', some e)
    | (s', none) => mergeLoop c eid same s' ps

/-- `process_tree` (mergesamespan.py:18-52) -/
def process (c : Cmp) (eid : Nat → Str) (same : Bool) (s : St) (l : List Nat) : St × Option Err := mergeLoop c eid same s (combos l)

/-! ## Specification -/

/-- `l` lists the mentions of the nodes of the tree, each once, in any order. -/
structure Lists (s : St) (nodes : List Nat) (l : List Nat) : Prop where
  mem : ∀ m, m ∈ l ↔ ∃ x ∈ nodes, m ∈ s.back x
  nodup : l.Nodup

/-- The two mentions have the same words. -/
def SameWords (s : St) (a b : Nat) : Prop := ∀ x, x ∈ s.words a ↔ x ∈ s.words b

/-! ## Proofs -/

theorem sameSet_iff {a b : List Nat} : sameSet a b = true ↔ ∀ x, x ∈ a ↔ x ∈ b := by
  unfold sameSet
  simp only [Bool.and_eq_true, List.all_eq_true, decide_eq_true_eq]
  exact ⟨fun h x => ⟨h.1 x, h.2 x⟩, fun h => ⟨fun x => (h x).1, fun x => (h x).2⟩⟩

theorem mem_combos : ∀ {l : List Nat} {a b : Nat}, a ∈ l → b ∈ l → a ≠ b → (a, b) ∈ combos l ∨ (b, a) ∈ combos l
  | [], _, _, h, _, _ => absurd h List.not_mem_nil
  | x :: l, a, b, ha, hb, hne => by
    unfold combos
    rcases List.mem_cons.1 ha with rfl | ha'
    · rcases List.mem_cons.1 hb with rfl | hb'
      · exact absurd rfl hne
      · exact Or.inl (List.mem_append_left _ (List.mem_map.2 ⟨b, hb', rfl⟩))
    · rcases List.mem_cons.1 hb with rfl | hb'
      · exact Or.inr (List.mem_append_left _ (List.mem_map.2 ⟨a, ha', rfl⟩))
      · rcases mem_combos ha' hb' hne with h | h
        · exact Or.inl (List.mem_append_right _ h)
        · exact Or.inr (List.mem_append_right _ h)

theorem combos_mem : ∀ {l : List Nat} {p : Nat × Nat}, p ∈ combos l → p.1 ∈ l ∧ p.2 ∈ l
  | [], _, h => absurd h List.not_mem_nil
  | x :: l, p, h => by
    unfold combos at h
    rcases List.mem_append.1 h with h | h
    · obtain ⟨b, hb, rfl⟩ := List.mem_map.1 h
      exact ⟨List.mem_cons_self .., List.mem_cons_of_mem _ hb⟩
    · exact ⟨List.mem_cons_of_mem _ (combos_mem h).1, List.mem_cons_of_mem _ (combos_mem h).2⟩

theorem combos_ne : ∀ {l : List Nat}, l.Nodup → ∀ {p : Nat × Nat}, p ∈ combos l → p.1 ≠ p.2
  | [], _, _, h => absurd h List.not_mem_nil
  | x :: l, hn, p, h => by
    rw [List.nodup_cons] at hn
    unfold combos at h
    rcases List.mem_append.1 h with h | h
    · obtain ⟨b, hb, rfl⟩ := List.mem_map.1 h
      exact fun e => hn.1 (by rw [show x = b from e]; exact hb)
    · exact combos_ne hn.2 h

theorem drop_live {c : Cmp} {s : St} (h : Inv s) {m : Nat} (hl : s.Live m) :
    ∃ t, dropMention c s m = (t, none) ∧ Inv t ∧ t.words = upd s.words m [] ∧ t.head = s.head ∧ t.entOf = s.entOf ∧
      t.ent = upd s.ent (s.entOf m) ((s.ent (s.entOf m)).erase m) := by
  rcases setWords_spec (c := c) h hl [] with ⟨h1, _⟩ | ⟨_, t, e, hi, hw, hh, heo, hen, hnx⟩
  · exact absurd rfl h1
  · have hw' : t.words = upd s.words m [] := hw
    refine ⟨{ t with ent := upd t.ent (t.entOf m) ((t.ent (t.entOf m)).erase m) }, by unfold dropMention; rw [e], ?_, hw', hh, heo,
      by simp only [hen, heo]⟩
    have hm : ∀ e' n, n ∈ (upd t.ent (t.entOf m) ((t.ent (t.entOf m)).erase m)) e' ↔ n ∈ t.ent e' ∧ n ≠ m := by
      intro e' n
      by_cases he : e' = t.entOf m
      · subst he
        rw [upd_same, (hi.nodupE _).mem_erase_iff]
        exact And.comm
      · rw [upd_other _ _ he]
        refine ⟨fun hn => ⟨hn, ?_⟩, fun hn => hn.1⟩
        rintro rfl
        exact he (hi.entOf e' _ hn).symm
    have hlive : ∀ n, St.Live { t with ent := upd t.ent (t.entOf m) ((t.ent (t.entOf m)).erase m) } n ↔ t.Live n ∧ n ≠ m := fun n => hm _ n
    refine ⟨?_, hi.nodupB, ?_, ?_, ?_, ?_⟩
    · intro n x
      rw [hlive]
      show n ∈ t.back x ↔ (t.Live n ∧ n ≠ m) ∧ x ∈ t.words n
      rw [hi.back]
      refine ⟨fun ⟨a, b⟩ => ⟨⟨a, ?_⟩, b⟩, fun ⟨⟨a, _⟩, b⟩ => ⟨a, b⟩⟩
      rintro rfl
      rw [hw', upd_same] at b
      exact absurd b List.not_mem_nil
    · intro n hn
      exact hi.nodupW n ((hlive n).1 hn).1
    · intro e' n hn
      exact hi.entOf e' n ((hm e' n).1 hn).1
    · intro e'
      show (upd t.ent (t.entOf m) ((t.ent (t.entOf m)).erase m) e').Nodup
      by_cases he : e' = t.entOf m
      · rw [he, upd_same]
        exact (hi.nodupE _).erase _
      · rw [upd_other _ _ he]
        exact hi.nodupE _
    · intro e' n hn
      exact hi.fresh e' n ((hm e' n).1 hn).1

theorem upd_self {α : Type} (f : Nat → α) (k : Nat) : upd f k (f k) = f := by
  funext x
  unfold upd
  split
  · rename_i h
    rw [h]
  · rfl

theorem drop_dead {c : Cmp} {s : St} {m : Nat} (hl : ¬ s.Live m) (hw : s.words m = []) : dropMention c s m = (s, none) := by
  have he : (s.ent (s.entOf m)).erase m = s.ent (s.entOf m) := List.erase_of_not_mem hl
  have h1 : setWords c s m [] = (s, none) := by
    have : ({ s with words := upd s.words m [] } : St) = s := by
      have := upd_self s.words m
      rw [hw] at this
      rw [this]
    show (match dropBacks [] m s (s.words m) with
      | (s', some e) => (s', some e)
      | (s', none) => (addBacks c ((s.words m).filter (· ∈ [])) m { s' with words := upd s'.words m [] } [], none)) = _
    rw [hw]
    show (({ s with words := upd s.words m [] } : St), none) = _
    rw [this]
  unfold dropMention
  rw [h1]
  simp only [he, upd_self]

/-- What holds between the pairs. -/
structure Loop (eid : Nat → Str) (same : Bool) (s : St) (l : List Nat) (t : St) : Prop where
  inv : Inv t
  entOf : t.entOf = s.entOf
  head : t.head = s.head
  live : ∀ m, t.Live m → s.Live m ∧ t.words m = s.words m
  dead : ∀ m, s.Live m → ¬ t.Live m → m ∈ l ∧ t.words m = []
  sub : ∀ e, (t.ent e).Sublist (s.ent e)
  cover : ∀ m, s.Live m → ∃ m', t.Live m' ∧ SameWords s m' m ∧ strLt (eid (s.entOf m)) (eid (s.entOf m')) = false ∧
    (same = true → s.entOf m' = s.entOf m)

theorem ge_trans {a b c : Str} (h1 : strLt b a = false) (h2 : strLt c b = false) : strLt c a = false := by
  cases h : strLt c a with
  | false => rfl
  | true =>
    cases h3 : strLt a b with
    | true =>
      have := strLt_trans h h3
      rw [this] at h2
      exact absurd h2 (by simp)
    | false =>
      have := strLt_total h3 h1
      rw [this] at h
      rw [h] at h2
      exact absurd h2 (by simp)

theorem Loop.pair {c : Cmp} {eid : Nat → Str} {same : Bool} {s t : St} {l : List Nat} (hh : HeadIn s) (hl : ∀ m ∈ l, s.Live m)
    (h : Loop eid same s l t) {p : Nat × Nat} (h1 : p.1 ∈ l) (h2 : p.2 ∈ l) (hne : p.1 ≠ p.2) :
    ∃ t', mergePair c eid same t p = (t', none) ∧ Loop eid same s l t' ∧ (∀ m, t'.Live m → t.Live m) ∧
      ¬ (t'.Live p.1 ∧ t'.Live p.2 ∧ SameWords s p.1 p.2 ∧ (same = true → s.entOf p.1 = s.entOf p.2)) := by
  unfold mergePair
  by_cases hs : same = true ∧ t.entOf p.1 ≠ t.entOf p.2
  · rw [if_pos hs]
    refine ⟨t, rfl, h, fun _ => id, fun ⟨_, _, _, k⟩ => hs.2 ?_⟩
    rw [h.entOf]
    exact k hs.1
  · rw [if_neg hs]
    obtain ⟨a, b, hq, ha, hb, hab, hle⟩ : ∃ a b, (if strLt (eid (t.entOf p.2)) (eid (t.entOf p.1)) then (p.2, p.1) else p) = (a, b) ∧ a ∈ l ∧ b ∈ l ∧
        ((a = p.1 ∧ b = p.2) ∨ (a = p.2 ∧ b = p.1)) ∧ strLt (eid (s.entOf b)) (eid (s.entOf a)) = false := by
      split
      · rename_i hlt
        refine ⟨p.2, p.1, rfl, h2, h1, Or.inr ⟨rfl, rfl⟩, ?_⟩
        rw [h.entOf] at hlt
        cases hx : strLt (eid (s.entOf p.1)) (eid (s.entOf p.2)) with
        | false => rfl
        | true =>
          have := strLt_trans hlt hx
          rw [strLt_irrefl] at this
          exact absurd this (by simp)
      · rename_i hlt
        rw [h.entOf] at hlt
        exact ⟨p.1, p.2, rfl, h1, h2, Or.inl ⟨rfl, rfl⟩, by simpa using hlt⟩
    rw [hq]
    simp only
    have hab' : a ≠ b := by
      rcases hab with ⟨rfl, rfl⟩ | ⟨rfl, rfl⟩
      · exact hne
      · exact Ne.symm hne
    have hsame : same = true → s.entOf a = s.entOf b := by
      intro hx
      have : t.entOf p.1 = t.entOf p.2 := Decidable.not_not.1 (fun k => hs ⟨hx, k⟩)
      rw [h.entOf] at this
      rcases hab with ⟨rfl, rfl⟩ | ⟨rfl, rfl⟩
      · exact this
      · exact this.symm
    have hsw : ∀ {u : St}, ¬ (u.Live a ∧ u.Live b ∧ SameWords s a b) →
        ¬ (u.Live p.1 ∧ u.Live p.2 ∧ SameWords s p.1 p.2 ∧ (same = true → s.entOf p.1 = s.entOf p.2)) := by
      rintro u hu ⟨k1, k2, k3, _⟩
      rcases hab with ⟨rfl, rfl⟩ | ⟨rfl, rfl⟩
      · exact hu ⟨k1, k2, k3⟩
      · exact hu ⟨k2, k1, fun x => (k3 x).symm⟩
    by_cases hw : sameSet (t.words a) (t.words b) = true
    · rw [if_pos hw, ]
      rw [sameSet_iff] at hw
      by_cases hlb : t.Live b
      · -- both are live
        have hla : t.Live a := by
          refine Classical.byContradiction (fun hd => ?_)
          have w := (h.dead a (hl a ha) hd).2
          have := hh b (hl b hb)
          rw [← (h.live b hlb).2, ← hw, w] at this
          exact absurd this List.not_mem_nil
        obtain ⟨t', e, hi, tw, th, te, ten⟩ := drop_live (c := c) h.inv hlb
        have hlive : ∀ n, t'.Live n ↔ t.Live n ∧ n ≠ b := by
          intro n
          unfold St.Live
          rw [te, ten]
          by_cases hx : t.entOf n = t.entOf b
          · rw [hx, upd_same, (h.inv.nodupE _).mem_erase_iff]
            exact And.comm
          · rw [upd_other _ _ hx]
            refine ⟨fun hn => ⟨hn, ?_⟩, fun hn => hn.1⟩
            rintro rfl
            exact hx rfl
        have hword : SameWords s a b := by
          intro x
          rw [← (h.live a hla).2, ← (h.live b hlb).2]
          exact hw x
        refine ⟨t', e, ⟨hi, te.trans h.entOf, th.trans h.head, ?_, ?_, ?_, ?_⟩, fun m hm => ((hlive m).1 hm).1,
          hsw (fun k => ((hlive b).1 k.2.1).2 rfl)⟩
        · intro m hm
          obtain ⟨k1, k2⟩ := (hlive m).1 hm
          rw [tw, upd_other _ _ k2]
          exact h.live m k1
        · intro m hm hd
          by_cases hmb : m = b
          · rw [hmb, tw, upd_same]
            exact ⟨hb, rfl⟩
          · rw [tw, upd_other _ _ hmb]
            exact h.dead m hm (fun k => hd ((hlive m).2 ⟨k, hmb⟩))
        · intro e'
          rw [ten]
          by_cases he : e' = t.entOf b
          · rw [he, upd_same]
            exact List.erase_sublist.trans (h.sub _)
          · rw [upd_other _ _ he]
            exact h.sub e'
        · intro m hm
          obtain ⟨m', k1, k2, k3, k4⟩ := h.cover m hm
          by_cases hmb : m' = b
          · subst hmb
            refine ⟨a, (hlive a).2 ⟨hla, hab'⟩, fun x => (hword x).trans (k2 x), ge_trans hle k3, fun hx => (hsame hx).trans (k4 hx)⟩
          · exact ⟨m', (hlive m').2 ⟨k1, hmb⟩, k2, k3, k4⟩
      · rw [drop_dead hlb (h.dead b (hl b hb) hlb).2]
        exact ⟨t, rfl, h, fun _ => id, hsw (fun k => hlb k.2.1)⟩
    · rw [if_neg hw]
      refine ⟨t, rfl, h, fun _ => id, hsw (fun ⟨k1, k2, k3⟩ => hw (sameSet_iff.2 (fun x => ?_)))⟩
      rw [(h.live a k1).2, (h.live b k2).2]
      exact k3 x

theorem loop {c : Cmp} {eid : Nat → Str} {same : Bool} {s : St} {l : List Nat} (hh : HeadIn s) (hl : ∀ m ∈ l, s.Live m) :
    ∀ (ps : List (Nat × Nat)) (t : St), (∀ p ∈ ps, p.1 ∈ l ∧ p.2 ∈ l ∧ p.1 ≠ p.2) → Loop eid same s l t →
    ∃ t', mergeLoop c eid same t ps = (t', none) ∧ Loop eid same s l t' ∧ (∀ m, t'.Live m → t.Live m) ∧
      ∀ p ∈ ps, ¬ (t'.Live p.1 ∧ t'.Live p.2 ∧ SameWords s p.1 p.2 ∧ (same = true → s.entOf p.1 = s.entOf p.2))
  | [], t, _, h => ⟨t, rfl, h, fun _ => id, fun p hp => absurd hp List.not_mem_nil⟩
  | p :: ps, t, hps, h => by
    obtain ⟨h1, h2, h3⟩ := hps p (List.mem_cons_self ..)
    obtain ⟨t1, e1, k1, k2, k3⟩ := h.pair (c := c) hh hl h1 h2 h3
    obtain ⟨t2, e2, g1, g2, g3⟩ := loop hh hl ps t1 (fun q hq => hps q (List.mem_cons_of_mem _ hq)) k1
    refine ⟨t2, ?_, g1, fun m hm => k2 m (g2 m hm), ?_⟩
    · unfold mergeLoop
      rw [e1]
      exact e2
    · intro q hq
      rcases List.mem_cons.1 hq with rfl | hq
      · exact fun ⟨a, b, d⟩ => k3 ⟨g2 _ a, g2 _ b, d⟩
      · exact g3 q hq

/-- C106: in any order of the mentions the block raises no exception. Afterwards no two mentions of the tree have the same words (with
`same_entity_only`: no two mentions of one entity); for every mention there was, there is one with the same words, whose entity has the same or
a smaller id; the other mentions have the words, heads and entities they had, and the lists of the words and the entities have exactly
the mentions that are left, those of the entities in the same order. -/
theorem C106_merge {c : Cmp} {s : St} (h : Reach c s) (eid : Nat → Str) (same : Bool) {nodes l : List Nat} (hL : Lists s nodes l) :
    ∃ t, process c eid same s l = (t, none) ∧
      (∀ a b, a ≠ b → t.Live a → t.Live b → (∃ x ∈ nodes, x ∈ s.words a) → (same = true → s.entOf a = s.entOf b) → ¬ SameWords t a b) ∧
      (∀ m, s.Live m → ∃ m', t.Live m' ∧ SameWords s m' m ∧ strLt (eid (s.entOf m)) (eid (s.entOf m')) = false ∧
        (same = true → s.entOf m' = s.entOf m)) ∧
      (∀ m, t.Live m → s.Live m ∧ t.words m = s.words m ∧ t.head m = s.head m ∧ t.entOf m = s.entOf m) ∧
      (∀ m x, m ∈ t.back x ↔ t.Live m ∧ x ∈ t.words m) ∧
      (∀ e, (t.ent e).Sublist (s.ent e)) ∧ (∀ m e, m ∈ t.ent e ↔ t.Live m ∧ s.entOf m = e) := by
  have hi := reach_inv h
  have hh : HeadIn s := C82_head_partial h
  have hl : ∀ m ∈ l, s.Live m := by
    intro m hm
    obtain ⟨x, _, hx⟩ := (hL.mem m).1 hm
    exact ((hi.back m x).1 hx).1
  have h0 : Loop eid same s l s := ⟨hi, rfl, rfl, fun m hm => ⟨hm, rfl⟩, fun m h1 h2 => absurd h1 h2, fun e => List.Sublist.refl _,
    fun m hm => ⟨m, hm, fun x => Iff.rfl, strLt_irrefl _, fun _ => rfl⟩⟩
  obtain ⟨t, e, g1, _, g3⟩ := loop (c := c) hh hl (combos l) s
    (fun p hp => ⟨(combos_mem hp).1, (combos_mem hp).2, combos_ne hL.nodup hp⟩) h0
  refine ⟨t, e, ?_, g1.cover, ?_, g1.inv.back, g1.sub, ?_⟩
  · rintro a b hne ha hb ⟨x, hx, hxa⟩ hs hw
    have wa := (g1.live a ha).2
    have wb := (g1.live b hb).2
    have hw' : SameWords s a b := by
      intro y
      rw [← wa, ← wb]
      exact hw y
    have al : a ∈ l := (hL.mem a).2 ⟨x, hx, (hi.back a x).2 ⟨(g1.live a ha).1, hxa⟩⟩
    have bl : b ∈ l := (hL.mem b).2 ⟨x, hx, (hi.back b x).2 ⟨(g1.live b hb).1, (hw' x).1 hxa⟩⟩
    rcases mem_combos al bl hne with hp | hp
    · exact g3 _ hp ⟨ha, hb, hw', hs⟩
    · exact g3 _ hp ⟨hb, ha, fun y => (hw' y).symm, fun k => (hs k).symm⟩
  · intro m hm
    exact ⟨(g1.live m hm).1, (g1.live m hm).2, congrFun g1.head m, congrFun g1.entOf m⟩
  · intro m e'
    constructor
    · intro hm
      have := g1.inv.entOf e' m hm
      exact ⟨by unfold St.Live; rw [this]; exact hm, by rw [← this, g1.entOf]⟩
    · rintro ⟨h1, h2⟩
      unfold St.Live at h1
      rw [g1.entOf, h2] at h1
      exact h1

/-- C106, what is lost (the block says so in a comment): the only mention of an entity is removed if a mention with the same words belongs to an entity
with a smaller id. The entity stays without mentions, whatever pointed to it; its other mentions, if any, do not become mentions of the other entity. -/
theorem C106_entity_violated {c : Cmp} {s : St} (h : Reach c s) (eid : Nat → Str) {nodes l : List Nat} (hL : Lists s nodes l) {a b : Nat}
    (ha : a ∈ l) (hb : s.Live b) (hw : SameWords s a b) (hlt : strLt (eid (s.entOf a)) (eid (s.entOf b)) = true) :
    ¬ (process c eid false s l).1.Live b ∧
    (∀ m ∈ s.ent (s.entOf b), m ∉ (process c eid false s l).1.ent (s.entOf a)) ∧
    (s.ent (s.entOf b) = [b] → (process c eid false s l).1.ent (s.entOf b) = []) := by
  have hi := reach_inv h
  obtain ⟨t, e, h1, h2, h3, _, h5, h6⟩ := C106_merge h eid false hL
  rw [e]
  obtain ⟨x, hx, hxa⟩ := (hL.mem a).1 ha
  obtain ⟨la, wa⟩ := (hi.back a x).1 hxa
  have hne : s.entOf a ≠ s.entOf b := by
    intro k
    rw [k, strLt_irrefl] at hlt
    exact absurd hlt (by simp)
  have hd : ¬ t.Live b := by
    intro lb
    obtain ⟨m', l', w', e', _⟩ := h2 a la
    have hmb : m' ≠ b := by
      rintro rfl
      rw [hlt] at e'
      exact absurd e' (by simp)
    refine h1 m' b hmb l' lb ⟨x, hx, (w' x).2 wa⟩ (fun k => absurd k (by simp)) (fun y => ?_)
    rw [(h3 m' l').2.1, (h3 b lb).2.1]
    exact (w' y).trans (hw y)
  refine ⟨hd, fun m hm k => ?_, fun k => ?_⟩
  · have e1 := (h6 m _).1 k
    have e2 := hi.entOf _ m hm
    exact hne (e1.2.symm.trans e2)
  · have hs := h5 (s.entOf b)
    rw [k] at hs
    rcases List.sublist_cons_iff.1 hs with q | ⟨r, q, _⟩
    · exact List.sublist_nil.1 q
    · exfalso
      apply hd
      exact ((h6 b (s.entOf b)).1 (by rw [q]; exact List.mem_cons_self ..)).1

/-- Entities 7 (`b`) and 8 (`a`); mentions 0 and 1 have the words 2, 3, mention 2 the word 3. -/
def exSt : St := (create exCmp (create exCmp (create exCmp init 7 (some 2) (some [3, 2]) .no).1 8 (some 3) (some [3, 2]) .no).1 7 (some 3) none .no).1

example : Reach exCmp exSt ∧ Lists exSt [2, 3] [2, 0, 1] ∧
    let t := (process exCmp (fun e => if e = 7 then ['b'] else ['a']) false exSt [2, 0, 1]).1
    t.ent 7 = [2] ∧ t.ent 8 = [1] ∧ t.back 2 = [1] ∧ t.back 3 = [1, 2] ∧
    (process exCmp (fun e => if e = 7 then ['a'] else ['b']) false exSt [2, 0, 1]).1.ent 8 = [] := by
  refine ⟨?_, ⟨?_, by decide⟩, by decide⟩
  · exact Reach.step (.create 7 (some 3) none .no) (Reach.step (.create 8 (some 3) (some [3, 2]) .no)
      (Reach.step (.create 7 (some 2) (some [3, 2]) .no) Reach.init trivial) trivial) trivial
  · have h2 : exSt.back 2 = [0, 1] := by decide
    have h3 : exSt.back 3 = [0, 1, 2] := by decide
    intro m
    simp only [List.mem_cons, List.not_mem_nil, or_false, exists_eq_or_imp, exists_eq_left, h2, h3]
    omega

end Verif.Coref.MergeSpan
