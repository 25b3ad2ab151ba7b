import Verif.Coref.MergeSpan
import Verif.Coref.Span

/-!
# Property C107: corefud.FixInterleaved (udapi/block/corefud/fixinterleaved.py:19-84)

On the states of `Mentions.lean`. As in `MergeSpan.lean` the order `l` in which the block goes through the set of mentions is arbitrary. `parts`
gives the comma-separated parts of the span of a list of words (C36); that there is a comma means that there are at least two. Comparing
mentions to sort them has no effect as they have words; which of the mentions with the same words is found first does not matter.
-/

namespace Verif.Coref.Interleaved
open Verif.Py
open Verif.Coref.M
open Verif.Coref.MergeSpan (combos sameSet sameSet_iff Lists mem_combos combos_mem combos_ne)

structure Opt where
  sameOnly : Bool := true
  bothDisc : Bool := false
  crossOnly : Bool := false
  nestedSub : Bool := true

/-- `set(a) <= set(b)` -/
def subset (a b : List Nat) : Bool := a.all (fun x => decide (x ∈ b))

/-- `a[0] < b[0] and a[-1] < b[0]` (fixinterleaved.py:43); not used if one of the lists is empty. -/
def before (c : Cmp) (a b : List Nat) : Bool :=
  match a.head?, a.getLast?, b.head? with
  | some x, some z, some y => decide (c.ord x < c.ord y) && decide (c.ord z < c.ord y)
  | _, _, _ => false

/-- The pair is not skipped (fixinterleaved.py:28-49). -/
def conflict (c : Cmp) (o : Opt) (parts : List Nat → List Str) (s : St) (a b : Nat) : Bool :=
  let A := s.words a
  let B := s.words b
  !(o.sameOnly && s.entOf a != s.entOf b) &&
  (if subset A B || subset B A then o.nestedSub && (parts A).any (fun p => decide (p ∈ parts B))
   else if o.crossOnly then A.any (fun x => decide (x ∈ B))
   else !before c A B && !before c B A) &&
  !(o.bothDisc && (decide ((parts A).length < 2) || decide ((parts B).length < 2)))

/-- The mention is removed from the nodes and from its entity, if it is there (fixinterleaved.py:52-60 and 74-82). -/
def unlink (s : St) (m : Nat) (ws : List Nat) : St :=
  { s with back := fun x => if x ∈ ws then (s.back x).erase m else s.back x,
           ent := upd s.ent (s.entOf m) ((s.ent (s.entOf m)).erase m) }

/-- The body of the loop (fixinterleaved.py:25-84). The last line of the body stands after `break`, so that the mention is never added to `deleted`. -/
def fixPair (c : Cmp) (o : Opt) (parts : List Nat → List Str) (l : List Nat) (s : St) (del : List Nat) (p : Nat × Nat) : (St × List Nat) × Option Err :=
  if p.1 ∈ del ∨ p.2 ∈ del ∨ conflict c o parts s p.1 p.2 = false then ((s, del), none)
  else
    match setWords c s p.1 (s.words p.1 ++ s.words p.2) with
    | (s', some e) => ((s', del), some e)
    | (s', none) =>
      let s2 := unlink s' p.2 (s.words p.2)
      let del2 := p.2 :: del
      if l.any (fun m => decide (m ∉ del2) && decide (m ≠ p.1) && decide (m ≠ p.2) && sameSet (s2.words p.1) (s2.words m)) then
        ((unlink s2 p.1 (s2.words p.1), del2), none)
      else ((s2, del2), none)

def fixLoop (c : Cmp) (o : Opt) (parts : List Nat → List Str) (l : List Nat) : St → List Nat → List (Nat × Nat) → (St × List Nat) × Option Err
  | s, del, [] => ((s, del), none)
  | s, del, p :: ps =>
    match fixPair c o parts l s del p with
    | ((s', d'), some e) => ((s', d'), some e)
    | ((s', d'), none) => fixLoop c o parts l s' d' ps

/-- `process_tree` (fixinterleaved.py:19-84) -/
def process (c : Cmp) (o : Opt) (parts : List Nat → List Str) (s : St) (l : List Nat) : St × Option Err :=
  let r := fixLoop c o parts l s [] (combos l)
  (r.1.1, r.2)

/-! ## Proofs -/

/-- C107, nothing to do: if no two mentions conflict, nothing changes. -/
theorem C107_clean_partial (c : Cmp) (o : Opt) (parts : List Nat → List Str) (s : St) (l : List Nat)
    (h : ∀ p ∈ combos l, conflict c o parts s p.1 p.2 = false) : process c o parts s l = (s, none) := by
  have : ∀ ps : List (Nat × Nat), (∀ p ∈ ps, conflict c o parts s p.1 p.2 = false) → fixLoop c o parts l s [] ps = ((s, []), none) := by
    intro ps
    induction ps with
    | nil => intro _; rfl
    | cons p ps ih =>
      intro hp
      unfold fixLoop fixPair
      rw [if_pos (Or.inr (Or.inr (hp p (List.mem_cons_self ..))))]
      exact ih (fun q hq => hp q (List.mem_cons_of_mem _ hq))
  unfold process
  rw [this _ h]

theorem unlink_live {s : St} (h : Inv s) (m n : Nat) (ws : List Nat) : (unlink s m ws).Live n ↔ s.Live n ∧ n ≠ m := by
  unfold St.Live unlink
  simp only
  by_cases he : s.entOf n = s.entOf m
  · rw [he, upd_same, (h.nodupE _).mem_erase_iff]
    exact And.comm
  · rw [upd_other _ _ he]
    refine ⟨fun hn => ⟨hn, ?_⟩, fun hn => hn.1⟩
    rintro rfl
    exact he rfl

theorem unlink_inv {s : St} (h : Inv s) (m : Nat) : Inv (unlink s m (s.words m)) := by
  refine ⟨?_, ?_, ?_, ?_, ?_, ?_⟩
  · intro n x
    rw [unlink_live h]
    show n ∈ (if x ∈ s.words m then (s.back x).erase m else s.back x) ↔ (s.Live n ∧ n ≠ m) ∧ x ∈ s.words n
    split
    · rw [(h.nodupB x).mem_erase_iff, h.back]
      exact ⟨fun ⟨a, b, d⟩ => ⟨⟨b, a⟩, d⟩, fun ⟨⟨b, a⟩, d⟩ => ⟨a, b, d⟩⟩
    · rename_i hx
      rw [h.back]
      refine ⟨fun ⟨a, b⟩ => ⟨⟨a, ?_⟩, b⟩, fun ⟨⟨a, _⟩, b⟩ => ⟨a, b⟩⟩
      rintro rfl
      exact hx b
  · intro x
    show (if x ∈ s.words m then (s.back x).erase m else s.back x).Nodup
    split
    · exact (h.nodupB x).erase m
    · exact h.nodupB x
  · intro n hn
    exact h.nodupW n ((unlink_live h m n _).1 hn).1
  · intro e n hn
    by_cases he : e = s.entOf m
    · refine h.entOf e n ?_
      change n ∈ upd s.ent (s.entOf m) ((s.ent (s.entOf m)).erase m) e at hn
      rw [he, upd_same] at hn
      rw [he]
      exact List.mem_of_mem_erase hn
    · change n ∈ upd s.ent (s.entOf m) ((s.ent (s.entOf m)).erase m) e at hn
      rw [upd_other _ _ he] at hn
      exact h.entOf e n hn
  · intro e
    show (upd s.ent (s.entOf m) ((s.ent (s.entOf m)).erase m) e).Nodup
    by_cases he : e = s.entOf m
    · rw [he, upd_same]
      exact (h.nodupE _).erase m
    · rw [upd_other _ _ he]
      exact h.nodupE e
  · intro e n hn
    refine h.fresh e n ?_
    change n ∈ upd s.ent (s.entOf m) ((s.ent (s.entOf m)).erase m) e at hn
    by_cases he : e = s.entOf m
    · rw [he, upd_same] at hn
      rw [he]
      exact List.mem_of_mem_erase hn
    · rw [upd_other _ _ he] at hn
      exact hn

theorem unlink_sub (s : St) (m : Nat) (ws : List Nat) (e : Nat) : ((unlink s m ws).ent e).Sublist (s.ent e) := by
  show (upd s.ent (s.entOf m) ((s.ent (s.entOf m)).erase m) e).Sublist _
  by_cases he : e = s.entOf m
  · rw [he, upd_same]
    exact List.erase_sublist
  · rw [upd_other _ _ he]
    exact List.Sublist.refl _

/-- No two disjoint groups of mentions cover the same words. -/
def Apart (s : St) (l : List Nat) : Prop :=
  ∀ P Q : Nat → Prop, (∃ m, P m) → (∃ m, Q m) → (∀ m, P m → m ∈ l) → (∀ m, Q m → m ∈ l) → (∀ m, P m → ¬ Q m) →
    ¬ ∀ x, (∃ m, P m ∧ x ∈ s.words m) ↔ (∃ m, Q m ∧ x ∈ s.words m)

/-- Mentions without common words are such. -/
theorem Apart.of_disjoint {s : St} {l : List Nat} (h1 : ∀ m ∈ l, s.words m ≠ []) (h2 : ∀ a ∈ l, ∀ b ∈ l, a ≠ b → ∀ x ∈ s.words a, x ∉ s.words b) :
    Apart s l := by
  rintro P Q ⟨m, hm⟩ _ hP hQ hd h
  obtain ⟨x, hx⟩ := List.exists_mem_of_ne_nil _ (h1 m (hP m hm))
  obtain ⟨n, hn, hx'⟩ := (h x).1 ⟨m, hm, hx⟩
  have : m ≠ n := by
    rintro rfl
    exact hd m hm hn
  exact h2 m (hP m hm) n (hQ n hn) this x hx hx'

/-- What holds between the pairs; `rep` tells which mention has taken over the words of a mention. -/
structure Loop (o : Opt) (s : St) (l : List Nat) (t : St) (del : List Nat) (rep : Nat → Nat) : Prop where
  inv : Inv t
  entOf : t.entOf = s.entOf
  head : t.head = s.head
  live : ∀ m, t.Live m ↔ s.Live m ∧ m ∉ del
  repLive : ∀ m, s.Live m → t.Live (rep m)
  repIn : ∀ m ∈ l, rep m ∈ l
  repOut : ∀ m, m ∉ l → rep m = m
  repSelf : ∀ m, t.Live m → rep m = m
  words : ∀ m, t.Live m → ∀ x, x ∈ t.words m ↔ ∃ k, s.Live k ∧ rep k = m ∧ x ∈ s.words k
  sub : ∀ e, (t.ent e).Sublist (s.ent e)
  same : o.sameOnly = true → ∀ m, s.entOf (rep m) = s.entOf m

theorem conflict_same {c : Cmp} {o : Opt} {parts : List Nat → List Str} {s : St} {a b : Nat} (h : conflict c o parts s a b = true)
    (hs : o.sameOnly = true) : s.entOf a = s.entOf b := by
  unfold conflict at h
  simp only [Bool.and_eq_true] at h
  have := h.1.1
  rw [hs] at this
  simpa using this

theorem Loop.pair {c : Cmp} {o : Opt} {parts : List Nat → List Str} {s t : St} {l del : List Nat} {rep : Nat → Nat} (hh : HeadIn s)
    (hl : ∀ m ∈ l, s.Live m) (hA : Apart s l) (h : Loop o s l t del rep) {p : Nat × Nat} (h1 : p.1 ∈ l) (h2 : p.2 ∈ l) (hne : p.1 ≠ p.2) :
    ∃ t' del' rep', fixPair c o parts l t del p = ((t', del'), none) ∧ Loop o s l t' del' rep' := by
  obtain ⟨a, b⟩ := p
  simp only at h1 h2 hne
  unfold fixPair
  simp only
  by_cases hs : a ∈ del ∨ b ∈ del ∨ conflict c o parts t a b = false
  · rw [if_pos hs]
    exact ⟨t, del, rep, rfl, h⟩
  · rw [if_neg hs]
    have ha : t.Live a := (h.live a).2 ⟨hl a h1, fun k => hs (Or.inl k)⟩
    have hb : t.Live b := (h.live b).2 ⟨hl b h2, fun k => hs (Or.inr (Or.inl k))⟩
    have hc : conflict c o parts t a b = true := by
      cases hx : conflict c o parts t a b with
      | true => rfl
      | false => exact absurd (Or.inr (Or.inr hx)) hs
    have hhead : t.head a ∈ t.words a ++ t.words b := by
      refine List.mem_append_left _ ((h.words a ha _).2 ⟨a, hl a h1, h.repSelf a ha, ?_⟩)
      rw [h.head]
      exact hh a (hl a h1)
    rcases setWords_spec (c := c) h.inv ha (t.words a ++ t.words b) with ⟨_, k, _⟩ | ⟨_, t1, e1, hi, hw, hhd, heo, hen, _⟩
    · exact absurd hhead k
    rw [e1]
    simp only
    have hwb : t1.words b = t.words b := by rw [hw, upd_other _ _ (Ne.symm hne)]
    have hi2 : Inv (unlink t1 b (t.words b)) := by
      rw [← hwb]
      exact unlink_inv hi b
    have hlive1 : ∀ m, t1.Live m ↔ t.Live m := by
      intro m
      unfold St.Live
      rw [hen, heo]
    have hlive2 : ∀ m, (unlink t1 b (t.words b)).Live m ↔ t.Live m ∧ m ≠ b := by
      intro m
      rw [unlink_live hi, hlive1]
    have hL : Loop o s l (unlink t1 b (t.words b)) (b :: del) (fun k => if rep k = b then a else rep k) := by
      refine ⟨hi2, heo.trans h.entOf, hhd.trans h.head, ?_, ?_, ?_, ?_, ?_, ?_, ?_, ?_⟩
      · intro m
        rw [hlive2, h.live, List.mem_cons]
        exact ⟨fun ⟨⟨k1, k2⟩, k3⟩ => ⟨k1, fun k => k.elim k3 k2⟩, fun ⟨k1, k2⟩ => ⟨⟨k1, fun k => k2 (Or.inr k)⟩, fun k => k2 (Or.inl k)⟩⟩
      · intro m hm
        rw [hlive2]
        split
        · exact ⟨ha, hne⟩
        · rename_i k
          exact ⟨h.repLive m hm, k⟩
      · intro m hm
        split
        · exact h1
        · exact h.repIn m hm
      · intro m hm
        rw [h.repOut m hm, if_neg]
        rintro rfl
        exact hm h2
      · intro m hm
        obtain ⟨k1, k2⟩ := (hlive2 m).1 hm
        rw [h.repSelf m k1, if_neg k2]
      · intro m hm x
        obtain ⟨k1, k2⟩ := (hlive2 m).1 hm
        show x ∈ t1.words m ↔ _
        rw [hw]
        by_cases hma : m = a
        · subst hma
          rw [upd_same, mem_sortedWords, List.mem_append, h.words m k1, h.words b hb]
          constructor
          · rintro (⟨k, g1, g2, g3⟩ | ⟨k, g1, g2, g3⟩)
            · exact ⟨k, g1, by simp only [g2]; rw [if_neg hne], g3⟩
            · exact ⟨k, g1, by simp only [g2]; rw [if_pos trivial], g3⟩
          · rintro ⟨k, g1, g2, g3⟩
            split at g2
            · rename_i g
              exact Or.inr ⟨k, g1, g, g3⟩
            · exact Or.inl ⟨k, g1, g2, g3⟩
        · rw [upd_other _ _ hma, h.words m k1]
          constructor
          · rintro ⟨k, g1, g2, g3⟩
            exact ⟨k, g1, by simp only [g2]; rw [if_neg k2], g3⟩
          · rintro ⟨k, g1, g2, g3⟩
            split at g2
            · exact absurd g2.symm hma
            · exact ⟨k, g1, g2, g3⟩
      · intro e
        refine (unlink_sub t1 b _ e).trans ?_
        rw [hen]
        exact h.sub e
      · intro hx m
        split
        · rename_i g
          rw [← h.same hx m, g]
          have := conflict_same hc hx
          rwa [h.entOf] at this
        · exact h.same hx m
    rw [if_neg]
    · exact ⟨_, _, _, rfl, hL⟩
    · intro k
      obtain ⟨m, hm, k⟩ := List.any_eq_true.1 k
      simp only [Bool.and_eq_true, decide_eq_true_eq, sameSet_iff] at k
      obtain ⟨⟨⟨k1, k2⟩, k3⟩, k4⟩ := k
      have lm : (unlink t1 b (t.words b)).Live m := (hL.live m).2 ⟨hl m hm, k1⟩
      have la : (unlink t1 b (t.words b)).Live a := (hlive2 a).2 ⟨ha, hne⟩
      have key : ∀ n, (unlink t1 b (t.words b)).Live n → n ∈ l → ∀ x, x ∈ (unlink t1 b (t.words b)).words n ↔
          ∃ k, (k ∈ l ∧ (if rep k = b then a else rep k) = n) ∧ x ∈ s.words k := by
        intro n hn hnl x
        rw [hL.words n hn]
        constructor
        · rintro ⟨k, g1, g2, g3⟩
          refine ⟨k, ⟨?_, g2⟩, g3⟩
          refine Decidable.byContradiction (fun g => ?_)
          have := hL.repOut k g
          rw [this] at g2
          exact g (by rw [g2]; exact hnl)
        · rintro ⟨k, ⟨g1, g2⟩, g3⟩
          exact ⟨k, hl k g1, g2, g3⟩
      refine hA (fun k => k ∈ l ∧ (if rep k = b then a else rep k) = a) (fun k => k ∈ l ∧ (if rep k = b then a else rep k) = m)
        ⟨a, h1, hL.repSelf a la⟩ ⟨m, hm, hL.repSelf m lm⟩ (fun _ g => g.1) (fun _ g => g.1)
        (fun k g g' => k2 (g'.2.symm.trans g.2)) (fun x => ?_)
      rw [← key a la h1, ← key m lm hm]
      exact k4 x

/-- C107, what holds: if no two disjoint groups of mentions cover the same words (for instance if mentions have no common words), the block
raises nothing in any order of the mentions, and the mentions left are unions of the mentions there were (of one entity, with
`same_entity_only`): `rep m` is the mention that has the words of `m`. Heads, entities and the order of mentions in the entities stay, and the lists of the nodes agree
with the words. Missing: that the mentions left do not conflict, which is false. -/
theorem C107_union_partial {c : Cmp} {s : St} (hr : Reach c s) (o : Opt) (parts : List Nat → List Str) {nodes l : List Nat} (hL : Lists s nodes l)
    (hA : Apart s l) :
    ∃ (t : St) (rep : Nat → Nat), process c o parts s l = (t, none) ∧
      (∀ m, s.Live m → t.Live (rep m) ∧ (m ∉ l → rep m = m) ∧ (o.sameOnly = true → s.entOf (rep m) = s.entOf m)) ∧
      (∀ m, t.Live m → s.Live m ∧ rep m = m ∧ t.head m = s.head m ∧ t.entOf m = s.entOf m ∧
        ∀ x, x ∈ t.words m ↔ ∃ k, s.Live k ∧ rep k = m ∧ x ∈ s.words k) ∧
      (∀ m x, m ∈ t.back x ↔ t.Live m ∧ x ∈ t.words m) ∧ (∀ e, (t.ent e).Sublist (s.ent e)) ∧
      (∀ m e, m ∈ t.ent e ↔ t.Live m ∧ s.entOf m = e) := by
  have hi := reach_inv hr
  have hh : HeadIn s := C82_head_partial hr
  have hl : ∀ m ∈ l, s.Live m := by
    intro m hm
    obtain ⟨x, _, hx⟩ := (hL.mem m).1 hm
    exact ((hi.back m x).1 hx).1
  have loop : ∀ (ps : List (Nat × Nat)) (t : St) (del : List Nat) (rep : Nat → Nat), (∀ p ∈ ps, p.1 ∈ l ∧ p.2 ∈ l ∧ p.1 ≠ p.2) →
      Loop o s l t del rep → ∃ t' del' rep', fixLoop c o parts l t del ps = ((t', del'), none) ∧ Loop o s l t' del' rep' := by
    intro ps
    induction ps with
    | nil => intro t del rep _ h; exact ⟨t, del, rep, rfl, h⟩
    | cons p ps ih =>
      intro t del rep hp h
      obtain ⟨g1, g2, g3⟩ := hp p (List.mem_cons_self ..)
      obtain ⟨t1, d1, r1, e1, k1⟩ := h.pair (c := c) (parts := parts) hh hl hA g1 g2 g3
      obtain ⟨t2, d2, r2, e2, k2⟩ := ih t1 d1 r1 (fun q hq => hp q (List.mem_cons_of_mem _ hq)) k1
      refine ⟨t2, d2, r2, ?_, k2⟩
      unfold fixLoop
      rw [e1]
      exact e2
  have h0 : Loop o s l s [] id := ⟨hi, rfl, rfl, fun m => by simp, fun m hm => hm, fun m hm => hm, fun m _ => rfl, fun m _ => rfl,
    fun m hm x => ⟨fun k => ⟨m, hm, rfl, k⟩, fun ⟨k, _, g, k2⟩ => by rw [← show k = m from g]; exact k2⟩,
    fun e => List.Sublist.refl _, fun _ m => rfl⟩
  obtain ⟨t, del, rep, e, k⟩ := loop (combos l) s [] id (fun p hp => ⟨(combos_mem hp).1, (combos_mem hp).2, combos_ne hL.nodup hp⟩) h0
  refine ⟨t, rep, ?_, ?_, ?_, k.inv.back, k.sub, ?_⟩
  · unfold process
    rw [e]
  · intro m hm
    exact ⟨k.repLive m hm, k.repOut m, fun hx => k.same hx m⟩
  · intro m hm
    exact ⟨((k.live m).1 hm).1, k.repSelf m hm, congrFun k.head m, congrFun k.entOf m, k.words m hm⟩
  · intro m e'
    constructor
    · intro hm
      have := k.inv.entOf e' m hm
      exact ⟨by unfold St.Live; rw [this]; exact hm, by rw [← this, k.entOf]⟩
    · rintro ⟨h1, h2⟩
      unfold St.Live at h1
      rw [k.entOf, h2] at h1
      exact h1

theorem dropBacks_none (new : List Nat) (m : Nat) (s : St) : ∀ xs : List Nat, (∀ x ∈ xs, x ∈ new) → dropBacks new m s xs = (s, none)
  | [], _ => rfl
  | x :: xs, h => by
    unfold dropBacks
    rw [if_pos (h x (List.mem_cons_self ..))]
    exact dropBacks_none new m s xs (fun y hy => h y (List.mem_cons_of_mem _ hy))

theorem addBacks_same (c : Cmp) (kept : List Nat) (m : Nat) : ∀ (xs : List Nat) (s : St), SameBut s (addBacks c kept m s xs)
  | [], s => SameBut.refl s
  | x :: xs, s => by
    unfold addBacks
    split
    · exact addBacks_same c kept m xs s
    · exact (addBack_spec c s m x).1.trans (addBacks_same c kept m xs _)

/-- A mention that only gets more words, also one that is no longer in its entity. -/
theorem setWords_grow (c : Cmp) (s : St) (m : Nat) (new : List Nat) (h1 : ∀ x ∈ s.words m, x ∈ new) (h2 : s.head m ∈ new) :
    ∃ t, setWords c s m new = (t, none) ∧ t.words = upd s.words m (sortedWords c new) ∧ t.head = s.head ∧ t.entOf = s.entOf ∧ t.ent = s.ent := by
  unfold setWords
  rw [if_neg (fun k => k.2 h2)]
  show ∃ t, (match dropBacks (sortedWords c new) m s (s.words m) with
      | (s', some e) => (s', some e)
      | (s', none) => (addBacks c ((s.words m).filter (· ∈ sortedWords c new)) m
          { s' with words := upd s'.words m (sortedWords c new) } (sortedWords c new), none)) = (t, none) ∧ _
  rw [dropBacks_none _ _ _ _ (fun x hx => mem_sortedWords.2 (h1 x hx))]
  have := addBacks_same c ((s.words m).filter (· ∈ sortedWords c new)) m (sortedWords c new) { s with words := upd s.words m (sortedWords c new) }
  exact ⟨_, rfl, this.words, this.head, this.entOf, this.ent⟩

/-- What the block never does, whatever the mentions and their order. -/
structure Grow (o : Opt) (s : St) (l : List Nat) (t : St) : Prop where
  entOf : t.entOf = s.entOf
  head : t.head = s.head
  words : ∀ m, ∀ x ∈ s.words m, x ∈ t.words m
  from' : ∀ m x, x ∈ t.words m → ∃ k, x ∈ s.words k ∧ (k = m ∨ k ∈ l ∧ (o.sameOnly = true → s.entOf k = s.entOf m))
  sub : ∀ e, (t.ent e).Sublist (s.ent e)

theorem Grow.pair {c : Cmp} {o : Opt} {parts : List Nat → List Str} {s t : St} {l del : List Nat} (hh : ∀ m ∈ l, s.head m ∈ s.words m)
    (h : Grow o s l t) {p : Nat × Nat} (h1 : p.1 ∈ l) (h2 : p.2 ∈ l) :
    ∃ t' del', fixPair c o parts l t del p = ((t', del'), none) ∧ Grow o s l t' := by
  obtain ⟨a, b⟩ := p
  simp only at h1 h2
  unfold fixPair
  simp only
  by_cases hs : a ∈ del ∨ b ∈ del ∨ conflict c o parts t a b = false
  · rw [if_pos hs]
    exact ⟨t, del, rfl, h⟩
  · rw [if_neg hs]
    have hc : conflict c o parts t a b = true := by
      cases hx : conflict c o parts t a b with
      | true => rfl
      | false => exact absurd (Or.inr (Or.inr hx)) hs
    obtain ⟨t1, e1, hw, hhd, heo, hen⟩ := setWords_grow c t a (t.words a ++ t.words b) (fun x hx => List.mem_append_left _ hx)
      (List.mem_append_left _ (h.words a _ (by rw [h.head]; exact hh a h1)))
    rw [e1]
    simp only
    have g1 : Grow o s l t1 := by
      refine ⟨heo.trans h.entOf, hhd.trans h.head, ?_, ?_, fun e => by rw [hen]; exact h.sub e⟩
      · intro m x hx
        rw [hw]
        by_cases hm : m = a
        · rw [hm, upd_same, mem_sortedWords]
          exact List.mem_append_left _ (h.words a x (by rw [← hm]; exact hx))
        · rw [upd_other _ _ hm]
          exact h.words m x hx
      · intro m x hx
        rw [hw] at hx
        by_cases hm : m = a
        · rw [hm, upd_same, mem_sortedWords] at hx
          rw [hm]
          rcases List.mem_append.1 hx with hx | hx
          · exact h.from' a x hx
          · obtain ⟨k, q1, q2⟩ := h.from' b x hx
            have hab : o.sameOnly = true → s.entOf a = s.entOf b := by
              intro k
              have := conflict_same hc k
              rwa [h.entOf] at this
            refine ⟨k, q1, Or.inr ?_⟩
            rcases q2 with q2 | ⟨q2, q3⟩
            · rw [q2]
              exact ⟨h2, fun k => (hab k).symm⟩
            · exact ⟨q2, fun k => (q3 k).trans (hab k).symm⟩
        · rw [upd_other _ _ hm] at hx
          exact h.from' m x hx
    have un : ∀ {u : St}, Grow o s l u → ∀ m ws, Grow o s l (unlink u m ws) :=
      fun g m ws => ⟨g.entOf, g.head, g.words, g.from', fun e => (unlink_sub _ m ws e).trans (g.sub e)⟩
    split
    · exact ⟨_, _, rfl, un (un g1 _ _) _ _⟩
    · exact ⟨_, _, rfl, un g1 _ _⟩

/-- C107, what holds for all mentions: nothing is raised, mentions keep their heads and entities and only get more words, which come from mentions of the tree (with
`same_entity_only`: of the same entity), and entities get no mentions. -/
theorem C107_grow_partial {c : Cmp} {s : St} (hr : Reach c s) (o : Opt) (parts : List Nat → List Str) {nodes l : List Nat} (hL : Lists s nodes l) :
    ∃ t, process c o parts s l = (t, none) ∧ t.head = s.head ∧ t.entOf = s.entOf ∧ (∀ m, ∀ x ∈ s.words m, x ∈ t.words m) ∧
      (∀ m x, x ∈ t.words m → ∃ k, x ∈ s.words k ∧ (k = m ∨ k ∈ l ∧ (o.sameOnly = true → s.entOf k = s.entOf m))) ∧
      (∀ e, (t.ent e).Sublist (s.ent e)) := by
  have hi := reach_inv hr
  have hh : ∀ m ∈ l, s.head m ∈ s.words m := by
    intro m hm
    obtain ⟨x, _, hx⟩ := (hL.mem m).1 hm
    exact C82_head_partial hr m ((hi.back m x).1 hx).1
  have loop : ∀ (ps : List (Nat × Nat)) (t : St) (del : List Nat), (∀ p ∈ ps, p.1 ∈ l ∧ p.2 ∈ l) → Grow o s l t →
      ∃ t' del', fixLoop c o parts l t del ps = ((t', del'), none) ∧ Grow o s l t' := by
    intro ps
    induction ps with
    | nil => intro t del _ h; exact ⟨t, del, rfl, h⟩
    | cons p ps ih =>
      intro t del hp h
      obtain ⟨g1, g2⟩ := hp p (List.mem_cons_self ..)
      obtain ⟨t1, d1, e1, k1⟩ := h.pair (c := c) (parts := parts) (del := del) hh g1 g2
      obtain ⟨t2, d2, e2, k2⟩ := ih t1 d1 (fun q hq => hp q (List.mem_cons_of_mem _ hq)) k1
      refine ⟨t2, d2, ?_, k2⟩
      unfold fixLoop
      rw [e1]
      exact e2
  obtain ⟨t, d, e, k⟩ := loop (combos l) s [] (fun p hp => combos_mem hp)
    ⟨rfl, rfl, fun _ _ hx => hx, fun m x hx => ⟨m, hx, Or.inl rfl⟩, fun e => List.Sublist.refl _⟩
  exact ⟨t, by unfold process; rw [e], k.head, k.entOf, k.words, k.from', k.sub⟩

theorem subset_iff {a b : List Nat} : subset a b = true ↔ ∀ x ∈ a, x ∈ b := by
  unfold subset
  simp

/-- C107, mentions are lost: three mentions of one entity, the first two of which are interleaved (neither nested in the other nor before it), the third has exactly the words
of both. If the block comes to it last, all three are removed: the first mention gets the words of the second one, is removed because the third one has the
same words, but is not remembered as removed (the statement stands after `break`), so that the third one is then "merged" into it. -/
theorem C107_lost_violated {c : Cmp} {s : St} (hr : Reach c s) (parts : List Nat → List Str)
    (hparts : ∀ A B : List Nat, A ≠ [] → (∀ x, x ∈ A ↔ x ∈ B) → ∃ p ∈ parts A, p ∈ parts B) {a b d : Nat}
    (ha : s.Live a) (hb : s.Live b) (hd : s.Live d) (hab : a ≠ b) (had : a ≠ d) (hbd : b ≠ d)
    (e1 : s.entOf a = s.entOf b) (e2 : s.entOf a = s.entOf d)
    (n1 : ¬ ∀ x ∈ s.words a, x ∈ s.words b) (n2 : ¬ ∀ x ∈ s.words b, x ∈ s.words a)
    (n3 : before c (s.words a) (s.words b) = false) (n4 : before c (s.words b) (s.words a) = false)
    (hu : ∀ x, x ∈ s.words d ↔ x ∈ s.words a ∨ x ∈ s.words b) :
    (process c {} parts s [a, b, d]).2 = none ∧ ∀ m ∈ [a, b, d], ¬ (process c {} parts s [a, b, d]).1.Live m := by
  have hi := reach_inv hr
  have hha := C82_head_partial hr a ha
  have c1 : conflict c {} parts s a b = true := by
    have k1 : subset (s.words a) (s.words b) = false := by rw [← Bool.not_eq_true, subset_iff]; exact n1
    have k2 : subset (s.words b) (s.words a) = false := by rw [← Bool.not_eq_true, subset_iff]; exact n2
    simp [conflict, e1, k1, k2, n3, n4]
  obtain ⟨t1, q1, w1, hd1, eo1, en1⟩ := setWords_grow c s a (s.words a ++ s.words b) (fun x hx => List.mem_append_left _ hx)
    (List.mem_append_left _ hha)
  have p1 : fixPair c {} parts [a, b, d] s [] (a, b) =
      ((unlink (unlink t1 b (s.words b)) a (t1.words a), [b]), none) := by
    unfold fixPair
    rw [if_neg (by simp [c1])]
    simp only [q1]
    rw [if_pos]
    · rfl
    · rw [List.any_eq_true]
      refine ⟨d, by simp, ?_⟩
      simp only [Bool.and_eq_true, decide_eq_true_eq, sameSet_iff]
      refine ⟨⟨⟨by simpa using Ne.symm hbd, Ne.symm had⟩, Ne.symm hbd⟩, fun x => ?_⟩
      show x ∈ t1.words a ↔ x ∈ t1.words d
      rw [w1, upd_same, upd_other _ _ (Ne.symm had), mem_sortedWords, List.mem_append, hu]
  have wa : ∀ x, x ∈ t1.words a ↔ x ∈ t1.words d := by
    intro x
    rw [w1, upd_same, upd_other _ _ (Ne.symm had), mem_sortedWords, List.mem_append, hu]
  have hd2 : t1.words d = s.words d := by rw [w1, upd_other _ _ (Ne.symm had)]
  generalize ht2 : unlink (unlink t1 b (s.words b)) a (t1.words a) = t2 at p1
  have w2 : t2.words = t1.words := by rw [← ht2]; rfl
  have eo2 : t2.entOf = s.entOf := by rw [← ht2]; exact eo1
  have h2h : t2.head = s.head := by rw [← ht2]; exact hd1
  have c2 : conflict c {} parts t2 a d = true := by
    have k1 : subset (t2.words a) (t2.words d) = true := by
      rw [w2, subset_iff]
      exact fun x hx => (wa x).1 hx
    obtain ⟨p, hp1, hp2⟩ := hparts (t2.words a) (t2.words d)
      (by
        rw [w2, w1, upd_same]
        intro k
        have : s.head a ∈ sortedWords c (s.words a ++ s.words b) := mem_sortedWords.2 (List.mem_append_left _ hha)
        rw [k] at this
        exact absurd this List.not_mem_nil)
      (by rw [w2]; exact wa)
    have k2 : ((parts (t2.words a)).any fun p => decide (p ∈ parts (t2.words d))) = true := List.any_eq_true.2 ⟨p, hp1, by simpa using hp2⟩
    simp only [conflict, eo2, e2, k1, k2, Bool.true_or, if_true]
    simp
  obtain ⟨t3, q3, w3, hd3, eo3, en3⟩ := setWords_grow c t2 a (t2.words a ++ t2.words d) (fun x hx => List.mem_append_left _ hx)
    (List.mem_append_left _ (by
      rw [w2, w1, upd_same, h2h]
      exact mem_sortedWords.2 (List.mem_append_left _ hha)))
  have p2 : fixPair c {} parts [a, b, d] t2 [b] (a, d) = ((unlink t3 d (t2.words d), [d, b]), none) := by
    unfold fixPair
    rw [if_neg (by
      simp only [List.mem_singleton, c2, Bool.true_eq_false, or_false, not_or]
      exact ⟨hab, Ne.symm hbd⟩)]
    simp only [q3]
    rw [if_neg]
    intro k
    obtain ⟨m, hm, k⟩ := List.any_eq_true.1 k
    simp only [Bool.and_eq_true, decide_eq_true_eq, List.mem_cons, List.not_mem_nil, or_false, not_or] at k hm
    rcases hm with rfl | rfl | rfl
    · exact k.1.1.2 rfl
    · exact k.1.1.1.2 rfl
    · exact k.1.1.1.1 rfl
  have p3 : fixPair c {} parts [a, b, d] (unlink t3 d (t2.words d)) [d, b] (b, d) = ((unlink t3 d (t2.words d), [d, b]), none) := by
    unfold fixPair
    rw [if_pos (Or.inl (by simp))]
  have e : process c {} parts s [a, b, d] = (unlink t3 d (t2.words d), none) := by
    simp only [process, combos, List.map_cons, List.map_nil, List.append_nil, List.cons_append, List.nil_append, fixLoop, p1, p2, p3]
  rw [e]
  refine ⟨rfl, ?_⟩
  have i1 : Inv t1 := by
    rcases setWords_spec (c := c) hi ha (s.words a ++ s.words b) with ⟨_, k, _⟩ | ⟨_, t, k, i, _⟩
    · exact absurd (List.mem_append_left _ hha) k
    · rw [q1] at k
      rw [(Prod.mk.inj k).1]
      exact i
  have hn : ∀ m, (unlink t3 d (t2.words d)).Live m → m ≠ a ∧ m ≠ b ∧ m ≠ d := by
    intro m hm
    have x1 : m ∈ (t3.ent (t3.entOf m)) ∧ m ≠ d := by
      change m ∈ upd t3.ent (t3.entOf d) ((t3.ent (t3.entOf d)).erase d) (t3.entOf m) at hm
      by_cases hx : t3.entOf m = t3.entOf d
      · rw [hx, upd_same] at hm
        rw [hx]
        refine ⟨List.mem_of_mem_erase hm, ?_⟩
        rintro rfl
        have nd : (t3.ent (t3.entOf m)).Nodup := by
          rw [en3, ← ht2]
          exact ((unlink_sub _ a _ _).trans (unlink_sub _ b _ _)).nodup (i1.nodupE _)
        exact (nd.mem_erase_iff.1 hm).1 rfl
      · rw [upd_other _ _ hx] at hm
        refine ⟨hm, ?_⟩
        rintro rfl
        exact hx rfl
    have i2 : Inv (unlink t1 b (s.words b)) := by
      have := unlink_inv i1 b
      rwa [show t1.words b = s.words b by rw [w1, upd_other _ _ (Ne.symm hab)]] at this
    have x2 : (unlink (unlink t1 b (s.words b)) a (t1.words a)).Live m := by
      rw [ht2]
      unfold St.Live
      rw [← en3, ← eo3]
      exact x1.1
    rw [unlink_live i2, unlink_live i1] at x2
    exact ⟨x2.2, x2.1.2, x1.2⟩
  intro m hm hlive
  obtain ⟨h1, h2, h3⟩ := hn m hlive
  simp only [List.mem_cons, List.not_mem_nil, or_false] at hm
  rcases hm with k | k | k
  · exact h1 k
  · exact h2 k
  · exact h3 k

/-- Words 1-6 in this order; the parts of a span are its maximal runs. -/
def exParts (ws : List Nat) : List Str := split ',' (nodesToSpan [10, 20, 30, 40, 50, 60] (ws.map (10 * ·)))

def exOrd : Cmp := exCmp

/-- One entity, with the given mentions. -/
def exMk (ms : List (List Nat)) : St := ms.foldl (fun s ws => (M.create exOrd s 7 none (some ws) .no).1) init

theorem exMk_reach (ms : List (List Nat)) : Reach exOrd (exMk ms) := by
  unfold exMk
  have : ∀ s, Reach exOrd s → Reach exOrd (ms.foldl (fun s ws => (M.create exOrd s 7 none (some ws) .no).1) s) := by
    induction ms with
    | nil => exact fun s h => h
    | cons w ms ih => exact fun s h => ih _ (Reach.step (.create 7 none (some w) .no) h trivial)
  exact this _ Reach.init

/-- C107, the result depends on the order of a set and mentions can stay interleaved: the words 1, 3 and 5 and 2, 6 are mentions of one entity. If the block comes
to the mention 5 before 2, 6, the mentions 1, 2, 3, 6 and 5 are left, which it would merge; otherwise one mention is left. -/
theorem C107_order_violated :
    let s := exMk [[1, 3], [5], [2, 6]]
    Reach exOrd s ∧ (∀ m ∈ [0, 1, 2], ∃ x ∈ [1, 2, 3, 4, 5, 6], m ∈ s.back x) ∧ s.ent 7 = [0, 2, 1] ∧
    (let t := (process exOrd {} exParts s [0, 1, 2]).1
     t.ent 7 = [0, 1] ∧ t.words 0 = [1, 2, 3, 6] ∧ t.words 1 = [5] ∧ conflict exOrd {} exParts t 0 1 = true) ∧
    (let t := (process exOrd {} exParts s [0, 2, 1]).1
     t.ent 7 = [0] ∧ t.words 0 = [1, 2, 3, 5, 6]) :=
  ⟨exMk_reach _, by decide +kernel, by decide +kernel, by decide +kernel, by decide +kernel⟩

/-- Mentions that are lost. -/
example : (exMk [[1, 3], [2, 4], [1, 2, 3, 4]]).ent 7 = [2, 0, 1] ∧
    (process exOrd {} exParts (exMk [[1, 3], [2, 4], [1, 2, 3, 4]]) [0, 1, 2]).1.ent 7 = [] ∧
    (process exOrd {} exParts (exMk [[1, 3], [2, 4], [1, 2, 3, 4]]) [0, 2, 1]).1.ent 7 = [2] := by decide +kernel

/-- Two mentions are merged, a third one stays. -/
example : let s := exMk [[1, 3], [2, 4], [6]]
    Lists s [1, 2, 3, 4, 5, 6] [1, 2, 0] ∧ Apart s [1, 2, 0] ∧
    (process exOrd {} exParts s [1, 2, 0]).1.words 1 = [1, 2, 3, 4] ∧ (process exOrd {} exParts s [1, 2, 0]).1.ent 7 = [1, 2] := by
  refine ⟨⟨?_, by decide⟩, Apart.of_disjoint (by decide +kernel) (by decide +kernel), by decide +kernel, by decide +kernel⟩
  have e1 : (exMk [[1, 3], [2, 4], [6]]).back 1 = [0] := by decide +kernel
  have e2 : (exMk [[1, 3], [2, 4], [6]]).back 2 = [1] := by decide +kernel
  have e3 : (exMk [[1, 3], [2, 4], [6]]).back 3 = [0] := by decide +kernel
  have e4 : (exMk [[1, 3], [2, 4], [6]]).back 4 = [1] := by decide +kernel
  have e5 : (exMk [[1, 3], [2, 4], [6]]).back 5 = [] := by decide +kernel
  have e6 : (exMk [[1, 3], [2, 4], [6]]).back 6 = [2] := by decide +kernel
  intro m
  simp only [List.mem_cons, List.not_mem_nil, or_false, false_or, exists_eq_or_imp, exists_eq_left, e1, e2, e3, e4, e5, e6]
  omega

/-- Nested mentions without a common part do not conflict. -/
example : conflict exOrd {} exParts (exMk [[1, 2, 3], [2]]) 0 1 = false ∧ conflict exOrd {} exParts (exMk [[1, 3, 5], [1, 3]]) 0 1 = true := by
  decide +kernel

end Verif.Coref.Interleaved
