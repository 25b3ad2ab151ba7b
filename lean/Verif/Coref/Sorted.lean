import Verif.Coref.Mentions

/-!
# Property C80: `entity.mentions` is in document order
-/

namespace Verif.Coref.M
open Verif.Py

/-- The order of mentions is total and transitive (C37: incomparable mentions have the same key). -/
structure Cmp.Ok (c : Cmp) : Prop where
  trans : ∀ a b d, c.le a b = true → c.le b d = true → c.le a d = true
  total : ∀ a b, c.le a b = true ∨ c.le b a = true

/-- The list of mentions of an entity is sorted. -/
def St.Sorted (c : Cmp) (s : St) (e : Nat) : Prop := (s.ent e).Pairwise (fun a b => s.le c a b = true)

theorem insort_pairwise {le : Nat → Nat → Bool} (trans : ∀ a b c, le a b = true → le b c = true → le a c = true)
    (total : ∀ a b, le a b = true ∨ le b a = true) (m : Nat) : ∀ {l : List Nat}, l.Pairwise (fun a b => le a b = true) →
    (insort le m l).Pairwise (fun a b => le a b = true)
  | [], _ => by simp [insort]
  | x :: xs, h => by
    have h' := h
    rw [List.pairwise_cons] at h
    unfold insort
    split
    · rename_i hx
      rw [List.pairwise_cons]
      refine ⟨?_, insort_pairwise trans total m h.2⟩
      intro y hy
      rcases List.mem_cons.1 ((insort_perm le m xs).mem_iff.1 hy) with rfl | hy
      · exact hx
      · exact h.1 y hy
    · rename_i hx
      have hmx : le m x = true := (total m x).resolve_right (by simpa using hx)
      rw [List.pairwise_cons]
      refine ⟨?_, h'⟩
      intro y hy
      rcases List.mem_cons.1 hy with rfl | hy
      · exact hmx
      · exact trans _ _ _ hmx (h.1 y hy)

/-- The histories covered: accepted creations, removals and changes of the entity and of the head. -/
inductive ReachS (c : Cmp) : St → Prop
  | init : ReachS c init
  | create {s : St} (e : Nat) (hd : Option Nat) (ws : Option (List Nat)) (sp : Span) : ReachS c s →
      (create c s e hd ws sp).2 = none → sp.Some → ReachS c (create c s e hd ws sp).1
  | remove {s : St} (m : Nat) : ReachS c s → s.Live m → ReachS c (removeM s m).1
  | setEntity {s : St} (m e : Nat) : ReachS c s → s.Live m → ReachS c (setEntity c s m e).1
  | setHead {s : St} (m h : Nat) : ReachS c s → s.Live m → ReachS c (setHead s m h).1

theorem ReachS.reach {c : Cmp} {s : St} (h : ReachS c s) : Reach c s := by
  induction h with
  | init => exact Reach.init
  | create e hd ws sp _ _ hsp ih => exact Reach.step (.create e hd ws sp) ih hsp
  | remove m _ hl ih => exact Reach.step (.remove m) ih hl
  | setEntity m e _ hl ih => exact Reach.step (.setEntity m e) ih hl
  | setHead m h _ hl ih => exact Reach.step (.setHead m h) ih hl

/-- Sorting one list: it becomes sorted, the other lists are not touched. -/
theorem sortEnt_sorted {c : Cmp} (hc : c.Ok) {s : St} (e : Nat) (ho : ∀ e', e' ≠ e → s.Sorted c e') :
    ∀ e', (sortEnt c s e).Sorted c e' := by
  intro e'
  unfold St.Sorted
  show (upd s.ent e (pySort (s.le c) (s.ent e)) e').Pairwise (fun a b => s.le c a b = true)
  by_cases h : e' = e
  · subst h
    rw [upd_same]
    exact pySort_pairwise (le := s.le c) (fun a b d => hc.trans (s.words a, s.entOf a) (s.words b, s.entOf b) (s.words d, s.entOf d))
      (fun a b => hc.total (s.words a, s.entOf a) (s.words b, s.entOf b)) _
  · rw [upd_other _ _ h]; exact ho e' h

/-- The state before the last step of `create_mention`: only the new mention and the list of its entity have changed. -/
theorem create_frame {c : Cmp} {s : St} (hi : Inv s) (e : Nat) (hd : Option Nat) (ws : Option (List Nat)) (sp : Span)
    (hok : (create c s e hd ws sp).2 = none) :
    ∃ t, (create c s e hd ws sp).1 = sortEnt c t e ∧ (∀ n, n ≠ s.next → t.words n = s.words n ∧ t.entOf n = s.entOf n) ∧
      ∀ e', e' ≠ e → t.ent e' = s.ent e' := by
  rcases create_eq c s e hd ws sp with ⟨err, e1⟩ | ⟨h', ws', e1, _⟩
  · rw [e1] at hok; cases hok
  · rw [e1] at hok ⊢
    obtain ⟨ni, nw, nh, neo, nen, nn⟩ := newMention_spec (c := c) hi e h'
    have nl := newMention_live (c := c) hi e h'
    have frame0 : (∀ n, n ≠ s.next → (newMention c s e h').words n = s.words n ∧ (newMention c s e h').entOf n = s.entOf n) ∧
        ∀ e', e' ≠ e → (newMention c s e h').ent e' = s.ent e' := by
      refine ⟨fun n hn => ?_, fun e' he => ?_⟩
      · rw [nw, neo, upd_other _ _ hn, upd_other _ _ hn]; exact ⟨rfl, rfl⟩
      · rw [nen, upd_other _ _ he]
    have fin : ∀ s2 : St, Inv s2 → s2.Live s.next →
        ((∀ n, n ≠ s.next → s2.words n = s.words n ∧ s2.entOf n = s.entOf n) ∧ ∀ e', e' ≠ e → s2.ent e' = s.ent e') →
        (finish c s2 e s.next sp).2 = none →
        ∃ t, (finish c s2 e s.next sp).1 = sortEnt c t e ∧ (∀ n, n ≠ s.next → t.words n = s.words n ∧ t.entOf n = s.entOf n) ∧
          ∀ e', e' ≠ e → t.ent e' = s.ent e' := by
      intro s2 i2 l2 f2 hok2
      cases sp with
      | no => exact ⟨s2, rfl, f2⟩
      | bad => cases hok2
      | nodes ns =>
        unfold finish at hok2 ⊢
        simp only [setSpan] at hok2 ⊢
        rcases setWords_spec (c := c) i2 l2 ns with ⟨_, _, e3⟩ | ⟨_, t, e3, _, tw, _, teo, ten, _⟩
        · rw [e3] at hok2; cases hok2
        · rw [e3]
          refine ⟨t, rfl, fun n hn => ?_, fun e' he => ?_⟩
          · rw [tw, teo, upd_other _ _ hn]; exact f2.1 n hn
          · rw [ten]; exact f2.2 e' he
    unfold build at hok ⊢
    by_cases hw : ws' ≠ []
    · rw [if_pos hw] at hok ⊢
      have a3 := (setWords_live (c := c) ni nl ws' s.next).2 nl
      rcases setWords_spec (c := c) ni nl ws' with ⟨_, _, e3⟩ | ⟨_, t, e3, ti, tw, _, teo, ten, _⟩
      · rw [e3] at hok; cases hok
      · rw [e3] at hok a3 ⊢
        refine fin t ti a3 ⟨fun n hn => ?_, fun e' he => ?_⟩ hok
        · rw [tw, teo, upd_other _ _ hn]; exact frame0.1 n hn
        · rw [ten]; exact frame0.2 e' he
    · rw [if_neg hw] at hok ⊢
      exact fin _ ni nl frame0 hok

/-- C80, the part that holds: after any sequence of accepted creations, removals and changes of the entity and the head, the
mentions of every entity are in document order. What is missing: changes of the words of an existing mention, and rejected creations. -/
theorem C80_sorted_partial {c : Cmp} (hc : c.Ok) {s : St} (h : ReachS c s) : ∀ e, s.Sorted c e := by
  induction h with
  | init => intro e; simp [St.Sorted, init]
  | @create s e hd ws sp hr hok _ ih =>
    have hi := reach_inv hr.reach
    obtain ⟨t, e1, f1, f2⟩ := create_frame hi e hd ws sp hok
    rw [e1]
    apply sortEnt_sorted hc
    intro e' he
    unfold St.Sorted
    rw [f2 e' he]
    refine List.Pairwise.imp_of_mem ?_ (ih e')
    intro a b ha hb hab
    have ne : ∀ n, n ∈ s.ent e' → n ≠ s.next := fun n hn e2 => Nat.lt_irrefl _ (e2 ▸ hi.fresh e' n hn)
    unfold St.le at hab ⊢
    rw [(f1 a (ne a ha)).1, (f1 a (ne a ha)).2, (f1 b (ne b hb)).1, (f1 b (ne b hb)).2]
    exact hab
  | @remove s m hr hl ih =>
    obtain ⟨_, _, _, h4, h5, h6, _⟩ := removeM_inv (reach_inv hr.reach) hl
    intro e
    unfold St.Sorted St.le
    rw [h4, h5, h6]
    by_cases he : e = s.entOf m
    · subst he; rw [upd_same]; exact (ih _).sublist List.erase_sublist
    · rw [upd_other _ _ he]; exact ih e
  | @setEntity s m e hr hl ih =>
    have hi := reach_inv hr.reach
    have h0 : ∀ e', (upd s.ent (s.entOf m) ((s.ent (s.entOf m)).erase m) e').Pairwise
        (fun a b => St.le c { s with ent := upd s.ent (s.entOf m) ((s.ent (s.entOf m)).erase m), entOf := upd s.entOf m e } a b = true) := by
      intro e'
      have hne : ∀ n, n ∈ upd s.ent (s.entOf m) ((s.ent (s.entOf m)).erase m) e' → n ≠ m := by
        intro n hn e2
        subst e2
        by_cases h' : e' = s.entOf n
        · subst h'; rw [upd_same] at hn; exact ((hi.nodupE _).mem_erase_iff.1 hn).1 rfl
        · rw [upd_other _ _ h'] at hn; exact h' (hi.entOf e' n hn).symm
      have hp : (upd s.ent (s.entOf m) ((s.ent (s.entOf m)).erase m) e').Pairwise (fun a b => s.le c a b = true) := by
        by_cases h' : e' = s.entOf m
        · subst h'; rw [upd_same]; exact (ih _).sublist List.erase_sublist
        · rw [upd_other _ _ h']; exact ih e'
      refine List.Pairwise.imp_of_mem ?_ hp
      intro a b ha hb hab
      unfold St.le at hab ⊢
      simp only [upd_other _ _ (hne a ha), upd_other _ _ (hne b hb)]
      exact hab
    intro e'
    unfold setEntity
    rw [if_pos (show m ∈ s.ent (s.entOf m) from hl)]
    show List.Pairwise (fun a b => St.le c { s with ent := upd s.ent (s.entOf m) ((s.ent (s.entOf m)).erase m), entOf := upd s.entOf m e } a b = true) (upd _ e _ e')
    by_cases h' : e' = e
    · subst h'
      rw [upd_same]
      exact insort_pairwise (by intro a b d; unfold St.le; exact hc.trans _ _ _) (by intro a b; unfold St.le; exact hc.total _ _) m (h0 e')
    · rw [upd_other _ _ h']; exact h0 e'
  | @setHead s m hd hr hl ih =>
    intro e
    unfold setHead
    split
    · exact ih e
    · exact ih e

theorem exCmp_ok : exCmp.Ok := by
  refine ⟨?_, ?_⟩
  · intro a b d h1 h2
    simp only [exCmp, decide_eq_true_eq] at *
    omega
  · intro a b
    simp only [exCmp, decide_eq_true_eq]
    omega

/-- Three mentions created in another order than they occur in the text. -/
example : ∃ s, ReachS exCmp s ∧ s.ent 7 = [1, 2, 0] :=
  ⟨_, ReachS.create 7 (some 3) (some [3]) .no (ReachS.create 7 (some 2) (some [2, 3]) .no (ReachS.create 7 (some 5) none .no ReachS.init (by decide) trivial)
    (by decide) trivial) (by decide) trivial, by decide⟩

/-- C80 does not hold: an accepted change of the words never moves the mention in the list of its entity. So whenever the new
words put the mention after the next one of the list, the list is no longer sorted. -/
theorem C80_words_violated {c : Cmp} {s : St} (h : Reach c s) {m n : Nat} {rest : List Nat} (hl : s.Live m)
    (hent : s.ent (s.entOf m) = m :: n :: rest) {ws : List Nat} (hok : (setWords c s m ws).2 = none)
    (hafter : c.le (sortedWords c ws, s.entOf m) (s.words n, s.entOf n) = false) :
    ¬ (setWords c s m ws).1.Sorted c (s.entOf m) := by
  rcases setWords_spec (c := c) (reach_inv h) hl ws with ⟨_, _, e⟩ | ⟨_, t, e, _, hw, _, heo, hen, _⟩
  · rw [e] at hok; cases hok
  · rw [e]
    intro hs
    unfold St.Sorted at hs
    rw [hen, hent] at hs
    have := (List.pairwise_cons.1 hs).1 n (List.mem_cons_self ..)
    have hnm : n ≠ m := by
      have := (reach_inv h).nodupE (s.entOf m)
      rw [hent, List.nodup_cons] at this
      exact fun e2 => this.1 (e2 ▸ List.mem_cons_self ..)
    unfold St.le at this
    rw [hw, heo, upd_same, upd_other _ _ hnm, hafter] at this
    cases this

/-- Mentions of words 1, 4 (head 4) and 2; the first one loses word 1. -/
example : ∃ s, Reach exCmp s ∧ s.ent 7 = [0, 1] ∧ (setWords exCmp s 0 [4]).2 = none ∧ (setWords exCmp s 0 [4]).1.ent 7 = [0, 1] ∧
    exCmp.le ([4], 7) (s.words 1, 7) = false :=
  ⟨_, Reach.step (.create 7 (some 2) none .no) (Reach.step (.create 7 (some 4) (some [1, 4]) .no) Reach.init trivial) trivial,
    by decide, by decide, by decide, by decide⟩

end Verif.Coref.M
