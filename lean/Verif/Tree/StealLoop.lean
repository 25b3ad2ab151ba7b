import Verif.Tree.Steal

/-!
# The loops of `steal_nodes`: what they do to both trees
-/

namespace Verif.Tree
open Verif.Py

theorem si_init (h0 : Heap) {old t : Nat} {S : List Nat} (c : Call h0 old t S) : SI h0 h0 old t S [] where
  ord := rfl
  root := fun y => by simp
  parent := fun y => by
    unfold newParent
    cases h0.parent y with
    | none => rfl
    | some p => simp
  chT := by simp
  chOld := fun x => by
    rw [c.wOld.childIff old (.inl rfl)]
    constructor
    · rintro ⟨h1, h2⟩
      exact ⟨h1, List.not_mem_nil, old, h2, .inl rfl⟩
    · rintro ⟨h1, _, p, h2, h3 | h3⟩
      · exact ⟨h1, h3 ▸ h2⟩
      · exact absurd h3.2 List.not_mem_nil
  oldSorted := c.wOld.childSorted old (.inl rfl)
  chS := fun _ _ _ => rfl
  chP := fun y hy => absurd hy List.not_mem_nil
  chK := fun y _ _ => by rw [List.filter_eq_self.2]; simp
  chO := fun _ _ _ _ => rfl
  words := rfl
  next := rfl

theorem si_step {h0 h : Heap} {old t : Nat} {S P : List Nat} (c : Call h0 old t S) (si : SI h0 h old t S P) {x : Nat}
    (hx : x ∈ S) (hxP : x ∉ P) (hPn : P.Nodup) (hPS : ∀ y ∈ P, y ∈ S) :
    SI h0 (stealOne false old t S ((h0.words t).length + P.length) h x) old t S (P ++ [x]) := by
  have w := c.wOld
  have hxw := c.sub x hx
  obtain ⟨p, hp, hpin⟩ := w.parentIn x hxw
  have hpar : h.parent x = some p := by
    rw [si.parent, newParent, hp]
    simp only
    rw [if_neg hxP, if_neg (fun h => h.2.1 hx)]
  have hxo := c.old_ne hxw
  have hxt := c.t_ne hxw
  have hpt : p ≠ t := fun e => c.disj hpin (.inl e)
  have hpx : p ≠ x := by
    rintro rfl
    exact w.anc_irrefl (.inr hxw) (.parent hp)
  have hkids : ∀ q, InTree h0 old q → x ∈ h0.children q → q = p := by
    intro q hq hm
    have := ((w.childIff q hq x).1 hm).2
    rw [hp] at this
    exact (Option.some.inj this).symm
  have hold : p ≠ old → x ∉ h.children old := by
    intro hne hm
    obtain ⟨_, _, q, hq, h3⟩ := (si.chOld x).1 hm
    rw [hp] at hq
    obtain rfl := Option.some.inj hq
    exact h3.elim hne (fun h => h.1 hx)
  have hcx : h.children x = h0.children x := si.chS x hx hxP
  obtain ⟨g1, g2, g3, g4, g5, g6, g7, g8, g9, g10⟩ := stealOne_fields (k := (h0.words t).length + P.length) hpar hx hxo hxt c.ne hpt hpx
    c.old_not hold
  have hkc : ∀ y, y ∈ (h.children x).filter (fun n => decide (n ∉ S)) ↔ y ∈ h0.words old ∧ h0.parent y = some x ∧ y ∉ S := by
    intro y
    rw [hcx, List.mem_filter, w.childIff x (.inr hxw)]
    simp [and_assoc]
  have hne : ∀ y ∈ S, y ≠ old ∧ y ≠ t := fun y hy => ⟨c.old_ne (c.sub y hy), c.t_ne (c.sub y hy)⟩
  refine ⟨?_, ?_, ?_, ?_, ?_, ?_, ?_, ?_, ?_, ?_, by rw [g3, si.words], by rw [g4, si.next]⟩
  · rw [g1, si.ord, renumber_snoc]
    congr 1
    omega
  · intro y
    rw [g2]
    unfold upd
    by_cases hy : y = x
    · simp [hy]
    · rw [if_neg hy, si.root]
      simp [hy]
  · intro y
    rw [g5 y]
    unfold newParent
    by_cases hy : y = x
    · subst hy
      rw [hp]
      simp only
      rw [if_pos (List.mem_append_right _ (List.mem_singleton.2 rfl))]
      by_cases hpS : p ∈ S
      · rw [if_neg (fun h => h.2 hpS), if_neg (fun h => ((hkc y).1 h).2.2 hx), if_pos hpS, hpar]
      · rw [if_pos ⟨trivial, hpS⟩, if_neg hpS]
    · rw [if_neg (fun h => hy h.1)]
      by_cases hk : y ∈ (h.children x).filter (fun n => decide (n ∉ S))
      · rw [if_pos hk]
        obtain ⟨h1, h2, h3⟩ := (hkc y).1 hk
        rw [h2]
        simp only
        rw [if_neg, if_pos ⟨h1, h3, List.mem_append_right _ (List.mem_singleton.2 rfl)⟩]
        intro hm
        rcases List.mem_append.1 hm with hm | hm
        · exact h3 (hPS y hm)
        · exact hy (List.mem_singleton.1 hm)
      · rw [if_neg hk, si.parent y, newParent]
        cases hq : h0.parent y with
        | none => rfl
        | some q =>
          simp only
          have e1 : (y ∈ P ++ [x]) ↔ y ∈ P := by simp [hy]
          have e2 : (y ∈ h0.words old ∧ y ∉ S ∧ q ∈ P ++ [x]) ↔ (y ∈ h0.words old ∧ y ∉ S ∧ q ∈ P) := by
            constructor
            · rintro ⟨h1, h2, h3⟩
              refine ⟨h1, h2, ?_⟩
              rcases List.mem_append.1 h3 with h3 | h3
              · exact h3
              · rw [List.mem_singleton.1 h3] at hq
                exact absurd ((hkc y).2 ⟨h1, hq, h2⟩) hk
            · rintro ⟨h1, h2, h3⟩
              exact ⟨h1, h2, List.mem_append_left _ h3⟩
          simp only [e1, e2]
  · rw [g6, si.chT, List.filter_append]
    by_cases hpS : p ∈ S
    · have : cut h0 S x = false := by simp [cut, hp, hpS]
      rw [if_pos hpS, List.filter_cons_of_neg (by simp [this])]
      simp
    · have : cut h0 S x = true := by simp [cut, hp, hpS]
      rw [if_neg hpS, List.filter_cons_of_pos this]
      simp
  · intro z
    have hperm := (kids_frame old ((h.children x).filter (fun n => decide (n ∉ S)))
      { h with ord := upd h.ord x ((h0.words t).length + P.length + 1), root := upd h.root x t }).2.2.2.2.2.2
    rw [g7, List.mem_filter, hperm.mem_iff, List.mem_append, decide_eq_true_eq, hkc z]
    show (z ∈ h.children old ∨ _) ∧ _ ↔ _
    rw [si.chOld z]
    constructor
    · rintro ⟨⟨h1, h2, q, h3, h4⟩ | ⟨h1, h2, h3⟩, hzx⟩
      · refine ⟨h1, by simp [h2, hzx], q, h3, ?_⟩
        rcases h4 with h4 | h4
        · exact .inl h4
        · exact .inr ⟨h4.1, List.mem_append_left _ h4.2⟩
      · refine ⟨h1, ?_, x, h2, .inr ⟨h3, List.mem_append_right _ (List.mem_singleton.2 rfl)⟩⟩
        intro hm
        rcases List.mem_append.1 hm with hm | hm
        · exact h3 (hPS z hm)
        · exact hzx (List.mem_singleton.1 hm)
    · rintro ⟨h1, h2, q, h3, h4⟩
      have hzP : z ∉ P := fun h => h2 (List.mem_append_left _ h)
      have hzx : z ≠ x := fun h => h2 (List.mem_append_right _ (List.mem_singleton.2 h))
      refine ⟨?_, hzx⟩
      rcases h4 with h4 | ⟨h4, h5⟩
      · exact .inl ⟨h1, hzP, q, h3, .inl h4⟩
      · rcases List.mem_append.1 h5 with h5 | h5
        · exact .inl ⟨h1, hzP, q, h3, .inr ⟨h4, h5⟩⟩
        · rw [List.mem_singleton.1 h5] at h3
          exact .inr ⟨h1, h3, h4⟩
  · rw [g7]
    have hro := renumber_spec (l := P) hPn h0.ord ((h0.words t).length + 1)
    have hmem : ∀ z, z ∈ h.children old ++ (h.children x).filter (fun n => decide (n ∉ S)) → z ∈ h0.words old ∧ z ∉ P := by
      intro z hz
      rcases List.mem_append.1 hz with hz | hz
      · have := (si.chOld z).1 hz
        exact ⟨this.1, this.2.1⟩
      · have := (hkc z).1 hz
        exact ⟨this.1, fun h => this.2.2 (hPS z h)⟩
    have hord : ∀ z, z ∈ h.children old ++ (h.children x).filter (fun n => decide (n ∉ S)) → z ≠ x →
        upd h.ord x ((h0.words t).length + P.length + 1) z = h0.ord z := by
      intro z hz hzx
      rw [upd_ne _ _ hzx, si.ord]
      exact hro.2 z (hmem z hz).2
    have hperm := (kids_frame old ((h.children x).filter (fun n => decide (n ∉ S)))
      { h with ord := upd h.ord x ((h0.words t).length + P.length + 1), root := upd h.root x t }).2.2.2.2.2.2
    have := kids_sorted old x ((h.children x).filter (fun n => decide (n ∉ S)))
      { h with ord := upd h.ord x ((h0.words t).length + P.length + 1), root := upd h.root x t } ?_ ?_ ?_
    · refine this.imp_of_mem ?_
      intro a b ha hb hab
      have ha := List.mem_filter.1 ha
      have hb := List.mem_filter.1 hb
      have e1 := hord a (hperm.mem_iff.1 ha.1) (by simpa using ha.2)
      have e2 := hord b (hperm.mem_iff.1 hb.1) (by simpa using hb.2)
      simp only at hab
      rw [e1, e2] at hab
      exact hab
    · show (h.children old ++ _).Nodup
      rw [List.nodup_append]
      refine ⟨pairwise_ord_nodup si.oldSorted, ?_, ?_⟩
      · rw [hcx]
        exact (w.children_nodup (.inr hxw)).filter _
      · rintro a ha b hb rfl
        obtain ⟨_, _, q, h3, h4⟩ := (si.chOld a).1 ha
        obtain ⟨_, h6, h7⟩ := (hkc a).1 hb
        rw [h6] at h3
        obtain rfl := Option.some.inj h3
        exact h4.elim hxo (fun h => hxP h.2)
    · intro a ha b hb hax hbx e
      simp only at e
      rw [hord a ha hax, hord b hb hbx] at e
      exact w.ord_inj (hmem a ha).1 (hmem b hb).1 e
    · have := si.oldSorted.sublist (List.filter_sublist (p := fun n => decide (n ≠ x)))
      refine this.imp_of_mem ?_
      intro a b ha hb hab
      have ha := List.mem_filter.1 ha
      have hb := List.mem_filter.1 hb
      simp only
      rw [hord a (List.mem_append_left _ ha.1) (by simpa using ha.2), hord b (List.mem_append_left _ hb.1) (by simpa using hb.2)]
      exact hab
  · intro y hyS hyP
    have hyx : y ≠ x := fun e => hyP (List.mem_append_right _ (List.mem_singleton.2 e))
    rw [g9 y hyS hyx (hne y hyS).1 (hne y hyS).2]
    exact si.chS y hyS (fun h => hyP (List.mem_append_left _ h))
  · intro y hy
    rcases List.mem_append.1 hy with hy | hy
    · rw [g9 y (hPS y hy) (fun e => hxP (e ▸ hy)) (hne y (hPS y hy)).1 (hne y (hPS y hy)).2]
      exact si.chP y hy
    · rw [List.mem_singleton.1 hy, g8, hcx]
  · intro y hyw hyS
    rw [g10 y hyS (c.old_ne hyw) (c.t_ne hyw), si.chK y hyw hyS]
    by_cases hyp : y = p
    · rw [if_pos hyp, List.filter_filter]
      congr 1
      funext n
      simp [and_comm]
    · rw [if_neg hyp]
      apply List.filter_congr
      intro n hn
      have : n ≠ x := by
        rintro rfl
        exact hyp (hkids y (.inr hyw) hn)
      simp [this]
  · intro y hyt hyo hyw
    rw [g10 y (fun h => hyw (c.sub y h)) hyo hyt, if_neg]
    · exact si.chO y hyt hyo hyw
    · rintro rfl
      exact hpin.elim hyo hyw

theorem si_loop {h0 : Heap} {old t : Nat} {S : List Nat} (c : Call h0 old t S) {whole : Bool}
    (hw : whole = true → ∀ y ∈ h0.words old, y ∈ S) : ∀ (R P : List Nat) (h : Heap), P ++ R = S → SI h0 h old t S P →
    SI h0 (stealLoop whole old t S ((h0.words t).length + P.length) h R) old t S S
  | [], P, h, e, si => by
    rw [List.append_nil] at e
    subst e
    exact si
  | x :: R, P, h, e, si => by
    have hS : S.Nodup := pairwise_ord_nodup c.sorted
    rw [← e] at hS
    have hx : x ∈ S := by rw [← e]; exact List.mem_append_right _ (List.mem_cons_self ..)
    have hn := List.nodup_append.1 hS
    have hxP : x ∉ P := fun h => hn.2.2 x h x (List.mem_cons_self ..) rfl
    have hPS : ∀ y ∈ P, y ∈ S := fun y hy => by rw [← e]; exact List.mem_append_left _ hy
    have hstep := si_step c si hx hxP hn.1 hPS
    have he : stealOne whole old t S ((h0.words t).length + P.length) h x = stealOne false old t S ((h0.words t).length + P.length) h x := by
      cases whole with
      | false => rfl
      | true =>
        apply stealOne_whole
        · intro y hy
          rw [si.chS x hx hxP] at hy
          exact hw rfl y (c.wOld.child_mem (.inr (c.sub x hx)) hy)
        · intro p hp hpS
          rw [si.parent x, newParent] at hp
          obtain ⟨q, hq, hin⟩ := c.wOld.parentIn x (c.sub x hx)
          rw [hq] at hp
          simp only at hp
          rw [if_neg hxP, if_neg (fun h => h.2.1 hx)] at hp
          obtain rfl := Option.some.inj hp
          exact hin.elim id (fun h => absurd (hw rfl _ h) hpS)
    show SI h0 (stealLoop whole old t S ((h0.words t).length + P.length + 1) (stealOne whole old t S ((h0.words t).length + P.length) h x) R)
      old t S S
    rw [he]
    have := si_loop c hw R (P ++ [x]) _ (by simp [e]) hstep
    rw [List.length_append] at this
    exact this

/-- The heap after a call that does not raise. -/
structure Done (h0 h : Heap) (old t : Nat) (S : List Nat) : Prop where
  ord : h.ord = renumber h0.ord ((h0.words t).length + 1) S
  root : ∀ y, h.root y = if y ∈ S then t else h0.root y
  parent : ∀ y, h.parent y = newParent h0 old t S S y
  chT : h.children t = h0.children t ++ S.filter (cut h0 S)
  chOld : ∀ c, c ∈ h.children old ↔ c ∈ h0.words old ∧ c ∉ S ∧ ∃ p, h0.parent c = some p ∧ (p = old ∨ p ∈ S)
  oldSorted : (h.children old).Pairwise (fun a b => h0.ord a < h0.ord b)
  chS : ∀ y ∈ S, h.children y = (h0.children y).filter (fun n => n ∈ S)
  chK : ∀ y ∈ h0.words old, y ∉ S → h.children y = (h0.children y).filter (fun n => n ∉ S)
  chO : ∀ y, y ≠ t → y ≠ old → y ∉ h0.words old → h.children y = h0.children y
  wT : h.words t = h0.words t ++ S
  wOld : h.words old = (h0.words old).filter (fun n => n ∉ S)
  wO : ∀ r, r ≠ t → r ≠ old → h.words r = h0.words r
  next : h.next = h0.next

theorem done_of_si {h0 h : Heap} {old t : Nat} {S : List Nat} (si : SI h0 h old t S S) {w : Nat → List Nat} (hT : w t = h0.words t ++ S)
    (hOld : w old = (h0.words old).filter (fun n => n ∉ S)) (hO : ∀ r, r ≠ t → r ≠ old → w r = h0.words r) :
    Done h0 { h with words := w } old t S where
  ord := si.ord
  root := si.root
  parent := si.parent
  chT := si.chT
  chOld := fun c => by
    show c ∈ h.children old ↔ _
    rw [si.chOld c]
    constructor
    · rintro ⟨h1, h2, p, h3, h4⟩
      exact ⟨h1, h2, p, h3, h4.elim .inl (fun h => .inr h.2)⟩
    · rintro ⟨h1, h2, p, h3, h4⟩
      exact ⟨h1, h2, p, h3, h4.elim .inl (fun h => .inr ⟨h2, h⟩)⟩
  oldSorted := si.oldSorted
  chS := si.chP
  chK := si.chK
  chO := si.chO
  wT := hT
  wOld := hOld
  wO := hO
  next := si.next

namespace Done
variable {h0 h : Heap} {old t : Nat} {S : List Nat}

theorem ordS (c : Call h0 old t S) (d : Done h0 h old t S) : Aligned h.ord ((h0.words t).length + 1) S := by
  rw [d.ord]
  exact (renumber_spec (pairwise_ord_nodup c.sorted) _ _).1

theorem ordO (c : Call h0 old t S) (d : Done h0 h old t S) {y : Nat} (hy : y ∉ S) : h.ord y = h0.ord y := by
  rw [d.ord]
  exact (renumber_spec (pairwise_ord_nodup c.sorted) _ _).2 y hy

theorem notS (c : Call h0 old t S) {r y : Nat} (w : WF h0 r) (hr : IsTree h0 r) (hne : r ≠ old) (hy : InTree h0 r y) : y ∉ S := fun hs =>
  hne ((inTree_root w hr hy).symm.trans (c.wOld.rootOf y (c.sub y hs)))

theorem notOld (c : Call h0 old t S) {r y : Nat} (w : WF h0 r) (hr : IsTree h0 r) (hne : r ≠ old) (hy : InTree h0 r y) : y ∉ h0.words old := fun hs =>
  hne ((inTree_root w hr hy).symm.trans (c.wOld.rootOf y hs))

/-- The parents in other trees stay. -/
theorem parentO (d : Done h0 h old t S) {y : Nat} (hy : y ∉ S) (hw : y ∉ h0.words old) : h.parent y = h0.parent y := by
  rw [d.parent, newParent]
  cases h0.parent y with
  | none => rfl
  | some p =>
    simp only
    rw [if_neg hy, if_neg (fun h => hw h.1)]

theorem parentS (d : Done h0 h old t S) {y p : Nat} (hy : y ∈ S) (hp : h0.parent y = some p) :
    h.parent y = some (if p ∈ S then p else t) := by
  rw [d.parent, newParent, hp]
  simp only
  rw [if_pos hy]

theorem parentK (d : Done h0 h old t S) {y p : Nat} (hw : y ∈ h0.words old) (hy : y ∉ S) (hp : h0.parent y = some p) :
    h.parent y = some (if p ∈ S then old else p) := by
  rw [d.parent, newParent, hp]
  simp only
  rw [if_neg hy]
  by_cases hpS : p ∈ S
  · rw [if_pos ⟨hw, hy, hpS⟩, if_pos hpS]
  · rw [if_neg (fun h => hpS h.2.2), if_neg hpS]

/-- The target is a well-formed tree. -/
theorem wf_target (c : Call h0 old t S) (d : Done h0 h old t S) : WF h t := by
  have wo := c.wOld
  have wt := c.wT
  have tS : ∀ {y}, InTree h0 t y → y ∉ S := fun hy => notS c c.wT c.isT (Ne.symm c.ne) hy
  have tW : ∀ {y}, InTree h0 t y → y ∉ h0.words old := fun hy => notOld c c.wT c.isT (Ne.symm c.ne) hy
  have pT : ∀ y, InTree h0 t y → h.parent y = h0.parent y := fun y hy => parentO d (tS hy) (tW hy)
  have hin : ∀ y, InTree h t y ↔ InTree h0 t y ∨ y ∈ S := by
    intro y
    unfold InTree
    rw [d.wT, List.mem_append, or_assoc]
  have ordT : ∀ {y}, y ∈ h0.words t → h.ord y = h0.ord y := fun hy => ordO c d (tS (.inr hy))
  have hcutp : ∀ y ∈ S, ∃ p, h0.parent y = some p ∧ InTree h0 old p := fun y hy => wo.parentIn y (c.sub y hy)
  refine ⟨?_, ?_, ?_, ?_, ?_, ?_, ?_, ?_, ?_⟩
  · rw [d.wT]
    apply aligned_append.2
    refine ⟨(aligned_congr (fun x hx => ordT hx)).2 wt.aligned, ?_⟩
    rw [Nat.add_comm]
    exact ordS c d
  · rw [ordO c d c.t_not]; exact wt.rootOrd
  · rw [pT t (.inl rfl)]; exact wt.rootParent
  · intro x hx
    rw [d.root]
    rw [d.wT] at hx
    rcases List.mem_append.1 hx with hx | hx
    · rw [if_neg (tS (.inr hx))]; exact wt.rootOf x hx
    · rw [if_pos hx]
  · intro x hx
    rw [d.wT] at hx
    rcases List.mem_append.1 hx with hx | hx
    · obtain ⟨p, h1, h2⟩ := wt.parentIn x hx
      exact ⟨p, by rw [pT x (.inr hx), h1], (hin p).2 (.inl h2)⟩
    · obtain ⟨p, h1, _⟩ := hcutp x hx
      refine ⟨_, parentS d hx h1, (hin _).2 ?_⟩
      by_cases hp : p ∈ S
      · rw [if_pos hp]; exact .inr hp
      · rw [if_neg hp]; exact .inl (.inl rfl)
  · intro x hx
    rw [d.wT] at hx
    rcases List.mem_append.1 hx with hx | hx
    · exact anc_congr wt pT (.inr hx) (wt.reach x hx)
    · refine wo.induct (fun y => y ∈ S → Anc h t y) (fun h => absurd h c.old_not) ?_ x (.inr (c.sub x hx)) hx
      intro y p _ hp _ ih hy
      have := parentS d hy hp
      by_cases hpS : p ∈ S
      · rw [if_pos hpS] at this
        exact .step this (ih hpS)
      · rw [if_neg hpS] at this
        exact .parent this
  · intro p hp x
    rw [d.wT, List.mem_append]
    rcases (hin p).1 hp with hp | hp
    · rcases hp with rfl | hpw
      · rw [d.chT, List.mem_append, wt.childIff p (.inl rfl), List.mem_filter]
        constructor
        · rintro (⟨h1, h2⟩ | ⟨h1, h2⟩)
          · exact ⟨.inl h1, by rw [pT x (.inr h1), h2]⟩
          · obtain ⟨q, hq, _⟩ := hcutp x h1
            have hqS : q ∉ S := by simpa [cut, hq] using h2
            refine ⟨.inr h1, ?_⟩
            rw [parentS d h1 hq, if_neg hqS]
        · rintro ⟨h1 | h1, h2⟩
          · exact .inl ⟨h1, by rw [← pT x (.inr h1), h2]⟩
          · refine .inr ⟨h1, ?_⟩
            obtain ⟨q, hq, _⟩ := hcutp x h1
            rw [parentS d h1 hq] at h2
            have hqS : q ∉ S := by
              intro hqS
              rw [if_pos hqS] at h2
              exact c.t_not ((Option.some.inj h2) ▸ hqS)
            simp [cut, hq, hqS]
      · have hpt : p ≠ t := fun e => wt.root_not_mem (e ▸ hpw)
        have hpo : p ≠ old := fun e => c.disj (.inl e) (.inr hpw)
        rw [d.chO p hpt hpo (tW (.inr hpw)), wt.childIff p (.inr hpw)]
        constructor
        · rintro ⟨h1, h2⟩
          exact ⟨.inl h1, by rw [pT x (.inr h1), h2]⟩
        · rintro ⟨h1 | h1, h2⟩
          · exact ⟨h1, by rw [← pT x (.inr h1), h2]⟩
          · obtain ⟨q, hq, _⟩ := hcutp x h1
            rw [parentS d h1 hq] at h2
            have h2 := Option.some.inj h2
            by_cases hqS : q ∈ S
            · rw [if_pos hqS] at h2
              exact absurd (h2 ▸ hqS) (tS (.inr hpw))
            · rw [if_neg hqS] at h2
              exact absurd h2.symm hpt
    · rw [d.chS p hp, List.mem_filter, wo.childIff p (.inr (c.sub p hp)), decide_eq_true_eq]
      constructor
      · rintro ⟨⟨h1, h2⟩, h3⟩
        exact ⟨.inr h3, by rw [parentS d h3 h2, if_pos hp]⟩
      · rintro ⟨h1 | h1, h2⟩
        · rw [pT x (.inr h1)] at h2
          exact absurd hp (tS (wt.parent_in h1 h2))
        · obtain ⟨q, hq, _⟩ := hcutp x h1
          rw [parentS d h1 hq] at h2
          have h2 := Option.some.inj h2
          by_cases hqS : q ∈ S
          · rw [if_pos hqS] at h2
            exact ⟨⟨c.sub x h1, h2 ▸ hq⟩, h1⟩
          · rw [if_neg hqS] at h2
            exact absurd (h2 ▸ hp) c.t_not
  · intro p hp
    rcases (hin p).1 hp with hp | hp
    · rcases hp with rfl | hpw
      · rw [d.chT, List.pairwise_append]
        refine ⟨?_, ?_, ?_⟩
        · refine (wt.childSorted p (.inl rfl)).imp_of_mem ?_
          intro a b ha hb hab
          rw [ordT (wt.child_mem (.inl rfl) ha), ordT (wt.child_mem (.inl rfl) hb)]
          exact hab
        · exact (aligned_pairwise (ordS c d)).sublist List.filter_sublist
        · intro a ha b hb
          have h1 := wt.child_mem (.inl rfl) ha
          rw [ordT h1]
          have h2 := (aligned_mem (ordS c d) (List.mem_filter.1 hb).1).1
          have h3 := wt.ord_le h1
          omega
      · have hpt : p ≠ t := fun e => wt.root_not_mem (e ▸ hpw)
        have hpo : p ≠ old := fun e => c.disj (.inl e) (.inr hpw)
        rw [d.chO p hpt hpo (tW (.inr hpw))]
        refine (wt.childSorted p (.inr hpw)).imp_of_mem ?_
        intro a b ha hb hab
        rw [ordT (wt.child_mem (.inr hpw) ha), ordT (wt.child_mem (.inr hpw) hb)]
        exact hab
    · rw [d.chS p hp]
      refine ((wo.childSorted p (.inr (c.sub p hp))).sublist List.filter_sublist).imp_of_mem ?_
      intro a b ha hb hab
      have ha := (List.mem_filter.1 ha).2
      have hb := (List.mem_filter.1 hb).2
      exact order_transfer c.sorted (aligned_pairwise (ordS c d)) a (by simpa using ha) b (by simpa using hb) hab
  · intro x hx
    rw [d.next]
    rw [d.wT] at hx
    rcases List.mem_append.1 hx with hx | hx
    · exact wt.alloc x hx
    · exact wo.alloc x (c.sub x hx)

/-- The source is a well-formed tree up to the numbering. -/
theorem wfo_source (c : Call h0 old t S) (d : Done h0 h old t S) : WFo h old := by
  have wo := c.wOld
  have hmem : ∀ y, y ∈ h.words old ↔ y ∈ h0.words old ∧ y ∉ S := by
    intro y
    rw [d.wOld, List.mem_filter, decide_eq_true_eq]
  have pR : h.parent old = none := by
    rw [parentO d c.old_not wo.root_not_mem]; exact wo.rootParent
  refine ⟨?_, ?_, ?_, pR, ?_, ?_, ?_, ?_, ?_, ?_⟩
  · rw [d.wOld]
    refine (wo.sorted.sublist List.filter_sublist).imp_of_mem ?_
    intro a b ha hb hab
    rw [ordO c d (by simpa using (List.mem_filter.1 ha).2), ordO c d (by simpa using (List.mem_filter.1 hb).2)]
    exact hab
  · intro x hx
    obtain ⟨h1, h2⟩ := (hmem x).1 hx
    rw [ordO c d h2]
    exact wo.pos x h1
  · rw [ordO c d c.old_not]; exact wo.rootOrd
  · intro x hx
    obtain ⟨h1, h2⟩ := (hmem x).1 hx
    rw [d.root, if_neg h2]
    exact wo.rootOf x h1
  · intro x hx
    obtain ⟨h1, h2⟩ := (hmem x).1 hx
    obtain ⟨p, hp, hin⟩ := wo.parentIn x h1
    refine ⟨_, parentK d h1 h2 hp, ?_⟩
    by_cases hpS : p ∈ S
    · rw [if_pos hpS]; exact .inl rfl
    · rw [if_neg hpS]
      exact hin.elim .inl (fun h => .inr ((hmem p).2 ⟨h, hpS⟩))
  · intro x hx
    obtain ⟨h1, h2⟩ := (hmem x).1 hx
    refine wo.induct (fun y => y ∈ h0.words old → y ∉ S → Anc h old y) (fun h => absurd h wo.root_not_mem) ?_ x (.inr h1) h1 h2
    intro y p hy hp hin ih _ hyS
    have := parentK d hy hyS hp
    by_cases hpS : p ∈ S
    · rw [if_pos hpS] at this
      exact .parent this
    · rw [if_neg hpS] at this
      rcases hin with rfl | hin
      · exact .parent this
      · exact .step this (ih hin hpS)
  · intro p hp x
    rw [hmem x]
    rcases hp with rfl | hp
    · rw [d.chOld x]
      constructor
      · rintro ⟨h1, h2, q, hq, h3⟩
        refine ⟨⟨h1, h2⟩, ?_⟩
        rw [parentK d h1 h2 hq]
        by_cases hqS : q ∈ S
        · rw [if_pos hqS]
        · rw [if_neg hqS]
          exact congrArg some (h3.elim id (fun h => absurd h hqS))
      · rintro ⟨⟨h1, h2⟩, h3⟩
        obtain ⟨q, hq, _⟩ := wo.parentIn x h1
        refine ⟨h1, h2, q, hq, ?_⟩
        rw [parentK d h1 h2 hq] at h3
        by_cases hqS : q ∈ S
        · exact .inr hqS
        · rw [if_neg hqS] at h3
          exact .inl (Option.some.inj h3)
    · obtain ⟨hpw, hpS⟩ := (hmem p).1 hp
      rw [d.chK p hpw hpS, List.mem_filter, wo.childIff p (.inr hpw), decide_eq_true_eq]
      constructor
      · rintro ⟨⟨h1, h2⟩, h3⟩
        exact ⟨⟨h1, h3⟩, by rw [parentK d h1 h3 h2, if_neg hpS]⟩
      · rintro ⟨⟨h1, h2⟩, h3⟩
        obtain ⟨q, hq, _⟩ := wo.parentIn x h1
        rw [parentK d h1 h2 hq] at h3
        have h3 := Option.some.inj h3
        by_cases hqS : q ∈ S
        · rw [if_pos hqS] at h3
          exact absurd h3.symm (c.old_ne hpw)
        · rw [if_neg hqS] at h3
          exact ⟨⟨h1, h3 ▸ hq⟩, h2⟩
  · intro p hp
    rcases hp with rfl | hp
    · refine d.oldSorted.imp_of_mem ?_
      intro a b ha hb hab
      rw [ordO c d ((d.chOld a).1 ha).2.1, ordO c d ((d.chOld b).1 hb).2.1]
      exact hab
    · obtain ⟨hpw, hpS⟩ := (hmem p).1 hp
      rw [d.chK p hpw hpS]
      refine ((wo.childSorted p (.inr hpw)).sublist List.filter_sublist).imp_of_mem ?_
      intro a b ha hb hab
      rw [ordO c d (by simpa using (List.mem_filter.1 ha).2), ordO c d (by simpa using (List.mem_filter.1 hb).2)]
      exact hab
  · intro x hx
    rw [d.next]
    exact wo.alloc x ((hmem x).1 hx).1

/-- The source is a well-formed tree if the words that stay are numbered consecutively. -/
theorem wf_source (c : Call h0 old t S) (d : Done h0 h old t S)
    (hk : Aligned h0.ord 1 ((h0.words old).filter (fun n => n ∉ S))) : WF h old := by
  refine (wfo_source c d).strengthen ?_
  rw [d.wOld]
  exact (aligned_congr (fun x hx => ordO c d (by simpa using (List.mem_filter.1 hx).2))).2 hk

theorem isTree (c : Call h0 old t S) (d : Done h0 h old t S) (r : Nat) : IsTree h r ↔ IsTree h0 r := by
  unfold IsTree
  rw [d.next, d.root]
  by_cases hr : r ∈ S
  · rw [if_pos hr]
    have h1 : t ≠ r := fun e => c.t_not (e ▸ hr)
    have h2 : h0.root r ≠ r := by
      rw [c.wOld.rootOf r (c.sub r hr)]
      exact Ne.symm (c.old_ne (c.sub r hr))
    simp [h1, h2]
  · rw [if_neg hr]

/-- All other trees stay as they are. -/
theorem wf_other (c : Call h0 old t S) (d : Done h0 h old t S) {r : Nat} (w : WF h0 r) (hr : IsTree h0 r) (h1 : r ≠ old) (h2 : r ≠ t) : WF h r := by
  have hS : ∀ {x}, InTree h0 r x → x ∉ S := fun hx => notS c w hr h1 hx
  have hW : ∀ {x}, InTree h0 r x → x ∉ h0.words old := fun hx => notOld c w hr h1 hx
  have hroot : ∀ {x}, InTree h0 r x → h0.root x = r := fun hx => inTree_root w hr hx
  refine w.congr (by rw [d.next]; exact Nat.le_refl _) (d.wO r h2 h1) (fun x hx => parentO d (hS hx) (hW hx)) ?_
    (fun x hx => ordO c d (hS hx)) (fun x hx => by rw [d.root, if_neg (hS hx)])
  intro x hx
  refine d.chO x ?_ ?_ (hW hx)
  · rintro rfl
    exact h2 ((hroot hx).symm.trans c.isT.2)
  · rintro rfl
    exact h1 ((hroot hx).symm.trans c.isOld.2)

end Done

end Verif.Tree
