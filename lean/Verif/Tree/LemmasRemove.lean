import Verif.Tree.LemmasEdit

/-! # Removing words -/

namespace Verif.Tree
open Verif.Py

theorem descLoop_congr {h h' : Heap} (hc : h'.children = h.children) :
    ∀ (f : Nat) (st out : List Nat), descLoop h' f st out = descLoop h f st out := by
  intro f
  induction f with
  | zero =>
    intro st out
    unfold descLoop
    rfl
  | succ f ih =>
    intro st out
    rw [descLoop, descLoop, hc]
    split
    · rfl
    · exact ih _ _

theorem unorderedDescendants_congr {h h' : Heap} (hc : h'.children = h.children)
    (hn : h'.next = h.next) (x : Nat) : unorderedDescendants h' x = unorderedDescendants h x := by
  unfold unorderedDescendants
  rw [descLoop_congr hc, hn, hc]

theorem renumber_spec {l : List Nat} (hn : l.Nodup) (ord : Nat → Nat) (k : Nat) :
    Aligned (renumber ord k l) k l ∧ ∀ y, y ∉ l → renumber ord k l y = ord y := by
  induction l generalizing ord k with
  | nil => exact ⟨aligned_nil _ _, fun _ _ => rfl⟩
  | cons a l ih =>
    rw [List.nodup_cons] at hn
    have := ih hn.2 (upd ord a k) (k + 1)
    simp only [renumber]
    refine ⟨aligned_cons.2 ⟨?_, this.1⟩, ?_⟩
    · rw [this.2 a hn.1]; simp
    · intro y hy
      simp only [List.mem_cons, not_or] at hy
      rw [this.2 y hy.2, upd_ne _ _ hy.1]

theorem setParents_eq (parent : Nat → Option Nat) (p : Option Nat) (l : List Nat) (y : Nat) :
    setParents parent p l y = if y ∈ l then p else parent y := by
  induction l generalizing parent with
  | nil => simp [setParents]
  | cons a l ih =>
    simp only [setParents, ih, List.mem_cons]
    by_cases hy : y ∈ l
    · simp [hy]
    · by_cases hya : y = a
      · simp [hya]
      · simp [hy, hya, upd]

theorem erase_renumber {ord : Nat → Nat} {l : List Nat} {x : Nat} (ha : Aligned ord 1 l)
    (hx : x ∈ l) :
    Aligned (renumber ord (ord x) ((l.erase x).drop (ord x - 1))) 1 (l.erase x) ∧
      ∀ y, y ∉ l.erase x → renumber ord (ord x) ((l.erase x).drop (ord x - 1)) y = ord y := by
  obtain ⟨A, B, rfl⟩ := List.append_of_mem hx
  have hn := aligned_nodup ha
  have hxA : x ∉ A := by
    intro hm
    rw [List.nodup_append] at hn
    exact hn.2.2 x hm x (List.mem_cons_self ..) rfl
  have he : (A ++ x :: B).erase x = A ++ B := by
    rw [List.erase_append_right _ hxA]; simp
  have ha' := aligned_append.1 ha
  have hox : ord x = 1 + A.length := (aligned_cons.1 ha'.2).1
  have hd : (A ++ B).drop (ord x - 1) = B := by
    rw [hox]; simp
  rw [he, hd]
  have hnB : B.Nodup := by
    rw [List.nodup_append] at hn
    exact (List.nodup_cons.1 hn.2.1).2
  have hr := renumber_spec hnB ord (ord x)
  refine ⟨aligned_append.2 ⟨?_, ?_⟩, ?_⟩
  · refine (aligned_congr ?_).2 ha'.1
    intro y hy
    apply hr.2
    intro hyB
    rw [List.nodup_append] at hn
    exact hn.2.2 y hy y (List.mem_cons_of_mem _ hyB) rfl
  · rw [← hox]; exact hr.1
  · intro y hy
    apply hr.2
    intro hyB
    exact hy (List.mem_append_right _ hyB)

/-- Two numberings that increase along the same list compare in the same way. -/
theorem pairwise_mono {f g : Nat → Nat} {l : List Nat} (hf : l.Pairwise (fun a b => f a < f b))
    (hg : l.Pairwise (fun a b => g a < g b)) {a b : Nat} (ha : a ∈ l) (hb : b ∈ l)
    (hlt : f a < f b) : g a < g b := by
  induction l with
  | nil => simp at ha
  | cons c l ih =>
    rw [List.pairwise_cons] at hf hg
    rcases List.mem_cons.1 ha with rfl | ha' <;> rcases List.mem_cons.1 hb with rfl | hb'
    · omega
    · exact hg.1 b hb'
    · have := hf.1 a ha'; omega
    · exact ih hf.2 hg.2 ha' hb'

section Plain
variable {h : Heap} {r x q : Nat}

/-- The heap after deleting the subtree of `x`, a child of `q`: `W` are the remaining words. -/
def pruned (h : Heap) (r x q : Nat) (W : List Nat) (o : Nat → Nat) : Heap :=
  { h with
    children := upd h.children q ((h.children q).erase x)
    words := upd h.words r W
    ord := o }

theorem wf_pruned (w : WF h r) (hx : x ∈ h.words r) (hq : h.parent x = some q) {W : List Nat}
    {o : Nat → Nat} (hsub : W.Sublist (h.words r))
    (hmem : ∀ y, y ∈ W ↔ (y ∈ h.words r ∧ y ≠ x ∧ ¬ Anc h x y))
    (hal : Aligned o 1 W) (ho : ∀ y, y ∉ W → o y = h.ord y) : WF (pruned h r x q W o) r := by
  have hw : (pruned h r x q W o).words r = W := by simp [pruned]
  have hqin := w.parent_in hx hq
  have hrx : r ≠ x := fun e => w.root_not_mem (e ▸ hx)
  have hin : ∀ y, InTree (pruned h r x q W o) r y ↔ (y = r ∨ y ∈ W) := by
    intro y; unfold InTree; rw [hw]
  have hinold : ∀ y, InTree (pruned h r x q W o) r y → InTree h r y := by
    intro y hy
    rcases (hin y).1 hy with rfl | hy
    · exact Or.inl rfl
    · exact Or.inr ((hmem y).1 hy).1
  have hanc : ∀ {a y}, Anc h a y → Anc (pruned h r x q W o) a y := by
    intro a y ha
    induction ha with
    | parent hp => exact .parent hp
    | step hp _ ih => exact .step hp ih
  refine ⟨?_, ?_, w.rootParent, ?_, ?_, ?_, ?_, ?_, ?_⟩
  · rw [hw]; exact hal
  · have hrW : r ∉ W := fun hm => w.root_not_mem ((hmem r).1 hm).1
    have : (pruned h r x q W o).ord r = h.ord r := ho r hrW
    rw [this]; exact w.rootOrd
  · intro y hy; rw [hw] at hy; exact w.rootOf y ((hmem y).1 hy).1
  · intro y hy
    rw [hw] at hy
    obtain ⟨hyw, hyx, hya⟩ := (hmem y).1 hy
    obtain ⟨p, hp, hpin⟩ := w.parentIn y hyw
    refine ⟨p, hp, (hin p).2 ?_⟩
    rcases hpin with rfl | hpw
    · exact Or.inl rfl
    · right
      refine (hmem p).2 ⟨hpw, ?_, ?_⟩
      · rintro rfl; exact hya (.parent hp)
      · intro ha; exact hya (.step hp ha)
  · intro y hy
    rw [hw] at hy
    exact hanc (w.reach y ((hmem y).1 hy).1)
  · intro p hp y
    have hpo := hinold p hp
    have hpx : p ≠ x ∧ ¬ Anc h x p := by
      rcases (hin p).1 hp with rfl | hpW
      · exact ⟨hrx, w.not_anc_root⟩
      · exact ((hmem p).1 hpW).2
    have hch : y ∈ (pruned h r x q W o).children p ↔ (y ∈ h.children p ∧ y ≠ x) := by
      by_cases hpq : p = q
      · subst hpq
        have : (pruned h r x p W o).children p = (h.children p).erase x := by simp [pruned]
        rw [this, (w.children_nodup hpo).mem_erase_iff, and_comm]
      · have : (pruned h r x q W o).children p = h.children p := upd_ne _ _ hpq
        rw [this]
        refine ⟨fun hy => ⟨hy, ?_⟩, fun hy => hy.1⟩
        rintro rfl
        have := w.child_parent hpo hy
        rw [hq] at this
        exact hpq (Option.some.inj this).symm
    rw [hch, w.childIff p hpo, hw, hmem]
    constructor
    · rintro ⟨⟨h1, h2⟩, h3⟩
      refine ⟨⟨h1, h3, ?_⟩, h2⟩
      intro ha
      obtain ⟨p', hp', hor⟩ := anc_iff.1 ha
      rw [h2] at hp'
      cases hp'
      rcases hor with rfl | hor
      · exact hpx.1 rfl
      · exact hpx.2 hor
    · rintro ⟨⟨h1, h2, _⟩, h3⟩
      exact ⟨⟨h1, h3⟩, h2⟩
  · intro p hp
    have hpo := hinold p hp
    have hsubl : ((pruned h r x q W o).children p).Sublist (h.children p) := by
      by_cases hpq : p = q
      · subst hpq
        have : (pruned h r x p W o).children p = (h.children p).erase x := by simp [pruned]
        rw [this]; exact List.erase_sublist
      · have : (pruned h r x q W o).children p = h.children p := upd_ne _ _ hpq
        rw [this]; exact List.Sublist.refl _
    have hW : W.Pairwise (fun a b => h.ord a < h.ord b) :=
      (aligned_pairwise w.aligned).sublist hsub
    refine ((w.childSorted p hpo).sublist hsubl).imp_of_mem ?_
    intro a b ha hb hlt
    have hmemW : ∀ c, c ∈ (pruned h r x q W o).children p → c ∈ W := by
      intro c hc
      have hcp := hsubl.subset hc
      refine (hmem c).2 ⟨w.child_mem hpo hcp, ?_, ?_⟩
      · rintro rfl
        have hpar := w.child_parent hpo hcp
        rw [hq] at hpar
        have hqp := Option.some.inj hpar
        subst hqp
        have : (pruned h r c q W o).children q = (h.children q).erase c := by simp [pruned]
        rw [this, (w.children_nodup hpo).mem_erase_iff] at hc
        exact hc.1 rfl
      · intro hanc'
        obtain ⟨p', hp', hor⟩ := anc_iff.1 hanc'
        rw [w.child_parent hpo hcp] at hp'
        cases hp'
        rcases (hin p).1 hp with rfl | hpW
        · rcases hor with h1 | h1
          · exact hrx h1
          · exact w.not_anc_root h1
        · have := ((hmem p).1 hpW).2
          rcases hor with h1 | h1
          · exact this.1 h1
          · exact this.2 h1
    exact pairwise_mono hW (aligned_pairwise hal) (hmemW a ha) (hmemW b hb) hlt
  · intro y hy
    rw [hw] at hy
    exact w.alloc y ((hmem y).1 hy).1

/-- `remove()`: both code paths delete exactly the subtree. -/
theorem remove_plain (w : WF h r) (hr : IsTree h r) (hx : x ∈ h.words r)
    (hq : h.parent x = some q) :
    ∃ W o, remove h x false = (pruned h r x q W o, none) ∧ W.Sublist (h.words r) ∧
      (∀ y, y ∈ W ↔ (y ∈ h.words r ∧ y ≠ x ∧ ¬ Anc h x y)) ∧ Aligned o 1 W ∧
      (∀ y, y ∉ W → o y = h.ord y) := by
  have hmemq := w.mem_children hx hq
  have hqx : x ≠ q := by
    rintro rfl
    exact w.anc_irrefl (Or.inr hx) (.parent hq)
  have hchx : upd h.children q ((h.children q).erase x) x = h.children x := upd_ne _ _ hqx
  have hrootx := w.rootOf x hx
  by_cases hc : h.children x = []
  · have he := erase_renumber w.aligned hx
    refine ⟨(h.words r).erase x, _, ?_, List.erase_sublist, ?_, he.1, he.2⟩
    · simp [remove, hq, hmemq, hchx, hc, hrootx, hx, pruned]
    · intro y
      rw [w.nodup.mem_erase_iff]
      constructor
      · rintro ⟨h1, h2⟩
        refine ⟨h2, h1, ?_⟩
        intro ha
        obtain ⟨c, hca, hor⟩ := anc_child ha
        have hcw : c ∈ h.words r := by
          rcases hor with rfl | hcy
          · exact h2
          · rcases w.anc_in (Or.inr h2) hcy with rfl | hm
            · rw [w.rootParent] at hca; simp at hca
            · exact hm
        have := w.mem_children hcw hca
        rw [hc] at this
        simp at this
      · rintro ⟨h1, h2, _⟩; exact ⟨h2, h1⟩
  · -- the set of kept words, decided classically
    have hdec : ∀ y, Decidable (y ≠ x ∧ ¬ Anc h x y) := fun y => Classical.propDecidable _
    let W := (h.words r).filter (fun y => @decide (y ≠ x ∧ ¬ Anc h x y) (hdec y))
    have hWsub : W.Sublist (h.words r) := List.filter_sublist
    have hWmem : ∀ y, y ∈ W ↔ (y ∈ h.words r ∧ y ≠ x ∧ ¬ Anc h x y) := by
      intro y; simp [W, List.mem_filter]
    have hWn : W.Nodup := hWsub.nodup w.nodup
    have hren := renumber_spec hWn h.ord 1
    have wf := wf_pruned w hx hq hWsub hWmem hren.1 hren.2
    have hu := wf.unorderedDescendants_eq (a := r) hr.1 (Or.inl rfl)
    obtain ⟨ds, hds, hdn, hdm⟩ := hu
    have hdm' : ∀ y, y ∈ ds ↔ y ∈ W := by
      intro y
      rw [hdm]
      have hw : (pruned h r x q W (renumber h.ord 1 W)).words r = W := by simp [pruned]
      rw [hw]
      refine ⟨fun hy => hy.1, fun hy => ⟨hy, ?_⟩⟩
      exact wf.reach y (by rw [hw]; exact hy)
    have hsort : sortNodes h.ord ds = W := by
      apply sorted_ext (ord := h.ord)
      · apply sortNodes_pairwise hdn
        intro a ha b hb e
        exact w.ord_inj (Or.inr ((hWmem a).1 ((hdm' a).1 ha)).1)
          (Or.inr ((hWmem b).1 ((hdm' b).1 hb)).1) e
      · exact (aligned_pairwise w.aligned).sublist hWsub
      · intro y; rw [mem_sortNodes, hdm']
    refine ⟨W, renumber h.ord 1 W, ?_, hWsub, hWmem, hren.1, hren.2⟩
    have hds' : unorderedDescendants
        { h with children := upd h.children q ((h.children q).erase x) } r = some ds := by
      rw [← hds]; apply unorderedDescendants_congr <;> rfl
    simp [remove, hq, hmemq, hchx, hc, hrootx, hds', hsort, pruned]

end Plain

section Rehang
variable {h : Heap} {r x q : Nat}

/-- The heap after deleting `x`, a child of `q`, and moving its children to `q`. -/
def spliced (h : Heap) (r x q : Nat) (o : Nat → Nat) : Heap :=
  { h with
    parent := fun y => if y ∈ h.children x then some q else h.parent y
    children := upd (upd h.children q (sortNodes h.ord ((h.children q).erase x ++ h.children x))) x []
    words := upd h.words r ((h.words r).erase x)
    ord := o }

theorem remove_rehang (w : WF h r) (hx : x ∈ h.words r) (hq : h.parent x = some q) :
    ∃ o, remove h x true = (spliced h r x q o, none) ∧ Aligned o 1 ((h.words r).erase x) ∧
      (∀ y, y ∉ (h.words r).erase x → o y = h.ord y) := by
  have hmemq := w.mem_children hx hq
  have hqin := w.parent_in hx hq
  have hqx : x ≠ q := by
    rintro rfl
    exact w.anc_irrefl (Or.inr hx) (.parent hq)
  have hchx : upd h.children q ((h.children q).erase x) x = h.children x := upd_ne _ _ hqx
  have hrootx := w.rootOf x hx
  have he := erase_renumber w.aligned hx
  refine ⟨_, ?_, he.1, he.2⟩
  by_cases hc : h.children x = []
  · have h1 : sortNodes h.ord ((h.children q).erase x) = (h.children q).erase x :=
      sortNodes_of_sorted ((w.childSorted q hqin).sublist List.erase_sublist)
    have h2 : upd (upd h.children q ((h.children q).erase x)) x [] =
        upd h.children q ((h.children q).erase x) := by
      funext y
      by_cases hy : y = x
      · subst hy; simp [hchx, hc]
      · exact upd_ne _ _ hy
    simp [remove, hq, hmemq, hchx, hc, hrootx, hx, spliced, h1, h2]
  · have hsp : setParents h.parent (some q) (h.children x) =
        fun y => if y ∈ h.children x then some q else h.parent y := by
      funext y; exact setParents_eq ..
    have h3 : upd (upd h.children q ((h.children q).erase x)) q
        (sortNodes h.ord ((h.children q).erase x ++ h.children x)) =
        upd h.children q (sortNodes h.ord ((h.children q).erase x ++ h.children x)) := by
      funext y
      by_cases hy : y = q
      · subst hy; simp
      · simp [upd, hy]
    simp [remove, hq, hmemq, hchx, hc, hrootx, hx, spliced, hsp, h3]

theorem wf_spliced (w : WF h r) (hx : x ∈ h.words r) (hq : h.parent x = some q) {o : Nat → Nat}
    (hal : Aligned o 1 ((h.words r).erase x))
    (ho : ∀ y, y ∉ (h.words r).erase x → o y = h.ord y) : WF (spliced h r x q o) r := by
  have hw : (spliced h r x q o).words r = (h.words r).erase x := by simp [spliced]
  have hmem : ∀ y, y ∈ (h.words r).erase x ↔ (y ∈ h.words r ∧ y ≠ x) := by
    intro y; rw [w.nodup.mem_erase_iff, and_comm]
  have hqin := w.parent_in hx hq
  have hrx : r ≠ x := fun e => w.root_not_mem (e ▸ hx)
  have hqx : q ≠ x := by
    rintro rfl
    exact w.anc_irrefl (Or.inr hx) (.parent hq)
  have hin : ∀ y, InTree (spliced h r x q o) r y ↔ (InTree h r y ∧ y ≠ x) := by
    intro y; unfold InTree; rw [hw, hmem]
    constructor
    · rintro (rfl | ⟨h1, h2⟩)
      · exact ⟨Or.inl rfl, hrx⟩
      · exact ⟨Or.inr h1, h2⟩
    · rintro ⟨rfl | h1, h2⟩
      · exact Or.inl rfl
      · exact Or.inr ⟨h1, h2⟩
  have hcx : ∀ y, y ∈ h.children x ↔ (y ∈ h.words r ∧ h.parent y = some x) :=
    w.childIff x (Or.inr hx)
  have hpar : ∀ y, (spliced h r x q o).parent y =
      if y ∈ h.children x then some q else h.parent y := fun _ => rfl
  have hreach : ∀ y, InTree h r y →
      (y ≠ x → y = r ∨ Anc (spliced h r x q o) r y) ∧
      (y = x → q = r ∨ Anc (spliced h r x q o) r q) := by
    apply w.induct
    · exact ⟨fun _ => Or.inl rfl, fun e => absurd e hrx⟩
    · intro y z hy hz hzin ih
      refine ⟨fun hyx => ?_, ?_⟩
      · right
        by_cases hzx : z = x
        · subst hzx
          have hp' : (spliced h r z q o).parent y = some q := by
            rw [hpar, if_pos ((hcx y).2 ⟨hy, hz⟩)]
          rcases ih.2 rfl with rfl | ha
          · exact .parent hp'
          · exact .step hp' ha
        · have hp' : (spliced h r x q o).parent y = some z := by
            rw [hpar, if_neg, hz]
            rw [hcx, hz]
            rintro ⟨_, h2⟩
            exact hzx (Option.some.inj h2)
          rcases ih.1 hzx with rfl | ha
          · exact .parent hp'
          · exact .step hp' ha
      · rintro rfl
        rw [hq] at hz
        cases hz
        exact ih.1 hqx
  have hqch : ∀ y, y ∈ sortNodes h.ord ((h.children q).erase x ++ h.children x) ↔
      ((y ∈ h.children q ∧ y ≠ x) ∨ y ∈ h.children x) := by
    intro y
    rw [mem_sortNodes, List.mem_append, (w.children_nodup hqin).mem_erase_iff]
    simp [and_comm]
  refine ⟨?_, ?_, ?_, ?_, ?_, ?_, ?_, ?_, ?_⟩
  · rw [hw]; exact hal
  · have hrW : r ∉ (h.words r).erase x := fun hm => w.root_not_mem ((hmem r).1 hm).1
    have : (spliced h r x q o).ord r = h.ord r := ho r hrW
    rw [this]; exact w.rootOrd
  · rw [hpar, if_neg, w.rootParent]
    intro hm; exact w.root_not_mem ((hcx r).1 hm).1
  · intro y hy; rw [hw] at hy; exact w.rootOf y ((hmem y).1 hy).1
  · intro y hy
    rw [hw, hmem] at hy
    rw [hpar]
    split
    · exact ⟨q, rfl, (hin q).2 ⟨hqin, hqx⟩⟩
    · rename_i hnot
      obtain ⟨p, hp, hpin⟩ := w.parentIn y hy.1
      refine ⟨p, hp, (hin p).2 ⟨hpin, ?_⟩⟩
      rintro rfl
      exact hnot ((hcx y).2 ⟨hy.1, hp⟩)
  · intro y hy
    rw [hw, hmem] at hy
    rcases (hreach y (Or.inr hy.1)).1 hy.2 with rfl | ha
    · exact absurd hy.1 w.root_not_mem
    · exact ha
  · intro p hp y
    obtain ⟨hpo, hpx⟩ := (hin p).1 hp
    rw [hw, hmem, hpar]
    by_cases hpq : p = q
    · subst hpq
      have hc' : (spliced h r x p o).children p =
          sortNodes h.ord ((h.children p).erase x ++ h.children x) := by
        simp [spliced, upd, hpx]
      rw [hc', hqch, w.childIff p hpo]
      by_cases hyc : y ∈ h.children x
      · have hy := (hcx y).1 hyc
        have hyx : y ≠ x := by
          rintro rfl
          exact w.anc_irrefl (Or.inr hx) (.parent hy.2)
        simp [hyc, hy.1, hyx]
      · simp [hyc]
        constructor
        · rintro ⟨⟨h1, h2⟩, h3⟩; exact ⟨⟨h1, h3⟩, h2⟩
        · rintro ⟨⟨h1, h3⟩, h2⟩; exact ⟨⟨h1, h2⟩, h3⟩
    · have hc' : (spliced h r x q o).children p = h.children p := by
        simp [spliced, upd, hpx, hpq]
      rw [hc', w.childIff p hpo]
      by_cases hyc : y ∈ h.children x
      · have hy := (hcx y).1 hyc
        simp only [hyc, if_true, hy.2]
        constructor
        · rintro ⟨_, h2⟩; exact absurd (Option.some.inj h2).symm hpx
        · rintro ⟨_, h2⟩; exact absurd (Option.some.inj h2).symm hpq
      · simp only [hyc, if_false]
        constructor
        · rintro ⟨h1, h2⟩
          refine ⟨⟨h1, ?_⟩, h2⟩
          rintro rfl
          rw [hq] at h2
          exact hpq (Option.some.inj h2).symm
        · rintro ⟨⟨h1, _⟩, h2⟩; exact ⟨h1, h2⟩
  · intro p hp
    obtain ⟨hpo, hpx⟩ := (hin p).1 hp
    have hW : ((h.words r).erase x).Pairwise (fun a b => h.ord a < h.ord b) :=
      (aligned_pairwise w.aligned).sublist List.erase_sublist
    -- sorted by the old ords, and all members are kept words
    have key : ((spliced h r x q o).children p).Pairwise (fun a b => h.ord a < h.ord b) ∧
        ∀ c ∈ (spliced h r x q o).children p, c ∈ (h.words r).erase x := by
      by_cases hpq : p = q
      · subst hpq
        have hc' : (spliced h r x p o).children p =
            sortNodes h.ord ((h.children p).erase x ++ h.children x) := by
          simp [spliced, upd, hpx]
        rw [hc']
        have hmemw : ∀ c, c ∈ (h.children p).erase x ++ h.children x → c ∈ (h.words r).erase x := by
          intro c hc
          rw [hmem]
          rcases List.mem_append.1 hc with hc | hc
          · rw [(w.children_nodup hqin).mem_erase_iff] at hc
            exact ⟨w.child_mem hqin hc.2, hc.1⟩
          · have := (hcx c).1 hc
            refine ⟨this.1, ?_⟩
            rintro rfl
            exact w.anc_irrefl (Or.inr hx) (.parent this.2)
        refine ⟨?_, fun c hc => hmemw c (mem_sortNodes.1 hc)⟩
        apply sortNodes_pairwise
        · rw [List.nodup_append]
          refine ⟨List.erase_sublist.nodup (w.children_nodup hqin), w.children_nodup (Or.inr hx), ?_⟩
          rintro a ha b hb rfl
          rw [(w.children_nodup hqin).mem_erase_iff] at ha
          have h1 := w.child_parent hqin ha.2
          have h2 := ((hcx a).1 hb).2
          rw [h1] at h2
          exact hpx (Option.some.inj h2)
        · intro a ha b hb e
          exact w.ord_inj (Or.inr ((hmem a).1 (hmemw a ha)).1)
            (Or.inr ((hmem b).1 (hmemw b hb)).1) e
      · have hc' : (spliced h r x q o).children p = h.children p := by
          simp [spliced, upd, hpx, hpq]
        rw [hc']
        refine ⟨w.childSorted p hpo, fun c hc => ?_⟩
        rw [hmem]
        refine ⟨w.child_mem hpo hc, ?_⟩
        rintro rfl
        have := w.child_parent hpo hc
        rw [hq] at this
        exact hpq (Option.some.inj this).symm
    exact key.1.imp_of_mem (fun {a b} ha hb hlt =>
      pairwise_mono hW (aligned_pairwise hal) (key.2 a ha) (key.2 b hb) hlt)
  · intro y hy
    rw [hw, hmem] at hy
    exact w.alloc y hy.1

end Rehang

theorem inv_remove {h : Heap} {r x : Nat} (hi : Inv h) (hr : IsTree h r) (hx : x ∈ h.words r)
    (b : Bool) : Inv (remove h x b).1 := by
  have w := hi r hr
  obtain ⟨q, hq, hqin⟩ := w.parentIn x hx
  -- other trees are not touched
  have hdis : ∀ r', IsTree h r' → r' ≠ r → ∀ y, InTree h r' y → ∀ z, InTree h r z → y ≠ z := by
    rintro r' hr' hne y hy z hz rfl
    have h1 := inTree_root (hi r' hr') hr' hy
    have h2 := inTree_root w hr hz
    omega
  cases b with
  | false =>
    obtain ⟨W, o, he, hsub, hmem, hal, ho⟩ := remove_plain w hr hx hq
    rw [he]
    intro r' hr'
    have hr'' : IsTree h r' := hr'
    by_cases hrr : r' = r
    · subst hrr; exact wf_pruned w hx hq hsub hmem hal ho
    · have hd := hdis r' hr'' hrr
      refine (hi r' hr'').congr (Nat.le_refl _) (upd_ne _ _ hrr) ?_ ?_ ?_ ?_
      · intro y _; rfl
      · intro y hy; exact upd_ne _ _ (hd y hy q hqin)
      · intro y hy
        apply ho
        intro hm
        exact hd y hy y (Or.inr ((hmem y).1 hm).1) rfl
      · intro y _; rfl
  | true =>
    obtain ⟨o, he, hal, ho⟩ := remove_rehang w hx hq
    rw [he]
    intro r' hr'
    have hr'' : IsTree h r' := hr'
    by_cases hrr : r' = r
    · subst hrr; exact wf_spliced w hx hq hal ho
    · have hd := hdis r' hr'' hrr
      refine (hi r' hr'').congr (Nat.le_refl _) (upd_ne _ _ hrr) ?_ ?_ ?_ ?_
      · intro y hy
        have : y ∉ h.children x := fun hm => hd y hy y (Or.inr (w.child_mem (Or.inr hx) hm)) rfl
        simp [spliced, this]
      · intro y hy
        simp [spliced, upd, hd y hy q hqin, hd y hy x (Or.inr hx)]
      · intro y hy
        apply ho
        intro hm
        exact hd y hy y (Or.inr (List.mem_of_mem_erase hm)) rfl
      · intro y _; rfl

end Verif.Tree
