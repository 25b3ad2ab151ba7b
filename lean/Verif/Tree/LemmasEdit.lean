import Verif.Tree.LemmasDesc

/-! # New trees, new words, re-attachment, flattening -/

namespace Verif.Tree
open Verif.Py

theorem inTree_root {h : Heap} {r x : Nat} (w : WF h r) (hr : IsTree h r) (hx : InTree h r x) :
    h.root x = r := by
  rcases hx with rfl | hx
  · exact hr.2
  · exact w.rootOf x hx

theorem inTree_lt {h : Heap} {r x : Nat} (w : WF h r) (hr : IsTree h r) (hx : InTree h r x) :
    x < h.next := by
  rcases hx with rfl | hx
  · exact hr.1
  · exact w.alloc x hx

/-- Ancestors within a tree do not change if parents within the tree do not. -/
theorem anc_congr {h h' : Heap} {r : Nat} (w : WF h r)
    (hp : ∀ x, InTree h r x → h'.parent x = h.parent x) {a x : Nat} (hx : InTree h r x)
    (ha : Anc h a x) : Anc h' a x := by
  induction ha with
  | parent hpar => exact .parent (by rw [hp _ hx, hpar])
  | step hpar _ ih =>
    refine .step (by rw [hp _ hx, hpar]) (ih ?_)
    rcases hx with rfl | hx
    · rw [w.rootParent] at hpar; simp at hpar
    · exact w.parent_in hx hpar

/-- A tree that is not touched stays well formed. -/
theorem WF.congr {h h' : Heap} {r : Nat} (w : WF h r) (hn : h.next ≤ h'.next)
    (hw : h'.words r = h.words r) (hp : ∀ x, InTree h r x → h'.parent x = h.parent x)
    (hc : ∀ x, InTree h r x → h'.children x = h.children x)
    (ho : ∀ x, InTree h r x → h'.ord x = h.ord x)
    (hro : ∀ x, InTree h r x → h'.root x = h.root x) : WF h' r := by
  have hin : ∀ x, InTree h' r x ↔ InTree h r x := by intro x; unfold InTree; rw [hw]
  refine ⟨?_, ?_, ?_, ?_, ?_, ?_, ?_, ?_, ?_⟩
  · rw [hw, List.map_congr_left (fun x hx => ho x (Or.inr hx))]; exact w.ords
  · rw [ho r (Or.inl rfl)]; exact w.rootOrd
  · rw [hp r (Or.inl rfl)]; exact w.rootParent
  · intro x hx; rw [hw] at hx; rw [hro x (Or.inr hx)]; exact w.rootOf x hx
  · intro x hx
    rw [hw] at hx
    obtain ⟨p, h1, h2⟩ := w.parentIn x hx
    exact ⟨p, by rw [hp x (Or.inr hx), h1], (hin p).2 h2⟩
  · intro x hx
    rw [hw] at hx
    exact anc_congr w hp (Or.inr hx) (w.reach x hx)
  · intro p hpin x
    rw [hin] at hpin
    rw [hc p hpin, w.childIff p hpin x, hw]
    constructor
    · rintro ⟨h1, h2⟩; exact ⟨h1, by rw [hp x (Or.inr h1), h2]⟩
    · rintro ⟨h1, h2⟩; exact ⟨h1, by rw [hp x (Or.inr h1)] at h2; exact h2⟩
  · intro p hpin
    rw [hin] at hpin
    rw [hc p hpin]
    refine (w.childSorted p hpin).imp_of_mem ?_
    intro x y hx hy hlt
    rw [ho x (Or.inr (w.child_mem hpin hx)), ho y (Or.inr (w.child_mem hpin hy))]
    exact hlt
  · intro x hx; rw [hw] at hx; have := w.alloc x hx; omega

/-! ## `Root()` -/

theorem inv_newTree {h : Heap} (hi : Inv h) : Inv (newTree h) := by
  intro r hr
  by_cases hrn : r = h.next
  · subst hrn
    have hw : (newTree h).words h.next = [] := by simp [newTree]
    have hc : (newTree h).children h.next = [] := by simp [newTree]
    have hin : ∀ p, InTree (newTree h) h.next p → p = h.next := by
      rintro p (rfl | hp)
      · rfl
      · rw [hw] at hp; simp at hp
    refine ⟨?_, ?_, ?_, ?_, ?_, ?_, ?_, ?_, ?_⟩
    · simp [hw]
    · simp [newTree]
    · simp [newTree]
    · rw [hw]; simp
    · rw [hw]; simp
    · rw [hw]; simp
    · intro p hp x; rw [hin p hp, hc, hw]; simp
    · intro p hp; rw [hin p hp, hc]; simp
    · rw [hw]; simp
  · have hr' : IsTree h r := by
      obtain ⟨h1, h2⟩ := hr
      simp only [newTree] at h1
      rw [show (newTree h).root r = h.root r from upd_ne _ _ hrn] at h2
      exact ⟨by omega, h2⟩
    have w := hi r hr'
    have hne : ∀ x, InTree h r x → x ≠ h.next := by
      intro x hx; have := inTree_lt w hr' hx; omega
    refine w.congr (by simp [newTree]) (upd_ne _ _ hrn) ?_ ?_ ?_ ?_
    · intro x hx; exact upd_ne _ _ (hne x hx)
    · intro x hx; exact upd_ne _ _ (hne x hx)
    · intro x hx; exact upd_ne _ _ (hne x hx)
    · intro x hx; exact upd_ne _ _ (hne x hx)

/-! ## `create_child` -/

section CreateChild
variable {h : Heap} {r x : Nat}

theorem createChild_words (hx : h.root x = r) :
    (createChild h x).words r = h.words r ++ [h.next] := by simp [createChild, hx]

theorem createChild_parent_old {y : Nat} (hy : y ≠ h.next) :
    (createChild h x).parent y = h.parent y := upd_ne _ _ hy

theorem createChild_children_old {y : Nat} (hy : y ≠ h.next) (hyx : y ≠ x) :
    (createChild h x).children y = h.children y := by
  simp [createChild, upd, hy, hyx]

theorem createChild_children_parent :
    (createChild h x).children x = h.children x ++ [h.next] := by simp [createChild]

theorem createChild_children_new (hx : x ≠ h.next) :
    (createChild h x).children h.next = [] := by
  simp [createChild, upd, Ne.symm hx]

theorem createChild_ord_old {y : Nat} (hy : y ≠ h.next) :
    (createChild h x).ord y = h.ord y := upd_ne _ _ hy

theorem wf_createChild (w : WF h r) (hr : IsTree h r) (hx : InTree h r x) :
    WF (createChild h x) r := by
  have hroot := inTree_root w hr hx
  have hlt : ∀ y, InTree h r y → y ≠ h.next := by
    intro y hy; have := inTree_lt w hr hy; omega
  have hwords := createChild_words (h := h) hroot
  have hordn : (createChild h x).ord h.next = (h.words r).length + 1 := by
    simp [createChild, hroot]
  have hin : ∀ y, InTree (createChild h x) r y ↔ (InTree h r y ∨ y = h.next) := by
    intro y; unfold InTree; rw [hwords]; simp [or_assoc]
  have hpn : (createChild h x).parent h.next = some x := by simp [createChild]
  have hold : ∀ y, InTree h r y → (createChild h x).parent y = h.parent y :=
    fun y hy => createChild_parent_old (hlt y hy)
  refine ⟨?_, ?_, ?_, ?_, ?_, ?_, ?_, ?_, ?_⟩
  · rw [hwords]
    refine (aligned_append (f := (createChild h x).ord)).2 ⟨?_, ?_⟩
    · exact (aligned_congr (fun y hy => createChild_ord_old (hlt y (Or.inr hy)))).2 w.aligned
    · rw [aligned_cons]; exact ⟨by rw [hordn]; omega, aligned_nil _ _⟩
  · rw [createChild_ord_old (hlt r (Or.inl rfl))]; exact w.rootOrd
  · rw [hold r (Or.inl rfl)]; exact w.rootParent
  · intro y hy
    rw [hwords] at hy
    rcases List.mem_append.1 hy with hy | hy
    · rw [show (createChild h x).root y = h.root y from upd_ne _ _ (hlt y (Or.inr hy))]
      exact w.rootOf y hy
    · simp at hy; subst hy; simp [createChild, hroot]
  · intro y hy
    rw [hwords] at hy
    rcases List.mem_append.1 hy with hy | hy
    · obtain ⟨p, h1, h2⟩ := w.parentIn y hy
      exact ⟨p, by rw [hold y (Or.inr hy), h1], (hin p).2 (Or.inl h2)⟩
    · simp at hy; subst hy; exact ⟨x, hpn, (hin x).2 (Or.inl hx)⟩
  · intro y hy
    rw [hwords] at hy
    have hanc : ∀ y, InTree h r y → y ≠ r → Anc (createChild h x) r y := by
      rintro y (rfl | hy) hne
      · exact absurd rfl hne
      · exact anc_congr w hold (Or.inr hy) (w.reach y hy)
    rcases List.mem_append.1 hy with hy | hy
    · exact hanc y (Or.inr hy) (fun e => w.root_not_mem (e ▸ hy))
    · simp at hy
      subst hy
      by_cases hxr : x = r
      · exact .parent (hxr ▸ hpn)
      · exact .step hpn (hanc x hx hxr)
  · intro p hp y
    have hxn := hlt x hx
    rcases (hin p).1 hp with hp | rfl
    · have hpn' := hlt p hp
      have hch : y ∈ (createChild h x).children p ↔
          y ∈ h.children p ∨ (p = x ∧ y = h.next) := by
        by_cases hpx : p = x
        · subst hpx; rw [createChild_children_parent]; simp
        · rw [createChild_children_old hpn' hpx]; simp [hpx]
      rw [hch, w.childIff p hp y, hwords, List.mem_append, List.mem_singleton]
      constructor
      · rintro (⟨h1, h2⟩ | ⟨rfl, rfl⟩)
        · exact ⟨Or.inl h1, by rw [hold y (Or.inr h1), h2]⟩
        · exact ⟨Or.inr rfl, hpn⟩
      · rintro ⟨h1 | rfl, h2⟩
        · rw [hold y (Or.inr h1)] at h2; exact Or.inl ⟨h1, h2⟩
        · rw [hpn] at h2; exact Or.inr ⟨(Option.some.inj h2).symm, rfl⟩
    · rw [createChild_children_new hxn, hwords]
      simp only [List.not_mem_nil, List.mem_append, List.mem_singleton, false_iff, not_and]
      rintro (h1 | rfl) h2
      · rw [hold y (Or.inr h1)] at h2
        exact hlt _ (w.parent_in h1 h2) rfl
      · rw [hpn] at h2; exact hxn (Option.some.inj h2)
  · intro p hp
    have hxn := hlt x hx
    rcases (hin p).1 hp with hp' | rfl
    · clear hp
      have hp := hp'
      have hso : (h.children p).Pairwise
          (fun a b => (createChild h x).ord a < (createChild h x).ord b) := by
        refine (w.childSorted p hp).imp_of_mem ?_
        intro a b ha hb hab
        rw [createChild_ord_old (hlt a (Or.inr (w.child_mem hp ha))),
          createChild_ord_old (hlt b (Or.inr (w.child_mem hp hb)))]
        exact hab
      by_cases hpx : p = x
      · subst hpx
        rw [createChild_children_parent, List.pairwise_append]
        refine ⟨hso, by simp, ?_⟩
        intro a ha b hb
        simp at hb
        subst hb
        have haw := w.child_mem hp ha
        rw [createChild_ord_old (hlt a (Or.inr haw)), hordn]
        have := w.ord_le haw
        omega
      · rw [createChild_children_old (hlt p hp) hpx]; exact hso
    · rw [createChild_children_new hxn]; simp
  · intro y hy
    rw [hwords] at hy
    simp only [createChild]
    rcases List.mem_append.1 hy with hy | hy
    · have := w.alloc y hy; omega
    · simp at hy; omega

theorem isTree_createChild (w : WF h r) (hr : IsTree h r) (hx : InTree h r x) (r' : Nat) :
    IsTree (createChild h x) r' ↔ IsTree h r' := by
  have hroot := inTree_root w hr hx
  unfold IsTree
  by_cases hn : r' = h.next
  · subst hn
    have : (createChild h x).root h.next = r := by simp [createChild, hroot]
    rw [this]
    have := hr.1
    constructor
    · rintro ⟨_, h2⟩; omega
    · rintro ⟨h1, _⟩; omega
  · rw [show (createChild h x).root r' = h.root r' from upd_ne _ _ hn]
    simp only [createChild]
    constructor
    · rintro ⟨h1, h2⟩; exact ⟨by omega, h2⟩
    · rintro ⟨h1, h2⟩; exact ⟨by omega, h2⟩

theorem inv_createChild (hi : Inv h) (hr : IsTree h r) (hx : InTree h r x) :
    Inv (createChild h x) := by
  have w := hi r hr
  have hroot := inTree_root w hr hx
  intro r' hr'
  rw [isTree_createChild w hr hx] at hr'
  by_cases hrr : r' = r
  · subst hrr; exact wf_createChild w hr hx
  · have w' := hi r' hr'
    have hne : ∀ y, InTree h r' y → y ≠ h.next := by
      intro y hy; have := inTree_lt w' hr' hy; omega
    have hnx : ∀ y, InTree h r' y → y ≠ x := by
      rintro y hy rfl
      have := inTree_root w' hr' hy
      omega
    refine w'.congr (by simp [createChild]) ?_ ?_ ?_ ?_ ?_
    · exact upd_ne _ _ (by rw [hroot]; exact hrr)
    · intro y hy; exact createChild_parent_old (hne y hy)
    · intro y hy; exact createChild_children_old (hne y hy) (hnx y hy)
    · intro y hy; exact createChild_ord_old (hne y hy)
    · intro y hy; exact upd_ne _ _ (hne y hy)

end CreateChild

/-! ## The `parent` setter -/

theorem addChild_spec {ord : Nat → Nat} {l : List Nat} {x : Nat}
    (hl : l.Pairwise (fun a b => ord a < ord b)) (hx : ∀ y ∈ l, ord y ≠ ord x) :
    (addChild ord l x).Pairwise (fun a b => ord a < ord b) ∧
      ∀ y, y ∈ addChild ord l x ↔ (y ∈ l ∨ y = x) := by
  have hxl : x ∉ l := fun hm => hx x hm rfl
  have hsort : (sortNodes ord (l ++ [x])).Pairwise (fun a b => ord a < ord b) := by
    apply sortNodes_pairwise
    · rw [List.nodup_append]
      refine ⟨pairwise_ord_nodup hl, by simp, ?_⟩
      rintro a ha b hb rfl
      simp at hb
      exact hxl (hb ▸ ha)
    · intro a ha b hb e
      rcases List.mem_append.1 ha with ha' | ha' <;> rcases List.mem_append.1 hb with hb' | hb'
      · exact pairwise_ord_inj hl ha' hb' e
      · simp at hb'; subst hb'; exact absurd e (hx a ha')
      · simp at ha'; subst ha'; exact absurd e.symm (hx b hb')
      · simp at ha' hb'; rw [ha', hb']
  unfold addChild
  rcases List.eq_nil_or_concat l with rfl | ⟨m, y, rfl⟩
  · simp
  · simp only [List.concat_eq_append, List.getLast?_append, List.getLast?_singleton,
      Option.some_or]
    simp only [List.concat_eq_append] at hl hx hxl hsort
    split
    · rename_i hgt
      simp only [nodeGt, Bool.and_eq_true, Bool.not_eq_true', decide_eq_false_iff_not,
        decide_eq_true_eq] at hgt
      refine ⟨?_, fun z => by simp [or_assoc]⟩
      rw [List.pairwise_append]
      refine ⟨hl, by simp, ?_⟩
      intro a ha b hb
      simp at hb
      subst hb
      have h1 := hx y (by simp)
      rcases List.mem_append.1 ha with ham | ham
      · have := (List.pairwise_append.1 hl).2.2 a ham y (by simp)
        omega
      · simp at ham; subst ham; omega
    · exact ⟨hsort, fun z => by rw [mem_sortNodes]; simp [or_assoc]⟩

/-- The heap after moving `x` from `q` to `p`. -/
def reattach (h : Heap) (x q p : Nat) : Heap :=
  { h with
    parent := upd h.parent x (some p)
    children := upd (upd h.children q ((h.children q).erase x)) p
      (addChild h.ord (upd h.children q ((h.children q).erase x) p) x) }

section SetParent
variable {h : Heap} {r x p : Nat}

theorem setParent_same (w : WF h r) (hx : x ∈ h.words r) {np : Option Nat}
    (he : h.parent x = np) : setParent h x np = (h, none) := by
  simp [setParent, w.not_root hx, he]

theorem setParent_cycle (w : WF h r) (hr : IsTree h r) (hx : x ∈ h.words r) (hp : InTree h r p)
    (hc : p = x ∨ Anc h x p) : setParent h x (some p) = (h, some .cycleError) := by
  have hne : h.parent x ≠ some p := by
    intro he
    rcases hc with rfl | hc
    · exact w.anc_irrefl hp (.parent he)
    · exact w.anc_irrefl hp ((Anc.parent he).trans hc)
  by_cases hxp : x = p
  · subst hxp; simp [setParent, w.not_root hx, hne]
  · have hanc : Anc h x p := by
      rcases hc with rfl | hc
      · exact absurd rfl hxp
      · exact hc
    obtain ⟨b, hb, hiff⟩ := w.isDescendantOf_eq hr hp (Or.inr hx)
    rw [hiff.2 hanc] at hb
    have hch : h.children x ≠ [] := by
      obtain ⟨c, hc, hor⟩ := anc_child hanc
      have hcw : c ∈ h.words r := by
        have hcin : InTree h r c := by
          rcases hor with rfl | hcp
          · exact hp
          · exact w.anc_in hp hcp
        rcases hcin with rfl | hm
        · rw [w.rootParent] at hc; simp at hc
        · exact hm
      have := w.mem_children hcw hc
      intro he; rw [he] at this; simp at this
    simp [setParent, w.not_root hx, hne, hxp, hch, hb]

theorem setParent_ok (w : WF h r) (hr : IsTree h r) (hx : x ∈ h.words r) (hp : InTree h r p)
    {q : Nat} (hq : h.parent x = some q) (hne : q ≠ p) (hxp : p ≠ x) (hc : ¬ Anc h x p) :
    setParent h x (some p) = (reattach h x q p, none) := by
  have hne' : h.parent x ≠ some p := by rw [hq]; simpa using hne
  have hmem := w.mem_children hx hq
  have hqr := inTree_root w hr (w.parent_in hx hq)
  have hpr := inTree_root w hr hp
  obtain ⟨b, hb, hiff⟩ := w.isDescendantOf_eq hr hp (Or.inr hx)
  have hbf : b = false := by
    cases b
    · rfl
    · exact absurd (hiff.1 rfl) hc
  subst hbf
  have hm : (if h.children x = [] then some false else isDescendantOf h p x) = some false := by
    split
    · rfl
    · exact hb
  have hxp' : (x = p) = False := by simp [Ne.symm hxp]
  simp only [setParent, w.not_root hx, Bool.false_eq_true, if_false, hxp', hm, hq]
  simp [hne, hmem, hqr, hpr, reattach]

/-- Membership in the child lists after a re-attachment. -/
theorem reattach_children (w : WF h r) (hx : x ∈ h.words r) (hp : InTree h r p) {q : Nat}
    (hq : h.parent x = some q) (hne : q ≠ p) {c : Nat} (hc : InTree h r c) :
    ((reattach h x q p).children c).Pairwise (fun a b => h.ord a < h.ord b) ∧
    ∀ y, y ∈ (reattach h x q p).children c ↔
      (y ∈ h.words r ∧ (reattach h x q p).parent y = some c) := by
  have hqin := w.parent_in hx hq
  have hpc : upd h.children q ((h.children q).erase x) p = h.children p := upd_ne _ _ (Ne.symm hne)
  have hadd := addChild_spec (ord := h.ord) (x := x) (w.childSorted p hp) (by
    intro y hy e
    have hyx := w.ord_inj (Or.inr (w.child_mem hp hy)) (Or.inr hx) e
    subst hyx
    have := w.child_parent hp hy
    rw [hq] at this
    exact hne (Option.some.inj this))
  by_cases hcp : c = p
  · subst hcp
    have he : (reattach h x q c).children c = addChild h.ord (h.children c) x := by
      simp [reattach, hpc]
    rw [he]
    refine ⟨hadd.1, fun y => ?_⟩
    rw [hadd.2, w.childIff c hp]
    by_cases hyx : y = x
    · subst hyx; simp [reattach, hx]
    · simp [reattach, upd, hyx]
  · by_cases hcq : c = q
    · subst hcq
      have he : (reattach h x c p).children c = (h.children c).erase x := by
        simp [reattach, upd, hcp]
      rw [he]
      refine ⟨(w.childSorted c hc).sublist List.erase_sublist, fun y => ?_⟩
      rw [(w.children_nodup hc).mem_erase_iff, w.childIff c hc]
      by_cases hyx : y = x
      · subst hyx; simp [reattach, Ne.symm hcp]
      · simp [reattach, upd, hyx]
    · have he : (reattach h x q p).children c = h.children c := by
        simp [reattach, upd, hcp, hcq]
      rw [he]
      refine ⟨w.childSorted c hc, fun y => ?_⟩
      rw [w.childIff c hc]
      by_cases hyx : y = x
      · subst hyx; simp [reattach, hq, Ne.symm hcp, Ne.symm hcq]
      · simp [reattach, upd, hyx]

theorem wf_reattach (w : WF h r) (hx : x ∈ h.words r) (hp : InTree h r p) {q : Nat}
    (hq : h.parent x = some q) (hne : q ≠ p) (hxp : p ≠ x) (hc : ¬ Anc h x p) :
    WF (reattach h x q p) r := by
  have hpar : ∀ y, y ≠ x → (reattach h x q p).parent y = h.parent y := fun y hy => upd_ne _ _ hy
  have hpx : (reattach h x q p).parent x = some p := by simp [reattach]
  have hrx : r ≠ x := fun e => w.root_not_mem (e ▸ hx)
  -- nodes outside the subtree of `x` keep their ancestors
  have hout : ∀ y, InTree h r y → y ≠ x → ¬ Anc h x y → y = r ∨ Anc (reattach h x q p) r y := by
    apply w.induct
    · intros; exact Or.inl rfl
    · intro y z hy hz hzin ih hyx hanc
      right
      have hzx : z ≠ x := fun e => hanc (.parent (e ▸ hz))
      have hza : ¬ Anc h x z := fun e => hanc (.step hz e)
      have hz' : (reattach h x q p).parent y = some z := by rw [hpar y hyx, hz]
      rcases ih hzx hza with rfl | ih
      · exact .parent hz'
      · exact .step hz' ih
  have hall : ∀ y, InTree h r y → y = r ∨ Anc (reattach h x q p) r y := by
    apply w.induct
    · exact Or.inl rfl
    · intro y z hy hz hzin ih
      by_cases hyx : y = x
      · subst hyx
        right
        rcases hout p hp hxp hc with rfl | ha
        · exact .parent hpx
        · exact .step hpx ha
      · right
        have hz' : (reattach h x q p).parent y = some z := by rw [hpar y hyx, hz]
        rcases ih with rfl | ih
        · exact .parent hz'
        · exact .step hz' ih
  refine ⟨w.ords, w.rootOrd, ?_, w.rootOf, ?_, ?_, ?_, ?_, w.alloc⟩
  · rw [hpar r hrx]; exact w.rootParent
  · intro y hy
    by_cases hyx : y = x
    · subst hyx; exact ⟨p, hpx, hp⟩
    · rw [hpar y hyx]; exact w.parentIn y hy
  · intro y hy
    rcases hall y (Or.inr hy) with rfl | ha
    · exact absurd hy w.root_not_mem
    · exact ha
  · intro c hcin y; exact (reattach_children w hx hp hq hne hcin).2 y
  · intro c hcin; exact (reattach_children w hx hp hq hne hcin).1

theorem inv_reattach (hi : Inv h) (hr : IsTree h r) (hx : x ∈ h.words r) (hp : InTree h r p) {q : Nat}
    (hq : h.parent x = some q) (hne : q ≠ p) (hxp : p ≠ x) (hc : ¬ Anc h x p) :
    Inv (reattach h x q p) := by
  have w := hi r hr
  intro r' hr'
  have hr'' : IsTree h r' := hr'
  by_cases hrr : r' = r
  · subst hrr; exact wf_reattach w hx hp hq hne hxp hc
  · have w' := hi r' hr''
    have hdis : ∀ y z, InTree h r' y → InTree h r z → y ≠ z := by
      rintro y z hy hz rfl
      have h1 := inTree_root w' hr'' hy
      have h2 := inTree_root w hr hz
      omega
    refine w'.congr (Nat.le_refl _) rfl ?_ ?_ ?_ ?_
    · intro y hy; exact upd_ne _ _ (hdis y x hy (Or.inr hx))
    · intro y hy
      simp [reattach, upd, hdis y p hy hp, hdis y q hy (w.parent_in hx hq)]
    · intro y _; rfl
    · intro y _; rfl

theorem inv_setParent_some (hi : Inv h) (hr : IsTree h r) (hx : InTree h r x) (hp : InTree h r p) :
    Inv (setParent h x (some p)).1 := by
  have w := hi r hr
  rcases hx with rfl | hx
  · have : isRoot h x = true := by simp [isRoot, hr.2]
    simp only [setParent, this, if_true]; exact hi
  · obtain ⟨q, hq, _⟩ := w.parentIn x hx
    by_cases hqp : q = p
    · rw [setParent_same w hx (hqp ▸ hq)]; exact hi
    · by_cases hc : p = x ∨ Anc h x p
      · rw [setParent_cycle w hr hx hp hc]; exact hi
      · have h1 : p ≠ x := fun e => hc (Or.inl e)
        have h2 : ¬ Anc h x p := fun e => hc (Or.inr e)
        rw [setParent_ok w hr hx hp hq hqp h1 h2]
        exact inv_reattach hi hr hx hp hq hqp h1 h2

theorem setParent_none (w : WF h r) (hx : x ∈ h.words r) :
    setParent h x none = (h, some .valueError) := by
  obtain ⟨q, hq, _⟩ := w.parentIn x hx
  simp [setParent, w.not_root hx, hq]

theorem setParent_root (hr : IsTree h r) (np : Option Nat) :
    setParent h r np = (h, some .attributeError) := by
  have : isRoot h r = true := by simp [isRoot, hr.2]
  simp [setParent, this]

theorem inv_setParent_none (hi : Inv h) (hr : IsTree h r) (hx : InTree h r x) :
    Inv (setParent h x none).1 := by
  rcases hx with rfl | hx
  · rw [setParent_root hr]; exact hi
  · rw [setParent_none (hi r hr) hx]; exact hi

end SetParent

/-! ## `flatten` -/

theorem wf_flatten {h : Heap} {r : Nat} (w : WF h r) : WF (flatten h r) r := by
  have hpar : ∀ x, x ∈ h.words r → (flatten h r).parent x = some r := by
    intro x hx; simp [flatten, hx]
  refine ⟨w.ords, w.rootOrd, ?_, w.rootOf, ?_, ?_, ?_, ?_, w.alloc⟩
  · simp [flatten, w.root_not_mem, w.rootParent]
  · intro x hx; exact ⟨r, hpar x hx, Or.inl rfl⟩
  · intro x hx; exact .parent (hpar x hx)
  · rintro p (rfl | hp) x
    · have hc : (flatten h p).children p = h.words p := by simp [flatten, w.root_not_mem]
      rw [hc]
      exact ⟨fun hx => ⟨hx, hpar x hx⟩, fun hx => hx.1⟩
    · have hc : (flatten h r).children p = [] := by
        have : p ∈ h.words r := hp
        simp [flatten, this]
      rw [hc]
      simp only [List.not_mem_nil, false_iff, not_and]
      intro hx he
      rw [hpar x hx] at he
      have := Option.some.inj he
      subst this
      exact w.root_not_mem hp
  · rintro p (rfl | hp)
    · have hc : (flatten h p).children p = h.words p := by simp [flatten, w.root_not_mem]
      rw [hc]
      exact aligned_pairwise w.aligned
    · have hc : (flatten h r).children p = [] := by
        have : p ∈ h.words r := hp
        simp [flatten, this]
      rw [hc]; simp

theorem inv_flatten {h : Heap} {r : Nat} (hi : Inv h) (hr : IsTree h r) : Inv (flatten h r) := by
  have w := hi r hr
  intro r' hr'
  have hr'' : IsTree h r' := hr'
  by_cases hrr : r' = r
  · subst hrr; exact wf_flatten w
  · have w' := hi r' hr''
    have hdis : ∀ y, InTree h r' y → y ∉ h.words r ∧ y ≠ r := by
      intro y hy
      have h1 := inTree_root w' hr'' hy
      constructor
      · intro hm; have := w.rootOf y hm; omega
      · rintro rfl; have := hr.2; omega
    refine w'.congr (Nat.le_refl _) rfl ?_ ?_ ?_ ?_
    · intro y hy; simp [flatten, (hdis y hy).1]
    · intro y hy; simp [flatten, (hdis y hy).1, (hdis y hy).2]
    · intro y _; rfl
    · intro y _; rfl

end Verif.Tree
