import Verif.Tree.LemmasShift
import Verif.Tree.LemmasRemove

/-! # Word-order changes keep trees well formed -/

namespace Verif.Tree
open Verif.Py

/-- A strictly sorted list of members of a strictly sorted list is its filter. -/
theorem filter_of_sorted {ord : Nat → Nat} {S W : List Nat} (hS : S.Pairwise (fun a b => ord a < ord b))
    (hW : W.Pairwise (fun a b => ord a < ord b)) (hsub : ∀ y ∈ S, y ∈ W) :
    W.filter (fun y => y ∈ S) = S := by
  apply sorted_ext (ord := ord) (hW.filter _) hS
  intro y
  simp only [List.mem_filter, decide_eq_true_eq]
  exact ⟨fun h => h.2, fun h => ⟨hsub y h, h⟩⟩

theorem filter_length_self {p : Nat → Bool} {l : List Nat} (h : (l.filter p).length = l.length) :
    l.filter p = l := List.filter_sublist.eq_of_length h

/-- The heap after a successful word-order change. -/
def shifted (h : Heap) (r q : Nat) (W : List Nat) (o : Nat → Nat) : Heap :=
  { h with
    words := upd h.words r W
    ord := o
    children := upd h.children q (sortNodes o (h.children q)) }

/-- Membership in the moved words. -/
def Movers (h : Heap) (r x : Nat) (wc : Bool) (S : List Nat) : Prop :=
  S.Sublist (h.words r) ∧ ∀ y, y ∈ S ↔ y ∈ h.words r ∧ (y = x ∨ (wc = false ∧ Anc h x y))

theorem mem_moved {W S : List Nat} (hS : ∀ y ∈ S, y ∈ W) (ref : Nat) (y : Nat) :
    y ∈ moved W S ref ↔ y ∈ W := by
  unfold moved
  simp only [List.mem_append, List.mem_filter, decide_eq_true_eq]
  constructor
  · rintro ((⟨h1, _⟩ | h1) | ⟨h1, _⟩)
    · exact List.mem_of_mem_take h1
    · exact hS y h1
    · exact List.mem_of_mem_drop h1
  · intro hy
    by_cases hys : y ∈ S
    · exact Or.inl (Or.inr hys)
    · rw [← List.take_append_drop (ref - 1) W] at hy
      rcases List.mem_append.1 hy with h1 | h1
      · exact Or.inl (Or.inl ⟨h1, hys⟩)
      · exact Or.inr ⟨h1, hys⟩

theorem others_sublist_moved (W S : List Nat) (ref : Nat) :
    (W.filter (fun y => y ∉ S)).Sublist (moved W S ref) := by
  conv => lhs; rw [← List.take_append_drop (ref - 1) W]
  rw [List.filter_append]
  unfold moved
  exact List.Sublist.append (List.sublist_append_left _ _) (List.Sublist.refl _)

theorem movers_sublist_moved (W S : List Nat) (ref : Nat) : S.Sublist (moved W S ref) := by
  unfold moved
  exact (List.sublist_append_right _ _).trans (List.sublist_append_left _ _)

section
variable {h : Heap} {r x q : Nat}

theorem shiftBeforeOrd_spec (w : WF h r) (hr : IsTree h r) (hx : x ∈ h.words r)
    (hq : h.parent x = some q) {ref : Nat} (h1 : 1 ≤ ref) (h2 : ref ≤ (h.words r).length + 1)
    (wc : Bool) :
    ∃ S o, Movers h r x wc S ∧
      shiftBeforeOrd h x ref wc = (shifted h r q (moved (h.words r) S ref) o, none) ∧
      Aligned o 1 (moved (h.words r) S ref) ∧ ∀ y, y ∉ h.words r → o y = h.ord y := by
  have hal := w.aligned
  have hroot := w.rootOf x hx
  have key : ∀ S res, Movers h r x wc S → ShiftOk (h.words r) h.ord S ref res →
      ((match (Sum.inl res : Option WO ⊕ Err) with
        | .inr e => (h, some e)
        | .inl none => (h, some .indexError)
        | .inl (some s) =>
          match h.parent x with
          | none => ({ h with words := upd h.words r s.ws, ord := s.ord }, some .attributeError)
          | some q =>
            ({ h with
                words := upd h.words r s.ws
                ord := s.ord
                children := upd h.children q (sortNodes s.ord (h.children q)) }, none)) =
        shiftBeforeOrd h x ref wc) →
      ∃ S o, Movers h r x wc S ∧
      shiftBeforeOrd h x ref wc = (shifted h r q (moved (h.words r) S ref) o, none) ∧
      Aligned o 1 (moved (h.words r) S ref) ∧ ∀ y, y ∉ h.words r → o y = h.ord y := by
    rintro S res hS ⟨o, rfl, ho1, ho2⟩ he
    refine ⟨S, o, hS, ?_, ho1, ho2⟩
    rw [← he]
    simp only [hq, shifted]
  obtain ⟨A, C, hW⟩ := List.append_of_mem hx
  by_cases hsingle : (wc || (h.children x).isEmpty) = true
  · apply key [x] (shiftSingle ⟨h.words r, h.ord⟩ x ref)
    · refine ⟨by simpa using hx, ?_⟩
      intro y
      simp only [List.mem_singleton]
      constructor
      · rintro rfl; exact ⟨hx, Or.inl rfl⟩
      · rintro ⟨_, rfl | ⟨hwc, hanc⟩⟩
        · rfl
        · exfalso
          rw [hwc, Bool.false_or, List.isEmpty_iff] at hsingle
          obtain ⟨c, hc, hor⟩ := anc_child hanc
          have hcw : c ∈ h.words r := by
            rcases hor with rfl | hor
            · assumption
            · have := w.anc_in (Or.inr ‹_›) hor
              rcases this with rfl | hh
              · rw [w.rootParent] at hc; simp at hc
              · exact hh
          have := w.mem_children hcw hc
          rw [hsingle] at this
          simp at this
    · have e : h.words r = A ++ [x] ++ C := by rw [hW]; simp
      rw [e] at hal h2 ⊢
      exact shiftSingle_spec hal h1 h2
    · unfold shiftBeforeOrd
      simp only [hsingle, if_true, hroot]
      rfl
  · have hwc : wc = false := by
      cases wc with
      | true => simp at hsingle
      | false => rfl
    subst hwc
    have hchild : h.children x ≠ [] := by simpa using hsingle
    obtain ⟨ds, hds, hdsp, hdsm⟩ := w.descendants_eq hr (Or.inr hx)
    have hxds : x ∉ ds := fun hm => w.anc_irrefl (Or.inr hx) ((hdsm x).1 hm).2
    have hSsort : (sortNodes h.ord (ds ++ [x])).Pairwise (fun a b => h.ord a < h.ord b) := by
      apply sortNodes_pairwise
      · rw [List.nodup_append]
        refine ⟨pairwise_ord_nodup hdsp, by simp, ?_⟩
        intro a ha b hb hab
        simp only [List.mem_singleton] at hb
        subst hb hab
        exact hxds ha
      · intro a ha b hb hab
        simp only [List.mem_append, List.mem_singleton] at ha hb
        have ha' : InTree h r a := by
          rcases ha with ha | rfl
          · exact Or.inr ((hdsm a).1 ha).1
          · exact Or.inr hx
        have hb' : InTree h r b := by
          rcases hb with hb | rfl
          · exact Or.inr ((hdsm b).1 hb).1
          · exact Or.inr hx
        exact w.ord_inj ha' hb' hab
    have hSmem : ∀ y, y ∈ sortNodes h.ord (ds ++ [x]) ↔ y ∈ h.words r ∧ (y = x ∨ Anc h x y) := by
      intro y
      rw [mem_sortNodes, List.mem_append, hdsm, List.mem_singleton]
      constructor
      · rintro (⟨a, b⟩ | rfl)
        · exact ⟨a, Or.inr b⟩
        · exact ⟨hx, Or.inl rfl⟩
      · rintro ⟨a, rfl | b⟩
        · exact Or.inr rfl
        · exact Or.inl ⟨a, b⟩
    have hWsort := aligned_pairwise hal
    generalize hSdef : sortNodes h.ord (ds ++ [x]) = S at hSsort hSmem
    have hfil := filter_of_sorted hSsort hWsort (fun y hy => ((hSmem y).1 hy).1)
    have hmov : Movers h r x false S := by
      refine ⟨?_, by simpa using hSmem⟩
      rw [← hfil]; exact List.filter_sublist
    -- there are at least two words to move
    obtain ⟨c, hc⟩ : ∃ c, c ∈ h.children x := List.exists_mem_of_ne_nil _ hchild
    have hcS : c ∈ S := (hSmem c).2 ⟨w.child_mem (Or.inr hx) hc,
      Or.inr (.parent (w.child_parent (Or.inr hx) hc))⟩
    have hxS : x ∈ S := (hSmem x).2 ⟨hx, Or.inl rfl⟩
    have hcx : c ≠ x := by
      intro e
      have h3 := w.child_parent (Or.inr hx) hc
      rw [e] at h3
      exact w.anc_irrefl (Or.inr hx) (.parent h3)
    obtain ⟨f, S', hSf⟩ : ∃ f S', S = f :: S' := by
      cases S with
      | nil => simp at hxS
      | cons f S' => exact ⟨f, S', rfl⟩
    have hS'ne : S' ≠ [] := by
      rintro rfl
      rw [hSf] at hcS hxS
      simp only [List.mem_singleton] at hcS hxS
      exact hcx (hcS.trans hxS.symm)
    obtain ⟨S'', l, hSl⟩ : ∃ S'' l, S' = S'' ++ [l] :=
      ⟨S'.dropLast, S'.getLast hS'ne, (List.dropLast_concat_getLast hS'ne).symm⟩
    have hfS : f ∈ S := by rw [hSf]; simp
    have hlS : l ∈ S := by rw [hSf, hSl]; simp
    have hfl : h.ord f < h.ord l := by
      rw [hSf, hSl] at hSsort
      exact (List.pairwise_cons.1 hSsort).1 l (by simp)
    have hfmin : ∀ y ∈ S, h.ord f ≤ h.ord y := by
      intro y hy
      rw [hSf] at hSsort hy
      rcases List.mem_cons.1 hy with rfl | hy
      · exact Nat.le_refl _
      · exact Nat.le_of_lt ((List.pairwise_cons.1 hSsort).1 y hy)
    have hlmax : ∀ y ∈ S, h.ord y ≤ h.ord l := by
      intro y hy
      rw [hSf, hSl, ← List.cons_append] at hSsort hy
      rcases List.mem_append.1 hy with hy | hy
      · exact Nat.le_of_lt ((List.pairwise_append.1 hSsort).2.2 y hy l (by simp))
      · rw [List.mem_singleton.1 hy]; exact Nat.le_refl _
    -- where the words are
    have hfW := ((hSmem f).1 hfS).1
    have hlW := ((hSmem l).1 hlS).1
    obtain ⟨A, B, hAB⟩ := List.append_of_mem hfW
    have hlB : l ∈ B := by
      rw [hAB] at hlW hWsort
      rcases List.mem_append.1 hlW with hl | hl
      · have := (List.pairwise_append.1 hWsort).2.2 l hl f (by simp)
        omega
      · rcases List.mem_cons.1 hl with rfl | hl
        · omega
        · exact hl
    obtain ⟨mid, C, hmidC⟩ := List.append_of_mem hlB
    have hWeq : h.words r = A ++ (f :: mid) ++ (l :: C) := by rw [hAB, hmidC]; simp
    rw [hWeq] at hal hWsort h2 hfil
    have hof : h.ord f = A.length + 1 := by
      have := (aligned_append.1 (aligned_append.1 hal).1).2
      have := (aligned_cons.1 this).1
      omega
    have hol : h.ord l = A.length + mid.length + 2 := by
      have := (aligned_append.1 hal).2
      have := (aligned_cons.1 this).1
      simp only [List.length_append, List.length_cons] at this
      omega
    have hAS : ∀ y ∈ A, y ∉ S := by
      intro y hy hyS
      have := hfmin y hyS
      have h3 := (List.pairwise_append.1 (List.pairwise_append.1 hWsort).1).2.2 y hy f (by simp)
      omega
    have hCS : ∀ y ∈ C, y ∉ S := by
      intro y hy hyS
      have := hlmax y hyS
      have h3 := (List.pairwise_cons.1 (List.pairwise_append.1 hWsort).2.1).1 y hy
      omega
    have hSeq : S = f :: mid.filter (fun y => y ∈ S) ++ [l] := by
      have hA0 : A.filter (fun y => y ∈ S) = [] := by
        rw [List.filter_eq_nil_iff]; intro y hy; simpa using hAS y hy
      have hC0 : C.filter (fun y => y ∈ S) = [] := by
        rw [List.filter_eq_nil_iff]; intro y hy; simpa using hCS y hy
      rw [List.filter_append, List.filter_append, List.filter_cons, List.filter_cons, hA0, hC0] at hfil
      simp only [hfS, hlS, decide_true, if_true, List.nil_append] at hfil
      exact hfil.symm
    have hhead : S.head? = some f := by rw [hSf]; rfl
    have hlast : S.getLast? = some l := by rw [hSf, hSl, ← List.cons_append, List.getLast?_append]; rfl
    have hlen : S.length = (mid.filter (fun y => y ∈ S)).length + 2 := by
      have := congrArg List.length hSeq
      simp only [List.length_append, List.length_cons, List.length_nil] at this
      omega
    by_cases hgap : h.ord l + 1 = h.ord f + S.length
    · have hmid : mid.filter (fun y => y ∈ S) = mid := by
        apply filter_length_self
        omega
      have hSeq' : S = f :: mid ++ [l] := hSeq.trans (by rw [hmid])
      apply key S (shiftBlock ⟨h.words r, h.ord⟩ S (h.ord f) (h.ord l) ref) hmov
      · have e : h.words r = A ++ S ++ C := by rw [hWeq, hSeq']; simp
        have e2 : A ++ (f :: mid) ++ (l :: C) = A ++ S ++ C := by rw [hSeq']; simp
        rw [e2] at hal h2
        rw [e, hof, show h.ord l = A.length + S.length by rw [hol, hSeq']; simp; omega]
        exact shiftBlock_spec hal (by rw [hSf]; simp) h1 h2
      · unfold shiftBeforeOrd
        simp only [hsingle, hds, hSdef, hhead, hlast, hgap, if_true, hroot]
        rfl
    · apply key S (shiftGaps ⟨h.words r, h.ord⟩ S (h.ord f) (h.ord l) ref) hmov
      · rw [hWeq, hof, hol]
        exact shiftGaps_spec S hal hAS hCS hSeq h1 h2
      · unfold shiftBeforeOrd
        simp only [hsingle, hds, hSdef, hhead, hlast, hgap, if_false, hroot]
        rfl

theorem wf_shifted (w : WF h r) (hx : x ∈ h.words r) (hq : h.parent x = some q) {S : List Nat}
    {o : Nat → Nat} {ref : Nat} {wc : Bool} (hS : Movers h r x wc S)
    (hal : Aligned o 1 (moved (h.words r) S ref)) (ho : ∀ y, y ∉ h.words r → o y = h.ord y) :
    WF (shifted h r q (moved (h.words r) S ref) o) r := by
  have hw : (shifted h r q (moved (h.words r) S ref) o).words r = moved (h.words r) S ref := by
    simp [shifted]
  have hmem : ∀ y, y ∈ moved (h.words r) S ref ↔ y ∈ h.words r :=
    mem_moved (fun y hy => ((hS.2 y).1 hy).1) ref
  have hin : ∀ p, InTree (shifted h r q (moved (h.words r) S ref) o) r p ↔ InTree h r p := by
    intro p; unfold InTree; rw [hw, hmem]
  have hpar : (shifted h r q (moved (h.words r) S ref) o).parent = h.parent := rfl
  have hqin := w.parent_in hx hq
  have hmono1 : ∀ a b, a ∈ S → b ∈ S → h.ord a < h.ord b → o a < o b := fun a b ha hb =>
    pairwise_mono ((aligned_pairwise w.aligned).sublist hS.1)
      ((aligned_pairwise hal).sublist (movers_sublist_moved _ _ _)) ha hb
  have hmono2 : ∀ a b, a ∈ h.words r → b ∈ h.words r → a ∉ S → b ∉ S → h.ord a < h.ord b → o a < o b :=
    fun a b ha hb haS hbS =>
    pairwise_mono (l := (h.words r).filter (fun y => y ∉ S))
      ((aligned_pairwise w.aligned).sublist List.filter_sublist)
      ((aligned_pairwise hal).sublist (others_sublist_moved _ _ _))
      (by simpa using ⟨ha, haS⟩) (by simpa using ⟨hb, hbS⟩)
  refine ⟨?_, ?_, w.rootParent, ?_, ?_, ?_, ?_, ?_, ?_⟩
  · rw [hw]; exact hal
  · show o r = 0
    rw [ho r w.root_not_mem]; exact w.rootOrd
  · intro y hy; rw [hw, hmem] at hy; exact w.rootOf y hy
  · intro y hy
    rw [hw, hmem] at hy
    obtain ⟨p, hp, hpin⟩ := w.parentIn y hy
    exact ⟨p, hp, (hin p).2 hpin⟩
  · intro y hy
    rw [hw, hmem] at hy
    exact anc_congr (h' := shifted h r q (moved (h.words r) S ref) o) w (fun _ _ => rfl) (Or.inr hy)
      (w.reach y hy)
  · intro p hp y
    rw [hin] at hp
    rw [hw, hmem, hpar, ← w.childIff p hp y]
    show y ∈ upd h.children q (sortNodes o (h.children q)) p ↔ _
    by_cases hpq : p = q
    · subst hpq; rw [upd_same, mem_sortNodes]
    · rw [upd_ne _ _ hpq]
  · intro p hp
    rw [hin] at hp
    show (upd h.children q (sortNodes o (h.children q)) p).Pairwise (fun a b => o a < o b)
    by_cases hpq : p = q
    · subst hpq
      rw [upd_same]
      apply sortNodes_pairwise (w.children_nodup hp)
      intro a ha b hb hab
      exact aligned_inj hal ((hmem a).2 (w.child_mem hp ha)) ((hmem b).2 (w.child_mem hp hb)) hab
    · rw [upd_ne _ _ hpq]
      -- the children of `p` all move or all stay
      have hcls : ∀ c ∈ h.children p, c ∈ S ↔ (wc = false ∧ (p = x ∨ Anc h x p)) := by
        intro c hc
        have hcw := w.child_mem hp hc
        have hcp := w.child_parent hp hc
        rw [hS.2]
        constructor
        · rintro ⟨_, rfl | ⟨hwc, hanc⟩⟩
          · rw [hcp] at hq; cases hq; exact absurd rfl hpq
          · obtain ⟨p', hp', hor⟩ := anc_iff.1 hanc
            rw [hcp] at hp'
            cases hp'
            exact ⟨hwc, hor⟩
        · rintro ⟨hwc, hor⟩
          exact ⟨hcw, Or.inr ⟨hwc, anc_iff.2 ⟨p, hcp, hor⟩⟩⟩
      refine (w.childSorted p hp).imp_of_mem ?_
      intro a b ha hb hlt
      by_cases hc : wc = false ∧ (p = x ∨ Anc h x p)
      · exact hmono1 a b ((hcls a ha).2 hc) ((hcls b hb).2 hc) hlt
      · exact hmono2 a b (w.child_mem hp ha) (w.child_mem hp hb)
          (fun h' => hc ((hcls a ha).1 h')) (fun h' => hc ((hcls b hb).1 h')) hlt
  · intro y hy; rw [hw, hmem] at hy; exact w.alloc y hy

/-! ## The reference position -/

theorem maxOrd_spec (ord : Nat → Nat) (x : Nat) : ∀ (l : List Nat) (m : Nat),
    m ≤ maxOrd ord x m l ∧ (∀ y ∈ l, y ≠ x → ord y ≤ maxOrd ord x m l) ∧
      (maxOrd ord x m l = m ∨ ∃ y ∈ l, y ≠ x ∧ maxOrd ord x m l = ord y) := by
  intro l
  induction l with
  | nil => intro m; simp [maxOrd]
  | cons a l ih =>
    intro m
    simp only [maxOrd]
    obtain ⟨h1, h2, h3⟩ := ih (if m < ord a && a ≠ x then ord a else m)
    by_cases hc : m < ord a ∧ a ≠ x
    · have hc' : (decide (m < ord a) && decide (a ≠ x)) = true := by simpa using hc
      rw [if_pos hc'] at h1 h2 h3 ⊢
      refine ⟨by omega, ?_, ?_⟩
      · intro y hy hyx
        rcases List.mem_cons.1 hy with rfl | hy
        · exact h1
        · exact h2 y hy hyx
      · rcases h3 with h3 | ⟨y, hy, hyx, h3⟩
        · exact Or.inr ⟨a, by simp, hc.2, h3⟩
        · exact Or.inr ⟨y, by simp [hy], hyx, h3⟩
    · have hc' : ¬ (decide (m < ord a) && decide (a ≠ x)) = true := by simpa using hc
      rw [if_neg hc'] at h1 h2 h3 ⊢
      refine ⟨h1, ?_, ?_⟩
      · intro y hy hyx
        rcases List.mem_cons.1 hy with rfl | hy
        · have : ¬ m < ord y := fun h' => hc ⟨h', hyx⟩
          omega
        · exact h2 y hy hyx
      · rcases h3 with h3 | ⟨y, hy, hyx, h3⟩
        · exact Or.inl h3
        · exact Or.inr ⟨y, by simp [hy], hyx, h3⟩

theorem minOrd_spec (ord : Nat → Nat) (x : Nat) : ∀ (l : List Nat) (m : Nat),
    minOrd ord x m l ≤ m ∧ (∀ y ∈ l, y ≠ x → minOrd ord x m l ≤ ord y) ∧
      (minOrd ord x m l = m ∨ ∃ y ∈ l, y ≠ x ∧ minOrd ord x m l = ord y) := by
  intro l
  induction l with
  | nil => intro m; simp [minOrd]
  | cons a l ih =>
    intro m
    simp only [minOrd]
    obtain ⟨h1, h2, h3⟩ := ih (if ord a < m && a ≠ x then ord a else m)
    by_cases hc : ord a < m ∧ a ≠ x
    · have hc' : (decide (ord a < m) && decide (a ≠ x)) = true := by simpa using hc
      rw [if_pos hc'] at h1 h2 h3 ⊢
      refine ⟨by omega, ?_, ?_⟩
      · intro y hy hyx
        rcases List.mem_cons.1 hy with rfl | hy
        · exact h1
        · exact h2 y hy hyx
      · rcases h3 with h3 | ⟨y, hy, hyx, h3⟩
        · exact Or.inr ⟨a, by simp, hc.2, h3⟩
        · exact Or.inr ⟨y, by simp [hy], hyx, h3⟩
    · have hc' : ¬ (decide (ord a < m) && decide (a ≠ x)) = true := by simpa using hc
      rw [if_neg hc'] at h1 h2 h3 ⊢
      refine ⟨h1, ?_, ?_⟩
      · intro y hy hyx
        rcases List.mem_cons.1 hy with rfl | hy
        · have : ¬ ord y < m := fun h' => hc ⟨h', hyx⟩
          omega
        · exact h2 y hy hyx
      · rcases h3 with h3 | ⟨y, hy, hyx, h3⟩
        · exact Or.inl h3
        · exact Or.inr ⟨y, by simp [hy], hyx, h3⟩

theorem ord_le_of_inTree (w : WF h r) {y : Nat} (hy : InTree h r y) :
    h.ord y ≤ (h.words r).length := by
  rcases hy with rfl | hy
  · rw [w.rootOrd]; omega
  · exact w.ord_le hy

/-- The reference position is within the sentence. -/
theorem refOrd_spec (w : WF h r) (hr : IsTree h r) {y : Nat} (hy : InTree h r y) (k : ShiftKind)
    (hk : ¬ ((k = .beforeNode ∨ k = .beforeSubtree) ∧ isRoot h y)) :
    ∃ ref, refOrd h k x y = some ref ∧ 1 ≤ ref ∧ ref ≤ (h.words r).length + 1 := by
  have hword : (k = .beforeNode ∨ k = .beforeSubtree) → y ∈ h.words r := by
    intro hk'
    rcases hy with rfl | hy
    · exact absurd ⟨hk', by simp [isRoot, hr.2]⟩ hk
    · exact hy
  obtain ⟨ds, hds, _, hm⟩ := w.unorderedDescendants_eq hr.1 hy
  have hle := ord_le_of_inTree w hy
  cases k with
  | afterNode => exact ⟨_, rfl, by omega, by omega⟩
  | beforeNode =>
    have := w.ord_pos (hword (Or.inl rfl))
    exact ⟨_, rfl, this, by omega⟩
  | afterSubtree =>
    refine ⟨_, by simp only [refOrd, hds, Option.map_some]; rfl, by omega, ?_⟩
    rcases (maxOrd_spec h.ord x ds (h.ord y)).2.2 with h3 | ⟨z, hz, _, h3⟩
    · omega
    · have := w.ord_le ((hm z).1 hz).1
      omega
  | beforeSubtree =>
    have hpos := w.ord_pos (hword (Or.inr rfl))
    refine ⟨_, by simp only [refOrd, hds, Option.map_some]; rfl, ?_, ?_⟩
    · rcases (minOrd_spec h.ord x ds (h.ord y)).2.2 with h3 | ⟨z, hz, _, h3⟩
      · omega
      · have := w.ord_pos ((hm z).1 hz).1
        omega
    · have := (minOrd_spec h.ord x ds (h.ord y)).1
      omega

/-- What a call of `shift_*` does: nothing and an exception or a skip, or a move. -/
theorem shift_cases (w : WF h r) (hr : IsTree h r) (hx : x ∈ h.words r) {y : Nat} (hy : InTree h r y)
    (k : ShiftKind) (wc skip : Bool) :
    ((k = .beforeNode ∨ k = .beforeSubtree) ∧ y = r ∧
        shift h k x y wc skip = (h, some .valueError)) ∨
    (¬ ((k = .beforeNode ∨ k = .beforeSubtree) ∧ y = r) ∧ wc = false ∧ Anc h x y ∧
        shift h k x y wc skip = (h, if skip then none else some .valueError)) ∨
    (¬ ((k = .beforeNode ∨ k = .beforeSubtree) ∧ y = r) ∧ ¬ (wc = false ∧ Anc h x y) ∧
      ∃ ref, refOrd h k x y = some ref ∧ 1 ≤ ref ∧ ref ≤ (h.words r).length + 1 ∧
        shift h k x y wc skip = shiftBeforeOrd h x ref wc) := by
  have hroot : isRoot h y = true ↔ y = r := by
    constructor
    · intro hy'
      rcases hy with rfl | hy
      · rfl
      · rw [w.not_root hy] at hy'; simp at hy'
    · rintro rfl; simp [isRoot, hr.2]
  by_cases hc : (k = .beforeNode ∨ k = .beforeSubtree) ∧ y = r
  · refine Or.inl ⟨hc.1, hc.2, ?_⟩
    unfold shift
    rw [if_pos ⟨hc.1, hroot.2 hc.2⟩]
  · right
    have hc' : ¬ ((k = .beforeNode ∨ k = .beforeSubtree) ∧ isRoot h y = true) := by rw [hroot]; exact hc
    obtain ⟨b, hb, hbi⟩ := w.isDescendantOf_eq hr (a := x) hy (Or.inr hx)
    obtain ⟨ref, href, hr1, hr2⟩ := refOrd_spec (x := x) w hr hy k hc'
    unfold shift
    rw [if_neg hc']
    cases wc with
    | true =>
      refine Or.inr ⟨hc, by simp, ref, href, hr1, hr2, ?_⟩
      simp [href]
    | false =>
      simp only [hb, if_false, Bool.false_eq_true]
      cases b with
      | true =>
        refine Or.inl ⟨hc, by simp, hbi.1 rfl, ?_⟩
        cases skip <;> simp
      | false =>
        refine Or.inr ⟨hc, by simpa using fun h' => hbi.2 h', ref, href, hr1, hr2, ?_⟩
        simp [href]

theorem inv_shifted (hi : Inv h) (hr : IsTree h r) (hx : x ∈ h.words r) (hq : h.parent x = some q)
    {S : List Nat} {o : Nat → Nat} {ref : Nat} {wc : Bool} (hS : Movers h r x wc S)
    (hal : Aligned o 1 (moved (h.words r) S ref)) (ho : ∀ y, y ∉ h.words r → o y = h.ord y) :
    Inv (shifted h r q (moved (h.words r) S ref) o) := by
  have w := hi r hr
  have hqin := w.parent_in hx hq
  intro r' hr'
  have hr'' : IsTree h r' := hr'
  by_cases hrr : r' = r
  · subst hrr; exact wf_shifted w hx hq hS hal ho
  · have hd : ∀ y, InTree h r' y → ∀ z, InTree h r z → y ≠ z := by
      rintro y hy z hz rfl
      have h1 := inTree_root (hi r' hr'') hr'' hy
      have h2 := inTree_root w hr hz
      omega
    refine (hi r' hr'').congr (Nat.le_refl _) (upd_ne _ _ hrr) ?_ ?_ ?_ ?_
    · intro y _; rfl
    · intro y hy; exact upd_ne _ _ (hd y hy q hqin)
    · intro y hy
      apply ho
      intro hm
      exact hd y hy y (Or.inr hm) rfl
    · intro y _; rfl

theorem inv_shift (hi : Inv h) (hr : IsTree h r) (hx : x ∈ h.words r) {y : Nat} (hy : InTree h r y)
    (k : ShiftKind) (wc skip : Bool) : Inv (shift h k x y wc skip).1 := by
  have w := hi r hr
  rcases shift_cases w hr hx hy k wc skip with ⟨_, _, he⟩ | ⟨_, _, _, he⟩ | ⟨_, _, ref, _, h1, h2, he⟩
  · rw [he]; exact hi
  · rw [he]; exact hi
  · obtain ⟨q, hq, _⟩ := w.parentIn x hx
    obtain ⟨S, o, hS, he', hal, ho⟩ := shiftBeforeOrd_spec w hr hx hq h1 h2 wc
    rw [he, he']
    exact inv_shifted hi hr hx hq hS hal ho

end

theorem inv_init : Inv Heap.init := by
  intro r hr
  exact absurd hr.1 (by simp [Heap.init])

theorem inv_step {h : Heap} (hi : Inv h) (op : Op) (ha : Allowed h op) : Inv (step h op).1 := by
  cases op with
  | newTree => exact inv_newTree hi
  | createChild x => obtain ⟨r, hr, hx⟩ := ha; exact inv_createChild hi hr hx
  | setParent x p =>
    cases p with
    | none => obtain ⟨r, hr, hx⟩ := ha; exact inv_setParent_none hi hr hx
    | some p => obtain ⟨r, hr, hx, hp⟩ := ha; exact inv_setParent_some hi hr hx hp
  | remove x b => obtain ⟨r, hr, hx⟩ := ha; exact inv_remove hi hr hx b
  | shift k x y wc skip => obtain ⟨r, hr, hx, hy⟩ := ha; exact inv_shift hi hr hx hy k wc skip
  | flatten r => exact inv_flatten hi ha

theorem inv_reachable {h : Heap} (hh : Reachable h) : Inv h := by
  induction hh with
  | init => exact inv_init
  | step o _ ha ih => exact inv_step ih o ha

end Verif.Tree
