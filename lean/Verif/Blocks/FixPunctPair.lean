import Verif.Blocks.FixPunctProps

/-!
# Property C113: ud.FixPunct, paired marks and violations
-/

namespace Verif.Blocks.Punct
open Verif.Py Verif.Tree Verif.Deprel

section
variable {h : Heap} {r : Nat}

/-! ## A pair of marks around a subtree -/

/-- A mark at the border of the segment from `o` to `c`, which is the subtree of its parent `hd`, causes no gap. -/
theorem border_noGap (w : WF h r) (hr : IsTree h r) {o c hd m : Nat} (hm : m ∈ h.words r) (hhd : hd ∈ h.words r)
    (hp : h.parent m = some hd) (hb : m = o ∨ m = c)
    (hin : h.ord o < h.ord hd ∧ h.ord hd < h.ord c)
    (hseg : ∀ z, InTree h r z → (InSubtree h hd z ↔ h.ord o ≤ h.ord z ∧ h.ord z ≤ h.ord c)) : causesGap h m = some false := by
  obtain ⟨b1, e1, i1⟩ := w.isNonprojectiveGap hr hm
  obtain ⟨b2, e2, i2⟩ := w.isNonprojectiveGap hr hhd
  unfold causesGap
  rw [e1]
  cases b1 with
  | false => rfl
  | true =>
    simp only [hp, e2]
    obtain ⟨X, hX, hnx, a, b, hain, hbin, ha, hb', hoa, hob⟩ := i1.1 rfl
    have hB : ¬ InSubtree h X hd := by
      rintro (rfl | e)
      · exact hnx (.inr (.parent hp))
      · exact hnx (.inr (.step hp e))
    have hA : ¬ InSubtree h hd X := by
      intro e
      have htr : ∀ z, InSubtree h X z → InSubtree h hd z := by
        rintro z (rfl | hz)
        · exact e
        · rcases e with rfl | e
          · exact .inr hz
          · exact .inr (e.trans hz)
      have h1 := (hseg a hain).1 (htr a ha)
      have h2 := (hseg b hbin).1 (htr b hb')
      rcases hb with rfl | rfl <;> omega
    have hout : ∀ z, InTree h r z → InSubtree h X z → ¬ (h.ord o ≤ h.ord z ∧ h.ord z ≤ h.ord c) := by
      intro z hz hs hc
      rcases (hseg z hz).2 hc with rfl | e
      · exact hB hs
      · rcases hs with rfl | e'
        · exact hA (.inr e)
        · rcases anc_linear e' e with rfl | h1 | h1
          · exact hB (.inl rfl)
          · exact hB (.inr h1)
          · exact hA (.inr h1)
    have h1 := hout a hain ha
    have h2 := hout b hbin hb'
    have : b2 = true := i2.2 ⟨X, hX, hB, a, b, hain, hbin, ha, hb', by rcases hb with rfl | rfl <;> omega,
      by rcases hb with rfl | rfl <;> omega⟩
    rw [this]
    rfl

theorem filterMap_single (f : Nat → Option Nat) (u : Nat) :
    ∀ l : List Nat, l.Nodup → (∀ x ∈ l, f x = if x = u then some u else none) → l.filterMap f = if u ∈ l then [u] else []
  | [], _, _ => rfl
  | a :: l, hd, hf => by
    rw [List.nodup_cons] at hd
    have ih := filterMap_single f u l hd.2 (fun x hx => hf x (List.mem_cons_of_mem _ hx))
    have ha' := hf a (List.mem_cons_self ..)
    by_cases ha : a = u
    · subst ha
      rw [if_pos rfl] at ha'
      rw [List.filterMap_cons_some ha', ih, if_neg hd.1, if_pos (List.mem_cons_self ..)]
    · rw [if_neg ha] at ha'
      rw [List.filterMap_cons_none ha', ih]
      simp [Ne.symm ha]

/-- The words strictly between the marks `o` and `c` are `hd` and its descendants other than the marks. The marks have no children. -/
structure Encloses (h : Heap) (r o c hd : Nat) : Prop where
  op : o ∈ h.words r
  cl : c ∈ h.words r
  head : hd ∈ h.words r
  order : h.ord o < h.ord hd ∧ h.ord hd < h.ord c
  leafO : h.children o = []
  leafC : h.children c = []
  seg : ∀ z ∈ h.words r, z ≠ o → z ≠ c → z ≠ hd → ((h.ord o < h.ord z ∧ h.ord z < h.ord c) ↔ Anc h hd z)

namespace Encloses
variable {o c hd : Nat} (E : Encloses h r o c hd)
include E

theorem ne : o ≠ c ∧ hd ≠ o ∧ hd ≠ c := by
  have := E.order
  refine ⟨?_, ?_, ?_⟩ <;> rintro rfl <;> omega

theorem leafAtO (w : WF h r) : LeafAt h r o := by
  intro z hz e
  have := w.mem_children hz e
  rw [E.leafO] at this
  exact absurd this List.not_mem_nil

theorem leafAtC (w : WF h r) : LeafAt h r c := by
  intro z hz e
  have := w.mem_children hz e
  rw [E.leafC] at this
  exact absurd this List.not_mem_nil

/-- The only head is `hd`. -/
theorem heads (w : WF h r) {I : Info} (hP : I.punct hd = false) : pairHeads I h r o c = [hd] := by
  have hall : (h.words r).filterMap (pairHead h o c) = [hd] := by
    have hf : ∀ x ∈ h.words r, pairHead h o c x = if x = hd then some hd else none := by
      intro x hx
      unfold pairHead
      by_cases hxo : x = o ∨ x = c
      · rw [if_pos hxo, if_neg]
        rintro rfl
        exact hxo.elim E.ne.2.1 E.ne.2.2
      rw [if_neg hxo]
      rw [not_or] at hxo
      obtain ⟨p, hp, hpin⟩ := w.parentIn x hx
      rw [hp]
      simp only
      have hpo : p ≠ o := by rintro rfl; exact E.leafAtO w x hx hp
      have hpc : p ≠ c := by rintro rfl; exact E.leafAtC w x hx hp
      have hordo : h.ord p ≠ h.ord o := fun e => hpo (w.ord_inj hpin (.inr E.op) e)
      have hordc : h.ord p ≠ h.ord c := fun e => hpc (w.ord_inj hpin (.inr E.cl) e)
      have hpos := w.ord_pos E.op
      by_cases hxh : x = hd
      · rw [if_pos hxh, hxh, if_pos E.order, if_pos]
        apply Classical.byContradiction
        intro hc
        rcases hpin with rfl | hpw
        · rw [w.rootOrd] at hc
          omega
        · have hne : p ≠ hd := by
            rintro rfl
            exact w.anc_irrefl (.inr hx) (.parent (by rw [hxh] at hp ⊢; exact hp))
          have := (E.seg p hpw hpo hpc hne).1 (by omega)
          rw [hxh] at hp
          exact w.anc_irrefl (.inr E.head) (.step hp this)
      · rw [if_neg hxh]
        by_cases hin : h.ord o < h.ord x ∧ h.ord x < h.ord c
        · rw [if_pos hin, if_neg]
          have hanc := (E.seg x hx hxo.1 hxo.2 hxh).1 hin
          obtain ⟨p', hp', hor⟩ := anc_iff.1 hanc
          rw [hp] at hp'
          obtain rfl := Option.some.inj hp'
          rcases hor with rfl | ha
          · have := E.order; omega
          · have hpw := w.word_of_anc hpin ha
            have hne : p ≠ hd := by
              rintro rfl
              exact w.anc_irrefl hpin ha
            have := (E.seg p hpw hpo hpc hne).2 ha
            omega
        · rw [if_neg hin, if_neg]
          rintro ⟨h1, h2⟩
          have hpw : p ∈ h.words r := by
            rcases hpin with rfl | hpw
            · rw [w.rootOrd] at h1; omega
            · exact hpw
          apply hin
          refine (E.seg x hx hxo.1 hxo.2 hxh).2 ?_
          by_cases hne : p = hd
          · subst hne
            exact .parent hp
          · exact .step hp ((E.seg p hpw hpo hpc hne).1 ⟨h1, h2⟩)
    rw [filterMap_single _ hd _ w.nodup hf, if_pos E.head]
  unfold pairHeads
  rw [hall]
  simp only [List.filter_cons, hP]
  simp
  exact sortNodes_of_sorted (List.pairwise_singleton ..)

/-- `_fix_pair` attaches both marks to the head of the subtree between them. -/
theorem fixPair (hi : Inv h) (hr : IsTree h r) {I : Info} (hP : I.punct hd = false) (ty : Nat → Option PType) :
    ∃ h', Punct.fixPair I r (h, ty) o c = ((h', upd (upd ty (h.ord o) (some .opening)) (h.ord c) (some .closing)), none) ∧ Inv h' ∧
      IsTree h' r ∧ h'.words = h.words ∧ h'.ord = h.ord ∧ h'.root = h.root ∧
      h'.parent = upd (upd h.parent o (some hd)) c (some hd) ∧
      ∀ z, InTree h r z → (InSubtree h' hd z ↔ h.ord o ≤ h.ord z ∧ h.ord z ≤ h.ord c) := by
  have w := hi r hr
  have hne := E.ne
  have hlo := E.leafAtO w
  have hlc := E.leafAtC w
  obtain ⟨h1, e1, i1, t1, w1, r1, o1, p1⟩ := attach_one hi hr E.op (.inr E.head) hne.2.1 (not_anc_leaf w hlo (.inr E.head))
  have hlc1 : LeafAt h1 r c := by
    intro z hz e
    rw [p1] at e
    by_cases hzo : z = o
    · rw [hzo, upd_same] at e
      exact hne.2.2 (Option.some.inj e)
    · rw [upd_ne _ _ hzo] at e
      exact hlc z (w1 ▸ hz) e
  have w1' := i1 r t1
  obtain ⟨h2, e2, i2, t2, w2, r2, o2, p2⟩ := attach_one i1 t1 (x := c) (p := hd) (by rw [w1]; exact E.cl) (.inr (by rw [w1]; exact E.head))
    hne.2.2 (not_anc_leaf w1' hlc1 (.inr (by rw [w1]; exact E.head)))
  have hw2 : h2.words = h.words := by rw [w2, w1]
  have ho2 : h2.ord = h.ord := by rw [o2, o1]
  have hp2 : h2.parent = upd (upd h.parent o (some hd)) c (some hd) := by rw [p2, p1]
  have hpo : h2.parent o = some hd := by rw [hp2, upd_ne _ _ hne.1, upd_same]
  have hpc : h2.parent c = some hd := by rw [hp2, upd_same]
  have hanc : ∀ a z, InTree h r z → z ≠ o → z ≠ c → (Anc h2 a z ↔ Anc h a z) := by
    intro a z hz hzo hzc
    rw [anc_leaf w1' hlc1 p2 (by unfold InTree; rw [w1]; exact hz) hzc, anc_leaf w hlo p1 hz hzo]
  have hseg : ∀ z, InTree h r z → (InSubtree h2 hd z ↔ h.ord o ≤ h.ord z ∧ h.ord z ≤ h.ord c) := by
    intro z hz
    have hord := E.order
    have hpos := w.ord_pos E.op
    by_cases hzo : z = o
    · subst hzo
      exact ⟨fun _ => by omega, fun _ => .inr (.parent hpo)⟩
    by_cases hzc : z = c
    · subst hzc
      exact ⟨fun _ => by omega, fun _ => .inr (.parent hpc)⟩
    by_cases hzh : z = hd
    · subst hzh
      exact ⟨fun _ => by omega, fun _ => .inl rfl⟩
    have h1 : h.ord z ≠ h.ord o := fun e => hzo (w.ord_inj hz (.inr E.op) e)
    have h2 : h.ord z ≠ h.ord c := fun e => hzc (w.ord_inj hz (.inr E.cl) e)
    unfold InSubtree
    rw [hanc hd z hz hzo hzc]
    constructor
    · rintro (e | e)
      · exact absurd e hzh
      · have := (E.seg z (w.word_of_anc hz e) hzo hzc hzh).2 e
        omega
    · intro hb
      rcases hz with rfl | hzw
      · rw [w.rootOrd] at hb; omega
      · exact .inr ((E.seg z hzw hzo hzc hzh).1 (by omega))
  have wf2 := i2 r t2
  have hseg2 : ∀ z, InTree h2 r z → (InSubtree h2 hd z ↔ h2.ord o ≤ h2.ord z ∧ h2.ord z ≤ h2.ord c) := by
    intro z hz
    rw [ho2]
    exact hseg z (by unfold InTree at hz; rw [hw2] at hz; exact hz)
  have gO := border_noGap wf2 t2 (m := o) (by rw [hw2]; exact E.op) (by rw [hw2]; exact E.head) hpo (.inl rfl)
    (by rw [ho2]; exact E.order) hseg2
  have gC := border_noGap wf2 t2 (m := c) (by rw [hw2]; exact E.cl) (by rw [hw2]; exact E.head) hpc (.inr rfl)
    (by rw [ho2]; exact E.order) hseg2
  refine ⟨h2, ?_, i2, t2, hw2, ho2, by rw [r2, r1], hp2, hseg⟩
  unfold Punct.fixPair
  have hlast : ([hd] : List Nat).getLastD hd = hd := rfl
  simp only [E.heads w hP, e1, hlast, e2]
  have : repairOpening I h2 o c = (h2, none) := by unfold repairOpening; rw [gO]
  rw [this]
  simp only
  have : repairClosing I h2 o c = (h2, none) := by unfold repairClosing; rw [gC]
  rw [this]

end Encloses

theorem forNodes_idle {σ α : Type} {f : σ → α → σ × Option Err} {s : σ} : ∀ l : List α, (∀ x ∈ l, f s x = (s, none)) →
    forNodes f s l = (s, none)
  | [], _ => rfl
  | x :: l, hf => by
    unfold forNodes
    rw [hf x (List.mem_cons_self ..)]
    exact forNodes_idle l (fun y hy => hf y (List.mem_cons_of_mem _ hy))

theorem lookup_mem {β : Type} {a : Str} {b : β} : ∀ l : List (Str × β), l.lookup a = some b → (a, b) ∈ l
  | [], e => by cases e
  | (k, v) :: l, e => by
    rw [List.lookup_cons] at e
    cases hk : (a == k) with
    | true =>
      rw [hk] at e
      rw [eq_of_beq hk, ← Option.some.inj e]
      exact List.mem_cons_self ..
    | false =>
      rw [hk] at e
      exact List.mem_cons_of_mem _ (lookup_mem l e)

theorem findClosing_spec {I : Info} {op cl : Str} {c : Nat} (hc : I.form c = cl) : ∀ l : List Nat, c ∈ l →
    (∀ z ∈ l, z ≠ c → I.form z ≠ cl ∧ I.form z ≠ op) → findClosing I op cl 0 l = some c
  | [], hm, _ => absurd hm List.not_mem_nil
  | n :: ns, hm, hz => by
    unfold findClosing
    by_cases hn : n = c
    · rw [if_pos (by rw [hn]; exact hc), hn]
      rfl
    · have := hz n (List.mem_cons_self ..) hn
      rw [if_neg this.1, if_neg this.2]
      rcases List.mem_cons.1 hm with e | hm
      · exact absurd e.symm hn
      · exact findClosing_spec hc ns hm (fun z hz' => hz z (List.mem_cons_of_mem _ hz'))

/-- No word depends on a punctuation mark: the first loop changes nothing. -/
theorem noPunctChildren_idle (w : WF h r) {I : Info} (hp : ∀ x ∈ h.words r, ∀ p, h.parent x = some p → isPunct I p = false) :
    noPunctChildren I h r = (h, none) := by
  unfold noPunctChildren fixPunctChild
  refine forNodes_idle _ ?_
  intro x hx
  obtain ⟨p, e, _⟩ := w.parentIn x hx
  unfold punctUp
  rw [e]
  simp only
  rw [hp x hx p e]
  simp

/-- C113 for a pair of marks, in trees without other punctuation: if the opening mark `o` and the closing mark `c` enclose the
subtree of a word `hd`, ud.FixPunct attaches both marks to `hd` and changes nothing else. The marks are attached projectively then, as
the words from `o` to `c` are exactly `hd` and its descendants. Missing: several pairs, other punctuation, marks around several
subtrees or around punctuation only. -/
theorem C113_pair_partial {o c hd t : Nat} (hi : Inv h) (hr : IsTree h r) (d : Rels) (I : Info) (E : Encloses h r o c hd)
    (hop : I.punct o = true) (hcl : I.punct c = true) (hform : pairs.lookup (I.form o) = some (I.form c))
    (hrest : ∀ x, InTree h r x → x ≠ o → x ≠ c → I.punct x = false ∧ Unpaired I x)
    (ht : h.children r = [t]) (htd : getU (d t) = some dRoot) :
    ∃ h', fixPunct I h d r = ((h', d), none) ∧ Inv h' ∧ IsTree h' r ∧ h'.words = h.words ∧ h'.ord = h.ord ∧ h'.root = h.root ∧
      (∀ x, h'.parent x = if x = o ∨ x = c then some hd else h.parent x) ∧
      ∀ z ∈ h.words r, (z = hd ∨ Anc h' hd z) ↔ h.ord o ≤ h.ord z ∧ h.ord z ≤ h.ord c := by
  have w := hi r hr
  have hne := E.ne
  have hordoc := E.order
  have hmem := lookup_mem pairs hform
  have hhdP := (hrest hd (.inr E.head) hne.2.1 hne.2.2).1
  have hro : r ≠ o := by rintro rfl; exact w.root_not_mem E.op
  have hrc : r ≠ c := by rintro rfl; exact w.root_not_mem E.cl
  have e1 : noPunctChildren I h r = (h, none) := by
    refine noPunctChildren_idle w ?_
    intro x hx p hp
    have hpo : p ≠ o := by rintro rfl; exact E.leafAtO w x hx hp
    have hpc : p ≠ c := by rintro rfl; exact E.leafAtC w x hx hp
    have := hrest p (w.parent_in hx hp) hpo hpc
    rw [this.2.isPunct, this.1]
  obtain ⟨h2, e2, i2, t2, w2, o2, r2, p2, hseg⟩ := E.fixPair hi hr hhdP (fun _ => none)
  have hsort : (h.words r).Pairwise (fun a b => h.ord a < h.ord b) := aligned_pairwise w.aligned
  have hloop : forNodes (pairStep I r) (h, fun _ => none) (h.words r) =
      ((h2, upd (upd (fun _ => none) (h.ord o) (some .opening)) (h.ord c) (some .closing)), none) := by
    obtain ⟨s, es, hs⟩ := forNodes_inv (pairStep I r) (fun done s => s = if o ∈ done then
        (h2, upd (upd (fun _ => none) (h.ord o) (some .opening)) (h.ord c) (some .closing)) else (h, fun _ => none)) (h.words r) (by
      intro done x rest s hl hs
      have hx : x ∈ h.words r := by rw [hl]; simp
      have hnd := w.nodup
      rw [hl] at hnd
      by_cases hxo : x = o
      · have hod : o ∉ done := by
          intro hm
          exact (List.nodup_append.1 hnd).2.2 o hm x (List.mem_cons_self ..) hxo.symm
        rw [if_neg hod] at hs
        refine ⟨_, ?_, if_pos (by rw [hxo]; simp) |>.symm⟩
        rw [hs, hxo]
        unfold pairStep
        rw [if_neg (by simp), hform]
        simp only
        have hcond : ((I.checkUpos || isSub (I.form o) quotes) && !I.punct o) = false := by rw [hop]; simp
        rw [hcond]
        have hdrop : ∀ z ∈ h.words r, z ∈ (h.words r).drop (h.ord o) ↔ h.ord o < h.ord z := by
          intro z hz
          have := w.mem_drop (ref := h.ord o + 1) hz
          rw [Nat.add_sub_cancel] at this
          rw [this]; omega
        have hfc : findClosing I (I.form o) (I.form c) 0 ((h.words r).drop (h.ord o)) = some c := by
          refine findClosing_spec rfl _ ((hdrop c E.cl).2 (by omega)) ?_
          intro z hz hzc
          have hzw := List.mem_of_mem_drop hz
          have hzo : z ≠ o := by
            rintro rfl
            have := (hdrop z hzw).1 hz
            omega
          have := hrest z (.inr hzw) hzo hzc
          exact ⟨(this.2 _ hmem).2 this.1, (this.2 _ hmem).1⟩
        rw [hfc]
        exact e2
      · have hiff : o ∈ done ++ [x] ↔ o ∈ done := by
          rw [List.mem_append, List.mem_singleton]
          exact ⟨fun h => h.resolve_right (fun e => hxo e.symm), .inl⟩
        refine ⟨s, ?_, by simp only [hiff]; exact hs⟩
        by_cases hxc : x = c
        · have hod : o ∈ done := by
            have hm := E.op
            rw [hl, List.mem_append, List.mem_cons] at hm
            rcases hm with hm | hm | hm
            · exact hm
            · exact absurd hm.symm hxo
            · rw [hl] at hsort
              have := (List.pairwise_cons.1 (List.pairwise_append.1 hsort).2.1).1 o hm
              rw [hxc] at this
              omega
          rw [if_pos hod] at hs
          rw [hs, hxc]
          unfold pairStep
          rw [if_pos (by simp only [o2]; rw [upd_same])]
        · unfold pairStep
          split
          · rfl
          · rw [lookup_none pairs (fun pr hpr => ((hrest x (.inr hx) hxo hxc).2 pr hpr).1)])
      (h, fun _ => none) (by simp)
    rw [es, hs, if_pos E.op]
  have hpar : ∀ x, h2.parent x = if x = o ∨ x = c then some hd else h.parent x := by
    intro x
    rw [p2]
    by_cases hxc : x = c
    · rw [hxc, upd_same, if_pos (.inr rfl)]
    · rw [upd_ne _ _ hxc]
      by_cases hxo : x = o
      · rw [hxo, upd_same, if_pos (.inl rfl)]
      · rw [upd_ne _ _ hxo, if_neg (by simp [hxo, hxc])]
  have wf2 := i2 r t2
  have htc := (w.childIff r (.inl rfl) t).1 (by rw [ht]; simp)
  have htm : t ≠ o ∧ t ≠ c := by
    obtain ⟨y, hy, hor⟩ := anc_child (w.reach hd E.head)
    have hyw : y ∈ h.words r := by
      rcases hor with rfl | ha
      · exact E.head
      · exact w.word_of_anc (w.anc_in (.inr E.head) ha) (.parent hy)
    have hyt : y = t := by
      have := w.mem_children hyw hy
      rw [ht] at this
      simpa using this
    subst hyt
    rcases hor with rfl | ha
    · exact hne.2
    · refine ⟨?_, ?_⟩
      · rintro rfl
        exact not_anc_leaf w (E.leafAtO w) (.inr E.head) ha
      · rintro rfl
        exact not_anc_leaf w (E.leafAtC w) (.inr E.head) ha
  have hch : h2.children r = [t] := by
    refine sorted_ext (ord := h2.ord) (wf2.childSorted r (.inl rfl)) (List.pairwise_singleton ..) ?_
    intro y
    rw [List.mem_singleton, wf2.childIff r (.inl rfl) y, w2, hpar]
    constructor
    · rintro ⟨hy, hp⟩
      split at hp
      · have := Option.some.inj hp
        exact absurd (this ▸ E.head) w.root_not_mem
      · have := w.mem_children hy hp
        rw [ht] at this
        simpa using this
    · rintro rfl
      exact ⟨htc.1, by rw [if_neg (by simp [htm.1, htm.2])]; exact htc.2⟩
  refine ⟨h2, ?_, i2, t2, w2, o2, r2, hpar, fun z hz => hseg z (.inr hz)⟩
  unfold fixPunct
  rw [e1]
  simp only
  rw [hloop]
  simp only
  rw [forNodes_idle (f := subordStep I _) (s := (h2, d)) (h2.words r) (by
    intro x hx
    rw [w2] at hx
    unfold subordStep
    rw [if_neg]
    rintro ⟨hxP, hty⟩
    simp only [o2] at hty
    by_cases hxc : x = c
    · rw [hxc, upd_same] at hty
      cases hty
    · by_cases hxo : x = o
      · rw [hxo, upd_ne _ _ (by omega), upd_same] at hty
        cases hty
      · rw [(hrest x (.inr hx) hxo hxc).1] at hxP
        cases hxP)]
  simp only
  have h4 : oneSubroot h2 d r = (h2, none) := by unfold oneSubroot; rw [hch]
  rw [h4]
  simp only
  have h5 : rootRel h2 d r = (d, none) := by unfold rootRel; rw [hch]; simp [htd]
  rw [h5]

/-! ## Violations -/

/-- The block raises an `IndexError` for trees without words. -/
theorem C113_empty_violated (hi : Inv h) (hr : IsTree h r) (d : Rels) (I : Info) (hw : h.words r = []) :
    fixPunct I h d r = ((h, d), some .indexError) := by
  have w := hi r hr
  have hc : h.children r = [] := by
    apply List.eq_nil_iff_forall_not_mem.2
    intro c hc
    have := w.child_mem (.inl rfl) hc
    rw [hw] at this
    exact absurd this List.not_mem_nil
  unfold fixPunct noPunctChildren fixPunctChild
  simp [hw, forNodes, oneSubroot, hc, rootRel]

/-- A full stop, question mark or exclamation mark at the beginning of the sentence is left as it is, so that it may stay attached
non-projectively: if it is the only punctuation in the tree and has no children, ud.FixPunct changes nothing. -/
theorem C113_initial_violated {x t : Nat} (hi : Inv h) (hr : IsTree h r) (d : Rels) (I : Info) (hx : x ∈ h.words r) (hord : h.ord x = 1)
    (hxP : I.punct x = true) (hform : I.form x = ['.'] ∨ I.form x = ['?'] ∨ I.form x = ['!']) (hleaf : h.children x = [])
    (hrest : ∀ z, InTree h r z → z ≠ x → I.punct z = false ∧ Unpaired I z) (ht : h.children r = [t]) (htd : getU (d t) = some dRoot) :
    fixPunct I h d r = ((h, d), none) := by
  have w := hi r hr
  have hl : LeafAt h r x := by
    intro z hz e
    have := w.mem_children hz e
    rw [hleaf] at this
    exact absurd this List.not_mem_nil
  have hux : Unpaired I x := by
    intro pr hpr
    refine ⟨?_, fun h' => by rw [hxP] at h'; cases h'⟩
    have hall : ∀ pr ∈ pairs, pr.1 ≠ ['.'] ∧ pr.1 ≠ ['?'] ∧ pr.1 ≠ ['!'] := by decide
    have := hall pr hpr
    rcases hform with e | e | e <;> rw [e]
    · exact fun h => this.1 h.symm
    · exact fun h => this.2.1 h.symm
    · exact fun h => this.2.2 h.symm
  have hu : ∀ z ∈ h.words r, Unpaired I z := by
    intro z hz
    by_cases hzx : z = x
    · rw [hzx]; exact hux
    · exact (hrest z (.inr hz) hzx).2
  have hfin : isSub (I.form x) finalPunct = true := by
    rcases hform with e | e | e <;> rw [e] <;> decide
  have e1 : noPunctChildren I h r = (h, none) := by
    refine noPunctChildren_idle w ?_
    intro y hy p hp
    have hpx : p ≠ x := by rintro rfl; exact hl y hy hp
    have := hrest p (w.parent_in hy hp) hpx
    rw [this.2.isPunct, this.1]
  unfold fixPunct
  rw [e1]
  simp only
  rw [pairs_idle _ hu]
  simp only
  rw [forNodes_idle (f := subordStep I _) (s := (h, d)) (h.words r) (by
    intro z hz
    unfold subordStep
    by_cases hzx : z = x
    · subst hzx
      rw [if_pos ⟨hxP, rfl⟩]
      obtain ⟨p, hp, hpin⟩ := w.parentIn z hz
      unfold fixSubord
      simp only [hp]
      split
      · rfl
      · obtain ⟨pd, epd, _, _⟩ := withSelf_eq w hr hpin
        rw [epd]
        simp only
        split
        · rfl
        · have h1 : leftPaths I (fun _ => none) h z = some [] := by
            unfold leftPaths prevNode
            rw [hord]
            simp only [if_true]
            unfold leftCand
            rw [w.rootOf z hz]
            simp [w.rootOrd, isRoot, hr.2]
          have h2 : rightPaths I (fun _ => none) h z = some [] := by
            unfold rightPaths
            rw [hfin]
            simp [rightCand]
          rw [h1, h2]
          simp only
          unfold reattach keepProj
          simp only
          rw [setParent_same w hz hp]
          rfl
    · rw [if_neg]
      rintro ⟨h', _⟩
      rw [(hrest z (.inr hz) hzx).1] at h'
      cases h')]
  simp only
  have h4 : oneSubroot h d r = (h, none) := by unfold oneSubroot; rw [ht]
  rw [h4]
  simp only
  have h5 : rootRel h d r = (d, none) := by unfold rootRel; rw [ht]; simp [htd]
  rw [h5]

/-- If several words depend on the root with the relation `root`, all but the first one are attached to the first one, but they keep
the relation `root`: for every tree without punctuation whose first word below the root has this relation, the relations do not change
at all. -/
theorem C113_second_root_violated {c0 c1 : Nat} {cs : List Nat} (hi : Inv h) (hr : IsTree h r) (d : Rels) (I : Info)
    (hrest : ∀ z, InTree h r z → I.punct z = false ∧ Unpaired I z) (hch : h.children r = c0 :: c1 :: cs)
    (hd0 : getU (d c0) = some dRoot) :
    ∃ h', fixPunct I h d r = ((h', d), none) ∧ Inv h' ∧ h'.words = h.words ∧ h'.ord = h.ord ∧ h'.children r = [c0] ∧
      ∀ x, h'.parent x = if x ∈ c1 :: cs then some c0 else h.parent x := by
  have w := hi r hr
  have hmem : ∀ x ∈ c0 :: c1 :: cs, x ∈ h.words r ∧ h.parent x = some r := fun x hx => (w.childIff r (.inl rfl) x).1 (hch ▸ hx)
  have hcn := w.children_nodup (p := r) (.inl rfl)
  rw [hch, List.nodup_cons] at hcn
  have hc0 := hmem c0 (List.mem_cons_self ..)
  have e1 : noPunctChildren I h r = (h, none) := by
    refine noPunctChildren_idle w ?_
    intro y hy p hp
    have := hrest p (w.parent_in hy hp)
    rw [this.2.isPunct, this.1]
  obtain ⟨h1, e2, i1, t1, w1, o1, p1⟩ := forNodes_inv (subrootStep c0)
    (fun done s => Inv s ∧ IsTree s r ∧ s.words = h.words ∧ s.ord = h.ord ∧
      ∀ x, s.parent x = if x ∈ done ∧ x ≠ c0 then some c0 else h.parent x)
    (c0 :: c1 :: cs) (by
      intro done x more s hl ⟨i1, t1, w1, o1, p1⟩
      have hx := hmem x (by rw [hl]; simp)
      unfold subrootStep
      by_cases hxc : x = c0
      · rw [if_pos hxc]
        refine ⟨s, rfl, i1, t1, w1, o1, ?_⟩
        intro y
        rw [p1]
        by_cases hy : y = c0
        · rw [if_neg (fun h => h.2 hy), if_neg (fun h => h.2 hy)]
        · simp [hxc, hy]
      · rw [if_neg hxc]
        have ws := i1 r t1
        have hanc : ¬ Anc s x c0 := by
          have hp0 : s.parent c0 = some r := by rw [p1, if_neg (fun h => h.2 rfl), hc0.2]
          intro ha
          rcases anc_iff.1 ha with ⟨p, hp, e⟩
          rw [hp0] at hp
          obtain rfl := Option.some.inj hp
          rcases e with e | e
          · exact w.root_not_mem (e ▸ hx.1)
          · exact ws.not_anc_root e
        obtain ⟨h2, e2, i2, t2, w2, _, o2, p2⟩ := attach_one i1 t1 (by rw [w1]; exact hx.1) (.inr (by rw [w1]; exact hc0.1))
          (Ne.symm hxc) hanc
        refine ⟨h2, e2, i2, t2, by rw [w2, w1], by rw [o2, o1], ?_⟩
        intro y
        rw [p2]
        by_cases hy : y = x
        · rw [hy, upd_same, if_pos (by simp [hxc])]
        · rw [upd_ne _ _ hy, p1]
          simp [hy])
    h ⟨hi, hr, rfl, rfl, fun x => by simp⟩
  have hpar : ∀ x, h1.parent x = if x ∈ c1 :: cs then some c0 else h.parent x := by
    intro x
    rw [p1]
    by_cases hx : x ∈ c1 :: cs
    · rw [if_pos hx, if_pos ⟨List.mem_cons_of_mem _ hx, fun e => hcn.1 (e ▸ hx)⟩]
    · rw [if_neg hx, if_neg]
      rintro ⟨h1, h2⟩
      exact hx ((List.mem_cons.1 h1).resolve_left h2)
  have wf1 := i1 r t1
  have hch1 : h1.children r = [c0] := by
    refine sorted_ext (ord := h1.ord) (wf1.childSorted r (.inl rfl)) (List.pairwise_singleton ..) ?_
    intro y
    rw [List.mem_singleton, wf1.childIff r (.inl rfl) y, w1, hpar]
    constructor
    · rintro ⟨hy, hp⟩
      split at hp
      · have := Option.some.inj hp
        exact absurd (this ▸ hc0.1) w.root_not_mem
      · rename_i hn
        have := w.mem_children hy hp
        rw [hch] at this
        exact (List.mem_cons.1 this).resolve_right hn
    · rintro rfl
      exact ⟨hc0.1, by rw [if_neg hcn.1]; exact hc0.2⟩
  refine ⟨h1, ?_, i1, w1, o1, hch1, hpar⟩
  unfold fixPunct
  rw [e1]
  simp only
  rw [pairs_idle _ (fun z hz => (hrest z (.inr hz)).2)]
  simp only
  rw [forNodes_idle (f := subordStep I _) (s := (h, d)) (h.words r) (by
    intro z hz
    unfold subordStep
    rw [if_neg]
    rintro ⟨h', _⟩
    rw [(hrest z (.inr hz)).1] at h'
    cases h')]
  simp only
  have h4 : oneSubroot h d r = (h1, none) := by
    unfold oneSubroot
    rw [hch]
    simp only
    rw [List.find?_cons_of_pos (by simpa using hd0), Option.getD_some]
    exact e2
  rw [h4]
  simp only
  have h5 : rootRel h1 d r = (d, none) := by unfold rootRel; rw [hch1]; simp [hd0]
  rw [h5]

/-! ## Concrete trees -/

/-- The call acts on nodes of the tree 0. -/
def okOp (h : Heap) : Op → Bool
  | .createChild x => decide (x = 0 ∨ x ∈ h.words 0)
  | .setParent x (some p) => decide ((x = 0 ∨ x ∈ h.words 0) ∧ (p = 0 ∨ p ∈ h.words 0))
  | _ => false

def okOps : Heap → List Op → Bool
  | _, [] => true
  | h, o :: os => decide (0 < h.next ∧ h.root 0 = 0) && okOp h o && okOps (step h o).1 os

theorem okOps_reachable : ∀ (os : List Op) (h : Heap), Reachable h → okOps h os = true → Reachable (runOps h os)
  | [], _, hh, _ => hh
  | o :: os, h, hh, hok => by
    unfold okOps at hok
    rw [Bool.and_eq_true, Bool.and_eq_true, decide_eq_true_eq] at hok
    refine okOps_reachable os _ (.step o hh ?_) hok.2
    have ho := hok.1.2
    cases o with
    | createChild x => exact ⟨0, hok.1.1, by simpa [okOp, InTree] using ho⟩
    | setParent x q =>
      cases q with
      | none => simp [okOp] at ho
      | some q =>
        have : (x = 0 ∨ x ∈ h.words 0) ∧ (q = 0 ∨ q ∈ h.words 0) := by simpa [okOp] using ho
        exact ⟨0, hok.1.1, this.1, this.2⟩
    | _ => simp [okOp] at ho

/-- The calls that build a tree with the words 1, 2, ..., whose parents are given. -/
def treeOps (ps : List Nat) : List Op :=
  ps.map (fun _ => .createChild 0) ++ (ps.zipIdx 1).map (fun e => .setParent e.2 (some e.1))

/-- A tree 0 with the words 1, 2, ..., whose parents are given. -/
def tree (ps : List Nat) : Heap := runOps (newTree Heap.init) (treeOps ps)

theorem tree_inv {ps : List Nat} (hok : okOps (newTree Heap.init) (treeOps ps) = true) : Inv (tree ps) :=
  inv_reachable (okOps_reachable _ _ (.step .newTree .init trivial) hok)

/-- Words `w`, and the punctuation given. -/
def info (fs : List Str) (sym : List Nat) : Info where
  form := fun x => if x = 0 then ['<', 'R', 'O', 'O', 'T', '>'] else fs.getD (x - 1) []
  punct := fun x => x ≠ 0 ∧ x ∉ sym ∧ fs.getD (x - 1) [] ≠ ['w']
  checkUpos := false

def rels (ps : List Nat) : Rels := fun x => if ps.getD (x - 1) 1 = 0 then some dRoot else none

/-- The parents after the block, and the exception. -/
def run (ps : List Nat) (fs : List Str) (sym : List Nat) : List (Option Nat) × Option Err :=
  let s := fixPunct (info fs sym) (tree ps) (rels ps) 0
  (((s.1.1.words 0).map s.1.1.parent), s.2)

def cW : Str := ['w']
def cC : Str := [',']

example : run [0, 1, 2, 3] [cW, cC, cW, cC] [] = ([some 0, some 3, some 1, some 3], none) := by decide +kernel

/-- The hypotheses of `C113_projective_partial` hold for this tree. -/
example : Inv (tree [0, 1, 2, 3]) ∧ IsTree (tree [0, 1, 2, 3]) 0 ∧ (tree [0, 1, 2, 3]).children 0 = [1] ∧
    (∀ x ∈ [0, 1, 2, 3, 4], Unpaired (info [cW, cC, cW, cC] []) x) ∧
    ∀ x ∈ (tree [0, 1, 2, 3]).words 0, (info [cW, cC, cW, cC] []).punct x = true → ∃ l ∈ (tree [0, 1, 2, 3]).words 0,
      (info [cW, cC, cW, cC] []).punct l = false ∧ (tree [0, 1, 2, 3]).ord x = (tree [0, 1, 2, 3]).ord l + 1 :=
  ⟨tree_inv (by decide +kernel), ⟨by decide +kernel, by decide +kernel⟩, by decide +kernel, by unfold Unpaired; decide +kernel, by decide +kernel⟩

/-- A pair of brackets around a subtree: `w ( w w )`. -/
example : run [0, 1, 1, 3, 4] [cW, ['('], cW, cW, [')']] [] = ([some 0, some 3, some 1, some 3, some 3], none) := by decide +kernel

example : Encloses (tree [0, 1, 1, 3, 4]) 0 2 5 3 where
  op := by decide +kernel
  cl := by decide +kernel
  head := by decide +kernel
  order := by decide +kernel
  leafO := by decide +kernel
  leafC := by decide +kernel
  seg := by
    intro z hz h1 h2 h3
    have hw : z ∈ [1, 2, 3, 4, 5] := hz
    have : z = 1 ∨ z = 4 := by simp at hw; omega
    have hi : Inv (tree [0, 1, 1, 3, 4]) := tree_inv (by decide +kernel)
    rcases this with rfl | rfl
    · refine ⟨fun h => absurd h (by decide +kernel), fun ha => ?_⟩
      exact absurd ha ((hi 0 ⟨by decide +kernel, by decide +kernel⟩).anc_asymm (.inr (by decide +kernel)) (.parent (by decide +kernel)))
    · exact ⟨fun _ => .parent (by decide +kernel), fun _ => by decide +kernel⟩

/-- A full stop at the beginning stays attached non-projectively: `. w w` with the parents 3, 0, 2. -/
example : run [3, 0, 2] [['.'], cW, cW] [] = ([some 3, some 0, some 2], none) ∧ isNonprojective (tree [3, 0, 2]) 1 = some true := by
  decide +kernel

example : run [0, 0] [cW, cW] [] = ([some 0, some 1], none) ∧ run [] [] [] = ([], some .indexError) := by decide +kernel

/-- ud.FixPunct is not idempotent. -/
theorem C113_twice_violated : run [0, 1, 1, 3] [cW, cC, cC, cW] [] = ([some 0, some 1, some 4, some 1], none) ∧
    run [0, 1, 4, 1] [cW, cC, cC, cW] [] = ([some 0, some 4, some 4, some 1], none) := by decide +kernel

/-- With three commas in a row, the second one stays attached non-projectively. -/
theorem C113_sequence_violated : run [8, 8, 2, 2, 2, 1, 3, 0] [cW, cW, cW, cW, cC, cC, cC, cW] [] =
      ([some 8, some 8, some 2, some 2, some 2, some 1, some 8, some 0], none) ∧
    isNonprojective (tree [8, 8, 2, 2, 2, 1, 8, 0]) 6 = some true := by decide +kernel

/-- A comma between brackets that are not tagged `PUNCT`: the brackets are attached to the comma, then the comma to a bracket, which
raises a `ValueError`. -/
theorem C113_brackets_violated : (run [2, 0, 2] [['('], cC, [')']] [1, 3]).2 = some .cycleError := by decide +kernel

end
end Verif.Blocks.Punct
