import Verif.Tree.ModelQueries
import Verif.Tree.Props

/-!
# Properties C19 and C20: non-projectivity
-/

namespace Verif.Tree

section
variable {h : Heap} {r x : Nat}

/-- `z` lies strictly between `a` and `b` in word order. -/
def Between (h : Heap) (a b z : Nat) : Prop :=
  (h.ord a < h.ord z ∧ h.ord z < h.ord b) ∨ (h.ord b < h.ord z ∧ h.ord z < h.ord a)

/-- The words with ords in an open interval. -/
theorem WF.filter_length (w : WF h r) {a b : Nat} (hab : a < b) (hb : b ≤ (h.words r).length + 1) :
    ((h.words r).filter (fun n => h.ord n > a && h.ord n < b)).length = b - a - 1 := by
  have h1 : ((h.words r).filter (fun n => h.ord n > a && h.ord n < b)).length =
      ((List.range' 1 (h.words r).length).filter (fun n => n > a && n < b)).length := by
    rw [← w.ords, List.filter_map, List.length_map]
    rfl
  rw [h1]
  have h2 : (List.range' 1 (h.words r).length).filter (fun n => n > a && n < b) =
      List.range' (a + 1) (b - a - 1) := by
    refine sorted_ext (ord := id) (List.Pairwise.filter _ ?_) ?_ ?_
    · exact List.pairwise_lt_range'
    · exact List.pairwise_lt_range'
    · intro n
      simp only [List.mem_filter, List.mem_range'_1, Bool.and_eq_true, decide_eq_true_eq]
      omega
  rw [h2]; simp

/-- `is_nonprojective` in a well-formed tree. -/
theorem WF.isNonprojective (w : WF h r) (hr : IsTree h r) (hx : InTree h r x) :
    ∃ b, Verif.Tree.isNonprojective h x = some b ∧
      (b = true ↔ ∃ p z, h.parent x = some p ∧ z ∈ h.words r ∧ Between h x p z ∧ ¬ Anc h p z) := by
  unfold Verif.Tree.isNonprojective
  rcases hx with rfl | hx
  · rw [w.rootParent]
    exact ⟨false, rfl, by simp⟩
  obtain ⟨p, hp, hpin⟩ := w.parentIn x hx
  rw [hp]
  simp only [Option.some.injEq]
  rcases hpin with rfl | hpw
  · rw [if_pos (by simp [isRoot, hr.2])]
    refine ⟨false, rfl, ?_⟩
    simp only [Bool.false_eq_true, false_iff]
    rintro ⟨_, z, rfl, hz, _, hn⟩
    exact hn (w.reach z hz)
  rw [if_neg (by rw [w.not_root hpw]; simp)]
  have hxp : h.ord x ≠ h.ord p := by
    intro e
    have := w.ord_inj (Or.inr hx) (Or.inr hpw) e
    subst this
    exact w.anc_irrefl (Or.inr hx) (.parent hp)
  have hlx := w.ord_le hx
  have hlp := w.ord_le hpw
  generalize ho1 : (if h.ord x > h.ord p then h.ord p else h.ord x) = o1
  generalize ho2 : (if h.ord x > h.ord p then h.ord x else h.ord p) = o2
  have h12 : o1 < o2 := by subst ho1 ho2; split <;> omega
  have ho2l : o2 ≤ (h.words r).length + 1 := by subst ho2; split <;> omega
  have hbet : ∀ z, Between h x p z ↔ (o1 < h.ord z ∧ h.ord z < o2) := by
    intro z
    unfold Between
    subst ho1 ho2
    split <;> omega
  have hgoal : (∃ q z, p = q ∧ z ∈ h.words r ∧ Between h x q z ∧ ¬ Anc h q z) ↔
      ∃ z, z ∈ h.words r ∧ (o1 < h.ord z ∧ h.ord z < o2) ∧ ¬ Anc h p z := by
    constructor
    · rintro ⟨_, z, rfl, a, b, c⟩; exact ⟨z, a, (hbet z).1 b, c⟩
    · rintro ⟨z, a, b, c⟩; exact ⟨p, z, rfl, a, (hbet z).2 b, c⟩
  rw [hgoal]
  by_cases hd : (o2 : Int) - o1 = 1
  · rw [if_pos hd]
    refine ⟨false, rfl, ?_⟩
    simp only [Bool.false_eq_true, false_iff]
    rintro ⟨z, _, hb, _⟩
    omega
  · rw [if_neg hd]
    obtain ⟨ds, hds, hnd, hm⟩ := w.unorderedDescendants_eq hr.1 (Or.inr hpw)
    rw [hds]
    refine ⟨_, rfl, ?_⟩
    have hcount := w.filter_length h12 ho2l
    have hnf : (ds.filter (fun n => h.ord n > o1 && h.ord n < o2)).Nodup := hnd.filter _
    have hsub : ∀ z ∈ ds.filter (fun n => h.ord n > o1 && h.ord n < o2),
        z ∈ (h.words r).filter (fun n => h.ord n > o1 && h.ord n < o2) := by
      intro z hz
      rw [List.mem_filter] at hz ⊢
      exact ⟨((hm z).1 hz.1).1, hz.2⟩
    have hle := length_le_of_nodup_subset hnf hsub
    rw [decide_eq_true_eq]
    constructor
    · intro hne
      apply Classical.byContradiction
      intro hno
      have hsub' : ∀ z ∈ (h.words r).filter (fun n => h.ord n > o1 && h.ord n < o2),
          z ∈ ds.filter (fun n => h.ord n > o1 && h.ord n < o2) := by
        intro z hz
        rw [List.mem_filter] at hz ⊢
        refine ⟨(hm z).2 ⟨hz.1, ?_⟩, hz.2⟩
        apply Classical.byContradiction
        intro hna
        refine hno ⟨z, hz.1, ?_, hna⟩
        simpa using hz.2
      have hge := length_le_of_nodup_subset (w.nodup.filter _) hsub'
      omega
    · rintro ⟨z, hz, hb, hna⟩ heq
      have hzn : z ∉ ds.filter (fun n => h.ord n > o1 && h.ord n < o2) := by
        intro hz'
        exact hna ((hm z).1 (List.mem_filter.1 hz').1).2
      have : (z :: ds.filter (fun n => h.ord n > o1 && h.ord n < o2)).length ≤
          ((h.words r).filter (fun n => h.ord n > o1 && h.ord n < o2)).length := by
        apply length_le_of_nodup_subset (List.nodup_cons.2 ⟨hzn, hnf⟩)
        intro y hy
        rcases List.mem_cons.1 hy with rfl | hy
        · rw [List.mem_filter]; exact ⟨hz, by simpa using hb⟩
        · exact hsub y hy
      rw [List.length_cons] at this
      omega

/-- C19: `node.is_nonprojective()` is true exactly if some word strictly between the node and its parent
is not a descendant of the parent. For the technical root (no parent) it is false. -/
theorem C19_is_nonprojective (hh : Reachable h) (hr : IsTree h r) (hx : InTree h r x) :
    ∃ b, isNonprojective h x = some b ∧
      (b = true ↔ ∃ p z, h.parent x = some p ∧ z ∈ h.words r ∧ Between h x p z ∧ ¬ Anc h p z) :=
  (inv_reachable hh r hr).isNonprojective hr hx

/-- A tree with a non-projective edge: words 1 2 3; 3 depends on 1, and 1 and 2 on the root. -/
def exNp : Heap := runOps Heap.init [.newTree, .createChild 0, .createChild 0, .createChild 1]

theorem exNp_reachable : Reachable exNp := by
  unfold exNp runOps
  simp only [List.foldl]
  refine .step (.createChild 1) (.step (.createChild 0) (.step (.createChild 0)
    (.step .newTree .init trivial) ?_) ?_) ?_
  · exact ⟨0, ⟨by decide, by decide⟩, Or.inl rfl⟩
  · exact ⟨0, ⟨by decide, by decide⟩, Or.inl rfl⟩
  · exact ⟨0, ⟨by decide, by decide⟩, Or.inr (by decide)⟩

example : Reachable exNp ∧ IsTree exNp 0 ∧ isNonprojective exNp 3 = some true ∧
    isNonprojective exNp 2 = some false :=
  ⟨exNp_reachable, ⟨by decide, by decide⟩, by decide, by decide⟩

/-! ## C20 -/

/-- `a` is in the subtree of `X` (which contains `X`). -/
def InSubtree (h : Heap) (X a : Nat) : Prop := a = X ∨ Anc h X a

/-- `x` causes a gap in a subtree: it is outside the subtree of some node `X`, but between two nodes of
that subtree in word order. -/
def CausesGap (h : Heap) (r x : Nat) : Prop :=
  ∃ X, InTree h r X ∧ ¬ InSubtree h X x ∧ ∃ a b, InTree h r a ∧ InTree h r b ∧
    InSubtree h X a ∧ InSubtree h X b ∧ h.ord a < h.ord x ∧ h.ord x < h.ord b

/-- The loop of ancestors. -/
theorem climbAll_eq (w : WF h r) : ∀ x, InTree h r x →
    ∃ n, n ≤ (h.words r).length + 1 ∧ ∀ fuel acc, n ≤ fuel → ∃ l, climbAll h fuel acc x = some (acc ++ l, r) ∧
      ∀ a, a ∈ l ↔ Anc h a x := by
  intro x hx
  have hnd : ∃ L : List Nat, L.Nodup ∧ (∀ a ∈ L, InTree h r a) ∧ (∀ a, a ∈ L ↔ InSubtree h a x) ∧
      ∀ fuel acc, L.length ≤ fuel → ∃ l, climbAll h fuel acc x = some (acc ++ l, r) ∧
        ∀ a, a ∈ l ↔ Anc h a x := by
    refine w.induct (fun x => ∃ L : List Nat, L.Nodup ∧ (∀ a ∈ L, InTree h r a) ∧
      (∀ a, a ∈ L ↔ InSubtree h a x) ∧ ∀ fuel acc, L.length ≤ fuel →
        ∃ l, climbAll h fuel acc x = some (acc ++ l, r) ∧ ∀ a, a ∈ l ↔ Anc h a x) ?_ ?_ x hx
    · refine ⟨[r], by simp, by simp [InTree], ?_, ?_⟩
      · intro a
        unfold InSubtree
        constructor
        · intro ha; left; simpa [eq_comm] using ha
        · rintro (rfl | ha)
          · simp
          · exact absurd ha w.not_anc_root
      · intro fuel acc hf
        obtain ⟨f, rfl⟩ : ∃ f, fuel = f + 1 := ⟨fuel - 1, by simp at hf; omega⟩
        refine ⟨[], by simp [climbAll, w.rootParent], ?_⟩
        intro a
        constructor
        · intro ha; simp at ha
        · intro ha; exact absurd ha w.not_anc_root
    · intro x p hx hp hpin ⟨L, hn, hin, hm, hl⟩
      refine ⟨x :: L, ?_, ?_, ?_, ?_⟩
      · refine List.nodup_cons.2 ⟨?_, hn⟩
        intro hxL
        rcases (hm x).1 hxL with e | ha
        · subst e
          exact w.anc_irrefl (Or.inr hx) (.parent hp)
        · exact w.anc_irrefl (Or.inr hx) (.step hp ha)
      · intro a ha
        rcases List.mem_cons.1 ha with rfl | ha
        · exact Or.inr hx
        · exact hin a ha
      · intro a
        rw [List.mem_cons, hm]
        unfold InSubtree
        rw [anc_iff (x := x)]
        constructor
        · rintro (rfl | rfl | ha)
          · exact Or.inl rfl
          · exact Or.inr ⟨_, hp, Or.inl rfl⟩
          · exact Or.inr ⟨p, hp, Or.inr ha⟩
        · rintro (rfl | ⟨q, hq, hor⟩)
          · exact Or.inl rfl
          · rw [hp] at hq; cases hq
            rcases hor with rfl | ha
            · exact Or.inr (Or.inl rfl)
            · exact Or.inr (Or.inr ha)
      · intro fuel acc hf
        obtain ⟨f, rfl⟩ : ∃ f, fuel = f + 1 := ⟨fuel - 1, by simp at hf; omega⟩
        obtain ⟨l, h1, h2⟩ := hl f (acc ++ [p]) (by simp at hf; omega)
        refine ⟨p :: l, by simp only [climbAll, hp, h1]; simp, ?_⟩
        intro a
        rw [List.mem_cons, h2, anc_iff (x := x)]
        constructor
        · rintro (rfl | ha)
          · exact ⟨_, hp, Or.inl rfl⟩
          · exact ⟨p, hp, Or.inr ha⟩
        · rintro ⟨q, hq, hor⟩
          rw [hp] at hq; cases hq
          rcases hor with rfl | ha
          · exact Or.inl rfl
          · exact Or.inr ha
  obtain ⟨L, hn, hin, _, hl⟩ := hnd
  refine ⟨L.length, ?_, hl⟩
  have := length_le_of_nodup_subset (m := r :: h.words r) hn (fun a ha => by
    rcases hin a ha with rfl | hw
    · exact List.mem_cons_self
    · exact List.mem_cons_of_mem _ hw)
  simpa using this

theorem gapLeftLoop_eq (w : WF h r) (hr : IsTree h r) (hx : InTree h r x) (anc : List Nat) :
    ∀ l : List Nat, (∀ z ∈ l, z ∈ h.words r) → ∃ b, gapLeftLoop h x anc l = some b ∧
      (b = true ↔ ∃ z ∈ l, ∃ p, h.parent z = some p ∧ h.ord x < h.ord p ∧ p ∉ anc) := by
  intro l
  have hrx : h.root x = r := by
    rcases hx with rfl | hx
    · exact hr.2
    · exact w.rootOf x hx
  induction l with
  | nil => intro _; exact ⟨false, rfl, by simp⟩
  | cons z l ih =>
    intro hin
    obtain ⟨p, hp, hpin⟩ := w.parentIn z (hin z List.mem_cons_self)
    have hrp : h.root p = r := by
      rcases hpin with rfl | hx
      · exact hr.2
      · exact w.rootOf p hx
    obtain ⟨b, hb, hbi⟩ := ih (fun y hy => hin y (List.mem_cons_of_mem _ hy))
    simp only [gapLeftLoop, hp, precedes, hrx, hrp, if_true, decide_eq_true_eq]
    by_cases hc : h.ord x < h.ord p ∧ p ∉ anc
    · rw [if_pos hc]
      exact ⟨true, rfl, by simp only [true_iff]; exact ⟨z, List.mem_cons_self, p, hp, hc⟩⟩
    · rw [if_neg hc]
      refine ⟨b, hb, hbi.trans ?_⟩
      constructor
      · rintro ⟨y, hy, q⟩; exact ⟨y, List.mem_cons_of_mem _ hy, q⟩
      · rintro ⟨y, hy, q, hq, hcc⟩
        rcases List.mem_cons.1 hy with rfl | hy
        · rw [hp] at hq; cases hq; exact absurd hcc hc
        · exact ⟨y, hy, q, hq, hcc⟩

theorem gapRightLoop_eq (w : WF h r) (hr : IsTree h r) (hx : InTree h r x) (anc : List Nat) :
    ∀ l : List Nat, (∀ z ∈ l, z ∈ h.words r) → ∃ b, gapRightLoop h x anc l = some b ∧
      (b = true ↔ ∃ z ∈ l, ∃ p, h.parent z = some p ∧ h.ord p < h.ord x ∧ p ∉ anc) := by
  intro l
  have hrx : h.root x = r := by
    rcases hx with rfl | hx
    · exact hr.2
    · exact w.rootOf x hx
  induction l with
  | nil => intro _; exact ⟨false, rfl, by simp⟩
  | cons z l ih =>
    intro hin
    obtain ⟨p, hp, hpin⟩ := w.parentIn z (hin z List.mem_cons_self)
    have hrp : h.root p = r := by
      rcases hpin with rfl | hx
      · exact hr.2
      · exact w.rootOf p hx
    obtain ⟨b, hb, hbi⟩ := ih (fun y hy => hin y (List.mem_cons_of_mem _ hy))
    simp only [gapRightLoop, hp, precedes, hrx, hrp, if_true, decide_eq_true_eq]
    by_cases hc : h.ord p < h.ord x ∧ p ∉ anc
    · rw [if_pos hc]
      exact ⟨true, rfl, by simp only [true_iff]; exact ⟨z, List.mem_cons_self, p, hp, hc⟩⟩
    · rw [if_neg hc]
      refine ⟨b, hb, hbi.trans ?_⟩
      constructor
      · rintro ⟨y, hy, q⟩; exact ⟨y, List.mem_cons_of_mem _ hy, q⟩
      · rintro ⟨y, hy, q, hq, hcc⟩
        rcases List.mem_cons.1 hy with rfl | hy
        · rw [hp] at hq; cases hq; exact absurd hcc hc
        · exact ⟨y, hy, q, hq, hcc⟩

/-- On the path from `a` up to `X`, some edge crosses position `k` from left to right. -/
theorem crossing_up (w : WF h r) {X k : Nat} (hA : ∀ z, InTree h r z → InSubtree h X z → h.ord z ≠ k)
    {a : Nat} (ha : Anc h X a) : InTree h r a → h.ord a < k → k < h.ord X →
      ∃ z p, z ∈ h.words r ∧ h.parent z = some p ∧ InSubtree h X p ∧ h.ord z < k ∧ k < h.ord p := by
  induction ha with
  | parent hp =>
    intro hin h1 h2
    exact ⟨_, X, w.word_of_anc hin (.parent hp), hp, Or.inl rfl, h1, h2⟩
  | step hp ha ih =>
    rename_i a p
    intro hin h1 h2
    have haw := w.word_of_anc hin (.step hp ha)
    have hpin := w.parent_in haw hp
    have := hA p hpin (Or.inr ha)
    by_cases hk : h.ord p < k
    · exact ih hpin hk h2
    · exact ⟨a, p, haw, hp, Or.inr ha, h1, by omega⟩

/-- The same from right to left. -/
theorem crossing_down (w : WF h r) {X k : Nat} (hA : ∀ z, InTree h r z → InSubtree h X z → h.ord z ≠ k)
    {a : Nat} (ha : Anc h X a) : InTree h r a → k < h.ord a → h.ord X < k →
      ∃ z p, z ∈ h.words r ∧ h.parent z = some p ∧ InSubtree h X p ∧ k < h.ord z ∧ h.ord p < k := by
  induction ha with
  | parent hp =>
    intro hin h1 h2
    exact ⟨_, X, w.word_of_anc hin (.parent hp), hp, Or.inl rfl, h1, h2⟩
  | step hp ha ih =>
    rename_i a p
    intro hin h1 h2
    have haw := w.word_of_anc hin (.step hp ha)
    have hpin := w.parent_in haw hp
    have := hA p hpin (Or.inr ha)
    by_cases hk : k < h.ord p
    · exact ih hpin hk h2
    · exact ⟨a, p, haw, hp, Or.inr ha, h1, by omega⟩

/-- `is_nonprojective_gap` of a word of a well-formed tree. -/
theorem WF.isNonprojectiveGap (w : WF h r) (hr : IsTree h r) (hx : x ∈ h.words r) :
    ∃ b, Verif.Tree.isNonprojectiveGap h x = some b ∧ (b = true ↔ CausesGap h r x) := by
  have hxin : InTree h r x := Or.inr hx
  have hpos := w.ord_pos hx
  obtain ⟨n, hn, hcl⟩ := climbAll_eq w x hxin
  have hlen := w.length_le_next hr.1 w.nodup (fun a ha => Or.inr ha)
  obtain ⟨l, hl, hm⟩ := hcl (h.next + 1) [x] (by omega)
  unfold Verif.Tree.isNonprojectiveGap
  rw [hl]
  simp only
  have hanc : ∀ a, a ∉ [x] ++ l ↔ ¬ InSubtree h a x := by
    intro a
    unfold InSubtree
    simp only [List.mem_append, List.mem_singleton, hm]
    rw [eq_comm]
  have ht : pyTake (h.words r) ((h.ord x : Int) - 1) = (h.words r).take (h.ord x - 1) := by
    unfold pyTake
    rw [if_pos (by omega)]
    congr 1
    omega
  rw [ht]
  obtain ⟨b1, hb1, hi1⟩ := gapLeftLoop_eq w hr hxin ([x] ++ l) ((h.words r).take (h.ord x - 1))
    (fun z hz => List.mem_of_mem_take hz)
  obtain ⟨b2, hb2, hi2⟩ := gapRightLoop_eq w hr hxin ([x] ++ l) ((h.words r).drop (h.ord x))
    (fun z hz => List.mem_of_mem_drop hz)
  rw [hb1, hb2]
  have htake : ∀ z ∈ h.words r, z ∈ (h.words r).take (h.ord x - 1) ↔ h.ord z < h.ord x := by
    intro z hz
    have := w.mem_take (ref := h.ord x) hz
    exact this
  have hdrop : ∀ z ∈ h.words r, z ∈ (h.words r).drop (h.ord x) ↔ h.ord x < h.ord z := by
    intro z hz
    have := w.mem_drop (ref := h.ord x + 1) hz
    rw [Nat.add_sub_cancel] at this
    rw [this]; omega
  have key : (b1 = true ∨ b2 = true) ↔ CausesGap h r x := by
    rw [hi1, hi2]
    constructor
    · rintro (⟨z, hz, p, hp, ho, hna⟩ | ⟨z, hz, p, hp, ho, hna⟩)
      · have hzw := List.mem_of_mem_take hz
        refine ⟨p, w.parent_in hzw hp, (hanc p).1 hna, z, p, Or.inr hzw, w.parent_in hzw hp,
          Or.inr (.parent hp), Or.inl rfl, (htake z hzw).1 hz, ho⟩
      · have hzw := List.mem_of_mem_drop hz
        refine ⟨p, w.parent_in hzw hp, (hanc p).1 hna, p, z, w.parent_in hzw hp, Or.inr hzw,
          Or.inl rfl, Or.inr (.parent hp), ho, (hdrop z hzw).1 hz⟩
    · rintro ⟨X, hX, hnx, a, b, hain, hbin, ha, hb, hoa, hob⟩
      have hA : ∀ z, InTree h r z → InSubtree h X z → h.ord z ≠ h.ord x := by
        intro z hz hs e
        exact hnx (w.ord_inj hz hxin e ▸ hs)
      have hsub : ∀ p, InSubtree h X p → ¬ InSubtree h p x := by
        rintro p hXp (rfl | hpx)
        · exact hnx hXp
        · rcases hXp with rfl | hXp
          · exact hnx (Or.inr hpx)
          · exact hnx (Or.inr (hXp.trans hpx))
      have hXx := hA X hX (Or.inl rfl)
      by_cases hlt : h.ord x < h.ord X
      · left
        rcases ha with rfl | ha
        · omega
        obtain ⟨z, p, hz, hp, hXp, h1, h2⟩ := crossing_up w hA ha hain hoa hlt
        exact ⟨z, (htake z hz).2 h1, p, hp, h2, (hanc p).2 (hsub p hXp)⟩
      · right
        rcases hb with rfl | hb
        · omega
        obtain ⟨z, p, hz, hp, hXp, h1, h2⟩ := crossing_down w hA hb hbin hob (by omega)
        exact ⟨z, (hdrop z hz).2 h1, p, hp, h2, (hanc p).2 (hsub p hXp)⟩
  cases b1 with
  | true => exact ⟨true, rfl, by simp only [true_iff]; exact key.1 (Or.inl rfl)⟩
  | false =>
    refine ⟨b2, rfl, ?_⟩
    rw [← key]; simp

/-- C20 (partial): for every word, `node.is_nonprojective_gap()` is true exactly if the word lies outside
some subtree but between two of its nodes. Missing: the technical root, where it is false. -/
theorem C20_is_nonprojective_gap_partial (hh : Reachable h) (hr : IsTree h r) (hx : x ∈ h.words r) :
    ∃ b, isNonprojectiveGap h x = some b ∧
      (b = true ↔ CausesGap h r x) :=
  (inv_reachable hh r hr).isNonprojectiveGap hr hx

/-- C20 is violated for the technical root: it is before all words, so it never lies between two nodes of
a subtree, but `root.is_nonprojective_gap()` is true in every tree in which some word other than the last
one depends on a word. (`all_nodes[:self._ord - 1]` is `all_nodes[:-1]` for the root.) -/
theorem C20_root_gap_violated (hh : Reachable h) (hr : IsTree h r) {z p : Nat} (hz : z ∈ h.words r)
    (hlast : h.ord z ≠ (h.words r).length) (hp : h.parent z = some p) (hpr : p ≠ r) :
    isNonprojectiveGap h r = some true ∧ ¬ CausesGap h r r := by
  have w := inv_reachable hh r hr
  constructor
  · have hpw : p ∈ h.words r := (w.parent_in hz hp).resolve_left hpr
    unfold isNonprojectiveGap
    have hc : climbAll h (h.next + 1) [r] r = some ([r], r) := by simp [climbAll, w.rootParent]
    rw [hc]
    simp only
    have ht : pyTake (h.words r) ((h.ord r : Int) - 1) = (h.words r).take ((h.words r).length - 1) := by
      unfold pyTake
      rw [w.rootOrd, if_neg (by omega)]
      congr 1
      omega
    obtain ⟨b1, hb1, hi1⟩ := gapLeftLoop_eq w hr (Or.inl rfl) [r]
      (pyTake (h.words r) ((h.ord r : Int) - 1)) (fun z hz => List.mem_of_mem_take (ht ▸ hz))
    have : b1 = true := by
      rw [hi1, ht]
      refine ⟨z, (w.mem_take hz).2 ?_, p, hp, ?_, by simpa using hpr⟩
      · have := w.ord_le hz; omega
      · have := w.ord_pos hpw; have := w.rootOrd; omega
    subst this
    rw [hb1]
  · rintro ⟨_, _, _, a, _, _, _, _, _, ho, _⟩
    rw [w.rootOrd] at ho
    omega

example : isNonprojectiveGap exNp 2 = some true ∧ isNonprojectiveGap exNp 1 = some false ∧
    isNonprojectiveGap exNp 3 = some false := by decide

example : ex.parent 2 = some 1 ∧ isNonprojectiveGap ex 0 = some true := by decide

end
end Verif.Tree
