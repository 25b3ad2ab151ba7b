import Verif.Tree.Spec

/-! # Basic facts about well-formed trees -/

namespace Verif.Tree
open Verif.Py

@[simp] theorem upd_same (f : Nat → α) (i : Nat) (v : α) : upd f i v i = v := by simp [upd]

theorem upd_ne (f : Nat → α) {i j : Nat} (v : α) (h : j ≠ i) : upd f i v j = f j := by simp [upd, h]

/-! ## Lists -/

theorem length_le_of_nodup_subset {l m : List Nat} (hn : l.Nodup) (hs : ∀ x ∈ l, x ∈ m) :
    l.length ≤ m.length := by
  induction l generalizing m with
  | nil => simp
  | cons a l ih =>
    rw [List.nodup_cons] at hn
    have ha : a ∈ m := hs a (List.mem_cons_self ..)
    have := ih (m := m.erase a) hn.2 (fun x hx => by
      have hne : x ≠ a := fun e => hn.1 (e ▸ hx)
      exact (List.mem_erase_of_ne hne).2 (hs x (List.mem_cons_of_mem _ hx)))
    rw [List.length_erase_of_mem ha] at this
    have : 0 < m.length := List.length_pos_of_mem ha
    simp only [List.length_cons]
    omega

theorem length_le_of_nodup_lt {l : List Nat} {n : Nat} (hn : l.Nodup) (hs : ∀ x ∈ l, x < n) :
    l.length ≤ n := by
  have := length_le_of_nodup_subset (m := List.range n) hn (fun x hx => by simpa using hs x hx)
  simpa using this

/-- A list numbered by `f` consecutively from `k`. -/
def Aligned (f : Nat → Nat) (k : Nat) (l : List Nat) : Prop := l.map f = List.range' k l.length

theorem aligned_nil (f : Nat → Nat) (k : Nat) : Aligned f k [] := by simp [Aligned]

theorem aligned_cons {f : Nat → Nat} {k x : Nat} {l : List Nat} :
    Aligned f k (x :: l) ↔ f x = k ∧ Aligned f (k + 1) l := by
  simp [Aligned, List.range'_succ]

theorem aligned_append {f : Nat → Nat} {k : Nat} {l m : List Nat} :
    Aligned f k (l ++ m) ↔ Aligned f k l ∧ Aligned f (k + l.length) m := by
  induction l generalizing k with
  | nil => simp [aligned_nil]
  | cons a l ih =>
    simp only [List.cons_append, aligned_cons, ih, and_assoc, List.length_cons]
    rw [Nat.add_right_comm, Nat.add_assoc k l.length 1]

theorem aligned_congr {f g : Nat → Nat} {k : Nat} {l : List Nat} (h : ∀ x ∈ l, f x = g x) :
    Aligned f k l ↔ Aligned g k l := by
  unfold Aligned
  rw [List.map_congr_left h]

theorem aligned_get {f : Nat → Nat} {k : Nat} {l : List Nat} (h : Aligned f k l) {i x : Nat}
    (hx : l[i]? = some x) : f x = k + i := by
  have : (l.map f)[i]? = some (f x) := by simp [hx]
  rw [h] at this
  obtain ⟨hi, rfl⟩ := List.getElem?_eq_some_iff.1 hx
  simp only [List.getElem?_eq_some_iff] at this
  obtain ⟨_, h2⟩ := this
  simp at h2
  omega

theorem aligned_mem {f : Nat → Nat} {k : Nat} {l : List Nat} (h : Aligned f k l) {x : Nat}
    (hx : x ∈ l) : k ≤ f x ∧ f x < k + l.length ∧ l[f x - k]? = some x := by
  obtain ⟨i, hi, rfl⟩ := List.mem_iff_getElem.1 hx
  have := aligned_get h (List.getElem?_eq_getElem hi)
  rw [this]
  refine ⟨by omega, by omega, ?_⟩
  rw [Nat.add_sub_cancel_left]
  exact List.getElem?_eq_getElem hi

theorem aligned_pairwise {f : Nat → Nat} {k : Nat} {l : List Nat} (h : Aligned f k l) :
    l.Pairwise (fun x y => f x < f y) := by
  have : (l.map f).Pairwise (· < ·) := by rw [h]; exact List.pairwise_lt_range'
  exact List.pairwise_map.1 this

theorem pairwise_ord_nodup {f : Nat → Nat} {l : List Nat} (h : l.Pairwise (fun x y => f x < f y)) :
    l.Nodup := h.imp (fun hab e => by subst e; omega)

theorem pairwise_ord_inj {f : Nat → Nat} {l : List Nat} (h : l.Pairwise (fun x y => f x < f y))
    {a b : Nat} (ha : a ∈ l) (hb : b ∈ l) (e : f a = f b) : a = b := by
  induction l with
  | nil => simp at ha
  | cons c l ih =>
    rw [List.pairwise_cons] at h
    rcases List.mem_cons.1 ha with rfl | ha' <;> rcases List.mem_cons.1 hb with rfl | hb'
    · rfl
    · have := h.1 b hb'; omega
    · have := h.1 a ha'; omega
    · exact ih h.2 ha' hb'

theorem aligned_nodup {f : Nat → Nat} {k : Nat} {l : List Nat} (h : Aligned f k l) : l.Nodup :=
  pairwise_ord_nodup (aligned_pairwise h)

theorem aligned_inj {f : Nat → Nat} {k : Nat} {l : List Nat} (h : Aligned f k l) {x y : Nat}
    (hx : x ∈ l) (hy : y ∈ l) (e : f x = f y) : x = y := by
  have h1 := (aligned_mem h hx).2.2
  have h2 := (aligned_mem h hy).2.2
  rw [e, h2] at h1
  exact (Option.some.inj h1).symm

/-! ## Sorting by ord -/

theorem ordLe_trans (ord : Nat → Nat) (a b c : Nat) :
    ordLe ord a b = true → ordLe ord b c = true → ordLe ord a c = true := by
  simp only [ordLe, decide_eq_true_eq]; omega

theorem ordLe_total (ord : Nat → Nat) (a b : Nat) :
    ordLe ord a b = true ∨ ordLe ord b a = true := by
  simp only [ordLe, decide_eq_true_eq]; omega

theorem mem_sortNodes {ord : Nat → Nat} {l : List Nat} {x : Nat} :
    x ∈ sortNodes ord l ↔ x ∈ l := mem_pySort

theorem sortNodes_perm (ord : Nat → Nat) (l : List Nat) : (sortNodes ord l).Perm l :=
  pySort_perm _ _

/-- Sorting nodes with different ords gives a strictly increasing list. -/
theorem sortNodes_pairwise {ord : Nat → Nat} {l : List Nat} (hn : l.Nodup)
    (hinj : ∀ x ∈ l, ∀ y ∈ l, ord x = ord y → x = y) :
    (sortNodes ord l).Pairwise (fun x y => ord x < ord y) := by
  have h1 := pySort_pairwise (ordLe_trans ord) (ordLe_total ord) l
  have h2 : (sortNodes ord l).Nodup := (sortNodes_perm ord l).nodup_iff.2 hn
  have h3 := h1.and h2
  refine (h3.imp_of_mem ?_)
  intro a b ha hb ⟨hab, hne⟩
  simp only [ordLe, decide_eq_true_eq] at hab
  have : ord a ≠ ord b := fun e => hne (hinj a (mem_sortNodes.1 ha) b (mem_sortNodes.1 hb) e)
  omega

/-- Two strictly increasing lists with the same members are equal. -/
theorem sorted_ext {ord : Nat → Nat} {l m : List Nat}
    (hl : l.Pairwise (fun x y => ord x < ord y)) (hm : m.Pairwise (fun x y => ord x < ord y))
    (h : ∀ x, x ∈ l ↔ x ∈ m) : l = m := by
  have hp : l.Perm m := by
    rw [List.perm_iff_count]
    intro a
    have h1 := List.nodup_iff_count.1 (pairwise_ord_nodup hl) a
    have h2 := List.nodup_iff_count.1 (pairwise_ord_nodup hm) a
    have := h a
    rw [← List.count_pos_iff, ← List.count_pos_iff] at this
    omega
  apply List.Perm.eq_of_pairwise (le := fun x y => ord x < ord y) ?_ hl hm hp
  intro a b _ _ h1 h2
  omega

theorem sortNodes_of_sorted {ord : Nat → Nat} {l : List Nat}
    (hl : l.Pairwise (fun x y => ord x < ord y)) : sortNodes ord l = l := by
  apply pySort_of_pairwise
  exact hl.imp (fun h => by simp only [ordLe, decide_eq_true_eq]; omega)

/-! ## Well-formed trees -/

namespace WF
variable {h : Heap} {r : Nat}

theorem aligned (w : WF h r) : Aligned h.ord 1 (h.words r) := w.ords

theorem nodup (w : WF h r) : (h.words r).Nodup := aligned_nodup w.aligned

theorem root_not_mem (w : WF h r) : r ∉ h.words r := by
  intro hm
  have := (aligned_mem w.aligned hm).1
  rw [w.rootOrd] at this
  omega

theorem ord_pos (w : WF h r) {x : Nat} (hx : x ∈ h.words r) : 1 ≤ h.ord x :=
  (aligned_mem w.aligned hx).1

theorem ord_le (w : WF h r) {x : Nat} (hx : x ∈ h.words r) : h.ord x ≤ (h.words r).length := by
  have := (aligned_mem w.aligned hx).2.1
  omega

theorem ord_inj (w : WF h r) {x y : Nat} (hx : InTree h r x) (hy : InTree h r y)
    (e : h.ord x = h.ord y) : x = y := by
  rcases hx with rfl | hx <;> rcases hy with rfl | hy
  · rfl
  · have := w.ord_pos hy; have := w.rootOrd; omega
  · have := w.ord_pos hx; have := w.rootOrd; omega
  · exact aligned_inj w.aligned hx hy e

theorem get_ord (w : WF h r) {x : Nat} (hx : x ∈ h.words r) : (h.words r)[h.ord x - 1]? = some x :=
  (aligned_mem w.aligned hx).2.2

theorem not_root (w : WF h r) {x : Nat} (hx : x ∈ h.words r) : isRoot h x = false := by
  have h1 := w.rootOf x hx
  have h2 : x ≠ r := fun e => w.root_not_mem (e ▸ hx)
  simp only [isRoot, decide_eq_false_iff_not]
  omega

theorem child_mem (w : WF h r) {p x : Nat} (hp : InTree h r p) (hx : x ∈ h.children p) :
    x ∈ h.words r := ((w.childIff p hp x).1 hx).1

theorem child_parent (w : WF h r) {p x : Nat} (hp : InTree h r p) (hx : x ∈ h.children p) :
    h.parent x = some p := ((w.childIff p hp x).1 hx).2

theorem parent_in (w : WF h r) {p x : Nat} (hx : x ∈ h.words r) (hp : h.parent x = some p) :
    InTree h r p := by
  obtain ⟨q, hq, hin⟩ := w.parentIn x hx
  rw [hp] at hq
  exact (Option.some.inj hq) ▸ hin

theorem mem_children (w : WF h r) {p x : Nat} (hx : x ∈ h.words r) (hp : h.parent x = some p) :
    x ∈ h.children p := (w.childIff p (w.parent_in hx hp) x).2 ⟨hx, hp⟩

theorem children_nodup (w : WF h r) {p : Nat} (hp : InTree h r p) : (h.children p).Nodup :=
  pairwise_ord_nodup (w.childSorted p hp)

/-- Induction from the root downwards. -/
theorem induct (w : WF h r) (P : Nat → Prop) (hroot : P r)
    (hstep : ∀ x p, x ∈ h.words r → h.parent x = some p → InTree h r p → P p → P x) :
    ∀ x, InTree h r x → P x := by
  have key : ∀ x, Anc h r x → x ∈ h.words r → P x := by
    intro x hx
    induction hx with
    | parent hp => intro hm; exact hstep _ _ hm hp (Or.inl rfl) hroot
    | step hp ha ih =>
      intro hm
      rcases w.parent_in hm hp with rfl | hpm
      · exact hstep _ _ hm hp (Or.inl rfl) hroot
      · exact hstep _ _ hm hp (Or.inr hpm) (ih hpm)
  rintro x (rfl | hx)
  · exact hroot
  · exact key x (w.reach x hx) hx

theorem anc_in (w : WF h r) {a x : Nat} (hx : InTree h r x) (ha : Anc h a x) : InTree h r a := by
  induction ha with
  | parent hp =>
    rcases hx with rfl | hx
    · rw [w.rootParent] at hp; simp at hp
    · exact w.parent_in hx hp
  | step hp _ ih =>
    rcases hx with rfl | hx
    · rw [w.rootParent] at hp; simp at hp
    · exact ih (w.parent_in hx hp)

theorem not_anc_root (w : WF h r) {a : Nat} : ¬ Anc h a r := by
  intro ha
  cases ha with
  | parent hp => rw [w.rootParent] at hp; simp at hp
  | step hp _ => rw [w.rootParent] at hp; simp at hp

theorem word_of_anc (w : WF h r) {a x : Nat} (hx : InTree h r x) (ha : Anc h a x) :
    x ∈ h.words r := by
  rcases hx with rfl | hx
  · exact absurd ha w.not_anc_root
  · exact hx

end WF

theorem Anc.trans {h : Heap} {a b c : Nat} (h1 : Anc h a b) (h2 : Anc h b c) : Anc h a c := by
  induction h2 with
  | parent hp => exact .step hp h1
  | step hp _ ih => exact .step hp ih

theorem anc_iff {h : Heap} {a x : Nat} :
    Anc h a x ↔ ∃ p, h.parent x = some p ∧ (p = a ∨ Anc h a p) := by
  constructor
  · intro ha
    cases ha with
    | parent hp => exact ⟨a, hp, Or.inl rfl⟩
    | step hp ha => exact ⟨_, hp, Or.inr ha⟩
  · rintro ⟨p, hp, rfl | ha⟩
    · exact .parent hp
    · exact .step hp ha

/-- Ancestors of a node are comparable. -/
theorem anc_linear {h : Heap} {a b x : Nat} (h1 : Anc h a x) (h2 : Anc h b x) :
    a = b ∨ Anc h a b ∨ Anc h b a := by
  induction h1 with
  | parent hp =>
    cases h2 with
    | parent hq => rw [hp] at hq; exact Or.inl (Option.some.inj hq)
    | step hq hb => rw [hp] at hq; cases hq; exact Or.inr (Or.inr hb)
  | step hp ha ih =>
    cases h2 with
    | parent hq => rw [hp] at hq; cases hq; exact Or.inr (Or.inl ha)
    | step hq hb => rw [hp] at hq; cases hq; exact ih hb

namespace WF
variable {h : Heap} {r : Nat}

theorem anc_irrefl (w : WF h r) {x : Nat} (hx : InTree h r x) : ¬ Anc h x x := by
  refine w.induct (fun x => ¬ Anc h x x) w.not_anc_root ?_ x hx
  intro x p hm hp hin ih ha
  obtain ⟨q, hq, hor⟩ := anc_iff.1 ha
  rw [hp] at hq
  cases hq
  apply ih
  rcases hor with rfl | ha'
  · exact ha
  · exact (Anc.parent hp).trans ha'

theorem anc_asymm (w : WF h r) {a b : Nat} (hb : InTree h r b) (h1 : Anc h a b) : ¬ Anc h b a :=
  fun h2 => w.anc_irrefl hb (h2.trans h1)

end WF
end Verif.Tree
