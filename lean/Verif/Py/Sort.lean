/-!
# Python's stable sort

`pySort le l` models `list.sort()` / `sorted(l)`: a stable sort by the (total, transitive) relation
`le`. Insertion sort is used because any stable sort gives the same list.
-/

namespace Verif.Py

/-- Insert `a` before the first element that is not strictly smaller. -/
def insertBy (le : α → α → Bool) (a : α) : List α → List α
  | [] => [a]
  | b :: l => if le a b then a :: b :: l else b :: insertBy le a l

/-- Stable sort. -/
def pySort (le : α → α → Bool) : List α → List α
  | [] => []
  | a :: l => insertBy le a (pySort le l)

theorem insertBy_perm (le : α → α → Bool) (a : α) (l : List α) :
    (insertBy le a l).Perm (a :: l) := by
  induction l with
  | nil => exact List.Perm.refl _
  | cons b l ih =>
    simp only [insertBy]
    split
    · exact List.Perm.refl _
    · exact (List.Perm.cons b ih).trans (List.Perm.swap a b l)

theorem pySort_perm (le : α → α → Bool) (l : List α) : (pySort le l).Perm l := by
  induction l with
  | nil => exact List.Perm.refl _
  | cons a l ih => exact (insertBy_perm le a _).trans (List.Perm.cons a ih)

@[simp] theorem mem_pySort {le : α → α → Bool} {l : List α} {x : α} :
    x ∈ pySort le l ↔ x ∈ l := (pySort_perm le l).mem_iff

theorem length_pySort {le : α → α → Bool} {l : List α} : (pySort le l).length = l.length :=
  (pySort_perm le l).length_eq

theorem insertBy_pairwise {le : α → α → Bool}
    (trans : ∀ a b c, le a b = true → le b c = true → le a c = true)
    (total : ∀ a b, le a b = true ∨ le b a = true) (a : α) {l : List α}
    (h : l.Pairwise (fun x y => le x y = true)) :
    (insertBy le a l).Pairwise (fun x y => le x y = true) := by
  induction l with
  | nil => simp [insertBy]
  | cons b l ih =>
    simp only [insertBy]
    rw [List.pairwise_cons] at h
    split
    · rename_i hab
      rw [List.pairwise_cons]
      refine ⟨?_, List.pairwise_cons.2 h⟩
      intro x hx
      rcases List.mem_cons.1 hx with rfl | hx
      · exact hab
      · exact trans _ _ _ hab (h.1 x hx)
    · rename_i hab
      rw [List.pairwise_cons]
      refine ⟨?_, ih h.2⟩
      intro x hx
      rcases List.mem_cons.1 ((insertBy_perm le a l).mem_iff.1 hx) with rfl | hx
      · rcases total x b with h' | h'
        · exact absurd h' hab
        · exact h'
      · exact h.1 x hx

theorem pySort_pairwise {le : α → α → Bool}
    (trans : ∀ a b c, le a b = true → le b c = true → le a c = true)
    (total : ∀ a b, le a b = true ∨ le b a = true) (l : List α) :
    (pySort le l).Pairwise (fun x y => le x y = true) := by
  induction l with
  | nil => simp [pySort]
  | cons a l ih => exact insertBy_pairwise trans total a ih

/-- Sorting a sorted list does nothing. -/
theorem pySort_of_pairwise {le : α → α → Bool} {l : List α}
    (h : l.Pairwise (fun x y => le x y = true)) : pySort le l = l := by
  induction l with
  | nil => rfl
  | cons a l ih =>
    rw [List.pairwise_cons] at h
    rw [pySort, ih h.2]
    cases l with
    | nil => rfl
    | cons b l => simp [insertBy, h.1 b (by simp)]

/-- The order of elements that are equivalent for `le` is kept: the definition of stability. -/
theorem insertBy_filter {le : α → α → Bool} (p : α → Bool) (a : α) (l : List α)
    (h : ∀ x ∈ l, p a = true → p x = true → le a x = true) :
    (insertBy le a l).filter p = (a :: l).filter p := by
  induction l with
  | nil => rfl
  | cons b l ih =>
    simp only [insertBy]
    split
    · rfl
    · rename_i hab
      have ih' := ih (fun x hx => h x (by simp [hx]))
      by_cases hb : p b = true
      · by_cases ha : p a = true
        · exact absurd (h b (by simp) ha hb) hab
        · simp only [List.filter_cons, hb, ha, ih', if_true]
          simp
      · simp only [List.filter_cons, hb, ih']
        simp

theorem pySort_stable {le : α → α → Bool} (p : α → Bool) (l : List α)
    (h : ∀ x ∈ l, ∀ y ∈ l, p x = true → p y = true → le x y = true) :
    (pySort le l).filter p = l.filter p := by
  induction l with
  | nil => rfl
  | cons a l ih =>
    rw [pySort, insertBy_filter p a]
    · simp only [List.filter_cons]
      rw [ih (fun x hx y hy => h x (by simp [hx]) y (by simp [hy]))]
    · intro x hx ha hpx
      exact h a (by simp) x (by simp [mem_pySort.1 hx]) ha hpx

theorem insertBy_filter_pos {le : α → α → Bool}
    (trans : ∀ a b c, le a b = true → le b c = true → le a c = true) (p : α → Bool) (a : α) (ha : p a = true) :
    ∀ (l : List α), l.Pairwise (fun x y => le x y = true) →
      (insertBy le a l).filter p = insertBy le a (l.filter p)
  | [], _ => by simp [insertBy, ha]
  | b :: l, hl => by
    rw [List.pairwise_cons] at hl
    have ih := insertBy_filter_pos trans p a ha l hl.2
    by_cases hab : le a b = true
    · simp only [insertBy, hab, if_true]
      by_cases hb : p b = true
      · simp [hb, ha, insertBy, hab]
      · have hall : ∀ c ∈ l.filter p, le a c = true := fun c hc =>
          trans a b c hab (hl.1 c (List.mem_filter.1 hc).1)
        have : insertBy le a (l.filter p) = a :: l.filter p := by
          cases hf : l.filter p with
          | nil => rfl
          | cons c m => simp [insertBy, hall c (by rw [hf]; simp)]
        simp [hb, ha, this]
    · simp only [insertBy, hab, Bool.false_eq_true, if_false]
      by_cases hb : p b = true
      · simp [hb, ih, insertBy, hab]
      · simp [hb, ih]

/-- Sorting a part of a list gives that part of the sorted list. -/
theorem pySort_filter {le : α → α → Bool}
    (trans : ∀ a b c, le a b = true → le b c = true → le a c = true)
    (total : ∀ a b, le a b = true ∨ le b a = true) (p : α → Bool) :
    ∀ (l : List α), (pySort le l).filter p = pySort le (l.filter p)
  | [] => rfl
  | a :: l => by
    have ih := pySort_filter trans total p l
    by_cases ha : p a = true
    · rw [pySort, insertBy_filter_pos trans p a ha _ (pySort_pairwise trans total l), ih]
      simp [ha, pySort]
    · rw [pySort, insertBy_filter p a _ (fun x _ h => absurd h ha)]
      simp [ha, ih]

end Verif.Py
