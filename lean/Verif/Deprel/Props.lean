import Verif.Deprel.Model

/-!
# Property C06: the two parts of a relation
-/

namespace Verif.Deprel
open Verif.Py

theorem head_split (d : Str) : (split ':' d).head? = some (splitOnce ':' d).1 := by
  induction d with
  | nil => rfl
  | cons x d ih =>
    simp only [split, splitOnce]
    split
    · rfl
    · cases hs : split ':' d with
      | nil => exact absurd hs (split_ne_nil _ _)
      | cons p ps => rw [hs] at ih; simp at ih; simp [ih]

theorem getU_some (d : Str) : getU (some d) = some (splitOnce ':' d).1 := head_split d

theorem getS_some (d : Str) : getS (some d) = some ((splitOnce ':' d).2.getD []) := by
  unfold getS
  simp only
  cases h : splitOnce ':' d with
  | mk a b => cases b <;> rfl

/-- The two parts of a relation `d`: `u` has no colon, and `d` is `u`, or `u:s`. -/
def Parts (d u s : Str) : Prop := ':' ∉ u ∧ (d = u ∧ s = [] ∨ d = u ++ [':'] ++ s)

theorem parts_iff {d u s : Str} : Parts d u s ↔ (splitOnce ':' d).1 = u ∧ (splitOnce ':' d).2.getD [] = s := by
  constructor
  · rintro ⟨h1, ⟨rfl, rfl⟩ | rfl⟩
    · rw [splitOnce_of_not_mem h1]; simp
    · rw [List.append_assoc, List.singleton_append, splitOnce_append h1]; simp
  · rintro ⟨rfl, rfl⟩
    refine ⟨not_mem_splitOnce _ _, ?_⟩
    have := splitOnce_eq ':' d
    cases h : (splitOnce ':' d).2 with
    | none => left; rw [h] at this; simp [tailOf] at this; simp [this]
    | some s => right; rw [h] at this; simp only [tailOf] at this; simp [this]

/-- C06, reading: the getters give the unique two parts of the relation. -/
theorem C06_get (d u s : Str) : Parts d u s ↔ getU (some d) = some u ∧ getS (some d) = some s := by
  rw [parts_iff, getU_some, getS_some]; simp

/-- C06, `udeprel = v` for `v` without a colon: the universal part is `v`, the subtype is kept (a relation
that was `None` has no subtype). -/
theorem C06_set_udeprel {v : Str} (hv : ':' ∉ v) (d : Option Str) :
    getU (setU v d) = some v ∧ getS (setU v d) = some ((getS d).getD []) := by
  have key : ∀ s : Str, getU (if s ≠ [] then some (v ++ [':'] ++ s) else some v) = some v ∧
      getS (if s ≠ [] then some (v ++ [':'] ++ s) else some v) = some s := by
    intro s
    split
    · exact (C06_get _ _ _).1 ⟨hv, Or.inr rfl⟩
    · rename_i h
      simp only [ne_eq, Decidable.not_not] at h
      subst h
      exact (C06_get _ _ _).1 ⟨hv, Or.inl ⟨rfl, rfl⟩⟩
  unfold setU
  cases hd : getS d with
  | none => exact (C06_get _ _ _).1 ⟨hv, Or.inl ⟨rfl, rfl⟩⟩
  | some s => exact key s

/-- C06, `sdeprel = v` on a relation that is not `None`: no exception, the universal part is kept, the
subtype is `v` (`None` counts as the empty string). -/
theorem C06_set_sdeprel (v : Option Str) (d : Str) :
    ∃ d', setS v (some d) = some d' ∧ getU d' = getU (some d) ∧ getS d' = some (v.getD []) := by
  have hu := not_mem_splitOnce ':' d
  unfold setS
  rw [getU_some]
  match v with
  | none => exact ⟨_, rfl, (C06_get _ _ _).1 ⟨hu, Or.inl ⟨rfl, rfl⟩⟩⟩
  | some [] => exact ⟨_, rfl, (C06_get _ _ _).1 ⟨hu, Or.inl ⟨rfl, rfl⟩⟩⟩
  | some (c :: v) => exact ⟨_, rfl, (C06_get _ _ _).1 ⟨hu, Or.inr rfl⟩⟩

/-- C06: the two setters commute and the last value of each counts. -/
theorem C06_setters_independent {v : Str} (hv : ':' ∉ v) (s : Option Str) (d : Str) :
    (setS s (some d)).map (setU v) = setS s (setU v (some d)) := by
  obtain ⟨d', h1, h2, h3⟩ := C06_set_sdeprel s d
  have h4 := C06_set_udeprel hv (some d)
  have h5 : setU v d' = if s.getD [] ≠ [] then some (v ++ [':'] ++ s.getD []) else some v := by
    unfold setU; rw [h3]
  rw [h1, Option.map_some, h5]
  unfold setS
  rw [h4.1]
  match s with
  | none => simp
  | some [] => simp
  | some (c :: s) => simp

example : setU ['o', 'b', 'l'] (some ['a', 'c', 'l', ':', 'x', ':', 'y']) = some ['o', 'b', 'l', ':', 'x', ':', 'y'] ∧
    setS none (some ['a', ':', 'b']) = some (some ['a']) ∧
    setS (some ['z']) (some ['a', ':', 'b']) = some (some ['a', ':', 'z']) := by decide

/-- On a relation that is `None`, assigning a non-empty subtype raises. -/
theorem C06_none_raises (c : Char) (v : Str) : setS (some (c :: v)) none = none := rfl

end Verif.Deprel
