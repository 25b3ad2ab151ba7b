/-!
# Python string built-ins on `List Char`

`Str` stands for a Python `str` (a sequence of code points). The functions model the built-ins
`str.split(c)`, `str.split(c, 1)` for a one-character separator and `sep.join(list)`.
The lemmas characterise them: `join` inverts `split`, the pieces contain no separator, and
`split` inverts `join` on separator-free pieces.
-/

namespace Verif.Py

/-- A Python string as a list of code points. -/
abbrev Str := List Char

/-- `s.split(c)` for a one-character separator `c`. Never empty. -/
def split (c : Char) : Str → List Str
  | [] => [[]]
  | x :: xs =>
    if x = c then [] :: split c xs
    else
      match split c xs with
      | [] => [[x]]
      | p :: ps => (x :: p) :: ps

/-- `s.split(c, 1)`: the part before the first `c`, and the rest if there is a `c`. -/
def splitOnce (c : Char) : Str → Str × Option Str
  | [] => ([], none)
  | x :: xs =>
    if x = c then ([], some xs)
    else ((x :: (splitOnce c xs).1), (splitOnce c xs).2)

/-- `sep.join(pieces)`. -/
def join (sep : Str) : List Str → Str
  | [] => []
  | [p] => p
  | p :: q :: ps => p ++ sep ++ join sep (q :: ps)

theorem split_ne_nil (c : Char) (s : Str) : split c s ≠ [] := by
  cases s with
  | nil => simp [split]
  | cons x xs =>
    simp only [split]
    split
    · simp
    · split <;> simp

theorem join_split (c : Char) (s : Str) : join [c] (split c s) = s := by
  induction s with
  | nil => rfl
  | cons x xs ih =>
    simp only [split]
    split
    · rename_i h
      subst h
      cases hs : split x xs with
      | nil => exact absurd hs (split_ne_nil _ _)
      | cons p ps => rw [hs] at ih; simp [join, ih]
    · cases hs : split c xs with
      | nil => exact absurd hs (split_ne_nil _ _)
      | cons p ps =>
        rw [hs] at ih
        cases ps with
        | nil => simpa [join] using ih
        | cons q qs => simpa [join] using ih

theorem not_mem_split (c : Char) (s : Str) : ∀ p ∈ split c s, c ∉ p := by
  induction s with
  | nil => simp [split]
  | cons x xs ih =>
    simp only [split]
    split
    · intro p hp
      rcases List.mem_cons.1 hp with rfl | hp
      · simp
      · exact ih p hp
    · rename_i hx
      cases hs : split c xs with
      | nil => exact absurd hs (split_ne_nil _ _)
      | cons q qs =>
        rw [hs] at ih
        intro p hp
        rcases List.mem_cons.1 hp with rfl | hp
        · have := ih q (by simp)
          simp only [List.mem_cons, not_or]
          exact ⟨fun h => hx h.symm, this⟩
        · exact ih p (by simp [hp])

theorem split_of_not_mem {c : Char} {s : Str} (h : c ∉ s) : split c s = [s] := by
  induction s with
  | nil => rfl
  | cons x xs ih =>
    simp only [List.mem_cons, not_or] at h
    have hx : ¬ x = c := fun e => h.1 e.symm
    simp [split, hx, ih h.2]

theorem split_append {c : Char} {p : Str} (h : c ∉ p) (s : Str) :
    split c (p ++ c :: s) = p :: split c s := by
  induction p with
  | nil => simp [split]
  | cons x xs ih =>
    simp only [List.mem_cons, not_or] at h
    have hx : ¬ x = c := fun e => h.1 e.symm
    simp [split, hx, ih h.2]

/-- `split` inverts `join` on a non-empty list of separator-free pieces. -/
theorem split_join {c : Char} : ∀ {ps : List Str}, ps ≠ [] → (∀ p ∈ ps, c ∉ p) →
    split c (join [c] ps) = ps
  | [], h, _ => absurd rfl h
  | [p], _, h => by simp [join, split_of_not_mem (h p (by simp))]
  | p :: q :: ps, _, h => by
    have ih := @split_join c (q :: ps) (by simp) (fun r hr => h r (by simp [hr]))
    have : join [c] (p :: q :: ps) = p ++ c :: join [c] (q :: ps) := by simp [join]
    rw [this, split_append (h p (by simp)), ih]

theorem splitOnce_append {c : Char} {p : Str} (h : c ∉ p) (s : Str) :
    splitOnce c (p ++ c :: s) = (p, some s) := by
  induction p with
  | nil => simp [splitOnce]
  | cons x xs ih =>
    simp only [List.mem_cons, not_or] at h
    have hx : ¬ x = c := fun e => h.1 e.symm
    simp [splitOnce, hx, ih h.2]

theorem splitOnce_of_not_mem {c : Char} {s : Str} (h : c ∉ s) : splitOnce c s = (s, none) := by
  induction s with
  | nil => rfl
  | cons x xs ih =>
    simp only [List.mem_cons, not_or] at h
    have hx : ¬ x = c := fun e => h.1 e.symm
    simp [splitOnce, hx, ih h.2]

theorem not_mem_splitOnce (c : Char) (s : Str) : c ∉ (splitOnce c s).1 := by
  induction s with
  | nil => simp [splitOnce]
  | cons x xs ih =>
    simp only [splitOnce]
    split
    · simp
    · rename_i hx
      simp only [List.mem_cons, not_or]
      exact ⟨fun h => hx h.symm, ih⟩

/-- What follows the first separator, with the separator itself. -/
def tailOf (c : Char) : Option Str → Str
  | none => []
  | some b => c :: b

theorem splitOnce_eq (c : Char) (s : Str) :
    (splitOnce c s).1 ++ tailOf c (splitOnce c s).2 = s := by
  induction s with
  | nil => rfl
  | cons x xs ih =>
    simp only [splitOnce]
    split
    · rename_i h; simp [tailOf, h]
    · simpa using ih

theorem splitOnce_snd_none {c : Char} {s : Str} (h : (splitOnce c s).2 = none) : c ∉ s := by
  have h1 := splitOnce_eq c s
  have h2 := not_mem_splitOnce c s
  rw [h] at h1
  rw [← h1]
  simpa [tailOf] using h2

theorem join_eq_nil {sep : Str} (hsep : sep ≠ []) :
    ∀ {ps : List Str}, join sep ps = [] → ps = [] ∨ ps = [[]]
  | [], _ => Or.inl rfl
  | [p], h => by simp [join] at h; simp [h]
  | p :: q :: ps, h => by simp [join, hsep] at h

end Verif.Py
