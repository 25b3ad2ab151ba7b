import Verif.Py.Str

/-!
# Decimal numbers as strings

`str(n)` for a natural number and `int(s)` for a string of ASCII digits. Simplified: `int` of strings with
signs, spaces, underscores or other digits than 0-9 is not modelled (`none`).
-/

namespace Verif.Py

/-- The character of a digit. -/
def digitChar (d : Nat) : Char := Char.ofNat (48 + d)

/-- `str(n)` for a natural number. -/
def natStr (n : Nat) : Str :=
  if n < 10 then [digitChar n] else natStr (n / 10) ++ [digitChar (n % 10)]
termination_by n

/-- The value of a digit character. -/
def digitVal (c : Char) : Option Nat :=
  if 48 ≤ c.toNat ∧ c.toNat ≤ 57 then some (c.toNat - 48) else none

/-- Digits from left to right. -/
def parseDigits : Nat → Str → Option Nat
  | acc, [] => some acc
  | acc, c :: cs =>
    match digitVal c with
    | none => none
    | some d => parseDigits (acc * 10 + d) cs

/-- `int(s)` for a string of ASCII digits. -/
def parseNat (s : Str) : Option Nat := if s = [] then none else parseDigits 0 s

theorem digitChar_toNat {d : Nat} (h : d < 10) : (digitChar d).toNat = 48 + d := by
  have : d = 0 ∨ d = 1 ∨ d = 2 ∨ d = 3 ∨ d = 4 ∨ d = 5 ∨ d = 6 ∨ d = 7 ∨ d = 8 ∨ d = 9 := by omega
  rcases this with rfl | rfl | rfl | rfl | rfl | rfl | rfl | rfl | rfl | rfl <;> decide

theorem digitVal_digitChar {d : Nat} (h : d < 10) : digitVal (digitChar d) = some d := by
  unfold digitVal
  rw [digitChar_toNat h, if_pos (by omega)]
  congr 1; omega

theorem parseDigits_append (s t : Str) : ∀ acc, parseDigits acc (s ++ t) =
    match parseDigits acc s with
    | none => none
    | some a => parseDigits a t := by
  induction s with
  | nil => intro acc; rfl
  | cons c s ih =>
    intro acc
    simp only [List.cons_append, parseDigits]
    cases digitVal c with
    | none => rfl
    | some d => exact ih _

theorem natStr_ne_nil (n : Nat) : natStr n ≠ [] := by
  unfold natStr
  split <;> simp

theorem parseDigits_natStr (n : Nat) : parseDigits 0 (natStr n) = some n := by
  induction n using Nat.strongRecOn with
  | ind n ih =>
    unfold natStr
    split
    · rename_i h
      simp [parseDigits, digitVal_digitChar h]
    · rename_i h
      rw [parseDigits_append, ih (n / 10) (by omega)]
      simp only [parseDigits, digitVal_digitChar (d := n % 10) (by omega)]
      congr 1; omega

/-- `int(str(n)) == n` -/
theorem parseNat_natStr (n : Nat) : parseNat (natStr n) = some n := by
  unfold parseNat
  rw [if_neg (natStr_ne_nil n), parseDigits_natStr]

theorem natStr_inj {n m : Nat} (h : natStr n = natStr m) : n = m := by
  have h1 := parseNat_natStr n
  rw [h, parseNat_natStr] at h1
  exact (Option.some.inj h1).symm

/-- `str(n)` consists of digits. -/
theorem natStr_digits (n : Nat) : ∀ c ∈ natStr n, 48 ≤ c.toNat ∧ c.toNat ≤ 57 := by
  induction n using Nat.strongRecOn with
  | ind n ih =>
    intro c hc
    unfold natStr at hc
    split at hc
    · rename_i h
      rw [List.mem_singleton.1 hc, digitChar_toNat h]; omega
    · rename_i h
      rcases List.mem_append.1 hc with hc | hc
      · exact ih (n / 10) (by omega) c hc
      · rw [List.mem_singleton.1 hc, digitChar_toNat (by omega)]; omega

theorem not_mem_natStr {c : Char} (h : ¬ (48 ≤ c.toNat ∧ c.toNat ≤ 57)) (n : Nat) : c ∉ natStr n :=
  fun hm => h (natStr_digits n c hm)

/-- Only digits parse. -/
theorem parseDigits_digits : ∀ {s : Str} {acc n : Nat}, parseDigits acc s = some n →
    ∀ c ∈ s, 48 ≤ c.toNat ∧ c.toNat ≤ 57
  | [], _, _, _, _, hc => by simp at hc
  | x :: s, acc, n, h, c, hc => by
    simp only [parseDigits] at h
    cases hx : digitVal x with
    | none => rw [hx] at h; simp at h
    | some d =>
      rw [hx] at h
      rcases List.mem_cons.1 hc with rfl | hc
      · unfold digitVal at hx
        split at hx
        · assumption
        · simp at hx
      · exact parseDigits_digits h c hc

end Verif.Py
