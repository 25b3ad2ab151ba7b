import Verif.Py.Num

/-!
# White space, `strip`, `int`

Python's white space characters (`str.isspace`, `\s` in `re`), `str.strip`, `str.rstrip`, and `int(s)`.
Simplified: digits other than the ASCII digits are not digits here.
-/

namespace Verif.Py

/-- `c.isspace()`, also `\s` of `re` for strings. -/
def isWs (c : Char) : Bool :=
  let n := c.toNat
  (9 ≤ n && n ≤ 13) || (28 ≤ n && n ≤ 32) || n == 0x85 || n == 0xa0 || n == 0x1680 ||
    (0x2000 ≤ n && n ≤ 0x200a) || n == 0x2028 || n == 0x2029 || n == 0x202f || n == 0x205f || n == 0x3000

/-- `s.lstrip()` -/
def lstrip (s : Str) : Str := s.dropWhile isWs

/-- `s.rstrip()` -/
def rstrip (s : Str) : Str := (s.reverse.dropWhile isWs).reverse

/-- `s.strip()` -/
def strip (s : Str) : Str := rstrip (lstrip s)

/-- Digits with single underscores between them; the flag says whether the last character was a digit. -/
def intDigits : Nat → Bool → Str → Option Nat
  | acc, last, [] => if last then some acc else none
  | acc, last, c :: cs =>
    match digitVal c with
    | some d => intDigits (acc * 10 + d) true cs
    | none => if c = '_' ∧ last = true then intDigits acc false cs else none

/-- `int(s)`; `none` is `ValueError`. -/
def pyInt (s : Str) : Option Int :=
  match strip s with
  | '+' :: r => (intDigits 0 false r).map Int.ofNat
  | '-' :: r => (intDigits 0 false r).map (fun n => - Int.ofNat n)
  | r => (intDigits 0 false r).map Int.ofNat

theorem isWs_digit {c : Char} (h : 48 ≤ c.toNat ∧ c.toNat ≤ 57) : isWs c = false := by
  unfold isWs
  simp only [Bool.or_eq_false_iff, Bool.and_eq_false_iff, decide_eq_false_iff_not, beq_eq_false_iff_ne]
  refine ⟨⟨⟨⟨⟨⟨⟨⟨⟨⟨?_, ?_⟩, ?_⟩, ?_⟩, ?_⟩, ?_⟩, ?_⟩, ?_⟩, ?_⟩, ?_⟩, ?_⟩ <;> omega

theorem dropWhile_of_head {p : Char → Bool} {s : Str} (h : ∀ c, s.head? = some c → p c = false) :
    s.dropWhile p = s := by
  cases s with
  | nil => rfl
  | cons c s => simp [h c rfl]

/-- `strip` leaves a string alone that neither begins nor ends with white space. -/
theorem rstrip_of_last {s : Str} (h : ∀ c, s.getLast? = some c → isWs c = false) : rstrip s = s := by
  unfold rstrip
  rw [dropWhile_of_head, List.reverse_reverse]
  intro c hc
  rw [List.head?_reverse] at hc
  exact h c hc

theorem strip_of_no_ws {s : Str} (h : ∀ c ∈ s, isWs c = false) : strip s = s := by
  unfold strip lstrip
  rw [dropWhile_of_head (fun c hc => h c (List.mem_of_mem_head? hc)), rstrip_of_last]
  intro c hc
  exact h c (List.mem_of_getLast? hc)

theorem intDigits_of_parse : ∀ (s : Str) (acc : Nat) (b : Bool) (n : Nat), parseDigits acc s = some n →
    (s = [] → b = true) → intDigits acc b s = some n
  | [], acc, b, n, h, hb => by simp only [parseDigits] at h; simp [intDigits, hb rfl, h]
  | c :: cs, acc, b, n, h, _ => by
    simp only [parseDigits] at h
    cases hd : digitVal c with
    | none => rw [hd] at h; simp at h
    | some d =>
      rw [hd] at h
      simp only [intDigits, hd]
      exact intDigits_of_parse cs _ true n h (fun _ => rfl)

/-- `int(str(n)) == n` -/
theorem pyInt_natStr (n : Nat) : pyInt (natStr n) = some (Int.ofNat n) := by
  have hs : strip (natStr n) = natStr n := strip_of_no_ws (fun c hc => isWs_digit (natStr_digits n c hc))
  have hd : intDigits 0 false (natStr n) = some n :=
    intDigits_of_parse _ _ _ _ (parseDigits_natStr n) (fun h => absurd h (natStr_ne_nil n))
  unfold pyInt
  rw [hs]
  split
  · rename_i r e
    have := natStr_digits n '+' (by rw [e]; simp)
    exact absurd this (by decide)
  · rename_i r e
    have := natStr_digits n '-' (by rw [e]; simp)
    exact absurd this (by decide)
  · rw [hd]; rfl

end Verif.Py
