import Verif.Py.Num

/-!
# Property C141: ords of empty nodes that follow nine others (`OrdTuple`)

Source: `udapi/core/node.py` 1079-1125. An ord is an integer (words), a float with one decimal place, or an `OrdTuple`.
Floats are kept as their integer part and their decimal digit; `int(10*x - 10*int(x))` of such a float is that digit. `increase` (1123-1125) is left out: it reads an
attribute `key` that does not exist (the slot is `_key`).
-/

namespace Verif.Empty.OrdTuple
open Verif.Py

/-- `_ord` of a node. -/
inductive Ord where
  | int (k : Nat)
  | float (n d : Nat)
  | tuple (n m : Nat)
  deriving DecidableEq, Repr

/-- The ords that occur: the digit of a float is not 0, the second part of a tuple is at least 10. -/
def Ord.Ok : Ord → Prop
  | .int _ => True
  | .float _ d => 1 ≤ d ∧ d ≤ 9
  | .tuple _ m => 10 ≤ m

inductive Err where
  | valueError
  deriving DecidableEq, Repr

/-- `OrdTuple(string)` (node.py:1089-1098) -/
def make (s : Str) : Except Err Ord :=
  match splitOnce '.' s with
  | (a, some b) =>
    match parseNat a, parseNat b with
    | some major, some minor =>
      if minor = 0 then .error .valueError else if minor < 10 then .error .valueError else .ok (.tuple major minor)
    | _, _ => .error .valueError
  | (_, none) => .error .valueError

/-- `str(ord)` -/
def Ord.str : Ord → Str
  | .int k => natStr k
  | .float n d => natStr n ++ '.' :: natStr d
  | .tuple n m => natStr n ++ '.' :: natStr m

/-- Comparison of Python tuples of two numbers -/
def pairLt (a b : Nat × Nat) : Bool := decide (a.1 < b.1 ∨ (a.1 = b.1 ∧ a.2 < b.2))

/-- `OrdTuple.__lt__` (node.py:1113-1121) -/
def tupleLt (key : Nat × Nat) : Ord → Bool
  | .int k => pairLt key (k, 0)
  | .float n d => pairLt key (n, d)
  | .tuple n m => pairLt key (n, m)

/-- `OrdTuple.__eq__` (node.py:1103-1111) -/
def tupleEq (key : Nat × Nat) : Ord → Bool
  | .int _ => false
  | .float n d => key == (n, d)
  | .tuple n m => key == (n, m)

/-- `a < b`. For a number on the left and an `OrdTuple` on the right Python calls `OrdTuple.__gt__`, which `functools.total_ordering` defines as
`not (self < other) and self != other`. -/
def lt : Ord → Ord → Bool
  | .tuple n m, b => tupleLt (n, m) b
  | a, .tuple n m => !tupleLt (n, m) a && !tupleEq (n, m) a
  | .int a, .int b => decide (a < b)
  | .int a, .float n _ => decide (a ≤ n)
  | .float n _, .int b => decide (n < b)
  | .float n d, .float n' d' => pairLt (n, d) (n', d')

/-- `a == b`; a number is asked by `OrdTuple.__eq__` with the sides exchanged. -/
def eq : Ord → Ord → Bool
  | .tuple n m, b => tupleEq (n, m) b
  | a, .tuple n m => tupleEq (n, m) a
  | .int a, .int b => a == b
  | .int _, .float _ _ => false
  | .float _ _, .int _ => false
  | .float n d, .float n' d' => n == n' && d == d'

/-! ## What it should do -/

/-- The position of a node: after word `a`, as the `b`-th empty node (0: the word itself). -/
def pos : Ord → Nat × Nat
  | .int k => (k, 0)
  | .float n d => (n, d)
  | .tuple n m => (n, m)

/-- One position is before another one. -/
def Before (a b : Nat × Nat) : Prop := a.1 < b.1 ∨ (a.1 = b.1 ∧ a.2 < b.2)

/-! ## Proofs -/

theorem pairLt_iff (a b : Nat × Nat) : pairLt a b = true ↔ Before a b := by simp [pairLt, Before]

/-- `a < b` and `a == b` mean that the position of `a` is before that of `b`, or the same. -/
theorem C141_compare {a b : Ord} (ha : a.Ok) (hb : b.Ok) : (lt a b = true ↔ Before (pos a) (pos b)) ∧ (eq a b = true ↔ pos a = pos b) := by
  cases a <;> cases b <;> simp [lt, eq, tupleLt, tupleEq, pairLt, Before, pos, Ord.Ok] at * <;> omega

/-- So the ords are totally ordered: exactly one of `a < b`, `a == b`, `b < a` holds, and `<` is transitive. -/
theorem C141_total {a b c : Ord} (ha : a.Ok) (hb : b.Ok) (hc : c.Ok) :
    (lt a b = true ∨ eq a b = true ∨ lt b a = true) ∧ ¬ (lt a b = true ∧ eq a b = true) ∧ ¬ (lt a b = true ∧ lt b a = true) ∧
      (eq a b = eq b a) ∧ (lt a b = true → lt b c = true → lt a c = true) ∧ (eq a b = true → a = b) := by
  obtain ⟨h1, h2⟩ := C141_compare ha hb
  obtain ⟨h3, h4⟩ := C141_compare hb ha
  obtain ⟨h5, -⟩ := C141_compare hb hc
  obtain ⟨h7, -⟩ := C141_compare ha hc
  have hpos : pos a = pos b ↔ (pos a).1 = (pos b).1 ∧ (pos a).2 = (pos b).2 := Prod.ext_iff
  have hpos' : pos b = pos a ↔ (pos b).1 = (pos a).1 ∧ (pos b).2 = (pos a).2 := Prod.ext_iff
  refine ⟨?_, ?_, ?_, ?_, ?_, ?_⟩
  · rw [h1, h2, h3, hpos]
    unfold Before
    omega
  · rw [h1, h2, hpos]
    unfold Before
    omega
  · rw [h1, h3]
    unfold Before
    omega
  · rw [Bool.eq_iff_iff, h2, h4]
    exact eq_comm
  · rw [h1, h5, h7]
    unfold Before
    omega
  · rw [h2]
    cases a <;> cases b <;> simp [pos, Ord.Ok] at * <;> omega

/-- The string of an `OrdTuple` is read as the same one; the strings of other ords are refused. -/
theorem C141_string {o : Ord} (ho : o.Ok) : (∀ n m, o = .tuple n m → make o.str = .ok o) ∧ ((∀ n m, o ≠ .tuple n m) → make o.str = .error .valueError) := by
  have hd : ∀ k, '.' ∉ natStr k := fun k => not_mem_natStr (by decide) k
  constructor
  · rintro n m rfl
    unfold make Ord.str
    rw [splitOnce_append (hd n)]
    simp only [parseNat_natStr]
    unfold Ord.Ok at ho
    rw [if_neg (by omega), if_neg (by omega)]
  · intro hn
    cases o with
    | int k =>
      unfold make Ord.str
      rw [splitOnce_of_not_mem (hd k)]
    | float n d =>
      unfold make Ord.str
      rw [splitOnce_append (hd n)]
      simp only [parseNat_natStr]
      unfold Ord.Ok at ho
      rw [if_neg (by omega), if_pos (by omega)]
    | tuple n m => exact absurd rfl (hn n m)

example : lt (.float 1 9) (.tuple 1 10) = true ∧ lt (.tuple 1 10) (.int 2) = true ∧ lt (.tuple 1 10) (.tuple 1 11) = true ∧
    lt (.int 1) (.tuple 1 10) = true ∧ lt (.tuple 1 10) (.float 1 9) = false := by decide

end Verif.Empty.OrdTuple
