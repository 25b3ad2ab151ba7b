import Verif.Empty.OrdTuple

/-!
# Property C185: addresses of nodes (udapi/core/node.py:893-901, udapi/core/mwt.py:46-48)

The address of the tree (C33) is given; it is any string. The ord of a node is that of C141: a whole number, a float of an empty
node, or an `OrdTuple`.
-/

namespace Verif.Empty.OrdTuple
open Verif.Py

/-- `node.address()` (node.py:893-901); `none` if the node has no root. -/
def address (root : Option Str) (o : Ord) : Str := root.getD ['?'] ++ '#' :: o.str

/-- The operands of `+` in `mwt.address()`. -/
inductive Operand
  | str (s : Str)
  | method
  deriving DecidableEq

/-- `a + b` in Python; `none` is the TypeError. -/
def plus : Operand → Operand → Option Operand
  | .str a, .str b => some (.str (a ++ b))
  | _, _ => none

/-- `mwt.address()` (mwt.py:46-48). `rootAddress` is the value of `self.root.address`, which is a method and is not called. -/
def mwtAddress (rootAddress : Operand) (ordRange : Str) : Option Operand :=
  (plus rootAddress (.str ['#'])).bind (plus · (.str ordRange))

theorem not_mem_str {c : Char} (h : ¬ (48 ≤ c.toNat ∧ c.toNat ≤ 57)) (hd : c ≠ '.') (o : Ord) : c ∉ o.str := by
  cases o with
  | int k => exact not_mem_natStr h k
  | float n d => simp [Ord.str, not_mem_natStr h, hd]
  | tuple n m => simp [Ord.str, not_mem_natStr h, hd]

theorem last_sep_inj {c : Char} : ∀ {a b x y : Str}, c ∉ x → c ∉ y → a ++ c :: x = b ++ c :: y → a = b ∧ x = y := by
  intro a
  induction a with
  | nil =>
    intro b x y hx hy h
    cases b with
    | nil => exact ⟨rfl, by simpa using h⟩
    | cons d b =>
      simp only [List.nil_append, List.cons_append, List.cons.injEq] at h
      exact absurd (by rw [h.2]; simp) hx
  | cons d a ih =>
    intro b x y hx hy h
    cases b with
    | nil =>
      simp only [List.nil_append, List.cons_append, List.cons.injEq] at h
      exact absurd (by rw [← h.2]; simp) hy
    | cons e b =>
      simp only [List.cons_append, List.cons.injEq] at h
      obtain ⟨h1, h2⟩ := ih hx hy h.2
      exact ⟨by rw [h.1, h1], h2⟩

theorem pair_str_inj {n d n' d' : Nat} (h : natStr n ++ '.' :: natStr d = natStr n' ++ '.' :: natStr d') : n = n' ∧ d = d' := by
  have hp : ¬ (48 ≤ ('.' : Char).toNat ∧ ('.' : Char).toNat ≤ 57) := by decide
  obtain ⟨h1, h2⟩ := last_sep_inj (not_mem_natStr hp d) (not_mem_natStr hp d') h
  exact ⟨natStr_inj h1, natStr_inj h2⟩

theorem str_inj {o p : Ord} (ho : o.Ok) (hp : p.Ok) (h : o.str = p.str) : o = p := by
  have hd : ∀ k n d : Nat, natStr k ≠ natStr n ++ '.' :: natStr d := by
    intro k n d he
    have : '.' ∈ natStr k := by rw [he]; simp
    exact not_mem_natStr (by decide) k this
  cases o with
  | int k =>
    cases p with
    | int k' => rw [natStr_inj h]
    | float n d => exact absurd h (hd k n d)
    | tuple n d => exact absurd h (hd k n d)
  | float n d =>
    cases p with
    | int k' => exact absurd h.symm (hd k' n d)
    | float n' d' => obtain ⟨rfl, rfl⟩ := pair_str_inj h; rfl
    | tuple n' d' =>
      obtain ⟨rfl, rfl⟩ := pair_str_inj h
      have h1 : d ≤ 9 := ho.2
      have h2 : 10 ≤ d := hp
      omega
  | tuple n d =>
    cases p with
    | int k' => exact absurd h.symm (hd k' n d)
    | float n' d' =>
      obtain ⟨rfl, rfl⟩ := pair_str_inj h
      have h1 : 10 ≤ d := ho
      have h2 : d ≤ 9 := hp.2
      omega
    | tuple n' d' => obtain ⟨rfl, rfl⟩ := pair_str_inj h; rfl

/-- **C185.** The address of a node determines the address of its tree and its ord, whatever characters the id of the tree has:
nodes with the same address are in trees with the same address and have the same ord. -/
theorem C185_node {r s : Str} {o p : Ord} (ho : o.Ok) (hp : p.Ok) (h : address (some r) o = address (some s) p) : r = s ∧ o = p := by
  have hc : ¬ (48 ≤ ('#' : Char).toNat ∧ ('#' : Char).toNat ≤ 57) := by decide
  obtain ⟨h1, h2⟩ := last_sep_inj (not_mem_str hc (by decide) o) (not_mem_str hc (by decide) p) h
  exact ⟨h1, str_inj ho hp h2⟩

/-- **C185.** The address has the documented form: after the last `#` is the ord, before it the address of the tree. -/
theorem C185_form (r : Str) (o : Ord) : ∃ x, '#' ∉ x ∧ address (some r) o = r ++ ['#'] ++ x ∧ (∀ k, o = .int k → parseNat x = some k) := by
  refine ⟨o.str, not_mem_str (by decide) (by decide) o, by simp [address], ?_⟩
  rintro k rfl
  exact parseNat_natStr k

/-- **C185, violated.** A node without root has the same address as the node with the same ord in a tree with the address `?`. -/
theorem C185_no_root (o : Ord) : address none o = address (some ['?']) o := rfl

/-- **C185, violated.** The address of a multi-word token raises an exception for every multi-word token; it would be the
documented one if the method was called. -/
theorem C185_mwt_violated (root r : Str) : mwtAddress .method r = none ∧
    mwtAddress (.str root) r = some (.str (root ++ '#' :: r)) := by
  refine ⟨rfl, ?_⟩
  simp [mwtAddress, plus]

example : address (some ['s', '#', '1', '/', 'e', 'n']) (.int 4) = ['s', '#', '1', '/', 'e', 'n', '#', '4'] := by decide +kernel
example : address (some ['s']) (.float 4 1) = ['s', '#', '4', '.', '1'] ∧ address (some ['s']) (.tuple 4 10) =
    ['s', '#', '4', '.', '1', '0'] := by decide +kernel

end Verif.Empty.OrdTuple
