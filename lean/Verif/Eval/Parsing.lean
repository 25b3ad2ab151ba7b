import Verif.Deprel.Model
import Verif.Eval.F1

/-!
# `eval.Parsing` (udapi/block/eval/parsing.py)
-/

namespace Verif.Eval
open Verif.Py

/-- What `eval.Parsing` looks at in a node: the ord of its parent and its `deprel`. -/
structure Edge where
  parent : Nat
  deprel : Option Str
  deriving DecidableEq

/-- `correct_las`, `correct_ulas`, `correct_uas` and `total` (parsing.py:12). -/
structure Parsing where
  las : Nat := 0
  ulas : Nat := 0
  uas : Nat := 0
  total : Nat := 0
  deriving DecidableEq

/-- The loop over the pairs of nodes (parsing.py:25-31). -/
def Parsing.pairs (s : Parsing) : List (Edge × Edge) → Parsing
  | [] => s
  | (p, g) :: rest =>
    if p.parent = g.parent then
      let s := { s with uas := s.uas + 1 }
      let s := if p.deprel = g.deprel then { s with las := s.las + 1 } else s
      let s := if Deprel.getU p.deprel = Deprel.getU g.deprel then { s with ulas := s.ulas + 1 } else s
      s.pairs rest
    else s.pairs rest

/-- `process_tree` (parsing.py:14-31) for a predicted and a gold tree of different zones; `none` is the `ValueError`. -/
def Parsing.tree (s : Parsing) (pred gold : List Edge) : Option Parsing :=
  if pred.length ≠ gold.length then none
  else some ({ s with total := s.total + pred.length }.pairs (pred.zip gold))

/-- `process_tree` on each pair of trees. -/
def Parsing.trees (s : Parsing) : List (List Edge × List Edge) → Option Parsing
  | [] => some s
  | (p, g) :: rest =>
    match s.tree p g with
    | some s => s.trees rest
    | none => none

/-- The scores printed by `process_end` (parsing.py:38-40): UAS, LAS, ULAS. `none` is the `ZeroDivisionError`.
Simplified: rational numbers in place of floating point numbers. -/
def Parsing.scores (s : Parsing) : Option (Rat × Rat × Rat) :=
  if s.total = 0 then none
  else some (100 * (s.uas : Rat) / s.total, 100 * (s.las : Rat) / s.total, 100 * (s.ulas : Rat) / s.total)

/-! ## Specification -/

/-- All pairs of corresponding nodes. -/
def nodePairs (ts : List (List Edge × List Edge)) : List (Edge × Edge) := ts.flatMap (fun t => t.1.zip t.2)

def sameParent (e : Edge × Edge) : Bool := e.1.parent = e.2.parent
def sameLabelled (e : Edge × Edge) : Bool := e.1.parent = e.2.parent ∧ e.1.deprel = e.2.deprel
def sameULabelled (e : Edge × Edge) : Bool := e.1.parent = e.2.parent ∧ Deprel.getU e.1.deprel = Deprel.getU e.2.deprel

theorem pairs_spec (l : List (Edge × Edge)) (s : Parsing) :
    s.pairs l = { las := s.las + l.countP sameLabelled, ulas := s.ulas + l.countP sameULabelled,
                  uas := s.uas + l.countP sameParent, total := s.total } := by
  induction l generalizing s with
  | nil => simp [Parsing.pairs]
  | cons e rest ih =>
    obtain ⟨p, g⟩ := e
    unfold Parsing.pairs
    simp only [List.countP_cons]
    by_cases h1 : p.parent = g.parent
    · rw [if_pos h1, ih]
      by_cases h2 : p.deprel = g.deprel
      · have h3 : Deprel.getU p.deprel = Deprel.getU g.deprel := by rw [h2]
        simp [h1, h2, sameLabelled, sameULabelled, sameParent]; omega
      · by_cases h3 : Deprel.getU p.deprel = Deprel.getU g.deprel
        · simp [h1, h2, h3, sameLabelled, sameULabelled, sameParent]; omega
        · simp [h1, h2, h3, sameLabelled, sameULabelled, sameParent]; omega
    · rw [if_neg h1, ih]
      simp [h1, sameLabelled, sameULabelled, sameParent]

theorem trees_spec (ts : List (List Edge × List Edge)) (s : Parsing) (h : ∀ t ∈ ts, t.1.length = t.2.length) :
    s.trees ts = some { las := s.las + (nodePairs ts).countP sameLabelled,
                        ulas := s.ulas + (nodePairs ts).countP sameULabelled,
                        uas := s.uas + (nodePairs ts).countP sameParent,
                        total := s.total + (nodePairs ts).length } := by
  induction ts generalizing s with
  | nil => simp [Parsing.trees, nodePairs]
  | cons t rest ih =>
    obtain ⟨p, g⟩ := t
    have h0 : p.length = g.length := h (p, g) (List.mem_cons_self ..)
    unfold Parsing.trees Parsing.tree
    rw [if_neg (by simp [h0])]
    simp only
    rw [ih _ (fun t ht => h t (List.mem_cons_of_mem _ ht)), pairs_spec]
    simp [nodePairs, h0, List.countP_append]
    omega

theorem trees_error (ts : List (List Edge × List Edge)) (s : Parsing) :
    (s.trees ts = none) ↔ ∃ t ∈ ts, t.1.length ≠ t.2.length := by
  induction ts generalizing s with
  | nil => simp [Parsing.trees]
  | cons t rest ih =>
    obtain ⟨p, g⟩ := t
    unfold Parsing.trees Parsing.tree
    by_cases h0 : p.length = g.length
    · rw [if_neg (by simp [h0])]
      simp only
      rw [ih]
      simp [h0]
    · rw [if_pos h0]
      simp
      left; exact h0

theorem countP_le {α : Type} {p q : α → Bool} (h : ∀ x, p x = true → q x = true) (l : List α) :
    l.countP p ≤ l.countP q := List.countP_mono_left (fun x _ hx => h x hx)

/-- C41: for every sequence of tree pairs with equally many words, the evaluation counts the words with the right parent
(UAS), those with the right parent and relation (LAS) and those with the right parent and universal relation (ULAS), and
LAS <= ULAS <= UAS <= all words; it is refused exactly if some pair differs in the number of words. -/
theorem C41_counts (ts : List (List Edge × List Edge)) :
    (({} : Parsing).trees ts = none ↔ ∃ t ∈ ts, t.1.length ≠ t.2.length) ∧
    ∀ s, ({} : Parsing).trees ts = some s →
      s.total = (nodePairs ts).length ∧ s.uas = (nodePairs ts).countP sameParent ∧
      s.las = (nodePairs ts).countP sameLabelled ∧ s.ulas = (nodePairs ts).countP sameULabelled ∧
      s.las ≤ s.ulas ∧ s.ulas ≤ s.uas ∧ s.uas ≤ s.total := by
  refine ⟨trees_error ts {}, ?_⟩
  intro s hs
  have hl : ∀ t ∈ ts, t.1.length = t.2.length := by
    intro t ht
    apply Decidable.byContradiction
    intro hne
    rw [(trees_error ts {}).2 ⟨t, ht, hne⟩] at hs
    cases hs
  rw [trees_spec ts {} hl] at hs
  have e := (Option.some.inj hs).symm
  subst e
  simp only [Nat.zero_add]
  refine ⟨trivial, trivial, trivial, trivial, countP_le ?_ _, countP_le ?_ _, List.countP_le_length⟩
  · intro x hx
    unfold sameLabelled at hx
    unfold sameULabelled
    simp at hx ⊢
    exact ⟨hx.1, by rw [hx.2]⟩
  · intro x hx
    unfold sameULabelled at hx
    unfold sameParent
    simp at hx ⊢
    exact hx.1

theorem percent {a b t : Nat} (ht : t ≠ 0) (h : a ≤ b) : 100 * (a : Rat) / (t : Nat) ≤ 100 * (b : Rat) / (t : Nat) := by
  have h1 : (0 : Rat) < (t : Nat) := by exact_mod_cast Nat.pos_of_ne_zero ht
  have h2 : (a : Rat) ≤ (b : Nat) := by exact_mod_cast h
  rw [div_le_iff h1, Rat.div_mul_cancel (by grind)]
  grind

/-- C41: the printed scores satisfy 0 <= LAS <= ULAS <= UAS <= 100, whenever there is a word at all. -/
theorem C41_scores (ts : List (List Edge × List Edge)) (s : Parsing) (h : ({} : Parsing).trees ts = some s)
    (hne : nodePairs ts ≠ []) :
    ∃ uas las ulas, s.scores = some (uas, las, ulas) ∧ 0 ≤ las ∧ las ≤ ulas ∧ ulas ≤ uas ∧ uas ≤ 100 := by
  obtain ⟨h1, _, _, _, h2, h3, h4⟩ := (C41_counts ts).2 s h
  have ht : s.total ≠ 0 := by rw [h1]; simp [hne]
  unfold Parsing.scores
  rw [if_neg ht]
  have hp : (0 : Rat) < (s.total : Nat) := by exact_mod_cast Nat.pos_of_ne_zero ht
  refine ⟨_, _, _, rfl, ?_, percent ht h2, percent ht h3, ?_⟩
  · have := percent (a := 0) ht (Nat.zero_le s.las)
    refine Rat.le_trans ?_ this
    rw [le_div_iff hp]
    simp
  · have := percent ht h4
    refine Rat.le_trans this ?_
    rw [div_le_iff hp]
    exact Rat.le_refl

/-- Beside C41: if there are no words, no scores are printed; the program ends with a `ZeroDivisionError`. -/
theorem C41_no_words (ts : List (List Edge × List Edge)) (s : Parsing) (h : ({} : Parsing).trees ts = some s) :
    s.scores = none ↔ nodePairs ts = [] := by
  obtain ⟨h1, _⟩ := (C41_counts ts).2 s h
  unfold Parsing.scores
  split
  · next h0 => rw [h1] at h0; simp at h0; simp [h0]
  · next h0 => rw [h1] at h0; simp at h0; simp [h0]

/-- Two words; the first has the right universal relation only, the second a wrong parent. -/
example : ({} : Parsing).trees [([⟨2, some "nsubj:pass".toList⟩, ⟨1, none⟩], [⟨2, some "nsubj".toList⟩, ⟨0, none⟩])] =
    some { las := 0, ulas := 1, uas := 1, total := 2 } := by decide

end Verif.Eval
