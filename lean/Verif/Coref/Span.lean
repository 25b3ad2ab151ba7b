import Verif.Py.Sort
import Verif.Coref.Entity

/-!
# Property C36: spans of mentions (udapi/core/coref.py:920-967)

The nodes of a tree are named by their `ord` in tenths: word 3 is 30, the empty node 3.1 is 31. A tree is the list
`root.descendants_and_empty` (root.py:262-264), which is sorted by ord.
Simplified: `float` is modelled for strings of the forms `12` and `12.3` only (other strings are rejected); numbers are exact.
-/

namespace Verif.Coref
open Verif.Py

/-- `f"{node.ord}"` -/
def tenStr (t : Nat) : Str := if t % 10 = 0 then natStr (t / 10) else natStr (t / 10) ++ ['.', digitChar (t % 10)]

/-- `float(s)`, in tenths. -/
def parseTen (s : Str) : Option Nat :=
  match splitOnce '.' s with
  | (a, none) => (parseNat a).map (10 * ·)
  | (a, some [c]) =>
    match parseNat a, digitVal c with
    | some n, some d => some (10 * n + d)
    | _, _ => none
  | (_, some _) => none

/-- One comma-separated part (coref.py:923-929). -/
def parseRange (s : Str) : Option (Nat × Nat) :=
  if '-' ∈ s then
    match split '-' s with
    | [a, b] =>
      match parseTen a, parseTen b with
      | some lo, some hi => some (lo, hi)
      | _, _ => none
    | _ => none
  else (parseTen s).map (fun x => (x, x))

/-- The loop over the parts (coref.py:921-930); `none`: ValueError. -/
def parseRanges : List Str → Option (List (Nat × Nat))
  | [] => some []
  | p :: ps =>
    match parseRange p, parseRanges ps with
    | some r, some rs => some (r :: rs)
    | _, _ => none

/-- The order of pairs used by `ranges.sort()` (coref.py:931). -/
def rangeLe (a b : Nat × Nat) : Bool := decide (a.1 < b.1) || (a.1 == b.1 && decide (a.2 ≤ b.2))

/-- `_num_in_ranges` (coref.py:933-939) -/
def numInRanges (num : Nat) : List (Nat × Nat) → Bool
  | [] => false
  | (lo, hi) :: rs => if num < lo then false else if num ≤ hi then true else numInRanges num rs

/-- `span_to_nodes(root, span)` (coref.py:920-941); `none`: ValueError. -/
def spanToNodes (all : List Nat) (span : Str) : Option (List Nat) :=
  match parseRanges (split ',' span) with
  | none => none
  | some rs => some (all.filter (fun w => numInRanges w (pySort rangeLe rs)))

/-- The outer loop of `nodes_to_span` (coref.py:959-966) on the nodes `all_nodes[i+1:]`. The inner loop (963-964) takes
the nodes as long as they belong to the mention; the node where it stops is skipped by `i += 1` of the next round. -/
def runs (nodes : List Nat) (found : Nat) (rest : List Nat) : List (Nat × Nat) :=
  match rest with
  | [] => []
  | x :: rest' =>
    if found < nodes.length then
      if x ∈ nodes then
        let run := x :: rest'.takeWhile (· ∈ nodes)
        (x, run.getLast (by simp [run])) ::
          runs nodes (found + run.length) ((rest'.dropWhile (· ∈ nodes)).drop 1)
      else runs nodes found rest'
    else []
termination_by rest.length
decreasing_by
  · have := (List.dropWhile_sublist (fun y => decide (y ∈ nodes)) (l := rest')).length_le
    simp only [List.length_drop, List.length_cons]; omega
  · simp

/-- The string of one range (coref.py:966). -/
def rangeStr (r : Nat × Nat) : Str := if r.1 < r.2 then tenStr r.1 ++ '-' :: tenStr r.2 else tenStr r.1

/-- `nodes_to_span(nodes)` (coref.py:944-967) -/
def nodesToSpan (all nodes : List Nat) : Str :=
  if nodes = [] then [] else join [','] ((runs nodes 0 all).map rangeStr)

/-! ## Proofs -/

theorem mem_takeWhile_imp {α : Type} {p : α → Bool} {x : α} : ∀ {l : List α}, x ∈ l.takeWhile p → p x = true
  | [], h => by cases h
  | a :: l, h => by
    by_cases ha : p a = true
    · rw [List.takeWhile_cons_of_pos ha] at h
      rcases List.mem_cons.1 h with rfl | h
      · exact ha
      · exact mem_takeWhile_imp h
    · rw [List.takeWhile_cons_of_neg ha] at h; cases h

theorem digitVal_digit {t : Nat} : digitVal (digitChar (t % 10)) = some (t % 10) :=
  digitVal_digitChar (Nat.mod_lt _ (by decide))

theorem parseTen_tenStr (t : Nat) : parseTen (tenStr t) = some t := by
  have hdot : '.' ∉ natStr (t / 10) := not_mem_natStr (by decide) _
  unfold tenStr
  by_cases h : t % 10 = 0
  · rw [if_pos h]
    unfold parseTen
    rw [splitOnce_of_not_mem hdot]
    simp only [parseNat_natStr, Option.map_some, Option.some.injEq]
    omega
  · rw [if_neg h]
    unfold parseTen
    rw [show natStr (t / 10) ++ ['.', digitChar (t % 10)] = natStr (t / 10) ++ '.' :: [digitChar (t % 10)] from rfl,
      splitOnce_append hdot]
    simp only [parseNat_natStr, digitVal_digit, Option.some.injEq]
    omega

theorem not_mem_tenStr {c : Char} (h1 : ¬ (48 ≤ c.toNat ∧ c.toNat ≤ 57)) (h2 : c ≠ '.') (t : Nat) : c ∉ tenStr t := by
  unfold tenStr
  split
  · exact not_mem_natStr h1 _
  · intro h
    rcases List.mem_append.1 h with h | h
    · exact not_mem_natStr h1 _ h
    · rcases List.mem_cons.1 h with h | h
      · exact h2 h
      · have : c = digitChar (t % 10) := by simpa using h
        apply h1
        rw [this, digitChar_toNat (Nat.mod_lt _ (by decide))]
        have := Nat.mod_lt t (show 0 < 10 by decide)
        omega

theorem parseRange_rangeStr {r : Nat × Nat} (h : r.1 ≤ r.2) : parseRange (rangeStr r) = some r := by
  have hd : ∀ t, '-' ∉ tenStr t := fun t => not_mem_tenStr (by decide) (by decide) t
  unfold rangeStr parseRange
  split
  · rw [if_pos (by simp), split_append (hd _), split_of_not_mem (hd _)]
    simp only [parseTen_tenStr]
  · rw [if_neg (hd _), parseTen_tenStr]
    simp only [Option.map_some, Option.some.injEq]
    exact Prod.ext rfl (by simp; omega)

theorem comma_not_mem_rangeStr (r : Nat × Nat) : ',' ∉ rangeStr r := by
  have hd : ∀ t, ',' ∉ tenStr t := fun t => not_mem_tenStr (by decide) (by decide) t
  unfold rangeStr
  split
  · simp [hd]
  · exact hd _

theorem parseRanges_map : ∀ {rs : List (Nat × Nat)}, (∀ r ∈ rs, r.1 ≤ r.2) → parseRanges (rs.map rangeStr) = some rs
  | [], _ => rfl
  | r :: rs, h => by
    simp only [List.map_cons, parseRanges, parseRange_rangeStr (h r (List.mem_cons_self ..)),
      parseRanges_map (fun x hx => h x (List.mem_cons_of_mem _ hx))]

theorem rangeLe_trans (a b c : Nat × Nat) (h1 : rangeLe a b = true) (h2 : rangeLe b c = true) : rangeLe a c = true := by
  simp only [rangeLe, Bool.or_eq_true, decide_eq_true_eq, Bool.and_eq_true, beq_iff_eq] at *
  omega

theorem rangeLe_total (a b : Nat × Nat) : rangeLe a b = true ∨ rangeLe b a = true := by
  simp only [rangeLe, Bool.or_eq_true, decide_eq_true_eq, Bool.and_eq_true, beq_iff_eq]
  omega

theorem numInRanges_iff {num : Nat} : ∀ {rs : List (Nat × Nat)}, rs.Pairwise (fun a b => rangeLe a b = true) →
    (numInRanges num rs = true ↔ ∃ r ∈ rs, r.1 ≤ num ∧ num ≤ r.2)
  | [], _ => by simp [numInRanges]
  | (lo, hi) :: rs, h => by
    rw [List.pairwise_cons] at h
    unfold numInRanges
    split
    · rename_i hlt
      simp only [Bool.false_eq_true, false_iff]
      rintro ⟨r, hr, h1, h2⟩
      rcases List.mem_cons.1 hr with rfl | hr
      · simp at h1; omega
      · have := h.1 r hr
        simp only [rangeLe, Bool.or_eq_true, decide_eq_true_eq, Bool.and_eq_true, beq_iff_eq] at this
        omega
    · split
      · rename_i h1 h2
        simp only [true_iff]
        exact ⟨(lo, hi), List.mem_cons_self .., by simp; omega, h2⟩
      · rename_i h1 h2
        rw [numInRanges_iff h.2]
        constructor
        · rintro ⟨r, hr, hx⟩; exact ⟨r, List.mem_cons_of_mem _ hr, hx⟩
        · rintro ⟨r, hr, hx⟩
          rcases List.mem_cons.1 hr with rfl | hr
          · exact absurd hx.2 h2
          · exact ⟨r, hr, hx⟩

/-- What a span means: the nodes of the tree, in word order, that lie in at least one of the ranges, whatever the order
of the ranges in the string and however they overlap. -/
theorem C36_meaning {all : List Nat} {span : Str} {rs : List (Nat × Nat)} (h : parseRanges (split ',' span) = some rs) :
    spanToNodes all span = some (all.filter (fun w => decide (∃ r ∈ rs, r.1 ≤ w ∧ w ≤ r.2))) := by
  unfold spanToNodes
  simp only [h, Option.some.injEq]
  apply List.filter_congr
  intro w _
  rw [Bool.eq_iff_iff, numInRanges_iff (pySort_pairwise rangeLe_trans rangeLe_total rs), decide_eq_true_iff]
  constructor
  · rintro ⟨r, hr, hx⟩; exact ⟨r, (pySort_perm rangeLe rs).mem_iff.1 hr, hx⟩
  · rintro ⟨r, hr, hx⟩; exact ⟨r, (pySort_perm rangeLe rs).mem_iff.2 hr, hx⟩

/-- "7,3-4.1" -/
example : spanToNodes [10, 20, 30, 40, 41, 50, 60, 70] ['7', ',', '3', '-', '4', '.', '1'] = some [30, 40, 41, 70] := by
  decide +kernel

/-- The ranges found are ranges of nodes of the mention, without gaps. -/
theorem runs_sound (nodes : List Nat) (found : Nat) (rest : List Nat) (hs : rest.Pairwise (· < ·)) :
    ∀ r ∈ runs nodes found rest, r.1 ≤ r.2 ∧ r.1 ∈ rest ∧ ∀ x ∈ rest, r.1 ≤ x → x ≤ r.2 → x ∈ nodes := by
  induction hn : rest.length using Nat.strongRecOn generalizing found rest with
  | ind n ih =>
    cases rest with
    | nil => intro r hr; simp [runs] at hr
    | cons x rest' =>
      have hs' := hs
      rw [List.pairwise_cons] at hs
      intro r hr
      unfold runs at hr
      split at hr
      · split at hr
        · rename_i hx
          have htd := List.takeWhile_append_dropWhile (p := fun y => decide (y ∈ nodes)) (l := rest')
          have hsub : ((rest'.dropWhile (fun y => decide (y ∈ nodes))).drop 1).Sublist rest' :=
            (List.drop_sublist _ _).trans (List.dropWhile_sublist _)
          rcases List.mem_cons.1 hr with rfl | hr
          · have hlast := List.getLast_mem (l := x :: rest'.takeWhile (fun y => decide (y ∈ nodes))) (by simp)
            refine ⟨?_, List.mem_cons_self .., ?_⟩
            · rcases List.mem_cons.1 hlast with h | h
              · simp only [h]; exact Nat.le_refl _
              · exact Nat.le_of_lt (hs.1 _ ((List.takeWhile_sublist _).subset h))
            · intro y hy h1 h2
              rcases List.mem_cons.1 hy with rfl | hy
              · exact hx
              · rw [← htd] at hy
                rcases List.mem_append.1 hy with hy | hy
                · have := mem_takeWhile_imp hy
                  simpa using this
                · exfalso
                  have hp : ((x :: rest'.takeWhile (fun y => decide (y ∈ nodes))) ++
                      rest'.dropWhile (fun y => decide (y ∈ nodes))).Pairwise (· < ·) := by
                    rw [List.cons_append, htd]; exact hs'
                  have := (List.pairwise_append.1 hp).2.2 _ hlast _ hy
                  simp only at h2
                  omega
          · have hlt : ((rest'.dropWhile (fun y => decide (y ∈ nodes))).drop 1).length < n := by
              have := hsub.length_le
              simp only [List.length_cons] at hn; omega
            have hrec := ih _ hlt _ _ (hs.2.sublist hsub) rfl r hr
            refine ⟨hrec.1, List.mem_cons_of_mem _ (hsub.subset hrec.2.1), ?_⟩
            intro y hy h1 h2
            rcases List.mem_cons.1 hy with rfl | hy
            · exact hx
            · rw [← htd] at hy
              rcases List.mem_append.1 hy with hy | hy
              · have := mem_takeWhile_imp hy
                simpa using this
              · cases hd : rest'.dropWhile (fun y => decide (y ∈ nodes)) with
                | nil => rw [hd] at hy; cases hy
                | cons z zs =>
                  rw [hd] at hy
                  rcases List.mem_cons.1 hy with rfl | hy
                  · exfalso
                    have hp : (y :: zs).Pairwise (· < ·) := by rw [← hd]; exact hs.2.sublist (List.dropWhile_sublist _)
                    have hm := hrec.2.1
                    rw [hd] at hm
                    have := (List.pairwise_cons.1 hp).1 r.1 (by simpa using hm)
                    omega
                  · exact hrec.2.2 y (by rw [hd]; simpa using hy) h1 h2
        · have hlt : rest'.length < n := by simp only [List.length_cons] at hn; omega
          have hrec := ih _ hlt found rest' hs.2 rfl r hr
          refine ⟨hrec.1, List.mem_cons_of_mem _ hrec.2.1, ?_⟩
          intro y hy h1 h2
          rcases List.mem_cons.1 hy with rfl | hy
          · exfalso; have := hs.1 _ hrec.2.1; omega
          · exact hrec.2.2 y hy h1 h2
      · cases hr

/-- Every node of the mention lies in one of the ranges found. -/
theorem runs_complete (nodes : List Nat) (found : Nat) (rest : List Nat) (hs : rest.Pairwise (· < ·))
    (hc : found + (rest.filter (fun y => decide (y ∈ nodes))).length ≤ nodes.length) :
    ∀ x ∈ rest, x ∈ nodes → ∃ r ∈ runs nodes found rest, r.1 ≤ x ∧ x ≤ r.2 := by
  induction hn : rest.length using Nat.strongRecOn generalizing found rest with
  | ind n ih =>
    cases rest with
    | nil => intro x hx; cases hx
    | cons z rest' =>
      rw [List.pairwise_cons] at hs
      intro x hx hxn
      have hpos : found < nodes.length := by
        have : 0 < ((z :: rest').filter (fun y => decide (y ∈ nodes))).length :=
          List.length_pos_iff.2 (List.ne_nil_of_mem (List.mem_filter.2 ⟨hx, by simpa using hxn⟩))
        omega
      unfold runs
      rw [if_pos hpos]
      by_cases hz : z ∈ nodes
      · rw [if_pos hz]
        have htd := List.takeWhile_append_dropWhile (p := fun y => decide (y ∈ nodes)) (l := rest')
        have hp : (rest'.takeWhile (fun y => decide (y ∈ nodes)) ++
            rest'.dropWhile (fun y => decide (y ∈ nodes))).Pairwise (· < ·) := by rw [htd]; exact hs.2
        have hsub : ((rest'.dropWhile (fun y => decide (y ∈ nodes))).drop 1).Sublist rest' :=
          (List.drop_sublist _ _).trans (List.dropWhile_sublist _)
        have hall : (rest'.takeWhile (fun y => decide (y ∈ nodes))).filter (fun y => decide (y ∈ nodes)) =
            rest'.takeWhile (fun y => decide (y ∈ nodes)) := by
          rw [List.filter_eq_self]
          intro y hy
          exact mem_takeWhile_imp (p := fun y => decide (y ∈ nodes)) hy
        have hxin : x ∈ z :: rest'.takeWhile (fun y => decide (y ∈ nodes)) ∨
            x ∈ (rest'.dropWhile (fun y => decide (y ∈ nodes))).drop 1 := by
          rcases List.mem_cons.1 hx with rfl | hx
          · exact Or.inl (List.mem_cons_self ..)
          · rw [← htd] at hx
            rcases List.mem_append.1 hx with hx | hx
            · exact Or.inl (List.mem_cons_of_mem _ hx)
            · right
              cases hd : rest'.dropWhile (fun y => decide (y ∈ nodes)) with
              | nil => rw [hd] at hx; cases hx
              | cons w ws =>
                rw [hd] at hx
                rcases List.mem_cons.1 hx with rfl | hx
                · exfalso
                  have := List.head?_dropWhile_not (fun y => decide (y ∈ nodes)) rest'
                  rw [hd] at this
                  simp at this
                  exact this hxn
                · simpa using hx
        rcases hxin with hxin | hxin
        · refine ⟨_, List.mem_cons_self .., ?_, ?_⟩
          · rcases List.mem_cons.1 hxin with rfl | h
            · exact Nat.le_refl _
            · exact Nat.le_of_lt (hs.1 _ ((List.takeWhile_sublist _).subset h))
          · have hp2 : (z :: rest'.takeWhile (fun y => decide (y ∈ nodes))).Pairwise (· < ·) := by
              rw [List.pairwise_cons]
              exact ⟨fun y hy => hs.1 y ((List.takeWhile_sublist _).subset hy), (List.pairwise_append.1 hp).1⟩
            have hdl := List.dropLast_concat_getLast (l := z :: rest'.takeWhile (fun y => decide (y ∈ nodes))) (by simp)
            rw [← hdl] at hxin hp2
            rcases List.mem_append.1 hxin with h | h
            · exact Nat.le_of_lt ((List.pairwise_append.1 hp2).2.2 _ h _ (List.mem_singleton.2 rfl))
            · exact Nat.le_of_eq (List.mem_singleton.1 h)
        · have hlt : ((rest'.dropWhile (fun y => decide (y ∈ nodes))).drop 1).length < n := by
            have := hsub.length_le
            simp only [List.length_cons] at hn; omega
          have hc' : found + (z :: rest'.takeWhile (fun y => decide (y ∈ nodes))).length +
              (((rest'.dropWhile (fun y => decide (y ∈ nodes))).drop 1).filter (fun y => decide (y ∈ nodes))).length
              ≤ nodes.length := by
            rw [List.filter_cons_of_pos (by simpa using hz)] at hc
            conv at hc => lhs; rw [← htd]
            rw [List.filter_append, hall] at hc
            have := ((List.drop_sublist 1 (rest'.dropWhile (fun y => decide (y ∈ nodes)))).filter
              (fun y => decide (y ∈ nodes))).length_le
            simp only [List.length_cons, List.length_append] at hc ⊢
            omega
          obtain ⟨r, hr, h⟩ := ih _ hlt _ _ (hs.2.sublist hsub) hc' rfl x hxin hxn
          exact ⟨r, List.mem_cons_of_mem _ hr, h⟩
      · rw [if_neg hz]
        have hx' : x ∈ rest' := by
          rcases List.mem_cons.1 hx with rfl | h
          · exact absurd hxn hz
          · exact h
        have hlt : rest'.length < n := by simp only [List.length_cons] at hn; omega
        refine ih _ hlt found rest' hs.2 ?_ rfl x hx' hxn
        rw [List.filter_cons_of_neg (by simpa using hz)] at hc
        exact hc

/-- C36: converting words of a sentence to a span string and back gives the same words in word order, for every tree
and every non-empty list of its words (in any order, even with repetitions). -/
theorem C36_span_roundtrip {all nodes : List Nat} (hs : all.Pairwise (· < ·)) (hne : nodes ≠ [])
    (hin : ∀ x ∈ nodes, x ∈ all) :
    spanToNodes all (nodesToSpan all nodes) = some (all.filter (fun w => decide (w ∈ nodes))) := by
  have hc : 0 + (all.filter (fun y => decide (y ∈ nodes))).length ≤ nodes.length := by
    rw [Nat.zero_add]
    apply length_le_of_subset
    · exact ((hs.imp (fun h => Nat.ne_of_lt h)).sublist List.filter_sublist)
    · intro x hx; simpa using (List.mem_filter.1 hx).2
  have hsound := runs_sound nodes 0 all hs
  have hcomp := runs_complete nodes 0 all hs hc
  have hrs : runs nodes 0 all ≠ [] := by
    obtain ⟨x, l, rfl⟩ := List.exists_cons_of_ne_nil hne
    obtain ⟨r, hr, _⟩ := hcomp x (hin x (List.mem_cons_self ..)) (List.mem_cons_self ..)
    exact List.ne_nil_of_mem hr
  have hparse : parseRanges (split ',' (nodesToSpan all nodes)) = some (runs nodes 0 all) := by
    unfold nodesToSpan
    rw [if_neg hne, split_join (by simpa using hrs) (by
      intro p hp
      obtain ⟨r, _, rfl⟩ := List.mem_map.1 hp
      exact comma_not_mem_rangeStr r)]
    exact parseRanges_map (fun r hr => (hsound r hr).1)
  rw [C36_meaning hparse]
  congr 1
  apply List.filter_congr
  intro w hw
  rw [Bool.eq_iff_iff, decide_eq_true_iff, decide_eq_true_iff]
  constructor
  · rintro ⟨r, hr, h1, h2⟩; exact (hsound r hr).2.2 w hw h1 h2
  · intro h; exact hcomp w hw h

/-- A mention with gaps and an empty node: words 2, 3, 3.1 and 5 of a sentence of five words. -/
example : nodesToSpan [10, 20, 30, 31, 40, 50] [50, 20, 31, 30] = ['2', '-', '3', '.', '1', ',', '5'] ∧
    spanToNodes [10, 20, 30, 31, 40, 50] ['2', '-', '3', '.', '1', ',', '5'] = some [20, 30, 31, 50] := by
  decide +kernel

/-- Two non-empty sets of words with the same span string are the same set. -/
theorem C36_span_injective {all a b : List Nat} (hs : all.Pairwise (· < ·)) (ha : a ≠ []) (hb : b ≠ [])
    (hina : ∀ x ∈ a, x ∈ all) (hinb : ∀ x ∈ b, x ∈ all) (h : nodesToSpan all a = nodesToSpan all b) :
    ∀ x, x ∈ a ↔ x ∈ b := by
  have h1 := C36_span_roundtrip hs ha hina
  have h2 := C36_span_roundtrip hs hb hinb
  rw [h, h2, Option.some.injEq] at h1
  intro x
  have := congrArg (fun l => x ∈ l) h1
  simp only [List.mem_filter, decide_eq_true_eq, eq_iff_iff] at this
  exact ⟨fun hx => (this.2 ⟨hina x hx, hx⟩).2, fun hx => (this.1 ⟨hinb x hx, hx⟩).2⟩

example : nodesToSpan [10, 20, 30] [10, 20] ≠ nodesToSpan [10, 20, 30] [10, 30] := by decide +kernel

/-- The limit of the claim: the span string of no words at all is the empty string, which is rejected when read. -/
theorem C36_empty (all : List Nat) : nodesToSpan all [] = [] ∧ spanToNodes all [] = none := by
  refine ⟨rfl, rfl⟩

end Verif.Coref
