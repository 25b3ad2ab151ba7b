import Verif.Coref.Span

/-!
# Property C179: the subspans of a mention (udapi/core/coref.py:131-140 and 270-293)

Nodes are their ords in tenths as in C36; `all` is `root.descendants_and_empty`.
-/

namespace Verif.Coref
open Verif.Py

/-- `sorted(words)` for nodes -/
def sortNodes (l : List Nat) : List Nat := pySort (fun a b => decide (a ≤ b)) l

/-- `CorefMentionSubspan(words, mention, subspan_id)` (coref.py:275-280); `none`: `ValueError`. -/
def mkSubspan (words : List Nat) (id : Str) : Option (List Nat × Str) :=
  if words = [] then none else some (sortNodes words, id)

/-- `f'[{idx}/{len(subspans)}]'` -/
def subspanId (idx n : Nat) : Str := '[' :: natStr idx ++ '/' :: natStr n ++ [']']

/-- The loop (coref.py:138-139). -/
def subLoop (all : List Nat) (n : Nat) : Nat → List Str → Option (List (List Nat × Str))
  | _, [] => some []
  | idx, s :: rest =>
    match (spanToNodes all s).bind (fun ws => mkSubspan ws (subspanId idx n)), subLoop all n (idx + 1) rest with
    | some p, some ps => some (p :: ps)
    | _, _ => none

/-- `mention._subspans()` (coref.py:131-140) -/
def subspans (all words : List Nat) : Option (List (List Nat × Str)) :=
  let mspan := nodesToSpan all words
  if ',' ∉ mspan then (mkSubspan words []).map (fun p => [p])
  else let parts := split ',' mspan; subLoop all parts.length 1 parts

/-! ## Proofs -/

/-- The first and the last node. -/
def ends (l : List Nat) : Nat × Nat := (l.headD 0, l.getLastD 0)

theorem filter_dropWhile_one {nodes : List Nat} (rest : List Nat) :
    (rest.dropWhile (fun y => decide (y ∈ nodes))).filter (fun y => decide (y ∈ nodes)) =
      ((rest.dropWhile (fun y => decide (y ∈ nodes))).drop 1).filter (fun y => decide (y ∈ nodes)) := by
  cases hd : rest.dropWhile (fun y => decide (y ∈ nodes)) with
  | nil => rfl
  | cons w ws =>
    have : w ∉ nodes := by
      have := List.head?_dropWhile_not (fun y => decide (y ∈ nodes)) rest
      rw [hd] at this
      simpa using this
    rw [List.filter_cons_of_neg (by simpa using this)]
    rfl

/-- The ranges found are the first and last nodes of the maximal runs of nodes of the mention. -/
theorem runs_lists (nodes : List Nat) (found : Nat) (rest : List Nat) (hs : rest.Pairwise (· < ·))
    (hc : found + (rest.filter (fun y => decide (y ∈ nodes))).length ≤ nodes.length) :
    ∃ L : List (List Nat), runs nodes found rest = L.map ends ∧ L.flatten = rest.filter (fun y => decide (y ∈ nodes)) ∧
      (∀ l ∈ L, l ≠ [] ∧ l <:+: rest) ∧
      L.Pairwise (fun a b => ∃ z ∈ rest, z ∉ nodes ∧ (∀ x ∈ a, x < z) ∧ ∀ y ∈ b, z < y) := by
  induction hn : rest.length using Nat.strongRecOn generalizing found rest with
  | ind n ih =>
    cases rest with
    | nil => exact ⟨[], by simp [runs], rfl, by simp, List.Pairwise.nil⟩
    | cons z rest' =>
      have hs0 := hs
      rw [List.pairwise_cons] at hs
      by_cases hz : z ∈ nodes
      · have hpos : found < nodes.length := by
          rw [List.filter_cons_of_pos (by simpa using hz)] at hc
          simp only [List.length_cons] at hc
          omega
        have htd := List.takeWhile_append_dropWhile (p := fun y => decide (y ∈ nodes)) (l := rest')
        have hsub : ((rest'.dropWhile (fun y => decide (y ∈ nodes))).drop 1).Sublist rest' :=
          (List.drop_sublist _ _).trans (List.dropWhile_sublist _)
        have hall : (rest'.takeWhile (fun y => decide (y ∈ nodes))).filter (fun y => decide (y ∈ nodes)) =
            rest'.takeWhile (fun y => decide (y ∈ nodes)) := by
          rw [List.filter_eq_self]
          intro y hy
          exact mem_takeWhile_imp (p := fun y => decide (y ∈ nodes)) hy
        have hfil : (z :: rest').filter (fun y => decide (y ∈ nodes)) = (z :: rest'.takeWhile (fun y => decide (y ∈ nodes))) ++
            ((rest'.dropWhile (fun y => decide (y ∈ nodes))).drop 1).filter (fun y => decide (y ∈ nodes)) := by
          rw [List.filter_cons_of_pos (by simpa using hz)]
          conv => lhs; rw [← htd]
          rw [List.filter_append, hall, filter_dropWhile_one, List.cons_append]
        have hlt : ((rest'.dropWhile (fun y => decide (y ∈ nodes))).drop 1).length < n := by
          have := hsub.length_le
          simp only [List.length_cons] at hn; omega
        obtain ⟨L, h1, h2, h3, h4⟩ := ih _ hlt (found + (z :: rest'.takeWhile (fun y => decide (y ∈ nodes))).length)
          ((rest'.dropWhile (fun y => decide (y ∈ nodes))).drop 1) (hs.2.sublist hsub)
          (by rw [hfil, List.length_append] at hc; omega) rfl
        have hsuf : ((rest'.dropWhile (fun y => decide (y ∈ nodes))).drop 1) <:+ z :: rest' :=
          ((List.drop_suffix _ _).trans (List.dropWhile_suffix _)).trans (List.suffix_cons _ _)
        refine ⟨(z :: rest'.takeWhile (fun y => decide (y ∈ nodes))) :: L, ?_, ?_, ?_, ?_⟩
        · conv => lhs; unfold runs
          rw [if_pos hpos, if_pos hz]
          simp only [List.map_cons]
          rw [h1]
          congr 1
        · rw [List.flatten_cons, h2, hfil]
        · intro l hl
          rcases List.mem_cons.1 hl with rfl | hl
          · refine ⟨List.cons_ne_nil _ _, [], rest'.dropWhile (fun y => decide (y ∈ nodes)), ?_⟩
            rw [List.nil_append, List.cons_append, htd]
          · exact ⟨(h3 l hl).1, (h3 l hl).2.trans hsuf.isInfix⟩
        · rw [List.pairwise_cons]
          refine ⟨?_, h4.imp ?_⟩
          · intro b hb
            obtain ⟨hbne, hbi⟩ := h3 b hb
            obtain ⟨y, ys, rfl⟩ := List.exists_cons_of_ne_nil hbne
            cases hd : rest'.dropWhile (fun y => decide (y ∈ nodes)) with
            | nil =>
              rw [hd] at hbi
              have := hbi.sublist.length_le
              simp at this
            | cons w ws =>
              have hw : w ∉ nodes := by
                have := List.head?_dropWhile_not (fun y => decide (y ∈ nodes)) rest'
                rw [hd] at this
                simpa using this
              have hp : ((z :: rest'.takeWhile (fun y => decide (y ∈ nodes))) ++ w :: ws).Pairwise (· < ·) := by
                rw [← hd, List.cons_append, htd]; exact hs0
              refine ⟨w, ?_, hw, ?_, ?_⟩
              · refine List.mem_cons_of_mem _ ((List.dropWhile_sublist (fun y => decide (y ∈ nodes))).subset ?_)
                rw [hd]; simp
              · intro x hx
                exact (List.pairwise_append.1 hp).2.2 x hx w (by simp)
              · intro v hv
                have hv' : v ∈ ws := by
                  have := hbi.subset hv
                  rw [hd] at this
                  simpa using this
                exact (List.pairwise_cons.1 (List.pairwise_append.1 hp).2.1).1 v hv'
          · rintro a b ⟨w, h1, h2, h3⟩
            exact ⟨w, hsuf.subset h1, h2, h3⟩
      · have hlt : rest'.length < n := by simp only [List.length_cons] at hn; omega
        have hfil : (z :: rest').filter (fun y => decide (y ∈ nodes)) = rest'.filter (fun y => decide (y ∈ nodes)) :=
          List.filter_cons_of_neg (by simpa using hz)
        obtain ⟨L, h1, h2, h3, h4⟩ := ih _ hlt found rest' hs.2 (by rw [← hfil]; exact hc) rfl
        by_cases hpos : found < nodes.length
        · refine ⟨L, ?_, by rw [hfil]; exact h2, fun l hl => ⟨(h3 l hl).1, (h3 l hl).2.trans (List.suffix_cons _ _).isInfix⟩, h4.imp ?_⟩
          · conv => lhs; unfold runs
            rw [if_pos hpos, if_neg hz]
            exact h1
          · rintro a b ⟨w, h1, h2, h3⟩
            exact ⟨w, List.mem_cons_of_mem _ h1, h2, h3⟩
        · refine ⟨[], ?_, ?_, by simp, List.Pairwise.nil⟩
          · unfold runs
            rw [if_neg hpos]
            rfl
          · have : ((z :: rest').filter (fun y => decide (y ∈ nodes))).length = 0 := by omega
            rw [List.length_eq_zero_iff.1 this]
            rfl

/-- The nodes between the first and the last node of a run are the run. -/
theorem filter_ends {all l : List Nat} (hs : all.Pairwise (· < ·)) (hl : l <:+: all) (hne : l ≠ []) :
    all.filter (fun w => decide (∃ r ∈ [ends l], r.1 ≤ w ∧ w ≤ r.2)) = l := by
  obtain ⟨a, b, rfl⟩ := hl
  have hp := List.pairwise_append.1 hs
  have hq := List.pairwise_append.1 hp.1
  obtain ⟨x, t, e⟩ := List.exists_cons_of_ne_nil hne
  have hx : (ends l).1 = x := by rw [e]; rfl
  have hxm : x ∈ l := by rw [e]; simp
  obtain ⟨y, hy⟩ : ∃ y, l.getLast? = some y := by
    cases h : l.getLast? with
    | none => exact absurd (List.getLast?_eq_none_iff.1 h) hne
    | some y => exact ⟨y, rfl⟩
  have hy2 : (ends l).2 = y := by
    unfold ends
    simp only
    rw [List.getLastD_eq_getLast?, hy]
    rfl
  obtain ⟨i, ei⟩ := List.getLast?_eq_some_iff.1 hy
  have hym : y ∈ l := by rw [ei]; simp
  have hlo : ∀ w ∈ l, x ≤ w := by
    intro w hw
    rw [e] at hw
    rcases List.mem_cons.1 hw with rfl | hw
    · exact Nat.le_refl _
    · have := hq.2.1
      rw [e] at this
      exact Nat.le_of_lt ((List.pairwise_cons.1 this).1 w hw)
  have hhi : ∀ w ∈ l, w ≤ y := by
    intro w hw
    rw [ei] at hw
    rcases List.mem_append.1 hw with hw | hw
    · have := hq.2.1
      rw [ei] at this
      exact Nat.le_of_lt ((List.pairwise_append.1 this).2.2 w hw y (by simp))
    · rw [List.mem_singleton.1 hw]; exact Nat.le_refl _
  have ha : a.filter (fun w => decide (∃ r ∈ [ends l], r.1 ≤ w ∧ w ≤ r.2)) = [] := by
    rw [List.filter_eq_nil_iff]
    intro w hw
    have := hq.2.2 w hw x hxm
    simp [hx]
    omega
  have hb : b.filter (fun w => decide (∃ r ∈ [ends l], r.1 ≤ w ∧ w ≤ r.2)) = [] := by
    rw [List.filter_eq_nil_iff]
    intro w hw
    have := hp.2.2 y (by simp [hym]) w hw
    simp [hy2]
    omega
  have hm : l.filter (fun w => decide (∃ r ∈ [ends l], r.1 ≤ w ∧ w ≤ r.2)) = l := by
    rw [List.filter_eq_self]
    intro w hw
    simp [hx, hy2, hlo w hw, hhi w hw]
  rw [List.filter_append, List.filter_append, ha, hb, hm]
  simp

theorem sortNodes_sorted {l : List Nat} (h : l.Pairwise (· < ·)) : sortNodes l = l := by
  have hle : l.Pairwise (· ≤ ·) := h.imp Nat.le_of_lt
  have hp := pySort_pairwise (le := fun a b : Nat => decide (a ≤ b)) (by simp; omega) (by simp; omega) l
  have hq : (sortNodes l).Pairwise (· ≤ ·) := hp.imp (by simp)
  exact (pySort_perm _ l).eq_of_pairwise (fun a b _ _ h1 h2 => Nat.le_antisymm h1 h2) hq hle

theorem sortNodes_eq {l m : List Nat} (hp : l.Perm m) (h : m.Pairwise (· < ·)) : sortNodes l = m := by
  have h1 := pySort_pairwise (le := fun a b : Nat => decide (a ≤ b)) (by simp; omega) (by simp; omega) l
  have hq : (sortNodes l).Pairwise (· ≤ ·) := h1.imp (by simp)
  exact ((pySort_perm _ l).trans hp).eq_of_pairwise (fun a b _ _ h1 h2 => Nat.le_antisymm h1 h2) hq (h.imp Nat.le_of_lt)

theorem subLoop_lists {all : List Nat} (hs : all.Pairwise (· < ·)) (n : Nat) : ∀ (L : List (List Nat)) (k : Nat),
    (∀ l ∈ L, l ≠ [] ∧ l <:+: all) → (∀ l ∈ L, (ends l).1 ≤ (ends l).2) →
    subLoop all n k ((L.map ends).map rangeStr) = some ((L.zipIdx k).map (fun p => (p.1, subspanId p.2 n)))
  | [], _, _, _ => rfl
  | l :: L, k, h, he => by
    obtain ⟨hne, hi⟩ := h l (by simp)
    have hspan : spanToNodes all (rangeStr (ends l)) = some l := by
      rw [C36_meaning (rs := [ends l])
        (by
          rw [split_of_not_mem (comma_not_mem_rangeStr _)]
          exact parseRanges_map (rs := [ends l]) (fun r hr => by rw [List.mem_singleton.1 hr]; exact he l (by simp)))]
      rw [filter_ends hs hi hne]
    have hmk : (spanToNodes all (rangeStr (ends l))).bind (fun ws => mkSubspan ws (subspanId k n)) = some (l, subspanId k n) := by
      rw [hspan]
      simp only [Option.bind_some, mkSubspan]
      rw [if_neg hne, sortNodes_sorted (hs.sublist hi.sublist)]
    simp only [List.map_cons, subLoop, hmk, List.zipIdx_cons]
    rw [subLoop_lists hs n L (k + 1) (fun m hm => h m (by simp [hm])) (fun m hm => he m (by simp [hm]))]

/-- C179: the subspans of a mention are the maximal runs of its words: together they are the words of the mention in word order, each has
no gap, and between two of them there is a node outside the mention. A mention without gap has one subspan without id, the others have
the ids `[1/n]`, `[2/n]`, … -/
theorem C179_subspans {all words : List Nat} (hs : all.Pairwise (· < ·)) (hne : words ≠ []) (hin : ∀ x ∈ words, x ∈ all) (hnd : words.Nodup) :
    ∃ L : List (List Nat), L.flatten = all.filter (fun y => decide (y ∈ words)) ∧ (∀ l ∈ L, l ≠ [] ∧ l <:+: all) ∧
      L.Pairwise (fun a b => ∃ z ∈ all, z ∉ words ∧ (∀ x ∈ a, x < z) ∧ ∀ y ∈ b, z < y) ∧
      subspans all words = some (if L.length = 1 then L.map (·, []) else (L.zipIdx 1).map (fun p => (p.1, subspanId p.2 L.length))) := by
  have hc : 0 + (all.filter (fun y => decide (y ∈ words))).length ≤ words.length := by
    rw [Nat.zero_add]
    apply length_le_of_subset
    · exact ((hs.imp (fun h => Nat.ne_of_lt h)).sublist List.filter_sublist)
    · intro x hx; simpa using (List.mem_filter.1 hx).2
  obtain ⟨L, h1, h2, h3, h4⟩ := runs_lists words 0 all hs hc
  refine ⟨L, h2, h3, h4, ?_⟩
  have hsound := runs_sound words 0 all hs
  have hends : ∀ l ∈ L, (ends l).1 ≤ (ends l).2 := fun l hl => (hsound (ends l) (by rw [h1]; exact List.mem_map_of_mem hl)).1
  have hL : L ≠ [] := by
    rintro rfl
    obtain ⟨x, t, e⟩ := List.exists_cons_of_ne_nil hne
    have : x ∈ all.filter (fun y => decide (y ∈ words)) := List.mem_filter.2 ⟨hin x (by rw [e]; simp), by rw [e]; simp⟩
    rw [← h2] at this
    simp at this
  have hspan : nodesToSpan all words = join [','] ((L.map ends).map rangeStr) := by
    unfold nodesToSpan
    rw [if_neg hne, h1]
  have hsplit : split ',' (nodesToSpan all words) = (L.map ends).map rangeStr := by
    rw [hspan, split_join (by simpa using hL) (by
      intro p hp
      obtain ⟨r, _, rfl⟩ := List.mem_map.1 hp
      exact comma_not_mem_rangeStr r)]
  have hcomma : ',' ∈ nodesToSpan all words ↔ L.length ≠ 1 := by
    constructor
    · intro h e
      obtain ⟨l, rfl⟩ := List.length_eq_one_iff.1 e
      rw [hspan] at h
      exact comma_not_mem_rangeStr _ (by simpa [join] using h)
    · intro h
      apply Classical.byContradiction
      intro hn
      rw [split_of_not_mem hn] at hsplit
      have := congrArg List.length hsplit
      simp at this
      exact h this.symm
  unfold subspans
  simp only
  by_cases hone : L.length = 1
  · rw [if_pos (fun h => (hcomma.1 h) hone), if_pos hone]
    obtain ⟨l, rfl⟩ := List.length_eq_one_iff.1 hone
    have hl : l = all.filter (fun y => decide (y ∈ words)) := by simpa using h2
    have hperm : words.Perm l := by
      rw [hl]
      rw [List.perm_ext_iff_of_nodup hnd ((hs.imp (fun h => Nat.ne_of_lt h)).sublist List.filter_sublist)]
      intro x
      rw [List.mem_filter]
      exact ⟨fun h => ⟨hin x h, by simpa using h⟩, fun h => by simpa using h.2⟩
    simp only [mkSubspan]
    rw [if_neg hne, sortNodes_eq hperm (hs.sublist (h3 l (by simp)).2.sublist)]
    rfl
  · rw [if_neg (fun h => h (hcomma.2 hone)), if_neg hone, hsplit]
    rw [subLoop_lists hs _ L 1 h3 hends]
    simp

/-- C179: the subspan ids tell the subspans of a mention apart. -/
theorem C179_ids {i j n m : Nat} (h : subspanId i n = subspanId j m) : i = j ∧ n = m := by
  unfold subspanId at h
  simp only [List.cons_append, List.cons.injEq, true_and] at h
  have h0 : '/' ∉ natStr i := not_mem_natStr (by decide) _
  have h0' : '/' ∉ natStr j := not_mem_natStr (by decide) _
  have e := congrArg (split '/') h
  rw [show natStr i ++ '/' :: natStr n ++ [']'] = natStr i ++ '/' :: (natStr n ++ [']']) by simp,
    show natStr j ++ '/' :: natStr m ++ [']'] = natStr j ++ '/' :: (natStr m ++ [']']) by simp,
    split_append h0, split_append h0', split_of_not_mem, split_of_not_mem] at e
  · injection e with e1 e2
    injection e2 with e2 _
    have e2 := List.append_cancel_right e2
    have p1 := parseNat_natStr i
    have p2 := parseNat_natStr n
    rw [e1, parseNat_natStr] at p1
    rw [e2, parseNat_natStr] at p2
    exact ⟨by injection p1 with p1; exact p1.symm, by injection p2 with p2; exact p2.symm⟩
  · have : '/' ∉ natStr m := not_mem_natStr (by decide) _
    simp [this]
  · have : '/' ∉ natStr n := not_mem_natStr (by decide) _
    simp [this]

/-- C179: a mention whose words have all been removed from the list has no subspans: `ValueError`. -/
theorem C179_empty (all : List Nat) : subspans all [] = none := by
  simp [subspans, nodesToSpan, mkSubspan]

/-! ## Examples -/

/-- Words 2, 3, 3.1 and 5 of a sentence of five words with an empty node. -/
example : subspans [10, 20, 30, 31, 40, 50] [50, 20, 31, 30] =
    some [([20, 30, 31], ['[', '1', '/', '2', ']']), ([50], ['[', '2', '/', '2', ']'])] := by decide +kernel

/-- Words 3 and 4 with the empty node 3.1 between them that is outside. -/
example : subspans [10, 20, 30, 31, 40, 50] [40, 30] = some [([30], ['[', '1', '/', '2', ']']), ([40], ['[', '2', '/', '2', ']'])] := by
  decide +kernel

example : subspans [10, 20, 30] [30, 20] = some [([20, 30], [])] := by decide +kernel

end Verif.Coref
