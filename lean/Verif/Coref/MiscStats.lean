import Verif.Eval.See
import Verif.DualDict.MiscBlocks

/-!
# Property C216: corefud.MiscStats counts the values of MISC and prints the most frequent ones

Source: `udapi/block/corefud/miscstats.py`. The input is the sequence of attributes and values of MISC of all nodes, in the order of processing. `short` removes indices from names
(line 27; `noIndex` of `Verif/DualDict/MiscBlocks.lean`). Counters and `most_common` are those of `Verif/Eval/See.lean`.
-/

namespace Verif.Coref.MiscStats
open Verif.Py Verif.Eval.See

/-- `self.valuecounter`: attributes in the order of their first occurrence. -/
abbrev Values := List (Str × Counter)

/-- Lines 28-30. -/
def bump : Values → Str → Str → Values
  | [], a, v => [(a, inc [] v)]
  | (b, c) :: vs, a, v => if b = a then (b, inc c v) :: vs else (b, c) :: bump vs a v

/-- `process_node` for all nodes: the two counters. -/
def run (short : Str → Str) (items : List (Str × Str)) : Values × Counter :=
  items.foldl (fun s x => (bump s.1 (short x.1) x.2, inc s.2 (short x.1))) ([], [])

/-- `process_end`: for each attribute its name, its total and the values with numbers. -/
def report (max : Nat) (s : Values × Counter) : List (Str × Nat × Counter) := s.1.map fun x => (x.1, get s.2 x.1, mostCommon max x.2)

/-- What is counted for the attribute `a`. -/
def valuesOf (short : Str → Str) (a : Str) (items : List (Str × Str)) : List Str := (items.filter fun x => short x.1 == a).map (·.2)

/-- The different elements in the order of their first occurrence. -/
def firsts : List Str → List Str
  | [] => []
  | a :: l => a :: (firsts l).filter (· != a)

/-- A counter over a list of values. -/
def count (vs : List Str) : Counter := vs.foldl inc []

theorem run_snoc (short : Str → Str) (items : List (Str × Str)) (x : Str × Str) :
    run short (items ++ [x]) = (bump (run short items).1 (short x.1) x.2, inc (run short items).2 (short x.1)) := by
  unfold run
  rw [List.foldl_append]; rfl

theorem count_snoc (vs : List Str) (v : Str) : count (vs ++ [v]) = inc (count vs) v := by
  unfold count
  rw [List.foldl_append]; rfl

theorem snoc_ind {α : Type} {P : List α → Prop} (h0 : P []) (h1 : ∀ l x, P l → P (l ++ [x])) (l : List α) : P l := by
  have : ∀ m : List α, P m.reverse := by
    intro m
    induction m with
    | nil => exact h0
    | cons x m ih => rw [List.reverse_cons]; exact h1 _ _ ih
  simpa using this l.reverse

theorem count_get (vs : List Str) (k : Str) : get (count vs) k = vs.count k := by
  induction vs using snoc_ind with
  | h0 => rfl
  | h1 l x ih =>
    rw [count_snoc, get_inc, ih, List.count_append, List.count_singleton]
    by_cases h : k = x
    · subst h; simp
    · simp [h, Ne.symm h]

theorem count_nodup (vs : List Str) : ((count vs).map (·.1)).Nodup := by
  induction vs using snoc_ind with
  | h0 => exact List.nodup_nil
  | h1 l x ih => rw [count_snoc]; exact nodup_inc ih x

theorem count_mem (vs : List Str) (k : Str) : k ∈ (count vs).map (·.1) ↔ k ∈ vs := by
  induction vs using snoc_ind with
  | h0 => exact Iff.rfl
  | h1 l x ih => rw [count_snoc, mem_inc, ih]; simp

/-- The entries of a counter are the different values with their numbers of occurrences. -/
theorem count_item (vs : List Str) (p : Str × Nat) : p ∈ count vs ↔ p.1 ∈ vs ∧ p.2 = vs.count p.1 := by
  constructor
  · intro hp
    refine ⟨(count_mem vs p.1).mp (List.mem_map.mpr ⟨p, hp, rfl⟩), ?_⟩
    rw [← count_get, get_of_mem (count_nodup vs) hp]
  · rintro ⟨h1, h2⟩
    obtain ⟨q, hq, e⟩ := List.mem_map.mp ((count_mem vs p.1).mpr h1)
    have := get_of_mem (count_nodup vs) hq
    rw [count_get] at this
    have : q = p := by
      obtain ⟨a, n⟩ := p
      obtain ⟨b, m⟩ := q
      simp only at e h2 this
      subst e
      rw [h2, this]
    exact this ▸ hq

theorem sum_inc (c : Counter) (k : Str) : ((inc c k).map (·.2)).sum = (c.map (·.2)).sum + 1 := by
  induction c with
  | nil => rfl
  | cons p c ih =>
    obtain ⟨a, n⟩ := p
    unfold inc
    split
    · simp; omega
    · simp [ih]; omega

theorem count_sum (vs : List Str) : ((count vs).map (·.2)).sum = vs.length := by
  induction vs using snoc_ind with
  | h0 => rfl
  | h1 l x ih => rw [count_snoc, sum_inc, ih]; simp

theorem bump_eq : ∀ (s : Values) (a v : Str), bump s a v = if a ∈ s.map (·.1) then bump s a v else s ++ [(a, inc [] v)]
  | [], a, v => by simp [bump]
  | (b, c) :: s, a, v => by
    by_cases h : b = a
    · simp [h]
    · have h' : ¬ a = b := fun e => h e.symm
      have ih := bump_eq s a v
      by_cases g : a ∈ s.map (·.1)
      · rw [if_pos (by simp only [List.map_cons]; exact List.mem_cons_of_mem _ g)]
      · rw [if_neg g] at ih
        rw [if_neg (by simp only [List.map_cons]; exact fun e => (List.mem_cons.1 e).elim h' g), bump, if_neg h, ih]; rfl

theorem bump_map : ∀ (s : Values) (a v : Str), a ∈ s.map (·.1) → (s.map (·.1)).Nodup → bump s a v = s.map fun x => (x.1, if x.1 = a then inc x.2 v else x.2)
  | [], _, _, h, _ => by cases h
  | (b, c) :: s, a, v, h, nd => by
    have hn := List.nodup_cons.1 nd
    by_cases e : b = a
    · subst e
      rw [bump, if_pos rfl]
      simp only [List.map_cons, if_true]
      congr 1
      have : ∀ x ∈ s, (x.1, if x.1 = b then inc x.2 v else x.2) = x := by
        intro x hx
        have : x.1 ≠ b := fun g => hn.1 (List.mem_map.2 ⟨x, hx, g⟩)
        rw [if_neg this]
      rw [List.map_congr_left this, List.map_id']
    · rw [bump, if_neg e, List.map_cons, if_neg e]
      have h' : a ∈ s.map (·.1) := by
        simp only [List.map_cons, List.mem_cons] at h
        exact h.resolve_left fun g => e g.symm
      rw [bump_map s a v h' hn.2]

theorem firsts_mem (l : List Str) (x : Str) : x ∈ firsts l ↔ x ∈ l := by
  induction l with
  | nil => exact Iff.rfl
  | cons a l ih =>
    simp only [firsts, List.mem_cons, List.mem_filter, ih, bne_iff_ne, ne_eq]
    by_cases h : x = a <;> simp [h]

theorem firsts_nodup (l : List Str) : (firsts l).Nodup := by
  induction l with
  | nil => exact List.nodup_nil
  | cons a l ih => exact List.nodup_cons.mpr ⟨by simp, ih.filter _⟩

theorem firsts_snoc (l : List Str) (x : Str) : firsts (l ++ [x]) = if x ∈ l then firsts l else firsts l ++ [x] := by
  induction l with
  | nil => simp [firsts]
  | cons a l ih =>
    rw [List.cons_append, firsts, ih]
    by_cases h : x ∈ l
    · rw [if_pos h, if_pos (List.mem_cons_of_mem _ h)]; rfl
    · rw [if_neg h, List.filter_append]
      by_cases e : x = a
      · subst e
        rw [if_pos (List.mem_cons_self ..)]
        simp [firsts]
      · rw [if_neg (fun g => (List.mem_cons.1 g).elim e h)]
        simp [firsts, e]

theorem valuesOf_snoc (short : Str → Str) (a : Str) (items : List (Str × Str)) (x : Str × Str) :
    valuesOf short a (items ++ [x]) = valuesOf short a items ++ if short x.1 = a then [x.2] else [] := by
  unfold valuesOf
  rw [List.filter_append, List.map_append]
  congr 1
  by_cases h : short x.1 = a <;> simp [h]

theorem valuesOf_nil {short : Str → Str} {a : Str} {items : List (Str × Str)} (h : a ∉ items.map fun x => short x.1) : valuesOf short a items = [] := by
  unfold valuesOf
  rw [List.filter_eq_nil_iff.mpr, List.map_nil]
  intro x hx g
  exact h (List.mem_map.mpr ⟨x, hx, by simpa using g⟩)

/-- The counters: each attribute once, in the order of first occurrence, with a counter over its values. -/
theorem run_eq (short : Str → Str) (items : List (Str × Str)) :
    (run short items).1 = (firsts (items.map fun x => short x.1)).map fun a => (a, count (valuesOf short a items)) := by
  induction items using snoc_ind with
  | h0 => rfl
  | h1 l x ih =>
    have keys : (run short l).1.map (·.1) = firsts (l.map fun x => short x.1) := by rw [ih, List.map_map]; exact List.map_id' _
    have hm : short x.1 ∈ (run short l).1.map (·.1) ↔ short x.1 ∈ l.map fun x => short x.1 := by rw [keys, firsts_mem]
    rw [run_snoc, List.map_append, List.map_singleton, firsts_snoc]
    show bump (run short l).1 (short x.1) x.2 = _
    by_cases h : short x.1 ∈ l.map fun x => short x.1
    · rw [if_pos h, bump_map _ _ _ (hm.mpr h) (by rw [keys]; exact firsts_nodup _), ih, List.map_map]
      apply List.map_congr_left
      intro a _
      simp only [Function.comp_apply, valuesOf_snoc]
      by_cases e : a = short x.1
      · rw [if_pos e, if_pos e.symm, count_snoc]
      · rw [if_neg e, if_neg (Ne.symm e), List.append_nil]
    · rw [if_neg h, bump_eq, if_neg (fun g => h (hm.mp g)), ih, List.map_append, List.map_singleton]
      congr 1
      · apply List.map_congr_left
        intro a ha
        have : short x.1 ≠ a := by rintro rfl; exact h ((firsts_mem _ _).mp ha)
        rw [valuesOf_snoc, if_neg this, List.append_nil]
      · rw [valuesOf_snoc, valuesOf_nil h, if_pos rfl]; rfl

/-! ## C216 -/

/-- Each attribute occurring is reported once, in the order of first occurrence; its total is the number of its occurrences. -/
theorem C216_attributes (short : Str → Str) (max : Nat) (items : List (Str × Str)) :
    (report max (run short items)).map (fun r => (r.1, r.2.1)) = (firsts (items.map fun x => short x.1)).map (fun a => (a, (items.map fun x => short x.1).count a)) ∧
    (firsts (items.map fun x => short x.1)).Nodup ∧ ∀ a, a ∈ firsts (items.map fun x => short x.1) ↔ ∃ x ∈ items, short x.1 = a := by
  refine ⟨?_, firsts_nodup _, fun a => by rw [firsts_mem, List.mem_map]⟩
  have tot : ∀ (items : List (Str × Str)), (run short items).2 = count (items.map fun x => short x.1) := by
    intro items
    induction items using snoc_ind with
    | h0 => rfl
    | h1 l x ih => rw [run_snoc, List.map_append, List.map_singleton, count_snoc, ← ih]
  unfold report
  rw [run_eq, List.map_map, List.map_map]
  apply List.map_congr_left
  intro a _
  simp only [Function.comp_apply, tot, count_get]

/-- The values printed for an attribute: at most `max`, each once and with the number of its occurrences, from the most frequent on; a value of the attribute that is not printed is not more
frequent than any printed one, and none is missing if there are at most `max`. -/
theorem C216_values (short : Str → Str) (max : Nat) (items : List (Str × Str)) (a : Str) (t : Nat) (vs : Counter) (h : (a, t, vs) ∈ report max (run short items)) :
    vs.length ≤ max ∧ (vs.map (·.1)).Nodup ∧ vs.Pairwise (fun x y => y.2 ≤ x.2) ∧
    (∀ x ∈ vs, 0 < x.2 ∧ x.2 = (items.filter fun y => short y.1 == a && y.2 == x.1).length) ∧
    (∀ y ∈ items, short y.1 = a → y.2 ∉ vs.map (·.1) → vs.length = max ∧ ∀ x ∈ vs, (items.filter fun z => short z.1 == a && z.2 == y.2).length ≤ x.2) := by
  have cnt : ∀ v, (valuesOf short a items).count v = (items.filter fun y => short y.1 == a && y.2 == v).length := by
    intro v
    unfold valuesOf
    rw [List.count_eq_countP, List.countP_map, List.countP_filter, List.countP_eq_length_filter]
    congr 1
    apply List.filter_congr
    intro y _
    simp only [Function.comp_apply]
    rw [Bool.and_comm]
  obtain ⟨⟨b, c⟩, hx, e⟩ := List.mem_map.mp h
  simp only [Prod.mk.injEq] at e
  obtain ⟨rfl, _, rfl⟩ := e
  rw [run_eq, List.mem_map] at hx
  obtain ⟨a', _, e⟩ := hx
  simp only [Prod.mk.injEq] at e
  obtain ⟨rfl, rfl⟩ := e
  have perm := pySort_perm (fun x y : Str × Nat => decide (y.2 ≤ x.2)) (count (valuesOf short a' items))
  have sorted := pySort_pairwise (le := fun x y : Str × Nat => decide (y.2 ≤ x.2)) (by intro a b c; simp; omega) (by intro a b; simp; omega) (count (valuesOf short a' items))
  unfold mostCommon
  generalize hS : pySort (fun x y : Str × Nat => decide (y.2 ≤ x.2)) (count (valuesOf short a' items)) = S at perm sorted ⊢
  have hnd : (S.map (·.1)).Nodup := (perm.map _).nodup_iff.mpr (count_nodup _)
  have sub : (S.take max).Sublist S := List.take_sublist ..
  refine ⟨List.length_take_le .., (sub.map _).nodup hnd, ?_, ?_, ?_⟩
  · exact (sorted.sublist sub).imp (by intro x y g; simpa using g)
  · intro x hx
    have := (count_item _ x).mp (perm.mem_iff.mp (sub.subset hx))
    rw [this.2, cnt]
    refine ⟨?_, rfl⟩
    rw [← cnt]
    exact List.count_pos_iff.mpr this.1
  · intro y hy ha hn
    have hv : y.2 ∈ valuesOf short a' items := by
      unfold valuesOf
      exact List.mem_map.mpr ⟨y, List.mem_filter.mpr ⟨hy, by simpa using ha⟩, rfl⟩
    have hm : (y.2, (valuesOf short a' items).count y.2) ∈ S := perm.mem_iff.mpr ((count_item _ _).mpr ⟨hv, rfl⟩)
    rw [← List.take_append_drop max S, List.mem_append] at hm
    rcases hm with hm | hm
    · exact absurd (List.mem_map.mpr ⟨_, hm, rfl⟩) hn
    · refine ⟨?_, ?_⟩
      · have := List.length_pos_of_mem hm
        rw [List.length_drop] at this
        rw [List.length_take]
        omega
      · intro x hx
        rw [← List.take_append_drop max S, List.pairwise_append] at sorted
        have := sorted.2.2 x hx _ hm
        rw [cnt] at this
        simpa using this

/-- The numbers of all values of an attribute add up to its total, so with a large enough `max` the printed numbers do. -/
theorem C216_total (short : Str → Str) (max : Nat) (items : List (Str × Str)) (a : Str) (t : Nat) (vs : Counter) (h : (a, t, vs) ∈ report max (run short items)) (hm : items.length ≤ max) :
    (vs.map (·.2)).sum = t := by
  have h1 := (C216_attributes short max items).1
  have ht : t = (items.map fun x => short x.1).count a := by
    have : (a, t) ∈ (report max (run short items)).map fun r => (r.1, r.2.1) := List.mem_map.mpr ⟨_, h, rfl⟩
    rw [h1, List.mem_map] at this
    obtain ⟨b, _, e⟩ := this
    simp only [Prod.mk.injEq] at e
    rw [← e.2, e.1]
  obtain ⟨⟨b, c⟩, hx, e⟩ := List.mem_map.mp h
  simp only [Prod.mk.injEq] at e
  obtain ⟨rfl, _, rfl⟩ := e
  rw [run_eq, List.mem_map] at hx
  obtain ⟨a', _, e⟩ := hx
  simp only [Prod.mk.injEq] at e
  obtain ⟨rfl, rfl⟩ := e
  have hl : (valuesOf short a' items).length = (items.map fun x => short x.1).count a' := by
    unfold valuesOf
    rw [List.length_map, List.count_eq_countP, List.countP_map, List.countP_eq_length_filter]; rfl
  have hle : (count (valuesOf short a' items)).length ≤ max := by
    have : ∀ vs : List Str, (count vs).length ≤ vs.length := by
      intro vs
      induction vs using snoc_ind with
      | h0 => exact Nat.le_refl _
      | h1 l x ih =>
        have := congrArg List.length (keys_inc (count l) x)
        rw [count_snoc]
        split at this <;> simp at this ⊢ <;> omega
    refine Nat.le_trans (this _) (Nat.le_trans ?_ hm)
    unfold valuesOf
    rw [List.length_map]
    exact List.length_filter_le ..
  have perm := pySort_perm (fun x y : Str × Nat => decide (y.2 ≤ x.2)) (count (valuesOf short a' items))
  unfold mostCommon
  rw [List.take_of_length_le (by rw [perm.length_eq]; exact hle), (perm.map _).sum_nat, count_sum, hl, ht]

/-- Two indexed names are counted together: x[1]=p, x[2]=p, x=q, y=p; only the most frequent value is printed. -/
example : report 1 (run (Verif.DualDict.MiscBlocks.noIndex Char.isDigit 0)
    [(['x', '[', '1', ']'], ['q']), (['x', '[', '2', ']'], ['p']), (['y'], ['p']), (['x'], ['p'])]) =
    [(['x'], 3, [(['p'], 2)]), (['y'], 1, [(['p'], 1)])] := by decide

end Verif.Coref.MiscStats
