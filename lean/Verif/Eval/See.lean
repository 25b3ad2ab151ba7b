import Verif.Py.Str
import Verif.Py.Sort

/-!
# Property C165: statistics of nodes (udapi/block/util/see.py)

The expression given to the block is evaluated by Python; here each node comes with its value. One of the statistics is modelled: each node comes with the list of its
values (`node.get_attrs([stat], undefs='')`). A Python `Counter` is the list of its items in the order of insertion. The percentages and the formatting are not modelled.
-/

namespace Verif.Eval.See
open Verif.Py

abbrev Counter := List (Str × Nat)

/-- `counter[k]` -/
def get : Counter → Str → Nat
  | [], _ => 0
  | (a, n) :: c, k => if a = k then n else get c k

/-- `counter[k] += 1` -/
def inc : Counter → Str → Counter
  | [], k => [(k, 1)]
  | (a, n) :: c, k => if a = k then (a, n + 1) :: c else (a, n) :: inc c k

/-- `'T O T A L'` -/
def total : Str := ['T', ' ', 'O', ' ', 'T', ' ', 'A', ' ', 'L']

/-- `self.match[stat]` after the values `vs` of matching nodes (see.py:96-100) -/
def tally (vs : List Str) : Counter := vs.foldl (fun c v => inc (inc c v) total) []

/-- A node: does it match, and its values. The pair of counters `every`, `match` (see.py:92-100) -/
def tallyAll (nodes : List (Bool × List Str)) : Counter × Counter :=
  nodes.foldl (fun c p => p.2.foldl (fun c v => (inc (inc c.1 v) total, if p.1 then inc (inc c.2 v) total else c.2)) c) ([], [])

/-- `counter.most_common(n)` -/
def mostCommon (n : Nat) (c : Counter) : Counter := (pySort (fun a b => decide (b.2 ≤ a.2)) c).take n

/-- The values that are printed with their numbers (see.py:117-119) -/
def printed (n : Nat) (c : Counter) : Counter := (mostCommon (n + 1) c).filter (fun p => decide (p.1 ≠ total))

/-- The number of values in the header (see.py:113) -/
def header (c : Counter) : Int := (c.length : Int) - 1

/-- The counters of nodes and trees: trees, nodes, matching nodes, matching trees -/
structure Overall where
  trees : Nat := 0
  nodes : Nat := 0
  matchNodes : Nat := 0
  matchTrees : Nat := 0

/-- The loop over the nodes of a tree (see.py:83-90) -/
def nodeLoop : List Bool → Bool → Overall → Overall
  | [], _, o => o
  | b :: l, seen, o =>
    if b then nodeLoop l true { o with nodes := o.nodes + 1, matchNodes := o.matchNodes + 1, matchTrees := if seen then o.matchTrees else o.matchTrees + 1 }
    else nodeLoop l seen { o with nodes := o.nodes + 1 }

/-- `process_tree` (see.py:79-90) on the trees one after another -/
def overall (ts : List (List Bool)) : Overall := ts.foldl (fun o t => nodeLoop t false { o with trees := o.trees + 1 }) {}

/-- The first line (see.py:104-111): numbers in tenths of percents; `none`: ZeroDivisionError -/
def firstLine (o : Overall) : Option (Nat × Nat) :=
  if o.nodes = 0 then none else if o.trees = 0 then none else some (o.matchNodes * 1000 / o.nodes, o.matchTrees * 1000 / o.trees)

/-! ## Counters -/

theorem get_inc (c : Counter) (k j : Str) : get (inc c k) j = get c j + if j = k then 1 else 0 := by
  induction c with
  | nil =>
    by_cases h : j = k
    · subst h; simp [inc, get]
    · have h' : ¬ k = j := fun e => h e.symm
      simp [inc, get, h, h']
  | cons p c ih =>
    obtain ⟨a, n⟩ := p
    unfold inc
    by_cases h : a = k
    · rw [if_pos h]
      subst h
      by_cases g : a = j
      · subst g; simp [get]
      · have g' : ¬ j = a := fun e => g e.symm
        simp [get, g, g']
    · rw [if_neg h]
      by_cases g : a = j
      · subst g; simp [get, h]
      · simp only [get, if_neg g, ih]

theorem keys_inc (c : Counter) (k : Str) : (inc c k).map (·.1) = if k ∈ c.map (·.1) then c.map (·.1) else c.map (·.1) ++ [k] := by
  induction c with
  | nil => rfl
  | cons p c ih =>
    obtain ⟨a, n⟩ := p
    unfold inc
    by_cases h : a = k
    · subst h; simp
    · rw [if_neg h, List.map_cons, ih, List.map_cons]
      have hk : ¬ k = a := fun e => h e.symm
      by_cases g : k ∈ c.map (·.1)
      · rw [if_pos g, if_pos (List.mem_cons_of_mem _ g)]
      · rw [if_neg g, if_neg (fun e => (List.mem_cons.1 e).elim hk g)]; rfl

theorem nodup_inc {c : Counter} (h : (c.map (·.1)).Nodup) (k : Str) : ((inc c k).map (·.1)).Nodup := by
  rw [keys_inc]
  split
  · exact h
  · rename_i hk
    rw [List.nodup_append]
    exact ⟨h, by simp, fun x hx y hy e => hk (by rw [List.mem_singleton.1 hy] at e; exact e ▸ hx)⟩

theorem mem_inc (c : Counter) (k x : Str) : x ∈ (inc c k).map (·.1) ↔ x ∈ c.map (·.1) ∨ x = k := by
  rw [keys_inc]
  split
  · rename_i h; exact ⟨.inl, fun g => g.elim id (fun e => e ▸ h)⟩
  · simp

theorem get_of_mem {c : Counter} (h : (c.map (·.1)).Nodup) {p : Str × Nat} (hp : p ∈ c) : get c p.1 = p.2 := by
  induction c with
  | nil => cases hp
  | cons q c ih =>
    have hn := List.nodup_cons.1 h
    rcases List.mem_cons.1 hp with rfl | hp
    · simp [get]
    · have : q.1 ≠ p.1 := fun e => hn.1 (List.mem_map.2 ⟨p, hp, e.symm⟩)
      show (if q.1 = p.1 then q.2 else get c p.1) = p.2
      rw [if_neg this]
      exact ih hn.2 hp

theorem tally_snoc (vs : List Str) (v : Str) : tally (vs ++ [v]) = inc (inc (tally vs) v) total := by
  unfold tally
  rw [List.foldl_append]
  rfl

theorem tally_nodup (vs : List Str) : ((tally vs).map (·.1)).Nodup := by
  have : ∀ (l : List Str) (c : Counter), (c.map (·.1)).Nodup → ((l.foldl (fun c v => inc (inc c v) total) c).map (·.1)).Nodup := by
    intro l
    induction l with
    | nil => intro c h; exact h
    | cons v l ih => intro c h; exact ih _ (nodup_inc (nodup_inc h v) total)
  exact this vs [] (by simp)

theorem tally_get (vs : List Str) (k : Str) : get (tally vs) k = vs.count k + if k = total then vs.length else 0 := by
  have : ∀ (l : List Str) (c : Counter), get (l.foldl (fun c v => inc (inc c v) total) c) k = get c k + l.count k + if k = total then l.length else 0 := by
    intro l
    induction l with
    | nil => intro c; simp
    | cons v l ih =>
      intro c
      rw [List.foldl_cons, ih, get_inc, get_inc, List.count_cons, List.length_cons]
      by_cases h1 : k = total <;> by_cases h2 : v = k
      · subst h2; simp [h1]; omega
      · have h3 : ¬ k = v := fun e => h2 e.symm
        have h4 : (v == k) = false := by simpa using h2
        simp only [h4, if_neg h3, if_pos h1, Bool.false_eq_true, if_false]; omega
      · subst h2; simp [h1]; omega
      · have h3 : ¬ k = v := fun e => h2 e.symm
        have h4 : (v == k) = false := by simpa using h2
        simp only [h4, if_neg h3, if_neg h1, Bool.false_eq_true, if_false]; omega
  have := this vs []
  rw [show get [] k = 0 from rfl, Nat.zero_add] at this
  exact this

theorem tally_mem (vs : List Str) (k : Str) : k ∈ (tally vs).map (·.1) ↔ k ∈ vs ∨ (k = total ∧ vs ≠ []) := by
  have : ∀ (l : List Str) (c : Counter), k ∈ (l.foldl (fun c v => inc (inc c v) total) c).map (·.1) ↔ k ∈ c.map (·.1) ∨ k ∈ l ∨ (k = total ∧ l ≠ []) := by
    intro l
    induction l with
    | nil => intro c; simp
    | cons v l ih =>
      intro c
      rw [List.foldl_cons, ih, mem_inc, mem_inc, List.mem_cons]
      constructor
      · rintro (((h | h) | h) | h | ⟨h, _⟩)
        · exact .inl h
        · exact .inr (.inl (.inl h))
        · exact .inr (.inr ⟨h, by simp⟩)
        · exact .inr (.inl (.inr h))
        · exact .inr (.inr ⟨h, by simp⟩)
      · rintro (h | (h | h) | ⟨h, _⟩)
        · exact .inl (.inl (.inl h))
        · exact .inl (.inl (.inr h))
        · exact .inr (.inl h)
        · exact .inl (.inr h)
  refine (this vs []).trans ?_
  simp

/-- An item of the counter, if no value is the word for the total -/
theorem tally_item {vs : List Str} (ht : total ∉ vs) {p : Str × Nat} (hp : p ∈ tally vs) :
    (p.1 = total ∧ p.2 = vs.length) ∨ (p.1 ≠ total ∧ p.1 ∈ vs ∧ p.2 = vs.count p.1) := by
  have h1 := get_of_mem (tally_nodup vs) hp
  rw [tally_get] at h1
  have h2 := (tally_mem vs p.1).1 (List.mem_map.2 ⟨p, hp, rfl⟩)
  by_cases e : p.1 = total
  · left
    rw [if_pos e, e, List.count_eq_zero.2 ht] at h1
    exact ⟨e, by omega⟩
  · right
    rw [if_neg e] at h1
    exact ⟨e, h2.elim id (fun h => absurd h.1 e), by omega⟩

theorem count_all {vs : List Str} {a : Str} (h : vs.length ≤ vs.count a) : ∀ v ∈ vs, v = a := by
  have := List.count_eq_length.1 (Nat.le_antisymm List.count_le_length h)
  exact fun v hv => (this v hv).symm

/-- The total is among the first two. -/
theorem split_total {vs : List Str} (ht : total ∉ vs) (h0 : vs ≠ []) : ∃ A B : Counter, pySort (fun a b => decide (b.2 ≤ a.2)) (tally vs) = A ++ (total, vs.length) :: B ∧
    A.length ≤ 1 ∧ (∀ p ∈ A, p.1 ≠ total) ∧ (∀ p ∈ B, p.1 ≠ total) := by
  have hperm := pySort_perm (fun a b : Str × Nat => decide (b.2 ≤ a.2)) (tally vs)
  have hsort := pySort_pairwise (le := fun a b : Str × Nat => decide (b.2 ≤ a.2)) (by intro a b c; simp; omega) (by intro a b; simp; omega) (tally vs)
  generalize pySort (fun a b : Str × Nat => decide (b.2 ≤ a.2)) (tally vs) = S at hperm hsort
  obtain ⟨q, hq, hq1⟩ := List.mem_map.1 ((tally_mem vs total).2 (.inr ⟨rfl, h0⟩))
  have hq2 : q = (total, vs.length) := by
    rcases tally_item ht hq with ⟨_, h⟩ | ⟨h, _⟩
    · exact Prod.ext hq1 h
    · exact absurd hq1 h
  subst hq2
  obtain ⟨A, B, rfl⟩ := List.append_of_mem (hperm.mem_iff.2 hq)
  have hnd : ((A ++ (total, vs.length) :: B).map (·.1)).Nodup := (hperm.map _).nodup_iff.2 (tally_nodup vs)
  rw [List.map_append, List.map_cons, List.nodup_append, List.nodup_cons] at hnd
  obtain ⟨nA, ⟨nB, nB'⟩, nAB⟩ := hnd
  have hA : ∀ p ∈ A, p.1 ≠ total := fun p hp => nAB p.1 (List.mem_map.2 ⟨p, hp, rfl⟩) total List.mem_cons_self
  refine ⟨A, B, rfl, ?_, hA, fun p hp e => nB (List.mem_map.2 ⟨p, hp, e⟩)⟩
  match A, hA, nA, hsort, hperm with
  | [], _, _, _, _ => exact Nat.zero_le _
  | [_], _, _, _, _ => exact Nat.le_refl _
  | a :: b :: A', hA, nA, hsort, hperm =>
    exfalso
    have ha : a ∈ tally vs := hperm.mem_iff.1 (by simp)
    have hb : b ∈ tally vs := hperm.mem_iff.1 (by simp)
    have key : ∀ p ∈ a :: b :: A', vs.length ≤ p.2 := fun p hp =>
      of_decide_eq_true ((List.pairwise_append.1 hsort).2.2 p hp (total, vs.length) List.mem_cons_self)
    have all : ∀ p ∈ a :: b :: A', p ∈ tally vs → ∀ v ∈ vs, v = p.1 := by
      intro p hp hpt
      rcases tally_item ht hpt with ⟨h, _⟩ | ⟨_, _, h⟩
      · exact absurd h (hA p hp)
      · exact count_all (h ▸ key p hp)
    obtain ⟨v, l, hv⟩ := List.exists_cons_of_ne_nil h0
    have hvm : v ∈ vs := by rw [hv]; exact List.mem_cons_self
    have e1 := all a (by simp) ha v hvm
    have e2 := all b (by simp) hb v hvm
    rw [List.map_cons, List.map_cons] at nA
    exact (List.nodup_cons.1 nA).1 (by rw [← e1, e2]; exact List.mem_cons_self)

theorem filter_all {A : Counter} (h : ∀ p ∈ A, p.1 ≠ total) : A.filter (fun p => decide (p.1 ≠ total)) = A :=
  List.filter_eq_self.2 (fun p hp => decide_eq_true (h p hp))

/-- What is printed: the first `n` values -/
theorem printed_eq {vs : List Str} (ht : total ∉ vs) {n : Nat} (hn : 1 ≤ n) :
    printed n (tally vs) = ((pySort (fun a b => decide (b.2 ≤ a.2)) (tally vs)).filter (fun p => decide (p.1 ≠ total))).take n := by
  by_cases h0 : vs = []
  · subst h0; simp [printed, mostCommon, tally, pySort]
  obtain ⟨A, B, e, hl, hA, hB⟩ := split_total ht h0
  unfold printed mostCommon
  rw [e]
  have e1 : (A ++ (total, vs.length) :: B).take (n + 1) = A ++ (total, vs.length) :: B.take (n - A.length) := by
    rw [List.take_append, List.take_of_length_le (by omega), show n + 1 - A.length = (n - A.length) + 1 by omega, List.take_succ_cons]
  rw [e1, List.filter_append, List.filter_cons, if_neg (by simp), filter_all hA, filter_all (fun p hp => hB p (List.mem_of_mem_take hp)),
    List.filter_append, List.filter_cons, if_neg (by simp), filter_all hA, filter_all hB, List.take_append, List.take_of_length_le (l := A) (by omega)]

/-! ## Theorems -/

theorem fold_pair (b : Bool) : ∀ (l : List Str) (c : Counter × Counter),
    l.foldl (fun c v => (inc (inc c.1 v) total, if b then inc (inc c.2 v) total else c.2)) c =
      (l.foldl (fun c v => inc (inc c v) total) c.1, (if b then l else []).foldl (fun c v => inc (inc c v) total) c.2)
  | [], c => by cases b <;> rfl
  | v :: l, c => by
    rw [List.foldl_cons, fold_pair b l]
    cases b <;> rfl

/-- **C165, the two counters.** One counts the values of all nodes, the other one those of the matching nodes. -/
theorem C165_counters (nodes : List (Bool × List Str)) :
    tallyAll nodes = (tally (nodes.flatMap (·.2)), tally ((nodes.filter (·.1)).flatMap (·.2))) := by
  have : ∀ (l : List (Bool × List Str)) (c : Counter × Counter),
      l.foldl (fun c p => p.2.foldl (fun c v => (inc (inc c.1 v) total, if p.1 then inc (inc c.2 v) total else c.2)) c) c =
        ((l.flatMap (·.2)).foldl (fun c v => inc (inc c v) total) c.1, ((l.filter (·.1)).flatMap (·.2)).foldl (fun c v => inc (inc c v) total) c.2) := by
    intro l
    induction l with
    | nil => intro c; rfl
    | cons p l ih =>
      intro c
      rw [List.foldl_cons, fold_pair, ih, List.flatMap_cons, List.foldl_append, List.filter_cons]
      cases hp : p.1
      · rfl
      · rw [if_pos rfl, if_pos rfl, List.flatMap_cons, List.foldl_append]
  exact this nodes ([], [])

/-- **C165, the printed values.** Unless a value is the word for the total, and if `n` is positive, the printed values are different, each is printed with the number of its
occurrences, the most frequent first, and they are at most `n`; a value is left out only if `n` values at least as frequent are printed. -/
theorem C165_top {vs : List Str} (ht : total ∉ vs) {n : Nat} (hn : 1 ≤ n) :
    ((printed n (tally vs)).map (·.1)).Nodup ∧ (printed n (tally vs)).length ≤ n ∧ (printed n (tally vs)).Pairwise (fun a b => b.2 ≤ a.2) ∧
    (∀ p ∈ printed n (tally vs), p.1 ∈ vs ∧ p.2 = vs.count p.1) ∧
    ∀ v ∈ vs, v ∉ (printed n (tally vs)).map (·.1) → (printed n (tally vs)).length = n ∧ ∀ p ∈ printed n (tally vs), vs.count v ≤ p.2 := by
  rw [printed_eq ht hn]
  have hperm := pySort_perm (fun a b : Str × Nat => decide (b.2 ≤ a.2)) (tally vs)
  have hsort := pySort_pairwise (le := fun a b : Str × Nat => decide (b.2 ≤ a.2)) (by intro a b c; simp; omega) (by intro a b; simp; omega) (tally vs)
  have hnd : ((pySort (fun a b : Str × Nat => decide (b.2 ≤ a.2)) (tally vs)).map (·.1)).Nodup := (hperm.map _).nodup_iff.2 (tally_nodup vs)
  generalize pySort (fun a b : Str × Nat => decide (b.2 ≤ a.2)) (tally vs) = S at hperm hsort hnd
  have hF : (S.filter (fun p => decide (p.1 ≠ total))).Pairwise (fun a b => b.2 ≤ a.2) := (hsort.imp (fun h => of_decide_eq_true h)).sublist List.filter_sublist
  have hsub : ((S.filter (fun p => decide (p.1 ≠ total))).take n).Sublist S := (List.take_sublist _ _).trans List.filter_sublist
  have hitem : ∀ p ∈ S.filter (fun p => decide (p.1 ≠ total)), p.1 ∈ vs ∧ p.2 = vs.count p.1 := by
    intro p hp
    obtain ⟨h1, h2⟩ := List.mem_filter.1 hp
    rcases tally_item ht (hperm.mem_iff.1 h1) with ⟨h, _⟩ | ⟨_, h, g⟩
    · exact absurd h (of_decide_eq_true h2)
    · exact ⟨h, g⟩
  refine ⟨hnd.sublist (hsub.map _), List.length_take_le _ _, hF.sublist (List.take_sublist _ _), fun p hp => hitem p (List.mem_of_mem_take hp), fun v hv hnot => ?_⟩
  obtain ⟨q, hq, rfl⟩ := List.mem_map.1 ((tally_mem vs v).2 (.inl hv))
  have hqF : q ∈ S.filter (fun p => decide (p.1 ≠ total)) := List.mem_filter.2 ⟨hperm.mem_iff.2 hq, decide_eq_true (fun e => ht (e ▸ hv))⟩
  generalize S.filter (fun p => decide (p.1 ≠ total)) = F at *
  have hqd : q ∈ F.drop n := by
    rw [← List.take_append_drop n F] at hqF
    rcases List.mem_append.1 hqF with h | h
    · exact absurd (List.mem_map.2 ⟨q, h, rfl⟩) hnot
    · exact h
  have hlen : n < F.length := by
    have := List.length_pos_of_mem hqd
    rw [List.length_drop] at this
    omega
  refine ⟨by rw [List.length_take]; omega, fun p hp => ?_⟩
  rw [← (hitem q (List.mem_of_mem_drop hqd)).2]
  have := hF
  rw [← List.take_append_drop n F, List.pairwise_append] at this
  exact this.2.2 p hp q hqd

/-- **C165, the header (partial).** If there is a value, the number in the header is that of the different values. Missing (and violated by the code): if there is none, it is 0. -/
theorem C165_header_partial {vs : List Str} (ht : total ∉ vs) (h0 : vs ≠ []) {ds : List Str} (hd : ds.Nodup) (hm : ∀ v, v ∈ ds ↔ v ∈ vs) :
    header (tally vs) = ds.length := by
  have h1 : ((tally vs).map (·.1)).Perm (total :: ds) := by
    refine (List.perm_ext_iff_of_nodup (tally_nodup vs) (List.nodup_cons.2 ⟨fun h => ht ((hm _).1 h), hd⟩)).2 (fun a => ?_)
    rw [tally_mem, List.mem_cons, hm]
    exact ⟨fun h => h.elim .inr (fun g => .inl g.1), fun h => h.elim (fun e => .inr ⟨e, h0⟩) .inl⟩
  have h2 := h1.length_eq
  rw [List.length_map, List.length_cons] at h2
  unfold header
  omega

/-- **C165 violated (header).** If no node matches, or the matching nodes have no value, the header says that there are -1 values. -/
theorem C165_header_violated (nodes : List (Bool × List Str)) (h : ∀ p ∈ nodes, p.1 = true → p.2 = []) : header (tallyAll nodes).2 = -1 := by
  rw [C165_counters]
  have : (nodes.filter (·.1)).flatMap (·.2) = [] := by
    rw [List.flatMap_eq_nil_iff]
    intro p hp
    obtain ⟨h1, h2⟩ := List.mem_filter.1 hp
    exact h p h1 h2
  rw [this]
  rfl

/-- **C165 violated (n=0).** With `n=0` nothing should be printed, but if all values are the same, the value is printed. -/
theorem C165_zero_violated {v : Str} (hv : v ≠ total) (k : Nat) : printed 0 (tally (List.replicate (k + 1) v)) = [(v, k + 1)] := by
  have : ∀ k, tally (List.replicate (k + 1) v) = [(v, k + 1), (total, k + 1)] := by
    intro k
    induction k with
    | zero => simp [tally, inc, hv]
    | succ k ih =>
      rw [List.replicate_succ', tally_snoc, ih]
      simp [inc, hv]
  rw [this]
  unfold printed mostCommon
  rw [pySort_of_pairwise (by simp)]
  simp [hv]

/-- **C165 violated (the word for the total).** The value `T O T A L` is never printed. -/
theorem C165_total_violated (n : Nat) (c : Counter) : ∀ p ∈ printed n c, p.1 ≠ total :=
  fun _ hp => of_decide_eq_true (List.mem_filter.1 hp).2

theorem nodeLoop_eq : ∀ (l : List Bool) (seen : Bool) (o : Overall), nodeLoop l seen o =
    ⟨o.trees, o.nodes + l.length, o.matchNodes + l.count true, o.matchTrees + if !seen && l.any id then 1 else 0⟩
  | [], seen, o => by simp [nodeLoop]
  | b :: l, seen, o => by
    cases b with
    | true =>
      simp only [nodeLoop, if_true]
      rw [nodeLoop_eq l]
      cases seen <;> simp <;> omega
    | false =>
      simp only [nodeLoop, Bool.false_eq_true, if_false]
      rw [nodeLoop_eq l]
      cases seen <;> simp <;> omega

/-- **C165, the first line.** The numbers of trees, nodes, matching nodes and trees with a matching node -/
theorem C165_overall (ts : List (List Bool)) : (overall ts).trees = ts.length ∧ (overall ts).nodes = ts.flatten.length ∧
    (overall ts).matchNodes = ts.flatten.count true ∧ (overall ts).matchTrees = (ts.filter (fun t => decide (true ∈ t))).length := by
  have : ∀ (l : List (List Bool)) (o : Overall), l.foldl (fun o t => nodeLoop t false { o with trees := o.trees + 1 }) o =
      ⟨o.trees + l.length, o.nodes + l.flatten.length, o.matchNodes + l.flatten.count true, o.matchTrees + (l.filter (fun t => decide (true ∈ t))).length⟩ := by
    intro l
    induction l with
    | nil => intro o; rfl
    | cons t l ih =>
      intro o
      rw [List.foldl_cons, ih, nodeLoop_eq]
      have h1 : ((!false && t.any id) = true) ↔ true ∈ t := by simp
      rw [List.flatten_cons, List.length_append, List.count_append, List.filter_cons, List.length_cons]
      by_cases h : true ∈ t
      · rw [if_pos (h1.2 h), if_pos (decide_eq_true h), List.length_cons]
        simp only [Overall.mk.injEq]; omega
      · rw [if_neg (fun g => h (h1.1 g)), if_neg (by simpa using h)]
        simp only [Overall.mk.injEq]; omega
  unfold overall
  rw [this]
  refine ⟨?_, ?_, ?_, ?_⟩ <;> exact Nat.zero_add _

/-- **C165 violated (no nodes).** For files without words the block fails. -/
theorem C165_empty_violated (k : Nat) : firstLine (overall (List.replicate k [])) = none := by
  have : (overall (List.replicate k [])).nodes = 0 := by rw [(C165_overall _).2.1]; simp
  unfold firstLine
  rw [if_pos this]

/-! ## Examples -/

def exVs : List Str := [['a'], ['b'], ['a'], ['c'], ['b'], ['a']]

example : tally exVs = [(['a'], 3), (total, 6), (['b'], 2), (['c'], 1)] := by decide
example : printed 2 (tally exVs) = [(['a'], 3), (['b'], 2)] := by decide
example : header (tally exVs) = 3 := by decide
example : (overall [[true, false, true], [false]]).matchTrees = 1 := by decide

end Verif.Eval.See
