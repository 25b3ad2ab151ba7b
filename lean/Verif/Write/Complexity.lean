import Verif.Py.Sort

/-!
# Properties C205 and C206: demo.Complexity

Source: `udapi/block/demo/complexity.py`. The part of the tree below a node is a forest, in the order of the children. The conditions on single words (lines 9-133)
are the attributes of `Info`.
-/

namespace Verif.Write.Complexity
open Verif.Py

/-- A word. -/
structure Info where
  ord : Nat
  /-- `is_finite_clause_head(node)` (lines 79-103) -/
  finite : Bool
  /-- MISC contains `ClauseHead` already before the block -/
  stale : Bool := false
  /-- `udeprel == 'conj'` -/
  conj : Bool := false
  deriving DecidableEq, Repr

/-- `node.misc["ClauseHead"]` after the first loop of `process_tree` (lines 222-231) -/
def Info.marked (i : Info) : Bool := i.finite || i.stale

/-- The children of a node: the first one, its own children, and the rest. -/
inductive F where
  | nil
  | node (i : Info) (kids rest : F)
  deriving DecidableEq, Repr

abbrev Sub := Info × F

def F.roots : F → List Sub
  | .nil => []
  | .node i k r => (i, k) :: r.roots

def F.size : F → Nat
  | .nil => 0
  | .node _ k r => 1 + k.size + r.size

def weight (l : List Sub) : Nat := (l.map fun p => 1 + p.2.size).sum

theorem weight_roots (f : F) : weight f.roots = f.size := by
  induction f with
  | nil => rfl
  | node i k r _ ih =>
    simp only [F.roots, F.size, weight, List.map_cons, List.sum_cons] at *
    rw [ih]

theorem weight_append (a b : List Sub) : weight (a ++ b) = weight a + weight b := by
  simp [weight, List.map_append, List.sum_append]

theorem weight_reverse (a : List Sub) : weight a.reverse = weight a := by
  unfold weight
  exact ((List.reverse_perm a).map _).sum_nat

/-- The loop of lines 222-233: breadth first; each word with its `depth` and `clause_depth`. `d` and `c` in the queue are those of the parent (they are looked up by its
ord in the code). -/
def bfs : List (Sub × Nat × Nat) → List (Info × Nat × Nat)
  | [] => []
  | ((i, k), d, c) :: q =>
    let c' := if i.finite then c + 1 else c
    (i, d + 1, c') :: bfs (q ++ k.roots.map fun p => (p, d + 1, c'))
termination_by q => weight (q.map (·.1))
decreasing_by
  simp only [List.map_append, List.map_map, List.map_cons]
  rw [weight_append]
  have h1 : ∀ g : Nat × Nat, (k.roots.map ((fun x : Sub × Nat × Nat => x.1) ∘ fun p => (p, g))) = k.roots := by
    intro g
    simp [Function.comp_def]
  rw [h1, weight_roots]
  simp only [weight, List.map_cons, List.sum_cons]
  omega

/-- `get_t_units` on one head (lines 188-203): the words of the clause and the heads of dependent clauses; the end of the stack comes first in the list. -/
def walk : List Sub → List Info × List Sub
  | [] => ([], [])
  | (i, k) :: st =>
    if i.marked then
      let r := walk st
      (r.1, (i, k) :: r.2)
    else
      let r := walk (k.roots.reverse ++ st)
      (i :: r.1, r.2)
termination_by st => weight st
decreasing_by
  · simp only [weight, List.map_cons, List.sum_cons]; omega
  · rw [weight_append, weight_reverse, weight_roots]
    simp only [weight, List.map_cons, List.sum_cons]; omega

/-- the words below -/
def F.all : F → List Info
  | .nil => []
  | .node i k r => i :: (k.all ++ r.all)

def byOrd (a b : Info) : Bool := decide (a.ord ≤ b.ord)

/-- `descendants(add_self=True)` -/
def subtree (p : Sub) : List Info := pySort byOrd (p.1 :: p.2.all)

/-- Lines 204-208, for one main head -/
def tUnits (h : Sub) : List (List Info) :=
  let r := walk h.2.roots.reverse
  let main := pySort byOrd (h.1 :: r.1)
  r.2.map fun p => main ++ subtree p

/-- `get_t_units` -/
def getTUnits (hs : List Sub) : List (List Info) := hs.flatMap tUnits

/-- `expand_subtree([node], 'subtree_within_clause')` (lines 153-160) -/
def withinClause (h : Sub) : List Info :=
  pySort byOrd (h.1 :: (walk (h.2.roots.filter fun p => !p.1.conj).reverse).1)

/-- `total_t_units_length` (line 236) -/
def total (us : List (List Info)) : Nat := (us.map List.length).sum

def maxOf (l : List Nat) : Nat := l.foldl max 0

/-- `max_depth`, `max_clause_depth` (lines 232-233); the dictionaries begin with 0 for the root. -/
def maxDepth (f : F) : Nat := maxOf ((bfs (f.roots.map fun p => (p, 0, 0))).map (·.2.1))
def maxClauseDepth (f : F) : Nat := maxOf ((bfs (f.roots.map fun p => (p, 0, 0))).map (·.2.2))

/-- `clause_heads` (lines 226-228) -/
def clauseHeads (f : F) : List Info := ((bfs (f.roots.map fun p => (p, 0, 0))).map (·.1)).filter (·.finite)

/-! ## What it should do -/

/-- Every word with the number of words and of finite heads on the way from the root. -/
def levels : Nat → Nat → F → List (Info × Nat × Nat)
  | _, _, .nil => []
  | d, c, .node i k r =>
    (i, d + 1, c + (if i.finite then 1 else 0)) :: (levels (d + 1) (c + (if i.finite then 1 else 0)) k ++ levels d c r)

/-- The height of a forest and the greatest number of finite heads on a way. -/
def height : F → Nat
  | .nil => 0
  | .node _ k r => max (1 + height k) (height r)

def clauseHeight : F → Nat
  | .nil => 0
  | .node i k r => max ((if i.finite then 1 else 0) + clauseHeight k) (clauseHeight r)

/-! ## Depths -/

theorem levels_roots (d c : Nat) (f : F) : levels d c f = f.roots.flatMap fun p => levels d c (.node p.1 p.2 .nil) := by
  induction f with
  | nil => rfl
  | node i k r _ ih =>
    rw [F.roots, List.flatMap_cons, ← ih]
    simp [levels]

theorem bfs_perm (q : List (Sub × Nat × Nat)) :
    (bfs q).Perm (q.flatMap fun p => levels p.2.1 p.2.2 (.node p.1.1 p.1.2 .nil)) := by
  induction q using bfs.induct with
  | case1 => rw [bfs]; exact .refl _
  | case2 i k d c q c' ih =>
    rw [bfs, List.flatMap_cons]
    have hc : c + (if i.finite = true then 1 else 0) = c' := by
      show _ = if i.finite = true then c + 1 else c
      split <;> rfl
    have hl : levels d c (.node i k .nil) = (i, d + 1, c') :: levels (d + 1) c' k := by
      rw [levels, levels, List.append_nil, hc]
    show ((i, d + 1, c') :: _).Perm (levels d c (.node i k .nil) ++ _)
    rw [hl, List.cons_append]
    apply List.Perm.cons
    refine ih.trans ?_
    rw [List.flatMap_append]
    have : ((k.roots.map fun p => (p, d + 1, c')).flatMap fun p : Sub × Nat × Nat => levels p.2.1 p.2.2 (.node p.1.1 p.1.2 .nil)) =
        levels (d + 1) c' k := by
      rw [List.flatMap_map, levels_roots]
    rw [this]
    exact List.perm_append_comm

/-- C205: the loop visits every word once and gives it the number of words, and of finite heads, on the way from the root to it. -/
theorem C205_depths (f : F) : (bfs (f.roots.map fun p => (p, 0, 0))).Perm (levels 0 0 f) := by
  refine (bfs_perm _).trans ?_
  rw [List.flatMap_map, ← levels_roots]

theorem levels_words (d c : Nat) (f : F) : (levels d c f).map (·.1) = f.all := by
  induction f generalizing d c with
  | nil => rfl
  | node i k r ih1 ih2 => simp [levels, F.all, ih1, ih2]

/-- C205: the clauses are the finite heads of the sentence. -/
theorem C205_clauses (f : F) : (clauseHeads f).Perm (f.all.filter (·.finite)) := by
  unfold clauseHeads
  rw [← levels_words 0 0 f]
  exact ((C205_depths f).map _).filter _

theorem foldl_max_le (l : List Nat) (a n : Nat) : l.foldl max a ≤ n ↔ a ≤ n ∧ ∀ x ∈ l, x ≤ n := by
  induction l generalizing a with
  | nil => simp
  | cons b l ih =>
    rw [List.foldl_cons, ih, Nat.max_le]
    simp only [List.mem_cons, forall_eq_or_imp]
    rw [and_assoc]

theorem maxOf_le (l : List Nat) (n : Nat) : maxOf l ≤ n ↔ ∀ x ∈ l, x ≤ n := by
  unfold maxOf
  rw [foldl_max_le]
  simp

theorem maxOf_perm {l l' : List Nat} (h : l.Perm l') : maxOf l = maxOf l' := by
  apply Nat.le_antisymm
  · rw [maxOf_le]
    intro x hx
    exact (maxOf_le l' _).mp (Nat.le_refl _) x (h.mem_iff.mp hx)
  · rw [maxOf_le]
    intro x hx
    exact (maxOf_le l _).mp (Nat.le_refl _) x (h.mem_iff.mpr hx)

theorem levels_depth_le (f : F) (d c n : Nat) (hn : d ≤ n) : (∀ p ∈ levels d c f, p.2.1 ≤ n) ↔ d + height f ≤ n := by
  induction f generalizing d c with
  | nil => simp [levels, height, hn]
  | node i k r ih1 ih2 =>
    simp only [levels, height, List.mem_cons, List.mem_append]
    constructor
    · intro h
      have h0 := h _ (Or.inl rfl)
      have h1 := (ih1 (d + 1) _ h0).mp fun p hp => h p (Or.inr (Or.inl hp))
      have h2 := (ih2 d c hn).mp fun p hp => h p (Or.inr (Or.inr hp))
      omega
    · intro h p hp
      have h1 : d + 1 + height k ≤ n := by omega
      have h2 : d + height r ≤ n := by omega
      rcases hp with rfl | hp | hp
      · show d + 1 ≤ n
        omega
      · exact (ih1 (d + 1) _ (by omega)).mpr h1 p hp
      · exact (ih2 d c hn).mpr h2 p hp

theorem levels_clause_le (f : F) (d c n : Nat) (hn : c ≤ n) : (∀ p ∈ levels d c f, p.2.2 ≤ n) ↔ c + clauseHeight f ≤ n := by
  induction f generalizing d c with
  | nil => simp [levels, clauseHeight, hn]
  | node i k r ih1 ih2 =>
    simp only [levels, clauseHeight, List.mem_cons, List.mem_append]
    generalize (if i.finite = true then 1 else 0) = b at *
    constructor
    · intro h
      have h0 := h _ (Or.inl rfl)
      have h1 := (ih1 (d + 1) (c + b) h0).mp fun p hp => h p (Or.inr (Or.inl hp))
      have h2 := (ih2 d c hn).mp fun p hp => h p (Or.inr (Or.inr hp))
      omega
    · intro h p hp
      have h1 : c + b + clauseHeight k ≤ n := by omega
      have h2 : c + clauseHeight r ≤ n := by omega
      rcases hp with rfl | hp | hp
      · show c + b ≤ n
        omega
      · exact (ih1 (d + 1) _ (by omega)).mpr h1 p hp
      · exact (ih2 d c hn).mpr h2 p hp

/-- C205: the two maxima are the height of the tree and the greatest number of finite heads on a way from the root. -/
theorem C205_max (f : F) : maxDepth f = height f ∧ maxClauseDepth f = clauseHeight f := by
  have e : ∀ {a b : Nat}, (∀ n, a ≤ n ↔ b ≤ n) → a = b :=
    fun h => Nat.le_antisymm ((h _).mpr (Nat.le_refl _)) ((h _).mp (Nat.le_refl _))
  constructor
  · apply e
    intro n
    rw [maxDepth, maxOf_perm ((C205_depths f).map _), maxOf_le]
    have := levels_depth_le f 0 0 n (Nat.zero_le _)
    rw [Nat.zero_add] at this
    rw [← this]
    simp only [List.mem_map, forall_exists_index, and_imp, forall_apply_eq_imp_iff₂]
  · apply e
    intro n
    rw [maxClauseDepth, maxOf_perm ((C205_depths f).map _), maxOf_le]
    have := levels_clause_le f 0 0 n (Nat.zero_le _)
    rw [Nat.zero_add] at this
    rw [← this]
    simp only [List.mem_map, forall_exists_index, and_imp, forall_apply_eq_imp_iff₂]

/-- C205 is violated where MISC had marks before: clauses of t-units are counted by the mark, reported clauses by the condition. -/
theorem C205_stale_violated (i : Info) (k r : F) (hs : i.stale = true) (hf : i.finite = false) :
    i.marked = true ∧ i ∉ clauseHeads (.node i k r) := by
  refine ⟨by simp [Info.marked, hs], fun h => ?_⟩
  have := (List.mem_filter.mp h).2
  rw [hf] at this
  cases this

/-! ## T-units -/

theorem all_roots (f : F) : f.all = f.roots.flatMap fun p => p.1 :: p.2.all := by
  induction f with
  | nil => rfl
  | node i k r _ ih => rw [F.all, F.roots, List.flatMap_cons, ← ih]; rfl

theorem walk_spec (st : List Sub) :
    ((walk st).1 ++ (walk st).2.flatMap fun p => p.1 :: p.2.all).Perm (st.flatMap fun p => p.1 :: p.2.all) ∧
    (∀ i ∈ (walk st).1, i.marked = false) ∧ ∀ p ∈ (walk st).2, p.1.marked = true := by
  induction st using walk.induct with
  | case1 => rw [walk]; exact ⟨.refl _, by simp, by simp⟩
  | case2 i k st h ih =>
    rw [walk, if_pos h]
    refine ⟨?_, ih.2.1, ?_⟩
    · simp only [List.flatMap_cons]
      refine (List.perm_append_comm_assoc _ _ _).trans ?_
      exact List.Perm.append_left _ ih.1
    · intro p hp
      rcases List.mem_cons.mp hp with rfl | hp
      · exact h
      · exact ih.2.2 p hp
  | case3 i k st h ih =>
    rw [walk, if_neg h]
    refine ⟨?_, ?_, ih.2.2⟩
    · simp only [List.flatMap_cons, List.cons_append]
      apply List.Perm.cons
      refine ih.1.trans ?_
      rw [List.flatMap_append, all_roots]
      exact List.Perm.append_right _ ((List.reverse_perm _).flatMap_right _)
    · intro j hj
      rcases List.mem_cons.mp hj with rfl | hj
      · simpa using h
      · exact ih.2.1 j hj

theorem sorted_byOrd (l : List Info) : (pySort byOrd l).Pairwise (fun a b => a.ord ≤ b.ord) := by
  have := pySort_pairwise (le := byOrd) (fun a b c h1 h2 => by simp only [byOrd, decide_eq_true_eq] at *; omega)
    (fun a b => by simp only [byOrd, decide_eq_true_eq]; omega) l
  exact this.imp fun hab => by simpa [byOrd] using hab

/-- C206: each t-unit consists of the clause of the head, in the order of words, and of the subtree of one dependent clause. Together, the clause and the subtrees of the
dependent clauses have every word of the subtree of the head once; the words of the clause (but for its head) are not marked as heads of clauses, the heads of the
dependent clauses are. -/
theorem C206_units (h : Sub) : ∃ (main : List Info) (deps : List Sub), tUnits h = deps.map (fun p => main ++ subtree p) ∧ main.Pairwise (fun a b => a.ord ≤ b.ord) ∧
    (main ++ deps.flatMap subtree).Perm (h.1 :: h.2.all) ∧ (∀ p ∈ deps, p.1.marked = true) ∧
    ∃ ws, main.Perm (h.1 :: ws) ∧ ∀ i ∈ ws, i.marked = false := by
  obtain ⟨h1, h2, h3⟩ := walk_spec h.2.roots.reverse
  refine ⟨pySort byOrd (h.1 :: (walk h.2.roots.reverse).1), (walk h.2.roots.reverse).2, rfl, ?_, ?_, h3,
    (walk h.2.roots.reverse).1, pySort_perm _ _, h2⟩
  · exact sorted_byOrd _
  · have hs : ∀ l : List Sub, (l.flatMap subtree).Perm (l.flatMap fun p => p.1 :: p.2.all) := by
      intro l
      induction l with
      | nil => exact .refl _
      | cons a l ih =>
        rw [List.flatMap_cons, List.flatMap_cons]
        exact List.Perm.append (pySort_perm _ _) ih
    refine (List.Perm.append (pySort_perm _ _) (hs _)).trans ?_
    · rw [List.cons_append]
      apply List.Perm.cons
      refine h1.trans ?_
      rw [all_roots]
      exact (List.reverse_perm _).flatMap_right _

theorem length_flatMap_sum {α β : Type} (l : List α) (f : α → List β) : (l.flatMap f).length = (l.map fun x => (f x).length).sum := by
  induction l with
  | nil => rfl
  | cons a l ih => simp [ih]

/-- C206: the total length of the t-units of a head counts its clause once for each dependent clause. -/
theorem C206_total (h : Sub) : ∃ m, 1 ≤ m ∧ m ≤ (h.1 :: h.2.all).length ∧
    total (tUnits h) + m = (tUnits h).length * m + (h.1 :: h.2.all).length := by
  obtain ⟨main, deps, h1, _, h3, _, ws, h5, _⟩ := C206_units h
  refine ⟨main.length, ?_, ?_, ?_⟩
  · rw [h5.length_eq, List.length_cons]; omega
  · rw [← h3.length_eq, List.length_append]; omega
  · rw [h1, ← h3.length_eq, List.length_append, length_flatMap_sum, List.length_map]
    have : ∀ l : List Sub, total (l.map fun p => main ++ subtree p) = l.length * main.length + (l.map fun x => (subtree x).length).sum := by
      intro l
      induction l with
      | nil => rw [List.map_nil, List.map_nil, List.length_nil, Nat.zero_mul]; rfl
      | cons a l ih =>
        simp only [total, List.map_cons, List.sum_cons, List.length_append, List.length_cons] at *
        rw [ih, Nat.succ_mul]
        omega
    rw [this]
    omega

/-- C206: the t-units of a head have as many words as its subtree exactly if there is one dependent clause. -/
theorem C206_total_iff (h : Sub) : total (tUnits h) = (h.1 :: h.2.all).length ↔ (tUnits h).length = 1 := by
  obtain ⟨m, h1, h2, h3⟩ := C206_total h
  constructor
  · intro he
    have : (tUnits h).length * m = 1 * m := by omega
    exact Nat.eq_of_mul_eq_mul_right h1 this
  · intro he
    rw [he, Nat.one_mul] at h3
    omega

/-- C206 is violated: a sentence without dependent clauses has no t-unit at all. -/
theorem C206_simple_violated (h : Sub) (hn : ∀ i ∈ h.2.all, i.marked = false) : tUnits h = [] ∧ total (tUnits h) = 0 := by
  obtain ⟨h1, _, h3⟩ := walk_spec h.2.roots.reverse
  have hd : (walk h.2.roots.reverse).2 = [] := by
    apply List.eq_nil_iff_forall_not_mem.mpr
    intro p hp
    have hm : p.1 ∈ h.2.all := by
      rw [all_roots]
      apply ((List.reverse_perm _).flatMap_right _).mem_iff.mp
      apply h1.mem_iff.mp
      apply List.mem_append_right
      exact List.mem_flatMap.mpr ⟨p, hp, by simp⟩
    have := h3 p hp
    rw [hn _ hm] at this
    cases this
  have : tUnits h = [] := by
    unfold tUnits
    simp only [hd, List.map_nil]
  rw [this]
  exact ⟨rfl, rfl⟩

/-- C206: "within the clause" are the head and the words reached from its children, conjuncts excluded, without passing a marked word: together with the subtrees of the marked
words found they are the head and the subtrees of those children. -/
theorem C206_within (h : Sub) : ∃ (ws : List Info) (deps : List Sub), (withinClause h).Perm (h.1 :: ws) ∧
    (withinClause h).Pairwise (fun a b => a.ord ≤ b.ord) ∧ (∀ i ∈ ws, i.marked = false) ∧ (∀ p ∈ deps, p.1.marked = true) ∧
    (ws ++ deps.flatMap fun p => p.1 :: p.2.all).Perm ((h.2.roots.filter fun p => !p.1.conj).flatMap fun p => p.1 :: p.2.all) := by
  obtain ⟨h1, h2, h3⟩ := walk_spec (h.2.roots.filter fun p => !p.1.conj).reverse
  refine ⟨_, _, pySort_perm _ _, ?_, h2, h3, h1.trans ((List.reverse_perm _).flatMap_right _)⟩
  exact sorted_byOrd _

/-! ## Examples -/

/-- 3 is the head; 1 below 2 below 3; a relative clause 5 with 6 below 4; a conjunct 7 which is a finite head. -/
def exKids : F :=
  .node ⟨2, false, false, false⟩ (.node ⟨1, false, false, false⟩ .nil .nil)
    (.node ⟨4, false, false, false⟩ (.node ⟨5, true, false, false⟩ (.node ⟨6, false, false, false⟩ .nil .nil) .nil)
      (.node ⟨7, true, false, true⟩ .nil .nil))
def exHead : Sub := (⟨3, true, false, false⟩, exKids)

example : (bfs ([(exHead, 0, 0)])).map (fun p => (p.1.ord, p.2)) =
    [(3, 1, 1), (2, 2, 1), (4, 2, 1), (7, 2, 2), (1, 3, 1), (5, 3, 2), (6, 4, 2)] := by decide +kernel
example : maxDepth (.node exHead.1 exKids .nil) = 4 ∧ maxClauseDepth (.node exHead.1 exKids .nil) = 2 := by decide +kernel
example : (tUnits exHead).map (·.map (·.ord)) = [[1, 2, 3, 4, 7], [1, 2, 3, 4, 5, 6]] ∧ total (tUnits exHead) = 11 := by decide +kernel
example : (withinClause exHead).map (·.ord) = [1, 2, 3, 4] := by decide +kernel

end Verif.Write.Complexity
