import Verif.Eval.Lcs

/-!
# `difflib.SequenceMatcher(None, a, b, autojunk=False)`

A part of the Python standard library that `eval.Conll17`, `eval.Conll18` (conll18.py:139-144) and `util.MarkDiff`
(markdiff.py:67-68) rely on. Modelled after its documentation and source (Lib/difflib.py): without junk, and with the
recursion in place of the queue followed by a sort.
-/

namespace Verif.Eval
namespace Diff

variable {α : Type} [DecidableEq α]

/-- `(i, j, n)`: `a[i:i+n] == b[j:j+n]`. -/
abbrev Block := Nat × Nat × Nat

/-- How long a match starts at `a[i]` and `b[j]` and stays before `ahi` and `bhi`. -/
def matchLen (a b : List α) (ahi bhi i j : Nat) : Nat := samePrefix ((a.take ahi).drop i) ((b.take bhi).drop j)

/-- The pairs of positions of `a[alo:ahi]` and `b[blo:bhi]` in the order in which they are preferred. -/
def positions (alo ahi blo bhi : Nat) : List (Nat × Nat) :=
  (List.range' alo (ahi - alo)).flatMap (fun i => (List.range' blo (bhi - blo)).map (fun j => (i, j)))

/-- Keep the best match, the first one of those equally long. -/
def pick (a b : List α) (ahi bhi : Nat) : Block → List (Nat × Nat) → Block
  | best, [] => best
  | best, (i, j) :: rest =>
    if best.2.2 < matchLen a b ahi bhi i j then pick a b ahi bhi (i, j, matchLen a b ahi bhi i j) rest
    else pick a b ahi bhi best rest

/-- `find_longest_match(alo, ahi, blo, bhi)`: "of all maximal matching blocks, return one that starts earliest in a, and
of all those maximal matching blocks that start earliest in a, return the one that starts earliest in b". -/
def longest (a b : List α) (alo ahi blo bhi : Nat) : Block :=
  pick a b ahi bhi (alo, blo, 0) (positions alo ahi blo bhi)

/-- The matching blocks in `a[alo:ahi]` and `b[blo:bhi]`: the longest one and those to the left and to the right of it.
The depth of the recursion is bounded by the first argument (see `blocks_fuel`). -/
def blocks (a b : List α) : Nat → Nat → Nat → Nat → Nat → List Block
  | 0, _, _, _, _ => []
  | fuel + 1, alo, ahi, blo, bhi =>
    match longest a b alo ahi blo bhi with
    | (i, j, k) =>
      if k = 0 then []
      else blocks a b fuel alo i blo j ++ (i, j, k) :: blocks a b fuel (i + k) ahi (j + k) bhi

/-- Adjacent blocks are collapsed into one. -/
def collapse : Block → List Block → List Block
  | (i1, j1, k1), [] => if k1 = 0 then [] else [(i1, j1, k1)]
  | (i1, j1, k1), (i2, j2, k2) :: rest =>
    if i1 + k1 = i2 ∧ j1 + k1 = j2 then collapse (i1, j1, k1 + k2) rest
    else (if k1 = 0 then [] else [(i1, j1, k1)]) ++ collapse (i2, j2, k2) rest

/-- `get_matching_blocks()` without the sentinel. -/
def matching (a b : List α) : List Block := collapse (0, 0, 0) (blocks a b (a.length + 1) 0 a.length 0 b.length)

inductive Tag where
  | equal | replace | delete | insert
  deriving DecidableEq

/-- `(tag, i1, i2, j1, j2)` -/
structure Op where
  tag : Tag
  i1 : Nat
  i2 : Nat
  j1 : Nat
  j2 : Nat
  deriving DecidableEq

/-- What lies between two blocks. -/
def gap (i ai j bj : Nat) : List Op :=
  if i < ai ∧ j < bj then [⟨.replace, i, ai, j, bj⟩]
  else if i < ai then [⟨.delete, i, ai, j, bj⟩]
  else if j < bj then [⟨.insert, i, ai, j, bj⟩]
  else []

/-- The loop of `get_opcodes()`; the sentinel is `(la, lb, 0)`. -/
def opsFrom (la lb : Nat) : Nat → Nat → List Block → List Op
  | i, j, [] => gap i la j lb
  | i, j, (ai, bj, k) :: rest => gap i ai j bj ++ ⟨.equal, ai, ai + k, bj, bj + k⟩ :: opsFrom la lb (ai + k) (bj + k) rest

/-- `get_opcodes()` -/
def opcodes (a b : List α) : List Op := opsFrom a.length b.length 0 0 (matching a b)

/-- `zip(pred_nodes[pred_lo:pred_hi], gold_nodes[gold_lo:gold_hi])` for the `equal` operations (conll18.py:141-144), as
pairs of positions. -/
def aligned (ops : List Op) : List (Nat × Nat) :=
  ops.flatMap (fun o => if o.tag = .equal then (List.range' o.i1 (o.i2 - o.i1)).zip (List.range' o.j1 (o.j2 - o.j1)) else [])

/-! ## Specification -/

/-- Blocks of equal items one after another between `(i, j)` and `(ihi, jhi)`; in the gaps nothing is the same. -/
def Chain (a b : List α) (ihi jhi : Nat) : Nat → Nat → List Block → Prop
  | i, j, [] => i ≤ ihi ∧ j ≤ jhi ∧ ∀ p q, i ≤ p → p < ihi → j ≤ q → q < jhi → a[p]? ≠ b[q]?
  | i, j, (ai, bj, k) :: rest =>
    i ≤ ai ∧ j ≤ bj ∧ (∀ p q, i ≤ p → p < ai → j ≤ q → q < bj → a[p]? ≠ b[q]?) ∧ 0 < k ∧
    (∀ t, t < k → a[ai + t]? = b[bj + t]?) ∧ Chain a b ihi jhi (ai + k) (bj + k) rest

/-- An alignment: in the same order, and only of equal items. -/
structure Aligned (a b : List α) (ps : List (Nat × Nat)) : Prop where
  inc : ps.Pairwise (fun p q => p.1 < q.1 ∧ p.2 < q.2)
  same : ∀ p ∈ ps, p.1 < a.length ∧ p.2 < b.length ∧ a[p.1]? = b[p.2]?

/-! ## The longest match -/

theorem samePrefix_get (x y : List α) (t : Nat) (h : t < samePrefix x y) : x[t]? = y[t]? := by
  have e := samePrefix_take x y
  have : (x.take (samePrefix x y))[t]? = (y.take (samePrefix x y))[t]? := by rw [e]
  rwa [List.getElem?_take_of_lt h, List.getElem?_take_of_lt h] at this

/-- It is the longest common prefix. -/
theorem samePrefix_max : ∀ (x y : List α) (k : Nat), k ≤ x.length → k ≤ y.length → (∀ t, t < k → x[t]? = y[t]?) →
    k ≤ samePrefix x y
  | _, _, 0, _, _, _ => Nat.zero_le _
  | [], _, k + 1, h, _, _ => by simp at h
  | _ :: _, [], k + 1, _, h, _ => by simp at h
  | x :: xs, y :: ys, k + 1, h1, h2, h => by
    have h0 : x = y := by simpa using h 0 (by omega)
    have := samePrefix_max xs ys k (by simpa using h1) (by simpa using h2)
      (fun t ht => by simpa using h (t + 1) (by omega))
    unfold samePrefix
    rw [if_pos h0]
    omega

theorem matchLen_le {a b : List α} {ahi bhi i j : Nat} (hi : i ≤ ahi) (hj : j ≤ bhi) :
    i + matchLen a b ahi bhi i j ≤ ahi ∧ j + matchLen a b ahi bhi i j ≤ bhi := by
  have h := samePrefix_le ((a.take ahi).drop i) ((b.take bhi).drop j)
  simp only [List.length_drop, List.length_take] at h
  unfold matchLen
  omega

theorem matchLen_get {a b : List α} {ahi bhi i j t : Nat} (hi : i ≤ ahi) (hj : j ≤ bhi)
    (h : t < matchLen a b ahi bhi i j) : a[i + t]? = b[j + t]? := by
  have h' := matchLen_le (a := a) (b := b) hi hj
  have := samePrefix_get _ _ t h
  rw [List.getElem?_drop, List.getElem?_drop, List.getElem?_take_of_lt (by omega),
    List.getElem?_take_of_lt (by omega)] at this
  exact this

theorem matchLen_max {a b : List α} {ahi bhi i j k : Nat} (ha : ahi ≤ a.length) (hb : bhi ≤ b.length)
    (hi : i + k ≤ ahi) (hj : j + k ≤ bhi) (h : ∀ t, t < k → a[i + t]? = b[j + t]?) : k ≤ matchLen a b ahi bhi i j := by
  unfold matchLen
  apply samePrefix_max
  · simp only [List.length_drop, List.length_take]; omega
  · simp only [List.length_drop, List.length_take]; omega
  · intro t ht
    rw [List.getElem?_drop, List.getElem?_drop, List.getElem?_take_of_lt (by omega), List.getElem?_take_of_lt (by omega)]
    exact h t ht

theorem mem_positions {alo ahi blo bhi i j : Nat} :
    (i, j) ∈ positions alo ahi blo bhi ↔ (alo ≤ i ∧ i < ahi) ∧ (blo ≤ j ∧ j < bhi) := by
  simp only [positions, List.mem_flatMap, List.mem_map, List.mem_range'_1, Prod.mk.injEq]
  constructor
  · rintro ⟨x, hx, y, hy, rfl, rfl⟩; omega
  · rintro ⟨h1, h2⟩; exact ⟨i, by omega, j, by omega, rfl, rfl⟩

/-- The result is the start or one of the candidates, and at least as long as each of them. -/
theorem pick_spec (a b : List α) (ahi bhi : Nat) : ∀ (l : List (Nat × Nat)) (best : Block),
    (pick a b ahi bhi best l = best ∨
      ∃ p ∈ l, pick a b ahi bhi best l = (p.1, p.2, matchLen a b ahi bhi p.1 p.2)) ∧
    best.2.2 ≤ (pick a b ahi bhi best l).2.2 ∧
    ∀ p ∈ l, matchLen a b ahi bhi p.1 p.2 ≤ (pick a b ahi bhi best l).2.2
  | [], best => ⟨Or.inl rfl, Nat.le_refl _, fun p hp => absurd hp List.not_mem_nil⟩
  | (i, j) :: l, best => by
    unfold pick
    split
    · next h =>
      obtain ⟨h1, h2, h3⟩ := pick_spec a b ahi bhi l (i, j, matchLen a b ahi bhi i j)
      refine ⟨Or.inr ?_, ?_, ?_⟩
      · rcases h1 with h1 | ⟨p, hp, e⟩
        · exact ⟨(i, j), by simp, h1⟩
        · exact ⟨p, by simp [hp], e⟩
      · exact Nat.le_trans (Nat.le_of_lt h) h2
      · intro p hp
        rcases List.mem_cons.1 hp with rfl | hp
        · exact h2
        · exact h3 p hp
    · next h =>
      obtain ⟨h1, h2, h3⟩ := pick_spec a b ahi bhi l best
      refine ⟨?_, h2, ?_⟩
      · rcases h1 with h1 | ⟨p, hp, e⟩
        · exact Or.inl h1
        · exact Or.inr ⟨p, by simp [hp], e⟩
      · intro p hp
        rcases List.mem_cons.1 hp with rfl | hp
        · exact Nat.le_trans (Nat.not_lt.1 h) h2
        · exact h3 p hp

/-- The documented contract of `find_longest_match`. -/
theorem longest_spec {a b : List α} {alo ahi blo bhi i j k : Nat} (h1 : alo ≤ ahi) (h2 : blo ≤ bhi)
    (h : longest a b alo ahi blo bhi = (i, j, k)) :
    (alo ≤ i ∧ i + k ≤ ahi ∧ blo ≤ j ∧ j + k ≤ bhi ∧ ∀ t, t < k → a[i + t]? = b[j + t]?) ∧
    (ahi ≤ a.length → bhi ≤ b.length → ∀ i' j' k', alo ≤ i' → i' + k' ≤ ahi → blo ≤ j' → j' + k' ≤ bhi →
      (∀ t, t < k' → a[i' + t]? = b[j' + t]?) → k' ≤ k) := by
  obtain ⟨g1, g2, g3⟩ := pick_spec a b ahi bhi (positions alo ahi blo bhi) (alo, blo, 0)
  have e : pick a b ahi bhi (alo, blo, 0) (positions alo ahi blo bhi) = (i, j, k) := h
  rw [e] at g1 g2 g3
  constructor
  · rcases g1 with g1 | ⟨⟨x, y⟩, hp, g1⟩
    · simp only [Prod.mk.injEq] at g1
      obtain ⟨rfl, rfl, rfl⟩ := g1
      exact ⟨by omega, by omega, by omega, by omega, fun t ht => absurd ht (Nat.not_lt_zero _)⟩
    · simp only [Prod.mk.injEq] at g1
      obtain ⟨rfl, rfl, rfl⟩ := g1
      obtain ⟨hx, hy⟩ := mem_positions.1 hp
      have := matchLen_le (a := a) (b := b) (Nat.le_of_lt hx.2) (Nat.le_of_lt hy.2)
      exact ⟨hx.1, this.1, hy.1, this.2, fun t ht => matchLen_get (Nat.le_of_lt hx.2) (Nat.le_of_lt hy.2) ht⟩
  · intro ha hb i' j' k' q1 q2 q3 q4 q5
    cases k' with
    | zero => exact Nat.zero_le _
    | succ k' =>
      have m : (i', j') ∈ positions alo ahi blo bhi := mem_positions.2 ⟨by omega, by omega⟩
      exact Nat.le_trans (matchLen_max ha hb q2 q4 q5) (g3 _ m)

/-! ## The blocks -/

omit [DecidableEq α] in
theorem Chain.append {a b : List α} {ihi jhi ai bj k : Nat} : ∀ {i j : Nat} {l r : List Block},
    Chain a b ai bj i j l → 0 < k → (∀ t, t < k → a[ai + t]? = b[bj + t]?) → Chain a b ihi jhi (ai + k) (bj + k) r →
    Chain a b ihi jhi i j (l ++ (ai, bj, k) :: r)
  | _, _, [], _, h, hk, he, hr => ⟨h.1, h.2.1, h.2.2, hk, he, hr⟩
  | _, _, (_, _, _) :: _, _, ⟨h1, h2, h3, h4, h5, h6⟩, hk, he, hr => ⟨h1, h2, h3, h4, h5, h6.append hk he hr⟩

theorem blocks_chain (a b : List α) : ∀ (fuel alo ahi blo bhi : Nat), ahi - alo < fuel → alo ≤ ahi → blo ≤ bhi →
    ahi ≤ a.length → bhi ≤ b.length → Chain a b ahi bhi alo blo (blocks a b fuel alo ahi blo bhi)
  | 0, _, _, _, _, h, _, _, _, _ => by omega
  | fuel + 1, alo, ahi, blo, bhi, h, h1, h2, ha, hb => by
    unfold blocks
    generalize hl : longest a b alo ahi blo bhi = r
    obtain ⟨i, j, k⟩ := r
    obtain ⟨⟨g1, g2, g3, g4, g5⟩, g6⟩ := longest_spec h1 h2 hl
    have g6 := g6 ha hb
    simp only
    split
    · next hk =>
      subst hk
      refine ⟨h1, h2, ?_⟩
      intro p q e1 e2 e3 e4 e
      have := g6 p q 1 e1 (by omega) e3 (by omega)
        (fun t ht => by
          have : t = 0 := by omega
          subst this; exact e)
      omega
    · next hk =>
      exact (blocks_chain a b fuel alo i blo j (by omega) g1 g3 (by omega) (by omega)).append (by omega) g5
        (blocks_chain a b fuel (i + k) ahi (j + k) bhi (by omega) g2 g4 ha hb)

/-- The bound on the depth of the recursion does not matter. -/
theorem blocks_fuel (a b : List α) : ∀ (fuel alo ahi blo bhi : Nat), ahi - alo < fuel → alo ≤ ahi → blo ≤ bhi →
    blocks a b (fuel + 1) alo ahi blo bhi = blocks a b fuel alo ahi blo bhi
  | 0, _, _, _, _, h, _, _ => by omega
  | fuel + 1, alo, ahi, blo, bhi, h, h1, h2 => by
    rw [blocks, blocks]
    generalize hl : longest a b alo ahi blo bhi = r
    obtain ⟨i, j, k⟩ := r
    obtain ⟨⟨g1, g2, g3, g4, g5⟩, g6⟩ := longest_spec h1 h2 hl
    simp only
    split
    · rfl
    · next hk =>
      rw [blocks_fuel a b fuel alo i blo j (by omega) g1 g3, blocks_fuel a b fuel (i + k) ahi (j + k) bhi (by omega) g2 g4]

omit [DecidableEq α] in
/-- Collapsing keeps a chain. The block that is being extended starts anywhere after `(i, j)`. -/
theorem collapse_chain {a b : List α} {ihi jhi : Nat} : ∀ {l : List Block} {i j i1 j1 k1 : Nat}, i ≤ i1 → j ≤ j1 →
    (∀ p q, i ≤ p → p < i1 → j ≤ q → q < j1 → a[p]? ≠ b[q]?) → (k1 = 0 → i1 = i ∧ j1 = j) →
    (∀ t, t < k1 → a[i1 + t]? = b[j1 + t]?) →
    Chain a b ihi jhi (i1 + k1) (j1 + k1) l → Chain a b ihi jhi i j (collapse (i1, j1, k1) l)
  | [], i, j, i1, j1, k1, h1, h2, h3, h4, h5, h => by
    unfold collapse
    split
    · next hk =>
      obtain ⟨rfl, rfl⟩ := h4 hk
      subst hk
      simpa [Chain] using h
    · next hk => exact ⟨h1, h2, h3, by omega, h5, h⟩
  | (i2, j2, k2) :: l, i, j, i1, j1, k1, h1, h2, h3, h4, h5, h => by
    obtain ⟨e1, e2, e3, e4, e5, e6⟩ := h
    unfold collapse
    split
    · next hk =>
      obtain ⟨hk1, hk2⟩ := hk
      refine collapse_chain h1 h2 h3 ?_ ?_ ?_
      · intro e; omega
      · intro t ht
        by_cases hlt : t < k1
        · exact h5 t hlt
        · have := e5 (t - k1) (by omega)
          rw [← hk1, ← hk2] at this
          rw [show i1 + t = i1 + k1 + (t - k1) by omega, show j1 + t = j1 + k1 + (t - k1) by omega]
          exact this
      · rw [show i1 + (k1 + k2) = i2 + k2 by omega, show j1 + (k1 + k2) = j2 + k2 by omega]
        exact e6
    · next hk =>
      by_cases hk0 : k1 = 0
      · obtain ⟨rfl, rfl⟩ := h4 hk0
        subst hk0
        rw [if_pos rfl]
        exact collapse_chain e1 e2 e3 (by omega) e5 e6
      · rw [if_neg hk0]
        refine ⟨h1, h2, h3, by omega, h5, ?_⟩
        exact collapse_chain e1 e2 e3 (by omega) e5 e6

theorem matching_chain (a b : List α) : Chain a b a.length b.length 0 0 (matching a b) := by
  refine collapse_chain (Nat.le_refl _) (Nat.le_refl _) (by omega) (by omega) (by omega) ?_
  exact blocks_chain a b _ _ _ _ _ (by omega) (Nat.zero_le _) (Nat.zero_le _) (Nat.le_refl _) (Nat.le_refl _)

/-! ## The operations -/

/-- `get_opcodes()` goes through both sequences from the beginning to the end; the `equal` ones cover equal items and the
other ones have nothing in common. -/
def Ops (a b : List α) : Nat → Nat → List Op → Prop
  | i, j, [] => i = a.length ∧ j = b.length
  | i, j, o :: rest =>
    (o.i1 = i ∧ o.j1 = j ∧ i ≤ o.i2 ∧ j ≤ o.j2 ∧
      (match o.tag with
      | .equal => o.i2 - i = o.j2 - j ∧ i < o.i2 ∧ ∀ t, t < o.i2 - i → a[i + t]? = b[j + t]?
      | .replace => i < o.i2 ∧ j < o.j2 ∧ ∀ p q, i ≤ p → p < o.i2 → j ≤ q → q < o.j2 → a[p]? ≠ b[q]?
      | .delete => i < o.i2 ∧ o.j2 = j
      | .insert => o.i2 = i ∧ j < o.j2)) ∧ Ops a b o.i2 o.j2 rest

omit [DecidableEq α] in
theorem gap_ops {a b : List α} {i j ai bj : Nat} {rest : List Op} (h1 : i ≤ ai) (h2 : j ≤ bj)
    (h3 : ∀ p q, i ≤ p → p < ai → j ≤ q → q < bj → a[p]? ≠ b[q]?) (h : Ops a b ai bj rest) :
    Ops a b i j (gap i ai j bj ++ rest) := by
  unfold gap
  split
  · next e => exact ⟨⟨rfl, rfl, h1, h2, e.1, e.2, h3⟩, h⟩
  · next e =>
    split
    · next e1 =>
      have : bj = j := by omega
      exact ⟨⟨rfl, rfl, h1, h2, e1, this⟩, h⟩
    · next e1 =>
      split
      · next e2 =>
        have : ai = i := by omega
        exact ⟨⟨rfl, rfl, h1, h2, this, e2⟩, h⟩
      · next e2 =>
        have t1 : ai = i := by omega
        have t2 : bj = j := by omega
        subst t1; subst t2
        simpa using h

omit [DecidableEq α] in
theorem opsFrom_ops {a b : List α} : ∀ {l : List Block} {i j : Nat}, Chain a b a.length b.length i j l →
    Ops a b i j (opsFrom a.length b.length i j l)
  | [], i, j, ⟨h1, h2, h3⟩ => by
    have := gap_ops (a := a) (b := b) (rest := []) h1 h2 h3 ⟨rfl, rfl⟩
    simpa [opsFrom] using this
  | (ai, bj, k) :: l, i, j, ⟨h1, h2, h3, h4, h5, h6⟩ => by
    unfold opsFrom
    refine gap_ops h1 h2 h3 ⟨⟨rfl, rfl, by simp, by simp, ?_⟩, opsFrom_ops h6⟩
    refine ⟨by simp, by simp only; omega, ?_⟩
    intro t ht
    exact h5 t (by simp only at ht; omega)

theorem opcodes_ops (a b : List α) : Ops a b 0 0 (opcodes a b) := opsFrom_ops (matching_chain a b)

/-! ## The alignment -/

theorem mem_zip_range' {i j n p q : Nat} :
    (p, q) ∈ (List.range' i n).zip (List.range' j n) ↔ ∃ t, t < n ∧ p = i + t ∧ q = j + t := by
  induction n generalizing i j with
  | zero => simp
  | succ n ih =>
    rw [List.range'_succ, List.range'_succ, List.zip_cons_cons, List.mem_cons, ih]
    constructor
    · rintro (h | ⟨t, ht, rfl, rfl⟩)
      · simp only [Prod.mk.injEq] at h
        exact ⟨0, by omega, by omega, by omega⟩
      · exact ⟨t + 1, by omega, by omega, by omega⟩
    · rintro ⟨t, ht, rfl, rfl⟩
      cases t with
      | zero => exact Or.inl rfl
      | succ t => exact Or.inr ⟨t, by omega, by omega, by omega⟩

theorem pairwise_zip_range' : ∀ (n i j : Nat),
    ((List.range' i n).zip (List.range' j n)).Pairwise (fun p q => p.1 < q.1 ∧ p.2 < q.2)
  | 0, _, _ => by simp
  | n + 1, i, j => by
    rw [List.range'_succ, List.range'_succ, List.zip_cons_cons, List.pairwise_cons]
    refine ⟨?_, pairwise_zip_range' n _ _⟩
    rintro ⟨p, q⟩ h
    obtain ⟨t, ht, rfl, rfl⟩ := mem_zip_range'.1 h
    simp only
    omega

theorem mem_aligned {ops : List Op} {p : Nat × Nat} (h : p ∈ aligned ops) :
    ∃ o ∈ ops, o.tag = .equal ∧ p ∈ (List.range' o.i1 (o.i2 - o.i1)).zip (List.range' o.j1 (o.j2 - o.j1)) := by
  simp only [aligned, List.mem_flatMap] at h
  obtain ⟨o, ho, h⟩ := h
  split at h
  · exact ⟨o, ho, by assumption, h⟩
  · exact absurd h List.not_mem_nil

omit [DecidableEq α] in
theorem aligned_of_ops {a b : List α} : ∀ {ops : List Op} {i j : Nat}, Ops a b i j ops →
    i ≤ a.length ∧ j ≤ b.length ∧
    (aligned ops).Pairwise (fun p q => p.1 < q.1 ∧ p.2 < q.2) ∧
    ∀ p ∈ aligned ops, (i ≤ p.1 ∧ j ≤ p.2) ∧ p.1 < a.length ∧ p.2 < b.length ∧ a[p.1]? = b[p.2]?
  | [], i, j, h => ⟨Nat.le_of_eq h.1, Nat.le_of_eq h.2, by simp [aligned], by simp [aligned]⟩
  | o :: ops, i, j, ⟨⟨h1, h2, h3, h4, h5⟩, h⟩ => by
    obtain ⟨r1, r2, r3, r4⟩ := aligned_of_ops h
    have e : aligned (o :: ops) = (if o.tag = .equal then
        (List.range' o.i1 (o.i2 - o.i1)).zip (List.range' o.j1 (o.j2 - o.j1)) else []) ++ aligned ops := by
      simp [aligned]
    rw [e]
    refine ⟨by omega, by omega, ?_⟩
    split
    · next ht =>
      rw [ht] at h5
      obtain ⟨h5, h6, h7⟩ := h5
      subst h1; subst h2
      rw [← h5]
      constructor
      · rw [List.pairwise_append]
        refine ⟨pairwise_zip_range' _ _ _, r3, ?_⟩
        rintro ⟨p, q⟩ hp ⟨p', q'⟩ hq
        obtain ⟨t, ht, rfl, rfl⟩ := mem_zip_range'.1 hp
        have := (r4 _ hq).1
        simp only at this ⊢
        omega
      · rintro ⟨p, q⟩ hp
        rcases List.mem_append.1 hp with hp | hp
        · obtain ⟨t, ht, rfl, rfl⟩ := mem_zip_range'.1 hp
          simp only
          exact ⟨by omega, by omega, by omega, h7 t ht⟩
        · have := r4 _ hp
          simp only at this ⊢
          exact ⟨by omega, this.2⟩
    · next ht =>
      refine ⟨by simpa using r3, ?_⟩
      intro p hp
      have := r4 p (by simpa using hp)
      exact ⟨by omega, this.2⟩

/-- Only equal items are aligned, in the same order. -/
theorem aligned_spec (a b : List α) : Aligned a b (aligned (opcodes a b)) := by
  obtain ⟨_, _, h1, h2⟩ := aligned_of_ops (opcodes_ops a b)
  exact ⟨h1, fun p hp => (h2 p hp).2⟩

/-! ## A sequence and itself -/

theorem samePrefix_self : ∀ x : List α, samePrefix x x = x.length
  | [] => rfl
  | x :: xs => by simp [samePrefix, samePrefix_self xs]

theorem pick_stays (a b : List α) (ahi bhi : Nat) (best : Block) : ∀ (l : List (Nat × Nat)),
    (∀ p ∈ l, matchLen a b ahi bhi p.1 p.2 ≤ best.2.2) → pick a b ahi bhi best l = best
  | [], _ => rfl
  | (i, j) :: l, h => by
    unfold pick
    have h0 : ¬ best.2.2 < matchLen a b ahi bhi i j := Nat.not_lt.2 (h (i, j) (by simp))
    rw [if_neg h0]
    exact pick_stays a b ahi bhi best l (fun p hp => h p (by simp [hp]))

theorem longest_self (a : List α) : longest a a 0 a.length 0 a.length = (0, 0, a.length) := by
  cases a with
  | nil => rfl
  | cons x xs =>
    have hm : matchLen (x :: xs) (x :: xs) (x :: xs).length (x :: xs).length 0 0 = (x :: xs).length := by
      unfold matchLen
      rw [List.take_length, List.drop_zero, samePrefix_self]
    have hp : positions 0 (x :: xs).length 0 (x :: xs).length = (0, 0) :: (positions 0 (x :: xs).length 0 (x :: xs).length).tail := by
      simp [positions, List.range'_succ]
    unfold longest
    rw [hp]
    unfold pick
    rw [hm, if_pos (by simp)]
    apply pick_stays
    intro p hp'
    have hp'' : (p.1, p.2) ∈ positions 0 (x :: xs).length 0 (x :: xs).length := List.mem_of_mem_tail hp'
    obtain ⟨h1, h2⟩ := mem_positions.1 hp''
    have := matchLen_le (a := x :: xs) (b := x :: xs) (Nat.le_of_lt h1.2) (Nat.le_of_lt h2.2)
    simp only at this ⊢
    omega

theorem blocks_empty (a b : List α) (fuel n m : Nat) : blocks a b fuel n n m m = [] := by
  cases fuel with
  | zero => rfl
  | succ fuel => simp [blocks, longest, positions, pick]

theorem matching_self (a : List α) : matching a a = if a = [] then [] else [(0, 0, a.length)] := by
  unfold matching blocks
  rw [longest_self]
  cases a with
  | nil => simp [collapse]
  | cons x xs =>
    simp only [List.length_cons, Nat.add_eq_zero_iff, Nat.one_ne_zero, and_false, if_false, Nat.zero_add]
    rw [blocks_empty, blocks_empty]
    simp [collapse]

/-- A sequence is aligned with itself item by item. -/
theorem aligned_self (a : List α) :
    aligned (opcodes a a) = (List.range' 0 a.length).zip (List.range' 0 a.length) := by
  unfold opcodes
  rw [matching_self]
  cases a with
  | nil => rfl
  | cons x xs =>
    rw [if_neg (by simp)]
    simp [opsFrom, gap, aligned]

theorem opcodes_self (a : List α) (h : a ≠ []) : opcodes a a = [⟨.equal, 0, a.length, 0, a.length⟩] := by
  unfold opcodes
  rw [matching_self, if_neg h]
  simp [opsFrom, gap]

/-! ## Consequences of an alignment -/

omit [DecidableEq α] in
/-- An alignment of as many pairs as there are items is the identity. -/
theorem inc_full : ∀ (n k : Nat) (ps : List (Nat × Nat)), ps.Pairwise (fun p q => p.1 < q.1 ∧ p.2 < q.2) →
    (∀ p ∈ ps, (k ≤ p.1 ∧ p.1 < k + n) ∧ k ≤ p.2 ∧ p.2 < k + n) → ps.length = n →
    ps = (List.range' k n).zip (List.range' k n)
  | 0, _, ps, _, _, h => by simpa using List.eq_nil_of_length_eq_zero h
  | n + 1, k, ps, hp, hb, hl => by
    cases ps with
    | nil => simp at hl
    | cons p ps =>
      rw [List.pairwise_cons] at hp
      have hl' : ps.length = n := by simpa using hl
      have hpb := hb p (by simp)
      -- the rest lies above
      have rest := inc_full n (k + 1) ps hp.2 (by
        intro q hq
        have h1 := hp.1 q hq
        have h2 := hb q (by simp [hq])
        omega) hl'
      have hp1 : p.1 = k ∧ p.2 = k := by
        cases n with
        | zero => omega
        | succ n =>
          have : (k + 1, k + 1) ∈ ps := by rw [rest]; exact mem_zip_range'.2 ⟨0, by omega, by omega, by omega⟩
          have h1 := hp.1 _ this
          simp only at h1
          omega
      rw [rest, List.range'_succ, List.zip_cons_cons]
      congr 1
      exact Prod.ext hp1.1 hp1.2

omit [DecidableEq α] in
theorem inc_length : ∀ (ps : List (Nat × Nat)) (k n m : Nat), ps.Pairwise (fun p q => p.1 < q.1 ∧ p.2 < q.2) →
    (∀ p ∈ ps, (k ≤ p.1 ∧ p.1 < n) ∧ p.2 < m) → ps.length ≤ n - k
  | [], _, _, _, _, _ => by simp
  | p :: ps, k, n, m, hp, hb => by
    rw [List.pairwise_cons] at hp
    have h := hb p (by simp)
    have := inc_length ps (p.1 + 1) n m hp.2 (by
      intro q hq
      have h1 := hp.1 q hq
      have h2 := hb q (by simp [hq])
      omega)
    simp only [List.length_cons]
    omega

/-- The documented examples of `get_matching_blocks()` and `get_opcodes()`. -/
example : matching "abxcd".toList "abcd".toList = [(0, 0, 2), (3, 2, 2)] := by decide +kernel
example : opcodes "qabxcd".toList "abycdf".toList =
    [⟨.delete, 0, 1, 0, 0⟩, ⟨.equal, 1, 3, 0, 2⟩, ⟨.replace, 3, 4, 2, 3⟩, ⟨.equal, 4, 6, 3, 5⟩, ⟨.insert, 6, 6, 5, 6⟩] := by
  decide +kernel
example : longest " abcd".toList "abcd abcd".toList 0 5 0 9 = (0, 4, 5) := by decide +kernel

end Diff
end Verif.Eval
