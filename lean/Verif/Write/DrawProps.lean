import Verif.Write.Draw
import Verif.Tree.Lemmas

/-!
# Property C120: the drawing of write.TextModeTrees determines the tree
-/

namespace Verif.Write.Draw
open Verif.Py

/-- A tree: the parents are printed, they lead to the root and there is no cycle. -/
structure Good (t : T) : Prop where
  rootLt : t.root < t.n
  rootPar : t.par t.root = none
  up : ∃ depth : Nat → Nat, ∀ c v, c < t.n → t.par c = some v →
    v < t.n ∧ (v = t.root ∨ t.par v ≠ none) ∧ depth v < depth c

/-! ## Rows -/

theorem mem_kids {t : T} {v c : Nat} : c ∈ kids t v ↔ c < t.n ∧ t.par c = some v := by
  simp [kids]

theorem leaf_iff {t : T} {v : Nat} : leaf t v = true ↔ ∀ c, c < t.n → t.par c ≠ some v := by
  unfold leaf
  rw [List.isEmpty_iff, List.eq_nil_iff_forall_not_mem]
  constructor
  · intro h c hc e
    exact h c (mem_kids.2 ⟨hc, e⟩)
  · intro h c hc
    exact h c (mem_kids.1 hc).1 (mem_kids.1 hc).2

theorem headD_le {l : List Nat} (h : l.Pairwise (· < ·)) {x d : Nat} (hx : x ∈ l) : l.headD d ≤ x := by
  cases l with
  | nil => exact absurd hx List.not_mem_nil
  | cons a l =>
    rw [List.pairwise_cons] at h
    rcases List.mem_cons.1 hx with rfl | hx
    · exact Nat.le_refl _
    · exact Nat.le_of_lt (h.1 x hx)

theorem le_getLastD : ∀ {l : List Nat}, l.Pairwise (· < ·) → ∀ {x d : Nat}, x ∈ l → x ≤ l.getLastD d
  | [], _, _, _, hx => absurd hx List.not_mem_nil
  | [a], _, x, d, hx => by
    rw [List.mem_singleton] at hx
    simp [hx]
  | a :: b :: l, h, x, d, hx => by
    have h2 := (List.pairwise_cons.1 h)
    have e : (a :: b :: l).getLastD d = (b :: l).getLastD d := by simp [List.getLastD]
    rw [e]
    rcases List.mem_cons.1 hx with rfl | hx
    · have := le_getLastD h2.2 (x := b) (d := d) (by simp)
      have := h2.1 b (by simp)
      omega
    · exact le_getLastD h2.2 hx

theorem family_span {t : T} {v c : Nat} (h : c ∈ family t v) : lo t v ≤ c ∧ c ≤ hi t v := by
  have hp : (family t v).Pairwise (· < ·) := List.Pairwise.filter _ List.pairwise_lt_range
  exact ⟨headD_le hp h, le_getLastD hp h⟩

theorem self_span {t : T} {v : Nat} (h : v < t.n) : lo t v ≤ v ∧ v ≤ hi t v :=
  family_span (by simp [family, h])

theorem kid_span {t : T} {v c : Nat} (hc : c < t.n) (h : t.par c = some v) : lo t v ≤ c ∧ c ≤ hi t v :=
  family_span (by simp [family, hc, h])

theorem le_foldl_max (f : Nat → Nat) : ∀ (l : List Nat) (m : Nat), m ≤ l.foldl (fun m i => max m (f i)) m ∧
    ∀ i ∈ l, f i ≤ l.foldl (fun m i => max m (f i)) m
  | [], m => ⟨Nat.le_refl _, fun i hi => absurd hi List.not_mem_nil⟩
  | x :: l, m => by
    obtain ⟨h1, h2⟩ := le_foldl_max f l (max m (f x))
    rw [List.foldl_cons]
    refine ⟨by omega, ?_⟩
    intro i hi
    rcases List.mem_cons.1 hi with rfl | hi
    · omega
    · exact h2 i hi

theorem le_maxLen {rows : Nat → Str} {l h i : Nat} (h1 : l ≤ i) (h2 : i ≤ h) : (rows i).length ≤ maxLen rows l h :=
  (le_foldl_max (fun i => (rows i).length) _ 0).2 i (List.mem_range'_1.2 ⟨h1, by omega⟩)

theorem maxLen_empty {rows : Nat → Str} (h : ∀ i, rows i = []) (l k : Nat) : maxLen rows l k = 0 := by
  unfold maxLen
  generalize List.range' l (k + 1 - l) = xs
  induction xs with
  | nil => rfl
  | cons x xs ih => simp only [List.foldl_cons, h x, List.length_nil, Nat.max_zero, ih]

/-- What follows the filling. -/
def rest (p : P) (t : T) (v L i : Nat) (row : Str) : Str :=
  if i = v then line p ++ ([nodeChar (i == hi t v) (i == lo t v)] ++ p.text v)
  else if t.par i ≠ some v then vert p (ends (fill L row))
  else space p ++ ([kidChar p (decide (i < v)) (i == lo t v || i == hi t v)] ++
    (if leaf t i then line p ++ (['╼'] ++ p.text i) else []))

theorem stepRow_eq (p : P) (t : T) (v L i : Nat) (row : Str) : stepRow p t v L i row = fill L row ++ rest p t v L i row := by
  unfold stepRow rest
  by_cases h1 : i = v
  · simp [h1]
  · by_cases h2 : t.par i ≠ some v
    · simp [h1, h2]
    · simp [h1, h2]

/-- The cells of a row after the step. -/
theorem cell_step {p : P} {t : T} {v L i : Nat} {row : Str} (h : row.length ≤ L) (j : Nat) :
    (stepRow p t v L i row)[j]? = if j < row.length then row[j]? else
      if j < L then some (if ends row then '─' else ' ') else (rest p t v L i row)[j - L]? := by
  have hl : (fill L row).length = L := by
    unfold fill
    rw [List.length_append, List.length_replicate]
    omega
  rw [stepRow_eq]
  by_cases h1 : j < row.length
  · rw [if_pos h1, List.getElem?_append_left (by omega), fill, List.getElem?_append_left h1]
  · rw [if_neg h1]
    by_cases h2 : j < L
    · rw [if_pos h2, List.getElem?_append_left (by omega), fill, List.getElem?_append_right (by omega),
        List.getElem?_replicate, if_pos (by omega)]
    · rw [if_neg h2, List.getElem?_append_right (by omega), hl]

theorem cell_line (p : P) (c : Char) (s : Str) (j : Nat) : (List.replicate p.indent c ++ s)[j]? =
    if j < p.indent then some c else s[j - p.indent]? := by
  by_cases h : j < p.indent
  · rw [if_pos h, List.getElem?_append_left (by simpa using h), List.getElem?_replicate, if_pos h]
  · rw [if_neg h, List.getElem?_append_right (by simpa using h)]
    simp

theorem getElem?_one (c : Char) (s : Str) (j : Nat) : ([c] ++ s)[j]? = if j = 0 then some c else s[j - 1]? := by
  cases j with
  | zero => rfl
  | succ j => simp

theorem nodeChar_isNode (b t : Bool) : isNode (nodeChar b t) := by
  cases b <;> cases t <;> simp [nodeChar, isNode]

theorem not_isNode_line {c : Char} (h : isLine c) : ¬ isNode c := by
  rcases h with rfl | rfl <;> unfold isNode <;> decide

theorem not_isNode_blank : ¬ isNode ' ' := by unfold isNode; decide
theorem not_isNode_dash : ¬ isNode '─' := by unfold isNode; decide
theorem not_isNode_vert : ¬ isNode '│' := by unfold isNode; decide
theorem not_isNode_cross : ¬ isNode '╪' := by unfold isNode; decide

theorem not_isNode_kid (p : P) (b e : Bool) : ¬ isNode (kidChar p b e) := by
  cases b <;> cases e <;> unfold kidChar isNode <;> simp only <;> first | decide | (split <;> decide)

/-- A row that ends with a horizontal line or a corner. -/
theorem fill_ends {L : Nat} {row : Str} (h : ends row = true) : ends (fill L row) = true := by
  unfold fill
  rw [if_pos h]
  cases hn : L - row.length with
  | zero => simpa using h
  | succ n =>
    rw [List.replicate_succ']
    unfold ends
    rw [← List.append_assoc, List.getLast?_append]
    rfl

/-! ## The invariant -/

/-- `c` is drawn with an edge to the corner in column `k` of its parent `v`. -/
structure KidDrawn (rows : Nat → Str) (nd : Nat → Option Nat) (v c k : Nat) : Prop where
  down : c < v → (rows c)[k]? = some '┢' ∨ (rows c)[k]? = some '╭'
  up : v < c → (rows c)[k]? = some '┡' ∨ (rows c)[k]? = some '╰'
  between : ∀ i, (c < i ∧ i < v ∨ v < i ∧ i < c) → ∃ ch, (rows i)[k]? = some ch ∧ isVert ch
  lines : ∀ j, k < j → (∀ m, nd c = some m → j < m) → ∀ ch, (rows c)[j]? = some ch → isLine ch
  right : ∀ m, nd c = some m → k < m

/-- The state of the loop: the nodes `D` are drawn, the nodes `S` are on the stack, and `nd` are the columns of the nodes. -/
structure St (t : T) (D S : List Nat) (nd : Nat → Option Nat) (rows : Nat → Str) : Prop where
  nodup : (D ++ S).Nodup
  lt : ∀ x ∈ D ++ S, x < t.n
  start : D = [] → S = [t.root] ∧ ∀ i, rows i = []
  root : t.root ∈ D ∨ D = []
  parent : ∀ x ∈ D ++ S, x ≠ t.root → leaf t x = false ∧ ∃ v ∈ D, t.par x = some v
  closed : ∀ v ∈ D, ∀ c, c < t.n → t.par c = some v → leaf t c = true ∨ c ∈ D ++ S
  nodes : ∀ i j, NodeIn rows i j ↔ nd i = some j
  known : ∀ i, nd i ≠ none → i ∈ D ∨ (i < t.n ∧ leaf t i = true ∧ ∃ v ∈ D, t.par i = some v)
  has : ∀ i, (i ∈ D ∨ (i < t.n ∧ leaf t i = true ∧ ∃ v ∈ D, t.par i = some v)) → nd i ≠ none
  kid : ∀ v ∈ D, ∀ c, c < t.n → t.par c = some v → ∀ k, nd v = some k → KidDrawn rows nd v c k
  first : ∀ m, nd t.root = some m → ∀ j, j < m → (rows t.root)[j]? = some '─'

theorem St.perm {t : T} {D S S' : List Nat} {nd : Nat → Option Nat} {rows : Nat → Str} (h : St t D S nd rows) (hp : S'.Perm S) :
    St t D S' nd rows where
  nodup := (hp.append_left D).nodup_iff.2 h.nodup
  lt := fun x hx => h.lt x ((hp.append_left D).mem_iff.1 hx)
  start := fun e => by
    obtain ⟨h1, h2⟩ := h.start e
    refine ⟨?_, h2⟩
    rw [h1] at hp
    exact List.perm_singleton.1 hp
  root := h.root
  parent := fun x hx => h.parent x ((hp.append_left D).mem_iff.1 hx)
  closed := fun v hv c hc e => (h.closed v hv c hc e).imp_right ((hp.append_left D).mem_iff.2)
  nodes := h.nodes
  known := h.known
  has := h.has
  kid := h.kid
  first := h.first

theorem ends_of_last {s : Str} {c : Char} (h : s.getLast? = some c) (hc : isLine c ∨ c = '┢' ∨ c = '╭' ∨ c = '┡' ∨ c = '╰') :
    ends s = true := by
  unfold ends
  rw [h]
  rcases hc with (rfl | rfl) | rfl | rfl | rfl | rfl <;> decide

/-- A node on the stack is at the right end of its row. -/
theorem KidDrawn.ends {rows : Nat → Str} {nd : Nat → Option Nat} {v c k : Nat} (h : KidDrawn rows nd v c k) (hne : c ≠ v)
    (hn : nd c = none) : ends (rows c) = true := by
  have hk : ∃ ch, (rows c)[k]? = some ch ∧ (ch = '┢' ∨ ch = '╭' ∨ ch = '┡' ∨ ch = '╰') := by
    rcases Nat.lt_or_gt_of_ne hne with hlt | hlt
    · rcases h.down hlt with e | e
      · exact ⟨_, e, .inl rfl⟩
      · exact ⟨_, e, .inr (.inl rfl)⟩
    · rcases h.up hlt with e | e
      · exact ⟨_, e, .inr (.inr (.inl rfl))⟩
      · exact ⟨_, e, .inr (.inr (.inr rfl))⟩
  obtain ⟨ch, e, hch⟩ := hk
  have hlen : k < (rows c).length := (List.getElem?_eq_some_iff.1 e).1
  have hlast : (rows c).getLast? = (rows c)[(rows c).length - 1]? := List.getLast?_eq_getElem?
  by_cases hj : k = (rows c).length - 1
  · rw [← hj, e] at hlast
    exact ends_of_last hlast (.inr hch)
  · have hs : (rows c)[(rows c).length - 1]? = some ((rows c)[(rows c).length - 1]'(by omega)) := List.getElem?_eq_getElem _
    rw [hs] at hlast
    refine ends_of_last hlast (.inl (h.lines _ (by omega) (fun m hm => by rw [hn] at hm; cases hm) _ hs))

/-- The columns after a step. -/
def ndStep (p : P) (t : T) (v L : Nat) (nd : Nat → Option Nat) : Nat → Option Nat := fun i =>
  if i = v then some (L + p.indent) else if i < t.n ∧ t.par i = some v ∧ leaf t i = true then some (L + p.indent + 1 + p.indent)
  else nd i

theorem cell_old {p : P} {t : T} {rows : Nat → Str} {v i j : Nat} {ch : Char} (h : (rows i)[j]? = some ch) :
    (drawNode p t rows v i)[j]? = some ch := by
  unfold drawNode
  split
  · next hs => rw [cell_step (le_maxLen hs.1 hs.2), if_pos (List.getElem?_eq_some_iff.1 h).1]; exact h
  · exact h

theorem cell_span {p : P} {t : T} {rows : Nat → Str} {v i : Nat} (h : lo t v ≤ i ∧ i ≤ hi t v) (j : Nat) :
    (drawNode p t rows v i)[j]? = if j < (rows i).length then (rows i)[j]? else
      if j < maxLen rows (lo t v) (hi t v) then some (if ends (rows i) then '─' else ' ') else
        (rest p t v (maxLen rows (lo t v) (hi t v)) i (rows i))[j - maxLen rows (lo t v) (hi t v)]? := by
  unfold drawNode
  rw [if_pos h, cell_step (le_maxLen h.1 h.2)]

/-- The characters of `rest` that are nodes. -/
theorem rest_node {p : P} {t : T} {v L i : Nat} {row : Str} (ht : ∀ i, ∀ c ∈ p.text i, ¬ isNode c) (j : Nat) :
    (∃ c, (rest p t v L i row)[j]? = some c ∧ isNode c) ↔
      (i = v ∧ j = p.indent) ∨ (i ≠ v ∧ t.par i = some v ∧ leaf t i = true ∧ j = p.indent + 1 + p.indent) := by
  unfold rest
  by_cases h1 : i = v
  · rw [if_pos h1, line, cell_line]
    by_cases hj : j < p.indent
    · rw [if_pos hj]
      constructor
      · rintro ⟨c, hc, hn⟩
        rw [← Option.some.inj hc] at hn
        exact absurd hn not_isNode_dash
      · rintro (⟨_, h⟩ | ⟨h, _⟩)
        · omega
        · exact absurd h1 h
    · rw [if_neg hj, getElem?_one]
      by_cases hj2 : j - p.indent = 0
      · rw [if_pos hj2]
        exact ⟨fun _ => .inl ⟨h1, by omega⟩, fun _ => ⟨_, rfl, nodeChar_isNode _ _⟩⟩
      · rw [if_neg hj2]
        constructor
        · rintro ⟨c, hc, hn⟩
          exact absurd hn (ht _ c (List.mem_of_getElem? hc))
        · rintro (⟨_, h⟩ | ⟨h, _⟩)
          · omega
          · exact absurd h1 h
  · rw [if_neg h1]
    by_cases h2 : t.par i ≠ some v
    · rw [if_pos h2]
      constructor
      · rintro ⟨c, hc, hn⟩
        exfalso
        unfold vert at hc
        split at hc
        · rw [line, cell_line] at hc
          split at hc
          · rw [← Option.some.inj hc] at hn; exact not_isNode_dash hn
          · have := List.mem_of_getElem? hc
            rw [List.mem_singleton] at this
            rw [this] at hn
            exact not_isNode_cross hn
        · rw [space, cell_line] at hc
          split at hc
          · rw [← Option.some.inj hc] at hn; exact not_isNode_blank hn
          · have := List.mem_of_getElem? hc
            rw [List.mem_singleton] at this
            rw [this] at hn
            exact not_isNode_vert hn
      · rintro (⟨h, _⟩ | ⟨_, h, _⟩)
        · exact absurd h h1
        · exact absurd h h2
    · rw [if_neg h2, space, cell_line]
      have h2 : t.par i = some v := Classical.not_not.1 h2
      by_cases hj : j < p.indent
      · rw [if_pos hj]
        constructor
        · rintro ⟨c, hc, hn⟩
          rw [← Option.some.inj hc] at hn
          exact absurd hn not_isNode_blank
        · rintro (⟨h, _⟩ | ⟨_, _, _, h⟩)
          · exact absurd h h1
          · omega
      · rw [if_neg hj, getElem?_one]
        by_cases hj2 : j - p.indent = 0
        · rw [if_pos hj2]
          constructor
          · rintro ⟨c, hc, hn⟩
            rw [← Option.some.inj hc] at hn
            exact absurd hn (not_isNode_kid _ _ _)
          · rintro (⟨h, _⟩ | ⟨_, _, _, h⟩)
            · exact absurd h h1
            · omega
        · rw [if_neg hj2]
          by_cases hl : leaf t i = true
          · rw [if_pos hl, line, cell_line]
            by_cases hj3 : j - p.indent - 1 < p.indent
            · rw [if_pos hj3]
              constructor
              · rintro ⟨c, hc, hn⟩
                rw [← Option.some.inj hc] at hn
                exact absurd hn not_isNode_dash
              · rintro (⟨h, _⟩ | ⟨_, _, _, h⟩)
                · exact absurd h h1
                · omega
            · rw [if_neg hj3, getElem?_one]
              by_cases hj4 : j - p.indent - 1 - p.indent = 0
              · rw [if_pos hj4]
                exact ⟨fun _ => .inr ⟨h1, h2, hl, by omega⟩, fun _ => ⟨_, rfl, .inr (.inr (.inr rfl))⟩⟩
              · rw [if_neg hj4]
                constructor
                · rintro ⟨c, hc, hn⟩
                  exact absurd hn (ht _ c (List.mem_of_getElem? hc))
                · rintro (⟨h, _⟩ | ⟨_, _, _, h⟩)
                  · exact absurd h h1
                  · omega
          · rw [if_neg hl]
            constructor
            · rintro ⟨c, hc, hn⟩
              simp at hc
            · rintro (⟨h, _⟩ | ⟨_, _, h, _⟩)
              · exact absurd h h1
              · exact absurd h hl

theorem not_isNode_isVert {c : Char} (h : isVert c) : ¬ isNode c := by
  rcases h with rfl | rfl | rfl | rfl <;> unfold isNode <;> decide

theorem kidChar_vert {p : P} {b : Bool} {i l h : Nat} (hh : p.hints = true) (h1 : i ≠ l) (h2 : i ≠ h) :
    isVert (kidChar p b (i == l || i == h)) := by
  have e : (i == l || i == h) = false := by simp [h1, h2]
  rw [e]
  cases b
  · simp [kidChar, hh, isVert]
  · simp [kidChar, hh, isVert]

/-- In the column of `v`, a row other than `v` has no node. -/
theorem rest_column {p : P} {t : T} {v L i : Nat} {row : Str} (h : i ≠ v) :
    ∃ ch, (rest p t v L i row)[p.indent]? = some ch ∧ (p.hints = true → i ≠ lo t v → i ≠ hi t v → isVert ch) ∧
      (t.par i = some v → ch = kidChar p (decide (i < v)) (i == lo t v || i == hi t v)) := by
  unfold rest
  rw [if_neg h]
  by_cases h2 : t.par i ≠ some v
  · rw [if_pos h2]
    unfold vert
    split
    · exact ⟨'╪', by rw [line, cell_line, if_neg (by omega)]; simp, fun _ _ _ => .inr (.inl rfl), fun e => absurd e h2⟩
    · exact ⟨'│', by rw [space, cell_line, if_neg (by omega)]; simp, fun _ _ _ => .inl rfl, fun e => absurd e h2⟩
  · rw [if_neg h2]
    exact ⟨_, by rw [space, cell_line, if_neg (by omega), getElem?_one, if_pos (by omega)], kidChar_vert, fun _ => rfl⟩

theorem hi_lt {t : T} {v : Nat} (hv : v < t.n) : hi t v < t.n := by
  have : (family t v).getLastD v ∈ family t v ∨ (family t v).getLastD v = v := by
    cases h : (family t v).getLast? with
    | none => right; rw [List.getLastD_eq_getLast?, h]; rfl
    | some x => left; rw [List.getLastD_eq_getLast?, h]; exact List.mem_of_getLast? h
  rcases this with h | h
  · have := (List.mem_filter.1 h).1
    exact List.mem_range.1 this
  · unfold hi
    rw [h]
    exact hv

theorem step_inv {p : P} {t : T} (g : Good t) (hh : p.hints = true) (ht : ∀ i, ∀ c ∈ p.text i, ¬ isNode c) {D S : List Nat} {v : Nat}
    {nd : Nat → Option Nat} {rows : Nat → Str} (h : St t D (S ++ [v]) nd rows) :
    ∃ nd', St t (v :: D) (S ++ (kids t v).filter (fun c => !leaf t c)) nd' (drawNode p t rows v) := by
  obtain ⟨depth, up⟩ := g.up
  have hvn : v < t.n := h.lt v (by simp)
  have hnd := h.nodup
  rw [← List.append_assoc, List.nodup_append] at hnd
  have hvD : v ∉ D := fun e => hnd.2.2 v (by simp [e]) v (by simp) rfl
  have hvS : v ∉ S := fun e => hnd.2.2 v (by simp [e]) v (by simp) rfl
  have kidne : ∀ c, c < t.n → t.par c = some v → c ≠ v := by
    rintro c hc e rfl
    exact absurd (up c c hc e).2.2 (Nat.lt_irrefl _)
  -- a child of `v` is new
  have kidnew : ∀ c, t.par c = some v → c ∉ D ++ (S ++ [v]) := by
    intro c e hc
    have hcr : c ≠ t.root := fun e' => by rw [e', g.rootPar] at e; cases e
    obtain ⟨_, u, hu, e2⟩ := h.parent c hc hcr
    rw [e] at e2
    exact hvD (Option.some.inj e2 ▸ hu)
  have ndv : nd v = none := by
    refine Classical.byContradiction (fun hne => ?_)
    rcases h.known v hne with hd | ⟨_, hl, u, _, e⟩
    · exact hvD hd
    · have hvr : v ≠ t.root := fun e' => by rw [e', g.rootPar] at e; cases e
      rw [(h.parent v (by simp) hvr).1] at hl
      cases hl
  have ndkid : ∀ c, t.par c = some v → nd c = none := by
    intro c e
    refine Classical.byContradiction (fun hne => ?_)
    rcases h.known c hne with hd | ⟨_, _, u, hu, e2⟩
    · exact kidnew c e (by simp [hd])
    · rw [e] at e2
      exact hvD (Option.some.inj e2 ▸ hu)
  have hspan := self_span hvn
  generalize hL : maxLen rows (lo t v) (hi t v) = L
  have hrow : ∀ i, lo t v ≤ i ∧ i ≤ hi t v → (rows i).length ≤ L := fun i hi' => hL ▸ le_maxLen hi'.1 hi'.2
  have rootcase : v = t.root → D = [] := by
    rintro rfl
    rcases h.root with hd | hd
    · exact absurd hd hvD
    · exact hd
  refine ⟨ndStep p t v L nd, ?_⟩
  have ndold : ∀ i j, nd i = some j → ndStep p t v L nd i = some j := by
    intro i j e
    unfold ndStep
    by_cases h1 : i = v
    · rw [h1, ndv] at e; cases e
    · rw [if_neg h1, if_neg]
      · exact e
      · rintro ⟨_, h2, _⟩
        rw [ndkid i h2] at e
        cases e
  refine ⟨?_, ?_, ?_, ?_, ?_, ?_, ?_, ?_, ?_, ?_, ?_⟩
  · -- nodup
    have hfilter : ((kids t v).filter (fun c => !leaf t c)).Nodup :=
      (List.nodup_range.sublist List.filter_sublist).sublist List.filter_sublist
    rw [List.cons_append, List.nodup_cons, ← List.append_assoc, List.nodup_append]
    refine ⟨?_, hnd.1, hfilter, ?_⟩
    · intro hm
      rcases List.mem_append.1 hm with hm | hm
      · rcases List.mem_append.1 hm with hm | hm
        · exact hvD hm
        · exact hvS hm
      · have := mem_kids.1 (List.mem_filter.1 hm).1
        exact kidne v this.1 this.2 rfl
    · intro a ha b hb e
      subst e
      have := mem_kids.1 (List.mem_filter.1 hb).1
      refine kidnew a this.2 ?_
      rw [← List.append_assoc]
      exact List.mem_append_left _ ha
  · intro x hx
    rcases List.mem_append.1 hx with hx | hx
    · rcases List.mem_cons.1 hx with rfl | hx
      · exact hvn
      · exact h.lt x (by simp [hx])
    · rcases List.mem_append.1 hx with hx | hx
      · exact h.lt x (by simp [hx])
      · exact (mem_kids.1 (List.mem_filter.1 hx).1).1
  · intro e; cases e
  · left
    rcases h.root with hd | hd
    · exact List.mem_cons_of_mem _ hd
    · have := (h.start hd).1
      have hv : v = t.root := by
        have e := congrArg List.getLast? this
        simpa using e
      rw [hv]
      exact List.mem_cons_self
  · -- parent
    intro x hx hxr
    have old : x ∈ D ++ (S ++ [v]) → leaf t x = false ∧ ∃ u ∈ v :: D, t.par x = some u := by
      intro hm
      obtain ⟨h1, u, hu, e⟩ := h.parent x hm hxr
      exact ⟨h1, u, List.mem_cons_of_mem _ hu, e⟩
    rcases List.mem_append.1 hx with hx | hx
    · rcases List.mem_cons.1 hx with rfl | hx
      · exact old (by simp)
      · exact old (by simp [hx])
    · rcases List.mem_append.1 hx with hx | hx
      · exact old (by simp [hx])
      · obtain ⟨h1, h2⟩ := List.mem_filter.1 hx
        exact ⟨by simpa using h2, v, List.mem_cons_self, (mem_kids.1 h1).2⟩
  · -- closed
    intro u hu c hc e
    rcases List.mem_cons.1 hu with rfl | hu
    · by_cases hl : leaf t c = true
      · exact .inl hl
      · right
        refine List.mem_append_right _ (List.mem_append_right _ (List.mem_filter.2 ⟨mem_kids.2 ⟨hc, e⟩, by simpa using hl⟩))
    · rcases h.closed u hu c hc e with hl | hm
      · exact .inl hl
      · right
        rcases List.mem_append.1 hm with hm | hm
        · exact List.mem_append_left _ (List.mem_cons_of_mem _ hm)
        · rcases List.mem_append.1 hm with hm | hm
          · exact List.mem_append_right _ (List.mem_append_left _ hm)
          · rw [List.mem_singleton] at hm
            rw [hm]
            exact List.mem_append_left _ List.mem_cons_self
  · -- nodes
    intro i j
    constructor
    · rintro ⟨ch, hc, hn⟩
      by_cases hs : lo t v ≤ i ∧ i ≤ hi t v
      · rw [cell_span hs, hL] at hc
        split at hc
        · exact ndold i j ((h.nodes i j).1 ⟨ch, hc, hn⟩)
        · split at hc
          · rw [← Option.some.inj hc] at hn
            split at hn
            · exact absurd hn not_isNode_dash
            · exact absurd hn not_isNode_blank
          · next hj1 hj2 =>
            have hin : i < t.n := by have := hi_lt hvn; omega
            rcases (rest_node ht (j - L)).1 ⟨ch, hc, hn⟩ with ⟨rfl, e⟩ | ⟨h1, h2, h3, e⟩
            · unfold ndStep
              rw [if_pos rfl]
              congr 1
              omega
            · unfold ndStep
              rw [if_neg h1, if_pos ⟨hin, h2, h3⟩]
              congr 1
              omega
      · unfold drawNode at hc
        rw [if_neg hs] at hc
        exact ndold i j ((h.nodes i j).1 ⟨ch, hc, hn⟩)
    · intro e
      unfold ndStep at e
      split at e
      · next hi' =>
        subst hi'
        have e := Option.some.inj e
        obtain ⟨ch, h1, h2⟩ := (rest_node (L := L) (row := rows i) ht p.indent).2 (.inl ⟨rfl, rfl⟩)
        refine ⟨ch, ?_, h2⟩
        have := hrow i hspan
        rw [cell_span hspan, hL, if_neg (by omega), if_neg (by omega), ← e, show L + p.indent - L = p.indent by omega, h1]
      · split at e
        · next hne hk =>
          have e := Option.some.inj e
          have hs := kid_span hk.1 hk.2.1
          obtain ⟨ch, h1, h2⟩ := (rest_node (L := L) (row := rows i) ht (p.indent + 1 + p.indent)).2 (.inr ⟨hne, hk.2.1, hk.2.2, rfl⟩)
          refine ⟨ch, ?_, h2⟩
          have := hrow i hs
          rw [cell_span hs, hL, if_neg (by omega), if_neg (by omega), ← e,
            show L + p.indent + 1 + p.indent - L = p.indent + 1 + p.indent by omega, h1]
        · obtain ⟨ch, h1, h2⟩ := (h.nodes i j).2 e
          exact ⟨ch, cell_old h1, h2⟩
  · -- known
    intro i hne
    unfold ndStep at hne
    split at hne
    · next e => exact .inl (e ▸ List.mem_cons_self)
    · split at hne
      · next hk => exact .inr ⟨hk.1, hk.2.2, v, List.mem_cons_self, hk.2.1⟩
      · rcases h.known i hne with hd | ⟨h1, h2, u, hu, e⟩
        · exact .inl (List.mem_cons_of_mem _ hd)
        · exact .inr ⟨h1, h2, u, List.mem_cons_of_mem _ hu, e⟩
  · -- has
    intro i hi'
    unfold ndStep
    split
    · simp
    · next hne =>
      split
      · simp
      · next hk =>
        apply h.has
        rcases hi' with hd | ⟨h1, h2, u, hu, e⟩
        · exact .inl ((List.mem_cons.1 hd).resolve_left hne)
        · rcases List.mem_cons.1 hu with rfl | hu
          · exact absurd ⟨h1, e, h2⟩ hk
          · exact .inr ⟨h1, h2, u, hu, e⟩
  · -- kid
    intro u hu c hc e k hk
    rcases List.mem_cons.1 hu with rfl | hu
    · -- the children of `v`
      unfold ndStep at hk
      rw [if_pos rfl] at hk
      have hk := Option.some.inj hk
      subst hk
      have hs := kid_span hc e
      have hlc := hrow c hs
      have hcne := kidne c hc e
      have col : ∀ i, lo t u ≤ i ∧ i ≤ hi t u → i ≠ u → ∃ ch, (drawNode p t rows u i)[L + p.indent]? = some ch ∧
          (p.hints = true → i ≠ lo t u → i ≠ hi t u → isVert ch) ∧ (t.par i = some u → ch = kidChar p (decide (i < u)) (i == lo t u || i == hi t u)) := by
        intro i hi' hne
        have := hrow i hi'
        rw [cell_span hi', hL, if_neg (by omega), if_neg (by omega), show L + p.indent - L = p.indent by omega]
        exact rest_column hne
      refine ⟨?_, ?_, ?_, ?_, ?_⟩
      · intro hlt
        obtain ⟨ch, h1, _, h3⟩ := col c hs hcne
        rw [h1, h3 e, decide_eq_true hlt]
        cases (c == lo t u || c == hi t u)
        · left; simp [kidChar, hh]
        · right; rfl
      · intro hlt
        obtain ⟨ch, h1, _, h3⟩ := col c hs hcne
        rw [h1, h3 e, decide_eq_false (by omega)]
        cases (c == lo t u || c == hi t u)
        · left; simp [kidChar, hh]
        · right; rfl
      · intro i hi'
        obtain ⟨ch, h1, h2, _⟩ := col i (by omega) (by omega)
        exact ⟨ch, h1, h2 hh (by omega) (by omega)⟩
      · intro j hj hm ch hch
        rw [cell_span hs, hL, if_neg (by omega), if_neg (by omega)] at hch
        unfold rest at hch
        rw [if_neg hcne, if_neg (by simp [e]), space, cell_line, if_neg (by omega), getElem?_one, if_neg (by omega)] at hch
        split at hch
        · next hl =>
          have hm := hm (L + p.indent + 1 + p.indent) (by
            unfold ndStep; rw [if_neg hcne, if_pos ⟨hc, e, hl⟩])
          rw [line, cell_line, if_pos (by omega)] at hch
          exact .inl (Option.some.inj hch).symm
        · simp at hch
      · intro m hm
        unfold ndStep at hm
        rw [if_neg hcne] at hm
        split at hm
        · have := Option.some.inj hm
          omega
        · rw [ndkid c e] at hm
          cases hm
    · -- the children of nodes drawn before
      have hku : nd u = some k := by
        cases hn : nd u with
        | none => exact absurd hn (h.has u (.inl hu))
        | some k' =>
          have := ndold u k' hn
          rw [hk] at this
          rw [Option.some.inj this]
      have q := h.kid u hu c hc e k hku
      have huv : u ≠ v := fun e' => hvD (e' ▸ hu)
      have hpar : t.par c ≠ some v := by rw [e]; intro e'; exact huv (Option.some.inj e')
      have hcu : c ≠ u := by
        rintro rfl
        exact absurd (up c c hc e).2.2 (Nat.lt_irrefl _)
      have hkl : k < (rows c).length := by
        rcases Nat.lt_or_gt_of_ne hcu with hlt | hlt
        · rcases q.down hlt with e' | e' <;> exact (List.getElem?_eq_some_iff.1 e').1
        · rcases q.up hlt with e' | e' <;> exact (List.getElem?_eq_some_iff.1 e').1
      refine ⟨?_, ?_, ?_, ?_, ?_⟩
      · intro hlt
        exact (q.down hlt).imp cell_old cell_old
      · intro hlt
        exact (q.up hlt).imp cell_old cell_old
      · intro i hi'
        obtain ⟨ch, h1, h2⟩ := q.between i hi'
        exact ⟨ch, cell_old h1, h2⟩
      · intro j hj hm ch hch
        cases hndc : nd c with
        | some m =>
          have hjm := hm m (ndold c m hndc)
          obtain ⟨ch', h1, _⟩ := (h.nodes c m).2 hndc
          have hml := (List.getElem?_eq_some_iff.1 h1).1
          have hjl : j < (rows c).length := by omega
          have hold : (rows c)[j]? = some ((rows c)[j]'hjl) := List.getElem?_eq_getElem _
          have := cell_old (p := p) (t := t) (v := v) hold
          rw [hch] at this
          rw [Option.some.inj this]
          exact q.lines j hj (fun m' hm' => by rw [hndc] at hm'; rw [← Option.some.inj hm']; exact hjm) _ hold
        | none =>
          have hlines : ∀ j, k < j → ∀ ch, (rows c)[j]? = some ch → isLine ch := fun j hj ch hch =>
            q.lines j hj (fun m hm => by rw [hndc] at hm; cases hm) ch hch
          have hends := q.ends hcu hndc
          by_cases hs : lo t v ≤ c ∧ c ≤ hi t v
          · rw [cell_span hs, hL] at hch
            split at hch
            · exact hlines j hj ch hch
            · split at hch
              · exact .inl (Option.some.inj hch).symm
              · next hj1 hj2 =>
                unfold rest at hch
                by_cases hcv : c = v
                · have hm := hm (L + p.indent) (by unfold ndStep; rw [if_pos hcv])
                  rw [if_pos hcv, line, cell_line, if_pos (by omega)] at hch
                  exact .inl (Option.some.inj hch).symm
                · rw [if_neg hcv, if_pos hpar] at hch
                  unfold vert at hch
                  rw [fill_ends hends, if_pos rfl, line, cell_line] at hch
                  split at hch
                  · exact .inl (Option.some.inj hch).symm
                  · have := List.mem_of_getElem? hch
                    rw [List.mem_singleton] at this
                    exact .inr this
          · unfold drawNode at hch
            rw [if_neg hs] at hch
            exact hlines j hj ch hch
      · intro m hm
        unfold ndStep at hm
        split at hm
        · next hcv =>
          have hs : lo t v ≤ c ∧ c ≤ hi t v := hcv ▸ hspan
          have := hrow c hs
          have := Option.some.inj hm
          omega
        · rw [if_neg (fun hx => hpar hx.2.1)] at hm
          exact q.right m hm
  · -- first
    intro m hm j hj
    by_cases hvr : t.root = v
    · have hD := rootcase hvr.symm
      have hemp := (h.start hD).2
      have hL0 : L = 0 := by rw [← hL, maxLen_empty hemp]
      unfold ndStep at hm
      rw [if_pos hvr] at hm
      have hm := Option.some.inj hm
      rw [hvr, cell_span hspan, hL, hemp v, if_neg (by simp), if_neg (by omega)]
      unfold rest
      rw [if_pos rfl, line, cell_line, if_pos (by omega)]
    · have hold : nd t.root = some m := by
        unfold ndStep at hm
        rw [if_neg hvr, if_neg (fun hx => by rw [g.rootPar] at hx; cases hx.2.1)] at hm
        exact hm
      exact cell_old (h.first m hold j hj)

/-! ## The whole loop -/

theorem loop_spec {p : P} {t : T} (g : Good t) (hh : p.hints = true) (ht : ∀ i, ∀ c ∈ p.text i, ¬ isNode c)
    {sort : List Nat → List Nat} (hsort : ∀ l, (sort l).Perm l) : ∀ (fuel : Nat) (D S : List Nat) (nd : Nat → Option Nat)
    (rows : Nat → Str), St t D S nd rows → t.n ≤ D.length + fuel →
    ∃ D' nd', St t D' [] nd' (loop p t sort fuel S rows) ∧ D' ≠ [] ∨ (S = [] ∧ D = [])
  | 0, D, S, nd, rows, h, hf => by
    have hS : S = [] := by
      refine Classical.byContradiction (fun hne => ?_)
      have hsub : (D ++ S).length ≤ t.n := Verif.Tree.length_le_of_nodup_lt h.nodup h.lt
      have := List.length_pos_iff.2 hne
      rw [List.length_append] at hsub
      omega
    subst hS
    by_cases hD : D = []
    · exact ⟨D, nd, .inr ⟨rfl, hD⟩⟩
    · exact ⟨D, nd, .inl ⟨h, hD⟩⟩
  | fuel + 1, D, S, nd, rows, h, hf => by
    unfold loop
    cases hl : S.getLast? with
    | none =>
      have hS : S = [] := List.getLast?_eq_none_iff.1 hl
      subst hS
      by_cases hD : D = []
      · exact ⟨D, nd, .inr ⟨rfl, hD⟩⟩
      · exact ⟨D, nd, .inl ⟨h, hD⟩⟩
    | some v =>
      have hS : S = S.dropLast ++ [v] := by
        obtain ⟨S', e⟩ := List.getLast?_eq_some_iff.1 hl
        rw [e, List.dropLast_concat]
      rw [hS] at h
      obtain ⟨nd1, h1⟩ := step_inv g hh ht h
      obtain ⟨D', nd', h2⟩ := loop_spec g hh ht hsort fuel (v :: D) _ nd1 _ (h1.perm (hsort _)) (by
        rw [List.length_cons]; omega)
      rcases h2 with h2 | h2
      · exact ⟨D', nd', .inl h2⟩
      · exact absurd h2.2 (by simp)

theorem draw_st {p : P} {t : T} (g : Good t) (hh : p.hints = true) (ht : ∀ i, ∀ c ∈ p.text i, ¬ isNode c)
    {sort : List Nat → List Nat} (hsort : ∀ l, (sort l).Perm l) : ∃ D nd, St t D [] nd (draw p t sort) ∧ t.root ∈ D := by
  have h0 : St t [] [t.root] (fun _ => none) (fun _ => []) :=
    { nodup := by simp
      lt := fun x hx => by
        have : x = t.root := by simpa using hx
        rw [this]; exact g.rootLt
      start := fun _ => ⟨rfl, fun _ => rfl⟩
      root := .inr rfl
      parent := fun x hx hne => absurd (by simpa using hx) hne
      closed := fun v hv => absurd hv List.not_mem_nil
      nodes := fun i j => ⟨fun ⟨ch, h1, _⟩ => by simp at h1, fun h => by cases h⟩
      known := fun i h => absurd rfl h
      has := fun i h => by
        rcases h with h | ⟨_, _, v, hv, _⟩
        · exact absurd h List.not_mem_nil
        · exact absurd hv List.not_mem_nil
      kid := fun v hv => absurd hv List.not_mem_nil
      first := fun m hm => by cases hm }
  obtain ⟨D, nd, h⟩ := loop_spec g hh ht hsort t.n [] [t.root] _ _ h0 (by simp)
  rcases h with ⟨h, hD⟩ | ⟨h, _⟩
  · exact ⟨D, nd, h, h.root.resolve_right hD⟩
  · cases h

/-- Columns of attributes only add characters that are not nodes. -/
theorem finish_tail {align : Bool} {n : Nat} : ∀ {columns : List (Nat → Str)} {rows : Nat → Str},
    (∀ text ∈ columns, ∀ i, ∀ c ∈ text i, ¬ isNode c) →
    ∃ tail : Nat → Str, (∀ i, ∀ c ∈ tail i, ¬ isNode c) ∧ ∀ i, finish align n rows columns i = rows i ++ tail i
  | [], rows, _ => ⟨fun _ => [], fun i c hc => absurd hc List.not_mem_nil, fun i => (List.append_nil _).symm⟩
  | text :: columns, rows, h => by
    obtain ⟨tail, h1, h2⟩ := finish_tail (align := align) (n := n) (rows := addColumn align n rows text)
      (fun x hx => h x (List.mem_cons_of_mem _ hx))
    have ht := h text List.mem_cons_self
    cases align with
    | false =>
      refine ⟨fun i => text i ++ tail i, ?_, ?_⟩
      · intro i c hc
        rcases List.mem_append.1 hc with hc | hc
        · exact ht i c hc
        · exact h1 i c hc
      · intro i
        have := h2 i
        unfold finish at this ⊢
        rw [List.foldl_cons, this]
        simp [addColumn]
    | true =>
      refine ⟨fun i => List.replicate (maxLen rows 0 (n - 1) - (rows i).length) ' ' ++ (text i ++ tail i), ?_, ?_⟩
      · intro i c hc
        rcases List.mem_append.1 hc with hc | hc
        · rw [(List.mem_replicate.1 hc).2]
          exact not_isNode_blank
        · rcases List.mem_append.1 hc with hc | hc
          · exact ht i c hc
          · exact h1 i c hc
      · intro i
        have := h2 i
        unfold finish at this ⊢
        rw [List.foldl_cons, this]
        simp [addColumn]

theorem St.append {t : T} {D : List Nat} {nd : Nat → Option Nat} {rows : Nat → Str} (h : St t D [] nd rows)
    (hr : t.root ∈ D) {tail : Nat → Str} (ht : ∀ i, ∀ c ∈ tail i, ¬ isNode c) : St t D [] nd (fun i => rows i ++ tail i) where
  nodup := h.nodup
  lt := h.lt
  start := fun e => by rw [e] at hr; exact absurd hr List.not_mem_nil
  root := h.root
  parent := h.parent
  closed := h.closed
  nodes := fun i j => by
    rw [← h.nodes i j]
    constructor
    · rintro ⟨ch, hc, hn⟩
      by_cases hj : j < (rows i).length
      · rw [List.getElem?_append_left hj] at hc
        exact ⟨ch, hc, hn⟩
      · rw [List.getElem?_append_right (by omega)] at hc
        exact absurd hn (ht i ch (List.mem_of_getElem? hc))
    · rintro ⟨ch, hc, hn⟩
      exact ⟨ch, by rw [List.getElem?_append_left (List.getElem?_eq_some_iff.1 hc).1]; exact hc, hn⟩
  known := h.known
  has := h.has
  kid := fun v hv c hc e k hk => by
    have q := h.kid v hv c hc e k hk
    have old : ∀ {i j : Nat} {ch : Char}, (rows i)[j]? = some ch → (rows i ++ tail i)[j]? = some ch := fun hx => by
      rw [List.getElem?_append_left (List.getElem?_eq_some_iff.1 hx).1]; exact hx
    refine ⟨fun hlt => (q.down hlt).imp old old, fun hlt => (q.up hlt).imp old old, ?_, ?_, q.right⟩
    · intro i hi'
      obtain ⟨ch, h1, h2⟩ := q.between i hi'
      exact ⟨ch, old h1, h2⟩
    · intro j hj hm ch hch
      have hcn : nd c ≠ none := by
        apply h.has
        rcases h.closed v hv c hc e with hl | hm
        · exact .inr ⟨hc, hl, v, hv, e⟩
        · exact .inl (by simpa using hm)
      obtain ⟨m, hm'⟩ := Option.ne_none_iff_exists'.1 hcn
      obtain ⟨x, hx, _⟩ := (h.nodes c m).2 hm'
      have hml := (List.getElem?_eq_some_iff.1 hx).1
      have := hm m hm'
      rw [List.getElem?_append_left (by omega)] at hch
      exact q.lines j hj hm ch hch
  first := fun m hm j hj => by
    have := h.first m hm j hj
    rw [List.getElem?_append_left (List.getElem?_eq_some_iff.1 this).1]
    exact this

/-- What is printed. -/
def printed (p : P) (t : T) (sort : List Nat → List Nat) (align : Bool) (columns : List (Nat → Str)) : Nat → Str :=
  finish align t.n (draw p t sort) columns

theorem printed_st {p : P} {t : T} (g : Good t) (hh : p.hints = true) (ht : ∀ i, ∀ c ∈ p.text i, ¬ isNode c)
    {sort : List Nat → List Nat} (hsort : ∀ l, (sort l).Perm l) (align : Bool) {columns : List (Nat → Str)}
    (hcol : ∀ text ∈ columns, ∀ i, ∀ c ∈ text i, ¬ isNode c) :
    ∃ D nd, St t D [] nd (printed p t sort align columns) ∧ t.root ∈ D := by
  obtain ⟨D, nd, h, hr⟩ := draw_st g hh ht hsort
  obtain ⟨tail, h1, h2⟩ := finish_tail (align := align) (n := t.n) (rows := draw p t sort) hcol
  refine ⟨D, nd, ?_, hr⟩
  have : printed p t sort align columns = fun i => draw p t sort i ++ tail i := funext h2
  rw [this]
  exact h.append hr h1

/-- C120: with `hints`, whatever the order of drawing, the edges that one reads in the drawing are exactly the edges of the
tree, provided the printed attributes do not contain the symbols of nodes. -/
theorem C120_edges_partial {p : P} {t : T} (g : Good t) (hh : p.hints = true) (ht : ∀ i, ∀ c ∈ p.text i, ¬ isNode c)
    {sort : List Nat → List Nat} (hsort : ∀ l, (sort l).Perm l) (align : Bool)
    {columns : List (Nat → Str)} (hcol : ∀ text ∈ columns, ∀ i, ∀ c ∈ text i, ¬ isNode c) {c : Nat} (hc : c < t.n) (v : Nat) :
    Edge (printed p t sort align columns) c v ↔ t.par c = some v := by
  obtain ⟨D, nd, h, hr⟩ := printed_st g hh ht hsort align hcol
  obtain ⟨depth, up⟩ := g.up
  -- a node with children is drawn
  have drawn : ∀ (d : Nat) (c v : Nat), depth c ≤ d → c < t.n → t.par c = some v → v ∈ D := by
    intro d
    induction d with
    | zero =>
      intro c v hd hc e
      have := (up c v hc e).2.2
      omega
    | succ d ih =>
      intro c v hd hc e
      obtain ⟨hv, hor, hlt⟩ := up c v hc e
      rcases hor with rfl | hor
      · exact hr
      · obtain ⟨u, hu⟩ := Option.ne_none_iff_exists'.1 hor
        have huD := ih v u (by omega) hv hu
        rcases h.closed u huD v hv hu with hl | hm
        · exact absurd e (leaf_iff.1 hl c hc)
        · simpa using hm
  have edge : ∀ w, t.par c = some w → ∃ k m, nd w = some k ∧ nd c = some m ∧ KidDrawn (printed p t sort align columns) nd w c k := by
    intro w e
    have hw := drawn _ c w (Nat.le_refl _) hc e
    obtain ⟨k, hk⟩ := Option.ne_none_iff_exists'.1 (h.has w (.inl hw))
    have hcn : nd c ≠ none := by
      apply h.has
      rcases h.closed w hw c hc e with hl | hm
      · exact .inr ⟨hc, hl, w, hw, e⟩
      · exact .inl (by simpa using hm)
    obtain ⟨m, hm⟩ := Option.ne_none_iff_exists'.1 hcn
    exact ⟨k, m, hk, hm, h.kid w hw c hc e k hk⟩
  constructor
  · rintro ⟨k, m, hkm, hm, hline, hv, hdir⟩
    have hndc := (h.nodes c m).1 hm
    -- the column of the corner
    have corner : ∃ ch, (printed p t sort align columns c)[k]? = some ch ∧ (ch = '┢' ∨ ch = '╭' ∨ ch = '┡' ∨ ch = '╰') := by
      rcases hdir with ⟨hd | hd, _⟩ | ⟨hd | hd, _⟩
      · exact ⟨_, hd, .inl rfl⟩
      · exact ⟨_, hd, .inr (.inl rfl)⟩
      · exact ⟨_, hd, .inr (.inr (.inl rfl))⟩
      · exact ⟨_, hd, .inr (.inr (.inr rfl))⟩
    have notline : ∀ ch : Char, (ch = '┢' ∨ ch = '╭' ∨ ch = '┡' ∨ ch = '╰') → ¬ isLine ch := by
      intro ch hch
      rcases hch with rfl | rfl | rfl | rfl <;> unfold isLine <;> decide
    obtain ⟨ch, hch, hcorner⟩ := corner
    cases hp : t.par c with
    | none =>
      exfalso
      rcases h.known c (by rw [hndc]; simp) with hd | ⟨_, _, u, _, e⟩
      · by_cases hcr : c = t.root
        · have := h.first m (hcr ▸ hndc) k hkm
          rw [← hcr, hch] at this
          exact notline ch hcorner (.inl (Option.some.inj this))
        · obtain ⟨_, u, _, e⟩ := h.parent c (by simpa using hd) hcr
          rw [hp] at e
          cases e
      · rw [hp] at e
        cases e
    | some w =>
      obtain ⟨k', m', hk', hm', q⟩ := edge w hp
      have hmm : m' = m := by rw [hndc] at hm'; exact (Option.some.inj hm').symm
      subst hmm
      have hcw : c ≠ w := by
        rintro rfl
        exact absurd (up c c hc hp).2.2 (Nat.lt_irrefl _)
      have corner' : ∃ ch, (printed p t sort align columns c)[k']? = some ch ∧ (ch = '┢' ∨ ch = '╭' ∨ ch = '┡' ∨ ch = '╰') := by
        rcases Nat.lt_or_gt_of_ne hcw with hlt | hlt
        · rcases q.down hlt with e | e
          · exact ⟨_, e, .inl rfl⟩
          · exact ⟨_, e, .inr (.inl rfl)⟩
        · rcases q.up hlt with e | e
          · exact ⟨_, e, .inr (.inr (.inl rfl))⟩
          · exact ⟨_, e, .inr (.inr (.inr rfl))⟩
      obtain ⟨ch', hch', hcorner'⟩ := corner'
      have hkk : k' = k := by
        rcases Nat.lt_trichotomy k k' with hlt | heq | hgt
        · obtain ⟨ch2, e2, hl⟩ := hline k' hlt (q.right m' hm')
          rw [hch'] at e2
          exact absurd (Option.some.inj e2 ▸ hl) (notline ch' hcorner')
        · exact heq.symm
        · have := q.lines k hgt (fun m2 hm2 => by rw [hm'] at hm2; rw [← Option.some.inj hm2]; exact hkm) ch hch
          exact absurd this (notline ch hcorner)
      subst hkk
      rw [hch] at hch'
      have hww : NodeIn (printed p t sort align columns) w k' := (h.nodes w k').2 hk'
      have hnot : ∀ i, (c < i ∧ i < w ∨ w < i ∧ i < c) → ¬ NodeIn (printed p t sort align columns) i k' := by
        rintro i hi' ⟨x, hx, hxn⟩
        obtain ⟨y, hy, hyn⟩ := q.between i hi'
        rw [hx] at hy
        exact not_isNode_isVert hyn (Option.some.inj hy ▸ hxn)
      -- the direction
      rcases Nat.lt_or_gt_of_ne hcw with hlt | hlt
      · have hdown := q.down hlt
        rw [hch] at hdown
        rcases hdir with ⟨_, hcv, hno⟩ | ⟨hup, hvc, _⟩
        · rcases Nat.lt_trichotomy v w with h1 | h1 | h1
          · exact absurd hv (hnot v (.inl ⟨hcv, h1⟩))
          · rw [h1]
          · obtain ⟨x, hx, hxn⟩ := hww
            obtain ⟨y, hy, hyn⟩ := hno w hlt h1
            rw [hx] at hy
            exact absurd hxn (not_isNode_isVert (Option.some.inj hy ▸ hyn))
        · exfalso
          rw [hch] at hup
          rcases hdown with e1 | e1 <;> rcases hup with e2 | e2 <;> rw [e1] at e2 <;> exact absurd e2 (by decide)
      · have hup := q.up hlt
        rw [hch] at hup
        rcases hdir with ⟨hdown, hcv, _⟩ | ⟨_, hvc, hno⟩
        · exfalso
          rw [hch] at hdown
          rcases hdown with e1 | e1 <;> rcases hup with e2 | e2 <;> rw [e1] at e2 <;> exact absurd e2 (by decide)
        · rcases Nat.lt_trichotomy v w with h1 | h1 | h1
          · obtain ⟨x, hx, hxn⟩ := hww
            obtain ⟨y, hy, hyn⟩ := hno w h1 hlt
            rw [hx] at hy
            exact absurd hxn (not_isNode_isVert (Option.some.inj hy ▸ hyn))
          · rw [h1]
          · exact absurd hv (hnot v (.inr ⟨h1, hvc⟩))
  · intro e
    obtain ⟨k, m, hk, hm, q⟩ := edge v e
    have hcv : c ≠ v := by
      rintro rfl
      exact absurd (up c c hc e).2.2 (Nat.lt_irrefl _)
    have hmn := (h.nodes c m).2 hm
    refine ⟨k, m, q.right m hm, hmn, ?_, (h.nodes v k).2 hk, ?_⟩
    · intro j hj hjm
      obtain ⟨x, hx, _⟩ := hmn
      have hlen := (List.getElem?_eq_some_iff.1 hx).1
      have hs : (printed p t sort align columns c)[j]? = some ((printed p t sort align columns c)[j]'(by omega)) := List.getElem?_eq_getElem _
      exact ⟨_, hs, q.lines j hj (fun m' hm' => by rw [hm] at hm'; rw [← Option.some.inj hm']; exact hjm) _ hs⟩
    · rcases Nat.lt_or_gt_of_ne hcv with hlt | hlt
      · exact .inl ⟨q.down hlt, hlt, fun i h1 h2 => q.between i (.inl ⟨h1, h2⟩)⟩
      · exact .inr ⟨q.up hlt, hlt, fun i h1 h2 => q.between i (.inr ⟨h1, h2⟩)⟩

/-- C120: the row of a node has exactly one symbol of a node, and the row of an empty node (a node without a parent other than
the root) has none. -/
theorem C120_one_symbol {p : P} {t : T} (g : Good t) (hh : p.hints = true) (ht : ∀ i, ∀ c ∈ p.text i, ¬ isNode c)
    {sort : List Nat → List Nat} (hsort : ∀ l, (sort l).Perm l) (align : Bool)
    {columns : List (Nat → Str)} (hcol : ∀ text ∈ columns, ∀ i, ∀ c ∈ text i, ¬ isNode c) {c : Nat} (hc : c < t.n) :
    (c = t.root ∨ t.par c ≠ none → ∃ k, ∀ j, NodeIn (printed p t sort align columns) c j ↔ j = k) ∧
    (c ≠ t.root → t.par c = none → ∀ j, ¬ NodeIn (printed p t sort align columns) c j) := by
  obtain ⟨D, nd, h, hr⟩ := printed_st g hh ht hsort align hcol
  constructor
  · intro hor
    have : ∃ k, NodeIn (printed p t sort align columns) c k := by
      rcases hor with rfl | hor
      · obtain ⟨k, hk⟩ := Option.ne_none_iff_exists'.1 (h.has _ (.inl hr))
        exact ⟨k, (h.nodes _ k).2 hk⟩
      · obtain ⟨v, hv⟩ := Option.ne_none_iff_exists'.1 hor
        obtain ⟨_, m, _, hm, _⟩ := (C120_edges_partial g hh ht hsort align hcol hc v).2 hv
        exact ⟨m, hm⟩
    obtain ⟨k, hk⟩ := this
    refine ⟨k, fun j => ⟨fun hj => ?_, fun e => e ▸ hk⟩⟩
    have h1 := (h.nodes c k).1 hk
    have h2 := (h.nodes c j).1 hj
    rw [h1] at h2
    exact (Option.some.inj h2).symm
  · intro hne hp j hj
    have h1 := (h.nodes c j).1 hj
    rcases h.known c (by rw [h1]; simp) with hd | ⟨_, _, u, _, e⟩
    · obtain ⟨_, u, _, e⟩ := h.parent c (by simpa using hd) hne
      rw [hp] at e
      cases e
    · rw [hp] at e
      cases e

/-- C120: two sentences with the same drawing have the same tree, whatever the parameters and the order of drawing. -/
theorem C120_injective {p q : P} {t u : T} (g : Good t) (g' : Good u) (hp : p.hints = true) (hq : q.hints = true)
    (htp : ∀ i, ∀ c ∈ p.text i, ¬ isNode c) (htq : ∀ i, ∀ c ∈ q.text i, ¬ isNode c)
    {sort sort' : List Nat → List Nat} (hsort : ∀ l, (sort l).Perm l) (hsort' : ∀ l, (sort' l).Perm l)
    (align align' : Bool) {columns columns' : List (Nat → Str)} (hcol : ∀ text ∈ columns, ∀ i, ∀ c ∈ text i, ¬ isNode c)
    (hcol' : ∀ text ∈ columns', ∀ i, ∀ c ∈ text i, ¬ isNode c)
    (hn : t.n = u.n) (h : ∀ i, i < t.n → printed p t sort align columns i = printed q u sort' align' columns' i) {c : Nat} (hc : c < t.n) : t.par c = u.par c := by
  have tr : ∀ {r1 r2 : Nat → Str}, (∀ i, i < t.n → r1 i = r2 i) → ∀ v, v < t.n → Edge r1 c v → Edge r2 c v := by
    rintro r1 r2 e v hv ⟨k, m, h1, ⟨x, h2, h3⟩, h4, ⟨y, h5, h6⟩, h7⟩
    refine ⟨k, m, h1, ⟨x, e c hc ▸ h2, h3⟩, fun j a b => e c hc ▸ h4 j a b, ⟨y, e v hv ▸ h5, h6⟩, ?_⟩
    rw [← e c hc]
    refine h7.imp ?_ ?_
    · rintro ⟨a, b, d⟩
      exact ⟨a, b, fun i h1 h2 => e i (by omega) ▸ d i h1 h2⟩
    · rintro ⟨a, b, d⟩
      exact ⟨a, b, fun i h1 h2 => e i (by omega) ▸ d i h1 h2⟩
  obtain ⟨_, up⟩ := g.up
  obtain ⟨_, up'⟩ := g'.up
  have h1 := C120_edges_partial g hp htp hsort align hcol hc
  have h2 := C120_edges_partial g' hq htq hsort' align' hcol' (hn ▸ hc)
  cases e1 : t.par c with
  | some v =>
    have hv := (up c v hc e1).1
    exact ((h2 v).1 (tr h v hv ((h1 v).2 e1))).symm
  | none =>
    cases e2 : u.par c with
    | none => rfl
    | some v =>
      have hv := (up' c v (hn ▸ hc) e2).1
      have := (h1 v).1 (tr (fun i hi' => (h i hi').symm) v (hn ▸ hv) ((h2 v).2 e2))
      rw [e1] at this
      cases this

/-- Sorting the stack keeps its nodes. -/
theorem sortStack_perm (m : Bool) (gaps : Nat → Int) (l : List Nat) : (sortStack m gaps l).Perm l := by
  unfold sortStack
  split
  · exact pySort_perm _ _
  · exact List.Perm.refl _

/-! ## Examples -/

/-- The tree in the documentation of the block (textmodetrees.py:39-49); row 0 is the technical root. -/
def doc : T where
  n := 12
  root := 0
  par := fun i => [none, some 2, some 0, some 4, some 2, some 2, some 2, some 10, some 10, some 10, some 4, some 2].getD i none

def docP : P := { text := fun i => (["", " I", " saw", " a", " dog", " today", " ,", " which", " was", " a", " boxer", " ."].getD i "").toList }

example : Good doc where
  rootLt := by decide
  rootPar := rfl
  up := by
    refine ⟨fun i => [0, 2, 1, 3, 2, 2, 2, 4, 4, 4, 3, 2].getD i 0, ?_⟩
    have : ∀ c, c < 12 → ∀ v, v < 12 → doc.par c = some v → v < 12 ∧ (v = 0 ∨ doc.par v ≠ none) ∧
      [0, 2, 1, 3, 2, 2, 2, 4, 4, 4, 3, 2].getD v 0 < [0, 2, 1, 3, 2, 2, 2, 4, 4, 4, 3, 2].getD c 0 := by decide +kernel
    have hlt : ∀ c, c < 12 → ∀ x ∈ doc.par c, x < 12 := by decide +kernel
    intro c v hc e
    exact this c hc v (hlt c hc v e) e

/-- The drawing with `layout=compact`, as in the documentation (textmodetrees.py:70-81). -/
example : (List.range 12).map (fun i => String.ofList (draw {} doc id i)) =
    ["─┮", " │ ╭─╼", " ╰─┾", "   │   ╭─╼", "   ┡───┾", "   ┡─╼ │", "   ┡─╼ │", "   │   │ ╭─╼", "   │   │ ┢─╼", "   │   │ ┢─╼",
      "   │   ╰─┶", "   ╰─╼"] := by decide +kernel

/-- The drawing with `layout=classic`. -/
example : (List.range 12).map (fun i => String.ofList (draw docP doc id i)) =
    ["─┮", " │ ╭─╼ I", " ╰─┾ saw", "   │         ╭─╼ a", "   ┡─────────┾ dog", "   ┡─╼ today │", "   ┡─╼ ,     │",
      "   │         │ ╭─╼ which", "   │         │ ┢─╼ was", "   │         │ ┢─╼ a", "   │         ╰─┶ boxer", "   ╰─╼ ."] := by
  decide +kernel

/-- C120 fails with `hints=0`: the documentation (textmodetrees.py:57) shows a line from `├` to the node of "dog", but the block
fills the row with spaces, because `├` is missing in the characters after which a line is drawn (textmodetrees.py:279). -/
theorem C120_hints_violated :
    String.ofList (draw { docP with hints := false } doc id 4) = "   ├        ─┾ dog" := by decide +kernel

/-- A tree with crossing edges (textmodetrees.py:112-119): the bridge. -/
def bridge : T where
  n := 5
  root := 0
  par := fun i => [none, some 3, some 0, some 0, some 2].getD i none

example : (List.range 5).map (fun i => String.ofList (draw {} bridge id i)) =
    ["─┮", " │ ╭─╼", " ┡─╪─┮", " ╰─┶ │", "     ╰─╼"] := by decide +kernel

end Verif.Write.Draw
