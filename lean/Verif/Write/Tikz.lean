import Verif.Text.SplitUnder
import Verif.Py.Text

/-!
# Properties C186 and C187: dependency trees in LaTeX (udapi/block/write/tikz.py)

Simplified: the preamble (tikz.py:70-97) and the lines with the sentence id and the text are left out; the values of the
attributes, the depths and the enhanced dependencies of the nodes are given.
-/

namespace Verif.Write.Tikz
open Verif.Py

structure Node where
  ord : Nat
  values : List Str
  parent : Nat
  deprel : Str
  depth : Nat
  deps : List (Nat × Str)
  deriving DecidableEq

/-- `s.replace(c, r)` for a pattern of one character. -/
def replace1 (c : Char) (r : Str) (s : Str) : Str := s.flatMap fun x => if x = c then r else [x]

/-- `_tex_escape` (tikz.py:99-100). -/
def texEscape (s : Str) : Str :=
  replace1 ']' ['$', ']', '$'] (replace1 '[' ['$', '[', '$'] (replace1 '$' ['\\', '$'] (replace1 '_' ['\\', '_'] s)))

/-- `s.ljust(n)`. -/
def ljust (n : Nat) (s : Str) : Str := s ++ List.replicate (n - s.length) ' '

/-- `max(len(value) for value in values)` (tikz.py:121); there is always a value. -/
def maxLen (vs : List Str) : Nat := vs.foldr (fun v m => max v.length m) 0

def sep : Str := [' ', '\\', '&', ' ']

/-- One node is added to the rows (tikz.py:119-125). -/
def addNode (lines : List Str) (n : Node) : List Str :=
  let vs := n.values.map texEscape
  List.zipWith (fun l v => (if 1 < n.ord then l ++ sep else l) ++ ljust (maxLen vs) v) lines vs

/-- The rows of the table (tikz.py:118-127) for `k` attributes. -/
def table (k : Nat) (nodes : List Node) : List Str :=
  (nodes.foldl addNode (List.replicate k [])).map (· ++ [' ', '\\', '\\'])

/-- The lines with the comment of the tree (tikz.py:113-116). -/
def commentLines (c : Str) : Str := '%' :: replace1 '\n' ['\n', '%'] (rstrip c)

/-- An edge of the tree or of the enhanced graph (tikz.py:142-151). -/
def edgeLine (opt : Str) (ord parent : Nat) (deprel : Str) : Str :=
  if parent = 0 then ['\\', 'd', 'e', 'p', 'r', 'o', 'o', 't'] ++ opt ++ '{' :: natStr ord ++ ['}', '{', 'r', 'o', 'o', 't', '}']
  else ['\\', 'd', 'e', 'p', 'e', 'd', 'g', 'e'] ++ opt ++ '{' :: natStr parent ++ '}' :: '{' :: natStr ord ++ '}' :: '{' :: deprel ++ ['}']

def below : Str := ['[', 'e', 'd', 'g', 'e', ' ', 'b', 'e', 'l', 'o', 'w', ']']

/-- The lines of one node (tikz.py:141-151). -/
def nodeEdges (enhanced : Bool) (n : Node) : List Str :=
  edgeLine [] n.ord n.parent n.deprel :: (if enhanced then n.deps.map fun d => edgeLine below n.ord d.1 d.2 else [])

/-- The edges below the table (tikz.py:140-151). -/
def edges (enhanced : Bool) (nodes : List Node) : List Str := nodes.flatMap (nodeEdges enhanced)

/-- With `as_tree`, the heights of the nodes in the drawing (tikz.py:129-133); `none` is the ValueError of `max`. -/
def heights (nodes : List Node) : Option (List Nat) :=
  if nodes = [] then none
  else some (nodes.map fun n => nodes.foldr (fun n m => max n.depth m) 0 - n.depth)

/-- `s.find(p)`: the text before the first occurrence of `p` and the text after it. -/
def cutAt (p : Str) : Str → Option (Str × Str)
  | [] => if p = [] then some ([], []) else none
  | c :: s => if p.isPrefixOf (c :: s) then some ([], (c :: s).drop p.length)
      else (cutAt p s).map fun (a, b) => (c :: a, b)

/-- `tree.comment[start_pos:end_pos]`, where `end_pos` is the place of the next newline and -1 if there is none
(tikz.py:154-157). -/
def upToNewline (s : Str) : Str := if '\n' ∈ s then s.takeWhile (· ≠ '\n') else s.dropLast

/-- The translation below the graph (tikz.py:152-157); `none` if nothing is printed. -/
def deptrans (attr comment : Str) : Option Str :=
  (cutAt (attr ++ [' ', '=', ' ']) comment).map fun (_, s) => ['\\', 'd', 'e', 'p', 't', 'r', 'a', 'n', 's', '{'] ++ upToNewline s

/-! ## Escaping -/

/-- The reference: what TeX reads as the character. -/
def code (c : Char) : Str :=
  if c = '_' then ['\\', '_'] else if c = '$' then ['\\', '$'] else if c = '[' then ['$', '[', '$']
  else if c = ']' then ['$', ']', '$'] else [c]

theorem texEscape_eq (s : Str) : texEscape s = s.flatMap code := by
  induction s with
  | nil => rfl
  | cons c s ih =>
    have h : texEscape (c :: s) = texEscape [c] ++ texEscape s := by simp [texEscape, replace1, List.flatMap_append]
    rw [h, ih, List.flatMap_cons]
    congr 1
    by_cases h1 : c = '_'
    · subst h1; decide
    by_cases h2 : c = '$'
    · subst h2; decide
    by_cases h3 : c = '['
    · subst h3; decide
    by_cases h4 : c = ']'
    · subst h4; decide
    simp [texEscape, replace1, code, h1, h2, h3, h4]

theorem code_suffix {a b : Char} {x y : Str} (h : x ++ code a = y ++ code b) : a = b ∧ x = y := by
  have hr := congrArg List.reverse h
  simp only [List.reverse_append] at hr
  suffices hs : a = b by
    subst hs
    exact ⟨rfl, List.append_cancel_right h⟩
  revert hr
  unfold code
  repeat' split
  all_goals simp_all
  all_goals intro he _; exact absurd he.symm ‹_›

theorem escape_inj : ∀ (n : Nat) (s t : Str), s.length = n → s.flatMap code = t.flatMap code → s = t := by
  intro n
  induction n with
  | zero =>
    intro s t hs h
    have hs : s = [] := List.length_eq_zero_iff.1 hs
    subst hs
    cases t with
    | nil => rfl
    | cons c t =>
      have : code c ≠ [] := by simp only [code, ne_eq]; (repeat' split) <;> simp
      simp [this] at h
  | succ n ih =>
    intro s t hs h
    rcases List.eq_nil_or_concat s with rfl | ⟨s', a, rfl⟩
    · simp at hs
    rcases List.eq_nil_or_concat t with rfl | ⟨t', b, rfl⟩
    · have : code a ≠ [] := by simp only [code, ne_eq]; (repeat' split) <;> simp
      simp [this] at h
    simp only [List.concat_eq_append, List.flatMap_append, List.flatMap_cons, List.flatMap_nil, List.append_nil] at h
    obtain ⟨rfl, h2⟩ := code_suffix h
    have := ih s' t' (by simpa using hs) h2
    rw [this]

/-- **C186.** Every character is escaped by itself: the dollars that stand for brackets are not escaped again. -/
theorem C186_escape (s : Str) : texEscape s = s.flatMap code := texEscape_eq s

/-- **C186.** Different values are printed differently. -/
theorem C186_escape_inj {s t : Str} (h : texEscape s = texEscape t) : s = t := by
  rw [texEscape_eq, texEscape_eq] at h
  exact escape_inj _ s t rfl h

/-! ## The table -/

def cell (i : Nat) (n : Node) : Str := ljust (maxLen (n.values.map texEscape)) (((n.values.map texEscape)[i]?).getD [])

theorem foldl_row {k : Nat} : ∀ {nodes : List Node} {L : List Str}, L.length = k → (∀ n ∈ nodes, n.values.length = k) →
    (∀ n ∈ nodes, 1 < n.ord) → ∀ i l, L[i]? = some l →
    (nodes.foldl addNode L)[i]? = some (l ++ nodes.flatMap fun n => sep ++ cell i n) := by
  intro nodes
  induction nodes with
  | nil => intro L _ _ _ i l h; simpa using h
  | cons n nodes ih =>
    intro L hL hv ho i l hl
    have hik : i < k := by
      rw [← hL]
      exact (List.getElem?_eq_some_iff.1 hl).1
    have hvn := hv n (by simp)
    have hon := ho n (by simp)
    have hstep : (addNode L n)[i]? = some (l ++ (sep ++ cell i n)) := by
      have hval : (n.values.map texEscape)[i]? = some (((n.values.map texEscape)[i]?).getD []) := by
        rw [List.getElem?_eq_getElem (by simpa [hvn] using hik)]
        rfl
      simp only [addNode, List.getElem?_zipWith, hl, cell]
      rw [hval]
      simp [hon]
    have hlen : (addNode L n).length = k := by simp [addNode, hL, hvn]
    rw [List.foldl_cons, ih hlen (fun m hm => hv m (by simp [hm])) (fun m hm => ho m (by simp [hm])) i _ hstep]
    simp

theorem table_row {k : Nat} {n0 : Node} {rest : List Node} (h0 : n0.ord = 1) (hr : ∀ n ∈ rest, 1 < n.ord)
    (hv : ∀ n ∈ n0 :: rest, n.values.length = k) {i : Nat} (hi : i < k) :
    (table k (n0 :: rest))[i]? = some (cell i n0 ++ (rest.flatMap fun n => sep ++ cell i n) ++ [' ', '\\', '\\']) := by
  have hv0 := hv n0 (by simp)
  have hval : (n0.values.map texEscape)[i]? = some (((n0.values.map texEscape)[i]?).getD []) := by
    rw [List.getElem?_eq_getElem (by simpa [hv0] using hi)]
    rfl
  have h1 : (addNode (List.replicate k []) n0)[i]? = some (cell i n0) := by
    simp only [addNode, List.getElem?_zipWith, cell, List.getElem?_replicate, hi, if_true]
    rw [hval]
    simp [h0]
  have hlen : (addNode (List.replicate k []) n0).length = k := by simp [addNode, hv0]
  have := foldl_row hlen (fun n hn => hv n (by simp [hn])) hr i _ h1
  simp [table, this]

theorem table_length {k : Nat} {nodes : List Node} (hv : ∀ n ∈ nodes, n.values.length = k) : (table k nodes).length = k := by
  have : ∀ (nodes : List Node) (L : List Str), L.length = k → (∀ n ∈ nodes, n.values.length = k) →
      (nodes.foldl addNode L).length = k := by
    intro nodes
    induction nodes with
    | nil => intro L h _; exact h
    | cons n nodes ih =>
      intro L h hv
      exact ih _ (by simp [addNode, h, hv n (by simp)]) (fun m hm => hv m (by simp [hm]))
  simpa [table] using this nodes (List.replicate k []) (by simp) hv

theorem le_maxLen {vs : List Str} {v : Str} (h : v ∈ vs) : v.length ≤ maxLen vs := by
  induction vs with
  | nil => simp at h
  | cons w vs ih =>
    simp only [maxLen, List.foldr_cons]
    rcases List.mem_cons.1 h with rfl | h
    · exact Nat.le_max_left _ _
    · exact Nat.le_trans (ih h) (Nat.le_max_right _ _)

theorem cell_length {k i : Nat} {n : Node} (hv : n.values.length = k) (hi : i < k) : (cell i n).length = maxLen (n.values.map texEscape) := by
  have hval : (n.values.map texEscape)[i]? = some ((n.values.map texEscape)[i]'(by simpa [hv] using hi)) := List.getElem?_eq_getElem _
  have := le_maxLen (List.mem_of_getElem? hval)
  rw [cell, hval]
  simp only [Option.getD_some, ljust, List.length_append, List.length_replicate]
  omega

theorem ords_split {nodes : List Node} (h : nodes.map Node.ord = List.range' 1 nodes.length) (hne : nodes ≠ []) :
    ∃ n0 rest, nodes = n0 :: rest ∧ n0.ord = 1 ∧ ∀ n ∈ rest, 1 < n.ord := by
  cases nodes with
  | nil => exact absurd rfl hne
  | cons n0 rest =>
    simp only [List.map_cons, List.length_cons, List.range'_succ, List.cons.injEq] at h
    refine ⟨n0, rest, rfl, h.1, ?_⟩
    intro n hn
    have hm : n.ord ∈ rest.map Node.ord := List.mem_map_of_mem hn
    rw [h.2, List.mem_range'] at hm
    obtain ⟨j, _, hj⟩ := hm
    omega

/-- The values of the `i`-th attribute. -/
def column (nodes : List Node) (i : Nat) : List Str := nodes.map fun n => (n.values[i]?).getD []

theorem count_escape (s : Str) : (texEscape s).count '&' = s.count '&' := by
  rw [texEscape_eq]
  induction s with
  | nil => rfl
  | cons c s ih =>
    rw [List.flatMap_cons, List.count_append, ih, List.count_cons]
    have : (code c).count '&' = if c == '&' then 1 else 0 := by
      unfold code
      by_cases h1 : c = '_'
      · subst h1; decide
      by_cases h2 : c = '$'
      · subst h2; decide
      by_cases h3 : c = '['
      · subst h3; decide
      by_cases h4 : c = ']'
      · subst h4; decide
      simp [h1, h2, h3, h4, List.count_singleton]
    omega

theorem count_cell (i : Nat) (n : Node) : (cell i n).count '&' = ((n.values[i]?).getD []).count '&' := by
  have h1 : ∀ k, (List.replicate k ' ').count '&' = 0 := by intro k; simp [List.count_replicate]
  rw [cell, ljust, List.count_append, h1, List.getElem?_map]
  cases n.values[i]? with
  | none => rfl
  | some v => simpa using count_escape v

theorem count_rest (i : Nat) (rest : List Node) : (rest.flatMap fun n => sep ++ cell i n).count '&' =
    rest.length + ((column rest i).map (·.count '&')).sum := by
  induction rest with
  | nil => rfl
  | cons n rest ih =>
    rw [List.flatMap_cons, List.count_append, ih, List.count_append, count_cell]
    have : sep.count '&' = 1 := by decide
    simp only [column, List.map_cons, List.sum_cons, List.length_cons] at *
    omega

/-- **C186.** There is a row for each attribute, and all rows are equally long, so the cells of a word are below each other. -/
theorem C186_rows {k : Nat} {nodes : List Node} (hv : ∀ n ∈ nodes, n.values.length = k)
    (ho : nodes.map Node.ord = List.range' 1 nodes.length) :
    (table k nodes).length = k ∧ ∀ l ∈ table k nodes, ∀ l' ∈ table k nodes, l.length = l'.length := by
  refine ⟨table_length hv, ?_⟩
  by_cases hne : nodes = []
  · subst hne
    intro l hl l' hl'
    simp only [table, List.foldl_nil, List.map_replicate, List.mem_replicate] at hl hl'
    rw [hl.2, hl'.2]
  obtain ⟨n0, rest, rfl, h0, hr⟩ := ords_split ho hne
  have key : ∀ l ∈ table k (n0 :: rest), l.length = maxLen (n0.values.map texEscape) +
      (rest.map fun n => sep.length + maxLen (n.values.map texEscape)).sum + 3 := by
    intro l hl
    obtain ⟨i, hi⟩ := List.getElem?_of_mem hl
    have hik : i < k := by
      have := (List.getElem?_eq_some_iff.1 hi).1
      rwa [table_length hv] at this
    rw [table_row h0 hr hv hik] at hi
    have hi := Option.some.inj hi
    rw [← hi]
    have hrest : ∀ rest : List Node, (∀ n ∈ rest, n.values.length = k) → (rest.flatMap fun n => sep ++ cell i n).length =
        (rest.map fun n => sep.length + maxLen (n.values.map texEscape)).sum := by
      intro rest
      induction rest with
      | nil => intro _; rfl
      | cons n rest ih =>
        intro h
        simp only [List.flatMap_cons, List.length_append, List.map_cons, List.sum_cons] at *
        rw [ih (fun m hm => h m (by simp [hm])), cell_length (h n (by simp)) hik]
    simp only [List.length_append, hrest rest (fun n hn => hv n (by simp [hn])), cell_length (hv n0 (by simp)) hik]
    rfl
  intro l hl l' hl'
  rw [key l hl, key l' hl']

/-- **C186, partial: for values without `&`.** The row of an attribute has a cell for each word, if and only if no value of the
attribute has an ampersand. -/
theorem C186_cells_partial {k i : Nat} {nodes : List Node} (hv : ∀ n ∈ nodes, n.values.length = k)
    (ho : nodes.map Node.ord = List.range' 1 nodes.length) (hne : nodes ≠ []) (hi : i < k) :
    ∃ l, (table k nodes)[i]? = some l ∧ ((split '&' l).length = nodes.length ↔ ∀ v ∈ column nodes i, '&' ∉ v) := by
  obtain ⟨n0, rest, rfl, h0, hr⟩ := ords_split ho hne
  refine ⟨_, table_row h0 hr hv hi, ?_⟩
  have hc : (split '&' (cell i n0 ++ (rest.flatMap fun n => sep ++ cell i n) ++ [' ', '\\', '\\'])).length =
      (n0 :: rest).length + ((column (n0 :: rest) i).map (·.count '&')).sum := by
    rw [Verif.Text.SplitUnder.split_length, List.count_append, List.count_append, count_cell, count_rest]
    have h3 : ([' ', '\\', '\\'] : Str).count '&' = 0 := by decide
    simp only [column, List.map_cons, List.sum_cons, List.length_cons]
    omega
  rw [hc]
  constructor
  · intro h v hv hm
    have hz : ((column (n0 :: rest) i).map (·.count '&')).sum = 0 := by omega
    rw [List.sum_eq_zero_iff_forall_eq_nat] at hz
    have := hz _ (List.mem_map_of_mem hv)
    exact absurd hm (List.count_eq_zero.1 this)
  · intro h
    have hz : ((column (n0 :: rest) i).map (·.count '&')).sum = 0 := by
      rw [List.sum_eq_zero_iff_forall_eq_nat]
      intro x hx
      obtain ⟨v, hv, rfl⟩ := List.mem_map.1 hx
      exact List.count_eq_zero.2 (h v hv)
    omega

/-- **C186.** The row is the escaped values of the words in their order, padded by spaces and separated by `\&`. -/
theorem C186_order {k i : Nat} {nodes : List Node} (hv : ∀ n ∈ nodes, n.values.length = k)
    (ho : nodes.map Node.ord = List.range' 1 nodes.length) (hne : nodes ≠ []) (hi : i < k) :
    ∃ pads : List Nat, pads.length = nodes.length ∧ (table k nodes)[i]? =
      some (join [' ', '\\', '&', ' '] (List.zipWith (fun v j => v.flatMap code ++ List.replicate j ' ') (column nodes i) pads)
        ++ [' ', '\\', '\\']) := by
  obtain ⟨n0, rest, rfl, h0, hr⟩ := ords_split ho hne
  rw [table_row h0 hr hv hi]
  have hcell : ∀ n : Node, ∃ j, cell i n = ((n.values[i]?).getD []).flatMap code ++ List.replicate j ' ' := by
    intro n
    refine ⟨maxLen (n.values.map texEscape) - (texEscape ((n.values[i]?).getD [])).length, ?_⟩
    rw [← texEscape_eq]
    have : ((n.values.map texEscape)[i]?).getD [] = texEscape ((n.values[i]?).getD []) := by
      rw [List.getElem?_map]
      cases n.values[i]? <;> rfl
    rw [cell, this, ljust]
  have key : ∀ (rest : List Node) (n0 : Node), ∃ pads : List Nat, pads.length = (n0 :: rest).length ∧
      cell i n0 ++ (rest.flatMap fun n => sep ++ cell i n) = join [' ', '\\', '&', ' ']
        (List.zipWith (fun v j => v.flatMap code ++ List.replicate j ' ') (column (n0 :: rest) i) pads) := by
    intro rest
    induction rest with
    | nil =>
      intro n0
      obtain ⟨j, hj⟩ := hcell n0
      exact ⟨[j], rfl, by simp [column, join, hj]⟩
    | cons n rest ih =>
      intro n0
      obtain ⟨j, hj⟩ := hcell n0
      obtain ⟨pads, hl, hp⟩ := ih n
      cases pads with
      | nil => simp at hl
      | cons p pads =>
        refine ⟨j :: p :: pads, by simpa using hl, ?_⟩
        rw [List.flatMap_cons]
        have : sep ++ cell i n ++ (rest.flatMap fun n => sep ++ cell i n) = sep ++ (cell i n ++ rest.flatMap fun n => sep ++ cell i n) := by
          simp
        rw [this, hp, hj]
        simp [column, join, sep]
  obtain ⟨pads, hl, hp⟩ := key rest n0
  exact ⟨pads, hl, by rw [hp]⟩

/-- **C186, violated.** A form with an ampersand, such as `AT&T`, gives a table with one column too many. -/
theorem C186_ampersand_violated (a b : Str) (ha : '&' ∉ a) (hb : '&' ∉ b) :
    ∃ l, (table 1 [⟨1, [a ++ '&' :: b], 0, ['r'], 1, []⟩])[0]? = some l ∧ (split '&' l).length = 2 := by
  refine ⟨_, table_row rfl (by simp) (by simp) (by omega), ?_⟩
  rw [Verif.Text.SplitUnder.split_length, List.count_append, List.count_append, count_cell]
  simp [List.count_append, List.count_eq_zero.2 ha, List.count_eq_zero.2 hb]

/-! ## The comment -/

theorem replace_nl (s : Str) : split '\n' (replace1 '\n' ['\n', '%'] s) =
    match split '\n' s with
    | [] => []
    | p :: ps => p :: ps.map ('%' :: ·) := by
  induction s with
  | nil => rfl
  | cons c s ih =>
    have hcons : replace1 '\n' ['\n', '%'] (c :: s) = (if c = '\n' then ['\n', '%'] else [c]) ++ replace1 '\n' ['\n', '%'] s := rfl
    rw [hcons]
    cases hs : split '\n' s with
    | nil => exact absurd hs (split_ne_nil _ _)
    | cons p ps =>
      rw [hs] at ih
      by_cases hc : c = '\n'
      · subst hc
        simp [split, hs, ih]
      · simp [split, hs, ih, hc]

/-- **C187.** Every line of the comment is a comment of LaTeX, so nothing of it is typeset. -/
theorem C187_comment (c : Str) : split '\n' (commentLines c) = (split '\n' (rstrip c)).map ('%' :: ·) := by
  have h := replace_nl (rstrip c)
  cases hs : split '\n' (rstrip c) with
  | nil => exact absurd hs (split_ne_nil _ _)
  | cons p ps =>
    rw [hs] at h
    simp [commentLines, split, h]

/-! ## The edges -/

theorem first_sep_inj {c : Char} : ∀ {a b x y : Str}, c ∉ a → c ∉ b → a ++ c :: x = b ++ c :: y → a = b ∧ x = y := by
  intro a
  induction a with
  | nil =>
    intro b x y _ hb h
    cases b with
    | nil => exact ⟨rfl, by simpa using h⟩
    | cons d b =>
      simp only [List.nil_append, List.cons_append, List.cons.injEq] at h
      exact absurd (by simp [h.1]) hb
  | cons d a ih =>
    intro b x y ha hb h
    cases b with
    | nil =>
      simp only [List.nil_append, List.cons_append, List.cons.injEq] at h
      exact absurd (by simp [h.1]) ha
    | cons e b =>
      simp only [List.cons_append, List.cons.injEq] at h
      obtain ⟨h1, h2⟩ := ih (fun hm => ha (by simp [hm])) (fun hm => hb (by simp [hm])) h.2
      exact ⟨by rw [h.1, h1], h2⟩

theorem brace_not_mem (n : Nat) : '}' ∉ natStr n := not_mem_natStr (by decide) n

theorem edgeLine_inj {opt : Str} {o p o' p' : Nat} {d d' : Str} (h : edgeLine opt o p d = edgeLine opt o' p' d') :
    o = o' ∧ p = p' ∧ (p ≠ 0 → d = d') := by
  unfold edgeLine at h
  split at h
  · rename_i hp
    split at h
    · rename_i hp'
      simp only [List.append_assoc, List.cons_append] at h
      simp only [List.cons.injEq, true_and, List.nil_append] at h
      have h := List.append_cancel_left h
      simp only [List.cons.injEq, true_and] at h
      obtain ⟨h1, _⟩ := first_sep_inj (brace_not_mem o) (brace_not_mem o') h
      exact ⟨natStr_inj h1, by rw [hp, hp'], fun hn => absurd hp hn⟩
    · simp at h
  · split at h
    · simp at h
    · simp only [List.append_assoc, List.cons_append] at h
      simp only [List.cons.injEq, true_and, List.nil_append] at h
      have h := List.append_cancel_left h
      simp only [List.cons.injEq, true_and] at h
      obtain ⟨h1, h⟩ := first_sep_inj (brace_not_mem p) (brace_not_mem p') h
      simp only [List.cons.injEq, true_and] at h
      obtain ⟨h2, h⟩ := first_sep_inj (brace_not_mem o) (brace_not_mem o') h
      simp only [List.cons.injEq, true_and] at h
      exact ⟨natStr_inj h2, natStr_inj h1, fun _ => List.append_cancel_right h⟩

/-- Whether a line is an edge below the sentence. -/
def isBelow (l : Str) : Bool := l[8]? == some '['

theorem isBelow_edge (o p : Nat) (d : Str) : isBelow (edgeLine [] o p d) = false := by
  unfold edgeLine isBelow
  split <;> rfl

theorem isBelow_below (o p : Nat) (d : Str) : isBelow (edgeLine below o p d) = true := by
  unfold edgeLine isBelow below
  split <;> rfl

/-- What the drawing says about a node. -/
def shown (o p : Nat) (d : Str) : Nat × Nat × Option Str := (o, p, if p = 0 then none else some d)

theorem shown_of_line {opt : Str} {o p o' p' : Nat} {d d' : Str} (h : edgeLine opt o p d = edgeLine opt o' p' d') :
    shown o p d = shown o' p' d' := by
  obtain ⟨rfl, rfl, h3⟩ := edgeLine_inj h
  by_cases hp : p = 0
  · simp [shown, hp]
  · simp [shown, h3 hp]

theorem map_below_inj {α : Type} {f : α → Str} : ∀ {xs ys : List α} {as bs : List Str}, (∀ x, isBelow (f x) = true) →
    (∀ l, as.head? = some l → isBelow l = false) → (∀ l, bs.head? = some l → isBelow l = false) →
    xs.map f ++ as = ys.map f ++ bs → xs.map f = ys.map f ∧ as = bs := by
  intro xs
  induction xs with
  | nil =>
    intro ys as bs hf ha hb h
    cases ys with
    | nil => exact ⟨rfl, by simpa using h⟩
    | cons y ys =>
      simp only [List.map_nil, List.nil_append, List.map_cons, List.cons_append] at h
      have := ha (f y) (by rw [h]; rfl)
      rw [hf y] at this
      cases this
  | cons x xs ih =>
    intro ys as bs hf ha hb h
    cases ys with
    | nil =>
      simp only [List.map_nil, List.nil_append, List.map_cons, List.cons_append] at h
      have := hb (f x) (by rw [← h]; rfl)
      rw [hf x] at this
      cases this
    | cons y ys =>
      simp only [List.map_cons, List.cons_append, List.cons.injEq] at h
      obtain ⟨h1, h2⟩ := ih hf ha hb h.2
      exact ⟨by simp [h.1, h1], h2⟩

theorem edges_head (e : Bool) (nodes : List Node) : ∀ l, (edges e nodes).head? = some l → isBelow l = false := by
  intro l h
  cases nodes with
  | nil => simp [edges] at h
  | cons n nodes =>
    simp only [edges, List.flatMap_cons, nodeEdges, List.cons_append, List.head?_cons, Option.some.injEq] at h
    rw [← h]
    exact isBelow_edge _ _ _

/-- **C187.** The drawing determines the tree: the words, the parents, and the relations of the words that do not hang on the
root. With `enhanced`, it determines the enhanced graph in the same way. -/
theorem C187_edges (e : Bool) : ∀ {a b : List Node}, edges e a = edges e b →
    a.map (fun n => shown n.ord n.parent n.deprel) = b.map (fun n => shown n.ord n.parent n.deprel) ∧
    (e = true → a.map (fun n => n.deps.map fun d => shown n.ord d.1 d.2) = b.map (fun n => n.deps.map fun d => shown n.ord d.1 d.2)) := by
  intro a
  induction a with
  | nil =>
    intro b h
    cases b with
    | nil => exact ⟨rfl, fun _ => rfl⟩
    | cons n b => simp [edges, nodeEdges] at h
  | cons n a ih =>
    intro b h
    cases b with
    | nil => simp [edges, nodeEdges] at h
    | cons m b =>
      simp only [edges, List.flatMap_cons, nodeEdges, List.cons_append, List.cons.injEq] at h
      obtain ⟨h1, h2⟩ := h
      have hs := shown_of_line h1
      have ho := (edgeLine_inj h1).1
      cases e with
      | false =>
        simp only [Bool.false_eq_true, if_false, List.nil_append] at h2
        obtain ⟨h3, _⟩ := ih h2
        exact ⟨by simp [hs, h3], by simp⟩
      | true =>
        simp only [if_true, ← ho] at h2
        obtain ⟨h4, h5⟩ := map_below_inj (f := fun d : Nat × Str => edgeLine below n.ord d.1 d.2)
          (fun d => isBelow_below _ _ _) (edges_head true a) (edges_head true b) h2
        obtain ⟨h3, h6⟩ := ih h5
        refine ⟨by simp [hs, h3], fun _ => ?_⟩
        have hd : ∀ (xs ys : List (Nat × Str)), xs.map (fun d => edgeLine below n.ord d.1 d.2) =
            ys.map (fun d => edgeLine below n.ord d.1 d.2) →
            xs.map (fun d => shown n.ord d.1 d.2) = ys.map (fun d => shown n.ord d.1 d.2) := by
          intro xs
          induction xs with
          | nil => intro ys h; cases ys <;> simp_all
          | cons x xs ihx =>
            intro ys h
            cases ys with
            | nil => simp at h
            | cons y ys =>
              simp only [List.map_cons, List.cons.injEq] at h
              simp [shown_of_line h.1, ihx ys h.2]
        simp only [List.map_cons, ← ho, hd _ _ h4, h6 rfl]

/-- The reference: the arguments of a command of LaTeX. -/
def arguments (l : Str) : List Str := (split '{' l).tail.map (·.takeWhile (· ≠ '}'))

theorem takeWhile_brace {s t : Str} (h : '}' ∉ s) : (s ++ '}' :: t).takeWhile (· ≠ '}') = s := by
  induction s with
  | nil => simp
  | cons d s ih =>
    have hd : d ≠ '}' := fun he => h (by simp [he])
    have := ih (fun hm => h (by simp [hm]))
    simpa [hd] using this

/-- **C187.** An edge leads from the parent to the word: the arguments of the command are the parent, the word and the relation; a
word that hangs on the root is the argument of `\deproot`. -/
theorem C187_direction {n : Node} (h : '{' ∉ n.deprel ∧ '}' ∉ n.deprel) : ∃ l, edges false [n] = [l] ∧
    (arguments l).map parseNat = (if n.parent = 0 then [some n.ord, none] else [some n.parent, some n.ord, parseNat n.deprel]) ∧
    (arguments l).getLast? = some (if n.parent = 0 then ['r', 'o', 'o', 't'] else n.deprel) := by
  have hb : ∀ k, '{' ∉ natStr k := fun k => not_mem_natStr (by decide) k
  refine ⟨edgeLine [] n.ord n.parent n.deprel, rfl, ?_⟩
  have key : arguments (edgeLine [] n.ord n.parent n.deprel) =
      if n.parent = 0 then [natStr n.ord, ['r', 'o', 'o', 't']] else [natStr n.parent, natStr n.ord, n.deprel] := by
    unfold edgeLine
    split
    · have e : ['\\', 'd', 'e', 'p', 'r', 'o', 'o', 't'] ++ [] ++ '{' :: natStr n.ord ++ ['}', '{', 'r', 'o', 'o', 't', '}'] =
          join ['{'] [['\\', 'd', 'e', 'p', 'r', 'o', 'o', 't'], natStr n.ord ++ ['}'], ['r', 'o', 'o', 't', '}']] := by
        simp [join]
      rw [e, arguments, split_join (by simp) (by simp [hb])]
      simp only [List.tail_cons, List.map_cons, List.map_nil, takeWhile_brace (brace_not_mem _)]
      rfl
    · have e : ['\\', 'd', 'e', 'p', 'e', 'd', 'g', 'e'] ++ [] ++ '{' :: natStr n.parent ++ '}' :: '{' :: natStr n.ord ++
          '}' :: '{' :: n.deprel ++ ['}'] = join ['{'] [['\\', 'd', 'e', 'p', 'e', 'd', 'g', 'e'], natStr n.parent ++ ['}'],
          natStr n.ord ++ ['}'], n.deprel ++ ['}']] := by simp [join]
      rw [e, arguments, split_join (by simp) (by simp [hb, h.1])]
      simp only [List.tail_cons, List.map_cons, List.map_nil, takeWhile_brace (brace_not_mem _), takeWhile_brace h.2]
  rw [key]
  split
  · refine ⟨?_, rfl⟩
    simp only [List.map_cons, parseNat_natStr, List.map_nil]
    rfl
  · exact ⟨by simp only [List.map_cons, parseNat_natStr, List.map_nil], rfl⟩

/-- **C187, violated.** The relation of a word that hangs on the root is not shown: it is always printed as `root`. -/
theorem C187_root_violated (n : Node) (d : Str) (h : n.parent = 0) : edges false [{ n with deprel := d }] = edges false [n] := by
  simp [edges, nodeEdges, edgeLine, h]

/-! ## Drawn as a tree -/

theorem le_max {nodes : List Node} {n : Node} (h : n ∈ nodes) : n.depth ≤ nodes.foldr (fun n m => max n.depth m) 0 := by
  induction nodes with
  | nil => simp at h
  | cons a nodes ih =>
    rw [List.foldr_cons]
    rcases List.mem_cons.1 h with rfl | h
    · exact Nat.le_max_left _ _
    · exact Nat.le_trans (ih h) (Nat.le_max_right _ _)

theorem max_mem : ∀ {nodes : List Node}, nodes ≠ [] → ∃ n ∈ nodes, n.depth = nodes.foldr (fun n m => max n.depth m) 0 := by
  intro nodes
  induction nodes with
  | nil => intro h; exact absurd rfl h
  | cons a nodes ih =>
    intro _
    rw [List.foldr_cons]
    by_cases hn : nodes = []
    · subst hn
      exact ⟨a, by simp, by simp⟩
    · obtain ⟨n, hm, hd⟩ := ih hn
      by_cases hle : nodes.foldr (fun n m => max n.depth m) 0 ≤ a.depth
      · exact ⟨a, by simp, (Nat.max_eq_left hle).symm⟩
      · exact ⟨n, by simp [hm], by rw [hd]; exact (Nat.max_eq_right (by omega)).symm⟩

/-- **C187, partial: for trees with a word.** Drawn as a tree, each word is one level below its parent, and the deepest word is at
the level 0. -/
theorem C187_heights_partial {nodes : List Node} (hne : nodes ≠ []) :
    ∃ hs, heights nodes = some hs ∧ hs.length = nodes.length ∧ 0 ∈ hs ∧
      ∀ (i j : Nat) (n p : Node) (hn hp : Nat), nodes[i]? = some n → nodes[j]? = some p → hs[i]? = some hn → hs[j]? = some hp →
        n.depth = p.depth + 1 → hp = hn + 1 := by
  refine ⟨_, if_neg hne, by simp, ?_, ?_⟩
  · obtain ⟨n, hm, hd⟩ := max_mem hne
    refine List.mem_map.2 ⟨n, hm, ?_⟩
    omega
  · intro i j n p hn hp h1 h2 h3 h4 hd
    rw [List.getElem?_map, h1] at h3
    rw [List.getElem?_map, h2] at h4
    simp only [Option.map_some, Option.some.injEq] at h3 h4
    have := le_max (List.mem_of_getElem? h1)
    omega

/-- **C187, violated.** Drawing a tree without words as a tree raises an exception. -/
theorem C187_empty_violated : heights [] = none := rfl

/-! ## The translation -/

/-- **C187, violated.** The brace of the translation is never closed: whatever balanced text is found, the line has an opening
brace too many. -/
theorem C187_deptrans_violated {attr comment l : Str} (h : deptrans attr comment = some l) :
    ∃ v, l = ['\\', 'd', 'e', 'p', 't', 'r', 'a', 'n', 's', '{'] ++ v ∧ (v.count '{' = v.count '}' → l.count '{' = l.count '}' + 1) := by
  simp only [deptrans, Option.map_eq_some_iff] at h
  obtain ⟨⟨a, s⟩, _, rfl⟩ := h
  refine ⟨upToNewline s, rfl, ?_⟩
  intro hb
  show List.count '{' (_ ++ upToNewline s) = List.count '}' (_ ++ upToNewline s) + 1
  rw [List.count_append, List.count_append, hb]
  have h1 : (['\\', 'd', 'e', 'p', 't', 'r', 'a', 'n', 's', '{'] : Str).count '{' = 1 := by decide
  have h2 : (['\\', 'd', 'e', 'p', 't', 'r', 'a', 'n', 's', '{'] : Str).count '}' = 0 := by decide
  omega

theorem cutAt_prefix {p : Str} (hp : p ≠ []) (s : Str) : cutAt p (p ++ s) = some ([], s) := by
  cases p with
  | nil => exact absurd rfl hp
  | cons c p =>
    have : (c :: p).isPrefixOf (c :: (p ++ s)) = true := by
      rw [List.isPrefixOf_iff_prefix]
      exact ⟨s, rfl⟩
    simp only [List.cons_append, cutAt]
    rw [if_pos this]
    simp

/-- **C187, violated.** If the attribute is in the last line of a comment that does not end with a newline, the last character of
the translation is lost; with a newline it is printed whole. -/
theorem C187_last_violated (attr v rest : Str) (c : Char) (hv : '\n' ∉ v ++ [c]) :
    deptrans attr (attr ++ [' ', '=', ' '] ++ (v ++ [c])) = some (['\\', 'd', 'e', 'p', 't', 'r', 'a', 'n', 's', '{'] ++ v) ∧
    deptrans attr (attr ++ [' ', '=', ' '] ++ (v ++ [c] ++ '\n' :: rest)) =
      some (['\\', 'd', 'e', 'p', 't', 'r', 'a', 'n', 's', '{'] ++ (v ++ [c])) := by
  have hne : attr ++ [' ', '=', ' '] ≠ [] := by simp
  constructor
  · rw [deptrans, cutAt_prefix hne]
    simp only [Option.map_some, upToNewline]
    rw [if_neg hv]
    simp
  · rw [deptrans, cutAt_prefix hne]
    simp only [Option.map_some, upToNewline]
    rw [if_pos (by simp)]
    have : ∀ s : Str, '\n' ∉ s → (s ++ '\n' :: rest).takeWhile (· ≠ '\n') = s := by
      intro s
      induction s with
      | nil => intro _; simp
      | cons d s ih =>
        intro h
        have hd : d ≠ '\n' := fun he => h (by simp [he])
        have := ih (fun hm => h (by simp [hm]))
        simpa [hd] using this
    rw [this _ hv]

/-! ## Examples -/

def exNodes : List Node :=
  [⟨1, [['a', '_'], ['N', 'O', 'U', 'N']], 2, ['o', 'b', 'j'], 2, [(2, ['o', 'b', 'j'])]⟩,
   ⟨2, [['[', ']'], ['X']], 0, ['r', 'o', 'o', 't'], 1, [(0, ['r', 'o', 'o', 't'])]⟩]

example : texEscape ['a', '_', '$', '['] = ['a', '\\', '_', '\\', '$', '$', '[', '$'] := by decide
example : table 2 exNodes =
    [['a', '\\', '_', ' ', ' ', '\\', '&', ' ', '$', '[', '$', '$', ']', '$', ' ', '\\', '\\'],
     ['N', 'O', 'U', 'N', ' ', '\\', '&', ' ', 'X', ' ', ' ', ' ', ' ', ' ', ' ', '\\', '\\']] := by decide
example : heights exNodes = some [0, 1] := by decide
example : (edges true exNodes).length = 4 ∧ (edges false exNodes)[1]? =
    some ['\\', 'd', 'e', 'p', 'r', 'o', 'o', 't', '{', '2', '}', '{', 'r', 'o', 'o', 't', '}'] := by decide +kernel
example : deptrans ['t'] ['x', '\n', 't', ' ', '=', ' ', 'H', 'i', '\n'] =
    some ['\\', 'd', 'e', 'p', 't', 'r', 'a', 'n', 's', '{', 'H', 'i'] := by decide
example : commentLines [' ', 'a', '\n', ' ', 'b', '\n'] = ['%', ' ', 'a', '\n', '%', ' ', 'b'] := by decide

end Verif.Write.Tikz
