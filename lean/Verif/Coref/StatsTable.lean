import Verif.Py.Str

/-!
# The table of corefud.Stats

Model of the printing in `udapi/block/corefud/stats.py` with the styles `tex-table` and `tex-doc`:
`process_end` (lines 112-124 and 171-175), `print_header` (lines 177-250), `print_footer` (lines 252-257),
and the columns of a row (lines 130-163).

A line of the header is the list of the numbers of columns its cells span (`\MC{n}`), so that only the
layout is modelled, not the texts of the cells.
-/

namespace Verif.Coref.StatsTable
open Verif.Py

/-! ## Columns -/

/-- Which parts are reported, the lengths of the distributions. -/
structure Cfg where
  basics : Bool
  entities : Bool
  mentions : Bool
  details : Bool
  eMax : Nat
  mMax : Nat

/-- Lines 130-163: the number of the columns of a row (without the name), with `k` columns of UPOS. -/
def rowColumns (c : Cfg) (k : Nat) : Nat :=
  (if c.basics then 4 else 0) +
  (if c.entities then 4 + c.eMax else 0) +
  (if c.mentions then 4 + (if c.mMax = 0 then 0 else c.mMax + 1) else 0) +
  (if c.details then 3 + k else 0)

/-- `lines[0]`: the number of letters `l` and `r`. -/
def line0 (c : Cfg) (k : Nat) : Nat :=
  1 + (if c.basics then 4 else 0) +
  (if c.entities then 4 + c.eMax else 0) +
  (if c.mentions then 4 + (if c.mMax = 0 then 0 else c.mMax + 1) else 0) +
  (if c.details then 4 + k else 0)

/-- `lines[1]`. -/
def line1 (c : Cfg) (k : Nat) : List Nat :=
  1 :: ((if c.basics then [4] else []) ++
  (if c.entities then 4 :: (if c.eMax = 0 then [] else [c.eMax]) else []) ++
  (if c.mentions then 4 :: (if c.mMax = 0 then [] else [c.mMax + 1]) else []) ++
  (if c.details then [3, k] else []))

/-- `lines[2]`. -/
def line2 (c : Cfg) (k : Nat) : List Nat :=
  1 :: ((if c.basics then [1, 1, 1, 1] else []) ++
  (if c.entities then [1, 1, 2] ++ List.replicate c.eMax 1 else []) ++
  (if c.mentions then [1, 1, 2] ++ (if c.mMax = 0 then [] else List.replicate (c.mMax + 1) 1) else []) ++
  (if c.details then [1, 1, 1] ++ List.replicate k 1 else []))

/-- `lines[3]`. -/
def line3 (c : Cfg) (k : Nat) : List Nat :=
  1 :: ((if c.basics then [1, 1, 1, 1] else []) ++
  (if c.entities then [1, 1, 1, 1] ++ List.replicate c.eMax 1 else []) ++
  (if c.mentions then [1, 1, 1, 1] ++ (if c.mMax = 0 then [] else List.replicate (c.mMax + 1) 1) else []) ++
  (if c.details then [1, 1, 1] ++ List.replicate k 1 else []))

/-- Lines 226-249: the ranges of the rules under `lines[1]`. -/
def rules1 (c : Cfg) (k : Nat) : List (Nat × Nat) :=
  let b := 1 + (if c.basics then 4 else 0)
  let e := b + (if c.entities then 4 + (if c.eMax = 0 then 0 else c.eMax) else 0)
  let m := e + (if c.mentions then 4 + (if c.mMax = 0 then 0 else c.mMax + 1) else 0)
  (if c.basics then [(2, 5)] else []) ++
  (if c.entities then (b + 1, b + 4) ::
    (if c.eMax = 0 then [] else [(6, b + 4 + c.eMax)]) else []) ++
  (if c.mentions then (e + 1, e + 4) ::
    (if c.mMax = 0 then [] else [(e + 4 + 1, e + 4 + c.mMax + 1)]) else []) ++
  (if c.details then [(m + 1, m + 3), (m + 4, m + 3 + k)] else [])

/-- The ranges of columns of the cells with the given spans, after `pos` columns. -/
def ranges (pos : Nat) : List Nat → List (Nat × Nat)
  | [] => []
  | n :: l => (pos + 1, pos + n) :: ranges (pos + n) l

/-- All lines of the header have as many columns as the rows. -/
theorem C194_columns (c : Cfg) (k : Nat) :
    (line1 c k).sum = 1 + rowColumns c k ∧ (line2 c k).sum = 1 + rowColumns c k ∧
    (line3 c k).sum = 1 + rowColumns c k ∧ (line3 c k).length = 1 + rowColumns c k := by
  refine ⟨?_, ?_, ?_, ?_⟩ <;>
    simp only [line1, line2, line3, rowColumns, apply_ite List.sum, apply_ite List.length, List.sum_cons,
      List.sum_nil, List.sum_append, List.sum_replicate_nat, List.length_cons, List.length_nil,
      List.length_append, List.length_replicate] <;>
    cases c.basics <;> cases c.entities <;> cases c.mentions <;> cases c.details <;>
    by_cases h1 : c.eMax = 0 <;> by_cases h2 : c.mMax = 0 <;>
    simp only [h1, h2, if_true, if_false, Bool.false_eq_true] <;> omega

/-- The rules are under the cells of the first line, unless both the basics and the distribution of
entity lengths are printed. -/
theorem C194_rules_partial (c : Cfg) (k : Nat) (h : ¬ (c.basics = true ∧ c.entities = true ∧ c.eMax ≠ 0)) :
    (1, 1) :: rules1 c k = ranges 0 (line1 c k) := by
  obtain ⟨b, e, m, d, eM, mM⟩ := c
  cases b <;> cases e <;> cases m <;> cases d <;> by_cases h1 : eM = 0 <;> by_cases h2 : mM = 0 <;>
    simp_all [line1, rules1, ranges] <;> omega

/-- With the basics, the rule under the distribution of entity lengths begins at the sixth column, which
is not the first one of the distribution. -/
theorem C194_rules_violated (c : Cfg) (k : Nat) (h1 : c.basics = true) (h2 : c.entities = true)
    (h3 : c.eMax ≠ 0) : (1, 1) :: rules1 c k ≠ ranges 0 (line1 c k) ∧ (6, 9 + c.eMax) ∈ rules1 c k ∧
    (6, 9) ∈ rules1 c k ∧ (10, 9 + c.eMax) ∈ ranges 0 (line1 c k) := by
  simp [rules1, line1, ranges, h1, h2, h3]

/-- The preamble of the table has one column more than the rows if details are printed. -/
theorem C194_preamble_violated (c : Cfg) (k : Nat) :
    line0 c k = 1 + rowColumns c k + (if c.details then 1 else 0) := by
  obtain ⟨b, e, m, d, eM, mM⟩ := c
  simp only [line0, rowColumns]
  cases d <;> simp <;> omega

/-! ### UPOS of all heads -/

/-- With `selected_upos=all`, the columns are the UPOS counted so far (lines 159, 215), in the order of
their first occurrences. -/
def uposColumns : List Str → List Str
  | [] => []
  | u :: us => u :: (uposColumns us).filter (· ≠ u)

theorem mem_uposColumns : ∀ {us : List Str} {u : Str}, u ∈ uposColumns us ↔ u ∈ us
  | [], u => by simp [uposColumns]
  | v :: us, u => by
    rw [uposColumns, List.mem_cons, List.mem_filter, List.mem_cons, mem_uposColumns]
    constructor
    · rintro (h | h)
      · exact Or.inl h
      · exact Or.inr h.1
    · rintro (h | h)
      · exact Or.inl h
      · by_cases he : u = v
        · exact Or.inl he
        · exact Or.inr ⟨h, by simpa using he⟩

/-- Each UPOS of a document has exactly one column in its row. -/
theorem C194_all_upos (us : List Str) :
    (uposColumns us).Nodup ∧ ∀ u, u ∈ uposColumns us ↔ u ∈ us := by
  refine ⟨?_, fun u => mem_uposColumns⟩
  induction us with
  | nil => exact List.nodup_nil
  | cons u us ih =>
    rw [uposColumns, List.nodup_cons]
    refine ⟨?_, List.Pairwise.filter _ ih⟩
    rw [List.mem_filter]
    simp

/-- With `per_doc` and `selected_upos=all`, the header is made for the first document of the page: the
row of a document with another UPOS does not agree with it. -/
theorem C194_all_upos_violated {us vs : List Str} {u : Str} (hu : u ∈ vs) (hn : u ∉ us) :
    uposColumns vs ≠ uposColumns us := by
  intro h
  have := mem_uposColumns.mpr hu
  rw [h] at this
  exact hn (mem_uposColumns.mp this)

/-! ## Pages -/

/-- What is printed. -/
inductive Ev (α : Type) where
  | beginDoc
  | header
  | row (d : α)
  | bottom
  | endDoc
deriving DecidableEq

variable {α : Type}

/-- `print_header` (lines 177-185); `lines` is `self._lines_printed`, `tex` is `style == 'tex-doc'`. -/
def printHeader (tex : Bool) (lines : Option Nat) : List (Ev α) :=
  (if tex = true ∧ lines = none then [.beginDoc] else []) ++ [.header]

/-- `print_footer` (lines 252-257). -/
def printFooter (tex endDoc : Bool) : List (Ev α) :=
  .bottom :: (if tex = true ∧ endDoc = true then [.endDoc] else [])

/-- Lines 113-115: the header is printed if no line has been printed on the page. -/
def startPage (tex : Bool) : Option Nat → List (Ev α) × Nat
  | none => (printHeader tex none, 0)
  | some 0 => (printHeader tex (some 0), 0)
  | some (n + 1) => ([], n + 1)

/-- `process_end(skip=False, doc=doc)` with `per_doc`: the row of a document. -/
def perDocRow (tex : Bool) (maxRows : Nat) (lines : Option Nat) (d : α) : List (Ev α) × Option Nat :=
  let (out, n) := startPage tex lines
  if maxRows < n + 1 then (out ++ [.row d] ++ printFooter tex false, some 0)
  else (out ++ [.row d], some (n + 1))

/-- All documents with `per_doc`, and then `process_end()` (line 117: the footer). -/
def perDoc (tex : Bool) (maxRows : Nat) : Option Nat → List α → List (Ev α)
  | lines, [] => (startPage tex lines).1 ++ printFooter tex true
  | lines, d :: ds =>
    let (out, lines) := perDocRow tex maxRows lines d
    out ++ perDoc tex maxRows lines ds

/-- `process_end()` without `per_doc`. -/
def total (tex : Bool) (d : α) : List (Ev α) :=
  (startPage tex none).1 ++ [.row d] ++ printFooter tex true

/-- A page with rows. -/
def page (ds : List α) : List (Ev α) := .header :: (ds.map .row ++ [.bottom])

theorem perDoc_inner (tex : Bool) (maxRows : Nat) : ∀ (ds : List α) (n : Nat), n ≤ maxRows →
    ∃ pages : List (List α), pages ≠ [] ∧ pages.flatten = ds ∧
      (∀ p ∈ pages.tail, p.length ≤ maxRows + 1) ∧ (∀ p ∈ pages.head?, n + p.length ≤ maxRows + 1) ∧
      (∀ p ∈ pages.dropLast.tail, p.length = maxRows + 1) ∧
      (∀ p ∈ pages.dropLast.head?, n + p.length = maxRows + 1) ∧
      (∀ q, pages = [q] → n + q.length ≤ maxRows) ∧
      (∀ qs q, qs ≠ [] → pages = qs ++ [q] → q.length ≤ maxRows) ∧
      perDoc tex maxRows (some n) ds =
        (if n = 0 then pages.flatMap page else
          ((pages.headD []).map .row ++ [.bottom]) ++ pages.tail.flatMap page) ++
        (if tex then [.endDoc] else [])
  | [], n, hn => by
    refine ⟨[[]], by simp, rfl, by simp, by simp; omega, by simp, by simp, by simpa using hn, ?_, ?_⟩
    · intro qs q hqs h
      cases qs with
      | nil => exact absurd rfl hqs
      | cons a l => cases l <;> simp at h
    cases n with
    | zero => cases tex <;> simp [perDoc, startPage, printHeader, printFooter, page]
    | succ n => cases tex <;> simp [perDoc, startPage, printFooter]
  | d :: ds, n, hn => by
    by_cases h : maxRows < n + 1
    · obtain ⟨pages, hp0, hp1, hp2, hp3, hp4, hp5, hp7, hp8, hp6⟩ := perDoc_inner tex maxRows ds 0 (by omega)
      refine ⟨[d] :: pages, by simp, by simp [hp1], ?_, by simp; omega, ?_, ?_, ?_, ?_, ?_⟩
      · intro p hp
        rw [List.tail_cons] at hp
        cases pages with
        | nil => cases hp
        | cons q qs =>
          rcases List.mem_cons.mp hp with rfl | hp
          · have := hp3 p rfl; omega
          · exact hp2 p hp
      · intro p hp
        cases pages with
        | nil => cases hp
        | cons q qs =>
          rw [List.dropLast_cons_of_ne_nil (by simp), List.tail_cons] at hp
          cases qs with
          | nil => cases hp
          | cons r rs =>
            rw [List.dropLast_cons_of_ne_nil (by simp)] at hp
            rcases List.mem_cons.mp hp with rfl | hp
            · have := hp5 p rfl; omega
            · apply hp4 p
              rw [List.dropLast_cons_of_ne_nil (by simp), List.tail_cons]
              exact hp
      · intro p hp
        rw [List.dropLast_cons_of_ne_nil hp0] at hp
        simp at hp
        subst hp
        simp
        omega
      · intro q h
        simp at h
        exact absurd h.2 hp0
      · intro qs q hqs h
        cases qs with
        | nil => exact absurd rfl hqs
        | cons a l =>
          injection h with _ h
          cases l with
          | nil =>
            have := hp7 q h
            omega
          | cons b l => exact hp8 (b :: l) q (by simp) h
      · rw [perDoc]
        simp only [perDocRow]
        have hst : (startPage tex (some n) : List (Ev α) × Nat).2 = n := by cases n <;> rfl
        rw [hst, if_pos h]
        simp only []
        rw [hp6]
        cases n with
        | zero => cases tex <;> simp [startPage, printHeader, printFooter, page]
        | succ n => cases tex <;> simp [startPage, printFooter]
    · obtain ⟨pages, hp0, hp1, hp2, hp3, hp4, hp5, hp7, hp8, hp6⟩ := perDoc_inner tex maxRows ds (n + 1) (by omega)
      cases pages with
      | nil => exact absurd rfl hp0
      | cons q qs =>
        refine ⟨(d :: q) :: qs, by simp, by simpa using hp1, ?_, ?_, ?_, ?_, ?_, ?_, ?_⟩
        · exact hp2
        · intro p hp
          simp at hp
          subst hp
          have := hp3 q rfl
          simp
          omega
        · intro p hp
          apply hp4 p
          cases qs with
          | nil => cases hp
          | cons r rs =>
            rw [List.dropLast_cons_of_ne_nil (by simp)] at hp ⊢
            exact hp
        · intro p hp
          cases qs with
          | nil => cases hp
          | cons r rs =>
            rw [List.dropLast_cons_of_ne_nil (by simp)] at hp
            simp at hp
            subst hp
            have := hp5 q (by rw [List.dropLast_cons_of_ne_nil (by simp)]; rfl)
            simp
            omega
        · intro p hp
          injection hp with hp hqs
          subst hqs hp
          have := hp7 q rfl
          simp
          omega
        · intro ps p hps h
          cases ps with
          | nil => exact absurd rfl hps
          | cons a l =>
            injection h with _ h
            exact hp8 (q :: l) p (by simp) (by rw [h]; rfl)
        · rw [perDoc]
          simp only [perDocRow]
          have hst : (startPage tex (some n) : List (Ev α) × Nat).2 = n := by cases n <;> rfl
          rw [hst, if_neg h]
          simp only []
          rw [hp6]
          cases n with
          | zero => cases tex <;> simp [startPage, printHeader, page]
          | succ n => cases tex <;> simp [startPage]

/-- The output consists of pages, each with its header, rows and footer; all documents are there in
their order, all pages but the last one have `maxRows + 1` rows and the last one has less; the document
begins and ends once (for `tex-doc`). -/
theorem C194_pages (tex : Bool) (maxRows : Nat) (ds : List α) :
    ∃ (pages : List (List α)) (last : List α), pages.flatten ++ last = ds ∧
      (∀ p ∈ pages, p.length = maxRows + 1) ∧ last.length ≤ maxRows ∧
      perDoc tex maxRows none ds = (if tex then [.beginDoc] else []) ++ pages.flatMap page ++ page last ++
        (if tex then [.endDoc] else []) := by
  obtain ⟨pages, hp0, hp1, hp2, hp3, hp4, hp5, hp7, hp8, hp6⟩ := perDoc_inner tex maxRows ds 0 (by omega)
  rcases List.eq_nil_or_concat pages with rfl | ⟨qs, q, rfl⟩
  · exact absurd rfl hp0
  rw [List.concat_eq_append] at *
  rw [List.dropLast_concat] at hp4 hp5
  refine ⟨qs, q, by simpa using hp1, ?_, ?_, ?_⟩
  · intro p hp
    cases qs with
    | nil => cases hp
    | cons r rs =>
      rcases List.mem_cons.mp hp with rfl | hp
      · have := hp5 p rfl; omega
      · exact hp4 p hp
  · cases qs with
    | nil => have := hp7 q rfl; omega
    | cons r rs => exact hp8 _ q (by simp) rfl
  · have hnone : perDoc tex maxRows none ds = (if tex then [.beginDoc] else []) ++
        perDoc tex maxRows (some 0) ds := by
      cases ds with
      | nil => cases tex <;> simp [perDoc, startPage, printHeader]
      | cons d ds =>
        by_cases h : maxRows < 1 <;> cases tex <;> simp [perDoc, perDocRow, startPage, printHeader, h]
    rw [hnone, hp6]
    simp

/-- `max_rows_per_page` is exceeded by one: with more documents, the first page has `maxRows + 1` rows. -/
theorem C194_max_rows_violated (tex : Bool) (maxRows : Nat) (ds : List α) (h : maxRows < ds.length) :
    ∃ p rest, p.length = maxRows + 1 ∧ p <+: ds ∧
      perDoc tex maxRows none ds = (if tex then [.beginDoc] else []) ++ page p ++ rest := by
  obtain ⟨pages, last, hp1, hp2, hp3, hp4⟩ := C194_pages tex maxRows ds
  cases pages with
  | nil => simp at hp1; subst hp1; omega
  | cons q qs =>
    refine ⟨q, qs.flatMap page ++ page last ++ (if tex then [.endDoc] else []), hp2 q (by simp),
      ⟨qs.flatten ++ last, by simpa using hp1⟩, ?_⟩
    rw [hp4]
    simp

/-- If the number of documents is a multiple of `maxRows + 1`, the last page has no row. -/
theorem C194_empty_page_violated (tex : Bool) (maxRows : Nat) (ds : List α) (h : ds.length % (maxRows + 1) = 0) :
    ∃ out, perDoc tex maxRows none ds = out ++ page [] ++ (if tex then [.endDoc] else []) := by
  obtain ⟨pages, last, hp1, hp2, hp3, hp4⟩ := C194_pages tex maxRows ds
  have key : ∀ (pages : List (List α)), (∀ p ∈ pages, p.length = maxRows + 1) →
      pages.flatten.length % (maxRows + 1) = 0 := by
    intro pages
    induction pages with
    | nil => intro _; simp
    | cons q qs ih =>
      intro hall
      have := ih (fun p hp => hall p (List.mem_cons_of_mem _ hp))
      rw [List.flatten_cons, List.length_append, hall q List.mem_cons_self, Nat.add_mod_left]
      exact this
  have hl := key pages hp2
  rw [← hp1, List.length_append, Nat.add_mod, hl, Nat.zero_add, Nat.mod_mod,
    Nat.mod_eq_of_lt (by omega)] at h
  have : last = [] := List.length_eq_zero_iff.mp h
  subst this
  exact ⟨_, hp4⟩

example : perDoc true 1 none [7, 8, 9] = [.beginDoc, .header, .row 7, .row 8, .bottom, .header, .row 9,
    .bottom, .endDoc] := by decide

example : perDoc true 1 none [7, 8] = [.beginDoc, .header, .row 7, .row 8, .bottom, .header, .bottom,
    .endDoc] := by decide

end Verif.Coref.StatsTable
