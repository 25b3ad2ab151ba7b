import Verif.Py.Str

/-!
# corefud.FixCorefUD02

Model of `udapi/block/corefud/fixcorefud02.py` (lines 5-57): types of entities, labels of bridging
relations and the header `global.Entity`; and of the reading of the id and the type of an entity from the
fields of an opening bracket (`udapi/core/coref.py`:653-661), which happens after the header has been
changed (`udapi/core/document.py`:112-120).

Simplified: `str.lower` works on single characters (`lower`); of `mention.other` only `gstype` and `appos`
are modelled.
-/

namespace Verif.Coref.FixUd02
open Verif.Py

/-- `s.replace(pat, '')` for a nonempty `pat`; `k` is the number of characters still to be left out. -/
def removeGo (pat : Str) : Nat → Str → Str
  | _, [] => []
  | k + 1, _ :: s => removeGo pat k s
  | 0, c :: s => if pat.isPrefixOf (c :: s) then removeGo pat (pat.length - 1) s else c :: removeGo pat 0 s

/-- `s.replace(pat, '')`. -/
def remove (pat s : Str) : Str := removeGo pat 0 s

def spec : Str := ['s', 'p', 'e', 'c']
def gen : Str := ['g', 'e', 'n']
def other : Str := ['o', 't', 'h', 'e', 'r']
def appos : Str := ['a', 'p', 'p', 'o', 's']
def inv : Str := ['-', 'i', 'n', 'v']
def indirect : Str := ['i', 'n', 'd', 'i', 'r', 'e', 'c', 't', '_']

/-- `NEW_ETYPE` (lines 5-13). -/
def newEtype : List (Str × Str) :=
  [(['m', 'i', 's', 'c'], other),
   (['d', 'a', 't', 'e'], ['t', 'i', 'm', 'e']),
   (['l', 'o', 'c'], ['p', 'l', 'a', 'c', 'e']),
   (['l', 'o', 'c', 'a', 't', 'i', 'o', 'n'], ['p', 'l', 'a', 'c', 'e']),
   (['p', 'e', 'r'], ['p', 'e', 'r', 's', 'o', 'n']),
   (['o', 'r', 'g'], ['o', 'r', 'g', 'a', 'n', 'i', 'z', 'a', 't', 'i', 'o', 'n']),
   (['_'], [])]

/-- `NEW_ETYPE.get(etype, etype)` (line 37). -/
def rename (t : Str) : Str := (newEtype.lookup t).getD t

section
variable (lower : Char → Char)

/-- Lines 28-36: the type without `gen`, `spec` and the dot, and the value of `gstype`. -/
def splitType (e : Str) : Str × Option Str :=
  let t := e.map lower
  if spec.isPrefixOf t || gen.isPrefixOf t then
    let gs := if gen.isPrefixOf t then gen else spec
    let t := if t = spec then other else t
    ((remove spec (remove gen t)).filter (· ≠ '.'), some gs)
  else (t, none)

/-- Lines 28-48: the new type, `gstype` for all mentions, and whether `appos` is set. -/
def fixType (e : Str) : Str × Option Str × Bool :=
  let (t, gs) := splitType lower e
  let t := rename t
  if t = appos then ([], gs, true) else (t, gs, false)

/-- The modelled part of `mention.other`. -/
structure Other where
  gstype : Option Str
  appos : Option Str
deriving DecidableEq

/-- Lines 24-48: the type of an entity (`none` and `''` are left as they are) and its mentions. -/
def fixEntity (etype : Option Str) (ms : List Other) : Option Str × List Other :=
  match etype with
  | none => (none, ms)
  | some [] => (some [], ms)
  | some e =>
    let (t, gs, ap) := fixType lower e
    let ms := match gs with
      | some g => ms.map fun m => { m with gstype := some g }
      | none => ms
    let ms := if ap then ms.take 1 ++ (ms.drop 1).map fun m => { m with appos := some ['1'] } else ms
    (some t, ms)

/-- Lines 52-57: the label of a bridging relation. -/
def fixRel (r : Str) : Str :=
  let r := r.map lower
  let r := if inv.isSuffixOf r then 'i' :: remove inv r else r
  remove indirect (r.filter (· ≠ '-'))

end

/-- Lines 20-21. -/
def gumOld : List Str := [['e', 'n', 't', 'i', 't', 'y'], ['G', 'R', 'P'], ['i', 'n', 'f', 's', 't', 'a', 't'],
  ['M', 'I', 'N'], ['c', 'o', 'r', 'e', 'f', '_', 't', 'y', 'p', 'e'],
  ['i', 'd', 'e', 'n', 't', 'i', 't', 'y']]
def gumNew : List Str := [['e', 'i', 'd'], ['e', 't', 'y', 'p', 'e'], ['h', 'e', 'a', 'd'], other,
  ['i', 'n', 'f', 's', 't', 'a', 't'], ['m', 'i', 'n', 's', 'p', 'a', 'n'],
  ['i', 'd', 'e', 'n', 't', 'i', 't', 'y']]

/-- `doc.meta['global.Entity']` after the block. -/
def fixHeader (h : Str) : Str := if h = join ['-'] gumOld then join ['-'] gumNew else h

/-- The id and the type read from the fields of an opening bracket (coref.py:653-661); `docid` is the
prefix for `GRP`. -/
def readFields (docid : Str) : List (Str × Str) → Option Str × Option Str → Option Str × Option Str
  | [], r => r
  | (name, value) :: l, (eid, etype) =>
    if name = ['e', 'i', 'd'] then readFields docid l (some value, etype)
    else if name = ['G', 'R', 'P'] then readFields docid l (some (docid ++ value), etype)
    else if name = ['e', 't', 'y', 'p', 'e'] ∨ name = ['e', 'n', 't', 'i', 't', 'y'] then
      readFields docid l (eid, some value)
    else readFields docid l (eid, etype)

/-- The id and the type of the mention opened by `chunk`, with the given header. -/
def readChunk (docid header chunk : Str) : Option Str × Option Str :=
  readFields docid ((split '-' header).zip (split '-' chunk)) (none, none)

/-! ## Removing substrings -/

/-- `pat` is a substring of `s`. -/
def Occ (pat s : Str) : Prop := ∃ a b, s = a ++ (pat ++ b)

theorem removeGo_eq_of_no_occ {pat : Str} : ∀ {s : Str}, ¬ Occ pat s → removeGo pat 0 s = s
  | [], _ => rfl
  | c :: s, h => by
    rw [removeGo]
    have h1 : ¬ (pat.isPrefixOf (c :: s) = true) := by
      intro hp
      obtain ⟨t, ht⟩ := List.isPrefixOf_iff_prefix.mp hp
      exact h ⟨[], t, by rw [List.nil_append]; exact ht.symm⟩
    rw [if_neg h1, removeGo_eq_of_no_occ]
    rintro ⟨a, b, hab⟩
    exact h ⟨c :: a, b, by rw [hab]; rfl⟩

theorem remove_of_no_occ {pat s : Str} (h : ¬ Occ pat s) : remove pat s = s := removeGo_eq_of_no_occ h

theorem removeGo_skip (pat : Str) : ∀ (t s : Str), removeGo pat t.length (t ++ s) = removeGo pat 0 s
  | [], s => by simp
  | c :: t, s => by
    rw [List.length_cons, List.cons_append, removeGo, removeGo_skip pat t s]

theorem remove_append {pat : Str} (hne : pat ≠ []) (s : Str) : remove pat (pat ++ s) = remove pat s := by
  cases pat with
  | nil => exact absurd rfl hne
  | cons c p =>
    unfold remove
    rw [List.cons_append, removeGo, if_pos]
    · simp only [List.length_cons, Nat.add_sub_cancel]
      exact removeGo_skip _ p s
    · exact List.isPrefixOf_iff_prefix.mpr ⟨s, rfl⟩

theorem removeGo_mem {pat : Str} : ∀ {s : Str} {k : Nat} {c : Char}, c ∈ removeGo pat k s → c ∈ s
  | [], k, c, h => by cases k <;> exact h
  | x :: s, k + 1, c, h => by
    rw [removeGo] at h
    exact List.mem_cons_of_mem _ (removeGo_mem h)
  | x :: s, 0, c, h => by
    rw [removeGo] at h
    split at h
    · exact List.mem_cons_of_mem _ (removeGo_mem h)
    · rcases List.mem_cons.mp h with rfl | h
      · exact List.mem_cons_self
      · exact List.mem_cons_of_mem _ (removeGo_mem h)

theorem remove_mem {pat s : Str} {c : Char} (h : c ∈ remove pat s) : c ∈ s := removeGo_mem h

theorem no_occ_of_not_mem {c : Char} {p s : Str} (h : c ∉ s) : ¬ Occ (c :: p) s := by
  rintro ⟨a, b, rfl⟩
  simp at h

theorem no_occ_cons {c d : Char} {p s : Str} (h : ¬ Occ (c :: p) s) (hd : c ≠ d) : ¬ Occ (c :: p) (d :: s) := by
  rintro ⟨a, b, hab⟩
  cases a with
  | nil =>
    rw [List.nil_append, List.cons_append] at hab
    injection hab with h1 _
    exact hd h1.symm
  | cons x a =>
    rw [List.cons_append] at hab
    injection hab with _ h2
    exact h ⟨a, b, h2⟩

/-- Removing from `s ++ pat`, where the first character of `pat` is not in `s`. -/
theorem remove_suffix {c : Char} {p : Str} : ∀ {s : Str}, c ∉ s → remove (c :: p) (s ++ (c :: p)) = s
  | [], _ => by
    have := remove_append (pat := c :: p) (by simp) []
    rw [List.append_nil] at this
    rw [List.nil_append, this]
    rfl
  | d :: s, h => by
    have hd : c ≠ d := fun he => h (he ▸ List.mem_cons_self)
    have ih := remove_suffix (p := p) (s := s) fun hm => h (List.mem_cons_of_mem _ hm)
    unfold remove at ih ⊢
    rw [List.cons_append, removeGo, if_neg, ih]
    rw [List.isPrefixOf]
    simp [hd]

/-! ## Types -/

/-- The type with `appos` left out, and whether it was `appos`. -/
def final (t : Str) : Str × Bool := if rename t = appos then ([], true) else (rename t, false)

variable {lower : Char → Char}

/-- The type does not contain the strings which are removed. -/
structure Plain (lower : Char → Char) (t : Str) : Prop where
  low : t.map lower = t
  noGen : ¬ Occ gen t
  noSpec : ¬ Occ spec t
  noDot : '.' ∉ t

/-- A type without `gen` and `spec` is only renamed; with `spec.` or `gen.` before it, it becomes the same
type and `gstype` tells the difference. -/
theorem C195_types (hl : ∀ c ∈ ['s', 'p', 'e', 'c', 'g', 'n', '.'], lower c = c) {t : Str} (h : Plain lower t) :
    fixType lower t = ((final t).1, none, (final t).2) ∧
    fixType lower (spec ++ '.' :: t) = ((final t).1, some spec, (final t).2) ∧
    fixType lower (gen ++ '.' :: t) = ((final t).1, some gen, (final t).2) ∧
    fixType lower spec = (other, some spec, false) := by
  obtain ⟨h1, h2, h3, h4⟩ := h
  have ls : lower 's' = 's' := hl _ (by simp)
  have lp : lower 'p' = 'p' := hl _ (by simp)
  have le : lower 'e' = 'e' := hl _ (by simp)
  have lc : lower 'c' = 'c' := hl _ (by simp)
  have lg : lower 'g' = 'g' := hl _ (by simp)
  have ln : lower 'n' = 'n' := hl _ (by simp)
  have ld : lower '.' = '.' := hl _ (by simp)
  have hfilter : ('.' :: t).filter (· ≠ '.') = t := by
    rw [List.filter_cons_of_neg (by simp), List.filter_eq_self]
    intro a ha
    simp only [ne_eq, decide_not, Bool.not_eq_true', decide_eq_false_iff_not]
    exact fun he => h4 (he ▸ ha)
  have hs : splitType lower t = (t, none) := by
    unfold splitType
    rw [h1, if_neg]
    rw [Bool.or_eq_true, not_or]
    constructor
    · intro hp
      obtain ⟨b, hb⟩ := List.isPrefixOf_iff_prefix.mp hp
      exact h3 ⟨[], b, by rw [List.nil_append]; exact hb.symm⟩
    · intro hp
      obtain ⟨b, hb⟩ := List.isPrefixOf_iff_prefix.mp hp
      exact h2 ⟨[], b, by rw [List.nil_append]; exact hb.symm⟩
  have g1 : ¬ Occ gen ('.' :: t) := no_occ_cons h2 (by decide)
  have s1 : ¬ Occ spec ('.' :: t) := no_occ_cons h3 (by decide)
  have g2 : ¬ Occ gen (spec ++ '.' :: t) :=
    no_occ_cons (no_occ_cons (no_occ_cons (no_occ_cons g1 (by decide)) (by decide)) (by decide)) (by decide)
  have hspec : splitType lower (spec ++ '.' :: t) = (t, some spec) := by
    unfold splitType
    have hm : (spec ++ '.' :: t).map lower = spec ++ '.' :: t := by
      simp [spec, ls, lp, le, lc, ld, h1]
    rw [hm, if_pos (by simp [spec])]
    have hg : gen.isPrefixOf (spec ++ '.' :: t) = false := rfl
    simp only [hg]
    rw [if_neg (by simp [spec]), remove_of_no_occ g2, remove_append (by decide), remove_of_no_occ s1, hfilter]
    rfl
  have hgen : splitType lower (gen ++ '.' :: t) = (t, some gen) := by
    unfold splitType
    have hm : (gen ++ '.' :: t).map lower = gen ++ '.' :: t := by
      simp [gen, lg, le, ln, ld, h1]
    have hg : gen.isPrefixOf (gen ++ '.' :: t) = true := by simp [gen]
    rw [hm, if_pos (by simp [hg])]
    simp only [hg]
    rw [if_neg (by simp [spec, gen]), remove_append (by decide), remove_of_no_occ g1, remove_of_no_occ s1, hfilter]
    rfl
  have hspec0 : splitType lower spec = (other, some spec) := by
    unfold splitType
    have hm : spec.map lower = spec := by simp [spec, ls, lp, le, lc]
    rw [hm]
    decide
  refine ⟨?_, ?_, ?_, ?_⟩
  · simp only [fixType, hs, final]; split <;> rfl
  · simp only [fixType, hspec, final]; split <;> rfl
  · simp only [fixType, hgen, final]; split <;> rfl
  · simp only [fixType, hspec0]; decide

/-- Upper and lower case are not distinguished. -/
theorem C195_case (hidem : ∀ c, lower (lower c) = lower c) {e f : Str} (h : e.map lower = f.map lower) :
    fixType lower e = fixType lower f ∧ fixRel lower e = fixRel lower f ∧
    fixType lower (e.map lower) = fixType lower e := by
  refine ⟨?_, ?_, ?_⟩
  · simp only [fixType, splitType, h]
  · simp only [fixRel, h]
  · have : (e.map lower).map lower = e.map lower := by
      rw [List.map_map]
      apply List.map_congr_left
      intro c _
      exact hidem c
    simp only [fixType, splitType, this]

theorem rename_rename (t : Str) : rename (rename t) = rename t := by
  unfold rename
  cases h : newEtype.lookup t with
  | none => simp [h]
  | some v =>
    have hmem : v ∈ newEtype.map Prod.snd := by
      have : ∀ (l : List (Str × Str)), l.lookup t = some v → v ∈ l.map Prod.snd := by
        intro l
        induction l with
        | nil => intro h; cases h
        | cons x l ih =>
          intro h
          rw [List.lookup_cons] at h
          split at h
          · injection h with h; simp [← h]
          · exact List.mem_cons_of_mem _ (ih h)
      exact this _ h
    have hall : ∀ v ∈ newEtype.map Prod.snd, newEtype.lookup v = none := by decide
    simp [hall v hmem]

theorem rename_low (hidem : ∀ c ∈ newEtype.flatMap Prod.snd, lower c = c) {t : Str} (h : t.map lower = t) :
    (rename t).map lower = rename t := by
  unfold rename
  cases hl : newEtype.lookup t with
  | none => simpa using h
  | some v =>
    have hmem : ∀ (l : List (Str × Str)), l.lookup t = some v → ∀ c ∈ v, c ∈ l.flatMap Prod.snd := by
      intro l
      induction l with
      | nil => intro h; cases h
      | cons x l ih =>
        intro h c hc
        rw [List.lookup_cons] at h
        rw [List.flatMap_cons, List.mem_append]
        split at h
        · injection h with h; exact Or.inl (h ▸ hc)
        · exact Or.inr (ih h c hc)
    have := hmem _ hl
    rw [Option.getD_some]
    conv => rhs; rw [← List.map_id v]
    apply List.map_congr_left
    intro c hc
    exact hidem c (this c hc)

/-- Running the block again changes nothing, if the new type does not begin with `spec` or `gen` again. -/
theorem C195_idempotent_partial (hidem : ∀ c, lower (lower c) = lower c)
    (hv : ∀ c ∈ newEtype.flatMap Prod.snd, lower c = c) (e : Str)
    (h1 : spec.isPrefixOf (fixType lower e).1 = false) (h2 : gen.isPrefixOf (fixType lower e).1 = false) :
    fixType lower (fixType lower e).1 = ((fixType lower e).1, none, false) := by
  have hlow : (splitType lower e).1.map lower = (splitType lower e).1 := by
    have hall : ∀ c ∈ (splitType lower e).1, lower c = c := by
      intro c hc
      have hmap : ∀ c ∈ e.map lower, lower c = c := by
        intro c hc
        obtain ⟨x, _, rfl⟩ := List.mem_map.mp hc
        exact hidem x
      unfold splitType at hc
      simp only at hc
      split at hc
      · simp only at hc
        have := remove_mem (remove_mem (List.mem_filter.mp hc).1)
        split at this
        · apply hv
          have hsub : ∀ c ∈ other, c ∈ newEtype.flatMap Prod.snd := by decide
          exact hsub c this
        · exact hmap c this
      · exact hmap c hc
    conv => rhs; rw [← List.map_id (splitType lower e).1]
    exact List.map_congr_left hall
  have hr := rename_low hv hlow
  have key : ∀ (t : Str), t.map lower = t → rename t = t → t ≠ appos → spec.isPrefixOf t = false →
      gen.isPrefixOf t = false → fixType lower t = (t, none, false) := by
    intro t ht hrt hta hs hg
    have hsp : splitType lower t = (t, none) := by
      simp [splitType, ht, hs, hg]
    simp only [fixType, hsp, hrt]
    rw [if_neg hta]
  have hfix : (fixType lower e).1 = if rename (splitType lower e).1 = appos then [] else
      rename (splitType lower e).1 := by
    simp only [fixType]
    split <;> rfl
  by_cases ha : rename (splitType lower e).1 = appos
  · rw [hfix, if_pos ha]
    exact key [] rfl (by decide) (by decide) (by decide) (by decide)
  · rw [hfix, if_neg ha] at h1 h2 ⊢
    exact key _ hr (rename_rename _) ha h1 h2

/-- `specgegenn` becomes `gen`, and the next run takes it for a generic entity without a type. -/
theorem C195_idempotent_violated (hl : ∀ c ∈ ['s', 'p', 'e', 'c', 'g', 'n'], lower c = c) :
    fixType lower (spec ++ ['g', 'e', 'g', 'e', 'n', 'n']) = (gen, some spec, false) ∧
    fixType lower gen = ([], some gen, false) := by
  have ls : lower 's' = 's' := hl _ (by simp)
  have lp : lower 'p' = 'p' := hl _ (by simp)
  have le : lower 'e' = 'e' := hl _ (by simp)
  have lc : lower 'c' = 'c' := hl _ (by simp)
  have lg : lower 'g' = 'g' := hl _ (by simp)
  have ln : lower 'n' = 'n' := hl _ (by simp)
  constructor
  · have : (spec ++ ['g', 'e', 'g', 'e', 'n', 'n']).map lower = spec ++ ['g', 'e', 'g', 'e', 'n', 'n'] := by
      simp [spec, ls, lp, le, lc, lg, ln]
    simp only [fixType, splitType, this]
    decide
  · have : gen.map lower = gen := by simp [gen, le, lg, ln]
    simp only [fixType, splitType, this]
    decide

/-- A type which only begins with `gen`, such as `gender` or `general`, loses these letters and its
mentions are marked as generic. -/
theorem C195_prefix_violated (hl : ∀ c ∈ ['g', 'e', 'n'], lower c = c) {x : Str} (h : Plain lower x) :
    fixType lower (gen ++ x) = ((final x).1, some gen, (final x).2) := by
  obtain ⟨h1, h2, h3, h4⟩ := h
  have le : lower 'e' = 'e' := hl _ (by simp)
  have lg : lower 'g' = 'g' := hl _ (by simp)
  have ln : lower 'n' = 'n' := hl _ (by simp)
  have hs : splitType lower (gen ++ x) = (x, some gen) := by
    unfold splitType
    have hm : (gen ++ x).map lower = gen ++ x := by simp [gen, lg, le, ln, h1]
    have hg : gen.isPrefixOf (gen ++ x) = true := by simp [gen]
    rw [hm, if_pos (by simp [hg])]
    simp only [hg]
    have hf : x.filter (· ≠ '.') = x := by
      rw [List.filter_eq_self]
      intro a ha
      simp only [ne_eq, decide_not, Bool.not_eq_true', decide_eq_false_iff_not]
      exact fun he => h4 (he ▸ ha)
    rw [if_neg (by simp [spec, gen]), remove_append (by decide), remove_of_no_occ h2, remove_of_no_occ h3, hf]
    rfl
  simp only [fixType, hs, final]
  split <;> rfl

/-- What happens to the mentions: nothing is changed without a type; `gstype` is set in all of them or in
none, `appos` in all but the first one or in none. -/
theorem C195_mentions (e : Str) (hne : e ≠ []) (ms : List Other) :
    fixEntity lower none ms = (none, ms) ∧ fixEntity lower (some []) ms = (some [], ms) ∧
    (fixEntity lower (some e) ms).1 = some (fixType lower e).1 ∧
    (fixEntity lower (some e) ms).2.length = ms.length ∧
    ∀ (i : Nat) (m : Other), ms[i]? = some m → (fixEntity lower (some e) ms).2[i]? = some
      { gstype := if (fixType lower e).2.1 = none then m.gstype else (fixType lower e).2.1
        appos := if (fixType lower e).2.2 = true ∧ i ≠ 0 then some ['1'] else m.appos } := by
  refine ⟨rfl, rfl, ?_⟩
  have hunf : fixEntity lower (some e) ms = (some (fixType lower e).1,
      let ms' := (match (fixType lower e).2.1 with
        | some g => ms.map fun m => { m with gstype := some g }
        | none => ms)
      if (fixType lower e).2.2 then ms'.take 1 ++ (ms'.drop 1).map fun m => { m with appos := some ['1'] }
      else ms') := by
    cases e with
    | nil => exact absurd rfl hne
    | cons c e => rfl
  rw [hunf]
  refine ⟨rfl, ?_⟩
  generalize (fixType lower e).2.1 = gs
  generalize (fixType lower e).2.2 = ap
  cases gs with
  | none =>
    cases ap with
    | false =>
      refine ⟨rfl, fun i m hm => ?_⟩
      simpa using hm
    | true =>
      refine ⟨by simp; omega, fun i m hm => ?_⟩
      cases ms with
      | nil => simp at hm
      | cons a l =>
        cases i with
        | zero => simp at hm ⊢; rw [hm]
        | succ i => simp at hm ⊢; exact ⟨m, hm, rfl⟩
  | some g =>
    cases ap with
    | false =>
      refine ⟨by simp, fun i m hm => ?_⟩
      simp [hm]
    | true =>
      refine ⟨by simp; omega, fun i m hm => ?_⟩
      cases ms with
      | nil => simp at hm
      | cons a l =>
        cases i with
        | zero => simp at hm ⊢; rw [hm]
        | succ i => simp at hm ⊢; simp [hm]

/-! ## Relations -/

/-- The labels which are changed and how: the inverse relation gets the prefix `i`, `indirect_` is left
out, and other labels stay as they are. -/
theorem C196_relations (hl : ∀ c ∈ inv ++ indirect, lower c = c) {r : Str} (hr : r.map lower = r)
    (hd : '-' ∉ r) (ho : ¬ Occ indirect ('i' :: r)) :
    fixRel lower r = r ∧ fixRel lower (r ++ inv) = 'i' :: r ∧ fixRel lower (indirect ++ r) = r := by
  have ho' : ¬ Occ indirect r := fun ⟨a, b, hab⟩ => ho ⟨'i' :: a, b, by rw [hab]; rfl⟩
  have hf : r.filter (· ≠ '-') = r := by
    rw [List.filter_eq_self]
    intro a ha
    simp only [ne_eq, decide_not, Bool.not_eq_true', decide_eq_false_iff_not]
    exact fun he => hd (he ▸ ha)
  have hinv : inv.map lower = inv := by
    conv => rhs; rw [← List.map_id inv]
    exact List.map_congr_left fun c hc => hl c (List.mem_append_left _ hc)
  have hind : indirect.map lower = indirect := by
    conv => rhs; rw [← List.map_id indirect]
    exact List.map_congr_left fun c hc => hl c (List.mem_append_right _ hc)
  have hno : ∀ s : Str, '-' ∉ s → inv.isSuffixOf s = false := by
    intro s hs
    apply Bool.eq_false_iff.mpr
    intro h
    obtain ⟨t, ht⟩ := List.isSuffixOf_iff_suffix.mp h
    exact hs (by rw [← ht]; simp [inv])
  refine ⟨?_, ?_, ?_⟩
  · simp only [fixRel, hr, hno r hd]
    rw [if_neg (by simp), hf, remove_of_no_occ ho']
  · have hs : inv.isSuffixOf (r ++ inv) = true := List.isSuffixOf_iff_suffix.mpr ⟨r, rfl⟩
    have hrem : remove inv (r ++ inv) = r := remove_suffix hd
    simp only [fixRel, List.map_append, hr, hinv, hs, if_true, hrem]
    rw [List.filter_cons_of_pos (by decide), hf, remove_of_no_occ ho]
  · have hd' : '-' ∉ indirect ++ r := by
      rw [List.mem_append, not_or]
      exact ⟨by decide, hd⟩
    have hf' : (indirect ++ r).filter (· ≠ '-') = indirect ++ r := by
      rw [List.filter_append, hf]
      congr 1
    simp only [fixRel, List.map_append, hr, hind, hno _ hd']
    rw [if_neg (by simp), hf', remove_append (by decide), remove_of_no_occ ho']

/-- No new label contains a hyphen (which would separate fields). -/
theorem C196_no_hyphen (r : Str) : '-' ∉ fixRel lower r := by
  intro h
  have := (List.mem_filter.mp (remove_mem h)).2
  simp at this

/-- Running the block again changes nothing, if `indirect_` is not in the new label again. -/
theorem C196_idempotent_partial (hidem : ∀ c, lower (lower c) = lower c) (hi : lower 'i' = 'i') (r : Str)
    (ho : ¬ Occ indirect (fixRel lower r)) : fixRel lower (fixRel lower r) = fixRel lower r := by
  have hlow : ∀ c ∈ fixRel lower r, lower c = c := by
    intro c hc
    have hmap : ∀ c ∈ r.map lower, lower c = c := by
      intro c hc
      obtain ⟨x, _, rfl⟩ := List.mem_map.mp hc
      exact hidem x
    unfold fixRel at hc
    simp only at hc
    have hc := (List.mem_filter.mp (remove_mem hc)).1
    split at hc
    · rcases List.mem_cons.mp hc with rfl | hc
      · exact hi
      · exact hmap c (remove_mem hc)
    · exact hmap c hc
  have hm : (fixRel lower r).map lower = fixRel lower r := by
    conv => rhs; rw [← List.map_id (fixRel lower r)]
    exact List.map_congr_left hlow
  have hd := C196_no_hyphen (lower := lower) r
  have hs : inv.isSuffixOf (fixRel lower r) = false := by
    apply Bool.eq_false_iff.mpr
    intro h
    obtain ⟨t, ht⟩ := List.isSuffixOf_iff_suffix.mp h
    exact hd (by rw [← ht]; simp [inv])
  have hf : (fixRel lower r).filter (· ≠ '-') = fixRel lower r := by
    rw [List.filter_eq_self]
    intro a ha
    simp only [ne_eq, decide_not, Bool.not_eq_true', decide_eq_false_iff_not]
    exact fun he => hd (he ▸ ha)
  generalize hx : fixRel lower r = x at *
  simp only [fixRel, hm, hs]
  rw [if_neg (by simp), hf, remove_of_no_occ ho]

/-- The inverse of a relation `r` and the relation `ir` get the same label. -/
theorem C196_inverse_violated (hl : ∀ c ∈ inv, lower c = c) {r : Str} (hr : r.map lower = r)
    (hd : '-' ∉ r) : fixRel lower (r ++ inv) = fixRel lower ('i' :: r) := by
  have hi : lower 'i' = 'i' := hl 'i' (by decide)
  have hinv : inv.map lower = inv := by
    conv => rhs; rw [← List.map_id inv]
    exact List.map_congr_left hl
  have hs : inv.isSuffixOf (r ++ inv) = true := List.isSuffixOf_iff_suffix.mpr ⟨r, rfl⟩
  have hrem : remove inv (r ++ inv) = r := remove_suffix hd
  have hn : inv.isSuffixOf ('i' :: r) = false := by
    apply Bool.eq_false_iff.mpr
    intro h
    obtain ⟨t, ht⟩ := List.isSuffixOf_iff_suffix.mp h
    have : '-' ∈ 'i' :: r := by rw [← ht]; simp [inv]
    rcases List.mem_cons.mp this with h | h
    · exact absurd h (by decide)
    · exact hd h
  simp only [fixRel, List.map_append, List.map_cons, hr, hinv, hs, if_true, hrem, hi, hn]
  rw [if_neg (by simp)]

/-- `indiindirect_rect_` is left as `indirect_`, which the next run removes. -/
theorem C196_idempotent_violated (hl : ∀ c ∈ indirect, lower c = c) :
    fixRel lower (['i', 'n', 'd', 'i'] ++ indirect ++ ['r', 'e', 'c', 't', '_']) = indirect ∧
    fixRel lower indirect = [] := by
  have hm : ∀ s : Str, (∀ c ∈ s, c ∈ indirect) → s.map lower = s := by
    intro s hs
    conv => rhs; rw [← List.map_id s]
    exact List.map_congr_left fun c hc => hl c (hs c hc)
  constructor
  · unfold fixRel
    rw [hm _ (by decide)]
    decide
  · unfold fixRel
    rw [hm _ (by decide)]
    decide

/-! ## The header of GUM -/

/-- The new header is not changed again and headers of other corpora stay as they are. -/
theorem C196_header (h : Str) : fixHeader (fixHeader h) = fixHeader h ∧
    (h ≠ join ['-'] gumOld → fixHeader h = h) := by
  have hne : join ['-'] gumNew ≠ join ['-'] gumOld := by decide
  unfold fixHeader
  by_cases he : h = join ['-'] gumOld
  · rw [if_pos he, if_neg hne]
    exact ⟨rfl, fun hn => absurd he hn⟩
  · rw [if_neg he, if_neg he]
    exact ⟨rfl, fun _ => rfl⟩

/-- The entities are loaded after the header has been changed: what was the type of the entity is read
as its id and what was its id is read as its type. -/
theorem C196_gum_violated (docid etype id : Str) (rest : List Str) (h1 : '-' ∉ etype) (h2 : '-' ∉ id)
    (h3 : ∀ x ∈ rest, '-' ∉ x) (hlen : rest.length = 4) :
    readChunk docid (join ['-'] gumOld) (join ['-'] (etype :: id :: rest)) = (some (docid ++ id), some etype) ∧
    readChunk docid (fixHeader (join ['-'] gumOld)) (join ['-'] (etype :: id :: rest)) =
      (some etype, some id) := by
  have hchunk : split '-' (join ['-'] (etype :: id :: rest)) = etype :: id :: rest := by
    apply split_join (by simp)
    intro p hp
    rcases List.mem_cons.mp hp with rfl | hp
    · exact h1
    · rcases List.mem_cons.mp hp with rfl | hp
      · exact h2
      · exact h3 p hp
  have hold : split '-' (join ['-'] gumOld) = gumOld := split_join (by decide) (by decide)
  have hnew : split '-' (join ['-'] gumNew) = gumNew := split_join (by decide) (by decide)
  have hfix : fixHeader (join ['-'] gumOld) = join ['-'] gumNew := if_pos rfl
  match rest, hlen with
  | [a, b, c, d], _ =>
    constructor
    · unfold readChunk
      rw [hchunk, hold]
      simp [gumOld, readFields]
    · unfold readChunk
      rw [hfix, hchunk, hnew]
      simp [gumNew, readFields, other]

/-- Lower case of ASCII letters, for the examples. -/
private def low (c : Char) : Char := if 65 ≤ c.toNat ∧ c.toNat ≤ 90 then Char.ofNat (c.toNat + 32) else c

example : fixType low ['G', 'E', 'N', '.', 'L', 'o', 'c'] = (['p', 'l', 'a', 'c', 'e'], some gen, false) := by
  decide

example : fixEntity low (some ['A', 'P', 'P', 'O', 'S']) [⟨none, none⟩, ⟨none, none⟩] =
    (some [], [⟨none, none⟩, ⟨none, some ['1']⟩]) := by decide

example : fixRel low ['P', 'a', 'r', 't', '-', 'I', 'N', 'V'] = ['i', 'p', 'a', 'r', 't'] := by decide

end Verif.Coref.FixUd02
