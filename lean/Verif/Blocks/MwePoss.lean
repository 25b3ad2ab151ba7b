import Verif.Py.Str

/-!
# mwe.Possessives

Model of `udapi/block/mwe/possessives.py`: `collect_mwes` (lines 9-45) and `process_tree` (lines 47-77).

A word is its ord; `parent` gives the ord of its parent.  `below h x` stands for `x in h.descendants`.
`mwe w` is `misc['Mwe']` (`[]` if missing).  Simplified: the type of an expression is not used by the
block and is left out; warnings are left out.
-/

namespace Verif.Blocks.MwePoss
open Verif.Py

def isDigit (c : Char) : Bool := decide (48 ≤ c.toNat ∧ c.toNat ≤ 57)

def isType (c : Char) : Bool :=
  decide (65 ≤ c.toNat ∧ c.toNat ≤ 90) || decide (97 ≤ c.toNat ∧ c.toNat ≤ 122) || c == '.'

/-- `re.match(r"^([0-9]+)(?::([A-Za-z\.]+))?$", m)` (line 33): the number. -/
def number (m : Str) : Option Str :=
  let n := m.takeWhile isDigit
  if n = [] then none
  else match m.dropWhile isDigit with
    | [] => some n
    | c :: t => if c = ':' ∧ t ≠ [] ∧ t.all isType = true then some n else none

/-- The numbers at a word (lines 23-43): `mwes_by_nodes[n.ord]`. -/
def numbers (misc : Str) : List Str := if misc = [] then [] else (split ';' misc).filterMap number

/-- Keys of a dictionary in the order of insertion. -/
def addKey (ks : List Str) (k : Str) : List Str := if k ∈ ks then ks else ks ++ [k]

section
variable (words : List Nat) (parent : Nat → Nat) (below : Nat → Nat → Bool) (mwe : Nat → Str) (poss : Nat → Bool)

/-- The keys of `mwes`. -/
def mwes : List Str := (words.flatMap fun w => numbers (mwe w)).foldl addKey []

/-- `m in mwes_by_nodes[x.ord]`. -/
def inMwe (m : Str) (x : Nat) : Bool := (numbers (mwe x)).contains m

/-- Lines 55-56. -/
def mweNodes (m : Str) : List Nat := words.filter (inMwe mwe m)
def mweHeads (m : Str) : List Nat :=
  (mweNodes words mwe m).filter fun x => !(mweNodes words mwe m).contains (parent x)

/-- Lines 57-60: the descendants of the heads, in the order of words. -/
def mweDescendants (m : Str) : List Nat :=
  words.filter fun x => (mweHeads words parent mwe m).any fun h => below h x

inductive Obs where
  | both | inside | outside
deriving DecidableEq

/-- Lines 61-77: the observation and the words printed, with a mark of those in parentheses. -/
def report (m : Str) : Option (Obs × List (Nat × Bool)) :=
  let ds := mweDescendants words parent below mwe m
  let pp := ds.filter poss
  let inpp := pp.filter (inMwe mwe m)
  let outpp := pp.filter fun x => !inMwe mwe m x
  let expr := ds.map fun x => (x, !inMwe mwe m x)
  if inpp ≠ [] ∧ outpp ≠ [] then some (.both, expr)
  else if inpp ≠ [] then some (.inside, expr)
  else if outpp ≠ [] then some (.outside, expr)
  else none

end

/-! ## Reading of Mwe -/

theorem takeWhile_append_stop {p : Char → Bool} : ∀ {a b : Str}, (∀ c ∈ a, p c = true) →
    (∀ c, b.head? = some c → p c = false) → (a ++ b).takeWhile p = a ∧ (a ++ b).dropWhile p = b
  | [], b, _, h => by
    cases b with
    | nil => exact ⟨rfl, rfl⟩
    | cons c b =>
      have := h c rfl
      simp [this]
  | x :: a, b, h1, h2 => by
    obtain ⟨i1, i2⟩ := takeWhile_append_stop (fun c hc => h1 c (List.mem_cons_of_mem _ hc)) h2
    have := h1 x List.mem_cons_self
    simp [this, i1, i2]

/-- A number is read from `NUMBER` and `NUMBER:TYPE` and from nothing else. -/
theorem C200_number (m n : Str) : number m = some n ↔
    n ≠ [] ∧ (∀ c ∈ n, isDigit c = true) ∧
      (m = n ∨ ∃ t, t ≠ [] ∧ (∀ c ∈ t, isType c = true) ∧ m = n ++ ':' :: t) := by
  constructor
  · intro h
    unfold number at h
    simp only at h
    split at h
    · cases h
    · rename_i hne
      have hall : ∀ c ∈ m.takeWhile isDigit, isDigit c = true := by
        have := List.all_takeWhile (p := isDigit) (l := m)
        exact fun c hc => List.all_eq_true.mp this c hc
      have happ := List.takeWhile_append_dropWhile (p := isDigit) (l := m)
      split at h
      · rename_i hd
        injection h with h
        subst h
        rw [hd, List.append_nil] at happ
        exact ⟨hne, hall, Or.inl happ.symm⟩
      · rename_i c t hd
        split at h
        · rename_i hc
          injection h with h
          subst h
          refine ⟨hne, hall, Or.inr ⟨t, hc.2.1, List.all_eq_true.mp hc.2.2, ?_⟩⟩
          rw [hd, hc.1] at happ
          exact happ.symm
        · cases h
  · rintro ⟨hne, hall, rfl | ⟨t, ht, htt, rfl⟩⟩
    · obtain ⟨h1, h2⟩ := takeWhile_append_stop (a := m) (b := []) hall (by simp)
      rw [List.append_nil] at h1 h2
      unfold number
      simp only [h1, h2]
      rw [if_neg hne]
    · obtain ⟨h1, h2⟩ := takeWhile_append_stop (a := n) (b := ':' :: t) hall (by
        intro c hc
        injection hc with hc
        subst hc
        decide)
      unfold number
      simp only [h1, h2]
      rw [if_neg hne, if_pos ⟨trivial, ht, List.all_eq_true.mpr htt⟩]

theorem mem_foldl_addKey (l : List Str) : ∀ (ks : List Str), ks.Nodup →
    (l.foldl addKey ks).Nodup ∧ ∀ m, m ∈ l.foldl addKey ks ↔ m ∈ ks ∨ m ∈ l := by
  induction l with
  | nil => intro ks h; exact ⟨h, by simp⟩
  | cons k l ih =>
    intro ks h
    rw [List.foldl_cons]
    by_cases hk : k ∈ ks
    · have : addKey ks k = ks := if_pos hk
      rw [this]
      obtain ⟨i1, i2⟩ := ih ks h
      refine ⟨i1, fun m => ?_⟩
      rw [i2, List.mem_cons]
      constructor
      · rintro (h | h)
        · exact Or.inl h
        · exact Or.inr (Or.inr h)
      · rintro (h | rfl | h)
        · exact Or.inl h
        · exact Or.inl hk
        · exact Or.inr h
    · have : addKey ks k = ks ++ [k] := if_neg hk
      rw [this]
      obtain ⟨i1, i2⟩ := ih (ks ++ [k]) (by
        rw [List.nodup_append]
        refine ⟨h, by simp, ?_⟩
        intro a ha b hb
        rw [List.mem_singleton.mp hb]
        exact fun he => hk (he ▸ ha))
      refine ⟨i1, fun m => ?_⟩
      rw [i2, List.mem_cons, List.mem_append, List.mem_singleton, or_assoc]

variable {words : List Nat} {parent : Nat → Nat} {below : Nat → Nat → Bool} {mwe : Nat → Str} {poss : Nat → Bool}

/-- Each expression is examined once, and it has a word. -/
theorem C200_mwes : (mwes words mwe).Nodup ∧ ∀ m, m ∈ mwes words mwe ↔ mweNodes words mwe m ≠ [] := by
  obtain ⟨h1, h2⟩ := mem_foldl_addKey (words.flatMap fun w => numbers (mwe w)) [] (by simp)
  refine ⟨h1, fun m => ?_⟩
  unfold mwes
  rw [h2]
  constructor
  · rintro (h | h)
    · cases h
    · obtain ⟨w, hw, hm⟩ := List.mem_flatMap.mp h
      apply List.ne_nil_of_mem (a := w)
      exact List.mem_filter.mpr ⟨hw, by unfold inMwe; simpa using hm⟩
  · intro h
    obtain ⟨w, hw⟩ := List.exists_mem_of_ne_nil _ h
    obtain ⟨hw, hm⟩ := List.mem_filter.mp hw
    exact Or.inr (List.mem_flatMap.mpr ⟨w, hw, by unfold inMwe at hm; simpa using hm⟩)

/-! ## The words examined -/

/-- `h` is a proper ancestor of `x`, all words between them being words of the sentence. -/
inductive Anc (words : List Nat) (parent : Nat → Nat) (h : Nat) : Nat → Prop where
  | parent {x} : x ∈ words → parent x = h → Anc words parent h x
  | step {x} : x ∈ words → parent x ∈ words → Anc words parent h (parent x) → Anc words parent h x

theorem Anc.trans {h k x : Nat} (hk : k ∈ words) (h1 : Anc words parent k x) (h2 : Anc words parent h k) :
    Anc words parent h x := by
  induction h1 with
  | parent hx hp => subst hp; exact .step hx hk h2
  | step hx hp _ ih => exact .step hx hp ih

/-- The words examined and printed are exactly the words which depend, directly or not, on a word of the
expression. -/
theorem C200_descendants (rank : Nat → Nat) (hrank : ∀ x ∈ words, parent x ∈ words → rank (parent x) < rank x)
    (hb : ∀ h x, below h x = true ↔ Anc words parent h x) (m : Str) (x : Nat) :
    x ∈ mweDescendants words parent below mwe m ↔
      x ∈ words ∧ ∃ y ∈ words, inMwe mwe m y = true ∧ Anc words parent y x := by
  unfold mweDescendants
  rw [List.mem_filter, List.any_eq_true]
  -- every word of the expression is a head or below a head
  have climb : ∀ n, ∀ y ∈ words, inMwe mwe m y = true → rank y ≤ n →
      ∃ h ∈ mweHeads words parent mwe m, h = y ∨ Anc words parent h y := by
    intro n
    induction n with
    | zero =>
      intro y hy hm hr
      refine ⟨y, ?_, Or.inl rfl⟩
      unfold mweHeads
      rw [List.mem_filter]
      refine ⟨List.mem_filter.mpr ⟨hy, hm⟩, ?_⟩
      simp only [Bool.not_eq_true', List.contains_eq_mem, decide_eq_false_iff_not]
      intro hp
      have := hrank y hy (List.mem_filter.mp hp).1
      omega
    | succ n ih =>
      intro y hy hm hr
      by_cases hp : parent y ∈ mweNodes words mwe m
      · obtain ⟨hpw, hpm⟩ := List.mem_filter.mp hp
        have hlt := hrank y hy hpw
        obtain ⟨h, hh, hor⟩ := ih (parent y) hpw hpm (by omega)
        refine ⟨h, hh, Or.inr ?_⟩
        rcases hor with rfl | hor
        · exact .parent hy rfl
        · exact .step hy hpw hor
      · refine ⟨y, ?_, Or.inl rfl⟩
        unfold mweHeads
        rw [List.mem_filter]
        refine ⟨List.mem_filter.mpr ⟨hy, hm⟩, ?_⟩
        simpa using hp
  constructor
  · rintro ⟨hx, h, hh, hbx⟩
    have := (List.mem_filter.mp hh).1
    obtain ⟨hw, hm⟩ := List.mem_filter.mp this
    exact ⟨hx, h, hw, hm, (hb h x).mp hbx⟩
  · rintro ⟨hx, y, hy, hm, ha⟩
    obtain ⟨h, hh, hor⟩ := climb _ y hy hm (Nat.le_refl _)
    refine ⟨hx, h, hh, (hb h x).mpr ?_⟩
    rcases hor with rfl | hor
    · exact ha
    · exact Anc.trans hy ha hor

theorem filter_ne_nil {α : Type} {l : List α} {p : α → Bool} : l.filter p ≠ [] ↔ ∃ x ∈ l, p x = true := by
  rw [Ne, List.filter_eq_nil_iff]
  constructor
  · intro h
    apply Classical.byContradiction
    intro hc
    exact h fun a ha hp => hc ⟨a, ha, hp⟩
  · rintro ⟨x, hx, hp⟩ h
    exact h x hx hp

/-- Nothing is printed iff no possessive depends on the expression; otherwise the observation tells
whether such possessives belong to the expression, do not, or both, and the words in parentheses are those
which do not belong to it. -/
theorem C200_report (m : Str) :
    let ds := mweDescendants words parent below mwe m
    let expr := ds.map fun x => (x, !inMwe mwe m x)
    let hasIn := ∃ x ∈ ds, poss x = true ∧ inMwe mwe m x = true
    let hasOut := ∃ x ∈ ds, poss x = true ∧ inMwe mwe m x = false
    (report words parent below mwe poss m = none ↔ ∀ x ∈ ds, poss x = false) ∧
    (report words parent below mwe poss m = some (.both, expr) ↔ hasIn ∧ hasOut) ∧
    (report words parent below mwe poss m = some (.inside, expr) ↔ hasIn ∧ ¬ hasOut) ∧
    (report words parent below mwe poss m = some (.outside, expr) ↔ ¬ hasIn ∧ hasOut) := by
  intro ds expr hasIn hasOut
  have hin : ((ds.filter poss).filter (inMwe mwe m)) ≠ [] ↔ hasIn := by
    rw [filter_ne_nil]
    constructor
    · rintro ⟨x, hx, h⟩
      obtain ⟨h1, h2⟩ := List.mem_filter.mp hx
      exact ⟨x, h1, h2, h⟩
    · rintro ⟨x, h1, h2, h⟩
      exact ⟨x, List.mem_filter.mpr ⟨h1, h2⟩, h⟩
  have hout : ((ds.filter poss).filter fun x => !inMwe mwe m x) ≠ [] ↔ hasOut := by
    rw [filter_ne_nil]
    constructor
    · rintro ⟨x, hx, h⟩
      obtain ⟨h1, h2⟩ := List.mem_filter.mp hx
      exact ⟨x, h1, h2, by simpa using h⟩
    · rintro ⟨x, h1, h2, h⟩
      exact ⟨x, List.mem_filter.mpr ⟨h1, h2⟩, by simpa using h⟩
  have hno : (∀ x ∈ ds, poss x = false) ↔ ¬ hasIn ∧ ¬ hasOut := by
    constructor
    · intro h
      constructor
      · rintro ⟨x, h1, h2, _⟩; rw [h x h1] at h2; cases h2
      · rintro ⟨x, h1, h2, _⟩; rw [h x h1] at h2; cases h2
    · rintro ⟨h1, h2⟩ x hx
      apply Bool.eq_false_iff.mpr
      intro hp
      cases hm : inMwe mwe m x with
      | true => exact h1 ⟨x, hx, hp, hm⟩
      | false => exact h2 ⟨x, hx, hp, hm⟩
  unfold report
  simp only [hin, hout, hno, show mweDescendants words parent below mwe m = ds from rfl]
  by_cases a : hasIn <;> by_cases b : hasOut <;> simp [a, b, expr]

/-- The topmost word of an expression is neither examined nor printed: if no other word of the expression
is its ancestor, it is left out, even if it is a possessive. -/
theorem C200_head_violated (rank : Nat → Nat) (hrank : ∀ x ∈ words, parent x ∈ words → rank (parent x) < rank x)
    (hb : ∀ h x, below h x = true ↔ Anc words parent h x) (m : Str) (x : Nat)
    (htop : ∀ y ∈ words, inMwe mwe m y = true → ¬ Anc words parent y x) :
    x ∉ mweDescendants words parent below mwe m := by
  rw [C200_descendants rank hrank hb]
  rintro ⟨_, y, hy, hm, ha⟩
  exact htop y hy hm ha

/-- The tree 2 → 1, 2 → 4, 4 → 3 with the expression 1 = {2, 4} and the possessive 3. -/
private def p : Nat → Nat := fun x => [0, 2, 0, 4, 2].getD x 0
private def b : Nat → Nat → Bool := fun h x => p x == h && x != 2 || p (p x) == h && x == 3
private def mw : Nat → Str := fun x => if x = 2 then ['1', ':', 'V', 'I', 'D'] else if x = 4 then ['1'] else []

example : mwes [1, 2, 3, 4] mw = [['1']] ∧ report [1, 2, 3, 4] p b mw (· == 3) ['1'] =
    some (.outside, [(1, true), (3, true), (4, false)]) := by decide +kernel

end Verif.Blocks.MwePoss
