/-!
# `find_lcs`: the longest common subsequence (udapi/block/eval/f1.py:205-230)
-/

set_option linter.unusedSectionVars false

namespace Verif.Eval

variable {α : Type} [DecidableEq α]

/-- The matrix `C`. -/
abbrev Table := Nat → Nat → Nat

def Table.set (C : Table) (i j v : Nat) : Table := fun a b => if a = i ∧ b = j then v else C a b

/-- The right-hand side of the assignment to `C[i][j]` (f1.py:219). -/
def cell (x y : List α) (C : Table) (i j : Nat) : Nat :=
  if x[i - 1]? = y[j - 1]? then C (i - 1) (j - 1) + 1 else max (C i (j - 1)) (C (i - 1) j)

/-- The inner loop over `j` (f1.py:218-219), `js` being the values still to come. -/
def fillRow (x y : List α) (i : Nat) : List Nat → Table → Table
  | [], C => C
  | j :: js, C => fillRow x y i js (C.set i j (cell x y C i j))

/-- The outer loop over `i` (f1.py:217-219). -/
def fillRows (x y : List α) : List Nat → Table → Table
  | [], C => C
  | i :: is, C => fillRows x y is (fillRow x y i (List.range' 1 y.length) C)

/-- The whole matrix (f1.py:216-219); the cells start as 0. -/
def table (x y : List α) : Table := fillRows x y (List.range' 1 x.length) (fun _ _ => 0)

/-- The backward loop (f1.py:222-229). `fuel` bounds the number of steps; `none` stands for running out of fuel or for
`index` being 0 when an item is stored (Python would then store at the end of the list, or fail if it is empty).
The theorems show that neither happens. -/
def traceback (x y : List α) (C : Table) : Nat → Nat → Nat → Nat → List (Option α) → Option (List (Option α))
  | _, 0, _, _, lcs => some lcs
  | _, _, 0, _, lcs => some lcs
  | 0, _ + 1, _ + 1, _, _ => none
  | fuel + 1, m + 1, n + 1, index, lcs =>
    if x[m]? = y[n]? then
      match index with
      | 0 => none
      | index + 1 => traceback x y C fuel m n index (lcs.set index x[m]?)
    else if C m (n + 1) > C (m + 1) n then traceback x y C fuel m (n + 1) index lcs
    else traceback x y C fuel (m + 1) n index lcs

/-- How many items at the beginning are the same: the loop of f1.py:211-213, entered when the first items are the same. -/
def samePrefix : List α → List α → Nat
  | a :: as, b :: bs => if a = b then samePrefix as bs + 1 else 0
  | _, _ => 0

/-- `find_lcs` (f1.py:205-230) with the depth of the recursion bounded by the first argument. -/
def findLcsAux : Nat → List α → List α → Option (List (Option α))
  | 0, _, _ => none
  | fuel + 1, x, y =>
    if x.length = 0 ∨ y.length = 0 then some []
    else if x[0]? = y[0]? then
      let i := samePrefix x y
      if i < min x.length y.length then
        match findLcsAux fuel (x.drop i) (y.drop i) with
        | some r => some ((x.take i).map some ++ r)
        | none => none
      else some ((x.take i).map some)
    else
      let C := table x y
      let index := C x.length y.length
      traceback x y C (x.length + y.length) x.length y.length index (List.replicate index none)

/-- `find_lcs`. The outcome is `none` if a bound was hit or a `None` was left in the list; `C39_lcs` shows that this
never happens. -/
def findLcs (x y : List α) : Option (List α) :=
  match findLcsAux (x.length + 1) x y with
  | some r => r.mapM id
  | none => none

/-! ## Specification: longest common subsequence -/

/-- `s` is a common subsequence of `x` and `y` (`List.Sublist` is the standard notion of a subsequence). -/
def Common (s x y : List α) : Prop := s.Sublist x ∧ s.Sublist y

def IsLcs (r x y : List α) : Prop := Common r x y ∧ ∀ s, Common s x y → s.length ≤ r.length

/-- Textbook recursion for the length on prefixes of length `i` and `j`. -/
def len (x y : List α) : Nat → Nat → Nat
  | 0, _ => 0
  | _, 0 => 0
  | i + 1, j + 1 => if x[i]? = y[j]? then len x y i j + 1 else max (len x y (i + 1) j) (len x y i (j + 1))
termination_by i j => i + j

theorem len_zero_left (x y : List α) (j : Nat) : len x y 0 j = 0 := by rw [len]
theorem len_zero_right (x y : List α) (i : Nat) : len x y i 0 = 0 := by cases i <;> rw [len]; simp
theorem len_succ (x y : List α) (i j : Nat) : len x y (i + 1) (j + 1) =
    if x[i]? = y[j]? then len x y i j + 1 else max (len x y (i + 1) j) (len x y i (j + 1)) := by rw [len]

theorem take_succ' {x : List α} {i : Nat} (h : i < x.length) : x.take (i + 1) = x.take i ++ [x[i]] := by
  rw [List.take_add_one, List.getElem?_eq_getElem h]; rfl

theorem common_le_len (x y : List α) : ∀ (n i j : Nat), i + j ≤ n → i ≤ x.length → j ≤ y.length →
    ∀ s, Common s (x.take i) (y.take j) → s.length ≤ len x y i j := by
  intro n
  induction n with
  | zero =>
    intro i j hn _ _ s hs
    have : i = 0 := by omega
    subst this
    have := hs.1.length_le
    simp at this
    simp [this]
  | succ n ih =>
    intro i j hn hi hj s hs
    cases i with
    | zero => have := hs.1.length_le; simp at this; simp [this]
    | succ i =>
    cases j with
    | zero => have := hs.2.length_le; simp at this; simp [this]
    | succ j =>
    have hx := take_succ' (x := x) (i := i) (by omega)
    have hy := take_succ' (x := y) (i := j) (by omega)
    have gx : x[i]? = some x[i] := List.getElem?_eq_getElem (by omega)
    have gy : y[j]? = some y[j] := List.getElem?_eq_getElem (by omega)
    have hs0 := hs
    unfold Common at hs
    rw [hx, hy] at hs
    obtain ⟨l1, l2, e, k1, k2⟩ := List.sublist_append_iff.1 hs.1
    obtain ⟨r1, r2, e', k1', k2'⟩ := List.sublist_append_iff.1 hs.2
    have c2 : l2 = [] ∨ l2 = [x[i]] := by
      cases k2 with
      | cons _ h => left; exact List.sublist_nil.1 h
      | cons_cons _ h => right; rw [List.sublist_nil.1 h]
    have c2' : r2 = [] ∨ r2 = [y[j]] := by
      cases k2' with
      | cons _ h => left; exact List.sublist_nil.1 h
      | cons_cons _ h => right; rw [List.sublist_nil.1 h]
    rw [len_succ, gx, gy]
    by_cases hxy : x[i] = y[j]
    · rw [if_pos (by rw [hxy])]
      have key : ∀ u : List α, Common u (x.take i) (y.take j) → u.length ≤ len x y i j :=
        fun u hu => ih i j (by omega) (by omega) (by omega) u hu
      rcases c2 with c2 | c2 <;> rcases c2' with c2' | c2'
      · subst c2 c2'
        have e1 : s = l1 := by rw [e]; simp
        have e2 : s = r1 := by rw [e']; simp
        have := key s ⟨e1 ▸ k1, e2 ▸ k1'⟩
        omega
      · subst c2 c2'
        have e1 : s = l1 := by rw [e]; simp
        have : r1.Sublist (x.take i) := by
          refine List.Sublist.trans ?_ (e1 ▸ k1)
          rw [e']; exact List.sublist_append_left _ _
        have := key r1 ⟨this, k1'⟩
        rw [e', List.length_append]; simp; exact this
      · subst c2 c2'
        have e1 : s = r1 := by rw [e']; simp
        have : l1.Sublist (y.take j) := by
          refine List.Sublist.trans ?_ (e1 ▸ k1')
          rw [e]; exact List.sublist_append_left _ _
        have := key l1 ⟨k1, this⟩
        rw [e, List.length_append]; simp; exact this
      · subst c2 c2'
        have : l1 = r1 := by
          have := e.symm.trans e'
          exact (List.append_inj' this rfl).1
        have := key l1 ⟨k1, this ▸ k1'⟩
        rw [e, List.length_append]; simp; exact this
    · rw [if_neg (by simpa using hxy)]
      rcases c2 with c2 | c2
      · subst c2
        have e1 : s = l1 := by rw [e]; simp
        have := ih i (j + 1) (by omega) (by omega) hj s ⟨e1 ▸ k1, hs0.2⟩
        omega
      · rcases c2' with c2' | c2'
        · subst c2'
          have e1 : s = r1 := by rw [e']; simp
          have := ih (i + 1) j (by omega) hi (by omega) s ⟨hs0.1, e1 ▸ k1'⟩
          omega
        · subst c2 c2'
          have := e.symm.trans e'
          have := (List.append_inj' this rfl).2
          simp at this
          exact absurd this hxy

/-! ## The matrix holds the lengths -/

/-- Rows below `i` are complete, row `i` is complete up to `j` (exclusive), the rest is 0. -/
def Filled (x y : List α) (C : Table) (i j : Nat) : Prop :=
  (∀ a b, b ≤ y.length → (a < i ∨ (a = i ∧ b < j)) → C a b = len x y a b) ∧ ∀ a, i ≤ a → C a 0 = 0

theorem fillRow_spec (x y : List α) (i : Nat) (hi : 0 < i) : ∀ (k j : Nat) (C : Table), j + k = y.length + 1 → 0 < j →
    Filled x y C i j → Filled x y (fillRow x y i (List.range' j k) C) (i + 1) 0 := by
  intro k
  induction k with
  | zero =>
    intro j C hk hj h
    show Filled x y C (i + 1) 0
    refine ⟨?_, fun a ha => h.2 a (by omega)⟩
    intro a b hb hab
    exact h.1 a b hb (by omega)
  | succ k ih =>
    intro j C hk hj h
    show Filled x y (fillRow x y i (List.range' (j + 1) k) (C.set i j (cell x y C i j))) (i + 1) 0
    refine ih (j + 1) _ (by omega) (by omega) ⟨?_, ?_⟩
    · intro a b hb hab
      unfold Table.set
      by_cases hc : a = i ∧ b = j
      · rw [if_pos hc]
        obtain ⟨rfl, rfl⟩ := hc
        obtain ⟨a, rfl⟩ : ∃ c, a = c + 1 := ⟨a - 1, by omega⟩
        obtain ⟨b, rfl⟩ : ∃ c, b = c + 1 := ⟨b - 1, by omega⟩
        unfold cell
        rw [len_succ]
        simp only [Nat.add_sub_cancel]
        rw [h.1 a b (by omega) (by omega), h.1 (a + 1) b (by omega) (by omega), h.1 a (b + 1) (by omega) (by omega)]
      · rw [if_neg hc]
        exact h.1 a b hb (by omega)
    · intro a ha
      unfold Table.set
      rw [if_neg (by omega)]
      exact h.2 a ha

theorem fillRows_spec (x y : List α) : ∀ (k i : Nat) (C : Table), 0 < i → Filled x y C i 0 →
    Filled x y (fillRows x y (List.range' i k) C) (i + k) 0 := by
  intro k
  induction k with
  | zero => intro i C _ h; exact h
  | succ k ih =>
    intro i C hi h
    show Filled x y (fillRows x y (List.range' (i + 1) k) (fillRow x y i (List.range' 1 y.length) C)) _ _
    rw [show i + (k + 1) = i + 1 + k from by omega]
    refine ih (i + 1) _ (by omega) (fillRow_spec x y i hi y.length 1 C (by omega) (by omega) ⟨?_, h.2⟩)
    intro a b hb hab
    by_cases hai : a < i
    · exact h.1 a b hb (Or.inl hai)
    · have : a = i := by omega
      have : b = 0 := by omega
      subst_vars
      rw [h.2 _ (Nat.le_refl _), len_zero_right]

theorem table_spec (x y : List α) (a b : Nat) (ha : a ≤ x.length) (hb : b ≤ y.length) : table x y a b = len x y a b := by
  have := fillRows_spec x y x.length 1 (fun _ _ => 0) (by omega)
    ⟨by intro a b _ hab; have : a = 0 := by omega
        subst this; rw [len_zero_left], fun _ _ => rfl⟩
  exact this.1 a b hb (by omega)

/-! ## The backward loop -/

theorem traceback_spec (x y : List α) (C : Table) (hC : ∀ a b, a ≤ x.length → b ≤ y.length → C a b = len x y a b) :
    ∀ (fuel m n : Nat), m + n ≤ fuel → m ≤ x.length → n ≤ y.length → ∀ rest : List (Option α),
    ∃ r, r.length = len x y m n ∧ Common r (x.take m) (y.take n) ∧
      traceback x y C fuel m n (len x y m n) (List.replicate (len x y m n) none ++ rest) = some (r.map some ++ rest) := by
  intro fuel
  induction fuel with
  | zero =>
    intro m n h hm hn rest
    have : m = 0 := by omega
    subst this
    refine ⟨[], by rw [len_zero_left]; rfl, ⟨List.nil_sublist _, List.nil_sublist _⟩, ?_⟩
    rw [len_zero_left]; rfl
  | succ fuel ih =>
    intro m n h hm hn rest
    cases m with
    | zero =>
      refine ⟨[], by rw [len_zero_left]; rfl, ⟨List.nil_sublist _, List.nil_sublist _⟩, ?_⟩
      rw [len_zero_left]; rfl
    | succ m =>
    cases n with
    | zero =>
      refine ⟨[], by rw [len_zero_right]; rfl, ⟨List.nil_sublist _, List.nil_sublist _⟩, ?_⟩
      rw [len_zero_right]; rfl
    | succ n =>
    have gx : x[m]? = some x[m] := List.getElem?_eq_getElem (by omega)
    have gy : y[n]? = some y[n] := List.getElem?_eq_getElem (by omega)
    have hx := take_succ' (x := x) (i := m) (by omega)
    have hy := take_succ' (x := y) (i := n) (by omega)
    by_cases hxy : x[m]? = y[n]?
    · have hl : len x y (m + 1) (n + 1) = len x y m n + 1 := by rw [len_succ, if_pos hxy]
      obtain ⟨r, h1, h2, h3⟩ := ih m n (by omega) (by omega) (by omega) (x[m]? :: rest)
      refine ⟨r ++ [x[m]], by simp [h1, hl], ⟨?_, ?_⟩, ?_⟩
      · rw [hx]; exact h2.1.append (List.Sublist.refl _)
      · rw [hy]
        have : x[m] = y[n] := by rw [gx, gy] at hxy; exact Option.some.inj hxy
        rw [this]; exact h2.2.append (List.Sublist.refl _)
      · rw [hl]
        show (if x[m]? = y[n]? then _ else _) = _
        rw [if_pos hxy]
        show traceback x y C fuel m n (len x y m n)
          ((List.replicate (len x y m n + 1) none ++ rest).set (len x y m n) x[m]?) = _
        have : (List.replicate (len x y m n + 1) none ++ rest).set (len x y m n) x[m]? =
            List.replicate (len x y m n) none ++ (x[m]? :: rest) := by
          rw [List.replicate_succ', List.append_assoc, List.set_append_right _ _ (by simp)]
          simp
        rw [this, h3, gx]
        simp
    · have hl : len x y (m + 1) (n + 1) = max (len x y (m + 1) n) (len x y m (n + 1)) := by rw [len_succ, if_neg hxy]
      by_cases hg : C m (n + 1) > C (m + 1) n
      · have hg' := hg
        rw [hC _ _ (by omega) hn, hC _ _ hm (by omega)] at hg'
        obtain ⟨r, h1, h2, h3⟩ := ih m (n + 1) (by omega) (by omega) hn rest
        have hl' : len x y (m + 1) (n + 1) = len x y m (n + 1) := by omega
        refine ⟨r, by rw [h1, hl'], ⟨?_, h2.2⟩, ?_⟩
        · rw [hx]; exact h2.1.trans (List.sublist_append_left _ _)
        · rw [hl']
          show (if x[m]? = y[n]? then _ else _) = _
          rw [if_neg hxy, if_pos hg, h3]
      · have hg' := hg
        rw [hC _ _ (by omega) hn, hC _ _ hm (by omega)] at hg'
        obtain ⟨r, h1, h2, h3⟩ := ih (m + 1) n (by omega) hm (by omega) rest
        have hl' : len x y (m + 1) (n + 1) = len x y (m + 1) n := by omega
        refine ⟨r, by rw [h1, hl'], ⟨h2.1, ?_⟩, ?_⟩
        · rw [hy]; exact h2.2.trans (List.sublist_append_left _ _)
        · rw [hl']
          show (if x[m]? = y[n]? then _ else _) = _
          rw [if_neg hxy, if_neg hg, h3]

/-! ## The recursion over common prefixes -/

theorem samePrefix_le (x y : List α) : samePrefix x y ≤ x.length ∧ samePrefix x y ≤ y.length := by
  induction x generalizing y with
  | nil => simp [samePrefix]
  | cons a as ih =>
    cases y with
    | nil => simp [samePrefix]
    | cons b bs =>
      have := ih bs
      unfold samePrefix
      split <;> simp <;> omega

theorem samePrefix_take (x y : List α) : x.take (samePrefix x y) = y.take (samePrefix x y) := by
  induction x generalizing y with
  | nil => simp [samePrefix]
  | cons a as ih =>
    cases y with
    | nil => simp [samePrefix]
    | cons b bs =>
      unfold samePrefix
      split
      · next h => subst h; simp [ih bs]
      · simp

/-- A common first item can be taken into the subsequence. -/
theorem isLcs_cons {a : α} {r x y : List α} (h : IsLcs r x y) : IsLcs (a :: r) (a :: x) (a :: y) := by
  refine ⟨⟨h.1.1.cons_cons a, h.1.2.cons_cons a⟩, ?_⟩
  intro s hs
  cases s with
  | nil => simp
  | cons b s =>
    have h1 : s.Sublist x := by
      cases hs.1 with
      | cons _ h => exact List.Sublist.trans (List.sublist_cons_self _ _) h
      | cons_cons _ h => exact h
    have h2 : s.Sublist y := by
      cases hs.2 with
      | cons _ h => exact List.Sublist.trans (List.sublist_cons_self _ _) h
      | cons_cons _ h => exact h
    have := h.2 s ⟨h1, h2⟩
    simp; exact this

theorem isLcs_append (p : List α) {r x y : List α} (h : IsLcs r x y) : IsLcs (p ++ r) (p ++ x) (p ++ y) := by
  induction p with
  | nil => exact h
  | cons a p ih => exact isLcs_cons ih

theorem isLcs_nil_left (y : List α) : IsLcs [] [] y :=
  ⟨⟨List.nil_sublist _, List.nil_sublist _⟩, fun s hs => by have := hs.1.length_le; simpa using this⟩

theorem isLcs_nil_right (x : List α) : IsLcs [] x [] :=
  ⟨⟨List.nil_sublist _, List.nil_sublist _⟩, fun s hs => by have := hs.2.length_le; simpa using this⟩

theorem findLcsAux_spec : ∀ (fuel : Nat) (x y : List α), x.length < fuel →
    ∃ r, findLcsAux fuel x y = some (r.map some) ∧ IsLcs r x y := by
  intro fuel
  induction fuel with
  | zero => intro x y h; omega
  | succ fuel ih =>
    intro x y h
    unfold findLcsAux
    by_cases h0 : x.length = 0 ∨ y.length = 0
    · rw [if_pos h0]
      refine ⟨[], rfl, ?_⟩
      rcases h0 with h0 | h0
      · rw [List.length_eq_zero_iff.1 h0]; exact isLcs_nil_left _
      · rw [List.length_eq_zero_iff.1 h0]; exact isLcs_nil_right _
    · rw [if_neg h0]
      by_cases h1 : x[0]? = y[0]?
      · rw [if_pos h1]
        simp only
        have hp : 0 < samePrefix x y := by
          cases x with
          | nil => simp at h0
          | cons a as =>
            cases y with
            | nil => simp at h0
            | cons b bs => simp at h1; unfold samePrefix; simp [h1]
        have ht := samePrefix_take x y
        have hle := samePrefix_le x y
        by_cases h2 : samePrefix x y < min x.length y.length
        · rw [if_pos h2]
          obtain ⟨r, e, hr⟩ := ih (x.drop (samePrefix x y)) (y.drop (samePrefix x y)) (by simp; omega)
          rw [e]
          refine ⟨x.take (samePrefix x y) ++ r, by simp, ?_⟩
          have := isLcs_append (x.take (samePrefix x y)) hr
          rw [List.take_append_drop] at this
          rw [ht, List.take_append_drop, ← ht] at this
          exact this
        · rw [if_neg h2]
          refine ⟨x.take (samePrefix x y), by simp, ?_⟩
          have hn : x.drop (samePrefix x y) = [] ∨ y.drop (samePrefix x y) = [] := by
            rw [List.drop_eq_nil_iff, List.drop_eq_nil_iff]; omega
          have hr : IsLcs [] (x.drop (samePrefix x y)) (y.drop (samePrefix x y)) := by
            rcases hn with hn | hn <;> rw [hn]
            · exact isLcs_nil_left _
            · exact isLcs_nil_right _
          have := isLcs_append (x.take (samePrefix x y)) hr
          rw [List.take_append_drop] at this
          rw [ht, List.take_append_drop, ← ht, List.append_nil] at this
          exact this
      · rw [if_neg h1]
        simp only
        have hC := table_spec x y
        rw [hC _ _ (Nat.le_refl _) (Nat.le_refl _)]
        obtain ⟨r, e1, e2, e3⟩ := traceback_spec x y (table x y) hC (x.length + y.length) x.length y.length
          (Nat.le_refl _) (Nat.le_refl _) (Nat.le_refl _) []
        rw [List.append_nil, List.append_nil] at e3
        refine ⟨r, e3, ?_, ?_⟩
        · rw [List.take_length, List.take_length] at e2; exact e2
        · intro s hs
          rw [e1]
          exact common_le_len x y (x.length + y.length) _ _ (Nat.le_refl _) (Nat.le_refl _) (Nat.le_refl _) s
            (by rw [List.take_length, List.take_length]; exact hs)

theorem mapM_some (r : List α) : (r.map some).mapM id = some r := by
  induction r with
  | nil => rfl
  | cons a r ih => rw [List.map_cons, List.mapM_cons, ih]; rfl

/-- C39: `find_lcs(x, y)` returns a common subsequence of `x` and `y`, and no common subsequence is longer. -/
theorem C39_lcs (x y : List α) : ∃ r, findLcs x y = some r ∧ (r.Sublist x ∧ r.Sublist y) ∧
    ∀ s : List α, s.Sublist x → s.Sublist y → s.length ≤ r.length := by
  obtain ⟨r, e, h⟩ := findLcsAux_spec (x.length + 1) x y (by omega)
  refine ⟨r, ?_, h.1, fun s h1 h2 => h.2 s ⟨h1, h2⟩⟩
  unfold findLcs
  rw [e]
  exact mapM_some r

example : findLcs "abcabba".toList "cbabac".toList = some "cbba".toList := by decide
example : findLcs "abc".toList "abd".toList = some "ab".toList := by decide

end Verif.Eval
