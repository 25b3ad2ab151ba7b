import Verif.Eval.Lcs

/-!
# `eval.F1` (udapi/block/eval/f1.py)

Tokens are the strings `'_'.join(n.get_attrs(...))`; their computation is not modelled. The regular expression `focus`
is an arbitrary predicate on tokens.
-/

set_option linter.unusedSectionVars false

namespace Verif.Eval

variable {α : Type} [DecidableEq α]

/-- `while w != toks[i]: un.append(toks[i]); i += 1` (f1.py:131-133 and 134-136). The index `i` is represented by the
list `toks[i:]`. The result is what was appended and the new `toks[i:]`; `none` is the `IndexError`. -/
def skipTo (w : α) : List α → Option (List α × List α)
  | [] => none
  | t :: ts =>
    if w ≠ t then
      match skipTo w ts with
      | some (un, rest) => some (t :: un, rest)
      | none => none
    else some ([], t :: ts)

/-- `while c < len(nf_common) and nf_common[c] == pred_tokens[i] and nf_common[c] == gold_tokens[j]: ...`
(f1.py:139-140) on the lists from `c`, `i` and `j` on; `none` is the `IndexError`. -/
def advance : List α → List α → List α → Option (List α × List α × List α)
  | [], ps, gs => some ([], ps, gs)
  | _ :: _, [], _ => none
  | k :: ks, p :: ps, gs =>
    if k = p then
      match gs with
      | [] => none
      | g :: gs => if k = g then advance ks ps gs else some (k :: ks, p :: ps, g :: gs)
    else some (k :: ks, p :: ps, gs)

/-- The main loop with focus (f1.py:127-140) on the lists from `c`, `i` and `j` on; the last argument is `common`.
`none` is an `IndexError` or an endless loop (the first argument bounds the number of rounds). -/
def align : Nat → List α → List α → List α → List α → Option (List α)
  | 0, _, _, _, _ => none
  | fuel + 1, ks, ps, gs, common =>
    if ps = [] ∨ gs = [] then some common
    else
      match ks with
      | [] =>
        match findLcs ps gs with
        | some r => some (common ++ r)
        | none => none
      | k :: ks =>
        match skipTo k ps, skipTo k gs with
        | some (unPred, ps), some (unGold, gs) =>
          match findLcs unPred unGold, advance (k :: ks) ps gs with
          | some r, some (ks', ps', gs') => align fuel ks' ps' gs' (common ++ r)
          | _, _ => none
        | _, _ => none

/-- What `process_tree` counts for one pair of trees (f1.py:120-143): the tokens `common`, `pred_tokens` and
`gold_tokens`. -/
def compare (focus : Option (α → Bool)) (pred gold : List α) : Option (List α × List α × List α) :=
  match focus with
  | none =>
    match findLcs pred gold with
    | some c => some (c, pred, gold)
    | none => none
  | some f =>
    match findLcs (pred.filter (fun x => !f x)) (gold.filter (fun x => !f x)) with
    | some nf =>
      match align (nf.length + 1) nf pred gold [] with
      | some c => some (c.filter f, pred.filter f, gold.filter f)
      | none => none
    | none => none

/-- The counters `correct`, `pred`, `gold` and, per token, `_common`, `_pred`, `_gold` (f1.py:99-105). -/
structure Counts (α : Type) where
  correct : Nat := 0
  pred : Nat := 0
  gold : Nat := 0
  commonOf : α → Nat := fun _ => 0
  predOf : α → Nat := fun _ => 0
  goldOf : α → Nat := fun _ => 0

/-- `for x in l: counter[x] += 1` (f1.py:150-157). -/
def countAll (counter : α → Nat) : List α → α → Nat
  | [] => counter
  | x :: xs => countAll (fun y => if y = x then counter y + 1 else counter y) xs

/-- The end of `process_tree` (f1.py:145-157), with `details` on. -/
def Counts.add (s : Counts α) (r : List α × List α × List α) : Counts α where
  correct := s.correct + r.1.length
  pred := s.pred + r.2.1.length
  gold := s.gold + r.2.2.length
  commonOf := countAll s.commonOf r.1
  predOf := countAll s.predOf r.2.1
  goldOf := countAll s.goldOf r.2.2

/-- `process_tree` for each pair of a predicted and a gold tree (f1.py:107-157). -/
def evalAll (focus : Option (α → Bool)) : Counts α → List (List α × List α) → Option (Counts α)
  | s, [] => some s
  | s, (p, g) :: rest =>
    match compare focus p g with
    | some r => evalAll focus (s.add r) rest
    | none => none

/-- `x or 1` -/
def orOne (n : Nat) : Nat := if n = 0 then 1 else n

/-- Precision, recall and F1 (f1.py:160-164, the same as 186-188 and 196-199). Simplified: rational numbers in place of
binary floating point numbers. -/
def precision (correct pred : Nat) : Rat := (correct : Rat) / (orOne pred : Nat)
def f1 (correct pred gold : Nat) : Rat :=
  let p := precision correct pred
  let r := precision correct gold
  2 * p * r / (if p + r = 0 then 1 else p + r)

/-! ## Theorems -/

theorem skipTo_spec {k : α} {ks : List α} : ∀ {ps : List α}, (k :: ks).Sublist ps →
    ∃ un rest, skipTo k ps = some (un, k :: rest) ∧ ps = un ++ k :: rest ∧ ks.Sublist rest := by
  intro ps
  induction ps with
  | nil => intro h; cases h
  | cons t ts ih =>
    intro h
    unfold skipTo
    by_cases hk : k = t
    · subst hk
      refine ⟨[], ts, by simp, rfl, ?_⟩
      exact List.cons_sublist_cons.1 h
    · rw [if_pos hk]
      have h' : (k :: ks).Sublist ts := by
        cases h with
        | cons _ h => exact h
        | cons_cons _ h => exact absurd rfl hk
      obtain ⟨un, rest, e, e1, e2⟩ := ih h'
      rw [e]
      exact ⟨t :: un, rest, rfl, by rw [e1]; rfl, e2⟩

theorem advance_spec : ∀ {ks ps gs : List α}, ks.Sublist ps → ks.Sublist gs →
    ∃ m ks' ps' gs', advance ks ps gs = some (ks', ps', gs') ∧ ks = m ++ ks' ∧ ps = m ++ ps' ∧ gs = m ++ gs' ∧
      ks'.Sublist ps' ∧ ks'.Sublist gs' ∧ (∀ k p g, ks.head? = some k → ps.head? = some p → gs.head? = some g →
        k = p → k = g → m ≠ []) := by
  intro ks
  induction ks with
  | nil => intro ps gs _ _; exact ⟨[], [], ps, gs, rfl, rfl, rfl, rfl, List.nil_sublist _, List.nil_sublist _, by simp⟩
  | cons k ks ih =>
    intro ps gs hp hg
    cases ps with
    | nil => cases hp
    | cons p ps =>
      cases gs with
      | nil => cases hg
      | cons g gs =>
        unfold advance
        by_cases h1 : k = p
        · by_cases h2 : k = g
          · subst h1 h2
            rw [if_pos rfl]
            simp only [if_true]
            obtain ⟨m, ks', ps', gs', e, e1, e2, e3, e4, e5, _⟩ :=
              ih (List.cons_sublist_cons.1 hp) (List.cons_sublist_cons.1 hg)
            exact ⟨k :: m, ks', ps', gs', e, by rw [e1]; rfl, by rw [e2]; rfl, by rw [e3]; rfl, e4, e5, by simp⟩
          · rw [if_pos h1]
            simp only [if_neg h2]
            refine ⟨[], _, _, _, rfl, rfl, rfl, rfl, hp, hg, ?_⟩
            intro k' p' g' a b c _ hc
            simp at a b c
            subst a c
            exact absurd hc h2
        · rw [if_neg h1]
          refine ⟨[], _, _, _, rfl, rfl, rfl, rfl, hp, hg, ?_⟩
          intro k' p' g' a b c hc
          simp at a b c
          subst a b
          exact absurd hc h1

/-- The loop finds a common subsequence `s` that contains all of `ks`, and adds to `common` a list with the same focused
tokens as `s`. -/
theorem align_spec (f : α → Bool) : ∀ (fuel : Nat) (ks ps gs common : List α), ks.length < fuel → ks.Sublist ps →
    ks.Sublist gs → (∀ k ∈ ks, f k = false) →
    ∃ s q, align fuel ks ps gs common = some (common ++ q) ∧ s.Sublist ps ∧ s.Sublist gs ∧ ks.Sublist s ∧
      q.filter f = s.filter f := by
  intro fuel
  induction fuel with
  | zero => intro ks _ _ _ h; omega
  | succ fuel ih =>
    intro ks ps gs common hf hp hg hk
    unfold align
    by_cases h0 : ps = [] ∨ gs = []
    · rw [if_pos h0]
      have : ks = [] := by
        rcases h0 with h | h
        · rw [h] at hp; exact List.sublist_nil.1 hp
        · rw [h] at hg; exact List.sublist_nil.1 hg
      exact ⟨[], [], by simp, List.nil_sublist _, List.nil_sublist _, by rw [this]; exact List.nil_sublist _, rfl⟩
    · rw [if_neg h0]
      cases ks with
      | nil =>
        obtain ⟨r, e, ⟨e1, e2⟩, _⟩ := C39_lcs ps gs
        simp only [e]
        exact ⟨r, r, rfl, e1, e2, List.nil_sublist _, rfl⟩
      | cons k ks =>
        obtain ⟨un, rest, e, e1, e2⟩ := skipTo_spec hp
        obtain ⟨un', rest', e', e1', e2'⟩ := skipTo_spec hg
        obtain ⟨r, er, ⟨r1, r2⟩, _⟩ := C39_lcs un un'
        obtain ⟨m, ks', ps', gs', a, a1, a2, a3, a4, a5, a6⟩ :=
          advance_spec (e2.cons_cons k) (e2'.cons_cons k)
        simp only [e, e', er, a]
        have hm : m ≠ [] := a6 k k k rfl rfl rfl rfl rfl
        have hml : 0 < m.length := by cases m with | nil => exact absurd rfl hm | cons _ _ => simp
        have hlen : ks'.length < fuel := by
          have := congrArg List.length a1
          simp at this hf
          omega
        obtain ⟨s, q, b, b1, b2, b3, b4⟩ := ih ks' ps' gs' (common ++ r) hlen a4 a5
          (fun x hx => hk x (by rw [a1]; simp [hx]))
        refine ⟨r ++ (m ++ s), r ++ q, by rw [b, List.append_assoc], ?_, ?_, ?_, ?_⟩
        · rw [e1, a2]; exact r1.append ((List.Sublist.refl m).append b1)
        · rw [e1', a3]; exact r2.append ((List.Sublist.refl m).append b2)
        · rw [a1]; exact ((List.Sublist.refl m).append b3).trans (List.sublist_append_right _ _)
        · have : m.filter f = [] := by
            rw [List.filter_eq_nil_iff]
            intro x hx
            rw [hk x (by rw [a1]; simp [hx])]
            simp
          rw [List.filter_append, List.filter_append, List.filter_append, this, b4]
          simp

/-- C40 (one pair of sentences): the comparison always succeeds (no index runs off the end of a list). The tokens
counted are those in focus. The correct ones are the tokens in focus of one common subsequence of the two sentences, and
no common subsequence has more tokens out of focus; without a focus no common subsequence is longer. -/
theorem C40_compare (focus : Option (α → Bool)) (pred gold : List α) :
    ∃ c s : List α, compare focus pred gold = some (c, pred.filter (focus.getD fun _ => true), gold.filter (focus.getD fun _ => true)) ∧
      s.Sublist pred ∧ s.Sublist gold ∧ c = s.filter (focus.getD fun _ => true) ∧
      (∀ u : List α, u.Sublist pred → u.Sublist gold → match focus with
        | none => u.length ≤ s.length
        | some f => (u.filter (fun x => !f x)).length ≤ (s.filter (fun x => !f x)).length) := by
  cases focus with
  | none =>
    obtain ⟨r, e, ⟨e1, e2⟩, e3⟩ := C39_lcs pred gold
    have all : ∀ l : List α, l.filter (fun _ => true) = l := fun l => List.filter_eq_self.2 (by simp)
    refine ⟨r, r, ?_, e1, e2, (all r).symm, fun u h1 h2 => e3 u h1 h2⟩
    unfold compare
    simp [e, all]
  | some f =>
    obtain ⟨nf, e, ⟨e1, e2⟩, e3⟩ := C39_lcs (pred.filter (fun x => !f x)) (gold.filter (fun x => !f x))
    obtain ⟨s, q, a, a1, a2, a3, a4⟩ := align_spec f (nf.length + 1) nf pred gold [] (by omega)
      (e1.trans List.filter_sublist) (e2.trans List.filter_sublist) (by
        intro k hk
        have := (List.mem_filter.1 (e1.subset hk)).2
        simpa using this)
    refine ⟨q.filter f, s, ?_, a1, a2, a4, ?_⟩
    · unfold compare
      simp only [e, a]
      simp
    · intro u h1 h2
      have h3 : (u.filter (fun x => !f x)).length ≤ nf.length := e3 _ (h1.filter _) (h2.filter _)
      have h4 : nf.length ≤ (s.filter (fun x => !f x)).length := by
        have := (a3.filter (fun x => !f x)).length_le
        have hnf : nf.filter (fun x => !f x) = nf := by
          rw [List.filter_eq_self]
          intro k hk
          exact (List.mem_filter.1 (e1.subset hk)).2
        rw [hnf] at this
        exact this
      exact Nat.le_trans h3 h4

theorem countAll_eq (c : α → Nat) (l : List α) (x : α) : countAll c l x = c x + l.count x := by
  induction l generalizing c with
  | nil => simp [countAll]
  | cons y ys ih =>
    unfold countAll
    rw [ih, List.count_cons]
    by_cases h : x = y
    · subst h; simp; omega
    · have h' : (y == x) = false := by simp; exact fun e => h e.symm
      simp [h, h']

/-- The counters never contradict each other. -/
def Counts.Ok (s : Counts α) : Prop :=
  s.correct ≤ s.pred ∧ s.correct ≤ s.gold ∧ ∀ x, s.commonOf x ≤ s.predOf x ∧ s.commonOf x ≤ s.goldOf x

/-- C40: for every sequence of sentence pairs and every focus the evaluation succeeds; the predicted and gold numbers are
those of the tokens in focus; the number of correct tokens is at most the number of predicted and of gold tokens, in
total and for each token separately. -/
theorem C40_counts (focus : Option (α → Bool)) (pairs : List (List α × List α)) :
    ∃ s, evalAll focus {} pairs = some s ∧ s.Ok ∧
      s.pred = (pairs.map (fun p => (p.1.filter (focus.getD fun _ => true)).length)).sum ∧
      s.gold = (pairs.map (fun p => (p.2.filter (focus.getD fun _ => true)).length)).sum := by
  have key : ∀ (pairs : List (List α × List α)) (s : Counts α), s.Ok →
      ∃ s', evalAll focus s pairs = some s' ∧ s'.Ok ∧
        s'.pred = s.pred + (pairs.map (fun p => (p.1.filter (focus.getD fun _ => true)).length)).sum ∧
        s'.gold = s.gold + (pairs.map (fun p => (p.2.filter (focus.getD fun _ => true)).length)).sum := by
    intro pairs
    induction pairs with
    | nil => intro s h; exact ⟨s, rfl, h, by simp, by simp⟩
    | cons p rest ih =>
      intro s h
      obtain ⟨c, u, e, h1, h2, h3, _⟩ := C40_compare focus p.1 p.2
      have k1 : c.Sublist (p.1.filter (focus.getD fun _ => true)) := h3 ▸ h1.filter _
      have k2 : c.Sublist (p.2.filter (focus.getD fun _ => true)) := h3 ▸ h2.filter _
      obtain ⟨s', a, a1, a2, a3⟩ := ih (s.add (c, p.1.filter (focus.getD fun _ => true), p.2.filter (focus.getD fun _ => true)))
        (by
          refine ⟨Nat.add_le_add h.1 k1.length_le, Nat.add_le_add h.2.1 k2.length_le, ?_⟩
          intro x
          have g1 := k1.count_le x
          have g2 := k2.count_le x
          have g3 := h.2.2 x
          simp only [Counts.add, countAll_eq]
          omega)
      refine ⟨s', by unfold evalAll; rw [e]; exact a, a1, ?_, ?_⟩
      · rw [a2]; simp [Counts.add]; omega
      · rw [a3]; simp [Counts.add]; omega
  obtain ⟨s, a, a1, a2, a3⟩ := key pairs {} ⟨Nat.le_refl _, Nat.le_refl _, fun _ => ⟨Nat.le_refl _, Nat.le_refl _⟩⟩
  exact ⟨s, a, a1, by simpa using a2, by simpa using a3⟩

theorem le_div_iff {a b c : Rat} (hc : 0 < c) : a ≤ b / c ↔ a * c ≤ b := by
  rw [← Rat.not_lt, ← Rat.not_lt, Rat.div_lt_iff hc]

theorem div_le_iff {a b c : Rat} (hb : 0 < b) : a / b ≤ c ↔ a ≤ c * b := by
  rw [← Rat.not_lt, ← Rat.not_lt, Rat.lt_div_iff hb]

theorem precision_bounds {c p : Nat} (h : c ≤ p) : 0 ≤ precision c p ∧ precision c p ≤ 1 := by
  unfold precision
  have h1 : (0 : Rat) < (orOne p : Nat) := by
    have : 0 < orOne p := by unfold orOne; split <;> omega
    exact_mod_cast this
  have h2 : (c : Rat) ≤ (orOne p : Nat) := by
    have : c ≤ orOne p := by unfold orOne; split <;> omega
    exact_mod_cast this
  have h3 : (0 : Rat) ≤ (c : Nat) := by exact_mod_cast Nat.zero_le c
  constructor
  · rw [le_div_iff h1]; simpa using h3
  · rw [div_le_iff h1]; simpa using h2

/-- C40: precision, recall and F1 lie between 0 and 1. -/
theorem C40_scores {c p g : Nat} (hp : c ≤ p) (hg : c ≤ g) :
    (0 ≤ precision c p ∧ precision c p ≤ 1) ∧ (0 ≤ precision c g ∧ precision c g ≤ 1) ∧
    (0 ≤ f1 c p g ∧ f1 c p g ≤ 1) := by
  refine ⟨precision_bounds hp, precision_bounds hg, ?_⟩
  obtain ⟨a1, a2⟩ := precision_bounds hp
  obtain ⟨b1, b2⟩ := precision_bounds hg
  unfold f1
  simp only
  generalize precision c p = x at *
  generalize precision c g = y at *
  have m1 : 0 ≤ x * y := Rat.mul_nonneg a1 b1
  by_cases h : x + y = 0
  · rw [if_pos h]
    have : x = 0 := by grind
    subst this
    grind
  · rw [if_neg h]
    have hpos : 0 < x + y := by grind
    constructor
    · rw [le_div_iff hpos]; grind
    · rw [div_le_iff hpos]
      have m2 : x * y ≤ x := by
        have := Rat.mul_le_mul_of_nonneg_left b2 a1
        simpa using this
      have m3 : x * y ≤ y := by
        have := Rat.mul_le_mul_of_nonneg_right a2 b1
        simpa using this
      grind

/-- The documented example (f1.py:118-119): `focus=","`, "a,c" against "ac,". The comma is not aligned. -/
example : compare (some (· == ',')) "a,c".toList "ac,".toList = some ([], [','], [',']) := by decide
example : compare none "a,c".toList "ac,".toList = some (['a', 'c'], "a,c".toList, "ac,".toList) := by decide
example : (3 : Nat) ≤ 4 ∧ precision 3 4 ≤ 1 ∧ f1 3 4 6 = 3 / 5 := by decide +kernel

end Verif.Eval
