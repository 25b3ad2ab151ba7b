import Verif.Text.SpaceAfter

/-!
# Property C129: ud.SetSpaceAfter (udapi/block/ud/setspaceafter.py)

A tree is that of `Verif.Text.Compute`, with the positions of the words whose deprel is `goeswith`. The lists `not_after` and
`not_before` belong to the block and are changed by every tree (lines 34, 39-42), so they are a part of the state. Simplified: the
calls of `mark_no_space` of one tree are made after the loop, they do not change any form. `none` is an `IndexError`.
-/

namespace Verif.Text.SetSpace
open Verif.Py

/-- `'"'` -/
def quote : Str := ['"']
/-- `'„'` -/
def low : Str := ['„']
/-- `'“'` -/
def high : Str := ['“']

/-- `self.not_after` and `self.not_before` -/
structure St where
  after : List Str
  before : List Str
  deriving DecidableEq

/-- A tree and whether the deprel of the word at a position is `goeswith`. -/
structure Snt where
  tree : Tree
  gw : Nat → Bool

/-- `mark_no_space(nodes[i])` for a word that is not the last one (setspaceafter.py:64-74). -/
def mark (gw : Nat → Bool) (t : Tree) (i : Nat) : Tree :=
  if gw (i + 1) then t
  else
    match t.words[i]?.bind (·.mwt) with
    | some j => if (t.mwts[j]?.map (·.last)) = some (i + 1) then t.setNo (.mwt j) true else t
    | none => t.setNo (.word i) true

/-- The positions for which the loop calls `mark_no_space` (setspaceafter.py:44-56); `eq` is `matching_quotes`, `odd` is
`odd_indexed_quote`. -/
def calls (st : St) (eq : Bool) : Nat → Bool → List Str → List Nat
  | i, odd, f :: g :: r =>
    (if f ∈ st.after ∨ g ∈ st.before then [i] else []) ++
    (if f = quote then
      (if eq then (if odd then [i] else if i ≠ 0 then [i - 1] else []) else if i = 0 then [i] else [])
      else []) ++
    calls st eq (i + 1) (if f = quote ∧ eq then !odd else odd) (g :: r)
  | _, _, _ => []

/-- The last check (setspaceafter.py:58-59): `nodes[-1]` and `nodes[-2]`. -/
def lastCalls (fs : List Str) : Option (List Nat) :=
  match fs.getLast? with
  | none => none
  | some f => if f = quote then (if fs.length < 2 then none else some [fs.length - 2]) else some []

/-- The lists for this tree (setspaceafter.py:34, 39-42): `not_before += …` changes the list of the block itself. -/
def enter (st : St) (fs : List Str) : St :=
  if low ∈ fs then { st with before := st.before ++ [high] } else { st with after := st.after ++ [high] }

/-- `process_tree(root)` (setspaceafter.py:24-62) -/
def process (st : St) (s : Snt) : Option (St × Tree) :=
  let fs := s.tree.words.map (·.form)
  let st := enter st fs
  match lastCalls fs with
  | none => none
  | some l => some (st, (calls st (fs.count quote % 2 == 0) 0 true fs ++ l).foldl (mark s.gw) s.tree)

/-- The trees of a document, one after another. -/
def run : St → List Snt → Option (List Tree)
  | _, [] => some []
  | st, s :: ss =>
    match process st s with
    | none => none
    | some (st, t) => (run st ss).map (t :: ·)

/-! ## What it should do -/

/-- The quotes before position `i`. -/
def quotesBefore (fs : List Str) (i : Nat) : Nat := (fs.take i).count quote

/-- An opening quote: in a sentence with an even number of quotes each second one, beginning with the first; in other sentences only
the first word of the sentence. -/
def Opening (fs : List Str) (i : Nat) : Prop :=
  fs[i]? = some quote ∧ if fs.count quote % 2 = 0 then quotesBefore fs i % 2 = 0 else i = 0

/-- A closing quote: in a sentence with an even number of quotes the other ones; the last word of the sentence in any case. -/
def Closing (fs : List Str) (i : Nat) : Prop :=
  fs[i]? = some quote ∧ ((fs.count quote % 2 = 0 ∧ quotesBefore fs i % 2 = 1) ∨ i + 1 = fs.length)

/-- No space is to follow the word at position `i`, if the words of `A` have no space after them and those of `B` no space before. -/
def Glued (A B : List Str) (fs : List Str) (i : Nat) : Prop :=
  ∃ f g, fs[i]? = some f ∧ fs[i + 1]? = some g ∧ (f ∈ A ∨ g ∈ B ∨ Opening fs i ∨ Closing fs (i + 1))

/-! ## Proofs -/

theorem mem_calls {st : St} {eq : Bool} {j : Nat} : ∀ {l : List Str} {i : Nat} {odd : Bool}, j ∈ calls st eq i odd l ↔
    ∃ k f g, l[k]? = some f ∧ l[k + 1]? = some g ∧
      ((j = i + k ∧ (f ∈ st.after ∨ g ∈ st.before)) ∨
       (f = quote ∧ eq = true ∧ ((quotesBefore l k % 2 == 0) == odd) = true ∧ j = i + k) ∨
       (f = quote ∧ eq = true ∧ ((quotesBefore l k % 2 == 0) == odd) = false ∧ i + k ≠ 0 ∧ j = i + k - 1) ∨
       (f = quote ∧ eq = false ∧ i + k = 0 ∧ j = 0))
  | [], i, odd => by
    unfold calls
    simp
  | [f], i, odd => by
    unfold calls
    simp
  | f :: g :: r, i, odd => by
    unfold calls
    rw [List.mem_append, mem_calls]
    constructor
    · rintro (h | ⟨k, f', g', h1, h2, h⟩)
      · refine ⟨0, f, g, rfl, rfl, ?_⟩
        rw [List.mem_append] at h
        rcases h with h | h
        · split at h
          · rename_i hc
            exact .inl ⟨by simpa using h, hc⟩
          · cases h
        · split at h
          · rename_i hq
            cases eq with
            | false =>
              simp only [Bool.false_eq_true, if_false] at h
              split at h
              · rename_i hi
                exact .inr (.inr (.inr ⟨hq, rfl, by omega, by simpa [hi] using h⟩))
              · cases h
            | true =>
              simp only [if_true] at h
              cases odd with
              | true => exact .inr (.inl ⟨hq, rfl, by simp [quotesBefore], by simpa using h⟩)
              | false =>
                simp only [Bool.false_eq_true, if_false] at h
                split at h
                · rename_i hi
                  exact .inr (.inr (.inl ⟨hq, rfl, by simp [quotesBefore], by omega, by simpa using h⟩))
                · cases h
          · cases h
      · refine ⟨k + 1, f', g', h1, h2, ?_⟩
        have hqb : quotesBefore (f :: g :: r) (k + 1) = quotesBefore (g :: r) k + if f = quote then 1 else 0 := by
          unfold quotesBefore
          rw [List.take_succ_cons, List.count_cons]
          simp
        rw [hqb]
        rcases h with h | h | h | h
        · exact .inl ⟨by omega, h.2⟩
        · refine .inr (.inl ⟨h.1, h.2.1, ?_, by omega⟩)
          rw [← h.2.2.1, h.2.1]
          generalize quotesBefore (g :: r) k = n
          by_cases hf : f = quote
          · simp only [hf, if_true, and_self]
            cases odd <;> rcases Nat.mod_two_eq_zero_or_one n with e | e <;> simp [e, Nat.add_mod]
          · simp only [hf, if_false, false_and, Nat.add_zero]
        · refine .inr (.inr (.inl ⟨h.1, h.2.1, ?_, by omega, by omega⟩))
          rw [← h.2.2.1, h.2.1]
          generalize quotesBefore (g :: r) k = n
          by_cases hf : f = quote
          · simp only [hf, if_true, and_self]
            cases odd <;> rcases Nat.mod_two_eq_zero_or_one n with e | e <;> simp [e, Nat.add_mod]
          · simp only [hf, if_false, false_and, Nat.add_zero]
        · omega
    · rintro ⟨k, f', g', h1, h2, h⟩
      cases k with
      | zero =>
        cases h1
        cases h2
        refine .inl ?_
        rw [List.mem_append]
        rcases h with h | h | h | h
        · refine .inl ?_
          rw [if_pos h.2]; simpa using h.1
        · refine .inr ?_
          have ho : odd = true := by simpa [quotesBefore] using h.2.2.1
          rw [if_pos h.1, if_pos h.2.1, if_pos ho]; simpa using h.2.2.2
        · refine .inr ?_
          have ho : odd = false := by simpa [quotesBefore] using h.2.2.1
          rw [if_pos h.1, if_pos h.2.1, ho]
          simp only [Bool.false_eq_true, if_false]
          rw [if_pos (by omega)]; simpa using h.2.2.2.2
        · refine .inr ?_
          rw [if_pos h.1, if_neg (by rw [h.2.1]; decide), if_pos (by omega)]
          simp; omega
      | succ k =>
        refine .inr ⟨k, f', g', h1, h2, ?_⟩
        have hqb : quotesBefore (f :: g :: r) (k + 1) = quotesBefore (g :: r) k + if f = quote then 1 else 0 := by
          unfold quotesBefore
          rw [List.take_succ_cons, List.count_cons]
          simp
        rw [hqb] at h
        rcases h with h | h | h | h
        · exact .inl ⟨by omega, h.2⟩
        · refine .inr (.inl ⟨h.1, h.2.1, ?_, by omega⟩)
          have := h.2.2.1
          rw [h.2.1]
          revert this
          generalize quotesBefore (g :: r) k = n
          by_cases hf : f = quote
          · simp only [hf, if_true, and_self]
            cases odd <;> rcases Nat.mod_two_eq_zero_or_one n with e | e <;> simp [e, Nat.add_mod]
          · simp only [hf, if_false, false_and, Nat.add_zero]; exact id
        · refine .inr (.inr (.inl ⟨h.1, h.2.1, ?_, by omega, by omega⟩))
          have := h.2.2.1
          rw [h.2.1]
          revert this
          generalize quotesBefore (g :: r) k = n
          by_cases hf : f = quote
          · simp only [hf, if_true, and_self]
            cases odd <;> rcases Nat.mod_two_eq_zero_or_one n with e | e <;> simp [e, Nat.add_mod]
          · simp only [hf, if_false, false_and, Nat.add_zero]; exact id
        · omega

/-- The positions for which `mark_no_space` is called. -/
theorem mem_all {st : St} {fs : List Str} {l : List Nat} (hl : lastCalls fs = some l) (j : Nat) :
    j ∈ calls st (fs.count quote % 2 == 0) 0 true fs ++ l ↔ Glued st.after st.before fs j := by
  have hlast : ∀ {j}, j ∈ l ↔ fs[j + 1]? = some quote ∧ j + 2 = fs.length := by
    intro j
    unfold lastCalls at hl
    cases hg : fs.getLast? with
    | none => rw [hg] at hl; cases hl
    | some f =>
      rw [hg] at hl
      rw [List.getLast?_eq_getElem?] at hg
      simp only at hl
      split at hl
      · rename_i hf
        split at hl
        · cases hl
        · rename_i hlen
          cases hl
          rw [hf] at hg
          constructor
          · intro hj
            have := List.mem_singleton.1 hj
            refine ⟨?_, by omega⟩
            rw [← hg]; congr 1; omega
          · intro hj
            exact List.mem_singleton.2 (by omega)
      · rename_i hf
        cases hl
        refine ⟨fun h => (by cases h), fun h => ?_⟩
        have : fs[fs.length - 1]? = fs[j + 1]? := by congr 1; omega
        rw [this, h.1] at hg
        exact absurd (Option.some.inj hg).symm hf
  rw [List.mem_append, mem_calls, hlast]
  have get2 : ∀ {k g}, fs[k + 1]? = some g → ∃ f, fs[k]? = some f := by
    intro k g h
    have := (List.getElem?_eq_some_iff.1 h).1
    exact ⟨_, List.getElem?_eq_getElem (by omega)⟩
  constructor
  · rintro (⟨k, f, g, h1, h2, h⟩ | ⟨h1, h2⟩)
    · rcases h with h | ⟨hq, heq, hp, hj⟩ | ⟨hq, heq, hp, hk, hj⟩ | ⟨hq, heq, hk, hj⟩
      · have : j = k := by omega
        subst this
        exact ⟨f, g, h1, h2, h.2.elim .inl (fun h => .inr (.inl h))⟩
      · have : j = k := by omega
        subst this
        refine ⟨f, g, h1, h2, .inr (.inr (.inl ⟨by rw [h1, hq], ?_⟩))⟩
        rw [if_pos (by simpa using heq)]
        simpa using hp
      · obtain ⟨k, rfl⟩ : ∃ k', k = k' + 1 := ⟨k - 1, by omega⟩
        have : j = k := by omega
        subst this
        obtain ⟨f0, h0⟩ := get2 h1
        refine ⟨f0, f, h0, h1, .inr (.inr (.inr ⟨by rw [h1, hq], .inl ⟨by simpa using heq, ?_⟩⟩))⟩
        have : ¬ quotesBefore fs (j + 1) % 2 = 0 := by simpa using hp
        omega
      · have : j = k := by omega
        subst this
        refine ⟨f, g, h1, h2, .inr (.inr (.inl ⟨by rw [h1, hq], ?_⟩))⟩
        rw [if_neg (by simpa using heq)]
        omega
    · obtain ⟨f0, h0⟩ := get2 h1
      exact ⟨f0, quote, h0, h1, .inr (.inr (.inr ⟨h1, .inr h2⟩))⟩
  · rintro ⟨f, g, h1, h2, h⟩
    rcases h with h | h | ⟨hq, h⟩ | ⟨hq, h⟩
    · exact .inl ⟨j, f, g, h1, h2, .inl ⟨by omega, .inl h⟩⟩
    · exact .inl ⟨j, f, g, h1, h2, .inl ⟨by omega, .inr h⟩⟩
    · have hf : f = quote := by rw [h1] at hq; exact Option.some.inj hq
      refine .inl ⟨j, f, g, h1, h2, ?_⟩
      by_cases he : fs.count quote % 2 = 0
      · rw [if_pos he] at h
        exact .inr (.inl ⟨hf, by simpa using he, by simpa using h, by omega⟩)
      · rw [if_neg he] at h
        exact .inr (.inr (.inr ⟨hf, by simpa using he, by omega, h⟩))
    · rcases h with ⟨he, h⟩ | h
      · have hg : g = quote := by rw [h2] at hq; exact Option.some.inj hq
        by_cases hl : j + 2 = fs.length
        · exact .inr ⟨hq, hl⟩
        · have hlen := (List.getElem?_eq_some_iff.1 h2).1
          refine .inl ⟨j + 1, g, fs[j + 2], h2, List.getElem?_eq_getElem (by omega), ?_⟩
          exact .inr (.inr (.inl ⟨hg, by simpa using he, by simp; omega, by omega, by omega⟩))
      · exact .inr ⟨hq, h⟩

/-- The tree `t'` is the tree `t` with `SpaceAfter=No` added for the positions `P`: at the word, or at the multi-word token of which
it is the last word, unless the next word has the deprel `goeswith`. -/
structure Added (gw : Nat → Bool) (P : Nat → Prop) (t t' : Tree) : Prop where
  nwords : t'.words.length = t.words.length
  nmwts : t'.mwts.length = t.mwts.length
  words : ∀ (i : Nat) w, t.words[i]? = some w → ∃ w', t'.words[i]? = some w' ∧ w'.form = w.form ∧ w'.mwt = w.mwt ∧
    (w'.no = true ↔ w.no = true ∨ (w.mwt = none ∧ P i ∧ gw (i + 1) = false))
  mwts : ∀ (j : Nat) m, t.mwts[j]? = some m → ∃ m', t'.mwts[j]? = some m' ∧ m'.form = m.form ∧ m'.last = m.last ∧
    (m'.no = true ↔ m.no = true ∨ ∃ i w, t.words[i]? = some w ∧ w.mwt = some j ∧ m.last = i + 1 ∧ P i ∧ gw (i + 1) = false)

theorem added_none {gw : Nat → Bool} {P : Nat → Prop} {t : Tree}
    (h : ∀ (i : Nat) w, t.words[i]? = some w → P i → gw (i + 1) = false → ∃ j, w.mwt = some j ∧ ∀ m, t.mwts[j]? = some m → m.last ≠ i + 1) :
    Added gw P t t where
  nwords := rfl
  nmwts := rfl
  words := by
    intro i w hi
    refine ⟨w, hi, rfl, rfl, .inl, ?_⟩
    rintro (h1 | ⟨h1, h2, h3⟩)
    · exact h1
    · obtain ⟨j, hj, _⟩ := h i w hi h2 h3
      rw [h1] at hj; cases hj
  mwts := by
    intro j m hj
    refine ⟨m, hj, rfl, rfl, .inl, ?_⟩
    rintro (h1 | ⟨i, w, hi, hw, hl, hp, hg⟩)
    · exact h1
    · obtain ⟨j', hj', hl'⟩ := h i w hi hp hg
      rw [hw] at hj'
      cases hj'
      exact absurd hl (hl' m hj)

theorem mark_added (gw : Nat → Bool) (t : Tree) (x : Nat) : Added gw (· = x) t (mark gw t x) := by
  unfold mark
  by_cases hg : gw (x + 1) = true
  · rw [if_pos hg]
    refine added_none ?_
    rintro i w _ rfl h
    rw [hg] at h; cases h
  · rw [if_neg hg]
    have hg' : gw (x + 1) = false := by simpa using hg
    cases hw : t.words[x]?.bind (·.mwt) with
    | some j =>
      obtain ⟨w, hx, hwj⟩ := Option.bind_eq_some_iff.1 hw
      simp only
      by_cases hl : t.mwts[j]?.map (·.last) = some (x + 1)
      · rw [if_pos hl]
        obtain ⟨m, hm, hml⟩ := Option.map_eq_some_iff.1 hl
        refine ⟨rfl, by show (List.modify ..).length = _; rw [List.length_modify], ?_, ?_⟩
        · intro i w' hi
          refine ⟨w', hi, rfl, rfl, .inl, ?_⟩
          rintro (h1 | ⟨h1, h2, h3⟩)
          · exact h1
          · subst h2
            rw [hx] at hi
            cases hi
            rw [h1] at hwj; cases hwj
        · intro j' m' hj'
          show ∃ m'', (t.mwts.modify j _)[j']? = some m'' ∧ _
          rw [List.getElem?_modify]
          by_cases hjj : j = j'
          · subst hjj
            rw [hm] at hj'
            cases hj'
            refine ⟨{ m with no := true }, by simp [hm], rfl, rfl, fun _ => .inr ⟨x, w, hx, hwj, hml, rfl, hg'⟩, fun _ => rfl⟩
          · refine ⟨m', by simp [hjj, hj'], rfl, rfl, .inl, ?_⟩
            rintro (h1 | ⟨i, w', hi, hw', _, rfl, _⟩)
            · exact h1
            · rw [hx] at hi
              cases hi
              rw [hwj] at hw'
              exact absurd (Option.some.inj hw') hjj
      · rw [if_neg hl]
        refine added_none ?_
        rintro i w' hi rfl _
        rw [hx] at hi
        cases hi
        refine ⟨j, hwj, fun m hm he => hl ?_⟩
        rw [hm, ← he]; rfl
    | none =>
      refine ⟨by show (List.modify ..).length = _; rw [List.length_modify], rfl, ?_, ?_⟩
      · intro i w hi
        show ∃ w', (t.words.modify x _)[i]? = some w' ∧ _
        rw [List.getElem?_modify]
        by_cases hix : x = i
        · subst hix
          rw [hi] at hw
          refine ⟨{ w with no := true }, by simp [hi], rfl, rfl, fun _ => .inr ⟨hw, rfl, hg'⟩, fun _ => rfl⟩
        · refine ⟨w, by simp [hix, hi], rfl, rfl, .inl, ?_⟩
          rintro (h1 | ⟨_, h2, _⟩)
          · exact h1
          · exact absurd h2.symm hix
      · intro j m hj
        refine ⟨m, hj, rfl, rfl, .inl, ?_⟩
        rintro (h1 | ⟨i, w, hi, hwj, _, rfl, _⟩)
        · exact h1
        · rw [hi] at hw
          rw [show (some w).bind (·.mwt) = w.mwt from rfl, hwj] at hw
          cases hw

theorem Added.trans {gw : Nat → Bool} {P Q : Nat → Prop} {t t1 t2 : Tree} (h1 : Added gw P t t1) (h2 : Added gw Q t1 t2) :
    Added gw (fun i => P i ∨ Q i) t t2 where
  nwords := h2.nwords.trans h1.nwords
  nmwts := h2.nmwts.trans h1.nmwts
  words := by
    intro i w hi
    obtain ⟨w1, i1, f1, m1, n1⟩ := h1.words i w hi
    obtain ⟨w2, i2, f2, m2, n2⟩ := h2.words i w1 i1
    refine ⟨w2, i2, f2.trans f1, m2.trans m1, ?_⟩
    rw [n2, n1, m1]
    constructor
    · rintro ((h | ⟨a, b, c⟩) | ⟨a, b, c⟩)
      · exact .inl h
      · exact .inr ⟨a, .inl b, c⟩
      · exact .inr ⟨a, .inr b, c⟩
    · rintro (h | ⟨a, b | b, c⟩)
      · exact .inl (.inl h)
      · exact .inl (.inr ⟨a, b, c⟩)
      · exact .inr ⟨a, b, c⟩
  mwts := by
    intro j m hj
    obtain ⟨m1, j1, f1, l1, n1⟩ := h1.mwts j m hj
    obtain ⟨m2, j2, f2, l2, n2⟩ := h2.mwts j m1 j1
    refine ⟨m2, j2, f2.trans f1, l2.trans l1, ?_⟩
    rw [n2, n1, l1]
    constructor
    · rintro ((h | ⟨i, w, hi, a, b, c, d⟩) | ⟨i, w1, hi, a, b, c, d⟩)
      · exact .inl h
      · exact .inr ⟨i, w, hi, a, b, .inl c, d⟩
      · have hlt := (List.getElem?_eq_some_iff.1 hi).1
        rw [h1.nwords] at hlt
        obtain ⟨w1', i1, _, e1, _⟩ := h1.words i t.words[i] (List.getElem?_eq_getElem hlt)
        rw [hi] at i1
        cases i1
        exact .inr ⟨i, t.words[i], List.getElem?_eq_getElem hlt, e1 ▸ a, b, .inr c, d⟩
    · rintro (h | ⟨i, w, hi, a, b, c | c, d⟩)
      · exact .inl (.inl h)
      · exact .inl (.inr ⟨i, w, hi, a, b, c, d⟩)
      · obtain ⟨w1, i1, _, e1, _⟩ := h1.words i w hi
        exact .inr ⟨i, w1, i1, e1.trans a, b, c, d⟩

theorem Added.congr {gw : Nat → Bool} {P Q : Nat → Prop} {t t' : Tree} (h : Added gw P t t') (e : ∀ i, P i ↔ Q i) : Added gw Q t t' := by
  have : P = Q := funext fun i => propext (e i)
  rw [← this]; exact h

theorem foldl_added (gw : Nat → Bool) : ∀ (l : List Nat) (t : Tree), Added gw (· ∈ l) t (l.foldl (mark gw) t)
  | [], t => added_none (fun _ _ _ h => by cases h)
  | x :: l, t => by
    rw [List.foldl_cons]
    exact ((mark_added gw t x).trans (foldl_added gw l (mark gw t x))).congr (fun i => by rw [List.mem_cons])

/-- C129 (partial): for every tree, the block adds `SpaceAfter=No` exactly at the tokens after which no space should be: after the
words of `not_after` and opening quotes, and before those of `not_before` and closing quotes, unless the next word has the deprel
`goeswith`. Nothing else is changed. Missing: the lists are those of the block and are changed by the trees before
(`C129_history_violated`); the empty tree and the sentence that is one quote (`C129_short_violated`). -/
theorem C129_spaces_partial {st st' : St} {s : Snt} {t' : Tree} (h : process st s = some (st', t')) :
    Added s.gw (Glued st'.after st'.before (s.tree.words.map (·.form))) s.tree t' := by
  unfold process at h
  simp only at h
  cases hl : lastCalls (s.tree.words.map (·.form)) with
  | none => rw [hl] at h; cases h
  | some l =>
    rw [hl] at h
    cases h
    exact (foldl_added s.gw _ s.tree).congr (mem_all hl)

/-- The lists for one tree: `“` closes a quotation if there is a `„` in the sentence, and opens one otherwise. -/
theorem C129_lists {st st' : St} {s : Snt} {t' : Tree} (h : process st s = some (st', t')) :
    (low ∈ s.tree.words.map (·.form) → st'.after = st.after ∧ st'.before = st.before ++ [high]) ∧
    (low ∉ s.tree.words.map (·.form) → st'.after = st.after ++ [high] ∧ st'.before = st.before) := by
  unfold process at h
  simp only at h
  cases hl : lastCalls (s.tree.words.map (·.form)) with
  | none => rw [hl] at h; cases h
  | some l =>
    rw [hl] at h
    cases h
    unfold enter
    exact ⟨fun hh => by rw [if_pos hh]; exact ⟨rfl, rfl⟩, fun hh => by rw [if_neg hh]; exact ⟨rfl, rfl⟩⟩

/-- C129 is violated: an exception is raised for every tree without words, and for every sentence that is one quote. -/
theorem C129_short_violated (st : St) (s : Snt) (h : s.tree.words = [] ∨ s.tree.words.map (·.form) = [quote]) : process st s = none := by
  unfold process
  rcases h with h | h <;> simp [h, lastCalls]

theorem process_some {st : St} {s : Snt} (h : 2 ≤ s.tree.words.length) : ∃ r, process st s = some r := by
  unfold process
  have : ∃ l, lastCalls (s.tree.words.map (·.form)) = some l := by
    unfold lastCalls
    cases hg : (s.tree.words.map (·.form)).getLast? with
    | none =>
      rw [List.getLast?_eq_none_iff, List.map_eq_nil_iff] at hg
      rw [hg] at h; simp at h
    | some f =>
      simp only
      split
      · rw [if_neg (by rw [List.length_map]; omega)]; exact ⟨_, rfl⟩
      · exact ⟨_, rfl⟩
  obtain ⟨l, hl⟩ := this
  simp only [hl]
  exact ⟨_, rfl⟩

/-- C129 is violated for every block, every sentence with `„` and every other sentence with a word before `“`: if the second sentence
is processed alone, there is a space between this word and the opening quote `“`, but if it is processed after the first sentence,
the space is deleted. -/
theorem C129_history_violated {st : St} {s1 s2 : Snt} (h1 : low ∈ s1.tree.words.map (·.form)) (h1' : 2 ≤ s1.tree.words.length)
    (h2 : low ∉ s2.tree.words.map (·.form)) {i : Nat} {w v : Word} (hw : s2.tree.words[i]? = some w) (hv : s2.tree.words[i + 1]? = some v)
    (hm : w.mwt = none) (hn : w.no = false) (hvf : v.form = high) (hwa : w.form ∉ st.after) (hwh : w.form ≠ high) (hwq : w.form ≠ quote)
    (hb : high ∉ st.before) (hgw : s2.gw (i + 1) = false) :
    (∃ t, run st [s2] = some [t] ∧ ∃ w', t.words[i]? = some w' ∧ w'.no = false) ∧
    (∃ t1 t, run st [s1, s2] = some [t1, t] ∧ ∃ w', t.words[i]? = some w' ∧ w'.no = true) := by
  have hlen : 2 ≤ s2.tree.words.length := by
    have := (List.getElem?_eq_some_iff.1 hv).1
    omega
  have hf1 : (s2.tree.words.map (·.form))[i]? = some w.form := by rw [List.getElem?_map, hw]; rfl
  have hf2 : (s2.tree.words.map (·.form))[i + 1]? = some high := by rw [List.getElem?_map, hv, ← hvf]; rfl
  constructor
  · obtain ⟨⟨st', t⟩, hp⟩ := process_some (st := st) hlen
    refine ⟨t, by simp [run, hp], ?_⟩
    obtain ⟨w', hi, _, _, hno⟩ := (C129_spaces_partial hp).words i w hw
    refine ⟨w', hi, ?_⟩
    obtain ⟨e1, e2⟩ := (C129_lists hp).2 h2
    cases hh : w'.no with
    | false => rfl
    | true =>
      rcases hno.1 hh with h | ⟨_, ⟨f, g, k1, k2, k⟩, _⟩
      · rw [hn] at h; cases h
      · rw [hf1] at k1
        rw [hf2] at k2
        cases k1
        cases k2
        rw [e1, e2] at k
        rcases k with k | k | k | k
        · rcases List.mem_append.1 k with k | k
          · exact absurd k hwa
          · exact absurd (List.mem_singleton.1 k) hwh
        · exact absurd k hb
        · have := k.1
          rw [hf1] at this
          exact absurd (Option.some.inj this) hwq
        · have := k.1
          rw [hf2] at this
          exact absurd (Option.some.inj this) (by decide)
  · obtain ⟨⟨st1, t1⟩, hp1⟩ := process_some (st := st) h1'
    obtain ⟨⟨st2, t⟩, hp2⟩ := process_some (st := st1) hlen
    refine ⟨t1, t, by simp [run, hp1, hp2], ?_⟩
    obtain ⟨w', hi, _, _, hno⟩ := (C129_spaces_partial hp2).words i w hw
    refine ⟨w', hi, hno.2 (.inr ⟨hm, ⟨w.form, high, hf1, hf2, .inr (.inl ?_)⟩, hgw⟩)⟩
    rw [((C129_lists hp2).2 h2).2, ((C129_lists hp1).1 h1).2]
    simp

/-! ### Documents in which all sentences have the same kind of quotes -/

/-- The same words in both lists. -/
def St.Same (a b : St) : Prop := (∀ f, f ∈ a.after ↔ f ∈ b.after) ∧ ∀ f, f ∈ a.before ↔ f ∈ b.before

theorem calls_same {a b : St} (h : a.Same b) (eq : Bool) : ∀ (l : List Str) (i : Nat) (odd : Bool), calls a eq i odd l = calls b eq i odd l
  | [], _, _ => rfl
  | [_], _, _ => rfl
  | f :: g :: r, i, odd => by
    unfold calls
    rw [calls_same h eq (g :: r)]
    simp only [h.1, h.2]

theorem process_same {a b : St} {s : Snt} (h : (enter a (s.tree.words.map (·.form))).Same (enter b (s.tree.words.map (·.form)))) :
    (process a s).map (·.2) = (process b s).map (·.2) := by
  unfold process
  simp only
  rw [calls_same h]
  cases lastCalls (s.tree.words.map (·.form)) <;> rfl

theorem run_same {K : Snt → Prop} {st : St} (hK : ∀ s, K s → ∀ a b : St, (∀ s', K s' → (enter a (s'.tree.words.map (·.form))).Same (enter b (s'.tree.words.map (·.form)))) →
      ∀ s', K s' → (enter (enter a (s.tree.words.map (·.form))) (s'.tree.words.map (·.form))).Same (enter b (s'.tree.words.map (·.form)))) :
    ∀ (ss : List Snt) (a : St), (∀ s ∈ ss, K s) → (∀ s', K s' → (enter a (s'.tree.words.map (·.form))).Same (enter st (s'.tree.words.map (·.form)))) →
    run a ss = ss.mapM (fun s => (process st s).map (·.2))
  | [], _, _, _ => rfl
  | s :: ss, a, hs, ha => by
    rw [List.mapM_cons]
    conv => lhs; unfold run
    have e := process_same (ha s (hs s (List.mem_cons_self ..)))
    cases hp : process a s with
    | none =>
      rw [hp] at e
      rw [← e]
      rfl
    | some r =>
      obtain ⟨a', t⟩ := r
      rw [hp] at e
      rw [← e]
      have ha' : a' = enter a (s.tree.words.map (·.form)) := by
        unfold process at hp
        simp only at hp
        cases hl : lastCalls (s.tree.words.map (·.form)) with
        | none => rw [hl] at hp; cases hp
        | some l => rw [hl] at hp; cases hp; rfl
      have := run_same hK ss a' (fun x hx => hs x (List.mem_cons_of_mem _ hx))
        (by rw [ha']; exact hK s (hs s (List.mem_cons_self ..)) a st ha)
      simp only [this]
      cases List.mapM (fun s => (process st s).map (·.2)) ss <;> rfl

/-- C129 (partial): if all sentences of the document have a `„`, or none has, every sentence is processed as if it were alone. -/
theorem C129_alone_partial {st : St} {ss : List Snt}
    (h : (∀ s ∈ ss, low ∈ s.tree.words.map (·.form)) ∨ (∀ s ∈ ss, low ∉ s.tree.words.map (·.form))) :
    run st ss = ss.mapM (fun s => (process st s).map (·.2)) := by
  rcases h with h | h
  · refine run_same (K := fun s => low ∈ s.tree.words.map (·.form)) ?_ ss st h (fun _ _ => ⟨fun _ => Iff.rfl, fun _ => Iff.rfl⟩)
    intro s hs a b hab s' hs'
    have := hab s' hs'
    unfold enter at this ⊢
    rw [if_pos hs, if_pos hs', if_pos hs']
    rw [if_pos hs', if_pos hs'] at this
    refine ⟨this.1, fun f => ?_⟩
    rw [← this.2 f]
    simp only [List.mem_append, or_assoc, or_self]
  · refine run_same (K := fun s => low ∉ s.tree.words.map (·.form)) ?_ ss st h (fun _ _ => ⟨fun _ => Iff.rfl, fun _ => Iff.rfl⟩)
    intro s hs a b hab s' hs'
    have := hab s' hs'
    unfold enter at this ⊢
    rw [if_neg hs, if_neg hs', if_neg hs']
    rw [if_neg hs', if_neg hs'] at this
    refine ⟨fun f => ?_, this.2⟩
    rw [← this.1 f]
    simp only [List.mem_append, or_assoc, or_self]

/-! ## Examples -/

section Examples

/-- A sentence without multi-word tokens. -/
def exSnt (fs : List Str) : Snt := ⟨⟨fs.map (fun f => { form := f, no := false, mwt := none }), []⟩, fun _ => false⟩

def exSt : St := ⟨[['(']], [['.'], [')']]⟩

/-- `" a " .` and `“ a` -/
example : (run exSt [exSnt [quote, ['a'], quote, ['.']], exSnt [['b'], high, ['a']]]).map (fun ts => ts.map (fun t => t.words.map (·.no))) =
    some [[true, true, true, false], [false, true, false]] := by decide +kernel

/-- The same sentence after one with `„`: the space before `“` is deleted. -/
example : (run exSt [exSnt [low, ['x']], exSnt [['b'], high, ['a']]]).map (fun ts => ts.map (fun t => t.words.map (·.no))) =
    some [[false, false], [true, true, false]] := by decide +kernel

example : process exSt (exSnt [quote]) = none := by decide +kernel

end Examples

end Verif.Text.SetSpace
