import Verif.Py.Str

/-!
# Property C159: missing parentheses of mentions (udapi/block/corefud/fixparentheses.py)

One mention; all its words belong to one tree with the words 1 to `n`. `linked` are the nodes whose `coref_mentions` contain the mention.
-/

namespace Verif.Coref.Parens
open Verif.Py

/-- A node: a word with its `ord`, or an empty node, after which word it stands and its number there. -/
inductive Nd where
  | word (i : Nat)
  | empty (i j : Nat)
  deriving DecidableEq, Repr

/-- Word order: the empty nodes `i.1`, `i.2` and so on stand after the word `i`. -/
def Nd.key : Nd → Nat × Nat
  | .word i => (i, 0)
  | .empty i j => (i, j + 1)

def Nd.Lt (a b : Nd) : Prop := a.key.1 < b.key.1 ∨ (a.key.1 = b.key.1 ∧ a.key.2 < b.key.2)

/-- The state that the block can change. -/
structure St where
  words : List Nd
  linked : List Nd
  marked : List Nd
  deriving DecidableEq, Repr

/-- `pair in [node.lemma for node in mention.head.root.descendants]` -/
def inTree (n : Nat) (lem : Nd → Str) (s : Str) : Bool := ((List.range n).map (fun i => lem (.word (i + 1)))).contains s

/-- `mention.words.append(node)`, and `node.misc['Mark'] = 1`; the list that the property `words` returns is the list of the mention, and
nothing else is changed. -/
def append (mark : Bool) (x : Nd) (st : St) : St := { st with words := st.words ++ [x], marked := if mark then st.marked ++ [x] else st.marked }

/-- The body of the loop over the pairs (fixparentheses.py:16-31); `ws` are the lemmas at the beginning. -/
def fixPair (mark : Bool) (n : Nat) (lem : Nd → Str) (ws : List Str) (pair : Str × Str) (st : St) : St :=
  if pair.1 ∈ ws then
    if pair.2 ∉ ws ∧ inTree n lem pair.2 = true then
      match st.words.getLast? with
      | some (.word i) => if i < n ∧ lem (.word (i + 1)) = pair.2 then append mark (.word (i + 1)) st else st
      | _ => st
    else st
  else if pair.2 ∈ ws ∧ inTree n lem pair.1 = true then
    match st.words.head? with
    | some (.word i) => if i > 1 ∧ lem (.word (i - 1)) = pair.1 then append mark (.word (i - 1)) st else st
    | _ => st
  else st

/-- `pairs` (fixparentheses.py:14) -/
def pairs : List (Str × Str) := [(['('], [')']), (['['], [']']), (['{'], ['}'])]

/-- `process_coref_mention(mention)` (fixparentheses.py:12-31) -/
def fix (mark : Bool) (n : Nat) (lem : Nd → Str) (st : St) : St :=
  pairs.foldl (fun st' p => fixPair mark n lem (st.words.map lem) p st') st

/-! ## What the properties say -/

/-- The three kinds of parentheses -/
def kinds : List (Str × Str) := [(['('], [')']), (['['], [']']), (['{'], ['}'])]

/-- A closing parenthesis that is missing in the mention with the lemmas `ws` -/
def MissClose (ws : List Str) (s : Str) : Prop := ∃ p ∈ kinds, s = p.2 ∧ p.1 ∈ ws ∧ p.2 ∉ ws

/-- An opening parenthesis that is missing in the mention with the lemmas `ws` -/
def MissOpen (ws : List Str) (s : Str) : Prop := ∃ p ∈ kinds, s = p.1 ∧ p.2 ∈ ws ∧ p.1 ∉ ws

/-- The words are in word order. -/
def Sorted (ws : List Nd) : Prop := ws.Pairwise Nd.Lt

/-- Exactly the words of the mention have it among their mentions. -/
def Consistent (st : St) : Prop := ∀ x, x ∈ st.words ↔ x ∈ st.linked

/-- The words `b+1, …, b+k` -/
def after (b k : Nat) : List Nd := (List.range k).map (fun i => .word (b + 1 + i))

/-! ## Lemmas -/

theorem inTree_iff {n : Nat} {lem : Nd → Str} {s : Str} : inTree n lem s = true ↔ ∃ i, 1 ≤ i ∧ i ≤ n ∧ lem (.word i) = s := by
  simp only [inTree, List.contains_iff_mem, List.mem_map, List.mem_range]
  constructor
  · rintro ⟨i, h, e⟩; exact ⟨i + 1, by omega, by omega, e⟩
  · rintro ⟨i, h1, h2, e⟩; exact ⟨i - 1, by omega, by rw [Nat.sub_add_cancel h1]; exact e⟩

theorem after_succ (b k : Nat) : after b (k + 1) = after b k ++ [.word (b + 1 + k)] := by
  simp [after, List.range_succ]

/-- The words of the mention are the old ones, then closing parentheses that follow the last one, then perhaps an opening one before the first
one that belongs to one of the pairs in `done`. -/
def Shape (n : Nat) (lem : Nd → Str) (ws : List Str) (w0 : List Nd) (done : List (Str × Str)) (cl op : List Nd) : Prop :=
  (cl = [] ∨ ∃ b k, w0.getLast? = some (.word b) ∧ cl = after b k ∧ b + k ≤ n ∧ ∀ i < k, MissClose ws (lem (.word (b + 1 + i)))) ∧
  (op = [] ∨ ∃ a, w0.head? = some (.word a) ∧ 1 < a ∧ op = [.word (a - 1)] ∧ ∃ p ∈ done, lem (.word (a - 1)) = p.1 ∧ p.2 ∈ ws ∧ p.1 ∉ ws)

theorem head_append {w0 r : List Nd} (h : w0 ≠ []) : (w0 ++ r).head? = w0.head? := by
  cases w0 with
  | nil => exact absurd rfl h
  | cons a w => rfl

theorem fixPair_shape {mark : Bool} {n : Nat} {lem : Nd → Str} {w0 : List Nd} (hne : w0 ≠ []) {done : List (Str × Str)} {p : Str × Str}
    (hp : p ∈ pairs) (hd : ∀ q ∈ done, q.1 ≠ p.1) {st : St} {cl op : List Nd} (hw : st.words = w0 ++ cl ++ op) (hs : Shape n lem (w0.map lem) w0 done cl op) :
    ∃ cl' op', (fixPair mark n lem (w0.map lem) p st).words = w0 ++ cl' ++ op' ∧ Shape n lem (w0.map lem) w0 (p :: done) cl' op' ∧
      (∀ x ∈ op, x ∈ op') ∧ (∀ x ∈ cl, x ∈ cl') := by
  have mono : Shape n lem (w0.map lem) w0 (p :: done) cl op := by
    refine ⟨hs.1, ?_⟩
    rcases hs.2 with h | ⟨a, h1, h2, h3, q, hq, h4⟩
    · exact .inl h
    · exact .inr ⟨a, h1, h2, h3, q, List.mem_cons_of_mem _ hq, h4⟩
  have keep : ∃ cl' op', st.words = w0 ++ cl' ++ op' ∧ Shape n lem (w0.map lem) w0 (p :: done) cl' op' ∧ (∀ x ∈ op, x ∈ op') ∧ (∀ x ∈ cl, x ∈ cl') :=
    ⟨cl, op, hw, mono, fun _ h => h, fun _ h => h⟩
  unfold fixPair
  split
  · rename_i ho
    split
    · rename_i hc
      split
      · rename_i i hl
        split
        · rename_i hi
          rcases hs.2 with e | ⟨a, ha, h1, e, _⟩
          · subst e
            rw [List.append_nil] at hw
            rw [hw] at hl
            have hcl : ∃ b k, w0.getLast? = some (.word b) ∧ cl = after b k ∧ b + k = i ∧ ∀ j < k, MissClose (w0.map lem) (lem (.word (b + 1 + j))) := by
              rcases hs.1 with e | ⟨b, k, hb, e, hk, hm⟩
              · subst e
                rw [List.append_nil] at hl
                exact ⟨i, 0, hl, rfl, rfl, fun j hj => absurd hj (Nat.not_lt_zero j)⟩
              · refine ⟨b, k, hb, e, ?_, hm⟩
                cases k with
                | zero =>
                  rw [e, show after b 0 = [] from rfl, List.append_nil, hb] at hl
                  injection hl with hl; injection hl
                | succ k =>
                  rw [e, after_succ, ← List.append_assoc, List.getLast?_append, List.getLast?_singleton] at hl
                  simp only [Option.some_or, Option.some.injEq, Nd.word.injEq] at hl
                  omega
            obtain ⟨b, k, hb, e, hk, hm⟩ := hcl
            refine ⟨cl ++ [.word (i + 1)], [], by simp [append, hw], ⟨.inr ⟨b, k + 1, hb, ?_, by omega, ?_⟩, .inl rfl⟩, fun _ h => h,
              fun x hx => List.mem_append_left _ hx⟩
            · rw [after_succ, e, show b + 1 + k = i + 1 by omega]
            · intro j hj
              by_cases h : j < k
              · exact hm j h
              · rw [show b + 1 + j = i + 1 by omega]
                exact ⟨p, hp, hi.2, ho, hc.1⟩
          · exfalso
            rw [hw, e, List.getLast?_append, List.getLast?_singleton] at hl
            simp only [Option.some_or, Option.some.injEq, Nd.word.injEq] at hl
            apply hc.1
            rw [← hi.2, show i + 1 = a by omega]
            exact List.mem_map_of_mem (List.mem_of_mem_head? ha)
        · exact keep
      · exact keep
    · exact keep
  · rename_i ho
    split
    · rename_i hc
      split
      · rename_i i hl
        split
        · rename_i hi
          rw [hw, List.append_assoc, head_append hne] at hl
          rcases hs.2 with e | ⟨a, ha, h1, e, q, hq, hl', _⟩
          · subst e
            refine ⟨cl, [.word (i - 1)], by simp [append, hw], ⟨hs.1, .inr ⟨i, hl, hi.1, rfl, p, List.mem_cons_self, hi.2, hc.1, ho⟩⟩,
              fun x hx => (by cases hx), fun _ h => h⟩
          · exfalso
            rw [hl] at ha
            injection ha with ha; injection ha with ha
            subst ha
            exact hd q hq (hl'.symm.trans hi.2)
        · exact keep
      · exact keep
    · exact keep

theorem fold_shape {mark : Bool} {n : Nat} {lem : Nd → Str} {w0 : List Nd} (hne : w0 ≠ []) : ∀ (ps : List (Str × Str)) (done : List (Str × Str)) (st : St) (cl op : List Nd),
    (∀ p ∈ ps, p ∈ pairs) → (ps.map (·.1)).Nodup → (∀ q ∈ done, ∀ p ∈ ps, q.1 ≠ p.1) → st.words = w0 ++ cl ++ op → Shape n lem (w0.map lem) w0 done cl op →
    ∃ cl' op', (ps.foldl (fun st' p => fixPair mark n lem (w0.map lem) p st') st).words = w0 ++ cl' ++ op' ∧
      Shape n lem (w0.map lem) w0 (ps.reverse ++ done) cl' op' ∧ (∀ x ∈ op, x ∈ op') ∧ (∀ x ∈ cl, x ∈ cl') := by
  intro ps
  induction ps with
  | nil => intro done st cl op _ _ _ hw hs; exact ⟨cl, op, hw, hs, fun _ h => h, fun _ h => h⟩
  | cons p ps ih =>
    intro done st cl op hp hn hd hw hs
    obtain ⟨cl1, op1, h1, h2, h3, h4⟩ := fixPair_shape (mark := mark) hne (hp p List.mem_cons_self) (fun q hq => hd q hq p List.mem_cons_self) hw hs
    rw [List.map_cons, List.nodup_cons] at hn
    obtain ⟨cl2, op2, g1, g2, g3, g4⟩ := ih (p :: done) _ cl1 op1 (fun q hq => hp q (List.mem_cons_of_mem _ hq)) hn.2 (by
      intro q hq r hr
      rcases List.mem_cons.1 hq with rfl | hq
      · exact fun e => hn.1 (by rw [e]; exact List.mem_map_of_mem hr)
      · exact hd q hq r (List.mem_cons_of_mem _ hr)) h1 h2
    refine ⟨cl2, op2, g1, ?_, fun x hx => g3 x (h3 x hx), fun x hx => g4 x (h4 x hx)⟩
    rw [List.reverse_cons, List.append_assoc, List.singleton_append]
    exact g2

theorem pairs_nodup : (pairs.map (·.1)).Nodup := by decide

/-- The state before the pair `p` is handled and after. -/
theorem fix_at {mark : Bool} {n : Nat} {lem : Nd → Str} {st : St} (hne : st.words ≠ []) {p : Str × Str} (hp : p ∈ pairs) :
    ∃ st1 cl op, st1.words = st.words ++ cl ++ op ∧ Shape n lem (st.words.map lem) st.words (pairs.takeWhile (· ≠ p)).reverse cl op ∧
      ∀ x ∈ (fixPair mark n lem (st.words.map lem) p st1).words, x ∈ (fix mark n lem st).words := by
  obtain ⟨ps, qs, hsplit, hnot⟩ : ∃ ps qs, pairs = ps ++ p :: qs ∧ ps = pairs.takeWhile (· ≠ p) := by
    simp only [pairs, List.mem_cons, List.not_mem_nil, or_false] at hp
    rcases hp with rfl | rfl | rfl
    · exact ⟨[], [(['['], [']']), (['{'], ['}'])], rfl, by decide⟩
    · exact ⟨[(['('], [')'])], [(['{'], ['}'])], rfl, by decide⟩
    · exact ⟨[(['('], [')']), (['['], [']'])], [], rfl, by decide⟩
  have hnd := pairs_nodup
  rw [hsplit, List.map_append, List.map_cons, List.nodup_append] at hnd
  obtain ⟨n1, n2, n3⟩ := hnd
  rw [List.nodup_cons] at n2
  obtain ⟨cl, op, h1, h2, _⟩ := fold_shape (mark := mark) (n := n) (lem := lem) hne ps [] st [] [] (fun q hq => by rw [hsplit]; exact List.mem_append_left _ hq)
    n1 (fun q hq => by cases hq) (by simp) ⟨.inl rfl, .inl rfl⟩
  rw [List.append_nil] at h2
  refine ⟨_, cl, op, h1, by rw [← hnot]; exact h2, ?_⟩
  have hdone : ∀ q ∈ ps.reverse, q.1 ≠ p.1 := fun q hq => n3 q.1 (List.mem_map_of_mem (List.mem_reverse.1 hq)) p.1 List.mem_cons_self
  obtain ⟨cl1, op1, g1, g2, _⟩ := fixPair_shape (mark := mark) hne hp hdone h1 h2
  obtain ⟨cl2, op2, k1, _, k3, k4⟩ := fold_shape (mark := mark) hne qs (p :: ps.reverse) _ cl1 op1
    (fun q hq => by rw [hsplit]; exact List.mem_append_right _ (List.mem_cons_of_mem _ hq)) n2.2 (by
      intro q hq r hr
      rcases List.mem_cons.1 hq with rfl | hq
      · exact fun e => n2.1 (by rw [e]; exact List.mem_map_of_mem hr)
      · exact n3 q.1 (List.mem_map_of_mem (List.mem_reverse.1 hq)) r.1 (List.mem_cons_of_mem _ (List.mem_map_of_mem hr))) g1 g2
  intro x hx
  unfold fix
  conv => arg 1; rw [hsplit]
  rw [List.foldl_append, List.foldl_cons, k1]
  rw [g1] at hx
  simp only [List.mem_append] at hx ⊢
  rcases hx with (hx | hx) | hx
  · exact .inl (.inl hx)
  · exact .inl (.inr (k4 x hx))
  · exact .inr (k3 x hx)

theorem fix_shape {mark : Bool} {n : Nat} {lem : Nd → Str} {st : St} (hne : st.words ≠ []) :
    ∃ cl op, (fix mark n lem st).words = st.words ++ cl ++ op ∧ Shape n lem (st.words.map lem) st.words pairs.reverse cl op := by
  obtain ⟨cl, op, h1, h2, _⟩ := fold_shape (mark := mark) (n := n) (lem := lem) hne pairs [] st [] [] (fun _ h => h) pairs_nodup (fun q hq => by cases hq) (by simp)
    ⟨.inl rfl, .inl rfl⟩
  rw [List.append_nil] at h2
  exact ⟨cl, op, h1, h2⟩

theorem fix_linked (mark : Bool) (n : Nat) (lem : Nd → Str) (st : St) : (fix mark n lem st).linked = st.linked := by
  have one : ∀ ws p st, (fixPair mark n lem ws p st).linked = st.linked := by
    intro ws p st
    unfold fixPair append
    repeat' split
    all_goals rfl
  simp only [fix, pairs, List.foldl_cons, List.foldl_nil, one]

/-! ## Theorems -/

/-- **C159.** The old words stay, and only parentheses that are missing in the mention and stand next to it are added: closing ones `b+1`, …, `b+k`
directly after the last word `b`, and at most one opening one directly before the first word. -/
theorem C159_added {mark : Bool} {n : Nat} {lem : Nd → Str} {st : St} (hne : st.words ≠ []) :
    ∃ cl op, (fix mark n lem st).words = st.words ++ cl ++ op ∧
      (cl = [] ∨ ∃ b k, st.words.getLast? = some (.word b) ∧ cl = after b k ∧ b + k ≤ n ∧ ∀ i < k, MissClose (st.words.map lem) (lem (.word (b + 1 + i)))) ∧
      (op = [] ∨ ∃ a, st.words.head? = some (.word a) ∧ 1 < a ∧ op = [.word (a - 1)] ∧ MissOpen (st.words.map lem) (lem (.word (a - 1)))) := by
  obtain ⟨cl, op, h1, h2, h3⟩ := fix_shape (mark := mark) (n := n) (lem := lem) hne
  refine ⟨cl, op, h1, h2, ?_⟩
  rcases h3 with h | ⟨a, ha, h1, h2, p, hp, hl⟩
  · exact .inl h
  · exact .inr ⟨a, ha, h1, h2, p, List.mem_reverse.1 hp, hl⟩

/-- **C159, mentions with balanced parentheses do not change.** -/
theorem C159_balanced {mark : Bool} {n : Nat} {lem : Nd → Str} {st : St} (hne : st.words ≠ []) (h : ∀ p ∈ kinds, p.1 ∈ st.words.map lem ↔ p.2 ∈ st.words.map lem) :
    (fix mark n lem st).words = st.words := by
  obtain ⟨cl, op, h1, h2, h3⟩ := C159_added (mark := mark) (n := n) (lem := lem) hne
  have e1 : cl = [] := by
    rcases h2 with e | ⟨b, k, _, e, _, hm⟩
    · exact e
    · cases k with
      | zero => exact e
      | succ k =>
        obtain ⟨p, hp, _, g1, g2⟩ := hm 0 (Nat.succ_pos k)
        exact absurd ((h p hp).1 g1) g2
  have e2 : op = [] := by
    rcases h3 with e | ⟨a, _, _, _, p, hp, _, g1, g2⟩
    · exact e
    · exact absurd ((h p hp).2 g1) g2
  rw [h1, e1, e2, List.append_nil, List.append_nil]

/-- **C159, opening parentheses.** A missing opening parenthesis directly before the mention is added. -/
theorem C159_open {mark : Bool} {n : Nat} {lem : Nd → Str} {st : St} {a : Nat} (hh : st.words.head? = some (.word a)) (h1 : 1 < a) (hn : a ≤ n + 1)
    (hm : MissOpen (st.words.map lem) (lem (.word (a - 1)))) : .word (a - 1) ∈ (fix mark n lem st).words := by
  have hne : st.words ≠ [] := by intro e; rw [e] at hh; cases hh
  obtain ⟨p, hp, e, hc, ho⟩ := hm
  obtain ⟨st1, cl, op, hw, hs, hsub⟩ := fix_at (mark := mark) (n := n) (lem := lem) hne hp
  apply hsub
  have hin : inTree n lem p.1 = true := inTree_iff.2 ⟨a - 1, by omega, by omega, e⟩
  have hhead : st1.words.head? = some (.word a) := by rw [hw, List.append_assoc, head_append hne, hh]
  unfold fixPair
  rw [if_neg ho, if_pos ⟨hc, hin⟩, hhead]
  simp only
  rw [if_pos ⟨h1, e⟩]
  simp [append]

/-- **C159, closing parentheses.** A missing closing parenthesis directly after the mention is added, if no opening one is missing directly before
the mention. Missing: the latter case. -/
theorem C159_close_partial {mark : Bool} {n : Nat} {lem : Nd → Str} {st : St} {b : Nat} (hl : st.words.getLast? = some (.word b)) (hn : b < n)
    (hm : MissClose (st.words.map lem) (lem (.word (b + 1))))
    (hno : ∀ a, st.words.head? = some (.word a) → 1 < a → ¬ MissOpen (st.words.map lem) (lem (.word (a - 1)))) : .word (b + 1) ∈ (fix mark n lem st).words := by
  have hne : st.words ≠ [] := by intro e; rw [e] at hl; cases hl
  obtain ⟨p, hp, e, ho, hc⟩ := hm
  obtain ⟨st1, cl, op, hw, hs, hsub⟩ := fix_at (mark := mark) (n := n) (lem := lem) hne hp
  apply hsub
  have hop : op = [] := by
    rcases hs.2 with e | ⟨a, ha, h1, _, q, hq, g1, g2, g3⟩
    · exact e
    · have hq : q ∈ pairs := (List.takeWhile_sublist _).subset (List.mem_reverse.1 hq)
      exact absurd ⟨q, hq, g1, g2, g3⟩ (hno a ha h1)
  subst hop
  rw [List.append_nil] at hw
  have hin : inTree n lem p.2 = true := inTree_iff.2 ⟨b + 1, by omega, by omega, e⟩
  unfold fixPair
  rw [if_pos ho, if_pos ⟨hc, hin⟩]
  rcases hs.1 with e' | ⟨b', k, hb', e', hk, _⟩
  · subst e'
    rw [List.append_nil] at hw
    rw [hw, hl]
    simp only
    rw [if_pos ⟨hn, e⟩]
    simp [append]
  · rw [hl] at hb'
    injection hb' with hb'; injection hb' with hb'
    subst hb'
    cases k with
    | zero =>
      rw [e', show after b 0 = [] from rfl, List.append_nil] at hw
      rw [hw, hl]
      simp only
      rw [if_pos ⟨hn, e⟩]
      simp [append]
    | succ k =>
      have hmem : Nd.word (b + 1) ∈ st1.words := by
        rw [hw, e']
        exact List.mem_append_right _ (List.mem_map.2 ⟨0, by simp, rfl⟩)
      split
      · split
        · simp [append, hmem]
        · exact hmem
      · exact hmem

/-- **C159 violated (both sides).** If `(` is missing directly before the mention and `]` or `}` directly after it, the latter is not added, in
whatever tree. -/
theorem C159_close_violated {mark : Bool} {n : Nat} {lem : Nd → Str} {st : St} {a b : Nat} (hs : Sorted st.words) (hh : st.words.head? = some (.word a)) (h1 : 1 < a) (hn : a ≤ n + 1)
    (hl : st.words.getLast? = some (.word b)) (ho : lem (.word (a - 1)) = ['(']) (ho1 : ['('] ∉ st.words.map lem) (ho2 : [')'] ∈ st.words.map lem) :
    .word (b + 1) ∉ (fix mark n lem st).words := by
  have hne : st.words ≠ [] := by intro e; rw [e] at hh; cases hh
  have ha : lem (.word a) ∈ st.words.map lem := List.mem_map_of_mem (List.mem_of_mem_head? hh)
  have hin : inTree n lem ['('] = true := inTree_iff.2 ⟨a - 1, by omega, by omega, ho⟩
  have f1 : fixPair mark n lem (st.words.map lem) (['('], [')']) st = append mark (.word (a - 1)) st := by
    unfold fixPair
    rw [if_neg ho1, if_pos ⟨ho2, hin⟩, hh]
    simp only
    rw [if_pos ⟨h1, ho⟩]
  have f2 : ∀ p : Str × Str, p.1 ≠ ['('] → fixPair mark n lem (st.words.map lem) p (append mark (.word (a - 1)) st) = append mark (.word (a - 1)) st := by
    intro p hp
    have hlast : (append mark (.word (a - 1)) st).words.getLast? = some (.word (a - 1)) := by simp [append, List.getLast?_append]
    have hhead : (append mark (.word (a - 1)) st).words.head? = some (.word a) := by rw [show (append mark (.word (a - 1)) st).words = st.words ++ [.word (a - 1)] from rfl, head_append hne, hh]
    unfold fixPair
    rw [hlast, hhead]
    simp only
    split
    · split
      · rename_i hc
        rw [if_neg]
        rintro ⟨_, g⟩
        rw [Nat.sub_add_cancel (by omega)] at g
        exact hc.1 (g ▸ ha)
      · rfl
    · split
      · rw [if_neg]
        rintro ⟨_, g⟩
        exact hp (g.symm.trans ho)
      · rfl
  have hfix : (fix mark n lem st).words = st.words ++ [.word (a - 1)] := by
    simp only [fix, pairs, List.foldl_cons, List.foldl_nil]
    rw [f1, f2 _ (by simp), f2 _ (by simp)]
    rfl
  rw [hfix]
  have lt_last : ∀ x ∈ st.words, x = .word b ∨ x.Lt (.word b) := by
    intro x hx
    obtain ⟨l, hl'⟩ : ∃ l, st.words = l ++ [.word b] := List.getLast?_eq_some_iff.1 hl
    rw [hl'] at hx hs
    rcases List.mem_append.1 hx with hx | hx
    · exact .inr ((List.pairwise_append.1 hs).2.2 x hx _ (List.mem_singleton.2 rfl))
    · exact .inl (List.mem_singleton.1 hx)
  intro hm
  rcases List.mem_append.1 hm with hm | hm
  · rcases lt_last _ hm with e | e
    · injection e with e; omega
    · simp only [Nd.Lt, Nd.key] at e; omega
  · have e := List.mem_singleton.1 hm
    injection e with e
    rcases lt_last _ (List.mem_of_mem_head? hh) with e' | e'
    · injection e' with e'; omega
    · simp only [Nd.Lt, Nd.key] at e'; omega

/-- **C159, word order.** If no opening parenthesis is missing directly before the mention, its words stay in word order. Missing: the other case,
see `C159_order_violated`. -/
theorem C159_sorted_partial {mark : Bool} {n : Nat} {lem : Nd → Str} {st : St} (hne : st.words ≠ []) (hs : Sorted st.words)
    (hno : ∀ a, st.words.head? = some (.word a) → 1 < a → ¬ MissOpen (st.words.map lem) (lem (.word (a - 1)))) : Sorted (fix mark n lem st).words := by
  obtain ⟨cl, op, h1, h2, h3⟩ := C159_added (mark := mark) (n := n) (lem := lem) hne
  have e2 : op = [] := by
    rcases h3 with e | ⟨a, ha, g1, _, g2⟩
    · exact e
    · exact absurd g2 (hno a ha g1)
  subst e2
  rw [h1, List.append_nil]
  rcases h2 with e | ⟨b, k, hb, e, _, _⟩
  · rw [e, List.append_nil]; exact hs
  · rw [e]
    obtain ⟨l, hl⟩ : ∃ l, st.words = l ++ [.word b] := List.getLast?_eq_some_iff.1 hb
    refine List.pairwise_append.2 ⟨hs, ?_, ?_⟩
    · unfold after
      rw [List.pairwise_map]
      exact List.pairwise_lt_range.imp (fun {x y} hxy => Or.inl (by simp only [Nd.key]; omega))
    · intro x hx y hy
      obtain ⟨i, _, rfl⟩ := List.mem_map.1 hy
      rw [hl] at hx
      rcases List.mem_append.1 hx with hx | hx
      · have := (List.pairwise_append.1 (hl ▸ hs)).2.2 x hx _ (List.mem_singleton.2 rfl)
        simp only [Nd.Lt, Nd.key] at this ⊢
        omega
      · rw [List.mem_singleton.1 hx]
        exact Or.inl (by simp only [Nd.key]; omega)

/-- **C159 violated (word order).** Whenever an opening parenthesis is added, the words of the mention are no longer in word order: the first word
of the span stands at the end of the list. -/
theorem C159_order_violated {mark : Bool} {n : Nat} {lem : Nd → Str} {st : St} {a : Nat} (hh : st.words.head? = some (.word a)) (h1 : 1 < a) (hn : a ≤ n + 1)
    (hm : MissOpen (st.words.map lem) (lem (.word (a - 1)))) : ¬ Sorted (fix mark n lem st).words := by
  have hne : st.words ≠ [] := by intro e; rw [e] at hh; cases hh
  have hin := C159_open (mark := mark) hh h1 hn hm
  obtain ⟨cl, op, hw, _, _⟩ := C159_added (mark := mark) (n := n) (lem := lem) hne
  intro hsort
  rw [hw] at hin hsort
  cases hc : st.words with
  | nil => exact hne hc
  | cons x xs =>
    rw [hc] at hh hin hsort
    simp only [List.head?_cons, Option.some.injEq] at hh
    subst hh
    rw [List.append_assoc, List.cons_append] at hin hsort
    rcases List.mem_cons.1 hin with e | hin
    · injection e with e; omega
    · have := (List.pairwise_cons.1 hsort).1 _ hin
      simp only [Nd.Lt, Nd.key] at this
      omega

/-- **C159 violated (links).** Whenever a word is added to a mention in a consistent state, the state is no longer consistent: the mention is not
among the mentions of the new word. -/
theorem C159_links_violated {mark : Bool} {n : Nat} {lem : Nd → Str} {st : St} (hc : Consistent st) {x : Nd} (hx : x ∈ (fix mark n lem st).words) (hnew : x ∉ st.words) :
    ¬ Consistent (fix mark n lem st) := by
  intro h
  have := (h x).1 hx
  rw [fix_linked] at this
  exact hnew ((hc x).2 this)

/-- **C159, marks.** With `mark=1` exactly the added words are marked, otherwise none. -/
theorem C159_marks (mark : Bool) (n : Nat) (lem : Nd → Str) (st : St) :
    ∃ add, (fix mark n lem st).words = st.words ++ add ∧ (fix mark n lem st).marked = st.marked ++ if mark then add else [] := by
  have one : ∀ ws p st, ∃ add, (fixPair mark n lem ws p st).words = st.words ++ add ∧ (fixPair mark n lem ws p st).marked = st.marked ++ if mark then add else [] := by
    intro ws p st
    have h0 : ∃ add, st.words = st.words ++ add ∧ st.marked = st.marked ++ if mark then add else [] := ⟨[], by simp, by simp⟩
    have h1 : ∀ x, ∃ add, (append mark x st).words = st.words ++ add ∧ (append mark x st).marked = st.marked ++ if mark then add else [] :=
      fun x => ⟨[x], rfl, by unfold append; cases mark <;> simp⟩
    have h2 : fixPair mark n lem ws p st = st ∨ ∃ x, fixPair mark n lem ws p st = append mark x st := by
      unfold fixPair
      repeat' split
      all_goals first | exact .inl rfl | exact .inr ⟨_, rfl⟩
    rcases h2 with e | ⟨x, e⟩
    · rw [e]; exact h0
    · rw [e]; exact h1 x
  have all : ∀ (ps : List (Str × Str)) (ws : List Str) (st : St), ∃ add, (ps.foldl (fun st' p => fixPair mark n lem ws p st') st).words = st.words ++ add ∧
      (ps.foldl (fun st' p => fixPair mark n lem ws p st') st).marked = st.marked ++ if mark then add else [] := by
    intro ps ws
    induction ps with
    | nil => intro st; exact ⟨[], by simp, by simp⟩
    | cons p ps ih =>
      intro st
      obtain ⟨a1, h1, h2⟩ := one ws p st
      obtain ⟨a2, g1, g2⟩ := ih (fixPair mark n lem ws p st)
      refine ⟨a1 ++ a2, ?_, ?_⟩
      · rw [List.foldl_cons, g1, h1, List.append_assoc]
      · rw [List.foldl_cons, g2, h2]
        cases mark <;> simp
  exact all pairs _ st

/-! ## Examples -/

def exLem : Nd → Str
  | .word 1 => ['(']
  | .word 3 => [')']
  | .word 4 => ['[']
  | .word 6 => [']']
  | _ => ['x']
def exSt (l : List Nat) : St := ⟨l.map .word, l.map .word, []⟩

example : (fix true 7 exLem (exSt [2, 3])).words = [.word 2, .word 3, .word 1] := by decide
example : (fix true 7 exLem (exSt [4, 5])).words = [.word 4, .word 5, .word 6] := by decide
example : (fix true 7 exLem (exSt [2, 3, 4, 5])).words = [.word 2, .word 3, .word 4, .word 5, .word 1] := by decide
example : (fix true 7 exLem (exSt [1, 2])).marked = [.word 3] := by decide

end Verif.Coref.Parens
