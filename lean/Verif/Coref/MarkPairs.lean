import Verif.Coref.Span

/-!
# Property C160: marking of pairs of mentions (udapi/block/corefud/markcrossing.py, marknested.py, markinterleaved.py, marksamesubspan.py,
markpairs.py)

One tree; `all` is `tree.descendants_and_empty`, its nodes are named by their `ord` in tenths as in `Span.lean`. A mention is the list of its words, its
entity and its head. The blocks collect the mentions in a Python set, so the list `ms` of the mentions may be in any order. Of the attribute `Mark` only whether it is
set is modelled, not its text.
-/

namespace Verif.Coref.MarkPairs
open Verif.Py Verif.Coref

structure M where
  words : List Nat
  entity : Nat
  head : Nat := 0
  deriving DecidableEq, Repr

/-- The parameters of the three blocks that look at pairs in a tree; each block has some of them. -/
structure Opt where
  sameOnly : Bool
  bothDisc : Bool
  multiword : Bool
  nestedOnly : Bool

/-- `set(a) <= set(b)` -/
def subset (a b : List Nat) : Bool := a.all (fun x => decide (x ∈ b))

/-- `len(set(a)) == 1` -/
def single (a : List Nat) : Bool := decide (a.eraseDups.length = 1)

/-- `',' in mention.span` -/
def comma (all : List Nat) (m : M) : Bool := decide (',' ∈ nodesToSpan all m.words)

/-- `itertools.combinations(mentions, 2)` -/
def combos {α : Type} : List α → List (α × α)
  | [] => []
  | a :: l => l.map (fun b => (a, b)) ++ combos l

/-- `continue` because of `same_entity_only` and `both_discontinuous` -/
def skipped (o : Opt) (all : List Nat) (a b : M) : Bool :=
  (o.sameOnly && a.entity != b.entity) || (o.bothDisc && (!comma all a || !comma all b))

/-- The tests of MarkNested (marknested.py:29-37) -/
def nested (o : Opt) (all : List Nat) (a b : M) : Bool :=
  !skipped o all a b && (subset a.words b.words || subset b.words a.words) && !(o.multiword && (single a.words || single b.words))

/-- `a.words[0] < b.words[0] and a.words[-1] < b.words[0]` -/
def before (a b : M) : Bool :=
  match a.words.head?, a.words.getLast?, b.words.head? with
  | some x, some z, some y => decide (x < y) && decide (z < y)
  | _, _, _ => false

/-- The tests of MarkInterleaved (markinterleaved.py:31-40) -/
def interleaved (o : Opt) (all : List Nat) (a b : M) : Bool :=
  !(a.words.any (fun x => decide (x ∈ b.words))) && !before a b && !before b a && !skipped o all a b

/-- The tests of MarkSameSubSpan (marksamesubspan.py:31-39) -/
def sameSub (o : Opt) (all : List Nat) (a b : M) : Bool :=
  !skipped o all a b && !(o.nestedOnly && !subset a.words b.words && !subset b.words a.words) &&
    (split ',' (nodesToSpan all a.words)).any (fun p => decide (p ∈ split ',' (nodesToSpan all b.words)))

/-- The loop over the pairs with `mark=1` (for example marknested.py:28-42): the nodes where `Mark` is set -/
def markAll (test : M → M → Bool) : List (M × M) → List Nat → List Nat
  | [], marked => marked
  | (a, b) :: ps, marked => markAll test ps (if test a b then marked ++ (a.words ++ b.words) else marked)

/-- `process_tree(tree)` -/
def process (test : M → M → Bool) (ms : List M) (marked : List Nat) : List Nat := markAll test (combos ms) marked

/-- The tests of MarkCrossing for two mentions of a node (markcrossing.py:29-33); `bothDisc` stands for `continuous_only`. -/
def crossing (o : Opt) (all : List Nat) (a b : M) : Bool :=
  !subset a.words b.words && !subset b.words a.words && !(o.sameOnly && a.entity != b.entity) && !(o.bothDisc && (comma all a || comma all b))

/-- MarkCrossing with `mark=1` on the tree: `process_node` is called for the words, not for the empty nodes; `coref_mentions` of a node are the mentions with
this node. -/
def markCrossing (o : Opt) (all : List Nat) (ms : List M) (marked : List Nat) : List Nat :=
  marked ++ all.filter (fun w => decide (w % 10 = 0) && (combos (ms.filter (fun m => decide (w ∈ m.words)))).any (fun p => crossing o all p.1 p.2))

/-- The parameters of MarkPairs after `_convert` -/
structure Props where
  sameEntity : Int
  bothCont : Int
  bothDisc : Int
  nested : Int
  crossing : Int
  interleaved : Int
  sameHead : Int
  sameSpan : Int
  sameSub : Int

/-- `_ok(condition, value)` (markpairs.py:75-78) -/
def ok (c : Bool) (v : Int) : Bool := if v = 0 then true else (c && decide (v = 1)) || (!c && decide (v = -1))

/-- The tests of MarkPairs (markpairs.py:95-122) -/
def pairTest (o : Props) (all : List Nat) (a b : M) : Bool :=
  ok (decide (a.entity = b.entity)) o.sameEntity && ok (decide (a.head = b.head)) o.sameHead &&
  (if o.bothCont ≠ 0 ∨ o.bothDisc ≠ 0 ∨ o.sameSpan ≠ 0 ∨ o.sameSub ≠ 0 then
    ok (!comma all a && !comma all b) o.bothCont && ok (comma all a && comma all b) o.bothDisc &&
    ok (decide (nodesToSpan all a.words = nodesToSpan all b.words)) o.sameSpan &&
    ok ((split ',' (nodesToSpan all a.words)).any (fun p => decide (p ∈ split ',' (nodesToSpan all b.words)))) o.sameSub
   else true) &&
  (if o.nested ≠ 0 ∨ o.crossing ≠ 0 ∨ o.interleaved ≠ 0 then
    ok (subset a.words b.words || subset b.words a.words) o.nested &&
    ok (a.words.any (fun x => decide (x ∈ b.words)) && !subset a.words b.words && !subset b.words a.words) o.crossing &&
    (if o.interleaved ≠ 0 then ok (!(a.words.any (fun x => decide (x ∈ b.words))) && !before a b && !before b a) o.interleaved else true)
   else true)

/-- `counter['pairs']` and `counter['matching']` of a tree (markpairs.py:93-94, 124) -/
def counts (test : M → M → Bool) (ms : List M) : Nat × Nat := ((combos ms).length, ((combos ms).filter (fun p => test p.1 p.2)).length)

/-! ## What the properties say -/

/-- The parameter asks for the property (1, `only`) or against it (-1, `exclude`). -/
def Wants (v : Int) (P : Prop) : Prop := (v = 1 → P) ∧ (v = -1 → ¬ P)

/-- The parameters have allowed values. -/
def Props.Valid (o : Props) : Prop := ∀ v ∈ [o.sameEntity, o.bothCont, o.bothDisc, o.nested, o.crossing, o.interleaved, o.sameHead, o.sameSpan, o.sameSub], v = -1 ∨ v = 0 ∨ v = 1


/-- Two of the mentions (different objects, which may have the same words) -/
def Two (ms : List M) (a b : M) : Prop := ∃ (i j : Nat), i ≠ j ∧ ms[i]? = some a ∧ ms[j]? = some b

/-- `Sub a b`: all words of `a` are words of `b`. -/
def Sub (a b : M) : Prop := ∀ x ∈ a.words, x ∈ b.words

/-- There is a node inside the span that does not belong to the mention. -/
def Gap (all ws : List Nat) : Prop := ∃ x ∈ ws, ∃ z ∈ ws, ∃ y ∈ all, x < y ∧ y < z ∧ y ∉ ws

/-- A word of the one mention stands between two words of the other one. -/
def Between (a b : M) : Prop := ∃ x ∈ a.words, ∃ y ∈ b.words, ∃ z ∈ a.words, x < y ∧ y < z

/-- `lo` to `hi` is a longest part of the sentence without gaps in `ws`. -/
def Run (all ws : List Nat) (lo hi : Nat) : Prop :=
  lo ∈ all ∧ hi ∈ all ∧ lo ≤ hi ∧ (∀ x ∈ all, lo ≤ x → x ≤ hi → x ∈ ws) ∧
  (∀ x ∈ all, x < lo → x ∈ ws → ∃ y ∈ all, x < y ∧ y < lo ∧ y ∉ ws) ∧ (∀ x ∈ all, hi < x → x ∈ ws → ∃ y ∈ all, hi < y ∧ y < x ∧ y ∉ ws)

/-- What all three blocks ask: the entities and the gaps -/
def Asked (o : Opt) (all : List Nat) (a b : M) : Prop :=
  (o.sameOnly = true → a.entity = b.entity) ∧ (o.bothDisc = true → Gap all a.words ∧ Gap all b.words)

/-- The mentions of the tree: not empty, in word order, with words of the tree -/
def Good (all : List Nat) (m : M) : Prop := m.words ≠ [] ∧ m.words.Pairwise (· < ·) ∧ ∀ x ∈ m.words, x ∈ all

/-- The pair of mentions has the properties that MarkPairs is asked for. -/
def Match (o : Props) (all : List Nat) (a b : M) : Prop :=
  Wants o.sameEntity (a.entity = b.entity) ∧ Wants o.sameHead (a.head = b.head) ∧ Wants o.bothCont (¬ Gap all a.words ∧ ¬ Gap all b.words) ∧
  Wants o.bothDisc (Gap all a.words ∧ Gap all b.words) ∧ Wants o.sameSpan (Sub a b ∧ Sub b a) ∧
  Wants o.sameSub (∃ lo hi, Run all a.words lo hi ∧ Run all b.words lo hi) ∧ Wants o.nested (Sub a b ∨ Sub b a) ∧
  Wants o.crossing ((∃ x ∈ a.words, x ∈ b.words) ∧ ¬ Sub a b ∧ ¬ Sub b a) ∧
  Wants o.interleaved ((∀ x ∈ a.words, x ∉ b.words) ∧ (Between a b ∨ Between b a))

/-! ## Lemmas about spans -/

theorem run_split {A B ws : List Nat} {y : Nat} (hs : (A ++ y :: B).Pairwise (· < ·)) (hy : y ∉ ws) (lo hi : Nat) :
    Run (A ++ y :: B) ws lo hi ↔ Run A ws lo hi ∨ Run B ws lo hi := by
  obtain ⟨sA, sB, sAB⟩ := List.pairwise_append.1 hs
  obtain ⟨syB, sB⟩ := List.pairwise_cons.1 sB
  have hAy : ∀ x ∈ A, x < y := fun x hx => sAB x hx y List.mem_cons_self
  have hAB : ∀ x ∈ A, ∀ z ∈ B, x < z := fun x hx z hz => sAB x hx z (List.mem_cons_of_mem _ hz)
  have mem : ∀ x, x ∈ A ++ y :: B ↔ x ∈ A ∨ x = y ∨ x ∈ B := by intro x; simp
  constructor
  · rintro ⟨h1, h2, h3, h4, h5, h6⟩
    have n1 : lo ≠ y := fun e => hy (h4 y ((mem y).2 (.inr (.inl rfl))) (by omega) (by omega))
    have n2 : hi ≠ y := fun e => hy (h4 y ((mem y).2 (.inr (.inl rfl))) (by omega) (by omega))
    rcases (mem lo).1 h1 with l | l | l
    · rcases (mem hi).1 h2 with r | r | r
      · refine .inl ⟨l, r, h3, fun x hx => h4 x ((mem x).2 (.inl hx)), ?_, ?_⟩
        · intro x hx hlt hw
          obtain ⟨z, hz, g1, g2, g3⟩ := h5 x ((mem x).2 (.inl hx)) hlt hw
          have := hAy lo l
          rcases (mem z).1 hz with hz | hz | hz
          · exact ⟨z, hz, g1, g2, g3⟩
          · omega
          · have := hAB lo l z hz; omega
        · intro x hx hlt hw
          obtain ⟨z, hz, g1, g2, g3⟩ := h6 x ((mem x).2 (.inl hx)) hlt hw
          have := hAy x hx
          rcases (mem z).1 hz with hz | hz | hz
          · exact ⟨z, hz, g1, g2, g3⟩
          · omega
          · have := hAB x hx z hz; omega
      · exact absurd r n2
      · exact absurd (h4 y ((mem y).2 (.inr (.inl rfl))) (Nat.le_of_lt (hAy lo l)) (Nat.le_of_lt (syB hi r))) hy
    · exact absurd l n1
    · rcases (mem hi).1 h2 with r | r | r
      · have := hAB hi r lo l; omega
      · exact absurd r n2
      · refine .inr ⟨l, r, h3, fun x hx => h4 x ((mem x).2 (.inr (.inr hx))), ?_, ?_⟩
        · intro x hx hlt hw
          obtain ⟨z, hz, g1, g2, g3⟩ := h5 x ((mem x).2 (.inr (.inr hx))) hlt hw
          have := syB x hx
          rcases (mem z).1 hz with hz | hz | hz
          · have := hAB z hz x hx; omega
          · omega
          · exact ⟨z, hz, g1, g2, g3⟩
        · intro x hx hlt hw
          obtain ⟨z, hz, g1, g2, g3⟩ := h6 x ((mem x).2 (.inr (.inr hx))) hlt hw
          have := syB hi r
          rcases (mem z).1 hz with hz | hz | hz
          · have := hAB z hz hi r; omega
          · omega
          · exact ⟨z, hz, g1, g2, g3⟩
  · rintro (⟨h1, h2, h3, h4, h5, h6⟩ | ⟨h1, h2, h3, h4, h5, h6⟩)
    · refine ⟨(mem lo).2 (.inl h1), (mem hi).2 (.inl h2), h3, ?_, ?_, ?_⟩
      · intro x hx g1 g2
        rcases (mem x).1 hx with hx | hx | hx
        · exact h4 x hx g1 g2
        · have := hAy hi h2; omega
        · have := hAB hi h2 x hx; omega
      · intro x hx hlt hw
        rcases (mem x).1 hx with hx | hx | hx
        · obtain ⟨z, hz, g⟩ := h5 x hx hlt hw; exact ⟨z, (mem z).2 (.inl hz), g⟩
        · have := hAy lo h1; omega
        · have := hAB lo h1 x hx; omega
      · intro x hx hlt hw
        rcases (mem x).1 hx with hx | hx | hx
        · obtain ⟨z, hz, g⟩ := h6 x hx hlt hw; exact ⟨z, (mem z).2 (.inl hz), g⟩
        · exact absurd (hx ▸ hw) hy
        · exact ⟨y, (mem y).2 (.inr (.inl rfl)), hAy hi h2, syB x hx, hy⟩
    · refine ⟨(mem lo).2 (.inr (.inr h1)), (mem hi).2 (.inr (.inr h2)), h3, ?_, ?_, ?_⟩
      · intro x hx g1 g2
        rcases (mem x).1 hx with hx | hx | hx
        · have := hAB x hx lo h1; omega
        · have := syB lo h1; omega
        · exact h4 x hx g1 g2
      · intro x hx hlt hw
        rcases (mem x).1 hx with hx | hx | hx
        · exact ⟨y, (mem y).2 (.inr (.inl rfl)), hAy x hx, syB lo h1, hy⟩
        · exact absurd (hx ▸ hw) hy
        · obtain ⟨z, hz, g⟩ := h5 x hx hlt hw; exact ⟨z, (mem z).2 (.inr (.inr hz)), g⟩
      · intro x hx hlt hw
        rcases (mem x).1 hx with hx | hx | hx
        · have := hAB x hx hi h2; omega
        · have := syB hi h2; omega
        · obtain ⟨z, hz, g⟩ := h6 x hx hlt hw; exact ⟨z, (mem z).2 (.inr (.inr hz)), g⟩

theorem run_nil {ws : List Nat} {lo hi : Nat} : ¬ Run [] ws lo hi := fun h => by cases h.1

theorem run_full {x : Nat} {l ws : List Nat} (hs : (x :: l).Pairwise (· < ·)) (h : ∀ y ∈ x :: l, y ∈ ws) (lo hi : Nat) :
    Run (x :: l) ws lo hi ↔ lo = x ∧ hi = (x :: l).getLast (by simp) := by
  have hlast := List.getLast_mem (l := x :: l) (by simp)
  have hle : ∀ y ∈ x :: l, y ≤ (x :: l).getLast (by simp) := by
    intro y hy
    have hd := List.dropLast_concat_getLast (l := x :: l) (by simp)
    rw [← hd] at hy hs
    rcases List.mem_append.1 hy with g | g
    · exact Nat.le_of_lt ((List.pairwise_append.1 hs).2.2 _ g _ (List.mem_singleton.2 rfl))
    · exact Nat.le_of_eq (List.mem_singleton.1 g)
  have hge : ∀ y ∈ x :: l, x ≤ y := by
    intro y hy
    rcases List.mem_cons.1 hy with rfl | hy
    · exact Nat.le_refl _
    · exact Nat.le_of_lt ((List.pairwise_cons.1 hs).1 y hy)
  constructor
  · rintro ⟨h1, h2, h3, h4, h5, h6⟩
    constructor
    · rcases Nat.lt_or_ge x lo with g | g
      · obtain ⟨z, hz, _, _, hz'⟩ := h5 x List.mem_cons_self g (h x List.mem_cons_self)
        exact absurd (h z hz) hz'
      · have := hge lo h1; omega
    · rcases Nat.lt_or_ge hi ((x :: l).getLast (by simp)) with g | g
      · obtain ⟨z, hz, _, _, hz'⟩ := h6 _ hlast g (h _ hlast)
        exact absurd (h z hz) hz'
      · have := hle hi h2; omega
  · rintro ⟨rfl, rfl⟩
    refine ⟨List.mem_cons_self, hlast, hge _ hlast, fun y hy _ _ => h y hy, ?_, ?_⟩
    · intro y hy g; have := hge y hy; omega
    · intro y hy g; have := hle y hy; omega

theorem mem_runs (ws : List Nat) (found : Nat) (all : List Nat) (hs : all.Pairwise (· < ·))
    (hc : found + (all.filter (fun y => decide (y ∈ ws))).length ≤ ws.length) (lo hi : Nat) : (lo, hi) ∈ runs ws found all ↔ Run all ws lo hi := by
  induction hn : all.length using Nat.strongRecOn generalizing found all with
  | ind n ih =>
    cases all with
    | nil => simp only [runs, List.not_mem_nil, false_iff]; exact run_nil
    | cons x rest =>
      unfold runs
      by_cases hf : found < ws.length
      · rw [if_pos hf]
        by_cases hx : x ∈ ws
        · rw [if_pos hx]
          have htd := List.takeWhile_append_dropWhile (p := fun y => decide (y ∈ ws)) (l := rest)
          have htake : ∀ y ∈ x :: rest.takeWhile (fun y => decide (y ∈ ws)), y ∈ ws := by
            intro y hy
            rcases List.mem_cons.1 hy with rfl | hy
            · exact hx
            · simpa using mem_takeWhile_imp hy
          cases hd : rest.dropWhile (fun y => decide (y ∈ ws)) with
          | nil =>
            rw [hd, List.append_nil] at htd
            simp only [List.mem_cons, Prod.mk.injEq, List.drop_nil]
            rw [show runs ws (found + (x :: rest.takeWhile (fun y => decide (y ∈ ws))).length) [] = [] by simp [runs]]
            simp only [List.not_mem_nil, or_false]
            rw [← run_full (ws := ws) (by rw [htd]; exact hs) htake, htd]
          | cons y ys =>
            have hy : y ∉ ws := by
              have := List.head?_dropWhile_not (fun y => decide (y ∈ ws)) rest
              rw [hd] at this
              simpa using this
            rw [hd] at htd
            have hsplit : x :: rest = (x :: rest.takeWhile (fun y => decide (y ∈ ws))) ++ y :: ys := by rw [List.cons_append, htd]
            have hs' := hs
            rw [hsplit] at hs'
            have hp := List.pairwise_append.1 hs'
            rw [hsplit, run_split hs' hy, run_full hp.1 htake]
            simp only [List.drop_succ_cons, List.drop_zero, List.mem_cons, Prod.mk.injEq]
            have hlen := congrArg List.length hsplit
            simp only [List.length_cons, List.length_append] at hlen hn
            have hfil : (rest.takeWhile (fun y => decide (y ∈ ws))).filter (fun y => decide (y ∈ ws)) = rest.takeWhile (fun y => decide (y ∈ ws)) := by
              rw [List.filter_eq_self]
              intro z hz
              exact mem_takeWhile_imp (p := fun y => decide (y ∈ ws)) hz
            have hc' : found + (x :: rest.takeWhile (fun y => decide (y ∈ ws))).length + (ys.filter (fun y => decide (y ∈ ws))).length ≤ ws.length := by
              rw [hsplit, List.cons_append, List.filter_cons_of_pos (by simpa using hx), List.filter_append, hfil,
                List.filter_cons_of_neg (by simpa using hy)] at hc
              simp only [List.length_cons, List.length_append] at hc ⊢
              omega
            have := ih ys.length (by omega) _ ys ((List.pairwise_cons.1 hp.2.1).2) hc' rfl
            simp only [List.length_cons] at this ⊢
            rw [this]
        · rw [if_neg hx]
          have hsp := run_split (A := []) (B := rest) (ws := ws) (y := x) hs hx lo hi
          rw [List.nil_append] at hsp
          rw [hsp]
          have := ih rest.length (by simp only [List.length_cons] at hn; omega) found rest (List.pairwise_cons.1 hs).2 (by
            rw [List.filter_cons_of_neg (by simpa using hx)] at hc; exact hc) rfl
          rw [this]
          exact ⟨.inr, fun h => h.elim (fun h => absurd h run_nil) id⟩
      · rw [if_neg hf]
        simp only [List.not_mem_nil, false_iff]
        rintro ⟨h1, _, h3, h4, _⟩
        have hlo := h4 lo h1 (Nat.le_refl _) h3
        have : 0 < ((x :: rest).filter (fun y => decide (y ∈ ws))).length :=
          List.length_pos_iff.2 (List.ne_nil_of_mem (List.mem_filter.2 ⟨h1, by simpa using hlo⟩))
        omega

theorem count_le {all ws : List Nat} (hs : all.Pairwise (· < ·)) : 0 + (all.filter (fun y => decide (y ∈ ws))).length ≤ ws.length := by
  rw [Nat.zero_add]
  apply length_le_of_subset
  · exact ((hs.imp (fun h => Nat.ne_of_lt h)).sublist List.filter_sublist)
  · intro x hx; simpa using (List.mem_filter.1 hx).2

theorem split_span {all ws : List Nat} (hs : all.Pairwise (· < ·)) (hne : ws ≠ []) (hin : ∀ x ∈ ws, x ∈ all) :
    split ',' (nodesToSpan all ws) = (runs ws 0 all).map rangeStr ∧ runs ws 0 all ≠ [] := by
  have hrs : runs ws 0 all ≠ [] := by
    obtain ⟨x, l, rfl⟩ := List.exists_cons_of_ne_nil hne
    obtain ⟨r, hr, _⟩ := runs_complete _ 0 all hs (count_le hs) x (hin x List.mem_cons_self) List.mem_cons_self
    exact List.ne_nil_of_mem hr
  refine ⟨?_, hrs⟩
  unfold nodesToSpan
  rw [if_neg hne, split_join (by simpa using hrs)]
  intro p hp
  obtain ⟨r, _, rfl⟩ := List.mem_map.1 hp
  exact comma_not_mem_rangeStr r

theorem rangeStr_inj {r q : Nat × Nat} (hr : r.1 ≤ r.2) (hq : q.1 ≤ q.2) (h : rangeStr r = rangeStr q) : r = q := by
  have h1 := parseRanges_map (rs := [r]) (by simpa using hr)
  have h2 := parseRanges_map (rs := [q]) (by simpa using hq)
  simp only [List.map_cons, List.map_nil] at h1 h2
  rw [h, h2] at h1
  simpa using h1.symm

/-- The spans have a common part exactly if the mentions have a common run. -/
theorem common_part {all a b : List Nat} (hs : all.Pairwise (· < ·)) (ha : a ≠ []) (hb : b ≠ []) (hia : ∀ x ∈ a, x ∈ all) (hib : ∀ x ∈ b, x ∈ all) :
    (∃ p ∈ split ',' (nodesToSpan all a), p ∈ split ',' (nodesToSpan all b)) ↔ ∃ lo hi, Run all a lo hi ∧ Run all b lo hi := by
  rw [(split_span hs ha hia).1, (split_span hs hb hib).1]
  constructor
  · rintro ⟨p, hp, hq⟩
    obtain ⟨r, hr, rfl⟩ := List.mem_map.1 hp
    obtain ⟨q, hq', e⟩ := List.mem_map.1 hq
    have e := rangeStr_inj (runs_sound _ _ _ hs q hq').1 (runs_sound _ _ _ hs r hr).1 e
    subst e
    exact ⟨q.1, q.2, (mem_runs a 0 all hs (count_le hs) _ _).1 hr, (mem_runs b 0 all hs (count_le hs) _ _).1 hq'⟩
  · rintro ⟨lo, hi, h1, h2⟩
    exact ⟨rangeStr (lo, hi), List.mem_map_of_mem ((mem_runs a 0 all hs (count_le hs) _ _).2 h1), List.mem_map_of_mem ((mem_runs b 0 all hs (count_le hs) _ _).2 h2)⟩

theorem runs_two (ws : List Nat) (found : Nat) (all : List Nat) (hs : all.Pairwise (· < ·)) (h : 2 ≤ (runs ws found all).length) : ∃ x ∈ all, ∃ z ∈ all, ∃ y ∈ all, x < y ∧ y < z ∧ x ∈ ws ∧ z ∈ ws ∧ y ∉ ws := by
  induction all generalizing found with
  | nil => simp [runs] at h
  | cons x rest ih =>
    unfold runs at h
    split at h
    · split at h
      · rename_i hx
        have hne : runs ws (found + (x :: rest.takeWhile (fun y => decide (y ∈ ws))).length) ((rest.dropWhile (fun y => decide (y ∈ ws))).drop 1) ≠ [] := by
          intro e
          simp only at h
          rw [e] at h
          simp at h
        obtain ⟨r, l, hrl⟩ := List.exists_cons_of_ne_nil hne
        have hsub : ((rest.dropWhile (fun y => decide (y ∈ ws))).drop 1).Sublist rest := (List.drop_sublist _ _).trans (List.dropWhile_sublist _)
        have hr := runs_sound ws _ _ ((List.pairwise_cons.1 hs).2.sublist hsub) r (by rw [hrl]; exact List.mem_cons_self)
        cases hd : rest.dropWhile (fun y => decide (y ∈ ws)) with
        | nil => rw [hd] at hr; simp at hr
        | cons y ys =>
          rw [hd] at hr
          simp only [List.drop_succ_cons, List.drop_zero] at hr
          have hy : y ∉ ws := by
            have := List.head?_dropWhile_not (fun y => decide (y ∈ ws)) rest
            rw [hd] at this
            simpa using this
          have hyr : y ∈ rest := (List.dropWhile_sublist _).subset (by rw [hd]; exact List.mem_cons_self)
          have hzr : r.1 ∈ rest := (List.dropWhile_sublist _).subset (by rw [hd]; exact List.mem_cons_of_mem _ hr.2.1)
          have hp : (y :: ys).Pairwise (· < ·) := by rw [← hd]; exact (List.pairwise_cons.1 hs).2.sublist (List.dropWhile_sublist _)
          exact ⟨x, List.mem_cons_self, r.1, List.mem_cons_of_mem _ hzr, y, List.mem_cons_of_mem _ hyr, (List.pairwise_cons.1 hs).1 y hyr,
            (List.pairwise_cons.1 hp).1 _ hr.2.1, hx, hr.2.2 _ hr.2.1 (Nat.le_refl _) hr.1, hy⟩
      · obtain ⟨a, ha, b, hb, c, hc, g⟩ := ih found (List.pairwise_cons.1 hs).2 h
        exact ⟨a, List.mem_cons_of_mem _ ha, b, List.mem_cons_of_mem _ hb, c, List.mem_cons_of_mem _ hc, g⟩
    · simp at h

theorem comma_join {l : List Str} (h : ∀ p ∈ l, ',' ∉ p) : ',' ∈ join [','] l ↔ 2 ≤ l.length := by
  cases l with
  | nil => simp [join]
  | cons a l =>
    cases l with
    | nil => simpa [join] using h a List.mem_cons_self
    | cons b l => simp [join]

theorem comma_iff {all : List Nat} {m : M} (hs : all.Pairwise (· < ·)) (hg : Good all m) : comma all m = true ↔ Gap all m.words := by
  obtain ⟨hne, _, hin⟩ := hg
  unfold comma nodesToSpan
  rw [decide_eq_true_iff, if_neg hne, comma_join (by
    intro p hp
    obtain ⟨r, _, rfl⟩ := List.mem_map.1 hp
    exact comma_not_mem_rangeStr r), List.length_map]
  constructor
  · intro h
    obtain ⟨x, _, z, _, y, hy, h1, h2, h3, h4, h5⟩ := runs_two _ _ _ hs h
    exact ⟨x, h3, z, h4, y, hy, h1, h2, h5⟩
  · rintro ⟨x, hx, z, hz, y, hy, h1, h2, h3⟩
    obtain ⟨r, hr, r1, r2⟩ := runs_complete _ 0 all hs (count_le hs) x (hin x hx) hx
    obtain ⟨q, hq, q1, q2⟩ := runs_complete _ 0 all hs (count_le hs) z (hin z hz) hz
    have hne : r ≠ q := by
      intro e
      subst e
      exact h3 ((runs_sound _ _ _ hs r hr).2.2 y hy (by omega) (by omega))
    cases hl : runs m.words 0 all with
    | nil => rw [hl] at hr; cases hr
    | cons u l =>
      cases l with
      | nil =>
        rw [hl] at hr hq
        exact absurd ((List.mem_singleton.1 hr).trans (List.mem_singleton.1 hq).symm) hne
      | cons v l => simp

/-! ## Lemmas about pairs -/

theorem subset_iff {a b : List Nat} : subset a b = true ↔ ∀ x ∈ a, x ∈ b := by simp [subset]

theorem mem_combos {α : Type} (l : List α) (p : α × α) : p ∈ combos l ↔ ∃ (i j : Nat), i < j ∧ l[i]? = some p.1 ∧ l[j]? = some p.2 := by
  induction l with
  | nil => simp [combos]
  | cons a l ih =>
    rw [combos, List.mem_append, ih]
    constructor
    · rintro (h | ⟨i, j, h, h1, h2⟩)
      · obtain ⟨b, hb, rfl⟩ := List.mem_map.1 h
        obtain ⟨j, hj⟩ := List.mem_iff_getElem?.1 hb
        exact ⟨0, j + 1, by omega, rfl, by simpa using hj⟩
      · exact ⟨i + 1, j + 1, by omega, by simpa using h1, by simpa using h2⟩
    · rintro ⟨i, j, h, h1, h2⟩
      cases j with
      | zero => omega
      | succ j =>
        cases i with
        | zero =>
          simp only [List.getElem?_cons_zero, Option.some.injEq, List.getElem?_cons_succ] at h1 h2
          exact .inl (List.mem_map.2 ⟨p.2, List.mem_iff_getElem?.2 ⟨j, h2⟩, by rw [h1]⟩)
        | succ i =>
          simp only [List.getElem?_cons_succ] at h1 h2
          exact .inr ⟨i, j, by omega, h1, h2⟩

theorem mem_markAll (test : M → M → Bool) (ps : List (M × M)) (marked : List Nat) (w : Nat) :
    w ∈ markAll test ps marked ↔ w ∈ marked ∨ ∃ p ∈ ps, test p.1 p.2 = true ∧ (w ∈ p.1.words ∨ w ∈ p.2.words) := by
  induction ps generalizing marked with
  | nil => simp [markAll]
  | cons p ps ih =>
    rw [markAll, ih]
    cases hp : test p.1 p.2 with
    | true => simp [hp, or_assoc]
    | false => simp [hp]

/-- For a symmetric test the order of the mentions does not matter. -/
theorem mem_process {test : M → M → Bool} {ms : List M} (R : M → M → Prop) (hsymm : ∀ a b, R a b → R b a)
    (ht : ∀ a ∈ ms, ∀ b ∈ ms, test a b = true ↔ R a b) (marked : List Nat) (w : Nat) :
    w ∈ process test ms marked ↔ w ∈ marked ∨ ∃ a b, Two ms a b ∧ R a b ∧ w ∈ a.words := by
  unfold process
  rw [mem_markAll]
  constructor
  · rintro (h | ⟨p, hp, h1, h2⟩)
    · exact .inl h
    · obtain ⟨i, j, hij, hi, hj⟩ := (mem_combos ms p).1 hp
      have hr := (ht _ (List.mem_of_getElem? hi) _ (List.mem_of_getElem? hj)).1 h1
      rcases h2 with h2 | h2
      · exact .inr ⟨p.1, p.2, ⟨i, j, by omega, hi, hj⟩, hr, h2⟩
      · exact .inr ⟨p.2, p.1, ⟨j, i, by omega, hj, hi⟩, hsymm _ _ hr, h2⟩
  · rintro (h | ⟨a, b, ⟨i, j, hij, hi, hj⟩, hr, hw⟩)
    · exact .inl h
    · rcases Nat.lt_or_gt_of_ne hij with g | g
      · exact .inr ⟨(a, b), (mem_combos ms _).2 ⟨i, j, g, hi, hj⟩, (ht _ (List.mem_of_getElem? hi) _ (List.mem_of_getElem? hj)).2 hr, .inl hw⟩
      · exact .inr ⟨(b, a), (mem_combos ms _).2 ⟨j, i, g, hj, hi⟩, (ht _ (List.mem_of_getElem? hj) _ (List.mem_of_getElem? hi)).2 (hsymm _ _ hr), .inr hw⟩

theorem skipped_iff {o : Opt} {all : List Nat} {a b : M} (hs : all.Pairwise (· < ·)) (ha : Good all a) (hb : Good all b) :
    skipped o all a b = false ↔ Asked o all a b := by
  have h1 := comma_iff hs ha
  have h2 := comma_iff hs hb
  unfold skipped Asked
  rw [← h1, ← h2]
  cases o.sameOnly <;> cases o.bothDisc <;> cases comma all a <;> cases comma all b <;> simp

theorem asked_symm {o : Opt} {all : List Nat} {a b : M} (h : Asked o all a b) : Asked o all b a :=
  ⟨fun e => (h.1 e).symm, fun e => ⟨(h.2 e).2, (h.2 e).1⟩⟩

theorem before_iff {all : List Nat} {a b : M} (ha : Good all a) (hb : Good all b) : before a b = true ↔ ∀ x ∈ a.words, ∀ y ∈ b.words, x < y := by
  obtain ⟨x, xs, hx⟩ := List.exists_cons_of_ne_nil ha.1
  obtain ⟨y, ys, hy⟩ := List.exists_cons_of_ne_nil hb.1
  have hne : (x :: xs) ≠ [] := by simp
  have hlast : a.words.getLast? = some ((x :: xs).getLast hne) := by rw [hx]; exact List.getLast?_eq_some_getLast hne
  have hmem := List.getLast_mem hne
  have sa := ha.2.1
  have sb := hb.2.1
  rw [hx] at sa
  rw [hy] at sb
  have hle : ∀ z ∈ x :: xs, z ≤ (x :: xs).getLast hne := by
    intro z hz
    have hd := List.dropLast_concat_getLast hne
    rw [← hd] at hz sa
    rcases List.mem_append.1 hz with g | g
    · exact Nat.le_of_lt ((List.pairwise_append.1 sa).2.2 _ g _ (List.mem_singleton.2 rfl))
    · exact Nat.le_of_eq (List.mem_singleton.1 g)
  unfold before
  rw [hlast, hx, hy]
  simp only [List.head?_cons, Bool.and_eq_true, decide_eq_true_eq]
  constructor
  · rintro ⟨_, h2⟩ u hu v hv
    have := hle u hu
    rcases List.mem_cons.1 hv with rfl | hv
    · omega
    · have := (List.pairwise_cons.1 sb).1 v hv; omega
  · intro h
    exact ⟨h x List.mem_cons_self y List.mem_cons_self, h _ hmem y List.mem_cons_self⟩

theorem single_iff {l : List Nat} (hs : l.Pairwise (· < ·)) : single l = true ↔ l.length = 1 := by
  have : l.eraseDups = l := by
    induction l with
    | nil => rfl
    | cons a l ih =>
      rw [List.eraseDups_cons]
      have hf : l.filter (fun b => !b == a) = l := by
        rw [List.filter_eq_self]
        intro b hb
        have := (List.pairwise_cons.1 hs).1 b hb
        simp; omega
      rw [hf, ih (List.pairwise_cons.1 hs).2]
  unfold single
  rw [this, decide_eq_true_iff]

theorem inter_iff {all : List Nat} {a b : M} (ga : Good all a) (gb : Good all b) :
    (!(a.words.any (fun x => decide (x ∈ b.words))) && !before a b && !before b a) = true ↔ (∀ x ∈ a.words, x ∉ b.words) ∧ (Between a b ∨ Between b a) := by
  have hdis : (!(a.words.any (fun x => decide (x ∈ b.words)))) = true ↔ ∀ x ∈ a.words, x ∉ b.words := by simp
  rw [Bool.and_eq_true, Bool.and_eq_true, hdis, Bool.not_eq_true', Bool.not_eq_true', ← Bool.not_eq_true, ← Bool.not_eq_true, before_iff ga gb, before_iff gb ga]
  constructor
  · rintro ⟨⟨h1, h2⟩, h3⟩
    refine ⟨h1, ?_⟩
    obtain ⟨x, hx, y, hy, hxy⟩ : ∃ x ∈ a.words, ∃ y ∈ b.words, y < x := by
      refine Classical.byContradiction (fun hc => h2 (fun x hx y hy => ?_))
      rcases Nat.lt_trichotomy x y with g | g | g
      · exact g
      · exact absurd (g ▸ hy) (h1 x hx)
      · exact absurd ⟨x, hx, y, hy, g⟩ hc
    obtain ⟨u, hu, v, hv, huv⟩ : ∃ u ∈ a.words, ∃ v ∈ b.words, u < v := by
      refine Classical.byContradiction (fun hc => h3 (fun y hy x hx => ?_))
      rcases Nat.lt_trichotomy x y with g | g | g
      · exact absurd ⟨x, hx, y, hy, g⟩ hc
      · exact absurd (g ▸ hy) (h1 x hx)
      · exact g
    rcases Nat.lt_trichotomy v x with g | g | g
    · exact .inl ⟨u, hu, v, hv, x, hx, huv, g⟩
    · exact absurd (g ▸ hv) (h1 x hx)
    · exact .inr ⟨y, hy, x, hx, v, hv, hxy, g⟩
  · rintro ⟨h2, h3⟩
    refine ⟨⟨h2, fun h => ?_⟩, fun h => ?_⟩
    · rcases h3 with ⟨x, hx, y, hy, z, hz, g1, g2⟩ | ⟨x, hx, y, hy, z, hz, g1, g2⟩
      · have := h z hz y hy; omega
      · have := h y hy x hx; omega
    · rcases h3 with ⟨x, hx, y, hy, z, hz, g1, g2⟩ | ⟨x, hx, y, hy, z, hz, g1, g2⟩
      · have := h y hy x hx; omega
      · have := h z hz y hy; omega

theorem ok_iff {c : Bool} {v : Int} {P : Prop} (h : c = true ↔ P) (hv : v = -1 ∨ v = 0 ∨ v = 1) : ok c v = true ↔ Wants v P := by
  unfold ok Wants
  rw [← h]
  rcases hv with rfl | rfl | rfl <;> cases c <;> simp

theorem wants_zero {v : Int} {P : Prop} (hv : v = 0) : Wants v P := by subst hv; exact ⟨fun h => by simp at h, fun h => by simp at h⟩

theorem sorted_ext : ∀ {a b : List Nat}, a.Pairwise (· < ·) → b.Pairwise (· < ·) → (∀ x, x ∈ a ↔ x ∈ b) → a = b
  | [], [], _, _, _ => rfl
  | [], y :: b, _, _, h => by have := (h y).2 List.mem_cons_self; cases this
  | x :: a, [], _, _, h => by have := (h x).1 List.mem_cons_self; cases this
  | x :: a, y :: b, ha, hb, h => by
    obtain ⟨ha1, ha2⟩ := List.pairwise_cons.1 ha
    obtain ⟨hb1, hb2⟩ := List.pairwise_cons.1 hb
    have e : x = y := by
      rcases List.mem_cons.1 ((h x).1 List.mem_cons_self) with e | hx
      · exact e
      · rcases List.mem_cons.1 ((h y).2 List.mem_cons_self) with e | hy
        · exact e.symm
        · have := hb1 x hx; have := ha1 y hy; omega
    subst e
    rw [sorted_ext ha2 hb2 (fun z => ?_)]
    constructor
    · intro hz
      rcases List.mem_cons.1 ((h z).1 (List.mem_cons_of_mem _ hz)) with e | hz'
      · have := ha1 z hz; omega
      · exact hz'
    · intro hz
      rcases List.mem_cons.1 ((h z).2 (List.mem_cons_of_mem _ hz)) with e | hz'
      · have := hb1 z hz; omega
      · exact hz'

theorem span_eq_iff {all : List Nat} {a b : M} (hs : all.Pairwise (· < ·)) (ga : Good all a) (gb : Good all b) :
    nodesToSpan all a.words = nodesToSpan all b.words ↔ Sub a b ∧ Sub b a := by
  constructor
  · intro h
    have := C36_span_injective hs ga.1 gb.1 ga.2.2 gb.2.2 h
    exact ⟨fun x hx => (this x).1 hx, fun x hx => (this x).2 hx⟩
  · rintro ⟨h1, h2⟩
    rw [sorted_ext ga.2.1 gb.2.1 (fun x => ⟨h1 x, h2 x⟩)]

theorem pairTest_iff {o : Props} (ho : o.Valid) {all : List Nat} {a b : M} (hs : all.Pairwise (· < ·)) (ga : Good all a) (gb : Good all b) :
    pairTest o all a b = true ↔ Match o all a b := by
  have v : ∀ v ∈ [o.sameEntity, o.bothCont, o.bothDisc, o.nested, o.crossing, o.interleaved, o.sameHead, o.sameSpan, o.sameSub], v = -1 ∨ v = 0 ∨ v = 1 := ho
  simp only [List.mem_cons, List.not_mem_nil, or_false, forall_eq_or_imp, forall_eq] at v
  obtain ⟨v1, v2, v3, v4, v5, v6, v7, v8, v9⟩ := v
  have ca := comma_iff hs ga
  have cb := comma_iff hs gb
  have t1 : ok (decide (a.entity = b.entity)) o.sameEntity = true ↔ _ := ok_iff decide_eq_true_iff v1
  have t2 : ok (decide (a.head = b.head)) o.sameHead = true ↔ _ := ok_iff decide_eq_true_iff v7
  have t3 : ok (!comma all a && !comma all b) o.bothCont = true ↔ Wants o.bothCont (¬ Gap all a.words ∧ ¬ Gap all b.words) := ok_iff (by rw [← ca, ← cb]; simp) v2
  have t4 : ok (comma all a && comma all b) o.bothDisc = true ↔ Wants o.bothDisc (Gap all a.words ∧ Gap all b.words) := ok_iff (by rw [← ca, ← cb]; simp) v3
  have t5 : ok (decide (nodesToSpan all a.words = nodesToSpan all b.words)) o.sameSpan = true ↔ Wants o.sameSpan (Sub a b ∧ Sub b a) :=
    ok_iff (by rw [← span_eq_iff hs ga gb]; exact decide_eq_true_iff) v8
  have t6 : ok ((split ',' (nodesToSpan all a.words)).any (fun p => decide (p ∈ split ',' (nodesToSpan all b.words)))) o.sameSub = true ↔
      Wants o.sameSub (∃ lo hi, Run all a.words lo hi ∧ Run all b.words lo hi) := ok_iff (by rw [← common_part hs ga.1 gb.1 ga.2.2 gb.2.2]; simp) v9
  have t7 : ok (subset a.words b.words || subset b.words a.words) o.nested = true ↔ Wants o.nested (Sub a b ∨ Sub b a) :=
    ok_iff (by rw [Bool.or_eq_true, subset_iff, subset_iff]; rfl) v4
  have t8 : ok (a.words.any (fun x => decide (x ∈ b.words)) && !subset a.words b.words && !subset b.words a.words) o.crossing = true ↔
      Wants o.crossing ((∃ x ∈ a.words, x ∈ b.words) ∧ ¬ Sub a b ∧ ¬ Sub b a) := ok_iff (by
        have h1 := subset_iff (a := a.words) (b := b.words)
        have h2 := subset_iff (a := b.words) (b := a.words)
        unfold Sub
        rw [← h1, ← h2, Bool.and_eq_true, Bool.and_eq_true, and_assoc]
        simp) v5
  have t9 : ok (!(a.words.any (fun x => decide (x ∈ b.words))) && !before a b && !before b a) o.interleaved = true ↔
      Wants o.interleaved ((∀ x ∈ a.words, x ∉ b.words) ∧ (Between a b ∨ Between b a)) := ok_iff (inter_iff ga gb) v6
  unfold pairTest Match
  rw [Bool.and_eq_true, Bool.and_eq_true, Bool.and_eq_true, t1, t2]
  have part1 : (if o.bothCont ≠ 0 ∨ o.bothDisc ≠ 0 ∨ o.sameSpan ≠ 0 ∨ o.sameSub ≠ 0 then
      ok (!comma all a && !comma all b) o.bothCont && ok (comma all a && comma all b) o.bothDisc &&
      ok (decide (nodesToSpan all a.words = nodesToSpan all b.words)) o.sameSpan &&
      ok ((split ',' (nodesToSpan all a.words)).any (fun p => decide (p ∈ split ',' (nodesToSpan all b.words)))) o.sameSub else true) = true ↔
      Wants o.bothCont (¬ Gap all a.words ∧ ¬ Gap all b.words) ∧ Wants o.bothDisc (Gap all a.words ∧ Gap all b.words) ∧ Wants o.sameSpan (Sub a b ∧ Sub b a) ∧
      Wants o.sameSub (∃ lo hi, Run all a.words lo hi ∧ Run all b.words lo hi) := by
    split
    · rw [Bool.and_eq_true, Bool.and_eq_true, Bool.and_eq_true, t3, t4, t5, t6, and_assoc, and_assoc]
    · rename_i h
      simp only [not_or, Decidable.not_not] at h
      exact ⟨fun _ => ⟨wants_zero h.1, wants_zero h.2.1, wants_zero h.2.2.1, wants_zero h.2.2.2⟩, fun _ => rfl⟩
  have part2 : (if o.nested ≠ 0 ∨ o.crossing ≠ 0 ∨ o.interleaved ≠ 0 then
      ok (subset a.words b.words || subset b.words a.words) o.nested &&
      ok (a.words.any (fun x => decide (x ∈ b.words)) && !subset a.words b.words && !subset b.words a.words) o.crossing &&
      (if o.interleaved ≠ 0 then ok (!(a.words.any (fun x => decide (x ∈ b.words))) && !before a b && !before b a) o.interleaved else true) else true) = true ↔
      Wants o.nested (Sub a b ∨ Sub b a) ∧ Wants o.crossing ((∃ x ∈ a.words, x ∈ b.words) ∧ ¬ Sub a b ∧ ¬ Sub b a) ∧
      Wants o.interleaved ((∀ x ∈ a.words, x ∉ b.words) ∧ (Between a b ∨ Between b a)) := by
    have t9' : (if o.interleaved ≠ 0 then ok (!(a.words.any (fun x => decide (x ∈ b.words))) && !before a b && !before b a) o.interleaved else true) = true ↔
        Wants o.interleaved ((∀ x ∈ a.words, x ∉ b.words) ∧ (Between a b ∨ Between b a)) := by
      split
      · exact t9
      · rename_i h
        exact ⟨fun _ => wants_zero (Decidable.not_not.1 h), fun _ => rfl⟩
    split
    · rw [Bool.and_eq_true, Bool.and_eq_true, t7, t8, t9', and_assoc]
    · rename_i h
      simp only [not_or, Decidable.not_not] at h
      exact ⟨fun _ => ⟨wants_zero h.1, wants_zero h.2.1, wants_zero h.2.2⟩, fun _ => rfl⟩
  rw [part1, part2]
  constructor
  · rintro ⟨⟨⟨h1, h2⟩, h3, h4, h5, h6⟩, h7, h8, h9⟩; exact ⟨h1, h2, h3, h4, h5, h6, h7, h8, h9⟩
  · rintro ⟨h1, h2, h3, h4, h5, h6, h7, h8, h9⟩; exact ⟨⟨⟨h1, h2⟩, h3, h4, h5, h6⟩, h7, h8, h9⟩

theorem wants_congr {v : Int} {P Q : Prop} (h : P ↔ Q) (w : Wants v P) : Wants v Q := ⟨fun e => h.1 (w.1 e), fun e q => w.2 e (h.2 q)⟩

theorem match_symm {o : Props} {all : List Nat} {a b : M} (h : Match o all a b) : Match o all b a := by
  obtain ⟨h1, h2, h3, h4, h5, h6, h7, h8, h9⟩ := h
  refine ⟨wants_congr eq_comm h1, wants_congr eq_comm h2, wants_congr and_comm h3, wants_congr and_comm h4, wants_congr and_comm h5, wants_congr ?_ h6,
    wants_congr or_comm h7, wants_congr ?_ h8, wants_congr ?_ h9⟩
  · exact ⟨fun ⟨l, k, g1, g2⟩ => ⟨l, k, g2, g1⟩, fun ⟨l, k, g1, g2⟩ => ⟨l, k, g2, g1⟩⟩
  · exact ⟨fun ⟨⟨x, g1, g2⟩, g3, g4⟩ => ⟨⟨x, g2, g1⟩, g4, g3⟩, fun ⟨⟨x, g1, g2⟩, g3, g4⟩ => ⟨⟨x, g2, g1⟩, g4, g3⟩⟩
  · exact ⟨fun ⟨g1, g2⟩ => ⟨fun x hx hx' => g1 x hx' hx, g2.symm⟩, fun ⟨g1, g2⟩ => ⟨fun x hx hx' => g1 x hx' hx, g2.symm⟩⟩

/-! ## Theorems -/

variable {all : List Nat} {ms : List M}

/-- **C160, corefud.MarkNested.** Besides the nodes that were marked before, exactly the words of those mentions are marked that are part of another
mention or contain one (also with the same words), as far as the parameters ask for. -/
theorem C160_nested (o : Opt) (hs : all.Pairwise (· < ·)) (hg : ∀ m ∈ ms, Good all m) (marked : List Nat) (w : Nat) :
    w ∈ process (nested o all) ms marked ↔ w ∈ marked ∨ ∃ a b, Two ms a b ∧ (Asked o all a b ∧ (Sub a b ∨ Sub b a) ∧
      (o.multiword = true → a.words.length ≠ 1 ∧ b.words.length ≠ 1)) ∧ w ∈ a.words := by
  apply mem_process (fun a b => Asked o all a b ∧ (Sub a b ∨ Sub b a) ∧ (o.multiword = true → a.words.length ≠ 1 ∧ b.words.length ≠ 1))
  · rintro a b ⟨h1, h2, h3⟩
    exact ⟨asked_symm h1, h2.symm, fun e => (h3 e).symm⟩
  · intro a ha b hb
    unfold nested
    rw [Bool.and_eq_true, Bool.and_eq_true, Bool.not_eq_true', skipped_iff hs (hg a ha) (hg b hb), Bool.or_eq_true, subset_iff, subset_iff, and_assoc]
    refine and_congr Iff.rfl (and_congr Iff.rfl ?_)
    have h1 := single_iff (hg a ha).2.1
    have h2 := single_iff (hg b hb).2.1
    cases o.multiword <;> simp [← h1, ← h2]

/-- **C160, corefud.MarkInterleaved.** Exactly the words of those pairs of mentions are marked that have no common word and of which one has a word
between two words of the other. -/
theorem C160_interleaved (o : Opt) (hs : all.Pairwise (· < ·)) (hg : ∀ m ∈ ms, Good all m) (marked : List Nat) (w : Nat) :
    w ∈ process (interleaved o all) ms marked ↔ w ∈ marked ∨ ∃ a b, Two ms a b ∧ (Asked o all a b ∧ (∀ x ∈ a.words, x ∉ b.words) ∧
      (Between a b ∨ Between b a)) ∧ w ∈ a.words := by
  apply mem_process (fun a b => Asked o all a b ∧ (∀ x ∈ a.words, x ∉ b.words) ∧ (Between a b ∨ Between b a))
  · rintro a b ⟨h1, h2, h3⟩
    exact ⟨asked_symm h1, fun x hx hx' => h2 x hx' hx, h3.symm⟩
  · intro a ha b hb
    have ga := hg a ha
    have gb := hg b hb
    unfold interleaved
    rw [Bool.and_eq_true, Bool.and_eq_true, Bool.and_eq_true, Bool.not_eq_true' (skipped o all a b), skipped_iff hs ga gb]
    have hdis : (!(a.words.any (fun x => decide (x ∈ b.words)))) = true ↔ ∀ x ∈ a.words, x ∉ b.words := by simp
    have hint := inter_iff ga gb
    rw [Bool.and_eq_true, Bool.and_eq_true, hdis] at hint
    rw [hdis, and_comm, hint]

/-- **C160, corefud.MarkSameSubSpan.** Exactly the words of those pairs of mentions are marked that have a common longest part without gaps. -/
theorem C160_subspan (o : Opt) (hs : all.Pairwise (· < ·)) (hg : ∀ m ∈ ms, Good all m) (marked : List Nat) (w : Nat) :
    w ∈ process (sameSub o all) ms marked ↔ w ∈ marked ∨ ∃ a b, Two ms a b ∧ (Asked o all a b ∧ (o.nestedOnly = true → Sub a b ∨ Sub b a) ∧
      ∃ lo hi, Run all a.words lo hi ∧ Run all b.words lo hi) ∧ w ∈ a.words := by
  apply mem_process (fun a b => Asked o all a b ∧ (o.nestedOnly = true → Sub a b ∨ Sub b a) ∧ ∃ lo hi, Run all a.words lo hi ∧ Run all b.words lo hi)
  · rintro a b ⟨h1, h2, lo, hi, h3, h4⟩
    exact ⟨asked_symm h1, fun e => (h2 e).symm, lo, hi, h4, h3⟩
  · intro a ha b hb
    have ga := hg a ha
    have gb := hg b hb
    unfold sameSub
    rw [Bool.and_eq_true, Bool.and_eq_true, Bool.not_eq_true', skipped_iff hs ga gb, and_assoc, ← common_part hs ga.1 gb.1 ga.2.2 gb.2.2]
    refine and_congr Iff.rfl (and_congr ?_ (by simp))
    have h1 := subset_iff (a := a.words) (b := b.words)
    have h2 := subset_iff (a := b.words) (b := a.words)
    unfold Sub
    rw [← h1, ← h2]
    cases o.nestedOnly <;> cases subset a.words b.words <;> cases subset b.words a.words <;> simp

/-- **C160, corefud.MarkCrossing.** Exactly those words are marked that belong to two mentions of which neither contains the other. Missing: empty nodes
are never marked. -/
theorem C160_crossing_partial (o : Opt) (hs : all.Pairwise (· < ·)) (hg : ∀ m ∈ ms, Good all m) (marked : List Nat) (w : Nat) (hw : w ∈ all) (hword : w % 10 = 0) :
    w ∈ markCrossing o all ms marked ↔ w ∈ marked ∨ ∃ a b, Two ms a b ∧ w ∈ a.words ∧ w ∈ b.words ∧ ¬ Sub a b ∧ ¬ Sub b a ∧
      (o.sameOnly = true → a.entity = b.entity) ∧ (o.bothDisc = true → ¬ Gap all a.words ∧ ¬ Gap all b.words) := by
  have htest : ∀ a b, Good all a → Good all b → (crossing o all a b = true ↔ ¬ Sub a b ∧ ¬ Sub b a ∧ (o.sameOnly = true → a.entity = b.entity) ∧
      (o.bothDisc = true → ¬ Gap all a.words ∧ ¬ Gap all b.words)) := by
    intro a b ga gb
    have h1 := comma_iff hs ga
    have h2 := comma_iff hs gb
    have h3 := subset_iff (a := a.words) (b := b.words)
    have h4 := subset_iff (a := b.words) (b := a.words)
    unfold crossing Sub
    rw [← h1, ← h2, ← h3, ← h4]
    cases o.sameOnly <;> cases o.bothDisc <;> cases comma all a <;> cases comma all b <;> cases subset a.words b.words <;> cases subset b.words a.words <;> simp
  have hfil : ∀ (l : List M) (i j : Nat) (a b : M), i < j → l[i]? = some a → l[j]? = some b → w ∈ a.words → w ∈ b.words →
      ∃ (i' j' : Nat), i' < j' ∧ (l.filter (fun m => decide (w ∈ m.words)))[i']? = some a ∧ (l.filter (fun m => decide (w ∈ m.words)))[j']? = some b := by
    intro l
    induction l with
    | nil => intro i j a b _ h; simp at h
    | cons m l ih =>
      intro i j a b hij hi hj ha hb
      cases j with
      | zero => omega
      | succ j =>
        rw [List.getElem?_cons_succ] at hj
        cases i with
        | zero =>
          rw [List.getElem?_cons_zero, Option.some.injEq] at hi
          subst hi
          rw [List.filter_cons_of_pos (by simpa using ha)]
          obtain ⟨j', hj'⟩ := List.mem_iff_getElem?.1 (List.mem_filter (p := fun m : M => decide (w ∈ m.words)) |>.2 ⟨List.mem_of_getElem? hj, by simpa using hb⟩)
          exact ⟨0, j' + 1, by omega, rfl, by simpa using hj'⟩
        | succ i =>
          rw [List.getElem?_cons_succ] at hi
          obtain ⟨i', j', h1, h2, h3⟩ := ih i j a b (by omega) hi hj ha hb
          by_cases hm : w ∈ m.words
          · rw [List.filter_cons_of_pos (by simpa using hm)]
            exact ⟨i' + 1, j' + 1, by omega, by simpa using h2, by simpa using h3⟩
          · rw [List.filter_cons_of_neg (by simpa using hm)]
            exact ⟨i', j', h1, h2, h3⟩
  have hunfil : ∀ (l : List M) (i' j' : Nat) (a b : M), i' < j' → (l.filter (fun m => decide (w ∈ m.words)))[i']? = some a →
      (l.filter (fun m => decide (w ∈ m.words)))[j']? = some b → ∃ (i j : Nat), i < j ∧ l[i]? = some a ∧ l[j]? = some b := by
    intro l
    induction l with
    | nil => intro i j a b _ h; simp at h
    | cons m l ih =>
      intro i' j' a b hij hi hj
      by_cases hm : w ∈ m.words
      · rw [List.filter_cons_of_pos (by simpa using hm)] at hi hj
        cases j' with
        | zero => omega
        | succ j' =>
          rw [List.getElem?_cons_succ] at hj
          cases i' with
          | zero =>
            rw [List.getElem?_cons_zero] at hi
            obtain ⟨j, hj'⟩ := List.mem_iff_getElem?.1 (List.mem_filter.1 (List.mem_of_getElem? hj)).1
            exact ⟨0, j + 1, by omega, hi, by simpa using hj'⟩
          | succ i' =>
            rw [List.getElem?_cons_succ] at hi
            obtain ⟨i, j, h1, h2, h3⟩ := ih i' j' a b (by omega) hi hj
            exact ⟨i + 1, j + 1, by omega, by simpa using h2, by simpa using h3⟩
      · rw [List.filter_cons_of_neg (by simpa using hm)] at hi hj
        obtain ⟨i, j, h1, h2, h3⟩ := ih i' j' a b hij hi hj
        exact ⟨i + 1, j + 1, by omega, by simpa using h2, by simpa using h3⟩
  unfold markCrossing
  rw [List.mem_append, List.mem_filter]
  refine or_congr Iff.rfl ?_
  simp only [hw, hword, decide_true, Bool.true_and, true_and, List.any_eq_true]
  constructor
  · rintro ⟨p, hp, ht⟩
    obtain ⟨i, j, hij, hi, hj⟩ := (mem_combos _ p).1 hp
    have m1 := List.mem_filter.1 (List.mem_of_getElem? hi)
    have m2 := List.mem_filter.1 (List.mem_of_getElem? hj)
    obtain ⟨i', j', hij', hi', hj'⟩ := hunfil _ i j _ _ hij hi hj
    refine ⟨p.1, p.2, ⟨i', j', by omega, hi', hj'⟩, by simpa using m1.2, by simpa using m2.2, ?_⟩
    exact (htest _ _ (hg _ m1.1) (hg _ m2.1)).1 ht
  · rintro ⟨a, b, ⟨i, j, hij, hi, hj⟩, ha, hb, h1, h2, h3, h4⟩
    have ga := hg a (List.mem_of_getElem? hi)
    have gb := hg b (List.mem_of_getElem? hj)
    rcases Nat.lt_or_gt_of_ne hij with g | g
    · obtain ⟨i', j', hij', hi', hj'⟩ := hfil ms i j a b g hi hj ha hb
      exact ⟨(a, b), (mem_combos _ _).2 ⟨i', j', hij', hi', hj'⟩, (htest a b ga gb).2 ⟨h1, h2, h3, h4⟩⟩
    · obtain ⟨i', j', hij', hi', hj'⟩ := hfil ms j i b a g hj hi hb ha
      exact ⟨(b, a), (mem_combos _ _).2 ⟨i', j', hij', hi', hj'⟩, (htest b a gb ga).2 ⟨h2, h1, fun e => (h3 e).symm, fun e => (h4 e).symm⟩⟩

/-- **C160 violated (empty nodes).** Mentions that cross only at empty nodes are not found: nothing is marked, whatever the tree. -/
theorem C160_empty_violated (o : Opt) (h : ∀ w ∈ all, w % 10 = 0 → ∀ a b, Two ms a b → w ∈ a.words → w ∈ b.words → Sub a b ∨ Sub b a)
    (hs : all.Pairwise (· < ·)) (hg : ∀ m ∈ ms, Good all m) (marked : List Nat) : markCrossing o all ms marked = marked := by
  have : ∀ w, w ∈ all.filter (fun w => decide (w % 10 = 0) && (combos (ms.filter (fun m => decide (w ∈ m.words)))).any (fun p => crossing o all p.1 p.2)) → False := by
    intro w hw
    have hm := List.mem_filter.1 hw
    simp only [Bool.and_eq_true, decide_eq_true_eq] at hm
    rcases (C160_crossing_partial o hs hg [] w hm.1 hm.2.1).1 (by unfold markCrossing; exact List.mem_append_right _ hw) with g | ⟨a, b, h1, h2, h3, h4, h5, _⟩
    · cases g
    · rcases h w hm.1 hm.2.1 a b h1 h2 h3 with g | g
      · exact h4 g
      · exact h5 g
  unfold markCrossing
  rw [List.eq_nil_iff_forall_not_mem.2 this, List.append_nil]

/-- **C160, corefud.MarkPairs.** Exactly the words of those pairs of mentions are marked that have all the properties with the value 1 and none of
the properties with the value -1. -/
theorem C160_pairs {o : Props} (ho : o.Valid) (hs : all.Pairwise (· < ·)) (hg : ∀ m ∈ ms, Good all m) (marked : List Nat) (w : Nat) :
    w ∈ process (pairTest o all) ms marked ↔ w ∈ marked ∨ ∃ a b, Two ms a b ∧ Match o all a b ∧ w ∈ a.words :=
  mem_process (Match o all) (fun _ _ => match_symm) (fun a ha b hb => pairTest_iff ho hs (hg a ha) (hg b hb)) marked w

/-- **C160, the counters of corefud.MarkPairs.** All pairs of `n` mentions are counted once; a further mention adds as many matching pairs as there are
mentions it matches. -/
theorem C160_counts (test : M → M → Bool) : 2 * (counts test ms).1 = ms.length * (ms.length - 1) ∧ (counts test []).2 = 0 ∧
    ∀ a, (counts test (a :: ms)).2 = (ms.filter (test a)).length + (counts test ms).2 := by
  refine ⟨?_, rfl, fun a => ?_⟩
  · show 2 * (combos ms).length = _
    induction ms with
    | nil => rfl
    | cons a l ih =>
      rw [combos, List.length_append, List.length_map, Nat.mul_add, ih, List.length_cons, Nat.add_sub_cancel]
      cases l with
      | nil => rfl
      | cons b l => simp only [List.length_cons, Nat.add_sub_cancel]; rw [Nat.mul_comm 2, ← Nat.mul_add, Nat.mul_comm]; congr 1; omega
  · show ((combos (a :: ms)).filter _).length = _
    rw [combos, List.filter_append, List.length_append, List.filter_map, List.length_map]
    rfl

/-- **C160 violated (same_subspan).** According to the documentation of MarkPairs, `same_subspan` is a property only of pairs at least one of which is
discontinuous. But any two mentions with the same words and without gaps are marked with `same_subspan=only`. -/
theorem C160_samesub_violated (hs : all.Pairwise (· < ·)) (hg : ∀ m ∈ ms, Good all m) {a b : M} (hab : Two ms a b) (he : a.words = b.words) (_ : ¬ Gap all a.words)
    (marked : List Nat) {w : Nat} (hw : w ∈ a.words) : w ∈ process (pairTest ⟨0, 0, 0, 0, 0, 0, 0, 0, 1⟩ all) ms marked := by
  obtain ⟨i, j, hij, hi, hj⟩ := hab
  have ga := hg a (List.mem_of_getElem? hi)
  rw [C160_pairs (by intro v; simp; omega) hs hg]
  refine .inr ⟨a, b, ⟨i, j, hij, hi, hj⟩, ⟨wants_zero rfl, wants_zero rfl, wants_zero rfl, wants_zero rfl, wants_zero rfl, ⟨fun _ => ?_, fun h => by simp at h⟩,
    wants_zero rfl, wants_zero rfl, wants_zero rfl⟩, hw⟩
  obtain ⟨x, l, hx⟩ := List.exists_cons_of_ne_nil ga.1
  obtain ⟨r, hr, _⟩ := runs_complete a.words 0 all hs (count_le hs) x (ga.2.2 x (by rw [hx]; exact List.mem_cons_self)) (by rw [hx]; exact List.mem_cons_self)
  have := (mem_runs a.words 0 all hs (count_le hs) r.1 r.2).1 hr
  exact ⟨r.1, r.2, this, he ▸ this⟩

/-! ## Examples -/

def exAll : List Nat := [10, 20, 21, 30, 40]
def exOpt : Opt := ⟨false, false, false, false⟩

/-- The two mentions cross at the empty node 2.1. -/
example : markCrossing exOpt exAll [⟨[20, 21], 1, 0⟩, ⟨[21, 30], 2, 0⟩] [] = [] := by decide +kernel
example : markCrossing exOpt exAll [⟨[20, 21], 1, 0⟩, ⟨[10, 20], 2, 0⟩] [] = [20] := by decide +kernel
example : process (interleaved exOpt exAll) [⟨[10, 30], 1, 0⟩, ⟨[20, 40], 2, 0⟩] [] = [10, 30, 20, 40] := by decide +kernel
example : process (sameSub exOpt exAll) [⟨[10, 30], 1, 0⟩, ⟨[30], 2, 0⟩, ⟨[30, 40], 3, 0⟩] [] = [10, 30, 30] := by decide +kernel
example : process (nested exOpt exAll) [⟨[10, 30], 1, 0⟩, ⟨[30], 1, 0⟩, ⟨[40], 3, 0⟩] [] = [10, 30, 30] := by decide +kernel
/-- Nested mentions with different heads -/
example : process (pairTest ⟨0, 0, 0, 1, 0, 0, -1, 0, 0⟩ exAll) [⟨[10, 20], 1, 10⟩, ⟨[20], 2, 20⟩, ⟨[40], 3, 40⟩] [] = [10, 20, 20] := by decide +kernel

end Verif.Coref.MarkPairs
