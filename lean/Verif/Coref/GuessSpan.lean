import Verif.Coref.MarkPairs

/-!
# Property C164: guessing the words of mentions (udapi/block/corefud/guessspan.py)

One tree with `n` words; its nodes are named by their `ord` in tenths as in `Span.lean` (so at most nine empty nodes follow each other). `empties` is
`root.empty_nodes`, `par e` are the enhanced parents of the empty node `e`. `mw` is `mention.head.descendants(add_self=True)`: the words of the subtree of the head in
word order, or only the head if it is an empty node. What the setter of `mention.words` does with the old and the new words is not modelled here.
-/

namespace Verif.Coref.GuessSpan
open Verif.Py Verif.Coref Verif.Coref.MarkPairs

/-- `root.descendants[i]`; an empty node is never before the first word here, so the index is not negative. -/
def wordAt (n i : Nat) : Option Nat := if i < n then some (10 * (i + 1)) else none

/-- The loop over the empty nodes (guessspan.py:19-31); `lo`, `hi` are `min_ord` and `max_ord`. `none`: IndexError -/
def loop (n : Nat) (par : Nat → List Nat) (mw : List Nat) (lo hi : Nat) : List Nat → Option (List Nat)
  | [] => some []
  | e :: es =>
    if e ∈ mw then loop n par mw lo hi es
    else if e > hi then some []
    else if e > lo then
      if (par e).any (fun p => decide (p ∈ mw)) then (loop n par mw lo hi es).map (e :: ·)
      else if e > lo + 10 ∧ e + 10 < hi then
        match wordAt n (e / 10 - 1), wordAt n (e / 10) with
        | some p, some q => if p ∈ mw ∧ q ∈ mw then (loop n par mw lo hi es).map (e :: ·) else loop n par mw lo hi es
        | _, _ => none
      else loop n par mw lo hi es
    else loop n par mw lo hi es

/-- `process_coref_mention` (guessspan.py:6-33): the new words of the mention -/
def guess (n : Nat) (empties : List Nat) (par : Nat → List Nat) (mw : List Nat) : Option (List Nat) :=
  match mw.head?, mw.getLast? with
  | some first, some last =>
    (loop n par mw (if first % 10 ≠ 0 then first / 10 * 10 else first - 10) (last / 10 * 10 + 10) empties).map (fun add => pySort (fun a b => decide (a ≤ b)) (mw ++ add))
  | _, _ => none

/-! ## What the properties say -/

/-- The empty nodes of a tree -/
def Empties (n : Nat) (es : List Nat) : Prop := es.Pairwise (· < ·) ∧ ∀ e ∈ es, e % 10 ≠ 0 ∧ e / 10 ≤ n

/-- The words of the subtree of a word, in order -/
def Subtree (n : Nat) (mw : List Nat) : Prop := mw ≠ [] ∧ mw.Pairwise (· < ·) ∧ ∀ w ∈ mw, w % 10 = 0 ∧ 10 ≤ w ∧ w ≤ 10 * n

/-- The empty node is between two words of the subtree, or directly before or after one, without another word between them. -/
def Near (mw : List Nat) (e : Nat) : Prop := (∃ w ∈ mw, w < e + 10) ∧ (∃ w ∈ mw, e < w + 10)

/-- Both words next to the empty node are in the subtree. -/
def Inside (mw : List Nat) (e : Nat) : Prop := e / 10 * 10 ∈ mw ∧ e / 10 * 10 + 10 ∈ mw

/-! ## Lemmas -/

theorem first_le {mw : List Nat} (h : mw.Pairwise (· < ·)) {f : Nat} (hf : mw.head? = some f) : f ∈ mw ∧ ∀ w ∈ mw, f ≤ w := by
  cases mw with
  | nil => cases hf
  | cons a l =>
    cases hf
    refine ⟨List.mem_cons_self, fun w hw => ?_⟩
    rcases List.mem_cons.1 hw with rfl | hw
    · exact Nat.le_refl _
    · exact Nat.le_of_lt ((List.pairwise_cons.1 h).1 w hw)

theorem last_ge {mw : List Nat} (h : mw.Pairwise (· < ·)) {f : Nat} (hf : mw.getLast? = some f) : f ∈ mw ∧ ∀ w ∈ mw, w ≤ f := by
  obtain ⟨l, rfl⟩ := List.getLast?_eq_some_iff.1 hf
  refine ⟨by simp, fun w hw => ?_⟩
  rcases List.mem_append.1 hw with hw | hw
  · exact Nat.le_of_lt ((List.pairwise_append.1 h).2.2 w hw f (by simp))
  · rw [List.mem_singleton.1 hw]; exact Nat.le_refl _

/-- The condition for one empty node -/
def Take (par : Nat → List Nat) (mw : List Nat) (lo hi e : Nat) : Prop :=
  e ∉ mw ∧ e ≤ hi ∧ lo < e ∧ ((∃ p ∈ par e, p ∈ mw) ∨ (lo + 10 < e ∧ e + 10 < hi ∧ Inside mw e))

theorem loop_spec (n : Nat) (par : Nat → List Nat) (mw : List Nat) (lo hi : Nat) (hhi : hi ≤ 10 * n + 10) : ∀ es : List Nat, es.Pairwise (· < ·) →
    ∃ l, loop n par mw lo hi es = some l ∧ l.Sublist es ∧ ∀ e, e ∈ l ↔ e ∈ es ∧ Take par mw lo hi e
  | [], _ => ⟨[], rfl, List.Sublist.refl _, fun e => by simp⟩
  | e :: es, h => by
    obtain ⟨h1, h2⟩ := List.pairwise_cons.1 h
    obtain ⟨l, g1, g2, g3⟩ := loop_spec n par mw lo hi hhi es h2
    have skip : ¬ Take par mw lo hi e → ∀ x, x ∈ l ↔ x ∈ e :: es ∧ Take par mw lo hi x := by
      intro hn x
      rw [g3 x]
      constructor
      · rintro ⟨a, b⟩; exact ⟨List.mem_cons_of_mem _ a, b⟩
      · rintro ⟨a, b⟩
        rcases List.mem_cons.1 a with rfl | a
        · exact absurd b hn
        · exact ⟨a, b⟩
    have take : Take par mw lo hi e → ∀ x, x ∈ e :: l ↔ x ∈ e :: es ∧ Take par mw lo hi x := by
      intro ht x
      rw [List.mem_cons, List.mem_cons, g3 x]
      constructor
      · rintro (rfl | ⟨a, b⟩)
        · exact ⟨.inl rfl, ht⟩
        · exact ⟨.inr a, b⟩
      · rintro ⟨(rfl | a), b⟩
        · exact .inl rfl
        · exact .inr ⟨a, b⟩
    rw [loop]
    by_cases hm : e ∈ mw
    · rw [if_pos hm]
      exact ⟨l, g1, g2.cons _, skip (fun t => t.1 hm)⟩
    rw [if_neg hm]
    by_cases hh : e > hi
    · rw [if_pos hh]
      refine ⟨[], rfl, List.nil_sublist _, fun x => ⟨fun hx => (by cases hx), ?_⟩⟩
      rintro ⟨a, t⟩
      have := t.2.1
      rcases List.mem_cons.1 a with rfl | a
      · omega
      · have := h1 x a; omega
    rw [if_neg hh]
    by_cases hl : e > lo
    · rw [if_pos hl]
      by_cases hp : (par e).any (fun p => decide (p ∈ mw)) = true
      · rw [if_pos hp, g1]
        refine ⟨e :: l, rfl, g2.cons_cons _, take ⟨hm, by omega, hl, .inl ?_⟩⟩
        simpa using hp
      rw [if_neg hp]
      have hp' : ¬ ∃ p ∈ par e, p ∈ mw := by simpa using hp
      by_cases hb : e > lo + 10 ∧ e + 10 < hi
      · rw [if_pos hb]
        have hw1 : wordAt n (e / 10 - 1) = some (e / 10 * 10) := by
          unfold wordAt
          rw [if_pos (by omega)]
          congr 1
          omega
        have hw2 : wordAt n (e / 10) = some (e / 10 * 10 + 10) := by
          unfold wordAt
          rw [if_pos (by omega)]
          congr 1
          omega
        rw [hw1, hw2]
        dsimp only
        by_cases hi' : e / 10 * 10 ∈ mw ∧ e / 10 * 10 + 10 ∈ mw
        · rw [if_pos hi', g1]
          exact ⟨e :: l, rfl, g2.cons_cons _, take ⟨hm, by omega, hl, .inr ⟨by omega, by omega, hi'⟩⟩⟩
        · rw [if_neg hi']
          exact ⟨l, g1, g2.cons _, skip (fun t => t.2.2.2.elim hp' (fun c => hi' c.2.2))⟩
      · rw [if_neg hb]
        exact ⟨l, g1, g2.cons _, skip (fun t => t.2.2.2.elim hp' (fun c => hb ⟨c.1, c.2.1⟩))⟩
    · rw [if_neg hl]
      exact ⟨l, g1, g2.cons _, skip (fun t => hl t.2.2.1)⟩

theorem sorted_sort {a b : List Nat} (ha : a.Pairwise (· < ·)) (hb : b.Pairwise (· < ·)) (hd : ∀ x ∈ b, x ∉ a) :
    (pySort (fun x y => decide (x ≤ y)) (a ++ b)).Pairwise (· < ·) ∧ ∀ x, x ∈ pySort (fun x y => decide (x ≤ y)) (a ++ b) ↔ x ∈ a ∨ x ∈ b := by
  have hperm := pySort_perm (fun x y : Nat => decide (x ≤ y)) (a ++ b)
  have hpw := pySort_pairwise (le := fun x y : Nat => decide (x ≤ y)) (by intro x y z h1 h2; simp at *; omega) (by intro x y; simp; omega) (a ++ b)
  have hnd : (a ++ b).Nodup := by
    rw [List.nodup_append]
    exact ⟨ha.imp (fun h => Nat.ne_of_lt h), hb.imp (fun h => Nat.ne_of_lt h), fun x hx y hy e => hd y hy (e ▸ hx)⟩
  have hnd' := hperm.nodup_iff.2 hnd
  refine ⟨?_, fun x => by rw [hperm.mem_iff, List.mem_append]⟩
  have : (pySort (fun x y => decide (x ≤ y)) (a ++ b)).Pairwise (fun x y => x ≤ y ∧ x ≠ y) := by
    rw [List.pairwise_and_iff]
    exact ⟨hpw.imp (fun h => of_decide_eq_true h), hnd'⟩
  exact this.imp (fun h => Nat.lt_of_le_of_ne h.1 h.2)

/-! ## Theorems -/

/-- **C164, the words.** If the head is a word, the mention gets the words of its subtree and those empty nodes at the subtree (inside of its span or at its boundary) that have
an enhanced parent in the subtree or whose two neighbouring words are in it. The words are in word order. -/
theorem C164_words {n : Nat} {es mw : List Nat} (hE : Empties n es) (hS : Subtree n mw) (par : Nat → List Nat) :
    ∃ ws, guess n es par mw = some ws ∧ ws.Pairwise (· < ·) ∧
      ∀ x, x ∈ ws ↔ x ∈ mw ∨ (x ∈ es ∧ Near mw x ∧ ((∃ p ∈ par x, p ∈ mw) ∨ Inside mw x)) := by
  obtain ⟨h0, hs, hw⟩ := hS
  obtain ⟨hes, heb⟩ := hE
  obtain ⟨f, hf⟩ : ∃ f, mw.head? = some f := by cases mw with
    | nil => exact absurd rfl h0
    | cons a l => exact ⟨a, rfl⟩
  obtain ⟨z, hz⟩ : ∃ z, mw.getLast? = some z := ⟨_, List.getLast?_eq_some_getLast h0⟩
  obtain ⟨hfm, hfl⟩ := first_le hs hf
  obtain ⟨hzm, hzl⟩ := last_ge hs hz
  have wf := hw f hfm
  have wz := hw z hzm
  have hlo : (if f % 10 ≠ 0 then f / 10 * 10 else f - 10) = f - 10 := if_neg (by omega)
  have hhi : z / 10 * 10 + 10 = z + 10 := by omega
  obtain ⟨l, g1, g2, g3⟩ := loop_spec n par mw (f - 10) (z + 10) (by omega) es hes
  have hd : ∀ x ∈ l, x ∉ mw := fun x hx => ((g3 x).1 hx).2.1
  obtain ⟨s1, s2⟩ := sorted_sort hs (hes.sublist g2) hd
  refine ⟨_, ?_, s1, fun x => ?_⟩
  · unfold guess
    rw [hf, hz]
    dsimp only
    rw [hlo, hhi, g1]
    rfl
  · rw [s2 x, g3 x]
    refine or_congr Iff.rfl (and_congr_right fun hx => ?_)
    have hb := heb x hx
    unfold Take Near
    constructor
    · rintro ⟨t1, t2, t3, t4⟩
      refine ⟨⟨⟨f, hfm, by omega⟩, ⟨z, hzm, by omega⟩⟩, t4.imp id (fun c => c.2.2)⟩
    · rintro ⟨⟨⟨w, hw1, hw2⟩, ⟨v, hv1, hv2⟩⟩, t⟩
      have := hfl w hw1
      have := hzl v hv1
      refine ⟨fun hm => hb.1 (hw x hm).1, by omega, by omega, t.imp id (fun c => ⟨?_, ?_, c⟩)⟩
      · have := hfl _ c.1; omega
      · have := hzl _ c.2; omega

/-- **C164, an empty head.** If the head is an empty node, the mention gets it and those empty nodes between the same two words that have it as an enhanced parent. -/
theorem C164_empty_head {n : Nat} {es : List Nat} (hE : Empties n es) {h : Nat} (hh : h ∈ es) (par : Nat → List Nat) :
    ∃ ws, guess n es par [h] = some ws ∧ ws.Pairwise (· < ·) ∧ ∀ x, x ∈ ws ↔ x = h ∨ (x ∈ es ∧ x / 10 = h / 10 ∧ h ∈ par x) := by
  obtain ⟨hes, heb⟩ := hE
  have hb := heb h hh
  obtain ⟨l, g1, g2, g3⟩ := loop_spec n par [h] (h / 10 * 10) (h / 10 * 10 + 10) (by omega) es hes
  have hd : ∀ x ∈ l, x ∉ [h] := fun x hx => ((g3 x).1 hx).2.1
  obtain ⟨s1, s2⟩ := sorted_sort (List.pairwise_singleton _ h) (hes.sublist g2) hd
  refine ⟨_, ?_, s1, fun x => ?_⟩
  · unfold guess
    show (loop n par [h] (if h % 10 ≠ 0 then h / 10 * 10 else h - 10) (h / 10 * 10 + 10) es).map _ = _
    rw [if_pos hb.1, g1]
    rfl
  · rw [s2 x, g3 x, List.mem_singleton]
    constructor
    · rintro (rfl | ⟨hx, t1, t2, t3, t4⟩)
      · exact .inl rfl
      · have hbx := heb x hx
        rcases t4 with ⟨p, hp1, hp2⟩ | ⟨c1, c2, _⟩
        · exact .inr ⟨hx, by omega, List.mem_singleton.1 hp2 ▸ hp1⟩
        · omega
    · rintro (rfl | ⟨hx, t1, t2⟩)
      · exact .inl rfl
      · by_cases e : x = h
        · exact .inl e
        · have hbx := heb x hx
          exact .inr ⟨hx, fun hm => e (List.mem_singleton.1 hm), by omega, by omega, .inl ⟨h, t2, List.mem_singleton.2 rfl⟩⟩

/-- **C164, no gaps between neighbours.** Between two neighbouring words of the mention no empty node is missing. -/
theorem C164_no_gap {n : Nat} {es mw ws : List Nat} (hE : Empties n es) (hS : Subtree n mw) (par : Nat → List Nat) (h : guess n es par mw = some ws) {w x : Nat}
    (hw : w ∈ mw) (hw' : w + 10 ∈ mw) (hx : x ∈ es) (h1 : w < x) (h2 : x < w + 10) : x ∈ ws := by
  obtain ⟨ws', g1, _, g3⟩ := C164_words hE hS par
  rw [h] at g1
  cases g1
  have := (hS.2.2 w hw).1
  have e : x / 10 * 10 = w := by omega
  exact (g3 x).2 (.inr ⟨hx, ⟨⟨w, hw, by omega⟩, ⟨w, hw, by omega⟩⟩, .inr ⟨by rw [e]; exact hw, by rw [e]; exact hw'⟩⟩)

/-- **C164, foreign nodes.** No word outside the subtree is added, and no empty node in a gap of the subtree without an enhanced parent in it. -/
theorem C164_only {n : Nat} {es mw ws : List Nat} (hE : Empties n es) (hS : Subtree n mw) (par : Nat → List Nat) (h : guess n es par mw = some ws) {x : Nat} (hx : x ∈ ws)
    (hm : x ∉ mw) : x ∈ es ∧ ((∀ p ∈ par x, p ∉ mw) → x / 10 * 10 ∈ mw ∧ x / 10 * 10 + 10 ∈ mw) := by
  obtain ⟨ws', g1, _, g3⟩ := C164_words hE hS par
  rw [h] at g1
  cases g1
  rcases (g3 x).1 hx with g | ⟨g, _, q⟩
  · exact absurd g hm
  · exact ⟨g, fun hp => q.elim (fun ⟨p, h1, h2⟩ => absurd h2 (hp p h1)) id⟩

/-- **C164 violated (new gaps).** The block means to add empty nodes that cause gaps. But at the boundary it can make a gap: if two empty nodes are directly before the first word and
only the first of them has an enhanced parent in the subtree, it is added and the one after it is not. -/
theorem C164_gap_violated {n : Nat} {es mw : List Nat} (hE : Empties n es) (hS : Subtree n mw) (par : Nat → List Nat) {f x y : Nat} (hf : f ∈ mw) (hfirst : ∀ w ∈ mw, f ≤ w)
    (hx : x ∈ es) (hy : y ∈ es) (h1 : f < x + 10) (h2 : x < y) (h3 : y < f) (hpx : ∃ p ∈ par x, p ∈ mw) (hpy : ∀ p ∈ par y, p ∉ mw) :
    ∃ ws, guess n es par mw = some ws ∧ Gap ((es ++ (List.range n).map (fun i => 10 * (i + 1)))) ws := by
  obtain ⟨ws, g1, _, g3⟩ := C164_words hE hS par
  refine ⟨ws, g1, x, (g3 x).2 (.inr ⟨hx, ⟨⟨f, hf, h1⟩, ⟨f, hf, by omega⟩⟩, .inl hpx⟩), f, (g3 f).2 (.inl hf), y, List.mem_append_left _ hy, h2, h3, fun hw => ?_⟩
  rcases (g3 y).1 hw with g | ⟨_, _, ⟨p, q1, q2⟩ | q⟩
  · have := hfirst y g; omega
  · exact hpy p q1 q2
  · have := hfirst _ q.1
    have := (hE.2 y hy).1
    have := (hS.2.2 f hf).1
    omega

/-- **C164 violated (chains).** An empty node at the boundary whose enhanced parent is an empty node that is added is itself not added. -/
theorem C164_chain_violated {n : Nat} {es mw : List Nat} (hE : Empties n es) (hS : Subtree n mw) (par : Nat → List Nat) {f x y : Nat} (hf : f ∈ mw) (hlast : ∀ w ∈ mw, w ≤ f)
    (hx : x ∈ es) (_ : y ∈ es) (h1 : f < x) (h2 : x < y) (h3 : y < f + 10) (hpx : f ∈ par x) (hpy : par y = [x]) :
    ∃ ws, guess n es par mw = some ws ∧ x ∈ ws ∧ y ∉ ws := by
  obtain ⟨ws, g1, _, g3⟩ := C164_words hE hS par
  refine ⟨ws, g1, (g3 x).2 (.inr ⟨hx, ⟨⟨f, hf, by omega⟩, ⟨f, hf, by omega⟩⟩, .inl ⟨f, hpx, hf⟩⟩), fun hw => ?_⟩
  rcases (g3 y).1 hw with g | ⟨_, _, ⟨p, q1, q2⟩ | q⟩
  · have := hlast y g; omega
  · rw [hpy, List.mem_singleton] at q1
    have := hlast p q2; omega
  · have := hlast _ q.2
    have := (hS.2.2 f hf).1
    omega

/-! ## Examples -/

def exEs : List Nat := [1, 11, 12, 21, 31, 41]
/-- Words 2 and 3 of five; 1.1 depends on word 5, 1.2 and 4.1 on word 3. -/
def exPar : Nat → List Nat := fun e => if e = 11 then [50] else if e = 12 ∨ e = 41 then [30] else if e = 31 then [20] else []

/-- 2.1 is between both words, 4.1 is too far. -/
example : guess 5 exEs exPar [20, 30] = some [12, 20, 21, 30, 31] := by decide
example : guess 5 exEs (fun e => if e = 12 then [11] else []) [11] = some [11, 12] := by decide
/-- 1.1 is added and 1.2 is not: a gap. -/
example : guess 5 exEs (fun e => if e = 11 then [20] else []) [20, 30] = some [11, 20, 21, 30] := by decide
example : Empties 5 exEs ∧ Subtree 5 [20, 30] := by
  refine ⟨⟨by decide, by decide⟩, ⟨by decide, by decide, by decide⟩⟩

end Verif.Coref.GuessSpan
