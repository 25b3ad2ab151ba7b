import Verif.Coref.MarkPairs

/-!
# Property C167: printing of mentions with given properties (udapi/block/corefud/printmentions.py)

The nodes of a tree are named by their `ord` in tenths as in `Span.lean`, the root is 0. The parameters are numbers as in MarkPairs: 1 for `only`, -1 for `exclude`,
0 for `include`. The attribute `ShouldBeInSpanOf`, the order of the mentions and the printed text are not modelled: the output is the list of the printed mentions and
the total. Because of a comma in `__init__` (printmentions.py:35-36), `print_total` is a tuple and always true, so the `return` at line 163 is never reached.
-/

namespace Verif.Coref.Print
open Verif.Py Verif.Coref Verif.Coref.MarkPairs

/-- A tree -/
structure Tr where
  all : List Nat
  parent : Nat → Option Nat
  deps : Nat → List Nat
  udeprel : Nat → Str
  deprel : Nat → Str
  upos : Nat → Str

/-- `w.children` -/
def children (t : Tr) (w : Nat) : List Nat := t.all.filter (fun c => decide (t.parent c = some w))

def auxUdeprels : List Str := [['c', 'a', 's', 'e'], ['c', 'c'], ['c', 'o', 'n', 'j'], ['m', 'a', 'r', 'k'], ['a', 'p', 'p', 'o', 's'],
  ['v', 'o', 'c', 'a', 't', 'i', 'v', 'e'], ['d', 'i', 's', 'c', 'o', 'u', 'r', 's', 'e']]

def auxUpos : List Str := [['A', 'D', 'P'], ['S', 'C', 'O', 'N', 'J'], ['C', 'C', 'O', 'N', 'J'], ['P', 'U', 'N', 'C', 'T']]

/-- `_is_auxiliary_etc` (printmentions.py:64-71) -/
def isAux (t : Tr) (n : Nat) : Bool :=
  if t.udeprel n ∈ auxUdeprels then true
  else if t.deprel n = ['a', 'd', 'v', 'm', 'o', 'd', ':', 'e', 'm', 'p', 'h'] then true
  else decide (t.udeprel n = ['d', 'e', 'p'] ∧ t.upos n ∈ auxUpos)

/-- `w.parent and w.parent not in mwords` -/
def topWord (t : Tr) (ws : List Nat) (w : Nat) : Bool :=
  match t.parent w with
  | none => false
  | some p => decide (p ∉ ws)

/-- `ch < mention.words[0] or ch > mention.words[-1]` -/
def outside (ws : List Nat) (c : Nat) : Bool :=
  match ws.head?, ws.getLast? with
  | some a, some z => decide (c < a) || decide (z < c)
  | _, _ => false

/-- The body of the inner loop (printmentions.py:83-104): does the function return False at the child `c` of `w`? -/
def badChild (t : Tr) (ws : List Nat) (almost : Bool) (w c : Nat) : Bool :=
  if c ∈ ws then false
  else if !almost then true
  else if t.udeprel c = ['p', 'u', 'n', 'c', 't'] ∧ outside ws c = true then false
  else !(topWord t ws w && isAux t c)

/-- `_is_forest` (printmentions.py:73-105) -/
def isForest (t : Tr) (ws : List Nat) (almost : Bool) : Bool :=
  ws.all (fun w => (children t w).any (fun c => decide (t.udeprel c = ['c', 'o', 'p'])) || !(children t w).any (badChild t ws almost w))

/-- `_is_almost_continuous` (printmentions.py:107-118) -/
def almostCont (t : Tr) (m : M) : Bool :=
  if !comma t.all m then true
  else
    match (m.words.filter (fun w => decide (w % 10 = 0))).head?, (m.words.filter (fun w => decide (w % 10 = 0))).getLast? with
    | some a, some z => ((t.all.filter (fun w => decide (w % 10 = 0))).filter (fun w => decide (a < w) && decide (w < z) && decide (w ∉ m.words))).isEmpty
    | _, _ => true

/-- The number of heads (printmentions.py:143-148) -/
def heads (t : Tr) (ws : List Nat) : Nat :=
  (ws.map (fun w => match t.parent w with
    | some p => if p ∈ ws then 0 else 1
    | none => if (t.deps w).any (fun p => decide (p ∈ ws)) then 0 else 1)).sum

structure Opts where
  oneword : Int
  continuous : Int
  almostContinuous : Int
  empty : Int
  treelet : Int
  forest : Int
  almostForest : Int

/-- The tests for a mention (printmentions.py:132-154) -/
def sel (o : Opts) (t : Tr) (m : M) : Bool :=
  ok (decide (m.words.length = 1)) o.oneword && ok (!comma t.all m) o.continuous && (decide (o.almostContinuous = 0) || ok (almostCont t m) o.almostContinuous) &&
  ok (decide ((m.words.filter (fun w => decide (w % 10 ≠ 0))).length > 0)) o.empty && ok (decide (heads t m.words ≤ 1)) o.treelet &&
  (decide (o.forest = 0) || ok (isForest t m.words false) o.forest) && (decide (o.almostForest = 0) || ok (isForest t m.words true) o.almostForest)

/-- A mention of a document: the number of its tree, and the mention -/
abbrev Men := Nat × M

/-- The attribute `Mark` of the nodes of all trees -/
abbrev Marks := Nat → Nat → Option Str

def setMark (k : Marks) (m : Men) (v : Option Str) : Marks := fun i w => if i = m.1 ∧ w ∈ m.2.words then v else k i w

/-- The loop over the mentions (printmentions.py:130-180): the printed mentions, each with the marks
in the trees when it is printed, `seen_trees`, the marks at the end -/
def loop (max : Nat) (s : Men → Bool) : List Men → Nat → Marks → List (Men × Marks) × Nat × Marks
  | [], seen, k => ([], seen, k)
  | m :: ms, seen, k =>
    if s m then
      if max ≠ 0 ∧ seen + 1 > max then loop max s ms (seen + 1) (setMark k m (some ['1']))
      else
        let r := loop max s ms (seen + 1) (setMark (setMark k m (some ['1'])) m none)
        ((m, setMark k m (some ['1'])) :: r.1, r.2)
    else loop max s ms seen k

/-- `process_document` (printmentions.py:120-185) for the entities with their mentions: printed mentions, the two numbers of the total, the marks. The mentions are in any
order, here in that of the entities. -/
def process (max : Nat) (singleton : Int) (s : Men → Bool) (entities : List (List Men)) (k : Marks) : List (Men × Marks) × Nat × Nat × Marks :=
  let ms := (entities.filter (fun e => ok (decide (e.length = 1)) singleton)).flatten
  let r := loop max s ms 0 k
  (r.1, r.2.1, ms.length, r.2.2)

/-! ## What the properties say -/

/-- The word has its head outside of the mention: a word has one parent, an empty node no enhanced parent in the mention. -/
def Top (t : Tr) (ws : List Nat) (w : Nat) : Prop :=
  match t.parent w with
  | some p => p ∉ ws
  | none => ∀ p ∈ t.deps w, p ∉ ws

/-- The words are a treelet: at most one has its head outside. -/
def Treelet (t : Tr) (ws : List Nat) : Prop := ∀ w ∈ ws, ∀ v ∈ ws, Top t ws w → Top t ws v → w = v

/-- `w` has a copula. -/
def Cop (t : Tr) (w : Nat) : Prop := ∃ c ∈ t.all, t.parent c = some w ∧ t.udeprel c = ['c', 'o', 'p']

/-- All children of words without a copula are in the mention. -/
def Closed (t : Tr) (ws : List Nat) : Prop := ∀ w ∈ ws, ¬ Cop t w → ∀ c ∈ t.all, t.parent c = some w → c ∈ ws

/-- Function words and similar -/
def Aux (t : Tr) (n : Nat) : Prop :=
  t.udeprel n ∈ auxUdeprels ∨ t.deprel n = ['a', 'd', 'v', 'm', 'o', 'd', ':', 'e', 'm', 'p', 'h'] ∨ (t.udeprel n = ['d', 'e', 'p'] ∧ t.upos n ∈ auxUpos)

/-- The same up to punctuation before or after all words, and function words of words with the parent outside -/
def AlmostClosed (t : Tr) (ws : List Nat) : Prop := ∀ w ∈ ws, ¬ Cop t w → ∀ c ∈ t.all, t.parent c = some w →
  c ∈ ws ∨ (t.udeprel c = ['p', 'u', 'n', 'c', 't'] ∧ ((∀ v ∈ ws, c < v) ∨ (∀ v ∈ ws, v < c))) ∨ ((∃ p, t.parent w = some p ∧ p ∉ ws) ∧ Aux t c)

/-- No word outside of the mention is between two words of the mention. -/
def WordsTogether (t : Tr) (ws : List Nat) : Prop := ∀ a ∈ ws, ∀ z ∈ ws, a % 10 = 0 → z % 10 = 0 → ∀ w ∈ t.all, w % 10 = 0 → a < w → w < z → w ∈ ws

/-- `x` is in the subtree of `h`. -/
inductive Below (t : Tr) (h : Nat) : Nat → Prop
  | refl : Below t h h
  | step {x p : Nat} : x ∈ t.all → t.parent x = some p → Below t h p → Below t h x

/-! ## Lemmas -/

theorem mem_children {t : Tr} {w c : Nat} : c ∈ children t w ↔ c ∈ t.all ∧ t.parent c = some w := by
  unfold children
  rw [List.mem_filter, decide_eq_true_iff]

theorem cop_iff {t : Tr} {w : Nat} : (children t w).any (fun c => decide (t.udeprel c = ['c', 'o', 'p'])) = true ↔ Cop t w := by
  rw [List.any_eq_true]
  constructor
  · rintro ⟨c, hc, h⟩
    exact ⟨c, (mem_children.1 hc).1, (mem_children.1 hc).2, of_decide_eq_true h⟩
  · rintro ⟨c, h1, h2, h3⟩
    exact ⟨c, mem_children.2 ⟨h1, h2⟩, decide_eq_true h3⟩

theorem aux_iff {t : Tr} {n : Nat} : isAux t n = true ↔ Aux t n := by
  unfold isAux Aux
  by_cases h1 : t.udeprel n ∈ auxUdeprels
  · rw [if_pos h1]; exact ⟨fun _ => .inl h1, fun _ => rfl⟩
  rw [if_neg h1]
  by_cases h2 : t.deprel n = ['a', 'd', 'v', 'm', 'o', 'd', ':', 'e', 'm', 'p', 'h']
  · rw [if_pos h2]; exact ⟨fun _ => .inr (.inl h2), fun _ => rfl⟩
  rw [if_neg h2, decide_eq_true_iff]
  exact ⟨fun h => .inr (.inr h), fun h => h.elim (fun e => absurd e h1) (fun h => h.elim (fun e => absurd e h2) id)⟩

theorem isForest_iff {t : Tr} {ws : List Nat} {b : Bool} : isForest t ws b = true ↔ ∀ w ∈ ws, ¬ Cop t w → ∀ c ∈ t.all, t.parent c = some w → badChild t ws b w c = false := by
  unfold isForest
  rw [List.all_eq_true]
  refine forall_congr' fun w => forall_congr' fun _ => ?_
  rw [Bool.or_eq_true, cop_iff, Bool.not_eq_true', List.any_eq_false]
  constructor
  · rintro (h | h) hc c h1 h2
    · exact absurd h hc
    · exact Bool.eq_false_iff.2 (h c (mem_children.2 ⟨h1, h2⟩))
  · intro h
    by_cases hc : Cop t w
    · exact .inl hc
    · exact .inr fun c hm => Bool.eq_false_iff.1 (h hc c (mem_children.1 hm).1 (mem_children.1 hm).2)

theorem head_min {ws : List Nat} (h : ws.Pairwise (· < ·)) {a : Nat} (ha : ws.head? = some a) : a ∈ ws ∧ ∀ w ∈ ws, a ≤ w := by
  cases ws with
  | nil => cases ha
  | cons b l =>
    cases ha
    refine ⟨List.mem_cons_self, fun w hw => ?_⟩
    rcases List.mem_cons.1 hw with rfl | hw
    · exact Nat.le_refl _
    · exact Nat.le_of_lt ((List.pairwise_cons.1 h).1 w hw)

theorem last_max {ws : List Nat} (h : ws.Pairwise (· < ·)) {a : Nat} (ha : ws.getLast? = some a) : a ∈ ws ∧ ∀ w ∈ ws, w ≤ a := by
  obtain ⟨l, rfl⟩ := List.getLast?_eq_some_iff.1 ha
  refine ⟨by simp, fun w hw => ?_⟩
  rcases List.mem_append.1 hw with hw | hw
  · exact Nat.le_of_lt ((List.pairwise_append.1 h).2.2 w hw a (by simp))
  · rw [List.mem_singleton.1 hw]; exact Nat.le_refl _

theorem ends {ws : List Nat} (h0 : ws ≠ []) : ∃ a z, ws.head? = some a ∧ ws.getLast? = some z := by
  exact ⟨List.head ws h0, _, List.head?_eq_some_head h0, List.getLast?_eq_some_getLast h0⟩

theorem outside_iff {ws : List Nat} (h : ws.Pairwise (· < ·)) (h0 : ws ≠ []) (c : Nat) : outside ws c = true ↔ (∀ v ∈ ws, c < v) ∨ (∀ v ∈ ws, v < c) := by
  obtain ⟨a, z, ha, hz⟩ := ends h0
  obtain ⟨a1, a2⟩ := head_min h ha
  obtain ⟨z1, z2⟩ := last_max h hz
  unfold outside
  rw [ha, hz]
  dsimp only
  rw [Bool.or_eq_true, decide_eq_true_iff, decide_eq_true_iff]
  constructor
  · rintro (h | h)
    · exact .inl fun v hv => Nat.lt_of_lt_of_le h (a2 v hv)
    · exact .inr fun v hv => Nat.lt_of_le_of_lt (z2 v hv) h
  · rintro (h | h)
    · exact .inl (h a a1)
    · exact .inr (h z z1)

theorem topWord_iff {t : Tr} {ws : List Nat} {w : Nat} : topWord t ws w = true ↔ ∃ p, t.parent w = some p ∧ p ∉ ws := by
  unfold topWord
  cases h : t.parent w with
  | none => simp
  | some p => simp

theorem forest_iff {t : Tr} {ws : List Nat} : isForest t ws false = true ↔ Closed t ws := by
  rw [isForest_iff]
  unfold Closed badChild
  refine forall_congr' fun w => forall_congr' fun _ => forall_congr' fun _ => forall_congr' fun c => forall_congr' fun _ => forall_congr' fun _ => ?_
  by_cases h : c ∈ ws <;> simp [h]

theorem almostForest_iff {t : Tr} {ws : List Nat} (hs : ws.Pairwise (· < ·)) : isForest t ws true = true ↔ AlmostClosed t ws := by
  rw [isForest_iff]
  unfold AlmostClosed badChild
  refine forall_congr' fun w => forall_congr' fun hw => forall_congr' fun _ => forall_congr' fun c => forall_congr' fun _ => forall_congr' fun _ => ?_
  have h0 : ws ≠ [] := fun e => by rw [e] at hw; cases hw
  by_cases h : c ∈ ws
  · rw [if_pos h]; exact ⟨fun _ => .inl h, fun _ => rfl⟩
  rw [if_neg h, if_neg (by decide)]
  by_cases hp : t.udeprel c = ['p', 'u', 'n', 'c', 't'] ∧ outside ws c = true
  · rw [if_pos hp]
    exact ⟨fun _ => .inr (.inl ⟨hp.1, (outside_iff hs h0 c).1 hp.2⟩), fun _ => rfl⟩
  · rw [if_neg hp, Bool.not_eq_false', Bool.and_eq_true, topWord_iff, aux_iff]
    refine ⟨fun g => .inr (.inr g), fun g => ?_⟩
    rcases g with g | g | g
    · exact absurd g h
    · exact absurd ⟨g.1, (outside_iff hs h0 c).2 g.2⟩ hp
    · exact g

theorem heads_eq (t : Tr) (ws : List Nat) : ∀ l : List Nat, (l.map (fun w => match t.parent w with
    | some p => if p ∈ ws then 0 else 1
    | none => if (t.deps w).any (fun p => decide (p ∈ ws)) then 0 else 1)).sum ≤ 1 ↔ (l.Pairwise (fun w v => ¬ (Top t ws w ∧ Top t ws v))) ∧ True := by
  have one : ∀ w, (match t.parent w with
      | some p => if p ∈ ws then 0 else 1
      | none => if (t.deps w).any (fun p => decide (p ∈ ws)) then 0 else 1) = 1 ∧ Top t ws w ∨ (match t.parent w with
      | some p => if p ∈ ws then 0 else 1
      | none => if (t.deps w).any (fun p => decide (p ∈ ws)) then 0 else 1) = 0 ∧ ¬ Top t ws w := by
    intro w
    unfold Top
    cases t.parent w with
    | some p => by_cases h : p ∈ ws <;> simp [h]
    | none =>
      dsimp only
      by_cases h : (t.deps w).any (fun p => decide (p ∈ ws)) = true
      · right
        rw [if_pos h]
        refine ⟨rfl, fun hn => ?_⟩
        obtain ⟨p, h1, h2⟩ := List.any_eq_true.1 h
        exact hn p h1 (of_decide_eq_true h2)
      · left
        rw [if_neg h]
        exact ⟨rfl, fun p hp hm => h (List.any_eq_true.2 ⟨p, hp, decide_eq_true hm⟩)⟩
  generalize hf : (fun w => match t.parent w with
    | some p => if p ∈ ws then 0 else 1
    | none => if (t.deps w).any (fun p => decide (p ∈ ws)) then 0 else 1) = f at *
  have one' : ∀ w, f w = 1 ∧ Top t ws w ∨ f w = 0 ∧ ¬ Top t ws w := by
    intro w; rw [← hf]; exact one w
  clear one hf
  have zero : ∀ l : List Nat, (l.map f).sum = 0 ↔ ∀ w ∈ l, ¬ Top t ws w := by
    intro l
    induction l with
    | nil => simp
    | cons a l ih =>
      rw [List.map_cons, List.sum_cons, Nat.add_eq_zero_iff, ih, List.forall_mem_cons]
      refine and_congr ?_ Iff.rfl
      rcases one' a with ⟨h1, h2⟩ | ⟨h1, h2⟩
      · rw [h1]; exact ⟨fun h => by omega, fun h => absurd h2 h⟩
      · exact ⟨fun _ => h2, fun _ => h1⟩
  intro l
  rw [and_true]
  induction l with
  | nil => simp
  | cons a l ih =>
    rw [List.map_cons, List.sum_cons, List.pairwise_cons, ← ih]
    rcases one' a with ⟨h1, h2⟩ | ⟨h1, h2⟩
    · rw [h1]
      have := zero l
      constructor
      · intro h
        have h0 : (l.map f).sum = 0 := by omega
        exact ⟨fun v hv hc => this.1 h0 v hv hc.2, by omega⟩
      · rintro ⟨h3, _⟩
        have h0 : (l.map f).sum = 0 := this.2 (fun v hv hv' => h3 v hv ⟨h2, hv'⟩)
        omega
    · rw [h1, Nat.zero_add]
      exact ⟨fun h => ⟨fun v _ hc => h2 hc.1, h⟩, fun h => h.2⟩

theorem treelet_iff {t : Tr} {ws : List Nat} (hs : ws.Pairwise (· < ·)) : heads t ws ≤ 1 ↔ Treelet t ws := by
  unfold heads Treelet
  rw [heads_eq, and_true]
  constructor
  · intro h w hw v hv tw tv
    by_cases e : w = v
    · exact e
    · exfalso
      obtain ⟨i, hi, rfl⟩ := List.mem_iff_getElem.1 hw
      obtain ⟨j, hj, rfl⟩ := List.mem_iff_getElem.1 hv
      rw [List.pairwise_iff_getElem] at h
      rcases Nat.lt_trichotomy i j with hij | hij | hij
      · exact h i j hi hj hij ⟨tw, tv⟩
      · subst hij; exact e rfl
      · exact h j i hj hi hij ⟨tv, tw⟩
  · intro h
    rw [List.pairwise_iff_getElem] at hs ⊢
    intro i j hi hj hij ⟨h1, h2⟩
    have := h _ (List.getElem_mem hi) _ (List.getElem_mem hj) h1 h2
    have := hs i j hi hj hij
    omega

theorem almostCont_iff {t : Tr} {m : M} (hs : t.all.Pairwise (· < ·)) (hg : Good t.all m) : almostCont t m = true ↔ WordsTogether t m.words := by
  obtain ⟨hne, hws, hin⟩ := id hg
  unfold almostCont WordsTogether
  by_cases hc : comma t.all m = true
  · rw [hc, if_neg (by decide)]
    generalize hf : m.words.filter (fun w => decide (w % 10 = 0)) = f
    have hfm : ∀ w, w ∈ f ↔ w ∈ m.words ∧ w % 10 = 0 := by
      intro w; rw [← hf, List.mem_filter, decide_eq_true_iff]
    have hfs : f.Pairwise (· < ·) := by rw [← hf]; exact hws.sublist List.filter_sublist
    by_cases h0 : f = []
    · subst h0
      dsimp only [List.head?_nil]
      refine ⟨fun _ a ha z _ ha0 => ?_, fun _ => rfl⟩
      exact absurd ((hfm a).2 ⟨ha, ha0⟩) (by simp)
    · obtain ⟨a, z, ha, hz⟩ := ends h0
      obtain ⟨a1, a2⟩ := head_min hfs ha
      obtain ⟨z1, z2⟩ := last_max hfs hz
      rw [ha, hz]
      dsimp only
      rw [List.isEmpty_iff, List.filter_eq_nil_iff]
      constructor
      · intro h x hx y hy x0 y0 w hw w0 h1 h2
        have b1 := a2 x ((hfm x).2 ⟨hx, x0⟩)
        have b2 := z2 y ((hfm y).2 ⟨hy, y0⟩)
        have := h w (List.mem_filter.2 ⟨hw, decide_eq_true w0⟩)
        apply Classical.byContradiction
        intro hn
        apply this
        rw [Bool.and_eq_true, Bool.and_eq_true, decide_eq_true_iff, decide_eq_true_iff, decide_eq_true_iff]
        exact ⟨⟨by omega, by omega⟩, hn⟩
      · intro h w hw hb
        obtain ⟨hw1, hw2⟩ := List.mem_filter.1 hw
        rw [Bool.and_eq_true, Bool.and_eq_true, decide_eq_true_iff, decide_eq_true_iff, decide_eq_true_iff] at hb
        exact hb.2 (h a ((hfm a).1 a1).1 z ((hfm z).1 z1).1 ((hfm a).1 a1).2 ((hfm z).1 z1).2 w hw1 (of_decide_eq_true hw2) hb.1.1 hb.1.2)
  · have hc' : comma t.all m = false := Bool.eq_false_iff.2 hc
    rw [hc', if_pos (show (!false) = true from rfl)]
    refine ⟨fun _ a ha z hz _ _ w hw _ h1 h2 => ?_, fun _ => rfl⟩
    apply Classical.byContradiction
    intro hn
    exact hc ((comma_iff hs hg).2 ⟨a, ha, z, hz, w, hw, h1, h2, hn⟩)

theorem loop_seen (max : Nat) (s : Men → Bool) : ∀ (ms : List Men) (seen : Nat) (k : Marks), (loop max s ms seen k).2.1 = seen + (ms.filter s).length := by
  intro ms
  induction ms with
  | nil => intro seen k; rfl
  | cons m ms ih =>
    intro seen k
    rw [loop, List.filter_cons]
    by_cases h : s m = true
    · rw [if_pos h, if_pos h, List.length_cons]
      by_cases hm : max ≠ 0 ∧ seen + 1 > max
      · rw [if_pos hm, ih]; omega
      · rw [if_neg hm]; dsimp only; rw [ih]; omega
    · rw [if_neg h, if_neg h, ih]

theorem loop_printed (max : Nat) (s : Men → Bool) : ∀ (ms : List Men) (seen : Nat) (k : Marks),
    (loop max s ms seen k).1.map (·.1) = if max = 0 then ms.filter s else (ms.filter s).take (max - seen) := by
  intro ms
  induction ms with
  | nil => intro seen k; simp [loop]
  | cons m ms ih =>
    intro seen k
    rw [loop, List.filter_cons]
    by_cases h : s m = true
    · rw [if_pos h, if_pos h]
      by_cases h0 : max = 0
      · rw [if_neg (show ¬ (max ≠ 0 ∧ seen + 1 > max) from fun e => e.1 h0)]
        dsimp only
        rw [List.map_cons, ih, if_pos h0, if_pos h0]
      · by_cases hm : seen + 1 > max
        · rw [if_pos ⟨h0, hm⟩, ih, if_neg h0, if_neg h0]
          rw [show max - (seen + 1) = 0 by omega, show max - seen = 0 by omega, List.take_zero, List.take_zero]
        · rw [if_neg (show ¬ (max ≠ 0 ∧ seen + 1 > max) from fun e => hm e.2)]
          dsimp only
          rw [List.map_cons, ih, if_neg h0, if_neg h0, show max - seen = (max - (seen + 1)) + 1 by omega, List.take_succ_cons]
    · rw [if_neg h, if_neg h, ih]

/-- No word has a mark. -/
def Clean (k : Marks) : Prop := ∀ i w, k i w = none

theorem set_clean {k : Marks} (hk : Clean k) (m : Men) : Clean (setMark (setMark k m (some ['1'])) m none) := by
  intro i w
  unfold setMark
  by_cases h : i = m.1 ∧ w ∈ m.2.words
  · rw [if_pos h]
  · rw [if_neg h, if_neg h]; exact hk i w

/-- After the limit nothing is printed. -/
theorem loop_over {max : Nat} (h0 : max ≠ 0) (s : Men → Bool) : ∀ (ms : List Men) (seen : Nat) (k : Marks), seen ≥ max → (loop max s ms seen k).1 = [] := by
  intro ms seen k h
  have := loop_printed max s ms seen k
  rw [if_neg h0, show max - seen = 0 by omega, List.take_zero] at this
  exact List.map_eq_nil_iff.1 this

theorem loop_shown (max : Nat) (s : Men → Bool) : ∀ (ms : List Men) (seen : Nat) (k : Marks), Clean k →
    ∀ p ∈ (loop max s ms seen k).1, ∀ i w, p.2 i w = if i = p.1.1 ∧ w ∈ p.1.2.words then some ['1'] else none := by
  intro ms
  induction ms with
  | nil => intro seen k _ p hp; cases hp
  | cons m ms ih =>
    intro seen k hk p hp
    rw [loop] at hp
    by_cases h : s m = true
    · rw [if_pos h] at hp
      by_cases hm : max ≠ 0 ∧ seen + 1 > max
      · rw [if_pos hm, loop_over hm.1 _ _ _ _ (by omega)] at hp
        cases hp
      · rw [if_neg hm] at hp
        dsimp only at hp
        rcases List.mem_cons.1 hp with rfl | hp
        · intro i w
          dsimp only [setMark]
          by_cases hc : i = m.1 ∧ w ∈ m.2.words
          · rw [if_pos hc, if_pos hc]
          · rw [if_neg hc, if_neg hc]; exact hk i w
        · exact ih _ _ (set_clean hk m) p hp
    · rw [if_neg h] at hp
      exact ih _ _ hk p hp

theorem ifc {α : Type} {P Q : Prop} {_ : Decidable P} {_ : Decidable Q} (h : P ↔ Q) {a b : α} : (if P then a else b) = if Q then a else b := by
  by_cases hp : P
  · rw [if_pos hp, if_pos (h.1 hp)]
  · rw [if_neg hp, if_neg (fun q => hp (h.2 q))]

theorem loop_marks (max : Nat) (s : Men → Bool) : ∀ (ms : List Men) (seen : Nat) (k : Marks), (max = 0 ∨ seen + (ms.filter s).length ≤ max) → ∀ i w,
    (loop max s ms seen k).2.2 i w = if ∃ m ∈ ms, s m = true ∧ i = m.1 ∧ w ∈ m.2.words then none else k i w := by
  intro ms
  induction ms with
  | nil => intro seen k _ i w; simp [loop]
  | cons m ms ih =>
    intro seen k hmax i w
    rw [List.filter_cons] at hmax
    rw [loop]
    by_cases h : s m = true
    · rw [if_pos h] at hmax ⊢
      rw [List.length_cons] at hmax
      rw [if_neg (show ¬ (max ≠ 0 ∧ seen + 1 > max) from fun e => by omega)]
      dsimp only
      rw [ih _ _ (by omega)]
      by_cases hr : ∃ m' ∈ ms, s m' = true ∧ i = m'.1 ∧ w ∈ m'.2.words
      · obtain ⟨m', h1, h2⟩ := hr
        rw [if_pos ⟨m', h1, h2⟩, if_pos ⟨m', List.mem_cons_of_mem _ h1, h2⟩]
      · rw [if_neg hr]
        unfold setMark
        by_cases hc : i = m.1 ∧ w ∈ m.2.words
        · rw [if_pos hc, if_pos ⟨m, List.mem_cons_self, h, hc⟩]
        · rw [if_neg hc, if_neg hc, if_neg]
          rintro ⟨m', h1, h2, h3⟩
          rcases List.mem_cons.1 h1 with rfl | h1
          · exact hc h3
          · exact hr ⟨m', h1, h2, h3⟩
    · rw [if_neg h] at hmax ⊢
      rw [ih _ _ hmax]
      refine ifc ⟨?_, ?_⟩
      · rintro ⟨m', h1, h2⟩; exact ⟨m', List.mem_cons_of_mem _ h1, h2⟩
      · rintro ⟨m', h1, h2⟩
        rcases List.mem_cons.1 h1 with rfl | h1
        · exact absurd h2.1 h
        · exact ⟨m', h1, h2⟩

theorem loop_left {max : Nat} (h0 : max ≠ 0) (s : Men → Bool) : ∀ (ms : List Men) (seen : Nat) (k : Marks), seen ≥ max → ∀ i w,
    (loop max s ms seen k).2.2 i w = if ∃ m ∈ ms, s m = true ∧ i = m.1 ∧ w ∈ m.2.words then some ['1'] else k i w := by
  intro ms
  induction ms with
  | nil => intro seen k _ i w; simp [loop]
  | cons m ms ih =>
    intro seen k hge i w
    rw [loop]
    by_cases h : s m = true
    · rw [if_pos h, if_pos ⟨h0, by omega⟩, ih _ _ (by omega)]
      by_cases hr : ∃ m' ∈ ms, s m' = true ∧ i = m'.1 ∧ w ∈ m'.2.words
      · obtain ⟨m', h1, h2⟩ := hr
        rw [if_pos ⟨m', h1, h2⟩, if_pos ⟨m', List.mem_cons_of_mem _ h1, h2⟩]
      · rw [if_neg hr]
        unfold setMark
        by_cases hc : i = m.1 ∧ w ∈ m.2.words
        · rw [if_pos hc, if_pos ⟨m, List.mem_cons_self, h, hc⟩]
        · rw [if_neg hc, if_neg]
          rintro ⟨m', h1, h2, h3⟩
          rcases List.mem_cons.1 h1 with rfl | h1
          · exact hc h3
          · exact hr ⟨m', h1, h2, h3⟩
    · rw [if_neg h, ih _ _ hge]
      refine ifc ⟨?_, ?_⟩
      · rintro ⟨m', h1, h2⟩; exact ⟨m', List.mem_cons_of_mem _ h1, h2⟩
      · rintro ⟨m', h1, h2⟩
        rcases List.mem_cons.1 h1 with rfl | h1
        · exact absurd h2.1 h
        · exact ⟨m', h1, h2⟩

/-- After the limit the words of the selected mentions that are left have the mark, whatever the marks before. -/
theorem loop_rest {max : Nat} (h0 : max ≠ 0) (s : Men → Bool) : ∀ (ms : List Men) (seen : Nat) (k : Marks), ∀ m ∈ (ms.filter s).drop (max - seen),
    ∀ w ∈ m.2.words, (loop max s ms seen k).2.2 m.1 w = some ['1'] := by
  intro ms
  induction ms with
  | nil => intro seen k m hm; simp at hm
  | cons a ms ih =>
    intro seen k m hm w hw
    by_cases hge : seen ≥ max
    · rw [loop_left h0 s _ _ _ hge, if_pos]
      obtain ⟨h1, h2⟩ := List.mem_filter.1 (List.mem_of_mem_drop hm)
      exact ⟨m, h1, h2, rfl, hw⟩
    · rw [loop]
      rw [List.filter_cons] at hm
      by_cases h : s a = true
      · rw [if_pos h] at hm ⊢
        rw [if_neg (show ¬ (max ≠ 0 ∧ seen + 1 > max) from fun e => by omega)]
        dsimp only
        refine ih _ _ m ?_ w hw
        rw [show max - seen = (max - (seen + 1)) + 1 by omega, List.drop_succ_cons] at hm
        exact hm
      · rw [if_neg h] at hm ⊢
        exact ih _ _ m hm w hw

/-! ## The properties -/

/-- The properties that the user asks for -/
def Wanted (o : Opts) (t : Tr) (m : M) : Prop :=
  Wants o.oneword (m.words.length = 1) ∧ Wants o.continuous (¬ Gap t.all m.words) ∧ Wants o.almostContinuous (WordsTogether t m.words) ∧
  Wants o.empty (∃ w ∈ m.words, w % 10 ≠ 0) ∧ Wants o.treelet (Treelet t m.words) ∧ Wants o.forest (Closed t m.words) ∧ Wants o.almostForest (AlmostClosed t m.words)

/-- The parameters have one of the three values. -/
def Valid (o : Opts) : Prop := ∀ v ∈ [o.oneword, o.continuous, o.almostContinuous, o.empty, o.treelet, o.forest, o.almostForest], v = -1 ∨ v = 0 ∨ v = 1

theorem or_zero {v : Int} {c : Bool} : (decide (v = 0) || ok c v) = ok c v := by
  by_cases h : v = 0
  · subst h; cases c <;> rfl
  · rw [decide_eq_false h, Bool.false_or]

/-- **C167 (what is selected)** A mention is selected exactly if it has the properties that the parameters ask for: one word; no node of the tree in a gap; no word in a gap; an
empty node; one word with its head outside; all children in the mention; all children up to punctuation around and function words of the heads. -/
theorem C167_selected {o : Opts} {t : Tr} {m : M} (hs : t.all.Pairwise (· < ·)) (hg : Good t.all m) (hv : Valid o) : sel o t m = true ↔ Wanted o t m := by
  have he : (decide ((m.words.filter (fun w => decide (w % 10 ≠ 0))).length > 0)) = true ↔ ∃ w ∈ m.words, w % 10 ≠ 0 := by
    rw [decide_eq_true_iff, gt_iff_lt, List.length_pos_iff_exists_mem]
    refine exists_congr fun w => ?_
    rw [List.mem_filter, decide_eq_true_iff]
  have hcont : (!comma t.all m) = true ↔ ¬ Gap t.all m.words := by
    rw [Bool.not_eq_true', ← Bool.not_eq_true, comma_iff hs hg]
  unfold sel Wanted
  rw [or_zero, or_zero, or_zero]
  simp only [Bool.and_eq_true]
  rw [ok_iff decide_eq_true_iff (hv _ (by simp)), ok_iff hcont (hv _ (by simp)), ok_iff (almostCont_iff hs hg) (hv _ (by simp)), ok_iff he (hv _ (by simp)),
    ok_iff (decide_eq_true_iff.trans (treelet_iff hg.2.1)) (hv _ (by simp)), ok_iff forest_iff (hv _ (by simp)), ok_iff (almostForest_iff hg.2.1) (hv _ (by simp))]
  simp only [and_assoc]

/-- **C167 (what is printed)** The printed mentions are the first `max_trees` selected ones of the entities that are asked for, all of them for 0; the total is the number of the selected mentions
of the number of all mentions of these entities. -/
theorem C167_printed (max : Nat) {singleton : Int} (hv : singleton = -1 ∨ singleton = 0 ∨ singleton = 1) (s : Men → Bool) (es : List (List Men)) (k : Marks) :
    ∃ ok : List Men → Bool, (∀ e, ok e = true ↔ Wants singleton (e.length = 1)) ∧
    let ms := (es.filter ok).flatten
    (process max singleton s es k).1.map (·.1) = (if max = 0 then ms.filter s else (ms.filter s).take max) ∧
    (process max singleton s es k).2.1 = (ms.filter s).length ∧ (process max singleton s es k).2.2.1 = ms.length := by
  refine ⟨fun e => MarkPairs.ok (decide (e.length = 1)) singleton, fun e => ok_iff decide_eq_true_iff hv, ?_⟩
  dsimp only [process]
  refine ⟨?_, ?_, rfl⟩
  · rw [loop_printed, Nat.sub_zero]
  · rw [loop_seen, Nat.zero_add]

/-- **C167 (what is highlighted)** If no node has a Mark before, each mention is printed with the marks on exactly its own words. -/
theorem C167_highlight (max : Nat) (singleton : Int) (s : Men → Bool) (es : List (List Men)) {k : Marks} (hk : Clean k) :
    ∀ p ∈ (process max singleton s es k).1, ∀ i w, p.2 i w = some ['1'] ↔ i = p.1.1 ∧ w ∈ p.1.2.words := by
  intro p hp i w
  rw [loop_shown max s _ 0 k hk p hp i w]
  by_cases h : i = p.1.1 ∧ w ∈ p.1.2.words
  · rw [if_pos h]; exact ⟨fun _ => h, fun _ => rfl⟩
  · rw [if_neg h]; exact ⟨fun e => (by cases e), fun e => absurd e h⟩

/-- **C167 (no traces, partial)** If no node has a Mark before and all selected mentions are printed, no node has a Mark afterwards.
Missing: the two cases below. -/
theorem C167_clean_partial (max : Nat) (singleton : Int) (s : Men → Bool) (es : List (List Men)) {k : Marks} (hk : Clean k)
    (hmax : max = 0 ∨ (process max singleton s es k).2.1 ≤ max) : Clean (process max singleton s es k).2.2.2 := by
  intro i w
  dsimp only [process] at hmax ⊢
  rw [loop_seen] at hmax
  rw [loop_marks max s _ 0 k hmax]
  split
  · rfl
  · exact hk i w

/-- **C167 (no traces, violated)** The words of all selected mentions beyond `max_trees` keep Mark=1 in the document. -/
theorem C167_clean_violated {max : Nat} (h0 : max ≠ 0) (s : Men → Bool) (es : List (List Men)) (k : Marks) :
    ∀ m ∈ (es.flatten.filter s).drop max, ∀ w ∈ m.2.words, (process max 0 s es k).2.2.2 m.1 w = some ['1'] := by
  intro m hm w hw
  dsimp only [process]
  refine loop_rest h0 s _ 0 k m ?_ w hw
  rw [Nat.sub_zero]
  have : (es.filter (fun e => MarkPairs.ok (decide (e.length = 1)) 0)) = es := List.filter_eq_self.2 (fun e _ => rfl)
  rw [this]
  exact hm

/-- **C167 (existing marks, violated)** A Mark that a word of a printed mention has before is lost. -/
theorem C167_lost_violated (s : Men → Bool) (es : List (List Men)) (k : Marks) {m : Men} (hm : m ∈ es.flatten) (hs : s m = true) :
    ∀ w ∈ m.2.words, (process 0 0 s es k).2.2.2 m.1 w = none := by
  intro w hw
  dsimp only [process]
  have : (es.filter (fun e => MarkPairs.ok (decide (e.length = 1)) 0)) = es := List.filter_eq_self.2 (fun e _ => rfl)
  rw [this, loop_marks 0 s _ 0 k (.inl rfl), if_pos ⟨m, hm, hs, rfl, hw⟩]

/-- **C167 (treelets that are forests)** A mention without empty nodes that is asked for by `treelet=only` and `forest=only` and has no word with a copula
is the subtree of one word. -/
theorem C167_subtree {o : Opts} {t : Tr} {m : M} (hs : t.all.Pairwise (· < ·)) (hg : Good t.all m) (hv : Valid o) (h1 : o.treelet = 1) (h2 : o.forest = 1)
    (hw : ∀ w ∈ m.words, t.parent w ≠ none) (hc : ∀ w ∈ m.words, ¬ Cop t w) {depth : Nat → Nat} (hd : ∀ x p, t.parent x = some p → depth p < depth x)
    (h : sel o t m = true) : ∃ h ∈ m.words, ∀ x, x ∈ m.words ↔ Below t h x := by
  obtain ⟨_, _, _, _, ht, hf, _⟩ := (C167_selected hs hg hv).1 h
  have ht : Treelet t m.words := by rw [h1] at ht; simpa [Wants] using ht
  have hf : Closed t m.words := by rw [h2] at hf; simpa [Wants] using hf
  have top : ∀ n x, depth x ≤ n → x ∈ m.words → ∃ h ∈ m.words, Top t m.words h ∧ Below t h x := by
    intro n
    induction n with
    | zero =>
      intro x hn hx
      cases hp : t.parent x with
      | none => exact absurd hp (hw x hx)
      | some p => have := hd x p hp; omega
    | succ n ih =>
      intro x hn hx
      cases hp : t.parent x with
      | none => exact absurd hp (hw x hx)
      | some p =>
        by_cases hm : p ∈ m.words
        · obtain ⟨h, a, b, c⟩ := ih p (by have := hd x p hp; omega) hm
          exact ⟨h, a, b, .step (hg.2.2 x hx) hp c⟩
        · refine ⟨x, hx, ?_, .refl⟩
          unfold Top; rw [hp]; exact hm
  obtain ⟨x, hx⟩ := List.exists_mem_of_ne_nil _ hg.1
  obtain ⟨r, hr, hrt, _⟩ := top _ x (Nat.le_refl _) hx
  refine ⟨r, hr, fun y => ⟨fun hy => ?_, fun hy => ?_⟩⟩
  · obtain ⟨r', a, b, c⟩ := top _ y (Nat.le_refl _) hy
    rw [ht r hr r' a hrt b]
    exact c
  · induction hy with
    | refl => exact hr
    | step a b _ ih => exact hf _ ih (hc _ ih) _ a b

/-! ## Examples -/

/-- `a gift for John .` with `gift` as the root -/
def exTr : Tr where
  all := [10, 20, 30, 40, 50]
  parent := fun n => if n = 20 then some 0 else if n = 10 ∨ n = 40 ∨ n = 50 then some 20 else if n = 30 then some 40 else none
  deps := fun _ => []
  udeprel := fun n => if n = 30 then ['c', 'a', 's', 'e'] else if n = 50 then ['p', 'u', 'n', 'c', 't'] else if n = 10 then ['d', 'e', 't'] else ['n', 'm', 'o', 'd']
  deprel := fun _ => ['x']
  upos := fun _ => ['X']

def exM (ws : List Nat) : M := { words := ws, head := 0, entity := 0 }

example : isForest exTr [40] false = false := by decide
example : isForest exTr [40] true = true := by decide
example : isForest exTr [30, 40] false = true := by decide
example : isForest exTr [10, 20, 30, 40] true = true := by decide
example : isForest exTr [20, 40, 50] true = false := by decide
example : (heads exTr [30, 40], heads exTr [10, 30], heads exTr [10, 20, 40]) = (1, 2, 1) := by decide
example : (almostCont exTr (exM [10, 30]), almostCont exTr (exM [10, 20])) = (false, true) := by decide +kernel
example : Good exTr.all (exM [30, 40]) := by refine ⟨by decide, by decide, by decide⟩
example : sel ⟨0, 1, 0, 0, 1, 1, 0⟩ exTr (exM [30, 40]) = true := by decide +kernel
example : (process 1 0 (fun _ => true) [[(0, exM [30, 40])], [(0, exM [10, 20])]] (fun _ _ => none)).2.2.2 0 10 = some ['1'] := by decide +kernel

end Verif.Coref.Print
