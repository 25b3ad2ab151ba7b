import Verif.Eval.Conll18Props
import Verif.Eval.F1

/-!
# Property C114: the scores of `eval.Conll18` and `eval.Conll17`
-/

namespace Verif.Eval
namespace Conll
open Verif.Py Verif.Coref Diff

/-! ## Inequalities -/

theorem sublist_range' : ∀ (n k : Nat) (l : List Nat), l.Pairwise (· < ·) → (∀ x ∈ l, k ≤ x ∧ x < k + n) →
    l.Sublist (List.range' k n)
  | 0, k, l, _, h => by
    cases l with
    | nil => exact List.Sublist.refl _
    | cons x l => have := h x (by simp); omega
  | n + 1, k, l, hp, h => by
    rw [List.range'_succ]
    cases l with
    | nil => exact List.nil_sublist _
    | cons x l =>
      rw [List.pairwise_cons] at hp
      by_cases e : x = k
      · subst e
        refine (sublist_range' n (x + 1) l hp.2 ?_).cons_cons x
        intro y hy
        have h1 := hp.1 y hy
        have h2 := h y (by simp [hy])
        omega
      · refine (sublist_range' n (k + 1) (x :: l) (List.pairwise_cons.2 hp) ?_).cons k
        intro y hy
        have hx := h x (by simp)
        rcases List.mem_cons.1 hy with rfl | hy'
        · omega
        · have h1 := hp.1 y hy'
          have h2 := h y hy
          omega

theorem words_eq (ws : List Word) : ws = (List.range' 0 ws.length).map (wordAt ws) := by
  apply List.ext_getElem
  · simp
  · intro i h1 h2
    simp only [List.getElem_map, List.getElem_range']
    rw [wordAt_lt (by omega)]
    congr 1
    omega

/-- At most as many aligned words have a property as there are words with it. -/
theorem howMany_words {ws : List Word} {l : List Nat} (h1 : l.Pairwise (· < ·)) (h2 : ∀ i ∈ l, i < ws.length)
    (Q : Word → Prop) : howMany l (fun i => Q (wordAt ws i)) ≤ howMany ws Q := by
  have s := sublist_range' ws.length 0 l h1 (fun i hi => ⟨Nat.zero_le _, by have := h2 i hi; omega⟩)
  unfold howMany
  refine Nat.le_trans s.countP_le ?_
  conv => rhs; rw [words_eq ws]
  rw [List.countP_map]
  exact Nat.le_of_eq rfl

theorem howMany_fst (al : List (Nat × Nat)) (P : Nat → Prop) :
    howMany al (fun x => P x.1) = howMany (al.map Prod.fst) P := by
  unfold howMany; rw [List.countP_map]; rfl

theorem howMany_snd (al : List (Nat × Nat)) (P : Nat → Prop) :
    howMany al (fun x => P x.2) = howMany (al.map Prod.snd) P := by
  unfold howMany; rw [List.countP_map]; rfl

/-- The inequalities between the numbers. -/
def Ordered (c : Count) : Prop :=
  (c.words ≤ c.pred ∧ c.words ≤ c.gold) ∧
  (c.upos ≤ c.words ∧ c.xpos ≤ c.words ∧ c.lemmas ≤ c.words ∧ c.ufeats ≤ c.words) ∧
  (c.allTags ≤ c.upos ∧ c.allTags ≤ c.xpos ∧ c.allTags ≤ c.ufeats) ∧
  (c.uas ≤ c.words ∧ c.las ≤ c.uas ∧ c.clas ≤ c.las ∧ c.mlas ≤ c.clas ∧ c.blex ≤ c.clas) ∧
  (c.clas ≤ c.aligCont ∧ c.aligCont ≤ c.goldCont ∧ c.clas ≤ c.predCont ∧ c.predCont ≤ c.pred ∧ c.goldCont ≤ c.gold)

theorem tree_ordered (lower : Str → Str) (pred gold : List Word) : Ordered (treeCount lower pred gold) := by
  obtain ⟨m1, m2, m3, m4, m5, m6, m7, m8, m9, m10, m11, m12, m13, m14, m15, m16⟩ := C114_meaning lower pred gold
  obtain ⟨hi, hs⟩ := C114_alignment lower pred gold
  simp only at m1 m2 m3 m4 m5 m6 m7 m8 m9 m10 m11 m12 m13 m14 m15 m16
  have f1 : ((align lower pred gold).map Prod.fst).Pairwise (· < ·) := by
    rw [List.pairwise_map]; exact hi.imp (fun h => h.1)
  have f2 : ((align lower pred gold).map Prod.snd).Pairwise (· < ·) := by
    rw [List.pairwise_map]; exact hi.imp (fun h => h.2)
  have g1 : ∀ i ∈ (align lower pred gold).map Prod.fst, i < pred.length := by
    intro i hm; obtain ⟨x, hx, rfl⟩ := List.mem_map.1 hm; exact (hs x hx).1
  have g2 : ∀ i ∈ (align lower pred gold).map Prod.snd, i < gold.length := by
    intro i hm; obtain ⟨x, hx, rfl⟩ := List.mem_map.1 hm; exact (hs x hx).2.1
  refine ⟨⟨?_, ?_⟩, ⟨?_, ?_, ?_, ?_⟩, ⟨?_, ?_, ?_⟩, ⟨?_, ?_, ?_, ?_, ?_⟩, ?_, ?_, ?_, ?_, ?_⟩
  · rw [m3, m1]
    have := (sublist_range' pred.length 0 _ f1 (fun i hi => ⟨Nat.zero_le _, by have := g1 i hi; omega⟩)).length_le
    simpa using this
  · rw [m3, m2]
    have := (sublist_range' gold.length 0 _ f2 (fun i hi => ⟨Nat.zero_le _, by have := g2 i hi; omega⟩)).length_le
    simpa using this
  · rw [m7, m3]; exact howMany_le_length _ _
  · rw [m8, m3]; exact howMany_le_length _ _
  · rw [m9, m3]; exact howMany_le_length _ _
  · rw [m10, m3]; exact howMany_le_length _ _
  · rw [m11, m7]; exact howMany_le (fun x _ h => h.1)
  · rw [m11, m8]; exact howMany_le (fun x _ h => h.2.1)
  · rw [m11, m10]; exact howMany_le (fun x _ h => h.2.2)
  · rw [m12, m3]; exact howMany_le_length _ _
  · rw [m13, m12]; exact howMany_le (fun x _ h => h.1)
  · rw [m14, m13]; exact howMany_le (fun x _ h => h.1)
  · rw [m16, m14]; exact howMany_le (fun x _ h => h.1)
  · rw [m15, m14]; exact howMany_le (fun x _ h => h.1)
  · rw [m14, m6]; exact howMany_le (fun x _ h => h.2)
  · rw [m6, m5, howMany_snd (align lower pred gold) (fun i => Content (wordAt gold i))]
    exact howMany_words f2 g2 Content
  · rw [m14, m4]
    refine Nat.le_trans (howMany_le (Q := fun x => Content (wordAt pred x.1)) ?_) ?_
    · intro x _ h
      unfold Content
      rw [h.1.2]
      exact h.2
    · rw [howMany_fst (align lower pred gold) (fun i => Content (wordAt pred i))]
      exact howMany_words f1 g1 Content
  · rw [m4, m1]; exact howMany_le_length _ _
  · rw [m5, m2]; exact howMany_le_length _ _

theorem Ordered.add {a b : Count} (ha : Ordered a) (hb : Ordered b) : Ordered (a.add b) := by
  unfold Ordered at *
  simp only [Count.add]
  omega

/-- C114: whatever the trees, the numbers of correct words are ordered as expected: LAS ≤ UAS ≤ words etc. -/
theorem C114_counts (lower : Str → Str) (ts : List (List Word × List Word)) : Ordered (totalCount lower ts) := by
  unfold totalCount
  have key : ∀ (l : List Count) (c : Count), Ordered c → (∀ x ∈ l, Ordered x) → Ordered (l.foldl Count.add c) := by
    intro l
    induction l with
    | nil => intro c h _; exact h
    | cons x l ih => intro c h hl; exact ih _ (h.add (hl x (by simp))) (fun y hy => hl y (by simp [hy]))
  refine key _ _ (by simp [Ordered]) ?_
  intro x hx
  obtain ⟨t, _, rfl⟩ := List.mem_map.1 hx
  exact tree_ordered lower t.1 t.2

/-! ## Scores -/

theorem ratio_bounds {c p : Nat} (h : c ≤ p) :
    0 ≤ (if p = 0 then 0 else (c : Rat) / (p : Nat)) ∧ (if p = 0 then 0 else (c : Rat) / (p : Nat)) ≤ 1 := by
  split
  · exact ⟨Rat.le_refl, by decide⟩
  · next hp =>
    have h1 : (0 : Rat) < (p : Nat) := by exact_mod_cast Nat.pos_of_ne_zero hp
    have h2 : (c : Rat) ≤ (p : Nat) := by exact_mod_cast h
    have h3 : (0 : Rat) ≤ (c : Nat) := by exact_mod_cast Nat.zero_le c
    constructor
    · rw [le_div_iff h1]; simpa using h3
    · rw [div_le_iff h1]; simpa using h2

/-- All four scores are between 0 and 1. -/
def Bounded (s : Rat × Rat × Rat × Rat) : Prop :=
  (0 ≤ s.1 ∧ s.1 ≤ 1) ∧ (0 ≤ s.2.1 ∧ s.2.1 ≤ 1) ∧ (0 ≤ s.2.2.1 ∧ s.2.2.1 ≤ 1) ∧ 0 ≤ s.2.2.2 ∧ s.2.2.2 ≤ 1

theorem precRecF1_bounded {c p g a : Nat} (hp : c ≤ p) (hg : c ≤ g) (ha : c ≤ a) : Bounded (precRecF1 c p g a) := by
  refine ⟨ratio_bounds hp, ratio_bounds hg, ?_, ratio_bounds ha⟩
  have := ratio_bounds (c := 2 * c) (p := p + g) (by omega)
  have e : ((2 * c : Nat) : Rat) = 2 * (c : Rat) := by push_cast; rfl
  rw [e] at this
  exact this

/-- C114: the F1 score is the harmonic mean of precision and recall. -/
theorem C114_harmonic {c p g a : Nat} (hp : p ≠ 0) (hg : g ≠ 0) :
    let s := precRecF1 c p g a
    s.2.2.1 * (s.1 + s.2.1) = 2 * s.1 * s.2.1 := by
  have h1 : (p : Rat) ≠ 0 := by exact_mod_cast hp
  have h2 : (g : Rat) ≠ 0 := by exact_mod_cast hg
  have h3 : ((p + g : Nat) : Rat) ≠ 0 := by exact_mod_cast (show p + g ≠ 0 by omega)
  have h3' : (p : Rat) + (g : Rat) ≠ 0 := by push_cast at h3; exact h3
  simp only [precRecF1]
  rw [if_neg hp, if_neg hg, if_neg (by omega)]
  push_cast
  grind

/-- C114: precision, recall, F1 and aligned accuracy of every metric lie between 0 and 1. -/
theorem C114_scores (lower : Str → Str) (ts : List (List Word × List Word)) (m : Metric) :
    Bounded (m.scores (totalCount lower ts)) := by
  have h := C114_counts lower ts
  unfold Ordered at h
  unfold Metric.scores
  cases m <;> simp only [Metric.cont, Metric.correct, if_true, Bool.false_eq_true, if_false] <;>
    apply precRecF1_bounded <;> omega

/-- C115: the alignment need not be as long as possible. Here `9 8` is aligned, as the longest block, although `1 2 3` is a
common subsequence (and the one that the official evaluation script would look for). -/
theorem C115_longest_violated : ∃ a b s : List Nat, s.Sublist a ∧ s.Sublist b ∧ (aligned (opcodes a b)).length < s.length :=
  ⟨[1, 2, 3, 9, 8], [9, 8, 1, 7, 2, 7, 3], [1, 2, 3], by decide, by decide, by decide +kernel⟩

/-! ## Perfect scores -/

/-- The parents are nodes of the tree. -/
def Valid (ws : List Word) : Prop := ∀ i, i < ws.length → (wordAt ws i).parent ≤ ws.length

/-- The same sentence (but for the case of the letters). -/
def SameForms (lower : Str → Str) (pred gold : List Word) : Prop :=
  pred.length = gold.length ∧ ∀ i, i < gold.length → lower (wordAt pred i).form = lower (wordAt gold i).form

theorem align_same {lower : Str → Str} {pred gold : List Word} (h : SameForms lower pred gold) :
    align lower pred gold = (List.range' 0 gold.length).zip (List.range' 0 gold.length) := by
  have e : pred.map (fun w => lower w.form) = gold.map (fun w => lower w.form) := by
    apply List.ext_getElem
    · simpa using h.1
    · intro i h1 h2
      simp only [List.length_map] at h1 h2
      have := h.2 i h2
      rw [wordAt_lt h1, wordAt_lt h2] at this
      simpa using this
  unfold align
  rw [e, aligned_self]
  simp

theorem forms_of_full {lower : Str → Str} {pred gold : List Word} (h1 : (align lower pred gold).length = pred.length)
    (h2 : (align lower pred gold).length = gold.length) : SameForms lower pred gold ∧
    align lower pred gold = (List.range' 0 gold.length).zip (List.range' 0 gold.length) := by
  obtain ⟨hi, hs⟩ := C114_alignment lower pred gold
  have hl : pred.length = gold.length := h1.symm.trans h2
  have e := inc_full gold.length 0 _ hi (by
    intro p hp
    have := hs p hp
    omega) h2
  refine ⟨⟨hl, ?_⟩, e⟩
  intro i hlt
  exact (hs (i, i) (by rw [e]; exact mem_zip_range'.2 ⟨i, hlt, by omega, by omega⟩)).2.2

theorem corr_id {n x y : Nat} (hx : x ≤ n) : Corr ((List.range' 0 n).zip (List.range' 0 n)) x y ↔ x = y := by
  constructor
  · rintro (⟨rfl, rfl⟩ | ⟨⟨a, b⟩, hp, rfl, rfl⟩)
    · rfl
    · obtain ⟨t, _, rfl, rfl⟩ := mem_zip_range'.1 hp; rfl
  · rintro rfl
    cases x with
    | zero => exact Or.inl ⟨rfl, rfl⟩
    | succ x => exact corr_succ.2 (mem_zip_range'.2 ⟨x, by omega, by omega, by omega⟩)

/-- C114: LAS is perfect (both precision and recall) exactly when the words, the parents and the universal relations are
the same and no word was rehanged by `util.ResegmentGold`. -/
theorem C114_perfect (lower : Str → Str) (pred gold : List Word) (hv : Valid pred) :
    ((treeCount lower pred gold).las = pred.length ∧ (treeCount lower pred gold).las = gold.length) ↔
    (SameForms lower pred gold ∧ ∀ i, i < gold.length → (wordAt pred i).parent = (wordAt gold i).parent ∧
      (wordAt pred i).udeprel = (wordAt gold i).udeprel ∧ (wordAt pred i).rehanged = false) := by
  have m := C114_meaning lower pred gold
  simp only at m
  obtain ⟨m1, m2, m3, -, -, -, -, -, -, -, -, m12, m13, -⟩ := m
  have o := tree_ordered lower pred gold
  unfold Ordered at o
  constructor
  · rintro ⟨h1, h2⟩
    have w1 : (align lower pred gold).length = pred.length := by omega
    have w2 : (align lower pred gold).length = gold.length := by omega
    obtain ⟨hf, e⟩ := forms_of_full w1 w2
    have all := howMany_all.1 (show howMany (align lower pred gold) (SameEdge pred gold (align lower pred gold)) =
      (align lower pred gold).length by omega)
    refine ⟨hf, fun i hi => ?_⟩
    have hm : (i, i) ∈ align lower pred gold := by rw [e]; exact mem_zip_range'.2 ⟨i, hi, by omega, by omega⟩
    obtain ⟨⟨a1, a2⟩, a3⟩ := all _ hm
    rw [e] at a1
    have hb := hv i (by rw [hf.1]; exact hi)
    rw [corr_id (by rw [← hf.1]; exact hb)] at a1
    exact ⟨a1, a3, a2⟩
  · rintro ⟨hf, h⟩
    have e := align_same hf
    have hl : (align lower pred gold).length = gold.length := by rw [e]; simp
    have all : howMany (align lower pred gold) (SameEdge pred gold (align lower pred gold)) =
        (align lower pred gold).length := by
      rw [howMany_all]
      rintro ⟨a, b⟩ hx
      rw [e] at hx
      obtain ⟨t, ht, ha, hb⟩ := mem_zip_range'.1 hx
      rw [Nat.zero_add] at ha hb
      subst ha; subst hb
      obtain ⟨h1, h2, h3⟩ := h _ ht
      refine ⟨⟨?_, h3⟩, h2⟩
      rw [e]
      have hb := hv _ (by rw [hf.1]; exact ht)
      exact (corr_id (by rw [← hf.1]; exact hb)).2 h1
    have := hf.1
    omega

/-- C114: gold data evaluated against itself is perfect in every metric. -/
theorem C114_self (lower : Str → Str) (ws : List Word) (hv : Valid ws) (hr : ∀ w ∈ ws, w.rehanged = false)
    (hf : ∀ w ∈ ws, w.funcMissing = false) :
    let c := treeCount lower ws ws
    let n := ws.length
    let k := howMany ws Content
    c = { pred := n, gold := n, words := n, predCont := k, goldCont := k, aligCont := k, upos := n, xpos := n, lemmas := n,
          ufeats := n, allTags := n, uas := n, las := n, clas := k, blex := k, mlas := k } := by
  intro c n k
  have m := C114_meaning lower ws ws
  simp only at m
  obtain ⟨m1, m2, m3, m4, m5, m6, m7, m8, m9, m10, m11, m12, m13, m14, m15, m16⟩ := m
  have e := align_same (lower := lower) (pred := ws) (gold := ws) ⟨rfl, fun _ _ => rfl⟩
  have hl : (align lower ws ws).length = n := by rw [e]; simp [n]
  have mem : ∀ x ∈ align lower ws ws, x.2 = x.1 ∧ x.1 < n := by
    rintro ⟨a, b⟩ hx
    rw [e] at hx
    obtain ⟨t, ht, ha, hb⟩ := mem_zip_range'.1 hx
    simp only
    omega
  have hw : ∀ i, i < n → wordAt ws i ∈ ws := by
    intro i hi; rw [wordAt_lt hi]; exact List.getElem_mem hi
  have edge : ∀ x ∈ align lower ws ws, SameEdge ws ws (align lower ws ws) x := by
    intro x hx
    obtain ⟨h1, h2⟩ := mem x hx
    refine ⟨⟨?_, hr _ (hw _ h2)⟩, by rw [h1]⟩
    rw [e, h1]
    exact (corr_id (hv _ h2)).2 rfl
  have all : ∀ P : Nat × Nat → Prop, (∀ x ∈ align lower ws ws, P x) → howMany (align lower ws ws) P = n := by
    intro P h; rw [howMany_all.2 h, hl]
  have cont : howMany (align lower ws ws) (fun x => Content (wordAt ws x.2)) = k := by
    have h2 : (align lower ws ws).map Prod.snd = List.range' 0 ws.length := by
      rw [e, List.map_snd_zip (Nat.le_refl _)]
    rw [howMany_snd (align lower ws ws) (fun i => Content (wordAt ws i)), h2]
    show _ = howMany ws Content
    unfold howMany
    conv => rhs; rw [words_eq ws]
    rw [List.countP_map]
    rfl
  have contOf : ∀ P : Nat × Nat → Prop, (∀ x ∈ align lower ws ws, P x ↔ Content (wordAt ws x.2)) →
      howMany (align lower ws ws) P = k := by
    intro P h
    rw [← cont]
    exact Nat.le_antisymm (howMany_le (fun x hx => (h x hx).1)) (howMany_le (fun x hx => (h x hx).2))
  have morph : ∀ w, SameMorph w w := fun w => ⟨rfl, List.Perm.refl _⟩
  have aligned : ∀ i, i < n → (i, i) ∈ align lower ws ws := by
    intro i hi; rw [e]; exact mem_zip_range'.2 ⟨i, hi, by omega, by omega⟩
  have func : ∀ x ∈ align lower ws ws, SameFunc ws ws (align lower ws ws) x := by
    intro x hx
    obtain ⟨h1, h2⟩ := mem x hx
    unfold SameFunc
    rw [h1]
    refine ⟨fun c hc _ => ⟨c, hc, aligned c hc.1, rfl, morph _⟩, fun d hd => ⟨d, hd, hr _ (hw _ hd.1), aligned d hd.1, rfl, morph _⟩⟩
  have r7 := m7.trans (all _ (fun x hx => by rw [(mem x hx).1]))
  have r8 := m8.trans (all _ (fun x hx => by rw [(mem x hx).1]))
  have r9 := m9.trans (all _ (fun x hx => by rw [(mem x hx).1]; exact Or.inr rfl))
  have r10 := m10.trans (all _ (fun x hx => by rw [(mem x hx).1]; exact List.Perm.refl _))
  have r11 := m11.trans (all _ (fun x hx => by rw [(mem x hx).1]; exact ⟨rfl, rfl, List.Perm.refl _⟩))
  have r12 := m12.trans (all _ (fun x hx => (edge x hx).1))
  have r13 := m13.trans (all _ edge)
  have r14 := m14.trans (contOf _ (fun x hx => ⟨fun h => h.2, fun h => ⟨edge x hx, h⟩⟩))
  have r15 := m15.trans (contOf _ (fun x hx => ⟨fun h => h.1.2, fun h => ⟨⟨edge x hx, h⟩, by
    rw [(mem x hx).1]; exact Or.inr rfl⟩⟩))
  have r16 := m16.trans (contOf _ (fun x hx => ⟨fun h => h.1.2, fun h => ⟨⟨edge x hx, h⟩, by
    rw [(mem x hx).1]; exact morph _, func x hx, hf _ (hw _ (mem x hx).2)⟩⟩))
  have r3 := m3.trans hl
  have r6 := m6.trans cont
  show c = _
  have ext : ∀ a b : Count, a.pred = b.pred → a.gold = b.gold → a.words = b.words → a.predCont = b.predCont →
      a.goldCont = b.goldCont → a.aligCont = b.aligCont → a.upos = b.upos → a.xpos = b.xpos → a.lemmas = b.lemmas →
      a.ufeats = b.ufeats → a.allTags = b.allTags → a.uas = b.uas → a.las = b.las → a.clas = b.clas → a.blex = b.blex →
      a.mlas = b.mlas → a = b := by
    intro a b
    cases a; cases b
    simp only
    rintro rfl rfl rfl rfl rfl rfl rfl rfl rfl rfl rfl rfl rfl rfl rfl rfl
    rfl
  exact ext _ _ m1 m2 r3 m4 m5 r6 r7 r8 r9 r10 r11 r12 r13 r14 r15 r16

/-! ## `print_raw` -/

/-- The metric that a value of `print_raw` (conll18.py:115-116) names, and the number of correct words it stands for. -/
def documented : List (String × Metric) :=
  [("UAS", .uas), ("LAS", .las), ("MLAS", .mlas), ("BLEX", .blex), ("UPOS", .upos), ("XPOS", .xpos),
   ("Feats", .ufeats), ("Lemma", .lemmas)]

/-- Those two names are not the names of the counters. -/
def misnamed : List String := ["Feats", "Lemma"]

/-- Position by position sum of the lines printed for the sentences. -/
def sumRaw (key : String) (cs : List Count) : List Nat :=
  [(cs.map (fun c => (rawScores key c).getD 0 0)).sum, (cs.map (fun c => (rawScores key c).getD 1 0)).sum,
   (cs.map (fun c => (rawScores key c).getD 2 0)).sum, (cs.map (fun c => (rawScores key c).getD 3 0)).sum]

theorem sumRaw_of {key : String} {cs : List Count} (f1 f2 f3 f4 : Count → Nat)
    (h : ∀ c, rawScores key c = [f1 c, f2 c, f3 c, f4 c]) :
    sumRaw key cs = [(cs.map f1).sum, (cs.map f2).sum, (cs.map f3).sum, (cs.map f4).sum] := by
  unfold sumRaw
  simp only [h]
  rfl

/-- C115: for a documented metric the numbers printed for the sentences add up to those from which the score of the metric is
computed. Not so for `Feats` and `Lemma` (`C115_raw_violated`). -/
theorem C115_raw_partial (lower : Str → Str) (ts : List (List Word × List Word)) (key : String) (m : Metric)
    (h : (key, m) ∈ documented) (hn : key ∉ misnamed) :
    let c := totalCount lower ts
    sumRaw key (ts.map (fun t => treeCount lower t.1 t.2)) =
      [if m.cont then c.predCont else c.pred, if m.cont then c.goldCont else c.gold,
       if m.cont then c.aligCont else c.words, m.correct c] := by
  intro c
  have key' : ∀ φ : Count → Nat, (∀ a b, φ (a.add b) = φ a + φ b) → φ {} = 0 →
      ((ts.map (fun t => treeCount lower t.1 t.2)).map φ).sum = φ c := by
    intro φ h1 h2
    show _ = φ (List.foldl _ _ _)
    rw [fold_add h1, h2, Nat.zero_add]
  have p1 := key' (·.pred) (fun _ _ => rfl) rfl
  have p2 := key' (·.gold) (fun _ _ => rfl) rfl
  have p3 := key' (·.words) (fun _ _ => rfl) rfl
  have p4 := key' (·.predCont) (fun _ _ => rfl) rfl
  have p5 := key' (·.goldCont) (fun _ _ => rfl) rfl
  have p6 := key' (·.aligCont) (fun _ _ => rfl) rfl
  have q1 := key' (·.uas) (fun _ _ => rfl) rfl
  have q2 := key' (·.las) (fun _ _ => rfl) rfl
  have q3 := key' (·.mlas) (fun _ _ => rfl) rfl
  have q4 := key' (·.blex) (fun _ _ => rfl) rfl
  have q5 := key' (·.upos) (fun _ _ => rfl) rfl
  have q6 := key' (·.xpos) (fun _ _ => rfl) rfl
  simp only [documented, List.mem_cons, Prod.mk.injEq, List.not_mem_nil, or_false] at h
  rcases h with ⟨rfl, rfl⟩ | ⟨rfl, rfl⟩ | ⟨rfl, rfl⟩ | ⟨rfl, rfl⟩ | ⟨rfl, rfl⟩ | ⟨rfl, rfl⟩ | ⟨rfl, rfl⟩ | ⟨rfl, rfl⟩
  · rw [sumRaw_of (·.pred) (·.gold) (·.words) (·.uas) (fun _ => by simp [rawScores, Count.get]), p1, p2, p3, q1]; rfl
  · rw [sumRaw_of (·.pred) (·.gold) (·.words) (·.las) (fun _ => by simp [rawScores, Count.get]), p1, p2, p3, q2]; rfl
  · rw [sumRaw_of (·.predCont) (·.goldCont) (·.aligCont) (·.mlas) (fun _ => by simp [rawScores, Count.get]), p4, p5, p6, q3]; rfl
  · rw [sumRaw_of (·.predCont) (·.goldCont) (·.aligCont) (·.blex) (fun _ => by simp [rawScores, Count.get]), p4, p5, p6, q4]; rfl
  · rw [sumRaw_of (·.pred) (·.gold) (·.words) (·.upos) (fun _ => by simp [rawScores, Count.get]), p1, p2, p3, q5]; rfl
  · rw [sumRaw_of (·.pred) (·.gold) (·.words) (·.xpos) (fun _ => by simp [rawScores, Count.get]), p1, p2, p3, q6]; rfl
  · exact absurd (by simp [misnamed]) hn
  · exact absurd (by simp [misnamed]) hn

/-- C115: the documentation of `print_raw` (conll18.py:115-116) lists `Feats` and `Lemma`, but the counters are called
`UFeats` and `Lemmas` (conll18.py:161-162): the number of correct words printed for each sentence is 0, whatever the trees. -/
theorem C115_raw_violated (lower : Str → Str) (pred gold : List Word) (key : String) (h : key = "Feats" ∨ key = "Lemma") :
    rawScores key (treeCount lower pred gold) =
      [pred.length, gold.length, (align lower pred gold).length, 0] := by
  have m := C114_meaning lower pred gold
  simp only at m
  obtain ⟨m1, m2, m3, -⟩ := m
  rcases h with rfl | rfl <;> simp [rawScores, Count.get, m1, m2, m3]

/-- C115: although all the lemmas of a tree are right, `print_raw=Lemma` says that none is. -/
theorem C115_lemma_violated (lower : Str → Str) (ws : List Word) (hv : Valid ws) (hr : ∀ w ∈ ws, w.rehanged = false)
    (hf : ∀ w ∈ ws, w.funcMissing = false) :
    (treeCount lower ws ws).lemmas = ws.length ∧
    rawScores "Lemma" (treeCount lower ws ws) = [ws.length, ws.length, ws.length, 0] := by
  have h := C114_self lower ws hv hr hf
  simp only at h
  rw [h]
  exact ⟨rfl, by simp [rawScores, Count.get]⟩

/-! ## `eval.Conll17` -/

theorem fold_add17 {φ : Count17 → Nat} (hφ : ∀ a b, φ (a.add b) = φ a + φ b) : ∀ (l : List Count17) (c : Count17),
    φ (l.foldl Count17.add c) = φ c + (l.map φ).sum
  | [], c => by simp
  | a :: l, c => by
    rw [List.foldl_cons, fold_add17 hφ l, hφ, List.map_cons, List.sum_cons]
    omega

theorem mono_if {a : Prop} [Decidable a] {m n : Nat} (h : a → m ≤ n) : (if a then m else 0) ≤ (if a then n else 0) := by
  split
  · exact h (by assumption)
  · exact Nat.le_refl _

attribute [local irreducible] ufeats mapGet morphoMatch inSet in
/-- C114: if no word was rehanged, `eval.Conll17` and `eval.Conll18` count the same words for UPOS, XPOS, UAS and LAS; the
content words of the latter are content words of the former. -/
theorem C114_conll17 (lower : Str → Str) (pred gold : List Word) (hr : ∀ i, (wordAt pred i).rehanged = false) :
    (treeCount17 lower pred gold).upos = (treeCount lower pred gold).upos ∧
    (treeCount17 lower pred gold).xpos = (treeCount lower pred gold).xpos ∧
    (treeCount17 lower pred gold).uas = (treeCount lower pred gold).uas ∧
    (treeCount17 lower pred gold).las = (treeCount lower pred gold).las ∧
    (treeCount lower pred gold).clas ≤ (treeCount17 lower pred gold).clas ∧
    (treeCount17 lower pred gold).clas ≤ (treeCount17 lower pred gold).las := by
  have key : ∀ (φ : Count17 → Nat) (ψ : Count → Nat), (∀ a b, φ (a.add b) = φ a + φ b) → (∀ a b, ψ (a.add b) = ψ a + ψ b) →
      φ {} = 0 → ψ (baseCount pred gold (align lower pred gold)) = 0 →
      φ (treeCount17 lower pred gold) =
        ((align lower pred gold).map (fun x => φ (pairCount17 pred gold (align lower pred gold) x))).sum ∧
      ψ (treeCount lower pred gold) =
        ((align lower pred gold).map (fun x => ψ (pairCount pred gold (align lower pred gold) x))).sum := by
    intro φ ψ h1 h2 h3 h4
    constructor
    · show φ (List.foldl _ _ _) = _
      rw [fold_add17 h1, List.map_map, h3, Nat.zero_add]
      rfl
    · show ψ (List.foldl _ _ _) = _
      rw [fold_add h2, List.map_map, h4, Nat.zero_add]
      rfl
  have le : ∀ (l : List (Nat × Nat)) (f g : Nat × Nat → Nat), (∀ x, f x ≤ g x) → (l.map f).sum ≤ (l.map g).sum := by
    intro l f g h
    induction l with
    | nil => simp
    | cons x l ih => simp only [List.map_cons, List.sum_cons]; have := h x; omega
  obtain ⟨a1, b1⟩ := key (·.upos) (·.upos) (fun _ _ => rfl) (fun _ _ => rfl) rfl rfl
  obtain ⟨a2, b2⟩ := key (·.xpos) (·.xpos) (fun _ _ => rfl) (fun _ _ => rfl) rfl rfl
  obtain ⟨a3, b3⟩ := key (·.uas) (·.uas) (fun _ _ => rfl) (fun _ _ => rfl) rfl rfl
  obtain ⟨a4, b4⟩ := key (·.las) (·.las) (fun _ _ => rfl) (fun _ _ => rfl) rfl rfl
  obtain ⟨a5, b5⟩ := key (·.clas) (·.clas) (fun _ _ => rfl) (fun _ _ => rfl) rfl rfl
  have disj : ∀ u, inSet content u = true → inSet clasIgnore u = false := by
    intro u h
    cases u with
    | none => unfold inSet; rfl
    | some u =>
      have hall : ∀ v ∈ content, clasIgnore.contains v = false := by decide +kernel
      unfold inSet at h ⊢
      exact hall u (by simpa using h)
  have hh : ∀ x : Nat × Nat,
      (decide (mapGet (align lower pred gold) (wordAt pred x.1).parent = some (wordAt gold x.2).parent) &&
        !(wordAt pred x.1).rehanged) =
      decide (mapGet (align lower pred gold) (wordAt pred x.1).parent = some (wordAt gold x.2).parent) := by
    intro x
    rw [hr, Bool.not_false, Bool.and_true]
  refine ⟨?_, ?_, ?_, ?_, ?_, ?_⟩
  · rw [a1, b1]; rfl
  · rw [a2, b2]; rfl
  · rw [a3, b3]
    refine congrArg List.sum (List.map_congr_left (fun x _ => ?_))
    simp only [pairCount, pairCount17]
    rw [hh x]
  · rw [a4, b4]
    refine congrArg List.sum (List.map_congr_left (fun x _ => ?_))
    simp only [pairCount, pairCount17]
    rw [hh x]
  · rw [a5, b5]
    apply le
    intro x
    simp only [pairCount, pairCount17]
    rw [hh x]
    refine mono_if (fun _ => mono_if (fun _ => ?_))
    by_cases h : inSet content (wordAt gold x.2).udeprel = true
    · rw [if_pos h, disj _ h]; exact Nat.le_refl _
    · rw [if_neg h]; exact Nat.zero_le _
  · rw [a5, a4]
    apply le
    intro x
    simp only [pairCount17]
    refine mono_if (fun _ => mono_if (fun _ => ?_))
    split <;> omega

/-! ## Examples -/

/-- "The dogs bark": "dogs" (nsubj) has the determiner "The". -/
def exGold : List Word :=
  [{ form := ['T', 'h', 'e'], lemma := ['t', 'h', 'e'], upos := ['D', 'E', 'T'], deprel := some ['d', 'e', 't'], parent := 2 },
   { form := ['d', 'o', 'g', 's'], lemma := ['d', 'o', 'g'], upos := ['N', 'O', 'U', 'N'],
     feats := ['N', 'u', 'm', 'b', 'e', 'r', '=', 'P', 'l', 'u', 'r'], deprel := some ['n', 's', 'u', 'b', 'j'], parent := 3 },
   { form := ['b', 'a', 'r', 'k'], lemma := ['b', 'a', 'r', 'k'], upos := ['V', 'E', 'R', 'B'],
     deprel := some ['r', 'o', 'o', 't'], parent := 0 }]

/-- A prediction with another relation of the determiner, a subtype of the relation of the noun and a language-specific
feature. -/
def exPred : List Word :=
  [{ form := ['T', 'h', 'e'], lemma := ['t', 'h', 'e'], upos := ['D', 'E', 'T'], deprel := some ['a', 'm', 'o', 'd'], parent := 2 },
   { form := ['d', 'o', 'g', 's'], lemma := ['d', 'o', 'g'], upos := ['N', 'O', 'U', 'N'],
     feats := ['A', '=', 'B', '|', 'N', 'u', 'm', 'b', 'e', 'r', '=', 'P', 'l', 'u', 'r'],
     deprel := some ['n', 's', 'u', 'b', 'j', ':', 'x'], parent := 3 },
   { form := ['b', 'a', 'r', 'k'], lemma := ['b', 'a', 'r', 'k'], upos := ['V', 'E', 'R', 'B'],
     deprel := some ['r', 'o', 'o', 't'], parent := 0 }]

example : Valid exGold ∧ Valid exPred := by
  constructor <;> intro i hi <;> (have : i = 0 ∨ i = 1 ∨ i = 2 := by simp [exGold, exPred] at hi; omega) <;>
    rcases this with rfl | rfl | rfl <;> decide

/-- The label of the determiner is wrong (LAS 2 of 3), and so is the noun with its function words (MLAS 1 of 2). -/
example : treeCount id exPred exGold =
    { pred := 3, gold := 3, words := 3, predCont := 3, goldCont := 2, aligCont := 2, upos := 3, xpos := 3, lemmas := 3,
      ufeats := 3, allTags := 3, uas := 3, las := 2, clas := 2, blex := 2, mlas := 1 } := by decide +kernel

example : (Metric.mlas.scores (totalCount id [(exPred, exGold)])) = (1 / 3, 1 / 2, 2 / 5, 1 / 2) := by decide +kernel
example : rawScores "Feats" (treeCount id exPred exGold) = [3, 3, 3, 0] := by decide +kernel
example : SameFeats exPred[1].feats exGold[1].feats := (C114_feats _ _).1 (by decide +kernel)

end Conll
end Verif.Eval
