/-!
# Property C161: sentences without mentions (udapi/block/corefud/countgaps.py)

A tree is given by whether it has the attributes `newdoc` and `newpar` and whether some word or some empty node has a mention; the trees of a document are
named by their positions (the code collects their `sent_id`s, of which only the number is reported). The counters `file_counters` are represented by the
sequences that they have counted; a counter has for each length the number of the sequences of that length. The printed texts are not modelled.
-/

namespace Verif.Coref.Gaps

structure T where
  newdoc : Bool
  newpar : Bool
  /-- `any(node.coref_mentions for node in tree.descendants)` -/
  mention : Bool
  /-- the same for the empty nodes -/
  emptyMention : Bool

structure St where
  fileSeqs : List (List Nat) := []
  filePars : List (List Nat) := []
  seqs : List (List Nat) := []
  pars : List (List Nat) := []
  seq : List Nat := []
  par : List Nat := []
  isEmpty : Bool := true

/-- `if l: ls.append(l)` -/
def push (ls : List (List Nat)) (l : List Nat) : List (List Nat) := if l = [] then ls else ls ++ [l]

/-- `if tree.newdoc:` (countgaps.py:37-55) -/
def atDoc (i : Nat) (t : T) (s : St) : St :=
  if t.newdoc then
    { fileSeqs := if i ≠ 0 then s.fileSeqs ++ push s.seqs s.seq else s.fileSeqs
      filePars := if i ≠ 0 then s.filePars ++ (if s.isEmpty then s.pars ++ [s.par] else s.pars) else s.filePars }
  else s

/-- `if tree.newpar:` (countgaps.py:56-60) -/
def atPar (t : T) (s : St) : St :=
  if t.newpar then { s with pars := if !t.newdoc && s.isEmpty then s.pars ++ [s.par] else s.pars, par := [], isEmpty := true } else s

/-- The tree itself (countgaps.py:62-70) -/
def atTree (i : Nat) (t : T) (s : St) : St :=
  if !t.mention then { s with seq := s.seq ++ [i], par := s.par ++ [i] } else { s with seqs := push s.seqs s.seq, seq := [], isEmpty := false }

def step (i : Nat) (t : T) (s : St) : St := atTree i t (atPar t (atDoc i t s))

def loop : Nat → List T → St → St
  | _, [], s => s
  | i, t :: l, s => loop (i + 1) l (step i t s)

/-- The sequences and the paragraphs counted for a file (countgaps.py:28-79) -/
def process (ts : List T) : List (List Nat) × List (List Nat) :=
  let s := loop 0 ts {}
  (s.fileSeqs ++ push s.seqs s.seq, s.filePars ++ push s.pars s.par)

/-! ## What the properties say -/

/-- The tree `j` has a mention on a word. -/
def Men (ts : List T) (j : Nat) : Prop := ∃ t, ts[j]? = some t ∧ t.mention = true

/-- A document starts with the tree `j`. -/
def DocAt (ts : List T) (j : Nat) : Prop := ∃ t, ts[j]? = some t ∧ t.newdoc = true

/-- A paragraph starts with the tree `j`. -/
def ParAt (ts : List T) (j : Nat) : Prop := ∃ t, ts[j]? = some t ∧ (t.newdoc = true ∨ t.newpar = true)

instance (ts : List T) (j : Nat) : Decidable (Men ts j) :=
  match h : ts[j]? with
  | some t => if g : t.mention = true then .isTrue ⟨t, h, g⟩ else .isFalse (by rintro ⟨u, hu, gu⟩; rw [h] at hu; cases hu; exact g gu)
  | none => .isFalse (by rintro ⟨u, hu, _⟩; rw [h] at hu; cases hu)

/-- `k` trees from `i` on are a longest sequence of trees of one document without mentions. -/
def MaxSeq (ts : List T) (i k : Nat) : Prop :=
  0 < k ∧ i + k ≤ ts.length ∧ (∀ j, i ≤ j → j < i + k → ¬ Men ts j) ∧ (∀ j, i < j → j < i + k → ¬ DocAt ts j) ∧
  (i = 0 ∨ DocAt ts i ∨ Men ts (i - 1)) ∧ (i + k = ts.length ∨ DocAt ts (i + k) ∨ Men ts (i + k))

/-- `k` trees from `i` on are a paragraph. -/
def IsPar (ts : List T) (i k : Nat) : Prop :=
  0 < k ∧ i + k ≤ ts.length ∧ (i = 0 ∨ ParAt ts i) ∧ (∀ j, i < j → j < i + k → ¬ ParAt ts j) ∧ (i + k = ts.length ∨ ParAt ts (i + k))

/-! ## Sequences -/

/-- The trees without mentions among `k` trees from `i` on -/
def free (ts : List T) (i k : Nat) : List Nat := (List.range' i k).filter (fun j => decide (¬ Men ts j))

theorem free_succ (ts : List T) (i k : Nat) : free ts i (k + 1) = free ts i k ++ (if Men ts (i + k) then [] else [i + k]) := by
  unfold free
  rw [List.range'_1_concat, List.filter_append]
  congr 1
  rw [List.filter_cons, List.filter_nil]
  by_cases h : Men ts (i + k) <;> simp [h]

theorem push_flatten (ls : List (List Nat)) (l : List Nat) : (push ls l).flatten = ls.flatten ++ l := by
  unfold push
  split
  · rename_i h; rw [h, List.append_nil]
  · rw [List.flatten_append]; simp

theorem mem_push {ls : List (List Nat)} {l x : List Nat} : x ∈ push ls l ↔ x ∈ ls ∨ (x = l ∧ l ≠ []) := by
  unfold push
  split
  · rename_i h; simp [h]
  · rename_i h; simp [h]

/-- What holds after `n` trees: `k` trees without mentions are collected. -/
structure SeqInv (ts : List T) (n : Nat) (s : St) : Prop where
  flat : (s.fileSeqs ++ s.seqs).flatten ++ s.seq = free ts 0 n
  max : ∀ x ∈ s.fileSeqs ++ s.seqs, ∃ i k, x = List.range' i k ∧ MaxSeq ts i k
  cur : ∃ i k, s.seq = List.range' i k ∧ i + k = n ∧ (∀ j, i < j → j < n → ¬ DocAt ts j) ∧ (k ≠ 0 → i = 0 ∨ DocAt ts i ∨ Men ts (i - 1)) ∧
    (k = 0 → n = 0 ∨ Men ts (n - 1) ∨ DocAt ts n) ∧ (∀ j, i ≤ j → j < n → ¬ Men ts j)

theorem seq_end {ts : List T} {n : Nat} {s : St} (h : SeqInv ts n s) (hn : n ≤ ts.length) (he : n = ts.length ∨ DocAt ts n ∨ Men ts n) :
    (s.fileSeqs ++ push s.seqs s.seq).flatten = free ts 0 n ∧ ∀ x ∈ s.fileSeqs ++ push s.seqs s.seq, ∃ i k, x = List.range' i k ∧ MaxSeq ts i k := by
  refine ⟨?_, fun x hx => ?_⟩
  · rw [List.flatten_append, push_flatten, ← h.flat, List.flatten_append, List.append_assoc]
  · rcases List.mem_append.1 hx with h1 | h1
    · exact h.max x (List.mem_append_left _ h1)
    rcases mem_push.1 h1 with h2 | ⟨rfl, h2⟩
    · exact h.max x (List.mem_append_right _ h2)
    · obtain ⟨i, k, e, hk, hd, hst, _, hm⟩ := h.cur
      have hk0 : k ≠ 0 := by rintro rfl; exact h2 (by rw [e]; rfl)
      refine ⟨i, k, e, Nat.pos_of_ne_zero hk0, by omega, fun j h3 h4 => hm j h3 (by omega), fun j h3 h4 => hd j h3 (by omega), hst hk0, ?_⟩
      rw [hk]; exact he

theorem seq_doc {ts : List T} {n : Nat} {s : St} {t : T} (ht : ts[n]? = some t) (h : SeqInv ts n s) :
    SeqInv ts n (atDoc n t s) ∧ (t.newdoc = true → (atDoc n t s).seq = []) := by
  have hn : n < ts.length := by
    rcases Nat.lt_or_ge n ts.length with g | g
    · exact g
    · rw [List.getElem?_eq_none g] at ht; cases ht
  unfold atDoc
  cases hd : t.newdoc with
  | false => simp only [Bool.false_eq_true, if_false]; exact ⟨h, fun h => (by cases h)⟩
  | true =>
    have hat : DocAt ts n := ⟨t, ht, hd⟩
    simp only [if_true, implies_true, and_true]
    have hcur : ∃ i k, ([] : List Nat) = List.range' i k ∧ i + k = n ∧ (∀ j, i < j → j < n → ¬ DocAt ts j) ∧ (k ≠ 0 → i = 0 ∨ DocAt ts i ∨ Men ts (i - 1)) ∧
        (k = 0 → n = 0 ∨ Men ts (n - 1) ∨ DocAt ts n) ∧ (∀ j, i ≤ j → j < n → ¬ Men ts j) :=
      ⟨n, 0, rfl, rfl, fun j h1 h2 => by omega, fun h => absurd rfl h, fun _ => .inr (.inr hat), fun j h1 h2 => by omega⟩
    by_cases h0 : n = 0
    · subst h0
      simp only [ne_eq, not_true_eq_false, if_false]
      have hf := h.flat
      have hnil : free ts 0 0 = [] := rfl
      rw [hnil] at hf
      have := List.append_eq_nil_iff.1 hf
      rw [List.flatten_append] at this
      exact ⟨by rw [List.append_nil, List.append_nil, (List.append_eq_nil_iff.1 this.1).1]; rfl, fun x hx => h.max x (by
        rw [List.append_nil] at hx; exact List.mem_append_left _ hx), hcur⟩
    · have := seq_end h (Nat.le_of_lt hn) (.inr (.inl hat))
      simp only [ne_eq, h0, not_false_eq_true, if_true]
      exact ⟨by rw [List.append_nil, List.append_nil]; exact this.1, by intro x hx; rw [List.append_nil] at hx; exact this.2 x hx, hcur⟩

theorem seq_step {ts : List T} {n : Nat} {s : St} {t : T} (ht : ts[n]? = some t) (h : SeqInv ts n s) : SeqInv ts (n + 1) (step n t s) := by
  have hn : n < ts.length := by
    rcases Nat.lt_or_ge n ts.length with g | g
    · exact g
    · rw [List.getElem?_eq_none g] at ht; cases ht
  obtain ⟨hA, hB⟩ := seq_doc ht h
  unfold step
  generalize atDoc n t s = u at hA hB
  have e1 : (atPar t u).fileSeqs = u.fileSeqs := by unfold atPar; split <;> rfl
  have e2 : (atPar t u).seqs = u.seqs := by unfold atPar; split <;> rfl
  have e3 : (atPar t u).seq = u.seq := by unfold atPar; split <;> rfl
  have hP : SeqInv ts n (atPar t u) := ⟨by rw [e1, e2, e3]; exact hA.flat, by rw [e1, e2]; exact hA.max, by rw [e3]; exact hA.cur⟩
  rw [← e3] at hB
  generalize atPar t u = v at hP hB
  have hf0 : free ts 0 (n + 1) = free ts 0 n ++ (if Men ts n then [] else [n]) := by have := free_succ ts 0 n; rwa [Nat.zero_add] at this
  unfold atTree
  cases hm : t.mention with
  | true =>
    have hM : Men ts n := ⟨t, ht, hm⟩
    simp only [Bool.not_true, Bool.false_eq_true, if_false]
    have := seq_end hP (Nat.le_of_lt hn) (.inr (.inr hM))
    refine ⟨by rw [hf0, if_pos hM, List.append_nil, List.append_nil]; exact this.1, this.2, n + 1, 0, rfl, rfl, fun j h1 h2 => by omega, fun h => absurd rfl h,
      fun _ => .inr (.inl (by rw [Nat.add_sub_cancel]; exact hM)), fun j h1 h2 => by omega⟩
  | false =>
    have hM : ¬ Men ts n := by rintro ⟨w, hw, hw'⟩; rw [ht] at hw; cases hw; rw [hm] at hw'; cases hw'
    simp only [Bool.not_false, if_true]
    obtain ⟨i, k, e, hk, hd, hst, hz, hmen⟩ := hP.cur
    refine ⟨by rw [hf0, if_neg hM, ← List.append_assoc]; exact congrArg (· ++ [n]) hP.flat, hP.max, ?_⟩
    by_cases hnd : t.newdoc = true
    · have hk0 : k = 0 := by have := hB hnd; rw [e] at this; exact List.range'_eq_nil_iff.1 this
      subst hk0
      refine ⟨n, 1, by rw [hB hnd]; rfl, rfl, fun j h1 h2 => by omega, fun _ => .inr (.inl ⟨t, ht, hnd⟩), fun h => (by cases h), fun j h1 h2 => ?_⟩
      have : j = n := by omega
      exact this ▸ hM
    · have hD : ¬ DocAt ts n := by rintro ⟨w, hw, hw'⟩; rw [ht] at hw; cases hw; exact hnd hw'
      refine ⟨i, k + 1, by rw [e, List.range'_1_concat, hk], by omega, fun j h1 h2 => ?_, fun _ => ?_, fun h => (by cases h), fun j h1 h2 => ?_⟩
      · rcases Nat.lt_or_ge j n with g | g
        · exact hd j h1 g
        · have : j = n := by omega
          exact this ▸ hD
      · by_cases hk0 : k = 0
        · subst hk0
          rw [Nat.add_zero] at hk
          subst hk
          rcases hz rfl with g | g | g
          · exact .inl g
          · exact .inr (.inr g)
          · exact absurd g hD
        · exact hst hk0
      · rcases Nat.lt_or_ge j n with g | g
        · exact hmen j h1 g
        · have : j = n := by omega
          exact this ▸ hM

theorem loop_inv {ts : List T} (P : Nat → St → Prop) (hstep : ∀ n t s, ts[n]? = some t → P n s → P (n + 1) (step n t s)) :
    ∀ (l : List T) (n : Nat) (s : St), (∀ j : Nat, l[j]? = ts[n + j]?) → n + l.length = ts.length → P n s → P ts.length (loop n l s)
  | [], n, s, _, hl, h => by rw [← hl]; exact h
  | t :: l, n, s, hj, hl, h => by
    refine loop_inv P hstep l (n + 1) (step n t s) (fun j => ?_) (by rw [← hl, List.length_cons]; omega) (hstep n t s ?_ h)
    · have := hj (j + 1)
      rw [List.getElem?_cons_succ] at this
      rw [this]
      congr 1
      omega
    · have := hj 0
      rw [List.getElem?_cons_zero] at this
      exact this.symm

theorem seq_all (ts : List T) : SeqInv ts ts.length (loop 0 ts {}) := by
  refine loop_inv (SeqInv ts) (fun n t s => seq_step) ts 0 {} (fun j => by rw [Nat.zero_add]) (by omega) ⟨rfl, fun x hx => (by cases hx), 0, 0, rfl, rfl,
    fun j h1 h2 => by omega, fun h => absurd rfl h, fun _ => .inl rfl, fun j h1 h2 => by omega⟩

/-! ## Paragraphs -/

/-- What holds after `n` trees: the last paragraph started at `i`. -/
structure ParInv (ts : List T) (n : Nat) (s : St) : Prop where
  cur : ∃ i, i ≤ n ∧ (0 < n → i < n) ∧ (i = 0 ∨ ParAt ts i) ∧ (∀ j, i < j → j < n → ¬ ParAt ts j) ∧ s.par = free ts i (n - i) ∧
    (s.isEmpty = true ↔ ∀ j, i ≤ j → j < n → ¬ Men ts j) ∧
    (∀ x, x ∈ s.filePars ++ s.pars ↔ ∃ a k, x = List.range' a k ∧ IsPar ts a k ∧ a + k ≤ i ∧ ∀ j, a ≤ j → j < a + k → ¬ Men ts j) ∧
    (s.filePars ++ s.pars).Pairwise (fun x y => ∀ a ∈ x, ∀ b ∈ y, a < b)

theorem free_all {ts : List T} {i k : Nat} (h : ∀ j, i ≤ j → j < i + k → ¬ Men ts j) : free ts i k = List.range' i k := by
  unfold free
  rw [List.filter_eq_self]
  intro j hj
  rw [List.mem_range'_1] at hj
  exact decide_eq_true (h j hj.1 hj.2)

/-- Two paragraphs that share a start or overlap are equal. -/
theorem par_before {ts : List T} {i k n : Nat} (h1 : IsPar ts i k) (hi : i < n) (hn : n ≤ i + k) (hp : n < i + k → ParAt ts n) : i + k = n := by
  obtain ⟨_, _, _, hin, _⟩ := h1
  rcases Nat.lt_or_ge n (i + k) with g | g
  · exact absurd (hp g) (hin n hi g)
  · omega

/-- A new paragraph starts at `n`. -/
theorem par_cut {ts : List T} {n : Nat} {s : St} (hn : n < ts.length) (h0 : 0 < n) (h : ParInv ts n s) (hc : ParAt ts n) :
    let l := s.filePars ++ (if s.isEmpty then s.pars ++ [s.par] else s.pars)
    (∀ x, x ∈ l ↔ ∃ a k, x = List.range' a k ∧ IsPar ts a k ∧ a + k ≤ n ∧ ∀ j, a ≤ j → j < a + k → ¬ Men ts j) ∧
      l.Pairwise (fun x y => ∀ a ∈ x, ∀ b ∈ y, a < b) := by
  obtain ⟨i, hi, hlt, hst, hin, hpar, hemp, hall, hpw⟩ := h.cur
  have hlt := hlt h0
  have hP : IsPar ts i (n - i) := ⟨by omega, by omega, hst, fun j h1 h2 => hin j h1 (by omega), .inr (by rw [show i + (n - i) = n by omega]; exact hc)⟩
  -- a paragraph that ends at most at n ends at most at i or is the last one
  have key : ∀ a k, IsPar ts a k → a + k ≤ n → a + k ≤ i ∨ (a = i ∧ k = n - i) := by
    rintro a k ⟨g1, g2, g3, g4, g5⟩ hk
    rcases Nat.lt_or_ge i (a + k) with g | g
    · right
      have hend : a + k = n := by
        rcases Nat.lt_or_ge (a + k) n with q | q
        · rcases g5 with g5 | g5
          · omega
          · exact absurd g5 (hin _ g q)
        · omega
      have ha : a = i := by
        rcases Nat.lt_trichotomy a i with q | q | q
        · rcases hst with r | r
          · omega
          · exact absurd r (g4 i q g)
        · exact q
        · rcases g3 with r | r
          · omega
          · exact absurd r (hin a q (by omega))
      exact ⟨ha, by omega⟩
    · exact .inl g
  intro l
  cases he : s.isEmpty with
  | true =>
    have hfree : ∀ j, i ≤ j → j < n → ¬ Men ts j := hemp.1 he
    have hpr : s.par = List.range' i (n - i) := by rw [hpar]; exact free_all (fun j h1 h2 => hfree j h1 (by omega))
    have hl : l = (s.filePars ++ s.pars) ++ [s.par] := by simp [l, he]
    rw [hl]
    refine ⟨fun x => ?_, ?_⟩
    · rw [List.mem_append, hall x, List.mem_singleton]
      constructor
      · rintro (⟨a, k, g1, g2, g3, g4⟩ | rfl)
        · exact ⟨a, k, g1, g2, by omega, g4⟩
        · exact ⟨i, n - i, hpr, hP, by omega, fun j h1 h2 => hfree j h1 (by omega)⟩
      · rintro ⟨a, k, g1, g2, g3, g4⟩
        rcases key a k g2 g3 with q | ⟨rfl, rfl⟩
        · exact .inl ⟨a, k, g1, g2, q, g4⟩
        · exact .inr (g1.trans hpr.symm)
    · rw [List.pairwise_append]
      refine ⟨hpw, List.pairwise_singleton _ _, fun x hx y hy a ha b hb => ?_⟩
      obtain ⟨c, k, rfl, _, g3, _⟩ := (hall x).1 hx
      rw [List.mem_singleton.1 hy, hpr, List.mem_range'_1] at hb
      rw [List.mem_range'_1] at ha
      omega
  | false =>
    have hl : l = s.filePars ++ s.pars := by simp [l, he]
    rw [hl]
    refine ⟨fun x => ?_, hpw⟩
    rw [hall x]
    constructor
    · rintro ⟨a, k, g1, g2, g3, g4⟩; exact ⟨a, k, g1, g2, by omega, g4⟩
    · rintro ⟨a, k, g1, g2, g3, g4⟩
      rcases key a k g2 g3 with q | ⟨rfl, rfl⟩
      · exact ⟨a, k, g1, g2, q, g4⟩
      · have : s.isEmpty = true := hemp.2 (fun j h1 h2 => g4 j h1 (by omega))
        rw [he] at this; cases this

theorem par_step {ts : List T} (hfirst : ∀ t, ts[0]? = some t → t.newpar = true → t.newdoc = true) {n : Nat} {s : St} {t : T} (ht : ts[n]? = some t)
    (h : ParInv ts n s) : ParInv ts (n + 1) (step n t s) := by
  have hn : n < ts.length := by
    rcases Nat.lt_or_ge n ts.length with g | g
    · exact g
    · rw [List.getElem?_eq_none g] at ht; cases ht
  -- before the tree itself
  have hmid : ∃ i, i ≤ n ∧ (i = 0 ∨ ParAt ts i) ∧ (∀ j, i < j → j < n + 1 → ¬ ParAt ts j) ∧ (atPar t (atDoc n t s)).par = free ts i (n - i) ∧
      ((atPar t (atDoc n t s)).isEmpty = true ↔ ∀ j, i ≤ j → j < n → ¬ Men ts j) ∧
      (∀ x, x ∈ (atPar t (atDoc n t s)).filePars ++ (atPar t (atDoc n t s)).pars ↔
        ∃ a k, x = List.range' a k ∧ IsPar ts a k ∧ a + k ≤ i ∧ ∀ j, a ≤ j → j < a + k → ¬ Men ts j) ∧
      ((atPar t (atDoc n t s)).filePars ++ (atPar t (atDoc n t s)).pars).Pairwise (fun x y => ∀ a ∈ x, ∀ b ∈ y, a < b) := by
    by_cases hc : t.newdoc = true ∨ t.newpar = true
    · have hcut : ParAt ts n := ⟨t, ht, hc⟩
      have e1 : (atPar t (atDoc n t s)).par = [] := by
        unfold atPar atDoc
        cases hd : t.newdoc <;> cases hp : t.newpar <;> simp_all
      have e2 : (atPar t (atDoc n t s)).isEmpty = true := by
        unfold atPar atDoc
        cases hd : t.newdoc <;> cases hp : t.newpar <;> simp_all
      by_cases h0 : n = 0
      · subst h0
        have hd : t.newdoc = true := by
          rcases hc with g | g
          · exact g
          · exact hfirst t ht g
        obtain ⟨i, hi, _, _, _, _, _, hall, hpw⟩ := h.cur
        have hi0 : i = 0 := by omega
        subst hi0
        have e3 : (atPar t (atDoc 0 t s)).filePars ++ (atPar t (atDoc 0 t s)).pars = s.filePars := by
          unfold atPar atDoc
          cases hp : t.newpar <;> simp [hd]
        have hnil : ∀ x, x ∉ s.filePars ++ s.pars := by
          intro x hx
          obtain ⟨a, k, _, ⟨hk, _⟩, g3, _⟩ := (hall x).1 hx
          omega
        have hfp : s.filePars = [] := List.eq_nil_iff_forall_not_mem.2 (fun x hx => hnil x (List.mem_append_left _ hx))
        refine ⟨0, Nat.le_refl _, .inl rfl, fun j h1 h2 => by omega, e1, ⟨fun _ j h1 h2 => by omega, fun _ => e2⟩, fun x => ?_, ?_⟩
        · rw [e3, hfp]
          constructor
          · intro hx; cases hx
          · rintro ⟨a, k, _, ⟨hk, _⟩, g3, _⟩; omega
        · rw [e3, hfp]; exact List.Pairwise.nil
      · have e3 : (atPar t (atDoc n t s)).filePars ++ (atPar t (atDoc n t s)).pars = s.filePars ++ (if s.isEmpty then s.pars ++ [s.par] else s.pars) := by
          unfold atPar atDoc
          cases hd : t.newdoc <;> cases hp : t.newpar <;> simp_all
        obtain ⟨g1, g2⟩ := par_cut hn (Nat.pos_of_ne_zero h0) h hcut
        refine ⟨n, Nat.le_refl _, .inr hcut, fun j h1 h2 => by omega, by rw [e1, Nat.sub_self]; rfl, ⟨fun _ j h1 h2 => by omega, fun _ => e2⟩, ?_, ?_⟩
        · rw [e3]; exact g1
        · rw [e3]; exact g2
    · rw [not_or, Bool.not_eq_true, Bool.not_eq_true] at hc
      have e : atPar t (atDoc n t s) = s := by unfold atPar atDoc; simp [hc.1, hc.2]
      have hcut : ¬ ParAt ts n := by
        rintro ⟨w, hw, hw'⟩; rw [ht] at hw; cases hw
        rcases hw' with g | g
        · rw [hc.1] at g; cases g
        · rw [hc.2] at g; cases g
      rw [e]
      obtain ⟨i, hi, _, hst, hin, hrest⟩ := h.cur
      refine ⟨i, hi, hst, fun j h1 h2 => ?_, hrest⟩
      rcases Nat.lt_or_ge j n with g | g
      · exact hin j h1 g
      · have : j = n := by omega
        exact this ▸ hcut
  unfold step
  generalize atPar t (atDoc n t s) = v at hmid
  obtain ⟨i, hi, hst, hin, hpar, hemp, hall, hpw⟩ := hmid
  have hfs : free ts i (n + 1 - i) = free ts i (n - i) ++ (if Men ts n then [] else [n]) := by
    rw [show n + 1 - i = (n - i) + 1 by omega, free_succ, show i + (n - i) = n by omega]
  unfold atTree
  cases hm : t.mention with
  | true =>
    have hM : Men ts n := ⟨t, ht, hm⟩
    simp only [Bool.not_true, Bool.false_eq_true, if_false]
    refine ⟨i, by omega, fun _ => by omega, hst, hin, by rw [hfs, if_pos hM, List.append_nil]; exact hpar, ⟨fun h => (by cases h), fun h => ?_⟩, hall, hpw⟩
    exact absurd hM (h n hi (by omega))
  | false =>
    have hM : ¬ Men ts n := by rintro ⟨w, hw, hw'⟩; rw [ht] at hw; cases hw; rw [hm] at hw'; cases hw'
    simp only [Bool.not_false, if_true]
    refine ⟨i, by omega, fun _ => by omega, hst, hin, by rw [hfs, if_neg hM]; exact congrArg (· ++ [n]) hpar, ?_, hall, hpw⟩
    refine hemp.trans ⟨fun h j h1 h2 => ?_, fun h j h1 h2 => h j h1 (by omega)⟩
    rcases Nat.lt_or_ge j n with g | g
    · exact h j h1 g
    · have : j = n := by omega
      exact this ▸ hM

theorem par_all {ts : List T} (hfirst : ∀ t, ts[0]? = some t → t.newpar = true → t.newdoc = true) : ParInv ts ts.length (loop 0 ts {}) := by
  refine loop_inv (ParInv ts) (fun n t s => par_step hfirst) ts 0 {} (fun j => by rw [Nat.zero_add]) (by omega) ⟨0, Nat.le_refl _, fun h => by omega, .inl rfl,
    fun j h1 h2 => by omega, rfl, ⟨fun _ j h1 h2 => by omega, fun _ => rfl⟩, fun x => ⟨fun hx => (by cases hx), ?_⟩, List.Pairwise.nil⟩
  rintro ⟨a, k, _, ⟨hk, _⟩, g3, _⟩; omega

/-! ## Theorems -/

/-- **C161, sequences.** The counted sequences are longest sequences of sentences of one document without mentions of words, and together they are all sentences
without such mentions, each once and in order (so that the reported SUM is their number). -/
theorem C161_sequences (ts : List T) :
    (process ts).1.flatten = (List.range ts.length).filter (fun j => decide (¬ Men ts j)) ∧
    ∀ x ∈ (process ts).1, ∃ i k, x = List.range' i k ∧ MaxSeq ts i k := by
  have := seq_end (seq_all ts) (Nat.le_refl _) (.inl rfl)
  rw [show free ts 0 ts.length = (List.range ts.length).filter (fun j => decide (¬ Men ts j)) by unfold free; rw [List.range_eq_range']] at this
  exact this

/-- **C161, all sequences.** Every longest sequence of sentences of one document without mentions is counted. -/
theorem C161_sequences_all (ts : List T) {i k : Nat} (h : MaxSeq ts i k) : List.range' i k ∈ (process ts).1 := by
  obtain ⟨h1, h2⟩ := C161_sequences ts
  obtain ⟨hk, hlen, hm, hd, hst, hen⟩ := h
  have hi : i ∈ (process ts).1.flatten := by
    rw [h1, List.mem_filter]
    exact ⟨List.mem_range.2 (by omega), decide_eq_true (hm i (Nat.le_refl _) (by omega))⟩
  obtain ⟨x, hx, hix⟩ := List.mem_flatten.1 hi
  obtain ⟨a, b, rfl, gb, glen, gm, gd, gst, gen⟩ := h2 x hx
  rw [List.mem_range'_1] at hix
  have ea : a = i := by
    rcases Nat.lt_or_ge a i with g | g
    · rcases hst with q | q | q
      · omega
      · exact absurd q (gd i g hix.2)
      · exact absurd q (gm (i - 1) (by omega) (by omega))
    · omega
  subst ea
  have eb : b = k := by
    rcases Nat.lt_trichotomy b k with g | g | g
    · rcases gen with q | q | q
      · omega
      · exact absurd q (hd _ (by omega) (by omega))
      · exact absurd q (hm _ (by omega) (by omega))
    · exact g
    · rcases hen with q | q | q
      · omega
      · exact absurd q (gd _ (by omega) (by omega))
      · exact absurd q (gm _ (by omega) (by omega))
  subst eb
  exact hx

/-- **C161, paragraphs (partial).** Unless the first sentence has `newpar` without `newdoc`, of all paragraphs but the last one of the file exactly those
without mentions are counted, each once and in order. After them the last paragraph is counted if it has a sentence without mentions. Missing (and violated by
the code): that the last paragraph is counted only if it has no mention. -/
theorem C161_paragraphs_partial {ts : List T} (hfirst : ∀ t, ts[0]? = some t → t.newpar = true → t.newdoc = true) :
    ∃ ps last, (process ts).2 = ps ++ last ∧
      (∀ x, x ∈ ps ↔ ∃ i k, x = List.range' i k ∧ IsPar ts i k ∧ i + k < ts.length ∧ ∀ j, i ≤ j → j < i + k → ¬ Men ts j) ∧
      ps.Pairwise (fun x y => ∀ a ∈ x, ∀ b ∈ y, a < b) ∧
      (∀ i k, IsPar ts i k → i + k = ts.length → last = [] ∧ (∀ j, i ≤ j → j < i + k → Men ts j) ∨
        ∃ l, last = [l] ∧ l ≠ [] ∧ ∀ j, j ∈ l ↔ i ≤ j ∧ j < i + k ∧ ¬ Men ts j) := by
  obtain ⟨i, hi, hlt, hst, hin, hpar, hemp, hall, hpw⟩ := (par_all hfirst).cur
  generalize hs : loop 0 ts {} = s at *
  have hmem : ∀ j, j ∈ s.par ↔ i ≤ j ∧ j < ts.length ∧ ¬ Men ts j := by
    intro j
    rw [hpar, free, List.mem_filter, List.mem_range'_1, decide_eq_true_iff, and_assoc]
    exact ⟨fun ⟨g1, g2, g3⟩ => ⟨g1, by omega, g3⟩, fun ⟨g1, g2, g3⟩ => ⟨g1, by omega, g3⟩⟩
  refine ⟨s.filePars ++ s.pars, if s.par = [] then [] else [s.par], ?_, fun x => ?_, hpw, ?_⟩
  · show (loop 0 ts {}).filePars ++ push (loop 0 ts {}).pars (loop 0 ts {}).par = _
    rw [hs]
    unfold push
    split <;> simp
  · rw [hall x]
    constructor
    · rintro ⟨a, k, g1, g2, g3, g4⟩
      refine ⟨a, k, g1, g2, ?_, g4⟩
      have := g2.1
      have := hlt (by omega)
      omega
    · rintro ⟨a, k, g1, g2, g3, g4⟩
      refine ⟨a, k, g1, g2, ?_, g4⟩
      obtain ⟨q1, q2, q3, q4, q5⟩ := g2
      rcases q5 with q | q
      · omega
      · refine Nat.not_lt.1 (fun hc => hin _ hc g3 q)
  · intro a k hP hk
    obtain ⟨q1, q2, q3, q4, q5⟩ := hP
    have hlt := hlt (by omega)
    have ha : a = i := by
      rcases Nat.lt_trichotomy a i with q | q | q
      · rcases hst with r | r
        · omega
        · exact absurd r (q4 i q (by omega))
      · exact q
      · rcases q3 with r | r
        · omega
        · exact absurd r (hin a q (by omega))
    subst ha
    by_cases he : s.par = []
    · left
      refine ⟨if_pos he, fun j h1 h2 => ?_⟩
      refine Decidable.byContradiction (fun hc => ?_)
      have := (hmem j).2 ⟨h1, by omega, hc⟩
      rw [he] at this; cases this
    · right
      exact ⟨s.par, if_neg he, he, fun j => by rw [hmem j, hk]⟩

/-- **C161 violated (last paragraph).** If the last paragraph of a file has both sentences with and sentences without mentions, its sentences without
mentions are counted as an empty paragraph. -/
theorem C161_last_violated {ts : List T} (hfirst : ∀ t, ts[0]? = some t → t.newpar = true → t.newdoc = true) {i k a b : Nat} (hp : IsPar ts i k)
    (hk : i + k = ts.length) (_ : i ≤ a) (ham : Men ts a) (hb : i ≤ b) (hbl : b < ts.length) (hbm : ¬ Men ts b) :
    ∃ x ∈ (process ts).2, b ∈ x ∧ a ∉ x := by
  obtain ⟨ps, last, h1, _, _, h4⟩ := C161_paragraphs_partial hfirst
  rcases h4 i k hp hk with ⟨_, g⟩ | ⟨l, rfl, _, g⟩
  · exact absurd (g b hb (by omega)) hbm
  · exact ⟨l, by rw [h1]; simp, (g b).2 ⟨hb, by omega, hbm⟩, fun h => ((g a).1 h).2.2 ham⟩

theorem loop_pars {x : List Nat} : ∀ (l : List T) (n : Nat) (s : St), 0 < n → x ∈ s.filePars ++ s.pars → x ∈ (loop n l s).filePars ++ (loop n l s).pars
  | [], _, _, _, h => h
  | t :: l, n, s, hn, h => by
    refine loop_pars l (n + 1) _ (by omega) ?_
    have h1 : x ∈ (atDoc n t s).filePars ++ (atDoc n t s).pars := by
      unfold atDoc
      split
      · rw [List.append_nil]
        show x ∈ if n ≠ 0 then s.filePars ++ (if s.isEmpty = true then s.pars ++ [s.par] else s.pars) else s.filePars
        rw [if_pos (by omega)]
        split
        · rw [← List.append_assoc]; exact List.mem_append_left _ h
        · exact h
      · exact h
    have h2 : x ∈ (atPar t (atDoc n t s)).filePars ++ (atPar t (atDoc n t s)).pars := by
      generalize atDoc n t s = u at h1
      unfold atPar
      split
      · show x ∈ u.filePars ++ (if _ then _ else _)
        split
        · rw [← List.append_assoc]; exact List.mem_append_left _ h1
        · exact h1
      · exact h1
    unfold step
    generalize atPar t (atDoc n t s) = u at h2
    unfold atTree
    split <;> exact h2

/-- **C161 violated (first paragraph).** If the first sentence of a file has `newpar` and no `newdoc`, a paragraph of length 0 is counted. -/
theorem C161_first_violated (t : T) (l : List T) (hp : t.newpar = true) (hd : t.newdoc = false) : [] ∈ (process (t :: l)).2 := by
  have h : ([] : List Nat) ∈ (step 0 t {}).filePars ++ (step 0 t {}).pars := by
    unfold step atTree atPar atDoc
    cases hm : t.mention <;> simp [hp, hd]
  have := loop_pars l 1 _ (by omega) h
  show [] ∈ (loop 1 l (step 0 t {})).filePars ++ push _ _
  rcases List.mem_append.1 this with g | g
  · exact List.mem_append_left _ g
  · exact List.mem_append_right _ (mem_push.2 (.inl g))

/-- **C161 violated (empty nodes).** A sentence all whose mentions are on empty nodes is counted among the sentences without mentions. -/
theorem C161_empty_violated {ts : List T} {j : Nat} {t : T} (ht : ts[j]? = some t) (hw : t.mention = false) (_ : t.emptyMention = true) :
    ∃ x ∈ (process ts).1, j ∈ x := by
  have hm : ¬ Men ts j := by rintro ⟨u, hu, hu'⟩; rw [ht] at hu; cases hu; rw [hw] at hu'; cases hu'
  have hj : j < ts.length := by
    rcases Nat.lt_or_ge j ts.length with g | g
    · exact g
    · rw [List.getElem?_eq_none g] at ht; cases ht
  have : j ∈ (process ts).1.flatten := by
    rw [(C161_sequences ts).1, List.mem_filter]
    exact ⟨List.mem_range.2 hj, decide_eq_true hm⟩
  obtain ⟨x, h1, h2⟩ := List.mem_flatten.1 this
  exact ⟨x, h1, h2⟩

/-! ## Examples -/

/-- Two documents; the second has two paragraphs. -/
def exTs : List T := [⟨true, true, false, false⟩, ⟨false, true, true, false⟩, ⟨false, false, false, false⟩, ⟨true, false, false, true⟩, ⟨false, false, false, false⟩,
  ⟨false, true, false, false⟩, ⟨false, false, true, false⟩]

example : (process exTs).1 = [[0], [2], [3, 4, 5]] := by decide
/-- The last paragraph, 5 and 6, has a mention and is counted. -/
example : (process exTs).2 = [[0], [3, 4], [5]] := by decide
example : MaxSeq exTs 3 3 := by
  refine ⟨by decide, by decide, fun j h1 h2 => ?_, fun j h1 h2 => ?_, .inr (.inl ⟨_, rfl, rfl⟩), .inr (.inr ⟨_, rfl, rfl⟩)⟩
  · have : j = 3 ∨ j = 4 ∨ j = 5 := by omega
    rcases this with rfl | rfl | rfl <;> decide
  · have : j = 4 ∨ j = 5 := by omega
    rcases this with rfl | rfl <;> (rintro ⟨t, ht, h⟩; cases ht; cases h)
/-- The first sentence starts a paragraph but no document. -/
example : (process [⟨false, true, true, false⟩, ⟨false, true, false, false⟩]).2 = [[], [1]] := by decide

end Verif.Coref.Gaps
