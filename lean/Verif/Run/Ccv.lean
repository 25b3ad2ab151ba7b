import Verif.Py.Str

/-!
# Property C184: reading the Corpus of Czech Verse (udapi/block/read/ccv.py)

The JSON file is given as the list of its poems. Simplified: a word is its token; lemmas, tags, rhyme, metre and the other values
that are copied are left out, and so is `SetSpaceAfterFromText` (C49). The keys of `punct` are natural numbers. `tokenize` is set.
-/

namespace Verif.Run
open Verif.Py

/-- A verse of the file: its text, its words and the punctuation with the number of words before it. -/
structure Verse where
  text : Str
  words : List Str
  punct : List (Nat × List Str)
  deriving DecidableEq

structure Poem where
  id : Str
  body : List (List Verse)
  deriving DecidableEq

/-- A tree that was read: the text, the forms of its words, `newpar` and `newdoc`. -/
structure VTree where
  text : Str
  forms : List Str
  newpar : Bool := false
  newdoc : Option Str := none
  deriving DecidableEq

inductive CErr
  | indexError
  | jsonError
  deriving DecidableEq

/-- `words[i].append(x)`; `none` is the IndexError. -/
def appendAt : List (List Str) → Nat → Str → Option (List (List Str))
  | [], _, _ => none
  | g :: gs, 0, x => some ((g ++ [x]) :: gs)
  | g :: gs, i + 1, x => (appendAt gs i x).map (g :: ·)

/-- The loop over the punctuation (ccv.py:59-61). -/
def addPuncts (words : List (List Str)) (puncts : List (Nat × List Str)) : Option (List (List Str)) :=
  puncts.foldlM (fun ws p => p.2.foldlM (fun ws x => appendAt ws p.1 x) ws) words

/-- One verse (ccv.py:51-69). -/
def readVerse (v : Verse) : Option VTree :=
  (addPuncts ([] :: v.words.map ([·])) v.punct).map fun ws => { text := v.text, forms := ws.flatten }

/-- One stanza (ccv.py:49-71); `stanza_trees[0]` of a stanza without verses is an IndexError. -/
def readStanza (s : List Verse) : Option (List VTree) :=
  match s.mapM readVerse with
  | none => none
  | some [] => none
  | some (t :: ts) => some ({ t with newpar := true } :: ts)

/-- One poem (ccv.py:47-77). -/
def readPoem (p : Poem) : Option (List VTree) :=
  match p.body.mapM readStanza with
  | none => none
  | some stanzas =>
    match stanzas.flatten with
    | [] => none
    | t :: ts => some ({ t with newdoc := some p.id } :: ts)

/-- `read_trees` (ccv.py:41-78) for a file that was not read yet. -/
def readPoems (poems : List Poem) : Option (List VTree) := (poems.mapM readPoem).map List.flatten

/-- The state of the reader: `_cache` (empty for None) in the order in which it is popped, and the file, `none` if it was read. -/
structure CState where
  cache : List VTree
  file : Option (List Poem)
  deriving DecidableEq

/-- `read_tree` (ccv.py:31-39): the tree, or None at the end. `json.load` of a file that was read fails. -/
def readTree (s : CState) : Except CErr (Option VTree × CState) :=
  match s.cache with
  | t :: ts => .ok (some t, { s with cache := ts })
  | [] =>
    match s.file with
    | none => .error .jsonError
    | some poems =>
      match readPoems poems with
      | none => .error .indexError
      | some [] => .ok (none, ⟨[], none⟩)
      | some (t :: ts) => .ok (some t, ⟨ts, none⟩)

/-- `read_tree` called `n` times. -/
def readMany : Nat → CState → Except CErr (List (Option VTree) × CState)
  | 0, s => .ok ([], s)
  | n + 1, s =>
    match readTree s with
    | .error e => .error e
    | .ok (t, s) =>
      match readMany n s with
      | .error e => .error e
      | .ok (ts, s) => .ok (t :: ts, s)

/-! ## The words of a verse -/

/-- The punctuation marks after `k` words, in their order in the file. -/
def punctsAt (puncts : List (Nat × List Str)) (k : Nat) : List Str := (puncts.filter (·.1 == k)).flatMap (·.2)

theorem appendAt_spec : ∀ (ws : List (List Str)) (i : Nat) (x : Str), i < ws.length →
    ∃ ws', appendAt ws i x = some ws' ∧ ws'.length = ws.length ∧
      ∀ (k : Nat) (g : List Str), ws[k]? = some g → ws'[k]? = some (g ++ if k = i then [x] else []) := by
  intro ws
  induction ws with
  | nil => intro i x h; simp at h
  | cons g gs ih =>
    intro i x h
    cases i with
    | zero =>
      refine ⟨_, rfl, by simp, ?_⟩
      intro k g' hk
      cases k with
      | zero => simpa using hk
      | succ k => simpa using hk
    | succ i =>
      obtain ⟨ws', h1, h2, h3⟩ := ih i x (by simpa using h)
      refine ⟨g :: ws', by simp [appendAt, h1], by simp [h2], ?_⟩
      intro k g' hk
      cases k with
      | zero => simpa using hk
      | succ k => simpa using h3 k g' (by simpa using hk)

theorem appendAt_none : ∀ (ws : List (List Str)) (i : Nat) (x : Str), ws.length ≤ i → appendAt ws i x = none := by
  intro ws
  induction ws with
  | nil => intro i x _; cases i <;> rfl
  | cons g gs ih =>
    intro i x h
    cases i with
    | zero => simp at h
    | succ i => rw [appendAt, ih i x (by simpa using h)]; rfl

theorem appendAll_spec (i : Nat) : ∀ (xs : List Str) (ws : List (List Str)), (xs ≠ [] → i < ws.length) →
    ∃ ws', xs.foldlM (fun ws x => appendAt ws i x) ws = some ws' ∧ ws'.length = ws.length ∧
      ∀ (k : Nat) (g : List Str), ws[k]? = some g → ws'[k]? = some (g ++ if k = i then xs else []) := by
  intro xs
  induction xs with
  | nil => intro ws _; exact ⟨ws, rfl, rfl, by intro k g h; simpa using h⟩
  | cons x xs ih =>
    intro ws h
    obtain ⟨w1, h1, h2, h3⟩ := appendAt_spec ws i x (h (by simp))
    obtain ⟨w2, g1, g2, g3⟩ := ih w1 (fun _ => by rw [h2]; exact h (by simp))
    refine ⟨w2, by rw [List.foldlM_cons, h1]; exact g1, by omega, ?_⟩
    intro k g hk
    rw [g3 k _ (h3 k g hk)]
    split <;> simp

theorem addPuncts_spec : ∀ (puncts : List (Nat × List Str)) (ws : List (List Str)),
    (∀ p ∈ puncts, p.2 ≠ [] → p.1 < ws.length) →
    ∃ ws', addPuncts ws puncts = some ws' ∧ ws'.length = ws.length ∧
      ∀ (k : Nat) (g : List Str), ws[k]? = some g → ws'[k]? = some (g ++ punctsAt puncts k) := by
  intro puncts
  induction puncts with
  | nil => intro ws _; exact ⟨ws, rfl, rfl, by intro k g h; simpa [punctsAt] using h⟩
  | cons p puncts ih =>
    intro ws h
    obtain ⟨w1, h1, h2, h3⟩ := appendAll_spec p.1 p.2 ws (h p (by simp))
    obtain ⟨w2, g1, g2, g3⟩ := ih w1 (fun q hq hn => by rw [h2]; exact h q (List.mem_cons_of_mem _ hq) hn)
    refine ⟨w2, by rw [addPuncts, List.foldlM_cons, h1]; exact g1, by omega, ?_⟩
    intro k g hk
    rw [g3 k _ (h3 k g hk), punctsAt, punctsAt, List.filter_cons]
    by_cases hpk : k = p.1
    · subst hpk; simp
    · have : (p.1 == k) = false := by simpa using fun e => hpk e.symm
      simp [hpk, this]

/-- **C184.** The words of a tree: the punctuation before the first word, then each word followed by its punctuation. -/
theorem C184_words (v : Verse) (h : ∀ p ∈ v.punct, p.2 ≠ [] → p.1 ≤ v.words.length) :
    ∃ t, readVerse v = some t ∧ t.text = v.text ∧
      t.forms = punctsAt v.punct 0 ++ v.words.zipIdx.flatMap fun w => w.1 :: punctsAt v.punct (w.2 + 1) := by
  obtain ⟨ws, h1, h2, h3⟩ := addPuncts_spec v.punct ([] :: v.words.map ([·])) (by
    intro p hp hn
    have := h p hp hn
    simp
    omega)
  refine ⟨_, by rw [readVerse, h1]; rfl, rfl, ?_⟩
  have hws : ws = (punctsAt v.punct 0) :: v.words.zipIdx.map fun w => w.1 :: punctsAt v.punct (w.2 + 1) := by
    apply List.ext_getElem?
    intro k
    cases k with
    | zero => simpa using h3 0 [] rfl
    | succ k =>
      rw [List.getElem?_cons_succ, List.getElem?_map, List.getElem?_zipIdx]
      cases hk : v.words[k]? with
      | none =>
        have hlen := List.getElem?_eq_none_iff.1 hk
        rw [List.getElem?_eq_none (by rw [h2]; simp; omega)]
        rfl
      | some w =>
        rw [h3 (k + 1) [w] (by simp [hk])]
        simp
  show ws.flatten = _
  rw [hws, List.flatten_cons, List.flatMap_def]

theorem appendAll_none (i : Nat) (xs : List Str) (ws : List (List Str)) (hx : xs ≠ []) (h : ws.length ≤ i) :
    xs.foldlM (fun ws x => appendAt ws i x) ws = none := by
  cases xs with
  | nil => exact absurd rfl hx
  | cons x xs => rw [List.foldlM_cons, appendAt_none ws i x h]; rfl

/-- **C184.** Punctuation after more words than there are is an error. -/
theorem C184_bad_index (v : Verse) (h : ∃ p ∈ v.punct, p.2 ≠ [] ∧ v.words.length < p.1) : readVerse v = none := by
  have key : ∀ (puncts : List (Nat × List Str)) (ws : List (List Str)), ws.length = v.words.length + 1 →
      (∃ p ∈ puncts, p.2 ≠ [] ∧ v.words.length < p.1) → addPuncts ws puncts = none := by
    intro puncts
    induction puncts with
    | nil => rintro ws _ ⟨p, hp, _⟩; cases hp
    | cons q puncts ih =>
      rintro ws hl ⟨p, hp, hn, hlt⟩
      rw [addPuncts, List.foldlM_cons]
      by_cases hq : q.2 ≠ [] ∧ v.words.length < q.1
      · rw [appendAll_none _ _ _ hq.1 (by omega)]
        rfl
      · obtain ⟨w1, h1, h2, _⟩ := appendAll_spec q.1 q.2 ws (fun hn => by
          have : ¬ v.words.length < q.1 := fun hh => hq ⟨hn, hh⟩
          omega)
        rw [h1]
        refine ih w1 (by omega) ?_
        rcases List.mem_cons.1 hp with rfl | hp
        · exact absurd ⟨hn, hlt⟩ hq
        · exact ⟨p, hp, hn, hlt⟩
  rw [readVerse, key _ _ (by simp) h]
  rfl

/-! ## Stanzas and poems -/

/-- The list divided before every marked element. -/
def divide (f : VTree → Bool) : List VTree → List (List VTree)
  | [] => []
  | t :: ts =>
    match divide f ts with
    | [] => [[t]]
    | [] :: gs => [t] :: gs
    | (u :: g) :: gs => if f u then [t] :: (u :: g) :: gs else (t :: u :: g) :: gs

/-- A group has a mark on its first element only. -/
def Marked (f : VTree → Bool) : List VTree → Prop
  | [] => False
  | t :: ts => f t = true ∧ ∀ u ∈ ts, f u = false

theorem divide_group (f : VTree → Bool) : ∀ (ts : List VTree) (t : VTree) (gs : List (List VTree)),
    (∀ u ∈ ts, f u = false) → (∀ g ∈ gs, Marked f g) → divide f gs.flatten = gs →
    divide f (t :: ts ++ gs.flatten) = (t :: ts) :: gs := by
  intro ts
  induction ts with
  | nil =>
    intro t gs _ hg hd
    rw [List.singleton_append, divide, hd]
    cases gs with
    | nil => rfl
    | cons g gs =>
      cases g with
      | nil => exact absurd (hg [] (by simp)) (by simp [Marked])
      | cons u g => simp [(hg _ (List.mem_cons_self ..)).1]
  | cons u ts ih =>
    intro t gs hts hg hd
    have := ih u gs (fun x hx => hts x (List.mem_cons_of_mem _ hx)) hg hd
    rw [List.cons_append, divide, this]
    simp [hts u (by simp)]

theorem divide_flatten (f : VTree → Bool) : ∀ gs : List (List VTree), (∀ g ∈ gs, Marked f g) → divide f gs.flatten = gs := by
  intro gs
  induction gs with
  | nil => intro _; rfl
  | cons g gs ih =>
    intro h
    cases g with
    | nil => exact absurd (h [] (by simp)) (by simp [Marked])
    | cons t ts =>
      have hg := fun g hg => h g (List.mem_cons_of_mem _ hg)
      exact divide_group f ts t gs (h _ (List.mem_cons_self ..)).2 hg (ih hg)

/-- The verse can be read. -/
def Verse.Ok (v : Verse) : Prop := ∀ p ∈ v.punct, p.2 ≠ [] → p.1 ≤ v.words.length

theorem readVerse_plain {v : Verse} {t : VTree} (h : readVerse v = some t) : t.newpar = false ∧ t.newdoc = none ∧ t.text = v.text := by
  obtain ⟨ws, _, rfl⟩ := Option.map_eq_some_iff.1 h
  exact ⟨rfl, rfl, rfl⟩

theorem mapM_some {α β : Type} {f : α → Option β} : ∀ {l : List α} {r : List β}, l.mapM f = some r →
    r.length = l.length ∧ ∀ (i : Nat) (b : β), r[i]? = some b → ∃ a, l[i]? = some a ∧ f a = some b := by
  intro l
  induction l with
  | nil => intro r h; simp at h; subst h; simp
  | cons a l ih =>
    intro r h
    rw [List.mapM_cons] at h
    simp only [Option.bind_eq_bind, Option.bind_eq_some_iff] at h
    obtain ⟨b, hb, r', hr', h⟩ := h
    simp only [Option.pure_def, Option.some.injEq] at h
    subst h
    obtain ⟨h1, h2⟩ := ih hr'
    refine ⟨by simp [h1], ?_⟩
    intro i b' hi
    cases i with
    | zero => simp only [List.getElem?_cons_zero, Option.some.injEq] at hi; subst hi; exact ⟨a, rfl, hb⟩
    | succ i => exact h2 i b' (by simpa using hi)

theorem mapM_exists {α β : Type} {f : α → Option β} : ∀ {l : List α}, (∀ a ∈ l, ∃ b, f a = some b) → ∃ r, l.mapM f = some r := by
  intro l
  induction l with
  | nil => intro _; exact ⟨[], rfl⟩
  | cons a l ih =>
    intro h
    obtain ⟨b, hb⟩ := h a (by simp)
    obtain ⟨r, hr⟩ := ih (fun x hx => h x (List.mem_cons_of_mem _ hx))
    exact ⟨b :: r, by rw [List.mapM_cons, hb, hr]; rfl⟩

theorem mapM_map {α β γ : Type} {f : α → Option β} {g : β → γ} {k : α → γ} : ∀ {l : List α} {r : List β}, l.mapM f = some r →
    (∀ a b, f a = some b → g b = k a) → r.map g = l.map k := by
  intro l
  induction l with
  | nil => intro r h _; simp at h; subst h; rfl
  | cons a l ih =>
    intro r h hg
    rw [List.mapM_cons] at h
    simp only [Option.bind_eq_bind, Option.bind_eq_some_iff] at h
    obtain ⟨b, hb, r', hr', h⟩ := h
    simp only [Option.pure_def, Option.some.injEq] at h
    subst h
    rw [List.map_cons, List.map_cons, hg a b hb, ih hr' hg]

theorem readStanza_spec {s : List Verse} {ts : List VTree} (h : readStanza s = some ts) :
    Marked (·.newpar) ts ∧ (∀ t ∈ ts, t.newdoc = none) ∧ ts.map (·.text) = s.map (·.text) := by
  unfold readStanza at h
  split at h
  · cases h
  · cases h
  · rename_i t us hm
    injection h with h
    subst h
    have hp : ∀ u ∈ t :: us, u.newpar = false ∧ u.newdoc = none := by
      intro u hu
      obtain ⟨i, hi⟩ := List.getElem?_of_mem hu
      obtain ⟨v, _, hv⟩ := (mapM_some hm).2 i u hi
      exact ⟨(readVerse_plain hv).1, (readVerse_plain hv).2.1⟩
    refine ⟨⟨rfl, fun u hu => (hp u (List.mem_cons_of_mem _ hu)).1⟩, ?_, ?_⟩
    · intro u hu
      rcases List.mem_cons.1 hu with rfl | hu
      · exact (hp t (by simp)).2
      · exact (hp u (List.mem_cons_of_mem _ hu)).2
    · have := mapM_map (g := VTree.text) (k := Verse.text) hm (fun a b hb => (readVerse_plain hb).2.2)
      simpa using this

theorem readPoem_spec {p : Poem} {ts : List VTree} (h : readPoem p = some ts) :
    ∃ gs : List (List VTree), ts = gs.flatten ∧ (∀ g ∈ gs, Marked (·.newpar) g) ∧
      gs.map (·.map (·.text)) = p.body.map (·.map (·.text)) ∧ Marked (·.newdoc.isSome) ts ∧
      (ts.head?.bind (·.newdoc)) = some p.id := by
  unfold readPoem at h
  split at h
  · cases h
  · rename_i stanzas hm
    have hst : ∀ g ∈ stanzas, Marked (·.newpar) g ∧ ∀ t ∈ g, t.newdoc = none := by
      intro g hg
      obtain ⟨i, hi⟩ := List.getElem?_of_mem hg
      obtain ⟨s, _, hs⟩ := (mapM_some hm).2 i g hi
      exact ⟨(readStanza_spec hs).1, (readStanza_spec hs).2.1⟩
    have htext : stanzas.map (·.map (·.text)) = p.body.map (·.map (·.text)) :=
      mapM_map (g := fun g : List VTree => g.map (·.text)) (k := fun s : List Verse => s.map (·.text)) hm
        (fun a b hb => (readStanza_spec hb).2.2)
    split at h
    · cases h
    · rename_i t us hf
      injection h with h
      subst h
      cases stanzas with
      | nil => simp at hf
      | cons g gs =>
        cases g with
        | nil => exact absurd (hst [] (by simp)).1 (by simp [Marked])
        | cons t' ts' =>
          simp only [List.flatten_cons, List.cons_append, List.cons.injEq] at hf
          obtain ⟨rfl, rfl⟩ := hf
          refine ⟨({ t' with newdoc := some p.id } :: ts') :: gs, by simp, ?_, ?_, ?_, rfl⟩
          · intro g hg
            rcases List.mem_cons.1 hg with rfl | hg
            · exact (hst _ (List.mem_cons_self ..)).1
            · exact (hst g (List.mem_cons_of_mem _ hg)).1
          · simpa using htext
          · refine ⟨rfl, ?_⟩
            intro u hu
            have : u.newdoc = none := by
              rcases List.mem_append.1 hu with hu | hu
              · exact (hst _ (List.mem_cons_self ..)).2 u (List.mem_cons_of_mem _ hu)
              · obtain ⟨g, hg, hu⟩ := List.mem_flatten.1 hu
                exact (hst g (List.mem_cons_of_mem _ hg)).2 u hu
            simp [this]

/-- **C184.** The trees have the verses of the file in their order. Divided before the trees with `newpar` they are the stanzas,
divided before those with `newdoc` they are the poems, and `newdoc` is the id of the poem. -/
theorem C184_structure {poems : List Poem} {ts : List VTree} (h : readPoems poems = some ts) :
    (divide (·.newpar) ts).map (·.map (·.text)) = (poems.flatMap (·.body)).map (·.map (·.text)) ∧
    (divide (·.newdoc.isSome) ts).map (fun g => (g.head?.bind (·.newdoc), g.map (·.text))) =
      poems.map fun p => (some p.id, p.body.flatten.map (·.text)) := by
  obtain ⟨ps, hm, rfl⟩ := Option.map_eq_some_iff.1 h
  have hps : ∀ ts ∈ ps, ∃ p ∈ poems, readPoem p = some ts := by
    intro ts hts
    obtain ⟨i, hi⟩ := List.getElem?_of_mem hts
    obtain ⟨p, hp, h⟩ := (mapM_some hm).2 i ts hi
    exact ⟨p, List.mem_of_getElem? hp, h⟩
  constructor
  · have key : ∀ (poems : List Poem) (ps : List (List VTree)), poems.mapM readPoem = some ps →
        ∃ gs : List (List VTree), ps.flatten = gs.flatten ∧ (∀ g ∈ gs, Marked (·.newpar) g) ∧
          gs.map (·.map (·.text)) = (poems.flatMap (·.body)).map (·.map (·.text)) := by
      intro poems
      induction poems with
      | nil => intro ps h; simp at h; subst h; exact ⟨[], rfl, by simp, rfl⟩
      | cons p poems ih =>
        intro ps h
        rw [List.mapM_cons] at h
        simp only [Option.bind_eq_bind, Option.bind_eq_some_iff] at h
        obtain ⟨b, hb, r', hr', h⟩ := h
        simp only [Option.pure_def, Option.some.injEq] at h
        subst h
        obtain ⟨g1, h1, h2, h3, _⟩ := readPoem_spec hb
        obtain ⟨g2, e1, e2, e3⟩ := ih r' hr'
        refine ⟨g1 ++ g2, by simp [h1, e1], ?_, by rw [List.map_append, h3, e3]; simp⟩
        intro g hg
        rcases List.mem_append.1 hg with hg | hg
        · exact h2 g hg
        · exact e2 g hg
    obtain ⟨gs, h1, h2, h3⟩ := key poems ps hm
    rw [h1, divide_flatten _ gs h2, h3]
  · rw [divide_flatten _ ps]
    · apply mapM_map hm
      intro p ts hp
      obtain ⟨gs, h1, _, h3, _, h5⟩ := readPoem_spec hp
      rw [h5]
      congr 1
      rw [h1, List.map_flatten, h3, ← List.map_flatten]
    · intro g hg
      obtain ⟨p, _, hp⟩ := hps g hg
      obtain ⟨_, _, _, _, h4, _⟩ := readPoem_spec hp
      exact h4

/-- **C184, partial.** A file is read if every verse can be read, every stanza has a verse and every poem has a stanza. The full
statement, for all files whose verses can be read, fails (`C184_empty_violated`). -/
theorem C184_reads_partial (poems : List Poem) (hv : ∀ p ∈ poems, ∀ s ∈ p.body, ∀ v ∈ s, v.Ok)
    (hs : ∀ p ∈ poems, ∀ s ∈ p.body, s ≠ []) (hp : ∀ p ∈ poems, p.body ≠ []) : ∃ ts, readPoems poems = some ts := by
  have h1 : ∀ p ∈ poems, ∃ ts, readPoem p = some ts := by
    intro p hpm
    have hst : ∀ s ∈ p.body, ∃ g, readStanza s = some g := by
      intro s hsm
      obtain ⟨ts, hts⟩ := mapM_exists (f := readVerse) (l := s) (fun v hvm => by
        obtain ⟨t, ht, _⟩ := C184_words v (hv p hpm s hsm v hvm)
        exact ⟨t, ht⟩)
      cases ts with
      | nil =>
        have := (mapM_some hts).1
        exact absurd (List.length_eq_zero_iff.1 this.symm) (hs p hpm s hsm)
      | cons t ts => exact ⟨_, by rw [readStanza, hts]⟩
    obtain ⟨gs, hgs⟩ := mapM_exists hst
    rw [readPoem, hgs]
    cases gs with
    | nil => exact absurd (List.length_eq_zero_iff.1 (mapM_some hgs).1.symm) (hp p hpm)
    | cons g gs =>
      obtain ⟨s, _, hsg⟩ := (mapM_some hgs).2 0 g rfl
      cases g with
      | nil => exact absurd (readStanza_spec hsg).1 (by simp [Marked])
      | cons t ts => exact ⟨_, rfl⟩
  obtain ⟨ps, h⟩ := mapM_exists h1
  exact ⟨ps.flatten, by rw [readPoems, h]; rfl⟩

/-- **C184, violated.** A poem without stanza, or a stanza without verse, is an error and no tree of the file is read. -/
theorem C184_empty_violated (poems : List Poem) (h : ∃ p ∈ poems, p.body = [] ∨ [] ∈ p.body) : readPoems poems = none := by
  cases hr : poems.mapM readPoem with
  | none => rw [readPoems, hr]; rfl
  | some ps =>
    exfalso
    obtain ⟨p, hp, hb⟩ := h
    obtain ⟨i, hi⟩ := List.getElem?_of_mem hp
    have hlen := (mapM_some hr).1
    have hlt : i < ps.length := by rw [hlen]; exact (List.getElem?_eq_some_iff.1 hi).1
    obtain ⟨q, hq, hrq⟩ := (mapM_some hr).2 i _ (List.getElem?_eq_getElem hlt)
    rw [hi] at hq
    injection hq with hq
    subst hq
    rcases hb with hb | hb
    · rw [readPoem, hb] at hrq
      simp at hrq
    · unfold readPoem at hrq
      split at hrq
      · cases hrq
      · rename_i gs hgs
        obtain ⟨j, hj⟩ := List.getElem?_of_mem hb
        have hlt : j < gs.length := by rw [(mapM_some hgs).1]; exact (List.getElem?_eq_some_iff.1 hj).1
        obtain ⟨s, hs, hrs⟩ := (mapM_some hgs).2 j _ (List.getElem?_eq_getElem hlt)
        rw [hj] at hs
        injection hs with hs
        subst hs
        simp [readStanza] at hrs

/-! ## Tree after tree -/

theorem readMany_cache : ∀ (ts rest : List VTree) (f : Option (List Poem)),
    readMany ts.length ⟨ts ++ rest, f⟩ = .ok (ts.map some, ⟨rest, f⟩) := by
  intro ts
  induction ts with
  | nil => intro rest f; rfl
  | cons t ts ih =>
    intro rest f
    have := ih rest f
    simp only [List.length_cons, readMany, List.cons_append, readTree, this]
    rfl

/-- **C184.** Reading tree by tree gives the trees of `read_trees` in their order. -/
theorem C184_one_by_one {poems : List Poem} {ts : List VTree} (h : readPoems poems = some ts) (hne : ts ≠ []) :
    readMany ts.length ⟨[], some poems⟩ = .ok (ts.map some, ⟨[], none⟩) := by
  cases ts with
  | nil => exact absurd rfl hne
  | cons t ts =>
    have := readMany_cache ts [] none
    rw [List.append_nil] at this
    simp only [List.length_cons, readMany, readTree, h, this]
    rfl

/-- **C184, violated.** The end of the file is never reported: after the last tree, the next call fails, so a reader that reads
tree by tree cannot read a whole file. -/
theorem C184_end_violated {poems : List Poem} {ts : List VTree} (h : readPoems poems = some ts) (hne : ts ≠ []) :
    readMany (ts.length + 1) ⟨[], some poems⟩ = .error .jsonError := by
  have key : ∀ (n : Nat) (s s' : CState) (r : List (Option VTree)), readMany n s = .ok (r, s') →
      readTree s' = .error .jsonError → readMany (n + 1) s = .error .jsonError := by
    intro n
    induction n with
    | zero =>
      intro s s' r h1 h2
      simp only [readMany, Except.ok.injEq, Prod.mk.injEq] at h1
      obtain ⟨_, rfl⟩ := h1
      rw [readMany, h2]
    | succ n ih =>
      intro s s' r h1 h2
      rw [readMany] at h1 ⊢
      cases hr : readTree s with
      | error e => rw [hr] at h1; cases h1
      | ok p =>
        obtain ⟨t, s1⟩ := p
        rw [hr] at h1
        simp only at h1 ⊢
        cases hm : readMany n s1 with
        | error e => rw [hm] at h1; cases h1
        | ok q =>
          obtain ⟨r1, s2⟩ := q
          rw [hm] at h1
          simp only [Except.ok.injEq, Prod.mk.injEq] at h1
          obtain ⟨_, rfl⟩ := h1
          rw [ih s1 s2 r1 hm h2]
  exact key _ _ _ _ (C184_one_by_one h hne) rfl

section
private def v1 : Verse := ⟨['t'], [['a'], ['b']], [(0, [['"']]), (2, [[','], ['!']]), (1, [['-']])]⟩
private def v2 : Verse := ⟨['u'], [['c']], []⟩
example : readVerse v1 = some { text := ['t'], forms := [['"'], ['a'], ['-'], ['b'], [','], ['!']] } := by decide
example : (readPoems [⟨['P'], [[v1, v2], [v2]]⟩, ⟨['Q'], [[v2]]⟩]).map (·.map fun t => (t.newpar, t.newdoc)) =
    some [(true, some ['P']), (false, none), (true, none), (true, some ['Q'])] := by decide
example : readPoems [⟨['P'], [[v1], []]⟩] = none := by decide
example : readVerse ⟨[], [['a']], [(2, [['.']])]⟩ = none := by decide
end

end Verif.Run
