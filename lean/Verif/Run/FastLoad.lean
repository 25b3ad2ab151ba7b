import Verif.Run.ReaderMax

/-!
# Loading all sentences of a file at once (udapi/core/basereader.py:115-174)

`try_fast_load` is used by readers with `read_trees`, unless `bundles_per_doc`, `sent_id_filter` or `split_docs` is set.
Simplified as in `Verif/Run/Reader.lean`.
-/

namespace Verif.Run
open Verif.Py

/-- The variables of `try_fast_load`; `fresh`: `bundle` is `None`. -/
structure Fast where
  doc : List Group := []
  fresh : Bool := true
  lastId : Str := []
  docsLoaded : Nat := 0

/-- The body of the loop over the sentences (139-166); `true`: return. -/
def fastStep (c : RConf) (s : Fast) (t : Sent) : Fast × Bool :=
  if t.newdoc ∧ c.maxDocs ≠ 0 ∧ c.maxDocs ≤ s.docsLoaded then (s, true)
  else
    let s := if t.newdoc then { s with docsLoaded := s.docsLoaded + 1 } else s
    let (add, last) := match bundleOf c t with
      | some b => (decide (b = s.lastId), b)
      | none => (false, s.lastId)
    if s.fresh ∨ add = false then
      ({ s with doc := s.doc ++ [⟨if last = [] then none else some last, [t]⟩], fresh := false, lastId := last }, false)
    else ({ s with doc := addLast t s.doc, lastId := last }, false)

/-- The loop over the sentences (138-166); `true`: return. -/
def fastFile (c : RConf) : Fast → List Sent → Fast × Bool
  | s, [] => (s, false)
  | s, t :: ts =>
    match fastStep c s t with
    | (s, true) => (s, true)
    | (s, false) => fastFile c s ts

/-- The loop over the files (126-173): the state, whether the reader is finished, the next file and the files after it. -/
def fastLoop (c : RConf) (s : Fast) (cur : List Sent) :
    List (List Sent) → Fast × Bool × Option (List Sent) × List (List Sent)
  | [] => ((fastFile c { s with fresh := true, lastId := [] } cur).1, true, none, [])
  | f :: fs =>
    match fastFile c { s with fresh := true, lastId := [] } cur with
    | (s, true) => (s, true, some [], f :: fs)
    | (s, false) => if c.merge then fastLoop c s f fs else (s, false, some f, fs)

/-- The state of the reader between documents. -/
structure FReader where
  current : Option (List Sent) := none
  files : List (List Sent)
  finished : Bool := false
  docsLoaded : Nat := 0

/-- `try_fast_load` (115-174) for an empty document. -/
def FReader.process (c : RConf) (r : FReader) : FReader × List Group :=
  match r.current, r.files with
  | none, [] => ({ r with finished := true }, [])
  | none, f :: fs =>
    let (s, fin, cur, files) := fastLoop c { docsLoaded := r.docsLoaded } f fs
    (⟨cur, files, fin, s.docsLoaded⟩, s.doc)
  | some cur, fs =>
    let (s, fin, cur, files) := fastLoop c { docsLoaded := r.docsLoaded } cur fs
    (⟨cur, files, fin, s.docsLoaded⟩, s.doc)

/-- `read_documents` (313-324). `none`: more documents than `fuel`. -/
def FReader.all (c : RConf) : Nat → FReader → Option (List (List Group))
  | 0, r => if r.finished then some [] else none
  | fuel + 1, r =>
    if r.finished then some []
    else
      let (r, doc) := r.process c
      match r.all c fuel with
      | some docs => some (doc :: docs)
      | none => none

/-- Reading the given files at once: at most one document for each file, and one if there are no files. -/
def fastAll (c : RConf) (files : List (List Sent)) : Option (List (List Group)) :=
  ({ files := files } : FReader).all c (files.length + 1)

/-! ## The common core -/

/-- One sentence added to the bundles. -/
def groupStep (c : RConf) (s : List Group × Str) (t : Sent) : List Group × Str :=
  let last := (bundleOf c t).getD s.2
  if s.1 = [] ∨ bundleOf c t ≠ some s.2 then (s.1 ++ [⟨if last = [] then none else some last, [t]⟩], last)
  else (addLast t s.1, last)

theorem addLast_ne_nil (t : Sent) {d : List Group} (h : d ≠ []) : addLast t d ≠ [] := by
  intro e
  have := length_addLast t d
  rw [e] at this
  exact h (List.length_eq_zero_iff.1 this.symm)

theorem groupStep_ne (c : RConf) (s : List Group × Str) (t : Sent) : (groupStep c s t).1 ≠ [] := by
  unfold groupStep
  by_cases h : s.1 = [] ∨ bundleOf c t ≠ some s.2
  · simp only [if_pos h]; simp
  · simp only [if_neg h]
    exact addLast_ne_nil t (fun e => h (Or.inl e))

/-- The slow way, without `max_docs`, `split_docs` and `bundles_per_doc`. -/
theorem slow_step (c : RConf) (hk : c.perDoc = 0) (hs : c.splitDocs = false) (hm : c.maxDocs = 0) (s : Loop) (t : Sent) :
    (readStep c s t).2 = false ∧ ((readStep c s t).1.doc, (readStep c s t).1.lastId) = groupStep c (s.doc, s.lastId) t ∧
      (readStep c s t).1.buffer = s.buffer ∧ (readStep c s t).1.loaded = s.loaded + 1 := by
  refine ⟨step_goesOn c hk hs hm s t, ?_⟩
  cases hb : bundleOf c t with
  | some b =>
    obtain ⟨dl, e⟩ := readStep_eq c hm hs s t hb
    rw [e]
    unfold place groupStep
    simp only [hk, ne_eq, not_true_eq_false, false_and, if_false, hb, Option.getD_some, Option.some.injEq,
      decide_eq_false_iff_not]
    split <;> exact ⟨rfl, rfl, rfl⟩
  | none =>
    obtain ⟨dl, e⟩ := readStep_none c hm hs s t hb
    rw [e]
    unfold place groupStep
    simp only [hk, ne_eq, not_true_eq_false, false_and, if_false, hb, Option.getD_none]
    rw [if_pos (Or.inr trivial), if_pos (Or.inr (by simp))]
    exact ⟨rfl, rfl, rfl⟩

theorem slow_file (c : RConf) (hk : c.perDoc = 0) (hs : c.splitDocs = false) (hm : c.maxDocs = 0) :
    ∀ (ts : List Sent) (s : Loop), s.buffer = none → ∃ s', readFile c s ts = (s', [], false) ∧ s'.buffer = none ∧
      s'.loaded = s.loaded + ts.length ∧ (s'.doc, s'.lastId) = ts.foldl (groupStep c) (s.doc, s.lastId) := by
  intro ts
  induction ts with
  | nil => intro s hb; exact ⟨s, rfl, hb, rfl, rfl⟩
  | cons t ts ih =>
    intro s hb
    obtain ⟨h1, h2, h3, h4⟩ := slow_step c hk hs hm s t
    obtain ⟨s', i1, i2, i3, i4⟩ := ih (readStep c s t).1 (h3.trans hb)
    refine ⟨s', ?_, i2, by rw [i3, h4]; simp; omega, by rw [i4, h2]; rfl⟩
    unfold readFile
    have : readStep c s t = ((readStep c s t).1, false) := Prod.ext rfl h1
    rw [this]
    exact i1

/-- The fast way, without `max_docs`. -/
theorem fast_step (c : RConf) (hm : c.maxDocs = 0) (D : List Group) (s : Fast) (d : List Group) (hd : s.doc = D ++ d)
    (hf : s.fresh = true ↔ d = []) (t : Sent) :
    (fastStep c s t).2 = false ∧ (fastStep c s t).1.doc = D ++ (groupStep c (d, s.lastId) t).1 ∧
      (fastStep c s t).1.lastId = (groupStep c (d, s.lastId) t).2 ∧ (fastStep c s t).1.fresh = false := by
  have hadd : ∀ (e : List Group), e ≠ [] → addLast t (D ++ e) = D ++ addLast t e := by
    intro e he
    rcases List.eq_nil_or_concat e with h | ⟨x, g, h⟩
    · exact absurd h he
    · rw [h, List.concat_eq_append, ← List.append_assoc, addLast_append, addLast_append, List.append_assoc]
  unfold fastStep
  rw [if_neg (by simp [hm])]
  obtain ⟨sd, sf, sl, sn⟩ := s
  simp only at hd hf ⊢
  subst hd
  unfold groupStep
  cases hb : bundleOf c t with
  | some b =>
    simp only [Option.getD_some, Option.some.injEq, ne_eq]
    by_cases h1 : d = [] ∨ ¬ b = sl
    · have h2 : sf = true ∨ decide (b = sl) = false := by
        rcases h1 with h | h
        · exact Or.inl (hf.2 h)
        · exact Or.inr (by simpa using h)
      rw [if_pos h1]
      cases hn : t.newdoc
      · simp only [Bool.false_eq_true, if_false]
        rw [if_pos h2]
        simp [List.append_assoc]
      · simp only [if_true]
        rw [if_pos h2]
        simp [List.append_assoc]
    · have h2 : ¬ (sf = true ∨ decide (b = sl) = false) := by
        rintro (h | h)
        · exact h1 (Or.inl (hf.1 h))
        · exact h1 (Or.inr (by simpa using h))
      have hne : d ≠ [] := fun h => h1 (Or.inl h)
      have hsf : sf = false := by
        cases sf
        · rfl
        · exact absurd (Or.inl rfl) h2
      rw [if_neg h1]
      cases hn : t.newdoc
      · simp only [Bool.false_eq_true, if_false]
        rw [if_neg h2]
        simp [hadd d hne, hsf]
      · simp only [if_true]
        rw [if_neg h2]
        simp [hadd d hne, hsf]
  | none =>
    have h1 : d = [] ∨ (none : Option Str) ≠ some sl := Or.inr (by simp)
    cases hn : t.newdoc <;> simp [List.append_assoc]

theorem fast_file (c : RConf) (hm : c.maxDocs = 0) (D : List Group) : ∀ (ts : List Sent) (s : Fast) (d : List Group),
    s.doc = D ++ d → (s.fresh = true ↔ d = []) → ∃ s', fastFile c s ts = (s', false) ∧
      s'.doc = D ++ (ts.foldl (groupStep c) (d, s.lastId)).1 := by
  intro ts
  induction ts with
  | nil => intro s d hd _; exact ⟨s, rfl, hd⟩
  | cons t ts ih =>
    intro s d hd hf
    obtain ⟨h1, h2, h3, h4⟩ := fast_step c hm D s d hd hf t
    obtain ⟨s', i1, i2⟩ := ih (fastStep c s t).1 (groupStep c (d, s.lastId) t).1 h2
      (by rw [h4]; simp [groupStep_ne])
    refine ⟨s', ?_, by rw [i2, h3]; rfl⟩
    unfold fastFile
    have : fastStep c s t = ((fastStep c s t).1, false) := Prod.ext rfl h1
    rw [this]
    exact i1

/-- The bundles of a file on its own. -/
def fileDoc (c : RConf) (f : List Sent) : List Group := (f.foldl (groupStep c) ([], [])).1

/-! ## One document for each file -/

theorem slow_all (c : RConf) (hk : c.perDoc = 0) (hs : c.splitDocs = false) (hm : c.maxDocs = 0) (hg : c.merge = false) :
    ∀ (fs : List (List Sent)) (cur : Option (List Sent)) (f : List Sent) (fuel dl : Nat), (∀ x ∈ f :: fs, x ≠ []) →
    cur = none ∨ cur = some [] → fs.length < fuel →
    Reader.all c fuel ⟨cur, f :: fs, none, false, dl⟩ = some ((f :: fs).map (fileDoc c)) := by
  intro fs
  induction fs with
  | nil =>
    intro cur f fuel dl hne hcur hfuel
    obtain ⟨s, e, hb, hl, hd⟩ := slow_file c hk hs hm f { docsLoaded := dl } rfl
    have hp : ∃ dl', Reader.process c ⟨cur, [f], none, false, dl⟩ = (⟨some [], [], none, true, dl'⟩, fileDoc c f) := by
      have hdoc : s.doc = fileDoc c f := congrArg Prod.fst hd
      have hloop : readLoop c { docsLoaded := dl } f [] = ({ s with finished := true }, [], []) := by
        unfold readLoop
        rw [e]
      rcases hcur with rfl | rfl
      · have : Reader.process c ⟨none, [f], none, false, dl⟩ =
            (⟨some (readLoop c { docsLoaded := dl } f []).2.1, (readLoop c { docsLoaded := dl } f []).2.2,
              (readLoop c { docsLoaded := dl } f []).1.buffer, (readLoop c { docsLoaded := dl } f []).1.finished,
              (readLoop c { docsLoaded := dl } f []).1.docsLoaded⟩, (readLoop c { docsLoaded := dl } f []).1.doc) := rfl
        rw [this, hloop, ← hdoc]
        exact ⟨s.docsLoaded, by simp [hb]⟩
      · have h2 : readLoop c { docsLoaded := dl } [] [f] = readLoop c { docsLoaded := dl } f [] := by
          conv => lhs; unfold readLoop
          simp [readFile]
        have : Reader.process c ⟨some [], [f], none, false, dl⟩ =
            (⟨some (readLoop c { docsLoaded := dl } [] [f]).2.1, (readLoop c { docsLoaded := dl } [] [f]).2.2,
              (readLoop c { docsLoaded := dl } [] [f]).1.buffer, (readLoop c { docsLoaded := dl } [] [f]).1.finished,
              (readLoop c { docsLoaded := dl } [] [f]).1.docsLoaded⟩, (readLoop c { docsLoaded := dl } [] [f]).1.doc) := rfl
        rw [this, h2, hloop, ← hdoc]
        exact ⟨s.docsLoaded, by simp [hb]⟩
    obtain ⟨dl', hp⟩ := hp
    obtain ⟨n, rfl⟩ : ∃ n, fuel = n + 1 := ⟨fuel - 1, by simp at hfuel; omega⟩
    unfold Reader.all
    rw [if_neg (by simp)]
    simp only [hp]
    have : Reader.all c n ⟨some [], [], none, true, dl'⟩ = some [] := by cases n <;> rfl
    rw [this]
    rfl
  | cons g fs ih =>
    intro cur f fuel dl hne hcur hfuel
    obtain ⟨s, e, hb, hl, hd⟩ := slow_file c hk hs hm f { docsLoaded := dl } rfl
    have hl0 : s.loaded ≠ 0 := by
      rw [hl]
      have := List.length_pos_iff.2 (hne f (List.mem_cons_self ..))
      simp only; omega
    have hp : ∃ dl', Reader.process c ⟨cur, f :: g :: fs, none, false, dl⟩ =
        (⟨some [], g :: fs, none, false, dl'⟩, fileDoc c f) := by
      have hdoc : s.doc = fileDoc c f := congrArg Prod.fst hd
      have hloop : readLoop c { docsLoaded := dl } f (g :: fs) = ({ s with finished := false }, [], g :: fs) := by
        unfold readLoop
        rw [e]
        simp [hl0, hg]
      rcases hcur with rfl | rfl
      · have : Reader.process c ⟨none, f :: g :: fs, none, false, dl⟩ =
            (⟨some (readLoop c { docsLoaded := dl } f (g :: fs)).2.1, (readLoop c { docsLoaded := dl } f (g :: fs)).2.2,
              (readLoop c { docsLoaded := dl } f (g :: fs)).1.buffer, (readLoop c { docsLoaded := dl } f (g :: fs)).1.finished,
              (readLoop c { docsLoaded := dl } f (g :: fs)).1.docsLoaded⟩,
              (readLoop c { docsLoaded := dl } f (g :: fs)).1.doc) := rfl
        rw [this, hloop, ← hdoc]
        exact ⟨s.docsLoaded, by simp [hb]⟩
      · have h2 : readLoop c { docsLoaded := dl } [] (f :: g :: fs) = readLoop c { docsLoaded := dl } f (g :: fs) := by
          conv => lhs; unfold readLoop
          simp [readFile]
        have : Reader.process c ⟨some [], f :: g :: fs, none, false, dl⟩ =
            (⟨some (readLoop c { docsLoaded := dl } [] (f :: g :: fs)).2.1,
              (readLoop c { docsLoaded := dl } [] (f :: g :: fs)).2.2,
              (readLoop c { docsLoaded := dl } [] (f :: g :: fs)).1.buffer,
              (readLoop c { docsLoaded := dl } [] (f :: g :: fs)).1.finished,
              (readLoop c { docsLoaded := dl } [] (f :: g :: fs)).1.docsLoaded⟩,
              (readLoop c { docsLoaded := dl } [] (f :: g :: fs)).1.doc) := rfl
        rw [this, h2, hloop, ← hdoc]
        exact ⟨s.docsLoaded, by simp [hb]⟩
    obtain ⟨dl', hp⟩ := hp
    obtain ⟨n, rfl⟩ : ∃ n, fuel = n + 1 := ⟨fuel - 1, by simp at hfuel; omega⟩
    unfold Reader.all
    rw [if_neg (by simp)]
    simp only [hp]
    rw [ih (some []) g n dl' (fun x hx => hne x (List.mem_cons_of_mem _ hx)) (Or.inr rfl) (by simp at hfuel; omega)]
    rfl

theorem fast_all (c : RConf) (hm : c.maxDocs = 0) (hg : c.merge = false) :
    ∀ (fs : List (List Sent)) (f : List Sent) (fuel dl : Nat) (r : FReader), r = ⟨none, f :: fs, false, dl⟩ ∨
      r = ⟨some f, fs, false, dl⟩ → fs.length < fuel → FReader.all c fuel r = some ((f :: fs).map (fileDoc c)) := by
  intro fs
  induction fs with
  | nil =>
    intro f fuel dl r hr hfuel
    obtain ⟨s, e, hd⟩ := fast_file c hm [] f { docsLoaded := dl } [] rfl (by simp)
    have hd' : s.doc = fileDoc c f := by rw [hd]; rfl
    have hp : FReader.process c r = (⟨none, [], true, s.docsLoaded⟩, fileDoc c f) := by
      rcases hr with rfl | rfl <;>
      · unfold FReader.process
        simp only [fastLoop]
        rw [e, ← hd']
    obtain ⟨n, rfl⟩ : ∃ n, fuel = n + 1 := ⟨fuel - 1, by simp at hfuel; omega⟩
    unfold FReader.all
    rw [if_neg (by rcases hr with rfl | rfl <;> simp)]
    simp only [hp]
    have : FReader.all c n ⟨none, [], true, s.docsLoaded⟩ = some [] := by cases n <;> rfl
    rw [this]
    rfl
  | cons g fs ih =>
    intro f fuel dl r hr hfuel
    obtain ⟨s, e, hd⟩ := fast_file c hm [] f { docsLoaded := dl } [] rfl (by simp)
    have hd' : s.doc = fileDoc c f := by rw [hd]; rfl
    have hp : FReader.process c r = (⟨some g, fs, false, s.docsLoaded⟩, fileDoc c f) := by
      rcases hr with rfl | rfl <;>
      · unfold FReader.process
        simp only [fastLoop]
        rw [e, ← hd']
        simp [hg]
    obtain ⟨n, rfl⟩ : ∃ n, fuel = n + 1 := ⟨fuel - 1, by simp at hfuel; omega⟩
    unfold FReader.all
    rw [if_neg (by rcases hr with rfl | rfl <;> simp)]
    simp only [hp]
    rw [ih g n s.docsLoaded _ (Or.inr rfl) (by simp at hfuel; omega)]
    rfl

/-- C76 (partial): without `max_docs` and `merge`, both ways of loading give the same documents with the same bundles, if
no file is empty. Missing: empty files (`C76_empty_file_violated`), `merge` (`C76_merge_violated`, `C76_merge_partial`) and
`max_docs` (`C76_max_docs_violated`). -/
theorem C76_fast_partial (c : RConf) (hk : c.perDoc = 0) (hs : c.splitDocs = false) (hm : c.maxDocs = 0)
    (hg : c.merge = false) (files : List (List Sent)) (hne : ∀ f ∈ files, f ≠ []) : fastAll c files = readAll c files := by
  cases files with
  | nil => rfl
  | cons f fs =>
    unfold fastAll readAll
    have hlen : ∀ (l : List (List Sent)), (∀ x ∈ l, x ≠ []) → l.length ≤ l.flatten.length := by
      intro l
      induction l with
      | nil => intro _; simp
      | cons a l ih =>
        intro h
        have h1 := List.length_pos_iff.2 (h a (List.mem_cons_self ..))
        have h2 := ih (fun x hx => h x (List.mem_cons_of_mem _ hx))
        simp only [List.flatten_cons, List.length_append, List.length_cons]
        omega
    have hl := hlen (f :: fs) hne
    rw [fast_all c hm hg fs f _ 0 _ (Or.inl rfl) (by simp; omega)]
    rw [slow_all c hk hs hm hg fs none f _ 0 hne (Or.inl rfl) (by simp only [List.length_cons] at hl; omega)]

example : fastAll {} [[rs 1 ['a'], rs 2 ['b']], [rs 3 ['b'], rs 4 ['b', '/', 'x']]] =
    some [[⟨some ['a'], [rs 1 ['a']]⟩, ⟨some ['b'], [rs 2 ['b']]⟩], [⟨some ['b'], [rs 3 ['b'], rs 4 ['b', '/', 'x']]⟩]] := by
  decide

/-- C76 is violated: an empty file gives a document of its own when loaded at once, and none otherwise. -/
theorem C76_empty_file_violated (c : RConf) (hk : c.perDoc = 0) (hs : c.splitDocs = false) (hm : c.maxDocs = 0)
    (hg : c.merge = false) (f : List Sent) (hf : f ≠ []) :
    ∃ d, fastAll c [[], f] = some [[], d] ∧ readAll c [[], f] = some [d] := by
  refine ⟨fileDoc c f, ?_, ?_⟩
  · unfold fastAll
    rw [fast_all c hm hg [f] [] _ 0 _ (Or.inl rfl) (by simp)]
    rfl
  · have h1 := slow_all c hk hs hm hg [] (some []) f (f.length + 1) 0 (by simpa using hf) (Or.inr rfl) (by simp)
    unfold readAll
    have e : Reader.all c ([[], f].flatten.length + 1) { files := [[], f] } =
        Reader.all c (f.length + 1) ⟨some [], [f], none, false, 0⟩ := by
      have : [[], f].flatten.length + 1 = f.length + 1 := by simp
      rw [this]
      rfl
    rw [e, h1]
    rfl

/-! ## Merged files -/

theorem fold_split (c : RConf) (D : List Group) : ∀ (ts : List Sent) (d : List Group) (l : Str), d ≠ [] →
    ts.foldl (groupStep c) (D ++ d, l) = (D ++ (ts.foldl (groupStep c) (d, l)).1, (ts.foldl (groupStep c) (d, l)).2) := by
  have hadd : ∀ (t : Sent) (e : List Group), e ≠ [] → addLast t (D ++ e) = D ++ addLast t e := by
    intro t e he
    rcases List.eq_nil_or_concat e with h | ⟨x, g, h⟩
    · exact absurd h he
    · rw [h, List.concat_eq_append, ← List.append_assoc, addLast_append, addLast_append, List.append_assoc]
  intro ts
  induction ts with
  | nil => intro d l _; rfl
  | cons t ts ih =>
    intro d l hd
    have : groupStep c (D ++ d, l) t = (D ++ (groupStep c (d, l) t).1, (groupStep c (d, l) t).2) := by
      unfold groupStep
      simp only [List.append_eq_nil_iff, hd, and_false, false_or]
      split
      · simp [List.append_assoc]
      · simp [hadd t d hd]
    rw [List.foldl_cons, List.foldl_cons, this]
    exact ih _ _ (groupStep_ne c (d, l) t)

theorem slow_merge_loop (c : RConf) (hk : c.perDoc = 0) (hs : c.splitDocs = false) (hm : c.maxDocs = 0)
    (hg : c.merge = true) : ∀ (fs : List (List Sent)) (f : List Sent) (s : Loop), s.buffer = none →
    ∃ s', readLoop c s f fs = (s', [], []) ∧ s'.buffer = none ∧ s'.finished = true ∧
      s'.doc = ((f :: fs).flatten.foldl (groupStep c) (s.doc, s.lastId)).1 := by
  intro fs
  induction fs with
  | nil =>
    intro f s hb
    obtain ⟨s', e, h1, h2, h3⟩ := slow_file c hk hs hm f s hb
    refine ⟨{ s' with finished := true }, ?_, h1, rfl, ?_⟩
    · unfold readLoop; rw [e]
    · simp only [List.flatten_cons, List.flatten_nil, List.append_nil]
      rw [← h3]
  | cons g fs ih =>
    intro f s hb
    obtain ⟨s1, e, h1, h2, h3⟩ := slow_file c hk hs hm f s hb
    obtain ⟨s', i1, i2, i3, i4⟩ := ih g s1 h1
    refine ⟨s', ?_, i2, i3, ?_⟩
    · conv => lhs; unfold readLoop
      rw [e]
      simp only [hg, or_true, if_true]
      exact i1
    · rw [i4, h3, ← List.foldl_append]
      rfl

theorem fast_merge_loop (c : RConf) (hm : c.maxDocs = 0) (hg : c.merge = true) : ∀ (fs : List (List Sent)) (f : List Sent)
    (s : Fast), ∃ s', fastLoop c s f fs = (s', true, none, []) ∧ s'.doc = s.doc ++ (f :: fs).flatMap (fileDoc c) := by
  intro fs
  induction fs with
  | nil =>
    intro f s
    obtain ⟨s', e, h1⟩ := fast_file c hm s.doc f { s with fresh := true, lastId := [] } [] (by simp) (by simp)
    refine ⟨s', ?_, ?_⟩
    · unfold fastLoop; rw [e]
    · rw [h1]; simp [fileDoc]
  | cons g fs ih =>
    intro f s
    obtain ⟨s1, e, h1⟩ := fast_file c hm s.doc f { s with fresh := true, lastId := [] } [] (by simp) (by simp)
    obtain ⟨s', i1, i2⟩ := ih g s1
    refine ⟨s', ?_, ?_⟩
    · conv => lhs; unfold fastLoop
      rw [e]
      simp only [hg, if_true]
      exact i1
    · rw [i2, h1]; simp [fileDoc]

theorem slow_merged (c : RConf) (hk : c.perDoc = 0) (hs : c.splitDocs = false) (hm : c.maxDocs = 0) (hg : c.merge = true)
    (f : List Sent) (fs : List (List Sent)) : readAll c (f :: fs) = some [fileDoc c (f :: fs).flatten] := by
  obtain ⟨s, e, h1, h2, h3⟩ := slow_merge_loop c hk hs hm hg fs f {} rfl
  unfold readAll Reader.all
  rw [if_neg (by simp)]
  have hp : Reader.process c { files := f :: fs } = (⟨some [], [], none, true, s.docsLoaded⟩, s.doc) := by
    have : Reader.process c { files := f :: fs } = (⟨some (readLoop c {} f fs).2.1, (readLoop c {} f fs).2.2,
        (readLoop c {} f fs).1.buffer, (readLoop c {} f fs).1.finished, (readLoop c {} f fs).1.docsLoaded⟩,
        (readLoop c {} f fs).1.doc) := rfl
    rw [this, e]
    simp [h1, h2]
  simp only [hp]
  have : Reader.all c (f :: fs).flatten.length ⟨some [], [], none, true, s.docsLoaded⟩ = some [] := by
    cases (f :: fs).flatten.length <;> rfl
  rw [this, h3]
  rfl

theorem fast_merged (c : RConf) (hm : c.maxDocs = 0) (hg : c.merge = true) (f : List Sent) (fs : List (List Sent)) :
    fastAll c (f :: fs) = some [(f :: fs).flatMap (fileDoc c)] := by
  obtain ⟨s, e, h1⟩ := fast_merge_loop c hm hg fs f {}
  unfold fastAll FReader.all
  rw [if_neg (by simp)]
  have hp : FReader.process c { files := f :: fs } = (⟨none, [], true, s.docsLoaded⟩, s.doc) := by
    unfold FReader.process
    simp only
    rw [e]
  simp only [hp]
  have : FReader.all c (f :: fs).length ⟨none, [], true, s.docsLoaded⟩ = some [] := by
    cases (f :: fs).length <;> rfl
  rw [this, h1]
  rfl

/-- The last bundle id is that of the last sentence. -/
theorem fold_last (c : RConf) (ts : List Sent) (t : Sent) (b : Str) (ht : bundleOf c t = some b) (s : List Group × Str) :
    ((ts ++ [t]).foldl (groupStep c) s).2 = b := by
  rw [List.foldl_append]
  simp only [List.foldl_cons, List.foldl_nil]
  unfold groupStep
  rw [ht]
  split <;> rfl

/-- A sentence starting a new bundle starts afresh. -/
theorem fold_fresh (c : RConf) (D : List Group) (l : Str) (u : Sent) (b : Str) (hu : bundleOf c u = some b) (h : b ≠ l)
    (us : List Sent) : ((u :: us).foldl (groupStep c) (D, l)) =
      (D ++ fileDoc c (u :: us), ((u :: us).foldl (groupStep c) ([], [])).2) := by
  have e1 : groupStep c (D, l) u = (D ++ [⟨if b = [] then none else some b, [u]⟩], b) := by
    unfold groupStep
    simp only [hu, Option.getD_some]
    rw [if_pos (Or.inr (by simpa using h))]
  have e2 : groupStep c ([], []) u = ([⟨if b = [] then none else some b, [u]⟩], b) := by
    unfold groupStep
    simp only [hu, Option.getD_some]
    rw [if_pos (Or.inl trivial)]
    rfl
  unfold fileDoc
  rw [List.foldl_cons, List.foldl_cons, e1, e2, fold_split c D us _ b (by simp)]

/-- C76 (partial): with `merge`, both ways of loading give the same document if all sentences have ids and no bundle goes
on in the next file. Missing: bundles that go on in the next file (`C76_merge_violated`). -/
theorem C76_merge_partial (c : RConf) (hk : c.perDoc = 0) (hs : c.splitDocs = false) (hm : c.maxDocs = 0)
    (hi : c.ignoreIds = false) (hg : c.merge = true) (files : List (List Sent)) (hne : ∀ f ∈ files, f ≠ [])
    (hids : ∀ f ∈ files, ∀ t ∈ f, ∃ b, HasBundle b t)
    (hnext : ∀ i f g, files[i]? = some f → files[i + 1]? = some g → ∀ t u b, f.getLast? = some t → g.head? = some u →
      HasBundle b t → ¬ HasBundle b u) : fastAll c files = readAll c files := by
  cases files with
  | nil => rfl
  | cons f fs =>
    rw [slow_merged c hk hs hm hg, fast_merged c hm hg]
    have main : ∀ (fs : List (List Sent)) (D : List Group) (x : List Sent) (t : Sent) (b : Str), HasBundle b t →
        (∀ f ∈ fs, f ≠ []) → (∀ f ∈ fs, ∀ t ∈ f, ∃ b, HasBundle b t) →
        (∀ i f g, ((x ++ [t]) :: fs)[i]? = some f → ((x ++ [t]) :: fs)[i + 1]? = some g → ∀ t u b, f.getLast? = some t →
          g.head? = some u → HasBundle b t → ¬ HasBundle b u) →
        (fs.flatten.foldl (groupStep c) (D, b)).1 = D ++ fs.flatMap (fileDoc c) := by
      intro fs
      induction fs with
      | nil => intro D x t b _ _ _ _; simp
      | cons g fs ih =>
        intro D x t b ht h1 h2 h3
        obtain ⟨u, us, rfl⟩ := List.exists_cons_of_ne_nil (h1 g (List.mem_cons_self ..))
        obtain ⟨bu, hbu⟩ := h2 _ (List.mem_cons_self ..) u (List.mem_cons_self ..)
        have hneq : bu ≠ b := by
          intro e
          exact h3 0 (x ++ [t]) (u :: us) rfl rfl t u b (by simp) rfl ht (e ▸ hbu)
        rw [List.flatten_cons, List.foldl_append, fold_fresh c D b u bu (bundleOf_of_has hi hbu) hneq us]
        obtain ⟨ys, y, hy⟩ : ∃ ys y, u :: us = ys ++ [y] := by
          rcases List.eq_nil_or_concat (u :: us) with e | ⟨ys, y, e⟩
          · cases e
          · exact ⟨ys, y, by rw [e, List.concat_eq_append]⟩
        obtain ⟨by', hby⟩ := h2 _ (List.mem_cons_self ..) y (by rw [hy]; simp)
        have hl : ((u :: us).foldl (groupStep c) ([], [])).2 = by' := by
          rw [hy]; exact fold_last c ys y by' (bundleOf_of_has hi hby) _
        rw [hl, ih (D ++ fileDoc c (u :: us)) ys y by' hby (fun f hf => h1 f (List.mem_cons_of_mem _ hf))
          (fun f hf => h2 f (List.mem_cons_of_mem _ hf)) ?_]
        · simp [List.append_assoc]
        · intro i f g hf hg
          rw [← hy] at hf hg
          exact h3 (i + 1) f g (by simpa using hf) (by simpa using hg)
    obtain ⟨x, t, hx⟩ : ∃ x t, f = x ++ [t] := by
      rcases List.eq_nil_or_concat f with e | ⟨ys, y, e⟩
      · exact absurd e (hne f (List.mem_cons_self ..))
      · exact ⟨ys, y, by rw [e, List.concat_eq_append]⟩
    obtain ⟨b, hb⟩ := hids f (List.mem_cons_self ..) t (by rw [hx]; simp)
    congr 2
    have hl : (f.foldl (groupStep c) ([], [])).2 = b := by
      rw [hx]; exact fold_last c x t b (bundleOf_of_has hi hb) _
    have hm' := main fs (fileDoc c f) x t b hb (fun f hf => hne f (List.mem_cons_of_mem _ hf))
      (fun f hf => hids f (List.mem_cons_of_mem _ hf)) (hx ▸ hnext)
    rw [List.flatMap_cons, ← hm']
    unfold fileDoc
    rw [List.flatten_cons, List.foldl_append]
    exact congrArg (fun q => (fs.flatten.foldl (groupStep c) q).1) (show f.foldl (groupStep c) ([], []) = (fileDoc c f, b) from Prod.ext rfl hl).symm

example : fastAll { merge := true } [[rs 1 ['a'], rs 2 ['b']], [rs 3 ['c']]] =
    some [[⟨some ['a'], [rs 1 ['a']]⟩, ⟨some ['b'], [rs 2 ['b']]⟩, ⟨some ['c'], [rs 3 ['c']]⟩]] := by
  decide

/-- C76 is violated: with `merge`, a bundle that goes on in the next file is kept together only if the sentences are not
loaded at once. -/
theorem C76_merge_violated (c : RConf) (hk : c.perDoc = 0) (hs : c.splitDocs = false) (hm : c.maxDocs = 0)
    (hi : c.ignoreIds = false) (hg : c.merge = true) (b : Str) (hne : b ≠ []) (as : List Sent) (t u : Sent)
    (ht : HasBundle b t) (hu : HasBundle b u) :
    ∃ D g, readAll c [as ++ [t], [u]] = some [D ++ [⟨g.bundleId, g.sents ++ [u]⟩]] ∧ t ∈ g.sents ∧
      fastAll c [as ++ [t], [u]] = some [D ++ [g, ⟨some b, [u]⟩]] := by
  have hb := bundleOf_of_has hi ht
  have hbu := bundleOf_of_has hi hu
  have hdoc : ∃ D g, fileDoc c (as ++ [t]) = D ++ [g] ∧ t ∈ g.sents := by
    unfold fileDoc
    rw [List.foldl_append]
    generalize as.foldl (groupStep c) ([], []) = s
    simp only [List.foldl_cons, List.foldl_nil]
    unfold groupStep
    simp only
    split
    · exact ⟨s.1, _, rfl, by simp⟩
    · rename_i h
      cases hl : s.1.getLast? with
      | none => rw [List.getLast?_eq_none_iff] at hl; exact absurd (Or.inl hl) h
      | some x =>
        obtain ⟨D, _, e2⟩ := getLast_addLast t hl
        exact ⟨D, _, e2, by simp⟩
  obtain ⟨D, g, hD, hg'⟩ := hdoc
  refine ⟨D, g, ?_, hg', ?_⟩
  · rw [slow_merged c hk hs hm hg]
    have hpair : (as ++ [t]).foldl (groupStep c) ([], []) = (D ++ [g], b) :=
      Prod.ext hD (fold_last c as t b hb _)
    unfold fileDoc
    have : [as ++ [t], [u]].flatten = (as ++ [t]) ++ [u] := by simp
    rw [this, List.foldl_append, hpair]
    simp only [List.foldl_cons, List.foldl_nil]
    unfold groupStep
    rw [if_neg (by simp [hbu])]
    simp [addLast_append]
  · rw [fast_merged c hm hg]
    have : fileDoc c [u] = [⟨some b, [u]⟩] := by
      unfold fileDoc
      simp [groupStep, hbu, hne]
    simp [hD, this]

/-- C76 is violated: with `max_docs`, files without `# newdoc` are counted as documents only if the sentences are not loaded
at once; loaded at once, all of them are read. -/
theorem C76_max_docs_violated (c : RConf) (hk : c.perDoc = 0) (hm : c.maxDocs = 1)
    (hg : c.merge = false) (f g : List Sent) (hf : f ≠ []) (hg' : g ≠ []) (hn : ∀ t ∈ f ++ g, t.newdoc = false) :
    (∃ d e, fastAll c [f, g] = some [d, e] ∧ sentsOf d = f ∧ sentsOf e = g) ∧
    (∃ d, readAll c [f, g] = some [d, []] ∧ sentsOf d = f) := by
  have hfast : ∀ (ts : List Sent) (s : Fast), (∀ t ∈ ts, t.newdoc = false) → (s.fresh = false → s.doc ≠ []) →
      ∃ s', fastFile c s ts = (s', false) ∧ sentsOf s'.doc = sentsOf s.doc ++ ts := by
    intro ts
    induction ts with
    | nil => intro s _ _; exact ⟨s, rfl, by simp⟩
    | cons t ts ih =>
      intro s h1 h2
      have ht := h1 t (List.mem_cons_self ..)
      have hstep : ∃ s', fastStep c s t = (s', false) ∧ sentsOf s'.doc = sentsOf s.doc ++ [t] ∧
          (s'.fresh = false → s'.doc ≠ []) := by
        unfold fastStep
        rw [if_neg (by simp [ht])]
        simp only [ht, Bool.false_eq_true, if_false]
        by_cases h3 : s.fresh = true ∨ (match bundleOf c t with
          | some b => (decide (b = s.lastId), b)
          | none => (false, s.lastId)).1 = false
        · rw [if_pos h3]
          exact ⟨_, rfl, by simp [sentsOf], by simp⟩
        · rw [if_neg h3]
          have hne : s.doc ≠ [] := h2 (by
            cases hfr : s.fresh
            · rfl
            · exact absurd (Or.inl hfr) h3)
          exact ⟨_, rfl, sentsOf_addLast t _ hne, fun _ => addLast_ne_nil t hne⟩
      obtain ⟨s1, e1, e2, e3⟩ := hstep
      obtain ⟨s', i1, i2⟩ := ih s1 (fun x hx => h1 x (List.mem_cons_of_mem _ hx)) e3
      refine ⟨s', ?_, by rw [i2, e2]; simp⟩
      unfold fastFile
      rw [e1]
      exact i1
  constructor
  · obtain ⟨s1, e1, d1⟩ := hfast f {} (fun t ht => hn t (List.mem_append_left _ ht)) (by simp)
    obtain ⟨s2, e2, d2⟩ := hfast g { docsLoaded := s1.docsLoaded } (fun t ht => hn t (List.mem_append_right _ ht)) (by simp)
    refine ⟨s1.doc, s2.doc, ?_, by simpa [sentsOf] using d1, by simpa [sentsOf] using d2⟩
    have p1 : FReader.process c { files := [f, g] } = (⟨some g, [], false, s1.docsLoaded⟩, s1.doc) := by
      unfold FReader.process
      simp only [fastLoop]
      rw [e1]
      simp [hg]
    have p2 : FReader.process c ⟨some g, [], false, s1.docsLoaded⟩ = (⟨none, [], true, s2.docsLoaded⟩, s2.doc) := by
      unfold FReader.process
      simp only [fastLoop]
      rw [e2]
    unfold fastAll
    show FReader.all c 3 _ = _
    unfold FReader.all
    rw [if_neg (by simp)]
    simp only [p1]
    unfold FReader.all
    rw [if_neg (by simp)]
    simp only [p2]
    rfl
  · obtain ⟨t, ts, rfl⟩ := List.exists_cons_of_ne_nil hf
    obtain ⟨u, us, rfl⟩ := List.exists_cons_of_ne_nil hg'
    have hin : ∀ (as : List Sent) (s : Loop), (∀ t ∈ as, t.newdoc = false) → s.loaded ≠ 0 → s.doc ≠ [] → s.buffer = none →
        s.docsLoaded = 1 →
        ∃ s', readFile c s as = (s', [], false) ∧ s'.buffer = none ∧ s'.docsLoaded = 1 ∧ s'.loaded ≠ 0 ∧
          sentsOf s'.doc = sentsOf s.doc ++ as := by
      intro as
      induction as with
      | nil => intro s _ h1 _ h2 h3; exact ⟨s, rfl, h2, h3, h1, by simp⟩
      | cons a as ih =>
        intro s h1 h2 h3 h4 h5
        have ha := h1 a (List.mem_cons_self ..)
        have hstep : ∃ s', readStep c s a = (s', false) ∧ s'.loaded ≠ 0 ∧ s'.doc ≠ [] ∧ s'.buffer = none ∧
            s'.docsLoaded = 1 ∧ sentsOf s'.doc = sentsOf s.doc ++ [a] := by
          have hpl : ∀ (s : Loop) (add : Bool), s.doc ≠ [] → ∃ s', place c s a add = (s', false) ∧ s'.loaded = s.loaded ∧
              s'.doc ≠ [] ∧ s'.buffer = s.buffer ∧ s'.docsLoaded = s.docsLoaded ∧ sentsOf s'.doc = sentsOf s.doc ++ [a] := by
            intro s add hd
            unfold place
            simp only [hk, ne_eq, not_true_eq_false, false_and, if_false, decide_false]
            split
            · exact ⟨_, rfl, rfl, by simp, rfl, rfl, by simp [sentsOf]⟩
            · exact ⟨_, rfl, rfl, addLast_ne_nil a hd, rfl, rfl, sentsOf_addLast a _ hd⟩
          unfold readStep
          rw [if_neg (by simp [h2])]
          simp only [h2, false_and, if_false]
          unfold newdocThenPlace
          simp only [ha, Bool.false_eq_true, if_false]
          cases bundleOf c a with
          | some b =>
            obtain ⟨s', e1, e2, e3, e4, e5, e6⟩ := hpl { s with loaded := s.loaded + 1, lastId := b } (decide (b = s.lastId)) h3
            exact ⟨s', e1, by rw [e2]; simp, e3, e4.trans h4, e5.trans h5, e6⟩
          | none =>
            obtain ⟨s', e1, e2, e3, e4, e5, e6⟩ := hpl { s with loaded := s.loaded + 1 } false h3
            exact ⟨s', e1, by rw [e2]; simp, e3, e4.trans h4, e5.trans h5, e6⟩
        obtain ⟨s1, e1, e2, e3, e4, e5, e6⟩ := hstep
        obtain ⟨s', i1, i2, i3, i4, i5⟩ := ih s1 (fun x hx => h1 x (List.mem_cons_of_mem _ hx)) e2 e3 e4 e5
        refine ⟨s', ?_, i2, i3, i4, by rw [i5, e6]; simp⟩
        unfold readFile
        rw [e1]
        exact i1
    have ht := hn t (by simp)
    have hu := hn u (by simp)
    have hfirst : ∃ s', readStep c {} t = (s', false) ∧ s'.loaded ≠ 0 ∧ s'.doc ≠ [] ∧ s'.buffer = none ∧ s'.docsLoaded = 1 ∧
        sentsOf s'.doc = [t] := by
      unfold readStep
      rw [if_neg (by simp [hm])]
      simp only [ht, and_self, if_true]
      unfold newdocThenPlace
      simp only [ht, Bool.false_eq_true, if_false]
      unfold place
      simp only [hk, ne_eq, not_true_eq_false, false_and, if_false, decide_false, true_or, if_true]
      cases bundleOf c t <;> exact ⟨_, rfl, by simp, by simp, rfl, rfl, by simp [sentsOf]⟩
    obtain ⟨s1, e1, e2, e3, e4, e5, e6⟩ := hfirst
    obtain ⟨s2, i1, i2, i3, i4, i5⟩ := hin ts s1 (fun x hx => hn x (by simp [hx])) e2 e3 e4 e5
    have hfile : readFile c {} (t :: ts) = (s2, [], false) := by
      unfold readFile; rw [e1]; exact i1
    have p1 : Reader.process c { files := [t :: ts, u :: us] } = (⟨some [], [u :: us], none, false, 1⟩, s2.doc) := by
      have : Reader.process c { files := [t :: ts, u :: us] } = (⟨some (readLoop c {} (t :: ts) [u :: us]).2.1,
          (readLoop c {} (t :: ts) [u :: us]).2.2, (readLoop c {} (t :: ts) [u :: us]).1.buffer,
          (readLoop c {} (t :: ts) [u :: us]).1.finished, (readLoop c {} (t :: ts) [u :: us]).1.docsLoaded⟩,
          (readLoop c {} (t :: ts) [u :: us]).1.doc) := rfl
      rw [this]
      unfold readLoop
      rw [hfile]
      simp [i4, hg, i2, i3]
    have hstop : readStep c { docsLoaded := 1 } u = ({ docsLoaded := 1, finished := true }, true) := by
      unfold readStep
      rw [if_pos ⟨rfl, hu, by simp [hm], by simp [hm]⟩]
    have p2 : Reader.process c ⟨some [], [u :: us], none, false, 1⟩ = (⟨some us, [], none, true, 1⟩, []) := by
      have : Reader.process c ⟨some [], [u :: us], none, false, 1⟩ =
          (⟨some (readLoop c { docsLoaded := 1 } [] [u :: us]).2.1,
          (readLoop c { docsLoaded := 1 } [] [u :: us]).2.2, (readLoop c { docsLoaded := 1 } [] [u :: us]).1.buffer,
          (readLoop c { docsLoaded := 1 } [] [u :: us]).1.finished,
          (readLoop c { docsLoaded := 1 } [] [u :: us]).1.docsLoaded⟩,
          (readLoop c { docsLoaded := 1 } [] [u :: us]).1.doc) := rfl
      rw [this]
      have hl : readLoop c { docsLoaded := 1 } [] [u :: us] = ({ docsLoaded := 1, finished := true }, us, []) := by
        unfold readLoop readFile
        simp only [true_or, if_true]
        unfold readLoop readFile
        rw [hstop]
      rw [hl]
    refine ⟨s2.doc, ?_, by rw [i5, e6]; rfl⟩
    unfold readAll
    have hfl : [t :: ts, u :: us].flatten.length + 1 = (ts.length + us.length + 1) + 1 + 1 := by simp; omega
    rw [hfl]
    unfold Reader.all
    rw [if_neg (by simp)]
    simp only [p1]
    unfold Reader.all
    rw [if_neg (by simp)]
    simp only [p2]
    have : Reader.all c (ts.length + us.length + 1) ⟨some us, [], none, true, 1⟩ = some [] := rfl
    rw [this]

end Verif.Run
