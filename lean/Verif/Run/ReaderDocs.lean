import Verif.Run.ReaderProps

/-!
# Documents made by readers: `max_docs`, empty documents, files, ids, and `read_trees`
-/

namespace Verif.Run
open Verif.Py

/-- The sentences of a document so far stay in it, in front. -/
theorem step_prefix (c : RConf) (hm : c.maxDocs = 0) (s : Loop) (hb : s.buffer = none) (t : Sent) :
    sentsOf s.doc <+: sentsOf (readStep c s t).1.doc := by
  have h := (readStep_ok c hm s hb t).sents
  cases hbuf : (readStep c s t).1.buffer with
  | none => rw [hbuf] at h; exact ⟨[t], by simpa using h.symm⟩
  | some x =>
    rw [hbuf] at h
    have := List.append_inj' h rfl
    rw [this.1]
    exact List.prefix_refl _

theorem file_prefix (c : RConf) (hm : c.maxDocs = 0) : ∀ (ts : List Sent) (s : Loop), s.buffer = none →
    sentsOf s.doc <+: sentsOf (readFile c s ts).1.doc := by
  intro ts
  induction ts with
  | nil => intro s _; exact List.prefix_refl _
  | cons t ts ih =>
    intro s hb
    have h1 := step_prefix c hm s hb t
    have h2 := (readStep_ok c hm s hb t).goOn
    unfold readFile
    generalize readStep c s t = r at *
    obtain ⟨s', ret⟩ := r
    cases ret with
    | true => exact h1
    | false => exact h1.trans (ih s' (h2 rfl))

theorem loop_prefix (c : RConf) (hm : c.maxDocs = 0) : ∀ (fs : List (List Sent)) (ts : List Sent) (s : Loop),
    s.buffer = none → sentsOf s.doc <+: sentsOf (readLoop c s ts fs).1.doc := by
  intro fs
  induction fs with
  | nil =>
    intro ts s hb
    have h1 := file_prefix c hm ts s hb
    unfold readLoop
    generalize readFile c s ts = r at *
    obtain ⟨s', rest, ret⟩ := r
    cases ret <;> exact h1
  | cons f fs ih =>
    intro ts s hb
    have h1 := file_prefix c hm ts s hb
    have h2 := (readFile_ok c hm ts s hb).goOn
    unfold readLoop
    generalize readFile c s ts = r at *
    obtain ⟨s', rest, ret⟩ := r
    cases ret with
    | true => exact h1
    | false =>
      simp only
      split
      · exact h1.trans (ih f s' (h2 rfl).1)
      · exact h1

/-! ## C74: documents and files -/

/-- C74 is violated: for every `bundles_per_doc=k` with `k > 1` and every file of `k + 1` bundles followed by another file,
the second document contains sentences of both files, although `merge` is not set. -/
theorem C74_files_violated (c : RConf) (hm : c.maxDocs = 0) (hs : c.splitDocs = false) (hi : c.ignoreIds = false)
    (hz : c.multizone = true) (hk : 1 < c.perDoc) (_ : c.merge = false) (as : List (Str × Sent))
    (hl : as.length = c.perDoc) (h1 : ∀ p ∈ as, p.1 ≠ [] ∧ HasBundle p.1 p.2)
    (h2 : ∀ p q xs ys, as = xs ++ p :: q :: ys → p.1 ≠ q.1) (t u : Sent) (b b' : Str) (ht : HasBundle b t)
    (hu : HasBundle b' u) (hne : b' ≠ []) (hnew : ∀ p, as.getLast? = some p → p.1 ≠ b) (rest : List Sent)
    (fs : List (List Sent)) :
    ∃ docs d, readAll c ((as.map (·.2) ++ [t]) :: (u :: rest) :: fs) = some docs ∧ docs[1]? = some d ∧
      [t, u] <+: d.flatMap (·.sents) := by
  obtain ⟨docs, e, _⟩ := C45_conserved_partial c hm ((as.map (·.2) ++ [t]) :: (u :: rest) :: fs)
  obtain ⟨dl, e1⟩ := first_doc c hm hs hi hz (by omega) as hl h1 h2 t b ht hnew [] ((u :: rest) :: fs)
  obtain ⟨fuel, docs', _, hd, e2⟩ := all_some e rfl
  rw [e1] at e2 hd
  obtain ⟨fuel', docs'', _, hd', _⟩ := all_some e2 rfl
  refine ⟨docs, _, e, by rw [hd, hd']; rfl, ?_⟩
  generalize hst : startLoop c ⟨some [], (u :: rest) :: fs, some t, false, dl⟩ = s0
  have hs0 : s0.doc = [⟨bufferedId c t, [t]⟩] ∧ s0.loaded = 0 ∧ s0.buffer = none := by rw [← hst]; exact ⟨rfl, rfl, rfl⟩
  obtain ⟨dl', estep⟩ := readStep_eq c hm hs s0 u (bundleOf_of_has hi hu)
  have hadd : decide (b' = s0.lastId) = false := by
    rw [← hst]; exact decide_eq_false (by simpa [startLoop] using hne)
  rw [hadd] at estep
  have hstep : (readStep c s0 u).2 = false ∧ sentsOf (readStep c s0 u).1.doc = [t, u] ∧ (readStep c s0 u).1.buffer = none := by
    rw [estep]
    unfold place
    simp only [hs0]
    rw [if_pos (Or.inr trivial), if_neg (by intro ⟨_, _, e⟩; simp at e; omega)]
    simp [hz, sentsOf]
  have hloop : readLoop c s0 [] ((u :: rest) :: fs) = readLoop c (readStep c s0 u).1 rest fs := by
    have hf : readFile c s0 (u :: rest) = readFile c (readStep c s0 u).1 rest := by
      conv => lhs; unfold readFile
      have : readStep c s0 u = ((readStep c s0 u).1, false) := Prod.ext rfl hstep.1
      rw [this]
    conv => lhs; unfold readLoop
    simp only [readFile, hs0, true_or, if_true]
    cases fs <;> (conv => lhs; unfold readLoop; rw [hf]) <;> (conv => rhs; unfold readLoop)
  have := loop_prefix c hm fs rest (readStep c s0 u).1 hstep.2.2
  rw [hstep.2.1] at this
  have hp : (Reader.process c ⟨some [], (u :: rest) :: fs, some t, false, dl⟩).2 =
      (readLoop c s0 [] ((u :: rest) :: fs)).1.doc := by
    unfold Reader.process
    simp only [hst]
  rw [hp, hloop]
  exact this

/-- Without `bundles_per_doc`, `split_docs` and `max_docs` the loop never returns within a file. -/
theorem step_goesOn (c : RConf) (hk : c.perDoc = 0) (hs : c.splitDocs = false) (hm : c.maxDocs = 0) (s : Loop)
    (t : Sent) : (readStep c s t).2 = false := by
  have hp : ∀ (s : Loop) (add : Bool), (place c s t add).2 = false := by
    intro s add
    unfold place
    simp [hk]
    split <;> rfl
  cases hb : bundleOf c t with
  | some b => obtain ⟨dl, e⟩ := readStep_eq c hm hs s t hb; rw [e, hp]
  | none => obtain ⟨dl, e⟩ := readStep_none c hm hs s t hb; rw [e, hp]

theorem file_goesOn (c : RConf) (hk : c.perDoc = 0) (hs : c.splitDocs = false) (hm : c.maxDocs = 0) : ∀ (ts : List Sent)
    (s : Loop), s.buffer = none → (readFile c s ts).2.2 = false ∧ (readFile c s ts).2.1 = [] ∧
      (readFile c s ts).1.buffer = none ∧ sentsOf (readFile c s ts).1.doc = sentsOf s.doc ++ ts := by
  intro ts
  induction ts with
  | nil => intro s hb; exact ⟨rfl, rfl, hb, by simp [readFile]⟩
  | cons t ts ih =>
    intro s hb
    have h1 := step_goesOn c hk hs hm s t
    have h2 := readStep_ok c hm s hb t
    unfold readFile
    generalize readStep c s t = r at *
    obtain ⟨s', ret⟩ := r
    simp only at h1
    subst h1
    have hb' := h2.goOn rfl
    obtain ⟨a1, a2, a3, a4⟩ := ih s' hb'
    refine ⟨a1, a2, a3, ?_⟩
    have h3 := h2.sents
    rw [hb'] at h3
    simp only [Option.toList_none, List.append_nil] at h3
    simp only
    rw [a4, h3]
    simp

/-- One document is one file that is not empty. -/
theorem loop_files (c : RConf) (hk : c.perDoc = 0) (hs : c.splitDocs = false) (hm : c.maxDocs = 0) (hg : c.merge = false) :
    ∀ (fs : List (List Sent)) (cur : List Sent) (s : Loop), s.buffer = none → s.doc = [] → s.loaded = 0 →
    (readLoop c s cur fs).2.1 = [] ∧ (readLoop c s cur fs).1.buffer = none ∧
    (cur :: fs).filter (fun f => decide (f ≠ [])) =
      (sentsOf (readLoop c s cur fs).1.doc :: (readLoop c s cur fs).2.2).filter (fun f => decide (f ≠ [])) ∧
    ((readLoop c s cur fs).1.finished = true → s.finished = false → (readLoop c s cur fs).2.2 = []) := by
  intro fs
  induction fs with
  | nil =>
    intro cur s hb hd hl
    obtain ⟨a1, a2, a3, a4⟩ := file_goesOn c hk hs hm cur s hb
    unfold readLoop
    generalize readFile c s cur = r at *
    obtain ⟨s', rest, ret⟩ := r
    simp only at a1 a2 a3 a4
    subst a1
    simp only
    refine ⟨a2, a3, ?_, by simp⟩
    rw [a4, hd]; rfl
  | cons f fs ih =>
    intro cur s hb hd hl
    obtain ⟨a1, a2, a3, a4⟩ := file_goesOn c hk hs hm cur s hb
    have h5 := readFile_ok c hm cur s hb
    unfold readLoop
    generalize readFile c s cur = r at *
    obtain ⟨s', rest, ret⟩ := r
    simp only at a1 a2 a3 a4
    subst a1
    simp only
    by_cases hc : cur = []
    · have e := (h5.zero hc).2
      simp only at e
      subst e
      rw [if_pos (Or.inl hl)]
      obtain ⟨b1, b2, b3, b4⟩ := ih f s' hb hd hl
      refine ⟨b1, b2, ?_, b4⟩
      rw [hc, List.filter_cons_of_neg (by simp), b3]
    · have hne := (h5.some hc).2
      simp only at hne
      rw [if_neg (by simp [hg, hne])]
      refine ⟨a2, a3, ?_, by simp⟩
      simp only
      rw [a4, hd]
      rfl

theorem all_files (c : RConf) (hk : c.perDoc = 0) (hs : c.splitDocs = false) (hm : c.maxDocs = 0) (hg : c.merge = false) :
    ∀ (fuel : Nat) (r : Reader), r.buffer = none → (r.current = none ∨ r.current = some []) →
    (r.finished = true → r.files = []) → ∀ docs, r.all c fuel = some docs →
    (docs.map sentsOf).filter (fun f => decide (f ≠ [])) = r.files.filter (fun f => decide (f ≠ [])) := by
  intro fuel
  induction fuel with
  | zero =>
    intro r _ _ hf docs h
    unfold Reader.all at h
    split at h
    · rename_i e; cases h; rw [hf e]; rfl
    · cases h
  | succ fuel ih =>
    intro r hb hcur hf docs h
    by_cases hfin : r.finished = true
    · unfold Reader.all at h
      rw [if_pos hfin] at h; cases h; rw [hf hfin]; rfl
    · replace hfin : r.finished = false := by simpa using hfin
      obtain ⟨fuel', rest, e, hd, hr⟩ := all_some h hfin
      cases e
      obtain ⟨cur, files, buf, fin, dl⟩ := r
      simp only at hb hcur hf hfin
      subst hb
      cases fin with
      | true => simp at hfin
      | false =>
      rw [hd, List.map_cons]
      have key : ∀ (cur : List Sent) (fs : List (List Sent)) (r' : Reader) (d : List Group),
          (r', d) = (let (s, rest, files) := readLoop c { docsLoaded := dl } cur fs
            (⟨some rest, files, s.buffer, s.finished, s.docsLoaded⟩, s.doc)) → r'.all c fuel = some rest →
          (sentsOf d :: rest.map sentsOf).filter (fun f => decide (f ≠ [])) = (cur :: fs).filter (fun f => decide (f ≠ [])) := by
        intro cur fs r' d h1 h2
        obtain ⟨a1, a2, a3, a4⟩ := loop_files c hk hs hm hg fs cur { docsLoaded := dl } rfl rfl rfl
        rw [a3]
        generalize readLoop c { docsLoaded := dl } cur fs = q at *
        obtain ⟨s, rest', fs'⟩ := q
        simp only at a1 a2 a3 a4 h1
        obtain ⟨h3, h4⟩ := Prod.mk.inj h1
        subst h3; subst h4
        have := ih _ a2 (Or.inr (by simp only; rw [a1])) (fun e => a4 e trivial) rest h2
        simp only at this ⊢
        rw [List.filter_cons, List.filter_cons, this]
      rcases hcur with e | e
      · subst e
        cases files with
        | nil =>
          have hr' : rest = [] := by
            cases fuel with
            | zero => unfold Reader.all Reader.process at hr; simp at hr; exact hr
            | succ fuel => unfold Reader.all Reader.process at hr; simp at hr; exact hr
          subst hr'
          rfl
        | cons f fs => exact key f fs _ _ rfl hr
      · subst e
        have := key [] files _ _ rfl hr
        rw [List.filter_cons_of_neg (by simp) (l := files)] at this
        exact this

/-- C74 (partial): without `bundles_per_doc`, `split_docs`, `max_docs` and `merge`, the documents are the files that are
not empty, in order (apart from an empty document for empty files at the end).
Missing: `bundles_per_doc`, for which it is false (`C74_files_violated`). -/
theorem C74_files_partial (c : RConf) (hk : c.perDoc = 0) (hs : c.splitDocs = false) (hm : c.maxDocs = 0)
    (hg : c.merge = false) (files : List (List Sent)) :
    ∃ docs, readAll c files = some docs ∧
      (docs.map (fun d => d.flatMap (·.sents))).filter (fun f => decide (f ≠ [])) = files.filter (fun f => decide (f ≠ [])) := by
  obtain ⟨docs, h1, _⟩ := C45_conserved_partial c hm files
  exact ⟨docs, h1, all_files c hk hs hm hg _ _ rfl (Or.inl rfl) (by simp) docs h1⟩

example : readAll { perDoc := 2 } [[rs 1 ['a'], rs 2 ['b'], rs 3 ['c']], [rs 4 ['d']]] =
    some [[⟨some ['a'], [rs 1 ['a']]⟩, ⟨some ['b'], [rs 2 ['b']]⟩], [⟨some ['c'], [rs 3 ['c']]⟩, ⟨some ['d'], [rs 4 ['d']]⟩]] ∧
    readAll {} [[rs 1 ['a'], rs 2 ['b']], [], [rs 4 ['d']]] =
    some [[⟨some ['a'], [rs 1 ['a']]⟩, ⟨some ['b'], [rs 2 ['b']]⟩], [⟨some ['d'], [rs 4 ['d']]⟩]] := by
  decide

/-! ## C73: empty documents -/

/-- Sentences without ids, for a reader of one zone only. -/
theorem file_plain (c : RConf) (hm : c.maxDocs = 0) (hs : c.splitDocs = false) (hz : c.multizone = false)
    (hk : c.perDoc ≠ 0) (ts : List Sent) : ∀ (as : List Sent) (s : Loop), (∀ t ∈ as, t.sentId = none) →
    as ≠ [] → s.doc.length + as.length = c.perDoc → s.buffer = none →
    ∃ s', readFile c s (as ++ ts) = (s', ts, true) ∧ s'.finished = s.finished ∧ s'.buffer = none := by
  intro as
  induction as with
  | nil => intro s _ h; exact absurd rfl h
  | cons a as ih =>
    intro s h1 _ h3 hb
    have hnone : bundleOf c a = none := by
      unfold bundleOf
      rw [h1 a (List.mem_cons_self ..)]
      simp
    obtain ⟨dl, e⟩ := readStep_none c hm hs s a hnone
    simp only [List.length_cons] at h3
    have hp : readStep c s a = (Loop.mk (s.doc ++ [⟨if s.lastId = [] then none else some s.lastId, [a]⟩])
        s.lastId (s.loaded + 1) dl s.buffer s.finished, decide (as = [])) := by
      rw [e]
      unfold place
      simp only
      rw [if_pos (Or.inr trivial), if_neg (by intro ⟨_, _, e⟩; omega)]
      simp only [List.length_append, List.length_singleton, hz, Prod.mk.injEq, true_and]
      rw [decide_eq_decide]
      constructor
      · rintro ⟨_, e, _⟩
        exact List.eq_nil_of_length_eq_zero (by omega)
      · rintro rfl
        exact ⟨hk, by simpa using h3.symm, trivial⟩
    rw [List.cons_append]
    unfold readFile
    rw [hp]
    cases as with
    | nil => exact ⟨_, rfl, rfl, hb⟩
    | cons a' as' =>
      simp only [reduceCtorEq, decide_false]
      obtain ⟨s', i1, i2, i3⟩ := ih (Loop.mk (s.doc ++ [⟨if s.lastId = [] then none else some s.lastId, [a]⟩])
        s.lastId (s.loaded + 1) dl s.buffer s.finished) (fun t ht => h1 t (List.mem_cons_of_mem _ ht)) (by simp)
        (by simp only [List.length_append, List.length_singleton]; omega) hb
      exact ⟨s', i1, i2, i3⟩

theorem all_plain (c : RConf) (hm : c.maxDocs = 0) (hs : c.splitDocs = false) (hz : c.multizone = false)
    (hk : c.perDoc ≠ 0) : ∀ (n : Nat) (ts : List Sent) (dl : Nat) (fuel : Nat), ts.length = n * c.perDoc →
    (∀ t ∈ ts, t.sentId = none) → ∀ docs, Reader.all c fuel ⟨some ts, [], none, false, dl⟩ = some docs →
    docs.length = n + 1 ∧ docs.getLast? = some [] := by
  intro n
  induction n with
  | zero =>
    intro ts dl fuel hl _ docs h
    have : ts = [] := List.eq_nil_of_length_eq_zero (by simpa using hl)
    subst this
    obtain ⟨fuel', rest, _, hd, hr⟩ := all_some h rfl
    have hp : Reader.process c ⟨some [], [], none, false, dl⟩ = (⟨some [], [], none, true, dl⟩, []) := rfl
    rw [hp] at hd hr
    have : rest = [] := by
      cases fuel' <;> (unfold Reader.all at hr; simp at hr; exact hr)
    subst this
    rw [hd]
    exact ⟨rfl, rfl⟩
  | succ n ih =>
    intro ts dl fuel hl hn docs h
    obtain ⟨fuel', rest, _, hd, hr⟩ := all_some h rfl
    have hge : c.perDoc ≤ ts.length := by rw [hl, Nat.succ_mul]; omega
    obtain ⟨s', e1, e2, e3⟩ := file_plain c hm hs hz hk (ts.drop c.perDoc) (ts.take c.perDoc) { docsLoaded := dl }
      (fun t ht => hn t (List.mem_of_mem_take ht))
      (by intro e; have := congrArg List.length e; simp only [List.length_take, List.length_nil] at this; omega)
      (by simp only [List.length_take, List.length_nil]; omega) rfl
    rw [List.take_append_drop] at e1
    have hp : Reader.process c ⟨some ts, [], none, false, dl⟩ =
        (⟨some (ts.drop c.perDoc), [], none, false, s'.docsLoaded⟩, s'.doc) := by
      unfold Reader.process startLoop readLoop
      simp only
      rw [e1]
      simp only at e2
      simp [e2, e3]
    rw [hp] at hd hr
    obtain ⟨i1, i2⟩ := ih (ts.drop c.perDoc) s'.docsLoaded fuel'
      (by rw [List.length_drop, hl, Nat.succ_mul]; omega) (fun t ht => hn t (List.mem_of_mem_drop ht)) rest hr
    rw [hd]
    refine ⟨by simp [i1], ?_⟩
    cases rest with
    | nil => simp at i1
    | cons x xs => rw [List.getLast?_cons_cons]; exact i2

/-- C73 is violated: a reader of one zone (e.g. `read.Sentences`) with `bundles_per_doc=k` gives an empty document at the
end of every file (without sentence ids) whose number of sentences is a multiple of `k`. -/
theorem C73_empty_violated (c : RConf) (hm : c.maxDocs = 0) (hs : c.splitDocs = false) (hz : c.multizone = false)
    (hk : c.perDoc ≠ 0) (n : Nat) (ts : List Sent) (hl : ts.length = (n + 1) * c.perDoc)
    (hn : ∀ t ∈ ts, t.sentId = none) :
    ∃ docs, readAll c [ts] = some docs ∧ docs.length = n + 2 ∧ docs.getLast? = some [] := by
  obtain ⟨docs, h1, _⟩ := C45_conserved_partial c hm [ts]
  have : Reader.all c ([ts].flatten.length + 1) ⟨some ts, [], none, false, 0⟩ = some docs := by
    rw [← h1]
    show Reader.all c ([ts].flatten.length + 1) ⟨some ts, [], none, false, 0⟩ =
      Reader.all c ([ts].flatten.length + 1) { files := [ts] }
    unfold Reader.all
    rfl
  obtain ⟨h2, h3⟩ := all_plain c hm hs hz hk (n + 1) ts 0 _ hl hn docs this
  exact ⟨docs, h1, h2, h3⟩

/-- With several zones, returning within a file leaves a sentence in the buffer. -/
theorem step_buffer (c : RConf) (hm : c.maxDocs = 0) (hz : c.multizone = true) (s : Loop) (t : Sent)
    (h : (readStep c s t).2 = true) : (readStep c s t).1.buffer ≠ none := by
  have hp : ∀ (s : Loop) (add : Bool), (place c s t add).2 = true → (place c s t add).1.buffer ≠ none := by
    intro s add
    unfold place
    split
    · split
      · simp
      · simp [hz]
    · simp [hz]
  have hn : ∀ (s : Loop) (add : Bool), (newdocThenPlace c s t add).2 = true → (newdocThenPlace c s t add).1.buffer ≠ none := by
    intro s add
    unfold newdocThenPlace
    split
    · rw [if_neg (by simp [hm])]
      split
      · simp
      · exact hp _ _
    · exact hp _ _
  revert h
  unfold readStep
  rw [if_neg (by simp [hm])]
  cases bundleOf c t with
  | some b => exact hn _ _
  | none => exact hn _ _

theorem file_buffer (c : RConf) (hm : c.maxDocs = 0) (hz : c.multizone = true) : ∀ (ts : List Sent) (s : Loop),
    (readFile c s ts).2.2 = true → (readFile c s ts).1.buffer ≠ none := by
  intro ts
  induction ts with
  | nil => intro s h; cases h
  | cons t ts ih =>
    intro s h
    have h1 := step_buffer c hm hz s t
    unfold readFile at h ⊢
    generalize readStep c s t = r at *
    obtain ⟨s', ret⟩ := r
    cases ret with
    | true => exact h1 rfl
    | false => exact ih s' h

theorem loop_buffer (c : RConf) (hm : c.maxDocs = 0) (hz : c.multizone = true) : ∀ (fs : List (List Sent))
    (ts : List Sent) (s : Loop), (∀ f ∈ fs, f ≠ []) → s.buffer = none →
    (readLoop c s ts fs).1.finished = true ∨ (readLoop c s ts fs).1.buffer ≠ none ∨ ((readLoop c s ts fs).2.2 ≠ [] ∧
      ∀ f ∈ (readLoop c s ts fs).2.2, f ≠ []) := by
  intro fs
  induction fs with
  | nil =>
    intro ts s _ _
    have h1 := file_buffer c hm hz ts s
    unfold readLoop
    generalize readFile c s ts = r at *
    obtain ⟨s', rest, ret⟩ := r
    cases ret with
    | true => exact Or.inr (Or.inl (h1 rfl))
    | false => exact Or.inl rfl
  | cons f fs ih =>
    intro ts s hf hb
    have h1 := file_buffer c hm hz ts s
    have h2 := readFile_ok c hm ts s hb
    unfold readLoop
    generalize readFile c s ts = r at *
    obtain ⟨s', rest, ret⟩ := r
    cases ret with
    | true => exact Or.inr (Or.inl (h1 rfl))
    | false =>
      simp only
      split
      · exact ih f s' (fun x hx => hf x (List.mem_cons_of_mem _ hx)) (h2.goOn rfl).1
      · exact Or.inr (Or.inr ⟨by simp, hf⟩)

theorem loop_files_sub (c : RConf) : ∀ (fs : List (List Sent)) (ts : List Sent) (s : Loop),
    ∀ f ∈ (readLoop c s ts fs).2.2, f ∈ fs := by
  intro fs
  induction fs with
  | nil =>
    intro ts s f hf
    unfold readLoop at hf
    generalize readFile c s ts = r at *
    obtain ⟨s', rest, ret⟩ := r
    cases ret <;> simp at hf
  | cons g fs ih =>
    intro ts s f hf
    unfold readLoop at hf
    generalize readFile c s ts = r at *
    obtain ⟨s', rest, ret⟩ := r
    cases ret with
    | true => exact hf
    | false =>
      simp only at hf
      split at hf
      · exact List.mem_cons_of_mem _ (ih g s' f hf)
      · exact hf

theorem all_nonempty (c : RConf) (hm : c.maxDocs = 0) (hz : c.multizone = true) : ∀ (fuel : Nat) (r : Reader),
    r.Ok → (r.finished = false → r.pending ≠ []) → (∀ f ∈ r.files, f ≠ []) →
    ∀ docs, r.all c fuel = some docs → ∀ d ∈ docs, d ≠ [] := by
  intro fuel
  induction fuel with
  | zero =>
    intro r _ _ _ docs h
    unfold Reader.all at h
    split at h <;> cases h
    simp
  | succ fuel ih =>
    intro r hok hp hf docs h
    by_cases hfin : r.finished = true
    · unfold Reader.all at h
      rw [if_pos hfin] at h; cases h; simp
    · have hfin : r.finished = false := by simpa using hfin
      obtain ⟨fuel', rest, e, hd, hr⟩ := all_some h hfin
      cases e
      obtain ⟨a1, a2, a3, a4, a5⟩ := process_ok c hm r hfin
      have hnd : (r.process c).2 ≠ [] := by
        intro e
        rcases a5 with h1 | h1
        · rw [a2 h1, e] at a1
          exact hp hfin (by simpa [sentsOf] using a1.symm)
        · exact h1 e
      have hnext : ((r.process c).1.finished = false → (r.process c).1.pending ≠ []) ∧
          (∀ f ∈ (r.process c).1.files, f ≠ []) := by
        obtain ⟨cur, files, buf, fin, dl⟩ := r
        simp only at hf
        obtain ⟨_, s2, _⟩ := startLoop_ok c ⟨cur, files, buf, fin, dl⟩
        generalize hs : startLoop c ⟨cur, files, buf, fin, dl⟩ = s at *
        have key : ∀ (ts : List Sent) (fs : List (List Sent)), (∀ f ∈ fs, f ≠ []) → ∀ r' : Reader,
            r' = ⟨some (readLoop c s ts fs).2.1, (readLoop c s ts fs).2.2, (readLoop c s ts fs).1.buffer,
              (readLoop c s ts fs).1.finished, (readLoop c s ts fs).1.docsLoaded⟩ →
            (r'.finished = false → r'.pending ≠ []) ∧ (∀ f ∈ r'.files, f ≠ []) := by
          intro ts fs hfs r' e
          subst e
          refine ⟨fun hf' => ?_, fun f hf' => hfs f (loop_files_sub c fs ts s f hf')⟩
          unfold Reader.pending
          rcases loop_buffer c hm hz fs ts s hfs s2 with h1 | h1 | ⟨h1, h2⟩
          · simp only at hf'; rw [h1] at hf'; cases hf'
          · intro e
            simp only at e
            cases hb : (readLoop c s ts fs).1.buffer with
            | none => exact h1 hb
            | some x => rw [hb] at e; simp at e
          · intro e
            simp only at e
            cases hb : (readLoop c s ts fs).2.2 with
            | nil => exact h1 hb
            | cons x xs =>
              rw [hb] at e h2
              have := h2 x (List.mem_cons_self ..)
              simp at e
              exact this e.2.2.1
        cases cur with
        | some cur =>
          apply key cur files hf
          unfold Reader.process
          simp only [hs]
        | none =>
          cases files with
          | nil =>
            unfold Reader.process
            simp
          | cons f fs =>
            apply key f fs (fun x hx => hf x (List.mem_cons_of_mem _ hx))
            unfold Reader.process
            simp only [hs]
      rw [hd]
      intro x hx
      rcases List.mem_cons.1 hx with e | e
      · rw [e]; exact hnd
      · exact ih _ a2 hnext.1 hnext.2 rest hr x e

/-- C73 (partial): a reader of several zones (e.g. `read.Conllu` reading sentence by sentence) gives no empty document if
there is a file and none of the files is empty. Missing: readers of one zone (`C73_empty_violated`). -/
theorem C73_nonempty_partial (c : RConf) (hm : c.maxDocs = 0) (hz : c.multizone = true) (files : List (List Sent))
    (hne : files ≠ []) (hf : ∀ f ∈ files, f ≠ []) : ∃ docs, readAll c files = some docs ∧ docs ≠ [] ∧ ∀ d ∈ docs, d ≠ [] := by
  obtain ⟨docs, h1, h2, _⟩ := C45_conserved_partial c hm files
  have hpend : files.flatten ≠ [] := by
    cases files with
    | nil => exact absurd rfl hne
    | cons f fs => intro e; rw [List.flatten_cons, List.append_eq_nil_iff] at e; exact hf f (List.mem_cons_self ..) e.1
  refine ⟨docs, h1, ?_, all_nonempty c hm hz _ _ (by intro h; cases h) (fun _ => by simpa [Reader.pending] using hpend) hf docs h1⟩
  intro e
  subst e
  exact hpend h2.symm

example : readAll { perDoc := 1, multizone := false } [[⟨1, none, false⟩, ⟨2, none, false⟩]] =
    some [[⟨none, [⟨1, none, false⟩]⟩], [⟨none, [⟨2, none, false⟩]⟩], []] ∧
    readAll { perDoc := 1 } [[⟨1, none, false⟩, ⟨2, none, false⟩]] =
    some [[⟨none, [⟨1, none, false⟩]⟩], [⟨none, [⟨2, none, false⟩]⟩]] := by
  decide

end Verif.Run
