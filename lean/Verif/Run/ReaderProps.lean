import Verif.Run.Reader

/-!
# Properties of reading documents in parts

Bundles, documents of the files, empty documents and sentence ids.
-/

namespace Verif.Run
open Verif.Py

/-- The bundle id in a sentence id: the part before the first slash. -/
def HasBundle (b : Str) (t : Sent) : Prop := ∃ s, t.sentId = some s ∧ (s = b ∨ ∃ z, s = b ++ '/' :: z) ∧ '/' ∉ b

theorem bundleOf_of_has {c : RConf} (hc : c.ignoreIds = false) {b : Str} {t : Sent} (h : HasBundle b t) :
    bundleOf c t = some b := by
  obtain ⟨s, h1, h2, h3⟩ := h
  unfold bundleOf
  rw [if_neg (by simp [hc]), h1, Option.map_some]
  rcases h2 with rfl | ⟨z, rfl⟩
  · rw [splitOnce_of_not_mem h3]
  · rw [splitOnce_append h3]

/-- A step without `max_docs` and `split_docs`, for a sentence of the bundle `b`. -/
theorem readStep_eq (c : RConf) (hm : c.maxDocs = 0) (hs : c.splitDocs = false) (s : Loop) (t : Sent) {b : Str}
    (hb : bundleOf c t = some b) : ∃ dl, readStep c s t =
      place c { s with lastId := b, loaded := s.loaded + 1, docsLoaded := dl } t (decide (b = s.lastId)) := by
  unfold readStep
  rw [if_neg (by simp [hm])]
  simp only [hb]
  unfold newdocThenPlace
  by_cases hn : t.newdoc = true
  · rw [if_pos hn, if_neg (by simp [hm]), if_neg (by simp [hs])]
    exact ⟨_, by simp [hn]; rfl⟩
  · rw [if_neg hn]
    have hn : t.newdoc = false := by simpa using hn
    by_cases hl : s.loaded = 0
    · exact ⟨_, by simp [hn, hl]; rfl⟩
    · exact ⟨_, by simp [hl]; rfl⟩

theorem readStep_none (c : RConf) (hm : c.maxDocs = 0) (hs : c.splitDocs = false) (s : Loop) (t : Sent)
    (hb : bundleOf c t = none) : ∃ dl, readStep c s t =
      place c { s with loaded := s.loaded + 1, docsLoaded := dl } t false := by
  unfold readStep
  rw [if_neg (by simp [hm])]
  simp only [hb]
  unfold newdocThenPlace
  by_cases hn : t.newdoc = true
  · rw [if_pos hn, if_neg (by simp [hm]), if_neg (by simp [hs])]
    exact ⟨_, by simp [hn]; rfl⟩
  · rw [if_neg hn]
    have hn : t.newdoc = false := by simpa using hn
    by_cases hl : s.loaded = 0
    · exact ⟨_, by simp [hn, hl]; rfl⟩
    · exact ⟨_, by simp [hl]; rfl⟩

/-! ## Bundles -/

/-- The bundles of a document are the maximal runs of sentences with the same bundle id. -/
def Grouped (d : List Group) : Prop :=
  (∀ g ∈ d, ∃ b, g.bundleId = some b ∧ g.sents ≠ [] ∧ ∀ t ∈ g.sents, HasBundle b t) ∧
  ∀ xs g h ys, d = xs ++ g :: h :: ys → g.bundleId ≠ h.bundleId

theorem addLast_append (t : Sent) (g : Group) : ∀ (xs : List Group),
    addLast t (xs ++ [g]) = xs ++ [{ g with sents := g.sents ++ [t] }]
  | [] => rfl
  | [x] => rfl
  | x :: y :: xs => by
    have := addLast_append t g (y :: xs)
    rw [List.cons_append, List.cons_append, addLast, ← List.cons_append, this]
    · rfl
    · simp

/-- The invariant of the loop. -/
def GroupInv (s : Loop) : Prop := Grouped s.doc ∧ (∀ g, s.doc.getLast? = some g → g.bundleId = some s.lastId)

theorem grouped_append {d : List Group} (hd : Grouped d) {b : Str} {t : Sent} (hb : HasBundle b t)
    (hlast : ∀ g, d.getLast? = some g → g.bundleId ≠ some b) : Grouped (d ++ [⟨some b, [t]⟩]) := by
  refine ⟨?_, ?_⟩
  · intro g hg
    rcases List.mem_append.1 hg with hg | hg
    · exact hd.1 g hg
    · rw [List.mem_singleton] at hg; subst hg
      exact ⟨b, rfl, by simp, by simpa using hb⟩
  · intro xs g h ys e
    rcases List.eq_nil_or_concat ys with rfl | ⟨zs, z, rfl⟩
    · have e' : d ++ [(⟨some b, [t]⟩ : Group)] = (xs ++ [g]) ++ [h] := by simpa using e
      obtain ⟨e1, e2⟩ := List.append_inj' e' rfl
      have e3 : h = ⟨some b, [t]⟩ := by simpa using e2.symm
      rw [e3]
      exact hlast g (by rw [e1]; simp)
    · have e' : d ++ [(⟨some b, [t]⟩ : Group)] = (xs ++ g :: h :: zs) ++ [z] := by rw [e]; simp
      obtain ⟨e1, _⟩ := List.append_inj' e' rfl
      exact hd.2 xs g h zs e1

theorem grouped_addLast {d : List Group} {g : Group} (hd : Grouped (d ++ [g])) {b : Str} {t : Sent} (hb : HasBundle b t)
    (hg : g.bundleId = some b) : Grouped (d ++ [{ g with sents := g.sents ++ [t] }]) := by
  refine ⟨?_, ?_⟩
  · intro x hx
    rcases List.mem_append.1 hx with hx | hx
    · exact hd.1 x (List.mem_append_left _ hx)
    · rw [List.mem_singleton] at hx; subst hx
      obtain ⟨b', h1, h2, h3⟩ := hd.1 g (List.mem_append_right _ (List.mem_singleton.2 rfl))
      rw [hg] at h1; cases h1
      refine ⟨b, hg, by simp, ?_⟩
      intro u hu
      rcases List.mem_append.1 hu with hu | hu
      · exact h3 u hu
      · rw [List.mem_singleton] at hu; subst hu; exact hb
  · intro xs x h ys e
    rcases List.eq_nil_or_concat ys with rfl | ⟨zs, z, rfl⟩
    · have e' : d ++ [{ g with sents := g.sents ++ [t] }] = (xs ++ [x]) ++ [h] := by simpa using e
      obtain ⟨e1, e2⟩ := List.append_inj' e' rfl
      have e3 : h = { g with sents := g.sents ++ [t] } := by simpa using e2.symm
      rw [e3]
      exact hd.2 xs x g [] (by rw [e1]; simp)
    · have e' : d ++ [{ g with sents := g.sents ++ [t] }] = (xs ++ x :: h :: zs) ++ [z] := by rw [e]; simp
      obtain ⟨e1, _⟩ := List.append_inj' e' rfl
      exact hd.2 xs x h (zs ++ [g]) (by rw [e1]; simp)

/-- No `bundles_per_doc`, `split_docs`, `max_docs`, `ignore_sent_id`. -/
structure Plain (c : RConf) : Prop where
  perDoc : c.perDoc = 0
  splitDocs : c.splitDocs = false
  maxDocs : c.maxDocs = 0
  ids : c.ignoreIds = false

theorem readStep_grouped {c : RConf} (hc : Plain c) {s : Loop} (hs : GroupInv s) {t : Sent} {b : Str} (hne : b ≠ [])
    (hb : HasBundle b t) : GroupInv (readStep c s t).1 ∧ (readStep c s t).2 = false ∧
      (readStep c s t).1.buffer = s.buffer ∧ (readStep c s t).1.loaded = s.loaded + 1 := by
  obtain ⟨dl, e⟩ := readStep_eq c hc.3 hc.2 s t (bundleOf_of_has hc.4 hb)
  rw [e]
  unfold place
  simp only [hc.1, ne_eq, not_true_eq_false, false_and, if_false, decide_false]
  by_cases h : s.doc = [] ∨ decide (b = s.lastId) = false
  · rw [if_pos h]
    refine ⟨⟨?_, ?_⟩, rfl, rfl, rfl⟩
    · simp only [if_neg hne]
      apply grouped_append hs.1 hb
      intro g hg hg'
      rw [hs.2 g hg] at hg'
      rcases h with h | h
      · rw [h] at hg; cases hg
      · have : ¬ b = s.lastId := by simpa using h
        exact this (by cases hg'; rfl)
    · intro g hg
      simp only [List.getLast?_append, List.getLast?_singleton, Option.some_or, Option.some.injEq] at hg
      rw [← hg]
      simp [hne]
  · rw [if_neg h]
    have h1 : s.doc ≠ [] := fun e => h (Or.inl e)
    have h2 : b = s.lastId := by
      have : ¬ decide (b = s.lastId) = false := fun e => h (Or.inr e)
      simpa using this
    rcases List.eq_nil_or_concat s.doc with e0 | ⟨d, g, e0⟩
    · exact absurd e0 h1
    · have hlast : g.bundleId = some b := by
        rw [h2]; apply hs.2; rw [e0]; simp
      have hgr : Grouped (d ++ [g]) := by
        have := hs.1; rwa [e0, List.concat_eq_append] at this
      rw [List.concat_eq_append] at e0
      refine ⟨⟨?_, ?_⟩, rfl, rfl, rfl⟩
      · simp only [e0, addLast_append]
        exact grouped_addLast hgr hb hlast
      · intro x hx
        simp only [e0, addLast_append, List.getLast?_append, List.getLast?_singleton, Option.some_or,
          Option.some.injEq] at hx
        rw [← hx]; exact hlast

theorem readFile_grouped {c : RConf} (hc : Plain c) : ∀ (ts : List Sent) (s : Loop), GroupInv s →
    (∀ t ∈ ts, ∃ b, b ≠ [] ∧ HasBundle b t) → GroupInv (readFile c s ts).1 ∧ (readFile c s ts).2.2 = false ∧
      (readFile c s ts).1.buffer = s.buffer ∧ (readFile c s ts).1.loaded = s.loaded + ts.length ∧
      (readFile c s ts).2.1 = [] := by
  intro ts
  induction ts with
  | nil => intro s hs _; exact ⟨hs, rfl, rfl, rfl, rfl⟩
  | cons t ts ih =>
    intro s hs h
    obtain ⟨b, hne, hb⟩ := h t (List.mem_cons_self ..)
    obtain ⟨a1, a2, a3, a4⟩ := readStep_grouped hc hs hne hb
    unfold readFile
    generalize readStep c s t = r at *
    obtain ⟨s', ret⟩ := r
    simp only at a1 a2 a3 a4
    subst a2
    simp only
    obtain ⟨b1, b2, b3, b4, b5⟩ := ih s' a1 (fun u hu => h u (List.mem_cons_of_mem _ hu))
    exact ⟨b1, b2, b3.trans a3, by rw [b4, a4, List.length_cons]; omega, b5⟩

theorem readLoop_grouped {c : RConf} (hc : Plain c) : ∀ (fs : List (List Sent)) (cur : List Sent) (s : Loop), GroupInv s →
    (∀ t ∈ cur, ∃ b, b ≠ [] ∧ HasBundle b t) → (∀ f ∈ fs, ∀ t ∈ f, ∃ b, b ≠ [] ∧ HasBundle b t) →
    Grouped (readLoop c s cur fs).1.doc ∧ (readLoop c s cur fs).1.buffer = s.buffer ∧
      (readLoop c s cur fs).2.1 = [] ∧ ∀ f ∈ (readLoop c s cur fs).2.2, f ∈ fs := by
  intro fs
  induction fs with
  | nil =>
    intro cur s hs h _
    obtain ⟨a1, a2, a3, _, a5⟩ := readFile_grouped hc cur s hs h
    unfold readLoop
    generalize readFile c s cur = r at *
    obtain ⟨s', rest, ret⟩ := r
    simp only at a1 a2 a3 a5
    subst a2
    exact ⟨a1.1, a3, a5, by simp⟩
  | cons f fs ih =>
    intro cur s hs h h'
    obtain ⟨a1, a2, a3, _, a5⟩ := readFile_grouped hc cur s hs h
    unfold readLoop
    generalize readFile c s cur = r at *
    obtain ⟨s', rest, ret⟩ := r
    simp only at a1 a2 a3 a5
    subst a2
    simp only
    split
    · obtain ⟨b1, b2, b3, b4⟩ := ih f s' a1 (h' f (List.mem_cons_self ..)) (fun x hx => h' x (List.mem_cons_of_mem _ hx))
      exact ⟨b1, b2.trans a3, b3, fun x hx => List.mem_cons_of_mem _ (b4 x hx)⟩
    · exact ⟨a1.1, a3, a5, fun x hx => hx⟩

theorem groupInv_nil (dl : Nat) (fin : Bool) : GroupInv { docsLoaded := dl, finished := fin } :=
  ⟨⟨by simp, by intro xs g h ys e; cases xs <;> simp at e⟩, by simp⟩

theorem process_grouped {c : RConf} (hc : Plain c) (r : Reader) (hb : r.buffer = none)
    (hcur : ∀ ts, r.current = some ts → ts = []) (hfs : ∀ f ∈ r.files, ∀ t ∈ f, ∃ b, b ≠ [] ∧ HasBundle b t) :
    Grouped (r.process c).2 ∧ (r.process c).1.buffer = none ∧ (∀ ts, (r.process c).1.current = some ts → ts = []) ∧
      (∀ f ∈ (r.process c).1.files, f ∈ r.files) := by
  obtain ⟨cur, files, buf, fin, dl⟩ := r
  simp only at hb hcur hfs
  subst hb
  have hg := groupInv_nil dl fin
  cases cur with
  | none =>
    cases files with
    | nil => exact ⟨hg.1, rfl, by simp [Reader.process], by simp [Reader.process]⟩
    | cons f fs =>
      obtain ⟨a1, a2, a3, a4⟩ := readLoop_grouped hc fs f _ hg (hfs f (List.mem_cons_self ..))
        (fun x hx => hfs x (List.mem_cons_of_mem _ hx))
      exact ⟨a1, a2, fun ts e => by cases e; exact a3, fun x hx => List.mem_cons_of_mem _ (a4 x hx)⟩
  | some ts =>
    have := hcur ts rfl
    subst this
    obtain ⟨a1, a2, a3, a4⟩ := readLoop_grouped hc files [] _ hg (by simp) hfs
    exact ⟨a1, a2, fun ts e => by cases e; exact a3, fun x hx => a4 x hx⟩

theorem all_grouped {c : RConf} (hc : Plain c) : ∀ (fuel : Nat) (r : Reader), r.buffer = none →
    (∀ ts, r.current = some ts → ts = []) → (∀ f ∈ r.files, ∀ t ∈ f, ∃ b, b ≠ [] ∧ HasBundle b t) →
    ∀ docs, r.all c fuel = some docs → ∀ d ∈ docs, Grouped d := by
  intro fuel
  induction fuel with
  | zero =>
    intro r _ _ _ docs h
    unfold Reader.all at h
    split at h <;> cases h
    simp
  | succ fuel ih =>
    intro r hb hcur hfs docs h
    unfold Reader.all at h
    split at h
    · cases h; simp
    · obtain ⟨a1, a2, a3, a4⟩ := process_grouped hc r hb hcur hfs
      generalize r.process c = q at *
      obtain ⟨r', d⟩ := q
      simp only at a1 a2 a3 a4 h
      cases hr : r'.all c fuel with
      | none => rw [hr] at h; cases h
      | some ds =>
        rw [hr] at h; cases h
        intro x hx
        rcases List.mem_cons.1 hx with e | e
        · subst e; exact a1
        · exact ih r' a2 a3 (fun f hf => hfs f (a4 f hf)) ds hr x e

/-- C45 (partial): without `bundles_per_doc` (and `split_docs`, `max_docs`, `ignore_sent_id`), if all sentences have an id,
the bundles of every document are exactly the maximal runs of sentences with the same bundle id.
Missing: `bundles_per_doc`, for which it is false (`C45_bundle_violated`). -/
theorem C45_bundles_partial (c : RConf) (hc : Plain c) (files : List (List Sent))
    (hf : ∀ f ∈ files, ∀ t ∈ f, ∃ b, b ≠ [] ∧ HasBundle b t) :
    ∃ docs, readAll c files = some docs ∧ docs.flatMap (fun d => d.flatMap (·.sents)) = files.flatten ∧
      ∀ d ∈ docs, Grouped d := by
  obtain ⟨docs, h1, h2, _⟩ := C45_conserved_partial c hc.3 files
  exact ⟨docs, h1, h2, all_grouped hc _ _ rfl (by simp) hf docs h1⟩

example : readAll {} [[rs 1 ['a', '/', 'x'], rs 2 ['a', '/', 'y'], rs 3 ['b']]] =
    some [[⟨some ['a'], [rs 1 ['a', '/', 'x'], rs 2 ['a', '/', 'y']]⟩, ⟨some ['b'], [rs 3 ['b']]⟩]] := by
  decide

/-! ## The sentence in the buffer -/

/-- Sentences of different bundles, read one after the other while there is room. -/
theorem readFile_run (c : RConf) (hm : c.maxDocs = 0) (hs : c.splitDocs = false) (hi : c.ignoreIds = false)
    (hz : c.multizone = true) (ts : List Sent) : ∀ (as : List (Str × Sent)) (s : Loop), s.buffer = none →
    (∀ p ∈ as, p.1 ≠ [] ∧ HasBundle p.1 p.2) →
    (∀ p q xs ys, as = xs ++ p :: q :: ys → p.1 ≠ q.1) → (∀ p, as.head? = some p → s.doc = [] ∨ p.1 ≠ s.lastId) →
    s.doc.length + as.length ≤ c.perDoc →
    ∃ s', readFile c s (as.map (·.2) ++ ts) = readFile c s' ts ∧
      s'.doc = s.doc ++ as.map (fun p => ⟨some p.1, [p.2]⟩) ∧ s'.buffer = none ∧ s'.finished = s.finished ∧
      s'.lastId = (as.getLast?.map (·.1)).getD s.lastId ∧ s'.loaded = s.loaded + as.length := by
  intro as
  induction as with
  | nil => intro s hb _ _ _ _; exact ⟨s, rfl, by simp, hb, rfl, rfl, rfl⟩
  | cons a as ih =>
    intro s hb h1 h2 h3 h4
    obtain ⟨b, t⟩ := a
    have hbt := h1 (b, t) (List.mem_cons_self ..)
    simp only at hbt
    obtain ⟨dl, e⟩ := readStep_eq c hm hs s t (bundleOf_of_has hi hbt.2)
    have hcond : s.doc = [] ∨ decide (b = s.lastId) = false := by
      rcases h3 (b, t) rfl with h | h
      · exact Or.inl h
      · exact Or.inr (by simpa using h)
    simp only [List.length_cons] at h4
    have hp : readStep c s t = ({ s with lastId := b, loaded := s.loaded + 1, docsLoaded := dl, doc := s.doc ++ [⟨some b, [t]⟩] }, false) := by
      rw [e]
      unfold place
      simp only
      rw [if_pos hcond, if_neg (by intro ⟨_, _, e⟩; omega)]
      simp [hbt.1, hz]
    rw [List.map_cons, List.cons_append]
    obtain ⟨s', i1, i2, i3, i4, i5, i6⟩ := ih { s with lastId := b, loaded := s.loaded + 1, docsLoaded := dl, doc := s.doc ++ [⟨some b, [t]⟩] } hb
      (fun p hp => h1 p (List.mem_cons_of_mem _ hp))
      (fun p q xs ys e => h2 p q ((b, t) :: xs) ys (by rw [e]; rfl))
      (fun p hp => Or.inr (by
        cases as with
        | nil => cases hp
        | cons a' as' =>
          have e' : a' = p := by simpa using hp
          rw [← e']
          exact fun e => h2 (b, t) a' [] as' rfl e.symm))
      (by simp only [List.length_append, List.length_singleton]; omega)
    refine ⟨s', ?_, ?_, i3, i4, ?_, ?_⟩
    · rw [← i1]
      conv => lhs; unfold readFile; rw [hp]
    · rw [i2]; simp
    · rw [i5]
      cases as with
      | nil => rfl
      | cons a as =>
        rw [List.getLast?_cons_cons, List.getLast?_eq_some_getLast (l := a :: as) (by simp)]
        rfl
    · rw [i6]; simp only [List.length_cons]; omega

theorem head_place (c : RConf) (s : Loop) (g h : Group) (gs : List Group) (hd : s.doc = g :: h :: gs) (t : Sent) (add : Bool) :
    ∃ h' gs', (place c s t add).1.doc = g :: h' :: gs' := by
  unfold place
  split
  · split
    · exact ⟨h, gs, hd⟩
    · rw [hd]; exact ⟨h, gs ++ [_], rfl⟩
  · simp only [hd, addLast]
    have hl := length_addLast t (h :: gs)
    cases ha : addLast t (h :: gs) with
    | nil => rw [ha] at hl; simp at hl
    | cons x xs => exact ⟨x, xs, rfl⟩

theorem head_step (c : RConf) (hm : c.maxDocs = 0) (hs : c.splitDocs = false) (s : Loop) (g h : Group) (gs : List Group)
    (hd : s.doc = g :: h :: gs) (t : Sent) : ∃ h' gs', (readStep c s t).1.doc = g :: h' :: gs' := by
  cases hb : bundleOf c t with
  | some b =>
    obtain ⟨dl, e⟩ := readStep_eq c hm hs s t hb
    rw [e]; exact head_place c { s with lastId := b, loaded := s.loaded + 1, docsLoaded := dl } g h gs hd t _
  | none =>
    obtain ⟨dl, e⟩ := readStep_none c hm hs s t hb
    rw [e]; exact head_place c { s with loaded := s.loaded + 1, docsLoaded := dl } g h gs hd t _

theorem head_file (c : RConf) (hm : c.maxDocs = 0) (hs : c.splitDocs = false) (g : Group) : ∀ (ts : List Sent) (s : Loop)
    (h : Group) (gs : List Group), s.doc = g :: h :: gs → ∃ h' gs', (readFile c s ts).1.doc = g :: h' :: gs' := by
  intro ts
  induction ts with
  | nil => intro s h gs hd; exact ⟨h, gs, hd⟩
  | cons t ts ih =>
    intro s h gs hd
    obtain ⟨h', gs', hd'⟩ := head_step c hm hs s g h gs hd t
    unfold readFile
    generalize readStep c s t = r at *
    obtain ⟨s', ret⟩ := r
    cases ret with
    | true => exact ⟨h', gs', hd'⟩
    | false => exact ih s' h' gs' hd'

theorem head_loop (c : RConf) (hm : c.maxDocs = 0) (hs : c.splitDocs = false) (g : Group) : ∀ (fs : List (List Sent))
    (ts : List Sent) (s : Loop) (h : Group) (gs : List Group), s.doc = g :: h :: gs →
    ∃ h' gs', (readLoop c s ts fs).1.doc = g :: h' :: gs' := by
  intro fs
  induction fs with
  | nil =>
    intro ts s h gs hd
    obtain ⟨h', gs', hd'⟩ := head_file c hm hs g ts s h gs hd
    unfold readLoop
    generalize readFile c s ts = r at *
    obtain ⟨s', rest, ret⟩ := r
    cases ret <;> exact ⟨h', gs', hd'⟩
  | cons f fs ih =>
    intro ts s h gs hd
    obtain ⟨h', gs', hd'⟩ := head_file c hm hs g ts s h gs hd
    unfold readLoop
    generalize readFile c s ts = r at *
    obtain ⟨s', rest, ret⟩ := r
    cases ret with
    | true => exact ⟨h', gs', hd'⟩
    | false =>
      simp only
      split
      · exact ih f s' h' gs' hd'
      · exact ⟨h', gs', hd'⟩

theorem all_some {c : RConf} {fuel : Nat} {r : Reader} {docs : List (List Group)} (h : r.all c fuel = some docs)
    (hf : r.finished = false) : ∃ fuel' rest, fuel = fuel' + 1 ∧ docs = (r.process c).2 :: rest ∧
      (r.process c).1.all c fuel' = some rest := by
  cases fuel with
  | zero => unfold Reader.all at h; rw [if_neg (by simp [hf])] at h; cases h
  | succ fuel =>
    unfold Reader.all at h
    rw [if_neg (by simp [hf])] at h
    simp only at h
    cases hr : (r.process c).1.all c fuel with
    | none => rw [hr] at h; cases h
    | some rest => rw [hr] at h; cases h; exact ⟨fuel, rest, rfl, rfl, hr⟩

/-- The first document: `k` bundles, and the next sentence is left in the buffer. -/
theorem first_doc (c : RConf) (hm : c.maxDocs = 0) (hs : c.splitDocs = false) (hi : c.ignoreIds = false)
    (hz : c.multizone = true) (hk : c.perDoc ≠ 0) (as : List (Str × Sent)) (hl : as.length = c.perDoc)
    (h1 : ∀ p ∈ as, p.1 ≠ [] ∧ HasBundle p.1 p.2) (h2 : ∀ p q xs ys, as = xs ++ p :: q :: ys → p.1 ≠ q.1)
    (t : Sent) (b : Str) (hb : HasBundle b t)
    (hnew : ∀ p, as.getLast? = some p → p.1 ≠ b) (rest : List Sent) (fs : List (List Sent)) :
    ∃ dl, ({ files := (as.map (·.2) ++ t :: rest) :: fs } : Reader).process c =
      (⟨some rest, fs, some t, false, dl⟩, as.map (fun p => ⟨some p.1, [p.2]⟩)) := by
  obtain ⟨s', i1, i2, i3, i4, i5, _⟩ := readFile_run c hm hs hi hz (t :: rest) as {} rfl h1 h2 (fun _ _ => Or.inl rfl)
    (by simp [hl])
  have hdoc : s'.doc = as.map (fun p => ⟨some p.1, [p.2]⟩) := by rw [i2]; rfl
  have hlen : s'.doc.length = c.perDoc := by rw [hdoc, List.length_map, hl]
  have hbl : b ≠ s'.lastId := by
    rw [i5]
    cases hg : as.getLast? with
    | none =>
      rw [List.getLast?_eq_none_iff] at hg
      subst hg
      exact absurd hl.symm hk
    | some p => exact fun e => hnew p hg (by simpa using e.symm)
  obtain ⟨dl, e⟩ := readStep_eq c hm hs s' t (bundleOf_of_has hi hb)
  have hstep : readStep c s' t = ({ s' with lastId := b, loaded := s'.loaded + 1, docsLoaded := dl, buffer := some t }, true) := by
    rw [e]
    unfold place
    simp only
    rw [if_pos (Or.inr (by simpa using hbl)), if_pos ⟨hk, fun e => hk (by rw [e] at hlen; simpa using hlen.symm), hlen.symm⟩]
  have hfile : readFile c {} (as.map (·.2) ++ t :: rest) =
      ({ s' with lastId := b, loaded := s'.loaded + 1, docsLoaded := dl, buffer := some t }, rest, true) := by
    rw [i1]
    conv => lhs; unfold readFile; rw [hstep]
  refine ⟨dl, ?_⟩
  unfold Reader.process startLoop
  simp only
  have hloop : readLoop c ({ docsLoaded := 0, finished := false } : Loop) (as.map (·.2) ++ t :: rest) fs =
      ({ s' with lastId := b, loaded := s'.loaded + 1, docsLoaded := dl, buffer := some t }, rest, fs) := by
    cases fs <;> (unfold readLoop; rw [hfile])
  rw [hloop]
  simp [hdoc, i4]

/-- C45 is violated: for every `bundles_per_doc=k` and every file in which a bundle with the two sentences `t` and `u` comes
after `k` other bundles, the second document starts with a bundle that contains `t` only. -/
theorem C45_bundle_violated (c : RConf) (hm : c.maxDocs = 0) (hs : c.splitDocs = false) (hi : c.ignoreIds = false)
    (hz : c.multizone = true) (hk : c.perDoc ≠ 0) (as : List (Str × Sent)) (hl : as.length = c.perDoc)
    (h1 : ∀ p ∈ as, p.1 ≠ [] ∧ HasBundle p.1 p.2) (h2 : ∀ p q xs ys, as = xs ++ p :: q :: ys → p.1 ≠ q.1)
    (t u : Sent) (b : Str) (hne : b ≠ []) (ht : HasBundle b t) (hu : HasBundle b u)
    (hnew : ∀ p, as.getLast? = some p → p.1 ≠ b) (rest : List Sent) (fs : List (List Sent)) :
    ∃ docs d gs, readAll c ((as.map (·.2) ++ t :: u :: rest) :: fs) = some docs ∧ docs[1]? = some d ∧
      d = ⟨some b, [t]⟩ :: gs := by
  obtain ⟨docs, e, _⟩ := C45_conserved_partial c hm ((as.map (·.2) ++ t :: u :: rest) :: fs)
  obtain ⟨dl, e1⟩ := first_doc c hm hs hi hz hk as hl h1 h2 t b ht hnew (u :: rest) fs
  obtain ⟨fuel, docs', _, hd, e2⟩ := all_some e rfl
  rw [e1] at e2 hd
  obtain ⟨fuel', docs'', _, hd', _⟩ := all_some e2 rfl
  have hbuf : bufferedId c t = some b := by unfold bufferedId; rw [bundleOf_of_has hi ht]
  obtain ⟨dl', estep⟩ := readStep_eq c hm hs (startLoop c ⟨some (u :: rest), fs, some t, false, dl⟩) u (bundleOf_of_has hi hu)
  have hadd : decide (b = (startLoop c ⟨some (u :: rest), fs, some t, false, dl⟩).lastId) = false := by
    exact decide_eq_false (by simpa [startLoop] using hne)
  rw [hadd] at estep
  have hsecond : ∃ gs, (readLoop c (startLoop c ⟨some (u :: rest), fs, some t, false, dl⟩) (u :: rest) fs).1.doc =
      ⟨some b, [t]⟩ :: gs := by
    by_cases h1' : c.perDoc = 1
    · have hst : ∃ s, readStep c (startLoop c ⟨some (u :: rest), fs, some t, false, dl⟩) u = (s, true) ∧
          s.doc = [⟨some b, [t]⟩] := by
        have : (readStep c (startLoop c ⟨some (u :: rest), fs, some t, false, dl⟩) u).2 = true ∧
            (readStep c (startLoop c ⟨some (u :: rest), fs, some t, false, dl⟩) u).1.doc = [⟨some b, [t]⟩] := by
          rw [estep]
          unfold place
          simp only [startLoop, hbuf]
          rw [if_pos (Or.inr trivial), if_pos ⟨hk, by simp, by simpa using h1'⟩]
          exact ⟨rfl, rfl⟩
        exact ⟨_, Prod.ext rfl this.1, this.2⟩
      obtain ⟨s, hst, hsd⟩ := hst
      have hfile : readFile c (startLoop c ⟨some (u :: rest), fs, some t, false, dl⟩) (u :: rest) = (s, rest, true) := by
        unfold readFile; rw [hst]
      refine ⟨[], ?_⟩
      cases fs <;> (unfold readLoop; rw [hfile]; exact hsd)
    · have hst : ∃ s, readStep c (startLoop c ⟨some (u :: rest), fs, some t, false, dl⟩) u = (s, false) ∧
          s.doc = ⟨some b, [t]⟩ :: ⟨some b, [u]⟩ :: [] := by
        have : (readStep c (startLoop c ⟨some (u :: rest), fs, some t, false, dl⟩) u).2 = false ∧
            (readStep c (startLoop c ⟨some (u :: rest), fs, some t, false, dl⟩) u).1.doc =
              ⟨some b, [t]⟩ :: ⟨some b, [u]⟩ :: [] := by
          rw [estep]
          unfold place
          simp only [startLoop, hbuf]
          rw [if_pos (Or.inr trivial), if_neg (by intro ⟨_, _, e⟩; exact h1' (by simpa using e))]
          simp [hne, hz]
        exact ⟨_, Prod.ext rfl this.1, this.2⟩
      obtain ⟨s, hst, hsd⟩ := hst
      have hfile : readFile c (startLoop c ⟨some (u :: rest), fs, some t, false, dl⟩) (u :: rest) = readFile c s rest := by
        conv => lhs; unfold readFile
        rw [hst]
      have hloop : readLoop c (startLoop c ⟨some (u :: rest), fs, some t, false, dl⟩) (u :: rest) fs = readLoop c s rest fs := by
        cases fs <;> (conv => lhs; unfold readLoop; rw [hfile]) <;> (conv => rhs; unfold readLoop)
      rw [hloop]
      obtain ⟨h', gs', hh⟩ := head_loop c hm hs ⟨some b, [t]⟩ fs rest s _ _ hsd
      exact ⟨_, hh⟩
  obtain ⟨gs, hgs⟩ := hsecond
  refine ⟨docs, _, gs, e, ?_, hgs⟩
  rw [hd, hd']
  rfl

example : readAll { perDoc := 1 } [[rs 1 ['a'], rs 2 ['b', '/', 'x'], rs 3 ['b', '/', 'y']]] =
    some [[⟨some ['a'], [rs 1 ['a']]⟩], [⟨some ['b'], [rs 2 ['b', '/', 'x']]⟩], [⟨some ['b'], [rs 3 ['b', '/', 'y']]⟩]] := by
  decide

end Verif.Run
