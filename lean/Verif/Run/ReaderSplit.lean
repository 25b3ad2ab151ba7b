import Verif.Run.ReaderMax

/-!
# `split_docs` and `sent_id_filter` (udapi/core/basereader.py:91-113, 176-300)
-/

namespace Verif.Run
open Verif.Py

/-! ## The documents of a file -/

/-- The parts of a list that start before each `newdoc`. -/
def docsOf : List Sent → List (List Sent)
  | [] => []
  | t :: ts =>
    match docsOf ts with
    | [] => [[t]]
    | [] :: ds => [t] :: ds
    | (u :: d) :: ds => if u.newdoc then [t] :: (u :: d) :: ds else (t :: u :: d) :: ds

/-- `docsOf` is the only division into lists that start with `newdoc` (but for the first one) and have none inside. -/
theorem docsOf_eq : ∀ (ds : List (List Sent)), (∀ d ∈ ds, ∃ t r, d = t :: r ∧ ∀ x ∈ r, x.newdoc = false) →
    (∀ d ∈ ds.tail, ∀ t, d.head? = some t → t.newdoc = true) → docsOf ds.flatten = ds
  | [], _, _ => rfl
  | d :: ds, h, h' => by
    have ih := docsOf_eq ds (fun x hx => h x (List.mem_cons_of_mem _ hx)) (fun x hx => h' x (List.mem_of_mem_tail hx))
    obtain ⟨t, r, rfl, hr⟩ := h d (List.mem_cons_self ..)
    rw [List.flatten_cons]
    have hne : ∀ e ∈ ds, e ≠ [] := fun e he hx => by
      obtain ⟨_, _, e', _⟩ := h e (List.mem_cons_of_mem _ he)
      rw [hx] at e'
      cases e'
    clear h
    induction r generalizing t with
    | nil =>
      rw [List.cons_append, List.nil_append, docsOf, ih]
      cases ds with
      | nil => rfl
      | cons e ds =>
        cases e with
        | nil => exact absurd rfl (hne [] (List.mem_cons_self ..))
        | cons u e =>
          have := h' (u :: e) (List.mem_cons_self ..) u rfl
          simp [this]
    | cons u r ihr =>
      have := ihr u (fun x hx => hr x (List.mem_cons_of_mem _ hx)) h'
      rw [List.cons_append, docsOf, this]
      simp [hr u (List.mem_cons_self ..)]

theorem docsOf_cons {t : Sent} {a b : List Sent} (ha : ∀ x ∈ a, x.newdoc = false) (hb : ∀ x, b.head? = some x → x.newdoc = true) :
    docsOf (t :: (a ++ b)) = (t :: a) :: docsOf b := by
  induction a generalizing t with
  | nil =>
    rw [List.nil_append, docsOf]
    cases b with
    | nil => rfl
    | cons u b =>
      have hu := hb u rfl
      have : ∃ d ds, docsOf (u :: b) = (u :: d) :: ds := by
        rw [docsOf]
        split
        · exact ⟨_, _, rfl⟩
        · exact ⟨_, _, rfl⟩
        · split
          · exact ⟨_, _, rfl⟩
          · exact ⟨_, _, rfl⟩
      obtain ⟨d, ds, e⟩ := this
      rw [e]
      simp [hu]
  | cons u a ih =>
    have := ih (t := u) (fun x hx => ha x (List.mem_cons_of_mem _ hx))
    rw [List.cons_append, docsOf, this]
    simp [ha u (List.mem_cons_self ..)]

/-! ## Reading with `split_docs` -/

/-- `split_docs` without other limits. -/
structure Splits (c : RConf) : Prop where
  split : c.splitDocs = true
  perDoc : c.perDoc = 0
  maxDocs : c.maxDocs = 0

theorem split_inner {c : RConf} (hc : Splits c) (s : Loop) (t : Sent) (h : s.doc = [] ∨ t.newdoc = false) :
    ∃ s', readStep c s t = (s', false) ∧ sentsOf s'.doc = sentsOf s.doc ++ [t] ∧ s'.doc ≠ [] ∧ s'.buffer = s.buffer ∧
      s'.finished = s.finished ∧ s'.loaded = s.loaded + 1 := by
  unfold readStep
  rw [if_neg (by rintro ⟨_, _, h, _⟩; exact h hc.maxDocs)]
  have main : ∀ (s1 : Loop) (add : Bool), s1.doc = s.doc → s1.buffer = s.buffer → s1.finished = s.finished → s1.loaded = s.loaded + 1 →
      ∃ s', newdocThenPlace c s1 t add = (s', false) ∧ sentsOf s'.doc = sentsOf s.doc ++ [t] ∧ s'.doc ≠ [] ∧ s'.buffer = s.buffer ∧
        s'.finished = s.finished ∧ s'.loaded = s.loaded + 1 := by
    intro s1 add h1 h4 h5 h6
    unfold newdocThenPlace
    split
    · next ht =>
      rw [if_neg (fun hx => hx.1 hc.maxDocs), if_neg (fun hx => by
        rcases h with h | h
        · exact hx.1 (h1.trans h)
        · rw [h] at ht; cases ht)]
      obtain ⟨doc', e, e1, e2⟩ := place_all c hc.perDoc { s1 with docsLoaded := s1.docsLoaded + 1 } t add
      exact ⟨_, e, by rw [← h1]; exact e1, e2, h4, h5, h6⟩
    · obtain ⟨doc', e, e1, e2⟩ := place_all c hc.perDoc s1 t add
      exact ⟨_, e, by rw [← h1]; exact e1, e2, h4, h5, h6⟩
  cases bundleOf c t with
  | some b => exact main _ _ (by split <;> rfl) (by split <;> rfl) (by split <;> rfl) (by split <;> rfl)
  | none => exact main _ _ (by split <;> rfl) (by split <;> rfl) (by split <;> rfl) (by split <;> rfl)

theorem split_new {c : RConf} (hc : Splits c) (s : Loop) (t : Sent) (hd : s.doc ≠ []) (ht : t.newdoc = true) :
    ∃ s', readStep c s t = (s', true) ∧ s'.doc = s.doc ∧ s'.buffer = some t ∧ s'.finished = false := by
  unfold readStep
  rw [if_neg (by rintro ⟨_, _, h, _⟩; exact h hc.maxDocs)]
  cases bundleOf c t with
  | some b =>
    simp only [ht, newdocThenPlace, if_true, Bool.true_eq_false, and_false, if_false]
    rw [if_neg (fun hx => hx.1 hc.maxDocs), if_pos ⟨hd, hc.split⟩]
    exact ⟨_, rfl, rfl, rfl, rfl⟩
  | none =>
    simp only [ht, newdocThenPlace, if_true, Bool.true_eq_false, and_false, if_false]
    rw [if_neg (fun hx => hx.1 hc.maxDocs), if_pos ⟨hd, hc.split⟩]
    exact ⟨_, rfl, rfl, rfl, rfl⟩

/-- Sentences without `newdoc` are added to the document. -/
theorem split_file {c : RConf} (hc : Splits c) : ∀ (a b : List Sent) (s : Loop), s.doc ≠ [] → (∀ x ∈ a, x.newdoc = false) →
    ∃ s', readFile c s (a ++ b) = readFile c s' b ∧ sentsOf s'.doc = sentsOf s.doc ++ a ∧ s'.doc ≠ [] ∧ s'.buffer = s.buffer ∧
      s'.finished = s.finished ∧ s'.loaded = s.loaded + a.length
  | [], b, s, h, _ => ⟨s, rfl, by simp, h, rfl, rfl, rfl⟩
  | x :: a, b, s, h, ha => by
    obtain ⟨s1, e, a1, a2, a3, a4, a5⟩ := split_inner hc s x (.inr (ha x (List.mem_cons_self ..)))
    obtain ⟨s', e', b1, b2, b3, b4, b5⟩ := split_file hc a b s1 a2 (fun y hy => ha y (List.mem_cons_of_mem _ hy))
    refine ⟨s', ?_, ?_, b2, b3.trans a3, b4.trans a4, ?_⟩
    · rw [← e', List.cons_append]
      conv => lhs; unfold readFile; rw [e]
    · rw [b1, a1, List.append_assoc]; rfl
    · rw [b5, a5, List.length_cons]; omega

/-- Every file starts with `newdoc`. -/
def Starts (fs : List (List Sent)) : Prop := ∀ f ∈ fs, ∃ t ts, f = t :: ts ∧ t.newdoc = true

/-- The next sentence is `t`, then those of the current file and of other files. -/
def Ready (r : Reader) (t : Sent) (ts : List Sent) (fs : List (List Sent)) : Prop :=
  (r.buffer = some t ∧ r.current = some ts ∧ r.files = fs) ∨
  (r.buffer = none ∧ r.current.getD [] = [] ∧ r.files = (t :: ts) :: fs)

/-- What is left after a document. -/
structure Left (cur : List Sent) (fs : List (List Sent)) (buf : Option Sent) (fin : Bool) (pending : List Sent) : Prop where
  done : pending = [] → fin = true
  more : pending ≠ [] → fin = false ∧ ∃ t ts fs', ((buf = some t ∧ cur = ts ∧ fs = fs') ∨ (buf = none ∧ cur = [] ∧ fs = (t :: ts) :: fs')) ∧
    Starts fs' ∧ t :: (ts ++ fs'.flatten) = pending

theorem split_left {c : RConf} {s : Loop} {t : Sent} {b : List Sent} {fs : List (List Sent)} (hc : Splits c) (hf : Starts fs)
    (hd : s.doc ≠ []) (ht : t.newdoc = true) : ∃ s', readFile c s (t :: b) = (s', b, true) ∧ s'.doc = s.doc ∧
      Left b fs s'.buffer s'.finished (t :: (b ++ fs.flatten)) := by
  obtain ⟨s2, e2, c1, c2, c3⟩ := split_new hc s t hd ht
  refine ⟨s2, by conv => lhs; unfold readFile; rw [e2], c1, ⟨fun hx => (by cases hx), fun _ => ⟨c3, t, b, fs, .inl ⟨c2, rfl, rfl⟩, hf, rfl⟩⟩⟩

/-- The rest of the first document, with at least one sentence read. -/
theorem split_loop {c : RConf} (hc : Splits c) {s : Loop} {a b : List Sent} (hd : s.doc ≠ []) (hb : s.buffer = none)
    (ha : ∀ x ∈ a, x.newdoc = false) (hnew : ∀ x, b.head? = some x → x.newdoc = true) : ∀ (fs : List (List Sent)), Starts fs →
    ∃ s' cur' fs', readLoop c s (a ++ b) fs = (s', cur', fs') ∧ sentsOf s'.doc = sentsOf s.doc ++ a ∧
      Left cur' fs' s'.buffer s'.finished (b ++ fs.flatten) := by
  intro fs hf
  obtain ⟨s1, e1, a1, a2, a3, a4, _⟩ := split_file hc a b s hd ha
  cases b with
  | cons t b =>
    obtain ⟨s2, e2, c1, hl⟩ := split_left (b := b) hc hf a2 (hnew t rfl)
    refine ⟨s2, b, fs, ?_, by rw [c1, a1], hl⟩
    unfold readLoop
    rw [e1, e2]
    cases fs <;> rfl
  | nil =>
    cases fs with
    | nil =>
      refine ⟨{ s1 with finished := true }, [], [], ?_, a1, ⟨fun _ => rfl, fun hx => absurd rfl hx⟩⟩
      unfold readLoop
      rw [e1]
      rfl
    | cons f fs =>
      obtain ⟨t, ts, rfl, ht⟩ := hf f (List.mem_cons_self ..)
      have hf' : Starts fs := fun g hg => hf g (List.mem_cons_of_mem _ hg)
      conv => enter [1, s', 1, cur', 1, fs', 1]; unfold readLoop
      rw [e1]
      simp only [readFile]
      split
      · obtain ⟨s2, e2, c1, hl⟩ := split_left (b := ts) hc hf' a2 ht
        refine ⟨s2, ts, fs, ?_, by rw [c1, a1], hl⟩
        unfold readLoop
        rw [e2]
        cases fs <;> rfl
      · refine ⟨_, _, _, rfl, a1, ⟨fun hx => (by cases hx), fun _ => ⟨rfl, t, ts, fs, .inr ⟨a3.trans hb, rfl, rfl⟩, hf', by simp⟩⟩⟩

/-- The rest of a list at the first `newdoc`. -/
theorem span_new (ts : List Sent) : ∃ a b, ts = a ++ b ∧ (∀ x ∈ a, x.newdoc = false) ∧ ∀ x, b.head? = some x → x.newdoc = true := by
  induction ts with
  | nil => exact ⟨[], [], rfl, by simp, by simp⟩
  | cons t ts ih =>
    obtain ⟨a, b, rfl, ha, hb⟩ := ih
    cases ht : t.newdoc with
    | true => exact ⟨[], t :: (a ++ b), rfl, by simp, fun x hx => by injection hx with hx; rw [← hx, ht]⟩
    | false =>
      refine ⟨t :: a, b, rfl, ?_, hb⟩
      intro x hx
      rcases List.mem_cons.1 hx with rfl | hx
      · exact ht
      · exact ha x hx

/-- One call of `process_document`. -/
theorem split_process {c : RConf} (hc : Splits c) {r : Reader} {t : Sent} {a b : List Sent} {fs : List (List Sent)} (hr : Ready r t (a ++ b) fs)
    (hf : Starts fs) (ha : ∀ x ∈ a, x.newdoc = false) (hb : ∀ x, b.head? = some x → x.newdoc = true) :
    sentsOf (r.process c).2 = t :: a ∧ (b ++ fs.flatten = [] → (r.process c).1.finished = true) ∧
      (b ++ fs.flatten ≠ [] → (r.process c).1.finished = false ∧ ∃ t' ts' fs', Ready (r.process c).1 t' ts' fs' ∧ Starts fs' ∧
        t' :: (ts' ++ fs'.flatten) = b ++ fs.flatten) := by
  -- from the state of the loop after the first sentence
  have fin : ∀ (s s0 : Loop) (cur : List Sent) (files : List (List Sent)), readLoop c s0 cur files = readLoop c s (a ++ b) fs → s.doc ≠ [] →
      s.buffer = none → sentsOf s.doc = [t] → ∀ q, q = (match readLoop c s0 cur files with
        | (s, rest, files) => ((⟨some rest, files, s.buffer, s.finished, s.docsLoaded⟩ : Reader), s.doc)) →
      sentsOf q.2 = t :: a ∧ (b ++ fs.flatten = [] → q.1.finished = true) ∧
      (b ++ fs.flatten ≠ [] → q.1.finished = false ∧ ∃ t' ts' fs', Ready q.1 t' ts' fs' ∧ Starts fs' ∧
        t' :: (ts' ++ fs'.flatten) = b ++ fs.flatten) := by
    intro s s0 cur files e h1 h2 h3 q hq
    obtain ⟨s', cur', fs', e', d1, hl⟩ := split_loop hc h1 h2 ha hb fs hf
    rw [e, e'] at hq
    subst hq
    refine ⟨by rw [d1, h3]; rfl, hl.done, fun hx => ?_⟩
    obtain ⟨f1, t', ts', fs'', hr', hf', hp⟩ := hl.more hx
    refine ⟨f1, t', ts', fs'', ?_, hf', hp⟩
    rcases hr' with ⟨g1, g2, g3⟩ | ⟨g1, g2, g3⟩
    · exact .inl ⟨g1, by rw [g2], g3⟩
    · exact .inr ⟨g1, by rw [g2]; rfl, g3⟩
  obtain ⟨cur, files, buf, fi, dl⟩ := r
  rcases hr with ⟨h1, h2, h3⟩ | ⟨h1, h2, h3⟩
  · simp only at h1 h2 h3
    subst h1 h2 h3
    unfold Reader.process
    simp only
    exact fin (startLoop c ⟨some (a ++ b), files, some t, fi, dl⟩) (startLoop c ⟨some (a ++ b), files, some t, fi, dl⟩) (a ++ b) files rfl
      (by simp [startLoop]) rfl (by simp [startLoop, sentsOf]) _ rfl
  · simp only at h1 h2 h3
    subst h1 h3
    obtain ⟨s1, e1, b1, b2, b3, b4, _⟩ := split_inner hc (startLoop c ⟨cur, (t :: (a ++ b)) :: fs, none, fi, dl⟩) t (.inl rfl)
    have hloop : readLoop c (startLoop c ⟨cur, (t :: (a ++ b)) :: fs, none, fi, dl⟩) (t :: (a ++ b)) fs = readLoop c s1 (a ++ b) fs := by
      have : readFile c (startLoop c ⟨cur, (t :: (a ++ b)) :: fs, none, fi, dl⟩) (t :: (a ++ b)) = readFile c s1 (a ++ b) := by
        conv => lhs; unfold readFile; rw [e1]
      unfold readLoop
      rw [this]
    unfold Reader.process
    cases cur with
    | none =>
      simp only
      exact fin s1 _ _ _ hloop b2 b3 b1 _ rfl
    | some cur =>
      simp only [Option.getD_some] at h2
      subst h2
      simp only
      refine fin s1 _ _ _ ?_ b2 b3 b1 _ rfl
      rw [← hloop]
      conv => lhs; unfold readLoop
      simp [readFile, startLoop]

theorem split_all {c : RConf} (hc : Splits c) : ∀ (fuel : Nat) (r : Reader) (t : Sent) (ts : List Sent) (fs : List (List Sent)),
    Ready r t ts fs → r.finished = false → Starts fs → (ts ++ fs.flatten).length < fuel →
    ∃ docs, r.all c fuel = some docs ∧ docs.map sentsOf = docsOf (t :: (ts ++ fs.flatten)) := by
  intro fuel
  induction fuel with
  | zero => intro r t ts fs _ _ _ h; omega
  | succ fuel ih =>
    intro r t ts fs hr hfin hf hl
    obtain ⟨a, b, rfl, ha, hb⟩ := span_new ts
    obtain ⟨p1, p2, p3⟩ := split_process hc hr hf ha hb
    have hdocs : docsOf (t :: (a ++ b ++ fs.flatten)) = (t :: a) :: docsOf (b ++ fs.flatten) := by
      rw [List.append_assoc]
      refine docsOf_cons ha ?_
      intro x hx
      cases b with
      | cons y b => exact hb x hx
      | nil =>
        cases fs with
        | nil => cases hx
        | cons f fs =>
          obtain ⟨y, ys, rfl, hy⟩ := hf f (List.mem_cons_self ..)
          injection hx with hx
          rw [← hx, hy]
    unfold Reader.all
    rw [if_neg (by rw [hfin]; simp)]
    generalize r.process c = q at *
    obtain ⟨r', d⟩ := q
    simp only at p1 p2 p3 ⊢
    by_cases hx : b ++ fs.flatten = []
    · have : r'.all c fuel = some [] := by
        cases fuel <;> (unfold Reader.all; rw [if_pos (p2 hx)])
      rw [this, hdocs, hx]
      exact ⟨[d], rfl, by rw [List.map_singleton, p1]; rfl⟩
    · obtain ⟨f1, t', ts', fs', hr', hf', hp⟩ := p3 hx
      have hlen := congrArg List.length hp
      simp only [List.length_cons, List.length_append] at hlen hl
      obtain ⟨docs, e, ed⟩ := ih r' t' ts' fs' hr' f1 hf' (by simp only [List.length_append]; omega)
      rw [e]
      exact ⟨d :: docs, rfl, by rw [List.map_cons, p1, ed, hdocs, hp]⟩

/-- C125 (partial): with `split_docs` and no other limits the documents are the parts of the file between the `newdoc` marks (for
every division `ds` into lists that start with `newdoc`, but for the first one, and have none inside). For several files it is
required that all but the first one start with `newdoc`; otherwise see `C125_files_violated`. -/
theorem C125_split_partial {c : RConf} (hc : Splits c) {f : List Sent} {fs : List (List Sent)} (hne : f ≠ [])
    (hs : ∀ g ∈ fs, ∃ t ts, g = t :: ts ∧ t.newdoc = true) {ds : List (List Sent)} (hds : ds.flatten = (f :: fs).flatten)
    (h1 : ∀ d ∈ ds, ∃ t r, d = t :: r ∧ ∀ x ∈ r, x.newdoc = false) (h2 : ∀ d ∈ ds.tail, ∀ t, d.head? = some t → t.newdoc = true) :
    ∃ docs, readAll c (f :: fs) = some docs ∧ docs.map (fun d => d.flatMap (·.sents)) = ds := by
  cases f with
  | nil => exact absurd rfl hne
  | cons t ts =>
    obtain ⟨docs, e, ed⟩ := split_all hc (((t :: ts) :: fs).flatten.length + 1) { files := (t :: ts) :: fs } t ts fs (.inr ⟨rfl, rfl, rfl⟩) rfl hs
      (by simp; omega)
    refine ⟨docs, e, ?_⟩
    have := docsOf_eq ds h1 h2
    rw [hds, List.flatten_cons, List.cons_append] at this
    rw [← this, ← ed]
    rfl

/-- C125: if the last document of a file has one sentence only (and is not the only document of the file), the sentences of the next
file are added to it, up to the next `newdoc`. -/
theorem C125_files_violated {c : RConf} (hc : Splits c) (u t x : Sent) (a xs : List Sent) (ha : ∀ y ∈ a, y.newdoc = false)
    (ht : t.newdoc = true) (hx : ∀ y ∈ x :: xs, y.newdoc = false) :
    ∃ docs, readAll c [u :: (a ++ [t]), x :: xs] = some docs ∧ docs.map (fun d => d.flatMap (·.sents)) = [u :: a, t :: x :: xs] := by
  -- the first document
  obtain ⟨s1, e1, b1, b2, b3, b4, _⟩ := split_inner hc {} u (.inl rfl)
  obtain ⟨s2, e2, c1, c2, c3, c4, _⟩ := split_file hc a [t] s1 b2 ha
  obtain ⟨s3, e3, d1, d2, d3⟩ := split_new hc s2 t c2 ht
  have hfile : readFile c {} (u :: (a ++ [t])) = (s3, [], true) := by
    unfold readFile
    rw [e1]
    simp only
    rw [e2]
    unfold readFile
    rw [e3]
  have hproc : ({ files := [u :: (a ++ [t]), x :: xs] } : Reader).process c = (⟨some [], [x :: xs], some t, false, s3.docsLoaded⟩, s3.doc) := by
    unfold Reader.process
    simp only [startLoop]
    unfold readLoop
    rw [hfile]
    simp only [d2, d3]
  -- the second document
  generalize hs : startLoop c ⟨some [], [x :: xs], some t, false, s3.docsLoaded⟩ = s
  have hs1 : s.doc ≠ [] ∧ s.loaded = 0 ∧ s.buffer = none ∧ sentsOf s.doc = [t] := by
    subst hs
    exact ⟨by simp [startLoop], rfl, rfl, by simp [startLoop, sentsOf]⟩
  obtain ⟨s4, e4, f1, f2, f3, f4, _⟩ := split_file hc (x :: xs) [] s hs1.1 hx
  have hproc2 : (⟨some [], [x :: xs], some t, false, s3.docsLoaded⟩ : Reader).process c =
      (⟨some [], [], s4.buffer, true, s4.docsLoaded⟩, s4.doc) := by
    unfold Reader.process
    simp only
    rw [hs]
    unfold readLoop
    simp only [readFile, hs1.2.1, true_or, if_true]
    unfold readLoop
    rw [List.append_nil] at e4
    rw [e4]
    rfl
  refine ⟨[s3.doc, s4.doc], ?_, ?_⟩
  · have hlen : ([u :: (a ++ [t]), x :: xs] : List (List Sent)).flatten.length + 1 = (a.length + xs.length + 2) + 1 + 1 := by
      simp
      omega
    unfold readAll
    rw [hlen]
    unfold Reader.all
    rw [hproc]
    simp only [Bool.false_eq_true, if_false]
    unfold Reader.all
    rw [hproc2]
    simp only [Bool.false_eq_true, if_false]
    unfold Reader.all
    simp
  · have g1 : sentsOf s3.doc = u :: a := by rw [d1, c1, b1]; rfl
    have g2 : sentsOf s4.doc = t :: x :: xs := by rw [f1, hs1.2.2.2]; rfl
    show [sentsOf s3.doc, sentsOf s4.doc] = _
    rw [g1, g2]

end Verif.Run
