import Verif.Py.Str

/-!
# Reading documents in parts (udapi/core/basereader.py:15-34, 176-324)

The files are lists of sentences. The documents are read by `read_documents` (313-324), so they are empty at first.
Simplified: `sent_id_filter` is not set (see `Verif/Run/Filter.lean`), zones within a bundle do not clash (`add_tree` then fails), and meta data of the
document are left out. `try_fast_load` (115-174) is modelled in `Verif/Run/FastLoad.lean`.
-/

namespace Verif.Run
open Verif.Py

/-- A sentence as returned by `read_tree`: its identity, `sent_id` and `newdoc`. -/
structure Sent where
  id : Nat
  sentId : Option Str
  newdoc : Bool
  deriving DecidableEq

/-- A bundle of the document: its id (`none`: assigned by the document) and sentences. -/
structure Group where
  bundleId : Option Str
  sents : List Sent
  deriving DecidableEq

/-- The parameters of a reader. `zoned`: a value other than `keep` for `zone`. -/
structure RConf where
  perDoc : Nat := 0
  splitDocs : Bool := false
  merge : Bool := false
  maxDocs : Nat := 0
  ignoreIds : Bool := false
  zoned : Bool := false
  multizone : Bool := true

/-- The state of a reader between documents. `current` is what is left of the current file. -/
structure Reader where
  current : Option (List Sent) := none
  files : List (List Sent)
  buffer : Option Sent := none
  finished : Bool := false
  docsLoaded : Nat := 0
  deriving DecidableEq

/-- The local variables of `process_document`; `bundle` is the last element of `doc`. -/
structure Loop where
  doc : List Group := []
  lastId : Str := []
  loaded : Nat := 0
  docsLoaded : Nat := 0
  buffer : Option Sent := none
  finished : Bool := false
  deriving DecidableEq

/-- Lines 242-250: the bundle id of a sentence. -/
def bundleOf (c : RConf) (t : Sent) : Option Str :=
  if c.ignoreIds then none else t.sentId.map (fun s => (splitOnce '/' s).1)

/-- The bundle id of a buffered sentence (197-198). Assigning the zone has given `?/zone` to one without an id
(root.py:92-104, basereader.py:252-253). -/
def bufferedId (c : RConf) (t : Sent) : Option Str :=
  match bundleOf c t with
  | some b => some b
  | none => if c.zoned then some ['?'] else none

/-- `bundle.add_tree(root)` for the last bundle. -/
def addLast (t : Sent) : List Group → List Group
  | [] => []
  | [g] => [{ g with sents := g.sents ++ [t] }]
  | g :: gs => g :: addLast t gs

/-- Lines 271-300; `true`: return. -/
def place (c : RConf) (s : Loop) (t : Sent) (add : Bool) : Loop × Bool :=
  if s.doc = [] ∨ add = false then
    if c.perDoc ≠ 0 ∧ s.doc ≠ [] ∧ c.perDoc = s.doc.length then ({ s with buffer := some t }, true)
    else
      let doc := s.doc ++ [⟨if s.lastId = [] then none else some s.lastId, [t]⟩]
      ({ s with doc := doc }, decide (c.perDoc ≠ 0 ∧ c.perDoc = doc.length ∧ c.multizone = false))
  else ({ s with doc := addLast t s.doc }, decide (c.perDoc ≠ 0 ∧ c.perDoc = s.doc.length ∧ c.multizone = false))

/-- Lines 255-300. -/
def newdocThenPlace (c : RConf) (s : Loop) (t : Sent) (add : Bool) : Loop × Bool :=
  if t.newdoc then
    if c.maxDocs ≠ 0 ∧ c.maxDocs ≤ s.docsLoaded then ({ s with finished := true }, true)
    else if s.doc ≠ [] ∧ c.splitDocs then ({ s with buffer := some t, finished := false }, true)
    else place c { s with docsLoaded := s.docsLoaded + 1 } t add
  else place c s t add

/-- The body of the loop for a sentence (225-300); `true`: return. -/
def readStep (c : RConf) (s : Loop) (t : Sent) : Loop × Bool :=
  if s.loaded = 0 ∧ t.newdoc = false ∧ c.maxDocs ≠ 0 ∧ c.maxDocs ≤ s.docsLoaded then ({ s with finished := true }, true)
  else
    let s := if s.loaded = 0 ∧ t.newdoc = false then { s with docsLoaded := s.docsLoaded + 1 } else s
    let s := { s with loaded := s.loaded + 1 }
    match bundleOf c t with
    | some b => newdocThenPlace c { s with lastId := b } t (decide (b = s.lastId))
    | none => newdocThenPlace c s t false

/-- The loop within one file: what is left of it, and whether `process_document` has returned. -/
def readFile (c : RConf) : Loop → List Sent → Loop × List Sent × Bool
  | s, [] => (s, [], false)
  | s, t :: ts =>
    match readStep c s t with
    | (s, true) => (s, ts, true)
    | (s, false) => readFile c s ts

/-- The loop (215-300) from the state `s`, with `cur` left of the current file. -/
def readLoop (c : RConf) (s : Loop) (cur : List Sent) : List (List Sent) → Loop × List Sent × List (List Sent)
  | [] =>
    match readFile c s cur with
    | (s, rest, true) => (s, rest, [])
    | (s, rest, false) => ({ s with finished := true }, rest, [])
  | f :: fs =>
    match readFile c s cur with
    | (s, rest, true) => (s, rest, f :: fs)
    | (s, rest, false) =>
      if s.loaded = 0 ∨ c.merge then readLoop c s f fs else ({ s with finished := false }, rest, f :: fs)

/-- The sentence left in the buffer (189-205). -/
def startLoop (c : RConf) (r : Reader) : Loop :=
  match r.buffer with
  | none => { docsLoaded := r.docsLoaded, finished := r.finished }
  | some t => { doc := [⟨bufferedId c t, [t]⟩], docsLoaded := r.docsLoaded + (if t.newdoc then 1 else 0),
                finished := r.finished }

/-- `process_document` without the fast path (186-300). -/
def Reader.process (c : RConf) (r : Reader) : Reader × List Group :=
  let s := startLoop c r
  match r.current, r.files with
  | none, [] => ({ r with buffer := none, docsLoaded := s.docsLoaded, finished := true }, s.doc)
  | none, f :: fs =>
    let (s, rest, files) := readLoop c s f fs
    (⟨some rest, files, s.buffer, s.finished, s.docsLoaded⟩, s.doc)
  | some cur, fs =>
    let (s, rest, files) := readLoop c s cur fs
    (⟨some rest, files, s.buffer, s.finished, s.docsLoaded⟩, s.doc)

/-- `read_documents` (313-324). `none`: more documents than `fuel`. -/
def Reader.all (c : RConf) : Nat → Reader → Option (List (List Group))
  | 0, r => if r.finished then some [] else none
  | fuel + 1, r =>
    if r.finished then some []
    else
      let (r, doc) := r.process c
      match r.all c fuel with
      | some docs => some (doc :: docs)
      | none => none

/-- Reading the given files. -/
def readAll (c : RConf) (files : List (List Sent)) : Option (List (List Group)) :=
  ({ files := files } : Reader).all c (files.flatten.length + 1)

/-! ## Specification -/

/-- The sentences of a document. -/
def sentsOf (doc : List Group) : List Sent := doc.flatMap (·.sents)

/-! ## Proofs -/

theorem sentsOf_append (a b : List Group) : sentsOf (a ++ b) = sentsOf a ++ sentsOf b := by
  unfold sentsOf; rw [List.flatMap_append]

theorem sentsOf_addLast (t : Sent) : ∀ (doc : List Group), doc ≠ [] → sentsOf (addLast t doc) = sentsOf doc ++ [t]
  | [], h => absurd rfl h
  | [g], _ => by simp [addLast, sentsOf]
  | g :: h :: gs, _ => by
    have := sentsOf_addLast t (h :: gs) (by simp)
    unfold sentsOf at this ⊢
    rw [addLast, List.flatMap_cons, this, List.flatMap_cons (x := g), List.append_assoc]
    simp

theorem length_addLast (t : Sent) : ∀ (doc : List Group), (addLast t doc).length = doc.length
  | [] => rfl
  | [g] => rfl
  | g :: h :: gs => by rw [addLast, List.length_cons, length_addLast t (h :: gs)]; rfl; simp

/-- No bundle is without sentences. -/
def Full (doc : List Group) : Prop := ∀ g ∈ doc, g.sents ≠ []

theorem full_addLast (t : Sent) : ∀ (doc : List Group), Full doc → Full (addLast t doc)
  | [], h => h
  | [g], _ => by intro x hx; simp [addLast] at hx; subst hx; simp
  | g :: h :: gs, hf => by
    intro x hx
    rw [addLast] at hx
    · rcases List.mem_cons.1 hx with e | e
      · subst e; exact hf _ (List.mem_cons_self ..)
      · exact full_addLast t (h :: gs) (fun y hy => hf y (List.mem_cons_of_mem _ hy)) x e
    · simp

/-- What a step of the loop keeps, without `max_docs`. -/
structure StepOk (c : RConf) (s s' : Loop) (t : Sent) (ret : Bool) : Prop where
  sents : sentsOf s'.doc ++ s'.buffer.toList = sentsOf s.doc ++ [t]
  doc : s'.doc ≠ []
  finished : s'.finished = s.finished ∨ s'.finished = false
  goOn : ret = false → s'.buffer = none
  small : c.perDoc ≠ 0 → s.doc.length ≤ c.perDoc → s'.doc.length ≤ c.perDoc
  buffered : s.doc = [] → s'.buffer = none
  loaded : s'.loaded = s.loaded + 1
  full : Full s.doc → Full s'.doc

theorem place_ok (c : RConf) (s0 s : Loop) (hb : s.buffer = none) (h0 : s0.doc = s.doc) (hf : s.finished = s0.finished)
    (hl : s.loaded = s0.loaded + 1) (t : Sent) (add : Bool) :
    StepOk c s0 (place c s t add).1 t (place c s t add).2 := by
  unfold place
  by_cases h : s.doc = [] ∨ add = false
  · rw [if_pos h]
    by_cases h2 : c.perDoc ≠ 0 ∧ s.doc ≠ [] ∧ c.perDoc = s.doc.length
    · rw [if_pos h2]
      exact ⟨by simp [h0], h2.2.1, Or.inl hf, by simp, fun _ => by simp only [h0]; exact id,
        fun e => absurd (h0 ▸ e) h2.2.1, hl, fun h => h0 ▸ h⟩
    · rw [if_neg h2]
      refine ⟨?_, by simp, Or.inl hf, fun _ => hb, ?_, fun _ => hb, hl, ?_⟩
      rotate_left 2
      · intro hfull g hg
        rcases List.mem_append.1 hg with hg | hg
        · exact hfull g (h0 ▸ hg)
        · simp at hg; subst hg; simp
      · simp only [hb]
        rw [sentsOf_append, h0]
        simp [sentsOf]
      · intro hk hle
        simp only [List.length_append, List.length_singleton]
        rw [h0] at hle
        by_cases hd : s.doc = []
        · rw [hd]; simp; omega
        · have : c.perDoc ≠ s.doc.length := fun e => h2 ⟨hk, hd, e⟩
          omega
  · rw [if_neg h]
    have hd : s.doc ≠ [] := fun e => h (Or.inl e)
    refine ⟨?_, ?_, Or.inl hf, fun _ => hb, ?_, fun _ => hb, hl, fun h => full_addLast t _ (h0 ▸ h)⟩
    · simp only [hb]
      rw [sentsOf_addLast t _ hd, h0]
      simp
    · intro e
      have := congrArg List.length e
      simp only [length_addLast, List.length_nil] at this
      exact hd (List.eq_nil_of_length_eq_zero this)
    · intro _ hle
      simp only [length_addLast]
      rw [← h0]; exact hle

theorem newdoc_ok (c : RConf) (hm : c.maxDocs = 0) (s0 s : Loop) (hb : s.buffer = none) (h0 : s0.doc = s.doc)
    (hf : s.finished = s0.finished) (hl : s.loaded = s0.loaded + 1) (t : Sent) (add : Bool) :
    StepOk c s0 (newdocThenPlace c s t add).1 t (newdocThenPlace c s t add).2 := by
  unfold newdocThenPlace
  by_cases hn : t.newdoc = true
  · rw [if_pos hn, if_neg (by simp [hm])]
    by_cases h2 : s.doc ≠ [] ∧ c.splitDocs = true
    · rw [if_pos h2]
      exact ⟨by simp [h0], h2.1, Or.inr rfl, by simp, fun _ => by simp only [h0]; exact id,
        fun e => absurd (h0 ▸ e) h2.1, hl, fun h => h0 ▸ h⟩
    · rw [if_neg h2]
      exact place_ok c s0 { s with docsLoaded := s.docsLoaded + 1 } hb h0 hf hl t add
  · rw [if_neg hn]
    exact place_ok c s0 s hb h0 hf hl t add

theorem readStep_ok (c : RConf) (hm : c.maxDocs = 0) (s : Loop) (hb : s.buffer = none) (t : Sent) :
    StepOk c s (readStep c s t).1 t (readStep c s t).2 := by
  unfold readStep
  rw [if_neg (by simp [hm])]
  cases bundleOf c t with
  | some b =>
    simp only
    apply newdoc_ok c hm
    · split <;> exact hb
    · split <;> rfl
    · split <;> rfl
    · split <;> rfl
  | none =>
    simp only
    apply newdoc_ok c hm
    · split <;> exact hb
    · split <;> rfl
    · split <;> rfl
    · split <;> rfl

/-- What the loop over a file keeps. -/
structure FileOk (c : RConf) (s s' : Loop) (ts rest : List Sent) (ret : Bool) : Prop where
  sents : sentsOf s'.doc ++ s'.buffer.toList ++ rest = sentsOf s.doc ++ ts
  finished : s'.finished = s.finished ∨ s'.finished = false
  goOn : ret = false → s'.buffer = none ∧ rest = []
  small : c.perDoc ≠ 0 → s.doc.length ≤ c.perDoc → s'.doc.length ≤ c.perDoc
  some : ts ≠ [] → s'.doc ≠ [] ∧ s'.loaded ≠ 0
  keep : s.doc ≠ [] → s'.doc ≠ []
  zero : ts = [] → ret = false ∧ s' = s
  full : Full s.doc → Full s'.doc

theorem readFile_ok (c : RConf) (hm : c.maxDocs = 0) : ∀ (ts : List Sent) (s : Loop), s.buffer = none →
    FileOk c s (readFile c s ts).1 ts (readFile c s ts).2.1 (readFile c s ts).2.2 := by
  intro ts
  induction ts with
  | nil =>
    intro s hb
    exact ⟨by simp [readFile, hb], Or.inl rfl, fun _ => ⟨hb, rfl⟩, fun _ => id, by simp, id, fun _ => ⟨rfl, rfl⟩, id⟩
  | cons t ts ih =>
    intro s hb
    obtain ⟨a1, a2, a3, a4, a5, _, a7, a8⟩ := readStep_ok c hm s hb t
    unfold readFile
    generalize hs : readStep c s t = r at *
    obtain ⟨s1, ret⟩ := r
    simp only at a1 a2 a3 a4 a5 a7 a8
    cases ret with
    | true =>
      simp only
      exact ⟨by rw [a1]; simp, a3, by simp, a5, fun _ => ⟨a2, by omega⟩, fun _ => a2, by simp, a8⟩
    | false =>
      simp only
      have hb1 := a4 rfl
      obtain ⟨b1, b2, b3, b4, b5, b6, b7, b8⟩ := ih s1 hb1
      rw [hb1] at a1
      refine ⟨?_, ?_, b3, fun hk hl => b4 hk (a5 hk hl), fun _ => ⟨b6 a2, ?_⟩, fun _ => b6 a2, by simp, fun h => b8 (a8 h)⟩
      · rw [b1]; simp at a1; rw [a1]; simp
      · rcases b2 with b2 | b2
        · rw [b2]; exact a3
        · exact Or.inr b2
      · by_cases ht : ts = []
        · obtain ⟨_, e⟩ := b7 ht; rw [e]; omega
        · exact (b5 ht).2

/-- What the loop over the files keeps. -/
structure LoopOk (c : RConf) (s s' : Loop) (ts : List Sent) (rest : List Sent) (fs files : List (List Sent)) : Prop where
  sents : sentsOf s'.doc ++ s'.buffer.toList ++ rest ++ files.flatten = sentsOf s.doc ++ ts ++ fs.flatten
  small : c.perDoc ≠ 0 → s.doc.length ≤ c.perDoc → s'.doc.length ≤ c.perDoc
  finished : s'.finished = true → s'.buffer = none ∧ rest = [] ∧ files = []
  progress : s'.finished = true ∨ s'.doc ≠ []
  full : Full s.doc → Full s'.doc

theorem readLoop_ok (c : RConf) (hm : c.maxDocs = 0) : ∀ (fs : List (List Sent)) (cur : List Sent) (s : Loop),
    s.buffer = none → s.finished = false → (s.loaded ≠ 0 → s.doc ≠ []) →
    LoopOk c s (readLoop c s cur fs).1 cur (readLoop c s cur fs).2.1 fs (readLoop c s cur fs).2.2 := by
  intro fs
  induction fs with
  | nil =>
    intro cur s hb hf hld
    obtain ⟨a1, a2, a3, a4, a5, a6, a7, a8⟩ := readFile_ok c hm cur s hb
    unfold readLoop
    generalize readFile c s cur = r at *
    obtain ⟨s1, rest, ret⟩ := r
    simp only at a1 a2 a3 a4 a5 a6 a7 a8
    cases ret with
    | true =>
      simp only
      have hcur : cur ≠ [] := fun e => by cases (a7 e).1
      refine ⟨by simpa using a1, a4, fun h => ?_, Or.inr (a5 hcur).1, a8⟩
      rcases a2 with e | e <;> rw [e] at h
      · rw [hf] at h; cases h
      · cases h
    | false =>
      simp only
      exact ⟨by simpa using a1, a4, fun _ => ⟨(a3 rfl).1, (a3 rfl).2, rfl⟩, Or.inl rfl, a8⟩
  | cons f fs ih =>
    intro cur s hb hf hld
    obtain ⟨a1, a2, a3, a4, a5, a6, a7, a8⟩ := readFile_ok c hm cur s hb
    unfold readLoop
    generalize readFile c s cur = r at *
    obtain ⟨s1, rest, ret⟩ := r
    simp only at a1 a2 a3 a4 a5 a6 a7 a8
    cases ret with
    | true =>
      simp only
      have hcur : cur ≠ [] := fun e => by cases (a7 e).1
      refine ⟨by rw [a1], a4, fun h => ?_, Or.inr (a5 hcur).1, a8⟩
      rcases a2 with e | e <;> rw [e] at h
      · rw [hf] at h; cases h
      · cases h
    | false =>
      simp only
      obtain ⟨hb1, hr⟩ := a3 rfl
      by_cases h : s1.loaded = 0 ∨ c.merge = true
      · rw [if_pos h]
        have hf1 : s1.finished = false := by rcases a2 with e | e <;> rw [e]; exact hf
        have hld1 : s1.loaded ≠ 0 → s1.doc ≠ [] := by
          by_cases ht : cur = []
          · rw [(a7 ht).2]; exact hld
          · exact fun _ => (a5 ht).1
        obtain ⟨b1, b2, b3, b4, b5⟩ := ih f s1 hb1 hf1 hld1
        refine ⟨?_, fun hk hl => b2 hk (a4 hk hl), b3, b4, fun h => b5 (a8 h)⟩
        rw [b1]
        rw [hb1, hr] at a1
        simp at a1
        rw [a1]; simp
      · rw [if_neg h]
        simp only
        refine ⟨by rw [a1], a4, by simp, Or.inr ?_, a8⟩
        by_cases ht : cur = []
        · subst ht
          have e := (a7 rfl).2
          subst e
          exact hld (fun e => h (Or.inl e))
        · exact (a5 ht).1

theorem startLoop_ok (c : RConf) (r : Reader) :
    sentsOf (startLoop c r).doc = r.buffer.toList ∧ (startLoop c r).buffer = none ∧
    (startLoop c r).finished = r.finished ∧ (startLoop c r).loaded = 0 ∧ (startLoop c r).doc.length ≤ 1 ∧
    Full (startLoop c r).doc := by
  unfold startLoop
  cases r.buffer with
  | none => exact ⟨rfl, rfl, rfl, rfl, Nat.zero_le _, by intro g hg; cases hg⟩
  | some t => exact ⟨rfl, rfl, rfl, rfl, Nat.le_refl _, by intro g hg; simp at hg; subst hg; simp⟩

/-- All sentences that are still to come. -/
def Reader.pending (r : Reader) : List Sent := r.buffer.toList ++ (r.current.getD []) ++ r.files.flatten

/-- Nothing is left once the reader has finished. -/
def Reader.Ok (r : Reader) : Prop := r.finished = true → r.pending = []

theorem sents_ne_nil {d : List Group} (hg : Full d) (hd : d ≠ []) : sentsOf d ≠ [] := by
  cases d with
  | nil => exact absurd rfl hd
  | cons g gs =>
    intro e
    unfold sentsOf at e
    rw [List.flatMap_cons, List.append_eq_nil_iff] at e
    exact hg g (List.mem_cons_self ..) e.1

theorem process_ok (c : RConf) (hm : c.maxDocs = 0) (r : Reader) (hf : r.finished = false) :
    sentsOf (r.process c).2 ++ (r.process c).1.pending = r.pending ∧ (r.process c).1.Ok ∧
    (c.perDoc ≠ 0 → (r.process c).2.length ≤ c.perDoc) ∧ Full (r.process c).2 ∧
    ((r.process c).1.finished = true ∨ (r.process c).2 ≠ []) := by
  obtain ⟨s1, s2, s3, s4, s5, s6⟩ := startLoop_ok c r
  have main : ∀ (cur : List Sent) (fs : List (List Sent)) (r' : Reader) (d : List Group),
      (r', d) = (let (s, rest, files) := readLoop c (startLoop c r) cur fs
        (⟨some rest, files, s.buffer, s.finished, s.docsLoaded⟩, s.doc)) →
      sentsOf d ++ r'.pending = r.buffer.toList ++ cur ++ fs.flatten ∧ r'.Ok ∧ (c.perDoc ≠ 0 → d.length ≤ c.perDoc) ∧
        Full d ∧ (r'.finished = true ∨ d ≠ []) := by
    intro cur fs r' d h
    obtain ⟨a1, a2, a3, a4, a5⟩ := readLoop_ok c hm fs cur (startLoop c r) s2 (s3.trans hf) (fun e => absurd s4 e)
    generalize readLoop c (startLoop c r) cur fs = q at *
    obtain ⟨s, rest, fs'⟩ := q
    simp only at h a1 a2 a3 a4 a5
    obtain ⟨h1, h2⟩ := Prod.mk.inj h
    subst h1; subst h2
    unfold Reader.Ok Reader.pending
    simp only [Option.getD_some]
    refine ⟨?_, ?_, fun hk => a2 hk (by omega), a5 s6, a4⟩
    · rw [← List.append_assoc, ← List.append_assoc, a1, s1]
    · intro e
      obtain ⟨e1, e2, e3⟩ := a3 e
      rw [e1, e2, e3]; rfl
  obtain ⟨cur, files, buf, fin, dl⟩ := r
  cases cur with
  | some cur => exact main cur files _ _ rfl
  | none =>
    cases files with
    | nil =>
      unfold Reader.process Reader.Ok Reader.pending
      simp only
      rw [s1]
      exact ⟨by simp, fun _ => rfl, fun hk => by omega, s6, Or.inl trivial⟩
    | cons f fs =>
      have := main f fs _ _ rfl
      unfold Reader.pending at this ⊢
      simp only [Option.getD_none, List.append_nil, List.flatten_cons, ← List.append_assoc]
      simp only [← List.append_assoc] at this
      exact this

theorem all_ok (c : RConf) (hm : c.maxDocs = 0) : ∀ (fuel : Nat) (r : Reader), r.Ok → r.pending.length < fuel →
    ∃ docs, r.all c fuel = some docs ∧ docs.flatMap sentsOf = r.pending ∧
      (∀ d ∈ docs, Full d ∧ (c.perDoc ≠ 0 → d.length ≤ c.perDoc)) ∧ (∀ d ∈ docs.dropLast, d ≠ []) := by
  intro fuel
  induction fuel with
  | zero => intro r _ h; omega
  | succ fuel ih =>
    intro r hok hl
    unfold Reader.all
    by_cases hf : r.finished = true
    · rw [if_pos hf]
      exact ⟨[], rfl, (hok hf).symm ▸ rfl, by simp, by simp⟩
    · rw [if_neg hf]
      obtain ⟨a1, a2, a3, a4, a5⟩ := process_ok c hm r (by simpa using hf)
      generalize r.process c = q at *
      obtain ⟨r', d⟩ := q
      simp only at a1 a2 a3 a4 a5 ⊢
      by_cases hf' : r'.finished = true
      · have : r'.all c fuel = some [] := by
          cases fuel <;> (unfold Reader.all; rw [if_pos hf'])
        rw [this]
        refine ⟨[d], rfl, ?_, by simpa using ⟨a4, a3⟩, by simp⟩
        rw [a2 hf', List.append_nil] at a1
        simpa using a1
      · have hd : d ≠ [] := a5.resolve_left hf'
        have hpos := List.length_pos_iff.2 (sents_ne_nil a4 hd)
        have hlen := congrArg List.length a1
        rw [List.length_append] at hlen
        obtain ⟨docs, e1, e2, e3, e4⟩ := ih r' a2 (by omega)
        rw [e1]
        refine ⟨d :: docs, rfl, by rw [List.flatMap_cons, e2, a1], ?_, ?_⟩
        · intro x hx
          rcases List.mem_cons.1 hx with e | e
          · subst e; exact ⟨a4, a3⟩
          · exact e3 x e
        · intro x hx
          cases docs with
          | nil => simp at hx
          | cons y ys =>
            rw [List.dropLast_cons_cons] at hx
            rcases List.mem_cons.1 hx with e | e
            · subst e; exact hd
            · exact e4 x e

/-- C45 (partial): for every list of files and all parameters other than `max_docs`, reading ends, the documents one
after the other contain all sentences of the files in order, each exactly once; with `bundles_per_doc=k` no document has
more than `k` bundles; no bundle is empty, and no document other than the last one is. Missing: sentences of one bundle
stay in one bundle, which is false (`C45_bundle_violated`). -/
theorem C45_conserved_partial (c : RConf) (hm : c.maxDocs = 0) (files : List (List Sent)) :
    ∃ docs, readAll c files = some docs ∧ docs.flatMap (fun d => d.flatMap (·.sents)) = files.flatten ∧
      (c.perDoc ≠ 0 → ∀ d ∈ docs, d.length ≤ c.perDoc) ∧ (∀ d ∈ docs, ∀ g ∈ d, g.sents ≠ []) ∧
      (∀ d ∈ docs.dropLast, d ≠ []) := by
  obtain ⟨docs, h1, h2, h3, h4⟩ := all_ok c hm (files.flatten.length + 1) { files := files } (by intro h; cases h)
    (by simp [Reader.pending])
  refine ⟨docs, h1, ?_, fun hk d hd => (h3 d hd).2 hk, fun d hd => (h3 d hd).1, h4⟩
  have e : (fun d : List Group => d.flatMap (·.sents)) = sentsOf := rfl
  rw [e, h2]
  simp [Reader.pending]

def rs (n : Nat) (s : Str) : Sent := ⟨n, some s, false⟩

example : readAll { perDoc := 2 } [[rs 1 ['a'], rs 2 ['b', '/', 'x'], rs 3 ['b', '/', 'y']], [rs 4 ['c'], rs 5 ['d']]] =
    some [[⟨some ['a'], [rs 1 ['a']]⟩, ⟨some ['b'], [rs 2 ['b', '/', 'x'], rs 3 ['b', '/', 'y']]⟩],
      [⟨some ['c'], [rs 4 ['c']]⟩, ⟨some ['d'], [rs 5 ['d']]⟩]] := by decide

end Verif.Run
