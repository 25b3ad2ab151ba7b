import Verif.Run.Files

/-!
# Redirecting the output of writers (udapi/core/basewriter.py)

A file handle is a number. Simplified: opening a file never fails; storing coreference into MISC is left out; what a
writer prints for a document is one write.
-/

namespace Verif.Run
open Verif.Py

/-- The stream `sys.stdout` refers to, the files opened so far with their handles (newest last), the handles that are
closed, what was written to which handle, and the next unused handle. -/
structure World (δ : Type) where
  stdout : Nat
  opened : List (Nat × Str)
  closed : List Nat
  written : List (Nat × δ)
  next : Nat

inductive WErr
  | runtimeError
  | valueError
  | attributeError
  deriving DecidableEq

/-- Where a writer writes: to the handle given as `filehandle`; to stdout; to a file whose name comes from the document
(`docname_as_file`, `overwrite`, `path`), if it has one; or to the given files in turn. -/
inductive Dest (δ : Type)
  | handle (h : Nat)
  | stdout
  | perDoc (name : δ → Option Str)
  | names (files : Files)

/-- A writer with `orig_stdout` (basewriter.py:19). -/
structure Writer (δ : Type) where
  orig : Nat
  dest : Dest δ

/-- `_open` (basewriter.py:104-106) followed by the assignment to `sys.stdout`. -/
def World.open {δ : Type} (w : World δ) (name : Str) : World δ :=
  { w with stdout := w.next, opened := w.opened ++ [(w.next, name)], next := w.next + 1 }

/-- `handle.close()` -/
def World.close {δ : Type} (w : World δ) (h : Nat) : World δ := { w with closed := h :: w.closed }

/-- The end of `before_process_document` (basewriter.py:101-102). -/
def World.closeOld {δ : Type} (w : World δ) (old orig : Nat) : World δ :=
  if old = w.stdout ∨ old = orig then w else w.close old

/-- `before_process_document` (basewriter.py:53-102); `none` is the call with `None` made by the evaluation blocks. -/
def Writer.before {δ : Type} (wr : Writer δ) (w : World δ) (doc : Option δ) : Writer δ × World δ × Option WErr :=
  match wr.dest with
  | .handle h => (wr, { w with stdout := h }, none)
  | .stdout => (wr, { w with stdout := wr.orig }.closeOld w.stdout wr.orig, none)
  | .perDoc name =>
    match doc with
    | none => (wr, w, some .attributeError)
    | some d =>
      match name d with
      | some n => (wr, (w.open n).closeOld w.stdout wr.orig, none)
      | none => (wr, w.closeOld w.stdout wr.orig, none)
  | .names fs =>
    let wr' := { wr with dest := .names fs.next.1 }
    match fs.next.2 with
    | none => (wr', w, some .runtimeError)
    | some n =>
      if n = ['-'] then (wr', { w with stdout := wr.orig }.closeOld w.stdout wr.orig, none)
      else (wr', (w.open n).closeOld w.stdout wr.orig, none)

/-- Printing to `sys.stdout`. -/
def World.print {δ : Type} (w : World δ) (d : δ) : World δ × Option WErr :=
  if w.stdout ∈ w.closed then (w, some .valueError) else ({ w with written := w.written ++ [(w.stdout, d)] }, none)

/-- `after_process_document` (basewriter.py:108-112); flushing a closed stream fails. -/
def Writer.after {δ : Type} (wr : Writer δ) (w : World δ) : World δ × Option WErr :=
  if w.stdout ∈ w.closed then (w, some .valueError)
  else if w.stdout ≠ wr.orig then ({ w.close w.stdout with stdout := wr.orig }, none)
  else (w, none)

/-- `apply_on_document` (block.py:76-79) for each document in turn. -/
def Writer.docs {δ : Type} (wr : Writer δ) (w : World δ) : List δ → Writer δ × World δ × Option WErr
  | [] => (wr, w, none)
  | d :: ds =>
    match wr.before w (some d) with
    | (wr, w, some e) => (wr, w, some e)
    | (wr, w, none) =>
      match w.print d with
      | (w, some e) => (wr, w, some e)
      | (w, none) =>
        match wr.after w with
        | (w, some e) => (wr, w, some e)
        | (w, none) => wr.docs w ds

/-- `process_end` of the evaluation blocks (eval/f1.py:166-168 and the prints after it, eval/parsing.py:34-40,
eval/conll17.py:160-165, eval/conll18.py:202-207): the output is redirected and the result is printed. -/
def Writer.finish {δ : Type} (wr : Writer δ) (w : World δ) (result : δ) : World δ × Option WErr :=
  match wr.before w none with
  | (_, w, some e) => (w, some e)
  | (_, w, none) => w.print result

/-! ## Specification -/

/-- The documents paired with the handles they are to be written to, where new files get handles from `h` on. -/
def plan {δ : Type} (orig : Nat) : Nat → List (δ × Option Str) → List (Nat × δ)
  | _, [] => []
  | h, (d, none) :: ds => (orig, d) :: plan orig h ds
  | h, (d, some _) :: ds => (h, d) :: plan orig (h + 1) ds

/-- The files opened, with handles from `h` on. -/
def numbered : Nat → List Str → List (Nat × Str)
  | _, [] => []
  | h, n :: ns => (h, n) :: numbered (h + 1) ns

/-- The original stream is the current one and is open, and handles from `next` on are unused. -/
structure World.Ready {δ : Type} (w : World δ) (orig : Nat) : Prop where
  current : w.stdout = orig
  isOpen : orig ∉ w.closed
  unused : ∀ h, w.next ≤ h → h ∉ w.closed ∧ h ≠ orig

/-! ## Proofs -/

/-- One document, to a file or to stdout. -/
theorem step_file {δ : Type} {w : World δ} {orig : Nat} (hr : w.Ready orig) (d : δ) (n : Str) :
    ∃ w1 w2 : World δ, (w.open n).closeOld w.stdout orig = w1 ∧ w1.print d = (w2, none) ∧
      (∀ dest : Dest δ, Writer.after ⟨orig, dest⟩ w2 = (World.mk orig (w.opened ++ [(w.next, n)]) (w.next :: w.closed) (w.written ++ [(w.next, d)]) (w.next + 1), none)) := by
  obtain ⟨h1, h2, h3⟩ := hr
  have h4 := h3 w.next (Nat.le_refl _)
  have hc : (w.open n).closeOld w.stdout orig = w.open n := by
    unfold World.closeOld; rw [if_pos (Or.inr h1)]
  refine ⟨w.open n, { w.open n with written := w.written ++ [(w.next, d)] }, hc, ?_, ?_⟩
  · unfold World.print World.open
    rw [if_neg h4.1]
  · intro dest
    unfold Writer.after World.close World.open
    simp only
    rw [if_neg h4.1, if_pos h4.2]

theorem step_stdout {δ : Type} {w : World δ} {orig : Nat} (hr : w.Ready orig) (d : δ) :
    w.closeOld w.stdout orig = w ∧ { w with stdout := orig }.closeOld w.stdout orig = w ∧
      w.print d = ({ w with written := w.written ++ [(orig, d)] }, none) ∧
      (∀ dest : Dest δ, Writer.after ⟨orig, dest⟩ ({ w with written := w.written ++ [(orig, d)] } : World δ) =
        ({ w with written := w.written ++ [(orig, d)] }, none)) := by
  obtain ⟨h1, h2, h3⟩ := hr
  refine ⟨?_, ?_, ?_, ?_⟩
  · unfold World.closeOld; rw [if_pos (Or.inr h1)]
  · unfold World.closeOld; rw [if_pos (Or.inr h1)]; cases w; simp only at h1; subst h1; rfl
  · unfold World.print; rw [h1, if_neg h2]
  · intro dest
    unfold Writer.after
    simp only
    rw [h1, if_neg h2, if_neg (by simp)]

/-- What the world looks like after the documents were written. -/
def finalWorld {δ : Type} (orig : Nat) (w : World δ) (ds : List (δ × Option Str)) : World δ :=
  { stdout := orig
    opened := w.opened ++ numbered w.next (ds.filterMap (·.2))
    closed := (List.range' w.next (ds.filterMap (·.2)).length).reverse ++ w.closed
    written := w.written ++ plan orig w.next ds
    next := w.next + (ds.filterMap (·.2)).length }

theorem finalWorld_nil {δ : Type} {orig : Nat} {w : World δ} (hr : w.Ready orig) : finalWorld orig w [] = w := by
  unfold finalWorld numbered plan
  cases w; simp only [World.mk.injEq]; simp
  exact hr.1.symm

theorem finalWorld_file {δ : Type} {orig : Nat} {w : World δ} (d : δ) (n : Str) (ds : List (δ × Option Str)) :
    finalWorld orig (World.mk orig (w.opened ++ [(w.next, n)]) (w.next :: w.closed) (w.written ++ [(w.next, d)]) (w.next + 1)) ds = finalWorld orig w ((d, some n) :: ds) := by
  unfold finalWorld
  simp only [List.filterMap_cons, List.length_cons, numbered, plan, List.range'_succ]
  simp only [List.append_assoc, List.reverse_cons, List.cons_append, List.nil_append, World.mk.injEq, true_and]
  omega

theorem finalWorld_stdout {δ : Type} {orig : Nat} {w : World δ} (d : δ) (ds : List (δ × Option Str)) :
    finalWorld orig { w with written := w.written ++ [(orig, d)] } ds = finalWorld orig w ((d, none) :: ds) := by
  unfold finalWorld
  simp [plan]

theorem ready_file {δ : Type} {orig : Nat} {w : World δ} (hr : w.Ready orig) (d : δ) (n : Str) :
    (World.Ready (World.mk orig (w.opened ++ [(w.next, n)]) (w.next :: w.closed) (w.written ++ [(w.next, d)]) (w.next + 1) : World δ) orig) := by
  refine ⟨rfl, ?_, ?_⟩
  · intro h
    rcases List.mem_cons.1 h with h | h
    · exact (hr.3 w.next (Nat.le_refl _)).2 h.symm
    · exact hr.2 h
  · intro h hh
    simp only at hh
    refine ⟨?_, (hr.3 h (by omega)).2⟩
    intro hm
    rcases List.mem_cons.1 hm with hm | hm
    · omega
    · exact (hr.3 h (by omega)).1 hm

theorem ready_stdout {δ : Type} {orig : Nat} {w : World δ} (hr : w.Ready orig) (d : δ) :
    (World.Ready ({ w with written := w.written ++ [(orig, d)] } : World δ) orig) := ⟨hr.1, hr.2, hr.3⟩

theorem docs_perDoc {δ : Type} (orig : Nat) (name : δ → Option Str) (ds : List δ) : ∀ (w : World δ), w.Ready orig →
    (Writer.docs ⟨orig, .perDoc name⟩ w ds).2 = (finalWorld orig w (ds.map (fun d => (d, name d))), none) := by
  induction ds with
  | nil => intro w hr; rw [List.map_nil, finalWorld_nil hr]; rfl
  | cons d ds ih =>
    intro w hr
    unfold Writer.docs Writer.before
    rw [List.map_cons]
    cases hn : name d with
    | some n =>
      obtain ⟨w1, w2, e1, e2, e3⟩ := step_file hr d n
      simp only [hn, e1, e2, e3]
      rw [ih _ (ready_file hr d n), finalWorld_file]
    | none =>
      obtain ⟨e1, _, e2, e3⟩ := step_stdout hr d
      simp only [hn, e1, e2, e3]
      rw [ih _ (ready_stdout hr d), finalWorld_stdout]

theorem docs_stdout {δ : Type} (orig : Nat) (ds : List δ) : ∀ (w : World δ), w.Ready orig →
    (Writer.docs ⟨orig, .stdout⟩ w ds).2 = (finalWorld orig w (ds.map (fun d => (d, none))), none) := by
  induction ds with
  | nil => intro w hr; rw [List.map_nil, finalWorld_nil hr]; rfl
  | cons d ds ih =>
    intro w hr
    unfold Writer.docs Writer.before
    rw [List.map_cons]
    obtain ⟨_, e1, e2, e3⟩ := step_stdout hr d
    simp only [e1, e2, e3]
    rw [ih _ (ready_stdout hr d), finalWorld_stdout]

/-- A writer whose files are known. -/
def fileOr (n : Str) : Option Str := if n = ['-'] then none else some n

theorem docs_names {δ : Type} (orig : Nat) (ds : List δ) : ∀ (w : World δ) (fs : Files), w.Ready orig →
    (Writer.docs ⟨orig, .names fs⟩ w ds).2 =
      (finalWorld orig w (ds.zip ((fs.names.drop fs.number).map fileOr)),
        if ds.length ≤ fs.names.length - fs.number then none else some .runtimeError) ∧
    (ds.length ≤ fs.names.length - fs.number →
      (Writer.docs ⟨orig, .names fs⟩ w ds).1 = ⟨orig, .names { fs with number := fs.number + ds.length }⟩) := by
  induction ds with
  | nil =>
    intro w fs hr
    rw [List.zip_nil_left, finalWorld_nil hr, if_pos (by simp)]
    exact ⟨rfl, fun _ => rfl⟩
  | cons d ds ih =>
    intro w fs hr
    have hnext : fs.next.2 = fs.names[fs.number]? ∧ fs.next.1 = { fs with number := fs.number + 1 } := by
      refine ⟨?_, rfl⟩
      unfold Files.next Files.filename
      simp only
      by_cases hl : fs.number < fs.names.length
      · rw [if_neg (by omega)]; rfl
      · rw [if_pos (by omega), List.getElem?_eq_none (by omega)]
    unfold Writer.docs Writer.before
    by_cases hl : fs.number < fs.names.length
    · have hd : fs.names.drop fs.number = fs.names[fs.number] :: fs.names.drop (fs.number + 1) :=
        List.drop_eq_getElem_cons hl
      have hs : fs.next.2 = some fs.names[fs.number] := by rw [hnext.1, List.getElem?_eq_getElem hl]
      rw [hd, List.map_cons, List.zip_cons_cons]
      generalize fs.names[fs.number] = n at hs
      have key : (ds.length ≤ (fs.next.1).names.length - (fs.next.1).number) ↔ (d :: ds).length ≤ fs.names.length - fs.number := by
        rw [hnext.2, List.length_cons]; simp only; omega
      by_cases hn : n = ['-']
      · obtain ⟨_, e1, e2, e3⟩ := step_stdout hr d
        simp only [hs, if_pos hn, e1, e2, e3]
        obtain ⟨i1, i2⟩ := ih _ fs.next.1 (ready_stdout hr d)
        have hf : fileOr n = none := if_pos hn
        refine ⟨?_, ?_⟩
        · rw [i1, finalWorld_stdout, hf]
          congr 1
          simp only [key]
        · intro hle
          rw [i2 (key.2 hle), hnext.2]
          simp [Nat.add_comm, Nat.add_left_comm]
      · obtain ⟨w1, w2, e1, e2, e3⟩ := step_file hr d n
        simp only [hs, if_neg hn, e1, e2, e3]
        obtain ⟨i1, i2⟩ := ih _ fs.next.1 (ready_file hr d n)
        have hf : fileOr n = some n := if_neg hn
        refine ⟨?_, ?_⟩
        · rw [i1, finalWorld_file, hf]
          congr 1
          simp only [key]
        · intro hle
          rw [i2 (key.2 hle), hnext.2]
          simp [Nat.add_comm, Nat.add_left_comm]
    · have hs : fs.next.2 = none := by rw [hnext.1, List.getElem?_eq_none (by omega)]
      rw [List.drop_eq_nil_of_le (by omega), List.map_nil, List.zip_nil_right, finalWorld_nil hr]
      simp only [hs]
      refine ⟨?_, fun h => ?_⟩
      · rw [if_neg (by simp only [List.length_cons]; omega)]
      · simp only [List.length_cons] at h; omega

theorem mem_numbered {h : Nat} {n : Str} : ∀ {k : Nat} {ns : List Str}, (h, n) ∈ numbered k ns → h ∈ List.range' k ns.length
  | _, [], hm => absurd hm (List.not_mem_nil)
  | k, m :: ns, hm => by
    unfold numbered at hm
    rw [List.length_cons, List.range'_succ]
    rcases List.mem_cons.1 hm with e | hm
    · cases e; exact List.mem_cons_self ..
    · exact List.mem_cons_of_mem _ (mem_numbered hm)

theorem numbered_names (ns : List Str) : ∀ (k : Nat), (numbered k ns).map (·.2) = ns := by
  induction ns with
  | nil => intro k; rfl
  | cons n ns ih => intro k; unfold numbered; rw [List.map_cons, ih]

theorem plan_docs {δ : Type} (orig : Nat) (ds : List (δ × Option Str)) : ∀ (k : Nat), (plan orig k ds).map (·.2) = ds.map (·.1) := by
  induction ds with
  | nil => intro k; rfl
  | cons d ds ih =>
    intro k
    obtain ⟨d, t⟩ := d
    cases t <;> (unfold plan; rw [List.map_cons, List.map_cons, ih])

/-- Each document goes to the file meant for it (or to the original stream). -/
theorem plan_target {δ : Type} (orig : Nat) (ds : List (δ × Option Str)) : ∀ (k : Nat), (∀ h, k ≤ h → h ≠ orig) →
    ∀ i (hi : i < ds.length), ∃ h, (plan orig k ds)[i]? = some (h, ds[i].1) ∧
      (ds[i].2 = none → h = orig) ∧ (∀ n, ds[i].2 = some n → (h, n) ∈ numbered k (ds.filterMap (·.2))) := by
  induction ds with
  | nil => intro k _ i hi; simp at hi
  | cons d ds ih =>
    intro k hk i hi
    obtain ⟨d, t⟩ := d
    cases t with
    | none =>
      unfold plan
      cases i with
      | zero => exact ⟨orig, rfl, fun _ => rfl, fun n h => by simp at h⟩
      | succ i => exact ih k hk i (by simpa using hi)
    | some m =>
      unfold plan
      cases i with
      | zero =>
        refine ⟨k, rfl, fun h => by simp at h, fun n h => ?_⟩
        simp only [List.getElem_cons_zero, Option.some.injEq] at h
        subst h
        simp [numbered]
      | succ i =>
        obtain ⟨h, a, b, c⟩ := ih (k + 1) (fun h hh => hk h (by omega)) i (by simpa using hi)
        refine ⟨h, a, b, fun n hn => ?_⟩
        have := c n hn
        simp only [List.filterMap_cons, numbered]
        exact List.mem_cons_of_mem _ this

/-- What C47 asks for after the documents `ds`, the i-th of which is to go to the file `ts[i]` (or to the stream that was
there before): that stream is back and still open, the files were opened in the order of the documents, all of them are
closed, and each document was written, in order, to its own file. -/
structure Delivered {δ : Type} (orig : Nat) (w w' : World δ) (ds : List δ) (ts : List (Option Str)) : Prop where
  back : w'.stdout = orig ∧ orig ∉ w'.closed
  opened : ∃ hs, w'.opened = w.opened ++ hs ∧ hs.map (·.2) = ts.filterMap id ∧ (∀ p ∈ hs, p.1 ∈ w'.closed) ∧
    ∃ ps, w'.written = w.written ++ ps ∧ ps.map (·.2) = ds ∧
      ∀ i (_ : i < ds.length), ∃ h, ps[i]? = some (h, ds[i]) ∧ (ts[i]? = some none → h = orig) ∧
        ∀ n, ts[i]? = some (some n) → (h, n) ∈ hs

theorem delivered_final {δ : Type} {orig : Nat} {w : World δ} (hr : w.Ready orig) (ds : List (δ × Option Str)) :
    Delivered orig w (finalWorld orig w ds) (ds.map (·.1)) (ds.map (·.2)) := by
  refine ⟨⟨rfl, ?_⟩, numbered w.next (ds.filterMap (·.2)), rfl, ?_, ?_, plan orig w.next ds, rfl, plan_docs .., ?_⟩
  · intro h
    unfold finalWorld at h
    rcases List.mem_append.1 h with h | h
    · rw [List.mem_reverse, List.mem_range'_1] at h
      exact (hr.3 orig h.1).2 rfl
    · exact hr.2 h
  · rw [numbered_names, List.filterMap_map]; rfl
  · rintro ⟨h, n⟩ hm
    unfold finalWorld
    exact List.mem_append_left _ (List.mem_reverse.2 (mem_numbered hm))
  · intro i hi
    rw [List.length_map] at hi
    obtain ⟨h, a, b, c⟩ := plan_target orig ds w.next (fun h hh => (hr.3 h hh).2) i hi
    refine ⟨h, by rw [List.getElem_map]; exact a, ?_, ?_⟩
    · intro e
      rw [List.getElem?_map, List.getElem?_eq_getElem hi, Option.map_some, Option.some.injEq] at e
      exact b e
    · intro n e
      rw [List.getElem?_map, List.getElem?_eq_getElem hi, Option.map_some, Option.some.injEq] at e
      exact c n e

theorem fst_zip {α β : Type} : ∀ (xs : List α) (ys : List β), (xs.zip ys).map (·.1) = xs.take ys.length
  | [], _ => by simp
  | _ :: _, [] => by simp
  | x :: xs, y :: ys => by simp [fst_zip xs ys]

theorem snd_zip {α β : Type} : ∀ (xs : List α) (ys : List β), (xs.zip ys).map (·.2) = ys.take xs.length
  | [], _ => by simp
  | _ :: _, [] => by simp
  | x :: xs, y :: ys => by simp [snd_zip xs ys]

/-- C47 (partial): for every sequence of documents, if the writer writes to stdout, to files named by the documents or to
the given files, and stdout was the original stream before: afterwards stdout is that stream, still open; every file
opened is closed; the files were opened in the given order, and each document was written to its own one. If there are
more documents than files, this holds for the documents that have one, and then RuntimeError is raised.
Missing: a handle given as `filehandle`, for which it is false (`C47_filehandle_violated`). -/
theorem C47_writers_partial {δ : Type} (orig : Nat) (w : World δ) (hr : w.Ready orig) (ds : List δ) :
    (∃ w', (Writer.docs ⟨orig, .stdout⟩ w ds).2 = (w', none) ∧ Delivered orig w w' ds (ds.map fun _ => none)) ∧
    (∀ name : δ → Option Str, ∃ w', (Writer.docs ⟨orig, .perDoc name⟩ w ds).2 = (w', none) ∧
      Delivered orig w w' ds (ds.map name)) ∧
    (∀ names : List Str, ∃ w', (Writer.docs ⟨orig, .names ⟨names, 0⟩⟩ w ds).2 =
        (w', if ds.length ≤ names.length then none else some .runtimeError) ∧
      Delivered orig w w' (ds.take names.length)
        ((names.take ds.length).map (fun n => if n = ['-'] then none else some n))) := by
  refine ⟨⟨_, docs_stdout orig ds w hr, ?_⟩, fun name => ⟨_, docs_perDoc orig name ds w hr, ?_⟩, fun names => ?_⟩
  · have := delivered_final hr (ds.map (fun d => (d, (none : Option Str))))
    simpa [List.map_map, Function.comp_def] using this
  · have := delivered_final hr (ds.map (fun d => (d, name d)))
    simpa [List.map_map, Function.comp_def] using this
  · obtain ⟨h1, _⟩ := docs_names orig ds w ⟨names, 0⟩ hr
    refine ⟨_, h1, ?_⟩
    have := delivered_final hr (ds.zip (names.map fileOr))
    simp only [List.drop_zero]
    have e1 : (ds.zip (names.map fileOr)).map (·.1) = ds.take names.length := by
      rw [fst_zip, List.length_map]
    have e2 : (ds.zip (names.map fileOr)).map (·.2) = (names.take ds.length).map fileOr := by
      rw [snd_zip, List.map_take]
    rw [e1, e2] at this
    exact this

/-- C47 is violated by a writer with `filehandle=...`: the handle is closed after the first document, so that for every
two or more documents the second one fails, and stdout stays the closed handle. -/
theorem C47_filehandle_violated {δ : Type} (orig h : Nat) (w : World δ) (_ : w.Ready orig) (hh : h ∉ w.closed)
    (hne : h ≠ orig) (d d' : δ) (ds : List δ) :
    (Writer.docs ⟨orig, .handle h⟩ w (d :: d' :: ds)).2 =
      ({ w with stdout := h, closed := h :: w.closed, written := w.written ++ [(h, d)] }, some .valueError) := by
  unfold Writer.docs Writer.before World.print
  simp only [if_neg hh]
  unfold Writer.after
  simp only [if_neg hh, ne_eq, hne, not_false_iff, if_true]
  unfold Writer.docs Writer.before World.print World.close
  simp

/-- C71 is violated: an evaluation block with as many files as there are documents (for example one document and
`files=results.txt`) has no file left for the result; the result is printed nowhere. -/
theorem C71_result_violated {δ : Type} (orig : Nat) (w : World δ) (hr : w.Ready orig) (ds : List δ) (names : List Str)
    (hl : ds.length = names.length) (result : δ) :
    let (wr, w', _) := Writer.docs ⟨orig, .names ⟨names, 0⟩⟩ w ds
    wr.finish w' result = (w', some .runtimeError) := by
  obtain ⟨_, h2⟩ := docs_names orig ds w ⟨names, 0⟩ hr
  have h2 := h2 (by simp only; omega)
  simp only [h2]
  unfold Writer.finish Writer.before Files.next Files.filename
  simp only
  rw [if_pos (by omega)]

/-- C71 is violated: with one more file than documents the result is printed to the last one, but this file is never
closed and stdout is never given back. -/
theorem C71_not_closed_violated {δ : Type} (orig : Nat) (w : World δ) (hr : w.Ready orig) (ds : List δ)
    (names : List Str) (last : Str) (hl : ds.length = names.length) (hn : last ≠ ['-']) (result : δ) :
    let (wr, w', _) := Writer.docs ⟨orig, .names ⟨names ++ [last], 0⟩⟩ w ds
    let (w'', e) := wr.finish w' result
    e = none ∧ w''.stdout ≠ orig ∧ ∃ h, (h, last) ∈ w''.opened ∧ h ∉ w''.closed ∧ w''.stdout = h ∧
      (h, result) ∈ w''.written := by
  obtain ⟨h1, h2⟩ := docs_names orig ds w ⟨names ++ [last], 0⟩ hr
  have h2 := h2 (by simp only [List.length_append, List.length_singleton]; omega)
  have h1 := congrArg Prod.fst h1
  simp only at h1
  have hr' : (finalWorld orig w (ds.zip (((names ++ [last]).drop 0).map fileOr))).Ready orig := by
    refine ⟨rfl, (delivered_final hr _).back.2, ?_⟩
    intro h hh
    unfold finalWorld at hh ⊢
    simp only at hh ⊢
    refine ⟨?_, (hr.3 h (by omega)).2⟩
    intro hm
    rcases List.mem_append.1 hm with hm | hm
    · rw [List.mem_reverse, List.mem_range'_1] at hm; omega
    · exact (hr.3 h (by omega)).1 hm
  simp only [h2, h1]
  generalize finalWorld orig w (ds.zip (((names ++ [last]).drop 0).map fileOr)) = v at hr'
  have hx := hr'.3 v.next (Nat.le_refl _)
  obtain ⟨w1, w2, e1, e2, _⟩ := step_file hr' result last
  have hw2 : w2 = { v.open last with written := v.written ++ [(v.next, result)] } := by
    have hc : (v.open last).closeOld v.stdout orig = v.open last := by
      unfold World.closeOld; rw [if_pos (Or.inr hr'.1)]
    rw [hc] at e1
    subst e1
    unfold World.print World.open at e2
    simp only [if_neg hx.1, Prod.mk.injEq, and_true] at e2
    exact e2.symm
  have hnx : (Files.next ⟨names ++ [last], 0 + ds.length⟩).2 = some last := by
    unfold Files.next Files.filename
    simp only [List.length_append, List.length_singleton]
    rw [if_neg (by omega)]
    simp [hl]
  unfold Writer.finish Writer.before
  simp only [hnx, if_neg hn, e1, e2, hw2]
  exact ⟨trivial, hx.2, v.next, by simp [World.open], hx.1, rfl, by simp⟩

/-- C71 (partial): with the default `files=-` the result is printed to stdout, which stays what it was.
Missing: any other destination (`C71_result_violated`, `C71_not_closed_violated`). -/
theorem C71_stdout_partial {δ : Type} (orig : Nat) (w : World δ) (hr : w.Ready orig) (ds : List δ) (result : δ) :
    ∃ w', (Writer.docs ⟨orig, .stdout⟩ w ds).2 = (w', none) ∧
      Writer.finish ⟨orig, .stdout⟩ w' result = ({ w' with written := w'.written ++ [(orig, result)] }, none) ∧
      w'.stdout = orig := by
  refine ⟨_, docs_stdout orig ds w hr, ?_, rfl⟩
  have hb := (delivered_final hr (ds.map (fun d => (d, (none : Option Str))))).back
  unfold Writer.finish Writer.before World.closeOld World.print
  simp only
  rw [if_pos (Or.inl (by rfl))]
  simp only
  rw [if_neg hb.2]
  rfl

def demoWorld : World Nat := ⟨0, [], [], [], 1⟩
def outName : Str := "o".toList
def outName2 : Str := "p".toList

example : demoWorld.Ready 0 := ⟨rfl, by decide, fun h hh => ⟨by simp [demoWorld], by simp [demoWorld] at hh; omega⟩⟩

example :
    ((Writer.docs ⟨0, .names ⟨[outName, ['-'], outName2], 0⟩⟩ demoWorld [7, 8, 9, 10]).2.1.written,
     (Writer.docs ⟨0, .names ⟨[outName, ['-'], outName2], 0⟩⟩ demoWorld [7, 8, 9, 10]).2.1.closed,
     (Writer.docs ⟨0, .names ⟨[outName, ['-'], outName2], 0⟩⟩ demoWorld [7, 8, 9, 10]).2.2) =
      ([(1, 7), (0, 8), (2, 9)], [2, 1], some WErr.runtimeError) := by decide

end Verif.Run
