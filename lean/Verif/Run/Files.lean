import Verif.Py.Text

/-!
# Lists of input and output files (udapi/core/files.py)
-/

namespace Verif.Run
open Verif.Py

/-- The attributes `filenames` and `file_number` (files.py:34-50). -/
structure Files where
  names : List Str
  number : Nat := 0

/-- `filename` (files.py:87-92) -/
def Files.filename (f : Files) : Option Str :=
  if f.number = 0 ∨ f.number > f.names.length then none else f.names[f.number - 1]?

/-- `next_filename` (files.py:94-97) -/
def Files.next (f : Files) : Files × Option Str :=
  let f := { f with number := f.number + 1 }
  (f, f.filename)

/-- `has_next_file` (files.py:99-101) -/
def Files.hasNext (f : Files) : Bool := f.number < f.names.length

/-- The answers to `n` calls of `next_filename`. -/
def Files.nexts (f : Files) : Nat → List (Option Str)
  | 0 => []
  | n + 1 => f.next.2 :: f.next.1.nexts n

/-- How `next_filehandle` (files.py:103-124) opens the next file. -/
inductive Handle
  | stdin
  | given
  | gz (name : Str)
  | xz (name : Str)
  | bz2 (name : Str)
  | plain (name : Str)
  deriving DecidableEq

/-- `<filehandle_input>` (files.py:42) -/
def givenName : Str := ['<', 'f', 'i', 'l', 'e', 'h', 'a', 'n', 'd', 'l', 'e', '_', 'i', 'n', 'p', 'u', 't', '>']

def openHandle (name : Str) : Handle :=
  if name = ['-'] then .stdin
  else if name = givenName then .given
  else
    let ext := (split '.' name).getLast?.getD []
    if ext = ['g', 'z'] then .gz name
    else if ext = ['x', 'z'] then .xz name
    else if ext = ['b', 'z', '2'] then .bz2 name
    else .plain name

def Files.nextHandle (f : Files) : Files × Option Handle := (f.next.1, f.next.2.map openHandle)

/-! ## Parsing a string of file names -/

/-- What the file system knows: `sorted(glob.glob(pattern))`, and the lines of a file list (without their ends). -/
structure FileSystem where
  glob : Str → List Str
  lines : Str → List Str

inductive FilesErr
  | runtimeError
  | indexError
  | typeError
  deriving DecidableEq

/-- `os.path.dirname` -/
def dirname (p : Str) : Str :=
  let head := (p.reverse.dropWhile (fun c => c ≠ '/')).reverse
  if head.any (fun c => c ≠ '/') then (head.reverse.dropWhile (fun c => c = '/')).reverse else head

/-- The name of one entry of a file list (files.py:77); `f[0]` fails on an empty line. -/
def listEntry (directory f : Str) : Except FilesErr Str :=
  match f with
  | [] => .error .indexError
  | c :: _ => if c ≠ '/' then .ok f else .ok (directory ++ '/' :: f)

/-- `_token_to_filenames` (files.py:64-80). -/
def tokenFiles (fs : FileSystem) (token : Str) : Except FilesErr (List Str) :=
  match token with
  | [] => .error .indexError
  | c :: rest =>
    if c = '!' then
      if fs.glob rest = [] then .error .runtimeError else .ok (fs.glob rest)
    else if c = '@' then
      if rest = ['-'] then .error .typeError
      else
        let directory := dirname rest
        if directory ≠ ['.'] then (fs.lines rest).mapM (listEntry directory) else .ok (fs.lines rest)
    else .ok [token]

/-- `s.split()`: maximal pieces without white space. -/
def wsSplitAux : Str → Str → List Str
  | acc, [] => if acc = [] then [] else [acc.reverse]
  | acc, c :: cs =>
    if isWs c then (if acc = [] then wsSplitAux [] cs else acc.reverse :: wsSplitAux [] cs)
    else wsSplitAux (c :: acc) cs

def wsSplit (s : Str) : List Str := wsSplitAux [] s

/-- `string_to_filenames` (files.py:52-62). -/
def stringFiles (fs : FileSystem) (s : Str) : Except FilesErr (List Str) :=
  match (wsSplit (s.map (fun c => if c = ',' then ' ' else c))).mapM (tokenFiles fs) with
  | .ok l => .ok l.flatten
  | .error e => .error e

/-! ## Proofs -/

theorem next_eq (f : Files) : f.next = ({ f with number := f.number + 1 }, f.names[f.number]?) := by
  unfold Files.next Files.filename
  simp only
  congr 1
  split
  · next h => symm; rw [List.getElem?_eq_none_iff]; omega
  · rfl

theorem nexts_eq (n : Nat) : ∀ f : Files, f.nexts n = (List.range' f.number n).map (fun i => f.names[i]?) := by
  induction n with
  | zero => intro f; rfl
  | succ n ih =>
    intro f
    unfold Files.nexts
    rw [ih, next_eq, List.range'_succ]
    rfl

/-- C46: the calls of `next_filename` return the files in the given order, each once, and after that always `None`. -/
theorem C46_each_once (names : List Str) (extra : Nat) :
    (Files.mk names 0).nexts (names.length + extra) = names.map some ++ List.replicate extra none := by
  rw [nexts_eq]
  show (List.range' 0 (names.length + extra)).map (fun i => names[i]?) = _
  rw [← List.range'_append_1, List.map_append]
  congr 1
  · apply List.ext_getElem?
    intro i
    rw [List.getElem?_map, List.getElem?_map]
    by_cases h : i < names.length
    · rw [List.getElem?_range' h]; simp [h]
    · rw [List.getElem?_eq_none (by simp; omega), List.getElem?_eq_none (by omega)]; rfl
  · rw [List.eq_replicate_iff]
    refine ⟨by simp, ?_⟩
    intro b hb
    obtain ⟨i, hi, rfl⟩ := List.mem_map.1 hb
    have := List.mem_range'_1.1 hi
    rw [List.getElem?_eq_none_iff]; omega

/-- C46: in every state, `has_next_file` is true exactly if the next call of `next_filename` returns a file. -/
theorem C46_has_next (f : Files) : f.hasNext = true ↔ f.next.2 ≠ none := by
  rw [next_eq]
  unfold Files.hasNext
  simp

/-- C46: after `next_filename`, `filename` is what it returned; `next_filehandle` opens that very file, and returns
`None` exactly if there is no more file. -/
theorem C46_current (f : Files) : f.next.1.filename = f.next.2 ∧ (f.nextHandle.1 = f.next.1) ∧
    (f.nextHandle.2 = none ↔ f.next.2 = none) ∧ ∀ name, f.next.2 = some name → f.nextHandle.2 = some (openHandle name) := by
  refine ⟨rfl, rfl, by simp [Files.nextHandle], ?_⟩
  intro name h
  simp [Files.nextHandle, h]

theorem split_getLast {c : Char} {e : Str} (h : c ∉ e) : ∀ (a : Str), (split c (a ++ c :: e)).getLast? = some e := by
  intro a
  induction a with
  | nil => rw [List.nil_append]; simp [split, split_of_not_mem h]
  | cons x a ih =>
    rw [List.cons_append]
    unfold split
    by_cases hx : x = c
    · rw [if_pos hx]
      rw [List.getLast?_cons, ih]; rfl
    · rw [if_neg hx]
      cases hs : split c (a ++ c :: e) with
      | nil => exact absurd hs (split_ne_nil c _)
      | cons p ps =>
        rw [hs] at ih
        cases ps with
        | nil =>
          have h1 := join_split c (a ++ c :: e)
          rw [hs] at h1
          have h2 := not_mem_split c (a ++ c :: e) p (by rw [hs]; simp)
          simp only [join] at h1
          exact absurd (h1 ▸ by simp) h2
        | cons q qs => simpa [List.getLast?_cons_cons] using ih

/-- C46: `next_filehandle` opens the file of that name; names that end in `.gz`, `.xz` and `.bz2` are decompressed, `-` is
stdin, and all other names are opened as they are. -/
theorem C46_opens (stem : Str) :
    openHandle ['-'] = .stdin ∧
    openHandle (stem ++ ['.', 'g', 'z']) = .gz (stem ++ ['.', 'g', 'z']) ∧
    openHandle (stem ++ ['.', 'x', 'z']) = .xz (stem ++ ['.', 'x', 'z']) ∧
    openHandle (stem ++ ['.', 'b', 'z', '2']) = .bz2 (stem ++ ['.', 'b', 'z', '2']) ∧
    ∀ ext, '.' ∉ ext → ext ≠ ['g', 'z'] → ext ≠ ['x', 'z'] → ext ≠ ['b', 'z', '2'] →
      openHandle (stem ++ '.' :: ext) = .plain (stem ++ '.' :: ext) := by
  have hg : '.' ∉ givenName := by decide
  have h1 : ∀ ext : Str, stem ++ '.' :: ext ≠ ['-'] := by
    intro ext e
    have : '.' ∈ ['-'] := by rw [← e]; simp
    exact absurd this (by decide)
  have h2 : ∀ ext : Str, stem ++ '.' :: ext ≠ givenName := by
    intro ext e
    exact hg (by rw [← e]; simp)
  have key : ∀ ext : Str, '.' ∉ ext → openHandle (stem ++ '.' :: ext) =
      if ext = ['g', 'z'] then .gz (stem ++ '.' :: ext) else if ext = ['x', 'z'] then .xz (stem ++ '.' :: ext)
      else if ext = ['b', 'z', '2'] then .bz2 (stem ++ '.' :: ext) else .plain (stem ++ '.' :: ext) := by
    intro ext he
    unfold openHandle
    rw [if_neg (h1 ext), if_neg (h2 ext), split_getLast he stem]
    rfl
  refine ⟨by decide, ?_, ?_, ?_, ?_⟩
  · exact key ['g', 'z'] (by decide)
  · exact key ['x', 'z'] (by decide)
  · exact key ['b', 'z', '2'] (by decide)
  · intro ext he n1 n2 n3
    rw [key ext he, if_neg n1, if_neg n2, if_neg n3]

example : openHandle ['a', '.', 'b', '.', 'g', 'z'] = .gz ['a', '.', 'b', '.', 'g', 'z'] ∧ openHandle ['g', 'z'] = .gz ['g', 'z'] := by
  decide

theorem wsSplitAux_piece {p : Str} (h : ∀ c ∈ p, isWs c = false) (acc : Str) (rest : Str) :
    wsSplitAux acc (p ++ rest) = wsSplitAux (p.reverse ++ acc) rest := by
  induction p generalizing acc with
  | nil => rfl
  | cons c p ih =>
    have step : wsSplitAux acc (c :: (p ++ rest)) = wsSplitAux (c :: acc) (p ++ rest) := by
      conv => lhs; unfold wsSplitAux
      rw [if_neg (by simp [h c (List.mem_cons_self ..)])]
    show wsSplitAux acc (c :: (p ++ rest)) = _
    rw [step, ih (fun d hd => h d (List.mem_cons_of_mem _ hd))]
    simp

/-- Pieces joined with single white space characters are split again. -/
theorem wsSplit_join : ∀ (ps : List Str), (∀ p ∈ ps, p ≠ [] ∧ ∀ c ∈ p, isWs c = false) →
    wsSplit (join [' '] ps) = ps := by
  intro ps
  induction ps with
  | nil => intro _; rfl
  | cons p ps ih =>
    intro h
    obtain ⟨h1, h2⟩ := h p (List.mem_cons_self ..)
    cases ps with
    | nil =>
      show wsSplitAux [] p = _
      have := wsSplitAux_piece h2 [] []
      rw [List.append_nil] at this
      rw [this]
      unfold wsSplitAux
      rw [if_neg (by simpa using h1)]
      simp
    | cons q qs =>
      show wsSplitAux [] (p ++ [' '] ++ join [' '] (q :: qs)) = _
      rw [List.append_assoc, wsSplitAux_piece h2, List.append_nil]
      show wsSplitAux p.reverse (' ' :: join [' '] (q :: qs)) = _
      unfold wsSplitAux
      rw [if_pos (by decide), if_neg (by simpa using h1)]
      have := ih (fun x hx => h x (List.mem_cons_of_mem _ hx))
      unfold wsSplit at this
      rw [this, List.reverse_reverse]

/-- An ordinary file name: not empty, no white space and no comma in it, and neither `!` nor `@` at its beginning. -/
def PlainName (n : Str) : Prop := n ≠ [] ∧ (∀ c ∈ n, isWs c = false ∧ c ≠ ',') ∧ n.head? ≠ some '!' ∧ n.head? ≠ some '@'

theorem mapM_plain (fs : FileSystem) : ∀ (names : List Str), (∀ n ∈ names, PlainName n) →
    names.mapM (tokenFiles fs) = .ok (names.map (fun n => [n])) := by
  intro names
  induction names with
  | nil => intro _; rfl
  | cons n ns ih =>
    intro h
    obtain ⟨h1, _, h3, h4⟩ := h n (List.mem_cons_self ..)
    have e : tokenFiles fs n = .ok [n] := by
      cases n with
      | nil => exact absurd rfl h1
      | cons c cs =>
        unfold tokenFiles
        simp only
        rw [if_neg (by intro e; exact h3 (by simp [e])), if_neg (by intro e; exact h4 (by simp [e]))]
    rw [List.mapM_cons, e, ih (fun m hm => h m (List.mem_cons_of_mem _ hm))]
    rfl

theorem map_join_comma (ps : List Str) (h : ∀ p ∈ ps, ∀ c ∈ p, c ≠ ',') (sep : Char) (hs : sep = ',' ∨ sep = ' ') :
    (join [sep] ps).map (fun c => if c = ',' then ' ' else c) = join [' '] ps := by
  have hp : ∀ p ∈ ps, p.map (fun c => if c = ',' then ' ' else c) = p := by
    intro p hp
    conv => rhs; rw [← List.map_id p]
    apply List.map_congr_left
    intro c hc
    rw [if_neg (h p hp c hc)]; rfl
  have hsep : (if sep = ',' then ' ' else sep) = ' ' := by rcases hs with rfl | rfl <;> rfl
  induction ps with
  | nil => rfl
  | cons p ps ih =>
    cases ps with
    | nil => exact hp p (List.mem_cons_self ..)
    | cons q qs =>
      show ((p ++ [sep] ++ join [sep] (q :: qs)).map _) = p ++ [' '] ++ join [' '] (q :: qs)
      rw [List.map_append, List.map_append, hp p (List.mem_cons_self ..),
        ih (fun x hx => h x (List.mem_cons_of_mem _ hx)) (fun x hx => hp x (List.mem_cons_of_mem _ hx))]
      simp [hsep]

/-- C46: file names separated by commas, or by spaces, are taken as given, in order. -/
theorem C46_names (fs : FileSystem) (names : List Str) (h : ∀ n ∈ names, PlainName n) (sep : Char)
    (hs : sep = ',' ∨ sep = ' ') : stringFiles fs (join [sep] names) = .ok names := by
  unfold stringFiles
  rw [map_join_comma names (fun n hn c hc => ((h n hn).2.1 c hc).2) sep hs,
    wsSplit_join names (fun n hn => ⟨(h n hn).1, fun c hc => ((h n hn).2.1 c hc).1⟩), mapM_plain fs names h]
  show Except.ok (names.map (fun n => [n])).flatten = _
  congr 1
  clear h
  induction names with
  | nil => rfl
  | cons n ns ih => rw [List.map_cons, List.flatten_cons, ih]; rfl

/-- What the entries of a file list in the directory `dir` stand for. -/
def expectedEntry (dir f : Str) : Str := if f.head? = some '/' ∨ dir = [] then f else dir ++ '/' :: f

/-- C46 is violated: for every file list that is in some other directory, entries that are not absolute are not taken
relative to that directory, and absolute entries are. -/
theorem C46_filelist_violated (fs : FileSystem) (list entry : Str) (hd : dirname list ≠ [] ∧ dirname list ≠ ['.'])
    (hl : fs.lines list = [entry]) (he : entry ≠ []) (hm : list ≠ ['-']) :
    ∃ got, tokenFiles fs ('@' :: list) = .ok [got] ∧ got ≠ expectedEntry (dirname list) entry := by
  cases entry with
  | nil => exact absurd rfl he
  | cons c cs =>
    have e : tokenFiles fs ('@' :: list) = (fs.lines list).mapM (listEntry (dirname list)) := by
      unfold tokenFiles
      simp only
      rw [if_neg (by decide), if_pos trivial, if_neg hm, if_pos hd.2]
    rw [e, hl]
    by_cases hc : c = '/'
    · refine ⟨dirname list ++ '/' :: c :: cs, ?_, ?_⟩
      · rw [List.mapM_cons]; simp [listEntry, hc]; rfl
      · unfold expectedEntry
        rw [if_pos (Or.inl (by simp [hc]))]
        intro h
        have := congrArg List.length h
        simp at this
        omega
    · refine ⟨c :: cs, ?_, ?_⟩
      · rw [List.mapM_cons]; simp [listEntry, hc]; rfl
      · unfold expectedEntry
        rw [if_neg (by simp [hc, hd.1])]
        intro h
        have := congrArg List.length h
        simp at this
        omega

/-- C46 (file lists, partial): entries that are not absolute, in a list in the current directory. -/
theorem C46_filelist_partial (fs : FileSystem) (list : Str) (hd : dirname list = [])
    (he : ∀ f ∈ fs.lines list, f ≠ [] ∧ f.head? ≠ some '/') (hm : list ≠ ['-']) :
    tokenFiles fs ('@' :: list) = .ok ((fs.lines list).map (expectedEntry (dirname list))) := by
  have e : tokenFiles fs ('@' :: list) = (fs.lines list).mapM (listEntry (dirname list)) := by
    unfold tokenFiles
    simp only
    rw [if_neg (by decide), if_pos trivial, if_neg hm, if_pos (by rw [hd]; decide)]
  rw [e, hd]
  clear e
  generalize fs.lines list = l at *
  induction l with
  | nil => rfl
  | cons f l ih =>
    obtain ⟨h1, h2⟩ := he f (List.mem_cons_self ..)
    have : listEntry [] f = .ok f := by
      cases f with
      | nil => exact absurd rfl h1
      | cons c cs => unfold listEntry; simp only; rw [if_pos (by intro e; exact h2 (by simp [e]))]
    rw [List.mapM_cons, this, ih (fun g hg => he g (List.mem_cons_of_mem _ hg))]
    simp [expectedEntry]
    rfl

def noFiles : FileSystem := ⟨fun _ => [], fun _ => ["a.conllu".toList]⟩

example : (stringFiles noFiles "a.conllu,b.gz".toList).toOption = some ["a.conllu".toList, "b.gz".toList] := by decide
example : ∀ n ∈ ["a.conllu".toList, "b.gz".toList], PlainName n := by unfold PlainName; decide
example : dirname "lists/my.list".toList = "lists".toList ∧
    (tokenFiles noFiles "@lists/my.list".toList).toOption = some ["a.conllu".toList] ∧
    expectedEntry "lists".toList "a.conllu".toList = "lists/a.conllu".toList := by decide
example : (Files.mk ["a".toList, "b".toList] 0).nexts 4 = [some "a".toList, some "b".toList, none, none] := by decide

end Verif.Run
