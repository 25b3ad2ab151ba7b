import Verif.Conllu.File

/-!
# Splitting a CoNLL-U file into sentences: theorems
-/

namespace Verif.Conllu
open Verif.Py

/-- A block: some lines, none of them empty. -/
def BlockOk (b : List Str) : Prop := b ≠ [] ∧ ∀ l ∈ b, l ≠ [] ∧ '\n' ∉ l

/-- The text of a block, the newline at the end of its last line, and `k` empty lines. -/
def blockText (b : List Str) (k : Nat) : Str := join ['\n'] b ++ '\n' :: List.replicate k '\n'

/-- The text of a file. -/
def fileText : List (List Str × Nat) → Str
  | [] => []
  | (b, k) :: bs => blockText b k ++ fileText bs

theorem reSplit_line (l : Str) (hl : '\n' ∉ l) : ∀ (cur x : Str),
    reSplit cur false (l ++ x) = reSplit (l.reverse ++ cur) false x := by
  induction l with
  | nil => intro cur x; rfl
  | cons c l ih =>
    intro cur x
    have hc : c ≠ '\n' := fun e => hl (by simp [e])
    rw [List.cons_append, reSplit, if_neg (by simp), if_neg (fun h => hc h.1),
      ih (fun h => hl (List.mem_cons_of_mem _ h))]
    simp

theorem reSplit_start {c : Char} (hc : c ≠ '\n') (sep : Bool) (cur x : Str) :
    reSplit cur sep (c :: x) = reSplit cur false (c :: x) := by
  simp only [reSplit]
  rw [if_neg (fun h => hc h.2), if_neg (fun h => hc h.1), if_neg (by simp)]

theorem block_head {b : List Str} (hb : BlockOk b) : ∃ c r, join ['\n'] b = c :: r ∧ c ≠ '\n' := by
  obtain ⟨hne, hl⟩ := hb
  match b, hne with
  | l :: ls, _ =>
    obtain ⟨h1, h2⟩ := hl l List.mem_cons_self
    match l, h1 with
    | c :: r, _ =>
      refine ⟨c, r ++ (if ls = [] then [] else ['\n'] ++ join ['\n'] ls), ?_, fun e => h2 (by simp [e])⟩
      cases ls with
      | nil => simp [join]
      | cons l' ls => simp [join]

theorem reSplit_block : ∀ (b : List Str), BlockOk b → ∀ (cur x : Str),
    reSplit cur false (join ['\n'] b ++ x) = reSplit ((join ['\n'] b).reverse ++ cur) false x
  | [], h, _, _ => absurd rfl h.1
  | [l], h, cur, x => reSplit_line l (h.2 l (by simp)).2 cur x
  | l :: l' :: ls, h, cur, x => by
    have hl := h.2 l (by simp)
    have hb : BlockOk (l' :: ls) := ⟨by simp, fun y hy => h.2 y (List.mem_cons_of_mem _ hy)⟩
    obtain ⟨c, r, hc, hcn⟩ := block_head hb
    have ih := reSplit_block (l' :: ls) hb ('\n' :: (l.reverse ++ cur)) x
    have e : join ['\n'] (l :: l' :: ls) ++ x = l ++ ('\n' :: (join ['\n'] (l' :: ls) ++ x)) := by simp [join]
    rw [e, reSplit_line l hl.2]
    have : reSplit (l.reverse ++ cur) false ('\n' :: (join ['\n'] (l' :: ls) ++ x)) =
        reSplit ('\n' :: (l.reverse ++ cur)) false (join ['\n'] (l' :: ls) ++ x) := by
      rw [reSplit, if_neg (by simp), if_neg]
      rw [hc]
      intro h
      simp at h
      exact hcn h
    rw [this, ih]
    simp [join]

theorem reSplit_newlines (k : Nat) (cur x : Str) : reSplit cur true (List.replicate k '\n' ++ x) = reSplit cur true x := by
  induction k with
  | zero => rfl
  | succ k ih => rw [List.replicate_succ, List.cons_append, reSplit, if_pos ⟨rfl, rfl⟩, ih]

theorem reSplit_blocks : ∀ (bs : List (List Str × Nat)), (∀ p ∈ bs, BlockOk p.1 ∧ 1 ≤ p.2) → ∀ (sep : Bool) (x : Str),
    reSplit [] sep (fileText bs ++ x) =
      bs.map (fun p => join ['\n'] p.1) ++ reSplit [] (if bs = [] then sep else true) x
  | [], _, sep, x => rfl
  | (b, k) :: bs, h, sep, x => by
    obtain ⟨hb, hk⟩ := h (b, k) List.mem_cons_self
    obtain ⟨c, r, hc, hcn⟩ := block_head hb
    have e : fileText ((b, k) :: bs) ++ x = join ['\n'] b ++ ('\n' :: (List.replicate k '\n' ++ (fileText bs ++ x))) := by
      simp [fileText, blockText]
    have hs : ∀ y, reSplit [] sep (join ['\n'] b ++ y) = reSplit [] false (join ['\n'] b ++ y) := by
      intro y
      rw [hc, List.cons_append, reSplit_start hcn]
    obtain ⟨k', rfl⟩ : ∃ k', k = k' + 1 := ⟨k - 1, by simp only at hk; omega⟩
    rw [e, hs, reSplit_block b hb, reSplit, if_neg (by simp), if_pos ⟨rfl, by simp [List.replicate_succ]⟩,
      reSplit_newlines, reSplit_blocks bs (fun p hp => h p (List.mem_cons_of_mem _ hp))]
    simp

theorem blocks_of_pieces {bs : List (List Str)} (h : ∀ b ∈ bs, BlockOk b) :
    ((bs.map (join ['\n'])).filter (fun s => s ≠ [])).map (split '\n') = bs := by
  rw [List.filter_eq_self.2, List.map_map]
  · conv => rhs; rw [← List.map_id bs]
    apply List.map_congr_left
    intro b hb
    exact split_join (h b hb).1 (fun l hl => ((h b hb).2 l hl).2)
  · intro s hs
    obtain ⟨b, hb, rfl⟩ := List.mem_map.1 hs
    obtain ⟨c, r, hc, _⟩ := block_head (h b hb)
    simp [hc]

/-- C30: splitting the text of a file that consists of blocks, each followed by one or more empty lines, and
possibly of two or more newlines at the start, gives back exactly the blocks in order. -/
theorem C30_blocks (bs : List (List Str × Nat)) (h : ∀ p ∈ bs, BlockOk p.1 ∧ 1 ≤ p.2) (n : Nat) (hn : n ≠ 1) :
    blocksFast (List.replicate n '\n' ++ fileText bs) = bs.map (·.1) := by
  have key : ∀ sep, ((reSplit [] sep (fileText bs)).filter (fun s => s ≠ [])).map (split '\n') = bs.map (·.1) := by
    intro sep
    have := reSplit_blocks bs h sep []
    rw [List.append_nil] at this
    rw [this, List.filter_append]
    have h0 : (reSplit [] (if bs = [] then sep else true) []).filter (fun s => s ≠ []) = [] := by
      simp [reSplit]
    rw [h0, List.append_nil]
    have := blocks_of_pieces (bs := bs.map (·.1)) (by
      intro b hb
      obtain ⟨p, hp, rfl⟩ := List.mem_map.1 hb
      exact (h p hp).1)
    rw [List.map_map] at this
    exact this
  unfold blocksFast
  match n, hn with
  | 0, _ => exact key false
  | n + 2, _ =>
    rw [List.replicate_succ, List.replicate_succ, List.cons_append, List.cons_append, reSplit, if_neg (by simp),
      if_pos ⟨rfl, rfl⟩]
    rw [List.filter_cons_of_neg (by simp)]
    rw [reSplit, if_pos ⟨rfl, rfl⟩, reSplit_newlines]
    exact key true

/-- C30, the last block may end the text without a newline. -/
theorem C30_last_block (bs : List (List Str × Nat)) (h : ∀ p ∈ bs, BlockOk p.1 ∧ 1 ≤ p.2) (b : List Str) (hb : BlockOk b) :
    blocksFast (fileText bs ++ join ['\n'] b) = bs.map (·.1) ++ [b] := by
  unfold blocksFast
  rw [reSplit_blocks bs h]
  obtain ⟨c, r, hc, hcn⟩ := block_head hb
  have : reSplit [] (if bs = [] then false else true) (join ['\n'] b) = [join ['\n'] b] := by
    have h1 := reSplit_block b hb [] []
    rw [List.append_nil, List.append_nil] at h1
    rw [hc, reSplit_start hcn, ← hc, h1]
    simp [reSplit]
  rw [this]
  have := blocks_of_pieces (bs := bs.map (·.1) ++ [b]) (by
    intro b' hb'
    rcases List.mem_append.1 hb' with hb' | hb'
    · obtain ⟨p, hp, rfl⟩ := List.mem_map.1 hb'
      exact (h p hp).1
    · rw [List.mem_singleton] at hb'
      rw [hb']; exact hb)
  rw [List.map_append, List.map_map] at this
  exact this

example : blocksFast "# c\n1\ta\n\n\n1\tb\n\n".toList = [["# c".toList, "1\ta".toList], ["1\tb".toList]] := by decide

/-! ## C62 -/

/-- C62 is violated for every file: if the last block ends with a newline but no empty line follows, the last
block gets an additional empty line, and reading an empty line raises `IndexError`. -/
theorem C62_missing_empty_line_violated (lower : Str → Str) (o : Opts) (fuel : Nat) (bs : List (List Str × Nat))
    (h : ∀ p ∈ bs, BlockOk p.1 ∧ 1 ≤ p.2) (b : List Str) (hb : BlockOk b) :
    blocksFast (fileText bs ++ blockText b 0) = bs.map (·.1) ++ [b ++ [[]]] ∧
    ∃ e, readTree lower o fuel (b ++ [[]]) = .error e := by
  constructor
  · unfold blocksFast
    rw [reSplit_blocks bs h]
    obtain ⟨c, r, hc, hcn⟩ := block_head hb
    have h1 : reSplit [] (if bs = [] then false else true) (blockText b 0) = [join ['\n'] b ++ ['\n']] := by
      have h1 := reSplit_block b hb [] ['\n']
      have h2 : blockText b 0 = join ['\n'] b ++ ['\n'] := rfl
      rw [h2, hc, List.cons_append, reSplit_start hcn, ← List.cons_append, ← hc, h1]
      simp [reSplit]
    rw [h1]
    have h2 := blocks_of_pieces (bs := bs.map (·.1)) (by
      intro b' hb'
      obtain ⟨p, hp, rfl⟩ := List.mem_map.1 hb'
      exact (h p hp).1)
    rw [List.map_map] at h2
    rw [List.filter_append, List.map_append]
    have h3 : ([join ['\n'] b ++ ['\n']].filter (fun s => s ≠ [])).map (split '\n') = [b ++ [[]]] := by
      have hs := split_join (c := '\n') (ps := b ++ [[]]) (by simp) (by
        intro p hp
        rcases List.mem_append.1 hp with hp | hp
        · exact (hb.2 p hp).2
        · rw [List.mem_singleton] at hp; rw [hp]; simp)
      have hj : ∀ (b : List Str), b ≠ [] → join ['\n'] (b ++ [[]]) = join ['\n'] b ++ ['\n'] := by
        intro b
        induction b with
        | nil => intro h; exact absurd rfl h
        | cons l ls ih =>
          intro _
          cases ls with
          | nil => simp [join]
          | cons l' ls =>
            have := ih (by simp)
            simp only [List.cons_append, join] at this ⊢
            rw [this]; simp
      rw [hj b hb.1] at hs
      simp [hs]
    rw [h3]
    congr 1
  · have key : ∀ (ls : List Str) (a : Acc), ∃ e, readLines o a (ls ++ [[]]) = .error e := by
      intro ls
      induction ls with
      | nil => intro a; exact ⟨.indexError, rfl⟩
      | cons l ls ih =>
        intro a
        simp only [List.cons_append, readLines]
        cases readLine o a l with
        | error e => exact ⟨e, rfl⟩
        | ok a' => exact ih a'
    obtain ⟨e, he⟩ := key b ⟨[], [], []⟩
    exact ⟨e, by unfold readTree; rw [he]⟩

/-- C62 (partial): with an empty line at the end, or with no newline at the end, all blocks are found. -/
theorem C62_last_block_partial (bs : List (List Str × Nat)) (h : ∀ p ∈ bs, BlockOk p.1 ∧ 1 ≤ p.2) (b : List Str)
    (hb : BlockOk b) (k : Nat) (hk : 1 ≤ k) :
    blocksFast (fileText bs ++ blockText b k) = bs.map (·.1) ++ [b] ∧
    blocksFast (fileText bs ++ join ['\n'] b) = bs.map (·.1) ++ [b] := by
  refine ⟨?_, C30_last_block bs h b hb⟩
  have hf : ∀ (bs : List (List Str × Nat)), fileText (bs ++ [(b, k)]) = fileText bs ++ blockText b k := by
    intro bs
    induction bs with
    | nil => simp [fileText]
    | cons p bs ih => simp only [List.cons_append, fileText, ih, List.append_assoc]
  have := C30_blocks (bs ++ [(b, k)]) (by
    intro p hp
    rcases List.mem_append.1 hp with hp | hp
    · exact h p hp
    · rw [List.mem_singleton] at hp; rw [hp]; exact ⟨hb, hk⟩) 0 (by decide)
  rw [List.replicate_zero, List.nil_append, hf] at this
  rw [this]
  simp

example : blocksFast "1\ta\n".toList = [["1\ta".toList, []]] := by decide

/-! ## C63: one by one -/

/-- A line that `rstrip` leaves alone. -/
def LineOk (l : Str) : Prop := l ≠ [] ∧ '\n' ∉ l ∧ rstrip l = l

theorem nextBlock_block (b : List Str) (hb : ∀ l ∈ b, l ≠ []) (rest : List Str) :
    nextBlock (b ++ [] :: rest) = (b, rest) := by
  induction b with
  | nil => simp [nextBlock]
  | cons l b ih =>
    rw [List.cons_append, nextBlock, if_neg (hb l List.mem_cons_self),
      ih (fun l' h => hb l' (List.mem_cons_of_mem _ h))]

/-- The lines of a file: the lines of each block and `k` empty lines. -/
def fileLineList : List (List Str × Nat) → List Str
  | [] => []
  | (b, k) :: bs => b ++ (List.replicate k [] ++ fileLineList bs)

theorem readSlow_cons {T : Type} (parse : List Str → Option T) {b : List Str} (hb : ∀ l ∈ b, l ≠ []) (rest : List Str) :
    readSlow parse (b ++ [] :: rest) =
      match parse b with
      | none => []
      | some t => t :: readSlow parse rest := by
  rw [readSlow, dif_neg (by simp), nextBlock_block b hb]
  rfl

theorem split_blockText (b : List Str) (hb : BlockOk b) (k : Nat) (x : Str) :
    split '\n' (blockText b k ++ x) = b ++ (List.replicate k [] ++ split '\n' x) := by
  have h1 : ∀ (k : Nat) (x : Str), split '\n' (List.replicate k '\n' ++ x) = List.replicate k [] ++ split '\n' x := by
    intro k
    induction k with
    | zero => intro x; rfl
    | succ k ih =>
      intro x
      rw [List.replicate_succ, List.cons_append, split, if_pos rfl, ih, List.replicate_succ, List.cons_append]
  have h2 : ∀ (b : List Str), BlockOk b → ∀ y, split '\n' (join ['\n'] b ++ '\n' :: y) = b ++ split '\n' y := by
    intro b
    induction b with
    | nil => intro h; exact absurd rfl h.1
    | cons l ls ih =>
      intro h y
      cases ls with
      | nil => simp only [join, List.cons_append, List.nil_append]; exact split_append (h.2 l (by simp)).2 y
      | cons l' ls =>
        have e : join ['\n'] (l :: l' :: ls) ++ '\n' :: y = l ++ '\n' :: (join ['\n'] (l' :: ls) ++ '\n' :: y) := by
          simp [join]
        rw [e, split_append (h.2 l (by simp)).2, ih ⟨by simp, fun z hz => h.2 z (List.mem_cons_of_mem _ hz)⟩]
        rfl
  unfold blockText
  rw [List.append_assoc, List.cons_append, h2 b hb, h1]

theorem fileLines_eq (bs : List (List Str × Nat)) (h : ∀ p ∈ bs, BlockOk p.1 ∧ ∀ l ∈ p.1, LineOk l) :
    fileLines (fileText bs) = fileLineList bs := by
  have h1 : split '\n' (fileText bs) = fileLineList bs ++ [[]] := by
    induction bs with
    | nil => rfl
    | cons p bs ih =>
      obtain ⟨b, k⟩ := p
      rw [fileText, split_blockText b (h (b, k) List.mem_cons_self).1,
        ih (fun p hp => h p (List.mem_cons_of_mem _ hp))]
      simp [fileLineList]
  unfold fileLines
  simp only [h1]
  rw [if_pos (by simp), List.dropLast_concat]
  conv => rhs; rw [← List.map_id (fileLineList bs)]
  apply List.map_congr_left
  intro l hl
  have h2 : ∀ (bs : List (List Str × Nat)), (∀ p ∈ bs, BlockOk p.1 ∧ ∀ l ∈ p.1, LineOk l) →
      ∀ l ∈ fileLineList bs, rstrip l = l := by
    intro bs
    induction bs with
    | nil => intro _ l hl; simp [fileLineList] at hl
    | cons p bs ih =>
      obtain ⟨b, k⟩ := p
      intro h l hl
      rw [fileLineList] at hl
      rcases List.mem_append.1 hl with hl | hl
      · exact ((h (b, k) List.mem_cons_self).2 l hl).2.2
      · rcases List.mem_append.1 hl with hl | hl
        · rw [(List.mem_replicate.1 hl).2]; rfl
        · exact ih (fun p hp => h p (List.mem_cons_of_mem _ hp)) l hl
  exact h2 bs h l hl

/-- C63 (partial): if every block is followed by exactly one empty line, `rstrip` does not change the lines, and
every block is a sentence (`read_tree_from_lines` does not answer `None`), then reading the file one
sentence at a time gives the same sentences as reading it at once, namely those of the blocks.
Missing: several empty lines, and blocks without words, where the claim is false. -/
theorem C63_one_by_one_partial {T : Type} (parse : List Str → Option T) (bs : List (List Str))
    (h : ∀ b ∈ bs, BlockOk b ∧ (∀ l ∈ b, LineOk l) ∧ parse b ≠ none) :
    readSlow parse (fileLines (fileText (bs.map (fun b => (b, 1))))) = bs.filterMap parse ∧
    readFast parse (fileText (bs.map (fun b => (b, 1)))) = some (bs.filterMap parse) := by
  have hbs : ∀ p ∈ bs.map (fun b => (b, 1)), BlockOk p.1 ∧ 1 ≤ p.2 := by
    intro p hp
    obtain ⟨b, hb, rfl⟩ := List.mem_map.1 hp
    exact ⟨(h b hb).1, Nat.le_refl 1⟩
  constructor
  · rw [fileLines_eq _ (by
      intro p hp
      obtain ⟨b, hb, rfl⟩ := List.mem_map.1 hp
      exact ⟨(h b hb).1, (h b hb).2.1⟩)]
    clear hbs
    induction bs with
    | nil => unfold readSlow; simp [fileLineList]
    | cons b bs ih =>
      obtain ⟨hb, _, hp⟩ := h b List.mem_cons_self
      have e : fileLineList ((b :: bs).map (fun b => (b, 1))) = b ++ [] :: fileLineList (bs.map (fun b => (b, 1))) := rfl
      rw [e, readSlow_cons parse (fun l hl => (hb.2 l hl).1), ih (fun b' hb' => h b' (List.mem_cons_of_mem _ hb'))]
      cases hpb : parse b with
      | none => exact absurd hpb hp
      | some t => simp [hpb]
  · have hb := C30_blocks (bs.map (fun b => (b, 1))) hbs 0 (by decide)
    rw [List.replicate_zero, List.nil_append, List.map_map] at hb
    have hb : blocksFast (fileText (bs.map (fun b => (b, 1)))) = bs := by
      rw [hb]; conv => rhs; rw [← List.map_id bs]
      rfl
    unfold readFast
    rw [hb]
    split
    · rename_i ts hts
      cases bs with
      | nil => simp at hts
      | cons b bs =>
        simp only [List.map_cons, List.cons.injEq] at hts
        exact absurd hts.1 (h b List.mem_cons_self).2.2
    · rw [List.filterMap_map]; rfl

/-- C63 is violated for every file: after a second empty line, or after a block without words (for which
`read_tree_from_lines` answers `None`), nothing more of the file is read one by one, whatever follows. -/
theorem C63_rest_lost_violated {T : Type} (parse : List Str → Option T) (hempty : parse [] = none)
    (bs : List (List Str)) (h : ∀ b ∈ bs, BlockOk b ∧ parse b ≠ none) (rest : List Str) :
    readSlow parse (fileLineList (bs.map (fun b => (b, 1))) ++ [] :: rest) = bs.filterMap parse ∧
    ∀ c, (∀ l ∈ c, l ≠ []) → parse c = none →
      readSlow parse (fileLineList (bs.map (fun b => (b, 1))) ++ (c ++ [] :: rest)) = bs.filterMap parse := by
  have key : ∀ c, (∀ l ∈ c, l ≠ []) → parse c = none →
      readSlow parse (fileLineList (bs.map (fun b => (b, 1))) ++ (c ++ [] :: rest)) = bs.filterMap parse := by
    intro c hc hpc
    induction bs with
    | nil =>
      simp only [List.map_nil, fileLineList, List.nil_append, List.filterMap_nil]
      rw [readSlow_cons parse hc, hpc]
    | cons b bs ih =>
      obtain ⟨hb, hp⟩ := h b List.mem_cons_self
      have e : fileLineList ((b :: bs).map (fun b => (b, 1))) ++ (c ++ [] :: rest) =
          b ++ [] :: (fileLineList (bs.map (fun b => (b, 1))) ++ (c ++ [] :: rest)) := by
        simp [fileLineList]
      rw [e, readSlow_cons parse (fun l hl => (hb.2 l hl).1), ih (fun b' hb' => h b' (List.mem_cons_of_mem _ hb'))]
      cases hpb : parse b with
      | none => exact absurd hpb hp
      | some t => simp [hpb]
  exact ⟨key [] (by simp) hempty, key⟩

/-- No sentence comes out of no lines. -/
example (lower : Str → Str) (o : Opts) (fuel : Nat) : readTree lower o fuel [] = .ok none := rfl

/-- Two sentences, the second after two empty lines: at once both are read, one by one only the first. -/
example : let parse : List Str → Option (List Str) := fun b => if b = [] then none else some b
    readFast parse "1\ta\n\n\n1\tb\n\n".toList = some [["1\ta".toList], ["1\tb".toList]] ∧
    (nextBlock (nextBlock (fileLines "1\ta\n\n\n1\tb\n\n".toList)).2).1 = [] := by decide

/-! ## C64: a block without words at the start -/

/-- C64 is violated for every file: if the first block has no words, as a file header made of comments, loading the
file raises `AttributeError`, although such blocks are skipped anywhere else (`C64_wordless_partial`). -/
theorem C64_header_violated {T : Type} (parse : List Str → Option T) (c : List Str) (hc : parse c = none)
    (bs : List (List Str × Nat)) (h : ∀ p ∈ (c, 1) :: bs, BlockOk p.1 ∧ 1 ≤ p.2) :
    readFast parse (fileText ((c, 1) :: bs)) = none := by
  have hb := C30_blocks _ h 0 (by decide)
  rw [List.replicate_zero, List.nil_append] at hb
  unfold readFast
  rw [hb]
  simp [hc]

/-- C64 (partial): blocks without words are skipped, if the first block has words. -/
theorem C64_wordless_partial {T : Type} (parse : List Str → Option T) (bs : List (List Str × Nat))
    (h : ∀ p ∈ bs, BlockOk p.1 ∧ 1 ≤ p.2) (hfirst : ∀ p, bs.head? = some p → parse p.1 ≠ none) :
    readFast parse (fileText bs) = some (bs.filterMap (fun p => parse p.1)) := by
  have hb := C30_blocks _ h 0 (by decide)
  rw [List.replicate_zero, List.nil_append] at hb
  unfold readFast
  rw [hb, List.map_map]
  split
  · rename_i ts hts
    cases bs with
    | nil => simp at hts
    | cons p bs =>
      simp only [List.map_cons, List.cons.injEq] at hts
      exact absurd hts.1 (hfirst p rfl)
  · rw [List.filterMap_map]; rfl

/-! ## C65: max_docs -/

/-- The trees before the `n + 1`-st tree that starts a document. -/
def firstDocs {T : Type} (newdoc : T → Bool) : Nat → List T → List T
  | _, [] => []
  | n, t :: ts =>
    if newdoc t then
      match n with
      | 0 => []
      | n + 1 => t :: firstDocs newdoc n ts
    else t :: firstDocs newdoc n ts

theorem readMax_block {T : Type} (parse : List Str → Option T) (newdoc : T → Bool) (max docs : Nat) (b : List Str)
    (hb : ∀ l ∈ b, l ≠ []) (rest : List Str) : ∀ (cur : List Str),
    readMax parse newdoc max cur docs (b ++ rest) = readMax parse newdoc max (cur ++ b) docs rest := by
  induction b with
  | nil => intro cur; simp
  | cons l b ih =>
    intro cur
    rw [List.cons_append, readMax, if_neg (hb l List.mem_cons_self), ih (fun l' h => hb l' (List.mem_cons_of_mem _ h))]
    simp

/-- C65 (partial): if every block is followed by exactly one empty line and is a sentence, `max_docs` gives the
sentences of the first `max` documents. Missing: several empty lines (`C65_empty_line_violated`) and a last
block without an empty line after it (`C65_last_lost_violated`), where the claim is false. -/
theorem C65_max_docs_partial {T : Type} (parse : List Str → Option T) (newdoc : T → Bool) (max : Nat)
    (bs : List (List Str)) (h : ∀ b ∈ bs, BlockOk b ∧ parse b ≠ none) :
    ∀ docs, docs ≤ max → readMax parse newdoc max [] docs (fileLineList (bs.map (fun b => (b, 1)))) =
      some (firstDocs newdoc (max - docs) (bs.filterMap parse)) := by
  induction bs with
  | nil => intro docs _; simp [fileLineList, readMax, firstDocs]
  | cons b bs ih =>
    intro docs hd
    obtain ⟨hb, hp⟩ := h b List.mem_cons_self
    have ih := ih (fun b' hb' => h b' (List.mem_cons_of_mem _ hb'))
    have e : fileLineList ((b :: bs).map (fun b => (b, 1))) = b ++ [] :: fileLineList (bs.map (fun b => (b, 1))) := rfl
    rw [e, readMax_block parse newdoc max docs b (fun l hl => (hb.2 l hl).1), List.nil_append, readMax, if_pos rfl]
    cases hpb : parse b with
    | none => exact absurd hpb hp
    | some t =>
      simp only [List.filterMap_cons, hpb, firstDocs]
      by_cases hn : newdoc t = true
      · rw [if_pos hn, if_pos hn]
        by_cases hm : docs = max
        · rw [if_pos hm, hm, Nat.sub_self]
        · rw [if_neg hm, ih (docs + 1) (by omega)]
          obtain ⟨j, hj⟩ : ∃ j, max - docs = j + 1 := ⟨max - docs - 1, by omega⟩
          rw [hj, show max - (docs + 1) = j from by omega]
          rfl
      · rw [if_neg hn, if_neg hn, ih docs hd]
        rfl

/-- C65 is violated: with `max_docs`, a second empty line after any number of sentences raises
`AttributeError` unless the limit was met before. -/
theorem C65_empty_line_violated {T : Type} (parse : List Str → Option T) (hempty : parse [] = none) (newdoc : T → Bool)
    (max : Nat) (bs : List (List Str)) (h : ∀ b ∈ bs, BlockOk b ∧ parse b ≠ none) (rest : List Str) :
    ∀ docs, docs + ((bs.filterMap parse).filter newdoc).length ≤ max →
    readMax parse newdoc max [] docs (fileLineList (bs.map (fun b => (b, 1))) ++ [] :: rest) = none := by
  induction bs with
  | nil => intro docs _; simp [fileLineList, readMax, hempty]
  | cons b bs ih =>
    intro docs hd
    obtain ⟨hb, hp⟩ := h b List.mem_cons_self
    have ih := ih (fun b' hb' => h b' (List.mem_cons_of_mem _ hb'))
    have e : fileLineList ((b :: bs).map (fun b => (b, 1))) ++ [] :: rest =
        b ++ [] :: (fileLineList (bs.map (fun b => (b, 1))) ++ [] :: rest) := by simp [fileLineList]
    rw [e, readMax_block parse newdoc max docs b (fun l hl => (hb.2 l hl).1), List.nil_append, readMax, if_pos rfl]
    cases hpb : parse b with
    | none => exact absurd hpb hp
    | some t =>
      simp only [List.filterMap_cons, hpb] at hd
      simp only
      by_cases hn : newdoc t = true
      · rw [List.filter_cons_of_pos hn, List.length_cons] at hd
        rw [if_pos hn, if_neg (by omega), ih (docs + 1) (by omega)]
        rfl
      · rw [List.filter_cons_of_neg hn] at hd
        rw [if_neg hn, ih docs hd]
        rfl

/-- C65 is violated: with `max_docs`, the last sentence is lost if no empty line follows it, whatever it is. -/
theorem C65_last_lost_violated {T : Type} (parse : List Str → Option T) (newdoc : T → Bool) (max : Nat)
    (b : List Str) (hb : BlockOk b) :
    readMax parse newdoc max [] 0 b = some [] ∧ readSlow parse b = (parse b).toList := by
  constructor
  · have := readMax_block parse newdoc max 0 b (fun l hl => (hb.2 l hl).1) [] []
    rw [List.append_nil, List.nil_append] at this
    rw [this, readMax]
  · have h1 : nextBlock b = (b, []) := by
      have h2 : ∀ (b : List Str), (∀ l ∈ b, l ≠ []) → nextBlock b = (b, []) := by
        intro b
        induction b with
        | nil => intro _; rfl
        | cons l b ih =>
          intro h
          rw [nextBlock, if_neg (h l List.mem_cons_self), ih (fun l' h' => h l' (List.mem_cons_of_mem _ h'))]
      exact h2 b (fun l hl => (hb.2 l hl).1)
    rw [readSlow, dif_neg hb.1, h1]
    simp only
    have h0 : readSlow parse [] = [] := by rw [readSlow, dif_pos rfl]
    rw [h0]
    cases parse b <;> rfl

example : firstDocs (fun n => n % 10 = 0) 2 [10, 11, 20, 21, 30, 31] = [10, 11, 20, 21] := by decide

end Verif.Conllu
