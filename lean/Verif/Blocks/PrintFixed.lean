import Verif.Py.Str
import Verif.Blocks.TagParse

/-!
# Property C180: printing fixed expressions (udapi/block/ud/printfixed.py)

A sentence is the list of its words; the word at index `i` has the ord `i + 1`. Simplified: `form.lower()` is an attribute of the
word, and so is `udeprel == 'fixed'`. Logging is left out, and so is the reading of the file (the list of its lines is given).
-/

namespace Verif.Blocks
open Verif.Py

/-- What `PrintFixed` reads of a word: `form.lower()`, `upos`, `deprel`, `parent.ord` and `udeprel == 'fixed'`. -/
structure FxWord where
  low : Str
  upos : Str
  deprel : Str
  head : Nat
  fixed : Bool
deriving DecidableEq, Repr

/-- The state built by `__init__` (printfixed.py:33-36). -/
structure FxKnown where
  known : List Str
  first : List Str
  maxLen : Nat
deriving DecidableEq, Repr

/-- Reading one line of the file of known expressions (printfixed.py:41-53). -/
def FxKnown.add (k : FxKnown) (e : Str) : FxKnown :=
  let words := split ' ' e
  { known := k.known ++ [e]
    first := k.first ++ words.head?.toList
    maxLen := if words.length > k.maxLen then words.length else k.maxLen }

/-- `__init__` (printfixed.py:33-54) with the lines of the file; no file is the empty list. -/
def fxInit (lines : List Str) : FxKnown := lines.foldl FxKnown.add ⟨[], [], 2⟩

/-- The node `n` is a fixed child of the node with ord `i` (printfixed.py:57, 68). -/
def fxChild (i : Nat) (w : FxWord) : Bool := decide (w.head = i) && w.fixed

/-- The ords of the fixed children of the node `i`, in word order (printfixed.py:57). -/
def fixedChildren (ws : List FxWord) (i : Nat) : List Nat :=
  ws.zipIdx.filterMap fun p => if fxChild i p.1 then some (p.2 + 1) else none

/-- The loop over the words up to the last fixed child (printfixed.py:66-73): `n` is the ord of the current word and the list has
the words after it. `none` is the AttributeError at `n.parent` when `next_node` is None. -/
def fxWalk (i last n : Nat) : List FxWord → Option (List (Str × Str))
  | [] => if n = last then some [] else none
  | w :: rest =>
    if n = last then some []
    else (fxWalk i last (n + 1) rest).map ((if fxChild i w then (w.low, w.upos) else (['X'], ['X'])) :: ·)

/-- The printed line (printfixed.py:74-79, 97-103). -/
def fxLine (onlyForms : Bool) (fts : List (Str × Str)) (label : Str) : Str :=
  let forms := join [' '] (fts.map (·.1))
  if onlyForms then forms else forms ++ [' ', '/', ' '] ++ join [' '] (fts.map (·.2)) ++ [' ', '/', ' '] ++ label

/-- `NOT FIXED` (printfixed.py:103). -/
def notFixed : Str := ['N', 'O', 'T', ' ', 'F', 'I', 'X', 'E', 'D']

/-- The search for a known expression (printfixed.py:90-104): the number of further steps, the words so far, the words after. -/
def fxSearch (k : FxKnown) (onlyForms : Bool) : Nat → List (Str × Str) → List FxWord → Option Str
  | 0, _, _ => none
  | _ + 1, _, [] => none
  | m + 1, acc, w :: rest =>
    let acc' := acc ++ [(w.low, w.upos)]
    if join [' '] (acc'.map (·.1)) ∈ k.known then some (fxLine onlyForms acc' notFixed)
    else fxSearch k onlyForms m acc' rest

/-- `process_node` (printfixed.py:56-104) for the word at index `i`: the printed lines, or `none` for an exception. -/
def fxNode (k : FxKnown) (onlyForms : Bool) (ws : List FxWord) (i : Nat) : Option (List Str) :=
  match ws[i]? with
  | none => some []
  | some w =>
    match (fixedChildren ws (i + 1)).getLast? with
    | some last =>
      (fxWalk (i + 1) last (i + 1) (ws.drop (i + 1))).map fun fts =>
        [fxLine onlyForms ((w.low, w.upos) :: fts) w.deprel]
    | none =>
      if w.low ∈ k.first then
        some (fxSearch k onlyForms (k.maxLen - 1) [(w.low, w.upos)] (ws.drop (i + 1))).toList
      else some []

/-! ## The statement

`ws[j]?` for `j` in `i ..< last` are the words of the sentence, read directly. -/

/-- What stands in the line for the word at index `j` if the expression starts at index `i`. -/
def FxCell (ws : List FxWord) (i j : Nat) (c : Str × Str) : Prop :=
  ∃ w, ws[j]? = some w ∧
    (((j = i ∨ (w.head = i + 1 ∧ w.fixed = true)) ∧ c = (w.low, w.upos)) ∨
     (j ≠ i ∧ ¬ (w.head = i + 1 ∧ w.fixed = true) ∧ c = (['X'], ['X'])))

theorem fxChild_iff {i : Nat} {w : FxWord} : fxChild i w = true ↔ w.head = i ∧ w.fixed = true := by
  simp [fxChild]

theorem mem_fixedChildren {ws : List FxWord} {i j : Nat} :
    j ∈ fixedChildren ws i ↔ ∃ k w, j = k + 1 ∧ ws[k]? = some w ∧ w.head = i ∧ w.fixed = true := by
  simp only [fixedChildren, List.mem_filterMap]
  constructor
  · rintro ⟨⟨w, k⟩, hm, h⟩
    have hw := List.mem_zipIdx_iff_getElem?.1 hm
    by_cases hc : fxChild i w = true
    · simp only [hc, if_true, Option.some.injEq] at h
      exact ⟨k, w, h.symm, hw, (fxChild_iff.1 hc).1, (fxChild_iff.1 hc).2⟩
    · simp [hc] at h
  · rintro ⟨k, w, rfl, hw, h1, h2⟩
    refine ⟨(w, k), List.mem_zipIdx_iff_getElem?.2 hw, ?_⟩
    have hc := fxChild_iff.2 ⟨h1, h2⟩
    simp [hc]

theorem fixedChildren_sorted_aux (i : Nat) : ∀ (ws : List FxWord) (n : Nat),
    (∀ j ∈ (ws.zipIdx n).filterMap fun p => if fxChild i p.1 then some (p.2 + 1) else none, n < j) ∧
    ((ws.zipIdx n).filterMap fun p => if fxChild i p.1 then some (p.2 + 1) else none).Pairwise (· < ·) := by
  intro ws
  induction ws with
  | nil => intro n; simp
  | cons w ws ih =>
    intro n
    obtain ⟨h1, h2⟩ := ih (n + 1)
    rw [List.zipIdx_cons, List.filterMap_cons]
    by_cases hc : fxChild i w = true
    · simp only [hc, if_true]
      refine ⟨?_, ?_⟩
      · intro j hj
        rcases List.mem_cons.1 hj with rfl | hj
        · omega
        · have := h1 j hj; omega
      · refine List.pairwise_cons.2 ⟨?_, h2⟩
        intro j hj
        exact h1 j hj
    · simp only [hc]
      exact ⟨fun j hj => by have := h1 j hj; omega, h2⟩

theorem fixedChildren_last {ws : List FxWord} {i last : Nat} (h : (fixedChildren ws i).getLast? = some last) :
    last ∈ fixedChildren ws i ∧ ∀ j ∈ fixedChildren ws i, j ≤ last := by
  have hs : (fixedChildren ws i).Pairwise (· < ·) := (fixedChildren_sorted_aux i ws 0).2
  obtain ⟨l, hl⟩ := List.getLast?_eq_some_iff.1 h
  rw [hl] at hs ⊢
  refine ⟨by simp, ?_⟩
  intro j hj
  rcases List.mem_append.1 hj with hj | hj
  · exact Nat.le_of_lt ((List.pairwise_append.1 hs).2.2 j hj last (by simp))
  · simp at hj; omega

/-- The loop ends if and only if the last fixed child is at the current word or after it. -/
theorem fxWalk_some (i last : Nat) : ∀ (rest : List FxWord) (n : Nat), n ≤ last → last ≤ n + rest.length →
    ∃ fts, fxWalk i last n rest = some fts ∧ fts.length = last - n ∧
      ∀ (t : Nat) (c : Str × Str), fts[t]? = some c → ∃ w, rest[t]? = some w ∧
        c = if fxChild i w then (w.low, w.upos) else (['X'], ['X']) := by
  intro rest
  induction rest with
  | nil =>
    intro n h1 h2
    have : n = last := by simp at h2; omega
    subst this
    exact ⟨[], by simp [fxWalk], by simp, by simp⟩
  | cons w rest ih =>
    intro n h1 h2
    by_cases hn : n = last
    · subst hn
      exact ⟨[], by simp [fxWalk], by simp, by simp⟩
    · obtain ⟨fts, he, hl, hc⟩ := ih (n + 1) (by omega) (by simp at h2; omega)
      refine ⟨_ :: fts, by rw [fxWalk, if_neg hn, he]; rfl, by simp [hl]; omega, ?_⟩
      intro t c ht
      cases t with
      | zero => simp at ht; exact ⟨w, rfl, ht.symm⟩
      | succ t => simpa using hc t c (by simpa using ht)

theorem fxWalk_none (i last : Nat) : ∀ (rest : List FxWord) (n : Nat), last < n → fxWalk i last n rest = none := by
  intro rest
  induction rest with
  | nil => intro n h; rw [fxWalk, if_neg (by omega)]
  | cons w rest ih => intro n h; rw [fxWalk, if_neg (by omega), ih (n + 1) (by omega)]; rfl

theorem fxNode_fixed (k : FxKnown) (o : Bool) {ws : List FxWord} {i last : Nat} {w : FxWord} (hw : ws[i]? = some w)
    (hl : (fixedChildren ws (i + 1)).getLast? = some last) :
    fxNode k o ws i = (fxWalk (i + 1) last (i + 1) (ws.drop (i + 1))).map fun fts =>
        [fxLine o ((w.low, w.upos) :: fts) w.deprel] := by
  simp only [fxNode, hw, hl]

theorem fixedChildren_ne {ws : List FxWord} {i j : Nat} {c : FxWord} (hj : ws[j]? = some c) (h : c.head = i)
    (hf : c.fixed = true) : ∃ last, (fixedChildren ws i).getLast? = some last := by
  have hm := mem_fixedChildren.2 ⟨j, c, rfl, hj, h, hf⟩
  cases he : (fixedChildren ws i).getLast? with
  | none => rw [List.getLast?_eq_none_iff] at he; rw [he] at hm; simp at hm
  | some last => exact ⟨last, rfl⟩

/-- **C180.** A word with a fixed child at index `last` after it, and none after that, prints one line. The line has one cell for
every word from the head to the last fixed child: the form and tag for the head and the fixed children, `X` for the others. -/
theorem C180_fixed (k : FxKnown) (o : Bool) {ws : List FxWord} {i last : Nat} {w c : FxWord} (hw : ws[i]? = some w)
    (hlt : i < last) (hc : ws[last]? = some c) (hch : c.head = i + 1) (hcf : c.fixed = true)
    (hmax : ∀ (j : Nat) (x : FxWord), ws[j]? = some x → x.head = i + 1 → x.fixed = true → j ≤ last) :
    ∃ cells : List (Str × Str), cells.length = last - i + 1 ∧
      (∀ (t : Nat) (x : Str × Str), cells[t]? = some x → FxCell ws i (i + t) x) ∧
      fxNode k o ws i = some [fxLine o cells w.deprel] := by
  obtain ⟨l, hl⟩ := fixedChildren_ne hc hch hcf
  obtain ⟨hm, hle⟩ := fixedChildren_last hl
  obtain ⟨j, x, rfl, hj, hh, hf⟩ := mem_fixedChildren.1 hm
  have h1 := hmax j x hj hh hf
  have h2 := hle _ (mem_fixedChildren.2 ⟨last, c, rfl, hc, hch, hcf⟩)
  have : j = last := by omega
  subst this
  have hlen : j < ws.length := (List.getElem?_eq_some_iff.1 hj).1
  obtain ⟨fts, he, hfl, hcell⟩ := fxWalk_some (i + 1) (j + 1) (ws.drop (i + 1)) (i + 1) (by omega) (by simp; omega)
  refine ⟨(w.low, w.upos) :: fts, by simp [hfl], ?_, by rw [fxNode_fixed k o hw hl, he]; rfl⟩
  intro t x ht
  cases t with
  | zero =>
    simp at ht
    exact ⟨w, hw, Or.inl ⟨Or.inl rfl, ht.symm⟩⟩
  | succ t =>
    obtain ⟨v, hv, hx⟩ := hcell t x (by simpa using ht)
    rw [List.getElem?_drop] at hv
    refine ⟨v, by rw [← hv]; congr 1; omega, ?_⟩
    by_cases hcv : fxChild (i + 1) v = true
    · rw [if_pos hcv] at hx
      exact Or.inl ⟨Or.inr (fxChild_iff.1 hcv), hx⟩
    · rw [if_neg hcv] at hx
      exact Or.inr ⟨by omega, fun hh => hcv (fxChild_iff.2 hh), hx⟩

/-- **C180, violated.** If a word has fixed children and all of them are before it, an exception is raised and nothing is
printed. -/
theorem C180_left_violated (k : FxKnown) (o : Bool) {ws : List FxWord} {i j : Nat} {w c : FxWord} (hw : ws[i]? = some w)
    (hc : ws[j]? = some c) (hch : c.head = i + 1) (hcf : c.fixed = true)
    (hleft : ∀ (j : Nat) (x : FxWord), ws[j]? = some x → x.head = i + 1 → x.fixed = true → j < i) :
    fxNode k o ws i = none := by
  obtain ⟨l, hl⟩ := fixedChildren_ne hc hch hcf
  obtain ⟨j', x, rfl, hj, hh, hf⟩ := mem_fixedChildren.1 (fixedChildren_last hl).1
  have := hleft j' x hj hh hf
  rw [fxNode_fixed k o hw hl, fxWalk_none _ _ _ _ (by omega)]
  rfl

/-! ## Known expressions -/

/-- The lower-cased forms of the `m` words from index `i` on, joined by spaces. -/
def expr (ws : List FxWord) (i m : Nat) : Str := join [' '] (((ws.drop i).take m).map (·.low))

theorem fxInit_spec_aux : ∀ (lines : List Str) (k : FxKnown),
    let k' := lines.foldl FxKnown.add k
    k'.known = k.known ++ lines ∧ k'.first = k.first ++ lines.filterMap (fun e => (split ' ' e).head?) ∧
    k.maxLen ≤ k'.maxLen ∧ (∀ e ∈ lines, (split ' ' e).length ≤ k'.maxLen) := by
  intro lines
  induction lines with
  | nil => intro k; simp
  | cons e lines ih =>
    intro k
    obtain ⟨h1, h2, h3, h4⟩ := ih (k.add e)
    have hm : (split ' ' e).length ≤ (k.add e).maxLen ∧ k.maxLen ≤ (k.add e).maxLen := by
      simp only [FxKnown.add]; split <;> omega
    refine ⟨by rw [List.foldl_cons, h1]; simp [FxKnown.add], ?_, Nat.le_trans hm.2 h3, ?_⟩
    · rw [List.foldl_cons, h2]
      cases hs : split ' ' e with
      | nil => exact absurd hs (split_ne_nil _ _)
      | cons p ps => simp [FxKnown.add, hs]
    · intro e' he'
      rcases List.mem_cons.1 he' with rfl | he'
      · exact Nat.le_trans hm.1 h3
      · exact h4 e' he'

theorem fxInit_known (lines : List Str) : (fxInit lines).known = lines := by
  have := (fxInit_spec_aux lines ⟨[], [], 2⟩).1
  simpa [fxInit] using this

theorem mem_fxInit_first (lines : List Str) (f : Str) :
    f ∈ (fxInit lines).first ↔ ∃ e ∈ lines, (split ' ' e).head? = some f := by
  have := (fxInit_spec_aux lines ⟨[], [], 2⟩).2.1
  rw [fxInit, this]
  simp [List.mem_filterMap]

theorem fxInit_maxLen (lines : List Str) : 2 ≤ (fxInit lines).maxLen ∧
    ∀ e ∈ lines, (split ' ' e).length ≤ (fxInit lines).maxLen :=
  ⟨(fxInit_spec_aux lines ⟨[], [], 2⟩).2.2.1, (fxInit_spec_aux lines ⟨[], [], 2⟩).2.2.2⟩

theorem length_le_split_join (c : Char) : ∀ fs : List Str, fs.length ≤ (split c (join [c] fs)).length := by
  intro fs
  induction fs with
  | nil => simp
  | cons f fs ih =>
    cases fs with
    | nil =>
      have := split_ne_nil c f
      have := List.length_pos_iff.2 this
      simp [join]; omega
    | cons g fs =>
      have := List.length_pos_iff.2 (split_ne_nil c f)
      rw [join, List.append_assoc, List.singleton_append, split_append_sep, List.length_append]
      simp only [List.length_cons] at ih ⊢
      omega

/-- The search finds the shortest known expression. -/
theorem fxSearch_spec (k : FxKnown) (o : Bool) : ∀ (m : Nat) (acc : List (Str × Str)) (rest : List FxWord) (line : Str),
    fxSearch k o m acc rest = some line ↔ ∃ t, t < m ∧ t < rest.length ∧
      line = fxLine o (acc ++ (rest.take (t + 1)).map fun w => (w.low, w.upos)) notFixed ∧
      join [' '] (acc.map (·.1) ++ (rest.take (t + 1)).map (·.low)) ∈ k.known ∧
      ∀ t' < t, join [' '] (acc.map (·.1) ++ (rest.take (t' + 1)).map (·.low)) ∉ k.known := by
  intro m
  induction m with
  | zero => intro acc rest line; simp [fxSearch]
  | succ m ih =>
    intro acc rest line
    cases rest with
    | nil => simp [fxSearch]
    | cons w rest =>
      simp only [fxSearch]
      by_cases hk : join [' '] ((acc ++ [(w.low, w.upos)]).map (·.1)) ∈ k.known
      · rw [if_pos hk, Option.some.injEq]
        constructor
        · rintro rfl
          exact ⟨0, by omega, by simp, by simp, by simpa using hk, by simp⟩
        · rintro ⟨t, _, _, hl, _, hmin⟩
          cases t with
          | zero => simpa using hl.symm
          | succ t => exact absurd (by simpa using hk) (hmin 0 (by omega))
      · rw [if_neg hk, ih]
        constructor
        · rintro ⟨t, h1, h2, h3, h4, h5⟩
          refine ⟨t + 1, by omega, by simp; omega, by simpa using h3, by simpa using h4, ?_⟩
          intro t' ht'
          cases t' with
          | zero => simpa using hk
          | succ t' => simpa using h5 t' (by omega)
        · rintro ⟨t, h1, h2, h3, h4, h5⟩
          cases t with
          | zero => exact absurd (by simpa using h4) hk
          | succ t =>
            refine ⟨t, by omega, by simp at h2; omega, by simpa using h3, by simpa using h4, ?_⟩
            intro t' ht'
            simpa using h5 (t' + 1) (by omega)

theorem fxNode_plain (k : FxKnown) (o : Bool) {ws : List FxWord} {i : Nat} {w : FxWord} (hw : ws[i]? = some w)
    (hno : ∀ x ∈ ws, ¬ (x.head = i + 1 ∧ x.fixed = true)) :
    fxNode k o ws i = if w.low ∈ k.first then
        some (fxSearch k o (k.maxLen - 1) [(w.low, w.upos)] (ws.drop (i + 1))).toList
      else some [] := by
  have hn : (fixedChildren ws (i + 1)).getLast? = none := by
    rw [List.getLast?_eq_none_iff]
    apply List.eq_nil_iff_forall_not_mem.2
    intro j hj
    obtain ⟨t, x, _, hx, h⟩ := mem_fixedChildren.1 hj
    exact hno x (List.mem_of_getElem? hx) h
  simp only [fxNode, hw, hn]

theorem expr_succ {ws : List FxWord} {i : Nat} {w : FxWord} (hw : ws[i]? = some w) (t : Nat) :
    expr ws i (t + 1) = join [' '] (w.low :: ((ws.drop (i + 1)).take t).map (·.low)) := by
  obtain ⟨hl, he⟩ := List.getElem?_eq_some_iff.1 hw
  rw [expr, List.drop_eq_getElem_cons hl, List.take_succ_cons, he]
  rfl

theorem first_of_expr {ws : List FxWord} {i m : Nat} {w : FxWord} (hw : ws[i]? = some w) (hm : 1 ≤ m)
    (hs : ' ' ∉ w.low) : (split ' ' (expr ws i m)).head? = some w.low := by
  obtain ⟨t, rfl⟩ : ∃ t, m = t + 1 := ⟨m - 1, by omega⟩
  rw [expr_succ hw]
  cases ((ws.drop (i + 1)).take t).map (·.low) with
  | nil => rw [join, split_of_not_mem hs]; rfl
  | cons q qs => rw [join, List.append_assoc, List.singleton_append, split_append_sep, split_of_not_mem hs]; rfl

/-- **C180.** At a word without space in its form and without fixed children, a line is printed if and only if some known
expression of two or more words starts there; the line is the shortest of them. -/
theorem C180_known (lines : List Str) (o : Bool) {ws : List FxWord} {i : Nat} {w : FxWord} (hw : ws[i]? = some w)
    (hno : ∀ x ∈ ws, ¬ (x.head = i + 1 ∧ x.fixed = true)) (hs : ' ' ∉ w.low) (out : List Str) :
    fxNode (fxInit lines) o ws i = some out ↔
      (∃ m, 2 ≤ m ∧ i + m ≤ ws.length ∧ expr ws i m ∈ lines ∧ (∀ m', 2 ≤ m' → m' < m → expr ws i m' ∉ lines) ∧
        out = [fxLine o (((ws.drop i).take m).map fun x => (x.low, x.upos)) notFixed]) ∨
      ((∀ m, 2 ≤ m → i + m ≤ ws.length → expr ws i m ∉ lines) ∧ out = []) := by
  have hil : i < ws.length := (List.getElem?_eq_some_iff.1 hw).1
  have hcells : ∀ t, ((ws.drop i).take (t + 2)).map (fun x => (x.low, x.upos)) =
      [(w.low, w.upos)] ++ ((ws.drop (i + 1)).take (t + 1)).map fun x => (x.low, x.upos) := by
    intro t
    obtain ⟨hl, he⟩ := List.getElem?_eq_some_iff.1 hw
    rw [List.drop_eq_getElem_cons hl, List.take_succ_cons, he]
    rfl
  have hexpr : ∀ t, expr ws i (t + 2) =
      join [' '] (([(w.low, w.upos)] : List (Str × Str)).map (·.1) ++ ((ws.drop (i + 1)).take (t + 1)).map (·.low)) := by
    intro t
    rw [expr_succ hw]
    rfl
  have hfirst : ∀ m, 1 ≤ m → expr ws i m ∈ lines → w.low ∈ (fxInit lines).first := fun m hm he =>
    (mem_fxInit_first lines _).2 ⟨_, he, first_of_expr hw hm hs⟩
  have hmax : ∀ t, i + (t + 2) ≤ ws.length → expr ws i (t + 2) ∈ lines → t < (fxInit lines).maxLen - 1 := by
    intro t ht he
    have h1 := (fxInit_maxLen lines).2 _ he
    have h2 := length_le_split_join ' ' (((ws.drop i).take (t + 2)).map (·.low))
    rw [expr] at h1
    simp only [List.length_map, List.length_take, List.length_drop] at h2
    omega
  have key : ∀ line, (w.low ∈ (fxInit lines).first ∧
      fxSearch (fxInit lines) o ((fxInit lines).maxLen - 1) [(w.low, w.upos)] (ws.drop (i + 1)) = some line) ↔
      ∃ m, 2 ≤ m ∧ i + m ≤ ws.length ∧ expr ws i m ∈ lines ∧ (∀ m', 2 ≤ m' → m' < m → expr ws i m' ∉ lines) ∧
        line = fxLine o (((ws.drop i).take m).map fun x => (x.low, x.upos)) notFixed := by
    intro line
    rw [fxSearch_spec, fxInit_known]
    constructor
    · rintro ⟨_, t, h1, h2, h3, h4, h5⟩
      refine ⟨t + 2, by omega, by simp at h2; omega, by rw [hexpr]; exact h4, ?_, by rw [hcells]; exact h3⟩
      intro m' h6 h7
      obtain ⟨t', rfl⟩ : ∃ t', m' = t' + 2 := ⟨m' - 2, by omega⟩
      rw [hexpr]
      exact h5 t' (by omega)
    · rintro ⟨m, h1, h2, h3, h4, h5⟩
      obtain ⟨t, rfl⟩ : ∃ t, m = t + 2 := ⟨m - 2, by omega⟩
      refine ⟨hfirst _ (by omega) h3, t, hmax t h2 h3, by simp; omega, by rw [← hcells]; exact h5, by rw [← hexpr]; exact h3, ?_⟩
      intro t' ht'
      rw [← hexpr]
      exact h4 (t' + 2) (by omega) (by omega)
  rw [fxNode_plain _ o hw hno]
  by_cases hf : w.low ∈ (fxInit lines).first
  · rw [if_pos hf]
    cases hr : fxSearch (fxInit lines) o ((fxInit lines).maxLen - 1) [(w.low, w.upos)] (ws.drop (i + 1)) with
    | none =>
      have hnone : ∀ m, 2 ≤ m → i + m ≤ ws.length → expr ws i m ∉ lines := by
        intro m
        induction m using Nat.strongRecOn with
        | ind m ih =>
          intro h1 h2 h3
          obtain ⟨_, h⟩ := (key _).2 ⟨m, h1, h2, h3, fun m' h4 h5 => ih m' h5 h4 (by omega), rfl⟩
          rw [hr] at h
          cases h
      constructor
      · intro h
        simp at h
        exact Or.inr ⟨hnone, h⟩
      · rintro (⟨m, h1, h2, h3, _⟩ | ⟨_, h⟩)
        · exact absurd h3 (hnone m h1 h2)
        · rw [h]; rfl
    | some line =>
      obtain ⟨m, h1, h2, h3, h4, h5⟩ := (key line).1 ⟨hf, hr⟩
      constructor
      · intro h
        simp at h
        exact Or.inl ⟨m, h1, h2, h3, h4, by rw [← h, h5]⟩
      · rintro (⟨m', g1, g2, g3, g4, g5⟩ | ⟨h, _⟩)
        · have : m' = m := by
            apply Nat.le_antisymm
            · exact Nat.not_lt.1 fun hlt => g4 m h1 hlt h3
            · exact Nat.not_lt.1 fun hlt => h4 m' g1 hlt g3
          subst this
          rw [g5, h5]; rfl
        · exact absurd h3 (h m h1 h2)
  · rw [if_neg hf]
    have hnone : ∀ m, 2 ≤ m → i + m ≤ ws.length → expr ws i m ∉ lines :=
      fun m h1 _ h3 => hf (hfirst m (by omega) h3)
    constructor
    · intro h
      simp at h
      exact Or.inr ⟨hnone, h⟩
    · rintro (⟨m, h1, h2, h3, _⟩ | ⟨_, h⟩)
      · exact absurd h3 (hnone m h1 h2)
      · rw [h]

/-- **C180, violated.** Nothing is printed at a word with a space in its form and without fixed children, whatever expressions are
known. -/
theorem C180_space_violated (lines : List Str) (o : Bool) {ws : List FxWord} {i : Nat} {w : FxWord} (hw : ws[i]? = some w)
    (hno : ∀ x ∈ ws, ¬ (x.head = i + 1 ∧ x.fixed = true)) (hs : ' ' ∈ w.low) : fxNode (fxInit lines) o ws i = some [] := by
  rw [fxNode_plain _ o hw hno, if_neg]
  intro hf
  obtain ⟨e, _, he⟩ := (mem_fxInit_first lines _).1 hf
  exact not_mem_split ' ' e w.low (List.mem_of_mem_head? he) hs

/-- **C180, the two runs.** If the first run prints a line for an expression without gap, and the same forms occur elsewhere without being annotated as
fixed, then the second run, with the lines of the first run, prints a known expression at that place; it begins the first
expression. -/
theorem C180_two_runs (k : FxKnown) {ws vs : List FxWord} {i last i' : Nat} {w c v : FxWord} (hw : ws[i]? = some w)
    (hlt : i < last) (hc : ws[last]? = some c)
    (hall : ∀ (j : Nat) (x : FxWord), i < j → ws[j]? = some x → ((x.head = i + 1 ∧ x.fixed = true) ↔ j ≤ last))
    (lines : List Str) (hlines : ∀ l, fxNode k true ws i = some [l] → l ∈ lines) (o : Bool)
    (hv : vs[i']? = some v) (hno : ∀ x ∈ vs, ¬ (x.head = i' + 1 ∧ x.fixed = true)) (hs : ' ' ∉ v.low)
    (hsame : ((vs.drop i').take (last - i + 1)).map (·.low) = ((ws.drop i).take (last - i + 1)).map (·.low)) :
    ∃ m, 2 ≤ m ∧ m ≤ last - i + 1 ∧ expr vs i' m ∈ lines ∧ expr vs i' m <+: expr ws i (last - i + 1) ∧
      fxNode (fxInit lines) o vs i' =
        some [fxLine o (((vs.drop i').take m).map fun x => (x.low, x.upos)) notFixed] := by
  have hcl := (hall last c hlt hc).2 (Nat.le_refl _)
  have hmax : ∀ (j : Nat) (x : FxWord), ws[j]? = some x → x.head = i + 1 → x.fixed = true → j ≤ last := by
    intro j x hj h1 h2
    by_cases hij : i < j
    · exact (hall j x hij hj).1 ⟨h1, h2⟩
    · omega
  obtain ⟨cells, hlen, hcell, hout⟩ := C180_fixed k true hw hlt hc hcl.1 hcl.2 hmax
  have hll : last < ws.length := (List.getElem?_eq_some_iff.1 hc).1
  have hcells : cells.map (·.1) = ((ws.drop i).take (last - i + 1)).map (·.low) := by
    apply List.ext_getElem?
    intro t
    by_cases ht : t < last - i + 1
    · obtain ⟨x, hx⟩ : ∃ x, cells[t]? = some x := ⟨cells[t], List.getElem?_eq_getElem (by omega)⟩
      obtain ⟨y, hy, hxy⟩ := hcell t x hx
      have : ((ws.drop i).take (last - i + 1))[t]? = some y := by
        rw [List.getElem?_take, if_pos ht, List.getElem?_drop, hy]
      rw [List.getElem?_map, List.getElem?_map, hx, this]
      rcases hxy with ⟨_, rfl⟩ | ⟨h1, h2, _⟩
      · rfl
      · exact absurd ((hall (i + t) y (by omega) hy).2 (by omega)) h2
    · rw [List.getElem?_map, List.getElem?_map, List.getElem?_eq_none (by omega),
        List.getElem?_eq_none (by rw [List.length_take]; omega)]
      rfl
  have hmem : expr vs i' (last - i + 1) ∈ lines := by
    apply hlines
    rw [hout, fxLine, if_pos rfl, hcells, expr, hsame]
  have hvl : i' + (last - i + 1) ≤ vs.length := by
    have := congrArg List.length hsame
    simp only [List.length_map, List.length_take, List.length_drop] at this
    omega
  have hone : ∃ out, fxNode (fxInit lines) o vs i' = some out := by
    rw [fxNode_plain _ o hv hno]
    split <;> exact ⟨_, rfl⟩
  obtain ⟨out, hone⟩ := hone
  rcases (C180_known lines o hv hno hs out).1 hone with ⟨m, h1, h2, h3, h4, h5⟩ | ⟨h, _⟩
  · have hm : m ≤ last - i + 1 := Nat.not_lt.1 fun hlt' => h4 _ (by omega) hlt' hmem
    refine ⟨m, h1, hm, h3, ?_, by rw [hone, h5]⟩
    rw [expr, expr, ← hsame]
    have hpre : ∀ (a b : List Str), a <+: b → join [' '] a <+: join [' '] b := by
      intro a
      induction a with
      | nil => intro b _; exact List.nil_prefix
      | cons x a ih =>
        rintro b ⟨d, rfl⟩
        cases a with
        | nil =>
          cases d with
          | nil => exact List.prefix_rfl
          | cons y d => exact ⟨[' '] ++ join [' '] (y :: d), by simp [join]⟩
        | cons y a =>
          obtain ⟨e, he⟩ := ih (y :: a ++ d) ⟨d, rfl⟩
          exact ⟨e, by simp only [join, List.cons_append, List.append_assoc] at he ⊢; rw [he]⟩
    apply hpre
    have : ((vs.drop i').take m).map (·.low) <+: ((vs.drop i').take (last - i + 1)).map (·.low) :=
      (List.take_prefix_take_left hm).map _
    exact this
  · exact absurd hmem (h _ (by omega) hvl)

section
private def fw (l : List Char) (h : Nat) (f : Bool) : FxWord := ⟨l, ['A'], ['d'], h, f⟩
/-- "as , well as" with `as` as head of two fixed children and a comma between, then "as well" without annotation. -/
private def sent1 : List FxWord :=
  [fw ['a'] 0 false, fw [','] 3 false, fw ['w'] 1 true, fw ['b'] 1 true, fw ['q'] 1 false]
example : fxNode (fxInit []) true sent1 0 = some [['a', ' ', 'X', ' ', 'w', ' ', 'b']] := by decide
example : fxNode (fxInit []) false sent1 0 =
    some [['a', ' ', 'X', ' ', 'w', ' ', 'b', ' ', '/', ' ', 'A', ' ', 'X', ' ', 'A', ' ', 'A', ' ', '/', ' ', 'd']] := by decide
example : fxNode (fxInit []) true [fw ['w'] 2 true, fw ['a'] 0 false, fw ['c'] 2 false] 1 = none := by decide
example : fxNode (fxInit [['a', ' ', 'w', ' ', 'b'], ['a', ' ', 'w']]) true [fw ['a'] 0 false, fw ['w'] 1 false, fw ['b'] 1 false] 0
    = some [['a', ' ', 'w']] := by decide
example : fxNode (fxInit [['a', ' ', 'w', ' ', 'b']]) true [fw ['a', ' ', 'w'] 0 false, fw ['b'] 1 false] 0 = some [] := by decide
example : fxNode (fxInit [['a', ' ', 'w']]) true [fw ['a'] 0 false, fw ['w'] 1 true, fw ['a'] 1 false, fw ['w'] 3 false] 2
    = some [['a', ' ', 'w']] := by decide
end

end Verif.Blocks
