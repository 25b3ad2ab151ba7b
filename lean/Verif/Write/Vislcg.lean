import Verif.Py.Text
import Verif.Py.Str
import Verif.Run.Files
import Verif.Text.Sentences

/-!
# Property C158: the VISL-cg format (udapi/block/write/vislcg.py, udapi/block/read/vislcg.py)

A tree is the list of its tokens in order, each with its words; a word has the number of its parent. The reader returns the words with the
numbers of the parents as they stand in the file; the loop that attaches the nodes (read/vislcg.py:55-59) is not modelled here.
FEATS is the list of its parts between the bars, empty for `_`.
-/

namespace Verif.Write.Vislcg
open Verif.Py Verif.Run
open Verif.Text.Sentences (lines OneLine lines_line lines_flat)

/-- A word that is written. -/
structure Word where
  lemma : Str
  xpos : Str
  feats : List Str
  deprel : Str
  head : Nat
  deriving DecidableEq, Repr

/-- A token: its form, its first word and the other words. -/
structure Tok where
  form : Str
  first : Word
  more : List Word
  deriving DecidableEq, Repr

def Tok.words (t : Tok) : List Word := t.first :: t.more

/-- `ESCAPE_TABLE` (write/vislcg.py:5-14) -/
def escChar (c : Char) : Str :=
  if c = '§' then ['§', 's', 'e', 'c', 't', '.']
  else if c = '"' then ['§', 'q', 'u', 'o', 't', '.']
  else if c = '#' then ['§', 'n', 'u', 'm', '.']
  else if c = ';' then ['§', 's', 'e', 'm', 'i', '.']
  else if c = '=' then ['§', 'e', 'q', 'u', 'a', 'l', 's', '.']
  else if c = '(' then ['§', 'l', 'p', 'a', 'r', '.']
  else if c = ')' then ['§', 'r', 'p', 'a', 'r', '.']
  else if c = '|' then ['§', 'v', 'e', 'r', 'b', 'a', 'r', '.']
  else [c]

/-- `_escape(string)` (write/vislcg.py:73-75) -/
def esc (s : Str) : Str := s.flatMap escChar

/-- `_node(node)` (write/vislcg.py:77-85); `k` is `node.ord`. -/
def nodeLine (k : Nat) (w : Word) : Str :=
  join [' '] ([['"'] ++ esc w.lemma ++ ['"']] ++ [esc w.xpos] ++ (if w.feats = [] then [] else [esc (join [' '] w.feats)]) ++ ['@' :: w.deprel] ++
    ['#' :: natStr k ++ ['-', '>'] ++ natStr w.head])

/-- The lines of the words after the first one -/
def moreLines : Nat → List Word → List Str
  | _, [] => []
  | k, w :: ws => ('\t' :: '\t' :: nodeLine k w) :: moreLines (k + 1) ws

/-- The loop over the tokens in `process_tree` (write/vislcg.py:63-71); `k` is the number of the next word. -/
def tokLines : Nat → List Tok → List Str
  | _, [] => []
  | k, t :: ts =>
    ((['"', '<'] ++ esc t.form ++ ['>', '"']) :: ('\t' :: nodeLine k t.first) :: moreLines (k + 1) t.more) ++ tokLines (k + 1 + t.more.length) ts

/-- `process_tree(tree)`: what is printed -/
def writeTree (ts : List Tok) : Str := (tokLines 1 ts ++ [[]]).flatMap (fun l => l ++ ['\n'])

/-- A word that was read. -/
structure RW where
  form : Option Str
  lemma : Str
  xpos : Str
  feats : List Str
  deprel : Str
  head : Int
  deriving DecidableEq, Repr

/-- The last place of `c`: what stands before it and after it -/
def cutLast (c : Char) : Str → Option (Str × Str)
  | [] => none
  | d :: s =>
    match cutLast c s with
    | some (a, b) => some (d :: a, b)
    | none => if d = c then some ([], s) else none

/-- `s.split('->')[1]`, first what follows the first arrow -/
def afterArrow : Str → Option Str
  | [] => none
  | '-' :: '>' :: s => some s
  | _ :: s => afterArrow s

/-- What stands before the next arrow -/
def beforeArrow : Str → Str
  | [] => []
  | '-' :: '>' :: _ => []
  | c :: s => c :: beforeArrow s

/-- `_node(line, root)` (read/vislcg.py:63-78); the errors are `IndexError` and `ValueError`. -/
def readNode (line : Str) : Except Unit RW :=
  let (lemma, rest) := match cutLast '"' line with
    | some (a, b) => (a.drop 1, b)
    | none => (line.dropLast.drop 1, line)
  let fields := wsSplit rest
  match fields, fields.reverse with
  | xpos :: _, last :: dep :: _ =>
    match afterArrow last with
    | none => .error ()
    | some r =>
      match pyInt (beforeArrow r) with
      | none => .error ()
      | some h => .ok ⟨none, lemma, xpos, (fields.take (fields.length - 2)).drop 3, dep.drop 1, h⟩
  | _, _ => .error ()

/-- The variables of `read_tree`; `done` are the words before those in `cur` (`words`), a multi-word token is its first word, the number of
its words and its form. -/
structure St where
  comment : Str
  done : List RW
  mwts : List (Nat × Nat × Str)
  cur : List RW
  form : Option Str
  deriving DecidableEq, Repr

/-- `word.form = form` -/
def setForm (f : Str) (w : RW) : RW := { w with form := some f }

/-- `if words:` in the loop (read/vislcg.py:33-44) -/
def flush (st : St) : Except Unit St :=
  match st.cur with
  | [] => .ok st
  | [w] => .ok { st with done := st.done ++ [{ w with form := st.form }], cur := [] }
  | w :: ws =>
    match st.form with
    | none => .error ()
    | some f =>
      let ws' := if (wsSplit f).length = (w :: ws).length then List.zipWith setForm (wsSplit f) (w :: ws) else setForm f w :: ws.map (setForm ['_'])
      .ok { st with done := st.done ++ ws', mwts := st.mwts ++ [(st.done.length + 1, (w :: ws).length, f)], cur := [] }

/-- One line that is not empty (read/vislcg.py:23-45) -/
def step (st : St) (line : Str) : Except Unit St :=
  match line with
  | [] => .ok st
  | c :: r =>
    if c = '#' then .ok { st with comment := st.comment ++ r ++ ['\n'] }
    else if isWs c then
      match readNode (lstrip (c :: r)) with
      | .error e => .error e
      | .ok w => .ok { st with cur := st.cur ++ [w] }
    else
      match flush st with
      | .error e => .error e
      | .ok st' => .ok { st' with form := some (((c :: r).take ((c :: r).length - 2)).drop 2) }

/-- The loop over the lines (read/vislcg.py:19-45) -/
def loop : St → List Str → Except Unit (St × List Str)
  | st, [] => .ok (st, [])
  | st, l :: ls =>
    if rstrip l = [] then .ok (st, ls)
    else
      match step st (rstrip l) with
      | .error e => .error e
      | .ok st' => loop st' ls

/-- A tree that was read. -/
structure Res where
  words : List RW
  mwts : List (Nat × Nat × Str)
  comment : Str
  deriving DecidableEq, Repr

/-- After the loop (read/vislcg.py:47-54); `none` is `return None`. -/
def finish (st : St) : Option Res :=
  let last := match st.cur with
    | [] => []
    | w :: ws => { w with form := st.form } :: ws.map (setForm ['_'])
  if st.done ++ last = [] then none else some ⟨st.done ++ last, st.mwts, st.comment⟩

def init : St := ⟨[], [], [], [], none⟩

/-- `read_tree()` -/
def readTree (ls : List Str) : Except Unit (Option Res × List Str) :=
  match loop init ls with
  | .error e => .error e
  | .ok (st, rest) => .ok (finish st, rest)

/-- Reading of a file: until `None` is returned (basereader.py) -/
def readFile : Nat → List Str → Except Unit (List Res)
  | 0, _ => .ok []
  | n + 1, ls =>
    match readTree ls with
    | .error e => .error e
    | .ok (none, _) => .ok []
    | .ok (some r, rest) =>
      match readFile n rest with
      | .error e => .error e
      | .ok rs => .ok (r :: rs)

/-- The whole file -/
def read (file : Str) : Except Unit (List Res) := readFile ((lines file).length + 1) (lines file)

/-! ## What the properties say -/

def NoWs (s : Str) : Prop := ∀ c ∈ s, isWs c = false

/-- The fields of the word can be written to a line with fields. -/
def Word.Clean (w : Word) : Prop :=
  OneLine w.lemma ∧ w.xpos ≠ [] ∧ NoWs w.xpos ∧ (∀ f ∈ w.feats, f ≠ [] ∧ NoWs f) ∧ NoWs w.deprel ∧ '"' ∉ w.deprel

def Tok.Clean (t : Tok) : Prop := OneLine t.form ∧ ∀ w ∈ t.words, w.Clean

/-- What is read for a word, without the form. -/
def back (w : Word) : RW := ⟨none, esc w.lemma, esc w.xpos, (w.feats.map esc).drop 2, w.deprel, w.head⟩

/-- The forms of the words of a multi-word token -/
def splitForms (f : Str) (n : Nat) : List Str := if (wsSplit f).length = n then wsSplit f else f :: List.replicate (n - 1) ['_']

/-- The words of a token that is not the last one. -/
def backTok (t : Tok) : List RW :=
  if t.more = [] then [setForm (esc t.form) (back t.first)]
  else List.zipWith setForm (splitForms (esc t.form) t.words.length) (t.words.map back)

/-- The words of the last token. -/
def backLast (t : Tok) : List RW := setForm (esc t.form) (back t.first) :: t.more.map (fun w => setForm ['_'] (back w))

/-- The multi-word tokens of a list of tokens; `k` is the number of the first word. -/
def backMwts : Nat → List Tok → List (Nat × Nat × Str)
  | _, [] => []
  | k, t :: ts => (if t.more = [] then [] else [(k, t.words.length, esc t.form)]) ++ backMwts (k + t.words.length) ts

/-- What is read for a tree. -/
def backTree (ts : List Tok) (t : Tok) : Res := ⟨ts.flatMap backTok ++ backLast t, backMwts 1 ts, []⟩

/-! ## Lemmas -/

theorem escChar_ne (c : Char) : escChar c ≠ [] := by
  unfold escChar
  repeat' split
  all_goals simp

theorem mem_escChar {c d : Char} (h : d ∈ escChar c) (hd : isWs d = true ∨ d = '"') : d = c ∧ c ≠ '"' := by
  unfold escChar at h
  have fin : ∀ l : Str, (l.all (fun x => !isWs x && x != '"')) = true → d ∈ l → False := by
    intro l hl hm
    have := List.all_eq_true.1 hl d hm
    rcases hd with hd | hd
    · rw [hd] at this; simp at this
    · rw [hd] at this; simp at this
  split at h
  · exact (fin _ (by decide) h).elim
  · split at h
    · exact (fin _ (by decide) h).elim
    · rename_i hq
      split at h
      · exact (fin _ (by decide) h).elim
      · split at h
        · exact (fin _ (by decide) h).elim
        · split at h
          · exact (fin _ (by decide) h).elim
          · split at h
            · exact (fin _ (by decide) h).elim
            · split at h
              · exact (fin _ (by decide) h).elim
              · split at h
                · exact (fin _ (by decide) h).elim
                · exact ⟨List.mem_singleton.1 h, hq⟩

theorem noWs_esc {s : Str} (h : NoWs s) : NoWs (esc s) := by
  intro c hc
  obtain ⟨d, hd, hcd⟩ := List.mem_flatMap.1 hc
  cases hw : isWs c with
  | false => rfl
  | true => rw [(mem_escChar hcd (.inl hw)).1, h d hd] at hw; exact absurd hw (by decide)

theorem quote_esc (s : Str) : '"' ∉ esc s := by
  intro h
  obtain ⟨d, _, hd⟩ := List.mem_flatMap.1 h
  obtain ⟨e1, e2⟩ := mem_escChar hd (.inr rfl)
  exact e2 e1.symm

theorem oneLine_esc {s : Str} (h : OneLine s) : OneLine (esc s) := by
  intro hc
  obtain ⟨d, hd, hcd⟩ := List.mem_flatMap.1 hc
  exact h (by rw [(mem_escChar hcd (.inl (by decide))).1]; exact hd)

theorem esc_ne {s : Str} (h : s ≠ []) : esc s ≠ [] := by
  cases s with
  | nil => exact absurd rfl h
  | cons c s => simp only [esc, List.flatMap_cons]; intro e; exact escChar_ne c (List.append_eq_nil_iff.1 e).1

theorem esc_append (a b : Str) : esc (a ++ b) = esc a ++ esc b := List.flatMap_append

theorem esc_join : ∀ (l : List Str), esc (join [' '] l) = join [' '] (l.map esc)
  | [] => rfl
  | [a] => rfl
  | a :: b :: l => by
    have ih := esc_join (b :: l)
    simp only [join, List.map_cons] at ih ⊢
    rw [esc_append, esc_append, ih]
    rfl

theorem cutLast_none {c : Char} {s : Str} (h : c ∉ s) : cutLast c s = none := by
  induction s with
  | nil => rfl
  | cons d s ih =>
    rw [cutLast, ih (fun hm => h (List.mem_cons_of_mem _ hm))]
    simp only
    rw [if_neg (fun e => h (by rw [e]; exact List.mem_cons_self))]

theorem cutLast_append {c : Char} (a : Str) {b : Str} (h : c ∉ b) : cutLast c (a ++ c :: b) = some (a, b) := by
  induction a with
  | nil => rw [List.nil_append, cutLast, cutLast_none h]; simp
  | cons d a ih => rw [List.cons_append, cutLast, ih]

theorem wsAux_word {p : Str} (hp : NoWs p) : ∀ (acc r : Str), wsSplitAux acc (p ++ r) = wsSplitAux (p.reverse ++ acc) r := by
  induction p with
  | nil => intro acc r; rfl
  | cons c p ih =>
    intro acc r
    rw [List.cons_append, wsSplitAux, if_neg (by rw [hp c List.mem_cons_self]; simp), ih (fun d hd => hp d (List.mem_cons_of_mem _ hd))]
    simp

theorem wsSplit_spaced (l : List Str) (h : ∀ p ∈ l, p ≠ [] ∧ NoWs p) : wsSplit (l.flatMap (fun p => ' ' :: p)) = l := by
  have key : ∀ (l : List Str) (acc : Str), (∀ p ∈ l, p ≠ [] ∧ NoWs p) →
      wsSplitAux acc (l.flatMap (fun p => ' ' :: p)) = if acc = [] then l else acc.reverse :: l := by
    intro l
    induction l with
    | nil => intro acc _; rfl
    | cons p l ih =>
      intro acc h
      obtain ⟨h1, h2⟩ := h p List.mem_cons_self
      have ih' := ih p.reverse (fun q hq => h q (List.mem_cons_of_mem _ hq))
      have hw : wsSplitAux [] (p ++ l.flatMap (fun p => ' ' :: p)) = p :: l := by
        rw [wsAux_word h2, List.append_nil, ih', if_neg (by simpa using h1), List.reverse_reverse]
      rw [List.flatMap_cons, List.cons_append, wsSplitAux, if_pos (by decide), hw]
  have := key l [] h
  simpa [wsSplit] using this

theorem join_spaced (a : Str) (l : List Str) : join [' '] (a :: l) = a ++ l.flatMap (fun p => ' ' :: p) := by
  induction l generalizing a with
  | nil => simp [join]
  | cons b l ih => rw [join, ih b]; simp

theorem afterArrow_append {a r : Str} (h : '-' ∉ a) : afterArrow (a ++ '-' :: '>' :: r) = some r := by
  induction a with
  | nil => rfl
  | cons c a ih =>
    have hc : c ≠ '-' := fun e => h (by rw [e]; exact List.mem_cons_self)
    have ih' := ih (fun hm => h (List.mem_cons_of_mem _ hm))
    rw [List.cons_append]
    have : afterArrow (c :: (a ++ '-' :: '>' :: r)) = afterArrow (a ++ '-' :: '>' :: r) := by
      rw [afterArrow]
      intro s e _
      exact hc e
    rw [this, ih']

theorem beforeArrow_id {a : Str} (h : '-' ∉ a) : beforeArrow a = a := by
  induction a with
  | nil => rfl
  | cons c a ih =>
    have hc : c ≠ '-' := fun e => h (by rw [e]; exact List.mem_cons_self)
    rw [beforeArrow, ih (fun hm => h (List.mem_cons_of_mem _ hm))]
    intro s e _
    exact hc e

theorem natStr_noWs (n : Nat) : NoWs (natStr n) := fun c hc => isWs_digit (natStr_digits n c hc)

theorem natStr_not {c : Char} (hc : ¬ (48 ≤ c.toNat ∧ c.toNat ≤ 57)) (n : Nat) : c ∉ natStr n := fun h => hc (natStr_digits n c h)

/-- The fields after the lemma. -/
def fieldsOf (k : Nat) (w : Word) : List Str :=
  esc w.xpos :: (w.feats.map esc ++ ['@' :: w.deprel, '#' :: natStr k ++ ['-', '>'] ++ natStr w.head])

theorem nodeLine_eq (k : Nat) (w : Word) : nodeLine k w = ['"'] ++ esc w.lemma ++ '"' :: (fieldsOf k w).flatMap (fun p => ' ' :: p) := by
  unfold nodeLine fieldsOf
  rw [List.append_assoc, List.append_assoc, List.append_assoc, List.singleton_append, join_spaced]
  cases hf : w.feats with
  | nil => simp
  | cons f fs =>
    rw [if_neg (by simp), esc_join, List.map_cons, join_spaced]
    simp

theorem fieldsOf_clean {k : Nat} {w : Word} (h : w.Clean) : ∀ p ∈ fieldsOf k w, p ≠ [] ∧ NoWs p := by
  obtain ⟨_, h2, h3, h4, h5, _⟩ := h
  intro p hp
  rcases List.mem_cons.1 hp with rfl | hp
  · exact ⟨esc_ne h2, noWs_esc h3⟩
  · rcases List.mem_append.1 hp with hp | hp
    · obtain ⟨f, hf, rfl⟩ := List.mem_map.1 hp
      exact ⟨esc_ne (h4 f hf).1, noWs_esc (h4 f hf).2⟩
    · simp only [List.mem_cons, List.not_mem_nil, or_false] at hp
      rcases hp with rfl | rfl
      · refine ⟨by simp, fun c hc => ?_⟩
        rcases List.mem_cons.1 hc with rfl | hc
        · decide
        · exact h5 c hc
      · refine ⟨by simp, fun c hc => ?_⟩
        simp only [List.cons_append, List.mem_cons, List.mem_append, List.not_mem_nil, or_false] at hc
        rcases hc with rfl | (hc | rfl | rfl) | hc
        · decide
        · exact natStr_noWs k c hc
        · decide
        · decide
        · exact natStr_noWs _ c hc

theorem fields_quote {k : Nat} {w : Word} (h : w.Clean) : '"' ∉ (fieldsOf k w).flatMap (fun p => ' ' :: p) := by
  intro hm
  obtain ⟨p, hp, hq⟩ := List.mem_flatMap.1 hm
  have hq : '"' ∈ p := by
    rcases List.mem_cons.1 hq with e | hq
    · exact absurd e (by decide)
    · exact hq
  rcases List.mem_cons.1 hp with rfl | hp
  · exact quote_esc _ hq
  · rcases List.mem_append.1 hp with hp | hp
    · obtain ⟨f, _, rfl⟩ := List.mem_map.1 hp
      exact quote_esc _ hq
    · simp only [List.mem_cons, List.not_mem_nil, or_false] at hp
      rcases hp with rfl | rfl
      · rcases List.mem_cons.1 hq with e | hq
        · exact absurd e (by decide)
        · exact h.2.2.2.2.2 hq
      · simp only [List.cons_append, List.mem_cons, List.mem_append, List.not_mem_nil, or_false] at hq
        rcases hq with e | (hq | e | e) | hq
        · exact absurd e (by decide)
        · exact natStr_not (by decide) k hq
        · exact absurd e (by decide)
        · exact absurd e (by decide)
        · exact natStr_not (by decide) _ hq

theorem readNode_nodeLine {k : Nat} {w : Word} (h : w.Clean) : readNode (nodeLine k w) = .ok (back w) := by
  unfold readNode
  rw [nodeLine_eq, cutLast_append _ (fields_quote h)]
  simp only
  rw [wsSplit_spaced _ (fieldsOf_clean h)]
  have hrev : (fieldsOf k w).reverse = ('#' :: natStr k ++ ['-', '>'] ++ natStr w.head) :: ('@' :: w.deprel) :: (esc w.xpos :: w.feats.map esc).reverse := by
    simp [fieldsOf]
  rw [hrev]
  have hlen : (fieldsOf k w).length = w.feats.length + 3 := by simp [fieldsOf]
  have htake : ((fieldsOf k w).take ((fieldsOf k w).length - 2)).drop 3 = (w.feats.map esc).drop 2 := by
    have e : fieldsOf k w = (esc w.xpos :: w.feats.map esc) ++ ['@' :: w.deprel, '#' :: natStr k ++ ['-', '>'] ++ natStr w.head] := by simp [fieldsOf]
    rw [hlen, e, List.take_left' (by simp)]
    rfl
  have harrow : afterArrow ('#' :: natStr k ++ ['-', '>'] ++ natStr w.head) = some (natStr w.head) := by
    have : '#' :: natStr k ++ ['-', '>'] ++ natStr w.head = ('#' :: natStr k) ++ '-' :: '>' :: natStr w.head := by simp
    rw [this]
    apply afterArrow_append
    intro hm
    rcases List.mem_cons.1 hm with e | hm
    · exact absurd e (by decide)
    · exact natStr_not (by decide) k hm
  rw [htake]
  have hcons : fieldsOf k w = esc w.xpos :: (w.feats.map esc ++ ['@' :: w.deprel, '#' :: natStr k ++ ['-', '>'] ++ natStr w.head]) := rfl
  rw [hcons]
  simp only [harrow, beforeArrow_id (natStr_not (by decide) w.head), pyInt_natStr]
  rfl

theorem nodeLine_head (k : Nat) (w : Word) : ∃ r, nodeLine k w = '"' :: r := ⟨_, by rw [nodeLine_eq]; rfl⟩

theorem nodeLine_last (k : Nat) (w : Word) : ∃ a c, nodeLine k w = a ++ [c] ∧ isWs c = false := by
  have hn : natStr w.head ≠ [] := natStr_ne_nil _
  refine ⟨['"'] ++ esc w.lemma ++ '"' :: ((esc w.xpos :: (w.feats.map esc ++ ['@' :: w.deprel])).flatMap (fun p => ' ' :: p) ++
    ' ' :: '#' :: natStr k ++ ['-', '>'] ++ (natStr w.head).dropLast), (natStr w.head).getLast hn, ?_, ?_⟩
  · rw [nodeLine_eq]
    conv => lhs; rw [show fieldsOf k w = (esc w.xpos :: (w.feats.map esc ++ ['@' :: w.deprel])) ++ ['#' :: natStr k ++ ['-', '>'] ++ natStr w.head] by simp [fieldsOf]]
    conv => lhs; rw [← List.dropLast_concat_getLast hn]
    simp
  · exact natStr_noWs _ _ (List.getLast_mem hn)

theorem rstrip_line {a : Str} {c : Char} (hc : isWs c = false) : rstrip ((a ++ [c]) ++ ['\n']) = a ++ [c] := by
  unfold rstrip
  have : isWs '\n' = true := by decide
  simp [this, hc]

theorem step_node {st : St} {k : Nat} {w : Word} {pre : Str} (hpre : pre ≠ []) (hws : ∀ c ∈ pre, isWs c = true ∧ c ≠ '#') (h : w.Clean) :
    step st (pre ++ nodeLine k w) = .ok { st with cur := st.cur ++ [back w] } := by
  have hstrip : lstrip (pre ++ nodeLine k w) = nodeLine k w := by
    obtain ⟨r, hr⟩ := nodeLine_head k w
    unfold lstrip
    rw [List.dropWhile_append_of_pos (fun c hc => (hws c hc).1), dropWhile_of_head]
    intro c hc
    rw [hr] at hc
    cases hc
    decide
  cases pre with
  | nil => exact absurd rfl hpre
  | cons c pre =>
    obtain ⟨h1, h2⟩ := hws c List.mem_cons_self
    rw [List.cons_append] at hstrip ⊢
    simp only [step]
    rw [if_neg h2, if_pos h1, hstrip, readNode_nodeLine h]

theorem step_form {st st' : St} {f : Str} (h : flush st = .ok st') : step st (['"', '<'] ++ f ++ ['>', '"']) = .ok { st' with form := some f } := by
  simp only [List.cons_append, List.nil_append, step]
  rw [if_neg (by decide), if_neg (by decide), h]
  simp only
  congr 2
  simp

theorem loop_line {st st' : St} {l : Str} {a : Str} {c : Char} {ls : List Str} (hl : l = a ++ [c]) (hc : isWs c = false) (h : step st l = .ok st') :
    loop st ((l ++ ['\n']) :: ls) = loop st' ls := by
  subst hl
  rw [loop, rstrip_line hc, if_neg (by simp), h]

theorem loop_more {ws : List Word} (h : ∀ w ∈ ws, w.Clean) : ∀ (k : Nat) (st : St) (ls : List Str),
    loop st ((moreLines k ws).map (fun l => l ++ ['\n']) ++ ls) = loop { st with cur := st.cur ++ ws.map back } ls := by
  induction ws with
  | nil => intro k st ls; simp [moreLines]
  | cons w ws ih =>
    intro k st ls
    obtain ⟨a, c, hac, hc⟩ := nodeLine_last k w
    have hs : step st ('\t' :: '\t' :: nodeLine k w) = .ok { st with cur := st.cur ++ [back w] } :=
      step_node (pre := ['\t', '\t']) (by simp) (by decide) (h w List.mem_cons_self)
    refine (loop_line (a := '\t' :: '\t' :: a) (by rw [hac]; rfl) hc hs).trans ?_
    refine (ih (fun v hv => h v (List.mem_cons_of_mem _ hv)) _ _ _).trans ?_
    simp

theorem loop_tok {t : Tok} (h : t.Clean) {k : Nat} {st st' : St} (hf : flush st = .ok st') (hcur : st'.cur = []) (ls : List Str) :
    loop st ((((['"', '<'] ++ esc t.form ++ ['>', '"']) :: ('\t' :: nodeLine k t.first) :: moreLines (k + 1) t.more).map (fun l => l ++ ['\n'])) ++ ls) =
      loop { st' with cur := t.words.map back, form := some (esc t.form) } ls := by
  obtain ⟨a, c, hac, hc⟩ := nodeLine_last k t.first
  refine (loop_line (a := ['"', '<'] ++ esc t.form ++ ['>']) (c := '"') (by simp) (by decide) (step_form hf)).trans ?_
  have hs : step { st' with form := some (esc t.form) } ('\t' :: nodeLine k t.first) =
      .ok { st' with form := some (esc t.form), cur := st'.cur ++ [back t.first] } :=
    step_node (pre := ['\t']) (by simp) (by decide) (h.2 t.first List.mem_cons_self)
  refine (loop_line (a := '\t' :: a) (by rw [hac]; rfl) hc hs).trans ?_
  refine (loop_more (fun w hw => h.2 w (List.mem_cons_of_mem _ hw)) _ _ _).trans ?_
  simp [hcur, Tok.words]

theorem zip_under (f : Str) (n : Nat) : ∀ (ws : List RW), ws.length = n → List.zipWith setForm (List.replicate n f) ws = ws.map (setForm f) := by
  induction n with
  | zero => intro ws h; rw [List.length_eq_zero_iff] at h; subst h; rfl
  | succ n ih =>
    intro ws h
    cases ws with
    | nil => simp at h
    | cons w ws => rw [List.replicate_succ, List.zipWith_cons_cons, ih ws (by simpa using h), List.map_cons]

theorem flush_tok (t : Tok) (cm : Str) (done : List RW) (mw : List (Nat × Nat × Str)) :
    flush ⟨cm, done, mw, t.words.map back, some (esc t.form)⟩ =
      .ok ⟨cm, done ++ backTok t, mw ++ (if t.more = [] then [] else [(done.length + 1, t.words.length, esc t.form)]), [], some (esc t.form)⟩ := by
  cases hm : t.more with
  | nil => simp [flush, Tok.words, hm, backTok, setForm]
  | cons v ws =>
    have hb : backTok t = if (wsSplit (esc t.form)).length = (back t.first :: back v :: ws.map back).length then
        List.zipWith setForm (wsSplit (esc t.form)) (back t.first :: back v :: ws.map back)
        else setForm (esc t.form) (back t.first) :: (back v :: ws.map back).map (setForm ['_']) := by
      unfold backTok splitForms
      rw [if_neg (by simp [hm])]
      simp only [Tok.words, hm, List.map_cons]
      by_cases hl : (wsSplit (esc t.form)).length = ws.length + 1 + 1
      · rw [if_pos (by simpa using hl), if_pos (by simpa using hl)]
      · rw [if_neg (by simpa using hl), if_neg (by simpa using hl)]
        show setForm _ _ :: List.zipWith setForm (List.replicate (ws.length + 1 + 1 - 1) ['_']) (back v :: ws.map back) = _
        rw [zip_under _ _ _ (by simp)]
        rfl
    rw [hb]
    simp [flush, Tok.words, hm]

theorem backTok_length (t : Tok) : (backTok t).length = t.words.length := by
  unfold backTok splitForms
  split
  · rename_i h; simp [Tok.words, h]
  · split
    · rename_i h; simp [h]
    · simp [Tok.words]

/-- The loop over all tokens; the last one stays in `words`. -/
theorem loop_toks (ts : List Tok) : ∀ (t : Tok) (k : Nat) (st : St) (done : List RW) (mw : List (Nat × Nat × Str)) (cm : Str) (f : Option Str) (ls : List Str),
    (∀ u ∈ ts ++ [t], u.Clean) → flush st = .ok ⟨cm, done, mw, [], f⟩ → done.length + 1 = k →
    loop st ((tokLines k (ts ++ [t])).map (fun l => l ++ ['\n']) ++ ls) =
      loop ⟨cm, done ++ ts.flatMap backTok, mw ++ backMwts k ts, t.words.map back, some (esc t.form)⟩ ls := by
  induction ts with
  | nil =>
    intro t k st done mw cm f ls h hf hk
    have := loop_tok (k := k) (h t (by simp)) hf rfl ls
    simp only [List.nil_append, tokLines, List.append_nil]
    rw [this]
    simp [backMwts]
  | cons u ts ih =>
    intro t k st done mw cm f ls h hf hk
    rw [List.cons_append, tokLines, List.map_append, List.append_assoc, loop_tok (h u (by simp)) hf rfl]
    rw [ih t (k + 1 + u.more.length) _ _ _ _ _ ls (fun v hv => h v (by rw [List.cons_append]; exact List.mem_cons_of_mem _ hv)) (flush_tok u cm done mw) (by
      rw [List.length_append, backTok_length, Tok.words, List.length_cons]; omega)]
    congr 1
    simp only [List.flatMap_cons, backMwts, hk, List.append_assoc]
    congr 4
    simp only [Tok.words, List.length_cons]; omega

theorem tokLines_one (k : Nat) (ts : List Tok) (h : ∀ t ∈ ts, t.Clean) : ∀ l ∈ tokLines k ts, OneLine l := by
  have hnode : ∀ (k : Nat) (w : Word), w.Clean → OneLine (nodeLine k w) := by
    intro k w hw hm
    rw [nodeLine_eq] at hm
    simp only [List.mem_append, List.mem_cons, List.not_mem_nil, or_false] at hm
    rcases hm with (e | hm) | e | hm
    · exact absurd e (by decide)
    · exact oneLine_esc hw.1 hm
    · exact absurd e (by decide)
    · obtain ⟨p, hp, hq⟩ := List.mem_flatMap.1 hm
      rcases List.mem_cons.1 hq with e | hq
      · exact absurd e (by decide)
      · exact absurd ((fieldsOf_clean hw p hp).2 _ hq) (by decide)
  have hmore : ∀ (ws : List Word) (k : Nat), (∀ w ∈ ws, w.Clean) → ∀ l ∈ moreLines k ws, OneLine l := by
    intro ws
    induction ws with
    | nil => intro k _ l hl; cases hl
    | cons w ws ih =>
      intro k h l hl
      rcases List.mem_cons.1 hl with rfl | hl
      · intro hm
        simp only [List.mem_cons] at hm
        rcases hm with e | e | hm
        · exact absurd e (by decide)
        · exact absurd e (by decide)
        · exact hnode k w (h w List.mem_cons_self) hm
      · exact ih (k + 1) (fun v hv => h v (List.mem_cons_of_mem _ hv)) l hl
  induction ts generalizing k with
  | nil => intro l hl; cases hl
  | cons t ts ih =>
    intro l hl
    have ht := h t List.mem_cons_self
    rcases List.mem_append.1 hl with hl | hl
    · rcases List.mem_cons.1 hl with rfl | hl
      · intro hm
        simp only [List.mem_append, List.mem_cons, List.not_mem_nil, or_false] at hm
        rcases hm with ((e | e) | hm) | e | e
        · exact absurd e (by decide)
        · exact absurd e (by decide)
        · exact oneLine_esc ht.1 hm
        · exact absurd e (by decide)
        · exact absurd e (by decide)
      · rcases List.mem_cons.1 hl with rfl | hl
        · intro hm
          rcases List.mem_cons.1 hm with e | hm
          · exact absurd e (by decide)
          · exact hnode k t.first (ht.2 _ List.mem_cons_self) hm
        · exact hmore t.more (k + 1) (fun w hw => ht.2 w (List.mem_cons_of_mem _ hw)) l hl
    · exact ih _ (fun v hv => h v (List.mem_cons_of_mem _ hv)) l hl

/-- Every non-empty tree has a last token. -/
theorem lines_tree {ts : List Tok} (h : ∀ t ∈ ts, t.Clean) (r : Str) :
    lines (writeTree ts ++ r) = (tokLines 1 ts).map (fun l => l ++ ['\n']) ++ ['\n'] :: lines r := by
  have h1 := tokLines_one 1 ts h
  unfold writeTree
  generalize tokLines 1 ts = ls at h1
  induction ls with
  | nil => simp [lines]
  | cons l ls ih =>
    have : ((l :: ls) ++ [[]]).flatMap (fun l => l ++ ['\n']) ++ r = l ++ '\n' :: ((ls ++ [[]]).flatMap (fun l => l ++ ['\n']) ++ r) := by simp
    rw [this, lines_line (h1 l List.mem_cons_self), ih (fun m hm => h1 m (List.mem_cons_of_mem _ hm))]
    rfl

theorem readTree_write {ts : List Tok} {t : Tok} (h : ∀ u ∈ ts ++ [t], u.Clean) (r : Str) :
    readTree (lines (writeTree (ts ++ [t]) ++ r)) = .ok (some (backTree ts t), lines r) := by
  unfold readTree
  rw [lines_tree h, loop_toks ts t 1 init [] [] [] none _ h rfl rfl, loop, if_pos (by decide)]
  simp only [List.nil_append, finish]
  rw [show (t.words.map back) = back t.first :: t.more.map back from rfl]
  simp only
  rw [if_neg (by simp)]
  simp [backTree, backLast, setForm]

theorem rfile {n : Nat} {ls : List Str} {r : Res} {rest : List Str} {rs : List Res} (h : readTree ls = .ok (some r, rest)) (h' : readFile n rest = .ok rs) :
    readFile (n + 1) ls = .ok (r :: rs) := by
  simp only [readFile, h, h']

theorem readFile_trees (trees : List (List Tok × Tok)) (h : ∀ p ∈ trees, ∀ u ∈ p.1 ++ [p.2], u.Clean) : ∀ (n : Nat) (tail : Str) (rs : List Res),
    readFile n (lines tail) = .ok rs →
    readFile (n + trees.length) (lines (trees.flatMap (fun p => writeTree (p.1 ++ [p.2])) ++ tail)) = .ok (trees.map (fun p => backTree p.1 p.2) ++ rs) := by
  induction trees with
  | nil => intro n tail rs hr; simpa using hr
  | cons p trees ih =>
    intro n tail rs hr
    have h1 := readTree_write (h p List.mem_cons_self) (trees.flatMap (fun p => writeTree (p.1 ++ [p.2])) ++ tail)
    rw [List.flatMap_cons, List.append_assoc, List.length_cons, ← Nat.add_assoc]
    exact rfile h1 (ih (fun q hq => h q (List.mem_cons_of_mem _ hq)) n tail rs hr)

theorem readTree_nl (n : Nat) (ls : List Str) : readFile n (['\n'] :: ls) = .ok [] := by
  cases n with
  | zero => rfl
  | succ n =>
    have : readTree (['\n'] :: ls) = .ok (none, ls) := rfl
    simp only [readFile, this]

theorem readFile_nil (n : Nat) : readFile n [] = .ok [] := by
  cases n with
  | zero => rfl
  | succ n => rfl

theorem lines_length (s : Str) : (lines s).length ≥ s.count '\n' := by
  induction s with
  | nil => simp
  | cons c s ih =>
    rw [lines]
    split
    · rename_i e; subst e; simp; exact ih
    · rename_i hc
      rw [List.count_cons_of_ne (fun e => hc e)]
      split
      · rename_i e; rw [e] at ih; simp at ih; simp [ih]
      · rename_i e; rw [e] at ih; simpa using ih

theorem count_trees (trees : List (List Tok × Tok)) (tail : Str) : (trees.flatMap (fun p => writeTree (p.1 ++ [p.2])) ++ tail).count '\n' ≥ trees.length + tail.count '\n' := by
  induction trees with
  | nil => simp
  | cons p trees ih =>
    have : (writeTree (p.1 ++ [p.2])).count '\n' ≥ 1 := by
      apply List.count_pos_iff.2
      unfold writeTree
      rw [List.flatMap_append]
      simp
    rw [List.flatMap_cons, List.append_assoc, List.count_append, List.length_cons]
    omega

/-! ## Theorems -/

/-- **C158.** What write.Vislcg writes for trees that are not empty, read.Vislcg reads without an exception: the same number of trees, in
each tree the same number of words in the same order, with the same DEPREL and the same parent; LEMMA and XPOS as they were escaped. Missing:
of FEATS the first two features are lost, and a multi-word token at the end of a sentence is lost (see below). -/
theorem C158_read_partial (trees : List (List Tok × Tok)) (h : ∀ p ∈ trees, ∀ u ∈ p.1 ++ [p.2], u.Clean) :
    ∃ rs, read (trees.flatMap (fun p => writeTree (p.1 ++ [p.2]))) = .ok rs ∧ rs.length = trees.length ∧
      ∀ (k : Nat) (p : List Tok × Tok) (r : Res), trees[k]? = some p → rs[k]? = some r →
        r.words.map (fun w => (w.lemma, w.xpos, w.deprel, w.head)) =
          ((p.1 ++ [p.2]).flatMap Tok.words).map (fun w => (esc w.lemma, esc w.xpos, w.deprel, Int.ofNat w.head)) ∧
        r.words.map (·.feats) = ((p.1 ++ [p.2]).flatMap Tok.words).map (fun w => (w.feats.map esc).drop 2) ∧
        r.mwts = backMwts 1 p.1 ∧
        ∀ t ∈ p.1 ++ [p.2], t.more = [] → ∃ w ∈ r.words, w.form = some (esc t.form) ∧ w.lemma = esc t.first.lemma := by
  refine ⟨trees.map (fun p => backTree p.1 p.2), ?_, by simp, ?_⟩
  · have hl := lines_length (trees.flatMap (fun p => writeTree (p.1 ++ [p.2])))
    have hc := count_trees trees []
    simp only [List.append_nil, List.count_nil, Nat.add_zero] at hc
    have := readFile_trees trees h ((lines (trees.flatMap (fun p => writeTree (p.1 ++ [p.2])))).length + 1 - trees.length) [] [] (readFile_nil _)
    rw [List.append_nil, List.append_nil, Nat.sub_add_cancel (by omega)] at this
    exact this
  · intro k p r hp hr
    rw [List.getElem?_map, hp] at hr
    simp only [Option.map_some, Option.some.injEq] at hr
    subst hr
    have gen : ∀ {β : Type} (f : RW → β), (∀ (s : Str) (w : RW), f (setForm s w) = f w) →
        (backTree p.1 p.2).words.map f = ((p.1 ++ [p.2]).flatMap Tok.words).map (fun w => f (back w)) := by
      intro β f hf
      have zip : ∀ (fs : List Str) (ws : List RW), fs.length = ws.length → (List.zipWith setForm fs ws).map f = ws.map f := by
        intro fs
        induction fs with
        | nil => intro ws h; cases ws with
          | nil => rfl
          | cons w ws => simp at h
        | cons a fs ih => intro ws h; cases ws with
          | nil => simp at h
          | cons w ws => rw [List.zipWith_cons_cons, List.map_cons, List.map_cons, hf, ih ws (by simpa using h)]
      have htok : ∀ t : Tok, (backTok t).map f = t.words.map (fun w => f (back w)) := by
        intro t
        unfold backTok
        split
        · rename_i hm; simp [Tok.words, hm, hf]
        · rw [zip]
          · simp [Function.comp_def]
          · unfold splitForms
            split
            · rename_i e; simp [e]
            · simp [Tok.words]
      simp only [backTree, List.map_append, List.flatMap_append]
      congr 1
      · induction p.1 with
        | nil => rfl
        | cons t ts ih => rw [List.flatMap_cons, List.map_append, ih, htok, List.flatMap_cons, List.map_append]
      · simp [backLast, hf, Tok.words, Function.comp_def]
    refine ⟨gen (fun w => (w.lemma, w.xpos, w.deprel, w.head)) (fun s w => rfl), gen (fun w => w.feats) (fun s w => rfl), rfl, ?_⟩
    intro t ht hm
    rcases List.mem_append.1 ht with ht | ht
    · refine ⟨setForm (esc t.form) (back t.first), List.mem_append_left _ (List.mem_flatMap.2 ⟨t, ht, ?_⟩), rfl, rfl⟩
      unfold backTok
      rw [if_pos hm]
      exact List.mem_singleton.2 rfl
    · have ht := List.mem_singleton.1 ht
      subst ht
      exact ⟨setForm (esc p.2.form) (back p.2.first), List.mem_append_right _ List.mem_cons_self, rfl, rfl⟩

/-- **C158, escaping.** A string is changed by the writer exactly if it contains one of the eight special characters, and the reader never
changes it back. -/
theorem C158_escape (s : Str) : esc s = s ↔ ∀ c ∈ s, c ∉ ['§', '"', '#', ';', '=', '(', ')', '|'] := by
  have hlen : ∀ c, 1 ≤ (escChar c).length := fun c => List.length_pos_iff.2 (escChar_ne c)
  have one : ∀ c, c ∉ ['§', '"', '#', ';', '=', '(', ')', '|'] → escChar c = [c] := by
    intro c hc
    simp only [List.mem_cons, List.not_mem_nil, or_false, not_or] at hc
    obtain ⟨h1, h2, h3, h4, h5, h6, h7, h8⟩ := hc
    unfold escChar
    rw [if_neg h1, if_neg h2, if_neg h3, if_neg h4, if_neg h5, if_neg h6, if_neg h7, if_neg h8]
  have two : ∀ c, c ∈ ['§', '"', '#', ';', '=', '(', ')', '|'] → 2 ≤ (escChar c).length := by decide
  have tot : ∀ s : Str, s.length ≤ (esc s).length := by
    intro s
    induction s with
    | nil => simp
    | cons c s ih => have := hlen c; simp only [esc, List.flatMap_cons, List.length_append, List.length_cons] at ih ⊢; omega
  constructor
  · intro e c hc hm
    obtain ⟨a, b, rfl⟩ := List.append_of_mem hc
    have := congrArg List.length e
    have h1 := tot a
    have h2 := tot b
    have h3 := two c hm
    rw [esc_append, show esc (c :: b) = escChar c ++ esc b from rfl] at this
    simp only [List.length_append, List.length_cons] at this
    omega
  · intro h
    induction s with
    | nil => rfl
    | cons c s ih =>
      rw [show esc (c :: s) = escChar c ++ esc s from rfl, one c (h c List.mem_cons_self), ih (fun d hd => h d (List.mem_cons_of_mem _ hd))]
      rfl

/-- **C158 violated (features).** A word with features never gets them back, in no tree: the list that is read is shorter. -/
theorem C158_feats_violated {ts : List Tok} {t : Tok} (h : ∀ u ∈ ts ++ [t], u.Clean) :
    ∃ r, read (writeTree (ts ++ [t])) = .ok [r] ∧
      ∀ (k : Nat) (w : Word) (v : RW), ((ts ++ [t]).flatMap Tok.words)[k]? = some w → r.words[k]? = some v → w.feats ≠ [] →
        v.feats.length < w.feats.length := by
  obtain ⟨rs, h1, h2, h3⟩ := C158_read_partial [(ts, t)] (by simpa using h)
  obtain ⟨r, rfl⟩ : ∃ r, rs = [r] := by
    cases rs with
    | nil => simp at h2
    | cons r rs => cases rs with
      | nil => exact ⟨r, rfl⟩
      | cons _ _ => simp at h2
  refine ⟨r, by simpa using h1, ?_⟩
  intro k w v hw hv hne
  have h4 := congrArg (fun l => l[k]?) (h3 0 (ts, t) r rfl rfl).2.1
  simp only [List.getElem?_map, hw, hv, Option.map_some, Option.some.injEq] at h4
  rw [h4]
  have := List.length_pos_iff.2 hne
  simp
  omega

/-- **C158 violated (multi-word tokens).** A multi-word token at the end of a sentence is lost, in every tree: fewer are read than were
written. -/
theorem C158_mwt_violated {ts : List Tok} {t : Tok} (h : ∀ u ∈ ts ++ [t], u.Clean) (hm : t.more ≠ []) :
    ∃ r, read (writeTree (ts ++ [t])) = .ok [r] ∧ r.mwts.length < ((ts ++ [t]).filter (fun u => decide (u.more ≠ []))).length := by
  obtain ⟨rs, h1, h2, h3⟩ := C158_read_partial [(ts, t)] (by simpa using h)
  obtain ⟨r, rfl⟩ : ∃ r, rs = [r] := by
    cases rs with
    | nil => simp at h2
    | cons r rs => cases rs with
      | nil => exact ⟨r, rfl⟩
      | cons _ _ => simp at h2
  refine ⟨r, by simpa using h1, ?_⟩
  rw [(h3 0 (ts, t) r rfl rfl).2.2.1]
  have : ∀ (l : List Tok) (k : Nat), (backMwts k l).length = (l.filter (fun u => decide (u.more ≠ []))).length := by
    intro l
    induction l with
    | nil => intro k; rfl
    | cons u l ih =>
      intro k
      rw [backMwts, List.length_append, ih, List.filter_cons]
      by_cases hu : u.more = []
      · simp [hu]
      · simp [hu]; omega
  rw [this, List.filter_append, List.length_append]
  simp [hm]

/-- **C158 violated (empty tree).** A tree without words, or a second empty line, ends the reading of the file: all the following trees are
lost. -/
theorem C158_empty_violated (trees : List (List Tok × Tok)) (h : ∀ p ∈ trees, ∀ u ∈ p.1 ++ [p.2], u.Clean) (rest : Str) :
    ∃ rs, read (trees.flatMap (fun p => writeTree (p.1 ++ [p.2])) ++ (writeTree [] ++ rest)) = .ok rs ∧ rs.length = trees.length := by
  refine ⟨trees.map (fun p => backTree p.1 p.2), ?_, by simp⟩
  have hl := lines_length (trees.flatMap (fun p => writeTree (p.1 ++ [p.2])) ++ (writeTree [] ++ rest))
  have hc := count_trees trees (writeTree [] ++ rest)
  have := readFile_trees trees h ((lines (trees.flatMap (fun p => writeTree (p.1 ++ [p.2])) ++ (writeTree [] ++ rest))).length + 1 - trees.length)
    (writeTree [] ++ rest) [] (by
      have : lines (writeTree [] ++ rest) = ['\n'] :: lines rest := by simp [writeTree, tokLines, lines]
      rw [this]; exact readTree_nl _ _)
  rw [List.append_nil, Nat.sub_add_cancel (by omega)] at this
  exact this

/-! ## Examples -/

def exW (l : Str) (fs : List Str) (h : Nat) : Word := ⟨l, ['n'], fs, ['d'], h⟩
def exTs : List Tok := [⟨['A', ' ', 'B'], exW ['a'] [['p'], ['q'], ['r']] 0, [exW ['='] [] 1]⟩, ⟨['c'], exW ['c'] [['p']] 1, []⟩]

example : (read (writeTree exTs)).toOption = some [⟨[⟨some ['A'], ['a'], ['n'], [['r']], ['d'], 0⟩,
    ⟨some ['B'], ['§', 'e', 'q', 'u', 'a', 'l', 's', '.'], ['n'], [], ['d'], 1⟩, ⟨some ['c'], ['c'], ['n'], [], ['d'], 1⟩], [(1, 2, ['A', ' ', 'B'])], []⟩] := by
  decide +kernel
example : ∀ u ∈ exTs, u.Clean := by
  intro u hu
  simp only [exTs, List.mem_cons, List.not_mem_nil, or_false] at hu
  rcases hu with rfl | rfl <;> simp [Tok.Clean, Tok.words, Word.Clean, exW, OneLine, NoWs] <;> decide

end Verif.Write.Vislcg
