import Verif.Coref.Store

/-!
# Property C172: coreference read from CoNLL-2012 files (udapi/block/read/conll2012.py)

The column `coref` of each word becomes the attribute `Entity`, which is loaded as in `Store.lean`. Words are named by their position in the file; `doc p` is the name of the document of word `p`.
Left out: the other columns and the division of the file into trees (`read_trees`), which gives `tree p`.
-/

namespace Verif.Coref.Conll2012
open Verif.Py Verif.Coref.Store

def begins : Str := ['#', 'b', 'e', 'g', 'i', 'n', ' ', 'd', 'o', 'c', 'u', 'm', 'e', 'n', 't', ' ']

/-- `.replace('.txt', '')` -/
def delTxt : Str → Str
  | '.' :: 't' :: 'x' :: 't' :: r => delTxt r
  | c :: r => c :: delTxt r
  | [] => []

/-- `.replace('.xml', '')` -/
def delXml : Str → Str
  | '.' :: 'x' :: 'm' :: 'l' :: r => delXml r
  | c :: r => c :: delXml r
  | [] => []

/-- The name of the document in a comment (conll2012.py:16, 37-58); `none`: the comment is another one. -/
def docName (line : Str) : Option Str :=
  if begins.isPrefixOf line then
    let name := (line.drop begins.length).takeWhile (fun c => c != ' ')
    if name = [] then none
    else
      let name :=
        if name.head? = some '(' ∧ [')', ';'].isSuffixOf name then (name.drop 1).take (name.length - 3)
        else if ['/', 'h', 'o', 'm', 'e', '/'].isPrefixOf name then (split '/' name).getLast?.getD []
        else name
      some (delXml (delTxt name))
  else none

/-- `self._docname.replace("-", "")` (conll2012.py:94) -/
def noHyphen (d : Str) : Str := d.filter (fun c => c != '-')

/-- The id of the entity with the number `num` in the document `d` (conll2012.py:97) -/
def eid (d num : Str) : Str := noHyphen d ++ ['_', 'e'] ++ num

/-- One chunk (conll2012.py:95-103) -/
def convert (d chunk : Str) : Str :=
  let num := chunk.filter (fun c => !isParen c)
  let m := eid d num ++ ['-', '-', '1']
  if chunk.head? = some '(' ∧ chunk.getLast? = some ')' then '(' :: m ++ [')']
  else if chunk.head? = some '(' then '(' :: m
  else if chunk.getLast? = some ')' then eid d num ++ [')']
  else m

/-- Closing brackets are put first (conll2012.py:105-109). -/
def place (acc : List Str) (m : Str) : List Str := if m.head? = some '(' then acc ++ [m] else m :: acc

/-- `Entity` of a word with the text `value` in the column (conll2012.py:85-110); empty if it is not set. -/
def entity (d value : Str) : Str :=
  if value = [] ∨ value = ['_'] then []
  else
    let cs := if '|' ∈ value then split '|' value else chunks value
    ((cs.map (convert d)).foldl place []).flatten

/-- The mentions of a file of `n` words -/
def read (tree : Nat → Nat) (doc col : Nat → Str) (n : Nat) : Option (List SM) := load tree (fun p => entity (doc p) (col p)) n

/-! ## Specification: what the column means -/

/-- A part of the column: a mention of the entity with the number `num` begins, ends, or consists of this word. -/
inductive Item
  | op (num : Str) | cl (num : Str) | sg (num : Str)
  deriving DecidableEq

def Item.num : Item → Str
  | .op n => n
  | .cl n => n
  | .sg n => n

def Item.isCl : Item → Bool
  | .cl _ => true
  | _ => false

def Item.isOp : Item → Bool
  | .op _ => true
  | _ => false

def Item.str : Item → Str
  | .op n => '(' :: n
  | .cl n => n ++ [')']
  | .sg n => '(' :: n ++ [')']

abbrev Key := Str × Str

/-- Mentions that are open, by the document and the number, and mentions that are complete: first word, last word, document and number -/
structure St where
  stack : Key → List Nat
  done : List (Nat × Nat × Key)

def push (f : Key → List Nat) (k : Key) (v : List Nat) : Key → List Nat := fun x => if x = k then v else f x

/-- One part of the column: a closing bracket ends the mention of this entity that was opened last. -/
def step (tree : Nat → Nat) (d : Str) (p : Nat) (st : St) : Item → Option St
  | .op n => some ⟨push st.stack (d, n) (st.stack (d, n) ++ [p]), st.done⟩
  | .sg n => some ⟨st.stack, st.done ++ [(p, p, d, n)]⟩
  | .cl n =>
    match (st.stack (d, n)).getLast? with
    | none => none
    | some lo => if tree lo ≠ tree p then none else some ⟨push st.stack (d, n) (st.stack (d, n)).dropLast, st.done ++ [(lo, p, d, n)]⟩

def run (tree : Nat → Nat) (d : Str) (p : Nat) : St → List Item → Option St
  | st, [] => some st
  | st, x :: xs =>
    match step tree d p st x with
    | none => none
    | some st' => run tree d p st' xs

def runWords (tree : Nat → Nat) (doc : Nat → Str) (f : Nat → List Item) : Nat → Nat → St → Option St
  | _, 0, st => some st
  | p, k + 1, st =>
    match run tree (doc p) p st (f p) with
    | none => none
    | some st' => runWords tree doc f (p + 1) k st'

/-- The mentions meant by the column of `n` words -/
def meant (tree : Nat → Nat) (doc : Nat → Str) (f : Nat → List Item) (n : Nat) : Option (List (Nat × Nat × Key)) := (runWords tree doc f 0 n ⟨fun _ => [], []⟩).map (·.done)

/-- Numbers, or other texts without the characters of the notation -/
def NumOk (n : Str) : Prop := n ≠ [] ∧ ∀ c ∈ n, c ≠ '(' ∧ c ≠ ')' ∧ c ≠ '-' ∧ c ≠ '|' ∧ c ≠ '_' ∧ c ≠ ']'

/-- No mention of an entity is closed after one of the same entity was opened at the same word. -/
def ClosedFirst (its : List Item) : Prop := its.Pairwise (fun a b => ¬ (a.isOp = true ∧ b = .cl a.num))

/-- No closing bracket directly after an opening one -/
def Apart : List Item → Prop
  | a :: b :: l => ¬ (a.isOp = true ∧ b.isCl = true) ∧ Apart (b :: l)
  | _ => True

/-- The text in the column for these parts: nothing, separated by bars, or without separators -/
inductive Col : List Item → Str → Prop
  | none : Col [] ['_']
  | bars {its} : its ≠ [] → Col its (join ['|'] (its.map Item.str))
  | plain {its} : its ≠ [] → Apart its → Col its (its.map Item.str).flatten

/-- The mention as it is loaded -/
def toSM (m : Nat × Nat × Key) : SM := ⟨m.1, m.2.1, eid m.2.2.1 m.2.2.2, [], 1, []⟩

/-! ## Lemmas: texts -/

theorem NumOk.txt {n : Str} (h : NumOk n) : Txt n := ⟨h.1, fun c hc => isParen_false (h.2 c hc).1 (h.2 c hc).2.1⟩

theorem filter_txt {n : Str} (h : ∀ c ∈ n, isParen c = false) : n.filter (fun c => !isParen c) = n := List.filter_eq_self.2 (fun c hc => by simp [h c hc])

/-- The mention of the brackets at word `p` -/
def itemSM (d : Str) (p : Nat) (n : Str) : SM := ⟨p, p, eid d n, [], 1, []⟩

def toCh (d : Str) (p : Nat) : Item → Ch
  | .op n => .op (itemSM d p n)
  | .cl n => .cl (itemSM d p n)
  | .sg n => .sg (itemSM d p n)

theorem label_eq (d : Str) (p : Nat) (n : Str) : (itemSM d p n).label = eid d n ++ ['-', '-', '1'] := by
  have h1 : natStr 1 = ['1'] := by decide +kernel
  unfold SM.label itemSM
  dsimp only
  rw [trimEnd_label (natStr_ne_nil 1), if_pos rfl, h1]
  simp [join]

theorem itemSM_ok {d n : Str} (tree : Nat → Nat) (p : Nat) (hd : ∀ c ∈ d, c ≠ '(' ∧ c ≠ ')') (hn : NumOk n) : (itemSM d p n).Ok tree (p + 1) := by
  refine ⟨Nat.le_refl _, Nat.lt_succ_self _, rfl, ?_, ?_, ?_, ?_, ?_, ?_⟩
  · show eid d n ≠ []
    simp [eid]
  · show (eid d n).getLast? ≠ some ']'
    unfold eid
    rw [List.getLast?_append]
    cases hl : n.getLast? with
    | none => exact absurd (List.getLast?_eq_none_iff.1 hl) hn.1
    | some c =>
      intro e
      simp at e
      exact (hn.2 c (List.mem_of_getLast? hl)).2.2.2.2.2 e
  · intro c hc
    have hc : c ∈ eid d n := hc
    simp only [eid, noHyphen, List.mem_append, List.mem_filter, List.mem_cons, List.not_mem_nil, or_false] at hc
    rcases hc with (⟨h1, h2⟩ | rfl | rfl) | h
    · exact ⟨by simpa using h2, hd c h1⟩
    · decide
    · decide
    · exact ⟨(hn.2 c h).2.2.1, (hn.2 c h).1, (hn.2 c h).2.1⟩
  · intro c hc; cases hc
  · intro c hc; cases hc
  · exact ⟨Nat.le_refl _, by show 1 ≤ p - p + 1; omega⟩

theorem convert_item (d : Str) (p : Nat) (it : Item) (h : NumOk it.num) : convert d it.str = (toCh d p it).str := by
  have ht := h.txt
  obtain ⟨a, t, hat⟩ := List.exists_cons_of_ne_nil ht.1
  have hlast : ∀ {n : Str}, Txt n → ('(' :: n).getLast? ≠ some ')' := by
    intro n hn e
    rw [List.getLast?_cons] at e
    cases hx : n.getLast? with
    | none => exact hn.1 (List.getLast?_eq_none_iff.1 hx)
    | some c => rw [hx] at e; exact getLast_txt hn (by rw [hx]; simpa using e)
  cases it with
  | op n =>
    simp only [Item.num] at ht
    have hf : ('(' :: n).filter (fun c => !isParen c) = n := by
      rw [List.filter_cons, if_neg (by decide), filter_txt ht.2]
    simp only [Item.str, convert, toCh, Ch.str, label_eq, hf]
    rw [if_neg (fun e => hlast ht e.2), if_pos (by simp)]
  | cl n =>
    simp only [Item.num] at ht hat
    have hf : (n ++ [')']).filter (fun c => !isParen c) = n := by
      rw [List.filter_append, filter_txt ht.2]
      simp [isParen]
    have hh : (n ++ [')']).head? ≠ some '(' := by
      rw [hat]
      intro e
      exact head_txt ht (by rw [hat]; simpa using e)
    simp only [Item.str, convert, toCh, Ch.str, hf]
    rw [if_neg (fun e => hh e.1), if_neg hh, if_pos (by simp)]
    rfl
  | sg n =>
    simp only [Item.num] at ht
    have hf : ('(' :: n ++ [')']).filter (fun c => !isParen c) = n := by
      rw [List.filter_append, List.filter_cons, if_neg (by decide), filter_txt ht.2]
      simp [isParen]
    simp only [Item.str, convert, toCh, Ch.str, label_eq, hf]
    rw [if_pos ⟨rfl, by rw [List.getLast?_append]; simp⟩]

theorem place_item (d : Str) (hd : ∀ c ∈ d, c ≠ '(' ∧ c ≠ ')') (p : Nat) : ∀ (its : List Item), (∀ x ∈ its, NumOk x.num) → ∀ (C R : List Item),
    (its.map (fun x => (toCh d p x).str)).foldl place ((C ++ R).map (fun x => (toCh d p x).str)) =
      ((its.filter Item.isCl).reverse ++ C ++ (R ++ its.filter (fun x => !x.isCl))).map (fun x => (toCh d p x).str)
  | [], _, C, R => by simp
  | x :: its, h, C, R => by
    have ih := place_item d hd p its (fun y hy => h y (List.mem_cons_of_mem _ hy))
    rw [List.map_cons, List.foldl_cons]
    cases x with
    | op n =>
      rw [place, if_pos (by simp [toCh, Ch.str]), show (C ++ R).map (fun x => (toCh d p x).str) ++ [(toCh d p (.op n)).str] = (C ++ (R ++ [Item.op n])).map (fun x => (toCh d p x).str) by simp,
        ih C (R ++ [Item.op n])]
      simp [Item.isCl]
    | sg n =>
      rw [place, if_pos (by simp [toCh, Ch.str]), show (C ++ R).map (fun x => (toCh d p x).str) ++ [(toCh d p (.sg n)).str] = (C ++ (R ++ [Item.sg n])).map (fun x => (toCh d p x).str) by simp,
        ih C (R ++ [Item.sg n])]
      simp [Item.isCl]
    | cl n =>
      have hok := itemSM_ok (fun _ => 0) p hd (h _ List.mem_cons_self)
      have hne : (toCh d p (.cl n)).str.head? ≠ some '(' := by
        intro e
        have e : (eid d n ++ [')']).head? = some '(' := e
        obtain ⟨a, t, hat⟩ := List.exists_cons_of_ne_nil hok.ne
        have hat : eid d n = a :: t := hat
        rw [hat] at e
        have : a = '(' := by simpa using e
        exact (hok.eid a (by show a ∈ eid d n; rw [hat]; exact List.mem_cons_self)).2.1 this
      rw [place, if_neg hne, show (toCh d p (.cl n)).str :: (C ++ R).map (fun x => (toCh d p x).str) = ((Item.cl n :: C) ++ R).map (fun x => (toCh d p x).str) by simp, ih (Item.cl n :: C) R]
      simp [List.filter_cons, Item.isCl]

/-- The parts in the order in which they are written to `Entity` -/
def reorder (its : List Item) : List Item := (its.filter Item.isCl).reverse ++ its.filter (fun x => !x.isCl)

theorem chunks_items : ∀ (its : List Item), Apart its → (∀ x ∈ its, NumOk x.num) → chunksAux [] (its.map Item.str).flatten = its.map Item.str
  | [], _, _ => by simp [chunksAux, flush]
  | x :: its, ha, h => by
    have ih := chunks_items its (by cases its with
      | nil => trivial
      | cons y l => exact ha.2) (fun y hy => h y (List.mem_cons_of_mem _ hy))
    have hx := (h x List.mem_cons_self).txt
    rw [List.map_cons, List.flatten_cons]
    cases x with
    | op n =>
      show chunksAux [] ('(' :: n ++ _) = _
      rw [chunksAux_open (s := n) hx, ih]
      · rfl
      · intro c hc
        cases its with
        | nil => simp at hc
        | cons y l =>
          cases y with
          | op m => simp [Item.str] at hc; exact hc.symm
          | sg m => simp [Item.str] at hc; exact hc.symm
          | cl m => exact absurd ⟨rfl, rfl⟩ ha.1
    | cl n =>
      rw [show Item.str (.cl n) ++ (its.map Item.str).flatten = n ++ ')' :: (its.map Item.str).flatten by simp [Item.str], chunksAux_close (s := n) hx, ih]
      rfl
    | sg n =>
      rw [show Item.str (.sg n) ++ (its.map Item.str).flatten = '(' :: n ++ ')' :: (its.map Item.str).flatten by simp [Item.str], chunksAux_single (s := n) hx, ih]
      rfl

theorem not_mem_str {it : Item} (h : NumOk it.num) : '|' ∉ it.str := by
  intro hc
  cases it <;> simp [Item.str] at hc <;> exact (h.2 _ hc).2.2.2.1 rfl

theorem str_ne {it : Item} (h : NumOk it.num) : it.str ≠ [] ∧ it.str ≠ ['_'] := by
  refine ⟨by cases it <;> simp [Item.str], ?_⟩
  intro e
  cases it with
  | op n => simp [Item.str] at e
  | cl n => have := congrArg List.getLast? e; simp [Item.str] at this
  | sg n => simp [Item.str] at e

theorem mem_str {it : Item} : '(' ∈ it.str ∨ ')' ∈ it.str := by cases it <;> simp [Item.str]

theorem mem_join_of {sep : Str} {c : Char} : ∀ {l : List Str} {s : Str}, s ∈ l → c ∈ s → c ∈ join sep l
  | [a], s, hs, hc => by
    rw [List.mem_singleton] at hs
    subst hs
    simpa [join] using hc
  | a :: b :: l, s, hs, hc => by
    simp only [join, List.mem_append]
    rcases List.mem_cons.1 hs with rfl | hs
    · exact Or.inl (Or.inl hc)
    · exact Or.inr (mem_join_of hs hc)

theorem split_col {its : List Item} {v : Str} (hc : Col its v) (h0 : its ≠ []) (h : ∀ x ∈ its, NumOk x.num) :
    (v ≠ [] ∧ v ≠ ['_']) ∧ (if '|' ∈ v then split '|' v else chunks v) = its.map Item.str := by
  obtain ⟨x, l, rfl⟩ := List.exists_cons_of_ne_nil h0
  have hne : ∀ w : Str, ('(' ∈ w ∨ ')' ∈ w) → w ≠ [] ∧ w ≠ ['_'] := by
    intro w hw
    constructor
    · rintro rfl; simp at hw
    · rintro rfl; simp at hw
  cases hc with
  | bars _ =>
    refine ⟨hne _ ?_, ?_⟩
    · rcases mem_str (it := x) with hm | hm
      · exact Or.inl (mem_join_of (List.mem_map_of_mem List.mem_cons_self) hm)
      · exact Or.inr (mem_join_of (List.mem_map_of_mem List.mem_cons_self) hm)
    · cases l with
      | nil =>
        have hx := h x List.mem_cons_self
        simp only [List.map_cons, List.map_nil, join]
        rw [if_neg (not_mem_str hx)]
        have := chunks_items [x] trivial h
        simpa [chunks] using this
      | cons y l =>
        rw [if_pos (by simp [join])]
        exact split_join (by simp) (fun s hs => by
          obtain ⟨it, hi, rfl⟩ := List.mem_map.1 hs
          exact not_mem_str (h it hi))
  | plain _ ha =>
    refine ⟨hne _ ?_, ?_⟩
    · rcases mem_str (it := x) with hm | hm <;> simp [hm]
    · rw [if_neg]
      · exact chunks_items _ ha h
      · intro hm
        obtain ⟨s, hs, hc⟩ := List.mem_flatten.1 hm
        obtain ⟨it, hi, rfl⟩ := List.mem_map.1 hs
        exact not_mem_str (h it hi) hc

theorem entity_col {d : Str} (hd : ∀ c ∈ d, c ≠ '(' ∧ c ≠ ')') (p : Nat) {its : List Item} {v : Str} (hc : Col its v) (h : ∀ x ∈ its, NumOk x.num) :
    entity d v = render ((reorder its).map (toCh d p)) := by
  by_cases h0 : its = []
  · subst h0
    cases hc with
    | none => rfl
    | bars h => exact absurd rfl h
    | plain h => exact absurd rfl h
  · obtain ⟨hv, hs⟩ := split_col hc h0 h
    unfold entity
    rw [if_neg (fun e => e.elim hv.1 hv.2)]
    dsimp only
    rw [hs, List.map_map, List.map_congr_left (f := convert d ∘ Item.str) (g := fun x => (toCh d p x).str) (fun x hx => convert_item d p x (h x hx))]
    have := place_item d hd p its h [] []
    simp only [List.append_nil, List.map_nil, List.nil_append] at this
    rw [this, render, List.map_map]
    rfl

theorem chunks_entity {d : Str} (hd : ∀ c ∈ d, c ≠ '(' ∧ c ≠ ')') (p : Nat) {its : List Item} {v : Str} (hc : Col its v) (h : ∀ x ∈ its, NumOk x.num) :
    chunks (entity d v) = (reorder its).map (fun x => (toCh d p x).str) := by
  rw [entity_col hd p hc h, reorder, List.map_append]
  have ht : ∀ x ∈ its, (toCh d p x).Txt := by
    intro x hx
    have hok := itemSM_ok (fun _ => 0) p hd (h x hx)
    cases x with
    | op n => exact txt_label hok
    | cl n => exact txt_eid hok
    | sg n => exact txt_label hok
  rw [chunks_render]
  · simp [List.map_append, List.map_map, Function.comp_def]
  · intro c hc
    obtain ⟨x, hx, rfl⟩ := List.mem_map.1 hc
    have hx := List.mem_filter.1 (List.mem_reverse.1 hx)
    refine ⟨ht x hx.1, ?_⟩
    cases x with
    | op n => cases hx.2
    | cl n => trivial
    | sg n => cases hx.2
  · intro c hc
    obtain ⟨x, hx, rfl⟩ := List.mem_map.1 hc
    have hx := List.mem_filter.1 hx
    refine ⟨ht x hx.1, ?_⟩
    cases x with
    | op n => trivial
    | cl n => cases hx.2
    | sg n => trivial

/-! ## Lemmas: the order of the parts of a word -/

/-- The same open mentions, and the same complete ones in any order -/
def Eqv (a b : St) : Prop := (∀ k, a.stack k = b.stack k) ∧ a.done.Perm b.done

def OEqv : Option St → Option St → Prop
  | none, none => True
  | some a, some b => Eqv a b
  | _, _ => False

theorem OEqv.refl : ∀ (a : Option St), OEqv a a
  | none => trivial
  | some _ => ⟨fun _ => rfl, List.Perm.refl _⟩

theorem OEqv.trans : ∀ {a b c : Option St}, OEqv a b → OEqv b c → OEqv a c
  | none, none, none, _, _ => trivial
  | some _, some _, some _, h1, h2 => ⟨fun k => (h1.1 k).trans (h2.1 k), h1.2.trans h2.2⟩

theorem push_same (f : Key → List Nat) (k : Key) (v : List Nat) : push f k v k = v := by simp [push]
theorem push_other (f : Key → List Nat) {k x : Key} (v : List Nat) (h : x ≠ k) : push f k v x = f x := by simp [push, h]

theorem push_congr {f g : Key → List Nat} (h : ∀ k, f k = g k) (k : Key) {v w : List Nat} (e : v = w) : ∀ x, push f k v x = push g k w x := by
  intro x
  unfold push
  rw [h x, e]

theorem step_congr {tree : Nat → Nat} {d : Str} {p : Nat} {a b : St} (h : Eqv a b) (x : Item) : OEqv (step tree d p a x) (step tree d p b x) := by
  cases x with
  | op n => exact ⟨push_congr h.1 _ (by rw [h.1]), h.2⟩
  | sg n => exact ⟨h.1, h.2.append_right _⟩
  | cl n =>
    simp only [step]
    rw [h.1 (d, n)]
    cases (b.stack (d, n)).getLast? with
    | none => trivial
    | some lo =>
      dsimp only
      by_cases ht : tree lo ≠ tree p
      · rw [if_pos ht, if_pos ht]; trivial
      · rw [if_neg ht, if_neg ht]
        exact ⟨push_congr h.1 _ rfl, h.2.append_right _⟩

theorem run_congr {tree : Nat → Nat} {d : Str} {p : Nat} : ∀ (xs : List Item) {a b : St}, Eqv a b → OEqv (run tree d p a xs) (run tree d p b xs)
  | [], _, _, h => h
  | x :: xs, a, b, h => by
    have hs := step_congr (tree := tree) (d := d) (p := p) h x
    simp only [run]
    cases ha : step tree d p a x with
    | none =>
      rw [ha] at hs
      cases hb : step tree d p b x with
      | none => trivial
      | some b' => rw [hb] at hs; exact hs.elim
    | some a' =>
      rw [ha] at hs
      cases hb : step tree d p b x with
      | none => rw [hb] at hs; exact hs.elim
      | some b' => rw [hb] at hs; exact run_congr xs hs

theorem run_append {tree : Nat → Nat} {d : Str} {p : Nat} : ∀ (xs ys : List Item) (a : St), run tree d p a (xs ++ ys) = (run tree d p a xs).bind (fun b => run tree d p b ys)
  | [], _, _ => rfl
  | x :: xs, ys, a => by
    simp only [List.cons_append, run]
    cases step tree d p a x with
    | none => rfl
    | some a' => exact run_append xs ys a'

theorem bind_congr {tree : Nat → Nat} {d : Str} {p : Nat} (ys : List Item) : ∀ {a b : Option St}, OEqv a b → OEqv (a.bind (fun s => run tree d p s ys)) (b.bind (fun s => run tree d p s ys))
  | none, none, _ => trivial
  | some _, some _, h => run_congr ys h

/-- A closing bracket may be moved before anything but an opening bracket of the same entity. -/
theorem step_comm (tree : Nat → Nat) (d : Str) (p : Nat) (st : St) (n : Str) (y : Item) (h : y ≠ .op n) : OEqv (run tree d p st [.cl n, y]) (run tree d p st [y, .cl n]) := by
  cases y with
  | op m =>
    have hk : ((d, n) : Key) ≠ (d, m) := by
      intro e
      exact h (by rw [(Prod.mk.inj e).2])
    simp only [run, step]
    rw [push_other _ _ hk]
    cases (st.stack (d, n)).getLast? with
    | none => trivial
    | some lo =>
      dsimp only
      by_cases ht : tree lo ≠ tree p
      · rw [if_pos ht, if_pos ht]; trivial
      · rw [if_neg ht, if_neg ht]
        dsimp only
        refine ⟨fun k => ?_, List.Perm.refl _⟩
        show push _ _ _ k = push _ _ _ k
        rw [push_other _ _ hk.symm]
        by_cases h1 : k = (d, n)
        · subst h1
          rw [push_other _ _ hk, push_same, push_same]
        · by_cases h2 : k = (d, m)
          · subst h2
            rw [push_same, push_other _ _ hk.symm, push_same]
          · rw [push_other _ _ h2, push_other _ _ h1, push_other _ _ h1, push_other _ _ h2]
  | sg m =>
    simp only [run, step]
    cases (st.stack (d, n)).getLast? with
    | none => trivial
    | some lo =>
      dsimp only
      by_cases ht : tree lo ≠ tree p
      · rw [if_pos ht, if_pos ht]; trivial
      · rw [if_neg ht, if_neg ht]
        refine ⟨fun k => rfl, ?_⟩
        simp only [List.append_assoc]
        exact List.Perm.append_left _ (List.Perm.swap _ _ _)
  | cl m =>
    by_cases e : m = n
    · subst e; exact OEqv.refl _
    · have hk : ((d, n) : Key) ≠ (d, m) := fun x => e (Prod.mk.inj x).2.symm
      simp only [run, step]
      cases h1 : (st.stack (d, n)).getLast? with
      | none =>
        cases h2 : (st.stack (d, m)).getLast? with
        | none => trivial
        | some lo2 =>
          dsimp only
          by_cases t2 : tree lo2 ≠ tree p
          · rw [if_pos t2]; trivial
          · rw [if_neg t2]
            dsimp only
            rw [push_other _ _ hk, h1]
            trivial
      | some lo =>
        cases h2 : (st.stack (d, m)).getLast? with
        | none =>
          dsimp only
          by_cases t1 : tree lo ≠ tree p
          · rw [if_pos t1]; trivial
          · rw [if_neg t1]
            dsimp only
            rw [push_other _ _ hk.symm, h2]
            trivial
        | some lo2 =>
          dsimp only
          by_cases t1 : tree lo ≠ tree p
          · rw [if_pos t1]
            by_cases t2 : tree lo2 ≠ tree p
            · rw [if_pos t2]; trivial
            · rw [if_neg t2]
              dsimp only
              rw [push_other _ _ hk, h1]
              dsimp only
              rw [if_pos t1]
              trivial
          · rw [if_neg t1]
            dsimp only
            rw [push_other _ _ hk.symm, h2]
            dsimp only
            by_cases t2 : tree lo2 ≠ tree p
            · rw [if_pos t2, if_pos t2]; trivial
            · rw [if_neg t2, if_neg t2]
              dsimp only
              rw [push_other _ _ hk, h1]
              dsimp only
              rw [if_neg t1]
              refine ⟨fun k => ?_, ?_⟩
              · show push _ _ _ k = push _ _ _ k
                by_cases e1 : k = (d, n)
                · subst e1
                  rw [push_other _ _ hk, push_same, push_same]
                · by_cases e2 : k = (d, m)
                  · subst e2
                    rw [push_same, push_other _ _ hk.symm, push_same]
                  · rw [push_other _ _ e2, push_other _ _ e1, push_other _ _ e1, push_other _ _ e2]
              · simp only [List.append_assoc]
                exact List.Perm.append_left _ (List.Perm.swap _ _ _)

theorem run_move (tree : Nat → Nat) (d : Str) (p : Nat) (n : Str) : ∀ (l : List Item), Item.op n ∉ l → ∀ (st : St), OEqv (run tree d p st (.cl n :: l)) (run tree d p st (l ++ [.cl n]))
  | [], _, st => OEqv.refl _
  | y :: l, h, st => by
    have h1 : OEqv (run tree d p st ([.cl n, y] ++ l)) (run tree d p st ([y, .cl n] ++ l)) := by
      rw [run_append, run_append]
      exact bind_congr l (step_comm tree d p st n y (fun e => h (by rw [e]; exact List.mem_cons_self)))
    refine OEqv.trans h1 ?_
    show OEqv (run tree d p st (y :: (.cl n :: l))) (run tree d p st (y :: (l ++ [.cl n])))
    simp only [run]
    cases step tree d p st y with
    | none => trivial
    | some st' => exact run_move tree d p n l (fun e => h (List.mem_cons_of_mem _ e)) st'

theorem OEqv.symm : ∀ {a b : Option St}, OEqv a b → OEqv b a
  | none, none, _ => trivial
  | some _, some _, h => ⟨fun k => (h.1 k).symm, h.2.symm⟩

theorem run_reorder_aux (tree : Nat → Nat) (d : Str) (p : Nat) (st : St) : ∀ (its C R : List Item), ClosedFirst its → (∀ x ∈ C, x.isCl = true) →
    (∀ x ∈ R, ∀ y ∈ its, ¬ (x.isOp = true ∧ y = .cl x.num)) →
    OEqv (run tree d p st (C ++ R ++ its)) (run tree d p st ((its.filter Item.isCl).reverse ++ C ++ (R ++ its.filter (fun x => !x.isCl))))
  | [], C, R, _, _, _ => by simpa using OEqv.refl _
  | x :: its, C, R, hcf, hC, hR => by
    obtain ⟨h1, h2⟩ := List.pairwise_cons.1 hcf
    by_cases hx : x.isCl = true
    · obtain ⟨n, rfl⟩ : ∃ n, x = .cl n := by
        cases x with
        | op n => cases hx
        | cl n => exact ⟨n, rfl⟩
        | sg n => cases hx
      have ih := run_reorder_aux tree d p st its (.cl n :: C) R h2 (fun y hy => by
        rcases List.mem_cons.1 hy with rfl | hy
        · rfl
        · exact hC y hy) (fun y hy z hz => hR y hy z (List.mem_cons_of_mem _ hz))
      have hmv : OEqv (run tree d p st (.cl n :: (C ++ R))) (run tree d p st (C ++ R ++ [.cl n])) := by
        refine run_move tree d p n (C ++ R) (fun hm => ?_) st
        rcases List.mem_append.1 hm with hm | hm
        · cases hC _ hm
        · exact hR _ hm _ List.mem_cons_self ⟨rfl, rfl⟩
      have hmv' := bind_congr (tree := tree) (d := d) (p := p) its hmv
      rw [← run_append, ← run_append] at hmv'
      rw [show C ++ R ++ .cl n :: its = C ++ R ++ [.cl n] ++ its by simp]
      refine OEqv.trans hmv'.symm ?_
      have e : ((its.filter Item.isCl).reverse ++ (.cl n :: C) ++ (R ++ its.filter (fun x => !x.isCl))) =
          (((Item.cl n :: its).filter Item.isCl).reverse ++ C ++ (R ++ (Item.cl n :: its).filter (fun x => !x.isCl))) := by simp [List.filter_cons, Item.isCl]
      rw [← e]
      exact ih
    · have hx : x.isCl = false := by simpa using hx
      have ih := run_reorder_aux tree d p st its C (R ++ [x]) h2 hC (fun y hy z hz => by
        rcases List.mem_append.1 hy with hy | hy
        · exact hR y hy z (List.mem_cons_of_mem _ hz)
        · rw [List.mem_singleton] at hy
          subst hy
          exact h1 z hz)
      have e : ((its.filter Item.isCl).reverse ++ C ++ (R ++ [x] ++ its.filter (fun x => !x.isCl))) =
          (((x :: its).filter Item.isCl).reverse ++ C ++ (R ++ (x :: its).filter (fun x => !x.isCl))) := by simp [hx]
      rw [← e, show C ++ R ++ x :: its = C ++ (R ++ [x]) ++ its by simp]
      exact ih

theorem run_reorder (tree : Nat → Nat) (d : Str) (p : Nat) (st : St) {its : List Item} (h : ClosedFirst its) : OEqv (run tree d p st its) (run tree d p st (reorder its)) := by
  have := run_reorder_aux tree d p st its [] [] h (fun x hx => nomatch hx) (fun x hx => nomatch hx)
  simpa [reorder] using this

/-! ## Lemmas: loading -/

theorem eid_inj {d d' n n' : Str} (hn : NumOk n) (hn' : NumOk n') (h : eid d n = eid d' n') : noHyphen d = noHyphen d' ∧ n = n' := by
  have key : ∀ {x y a b : Str}, '_' ∉ a → '_' ∉ b → a ++ '_' :: x = b ++ '_' :: y → a = b ∧ x = y := by
    intro x y a b ha hb e
    have s1 := splitOnce_append (c := '_') ha x
    have s2 := splitOnce_append (c := '_') hb y
    rw [e, s2] at s1
    exact ⟨(Prod.mk.inj s1).1.symm, (Option.some.inj (Prod.mk.inj s1).2).symm⟩
  have e := congrArg List.reverse h
  unfold eid at e
  simp only [List.reverse_append, List.reverse_cons, List.nil_append, List.cons_append, List.append_assoc] at e
  rw [show n.reverse ++ 'e' :: '_' :: (noHyphen d).reverse = (n.reverse ++ ['e']) ++ '_' :: (noHyphen d).reverse by simp,
    show n'.reverse ++ 'e' :: '_' :: (noHyphen d').reverse = (n'.reverse ++ ['e']) ++ '_' :: (noHyphen d').reverse by simp] at e
  have nm : ∀ {m : Str}, NumOk m → '_' ∉ m.reverse ++ ['e'] := by
    intro m hm hx
    rcases List.mem_append.1 hx with hx | hx
    · exact (hm.2 _ (List.mem_reverse.1 hx)).2.2.2.2.1 rfl
    · cases List.mem_singleton.1 hx
  obtain ⟨e1, e2⟩ := key (nm hn) (nm hn') e
  exact ⟨List.reverse_inj.1 e2, List.reverse_inj.1 (List.append_cancel_right e1)⟩

/-- The loader is in the state that corresponds to the open and complete mentions. -/
def Sim (V : Key → Prop) (st : St) (s : L) : Prop :=
  (∀ k, V k → s.stack (eid k.1 k.2) = (st.stack k).map (fun lo => ((lo, [], some 1, []) : Entry))) ∧ s.done.Perm (st.done.map toSM)

def OSim (V : Key → Prop) : Option St → Option L → Prop
  | none, none => True
  | some a, some b => Sim V a b
  | _, _ => False

theorem upd_sim {V : Key → Prop} (hV : ∀ k k', V k → V k' → eid k.1 k.2 = eid k'.1 k'.2 → k = k') {f : Key → List Nat} {g : Str → List Entry}
    (h : ∀ k, V k → g (eid k.1 k.2) = (f k).map (fun lo => ((lo, [], some 1, []) : Entry))) {k : Key} (hk : V k) (v : List Nat) :
    ∀ x, V x → loadChunk.upd' g (eid k.1 k.2) (v.map (fun lo => ((lo, [], some 1, []) : Entry))) (eid x.1 x.2) = (push f k v x).map (fun lo => ((lo, [], some 1, []) : Entry)) := by
  intro x hx
  by_cases e : x = k
  · subst e
    rw [upd'_same, push_same]
  · rw [upd'_other _ _ (fun e' => e (hV x k hx hk e')), push_other _ _ e, h x hx]

theorem step_sim {V : Key → Prop} (hV : ∀ k k', V k → V k' → eid k.1 k.2 = eid k'.1 k'.2 → k = k') (tree : Nat → Nat) {d : Str} (hd : ∀ c ∈ d, c ≠ '(' ∧ c ≠ ')') (p : Nat)
    {st : St} {s : L} (h : Sim V st s) (x : Item) (hx : NumOk x.num) (hk : V (d, x.num)) : OSim V (step tree d p st x) (loadChunk tree p s (toCh d p x).str) := by
  have hok := itemSM_ok tree p hd hx
  cases x with
  | op n =>
    have := loadChunk_op (st := s) hok rfl
    show OSim V _ (loadChunk tree p s (Ch.op (itemSM d p n)).str)
    rw [show loadChunk tree p s (Ch.op (itemSM d p n)).str = _ from this]
    refine ⟨?_, h.2⟩
    have := upd_sim hV h.1 hk (st.stack (d, n) ++ [p])
    have h0 := h.1 (d, n) hk
    dsimp only at this h0 ⊢
    have e : s.stack (itemSM d p n).eid ++ [entry (itemSM d p n)] = (st.stack (d, n) ++ [p]).map (fun lo => ((lo, [], some 1, []) : Entry)) := by
      rw [List.map_append, ← h0]
      rfl
    rw [show (itemSM d p (Item.op n).num) = itemSM d p n from rfl, e]
    exact this
  | sg n =>
    have := loadChunk_sg (st := s) hok rfl rfl
    show OSim V _ (loadChunk tree p s (Ch.sg (itemSM d p n)).str)
    rw [show loadChunk tree p s (Ch.sg (itemSM d p n)).str = _ from this]
    refine ⟨h.1, ?_⟩
    dsimp only
    rw [List.map_append]
    exact h.2.append_right _
  | cl n =>
    have h0 := h.1 (d, n) hk
    dsimp only at h0
    show OSim V _ (loadChunk tree p s (eid d n ++ [')']))
    have ht : Txt (eid d n) := txt_eid hok
    have hl : ((eid d n ++ [')']).getLast? == some ')') = true := by rw [List.getLast?_append]; simp
    have hh : ((eid d n ++ [')']).head? == some '(') = false := by
      have := head_txt ht
      obtain ⟨a, t, hat⟩ := List.exists_cons_of_ne_nil ht.1
      rw [hat] at this ⊢
      simpa using this
    have hs : stripParens (eid d n ++ [')']) = eid d n := by simpa using strip_txt ht false true
    unfold loadChunk
    simp only [hl, hh, hs, Bool.not_false, Bool.not_true, Bool.and_false, Bool.false_eq_true, if_false, if_true, h0, step, List.getLast?_map]
    cases hg : (st.stack (d, n)).getLast? with
    | none => trivial
    | some lo =>
      simp only [Option.map_some]
      by_cases ht : tree lo ≠ tree p
      · rw [if_pos ht, if_pos ht]; trivial
      · rw [if_neg ht, if_neg ht]
        have hp : headPos (some 1) (p - lo + 1) = some 1 := by
          unfold headPos
          dsimp only
          rw [if_neg (by decide), if_pos ⟨by decide, by omega⟩]
          rfl
        rw [hp]
        dsimp only
        refine ⟨?_, ?_⟩
        · dsimp only
          rw [← List.map_dropLast]
          exact upd_sim hV h.1 hk (st.stack (d, n)).dropLast
        · dsimp only
          rw [List.map_append]
          exact h.2.append_right _

theorem run_sim {V : Key → Prop} (hV : ∀ k k', V k → V k' → eid k.1 k.2 = eid k'.1 k'.2 → k = k') (tree : Nat → Nat) {d : Str} (hd : ∀ c ∈ d, c ≠ '(' ∧ c ≠ ')') (p : Nat) :
    ∀ (its : List Item) {st : St} {s : L}, Sim V st s → (∀ x ∈ its, NumOk x.num ∧ V (d, x.num)) →
      OSim V (run tree d p st its) (loadChunks tree p s (its.map (fun x => (toCh d p x).str)))
  | [], _, _, h, _ => h
  | x :: its, st, s, h, hx => by
    have hs := step_sim hV tree hd p h x (hx x List.mem_cons_self).1 (hx x List.mem_cons_self).2
    rw [List.map_cons]
    simp only [run, loadChunks]
    cases ha : step tree d p st x with
    | none =>
      rw [ha] at hs
      cases hb : loadChunk tree p s (toCh d p x).str with
      | none => trivial
      | some b' => rw [hb] at hs; exact hs.elim
    | some a' =>
      rw [ha] at hs
      cases hb : loadChunk tree p s (toCh d p x).str with
      | none => rw [hb] at hs; exact hs.elim
      | some b' =>
        rw [hb] at hs
        exact run_sim hV tree hd p its hs (fun y hy => hx y (List.mem_cons_of_mem _ hy))

theorem sim_of_eqv {V : Key → Prop} : ∀ {a b : Option St} {s : Option L}, OEqv a b → OSim V b s → OSim V a s
  | none, none, none, _, _ => trivial
  | some _, some _, some _, h1, h2 => ⟨fun k hk => by rw [h1.1 k]; exact h2.1 k hk, h2.2.trans (h1.2.symm.map _)⟩

/-- The file: for each word the parts of its column and the text -/
structure File (doc : Nat → Str) (f : Nat → List Item) (col : Nat → Str) : Prop where
  name : ∀ p, ∀ c ∈ doc p, c ≠ '(' ∧ c ≠ ')'
  docs : ∀ p q, noHyphen (doc p) = noHyphen (doc q) → doc p = doc q
  num : ∀ p, ∀ x ∈ f p, NumOk x.num
  closed : ∀ p, ClosedFirst (f p)
  col : ∀ p, Col (f p) (col p)

theorem words_sim {tree : Nat → Nat} {doc : Nat → Str} {f : Nat → List Item} {col : Nat → Str} (h : File doc f col) :
    ∀ (k p : Nat) {st : St} {s : L}, Sim (fun k => (∃ q, k.1 = doc q) ∧ NumOk k.2) st s →
      OSim (fun k => (∃ q, k.1 = doc q) ∧ NumOk k.2) (runWords tree doc f p k st) (loadWords tree (fun p => entity (doc p) (col p)) p k s)
  | 0, _, _, _, hs => hs
  | k + 1, p, st, s, hs => by
    have hV : ∀ k k' : Key, ((∃ q, k.1 = doc q) ∧ NumOk k.2) → ((∃ q, k'.1 = doc q) ∧ NumOk k'.2) → eid k.1 k.2 = eid k'.1 k'.2 → k = k' := by
      rintro ⟨d, n⟩ ⟨d', n'⟩ ⟨⟨q, h1⟩, h2⟩ ⟨⟨q', h1'⟩, h2'⟩ e
      dsimp only at h1 h2 h1' h2' e
      obtain ⟨e1, e2⟩ := eid_inj h2 h2' e
      subst h1 h1' e2
      rw [h.docs q q' e1]
    have hr := run_sim hV tree (h.name p) p (reorder (f p)) hs (fun x hx => by
      have hx : x ∈ f p := by
        rcases List.mem_append.1 hx with hx | hx
        · exact (List.mem_filter.1 (List.mem_reverse.1 hx)).1
        · exact (List.mem_filter.1 hx).1
      exact ⟨h.num p x hx, ⟨p, rfl⟩, h.num p x hx⟩)
    have hr := sim_of_eqv (run_reorder tree (doc p) p st (h.closed p)) hr
    simp only [runWords, loadWords, chunks_entity (h.name p) p (h.col p) (h.num p)]
    cases ha : run tree (doc p) p st (f p) with
    | none =>
      rw [ha] at hr
      cases hb : loadChunks tree p s ((reorder (f p)).map (fun x => (toCh (doc p) p x).str)) with
      | none => trivial
      | some b' => rw [hb] at hr; exact hr.elim
    | some a' =>
      rw [ha] at hr
      cases hb : loadChunks tree p s ((reorder (f p)).map (fun x => (toCh (doc p) p x).str)) with
      | none => rw [hb] at hr; exact hr.elim
      | some b' =>
        rw [hb] at hr
        exact words_sim h k (p + 1) hr

/-! ## Property C172 -/

/-- **C172** The mentions that are read are exactly those meant by the columns, whether the parts are separated or not and whatever their order; files with closing brackets that match nothing
are rejected. -/
theorem C172_reads_partial (tree : Nat → Nat) {doc : Nat → Str} {f : Nat → List Item} {col : Nat → Str} (h : File doc f col) (n : Nat) :
    (meant tree doc f n = none → read tree doc col n = none) ∧ ∀ d, meant tree doc f n = some d → ∃ l, read tree doc col n = some l ∧ l.Perm (d.map toSM) := by
  have hs := words_sim (tree := tree) h n 0 (st := ⟨fun _ => [], []⟩) (s := ⟨fun _ => [], []⟩) ⟨fun _ _ => rfl, List.Perm.refl _⟩
  unfold meant read load
  cases ha : runWords tree doc f 0 n ⟨fun _ => [], []⟩ with
  | none =>
    rw [ha] at hs
    cases hb : loadWords tree (fun p => entity (doc p) (col p)) 0 n ⟨fun _ => [], []⟩ with
    | none => exact ⟨fun _ => rfl, fun d hd => nomatch hd⟩
    | some b => rw [hb] at hs; exact hs.elim
  | some a =>
    rw [ha] at hs
    cases hb : loadWords tree (fun p => entity (doc p) (col p)) 0 n ⟨fun _ => [], []⟩ with
    | none => rw [hb] at hs; exact hs.elim
    | some b =>
      rw [hb] at hs
      refine ⟨fun e => (by cases e), fun d hd => ⟨b.done, rfl, ?_⟩⟩
      cases hd
      exact hs.2

/-- **C172 (ids)** Entities get the same id exactly if the numbers are the same and the names of the documents differ in hyphens only. -/
theorem C172_ids {d d' n n' : Str} (hn : NumOk n) (hn' : NumOk n') : eid d n = eid d' n' ↔ noHyphen d = noHyphen d' ∧ n = n' :=
  ⟨eid_inj hn hn', fun e => by unfold eid; rw [e.1, e.2]⟩

/-- **C172 (names of documents)** -/
theorem C172_name {name rest : Str} (h : ∀ c ∈ name, c ≠ ' ' ∧ c ≠ '.') : docName (begins ++ '(' :: name ++ [')', ';', ' '] ++ rest) = some name := by
  have hd : (begins ++ '(' :: name ++ [')', ';', ' '] ++ rest).drop begins.length = ('(' :: name ++ [')', ';']) ++ ' ' :: rest := by
    rw [show begins ++ '(' :: name ++ [')', ';', ' '] ++ rest = begins ++ (('(' :: name ++ [')', ';']) ++ ' ' :: rest) by simp, List.drop_left]
  have tw : ∀ (l : Str), (∀ c ∈ l, c ≠ ' ') → (l ++ ' ' :: rest).takeWhile (fun c => c != ' ') = l := by
    intro l
    induction l with
    | nil => intro _; simp
    | cons a l ih =>
      intro hl
      rw [List.cons_append, List.takeWhile_cons_of_pos (by simpa using hl a List.mem_cons_self), ih (fun c hc => hl c (List.mem_cons_of_mem _ hc))]
  have hx : ∀ l : Str, (∀ c ∈ l, c ≠ '.') → delTxt l = l ∧ delXml l = l := by
    intro l
    induction l with
    | nil => intro _; exact ⟨rfl, rfl⟩
    | cons a l ih =>
      intro hl
      have ha := hl a List.mem_cons_self
      obtain ⟨i1, i2⟩ := ih (fun c hc => hl c (List.mem_cons_of_mem _ hc))
      refine ⟨?_, ?_⟩
      · rw [delTxt, i1]
        intro r e
        exact fun _ => ha e
      · rw [delXml, i2]
        intro r e
        exact fun _ => ha e
  unfold docName
  rw [if_pos (by rw [List.isPrefixOf_iff_prefix]; exact ⟨_, by simp only [List.append_assoc]; rfl⟩), hd]
  have e := tw ('(' :: name ++ [')', ';']) (by
    intro c hc
    simp only [List.cons_append, List.mem_cons, List.mem_append, List.not_mem_nil, or_false] at hc
    rcases hc with rfl | hc | rfl | rfl
    · decide
    · exact (h c hc).1
    · decide
    · decide)
  rw [e]
  dsimp only
  rw [if_neg (by simp), if_pos ⟨by simp, by rw [List.isSuffixOf_iff_suffix]; exact ⟨'(' :: name, rfl⟩⟩]
  have : (('(' :: name ++ [')', ';']).drop 1).take (('(' :: name ++ [')', ';']).length - 3) = name := by simp
  rw [this, (hx name (fun c hc => (h c hc).2)).1, (hx name (fun c hc => (h c hc).2)).2]

/-- **C172 (hyphens in names, violated)** Documents whose names differ in hyphens only share their entities. -/
theorem C172_hyphens_violated (a b n : Str) : a ++ '-' :: b ≠ a ++ b ∧ eid (a ++ '-' :: b) n = eid (a ++ b) n := by
  refine ⟨fun e => ?_, ?_⟩
  · have := congrArg List.length e
    simp at this
  · unfold eid noHyphen
    simp

/-- **C172 (parts of documents, violated)** The parts of a document, whose numbers are independent, share their entities. -/
theorem C172_parts_violated {name : Str} (h : ∀ c ∈ name, c ≠ ' ') (p q : Str) : docName (begins ++ name ++ ' ' :: p) = docName (begins ++ name ++ ' ' :: q) := by
  have tw : ∀ r : Str, ((begins ++ name ++ ' ' :: r).drop begins.length).takeWhile (fun c => c != ' ') = name := by
    intro r
    rw [show begins ++ name ++ ' ' :: r = begins ++ (name ++ ' ' :: r) by simp, List.drop_left]
    clear p q
    induction name with
    | nil => simp
    | cons a l ih => rw [List.cons_append, List.takeWhile_cons_of_pos (by simpa using h a List.mem_cons_self), ih (fun c hc => h c (List.mem_cons_of_mem _ hc))]
  have hp : ∀ r : Str, begins.isPrefixOf (begins ++ name ++ ' ' :: r) = true := by
    intro r
    rw [List.isPrefixOf_iff_prefix]
    exact ⟨name ++ ' ' :: r, by simp⟩
  unfold docName
  rw [if_pos (hp p), if_pos (hp q), tw p, tw q]

/-- **C172 (mentions opened and closed by two brackets at one word, violated)** The file is rejected. -/
theorem C172_word_violated (tree : Nat → Nat) {d n : Str} (hd : ∀ c ∈ d, c ≠ '(' ∧ c ≠ ')') (hn : NumOk n) :
    meant tree (fun _ => d) (fun _ => [.op n, .cl n]) 1 = some [(0, 0, d, n)] ∧ read tree (fun _ => d) (fun _ => '(' :: n ++ '|' :: n ++ [')']) 1 = none := by
  constructor
  · simp [meant, runWords, run, step, push]
  · have hc : Col [.op n, .cl n] ('(' :: n ++ '|' :: n ++ [')']) := by
      have := Col.bars (its := [.op n, .cl n]) (by simp)
      simpa [join, Item.str] using this
    have hch := chunks_entity hd 0 hc (fun x hx => by
      simp only [List.mem_cons, List.not_mem_nil, or_false] at hx
      rcases hx with rfl | rfl <;> exact hn)
    have hV : ∀ k k' : Key, (k.1 = d ∧ NumOk k.2) → (k'.1 = d ∧ NumOk k'.2) → eid k.1 k.2 = eid k'.1 k'.2 → k = k' := by
      rintro ⟨a, b⟩ ⟨a', b'⟩ ⟨h1, h2⟩ ⟨h1', h2'⟩ e
      dsimp only at h1 h2 h1' h2' e
      subst h1 h1'
      rw [(eid_inj h2 h2' e).2]
    have hre : reorder [.op n, .cl n] = [.cl n, .op n] := rfl
    have hs := run_sim hV tree hd 0 (reorder [.op n, .cl n]) (st := ⟨fun _ => [], []⟩) (s := ⟨fun _ => [], []⟩) ⟨fun _ _ => rfl, List.Perm.refl _⟩ (fun x hx => by
      have : x = .cl n ∨ x = .op n := by simpa [hre] using hx
      rcases this with rfl | rfl <;> exact ⟨hn, rfl, hn⟩)
    have hr : run tree d 0 ⟨fun _ => [], []⟩ (reorder [.op n, .cl n]) = none := by simp [hre, run, step]
    rw [hr] at hs
    unfold read load
    simp only [loadWords, hch]
    cases hb : loadChunks tree 0 ⟨fun _ => [], []⟩ ((reorder [.op n, .cl n]).map (fun x => (toCh d 0 x).str)) with
    | none => rfl
    | some b => rw [hb] at hs; exact hs.elim

/-- **C172 (hyphen for nothing, violated)** The hyphen that CoNLL-2012 has for words without mentions sets an attribute `Entity` that is not one. -/
theorem C172_hyphen_violated (d : Str) : entity d ['-'] = noHyphen d ++ ['_', 'e', '-', '-', '-', '1'] := by
  have hc : chunks ['-'] = [['-']] := by decide +kernel
  unfold entity
  rw [if_neg (by decide), if_neg (by decide), hc]
  have : convert d ['-'] = noHyphen d ++ ['_', 'e', '-', '-', '-', '1'] := by
    simp [convert, eid, isParen]
  simp only [List.map_cons, List.map_nil, this, List.foldl_cons, List.foldl_nil]
  unfold place
  split <;> simp

/-! ## Examples -/

example : entity ['a', '-', 'b'] ['(', '1', '3', ')', '|', '1', '0', ')'] =
    ['a', 'b', '_', 'e', '1', '0', ')', '(', 'a', 'b', '_', 'e', '1', '3', '-', '-', '1', ')'] := by decide +kernel
example : entity ['a'] ['(', '1', '3', ')', '1', '0', ')'] = entity ['a'] ['(', '1', '3', ')', '|', '1', '0', ')'] := by decide +kernel
example : meant (fun _ => 0) (fun _ => ['a']) (fun p => if p = 0 then [.op ['1'], .op ['2']] else if p = 1 then [.sg ['3'], .cl ['2']] else [.cl ['1']]) 3 =
    some [(1, 1, ['a'], ['3']), (0, 1, ['a'], ['2']), (0, 2, ['a'], ['1'])] := by decide +kernel
example : read (fun _ => 0) (fun _ => ['a']) (fun p => if p = 0 then ['(', '1', '(', '2'] else if p = 1 then ['(', '3', ')', '2', ')'] else ['1', ')']) 3 =
    some [⟨0, 1, ['a', '_', 'e', '2'], [], 1, []⟩, ⟨1, 1, ['a', '_', 'e', '3'], [], 1, []⟩, ⟨0, 2, ['a', '_', 'e', '1'], [], 1, []⟩] := by decide +kernel
example : File (fun _ => ['a']) (fun p => if p = 0 then [.op ['1'], .sg ['2']] else if p = 1 then [.cl ['1'], .op ['1']] else [])
    (fun p => if p = 0 then ['(', '1', '(', '2', ')'] else if p = 1 then ['1', ')', '|', '(', '1'] else ['_']) := by
  refine ⟨fun p c hc => by simp at hc; subst hc; decide, fun _ _ _ => rfl, fun p x hx => ?_, fun p => ?_, fun p => ?_⟩
  · have one : NumOk ['1'] := ⟨by simp, by simp⟩
    have two : NumOk ['2'] := ⟨by simp, by simp⟩
    split at hx
    · simp at hx; rcases hx with rfl | rfl
      · exact one
      · exact two
    · split at hx
      · simp at hx; rcases hx with rfl | rfl <;> exact one
      · cases hx
  · split
    · simp [ClosedFirst]
    · split
      · simp [ClosedFirst, Item.isOp]
      · simp [ClosedFirst]
  · split
    · exact Col.plain (its := [.op ['1'], .sg ['2']]) (by simp) (by simp [Apart, Item.isOp, Item.isCl])
    · split
      · exact Col.bars (its := [.cl ['1'], .op ['1']]) (by simp)
      · exact Col.none

end Verif.Coref.Conll2012
