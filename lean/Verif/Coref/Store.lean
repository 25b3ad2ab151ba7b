import Verif.Py.Sort
import Verif.Py.Text
import Verif.Coref.Order
import Verif.Coref.Mentions

/-!
# Property C38: storing mentions in the MISC attribute Entity and loading them (udapi/core/coref.py:548-770, 771-891)

Words are named by their position in `doc.nodes_and_empty`; `tree p` is the tree of word `p`. Mentions are continuous, in one
zone, and `global.Entity` is the default `eid-etype-head-other`.
Simplified: discontinuous mentions (`eid[1/2]`) are in `Disc.lean`; `GRP` ids, `Bridge` and `SplitAnte` are left out; ids ending with `]` are
rejected by the model of the loader. `strict` is true. The type of the entity is kept with every mention. A bracket that is closed by another
chunk of the word where it was opened is not written by `store_coref_to_misc`; `Disc.lean` shows what the loader does with it.
-/

namespace Verif.Coref.Store
open Verif.Py
open Verif.Coref (strLt)
open Verif.Coref.M (upd upd_same upd_other)

/-- A mention of the words `lo`, ..., `hi`. `head` is the position of the head among its words, from 1; `other` is
`str(mention.other)`. -/
structure SM where
  lo : Nat
  hi : Nat
  eid : Str
  etype : Str
  head : Nat
  other : Str
  deriving DecidableEq

/-! ## Storing -/

/-- `not another < self` for continuous mentions (coref.py:142-175). -/
def leSM (a b : SM) : Bool :=
  decide (a.lo < b.lo) || (a.lo == b.lo && (decide (b.hi < a.hi) || (a.hi == b.hi && !strLt b.eid a.eid)))

/-- `while values and values[-1] == '': del values[-1]` (coref.py:858-859) -/
def trimEnd (vs : List Str) : List Str := (vs.reverse.dropWhile (fun v => v == [])).reverse

/-- `mention_str` without the bracket (coref.py:820-860). -/
def SM.label (m : SM) : Str := join ['-'] (trimEnd [m.eid, m.etype, natStr m.head, m.other])

def isParen (c : Char) : Bool := c == '(' || c == ')'

/-- A piece of text between two matches, unless it is empty. -/
def flush (acc : Str) : List Str := if acc = [] then [] else [acc]

/-- `[x for x in re.split(r'(\([^()]+\)?|[^()]+\))', s) if x]` (coref.py:586, 879): `acc` is the text since the last match. -/
def chunksAux (acc s : Str) : List Str :=
  match s with
  | [] => flush acc
  | c :: r =>
    if c = '(' then
      if r.takeWhile (fun d => !isParen d) = [] then chunksAux (acc ++ [c]) r
      else
        match _h : r.dropWhile (fun d => !isParen d) with
        | ')' :: r' => flush acc ++ ('(' :: r.takeWhile (fun d => !isParen d) ++ [')']) :: chunksAux [] r'
        | r' => flush acc ++ ('(' :: r.takeWhile (fun d => !isParen d)) :: chunksAux [] r'
    else if c = ')' then chunksAux (acc ++ [c]) r
    else
      match _h : r.dropWhile (fun d => !isParen d) with
      | ')' :: r' => flush acc ++ (c :: r.takeWhile (fun d => !isParen d) ++ [')']) :: chunksAux [] r'
      | r' => chunksAux (acc ++ c :: r.takeWhile (fun d => !isParen d)) r'
termination_by s.length
decreasing_by
  all_goals first
    | (simp; done)
    | (have := (List.dropWhile_sublist (fun d => !isParen d) (l := r)).length_le
       simp_all only [List.length_cons]
       omega)

def chunks (s : Str) : List Str := chunksAux [] s

/-- An opening bracket that is not closed in the same chunk (coref.py:879). -/
def opensOnly (c : Str) : Bool := c.head? == some '(' && c.getLast? != some ')'

/-- Writing one mention (coref.py:867-891); `f p` is `misc['Entity']` of word `p`. -/
def storeOne (f : Nat → Str) (m : SM) : Nat → Str :=
  if m.lo = m.hi then
    let orig := f m.lo
    let s := '(' :: m.label ++ [')']
    if orig = [] ∨ orig.getLast? ≠ some ')' then upd f m.lo (orig ++ s)
    else if '(' ∉ orig then upd f m.lo (s ++ orig)
    else if (chunks orig).any opensOnly then upd f m.lo (orig ++ s)
    else upd f m.lo (s ++ orig)
  else
    let f1 := upd f m.lo (f m.lo ++ '(' :: m.label)
    upd f1 m.hi (m.eid ++ ')' :: f1 m.hi)

/-- `store_coref_to_misc(doc)` (coref.py:771-891): the old attributes are deleted, the mentions are sorted and written. -/
def store (ms : List SM) : Nat → Str := (pySort leSM ms).foldl storeOne (fun _ => [])

/-! ## Loading -/

/-- `s.strip('()')` -/
def stripParens (s : Str) : Str := ((s.dropWhile isParen).reverse.dropWhile isParen).reverse

/-- The fields of a chunk, `zip(fields, chunk.split('-'))` (coref.py:650-675); `none`: ValueError for a head that is not a
number. The result: id, type, head and other. -/
def parseLabel (c : Str) : Option (Str × Str × Option Int × Str) :=
  match split '-' c with
  | [] => none
  | e :: r =>
    match r[1]? with
    | none => some (e, r.headD [], none, [])
    | some h =>
      match pyInt h with
      | none => none
      | some k => some (e, r.headD [], some k, (r[2]?).getD [])

/-- A mention that was opened: its first word, type, head and other. -/
abbrev Entry := Nat × Str × Option Int × Str

/-- `unfinished_mentions` and the mentions that are complete. -/
structure L where
  stack : Str → List Entry
  done : List SM

/-- `mention.words[head_idx - 1]`, as a position from 1, with Python's negative indices (coref.py:635-642); `none`: IndexError.
Without a head, or with head 0, the head is the first word. -/
def headPos (h : Option Int) (len : Nat) : Option Nat :=
  match h with
  | none => some 1
  | some k =>
    if k = 0 then some 1
    else if 1 ≤ k ∧ k ≤ len then some k.toNat
    else if k < 0 ∧ 0 ≤ k - 1 + len then some (k + len).toNat
    else none

/-- One chunk at word `p` (coref.py:587-720); `none`: an exception. -/
def loadChunk (tree : Nat → Nat) (p : Nat) (st : L) (chunk : Str) : Option L :=
  let opening := chunk.head? == some '('
  let closing := chunk.getLast? == some ')'
  let c := stripParens chunk
  if !opening && !closing then some st
  else if !opening then
    match (st.stack c).getLast? with
    | none => none
    | some (lo, etype, h, other) =>
      if tree lo ≠ tree p then none
      else
        match headPos h (p - lo + 1) with
        | none => none
        | some k => some ⟨upd' st.stack c (st.stack c).dropLast, st.done ++ [⟨lo, p, c, etype, k, other⟩]⟩
  else
    match parseLabel c with
    | none => none
    | some (eid, etype, h, other) =>
      if eid = [] ∨ eid.getLast? = some ']' then none
      else if closing then some ⟨st.stack, st.done ++ [⟨p, p, eid, etype, 1, other⟩]⟩
      else some ⟨upd' st.stack eid (st.stack eid ++ [(p, etype, h, other)]), st.done⟩
where
  upd' (f : Str → List Entry) (k : Str) (v : List Entry) : Str → List Entry := fun x => if x = k then v else f x

def loadChunks (tree : Nat → Nat) (p : Nat) : L → List Str → Option L
  | st, [] => some st
  | st, c :: cs =>
    match loadChunk tree p st c with
    | none => none
    | some st' => loadChunks tree p st' cs

/-- The loop over the words (coref.py:573-720), for the words `p`, ..., `p + k - 1`. -/
def loadWords (tree : Nat → Nat) (f : Nat → Str) : Nat → Nat → L → Option L
  | _, 0, st => some st
  | p, k + 1, st =>
    match loadChunks tree p st (chunks (f p)) with
    | none => none
    | some st' => loadWords tree f (p + 1) k st'

/-- `load_coref_from_misc(doc)` for a document of `n` words: the mentions, in the order in which they were completed.
Mentions that are not closed are deleted (coref.py:748-755). -/
def load (tree : Nat → Nat) (f : Nat → Str) (n : Nat) : Option (List SM) :=
  (loadWords tree f 0 n ⟨fun _ => [], []⟩).map (·.done)

/-! ## Specification -/

/-- The mention can be written: its id, type and extra fields do not contain the characters of the notation. -/
structure SM.Ok (tree : Nat → Nat) (n : Nat) (m : SM) : Prop where
  le : m.lo ≤ m.hi
  bound : m.hi < n
  tree : tree m.lo = tree m.hi
  ne : m.eid ≠ []
  last : m.eid.getLast? ≠ some ']'
  eid : ∀ c ∈ m.eid, c ≠ '-' ∧ c ≠ '(' ∧ c ≠ ')'
  etype : ∀ c ∈ m.etype, c ≠ '-' ∧ c ≠ '(' ∧ c ≠ ')'
  other : ∀ c ∈ m.other, c ≠ '-' ∧ c ≠ '(' ∧ c ≠ ')'
  head : 1 ≤ m.head ∧ m.head ≤ m.hi - m.lo + 1

/-- Two mentions cross: the second one starts inside the first one, before its last word, and ends after it. -/
def Crossing (a b : SM) : Prop := a.lo < b.lo ∧ b.lo < a.hi ∧ a.hi < b.hi

instance (a b : SM) : Decidable (Crossing a b) := inferInstanceAs (Decidable (_ ∧ _))

/-! ## Proofs: strings and chunks -/

/-- A chunk together with the mention it comes from. -/
inductive Ch
  | op (m : SM) | cl (m : SM) | sg (m : SM)

def Ch.str : Ch → Str
  | .op m => '(' :: m.label
  | .cl m => m.eid ++ [')']
  | .sg m => '(' :: m.label ++ [')']

def render (cs : List Ch) : Str := (cs.map Ch.str).flatten

/-- A text of the notation: not empty and without brackets. -/
def Txt (s : Str) : Prop := s ≠ [] ∧ ∀ c ∈ s, isParen c = false

def Ch.Txt : Ch → Prop
  | .op m => Store.Txt m.label
  | .cl m => Store.Txt m.eid
  | .sg m => Store.Txt m.label

def Ch.noOp : Ch → Prop
  | .op _ => False
  | _ => True

def Ch.noCl : Ch → Prop
  | .cl _ => False
  | _ => True

theorem takeWhile_txt {s : Str} (h : ∀ c ∈ s, isParen c = false) (r : Str) (hr : ∀ c, r.head? = some c → isParen c = true) :
    (s ++ r).takeWhile (fun d => !isParen d) = s ∧ (s ++ r).dropWhile (fun d => !isParen d) = r := by
  induction s with
  | nil =>
    cases r with
    | nil => exact ⟨rfl, rfl⟩
    | cons c r => simp [hr c rfl]
  | cons a s ih =>
    have := ih (fun c hc => h c (List.mem_cons_of_mem _ hc))
    have ha := h a (List.mem_cons_self ..)
    simp [ha, this]

theorem chunksAux_single {s : Str} (h : Txt s) (r : Str) : chunksAux [] ('(' :: s ++ ')' :: r) = ('(' :: s ++ [')']) :: chunksAux [] r := by
  obtain ⟨h1, h2⟩ := takeWhile_txt h.2 (')' :: r) (by intro c hc; cases hc; rfl)
  rw [List.cons_append]
  conv => lhs; unfold chunksAux
  rw [if_pos rfl, if_neg (by rw [h1]; exact h.1)]
  split
  · rename_i r' heq
    rw [h2] at heq
    cases heq
    rw [h1]; rfl
  · rename_i hx
    exact absurd h2 (hx r)

theorem chunksAux_open {s : Str} (h : Txt s) (r : Str) (hr : ∀ c, r.head? = some c → c = '(') :
    chunksAux [] ('(' :: s ++ r) = ('(' :: s) :: chunksAux [] r := by
  obtain ⟨h1, h2⟩ := takeWhile_txt h.2 r (by intro c hc; rw [hr c hc]; rfl)
  rw [List.cons_append]
  conv => lhs; unfold chunksAux
  rw [if_pos rfl, if_neg (by rw [h1]; exact h.1)]
  split
  · rename_i r' heq
    rw [h2] at heq
    have := hr ')' (by rw [heq]; rfl)
    cases this
  · rw [h1, h2]; rfl

theorem chunksAux_close {s : Str} (h : Txt s) (r : Str) : chunksAux [] (s ++ ')' :: r) = (s ++ [')']) :: chunksAux [] r := by
  obtain ⟨c, t, rfl⟩ := List.exists_cons_of_ne_nil h.1
  obtain ⟨h1, h2⟩ := takeWhile_txt (s := t) (fun c hc => h.2 c (List.mem_cons_of_mem _ hc)) (')' :: r) (by intro c hc; cases hc; rfl)
  have hc := h.2 c (List.mem_cons_self ..)
  rw [List.cons_append]
  conv => lhs; unfold chunksAux
  rw [if_neg (by rintro rfl; cases hc), if_neg (by rintro rfl; cases hc)]
  split
  · rename_i r' heq
    rw [h2] at heq
    cases heq
    rw [h1]; rfl
  · rename_i hx
    exact absurd h2 (hx r)

theorem render_cons (c : Ch) (cs : List Ch) : render (c :: cs) = c.str ++ render cs := by simp [render]
theorem render_append (a b : List Ch) : render (a ++ b) = render a ++ render b := by simp [render]

theorem chunks_tail : ∀ (R : List Ch), (∀ c ∈ R, c.Txt ∧ c.noCl) → chunksAux [] (render R) = R.map Ch.str ∧
    ∀ c, (render R).head? = some c → c = '('
  | [], _ => ⟨by simp [render, chunksAux, flush], by simp [render]⟩
  | c :: R, h => by
    obtain ⟨ih1, ih2⟩ := chunks_tail R (fun d hd => h d (List.mem_cons_of_mem _ hd))
    have hc := h c (List.mem_cons_self ..)
    rw [render_cons, List.map_cons]
    cases c with
    | op m =>
      simp only [Ch.str]
      rw [chunksAux_open hc.1 _ ih2, ih1]
      exact ⟨rfl, by intro c hc; simp at hc; exact hc.symm⟩
    | cl m => exact absurd hc.2 id
    | sg m =>
      simp only [Ch.str]
      rw [show '(' :: m.label ++ [')'] ++ render R = '(' :: m.label ++ ')' :: render R by simp, chunksAux_single hc.1, ih1]
      exact ⟨rfl, by intro c hc; simp at hc; exact hc.symm⟩

/-- Splitting the attribute gives back the chunks it was made of, as long as no closing bracket follows an opening one. -/
theorem chunks_render {A R : List Ch} (hA : ∀ c ∈ A, c.Txt ∧ c.noOp) (hR : ∀ c ∈ R, c.Txt ∧ c.noCl) :
    chunks (render (A ++ R)) = (A ++ R).map Ch.str := by
  unfold chunks
  induction A with
  | nil => exact (chunks_tail R hR).1
  | cons c A ih =>
    have ih := ih (fun d hd => hA d (List.mem_cons_of_mem _ hd))
    have hc := hA c (List.mem_cons_self ..)
    rw [List.cons_append, render_cons, List.map_cons]
    cases c with
    | op m => exact absurd hc.2 id
    | cl m =>
      simp only [Ch.str]
      rw [show m.eid ++ [')'] ++ render (A ++ R) = m.eid ++ ')' :: render (A ++ R) by simp, chunksAux_close hc.1, ih]
    | sg m =>
      simp only [Ch.str]
      rw [show '(' :: m.label ++ [')'] ++ render (A ++ R) = '(' :: m.label ++ ')' :: render (A ++ R) by simp,
        chunksAux_single hc.1, ih]

/-! ## Proofs: storing -/

/-- The mentions of the closing chunks, of the opening chunks and of the chunks of one word. -/
def cls (l : List Ch) : List SM := l.filterMap (fun c => match c with | .cl m => some m | _ => none)
def ops (l : List Ch) : List SM := l.filterMap (fun c => match c with | .op m => some m | _ => none)
def sgs (l : List Ch) : List SM := l.filterMap (fun c => match c with | .sg m => some m | _ => none)

def Ch.mention : Ch → SM
  | .op m => m
  | .cl m => m
  | .sg m => m

/-- What word `p` has after the mentions `P` were written. -/
structure WordInv (P : List SM) (p : Nat) (s : Str) (A R : List Ch) : Prop where
  str : s = render (A ++ R)
  noOp : ∀ c ∈ A, c.noOp
  noCl : ∀ c ∈ R, c.noCl
  mem : ∀ c ∈ A ++ R, c.mention ∈ P
  cls : cls A = (P.filter (fun m => decide (m.lo < m.hi) && m.hi == p)).reverse
  ops : ops R = P.filter (fun m => decide (m.lo < m.hi) && m.lo == p)
  sgs : (sgs (A ++ R)).Perm (P.filter (fun m => m.lo == m.hi && m.lo == p))

theorem WordInv.mono {P : List SM} {p : Nat} {s : Str} {A R : List Ch} (h : WordInv P p s A R) {m : SM}
    (h1 : m.lo ≠ p) (h2 : m.hi ≠ p) : WordInv (P ++ [m]) p s A R := by
  refine ⟨h.str, h.noOp, h.noCl, fun c hc => List.mem_append_left _ (h.mem c hc), ?_, ?_, ?_⟩
  · rw [List.filter_append, h.cls]; simp [h2]
  · rw [List.filter_append, h.ops]; simp [h1]
  · rw [List.filter_append]; simpa [h1] using h.sgs

theorem storeOne_inv {P : List SM} {f : Nat → Str} (h : ∀ p, ∃ A R, WordInv P p (f p) A R) {m : SM} (hm : m.lo ≤ m.hi) :
    ∀ p, ∃ A R, WordInv (P ++ [m]) p (storeOne f m p) A R := by
  by_cases hs : m.lo = m.hi
  · have key : storeOne f m = upd f m.lo (f m.lo ++ ('(' :: m.label ++ [')'])) ∨
        storeOne f m = upd f m.lo (('(' :: m.label ++ [')']) ++ f m.lo) := by
      unfold storeOne
      rw [if_pos hs]
      simp only
      split
      · exact Or.inl rfl
      · split
        · exact Or.inr rfl
        · split
          · exact Or.inl rfl
          · exact Or.inr rfl
    intro p
    obtain ⟨A, R, hw⟩ := h p
    by_cases hp : p = m.lo
    · subst hp
      rcases key with k | k
      · refine ⟨A, R ++ [.sg m], ?_⟩
        rw [k, upd_same]
        refine ⟨?_, hw.noOp, ?_, ?_, ?_, ?_, ?_⟩
        · rw [hw.str, ← List.append_assoc A R, render_append (A ++ R)]; simp [render, Ch.str]
        · intro c hc
          rcases List.mem_append.1 hc with hc | hc
          · exact hw.noCl c hc
          · rw [List.mem_singleton.1 hc]; trivial
        · intro c hc
          rw [← List.append_assoc] at hc
          rcases List.mem_append.1 hc with hc | hc
          · exact List.mem_append_left _ (hw.mem c hc)
          · rw [List.mem_singleton.1 hc]; exact List.mem_append_right _ (List.mem_singleton.2 rfl)
        · rw [List.filter_append, hw.cls]; simp [hs]
        · rw [List.filter_append, ← hw.ops]; simp [hs, ops]
        · rw [List.filter_append, ← List.append_assoc]
          have : sgs (A ++ R ++ [.sg m]) = sgs (A ++ R) ++ [m] := by simp [sgs]
          rw [this]
          refine (hw.sgs.append_right [m]).trans ?_
          simp [hs]
      · refine ⟨.sg m :: A, R, ?_⟩
        rw [k, upd_same]
        refine ⟨?_, ?_, hw.noCl, ?_, ?_, ?_, ?_⟩
        · rw [hw.str, show Ch.sg m :: A ++ R = Ch.sg m :: (A ++ R) from rfl, render_cons]; rfl
        · intro c hc
          rcases List.mem_cons.1 hc with rfl | hc
          · trivial
          · exact hw.noOp c hc
        · intro c hc
          rcases List.mem_cons.1 hc with rfl | hc
          · exact List.mem_append_right _ (List.mem_singleton.2 rfl)
          · exact List.mem_append_left _ (hw.mem c hc)
        · rw [List.filter_append, show cls (.sg m :: A) = cls A from rfl, hw.cls]; simp [hs]
        · rw [List.filter_append, ← hw.ops]; simp [hs]
        · rw [List.filter_append, List.cons_append]
          have : sgs (.sg m :: (A ++ R)) = m :: sgs (A ++ R) := rfl
          rw [this]
          refine (List.perm_append_comm (l₁ := [m]) (l₂ := sgs (A ++ R))).trans ((hw.sgs.append_right [m]).trans ?_)
          simp [hs]
    · have hf : storeOne f m p = f p := by rcases key with k | k <;> rw [k, upd_other _ _ hp]
      rw [hf]
      exact ⟨A, R, hw.mono (Ne.symm hp) (by rw [← hs]; exact Ne.symm hp)⟩
  · have hlt : m.lo < m.hi := by omega
    have key : storeOne f m = upd (upd f m.lo (f m.lo ++ '(' :: m.label)) m.hi (m.eid ++ ')' :: f m.hi) := by
      unfold storeOne
      rw [if_neg hs]
      simp only
      rw [upd_other _ _ (show m.hi ≠ m.lo by omega)]
    intro p
    obtain ⟨A, R, hw⟩ := h p
    rw [key]
    by_cases hp : p = m.hi
    · subst hp
      rw [upd_same]
      refine ⟨.cl m :: A, R, ?_⟩
      refine ⟨?_, ?_, hw.noCl, ?_, ?_, ?_, ?_⟩
      · rw [hw.str, List.cons_append, render_cons]; simp [Ch.str]
      · intro c hc
        rcases List.mem_cons.1 hc with rfl | hc
        · trivial
        · exact hw.noOp c hc
      · intro c hc
        rcases List.mem_cons.1 hc with rfl | hc
        · exact List.mem_append_right _ (List.mem_singleton.2 rfl)
        · exact List.mem_append_left _ (hw.mem c hc)
      · rw [List.filter_append, show cls (.cl m :: A) = m :: cls A from rfl, hw.cls]; simp [hlt]
      · rw [List.filter_append, ← hw.ops]; simp [hs]
      · rw [List.filter_append]
        have : sgs (.cl m :: A ++ R) = sgs (A ++ R) := rfl
        rw [this]
        simpa [hs] using hw.sgs
    · rw [upd_other _ _ hp]
      by_cases hp2 : p = m.lo
      · subst hp2
        rw [upd_same]
        refine ⟨A, R ++ [.op m], ?_⟩
        refine ⟨?_, hw.noOp, ?_, ?_, ?_, ?_, ?_⟩
        · rw [hw.str, ← List.append_assoc A R, render_append (A ++ R)]; simp [render, Ch.str]
        · intro c hc
          rcases List.mem_append.1 hc with hc | hc
          · exact hw.noCl c hc
          · rw [List.mem_singleton.1 hc]; trivial
        · intro c hc
          rw [← List.append_assoc] at hc
          rcases List.mem_append.1 hc with hc | hc
          · exact List.mem_append_left _ (hw.mem c hc)
          · rw [List.mem_singleton.1 hc]; exact List.mem_append_right _ (List.mem_singleton.2 rfl)
        · rw [List.filter_append, hw.cls]; simp [Ne.symm hs]
        · rw [List.filter_append, ← hw.ops]; simp [hlt, ops]
        · rw [List.filter_append, ← List.append_assoc]
          have : sgs (A ++ R ++ [.op m]) = sgs (A ++ R) := by simp [sgs]
          rw [this]
          simpa [hs] using hw.sgs
      · rw [upd_other _ _ hp2]
        exact ⟨A, R, hw.mono (Ne.symm hp2) (Ne.symm hp)⟩

theorem store_inv {P ms : List SM} {f : Nat → Str} (hm : ∀ m ∈ ms, m.lo ≤ m.hi) (h : ∀ p, ∃ A R, WordInv P p (f p) A R) :
    ∀ p, ∃ A R, WordInv (P ++ ms) p (ms.foldl storeOne f p) A R := by
  induction ms generalizing P f with
  | nil => simpa using h
  | cons m ms ih =>
    have := ih (P := P ++ [m]) (f := storeOne f m) (fun x hx => hm x (List.mem_cons_of_mem _ hx))
      (storeOne_inv h (hm m (List.mem_cons_self ..)))
    simpa using this

/-! ## Proofs: loading one word -/

theorem trimEnd_label {e t h o : Str} (hh : h ≠ []) : trimEnd [e, t, h, o] = if o = [] then [e, t, h] else [e, t, h, o] := by
  unfold trimEnd
  by_cases ho : o = []
  · simp [ho, hh]
  · simp [ho]

theorem natStr_no_dash (n : Nat) : '-' ∉ natStr n := not_mem_natStr (by decide) n

/-- The texts of the mention have no characters of the notation. -/
structure SM.Chars (m : SM) : Prop where
  ne : m.eid ≠ []
  eid : ∀ c ∈ m.eid, c ≠ '-' ∧ c ≠ '(' ∧ c ≠ ')'
  etype : ∀ c ∈ m.etype, c ≠ '-' ∧ c ≠ '(' ∧ c ≠ ')'
  other : ∀ c ∈ m.other, c ≠ '-' ∧ c ≠ '(' ∧ c ≠ ')'

theorem SM.Ok.chars {tree : Nat → Nat} {n : Nat} {m : SM} (h : m.Ok tree n) : m.Chars := ⟨h.ne, h.eid, h.etype, h.other⟩

theorem parseLabel_chars {m : SM} (h : m.Chars) :
    parseLabel m.label = some (m.eid, m.etype, some (Int.ofNat m.head), m.other) := by
  have he : '-' ∉ m.eid := fun hx => (h.eid _ hx).1 rfl
  have ht : '-' ∉ m.etype := fun hx => (h.etype _ hx).1 rfl
  have ho : '-' ∉ m.other := fun hx => (h.other _ hx).1 rfl
  unfold SM.label parseLabel
  rw [trimEnd_label (natStr_ne_nil _)]
  by_cases hn : m.other = []
  · rw [if_pos hn, split_join (by simp) (by
      intro p hp
      simp only [List.mem_cons, List.not_mem_nil, or_false] at hp
      rcases hp with rfl | rfl | rfl
      · exact he
      · exact ht
      · exact natStr_no_dash _)]
    simp [pyInt_natStr, hn]
  · rw [if_neg hn, split_join (by simp) (by
      intro p hp
      simp only [List.mem_cons, List.not_mem_nil, or_false] at hp
      rcases hp with rfl | rfl | rfl | rfl
      · exact he
      · exact ht
      · exact natStr_no_dash _
      · exact ho)]
    simp [pyInt_natStr]

theorem parseLabel_label {tree : Nat → Nat} {n : Nat} {m : SM} (h : m.Ok tree n) :
    parseLabel m.label = some (m.eid, m.etype, some (Int.ofNat m.head), m.other) := parseLabel_chars h.chars

theorem isParen_false {c : Char} (h1 : c ≠ '(') (h2 : c ≠ ')') : isParen c = false := by simp [isParen, h1, h2]

theorem txt_eid_chars {m : SM} (h : m.Chars) : Txt m.eid :=
  ⟨h.ne, fun c hc => isParen_false (h.eid c hc).2.1 (h.eid c hc).2.2⟩

theorem txt_eid {tree : Nat → Nat} {n : Nat} {m : SM} (h : m.Ok tree n) : Txt m.eid := txt_eid_chars h.chars

theorem mem_join {sep : Str} {c : Char} : ∀ {l : List Str}, c ∈ join sep l → c ∈ sep ∨ ∃ p ∈ l, c ∈ p
  | [], h => by simp [join] at h
  | [a], h => by simp only [join] at h; exact Or.inr ⟨a, List.mem_singleton.2 rfl, h⟩
  | a :: b :: l, h => by
    simp only [join, List.mem_append] at h
    rcases h with (h | h) | h
    · exact Or.inr ⟨a, List.mem_cons_self .., h⟩
    · exact Or.inl h
    · rcases mem_join h with h | ⟨p, hp, h⟩
      · exact Or.inl h
      · exact Or.inr ⟨p, List.mem_cons_of_mem _ hp, h⟩

theorem txt_label_chars {m : SM} (h : m.Chars) : Txt m.label := by
  refine ⟨?_, ?_⟩
  · intro hx
    have := parseLabel_chars h
    rw [hx] at this
    simp only [parseLabel, split] at this
    simp at this
  · intro c hc
    unfold SM.label at hc
    rw [trimEnd_label (natStr_ne_nil _)] at hc
    have hd : isParen '-' = false := by decide
    have hnat : ∀ c ∈ natStr m.head, isParen c = false := by
      intro c hc
      have := natStr_digits _ c hc
      apply isParen_false <;> (rintro rfl; revert this; decide)
    have main : ∀ l : List Str, (∀ p ∈ l, p = m.eid ∨ p = m.etype ∨ p = natStr m.head ∨ p = m.other) → c ∈ join ['-'] l → isParen c = false := by
      intro l hl hc
      rcases mem_join hc with h' | ⟨p, hp, h'⟩
      · rw [List.mem_singleton.1 h']; exact hd
      · rcases hl p hp with rfl | rfl | rfl | rfl
        · exact isParen_false (h.eid c h').2.1 (h.eid c h').2.2
        · exact isParen_false (h.etype c h').2.1 (h.etype c h').2.2
        · exact hnat c h'
        · exact isParen_false (h.other c h').2.1 (h.other c h').2.2
    split at hc
    · exact main _ (by simp) hc
    · exact main _ (by simp) hc

theorem txt_label {tree : Nat → Nat} {n : Nat} {m : SM} (h : m.Ok tree n) : Txt m.label := txt_label_chars h.chars

theorem dropWhile_paren_txt {s : Str} (h : ∀ c ∈ s, isParen c = false) : s.dropWhile isParen = s := by
  cases s with
  | nil => rfl
  | cons a s => simp [h a (List.mem_cons_self ..)]

theorem strip_txt {s : Str} (h : Txt s) (a b : Bool) :
    stripParens ((if a then ['('] else []) ++ s ++ (if b then [')'] else [])) = s := by
  obtain ⟨c, t, rfl⟩ := List.exists_cons_of_ne_nil h.1
  have hc := h.2 c (List.mem_cons_self ..)
  have h1 : ((if a then ['('] else []) ++ c :: t ++ (if b then [')'] else [])).dropWhile isParen = c :: t ++ (if b then [')'] else []) := by
    cases a
    · simp [hc]
    · have : isParen '(' = true := by decide
      simp [hc, this]
  unfold stripParens
  rw [h1, List.reverse_append]
  have h2 : ∀ x ∈ (c :: t).reverse, isParen x = false := fun x hx => h.2 x (List.mem_reverse.1 hx)
  have h3 : ((if b then [')'] else []).reverse ++ (c :: t).reverse).dropWhile isParen = (c :: t).reverse := by
    cases b
    · simp only [Bool.false_eq_true, if_false, List.reverse_nil, List.nil_append]
      exact dropWhile_paren_txt h2
    · have : isParen ')' = true := by decide
      simp only [if_true, List.reverse_singleton, List.singleton_append, List.dropWhile_cons, this]
      exact dropWhile_paren_txt h2
  rw [h3, List.reverse_reverse]

theorem getLast_txt {s : Str} (h : Txt s) : s.getLast? ≠ some ')' := by
  intro hx
  have := h.2 ')' (List.mem_of_getLast? hx)
  cases this

theorem head_txt {s : Str} (h : Txt s) : s.head? ≠ some '(' := by
  intro hx
  have := h.2 '(' (List.mem_of_head? hx)
  cases this

/-- The entry of a mention on the stack of its entity. -/
def entry (m : SM) : Entry := (m.lo, m.etype, some (Int.ofNat m.head), m.other)

theorem loadChunk_op {tree : Nat → Nat} {n p : Nat} {st : L} {m : SM} (h : m.Ok tree n) (hp : m.lo = p) :
    loadChunk tree p st (Ch.op m).str = some ⟨loadChunk.upd' st.stack m.eid (st.stack m.eid ++ [entry m]), st.done⟩ := by
  have ht := txt_label h
  have hl : (('(' :: m.label).getLast? == some ')') = false := by
    rw [List.getLast?_cons]
    have := getLast_txt ht
    cases hx : m.label.getLast? with
    | none => exact absurd (List.getLast?_eq_none_iff.1 hx) ht.1
    | some c => rw [hx] at this; simpa using this
  have hs : stripParens ('(' :: m.label) = m.label := by simpa using strip_txt ht true false
  unfold loadChunk
  simp only [Ch.str, hl, hs, List.head?_cons]
  simp only [parseLabel_label h]
  have hx : ¬ (m.eid = [] ∨ m.eid.getLast? = some ']') := by
    rintro (h' | h')
    · exact h.ne h'
    · exact h.last h'
  simp only [if_neg hx, BEq.rfl, Bool.not_true, Bool.false_and, Bool.false_eq_true, if_false, ← hp]
  rfl

theorem loadChunk_sg {tree : Nat → Nat} {n p : Nat} {st : L} {m : SM} (h : m.Ok tree n) (hp : m.lo = p) (hs : m.lo = m.hi) :
    loadChunk tree p st (Ch.sg m).str = some ⟨st.stack, st.done ++ [m]⟩ := by
  have ht := txt_label h
  have hl : (('(' :: m.label ++ [')']).getLast? == some ')') = true := by
    rw [List.getLast?_append]; simp
  have hst : stripParens ('(' :: m.label ++ [')']) = m.label := by simpa using strip_txt ht true true
  unfold loadChunk
  simp only [Ch.str, List.cons_append, List.head?_cons]
  rw [show stripParens ('(' :: (m.label ++ [')'])) = m.label from hst]
  simp only [parseLabel_label h]
  have hx : ¬ (m.eid = [] ∨ m.eid.getLast? = some ']') := by
    rintro (h' | h')
    · exact h.ne h'
    · exact h.last h'
  have hhd : m.head = 1 := by have := h.head; omega
  have hl' : (('(' :: (m.label ++ [')'])).getLast? == some ')') = true := hl
  simp only [if_neg hx, BEq.rfl, Bool.not_true, Bool.false_and, Bool.false_eq_true, if_false, hl', if_true]
  obtain ⟨lo, hi, eid, etype, head, other⟩ := m
  simp only at hp hs hhd ⊢
  subst hp hs hhd
  rfl

theorem loadChunk_cl {tree : Nat → Nat} {n p : Nat} {st : L} {m : SM} (h : m.Ok tree n) (hp : m.hi = p) {K : List Entry}
    (hst : st.stack m.eid = K ++ [entry m]) :
    loadChunk tree p st (Ch.cl m).str = some ⟨loadChunk.upd' st.stack m.eid K, st.done ++ [m]⟩ := by
  have ht := txt_eid h
  have hl : ((m.eid ++ [')']).getLast? == some ')') = true := by rw [List.getLast?_append]; simp
  have hh : ((m.eid ++ [')']).head? == some '(') = false := by
    have := head_txt ht
    cases hx : m.eid with
    | nil => exact absurd hx h.ne
    | cons a t => rw [hx] at this; simpa using this
  have hs : stripParens (m.eid ++ [')']) = m.eid := by simpa using strip_txt ht false true
  unfold loadChunk
  simp only [Ch.str, hl, hh, hs, Bool.not_false, Bool.not_true, Bool.and_false, Bool.false_eq_true, if_false, if_true, hst]
  rw [List.getLast?_append]
  simp only [List.getLast?_singleton, Option.some_or, entry]
  have hk : headPos (some (Int.ofNat m.head)) (p - m.lo + 1) = some m.head := by
    have := h.head
    unfold headPos
    simp only [Int.ofNat_eq_natCast]
    rw [if_neg (by omega), if_pos (by subst hp; omega)]
    simp
  rw [if_neg (by rw [← hp]; simp [h.tree]), hk]
  simp only [List.dropLast_concat]
  obtain ⟨lo, hi, eid, etype, head, other⟩ := m
  simp only at hp ⊢
  subst hp
  rfl

theorem upd'_same (f : Str → List Entry) (k : Str) (v : List Entry) : loadChunk.upd' f k v k = v := by simp [loadChunk.upd']
theorem upd'_other (f : Str → List Entry) {k x : Str} (v : List Entry) (h : x ≠ k) : loadChunk.upd' f k v x = f x := by
  simp [loadChunk.upd', h]

theorem loadChunks_append (tree : Nat → Nat) (p : Nat) : ∀ (a b : List Str) (st : L), loadChunks tree p st (a ++ b) =
    (loadChunks tree p st a).bind (fun st' => loadChunks tree p st' b)
  | [], b, st => rfl
  | c :: a, b, st => by
    simp only [List.cons_append, loadChunks]
    cases loadChunk tree p st c with
    | none => rfl
    | some st' => exact loadChunks_append tree p a b st'

/-- The first part of a word: the mentions that end here leave the stacks, in the opposite order to that in which they came. -/
theorem load_A {tree : Nat → Nat} {n p : Nat} (K : Str → List Entry) : ∀ (A : List Ch) (D : List SM) (st : L),
    (∀ c ∈ A, c.noOp ∧ c.mention.Ok tree n) → cls A = D.reverse → (∀ m ∈ D, m.hi = p) → (∀ m ∈ sgs A, m.lo = p ∧ m.lo = m.hi) →
    (∀ e, st.stack e = K e ++ (D.filter (fun m => m.eid == e)).map entry) →
    ∃ st', loadChunks tree p st (A.map Ch.str) = some st' ∧ (∀ e, st'.stack e = K e) ∧ st'.done.Perm (st.done ++ D ++ sgs A)
  | [], D, st, _, hc, _, _, hst => by
    have hD : D = [] := by
      have : D.reverse = [] := hc.symm
      simpa using this
    subst hD
    exact ⟨st, rfl, by simpa using hst, by simp [sgs]⟩
  | .op m :: A, D, st, hA, _, _, _, _ => absurd (hA _ (List.mem_cons_self ..)).1 id
  | .sg m :: A, D, st, hA, hc, hD, hs, hst => by
    have hm : m.Ok tree n := (hA _ (List.mem_cons_self ..)).2
    have h1 := hs m (List.mem_cons_self ..)
    obtain ⟨st', e1, e2, e3⟩ := load_A K A D ⟨st.stack, st.done ++ [m]⟩ (fun c hc => hA c (List.mem_cons_of_mem _ hc)) hc hD
      (fun x hx => hs x (List.mem_cons_of_mem _ hx)) hst
    refine ⟨st', ?_, e2, e3.trans ?_⟩
    · simp only [List.map_cons, loadChunks, loadChunk_sg hm h1.1 h1.2]
      exact e1
    · show (st.done ++ [m] ++ D ++ sgs A).Perm (st.done ++ D ++ m :: sgs A)
      rw [List.append_assoc, List.append_assoc, List.append_assoc]
      apply List.Perm.append_left
      rw [List.singleton_append]
      exact List.perm_middle.symm
  | .cl m :: A, D, st, hA, hc, hD, hs, hst => by
    have hm : m.Ok tree n := (hA _ (List.mem_cons_self ..)).2
    have hrev : m :: cls A = D.reverse := hc
    have hDe : D = (cls A).reverse ++ [m] := by
      have := congrArg List.reverse hrev
      simpa using this.symm
    have hmD : m ∈ D := by rw [hDe]; simp
    have htop : st.stack m.eid = (K m.eid ++ ((cls A).reverse.filter (fun x => x.eid == m.eid)).map entry) ++ [entry m] := by
      rw [hst, hDe, List.filter_append]; simp
    obtain ⟨st', e1, e2, e3⟩ := load_A K A (cls A).reverse
      ⟨loadChunk.upd' st.stack m.eid (K m.eid ++ ((cls A).reverse.filter (fun x => x.eid == m.eid)).map entry), st.done ++ [m]⟩
      (fun c hc => hA c (List.mem_cons_of_mem _ hc)) (by simp) (fun x hx => hD x (by rw [hDe]; exact List.mem_append_left _ hx))
      hs
      (by
        intro e
        by_cases he : e = m.eid
        · subst he; exact upd'_same ..
        · show loadChunk.upd' _ _ _ e = _
          rw [upd'_other _ _ he, hst, hDe, List.filter_append]
          have : (m.eid == e) = false := by simpa using Ne.symm he
          simp [this])
    refine ⟨st', ?_, e2, e3.trans ?_⟩
    · simp only [List.map_cons, loadChunks, loadChunk_cl hm (hD m hmD) htop]
      exact e1
    · show (st.done ++ [m] ++ (cls A).reverse ++ sgs A).Perm (st.done ++ D ++ sgs A)
      rw [hDe]
      apply List.Perm.append_right
      rw [List.append_assoc, ]
      exact List.Perm.append_left _ List.perm_append_comm

/-- The second part of a word: the mentions that start here come to the stacks. -/
theorem load_R {tree : Nat → Nat} {n p : Nat} : ∀ (R : List Ch) (st : L),
    (∀ c ∈ R, c.noCl ∧ c.mention.Ok tree n) → (∀ m ∈ ops R, m.lo = p) → (∀ m ∈ sgs R, m.lo = p ∧ m.lo = m.hi) →
    ∃ st', loadChunks tree p st (R.map Ch.str) = some st' ∧
      (∀ e, st'.stack e = st.stack e ++ ((ops R).filter (fun m => m.eid == e)).map entry) ∧ st'.done = st.done ++ sgs R
  | [], st, _, _, _ => ⟨st, rfl, by simp [ops], by simp [sgs]⟩
  | .cl m :: R, st, hR, _, _ => absurd (hR _ (List.mem_cons_self ..)).1 id
  | .sg m :: R, st, hR, ho, hs => by
    have hm : m.Ok tree n := (hR _ (List.mem_cons_self ..)).2
    have h1 := hs m (List.mem_cons_self ..)
    obtain ⟨st', e1, e2, e3⟩ := load_R R ⟨st.stack, st.done ++ [m]⟩ (fun c hc => hR c (List.mem_cons_of_mem _ hc)) ho
      (fun x hx => hs x (List.mem_cons_of_mem _ hx))
    refine ⟨st', ?_, e2, ?_⟩
    · simp only [List.map_cons, loadChunks, loadChunk_sg hm h1.1 h1.2]
      exact e1
    · rw [e3]
      show st.done ++ [m] ++ sgs R = st.done ++ m :: sgs R
      simp
  | .op m :: R, st, hR, ho, hs => by
    have hm : m.Ok tree n := (hR _ (List.mem_cons_self ..)).2
    have h1 := ho m (List.mem_cons_self ..)
    obtain ⟨st', e1, e2, e3⟩ := load_R R ⟨loadChunk.upd' st.stack m.eid (st.stack m.eid ++ [entry m]), st.done⟩
      (fun c hc => hR c (List.mem_cons_of_mem _ hc)) (fun x hx => ho x (List.mem_cons_of_mem _ hx)) hs
    refine ⟨st', ?_, ?_, e3⟩
    · simp only [List.map_cons, loadChunks, loadChunk_op hm h1]
      exact e1
    · intro e
      rw [e2]
      show loadChunk.upd' st.stack m.eid (st.stack m.eid ++ [entry m]) e ++ _ = st.stack e ++ ((m :: ops R).filter (fun m => m.eid == e)).map entry
      by_cases he : e = m.eid
      · subst he; rw [upd'_same]; simp
      · have : (m.eid == e) = false := by simpa using Ne.symm he
        rw [upd'_other _ _ he]; simp [this]

/-! ## Proofs: the whole document -/

/-- If no element with `q` comes before one without it, filtering by `q` cuts the list in two. -/
theorem filter_cut {α : Type} {q : α → Bool} : ∀ {l : List α}, l.Pairwise (fun a b => q a = true → q b = true) →
    l = l.filter (fun a => !q a) ++ l.filter q
  | [], _ => rfl
  | a :: l, h => by
    rw [List.pairwise_cons] at h
    have ih := filter_cut h.2
    by_cases ha : q a = true
    · have hall : ∀ b ∈ l, q b = true := fun b hb => h.1 b hb ha
      have h1 : l.filter (fun a => !q a) = [] := by
        rw [List.filter_eq_nil_iff]; intro b hb; simp [hall b hb]
      have h2 : l.filter q = l := by rw [List.filter_eq_self]; exact hall
      simp [ha, h1, h2]
    · simp only [List.filter_cons, ha, Bool.false_eq_true, if_false]
      simp only [Bool.not_eq_true] at ha
      simp only [Bool.not_false, if_true, List.cons_append]
      rw [← ih]

/-- Filtering by two conditions that exclude each other. -/
theorem filter_or_perm {α : Type} {q r : α → Bool} : ∀ {l : List α}, (∀ m ∈ l, ¬ (q m = true ∧ r m = true)) →
    (l.filter q ++ l.filter r).Perm (l.filter (fun m => q m || r m)) := by
  intro l
  induction l with
  | nil => intro _; exact List.Perm.refl _
  | cons x l ih =>
    intro hx
    have ih := ih (fun m hm => hx m (List.mem_cons_of_mem _ hm))
    have hxx := hx x (List.mem_cons_self ..)
    cases hq : q x <;> cases hr : r x
    · simpa [hq, hr] using ih
    · simp only [List.filter_cons, hq, hr, Bool.false_or, if_true, Bool.false_eq_true, if_false]
      exact List.perm_middle.trans (ih.cons x)
    · simp only [List.filter_cons, hq, hr, Bool.true_or, if_true, Bool.false_eq_true, if_false]
      exact ih.cons x
    · exact absurd ⟨hq, hr⟩ hxx

theorem leSM_trans (a b c : SM) (h1 : leSM a b = true) (h2 : leSM b c = true) : leSM a c = true := by
  simp only [leSM, Bool.or_eq_true, decide_eq_true_eq, Bool.and_eq_true, beq_iff_eq, Bool.not_eq_true'] at *
  rcases h1 with h1 | ⟨e1, h1⟩
  · left; rcases h2 with h2 | ⟨e2, _⟩ <;> omega
  · rcases h2 with h2 | ⟨e2, h2⟩
    · left; omega
    · right
      refine ⟨by omega, ?_⟩
      rcases h1 with h1 | ⟨f1, h1⟩
      · left; rcases h2 with h2 | ⟨f2, _⟩ <;> omega
      · rcases h2 with h2 | ⟨f2, h2⟩
        · left; omega
        · right
          refine ⟨by omega, ?_⟩
          cases h : strLt c.eid a.eid with
          | false => rfl
          | true =>
            exfalso
            cases h3 : strLt b.eid c.eid with
            | true => rw [Coref.strLt_trans h3 h] at h1; cases h1
            | false =>
              have := Coref.strLt_total h3 h2
              rw [this, h] at h1; cases h1

theorem leSM_total (a b : SM) : leSM a b = true ∨ leSM b a = true := by
  simp only [leSM, Bool.or_eq_true, decide_eq_true_eq, Bool.and_eq_true, beq_iff_eq, Bool.not_eq_true']
  rcases Nat.lt_trichotomy a.lo b.lo with h | h | h
  · exact Or.inl (Or.inl h)
  · rcases Nat.lt_trichotomy a.hi b.hi with k | k | k
    · exact Or.inr (Or.inr ⟨h.symm, Or.inl k⟩)
    · cases hs : strLt b.eid a.eid with
      | false => exact Or.inl (Or.inr ⟨h, Or.inr ⟨k, rfl⟩⟩)
      | true =>
        refine Or.inr (Or.inr ⟨h.symm, Or.inr ⟨k.symm, ?_⟩⟩)
        cases h2 : strLt a.eid b.eid with
        | false => rfl
        | true =>
          have := Coref.strLt_trans hs h2
          rw [Coref.strLt_irrefl] at this; cases this
    · exact Or.inl (Or.inr ⟨h, Or.inl k⟩)
  · exact Or.inr (Or.inl h)

theorem leSM_lo {a b : SM} (h : leSM a b = true) : a.lo < b.lo ∨ (a.lo = b.lo ∧ b.hi ≤ a.hi) := by
  simp only [leSM, Bool.or_eq_true, decide_eq_true_eq, Bool.and_eq_true, beq_iff_eq] at h
  omega

/-- The mentions that are open before word `p`. -/
def openAt (S : List SM) (p : Nat) (e : Str) : List SM :=
  S.filter (fun m => m.eid == e && (decide (m.lo < p) && decide (p ≤ m.hi)))

theorem loadWord {tree : Nat → Nat} {n p : Nat} {S : List SM} (hok : ∀ m ∈ S, m.Ok tree n) (hsort : S.Pairwise (fun a b => leSM a b = true))
    (hcross : ∀ a ∈ S, ∀ b ∈ S, a.eid = b.eid → ¬ Crossing a b) {s : Str} {A R : List Ch} (hw : WordInv S p s A R) {st : L}
    (hst : ∀ e, st.stack e = (openAt S p e).map entry) (hd : st.done.Perm (S.filter (fun m => decide (m.hi < p)))) :
    ∃ st', loadChunks tree p st (chunks s) = some st' ∧ (∀ e, st'.stack e = (openAt S (p + 1) e).map entry) ∧
      st'.done.Perm (S.filter (fun m => decide (m.hi < p + 1))) := by
  have hok' : ∀ c ∈ A ++ R, c.mention.Ok tree n := fun c hc => hok _ (hw.mem c hc)
  have htxt : ∀ c ∈ A ++ R, c.Txt := by
    intro c hc
    have := hok' c hc
    cases c with
    | op m => exact txt_label this
    | cl m => exact txt_eid this
    | sg m => exact txt_label this
  have hchunks : chunks s = A.map Ch.str ++ R.map Ch.str := by
    rw [hw.str, chunks_render (fun c hc => ⟨htxt c (List.mem_append_left _ hc), hw.noOp c hc⟩)
      (fun c hc => ⟨htxt c (List.mem_append_right _ hc), hw.noCl c hc⟩), List.map_append]
  have hsg : ∀ m ∈ sgs (A ++ R), m.lo = p ∧ m.lo = m.hi := by
    intro m hm
    have := (List.mem_filter.1 (hw.sgs.mem_iff.1 hm)).2
    simp only [Bool.and_eq_true, beq_iff_eq] at this
    exact ⟨this.2, this.1⟩
  have hsgApp : sgs (A ++ R) = sgs A ++ sgs R := by simp [sgs]
  -- what ends here is at the top of the stacks
  have hcut : ∀ e, openAt S p e = S.filter (fun m => m.eid == e && (decide (m.lo < p) && decide (p < m.hi))) ++
      (S.filter (fun m => decide (m.lo < m.hi) && m.hi == p)).filter (fun m => m.eid == e) := by
    intro e
    have hp : (openAt S p e).Pairwise (fun a b => (a.hi == p) = true → (b.hi == p) = true) := by
      have hsub : (openAt S p e).Pairwise (fun a b => leSM a b = true) := hsort.sublist List.filter_sublist
      refine hsub.imp_of_mem ?_
      intro a b ha hb hab hap
      obtain ⟨ha1, ha2⟩ := List.mem_filter.1 ha
      obtain ⟨hb1, hb2⟩ := List.mem_filter.1 hb
      simp only [Bool.and_eq_true, beq_iff_eq, decide_eq_true_eq] at ha2 hb2 hap
      have hx := hcross a ha1 b hb1 (ha2.1.trans hb2.1.symm)
      unfold Crossing at hx
      have := leSM_lo hab
      simp only [beq_iff_eq]
      omega
    rw [filter_cut hp]
    unfold openAt
    rw [List.filter_filter, List.filter_filter, List.filter_filter]
    congr 1
    · apply List.filter_congr
      intro m _
      rw [Bool.eq_iff_iff]
      simp only [Bool.and_eq_true, beq_iff_eq, decide_eq_true_eq, Bool.not_eq_true', beq_eq_false_iff_ne]
      by_cases he : m.eid = e <;> simp only [he, true_and, false_and, and_false] <;> omega
    · apply List.filter_congr
      intro m _
      rw [Bool.eq_iff_iff]
      simp only [Bool.and_eq_true, beq_iff_eq, decide_eq_true_eq]
      by_cases he : m.eid = e <;> simp only [he, true_and, false_and, and_false] <;> omega
  obtain ⟨st1, a1, a2, a3⟩ := load_A (tree := tree) (n := n) (p := p)
    (fun e => (S.filter (fun m => m.eid == e && (decide (m.lo < p) && decide (p < m.hi)))).map entry) A
    (S.filter (fun m => decide (m.lo < m.hi) && m.hi == p)) st
    (fun c hc => ⟨hw.noOp c hc, hok' c (List.mem_append_left _ hc)⟩) hw.cls
    (by intro m hm; have := (List.mem_filter.1 hm).2; simp only [Bool.and_eq_true, beq_iff_eq] at this; exact this.2)
    (fun m hm => hsg m (by rw [hsgApp]; exact List.mem_append_left _ hm))
    (by intro e; rw [hst, hcut, List.map_append])
  obtain ⟨st2, b1, b2, b3⟩ := load_R (tree := tree) (n := n) (p := p) R st1
    (fun c hc => ⟨hw.noCl c hc, hok' c (List.mem_append_right _ hc)⟩)
    (by intro m hm; rw [hw.ops] at hm; have := (List.mem_filter.1 hm).2; simp only [Bool.and_eq_true, beq_iff_eq] at this; exact this.2)
    (fun m hm => hsg m (by rw [hsgApp]; exact List.mem_append_right _ hm))
  refine ⟨st2, ?_, ?_, ?_⟩
  · rw [hchunks, loadChunks_append, a1]
    exact b1
  · intro e
    rw [b2, a2, hw.ops, ← List.map_append]
    congr 1
    have hp : (openAt S (p + 1) e).Pairwise (fun a b => (a.lo == p) = true → (b.lo == p) = true) := by
      have hsub : (openAt S (p + 1) e).Pairwise (fun a b => leSM a b = true) := hsort.sublist List.filter_sublist
      refine hsub.imp_of_mem ?_
      intro a b ha hb hab hap
      have hb2 := (List.mem_filter.1 hb).2
      simp only [Bool.and_eq_true, beq_iff_eq, decide_eq_true_eq] at hb2 hap ⊢
      have := leSM_lo hab
      omega
    rw [filter_cut hp]
    unfold openAt
    rw [List.filter_filter, List.filter_filter, List.filter_filter]
    congr 1
    · apply List.filter_congr
      intro m _
      rw [Bool.eq_iff_iff]
      simp only [Bool.and_eq_true, beq_iff_eq, decide_eq_true_eq, Bool.not_eq_true', beq_eq_false_iff_ne]
      by_cases he : m.eid = e <;> simp only [he, true_and, false_and, and_false] <;> omega
    · apply List.filter_congr
      intro m _
      rw [Bool.eq_iff_iff]
      simp only [Bool.and_eq_true, beq_iff_eq, decide_eq_true_eq]
      by_cases he : m.eid = e <;> simp only [he, true_and, false_and, and_false] <;> omega
  · rw [b3]
    refine (a3.append_right (sgs R)).trans ?_
    rw [List.append_assoc _ (sgs A), ← hsgApp, List.append_assoc]
    refine ((hd.append (List.Perm.append_left _ hw.sgs))).trans ?_
    -- count the mentions that end before `p + 1`
    have hfp := fun q r l => filter_or_perm (α := SM) (q := q) (r := r) (l := l)
    refine (List.Perm.append_left _ (hfp _ _ S (by
      intro m hm; simp only [Bool.and_eq_true, beq_iff_eq, decide_eq_true_eq]; omega))).trans ?_
    refine (hfp _ _ S (by
      intro m hm
      simp only [Bool.and_eq_true, beq_iff_eq, decide_eq_true_eq, Bool.or_eq_true]
      omega)).trans ?_
    have : S.filter (fun m => decide (m.hi < p) || (decide (m.lo < m.hi) && m.hi == p || m.lo == m.hi && m.lo == p)) =
        S.filter (fun m => decide (m.hi < p + 1)) := by
      apply List.filter_congr
      intro m hm
      have := (hok m hm).le
      rw [Bool.eq_iff_iff]
      simp only [Bool.and_eq_true, beq_iff_eq, decide_eq_true_eq, Bool.or_eq_true]
      omega
    rw [this]

theorem loadWords_inv {tree : Nat → Nat} {n : Nat} {S : List SM} (hok : ∀ m ∈ S, m.Ok tree n)
    (hsort : S.Pairwise (fun a b => leSM a b = true))
    (hcross : ∀ a ∈ S, ∀ b ∈ S, a.eid = b.eid → ¬ Crossing a b) {f : Nat → Str} (hw : ∀ p, ∃ A R, WordInv S p (f p) A R) :
    ∀ (k p : Nat) (st : L), (∀ e, st.stack e = (openAt S p e).map entry) → st.done.Perm (S.filter (fun m => decide (m.hi < p))) →
    ∃ st', loadWords tree f p k st = some st' ∧ st'.done.Perm (S.filter (fun m => decide (m.hi < p + k)))
  | 0, p, st, _, hd => ⟨st, rfl, hd⟩
  | k + 1, p, st, hst, hd => by
    obtain ⟨A, R, h⟩ := hw p
    obtain ⟨st1, e1, e2, e3⟩ := loadWord hok hsort hcross h hst hd
    obtain ⟨st2, g1, g2⟩ := loadWords_inv hok hsort hcross hw k (p + 1) st1 e2 e3
    refine ⟨st2, ?_, by rw [show p + (k + 1) = p + 1 + k by omega]; exact g2⟩
    unfold loadWords
    rw [e1]
    exact g1

/-- C38: continuous mentions of any nesting, crossing mentions of different entities included, are read back as they were
written, with their spans, ids, types, heads and other attributes, if mentions of the same entity do not cross each other. -/
theorem C38_roundtrip_partial {tree : Nat → Nat} {n : Nat} {ms : List SM} (hok : ∀ m ∈ ms, m.Ok tree n)
    (hcross : ∀ a ∈ ms, ∀ b ∈ ms, a.eid = b.eid → ¬ Crossing a b) :
    ∃ l, load tree (store ms) n = some l ∧ l.Perm ms := by
  have hperm := pySort_perm leSM ms
  have hsort := pySort_pairwise leSM_trans leSM_total ms
  have hok' : ∀ m ∈ pySort leSM ms, m.Ok tree n := fun m hm => hok m (hperm.mem_iff.1 hm)
  have hcross' : ∀ a ∈ pySort leSM ms, ∀ b ∈ pySort leSM ms, a.eid = b.eid → ¬ Crossing a b :=
    fun a ha b hb => hcross a (hperm.mem_iff.1 ha) b (hperm.mem_iff.1 hb)
  have hw : ∀ p, ∃ A R, WordInv (pySort leSM ms) p (store ms p) A R := by
    have := store_inv (P := []) (f := fun _ => []) (fun m hm => (hok' m hm).le) (by
      intro p
      exact ⟨[], [], rfl, by simp, by simp, by simp, rfl, rfl, List.Perm.refl _⟩)
    simpa [store] using this
  obtain ⟨st, e1, e2⟩ := loadWords_inv hok' hsort hcross' hw n 0 ⟨fun _ => [], []⟩ (by simp [openAt]) (by simp)
  refine ⟨st.done, ?_, ?_⟩
  · unfold load; rw [e1]; rfl
  · refine e2.trans ?_
    have : (pySort leSM ms).filter (fun m => decide (m.hi < 0 + n)) = pySort leSM ms := by
      rw [List.filter_eq_self]
      intro m hm
      simpa using (hok' m hm).bound
    rw [this]
    exact hperm

/-- Nested mentions of one entity, mentions that start or end at one word, single words, and crossing mentions of different
entities. -/
example : let m (lo hi : Nat) (e : Char) (h : Nat) : SM := ⟨lo, hi, [e], ['t'], h, []⟩
    let ms := [m 0 5 'a' 2, m 0 5 'b' 1, m 0 3 'a' 1, m 3 3 'c' 1, m 3 3 'a' 1, m 3 8 'd' 1, m 2 6 'e' 5, m 8 8 'a' 1]
    (∀ x ∈ ms, ∀ y ∈ ms, x.eid = y.eid → ¬ Crossing x y) ∧ (load (fun _ => 0) (store ms) 10).map List.length = some 8 := by
  decide +kernel

theorem loadWords_add (tree : Nat → Nat) (f : Nat → Str) : ∀ (j p k : Nat) (st : L),
    loadWords tree f p (j + k) st = (loadWords tree f p j st).bind (loadWords tree f (p + j) k)
  | 0, p, k, st => by simp [loadWords]
  | j + 1, p, k, st => by
    rw [show j + 1 + k = (j + k) + 1 by omega]
    simp only [loadWords]
    cases loadChunks tree p st (chunks (f p)) with
    | none => rfl
    | some st' =>
      show loadWords tree f (p + 1) (j + k) st' = (loadWords tree f (p + 1) j st').bind _
      rw [loadWords_add tree f j (p + 1) k st', show p + 1 + j = p + (j + 1) by omega]

theorem loadWords_skip (tree : Nat → Nat) (f : Nat → Str) : ∀ (k p : Nat) (st : L), (∀ q, p ≤ q → q < p + k → f q = []) →
    loadWords tree f p k st = some st
  | 0, _, _, _ => rfl
  | k + 1, p, st, h => by
    have h0 := h p (Nat.le_refl _) (by omega)
    have : chunks [] = [] := by unfold chunks chunksAux; rfl
    simp only [loadWords, h0, this, loadChunks]
    exact loadWords_skip tree f k (p + 1) st (fun q h1 h2 => h q (by omega) (by omega))

/-- Skip to word `q` and read its only chunk. -/
theorem loadWords_to (tree : Nat → Nat) (f : Nat → Str) {p q n : Nat} {st : L} (hpq : p ≤ q) (hqn : q < n) {c : Ch} (hc : c.Txt)
    (hf : f q = c.str) (hskip : ∀ r, p ≤ r → r < q → f r = []) :
    loadWords tree f p (n - p) st = (loadChunk tree q st c.str).bind (loadWords tree f (q + 1) (n - (q + 1))) := by
  have hch : chunks c.str = [c.str] := by
    have hr : render [c] = c.str := by simp [render]
    cases c with
    | op m => have := chunks_render (A := []) (R := [Ch.op m]) (by simp) (by simpa [Ch.noCl] using hc); rw [List.nil_append, hr] at this; simpa using this
    | cl m => have := chunks_render (A := [Ch.cl m]) (R := []) (by simpa [Ch.noOp] using hc) (by simp); rw [List.append_nil, hr] at this; simpa using this
    | sg m => have := chunks_render (A := [Ch.sg m]) (R := []) (by simpa [Ch.noOp] using hc) (by simp); rw [List.append_nil, hr] at this; simpa using this
  rw [show n - p = (q - p) + ((n - (q + 1)) + 1) by omega, loadWords_add, loadWords_skip tree f (q - p) p st
    (fun r h1 h2 => hskip r h1 (by omega)), show p + (q - p) = q by omega]
  show loadWords tree f q (n - (q + 1) + 1) st = _
  simp only [loadWords, hf, hch, loadChunks]
  cases loadChunk tree q st c.str <;> rfl

/-- C38, violated: two crossing mentions of one entity are never read back. The brackets exchange their ends. -/
theorem C38_crossing_violated {tree : Nat → Nat} {n : Nat} {a b : SM} (ha : a.Ok tree n) (hb : b.Ok tree n) (he : a.eid = b.eid)
    (hx : Crossing a b) : ¬ ∃ l, load tree (store [a, b]) n = some l ∧ l.Perm [a, b] := by
  obtain ⟨h1, h2, h3⟩ := hx
  have hsort : pySort leSM [a, b] = [a, b] := by
    have : leSM a b = true := by simp [leSM, h1]
    simp [pySort, insertBy, this]
  have hf : store [a, b] = upd (upd (upd (upd (fun _ => []) a.lo ('(' :: a.label)) a.hi (a.eid ++ [')'])) b.lo ('(' :: b.label))
      b.hi (b.eid ++ [')']) := by
    unfold store
    rw [hsort]
    simp only [List.foldl_cons, List.foldl_nil]
    unfold storeOne
    rw [if_neg (by omega), if_neg (by omega)]
    simp only
    rw [upd_other _ _ (show a.hi ≠ a.lo by omega), upd_other _ _ (show b.lo ≠ a.hi by omega),
      upd_other _ _ (show b.lo ≠ a.lo by omega), upd_other _ _ (show b.hi ≠ b.lo by omega),
      upd_other _ _ (show b.hi ≠ a.hi by omega), upd_other _ _ (show b.hi ≠ a.lo by omega)]
    rfl
  generalize hfe : store [a, b] = f at hf
  have f1 : f a.lo = (Ch.op a).str := by
    rw [hf, upd_other _ _ (by omega), upd_other _ _ (by omega), upd_other _ _ (by omega), upd_same]; rfl
  have f2 : f b.lo = (Ch.op b).str := by rw [hf, upd_other _ _ (by omega), upd_same]; rfl
  have f3 : f a.hi = (Ch.cl a).str := by rw [hf, upd_other _ _ (by omega), upd_other _ _ (by omega), upd_same]; rfl
  have f4 : f b.hi = (Ch.cl b).str := by rw [hf, upd_same]; rfl
  have f0 : ∀ q, q ≠ a.lo → q ≠ b.lo → q ≠ a.hi → q ≠ b.hi → f q = [] := by
    intro q q1 q2 q3 q4
    rw [hf, upd_other _ _ q4, upd_other _ _ q2, upd_other _ _ q3, upd_other _ _ q1]
  have hbn := hb.bound
  rintro ⟨l, hl, hperm⟩
  unfold load at hl
  rw [show loadWords tree f 0 n = loadWords tree f 0 (n - 0) from rfl,
    loadWords_to tree f (Nat.zero_le a.lo) (by omega) (show (Ch.op a).Txt from txt_label ha) f1 (fun r _ _ => f0 r (by omega) (by omega) (by omega) (by omega)),
    loadChunk_op ha rfl, Option.bind_some,
    loadWords_to tree f (show a.lo + 1 ≤ b.lo by omega) (by omega) (show (Ch.op b).Txt from txt_label hb) f2
      (fun r _ _ => f0 r (by omega) (by omega) (by omega) (by omega)),
    loadChunk_op hb rfl, Option.bind_some,
    loadWords_to tree f (show b.lo + 1 ≤ a.hi by omega) (by omega) (show (Ch.cl a).Txt from txt_eid ha) f3
      (fun r _ _ => f0 r (by omega) (by omega) (by omega) (by omega))] at hl
  -- the bracket that closes `a` takes the mention that was opened last
  generalize hst : (L.mk _ _ : L) = st at hl
  have hstack : st.stack a.eid = [entry a] ++ [entry b] := by
    rw [← hst]
    show loadChunk.upd' _ b.eid _ a.eid = _
    rw [he, upd'_same]
    show loadChunk.upd' _ b.eid _ b.eid ++ _ = _
    rw [upd'_same]
    rfl
  have hdone : st.done = [] := by rw [← hst]
  cases hc : loadChunk tree a.hi st (Ch.cl a).str with
  | none => rw [hc] at hl; simp at hl
  | some st3 =>
    rw [hc] at hl
    -- the first mention that is complete starts where `b` does and ends where `a` does
    have hd3 : ∃ k et o, st3.done = [⟨b.lo, a.hi, a.eid, et, k, o⟩] := by
      have ht := txt_eid ha
      have e1 : ((a.eid ++ [')']).getLast? == some ')') = true := by rw [List.getLast?_append]; simp
      have e2 : ((a.eid ++ [')']).head? == some '(') = false := by
        have := head_txt ht
        cases hx : a.eid with
        | nil => exact absurd hx ha.ne
        | cons a t => rw [hx] at this; simpa using this
      have e3 : stripParens (a.eid ++ [')']) = a.eid := by simpa using strip_txt ht false true
      unfold loadChunk at hc
      simp only [Ch.str, e1, e2, e3, Bool.not_false, Bool.not_true, Bool.and_false, Bool.false_eq_true, if_false, if_true, hstack] at hc
      rw [List.getLast?_append] at hc
      simp only [List.getLast?_singleton, Option.some_or, entry] at hc
      split at hc
      · cases hc
      · split at hc
        · cases hc
        · cases hc
          exact ⟨_, _, _, by rw [hdone]; rfl⟩
    obtain ⟨k, et, o, hd3⟩ := hd3
    have hmono : ∀ (q j : Nat) (s s' : L), loadWords tree f q j s = some s' → ∀ m ∈ s.done, m ∈ s'.done := by
      intro q j
      have hch : ∀ (q : Nat) (c : Str) (s s' : L), loadChunk tree q s c = some s' → ∀ m ∈ s.done, m ∈ s'.done := by
        intro q c s s' h m hm
        unfold loadChunk at h
        simp only at h
        repeat' split at h
        all_goals first
          | cases h; done
          | (cases h; exact hm)
          | (cases h; exact List.mem_append_left _ hm)
      have hchs : ∀ (q : Nat) (cs : List Str) (s s' : L), loadChunks tree q s cs = some s' → ∀ m ∈ s.done, m ∈ s'.done := by
        intro q cs
        induction cs with
        | nil => intro s s' h; cases h; exact fun m hm => hm
        | cons c cs ih =>
          intro s s' h m hm
          unfold loadChunks at h
          split at h
          · cases h
          · rename_i s1 h1
            exact ih s1 s' h m (hch q c s s1 h1 m hm)
      induction j generalizing q with
      | zero => intro s s' h; cases h; exact fun m hm => hm
      | succ j ih =>
        intro s s' h m hm
        unfold loadWords at h
        split at h
        · cases h
        · rename_i s1 h1
          exact ih (q + 1) s1 s' h m (hchs q _ s s1 h1 m hm)
    simp only [Option.bind_some, Option.map_eq_some_iff] at hl
    obtain ⟨s', hs', rfl⟩ := hl
    have hin := hmono _ _ _ _ hs' _ (by rw [hd3]; exact List.mem_singleton.2 rfl)
    have := hperm.mem_iff.1 hin
    simp only [List.mem_cons, List.not_mem_nil, or_false] at this
    rcases this with h | h
    · have := congrArg SM.lo h; simp only at this; omega
    · have := congrArg SM.hi h; simp only at this; omega

end Verif.Coref.Store
