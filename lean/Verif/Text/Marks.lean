import Verif.Text.GoogleMerge

/-!
# Properties C221 and C222: punctuation glued to words, and dots of ordinal numbers

Sources: `udapi/block/ud/es/fixexclamation.py:8-48` (C221) and `udapi/block/ud/de/fixgsd.py:10-52` (C222). A sentence is a list of words; its text (`compute_text`, core/node.py:840-872,
before the last space is stripped) writes the forms one after another with a space unless the word says `SpaceAfter=No`. Multiword tokens are not modelled: all words are tokens of
their own. `\w` and `\d` are parameters. Forms contain no line break, before which `$` would also match. Feats other than those named, the mark in MISC and the attachment of the new
words are not modelled; what becomes of the children of a dot in de.FixGSD is in `dotTree`.
-/

namespace Verif.Text.Marks
open Verif.Py

/-- A word of C221. `sa` is the value of `SpaceAfter` in MISC, empty if there is none. -/
structure W where
  form : Str
  lemma : Str
  upos : Str
  deprel : Str
  sa : Str
deriving DecidableEq

def no : Str := ['N', 'o']
def punctTag : Str := ['P', 'U', 'N', 'C', 'T']
def punctRel : Str := ['p', 'u', 'n', 'c', 't']

def ex (c : Char) : Bool := c == '¡' || c == '!'

/-- `^[¡!]\w` (line 18) -/
def ini (w : Char → Bool) : Str → Bool
  | c :: d :: _ => ex c && w d
  | _ => false

/-- `\w[¡!]$` (line 33) -/
def fin (w : Char → Bool) (f : Str) : Bool := ini w f.reverse

def mark (f sa : Str) : W := ⟨f, f, punctTag, punctRel, sa⟩

/-- Lines 18-32: the words before the word, and the word. -/
def first (w : Char → Bool) (x : W) : List W × W :=
  if ini w x.form then ([mark (x.form.take 1) no], { x with form := x.form.drop 1 }) else ([], x)

/-- Lines 33-48: the word, and the words after it. -/
def second (w : Char → Bool) (x : W) : W × List W :=
  if fin w x.form then ({ x with form := x.form.dropLast, sa := no }, [mark (x.form.drop (x.form.length - 1)) x.sa]) else (x, [])

/-- `process_node`: the words in the place of one word. The new words stand directly before and after it. -/
def split (w : Char → Bool) (x : W) : List W :=
  (first w x).1 ++ (second w (first w x).2).1 :: (second w (first w x).2).2

/-- The block: it visits the words that were there before. -/
def run (w : Char → Bool) (ws : List W) : List W := ws.flatMap (split w)

def wordText (x : W) : Str := x.form ++ if x.sa = no then [] else [' ']
def text (ws : List W) : Str := ws.flatMap wordText

theorem split_text (w : Char → Bool) (x : W) : text (split w x) = wordText x := by
  obtain ⟨form, l, u, d, sa⟩ := x
  have hsec : ∀ y : W, text ((second w y).1 :: (second w y).2) = wordText y := by
    intro y
    unfold second
    by_cases h : fin w y.form = true
    · rw [if_pos h]
      have hne : y.form ≠ [] := by intro e; rw [e] at h; simp [fin, ini] at h
      simp only [text, List.flatMap_cons, List.flatMap_nil, wordText, mark, if_true, List.append_nil]
      rw [← List.append_assoc]
      congr 1
      rw [List.dropLast_eq_take]
      exact List.take_append_drop _ _
    · rw [if_neg h]
      simp [text]
  unfold split
  have happ : ∀ a b, text (a ++ b) = text a ++ text b := fun a b => by simp [text]
  rw [happ, hsec]
  unfold first
  by_cases h : ini w form = true
  · simp only [h, if_true, text, List.flatMap_cons, List.flatMap_nil, wordText, mark, List.append_nil]
    rw [← List.append_assoc]
    congr 1
    exact List.take_append_drop 1 form
  · simp only [h, Bool.false_eq_true, if_false, text, List.flatMap_nil, List.nil_append]

/-- The text of the sentence stays the same. -/
theorem C221_text (w : Char → Bool) (ws : List W) : text (run w ws) = text ws := by
  unfold run
  induction ws with
  | nil => rfl
  | cons x xs ih =>
    have happ : ∀ a b, text (a ++ b) = text a ++ text b := fun a b => by simp [text]
    rw [List.flatMap_cons, happ, ih, split_text]
    simp [text]

theorem ini_mark {w : Char → Bool} {f : Str} (h : f.length ≤ 1) : ini w f = false := by
  cases f with
  | nil => rfl
  | cons a as => cases as with
    | nil => rfl
    | cons b bs => simp at h

theorem fin_mark {w : Char → Bool} {f : Str} (h : f.length ≤ 1) : fin w f = false := ini_mark (by rw [List.length_reverse]; exact h)

theorem first_ini {w : Char → Bool} (hw : ∀ c, ex c = true → w c = false) (x : W) : ini w (first w x).2.form = false := by
  unfold first
  by_cases h : ini w x.form = true
  · rw [if_pos h]
    rcases hf : x.form with _ | ⟨c, _ | ⟨d, r⟩⟩
    · rw [hf] at h; simp [ini] at h
    · rw [hf] at h; simp [ini] at h
    · rw [hf] at h
      simp only [ini, Bool.and_eq_true] at h
      show ini w (d :: r) = false
      cases r with
      | nil => rfl
      | cons e r =>
        simp only [ini, Bool.and_eq_false_iff]
        left
        cases hd : ex d with
        | false => rfl
        | true => rw [hw d hd] at h; exact absurd h.2 (by simp)
  · rw [if_neg h]; simpa using h

theorem ini_take {w : Char → Bool} {f : Str} (n : Nat) (h : ini w f = false) : ini w (f.take n) = false := by
  rcases f with _ | ⟨c, _ | ⟨d, r⟩⟩
  · simp [ini]
  · exact ini_mark (by simp; omega)
  · rcases n with _ | _ | n
    · rfl
    · rfl
    · simpa [ini] using h

theorem second_ini {w : Char → Bool} {x : W} (h : ini w x.form = false) : ini w (second w x).1.form = false := by
  unfold second
  split
  · show ini w x.form.dropLast = false
    rw [List.dropLast_eq_take]
    exact ini_take _ h
  · exact h

theorem second_fin {w : Char → Bool} (hw : ∀ c, ex c = true → w c = false) (x : W) : fin w (second w x).1.form = false := by
  unfold second
  by_cases h : fin w x.form = true
  · rw [if_pos h]
    show ini w x.form.dropLast.reverse = false
    have e : x.form.dropLast.reverse = x.form.reverse.tail := by rw [List.tail_reverse]
    rw [e]
    unfold fin at h
    have := first_ini hw ⟨x.form.reverse, [], [], [], []⟩
    unfold first at this
    rw [if_pos h] at this
    rw [← List.drop_one]
    exact this
  · rw [if_neg h]; simpa using h

/-- Afterwards no word has an exclamation mark glued to it. -/
theorem C221_none_left (w : Char → Bool) (hw : ∀ c, ex c = true → w c = false) (ws : List W) : ∀ x ∈ run w ws, ini w x.form = false ∧ fin w x.form = false := by
  intro x hx
  obtain ⟨y, _, hy⟩ := List.mem_flatMap.mp hx
  unfold split at hy
  rw [List.mem_append, List.mem_cons] at hy
  rcases hy with h | h | h
  · unfold first at h
    split at h
    · rw [List.mem_singleton] at h
      subst h
      have : (mark (y.form.take 1) no).form.length ≤ 1 := by simp [mark]; omega
      exact ⟨ini_mark this, fin_mark this⟩
    · cases h
  · subst h
    exact ⟨second_ini (first_ini hw y), second_fin hw _⟩
  · unfold second at h
    split at h
    · rw [List.mem_singleton] at h
      subst h
      have : (mark ((first w y).2.form.drop ((first w y).2.form.length - 1)) (first w y).2.sa).form.length ≤ 1 := by simp [mark]; omega
      exact ⟨ini_mark this, fin_mark this⟩
    · cases h

/-- A second run changes nothing. -/
theorem C221_twice (w : Char → Bool) (hw : ∀ c, ex c = true → w c = false) (ws : List W) : run w (run w ws) = run w ws := by
  have key : ∀ l : List W, (∀ x ∈ l, ini w x.form = false ∧ fin w x.form = false) → run w l = l := by
    intro l
    induction l with
    | nil => intro _; rfl
    | cons x xs ih =>
      intro h
      have hx := h x (List.mem_cons_self ..)
      unfold run at ih ⊢
      rw [List.flatMap_cons, ih fun y hy => h y (List.mem_cons_of_mem _ hy)]
      simp [split, first, second, hx.1, hx.2]
  exact key _ (C221_none_left w hw ws)

/-- What is cut off: a word becomes itself with a shorter form, and the words around it are single exclamation marks with lemma and tags of punctuation, at most one on each side; the last of them
takes over `SpaceAfter`. -/
theorem C221_words (w : Char → Bool) (x : W) : ∃ pre post y, split w x = pre ++ y :: post ∧ pre.flatMap W.form ++ y.form ++ post.flatMap W.form = x.form ∧
    y.lemma = x.lemma ∧ y.upos = x.upos ∧ y.deprel = x.deprel ∧ pre.length ≤ 1 ∧ post.length ≤ 1 ∧
    (∀ m ∈ pre ++ post, (m.form = ['¡'] ∨ m.form = ['!']) ∧ m.lemma = m.form ∧ m.upos = punctTag ∧ m.deprel = punctRel) ∧ (∀ m ∈ pre, m.sa = no) ∧
    (∀ m ∈ post, m.sa = x.sa ∧ y.sa = no) ∧ (post = [] → y.sa = x.sa) := by
  have hex : ∀ c, ex c = true → [c] = ['¡'] ∨ [c] = ['!'] := by
    intro c h
    simp only [ex, Bool.or_eq_true, beq_iff_eq] at h
    rcases h with rfl | rfl
    · exact Or.inl rfl
    · exact Or.inr rfl
  have hfst : (∀ m ∈ (first w x).1, (m.form = ['¡'] ∨ m.form = ['!']) ∧ m.lemma = m.form ∧ m.upos = punctTag ∧ m.deprel = punctRel ∧ m.sa = no) ∧ (first w x).1.length ≤ 1 ∧
      (first w x).1.flatMap W.form ++ (first w x).2.form = x.form ∧ (first w x).2.lemma = x.lemma ∧ (first w x).2.upos = x.upos ∧ (first w x).2.deprel = x.deprel ∧
      (first w x).2.sa = x.sa := by
    unfold first
    by_cases h : ini w x.form = true
    · rw [if_pos h]
      rcases hf : x.form with _ | ⟨c, _ | ⟨d, r⟩⟩
      · rw [hf] at h; simp [ini] at h
      · rw [hf] at h; simp [ini] at h
      · rw [hf] at h
        simp only [ini, Bool.and_eq_true] at h
        refine ⟨?_, by simp, by simp [mark], rfl, rfl, rfl, rfl⟩
        intro m hm
        simp only [List.mem_singleton] at hm
        subst hm
        exact ⟨hex c h.1, rfl, rfl, rfl, rfl⟩
    · rw [if_neg h]
      simp
  have hsnd : ∀ z : W, (∀ m ∈ (second w z).2, (m.form = ['¡'] ∨ m.form = ['!']) ∧ m.lemma = m.form ∧ m.upos = punctTag ∧ m.deprel = punctRel ∧ m.sa = z.sa ∧ (second w z).1.sa = no) ∧
      (second w z).2.length ≤ 1 ∧ (second w z).1.form ++ (second w z).2.flatMap W.form = z.form ∧ (second w z).1.lemma = z.lemma ∧ (second w z).1.upos = z.upos ∧
      (second w z).1.deprel = z.deprel ∧ ((second w z).2 = [] → (second w z).1.sa = z.sa) := by
    intro z
    unfold second
    by_cases h : fin w z.form = true
    · rw [if_pos h]
      have hne : z.form ≠ [] := by intro e; rw [e] at h; simp [fin, ini] at h
      have hl : z.form.drop (z.form.length - 1) = [z.form.getLast hne] := by
        have e1 := List.take_append_drop (z.form.length - 1) z.form
        rw [← List.dropLast_eq_take] at e1
        exact List.append_cancel_left (e1.trans (List.dropLast_concat_getLast hne).symm)
      have hc : ex (z.form.getLast hne) = true := by
        have hr : z.form.reverse = z.form.getLast hne :: z.form.dropLast.reverse := by
          conv => lhs; rw [← List.dropLast_concat_getLast hne]
          simp
        unfold fin at h
        rw [hr] at h
        cases hd : z.form.dropLast.reverse with
        | nil => rw [hd] at h; simp [ini] at h
        | cons d r => rw [hd] at h; simp only [ini, Bool.and_eq_true] at h; exact h.1
      refine ⟨?_, by simp, ?_, rfl, rfl, rfl, by simp⟩
      · intro m hm
        simp only [List.mem_singleton] at hm
        subst hm
        refine ⟨?_, rfl, rfl, rfl, rfl, rfl⟩
        show z.form.drop (z.form.length - 1) = _ ∨ z.form.drop (z.form.length - 1) = _
        rw [hl]
        exact hex _ hc
      · show z.form.dropLast ++ [mark _ _].flatMap W.form = z.form
        simp only [List.flatMap_cons, List.flatMap_nil, mark, List.append_nil]
        rw [hl]
        exact List.dropLast_concat_getLast hne
    · rw [if_neg h]
      simp
  obtain ⟨a1, a2, a3, a4, a5, a6, a7⟩ := hfst
  obtain ⟨b1, b2, b3, b4, b5, b6, b7⟩ := hsnd (first w x).2
  refine ⟨_, _, _, rfl, ?_, b4.trans a4, b5.trans a5, b6.trans a6, a2, b2, ?_, fun m hm => (a1 m hm).2.2.2.2, fun m hm => ?_, fun e => (b7 e).trans a7⟩
  · rw [List.append_assoc, b3, a3]
  · intro m hm
    rcases List.mem_append.mp hm with g | g
    · have := a1 m g; exact ⟨this.1, this.2.1, this.2.2.1, this.2.2.2.1⟩
    · have := b1 m g; exact ⟨this.1, this.2.1, this.2.2.1, this.2.2.2.1⟩
  · have := b1 m hm
    exact ⟨this.2.2.2.2.1.trans a7, this.2.2.2.2.2⟩

def exW : List W := [⟨['¡', 'H', 'o', 'l', 'a', '!'], ['h'], ['X'], ['r'], []⟩, ⟨['!', '!'], ['!'], ['P'], ['p'], no⟩]
def isW (c : Char) : Bool := c.isAlphanum

example : (run isW exW).map W.form = [['¡'], ['H', 'o', 'l', 'a'], ['!'], ['!', '!']] ∧ (run isW exW).map W.sa = [no, no, [], no] := by decide
example : text (run isW exW) = ['¡', 'H', 'o', 'l', 'a', '!', ' ', '!', '!'] := by decide

/-! ## de.FixGSD -/

/-- A word of C222. `ord` says that Feats are exactly `NumType=Ord`. -/
structure G where
  form : Str
  lemma : Str
  adj : Bool      -- UPOS is ADJ and XPOS is ADJA
  ord : Bool
  num : Bool      -- the universal relation is nummod
  no : Bool       -- SpaceAfter=No
deriving DecidableEq

def gText (g : G) : Str := g.form ++ if g.no then [] else [' ']
def gtext (gs : List G) : Str := gs.flatMap gText

/-- `^\d+$` -/
def digits (d : Char → Bool) (f : Str) : Bool := !f.isEmpty && f.all d

/-- `^\d+\.$` -/
def ordinal (d : Char → Bool) (f : Str) : Bool := digits d f.dropLast && f.getLast? == some '.'

/-- Lines 25-34: the number with the dot. -/
def join (n p : G) : G := ⟨n.form ++ ['.'], n.form ++ ['.'], true, true, false, p.no⟩

/-- Lines 37-43; the number words of lines 47-55, whose lemmas are no ordinal numbers in digits, are the parameter `verbal`, which changes no form. -/
def tag (d : Char → Bool) (verbal : G → G) (g : G) : G :=
  if ordinal d g.form then { g with lemma := g.form, adj := true, ord := true, num := false } else { verbal g with form := g.form, no := g.no }

/-- The loop over the words from left to right: `acc` are the words to the left, from the last one on. A deleted dot is not looked at any more. -/
def go (d : Char → Bool) (verbal : G → G) : List G → List G → List G
  | acc, [] => acc.reverse
  | [], w :: r => go d verbal [tag d verbal w] r
  | n :: acc, w :: r =>
    if w.form = ['.'] ∧ r ≠ [] ∧ digits d n.form = true ∧ n.no = true then go d verbal (join n w :: acc) r
    else go d verbal (tag d verbal w :: n :: acc) r

def gsd (d : Char → Bool) (verbal : G → G) (gs : List G) : List G := go d verbal [] gs

theorem tag_text (d : Char → Bool) (verbal : G → G) (g : G) : (tag d verbal g).form = g.form ∧ (tag d verbal g).no = g.no := by
  unfold tag; split <;> exact ⟨rfl, rfl⟩

/-- The text of the sentence stays the same. -/
theorem C222_text (d : Char → Bool) (verbal : G → G) (gs : List G) : gtext (gsd d verbal gs) = gtext gs := by
  have key : ∀ gs acc, gtext (go d verbal acc gs) = gtext acc.reverse ++ gtext gs := by
    intro gs
    induction gs with
    | nil => intro acc; unfold go; simp [gtext]
    | cons w r ih =>
      have ht : gText (tag d verbal w) = gText w := by
        obtain ⟨h1, h2⟩ := tag_text d verbal w
        unfold gText; rw [h1, h2]
      intro acc
      cases acc with
      | nil =>
        unfold go
        rw [ih]
        simp [gtext, ht]
      | cons n acc =>
        unfold go
        split
        · rename_i h
          rw [ih]
          simp [gtext, gText, join, h.1, h.2.2.2]
        · rw [ih]
          simp [gtext, ht]
  exact key gs []

/-- Afterwards every ordinal number in digits is an adjective with its form as lemma and `NumType=Ord`, and does not have the relation `nummod`. -/
theorem C222_tagged (d : Char → Bool) (verbal : G → G) (gs : List G) :
    ∀ g ∈ gsd d verbal gs, ordinal d g.form = true → g.lemma = g.form ∧ g.adj = true ∧ g.ord = true ∧ g.num = false := by
  have key : ∀ gs acc, (∀ g ∈ acc, ordinal d g.form = true → g.lemma = g.form ∧ g.adj = true ∧ g.ord = true ∧ g.num = false) →
      ∀ g ∈ go d verbal acc gs, ordinal d g.form = true → g.lemma = g.form ∧ g.adj = true ∧ g.ord = true ∧ g.num = false := by
    intro gs
    induction gs with
    | nil => intro acc h g hg; unfold go at hg; exact h g (List.mem_reverse.mp hg)
    | cons w r ih =>
      have ht : ordinal d (tag d verbal w).form = true → (tag d verbal w).lemma = (tag d verbal w).form ∧ (tag d verbal w).adj = true ∧ (tag d verbal w).ord = true ∧
          (tag d verbal w).num = false := by
        intro h
        rw [(tag_text d verbal w).1] at h
        unfold tag
        rw [if_pos h]
        exact ⟨rfl, rfl, rfl, rfl⟩
      intro acc h
      cases acc with
      | nil =>
        unfold go
        refine ih _ ?_
        intro g hg
        rw [List.mem_singleton] at hg
        subst hg
        exact ht
      | cons n acc =>
        unfold go
        split
        · refine ih _ ?_
          intro g hg
          rcases List.mem_cons.mp hg with rfl | hg
          · intro _; exact ⟨rfl, rfl, rfl, rfl⟩
          · exact h g (List.mem_cons_of_mem _ hg)
        · refine ih _ ?_
          intro g hg
          rcases List.mem_cons.mp hg with rfl | hg
          · exact ht
          · exact h g hg
  exact key gs [] (by simp)

/-- Somewhere in the sentence a dot follows a number directly and is not the last word. -/
def Split (d : Char → Bool) (gs : List G) : Prop := ∃ a n p b, gs = a ++ n :: p :: b ∧ b ≠ [] ∧ digits d n.form = true ∧ n.no = true ∧ p.form = ['.']

/-- Afterwards no dot inside the sentence stands directly after a number. -/
theorem C222_joined (d : Char → Bool) (verbal : G → G) (gs : List G) : ¬Split d (gsd d verbal gs) := by
  -- no such place within the words already done, even if it is at their end
  have key : ∀ gs acc, (∀ a n p b, acc.reverse = a ++ n :: p :: b → digits d n.form = true → n.no = true → p.form = ['.'] → b = [] ∧ gs = []) →
      ¬Split d (go d verbal acc gs) := by
    intro gs
    induction gs with
    | nil =>
      rintro acc h ⟨a, n, p, b, e, hb, h1, h2, h3⟩
      unfold go at e
      exact hb (h a n p b e h1 h2 h3).1
    | cons w r ih =>
      intro acc h
      cases acc with
      | nil =>
        unfold go
        refine ih _ ?_
        intro a n p b e
        have := congrArg List.length e
        simp at this
        omega
      | cons m acc =>
        unfold go
        split
        · rename_i hc
          refine ih _ ?_
          intro a n p b e h1 h2 h3
          exfalso
          rcases List.eq_nil_or_concat b with rfl | ⟨b', z, rfl⟩
          · -- the joined word is no dot
            have e' : acc.reverse ++ [join m w] = (a ++ [n]) ++ [p] := by simpa using e
            have := (List.append_inj' e' rfl).2
            injection this with this _
            rw [← this] at h3
            simp only [join] at h3
            have hm := hc.2.2.1
            cases hf : m.form with
            | nil => rw [hf] at hm; simp [digits] at hm
            | cons x xs => rw [hf] at h3; simp at h3
          · have e' : acc.reverse ++ [join m w] = (a ++ n :: p :: b') ++ [z] := by simpa using e
            have e2 := (List.append_inj' e' rfl).1
            have := h a n p (b' ++ [m]) (by simp [e2]) h1 h2 h3
            simp at this
        · rename_i hc
          refine ih _ ?_
          intro a n p b e h1 h2 h3
          rcases List.eq_nil_or_concat b with rfl | ⟨b', z, rfl⟩
          · have e' : (acc.reverse ++ [m]) ++ [tag d verbal w] = (a ++ [n]) ++ [p] := by simpa using e
            have e2 := List.append_inj' e' rfl
            have e3 := (List.append_inj' e2.1 rfl).2
            injection e3 with e3 _
            have e4 := e2.2
            injection e4 with e4 _
            subst e3
            subst e4
            rw [(tag_text d verbal w).1] at h3
            refine ⟨rfl, ?_⟩
            cases r with
            | nil => rfl
            | cons y ys => exact absurd ⟨h3, by simp, h1, h2⟩ hc
          · exfalso
            have e' : (acc.reverse ++ [m]) ++ [tag d verbal w] = (a ++ n :: p :: b') ++ [z] := by simpa using e
            have e2 := (List.append_inj' e' rfl).1
            have := h a n p b' (by simp [e2]) h1 h2 h3
            exact absurd this.2 (by simp)
  refine key gs [] ?_
  intro a n p b e
  simp at e

def dig (c : Char) : Bool := c.isDigit
def exG : List G := [⟨['a', 'm'], [], false, false, false, false⟩, ⟨['2', '0'], ['2', '0'], false, false, true, true⟩, ⟨['.'], ['.'], false, false, false, false⟩,
  ⟨['M', 'a', 'i'], [], false, false, false, true⟩, ⟨['.'], ['.'], false, false, false, false⟩]

example : gsd dig id exG = [⟨['a', 'm'], [], false, false, false, false⟩, ⟨['2', '0', '.'], ['2', '0', '.'], true, true, false, false⟩, ⟨['M', 'a', 'i'], [], false, false, false, true⟩,
  ⟨['.'], ['.'], false, false, false, false⟩] := by decide +kernel
example : Split dig exG := ⟨[exG[0]], exG[1], exG[2], exG.drop 3, rfl, by simp [exG], by decide, by decide, rfl⟩

/-- Lines 23-24: the children of the dot are hung on the number; `none` if the `parent` setter refuses a cycle for one of them. `ns` are all words. -/
def dotTree (ns : List Nat) (par : Nat → Nat) (number dot : Nat) : Option (Nat → Nat) :=
  if ns.any (fun c => par c == dot && GoogleMerge.above par ns.length number c) then none
  else some fun c => if c ∈ ns ∧ par c = dot then number else par c

/-- If the number hangs on its dot, the block ends with an exception. -/
theorem C222_dot_head_violated (ns : List Nat) (par : Nat → Nat) (number dot : Nat) (hn : number ∈ ns) (h : par number = dot) : dotTree ns par number dot = none := by
  unfold dotTree
  rw [if_pos]
  rw [List.any_eq_true]
  refine ⟨number, hn, ?_⟩
  rw [Bool.and_eq_true, beq_iff_eq, GoogleMerge.above_iff]
  exact ⟨h, 0, Nat.zero_le _, rfl⟩

/-- If the dot is not above the number, its children move to the number, nothing else moves, and afterwards nothing hangs on the dot. -/
theorem C222_dot_children_partial (ns : List Nat) (par : Nat → Nat) (number dot : Nat) (hd : number ≠ dot) (h : ∀ k, GoogleMerge.iter par (k + 1) number ≠ dot) :
    ∃ par', dotTree ns par number dot = some par' ∧ (∀ c ∈ ns, par c = dot → par' c = number) ∧ (∀ c, par c ≠ dot → par' c = par c) ∧ ∀ c ∈ ns, par' c ≠ dot := by
  refine ⟨fun c => if c ∈ ns ∧ par c = dot then number else par c, ?_, ?_, ?_, ?_⟩
  · unfold dotTree
    rw [if_neg]
    rw [List.any_eq_true]
    rintro ⟨c, _, hc⟩
    rw [Bool.and_eq_true, beq_iff_eq, GoogleMerge.above_iff] at hc
    obtain ⟨h1, k, _, h2⟩ := hc
    exact h k (by rw [GoogleMerge.iter_succ, h2, h1])
  · intro c hc e; simp [hc, e]
  · intro c e; simp [e]
  · intro c hc
    by_cases e : par c = dot
    · simp [hc, e, hd]
    · simp [e]

example : dotTree [1, 2, 3] (fun x => if x = 1 then 2 else if x = 2 then 3 else 0) 1 2 = none := by decide
example : (dotTree [1, 2, 3] (fun x => if x = 3 then 2 else if x = 2 then 1 else 0) 1 2).map (fun f => [1, 2, 3].map f) = some [0, 1, 1] := by decide

end Verif.Text.Marks
