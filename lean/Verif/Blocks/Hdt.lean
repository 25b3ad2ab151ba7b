import Verif.Blocks.Articles

/-!
# Property C231: splitting German contractions (udapi/block/ud/de/fixhdt.py)

A form is a list of characters. `low` and `up` treat ASCII letters and `ü`, the only letters of the patterns; `re.IGNORECASE` also accepts the long s and the dotless i, which are left out. Of the
features only `PronType=Art` is kept, of the part of speech whether it is `ADP`. Words inside a multiword token have no `SpaceAfter`, as `create_multiword_token` leaves them
(`udapi/core/root.py:170-191`). The parent setter is that of `Articles`.
-/

namespace Verif.Blocks.Hdt
open Verif.Blocks.GoogleSwap Verif.Blocks.Articles

abbrev Str := List Char

def low (c : Char) : Char := if c = 'Ü' then 'ü' else c.toLower
def up (c : Char) : Char := if c = 'ü' then 'Ü' else c.toUpper
def isU (c : Char) : Bool := low c != c
def isL (c : Char) : Bool := up c != c

/-- The pattern of fixhdt.py:25 -/
def contractions : List Str :=
  [['a', '.'], ['a', 'm'], ['a', 'n', 's'], ['a', 'u', 'f', 's'], ['b', 'e', 'i', 'm'], ['d', 'u', 'r', 'c', 'h', 's'], ['f', 'ü', 'r', 's'],
   ['h', 'i', 'n', 't', 'e', 'r', 'm'], ['h', 'i', 'n', 't', 'e', 'r', 's'], ['i', 'm'], ['i', 'n', 's'], ['ü', 'b', 'e', 'r', 's'], ['u', 'm', 's'],
   ['u', 'n', 't', 'e', 'r', 'm'], ['u', 'n', 't', 'e', 'r', 's'], ['v', 'o', 'm'], ['v', 'o', 'r', 'm'], ['v', 'o', 'r', 's'], ['z', '.'], ['z', 'u', 'm'], ['z', 'u', 'r']]

/-- The chain of patterns for the preposition (fixhdt.py:41-79); `l` is the form in lower case. -/
def prepOf (l : Str) : Option Str :=
  if l = ['a', '.'] ∨ l = ['a', 'm'] ∨ l = ['a', 'n', 's'] then some ['a', 'n']
  else if l = ['a', 'u', 'f', 's'] then some ['a', 'u', 'f']
  else if l = ['b', 'e', 'i', 'm'] then some ['b', 'e', 'i']
  else if l = ['d', 'u', 'r', 'c', 'h', 's'] then some ['d', 'u', 'r', 'c', 'h']
  else if l = ['f', 'ü', 'r', 's'] then some ['f', 'ü', 'r']
  else if l = ['h', 'i', 'n', 't', 'e', 'r', 'm'] ∨ l = ['h', 'i', 'n', 't', 'e', 'r', 's'] then some ['h', 'i', 'n', 't', 'e', 'r']
  else if l = ['i', 'm'] ∨ l = ['i', 'n', 's'] then some ['i', 'n']
  else if l = ['ü', 'b', 'e', 'r', 's'] then some ['ü', 'b', 'e', 'r']
  else if l = ['u', 'm', 's'] then some ['u', 'm']
  else if l = ['u', 'n', 't', 'e', 'r', 'm'] ∨ l = ['u', 'n', 't', 'e', 'r', 's'] then some ['u', 'n', 't', 'e', 'r']
  else if l = ['v', 'o', 'm'] then some ['v', 'o', 'n']
  else if l = ['v', 'o', 'r', 'm'] ∨ l = ['v', 'o', 'r', 's'] then some ['v', 'o', 'r']
  else if l = ['z', '.'] ∨ l = ['z', 'u', 'm'] ∨ l = ['z', 'u', 'r'] then some ['z', 'u']
  else none

/-- The chain of patterns for the article (fixhdt.py:85-99) -/
def artOf (l : Str) : Option Str :=
  if l.getLast? = some 'm' ∨ l.getLast? = some '.' then some ['d', 'e', 'm']
  else if l.getLast? = some 's' then some ['d', 'a', 's']
  else if l.getLast? = some 'r' then some ['d', 'e', 'r']
  else none

/-- `str.isupper` -/
def isupper (f : Str) : Bool := f.any isU && f.all fun c => !isL c

/-- `up` (fixhdt.py:39) -/
def upOf (f : Str) : Nat := if isupper f then 2 else if (f.take 1).any isU then 1 else 0

/-- `mimic_case` (fixhdt.py:103-109) -/
def mimic (u : Nat) (x : Str) : Str :=
  if 2 ≤ u then x.map up else if u = 1 then (x.take 1).map up ++ (x.drop 1).map low else x.map low

structure Word where
  form : Str
  lemma : Str
  adp : Bool
  art : Bool
deriving DecidableEq

/-- The conditions of lines 24 and 25 -/
def isContr (w : Word) : Bool := w.adp && w.art && contractions.contains (w.form.map low)

/-- The preposition: forms and lemma stay if no pattern matches; `feats = '_'` removes `PronType`. -/
def prep (w : Word) : Word :=
  match prepOf (w.form.map low) with
  | some p => ⟨mimic (upOf w.form) p, p, true, false⟩
  | none => ⟨w.form, w.lemma, true, false⟩

/-- The article, a new word without form and lemma unless a pattern matches -/
def article (w : Word) : Word :=
  match artOf (w.form.map low) with
  | some a => ⟨mimic (if upOf w.form = 2 then 2 else 0) a, ['d', 'e', 'r'], false, true⟩
  | none => ⟨[], [], false, false⟩

inductive Tok
  | word (w : Word) (sp : Bool)
  | mwt (form : Str) (sp : Bool) (ws : List Word)
deriving DecidableEq

/-- `process_node` on a word that is a token of its own. The multiword token takes over MISC, and with it `SpaceAfter`. -/
def one (w : Word) (sp : Bool) : Tok := if isContr w then .mwt w.form sp [prep w, article w] else .word w sp

/-- `process_node` on all words of a token: `create_multiword_token` first removes the token the word was in, so that its words become tokens. -/
def tok : Tok → List Tok
  | .word w sp => [one w sp]
  | .mwt f sp ws => if ws.any isContr then ws.map fun w => one w true else [.mwt f sp ws]

def run (s : List Tok) : List Tok := s.flatMap tok

def tokText (f : Str) (sp : Bool) : Str := f ++ if sp then [' '] else []

def textOf : Tok → Str
  | .word w sp => tokText w.form sp
  | .mwt f sp _ => tokText f sp

/-- The text of a sentence, before the space at its end is removed -/
def text (s : List Tok) : Str := s.flatMap textOf

def wordsOf : Tok → List Word
  | .word w _ => [w]
  | .mwt _ _ ws => ws

def words (s : List Tok) : List Word := s.flatMap wordsOf

/-! ## The tree -/

/-- The numbers of the old words after a new one was put at `w + 1` -/
def sh (w x : Nat) : Nat := if x ≤ w then x else x + 1

/-- `create_child` and `shift_after_node` (fixhdt.py:28-29): the new word `w + 1` hangs on `w`. -/
def ins (par : Nat → Nat) (w : Nat) : Nat → Nat := fun x =>
  if x ≤ w then sh w (par x) else if x = w + 1 then w else sh w (par (x - 1))

/-- Lines 28-33; `keep`: the relation is `root`, `conj` or `reparandum`. `none`: `CycleError`. -/
def splitTree (n : Nat) (keep : Bool) (par : Nat → Nat) (w : Nat) : Option (Nat → Nat) :=
  if keep then some (ins par w) else setParent (n + 1) (ins par w) (w + 1) (ins par w w)

/-! ## Lemmas -/

theorem tables : ∀ l ∈ contractions, ∃ p a, prepOf l = some p ∧ artOf l = some a ∧ p.head? = l.head? ∧ p.map low = p ∧ a.map low = a ∧ (p.map up).map low = p ∧ (a.map up).map low = a ∧
    (p.take 1).any isL = true ∧ 2 ≤ p.length ∧ (p.map up).all (fun c => !isL c) = true ∧ (a.map up).all (fun c => !isL c) = true ∧
    (l.getLast? = some '.' ∧ a = ['d', 'e', 'm'] ∨ a.getLast? = l.getLast?) := by
  have : contractions.all (fun l => match prepOf l, artOf l with
    | some p, some a => p.head? == l.head? && p.map low == p && a.map low == a && (p.map up).map low == p && (a.map up).map low == a && (p.take 1).any isL && decide (2 ≤ p.length) &&
        (p.map up).all (fun c => !isL c) && (a.map up).all (fun c => !isL c) && ((l.getLast? == some '.' && a == ['d', 'e', 'm']) || a.getLast? == l.getLast?)
    | _, _ => false) = true := by decide
  intro l hl
  have h := List.all_eq_true.1 this l hl
  split at h
  · next p a hp ha =>
    simp only [Bool.and_eq_true, Bool.or_eq_true, beq_iff_eq, decide_eq_true_eq] at h
    obtain ⟨⟨⟨⟨⟨⟨⟨⟨⟨h1, h2⟩, h3⟩, h4⟩, h5⟩, h6⟩, h7⟩, h8⟩, h9⟩, h10⟩ := h
    exact ⟨p, a, hp, ha, h1, h2, h3, h4, h5, h6, h7, h8, h9, h10⟩
  · cases h

theorem isContr_mem {w : Word} (h : isContr w = true) : w.form.map low ∈ contractions := by
  simp only [isContr, Bool.and_eq_true, List.contains_iff_mem] at h
  exact h.2

theorem mimic_low {x : Str} (h1 : x.map low = x) (h2 : (x.map up).map low = x) (u : Nat) : (mimic u x).map low = x := by
  unfold mimic
  split
  · exact h2
  · split
    · rw [List.map_append]
      have e1 : ((x.take 1).map up).map low = x.take 1 := by
        rw [List.map_take, List.map_take, h2]
      have e2 : ((x.drop 1).map low).map low = x.drop 1 := by
        rw [List.map_drop, List.map_drop, h1, h1]
      rw [e1, e2, List.take_append_drop]
    · rw [h1, h1]

theorem prep_not (w : Word) : isContr (prep w) = false := by
  unfold prep
  split <;> simp [isContr]

theorem article_not (w : Word) : isContr (article w) = false := by
  unfold article
  split <;> simp [isContr]

theorem one_text (w : Word) (sp : Bool) : textOf (one w sp) = tokText w.form sp := by
  unfold one
  split <;> rfl

theorem tok_one (w : Word) (sp : Bool) : tok (one w sp) = [one w sp] := by
  unfold one
  split
  · simp [tok, prep_not, article_not]
  · next h => simp [tok, one, h]

theorem flatMap_self {α : Type} {f : α → List α} : ∀ l : List α, (∀ x ∈ l, f x = [x]) → l.flatMap f = l
  | [], _ => rfl
  | x :: l, h => by
    rw [List.flatMap_cons, h x (List.mem_cons_self ..), flatMap_self l fun y hy => h y (List.mem_cons_of_mem _ hy)]
    rfl

theorem sh_zero (w : Nat) : sh w 0 = 0 := by simp [sh]

theorem sh_ne (w x : Nat) : sh w x ≠ w + 1 := by unfold sh; split <;> omega

theorem ins_sh (par : Nat → Nat) (w x : Nat) : ins par w (sh w x) = sh w (par x) := by
  unfold ins
  by_cases h : x ≤ w
  · have : sh w x = x := by simp [sh, h]
    rw [this, if_pos h]
  · have : sh w x = x + 1 := by simp [sh, h]
    rw [this, if_neg (by omega), if_neg (by omega)]
    rfl

theorem iter_ins (par : Nat → Nat) (w : Nat) : ∀ k x, iter (ins par w) k (sh w x) = sh w (iter par k x)
  | 0, _ => rfl
  | k + 1, x => by rw [iter, iter, ins_sh, iter_ins par w k]

theorem ins_new (par : Nat → Nat) (w : Nat) : ins par w (w + 1) = w := by
  unfold ins
  rw [if_neg (by omega), if_pos rfl]

theorem sh_self (w : Nat) : sh w w = w := by simp [sh]

theorem ins_self (par : Nat → Nat) (w : Nat) : ins par w w = sh w (par w) := by
  have := ins_sh par w w
  rwa [sh_self] at this

theorem sh_cases (w y : Nat) : y = w + 1 ∨ ∃ x, y = sh w x := by
  by_cases h : y = w + 1
  · exact .inl h
  · by_cases h' : y ≤ w
    · exact .inr ⟨y, by simp [sh, h']⟩
    · exact .inr ⟨y - 1, by simp only [sh]; rw [if_neg (by omega)]; omega⟩

theorem ins_tree {par : Nat → Nat} (ht : Tree par) (w : Nat) : Tree (ins par w) := by
  have old : ∀ x, ∃ k, iter (ins par w) k (sh w x) = 0 := by
    intro x
    obtain ⟨k, hk⟩ := ht.2 x
    exact ⟨k, by rw [iter_ins, hk, sh_zero]⟩
  refine ⟨?_, ?_⟩
  · have := ins_sh par w 0
    rwa [sh_zero, ht.1, sh_zero] at this
  · intro y
    rcases sh_cases w y with h | ⟨x, h⟩
    · subst h
      have := old w
      rw [sh_self] at this
      exact up_to (ins_new par w) this
    · subst h
      exact old x

theorem ins_leaf (par : Nat → Nat) (w x : Nat) : ins par w x ≠ w + 1 := by
  unfold ins
  split
  · exact sh_ne w _
  · split
    · omega
    · exact sh_ne w _

/-! ## Theorems -/

/-- Both chains of patterns cover all contractions. In lower case the first word is its lemma, starts as the contraction does, and the second is a form of the article that ends as the contraction
does, or `dem` for an abbreviation. -/
theorem C231_forms {w : Word} (h : isContr w = true) :
    (prep w).form.map low = (prep w).lemma ∧ (prep w).lemma.head? = (w.form.map low).head? ∧ (article w).lemma = ['d', 'e', 'r'] ∧
    (article w).form.map low ∈ ([['d', 'e', 'm'], ['d', 'a', 's'], ['d', 'e', 'r']] : List Str) ∧
    (w.form.getLast? = some '.' ∧ (article w).form.map low = ['d', 'e', 'm'] ∨ ((article w).form.map low).getLast? = (w.form.map low).getLast?) := by
  obtain ⟨p, a, hp, ha, h1, h2, h3, h4, h5, _, _, _, _, h10⟩ := tables _ (isContr_mem h)
  have ep : prep w = ⟨mimic (upOf w.form) p, p, true, false⟩ := by simp only [prep, hp]
  have ea : article w = ⟨mimic (if upOf w.form = 2 then 2 else 0) a, ['d', 'e', 'r'], false, true⟩ := by simp only [article, ha]
  rw [ep, ea]
  refine ⟨mimic_low h2 h4 _, h1, rfl, ?_, ?_⟩
  · show (mimic _ a).map low ∈ _
    rw [mimic_low h3 h5]
    clear h1 h2 h3 h4 h5 h10 hp
    unfold artOf at ha
    split at ha
    · cases ha; simp
    · split at ha
      · cases ha; simp
      · split at ha
        · cases ha; simp
        · cases ha
  · show _ ∧ (mimic _ a).map low = _ ∨ ((mimic _ a).map low).getLast? = _
    rw [mimic_low h3 h5]
    rcases h10 with ⟨g, g'⟩ | g
    · refine .inl ⟨?_, g'⟩
      rw [List.getLast?_map] at g
      cases e : w.form.getLast? with
      | none => rw [e] at g; cases g
      | some c =>
        rw [e] at g
        simp only [Option.map_some, Option.some.injEq] at g
        have hm : w.form.map low ∈ contractions := isContr_mem h
        have hc : low c = '.' := g
        have : c = '.' := by
          unfold low at hc
          split at hc
          · exact absurd hc (by decide)
          · unfold Char.toLower at hc
            split at hc
            · next hr =>
              exfalso
              have hv := congrArg Char.val hc
              simp only [] at hv
              obtain ⟨r1, r2⟩ := hr
              have e1 : ('.' : Char).val = 46 := by decide
              rw [e1] at hv
              have r1' := UInt32.le_iff_toNat_le.1 r1
              have r2' := UInt32.le_iff_toNat_le.1 r2
              have hn := congrArg UInt32.toNat hv
              rw [UInt32.toNat_add] at hn
              have k1 : ('A' : Char).val.toNat = 65 := by decide
              have k2 : ('Z' : Char).val.toNat = 90 := by decide
              have k3 : ('a'.val - 'A'.val : UInt32).toNat = 32 := by decide
              have k4 : (46 : UInt32).toNat = 46 := by decide
              simp only [k1, k2, k3, k4] at r1' r2' hn
              omega
            · exact hc
        rw [this]
    · exact .inr g

/-- The text of a sentence does not change if no contraction is part of a multiword token. -/
theorem C231_text_partial (s : List Tok) (h : ∀ f sp ws, Tok.mwt f sp ws ∈ s → ws.any isContr = false) : text (run s) = text s := by
  induction s with
  | nil => rfl
  | cons t s ih =>
    have e : text (run (t :: s)) = text (tok t) ++ text (run s) := by simp [text, run]
    rw [e, ih fun f sp ws hm => h f sp ws (List.mem_cons_of_mem _ hm)]
    have et : text (tok t) = textOf t := by
      cases t with
      | word w sp => simp [tok, text, one_text]; rfl
      | mwt f sp ws =>
        have := h f sp ws (List.mem_cons_self ..)
        simp [tok, this, text]
    rw [et]
    rfl

/-- A multiword token of two or more words, one of them a contraction, falls apart: the text gets more spaces. -/
theorem C231_text_violated (a b : List Tok) (f : Str) (sp : Bool) (ws : List Word) (hc : ws.any isContr = true) (hw : 2 ≤ ws.length) (hf : ' ' ∉ f)
    (ha : ∀ f sp ws, Tok.mwt f sp ws ∈ a ++ b → ws.any isContr = false) : text (run (a ++ .mwt f sp ws :: b)) ≠ text (a ++ .mwt f sp ws :: b) := by
  intro e
  have ea := C231_text_partial a fun f sp ws hm => ha f sp ws (List.mem_append_left _ hm)
  have eb := C231_text_partial b fun f sp ws hm => ha f sp ws (List.mem_append_right _ hm)
  have h1 : text (run (a ++ .mwt f sp ws :: b)) = text (run a) ++ (text (ws.map fun w => one w true) ++ text (run b)) := by
    simp [text, run, tok, hc]
  have h2 : text (a ++ .mwt f sp ws :: b) = text a ++ (tokText f sp ++ text b) := by simp [text, textOf]
  rw [h1, h2, ea, eb] at e
  have e' := List.append_cancel_right (List.append_cancel_left e)
  have hcount : ∀ l : List Word, l.length ≤ (text (l.map fun w => one w true)).count ' ' := by
    intro l
    induction l with
    | nil => simp
    | cons w l ih =>
      have : text ((w :: l).map fun w => one w true) = tokText w.form true ++ text (l.map fun w => one w true) := by
        simp [text, one_text]
      rw [this, List.count_append, List.length_cons]
      have : 1 ≤ (tokText w.form true).count ' ' := by simp [tokText]
      omega
  have := hcount ws
  rw [e'] at this
  have hle : (tokText f sp).count ' ' ≤ 1 := by
    unfold tokText
    rw [List.count_append, List.count_eq_zero.2 hf]
    cases sp <;> simp
  omega

/-- Every contraction becomes two words, all other words stay in their order, whatever tokens they are in. -/
theorem C231_words (s : List Tok) : words (run s) = (words s).flatMap fun w => if isContr w then [prep w, article w] else [w] := by
  induction s with
  | nil => rfl
  | cons t s ih =>
    have e : words (run (t :: s)) = words (tok t) ++ words (run s) := by simp [words, run]
    have e' : words (t :: s) = wordsOf t ++ words s := rfl
    rw [e, e', List.flatMap_append, ih]
    congr 1
    have ho : ∀ w sp, wordsOf (one w sp) = if isContr w then [prep w, article w] else [w] := by
      intro w sp
      unfold one
      split <;> rfl
    cases t with
    | word w sp =>
      have hw : wordsOf (.word w sp) = [w] := rfl
      simp [tok, words, ho, hw]
    | mwt f sp ws =>
      by_cases hc : ws.any isContr = true
      · simp only [tok, if_pos hc, wordsOf, words]
        rw [List.flatMap_map]
        congr 1
        funext w
        exact ho w true
      · have : ∀ w ∈ ws, isContr w = false := by
          intro w hw
          cases hq : isContr w with
          | false => rfl
          | true => exact absurd (List.any_eq_true.2 ⟨w, hw, hq⟩) hc
        simp only [tok, if_neg hc, wordsOf, words, List.flatMap_cons, List.flatMap_nil, List.append_nil]
        rw [flatMap_self ws fun w hw => by rw [this w hw]; rfl]

/-- No contraction is left, and a second run changes nothing. -/
theorem C231_twice (s : List Tok) : (∀ w ∈ words (run s), isContr w = false) ∧ run (run s) = run s := by
  constructor
  · intro w hw
    rw [C231_words, List.mem_flatMap] at hw
    obtain ⟨v, _, hv⟩ := hw
    split at hv
    · simp only [List.mem_cons, List.not_mem_nil, or_false] at hv
      rcases hv with h | h
      · rw [h]; exact prep_not v
      · rw [h]; exact article_not v
    · next hn =>
      simp only [List.mem_cons, List.not_mem_nil, or_false] at hv
      rw [hv]
      simpa using hn
  · refine flatMap_self _ ?_
    intro t ht
    simp only [run, List.mem_flatMap] at ht
    obtain ⟨u, _, hu⟩ := ht
    cases u with
    | word w sp =>
      simp only [tok, List.mem_cons, List.not_mem_nil, or_false] at hu
      rw [hu, tok_one]
    | mwt f sp ws =>
      simp only [tok] at hu
      split at hu
      · rw [List.mem_map] at hu
        obtain ⟨w, _, rfl⟩ := hu
        exact tok_one w true
      · next hc =>
        simp only [List.mem_cons, List.not_mem_nil, or_false] at hu
        rw [hu]
        simp only [tok, if_neg hc]

/-- The first word starts with a capital letter exactly if the contraction does. -/
theorem C231_case {w : Word} (h : isContr w = true) : ((prep w).form.take 1).any isU = (w.form.take 1).any isU := by
  obtain ⟨p, a, hp, ha, h1, h2, _, h4, _, h6, h7, _, _, _⟩ := tables _ (isContr_mem h)
  have ep : prep w = ⟨mimic (upOf w.form) p, p, true, false⟩ := by simp only [prep, hp]
  rw [ep]
  show ((mimic (upOf w.form) p).take 1).any isU = _
  cases hw : w.form with
  | nil => rw [hw] at h1; cases p with
    | nil => simp at h7
    | cons => simp at h1
  | cons c f =>
    cases p with
    | nil => simp at h7
    | cons q p' =>
      rw [hw] at h1
      simp only [List.map_cons, List.head?_cons, Option.some.injEq] at h1
      simp only [List.take_succ_cons, List.take_zero, List.any_cons, List.any_nil, Bool.or_false] at h6 ⊢
      simp only [List.map_cons, List.cons.injEq] at h2 h4
      have hL : up q ≠ q := by simpa [isL] using h6
      have hUq : isU (up q) = true := by simp only [isU, bne_iff_ne, ne_eq]; rw [h4.1]; exact Ne.symm hL
      have hlq : isU (low q) = false := by simp only [isU, bne_eq_false_iff_eq]; rw [h2.1, h2.1]
      cases hc : isU c with
      | true =>
        have : upOf (c :: f) = 2 ∨ upOf (c :: f) = 1 := by
          unfold upOf
          split
          · exact .inl rfl
          · exact .inr (by simp [hc])
        rcases this with e | e
        · rw [e]; simp [mimic, hUq]
        · rw [e]; simp [mimic, hUq]
      | false =>
        have hcq : c = q := by
          have : low c = c := by simpa [isU] using hc
          rw [← this, ← h1]
        have : upOf (c :: f) = 0 := by
          unfold upOf isupper
          have : isL c = true := by rw [hcq]; simpa [isL] using hL
          simp [this, hc]
        rw [this]
        simp [mimic, hlq]

/-- An abbreviation with a capital letter counts as written in capitals: no word keeps small letters, though only the first letter of the token was large. -/
theorem C231_case_violated {w : Word} {c : Char} (h : isContr w = true) (hf : w.form = [c, '.']) (hc : isU c = true) (hl : isL c = false) :
    (prep w).form.all (fun c => !isL c) = true ∧ (article w).form.all (fun c => !isL c) = true ∧ 2 ≤ (prep w).form.length ∧ (article w).form = ['D', 'E', 'M'] := by
  obtain ⟨p, a, hp, ha, _, _, _, _, _, _, h7, h8, h9, h10⟩ := tables _ (isContr_mem h)
  have hu : upOf w.form = 2 := by
    have : isL '.' = false := by decide
    simp [upOf, isupper, hf, hc, hl, this]
  have ep : prep w = ⟨mimic (upOf w.form) p, p, true, false⟩ := by simp only [prep, hp]
  have ea : article w = ⟨mimic (if upOf w.form = 2 then 2 else 0) a, ['d', 'e', 'r'], false, true⟩ := by simp only [article, ha]
  have hdot : low '.' = '.' := by decide
  have haa : a = ['d', 'e', 'm'] := by
    have hlast : (w.form.map low).getLast? = some '.' := by rw [hf]; simp [hdot]
    unfold artOf at ha
    rw [hlast] at ha
    simpa using ha.symm
  rw [ep, ea, hu]
  refine ⟨by simpa [mimic] using h8, by simpa [mimic] using h9, by simpa [mimic] using h7, ?_⟩
  rw [haa]
  decide

/-- There is no exception and the result is a tree: all old words keep their places and parents, and the article hangs where the preposition does, or on it if that is a root, conjunct or
reparandum. -/
theorem C231_tree (n : Nat) (keep : Bool) {par : Nat → Nat} (ht : Tree par) (w : Nat) :
    ∃ par', splitTree n keep par w = some par' ∧ Tree par' ∧ (∀ x, par' (sh w x) = sh w (par x)) ∧ par' (w + 1) = if keep then w else par' w := by
  unfold splitTree
  cases keep with
  | true => exact ⟨_, rfl, ins_tree ht w, ins_sh par w, by simp [ins_new]⟩
  | false =>
    obtain ⟨par', e, t, h1, h2⟩ := setParent_tree (n := n + 1) (ins_tree ht w) (ins_leaf par w) (Nat.succ_ne_zero w) (ins_leaf par w w)
    refine ⟨par', e, t, fun x => by rw [h2 _ (sh_ne w x), ins_sh], ?_⟩
    rw [h1]
    simp [h2 w (by omega)]

/-! ## Examples -/

def exZum : Word := ⟨['Z', 'u', 'm'], [], true, true⟩
def exBeispiel : Word := ⟨['B'], [], false, false⟩
def exZ : Word := ⟨['Z', '.'], [], true, true⟩

example : isContr exZum = true ∧ (prep exZum).form = ['Z', 'u'] ∧ (article exZum).form = ['d', 'e', 'm'] := by decide
example : run [.word exZum true, .word exBeispiel false] = [.mwt ['Z', 'u', 'm'] true [prep exZum, article exZum], .word exBeispiel false] := by decide
example : text (run [.word exZum true, .word exBeispiel false]) = ['Z', 'u', 'm', ' ', 'B'] := by decide
example : text (run [.mwt ['X'] false [exZum, exBeispiel]]) = ['Z', 'u', 'm', ' ', 'B', ' '] := by decide
example : isContr exZ = true ∧ (prep exZ).form = ['Z', 'U'] ∧ (article exZ).form = ['D', 'E', 'M'] := by decide
example : (splitTree 2 false (fun x => if x = 1 then 2 else 0) 1).map (fun p => [p 1, p 2, p 3]) = some [3, 3, 0] := by decide
example : (splitTree 2 true (fun x => if x = 2 then 1 else 0) 1).map (fun p => [p 1, p 2, p 3]) = some [0, 1, 1] := by decide

end Verif.Blocks.Hdt
