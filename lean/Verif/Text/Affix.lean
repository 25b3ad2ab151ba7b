/-!
# Property C235: prefixes and suffixes in ud.Google2ud (udapi/block/ud/google2ud.py, `fix_upos`, lines 394-403)

The loop `for node in root.descendants: self.fix_upos(node)` (lines 203-204), as far as words with `upos=AFFIX` are concerned. `suff` and `pref` are affixes with these relations; all other words,
and affixes with other relations, are `plain`. `sp` is whether there is a space after the word (no `SpaceAfter=No`, which `ud.ComplyWithText` has filled in before). Before the first word there is the
technical root (`udapi/core/node.py:727-734`), whose form is no part of the text. The loop goes over a copy of the list of words. The tree and multiword tokens are left out.
-/

namespace Verif.Text.Affix

abbrev Str := List Char

inductive Kind | plain | suff | pref
deriving DecidableEq

structure Word where
  form : Str
  sp : Bool
  kind : Kind
deriving DecidableEq

/-- `done` are the words before the current one, the last first; `carry` is what prefixes have put before the current form. `none`: `AttributeError` on the `next_node` of the last word. -/
def run : List Word → Str → List Word → Option (List Word)
  | done, _, [] => some done.reverse
  | done, carry, w :: rest =>
    match w.kind with
    | .plain => run ({ w with form := carry ++ w.form } :: done) [] rest
    | .suff =>
      match done with
      | [] => run [] [] rest
      | p :: ds => run ({ p with form := p.form ++ (carry ++ w.form) } :: ds) [] rest
    | .pref => if rest = [] then none else run done (carry ++ w.form) rest

def fix (s : List Word) : Option (List Word) := run [] [] s

def wordText (w : Word) : Str := w.form ++ if w.sp then [' '] else []

/-- The text, before the space at its end is removed -/
def text (s : List Word) : Str := s.flatMap wordText

/-- The text without the spaces between words -/
def letters (s : List Word) : Str := s.flatMap (·.form)

/-- The first word that is not a prefix is not a suffix. -/
def StartsWell (s : List Word) : Prop := ∀ w, (s.find? fun w => w.kind != .pref) = some w → w.kind = .plain

/-! ## Lemmas -/

theorem text_append (a b : List Word) : text (a ++ b) = text a ++ text b := List.flatMap_append ..
theorem letters_append (a b : List Word) : letters (a ++ b) = letters a ++ letters b := List.flatMap_append ..

theorem run_letters : ∀ (s done : List Word) (carry : Str) (r : List Word), run done carry s = some r → (done = [] → StartsWell s) → (s = [] → carry = []) →
    letters r = letters done.reverse ++ carry ++ letters s
  | [], done, carry, r, h, _, hc => by
    simp only [run, Option.some.injEq] at h
    rw [← h, hc rfl]
    simp [letters]
  | w :: rest, done, carry, r, h, hd, _ => by
    have ew : letters (w :: rest) = w.form ++ letters rest := rfl
    cases hk : w.kind with
    | plain =>
      simp only [run, hk] at h
      rw [run_letters rest _ [] r h (fun g => nomatch g) (fun _ => rfl), List.reverse_cons, letters_append, ew]
      simp [letters]
    | suff =>
      simp only [run, hk] at h
      cases done with
      | nil =>
        exfalso
        have := hd rfl w (by simp [hk])
        rw [hk] at this
        cases this
      | cons p ds =>
        simp only [] at h
        rw [run_letters rest _ [] r h (fun g => nomatch g) (fun _ => rfl), List.reverse_cons, List.reverse_cons, letters_append, letters_append, ew]
        simp [letters]
    | pref =>
      simp only [run, hk] at h
      split at h
      · cases h
      · next hr =>
        rw [run_letters rest done _ r h ?_ (fun g => absurd g hr), ew]
        · simp
        · intro g v hv
          exact hd g v (by rw [List.find?_cons]; simp only [hk, bne_self_eq_false]; exact hv)

theorem run_none : ∀ (s done : List Word) (carry : Str), run done carry s = none ↔ ∃ w, s.getLast? = some w ∧ w.kind = .pref
  | [], done, carry => by simp [run]
  | w :: rest, done, carry => by
    have last : rest ≠ [] → (w :: rest).getLast? = rest.getLast? := by
      intro h
      cases rest with
      | nil => exact absurd rfl h
      | cons a l => simp [List.getLast?_cons_cons]
    by_cases hr : rest = []
    · subst hr
      cases hk : w.kind with
      | plain => simp [run, hk]
      | suff => cases done <;> simp [run, hk]
      | pref => simp [run, hk]
    · rw [last hr]
      cases hk : w.kind with
      | plain => simp only [run, hk]; exact run_none rest _ _
      | suff =>
        cases done with
        | nil => simp only [run, hk]; exact run_none rest _ _
        | cons p ds => simp only [run, hk]; exact run_none rest _ _
      | pref => simp only [run, hk, if_neg hr]; exact run_none rest _ _

theorem run_plain : ∀ (s done : List Word) (carry : Str) (r : List Word), run done carry s = some r → r.map (fun w => (w.sp, w.kind)) =
    (done.reverse ++ s.filter fun w => w.kind == .plain).map fun w => (w.sp, w.kind)
  | [], done, carry, r, h => by
    simp only [run, Option.some.injEq] at h
    rw [← h]
    simp
  | w :: rest, done, carry, r, h => by
    cases hk : w.kind with
    | plain =>
      simp only [run, hk] at h
      rw [run_plain rest _ _ r h]
      simp [hk]
    | suff =>
      simp only [run, hk] at h
      cases done with
      | nil =>
        rw [run_plain rest _ _ r h]
        simp [hk]
      | cons p ds =>
        rw [run_plain rest _ _ r h]
        simp [hk]
    | pref =>
      simp only [run, hk] at h
      split at h
      · cases h
      · rw [run_plain rest _ _ r h]
        simp [hk]

/-- What the text needs: no space after prefixes and suffixes, nor before suffixes (`b`: there is a space before the next word) -/
def Tight : Bool → List Word → Prop
  | _, [] => True
  | b, w :: rest => (w.kind = .pref → w.sp = false) ∧ (w.kind = .suff → w.sp = false ∧ b = false) ∧ Tight (if w.kind = .pref then b else w.sp) rest

theorem run_text : ∀ (s done : List Word) (carry : Str) (r : List Word), run done carry s = some r → (done = [] → StartsWell s) → (s = [] → carry = []) →
    Tight ((done.head?.map (·.sp)).getD false) s → text r = text done.reverse ++ carry ++ text s
  | [], done, carry, r, h, _, hc, _ => by
    simp only [run, Option.some.injEq] at h
    rw [← h, hc rfl]
    simp [text]
  | w :: rest, done, carry, r, h, hd, _, ht => by
    have ew : text (w :: rest) = wordText w ++ text rest := rfl
    cases hk : w.kind with
    | plain =>
      simp only [run, hk] at h
      have ht' := ht.2.2
      rw [hk] at ht'
      rw [run_text rest _ [] r h (fun g => nomatch g) (fun _ => rfl) (by simpa using ht'), List.reverse_cons, text_append, ew]
      simp [text, wordText]
    | suff =>
      simp only [run, hk] at h
      obtain ⟨hs, hb⟩ := ht.2.1 hk
      have ht' := ht.2.2
      rw [hk, hs] at ht'
      cases done with
      | nil =>
        exfalso
        have := hd rfl w (by simp [hk])
        rw [hk] at this
        cases this
      | cons p ds =>
        have hp : p.sp = false := by simpa using hb
        simp only [] at h
        rw [run_text rest _ [] r h (fun g => nomatch g) (fun _ => rfl) (by simpa [hp] using ht'), List.reverse_cons, List.reverse_cons, text_append, text_append, ew]
        simp [text, wordText, hp, hs]
    | pref =>
      simp only [run, hk] at h
      have ht' := ht.2.2
      rw [if_pos hk] at ht'
      split at h
      · cases h
      · next hr =>
        rw [run_text rest done _ r h ?_ (fun g => absurd g hr) ht', ew]
        · simp [wordText, ht.1 hk]
        · intro g v hv
          exact hd g v (by rw [List.find?_cons]; simp only [hk, bne_self_eq_false]; exact hv)

/-! ## Theorems -/

/-- The words that are no prefixes and suffixes remain, with the spaces after them, and no others. -/
theorem C235_words {s r : List Word} (h : fix s = some r) : r.map (fun w => (w.sp, w.kind)) = (s.filter fun w => w.kind == .plain).map fun w => (w.sp, w.kind) := by
  have := run_plain s [] [] r h
  simpa using this

/-- No letter is lost or moved, if the sentence does not start with a suffix (after prefixes). -/
theorem C235_letters_partial {s r : List Word} (h : fix s = some r) (hs : StartsWell s) : letters r = letters s := by
  have := run_letters s [] [] r h (fun _ => hs) (fun _ => rfl)
  simpa [letters] using this

/-- The text stays if moreover prefixes and suffixes are written together with the words around them and no space follows a suffix. -/
theorem C235_text_partial {s r : List Word} (h : fix s = some r) (hs : StartsWell s) (ht : Tight false s) : text r = text s := by
  have := run_text s [] [] r h (fun _ => hs) (fun _ => rfl) ht
  simpa [text] using this

/-- A suffix is lost at the start of a sentence: its letters go to the technical root. -/
theorem C235_first_violated (w : Word) (rest : List Word) (hw : w.kind = .suff) : fix (w :: rest) = fix rest := by
  simp only [fix, run, hw]

/-- The space after a suffix is lost, if there was none before it: the word and the next one are written together. -/
theorem C235_space_violated (f g x : Str) : ∃ r, fix [⟨f, false, .plain⟩, ⟨g, true, .suff⟩, ⟨x, false, .plain⟩] = some r ∧ text r = f ++ g ++ x ∧
    text [⟨f, false, .plain⟩, ⟨g, true, .suff⟩, ⟨x, false, .plain⟩] = f ++ g ++ ' ' :: x := by
  refine ⟨[⟨f ++ g, false, .plain⟩, ⟨x, false, .plain⟩], by simp [fix, run], by simp [text, wordText], by simp [text, wordText]⟩

/-- There is an exception exactly if the last word is a prefix. -/
theorem C235_last_violated (s : List Word) : fix s = none ↔ ∃ w, s.getLast? = some w ∧ w.kind = .pref := run_none s [] []

/-! ## Examples -/

def exW (f : Str) (sp : Bool) (k : Kind) : Word := ⟨f, sp, k⟩

example : fix [exW ['m', 'e'] false .pref, exW ['m', 'b', 'e', 'l', 'i'] false .plain, exW ['k', 'a', 'n'] false .suff, exW ['.'] true .plain] =
    some [exW ['m', 'e', 'm', 'b', 'e', 'l', 'i', 'k', 'a', 'n'] false .plain, exW ['.'] true .plain] := by decide
example : StartsWell [exW ['m', 'e'] false .pref, exW ['a'] false .plain] := by intro w h; simp [exW] at h; rw [← h]
example : Tight false [exW ['m', 'e'] false .pref, exW ['a'] false .plain, exW ['k'] false .suff, exW ['.'] true .plain] := by simp [Tight, exW]
example : fix [exW ['a'] true .plain, exW ['m', 'e'] false .pref] = none := by decide

end Verif.Text.Affix
