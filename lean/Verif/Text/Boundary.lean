import Verif.Text.Segment

/-!
# Property C174: where segment.Simple ends a sentence (udapi/block/segment/simple.py)

`upper` and `digit` are `str.isupper` and `str.isdigit` for strings of one character.
-/

namespace Verif.Text.Boundary
open Verif.Py

/-- The characters of `'"“»›)'` (simple.py:34) -/
def closers : List Char := ['"', '“', '»', '›', ')']

/-- The characters of `'"„«¿¡‹('` (simple.py:38, 48) -/
def openers : List Char := ['"', '„', '«', '¿', '¡', '‹', '(']

def sNapr : Str := ['n', 'a', 'p', 'ř']

/-- `(např|e.g.)` at the start of a reversed string -/
def abbrevRev : Str → Bool
  | d :: c :: b :: a :: _ => [a, b, c, d] == sNapr || (a == 'e' && b != '\n' && c == 'g' && d != '\n')
  | _ => false

/-- `is_nonfinal_abbrev(token)` (simple.py:23-27): `$` also matches before a line feed at the end, and a period matches any character but a line feed. -/
def isNonfinalAbbrev (token : Str) : Bool :=
  match token.reverse with
  | '\n' :: r => abbrevRev r || abbrevRev ('\n' :: r)
  | r => abbrevRev r

/-- `first = first[1:]` after an opening character (simple.py:48-49) -/
def dropOpener (first : Str) : Str :=
  match first with
  | c :: r => if c ∈ openers then r else first
  | [] => []

/-- `is_boundary(first, second)` (simple.py:30-54) from line 42 on, for strings that are not empty -/
def decideRest (upper digit : Char → Bool) (first second : Str) : Bool :=
  match second, first.getLast? with
  | u :: _, some e =>
    if !upper u || digit u then false
    else if !['.', '!', '?'].contains e then false
    else if e == '.' then
      let f := dropOpener first
      if f.length == 2 && (f.head?.map upper).getD false then false
      else !isNonfinalAbbrev f.dropLast
    else true
  | _, _ => false

/-- `is_boundary(first, second)` (simple.py:30-54) -/
def isBoundary (upper digit : Char → Bool) (first second : Str) : Bool :=
  if first = [] ∨ second = [] then false
  else
    let first := match first.getLast? with
      | some c => if c ∈ closers then first.dropLast else first
      | none => first
    let second := match second with
      | c :: r => if c ∈ openers then r else second
      | [] => second
    if first = [] ∨ second = [] then false else decideRest upper digit first second

/-! ## Specification -/

/-- At most one character, and one of these -/
def Opt (l : List Char) (s : Str) : Prop := s = [] ∨ ∃ c ∈ l, s = [c]

/-- What stands before the period is one capital letter, or ends as an abbreviation of the list. -/
def NotFinal (upper : Char → Bool) (w : Str) : Prop :=
  ∃ o w', Opt openers o ∧ w = o ++ w' ∧ ((∃ c, w' = [c] ∧ upper c = true) ∨ isNonfinalAbbrev w' = true)

/-! ## Lemmas -/

theorem dropLast_append_of {s : Str} {c : Char} (h : s.getLast? = some c) : ∃ p, s = p ++ [c] := by
  obtain ⟨p, e⟩ := List.getLast?_eq_some_iff.1 h
  exact ⟨p, e⟩

theorem abbrevRev_opener {c : Char} (hc : c ∈ openers) : ∀ (w : Str), abbrevRev (w ++ [c]) = abbrevRev w
  | [] => rfl
  | [_] => rfl
  | [_, _] => rfl
  | [_, _, _] => by
    have h1 : (c == 'e') = false := by revert c; decide
    have h2 : c ≠ 'n' := by revert c; decide
    simp [abbrevRev, h1, sNapr, h2]
  | _ :: _ :: _ :: _ :: _ => rfl

theorem abbrev_opener {c : Char} (hc : c ∈ openers) (w : Str) : isNonfinalAbbrev (c :: w) = isNonfinalAbbrev w := by
  have hn : c ≠ '\n' := by revert c; decide
  unfold isNonfinalAbbrev
  rw [List.reverse_cons]
  cases hr : w.reverse with
  | nil =>
    simp only [List.nil_append]
    split
    · rename_i r e
      exact absurd (List.cons.inj e).1 hn
    · rfl
  | cons d r =>
    by_cases hd : d = '\n'
    · subst hd
      simp only [List.cons_append]
      rw [abbrevRev_opener hc, ← List.cons_append, abbrevRev_opener hc]
    · simp only [List.cons_append]
      split
      · rename_i r' e; exact absurd (List.cons.inj e).1 hd
      · split
        · rename_i r' e; exact absurd (List.cons.inj e).1 hd
        · rw [← List.cons_append, abbrevRev_opener hc]

theorem rest_iff {upper digit : Char → Bool} (ho : ∀ c ∈ openers, upper c = false) {w r : Str} {e u : Char} : decideRest upper digit (w ++ [e]) (u :: r) = true ↔
    upper u = true ∧ digit u = false ∧ (e = '.' ∨ e = '!' ∨ e = '?') ∧ (e = '.' → ¬ NotFinal upper w) := by
  unfold decideRest
  simp only [List.getLast?_append, List.getLast?_singleton, Option.some_or]
  by_cases hu : (!upper u || digit u) = true
  · rw [if_pos hu]
    refine ⟨fun h => (nomatch h), fun h => ?_⟩
    rw [h.1, h.2.1] at hu
    exact nomatch hu
  rw [if_neg hu]
  have hu1 : upper u = true := by cases h : upper u <;> simp_all
  have hu2 : digit u = false := by cases h : digit u <;> simp_all
  by_cases he : (['.', '!', '?'].contains e) = true
  · have he' : e = '.' ∨ e = '!' ∨ e = '?' := by simpa using he
    rw [if_neg (by rw [he]; decide)]
    by_cases hd : e = '.'
    · subst hd
      rw [if_pos (by decide)]
      have key : ∀ f : Str, ((if ((f ++ ['.']).length == 2 && ((f ++ ['.']).head?.map upper).getD false) = true then false else !isNonfinalAbbrev (f ++ ['.']).dropLast) = true) ↔
          ¬ ((∃ c, f = [c] ∧ upper c = true) ∨ isNonfinalAbbrev f = true) := by
        intro f
        rw [List.dropLast_concat]
        cases f with
        | nil => simp
        | cons a f =>
          cases f with
          | nil => by_cases ha : upper a = true <;> simp [ha]
          | cons b f => simp
      have hnf : dropOpener (w ++ ['.']) = w ++ ['.'] ∧ (∀ c r, w = c :: r → c ∉ openers) ∨ ∃ c r, c ∈ openers ∧ w = c :: r ∧ dropOpener (w ++ ['.']) = r ++ ['.'] := by
        cases w with
        | nil => exact Or.inl ⟨rfl, fun c r e => nomatch e⟩
        | cons c r =>
          by_cases hc : c ∈ openers
          · exact Or.inr ⟨c, r, hc, rfl, by simp [dropOpener, hc]⟩
          · refine Or.inl ⟨by simp [dropOpener, hc], ?_⟩
            intro c' r' e
            cases e
            exact hc
      refine Iff.trans ?_ (show ¬ NotFinal upper w ↔ _ from ⟨fun h => ⟨hu1, hu2, Or.inl rfl, fun _ => h⟩, fun h => h.2.2.2 rfl⟩)
      rcases hnf with ⟨e, hn⟩ | ⟨c, r, hc, hw, e⟩
      · rw [e, key]
        refine not_congr ⟨fun h => ⟨[], w, Or.inl rfl, rfl, h⟩, ?_⟩
        rintro ⟨o, w', ho', e', h⟩
        rcases ho' with rfl | ⟨c, hc, rfl⟩
        · rw [e']; exact h
        · exact absurd hc (hn c w' e')
      · rw [e, key]
        refine not_congr ⟨fun h => ⟨[c], r, Or.inr ⟨c, hc, rfl⟩, hw, h⟩, ?_⟩
        rintro ⟨o, w', ho', e', h⟩
        rcases ho' with rfl | ⟨c', hc', rfl⟩
        · rw [hw] at e'
          have e'' : w' = c :: r := e'.symm
          subst e''
          rcases h with ⟨c', e3, h3⟩ | h
          · cases e3
            rw [ho c hc] at h3
            exact nomatch h3
          · rw [abbrev_opener hc] at h
            exact Or.inr h
        · rw [hw] at e'
          cases e'
          exact h
    · rw [if_neg (by simpa using hd)]
      exact ⟨fun _ => ⟨hu1, hu2, he', fun h => absurd h hd⟩, fun _ => rfl⟩
  · rw [if_pos (by simpa using he)]
    refine ⟨fun h => (nomatch h), fun h => ?_⟩
    exact absurd (by simpa using h.2.2.1) he

/-! ## Property C174 -/

theorem abbrevRev_iff (r : Str) : abbrevRev r = true ↔ ∃ v t, r.reverse = v ++ t ∧ (t = sNapr ∨ ∃ x y, t = ['e', x, 'g', y] ∧ x ≠ '\n' ∧ y ≠ '\n') := by
  constructor
  · intro h
    match r, h with
    | d :: c :: b :: a :: r, h =>
      refine ⟨r.reverse, [a, b, c, d], by simp, ?_⟩
      simp only [abbrevRev, Bool.or_eq_true, Bool.and_eq_true, beq_iff_eq, bne_iff_ne] at h
      rcases h with h | ⟨⟨⟨rfl, hb⟩, rfl⟩, hd⟩
      · exact Or.inl h
      · exact Or.inr ⟨b, d, rfl, hb, hd⟩
  · rintro ⟨v, t, e, h⟩
    have e' : r = t.reverse ++ v.reverse := by rw [← List.reverse_append, ← e, List.reverse_reverse]
    rw [e']
    rcases h with rfl | ⟨x, y, rfl, hx, hy⟩
    · simp [abbrevRev, sNapr]
    · simp [abbrevRev, hx, hy]

/-- **C174 (abbreviations)** Abbreviations are the words that end in `např` or in four letters the first of which is `e` and the third `g`, perhaps before a line feed. -/
theorem C174_abbrev (w : Str) : isNonfinalAbbrev w = true ↔ ∃ v t, (w = v ++ t ∨ w = v ++ t ++ ['\n']) ∧ (t = sNapr ∨ ∃ x y, t = ['e', x, 'g', y] ∧ x ≠ '\n' ∧ y ≠ '\n') := by
  unfold isNonfinalAbbrev
  split
  · rename_i r e
    have ew : w = r.reverse ++ ['\n'] := by rw [← List.reverse_reverse w, e]; simp
    have e0 : ('\n' :: r).reverse = w := by rw [← e, List.reverse_reverse]
    rw [Bool.or_eq_true, abbrevRev_iff, abbrevRev_iff, e0]
    constructor
    · rintro (⟨v, t, h, ht⟩ | ⟨v, t, h, ht⟩)
      · exact ⟨v, t, Or.inr (by rw [ew, h]), ht⟩
      · exact ⟨v, t, Or.inl h, ht⟩
    · rintro ⟨v, t, h | h, ht⟩
      · exact Or.inr ⟨v, t, h, ht⟩
      · refine Or.inl ⟨v, t, ?_, ht⟩
        rw [ew] at h
        exact List.append_cancel_right h
  · rename_i hn
    rw [abbrevRev_iff, List.reverse_reverse]
    constructor
    · rintro ⟨v, t, h, ht⟩
      exact ⟨v, t, Or.inl h, ht⟩
    · rintro ⟨v, t, h | h, ht⟩
      · exact ⟨v, t, h, ht⟩
      · exact absurd (by rw [h]; simp) (hn (v ++ t).reverse)

/-- **C174** A sentence ends after a word exactly if it ends with a period, an exclamation mark or a question mark, perhaps before one closing quote or bracket, and the next word begins with a capital
letter, perhaps after one opening quote or bracket; and what stands before a period is neither an initial nor an abbreviation of the list. -/
theorem C174_boundary {upper digit : Char → Bool} (ho : ∀ c ∈ openers, upper c = false) (first second : Str) : isBoundary upper digit first second = true ↔
    ∃ w e q o u r, first = w ++ [e] ++ q ∧ second = o ++ u :: r ∧ Opt closers q ∧ Opt openers o ∧ (e = '.' ∨ e = '!' ∨ e = '?') ∧ upper u = true ∧ digit u = false ∧
      (e = '.' → ¬ NotFinal upper w) := by
  have hce : ∀ e, (e = '.' ∨ e = '!' ∨ e = '?') → e ∉ closers := by
    rintro e (rfl | rfl | rfl) <;> decide
  have huo : ∀ u, upper u = true → u ∉ openers := by
    intro u hu h
    rw [ho u h] at hu
    exact nomatch hu
  unfold isBoundary
  constructor
  · intro h
    by_cases h0 : first = [] ∨ second = []
    · rw [if_pos h0] at h; exact nomatch h
    rw [if_neg h0] at h
    obtain ⟨c, hc⟩ : ∃ c, first.getLast? = some c := by
      cases e : first.getLast? with
      | none => exact absurd (Or.inl (List.getLast?_eq_none_iff.1 e)) h0
      | some c => exact ⟨c, rfl⟩
    obtain ⟨p, rfl⟩ := dropLast_append_of hc
    obtain ⟨b, s, rfl⟩ : ∃ b s, second = b :: s := List.exists_cons_of_ne_nil (fun e => h0 (Or.inr e))
    simp only [hc, List.dropLast_concat] at h
    obtain ⟨q, f, hq, hf, e1⟩ : ∃ q f, Opt closers q ∧ p ++ [c] = f ++ q ∧ (if c ∈ closers then p else p ++ [c]) = f := by
      by_cases hcc : c ∈ closers
      · exact ⟨[c], p, Or.inr ⟨c, hcc, rfl⟩, rfl, if_pos hcc⟩
      · exact ⟨[], p ++ [c], Or.inl rfl, by simp, if_neg hcc⟩
    obtain ⟨o, g, hog, hg, e2⟩ : ∃ o g, Opt openers o ∧ b :: s = o ++ g ∧ (if b ∈ openers then s else b :: s) = g := by
      by_cases hb : b ∈ openers
      · exact ⟨[b], s, Or.inr ⟨b, hb, rfl⟩, rfl, if_pos hb⟩
      · exact ⟨[], b :: s, Or.inl rfl, rfl, if_neg hb⟩
    rw [e1, e2] at h
    by_cases h2 : f = [] ∨ g = []
    · rw [if_pos h2] at h; exact nomatch h
    rw [if_neg h2] at h
    obtain ⟨w, e, rfl⟩ : ∃ w e, f = w ++ [e] := by
      cases e : f.getLast? with
      | none => exact absurd (Or.inl (List.getLast?_eq_none_iff.1 e)) h2
      | some c => obtain ⟨w, hw⟩ := dropLast_append_of e; exact ⟨w, c, hw⟩
    obtain ⟨u, r, rfl⟩ := List.exists_cons_of_ne_nil (fun e => h2 (Or.inr e))
    have := (rest_iff ho).1 h
    exact ⟨w, e, q, o, u, r, hf, hg, hq, hog, this.2.2.1, this.1, this.2.1, this.2.2.2⟩
  · rintro ⟨w, e, q, o, u, r, rfl, rfl, hq, hog, he, hu, hd, hn⟩
    have hrest := (rest_iff (digit := digit) ho (w := w) (r := r) (e := e) (u := u)).2 ⟨hu, hd, he, hn⟩
    have hue := huo u hu
    have hee := hce e he
    rw [if_neg (by simp)]
    rcases hq with rfl | ⟨c, hc, rfl⟩ <;> rcases hog with rfl | ⟨b, hb, rfl⟩
    · simpa [hee, hue] using hrest
    · simpa [hee, hb] using hrest
    · simpa [hc, hue] using hrest
    · simpa [hc, hb] using hrest

/-- **C174 (abbreviations, violated)** `e.g.` is an example of an abbreviation that does not end a sentence, but a sentence ends after it if the next word has a capital letter. -/
theorem C174_eg_violated {upper digit : Char → Bool} {u : Char} (hu : upper u = true) (hd : digit u = false) (ho : u ∉ openers) (r : Str) :
    isBoundary upper digit ['e', '.', 'g', '.'] (u :: r) = true := by
  have h1 : ¬ ('.' ∈ closers) := by decide
  have h2 : ¬ ('e' ∈ openers) := by decide
  have h3 : isNonfinalAbbrev ['e', '.', 'g'] = false := by decide
  simp [isBoundary, decideRest, dropOpener, h1, h2, h3, hu, hd, ho]

/-- **C174 (other words, violated)** No sentence ends with a period after a word that has an `e` and a `g` as its fourth and second last letters, such as *eggs*. -/
theorem C174_eggs_violated (upper digit : Char → Bool) (w : Str) {x y : Char} (hx : x ≠ '\n') (hy : y ≠ '\n') (second : Str) :
    isBoundary upper digit (w ++ ['e', x, 'g', y, '.']) second = false := by
  have ha : isNonfinalAbbrev (w ++ ['e', x, 'g', y]) = true := by
    unfold isNonfinalAbbrev
    simp only [List.reverse_append, List.reverse_cons, List.reverse_nil, List.nil_append, List.cons_append]
    split
    · rename_i r e; exact absurd (List.cons.inj e).1 hy
    · simp [abbrevRev, hx, hy]
  have hd : ∃ v, dropOpener (w ++ ['e', x, 'g', y, '.']) = v ++ ['e', x, 'g', y] ++ ['.'] ∧ isNonfinalAbbrev (v ++ ['e', x, 'g', y]) = true := by
    cases w with
    | nil => exact ⟨[], by simp [dropOpener, show ¬ ('e' ∈ openers) by decide], ha⟩
    | cons c r =>
      by_cases hc : c ∈ openers
      · exact ⟨r, by simp [dropOpener, hc], by rw [List.cons_append, abbrev_opener hc] at ha; exact ha⟩
      · exact ⟨c :: r, by simp [dropOpener, hc], ha⟩
  obtain ⟨v, hv, hva⟩ := hd
  have hlast : (w ++ ['e', x, 'g', y, '.']).getLast? = some '.' := by simp
  have hrest : ∀ sec, decideRest upper digit (w ++ ['e', x, 'g', y, '.']) sec = false := by
    intro sec
    unfold decideRest
    rw [hlast]
    cases sec with
    | nil => rfl
    | cons u r =>
      dsimp only
      rw [hv, List.dropLast_concat, hva]
      simp
  unfold isBoundary
  by_cases h0 : w ++ ['e', x, 'g', y, '.'] = [] ∨ second = []
  · rw [if_pos h0]
  · rw [if_neg h0, hlast]
    simp only [show ¬ ('.' ∈ closers) by decide, if_false, hrest, ite_self]

/-- The groups of words, from the words of the current group, the last of them and those that follow -/
def groupsFrom (b : Str → Str → Bool) : List Str → Str → List Str → List (List Str)
  | cur, _, [] => [cur]
  | cur, prev, t :: ts => if b prev t then cur :: groupsFrom b [t] t ts else groupsFrom b (cur ++ [t]) t ts

theorem join_snoc (l : List Str) (h : l ≠ []) (t : Str) : join [' '] (l ++ [t]) = join [' '] l ++ ' ' :: t := by
  induction l with
  | nil => exact absurd rfl h
  | cons a l ih =>
    cases l with
    | nil => simp [join]
    | cons c l =>
      have := ih (by simp)
      simp only [List.cons_append, join] at this ⊢
      rw [this]
      simp

theorem groups_spec (b : Str → Str → Bool) : ∀ (ts : List Str) (cur : List Str) (prev : Str), cur.getLast? = some prev → (∀ p x y q, cur = p ++ x :: y :: q → b x y = false) →
    (groupsFrom b cur prev ts).flatten = cur ++ ts ∧ (∀ g ∈ groupsFrom b cur prev ts, g ≠ []) ∧ segLoop false b prev (join [' '] cur) ts = (groupsFrom b cur prev ts).map (join [' ']) ∧
    (∀ g ∈ groupsFrom b cur prev ts, ∀ p x y q, g = p ++ x :: y :: q → b x y = false) ∧
    (∀ gs x p y q hs, groupsFrom b cur prev ts = gs ++ (p ++ [x]) :: (y :: q) :: hs → b x y = true) ∧ (∃ g gs, groupsFrom b cur prev ts = (cur ++ g) :: gs)
  | [], cur, prev, hl, hi => by
    have hc : cur ≠ [] := by rintro rfl; simp at hl
    refine ⟨by simp [groupsFrom], by simp [groupsFrom, hc], by simp [groupsFrom, segLoop], ?_, ?_, [], [], by simp [groupsFrom]⟩
    · intro g hg
      rw [groupsFrom, List.mem_singleton] at hg
      rw [hg]
      exact hi
    · intro gs x p y q hs e
      have := congrArg List.length e
      simp [groupsFrom] at this
      omega
  | t :: ts, cur, prev, hl, hi => by
    have hc : cur ≠ [] := by rintro rfl; simp at hl
    rw [groupsFrom, segLoop]
    by_cases hb : b prev t = true
    · rw [if_pos hb, if_pos hb]
      obtain ⟨h1, h2, h3, h4, h5, g0, gs0, h6⟩ := groups_spec b ts [t] t rfl (by
        intro p x y q e
        have := congrArg List.length e
        simp at this
        omega)
      refine ⟨by simp [h1], ?_, ?_, ?_, ?_, [], _, by rw [List.append_nil]⟩
      · intro g hg
        rcases List.mem_cons.1 hg with rfl | hg
        · exact hc
        · exact h2 g hg
      · rw [List.map_cons, ← h3]
        simp [join]
      · intro g hg
        rcases List.mem_cons.1 hg with rfl | hg
        · exact hi
        · exact h4 g hg
      · intro gs x p y q hs e
        cases gs with
        | nil =>
          obtain ⟨e1, e2⟩ := List.cons.inj e
          rw [h6] at e2
          have e3 := (List.cons.inj (List.cons.inj e2).1).1
          rw [e1] at hl
          simp at hl
          rw [hl, ← e3]
          exact hb
        | cons g gs => exact h5 gs x p y q hs (List.cons.inj e).2
    · rw [if_neg hb, if_neg hb]
      obtain ⟨h1, h2, h3, h4, h5, g0, gs0, h6⟩ := groups_spec b ts (cur ++ [t]) t (by simp) (by
        intro p x y q e
        rcases List.eq_nil_or_concat q with rfl | ⟨q', z, rfl⟩
        · have e1 : cur ++ [t] = (p ++ [x]) ++ [y] := by rw [e]; simp
          obtain ⟨e2, e3⟩ := List.append_inj' e1 rfl
          rw [e2] at hl
          simp at hl
          rw [hl, ← (List.cons.inj e3).1]
          simpa using hb
        · have e1 : cur ++ [t] = (p ++ x :: y :: q') ++ [z] := by rw [e]; simp
          exact hi p x y q' (List.append_inj' e1 rfl).1)
      refine ⟨by simp [h1], h2, ?_, h4, h5, t :: g0, gs0, by rw [h6]; simp⟩
      rw [← h3, join_snoc cur hc]

/-- **C174 (sentences)** Within the segments of a text no sentence ends and after each of them one does: the text is divided into groups of words. -/
theorem C174_segments (upper digit : Char → Bool) (s : Str) : ∃ groups : List (List Str), groups.flatten = split ' ' s ∧ (∀ g ∈ groups, g ≠ []) ∧
    segment false (isBoundary upper digit) s = groups.map (join [' ']) ∧
    (∀ g ∈ groups, ∀ p a b q, g = p ++ a :: b :: q → isBoundary upper digit a b = false) ∧
    (∀ gs a p b q hs, groups = gs ++ (p ++ [a]) :: (b :: q) :: hs → isBoundary upper digit a b = true) := by
  obtain ⟨t, ts, e⟩ := List.exists_cons_of_ne_nil (split_ne_nil ' ' s)
  obtain ⟨h1, h2, h3, h4, h5, -⟩ := groups_spec (isBoundary upper digit) ts [t] t rfl (by
    intro p x y q e
    have := congrArg List.length e
    simp at this
    omega)
  refine ⟨groupsFrom (isBoundary upper digit) [t] t ts, by rw [h1, e]; rfl, h2, ?_, h4, h5⟩
  unfold segment
  rw [e]
  exact h3

/-! ## Examples -/

def exUpper (c : Char) : Bool := 'A' ≤ c && c ≤ 'Z'
def exDigit (c : Char) : Bool := '0' ≤ c && c ≤ '9'

example : isBoundary exUpper exDigit ['a', '.', ')'] ['(', 'B'] = true := by decide
example : isBoundary exUpper exDigit ['"', 'A', '.'] ['M'] = false := by decide
example : isBoundary exUpper exDigit ['n', 'a', 'p', 'ř', '.'] ['M'] = false := by decide
example : isBoundary exUpper exDigit ['e', '.', 'g', '.'] ['M'] = true := C174_eg_violated (by decide) (by decide) (by decide) []
example : isBoundary exUpper exDigit ['e', 'g', 'g', 's', '.'] ['M'] = false := C174_eggs_violated _ _ [] (by decide) (by decide) _

end Verif.Text.Boundary
