import Verif.Conllu.Meta

/-!
# Comment lines of a CoNLL-U sentence: theorems
-/

namespace Verif.Conllu.Meta
open Verif.Py

/-! ## Reading single lines -/

theorem after_append (p s : Str) : after p (p ++ s) = some s := by
  induction p with
  | nil => rfl
  | cons c p ih => rw [List.cons_append, after, if_pos rfl, ih]

/-- A value that `\s*` leaves alone. -/
def Solid (v : Str) : Prop := v ≠ [] ∧ ∀ c, v.head? = some c → isWs c = false

theorem skipWs_solid {v : Str} (h : ∀ c, v.head? = some c → isWs c = false) : skipWs v = v := dropWhile_of_head h

theorem skipWs_space {v : Str} (h : ∀ c, v.head? = some c → isWs c = false) : skipWs (' ' :: v) = v := by
  show (' ' :: v).dropWhile isWs = v
  rw [List.dropWhile_cons, if_pos (by decide)]
  exact skipWs_solid h

theorem skipWs_eq (r : Str) : skipWs (' ' :: '=' :: r) = '=' :: r := skipWs_space (by intro c hc; simp at hc; rw [← hc]; decide)

theorem nonWs_all {v : Str} (h : ∀ c ∈ v, isWs c = false) : nonWs v = v := by
  unfold nonWs
  induction v with
  | nil => rfl
  | cons c v ih =>
    rw [List.takeWhile_cons, if_pos (by simp [h c List.mem_cons_self]), ih (fun d hd => h d (List.mem_cons_of_mem _ hd))]

/-- A word: not empty, without white space. -/
def Word (v : Str) : Prop := v ≠ [] ∧ ∀ c ∈ v, isWs c = false

theorem Word.head {v : Str} (h : Word v) : ∀ c, v.head? = some c → isWs c = false :=
  fun c hc => h.2 c (List.mem_of_mem_head? hc)

theorem classify_sentId {v : Str} (h : Word v) : classify (('#' :: lSentId) ++ v) = .sentId v := by
  have e : ('#' :: lSentId) ++ v = kSentId ++ (' ' :: '=' :: ' ' :: v) := rfl
  unfold classify
  have : matchSentId (('#' :: lSentId) ++ v) = some v := by
    unfold matchSentId
    rw [e, after_append]
    simp only [skipWs_eq, skipWs_space h.head]
    rw [if_pos ⟨trivial, h.1⟩, nonWs_all h.2]
  rw [this]

theorem classify_text {t : Str} (h : ∀ c, t.head? = some c → isWs c = false) :
    classify (('#' :: lText) ++ t) = .text t := by
  have e : ('#' :: lText) ++ t = kText ++ (' ' :: '=' :: ' ' :: t) := rfl
  unfold classify
  have h1 : matchSentId (('#' :: lText) ++ t) = none := by
    unfold matchSentId
    have : after kSentId (('#' :: lText) ++ t) = none := rfl
    rw [this]
  have h2 : matchText (('#' :: lText) ++ t) = some t := by
    unfold matchText
    rw [e, after_append]
    simp only [skipWs_eq, skipWs_space h]
    rw [if_pos trivial]
  rw [h1, h2]

theorem wsRest_solid {v : Str} (h : Solid v) : wsRest (' ' :: v) = some v := by
  unfold wsRest
  rw [skipWs_space h.2, if_neg h.1]

theorem matchMark_id {v : Str} (h : Solid v) : matchMark (lId ++ v) = some (.id v) := by
  have e : lId ++ v = ' ' :: (kId ++ (' ' :: '=' :: ' ' :: v)) := rfl
  unfold matchMark
  have hs : skipWs (' ' :: (kId ++ (' ' :: '=' :: ' ' :: v))) = kId ++ (' ' :: '=' :: ' ' :: v) :=
    skipWs_space (by
      intro c hc
      have : 'i' = c := Option.some.inj hc
      rw [← this]; decide)
  rw [e, if_neg (by simp), hs, if_neg (by intro h; have := congrArg List.length h; simp at this), after_append]
  simp only [skipWs_eq]
  rw [if_pos trivial, wsRest_solid h]
  rfl

/-- A mark that can be written: not the empty string, not starting with white space. -/
def MarkOk : Mark → Prop
  | .id v => Solid v
  | _ => True

theorem matchMark_line {name : Str} {m : Mark} (h : MarkOk m) (ht : m.truthy = true) :
    (after name (markLine name m)).bind matchMark = some m := by
  cases m with
  | absent => cases ht
  | flag =>
    have := after_append name []
    rw [List.append_nil] at this
    simp [markLine, this, matchMark]
  | id v =>
    rw [markLine, List.append_assoc, after_append, Option.bind_some]
    exact matchMark_id h

theorem after_cons (c : Char) (p s : Str) : after (c :: p) (c :: s) = after p s := by rw [after, if_pos rfl]

theorem classify_newpar {m : Mark} (h : MarkOk m) (ht : m.truthy = true) :
    classify ('#' :: markLine lNewpar m) = .newpar m := by
  have h0 : ∃ r, markLine lNewpar m = lNewpar ++ r := by
    cases m with
    | absent => exact ⟨[], rfl⟩
    | flag => exact ⟨[], rfl⟩
    | id v => exact ⟨lId ++ v, rfl⟩
  have h3 := matchMark_line (name := lNewpar) h ht
  obtain ⟨r, hr⟩ := h0
  rw [hr] at h3 ⊢
  unfold classify
  have h1 : matchSentId ('#' :: (lNewpar ++ r)) = none := rfl
  have h2 : matchText ('#' :: (lNewpar ++ r)) = none := rfl
  rw [h1, h2]
  have h4 : after kNewpar ('#' :: (lNewpar ++ r)) = after lNewpar (lNewpar ++ r) := rfl
  rw [h4, h3]

theorem classify_newdoc {m : Mark} (h : MarkOk m) (ht : m.truthy = true) :
    classify ('#' :: markLine lNewdoc m) = .newdoc m := by
  have h0 : ∃ r, markLine lNewdoc m = lNewdoc ++ r := by
    cases m with
    | absent => exact ⟨[], rfl⟩
    | flag => exact ⟨[], rfl⟩
    | id v => exact ⟨lId ++ v, rfl⟩
  have h3 := matchMark_line (name := lNewdoc) h ht
  obtain ⟨r, hr⟩ := h0
  rw [hr] at h3 ⊢
  unfold classify
  have h1 : matchSentId ('#' :: (lNewdoc ++ r)) = none := rfl
  have h2 : matchText ('#' :: (lNewdoc ++ r)) = none := rfl
  have h2' : (after kNewpar ('#' :: (lNewdoc ++ r))).bind matchMark = none := rfl
  rw [h1, h2, h2']
  have h4 : after kNewdoc ('#' :: (lNewdoc ++ r)) = after lNewdoc (lNewdoc ++ r) := rfl
  rw [h4, h3]

theorem classify_entity {v : Str} (h : Word v) : classify (('#' :: lEntity) ++ v) = .entity v := by
  unfold classify
  have h1 : matchSentId (('#' :: lEntity) ++ v) = none := rfl
  have h2 : matchText (('#' :: lEntity) ++ v) = none := rfl
  have h3 : (after kNewpar (('#' :: lEntity) ++ v)).bind matchMark = none := rfl
  have h4 : (after kNewdoc (('#' :: lEntity) ++ v)).bind matchMark = none := rfl
  have h5 : (after kDocJson (('#' :: lEntity) ++ v)).bind matchJson = none := rfl
  have h6 : (after kJson (('#' :: lEntity) ++ v)).bind matchJson = none := rfl
  have h7 : matchEntity (('#' :: lEntity) ++ v) = some v := by
    have e : ('#' :: lEntity) ++ v = kGlobal ++ ('.' :: (kEntity ++ (' ' :: '=' :: ' ' :: v))) := rfl
    unfold matchEntity
    rw [e, after_append]
    simp only [after_append, skipWs_eq, skipWs_space h.head]
    rw [if_pos ⟨trivial, h.1⟩, nonWs_all h.2]
  rw [h1, h2, h3, h4, h5, h6, h7]

/-- A key of a json comment and its value: the key has no space and no `=`. -/
def JsonOk (p : Str × Str) : Prop := p.1 ≠ [] ∧ (∀ c ∈ p.1, c ≠ ' ' ∧ c ≠ '=') ∧ Solid p.2

theorem classify_json {p : Str × Str} (h : JsonOk p) : classify (jsonLine p) = .json false p.1 p.2 := by
  obtain ⟨k, v⟩ := p
  obtain ⟨hk, hkc, hv⟩ := h
  have e : jsonLine (k, v) = kJson ++ (k ++ (' ' :: '=' :: ' ' :: v)) := by
    simp only [jsonLine, lEq, List.append_assoc, List.cons_append, List.nil_append]
  rw [e]
  unfold classify
  generalize hx : k ++ (' ' :: '=' :: ' ' :: v) = x
  have h1 : matchSentId (kJson ++ x) = none := rfl
  have h2 : matchText (kJson ++ x) = none := rfl
  have h3 : (after kNewpar (kJson ++ x)).bind matchMark = none := rfl
  have h4 : (after kNewdoc (kJson ++ x)).bind matchMark = none := rfl
  have h5 : (after kDocJson (kJson ++ x)).bind matchJson = none := rfl
  have h6 : matchJson x = some (k, v) := by
    have ht : x.takeWhile (fun c => c ≠ ' ' ∧ c ≠ '=') = k := by
      rw [← hx]
      rw [List.takeWhile_append_of_pos (by intro c hc; simpa using hkc c hc)]
      simp
    unfold matchJson
    rw [ht]
    simp only
    rw [if_neg hk]
    have hd : x.drop k.length = ' ' :: '=' :: ' ' :: v := by rw [← hx]; simp
    rw [hd]
    simp only [skipWs_eq]
    rw [if_pos trivial, wsRest_solid hv]
    rfl
  rw [h1, h2, h3, h4, h5, after_append, Option.bind_some, h6]

/-! ## Folding the events -/

theorem foldl_comment (es : List Ev) : ∀ a, (es.foldl apply a).comment = a.comment ++ es.flatMap Ev.comment := by
  induction es with
  | nil => intro a; simp
  | cons e es ih => intro a; rw [List.foldl_cons, ih, List.flatMap_cons]; simp [apply]

theorem foldl_sentId {s : Str} (es : List Ev) (h : ∀ v, Ev.sentId v ∈ es → v = s) :
    ∀ a, ((∃ v, Ev.sentId v ∈ es) ∨ a.sentId = some s) → (es.foldl apply a).sentId = some s := by
  induction es with
  | nil => intro a h; rcases h with ⟨v, h⟩ | h; cases h; exact h
  | cons e es ih =>
    intro a ha
    rw [List.foldl_cons]
    have ih := ih (fun v hv => h v (List.mem_cons_of_mem _ hv))
    apply ih
    cases e with
    | sentId v => exact Or.inr (by show some v = some s; rw [h v List.mem_cons_self])
    | _ =>
      rcases ha with ⟨v, hv⟩ | ha
      · rcases List.mem_cons.1 hv with hv | hv
        · cases hv
        · exact Or.inl ⟨v, hv⟩
      · exact Or.inr ha

theorem foldl_text {s : Str} (es : List Ev) (h : ∀ v, Ev.text v ∈ es → v = s) :
    ∀ a, ((∃ v, Ev.text v ∈ es) ∨ a.text = some s) → (es.foldl apply a).text = some s := by
  induction es with
  | nil => intro a h; rcases h with ⟨v, h⟩ | h; cases h; exact h
  | cons e es ih =>
    intro a ha
    rw [List.foldl_cons]
    have ih := ih (fun v hv => h v (List.mem_cons_of_mem _ hv))
    apply ih
    cases e with
    | text v => exact Or.inr (by show some v = some s; rw [h v List.mem_cons_self])
    | _ =>
      rcases ha with ⟨v, hv⟩ | ha
      · rcases List.mem_cons.1 hv with hv | hv
        · cases hv
        · exact Or.inl ⟨v, hv⟩
      · exact Or.inr ha

theorem foldl_entity {s : Str} (es : List Ev) (h : ∀ v, Ev.entity v ∈ es → v = s) :
    ∀ a, ((∃ v, Ev.entity v ∈ es) ∨ a.entity = some s) → (es.foldl apply a).entity = some s := by
  induction es with
  | nil => intro a h; rcases h with ⟨v, h⟩ | h; cases h; exact h
  | cons e es ih =>
    intro a ha
    rw [List.foldl_cons]
    have ih := ih (fun v hv => h v (List.mem_cons_of_mem _ hv))
    apply ih
    cases e with
    | entity v => exact Or.inr (by show some v = some s; rw [h v List.mem_cons_self])
    | _ =>
      rcases ha with ⟨v, hv⟩ | ha
      · rcases List.mem_cons.1 hv with hv | hv
        · cases hv
        · exact Or.inl ⟨v, hv⟩
      · exact Or.inr ha

theorem foldl_newdoc {s : Mark} (es : List Ev) (h : ∀ v, Ev.newdoc v ∈ es → v = s) :
    ∀ a, ((∃ v, Ev.newdoc v ∈ es) ∨ a.newdoc = s) → (es.foldl apply a).newdoc = s := by
  induction es with
  | nil => intro a h; rcases h with ⟨v, h⟩ | h; cases h; exact h
  | cons e es ih =>
    intro a ha
    rw [List.foldl_cons]
    have ih := ih (fun v hv => h v (List.mem_cons_of_mem _ hv))
    apply ih
    cases e with
    | newdoc v => exact Or.inr (h v List.mem_cons_self)
    | _ =>
      rcases ha with ⟨v, hv⟩ | ha
      · rcases List.mem_cons.1 hv with hv | hv
        · cases hv
        · exact Or.inl ⟨v, hv⟩
      · exact Or.inr ha

theorem foldl_newpar {s : Mark} (es : List Ev) (h : ∀ v, Ev.newpar v ∈ es → v = s) :
    ∀ a, ((∃ v, Ev.newpar v ∈ es) ∨ a.newpar = s) → (es.foldl apply a).newpar = s := by
  induction es with
  | nil => intro a h; rcases h with ⟨v, h⟩ | h; cases h; exact h
  | cons e es ih =>
    intro a ha
    rw [List.foldl_cons]
    have ih := ih (fun v hv => h v (List.mem_cons_of_mem _ hv))
    apply ih
    cases e with
    | newpar v => exact Or.inr (h v List.mem_cons_self)
    | _ =>
      rcases ha with ⟨v, hv⟩ | ha
      · rcases List.mem_cons.1 hv with hv | hv
        · cases hv
        · exact Or.inl ⟨v, hv⟩
      · exact Or.inr ha

/-- The json comment of an event. -/
def Ev.json? : Ev → Option (Bool × Str × Str)
  | .json d k v => some (d, k, v)
  | _ => none

theorem foldl_json (es : List Ev) : ∀ a, (es.foldl apply a).json = a.json ++ es.filterMap Ev.json? := by
  induction es with
  | nil => intro a; simp
  | cons e es ih =>
    intro a
    rw [List.foldl_cons, ih]
    cases e with
    | json d k v =>
      rw [List.filterMap_cons_some (by rfl : Ev.json? (.json d k v) = some (d, k, v))]
      simp [apply]
    | _ => rw [List.filterMap_cons_none (by rfl)]; rfl

/-! ## The lines of a comment -/

theorem splitlines_line {l : Str} (h : ∀ c ∈ l, isBreak c = false) : ∀ (cur x : Str),
    splitlines cur (l ++ '\n' :: x) = (cur.reverse ++ l) :: splitlines [] x := by
  induction l with
  | nil =>
    intro cur x
    rw [List.nil_append, splitlines, if_neg (by simp), if_pos (by decide)]
    simp
  | cons c l ih =>
    intro cur x
    have hc := h c List.mem_cons_self
    rw [List.cons_append, splitlines, if_neg, if_neg (by simp [hc]), ih (fun d hd => h d (List.mem_cons_of_mem _ hd))]
    · simp
    · rintro ⟨rfl, _⟩
      exact absurd hc (by decide)

theorem splitlines_no_break : ∀ (s cur : Str), (∀ c ∈ cur, isBreak c = false) →
    ∀ l ∈ splitlines cur s, ∀ c ∈ l, isBreak c = false := by
  intro s
  induction s with
  | nil =>
    intro cur h l hl
    rw [splitlines] at hl
    split at hl
    · cases hl
    · rw [List.mem_singleton] at hl
      rw [hl]
      intro c hc
      exact h c (List.mem_reverse.1 hc)
  | cons d s ih =>
    intro cur h l hl
    rw [splitlines] at hl
    split at hl
    · exact ih cur h l hl
    · split at hl
      · rcases List.mem_cons.1 hl with hl | hl
        · rw [hl]; intro c hc; exact h c (List.mem_reverse.1 hc)
        · exact ih [] (by simp) l hl
      · rename_i hd
        refine ih (d :: cur) ?_ l hl
        intro c hc
        rcases List.mem_cons.1 hc with hc | hc
        · rw [hc]; simpa using hd
        · exact h c hc

theorem splitlines_join (ls : List Str) (h : ∀ l ∈ ls, ∀ c ∈ l, isBreak c = false) :
    splitlines [] (ls.flatMap (fun l => l ++ ['\n'])) = ls := by
  induction ls with
  | nil => rfl
  | cons l ls ih =>
    rw [List.flatMap_cons, List.append_assoc]
    show splitlines [] (l ++ '\n' :: ls.flatMap (fun l => l ++ ['\n'])) = _
    rw [splitlines_line (h l List.mem_cons_self), ih (fun l' hl => h l' (List.mem_cons_of_mem _ hl))]
    rfl

/-- The placeholders. -/
def placeholders : List Str :=
  [pSentId, pText, pNewdoc, pNewpar, pEntity]

/-- The free comments of a tree: the lines of `comment` that are neither placeholders nor empty. -/
def freeComments (comment : Str) : List Str :=
  (splitlines [] comment).filter (fun c => decide (c ∉ placeholders ∧ c ≠ []))

/-- The line an event leaves in the comment. -/
def Ev.line : Ev → Option Str
  | .sentId _ => some pSentId
  | .text _ => some pText
  | .newpar _ => some pNewpar
  | .newdoc _ => some pNewdoc
  | .json _ _ _ => none
  | .entity _ => some pEntity
  | .free c => some c

theorem flatMap_comment (es : List Ev) :
    es.flatMap Ev.comment = (es.filterMap Ev.line).flatMap (fun l => l ++ ['\n']) := by
  induction es with
  | nil => rfl
  | cons e es ih =>
    rw [List.flatMap_cons, ih]
    cases e with
    | json d k v => rw [List.filterMap_cons_none (by rfl)]; rfl
    | _ => rw [List.filterMap_cons_some (by rfl), List.flatMap_cons]; rfl

/-- The free comment of an event. -/
def Ev.free? : Ev → Option Str
  | .free c => some c
  | _ => none

theorem comment_lines (es : List Ev) (h : ∀ c, Ev.free c ∈ es → ∀ d ∈ c, isBreak d = false) :
    splitlines [] (es.flatMap Ev.comment) = es.filterMap Ev.line := by
  rw [flatMap_comment]
  apply splitlines_join
  intro l hl
  obtain ⟨e, he, hel⟩ := List.mem_filterMap.1 hl
  cases e with
  | free c =>
    have : c = l := by simpa [Ev.line] using hel
    rw [← this]; exact h c he
  | json d k v => simp [Ev.line] at hel
  | _ =>
    have : l ∈ placeholders := by
      simp only [Ev.line, Option.some.injEq] at hel
      rw [← hel]; decide
    have hp : ∀ l ∈ placeholders, ∀ c ∈ l, isBreak c = false := by decide
    exact hp l this

theorem freeComments_events (es : List Ev)
    (h : ∀ c, Ev.free c ∈ es → (∀ d ∈ c, isBreak d = false) ∧ c ∉ placeholders ∧ c ≠ []) :
    freeComments (es.flatMap Ev.comment) = es.filterMap Ev.free? := by
  unfold freeComments
  rw [comment_lines es (fun c hc => (h c hc).1)]
  induction es with
  | nil => rfl
  | cons e es ih =>
    have ih := ih (fun c hc => h c (List.mem_cons_of_mem _ hc))
    cases e with
    | free c =>
      have := h c List.mem_cons_self
      rw [List.filterMap_cons_some (by rfl : Ev.line (.free c) = some c),
        List.filterMap_cons_some (by rfl : Ev.free? (.free c) = some c),
        List.filter_cons_of_pos (by simp [this.2.1, this.2.2]), ih]
    | json d k v =>
      rw [List.filterMap_cons_none (by rfl), List.filterMap_cons_none (by rfl), ih]
    | _ =>
      rw [List.filterMap_cons_some (by rfl), List.filterMap_cons_none (by rfl), List.filter_cons_of_neg (by
        simp [placeholders]), ih]

/-! ## The writer -/

/-- The lines that may be printed in addition to the comment lines. -/
def W.extras (w : W) : List Str :=
  (if w.printSentId then
    (if w.newdoc.truthy then ['#' :: w.newdocLine] ++ (w.ge.toList.map (fun g => '#' :: entityLine g)) else []) ++
    (if w.newpar.truthy then ['#' :: w.newparLine] else []) ++ ['#' :: w.sentIdLine]
  else []) ++
  (if w.printText then ['#' :: w.textLine] else [])

/-- Invariant of printing: what is printed are the first comment lines, in order, and some of the lines `X`. -/
structure Inv (cl : List (Option Str)) (X : List Str) (s : St) : Prop where
  order : ∀ {β : Type} (f : Str → Option β), (∀ l ∈ X, f l = none) →
    s.2.filterMap f = (shown (cl.take s.1)).filterMap f
  incl : ∀ l ∈ s.2, l ∈ shown (cl.take s.1) ∨ l ∈ X
  all : ∀ l ∈ shown (cl.take s.1), l ∈ s.2

theorem shown_append (a b : List (Option Str)) : shown (a ++ b) = shown a ++ shown b := List.filterMap_append

theorem take_upto (cl : List (Option Str)) {k i : Nat} (h : k ≤ i + 1) :
    cl.take (i + 1) = cl.take k ++ (cl.take (i + 1)).drop k := by
  conv => lhs; rw [← List.take_append_drop k (cl.take (i + 1))]
  rw [List.take_take, Nat.min_eq_left h]

theorem Inv.extra {cl : List (Option Str)} {X : List Str} {s : St} (h : Inv cl X s) {l : Str} (hl : l ∈ X) :
    Inv cl X (s.1, s.2 ++ [l]) where
  order := by
    intro β f hf
    show (s.2 ++ [l]).filterMap f = _
    rw [List.filterMap_append, h.order f hf]
    simp [hf l hl]
  incl := by
    intro l' hl'
    rcases List.mem_append.1 hl' with h' | h'
    · exact h.incl l' h'
    · rw [List.mem_singleton] at h'
      exact Or.inr (by rw [h']; exact hl)
  all := fun l' hl' => List.mem_append_left _ (h.all l' hl')

theorem Inv.step {cl : List (Option Str)} {X : List Str} {s : St} (h : Inv cl X s) {line : Str} (hl : '#' :: line ∈ X)
    (i : Option Nat) : Inv cl X (step cl line i s) := by
  cases i with
  | none => exact h.extra hl
  | some i =>
    show Inv cl X (if s.1 ≤ i then (i + 1, s.2 ++ shown ((cl.take (i + 1)).drop s.1)) else s)
    by_cases hk : s.1 ≤ i
    · rw [if_pos hk]
      have ht := take_upto cl (k := s.1) (i := i) (by omega)
      refine ⟨?_, ?_, ?_⟩
      · intro β f hf
        show (s.2 ++ shown ((cl.take (i + 1)).drop s.1)).filterMap f = (shown (cl.take (i + 1))).filterMap f
        conv => rhs; rw [ht]
        rw [shown_append, List.filterMap_append, List.filterMap_append, h.order f hf]
      · intro l hl'
        show l ∈ shown (cl.take (i + 1)) ∨ l ∈ X
        rw [ht, shown_append]
        rcases List.mem_append.1 hl' with h' | h'
        · rcases h.incl l h' with h'' | h''
          · exact Or.inl (List.mem_append_left _ h'')
          · exact Or.inr h''
        · exact Or.inl (List.mem_append_right _ h')
      · intro l hl'
        have hl' : l ∈ shown (cl.take (i + 1)) := hl'
        rw [ht, shown_append] at hl'
        rcases List.mem_append.1 hl' with h' | h'
        · exact List.mem_append_left _ (h.all l h')
        · exact List.mem_append_right _ h'
    · rw [if_neg hk]; exact h

theorem step_mono {cl : List (Option Str)} {line : Str} {i : Option Nat} {s : St} {l : Str} (h : l ∈ s.2) :
    l ∈ (step cl line i s).2 := by
  cases i with
  | none => exact List.mem_append_left _ h
  | some i =>
    show l ∈ (if s.1 ≤ i then (i + 1, s.2 ++ shown ((cl.take (i + 1)).drop s.1)) else s).2
    split
    · exact List.mem_append_left _ h
    · exact h

theorem Inv.columns (cl : List (Option Str)) (X : List Str) : Inv cl X (columnsLine cl) := by
  have h0 : Inv cl X (0, []) :=
    ⟨by intro β f _; rfl, (by intro l h; cases h), (by intro l h; exact h)⟩
  unfold columnsLine
  split
  · rename_i c rest
    split
    · rename_i hc
      have hne : c ≠ [] := by rintro rfl; exact absurd hc (by decide)
      have e : shown ((some c :: rest).take 1) = ['#' :: c] := by simp [shown, hne]
      refine ⟨?_, ?_, ?_⟩
      · intro β f _
        show ['#' :: c].filterMap f = (shown ((some c :: rest).take 1)).filterMap f
        rw [e]
      · intro l hl
        left
        show l ∈ shown ((some c :: rest).take 1)
        rw [e]; exact hl
      · intro l hl
        have hl : l ∈ shown ((some c :: rest).take 1) := hl
        rw [e] at hl; exact hl
    · exact h0
  · exact h0

theorem mem_lastIdx {c : Str} {ls : List Str} : lastIdx c ls ≠ none ↔ c ∈ ls := by
  induction ls with
  | nil => simp [lastIdx]
  | cons l ls ih =>
    rw [lastIdx]
    cases h : lastIdx c ls with
    | some i =>
      have : c ∈ ls := ih.1 (by rw [h]; simp)
      simp [this]
    | none =>
      have : c ∉ ls := fun hc => ih.2 hc h
      by_cases e : l = c
      · simp [e]
      · simp only [if_neg e, List.mem_cons]
        constructor
        · intro h; exact absurd rfl h
        · rintro (h | h)
          · exact absurd h.symm e
          · exact absurd h this

theorem special_inv (w : W) (hsid : w.printSentId = true) (ls : List Str) (cl : List (Option Str)) {s : St} (h : Inv cl w.extras s) :
    Inv cl w.extras (w.special ls cl s) := by
  unfold W.special
  have hs : '#' :: w.sentIdLine ∈ w.extras := by simp [W.extras, hsid]
  refine Inv.step ?_ hs _
  have ha : Inv cl w.extras (if w.newdoc.truthy = true then
      match w.ge with
      | some g => Meta.step cl (entityLine g) (lastIdx pEntity ls)
          (Meta.step cl w.newdocLine (lastIdx pNewdoc ls) s)
      | none => Meta.step cl w.newdocLine (lastIdx pNewdoc ls) s
    else s) := by
    split
    · rename_i hd
      have hn : '#' :: w.newdocLine ∈ w.extras := by simp [W.extras, hd, hsid]
      have h1 := Inv.step h hn (lastIdx pNewdoc ls)
      cases hg : w.ge with
      | none => exact h1
      | some g => exact Inv.step h1 (by simp [W.extras, hd, hg, hsid]) _
    · exact h
  by_cases hp : w.newpar.truthy = true
  · rw [if_pos hp]
    exact Inv.step ha (by simp [W.extras, hp, hsid]) _
  · rw [if_neg hp]; exact ha

/-- What `write` prints. -/
theorem write_inv (w : W) {out : List Str} (h : w.write = some out) :
    ∃ body, out = body ++ w.json.map jsonLine ∧
      (∀ {β : Type} (f : Str → Option β), (∀ l ∈ w.extras, f l = none) →
        body.filterMap f = (shown ((splitlines [] w.comment).map w.replace)).filterMap f) ∧
      (∀ l ∈ body, l ∈ shown ((splitlines [] w.comment).map w.replace) ∨ l ∈ w.extras) ∧
      (∀ l ∈ shown ((splitlines [] w.comment).map w.replace), l ∈ body) ∧
      (w.printSentId = true → pSentId ∉ splitlines [] w.comment → '#' :: w.sentIdLine ∈ body) ∧
      (w.printText = true → pText ∉ splitlines [] w.comment → '#' :: w.textLine ∈ body) ∧
      (w.printSentId = true → w.newdoc.truthy = true → pNewdoc ∉ splitlines [] w.comment → '#' :: w.newdocLine ∈ body) ∧
      (w.printSentId = true → w.newpar.truthy = true → pNewpar ∉ splitlines [] w.comment → '#' :: w.newparLine ∈ body) ∧
      (w.printSentId = true → w.newdoc.truthy = true → ∀ g, w.ge = some g → pEntity ∉ splitlines [] w.comment →
        '#' :: entityLine g ∈ body) := by
  unfold W.write at h
  simp only at h
  generalize hls : splitlines [] w.comment = ls at h
  generalize hcl : ls.map w.replace = cl at h
  split at h
  · cases h
  · generalize hs1 : (if w.printSentId = true then w.special ls cl (columnsLine cl) else columnsLine cl) = s1 at h
    have hi1 : Inv cl w.extras s1 := by
      rw [← hs1]
      split
      · rename_i hs
        exact special_inv w hs ls cl (Inv.columns cl w.extras)
      · exact Inv.columns cl w.extras
    have hnone : ∀ {c : Str}, c ∉ ls → lastIdx c ls = none := by
      intro c hc
      cases e : lastIdx c ls with
      | none => rfl
      | some i => exact absurd (mem_lastIdx.1 (by rw [e]; simp)) hc
    generalize hs2 : (if w.printText = true ∧ lastIdx pText ls = none then (s1.1, s1.2 ++ ['#' :: w.textLine]) else s1 : St) = s2 at h
    have hi2 : Inv cl w.extras s2 := by
      rw [← hs2]
      split
      · rename_i ht
        exact hi1.extra (by simp [W.extras, ht.1])
      · exact hi1
    have hm2 : ∀ l ∈ s1.2, l ∈ s2.2 := by
      intro l hl
      rw [← hs2]
      split
      · exact List.mem_append_left _ hl
      · exact hl
    injection h with h
    refine ⟨s2.2 ++ shown (cl.drop s2.1), h.symm, ?_, ?_, ?_, ?_, ?_, ?_, ?_, ?_⟩
    · intro β f hf
      rw [List.filterMap_append, hi2.order f hf, ← List.filterMap_append, ← shown_append, List.take_append_drop]
    · intro l hl
      rw [← List.take_append_drop s2.1 cl, shown_append]
      rcases List.mem_append.1 hl with hl | hl
      · rcases hi2.incl l hl with h' | h'
        · exact Or.inl (List.mem_append_left _ h')
        · exact Or.inr h'
      · exact Or.inl (List.mem_append_right _ hl)
    · intro l hl
      rw [← List.take_append_drop s2.1 cl, shown_append] at hl
      rcases List.mem_append.1 hl with hl | hl
      · exact List.mem_append_left _ (hi2.all l hl)
      · exact List.mem_append_right _ hl
    · intro hs hc
      apply List.mem_append_left
      apply hm2
      rw [← hs1, if_pos hs]
      unfold W.special
      rw [hnone hc]
      exact List.mem_append_right _ (by simp)
    · intro ht hc
      apply List.mem_append_left
      rw [← hs2, if_pos ⟨ht, hnone hc⟩]
      exact List.mem_append_right _ (by simp)
    · intro hs hd hc
      apply List.mem_append_left
      apply hm2
      rw [← hs1, if_pos hs]
      unfold W.special
      apply step_mono
      have : '#' :: w.newdocLine ∈ (Meta.step cl w.newdocLine (lastIdx pNewdoc ls) (columnsLine cl)).2 := by
        rw [hnone hc]
        exact List.mem_append_right _ (by simp)
      simp only [hd, if_true]
      cases w.ge with
      | none =>
        simp only
        split
        · exact step_mono this
        · exact this
      | some g =>
        simp only
        split
        · exact step_mono (step_mono this)
        · exact step_mono this
    · intro hs hp hc
      apply List.mem_append_left
      apply hm2
      rw [← hs1, if_pos hs]
      unfold W.special
      apply step_mono
      rw [if_pos hp, hnone hc]
      exact List.mem_append_right _ (by simp)
    · intro hs hd g hg hc
      apply List.mem_append_left
      apply hm2
      rw [← hs1, if_pos hs]
      unfold W.special
      apply step_mono
      simp only [hd, if_true, hg]
      have : '#' :: entityLine g ∈ (Meta.step cl (entityLine g) (lastIdx pEntity ls)
          (Meta.step cl w.newdocLine (lastIdx pNewdoc ls) (columnsLine cl))).2 := by
        rw [hnone hc]
        exact List.mem_append_right _ (by simp)
      split
      · exact step_mono this
      · exact this

/-! ## C31 -/

/-- A free comment that does not look like metadata. -/
def FreeOk (c : Str) : Prop := classify ('#' :: c) = .free c

/-- Metadata that the format can represent. -/
structure Representable (w : W) : Prop where
  sentId : Word w.sentId
  text : ∀ c, w.theText.head? = some c → isWs c = false
  newdoc : MarkOk w.newdoc
  newpar : MarkOk w.newpar
  entity : ∀ g, w.ge = some g → Word g
  json : ∀ p ∈ w.json, JsonOk p
  free : ∀ c ∈ freeComments w.comment, FreeOk c

theorem replace_free (w : W) {c : Str} (h : c ∉ placeholders) : w.replace c = some c := by
  simp only [placeholders, List.mem_cons, List.not_mem_nil, or_false, not_or] at h
  obtain ⟨h1, h2, h3, h4, h5⟩ := h
  unfold W.replace
  rw [if_neg h1, if_neg h2, if_neg h3, if_neg h4, if_neg h5]

/-- What a comment line is read as after writing. -/
def W.event (w : W) (c : Str) : Option Ev :=
  if c = pSentId then if w.printSentId then some (.sentId w.sentId) else none
  else if c = pText then if w.printText then some (.text w.theText) else some (.free pText)
  else if c = pNewdoc then if w.printSentId ∧ w.newdoc.truthy then some (.newdoc w.newdoc) else none
  else if c = pNewpar then if w.printSentId ∧ w.newpar.truthy then some (.newpar w.newpar) else none
  else if c = pEntity then w.ge.map .entity
  else if c = [] then none
  else some (.free c)

theorem shown_one {w : W} (hw : Representable w) (c : Str)
    (hc : c ∉ placeholders → c ≠ [] → FreeOk c) : (shown [w.replace c]).map classify = (w.event c).toList := by
  have key : ∀ (x : Str) (e : Ev), x ≠ [] → w.replace c = some x → classify ('#' :: x) = e →
      (shown [w.replace c]).map classify = [e] := by
    intro x e hx hr he
    rw [hr]
    simp only [shown, List.filterMap_cons, List.filterMap_nil, if_neg hx, List.map_cons, List.map_nil, he]
  have keyn : w.replace c = none → (shown [w.replace c]).map classify = [] := by intro hr; rw [hr]; rfl
  unfold W.event
  by_cases h1 : c = pSentId
  · rw [if_pos h1]
    by_cases hs : w.printSentId = true
    · rw [if_pos hs]
      exact key w.sentIdLine _ (by simp [W.sentIdLine, lSentId])
        (by unfold W.replace; rw [if_pos h1, if_pos hs]) (classify_sentId hw.sentId)
    · rw [if_neg hs]
      exact keyn (by unfold W.replace; rw [if_pos h1, if_neg hs])
  rw [if_neg h1]
  by_cases h2 : c = pText
  · rw [if_pos h2]
    by_cases ht : w.printText = true
    · rw [if_pos ht]
      exact key w.textLine _ (by simp [W.textLine, lText])
        (by unfold W.replace; rw [if_neg h1, if_pos h2, if_pos ht]) (classify_text hw.text)
    · rw [if_neg ht]
      exact key pText _ (by decide)
        (by unfold W.replace; rw [if_neg h1, if_pos h2, if_neg ht, h2]) (by decide)
  rw [if_neg h2]
  by_cases h3 : c = pNewdoc
  · rw [if_pos h3]
    by_cases hd : w.printSentId = true ∧ w.newdoc.truthy = true
    · rw [if_pos hd]
      refine key w.newdocLine _ ?_ ?_ (classify_newdoc hw.newdoc hd.2)
      · unfold W.newdocLine; cases w.newdoc <;> simp [markLine, lNewdoc]
      · unfold W.replace; rw [if_neg h1, if_neg h2, if_pos h3, if_pos hd]
    · rw [if_neg hd]
      exact keyn (by unfold W.replace; rw [if_neg h1, if_neg h2, if_pos h3, if_neg hd])
  rw [if_neg h3]
  by_cases h4 : c = pNewpar
  · rw [if_pos h4]
    by_cases hd : w.printSentId = true ∧ w.newpar.truthy = true
    · rw [if_pos hd]
      refine key w.newparLine _ ?_ ?_ (classify_newpar hw.newpar hd.2)
      · unfold W.newparLine; cases w.newpar <;> simp [markLine, lNewpar]
      · unfold W.replace; rw [if_neg h1, if_neg h2, if_neg h3, if_pos h4, if_pos hd]
    · rw [if_neg hd]
      exact keyn (by unfold W.replace; rw [if_neg h1, if_neg h2, if_neg h3, if_pos h4, if_neg hd])
  rw [if_neg h4]
  by_cases h5 : c = pEntity
  · rw [if_pos h5]
    have hr : w.replace c = w.ge.map entityLine := by
      unfold W.replace; rw [if_neg h1, if_neg h2, if_neg h3, if_neg h4, if_pos h5]
    cases hg : w.ge with
    | none => rw [hg] at hr; exact keyn hr
    | some g =>
      rw [hg] at hr
      exact key (entityLine g) _ (by simp [entityLine, lEntity]) hr (classify_entity (hw.entity g hg))
  rw [if_neg h5]
  have hp : c ∉ placeholders := by
    simp only [placeholders, List.mem_cons, List.not_mem_nil, or_false, not_or]
    exact ⟨h1, h2, h3, h4, h5⟩
  by_cases hne : c = []
  · rw [if_pos hne, replace_free w hp, hne]; rfl
  · rw [if_neg hne]
    exact key c _ hne (replace_free w hp) (hc hp hne)

theorem shown_events {w : W} (hw : Representable w) :
    ∀ (ls : List Str), (∀ c ∈ ls, c ∉ placeholders → c ≠ [] → FreeOk c) →
      (shown (ls.map w.replace)).map classify = ls.filterMap w.event
  | [], _ => rfl
  | c :: ls, h => by
    have h1 := shown_one hw c (h c List.mem_cons_self)
    have h2 := shown_events hw ls (fun d hd => h d (List.mem_cons_of_mem _ hd))
    have e : (c :: ls).map w.replace = [w.replace c] ++ ls.map w.replace := rfl
    rw [e, shown_append, List.map_append, h1, h2, List.filterMap_cons]
    cases w.event c <;> rfl

/-- The events that reading back can produce, apart from json. -/
def W.Known (w : W) (e : Ev) : Prop :=
  (w.printSentId = true ∧ e = .sentId w.sentId) ∨ (w.printText = true ∧ e = .text w.theText) ∨
  ((w.printSentId = true ∧ w.newdoc.truthy = true) ∧ e = .newdoc w.newdoc) ∨
  ((w.printSentId = true ∧ w.newpar.truthy = true) ∧ e = .newpar w.newpar) ∨
  (∃ g, w.ge = some g ∧ e = .entity g) ∨
  (∃ c ∈ freeComments w.comment, e = .free c) ∨
  ((w.printText = false ∧ pText ∈ splitlines [] w.comment) ∧ e = .free pText)

/-- The events of the additional lines. -/
theorem extras_events {w : W} (hw : Representable w) {l : Str} (hl : l ∈ w.extras) :
    w.Known (classify l) ∧ ∀ c, classify l ≠ .free c := by
  unfold W.extras at hl
  rcases List.mem_append.1 hl with hl | hl
  · by_cases hs : w.printSentId = true
    · rw [if_pos hs] at hl
      rcases List.mem_append.1 hl with hl | hl
      · rcases List.mem_append.1 hl with hl | hl
        · by_cases hd : w.newdoc.truthy = true
          · rw [if_pos hd] at hl
            rcases List.mem_append.1 hl with hl | hl
            · rw [List.mem_singleton] at hl
              have : classify l = .newdoc w.newdoc := by rw [hl]; exact classify_newdoc hw.newdoc hd
              exact ⟨Or.inr (Or.inr (Or.inl ⟨⟨hs, hd⟩, this⟩)), by rw [this]; intro c h; cases h⟩
            · obtain ⟨g, hg, rfl⟩ := List.mem_map.1 hl
              rw [Option.mem_toList] at hg
              have : classify ('#' :: entityLine g) = .entity g := classify_entity (hw.entity g hg)
              exact ⟨Or.inr (Or.inr (Or.inr (Or.inr (Or.inl ⟨g, hg, this⟩)))), by rw [this]; intro c h; cases h⟩
          · rw [if_neg hd] at hl; cases hl
        · by_cases hd : w.newpar.truthy = true
          · rw [if_pos hd] at hl
            rw [List.mem_singleton] at hl
            have : classify l = .newpar w.newpar := by rw [hl]; exact classify_newpar hw.newpar hd
            exact ⟨Or.inr (Or.inr (Or.inr (Or.inl ⟨⟨hs, hd⟩, this⟩))), by rw [this]; intro c h; cases h⟩
          · rw [if_neg hd] at hl; cases hl
      · rw [List.mem_singleton] at hl
        have : classify l = .sentId w.sentId := by rw [hl]; exact classify_sentId hw.sentId
        exact ⟨Or.inl ⟨hs, this⟩, by rw [this]; intro c h; cases h⟩
    · rw [if_neg hs] at hl; cases hl
  · by_cases ht : w.printText = true
    · rw [if_pos ht, List.mem_singleton] at hl
      have : classify l = .text w.theText := by rw [hl]; exact classify_text hw.text
      exact ⟨Or.inr (Or.inl ⟨ht, this⟩), by rw [this]; intro c h; cases h⟩
    · rw [if_neg ht] at hl; cases hl

theorem event_known {w : W} {c : Str} (hc : c ∈ splitlines [] w.comment) {e : Ev} (h : w.event c = some e) : w.Known e := by
  unfold W.event at h
  by_cases h1 : c = pSentId
  · rw [if_pos h1] at h
    by_cases hs : w.printSentId = true
    · rw [if_pos hs] at h; injection h with h; exact Or.inl ⟨hs, h.symm⟩
    · rw [if_neg hs] at h; cases h
  rw [if_neg h1] at h
  by_cases h2 : c = pText
  · rw [if_pos h2] at h
    by_cases ht : w.printText = true
    · rw [if_pos ht] at h; injection h with h; exact Or.inr (Or.inl ⟨ht, h.symm⟩)
    · rw [if_neg ht] at h; injection h with h
      exact Or.inr (Or.inr (Or.inr (Or.inr (Or.inr (Or.inr ⟨⟨by simpa using ht, h2 ▸ hc⟩, h.symm⟩)))))
  rw [if_neg h2] at h
  by_cases h3 : c = pNewdoc
  · rw [if_pos h3] at h
    by_cases hd : w.printSentId = true ∧ w.newdoc.truthy = true
    · rw [if_pos hd] at h; injection h with h; exact Or.inr (Or.inr (Or.inl ⟨hd, h.symm⟩))
    · rw [if_neg hd] at h; cases h
  rw [if_neg h3] at h
  by_cases h4 : c = pNewpar
  · rw [if_pos h4] at h
    by_cases hd : w.printSentId = true ∧ w.newpar.truthy = true
    · rw [if_pos hd] at h; injection h with h; exact Or.inr (Or.inr (Or.inr (Or.inl ⟨hd, h.symm⟩)))
    · rw [if_neg hd] at h; cases h
  rw [if_neg h4] at h
  by_cases h5 : c = pEntity
  · rw [if_pos h5] at h
    cases hg : w.ge with
    | none => rw [hg] at h; cases h
    | some g =>
      rw [hg] at h; injection h with h
      exact Or.inr (Or.inr (Or.inr (Or.inr (Or.inl ⟨g, hg, h.symm⟩))))
  rw [if_neg h5] at h
  by_cases h6 : c = []
  · rw [if_pos h6] at h; cases h
  rw [if_neg h6] at h
  injection h with h
  refine Or.inr (Or.inr (Or.inr (Or.inr (Or.inr (Or.inl ⟨c, List.mem_filter.2 ⟨hc, ?_⟩, h.symm⟩)))))
  simp only [placeholders, List.mem_cons, List.not_mem_nil, or_false, not_or, decide_eq_true_eq]
  exact ⟨⟨h1, h2, h3, h4, h5⟩, h6⟩

theorem event_free (w : W) (ht : w.printText = true) (c : Str) :
    (w.event c).bind Ev.free? = if c ∉ placeholders ∧ c ≠ [] then some c else none := by
  by_cases hp : c ∈ placeholders
  · rw [if_neg (fun h => h.1 hp)]
    have hp' := hp
    simp only [placeholders, List.mem_cons, List.not_mem_nil, or_false] at hp
    rcases hp with rfl | rfl | rfl | rfl | rfl
    · have : w.event pSentId = if w.printSentId then some (.sentId w.sentId) else none := rfl
      rw [this]; split <;> rfl
    · have : w.event pText = if w.printText then some (.text w.theText) else some (.free pText) := rfl
      rw [this, if_pos ht]; rfl
    · have : w.event pNewdoc = if w.printSentId ∧ w.newdoc.truthy then some (.newdoc w.newdoc) else none := rfl
      rw [this]; split <;> rfl
    · have : w.event pNewpar = if w.printSentId ∧ w.newpar.truthy then some (.newpar w.newpar) else none := rfl
      rw [this]; split <;> rfl
    · have : w.event pEntity = w.ge.map .entity := rfl
      rw [this]; cases w.ge <;> rfl
  · have hp' := hp
    simp only [placeholders, List.mem_cons, List.not_mem_nil, or_false, not_or] at hp
    obtain ⟨h1, h2, h3, h4, h5⟩ := hp
    unfold W.event
    rw [if_neg h1, if_neg h2, if_neg h3, if_neg h4, if_neg h5]
    by_cases h6 : c = []
    · rw [if_pos h6, if_neg (fun h => h.2 h6)]; rfl
    · rw [if_neg h6, if_pos ⟨hp', h6⟩]; rfl

theorem free_ok {w : W} (hw : Representable w) : ∀ c ∈ splitlines [] w.comment, c ∉ placeholders → c ≠ [] → FreeOk c :=
  fun c hc h1 h2 => hw.free c (List.mem_filter.2 ⟨hc, by simp [h1, h2]⟩)

theorem json_events {w : W} (hw : Representable w) :
    (w.json.map jsonLine).map classify = w.json.map (fun p => Ev.json false p.1 p.2) := by
  rw [List.map_map]
  apply List.map_congr_left
  intro p hp
  exact classify_json (hw.json p hp)

theorem body_known {w : W} (hw : Representable w) {body : List Str}
    (hincl : ∀ l ∈ body, l ∈ shown ((splitlines [] w.comment).map w.replace) ∨ l ∈ w.extras) :
    ∀ e ∈ body.map classify, w.Known e := by
  intro e he
  obtain ⟨l, hl, rfl⟩ := List.mem_map.1 he
  rcases hincl l hl with h' | h'
  · have : classify l ∈ (shown ((splitlines [] w.comment).map w.replace)).map classify := List.mem_map_of_mem h'
    rw [shown_events hw _ (free_ok hw)] at this
    obtain ⟨c, hc, hce⟩ := List.mem_filterMap.1 this
    exact event_known hc hce
  · exact (extras_events hw h').1

/-- Every printed line is read back as a known event or as a json comment. -/
theorem out_known {w : W} (hw : Representable w) {out : List Str} (h : w.write = some out) :
    ∀ l ∈ out, w.Known (classify l) ∨ ∃ d k v, classify l = .json d k v := by
  obtain ⟨body, rfl, _, hincl, _⟩ := write_inv w h
  intro l hl
  rcases List.mem_append.1 hl with hl | hl
  · exact Or.inl (body_known hw hincl _ (List.mem_map_of_mem hl))
  · obtain ⟨p, hp, rfl⟩ := List.mem_map.1 hl
    exact Or.inr ⟨false, p.1, p.2, classify_json (hw.json p hp)⟩

/-- C31 (partial): for metadata that the format can represent, if the writer does not raise, reading the printed comment
lines gives back `sent_id`, the text, `newdoc`, `newpar`, the json items and the free comments in their order;
`global.Entity` is given back if `newdoc` is set. Missing: the writer raises if the first comment line is the
placeholder of an attribute that is not set (`C66_first_line_violated`), and a free comment that looks like
metadata is not read back as a comment (`C68_sent_id_violated`). -/
theorem C31_metadata_partial (w : W) (hw : Representable w) (hs : w.printSentId = true) (ht : w.printText = true)
    {out : List Str} (h : w.write = some out) :
    (readComments out).sentId = some w.sentId ∧
    (readComments out).text = some w.theText ∧
    ((readComments out).newdoc = w.newdoc) ∧
    ((readComments out).newpar = w.newpar) ∧
    ((readComments out).json = w.json.map (fun p => (false, p.1, p.2))) ∧
    freeComments (readComments out).comment = freeComments w.comment ∧
    (w.newdoc ≠ .absent → ∀ g, w.ge = some g → (readComments out).entity = some g) := by
  obtain ⟨body, rfl, hord, hincl, hall, hx1, hx2, hx3, hx4, hx5⟩ := write_inv w h
  have hev := shown_events hw (splitlines [] w.comment) (free_ok hw)
  have hjson := json_events hw
  have hknown := body_known hw hincl
  -- placeholders produce their events
  have hpres : ∀ c ∈ splitlines [] w.comment, ∀ e, w.event c = some e → e ∈ body.map classify := by
    intro c hc e he
    have : e ∈ (shown ((splitlines [] w.comment).map w.replace)).map classify := by
      rw [hev]; exact List.mem_filterMap.2 ⟨c, hc, he⟩
    obtain ⟨l, hl, rfl⟩ := List.mem_map.1 this
    exact List.mem_map_of_mem (hall l hl)
  have hbody : ∀ {l : Str} {e : Ev}, l ∈ body → classify l = e → e ∈ body.map classify := by
    intro l e hl he; rw [← he]; exact List.mem_map_of_mem hl
  have hes : (body ++ w.json.map jsonLine).map classify = body.map classify ++ w.json.map (fun p => Ev.json false p.1 p.2) := by
    rw [List.map_append, hjson]
  have hmem : ∀ {e : Ev}, e ∈ body.map classify ++ w.json.map (fun p => Ev.json false p.1 p.2) →
      (∀ d k v, e ≠ .json d k v) → e ∈ body.map classify := by
    intro e he hne
    rcases List.mem_append.1 he with he | he
    · exact he
    · obtain ⟨p, _, hp⟩ := List.mem_map.1 he
      exact absurd hp.symm (hne _ _ _)
  unfold readComments
  rw [hes]
  refine ⟨?_, ?_, ?_, ?_, ?_, ?_, ?_⟩
  · refine foldl_sentId _ ?_ _ (Or.inl ?_)
    · intro v hv
      have := hknown _ (hmem hv (by intro _ _ _ h; cases h))
      rcases this with ⟨_, h⟩ | ⟨_, h⟩ | ⟨_, h⟩ | ⟨_, h⟩ | ⟨_, _, h⟩ | ⟨_, _, h⟩ | ⟨_, h⟩ <;> cases h
      rfl
    · refine ⟨w.sentId, List.mem_append_left _ ?_⟩
      by_cases hc : pSentId ∈ splitlines [] w.comment
      · exact hpres _ hc _ (by show (if w.printSentId then some (Ev.sentId w.sentId) else none) = _; rw [if_pos hs])
      · exact hbody (hx1 hs hc) (classify_sentId hw.sentId)
  · refine foldl_text _ ?_ _ (Or.inl ?_)
    · intro v hv
      have := hknown _ (hmem hv (by intro _ _ _ h; cases h))
      rcases this with ⟨_, h⟩ | ⟨_, h⟩ | ⟨_, h⟩ | ⟨_, h⟩ | ⟨_, _, h⟩ | ⟨_, _, h⟩ | ⟨_, h⟩ <;> cases h
      rfl
    · refine ⟨w.theText, List.mem_append_left _ ?_⟩
      by_cases hc : pText ∈ splitlines [] w.comment
      · exact hpres _ hc _ (by show (if w.printText then some (Ev.text w.theText) else some (.free pText)) = _; rw [if_pos ht])
      · exact hbody (hx2 ht hc) (classify_text hw.text)
  · refine foldl_newdoc _ ?_ _ ?_
    · intro v hv
      have := hknown _ (hmem hv (by intro _ _ _ h; cases h))
      rcases this with ⟨_, h⟩ | ⟨_, h⟩ | ⟨_, h⟩ | ⟨_, h⟩ | ⟨_, _, h⟩ | ⟨_, _, h⟩ | ⟨_, h⟩ <;> cases h
      rfl
    · by_cases hd : w.newdoc.truthy = true
      · refine Or.inl ⟨w.newdoc, List.mem_append_left _ ?_⟩
        by_cases hc : pNewdoc ∈ splitlines [] w.comment
        · exact hpres _ hc _ (by show (if w.printSentId ∧ w.newdoc.truthy then some (Ev.newdoc w.newdoc) else none) = _; rw [if_pos ⟨hs, hd⟩])
        · exact hbody (hx3 hs hd hc) (classify_newdoc hw.newdoc hd)
      · right
        show Mark.absent = w.newdoc
        have hok := hw.newdoc
        cases hm : w.newdoc with
        | absent => rfl
        | flag => rw [hm] at hd; exact absurd rfl hd
        | id v => rw [hm] at hd hok; exact absurd (by simpa [Mark.truthy] using hok.1) hd
  · refine foldl_newpar _ ?_ _ ?_
    · intro v hv
      have := hknown _ (hmem hv (by intro _ _ _ h; cases h))
      rcases this with ⟨_, h⟩ | ⟨_, h⟩ | ⟨_, h⟩ | ⟨_, h⟩ | ⟨_, _, h⟩ | ⟨_, _, h⟩ | ⟨_, h⟩ <;> cases h
      rfl
    · by_cases hd : w.newpar.truthy = true
      · refine Or.inl ⟨w.newpar, List.mem_append_left _ ?_⟩
        by_cases hc : pNewpar ∈ splitlines [] w.comment
        · exact hpres _ hc _ (by show (if w.printSentId ∧ w.newpar.truthy then some (Ev.newpar w.newpar) else none) = _; rw [if_pos ⟨hs, hd⟩])
        · exact hbody (hx4 hs hd hc) (classify_newpar hw.newpar hd)
      · right
        show Mark.absent = w.newpar
        have hok := hw.newpar
        cases hm : w.newpar with
        | absent => rfl
        | flag => rw [hm] at hd; exact absurd rfl hd
        | id v => rw [hm] at hd hok; exact absurd (by simpa [Mark.truthy] using hok.1) hd
  · rw [foldl_json]
    have h1 : (body.map classify).filterMap Ev.json? = [] := by
      rw [List.filterMap_eq_nil_iff]
      intro e he
      rcases hknown e he with ⟨_, h⟩ | ⟨_, h⟩ | ⟨_, h⟩ | ⟨_, h⟩ | ⟨_, _, h⟩ | ⟨_, _, h⟩ | ⟨_, h⟩ <;> rw [h] <;> rfl
    rw [List.filterMap_append, h1, List.filterMap_map]
    show [] ++ ([] ++ w.json.filterMap (fun p => some (false, p.1, p.2))) = _
    rw [List.nil_append, List.nil_append, List.filterMap_eq_map']
  · rw [foldl_comment]
    show freeComments ([] ++ _) = _
    rw [List.nil_append]
    have hj : (w.json.map (fun p => Ev.json false p.1 p.2)).flatMap Ev.comment = [] := by
      rw [List.flatMap_eq_nil_iff]
      intro e he
      obtain ⟨p, _, rfl⟩ := List.mem_map.1 he
      rfl
    rw [List.flatMap_append, hj, List.append_nil, freeComments_events]
    · have h1 := hord (fun l => (classify l).free?) (by
        intro l hl
        have h := (extras_events hw hl).2
        cases hcl : classify l with
        | free c => exact absurd hcl (h c)
        | _ => rfl)
      have e1 : (body.map classify).filterMap Ev.free? = body.filterMap (fun l => (classify l).free?) := List.filterMap_map
      have e2 : ((shown ((splitlines [] w.comment).map w.replace)).map classify).filterMap Ev.free? =
          (shown ((splitlines [] w.comment).map w.replace)).filterMap (fun l => (classify l).free?) := List.filterMap_map
      rw [e1, h1, ← e2, hev, List.filterMap_filterMap]
      unfold freeComments
      rw [← List.filterMap_eq_filter]
      congr 1
      funext c
      rw [event_free w ht]
      by_cases hc : c ∉ placeholders ∧ c ≠ []
      · rw [if_pos hc]; simp [hc, Option.guard]
      · rw [if_neg hc]; simp [hc, Option.guard]
    · intro c hc
      rcases hknown _ hc with ⟨_, h⟩ | ⟨_, h⟩ | ⟨_, h⟩ | ⟨_, h⟩ | ⟨_, _, h⟩ | ⟨c', hc', h⟩ | ⟨⟨h', _⟩, _⟩
      any_goals (cases h; done)
      · injection h with h
        rw [← h] at hc'
        have h1 := List.mem_filter.1 hc'
        simp only [decide_eq_true_eq] at h1
        exact ⟨splitlines_no_break _ [] (by simp) c h1.1, h1.2⟩
      · rw [ht] at h'; cases h'
  · intro hd g hg
    have hd : w.newdoc.truthy = true := by
      have hok := hw.newdoc
      cases hm : w.newdoc with
      | absent => exact absurd hm hd
      | flag => rfl
      | id v => rw [hm] at hok; simpa [Mark.truthy] using hok.1
    refine foldl_entity _ ?_ _ (Or.inl ?_)
    · intro v hv
      have := hknown _ (hmem hv (by intro _ _ _ h; cases h))
      rcases this with ⟨_, h⟩ | ⟨_, h⟩ | ⟨_, h⟩ | ⟨_, h⟩ | ⟨g', hg', h⟩ | ⟨_, _, h⟩ | ⟨_, h⟩ <;> cases h
      rw [hg] at hg'
      injection hg' with hg'
      exact hg'.symm
    · refine ⟨g, List.mem_append_left _ ?_⟩
      by_cases hc : pEntity ∈ splitlines [] w.comment
      · exact hpres _ hc _ (by show w.ge.map Ev.entity = _; rw [hg]; rfl)
      · exact hbody (hx5 hs hd g hg hc) (classify_entity (hw.entity g hg))

/-- A tree whose metadata can be represented: newdoc with an id, no newpar, a comment before the sent_id. -/
def demo : W where
  printSentId := true
  printText := true
  sentId := ['s', '1']
  text := some ['H', 'i', ' ', 'y', 'o', 'u', '.']
  computed := []
  newdoc := .id ['d']
  newpar := .flag
  comment := [' ', 'x', '\n'] ++ pSentId ++ ['\n'] ++ pText ++ ['\n', ' ', 'y', '\n']
  entity := some ['e', 'i', 'd']
  json := [(['k'], ['1'])]

example : Representable demo := by
  refine ⟨⟨by decide, by decide⟩, ?_, ⟨by decide, ?_⟩, trivial, ?_, ?_, ?_⟩
  · intro c hc
    have : 'H' = c := Option.some.inj hc
    rw [← this]; decide
  · intro c hc
    have : 'd' = c := Option.some.inj hc
    rw [← this]; decide
  · intro g hg
    have : ['e', 'i', 'd'] = g := Option.some.inj hg
    rw [← this]; exact ⟨by decide, by decide⟩
  · intro p hp
    have : p = (['k'], ['1']) := List.mem_singleton.1 hp
    rw [this]
    refine ⟨by decide, by decide, by decide, ?_⟩
    intro c hc
    have : '1' = c := Option.some.inj hc
    rw [← this]; decide
  · intro c hc
    have : freeComments demo.comment = [[' ', 'x'], [' ', 'y']] := by decide
    rw [this] at hc
    simp only [List.mem_cons, List.not_mem_nil, or_false] at hc
    rcases hc with rfl | rfl <;> (unfold FreeOk; decide)

example : demo.write = some [
    "# newdoc id = d".toList, "# global.Entity = eid".toList, "# newpar".toList, "# x".toList, "# sent_id = s1".toList,
    "# text = Hi you.".toList, "# y".toList, "# json_k = 1".toList] := by decide

/-! ## C66, C67: leaving lines out -/

theorem mem_shown {cl : List (Option Str)} {c : Str} (h : some c ∈ cl) (hne : c ≠ []) : '#' :: c ∈ shown cl :=
  List.mem_filterMap.2 ⟨some c, h, by simp [hne]⟩

theorem filterMap_id_of {α : Type} {f : α → Option α} : ∀ {l : List α}, (∀ x ∈ l, f x = some x) → l.filterMap f = l
  | [], _ => rfl
  | a :: l, h => by
    rw [List.filterMap_cons_some (h a List.mem_cons_self),
      filterMap_id_of (fun x hx => h x (List.mem_cons_of_mem _ hx))]

/-- C66 is violated for every tree: leaving out the sent_id lines, or removing `newdoc`, `newpar` or
`global.Entity`, raises `AttributeError` if that comment was the first one of the sentence. -/
theorem C66_first_line_violated (w : W) :
    (w.printSentId = false → (splitlines [] w.comment).head? ∈ [some pSentId, some pNewdoc, some pNewpar] → w.write = none) ∧
    ((splitlines [] w.comment).head? = some pNewdoc → w.newdoc = .absent → w.write = none) ∧
    ((splitlines [] w.comment).head? = some pNewpar → w.newpar = .absent → w.write = none) ∧
    ((splitlines [] w.comment).head? = some pEntity → w.entity = none → w.write = none) := by
  have key : ∀ c, (splitlines [] w.comment).head? = some c → w.replace c = none → w.write = none := by
    intro c hc hr
    unfold W.write
    simp only
    rw [if_pos (by rw [List.head?_map, hc, Option.map_some, hr])]
  have e1 : w.replace pSentId = if w.printSentId then some w.sentIdLine else none := rfl
  have e2 : w.replace pNewdoc = if w.printSentId ∧ w.newdoc.truthy then some w.newdocLine else none := rfl
  have e3 : w.replace pNewpar = if w.printSentId ∧ w.newpar.truthy then some w.newparLine else none := rfl
  have e4 : w.replace pEntity = w.ge.map entityLine := rfl
  refine ⟨?_, ?_, ?_, ?_⟩
  · intro hs h
    simp only [List.mem_cons, List.not_mem_nil, or_false] at h
    rcases h with h | h | h
    · exact key _ h (by rw [e1, hs]; rfl)
    · exact key _ h (by rw [e2, hs]; rfl)
    · exact key _ h (by rw [e3, hs]; rfl)
  · intro h hn
    exact key _ h (by rw [e2, hn, if_neg (fun h => by cases h.2)])
  · intro h hn
    exact key _ h (by rw [e3, hn, if_neg (fun h => by cases h.2)])
  · intro h hn
    exact key _ h (by rw [e4]; unfold W.ge; rw [hn]; rfl)

/-- C66 (partial): if the writer does not raise, then with `print_sent_id=0` no printed line is read as `sent_id`,
`newdoc` or `newpar`, and lines of removed attributes are not printed. -/
theorem C66_left_out_partial (w : W) (hw : Representable w) {out : List Str} (h : w.write = some out) :
    ∀ l ∈ out, (w.printSentId = false → (∀ v, classify l ≠ .sentId v) ∧ (∀ m, classify l ≠ .newdoc m) ∧
      (∀ m, classify l ≠ .newpar m)) ∧
      (w.newdoc = .absent → ∀ m, classify l ≠ .newdoc m) ∧
      (w.newpar = .absent → ∀ m, classify l ≠ .newpar m) ∧
      (w.entity = none → ∀ v, classify l ≠ .entity v) := by
  intro l hl
  have := out_known hw h l hl
  refine ⟨?_, ?_, ?_, ?_⟩
  · intro hs
    refine ⟨?_, ?_, ?_⟩
    all_goals
      intro v hv
      rw [hv] at this
      rcases this with (⟨h1, h⟩ | ⟨_, h⟩ | ⟨⟨h1, _⟩, h⟩ | ⟨⟨h1, _⟩, h⟩ | ⟨_, _, h⟩ | ⟨_, _, h⟩ | ⟨_, h⟩) | ⟨_, _, _, h⟩ <;>
        first | cases h; done | (rw [hs] at h1; cases h1)
  · intro hn v hv
    rw [hv] at this
    rcases this with (⟨_, h⟩ | ⟨_, h⟩ | ⟨⟨_, h1⟩, h⟩ | ⟨⟨_, h1⟩, h⟩ | ⟨_, _, h⟩ | ⟨_, _, h⟩ | ⟨_, h⟩) | ⟨_, _, _, h⟩ <;>
      first | cases h; done | (rw [hn] at h1; cases h1)
  · intro hn v hv
    rw [hv] at this
    rcases this with (⟨_, h⟩ | ⟨_, h⟩ | ⟨⟨_, h1⟩, h⟩ | ⟨⟨_, h1⟩, h⟩ | ⟨_, _, h⟩ | ⟨_, _, h⟩ | ⟨_, h⟩) | ⟨_, _, _, h⟩ <;>
      first | cases h; done | (rw [hn] at h1; cases h1)
  · intro hn v hv
    rw [hv] at this
    rcases this with (⟨_, h⟩ | ⟨_, h⟩ | ⟨_, h⟩ | ⟨_, h⟩ | ⟨_, h1, h⟩ | ⟨_, _, h⟩ | ⟨_, h⟩) | ⟨_, _, _, h⟩ <;>
      first | cases h; done | (unfold W.ge at h1; rw [hn] at h1; cases h1)

/-- C67 is violated for every tree that was read with a text comment: with `print_text=0` the writer prints the
placeholder `#$TEXT`. -/
theorem C67_placeholder_violated (w : W) (ht : w.printText = false) (hc : pText ∈ splitlines [] w.comment)
    {out : List Str} (h : w.write = some out) : '#' :: pText ∈ out := by
  obtain ⟨body, rfl, _, _, hall, _⟩ := write_inv w h
  apply List.mem_append_left
  apply hall
  apply mem_shown _ (by decide)
  have : w.replace pText = some pText := by
    have e : w.replace pText = if w.printText then some w.textLine else some pText := rfl
    rw [e, ht]; rfl
  rw [← this]
  exact List.mem_map_of_mem hc

/-- C67 (partial): with `print_text=0` no printed line is read as the text. -/
theorem C67_no_text_partial (w : W) (hw : Representable w) (ht : w.printText = false) {out : List Str}
    (h : w.write = some out) : ∀ l ∈ out, ∀ t, classify l ≠ .text t := by
  intro l hl v hv
  have := out_known hw h l hl
  rw [hv] at this
  rcases this with (⟨_, h⟩ | ⟨h1, h⟩ | ⟨_, h⟩ | ⟨_, h⟩ | ⟨_, _, h⟩ | ⟨_, _, h⟩ | ⟨_, h⟩) | ⟨_, _, _, h⟩ <;>
    first | cases h; done | (rw [ht] at h1; cases h1)

/-! ## C68: comments that look like sent_id -/

/-- C68 is violated for every comment whose name starts with `sent_id`: it is read as the id of the sentence (the
rest of its name is the id), it replaces the id read before, and it is not kept as a comment. -/
theorem C68_sent_id_violated (lines : List Str) (c : Char) (hc : isWs c = false) (hc' : c ≠ '=') (r : Str) :
    (readComments (lines ++ [kSentId ++ c :: r])).sentId = some (nonWs (c :: r)) ∧
    (readComments (lines ++ [kSentId ++ c :: r])).comment = (readComments lines).comment ++ pSentId ++ ['\n'] := by
  have h1 : classify (kSentId ++ c :: r) = .sentId (nonWs (c :: r)) := by
    unfold classify
    have : matchSentId (kSentId ++ c :: r) = some (nonWs (c :: r)) := by
      unfold matchSentId
      rw [after_append]
      have hs : skipWs (c :: r) = c :: r := skipWs_solid (by intro d hd; have : c = d := Option.some.inj hd; rw [← this]; exact hc)
      simp only [hs]
      rw [if_neg (fun h => hc' h.1)]
    rw [this]
  unfold readComments
  rw [List.map_append, List.foldl_append]
  simp only [List.map_cons, List.map_nil, List.foldl_cons, List.foldl_nil, h1]
  exact ⟨rfl, by show _ ++ (pSentId ++ ['\n']) = _; rw [List.append_assoc]⟩

example : (readComments ["# sent_id = s1".toList, "# sent_id_orig = 17".toList]).sentId = some "_orig".toList := by decide

/-- C68 (partial): any other comment leaves the id alone. -/
theorem C68_other_partial (lines : List Str) (l : Str) (h : after kSentId l = none) :
    (readComments (lines ++ [l])).sentId = (readComments lines).sentId := by
  have h1 : ∀ v, classify l ≠ .sentId v := by
    intro v hv
    have : matchSentId l = none := by unfold matchSentId; rw [h]
    unfold classify at hv
    rw [this] at hv
    simp only at hv
    repeat' split at hv
    all_goals cases hv
  unfold readComments
  rw [List.map_append, List.foldl_append]
  simp only [List.map_cons, List.map_nil, List.foldl_cons, List.foldl_nil]
  cases hcl : classify l with
  | sentId v => exact absurd hcl (h1 v)
  | _ => rfl

/-! ## C69: comments are written as they were read -/

/-- The usual form of a comment line. -/
def canonLine : Ev → Str
  | .sentId v => '#' :: (lSentId ++ v)
  | .text v => '#' :: (lText ++ v)
  | .newpar m => '#' :: markLine lNewpar m
  | .newdoc m => '#' :: markLine lNewdoc m
  | .entity v => '#' :: entityLine v
  | .free c => '#' :: c
  | .json _ _ _ => []

/-- The tree with the attributes that were read, in a document with the `global.Entity` that was read. -/
def W.ofAttr (a : Attr) (computed : Str) : W where
  printSentId := true
  printText := true
  sentId := a.sentId.getD []
  text := a.text
  computed := computed
  newdoc := a.newdoc
  newpar := a.newpar
  comment := a.comment
  entity := a.entity
  json := []

theorem wsRest_ne {r v : Str} (h : wsRest r = some v) : v ≠ [] := by
  unfold wsRest at h
  split at h
  · cases hr : r.getLast? with
    | none => rw [hr] at h; cases h
    | some c => rw [hr] at h; injection h with h; rw [← h]; simp
  · injection h with h
    rw [← h]; assumption

theorem matchMark_truthy {r : Str} {m : Mark} (h : matchMark r = some m) : m.truthy = true := by
  unfold matchMark at h
  split at h
  · injection h with h; rw [← h]; rfl
  · split at h
    · cases h
    · split at h
      · cases h
      · split at h
        · cases h
        · split at h
          · rename_i r2 _ _
            cases hw : wsRest r2 with
            | none => rw [hw] at h; cases h
            | some v =>
              rw [hw] at h
              injection h with h
              rw [← h]
              simpa [Mark.truthy] using wsRest_ne hw
          · cases h

theorem classify_newdoc_truthy {l : Str} {m : Mark} (h : classify l = .newdoc m) : m.truthy = true := by
  unfold classify at h
  split at h
  · cases h
  split at h
  · cases h
  split at h
  · cases h
  split at h
  · rename_i m' hm
    injection h with h
    rw [← h]
    cases ha : after kNewdoc l with
    | none => rw [ha] at hm; cases hm
    | some r => rw [ha] at hm; exact matchMark_truthy hm
  repeat' split at h
  all_goals cases h

theorem classify_newpar_truthy {l : Str} {m : Mark} (h : classify l = .newpar m) : m.truthy = true := by
  unfold classify at h
  split at h
  · cases h
  split at h
  · cases h
  split at h
  · rename_i m' hm
    injection h with h
    rw [← h]
    cases ha : after kNewpar l with
    | none => rw [ha] at hm; cases hm
    | some r => rw [ha] at hm; exact matchMark_truthy hm
  repeat' split at h
  all_goals cases h

theorem step_prefix {cl : List (Option Str)} {line : Str} {i : Nat} {s : St} (h : s.2 = shown (cl.take s.1)) :
    (step cl line (some i) s).2 = shown (cl.take (step cl line (some i) s).1) := by
  show (if s.1 ≤ i then (i + 1, s.2 ++ shown ((cl.take (i + 1)).drop s.1)) else s : St).2 =
    shown (cl.take (if s.1 ≤ i then (i + 1, s.2 ++ shown ((cl.take (i + 1)).drop s.1)) else s : St).1)
  split
  · show s.2 ++ shown ((cl.take (i + 1)).drop s.1) = shown (cl.take (i + 1))
    rw [take_upto cl (k := s.1) (i := i) (by omega), shown_append, h]
    congr 2
    rw [← take_upto cl (k := s.1) (i := i) (by omega)]
  · exact h

/-- C69 (partial): let the comment lines of a sentence be in the usual form, with a `sent_id` and a `text`, without
contradicting values, without json and empty comments and without unusual line separators. Then writing what was read gives
exactly the same lines in the same order. Missing: comments such as `# sent_id_orig`, for which this is false
(`C68_sent_id_violated`), and json. -/
theorem C69_verbatim_partial (lines : List Str) (computed : Str)
    (hcanon : ∀ l ∈ lines, canonLine (classify l) = l)
    (hs : ∃ l ∈ lines, ∃ v, classify l = .sentId v)
    (ht : ∃ l ∈ lines, ∃ v, classify l = .text v)
    (hone : ∀ l ∈ lines, ∀ l' ∈ lines,
      (∀ v v', classify l = .sentId v → classify l' = .sentId v' → v = v') ∧
      (∀ v v', classify l = .text v → classify l' = .text v' → v = v') ∧
      (∀ v v', classify l = .newdoc v → classify l' = .newdoc v' → v = v') ∧
      (∀ v v', classify l = .newpar v → classify l' = .newpar v' → v = v') ∧
      (∀ v v', classify l = .entity v → classify l' = .entity v' → v = v'))
    (hent : ∀ l ∈ lines, ∀ v, classify l = .entity v → v ≠ [])
    (htext : ∀ l ∈ lines, ∀ v, classify l = .text v → '\n' ∉ v ∧ '\r' ∉ v ∧ rstrip v = v)
    (hfree : ∀ l ∈ lines, ∀ c, classify l = .free c → c ≠ [] ∧ c ∉ placeholders ∧ ∀ d ∈ c, isBreak d = false) :
    (W.ofAttr (readComments lines) computed).write = some lines := by
  have hjson : ∀ l ∈ lines, ∀ d k v, classify l ≠ .json d k v := by
    intro l hl d k v h
    have h1 := hcanon l hl
    rw [h] at h1
    have : l = [] := h1.symm
    rw [this] at h
    exact absurd h (by
      have : classify [] = .free [] := rfl
      rw [this]; intro h; cases h)
  -- attributes
  have hval : ∀ {α : Type} {C : α → Ev} {s : α}, (∀ l ∈ lines, ∀ v, classify l = C v → v = s) →
      ∀ v, C v ∈ lines.map classify → v = s := by
    intro α C s h v hv
    obtain ⟨l, hl, hlv⟩ := List.mem_map.1 hv
    exact h l hl v hlv
  have hS : ∀ l ∈ lines, ∀ v, classify l = .sentId v → (readComments lines).sentId = some v := by
    intro l hl v hv
    exact foldl_sentId _ (hval (C := Ev.sentId) (fun l' hl' v' hv' => (hone l' hl' l hl).1 v' v hv' hv)) _
      (Or.inl ⟨v, List.mem_map.2 ⟨l, hl, hv⟩⟩)
  have hT : ∀ l ∈ lines, ∀ v, classify l = .text v → (readComments lines).text = some v := by
    intro l hl v hv
    exact foldl_text _ (hval (C := Ev.text) (fun l' hl' v' hv' => (hone l' hl' l hl).2.1 v' v hv' hv)) _
      (Or.inl ⟨v, List.mem_map.2 ⟨l, hl, hv⟩⟩)
  have hD : ∀ l ∈ lines, ∀ v, classify l = .newdoc v → (readComments lines).newdoc = v := by
    intro l hl v hv
    exact foldl_newdoc _ (hval (C := Ev.newdoc) (fun l' hl' v' hv' => (hone l' hl' l hl).2.2.1 v' v hv' hv)) _
      (Or.inl ⟨v, List.mem_map.2 ⟨l, hl, hv⟩⟩)
  have hP : ∀ l ∈ lines, ∀ v, classify l = .newpar v → (readComments lines).newpar = v := by
    intro l hl v hv
    exact foldl_newpar _ (hval (C := Ev.newpar) (fun l' hl' v' hv' => (hone l' hl' l hl).2.2.2.1 v' v hv' hv)) _
      (Or.inl ⟨v, List.mem_map.2 ⟨l, hl, hv⟩⟩)
  have hE : ∀ l ∈ lines, ∀ v, classify l = .entity v → (readComments lines).entity = some v := by
    intro l hl v hv
    exact foldl_entity _ (hval (C := Ev.entity) (fun l' hl' v' hv' => (hone l' hl' l hl).2.2.2.2 v' v hv' hv)) _
      (Or.inl ⟨v, List.mem_map.2 ⟨l, hl, hv⟩⟩)
  have hD0 : (¬ ∃ l ∈ lines, ∃ v, classify l = .newdoc v) → (readComments lines).newdoc = .absent := by
    intro h
    exact foldl_newdoc _ (hval (C := Ev.newdoc) (fun l hl v hv => absurd ⟨l, hl, v, hv⟩ h)) _ (Or.inr rfl)
  have hP0 : (¬ ∃ l ∈ lines, ∃ v, classify l = .newpar v) → (readComments lines).newpar = .absent := by
    intro h
    exact foldl_newpar _ (hval (C := Ev.newpar) (fun l hl v hv => absurd ⟨l, hl, v, hv⟩ h)) _ (Or.inr rfl)
  have hE0 : (¬ ∃ l ∈ lines, ∃ v, classify l = .entity v) → (readComments lines).entity = none := by
    intro h
    have : ∀ (es : List Ev), (∀ v, Ev.entity v ∉ es) → ∀ a, (es.foldl apply a).entity = a.entity := by
      intro es
      induction es with
      | nil => intro _ a; rfl
      | cons e es ih =>
        intro h a
        rw [List.foldl_cons, ih (fun v hv => h v (List.mem_cons_of_mem _ hv))]
        cases e with
        | entity v => exact absurd List.mem_cons_self (h v)
        | _ => rfl
    refine this _ ?_ _
    intro v hv
    obtain ⟨l, hl, hlv⟩ := List.mem_map.1 hv
    exact h ⟨l, hl, v, hlv⟩
  -- comment lines
  have hcomment : (readComments lines).comment = (lines.map classify).flatMap Ev.comment := by
    unfold readComments
    rw [foldl_comment]; rfl
  have hls : splitlines [] (readComments lines).comment = lines.map (fun l => ((classify l).line).getD []) := by
    rw [hcomment, comment_lines _ (by
      intro c hc
      obtain ⟨l, hl, hlc⟩ := List.mem_map.1 hc
      exact (hfree l hl c hlc).2.2), List.filterMap_map]
    clear hs ht hS hT hD hP hE hD0 hP0 hE0 hcomment hcanon hone hent htext hfree hval
    induction lines with
    | nil => rfl
    | cons l ls ih =>
      have h1 : ∃ c, (classify l).line = some c := by
        cases hcl : classify l with
        | json d k v => exact absurd hcl (hjson l List.mem_cons_self d k v)
        | _ => exact ⟨_, rfl⟩
      obtain ⟨c, hc⟩ := h1
      rw [List.filterMap_cons_some (b := c) (by simpa using hc), ih (fun l' hl' => hjson l' (List.mem_cons_of_mem _ hl')),
        List.map_cons, hc]
      rfl
  generalize hw : W.ofAttr (readComments lines) computed = w
  have w1 : w.printSentId = true := by rw [← hw]; rfl
  have w2 : w.printText = true := by rw [← hw]; rfl
  have w3 : w.sentId = (readComments lines).sentId.getD [] := by rw [← hw]; rfl
  have w4 : w.text = (readComments lines).text := by rw [← hw]; rfl
  have w5 : w.newdoc = (readComments lines).newdoc := by rw [← hw]; rfl
  have w6 : w.newpar = (readComments lines).newpar := by rw [← hw]; rfl
  have w7 : w.comment = (readComments lines).comment := by rw [← hw]; rfl
  have w8 : w.entity = (readComments lines).entity := by rw [← hw]; rfl
  have w9 : w.json = [] := by rw [← hw]; rfl
  have hge : ∀ l ∈ lines, ∀ v, classify l = .entity v → w.ge = some v := by
    intro l hl v hv
    unfold W.ge
    rw [w8, hE l hl v hv]
    simp [hent l hl v hv]
  -- replacing gives the lines back
  have hrep : ∀ l ∈ lines, w.replace (((classify l).line).getD []) = some (l.drop 1) := by
    intro l hl
    have hc := hcanon l hl
    cases hcl : classify l with
    | sentId v =>
      have e : w.replace pSentId = if w.printSentId then some w.sentIdLine else none := rfl
      rw [hcl] at hc
      rw [← hc]
      show w.replace pSentId = some (lSentId ++ v)
      rw [e, if_pos w1]
      unfold W.sentIdLine
      rw [w3, hS l hl v hcl]; rfl
    | text v =>
      have e : w.replace pText = if w.printText then some w.textLine else some pText := rfl
      rw [hcl] at hc
      rw [← hc]
      show w.replace pText = some (lText ++ v)
      rw [e, if_pos w2]
      unfold W.textLine W.theText
      rw [w4, hT l hl v hcl]
      obtain ⟨t1, t2, t3⟩ := htext l hl v hcl
      simp only
      have f1 : v.filter (fun c => decide (c ≠ '\n')) = v := by
        rw [List.filter_eq_self]; intro c hc; simp only [decide_eq_true_eq]; rintro rfl; exact t1 hc
      have f2 : v.filter (fun c => decide (c ≠ '\r')) = v := by
        rw [List.filter_eq_self]; intro c hc; simp only [decide_eq_true_eq]; rintro rfl; exact t2 hc
      rw [f1, f2, t3]
    | newdoc m =>
      have e : w.replace pNewdoc = if w.printSentId ∧ w.newdoc.truthy then some w.newdocLine else none := rfl
      rw [hcl] at hc
      rw [← hc]
      show w.replace pNewdoc = some (markLine lNewdoc m)
      have hm : w.newdoc = m := by rw [w5, hD l hl m hcl]
      rw [e, if_pos ⟨w1, by rw [hm]; exact classify_newdoc_truthy hcl⟩]
      unfold W.newdocLine
      rw [hm]
    | newpar m =>
      have e : w.replace pNewpar = if w.printSentId ∧ w.newpar.truthy then some w.newparLine else none := rfl
      rw [hcl] at hc
      rw [← hc]
      show w.replace pNewpar = some (markLine lNewpar m)
      have hm : w.newpar = m := by rw [w6, hP l hl m hcl]
      rw [e, if_pos ⟨w1, by rw [hm]; exact classify_newpar_truthy hcl⟩]
      unfold W.newparLine
      rw [hm]
    | entity v =>
      have e : w.replace pEntity = w.ge.map entityLine := rfl
      rw [hcl] at hc
      rw [← hc]
      show w.replace pEntity = some (entityLine v)
      rw [e, hge l hl v hcl]
      rfl
    | free c =>
      rw [hcl] at hc
      rw [← hc]
      exact replace_free w (hfree l hl c hcl).2.1
    | json d k v => exact absurd hcl (hjson l hl d k v)
  have hcl : (splitlines [] w.comment).map w.replace = lines.map (fun l => some (l.drop 1)) := by
    rw [w7, hls, List.map_map]
    apply List.map_congr_left
    intro l hl
    exact hrep l hl
  have hshown : shown (lines.map (fun l => some (l.drop 1))) = lines := by
    unfold shown
    rw [List.filterMap_map]
    have : ∀ l ∈ lines, ∃ c, c ≠ [] ∧ l = '#' :: c := by
      intro l hl
      have hc := hcanon l hl
      cases hcl : classify l with
      | free c => rw [hcl] at hc; exact ⟨c, (hfree l hl c hcl).1, hc.symm⟩
      | json d k v => exact absurd hcl (hjson l hl d k v)
      | sentId v => rw [hcl] at hc; exact ⟨_, by simp [lSentId], hc.symm⟩
      | text v => rw [hcl] at hc; exact ⟨_, by simp [lText], hc.symm⟩
      | newdoc m => rw [hcl] at hc; exact ⟨_, by cases m <;> simp [markLine, lNewdoc], hc.symm⟩
      | newpar m => rw [hcl] at hc; exact ⟨_, by cases m <;> simp [markLine, lNewpar], hc.symm⟩
      | entity v => rw [hcl] at hc; exact ⟨_, by simp [entityLine, lEntity], hc.symm⟩
    have h2 : ∀ l ∈ lines, ((fun c : Option Str => match c with
        | some s => if s = [] then none else some ('#' :: s)
        | none => none) ∘ fun l : Str => some (l.drop 1)) l = some l := by
      intro l hl
      obtain ⟨c, hne, rfl⟩ := this l hl
      simp [hne]
    exact filterMap_id_of h2
  have hpl : ∀ {c : Str} {l : Str}, l ∈ lines → (classify l).line = some c → ∃ i, lastIdx c (splitlines [] w.comment) = some i := by
    intro c l hl hc
    have : c ∈ splitlines [] w.comment := by
      rw [w7, hls]
      exact List.mem_map.2 ⟨l, hl, by rw [hc]; rfl⟩
    cases h : lastIdx c (splitlines [] w.comment) with
    | none => exact absurd h (mem_lastIdx.2 this)
    | some i => exact ⟨i, rfl⟩
  obtain ⟨ls1, hl1, v1, hv1⟩ := hs
  obtain ⟨ls2, hl2, v2, hv2⟩ := ht
  obtain ⟨i1, hi1⟩ := hpl hl1 (c := pSentId) (by rw [hv1]; rfl)
  obtain ⟨i2, hi2⟩ := hpl hl2 (c := pText) (by rw [hv2]; rfl)
  unfold W.write
  simp only
  rw [hcl, if_neg (by
    rw [List.head?_map]
    cases lines.head? with
    | none => simp
    | some x => simp)]
  rw [if_pos w1, if_neg (by rw [hi2]; simp), w9]
  have hcols : (columnsLine (lines.map (fun l => some (l.drop 1)))).2 =
      shown ((lines.map (fun l => some (l.drop 1))).take (columnsLine (lines.map (fun l => some (l.drop 1)))).1) := by
    unfold columnsLine
    split
    · rename_i c rest hx
      split
      · rename_i hc
        have hne : c ≠ [] := by rintro rfl; exact absurd hc (by decide)
        rw [hx]
        simp [shown, hne]
      · rfl
    · rfl
  have hspec : ∀ s : St, s.2 = shown ((lines.map (fun l => some (l.drop 1))).take s.1) →
      (w.special (splitlines [] w.comment) (lines.map (fun l => some (l.drop 1))) s).2 =
        shown ((lines.map (fun l => some (l.drop 1))).take
          (w.special (splitlines [] w.comment) (lines.map (fun l => some (l.drop 1))) s).1) := by
    intro s hs
    unfold W.special
    simp only
    rw [hi1]
    apply step_prefix
    have ha : ∀ s : St, s.2 = shown ((lines.map (fun l => some (l.drop 1))).take s.1) →
        (if w.newdoc.truthy = true then
          match w.ge with
          | some g => step (lines.map (fun l => some (l.drop 1))) (entityLine g) (lastIdx pEntity (splitlines [] w.comment))
              (step (lines.map (fun l => some (l.drop 1))) w.newdocLine (lastIdx pNewdoc (splitlines [] w.comment)) s)
          | none => step (lines.map (fun l => some (l.drop 1))) w.newdocLine (lastIdx pNewdoc (splitlines [] w.comment)) s
        else s).2 = shown ((lines.map (fun l => some (l.drop 1))).take
        (if w.newdoc.truthy = true then
          match w.ge with
          | some g => step (lines.map (fun l => some (l.drop 1))) (entityLine g) (lastIdx pEntity (splitlines [] w.comment))
              (step (lines.map (fun l => some (l.drop 1))) w.newdocLine (lastIdx pNewdoc (splitlines [] w.comment)) s)
          | none => step (lines.map (fun l => some (l.drop 1))) w.newdocLine (lastIdx pNewdoc (splitlines [] w.comment)) s
        else s).1) := by
      intro s hs
      by_cases hd : w.newdoc.truthy = true
      · have hex : ∃ l ∈ lines, ∃ v, classify l = .newdoc v := by
          apply Classical.byContradiction
          intro h
          rw [w5, hD0 h] at hd
          cases hd
        obtain ⟨l, hl, v, hv⟩ := hex
        obtain ⟨i, hi⟩ := hpl hl (c := pNewdoc) (by rw [hv]; rfl)
        rw [if_pos hd, hi]
        have h1 := step_prefix (line := w.newdocLine) (i := i) hs
        cases hg : w.ge with
        | none => exact h1
        | some g =>
          have hex : ∃ l ∈ lines, ∃ v, classify l = .entity v := by
            apply Classical.byContradiction
            intro h
            unfold W.ge at hg
            rw [w8, hE0 h] at hg
            cases hg
          obtain ⟨l', hl', v', hv'⟩ := hex
          obtain ⟨j, hj⟩ := hpl hl' (c := pEntity) (by rw [hv']; rfl)
          simp only [hj]
          exact step_prefix h1
      · rw [if_neg hd]; exact hs
    by_cases hp : w.newpar.truthy = true
    · have hex : ∃ l ∈ lines, ∃ v, classify l = .newpar v := by
        apply Classical.byContradiction
        intro h
        rw [w6, hP0 h] at hp
        cases hp
      obtain ⟨l, hl, v, hv⟩ := hex
      obtain ⟨i, hi⟩ := hpl hl (c := pNewpar) (by rw [hv]; rfl)
      rw [if_pos hp, hi]
      exact step_prefix (ha s hs)
    · rw [if_neg hp]
      exact ha s hs
  rw [hspec _ hcols, List.map_nil, List.append_nil, ← shown_append, List.take_append_drop, hshown]

example : (W.ofAttr (readComments ["# newpar".toList, "# x = 1".toList, "# text = A b".toList, "# sent_id = s".toList]) []).write =
    some ["# newpar".toList, "# x = 1".toList, "# text = A b".toList, "# sent_id = s".toList] := by decide

end Verif.Conllu.Meta
