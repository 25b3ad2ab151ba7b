import Verif.Py.Str

/-!
# Property C215: ud.mr.AddFormsInMwt cuts a multiword token into the forms of its words

Source: `udapi/block/ud/mr/addformsinmwt.py:14-97`. Words are given by form, lemma and whether their UPOS is ADP or PART. `re.match(r'^(.+)(a|b|...)$', s)` is the longest non-empty
prefix followed by one of the endings (forms without line breaks). The lemma in line 60 is used as a regular expression without escaping: `rx lemma t` says that it matches `t` as a whole
(lemmas with `|` at the outermost level, which cut the whole expression in two, are not modelled). Logging is not modelled.
-/

namespace Verif.Text.Marathi
open Verif.Py

structure W where
  form : Str
  lemma : Str
  adp : Bool
deriving DecidableEq

def blank (w : W) : Bool := decide (w.form = ['_'])

def ca : Char := 'च'
def caa : Str := ['च', 'ा']
def cii : Str := ['च', 'ी']
def cyaa : Str := ['च', '्', 'य', 'ा']
def varati : Str := ['व', 'र', 'त', 'ी']
/-- Line 32. -/
def poss : List Str := [caa, cii, ['च', 'े'], cyaa, ['च', 'ं']]
/-- Line 50. -/
def on : List Str := [varati, ['व', 'र']]
/-- Line 38. -/
def stems : List Str := [['म', 'ा', 'झ'], ['त', 'ु', 'झ'], ['आ', 'प', 'ल']]
def ends : List Str := [['ा'], ['ी'], ['े'], ['्', 'य', 'ा']]

/-- `re.match(r'^(.+)(...)$', s)`, trying the prefixes of length `k`, `k - 1`, ..., 1. -/
def cut (ok : Str → Bool) (s : Str) : Nat → Option (Str × Str)
  | 0 => none
  | k + 1 => if ok (s.drop (k + 1)) then some (s.take (k + 1), s.drop (k + 1)) else cut ok s k

def splitEnd (ok : Str → Bool) (s : Str) : Option (Str × Str) := cut ok s s.length

/-- The first of `es` that `t` begins with so that something is left (`(a|b|...)(.+)$`). -/
def headOf : List Str → Str → Option (Str × Str)
  | [], _ => none
  | e :: es, t => if e.isPrefixOf t && decide (e.length < t.length) then some (e, t.drop e.length) else headOf es t

/-- `re.match(r'^(.+)(a|b|...)(.+)$', s)` -/
def cutMid (es : List Str) (s : Str) : Nat → Option (Str × Str × Str)
  | 0 => none
  | k + 1 => match headOf es (s.drop (k + 1)) with
    | some (e, r) => some (s.take (k + 1), e, r)
    | none => cutMid es s k

/-- The first stem of `m2` (lines 38 and 70) with what follows it. -/
def stemOf : List Str → Str → Option (Str × Str)
  | [], _ => none
  | p :: ps, s => if p.isPrefixOf s then some (p, s.drop p.length) else stemOf ps s

/-- The forms proposed for the words of a token (lines 23-93), `none` where nothing is set. -/
def parts (rx : Str → Str → Bool) (form : Str) : List W → Option (List Str)
  | [_, b] =>
    if b.adp then
      if b.lemma = caa ∨ b.lemma = cii then
        match splitEnd (fun t => decide (t ∈ poss)) form with
        | some (p, e) => some [p, e]
        | none => match stemOf stems form with
          | some (p, e) => if e ∈ ends then some [p, ca :: e] else none
          | none => none
      else if b.lemma = varati then (splitEnd (fun t => decide (t ∈ on)) form).map fun x => [x.1, x.2]
      else (splitEnd (rx b.lemma) form).map fun x => [x.1, b.lemma]
    else none
  | [_, b, c] =>
    if b.adp && c.adp then
      if b.lemma = caa ∨ b.lemma = cyaa then
        match cutMid poss form form.length with
        | some (p, e, r) => some [p, e, r]
        | none => match stemOf stems form with
          | some (p, t) => match headOf ends t with
            | some (e, r) => some [p, ca :: e, r]
            | none => none
          | none => none
      else none
    else none
  | _ => none

/-- Only words without a form get one. -/
def fill : List W → List Str → List W
  | w :: ws, f :: fs => (if blank w then { w with form := f } else w) :: fill ws fs
  | ws, _ => ws

/-- The words of a token after the block; lemmas are left out. -/
def process (rx : Str → Str → Bool) (form : Str) (ws : List W) : List W :=
  match parts rx form ws with
  | some fs => fill ws fs
  | none => ws

theorem cut_spec {ok : Str → Bool} {s p e : Str} : ∀ {k : Nat}, k ≤ s.length → cut ok s k = some (p, e) →
    p ≠ [] ∧ p ++ e = s ∧ ok e = true ∧ ∀ (p' e' : Str), p' ++ e' = s → p'.length ≤ k → ok e' = true → p'.length ≤ p.length
  | 0, _, h => by cases h
  | k + 1, hk, h => by
    rw [cut] at h
    split at h
    · rename_i g
      simp only [Option.some.injEq, Prod.mk.injEq] at h
      obtain ⟨rfl, rfl⟩ := h
      refine ⟨?_, List.take_append_drop .., g, ?_⟩
      · intro e
        have := congrArg List.length e
        rw [List.length_take, List.length_nil] at this
        omega
      · intro p' e' _ hl _
        rw [List.length_take]
        omega
    · rename_i g
      obtain ⟨h1, h2, h3, h4⟩ := cut_spec (Nat.le_of_succ_le hk) h
      refine ⟨h1, h2, h3, ?_⟩
      intro p' e' hs hl he
      by_cases hc : p'.length = k + 1
      · exfalso
        apply g
        rw [← hs, ← hc, List.drop_left]
        exact he
      · exact h4 p' e' hs (by omega) he

theorem cut_none {ok : Str → Bool} {s : Str} : ∀ {k : Nat}, cut ok s k = none → ∀ (p e : Str), p ++ e = s → p ≠ [] → p.length ≤ k → ok e = false
  | 0, _, p, _, _, hp, hl => absurd (List.length_eq_zero_iff.mp (Nat.le_zero.mp hl)) hp
  | k + 1, h, p, e, hs, hp, hl => by
    rw [cut] at h
    split at h
    · cases h
    · rename_i g
      by_cases hc : p.length = k + 1
      · rw [← hs, ← hc, List.drop_left] at g
        simpa using g
      · exact cut_none h p e hs hp (by omega)

theorem headOf_spec {t e r : Str} : ∀ {es : List Str}, headOf es t = some (e, r) → e ∈ es ∧ e ++ r = t ∧ r ≠ []
  | [], h => by cases h
  | x :: es, h => by
    rw [headOf] at h
    split at h
    · rename_i g
      simp only [Bool.and_eq_true, decide_eq_true_eq, List.isPrefixOf_iff_prefix] at g
      simp only [Option.some.injEq, Prod.mk.injEq] at h
      obtain ⟨rfl, rfl⟩ := h
      obtain ⟨⟨z, hz⟩, hl⟩ := g
      refine ⟨List.mem_cons_self .., ?_, ?_⟩
      · rw [← hz, List.drop_left]
      · intro e
        have := congrArg List.length e
        simp at this
        omega
    · obtain ⟨h1, h2, h3⟩ := headOf_spec h
      exact ⟨List.mem_cons_of_mem _ h1, h2, h3⟩

theorem headOf_none {t : Str} : ∀ {es : List Str}, headOf es t = none → ∀ e ∈ es, ∀ r, e ++ r = t → r = []
  | x :: es, h, e, he, r, hr => by
    rw [headOf] at h
    split at h
    · cases h
    · rename_i g
      rcases List.mem_cons.mp he with e1 | e1
      · refine Classical.byContradiction fun hne => g ?_
        simp only [Bool.and_eq_true, decide_eq_true_eq, List.isPrefixOf_iff_prefix]
        refine ⟨⟨r, e1 ▸ hr⟩, ?_⟩
        rw [← hr, ← e1, List.length_append]
        have := List.length_pos_iff.mpr hne
        omega
      · exact headOf_none h e e1 r hr

theorem cutMid_spec {es : List Str} {s p e r : Str} : ∀ {k : Nat}, k ≤ s.length → cutMid es s k = some (p, e, r) →
    p ≠ [] ∧ e ∈ es ∧ r ≠ [] ∧ p ++ e ++ r = s ∧ ∀ (p' e' r' : Str), p' ++ e' ++ r' = s → e' ∈ es → r' ≠ [] → p'.length ≤ k → p'.length ≤ p.length
  | 0, _, h => by cases h
  | k + 1, hk, h => by
    rw [cutMid] at h
    split at h
    · rename_i e1 r1 g
      simp only [Option.some.injEq, Prod.mk.injEq] at h
      obtain ⟨rfl, rfl, rfl⟩ := h
      obtain ⟨h1, h2, h3⟩ := headOf_spec g
      refine ⟨?_, h1, h3, ?_, ?_⟩
      · intro e
        have := congrArg List.length e
        rw [List.length_take, List.length_nil] at this
        omega
      · rw [List.append_assoc, h2]; exact List.take_append_drop ..
      · intro p' _ _ _ _ _ hl
        rw [List.length_take]
        omega
    · rename_i g
      obtain ⟨h1, h2, h3, h4, h5⟩ := cutMid_spec (Nat.le_of_succ_le hk) h
      refine ⟨h1, h2, h3, h4, ?_⟩
      intro p' e' r' hs he hr hl
      by_cases hc : p'.length = k + 1
      · exfalso
        refine hr (headOf_none g e' he r' ?_)
        rw [← hs, ← hc, List.append_assoc, List.drop_left]
      · exact h5 p' e' r' hs he hr (by omega)

theorem stemOf_spec {s p t : Str} : ∀ {ps : List Str}, stemOf ps s = some (p, t) → p ∈ ps ∧ p ++ t = s
  | [], h => by cases h
  | x :: ps, h => by
    rw [stemOf] at h
    split at h
    · rename_i g
      simp only [Option.some.injEq, Prod.mk.injEq] at h
      obtain ⟨rfl, rfl⟩ := h
      obtain ⟨z, hz⟩ := List.isPrefixOf_iff_prefix.mp g
      exact ⟨List.mem_cons_self .., by rw [← hz, List.drop_left]⟩
    · exact ⟨List.mem_cons_of_mem _ (stemOf_spec h).1, (stemOf_spec h).2⟩

/-- No two of the endings can end the same token. -/
def EndFree (es : List Str) : Prop := ∀ e ∈ es, ∀ e' ∈ es, ∀ (p p' : Str), p ++ e = p' ++ e' → e = e'

/-- Enough to compare the endings themselves. -/
theorem endFree_of {es : List Str} (h : ∀ e ∈ es, ∀ e' ∈ es, e.isSuffixOf e' = true → e = e') : EndFree es := by
  intro e he e' he' p p' hp
  rcases Nat.le_total e.length e'.length with hl | hl
  · refine h e he e' he' (List.isSuffixOf_iff_suffix.mpr ?_)
    exact List.suffix_of_suffix_length_le ⟨p, rfl⟩ ⟨p', hp.symm⟩ hl
  · refine (h e' he' e he (List.isSuffixOf_iff_suffix.mpr ?_)).symm
    exact List.suffix_of_suffix_length_le ⟨p', rfl⟩ ⟨p, hp⟩ hl

theorem poss_free : EndFree poss := endFree_of (by decide)
theorem on_free : EndFree on := endFree_of (by decide)

/-! ## C215 -/

/-- Two words with the possessive postposition: whatever way there is to cut the token into something and one of the endings is the one proposed, and there is no other. -/
theorem C215_possessive (rx : Str → Str → Bool) (form p e : Str) (a b : W) (hb : b.adp = true) (hl : b.lemma = caa ∨ b.lemma = cii) (hp : p ≠ []) (he : e ∈ poss) (hf : p ++ e = form) :
    parts rx form [a, b] = some [p, e] := by
  have : splitEnd (fun t => decide (t ∈ poss)) form = some (p, e) := by
    cases hs : splitEnd (fun t => decide (t ∈ poss)) form with
    | none =>
      have := cut_none hs p e hf hp (by rw [← hf]; simp)
      simp [he] at this
    | some x =>
      obtain ⟨p', e'⟩ := x
      obtain ⟨_, h2, h3, _⟩ := cut_spec (Nat.le_refl _) hs
      have e1 : e = e' := poss_free e he e' (by simpa using h3) p p' (by rw [hf, h2])
      subst e1
      have : p = p' := List.append_cancel_right (hf.trans h2.symm)
      rw [this]
  simp only [parts, hb, if_true, if_pos hl, this]

/-- The same for the postposition "on", which is written short or long. -/
theorem C215_on (rx : Str → Str → Bool) (form p e : Str) (a b : W) (hb : b.adp = true) (hl : b.lemma = varati) (hp : p ≠ []) (he : e ∈ on) (hf : p ++ e = form) :
    parts rx form [a, b] = some [p, e] := by
  have : splitEnd (fun t => decide (t ∈ on)) form = some (p, e) := by
    cases hs : splitEnd (fun t => decide (t ∈ on)) form with
    | none =>
      have := cut_none hs p e hf hp (by rw [← hf]; simp)
      simp [he] at this
    | some x =>
      obtain ⟨p', e'⟩ := x
      obtain ⟨_, h2, h3, _⟩ := cut_spec (Nat.le_refl _) hs
      have e1 : e = e' := on_free e he e' (by simpa using h3) p p' (by rw [hf, h2])
      subst e1
      have : p = p' := List.append_cancel_right (hf.trans h2.symm)
      rw [this]
  have n1 : ¬(b.lemma = caa ∨ b.lemma = cii) := by rw [hl]; decide
  simp only [parts, hb, if_true, if_neg n1, if_pos hl, this, Option.map_some]

/-- The forms proposed put together are the token; or the token is a possessive pronoun and exactly its stem is followed by an additional character. `rx` has to take lemmas literally. -/
theorem C215_together_partial (rx : Str → Str → Bool) (hrx : ∀ l t, rx l t = true ↔ t = l) (form : Str) (ws : List W) (fs : List Str) (h : parts rx form ws = some fs) :
    fs.length = ws.length ∧ (fs.flatten = form ∨ ∃ (p t : Str), p ∈ stems ∧ form = p ++ t ∧ fs.flatten = p ++ ca :: t) := by
  unfold parts at h
  split at h
  · rename_i a b
    split at h
    · split at h
      · split at h
        · rename_i p e hs
          injection h with h; subst h
          exact ⟨rfl, Or.inl (by simpa using (cut_spec (Nat.le_refl _) hs).2.1)⟩
        · split at h
          · rename_i p e hs
            split at h
            · injection h with h; subst h
              obtain ⟨h1, h2⟩ := stemOf_spec hs
              exact ⟨rfl, Or.inr ⟨p, e, h1, h2.symm, by simp⟩⟩
            · cases h
          · cases h
      · split at h
        · rw [Option.map_eq_some_iff] at h
          obtain ⟨⟨p, e⟩, hs, rfl⟩ := h
          exact ⟨rfl, Or.inl (by simpa using (cut_spec (Nat.le_refl _) hs).2.1)⟩
        · rw [Option.map_eq_some_iff] at h
          obtain ⟨⟨p, e⟩, hs, rfl⟩ := h
          obtain ⟨_, h2, h3, _⟩ := cut_spec (Nat.le_refl _) hs
          rw [hrx] at h3
          exact ⟨rfl, Or.inl (by simpa [h3] using h2)⟩
    · cases h
  · rename_i a b c
    split at h
    · split at h
      · split at h
        · rename_i p e r hs
          injection h with h; subst h
          obtain ⟨_, _, _, h4, _⟩ := cutMid_spec (Nat.le_refl _) hs
          exact ⟨rfl, Or.inl (by simpa using h4)⟩
        · split at h
          · rename_i p t hs
            split at h
            · rename_i e r hh
              injection h with h; subst h
              obtain ⟨h1, h2⟩ := stemOf_spec hs
              exact ⟨rfl, Or.inr ⟨p, t, h1, h2.symm, by simp [← (headOf_spec hh).2.1]⟩⟩
            · cases h
          · cases h
      · cases h
    · cases h
  · cases h

/-- For every lemma that, read as a regular expression, matches another string: a token ending in that string is cut before it and the second word gets the lemma, so the forms
put together are not the token. -/
theorem C215_regex_violated (rx : Str → Str → Bool) (form : Str) (a b : W) (fs : List Str) (hb : b.adp = true) (h1 : b.lemma ≠ caa) (h2 : b.lemma ≠ cii) (h3 : b.lemma ≠ varati)
    (hno : ¬ b.lemma <:+ form) (h : parts rx form [a, b] = some fs) : fs.flatten ≠ form := by
  have n1 : ¬(b.lemma = caa ∨ b.lemma = cii) := fun g => g.elim h1 h2
  simp only [parts, hb, if_true, if_neg n1, if_neg h3, Option.map_eq_some_iff] at h
  obtain ⟨x, _, rfl⟩ := h
  intro g
  exact hno ⟨x.1, by simpa using g⟩

/-- A plain lemma at the end of the token, after something else: the token is cut there. -/
theorem C215_lemma (rx : Str → Str → Bool) (hrx : ∀ l t, rx l t = true ↔ t = l) (form p : Str) (a b : W) (hb : b.adp = true) (h1 : b.lemma ≠ caa) (h2 : b.lemma ≠ cii)
    (h3 : b.lemma ≠ varati) (hp : p ≠ []) (hf : p ++ b.lemma = form) : parts rx form [a, b] = some [p, b.lemma] := by
  have n1 : ¬(b.lemma = caa ∨ b.lemma = cii) := fun g => g.elim h1 h2
  simp only [parts, hb, if_true, if_neg n1, if_neg h3]
  cases hs : splitEnd (rx b.lemma) form with
  | none =>
    have := cut_none hs p b.lemma hf hp (by rw [← hf]; simp)
    rw [(hrx _ _).mpr rfl] at this
    cases this
  | some x =>
    obtain ⟨p', e'⟩ := x
    obtain ⟨_, g2, g3, _⟩ := cut_spec (Nat.le_refl _) hs
    rw [hrx] at g3
    subst g3
    have : p = p' := List.append_cancel_right (hf.trans g2.symm)
    simp [this]

/-- Three words with a possessive in the middle: if the token can be cut into something, an ending and something, it is cut so, with the first part as long as possible. -/
theorem C215_three (rx : Str → Str → Bool) (form p e r : Str) (a b c : W) (hb : b.adp = true) (hc : c.adp = true) (hl : b.lemma = caa ∨ b.lemma = cyaa)
    (hp : p ≠ []) (he : e ∈ poss) (hr : r ≠ []) (hf : p ++ e ++ r = form) :
    ∃ (p' e' r' : Str), parts rx form [a, b, c] = some [p', e', r'] ∧ p' ≠ [] ∧ e' ∈ poss ∧ r' ≠ [] ∧ p' ++ e' ++ r' = form ∧ p.length ≤ p'.length := by
  have some_cut : ∀ k, p.length ≤ k → cutMid poss form k ≠ none := by
    intro k
    induction k with
    | zero => intro g; exact absurd (List.length_eq_zero_iff.mp (Nat.le_zero.mp g)) hp
    | succ k ih =>
      intro g hn
      rw [cutMid] at hn
      split at hn
      · cases hn
      · rename_i hh
        by_cases hk : p.length = k + 1
        · refine hr (headOf_none hh e he r ?_)
          rw [← hf, ← hk, List.append_assoc, List.drop_left]
        · exact ih (by omega) hn
  have hlen : p.length ≤ form.length := by rw [← hf]; simp
  cases hs : cutMid poss form form.length with
  | none => exact absurd hs (some_cut _ hlen)
  | some x =>
    obtain ⟨p', e', r'⟩ := x
    obtain ⟨g1, g2, g3, g4, g5⟩ := cutMid_spec (Nat.le_refl _) hs
    refine ⟨p', e', r', ?_, g1, g2, g3, g4, g5 p e r hf he hr hlen⟩
    simp only [parts, hb, hc, Bool.and_self, if_true, if_pos hl, hs]

theorem fill_map : ∀ (ws : List W) (fs : List Str), (fill ws fs).map (fun w => (w.lemma, w.adp)) = ws.map fun w => (w.lemma, w.adp)
  | [], fs => by cases fs <;> rfl
  | w :: ws, [] => rfl
  | w :: ws, f :: fs => by
    rw [fill, List.map_cons, List.map_cons, fill_map ws fs]
    congr 1
    split <;> rfl

theorem fill_keeps : ∀ (ws : List W) (fs : List Str) (i : Nat) (w : W), ws[i]? = some w → blank w = false → (fill ws fs)[i]? = some w
  | [], _, _, _, h, _ => by cases h
  | v :: ws, [], i, w, h, _ => h
  | v :: ws, f :: fs, 0, w, h, hb => by
    simp only [List.getElem?_cons_zero, Option.some.injEq] at h
    subst h
    simp [fill, hb]
  | v :: ws, f :: fs, i + 1, w, h, hb => by
    rw [fill, List.getElem?_cons_succ]
    exact fill_keeps ws fs i w (by simpa using h) hb

theorem fill_all : ∀ (ws : List W) (fs : List Str), fs.length = ws.length → (∀ w ∈ ws, blank w = true) → (fill ws fs).map W.form = fs
  | [], [], _, _ => rfl
  | w :: ws, f :: fs, hl, h => by
    rw [fill, List.map_cons, fill_all ws fs (by simpa using hl) fun v hv => h v (List.mem_cons_of_mem _ hv), if_pos (h w (List.mem_cons_self ..))]

/-- A word that has a form keeps it; no word is added or lost. -/
theorem C215_keeps (rx : Str → Str → Bool) (form : Str) (ws : List W) (i : Nat) (w : W) (h : ws[i]? = some w) (hw : blank w = false) :
    (process rx form ws)[i]? = some w ∧ (process rx form ws).length = ws.length := by
  unfold process
  split
  · rename_i fs _
    refine ⟨fill_keeps ws fs i w h hw, ?_⟩
    simpa using congrArg List.length (fill_map ws fs)
  · exact ⟨h, rfl⟩

/-- Words without forms get the forms proposed for the token, so put together they are the token, except for pronouns; when nothing is proposed they stay without. -/
theorem C215_forms (rx : Str → Str → Bool) (hrx : ∀ l t, rx l t = true ↔ t = l) (form : Str) (ws : List W) (h : ∀ w ∈ ws, blank w = true) :
    process rx form ws = ws ∨ ((process rx form ws).map W.form).flatten = form ∨
      ∃ (p t : Str), p ∈ stems ∧ form = p ++ t ∧ ((process rx form ws).map W.form).flatten = p ++ ca :: t := by
  unfold process
  split
  · rename_i fs hs
    obtain ⟨hl, hf⟩ := C215_together_partial rx hrx form ws fs hs
    rw [fill_all ws fs hl h]
    exact Or.inr hf
  · exact Or.inl rfl

/-- "x" and "cyaa"; the pronoun "tujhii"; the lemma "." taken as a regular expression. -/
example : parts (fun l t => l == t) ('x' :: cyaa) [⟨['_'], [], false⟩, ⟨['_'], cii, true⟩] = some [['x'], cyaa] ∧
    parts (fun l t => l == t) ['त', 'ु', 'झ', 'ी'] [⟨['_'], [], false⟩, ⟨['_'], caa, true⟩] = some [['त', 'ु', 'झ'], ['च', 'ी']] ∧
    parts (fun _ t => t.length == 1) ['x', 'y'] [⟨['_'], [], false⟩, ⟨['_'], ['.'], true⟩] = some [['x'], ['.']] := by decide
example : process (fun l t => l == t) ('x' :: caa ++ caa ++ ['y']) [⟨['_'], [], false⟩, ⟨['z'], caa, true⟩, ⟨['_'], [], true⟩] =
    [⟨'x' :: caa, [], false⟩, ⟨['z'], caa, true⟩, ⟨['y'], [], true⟩] := by decide

end Verif.Text.Marathi
