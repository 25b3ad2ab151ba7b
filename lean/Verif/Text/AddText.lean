import Verif.Text.SpaceAfter

/-!
# Property C156: read.AddText (udapi/block/read/addtext.py)

A tree is the list of its tokens (`root.token_descendants`); of `misc` only `SpaceAfter` is kept: `no` is `misc['SpaceAfter'] == 'No'`.
`root.compute_text()` is computed from the tokens, as C84 proves. The text is given by what follows the position `i`; there `i <= end`
always holds.
-/

namespace Verif.Text.AddText
open Verif.Py Verif.Text

structure Tk where
  form : Str
  no : Bool
  deriving DecidableEq, Repr

structure Tr where
  toks : List Tk
  newpar : Bool
  text : Option Str
  deriving DecidableEq, Repr

/-- How a loop ends: after all tokens, with the rest of the text and `was_newpar`; with the warning and `return`; with the `IndexError`. -/
inductive Out where
  | go (rest : Str) (np : Bool)
  | mismatch
  | index
  deriving DecidableEq, Repr

/-- `while i <= end and text[i].isspace(): i += 1` (addtext.py:36-37, 50-51); `none` is the `IndexError` of `text[end]`. -/
def skip : Str → Option Str
  | [] => none
  | c :: r => if isWs c then skip r else some (c :: r)

/-- The loop over the tokens of one tree (addtext.py:44-57) -/
def addToks : List Tk → Str → Bool → List Tk × Out
  | [], rest, np => ([], .go rest np)
  | t :: ts, rest, _ =>
    if t.form.isPrefixOf rest then
      match rest.drop t.form.length with
      | [] => (t :: ts, .index)
      | c :: r =>
        if isWs c then
          match skip (c :: r) with
          | none => ({ t with no := false } :: ts, .index)
          | some rest' =>
            let res := addToks ts rest' (decide (c = '\n') && decide (r.head? = some '\n'))
            ({ t with no := false } :: res.1, res.2)
        else
          let res := addToks ts (c :: r) false
          ({ t with no := true } :: res.1, res.2)
    else (t :: ts, .mismatch)

/-- The loop over the bundles (addtext.py:39-58) -/
def addTrees (addNewpar : Bool) : List Tr → Str → Bool → List Tr × Out
  | [], rest, np => ([], .go rest np)
  | t :: ts, rest, np =>
    let t1 := if addNewpar && np then { t with newpar := true } else t
    match addToks t.toks rest (if addNewpar && np then false else np) with
    | (toks, .go rest' np') =>
      let t2 := { t1 with toks := toks, text := some (rstrip (detok (toks.map (fun k => (k.form, k.no))))) }
      let res := addTrees addNewpar ts rest' np'
      (t2 :: res.1, res.2)
    | (toks, o) => ({ t1 with toks := toks } :: ts, o)

/-- `process_document(document)` (addtext.py:29-59) with the whole text of the file -/
def addText (addNewpar : Bool) (ts : List Tr) (text : Str) : List Tr × Out :=
  match skip text with
  | none => (ts, .index)
  | some rest => addTrees addNewpar ts rest true

/-! ## What the properties say -/

/-- Tokens with the white space after each. -/
def lay (L : List (Str × Str)) : Str := L.flatMap (fun p => p.1 ++ p.2)

def Ws (s : Str) : Prop := ∀ c ∈ s, isWs c = true

/-- The string begins with a character that is not white space. -/
def Starts (s : Str) : Prop := ∃ c r, s = c :: r ∧ isWs c = false

/-- The tokens are not empty and do not begin with white space, and only white space is between them. -/
def Good (L : List (Str × Str)) : Prop := ∀ p ∈ L, Starts p.1 ∧ Ws p.2

/-- The last token of a sentence is followed by a line end and an empty line. -/
def EndsPar (L : List (Str × Str)) : Prop := ∃ p, L.getLast? = some p ∧ ['\n', '\n'] <+: p.2

instance (L : List (Str × Str)) : Decidable (EndsPar L) :=
  match h : L.getLast? with
  | none => isFalse (by rintro ⟨p, hp, _⟩; rw [h] at hp; cases hp)
  | some p => if hp : ['\n', '\n'] <+: p.2 then isTrue ⟨p, h, hp⟩ else isFalse (by rintro ⟨q, hq, h2⟩; rw [h] at hq; cases hq; exact hp h2)

/-! ## Proofs -/

theorem Starts.append {s t : Str} (h : Starts s) : Starts (s ++ t) := by
  obtain ⟨c, r, rfl, hc⟩ := h
  exact ⟨c, r ++ t, rfl, hc⟩

theorem skip_starts {s : Str} (h : Starts s) : skip s = some s := by
  obtain ⟨c, r, rfl, hc⟩ := h
  rw [skip, if_neg (by simp [hc])]

theorem skip_ws {g s : Str} (hg : Ws g) (h : Starts s) : skip (g ++ s) = some s := by
  induction g with
  | nil => exact skip_starts h
  | cons c g ih =>
    rw [List.cons_append, skip, if_pos (hg c List.mem_cons_self)]
    exact ih (fun d hd => hg d (List.mem_cons_of_mem _ hd))

theorem skip_end {g : Str} (hg : Ws g) : skip g = none := by
  induction g with
  | nil => rfl
  | cons c g ih =>
    rw [skip, if_pos (hg c List.mem_cons_self)]
    exact ih (fun d hd => hg d (List.mem_cons_of_mem _ hd))

theorem skip_some {s r : Str} (h : skip s = some r) : ∃ g, s = g ++ r ∧ Ws g ∧ Starts r := by
  induction s with
  | nil => cases h
  | cons c s ih =>
    rw [skip] at h
    by_cases hc : isWs c = true
    · rw [if_pos hc] at h
      obtain ⟨g, e, hg, hs⟩ := ih h
      refine ⟨c :: g, by rw [e]; rfl, ?_, hs⟩
      intro d hd
      rcases List.mem_cons.1 hd with rfl | hd
      · exact hc
      · exact hg d hd
    · rw [if_neg hc] at h
      cases h
      exact ⟨[], rfl, (fun d hd => by cases hd), c, s, rfl, by simpa using hc⟩

theorem lay_starts {L : List (Str × Str)} {tail : Str} (hL : Good L) (ht : Starts tail) : Starts (lay L ++ tail) := by
  cases L with
  | nil => exact ht
  | cons p L =>
    rw [lay, List.flatMap_cons, List.append_assoc, List.append_assoc]
    exact (hL p List.mem_cons_self).1.append

theorem prefix_append (a b : Str) : a.isPrefixOf (a ++ b) = true := by simp

/-- The tokens after the block. -/
def marked (L : List (Str × Str)) : List Tk := L.map (fun p => ⟨p.1, decide (p.2 = [])⟩)

theorem addToks_ok : ∀ (toks : List Tk) (L : List (Str × Str)) (tail : Str) (np : Bool), toks.map (·.form) = L.map (·.1) → Good L → Starts tail →
    addToks toks (lay L ++ tail) np = (marked L, .go tail (if L = [] then np else decide (EndsPar L))) := by
  intro toks
  induction toks with
  | nil =>
    intro L tail np hf _ _
    cases L with
    | nil => rfl
    | cons p L => cases hf
  | cons t toks ih =>
    intro L tail np hf hL ht
    cases L with
    | nil => cases hf
    | cons p L =>
      obtain ⟨f, g⟩ := p
      rw [List.map_cons, List.map_cons, List.cons.injEq] at hf
      obtain ⟨hf1, hf2⟩ := hf
      simp only at hf1
      have hL' : Good L := fun q hq => hL q (List.mem_cons_of_mem _ hq)
      obtain ⟨_, hg⟩ := hL _ List.mem_cons_self
      have hrest := lay_starts hL' ht
      have e : lay ((f, g) :: L) ++ tail = f ++ (g ++ (lay L ++ tail)) := by rw [lay, List.flatMap_cons]; simp [lay]
      have hlast : ∀ np', (if L = [] then np' else decide (EndsPar L)) = (if L = [] then np' else decide (EndsPar ((f, g) :: L))) := by
        intro np'
        cases L with
        | nil => rfl
        | cons q L =>
          rw [if_neg (by simp), if_neg (by simp)]
          exact decide_eq_decide.2 (by simp only [EndsPar, List.getLast?_cons_cons])
      rw [addToks, hf1, e, if_pos (prefix_append _ _), List.drop_left, if_neg (by simp : ¬ (f, g) :: L = [])]
      cases g with
      | nil =>
        obtain ⟨c, r, hr, hc⟩ := hrest
        rw [List.nil_append, hr]
        simp only
        rw [if_neg (by simp [hc]), ← hr, ih L tail false hf2 hL' ht, hlast]
        have hnp : (if L = [] then false else decide (EndsPar ((f, []) :: L))) = decide (EndsPar ((f, []) :: L)) := by
          cases L with
          | nil => simp [EndsPar]
          | cons q L => rfl
        rw [hnp]
        simp [marked, ← hf1]
      | cons c g =>
        rw [List.cons_append]
        simp only
        have hgc : isWs c = true := hg c List.mem_cons_self
        rw [if_pos hgc]
        have hsk : skip (c :: (g ++ (lay L ++ tail))) = some (lay L ++ tail) := by rw [← List.cons_append]; exact skip_ws hg hrest
        rw [hsk]
        simp only
        rw [ih L tail _ hf2 hL' ht, hlast]
        have hnp : (if L = [] then (decide (c = '\n') && decide ((g ++ (lay L ++ tail)).head? = some '\n')) else decide (EndsPar ((f, c :: g) :: L))) =
            decide (EndsPar ((f, c :: g) :: L)) := by
          cases L with
          | nil =>
            rw [if_pos rfl]
            have hh : (g ++ (lay [] ++ tail)).head? = some '\n' ↔ g.head? = some '\n' := by
              cases g with
              | nil =>
                obtain ⟨d, r, rfl, hd⟩ := ht
                simp only [lay, List.flatMap_nil, List.nil_append, List.head?_cons, List.head?_nil, Option.some.injEq]
                refine ⟨fun h => ?_, fun h => by cases h⟩
                subst h; exact absurd hd (by decide)
              | cons d g => rfl
            have : EndsPar [(f, c :: g)] ↔ c = '\n' ∧ g.head? = some '\n' := by
              simp only [EndsPar, List.getLast?_singleton, Option.some.injEq, exists_eq_left']
              cases g with
              | nil => simp [List.cons_prefix_cons]
              | cons d g =>
                simp only [List.cons_prefix_cons, List.head?_cons, Option.some.injEq]
                constructor
                · rintro ⟨h1, h2, _⟩; exact ⟨h1.symm, h2.symm⟩
                · rintro ⟨h1, h2⟩; exact ⟨h1.symm, h2.symm, List.nil_prefix⟩
            rw [decide_eq_decide.2 hh, decide_eq_decide.2 this, Bool.decide_and]
          | cons q L => rfl
        rw [hnp]
        simp [marked, ← hf1]

theorem addToks_end : ∀ (toks : List Tk) (L : List (Str × Str)) (np : Bool), toks.map (·.form) = L.map (·.1) → Good L → L ≠ [] →
    (addToks toks (lay L) np).2 = .index := by
  intro toks
  induction toks with
  | nil =>
    intro L np hf _ hne
    cases L with
    | nil => exact absurd rfl hne
    | cons p L => cases hf
  | cons t toks ih =>
    intro L np hf hL _
    cases L with
    | nil => cases hf
    | cons p L =>
      obtain ⟨f, g⟩ := p
      rw [List.map_cons, List.map_cons, List.cons.injEq] at hf
      obtain ⟨hf1, hf2⟩ := hf
      simp only at hf1
      have hL' : Good L := fun q hq => hL q (List.mem_cons_of_mem _ hq)
      obtain ⟨_, hg⟩ := hL _ List.mem_cons_self
      have e : lay ((f, g) :: L) = f ++ (g ++ lay L) := by rw [lay, List.flatMap_cons]; simp [lay]
      rw [addToks, hf1, e, if_pos (prefix_append _ _), List.drop_left]
      by_cases hne : L = []
      · subst hne
        simp only [lay, List.flatMap_nil, List.append_nil]
        cases g with
        | nil => rfl
        | cons c g =>
          simp only
          rw [if_pos (hg c List.mem_cons_self), skip_end hg]
      · have hst : Starts (lay L) := by
          cases L with
          | nil => exact absurd rfl hne
          | cons q L =>
            rw [lay, List.flatMap_cons, List.append_assoc]
            exact (hL' q List.mem_cons_self).1.append
        cases g with
        | nil =>
          have := ih L false hf2 hL' hne
          obtain ⟨c, r, hr, hc⟩ := hst
          rw [List.nil_append, hr]
          simp only
          rw [if_neg (by simp [hc]), ← hr]
          exact this
        | cons c g =>
          rw [List.cons_append]
          simp only
          rw [if_pos (hg c List.mem_cons_self)]
          have hsk : skip (c :: (g ++ lay L)) = some (lay L) := by rw [← List.cons_append]; exact skip_ws hg hst
          rw [hsk]
          exact ih L _ hf2 hL' hne

/-- Whatever happens, a loop that reaches the end of the tree has found the tokens in the text. -/
theorem addToks_sound : ∀ (toks toks' : List Tk) (text rest : Str) (np np' : Bool), addToks toks text np = (toks', .go rest np') →
    ∃ L, text = lay L ++ rest ∧ toks.map (·.form) = L.map (·.1) ∧ (∀ p ∈ L, Ws p.2) ∧ toks' = marked L := by
  intro toks
  induction toks with
  | nil =>
    intro toks' text rest np np' h
    simp only [addToks, Prod.mk.injEq, Out.go.injEq] at h
    obtain ⟨rfl, rfl, _⟩ := h
    exact ⟨[], rfl, rfl, (fun p hp => by cases hp), rfl⟩
  | cons t toks ih =>
    intro toks' text rest np np' h
    rw [addToks] at h
    by_cases hp : t.form.isPrefixOf text = true
    · rw [if_pos hp] at h
      obtain ⟨s, rfl⟩ := List.isPrefixOf_iff_prefix.1 hp
      rw [List.drop_left] at h
      cases s with
      | nil => simp at h
      | cons c s =>
        simp only at h
        by_cases hc : isWs c = true
        · rw [if_pos hc] at h
          cases hsk : skip (c :: s) with
          | none => rw [hsk] at h; simp at h
          | some s' =>
            rw [hsk] at h
            simp only [Prod.mk.injEq] at h
            obtain ⟨h1, h2⟩ := h
            obtain ⟨L, e1, e2, e3, e4⟩ := ih _ s' rest _ np' (Prod.ext rfl h2)
            obtain ⟨g, eg, hg, hs'⟩ := skip_some hsk
            have hgne : g ≠ [] := by
              rintro rfl
              obtain ⟨d, r, e, hd⟩ := hs'
              rw [e] at eg
              cases eg
              rw [hc] at hd; cases hd
            refine ⟨(t.form, g) :: L, ?_, ?_, ?_, ?_⟩
            · rw [eg, e1]; simp [lay]
            · rw [List.map_cons, List.map_cons, e2]
            · intro p hp
              rcases List.mem_cons.1 hp with rfl | hp
              · exact hg
              · exact e3 p hp
            · exact h1.symm.trans ((congrArg (List.cons _) e4).trans (by simp [marked, hgne]))
        · rw [if_neg hc] at h
          simp only [Prod.mk.injEq] at h
          obtain ⟨h1, h2⟩ := h
          obtain ⟨L, e1, e2, e3, e4⟩ := ih _ (c :: s) rest _ np' (Prod.ext rfl h2)
          refine ⟨(t.form, []) :: L, ?_, ?_, ?_, ?_⟩
          · rw [e1]; simp [lay]
          · rw [List.map_cons, List.map_cons, e2]
          · intro p hp
            rcases List.mem_cons.1 hp with rfl | hp
            · intro d hd; cases hd
            · exact e3 p hp
          · exact h1.symm.trans ((congrArg (List.cons _) e4).trans (by simp [marked]))
    · rw [if_neg hp] at h
      simp at h

/-! ## Theorems -/

/-- The text of a sentence: white space of any length becomes one space. -/
def sentText (L : List (Str × Str)) : Str := rstrip (L.flatMap (fun p => p.1 ++ if p.2 = [] then [] else [' ']))

theorem detok_marked (L : List (Str × Str)) : rstrip (detok ((marked L).map (fun k => (k.form, k.no)))) = sentText L := by
  unfold sentText detok marked
  rw [List.map_map, List.flatMap_map]
  congr 2
  funext p
  by_cases h : p.2 = []
  · simp [h]
  · simp [h]

theorem lay_cons_flat (L : List (Str × Str)) (Ls : List (List (Str × Str))) : lay (L :: Ls).flatten = lay L ++ lay Ls.flatten := by
  simp [lay]

theorem trees_ok (an : Bool) : ∀ (ts : List Tr) (Ls : List (List (Str × Str))) (tail : Str) (np : Bool),
    ts.map (fun t => t.toks.map (·.form)) = Ls.map (fun L => L.map (·.1)) → (∀ L ∈ Ls, Good L ∧ L ≠ []) → Starts tail →
    ∃ ts' np', addTrees an ts (lay Ls.flatten ++ tail) np = (ts', .go tail np') ∧ ts'.length = ts.length ∧
      ∀ (k : Nat) (t t' : Tr) (L : List (Str × Str)), ts[k]? = some t → Ls[k]? = some L → ts'[k]? = some t' →
        t'.toks = marked L ∧ t'.text = some (sentText L) ∧
        (t'.newpar = true ↔ t.newpar = true ∨ an = true ∧ (k = 0 ∧ np = true ∨ ∃ j L0, k = j + 1 ∧ Ls[j]? = some L0 ∧ EndsPar L0)) := by
  intro ts
  induction ts with
  | nil =>
    intro Ls tail np hf _ _
    cases Ls with
    | nil => exact ⟨[], np, rfl, rfl, fun k t t' L h => by simp at h⟩
    | cons L Ls => cases hf
  | cons t ts ih =>
    intro Ls tail np hf hL ht
    cases Ls with
    | nil => cases hf
    | cons L Ls =>
      rw [List.map_cons, List.map_cons, List.cons.injEq] at hf
      obtain ⟨hf1, hf2⟩ := hf
      have hL' : ∀ M ∈ Ls, Good M ∧ M ≠ [] := fun M hM => hL M (List.mem_cons_of_mem _ hM)
      obtain ⟨hg, hne⟩ := hL L List.mem_cons_self
      have hgood : Good Ls.flatten := by
        intro p hp
        obtain ⟨M, hM, hp⟩ := List.mem_flatten.1 hp
        exact (hL' M hM).1 p hp
      obtain ⟨ts', np', e, hlen, hk⟩ := ih Ls tail (decide (EndsPar L)) hf2 hL' ht
      rw [addTrees, lay_cons_flat, List.append_assoc, addToks_ok t.toks L _ _ hf1 hg (lay_starts hgood ht), if_neg hne]
      simp only
      rw [e]
      refine ⟨_, np', rfl, by simp [hlen], ?_⟩
      intro k t0 t1 M h1 h2 h3
      cases k with
      | zero =>
        simp only [List.getElem?_cons_zero, Option.some.injEq] at h1 h2 h3
        subst h1 h2 h3
        refine ⟨rfl, by simp only; rw [detok_marked], ?_⟩
        cases an <;> cases np <;> simp
      | succ k =>
        simp only [List.getElem?_cons_succ] at h1 h2 h3
        obtain ⟨g1, g2, g3⟩ := hk k t0 t1 M h1 h2 h3
        refine ⟨g1, g2, g3.trans ?_⟩
        refine or_congr Iff.rfl (and_congr Iff.rfl ?_)
        cases k with
        | zero =>
          constructor
          · rintro (⟨_, h⟩ | ⟨j, L0, h, _⟩)
            · exact Or.inr ⟨0, L, rfl, rfl, by simpa using h⟩
            · omega
          · rintro (⟨h, _⟩ | ⟨j, L0, h, h4, h5⟩)
            · omega
            · have : j = 0 := by omega
              subst this
              simp only [List.getElem?_cons_zero, Option.some.injEq] at h4
              subst h4
              exact Or.inl ⟨rfl, by simpa using h5⟩
        | succ k =>
          constructor
          · rintro (⟨h, _⟩ | ⟨j, L0, h, h4, h5⟩)
            · omega
            · exact Or.inr ⟨j + 1, L0, by omega, by simpa using h4, h5⟩
          · rintro (⟨h, _⟩ | ⟨j, L0, h, h4, h5⟩)
            · omega
            · have : j = k + 1 := by omega
              subst this
              exact Or.inr ⟨k, L0, rfl, by simpa using h4, h5⟩

/-- **C156, partial.** The text consists of the tokens of all sentences with white space between them, followed by something else. Then
every token that is not followed by white space gets `SpaceAfter=No`, and the others do not have it; the text of each sentence is set;
the first sentence and those after an empty line start a paragraph. Missing: texts that end with the last token. -/
theorem C156_result_partial (an : Bool) (ts : List Tr) (Ls : List (List (Str × Str))) {lead tail : Str} (hlead : Ws lead)
    (hf : ts.map (fun t => t.toks.map (·.form)) = Ls.map (fun L => L.map (·.1))) (hL : ∀ L ∈ Ls, Good L ∧ L ≠ []) (ht : Starts tail) :
    ∃ ts' np, addText an ts (lead ++ lay Ls.flatten ++ tail) = (ts', .go tail np) ∧ ts'.length = ts.length ∧
      ∀ (k : Nat) (t t' : Tr) (L : List (Str × Str)), ts[k]? = some t → Ls[k]? = some L → ts'[k]? = some t' →
        t'.toks = L.map (fun p => ⟨p.1, decide (p.2 = [])⟩) ∧ t'.text = some (sentText L) ∧
        (t'.newpar = true ↔ t.newpar = true ∨ an = true ∧ (k = 0 ∨ ∃ j L0, k = j + 1 ∧ Ls[j]? = some L0 ∧ EndsPar L0)) := by
  have hgood : Good Ls.flatten := by
    intro p hp
    obtain ⟨M, hM, hp⟩ := List.mem_flatten.1 hp
    exact (hL M hM).1 p hp
  obtain ⟨ts', np, e, hlen, hk⟩ := trees_ok an ts Ls tail true hf hL ht
  refine ⟨ts', np, ?_, hlen, ?_⟩
  · rw [addText, List.append_assoc, skip_ws hlead (lay_starts hgood ht)]
    exact e
  · intro k t t' L h1 h2 h3
    obtain ⟨g1, g2, g3⟩ := hk k t t' L h1 h2 h3
    refine ⟨g1, g2, g3.trans ?_⟩
    simp

/-- **C156 violated.** If the text consists of the tokens of the document and white space, so that nothing follows the last token but white
space, the block raises an `IndexError`. -/
theorem C156_end_violated (an : Bool) (ts : List Tr) (Ls : List (List (Str × Str))) {lead : Str} (hlead : Ws lead)
    (hf : ts.map (fun t => t.toks.map (·.form)) = Ls.map (fun L => L.map (·.1))) (hL : ∀ L ∈ Ls, Good L) :
    (addText an ts (lead ++ lay Ls.flatten)).2 = .index := by
  have key : ∀ (ts : List Tr) (Ls : List (List (Str × Str))) (np : Bool), ts.map (fun t => t.toks.map (·.form)) = Ls.map (fun L => L.map (·.1)) →
      (∀ L ∈ Ls, Good L) → Ls.flatten ≠ [] → (addTrees an ts (lay Ls.flatten) np).2 = .index := by
    intro ts
    induction ts with
    | nil =>
      intro Ls np hf _ hne
      cases Ls with
      | nil => exact absurd rfl hne
      | cons L Ls => cases hf
    | cons t ts ih =>
      intro Ls np hf hL hne
      cases Ls with
      | nil => cases hf
      | cons L Ls =>
        rw [List.map_cons, List.map_cons, List.cons.injEq] at hf
        obtain ⟨hf1, hf2⟩ := hf
        have hL' : ∀ M ∈ Ls, Good M := fun M hM => hL M (List.mem_cons_of_mem _ hM)
        have hg := hL L List.mem_cons_self
        rw [addTrees, lay_cons_flat]
        by_cases hrest : Ls.flatten = []
        · have hLne : L ≠ [] := by
            intro e
            rw [List.flatten_cons, e, hrest] at hne
            exact hne rfl
          rw [hrest]
          have := addToks_end t.toks L (if (an && np) = true then false else np) hf1 hg hLne
          simp only [lay, List.flatMap_nil, List.append_nil] at this ⊢
          generalize addToks t.toks _ _ = res at this ⊢
          obtain ⟨a, b⟩ := res
          simp only at this
          subst this
          rfl
        · have hgood : Good Ls.flatten := by
            intro p hp
            obtain ⟨M, hM, hp⟩ := List.mem_flatten.1 hp
            exact hL' M hM p hp
          have hst : Starts (lay Ls.flatten) := by
            cases hfl : Ls.flatten with
            | nil => exact absurd hfl hrest
            | cons q M =>
              rw [lay, List.flatMap_cons, List.append_assoc]
              exact (hgood q (by rw [hfl]; exact List.mem_cons_self)).1.append
          rw [addToks_ok t.toks L _ _ hf1 hg hst]
          exact ih Ls _ hf2 hL' hrest
  have hgood : Good Ls.flatten := by
    intro p hp
    obtain ⟨M, hM, hp⟩ := List.mem_flatten.1 hp
    exact hL M hM p hp
  unfold addText
  by_cases hne : Ls.flatten = []
  · rw [hne]
    simp only [lay, List.flatMap_nil, List.append_nil]
    rw [skip_end hlead]
  · have hst : Starts (lay Ls.flatten) := by
      cases hfl : Ls.flatten with
      | nil => exact absurd hfl hne
      | cons q M =>
        rw [lay, List.flatMap_cons, List.append_assoc]
        exact (hgood q (by rw [hfl]; exact List.mem_cons_self)).1.append
    rw [skip_ws hlead hst]
    exact key ts Ls true hf hL hne

/-- **C156, conversely.** If the block processes all sentences without warning and exception, the tokens stand in the text in this order with
nothing but white space between them, and `SpaceAfter=No` is exactly at those without white space. -/
theorem C156_sound (an : Bool) {ts ts' : List Tr} {text rest : Str} {np : Bool} (h : addText an ts text = (ts', .go rest np)) :
    ∃ (lead : Str) (Ls : List (List (Str × Str))), text = lead ++ lay Ls.flatten ++ rest ∧ Ws lead ∧ ts.map (fun t => t.toks.map (·.form)) = Ls.map (fun L => L.map (·.1)) ∧
      (∀ L ∈ Ls, ∀ p ∈ L, Ws p.2) ∧ ts'.map (·.toks) = Ls.map (fun L => L.map (fun p => ⟨p.1, decide (p.2 = [])⟩)) := by
  have key : ∀ (ts ts' : List Tr) (text rest : Str) (np np' : Bool), addTrees an ts text np = (ts', .go rest np') →
      ∃ (Ls : List (List (Str × Str))), text = lay Ls.flatten ++ rest ∧ ts.map (fun t => t.toks.map (·.form)) = Ls.map (fun L => L.map (·.1)) ∧
      (∀ L ∈ Ls, ∀ p ∈ L, Ws p.2) ∧ ts'.map (·.toks) = Ls.map marked := by
    intro ts
    induction ts with
    | nil =>
      intro ts' text rest np np' h
      simp only [addTrees, Prod.mk.injEq, Out.go.injEq] at h
      obtain ⟨rfl, rfl, _⟩ := h
      exact ⟨[], rfl, rfl, (fun L hL => by cases hL), rfl⟩
    | cons t ts ih =>
      intro ts' text rest np np' h
      rw [addTrees] at h
      generalize hres : addToks t.toks text _ = res at h
      obtain ⟨toks, o⟩ := res
      cases o with
      | mismatch => simp at h
      | index => simp at h
      | go rest' np1 =>
        simp only [Prod.mk.injEq] at h
        obtain ⟨h1, h2⟩ := h
        obtain ⟨L, e1, e2, e3, e4⟩ := addToks_sound _ _ _ _ _ _ hres
        obtain ⟨Ls, g1, g2, g3, g4⟩ := ih _ rest' rest np1 np' (Prod.ext rfl h2)
        refine ⟨L :: Ls, by rw [lay_cons_flat, e1, g1, List.append_assoc], by rw [List.map_cons, List.map_cons, e2, g2], ?_, ?_⟩
        · intro M hM
          rcases List.mem_cons.1 hM with rfl | hM
          · exact e3
          · exact g3 M hM
        · rw [← h1, List.map_cons, List.map_cons, g4, e4]
  unfold addText at h
  cases hsk : skip text with
  | none => rw [hsk] at h; simp at h
  | some s =>
    rw [hsk] at h
    simp only at h
    obtain ⟨lead, e, hlead, _⟩ := skip_some hsk
    obtain ⟨Ls, g1, g2, g3, g4⟩ := key ts ts' s rest true np h
    exact ⟨lead, Ls, by rw [e, g1, List.append_assoc], hlead, g2, g3, g4⟩

/-! ## Examples -/

def exTs : List Tr := [⟨[⟨['H', 'i'], false⟩, ⟨['!'], false⟩], false, none⟩, ⟨[⟨['Y', 'o'], true⟩, ⟨['u'], false⟩], false, none⟩]

example : addText true exTs ['\n', 'H', 'i', '!', '\n', '\n', 'Y', 'o', '\n', 'u', ' ', 'x'] =
    ([⟨[⟨['H', 'i'], true⟩, ⟨['!'], false⟩], true, some ['H', 'i', '!']⟩, ⟨[⟨['Y', 'o'], false⟩, ⟨['u'], false⟩], true, some ['Y', 'o', ' ', 'u']⟩],
      .go ['x'] false) := by decide +kernel
example : (addText true exTs ['\n', 'H', 'i', '!', '\n', '\n', 'Y', 'o', '\n', 'u', '\n']).2 = .index := by decide +kernel
example : (addText true exTs ['H', 'i', '?']).2 = .mismatch := by decide +kernel

end Verif.Text.AddText
