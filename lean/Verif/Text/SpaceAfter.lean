import Verif.Text.Compute

/-!
# Property C49: ud.SetSpaceAfterFromText (udapi/block/ud/setspaceafterfromtext.py)

Simplified: the first loop (lines 19-20, `SpaceAfter` of empty nodes) is left out; `compute_text` does not look at empty nodes.
-/

namespace Verif.Text
open Verif.Py
open Verif.Run (wsSplit wsSplitAux)

/-- `del token.misc['SpaceAfter']` and `token.misc['SpaceAfter'] = 'No'` -/
def Tree.setNo (t : Tree) (x : Tok) (b : Bool) : Tree :=
  match x with
  | .word i => { t with words := t.words.modify i (fun w => { w with no := b }) }
  | .mwt j => { t with mwts := t.mwts.modify j (fun m => { m with no := b }) }

/-- `text[0].isspace()` -/
def startsWs (s : Str) : Bool := match s with | [] => false | c :: _ => isWs c

/-- The loop over the tokens and the last check (setspaceafterfromtext.py:28-41); `false`: a warning was logged. -/
def fixLoop (t : Tree) (text : Str) : List Tok → Tree × Bool
  | [] => (t, text == [])
  | x :: xs =>
    let f := (t.get x).1
    if f.isPrefixOf text then
      let r := text.drop f.length
      if r = [] ∨ startsWs r = true then fixLoop (t.setNo x false) (lstrip r) xs
      else fixLoop (t.setNo x true) r xs
    else (t, false)

/-- `process_tree(root)` with `root.text = text` (setspaceafterfromtext.py:17-41) -/
def fromText (t : Tree) (text : Str) : Tree × Bool :=
  if text = computeText true t then (t, true) else fixLoop t text (tokens t)

/-- White space is single spaces between other characters (a space at the beginning is allowed). -/
def Single (s : Str) : Prop := ∀ a c b, s = a ++ c :: b → isWs c = true → c = ' ' ∧ ∃ d b', b = d :: b' ∧ isWs d = false

/-! ## Proofs -/

theorem rstrip_append (a b : Str) : rstrip (a ++ b) = if rstrip b = [] then rstrip a else a ++ rstrip b := by
  unfold rstrip
  rw [List.reverse_append, List.dropWhile_append]
  by_cases h : (b.reverse.dropWhile isWs) = []
  · rw [h]; simp
  · rw [if_neg (by simpa using h), if_neg (by simpa using h)]
    simp

theorem rstrip_nil : rstrip [] = [] := rfl

theorem rstrip_ws {w : Str} (h : ∀ c ∈ w, isWs c = true) : rstrip w = [] := by
  unfold rstrip
  have : List.dropWhile isWs (w.reverse ++ []) = List.dropWhile isWs [] :=
    List.dropWhile_append_of_pos (fun c hc => h c (List.mem_reverse.1 hc))
  rw [List.append_nil] at this
  rw [this]; rfl

theorem rstrip_split (s : Str) : ∃ w, s = rstrip s ++ w ∧ ∀ c ∈ w, isWs c = true := by
  refine ⟨(s.reverse.takeWhile isWs).reverse, ?_, ?_⟩
  · unfold rstrip
    rw [← List.reverse_append, List.takeWhile_append_dropWhile, List.reverse_reverse]
  · intro c hc
    have := List.mem_reverse.1 hc
    generalize s.reverse = l at this
    induction l with
    | nil => cases this
    | cons a l ih =>
      by_cases ha : isWs a = true
      · rw [List.takeWhile_cons_of_pos ha] at this
        rcases List.mem_cons.1 this with rfl | h
        · exact ha
        · exact ih h
      · rw [List.takeWhile_cons_of_neg ha] at this; cases this

theorem isWs_space : isWs ' ' = true := by decide

/-! ### Texts with the same words -/

/-- The same words, whatever comes before. -/
def SameWords (a b : Str) : Prop := ∀ acc, wsSplitAux acc a = wsSplitAux acc b

theorem SameWords.append (f : Str) {a b : Str} (h : SameWords a b) : SameWords (f ++ a) (f ++ b) := by
  induction f with
  | nil => exact h
  | cons c f ih =>
    intro acc
    show wsSplitAux acc (c :: (f ++ a)) = wsSplitAux acc (c :: (f ++ b))
    unfold wsSplitAux
    rw [ih [], ih (c :: acc)]

theorem wsSplitAux_ws (acc : Str) : ∀ (w s : Str), w ≠ [] → (∀ c ∈ w, isWs c = true) →
    wsSplitAux acc (w ++ s) = (if acc = [] then [] else [acc.reverse]) ++ wsSplitAux [] s := by
  intro w
  induction w generalizing acc with
  | nil => intro s h; exact absurd rfl h
  | cons c w ih =>
    intro s _ h
    show wsSplitAux acc (c :: (w ++ s)) = _
    conv => lhs; unfold wsSplitAux
    rw [if_pos (h c (List.mem_cons_self ..))]
    have h0 : wsSplitAux [] (w ++ s) = wsSplitAux [] s := by
      by_cases hw : w = []
      · rw [hw]; rfl
      · rw [ih [] s hw (fun d hd => h d (List.mem_cons_of_mem _ hd)), if_pos rfl, List.nil_append]
    by_cases ha : acc = []
    · rw [if_pos ha, if_pos ha, h0, List.nil_append]
    · rw [if_neg ha, if_neg ha, h0]; rfl

/-- The amount of white space does not matter. -/
theorem SameWords.ws {v w : Str} (hv : v ≠ []) (hw : w ≠ []) (h1 : ∀ c ∈ v, isWs c = true) (h2 : ∀ c ∈ w, isWs c = true)
    {a b : Str} (h : SameWords a b) : SameWords (v ++ a) (w ++ b) := by
  intro acc
  rw [wsSplitAux_ws acc v a hv h1, wsSplitAux_ws acc w b hw h2, h []]

theorem SameWords.end' {w : Str} (h : ∀ c ∈ w, isWs c = true) : SameWords w [] := by
  intro acc
  by_cases hw : w = []
  · rw [hw]
  · have := wsSplitAux_ws acc w [] hw h
    rw [List.append_nil] at this
    rw [this]
    simp [wsSplitAux]

theorem sameWords_rstrip (s : Str) : SameWords (rstrip s) s := by
  obtain ⟨w, h1, h2⟩ := rstrip_split s
  intro acc
  conv => rhs; rw [h1]
  have := SameWords.append (rstrip s) (SameWords.end' h2) acc
  rw [List.append_nil] at this
  exact this.symm

/-! ### Changing a token -/

def Tree.Has (t : Tree) : Tok → Prop
  | .word i => i < t.words.length
  | .mwt j => j < t.mwts.length

theorem has_setNo {t : Tree} {x y : Tok} {b : Bool} (h : t.Has y) : (t.setNo x b).Has y := by
  cases x <;> cases y <;> simpa [Tree.Has, Tree.setNo] using h

theorem get_setNo_same {t : Tree} {x : Tok} (h : t.Has x) (b : Bool) : (t.setNo x b).get x = ((t.get x).1, b) := by
  cases x with
  | word i =>
    have h : i < t.words.length := h
    simp [Tree.get, Tree.setNo, List.getElem?_eq_getElem h]
  | mwt j =>
    have h : j < t.mwts.length := h
    simp [Tree.get, Tree.setNo, List.getElem?_eq_getElem h]

theorem get_setNo_other {t : Tree} {x y : Tok} (h : y ≠ x) (b : Bool) : (t.setNo x b).get y = t.get y := by
  cases x with
  | word i =>
    cases y with
    | word k =>
      have : i ≠ k := fun e => h (by rw [e])
      simp [Tree.get, Tree.setNo, this]
    | mwt k => rfl
  | mwt i =>
    cases y with
    | word k => rfl
    | mwt k =>
      have : i ≠ k := fun e => h (by rw [e])
      simp [Tree.get, Tree.setNo, this]

theorem get_setNo_form {t : Tree} {x : Tok} (h : t.Has x) (b : Bool) (y : Tok) : ((t.setNo x b).get y).1 = (t.get y).1 := by
  by_cases e : y = x
  · rw [e, get_setNo_same h]
  · rw [get_setNo_other e]

theorem tokenLoop_congr {m m' : List Mwt} (hm : m.map Mwt.last = m'.map Mwt.last) : ∀ (ws ws' : List Word) (last i : Nat),
    ws.map Word.mwt = ws'.map Word.mwt → tokenLoop m last i ws = tokenLoop m' last i ws'
  | [], [], _, _, _ => rfl
  | [], _ :: _, _, _, h => by cases h
  | _ :: _, [], _, _, h => by cases h
  | w :: ws, w' :: ws', last, i, h => by
    simp only [List.map_cons, List.cons.injEq] at h
    have key : ∀ l, tokenLoop m l (i + 1) ws = tokenLoop m' l (i + 1) ws' := fun l => tokenLoop_congr hm ws ws' l (i + 1) h.2
    unfold tokenLoop
    rw [h.1]
    cases w'.mwt with
    | none => simp only [Option.bind_none]; rw [key]
    | some j =>
      have hj : (m[j]?).map Mwt.last = (m'[j]?).map Mwt.last := by
        rw [← List.getElem?_map, ← List.getElem?_map, hm]
      simp only [Option.bind_some]
      cases h1 : m[j]? with
      | none =>
        cases h2 : m'[j]? with
        | none => simp only [Option.map_none]; rw [key]
        | some b => rw [h1, h2] at hj; cases hj
      | some a =>
        cases h2 : m'[j]? with
        | none => rw [h1, h2] at hj; cases hj
        | some b =>
          rw [h1, h2] at hj
          simp only [Option.map_some, Option.some.injEq] at hj
          simp only [Option.map_some]
          rw [hj, key, key]

theorem map_modify_same {α β : Type} (g : α → β) (f : α → α) (h : ∀ a, g (f a) = g a) (l : List α) (i : Nat) :
    (l.modify i f).map g = l.map g := by
  apply List.ext_getElem?
  intro k
  rw [List.getElem?_map, List.getElem?_map, List.getElem?_modify]
  by_cases hk : i = k
  · simp only [hk, if_true]
    cases l[k]? with
    | none => rfl
    | some a => simp [h]
  · simp only [hk, if_false]
    cases l[k]? <;> rfl

theorem tokens_setNo (t : Tree) (x : Tok) (b : Bool) : tokens (t.setNo x b) = tokens t := by
  cases x with
  | word i =>
    exact tokenLoop_congr rfl _ _ 0 0 (map_modify_same Word.mwt (fun w => { w with no := b }) (fun _ => rfl) t.words i)
  | mwt j =>
    exact tokenLoop_congr (map_modify_same Mwt.last (fun m => { m with no := b }) (fun _ => rfl) t.mwts j) t.words t.words 0 0 rfl

theorem has_tokens {t : Tree} (h : t.Ok) {x : Tok} (hx : x ∈ tokens t) : t.Has x := by
  obtain ⟨i, w, h1, rfl⟩ := ((C84_tokens h).2 x).1 hx
  unfold tokOf
  split
  · rename_i j hj
    obtain ⟨m, h2, _⟩ := h i w j h1 hj
    exact (List.getElem?_eq_some_iff.1 h2).1
  · exact (List.getElem?_eq_some_iff.1 h1).1

/-! ### The loop -/

theorem prefix_split {f s : Str} (h : f.isPrefixOf s = true) : s = f ++ s.drop f.length := by
  rw [List.isPrefixOf_iff_prefix] at h
  obtain ⟨r, rfl⟩ := h
  simp

theorem Single.suffix {a b : Str} (h : Single (a ++ b)) : Single b := by
  intro x c y e hc
  exact h (a ++ x) c y (by rw [e, List.append_assoc]) hc

theorem lstrip_split (s : Str) : s = s.takeWhile isWs ++ lstrip s := (List.takeWhile_append_dropWhile).symm

theorem mem_takeWhile_ws {s : Str} {c : Char} (h : c ∈ s.takeWhile isWs) : isWs c = true := by
  induction s with
  | nil => cases h
  | cons a s ih =>
    by_cases ha : isWs a = true
    · rw [List.takeWhile_cons_of_pos ha] at h
      rcases List.mem_cons.1 h with rfl | h
      · exact ha
      · exact ih h
    · rw [List.takeWhile_cons_of_neg ha] at h; cases h

theorem fixLoop_spec : ∀ (xs : List Tok) (t t' : Tree) (text : Str), xs.Nodup → (∀ x ∈ xs, t.Has x) →
    fixLoop t text xs = (t', true) →
    (∀ y, y ∉ xs → t'.get y = t.get y) ∧ (∀ y, (t'.get y).1 = (t.get y).1) ∧ tokens t' = tokens t ∧
    SameWords (detok (xs.map t'.get)) text ∧
    (Single text → ∃ w, detok (xs.map t'.get) = text ++ w ∧ ∀ c ∈ w, isWs c = true)
  | [], t, t', text, _, _, h => by
    unfold fixLoop at h
    injection h with h1 h2
    subst h1
    have h2 : text = [] := by simpa using h2
    subst h2
    exact ⟨fun _ _ => rfl, fun _ => rfl, rfl, fun _ => rfl, fun _ => ⟨[], rfl, by simp⟩⟩
  | x :: xs, t, t', text, hn, hh, h => by
    rw [List.nodup_cons] at hn
    have hx := hh x (List.mem_cons_self ..)
    unfold fixLoop at h
    simp only at h
    by_cases hp : ((t.get x).1.isPrefixOf text) = true
    · rw [if_pos hp] at h
      have hs := prefix_split hp
      generalize text.drop (t.get x).1.length = r at hs h
      by_cases hr : r = [] ∨ startsWs r = true
      · rw [if_pos hr] at h
        obtain ⟨a1, a2, a3, a4, a5⟩ := fixLoop_spec xs _ t' (lstrip r) hn.2 (fun y hy => has_setNo (hh y (List.mem_cons_of_mem _ hy))) h
        have hg : t'.get x = ((t.get x).1, false) := by rw [a1 x hn.1, get_setNo_same hx]
        refine ⟨?_, ?_, ?_, ?_, ?_⟩
        · intro y hy
          rw [a1 y (fun hy' => hy (List.mem_cons_of_mem _ hy')), get_setNo_other (fun e => hy (by rw [e]; exact List.mem_cons_self ..))]
        · intro y; rw [a2, get_setNo_form hx]
        · rw [a3, tokens_setNo]
        · rw [List.map_cons, hg]
          show SameWords (piece (t.get x).1 false ++ detok (xs.map t'.get)) text
          rw [hs]
          unfold piece
          rw [if_neg (by decide), List.append_assoc]
          apply SameWords.append
          rcases hr with rfl | hr
          · intro acc
            show wsSplitAux acc ([' '] ++ _) = _
            rw [wsSplitAux_ws acc [' '] _ (by simp) (by simpa using isWs_space), a4 []]
            simp [lstrip, wsSplitAux]
          · conv => rhs; rw [lstrip_split r]
            refine SameWords.ws (by simp) ?_ (by simpa using isWs_space) (fun c hc => mem_takeWhile_ws hc) a4
            cases r with
            | nil => cases hr
            | cons c r =>
              have hr : isWs c = true := hr
              rw [List.takeWhile_cons_of_pos hr]; simp
        · intro hsing
          rw [hs] at hsing
          have hsr := hsing.suffix
          rw [List.map_cons, hg]
          show ∃ w, piece (t.get x).1 false ++ detok (xs.map t'.get) = text ++ w ∧ _
          unfold piece
          rw [if_neg (by decide), hs]
          cases r with
          | nil =>
            obtain ⟨w, h1, h2⟩ := a5 (by intro a c b e; simp [lstrip] at e)
            have h1 : detok (xs.map t'.get) = w := by rw [h1]; rfl
            rw [h1]
            refine ⟨' ' :: w, by simp, ?_⟩
            intro c hc
            rcases List.mem_cons.1 hc with rfl | hc
            · exact isWs_space
            · exact h2 c hc
          | cons c r =>
            have hc : isWs c = true := by rcases hr with h | h; · cases h
                                          · exact h
            obtain ⟨rfl, d, b', rfl, hd⟩ := hsr [] c r rfl hc
            have hl : lstrip (' ' :: d :: b') = d :: b' := by
              unfold lstrip
              rw [List.dropWhile_cons_of_pos isWs_space, List.dropWhile_cons_of_neg (by simp [hd])]
            rw [hl] at a5
            obtain ⟨w, h1, h2⟩ := a5 (Single.suffix (a := [' ']) hsr)
            rw [h1]
            exact ⟨w, by simp, h2⟩
      · rw [if_neg hr] at h
        obtain ⟨a1, a2, a3, a4, a5⟩ := fixLoop_spec xs _ t' r hn.2 (fun y hy => has_setNo (hh y (List.mem_cons_of_mem _ hy))) h
        have hg : t'.get x = ((t.get x).1, true) := by rw [a1 x hn.1, get_setNo_same hx]
        refine ⟨?_, ?_, ?_, ?_, ?_⟩
        · intro y hy
          rw [a1 y (fun hy' => hy (List.mem_cons_of_mem _ hy')), get_setNo_other (fun e => hy (by rw [e]; exact List.mem_cons_self ..))]
        · intro y; rw [a2, get_setNo_form hx]
        · rw [a3, tokens_setNo]
        · rw [List.map_cons, hg, hs]
          exact SameWords.append _ a4
        · intro hsing
          rw [hs] at hsing
          obtain ⟨w, h1, h2⟩ := a5 hsing.suffix
          rw [List.map_cons, hg, hs]
          refine ⟨w, ?_, h2⟩
          show (t.get x).1 ++ detok (xs.map t'.get) = _
          rw [h1, List.append_assoc]
    · rw [if_neg hp] at h
      injection h with _ h
      cases h

theorem rstrip_single {s w : Str} (h : Single s) (hw : ∀ c ∈ w, isWs c = true) : rstrip (s ++ w) = s := by
  rw [rstrip_append, if_pos (rstrip_ws hw)]
  apply rstrip_of_last
  intro c hc
  obtain ⟨a, rfl⟩ := List.getLast?_eq_some_iff.1 hc
  cases hws : isWs c with
  | false => rfl
  | true =>
    obtain ⟨_, d, b', h2, _⟩ := h a c [] rfl hws
    cases h2

/-- C49, the part that holds: if the white space of the text is single spaces between other characters and the block reports no
mismatch, then `compute_text` of the tree gives back the text. The forms are not changed. What is missing: other white space. -/
theorem C49_text_partial {t t' : Tree} {text : Str} (hok : t.Ok) (hs : Single text) (h : fromText t text = (t', true)) :
    computeText true t' = text ∧ tokens t' = tokens t ∧ ∀ y, (t'.get y).1 = (t.get y).1 := by
  unfold fromText at h
  by_cases he : text = computeText true t
  · rw [if_pos he] at h
    injection h with h _
    subst h
    exact ⟨he.symm, rfl, fun _ => rfl⟩
  · rw [if_neg he] at h
    obtain ⟨_, a2, a3, _, a5⟩ := fixLoop_spec (tokens t) t t' text (C84_tokens hok).1 (fun x hx => has_tokens hok hx) h
    obtain ⟨w, h1, h2⟩ := a5 hs
    refine ⟨?_, a3, a2⟩
    rw [C84_text, a3, h1, rstrip_single hs h2]

/-- C49, for every text: if the block reports no mismatch, then `compute_text` gives a text with the same pieces between white space.
What is missing: the white space itself. -/
theorem C49_words_partial {t t' : Tree} {text : Str} (hok : t.Ok) (h : fromText t text = (t', true)) :
    wsSplit (computeText true t') = wsSplit text := by
  unfold fromText at h
  by_cases he : text = computeText true t
  · rw [if_pos he] at h
    injection h with h _
    subst h
    rw [he]
  · rw [if_neg he] at h
    obtain ⟨_, _, a3, a4, _⟩ := fixLoop_spec (tokens t) t t' text (C84_tokens hok).1 (fun x hx => has_tokens hok hx) h
    rw [C84_text, a3]
    unfold wsSplit
    rw [sameWords_rstrip, a4]

/-! ### Where the property fails -/

/-- The forms in their order, each followed by the given white space. -/
def interleave : List Str → List Str → Str
  | f :: fs, g :: gs => f ++ g ++ interleave fs gs
  | fs, _ => fs.flatten

theorem startsWs_form {f s : Str} (h1 : f ≠ []) (h2 : ∀ c ∈ f, isWs c = false) : startsWs (f ++ s) = false ∧ f ++ s ≠ [] := by
  cases f with
  | nil => exact absurd rfl h1
  | cons c f => exact ⟨h2 c (List.mem_cons_self ..), by simp⟩

theorem fixLoop_accepts : ∀ (xs : List Tok) (t : Tree) (gs : List Str), (∀ x ∈ xs, t.Has x) → gs.length = xs.length →
    (∀ x ∈ xs, (t.get x).1 ≠ [] ∧ ∀ c ∈ (t.get x).1, isWs c = false) → (∀ g ∈ gs, ∀ c ∈ g, isWs c = true) →
    (fixLoop t (interleave (xs.map (fun x => (t.get x).1)) gs) xs).2 = true
  | [], t, [], _, _, _, _ => rfl
  | [], _, _ :: _, _, hl, _, _ => by cases hl
  | _ :: _, _, [], _, hl, _, _ => by cases hl
  | x :: xs, t, g :: gs, hh, hl, hf, hg => by
    have hx := hh x (List.mem_cons_self ..)
    have ih : ∀ b, (fixLoop (t.setNo x b) (interleave (xs.map (fun x => (t.get x).1)) gs) xs).2 = true := by
      intro b
      have := fixLoop_accepts xs (t.setNo x b) gs (fun y hy => has_setNo (hh y (List.mem_cons_of_mem _ hy)))
        (by simpa using hl) (fun y hy => by rw [get_setNo_form hx]; exact hf y (List.mem_cons_of_mem _ hy))
        (fun y hy => hg y (List.mem_cons_of_mem _ hy))
      simpa only [get_setNo_form hx] using this
    have hrest : xs = [] ∧ interleave (xs.map (fun x => (t.get x).1)) gs = [] ∨
        startsWs (interleave (xs.map (fun x => (t.get x).1)) gs) = false ∧ interleave (xs.map (fun x => (t.get x).1)) gs ≠ [] := by
      cases xs with
      | nil => left; cases gs with
        | nil => exact ⟨rfl, rfl⟩
        | cons _ _ => simp at hl
      | cons y ys =>
        right
        cases gs with
        | nil => simp at hl
        | cons g' gs =>
          obtain ⟨f1, f2⟩ := hf y (by simp)
          simp only [List.map_cons, interleave, List.append_assoc]
          exact startsWs_form f1 f2
    unfold fixLoop
    simp only [List.map_cons, interleave]
    rw [if_pos (by rw [List.isPrefixOf_iff_prefix, List.append_assoc]; exact List.prefix_append _ _), List.append_assoc, List.drop_left]
    have hgw := hg g (List.mem_cons_self ..)
    cases g with
    | nil =>
      rw [List.nil_append]
      rcases hrest with ⟨rfl, h0⟩ | ⟨h1, h2⟩
      · rw [h0, if_pos (.inl rfl)]
        have := ih false
        rw [h0] at this
        exact this
      · rw [if_neg (by simp [h1, h2])]
        exact ih true
    | cons c g =>
      rw [if_pos (.inr (hgw c (List.mem_cons_self ..)))]
      have : lstrip ((c :: g) ++ interleave (xs.map (fun x => (t.get x).1)) gs) = interleave (xs.map (fun x => (t.get x).1)) gs := by
        unfold lstrip
        rw [List.dropWhile_append_of_pos hgw]
        rcases hrest with ⟨_, h0⟩ | ⟨h1, _⟩
        · rw [h0]; rfl
        · apply dropWhile_of_head
          intro d hd
          generalize interleave (xs.map (fun x => (t.get x).1)) gs = s at h1 hd
          cases s with
          | nil => cases hd
          | cons e s => cases hd; exact h1
      rw [this]
      exact ih false

theorem single_nil : Single [] := by intro a c b e; simp at e

theorem Single.form {f s : Str} (hf : ∀ c ∈ f, isWs c = false) (h : Single s) : Single (f ++ s) := by
  induction f with
  | nil => exact h
  | cons x f ih =>
    intro a c b e hc
    cases a with
    | nil =>
      injection e with e1 e2
      subst e1
      rw [hf x (List.mem_cons_self ..)] at hc; cases hc
    | cons y a =>
      injection e with e1 e2
      exact ih (fun d hd => hf d (List.mem_cons_of_mem _ hd)) a c b e2 hc

theorem Single.space {s : Str} (h : Single s) (hs : s ≠ []) (h0 : startsWs s = false) : Single (' ' :: s) := by
  intro a c b e hc
  cases a with
  | nil =>
    injection e with e1 e2
    subst e1 e2
    cases s with
    | nil => exact absurd rfl hs
    | cons d s => exact ⟨rfl, d, s, rfl, h0⟩
  | cons y a =>
    injection e with e1 e2
    exact h a c b e2 hc

theorem single_detok : ∀ (l : List (Str × Bool)), (∀ p ∈ l, p.1 ≠ [] ∧ ∀ c ∈ p.1, isWs c = false) →
    Single (rstrip (detok l)) ∧ startsWs (rstrip (detok l)) = false
  | [], _ => ⟨single_nil, rfl⟩
  | (f, no) :: l, h => by
    obtain ⟨f1, f2⟩ := h (f, no) (List.mem_cons_self ..)
    obtain ⟨h1, h2⟩ := single_detok l (fun p hp => h p (List.mem_cons_of_mem _ hp))
    have hf : rstrip f = f := by
      apply rstrip_of_last
      intro c hc
      exact f2 c (List.mem_of_getLast? hc)
    show Single (rstrip (piece f no ++ detok l)) ∧ startsWs (rstrip (piece f no ++ detok l)) = false
    rw [rstrip_append]
    by_cases hd : rstrip (detok l) = []
    · rw [if_pos hd]
      have : rstrip (piece f no) = f := by
        unfold piece
        split
        · exact hf
        · rw [rstrip_append, if_pos (rstrip_ws (by simpa using isWs_space)), hf]
      rw [this]
      have := Single.form f2 single_nil
      rw [List.append_nil] at this
      refine ⟨this, ?_⟩
      have := (startsWs_form (s := []) f1 f2).1
      rwa [List.append_nil] at this
    · rw [if_neg hd]
      unfold piece
      split
      · exact ⟨h1.form f2, (startsWs_form f1 f2).1⟩
      · rw [List.append_assoc]
        exact ⟨(h1.space hd h2).form f2, (startsWs_form f1 f2).1⟩

/-- C49 does not hold: take any tree whose forms are not empty and have no white space, and any text that has the forms in their
order with any white space after them. The block reports nothing; but unless the white space is single spaces between the forms,
`compute_text` is not the text. -/
theorem C49_white_space_violated {t : Tree} (hok : t.Ok) (hf : ∀ x ∈ tokens t, (t.get x).1 ≠ [] ∧ ∀ c ∈ (t.get x).1, isWs c = false)
    {gs : List Str} (hl : gs.length = (tokens t).length) (hg : ∀ g ∈ gs, ∀ c ∈ g, isWs c = true)
    {text : Str} (htext : text = interleave ((tokens t).map (fun x => (t.get x).1)) gs) (hns : ¬ Single text) :
    (fromText t text).2 = true ∧ computeText true (fromText t text).1 ≠ text := by
  have hacc := fixLoop_accepts (tokens t) t gs (fun x hx => has_tokens hok hx) hl hf hg
  rw [← htext] at hacc
  have hne : text ≠ computeText true t := by
    intro he
    apply hns
    rw [he, C84_text]
    refine (single_detok _ ?_).1
    intro p hp
    obtain ⟨x, hx, rfl⟩ := List.mem_map.1 hp
    exact hf x hx
  have e : fromText t text = fixLoop t text (tokens t) := by unfold fromText; rw [if_neg hne]
  rw [e]
  refine ⟨hacc, ?_⟩
  obtain ⟨t', ht'⟩ : ∃ t', fixLoop t text (tokens t) = (t', true) := ⟨_, Prod.ext rfl hacc⟩
  obtain ⟨_, a2, a3, _, _⟩ := fixLoop_spec (tokens t) t t' text (C84_tokens hok).1 (fun x hx => has_tokens hok hx) ht'
  rw [ht']
  intro he
  apply hns
  rw [← he, C84_text, a3]
  refine (single_detok _ ?_).1
  intro p hp
  obtain ⟨x, hx, rfl⟩ := List.mem_map.1 hp
  rw [a2]
  exact hf x hx

/-- `mar.` with and without spaces. -/
def exTree2 : Tree := ⟨[⟨['m', 'a', 'r'], false, none⟩, ⟨['.'], true, none⟩], []⟩

example : exTree2.Ok ∧ computeText true exTree2 = ['m', 'a', 'r', ' ', '.'] ∧
    (fromText exTree2 ['m', 'a', 'r', '.']).2 = true ∧ computeText true (fromText exTree2 ['m', 'a', 'r', '.']).1 = ['m', 'a', 'r', '.'] ∧
    (fromText exTree2 ['m', 'a', 'r', ' ', ' ', '.', ' ']).2 = true ∧
    computeText true (fromText exTree2 ['m', 'a', 'r', ' ', ' ', '.', ' ']).1 = ['m', 'a', 'r', ' ', '.'] ∧
    (fromText exTree2 ['m', 'a', 'r']).2 = false := by
  refine ⟨?_, by decide, by decide, by decide, by decide, by decide, by decide⟩
  intro i w j h1 h2
  match i with
  | 0 => cases h1; cases h2
  | 1 => cases h1; cases h2
  | n + 2 => cases h1

end Verif.Text
