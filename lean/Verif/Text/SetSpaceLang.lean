import Verif.Text.SetSpace

/-!
# Property C178: ud.en.SetSpaceAfter, ud.ro.SetSpaceAfter and the text of the sentence (ud/setspaceafter.py, ud/en/setspaceafter.py, ud/ro/setspaceafter.py)

The trees and the block are those of C129, with the text of the tree and the attributes of the words that the rules of the
languages need. Simplified: the calls of `mark_no_space` of a language are made after its loop, they do not change any form.
-/

namespace Verif.Text.SetSpaceLang
open Verif.Py Verif.Text.SetSpace

/-- The attributes of a word. -/
structure W where
  form : Str
  upos : Str
  xpos : Str
  /-- the position of the parent, counted from 1 (0: the root) -/
  head : Nat
  deriving DecidableEq

/-- Does `mark_no_space(nodes[i])` set `self.changed`? (setspaceafter.py:64-74) -/
def marks (gw : Nat → Bool) (t : Tree) (i : Nat) : Bool :=
  !gw (i + 1) &&
    match t.words[i]?.bind (·.mwt) with
    | some j => (t.mwts[j]?.map (·.last)) == some (i + 1)
    | none => true

/-- `process_tree(root)` with the text (setspaceafter.py:24-62) -/
def processText (fixText : Bool) (st : St) (s : Snt) (text : Str) : Option (St × Tree × Str) :=
  let fs := s.tree.words.map (·.form)
  match lastCalls fs, process st s with
  | some l, some (st', t') =>
    some (st', t', if fixText && (calls st' (fs.count quote % 2 == 0) 0 true fs ++ l).any (marks s.gw s.tree) then computeText true t' else text)
  | _, _ => none

/-- The parent of the word at position `i` (counted from 0), or the word itself, is the parent of the word at position `j`. -/
def attached (ws : List W) (i j : Nat) : Bool :=
  match ws[i]?, ws[j]? with
  | some a, some b => (b.head == i + 1) || (a.head == b.head)
  | _, _ => false

def sNt : Str := ['n', '\'', 't']
def sS : Str := ['\'', 's']
def sApos : Str := ['\'']
def sOpen : Str := ['`', '`']
def sClose : Str := ['\'', '\'']
def sHyphen : Str := ['-']
def sDollar : Str := ['$']
def sNum : Str := ['N', 'U', 'M']

/-- The words marked by ud.en.SetSpaceAfter itself (en/setspaceafter.py:17-44) for the pair of words at `i` and `i + 1`. -/
def enPair (ws : List W) (i : Nat) (w v : W) : List Nat :=
  if v.form = sNt ∨ v.form = sS then [i]
  else if w.form = sApos ∧ w.xpos = sOpen then [i]
  else if v.form = sApos ∧ v.xpos = sClose then [i]
  else if w.form = sHyphen ∧ i ≠ 0 then
    if attached ws (i - 1) i ∧ attached ws (i + 1) i then [i - 1, i] else []
  else if w.form = sDollar ∧ v.upos = sNum then [i]
  else []

/-- `re.match('-.*[^0-9,.]', form)` (ro/setspaceafter.py:42); forms have no newline. -/
def roSuffix (f : Str) : Bool :=
  match f with
  | '-' :: r => r.any (fun c => !(('0' ≤ c && c ≤ '9') || c == ',' || c == '.'))
  | _ => false

/-- The words marked by ud.ro.SetSpaceAfter itself (ro/setspaceafter.py:35-47) for the pair of words at `i` and `i + 1`. -/
def roPair (i : Nat) (w v : W) : List Nat :=
  (if roSuffix v.form then [i] else []) ++ (if w.form.getLast? = some '-' ∧ w.form ≠ sHyphen then [i] else [])

/-- `for i, node in enumerate(nodes[:-1])` -/
def pairs (f : Nat → W → W → List Nat) : Nat → List W → List Nat
  | i, w :: v :: rest => f i w v ++ pairs f (i + 1) (v :: rest)
  | _, _ => []

/-- `process_tree(root)` of a language: its own calls of `mark_no_space`, then `super().process_tree(root)`, which sets `changed` to `False`
first (en/setspaceafter.py:46, ro/setspaceafter.py:49). -/
def langProcess (own : List Nat) (fixText : Bool) (st : St) (s : Snt) (text : Str) : Option (St × Tree × Str) :=
  processText fixText st { s with tree := own.foldl (mark s.gw) s.tree } text

/-- ud.en.SetSpaceAfter -/
def enProcess (ws : List W) := langProcess (pairs (enPair ws) 0 ws)

/-- ud.ro.SetSpaceAfter -/
def roProcess (ws : List W) := langProcess (pairs roPair 0 ws)

/-! ## Proofs -/

theorem pairs_mem (f : Nat → W → W → List Nat) : ∀ (l : List W) (i j : Nat), j ∈ pairs f i l ↔
    ∃ k w v, l[k]? = some w ∧ l[k + 1]? = some v ∧ j ∈ f (i + k) w v
  | [], i, j => by simp [pairs]
  | [w], i, j => by
    simp only [pairs, List.not_mem_nil, false_iff]
    rintro ⟨k, w', v, _, h2, _⟩
    simp at h2
  | w :: v :: rest, i, j => by
    rw [pairs, List.mem_append, pairs_mem f (v :: rest) (i + 1) j]
    constructor
    · rintro (h | ⟨k, a, b, h1, h2, h3⟩)
      · exact ⟨0, w, v, rfl, rfl, h⟩
      · exact ⟨k + 1, a, b, h1, h2, by rw [show i + (k + 1) = i + 1 + k by omega]; exact h3⟩
    · rintro ⟨k, a, b, h1, h2, h3⟩
      cases k with
      | zero =>
        simp only [List.getElem?_cons_zero, List.getElem?_cons_succ, Option.some.injEq] at h1 h2
        subst h1 h2
        exact .inl h3
      | succ k => exact .inr ⟨k, a, b, h1, h2, by rw [show i + 1 + k = i + (k + 1) by omega]; exact h3⟩

theorem mark_of_not_marks {gw : Nat → Bool} {t : Tree} {i : Nat} (h : marks gw t i = false) : mark gw t i = t := by
  unfold marks at h
  unfold mark
  by_cases hg : gw (i + 1) = true
  · rw [if_pos hg]
  · rw [if_neg hg]
    have hg' : gw (i + 1) = false := by simpa using hg
    rw [hg'] at h
    simp only [Bool.not_false, Bool.true_and] at h
    cases hw : t.words[i]?.bind (·.mwt) with
    | none => rw [hw] at h; exact absurd h (by simp)
    | some j =>
      rw [hw] at h
      simp only at h ⊢
      rw [if_neg (by simpa using h)]

theorem foldl_not_marks {gw : Nat → Bool} {t : Tree} : ∀ (l : List Nat), l.any (marks gw t) = false → l.foldl (mark gw) t = t
  | [], _ => rfl
  | i :: l, h => by
    rw [List.any_cons, Bool.or_eq_false_iff] at h
    rw [List.foldl_cons, mark_of_not_marks h.1]
    exact foldl_not_marks l h.2

theorem processText_eq {fix : Bool} {st st' : St} {s : Snt} {text text' : Str} {t' : Tree} (h : processText fix st s text = some (st', t', text')) :
    process st s = some (st', t') ∧ ∃ l : List Nat, (∀ j, j ∈ l ↔ Glued st'.after st'.before (s.tree.words.map (·.form)) j) ∧ t' = l.foldl (mark s.gw) s.tree ∧
      text' = if fix && l.any (marks s.gw s.tree) then computeText true t' else text := by
  unfold processText at h
  simp only at h
  split at h
  · rename_i l st1 t1 hl hp
    simp only [Option.some.injEq, Prod.mk.injEq] at h
    obtain ⟨rfl, rfl, rfl⟩ := h
    refine ⟨hp, _, mem_all hl, ?_, rfl⟩
    unfold process at hp
    simp only [hl, Option.some.injEq, Prod.mk.injEq] at hp
    obtain ⟨rfl, rfl⟩ := hp
    rfl
  · cases h

/-- C178: if the text agrees with the words before ud.SetSpaceAfter, it does so after it. -/
theorem C178_text {st st' : St} {s : Snt} {text text' : Str} {t' : Tree} (h : processText true st s text = some (st', t', text'))
    (ht : text = computeText true s.tree) : text' = computeText true t' := by
  obtain ⟨_, l, _, h1, h2⟩ := processText_eq h
  rw [h2]
  cases hm : l.any (marks s.gw s.tree) with
  | true => rfl
  | false =>
    rw [h1, foldl_not_marks l hm]
    simpa using ht

/-- C178: with `fix_text=0` the text stays; a text that does not agree with the words stays if there is no word to be marked. -/
theorem C178_kept {fix : Bool} {st st' : St} {s : Snt} {text text' : Str} {t' : Tree} (h : processText fix st s text = some (st', t', text'))
    (hn : fix = false ∨ ∀ i, Glued st'.after st'.before (s.tree.words.map (·.form)) i → marks s.gw s.tree i = false) : text' = text := by
  obtain ⟨_, l, hl, h1, h2⟩ := processText_eq h
  rw [h2]
  rcases hn with rfl | hn
  · rfl
  · have : l.any (marks s.gw s.tree) = false := by
      rw [List.any_eq_false]
      intro i hi
      rw [hn i ((hl i).1 hi)]
      decide
    rw [this]
    simp

theorem added_forms {gw : Nat → Bool} {P : Nat → Prop} {t t' : Tree} (h : Added gw P t t') : t'.words.map (·.form) = t.words.map (·.form) := by
  apply List.ext_getElem?
  intro i
  rw [List.getElem?_map, List.getElem?_map]
  cases hi : t.words[i]? with
  | none =>
    have : t'.words[i]? = none := by
      rw [List.getElem?_eq_none_iff, h.nwords]
      exact List.getElem?_eq_none_iff.1 hi
    rw [this]
  | some w =>
    obtain ⟨w', h1, h2, _⟩ := h.words i w hi
    rw [h1, Option.map_some, Option.map_some, h2]

/-- C178, the marks of the blocks of the languages: those of the rules of the language and those of the general block. -/
theorem C178_spaces_partial {own : List Nat} {fix : Bool} {st st' : St} {s : Snt} {text text' : Str} {t' : Tree}
    (h : langProcess own fix st s text = some (st', t', text')) :
    Added s.gw (fun i => i ∈ own ∨ Glued st'.after st'.before (s.tree.words.map (·.form)) i) s.tree t' := by
  have h1 := foldl_added s.gw own s.tree
  have h2 := C129_spaces_partial (processText_eq h).1
  have h3 := h1.trans h2
  refine h3.congr (fun i => ?_)
  show _ ∨ Glued _ _ ((own.foldl (mark s.gw) s.tree).words.map (·.form)) i ↔ _
  rw [added_forms h1]

theorem textLoop_plain (mwts : List Mwt) : ∀ (ws : List Word) (last i : Nat), (∀ w ∈ ws, w.mwt = none) →
    textLoop true mwts last i ws = detok (ws.map (fun w => (w.form, w.no)))
  | [], _, _, _ => rfl
  | w :: ws, last, i, h => by
    unfold textLoop
    rw [h w (by simp)]
    simp only [Option.bind_none, if_true]
    rw [textLoop_plain mwts ws last (i + 1) (fun v hv => h v (by simp [hv]))]
    rfl

theorem count_detok : ∀ (l : List (Str × Bool)), (∀ p ∈ l, ' ' ∉ p.1) → (detok l).count ' ' = l.countP (fun p => !p.2)
  | [], _ => rfl
  | (f, b) :: l, h => by
    have e : detok ((f, b) :: l) = (if b then f else f ++ [' ']) ++ detok l := rfl
    rw [e, List.count_append, count_detok l (fun p hp => h p (by simp [hp])), List.countP_cons]
    have hf : f.count ' ' = 0 := List.count_eq_zero.2 (h (f, b) (by simp))
    cases b <;> simp [hf, Nat.add_comm]

theorem rstrip_nonws {a : Str} {c : Char} (h : isWs c = false) : rstrip (a ++ [c]) = a ++ [c] := by
  unfold rstrip
  simp [h]

/-- The number of spaces in the text of a sentence without multi-word tokens. -/
theorem spaces_text {t : Tree} (h0 : ∀ w ∈ t.words, w.mwt = none) (hf : ∀ w ∈ t.words, w.form ≠ [] ∧ ∀ c ∈ w.form, isWs c = false) :
    (computeText true t).count ' ' = t.words.dropLast.countP (fun w => !w.no) := by
  unfold computeText
  rw [textLoop_plain t.mwts t.words 0 0 h0]
  rcases List.eq_nil_or_concat t.words with e | ⟨ws, w, e⟩
  · rw [e]; rfl
  · rw [List.concat_eq_append] at e
    rw [e, List.map_append, List.dropLast_concat]
    have hd : detok (ws.map (fun w => (w.form, w.no)) ++ [w].map (fun w => (w.form, w.no))) =
        detok (ws.map (fun w => (w.form, w.no))) ++ (w.form ++ if w.no then [] else [' ']) := by
      unfold detok
      rw [List.flatMap_append]
      congr 1
      cases hw : w.no <;> simp [hw]
    rw [hd]
    obtain ⟨hne, hns⟩ := hf w (by rw [e]; simp)
    obtain ⟨f, c, ef⟩ : ∃ f c, w.form = f ++ [c] := by
      rcases List.eq_nil_or_concat w.form with e | ⟨f, c, e⟩
      · exact absurd e hne
      · exact ⟨f, c, by rw [e, List.concat_eq_append]⟩
    have hc : isWs c = false := hns c (by rw [ef]; simp)
    have hr : rstrip (detok (ws.map (fun w => (w.form, w.no))) ++ (w.form ++ if w.no then [] else [' '])) =
        detok (ws.map (fun w => (w.form, w.no))) ++ w.form := by
      cases w.no with
      | true =>
        rw [if_pos rfl, List.append_nil, ef, ← List.append_assoc, rstrip_nonws hc]
      | false =>
        rw [if_neg (by decide), ← List.append_assoc, rstrip_append, if_pos (rstrip_ws (by intro c hc; rw [List.mem_singleton.1 hc]; decide)), ef, ← List.append_assoc,
          rstrip_nonws hc]
    rw [hr, List.count_append, count_detok, List.count_eq_zero.2, Nat.add_zero, List.countP_map]
    · rfl
    · intro hsp
      exact absurd (hns ' ' hsp) (by decide)
    · intro p hp hsp
      obtain ⟨v, hv, rfl⟩ := List.mem_map.1 hp
      exact absurd ((hf v (by rw [e]; simp [hv])).2 ' ' hsp) (by decide)

theorem countP_lt {α : Type} (p q : α → Bool) : ∀ (l m : List α), l.length = m.length →
    (∀ (i : Nat) a b, l[i]? = some a → m[i]? = some b → q b = true → p a = true) →
    ∀ (i : Nat) (a b : α), l[i]? = some a → m[i]? = some b → p a = true → q b = false → m.countP q < l.countP p
  | [], _, _, _, i, a, b, h, _, _, _ => by simp at h
  | x :: l, [], hl, _, _, _, _, _, _, _, _ => by simp at hl
  | x :: l, y :: m, hl, h, i, a, b, ha, hb, hp, hq => by
    have hlen : l.length = m.length := by simpa using hl
    have h' : ∀ (i : Nat) a b, l[i]? = some a → m[i]? = some b → q b = true → p a = true :=
      fun i a b h1 h2 => h (i + 1) a b (by simpa using h1) (by simpa using h2)
    have h0 := h 0 x y rfl rfl
    rw [List.countP_cons, List.countP_cons]
    cases i with
    | zero =>
      simp only [List.getElem?_cons_zero, Option.some.injEq] at ha hb
      subst ha hb
      rw [hp, hq]
      have : m.countP q ≤ l.countP p := by
        clear hl h hp hq h0
        induction l generalizing m with
        | nil =>
          have : m = [] := List.length_eq_zero_iff.1 (by simpa using hlen.symm)
          rw [this]; simp
        | cons u l ih =>
          cases m with
          | nil => simp
          | cons v m =>
            rw [List.countP_cons, List.countP_cons]
            have a1 := ih m (by simpa using hlen) (fun i a b h1 h2 => h' (i + 1) a b (by simpa using h1) (by simpa using h2))
            have a2 := h' 0 u v rfl rfl
            cases hv : q v with
            | false => simp; omega
            | true => simp [a2 hv]; omega
      simp; omega
    | succ i =>
      have := countP_lt p q l m hlen h' i a b (by simpa using ha) (by simpa using hb) hp hq
      cases hy : q y with
      | false => simp; omega
      | true => simp [h0 hy]; omega

/-- C178 does not hold for the blocks of the languages: if the rules of the language remove a space and the general rules none, the text
stays and no longer agrees with the words. -/
theorem C178_text_violated {own : List Nat} {st st' : St} {s : Snt} {text text' : Str} {t' : Tree}
    (h : langProcess own true st s text = some (st', t', text')) (ht : text = computeText true s.tree)
    (hn : ∀ i, ¬ Glued st'.after st'.before (s.tree.words.map (·.form)) i)
    (h0 : ∀ w ∈ s.tree.words, w.mwt = none) (hf : ∀ w ∈ s.tree.words, w.form ≠ [] ∧ ∀ c ∈ w.form, isWs c = false)
    {i : Nat} {w v : Word} (hi : i ∈ own) (hw : s.tree.words[i]? = some w) (hv : s.tree.words[i + 1]? = some v) (hno : w.no = false)
    (hg : s.gw (i + 1) = false) :
    text' = text ∧ text' ≠ computeText true t' := by
  have hadd := C178_spaces_partial h
  have hA := foldl_added s.gw own s.tree
  have hk : text' = text := by
    refine C178_kept h (.inr ?_)
    intro j hj
    have hj : Glued st'.after st'.before ((own.foldl (mark s.gw) s.tree).words.map (·.form)) j := hj
    rw [added_forms hA] at hj
    exact absurd hj (hn j)
  refine ⟨hk, ?_⟩
  rw [hk, ht]
  intro e
  have back : ∀ w' ∈ t'.words, ∃ (k : Nat) (w0 : Word), s.tree.words[k]? = some w0 ∧ t'.words[k]? = some w' ∧ w'.form = w0.form ∧ w'.mwt = w0.mwt := by
    intro w' hw'
    obtain ⟨k, hk⟩ := List.getElem?_of_mem hw'
    have hlt : k < s.tree.words.length := by
      rw [← hadd.nwords]
      exact (List.getElem?_eq_some_iff.1 hk).1
    obtain ⟨w1, h1, h2, h3, _⟩ := hadd.words k _ (List.getElem?_eq_getElem hlt)
    rw [hk] at h1
    injection h1 with h1
    subst h1
    exact ⟨k, _, List.getElem?_eq_getElem hlt, hk, h2, h3⟩
  have c1 := spaces_text h0 hf
  have c2 := spaces_text (t := t')
    (by
      intro w' hw'
      obtain ⟨k, w0, a, _, _, d⟩ := back w' hw'
      rw [d]
      exact h0 w0 (List.mem_of_getElem? a))
    (by
      intro w' hw'
      obtain ⟨k, w0, a, _, c, _⟩ := back w' hw'
      rw [c]
      exact hf w0 (List.mem_of_getElem? a))
  rw [e, c2] at c1
  have hlt : i + 1 < s.tree.words.length := (List.getElem?_eq_some_iff.1 hv).1
  obtain ⟨w1, a1, _, _, a4⟩ := hadd.words i w hw
  have hw1 : w1.no = true := a4.2 (.inr ⟨h0 w (List.mem_of_getElem? hw), .inl hi, hg⟩)
  have hlen := hadd.nwords
  have := countP_lt (fun w : Word => !w.no) (fun w : Word => !w.no) s.tree.words.dropLast t'.words.dropLast (by simp [hlen])
    (by
      intro k a b ha hb hq
      rw [List.getElem?_dropLast] at ha hb
      split at ha
      · split at hb
        · obtain ⟨b', b1, _, _, b4⟩ := hadd.words k a ha
          rw [hb] at b1
          injection b1 with b1
          subst b1
          cases hx : a.no with
          | false => rfl
          | true => rw [b4.2 (.inl hx)] at hq; exact absurd hq (by decide)
        · cases hb
      · cases ha)
    i w w1 (by rw [List.getElem?_dropLast, if_pos (by omega)]; exact hw) (by rw [List.getElem?_dropLast, if_pos (by omega)]; exact a1)
    (by rw [hno]; rfl) (by rw [hw1]; rfl)
  omega

/-- C178, English: no space before `n't` and `'s`, after an opening and before a closing single quote, between `$` and a number, and on neither
side of a hyphen, if the words next to it are its parent or its siblings. -/
theorem C178_en (ws : List W) (i j : Nat) (w v : W) : j ∈ enPair ws i w v ↔
    (j = i ∧ (v.form = sNt ∨ v.form = sS ∨ (w.form = sApos ∧ w.xpos = sOpen) ∨ (v.form = sApos ∧ v.xpos = sClose) ∨ (w.form = sDollar ∧ v.upos = sNum))) ∨
    ((j = i ∨ j + 1 = i) ∧ w.form = sHyphen ∧ i ≠ 0 ∧ v.form ≠ sNt ∧ v.form ≠ sS ∧ ¬ (v.form = sApos ∧ v.xpos = sClose) ∧
      attached ws (i - 1) i = true ∧ attached ws (i + 1) i = true) := by
  unfold enPair
  by_cases h1 : v.form = sNt ∨ v.form = sS
  · rw [if_pos h1]
    rcases h1 with h1 | h1 <;> simp [h1]
  · rw [if_neg h1]
    have h1a : v.form ≠ sNt := fun h => h1 (.inl h)
    have h1b : v.form ≠ sS := fun h => h1 (.inr h)
    by_cases h2 : w.form = sApos ∧ w.xpos = sOpen
    · rw [if_pos h2]
      simp [h2, show sApos ≠ sHyphen by decide]
    · rw [if_neg h2]
      by_cases h3 : v.form = sApos ∧ v.xpos = sClose
      · rw [if_pos h3]
        simp [h3]
      · rw [if_neg h3]
        by_cases h4 : w.form = sHyphen ∧ i ≠ 0
        · rw [if_pos h4]
          have h5 : w.form ≠ sDollar := by rw [h4.1]; decide
          by_cases h6 : attached ws (i - 1) i = true ∧ attached ws (i + 1) i = true
          · rw [if_pos h6]
            have hi := h4.2
            simp only [List.mem_cons, List.not_mem_nil, or_false]
            constructor
            · intro h
              exact .inr ⟨by omega, h4.1, h4.2, h1a, h1b, h3, h6⟩
            · rintro (⟨h, _⟩ | ⟨h, _⟩) <;> omega
          · rw [if_neg h6]
            simp only [List.not_mem_nil, false_iff]
            rintro (⟨_, h | h | h | h | h⟩ | ⟨_, _, _, _, _, _, h⟩)
            · exact h1a h
            · exact h1b h
            · exact h2 h
            · exact h3 h
            · exact h5 h.1
            · exact h6 h
        · rw [if_neg h4]
          by_cases h5 : w.form = sDollar ∧ v.upos = sNum
          · rw [if_pos h5]
            simp [h5, show sDollar ≠ sHyphen by decide]
          · rw [if_neg h5]
            simp only [List.not_mem_nil, false_iff]
            rintro (⟨_, h | h | h | h | h⟩ | ⟨_, h, h', _⟩)
            · exact h1a h
            · exact h1b h
            · exact h2 h
            · exact h3 h
            · exact h5 h
            · exact h4 ⟨h, h'⟩

/-- C178, Romanian: no space before a form that begins with a hyphen and is not a number, and after a longer form that ends with a hyphen. -/
theorem C178_ro (i j : Nat) (w v : W) : j ∈ roPair i w v ↔
    j = i ∧ ((∃ r, v.form = '-' :: r ∧ ∃ c ∈ r, ¬ (('0' ≤ c ∧ c ≤ '9') ∨ c = ',' ∨ c = '.')) ∨ ∃ r, r ≠ [] ∧ w.form = r ++ ['-']) := by
  have hs : roSuffix v.form = true ↔ ∃ r, v.form = '-' :: r ∧ ∃ c ∈ r, ¬ (('0' ≤ c ∧ c ≤ '9') ∨ c = ',' ∨ c = '.') := by
    unfold roSuffix
    split
    · rename_i r hr
      rw [List.any_eq_true]
      constructor
      · rintro ⟨c, hc, h⟩
        refine ⟨r, hr, c, hc, ?_⟩
        simpa only [Bool.not_eq_true', Bool.or_eq_false_iff, ← not_or, ← Bool.not_eq_true, Bool.or_eq_true, Bool.and_eq_true, decide_eq_true_eq, beq_iff_eq, or_assoc] using h
      · rintro ⟨r', e, c, hc, h⟩
        rw [hr] at e
        injection e with _ e
        subst e
        refine ⟨c, hc, ?_⟩
        simpa only [Bool.not_eq_true', Bool.or_eq_false_iff, ← not_or, ← Bool.not_eq_true, Bool.or_eq_true, Bool.and_eq_true, decide_eq_true_eq, beq_iff_eq, or_assoc] using h
    · rename_i hne
      simp only [Bool.false_eq_true, false_iff]
      rintro ⟨r, e, _⟩
      exact hne r e
  have hl : (w.form.getLast? = some '-' ∧ w.form ≠ sHyphen) ↔ ∃ r, r ≠ [] ∧ w.form = r ++ ['-'] := by
    rw [List.getLast?_eq_some_iff]
    constructor
    · rintro ⟨⟨r, e⟩, h⟩
      refine ⟨r, ?_, e⟩
      rintro rfl
      exact h e
    · rintro ⟨r, hr, e⟩
      refine ⟨⟨r, e⟩, ?_⟩
      intro h
      rw [h] at e
      cases r with
      | nil => exact hr rfl
      | cons a b => simp [sHyphen] at e
  unfold roPair
  rw [List.mem_append, ← hs, ← hl]
  constructor
  · rintro (h | h)
    · split at h
      · rename_i hc
        exact ⟨by simpa using h, .inl hc⟩
      · exact absurd h List.not_mem_nil
    · split at h
      · rename_i hc
        exact ⟨by simpa using h, .inr hc⟩
      · exact absurd h List.not_mem_nil
  · rintro ⟨rfl, h | h⟩
    · exact .inl (by rw [if_pos h]; simp)
    · exact .inr (by rw [if_pos h]; simp)

/-- The words of a sentence in the two models. -/
def Same (ws : List W) (s : Snt) : Prop := ws.map (·.form) = s.tree.words.map (·.form)

/-- C178, English: each space before `n't` and `'s` is removed. -/
theorem C178_en_contraction {ws : List W} {fix : Bool} {st st' : St} {s : Snt} {text text' : Str} {t' : Tree} (hs : Same ws s)
    (h : enProcess ws fix st s text = some (st', t', text')) {i : Nat} {w v : Word} (hw : s.tree.words[i]? = some w) (hv : s.tree.words[i + 1]? = some v)
    (hf : v.form = sNt ∨ v.form = sS) (hm : w.mwt = none) (hg : s.gw (i + 1) = false) : ∃ w', t'.words[i]? = some w' ∧ w'.no = true := by
  obtain ⟨w', h1, _, _, h4⟩ := (C178_spaces_partial h).words i w hw
  refine ⟨w', h1, h4.2 (.inr ⟨hm, .inl ?_, hg⟩)⟩
  have e : ∀ (k : Nat) x, s.tree.words[k]? = some x → ∃ y : W, ws[k]? = some y ∧ y.form = x.form := by
    intro k x hx
    have e := congrArg (fun l => l[k]?) hs
    simp only [List.getElem?_map, hx, Option.map_some] at e
    obtain ⟨y, hy, hyf⟩ := Option.map_eq_some_iff.1 e
    exact ⟨y, hy, hyf⟩
  obtain ⟨a, ha, _⟩ := e i w hw
  obtain ⟨b, hb, hbf⟩ := e (i + 1) v hv
  refine (pairs_mem _ _ _ _).2 ⟨i, a, b, ha, hb, ?_⟩
  rw [C178_en]
  rw [hbf]
  exact .inl ⟨by omega, hf.elim .inl (fun h => .inr (.inl h))⟩

/-- C178, Romanian: exactly the spaces before a suffix with a hyphen, after a prefix with a hyphen, and those of the general block are removed. -/
theorem C178_ro_spaces_partial {ws : List W} {fix : Bool} {st st' : St} {s : Snt} {text text' : Str} {t' : Tree}
    (h : roProcess ws fix st s text = some (st', t', text')) :
    Added s.gw (fun i => (∃ w v, ws[i]? = some w ∧ ws[i + 1]? = some v ∧
        ((∃ r, v.form = '-' :: r ∧ ∃ c ∈ r, ¬ (('0' ≤ c ∧ c ≤ '9') ∨ c = ',' ∨ c = '.')) ∨ ∃ r, r ≠ [] ∧ w.form = r ++ ['-'])) ∨
      Glued st'.after st'.before (s.tree.words.map (·.form)) i) s.tree t' := by
  refine (C178_spaces_partial h).congr (fun i => ?_)
  rw [pairs_mem]
  constructor
  · rintro (⟨k, w, v, h1, h2, h3⟩ | h)
    · rw [C178_ro] at h3
      obtain ⟨e, h3⟩ := h3
      have e : i = k := by omega
      subst e
      exact .inl ⟨w, v, h1, h2, h3⟩
    · exact .inr h
  · rintro (⟨w, v, h1, h2, h3⟩ | h)
    · exact .inl ⟨i, w, v, h1, h2, (C178_ro _ _ _ _).2 ⟨by omega, h3⟩⟩
    · exact .inr h

/-! ## Examples -/

def wd (f : Str) : W := ⟨f, [], [], 0⟩

/-- `do n't go`: the mark is set, the text is not computed again. -/
example : ((enProcess [wd ['d', 'o'], wd sNt, wd ['g', 'o']] true exSt (exSnt [['d', 'o'], sNt, ['g', 'o']]) ['o', 'l', 'd']).map
    (fun r => (r.2.1.words.map (·.no), r.2.2))) = some ([true, false, false], ['o', 'l', 'd']) := by decide +kernel

/-- `do n't go .`: with a mark of the general block the text is computed. -/
example : ((enProcess [wd ['d', 'o'], wd sNt, wd ['g', 'o'], wd ['.']] true exSt (exSnt [['d', 'o'], sNt, ['g', 'o'], ['.']]) ['o', 'l', 'd']).map
    (fun r => (r.2.1.words.map (·.no), r.2.2))) = some ([true, false, true, false], ['d', 'o', 'n', '\'', 't', ' ', 'g', 'o', '.']) := by decide +kernel

/-- `n- ar -3,1 -i` -/
example : ((roProcess [wd ['n', '-'], wd ['a', 'r'], wd ['-', '3', ',', '1'], wd ['-', 'i']] true exSt
    (exSnt [['n', '-'], ['a', 'r'], ['-', '3', ',', '1'], ['-', 'i']]) ['o', 'l', 'd']).map
    (fun r => (r.2.1.words.map (·.no), r.2.2))) = some ([true, false, true, false], ['o', 'l', 'd']) := by decide +kernel

end Verif.Text.SetSpaceLang
