import Verif.Py.Str

/-!
# Property C213: ud.Google2ud merges words without changing the text

Source: `udapi/block/ud/google2ud.py`, `_merge_with` (lines 270-288), `fix_goeswith` (lines 237-268), the merging of Turkish `ig` words (lines 192-194) and of affixes (lines 394-400).
A sentence is a list of words with form and "SpaceAfter=No"; its text (`compute_text`, core/node.py:840-872, without multiword tokens and before the last space is stripped)
writes the forms one after another with a space unless the word says no. Not modelled here: features (`C213_feats` is about them alone), tags and relations; what merging does to
the tree is in `mergeTree`.
-/

namespace Verif.Text.GoogleMerge
open Verif.Py

structure W where
  form : Str
  no : Bool
deriving DecidableEq

def wordText (w : W) : Str := w.form ++ if w.no then [] else [' ']

def text (ws : List W) : Str := ws.flatMap wordText

/-- `_merge_with(node, delete_node)` (lines 276-280 and 288) for the words number `i` and `j` (from 0). -/
def merge (ws : List W) (i j : Nat) : List W :=
  match ws[i]?, ws[j]? with
  | some n, some d => if i < j then (ws.set i ⟨n.form ++ d.form, d.no⟩).eraseIdx j else (ws.set i ⟨d.form ++ n.form, n.no⟩).eraseIdx j
  | _, _ => ws

/-- Does word number `i` exist and say "SpaceAfter=No"? -/
def noAt (ws : List W) (i : Nat) : Bool := match ws[i]? with
  | some w => w.no
  | none => false

/-- The languages as `fix_goeswith` distinguishes them; `dot` says that a form is in ".'" (line 250). -/
inductive Lang
  | de | fr | pt | other
deriving DecidableEq

/-- `node.precedes(node.parent)` -/
def parentAfter (i : Nat) : Option Nat → Bool
  | some p => decide (i < p)
  | none => false

/-- `node.parent.precedes(node)` -/
def parentBefore (i : Nat) : Option Nat → Bool
  | some p => decide (p < i)
  | none => true

def formAt (dot : Str → Bool) (ws : List W) (k : Nat) : Bool := match ws[k]? with
  | some w => dot w.form
  | none => false

/-- `fix_goeswith` (lines 248-268) for the word number `i` with `goeswith`; `p` is the number of its parent, `none` for the technical root, which precedes every word and has no
"SpaceAfter=No". -/
def goeswith (lang : Lang) (dot : Str → Bool) (ws : List W) (i : Nat) (p : Option Nat) : List W :=
  match lang with
  | .de =>
    if parentAfter i p && noAt ws i && formAt dot ws (i + 1) then merge ws (i + 1) i
    else if parentBefore i p && (decide (0 < i) && noAt ws (i - 1)) && formAt dot ws (i - 1) then merge ws (i - 1) i
    else ws
  | .other => ws
  | _ =>
    if parentAfter i p && noAt ws i then merge ws (i + 1) i
    else if parentBefore i p && (decide (0 < i) && noAt ws (i - 1)) then merge ws (i - 1) i
    else ws

/-- Lines 394-400: an affix joined to the word before (`suff`) or after it. -/
def affix (suff : Bool) (ws : List W) (i : Nat) : List W :=
  if suff then
    match ws[i - 1]?, ws[i]? with
    | some v, some w => if 0 < i then (ws.set (i - 1) ⟨v.form ++ w.form, v.no⟩).eraseIdx i else ws
    | _, _ => ws
  else
    match ws[i + 1]?, ws[i]? with
    | some v, some w => (ws.set (i + 1) ⟨w.form ++ v.form, v.no⟩).eraseIdx i
    | _, _ => ws

/-- Words number `i` and `i + 1` with what is around them. -/
theorem around {ws : List W} {i : Nat} {a b : W} (ha : ws[i]? = some a) (hb : ws[i + 1]? = some b) :
    ∃ (pre post : List W), ws = pre ++ a :: b :: post ∧ pre.length = i := by
  obtain ⟨h1, e1⟩ := List.getElem?_eq_some_iff.mp ha
  obtain ⟨h2, e2⟩ := List.getElem?_eq_some_iff.mp hb
  refine ⟨ws.take i, ws.drop (i + 2), ?_, by simp; omega⟩
  rw [← e1, ← e2]
  rw [← List.drop_eq_getElem_cons h2, ← List.drop_eq_getElem_cons h1, List.take_append_drop]

theorem set_erase_left (pre post : List W) (a b c : W) : ((pre ++ a :: b :: post).set pre.length c).eraseIdx (pre.length + 1) = pre ++ c :: post := by
  induction pre with
  | nil => rfl
  | cons x pre ih => simpa using ih

theorem set_erase_right (pre post : List W) (a b c : W) : ((pre ++ a :: b :: post).set (pre.length + 1) c).eraseIdx pre.length = pre ++ c :: post := by
  induction pre with
  | nil => rfl
  | cons x pre ih => simpa using ih

theorem get_first (pre post : List W) (a b : W) : (pre ++ a :: b :: post)[pre.length]? = some a := by simp
theorem get_second (pre post : List W) (a b : W) : (pre ++ a :: b :: post)[pre.length + 1]? = some b := by simp

/-- Neighbours are merged to the same word whichever of them is kept. -/
theorem merge_neighbours (pre post : List W) (a b : W) :
    merge (pre ++ a :: b :: post) pre.length (pre.length + 1) = pre ++ ⟨a.form ++ b.form, b.no⟩ :: post ∧
    merge (pre ++ a :: b :: post) (pre.length + 1) pre.length = pre ++ ⟨a.form ++ b.form, b.no⟩ :: post := by
  constructor
  · unfold merge
    rw [get_first, get_second]
    simp only [if_pos (Nat.lt_succ_self _)]
    exact set_erase_left ..
  · unfold merge
    rw [get_first, get_second]
    simp only [if_neg (show ¬ pre.length + 1 < pre.length by omega)]
    exact set_erase_right ..

/-! ## C213 -/

/-- Merging neighbours: one word less, and the text is the same if there was no space between them; otherwise exactly that space is missing. -/
theorem C213_neighbours (pre post : List W) (a b : W) (i j : Nat) (h : (i = pre.length ∧ j = pre.length + 1) ∨ (i = pre.length + 1 ∧ j = pre.length)) :
    text (merge (pre ++ a :: b :: post) i j) = text pre ++ a.form ++ b.form ++ (if b.no then [] else [' ']) ++ text post ∧
    (a.no = true → text (merge (pre ++ a :: b :: post) i j) = text (pre ++ a :: b :: post)) ∧
    (a.no = false → (text (merge (pre ++ a :: b :: post) i j)).length + 1 = (text (pre ++ a :: b :: post)).length) := by
  have e : merge (pre ++ a :: b :: post) i j = pre ++ ⟨a.form ++ b.form, b.no⟩ :: post := by
    rcases h with ⟨rfl, rfl⟩ | ⟨rfl, rfl⟩
    · exact (merge_neighbours ..).1
    · exact (merge_neighbours ..).2
  rw [e]
  refine ⟨by simp [text, wordText], ?_, ?_⟩
  · intro ha; simp [text, wordText, ha]
  · intro ha; simp [text, wordText, ha]; omega

/-- `fix_goeswith` never changes the text, whatever the language, the word and its parent (a word of the sentence, or the technical root). -/
theorem C213_goeswith (lang : Lang) (dot : Str → Bool) (ws : List W) (i : Nat) (p : Option Nat) (hi : i < ws.length) (hp : ∀ q, p = some q → q < ws.length) :
    text (goeswith lang dot ws i p) = text ws := by
  have right : ∀ q, p = some q → i < q → noAt ws i = true → text (merge ws (i + 1) i) = text ws := by
    intro q hq hlt hn
    have hq' := hp q hq
    obtain ⟨pre, post, e, hl⟩ := around (List.getElem?_eq_getElem hi) (List.getElem?_eq_getElem (show i + 1 < ws.length by omega))
    have ha : ws[i].no = true := by simpa [noAt, hi] using hn
    generalize ws[i] = a at *
    generalize ws[i + 1] = b at *
    subst e; subst hl
    exact (C213_neighbours pre post a b _ _ (Or.inr ⟨rfl, rfl⟩)).2.1 ha
  have left : 0 < i → noAt ws (i - 1) = true → text (merge ws (i - 1) i) = text ws := by
    intro h0 hn
    have h1 : i - 1 < ws.length := by omega
    have e1 : i - 1 + 1 = i := by omega
    obtain ⟨pre, post, e, hl⟩ := around (List.getElem?_eq_getElem h1) (by rw [e1]; exact List.getElem?_eq_getElem hi)
    have ha : ws[i - 1].no = true := by simpa [noAt, h1] using hn
    have hi' : i = pre.length + 1 := by omega
    have := (C213_neighbours pre post ws[i - 1] ws[i] pre.length (pre.length + 1) (Or.inl ⟨rfl, rfl⟩)).2.1 ha
    rw [← e, ← hi', hl] at this
    exact this
  have rightp : parentAfter i p = true → ∃ q, p = some q ∧ i < q := by
    intro h
    cases p with
    | none => cases h
    | some q => exact ⟨q, rfl, by simpa [parentAfter] using h⟩
  unfold goeswith
  cases lang <;> simp only []
  · split
    · rename_i h
      simp only [Bool.and_eq_true] at h
      obtain ⟨q, hq, hlt⟩ := rightp h.1.1
      exact right q hq hlt h.1.2
    · split
      · rename_i h
        simp only [Bool.and_eq_true, decide_eq_true_eq] at h
        exact left h.1.2.1 h.1.2.2
      · rfl
  · split
    · rename_i h
      simp only [Bool.and_eq_true] at h
      obtain ⟨q, hq, hlt⟩ := rightp h.1
      exact right q hq hlt h.2
    · split
      · rename_i h
        simp only [Bool.and_eq_true, decide_eq_true_eq] at h
        exact left h.2.1 h.2.2
      · rfl
  · split
    · rename_i h
      simp only [Bool.and_eq_true] at h
      obtain ⟨q, hq, hlt⟩ := rightp h.1
      exact right q hq hlt h.2
    · split
      · rename_i h
        simp only [Bool.and_eq_true, decide_eq_true_eq] at h
        exact left h.2.1 h.2.2
      · rfl

/-- Outside German, a word without a space towards its parent's side is merged, so the sentence gets shorter by one word. -/
theorem C213_merges (dot : Str → Bool) (pre post : List W) (a b : W) (p : Nat) (ha : a.no = true) (hp : pre.length < p) :
    goeswith .fr dot (pre ++ a :: b :: post) pre.length (some p) = pre ++ ⟨a.form ++ b.form, b.no⟩ :: post := by
  have hn : noAt (pre ++ a :: b :: post) pre.length = true := by unfold noAt; rw [get_first]; exact ha
  unfold goeswith
  simp only [parentAfter, hn, decide_eq_true hp, Bool.and_self, if_true]
  exact (merge_neighbours ..).2

/-- The full claim for a merge: the text stays. -/
def SameText (ws ws' : List W) : Prop := text ws' = text ws

/-- The Turkish merge takes any parent; for words with others between them the form of the deleted word is put before those. -/
theorem C213_distant_violated (pre mid post : List W) (a b : W) :
    text (merge (pre ++ a :: (mid ++ b :: post)) pre.length (pre.length + 1 + mid.length)) =
      text pre ++ a.form ++ b.form ++ (if b.no then [] else [' ']) ++ text mid ++ text post := by
  have g1 : (pre ++ a :: (mid ++ b :: post))[pre.length]? = some a := by simp
  have g2 : (pre ++ a :: (mid ++ b :: post))[pre.length + 1 + mid.length]? = some b := by
    rw [List.getElem?_append_right (by omega)]
    rw [show pre.length + 1 + mid.length - pre.length = mid.length + 1 by omega]
    simp
  have e : merge (pre ++ a :: (mid ++ b :: post)) pre.length (pre.length + 1 + mid.length) = pre ++ ⟨a.form ++ b.form, b.no⟩ :: (mid ++ post) := by
    unfold merge
    rw [g1, g2]
    simp only [if_pos (show pre.length < pre.length + 1 + mid.length by omega)]
    clear g1 g2
    induction pre with
    | nil =>
      simp only [List.nil_append, List.length_nil, List.set_cons_zero, Nat.zero_add]
      rw [Nat.add_comm, List.eraseIdx_cons_succ, List.eraseIdx_append_of_length_le (Nat.le_refl _)]
      simp
    | cons x pre ih =>
      simp only [List.cons_append, List.length_cons, List.set_cons_succ]
      rw [show pre.length + 1 + 1 + mid.length = (pre.length + 1 + mid.length) + 1 by omega, List.eraseIdx_cons_succ, ih]
  rw [e]
  simp [text, wordText]

/-- A prefix joined to the next word keeps the text if there was no space between them. -/
theorem C213_prefix (pre post : List W) (a b : W) (ha : a.no = true) : SameText (pre ++ a :: b :: post) (affix false (pre ++ a :: b :: post) pre.length) := by
  unfold SameText affix
  rw [get_first, get_second]
  simp only [Bool.false_eq_true, if_false]
  rw [set_erase_right]
  simp [text, wordText, ha]

/-- A suffix joined to the word before it keeps the text if there was no space between them and there is none after the suffix. -/
theorem C213_suffix_partial (pre post : List W) (a b : W) (ha : a.no = true) (hb : b.no = true) :
    SameText (pre ++ a :: b :: post) (affix true (pre ++ a :: b :: post) (pre.length + 1)) := by
  unfold SameText affix
  rw [Nat.add_sub_cancel, get_first, get_second]
  simp only [if_true, if_pos (Nat.succ_pos _)]
  rw [set_erase_left]
  simp [text, wordText, ha, hb]

/-- For every suffix written together with the word before it and followed by a space: the space is lost, since the joined word keeps the "SpaceAfter=No" of its first part. -/
theorem C213_suffix_violated (pre post : List W) (a b : W) (ha : a.no = true) (hb : b.no = false) :
    (text (affix true (pre ++ a :: b :: post) (pre.length + 1))).length + 1 = (text (pre ++ a :: b :: post)).length ∧
    ¬ SameText (pre ++ a :: b :: post) (affix true (pre ++ a :: b :: post) (pre.length + 1)) := by
  have h : (text (affix true (pre ++ a :: b :: post) (pre.length + 1))).length + 1 = (text (pre ++ a :: b :: post)).length := by
    unfold affix
    rw [Nat.add_sub_cancel, get_first, get_second]
    simp only [if_true, if_pos (Nat.succ_pos _)]
    rw [set_erase_left]
    simp [text, wordText, ha, hb]; omega
  refine ⟨h, ?_⟩
  intro g
  unfold SameText at g
  rw [g] at h
  omega

/-! ## What merging does to the tree (lines 281-284 and 288) -/

def upd (par : Nat → Nat) (x p : Nat) : Nat → Nat := fun y => if y = x then p else par y

/-- `x` is `n` or an ancestor of `n`, looking at most `fuel` steps up. -/
def above (par : Nat → Nat) : Nat → Nat → Nat → Bool
  | 0, n, x => x == n
  | fuel + 1, n, x => x == n || above par fuel (par n) x

/-- Lines 281-282 -/
def takePlace (par : Nat → Nat) (n d : Nat) : Nat → Nat := if par n = d then upd par n (par d) else par

/-- The tree after `_merge_with(n, d)`, `none` if the `parent` setter refuses a cycle. The check is made for all children of `d` at once; the first child for which it fails raises
the exception. -/
def mergeTree (fuel : Nat) (ns : List Nat) (par : Nat → Nat) (n d : Nat) : Option (Nat → Nat) :=
  if ns.any (fun c => takePlace par n d c == d && above (takePlace par n d) fuel n c) then none
  else some fun c => if c ∈ ns ∧ takePlace par n d c = d then n else takePlace par n d c

/-- `iter par k x`: `k` steps up. -/
def iter (par : Nat → Nat) : Nat → Nat → Nat
  | 0, x => x
  | k + 1, x => iter par k (par x)

theorem above_iff (par : Nat → Nat) : ∀ (fuel n x : Nat), above par fuel n x = true ↔ ∃ k, k ≤ fuel ∧ iter par k n = x
  | 0, n, x => by
    simp only [above, beq_iff_eq]
    constructor
    · intro h; exact ⟨0, Nat.le_refl _, h.symm⟩
    · rintro ⟨k, hk, h⟩
      have : k = 0 := by omega
      subst this; exact h.symm
  | fuel + 1, n, x => by
    simp only [above, Bool.or_eq_true, beq_iff_eq, above_iff par fuel]
    constructor
    · rintro (h | ⟨k, hk, h⟩)
      · exact ⟨0, by omega, h.symm⟩
      · exact ⟨k + 1, by omega, h⟩
    · rintro ⟨k, hk, h⟩
      cases k with
      | zero => exact Or.inl h.symm
      | succ k => exact Or.inr ⟨k, by omega, h⟩

theorem iter_succ (par : Nat → Nat) : ∀ (k x : Nat), iter par (k + 1) x = par (iter par k x)
  | 0, _ => rfl
  | k + 1, x => by rw [iter, iter_succ par k (par x)]; rfl

/-- After a merge that is accepted no word hangs on the deleted one; its former children hang on the word kept, which takes its place if it was one of them; all others keep
their parents. -/
theorem C213_tree (fuel : Nat) (ns : List Nat) (par par' : Nat → Nat) (n d : Nat) (hnd : n ≠ d) (hd : par d ≠ d) (h : mergeTree fuel ns par n d = some par') :
    (∀ c ∈ ns, par' c ≠ d) ∧ (∀ c ∈ ns, c ≠ n → par c = d → par' c = n) ∧ par' n = (if par n = d then par d else par n) ∧
    (∀ c, par c ≠ d → par' c = par c) := by
  unfold mergeTree at h
  split at h
  · cases h
  · rename_i hc
    injection h with h
    subst h
    have p1 : ∀ c, c ≠ n → takePlace par n d c = par c := by
      intro c hcn; unfold takePlace; split
      · simp [upd, hcn]
      · rfl
    have p1n : takePlace par n d n = if par n = d then par d else par n := by
      unfold takePlace; split <;> simp [upd]
    have nd : takePlace par n d n ≠ d := by
      rw [p1n]; split
      · exact hd
      · assumption
    refine ⟨?_, ?_, ?_, ?_⟩
    · intro c hcns
      simp only []
      split
      · exact hnd
      · rename_i g; exact fun e => g ⟨hcns, e⟩
    · intro c hcns hcn e
      simp only []
      rw [if_pos ⟨hcns, by rw [p1 c hcn]; exact e⟩]
    · simp only []
      rw [if_neg (fun g => nd g.2), p1n]
    · intro c hcd
      simp only []
      by_cases hcn : c = n
      · subst hcn
        rw [if_neg (fun g => nd g.2), p1n, if_neg hcd]
      · rw [if_neg (by rw [p1 c hcn]; exact fun g => hcd g.2), p1 c hcn]

/-- For every word `n` that is below the word to be deleted but not directly: the merge is refused with an exception. -/
theorem C213_below_violated (fuel : Nat) (ns : List Nat) (par : Nat → Nat) (n d k : Nat) (hk : k + 2 ≤ fuel) (hb : iter par (k + 2) n = d)
    (hn : par n ≠ d) (closed : iter par (k + 1) n ∈ ns) : mergeTree fuel ns par n d = none := by
  have e : takePlace par n d = par := if_neg hn
  unfold mergeTree
  rw [e, if_pos]
  rw [List.any_eq_true]
  refine ⟨_, closed, ?_⟩
  rw [Bool.and_eq_true, beq_iff_eq, above_iff]
  exact ⟨by rw [← iter_succ par]; exact hb, k + 1, by omega, rfl⟩

/-! ## Features (lines 285-286) -/

/-- `delete_node.feats.update(node.feats)`: the feature `f` of the merged word, for features as functions with "" for none. -/
def feats (n d : Str → Str) (f : Str) : Str := if n f ≠ [] then n f else d f

/-- The merged word has the features of both; where they differ, those of the word kept. -/
theorem C213_feats (n d : Str → Str) (f : Str) : (n f ≠ [] → feats n d f = n f) ∧ (n f = [] → feats n d f = d f) := by
  unfold feats
  exact ⟨fun h => by rw [if_pos h], fun h => by rw [if_neg (by simp [h])]⟩

/-- "e", "-", "mail" without spaces; "x" "an" as a suffix before a space. -/
example : goeswith .fr (fun _ => false) [⟨['e'], true⟩, ⟨['-'], true⟩, ⟨['m'], false⟩] 0 (some 2) = [⟨['e', '-'], true⟩, ⟨['m'], false⟩] ∧
    text (affix true [⟨['x'], true⟩, ⟨['a'], false⟩, ⟨['y'], false⟩] 1) = ['x', 'a', 'y', ' '] ∧
    text (merge [⟨['x'], false⟩, ⟨['m'], false⟩, ⟨['y'], false⟩] 0 2) = ['x', 'y', ' ', 'm', ' '] := by decide
example : (mergeTree 5 [1, 2, 3] (fun x => x - 1) 3 1).isNone = true ∧ ((mergeTree 5 [1, 2, 3] (fun x => x - 1) 2 1).map fun f => (f 1, f 2, f 3)) = some (0, 0, 2) := by decide

end Verif.Text.GoogleMerge
