import Verif.Run.Files

/-!
# Property C84: the text of a tree and its tokens (udapi/core/node.py:840-872, udapi/core/root.py:232-260)

A tree is the list of its words and the list of its multi-word tokens. The word at position `i` of the list has ord `i + 1` (the
trees of C01). Of `misc` only `SpaceAfter` is kept: `no` is `misc['SpaceAfter'] == 'No'`.
-/

namespace Verif.Text
open Verif.Py

/-- A word; `mwt` is the position of `node.multiword_token` in the list of multi-word tokens. -/
structure Word where
  form : Str
  no : Bool
  mwt : Option Nat
  deriving DecidableEq

/-- A multi-word token; `last` is `mwt.words[-1].ord`. -/
structure Mwt where
  form : Str
  no : Bool
  last : Nat
  deriving DecidableEq

structure Tree where
  words : List Word
  mwts : List Mwt
  deriving DecidableEq

/-- A form and what follows it (node.py:865-867 and 869-871). -/
def piece (form : Str) (no : Bool) : Str := if no then form else form ++ [' ']

/-- The loop of `compute_text` (node.py:860-871); `i` is the number of words before. -/
def textLoop (useMwt : Bool) (mwts : List Mwt) : Nat → Nat → List Word → Str
  | _, _, [] => []
  | last, i, w :: ws =>
    match (if useMwt then w.mwt.bind (mwts[·]?) else none) with
    | some m => if i + 1 > last then piece m.form m.no ++ textLoop useMwt mwts m.last (i + 1) ws else textLoop useMwt mwts last (i + 1) ws
    | none => piece w.form w.no ++ textLoop useMwt mwts last (i + 1) ws

/-- `root.compute_text(use_mwt)` (node.py:840-872) -/
def computeText (useMwt : Bool) (t : Tree) : Str := rstrip (textLoop useMwt t.mwts 0 0 t.words)

/-- A token: the word with ord `i + 1`, or a multi-word token. -/
inductive Tok
  | word (i : Nat)
  | mwt (j : Nat)
  deriving DecidableEq

/-- The loop of `token_descendants` (root.py:250-259). -/
def tokenLoop (mwts : List Mwt) : Nat → Nat → List Word → List Tok
  | _, _, [] => []
  | last, i, w :: ws =>
    match w.mwt.bind (fun j => (mwts[j]?).map (fun m => (j, m))) with
    | some (j, m) => if i + 1 > last then .mwt j :: tokenLoop mwts m.last (i + 1) ws else tokenLoop mwts last (i + 1) ws
    | none => .word i :: tokenLoop mwts last (i + 1) ws

/-- `root.token_descendants` (root.py:232-260) -/
def tokens (t : Tree) : List Tok := tokenLoop t.mwts 0 0 t.words

/-- `token.form` and whether it has `SpaceAfter=No`. -/
def Tree.get (t : Tree) : Tok → Str × Bool
  | .word i => match t.words[i]? with | some w => (w.form, w.no) | none => ([], true)
  | .mwt j => match t.mwts[j]? with | some m => (m.form, m.no) | none => ([], true)

/-- The forms in their order, each followed by a space unless it has `SpaceAfter=No`. -/
def detok (l : List (Str × Bool)) : Str := l.flatMap (fun p => if p.2 then p.1 else p.1 ++ [' '])

/-- The token a word belongs to: the multi-word token, or the word itself. -/
def tokOf (i : Nat) (w : Word) : Tok := match w.mwt with | some j => .mwt j | none => .word i

/-- Every multi-word token covers consecutive words: from a word of it all words up to its last one belong to it. -/
def Tree.Ok (t : Tree) : Prop := ∀ i w j, t.words[i]? = some w → w.mwt = some j →
  ∃ m, t.mwts[j]? = some m ∧ i + 1 ≤ m.last ∧ m.last ≤ t.words.length ∧
    ∀ k v, i < k → k + 1 ≤ m.last → t.words[k]? = some v → v.mwt = some j

/-! ## Proofs -/

theorem textLoop_tokens (t : Tree) : ∀ (ws : List Word) (last i : Nat), (∀ k, ws[k]? = t.words[i + k]?) →
    textLoop true t.mwts last i ws = detok ((tokenLoop t.mwts last i ws).map t.get)
  | [], _, _, _ => rfl
  | w :: ws, last, i, h => by
    have h' : ∀ k, ws[k]? = t.words[(i + 1) + k]? := by
      intro k
      have := h (k + 1)
      rw [List.getElem?_cons_succ] at this
      rw [this]; congr 1; omega
    have h0 : t.words[i]? = some w := (h 0).symm
    unfold textLoop tokenLoop
    rw [if_pos rfl]
    cases hm : w.mwt with
    | none =>
      simp only [Option.bind_none, List.map_cons, detok, List.flatMap_cons]
      rw [textLoop_tokens t ws last (i + 1) h']
      simp only [Tree.get, h0, detok, piece]
    | some j =>
      simp only [Option.bind_some]
      cases hj : t.mwts[j]? with
      | none =>
        simp only [Option.map_none, List.map_cons, detok, List.flatMap_cons]
        rw [textLoop_tokens t ws last (i + 1) h']
        simp only [Tree.get, h0, detok, piece]
      | some m =>
        simp only [Option.map_some]
        by_cases hl : i + 1 > last
        · rw [if_pos hl, if_pos hl, textLoop_tokens t ws m.last (i + 1) h']
          simp only [List.map_cons, detok, List.flatMap_cons, Tree.get, hj, piece]
        · rw [if_neg hl, if_neg hl]
          exact textLoop_tokens t ws last (i + 1) h'

/-- C84: for every tree, `compute_text` is the forms of `token_descendants` in their order, each followed by a space unless it has
`SpaceAfter=No`, without the white space at the end. -/
theorem C84_text (t : Tree) : computeText true t = rstrip (detok ((tokens t).map t.get)) := by
  unfold computeText tokens
  rw [textLoop_tokens t t.words 0 0 (fun k => by rw [Nat.zero_add])]

theorem textLoop_words (mwts : List Mwt) : ∀ (ws : List Word) (last i : Nat),
    textLoop false mwts last i ws = detok (ws.map (fun w => (w.form, w.no)))
  | [], _, _ => rfl
  | w :: ws, last, i => by
    unfold textLoop
    rw [if_neg (by decide)]
    simp only
    rw [textLoop_words mwts ws last (i + 1)]
    rfl

/-- C84: with `use_mwt=False` it is the forms of the words. -/
theorem C84_words (t : Tree) : computeText false t = rstrip (detok (t.words.map (fun w => (w.form, w.no)))) := by
  unfold computeText
  rw [textLoop_words]

/-- The tokens of the remaining words, when `last` is the last word of the multi-word token of the word before. -/
theorem mem_tokenLoop {t : Tree} (hok : t.Ok) : ∀ (ws : List Word) (last i : Nat), (∀ k, ws[k]? = t.words[i + k]?) →
    (∀ k v, i ≤ k → k < last → t.words[k]? = some v → v.mwt ≠ none) →
    ∀ x ∈ tokenLoop t.mwts last i ws, ∃ k w, i ≤ k ∧ last ≤ k ∧ t.words[k]? = some w ∧ x = tokOf k w
  | [], _, _, _, _, x, hx => by cases hx
  | w :: ws, last, i, h, hl, x, hx => by
    have h' : ∀ k, ws[k]? = t.words[(i + 1) + k]? := by
      intro k
      have := h (k + 1)
      rw [List.getElem?_cons_succ] at this
      rw [this]; congr 1; omega
    have h0 : t.words[i]? = some w := (h 0).symm
    unfold tokenLoop at hx
    cases hm : w.mwt with
    | none =>
      have hli : last ≤ i := Nat.le_of_not_lt (fun hlt => hl i w (Nat.le_refl _) hlt h0 hm)
      simp only [hm, Option.bind_none] at hx
      rcases List.mem_cons.1 hx with rfl | hx
      · exact ⟨i, w, Nat.le_refl _, hli, h0, by simp [tokOf, hm]⟩
      · obtain ⟨k, v, h1, h2, h3⟩ := mem_tokenLoop hok ws last (i + 1) h' (fun k v h1 h2 => hl k v (by omega) h2) x hx
        exact ⟨k, v, by omega, h2, h3⟩
    | some j =>
      obtain ⟨m, hj, hlo, hhi, hrun⟩ := hok i w j h0 hm
      simp only [hm, Option.bind_some, hj, Option.map_some] at hx
      by_cases hli : i + 1 > last
      · rw [if_pos hli] at hx
        rcases List.mem_cons.1 hx with rfl | hx
        · exact ⟨i, w, Nat.le_refl _, by omega, h0, by simp [tokOf, hm]⟩
        · obtain ⟨k, v, h1, h2, h3⟩ := mem_tokenLoop hok ws m.last (i + 1) h' (fun k v h1 h2 h3 => by
            rw [hrun k v (by omega) (by omega) h3]; simp) x hx
          exact ⟨k, v, by omega, by omega, h3⟩
      · rw [if_neg hli] at hx
        obtain ⟨k, v, h1, h2, h3⟩ := mem_tokenLoop hok ws last (i + 1) h' (fun k v h1 h2 => hl k v (by omega) h2) x hx
        exact ⟨k, v, by omega, h2, h3⟩

theorem nodup_tokenLoop {t : Tree} (hok : t.Ok) : ∀ (ws : List Word) (last i : Nat), (∀ k, ws[k]? = t.words[i + k]?) →
    (∀ k v, i ≤ k → k < last → t.words[k]? = some v → v.mwt ≠ none) →
    (tokenLoop t.mwts last i ws).Nodup
  | [], _, _, _, _ => List.nodup_nil
  | w :: ws, last, i, h, hl => by
    have h' : ∀ k, ws[k]? = t.words[(i + 1) + k]? := by
      intro k
      have := h (k + 1)
      rw [List.getElem?_cons_succ] at this
      rw [this]; congr 1; omega
    have h0 : t.words[i]? = some w := (h 0).symm
    unfold tokenLoop
    cases hm : w.mwt with
    | none =>
      simp only [Option.bind_none]
      have hl' : ∀ k v, i + 1 ≤ k → k < last → t.words[k]? = some v → v.mwt ≠ none := fun k v h1 h2 => hl k v (by omega) h2
      refine List.nodup_cons.2 ⟨?_, nodup_tokenLoop hok ws last (i + 1) h' hl'⟩
      intro hx
      obtain ⟨k, v, h1, h2, h3, h4⟩ := mem_tokenLoop hok ws last (i + 1) h' hl' _ hx
      unfold tokOf at h4
      split at h4
      · cases h4
      · injection h4 with h4; omega
    | some j =>
      obtain ⟨m, hj, hlo, hhi, hrun⟩ := hok i w j h0 hm
      simp only [Option.bind_some, hj, Option.map_some]
      by_cases hli : i + 1 > last
      · rw [if_pos hli]
        have hl' : ∀ k v, i + 1 ≤ k → k < m.last → t.words[k]? = some v → v.mwt ≠ none := fun k v h1 h2 h3 => by
          rw [hrun k v (by omega) (by omega) h3]; simp
        refine List.nodup_cons.2 ⟨?_, nodup_tokenLoop hok ws m.last (i + 1) h' hl'⟩
        intro hx
        obtain ⟨k, v, h1, h2, h3, h4⟩ := mem_tokenLoop hok ws m.last (i + 1) h' hl' _ hx
        unfold tokOf at h4
        split at h4
        · rename_i j' hv
          injection h4 with h4
          subst h4
          obtain ⟨m', hm', hk, _⟩ := hok k v j h3 hv
          rw [hj] at hm'
          injection hm' with hm'
          subst hm'
          omega
        · cases h4
      · rw [if_neg hli]
        exact nodup_tokenLoop hok ws last (i + 1) h' (fun k v h1 h2 => hl k v (by omega) h2)

/-- Every word is covered by a token that is listed. -/
theorem tokenLoop_complete {t : Tree} (hok : t.Ok) : ∀ (ws : List Word) (last i : Nat), (∀ k, ws[k]? = t.words[i + k]?) →
    ∀ k w, i ≤ k → t.words[k]? = some w → tokOf k w ∈ tokenLoop t.mwts last i ws ∨ k < last
  | [], last, i, h, k, w, hk, hw => by
    have := h (k - i)
    rw [show i + (k - i) = k by omega, hw] at this
    cases this
  | w :: ws, last, i, h, k, v, hk, hv => by
    have h' : ∀ k, ws[k]? = t.words[(i + 1) + k]? := by
      intro k
      have := h (k + 1)
      rw [List.getElem?_cons_succ] at this
      rw [this]; congr 1; omega
    have h0 : t.words[i]? = some w := (h 0).symm
    unfold tokenLoop
    by_cases hki : k = i
    · subst hki
      rw [h0] at hv
      injection hv with hv
      subst hv
      cases hm : w.mwt with
      | none => left; simp [tokOf, hm]
      | some j =>
        obtain ⟨m, hj, hlo, hhi, hrun⟩ := hok k w j h0 hm
        simp only [Option.bind_some, hj, Option.map_some]
        by_cases hli : k + 1 > last
        · rw [if_pos hli]; left; simp [tokOf, hm]
        · right; omega
    · cases hm : w.mwt with
      | none =>
        simp only [Option.bind_none]
        rcases tokenLoop_complete hok ws last (i + 1) h' k v (by omega) hv with h1 | h1
        · exact .inl (List.mem_cons_of_mem _ h1)
        · exact .inr h1
      | some j =>
        obtain ⟨m, hj, hlo, hhi, hrun⟩ := hok i w j h0 hm
        simp only [Option.bind_some, hj, Option.map_some]
        by_cases hli : i + 1 > last
        · rw [if_pos hli]
          rcases tokenLoop_complete hok ws m.last (i + 1) h' k v (by omega) hv with h1 | h1
          · exact .inl (List.mem_cons_of_mem _ h1)
          · left
            have := hrun k v (by omega) (by omega) hv
            simp [tokOf, this]
        · rw [if_neg hli]
          exact tokenLoop_complete hok ws last (i + 1) h' k v (by omega) hv

/-- C84: in a tree whose multi-word tokens cover consecutive words, `token_descendants` has exactly the words outside multi-word
tokens and the multi-word tokens of the others, each once. -/
theorem C84_tokens {t : Tree} (hok : t.Ok) :
    (tokens t).Nodup ∧ ∀ x, x ∈ tokens t ↔ ∃ i w, t.words[i]? = some w ∧ x = tokOf i w := by
  have hz : ∀ k, t.words[k]? = t.words[0 + k]? := fun k => by rw [Nat.zero_add]
  have hl : ∀ k v, 0 ≤ k → k < 0 → t.words[k]? = some v → v.mwt ≠ none := fun k v _ h => absurd h (Nat.not_lt_zero _)
  refine ⟨nodup_tokenLoop hok t.words 0 0 hz hl, ?_⟩
  intro x
  constructor
  · intro hx
    obtain ⟨k, w, _, _, h3, h4⟩ := mem_tokenLoop hok t.words 0 0 hz hl x hx
    exact ⟨k, w, h3, h4⟩
  · rintro ⟨i, w, h1, rfl⟩
    rcases tokenLoop_complete hok t.words 0 0 hz i w (Nat.zero_le _) h1 with h | h
    · exact h
    · exact absurd h (Nat.not_lt_zero _)

/-- `vámonos al mar.` (root.py:239-247) -/
def exTree : Tree where
  words := [⟨['v', 'a', 'm', 'o', 's'], false, some 0⟩, ⟨['n', 'o', 's'], false, some 0⟩, ⟨['a'], false, some 1⟩, ⟨['e', 'l'], false, some 1⟩,
    ⟨['m', 'a', 'r'], true, none⟩, ⟨['.'], false, none⟩]
  mwts := [⟨['v', 'a', 'm', 'o', 'n', 'o', 's'], false, 2⟩, ⟨['a', 'l'], false, 4⟩]

example : exTree.Ok ∧ tokens exTree = [.mwt 0, .mwt 1, .word 4, .word 5] ∧
    computeText true exTree = ['v', 'a', 'm', 'o', 'n', 'o', 's', ' ', 'a', 'l', ' ', 'm', 'a', 'r', '.'] ∧
    computeText false exTree = ['v', 'a', 'm', 'o', 's', ' ', 'n', 'o', 's', ' ', 'a', ' ', 'e', 'l', ' ', 'm', 'a', 'r', '.'] := by
  refine ⟨?_, by decide, by decide, by decide⟩
  have key : ∀ i < 6, ∀ w, exTree.words[i]? = some w → ∀ j, w.mwt = some j →
      ∃ m, exTree.mwts[j]? = some m ∧ i + 1 ≤ m.last ∧ m.last ≤ exTree.words.length ∧
        ∀ k v, i < k → k + 1 ≤ m.last → exTree.words[k]? = some v → v.mwt = some j := by
    intro i hi w hw j hj
    match i, hi with
    | 0, _ =>
      cases hw; cases hj
      refine ⟨_, rfl, by decide, by decide, ?_⟩
      intro k v h1 h2 h3
      have h2' : k + 1 ≤ 2 := h2
      obtain rfl : k = 1 := by omega
      cases h3; rfl
    | 1, _ =>
      cases hw; cases hj
      refine ⟨_, rfl, by decide, by decide, ?_⟩
      intro k v h1 h2 h3
      have h2' : k + 1 ≤ 2 := h2
      omega
    | 2, _ =>
      cases hw; cases hj
      refine ⟨_, rfl, by decide, by decide, ?_⟩
      intro k v h1 h2 h3
      have h2' : k + 1 ≤ 4 := h2
      obtain rfl : k = 3 := by omega
      cases h3; rfl
    | 3, _ =>
      cases hw; cases hj
      refine ⟨_, rfl, by decide, by decide, ?_⟩
      intro k v h1 h2 h3
      have h2' : k + 1 ≤ 4 := h2
      omega
    | 4, _ => cases hw; cases hj
    | 5, _ => cases hw; cases hj
  intro i w j hw hj
  refine key i ?_ w hw j hj
  have := (List.getElem?_eq_some_iff.1 hw).1
  exact this

end Verif.Text
