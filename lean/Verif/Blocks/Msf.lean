import Verif.Py.Str

/-!
# Properties C203 and C204: morphosyntactic features

Source: `udapi/block/msf/init.py`, `createabstract.py`, `removefunc.py`, `numphrase.py`. FEATS and MISC are lists of (name, value) in the order of insertion, with
string values; a missing name has the value '' and assigning '' deletes the name (dualdict.py:63-72).
-/

namespace Verif.Blocks.Msf
open Verif.Py

abbrev D := List (Str × Str)

def keys (d : D) : List Str := d.map (·.1)

/-- `d[k]` -/
def get : D → Str → Str
  | [], _ => []
  | (k', v) :: d, k => if k' = k then v else get d k

def put : D → Str → Str → D
  | [], k, v => [(k, v)]
  | (k', v') :: d, k, v => if k' = k then (k', v) :: d else (k', v') :: put d k v

/-- `d[k] = v` -/
def set (d : D) (k v : Str) : D := if v = [] then d.filter (fun p => p.1 ≠ k) else put d k v

theorem get_set (d : D) (k v k' : Str) : get (set d k v) k' = if k' = k then v else get d k' := by
  unfold set
  by_cases hv : v = []
  · rw [if_pos hv, hv]
    induction d with
    | nil => simp [get]
    | cons p d ih =>
      rw [List.filter_cons]
      by_cases hp : p.1 = k
      · rw [if_neg (by simpa using hp), ih, get]
        by_cases hk : k' = k
        · simp [hk]
        · rw [if_neg hk, if_neg hk, if_neg (by rw [hp]; exact fun h => hk h.symm)]
      · rw [if_pos (by simpa using hp), get, get, ih]
        by_cases hk : k' = k
        · subst hk; simp [hp]
        · simp [hk]
  · rw [if_neg hv]
    induction d with
    | nil =>
      by_cases hk : k' = k
      · simp [put, get, hk]
      · simp [put, get, hk, Ne.symm hk]
    | cons p d ih =>
      rw [put]
      by_cases hp : p.1 = k
      · rw [if_pos hp]
        by_cases hk : k' = k
        · simp [get, hk, hp]
        · have hn : ¬ p.1 = k' := by rw [hp]; exact fun h => hk h.symm
          simp only [get, if_neg hn, if_neg hk]
      · rw [if_neg hp, get, get, ih]
        by_cases hk : k' = k
        · subst hk; simp [hp]
        · simp [hk]

theorem keys_put {d : D} {k v k' : Str} : k' ∈ keys (put d k v) ↔ k' ∈ keys d ∨ k' = k := by
  induction d with
  | nil => simp [put, keys]
  | cons p d ih =>
    unfold keys at *
    rw [put]
    split
    · rename_i h
      simp only [List.map_cons, List.mem_cons]
      constructor
      · rintro (h | h)
        · exact Or.inl (Or.inl h)
        · exact Or.inl (Or.inr h)
      · rintro ((h | h) | h')
        · exact Or.inl h
        · exact Or.inr h
        · exact Or.inl (h'.trans h.symm)
    · simp only [List.map_cons, List.mem_cons]
      rw [ih, or_assoc]

theorem keys_set {d : D} {k v k' : Str} : k' ∈ keys (set d k v) ↔ if k' = k then v ≠ [] else k' ∈ keys d := by
  unfold set
  by_cases hv : v = []
  · rw [if_pos hv]
    unfold keys
    by_cases hk : k' = k
    · rw [if_pos hk]
      simp only [List.mem_map, List.mem_filter, decide_eq_true_eq]
      constructor
      · rintro ⟨p, ⟨_, h⟩, h'⟩
        exact absurd (h'.trans hk) h
      · exact fun h => absurd hv h
    · rw [if_neg hk]
      simp only [List.mem_map, List.mem_filter, decide_eq_true_eq]
      constructor
      · rintro ⟨p, ⟨h, _⟩, h'⟩
        exact ⟨p, h, h'⟩
      · rintro ⟨p, h, h'⟩
        exact ⟨p, ⟨h, by rw [h']; exact hk⟩, h'⟩
  · rw [if_neg hv, keys_put]
    by_cases hk : k' = k
    · simp [hk, hv]
    · simp [hk]

def msf : Str := ['M', 'S', 'F']
def phrase : Str := ['P', 'h', 'r', 'a', 's', 'e']
def cCase : Str := ['C', 'a', 's', 'e']
def msfCase : Str := ['M', 'S', 'F', 'C', 'a', 's', 'e']
def msfVerbForm : Str := ['M', 'S', 'F', 'V', 'e', 'r', 'b', 'F', 'o', 'r', 'm']
def phraseForm : Str := ['P', 'h', 'r', 'a', 's', 'e', 'F', 'o', 'r', 'm']
def vNom : Str := ['N', 'o', 'm']
def vAcc : Str := ['A', 'c', 'c']
def vGen : Str := ['G', 'e', 'n']
def nsubj : Str := ['n', 's', 'u', 'b', 'j']
def obj : Str := ['o', 'b', 'j']

/-- init.py:18 -/
def skipped : List Str :=
  [['A', 'b', 'b', 'r'], ['A', 'd', 'p', 'T', 'y', 'p', 'e'], ['E', 'm', 'p', 'h'], ['F', 'o', 'r', 'e', 'i', 'g', 'n'],
   ['N', 'a', 'm', 'e', 'T', 'y', 'p', 'e'], ['S', 't', 'y', 'l', 'e'], ['T', 'y', 'p', 'o'], ['V', 'a', 'r', 'i', 'a', 'n', 't']]

/-- A child of the node -/
structure Child where
  udeprel : Str
  upos : Str
  feats : D
  misc : D := []
  /-- it has a child with the relation `fixed` -/
  hasFixed : Bool := false

structure Word where
  feats : D
  misc : D
  udeprel : Str
  children : List Child

/-- Lines 16-19 -/
def copyFeats (feats : D) (misc : D) : D :=
  (keys feats).foldl (fun m f => if f ∈ skipped then m else set m (msf ++ f) (get feats f)) misc

def isAdposition (x : Child) : Bool := decide (x.udeprel = ['c', 'a', 's', 'e'] ∧ x.upos = ['A', 'D', 'P'])

/-- The case of the only adposition, if it is not a multi-word one (lines 26-30, and numphrase.py:25-29); '' if there is none -/
def adpCase (cs : List Child) : Str :=
  match cs.filter isAdposition with
  | [a] => if a.hasFixed then [] else get a.feats cCase
  | _ => []

/-- The case of the first modifier with a case (lines 34-36); '' if there is none -/
def modCase (cs : List Child) : Str :=
  match cs.filter fun x => (x.udeprel = ['a', 'm', 'o', 'd'] ∨ x.udeprel = ['d', 'e', 't']) ∧ get x.feats cCase ≠ [] with
  | x :: _ => get x.feats cCase
  | [] => []

/-- Lines 38-42 -/
def relCase (r : Str) : Str := if r = nsubj then vNom else if r = obj then vAcc else []

def setCase (v : Str) (m : D) : D := if v ≠ [] then set m msfCase v else m

/-- Lines 23-42 -/
def guessCase (w : Word) (m : D) : D :=
  let m := if get w.feats cCase = [] then setCase (adpCase w.children) m else m
  let m := if get m msfCase = [] then setCase (modCase w.children) m else m
  if get m msfCase = [] then setCase (relCase w.udeprel) m else m

/-- `re.match(r"^Phrase[A-Z]", x)` -/
def isPhrase (k : Str) : Bool :=
  phrase.isPrefixOf k && match k.drop 6 with
    | c :: _ => decide ('A' ≤ c ∧ c ≤ 'Z')
    | [] => false

/-- `re.sub(r"Phrase", 'MSF', pf)`, after skipping characters of a match -/
def subPhrase : Nat → Str → Str
  | _, [] => []
  | n + 1, _ :: s => subPhrase n s
  | 0, c :: s => if phrase.isPrefixOf (c :: s) then msf ++ subPhrase 5 s else c :: subPhrase 0 s

/-- Lines 47-51 -/
def msfName (pf : Str) : Str := if pf = phraseForm then msfVerbForm else subPhrase 0 pf

/-- Lines 45-53 -/
def phrases (m : D) : D :=
  ((keys m).filter isPhrase).foldl (fun m pf => set (set m (msfName pf) (get m pf)) pf []) m

/-- `Init.process_node` -/
def init (w : Word) : D := phrases (guessCase w (copyFeats w.feats w.misc))

/-! ## Facts about Init -/

theorem msf_append_inj {a b : Str} (h : msf ++ a = msf ++ b) : a = b := List.append_cancel_left h

theorem get_copy (feats misc : D) (k : Str) (f : Str) :
    (get (copyFeats feats misc) (msf ++ f) = if f ∈ keys feats ∧ f ∉ skipped then get feats f else get misc (msf ++ f)) ∧
    ((∀ g, k ≠ msf ++ g) → get (copyFeats feats misc) k = get misc k) := by
  have gen : ∀ (l : List Str) (m : D),
      (get (l.foldl (fun m f => if f ∈ skipped then m else set m (msf ++ f) (get feats f)) m) (msf ++ f) =
        if f ∈ l ∧ f ∉ skipped then get feats f else get m (msf ++ f)) ∧
      ((∀ g, k ≠ msf ++ g) →
        get (l.foldl (fun m f => if f ∈ skipped then m else set m (msf ++ f) (get feats f)) m) k = get m k) := by
    intro l
    induction l with
    | nil => intro m; exact ⟨by simp, fun _ => rfl⟩
    | cons g l ih =>
      intro m
      rw [List.foldl_cons]
      refine ⟨?_, fun hk => ?_⟩
      · rw [(ih _).1]
        by_cases hg : g ∈ skipped
        · rw [if_pos hg]
          by_cases hfg : f = g
          · subst hfg; simp [hg]
          · simp [hfg]
        · rw [if_neg hg, get_set]
          by_cases hfg : f = g
          · subst hfg; simp [hg]
          · have : ¬ msf ++ f = msf ++ g := fun h => hfg (msf_append_inj h)
            simp [hfg, this]
      · rw [(ih _).2 hk]
        by_cases hg : g ∈ skipped
        · rw [if_pos hg]
        · rw [if_neg hg, get_set, if_neg (hk g)]
  exact gen (keys feats) misc

theorem get_setCase (v k : Str) (m : D) : get (setCase v m) k = if k = msfCase ∧ v ≠ [] then v else get m k := by
  unfold setCase
  by_cases hv : v = []
  · simp [hv]
  · rw [if_pos hv, get_set]; simp [hv]

/-- the first value which is not '' -/
def firstOf : List Str → Str
  | [] => []
  | v :: vs => if v = [] then firstOf vs else v

theorem get_guess (w : Word) (m : D) (k : Str) :
    get (guessCase w m) k =
      if k = msfCase then
        firstOf [if get w.feats cCase = [] then adpCase w.children else [], get m msfCase, modCase w.children, relCase w.udeprel]
      else get m k := by
  unfold guessCase
  by_cases hk : k = msfCase
  · subst hk
    rw [if_pos rfl]
    by_cases h0 : get w.feats cCase = []
    · simp only [if_pos h0, get_setCase, firstOf]
      by_cases h1 : adpCase w.children = []
      · simp only [h1, ne_eq, not_true_eq_false, and_false, if_false, if_true]
        by_cases h2 : get m msfCase = []
        · simp only [h2, if_true, get_setCase]
          by_cases h3 : modCase w.children = []
          · simp only [h3, ne_eq, not_true_eq_false, and_false, if_false, if_true, h2, get_setCase]
            by_cases h4 : relCase w.udeprel = []
            · simp [h4]
            · simp [h4]
          · simp [h3, get_setCase]
        · simp [h2, get_setCase]
      · simp [h1, get_setCase]
    · simp only [if_neg h0, firstOf]
      by_cases h2 : get m msfCase = []
      · simp only [h2, if_true, get_setCase]
        by_cases h3 : modCase w.children = []
        · simp only [h3, ne_eq, not_true_eq_false, and_false, if_false, if_true, h2, get_setCase]
          by_cases h4 : relCase w.udeprel = []
          · simp [h4]
          · simp [h4]
        · simp [h3, get_setCase]
      · simp [h2]
  · rw [if_neg hk]
    have e : ∀ (v : Str) (m' : D), get (setCase v m') k = get m' k := by
      intro v m'
      rw [get_setCase, if_neg (fun h => hk h.1)]
    simp only []
    (repeat' split) <;> simp only [e]

theorem isPhrase_head {k : Str} (h : isPhrase k = true) : ∃ r, k = phrase ++ r := by
  unfold isPhrase at h
  rw [Bool.and_eq_true] at h
  obtain ⟨r, hr⟩ := List.isPrefixOf_iff_prefix.mp h.1
  exact ⟨r, hr.symm⟩

theorem not_phrase_msf (r : Str) : isPhrase (msf ++ r) = false := by
  unfold isPhrase phrase msf
  simp [List.isPrefixOf]

theorem msfName_msf {p : Str} (h : isPhrase p = true) : ∃ r, msfName p = msf ++ r := by
  obtain ⟨r, rfl⟩ := isPhrase_head h
  unfold msfName
  split
  · exact ⟨['V', 'e', 'r', 'b', 'F', 'o', 'r', 'm'], rfl⟩
  · refine ⟨subPhrase 0 r, ?_⟩
    have : phrase ++ r = 'P' :: ('h' :: 'r' :: 'a' :: 's' :: 'e' :: r) := rfl
    rw [this, subPhrase, if_pos (by simp [phrase, List.isPrefixOf])]
    simp [subPhrase]

theorem msfName_not_phrase {p q : Str} (h : isPhrase p = true) (hq : isPhrase q = true) : msfName p ≠ q := by
  obtain ⟨r, hr⟩ := msfName_msf h
  intro he
  rw [← he, hr, not_phrase_msf] at hq
  cases hq

/-- what the loop over the Phrase attributes does -/
theorem get_phrase_loop (m0 : D) : ∀ (l : List Str) (m : D), (∀ p ∈ l, isPhrase p = true) → l.Nodup →
    (∀ p ∈ l, get m p = get m0 p) →
    let r := l.foldl (fun m pf => set (set m (msfName pf) (get m pf)) pf []) m
    (∀ p ∈ l, get r p = [] ∧ p ∉ keys r) ∧
    (∀ k, k ∉ l → (∀ p ∈ l, msfName p ≠ k) → get r k = get m k ∧ (k ∈ keys r ↔ k ∈ keys m)) ∧
    (∀ l1 p l2, l = l1 ++ p :: l2 → (∀ q ∈ l2, msfName q ≠ msfName p) → get r (msfName p) = get m0 p) := by
  intro l
  induction l with
  | nil =>
    intro m _ _ _
    exact ⟨fun p h => (nomatch h), fun k _ _ => ⟨rfl, Iff.rfl⟩, fun l1 p l2 h => by simp at h⟩
  | cons a l ih =>
    intro m hp hnd hm
    rw [List.foldl_cons]
    have ha := hp a (by simp)
    have hnd' := List.nodup_cons.mp hnd
    have hne : ∀ q ∈ l, q ≠ a := fun q hq h => hnd'.1 (h ▸ hq)
    have hstep : ∀ k, k ≠ a → k ≠ msfName a → get (set (set m (msfName a) (get m a)) a []) k = get m k := by
      intro k h1 h2
      rw [get_set, if_neg h1, get_set, if_neg h2]
    have hkeys : ∀ k, k ≠ a → k ≠ msfName a → (k ∈ keys (set (set m (msfName a) (get m a)) a []) ↔ k ∈ keys m) := by
      intro k h1 h2
      rw [keys_set, if_neg h1, keys_set, if_neg h2]
    obtain ⟨i1, i2, i3⟩ := ih (set (set m (msfName a) (get m a)) a []) (fun p h => hp p (List.mem_cons_of_mem _ h)) hnd'.2 (by
      intro p h
      rw [hstep p (hne p h) (fun e => msfName_not_phrase ha (hp p (List.mem_cons_of_mem _ h)) e.symm)]
      exact hm p (List.mem_cons_of_mem _ h))
    refine ⟨?_, ?_, ?_⟩
    · intro p h
      rcases List.mem_cons.mp h with h | h
      · subst h
        obtain ⟨j1, j2⟩ := i2 p hnd'.1 (fun q hq => msfName_not_phrase (hp q (List.mem_cons_of_mem _ hq)) ha)
        refine ⟨?_, ?_⟩
        · rw [j1, get_set, if_pos rfl]
        · rw [j2, keys_set, if_pos rfl]
          exact fun h => h rfl
      · exact i1 p h
    · intro k hk hn
      have h1 : k ≠ a := fun h => hk (by simp [h])
      have h2 : k ≠ msfName a := fun h => hn a (by simp) h.symm
      obtain ⟨j1, j2⟩ := i2 k (fun h => hk (List.mem_cons_of_mem _ h)) (fun p h => hn p (List.mem_cons_of_mem _ h))
      exact ⟨j1.trans (hstep k h1 h2), j2.trans (hkeys k h1 h2)⟩
    · intro l1 p l2 he hl
      cases l1 with
      | nil =>
        rw [List.nil_append, List.cons.injEq] at he
        obtain ⟨e1, e2⟩ := he
        subst e1
        subst e2
        have hnl : msfName a ∉ l := fun h => msfName_not_phrase ha (hp _ (List.mem_cons_of_mem _ h)) rfl
        rw [(i2 (msfName a) hnl hl).1, get_set, if_neg (msfName_not_phrase ha ha), get_set, if_pos rfl]
        exact hm a (by simp)
      | cons b l1 =>
        rw [List.cons_append, List.cons.injEq] at he
        exact i3 l1 p l2 he.2 hl

theorem keys_setCase {v k : Str} {m : D} (hk : k ≠ msfCase) : k ∈ keys (setCase v m) ↔ k ∈ keys m := by
  unfold setCase
  split
  · rw [keys_set, if_neg hk]
  · exact Iff.rfl

theorem keys_guess {w : Word} {k : Str} {m : D} (hk : k ≠ msfCase) : k ∈ keys (guessCase w m) ↔ k ∈ keys m := by
  unfold guessCase
  simp only []
  (repeat' split) <;> simp only [keys_setCase hk]

theorem keys_copy {feats misc : D} {k : Str} (hk : ∀ g, k ≠ msf ++ g) : k ∈ keys (copyFeats feats misc) ↔ k ∈ keys misc := by
  unfold copyFeats
  generalize keys feats = l
  induction l generalizing misc with
  | nil => exact Iff.rfl
  | cons g l ih =>
    rw [List.foldl_cons, ih]
    split
    · exact Iff.rfl
    · rw [keys_set, if_neg (hk g)]

theorem nodup_put {d : D} {k v : Str} (h : (keys d).Nodup) : (keys (put d k v)).Nodup := by
  induction d with
  | nil => simp [put, keys]
  | cons p d ih =>
    rw [put]
    have hc := List.nodup_cons.mp (show (p.1 :: keys d).Nodup from h)
    split
    · exact h
    · rename_i hp
      refine List.nodup_cons.mpr ⟨?_, ih hc.2⟩
      intro hm
      rcases keys_put.mp hm with h' | h'
      · exact hc.1 h'
      · exact hp h'

theorem nodup_set {d : D} {k v : Str} (h : (keys d).Nodup) : (keys (set d k v)).Nodup := by
  unfold set
  split
  · exact List.Nodup.sublist (List.filter_sublist.map _) h
  · exact nodup_put h

theorem nodup_copy {feats misc : D} (h : (keys misc).Nodup) : (keys (copyFeats feats misc)).Nodup := by
  unfold copyFeats
  generalize keys feats = l
  induction l generalizing misc with
  | nil => exact h
  | cons g l ih =>
    rw [List.foldl_cons]
    apply ih
    split
    · exact h
    · exact nodup_set h

theorem nodup_setCase {v : Str} {m : D} (h : (keys m).Nodup) : (keys (setCase v m)).Nodup := by
  unfold setCase
  split
  · exact nodup_set h
  · exact h

theorem nodup_guess {w : Word} {m : D} (h : (keys m).Nodup) : (keys (guessCase w m)).Nodup := by
  unfold guessCase
  simp only []
  (repeat' split) <;> (repeat apply nodup_setCase) <;> exact h

/-- what Init does in terms of the loop -/
theorem init_loop (w : Word) (h : (keys w.misc).Nodup) :
    let m := guessCase w (copyFeats w.feats w.misc)
    let l := (keys m).filter isPhrase
    (∀ p, p ∈ l ↔ p ∈ keys w.misc ∧ isPhrase p = true) ∧ l.Nodup ∧ (∀ p ∈ l, get m p = get w.misc p) := by
  have hp : ∀ p, isPhrase p = true → (∀ g, p ≠ msf ++ g) ∧ p ≠ msfCase := by
    intro p h
    have h1 : ∀ g, p ≠ msf ++ g := by
      intro g he
      rw [he, not_phrase_msf] at h
      cases h
    exact ⟨h1, fun he => h1 cCase he⟩
  refine ⟨fun p => ?_, (nodup_guess (nodup_copy h)).filter _, fun p hm => ?_⟩
  · rw [List.mem_filter]
    constructor
    · rintro ⟨h1, h2⟩
      exact ⟨(keys_copy (hp p h2).1).mp ((keys_guess (hp p h2).2).mp h1), h2⟩
    · rintro ⟨h1, h2⟩
      exact ⟨(keys_guess (hp p h2).2).mpr ((keys_copy (hp p h2).1).mpr h1), h2⟩
  · have h2 := (List.mem_filter.mp hm).2
    rw [get_guess, if_neg (hp p h2).2, (get_copy w.feats w.misc p []).2 (hp p h2).1]

theorem get_init (w : Word) (h : (keys w.misc).Nodup) (k : Str) (hk : isPhrase k = false)
    (hn : ∀ p ∈ keys w.misc, isPhrase p = true → msfName p ≠ k) :
    get (init w) k = get (guessCase w (copyFeats w.feats w.misc)) k := by
  obtain ⟨h1, h2, h3⟩ := init_loop w h
  have h := (get_phrase_loop w.misc _ _ (fun p hp => ((h1 p).mp hp).2) h2 h3).2.1 k
    (fun hm => by rw [((h1 k).mp hm).2] at hk; cases hk)
    (fun p hp => hn p ((h1 p).mp hp).1 ((h1 p).mp hp).2)
  exact h.1

/-- C203: every feature but eight is copied, if no Phrase attribute has the same MSF name. -/
theorem C203_features (w : Word) (h : (keys w.misc).Nodup) (f : Str) (hf : f ∈ keys w.feats) (hv : get w.feats f ≠ []) (hs : f ∉ skipped)
    (hn : ∀ p ∈ keys w.misc, isPhrase p = true → msfName p ≠ msf ++ f) : get (init w) (msf ++ f) = get w.feats f := by
  rw [get_init w h _ (not_phrase_msf f) hn, get_guess]
  by_cases hc : msf ++ f = msfCase
  · have : f = cCase := msf_append_inj (b := cCase) hc
    subst this
    rw [if_pos hc, if_neg hv]
    have h1 : get (copyFeats w.feats w.misc) msfCase = get w.feats cCase := by
      have := (get_copy w.feats w.misc [] cCase).1
      rw [if_pos ⟨hf, hs⟩] at this
      exact this
    simp [firstOf, h1, hv]
  · rw [if_neg hc, (get_copy w.feats w.misc [] f).1, if_pos ⟨hf, hs⟩]

/-- C203: the case of a word without the feature: that of its only adposition, or the one known before, or that of its first modifier with a case, or the one given
by its relation. -/
theorem C203_case (w : Word) (h : (keys w.misc).Nodup) (hf : cCase ∉ keys w.feats) (hg : get w.feats cCase = [])
    (hn : ∀ p ∈ keys w.misc, isPhrase p = true → msfName p ≠ msfCase) :
    get (init w) msfCase = firstOf [adpCase w.children, get w.misc msfCase, modCase w.children,
      if w.udeprel = nsubj then vNom else if w.udeprel = obj then vAcc else []] := by
  rw [get_init w h msfCase (not_phrase_msf cCase) hn, get_guess, if_pos rfl, if_pos hg]
  have h1 : get (copyFeats w.feats w.misc) msfCase = get w.misc msfCase := by
    have := (get_copy w.feats w.misc [] cCase).1
    rw [if_neg (fun h => hf h.1)] at this
    exact this
  rw [h1, relCase]

/-- C203: an adposition helps if it is the only one and has no `fixed` children. -/
theorem C203_adposition (cs : List Child) (v : Str) (hv : v ≠ []) :
    adpCase cs = v ↔ ∃ a, cs.filter isAdposition = [a] ∧ a.hasFixed = false ∧ get a.feats cCase = v := by
  unfold adpCase
  split
  · rename_i a ha
    rw [ha]
    cases hf : a.hasFixed
    · simp [hf]
    · simp [hf, hv.symm]
  · rename_i hne
    constructor
    · exact fun h => absurd h.symm hv
    · rintro ⟨a, ha, _⟩
      exact absurd ha (hne a)

/-- C203: the Phrase attributes are removed. -/
theorem C203_no_phrase (w : Word) (h : (keys w.misc).Nodup) (k : Str) (hk : k ∈ keys (init w)) : isPhrase k = false := by
  obtain ⟨h1, h2, h3⟩ := init_loop w h
  have hl := get_phrase_loop w.misc _ _ (fun p hp => ((h1 p).mp hp).2) h2 h3
  by_cases hp : isPhrase k = true
  · by_cases hm : k ∈ keys w.misc
    · exact absurd hk (hl.1 k ((h1 k).mpr ⟨hm, hp⟩)).2
    · have hnl : k ∉ (keys (guessCase w (copyFeats w.feats w.misc))).filter isPhrase := fun hc => hm ((h1 k).mp hc).1
      have := (hl.2.1 k hnl (fun p hpl => msfName_not_phrase ((h1 p).mp hpl).2 hp)).2.mp hk
      exact absurd (List.mem_filter.mpr ⟨this, hp⟩) hnl
  · simpa using hp

/-- C203: they replace the MSF attributes: the value of a Phrase attribute becomes the value of the MSF attribute of that name, if it is the only one of the name. -/
theorem C203_phrase (w : Word) (h : (keys w.misc).Nodup) (p : Str) (hp : p ∈ keys w.misc) (hpp : isPhrase p = true)
    (hu : ∀ q ∈ keys w.misc, isPhrase q = true → msfName q = msfName p → q = p) :
    get (init w) (msfName p) = get w.misc p := by
  obtain ⟨h1, h2, h3⟩ := init_loop w h
  have hl := get_phrase_loop w.misc _ _ (fun p hp => ((h1 p).mp hp).2) h2 h3
  obtain ⟨l1, l2, he⟩ := List.append_of_mem ((h1 p).mpr ⟨hp, hpp⟩)
  refine hl.2.2 l1 p l2 he fun q hq hn => ?_
  have hql : q ∈ (keys (guessCase w (copyFeats w.feats w.misc))).filter isPhrase := by
    rw [he]; exact List.mem_append_right _ (List.mem_cons_of_mem _ hq)
  have := hu q ((h1 q).mp hql).1 ((h1 q).mp hql).2 hn
  subst this
  have hnd := h2
  rw [he, List.nodup_append] at hnd
  exact (List.nodup_cons.mp hnd.2.1).1 hq

theorem subPhrase_id (r : Str) (h : ∀ a b, r = a ++ b → phrase.isPrefixOf b = false) : subPhrase 0 r = r := by
  induction r with
  | nil => rfl
  | cons c r ih =>
    rw [subPhrase, if_neg (by rw [h [] (c :: r) rfl]; simp), ih (fun a b e => h (c :: a) b (by rw [e]; rfl))]

/-- C203: the names: PhraseForm becomes MSFVerbForm, any other PhraseX becomes MSFX (if X does not contain "Phrase"). -/
theorem C203_names (r : Str) (h : ∀ a b, r = a ++ b → phrase.isPrefixOf b = false) :
    msfName phraseForm = msfVerbForm ∧ (phrase ++ r ≠ phraseForm → msfName (phrase ++ r) = msf ++ r) := by
  refine ⟨if_pos rfl, fun hn => ?_⟩
  rw [msfName, if_neg hn]
  have : phrase ++ r = 'P' :: ('h' :: 'r' :: 'a' :: 's' :: 'e' :: r) := rfl
  rw [this, subPhrase, if_pos (by simp [phrase, List.isPrefixOf])]
  simp [subPhrase, subPhrase_id r h]

/-- C203: the other attributes stay as they are. -/
theorem C203_others (w : Word) (h : (keys w.misc).Nodup) (k : Str) (hk : isPhrase k = false) (hm : ∀ g, k ≠ msf ++ g) :
    get (init w) k = get w.misc k := by
  rw [get_init w h k hk (fun p _ hpp he => by
    obtain ⟨r, hr⟩ := msfName_msf hpp
    exact hm r (he ▸ hr)), get_guess, if_neg (show ¬ k = msfCase from hm cCase), (get_copy w.feats w.misc k []).2 hm]

theorem nodup_phrases {m : D} (h : (keys m).Nodup) : (keys (phrases m)).Nodup := by
  unfold phrases
  generalize (keys m).filter isPhrase = l
  induction l generalizing m with
  | nil => exact h
  | cons p l ih =>
    rw [List.foldl_cons]
    exact ih (nodup_set (nodup_set h))

theorem nodup_init {w : Word} (h : (keys w.misc).Nodup) : (keys (init w)).Nodup := nodup_phrases (nodup_guess (nodup_copy h))

/-- C203 is violated: the block is not idempotent. Where a Phrase attribute differs from the feature of the same name, the first run takes the attribute and the
second one the feature. -/
theorem C203_idempotent_violated (w : Word) (h : (keys w.misc).Nodup) (p f : Str) (hp : p ∈ keys w.misc) (hpp : isPhrase p = true)
    (hu : ∀ q ∈ keys w.misc, isPhrase q = true → msfName q = msfName p → q = p) (hname : msfName p = msf ++ f)
    (hf : f ∈ keys w.feats) (hv : get w.feats f ≠ []) (hs : f ∉ skipped) (hd : get w.misc p ≠ get w.feats f) :
    get (init w) (msf ++ f) = get w.misc p ∧ get (init { w with misc := init w }) (msf ++ f) = get w.feats f ∧
      init { w with misc := init w } ≠ init w := by
  have e1 : get (init w) (msf ++ f) = get w.misc p := hname ▸ C203_phrase w h p hp hpp hu
  have e2 : get (init { w with misc := init w }) (msf ++ f) = get w.feats f :=
    C203_features { w with misc := init w } (nodup_init h) f hf hv hs (fun q hq hqp => by
      have := C203_no_phrase w h q hq
      rw [this] at hqp
      cases hqp)
  refine ⟨e1, e2, fun he => hd ?_⟩
  rw [← e1, ← e2, he]

/-- C203: without Phrase attributes, the second run changes no value. -/
theorem C203_idempotent_partial (w : Word) (h : (keys w.misc).Nodup) (hn : ∀ p ∈ keys w.misc, isPhrase p = false)
    (hv : ∀ f ∈ keys w.feats, get w.feats f ≠ []) (hg : cCase ∉ keys w.feats → get w.feats cCase = []) (k : Str) :
    get (init { w with misc := init w }) k = get (init w) k := by
  have hn' : ∀ p ∈ keys (init w), isPhrase p = true → msfName p ≠ k := fun p hp hpp => by
    have := C203_no_phrase w h p hp
    rw [this] at hpp
    cases hpp
  have hnw : ∀ p ∈ keys w.misc, isPhrase p = true → ∀ k, msfName p ≠ k := fun p hp hpp => by
    rw [hn p hp] at hpp
    cases hpp
  cases hk : isPhrase k with
  | true =>
    have h0 : ∀ g, k ≠ msf ++ g := fun g he => by rw [he, not_phrase_msf] at hk; cases hk
    have z : ∀ (v : Word), (keys v.misc).Nodup → get (init v) k = [] := by
      intro v hvn
      have hmem := C203_no_phrase v hvn k
      have hnot : k ∉ keys (init v) := fun hm => by rw [hmem hm] at hk; cases hk
      have : ∀ (d : D), k ∉ keys d → get d k = [] := by
        intro d
        induction d with
        | nil => intro _; rfl
        | cons p d ih =>
          intro hm
          rw [get, if_neg (fun e => hm (by simp [keys, e]))]
          exact ih (fun hm' => hm (List.mem_cons_of_mem _ hm'))
      exact this _ hnot
    rw [z w h, z { w with misc := init w } (nodup_init h)]
  | false =>
    by_cases hm : ∃ g, k = msf ++ g
    · obtain ⟨f, rfl⟩ := hm
      by_cases hf : f ∈ keys w.feats ∧ f ∉ skipped
      · rw [C203_features w h f hf.1 (hv f hf.1) hf.2 (fun p hp hpp => hnw p hp hpp _),
          C203_features { w with misc := init w } (nodup_init h) f hf.1 (hv f hf.1) hf.2 hn']
      · by_cases hc : f = cCase
        · subst hc
          have hcf : cCase ∉ keys w.feats := fun hm => hf ⟨hm, by decide⟩
          have e1 := C203_case w h hcf (hg hcf) (fun p hp hpp => hnw p hp hpp _)
          have e2 := C203_case { w with misc := init w } (nodup_init h) hcf (hg hcf) hn'
          change get _ msfCase = get _ msfCase
          rw [e2]
          simp only [e1]
          generalize adpCase w.children = a
          generalize get w.misc msfCase = b
          generalize modCase w.children = c
          generalize (if w.udeprel = nsubj then vNom else if w.udeprel = obj then vAcc else []) = d
          by_cases ha : a = [] <;> by_cases hb : b = [] <;> by_cases hcc : c = [] <;> by_cases hdd : d = [] <;>
            simp [firstOf, ha, hb, hcc, hdd]
        · have hne : msf ++ f ≠ msfCase := fun he => hc (msf_append_inj (b := cCase) he)
          rw [get_init { w with misc := init w } (nodup_init h) _ (not_phrase_msf f) hn', get_guess, if_neg hne,
            (get_copy w.feats (init w) [] f).1, if_neg hf]
    · have hm' : ∀ g, k ≠ msf ++ g := fun g he => hm ⟨g, he⟩
      exact C203_others { w with misc := init w } (nodup_init h) k hk hm'

/-! ## CreateAbstract, RemoveFunc and NumPhrase -/

def fin : Str := ['F', 'i', 'n']
def yes : Str := ['Y', 'e', 's']
def csubj : Str := ['c', 's', 'u', 'b', 'j']
def msfFunc : Str := ['M', 'S', 'F', 'F', 'u', 'n', 'c']

/-- The agreement features (createabstract.py:22 and 35) -/
def agreement : List Str :=
  [['N', 'u', 'm', 'b', 'e', 'r'], ['P', 'e', 'r', 's', 'o', 'n'], ['G', 'e', 'n', 'd', 'e', 'r'], ['A', 'n', 'i', 'm', 'a', 'c', 'y'],
   ['P', 'o', 'l', 'i', 't', 'e']]

/-- An abstract node: its (enhanced) parent, relation, FEATS and MISC -/
structure Abstract where
  parent : Nat
  deprel : Str
  feats : D
  misc : D

/-- Lines 28-42 -/
def abstract (parent : Nat) (misc : D) : Abstract :=
  let pron : Str := ['P', 'r', 'o', 'n', 'T', 'y', 'p', 'e']
  let prs : Str := ['P', 'r', 's']
  let p := agreement.foldl (fun p f =>
      if get misc (msf ++ f) ≠ [] then (set p.1 f (get misc (msf ++ f)), set p.2 (msf ++ f) (get misc (msf ++ f))) else p)
    (set (set [] pron prs) cCase vNom, set (set [] (msf ++ pron) prs) msfCase vNom)
  ⟨parent, nsubj, p.1, set p.2 msfFunc ['N', 'o']⟩

structure Tree where
  misc : Nat → D
  empties : List Abstract

/-- `re.match(r"^[nc]subj", r)` -/
def subjLike (r : Str) : Bool := nsubj.isPrefixOf r || csubj.isPrefixOf r

/-- The condition of line 22 -/
def finite (m : D) : Bool :=
  decide (get m msfVerbForm = fin) && agreement.any fun f => decide (get m (msf ++ f) ≠ [])

/-- `CreateAbstract.process_node` (lines 13-50); `childRels` are the `udeprel`s of the children and `ownRels` the relations in `node.deps`. -/
def create (childRels ownRels : Nat → List Str) (t : Tree) (x : Nat) : Tree :=
  if finite (t.misc x) then
    let es := if (childRels x).any (fun r => decide (r = nsubj ∨ r = csubj)) then t.empties else
      if (ownRels x).any subjLike then t.empties else t.empties ++ [abstract x (t.misc x)]
    { misc := fun y => if y = x then agreement.foldl (fun m f => set m (msf ++ f) []) (t.misc x) else t.misc y, empties := es }
  else t

/-- `RemoveFunc.process_node` -/
def removeFunc (m : D) : D :=
  if get m msfFunc = yes then ((keys m).filter fun k => msf.isPrefixOf k).foldl (fun m k => set m k []) m else m

/-- `NumPhrase.process_node`; `quants` are the quantifiers among the children, in order, and the result is the new MISC of the node. -/
def numPhrase (w : Word) (quants : List Child) : D :=
  let cur := get w.misc msfCase
  match quants with
  | [] => w.misc
  | q :: _ =>
    if cur = vGen ∨ cur = [] then
      let c := get q.misc msfCase
      let c := if c = [] then adpCase w.children else c
      let c := if c = [] then relCase w.udeprel else c
      set w.misc msfCase c
    else w.misc

theorem get_clear (l : List Str) (m : D) (k : Str) :
    get (l.foldl (fun m k => set m k []) m) k = if k ∈ l then [] else get m k := by
  induction l generalizing m with
  | nil => simp
  | cons a l ih =>
    rw [List.foldl_cons, ih, get_set]
    by_cases h1 : k ∈ l <;> by_cases h2 : k = a <;> simp [h1, h2]

theorem get_clear_agreement (m : D) (k : Str) :
    get (agreement.foldl (fun m f => set m (msf ++ f) []) m) k = if k ∈ agreement.map (msf ++ ·) then [] else get m k := by
  rw [← get_clear, List.foldl_map]

/-- the values of the abstract node -/
theorem abstract_fold (misc : D) (l : List Str) (p : D × D) (f : Str) :
    get (l.foldl (fun p f => if get misc (msf ++ f) ≠ [] then
        (set p.1 f (get misc (msf ++ f)), set p.2 (msf ++ f) (get misc (msf ++ f))) else p) p).1 f =
      (if f ∈ l ∧ get misc (msf ++ f) ≠ [] then get misc (msf ++ f) else get p.1 f) ∧
    get (l.foldl (fun p f => if get misc (msf ++ f) ≠ [] then
        (set p.1 f (get misc (msf ++ f)), set p.2 (msf ++ f) (get misc (msf ++ f))) else p) p).2 (msf ++ f) =
      (if f ∈ l ∧ get misc (msf ++ f) ≠ [] then get misc (msf ++ f) else get p.2 (msf ++ f)) := by
  induction l generalizing p with
  | nil => simp
  | cons g l ih =>
    rw [List.foldl_cons]
    refine ⟨(ih _).1.trans ?_, (ih _).2.trans ?_⟩
    · by_cases hv : get misc (msf ++ g) = []
      · simp only [ne_eq, hv, not_true_eq_false, if_false]
        by_cases hfg : f = g
        · subst hfg; simp [hv]
        · simp [hfg]
      · simp only [ne_eq, hv, not_false_eq_true, if_true, get_set]
        by_cases hfg : f = g
        · subst hfg; simp [hv]
        · simp [hfg]
    · by_cases hv : get misc (msf ++ g) = []
      · simp only [ne_eq, hv, not_true_eq_false, if_false]
        by_cases hfg : f = g
        · subst hfg; simp [hv]
        · simp [hfg]
      · simp only [ne_eq, hv, not_false_eq_true, if_true, get_set]
        by_cases hfg : f = g
        · subst hfg; simp [hv]
        · have : ¬ msf ++ f = msf ++ g := fun h => hfg (msf_append_inj h)
          simp [hfg, this]

variable (childRels ownRels : Nat → List Str)

/-- C204: the features of an abstract subject are the agreement features of its verb. -/
theorem C204_subject (t : Tree) (x : Nat) (hf : finite (t.misc x) = true) (hc : ∀ r ∈ childRels x, r ≠ nsubj ∧ r ≠ csubj)
    (ho : ∀ r ∈ ownRels x, subjLike r = false) :
    ∃ a, (create childRels ownRels t x).empties = t.empties ++ [a] ∧ a.parent = x ∧ a.deprel = nsubj ∧
      ∀ f ∈ agreement, get a.feats f = get (t.misc x) (msf ++ f) ∧ get a.misc (msf ++ f) = get (t.misc x) (msf ++ f) := by
  refine ⟨abstract x (t.misc x), ?_, rfl, rfl, fun f hfa => ?_⟩
  · rw [create, if_pos hf]
    rw [if_neg (by
      rw [List.any_eq_true]
      rintro ⟨r, hr, h⟩
      rcases of_decide_eq_true h with h | h
      · exact (hc r hr).1 h
      · exact (hc r hr).2 h), if_neg (by
      rw [List.any_eq_true]
      rintro ⟨r, hr, h⟩
      rw [ho r hr] at h
      cases h)]
  · have hne : msf ++ f ≠ msfFunc ∧ msf ++ f ≠ msfCase ∧ msf ++ f ≠ msf ++ ['P', 'r', 'o', 'n', 'T', 'y', 'p', 'e'] ∧ f ≠ cCase ∧
        f ≠ ['P', 'r', 'o', 'n', 'T', 'y', 'p', 'e'] := by
      revert f
      decide
    unfold abstract
    simp only []
    have hab := abstract_fold (t.misc x) agreement
      (set (set [] ['P', 'r', 'o', 'n', 'T', 'y', 'p', 'e'] ['P', 'r', 's']) cCase vNom,
       set (set [] (msf ++ ['P', 'r', 'o', 'n', 'T', 'y', 'p', 'e']) ['P', 'r', 's']) msfCase vNom) f
    refine ⟨hab.1.trans ?_, ?_⟩
    · by_cases hv : get (t.misc x) (msf ++ f) = []
      · rw [if_neg (fun h => h.2 hv), hv]
        rw [get_set, if_neg hne.2.2.2.1, get_set, if_neg hne.2.2.2.2]; rfl
      · rw [if_pos ⟨hfa, hv⟩]
    · rw [get_set, if_neg hne.1]
      refine hab.2.trans ?_
      by_cases hv : get (t.misc x) (msf ++ f) = []
      · rw [if_neg (fun h => h.2 hv), hv]
        rw [get_set, if_neg hne.2.1, get_set, if_neg hne.2.2.1]; rfl
      · rw [if_pos ⟨hfa, hv⟩]

/-- C204: the finite verb loses its agreement features, and nothing else is changed. -/
theorem C204_verb (t : Tree) (x : Nat) (hf : finite (t.misc x) = true) (k : Str) :
    get ((create childRels ownRels t x).misc x) k = (if k ∈ agreement.map (msf ++ ·) then [] else get (t.misc x) k) ∧
    ∀ y, y ≠ x → (create childRels ownRels t x).misc y = t.misc y := by
  rw [create, if_pos hf]
  refine ⟨?_, fun y hy => by simp [hy]⟩
  simp only [if_true]
  exact get_clear_agreement _ _

/-- C204: a word with a subject, nominal or clausal, and a word which is no finite verb get no abstract subject. -/
theorem C204_none (t : Tree) (x : Nat) (h : finite (t.misc x) = false ∨ nsubj ∈ childRels x ∨ csubj ∈ childRels x) :
    (create childRels ownRels t x).empties = t.empties := by
  rw [create]
  split
  · rename_i hf
    have : (childRels x).any (fun r => decide (r = nsubj ∨ r = csubj)) = true := by
      rcases h with h | h | h
      · rw [hf] at h; cases h
      · exact List.any_eq_true.mpr ⟨_, h, by decide⟩
      · exact List.any_eq_true.mpr ⟨_, h, by decide⟩
    simp only [this, if_true]
  · rfl

/-- C204: a word is no finite verb after the block, so that a second run creates nothing. -/
theorem C204_once (t : Tree) (x : Nat) :
    finite ((create childRels ownRels t x).misc x) = false ∧
      create childRels ownRels (create childRels ownRels t x) x = create childRels ownRels t x := by
  have h : finite ((create childRels ownRels t x).misc x) = false := by
    cases hf : finite (t.misc x)
    · rw [create, if_neg (by simp [hf])]; exact hf
    · have hz : ∀ f ∈ agreement, get ((create childRels ownRels t x).misc x) (msf ++ f) = [] := by
        intro f hm
        rw [(C204_verb childRels ownRels t x hf _).1, if_pos (List.mem_map_of_mem hm)]
      unfold finite
      rw [Bool.and_eq_false_iff]
      right
      rw [List.any_eq_false]
      intro f hm
      simp [hz f hm]
  refine ⟨h, ?_⟩
  conv => lhs; rw [create]
  rw [if_neg (by simp [h])]

/-- C204 is violated: a finite verb which is itself a subject (a clausal one) gets no abstract subject, though it has none, and loses its features. -/
theorem C204_clausal_violated (t : Tree) (x : Nat) (r : Str) (hr : r ∈ ownRels x) (hs : subjLike r = true) :
    (create childRels ownRels t x).empties = t.empties := by
  rw [create]
  split
  · simp only []
    split
    · rfl
    · rw [if_pos (List.any_eq_true.mpr ⟨r, hr, hs⟩)]
  · rfl

/-- C204 is violated: an abstract subject which is already there is not seen, and there are two. -/
theorem C204_existing_violated (t : Tree) (x : Nat) (e : Abstract) (he : e ∈ t.empties) (hp : e.parent = x) (hd : e.deprel = nsubj)
    (hf : finite (t.misc x) = true) (hc : ∀ r ∈ childRels x, r ≠ nsubj ∧ r ≠ csubj) (ho : ∀ r ∈ ownRels x, subjLike r = false) :
    2 ≤ ((create childRels ownRels t x).empties.filter fun a => decide (a.parent = x ∧ a.deprel = nsubj)).length := by
  obtain ⟨a, h1, h2, h3, _⟩ := C204_subject childRels ownRels t x hf hc ho
  rw [h1, List.filter_append, List.length_append]
  have k1 : 0 < (t.empties.filter fun a => decide (a.parent = x ∧ a.deprel = nsubj)).length :=
    List.length_pos_of_mem (List.mem_filter.mpr ⟨he, by simp [hp, hd]⟩)
  have k2 : ([a].filter fun a => decide (a.parent = x ∧ a.deprel = nsubj)).length = 1 := by simp [h2, h3]
  omega

/-- C204: RemoveFunc deletes all MSF attributes of function words and no others; other words keep theirs. -/
theorem C204_function (m : D) (k : Str) :
    get (removeFunc m) k = if get m msfFunc = yes ∧ msf.isPrefixOf k = true then [] else get m k := by
  unfold removeFunc
  by_cases h : get m msfFunc = yes
  · rw [if_pos h, get_clear]
    by_cases hk : msf.isPrefixOf k = true
    · have hr : (if get m msfFunc = yes ∧ msf.isPrefixOf k = true then ([] : Str) else get m k) = [] := if_pos ⟨h, hk⟩
      rw [hr]
      split
      · rfl
      · rename_i hm
        have : ∀ (d : D), k ∉ keys d → get d k = [] := by
          intro d
          induction d with
          | nil => intro _; rfl
          | cons p d ih =>
            intro hm
            rw [get, if_neg (fun e => hm (by simp [keys, e]))]
            exact ih (fun hm' => hm (List.mem_cons_of_mem _ hm'))
        exact this m (fun hm' => hm (List.mem_filter.mpr ⟨hm', hk⟩))
    · rw [if_neg (fun hc => hk (List.mem_filter.mp hc).2), if_neg (fun hc => hk hc.2)]
  · rw [if_neg h, if_neg (fun hc => h hc.1)]

/-- C204: the case of a counted noun in genitive: that of the first quantifier, or of the only adposition, or the one given by the relation. -/
theorem C204_counted (w : Word) (q : Child) (qs : List Child) (hc : get w.misc msfCase = vGen ∨ get w.misc msfCase = []) (k : Str) :
    get (numPhrase w (q :: qs)) k =
      if k = msfCase then firstOf [get q.misc msfCase, adpCase w.children, relCase w.udeprel] else get w.misc k := by
  unfold numPhrase
  simp only [if_pos hc, get_set]
  by_cases hk : k = msfCase
  · rw [if_pos hk, if_pos hk]
    by_cases h1 : get q.misc msfCase = []
    · by_cases h2 : adpCase w.children = []
      · by_cases h3 : relCase w.udeprel = [] <;> simp [firstOf, h1, h2, h3]
      · simp [firstOf, h1, h2]
    · simp [firstOf, h1]
  · rw [if_neg hk, if_neg hk]

/-- C204: without quantifiers, or in another case, nothing is changed. -/
theorem C204_uncounted (w : Word) (qs : List Child) (h : qs = [] ∨ (get w.misc msfCase ≠ vGen ∧ get w.misc msfCase ≠ [])) :
    numPhrase w qs = w.misc := by
  unfold numPhrase
  cases qs with
  | nil => rfl
  | cons q qs =>
    rcases h with h | h
    · cases h
    · simp [h.1, h.2]

/-- C204 is violated: where nothing is known of the case of the quantifier, the counted noun loses the genitive. -/
theorem C204_counted_violated (w : Word) (q : Child) (qs : List Child) (hc : get w.misc msfCase = vGen)
    (h1 : get q.misc msfCase = []) (h2 : adpCase w.children = []) (h3 : w.udeprel ≠ nsubj ∧ w.udeprel ≠ obj) :
    get (numPhrase w (q :: qs)) msfCase = [] := by
  rw [C204_counted w q qs (Or.inl hc), if_pos rfl]
  simp [firstOf, h1, h2, relCase, h3.1, h3.2]

/-! ## Examples -/

def tense : Str := ['T', 'e', 'n', 's', 'e']

def exWord : Word :=
  { feats := [(tense, ['P']), (['T', 'y', 'p', 'o'], yes)], misc := [(phrase ++ tense, ['F']), (['G'], ['x'])], udeprel := obj,
    children := [⟨['d', 'e', 't'], [], [(cCase, vGen)], [], false⟩] }

example : init exWord = [(['G'], ['x']), (msf ++ tense, ['F']), (msfCase, vGen)] ∧
    init { exWord with misc := init exWord } = [(['G'], ['x']), (msf ++ tense, ['P']), (msfCase, vGen)] ∧
    init { exWord with children := [] } = [(['G'], ['x']), (msf ++ tense, ['F']), (msfCase, vAcc)] := by decide

def exTree : Tree :=
  { misc := fun x => if x = 1 then [(msfVerbForm, fin), (msf ++ ['N', 'u', 'm', 'b', 'e', 'r'], ['S'])] else [], empties := [] }

example : ((create (fun _ => []) (fun _ => []) exTree 1).empties.map fun a => (a.parent, get a.feats ['N', 'u', 'm', 'b', 'e', 'r'])) = [(1, ['S'])] ∧
    (create (fun _ => []) (fun _ => []) exTree 1).misc 1 = [(msfVerbForm, fin)] ∧
    (create (fun _ => []) (fun _ => [csubj]) exTree 1).empties.length = 0 ∧
    removeFunc [(msfFunc, yes), (['G'], ['x']), (msfCase, vGen)] = [(['G'], ['x'])] := by decide

end Verif.Blocks.Msf
