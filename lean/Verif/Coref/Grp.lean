import Verif.Py.Num
import Verif.Py.Str

/-!
# Property C171: ids that are unique in one `newdoc` only (udapi/core/coref.py:541-566, 339-349, 595-606, 648-656, 805-830, 886-890 and udapi/block/corefud/fixentityacrossnewdoc.py)

With `GRP` in `global.Entity` the ids in the file are `GRP` ids; in memory they are prefixed by the number of the `newdoc`. Only the ids of mentions are modelled: for each mention, the number of its tree
in the document and the id of its entity. How mentions are stored and loaded is in `Store.lean`. The pattern `\d` is for ASCII digits.
-/

namespace Verif.Coref.Grp
open Verif.Py

/-- The numbers in `tree2docid` (coref.py:560-568) for trees given by `tree.newdoc`; `highest` is `highest_doc_n`, `first` tells if `docid` is still empty. -/
def docNumbers : Nat → Bool → List Bool → List Nat
  | _, _, [] => []
  | highest, first, newdoc :: ts =>
    let n := if newdoc || first then highest + 1 else highest
    n :: docNumbers n false ts

/-- `highest_doc_n` afterwards -/
def highestAfter : Nat → Bool → List Bool → Nat
  | highest, _, [] => highest
  | highest, first, newdoc :: ts => highestAfter (if newdoc || first then highest + 1 else highest) false ts

/-- `f"d{highest_doc_n}."` followed by the id in the file (coref.py:567, 606, 655) -/
def full (n : Nat) (grp : Str) : Str := 'd' :: (natStr n ++ '.' :: grp)

def dig (c : Char) : Bool := 48 ≤ c.toNat && c.toNat ≤ 57

/-- `re.sub(r'^d\d+\.', '', eid)` (coref.py:808, 827, 890) -/
def strip (eid : Str) : Str :=
  match eid with
  | 'd' :: r =>
    match r.dropWhile dig with
    | '.' :: g => if r.takeWhile dig = [] then eid else g
    | _ => eid
  | _ => eid

/-- The prefix with the number `n`, `tree2docid[root]` -/
def prefixOf (n : Nat) : Str := full n []

/-- `eid_or_grp` (coref.py:339-349), `n` is the number of the tree of the first mention. -/
def eidOrGrp (n : Nat) (eid : Str) : Str := if (prefixOf n).isPrefixOf eid then eid.drop (prefixOf n).length else eid

/-- The ids of mentions when they are loaded (coref.py:648-656): mentions are pairs of the number of the tree and the id. -/
def load (highest : Nat) (trees : List Bool) (ms : List (Nat × Str)) : List (Nat × Str) := ms.map (fun m => (m.1, full ((docNumbers highest true trees).getD m.1 0) m.2))

/-- The ids of mentions when they are stored (coref.py:823-828) -/
def store (ms : List (Nat × Str)) : List (Nat × Str) := ms.map (fun m => (m.1, strip m.2))

/-- The ids of discontinuous mentions are stripped for the subspan and once more when it is stored (coref.py:807-811, 824-827). -/
def storeDisc (idx : Str) (eid : Str) : Str := strip (strip eid ++ idx)

/-- The header during `FixEntityAcrossNewdoc` (fixentityacrossnewdoc.py:22-25); `none`: the assertion fails. -/
def headers (h : Str) : Option (Str × Str) :=
  if ['e', 'i', 'd'].isPrefixOf h then some (['G', 'R', 'P'] ++ h.drop 3, ['e', 'i', 'd'] ++ (['G', 'R', 'P'] ++ h.drop 3).drop 3) else none

/-- The ids after `FixEntityAcrossNewdoc` (fixentityacrossnewdoc.py:18-25): the ids are stored as they are, the header is changed, and they are loaded. -/
def fixAcross (highest : Nat) (trees : List Bool) (ms : List (Nat × Str)) : List (Nat × Str) := load highest trees ms

/-! ## Lemmas -/

theorem full_inj {n m : Nat} {g h : Str} (e : full n g = full m h) : n = m ∧ g = h := by
  unfold full at e
  have e := (List.cons.inj e).2
  have s1 := splitOnce_append (c := '.') (not_mem_natStr (by decide) n) g
  have s2 := splitOnce_append (c := '.') (not_mem_natStr (by decide) m) h
  rw [e, s2] at s1
  have e1 := (Prod.mk.inj s1).1
  have e2 := Option.some.inj (Prod.mk.inj s1).2
  exact ⟨(natStr_inj e1).symm, e2.symm⟩

theorem span_stop {p : Char → Bool} {c : Char} {s : Str} (hc : p c = false) : ∀ {l : Str}, (∀ x ∈ l, p x = true) → (l ++ c :: s).takeWhile p = l ∧ (l ++ c :: s).dropWhile p = c :: s
  | [], _ => by simp [hc]
  | x :: l, h => by
    obtain ⟨h1, h2⟩ := span_stop hc (l := l) (s := s) (fun y hy => h y (List.mem_cons_of_mem _ hy))
    have hx := h x List.mem_cons_self
    simp [hx, h1, h2]

theorem strip_digits {ds : Str} (h0 : ds ≠ []) (h : ∀ c ∈ ds, dig c = true) (g : Str) : strip ('d' :: (ds ++ '.' :: g)) = g := by
  obtain ⟨h1, h2⟩ := span_stop (p := dig) (c := '.') (s := g) (by decide) h
  simp only [strip, h2, h1, if_neg h0]

theorem length_docNumbers : ∀ (highest : Nat) (first : Bool) (ts : List Bool), (docNumbers highest first ts).length = ts.length
  | _, _, [] => rfl
  | highest, first, t :: ts => by rw [docNumbers, List.length_cons, length_docNumbers, List.length_cons]

/-- The number of a tree: how many `newdoc`s there are up to it -/
theorem docNumbers_get : ∀ (highest : Nat) (ts : List Bool) (i : Nat), i < ts.length → (docNumbers highest false ts)[i]? = some (highest + (ts.take (i + 1)).count true)
  | highest, t :: ts, 0, _ => by
    rw [docNumbers]
    cases t <;> simp
  | highest, t :: ts, i + 1, h => by
    rw [docNumbers, List.getElem?_cons_succ, docNumbers_get _ ts i (by simpa using h), List.take_succ_cons]
    cases t <;> simp
    omega

theorem docNumbers_first (highest : Nat) (t : Bool) (ts : List Bool) : docNumbers highest true (t :: ts) = docNumbers highest false (true :: ts) := by
  rw [docNumbers, docNumbers]
  simp

theorem highestAfter_false : ∀ (highest : Nat) (ts : List Bool), highestAfter highest false ts = highest + ts.count true
  | _, [] => rfl
  | highest, t :: ts => by
    rw [highestAfter, highestAfter_false]
    cases t <;> simp
    omega

/-- No `newdoc` after the tree `i` up to the tree `j` -/
def SameDoc (trees : List Bool) (i j : Nat) : Prop := ∀ k, i < k → k ≤ j → trees[k]? ≠ some true

theorem count_take_le (ts : List Bool) {i j : Nat} (h : i ≤ j) : (ts.take i).count true ≤ (ts.take j).count true := (List.take_sublist_take_left h).count_le true

theorem same_count (ts : List Bool) : ∀ (j i : Nat), i ≤ j → ((ts.take (i + 1)).count true = (ts.take (j + 1)).count true ↔ SameDoc ts i j)
  | 0, i, h => by
    have : i = 0 := by omega
    subst this
    exact ⟨fun _ k h1 h2 => by omega, fun _ => rfl⟩
  | j + 1, i, h => by
    by_cases e : i = j + 1
    · subst e
      exact ⟨fun _ k h1 h2 => by omega, fun _ => rfl⟩
    · have ih := same_count ts j i (by omega)
      have hs : (ts.take (j + 1 + 1)).count true = (ts.take (j + 1)).count true + (if ts[j + 1]? = some true then 1 else 0) := by
        rw [List.take_add_one]
        cases hg : ts[j + 1]? with
        | none => simp
        | some b => cases b <;> simp [List.count_append]
      have hm := count_take_le ts (show i + 1 ≤ j + 1 by omega)
      constructor
      · intro hc
        rw [hs] at hc
        have h0 : ts[j + 1]? ≠ some true := fun e => by rw [if_pos e] at hc; omega
        rw [if_neg h0] at hc
        intro k h1 h2
        by_cases ek : k = j + 1
        · subst ek; exact h0
        · exact ih.1 hc k h1 (by omega)
      · intro hd
        rw [hs, if_neg (hd (j + 1) (by omega) (Nat.le_refl _)), Nat.add_zero]
        exact ih.2 (fun k h1 h2 => hd k h1 (by omega))

/-! ## Property C171 -/

/-- **C171 (numbers of documents)** Trees have the same number exactly if there is no `newdoc` between them. -/
theorem C171_numbers (highest : Nat) {trees : List Bool} {i j : Nat} (h : i ≤ j) (hj : j < trees.length) :
    ((docNumbers highest true trees)[i]? = (docNumbers highest true trees)[j]?) ↔ ∀ k, i < k → k ≤ j → trees[k]? ≠ some true := by
  cases trees with
  | nil => exact absurd hj (Nat.not_lt_zero j)
  | cons t ts =>
    rw [docNumbers_first, docNumbers_get _ _ i (by simp at hj ⊢; omega), docNumbers_get _ _ j (by simpa using hj)]
    have := same_count (true :: ts) j i h
    constructor
    · intro e k h1 h2
      have := this.1 (by have := Option.some.inj e; omega) k h1 h2
      cases k with
      | zero => omega
      | succ k => simpa using this
    · intro e
      rw [this.2 (fun k h1 h2 => by
        have := e k h1 h2
        cases k with
        | zero => omega
        | succ k => simpa using this)]

/-- **C171 (files)** The numbers are above those of the files loaded before, and at most the one kept for the next file. -/
theorem C171_files (highest : Nat) (trees : List Bool) : ∀ n ∈ docNumbers highest true trees, highest < n ∧ n ≤ highestAfter highest true trees := by
  cases trees with
  | nil => intro n hn; cases hn
  | cons t ts =>
    intro n hn
    rw [docNumbers_first] at hn
    obtain ⟨i, hi, rfl⟩ := List.getElem_of_mem hn
    rw [length_docNumbers] at hi
    have h := docNumbers_get highest (true :: ts) i hi
    rw [List.getElem?_eq_getElem (by rw [length_docNumbers]; exact hi)] at h
    rw [Option.some.inj h]
    have ha : highestAfter highest true (t :: ts) = highest + (true :: ts).count true := by
      rw [highestAfter, highestAfter_false]
      simp
      omega
    rw [ha]
    have := (List.take_sublist (i + 1) (true :: ts)).count_le true
    refine ⟨?_, by omega⟩
    rw [List.take_succ_cons, List.count_cons]
    simp

/-- **C171 (ids)** Loaded ids are the same exactly if the number of the `newdoc` and the id in the file are the same. -/
theorem C171_ids {n m : Nat} {g h : Str} : full n g = full m h ↔ n = m ∧ g = h := ⟨full_inj, fun e => by rw [e.1, e.2]⟩

/-- **C171 (back)** Both ways of deleting the prefix give the id in the file. -/
theorem C171_back (n : Nat) (g : Str) : strip (full n g) = g ∧ eidOrGrp n (full n g) = g := by
  refine ⟨strip_digits (natStr_ne_nil n) (fun c hc => by simp [dig, (natStr_digits n c hc).1, (natStr_digits n c hc).2]) g, ?_⟩
  have h : full n g = prefixOf n ++ g := by unfold prefixOf full; simp
  unfold eidOrGrp
  rw [if_pos (by rw [List.isPrefixOf_iff_prefix, h]; exact List.prefix_append _ _), h, List.drop_left]

/-- **C171 (round trip)** Loading, storing and loading again, after any other files: the file is the same, and mentions belong to the same entity exactly if they did before. -/
theorem C171_roundtrip (h1 h2 : Nat) (trees : List Bool) (ms : List (Nat × Str)) : store (load h1 trees ms) = ms ∧
    ∀ (i j : Nat) (a b c d : Nat × Str), (load h1 trees ms)[i]? = some a → (load h1 trees ms)[j]? = some b → (load h2 trees (store (load h1 trees ms)))[i]? = some c →
      (load h2 trees (store (load h1 trees ms)))[j]? = some d → a.1 < trees.length → b.1 < trees.length → (a.2 = b.2 ↔ c.2 = d.2) := by
  have hs : store (load h1 trees ms) = ms := by
    unfold store load
    rw [List.map_map]
    have : ((fun m : Nat × Str => (m.1, strip m.2)) ∘ fun m : Nat × Str => (m.1, full ((docNumbers h1 true trees).getD m.1 0) m.2)) = id := by
      funext m
      simp only [Function.comp, (C171_back _ _).1, id]
    rw [this, List.map_id]
  refine ⟨hs, ?_⟩
  rw [hs]
  intro i j a b c d ha hb hc hd la lb
  unfold load at ha hb hc hd
  rw [List.getElem?_map] at ha hb hc hd
  cases hi : ms[i]? with
  | none => rw [hi] at ha; cases ha
  | some x =>
    cases hj : ms[j]? with
    | none => rw [hj] at hb; cases hb
    | some y =>
      rw [hi] at ha hc
      rw [hj] at hb hd
      cases ha; cases hb; cases hc; cases hd
      dsimp only at la lb ⊢
      rw [C171_ids, C171_ids]
      have key : ∀ h : Nat, ∀ {p q : Nat}, p < trees.length → q < trees.length → ((docNumbers h true trees).getD p 0 = (docNumbers h true trees).getD q 0 ↔
          (docNumbers h true trees)[p]? = (docNumbers h true trees)[q]?) := by
        intro h p q hp hq
        rw [List.getD_eq_getElem?_getD, List.getD_eq_getElem?_getD, List.getElem?_eq_getElem (by rw [length_docNumbers]; exact hp), List.getElem?_eq_getElem (by rw [length_docNumbers]; exact hq)]
        simp
      have num : (docNumbers h1 true trees)[x.1]? = (docNumbers h1 true trees)[y.1]? ↔ (docNumbers h2 true trees)[x.1]? = (docNumbers h2 true trees)[y.1]? := by
        by_cases le : x.1 ≤ y.1
        · rw [C171_numbers h1 le lb, C171_numbers h2 le lb]
        · rw [eq_comm, C171_numbers h1 (by omega) la, eq_comm, C171_numbers h2 (by omega) la]
      rw [key h1 la lb, key h2 la lb, num]

/-- **C171 (`FixEntityAcrossNewdoc`)** Afterwards mentions belong to the same entity exactly if they did before and there is no `newdoc` between them. -/
theorem C171_across (highest : Nat) {trees : List Bool} {ms : List (Nat × Str)} {i j : Nat} {a b c d : Nat × Str} (hi : ms[i]? = some a) (hj : ms[j]? = some b)
    (hc : (fixAcross highest trees ms)[i]? = some c) (hd : (fixAcross highest trees ms)[j]? = some d) (hab : a.1 ≤ b.1) (hb : b.1 < trees.length) :
    c.2 = d.2 ↔ a.2 = b.2 ∧ ∀ k, a.1 < k → k ≤ b.1 → trees[k]? ≠ some true := by
  unfold fixAcross load at hc hd
  rw [List.getElem?_map, hi] at hc
  rw [List.getElem?_map, hj] at hd
  cases hc; cases hd
  dsimp only
  rw [C171_ids, ← C171_numbers highest hab hb]
  rw [List.getD_eq_getElem?_getD, List.getD_eq_getElem?_getD, List.getElem?_eq_getElem (by rw [length_docNumbers]; omega), List.getElem?_eq_getElem (by rw [length_docNumbers]; exact hb)]
  simp [and_comm]

/-- **C171 (the header)** `FixEntityAcrossNewdoc` restores the header. -/
theorem C171_header {h g r : Str} (e : headers h = some (g, r)) : r = h := by
  unfold headers at e
  split at e
  · rename_i hp
    obtain ⟨t, rfl⟩ := List.isPrefixOf_iff_prefix.1 hp
    cases e
    rfl
  · cases e

/-- **C171 (new entities, violated)** An entity whose id has no number, such as one created with `create_coref_entity`, and the entity of the same `newdoc` with this id in the file have different ids
but become one when they are stored and loaded. -/
theorem C171_new_violated {e : Str} (he : strip e = e) (n : Nat) : full n e ≠ e ∧ strip (full n e) = strip e := by
  refine ⟨fun h => ?_, by rw [(C171_back n e).1, he]⟩
  have := congrArg List.length h
  simp [full] at this
  omega

/-- **C171 (mentions in two documents, violated)** An entity with mentions under two numbers becomes two entities when it is stored and loaded. -/
theorem C171_two_violated (e : Str) {n m : Nat} (h : n ≠ m) : full n (strip e) ≠ full m (strip e) := fun x => h (full_inj x).1

/-- **C171 (discontinuous mentions)** The id of a subspan in the file is the id in the file with the index, unless it looks like one with a number. -/
theorem C171_disc (n : Nat) (g idx : Str) : storeDisc idx (full n g) = strip (g ++ idx) := by
  unfold storeDisc
  rw [(C171_back n g).1]

/-- **C171 (discontinuous mentions, violated)** If the id in the file begins with `d`, digits and a full stop, this is lost in discontinuous mentions, not in others. -/
theorem C171_disc_violated (n : Nat) {ds : Str} (h0 : ds ≠ []) (hd : ∀ c ∈ ds, 48 ≤ c.toNat ∧ c.toNat ≤ 57) (g idx : Str) :
    storeDisc idx (full n ('d' :: (ds ++ '.' :: g))) = g ++ idx ∧ strip (full n ('d' :: (ds ++ '.' :: g))) = 'd' :: (ds ++ '.' :: g) := by
  refine ⟨?_, (C171_back n _).1⟩
  rw [C171_disc]
  have : ('d' :: (ds ++ '.' :: g)) ++ idx = 'd' :: (ds ++ '.' :: (g ++ idx)) := by simp
  rw [this]
  exact strip_digits h0 (fun c hc => by simp [dig, (hd c hc).1, (hd c hc).2]) _

/-! ## Examples -/

example : docNumbers 4 true [false, false, true, false, true] = [5, 5, 6, 6, 7] := by decide
example : load 0 [true, true] [(0, ['e']), (1, ['e'])] = [(0, ['d', '1', '.', 'e']), (1, ['d', '2', '.', 'e'])] := by decide +kernel
example : strip ['d', '1', '2', '.', 'e', '4', '5'] = ['e', '4', '5'] ∧ strip ['d', '.', 'e'] = ['d', '.', 'e'] ∧ strip ['e', '1'] = ['e', '1'] := by decide
example : headers ['e', 'i', 'd', '-', 'h'] = some (['G', 'R', 'P', '-', 'h'], ['e', 'i', 'd', '-', 'h']) := by decide

end Verif.Coref.Grp
