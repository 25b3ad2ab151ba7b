import Verif.Py.Sort

/-!
# Property C112: corefud.MoveHead (udapi/block/corefud/movehead.py:15-89)

One mention of a tree; words are numbered by their order. `hi` is `find_minimal_common_treelet` (property C21): the highest node of the
given nodes; with no nodes it raises IndexError, which is modelled here. The category of the result is kept, the counters are not.
-/

namespace Verif.Coref.MoveHead
open Verif.Py

/-- A mention with what the block looks at: `parent` is `None` for empty nodes and the root. -/
structure Mention where
  words : List Nat
  head : Nat
  parent : Nat → Option Nat
  /-- `_raw_deps != '_'` -/
  hasDeps : Nat → Bool
  /-- the parents in `deps` -/
  deps : Nat → List Nat
  empty : Nat → Bool

inductive Cat
  | treelet | cycle | gappy | nontreelet
  deriving DecidableEq, Repr

inductive Res
  | head (h : Nat) (c : Cat)
  | nameError
  | indexError
  deriving DecidableEq, Repr

/-- `_eparents` (movehead.py:15-20) -/
def eparents (m : Mention) (w : Nat) : List Nat :=
  if m.hasDeps w then m.deps w
  else match m.parent w with
    | some p => [p]
    | none => []

/-- `not w.parent or not w.parent in mwords` -/
def isBasicHead (m : Mention) (w : Nat) : Bool :=
  match m.parent w with
  | none => true
  | some p => decide (p ∉ m.words)

/-- Lines 26-35: the candidates by basic and enhanced dependencies. -/
def basicHeads (m : Mention) : List Nat := m.words.filter (isBasicHead m)

def enhHeads (m : Mention) : List Nat :=
  let h1 := (basicHeads m).filter (fun w => !(eparents m w).any (fun p => decide (p ∈ m.words)))
  if h1.isEmpty then (basicHeads m).filter (fun w => !(eparents m w).all (fun p => decide (p ∈ m.words))) else h1

/-- Lines 45-56: the first parents of empty nodes that are not empty; `mark` is `'mark' in bugs`, which raises NameError. -/
def addParents (mark : Bool) (m : Mention) : List Nat → List Nat → Option (List Nat)
  | [], acc => some acc
  | e :: es, acc =>
    match (m.deps e).filter (fun p => !m.empty p) with
    | p :: _ => addParents mark m es (if p ∈ acc then acc else acc ++ [p])
    | [] => if mark then none else addParents mark m es acc

/-- Lines 40-57 -/
def nonEmpty (mark : Bool) (m : Mention) (heads : List Nat) : Option (List Nat) :=
  let emp := heads.filter m.empty
  let non := heads.filter (fun w => !m.empty w)
  if emp.isEmpty then some non else (addParents mark m emp non).map (pySort (fun a b => decide (a ≤ b)))

/-- `find_head` (movehead.py:22-75) -/
def findHead (hi : List Nat → Nat) (mark keep : Bool) (m : Mention) : Res :=
  match basicHeads m with
  | [h] => .head h .treelet
  | _ =>
    match enhHeads m with
    | [] => .head m.head .cycle
    | [h] => .head h .treelet
    | e :: es =>
      match nonEmpty mark m (e :: es) with
      | none => .nameError
      | some [] => .indexError
      | some (n :: ns) =>
        if hi (n :: ns) ∈ e :: es then .head (hi (n :: ns)) .gappy
        else if keep && decide (m.head ∈ e :: es) then .head m.head .nontreelet
        else .head e .nontreelet

/-- `process_coref_mention` (movehead.py:78-89): the head afterwards; `none` if there is an exception. -/
def process (hi : List Nat → Nat) (mark keep : Bool) (m : Mention) : Option Mention :=
  if m.words.length < 2 then some m
  else match findHead hi mark keep m with
    | .head h _ => if h ∈ m.words then some { m with head := h } else none
    | _ => none

/-! ## Specification -/

/-- The basic dependencies are a forest. -/
def Acyclic (m : Mention) : Prop := ∃ depth : Nat → Nat, ∀ w p, m.parent w = some p → depth p < depth w

/-- Below a node along basic dependencies, through words of the mention only. -/
inductive Inside (m : Mention) (h : Nat) : Nat → Prop
  | self : Inside m h h
  | step {w p : Nat} : m.parent w = some p → p ∈ m.words → Inside m h p → Inside m h w

/-- Below a node along basic dependencies. -/
inductive Below (m : Mention) (h : Nat) : Nat → Prop
  | self : Below m h h
  | step {w p : Nat} : m.parent w = some p → Below m h p → Below m h w

/-! ## Proofs -/

theorem mem_basic {m : Mention} {w : Nat} : w ∈ basicHeads m ↔ w ∈ m.words ∧ ∀ p, m.parent w = some p → p ∉ m.words := by
  unfold basicHeads isBasicHead
  rw [List.mem_filter]
  cases h : m.parent w with
  | none => simp
  | some p => simp

theorem enh_sub {m : Mention} {w : Nat} (h : w ∈ enhHeads m) : w ∈ basicHeads m := by
  unfold enhHeads at h
  simp only at h
  split at h
  · exact (List.mem_filter.1 h).1
  · exact (List.mem_filter.1 h).1

/-- Every word is inside the part of some basic head. -/
theorem inside_basic {m : Mention} (ha : Acyclic m) : ∀ {w : Nat}, w ∈ m.words → ∃ h ∈ basicHeads m, Inside m h w := by
  obtain ⟨depth, hd⟩ := ha
  have : ∀ (k w : Nat), depth w ≤ k → w ∈ m.words → ∃ h ∈ basicHeads m, Inside m h w := by
    intro k
    induction k with
    | zero =>
      intro w hk hw
      refine ⟨w, mem_basic.2 ⟨hw, fun p hp => ?_⟩, .self⟩
      have := hd w p hp
      omega
    | succ k ih =>
      intro w hk hw
      by_cases hb : w ∈ basicHeads m
      · exact ⟨w, hb, .self⟩
      · cases hp : m.parent w with
        | none => exact absurd (mem_basic.2 ⟨hw, fun p h => by rw [hp] at h; exact absurd h (by simp)⟩) hb
        | some p =>
          have hpw : p ∈ m.words := Decidable.byContradiction (fun hn => hb (mem_basic.2 ⟨hw, fun q hq => by
            rw [hp] at hq
            rw [← Option.some.inj hq]
            exact hn⟩))
          obtain ⟨h, h1, h2⟩ := ih p (by have := hd w p hp; omega) hpw
          exact ⟨h, h1, .step hp hpw h2⟩
  exact fun {w} hw => this (depth w) w (Nat.le_refl _) hw

theorem Inside.toBelow {m : Mention} {h w : Nat} (k : Inside m h w) : Below m h w := by
  induction k with
  | self => exact .self
  | step h1 _ _ ih => exact .step h1 ih

theorem Below.trans {m : Mention} {a b c : Nat} (h : Below m a b) (k : Below m b c) : Below m a c := by
  induction k with
  | self => exact h
  | step h1 _ ih => exact .step h1 ih

/-- The cases of `find_head`. -/
theorem findHead_cases (hi : List Nat → Nat) (mark keep : Bool) (m : Mention) {h : Nat} {c : Cat} (e : findHead hi mark keep m = .head h c) :
    (c = .treelet ∧ h ∈ basicHeads m ∧ (basicHeads m = [h] ∨ enhHeads m = [h])) ∨ (c = .cycle ∧ h = m.head ∧ enhHeads m = []) ∨
    (c = .gappy ∧ h ∈ enhHeads m ∧ ∃ l, nonEmpty mark m (enhHeads m) = some l ∧ h = hi l) ∨ (c = .nontreelet ∧ h ∈ enhHeads m) := by
  unfold findHead at e
  split at e
  · rename_i b hb
    cases e
    exact Or.inl ⟨rfl, by rw [hb]; exact List.mem_singleton.2 rfl, Or.inl hb⟩
  · split at e
    · rename_i he
      cases e
      exact Or.inr (Or.inl ⟨rfl, rfl, he⟩)
    · rename_i b he
      cases e
      exact Or.inl ⟨rfl, enh_sub (by rw [he]; exact List.mem_singleton.2 rfl), Or.inr he⟩
    · rename_i x xs _ he
      split at e
      · exact absurd e (by simp)
      · exact absurd e (by simp)
      · rename_i n ns hl
        split at e
        · rename_i hin
          cases e
          exact Or.inr (Or.inr (Or.inl ⟨rfl, by rw [he]; exact hin, n :: ns, by rw [he]; exact hl, rfl⟩))
        · split at e
          · rename_i hk
            rw [Bool.and_eq_true, decide_eq_true_eq] at hk
            cases e
            exact Or.inr (Or.inr (Or.inr ⟨rfl, by rw [he]; exact hk.2⟩))
          · cases e
            exact Or.inr (Or.inr (Or.inr ⟨rfl, by rw [he]; exact List.mem_cons_self ..⟩))

/-- C112, the head: the head found is a word of the mention, so that setting it never fails; unless the category is `cycle`, its basic parent is not in the mention. -/
theorem C112_head_partial (hi : List Nat → Nat) (mark keep : Bool) (m : Mention) (hm : m.head ∈ m.words) {h : Nat} {c : Cat}
    (e : findHead hi mark keep m = .head h c) : h ∈ m.words ∧ (c ≠ .cycle → ∀ p, m.parent h = some p → p ∉ m.words) := by
  rcases findHead_cases hi mark keep m e with ⟨_, h1, _⟩ | ⟨h1, h2, _⟩ | ⟨_, h1, _⟩ | ⟨_, h1⟩
  · exact ⟨(mem_basic.1 h1).1, fun _ => (mem_basic.1 h1).2⟩
  · exact ⟨h2 ▸ hm, fun k => absurd h1 k⟩
  · exact ⟨(mem_basic.1 (enh_sub h1)).1, fun _ => (mem_basic.1 (enh_sub h1)).2⟩
  · exact ⟨(mem_basic.1 (enh_sub h1)).1, fun _ => (mem_basic.1 (enh_sub h1)).2⟩

/-- C112, treelets: if the words form a treelet of the basic tree, i.e. all of them are below one of them through words of the mention, then that word is the head found,
and no other word. -/
theorem C112_treelet (hi : List Nat → Nat) (mark keep : Bool) (m : Mention) (ha : Acyclic m) (hn : m.words.Nodup) {h : Nat} (hw : h ∈ m.words)
    (hin : ∀ w ∈ m.words, Inside m h w) : findHead hi mark keep m = .head h .treelet := by
  have hb : h ∈ basicHeads m := by
    obtain ⟨b, h1, h2⟩ := inside_basic ha hw
    have h3 := hin b (mem_basic.1 h1).1
    cases h3 with
    | self => exact h1
    | step h4 h5 _ => exact absurd h5 ((mem_basic.1 h1).2 _ h4)
  have honly : ∀ b ∈ basicHeads m, b = h := by
    intro b h1
    have h3 := hin b (mem_basic.1 h1).1
    cases h3 with
    | self => rfl
    | step h4 h5 _ => exact absurd h5 ((mem_basic.1 h1).2 _ h4)
  have hnd : (basicHeads m).Nodup := hn.sublist List.filter_sublist
  have : basicHeads m = [h] := by
    cases hl : basicHeads m with
    | nil => rw [hl] at hb; exact absurd hb List.not_mem_nil
    | cons a l =>
      rw [hl] at honly hnd
      have ea := honly a (List.mem_cons_self ..)
      cases l with
      | nil => rw [ea]
      | cons b l =>
        have eb := honly b (by simp)
        rw [ea, eb] at hnd
        exact absurd hnd (by simp)
  unfold findHead
  rw [this]

/-- C112, treelets, converse: if there is one word whose basic parent is not in the mention, all words are below it through words of the mention. -/
theorem C112_inside (m : Mention) (ha : Acyclic m) {h : Nat} (hb : basicHeads m = [h]) : ∀ w ∈ m.words, Inside m h w := by
  intro w hw
  obtain ⟨b, h1, h2⟩ := inside_basic ha hw
  rw [hb, List.mem_singleton] at h1
  exact h1 ▸ h2

/-- C112, without enhanced dependencies: if the head is the highest node (`gappy`) or the mention is a treelet, all words of the mention are below the head. `hgov`: the highest
node of a list of words governs them. -/
theorem C112_governs (hi : List Nat → Nat) (mark keep : Bool) (m : Mention) (ha : Acyclic m) (hdeps : ∀ w ∈ m.words, m.hasDeps w = false ∧ m.empty w = false)
    (hgov : ∀ l, (∀ w ∈ l, w ∈ m.words) → ∀ w ∈ l, Below m (hi l) w) {h : Nat} {c : Cat} (e : findHead hi mark keep m = .head h c) (hc : c ≠ .nontreelet) :
    ∀ w ∈ m.words, Below m h w := by
  have he : enhHeads m = basicHeads m := by
    have hall : (basicHeads m).filter (fun w => !(eparents m w).any (fun p => decide (p ∈ m.words))) = basicHeads m := by
      rw [List.filter_eq_self]
      intro w hw
      have hb := mem_basic.1 hw
      unfold eparents
      rw [(hdeps w hb.1).1]
      cases hp : m.parent w with
      | none => rfl
      | some p => simp [hb.2 p hp]
    unfold enhHeads
    simp only [hall]
    split
    · rename_i h0
      rw [List.isEmpty_iff] at h0
      rw [h0]
      rfl
    · rfl
  have hne : nonEmpty mark m (basicHeads m) = some (basicHeads m) := by
    have h1 : (basicHeads m).filter m.empty = [] := by
      rw [List.filter_eq_nil_iff]
      intro w hw
      rw [(hdeps w (mem_basic.1 hw).1).2]
      simp
    have h2 : (basicHeads m).filter (fun w => !m.empty w) = basicHeads m := by
      rw [List.filter_eq_self]
      intro w hw
      rw [(hdeps w (mem_basic.1 hw).1).2]
      rfl
    unfold nonEmpty
    simp only [h1, h2]
    rfl
  intro w hw
  obtain ⟨b, h1, h2⟩ := inside_basic ha hw
  rcases findHead_cases hi mark keep m e with ⟨_, _, h3⟩ | ⟨_, _, h3⟩ | ⟨_, _, l, h3, h4⟩ | ⟨h3, _⟩
  · rw [he, or_self] at h3
    rw [h3, List.mem_singleton] at h1
    exact h1 ▸ h2.toBelow
  · rw [he] at h3
    rw [h3] at h1
    exact absurd h1 List.not_mem_nil
  · rw [he, hne] at h3
    rw [h4, ← Option.some.inj h3]
    exact (hgov _ (fun w hw => (mem_basic.1 hw).1) b h1).trans h2.toBelow
  · exact absurd h3 hc

theorem basic_head (m : Mention) (h : Nat) : basicHeads { m with head := h } = basicHeads m := rfl

theorem enh_head (m : Mention) (h : Nat) : enhHeads { m with head := h } = enhHeads m := rfl

theorem addParents_head (mark : Bool) (m : Mention) (h : Nat) : ∀ es acc, addParents mark { m with head := h } es acc = addParents mark m es acc
  | [], _ => rfl
  | e :: es, acc => by
    unfold addParents
    simp only [addParents_head mark m h es]

theorem nonEmpty_head (mark : Bool) (m : Mention) (h : Nat) (l : List Nat) : nonEmpty mark { m with head := h } l = nonEmpty mark m l := by
  unfold nonEmpty
  simp only [addParents_head]

/-- C112, again: the second run of the block changes nothing. -/
theorem C112_twice (hi : List Nat → Nat) (mark : Bool) (m : Mention) {m' : Mention} (e : process hi mark true m = some m') :
    process hi mark true m' = some m' := by
  unfold process at e
  split at e
  · rename_i hl
    cases e
    unfold process
    rw [if_pos hl]
  · rename_i hl
    cases hf : findHead hi mark true m with
    | nameError => rw [hf] at e; exact absurd e (by simp)
    | indexError => rw [hf] at e; exact absurd e (by simp)
    | head h c =>
      rw [hf] at e
      simp only at e
      split at e
      · rename_i hin
        cases e
        have : ∃ c', findHead hi mark true { m with head := h } = .head h c' := by
          unfold findHead at hf ⊢
          rw [basic_head, enh_head]
          split
          · rename_i b hb
            rw [hb] at hf
            cases hf
            exact ⟨_, rfl⟩
          · rename_i hnb
            split at hf
            · rename_i b hb
              exact absurd hb (hnb b)
            · split
              · exact ⟨_, rfl⟩
              · rename_i b he
                rw [he] at hf
                cases hf
                exact ⟨_, rfl⟩
              · rename_i x xs hnx he
                rw [he] at hf
                rw [nonEmpty_head]
                split at hf
                · rename_i h1; exact absurd h1 (by simp)
                · rename_i b h1; cases h1; exact absurd rfl hnx
                · rename_i y ys _ h1
                  cases h1
                  split at hf
                  · exact absurd hf (by simp)
                  · exact absurd hf (by simp)
                  · rename_i n ns hl'
                    simp only
                    by_cases hg : hi (n :: ns) ∈ x :: xs
                    · rw [if_pos hg] at hf ⊢
                      cases hf
                      exact ⟨_, rfl⟩
                    · rw [if_neg hg] at hf ⊢
                      have hmem : h ∈ x :: xs := by
                        split at hf
                        · rename_i hk
                          rw [Bool.and_eq_true, decide_eq_true_eq] at hk
                          cases hf
                          exact hk.2
                        · cases hf
                          exact List.mem_cons_self ..
                      rw [if_pos (by rw [Bool.and_eq_true, decide_eq_true_eq]; exact ⟨rfl, hmem⟩)]
                      exact ⟨_, rfl⟩
        obtain ⟨c', hc⟩ := this
        unfold process
        rw [if_neg hl, hc]
        simp only
        rw [if_pos hin]
      · exact absurd e (by simp)

/-- C112, violated: a mention of at least two empty nodes without parents raises IndexError, and NameError with `bugs=mark`. -/
theorem C112_empty_violated (hi : List Nat → Nat) (keep : Bool) (m : Mention) (h2 : 2 ≤ m.words.length)
    (he : ∀ w ∈ m.words, m.empty w = true ∧ m.parent w = none ∧ m.deps w = []) :
    findHead hi false keep m = .indexError ∧ findHead hi true keep m = .nameError := by
  have hb : basicHeads m = m.words := by
    unfold basicHeads
    rw [List.filter_eq_self]
    intro w hw
    unfold isBasicHead
    rw [(he w hw).2.1]
  have hep : ∀ w ∈ m.words, eparents m w = [] := by
    intro w hw
    unfold eparents
    rw [(he w hw).2.1, (he w hw).2.2]
    split <;> rfl
  obtain ⟨a, b, l, hl⟩ : ∃ a b l, m.words = a :: b :: l := by
    cases hw : m.words with
    | nil => rw [hw] at h2; exact absurd h2 (by simp)
    | cons a t =>
      cases t with
      | nil => rw [hw] at h2; exact absurd h2 (by simp)
      | cons b l => exact ⟨a, b, l, rfl⟩
  have hn : enhHeads m = m.words := by
    have : (basicHeads m).filter (fun w => !(eparents m w).any (fun p => decide (p ∈ m.words))) = m.words := by
      rw [hb, List.filter_eq_self]
      intro w hw
      rw [hep w hw]
      rfl
    unfold enhHeads
    rw [this, hl]
    rfl
  have hf1 : m.words.filter m.empty = m.words := by
    rw [List.filter_eq_self]
    exact fun w hw => (he w hw).1
  have hf2 : m.words.filter (fun w => !m.empty w) = [] := by
    rw [List.filter_eq_nil_iff]
    intro w hw
    rw [(he w hw).1]
    simp
  have hadd : ∀ es, (∀ w ∈ es, w ∈ m.words) → addParents false m es [] = some [] := by
    intro es
    induction es with
    | nil => intro _; rfl
    | cons x xs ih =>
      intro h
      unfold addParents
      rw [(he x (h x (List.mem_cons_self ..))).2.2]
      exact ih (fun w hw => h w (List.mem_cons_of_mem _ hw))
  have h1 : nonEmpty false m m.words = some [] := by
    unfold nonEmpty
    simp only [hf1, hf2]
    rw [hadd m.words (fun _ h => h), hl]
    rfl
  have h1' : nonEmpty true m m.words = none := by
    unfold nonEmpty
    simp only [hf1, hf2]
    have : addParents true m m.words [] = none := by
      rw [hl]
      unfold addParents
      rw [(he a (by rw [hl]; simp)).2.2]
      rfl
    rw [this, hl]
    rfl
  constructor
  · unfold findHead
    rw [hb, hn, hl]
    simp only
    rw [← hl, h1]
  · unfold findHead
    rw [hb, hn, hl]
    simp only
    rw [← hl, h1']

/-! ## Examples: the word 3 under 2, 2 under 5, 7 under 5, 5 under the root; the empty node 90 under 3 -/

def exM (ws : List Nat) (h : Nat) : Mention where
  words := ws
  head := h
  parent := fun w => if w = 3 then some 2 else if w = 2 then some 5 else if w = 7 then some 5 else if w = 5 then some 0 else none
  hasDeps := fun w => w == 90
  deps := fun w => if w = 90 then [3] else []
  empty := fun w => decide (w ≥ 90)

def exHi (_ : List Nat) : Nat := 5

example : findHead exHi false true (exM [2, 3] 3) = .head 2 .treelet := by decide
example : findHead exHi false true (exM [2, 3, 7] 7) = .head 7 .nontreelet := by decide
example : findHead exHi false false (exM [2, 3, 7] 7) = .head 2 .nontreelet := by decide
example : findHead exHi false true (exM [3, 5] 3) = .head 5 .gappy := by decide
example : findHead exHi false true (exM [2, 3, 90] 3) = .head 2 .treelet := by decide
example : findHead exHi false true (exM [91, 92] 91) = .indexError := by decide

example : Acyclic (exM [2, 3] 3) := ⟨fun w => if w = 3 then 3 else if w = 2 then 2 else if w = 7 then 2 else if w = 5 then 1 else 0, by
  intro w p h
  simp only [exM] at h
  split at h
  · cases h; rename_i e; subst e; decide
  · split at h
    · cases h; rename_i e; subst e; decide
    · split at h
      · cases h; rename_i e; subst e; decide
      · split at h
        · cases h; rename_i e; subst e; decide
        · cases h⟩

example : ∀ w ∈ [2, 3], Inside (exM [2, 3] 3) 2 w := by
  intro w hw
  rcases List.mem_cons.1 hw with rfl | hw
  · exact .self
  · rw [List.mem_singleton.1 hw]
    exact .step (p := 2) rfl (by decide) .self

/-- The assumptions of `C112_governs`. -/
example : (∀ w ∈ [3, 5], (exM [3, 5] 3).hasDeps w = false ∧ (exM [3, 5] 3).empty w = false) ∧
    ∀ l, (∀ w ∈ l, w ∈ [3, 5]) → ∀ w ∈ l, Below (exM [3, 5] 3) (exHi l) w := by
  refine ⟨by decide, fun l hl w hw => ?_⟩
  rcases List.mem_cons.1 (hl w hw) with rfl | h
  · exact .step (p := 2) rfl (.step (p := 5) rfl .self)
  · rw [List.mem_singleton.1 h]
    exact .self

example : (process exHi false true (exM [3, 5] 3)).map Mention.head = some 5 := by decide

end Verif.Coref.MoveHead
