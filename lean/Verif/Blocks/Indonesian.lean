import Verif.Blocks.ElQue
import Verif.Py.Str

/-!
# Property C230: id.FixGSD rejoins numerals and reduplications

Source: `udapi/block/ud/id/fixgsd.py:85-133` (`rejoin_ordinal_numerals`), `135-182` (`rejoin_decades`) and `184-287` (`merge_reduplication`), one call of a method at a time. For the text a sentence
is a list of words with form and space; for the tree the words are numbered from 1 to `n`. Lower-casing, `\d+`, the comparison of the two parts and the tests on the tree are parameters.
Multiword tokens, lemmas, tags and features are not modelled.
-/

namespace Verif.Blocks.Indonesian
open Verif.Py Verif.Blocks.GoogleSwap Verif.Blocks.Articles Verif.Blocks.ElQue

/-! ## The text -/

structure W where
  form : Str
  sp : Bool   -- there is a space after it
deriving DecidableEq

structure Env where
  ke : Str → Bool       -- lower-cased `ke`
  an : Str → Bool       -- lower-cased `an`
  digits : Str → Bool
  double : Str → Str → Bool   -- the second part repeats the first, or one of them is a prefix
  related : Bool        -- one of the two words hangs on the other (without a dash)

def isDash (f : Str) : Bool := f == ['-']
/-- `^(-|–|--)$` -/
def isHyph (f : Str) : Bool := f == ['-'] || f == ['–'] || f == ['-', '-']

/-- `rejoin_ordinal_numerals` for the first word of the list -/
def ordinal (e : Env) : List W → Option (List W)
  | a :: h :: rest =>
    if e.ke a.form then
      if isDash h.form then
        match rest with
        | b :: post => if e.digits b.form then some (⟨a.form ++ h.form ++ b.form, b.sp⟩ :: post) else none
        | [] => none
      else if e.digits h.form && e.related then some (⟨a.form ++ h.form, h.sp⟩ :: rest)
      else none
    else none
  | _ => none

/-- `rejoin_decades` for a list that begins with the number -/
def decade (e : Env) : List W → Option (List W)
  | b :: h :: rest =>
    if e.digits b.form then
      if isDash h.form then
        match rest with
        | a :: post => if e.an a.form then some (⟨b.form ++ h.form ++ a.form, a.sp⟩ :: post) else none
        | [] => none
      else if e.an h.form && e.related then some (⟨b.form ++ h.form, h.sp⟩ :: rest)
      else none
    else none
  | _ => none

/-- `merge_reduplication` for a list that begins with the first part -/
def redup (e : Env) : List W → Option (List W)
  | a :: h :: b :: post => if e.double a.form b.form && isHyph h.form then some (⟨a.form ++ ['-'] ++ b.form, b.sp⟩ :: post) else none
  | _ => none

def wtext (w : W) : Str := w.form ++ if w.sp then [' '] else []
def text (ws : List W) : Str := ws.flatMap wtext
def letters (s : Str) : Str := s.filter fun c => c != ' '

/-- One successful call somewhere in the sentence -/
inductive Call (e : Env) : List W → List W → Prop
  | ordinal (pre l l' : List W) : ordinal e l = some l' → Call e (pre ++ l) (pre ++ l')
  | decade (pre l l' : List W) : decade e l = some l' → Call e (pre ++ l) (pre ++ l')
  | redup (pre l l' : List W) : redup e l = some l' → Call e (pre ++ l) (pre ++ l')

/-- No word is one of the other hyphens. -/
def Plain (ws : List W) : Prop := ∀ w ∈ ws, isHyph w.form = true → isDash w.form = true

theorem text_append (a b : List W) : text (a ++ b) = text a ++ text b := by unfold text; rw [List.flatMap_append]

theorem text_cons (a : W) (b : List W) : text (a :: b) = wtext a ++ text b := rfl

theorem letters_append (a b : Str) : letters (a ++ b) = letters a ++ letters b := by unfold letters; rw [List.filter_append]

theorem letters_wtext (w : W) : letters (wtext w) = letters w.form := by
  unfold wtext
  rw [letters_append]
  split <;> simp [letters]

theorem form_sub (w : W) : List.Sublist w.form (wtext w) := List.sublist_append_left ..

theorem three (a h b : W) (m : Str) (hm : m = h.form) (post : List W) :
    letters (text (⟨a.form ++ m ++ b.form, b.sp⟩ :: post)) = letters (text (a :: h :: b :: post)) ∧ List.Sublist (text (⟨a.form ++ m ++ b.form, b.sp⟩ :: post)) (text (a :: h :: b :: post)) := by
  subst hm
  constructor
  · simp only [text_cons, letters_append, letters_wtext, List.append_assoc]
  · have e : text (⟨a.form ++ h.form ++ b.form, b.sp⟩ :: post) = a.form ++ (h.form ++ (wtext b ++ text post)) := by
      simp only [text_cons, wtext, List.append_assoc]
    rw [e]
    simp only [text_cons]
    exact (form_sub a).append ((form_sub h).append (List.Sublist.refl _))

theorem two (a h : W) (post : List W) :
    letters (text (⟨a.form ++ h.form, h.sp⟩ :: post)) = letters (text (a :: h :: post)) ∧ List.Sublist (text (⟨a.form ++ h.form, h.sp⟩ :: post)) (text (a :: h :: post)) := by
  constructor
  · simp only [text_cons, letters_append, letters_wtext, List.append_assoc]
  · have e : text (⟨a.form ++ h.form, h.sp⟩ :: post) = a.form ++ (wtext h ++ text post) := by simp only [text_cons, wtext, List.append_assoc]
    rw [e]
    simp only [text_cons]
    exact (form_sub a).append (List.Sublist.refl _)

theorem in_place (pre l l' : List W) (h : letters (text l') = letters (text l) ∧ List.Sublist (text l') (text l)) :
    letters (text (pre ++ l')) = letters (text (pre ++ l)) ∧ List.Sublist (text (pre ++ l')) (text (pre ++ l)) := by
  constructor
  · rw [text_append, text_append, letters_append, letters_append, h.1]
  · rw [text_append, text_append]; exact (List.Sublist.refl _).append h.2

theorem ordinal_text {e : Env} {l l' : List W} (h : ordinal e l = some l') : letters (text l') = letters (text l) ∧ List.Sublist (text l') (text l) := by
  match l with
  | [] => cases h
  | [_] => cases h
  | a :: x :: rest =>
    simp only [ordinal] at h
    split at h
    · split at h
      · split at h
        · split at h
          · cases h; exact three a x _ _ rfl _
          · cases h
        · cases h
      · split at h
        · cases h; exact two a x rest
        · cases h
    · cases h

theorem decade_text {e : Env} {l l' : List W} (h : decade e l = some l') : letters (text l') = letters (text l) ∧ List.Sublist (text l') (text l) := by
  match l with
  | [] => cases h
  | [_] => cases h
  | a :: x :: rest =>
    simp only [decade] at h
    split at h
    · split at h
      · split at h
        · split at h
          · cases h; exact three a x _ _ rfl _
          · cases h
        · cases h
      · split at h
        · cases h; exact two a x rest
        · cases h
    · cases h

/-- A merge with the plain hyphen takes spaces out of the text and nothing else. -/
theorem C230_text {e : Env} {ws ws' : List W} (h : Call e ws ws') (hp : Plain ws) : letters (text ws') = letters (text ws) ∧ List.Sublist (text ws') (text ws) := by
  cases h with
  | ordinal pre l l' h => exact in_place pre l l' (ordinal_text h)
  | decade pre l l' h => exact in_place pre l l' (decade_text h)
  | redup pre l l' h =>
    refine in_place pre l l' ?_
    match l with
    | [] => cases h
    | [_] => cases h
    | [_, _] => cases h
    | a :: x :: b :: post =>
      simp only [redup] at h
      split at h
      · next hc =>
        cases h
        rw [Bool.and_eq_true] at hc
        have := hp x (by simp) hc.2
        unfold isDash at this
        exact three a x b ['-'] (by simpa using (beq_iff_eq.mp this).symm) post
      · cases h

/-- Whatever is merged, there is one word less or two, and the last part decides on the space. -/
theorem C230_words {e : Env} {ws ws' : List W} (h : Call e ws ws') :
    ∃ pre parts post f sp, ws = pre ++ parts ++ post ∧ ws' = pre ++ [⟨f, sp⟩] ++ post ∧ (parts.length = 2 ∨ parts.length = 3) ∧ parts.getLast?.map W.sp = some sp := by
  have key : ∀ (pre l l' : List W), (ordinal e l = some l' ∨ decade e l = some l' ∨ redup e l = some l') →
      ∃ parts post f sp, l = parts ++ post ∧ l' = [⟨f, sp⟩] ++ post ∧ (parts.length = 2 ∨ parts.length = 3) ∧ parts.getLast?.map W.sp = some sp := by
    intro pre l l' h
    rcases h with h | h | h
    · match l with
      | [] => cases h
      | [_] => cases h
      | a :: x :: rest =>
        simp only [ordinal] at h
        split at h
        · split at h
          · split at h
            · next b post =>
              split at h
              · cases h; exact ⟨[a, x, b], post, _, _, rfl, rfl, Or.inr rfl, rfl⟩
              · cases h
            · cases h
          · split at h
            · cases h; exact ⟨[a, x], rest, _, _, rfl, rfl, Or.inl rfl, rfl⟩
            · cases h
        · cases h
    · match l with
      | [] => cases h
      | [_] => cases h
      | a :: x :: rest =>
        simp only [decade] at h
        split at h
        · split at h
          · split at h
            · next b post =>
              split at h
              · cases h; exact ⟨[a, x, b], post, _, _, rfl, rfl, Or.inr rfl, rfl⟩
              · cases h
            · cases h
          · split at h
            · cases h; exact ⟨[a, x], rest, _, _, rfl, rfl, Or.inl rfl, rfl⟩
            · cases h
        · cases h
    · match l with
      | [] => cases h
      | [_] => cases h
      | [_, _] => cases h
      | a :: x :: b :: post =>
        simp only [redup] at h
        split at h
        · cases h; exact ⟨[a, x, b], post, _, _, rfl, rfl, Or.inr rfl, rfl⟩
        · cases h
  cases h with
  | ordinal pre l l' h =>
    obtain ⟨parts, post, f, sp, h1, h2, h3, h4⟩ := key pre l l' (Or.inl h)
    exact ⟨pre, parts, post, f, sp, by rw [h1, List.append_assoc], by rw [h2, List.append_assoc], h3, h4⟩
  | decade pre l l' h =>
    obtain ⟨parts, post, f, sp, h1, h2, h3, h4⟩ := key pre l l' (Or.inr (Or.inl h))
    exact ⟨pre, parts, post, f, sp, by rw [h1, List.append_assoc], by rw [h2, List.append_assoc], h3, h4⟩
  | redup pre l l' h =>
    obtain ⟨parts, post, f, sp, h1, h2, h3, h4⟩ := key pre l l' (Or.inr (Or.inr h))
    exact ⟨pre, parts, post, f, sp, by rw [h1, List.append_assoc], by rw [h2, List.append_assoc], h3, h4⟩

/-! ## The tree -/

/-- `for c in cs: c.parent = p` -/
def attachAll (n : Nat) (p : Nat) : List Nat → (Nat → Nat) → Option (Nat → Nat)
  | [], par => some par
  | c :: cs, par => (setParent n par c p).bind (attachAll n p cs)

/-- `for c in d.children: c.parent = p` -/
def takeChildren (n : Nat) (par : Nat → Nat) (p d : Nat) : Option (Nat → Nat) := attachAll n p (childrenOf n par d) par

/-- The tree after `rejoin_ordinal_numerals` or `rejoin_decades` -/
def rejoin (n : Nat) (par : Nat → Nat) (node : Nat) (dash : Option Nat) (number : Nat) : Option (Nat → Nat) :=
  ((if par node = number then setParent n par node (par number) else some par).bind fun p =>
    match dash with
    | some d => takeChildren n p node d
    | none => some p).bind fun p => takeChildren n p node number

/-- The tree after `merge_reduplication`: `first` is kept, `hyph` and `node` are deleted -/
def merge (n : Nat) (par : Nat → Nat) (first hyph node : Nat) : Option (Nat → Nat) := (takeChildren n par first hyph).bind fun p => takeChildren n p first node

/-- `p` in the place of `d` as a parent -/
def moved (n : Nat) (par : Nat → Nat) (p d : Nat) : Nat → Nat := fun x => if x ≠ 0 ∧ x ≤ n ∧ par x = d then p else par x

theorem attachAll_spec {n p : Nat} (hp : p ≤ n) : ∀ (cs : List Nat) (par : Nat → Nat), Tree par → Bounded n par → (∀ c ∈ cs, c ≠ 0) →
    (attachAll n p cs par = none ↔ ∃ c ∈ cs, ∃ k, iter par k p = c) ∧
    (∀ par', attachAll n p cs par = some par' → Tree par' ∧ Bounded n par' ∧ (∀ k, iter par' k p = iter par k p) ∧ ∀ x, par' x = if x ∈ cs then p else par x)
  | [], par, ht, hb, _ => by
    refine ⟨⟨fun h => (nomatch h), fun ⟨c, hc, _⟩ => (nomatch hc)⟩, ?_⟩
    intro par' h
    cases h
    exact ⟨ht, hb, fun _ => rfl, fun x => by simp⟩
  | c :: cs, par, ht, hb, h0 => by
    have hc0 := h0 c (List.mem_cons_self ..)
    have sp := setParent_spec (a := c) (h := p) ht hb hc0 hp
    unfold attachAll
    cases e : setParent n par c p with
    | none => exact ⟨⟨fun _ => ⟨c, List.mem_cons_self .., sp.1.mp e⟩, fun _ => rfl⟩, fun _ h => nomatch h⟩
    | some par1 =>
      obtain ⟨e1, t1, b1⟩ := sp.2 par1 e
      have hno : ∀ k, iter par k p ≠ c := fun k hk => by
        have := sp.1.mpr ⟨k, hk⟩
        rw [this] at e; cases e
      have ch : ∀ k, iter par1 k p = iter par k p := fun k => by rw [e1]; exact iter_upd k p fun j _ => hno j
      obtain ⟨i1, i2⟩ := attachAll_spec hp cs par1 t1 b1 (fun x hx => h0 x (List.mem_cons_of_mem _ hx))
      simp only [Option.bind_some]
      refine ⟨?_, ?_⟩
      · rw [i1]
        constructor
        · rintro ⟨d, hd, k, hk⟩
          exact ⟨d, List.mem_cons_of_mem _ hd, k, by rw [← ch]; exact hk⟩
        · rintro ⟨d, hd, k, hk⟩
          rcases List.mem_cons.mp hd with g | g
          · subst g; exact absurd hk (hno k)
          · exact ⟨d, g, k, by rw [ch]; exact hk⟩
      · intro par' h
        obtain ⟨a1, a2, a3, a4⟩ := i2 par' h
        refine ⟨a1, a2, fun k => by rw [a3, ch], ?_⟩
        intro x
        rw [a4, e1]
        by_cases hx : x ∈ cs
        · simp [hx]
        · by_cases hxc : x = c
          · subst hxc; simp [upd]
          · simp [upd, hx, hxc]

theorem mem_childrenOf {n : Nat} {par : Nat → Nat} {x c : Nat} : c ∈ childrenOf n par x ↔ c ≠ 0 ∧ c ≤ n ∧ par c = x := by
  unfold childrenOf
  rw [List.mem_filter, List.mem_range]
  simp only [Bool.and_eq_true, bne_iff_ne, ne_eq, beq_iff_eq]
  constructor
  · rintro ⟨h1, h2, h3⟩; exact ⟨h2, by omega, h3⟩
  · rintro ⟨h1, h2, h3⟩; exact ⟨by omega, h1, h3⟩

/-- The children of another word can be taken over exactly if one is not below it. -/
theorem takeChildren_spec {n : Nat} {par : Nat → Nat} {p d : Nat} (ht : Tree par) (hb : Bounded n par) (hp : p ≤ n) (hd : d ≠ 0) (hne : p ≠ d) :
    (takeChildren n par p d = none ↔ ∃ k, iter par k p = d) ∧
    (∀ par', takeChildren n par p d = some par' → par' = moved n par p d ∧ Tree par' ∧ Bounded n par' ∧ ∀ k, iter par' k p = iter par k p) := by
  obtain ⟨h1, h2⟩ := attachAll_spec hp (childrenOf n par d) par ht hb (fun c hc => (mem_childrenOf.mp hc).1)
  refine ⟨?_, ?_⟩
  · unfold takeChildren
    rw [h1]
    constructor
    · rintro ⟨c, hc, k, hk⟩
      refine ⟨k + 1, ?_⟩
      rw [iter_add, hk]
      exact (mem_childrenOf.mp hc).2.2
    · rintro ⟨k, hk⟩
      cases k with
      | zero => exact absurd hk hne
      | succ k =>
        rw [iter_add] at hk
        have hk' : par (iter par k p) = d := hk
        refine ⟨iter par k p, mem_childrenOf.mpr ⟨?_, iter_le hb k p hp, hk'⟩, k, rfl⟩
        intro g
        rw [g, ht.1] at hk'
        exact hd hk'.symm
  · intro par' h
    obtain ⟨a1, a2, a3, a4⟩ := h2 par' h
    refine ⟨?_, a1, a2, a3⟩
    funext x
    rw [a4]
    unfold moved
    by_cases hx : x ∈ childrenOf n par d
    · rw [if_pos hx, if_pos (mem_childrenOf.mp hx)]
    · rw [if_neg hx, if_neg (fun g => hx (mem_childrenOf.mpr g))]

/-- Reduplication never raises an exception: the words on the hyphen and on the second part move to the first part, nothing else moves, and nothing is left on the two deleted words. -/
theorem C230_redup (n : Nat) (par : Nat → Nat) (first hyph node : Nat) (ht : Tree par) (hb : Bounded n par) (hf : first ≠ 0) (hh : hyph ≠ 0) (hn : node ≠ 0) (h1 : par node = first)
    (h2 : ∃ k, iter par k hyph = first) (h3 : hyph ≠ first) :
    ∃ par', merge n par first hyph node = some par' ∧ Tree par' ∧
      ∀ x, x ≠ 0 → x ≤ n → par' x = if par x = hyph ∨ par x = node then first else par x := by
  have hfn : first ≤ n := by rw [← h1]; exact hb node
  have nnf : first ≠ node := fun g => (no_cycle ht hn).1 (by rw [h1, g])
  have notH : ∀ k, iter par k first ≠ hyph := by
    intro k hk
    obtain ⟨j, hj⟩ := h2
    have : iter par (k + j) first = first := by rw [iter_add, hk, hj]
    cases k with
    | zero => exact h3 hk.symm
    | succ k => exact no_loop ht hf (by omega) this
  have notN : ∀ k, iter par k first ≠ node := by
    intro k hk
    have : iter par (k + 1) first = first := by rw [iter_add, hk]; exact h1
    exact no_loop ht hf (by omega) this
  obtain ⟨a1, a2⟩ := takeChildren_spec ht hb hfn hh (fun g => h3 g.symm)
  unfold merge
  cases e1 : takeChildren n par first hyph with
  | none => obtain ⟨k, hk⟩ := a1.mp e1; exact absurd hk (notH k)
  | some p1 =>
    obtain ⟨m1, t1, b1, c1⟩ := a2 p1 e1
    obtain ⟨d1, d2⟩ := takeChildren_spec t1 b1 hfn hn nnf
    simp only [Option.bind_some]
    cases e2 : takeChildren n p1 first node with
    | none => obtain ⟨k, hk⟩ := d1.mp e2; rw [c1] at hk; exact absurd hk (notN k)
    | some p2 =>
      obtain ⟨m2, t2, _, _⟩ := d2 p2 e2
      refine ⟨p2, rfl, t2, ?_⟩
      intro x hx hxn
      rw [m2]
      unfold moved
      rw [m1]
      unfold moved
      by_cases g1 : par x = hyph
      · simp [hx, hxn, g1]
      · by_cases g2 : par x = node
        · grind
        · simp [g1, g2]

/-- Numerals: there is no exception if neither the dash nor the number is above the word, except that the word may hang on the number itself. Then the word takes the place of the number if it hung
there, and the words on the dash and the number move to it. -/
theorem C230_rejoin_partial (n : Nat) (par : Nat → Nat) (node dash number : Nat) (ht : Tree par) (hb : Bounded n par) (h0 : node ≠ 0) (hnn : node ≤ n) (hd : dash ≠ 0) (hm : number ≠ 0)
    (h1 : node ≠ dash) (h2 : node ≠ number) (hdash : ∀ k, iter par k node ≠ dash) (hnum : par node = number ∨ ∀ k, iter par k node ≠ number) :
    ∃ par', rejoin n par node (some dash) number = some par' ∧ Tree par' ∧ par' node = (if par node = number then par number else par node) ∧
      ∀ x, x ≠ 0 → x ≤ n → x ≠ node → par' x = if par x = dash ∨ par x = number then node else par x := by
  -- the first step
  have s1 : ∃ p, (if par node = number then setParent n par node (par number) else some par) = some p ∧ Tree p ∧ Bounded n p ∧ (∀ k, iter p k node ≠ dash) ∧ (∀ k, iter p k node ≠ number) ∧
      p node = (if par node = number then par number else par node) ∧ ∀ x, x ≠ node → p x = par x := by
    by_cases g : par node = number
    · have above : ∀ k, iter par k (par number) ≠ node := by
        intro k hk
        have : iter par (k + 2) node = node := by
          rw [Nat.add_comm, iter_add]
          change iter par k (par (par node)) = node
          rw [g]; exact hk
        exact no_loop ht h0 (by omega) this
      have sp := setParent_spec (a := node) (h := par number) ht hb h0 (hb number)
      cases e : setParent n par node (par number) with
      | none => obtain ⟨k, hk⟩ := sp.1.mp e; exact absurd hk (above k)
      | some p =>
        obtain ⟨e1, t1, b1⟩ := sp.2 p e
        have pn : p node = par number := by rw [e1]; simp [upd]
        have chain : ∀ k, iter p (k + 1) node = iter par (k + 2) node := by
          intro k
          rw [show k + 2 = 2 + k from Nat.add_comm .., iter_add par 2 k node]
          change iter p k (p node) = iter par k (par (par node))
          rw [pn, g, e1]
          exact iter_upd k _ fun j _ => above j
        refine ⟨p, by rw [if_pos g], t1, b1, ?_, ?_, by rw [if_pos g]; exact pn, fun x hx => by rw [e1]; simp [upd, hx]⟩
        · intro k
          cases k with
          | zero => exact h1
          | succ k => rw [chain]; exact hdash _
        · intro k
          cases k with
          | zero => exact h2
          | succ k =>
            rw [chain, show k + 2 = 1 + (k + 1) by omega, iter_add]
            change iter par (k + 1) (par node) ≠ number
            rw [g]
            exact no_loop ht hm (by omega)
    · exact ⟨par, by rw [if_neg g], ht, hb, hdash, hnum.resolve_left g, by rw [if_neg g], fun _ _ => rfl⟩
  obtain ⟨p, e, t, b, n1, n2, pn, po⟩ := s1
  unfold rejoin
  rw [e]
  simp only [Option.bind_some]
  obtain ⟨a1, a2⟩ := takeChildren_spec t b hnn hd h1
  cases e1 : takeChildren n p node dash with
  | none => obtain ⟨k, hk⟩ := a1.mp e1; exact absurd hk (n1 k)
  | some p1 =>
    obtain ⟨m1, t1, b1, c1⟩ := a2 p1 e1
    obtain ⟨d1, d2⟩ := takeChildren_spec t1 b1 hnn hm h2
    simp only [Option.bind_some]
    cases e2 : takeChildren n p1 node number with
    | none => obtain ⟨k, hk⟩ := d1.mp e2; rw [c1] at hk; exact absurd hk (n2 k)
    | some p2 =>
      obtain ⟨m2, t2, _, c2⟩ := d2 p2 e2
      refine ⟨p2, rfl, t2, ?_, ?_⟩
      · have : p2 node = p node := by
          have e3 : p2 node = iter p2 1 node := rfl
          rw [e3, c2, c1]; rfl
        rw [this, pn]
      · intro x hx hxn hxo
        rw [m2]
        unfold moved
        rw [m1]
        unfold moved
        rw [po x hxo]
        by_cases g1 : par x = dash
        · simp [hx, hxn, g1]
        · by_cases g2 : par x = number
          · grind
          · simp [g1, g2]

/-- If the word is below the dash and not on the number, there is an exception, in every tree. -/
theorem C230_dash_violated (n : Nat) (par : Nat → Nat) (node dash number : Nat) (ht : Tree par) (hb : Bounded n par) (hnn : node ≤ n) (hd : dash ≠ 0) (h1 : node ≠ dash) (h2 : par node ≠ number)
    (k : Nat) (hk : iter par k node = dash) : rejoin n par node (some dash) number = none := by
  have := (takeChildren_spec ht hb hnn hd h1).1.mpr ⟨k, hk⟩
  unfold rejoin
  rw [if_neg h2]
  simp only [Option.bind_some, this, Option.bind_none]

/-- The same if the word is further down below the number. -/
theorem C230_number_violated (n : Nat) (par : Nat → Nat) (node number : Nat) (ht : Tree par) (hb : Bounded n par) (hnn : node ≤ n) (hm : number ≠ 0) (h1 : node ≠ number) (h2 : par node ≠ number)
    (k : Nat) (hk : iter par k node = number) : rejoin n par node none number = none := by
  have := (takeChildren_spec ht hb hnn hm h1).1.mpr ⟨k, hk⟩
  unfold rejoin
  rw [if_neg h2]
  simp only [Option.bind_some, this]

/-! ## Examples -/

def exE : Env := ⟨fun f => f == ['k', 'e'], fun f => f == ['a', 'n'], fun f => f == ['1', '8'], fun a b => a == b, true⟩

example : ordinal exE [⟨['k', 'e'], true⟩, ⟨['-'], true⟩, ⟨['1', '8'], false⟩] = some [⟨['k', 'e', '-', '1', '8'], false⟩] := by decide
example : Call exE [⟨['a'], true⟩, ⟨['-'], true⟩, ⟨['a'], false⟩] [⟨['a', '-', 'a'], false⟩] := .redup [] _ _ (by decide)
/-- With another hyphen the text changes. -/
example : redup exE [⟨['a'], false⟩, ⟨['–'], false⟩, ⟨['a'], false⟩] = some [⟨['a', '-', 'a'], false⟩] := by decide
/-- `ke`, `-`, `18`: dash and `ke` on the number -/
example : (rejoin 4 (fun x => if x = 1 ∨ x = 2 then 3 else if x = 3 then 4 else 0) 1 (some 2) 3).map (fun p => (List.range 5).map p) = some [0, 4, 1, 4, 0] := by decide
example : (rejoin 4 (fun x => if x = 1 then 2 else if x = 2 then 3 else if x = 3 then 4 else 0) 1 (some 2) 3).isNone = true := by decide
example : (merge 4 (fun x => if x = 3 then 1 else if x = 2 ∨ x = 4 then 3 else 0) 1 2 3).map (fun p => (List.range 5).map p) = some [0, 0, 1, 1, 1] := by decide

end Verif.Blocks.Indonesian
