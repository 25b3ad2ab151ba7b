import Verif.Blocks.Articles
import Verif.Tree.Lemmas

/-!
# Property C228: es.ElQue hangs relative clauses on their determiner

Source: `udapi/block/ud/es/elque.py:20-112` with `fix=1` (`fix_pattern` and `attach`); `print_pattern` only prints. The words are numbered from 1 to `n`, 0 is the technical root; every word has a
parent, a relation and a list of enhanced relations. Relations are abstract: `elrel` gives the new relation of the determiner for the relation of the verb (lines 82-92), `low` says `cc`, `mark`,
`case` or `punct`.
-/

namespace Verif.Blocks.ElQue
open Verif.Blocks.GoogleSwap Verif.Blocks.Articles

/-! ## The setter of `parent`, exactly -/

def Bounded (n : Nat) (par : Nat → Nat) : Prop := ∀ x, par x ≤ n

theorem iter_add (par : Nat → Nat) : ∀ (j k x : Nat), iter par (j + k) x = iter par k (iter par j x)
  | 0, k, x => by rw [Nat.zero_add]; rfl
  | j + 1, k, x => by rw [Nat.succ_add]; exact iter_add par j k (par x)

theorem iter_root {par : Nat → Nat} (h0 : par 0 = 0) : ∀ k, iter par k 0 = 0
  | 0 => rfl
  | k + 1 => by rw [iter, h0]; exact iter_root h0 k

theorem iter_le {n : Nat} {par : Nat → Nat} (hb : Bounded n par) : ∀ (k x : Nat), x ≤ n → iter par k x ≤ n
  | 0, _, h => h
  | k + 1, x, _ => iter_le hb k (par x) (hb x)

/-- No word but the root is above itself. -/
theorem no_loop {par : Nat → Nat} (ht : Tree par) {x : Nat} (hx : x ≠ 0) {k : Nat} (hk : 0 < k) : iter par k x ≠ x := by
  intro e
  have all : ∀ m, iter par (m * k) x = x := by
    intro m
    induction m with
    | zero => rw [Nat.zero_mul]; rfl
    | succ m ih => rw [Nat.succ_mul, iter_add, ih]; exact e
  obtain ⟨d, hd⟩ := ht.2 x
  have h1 : d ≤ d * k := Nat.le_mul_of_pos_right d hk
  have h2 : iter par (d * k) x = 0 := by
    have : d * k = d + (d * k - d) := by omega
    rw [this, iter_add, hd]; exact iter_root ht.1 _
  rw [all d] at h2
  exact hx h2

/-- In a tree of `n` words the root is at most `n` steps up. -/
theorem depth_le {n : Nat} {par : Nat → Nat} (ht : Tree par) (hb : Bounded n par) (x : Nat) (hx : x ≤ n) : iter par n x = 0 := by
  by_cases h : iter par n x = 0
  · exact h
  exfalso
  have nz : ∀ k, k ≤ n → iter par k x ≠ 0 := by
    intro k hk e
    have : n = k + (n - k) := by omega
    rw [this, iter_add, e] at h
    exact h (iter_root ht.1 _)
  have nd : ((List.range (n + 1)).map fun k => iter par k x).Nodup := by
    unfold List.Nodup
    rw [List.pairwise_map]
    have hr : (List.range (n + 1)).Pairwise fun a b => a < b ∧ b < n + 1 := by
      refine List.Pairwise.imp_of_mem ?_ (List.pairwise_lt_range (n := n + 1))
      intro a b _ hb' hlt
      exact ⟨hlt, List.mem_range.mp hb'⟩
    refine hr.imp ?_
    intro a b hab e
    have e2 : iter par b x = iter par (b - a) (iter par a x) := by rw [← iter_add]; congr 1; omega
    rw [e2] at e
    exact no_loop ht (nz a (by omega)) (by omega) e.symm
  have := Verif.Tree.length_le_of_nodup_subset (m := (List.range n).map (· + 1)) nd (by
    intro y hy
    obtain ⟨k, hk, rfl⟩ := List.mem_map.mp hy
    have h1 := nz k (by have := List.mem_range.mp hk; omega)
    have h2 := iter_le hb k x hx
    exact List.mem_map.mpr ⟨iter par k x - 1, List.mem_range.mpr (by omega), by omega⟩)
  simp at this
  omega

theorem reaches_iff {n : Nat} {par : Nat → Nat} (ht : Tree par) (hb : Bounded n par) {x d : Nat} (hx : x ≤ n) : reaches par n x d = true ↔ ∃ k, iter par k x = d := by
  unfold reaches
  rw [List.any_eq_true]
  constructor
  · rintro ⟨k, _, h⟩; exact ⟨k, by simpa using h⟩
  · rintro ⟨k, h⟩
    by_cases hk : k ≤ n
    · exact ⟨k, List.mem_range.mpr (by omega), by simpa using h⟩
    · refine ⟨n, List.mem_range.mpr (by omega), ?_⟩
      have : k = n + (k - n) := by omega
      rw [this, iter_add, depth_le ht hb x hx, iter_root ht.1] at h
      rw [depth_le ht hb x hx, h]; simp

/-- The chain of a word that is not below `a` does not change when `a` is moved. -/
theorem iter_upd {par : Nat → Nat} {a h : Nat} : ∀ (k y : Nat), (∀ j, j < k → iter par j y ≠ a) → iter (upd par a h) k y = iter par k y
  | 0, _, _ => rfl
  | k + 1, y, hy => by
    have : upd par a h y = par y := by simp [upd, show y ≠ a from hy 0 (by omega)]
    rw [iter, iter, this]
    exact iter_upd k (par y) fun j hj => hy (j + 1) (by omega)

theorem upd_tree' {par : Nat → Nat} {a h : Nat} (ht : Tree par) (ha : a ≠ 0) (hh : ∀ k, iter par k h ≠ a) : Tree (upd par a h) := by
  refine tree_of ht (by simp only [upd, if_neg (Ne.symm ha)]; exact ht.1) ?_
  intro k x _ hk ih
  by_cases hx : x = a
  · subst hx
    obtain ⟨m, hm⟩ := ht.2 h
    exact up_to (y := h) (by simp [upd]) ⟨m, by rw [iter_upd m h fun j _ => hh j]; exact hm⟩
  · exact up_to (y := par x) (by simp [upd, hx]) (ih k _ (Nat.le_refl _) hk)

/-- The setter refuses exactly if the new parent is the word itself or below it; else it changes this one parent and leaves a tree. -/
theorem setParent_spec {n : Nat} {par : Nat → Nat} {a h : Nat} (ht : Tree par) (hb : Bounded n par) (ha : a ≠ 0) (hh : h ≤ n) :
    (setParent n par a h = none ↔ ∃ k, iter par k h = a) ∧ (∀ par', setParent n par a h = some par' → par' = upd par a h ∧ Tree par' ∧ Bounded n par') := by
  have same : par a = h → upd par a h = par := by
    intro e
    funext x
    unfold upd
    split
    · next g => rw [g, e]
    · rfl
  have bd : Bounded n (upd par a h) := by
    intro x
    unfold upd
    split
    · exact hh
    · exact hb x
  unfold setParent
  by_cases h1 : par a = h
  · rw [if_pos h1]
    refine ⟨⟨fun g => (nomatch g), ?_⟩, ?_⟩
    · rintro ⟨k, hk⟩
      rw [← h1] at hk
      exact absurd (show iter par (k + 1) a = a from hk) (no_loop ht ha (by omega))
    · intro par' e
      cases e
      exact ⟨(same h1).symm, ht, hb⟩
  · rw [if_neg h1]
    by_cases h2 : reaches par n h a = true
    · rw [if_pos h2]
      exact ⟨⟨fun _ => (reaches_iff ht hb hh).mp h2, fun _ => rfl⟩, fun _ e => nomatch e⟩
    · rw [if_neg h2]
      have h3 : ∀ k, iter par k h ≠ a := fun k e => h2 ((reaches_iff ht hb hh).mpr ⟨k, e⟩)
      refine ⟨⟨fun g => (nomatch g), fun ⟨k, hk⟩ => absurd hk (h3 k)⟩, ?_⟩
      intro par' e
      cases e
      exact ⟨rfl, upd_tree' ht ha h3, bd⟩

/-! ## The block -/

structure St (R : Type) where
  par : Nat → Nat
  rel : Nat → R
  deps : Nat → List (Nat × R)

variable {R : Type}

def setRel (rel : Nat → R) (x : Nat) : Option R → Nat → R
  | none => rel
  | some r => fun y => if y = x then r else rel y

def setDep (p : Nat) (r : Option R) : List (Nat × R) → List (Nat × R)
  | [d] => [(p, r.getD d.2)]
  | ds => ds

/-- `attach` (lines 97-112); `none` for `CycleError` -/
def attach (n : Nat) (s : St R) (x p : Nat) (r : Option R) : Option (St R) :=
  (setParent n s.par x p).map fun par' => ⟨par', setRel s.rel x r, fun y => if y = x then setDep p r (s.deps y) else s.deps y⟩

/-- What the block is told about the language and the relations. -/
structure Env (R : Type) where
  n : Nat
  elrel : R → Option R
  low : R → Bool
  case : R
  relcl : R

/-- Lines 70-72 -/
def one (e : Env R) (adp : Option Nat) (el que verb : Nat) (s : St R) : Option (St R) :=
  match adp with
  | some a => if s.par a = que ∨ s.par a = verb then attach e.n s a el (some e.case) else some s
  | none => some s

/-- Lines 73-78; the second assignment repeats what `attach` has done -/
def two (e : Env R) (el que verb : Nat) (s : St R) : Option (St R) := if s.par el = que then attach e.n s el verb none else some s

/-- Lines 95-97 -/
def lowest (e : Env R) (el : Nat) : List Nat → St R → Option (St R)
  | [], s => some s
  | c :: cs, s => if c < el ∧ e.low (s.rel c) = true then (attach e.n s c el none).bind (lowest e el cs) else lowest e el cs s

def childrenOf (n : Nat) (par : Nat → Nat) (x : Nat) : List Nat := (List.range (n + 1)).filter fun c => c != 0 && par c == x

def turn (e : Env R) (el verb : Nat) (r : R) (s : St R) : Option (St R) :=
  (attach e.n s el (s.par verb) (some r)).bind fun s1 => (attach e.n s1 verb el (some e.relcl)).bind fun s2 => lowest e el (childrenOf e.n s2.par verb) s2

/-- Lines 79-97 -/
def three (e : Env R) (adp : Option Nat) (el que verb : Nat) (s : St R) : Option (St R) :=
  if some (s.par verb) ≠ adp ∧ s.par verb ≠ el ∧ s.par verb ≠ que then
    match e.elrel (s.rel verb) with
    | none => some s
    | some r => turn e el verb r s
  else some s

def fix (e : Env R) (adp : Option Nat) (el que verb : Nat) (s : St R) : Option (St R) :=
  ((one e adp el que verb s).bind (two e el que verb)).bind (three e adp el que verb)

/-- A word with one enhanced relation has there the parent and the relation of the basic tree. -/
def InStep (s : St R) (x : Nat) : Prop := ∀ p r, s.deps x = [(p, r)] → p = s.par x ∧ r = s.rel x

/-- What every attachment keeps. -/
def Good (n : Nat) (s s' : St R) : Prop :=
  Tree s'.par ∧ Bounded n s'.par ∧ (∀ x, InStep s x → InStep s' x) ∧ (∀ x, (s.deps x).length ≠ 1 → s'.deps x = s.deps x) ∧ (∀ x, (s'.deps x).length = (s.deps x).length)

theorem Good.refl {n : Nat} {s : St R} (ht : Tree s.par) (hb : Bounded n s.par) : Good n s s := ⟨ht, hb, fun _ h => h, fun _ _ => rfl, fun _ => rfl⟩

theorem Good.trans {n : Nat} {s t u : St R} (h1 : Good n s t) (h2 : Good n t u) : Good n s u :=
  ⟨h2.1, h2.2.1, fun x h => h2.2.2.1 x (h1.2.2.1 x h), fun x h => by rw [h2.2.2.2.1 x (by rw [h1.2.2.2.2 x]; exact h), h1.2.2.2.1 x h],
    fun x => by rw [h2.2.2.2.2 x, h1.2.2.2.2 x]⟩

theorem attach_good {n : Nat} {s s' : St R} {x p : Nat} {r : Option R} (ht : Tree s.par) (hb : Bounded n s.par) (hx : x ≠ 0) (hp : p ≤ n) (h : attach n s x p r = some s') :
    Good n s s' ∧ s'.par = upd s.par x p ∧ s'.rel = setRel s.rel x r := by
  unfold attach at h
  cases e : setParent n s.par x p with
  | none => rw [e] at h; cases h
  | some par' =>
    rw [e] at h
    cases h
    obtain ⟨e1, e2, e3⟩ := (setParent_spec ht hb hx hp).2 par' e
    refine ⟨⟨e2, e3, ?_, ?_, ?_⟩, e1, rfl⟩
    · intro y hy q t hq
      simp only at hq ⊢
      by_cases hyx : y = x
      · subst hyx
        rw [if_pos rfl] at hq
        cases hd : s.deps y with
        | nil => rw [hd] at hq; cases hq
        | cons d ds =>
          cases ds with
          | nil =>
            rw [hd] at hq
            simp only [setDep, List.cons.injEq, Prod.mk.injEq, and_true] at hq
            obtain ⟨h1, h2⟩ := hq
            refine ⟨by rw [e1, ← h1]; simp [upd], ?_⟩
            rw [← h2]
            cases r with
            | none => exact (hy d.1 d.2 hd).2
            | some r => simp [setRel]
          | cons d' ds => rw [hd] at hq; simp [setDep] at hq
      · rw [if_neg hyx] at hq
        obtain ⟨h1, h2⟩ := hy q t hq
        refine ⟨by rw [e1, h1]; simp [upd, hyx], ?_⟩
        rw [h2]
        cases r with
        | none => rfl
        | some r => simp [setRel, hyx]
    · intro y hy
      simp only
      split
      · cases hd : s.deps y with
        | nil => rfl
        | cons d ds =>
          cases ds with
          | nil => rw [hd] at hy; simp at hy
          | cons d' ds => rfl
      · rfl
    · intro y
      simp only
      split
      · cases hd : s.deps y with
        | nil => rfl
        | cons d ds => cases ds <;> rfl
      · rfl

theorem lowest_good {e : Env R} {el verb : Nat} (hel : el ≤ e.n) : ∀ (cs : List Nat) (s s' : St R), Tree s.par → Bounded e.n s.par → (∀ c ∈ cs, c ≠ 0) → lowest e el cs s = some s' →
    Good e.n s s' ∧ (∀ x, (x ∉ cs ∨ el ≤ x) → s'.par x = s.par x) ∧ s'.rel = s.rel
  | [], s, s', ht, hb, _, h => by cases h; exact ⟨Good.refl ht hb, fun _ _ => rfl, rfl⟩
  | c :: cs, s, s', ht, hb, h0, h => by
    unfold lowest at h
    split at h
    · next hc =>
      cases ea : attach e.n s c el none with
      | none => rw [ea] at h; cases h
      | some s1 =>
        rw [ea] at h
        obtain ⟨g1, p1, r1⟩ := attach_good ht hb (h0 c (List.mem_cons_self ..)) hel ea
        obtain ⟨g2, p2, r2⟩ := lowest_good (verb := verb) hel cs s1 s' g1.1 g1.2.1 (fun x hx => h0 x (List.mem_cons_of_mem _ hx)) h
        refine ⟨g1.trans g2, ?_, by rw [r2, r1]; rfl⟩
        intro x hx
        rw [p2 x (hx.imp (fun g k => g (List.mem_cons_of_mem _ k)) id), p1]
        unfold upd
        rw [if_neg]
        rintro rfl
        rcases hx with hx | hx
        · exact hx (List.mem_cons_self ..)
        · omega
    · obtain ⟨g2, p2, r2⟩ := lowest_good (verb := verb) hel cs s s' ht hb (fun x hx => h0 x (List.mem_cons_of_mem _ hx)) h
      exact ⟨g2, fun x hx => p2 x (hx.imp (fun g k => g (List.mem_cons_of_mem _ k)) id), r2⟩

theorem childrenOf_ne {n : Nat} {par : Nat → Nat} {x c : Nat} (h : c ∈ childrenOf n par x) : c ≠ 0 ∧ par c = x := by
  unfold childrenOf at h
  have := (List.mem_filter.mp h).2
  simpa using this

theorem one_good {e : Env R} {adp : Option Nat} {el que verb : Nat} {s s' : St R} (ht : Tree s.par) (hb : Bounded e.n s.par) (hel : el ≤ e.n) (hq : que ≠ 0) (hv : verb ≠ 0)
    (h : one e adp el que verb s = some s') : Good e.n s s' ∧ (∀ x, some x ≠ adp → s'.par x = s.par x ∧ s'.rel x = s.rel x) ∧
      (∀ x, s.par x ≠ que → s.par x ≠ verb → s'.par x = s.par x ∧ s'.rel x = s.rel x) := by
  unfold one at h
  split at h
  · next a =>
    split at h
    · next hc =>
      have ha : a ≠ 0 := by
        rintro rfl
        rw [ht.1] at hc
        rcases hc with g | g
        · exact hq g.symm
        · exact hv g.symm
      obtain ⟨g, p, r⟩ := attach_good ht hb ha hel h
      refine ⟨g, ?_, ?_⟩
      · intro x hx
        have : x ≠ a := fun k => hx (by rw [k])
        rw [p, r]
        simp [upd, setRel, this]
      · intro x h1 h2
        have : x ≠ a := by
          rintro rfl
          rcases hc with g | g
          · exact h1 g
          · exact h2 g
        rw [p, r]
        simp [upd, setRel, this]
    · cases h; exact ⟨Good.refl ht hb, fun _ _ => ⟨rfl, rfl⟩, fun _ _ _ => ⟨rfl, rfl⟩⟩
  · cases h; exact ⟨Good.refl ht hb, fun _ _ => ⟨rfl, rfl⟩, fun _ _ _ => ⟨rfl, rfl⟩⟩

theorem two_good {e : Env R} {el que verb : Nat} {s s' : St R} (ht : Tree s.par) (hb : Bounded e.n s.par) (hel : el ≠ 0) (hv : verb ≤ e.n) (h : two e el que verb s = some s') :
    Good e.n s s' ∧ (∀ x, x ≠ el → s'.par x = s.par x) ∧ s'.rel = s.rel := by
  unfold two at h
  split at h
  · obtain ⟨g, p, r⟩ := attach_good ht hb hel hv h
    exact ⟨g, fun x hx => by rw [p]; simp [upd, hx], r⟩
  · cases h; exact ⟨Good.refl ht hb, fun _ _ => rfl, rfl⟩

theorem turn_good {e : Env R} {el verb : Nat} {r : R} {s s' : St R} (ht : Tree s.par) (hb : Bounded e.n s.par) (hel : el ≠ 0) (hel' : el ≤ e.n) (hv : verb ≠ 0) (hlt : el < verb)
    (h : turn e el verb r s = some s') :
    Good e.n s s' ∧ s'.par el = s.par verb ∧ s'.par verb = el ∧ s'.rel el = r ∧ s'.rel verb = e.relcl ∧ (∀ x, el < x → x ≠ verb → s'.par x = s.par x) := by
  unfold turn at h
  cases e1 : attach e.n s el (s.par verb) (some r) with
  | none => rw [e1] at h; cases h
  | some s1 =>
    rw [e1] at h
    obtain ⟨g1, p1, r1⟩ := attach_good ht hb hel (hb verb) e1
    simp only [Option.bind_some] at h
    cases e2 : attach e.n s1 verb el (some e.relcl) with
    | none => rw [e2] at h; cases h
    | some s2 =>
      rw [e2] at h
      obtain ⟨g2, p2, r2⟩ := attach_good g1.1 g1.2.1 hv hel' e2
      simp only [Option.bind_some] at h
      obtain ⟨g3, p3, r3⟩ := lowest_good (verb := verb) hel' _ _ _ g2.1 g2.2.1 (fun c hc => (childrenOf_ne hc).1) h
      have hne : el ≠ verb := by omega
      refine ⟨(g1.trans g2).trans g3, ?_, ?_, ?_, ?_, ?_⟩
      · rw [p3 el (Or.inr (Nat.le_refl _)), p2, p1]; simp [upd, hne]
      · rw [p3 verb (Or.inr (by omega)), p2]; simp [upd]
      · rw [r3, r2, r1]; simp [setRel, hne]
      · rw [r3, r2]; simp [setRel]
      · intro x h1 h2
        rw [p3 x (Or.inr (by omega)), p2, p1]
        have : x ≠ el := by omega
        simp [upd, this, h2]

/-! ## C228 -/

/-- What the block knows about the words: the determiner stands directly before the pronoun, which hangs on a later word. -/
structure Pat (e : Env R) (el que verb : Nat) (s : St R) : Prop where
  tree : Tree s.par
  bounded : Bounded e.n s.par
  first : el ≠ 0
  next : que = el + 1
  after : que < verb
  head : s.par que = verb

theorem Pat.verb_le {e : Env R} {el que verb : Nat} {s : St R} (h : Pat e el que verb s) : verb ≤ e.n := by rw [← h.head]; exact h.bounded que

theorem three_good {e : Env R} {adp : Option Nat} {el que verb : Nat} {s s' : St R} (ht : Tree s.par) (hb : Bounded e.n s.par) (hel : el ≠ 0) (hel' : el ≤ e.n) (hlt : el < verb)
    (h : three e adp el que verb s = some s') : Good e.n s s' := by
  unfold three at h
  split at h
  · split at h
    · cases h; exact Good.refl ht hb
    · exact (turn_good ht hb hel hel' (by omega) hlt h).1
  · cases h; exact Good.refl ht hb

/-- If there is no exception, the result is a tree; every word whose only enhanced relation agreed with its basic one still has that; words with none or with several enhanced relations keep
them. -/
theorem C228_tree (e : Env R) (adp : Option Nat) (el que verb : Nat) (s s' : St R) (hp : Pat e el que verb s) (h : fix e adp el que verb s = some s') :
    Tree s'.par ∧ (∀ x, InStep s x → InStep s' x) ∧ (∀ x, (s.deps x).length ≠ 1 → s'.deps x = s.deps x) := by
  have hn := hp.next
  have ha := hp.after
  have hv := hp.verb_le
  unfold fix at h
  cases e1 : one e adp el que verb s with
  | none => rw [e1] at h; cases h
  | some s1 =>
    rw [e1] at h
    simp only [Option.bind_some] at h
    obtain ⟨g1, _, _⟩ := one_good hp.tree hp.bounded (by omega) (by omega) (by omega) e1
    cases e2 : two e el que verb s1 with
    | none => rw [e2] at h; cases h
    | some s2 =>
      rw [e2] at h
      simp only [Option.bind_some] at h
      obtain ⟨g2, _, _⟩ := two_good g1.1 g1.2.1 hp.first hv e2
      have g3 := three_good g2.1 g2.2.1 hp.first (by omega) (by omega) h
      have g := (g1.trans g2).trans g3
      exact ⟨g.1, g.2.2.1, g.2.2.2.1⟩

/-- If the verb hangs on none of the words of the pattern and its relation is known, then after the block the determiner has the place of the verb and the new relation, the verb is its relative
clause, and the pronoun still hangs on the verb. -/
theorem C228_result (e : Env R) (adp : Option Nat) (el que verb : Nat) (s s' : St R) (r : R) (hp : Pat e el que verb s) (h : fix e adp el que verb s = some s') (hq : adp ≠ some que)
    (h1 : some (s.par verb) ≠ adp) (h2 : s.par verb ≠ el) (hr : e.elrel (s.rel verb) = some r) :
    s'.par el = s.par verb ∧ s'.rel el = r ∧ s'.par verb = el ∧ s'.rel verb = e.relcl ∧ s'.par que = verb := by
  have hn := hp.next
  have ha := hp.after
  have hv := hp.verb_le
  have nc := no_cycle hp.tree (x := que) (by omega)
  rw [hp.head] at nc
  have nv := no_cycle hp.tree (x := verb) (by omega)
  unfold fix at h
  cases e1 : one e adp el que verb s with
  | none => rw [e1] at h; cases h
  | some s1 =>
    rw [e1] at h
    simp only [Option.bind_some] at h
    obtain ⟨g1, q1, q1'⟩ := one_good hp.tree hp.bounded (by omega) (by omega) (by omega) e1
    cases e2 : two e el que verb s1 with
    | none => rw [e2] at h; cases h
    | some s2 =>
      rw [e2] at h
      simp only [Option.bind_some] at h
      obtain ⟨g2, q2, r2⟩ := two_good g1.1 g1.2.1 hp.first hv e2
      have pv : s2.par verb = s.par verb := by rw [q2 verb (by omega), (q1' verb nc.2 nv.1).1]
      have rv : s2.rel verb = s.rel verb := by rw [r2, (q1' verb nc.2 nv.1).2]
      have pq : s2.par que = verb := by rw [q2 que (by omega), (q1 que (fun g => hq g.symm)).1, hp.head]
      unfold three at h
      rw [if_pos (by rw [pv]; exact ⟨h1, h2, nc.2⟩), rv, hr] at h
      obtain ⟨_, a1, a2, a3, a4, a5⟩ := turn_good g2.1 g2.2.1 hp.first (by omega) (by omega) (by omega) h
      exact ⟨by rw [a1, pv], a3, a2, a4, by rw [a5 que (by omega) (by omega), pq]⟩

/-- If the preposition hangs on the verb or the pronoun and the determiner is below it, there is an exception, in every tree. -/
theorem C228_adp_violated (e : Env R) (a el que verb : Nat) (s : St R) (hp : Pat e el que verb s) (hc : s.par a = que ∨ s.par a = verb) (k : Nat) (hk : iter s.par k el = a) :
    fix e (some a) el que verb s = none := by
  have hn := hp.next
  have ha := hp.after
  have hv := hp.verb_le
  have ha0 : a ≠ 0 := by
    rintro rfl
    rw [hp.tree.1] at hc
    rcases hc with g | g <;> omega
  have : setParent e.n s.par a el = none := (setParent_spec hp.tree hp.bounded ha0 (by omega)).1.mpr ⟨k, hk⟩
  unfold fix one
  simp only [if_pos hc, attach, this, Option.map_none, Option.bind_none]

/-- If there is no preposition, the relation of the verb is known and its parent is another word below the determiner, there is an exception, in every tree. -/
theorem C228_clause_violated (e : Env R) (el que verb : Nat) (s : St R) (r : R) (hp : Pat e el que verb s) (hr : e.elrel (s.rel verb) = some r) (h2 : s.par verb ≠ el) (k : Nat)
    (hk : iter s.par k (s.par verb) = el) : fix e none el que verb s = none := by
  have hn := hp.next
  have ha := hp.after
  have hv := hp.verb_le
  have nc := no_cycle hp.tree (x := que) (by omega)
  rw [hp.head] at nc
  have hne : s.par el ≠ que := by
    intro g
    have : iter s.par (k + 1 + 2) verb = verb := by
      rw [iter_add, show iter s.par (k + 1) verb = el from hk]
      change s.par (s.par el) = verb
      rw [g]; exact hp.head
    exact no_loop hp.tree (by omega) (by omega) this
  have : setParent e.n s.par el (s.par verb) = none := (setParent_spec hp.tree hp.bounded hp.first (hp.bounded verb)).1.mpr ⟨k, hk⟩
  unfold fix one two three
  simp only [Option.bind_some, if_neg hne]
  rw [if_pos ⟨by simp, h2, nc.2⟩, hr]
  simp only [turn, attach, this, Option.map_none, Option.bind_none]

/-- Below, but never through the word that is moved. -/
theorem lowest_some {e : Env R} {el verb : Nat} (hel : el ≤ e.n) : ∀ (cs : List Nat) (s : St R), Tree s.par → Bounded e.n s.par → (∀ c ∈ cs, c ≠ 0 ∧ ∀ k, iter s.par k el ≠ c) → (lowest e el cs s).isSome = true
  | [], _, _, _, _ => rfl
  | c :: cs, s, ht, hb, hc => by
    unfold lowest
    split
    · have h0 := hc c (List.mem_cons_self ..)
      cases ea : attach e.n s c el none with
      | none =>
        exfalso
        unfold attach at ea
        rw [Option.map_eq_none_iff] at ea
        obtain ⟨k, hk⟩ := (setParent_spec ht hb h0.1 hel).1.mp ea
        exact h0.2 k hk
      | some s1 =>
        obtain ⟨g1, p1, _⟩ := attach_good ht hb h0.1 hel ea
        refine lowest_some (verb := verb) hel cs s1 g1.1 g1.2.1 ?_
        intro d hd
        have hd' := hc d (List.mem_cons_of_mem _ hd)
        refine ⟨hd'.1, ?_⟩
        intro k
        rw [p1, iter_upd k el fun j _ => h0.2 j]
        exact hd'.2 k
    · exact lowest_some (verb := verb) hel cs s ht hb fun d hd => hc d (List.mem_cons_of_mem _ hd)

theorem attach_some {n : Nat} {s : St R} {x p : Nat} {r : Option R} (ht : Tree s.par) (hb : Bounded n s.par) (hx : x ≠ 0) (hp : p ≤ n) (h : ∀ k, iter s.par k p ≠ x) :
    ∃ s', attach n s x p r = some s' := by
  unfold attach
  cases e : setParent n s.par x p with
  | none => obtain ⟨k, hk⟩ := (setParent_spec ht hb hx hp).1.mp e; exact absurd hk (h k)
  | some par' => exact ⟨_, rfl⟩

/-- There is no exception if the determiner is not below the preposition and the parent of the verb is not below the determiner. -/
theorem C228_no_exception_partial (e : Env R) (adp : Option Nat) (el que verb : Nat) (s : St R) (hp : Pat e el que verb s) (h1 : ∀ a, adp = some a → ∀ k, iter s.par k el ≠ a)
    (h2 : ∀ k, iter s.par k (s.par verb) ≠ el) : (fix e adp el que verb s).isSome = true := by
  have hn := hp.next
  have ha := hp.after
  have hv := hp.verb_le
  have hel : el ≤ e.n := by omega
  have nc := no_cycle hp.tree (x := que) (by omega)
  rw [hp.head] at nc
  have nv := no_cycle hp.tree (x := verb) (by omega)
  -- the first step, which leaves the chain of the verb as it is
  have s1 : ∃ s1, one e adp el que verb s = some s1 ∧ ∀ k, iter s1.par k verb = iter s.par k verb := by
    unfold one
    split
    · next a =>
      split
      · next hc =>
        have ha0 : a ≠ 0 := by
          rintro rfl
          rw [hp.tree.1] at hc
          rcases hc with g | g <;> omega
        obtain ⟨s1, e1⟩ := attach_some (r := some e.case) hp.tree hp.bounded ha0 hel (h1 a rfl)
        refine ⟨s1, e1, ?_⟩
        intro k
        rw [(attach_good hp.tree hp.bounded ha0 hel e1).2.1]
        refine iter_upd k verb ?_
        intro j _ g
        rcases hc with hc | hc
        · have : iter s.par (j + 2) verb = verb := by
            rw [iter_add, g]
            change s.par (s.par a) = verb
            rw [hc]; exact hp.head
          exact no_loop hp.tree (by omega) (by omega) this
        · have : iter s.par (j + 1) verb = verb := by
            rw [iter_add, g]; exact hc
          exact no_loop hp.tree (by omega) (by omega) this
      · exact ⟨s, rfl, fun _ => rfl⟩
    · exact ⟨s, rfl, fun _ => rfl⟩
  obtain ⟨s1, e1, c1⟩ := s1
  obtain ⟨g1, _, _⟩ := one_good hp.tree hp.bounded hel (by omega) (by omega) e1
  have notEl : ∀ k, iter s1.par k verb ≠ el := by
    intro k
    rw [c1]
    cases k with
    | zero => change verb ≠ el; omega
    | succ k => exact h2 k
  have s2 : ∃ s2, two e el que verb s1 = some s2 ∧ ∀ k, iter s2.par k verb = iter s1.par k verb := by
    unfold two
    split
    · obtain ⟨s2, e2⟩ := attach_some (r := none) g1.1 g1.2.1 hp.first hv notEl
      refine ⟨s2, e2, ?_⟩
      intro k
      rw [(attach_good g1.1 g1.2.1 hp.first hv e2).2.1]
      exact iter_upd k verb fun j _ => notEl j
    · exact ⟨s1, rfl, fun _ => rfl⟩
  obtain ⟨s2, e2, c2⟩ := s2
  obtain ⟨g2, _, _⟩ := two_good g1.1 g1.2.1 hp.first hv e2
  unfold fix
  rw [e1]
  simp only [Option.bind_some, e2]
  unfold three
  split
  · split
    · rfl
    · next r _ =>
      have n2 : ∀ k, iter s2.par k verb ≠ el := fun k => by rw [c2]; exact notEl k
      unfold turn
      obtain ⟨s3, e3⟩ := attach_some (r := some r) g2.1 g2.2.1 hp.first (g2.2.1 verb) (fun k => n2 (k + 1))
      obtain ⟨g3, p3, _⟩ := attach_good g2.1 g2.2.1 hp.first (g2.2.1 verb) e3
      rw [e3]
      simp only [Option.bind_some]
      have pel : s3.par el = s2.par verb := by rw [p3]; simp [upd]
      have pv : s3.par verb = s2.par verb := by rw [p3]; simp [upd, show verb ≠ el by omega]
      have n3 : ∀ k, iter s3.par k el ≠ verb := by
        intro k
        cases k with
        | zero => change el ≠ verb; omega
        | succ k =>
          intro g
          rw [iter, pel, ← pv] at g
          exact no_loop g3.1 (by omega) (by omega) (show iter s3.par (k + 1) verb = verb from g)
      obtain ⟨s4, e4⟩ := attach_some (r := some e.relcl) g3.1 g3.2.1 (by omega : verb ≠ 0) hel n3
      obtain ⟨g4, p4, _⟩ := attach_good g3.1 g3.2.1 (by omega) hel e4
      rw [e4]
      simp only [Option.bind_some]
      have pv4 : s4.par verb = el := by rw [p4]; simp [upd]
      refine lowest_some (verb := verb) hel _ _ g4.1 g4.2.1 ?_
      intro c hc
      obtain ⟨hc0, hcv⟩ := childrenOf_ne hc
      refine ⟨hc0, ?_⟩
      intro k g
      have : iter s4.par (k + 2) el = el := by
        rw [iter_add, g]
        change s4.par (s4.par c) = el
        rw [hcv, pv4]
      exact no_loop g4.1 hp.first (by omega) this
  · rfl

/-! ## Examples -/

/-- `y los que vienen`: `los` on `vienen`, `que` on `vienen`, `vienen` the subject of word 5; relations: 0 subject, 1 `cc`, 2 `det`, 3 `nsubj`, 4 `acl:relcl`, 5 `case` -/
def exE : Env Nat := ⟨5, fun r => if r = 3 then some 0 else none, fun r => r == 1, 5, 4⟩
def exS : St Nat := ⟨fun x => if x = 1 ∨ x = 2 ∨ x = 3 then 4 else if x = 4 then 5 else 0, fun x => if x = 1 then 1 else if x = 4 then 3 else 2, fun x => if x = 4 then [(5, 3)] else []⟩

example : (fix exE none 2 3 4 exS).map (fun s => ((List.range 6).map s.par, (List.range 6).map s.rel, s.deps 4)) = some ([0, 2, 5, 4, 2, 0], [2, 1, 0, 2, 4, 2], [(2, 4)]) := by decide
/-- `de los que vienen`, `los` on `de` on `vienen` -/
example : (fix exE (some 1) 2 3 4 { exS with par := fun x => if x = 2 then 1 else exS.par x }).isNone = true := by decide
/-- The verb hangs on a child of the determiner. -/
example : (fix exE none 2 3 4 { exS with par := fun x => if x = 2 then 0 else if x = 5 then 2 else exS.par x }).isNone = true := by decide

end Verif.Blocks.ElQue
