import Verif.Py.Str

/-!
# Property C188: mentions in HTML (udapi/block/write/corefhtml.py)

`process_tree` (corefhtml.py:376-452) prints the words of a sentence within the `<span>`s of the mentions. The words (empty nodes
included) are numbered from 0. A subspan (C179) is an interval of words; the subspans are given in the order in which they are
taken from the list (corefhtml.py:383-386, coref.py:282-289). Simplified: the texts of the tags, the labels, `<b>` and `<i>` within
a word and the spaces are left out.
-/

namespace Verif.Coref.Html

structure Sub where
  start : Nat
  stop : Nat
  id : Nat
  deriving DecidableEq

inductive Tok
  | norm
  | span (id : Nat)
  | inner
  | close
  | word (i : Nat)
  deriving DecidableEq

/-- `_start_subspan` (corefhtml.py:344-374): with `rtl` a second `<span>` is opened. -/
def opening (rtl : Bool) (s : Sub) : List Tok := .span s.id :: if rtl then [.inner] else []

/-- The end of a subspan (corefhtml.py:417-422). -/
def closing (rtl : Bool) : List Tok := .close :: if rtl then [.close] else []

structure State where
  rest : List Sub
  opened : List Sub
  /-- `prev_node_mention` -/
  prev : Bool

/-- The crossing mentions at a node (corefhtml.py:431-445). The variable `subspan` is that of the loop: the last of `opened`. -/
def crossings (rtl : Bool) (i : Nat) (opened : List Sub) : List Sub × List Tok :=
  let endings := opened.filter fun x => x.stop == i
  if endings = [] then (opened, [])
  else
    let newOpened := opened.takeWhile fun x => x.stop != i
    let brokens := (opened.dropWhile fun x => x.stop != i).filter fun x => x.stop != i
    (newOpened ++ brokens.filterMap fun _ => opened.getLast?,
      List.replicate (endings.length + brokens.length) .close ++ brokens.flatMap (opening rtl))

/-- The loop over the nodes (corefhtml.py:395-448) for one node. -/
def step (rtl : Bool) (i : Nat) (s : State) : State × List Tok :=
  let starting := s.rest.takeWhile fun x => x.start == i
  let opened := s.opened ++ starting
  let out := (if s.prev = false ∧ starting ≠ [] then [.close] else []) ++ starting.flatMap (opening rtl) ++
    (if opened = [] ∧ s.prev = true then [.norm] else []) ++ [.word i]
  let popped := opened.reverse.takeWhile fun x => x.stop == i
  let kept := (opened.reverse.dropWhile fun x => x.stop == i).reverse
  let c := crossings rtl i kept
  (⟨s.rest.dropWhile fun x => x.start == i, c.1, opened != []⟩, out ++ popped.flatMap (fun _ => closing rtl) ++ c.2)

/-- The nodes `i`, `i + 1`, ..., `i + n - 1` and the end of the sentence (corefhtml.py:450-451). -/
def loop (rtl : Bool) : Nat → Nat → State → List Tok
  | 0, _, s => if s.prev = false then [.close] else []
  | n + 1, i, s => (step rtl i s).2 ++ loop rtl n (i + 1) (step rtl i s).1

/-- `process_tree` for `n` words. -/
def sentence (rtl : Bool) (n : Nat) (subs : List Sub) : List Tok := loop rtl n 0 ⟨subs, [], true⟩

/-! ## The reference: reading the tags -/

/-- The element in which something stands. -/
inductive Elem
  | norm
  | span (id : Nat)
  | inner
  deriving DecidableEq

/-- The words with the elements around them (innermost first) and the elements that are open at the end; `none` if a tag is closed
that was not open. -/
def read : List Tok → List Elem → Option (List (Nat × List Elem) × List Elem)
  | [], st => some ([], st)
  | .norm :: ts, st => read ts (.norm :: st)
  | .span k :: ts, st => read ts (.span k :: st)
  | .inner :: ts, st => read ts (.inner :: st)
  | .close :: _, [] => none
  | .close :: ts, _ :: st => read ts st
  | .word i :: ts, st => (read ts st).map fun r => ((i, st) :: r.1, r.2)

def before (a b : Sub) : Prop := a.start < b.start ∨ (a.start = b.start ∧ b.stop ≤ a.stop)

def crosses (x y : Sub) : Prop := x.start < y.start ∧ y.start ≤ x.stop ∧ x.stop < y.stop

instance (x y : Sub) : Decidable (crosses x y) := inferInstanceAs (Decidable (_ ∧ _ ∧ _))
instance (x y : Sub) : Decidable (before x y) := inferInstanceAs (Decidable (_ ∨ (_ ∧ _)))

/-- The elements of a subspan, innermost first. -/
def elems (rtl : Bool) (s : Sub) : List Elem := (if rtl then [.inner] else []) ++ [.span s.id]

/-- The elements that should be around the word `i`. -/
def around (rtl : Bool) (subs : List Sub) (i : Nat) : List Elem :=
  let cover := subs.filter fun s => decide (s.start ≤ i ∧ i ≤ s.stop)
  if cover = [] then [.norm] else cover.reverse.flatMap (elems rtl)

/-! ## Lemmas about reading -/

theorem read_opening (rtl : Bool) (s : Sub) (ts : List Tok) (st : List Elem) :
    read (opening rtl s ++ ts) st = read ts (elems rtl s ++ st) := by
  cases rtl <;> rfl

theorem read_openings (rtl : Bool) : ∀ (ss : List Sub) (ts : List Tok) (st : List Elem),
    read (ss.flatMap (opening rtl) ++ ts) st = read ts (ss.reverse.flatMap (elems rtl) ++ st) := by
  intro ss
  induction ss with
  | nil => intro ts st; rfl
  | cons s ss ih =>
    intro ts st
    rw [List.flatMap_cons, List.append_assoc, read_opening, ih]
    simp

theorem read_closing (rtl : Bool) (s : Sub) (ts : List Tok) (st : List Elem) :
    read (closing rtl ++ ts) (elems rtl s ++ st) = read ts st := by
  cases rtl <;> rfl

theorem read_closings (rtl : Bool) : ∀ (ss : List Sub) (ts : List Tok) (st : List Elem),
    read (ss.flatMap (fun _ => closing rtl) ++ ts) (ss.flatMap (elems rtl) ++ st) = read ts st := by
  intro ss
  induction ss with
  | nil => intro ts st; rfl
  | cons s ss ih =>
    intro ts st
    rw [List.flatMap_cons, List.append_assoc, List.flatMap_cons, List.append_assoc, read_closing, ih]

theorem read_replicate : ∀ (a st : List Elem) (ts : List Tok) (n : Nat), a.length = n →
    read (List.replicate n .close ++ ts) (a ++ st) = read ts st := by
  intro a
  induction a with
  | nil => intro st ts n h; subst h; rfl
  | cons x a ih =>
    intro st ts n h
    subst h
    simp only [List.length_cons, List.replicate_succ, List.cons_append, read]
    exact ih st ts _ rfl

/-! ## Lemmas about lists -/

theorem filter_split (p : Sub → Bool) (l : List Sub) : l.takeWhile p ++ (l.dropWhile p).filter p = l.filter p := by
  induction l with
  | nil => rfl
  | cons x l ih =>
    by_cases h : p x = true
    · simp [h, ih]
    · simp [h]

theorem takeWhile_filter {R : Sub → Sub → Prop} {p : Sub → Bool} : ∀ {l : List Sub}, l.Pairwise R →
    (∀ a b, R a b → p b = true → p a = true) → l.takeWhile p = l.filter p ∧ l.dropWhile p = l.filter (fun x => !p x) := by
  intro l
  induction l with
  | nil => intro _ _; exact ⟨rfl, rfl⟩
  | cons x l ih =>
    intro hl hp
    obtain ⟨h1, h2⟩ := List.pairwise_cons.1 hl
    obtain ⟨i1, i2⟩ := ih h2 hp
    by_cases hx : p x = true
    · simp [hx, i1, i2]
    · have hn : ∀ y ∈ l, p y = false := by
        intro y hy
        cases hpy : p y with
        | false => rfl
        | true => exact absurd (hp x y (h1 y hy) hpy) hx
      have e1 : l.filter p = [] := by
        rw [List.filter_eq_nil_iff]
        intro y hy
        simp [hn y hy]
      have e2 : l.filter (fun x => !p x) = l := by
        rw [List.filter_eq_self]
        intro y hy
        simp [hn y hy]
      simp [hx, e1, e2]

theorem filter_append_sorted {R : Sub → Sub → Prop} {p q : Sub → Bool} : ∀ {l : List Sub}, l.Pairwise R →
    (∀ a b, R a b → q a = true → p b = true → False) → (∀ a, p a = true → q a = true → False) →
    l.filter p ++ l.filter q = l.filter (fun x => p x || q x) := by
  intro l
  induction l with
  | nil => intro _ _ _; rfl
  | cons x l ih =>
    intro hl hr hd
    obtain ⟨h1, h2⟩ := List.pairwise_cons.1 hl
    have ih := ih h2 hr hd
    by_cases hp : p x = true
    · have hq : q x = false := by
        cases hq : q x with
        | false => rfl
        | true => exact absurd (hd x hp hq) id
      simp [hp, hq, ih]
    · by_cases hq : q x = true
      · have hn : l.filter p = [] := by
          rw [List.filter_eq_nil_iff]
          intro y hy hpy
          exact hr x y (h1 y hy) hq hpy
        rw [hn] at ih
        simp [hp, hq, hn] at ih ⊢
        exact ih
      · simp [hp, hq, ih]

theorem kept_append (i : Nat) (l : List Sub) :
    (l.reverse.dropWhile fun x => x.stop == i).reverse ++ (l.reverse.takeWhile fun x => x.stop == i).reverse = l := by
  rw [← List.reverse_append, List.takeWhile_append_dropWhile, List.reverse_reverse]

theorem kept_last (i : Nat) (l : List Sub) (x : Sub) (h : ((l.reverse.dropWhile fun x => x.stop == i).reverse).getLast? = some x) :
    x.stop ≠ i := by
  rw [List.getLast?_reverse] at h
  intro he
  have := List.head?_dropWhile_not (fun x : Sub => x.stop == i) l.reverse
  rw [h] at this
  simp [he] at this

theorem lt_of_before {a b : Sub} (h : before a b) : a.start ≤ b.start := by
  rcases h with h | h
  · omega
  · omega

/-- The subspans that are still open after the node `i`, if no subspan is crossed by two others. -/
theorem crossings_spec {rtl : Bool} {i : Nat} {subs kept : List Sub} (hs : subs.Pairwise before) (hk : kept.Sublist subs)
    (hlast : ∀ x, kept.getLast? = some x → x.stop ≠ i) (hle : ∀ x ∈ kept, x.start ≤ i ∧ i ≤ x.stop)
    (hc : ∀ x ∈ subs, (subs.filter fun y => decide (crosses x y)).length ≤ if rtl then 0 else 1) :
    (crossings rtl i kept).1 = kept.filter (fun x => x.stop != i) ∧
    ∀ ts st, read ((crossings rtl i kept).2 ++ ts) (kept.reverse.flatMap (elems rtl) ++ st) =
      read ts ((kept.filter (fun x => x.stop != i)).reverse.flatMap (elems rtl) ++ st) := by
  unfold crossings
  simp only
  by_cases he : (kept.filter fun x => x.stop == i) = []
  · rw [if_pos he]
    have hall : kept.filter (fun x => x.stop != i) = kept := by
      rw [List.filter_eq_self]
      intro x hx
      rw [List.filter_eq_nil_iff] at he
      simpa using he x hx
    rw [hall]
    exact ⟨rfl, fun ts st => rfl⟩
  · rw [if_neg he]
    -- the first ending subspan
    cases hd : kept.dropWhile fun x => x.stop != i with
    | nil =>
      exfalso
      apply he
      rw [List.filter_eq_nil_iff]
      intro x hx
      have htw : kept.takeWhile (fun x => x.stop != i) = kept := by
        have := List.takeWhile_append_dropWhile (p := fun x : Sub => x.stop != i) (l := kept)
        rw [hd, List.append_nil] at this
        exact this
      rw [← htw] at hx
      have := List.all_takeWhile (p := fun x : Sub => x.stop != i) (l := kept)
      rw [List.all_eq_true] at this
      simpa using this x hx
    | cons x ys =>
      have hx : x.stop = i := by
        have := List.head?_dropWhile_not (fun x : Sub => x.stop != i) kept
        rw [hd] at this
        simpa using this
      have hsplit : kept.takeWhile (fun x => x.stop != i) ++ x :: ys = kept := by
        rw [← hd]
        exact List.takeWhile_append_dropWhile
      have hxk : x ∈ kept := by rw [← hsplit]; simp
      have hsub : (x :: ys).Sublist subs := by
        refine List.Sublist.trans ?_ hk
        rw [← hsplit]
        exact List.sublist_append_right _ _
      have hpw := hs.sublist hsub
      have hyk : ∀ y ∈ ys, y ∈ kept := fun y hy => by rw [← hsplit]; simp [hy]
      have hcross : ∀ y ∈ ys, y.stop ≠ i → crosses x y := by
        intro y hy hne
        have h1 := (List.pairwise_cons.1 hpw).1 y hy
        have h2 := hle y (hyk y hy)
        rcases h1 with h1 | h1
        · exact ⟨h1, by omega, by omega⟩
        · omega
      have hlen : (ys.filter fun y => y.stop != i).length ≤ if rtl then 0 else 1 := by
        refine Nat.le_trans ?_ (hc x (hk.subset hxk))
        apply List.Sublist.length_le
        have e : ys.filter (fun y => y.stop != i) = (ys.filter (fun y => y.stop != i)).filter (fun y => decide (crosses x y)) := by
          symm
          rw [List.filter_eq_self]
          intro y hy
          rw [List.mem_filter] at hy
          exact decide_eq_true (hcross y hy.1 (by simpa using hy.2))
        rw [e]
        apply List.Sublist.filter
        exact List.Sublist.trans List.filter_sublist (List.Sublist.trans (List.sublist_cons_self _ _) hsub)
      -- the last subspan does not end here
      have hbro : (x :: ys).filter (fun y => y.stop != i) = ys.filter (fun y => y.stop != i) := by simp [hx]
      rw [hbro]
      obtain ⟨zs, z, hz⟩ : ∃ zs z, x :: ys = zs ++ [z] := by
        rcases List.eq_nil_or_concat (x :: ys) with h | ⟨zs, z, h⟩
        · cases h
        · exact ⟨zs, z, by simpa using h⟩
      have hzl : kept.getLast? = some z := by
        rw [← hsplit, hz]
        simp
      have hzi := hlast z hzl
      have hzm : z ∈ ys.filter (fun y => y.stop != i) := by
        rw [← hbro, List.mem_filter, hz]
        exact ⟨by simp, by simpa using hzi⟩
      have hrtl : rtl = false := by
        cases rtl with
        | false => rfl
        | true =>
          have h0 : (ys.filter fun y => y.stop != i).length = 0 := by simpa using hlen
          rw [List.length_eq_zero_iff] at h0
          rw [h0] at hzm
          simp at hzm
      subst hrtl
      have hone : ys.filter (fun y => y.stop != i) = [z] := by
        cases hf : ys.filter (fun y => y.stop != i) with
        | nil => rw [hf] at hzm; simp at hzm
        | cons a l =>
          rw [hf] at hlen hzm
          have hl : l = [] := by
            have : l.length = 0 := by simpa using hlen
            exact List.length_eq_zero_iff.1 this
          subst hl
          simp at hzm
          rw [hzm]
      have hres : kept.filter (fun x => x.stop != i) = kept.takeWhile (fun x => x.stop != i) ++ [z] := by
        rw [← filter_split, hd, hbro, hone]
      refine ⟨?_, ?_⟩
      · rw [hres, hone, hzl]
        rfl
      · intro ts st
        rw [hres, hone]
        have hcount : (kept.filter fun x => x.stop == i).length + [z].length = (x :: ys).length := by
          have h1 : (kept.filter fun x => x.stop == i) = (x :: ys).filter fun x => x.stop == i := by
            conv => lhs; rw [← hsplit]
            rw [List.filter_append]
            have : (kept.takeWhile fun x => x.stop != i).filter (fun x => x.stop == i) = [] := by
              rw [List.filter_eq_nil_iff]
              intro y hy
              have := List.all_takeWhile (p := fun x : Sub => x.stop != i) (l := kept)
              rw [List.all_eq_true] at this
              simpa using this y hy
            rw [this, List.nil_append]
          rw [h1, ← hone, ← hbro]
          have : ∀ l : List Sub, (l.filter fun x => x.stop == i).length + (l.filter fun x => x.stop != i).length = l.length := by
            intro l
            induction l with
            | nil => rfl
            | cons a l ih =>
              by_cases ha : a.stop = i
              · simp [ha] at ih ⊢; omega
              · simp [ha] at ih ⊢; omega
          exact this _
        have hkr : kept.reverse.flatMap (elems false) = (x :: ys).reverse.flatMap (elems false) ++
            (kept.takeWhile (fun x => x.stop != i)).reverse.flatMap (elems false) := by
          conv => lhs; rw [← hsplit]
          rw [List.reverse_append, List.flatMap_append]
        have hfl : ∀ l : List Sub, (l.flatMap (elems false)).length = l.length := by
          intro l
          induction l with
          | nil => rfl
          | cons a l ih => simp [elems, ih]
        rw [hkr, List.append_assoc, List.append_assoc, read_replicate _ _ _ _ (by rw [hfl, hcount]; simp), read_openings]
        simp

/-! ## The invariant -/

/-- The subspans open before the node `i`. -/
def openBefore (subs : List Sub) (i : Nat) : List Sub := subs.filter fun s => decide (s.start < i ∧ i ≤ s.stop)

theorem loop_spec {rtl : Bool} {subs : List Sub} (hs : subs.Pairwise before) (hok : ∀ s ∈ subs, s.start ≤ s.stop)
    (hc : ∀ x ∈ subs, (subs.filter fun y => decide (crosses x y)).length ≤ if rtl then 0 else 1) :
    ∀ (n i : Nat) (s : State) (st : List Elem), (∀ x ∈ subs, x.stop < i + n) → s.rest = subs.filter (fun x => decide (i ≤ x.start)) →
      s.opened = openBefore subs i → (s.prev = false → s.opened = []) →
      st = (if s.prev = false then [.norm] else s.opened.reverse.flatMap (elems rtl)) →
      read (loop rtl n i s) st = some ((List.range' i n).map (fun j => (j, around rtl subs j)), []) := by
  intro n
  induction n with
  | zero =>
    intro i s st hn hr ho hp hst
    have hnil : s.opened = [] := by
      rw [ho, openBefore, List.filter_eq_nil_iff]
      intro x hx
      have := hn x hx
      simp
      omega
    subst hst
    rw [hnil]
    cases hprev : s.prev <;> simp [loop, hprev, read]
  | succ n ih =>
    intro i s st hn hr ho hp hst
    have hmono : ∀ {p : Sub → Bool}, (subs.filter p).Pairwise before := fun {p} => hs.sublist List.filter_sublist
    -- the subspans that start here
    have htd := takeWhile_filter (R := before) (p := fun x => x.start == i) (l := s.rest) (by rw [hr]; exact hmono)
    have hstart : s.rest.takeWhile (fun x => x.start == i) = subs.filter (fun x => decide (x.start = i)) ∧
        s.rest.dropWhile (fun x => x.start == i) = subs.filter (fun x => decide (i + 1 ≤ x.start)) := by
      have hpw : s.rest.Pairwise (fun a b => before a b ∧ i ≤ a.start) := by
        rw [hr]
        refine List.Pairwise.and hmono ?_
        rw [List.pairwise_iff_forall_sublist]
        intro a b hab
        have : a ∈ subs.filter (fun x => decide (i ≤ x.start)) := hab.subset (by simp)
        simpa using (List.mem_filter.1 this).2
      obtain ⟨h1, h2⟩ := takeWhile_filter (p := fun x => x.start == i) hpw (by
        intro a b hab hb
        have := lt_of_before hab.1
        simp at hb ⊢
        omega)
      constructor
      · rw [h1, hr, List.filter_filter]
        apply List.filter_congr
        intro x _
        by_cases hx : x.start = i <;> simp [hx]
      · rw [h2, hr, List.filter_filter]
        apply List.filter_congr
        intro x _
        rw [Bool.eq_iff_iff]
        simp
        omega
    obtain ⟨hst1, hst2⟩ := hstart
    clear htd
    have hopened : s.opened ++ s.rest.takeWhile (fun x => x.start == i) = subs.filter (fun x => decide (x.start ≤ i ∧ i ≤ x.stop)) := by
      rw [ho, openBefore, hst1, filter_append_sorted hs]
      · apply List.filter_congr
        intro x hx
        have := hok x hx
        rw [Bool.eq_iff_iff]
        simp
        omega
      · intro a b hab ha hb
        have := lt_of_before hab
        simp at ha hb
        omega
      · intro a ha hb
        simp at ha hb
        omega
    generalize hO : subs.filter (fun x => decide (x.start ≤ i ∧ i ≤ x.stop)) = O at hopened
    have hOsub : O.Sublist subs := by rw [← hO]; exact List.filter_sublist
    have hOle : ∀ x ∈ O, x.start ≤ i ∧ i ≤ x.stop := by
      intro x hx
      rw [← hO] at hx
      simpa using (List.mem_filter.1 hx).2
    have haround : around rtl subs i = if O = [] then [.norm] else O.reverse.flatMap (elems rtl) := by
      simp only [around, hO]
    -- after the word
    generalize hK : (O.reverse.dropWhile fun x => x.stop == i).reverse = K
    generalize hP : (O.reverse.takeWhile fun x => x.stop == i) = P
    have hKP : K ++ P.reverse = O := by rw [← hK, ← hP]; exact kept_append i O
    have hKO : K.Sublist O := by rw [← hKP]; exact List.sublist_append_left _ _
    obtain ⟨hc1, hc2⟩ := crossings_spec (rtl := rtl) (i := i) hs (hKO.trans hOsub)
      (fun x hx => kept_last i O x (by rw [hK]; exact hx)) (fun x hx => hOle x (hKO.subset hx)) hc
    have hPi : ∀ x ∈ P, x.stop = i := by
      intro x hx
      have := List.all_takeWhile (p := fun x : Sub => x.stop == i) (l := O.reverse)
      rw [hP, List.all_eq_true] at this
      simpa using this x hx
    have hnext : K.filter (fun x => x.stop != i) = openBefore subs (i + 1) := by
      have h1 : O.filter (fun x => x.stop != i) = K.filter (fun x => x.stop != i) := by
        rw [← hKP, List.filter_append]
        have : P.reverse.filter (fun x => x.stop != i) = [] := by
          rw [List.filter_eq_nil_iff]
          intro x hx
          simp [hPi x (by simpa using hx)]
        rw [this, List.append_nil]
      rw [← h1, ← hO, List.filter_filter, openBefore]
      apply List.filter_congr
      intro x hx
      rw [Bool.eq_iff_iff]
      simp
      omega
    -- the step
    have hstep1 : (step rtl i s).1 = ⟨subs.filter (fun x => decide (i + 1 ≤ x.start)), openBefore subs (i + 1), O != []⟩ := by
      simp only [step]
      rw [hopened, hst2, hK, hc1, hnext]
    have hread : ∀ ts, read ((step rtl i s).2 ++ ts) st =
        (read ts (if O = [] then [.norm] else (openBefore subs (i + 1)).reverse.flatMap (elems rtl))).map
          fun r => ((i, around rtl subs i) :: r.1, r.2) := by
      intro ts
      simp only [step]
      rw [hopened, hK, hP, haround]
      generalize hS : s.rest.takeWhile (fun x => x.start == i) = S at hopened
      by_cases hOn : O = []
      · have hSn : S = [] := by
          rw [hOn] at hopened
          exact (List.append_eq_nil_iff.1 hopened).2
        have hon : s.opened = [] := by
          rw [hOn] at hopened
          exact (List.append_eq_nil_iff.1 hopened).1
        have hKn : K = [] := by rw [hOn] at hKP; exact (List.append_eq_nil_iff.1 hKP).1
        have hPn : P = [] := by rw [hOn] at hKP; simpa using (List.append_eq_nil_iff.1 hKP).2
        have hcn : (crossings rtl i K).2 = [] := by rw [hKn]; rfl
        subst hst
        rw [hcn, hSn, hOn, hPn, hon]
        cases s.prev <;> simp [read]
      · rw [if_neg hOn, if_neg hOn]
        have hpre : ∀ us, read ((if s.prev = false ∧ S ≠ [] then [.close] else []) ++ (S.flatMap (opening rtl) ++
            ((if O = [] ∧ s.prev = true then [.norm] else []) ++ (.word i :: us)))) st =
            (read us (O.reverse.flatMap (elems rtl))).map fun r => ((i, O.reverse.flatMap (elems rtl)) :: r.1, r.2) := by
          intro us
          have hfin : S.reverse.flatMap (elems rtl) ++ s.opened.reverse.flatMap (elems rtl) = O.reverse.flatMap (elems rtl) := by
            rw [← hopened]
            simp
          have hmid : ∀ st', read (S.flatMap (opening rtl) ++ ((if O = [] ∧ s.prev = true then [.norm] else []) ++ (.word i :: us))) st' =
              (read us (S.reverse.flatMap (elems rtl) ++ st')).map fun r => ((i, S.reverse.flatMap (elems rtl) ++ st') :: r.1, r.2) := by
            intro st'
            rw [read_openings, if_neg (fun h => hOn h.1)]
            rfl
          cases hprev : s.prev with
          | false =>
            have hon := hp hprev
            have hSne : S ≠ [] := by
              intro h
              rw [hon, h] at hopened
              exact hOn hopened.symm
            rw [if_pos ⟨rfl, hSne⟩]
            rw [hprev] at hst hmid
            simp only [if_true] at hst
            subst hst
            show read (S.flatMap (opening rtl) ++ _) [] = _
            rw [hmid []]
            rw [hon] at hfin
            simp only [List.reverse_nil, List.flatMap_nil] at hfin
            rw [hfin]
          | true =>
            rw [if_neg (by simp)]
            rw [hprev] at hst hmid
            simp only [Bool.true_eq_false, if_false] at hst
            subst hst
            rw [List.nil_append, hmid, hfin]
        have hpost : ∀ us, read (P.flatMap (fun _ => closing rtl) ++ ((crossings rtl i K).2 ++ us)) (O.reverse.flatMap (elems rtl)) =
            read us ((openBefore subs (i + 1)).reverse.flatMap (elems rtl)) := by
          intro us
          have : O.reverse.flatMap (elems rtl) = P.flatMap (elems rtl) ++ (K.reverse.flatMap (elems rtl) ++ []) := by
            rw [← hKP]
            simp
          rw [this, read_closings, hc2, hnext, List.append_nil]
        have := hpre (P.flatMap (fun _ => closing rtl) ++ ((crossings rtl i K).2 ++ ts))
        rw [hpost] at this
        rw [← this]
        simp
    rw [loop, hread]
    have := ih (i + 1) (step rtl i s).1 (if O = [] then [.norm] else (openBefore subs (i + 1)).reverse.flatMap (elems rtl))
      (fun x hx => by have := hn x hx; omega) (by rw [hstep1]) (by rw [hstep1]) (by
        rw [hstep1]
        intro h
        have hOn : O = [] := by simpa using h
        have hKn : K = [] := by rw [hOn] at hKP; exact (List.append_eq_nil_iff.1 hKP).1
        show openBefore subs (i + 1) = []
        rw [← hnext, hKn]
        rfl) (by
        rw [hstep1]
        by_cases hOn : O = [] <;> simp [hOn])
    rw [this]
    simp [List.range'_succ]

/-- **C188, partial: no mention is crossed by two others, and by none for languages written from right to left.** The words are
printed in their order, each of them within exactly the mentions that contain it, larger ones outside, and words without mention
within a separate element; all tags are closed. -/
theorem C188_words_partial {rtl : Bool} {n : Nat} {subs : List Sub} (hs : subs.Pairwise before)
    (hok : ∀ s ∈ subs, s.start ≤ s.stop ∧ s.stop < n)
    (hc : ∀ x ∈ subs, (subs.filter fun y => decide (crosses x y)).length ≤ if rtl then 0 else 1) :
    read (sentence rtl n subs) [] = some ((List.range n).map (fun j => (j, around rtl subs j)), []) := by
  rw [List.range_eq_range']
  refine loop_spec hs (fun s h => (hok s h).1) hc n 0 _ _ (fun x hx => by have := (hok x hx).2; omega) ?_ ?_ (by simp) (by simp)
  · symm
    rw [List.filter_eq_self]
    simp
  · symm
    rw [openBefore, List.filter_eq_nil_iff]
    simp

/-- **C188, violated.** If a mention is crossed by two others, one of which goes on longer, a word of the longer one is shown as a
word without mention. -/
theorem C188_two_crossings_violated (a b c : Nat) :
    read (sentence false 5 [⟨0, 2, a⟩, ⟨1, 4, b⟩, ⟨2, 3, c⟩]) [] =
      some ([(0, [.span a]), (1, [.span b, .span a]), (2, [.span c, .span b, .span a]), (3, [.span c, .span b]), (4, [.norm])], []) ∧
    around false [⟨0, 2, a⟩, ⟨1, 4, b⟩, ⟨2, 3, c⟩] 4 = [.span b] := by
  constructor <;> simp [sentence, loop, step, crossings, opening, closing, read, around, elems, List.takeWhile, List.dropWhile, List.filter]

/-- **C188, violated.** With `rtl`, a crossing leaves tags open. -/
theorem C188_rtl_violated (a b : Nat) : (read (sentence true 3 [⟨0, 1, a⟩, ⟨1, 2, b⟩]) []).map Prod.snd = some [.inner, .span a] := by
  simp [sentence, loop, step, crossings, opening, closing, read, List.takeWhile, List.dropWhile, List.filter, List.replicate]

/-- **C188, violated.** A crossing mention is opened twice, and so its `id` is in the page twice. -/
theorem C188_id_violated {a b : Nat} (h : a ≠ b) : (sentence false 3 [⟨0, 1, a⟩, ⟨1, 2, b⟩]).count (.span b) = 2 := by
  simp [sentence, loop, step, crossings, opening, closing, List.takeWhile, List.dropWhile, List.filter, h,
    List.replicate]

/-! ## The tags are closed -/

theorem read_pushes : ∀ (ss : List Sub) (ts : List Tok) (st : List Elem),
    ∃ st', st'.length = ss.length + st.length ∧ read (ss.flatMap (opening false) ++ ts) st = read ts st' := by
  intro ss ts st
  refine ⟨_, ?_, read_openings false ss ts st⟩
  have : ∀ l : List Sub, (l.flatMap (elems false)).length = l.length := by
    intro l
    induction l with
    | nil => rfl
    | cons a l ih => simp [elems, ih]
  rw [List.length_append, this, List.length_reverse]

theorem read_pops : ∀ (n : Nat) (ts : List Tok) (st : List Elem), n ≤ st.length →
    read (List.replicate n .close ++ ts) st = read ts (st.drop n) := by
  intro n ts st h
  conv => lhs; rw [← List.take_append_drop n st]
  exact read_replicate _ _ _ _ (by rw [List.length_take]; omega)

theorem crossings_balanced {i : Nat} {kept : List Sub} (hlast : ∀ x, kept.getLast? = some x → x.stop ≠ i) :
    (∀ x ∈ (crossings false i kept).1, x ∈ kept ∧ x.stop ≠ i) ∧
    ∀ ts st, kept.length ≤ st.length → ∃ st', st'.length + kept.length = st.length + (crossings false i kept).1.length ∧
      read ((crossings false i kept).2 ++ ts) st = read ts st' := by
  unfold crossings
  simp only
  by_cases he : (kept.filter fun x => x.stop == i) = []
  · rw [if_pos he]
    rw [List.filter_eq_nil_iff] at he
    exact ⟨fun x hx => ⟨hx, by simpa using he x hx⟩, fun ts st _ => ⟨st, rfl, rfl⟩⟩
  · rw [if_neg he]
    constructor
    · intro x hx
      rcases List.mem_append.1 hx with hx | hx
      · have := List.all_takeWhile (p := fun x : Sub => x.stop != i) (l := kept)
        rw [List.all_eq_true] at this
        exact ⟨(List.takeWhile_sublist _).subset hx, by simpa using this x hx⟩
      · obtain ⟨_, _, hx⟩ := List.mem_filterMap.1 hx
        exact ⟨List.mem_of_getLast? hx, hlast x hx⟩
    · intro ts st hle
      have hne : kept ≠ [] := by
        intro h
        rw [h] at he
        exact he rfl
      obtain ⟨z, hz⟩ : ∃ z, kept.getLast? = some z := ⟨_, List.getLast?_eq_some_getLast hne⟩
      generalize hB : (kept.dropWhile fun x => x.stop != i).filter (fun x => x.stop != i) = B
      have hcount : (kept.takeWhile fun x => x.stop != i).length + ((kept.filter fun x => x.stop == i).length + B.length) = kept.length := by
        have h1 : (kept.takeWhile fun x => x.stop != i) ++ B = kept.filter fun x => x.stop != i := by
          rw [← hB]
          exact filter_split _ _
        have h2 := congrArg List.length h1
        have h3 : ∀ l : List Sub, (l.filter fun x => x.stop == i).length + (l.filter fun x => x.stop != i).length = l.length := by
          intro l
          induction l with
          | nil => rfl
          | cons a l ih =>
            by_cases ha : a.stop = i
            · simp [ha] at ih ⊢; omega
            · simp [ha] at ih ⊢; omega
        have h4 := h3 kept
        rw [List.length_append] at h2
        omega
      have hfm : (B.filterMap fun _ => kept.getLast?).length = B.length := by
        rw [hz]
        induction B with
        | nil => rfl
        | cons _ B ih => simp
      obtain ⟨st', h1, h2⟩ := read_pushes B ts (st.drop ((kept.filter fun x => x.stop == i).length + B.length))
      refine ⟨st', ?_, ?_⟩
      · rw [h1, List.length_append, hfm, List.length_drop]
        omega
      · rw [List.append_assoc, read_pops _ _ _ (by omega), h2]

theorem loop_balanced : ∀ (n i : Nat) (s : State) (st : List Elem),
    (∀ x ∈ s.rest, x.start ≤ x.stop ∧ x.stop < i + n) → (∀ x ∈ s.opened, i ≤ x.stop ∧ x.stop < i + n) →
    (s.prev = false → s.opened = []) → st.length = s.opened.length + (if s.prev = false then 1 else 0) →
    ∃ ws, read (loop false n i s) st = some (ws, []) ∧ ws.map Prod.fst = List.range' i n := by
  intro n
  induction n with
  | zero =>
    intro i s st hr ho hp hst
    have hon : s.opened = [] := by
      rw [List.eq_nil_iff_forall_not_mem]
      intro x hx
      have := ho x hx
      omega
    rw [hon] at hst
    refine ⟨[], ?_, rfl⟩
    cases hprev : s.prev with
    | false =>
      rw [hprev] at hst
      cases st with
      | nil => simp at hst
      | cons e st =>
        cases st with
        | nil => simp [loop, hprev, read]
        | cons _ _ => simp at hst
    | true =>
      rw [hprev] at hst
      have : st = [] := List.length_eq_zero_iff.1 (by simpa using hst)
      subst this
      simp [loop, hprev, read]
  | succ n ih =>
    intro i s st hr ho hp hst
    generalize hS : s.rest.takeWhile (fun x => x.start == i) = S
    have hSr : ∀ x ∈ S, x ∈ s.rest ∧ x.start = i := by
      intro x hx
      rw [← hS] at hx
      have := List.all_takeWhile (p := fun x : Sub => x.start == i) (l := s.rest)
      rw [List.all_eq_true] at this
      exact ⟨(List.takeWhile_sublist _).subset hx, by simpa using this x hx⟩
    generalize hO : s.opened ++ S = O
    have hOb : ∀ x ∈ O, i ≤ x.stop ∧ x.stop < i + (n + 1) := by
      intro x hx
      rw [← hO] at hx
      rcases List.mem_append.1 hx with hx | hx
      · exact ho x hx
      · obtain ⟨h1, h2⟩ := hSr x hx
        have := hr x h1
        omega
    generalize hK : (O.reverse.dropWhile fun x => x.stop == i).reverse = K
    generalize hP : (O.reverse.takeWhile fun x => x.stop == i) = P
    have hKP : K ++ P.reverse = O := by rw [← hK, ← hP]; exact kept_append i O
    obtain ⟨hc1, hc2⟩ := crossings_balanced (i := i) (kept := K) (fun x hx => kept_last i O x (by rw [hK]; exact hx))
    have hlenO : K.length + P.length = O.length := by
      rw [← hKP]
      simp
    have hread : ∀ ts, ∃ e st', read ((step false i s).2 ++ ts) st = (read ts st').map (fun r => ((i, e) :: r.1, r.2)) ∧
        st'.length = (step false i s).1.opened.length + (if O = [] then 1 else 0) := by
      intro ts
      simp only [step]
      rw [hS, hO, hK, hP]
      have hpre : ∀ us, ∃ e, e.length = O.length + (if O = [] then 1 else 0) ∧
          read ((if s.prev = false ∧ S ≠ [] then [.close] else []) ++ (S.flatMap (opening false) ++
            ((if O = [] ∧ s.prev = true then [.norm] else []) ++ (.word i :: us)))) st =
            (read us e).map fun r => ((i, e) :: r.1, r.2) := by
        intro us
        have hOl : O.length = s.opened.length + S.length := by rw [← hO]; simp
        cases hprev : s.prev with
        | false =>
          have hon := hp hprev
          rw [hprev, hon] at hst
          have hOS : O = S := by rw [← hO, hon]; rfl
          cases st with
          | nil => simp at hst
          | cons e0 st =>
            have hst0 : st = [] := by
              cases st with
              | nil => rfl
              | cons _ _ => simp at hst
            subst hst0
            by_cases hSn : S = []
            · refine ⟨[e0], by rw [hOS, hSn]; rfl, ?_⟩
              rw [hOS, hSn]
              simp [read]
            · rw [if_pos (show false = false ∧ S ≠ [] from ⟨rfl, hSn⟩)]
              obtain ⟨e, h1, h2⟩ := read_pushes S ((if O = [] ∧ false = true then [.norm] else []) ++ (.word i :: us)) []
              refine ⟨e, ?_, ?_⟩
              · rw [h1, hOS, if_neg (show ¬ S = [] from hSn)]
                rfl
              · show read (S.flatMap (opening false) ++ _) [] = _
                rw [h2]
                simp [read]
        | true =>
          rw [hprev] at hst
          simp only [Bool.true_eq_false, if_false, Nat.add_zero] at hst
          rw [if_neg (show ¬ (true = false ∧ S ≠ []) by simp)]
          obtain ⟨e, h1, h2⟩ := read_pushes S ((if O = [] ∧ true = true then [.norm] else []) ++ (.word i :: us)) st
          by_cases hOn : O = []
          · refine ⟨.norm :: e, ?_, ?_⟩
            · rw [List.length_cons, h1, if_pos (show O = [] from hOn)]
              omega
            · rw [List.nil_append, h2, if_pos (show O = [] ∧ true = true from ⟨hOn, rfl⟩)]
              rfl
          · refine ⟨e, ?_, ?_⟩
            · rw [h1, if_neg (show ¬ O = [] from hOn)]
              omega
            · rw [List.nil_append, h2, if_neg (show ¬ (O = [] ∧ true = true) from fun h => hOn h.1)]
              rfl
      obtain ⟨e, he1, he2⟩ := hpre (P.flatMap (fun _ => closing false) ++ ((crossings false i K).2 ++ ts))
      have hPc : P.flatMap (fun _ => closing false) = List.replicate P.length .close := by
        clear hP hKP hlenO he2
        induction P with
        | nil => rfl
        | cons _ P ih => simp [closing, List.replicate_succ] at ih ⊢; exact ih
      obtain ⟨st', h1, h2⟩ := hc2 ts (e.drop P.length) (by rw [List.length_drop]; omega)
      refine ⟨e, st', ?_, ?_⟩
      · rw [← h2, ← read_pops P.length _ e (by omega), ← hPc, ← he2]
        simp
      · rw [List.length_drop] at h1
        omega
    obtain ⟨e, st', hr1, hr2⟩ := hread (loop false n (i + 1) (step false i s).1)
    obtain ⟨ws, hw1, hw2⟩ := ih (i + 1) (step false i s).1 st' (by
        intro x hx
        have hx' : x ∈ s.rest := (List.dropWhile_sublist _).subset (show x ∈ s.rest.dropWhile _ from hx)
        have := hr x hx'
        omega) (by
        intro x hx
        simp only [step] at hx
        rw [hS, hO, hK] at hx
        obtain ⟨h1, h2⟩ := hc1 x hx
        have := hOb x (by rw [← hKP]; simp [h1])
        omega) (by
        simp only [step]
        rw [hS, hO, hK]
        intro h
        have hOn : O = [] := by simpa using h
        have hKn : K = [] := by rw [hOn] at hKP; exact (List.append_eq_nil_iff.1 hKP).1
        rw [hKn]
        rfl) (by
        rw [hr2]
        have hprev : (step false i s).1.prev = (O != []) := by
          simp only [step]
          rw [hS, hO]
        rw [hprev]
        by_cases hOn : O = [] <;> simp [hOn])
    refine ⟨(i, e) :: ws, ?_, by simp [hw2, List.range'_succ]⟩
    rw [loop, hr1, hw1]
    rfl

/-- **C188.** Whatever the mentions are, all words are printed in their order and exactly the tags that were opened are closed
(for languages written from left to right). -/
theorem C188_balanced {n : Nat} {subs : List Sub} (hok : ∀ s ∈ subs, s.start ≤ s.stop ∧ s.stop < n) :
    ∃ ws, read (sentence false n subs) [] = some (ws, []) ∧ ws.map Prod.fst = List.range n := by
  rw [List.range_eq_range']
  exact loop_balanced n 0 _ _ (fun x hx => by have := hok x hx; exact ⟨this.1, by omega⟩) (by simp) (by simp) (by simp)

/-! ## Examples -/

/-- `(e1 a (e2 b e1) c e2) d` -/
example : sentence false 4 [⟨0, 1, 1⟩, ⟨1, 2, 2⟩] =
    [.span 1, .word 0, .span 2, .word 1, .close, .close, .span 2, .word 2, .close, .norm, .word 3, .close] := by decide
example : read (sentence true 3 [⟨0, 2, 1⟩, ⟨1, 1, 2⟩]) [] =
    some ([(0, [.inner, .span 1]), (1, [.inner, .span 2, .inner, .span 1]), (2, [.inner, .span 1])], []) := by decide

end Verif.Coref.Html
