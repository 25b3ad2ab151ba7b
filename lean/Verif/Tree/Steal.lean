import Verif.Tree.LemmasEdit
import Verif.Tree.LemmasRemove

/-!
# Property C50: `Root.steal_nodes` (udapi/core/root.py:266-301)

Beside the heap there is a store of multi-word tokens with the list of every root. `MWT.root` is set when a token is created
and is not changed by anything later (mwt.py:9-15). Forms and MISC attributes of tokens are left out.
-/

namespace Verif.Tree
open Verif.Py

/-! ## The heap -/

/-- `for child in ...: child._parent = old_root; old_root._children = sorted(old_root._children + [child])` (root.py:281-283) -/
def stealKids (old : Nat) : Heap → List Nat → Heap
  | h, [] => h
  | h, c :: cs =>
    stealKids old { h with parent := upd h.parent c (some old), children := upd h.children old (sortNodes h.ord (h.children old ++ [c])) } cs

/-- The body of the first loop (root.py:277-288); `k` is `new_ord` before it. A node without a parent, which is a technical root,
would raise in the code; the theorems are about words. -/
def stealOne (whole : Bool) (old t : Nat) (S : List Nat) (k : Nat) (h : Heap) (x : Nat) : Heap :=
  let h1 := { h with ord := upd h.ord x (k + 1), root := upd h.root x t }
  let h2 :=
    if whole then h1
    else
      let h' := stealKids old h1 ((h1.children x).filter (fun n => n ∉ S))
      { h' with children := upd h'.children x ((h'.children x).filter (fun n => n ∈ S)) }
  match h2.parent x with
  | none => h2
  | some p =>
    if p = old ∨ (whole = false ∧ p ∉ S) then
      let c1 := upd h2.children p ((h2.children p).filter (fun n => n ≠ x))
      { h2 with children := upd c1 t (c1 t ++ [x]), parent := upd h2.parent x (some t) }
    else h2

/-- The first loop (root.py:276-288). -/
def stealLoop (whole : Bool) (old t : Nat) (S : List Nat) : Nat → Heap → List Nat → Heap
  | _, h, [] => h
  | k, h, x :: xs => stealLoop whole old t S (k + 1) (stealOne whole old t S k h x) xs

/-! ## Multi-word tokens of several trees -/

structure Mwts where
  /-- `word._mwt` -/
  of : Nat → Option Nat
  /-- `mwt.words` -/
  words : Nat → List Nat
  /-- `mwt.root` -/
  root : Nat → Nat
  /-- `root._mwts` -/
  list : Nat → List Nat
  next : Nat

/-- `for word in words: word._mwt = v` -/
def setOf (f : Nat → Option Nat) (v : Option Nat) : List Nat → (Nat → Option Nat)
  | [] => f
  | x :: l => setOf (upd f x v) v l

/-- `mwt.remove()` (mwt.py:40-44) -/
def mwtRemove (m : Mwts) (j : Nat) : Mwts × Option Err :=
  let m1 := { m with of := setOf m.of none (m.words j) }
  if j ∈ m1.list (m1.root j) then ({ m1 with list := upd m1.list (m1.root j) ((m1.list (m1.root j)).erase j) }, none)
  else (m1, some .valueError)

/-- `for w in words: if w.multiword_token: w.multiword_token.remove()` (root.py:181-183) -/
def mwtRemoveOld (m : Mwts) : List Nat → Mwts × Option Err
  | [] => (m, none)
  | w :: ws =>
    match m.of w with
    | none => mwtRemoveOld m ws
    | some j =>
      match mwtRemove m j with
      | (m', some e) => (m', some e)
      | (m', none) => mwtRemoveOld m' ws

/-- `root.create_multiword_token(words)` (root.py:170-191) -/
def mwtCreate (m : Mwts) (r : Nat) (ws : List Nat) : Mwts × Option Err :=
  match mwtRemoveOld m ws with
  | (m', some e) => (m', some e)
  | (m', none) =>
    let j := m'.next
    let m1 : Mwts := ⟨setOf m'.of (some j) ws, upd m'.words j ws, upd m'.root j r, upd m'.list r (m'.list r ++ [j]), j + 1⟩
    if ws = [] then (m1, some .indexError) else (m1, none)

/-- The second loop (root.py:296-300): `mwt` is the token of the last node, for every node. -/
def mwtLoop (t : Nat) (S : List Nat) (mwt : Option Nat) : Mwts → List Nat → Mwts × Option Err
  | m, [] => (m, none)
  | m, _ :: xs =>
    match mwt with
    | none => mwtLoop t S mwt m xs
    | some j =>
      let ws := (m.words j).filter (fun w => w ∈ S)
      match mwtRemove m j with
      | (m1, some e) => (m1, some e)
      | (m1, none) =>
        match mwtCreate m1 t ws with
        | (m2, some e) => (m2, some e)
        | (m2, none) => mwtLoop t S mwt m2 xs

/-- `t.steal_nodes(nodes)` (root.py:266-301) -/
def steal (h : Heap) (m : Mwts) (t : Nat) (nodes : List Nat) : Heap × Mwts × Option Err :=
  match nodes with
  | [] => (h, m, some .indexError)
  | x :: xs =>
    let old := h.root x
    if xs.any (fun y => h.root y ≠ old) then (h, m, some .valueError)
    else
      let S := sortNodes h.ord (x :: xs)
      let whole := decide (S = h.words old)
      let h1 := stealLoop whole old t S (h.words t).length h S
      if whole then
        let m1 := { m with list := upd (upd m.list t (m.list t ++ m.list old)) old [] }
        ({ h1 with words := upd (upd h1.words old []) t (upd h1.words old [] t ++ S) }, m1, none)
      else
        let w1 := upd h1.words old ((h1.words old).filter (fun n => n ∉ S))
        match mwtLoop t S (S.getLast?.bind m.of) m S with
        | (m1, some e) => ({ h1 with words := w1 }, m1, some e)
        | (m1, none) => ({ h1 with words := upd w1 t (w1 t ++ S) }, m1, none)

/-! ## Proofs: the loop over the nodes -/

theorem kids_frame (old : Nat) : ∀ (cs : List Nat) (h : Heap), (stealKids old h cs).ord = h.ord ∧ (stealKids old h cs).root = h.root ∧
    (stealKids old h cs).words = h.words ∧ (stealKids old h cs).next = h.next ∧
    (∀ y, y ≠ old → (stealKids old h cs).children y = h.children y) ∧
    (∀ y, (stealKids old h cs).parent y = if y ∈ cs then some old else h.parent y) ∧
    ((stealKids old h cs).children old).Perm (h.children old ++ cs)
  | [], h => ⟨rfl, rfl, rfl, rfl, fun _ _ => rfl, fun _ => by simp [stealKids], by simp [stealKids]⟩
  | c :: cs, h => by
    obtain ⟨h1, h2, h3, h4, h5, h6, h7⟩ := kids_frame old cs
      { h with parent := upd h.parent c (some old), children := upd h.children old (sortNodes h.ord (h.children old ++ [c])) }
    unfold stealKids
    refine ⟨h1, h2, h3, h4, ?_, ?_, ?_⟩
    · intro y hy
      rw [h5 y hy]
      exact upd_ne _ _ hy
    · intro y
      rw [h6 y]
      by_cases hy : y ∈ cs
      · simp [hy]
      · by_cases hyc : y = c
        · simp [hyc, upd]
        · simp [hy, hyc, upd]
    · refine h7.trans ?_
      have : upd h.children old (sortNodes h.ord (h.children old ++ [c])) old = sortNodes h.ord (h.children old ++ [c]) := by simp [upd]
      simp only [this]
      refine ((sortNodes_perm h.ord _).append_right cs).trans ?_
      simp

theorem kids_sorted (old x : Nat) : ∀ (cs : List Nat) (h : Heap), (h.children old ++ cs).Nodup →
    (∀ a ∈ h.children old ++ cs, ∀ b ∈ h.children old ++ cs, a ≠ x → b ≠ x → h.ord a = h.ord b → a = b) →
    ((h.children old).filter (fun n => n ≠ x)).Pairwise (fun a b => h.ord a < h.ord b) →
    (((stealKids old h cs).children old).filter (fun n => n ≠ x)).Pairwise (fun a b => h.ord a < h.ord b)
  | [], h, _, _, hs => hs
  | c :: cs, h, hn, hinj, _ => by
    unfold stealKids
    have hp : (sortNodes h.ord (h.children old ++ [c]) ++ cs).Perm (h.children old ++ c :: cs) := by
      refine ((sortNodes_perm h.ord _).append_right cs).trans ?_
      simp
    have hu : upd h.children old (sortNodes h.ord (h.children old ++ [c])) old = sortNodes h.ord (h.children old ++ [c]) := by simp [upd]
    have := kids_sorted old x cs
      { h with parent := upd h.parent c (some old), children := upd h.children old (sortNodes h.ord (h.children old ++ [c])) }
    simp only [hu] at this
    refine this (hp.nodup_iff.2 hn) ?_ ?_
    · intro a ha b hb
      exact hinj a (hp.mem_iff.1 ha) b (hp.mem_iff.1 hb)
    · have h1 := pySort_pairwise (ordLe_trans h.ord) (ordLe_total h.ord) (h.children old ++ [c])
      have hn' : (h.children old ++ [c]).Nodup := by
        have : h.children old ++ c :: cs = (h.children old ++ [c]) ++ cs := by simp
        rw [this] at hn
        exact (List.nodup_append.1 hn).1
      have h2 : (sortNodes h.ord (h.children old ++ [c])).Nodup := (sortNodes_perm h.ord _).nodup_iff.2 hn'
      have h3 := (h1.and h2).sublist (List.filter_sublist (p := fun n => decide (n ≠ x)))
      refine h3.imp_of_mem ?_
      intro a b ha hb ⟨hab, hne⟩
      have ha' := List.mem_filter.1 ha
      have hb' := List.mem_filter.1 hb
      simp only [ordLe, decide_eq_true_eq] at hab
      have hm : ∀ y, y ∈ pySort (ordLe h.ord) (h.children old ++ [c]) → y ∈ h.children old ++ c :: cs := by
        intro y hy
        have := (mem_sortNodes (ord := h.ord)).1 hy
        rcases List.mem_append.1 this with h | h
        · exact List.mem_append_left _ h
        · exact List.mem_append_right _ (by rw [List.mem_singleton.1 h]; exact List.mem_cons_self ..)
      have : h.ord a ≠ h.ord b := fun e => hne (hinj a (hm a ha'.1) b (hm b hb'.1) (by simpa using ha'.2) (by simpa using hb'.2) e)
      omega

theorem renumber_snoc : ∀ (l : List Nat) (k x : Nat) (ord : Nat → Nat),
    renumber ord k (l ++ [x]) = upd (renumber ord k l) x (k + l.length)
  | [], k, x, ord => rfl
  | a :: l, k, x, ord => by
    show renumber (upd ord a k) (k + 1) (l ++ [x]) = _
    rw [renumber_snoc l]
    show _ = upd (renumber (upd ord a k) (k + 1) l) x (k + (l.length + 1))
    rw [show k + 1 + l.length = k + (l.length + 1) by omega]

/-- The parent of `y` when the nodes `P` of the nodes `S` were moved. -/
def newParent (h0 : Heap) (old t : Nat) (S P : List Nat) (y : Nat) : Option Nat :=
  match h0.parent y with
  | none => none
  | some p => if y ∈ P then some (if p ∈ S then p else t) else if y ∈ h0.words old ∧ y ∉ S ∧ p ∈ P then some old else some p

/-- The parent of a moved word is not moved. -/
def cut (h0 : Heap) (S : List Nat) (y : Nat) : Bool := match h0.parent y with | none => false | some p => decide (p ∉ S)

/-- What the heap looks like when the nodes `P` of the nodes `S` were moved. -/
structure SI (h0 h : Heap) (old t : Nat) (S P : List Nat) : Prop where
  ord : h.ord = renumber h0.ord ((h0.words t).length + 1) P
  root : ∀ y, h.root y = if y ∈ P then t else h0.root y
  parent : ∀ y, h.parent y = newParent h0 old t S P y
  chT : h.children t = h0.children t ++ P.filter (cut h0 S)
  chOld : ∀ c, c ∈ h.children old ↔ c ∈ h0.words old ∧ c ∉ P ∧ ∃ p, h0.parent c = some p ∧ (p = old ∨ (c ∉ S ∧ p ∈ P))
  oldSorted : (h.children old).Pairwise (fun a b => h0.ord a < h0.ord b)
  chS : ∀ y ∈ S, y ∉ P → h.children y = h0.children y
  chP : ∀ y ∈ P, h.children y = (h0.children y).filter (fun n => n ∈ S)
  chK : ∀ y ∈ h0.words old, y ∉ S → h.children y = (h0.children y).filter (fun n => n ∉ P)
  chO : ∀ y, y ≠ t → y ≠ old → y ∉ h0.words old → h.children y = h0.children y
  words : h.words = h0.words
  next : h.next = h0.next

/-- A tree that is well formed up to the numbering: the numbers of its words only have to increase. -/
structure WFo (h : Heap) (r : Nat) : Prop where
  sorted : (h.words r).Pairwise (fun a b => h.ord a < h.ord b)
  pos : ∀ x ∈ h.words r, 1 ≤ h.ord x
  rootOrd : h.ord r = 0
  rootParent : h.parent r = none
  rootOf : ∀ x ∈ h.words r, h.root x = r
  parentIn : ∀ x ∈ h.words r, ∃ p, h.parent x = some p ∧ InTree h r p
  reach : ∀ x ∈ h.words r, Anc h r x
  childIff : ∀ p, InTree h r p → ∀ x, x ∈ h.children p ↔ (x ∈ h.words r ∧ h.parent x = some p)
  childSorted : ∀ p, InTree h r p → (h.children p).Pairwise (fun x y => h.ord x < h.ord y)
  alloc : ∀ x ∈ h.words r, x < h.next

/-- Two orders that agree with the order of a list agree with each other. -/
theorem order_transfer {f g : Nat → Nat} : ∀ {l : List Nat}, l.Pairwise (fun a b => f a < f b) → l.Pairwise (fun a b => g a < g b) →
    ∀ x ∈ l, ∀ y ∈ l, f x < f y → g x < g y
  | [], _, _, x, hx, _, _, _ => absurd hx List.not_mem_nil
  | a :: l, hf, hg, x, hx, y, hy, hxy => by
    rw [List.pairwise_cons] at hf hg
    rcases List.mem_cons.1 hx with rfl | hx' <;> rcases List.mem_cons.1 hy with rfl | hy'
    · omega
    · exact hg.1 y hy'
    · have := hf.1 x hx'; omega
    · exact order_transfer hf.2 hg.2 x hx' y hy' hxy

theorem WF.weaken {h : Heap} {r : Nat} (w : WF h r) : WFo h r :=
  ⟨aligned_pairwise w.aligned, fun _ hx => w.ord_pos hx, w.rootOrd, w.rootParent, w.rootOf, w.parentIn, w.reach, w.childIff, w.childSorted, w.alloc⟩

namespace WFo
variable {h : Heap} {r : Nat}

theorem nodup (w : WFo h r) : (h.words r).Nodup := pairwise_ord_nodup w.sorted

theorem root_not_mem (w : WFo h r) : r ∉ h.words r := by
  intro hm
  have := w.pos r hm
  rw [w.rootOrd] at this
  omega

theorem anc_ord {a b : Nat} {f : Nat → Nat} (hab : Anc h a b) : Anc { h with ord := f } a b := by
  induction hab with
  | parent e => exact .parent e
  | step e _ ih => exact .step e ih

/-- Numbering the words 1, 2, ... makes the tree well formed. -/
theorem compact (w : WFo h r) : WF { h with ord := renumber h.ord 1 (h.words r) } r := by
  have hs := renumber_spec w.nodup h.ord 1
  refine ⟨hs.1, ?_, w.rootParent, w.rootOf, w.parentIn, fun x hx => anc_ord (w.reach x hx), w.childIff, ?_, w.alloc⟩
  · show renumber h.ord 1 (h.words r) r = 0
    rw [hs.2 r w.root_not_mem]
    exact w.rootOrd
  · intro p hp
    refine (w.childSorted p hp).imp_of_mem ?_
    intro a b ha hb hab
    exact order_transfer w.sorted (aligned_pairwise hs.1) a ((w.childIff p hp a).1 ha).1 b ((w.childIff p hp b).1 hb).1 hab

theorem strengthen (w : WFo h r) (ha : Aligned h.ord 1 (h.words r)) : WF h r :=
  ⟨ha, w.rootOrd, w.rootParent, w.rootOf, w.parentIn, w.reach, w.childIff, w.childSorted, w.alloc⟩

theorem anc_irrefl (w : WFo h r) {x : Nat} (hx : InTree h r x) : ¬ Anc h x x := fun ha => w.compact.anc_irrefl hx (anc_ord ha)

theorem child_mem (w : WFo h r) {p x : Nat} (hp : InTree h r p) (hx : x ∈ h.children p) : x ∈ h.words r := ((w.childIff p hp x).1 hx).1

theorem children_nodup (w : WFo h r) {p : Nat} (hp : InTree h r p) : (h.children p).Nodup := pairwise_ord_nodup (w.childSorted p hp)

theorem ord_inj (w : WFo h r) {x y : Nat} (hx : x ∈ h.words r) (hy : y ∈ h.words r) (e : h.ord x = h.ord y) : x = y := by
  have hs := renumber_spec w.nodup h.ord 1
  rcases Nat.lt_trichotomy (renumber h.ord 1 (h.words r) x) (renumber h.ord 1 (h.words r) y) with h1 | h1 | h1
  · have := order_transfer (aligned_pairwise hs.1) w.sorted x hx y hy h1
    omega
  · exact aligned_inj hs.1 hx hy h1
  · have := order_transfer (aligned_pairwise hs.1) w.sorted y hy x hx h1
    omega

theorem induct (w : WFo h r) (P : Nat → Prop) (hroot : P r)
    (hstep : ∀ x p, x ∈ h.words r → h.parent x = some p → InTree h r p → P p → P x) : ∀ x, InTree h r x → P x :=
  w.compact.induct P hroot hstep

theorem inTree_root (w : WFo h r) (hr : IsTree h r) {x : Nat} (hx : InTree h r x) : h.root x = r :=
  hx.elim (fun e => by rw [e]; exact hr.2) (w.rootOf x)

end WFo

/-- The assumptions about the call: two trees and some words of one of them, in word order. -/
structure Call (h0 : Heap) (old t : Nat) (S : List Nat) : Prop where
  wOld : WFo h0 old
  wT : WF h0 t
  isOld : IsTree h0 old
  isT : IsTree h0 t
  ne : old ≠ t
  sub : ∀ x ∈ S, x ∈ h0.words old
  sorted : S.Pairwise (fun a b => h0.ord a < h0.ord b)

namespace Call
variable {h0 : Heap} {old t : Nat} {S : List Nat}

/-- No node belongs to both trees. -/
theorem disj (c : Call h0 old t S) {x : Nat} (h1 : InTree h0 old x) (h2 : InTree h0 t x) : False :=
  c.ne ((c.wOld.inTree_root c.isOld h1).symm.trans (inTree_root c.wT c.isT h2))

theorem t_ne (c : Call h0 old t S) {x : Nat} (hx : x ∈ h0.words old) : x ≠ t := fun e => c.disj (.inr hx) (.inl e)
theorem old_ne (c : Call h0 old t S) {x : Nat} (hx : x ∈ h0.words old) : x ≠ old := fun e => c.wOld.root_not_mem (e ▸ hx)
theorem old_not (c : Call h0 old t S) : old ∉ S := fun h => c.wOld.root_not_mem (c.sub _ h)
theorem t_not (c : Call h0 old t S) : t ∉ S := fun h => c.t_ne (c.sub _ h) rfl

end Call

/-- With the whole tree the body does the same as without. -/
theorem stealOne_whole {old t : Nat} {S : List Nat} {k : Nat} {h : Heap} {x : Nat}
    (hc : ∀ y ∈ h.children x, y ∈ S) (hp : ∀ p, h.parent x = some p → p ∉ S → p = old) :
    stealOne true old t S k h x = stealOne false old t S k h x := by
  have e1 : (h.children x).filter (fun n => decide (n ∉ S)) = [] := by
    rw [List.filter_eq_nil_iff]
    intro y hy
    simp [hc y hy]
  have e2 : (h.children x).filter (fun n => decide (n ∈ S)) = h.children x := by
    rw [List.filter_eq_self]
    intro y hy
    simp [hc y hy]
  have e3 : upd h.children x (h.children x) = h.children := by
    funext y
    unfold upd
    by_cases e : y = x
    · rw [if_pos e, e]
    · rw [if_neg e]
  unfold stealOne
  simp only [e1, stealKids, e2, e3, if_true, if_false, Bool.false_eq_true]
  cases hpx : h.parent x with
  | none => rfl
  | some p =>
    simp only
    by_cases hpo : p = old
    · rw [if_pos (.inl hpo), if_pos (.inl hpo)]
    · have hpS : p ∈ S := Classical.byContradiction (fun hn => hpo (hp p hpx hn))
      rw [if_neg (fun h => h.elim hpo (fun h => by simp at h)), if_neg (fun h => h.elim hpo (fun h => h.2 hpS))]

/-- The fields of the heap after one round, in terms of the heap before. -/
theorem stealOne_fields {old t : Nat} {S : List Nat} {k : Nat} {h : Heap} {x p : Nat} (hpar : h.parent x = some p) (hxS : x ∈ S)
    (hxo : x ≠ old) (hxt : x ≠ t) (hot : old ≠ t) (hpt : p ≠ t) (hpx : p ≠ x) (hoS : old ∉ S) (hold : p ≠ old → x ∉ h.children old) :
    let kc := (h.children x).filter (fun n => n ∉ S)
    let hk := stealKids old { h with ord := upd h.ord x (k + 1), root := upd h.root x t } kc
    let g := stealOne false old t S k h x
    g.ord = upd h.ord x (k + 1) ∧ g.root = upd h.root x t ∧ g.words = h.words ∧ g.next = h.next ∧
    (∀ y, g.parent y = if y = x ∧ p ∉ S then some t else if y ∈ kc then some old else h.parent y) ∧
    g.children t = (if p ∈ S then h.children t else h.children t ++ [x]) ∧
    g.children old = (hk.children old).filter (fun n => n ≠ x) ∧
    g.children x = (h.children x).filter (fun n => n ∈ S) ∧
    (∀ y ∈ S, y ≠ x → y ≠ old → y ≠ t → g.children y = h.children y) ∧
    (∀ y, y ∉ S → y ≠ old → y ≠ t → g.children y = if y = p then (h.children y).filter (fun n => n ≠ x) else h.children y) := by
  intro kc hk g
  obtain ⟨k1, k2, k3, k4, k5, k6, k7⟩ := kids_frame old kc { h with ord := upd h.ord x (k + 1), root := upd h.root x t }
  have hxk : x ∉ kc := by
    intro hm
    have := (List.mem_filter.1 hm).2
    simp [hxS] at this
  have hkp : hk.parent x = some p := by rw [k6 x, if_neg hxk]; exact hpar
  have hgo : p ≠ old → (hk.children old).filter (fun n => decide (n ≠ x)) = hk.children old := by
    intro hne
    rw [List.filter_eq_self]
    intro y hy
    have := k7.mem_iff.1 hy
    rw [decide_eq_true_eq]
    rintro rfl
    rcases List.mem_append.1 this with h | h
    · exact hold hne h
    · exact hxk h
  by_cases hpS : p ∈ S
  · have hpo : p ≠ old := fun e => hoS (e ▸ hpS)
    have hg : g = { hk with children := upd hk.children x ((hk.children x).filter (fun n => n ∈ S)) } := by
      show stealOne false old t S k h x = _
      unfold stealOne
      simp only [if_false, Bool.false_eq_true]
      show (match hk.parent x with | none => _ | some p => _) = _
      rw [hkp]
      simp only
      rw [if_neg (fun h => h.elim hpo (fun h => h.2 hpS))]
    rw [hg]
    refine ⟨k1, k2, k3, k4, ?_, ?_, ?_, ?_, ?_, ?_⟩
    · intro y
      rw [if_neg (fun h => h.2 hpS)]
      exact k6 y
    · rw [if_pos hpS]
      show upd hk.children x _ t = _
      rw [upd_ne _ _ (Ne.symm hxt)]
      exact k5 t (Ne.symm hot)
    · show upd hk.children x _ old = _
      rw [upd_ne _ _ (Ne.symm hxo), hgo hpo]
    · show upd hk.children x _ x = _
      have : hk.children x = h.children x := k5 x hxo
      simp [upd, this]
    · intro y _ hyx hyo _
      show upd hk.children x _ y = _
      rw [upd_ne _ _ hyx]
      exact k5 y hyo
    · intro y hyS hyo _
      have hyx : y ≠ x := fun e => hyS (e ▸ hxS)
      show upd hk.children x _ y = _
      rw [upd_ne _ _ hyx, if_neg (fun e : y = p => hyS (e ▸ hpS))]
      exact k5 y hyo
  · have hg : g = { hk with
          children := upd (upd (upd hk.children x ((hk.children x).filter (fun n => n ∈ S))) p ((hk.children p).filter (fun n => n ≠ x))) t
            (h.children t ++ [x])
          parent := upd hk.parent x (some t) } := by
      show stealOne false old t S k h x = _
      unfold stealOne
      simp only [if_false, Bool.false_eq_true]
      show (match hk.parent x with | none => _ | some p => _) = _
      rw [hkp]
      simp only
      rw [if_pos (.inr ⟨trivial, hpS⟩)]
      have e1 : upd hk.children x ((hk.children x).filter (fun n => decide (n ∈ S))) p = hk.children p := upd_ne _ _ hpx
      have e2 : upd (upd hk.children x ((hk.children x).filter (fun n => decide (n ∈ S)))) p ((hk.children p).filter (fun n => decide (n ≠ x))) t =
          h.children t := by
        rw [upd_ne _ _ (Ne.symm hpt), upd_ne _ _ (Ne.symm hxt)]
        exact k5 t (Ne.symm hot)
      show Heap.mk _ _ _ _ _ _ = Heap.mk _ _ _ _ _ _
      congr 1
      show upd (upd (upd hk.children x _) p ((upd hk.children x ((hk.children x).filter (fun n => decide (n ∈ S))) p).filter _)) t _ = _
      rw [e1]
      congr 1
      exact congrArg (· ++ [x]) e2
    rw [hg]
    refine ⟨k1, k2, k3, k4, ?_, ?_, ?_, ?_, ?_, ?_⟩
    · intro y
      show upd hk.parent x (some t) y = _
      by_cases hy : y = x
      · rw [if_pos ⟨hy, hpS⟩]; simp [upd, hy]
      · rw [upd_ne _ _ hy, if_neg (fun h => hy h.1)]
        exact k6 y
    · rw [if_neg hpS]
      simp [upd]
    · show upd (upd (upd hk.children x _) p _) t _ old = _
      rw [upd_ne _ _ hot]
      by_cases hpo : p = old
      · rw [← hpo]; simp [upd]
      · rw [upd_ne _ _ (Ne.symm hpo), upd_ne _ _ (Ne.symm hxo), hgo hpo]
    · show upd (upd (upd hk.children x _) p _) t _ x = _
      rw [upd_ne _ _ hxt, upd_ne _ _ (Ne.symm hpx)]
      have : hk.children x = h.children x := k5 x hxo
      simp [upd, this]
    · intro y hyS hyx hyo hyt
      show upd (upd (upd hk.children x _) p _) t _ y = _
      rw [upd_ne _ _ hyt, upd_ne _ _ (fun e : y = p => hpS (e ▸ hyS)), upd_ne _ _ hyx]
      exact k5 y hyo
    · intro y hyS hyo hyt
      have hyx : y ≠ x := fun e => hyS (e ▸ hxS)
      show upd (upd (upd hk.children x _) p _) t _ y = _
      rw [upd_ne _ _ hyt]
      by_cases hyp : y = p
      · subst hyp
        have : hk.children y = h.children y := k5 y hyo
        simp [upd, this]
      · rw [upd_ne _ _ hyp, upd_ne _ _ hyx, if_neg hyp]
        exact k5 y hyo

end Verif.Tree
