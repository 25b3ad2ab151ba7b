import Verif.Blocks.Basic
import Verif.Text.Compute
import Verif.Tree.LemmasRemove

/-!
# Property C104: ud.JoinToken (udapi/block/ud/jointoken.py)

Of `misc` three attributes are kept: `SpaceAfter`, the attribute the block looks for and `Bug` (`[]`: absent); their names are taken to be
different. Left out: enhanced dependencies (`logging.fatal` in line 78 does not end the program) and empty nodes.
-/

namespace Verif.Blocks
open Verif.Py Verif.Tree Verif.Text

/-- The multi-word tokens. The block does not change them. -/
structure MwtInfo where
  /-- `node.multiword_token` -/
  of : Nat → Option Nat
  /-- `mwt.words[-1]` -/
  last : Nat → Nat
  form : Nat → Str
  /-- `mwt.misc['SpaceAfter'] == 'No'` -/
  no : Nat → Bool

/-- The attributes of the nodes. -/
structure TokSt where
  heap : Heap
  rel : Rels
  form : Nat → Str
  /-- `node.misc['SpaceAfter']` -/
  space : Nat → Str
  /-- `node.misc[misc_name]` -/
  attr : Nat → Str
  /-- `node.misc['Bug']` -/
  bug : Nat → Str

def sNo : Str := ['N', 'o']

/-- `JoiningTokenNotSupportedHere` -/
def bugHere : Str := ['J', 'o', 'i', 'n', 'i', 'n', 'g', 'T', 'o', 'k', 'e', 'n', 'N', 'o', 't', 'S', 'u', 'p', 'p', 'o', 'r', 't', 'e', 'd',
  'H', 'e', 'r', 'e']

/-- `JoiningTokensWithSpaceNotSupported` -/
def bugSpace : Str := ['J', 'o', 'i', 'n', 'i', 'n', 'g', 'T', 'o', 'k', 'e', 'n', 's', 'W', 'i', 't', 'h', 'S', 'p', 'a', 'c', 'e',
  'N', 'o', 't', 'S', 'u', 'p', 'p', 'o', 'r', 't', 'e', 'd']

/-- The loop of `compute_text` (node.py:860-871) over the words of a tree. -/
def textGo (m : MwtInfo) (s : TokSt) : Nat → List Nat → Str
  | _, [] => []
  | last, x :: xs =>
    match m.of x with
    | some j => if last < s.heap.ord x then piece (m.form j) (m.no j) ++ textGo m s (s.heap.ord (m.last j)) xs else textGo m s last xs
    | none => piece (s.form x) (s.space x = sNo) ++ textGo m s last xs

/-- `root.compute_text()` (node.py:840-872) -/
def textOf (m : MwtInfo) (s : TokSt) (r : Nat) : Str := rstrip (textGo m s 0 (s.heap.words r))

/-- `for c in node.children: c.parent = prevnode` (jointoken.py:85-86) -/
def hangAll (p : Nat) : Heap → List Nat → Heap × Option Err := forNodes (fun h c => setParent h c (some p))

/-- `prevnode.parent = node.parent; prevnode.deprel = node.deprel`, if `prevnode in node.descendants` (jointoken.py:81-83) -/
def hangPrev (s : TokSt) (p x : Nat) : TokSt × Option Err :=
  match descendants s.heap x with
  | none => (s, some .diverges)
  | some ds =>
    if p ∈ ds then
      match setParent s.heap p (s.heap.parent x) with
      | (h, some e) => ({ s with heap := h }, some e)
      | (h, none) => ({ s with heap := h, rel := upd s.rel p (s.rel x) }, none)
    else (s, none)

/-- The last lines of `process_node` (jointoken.py:81-97): `x` is joined with `p`. -/
def joinPair (s : TokSt) (p x : Nat) : TokSt × Option Err :=
  match hangPrev s p x with
  | (s1, some e) => (s1, some e)
  | (s1, none) =>
    match hangAll p s1.heap (s1.heap.children x) with
    | (h2, some e) => ({ s1 with heap := h2 }, some e)
    | (h2, none) =>
      let s2 := { s1 with heap := h2, form := upd s1.form p (s1.form p ++ s1.form x), space := upd s1.space p (s1.space x) }
      match remove h2 x false with
      | (h3, e) => ({ s2 with heap := h3 }, e)

/-- `ud.JoinToken.process_node` (jointoken.py:47-97) -/
def joinToken (m : MwtInfo) (value : Option Str) (s : TokSt) (x : Nat) : TokSt × Option Err :=
  if s.attr x = [] then (s, none)
  else if value.getD [] ≠ [] ∧ some (s.attr x) ≠ value then (s, none)
  else
    match prevNode s.heap x with
    | none => ({ s with bug := upd s.bug x bugHere }, none)
    | some p =>
      if m.of x ≠ none ∨ m.of p ≠ none then ({ s with bug := upd s.bug x bugHere }, none)
      else if s.space p ≠ sNo then ({ s with bug := upd s.bug x bugSpace }, none)
      else joinPair s p x

/-- The block on one tree: `for node in tree.descendants: self.process_node(node)` (block.py:61-62). -/
def joinTokens (m : MwtInfo) (value : Option Str) (s : TokSt) (r : Nat) : TokSt × Option Err :=
  forNodes (joinToken m value) s (s.heap.words r)

/-! ## Specification vocabulary -/

/-- The word has the attribute, with the given value if there is one. -/
def Marked (value : Option Str) (s : TokSt) (x : Nat) : Prop := s.attr x ≠ [] ∧ (value = none ∨ value = some [] ∨ value = some (s.attr x))

/-- `x` is to be joined with the word `p` before it: it is marked, neither is in a multi-word token, and there is no space between them. -/
def Joins (m : MwtInfo) (value : Option Str) (s : TokSt) (p x : Nat) : Prop :=
  Marked value s x ∧ m.of x = none ∧ m.of p = none ∧ s.space p = sNo

/-- `p` is the node before `x` in word order; the technical root is before the first word. -/
def Before (r : Nat) (W : List Nat) (p x : Nat) : Prop := ∃ A B, r :: W = A ++ p :: x :: B

/-- `rep x` is the word that `x` becomes part of: that of the word before if `x` is to be joined, otherwise `x` itself. -/
structure Reps (J : Nat → Nat → Prop) (r : Nat) (W : List Nat) (rep : Nat → Nat) : Prop where
  root : rep r = r
  joined : ∀ p x, Before r W p x → J p x → rep x = rep p
  kept : ∀ p x, Before r W p x → ¬ J p x → rep x = x

instance (value : Option Str) (s : TokSt) (x : Nat) : Decidable (Marked value s x) := by unfold Marked; infer_instance
instance (m : MwtInfo) (value : Option Str) (s : TokSt) (p x : Nat) : Decidable (Joins m value s p x) := by unfold Joins; infer_instance

/-! ## Proofs: one join -/

theorem hangAll_spec {r p : Nat} : ∀ (cs : List Nat) (h : Heap), cs.Nodup → Inv h → IsTree h r → InTree h r p → (∀ c ∈ cs, c ∈ h.words r ∧ c ≠ p ∧ ¬ Anc h c p) →
    (∀ c ∈ cs, ∀ d ∈ cs, ¬ Anc h c d) →
    ∃ h', hangAll p h cs = (h', none) ∧ Inv h' ∧ IsTree h' r ∧ h'.words = h.words ∧ h'.ord = h.ord ∧
      ∀ y, h'.parent y = if y ∈ cs then some p else h.parent y
  | [], h, _, hi, hr, _, _, _ => ⟨h, rfl, hi, hr, rfl, rfl, fun y => by simp⟩
  | c :: cs, h, hn, hi, hr, hp, hc, hd => by
    obtain ⟨h1, h2, h3⟩ := hc c (List.mem_cons_self ..)
    obtain ⟨h', e, i1, t1, w1, _, o1, p1⟩ := attach_one hi hr h1 hp (Ne.symm h2) h3
    have hanc : ∀ {a b}, Anc h' a b → Anc h a b ∨ (Anc h c b ∨ b = c) := by
      intro a b ha
      induction ha with
      | @parent b hb =>
        rw [p1] at hb
        by_cases hbc : b = c
        · exact .inr (.inr hbc)
        · rw [upd_ne _ _ hbc] at hb
          exact .inl (.parent hb)
      | @step b q hb _ ih =>
        rw [p1] at hb
        by_cases hbc : b = c
        · exact .inr (.inr hbc)
        · rw [upd_ne _ _ hbc] at hb
          rcases ih with ih | ih | ih
          · exact .inl (.step hb ih)
          · exact .inr (.inl (.step hb ih))
          · exact .inr (.inl (.parent (ih ▸ hb)))
    have hsp : InTree h' r p := by unfold InTree; rw [w1]; exact hp
    have hcc := (List.nodup_cons.1 hn).1
    obtain ⟨h'', e2, i2, t2, w2, o2, p2⟩ := hangAll_spec cs h' (List.nodup_cons.1 hn).2 i1 t1 hsp (fun d hdm => by
        obtain ⟨k1, k2, k3⟩ := hc d (List.mem_cons_of_mem _ hdm)
        refine ⟨by rw [w1]; exact k1, k2, fun ha => ?_⟩
        rcases hanc ha with k | k | k
        · exact k3 k
        · exact h3 k
        · exact h2 k.symm) (fun d hdm d' hdm' ha => by
        rcases hanc ha with k | k | k
        · exact hd d (List.mem_cons_of_mem _ hdm) d' (List.mem_cons_of_mem _ hdm') k
        · exact hd c (List.mem_cons_self ..) d' (List.mem_cons_of_mem _ hdm') k
        · exact hcc (k ▸ hdm'))
    refine ⟨h'', ?_, i2, t2, by rw [w2, w1], by rw [o2, o1], ?_⟩
    · unfold hangAll forNodes
      rw [e]
      exact e2
    · intro y
      rw [p2, p1]
      by_cases hy : y ∈ cs
      · simp [hy]
      · by_cases hyc : y = c
        · simp [hyc, hcc]
        · simp [hy, hyc, upd]

/-- One join: `p` and `x` are words of a well-formed tree. -/
theorem join_pair {r p x q : Nat} {s : TokSt} (hi : Inv s.heap) (hr : IsTree s.heap r) (hp : p ∈ s.heap.words r) (hx : x ∈ s.heap.words r) (hpx : p ≠ x)
    (hq : s.heap.parent x = some q) :
    ∃ s', joinPair s p x = (s', none) ∧ Inv s'.heap ∧ IsTree s'.heap r ∧ s'.heap.words r = (s.heap.words r).erase x ∧
      (∀ r', r' ≠ r → s'.heap.words r' = s.heap.words r') ∧
      s'.form = upd s.form p (s.form p ++ s.form x) ∧ s'.space = upd s.space p (s.space x) ∧ s'.attr = s.attr ∧ s'.bug = s.bug ∧
      (∀ y, y ≠ p → y ≠ x → s'.heap.parent y = if s.heap.parent y = some x ∧ y ∈ s.heap.words r then some p else s.heap.parent y) ∧
      (Anc s.heap x p → s'.heap.parent p = some q ∧ s'.rel = upd s.rel p (s.rel x)) ∧
      (¬ Anc s.heap x p → s'.heap.parent p = s.heap.parent p ∧ s'.rel = s.rel) := by
  have w := hi r hr
  obtain ⟨ds, hds, _, hdm⟩ := w.descendants_eq hr (.inr hx)
  have hqin := w.parent_in hx hq
  have hqx : q ≠ x := fun e => w.anc_irrefl (.inr hx) (.parent (e ▸ hq))
  -- the first step
  obtain ⟨s1, e1, i1, t1, w1, f1, sp1, a1, b1, par1, hn1, hanc1, rel1⟩ : ∃ s1, hangPrev s p x = (s1, none) ∧ Inv s1.heap ∧ IsTree s1.heap r ∧
      s1.heap.words = s.heap.words ∧ s1.form = s.form ∧ s1.space = s.space ∧ s1.attr = s.attr ∧ s1.bug = s.bug ∧
      (∀ y, y ≠ p → s1.heap.parent y = s.heap.parent y) ∧ ¬ Anc s1.heap x p ∧
      (Anc s.heap x p → s1.heap.parent p = some q ∧ s1.rel = upd s.rel p (s.rel x)) ∧
      (¬ Anc s.heap x p → s1.heap.parent p = s.heap.parent p ∧ s1.rel = s.rel) := by
    unfold hangPrev
    rw [hds]
    simp only
    by_cases ha : Anc s.heap x p
    · rw [if_pos ((hdm p).2 ⟨hp, ha⟩), hq]
      have hqp : ¬ Anc s.heap p q := fun hb => w.anc_irrefl (.inr hp) ((anc_iff.2 ⟨q, hq, .inr hb⟩).trans ha)
      have hqne : q ≠ p := fun e => w.anc_irrefl (.inr hx) (ha.trans (.parent (e ▸ hq)))
      obtain ⟨h', e, i, t, ww, _, _, pp⟩ := attach_one hi hr hp hqin hqne hqp
      rw [e]
      refine ⟨_, rfl, i, t, ww, rfl, rfl, rfl, rfl, fun y hy => ?_, ?_, fun _ => ⟨?_, rfl⟩, fun hn => absurd ha hn⟩
      · show h'.parent y = _
        rw [pp, upd_ne _ _ hy]
      · intro hb
        have hb : Anc h' x p := hb
        obtain ⟨q', hq', hor⟩ := anc_iff.1 hb
        rw [pp, upd_same] at hq'
        obtain rfl := Option.some.inj hq'
        have w' := i r t
        have hx' : h'.parent x = some q := by rw [pp, upd_ne _ _ (Ne.symm hpx), hq]
        rcases hor with e | hor
        · exact hqx e
        · exact w'.anc_irrefl (.inr (by rw [ww]; exact hx)) (.step hx' hor)
      · show h'.parent p = _
        rw [pp, upd_same]
    · rw [if_neg (fun hm => ha ((hdm p).1 hm).2)]
      exact ⟨s, rfl, hi, hr, rfl, rfl, rfl, rfl, rfl, fun _ _ => rfl, ha, fun h => absurd h ha, fun _ => ⟨rfl, rfl⟩⟩
  have wf1 := i1 r t1
  have hx1 : x ∈ s1.heap.words r := by rw [w1]; exact hx
  have hp1 : p ∈ s1.heap.words r := by rw [w1]; exact hp
  have hch : ∀ c, c ∈ s1.heap.children x ↔ c ∈ s.heap.words r ∧ s1.heap.parent c = some x := by
    intro c
    rw [wf1.childIff x (.inr hx1), w1]
  obtain ⟨h2, e2, i2, t2, w2, o2, p2⟩ := hangAll_spec (p := p) (s1.heap.children x) s1.heap (wf1.children_nodup (.inr hx1)) i1 t1 (.inr hp1) (fun c hc => by
      obtain ⟨k1, k2⟩ := (hch c).1 hc
      refine ⟨by rw [w1]; exact k1, ?_, ?_⟩
      · rintro rfl
        exact hn1 (.parent k2)
      · intro ha
        exact hn1 ((Anc.parent k2).trans ha)) (fun c hc d hd ha => by
      obtain ⟨k1, k2⟩ := (hch c).1 hc
      obtain ⟨k3, k4⟩ := (hch d).1 hd
      obtain ⟨z, hz, hor⟩ := anc_iff.1 ha
      rw [k4] at hz
      obtain rfl := Option.some.inj hz
      rcases hor with rfl | hor
      · exact wf1.anc_irrefl (.inr hx1) (.parent k2)
      · exact wf1.anc_irrefl (.inr hx1) ((Anc.parent k2).trans hor))
  have wf2 := i2 r t2
  have hx2 : x ∈ h2.words r := by rw [w2]; exact hx1
  obtain ⟨q2, hq2, _⟩ := wf2.parentIn x hx2
  have hleaf : ∀ y ∈ h2.words r, ¬ Anc h2 x y := by
    intro y hy ha
    obtain ⟨c, hc, hor⟩ := anc_child ha
    have hcw : c ∈ h2.words r := by
      rcases hor with rfl | hor
      · exact hy
      · rcases wf2.anc_in (.inr hy) hor with rfl | hm
        · rw [wf2.rootParent] at hc; cases hc
        · exact hm
    have : c ∈ s1.heap.children x → False := by
      intro hm
      rw [p2, if_pos hm] at hc
      exact hpx (Option.some.inj hc)
    rw [p2, if_neg this] at hc
    exact this ((hch c).2 ⟨by rw [← w1, ← w2]; exact hcw, hc⟩)
  obtain ⟨W, o, e3, hsub, hmem, hal, ho⟩ := remove_plain wf2 t2 hx2 hq2
  have hinv := inv_remove i2 t2 hx2 false
  rw [e3] at hinv
  have hW : W = (s.heap.words r).erase x := by
    have hn := w.nodup
    rw [hn.erase_eq_filter]
    have : W = (h2.words r).filter (fun y => y ∈ W) := by
      have hn2 := wf2.nodup
      clear hmem hal ho e3 hinv
      revert hsub hn2
      generalize h2.words r = V
      intro hsub
      induction hsub with
      | slnil => simp
      | @cons l₁ l₂ a hs ih =>
        intro hn2
        rw [List.nodup_cons] at hn2
        rw [List.filter_cons_of_neg (by simpa using fun hm => hn2.1 (hs.subset hm))]
        exact ih hn2.2
      | @cons_cons l₁ l₂ a hs ih =>
        intro hn2
        rw [List.nodup_cons] at hn2
        rw [List.filter_cons_of_pos (by simp)]
        congr 1
        conv => lhs; rw [ih hn2.2]
        apply List.filter_congr
        intro y hy
        have : y ≠ a := fun e => hn2.1 (e ▸ hy)
        simp [this]
    rw [this, w2, w1]
    apply List.filter_congr
    intro y hy
    have hy2 : y ∈ h2.words r := by rw [w2, w1]; exact hy
    have := hmem y
    by_cases hyx : y = x
    · subst hyx
      simp [this]
    · simp [this, hy2, hyx, hleaf y hy2]
  refine ⟨{ s1 with heap := pruned h2 r x q2 W o, form := upd s1.form p (s1.form p ++ s1.form x), space := upd s1.space p (s1.space x) }, ?_, hinv,
    ⟨t2.1, t2.2⟩, ?_, ?_, ?_, ?_, a1, b1, ?_, ?_, ?_⟩
  · unfold joinPair
    rw [e1]
    simp only
    rw [e2]
    simp only
    rw [e3]
  · show upd h2.words r W r = _
    rw [upd_same, hW]
  · intro r' hr'
    show upd h2.words r W r' = _
    rw [upd_ne _ _ hr', w2, w1]
  · simp only [f1]
  · simp only [sp1]
  · intro y hyp hyx
    show h2.parent y = _
    rw [p2, par1 y hyp]
    by_cases hc : y ∈ s1.heap.children x
    · have := (hch y).1 hc
      rw [par1 y hyp] at this
      rw [if_pos hc, if_pos ⟨this.2, this.1⟩]
    · rw [if_neg hc, if_neg]
      rintro ⟨k1, k2⟩
      exact hc ((hch y).2 ⟨k2, by rw [par1 y hyp, k1]⟩)
  all_goals
    have hpc : p ∉ s1.heap.children x := fun hm => hn1 (.parent ((hch p).1 hm).2)
    intro ha
    refine ⟨?_, ?_⟩
    · show h2.parent p = _
      rw [p2, if_neg hpc]
      first | exact (hanc1 ha).1 | exact (rel1 ha).1
    · first | exact (hanc1 ha).2 | exact (rel1 ha).2

/-! ## Proofs: the text -/

theorem textGo_append {m : MwtInfo} {s s' : TokSt} {U T T' : List Nat}
    (hord : ∀ a ∈ U, ∀ b ∈ U, s.heap.ord a < s.heap.ord b ↔ s'.heap.ord a < s'.heap.ord b)
    (hpos : ∀ a ∈ U, 0 < s.heap.ord a ∧ 0 < s'.heap.ord a)
    (hT : ∀ last last', ((last = 0 ∧ last' = 0) ∨ ∃ l ∈ U, last = s.heap.ord l ∧ last' = s'.heap.ord l) → textGo m s last T = textGo m s' last' T') :
    ∀ (A : List Nat) (last last' : Nat), (∀ a ∈ A, a ∈ U ∧ s.form a = s'.form a ∧ s.space a = s'.space a) → (∀ a ∈ A, ∀ j, m.of a = some j → m.last j ∈ U) →
      ((last = 0 ∧ last' = 0) ∨ ∃ l ∈ U, last = s.heap.ord l ∧ last' = s'.heap.ord l) → textGo m s last (A ++ T) = textGo m s' last' (A ++ T')
  | [], last, last', _, _, hl => hT last last' hl
  | a :: A, last, last', hA, hM, hl => by
    have ih := fun l l' => textGo_append hord hpos hT A l l' (fun b hb => hA b (List.mem_cons_of_mem _ hb)) (fun b hb => hM b (List.mem_cons_of_mem _ hb))
    obtain ⟨hU, hf, hs⟩ := hA a (List.mem_cons_self ..)
    rw [List.cons_append, List.cons_append]
    unfold textGo
    cases hm : m.of a with
    | none =>
      simp only
      rw [hf, hs, ih last last' hl]
    | some j =>
      simp only
      have hiff : last < s.heap.ord a ↔ last' < s'.heap.ord a := by
        rcases hl with ⟨h1, h2⟩ | ⟨l, h1, h2, h3⟩
        · rw [h1, h2]
          exact ⟨fun _ => (hpos a hU).2, fun _ => (hpos a hU).1⟩
        · rw [h2, h3]
          exact hord l h1 a hU
      by_cases hlt : last < s.heap.ord a
      · rw [if_pos hlt, if_pos (hiff.1 hlt), ih _ _ (.inr ⟨_, hM a (List.mem_cons_self ..) j hm, rfl, rfl⟩)]
      · rw [if_neg hlt, if_neg (fun h => hlt (hiff.2 h)), ih last last' hl]

theorem text_join {m : MwtInfo} {s s' : TokSt} {r p x : Nat} {A B : List Nat} (w : WF s.heap r) (w' : WF s'.heap r)
    (hW : s.heap.words r = A ++ p :: x :: B) (hW' : s'.heap.words r = A ++ p :: B) (hp : m.of p = none) (hx : m.of x = none) (hs : s.space p = sNo)
    (hf : s'.form = upd s.form p (s.form p ++ s.form x)) (hsp : s'.space = upd s.space p (s.space x))
    (hm : ∀ a ∈ s.heap.words r, ∀ j, m.of a = some j → m.last j ∈ s.heap.words r ∧ m.of (m.last j) = some j) :
    textOf m s' r = textOf m s r := by
  have hn := w.nodup
  rw [hW] at hn
  obtain ⟨hnA, hnpx, hdis⟩ := List.nodup_append.1 hn
  obtain ⟨hpxB, hnxB⟩ := List.nodup_cons.1 hnpx
  have hsub : ∀ y ∈ A ++ p :: B, y ∈ s.heap.words r := by
    intro y hy
    rw [hW]
    simp only [List.mem_append, List.mem_cons] at hy ⊢
    rcases hy with hy | hy | hy
    · exact .inl hy
    · exact .inr (.inl hy)
    · exact .inr (.inr (.inr hy))
  have hP : (A ++ p :: B).Pairwise (fun a b => s.heap.ord a < s.heap.ord b) := by
    refine (aligned_pairwise w.aligned).sublist ?_
    rw [hW]
    exact (List.Sublist.refl A).append ((List.sublist_cons_self x B).cons_cons p)
  have hP' : (A ++ p :: B).Pairwise (fun a b => s'.heap.ord a < s'.heap.ord b) := by
    rw [← hW']
    exact aligned_pairwise w'.aligned
  have hord : ∀ a ∈ A ++ p :: B, ∀ b ∈ A ++ p :: B, s.heap.ord a < s.heap.ord b ↔ s'.heap.ord a < s'.heap.ord b :=
    fun a ha b hb => ⟨pairwise_mono hP hP' ha hb, pairwise_mono hP' hP ha hb⟩
  have hpos : ∀ a ∈ A ++ p :: B, 0 < s.heap.ord a ∧ 0 < s'.heap.ord a :=
    fun a ha => ⟨w.ord_pos (hsub a ha), w'.ord_pos (hW' ▸ ha)⟩
  have hlast : ∀ a ∈ A ++ p :: B, ∀ j, m.of a = some j → m.last j ∈ A ++ p :: B := by
    intro a ha j hj
    obtain ⟨h1, h2⟩ := hm a (hsub a ha) j hj
    rw [hW] at h1
    simp only [List.mem_append, List.mem_cons] at h1 ⊢
    rcases h1 with h1 | h1 | h1 | h1
    · exact .inl h1
    · exact .inr (.inl h1)
    · rw [h1, hx] at h2
      cases h2
    · exact .inr (.inr h1)
  have hsame : ∀ a, a ≠ p → s.form a = s'.form a ∧ s.space a = s'.space a := by
    intro a ha
    rw [hf, hsp, upd_ne _ _ ha, upd_ne _ _ ha]
    exact ⟨rfl, rfl⟩
  unfold textOf
  rw [hW, hW']
  congr 1
  symm
  refine textGo_append hord hpos ?_ A 0 0 ?_ (fun a ha => hlast a (List.mem_append_left _ ha)) (.inl ⟨rfl, rfl⟩)
  · intro last last' hl
    have hB := textGo_append (m := m) (T := []) (T' := []) hord hpos (fun _ _ _ => rfl) B last last' (fun b hb => by
      have hbp : b ≠ p := fun e => hpxB (e ▸ List.mem_cons_of_mem _ hb)
      exact ⟨by simp [hb], hsame b hbp⟩) (fun b hb => hlast b (by simp [hb])) hl
    rw [List.append_nil] at hB
    unfold textGo
    rw [hp]
    simp only
    conv => lhs; rhs; unfold textGo
    rw [hx]
    simp only
    rw [hB, hf, hsp, upd_same, upd_same, hs, ← List.append_assoc]
    congr 1
    unfold piece
    by_cases hn : s.space x = sNo <;> simp [hn]
  · intro a ha
    have hap : a ≠ p := fun e => hdis a ha p (List.mem_cons_self ..) e
    exact ⟨List.mem_append_left _ ha, hsame a hap⟩

/-! ## Proofs: the words that are kept -/

/-- `c`: the word that the word `prev` before the list became part of. -/
def repGo (J : Nat → Nat → Prop) [∀ p x, Decidable (J p x)] (c prev : Nat) : List Nat → (Nat → Nat)
  | [] => fun y => y
  | x :: l => fun y => if y = x then (if J prev x then c else x) else repGo J (if J prev x then c else x) x l y

theorem repGo_spec (J : Nat → Nat → Prop) [∀ p x, Decidable (J p x)] : ∀ (l : List Nat) (c prev : Nat), (prev :: l).Nodup →
    ∀ A p x B, prev :: l = A ++ p :: x :: B → repGo J c prev l x = if J p x then (if p = prev then c else repGo J c prev l p) else x := by
  intro l
  induction l with
  | nil =>
    intro c prev _ A p x B h
    have := congrArg List.length h
    simp at this
    omega
  | cons a l ih =>
    intro c prev hn A p x B h
    cases A with
    | nil =>
      injection h with h1 h2
      injection h2 with h2 h3
      subst h1 h2
      unfold repGo
      rw [if_pos rfl, if_pos rfl]
    | cons b A =>
      injection h with h1 h2
      subst h1
      have hn' := (List.nodup_cons.1 hn).2
      have hmem : ∀ y ∈ p :: x :: B, y ≠ prev := by
        rintro y hy rfl
        apply (List.nodup_cons.1 hn).1
        rw [h2]
        exact List.mem_append_right _ hy
      have hxa : x ≠ a := by
        rintro rfl
        cases A with
        | nil =>
          injection h2 with h3 h4
          rw [h4] at hn'
          exact (List.nodup_cons.1 hn').1 (List.mem_cons_self ..)
        | cons b A =>
          injection h2 with h3 h4
          apply (List.nodup_cons.1 hn').1
          rw [h4]
          simp
      unfold repGo
      rw [if_neg hxa, ih _ a hn' A p x B h2]
      by_cases hJ : J p x
      · rw [if_pos hJ, if_pos hJ, if_neg (hmem p (List.mem_cons_self ..))]
      · rw [if_neg hJ, if_neg hJ]

theorem reps_exist (J : Nat → Nat → Prop) [∀ p x, Decidable (J p x)] {r : Nat} {W : List Nat} (hn : (r :: W).Nodup) : ∃ rep, Reps J r W rep := by
  have hr : r ∉ W := (List.nodup_cons.1 hn).1
  have hid : ∀ (l : List Nat) (c prev y : Nat), y ∉ l → repGo J c prev l y = y := by
    intro l
    induction l with
    | nil => intros; rfl
    | cons a l ih =>
      intro c prev y hy
      unfold repGo
      rw [List.mem_cons, not_or] at hy
      rw [if_neg hy.1]
      exact ih _ _ _ hy.2
  refine ⟨repGo J r r W, hid W r r r hr, ?_, ?_⟩
  · rintro p x ⟨A, B, h⟩ hJ
    rw [repGo_spec J W r r hn A p x B h, if_pos hJ]
    by_cases hp : p = r
    · rw [if_pos hp, hp, hid W r r r hr]
    · rw [if_neg hp]
  · rintro p x ⟨A, B, h⟩ hJ
    rw [repGo_spec J W r r hn A p x B h, if_neg hJ]

/-! ## Proofs: the loop -/

/-- What becomes of `z` after the words of `done`. -/
def repD (rep : Nat → Nat) (done : List Nat) (z : Nat) : Nat := if z ∈ done then rep z else z

/-- `node.misc['Bug']` after the block; `p` is the node before `y`. -/
def bugAfter (m : MwtInfo) (value : Option Str) (s : TokSt) (p y : Nat) : Str :=
  if Marked value s y ∧ ¬ Joins m value s p y then (if m.of y ≠ none ∨ m.of p ≠ none then bugHere else bugSpace) else s.bug y

/-- The state after the words of `done`. -/
structure JP (m : MwtInfo) (value : Option Str) (s0 : TokSt) (r : Nat) (rep : Nat → Nat) (done : List Nat) (s : TokSt) : Prop where
  inv : Inv s.heap
  tree : IsTree s.heap r
  words : s.heap.words r = done.filter (fun y => rep y = y) ++ (s0.heap.words r).drop done.length
  others : ∀ r', r' ≠ r → s.heap.words r' = s0.heap.words r'
  lastK : (r :: done.filter (fun y => rep y = y)).getLast? = some (rep (done.getLast?.getD r))
  rep1 : ∀ z ∈ done, rep z ∈ done
  rep2 : ∀ z ∈ done, rep (rep z) = rep z
  rep3 : ∀ z ∈ done, rep z ≠ z → m.of z = none ∧ m.of (rep z) = none
  form : ∀ y ∈ done, rep y = y → s.form y = (done.filter (fun z => rep z = y)).flatMap s0.form
  form0 : ∀ y, y ∉ done → s.form y = s0.form y
  space : ∀ y ∈ done, rep y = y → ∃ z, (done.filter (fun z => rep z = y)).getLast? = some z ∧ s.space y = s0.space z
  space0 : ∀ y, y ∉ done → s.space y = s0.space y
  attr : s.attr = s0.attr
  bug : ∀ p y, Before r (s0.heap.words r) p y → y ∈ done → s.bug y = bugAfter m value s0 p y
  bug0 : ∀ y, y ∉ done → s.bug y = s0.bug y
  parent : ∀ y ∈ s.heap.words r, ∃ z ∈ s0.heap.words r, ∃ p, repD rep done z = y ∧ s0.heap.parent z = some p ∧
    s.heap.parent y = some (repD rep done p) ∧ s.rel y = s0.rel z
  text : textOf m s r = textOf m s0 r

theorem prevNode_split {h : Heap} {r x : Nat} {K rest : List Nat} (w : WF h r) (hW : h.words r = K ++ x :: rest) :
    prevNode h x = (r :: K).getLast? := by
  have ha := w.aligned
  rw [hW] at ha
  have hx : h.ord x = 1 + K.length := (aligned_cons.1 (aligned_append.1 ha).2).1
  have hr : h.root x = r := w.rootOf x (by rw [hW]; simp)
  unfold prevNode
  rw [hr, hx, if_neg (by omega)]
  cases hK : K.getLast? with
  | none =>
    obtain rfl := List.getLast?_eq_none_iff.1 hK
    simp
  | some y =>
    obtain ⟨K', rfl⟩ := List.getLast?_eq_some_iff.1 hK
    rw [hW, if_neg (by simp)]
    have : (r :: (K' ++ [y])).getLast? = some y := by
      rw [← List.cons_append, List.getLast?_append]
      simp
    rw [this, show 1 + (K' ++ [y]).length - 2 = K'.length by simp; omega]
    simp

theorem before_split {r : Nat} {W done rest : List Nat} {x : Nat} (hW : W = done ++ x :: rest) : Before r W (done.getLast?.getD r) x := by
  cases hd : done.getLast? with
  | none =>
    obtain rfl := List.getLast?_eq_none_iff.1 hd
    exact ⟨[], rest, by rw [hW]; rfl⟩
  | some y =>
    obtain ⟨D, rfl⟩ := List.getLast?_eq_some_iff.1 hd
    exact ⟨r :: D, rest, by rw [hW]; simp⟩

theorem before_unique {r : Nat} {W : List Nat} (hn : (r :: W).Nodup) {p q x : Nat} (h1 : Before r W p x) (h2 : Before r W q x) : p = q := by
  obtain ⟨A, B, e1⟩ := h1
  obtain ⟨A', B', e2⟩ := h2
  have key : ∀ (A A' : List Nat) (L : List Nat), L.Nodup → L = A ++ p :: x :: B → L = A' ++ q :: x :: B' → p = q := by
    intro A
    induction A with
    | nil =>
      intro A' L hn e1 e2
      subst e1
      cases A' with
      | nil => injection e2
      | cons a A' =>
        exfalso
        injection e2 with _ e2
        have hm : x ∈ A' ++ q :: x :: B' := by simp
        cases A' with
        | nil =>
          injection e2 with e3 e4
          rw [List.nil_append, List.nodup_cons, List.nodup_cons] at hn
          refine hn.2.1 ?_
          rw [e4]
          simp
        | cons b A' =>
          injection e2 with e3 e4
          rw [List.nil_append, List.nodup_cons, List.nodup_cons] at hn
          refine hn.2.1 ?_
          have e4 : B = A' ++ q :: x :: B' := e4
          rw [e4]
          simp
    | cons a A ih =>
      intro A' L hn e1 e2
      subst e1
      cases A' with
      | nil =>
        exfalso
        injection e2 with _ e2
        rw [List.cons_append, List.nodup_cons] at hn
        cases A with
        | nil =>
          injection e2 with e3 e4
          have := hn.2
          simp only [List.nil_append, List.nodup_cons] at this
          rw [e3] at this
          exact this.1 (by simp)
        | cons b A =>
          injection e2 with e3 e4
          have := hn.2
          rw [List.cons_append, List.nodup_cons, e3] at this
          exact this.1 (by simp)
      | cons b A' =>
        injection e2 with _ e2
        exact ih A' _ (List.nodup_cons.1 hn).2 rfl e2
  exact key A A' _ hn e1 e2

theorem filter_append_self {rep : Nat → Nat} {done : List Nat} {x : Nat} (hx : rep x = x) :
    (done ++ [x]).filter (fun y => rep y = y) = done.filter (fun y => rep y = y) ++ [x] := by
  rw [List.filter_append]
  congr 1
  simp [hx]

theorem marked_iff {value : Option Str} {s : TokSt} {x : Nat} :
    Marked value s x ↔ ¬ (s.attr x = []) ∧ ¬ (value.getD [] ≠ [] ∧ some (s.attr x) ≠ value) := by
  unfold Marked
  cases value with
  | none => simp
  | some v =>
    simp only [Option.getD_some, ne_eq, Option.some.injEq, reduceCtorEq, false_or, not_and, Classical.not_not]
    constructor
    · rintro ⟨h1, h2⟩
      refine ⟨h1, fun h3 => ?_⟩
      rcases h2 with h2 | h2
      · exact absurd h2 h3
      · exact h2.symm
    · rintro ⟨h1, h2⟩
      refine ⟨h1, ?_⟩
      by_cases hv : v = []
      · exact .inl hv
      · exact .inr (h2 hv).symm

/-- A word that is not joined. -/
theorem jp_keep {m : MwtInfo} {value : Option Str} {s0 s : TokSt} {r x : Nat} {rep : Nat → Nat} {done rest : List Nat}
    (hW : s0.heap.words r = done ++ x :: rest) (hn : (r :: s0.heap.words r).Nodup) (P : JP m value s0 r rep done s) (hx : rep x = x)
    (s' : TokSt) (hh : s'.heap = s.heap) (hre : s'.rel = s.rel) (hf : s'.form = s.form) (hs : s'.space = s.space) (ha : s'.attr = s.attr)
    (hb : s'.bug = upd s.bug x (bugAfter m value s0 (done.getLast?.getD r) x)) : JP m value s0 r rep (done ++ [x]) s' := by
  have hxd : x ∉ done := by
    have := (List.nodup_cons.1 hn).2
    rw [hW, List.nodup_append] at this
    exact fun hm => this.2.2 x hm x (List.mem_cons_self ..) rfl
  have hdrop : (s0.heap.words r).drop done.length = x :: rest := by rw [hW]; simp
  have hdrop' : (s0.heap.words r).drop (done ++ [x]).length = rest := by
    rw [List.length_append, List.length_singleton, ← List.drop_drop, hdrop]
    rfl
  have hD : ∀ z, repD rep (done ++ [x]) z = repD rep done z := by
    intro z
    unfold repD
    by_cases hz : z ∈ done
    · simp [hz]
    · by_cases hzx : z = x
      · subst hzx
        simp [hx]
      · simp [hz, hzx]
  have hfil : ∀ y ∈ done, (done ++ [x]).filter (fun z => rep z = y) = done.filter (fun z => rep z = y) := by
    intro y hy
    rw [List.filter_append, List.filter_cons_of_neg, List.filter_nil, List.append_nil]
    simp only [hx, decide_eq_true_eq]
    rintro rfl
    exact hxd hy
  have hfilx : (done ++ [x]).filter (fun z => rep z = x) = [x] := by
    rw [List.filter_append, List.filter_eq_nil_iff.2, List.nil_append]
    · simp [hx]
    · intro z hz
      simp only [decide_eq_true_eq]
      intro e
      exact hxd (e ▸ P.rep1 z hz)
  refine ⟨hh ▸ P.inv, hh ▸ P.tree, ?_, hh ▸ P.others, ?_, ?_, ?_, ?_, ?_, ?_, ?_, ?_, ha.trans P.attr, ?_, ?_, ?_, ?_⟩
  · rw [hh, P.words, filter_append_self hx, hdrop, hdrop', List.append_assoc]
    rfl
  · rw [filter_append_self hx, ← List.cons_append, List.getLast?_append, List.getLast?_append]
    simp [hx]
  · intro z hz
    rcases List.mem_append.1 hz with hz | hz
    · exact List.mem_append_left _ (P.rep1 z hz)
    · rw [List.mem_singleton] at hz
      subst hz
      rw [hx]
      simp
  · intro z hz
    rcases List.mem_append.1 hz with hz | hz
    · exact P.rep2 z hz
    · rw [List.mem_singleton] at hz
      subst hz
      rw [hx, hx]
  · intro z hz hne
    rcases List.mem_append.1 hz with hz | hz
    · exact P.rep3 z hz hne
    · rw [List.mem_singleton] at hz
      subst hz
      exact absurd hx hne
  · intro y hy hyy
    rw [hf]
    rcases List.mem_append.1 hy with hy | hy
    · rw [hfil y hy]
      exact P.form y hy hyy
    · rw [List.mem_singleton] at hy
      subst hy
      rw [hfilx, P.form0 y hxd]
      simp
  · intro y hy
    rw [hf]
    exact P.form0 y (fun hm => hy (List.mem_append_left _ hm))
  · intro y hy hyy
    rw [hs]
    rcases List.mem_append.1 hy with hy | hy
    · rw [hfil y hy]
      exact P.space y hy hyy
    · rw [List.mem_singleton] at hy
      subst hy
      rw [hfilx]
      exact ⟨y, rfl, P.space0 y hxd⟩
  · intro y hy
    rw [hs]
    exact P.space0 y (fun hm => hy (List.mem_append_left _ hm))
  · intro p y hpy hy
    rw [hb]
    rcases List.mem_append.1 hy with hy | hy
    · have : y ≠ x := fun e => hxd (e ▸ hy)
      rw [upd_ne _ _ this]
      exact P.bug p y hpy hy
    · rw [List.mem_singleton] at hy
      subst hy
      rw [upd_same, before_unique hn hpy (before_split hW)]
  · intro y hy
    rw [List.mem_append, List.mem_singleton, not_or] at hy
    rw [hb, upd_ne _ _ hy.2]
    exact P.bug0 y hy.1
  · intro y hy
    rw [hh] at hy ⊢
    obtain ⟨z, hz, p, h1, h2, h3, h4⟩ := P.parent y hy
    exact ⟨z, hz, p, by rw [hD]; exact h1, h2, by rw [hD]; exact h3, by rw [hre]; exact h4⟩
  · rw [← P.text]
    have key : ∀ l last, textGo m s' last l = textGo m s last l := by
      intro l
      induction l with
      | nil => intro; rfl
      | cons a l ih =>
        intro last
        unfold textGo
        rw [hh, hf, hs]
        cases m.of a with
        | none => simp only [ih]
        | some j => simp only [ih]
    unfold textOf
    rw [key, hh]

/-- A word that is joined. -/
theorem jp_join {m : MwtInfo} {value : Option Str} {s0 s : TokSt} {r x : Nat} {rep : Nat → Nat} {done rest : List Nat}
    (hW : s0.heap.words r = done ++ x :: rest) (hn : (r :: s0.heap.words r).Nodup)
    (hm : ∀ a ∈ s0.heap.words r, ∀ j, m.of a = some j → m.last j ∈ s0.heap.words r ∧ m.of (m.last j) = some j)
    (P : JP m value s0 r rep done s) {q : Nat} (hq : done.getLast? = some q) (hx : rep x = rep q)
    (hJ : Joins m value s0 q x) : ∃ s', joinPair s (rep q) x = (s', none) ∧ JP m value s0 r rep (done ++ [x]) s' := by
  have hnW := (List.nodup_cons.1 hn).2
  have hrW := (List.nodup_cons.1 hn).1
  obtain ⟨D, hdq⟩ := List.getLast?_eq_some_iff.1 hq
  have hqd : q ∈ done := by rw [hdq]; simp
  have hxd : x ∉ done := by
    have := hnW
    rw [hW, List.nodup_append] at this
    exact fun hm => this.2.2 x hm x (List.mem_cons_self ..) rfl
  have hxrest : x ∉ rest := by
    have := hnW
    rw [hW, List.nodup_append, List.nodup_cons] at this
    exact this.2.1.1
  have hdrop : (s0.heap.words r).drop done.length = x :: rest := by rw [hW]; simp
  have hdrop' : (s0.heap.words r).drop (done ++ [x]).length = rest := by
    rw [List.length_append, List.length_singleton, ← List.drop_drop, hdrop]
    rfl
  have hcd := P.rep1 q hqd
  have hcc := P.rep2 q hqd
  generalize hc : rep q = c at *
  have hxc : x ≠ c := fun e => hxd (e ▸ hcd)
  have hxx : rep x ≠ x := by rw [hx]; exact Ne.symm hxc
  -- the words before
  have hK : ∃ K, done.filter (fun y => rep y = y) = K ++ [c] := by
    have := P.lastK
    rw [hq, Option.getD_some, hc] at this
    cases hk : (done.filter (fun y => rep y = y)).getLast? with
    | none =>
      rw [List.getLast?_eq_none_iff] at hk
      have hmem : c ∈ done.filter (fun y => rep y = y) := List.mem_filter.2 ⟨hcd, by simpa using hcc⟩
      rw [hk] at hmem
      cases hmem
    | some z =>
      obtain ⟨K, hk'⟩ := List.getLast?_eq_some_iff.1 hk
      rw [hk', ← List.cons_append, List.getLast?_append] at this
      simp only [List.getLast?_singleton, Option.some_or, Option.some.injEq] at this
      exact ⟨K, this ▸ hk'⟩
  obtain ⟨K, hK⟩ := hK
  have hsw : s.heap.words r = K ++ c :: x :: rest := by
    rw [P.words, hK, hdrop]
    simp
  have w := P.inv r P.tree
  have hcw : c ∈ s.heap.words r := by rw [hsw]; simp
  have hxw : x ∈ s.heap.words r := by rw [hsw]; simp
  obtain ⟨px, hpx, hpxin⟩ := w.parentIn x hxw
  have hpxx : px ≠ x := fun e => w.anc_irrefl (.inr hxw) (.parent (e ▸ hpx))
  obtain ⟨s', e, i', t', w', oth', f', sp', a', b', par', pa1, pa2⟩ := join_pair P.inv P.tree hcw hxw (Ne.symm hxc) hpx
  have hsn : (K ++ c :: x :: rest).Nodup := hsw ▸ w.nodup
  have hxK : x ∉ K ++ [c] := by
    rw [show K ++ c :: x :: rest = (K ++ [c]) ++ x :: rest by simp, List.nodup_append] at hsn
    exact fun hm => hsn.2.2 x hm x (List.mem_cons_self ..) rfl
  have hw' : s'.heap.words r = K ++ c :: rest := by
    rw [w', hsw, show K ++ c :: x :: rest = (K ++ [c]) ++ x :: rest by simp, List.erase_append_right _ hxK]
    simp
  have hfil : ∀ y ∈ done, y ≠ c → (done ++ [x]).filter (fun z => rep z = y) = done.filter (fun z => rep z = y) := by
    intro y hy hyc
    rw [List.filter_append, List.filter_cons_of_neg, List.filter_nil, List.append_nil]
    simp only [hx, decide_eq_true_eq]
    exact Ne.symm hyc
  have hfilc : (done ++ [x]).filter (fun z => rep z = c) = done.filter (fun z => rep z = c) ++ [x] := by
    rw [List.filter_append]
    congr 1
    simp [hx]
  have hmc : m.of c = none := by
    by_cases hqc : rep q = q
    · rw [hc] at hqc
      rw [hqc]
      exact hJ.2.2.1
    · have := (P.rep3 q hqd hqc).2
      rw [hc] at this
      exact this
  have hDx : ∀ z, z ≠ x → repD rep (done ++ [x]) z = repD rep done z := by
    intro z hz
    unfold repD
    simp [hz]
  have hDxx : repD rep (done ++ [x]) x = c := by
    unfold repD
    simp [hx]
  have hDx0 : repD rep done x = x := by
    unfold repD
    simp [hxd]
  have hinv : ∀ z, repD rep done z = x → z = x := by
    intro z hz
    unfold repD at hz
    by_cases hzd : z ∈ done
    · rw [if_pos hzd] at hz
      exact absurd (P.rep1 z hzd) (hz ▸ hxd)
    · rw [if_neg hzd] at hz
      exact hz
  refine ⟨s', e, i', t', ?_, ?_, ?_, ?_, ?_, ?_, ?_, ?_, ?_, ?_, a'.trans P.attr, ?_, ?_, ?_, ?_⟩
  · rw [hw', List.filter_append, hK, hdrop', List.filter_cons_of_neg (by simpa using hxx)]
    simp
  · intro r' hr'
    rw [oth' r' hr', P.others r' hr']
  · rw [List.filter_append, hK, List.filter_cons_of_neg (by simpa using hxx), List.getLast?_append, List.filter_nil, List.append_nil,
      ← List.cons_append, List.getLast?_append]
    simp [hx]
  · intro z hz
    rcases List.mem_append.1 hz with hz | hz
    · exact List.mem_append_left _ (P.rep1 z hz)
    · rw [List.mem_singleton] at hz
      subst hz
      rw [hx]
      exact List.mem_append_left _ hcd
  · intro z hz
    rcases List.mem_append.1 hz with hz | hz
    · exact P.rep2 z hz
    · rw [List.mem_singleton] at hz
      subst hz
      rw [hx, hcc]
  · intro z hz hne
    rcases List.mem_append.1 hz with hz | hz
    · exact P.rep3 z hz hne
    · rw [List.mem_singleton] at hz
      subst hz
      rw [hx]
      exact ⟨hJ.2.1, hmc⟩
  · intro y hy hyy
    rw [f']
    rcases List.mem_append.1 hy with hy | hy
    · by_cases hyc : y = c
      · subst hyc
        rw [upd_same, hfilc, List.flatMap_append, P.form y hy hyy, P.form0 x hxd]
        simp
      · rw [upd_ne _ _ hyc, hfil y hy hyc]
        exact P.form y hy hyy
    · rw [List.mem_singleton] at hy
      subst hy
      exact absurd hyy hxx
  · intro y hy
    rw [List.mem_append, not_or] at hy
    have hyc : y ≠ c := fun e => hy.1 (e ▸ hcd)
    rw [f', upd_ne _ _ hyc]
    exact P.form0 y hy.1
  · intro y hy hyy
    rw [sp']
    rcases List.mem_append.1 hy with hy | hy
    · by_cases hyc : y = c
      · subst hyc
        rw [hfilc]
        exact ⟨x, by simp, by rw [upd_same, P.space0 x hxd]⟩
      · rw [upd_ne _ _ hyc, hfil y hy hyc]
        exact P.space y hy hyy
    · rw [List.mem_singleton] at hy
      subst hy
      exact absurd hyy hxx
  · intro y hy
    rw [List.mem_append, not_or] at hy
    have hyc : y ≠ c := fun e => hy.1 (e ▸ hcd)
    rw [sp', upd_ne _ _ hyc]
    exact P.space0 y hy.1
  · intro p y hpy hy
    rw [b']
    rcases List.mem_append.1 hy with hy | hy
    · exact P.bug p y hpy hy
    · rw [List.mem_singleton] at hy
      subst hy
      rw [P.bug0 y hxd, before_unique hn hpy (before_split hW), hq, Option.getD_some]
      unfold bugAfter
      rw [if_neg (fun h => h.2 hJ)]
  · intro y hy
    rw [List.mem_append, not_or] at hy
    rw [b']
    exact P.bug0 y hy.1
  · intro y hy
    have hyw : y ∈ s.heap.words r ∧ y ≠ x := by
      rw [hw'] at hy
      rw [hsw]
      constructor
      · simp only [List.mem_append, List.mem_cons] at hy ⊢
        rcases hy with hy | hy | hy
        · exact .inl hy
        · exact .inr (.inl hy)
        · exact .inr (.inr (.inr hy))
      · rintro rfl
        simp only [List.mem_append, List.mem_cons] at hy
        rcases hy with hy | hy | hy
        · exact hxK (List.mem_append_left _ hy)
        · exact hxc hy
        · exact hxrest hy
    obtain ⟨hyw, hyx⟩ := hyw
    by_cases hyc : y = c
    · subst hyc
      by_cases ha : Anc s.heap x y
      · obtain ⟨h1, h2⟩ := pa1 ha
        obtain ⟨z, hz, p, k1, k2, k3, k4⟩ := P.parent x hxw
        obtain rfl := hinv z k1
        rw [hpx] at k3
        have hpp := Option.some.inj k3
        refine ⟨z, hz, p, hDxx, k2, ?_, ?_⟩
        · rw [h1, hpp, hDx]
          rintro rfl
          rw [hDx0] at hpp
          exact hpxx hpp
        · rw [h2, upd_same, k4]
      · obtain ⟨h1, h2⟩ := pa2 ha
        obtain ⟨z, hz, p, k1, k2, k3, k4⟩ := P.parent y hyw
        refine ⟨z, hz, p, ?_, k2, ?_, by rw [h2]; exact k4⟩
        · rw [hDx z, k1]
          rintro rfl
          exact hxc (hDx0.symm.trans k1)
        · rw [h1, k3, hDx]
          rintro rfl
          rw [hDx0] at k3
          exact ha (.parent k3)
    · obtain ⟨z, hz, p, k1, k2, k3, k4⟩ := P.parent y hyw
      have hrel : s'.rel y = s.rel y := by
        by_cases ha : Anc s.heap x c
        · rw [(pa1 ha).2, upd_ne _ _ hyc]
        · rw [(pa2 ha).2]
      refine ⟨z, hz, p, ?_, k2, ?_, by rw [hrel]; exact k4⟩
      · rw [hDx z, k1]
        rintro rfl
        exact hyx (k1.symm.trans hDx0)
      · rw [par' y hyc hyx, k3]
        by_cases hp : p = x
        · subst hp
          rw [hDx0, hDxx, if_pos ⟨rfl, hyw⟩]
        · rw [hDx p hp, if_neg]
          rintro ⟨k5, _⟩
          exact hp (hinv p (Option.some.inj k5))
  · rw [← P.text]
    have hspc : s.space c = sNo := by
      obtain ⟨z, h1, h2⟩ := P.space c hcd hcc
      rw [hdq, List.filter_append, List.filter_cons_of_pos (by simpa using hc), List.filter_nil, List.getLast?_append] at h1
      simp only [List.getLast?_singleton, Option.some_or, Option.some.injEq] at h1
      subst h1
      rw [h2]
      exact hJ.2.2.2
    refine text_join w (i' r t') hsw hw' hmc hJ.2.1 hspc f' sp' ?_
    intro a ha j hj
    have hsub : ∀ y ∈ s.heap.words r, y ∈ s0.heap.words r := by
      intro y hy
      rw [P.words, hdrop, List.mem_append] at hy
      rw [hW, List.mem_append]
      rcases hy with hy | hy
      · exact .inl (List.mem_filter.1 hy).1
      · exact .inr hy
    obtain ⟨h1, h2⟩ := hm a (hsub a ha) j hj
    refine ⟨?_, h2⟩
    rw [P.words, hdrop, List.mem_append]
    rw [hW, List.mem_append] at h1
    rcases h1 with h1 | h1
    · left
      refine List.mem_filter.2 ⟨h1, ?_⟩
      by_cases hne : rep (m.last j) = m.last j
      · simpa using hne
      · have := (P.rep3 _ h1 hne).1
        rw [h2] at this
        cases this
    · exact .inr h1

/-- One step of the loop. -/
theorem jp_step {m : MwtInfo} {value : Option Str} {s0 : TokSt} {r : Nat} {rep : Nat → Nat} (hi : Inv s0.heap) (hr : IsTree s0.heap r)
    (hsr : s0.space r ≠ sNo)
    (hm : ∀ a ∈ s0.heap.words r, ∀ j, m.of a = some j → m.last j ∈ s0.heap.words r ∧ m.of (m.last j) = some j)
    (hrep : Reps (Joins m value s0) r (s0.heap.words r) rep) (done : List Nat) (x : Nat) (rest : List Nat) (s : TokSt)
    (hW : s0.heap.words r = done ++ x :: rest) (P : JP m value s0 r rep done s) :
    ∃ s', joinToken m value s x = (s', none) ∧ JP m value s0 r rep (done ++ [x]) s' := by
  have w := hi r hr
  have hn : (r :: s0.heap.words r).Nodup := List.nodup_cons.2 ⟨w.root_not_mem, w.nodup⟩
  have hB := before_split (r := r) hW
  have hxd : x ∉ done := by
    have := w.nodup
    rw [hW, List.nodup_append] at this
    exact fun hm => this.2.2 x hm x (List.mem_cons_self ..) rfl
  have hrd : r ∉ done := fun hd => w.root_not_mem (by rw [hW]; exact List.mem_append_left _ hd)
  have hprev : prevNode s.heap x = some (rep (done.getLast?.getD r)) := by
    have hsw : s.heap.words r = done.filter (fun y => rep y = y) ++ x :: rest := by
      rw [P.words, hW]
      simp
    rw [prevNode_split (P.inv r P.tree) hsw, P.lastK]
  have hmark : Marked value s x ↔ Marked value s0 x := by
    unfold Marked
    rw [P.attr]
  -- the properties of the word before are those of the last word joined with it
  have hof : m.of (rep (done.getLast?.getD r)) = none ↔ m.of (done.getLast?.getD r) = none := by
    cases hd : done.getLast? with
    | none => rw [Option.getD_none, hrep.root]
    | some q =>
      rw [Option.getD_some]
      have hqd : q ∈ done := List.mem_of_getLast? hd
      by_cases hqq : rep q = q
      · rw [hqq]
      · obtain ⟨h1, h2⟩ := P.rep3 q hqd hqq
        rw [h1, h2]
  have hsp : s.space (rep (done.getLast?.getD r)) = s0.space (done.getLast?.getD r) := by
    cases hd : done.getLast? with
    | none => rw [Option.getD_none, hrep.root, P.space0 r hrd]
    | some q =>
      rw [Option.getD_some]
      have hqd : q ∈ done := List.mem_of_getLast? hd
      obtain ⟨D, hD⟩ := List.getLast?_eq_some_iff.1 hd
      obtain ⟨z, h1, h2⟩ := P.space (rep q) (P.rep1 q hqd) (P.rep2 q hqd)
      rw [hD, List.filter_append, List.filter_cons_of_pos (by simp), List.filter_nil, List.getLast?_append] at h1
      simp only [List.getLast?_singleton, Option.some_or, Option.some.injEq] at h1
      rw [h2, h1]
  by_cases hM : Marked value s0 x
  · obtain ⟨h1, h2⟩ := marked_iff.1 (hmark.2 hM)
    unfold joinToken
    rw [if_neg h1, if_neg h2, hprev]
    simp only
    by_cases hw : m.of x ≠ none ∨ m.of (done.getLast?.getD r) ≠ none
    · have hw' : m.of x ≠ none ∨ m.of (rep (done.getLast?.getD r)) ≠ none := by
        rcases hw with h | h
        · exact .inl h
        · exact .inr (fun h' => h (hof.1 h'))
      have hJ : ¬ Joins m value s0 (done.getLast?.getD r) x := fun hJ => by
        rcases hw with h | h
        · exact h hJ.2.1
        · exact h hJ.2.2.1
      rw [if_pos hw']
      refine ⟨_, rfl, jp_keep hW hn P (hrep.kept _ _ hB hJ) _ rfl rfl rfl rfl rfl ?_⟩
      unfold bugAfter
      rw [if_pos ⟨hM, hJ⟩, if_pos hw]
    · have hw' : ¬ (m.of x ≠ none ∨ m.of (rep (done.getLast?.getD r)) ≠ none) := by
        rintro (h | h)
        · exact hw (.inl h)
        · exact hw (.inr (fun h' => h (hof.2 h')))
      rw [if_neg hw', hsp]
      by_cases hs : s0.space (done.getLast?.getD r) = sNo
      · rw [if_neg (fun h => h hs)]
        cases hd : done.getLast? with
        | none =>
          rw [hd, Option.getD_none] at hs
          exact absurd hs hsr
        | some q =>
          rw [hd, Option.getD_some] at hs hw hB
          have hJ : Joins m value s0 q x :=
            ⟨hM, Classical.byContradiction fun h => hw (.inl h), Classical.byContradiction fun h => hw (.inr h), hs⟩
          exact jp_join hW hn hm P hd (hrep.joined _ _ hB hJ) hJ
      · have hJ : ¬ Joins m value s0 (done.getLast?.getD r) x := fun hJ => hs hJ.2.2.2
        rw [if_pos hs]
        refine ⟨_, rfl, jp_keep hW hn P (hrep.kept _ _ hB hJ) _ rfl rfl rfl rfl rfl ?_⟩
        unfold bugAfter
        rw [if_pos ⟨hM, hJ⟩, if_neg hw]
  · have hJ : ¬ Joins m value s0 (done.getLast?.getD r) x := fun hJ => hM hJ.1
    have e : joinToken m value s x = (s, none) := by
      unfold joinToken
      by_cases h1 : s.attr x = []
      · rw [if_pos h1]
      · by_cases h2 : value.getD [] ≠ [] ∧ some (s.attr x) ≠ value
        · rw [if_neg h1, if_pos h2]
        · exact absurd (hmark.1 (marked_iff.2 ⟨h1, h2⟩)) hM
    refine ⟨s, e, jp_keep hW hn P (hrep.kept _ _ hB hJ) _ rfl rfl rfl rfl rfl ?_⟩
    unfold bugAfter
    rw [if_neg (fun h => hM h.1), ← P.bug0 x hxd]
    funext y
    by_cases hy : y = x
    · rw [hy, upd_same]
    · rw [upd_ne _ _ hy]

/-! ## The properties -/

/-- C104, what holds. `ud.JoinToken` on a well-formed tree: no exception; the tree stays well-formed and the other trees keep their words. The marked
    words that can be joined disappear into the word before (so a chain of them disappears into the word where it starts); the other words stay in
    their order. A word that stays has the forms of its group put together and the `SpaceAfter` of the last of them, the relation of one word of
    the group, and as parent the word into which the parent of that word went. The text is the same. A marked word that is not joined
    is marked as a bug and keeps its attribute. Missing: what a marked first word gets, see `C104_first_violated`. -/
theorem C104_join_partial {m : MwtInfo} {value : Option Str} {s : TokSt} {r : Nat} (hi : Inv s.heap) (hr : IsTree s.heap r) (hsr : s.space r ≠ sNo)
    (hm : ∀ a ∈ s.heap.words r, ∀ j, m.of a = some j → m.last j ∈ s.heap.words r ∧ m.of (m.last j) = some j) :
    ∃ s' rep, joinTokens m value s r = (s', none) ∧ Reps (Joins m value s) r (s.heap.words r) rep ∧ Inv s'.heap ∧ IsTree s'.heap r ∧
      s'.heap.words r = (s.heap.words r).filter (fun y => rep y = y) ∧
      (∀ r', r' ≠ r → s'.heap.words r' = s.heap.words r') ∧
      (∀ y ∈ s'.heap.words r, s'.form y = ((s.heap.words r).filter (fun z => rep z = y)).flatMap s.form) ∧
      (∀ y ∈ s'.heap.words r, ∃ z, ((s.heap.words r).filter (fun z => rep z = y)).getLast? = some z ∧ s'.space y = s.space z) ∧
      (∀ y ∈ s'.heap.words r, ∃ z ∈ s.heap.words r, ∃ p, rep z = y ∧ s.heap.parent z = some p ∧ s'.heap.parent y = some (rep p) ∧
        s'.rel y = s.rel z) ∧
      textOf m s' r = textOf m s r ∧
      s'.attr = s.attr ∧
      (∀ p y, Before r (s.heap.words r) p y → ¬ Marked value s y → s'.bug y = s.bug y) ∧
      (∀ p y, Before r (s.heap.words r) p y → Marked value s y → ¬ Joins m value s p y →
        s'.bug y = if m.of y ≠ none ∨ m.of p ≠ none then bugHere else bugSpace) := by
  have w := hi r hr
  have hn : (r :: s.heap.words r).Nodup := List.nodup_cons.2 ⟨w.root_not_mem, w.nodup⟩
  obtain ⟨rep, hrep⟩ := reps_exist (Joins m value s) hn
  have hinit : JP m value s r rep [] s := by
    refine ⟨hi, hr, rfl, fun _ _ => rfl, ?_, ?_, ?_, ?_, ?_, fun _ _ => rfl, ?_, fun _ _ => rfl, rfl, ?_, fun _ _ => rfl, ?_, rfl⟩
    · simp [hrep.root]
    · intro z hz; cases hz
    · intro z hz; cases hz
    · intro z hz; cases hz
    · intro z hz; cases hz
    · intro z hz; cases hz
    · intro p z _ hz; cases hz
    · intro y hy
      obtain ⟨p, hp, _⟩ := w.parentIn y hy
      exact ⟨y, hy, p, by simp [repD], hp, by simp [repD, hp], rfl⟩
  obtain ⟨s', e, P⟩ := forNodes_inv (joinToken m value) (JP m value s r rep) (s.heap.words r)
    (fun done x rest s1 hW P => jp_step hi hr hsr hm hrep done x rest s1 hW P) s hinit
  have hwd : s'.heap.words r = (s.heap.words r).filter (fun y => rep y = y) := by
    rw [P.words]
    simp
  have hmem : ∀ y ∈ s'.heap.words r, y ∈ s.heap.words r ∧ rep y = y := by
    intro y hy
    rw [hwd, List.mem_filter] at hy
    exact ⟨hy.1, by simpa using hy.2⟩
  have hbm : ∀ p y, Before r (s.heap.words r) p y → y ∈ s.heap.words r := by
    rintro p y ⟨A, B, h⟩
    cases A with
    | nil =>
      injection h with _ h
      rw [h]
      simp
    | cons a A =>
      injection h with _ h
      rw [h]
      simp
  refine ⟨s', rep, e, hrep, P.inv, P.tree, hwd, P.others, fun y hy => P.form y (hmem y hy).1 (hmem y hy).2,
    fun y hy => P.space y (hmem y hy).1 (hmem y hy).2, ?_, P.text, P.attr, ?_, ?_⟩
  · intro y hy
    obtain ⟨z, hz, p, h1, h2, h3, h4⟩ := P.parent y hy
    refine ⟨z, hz, p, ?_, h2, ?_, h4⟩
    · rw [← h1]
      simp [repD, hz]
    · rw [h3]
      rcases w.parent_in hz h2 with rfl | hp
      · simp [repD, hrep.root]
      · simp [repD, hp]
  · intro p y hB hM
    rw [P.bug p y hB (hbm p y hB)]
    unfold bugAfter
    rw [if_neg (fun h => hM h.1)]
  · intro p y hB hM hJ
    rw [P.bug p y hB (hbm p y hB)]
    unfold bugAfter
    rw [if_pos ⟨hM, hJ⟩]

/-- C104, refuted in part: the first word of a sentence is never recognised as such (`prev_node` is then the technical root, jointoken.py:61-65).
    A marked first word outside multi-word tokens is reported as being separated by a space from what is before. -/
theorem C104_first_violated {m : MwtInfo} {value : Option Str} {s : TokSt} {r x : Nat} {rest : List Nat} (hi : Inv s.heap) (hr : IsTree s.heap r)
    (hsr : s.space r ≠ sNo) (hW : s.heap.words r = x :: rest) (hM : Marked value s x) (hx : m.of x = none) (hmr : m.of r = none) :
    joinToken m value s x = ({ s with bug := upd s.bug x bugSpace }, none) ∧ bugSpace ≠ bugHere := by
  obtain ⟨h1, h2⟩ := marked_iff.1 hM
  have hp := prevNode_split (K := []) (hi r hr) hW
  refine ⟨?_, by decide⟩
  unfold joinToken
  rw [if_neg h1, if_neg h2, hp]
  simp [hx, hmr, hsr]

/-! ## Examples -/

/-- Words 1 to 5; 1 depends on 2, 2 on 3, 3 on the root, 4 on 3, 5 on 4. There is no space after 1, 2 and 4; the words in `l` are marked. -/
def exTok (l : List Nat) : TokSt where
  heap := (setParent (setParent (setParent (setParent (setParent (createChild (createChild (createChild (createChild (createChild (newTree Heap.init) 0) 0) 0) 0) 0)
    2 (some 3)).1 1 (some 2)).1 4 (some 3)).1 5 (some 4)).1 3 (some 0)).1
  rel := fun x => if x = 3 then some dRoot else some dDep
  form := fun x => if x = 1 then ['a'] else if x = 2 then ['b'] else if x = 3 then ['c'] else if x = 4 then ['d'] else ['e']
  space := fun x => if x = 1 ∨ x = 2 ∨ x = 4 then sNo else []
  attr := fun x => if x ∈ l then ['Y'] else []
  bug := fun _ => []

/-- 4 and 5 are a multi-word token. -/
def exMwt : MwtInfo where
  of := fun x => if x = 4 ∨ x = 5 then some 0 else none
  last := fun _ => 5
  form := fun _ => ['d', 'e']
  no := fun _ => false

example : let r := joinTokens exMwt none (exTok [2, 3, 5]) 0
    r.2 = none ∧ r.1.heap.words 0 = [1, 4, 5] ∧ r.1.form 1 = ['a', 'b', 'c'] ∧ r.1.space 1 = [] ∧ r.1.heap.parent 1 = some 0 ∧ r.1.rel 1 = some dRoot ∧
    r.1.heap.parent 4 = some 1 ∧ r.1.bug 5 = bugHere ∧ textOf exMwt r.1 0 = ['a', 'b', 'c', ' ', 'd', 'e'] := by decide +kernel

example : let r := joinTokens exMwt (some ['Y']) (exTok [1, 4]) 0
    r.2 = none ∧ r.1.heap.words 0 = [1, 2, 3, 4, 5] ∧ r.1.bug 1 = bugSpace ∧ r.1.bug 4 = bugHere := by decide +kernel

example : Joins exMwt none (exTok [2, 3]) 1 2 ∧ ¬ Joins exMwt none (exTok [4]) 3 4 := by decide

end Verif.Blocks
