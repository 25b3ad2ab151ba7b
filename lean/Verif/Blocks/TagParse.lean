import Verif.Blocks.Basic
import Verif.Tree.Props
import Verif.Py.Str

/-!
# Property C176: tagging and parsing with UDPipe (udapi/tool/udpipe.py, udapi/tool/udpipeonline.py)

The tagger and parser itself, together with the CoNLL-U reader that reads its output, is an arbitrary function `run` from the input
text to the words of the parsed sentence. Simplified: errors of UDPipe, and output without a sentence, are left out.
-/

namespace Verif.Blocks
open Verif.Py Verif.Tree

/-- The attributes that UDPipe fills in (`attrs`, udpipe.py:39-41). -/
structure TagAttr where
  upos : Str
  xpos : Str
  lemma : Str
  feats : Str
  deprel : Str
  deriving DecidableEq, Repr

/-- A word of the parsed sentence: `parsed_node.parent.ord` and its attributes. -/
structure Parsed where
  head : Nat
  attr : TagAttr
  deriving DecidableEq, Repr

/-- `for attr in attrs: setattr(node, attr, getattr(parsed_node, attr))` (udpipe.py:39-41, 47-48) -/
def copyAttrs (tag parse : Bool) (old new : TagAttr) : TagAttr where
  upos := if tag then new.upos else old.upos
  xpos := if tag then new.xpos else old.xpos
  lemma := if tag then new.lemma else old.lemma
  feats := if tag then new.feats else old.feats
  deprel := if parse then new.deprel else old.deprel

/-- `descendants[parsed_node.parent.ord - 1] if parsed_node.parent.ord else root` (udpipe.py:46); `none`: `IndexError`. -/
def headNode (r : Nat) (ws : List Nat) : Nat → Option Nat
  | 0 => some r
  | k + 1 => ws[k]?

/-- The body of the loop (udpipe.py:43-48) for the parsed word with the given `ord`. -/
def tpStep (tag parse : Bool) (r : Nat) (ws : List Nat) (s : Heap × (Nat → TagAttr)) (e : Parsed × Nat) :
    (Heap × (Nat → TagAttr)) × Option Err :=
  match ws[e.2 - 1]? with
  | none => (s, some .indexError)
  | some x =>
    match (if parse then
        match headNode r ws e.1.head with
        | none => (s.1, some .indexError)
        | some p => setParent s.1 x (some p)
      else (s.1, none)) with
    | (h, some err) => ((h, s.2), some err)
    | (h, none) => ((h, upd s.2 x (copyAttrs tag parse (s.2 x) e.1.attr)), none)

/-- `UDPipe.tag_parse_tree` (udpipe.py:25-48), and also `UDPipeOnline.tag_parse_tree` (udpipeonline.py:65-90). -/
def tagParseTree (run : Str → List Parsed) (form : Nat → Str) (tag parse : Bool) (h : Heap) (a : Nat → TagAttr) (r : Nat) :
    (Heap × (Nat → TagAttr)) × Option Err :=
  if tag = false ∧ parse = false then ((h, a), some .valueError)
  else if h.words r = [] then ((h, a), none)
  else
    forNodes (tpStep tag parse r (h.words r)) (if parse then flatten h r else h, a)
      ((run (join [' '] ((h.words r).map form))).zipIdx 1)

/-- `for i in range(1, u_words.size()): node = new_root.create_child(...); nodes.append(node)` (udpipe.py:107-115): the new nodes. -/
def createWords (h : Heap) (a : Nat → TagAttr) (r : Nat) : List Parsed → Heap × (Nat → TagAttr) × List Nat
  | [] => (h, a, [])
  | p :: ps =>
    let t := createWords (createChild h r) (upd a h.next p.attr) r ps
    (t.1, t.2.1, h.next :: t.2.2)

/-- `head = heads.pop(0); node.parent = nodes[head]` (udpipe.py:117-119); `nodes` starts with the root. -/
def setHead (r : Nat) (ws : List Nat) (h : Heap) (e : Nat × Nat) : Heap × Option Err :=
  match headNode r ws e.2 with
  | none => (h, some .indexError)
  | some p => setParent h e.1 (some p)

/-- The conversion of one sentence of UDPipe to a tree (udpipe.py:105-119), for a root without words. -/
def buildTree (parse : Bool) (h : Heap) (a : Nat → TagAttr) (r : Nat) (sent : List Parsed) : (Heap × (Nat → TagAttr)) × Option Err :=
  let t := createWords h a r sent
  if parse then
    match forNodes (setHead r t.2.2) t.1 (t.2.2.zip (sent.map (·.head))) with
    | (h', e) => ((h', t.2.1), e)
  else ((t.1, t.2.1), none)

/-! ## Specification vocabulary -/

/-- Following the heads from the word number `i` leads to the technical root. -/
inductive LeadsToRoot (ps : List Parsed) : Nat → Prop
  | root : LeadsToRoot ps 0
  | step {i : Nat} {p : Parsed} : ps[i]? = some p → LeadsToRoot ps p.head → LeadsToRoot ps (i + 1)

/-- The parsed sentence is a tree. -/
def ParsedTree (ps : List Parsed) : Prop := ∀ i < ps.length, LeadsToRoot ps (i + 1)

/-- The words of a text in the format `horizontal` of UDPipe: they are separated by spaces. -/
def spaceWords (s : Str) : List Str := (split ' ' s).filter (fun w => w ≠ [])

/-! ## Proofs -/

theorem split_append_sep (c : Char) (b : Str) : ∀ a : Str, split c (a ++ c :: b) = split c a ++ split c b
  | [] => by simp [split]
  | x :: a => by
    have ih := split_append_sep c b a
    simp only [List.cons_append, split]
    by_cases hx : x = c
    · rw [if_pos hx, if_pos hx, ih]; rfl
    · rw [if_neg hx, if_neg hx, ih]
      cases hs : split c a with
      | nil => exact absurd hs (split_ne_nil c a)
      | cons p ps => rfl

theorem spaceWords_join : ∀ fs : List Str, spaceWords (join [' '] fs) = fs.flatMap spaceWords
  | [] => by decide
  | [f] => by simp [join]
  | f :: g :: fs => by
    have ih := spaceWords_join (g :: fs)
    have e : join [' '] (f :: g :: fs) = f ++ ' ' :: join [' '] (g :: fs) := by simp [join]
    rw [e, List.flatMap_cons, ← ih]
    unfold spaceWords
    rw [split_append_sep, List.filter_append]

/-- C176: the words that UDPipe sees are the forms of the tree if no form is empty or has a space. -/
theorem C176_input (fs : List Str) : (∀ f ∈ fs, f ≠ [] ∧ ' ' ∉ f) → spaceWords (join [' '] fs) = fs := by
  intro h
  rw [spaceWords_join]
  induction fs with
  | nil => rfl
  | cons f fs ih =>
    have hf := h f (List.mem_cons_self ..)
    rw [List.flatMap_cons, ih (fun g hg => h g (List.mem_cons_of_mem _ hg))]
    unfold spaceWords
    rw [split_of_not_mem hf.2]
    simp [hf.1]

/-- A chain of heads from the word `i` up to the word `a`. -/
inductive HeadChain (ps : List Parsed) (a : Nat) : Nat → Prop
  | one {i : Nat} {p : Parsed} : ps[i]? = some p → p.head = a → HeadChain ps a (i + 1)
  | more {i : Nat} {p : Parsed} : ps[i]? = some p → HeadChain ps a p.head → HeadChain ps a (i + 1)

theorem HeadChain.snoc {ps : List Parsed} {i k : Nat} {p : Parsed} (hp : ps[i]? = some p) (c : HeadChain ps (i + 1) k) :
    HeadChain ps p.head k := by
  induction c with
  | one hq e =>
    exact .more hq (e ▸ .one hp rfl)
  | more hq _ ih => exact .more hq ih

theorem no_cycle {ps : List Parsed} {i : Nat} (l : LeadsToRoot ps i) : ¬ HeadChain ps i i := by
  induction l with
  | root => intro c; cases c
  | @step j p hp _ ih =>
    intro c
    apply ih
    cases c with
    | one hq e =>
      rw [hp] at hq
      injection hq with hq
      subst hq
      exact e ▸ .one hp e
    | more hq c' =>
      rw [hp] at hq
      injection hq with hq
      subst hq
      exact c'.snoc hp

theorem headNode_in {r k : Nat} {ws : List Nat} (hk : k ≤ ws.length) : ∃ p, headNode r ws k = some p ∧ (p = r ∨ p ∈ ws) := by
  cases k with
  | zero => exact ⟨r, rfl, .inl rfl⟩
  | succ k =>
    have : k < ws.length := hk
    exact ⟨ws[k], by simp [headNode, this], .inr (List.getElem_mem _)⟩

theorem head_le {ps : List Parsed} (ht : ParsedTree ps) {i : Nat} {p : Parsed} (hp : ps[i]? = some p) : p.head ≤ ps.length := by
  have hi : i < ps.length := (List.getElem?_eq_some_iff.1 hp).1
  cases ht i hi with
  | step hq l =>
    rw [hp] at hq
    injection hq with hq
    subst hq
    generalize p.head = k at l ⊢
    cases l with
    | root => exact Nat.zero_le _
    | step hq _ => exact (List.getElem?_eq_some_iff.1 hq).1

/-- The state of the tree when the first `n` words have got their heads. -/
structure HeadsSet (h0 h : Heap) (r : Nat) (ws : List Nat) (ps : List Parsed) (n : Nat) : Prop where
  inv : Inv h
  tree : IsTree h r
  words : h.words = h0.words
  ord : h.ord = h0.ord
  root : h.root = h0.root
  done : ∀ i x p, i < n → ws[i]? = some x → ps[i]? = some p → h.parent x = headNode r ws p.head
  todo : ∀ i x, n ≤ i → ws[i]? = some x → h.parent x = some r
  frame : ∀ x, x ∉ ws → h.parent x = h0.parent x

theorem anc_chain {h0 h : Heap} {r : Nat} {ws : List Nat} {ps : List Parsed} {n : Nat} (s : HeadsSet h0 h r ws ps n) (hw : h0.words r = ws)
    (hl : ps.length = ws.length) {x y : Nat} (a : Anc h x y) (hx : x ∈ ws) :
    ∀ i, ws[i]? = some y → HeadChain ps (h.ord x) (i + 1) := by
  have w := s.inv r s.tree
  have hww : h.words r = ws := by rw [s.words]; exact hw
  have key : ∀ {i y z : Nat}, ws[i]? = some y → h.parent y = some z → z ∈ ws → ∃ p, ps[i]? = some p ∧ p.head = h.ord z := by
    intro i y z hi hz hzw
    have hil : i < ws.length := (List.getElem?_eq_some_iff.1 hi).1
    have hp : ps[i]? = some ps[i] := List.getElem?_eq_getElem (by omega)
    refine ⟨_, hp, ?_⟩
    have hzr : z ≠ r := fun e => w.root_not_mem (by rw [hww]; exact e ▸ hzw)
    by_cases hin : i < n
    · have := s.done i y _ hin hi hp
      rw [hz] at this
      generalize (ps[i]).head = k at this ⊢
      cases k with
      | zero => exact absurd (Option.some.inj this) hzr
      | succ k =>
        have e : ws[k]? = some z := this.symm
        have := aligned_get w.aligned (i := k) (x := z) (by rw [hww]; exact e)
        omega
    · have := s.todo i y (by omega) hi
      rw [hz] at this
      exact absurd (Option.some.inj this) hzr
  induction a with
  | parent e =>
    intro i hi
    obtain ⟨p, hp, he⟩ := key hi e hx
    exact .one hp he
  | @step y z e a ih =>
    intro i hi
    have hzin : InTree h r z := w.parent_in (by rw [hww]; exact List.mem_of_getElem? hi) e
    rcases hzin with rfl | hz
    · exact absurd a w.not_anc_root
    · obtain ⟨p, hp, he⟩ := key hi e (hww ▸ hz)
      refine .more hp ?_
      have hg := w.get_ord hz
      rw [hww] at hg
      have := ih (h.ord z - 1) hg
      rw [Nat.sub_add_cancel (w.ord_pos hz)] at this
      rw [he]
      exact this

/-- One more word gets its head. -/
theorem head_step {h0 h : Heap} {r : Nat} {ws : List Nat} {ps : List Parsed} {n : Nat} (s : HeadsSet h0 h r ws ps n) (hw : h0.words r = ws)
    (hl : ps.length = ws.length) (ht : ParsedTree ps) {x : Nat} {p : Parsed} (hx : ws[n]? = some x) (hp : ps[n]? = some p) :
    ∃ q h', headNode r ws p.head = some q ∧ setParent h x (some q) = (h', none) ∧ HeadsSet h0 h' r ws ps (n + 1) := by
  have w := s.inv r s.tree
  have hww : h.words r = ws := by rw [s.words]; exact hw
  have hxw : x ∈ ws := List.mem_of_getElem? hx
  obtain ⟨q, hq, hqin⟩ := headNode_in (r := r) (ws := ws) (k := p.head) (hl ▸ head_le ht hp)
  have hord : h.ord x = n + 1 := by
    have := aligned_get w.aligned (i := n) (x := x) (by rw [hww]; exact hx)
    omega
  have hnc : ¬ HeadChain ps (n + 1) (n + 1) := no_cycle (ht n (by rw [hl]; exact (List.getElem?_eq_some_iff.1 hx).1))
  -- the head is a word with the number `p.head`, or the root
  have hqnum : q ∈ ws → ws[h.ord q - 1]? = some q ∧ h.ord q = p.head := by
    intro hqw
    have hg := w.get_ord (x := q) (by rw [hww]; exact hqw)
    rw [hww] at hg
    refine ⟨hg, ?_⟩
    generalize p.head = k at hq
    cases k with
    | zero =>
      injection hq with e
      exact absurd (by rw [hww]; exact e ▸ hqw) w.root_not_mem
    | succ k =>
      have := aligned_get w.aligned (i := k) (x := q) (by rw [hww]; exact hq)
      omega
  have hqx : q ≠ x := by
    intro e
    have := (hqnum (e ▸ hxw)).2
    rw [e, hord] at this
    exact hnc (.one hp this.symm)
  have hna : ¬ Anc h x q := by
    intro a
    rcases hqin with rfl | hqw
    · exact w.not_anc_root a
    · obtain ⟨h1, h2⟩ := hqnum hqw
      have := anc_chain s hw hl a hxw _ h1
      rw [Nat.sub_add_cancel (w.ord_pos (by rw [hww]; exact hqw)), h2, hord] at this
      exact hnc (.more hp this)
  obtain ⟨h', e1, i1, t1, w1, r1, o1, p1⟩ := attach_one s.inv s.tree (x := x) (p := q) (by rw [hww]; exact hxw)
    (hqin.imp id (fun h => by rw [hww]; exact h)) hqx hna
  have hnd : ws.Nodup := hww ▸ w.nodup
  refine ⟨q, h', hq, e1, i1, t1, w1.trans s.words, o1.trans s.ord, r1.trans s.root, ?_, ?_, ?_⟩
  · intro i y p' hi hy hp'
    rw [p1]
    by_cases hin : i = n
    · subst hin
      rw [hx] at hy
      rw [hp] at hp'
      injection hy with hy
      injection hp' with hp'
      rw [← hy, upd_same, ← hp', hq]
    · have hyx : y ≠ x := by
        intro e
        have h1 : i < ws.length := (List.getElem?_eq_some_iff.1 hy).1
        exact hin ((List.getElem?_inj h1 hnd).1 (by rw [hy, hx, e]))
      rw [upd_ne _ _ hyx]
      exact s.done i y p' (by omega) hy hp'
  · intro i y hi hy
    have hyx : y ≠ x := by
      intro e
      have h1 : i < ws.length := (List.getElem?_eq_some_iff.1 hy).1
      have := (List.getElem?_inj h1 hnd).1 (show ws[i]? = ws[n]? by rw [hy, hx, e])
      omega
    rw [p1, upd_ne _ _ hyx]
    exact s.todo i y (by omega) hy
  · intro y hy
    have hyx : y ≠ x := fun e => hy (e ▸ hxw)
    rw [p1, upd_ne _ _ hyx]
    exact s.frame y hy

theorem headsSet_init {h0 h : Heap} {r : Nat} {ws : List Nat} {ps : List Parsed} (hi : Inv h) (hr : IsTree h r) (hw : h.words = h0.words)
    (ho : h.ord = h0.ord) (hrt : h.root = h0.root) (hp : ∀ x ∈ ws, h.parent x = some r) (hf : ∀ x, x ∉ ws → h.parent x = h0.parent x) :
    HeadsSet h0 h r ws ps 0 :=
  ⟨hi, hr, hw, ho, hrt, fun _ _ _ h => absurd h (Nat.not_lt_zero _), fun _ _ _ h => hp _ (List.mem_of_getElem? h), hf⟩

/-- The attributes after the first `n` words. -/
def AttrsSet (tag parse : Bool) (a0 a : Nat → TagAttr) (ws : List Nat) (ps : List Parsed) (n : Nat) : Prop :=
  (∀ i x p, i < n → ws[i]? = some x → ps[i]? = some p → a x = copyAttrs tag parse (a0 x) p.attr) ∧
  ∀ x, (∀ i < n, ws[i]? ≠ some x) → a x = a0 x

theorem attrs_step {tag parse : Bool} {a0 a : Nat → TagAttr} {ws : List Nat} {ps : List Parsed} {n : Nat} (hnd : ws.Nodup)
    (s : AttrsSet tag parse a0 a ws ps n) {x : Nat} {p : Parsed} (hx : ws[n]? = some x) (hp : ps[n]? = some p) :
    AttrsSet tag parse a0 (upd a x (copyAttrs tag parse (a x) p.attr)) ws ps (n + 1) := by
  have hax : a x = a0 x := s.2 x (fun i hi e => by
    have h1 : i < ws.length := (List.getElem?_eq_some_iff.1 e).1
    have := (List.getElem?_inj h1 hnd).1 (show ws[i]? = ws[n]? by rw [e, hx])
    omega)
  refine ⟨?_, ?_⟩
  · intro i y p' hi hy hp'
    by_cases hin : i = n
    · subst hin
      rw [hx] at hy
      rw [hp] at hp'
      injection hy with hy
      injection hp' with hp'
      rw [← hy, ← hp', upd_same, hax]
    · have hyx : y ≠ x := by
        intro e
        have h1 : i < ws.length := (List.getElem?_eq_some_iff.1 hy).1
        exact hin ((List.getElem?_inj h1 hnd).1 (by rw [hy, hx, e]))
      rw [upd_ne _ _ hyx]
      exact s.1 i y p' (by omega) hy hp'
  · intro y hy
    have hyx : y ≠ x := fun e => hy n (by omega) (e ▸ hx)
    rw [upd_ne _ _ hyx]
    exact s.2 y (fun i hi => hy i (by omega))

/-- The element of an enumerated list after a prefix. -/
theorem zipIdx_at {ps : List Parsed} {done : List (Parsed × Nat)} {e : Parsed × Nat} {rest : List (Parsed × Nat)}
    (hl : ps.zipIdx 1 = done ++ e :: rest) : ps[done.length]? = some e.1 ∧ e.2 = done.length + 1 := by
  have h1 : (ps.zipIdx 1)[done.length]? = some e := by rw [hl]; simp
  rw [List.getElem?_zipIdx] at h1
  cases hp : ps[done.length]? with
  | none => rw [hp] at h1; exact absurd h1 (by simp)
  | some p =>
    rw [hp] at h1
    simp only [Option.map_some, Option.some.injEq] at h1
    subst h1
    exact ⟨rfl, by simp; omega⟩

/-- The result of tag_parse_tree when UDPipe returns one word for each word. -/
theorem tagParse_spec {run : Str → List Parsed} {form : Nat → Str} {tag parse : Bool} (htp : tag = true ∨ parse = true) {h : Heap}
    {a : Nat → TagAttr} {r : Nat} (hi : Inv h) (hr : IsTree h r)
    (hl : (run (join [' '] ((h.words r).map form))).length = (h.words r).length)
    (ht : parse = true → ParsedTree (run (join [' '] ((h.words r).map form)))) :
    ∃ h' a', tagParseTree run form tag parse h a r = ((h', a'), none) ∧
      (parse = true → HeadsSet h h' r (h.words r) (run (join [' '] ((h.words r).map form))) (h.words r).length) ∧
      (parse = false → h' = h) ∧
      AttrsSet tag parse a a' (h.words r) (run (join [' '] ((h.words r).map form))) (h.words r).length := by
  generalize hps : run (join [' '] ((h.words r).map form)) = ps at hl ht
  unfold tagParseTree
  rw [if_neg (by rintro ⟨h1, h2⟩; rcases htp with e | e <;> simp [e] at h1 h2)]
  by_cases he : h.words r = []
  · rw [if_pos he]
    refine ⟨h, a, rfl, ?_, fun _ => rfl, ?_⟩
    · intro _
      rw [he]
      exact headsSet_init hi hr rfl rfl rfl (fun x hx => absurd hx List.not_mem_nil) (fun _ _ => rfl)
    · rw [he]
      exact ⟨fun i _ _ hi => absurd hi (Nat.not_lt_zero _), fun _ _ => rfl⟩
  rw [if_neg he, hps]
  have hnd := (hi r hr).nodup
  obtain ⟨s', e1, q1, q2, q3⟩ := forNodes_inv (tpStep tag parse r (h.words r))
    (fun done s => (parse = true → HeadsSet h s.1 r (h.words r) ps done.length) ∧ (parse = false → s.1 = h) ∧
      AttrsSet tag parse a s.2 (h.words r) ps done.length) (ps.zipIdx 1) (by
      intro done e rest s hd ⟨p1, p2, p3⟩
      obtain ⟨hp, he2⟩ := zipIdx_at hd
      have hlt : done.length < ps.length := (List.getElem?_eq_some_iff.1 hp).1
      have hx : (h.words r)[done.length]? = some ((h.words r)[done.length]'(by omega)) := List.getElem?_eq_getElem (by omega)
      generalize (h.words r)[done.length]'(by omega) = x at hx
      have ha := attrs_step hnd p3 hx hp
      have hlen : (done ++ [e]).length = done.length + 1 := by simp
      unfold tpStep
      rw [he2, Nat.add_sub_cancel, hx]
      cases hpar : parse with
      | false =>
        subst hpar
        refine ⟨_, rfl, fun h => absurd h (by decide), p2, ?_⟩
        rw [hlen]
        exact ha
      | true =>
        subst hpar
        obtain ⟨q, h', hq, hs, hn⟩ := head_step (p1 rfl) rfl hl (ht rfl) hx hp
        refine ⟨(h', upd s.2 x (copyAttrs tag true (s.2 x) e.1.attr)), ?_, fun _ => ?_, fun h => absurd h (by decide), ?_⟩
        · simp only [if_true, hq, hs]
        · rw [hlen]; exact hn
        · rw [hlen]; exact ha)
    (if parse then flatten h r else h, a) (by
      refine ⟨?_, ?_, fun i _ _ hi => absurd hi (Nat.not_lt_zero _), fun _ _ => rfl⟩
      · intro hp
        subst hp
        exact headsSet_init (inv_flatten hi hr) hr rfl rfl rfl (fun x hx => by simp [flatten, hx]) (fun x hx => by simp [flatten, hx])
      · intro hp
        subst hp
        rfl)
  refine ⟨s'.1, s'.2, e1, ?_, q2, ?_⟩
  · simpa [hl] using q1
  · simpa [hl] using q3

/-- C176, the part that holds: if no form is empty or has a space, and UDPipe returns a tree with one word for each word of its input,
then `tag_parse_tree` with `parse` raises nothing; every word gets the head and the attributes of the parsed word at its position (the
tags only with `tag`), the words and their order stay, the tree is well formed, and words of other trees are not changed. What is missing:
forms with spaces. -/
theorem C176_parse_partial {run : Str → List Parsed} {form : Nat → Str} (tag : Bool) {h : Heap} (a : Nat → TagAttr) {r : Nat}
    (hh : Reachable h) (hr : IsTree h r) (hf : ∀ x ∈ h.words r, form x ≠ [] ∧ ' ' ∉ form x)
    (hl : ∀ s, (run s).length = (spaceWords s).length) (ht : ∀ s, ParsedTree (run s)) :
    ∃ h' a', tagParseTree run form tag true h a r = ((h', a'), none) ∧ WF h' r ∧ h'.words = h.words ∧
      (∀ (i x : Nat), (h.words r)[i]? = some x → ∃ p : Parsed, (run (join [' '] ((h.words r).map form)))[i]? = some p ∧
        h'.parent x = (if p.head = 0 then some r else (h.words r)[p.head - 1]?) ∧ (a' x).deprel = p.attr.deprel ∧
        (tag = true → a' x = p.attr) ∧ (tag = false → a' x = { a x with deprel := p.attr.deprel })) ∧
      ∀ x, x ∉ h.words r → h'.parent x = h.parent x ∧ a' x = a x := by
  have hi : Inv h := fun r hr => C07_history_wellformed hh hr
  have hlen : (run (join [' '] ((h.words r).map form))).length = (h.words r).length := by
    rw [hl, C176_input _ (fun f hf' => by
      obtain ⟨x, hx, e⟩ := List.mem_map.1 hf'
      exact e ▸ hf x hx), List.length_map]
  obtain ⟨h', a', e1, p1, _, p3⟩ := tagParse_spec (run := run) (form := form) (tag := tag) (parse := true) (a := a) (.inr rfl) hi hr hlen
    (fun _ => ht _)
  have s := p1 rfl
  refine ⟨h', a', e1, s.inv r s.tree, s.words, ?_, ?_⟩
  · intro i x hx
    have hil : i < (h.words r).length := (List.getElem?_eq_some_iff.1 hx).1
    have hp := List.getElem?_eq_getElem (l := run (join [' '] ((h.words r).map form))) (i := i) (by omega)
    refine ⟨_, hp, ?_, ?_⟩
    · rw [s.done i x _ hil hx hp]
      generalize ((run (join [' '] ((h.words r).map form)))[i]).head = k
      cases k <;> rfl
    · rw [p3.1 i x _ hil hx hp]
      refine ⟨rfl, ?_, ?_⟩
      · intro e; subst e; rfl
      · intro e; subst e; rfl
  · intro x hx
    exact ⟨s.frame x hx, p3.2 x (fun i _ e => hx (List.mem_of_getElem? e))⟩

/-- C176, tagging only: the dependencies stay, whatever heads UDPipe returns, and the words get the tags at their position. -/
theorem C176_tag_partial {run : Str → List Parsed} {form : Nat → Str} {h : Heap} (a : Nat → TagAttr) {r : Nat}
    (hh : Reachable h) (hr : IsTree h r) (hf : ∀ x ∈ h.words r, form x ≠ [] ∧ ' ' ∉ form x)
    (hl : ∀ s, (run s).length = (spaceWords s).length) :
    ∃ a', tagParseTree run form true false h a r = ((h, a'), none) ∧
      (∀ (i x : Nat), (h.words r)[i]? = some x → ∃ p : Parsed, (run (join [' '] ((h.words r).map form)))[i]? = some p ∧
        a' x = { p.attr with deprel := (a x).deprel }) ∧
      ∀ x, x ∉ h.words r → a' x = a x := by
  have hi : Inv h := fun r hr => C07_history_wellformed hh hr
  have hlen : (run (join [' '] ((h.words r).map form))).length = (h.words r).length := by
    rw [hl, C176_input _ (fun f hf' => by
      obtain ⟨x, hx, e⟩ := List.mem_map.1 hf'
      exact e ▸ hf x hx), List.length_map]
  obtain ⟨h', a', e1, _, p2, p3⟩ := tagParse_spec (run := run) (form := form) (tag := true) (parse := false) (a := a) (.inl rfl) hi hr hlen
    (fun h => absurd h (by decide))
  rw [p2 rfl] at e1
  refine ⟨a', e1, ?_, fun x hx => p3.2 x (fun i _ e => hx (List.mem_of_getElem? e))⟩
  intro i x hx
  have hil : i < (h.words r).length := (List.getElem?_eq_some_iff.1 hx).1
  have hp := List.getElem?_eq_getElem (l := run (join [' '] ((h.words r).map form))) (i := i) (by omega)
  exact ⟨_, hp, by rw [p3.1 i x _ hil hx hp]; rfl⟩

/-- C176: a tree without words is left as it is, and without tagging and parsing the call is rejected. -/
theorem C176_nothing (run : Str → List Parsed) (form : Nat → Str) (tag parse : Bool) (h : Heap) (a : Nat → TagAttr) (r : Nat) :
    (tag = false → parse = false → tagParseTree run form tag parse h a r = ((h, a), some .valueError)) ∧
    (tag = true ∨ parse = true → h.words r = [] → tagParseTree run form tag parse h a r = ((h, a), none)) := by
  refine ⟨?_, ?_⟩
  · intro h1 h2
    unfold tagParseTree
    rw [if_pos ⟨h1, h2⟩]
  · intro h1 h2
    unfold tagParseTree
    rw [if_neg (by rintro ⟨e1, e2⟩; rcases h1 with e | e <;> simp [e] at e1 e2), if_pos h2]

/-- A loop over more words than there are raises. -/
theorem forNodes_error {σ α : Type} (f : σ → α → σ × Option Err) {x : α} {e : Err} (hf : ∀ s, (f s x).2 = some e) :
    ∀ (l : List α), x ∈ l → ∀ s, ∃ e', (forNodes f s l).2 = some e'
  | y :: l, hm, s => by
    unfold forNodes
    cases hy : f s y with
    | mk s1 o =>
      cases o with
      | some e1 => exact ⟨e1, rfl⟩
      | none =>
        rcases List.mem_cons.1 hm with rfl | hm
        · have := hf s
          rw [hy] at this
          exact absurd this (by simp)
        · exact forNodes_error f hf l hm s1

/-- The number of words UDPipe sees is larger if one form has a space between two words. -/
theorem spaceWords_more {form : Nat → Str} : ∀ (xs : List Nat), (∀ x ∈ xs, spaceWords (form x) ≠ []) →
    xs.length ≤ ((xs.map form).flatMap spaceWords).length ∧
    ∀ x ∈ xs, 2 ≤ (spaceWords (form x)).length → xs.length < ((xs.map form).flatMap spaceWords).length
  | [], _ => ⟨Nat.le_refl _, fun x hx => absurd hx List.not_mem_nil⟩
  | y :: xs, hne => by
    obtain ⟨h1, h2⟩ := spaceWords_more xs (fun x hx => hne x (List.mem_cons_of_mem _ hx))
    have hy : 0 < (spaceWords (form y)).length := List.length_pos_iff.2 (hne y (List.mem_cons_self ..))
    simp only [List.map_cons, List.flatMap_cons, List.length_append, List.length_cons]
    refine ⟨by omega, ?_⟩
    intro x hx h
    rcases List.mem_cons.1 hx with rfl | hx
    · omega
    · have := h2 x hx h
      omega

/-- C176 does not hold: if a form has a space between two words (and no form is only spaces), and UDPipe returns one word for each word
of its input, the call raises. -/
theorem C176_space_violated {run : Str → List Parsed} {form : Nat → Str} (tag parse : Bool) (h : Heap) (a : Nat → TagAttr) (r : Nat)
    (hl : ∀ s, (run s).length = (spaceWords s).length) (hne : ∀ x ∈ h.words r, spaceWords (form x) ≠ []) {x : Nat} (hx : x ∈ h.words r)
    (hsp : 2 ≤ (spaceWords (form x)).length) : ∃ e, (tagParseTree run form tag parse h a r).2 = some e := by
  unfold tagParseTree
  by_cases htp : tag = false ∧ parse = false
  · rw [if_pos htp]; exact ⟨_, rfl⟩
  rw [if_neg htp, if_neg (List.ne_nil_of_mem hx)]
  have hlt := (spaceWords_more (form := form) (h.words r) hne).2 x hx hsp
  rw [← spaceWords_join, ← hl] at hlt
  generalize run (join [' '] ((h.words r).map form)) = ps at hlt
  refine forNodes_error _ (x := (ps[(h.words r).length], (h.words r).length + 1)) (e := .indexError) ?_ _ ?_ _
  · intro s
    unfold tpStep
    simp
  · refine List.mem_of_getElem? (i := (h.words r).length) ?_
    rw [List.getElem?_zipIdx, List.getElem?_eq_getElem hlt]
    simp [Nat.add_comm]

/-- The nodes made for the words of a sentence. -/
theorem createWords_spec : ∀ (ps : List Parsed) {h : Heap} {a : Nat → TagAttr} {r : Nat}, Inv h → IsTree h r →
    ∃ h' a' ns, createWords h a r ps = (h', a', ns) ∧ Inv h' ∧ IsTree h' r ∧ h'.words r = h.words r ++ ns ∧ ns.length = ps.length ∧
      (∀ x ∈ ns, h.next ≤ x ∧ h'.parent x = some r) ∧
      (∀ (i x : Nat) (p : Parsed), ns[i]? = some x → ps[i]? = some p → a' x = p.attr) ∧
      (∀ x, x < h.next → h'.parent x = h.parent x ∧ a' x = a x) ∧ h.next ≤ h'.next
  | [], h, a, r, hi, hr => ⟨h, a, [], rfl, hi, hr, by simp, rfl, fun x hx => absurd hx List.not_mem_nil, fun i x p hx => by simp at hx,
      fun _ _ => ⟨rfl, rfl⟩, Nat.le_refl _⟩
  | p :: ps, h, a, r, hi, hr => by
    have hi1 := inv_createChild hi hr (.inl rfl)
    have hr1 : IsTree (createChild h r) r := by
      refine ⟨Nat.lt_succ_of_lt hr.1, ?_⟩
      have : r ≠ h.next := Nat.ne_of_lt hr.1
      simp [createChild, upd, this, hr.2]
    obtain ⟨h', a', ns, e1, i1, t1, w1, l1, n1, q1, f1, x1⟩ := createWords_spec ps (h := createChild h r) (a := upd a h.next p.attr) hi1 hr1
    have hnx : (createChild h r).next = h.next + 1 := rfl
    refine ⟨h', a', h.next :: ns, ?_, i1, t1, ?_, by simp [l1], ?_, ?_, ?_, by omega⟩
    · unfold createWords
      rw [e1]
    · rw [w1, createChild_words hr.2]
      simp
    · intro x hx
      rcases List.mem_cons.1 hx with rfl | hx
      · refine ⟨Nat.le_refl _, ?_⟩
        rw [(f1 h.next (by omega)).1]
        simp [createChild]
      · have := n1 x hx
        exact ⟨by omega, this.2⟩
    · intro i x q hx hq
      cases i with
      | zero =>
        simp only [List.getElem?_cons_zero, Option.some.injEq] at hx hq
        subst hx hq
        rw [(f1 h.next (by omega)).2, upd_same]
      | succ i =>
        simp only [List.getElem?_cons_succ] at hx hq
        exact q1 i x q hx hq
    · intro x hx
      have hxn : x ≠ h.next := by omega
      obtain ⟨h1, h2⟩ := f1 x (by omega)
      rw [h1, h2]
      exact ⟨createChild_parent_old hxn, upd_ne _ _ hxn⟩

theorem zip_heads_at {ns : List Nat} {ps : List Parsed} {done : List (Nat × Nat)} {e : Nat × Nat} {rest : List (Nat × Nat)}
    (hl : ns.zip (ps.map (·.head)) = done ++ e :: rest) :
    ns[done.length]? = some e.1 ∧ ∃ p, ps[done.length]? = some p ∧ p.head = e.2 := by
  have h1 : (ns.zip (ps.map (·.head)))[done.length]? = some e := by rw [hl]; simp
  obtain ⟨h2, h3⟩ := List.getElem?_zip_eq_some.1 h1
  rw [List.getElem?_map] at h3
  refine ⟨h2, ?_⟩
  cases hp : ps[done.length]? with
  | none => rw [hp] at h3; simp at h3
  | some p =>
    rw [hp] at h3
    exact ⟨p, rfl, by simpa using h3⟩

/-- C176, tokenization: for a root without words and a sentence of UDPipe that is a tree, the tree gets one word for each word of the
sentence, in the same order, with its attributes and (with `parse`) its head; the tree is well formed, and other words are not changed. -/
theorem C176_build {h : Heap} (a : Nat → TagAttr) {r : Nat} (hh : Reachable h) (hr : IsTree h r) (hw : h.words r = []) (parse : Bool)
    {sent : List Parsed} (ht : parse = true → ParsedTree sent) :
    ∃ h' a' ns, buildTree parse h a r sent = ((h', a'), none) ∧ WF h' r ∧ h'.words r = ns ∧ ns.length = sent.length ∧
      (∀ (i x : Nat) (p : Parsed), ns[i]? = some x → sent[i]? = some p → a' x = p.attr ∧
        h'.parent x = if parse = false ∨ p.head = 0 then some r else ns[p.head - 1]?) ∧
      ∀ x, x < h.next → h'.parent x = h.parent x ∧ a' x = a x := by
  have hi : Inv h := fun r hr => C07_history_wellformed hh hr
  obtain ⟨h1, a1, ns, e1, i1, t1, w1, l1, n1, q1, f1, x1⟩ := createWords_spec sent (a := a) hi hr
  rw [hw, List.nil_append] at w1
  unfold buildTree
  simp only [e1]
  cases parse with
  | false =>
    refine ⟨h1, a1, ns, rfl, i1 r t1, w1, l1, ?_, f1⟩
    intro i x p hx hp
    exact ⟨q1 i x p hx hp, by simp [(n1 x (List.mem_of_getElem? hx)).2]⟩
  | true =>
    obtain ⟨h2, e2, s⟩ := forNodes_inv (setHead r ns) (fun done h => HeadsSet h1 h r ns sent done.length) (ns.zip (sent.map (·.head))) (by
      intro done e rest h' hd s
      obtain ⟨hx, p, hp, he⟩ := zip_heads_at hd
      obtain ⟨q, h'', hq, hs, hn⟩ := head_step s w1 l1.symm (ht rfl) hx hp
      refine ⟨h'', ?_, by simpa using hn⟩
      unfold setHead
      rw [← he, hq]
      exact hs) h1 (headsSet_init i1 t1 rfl rfl rfl (fun x hx => (n1 x hx).2) (fun _ _ => rfl))
    have hlen : (ns.zip (sent.map (·.head))).length = ns.length := by simp [l1]
    rw [hlen] at s
    refine ⟨h2, a1, ns, ?_, s.inv r s.tree, by rw [s.words]; exact w1, l1, ?_, ?_⟩
    · rw [if_pos rfl, e2]
    · intro i x p hx hp
      refine ⟨q1 i x p hx hp, ?_⟩
      rw [s.done i x p (List.getElem?_eq_some_iff.1 hx).1 hx hp]
      generalize p.head = k
      cases k <;> simp [headNode]
    · intro x hx
      have hxn : x ∉ ns := fun hm => by have := (n1 x hm).1; omega
      rw [s.frame x hxn]
      exact f1 x hx

/-! ## Examples -/

/-- A parser that attaches every word to the next one, the last to the root. -/
def exRun (s : Str) : List Parsed :=
  (List.range (spaceWords s).length).map (fun i =>
    ⟨if i + 1 = (spaceWords s).length then 0 else i + 2, ⟨['X'], ['x'], ['l'], ['_'], ['d']⟩⟩)

/-- A tree with three words in a chain, the first below the root. -/
def exH : Heap := createChild (createChild (createChild (newTree Heap.init) 0) 1) 2

def exAttr : Nat → TagAttr := fun _ => ⟨['o'], ['o'], ['o'], ['o'], ['o']⟩

example : let t := tagParseTree exRun (fun x => if x = 2 then ['b', 'c'] else ['a']) false true exH exAttr 0
    t.2 = none ∧ t.1.1.parent 1 = some 2 ∧ t.1.1.parent 2 = some 3 ∧ t.1.1.parent 3 = some 0 ∧ t.1.1.children 0 = [3] ∧
    t.1.2 2 = ⟨['o'], ['o'], ['o'], ['o'], ['d']⟩ := by decide +kernel

example : let t := tagParseTree exRun (fun x => if x = 2 then ['b', ' ', 'c'] else ['a']) true true exH exAttr 0
    t.2 = some .indexError ∧ (t.1.2 2).upos = ['X'] ∧ (t.1.2 3).upos = ['o'] ∧ t.1.1.children 0 = [3] := by decide +kernel

example : let t := buildTree true (newTree Heap.init) exAttr 0 (exRun ['a', ' ', 'b', ' ', 'c'])
    t.2 = none ∧ t.1.1.words 0 = [1, 2, 3] ∧ t.1.1.parent 1 = some 2 ∧ t.1.1.parent 3 = some 0 ∧ (t.1.2 2).upos = ['X'] := by decide +kernel

end Verif.Blocks
