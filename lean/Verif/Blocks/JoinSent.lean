import Verif.Tree.StealProps
import Verif.Tree.LemmasShiftHeap
import Verif.Py.Num

/-!
# Documents whose sentences are joined and split; `util.JoinSentence` (property C100)

The trees live in one heap with their multi-word tokens (`Verif.Tree.Steal`). `attr` is the value of the MISC attribute the blocks
look for (`[]`: absent). Left out: the texts of the sentences, which the blocks set to `compute_text()` (C84).
-/

namespace Verif.Sent
open Verif.Tree Verif.Py

structure Doc where
  heap : Heap
  mwts : Mwts
  /-- `root.empty_nodes` -/
  empty : Nat → List Nat
  /-- `document.bundles` -/
  bundles : List Nat
  /-- `bundle.trees` -/
  trees : Nat → List Nat
  /-- `root.zone` -/
  zone : Nat → Str
  /-- `bundle.bundle_id` -/
  bid : Nat → Str
  /-- `bundle.number` -/
  number : Nat → Nat
  /-- `node.misc[misc_name]` -/
  attr : Nat → Str
  /-- `node.deprel` -/
  deprel : Nat → Str
  /-- the next bundle to be created -/
  nextB : Nat

inductive Err where
  | exception
  | attributeError
  | indexError
  | steal (e : Tree.Err)
  deriving DecidableEq, Repr

/-- `bundle.get_tree(zone)` (bundle.py:54-63) -/
def getTree (d : Doc) (b : Nat) (z : Str) : Except Err Nat :=
  match (d.trees b).filter (fun r => d.zone r = z) with
  | [r] => .ok r
  | _ => .error .exception

/-- `bundle.remove()` (bundle.py:106-110) -/
def removeBundle (d : Doc) (b : Nat) : Doc :=
  let bs := d.bundles.filter (fun c => c ≠ b)
  { d with bundles := bs, number := renumber d.number 0 bs }

/-- `misc[name] and misc_value == None or misc[name] == misc_value` (joinsentence.py:54) -/
def hit (value : Option Str) (a : Str) : Bool := (a ≠ [] && value = none) || value = some a

/-- `for n in nodes: n.misc[misc_name] = ''` -/
def clearAttr (f : Nat → Str) : List Nat → (Nat → Str)
  | [] => f
  | x :: l => clearAttr (upd f x []) l

/-- The loop with `misc_name` (joinsentence.py:42-66); the list of bundles is the one before the loop, because `remove` makes a new
list. `logging.fatal` does not end the program, so without a previous tree `None.steal_nodes` is called. -/
def joinLoop (value : Option Str) : Option Nat → List Nat → Doc → Doc × Option Err
  | _, [], d => (d, none)
  | prev, b :: bs, d =>
    match getTree d b [] with
    | .error e => (d, some e)
    | .ok r =>
      let cmds := (d.heap.words r).filter (fun n => hit value (d.attr n))
      if cmds = [] then joinLoop value (some r) bs d
      else
        match prev with
        | none => (d, some .attributeError)
        | some p =>
          match steal d.heap d.mwts p (d.heap.words r) with
          | (h, m, some e) => ({ d with heap := h, mwts := m }, some (.steal e))
          | (h, m, none) => joinLoop value (some p) bs (removeBundle { d with heap := h, mwts := m, attr := clearAttr d.attr cmds } b)

/-- `util.JoinSentence(misc_name=..., misc_value=value)` -/
def joinSentences (value : Option Str) (d : Doc) : Doc × Option Err := joinLoop value none d.bundles d

/-- The loop with `sent_id` (joinsentence.py:67-77). `previous_tree` is set only by the loop with `misc_name`. -/
def joinById (sid : Str) : List Nat → Doc → Doc × Option Err
  | [], d => (d, none)
  | b :: bs, d =>
    if d.bid b = sid then
      match getTree d b [] with
      | .error e => (d, some e)
      | .ok _ => (d, some .attributeError)
    else joinById sid bs d

/-! ## Specification vocabulary -/

/-- The words of the trees of a bundle. -/
def sentence (d : Doc) (b : Nat) : List Nat := (d.trees b).flatMap d.heap.words

/-- The words of the document. -/
def docWords (d : Doc) : List Nat := d.bundles.flatMap (sentence d)

/-- A word of the sentence has the attribute. -/
def hasHit (value : Option Str) (d : Doc) (b : Nat) : Bool := (sentence d b).any (fun n => hit value (d.attr n))

/-- Well-formed trees, one in each bundle, with the empty zone. -/
structure Good (d : Doc) : Prop where
  inv : Inv d.heap
  nodup : d.bundles.Nodup
  tree : ∀ b ∈ d.bundles, ∃ r, d.trees b = [r] ∧ d.zone r = [] ∧ IsTree d.heap r
  own : ∀ b ∈ d.bundles, ∀ c ∈ d.bundles, ∀ r, r ∈ d.trees b → r ∈ d.trees c → b = c
  fresh : ∀ b ∈ d.bundles, b < d.nextB

/-- Sentences, each with the flag whether it is joined with the sentence before: the words that belong to the sentence before the
list, and the joined sentences. -/
def attach : List (Bool × List Nat) → List Nat × List (List Nat)
  | [] => ([], [])
  | (true, w) :: l => (w ++ (attach l).1, (attach l).2)
  | (false, w) :: l => ([], (w ++ (attach l).1) :: (attach l).2)

/-! ## Proofs -/

theorem attach_flatten : ∀ l : List (Bool × List Nat), (attach l).1 ++ (attach l).2.flatten = (l.map (·.2)).flatten
  | [] => rfl
  | (true, w) :: l => by
    have := attach_flatten l
    simp only [attach, List.map_cons, List.flatten_cons, List.append_assoc, this]
  | (false, w) :: l => by
    have := attach_flatten l
    simp only [attach, List.map_cons, List.flatten_cons, List.append_assoc, List.nil_append, this]

theorem clearAttr_eq : ∀ (l : List Nat) (f : Nat → Str) (x : Nat), clearAttr f l x = if x ∈ l then [] else f x
  | [], f, x => by simp [clearAttr]
  | a :: l, f, x => by
    rw [clearAttr, clearAttr_eq l]
    by_cases hx : x ∈ l
    · simp [hx]
    · by_cases hxa : x = a
      · simp [hxa, upd]
      · simp [hx, hxa, upd]

theorem renumber_aligned {l : List Nat} (h : l.Nodup) (f : Nat → Nat) (k : Nat) : Aligned (renumber f k l) k l := (renumber_spec h f k).1

namespace Good
variable {d : Doc}

theorem sentence_eq {b r : Nat} (ht : d.trees b = [r]) : sentence d b = d.heap.words r := by simp [sentence, ht]

theorem getTree_eq {b r : Nat} (ht : d.trees b = [r]) (hz : d.zone r = []) : getTree d b [] = .ok r := by
  simp [getTree, ht, hz]

theorem root_eq (g : Good d) {b r x : Nat} (hb : b ∈ d.bundles) (ht : d.trees b = [r]) (hx : x ∈ sentence d b) : d.heap.root x = r := by
  obtain ⟨r', h1, _, h3⟩ := g.tree b hb
  rw [ht] at h1
  obtain rfl : r = r' := by simpa using h1
  rw [sentence_eq ht] at hx
  exact (g.inv r h3).rootOf x hx

/-- No word is in two sentences. -/
theorem disjoint (g : Good d) {b c x : Nat} (hb : b ∈ d.bundles) (hc : c ∈ d.bundles) (h1 : x ∈ sentence d b) (h2 : x ∈ sentence d c) : b = c := by
  obtain ⟨r, h3, _, _⟩ := g.tree b hb
  obtain ⟨s, h4, _, _⟩ := g.tree c hc
  have e := (g.root_eq hb h3 h1).symm.trans (g.root_eq hc h4 h2)
  exact g.own b hb c hc r (by simp [h3]) (by simp [h4, e])

theorem mem_docWords {x : Nat} : x ∈ docWords d ↔ ∃ b ∈ d.bundles, x ∈ sentence d b := by simp [docWords]

/-- Technical roots are not words. -/
theorem tree_not_word (g : Good d) {r : Nat} (hr : IsTree d.heap r) : r ∉ docWords d := by
  intro hm
  obtain ⟨b, hb, hx⟩ := mem_docWords.1 hm
  obtain ⟨s, h3, _, h5⟩ := g.tree b hb
  have h6 := g.root_eq hb h3 hx
  rw [hr.2] at h6
  subst h6
  rw [sentence_eq h3] at hx
  exact (g.inv r h5).root_not_mem hx

end Good

/-- One round that joins: bundle `b` with tree `r` is joined with the tree `p` of bundle `pb`. -/
theorem join_step {d : Doc} (g : Good d) {b pb r p : Nat} (hb : b ∈ d.bundles) (hpb : pb ∈ d.bundles) (hne : b ≠ pb) (ht : d.trees b = [r])
    (htp : d.trees pb = [p]) {cmds : List Nat} (hc : cmds ≠ []) (hcs : ∀ n ∈ cmds, n ∈ d.heap.words r) :
    ∃ h m, steal d.heap d.mwts p (d.heap.words r) = (h, m, none) ∧
      let d1 := removeBundle { d with heap := h, mwts := m, attr := clearAttr d.attr cmds } b
      Good d1 ∧ sentence d1 pb = sentence d pb ++ sentence d b ∧ (∀ c ∈ d.bundles, c ≠ b → c ≠ pb → sentence d1 c = sentence d c) ∧
      (∀ x ∈ docWords d, ∀ q, d.heap.parent x = some q →
        (q ∈ docWords d → h.parent x = some q) ∧ (q ∉ docWords d → h.parent x = some (h.root x))) ∧
      (∀ s, IsTree h s ↔ IsTree d.heap s) := by
  obtain ⟨r', h1, hz, hr⟩ := g.tree b hb
  rw [ht] at h1
  obtain rfl : r = r' := by simpa using h1
  obtain ⟨p', h2, _, hp⟩ := g.tree pb hpb
  rw [htp] at h2
  obtain rfl : p = p' := by simpa using h2
  have hrp : r ≠ p := by
    intro e
    exact hne (g.own b hb pb hpb r (by simp [ht]) (by simp [htp, e]))
  have w := g.inv r hr
  have hwne : d.heap.words r ≠ [] := by
    intro e
    cases cmds with
    | nil => exact hc rfl
    | cons n _ =>
      have := hcs n (List.mem_cons_self ..)
      rw [e] at this
      exact absurd this List.not_mem_nil
  have gv : Given d.heap r p (d.heap.words r) := ⟨g.inv, hr, hp, hrp, hwne, fun _ h => h, w.nodup⟩
  obtain ⟨h, m, e, hi, hw1, hw2, hpar, _⟩ := C50_whole_partial gv d.mwts (fun _ h => h)
  have hmv := C50_moved_partial gv e
  have hdone := done_steal gv.weak e
  have hS : ∀ x, x ∈ inOrder d.heap r (d.heap.words r) ↔ x ∈ d.heap.words r := fun x => mem_inOrder gv.weak
  refine ⟨h, m, e, ?_⟩
  have hbs : ∀ c, c ∈ (d.bundles.filter (fun c => decide (c ≠ b))) ↔ c ∈ d.bundles ∧ c ≠ b := by simp
  have hwo : ∀ c ∈ d.bundles, c ≠ b → c ≠ pb → ∀ s, d.trees c = [s] → h.words s = d.heap.words s := by
    intro c hcb n1 n2 s hs
    refine hdone.wO s ?_ ?_
    · rintro rfl
      exact n2 (g.own c hcb pb hpb s (by simp [hs]) (by simp [htp]))
    · rintro rfl
      exact n1 (g.own c hcb b hb s (by simp [hs]) (by simp [ht]))
  refine ⟨⟨hi, g.nodup.filter _, ?_, ?_, ?_⟩, ?_, ?_, ?_, hmv.2.2.2.2.2.1⟩
  · intro c hcm
    obtain ⟨h3, _⟩ := (hbs c).1 hcm
    obtain ⟨s, h4, h5, h6⟩ := g.tree c h3
    exact ⟨s, h4, h5, (hmv.2.2.2.2.2.1 s).2 h6⟩
  · intro c hcm c' hcm' s
    exact g.own c ((hbs c).1 hcm).1 c' ((hbs c').1 hcm').1 s
  · intro c hcm
    exact g.fresh c ((hbs c).1 hcm).1
  · show (d.trees pb).flatMap h.words = _
    rw [Good.sentence_eq ht, Good.sentence_eq htp, htp]
    simpa using hw1
  · intro c hcb h1 h2
    obtain ⟨s, h4, _, _⟩ := g.tree c hcb
    show (d.trees c).flatMap h.words = _
    rw [Good.sentence_eq h4, h4]
    simpa using hwo c hcb h1 h2 s h4
  · intro x hx q hq
    obtain ⟨c, hcb, hxc⟩ := Good.mem_docWords.1 hx
    by_cases hcb' : c = b
    · subst hcb'
      rw [Good.sentence_eq ht] at hxc
      have hp' := hpar x hxc q hq
      have hrx : h.root x = p := by rw [hdone.root, if_pos ((hS x).2 hxc)]
      rcases w.parent_in hxc hq with hqr | hqw
      · refine ⟨fun hqd => absurd hqd (hqr ▸ g.tree_not_word hr), fun _ => ?_⟩
        rw [hp', if_pos hqr, hrx]
      · refine ⟨fun _ => ?_, fun hn => absurd (Good.mem_docWords.2 ⟨c, hcb, by rw [Good.sentence_eq ht]; exact hqw⟩) hn⟩
        have hqr : q ≠ r := fun e => w.root_not_mem (e ▸ hqw)
        rw [hp', if_neg hqr]
    · have hxr : x ∉ d.heap.words r := by
        intro hm
        exact hcb' (g.disjoint hcb hb hxc (by rw [Good.sentence_eq ht]; exact hm))
      have hp' : h.parent x = some q := by rw [hmv.2.2.2.2.1 x hxr, hq]
      refine ⟨fun _ => hp', fun hn => ?_⟩
      obtain ⟨s, h4, _, h6⟩ := g.tree c hcb
      have hrx : h.root x = s := by
        rw [hdone.root, if_neg (fun hm => hxr ((hS x).1 hm)), g.root_eq hcb h4 hxc]
      rw [Good.sentence_eq h4] at hxc
      rcases (g.inv s h6).parent_in hxc hq with hqs | hqw
      · rw [hp', hrx, hqs]
      · exact absurd (Good.mem_docWords.2 ⟨c, hcb, by rw [Good.sentence_eq h4]; exact hqw⟩) hn

theorem join_loop (value : Option Str) : ∀ (bs : List Nat) (d : Doc) (done : List Nat) (pb p : Nat), Good d → d.bundles = done ++ pb :: bs →
    d.trees pb = [p] → ∃ d', joinLoop value (some p) bs d = (d', none) ∧ Good d' ∧
      d'.bundles = done ++ pb :: bs.filter (fun b => !hasHit value d b) ∧
      d'.bundles.map (sentence d') = done.map (sentence d) ++
        (sentence d pb ++ (attach (bs.map (fun b => (hasHit value d b, sentence d b)))).1) ::
        (attach (bs.map (fun b => (hasHit value d b, sentence d b)))).2 ∧
      (∀ x ∈ docWords d, ∀ q, d.heap.parent x = some q →
        (q ∈ docWords d → d'.heap.parent x = some q) ∧ (q ∉ docWords d → d'.heap.parent x = some (d'.heap.root x))) ∧
      (∀ b ∈ bs, ∀ x ∈ sentence d b, d'.attr x = if hit value (d.attr x) then [] else d.attr x) ∧
      (∀ x, (∀ b ∈ bs, x ∉ sentence d b) → d'.attr x = d.attr x) ∧
      d'.empty = d.empty ∧ d'.trees = d.trees ∧ d'.bid = d.bid ∧
      (if bs.any (hasHit value d) then Aligned d'.number 0 d'.bundles else d'.number = d.number)
  | [], d, done, pb, p, g, hbs, htp => by
    refine ⟨d, rfl, g, by simp [hbs], ?_, ?_, ?_, fun _ _ => rfl, rfl, rfl, rfl, by simp⟩
    · rw [hbs]
      simp [attach]
    · intro x hx q hq
      refine ⟨fun _ => hq, fun hn => ?_⟩
      obtain ⟨c, hcb, hxc⟩ := Good.mem_docWords.1 hx
      obtain ⟨s, h4, _, h6⟩ := g.tree c hcb
      rw [g.root_eq hcb h4 hxc]
      rw [Good.sentence_eq h4] at hxc
      rcases (g.inv s h6).parent_in hxc hq with hqs | hqw
      · rw [hq, hqs]
      · exact absurd (Good.mem_docWords.2 ⟨c, hcb, by rw [Good.sentence_eq h4]; exact hqw⟩) hn
    · intro b hb
      exact absurd hb List.not_mem_nil
  | b :: bs, d, done, pb, p, g, hbs, htp => by
    have hb : b ∈ d.bundles := by rw [hbs]; simp
    have hpb : pb ∈ d.bundles := by rw [hbs]; simp
    have hnd := g.nodup
    rw [hbs] at hnd
    obtain ⟨r, ht, hz, hr⟩ := g.tree b hb
    unfold joinLoop
    rw [Good.getTree_eq ht hz]
    simp only
    have hhit : hasHit value d b = false ↔ (d.heap.words r).filter (fun n => hit value (d.attr n)) = [] := by
      unfold hasHit
      rw [Good.sentence_eq ht, List.any_eq_false, List.filter_eq_nil_iff]
    by_cases hc : (d.heap.words r).filter (fun n => hit value (d.attr n)) = []
    · rw [if_pos hc]
      have hf := hhit.2 hc
      obtain ⟨d', e, h1, h2, h3, h4, h5, h6, h7, h8, h9, h10⟩ := join_loop value bs d (done ++ [pb]) b r g (by simp [hbs]) ht
      refine ⟨d', e, h1, ?_, ?_, h4, ?_, ?_, h7, h8, h9, ?_⟩
      · rw [h2, List.filter_cons_of_pos (by simp [hf])]
        simp
      · rw [h3]
        simp [attach, hf]
      · intro c hcm x hx
        rcases List.mem_cons.1 hcm with rfl | hcm
        · have hnb : ∀ c' ∈ bs, x ∉ sentence d c' := by
            intro c' hc' hx'
            have := g.disjoint hb (by rw [hbs]; simp [hc']) hx hx'
            subst this
            simp [List.nodup_append, hc'] at hnd
          rw [h6 x hnb]
          have : ¬ hit value (d.attr x) = true := by
            rw [Good.sentence_eq ht] at hx
            exact List.filter_eq_nil_iff.1 hc x hx
          rw [if_neg this]
        · exact h5 c hcm x hx
      · intro x hx
        exact h6 x (fun c hcm => hx c (List.mem_cons_of_mem _ hcm))
      · rw [List.any_cons, hf, Bool.false_or]
        exact h10
    · rw [if_neg hc]
      have hf : hasHit value d b = true := by
        cases hh : hasHit value d b with
        | true => rfl
        | false => exact absurd (hhit.1 hh) hc
      have hne : b ≠ pb := by
        rintro rfl
        simp [List.nodup_append] at hnd
      obtain ⟨h, m, e, g1, s1, s2, ed, _⟩ := join_step g hb hpb hne ht htp hc (fun n hn => (List.mem_filter.1 hn).1)
      rw [e]
      simp only
      generalize hd1 : removeBundle { d with heap := h, mwts := m, attr := clearAttr d.attr ((d.heap.words r).filter (fun n => hit value (d.attr n))) } b = d1
      simp only [hd1] at g1 s1 s2
      have b1 : d1.bundles = done ++ pb :: bs := by
        rw [← hd1]
        show d.bundles.filter _ = _
        rw [hbs]
        have hb1 : b ∉ done := by
          intro hm
          exact (List.nodup_append.1 hnd).2.2 b hm b (by simp) rfl
        have hb2 : b ∉ bs := by
          have := (List.nodup_append.1 hnd).2.1
          simp only [List.nodup_cons] at this
          exact this.2.1
        rw [List.filter_append, List.filter_cons_of_pos (by simp [Ne.symm hne]), List.filter_cons_of_neg (by simp)]
        rw [List.filter_eq_self.2, List.filter_eq_self.2]
        · intro c hcm
          have : c ≠ b := fun e => hb2 (e ▸ hcm)
          simp [this]
        · intro c hcm
          have : c ≠ b := fun e => hb1 (e ▸ hcm)
          simp [this]
      have t1 : d1.trees = d.trees := by rw [← hd1]; rfl
      have a1 : ∀ x, d1.attr x = if x ∈ (d.heap.words r).filter (fun n => hit value (d.attr n)) then [] else d.attr x := by
        intro x
        rw [← hd1]
        exact clearAttr_eq _ _ _
      have hbsm : ∀ c ∈ bs, c ∈ d.bundles ∧ c ≠ b ∧ c ≠ pb := by
        intro c hcm
        refine ⟨by rw [hbs]; simp [hcm], ?_, ?_⟩
        · rintro rfl
          simp [List.nodup_append, hcm] at hnd
        · rintro rfl
          simp [List.nodup_append, hcm] at hnd
      have sb : ∀ c ∈ bs, sentence d1 c = sentence d c := fun c hcm => s2 c (hbsm c hcm).1 (hbsm c hcm).2.1 (hbsm c hcm).2.2
      have ab : ∀ c ∈ bs, ∀ x ∈ sentence d c, d1.attr x = d.attr x := by
        intro c hcm x hx
        rw [a1, if_neg]
        intro hm
        exact (hbsm c hcm).2.1 (g.disjoint (hbsm c hcm).1 hb hx (by rw [Good.sentence_eq ht]; exact (List.mem_filter.1 hm).1))
      have hh : ∀ c ∈ bs, hasHit value d1 c = hasHit value d c := by
        intro c hcm
        unfold hasHit
        rw [sb c hcm]
        rw [Bool.eq_iff_iff, List.any_eq_true, List.any_eq_true]
        constructor
        · rintro ⟨x, hx, hy⟩
          exact ⟨x, hx, by rw [ab c hcm x hx] at hy; exact hy⟩
        · rintro ⟨x, hx, hy⟩
          exact ⟨x, hx, by rw [ab c hcm x hx]; exact hy⟩
      have hdw : ∀ x, x ∈ docWords d1 ↔ x ∈ docWords d := by
        intro x
        rw [Good.mem_docWords, Good.mem_docWords]
        constructor
        · rintro ⟨c, hcm, hx⟩
          rw [b1] at hcm
          have hcd : c ∈ d.bundles := by
            rw [hbs]
            rcases List.mem_append.1 hcm with h | h
            · exact List.mem_append_left _ h
            · exact List.mem_append_right _ (by
                rcases List.mem_cons.1 h with h | h
                · simp [h]
                · simp [h])
          by_cases hcp : c = pb
          · subst hcp
            rw [s1] at hx
            rcases List.mem_append.1 hx with hx | hx
            · exact ⟨c, hcd, hx⟩
            · exact ⟨b, hb, hx⟩
          · have hcb : c ≠ b := by
              rintro rfl
              rcases List.mem_append.1 hcm with h | h
              · exact (List.nodup_append.1 hnd).2.2 c h c (by simp) rfl
              · rcases List.mem_cons.1 h with h | h
                · exact hcp h
                · exact (hbsm c h).2.1 rfl
            rw [s2 c hcd hcb hcp] at hx
            exact ⟨c, hcd, hx⟩
        · rintro ⟨c, hcm, hx⟩
          by_cases hcb : c = b
          · subst hcb
            exact ⟨pb, by rw [b1]; simp, by rw [s1]; exact List.mem_append_right _ hx⟩
          · refine ⟨c, ?_, ?_⟩
            · rw [hbs] at hcm
              rw [b1]
              rcases List.mem_append.1 hcm with h | h
              · exact List.mem_append_left _ h
              · rcases List.mem_cons.1 h with h | h
                · simp [h]
                · rcases List.mem_cons.1 h with h | h
                  · exact absurd h hcb
                  · simp [h]
            · by_cases hcp : c = pb
              · subst hcp
                rw [s1]
                exact List.mem_append_left _ hx
              · rw [s2 c hcm hcb hcp]
                exact hx
      obtain ⟨d', e', h1, h2, h3, h4, h5, h6, h7, h8, h9, h10⟩ := join_loop value bs d1 done pb p g1 b1 (by rw [t1]; exact htp)
      have hL : bs.map (fun c => (hasHit value d1 c, sentence d1 c)) = bs.map (fun c => (hasHit value d c, sentence d c)) := by
        apply List.map_congr_left
        intro c hcm
        rw [hh c hcm, sb c hcm]
      have hD : done.map (sentence d1) = done.map (sentence d) := by
        apply List.map_congr_left
        intro c hcm
        refine s2 c (by rw [hbs]; exact List.mem_append_left _ hcm) ?_ ?_
        · rintro rfl
          exact (List.nodup_append.1 hnd).2.2 c hcm c (by simp) rfl
        · rintro rfl
          exact (List.nodup_append.1 hnd).2.2 c hcm c (by simp) rfl
      have hem : d1.heap = h := by rw [← hd1]; rfl
      refine ⟨d', e', h1, ?_, ?_, ?_, ?_, ?_, ?_, ?_, ?_, ?_⟩
      · rw [h2, List.filter_cons_of_neg (by simp [hf])]
        congr 2
        apply List.filter_congr
        intro c hcm
        rw [hh c hcm]
      · rw [h3, hL, hD, s1]
        simp [attach, hf]
      · intro x hx q hq
        obtain ⟨e1, e2⟩ := ed x hx q hq
        have hx1 := (hdw x).2 hx
        refine ⟨fun hqd => ?_, fun hqd => ?_⟩
        · exact (h4 x hx1 q (by rw [hem]; exact e1 hqd)).1 ((hdw q).2 hqd)
        · refine (h4 x hx1 (h.root x) (by rw [hem]; exact e2 hqd)).2 ?_
          obtain ⟨c, hcb, hxc⟩ := Good.mem_docWords.1 hx1
          obtain ⟨s, k4, _, k6⟩ := g1.tree c hcb
          have := g1.root_eq hcb k4 hxc
          rw [hem] at this
          rw [this]
          exact g1.tree_not_word k6
      · intro c hcm x hx
        rcases List.mem_cons.1 hcm with rfl | hcm
        · have hnb : ∀ c' ∈ bs, x ∉ sentence d1 c' := by
            intro c' hc' hx'
            rw [sb c' hc'] at hx'
            exact (hbsm c' hc').2.1 (g.disjoint hb (hbsm c' hc').1 hx hx').symm
          rw [h6 x hnb, a1]
          rw [Good.sentence_eq ht] at hx
          simp [hx]
        · rw [h5 c hcm x (by rw [sb c hcm]; exact hx), ab c hcm x hx]
      · intro x hx
        rw [h6 x (fun c hcm => by rw [sb c hcm]; exact hx c (List.mem_cons_of_mem _ hcm)), a1, if_neg]
        intro hm
        exact hx b (List.mem_cons_self ..) (by rw [Good.sentence_eq ht]; exact (List.mem_filter.1 hm).1)
      · rw [h7, ← hd1]; rfl
      · rw [h8, t1]
      · rw [h9, ← hd1]; rfl
      · rw [List.any_cons, hf, Bool.true_or]
        simp only [if_true]
        split at h10
        · exact h10
        · rename_i hany
          have hfil : bs.filter (fun c => !hasHit value d1 c) = bs := by
            rw [List.filter_eq_self]
            intro c hcm
            have : ¬ hasHit value d1 c = true := fun hc1 => hany (List.any_eq_true.2 ⟨c, hcm, hc1⟩)
            simp [this]
          have hal : Aligned d1.number 0 d1.bundles := by
            rw [← hd1]
            exact renumber_aligned (g.nodup.filter _) _ _
          rw [h10, h2, hfil, ← b1]
          exact hal

/-- What the attribute has to be: any value, or the value that is given. -/
theorem C100_marked (a v : Str) : (hit none a = true ↔ a ≠ []) ∧ (hit (some v) a = true ↔ a = v) := by
  constructor
  · simp [hit]
  · simp [hit]
    exact eq_comm

/-- C100, the part that holds: if the first sentence is not to be joined, `util.JoinSentence` with a MISC attribute appends every
sentence with the attribute to the sentence before. No word is lost and the order stays. All trees are well formed. Every word keeps its
parent; those attached to the technical root of a joined sentence are attached to the technical root they now belong to. The
attribute is removed from the words that had it, and the bundles are numbered by their positions.
What is missing: empty nodes and multi-word tokens. -/
theorem C100_join_partial (value : Option Str) {d : Doc} (g : Good d) {b : Nat} {bs : List Nat} (hbs : d.bundles = b :: bs)
    (hb : hasHit value d b = false) : ∃ d', joinSentences value d = (d', none) ∧ Good d' ∧
      d'.bundles = d.bundles.filter (fun b => !hasHit value d b) ∧
      d'.bundles.map (sentence d') = (attach (d.bundles.map (fun b => (hasHit value d b, sentence d b)))).2 ∧ docWords d' = docWords d ∧
      (∀ x ∈ docWords d, ∀ q, d.heap.parent x = some q →
        d'.heap.parent x = some (if q ∈ docWords d then q else d'.heap.root x)) ∧
      (∀ x ∈ docWords d, d'.attr x = if hit value (d.attr x) then [] else d.attr x) ∧
      (d.bundles.any (hasHit value d) → Aligned d'.number 0 d'.bundles) := by
  obtain ⟨r, ht, hz, hr⟩ := g.tree b (by rw [hbs]; simp)
  obtain ⟨d', e, h1, h2, h3, h4, h5, h6, h7, h8, h9, h10⟩ := join_loop value bs d [] b r g (by simp [hbs]) ht
  have hcm : (d.heap.words r).filter (fun n => hit value (d.attr n)) = [] := by
    unfold hasHit at hb
    rw [Good.sentence_eq ht, List.any_eq_false] at hb
    exact List.filter_eq_nil_iff.2 hb
  have hsent : d'.bundles.map (sentence d') = (attach (d.bundles.map (fun b => (hasHit value d b, sentence d b)))).2 := by
    rw [h3, hbs]
    simp [attach, hb]
  refine ⟨d', ?_, h1, ?_, hsent, ?_, ?_, ?_, ?_⟩
  · unfold joinSentences
    rw [hbs]
    unfold joinLoop
    rw [Good.getTree_eq ht hz]
    simp only [hcm, if_true]
    exact e
  · rw [h2, hbs, List.filter_cons_of_pos (by simp [hb])]
    simp
  · unfold docWords
    rw [List.flatMap_def, hsent, List.flatMap_def]
    have := attach_flatten (d.bundles.map (fun b => (hasHit value d b, sentence d b)))
    rw [hbs] at this ⊢
    simp only [List.map_cons, hb, attach, List.nil_append] at this ⊢
    rw [this]
    simp only [List.map_map]
    rfl
  · intro x hx q hq
    obtain ⟨e1, e2⟩ := h4 x hx q hq
    by_cases hqd : q ∈ docWords d
    · rw [if_pos hqd]; exact e1 hqd
    · rw [if_neg hqd]; exact e2 hqd
  · intro x hx
    obtain ⟨c, hcb, hxc⟩ := Good.mem_docWords.1 hx
    have hcb0 := hcb
    rw [hbs] at hcb
    rcases List.mem_cons.1 hcb with rfl | hcb
    · have hn : ¬ hit value (d.attr x) = true := by
        rw [Good.sentence_eq ht] at hxc
        exact List.filter_eq_nil_iff.1 hcm x hxc
      rw [if_neg hn]
      refine h6 x (fun c' hc' hx' => ?_)
      have := g.disjoint hcb0 (by rw [hbs]; simp [hc']) hxc hx'
      subst this
      have hnd := g.nodup
      rw [hbs] at hnd
      exact (List.nodup_cons.1 hnd).1 hc'
    · exact h5 c hcb x hxc
  · intro ha
    rw [hbs, List.any_cons, hb, Bool.false_or] at ha
    rw [if_pos ha] at h10
    exact h10

/-- C100: if the first sentence is to be joined, an exception is raised and nothing is changed. -/
theorem C100_first_partial (value : Option Str) {d : Doc} (g : Good d) {b : Nat} {bs : List Nat} (hbs : d.bundles = b :: bs)
    (hb : hasHit value d b = true) : joinSentences value d = (d, some .attributeError) := by
  obtain ⟨r, ht, hz, hr⟩ := g.tree b (by rw [hbs]; simp)
  have hcm : (d.heap.words r).filter (fun n => hit value (d.attr n)) ≠ [] := by
    intro he
    unfold hasHit at hb
    rw [Good.sentence_eq ht, List.any_eq_true] at hb
    obtain ⟨x, hx, hy⟩ := hb
    exact List.filter_eq_nil_iff.1 he x hx hy
  unfold joinSentences
  rw [hbs]
  unfold joinLoop
  rw [Good.getTree_eq ht hz]
  simp only
  rw [if_neg hcm]

/-- C100 does not hold: the empty nodes of every joined sentence are in no sentence any more. -/
theorem C100_empty_violated (value : Option Str) {d : Doc} (g : Good d) {b : Nat} {bs : List Nat} (hbs : d.bundles = b :: bs)
    (hb : hasHit value d b = false) {c r e : Nat} (hc : c ∈ d.bundles) (hh : hasHit value d c = true) (hr : d.trees c = [r]) (he : e ∈ d.empty r)
    (hown : ∀ s, s ≠ r → e ∉ d.empty s) :
    ∃ d', joinSentences value d = (d', none) ∧ ∀ c' ∈ d'.bundles, ∀ s ∈ d'.trees c', e ∉ d'.empty s := by
  obtain ⟨r0, ht, hz, hr0⟩ := g.tree b (by rw [hbs]; simp)
  obtain ⟨d1, e1, _, h2, _⟩ := C100_join_partial value g hbs hb
  obtain ⟨d', e', _, _, _, _, _, _, h7, h8, _, _⟩ := join_loop value bs d [] b r0 g (by simp [hbs]) ht
  have hcm : (d.heap.words r0).filter (fun n => hit value (d.attr n)) = [] := by
    unfold hasHit at hb
    rw [Good.sentence_eq ht, List.any_eq_false] at hb
    exact List.filter_eq_nil_iff.2 hb
  have heq : joinSentences value d = (d', none) := by
    unfold joinSentences
    rw [hbs]
    unfold joinLoop
    rw [Good.getTree_eq ht hz]
    simp only [hcm, if_true]
    exact e'
  have : d' = d1 := by
    rw [heq] at e1
    exact (Prod.mk.inj e1).1
  subst this
  refine ⟨d', heq, ?_⟩
  intro c' hc' s hs
  rw [h2] at hc'
  obtain ⟨hc1, hc2⟩ := List.mem_filter.1 hc'
  rw [h7]
  rw [h8] at hs
  refine hown s ?_
  rintro rfl
  have := g.own c' hc1 c hc s hs (by simp [hr])
  subst this
  simp [hh] at hc2

/-- C100 does not hold: joining by `sent_id` raises for every document with such a sentence, and nothing is joined. -/
theorem C100_id_violated (sid : Str) {d : Doc} (g : Good d) {b : Nat} (hb : b ∈ d.bundles) (hid : d.bid b = sid) :
    joinById sid d.bundles d = (d, some .attributeError) := by
  have key : ∀ bs : List Nat, (∀ c ∈ bs, c ∈ d.bundles) → b ∈ bs → joinById sid bs d = (d, some .attributeError) := by
    intro bs
    induction bs with
    | nil => intro _ h; exact absurd h List.not_mem_nil
    | cons c bs ih =>
      intro hs hm
      unfold joinById
      by_cases hc : d.bid c = sid
      · obtain ⟨r, ht, hz, _⟩ := g.tree c (hs c (List.mem_cons_self ..))
        rw [if_pos hc, Good.getTree_eq ht hz]
      · rw [if_neg hc]
        refine ih (fun x hx => hs x (List.mem_cons_of_mem _ hx)) ?_
        rcases List.mem_cons.1 hm with rfl | hm
        · exact absurd hid hc
        · exact hm
  exact key d.bundles (fun _ h => h) hb

/-! ## Example -/

/-- Three sentences: words 1, 2 (2 depends on 1), 4, and 6, 7 (7 depends on 6). -/
def exHeap : Heap :=
  createChild (createChild (newTree (createChild (newTree (createChild (createChild (newTree Heap.init) 0) 1)) 3)) 5) 6

def exDoc (attr : Nat → Str) : Doc where
  heap := exHeap
  mwts := noTokens
  empty := fun r => if r = 3 then [9] else []
  bundles := [0, 1, 2]
  trees := fun b => if b = 0 then [0] else if b = 1 then [3] else if b = 2 then [5] else []
  zone := fun _ => []
  bid := fun b => 's' :: Py.natStr b
  number := fun b => b + 1
  attr := attr
  deprel := fun _ => []
  nextB := 3

theorem exDoc_good (attr : Nat → Str) : Good (exDoc attr) where
  inv := by
    have h1 : Inv (createChild (createChild (newTree Heap.init) 0) 1) := inv_createChild (r := 0)
      (inv_createChild (r := 0) (inv_newTree inv_init) ⟨by decide, rfl⟩ (.inl rfl)) ⟨by decide, rfl⟩ (.inr (by decide))
    have h2 := inv_createChild (r := 3) (x := 3) (inv_newTree h1) ⟨by decide, rfl⟩ (.inl rfl)
    exact inv_createChild (r := 5) (inv_createChild (r := 5) (x := 5) (inv_newTree h2) ⟨by decide, rfl⟩ (.inl rfl)) ⟨by decide, rfl⟩ (.inr (by decide))
  nodup := by simp [exDoc]
  tree := by
    intro b hb
    simp only [exDoc, List.mem_cons, List.not_mem_nil, or_false] at hb
    rcases hb with rfl | rfl | rfl
    · exact ⟨0, rfl, rfl, by show _ < exHeap.next; decide, rfl⟩
    · exact ⟨3, rfl, rfl, by show _ < exHeap.next; decide, rfl⟩
    · exact ⟨5, rfl, rfl, by show _ < exHeap.next; decide, rfl⟩
  own := by
    intro b hb c hc r h1 h2
    simp only [exDoc, List.mem_cons, List.not_mem_nil, or_false] at hb hc
    rcases hb with rfl | rfl | rfl <;> rcases hc with rfl | rfl | rfl <;> simp [exDoc] at h1 h2 <;> omega
  fresh := by
    intro b hb
    simp only [exDoc, List.mem_cons, List.not_mem_nil, or_false] at hb ⊢
    rcases hb with rfl | rfl | rfl <;> decide

/-- The second and the third sentence are joined with the first one; the empty node 9 is lost. -/
example : let r := joinSentences none (exDoc (fun x => if x = 4 ∨ x = 7 then ['Y'] else []))
    r.2 = none ∧ r.1.bundles = [0] ∧ docWords r.1 = [1, 2, 4, 6, 7] ∧ r.1.heap.parent 7 = some 6 ∧ r.1.heap.parent 6 = some 0 ∧ r.1.attr 7 = [] ∧
    r.1.empty 0 = [] := by decide +kernel

example : let r := joinSentences (some ['Y']) (exDoc (fun x => if x = 4 then ['N'] else if x = 7 then ['Y'] else []))
    r.2 = none ∧ r.1.bundles = [0, 1] ∧ r.1.bundles.map (sentence r.1) = [[1, 2], [4, 6, 7]] ∧ r.1.attr 4 = ['N'] := by decide +kernel

end Verif.Sent
