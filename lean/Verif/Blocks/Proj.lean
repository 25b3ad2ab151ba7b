import Verif.Blocks.Basic
import Verif.Tree.Nonproj

/-!
# Property C94: transform.Proj (udapi/block/transform/proj.py)
-/

namespace Verif.Blocks
open Verif.Py Verif.Tree Verif.Deprel

/-- `while node.is_nonprojective(): node.parent = node.parent.parent; depth += 1` (proj.py:42-44, 51-53); at most `fuel` rounds. -/
def liftLoop (x : Nat) : Nat → Heap → Nat → Heap × Except Err Nat
  | 0, h, _ => (h, .error .diverges)
  | fuel + 1, h, depth =>
    match isNonprojective h x with
    | none => (h, .error .diverges)
    | some false => (h, .ok depth)
    | some true =>
      match h.parent x with
      | none => (h, .error .attributeError)
      | some p =>
        match setParent h x (h.parent p) with
        | (h', some e) => (h', .error e)
        | (h', none) => liftLoop x fuel h' (depth + 1)

/-- `Proj.nonproj_info` (proj.py:36-46): the heap left behind and the sorting key. `shortest` is `lifting_order == 'shortest'`. -/
def nonprojInfo (shortest : Bool) (h : Heap) (x : Nat) : Heap × Except Err Int :=
  match h.parent x with
  | none => (h, .error .attributeError)
  | some p =>
    if shortest then (h, .ok ((h.ord x : Int) - h.ord p).natAbs)
    else
      match setParent h x (h.parent p) with
      | (h1, some e) => (h1, .error e)
      | (h1, none) =>
        match liftLoop x (h1.next + 1) h1 1 with
        | (h2, .error e) => (h2, .error e)
        | (h2, .ok depth) =>
          match setParent h2 x (some p) with
          | (h3, some e) => (h3, .error e)
          | (h3, none) => (h3, .ok (-(depth : Int)))

/-- `[self.nonproj_info(n) for n in tree.descendants if n.is_nonprojective()]` (proj.py:32) -/
def nonprojInfos (shortest : Bool) : Heap → List Nat → Heap × Except Err (List (Int × Nat))
  | h, [] => (h, .ok [])
  | h, x :: xs =>
    match isNonprojective h x with
    | none => (h, .error .diverges)
    | some false => nonprojInfos shortest h xs
    | some true =>
      match nonprojInfo shortest h x with
      | (h1, .error e) => (h1, .error e)
      | (h1, .ok k) =>
        match nonprojInfos shortest h1 xs with
        | (h2, .error e) => (h2, .error e)
        | (h2, .ok l) => (h2, .ok ((k, x) :: l))

/-- Heap, relations, and `misc['pproj']` of the words. -/
structure ProjState where
  heap : Heap
  rel : Rels
  pproj : Nat → Option Str

/-- The parameter `label`. -/
inductive Label where
  | misc
  | deprel
  | other

/-- `'%s' % s` -/
def fmt : Option Str → Str
  | none => ['N', 'o', 'n', 'e']
  | some s => s

/-- `Proj.mark` (proj.py:58-64). Simplified: the other attributes in MISC are left out. -/
def projMark (label : Label) (s : ProjState) (x : Nat) (l : Option Str) : ProjState × Option Err :=
  match label with
  | .misc => ({ s with pproj := upd s.pproj x l }, none)
  | .deprel => ({ s with rel := upd s.rel x (some (fmt (getU (s.rel x)) ++ [':'] ++ fmt (getS (s.rel x)) ++ ['+'] ++ fmt l)) }, none)
  | .other => (s, some .valueError)

/-- `Proj.lift` (proj.py:48-56) -/
def projLift (label : Label) (s : ProjState) (x : Nat) : ProjState × Option Err :=
  match s.heap.parent x with
  | none => (s, some .attributeError)
  | some p =>
    match liftLoop x (s.heap.next + 1) s.heap 0 with
    | (h', .error e) => ({ s with heap := h' }, some e)
    | (h', .ok depth) =>
      if depth = 0 then ({ s with heap := h' }, none)
      else projMark label { s with heap := h' } x (getU (s.rel p))

/-- `Proj.process_tree` (proj.py:31-34) -/
def projTree (shortest : Bool) (label : Label) (s : ProjState) (r : Nat) : ProjState × Option Err :=
  match nonprojInfos shortest s.heap (s.heap.words r) with
  | (h', .error e) => ({ s with heap := h' }, some e)
  | (h', .ok infos) =>
    forNodes (projLift label) { s with heap := h' } ((pySort (fun a b => decide (a.1 ≤ b.1)) infos).map Prod.snd)

/-! ## Specification vocabulary -/

/-- Attaching `x` to `y` would leave a word between them that does not depend on `y`. -/
def GapAt (h : Heap) (r x y : Nat) : Prop := ∃ z ∈ h.words r, Between h x y z ∧ ¬ Anc h y z

/-- The edge above `x` is not projective. -/
def NonProj (h : Heap) (r x : Nat) : Prop := ∃ p, h.parent x = some p ∧ GapAt h r x p

/-! ## Proofs -/

theorem nonproj_iff {h : Heap} {r x : Nat} (w : WF h r) (hr : IsTree h r) (hx : InTree h r x) :
    ∃ b, isNonprojective h x = some b ∧ (b = true ↔ NonProj h r x) := by
  obtain ⟨b, hb, hi⟩ := w.isNonprojective hr hx
  refine ⟨b, hb, hi.trans ?_⟩
  constructor
  · rintro ⟨p, z, h1, h2, h3, h4⟩; exact ⟨p, h1, z, h2, h3, h4⟩
  · rintro ⟨p, h1, z, h2, h3, h4⟩; exact ⟨p, z, h1, h2, h3, h4⟩

theorem gapAt_root {h : Heap} {r x : Nat} (w : WF h r) : ¬ GapAt h r x r := fun ⟨z, hz, _, hn⟩ => hn (w.reach z hz)

/-- The descendants of an ancestor of the old parent stay when a word is lifted. -/
theorem anc_lift_iff {h h' : Heap} {r x p g y z : Nat} (w : WF h r) (hx : x ∈ h.words r) (hp : h.parent x = some p) (hg : h.parent p = some g)
    (hpar : h'.parent = upd h.parent x (some g)) (hy : y = g ∨ Anc h y g) : Anc h' y z ↔ Anc h y z := by
  have hpx : p ≠ x := fun e => w.anc_irrefl (.inr hx) (.parent (e ▸ hp))
  have hpin := w.parent_in hx hp
  have hyp : y ≠ p := by
    rintro rfl
    rcases hy with rfl | hy
    · exact w.anc_irrefl hpin (.parent hg)
    · exact w.anc_irrefl hpin (.step hg hy)
  refine ⟨anc_lift hp hg hpar, ?_⟩
  intro ha
  induction ha with
  | parent e =>
    rename_i z
    by_cases hz : z = x
    · subst hz
      rw [hp] at e
      exact absurd (Option.some.inj e).symm hyp
    · exact .parent (by rw [hpar, upd_ne _ _ hz, e])
  | step e _ ih =>
    rename_i z q _
    by_cases hz : z = x
    · subst hz
      rw [hp] at e
      obtain rfl := Option.some.inj e
      have e' : h'.parent p = some g := by rw [hpar, upd_ne _ _ hpx, hg]
      have ez : h'.parent z = some g := by rw [hpar, upd_same]
      rcases anc_iff.1 ih with ⟨q, hq, hor⟩
      rw [e'] at hq
      obtain rfl := Option.some.inj hq
      rcases hor with rfl | hor
      · exact .parent ez
      · exact .step ez hor
    · exact .step (by rw [hpar, upd_ne _ _ hz, e]) ih

/-- The loop attaches the word to its nearest ancestor without a gap. -/
theorem liftLoop_spec {r x : Nat} : ∀ (fuel n : Nat) (h : Heap) (p depth : Nat), Inv h → IsTree h r → x ∈ h.words r →
    h.parent x = some p → Depth h r p n → n < fuel →
    ∃ h' m q, liftLoop x fuel h depth = (h', .ok (depth + m)) ∧ Inv h' ∧ IsTree h' r ∧ h'.words = h.words ∧ h'.ord = h.ord ∧ h'.root = h.root ∧
      h'.next = h.next ∧ h'.parent = upd h.parent x (some q) ∧ Near h (GapAt h r x) x q ∧ (m = 0 ↔ q = p)
  | 0, n, h, p, depth, _, _, _, _, _, hf => absurd hf (Nat.not_lt_zero _)
  | fuel + 1, n, h, p, depth, hi, hr, hx, hp, hd, hf => by
    have w := hi r hr
    obtain ⟨b, hb, hbi⟩ := nonproj_iff w hr (.inr hx)
    unfold liftLoop
    rw [hb]
    cases b with
    | false =>
      have hng : ¬ GapAt h r x p := fun hgap => absurd (hbi.2 ⟨p, hp, hgap⟩) (by simp)
      refine ⟨h, 0, p, rfl, hi, hr, rfl, rfl, rfl, rfl, ?_, .here hp hng, by simp⟩
      funext y
      unfold upd
      by_cases hy : y = x
      · rw [if_pos hy, hy, hp]
      · rw [if_neg hy]
    | true =>
      obtain ⟨p', hp', hgap⟩ := hbi.1 rfl
      rw [hp] at hp'
      obtain rfl := Option.some.inj hp'
      have hpr : p ≠ r := by
        rintro rfl
        exact gapAt_root w hgap
      obtain ⟨g, hg, hgin, hgx, hga⟩ := lift_target w hx hp hpr
      obtain ⟨h1, e1, i1, t1, w1, r1, o1, p1⟩ := attach_one hi hr hx hgin hgx hga
      have hnx : h1.next = h.next := by
        have : ∀ (h : Heap) (y : Nat) (np : Option Nat), (setParent h y np).1.next = h.next := by
          intro h y np
          unfold setParent
          repeat' split
          all_goals rfl
        have := this h x (some g)
        rw [e1] at this
        exact this
      simp only [hp, hg, e1]
      cases hd with
      | root => exact absurd rfl hpr
      | step hg' hd' =>
        rename_i g' m
        rw [hg] at hg'
        obtain rfl := Option.some.inj hg'
        have hdep : Depth h1 r g m := by
          have : ∀ z k, Depth h r z k → ¬ Anc h x z → z ≠ x → Depth h1 r z k := by
            intro z k hz
            induction hz with
            | root => exact fun _ _ => .root
            | step e _ ih =>
              intro hna hne
              refine .step (by rw [p1, upd_ne _ _ hne, e]) (ih (fun ha => hna (.step e ha)) ?_)
              intro e2
              exact hna (.parent (e2 ▸ e))
          exact this g m hd' hga hgx
        obtain ⟨h2, m2, q, e2, i2, t2, w2, o2, r2, x2, p2, n2, _⟩ := liftLoop_spec fuel m h1 g (depth + 1) i1 t1 (by rw [w1]; exact hx)
          (by rw [p1, upd_same]) hdep (by omega)
        have hpx : p ≠ x := fun e => w.anc_irrefl (.inr hx) (.parent (e ▸ hp))
        -- gaps of ancestors are the same before and after
        have hgaps : ∀ y, Anc h1 y x → (GapAt h1 r x y ↔ GapAt h r x y) := by
          intro y hy
          have hyg : y = g ∨ Anc h y g := by
            rcases anc_iff.1 hy with ⟨c, hc, hor⟩
            rw [p1, upd_same] at hc
            obtain rfl := Option.some.inj hc
            rcases hor with rfl | hor
            · exact .inl rfl
            · exact .inr (anc_lift hp hg p1 hor)
          unfold GapAt Between
          rw [w1, o1]
          constructor
          · rintro ⟨z, hz, hb, hn⟩
            exact ⟨z, hz, hb, fun ha => hn ((anc_lift_iff w hx hp hg p1 hyg).2 ha)⟩
          · rintro ⟨z, hz, hb, hn⟩
            exact ⟨z, hz, hb, fun ha => hn ((anc_lift_iff w hx hp hg p1 hyg).1 ha)⟩
        have wf1 := i1 r t1
        have hxin1 : x ∈ h1.words r := by rw [w1]; exact hx
        have hnear : ∀ y q, Near h1 (GapAt h1 r x) y q → (y = x ∨ Anc h1 y x) → y ≠ x → Near h (GapAt h r x) y q := by
          intro y q hn
          induction hn with
          | here e hs =>
            rename_i y q
            intro hyx hne
            have ha : Anc h1 q x := by
              rcases hyx with rfl | hyx
              · exact .parent e
              · exact (Anc.parent e).trans hyx
            rw [p1, upd_ne _ _ hne] at e
            exact .here e (fun hgp => hs ((hgaps q ha).2 hgp))
          | up e hs n ih =>
            rename_i y c q
            intro hyx hne
            have ha : Anc h1 c x := by
              rcases hyx with rfl | hyx
              · exact .parent e
              · exact (Anc.parent e).trans hyx
            have hcx : c ≠ x := fun e' => wf1.anc_irrefl (.inr hxin1) (e' ▸ ha)
            rw [p1, upd_ne _ _ hne] at e
            exact .up e ((hgaps c ha).1 hs) (ih (.inr ha) hcx)
        have hn : Near h (GapAt h r x) x q := by
          refine .up hp hgap ?_
          have ex : h1.parent x = some g := by rw [p1, upd_same]
          cases n2 with
          | here e hs =>
            rw [ex] at e
            obtain rfl := Option.some.inj e
            exact .here hg (fun hgp => hs ((hgaps g (.parent ex)).2 hgp))
          | up e hs n =>
            rw [ex] at e
            obtain rfl := Option.some.inj e
            exact .up hg ((hgaps g (.parent ex)).1 hs) (hnear g q n (.inr (.parent ex)) hgx)
        refine ⟨h2, m2 + 1, q, ?_, i2, t2, by rw [w2, w1], by rw [o2, o1], by rw [r2, r1], by rw [x2, hnx], ?_, hn, ?_⟩
        · rw [e2]
          congr 2
          omega
        · rw [p2, p1]
          funext y
          unfold upd
          by_cases hy : y = x
          · rw [if_pos hy, if_pos hy]
          · rw [if_neg hy, if_neg hy, if_neg hy]
        · constructor
          · intro e; exact absurd e (by omega)
          · rintro rfl
            exact absurd hgap hn.anc.2

theorem anc_of_parent_eq {h h' : Heap} (hp : h'.parent = h.parent) {a x : Nat} : Anc h' a x ↔ Anc h a x := by
  constructor
  · intro ha
    induction ha with
    | parent e => exact .parent (hp ▸ e)
    | step e _ ih => exact .step (hp ▸ e) ih
  · intro ha
    induction ha with
    | parent e => exact .parent (hp.symm ▸ e)
    | step e _ ih => exact .step (hp.symm ▸ e) ih

theorem nonproj_congr {h h' : Heap} {r : Nat} (hp : h'.parent = h.parent) (ho : h'.ord = h.ord) (hw : h'.words = h.words) (x : Nat) :
    NonProj h' r x ↔ NonProj h r x := by
  unfold NonProj GapAt Between
  simp only [hp, ho, hw, anc_of_parent_eq hp]

/-- Sorting keys are computed without an exception, and the tree is as before. -/
theorem nonprojInfo_spec {r x : Nat} (shortest : Bool) {h : Heap} (hi : Inv h) (hr : IsTree h r) (hx : x ∈ h.words r) (hnp : NonProj h r x) :
    ∃ h' k, nonprojInfo shortest h x = (h', .ok k) ∧ Inv h' ∧ IsTree h' r ∧ h'.words = h.words ∧ h'.ord = h.ord ∧ h'.root = h.root ∧
      h'.parent = h.parent := by
  have w := hi r hr
  obtain ⟨p, hp, hgap⟩ := hnp
  have hpr : p ≠ r := by
    rintro rfl
    exact gapAt_root w hgap
  unfold nonprojInfo
  rw [hp]
  simp only
  cases shortest with
  | true => exact ⟨h, _, rfl, hi, hr, rfl, rfl, rfl, rfl⟩
  | false =>
    obtain ⟨g, hg, hgin, hgx, hga⟩ := lift_target w hx hp hpr
    obtain ⟨h1, e1, i1, t1, w1, r1, o1, p1⟩ := attach_one hi hr hx hgin hgx hga
    have wf1 := i1 r t1
    obtain ⟨n, hn, hd⟩ := depth_exists wf1 g (by unfold InTree; rw [w1]; exact hgin)
    have hlt := words_lt_next wf1 t1
    obtain ⟨h2, m, q, e2, i2, t2, w2, o2, r2, _, p2, _, _⟩ := liftLoop_spec (h1.next + 1) n h1 g 1 i1 t1 (by rw [w1]; exact hx)
      (by rw [p1, upd_same]) hd (by omega)
    have hpx : p ≠ x := fun e => w.anc_irrefl (.inr hx) (.parent (e ▸ hp))
    have hpar2 : ∀ y, y ≠ x → h2.parent y = h.parent y := by
      intro y hy
      rw [p2, p1, upd_ne _ _ hy, upd_ne _ _ hy]
    have hpw : p ∈ h.words r := (w.parent_in hx hp).resolve_left hpr
    have hanc : ¬ Anc h2 x p := by
      intro ha
      have : ∀ y, Anc h2 x y → y ≠ x → ¬ Anc h x y → False := by
        intro y hy
        induction hy with
        | parent e => exact fun hne hna => hna (.parent (by rw [← hpar2 _ hne]; exact e))
        | step e _ ih =>
          rename_i y c _
          intro hne hna
          rw [hpar2 _ hne] at e
          by_cases hcx : c = x
          · exact hna (.parent (hcx ▸ e))
          · exact ih hcx (fun hc => hna (.step e hc))
      exact this p ha hpx (fun ha => w.anc_irrefl (.inr hx) (.step hp ha))
    obtain ⟨h3, e3, i3, t3, w3, r3, o3, p3⟩ := attach_one i2 t2 (x := x) (p := p) (by rw [w2, w1]; exact hx)
      (.inr (by rw [w2, w1]; exact hpw)) hpx hanc
    simp only [Bool.false_eq_true, if_false, hg, e1, e2, e3]
    refine ⟨h3, _, rfl, i3, t3, by rw [w3, w2, w1], by rw [o3, o2, o1], by rw [r3, r2, r1], ?_⟩
    funext y
    rw [p3]
    by_cases hy : y = x
    · rw [hy, upd_same, hp]
    · rw [upd_ne _ _ hy, hpar2 y hy]

/-- The list of words to be lifted: the words that are not projective. -/
theorem nonprojInfos_spec {r : Nat} (shortest : Bool) : ∀ (xs : List Nat) (h : Heap), Inv h → IsTree h r → (∀ x ∈ xs, x ∈ h.words r) →
    ∃ h' l, nonprojInfos shortest h xs = (h', .ok l) ∧ Inv h' ∧ IsTree h' r ∧ h'.words = h.words ∧ h'.ord = h.ord ∧ h'.root = h.root ∧
      h'.parent = h.parent ∧ (l.map Prod.snd).Sublist xs ∧ ∀ x ∈ xs, x ∈ l.map Prod.snd ↔ NonProj h r x
  | [], h, hi, hr, _ => ⟨h, [], rfl, hi, hr, rfl, rfl, rfl, rfl, List.Sublist.refl _, fun x hx => absurd hx List.not_mem_nil⟩
  | x :: xs, h, hi, hr, hin => by
    have w := hi r hr
    have hx := hin x (List.mem_cons_self ..)
    obtain ⟨b, hb, hbi⟩ := nonproj_iff w hr (.inr hx)
    unfold nonprojInfos
    rw [hb]
    cases b with
    | false =>
      have hnn : ¬ NonProj h r x := fun hn => absurd (hbi.2 hn) (by simp)
      obtain ⟨h', l, e, i', t', w', o', r', p', hs, hm⟩ := nonprojInfos_spec shortest xs h hi hr (fun y hy => hin y (List.mem_cons_of_mem _ hy))
      refine ⟨h', l, e, i', t', w', o', r', p', hs.cons x, ?_⟩
      intro y hy
      by_cases hyx : y ∈ xs
      · exact hm y hyx
      · have : y = x := (List.mem_cons.1 hy).resolve_right hyx
        subst this
        constructor
        · intro hc; exact absurd (hs.subset hc) hyx
        · intro hc; exact absurd hc hnn
    | true =>
      have hnp := hbi.1 rfl
      obtain ⟨h1, k, e1, i1, t1, w1, o1, r1, p1⟩ := nonprojInfo_spec shortest hi hr hx hnp
      obtain ⟨h', l, e, i', t', w', o', r', p', hs, hm⟩ := nonprojInfos_spec shortest xs h1 i1 t1 (fun y hy => by
        rw [w1]; exact hin y (List.mem_cons_of_mem _ hy))
      simp only [e1, e]
      refine ⟨h', (k, x) :: l, rfl, i', t', by rw [w', w1], by rw [o', o1], by rw [r', r1], by rw [p', p1], hs.cons_cons x, ?_⟩
      intro y hy
      rw [List.map_cons, List.mem_cons]
      by_cases hyx : y = x
      · subst hyx
        simp [hnp]
      · simp only [hyx, false_or]
        rw [hm y ((List.mem_cons.1 hy).resolve_left hyx), nonproj_congr p1 o1 w1]

/-- Lifting one word. -/
theorem projLift_spec {r x p : Nat} {label : Label} (hlab : label ≠ .other) {s : ProjState} (hi : Inv s.heap) (hr : IsTree s.heap r)
    (hx : x ∈ s.heap.words r) (hp : s.heap.parent x = some p) :
    ∃ s' q, projLift label s x = (s', none) ∧ Inv s'.heap ∧ IsTree s'.heap r ∧ s'.heap.words = s.heap.words ∧ s'.heap.ord = s.heap.ord ∧
      s'.heap.root = s.heap.root ∧ s'.heap.parent = upd s.heap.parent x (some q) ∧ Near s.heap (GapAt s.heap r x) x q ∧
      (label = .misc → s'.rel = s.rel ∧ s'.pproj = if q = p then s.pproj else upd s.pproj x (getU (s.rel p))) := by
  have w := hi r hr
  obtain ⟨n, hn, hd⟩ := depth_exists w p (w.parent_in hx hp)
  have hlt := words_lt_next w hr
  obtain ⟨h2, m, q, e2, i2, t2, w2, o2, r2, _, p2, n2, m2⟩ := liftLoop_spec (s.heap.next + 1) n s.heap p 0 hi hr hx hp hd (by omega)
  rw [Nat.zero_add] at e2
  unfold projLift
  simp only [hp, e2]
  by_cases hm : m = 0
  · rw [if_pos hm]
    exact ⟨_, q, rfl, i2, t2, w2, o2, r2, p2, n2, fun _ => ⟨rfl, by rw [if_pos (m2.1 hm)]⟩⟩
  · rw [if_neg hm]
    have hqp : q ≠ p := fun e => hm (m2.2 e)
    cases label with
    | other => exact absurd rfl hlab
    | misc => exact ⟨_, q, rfl, i2, t2, w2, o2, r2, p2, n2, fun _ => ⟨rfl, by rw [if_neg hqp]⟩⟩
    | deprel => exact ⟨_, q, rfl, i2, t2, w2, o2, r2, p2, n2, fun e => by cases e⟩

theorem anc_jump {h h' : Heap} {x q : Nat} (hq : Anc h q x) (hpar : h'.parent = upd h.parent x (some q)) {a y : Nat} (ha : Anc h' a y) :
    Anc h a y := by
  induction ha with
  | parent e =>
    rename_i y
    rw [hpar] at e
    by_cases hy : y = x
    · subst hy
      rw [upd_same] at e
      exact (Option.some.inj e) ▸ hq
    · rw [upd_ne _ _ hy] at e
      exact .parent e
  | step e _ ih =>
    rename_i y c _
    rw [hpar] at e
    by_cases hy : y = x
    · subst hy
      rw [upd_same] at e
      exact ih.trans ((Option.some.inj e) ▸ hq)
    · rw [upd_ne _ _ hy] at e
      exact .step e ih

/-- Lifting a word below which all edges are projective creates no edge that is not projective. -/
theorem lift_keeps {h h' : Heap} {r n q : Nat} (w : WF h r) (w' : WF h' r) (hn : n ∈ h.words r) (hq : Near h (GapAt h r n) n q)
    (hpar : h'.parent = upd h.parent n (some q)) (hw : h'.words = h.words) (ho : h'.ord = h.ord)
    (hbelow : ∀ c ∈ h.words r, Anc h n c → ¬ NonProj h r c) {m : Nat} (hm : m ∈ h.words r) (hnp : NonProj h' r m) :
    NonProj h r m ∧ m ≠ n := by
  have hqn := hq.anc.1
  have hnin : InTree h r n := .inr hn
  -- descendants of `q` stay
  have hdq : ∀ z, Anc h q z → Anc h' q z := by
    intro z hz
    induction hz with
    | parent e =>
      rename_i z
      by_cases hzn : z = n
      · subst hzn; exact .parent (by rw [hpar, upd_same])
      · exact .parent (by rw [hpar, upd_ne _ _ hzn, e])
    | step e _ ih =>
      rename_i z c _
      by_cases hzn : z = n
      · subst hzn; exact .parent (by rw [hpar, upd_same])
      · exact .step (by rw [hpar, upd_ne _ _ hzn, e]) ih
  obtain ⟨x, hx', z, hz, hbet, hna⟩ := hnp
  rw [hw] at hz
  unfold Between at hbet
  rw [ho] at hbet
  by_cases hmn : m = n
  · subst hmn
    rw [hpar, upd_same] at hx'
    obtain rfl := Option.some.inj hx'
    exfalso
    apply hq.anc.2
    exact ⟨z, hz, hbet, fun ha => hna (hdq z ha)⟩
  · refine ⟨?_, hmn⟩
    rw [hpar, upd_ne _ _ hmn] at hx'
    refine ⟨x, hx', ?_⟩
    apply Classical.byContradiction
    intro hgap
    have hproj : ∀ y ∈ h.words r, Between h m x y → Anc h x y := by
      intro y hy hb
      apply Classical.byContradiction
      intro hc
      exact hgap ⟨y, hy, hb, hc⟩
    have hxz := hproj z hz hbet
    have hxin := w.parent_in hm hx'
    have hxr : x ≠ r := by
      rintro rfl
      exact hna (w'.reach z (by rw [hw]; exact hz))
    have hxw : x ∈ h.words r := hxin.resolve_left hxr
    -- the path from `z` to `x` leads through `n`
    have hthrough : ∀ y, Anc h x y → ¬ Anc h' x y → (y = n ∨ Anc h n y) ∧ Anc h x n ∧ ¬ Anc h' x n := by
      intro y hy
      induction hy with
      | parent e =>
        rename_i y
        intro hno
        by_cases hyn : y = n
        · subst hyn; exact ⟨.inl rfl, .parent e, hno⟩
        · exact absurd (Anc.parent (by rw [hpar, upd_ne _ _ hyn, e])) hno
      | step e ha ih =>
        rename_i y c
        intro hno
        by_cases hyn : y = n
        · subst hyn; exact ⟨.inl rfl, .step e ha, hno⟩
        · have hc : ¬ Anc h' x c := fun hc => hno (.step (by rw [hpar, upd_ne _ _ hyn, e]) hc)
          obtain ⟨h1, h2⟩ := ih hc
          refine ⟨.inr ?_, h2⟩
          rcases h1 with rfl | h1
          · exact .parent e
          · exact .step e h1
    obtain ⟨hzn, hxn, hxn'⟩ := hthrough z hxz hna
    have hpn' : h'.parent n = some q := by rw [hpar, upd_same]
    have hqx : Anc h q x := by
      rcases anc_linear hqn hxn with e | e | e
      · subst e; exact absurd (.parent hpn') hxn'
      · exact e
      · exfalso
        apply hxn'
        have : ∀ y, Anc h x y → y ≠ n → ¬ Anc h n y → Anc h' x y := by
          intro y hy
          induction hy with
          | parent e => exact fun hne _ => .parent (by rw [hpar, upd_ne _ _ hne, e])
          | step e _ ih =>
            intro hne hnn
            refine .step (by rw [hpar, upd_ne _ _ hne, e]) (ih ?_ (fun hc => hnn (.step e hc)))
            intro ec
            exact hnn (.parent (ec ▸ e))
        refine .step hpn' (this q e ?_ ?_)
        · rintro rfl
          exact w.anc_irrefl hnin hqn
        · intro hc
          exact w.anc_irrefl hnin (hc.trans hqn)
    have hnx : n ≠ x := by
      rintro rfl
      exact w.anc_irrefl hnin hxn
    -- there is a gap when `n` depends on `x`
    obtain ⟨z0, hz0, hb0, hno0⟩ := (hq.nearest w hn).2.2 x hxn hqx
    have hordnx : h.ord n ≠ h.ord x := fun e => hnx (w.ord_inj hnin hxin e)
    have hordnm : h.ord n ≠ h.ord m := fun e => hmn (w.ord_inj (.inr hm) hnin e.symm)
    have hout : ¬ Between h m x n := by
      intro hb
      apply hno0
      refine hproj z0 hz0 ?_
      unfold Between at hb hb0 ⊢
      omega
    have hznz : z ≠ n := by
      rintro rfl
      exact hout hbet
    have hnz : Anc h n z := hzn.resolve_left hznz
    -- some edge below `n` leaves the interval
    have hcross : ∀ y, Anc h n y → InTree h r y → Between h m x y → ∃ c p, c ∈ h.words r ∧ h.parent c = some p ∧ Anc h n c ∧ (p = n ∨ Anc h n p) ∧
        Between h m x c ∧ ¬ Between h m x p := by
      intro y hy
      induction hy with
      | parent e => exact fun hin hb => ⟨_, n, w.word_of_anc hin (.parent e), e, .parent e, .inl rfl, hb, hout⟩
      | step e ha ih =>
        rename_i y p
        intro hin hb
        have hyw := w.word_of_anc hin (.step e ha)
        by_cases hbp : Between h m x p
        · exact ih (w.parent_in hyw e) hbp
        · exact ⟨y, p, hyw, e, .step e ha, .inr ha, hb, hbp⟩
    obtain ⟨c, p, hc, hcp, hnc, hp, hbc, hbp⟩ := hcross z hnz (.inr hz) hbet
    refine hbelow c hc hnc ⟨p, hcp, ?_⟩
    have hnotbelow : ∀ y, y = x ∨ y = m → ¬ (y = n ∨ Anc h n y) := by
      rintro y (rfl | rfl) (h1 | h1)
      · exact hnx h1.symm
      · exact w.anc_asymm hxin h1 hxn
      · exact hmn h1
      · rcases anc_iff.1 h1 with ⟨c', hc', hor⟩
        rw [hx'] at hc'
        obtain rfl := Option.some.inj hc'
        rcases hor with e | e
        · exact hnx e.symm
        · exact w.anc_asymm hxin e hxn
    have hnotp : ∀ y, y = x ∨ y = m → ¬ Anc h p y := by
      intro y hy ha
      refine hnotbelow y hy (.inr ?_)
      rcases hp with rfl | hp
      · exact ha
      · exact hp.trans ha
    have hpin := w.parent_in hc hcp
    have hpx : h.ord p ≠ h.ord x := fun e => hnotbelow x (.inl rfl) ((w.ord_inj hpin hxin e) ▸ hp)
    have hpm : h.ord p ≠ h.ord m := fun e => hnotbelow m (.inr rfl) ((w.ord_inj hpin (.inr hm) e) ▸ hp)
    have hb : Between h c p x ∨ Between h c p m := by
      unfold Between at hbc hbp ⊢
      omega
    rcases hb with hb | hb
    · exact ⟨x, hxw, hb, hnotp x (.inl rfl)⟩
    · exact ⟨m, hm, hb, hnotp m (.inr rfl)⟩

/-- The whole block: an invariant of single lifts. -/
theorem proj_run {r : Nat} (shortest : Bool) {label : Label} (hlab : label ≠ .other) {s : ProjState} (hi : Inv s.heap) (hr : IsTree s.heap r)
    (P : List Nat → ProjState → Prop) (h0 : ∀ k : ProjState, k.heap.parent = s.heap.parent → k.heap.words = s.heap.words →
      k.heap.ord = s.heap.ord → k.rel = s.rel → k.pproj = s.pproj → P [] k)
    (hP : ∀ done x (k k' : ProjState) p q, x ∈ s.heap.words r → NonProj s.heap r x → x ∉ done → Inv k.heap → IsTree k.heap r → k.heap.words = s.heap.words →
      k.heap.ord = s.heap.ord → P done k → k.heap.parent x = some p → Inv k'.heap → IsTree k'.heap r → k'.heap.words = s.heap.words →
      k'.heap.ord = s.heap.ord → k'.heap.parent = upd k.heap.parent x (some q) → Near k.heap (GapAt k.heap r x) x q →
      (label = .misc → k'.rel = k.rel ∧ k'.pproj = if q = p then k.pproj else upd k.pproj x (getU (k.rel p))) → P (done ++ [x]) k') :
    ∃ s' L, projTree shortest label s r = (s', none) ∧ Inv s'.heap ∧ IsTree s'.heap r ∧ s'.heap.words = s.heap.words ∧
      s'.heap.ord = s.heap.ord ∧ s'.heap.root = s.heap.root ∧ (∀ x, x ∈ L ↔ x ∈ s.heap.words r ∧ NonProj s.heap r x) ∧ P L s' := by
  have w := hi r hr
  obtain ⟨h1, infos, e1, i1, t1, w1, o1, r1, p1, hs, hm⟩ := nonprojInfos_spec shortest (s.heap.words r) s.heap hi hr (fun _ h => h)
  have hperm : ((pySort (fun a b => decide (a.1 ≤ b.1)) infos).map Prod.snd).Perm (infos.map Prod.snd) := (pySort_perm _ infos).map _
  generalize hL : (pySort (fun a b => decide (a.1 ≤ b.1)) infos).map Prod.snd = L at hperm
  have hLn : L.Nodup := hperm.nodup_iff.2 (w.nodup.sublist hs)
  have hLm : ∀ x, x ∈ L ↔ x ∈ s.heap.words r ∧ NonProj s.heap r x := by
    intro x
    rw [hperm.mem_iff]
    constructor
    · intro h
      have := hs.subset h
      exact ⟨this, (hm x this).1 h⟩
    · rintro ⟨h1, h2⟩; exact (hm x h1).2 h2
  obtain ⟨s', e', i', t', w', o', r', p'⟩ := forNodes_inv (projLift label)
    (fun done k => Inv k.heap ∧ IsTree k.heap r ∧ k.heap.words = s.heap.words ∧ k.heap.ord = s.heap.ord ∧ k.heap.root = s.heap.root ∧ P done k)
    L (by
      intro done x rest k hl ⟨ik, tk, wk, ok, rk, pk⟩
      have hxL : x ∈ L := by rw [hl]; simp
      obtain ⟨hx, hnp⟩ := (hLm x).1 hxL
      have hxd : x ∉ done := by
        have := hLn
        rw [hl, List.nodup_append] at this
        intro hm
        exact this.2.2 x hm x (List.mem_cons_self ..) rfl
      have hxk : x ∈ k.heap.words r := by rw [wk]; exact hx
      obtain ⟨p, hp, _⟩ := (ik r tk).parentIn x hxk
      obtain ⟨k', q, e2, i2, t2, w2, o2, r2, p2, n2, m2⟩ := projLift_spec hlab ik tk hxk hp
      exact ⟨k', e2, i2, t2, by rw [w2, wk], by rw [o2, ok], by rw [r2, rk],
        hP done x k k' p q hx hnp hxd ik tk wk ok pk hp i2 t2 (by rw [w2, wk]) (by rw [o2, ok]) p2 n2 m2⟩)
    { s with heap := h1 } ⟨i1, t1, w1, o1, r1, h0 _ p1 w1 o1 rfl rfl⟩
  refine ⟨s', L, ?_, i', t', w', o', r', hLm, p'⟩
  unfold projTree
  rw [e1]
  simp only
  rw [hL]
  exact e'

/-- C94, the part that holds for every tree: transform.Proj keeps the words and their order and leaves a well-formed tree. Words whose
edge is projective keep their parents; the new parent of any other word is one of its ancestors.
What is missing: that the tree is projective. -/
theorem C94_ancestors_partial {r : Nat} (shortest : Bool) {label : Label} (hlab : label ≠ .other) {s : ProjState} (hi : Inv s.heap)
    (hr : IsTree s.heap r) :
    ∃ s', projTree shortest label s r = (s', none) ∧ Inv s'.heap ∧ IsTree s'.heap r ∧ s'.heap.words = s.heap.words ∧
      s'.heap.ord = s.heap.ord ∧ s'.heap.root = s.heap.root ∧
      (∀ x, x ∉ s.heap.words r ∨ ¬ NonProj s.heap r x → s'.heap.parent x = s.heap.parent x) ∧
      (∀ x ∈ s.heap.words r, ∃ q, s'.heap.parent x = some q ∧ Anc s.heap q x) := by
  have w := hi r hr
  obtain ⟨s', L, e, i', t', w', o', r', hL, hk, ha⟩ := proj_run shortest hlab hi hr
    (fun done k => (∀ x, x ∉ done → k.heap.parent x = s.heap.parent x) ∧ ∀ a x, Anc k.heap a x → Anc s.heap a x)
    (fun k hp _ _ _ _ => ⟨fun x _ => by rw [hp], fun a x => (anc_of_parent_eq hp).1⟩)
    (fun done x k k' p q _ _ _ _ _ _ _ pk _ _ _ _ _ hpar hn _ => ⟨fun y hy => by
        have hyx : y ≠ x := fun e => hy (by rw [e]; simp)
        rw [hpar, upd_ne _ _ hyx, pk.1 y (fun h => hy (List.mem_append_left _ h))],
      fun a y hy => pk.2 a y (anc_jump hn.anc.1 hpar hy)⟩)
  refine ⟨s', e, i', t', w', o', r', ?_, ?_⟩
  · intro x hx
    refine hk x (fun hm => ?_)
    have := (hL x).1 hm
    rcases hx with h | h
    · exact h this.1
    · exact h this.2
  · intro x hx
    obtain ⟨q, hq, _⟩ := (i' r t').parentIn x (by rw [w']; exact hx)
    exact ⟨q, hq, ha q x (.parent hq)⟩

/-- C94 with labels in MISC: relations do not change, and a word is marked exactly if its parent has changed, with the universal
relation of its former parent. -/
theorem C94_marks_partial {r : Nat} (shortest : Bool) {s : ProjState} (hi : Inv s.heap) (hr : IsTree s.heap r) :
    ∃ s', projTree shortest .misc s r = (s', none) ∧ s'.rel = s.rel ∧
      ∀ x p, s.heap.parent x = some p → s'.pproj x = if s'.heap.parent x = some p then s.pproj x else getU (s.rel p) := by
  obtain ⟨s', L, e, _, _, _, _, _, _, hk, hrel, hmark⟩ := proj_run shortest (label := .misc) (fun e => by cases e) hi hr
    (fun done k => (∀ x, x ∉ done → k.heap.parent x = s.heap.parent x) ∧ k.rel = s.rel ∧
      ∀ x p, s.heap.parent x = some p → k.pproj x = if k.heap.parent x = some p then s.pproj x else getU (s.rel p))
    (fun k hp _ _ hr hm => ⟨fun x _ => by rw [hp], hr, fun x p hx => by rw [hp, hx, hm, if_pos rfl]⟩)
    (fun done x k k' p q _ _ hxd _ _ _ _ pk hp _ _ _ _ hpar hn hmk => by
      obtain ⟨hr', hm'⟩ := hmk rfl
      refine ⟨fun y hy => ?_, by rw [hr', pk.2.1], fun y o ho => ?_⟩
      · have hyx : y ≠ x := fun e => hy (by rw [e]; simp)
        rw [hpar, upd_ne _ _ hyx, pk.1 y (fun h => hy (List.mem_append_left _ h))]
      · by_cases hyx : y = x
        · subst hyx
          have hop : o = p := by
            rw [pk.1 y hxd, ho] at hp
            exact Option.some.inj hp
          subst hop
          rw [hpar, upd_same, hm']
          by_cases hqo : q = o
          · rw [if_pos hqo, hqo, if_pos rfl, pk.2.2 y o ho, hp, if_pos rfl]
          · rw [if_neg hqo, upd_same, if_neg (fun e => hqo (Option.some.inj e)), pk.2.1]
        · rw [hpar, upd_ne _ _ hyx, hm']
          have : (if q = p then k.pproj else upd k.pproj x (getU (k.rel p))) y = k.pproj y := by
            split
            · rfl
            · exact upd_ne _ _ hyx
          rw [this, pk.2.2 y o ho])
  exact ⟨s', e, hrel, hmark⟩

/-- C94 for trees in which no word with a non-projective edge is below another one: the tree is projective after the block. -/
theorem C94_projective_partial {r : Nat} (shortest : Bool) {label : Label} (hlab : label ≠ .other) {s : ProjState} (hi : Inv s.heap)
    (hr : IsTree s.heap r)
    (hanti : ∀ a ∈ s.heap.words r, ∀ b ∈ s.heap.words r, NonProj s.heap r a → NonProj s.heap r b → ¬ Anc s.heap a b) :
    ∃ s', projTree shortest label s r = (s', none) ∧ ∀ x ∈ s.heap.words r, ¬ NonProj s'.heap r x := by
  obtain ⟨s', L, e, _, _, _, _, _, hL, ha, hn⟩ := proj_run shortest hlab hi hr
    (fun done k => (∀ a x, Anc k.heap a x → Anc s.heap a x) ∧
      ∀ m ∈ s.heap.words r, NonProj k.heap r m → NonProj s.heap r m ∧ m ∉ done)
    (fun k hp hw ho _ _ => ⟨fun a x => (anc_of_parent_eq hp).1, fun m _ hnp => ⟨(nonproj_congr hp ho hw m).1 hnp, List.not_mem_nil⟩⟩)
    (fun done x k k' p q hx hnpx hxd ik tk wk ok pk hp ik' tk' wk' ok' hpar hnear _ => by
      refine ⟨fun a y hy => pk.1 a y (anc_jump hnear.anc.1 hpar hy), ?_⟩
      intro m hm hnp
      have := lift_keeps (ik r tk) (ik' r tk') (by rw [wk]; exact hx) hnear hpar (by rw [wk', wk]) (by rw [ok', ok]) (by
        intro c hc hac hcn
        rw [wk] at hc
        exact hanti x hx c hc hnpx (pk.2 c hc hcn).1 (pk.1 x c hac)) (m := m) (by rw [wk]; exact hm) hnp
      obtain ⟨h1, h2⟩ := pk.2 m hm this.1
      refine ⟨h1, ?_⟩
      rw [List.mem_append, List.mem_singleton]
      rintro (h | h)
      · exact h2 h
      · exact this.2 h)
  refine ⟨s', e, ?_⟩
  intro x hx hnp
  obtain ⟨h1, h2⟩ := hn x hx hnp
  exact h2 ((hL x).2 ⟨hx, h1⟩)

/-- Five words: 1 and 4 depend on the root, 3 on 1, 5 on 3 and 2 on 5. -/
def exProj : Heap := runOps Heap.init [.newTree, .createChild 0, .createChild 0, .createChild 1, .createChild 0, .createChild 3,
  .setParent 2 (some 5)]

theorem exProj_reachable : Reachable exProj := by
  unfold exProj runOps
  simp only [List.foldl]
  refine .step (.setParent 2 (some 5)) (.step (.createChild 3) (.step (.createChild 0) (.step (.createChild 1) (.step (.createChild 0)
    (.step (.createChild 0) (.step .newTree .init trivial) ?_) ?_) ?_) ?_) ?_) ?_
  · exact ⟨0, ⟨by decide, by decide⟩, .inl rfl⟩
  · exact ⟨0, ⟨by decide, by decide⟩, .inl rfl⟩
  · exact ⟨0, ⟨by decide, by decide⟩, .inr (by decide)⟩
  · exact ⟨0, ⟨by decide, by decide⟩, .inl rfl⟩
  · exact ⟨0, ⟨by decide, by decide⟩, .inr (by decide)⟩
  · exact ⟨0, ⟨by decide, by decide⟩, .inr (by decide), .inr (by decide)⟩

/-- C94 does not hold: for both orders there is a tree that is not projective after the block. Word 2 is lifted to the root while it
stands between word 3 and its parent. -/
theorem C94_order_violated : ∃ s r, Reachable s.heap ∧ IsTree s.heap r ∧ ∀ shortest, ∃ x ∈ s.heap.words r,
    (projTree shortest .misc s r).2 = none ∧ NonProj (projTree shortest .misc s r).1.heap r x := by
  have ht : IsTree exProj 0 := ⟨by decide +kernel, by decide +kernel⟩
  have hi := inv_reachable exProj_reachable
  refine ⟨⟨exProj, fun _ => none, fun _ => none⟩, 0, exProj_reachable, ht, fun shortest => ⟨3, by decide +kernel, ?_⟩⟩
  obtain ⟨s', e, i', t', w', o', _, _, _⟩ := C94_ancestors_partial shortest (label := .misc) (fun e => by cases e)
    (s := ⟨exProj, fun _ => none, fun _ => none⟩) hi ht
  have h2 : s'.heap.parent 2 = some 0 ∧ s'.heap.parent 3 = some 1 := by
    have hh : ∀ b, (projTree b .misc ⟨exProj, fun _ => none, fun _ => none⟩ 0).1.heap.parent 2 = some 0 ∧
        (projTree b .misc ⟨exProj, fun _ => none, fun _ => none⟩ 0).1.heap.parent 3 = some 1 := by
      decide +kernel
    have := hh shortest
    rwa [e] at this
  rw [e]
  refine ⟨rfl, 1, h2.2, 2, ?_, ?_, ?_⟩
  · rw [w']; decide +kernel
  · unfold Between
    rw [o']
    exact .inr ⟨by decide +kernel, by decide +kernel⟩
  · intro ha
    rcases anc_iff.1 ha with ⟨p, hp, hor⟩
    rw [h2.1] at hp
    obtain rfl := Option.some.inj hp
    rcases hor with hor | hor
    · cases hor
    · exact (i' 0 t').not_anc_root hor

example : (projTree false .misc ⟨exNp, fun _ => some dDep, fun _ => none⟩ 0).1.heap.parent 3 = some 0 ∧
    (projTree false .misc ⟨exNp, fun _ => some dDep, fun _ => none⟩ 0).1.pproj 3 = some dDep ∧
    (projTree true .deprel ⟨exNp, fun _ => some dDep, fun _ => none⟩ 0).1.rel 3 = some (dDep ++ [':', '+'] ++ dDep) := by decide +kernel

end Verif.Blocks
