import Verif.Blocks.Basic
import Verif.Tree.Props

/-!
# Property C146: `change_headfinal` of ud.Convert1to2 (udapi/block/ud/convert1to2.py)

Enhanced dependencies are left out.
-/

namespace Verif.Blocks.HeadFinal
open Verif.Py Verif.Tree Verif.Deprel Verif.Blocks

/-- `for a_node in l: a_node.parent = f` -/
def attachTo (f : Nat) (h : Heap) (l : List Nat) : Heap × Option Err := forNodes (fun h a => setParent h a (some f)) h l

/-- `change_headfinal(node, deprel)` (convert1to2.py:221-233) -/
def headFinal (x : Str) (s : Heap × Rels) (n : Nat) : (Heap × Rels) × Option Err :=
  match s.1.parent n with
  | none => (s, if getU (s.2 n) = some x then some .attributeError else none)
  | some p =>
    if getU (s.2 n) = some x ∧ s.1.ord n < s.1.ord p then
      match (s.1.children p).filter (fun z => getU (s.2 z) = some x) with
      | [] => (s, some .indexError)
      | f :: rest =>
        match setParent s.1 f (s.1.parent p) with
        | (h1, some e) => ((h1, s.2), some e)
        | (h1, none) =>
          match attachTo f h1 (rest ++ (s.1.children p).filter (fun z => ¬ getU (s.2 z) = some x) ++ [p]) with
          | (h2, e) => ((h2, upd (upd s.2 f (s.2 p)) p (s.2 n)), e)
    else (s, none)

/-- The loop over the words (convert1to2.py:73-76); `xs` are the relations in `('goeswith', 'flat')` that are not skipped. -/
def headFinalTree (xs : List Str) (s : Heap × Rels) (r : Nat) : (Heap × Rels) × Option Err :=
  forNodes (fun s n => forNodes (fun s x => headFinal x s n) s xs) s (s.1.words r)

/-! ## Specification vocabulary -/

/-- The word has one of the relations `xs`. -/
def Lab (xs : List Str) (d : Rels) (z : Nat) : Prop := ∃ x ∈ xs, getU (d z) = some x

/-- `t` is the leftmost of `p` and its dependents with relations in `xs`. -/
def IsTop (xs : List Str) (h : Heap) (d : Rels) (r p t : Nat) : Prop :=
  (t = p ∨ t ∈ h.words r ∧ Lab xs d t ∧ h.parent t = some p ∧ h.ord t < h.ord p) ∧
    ∀ z ∈ h.words r, Lab xs d z → h.parent z = some p → h.ord t ≤ h.ord z

/-! ## Proofs -/

section Lemmas
variable {xs : List Str} {h : Heap} {d : Rels} {r : Nat}

instance : Decidable (Lab xs d z) := by unfold Lab; infer_instance

theorem anc_upd {h h' : Heap} {x f : Nat} {v : Option Nat} (hpar : h'.parent = upd h.parent x v) (hn : ¬ Anc h x f) (hx : x ≠ f) (b : Nat) :
    Anc h' b f ↔ Anc h b f := by
  constructor
  · intro ha
    induction ha with
    | @parent y e =>
      rw [hpar, upd_ne _ _ (fun e => hx e.symm)] at e
      exact .parent e
    | @step y q e _ ih =>
      rw [hpar, upd_ne _ _ (fun e => hx e.symm)] at e
      exact .step e (ih (fun k => hn (.step e k)) (fun k => hn (.parent (k ▸ e))))
  · intro ha
    induction ha with
    | @parent y e => exact .parent (by rw [hpar, upd_ne _ _ (fun e => hx e.symm), e])
    | @step y q e _ ih =>
      exact .step (by rw [hpar, upd_ne _ _ (fun e => hx e.symm), e]) (ih (fun k => hn (.step e k)) (fun k => hn (.parent (k ▸ e))))

theorem attachTo_ok (hi : Inv h) (hr : IsTree h r) {f : Nat} (hf : f ∈ h.words r) (l : List Nat) (hl : ∀ a ∈ l, a ∈ h.words r ∧ a ≠ f ∧ ¬ Anc h a f) :
    ∃ h', attachTo f h l = (h', none) ∧ Inv h' ∧ IsTree h' r ∧ h'.words = h.words ∧ h'.ord = h.ord ∧
      ∀ z, h'.parent z = if z ∈ l then some f else h.parent z := by
  obtain ⟨h', e, i, t, w', o', -, hp⟩ := forNodes_inv (fun h a => setParent h a (some f)) (fun done s => Inv s ∧ IsTree s r ∧ s.words = h.words ∧
      s.ord = h.ord ∧ (∀ b, Anc s b f ↔ Anc h b f) ∧ ∀ z, s.parent z = if z ∈ done then some f else h.parent z) l (by
    intro done x rest s hle ⟨i, t, w', o', ha, hp⟩
    obtain ⟨hx, hxf, hxn⟩ := hl x (by rw [hle]; simp)
    obtain ⟨h1, e1, i1, t1, w1, -, o1, p1⟩ := attach_one i t (by rw [w']; exact hx) (.inr (by rw [w']; exact hf)) (fun e => hxf e.symm) (fun k => hxn ((ha x).1 k))
    refine ⟨h1, e1, i1, t1, by rw [w1, w'], by rw [o1, o'], ?_, ?_⟩
    · intro b
      rw [anc_upd p1 (fun k => hxn ((ha x).1 k)) hxf, ha]
    · intro z
      rw [p1]
      by_cases hz : z = x
      · subst hz
        rw [upd_same, if_pos (by simp)]
      · rw [upd_ne _ _ hz, hp]
        simp [hz]) h ⟨hi, hr, rfl, rfl, fun _ => Iff.rfl, fun _ => by simp⟩
  exact ⟨h', e, i, t, w', o', hp⟩

/-- One application that changes the tree. -/
theorem headFinal_ok (hi : Inv h) (hr : IsTree h r) {x : Str} {n p : Nat} (hn : n ∈ h.words r) (hp : h.parent n = some p)
    (hx : getU (d n) = some x) (hlt : h.ord n < h.ord p) :
    ∃ h' f g, headFinal x (h, d) n = ((h', upd (upd d f (d p)) p (d n)), none) ∧ Inv h' ∧ IsTree h' r ∧ h'.words = h.words ∧ h'.ord = h.ord ∧
      f ∈ h.words r ∧ h.parent f = some p ∧ getU (d f) = some x ∧ p ∈ h.words r ∧ h.parent p = some g ∧ f ≠ p ∧
      (∀ z ∈ h.words r, h.parent z = some p → getU (d z) = some x → h.ord f ≤ h.ord z) ∧
      ∀ z, h'.parent z = if z = p ∨ (z ∈ h.words r ∧ h.parent z = some p ∧ z ≠ f) then some f else if z = f then some g else h.parent z := by
  have w := hi r hr
  have hpr : p ≠ r := by
    rintro rfl
    rw [w.rootOrd] at hlt
    omega
  have hpw : p ∈ h.words r := (w.parent_in hn hp).resolve_left hpr
  unfold headFinal
  simp only [hp]
  rw [if_pos ⟨hx, hlt⟩]
  have hmem : ∀ z, z ∈ h.children p ↔ z ∈ h.words r ∧ h.parent z = some p := w.childIff p (.inr hpw)
  have hs := w.childSorted p (.inr hpw)
  cases hfil : (h.children p).filter (fun z => getU (d z) = some x) with
  | nil =>
    have : n ∈ (h.children p).filter (fun z => getU (d z) = some x) := List.mem_filter.2 ⟨(hmem n).2 ⟨hn, hp⟩, by simpa using hx⟩
    rw [hfil] at this
    cases this
  | cons f rest =>
    have hf : f ∈ (h.children p).filter (fun z => getU (d z) = some x) := by rw [hfil]; exact List.mem_cons_self ..
    rw [List.mem_filter, hmem] at hf
    obtain ⟨⟨hfw, hfp⟩, hfx⟩ := hf
    have hfx : getU (d f) = some x := by simpa using hfx
    have hsort : ((h.children p).filter (fun z => getU (d z) = some x)).Pairwise (fun x y => h.ord x < h.ord y) := hs.filter _
    rw [hfil, List.pairwise_cons] at hsort
    have hmin : ∀ z ∈ h.words r, h.parent z = some p → getU (d z) = some x → h.ord f ≤ h.ord z := by
      intro z hz hzp hzx
      have : z ∈ (h.children p).filter (fun z => getU (d z) = some x) := List.mem_filter.2 ⟨(hmem z).2 ⟨hz, hzp⟩, by simpa using hzx⟩
      rw [hfil] at this
      rcases List.mem_cons.1 this with rfl | k
      · exact Nat.le_refl _
      · exact Nat.le_of_lt (hsort.1 z k)
    have hfne : f ∉ rest := fun k => Nat.lt_irrefl _ (hsort.1 f k)
    have hrest : ∀ z, z ∈ rest ↔ z ∈ h.words r ∧ h.parent z = some p ∧ getU (d z) = some x ∧ z ≠ f := by
      intro z
      have : z ∈ f :: rest ↔ (z ∈ h.words r ∧ h.parent z = some p) ∧ getU (d z) = some x := by
        rw [← hfil, List.mem_filter, hmem]
        simp
      constructor
      · intro k
        obtain ⟨k1, k2⟩ := this.1 (List.mem_cons_of_mem _ k)
        exact ⟨k1.1, k1.2, k2, fun e => hfne (e ▸ k)⟩
      · intro ⟨k1, k2, k3, k4⟩
        exact (List.mem_cons.1 (this.2 ⟨⟨k1, k2⟩, k3⟩)).resolve_left k4
    obtain ⟨g, hg, hgin, hgf, hgn⟩ := lift_target w hfw hfp hpr
    have hfp' : f ≠ p := fun e => w.anc_irrefl (.inr hpw) (.parent (e ▸ hfp))
    obtain ⟨h1, e1, i1, t1, w1, r1, o1, p1⟩ := attach_one hi hr hfw hgin hgf hgn
    have hL : ∀ z, z ∈ rest ++ (h.children p).filter (fun z => ¬ getU (d z) = some x) ++ [p] ↔
        (z = p ∨ (z ∈ h.words r ∧ h.parent z = some p ∧ z ≠ f)) := by
      intro z
      simp only [List.mem_append, List.mem_singleton, hrest, List.mem_filter, hmem, decide_eq_true_eq]
      constructor
      · rintro ((k | k) | k)
        · exact .inr ⟨k.1, k.2.1, k.2.2.2⟩
        · exact .inr ⟨k.1.1, k.1.2, fun e => by subst e; simp [hfx] at k⟩
        · exact .inl k
      · rintro (k | k)
        · exact .inr k
        · by_cases hzx : getU (d z) = some x
          · exact .inl (.inl ⟨k.1, k.2.1, hzx, k.2.2⟩)
          · exact .inl (.inr ⟨⟨k.1, k.2.1⟩, by simpa using hzx⟩)
    obtain ⟨h2, e2, i2, t2, w2, o2, p2⟩ := attachTo_ok i1 t1 (f := f) (by rw [w1]; exact hfw)
      (rest ++ (h.children p).filter (fun z => ¬ getU (d z) = some x) ++ [p]) (by
        intro a ha
        rw [hL] at ha
        have hga : Anc h g a := by
          rcases ha with rfl | ⟨-, k, -⟩
          · exact .parent hg
          · exact .step k (.parent hg)
        have haw : a ∈ h.words r := by
          rcases ha with rfl | k
          · exact hpw
          · exact k.1
        refine ⟨by rw [w1]; exact haw, ?_, ?_⟩
        · rcases ha with rfl | k
          · exact hfp'.symm
          · exact k.2.2
        · intro k
          have : a = g ∨ Anc h a g := by
            rcases anc_iff.1 k with ⟨g', hg', e'⟩
            rw [p1, upd_same] at hg'
            obtain rfl := Option.some.inj hg'
            rcases e' with e' | e'
            · exact .inl e'.symm
            · exact .inr (anc_lift hfp hg p1 e')
          rcases this with rfl | k
          · exact w.anc_irrefl hgin hga
          · exact w.anc_irrefl (.inr haw) (k.trans hga))
    refine ⟨h2, f, g, ?_, i2, t2, by rw [w2, w1], by rw [o2, o1], hfw, hfp, hfx, hpw, hg, hfp', hmin, ?_⟩
    · simp only [hg, e1]
      rw [e2]
    · intro z
      rw [p2, p1]
      simp only [hL]
      split
      · rfl
      · by_cases hz : z = f
        · rw [hz, upd_same, if_pos rfl]
        · rw [upd_ne _ _ hz, if_neg hz]

theorem headFinal_idle {x : Str} {s : Heap × Rels} {n p : Nat} (hp : s.1.parent n = some p) (hc : ¬ (getU (s.2 n) = some x ∧ s.1.ord n < s.1.ord p)) :
    headFinal x s n = (s, none) := by
  unfold headFinal
  simp only [hp]
  rw [if_neg hc]

/-- For all trees and relations the loop ends without an exception; the words and their order stay, and the tree is well formed again. -/
theorem C146_tree (hi : Inv h) (hr : IsTree h r) (d : Rels) :
    ∃ h' d', headFinalTree xs (h, d) r = ((h', d'), none) ∧ WF h' r ∧ h'.words = h.words ∧ h'.ord = h.ord := by
  let P : Heap × Rels → Prop := fun s => Inv s.1 ∧ IsTree s.1 r ∧ s.1.words = h.words ∧ s.1.ord = h.ord
  have hstep : ∀ n ∈ h.words r, ∀ x s, P s → ∃ s', headFinal x s n = (s', none) ∧ P s' := by
    rintro n hn x ⟨s, ds⟩ ⟨i, t, w', o'⟩
    have w := i r t
    obtain ⟨p, hp, _⟩ := w.parentIn n (by simp only at w'; rw [w']; exact hn)
    by_cases hc : getU (ds n) = some x ∧ s.ord n < s.ord p
    · obtain ⟨h', f, g, e, i', t', w'', o'', -⟩ := headFinal_ok (d := ds) i t (by simp only at w'; rw [w']; exact hn) hp hc.1 hc.2
      exact ⟨_, e, i', t', by rw [w'', w'], by rw [o'', o']⟩
    · exact ⟨_, headFinal_idle hp hc, i, t, w', o'⟩
  obtain ⟨⟨h', d'⟩, e, i, t, w', o'⟩ := forNodes_inv (fun s n => forNodes (fun s x => headFinal x s n) s xs) (fun _ s => P s) (h.words r)
    (fun done n rest s hl hP => forNodes_inv (fun s x => headFinal x s n) (fun _ s => P s) xs
      (fun _ x _ s _ hP => hstep n (by rw [hl]; simp) x s hP) s hP) (h, d) ⟨hi, hr, rfl, rfl⟩
  exact ⟨h', d', e, i r t, w', o'⟩

/-! ### The result, if the relations are not nested -/

/-- The leftmost of `p` and its dependents with relations in `xs`, computed. -/
def topOf (xs : List Str) (h : Heap) (d : Rels) (p : Nat) : Nat :=
  match (h.children p).filter (fun z => Lab xs d z) with
  | [] => p
  | f :: _ => if h.ord f < h.ord p then f else p

theorem topOf_cases (w : WF h r) {p : Nat} (hp : InTree h r p) :
    (topOf xs h d p = p ∧ ∀ z ∈ h.words r, Lab xs d z → h.parent z = some p → h.ord p ≤ h.ord z) ∨
    (topOf xs h d p ∈ h.words r ∧ Lab xs d (topOf xs h d p) ∧ h.parent (topOf xs h d p) = some p ∧ h.ord (topOf xs h d p) < h.ord p ∧
      ∀ z ∈ h.words r, Lab xs d z → h.parent z = some p → h.ord (topOf xs h d p) ≤ h.ord z) := by
  have hmem : ∀ z, z ∈ (h.children p).filter (fun z => Lab xs d z) ↔ z ∈ h.words r ∧ h.parent z = some p ∧ Lab xs d z := by
    intro z
    rw [List.mem_filter, w.childIff p hp]
    simp [and_assoc]
  have hs : ((h.children p).filter (fun z => Lab xs d z)).Pairwise (fun x y => h.ord x < h.ord y) := (w.childSorted p hp).filter _
  unfold topOf
  cases hfil : (h.children p).filter (fun z => Lab xs d z) with
  | nil =>
    refine .inl ⟨rfl, fun z hz hl hzp => ?_⟩
    have := (hmem z).2 ⟨hz, hzp, hl⟩
    rw [hfil] at this
    cases this
  | cons f rest =>
    rw [hfil] at hs hmem
    obtain ⟨f1, f2, f3⟩ := (hmem f).1 (List.mem_cons_self ..)
    have hmin : ∀ z ∈ h.words r, Lab xs d z → h.parent z = some p → h.ord f ≤ h.ord z := by
      intro z hz hl hzp
      rcases List.mem_cons.1 ((hmem z).2 ⟨hz, hzp, hl⟩) with rfl | k
      · exact Nat.le_refl _
      · exact Nat.le_of_lt ((List.pairwise_cons.1 hs).1 z k)
    simp only
    by_cases hlt : h.ord f < h.ord p
    · rw [if_pos hlt]
      exact .inr ⟨f1, f3, f2, hlt, hmin⟩
    · rw [if_neg hlt]
      exact .inl ⟨rfl, fun z hz hl hzp => Nat.le_trans (Nat.le_of_not_lt hlt) (hmin z hz hl hzp)⟩

/-- The top of `p` when the words `done` have been visited. -/
def topAt (xs : List Str) (h : Heap) (d : Rels) (done : List Nat) (p : Nat) : Nat := if topOf xs h d p ∈ done then topOf xs h d p else p

/-- The state when the words `done` have been visited. -/
structure Mid (xs : List Str) (h : Heap) (d : Rels) (r : Nat) (done : List Nat) (s : Heap × Rels) : Prop where
  inv : Inv s.1
  tree : IsTree s.1 r
  words : s.1.words = h.words
  ord : s.1.ord = h.ord
  /-- words without the relations, and the tops they have got -/
  plain : ∀ p ∈ h.words r, ¬ Lab xs d p → ∀ q, h.parent p = some q →
    s.1.parent (topAt xs h d done p) = some (topAt xs h d done q) ∧ s.2 (topAt xs h d done p) = d p ∧
      (topAt xs h d done p ≠ p → s.1.parent p = some (topAt xs h d done p) ∧ s.2 p = d (topAt xs h d done p))
  /-- words with the relations -/
  marked : ∀ z ∈ h.words r, Lab xs d z → ∀ p, h.parent z = some p → z ≠ topAt xs h d done p →
    s.1.parent z = some (topAt xs h d done p) ∧ s.2 z = d z

theorem topAt_cases (w : WF h r) {p : Nat} (hp : InTree h r p) (done : List Nat) :
    topAt xs h d done p = p ∨ (topAt xs h d done p = topOf xs h d p ∧ topOf xs h d p ∈ done ∧ topOf xs h d p ∈ h.words r ∧ Lab xs d (topOf xs h d p) ∧
      h.parent (topOf xs h d p) = some p ∧ h.ord (topOf xs h d p) < h.ord p ∧
      ∀ z ∈ h.words r, Lab xs d z → h.parent z = some p → h.ord (topOf xs h d p) ≤ h.ord z) := by
  unfold topAt
  by_cases hd : topOf xs h d p ∈ done
  · rw [if_pos hd]
    rcases topOf_cases (xs := xs) (d := d) w hp with ⟨e, -⟩ | k
    · exact .inl e
    · exact .inr ⟨rfl, hd, k⟩
  · rw [if_neg hd]
    exact .inl rfl

/-- Words with the relations depend on words without them. -/
def Flat (xs : List Str) (h : Heap) (d : Rels) (r : Nat) : Prop :=
  ∀ z ∈ h.words r, Lab xs d z → ∀ p ∈ h.words r, h.parent z = some p → ¬ Lab xs d p

theorem mid_init (hi : Inv h) (hr : IsTree h r) : Mid xs h d r [] (h, d) := by
  have hT : ∀ p, topAt xs h d [] p = p := fun p => if_neg (by simp)
  refine ⟨hi, hr, rfl, rfl, ?_, ?_⟩
  · intro p _ _ q hq
    rw [hT, hT]
    exact ⟨hq, rfl, fun k => absurd rfl k⟩
  · intro z _ _ p hp _
    rw [hT]
    exact ⟨hp, rfl⟩

/-- After a word has been visited, it has no relation of `xs`, or follows its parent. -/
theorem mid_idle (w : WF h r) (hflat : Flat xs h d r) {done : List Nat} {n : Nat} (hn : n ∈ h.words r)
    (hbefore : ∀ z ∈ h.words r, h.ord z ≤ h.ord n → z ∈ done) {s : Heap × Rels} (m : Mid xs h d r done s) {x : Str} (hx : x ∈ xs) :
    headFinal x s n = (s, none) := by
  obtain ⟨p, hp, hpin⟩ := w.parentIn n hn
  by_cases hl : Lab xs d n
  · by_cases hnt : n = topAt xs h d done p
    · -- the word is a top
      have hpw : p ∈ h.words r ∧ ¬ Lab xs d p := by
        rcases topAt_cases (xs := xs) (d := d) w hpin done with e | ⟨-, -, -, -, -, k, -⟩
        · rw [e] at hnt
          subst hnt
          exact absurd (Anc.parent hp) (w.anc_irrefl hpin)
        · have hpr : p ≠ r := by
            rintro rfl
            rw [w.rootOrd] at k
            omega
          have := hpin.resolve_left hpr
          exact ⟨this, hflat n hn hl p this hp⟩
      obtain ⟨q, hq, _⟩ := w.parentIn p hpw.1
      obtain ⟨k1, k2, -⟩ := m.plain p hpw.1 hpw.2 q hq
      rw [← hnt] at k1 k2
      refine headFinal_idle k1 (fun k => hpw.2 ⟨x, hx, ?_⟩)
      rw [← k2]
      exact k.1
    · obtain ⟨k1, k2⟩ := m.marked n hn hl p hp hnt
      refine headFinal_idle k1 (fun k => ?_)
      rw [m.ord] at k
      rcases topAt_cases (xs := xs) (d := d) w hpin done with e | ⟨e, -, -, -, -, -, hmin⟩
      · rw [e] at k
        rcases topOf_cases (xs := xs) (d := d) w hpin with ⟨-, hge⟩ | ⟨c1, c2, c3, c4, c5⟩
        · exact absurd (hge n hn hl hp) (Nat.not_le.2 k.2)
        · have hd := hbefore _ c1 (c5 n hn hl hp)
          have : topAt xs h d done p = topOf xs h d p := if_pos hd
          rw [this] at e
          rw [e] at c3
          exact absurd (Anc.parent c3) (w.anc_irrefl hpin)
      · rw [e] at k
        exact absurd (hmin n hn hl hp) (Nat.not_le.2 k.2)
  · obtain ⟨k1, k2, k3⟩ := m.plain n hn hl p hp
    by_cases hnt : topAt xs h d done n = n
    · rw [hnt] at k1 k2
      refine headFinal_idle k1 (fun k => hl ⟨x, hx, ?_⟩)
      rw [← k2]
      exact k.1
    · obtain ⟨k4, k5⟩ := k3 hnt
      refine headFinal_idle k4 (fun k => ?_)
      rw [m.ord] at k
      rcases topAt_cases (xs := xs) (d := d) w (.inr hn) done with e | ⟨e, -, -, -, -, hlt, -⟩
      · exact hnt e
      · rw [e] at k
        omega

/-- Visiting a word with one of the relations. -/
theorem mid_step (w : WF h r) (hflat : Flat xs h d r) {done : List Nat} {n : Nat} (hn : n ∈ h.words r) (hnd : n ∉ done)
    (hbefore : ∀ z ∈ h.words r, h.ord z < h.ord n → z ∈ done) {s : Heap × Rels} (m : Mid xs h d r done s) {x : Str} (hx : x ∈ xs) :
    (headFinal x s n = (s, none) ∧ (getU (d n) = some x → ∀ p ∈ h.words r, topOf xs h d p = n → n = p)) ∨
      ∃ s', headFinal x s n = (s', none) ∧ Mid xs h d r (done ++ [n]) s' := by
  obtain ⟨p, hp, hpin⟩ := w.parentIn n hn
  have hinj : ∀ a ∈ h.words r, ∀ b ∈ h.words r, h.ord a = h.ord b → a = b := fun a ha b hb => w.ord_inj (.inr ha) (.inr hb)
  by_cases hl : Lab xs d n
  · have hTn : n ≠ topAt xs h d done p := by
      intro e
      rcases topAt_cases (xs := xs) (d := d) w hpin done with k | ⟨k, kd, -⟩
      · rw [k] at e
        subst e
        exact w.anc_irrefl hpin (.parent hp)
      · rw [k] at e
        exact hnd (e ▸ kd)
    obtain ⟨s1, s2⟩ := m.marked n hn hl p hp hTn
    by_cases hc : getU (s.2 n) = some x ∧ s.1.ord n < s.1.ord (topAt xs h d done p)
    · -- the swap
      right
      have hux : getU (d n) = some x := s2 ▸ hc.1
      have hlt := hc.2
      rw [m.ord] at hlt
      have hTp : topAt xs h d done p = p := by
        rcases topAt_cases (xs := xs) (d := d) w hpin done with k | ⟨k, -, -, -, -, -, hmin⟩
        · exact k
        · rw [k] at hlt
          exact absurd (hmin n hn hl hp) (Nat.not_le.2 hlt)
      rw [hTp] at s1 hlt
      have htop : topOf xs h d p = n := by
        rcases topOf_cases (xs := xs) (d := d) w hpin with ⟨-, hge⟩ | ⟨c1, c2, c3, c4, c5⟩
        · exact absurd (hge n hn hl hp) (Nat.not_le.2 hlt)
        · have hle := c5 n hn hl hp
          rcases Nat.lt_or_ge (h.ord (topOf xs h d p)) (h.ord n) with k | k
          · have hd := hbefore _ c1 k
            have : topAt xs h d done p = topOf xs h d p := if_pos hd
            rw [hTp] at this
            rw [← this] at c3
            exact absurd (Anc.parent c3) (w.anc_irrefl hpin)
          · exact hinj _ c1 _ hn (by omega)
      have hpr : p ≠ r := by
        rintro rfl
        rw [w.rootOrd] at hlt
        omega
      have hpw : p ∈ h.words r := hpin.resolve_left hpr
      have hpl : ¬ Lab xs d p := hflat n hn hl p hpw hp
      obtain ⟨q, hq, hqin⟩ := w.parentIn p hpw
      obtain ⟨a1, a2, -⟩ := m.plain p hpw hpl q hq
      rw [hTp] at a1 a2
      obtain ⟨h', f, g, e, i', t', w', o', f1, f2, f3, -, f4, f5, f6, f7⟩ := headFinal_ok (d := s.2) m.inv m.tree (by rw [m.words]; exact hn) s1
        (by rw [s2]; exact hux) (by rw [m.ord]; exact hlt)
      rw [m.words] at f1 f6 f7
      rw [m.ord] at f6
      have hg : g = topAt xs h d done q := Option.some.inj (f4.symm.trans a1)
      have hnp : n ≠ p := fun e => w.anc_irrefl hpin (.parent (e ▸ hp))
      -- the children of p at this time
      have hch : ∀ z ∈ h.words r, s.1.parent z = some p → (Lab xs d z ∧ h.parent z = some p ∧ s.2 z = d z) ∨
          (∃ y ∈ h.words r, ¬ Lab xs d y ∧ h.parent y = some p ∧ z = topAt xs h d done y ∧ s.2 z = d y) := by
        intro z hz hzp
        have hTeq : ∀ q, InTree h r q → topAt xs h d done q = p → q = p := by
          intro q hq e
          rcases topAt_cases (xs := xs) (d := d) w hq done with k | ⟨k, -, -, k4, -⟩
          · rw [k] at e
            exact e
          · rw [k] at e
            rw [e] at k4
            exact absurd k4 hpl
        obtain ⟨q', hq', hqin'⟩ := w.parentIn z hz
        by_cases hzl : Lab xs d z
        · by_cases hzt : z = topAt xs h d done q'
          · have hqw : q' ∈ h.words r := by
              rcases topAt_cases (xs := xs) (d := d) w hqin' done with k | ⟨k, -, -, -, -, k5, -⟩
              · rw [k] at hzt
                exact absurd (Anc.parent (hzt ▸ hq')) (w.anc_irrefl hqin')
              · refine hqin'.resolve_left (fun e => ?_)
                subst e
                rw [w.rootOrd] at k5
                omega
            have hql := hflat z hz hzl q' hqw hq'
            obtain ⟨q'', hq'', hqin''⟩ := w.parentIn q' hqw
            obtain ⟨b1, b2, -⟩ := m.plain q' hqw hql q'' hq''
            rw [← hzt] at b1 b2
            have : q'' = p := hTeq q'' hqin'' (Option.some.inj (b1.symm.trans hzp))
            subst this
            exact .inr ⟨q', hqw, hql, hq'', hzt, b2⟩
          · obtain ⟨b1, b2⟩ := m.marked z hz hzl q' hq' hzt
            have : q' = p := hTeq q' hqin' (Option.some.inj (b1.symm.trans hzp))
            subst this
            exact .inl ⟨hzl, hq', b2⟩
        · obtain ⟨b1, b2, b3⟩ := m.plain z hz hzl q' hq'
          by_cases hzt : topAt xs h d done z = z
          · rw [hzt] at b1 b2
            have : q' = p := hTeq q' hqin' (Option.some.inj (b1.symm.trans hzp))
            subst this
            exact .inr ⟨z, hz, hzl, hq', hzt.symm, b2⟩
          · have := (b3 hzt).1.symm.trans hzp
            rcases topAt_cases (xs := xs) (d := d) w (.inr hz) done with k | ⟨k, -, -, k4, -⟩
            · exact absurd k hzt
            · rw [← k, Option.some.inj this] at k4
              exact absurd k4 hpl
      -- the first of them with the relation is n
      have hfn : f = n := by
        have hle := f6 n hn s1 (by rw [s2]; exact hux)
        rcases hch f f1 f2 with ⟨c1, c2, -⟩ | ⟨y, -, c2, -, -, c5⟩
        · have hge : h.ord n ≤ h.ord f := by
            rcases topOf_cases (xs := xs) (d := d) w hpin with ⟨k, -⟩ | ⟨-, -, -, -, c5⟩
            · exact absurd (htop.symm.trans k) hnp
            · have := c5 f f1 c1 c2
              rw [htop] at this
              exact this
          exact hinj f f1 n hn (by omega)
        · exact absurd ⟨x, hx, c5 ▸ f3⟩ c2
      subst hfn
      have hT' : ∀ y, InTree h r y → topAt xs h d (done ++ [f]) y = if y = p then f else topAt xs h d done y := by
        intro y hy
        by_cases hyp : y = p
        · rw [if_pos hyp, hyp]
          unfold topAt
          rw [htop, if_pos (by simp)]
        · rw [if_neg hyp]
          unfold topAt
          by_cases hyf : topOf xs h d y = f
          · rcases topOf_cases (xs := xs) (d := d) w hy with ⟨k, -⟩ | ⟨-, -, c3, -⟩
            · rw [k] at hyf
              rw [k, hyf]
              simp
            · rw [hyf, hp] at c3
              exact absurd (Option.some.inj c3).symm hyp
          · simp [hyf]
      refine ⟨_, e, i', t', by rw [w', m.words], by rw [o', m.ord], ?_, ?_⟩
      · intro y hy hyl y' hy'
        have hy'in := w.parent_in hy hy'
        rw [hT' y (.inr hy), hT' y' hy'in]
        simp only
        by_cases hyp : y = p
        · subst hyp
          rw [hq] at hy'
          obtain rfl := Option.some.inj hy'
          have hqp : q ≠ y := fun e => w.anc_irrefl (.inr hy) (.parent (e ▸ hq))
          rw [if_pos rfl, if_neg hqp]
          refine ⟨?_, ?_, fun _ => ⟨?_, ?_⟩⟩
          · rw [f7, if_neg (fun k => k.elim hnp (fun k => k.2.2 rfl)), if_pos rfl, hg]
          · rw [upd_ne _ _ hnp, upd_same, a2]
          · rw [f7, if_pos (.inl rfl)]
          · rw [upd_same, s2]
        · rw [if_neg hyp]
          obtain ⟨b1, b2, b3⟩ := m.plain y hy hyl y' hy'
          have hyne : topAt xs h d done y ≠ f ∧ topAt xs h d done y ≠ p ∧ topAt xs h d done y ∈ h.words r := by
            rcases topAt_cases (xs := xs) (d := d) w (.inr hy) done with k | ⟨k, k2, k3, k4, k5, -⟩
            · rw [k]
              exact ⟨fun e => hyl (e ▸ hl), hyp, hy⟩
            · rw [k]
              exact ⟨fun e => hnd (e ▸ k2), fun e => hpl (e ▸ k4), k3⟩
          obtain ⟨hy1, hy2, hy3⟩ := hyne
          refine ⟨?_, ?_, fun hne => ?_⟩
          · rw [f7]
            by_cases hyp' : y' = p
            · subst hyp'
              rw [hTp] at b1
              rw [if_pos rfl, if_pos (.inr ⟨hy3, b1, hy1⟩)]
            · rw [if_neg hyp', if_neg, if_neg hy1, b1]
              rintro (k | ⟨-, k, -⟩)
              · exact hy2 k
              · rw [b1] at k
                rcases topAt_cases (xs := xs) (d := d) w hy'in done with c | ⟨c, -, -, c4, -⟩
                · exact hyp' (c.symm.trans (Option.some.inj k))
                · rw [← c, Option.some.inj k] at c4
                  exact hpl c4
          · rw [upd_ne _ _ hy2, upd_ne _ _ hy1, b2]
          · obtain ⟨c1, c2⟩ := b3 hne
            have hyf : y ≠ f := fun e => hyl (e ▸ hl)
            refine ⟨?_, by rw [upd_ne _ _ hyp, upd_ne _ _ hyf, c2]⟩
            rw [f7, if_neg, if_neg hyf, c1]
            rintro (k | ⟨-, k, -⟩)
            · exact hyp k
            · exact hy2 (Option.some.inj (c1.symm.trans k))
      · intro z hz hzl p' hp' hzt
        have hp'in := w.parent_in hz hp'
        rw [hT' p' hp'in] at hzt ⊢
        simp only
        have hzp : z ≠ p := fun e => hpl (e ▸ hzl)
        by_cases hpp : p' = p
        · subst hpp
          rw [if_pos rfl] at hzt ⊢
          have hzT : z ≠ topAt xs h d done p' := by rw [hTp]; exact hzp
          obtain ⟨b1, b2⟩ := m.marked z hz hzl p' hp' hzT
          rw [hTp] at b1
          refine ⟨?_, by rw [upd_ne _ _ hzp, upd_ne _ _ hzt, b2]⟩
          rw [f7, if_pos (.inr ⟨hz, b1, hzt⟩)]
        · rw [if_neg hpp] at hzt ⊢
          have hzf : z ≠ f := by
            rintro rfl
            rw [hp] at hp'
            exact hpp (Option.some.inj hp').symm
          obtain ⟨b1, b2⟩ := m.marked z hz hzl p' hp' hzt
          refine ⟨?_, by rw [upd_ne _ _ hzp, upd_ne _ _ hzf, b2]⟩
          rw [f7, if_neg, if_neg hzf, b1]
          rintro (k | ⟨-, k, -⟩)
          · exact hzp k
          · rw [b1] at k
            rcases topAt_cases (xs := xs) (d := d) w hp'in done with c | ⟨c, -, -, c4, -⟩
            · exact hpp (c.symm.trans (Option.some.inj k))
            · rw [← c, Option.some.inj k] at c4
              exact hpl c4
    · refine .inl ⟨headFinal_idle s1 hc, fun hux p' hp' ht => ?_⟩
      rcases topOf_cases (xs := xs) (d := d) w (.inr hp') with ⟨k, -⟩ | ⟨c1, c2, c3, c4, c5⟩
      · exact ht.symm.trans k
      · exfalso
        rw [ht] at c3 c4 c5
        have : p' = p := Option.some.inj (c3.symm.trans hp)
        subst this
        have hT : topAt xs h d done p' = p' := by
          unfold topAt
          rw [if_neg (by rw [ht]; exact hnd)]
        rw [hT, m.ord] at hc
        exact hc ⟨by rw [s2]; exact hux, c4⟩
  · refine .inl ⟨?_, fun k => absurd ⟨x, hx, k⟩ hl⟩
    obtain ⟨k1, k2, k3⟩ := m.plain n hn hl p hp
    by_cases hnt : topAt xs h d done n = n
    · rw [hnt] at k1 k2
      refine headFinal_idle k1 (fun k => hl ⟨x, hx, ?_⟩)
      rw [← k2]
      exact k.1
    · obtain ⟨k4, k5⟩ := k3 hnt
      refine headFinal_idle k4 (fun k => ?_)
      rw [m.ord] at k
      rcases topAt_cases (xs := xs) (d := d) w (.inr hn) done with e | ⟨e, -, -, -, -, hlt, -⟩
      · exact hnt e
      · rw [e] at k
        omega

theorem mid_run (hi : Inv h) (hr : IsTree h r) (hflat : Flat xs h d r) :
    ∃ s', headFinalTree xs (h, d) r = (s', none) ∧ Mid xs h d r (h.words r) s' := by
  have w := hi r hr
  refine forNodes_inv (fun s n => forNodes (fun s x => headFinal x s n) s xs) (fun done s => Mid xs h d r done s) (h.words r) ?_ (h, d) (mid_init hi hr)
  intro done n rest s hl m
  have hn : n ∈ h.words r := by rw [hl]; simp
  have hsort := aligned_pairwise w.aligned
  rw [hl, List.pairwise_append, List.pairwise_cons] at hsort
  have hnd : n ∉ done := fun k => Nat.lt_irrefl _ (hsort.2.2 n k n (List.mem_cons_self ..))
  have hbefore : ∀ z ∈ h.words r, h.ord z < h.ord n → z ∈ done := by
    intro z hz hlt
    rw [hl] at hz
    rcases List.mem_append.1 hz with k | k
    · exact k
    · rcases List.mem_cons.1 k with rfl | k
      · exact absurd hlt (Nat.lt_irrefl _)
      · exact absurd (hsort.2.1.1 z k) (by omega)
  have hbefore' : ∀ z ∈ h.words r, h.ord z ≤ h.ord n → z ∈ done ++ [n] := by
    intro z hz hle
    by_cases e : z = n
    · simp [e]
    · have : h.ord z ≠ h.ord n := fun k => e (w.ord_inj (.inr hz) (.inr hn) k)
      exact List.mem_append_left _ (hbefore z hz (by omega))
  obtain ⟨s', e, hq⟩ := forNodes_inv (fun s x => headFinal x s n) (fun ys s => Mid xs h d r (done ++ [n]) s ∨
      (Mid xs h d r done s ∧ ∀ y ∈ ys, getU (d n) = some y → ∀ p ∈ h.words r, topOf xs h d p = n → n = p)) xs (by
    rintro ys x rest s hxs (m | ⟨m, hy⟩)
    · exact ⟨s, mid_idle w hflat hn hbefore' m (by rw [hxs]; simp), .inl m⟩
    · rcases mid_step w hflat hn hnd hbefore m (x := x) (by rw [hxs]; simp) with ⟨e, k⟩ | ⟨s', e, k⟩
      · refine ⟨s, e, .inr ⟨m, fun y hyy => ?_⟩⟩
        rcases List.mem_append.1 hyy with c | c
        · exact hy y c
        · rw [List.mem_singleton.1 c]
          exact k
      · exact ⟨s', e, .inl k⟩) s (.inr ⟨m, fun _ k => absurd k List.not_mem_nil⟩)
  refine ⟨s', e, ?_⟩
  rcases hq with m' | ⟨m', hall⟩
  · exact m'
  · have hT : ∀ p, InTree h r p → topAt xs h d (done ++ [n]) p = topAt xs h d done p := by
      intro p hp
      unfold topAt
      by_cases hpn : topOf xs h d p = n
      · rcases topOf_cases (xs := xs) (d := d) w hp with ⟨k, -⟩ | ⟨-, ⟨x, hx, hux⟩, -, hlt, -⟩
        · rw [k]
          simp
        · have hpw : p ∈ h.words r := hp.resolve_left (fun e => by
            subst e
            rw [w.rootOrd] at hlt
            omega)
          rw [hpn] at hux
          have := hall x hx hux p hpw hpn
          rw [hpn, this]
          simp
      · simp [hpn]
    refine ⟨m'.inv, m'.tree, m'.words, m'.ord, ?_, ?_⟩
    · intro p hp hpl q hq
      rw [hT p (.inr hp), hT q (w.parent_in hp hq)]
      exact m'.plain p hp hpl q hq
    · intro z hz hzl p hp
      rw [hT p (w.parent_in hz hp)]
      exact m'.marked z hz hzl p hp

theorem top_eq (w : WF h r) {p t : Nat} (hp : InTree h r p) (ht : IsTop xs h d r p t) : topAt xs h d (h.words r) p = t := by
  have hinj : ∀ a ∈ h.words r, ∀ b ∈ h.words r, h.ord a = h.ord b → a = b := fun a ha b hb => w.ord_inj (.inr ha) (.inr hb)
  obtain ⟨ht1, ht2⟩ := ht
  rcases topOf_cases (xs := xs) (d := d) w hp with ⟨k, hge⟩ | ⟨c1, c2, c3, c4, c5⟩
  · have : topAt xs h d (h.words r) p = p := by
      unfold topAt
      rw [k]
      simp
    rw [this]
    rcases ht1 with e | ⟨e1, e2, e3, e4⟩
    · exact e.symm
    · exact absurd (hge t e1 e2 e3) (Nat.not_le.2 e4)
  · have : topAt xs h d (h.words r) p = topOf xs h d p := if_pos c1
    rw [this]
    have h1 := ht2 _ c1 c2 c3
    rcases ht1 with rfl | ⟨e1, e2, e3, e4⟩
    · omega
    · exact hinj _ c1 _ e1 (Nat.le_antisymm (c5 t e1 e2 e3) h1)

/-- If words with the relations depend on words without them: the leftmost of a word `p` and its dependents with the relations takes over the
relation of `p`, and depends on the leftmost of the parent of `p` and its dependents with the relations. The others depend on it; `p` exchanges
its relation with it. -/
theorem C146_structure_partial (hi : Inv h) (hr : IsTree h r) (hflat : Flat xs h d r) :
    ∃ h' d', headFinalTree xs (h, d) r = ((h', d'), none) ∧ WF h' r ∧ h'.words = h.words ∧ h'.ord = h.ord ∧
      (∀ p ∈ h.words r, ¬ Lab xs d p → ∀ q, h.parent p = some q → ∀ tp tq, IsTop xs h d r p tp → IsTop xs h d r q tq →
        h'.parent tp = some tq ∧ d' tp = d p ∧ (tp ≠ p → h'.parent p = some tp ∧ d' p = d tp)) ∧
      ∀ z ∈ h.words r, Lab xs d z → ∀ p, h.parent z = some p → ∀ tp, IsTop xs h d r p tp → z ≠ tp → h'.parent z = some tp ∧ d' z = d z := by
  have w := hi r hr
  obtain ⟨⟨h', d'⟩, e, m⟩ := mid_run hi hr hflat
  refine ⟨h', d', e, m.inv r m.tree, m.words, m.ord, ?_, ?_⟩
  · intro p hp hpl q hq tp tq htp htq
    have := m.plain p hp hpl q hq
    rw [top_eq w (.inr hp) htp, top_eq w (w.parent_in hp hq) htq] at this
    exact this
  · intro z hz hzl p hp tp htp hne
    have := m.marked z hz hzl p hp
    rw [top_eq w (w.parent_in hz hp) htp] at this
    exact this hne

/-- Every node has a leftmost dependent. -/
theorem isTop_exists (w : WF h r) {p : Nat} (hp : InTree h r p) : ∃ t, IsTop xs h d r p t := by
  rcases topOf_cases (xs := xs) (d := d) w hp with ⟨k, hge⟩ | ⟨c1, c2, c3, c4, c5⟩
  · exact ⟨p, .inl rfl, hge⟩
  · exact ⟨_, .inr ⟨c1, c2, c3, c4⟩, c5⟩

/-- Under the same condition every word with one of the relations follows its parent afterwards, and a second run changes nothing. -/
theorem C146_initial_partial (hi : Inv h) (hr : IsTree h r) (hflat : Flat xs h d r) :
    ∃ h' d', headFinalTree xs (h, d) r = ((h', d'), none) ∧
      (∀ z ∈ h.words r, Lab xs d' z → ∃ p, h'.parent z = some p ∧ h.ord p < h.ord z) ∧
      headFinalTree xs (h', d') r = ((h', d'), none) := by
  have w := hi r hr
  obtain ⟨⟨h', d'⟩, e, m⟩ := mid_run hi hr hflat
  have key : ∀ n ∈ h.words r, ∀ x ∈ xs, headFinal x (h', d') n = ((h', d'), none) :=
    fun n hn x hx => mid_idle w hflat hn (fun z hz _ => hz) m hx
  refine ⟨h', d', e, ?_, ?_⟩
  · intro z hz ⟨x, hx, hux⟩
    have w' := m.inv r m.tree
    have hz' : z ∈ h'.words r := by rw [m.words]; exact hz
    obtain ⟨p, hp, hpin⟩ := w'.parentIn z hz'
    refine ⟨p, hp, ?_⟩
    have ho : h'.ord = h.ord := m.ord
    rw [← ho]
    rcases Nat.lt_trichotomy (h'.ord p) (h'.ord z) with k | k | k
    · exact k
    · have := w'.ord_inj hpin (.inr hz') k
      subst this
      exact absurd (Anc.parent hp) (w'.anc_irrefl hpin)
    · -- the step would have changed the relation of `p`
      exfalso
      obtain ⟨h2, f, g, e2, -, -, -, -, f1, f2, -, f4, f5, f6, -, f7⟩ := headFinal_ok (d := d') m.inv m.tree hz' hp hux k
      rw [key z hz x hx] at e2
      have e3 : h' = h2 := congrArg (fun t => t.1.1) e2
      have e4 := f7 f
      rw [← e3, f2, if_neg (fun k => k.elim f6 (fun k => k.2.2 rfl)), if_pos rfl] at e4
      rw [← Option.some.inj e4] at f5
      exact w'.anc_irrefl (.inr f4) (.parent f5)
  · have hw : h'.words = h.words := m.words
    unfold headFinalTree
    simp only [hw]
    obtain ⟨s', e', hs'⟩ := forNodes_inv (fun s n => forNodes (fun s x => headFinal x s n) s xs) (fun _ s => s = (h', d')) (h.words r) (by
      rintro done n rest s hl rfl
      obtain ⟨s', e', hs'⟩ := forNodes_inv (fun s x => headFinal x s n) (fun _ s => s = (h', d')) xs (by
        rintro ys x rest' s hxs rfl
        exact ⟨_, key n (by rw [hl]; simp) x (by rw [hxs]; simp), rfl⟩) (h', d') rfl
      exact ⟨s', e', hs'⟩) (h', d') rfl
    rw [e', hs']

/-- If `a` and `b` are the only words with the relations, `a < b < c` and `a` depends on `b`, which depends on `c`: afterwards `a` still has one
of the relations and precedes its parent, which now is `c`. -/
theorem C146_nested_violated (hi : Inv h) (hr : IsTree h r) {a b c : Nat} (ha : a ∈ h.words r) (hb : b ∈ h.words r) (hab : h.ord a < h.ord b)
    (hbc : h.ord b < h.ord c) (hpa : h.parent a = some b) (hpb : h.parent b = some c) {x : Str} (hx : xs = [x])
    (hl : ∀ z ∈ h.words r, getU (d z) = some x ↔ z = a ∨ z = b) :
    ∃ h' d', headFinalTree xs (h, d) r = ((h', d'), none) ∧ h'.parent a = some c ∧ getU (d' a) = some x ∧ h'.ord a < h'.ord c := by
  subst hx
  have w := hi r hr
  have hane : a ≠ b := fun e => by rw [e] at hab; exact Nat.lt_irrefl _ hab
  have hac : a ≠ c := fun e => by rw [e] at hab; omega
  have hbne : b ≠ c := fun e => by rw [e] at hbc; exact Nat.lt_irrefl _ hbc
  have hsort := aligned_pairwise w.aligned
  obtain ⟨⟨h', d'⟩, e, -, -, -, o', -, k⟩ := forNodes_inv (fun s n => forNodes (fun s x => headFinal x s n) s [x]) (fun done s => Inv s.1 ∧ IsTree s.1 r ∧
      s.1.words = h.words ∧ s.1.ord = h.ord ∧ (a ∉ done → s = (h, d)) ∧
      (a ∈ done → s.1.parent a = some c ∧ s.1.parent b = some a ∧ getU (s.2 a) = some x ∧ ∀ z ∈ h.words r, z ≠ a → z ≠ b → ¬ getU (s.2 z) = some x))
    (h.words r) (by
    rintro done n rest ⟨s, ds⟩ hle ⟨i, t, w', o', hun, hdn⟩
    have hn : n ∈ h.words r := by rw [hle]; simp
    simp only at i t w' o' hun hdn
    have hone : ∀ s : Heap × Rels, forNodes (fun s x => headFinal x s n) s [x] = headFinal x s n := by
      intro s
      simp only [forNodes]
      match headFinal x s n with
      | (s', some e) => rfl
      | (s', none) => rfl
    simp only [hone]
    obtain ⟨p, hp, hpin⟩ := (i r t).parentIn n (by rw [w']; exact hn)
    by_cases had : a ∈ done
    · obtain ⟨d1, d2, d3, d4⟩ := hdn had
      refine ⟨(s, ds), headFinal_idle hp ?_, i, t, w', o', fun k => absurd (List.mem_append_left _ had) k, fun _ => ⟨d1, d2, d3, d4⟩⟩
      rintro ⟨k1, k2⟩
      simp only at k1 k2
      by_cases hnb : n = b
      · subst hnb
        rw [d2] at hp
        rw [← Option.some.inj hp, o'] at k2
        omega
      · refine d4 n hn ?_ hnb k1
        rintro rfl
        rw [hle] at hsort
        exact Nat.lt_irrefl _ ((List.pairwise_append.1 hsort).2.2 n had n (List.mem_cons_self ..))
    · obtain ⟨rfl, rfl⟩ := Prod.mk.inj (hun had)
      by_cases hna : n = a
      · subst hna
        obtain ⟨h', f, g, e, i', t', w'', o'', f1, f2, f3, -, f5, f6, f7, f8⟩ := headFinal_ok (d := ds) i t hn hpa ((hl n hn).2 (.inl rfl)) hab
        have hfn : f = n := by
          rcases (hl f f1).1 f3 with k | k
          · exact k
          · exact absurd k f6
        subst hfn
        rw [hpb] at f5
        obtain rfl := Option.some.inj f5
        refine ⟨_, e, i', t', w'', o'', fun k => absurd (by simp) k, fun _ => ⟨?_, ?_, ?_, ?_⟩⟩
        · simp only
          rw [f8, if_neg (fun k => k.elim hane (fun k => k.2.2 rfl)), if_pos rfl]
        · simp only
          rw [f8, if_pos (.inl rfl)]
        · simp only
          rw [upd_ne _ _ hane, upd_same]
          exact (hl b hb).2 (.inr rfl)
        · intro z hz hz1 hz2
          simp only
          rw [upd_ne _ _ hz2, upd_ne _ _ hz1]
          exact fun k => ((hl z hz).1 k).elim hz1 hz2
      · refine ⟨(s, ds), headFinal_idle hp ?_, i, t, rfl, rfl, fun _ => rfl, fun k => ?_⟩
        · rintro ⟨k1, k2⟩
          rcases (hl n hn).1 k1 with k | k
          · exact hna k
          · subst k
            -- `a` comes before `b`
            rw [hle] at ha hsort
            rcases List.mem_append.1 ha with k | k
            · exact had k
            · rcases List.mem_cons.1 k with k | k
              · exact hane k
              · have := (List.pairwise_cons.1 (List.pairwise_append.1 hsort).2.1).1 a k
                omega
        · rcases List.mem_append.1 k with k | k
          · exact absurd k had
          · exact absurd (List.mem_singleton.1 k).symm hna) (h, d)
    ⟨hi, hr, rfl, rfl, fun _ => rfl, fun k => absurd k List.not_mem_nil⟩
  obtain ⟨k1, -, k3, -⟩ := k ha
  simp only at o' k1 k3
  refine ⟨h', d', e, k1, k3, ?_⟩
  rw [o']
  omega

end Lemmas

def rFlat : Str := ['f', 'l', 'a', 't']
def rGoeswith : Str := ['g', 'o', 'e', 's', 'w', 'i', 't', 'h']

/-- Three words; 1 and 2 depend on 3. -/
def exHf : Heap := runOps Heap.init [.newTree, .createChild 0, .createChild 0, .createChild 0, .setParent 1 (some 3), .setParent 2 (some 3)]

example : let res := headFinalTree [rGoeswith, rFlat] (exHf, fun x => if x = 3 then some ['x'] else some rFlat) 0
    res.2 = none ∧ [1, 2, 3].map res.1.1.parent = [some 0, some 1, some 1] ∧ [1, 2, 3].map res.1.2 = [some ['x'], some rFlat, some rFlat] := by decide

example : Flat [rGoeswith, rFlat] exHf (fun x => if x = 3 then some ['x'] else some rFlat) 0 := by unfold Flat; decide

end Verif.Blocks.HeadFinal
