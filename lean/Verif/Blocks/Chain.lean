import Verif.Blocks.Basic

/-!
# Property C89: ud.FixChain (udapi/block/ud/fixchain.py)
-/

namespace Verif.Blocks
open Verif.Py Verif.Tree Verif.Deprel

/-- `if node.udeprel == deprel and node.parent.udeprel == deprel: node.parent = node.parent.parent` (fixchain.py:17-18) -/
def chainStep (d : Rels) (x : Nat) (h : Heap) (D : Str) : Heap × Option Err :=
  if getU (d x) = some D then
    match h.parent x with
    | none => (h, some .attributeError)
    | some p => if getU (d p) = some D then setParent h x (h.parent p) else (h, none)
  else (h, none)

/-- `ud.FixChain` on one tree (fixchain.py:15-18); `deprels` is the parameter split at commas. -/
def fixChain (deprels : List Str) (h : Heap) (d : Rels) (r : Nat) : Heap × Option Err :=
  forNodes (fun h x => forNodes (chainStep d x) h deprels) h (h.words r)

/-! ## Specification vocabulary -/

/-- `x` continues a chain: it and its parent have the same universal relation, one of `deprels`. -/
def Chained (deprels : List Str) (h : Heap) (d : Rels) (x : Nat) : Prop :=
  ∃ D ∈ deprels, ∃ p, h.parent x = some p ∧ getU (d x) = some D ∧ getU (d p) = some D

/-! ## Proofs -/

/-- What one step does. -/
theorem chainStep_spec {d : Rels} {r x : Nat} {D : Str} (hdr : getU (d r) ≠ some D) {h : Heap} {p : Nat} (hi : Inv h) (hr : IsTree h r)
    (hx : x ∈ h.words r) (hp : h.parent x = some p) :
    ∃ h' q, chainStep d x h D = (h', none) ∧ Inv h' ∧ IsTree h' r ∧ h'.words = h.words ∧ h'.ord = h.ord ∧ h'.root = h.root ∧
      h'.parent = upd h.parent x (some q) ∧
      (getU (d x) = some D ∧ getU (d p) = some D → h.parent p = some q) ∧
      (¬ (getU (d x) = some D ∧ getU (d p) = some D) → q = p) := by
  have w := hi r hr
  have hself : h.parent = upd h.parent x (some p) := by
    funext y
    unfold upd
    by_cases hy : y = x
    · rw [if_pos hy, hy, hp]
    · rw [if_neg hy]
  unfold chainStep
  by_cases hDx : getU (d x) = some D
  · rw [if_pos hDx, hp]
    simp only
    by_cases hDp : getU (d p) = some D
    · rw [if_pos hDp]
      have hpr : p ≠ r := fun e => hdr (e ▸ hDp)
      obtain ⟨g, hg, hgin, hgx, hga⟩ := lift_target w hx hp hpr
      obtain ⟨h1, e1, i1, t1, w1, r1, o1, p1⟩ := attach_one hi hr hx hgin hgx hga
      rw [hg]
      exact ⟨h1, g, e1, i1, t1, w1, o1, r1, p1, fun _ => rfl, fun hn => absurd ⟨hDx, hDp⟩ hn⟩
    · rw [if_neg hDp]
      exact ⟨h, p, rfl, hi, hr, rfl, rfl, rfl, hself, fun hc => absurd hc.2 hDp, fun _ => rfl⟩
  · rw [if_neg hDx]
    exact ⟨h, p, rfl, hi, hr, rfl, rfl, rfl, hself, fun hc => absurd hc.1 hDx, fun _ => rfl⟩

/-- The steps for one word, for a list of relations without repetition: one lift if the word continues a chain. -/
theorem chainWord_spec {d : Rels} {r x : Nat} : ∀ (Ds : List Str) (h : Heap) (p : Nat), (∀ D ∈ Ds, getU (d r) ≠ some D) → Ds.Nodup →
    Inv h → IsTree h r → x ∈ h.words r → h.parent x = some p →
    ∃ h' q, forNodes (chainStep d x) h Ds = (h', none) ∧ Inv h' ∧ IsTree h' r ∧ h'.words = h.words ∧ h'.ord = h.ord ∧ h'.root = h.root ∧
      h'.parent = upd h.parent x (some q) ∧
      ((∃ D ∈ Ds, getU (d x) = some D ∧ getU (d p) = some D) → h.parent p = some q) ∧
      (¬ (∃ D ∈ Ds, getU (d x) = some D ∧ getU (d p) = some D) → q = p)
  | [], h, p, _, _, hi, hr, hx, hp => by
    refine ⟨h, p, rfl, hi, hr, rfl, rfl, rfl, ?_, fun ⟨D, hD, _⟩ => absurd hD List.not_mem_nil, fun _ => rfl⟩
    funext y
    unfold upd
    by_cases hy : y = x
    · rw [if_pos hy, hy, hp]
    · rw [if_neg hy]
  | D :: Ds, h, p, hdr, hnd, hi, hr, hx, hp => by
    rw [List.nodup_cons] at hnd
    have w := hi r hr
    obtain ⟨h1, q1, e1, i1, t1, w1, o1, r1, p1, a1, b1⟩ := chainStep_spec (hdr D (List.mem_cons_self ..)) hi hr hx hp
    obtain ⟨h2, q2, e2, i2, t2, w2, o2, r2, p2, a2, b2⟩ := chainWord_spec Ds h1 q1 (fun E hE => hdr E (List.mem_cons_of_mem _ hE)) hnd.2 i1 t1
      (by rw [w1]; exact hx) (by rw [p1, upd_same])
    have hpp : h2.parent = upd h.parent x (some q2) := by
      rw [p2, p1]
      funext y
      unfold upd
      by_cases hy : y = x
      · rw [if_pos hy, if_pos hy]
      · rw [if_neg hy, if_neg hy, if_neg hy]
    have hrun : forNodes (chainStep d x) h (D :: Ds) = (h2, none) := by
      unfold forNodes
      rw [e1]
      exact e2
    refine ⟨h2, q2, hrun, i2, t2, by rw [w2, w1], by rw [o2, o1], by rw [r2, r1], hpp, ?_, ?_⟩
    · rintro ⟨E, hE, hEx, hEp⟩
      by_cases hED : E = D
      · subst hED
        have hq : q2 = q1 := b2 (fun ⟨F, hF, hFx, _⟩ => by
          rw [hEx] at hFx
          exact hnd.1 ((Option.some.inj hFx) ▸ hF))
        rw [hq]
        exact a1 ⟨hEx, hEp⟩
      · have hq1 : q1 = p := b1 (fun ⟨hDx, _⟩ => hED (by rw [hEx] at hDx; exact Option.some.inj hDx))
        have hE' : E ∈ Ds := (List.mem_cons.1 hE).resolve_left hED
        have := a2 ⟨E, hE', hEx, by rw [hq1]; exact hEp⟩
        rw [hq1, p1] at this
        have hpx : p ≠ x := fun e => w.anc_irrefl (.inr hx) (.parent (e ▸ hp))
        rwa [upd_ne _ _ hpx] at this
    · intro hno
      have hq1 : q1 = p := b1 (fun hc => hno ⟨D, List.mem_cons_self .., hc⟩)
      rw [b2 (fun ⟨F, hF, hFx, hFp⟩ => hno ⟨F, List.mem_cons_of_mem _ hF, hFx, by rw [← hq1]; exact hFp⟩), hq1]

/-- The whole block: every processed word was looked at once. -/
theorem fixChain_run {h : Heap} {r : Nat} (hi : Inv h) (hr : IsTree h r) (deprels : List Str) (hnd : deprels.Nodup) (d : Rels)
    (hdr : ∀ D ∈ deprels, getU (d r) ≠ some D) (P : List Nat → Heap → Prop) (h0 : P [] h)
    (hP : ∀ done x rest (k h' : Heap) p q, h.words r = done ++ x :: rest → k.words = h.words → k.ord = h.ord → Inv k → IsTree k r → P done k →
      (∀ y, y ∉ done → k.parent y = h.parent y) → k.parent x = some p →
      h'.parent = upd k.parent x (some q) →
      ((∃ D ∈ deprels, getU (d x) = some D ∧ getU (d p) = some D) → k.parent p = some q) →
      (¬ (∃ D ∈ deprels, getU (d x) = some D ∧ getU (d p) = some D) → q = p) → P (done ++ [x]) h') :
    ∃ h', fixChain deprels h d r = (h', none) ∧ Inv h' ∧ IsTree h' r ∧ h'.words = h.words ∧ h'.ord = h.ord ∧ h'.root = h.root ∧
      (∀ z, z ∉ h.words r → h'.parent z = h.parent z) ∧ P (h.words r) h' := by
  have w := hi r hr
  obtain ⟨h', e, i', t', w', o', r', out', p'⟩ := forNodes_inv (fun h x => forNodes (chainStep d x) h deprels)
    (fun done k => Inv k ∧ IsTree k r ∧ k.words = h.words ∧ k.ord = h.ord ∧ k.root = h.root ∧
      (∀ z, z ∉ done → k.parent z = h.parent z) ∧ P done k)
    (h.words r) (by
      intro done x rest k hl ⟨i1, t1, w1, o1, r1, out1, p1⟩
      have hx : x ∈ h.words r := by rw [hl]; simp
      have wk := i1 r t1
      have hxk : x ∈ k.words r := by rw [w1]; exact hx
      obtain ⟨p, hp, hpin⟩ := wk.parentIn x hxk
      obtain ⟨h2, q, e2, i2, t2, w2, o2, r2, p2, a2, b2⟩ := chainWord_spec deprels k p hdr hnd i1 t1 hxk hp
      refine ⟨h2, e2, i2, t2, by rw [w2, w1], by rw [o2, o1], by rw [r2, r1], ?_,
        hP done x rest k h2 p q hl w1 o1 i1 t1 p1 out1 hp p2 a2 b2⟩
      intro z hz
      have hzx : z ≠ x := fun e => hz (by rw [e]; simp)
      rw [p2, upd_ne _ _ hzx, out1 z (fun e => hz (List.mem_append_left _ e))])
    h ⟨hi, hr, rfl, rfl, rfl, fun _ _ => rfl, h0⟩
  exact ⟨h', e, i', t', w', o', r', out', p'⟩

/-- C89, the part that holds: ud.FixChain accepts every tree, keeps the words and their order and leaves a well-formed tree. If every
word that continues a chain follows its parent, no chain is left.
What is missing: chains whose words precede their parents. -/
theorem C89_left_headed_partial {h : Heap} {r : Nat} (hi : Inv h) (hr : IsTree h r) (deprels : List Str) (hnd : deprels.Nodup) (d : Rels)
    (hdr : ∀ D ∈ deprels, getU (d r) ≠ some D) :
    ∃ h', fixChain deprels h d r = (h', none) ∧ Inv h' ∧ h'.words = h.words ∧ h'.ord = h.ord ∧
      (∀ z, z ∉ h.words r → h'.parent z = h.parent z) ∧
      ((∀ x ∈ h.words r, Chained deprels h d x → ∀ p, h.parent x = some p → h.ord p < h.ord x) →
        ∀ x ∈ h.words r, ¬ Chained deprels h' d x) := by
  have w := hi r hr
  obtain ⟨h', e, i', t', w', o', r', out', p'⟩ := fixChain_run hi hr deprels hnd d hdr
    (fun done k => (∀ x ∈ h.words r, Chained deprels h d x → ∀ p, h.parent x = some p → h.ord p < h.ord x) →
      ∀ x ∈ done, ¬ Chained deprels k d x)
    (fun _ x hx => absurd hx List.not_mem_nil) (by
      intro done x rest k h' p q hl w1 o1 i1 t1 ihP out1 hp hpar a2 b2 hord y hy hch
      have ih := ihP hord
      have wk := i1 r t1
      have hx : x ∈ h.words r := by rw [hl]; simp
      have hxnd : x ∉ done := by
        have := w.nodup
        rw [hl, List.nodup_append] at this
        intro hm
        exact this.2.2 x hm x (List.mem_cons_self ..) rfl
      obtain ⟨E, hE, p', hp', hEy, hEp⟩ := hch
      by_cases hyx : y = x
      · subst hyx
        rw [hpar, upd_same] at hp'
        obtain rfl := Option.some.inj hp'
        by_cases hc : ∃ D ∈ deprels, getU (d y) = some D ∧ getU (d p) = some D
        · have hg := a2 hc
          obtain ⟨D, hD, hDy, hDp⟩ := hc
          have hph : h.parent y = some p := by rw [← out1 y hxnd]; exact hp
          have hlt := hord y hx ⟨D, hD, p, hph, hDy, hDp⟩ p hph
          have hpw : p ∈ h.words r := by
            refine (w.parent_in hx hph).resolve_left ?_
            intro e
            exact hdr D hD (e ▸ hDp)
          have hpd : p ∈ done := by
            have hs := aligned_pairwise w.aligned
            rw [hl] at hs hpw
            rw [List.pairwise_append] at hs
            rcases List.mem_append.1 hpw with h1 | h1
            · exact h1
            · rcases List.mem_cons.1 h1 with e | h2
              · exact absurd (e ▸ hlt) (Nat.lt_irrefl _)
              · have := (List.pairwise_cons.1 hs.2.1).1 p h2
                omega
          refine ih p hpd ⟨E, hE, q, hg, ?_, hEp⟩
          rw [hDy] at hEy
          rw [← hEy, hDp]
        · have := b2 hc
          subst this
          exact hc ⟨E, hE, hEy, hEp⟩
      · rw [hpar, upd_ne _ _ hyx] at hp'
        rw [List.mem_append, List.mem_singleton] at hy
        exact ih y (hy.resolve_right hyx) ⟨E, hE, p', hp', hEy, hEp⟩)
  exact ⟨h', e, i', w', o', out', p'⟩

/-- C89 does not hold: a word that precedes its parent in a chain of three is lifted once only, so it still continues a chain, in
every tree. -/
theorem C89_right_headed_violated {h : Heap} {r : Nat} (hi : Inv h) (hr : IsTree h r) (deprels : List Str) (hnd : deprels.Nodup) (d : Rels)
    (hdr : ∀ D ∈ deprels, getU (d r) ≠ some D) {D : Str} (hD : D ∈ deprels) {a b c : Nat} (hc : c ∈ h.words r)
    (hcb : h.parent c = some b) (hba : h.parent b = some a) (hlt : h.ord c < h.ord b)
    (ha : getU (d a) = some D) (hb : getU (d b) = some D) (hcD : getU (d c) = some D) :
    ∃ h', fixChain deprels h d r = (h', none) ∧ h'.parent c = some a ∧ Chained deprels h' d c := by
  have w := hi r hr
  have hbw : b ∈ h.words r := by
    refine (w.parent_in hc hcb).resolve_left ?_
    intro e
    exact hdr D hD (e ▸ hb)
  obtain ⟨h', e, _, _, _, _, _, _, p'⟩ := fixChain_run hi hr deprels hnd d hdr
    (fun done k => c ∈ done → k.parent c = some a)
    (fun hx => absurd hx List.not_mem_nil) (by
      intro done x rest k h' p q hl w1 o1 i1 t1 ih out1 hp hpar a2 b2 hm
      rw [hpar]
      by_cases hx : c = x
      · subst hx
        rw [upd_same]
        have hsorted := aligned_pairwise w.aligned
        rw [hl, List.pairwise_append] at hsorted
        have hbd : b ∉ done := by
          intro hb'
          have := hsorted.2.2 b hb' c (List.mem_cons_self ..)
          omega
        have hcd : c ∉ done := by
          intro hb'
          have := hsorted.2.2 c hb' c (List.mem_cons_self ..)
          omega
        rw [out1 c hcd, hcb] at hp
        obtain rfl := Option.some.inj hp
        rw [← a2 ⟨D, hD, hcD, hb⟩, out1 b hbd, hba]
      · rw [upd_ne _ _ hx]
        rw [List.mem_append, List.mem_singleton] at hm
        exact ih (hm.resolve_right hx))
  exact ⟨h', e, p' hc, D, hD, a, p' hc, hcD, ha⟩

def sFlat : Str := ['f', 'l', 'a', 't']
def sFixed : Str := ['f', 'i', 'x', 'e', 'd']
def sFlatName : Str := ['f', 'l', 'a', 't', ':', 'n', 'a', 'm', 'e']

/-- Four words, each depending on the one before. -/
def exLine : Heap := createChild (createChild (createChild (createChild (newTree Heap.init) 0) 1) 2) 3

def exLineRels : Rels := fun x => if x = 0 ∨ x = 1 then none else if x = 3 then some sFlatName else some sFlat

example : (fixChain [sFixed, sFlat] exLine exLineRels 0).1.children 1 = [2, 3, 4] ∧ Chained [sFixed, sFlat] exLine exLineRels 3 :=
  ⟨by decide +kernel, sFlat, by decide, 2, by decide +kernel, by decide, by decide⟩

/-- Four words, each depending on the one after. -/
def exBack : Heap := (setParent (setParent (setParent
  (createChild (createChild (createChild (createChild (newTree Heap.init) 0) 0) 0) 0) 3 (some 4)).1 2 (some 3)).1 1 (some 2)).1

def exBackRels : Rels := fun x => if x = 0 ∨ x = 4 then none else some sFlat

example : exBack.words 0 = [1, 2, 3, 4] ∧ exBack.parent 1 = some 2 ∧ (fixChain [sFixed, sFlat] exBack exBackRels 0).1.parent 1 = some 3 ∧
    (fixChain [sFixed, sFlat] exBack exBackRels 0).1.parent 3 = some 4 := by decide +kernel

end Verif.Blocks
