import Verif.Blocks.Basic

/-!
# Property C93: ud.FixRightheaded (udapi/block/ud/fixrightheaded.py)

Simplified: `node.precedes(node.parent)` compares ords, as both nodes are in the same tree (node.py:753-754).
-/

namespace Verif.Blocks
open Verif.Py Verif.Tree Verif.Deprel

def rConj : Str := ['c', 'o', 'n', 'j']

/-- The body of the loop over relations (fixrightheaded.py:24-33). -/
def rightStep (x : Nat) (s : Heap × Rels) (D : Str) : (Heap × Rels) × Option Err :=
  if getU (s.2 x) = some D then
    match s.1.parent x with
    | none => (s, some .attributeError)
    | some o =>
      if s.1.ord x < s.1.ord o then
        match setParent s.1 x (s.1.parent o) with
        | (h1, some e) => ((h1, s.2), some e)
        | (h1, none) =>
          match (if D ≠ rConj then forNodes (fun h c => setParent h c (some x)) h1 (h1.children o) else (h1, none)) with
          | (h2, some e) => ((h2, s.2), some e)
          | (h2, none) =>
            match setParent h2 o (some x) with
            | (h3, some e) => ((h3, s.2), some e)
            | (h3, none) => ((h3, upd (upd s.2 o (s.2 x)) x (s.2 o)), none)
      else (s, none)
  else (s, none)

/-- `ud.FixRightheaded` on one tree (fixrightheaded.py:22-33); `deprels` is the parameter split at commas. -/
def fixRightheaded (deprels : List Str) (h : Heap) (d : Rels) (r : Nat) : (Heap × Rels) × Option Err :=
  forNodes (fun s x => forNodes (rightStep x) s deprels) (h, d) (h.words r)

/-! ## Specification vocabulary -/

/-- `x` has one of the relations `deprels`, and its parent follows it. -/
def HeadRight (deprels : List Str) (h : Heap) (d : Rels) (x : Nat) : Prop :=
  ∃ D ∈ deprels, getU (d x) = some D ∧ ∃ p, h.parent x = some p ∧ h.ord x < h.ord p

/-- No word with one of the relations `deprels` depends on a word with one of them. -/
def NoChain (deprels : List Str) (h : Heap) (d : Rels) (r : Nat) : Prop :=
  ∀ x ∈ h.words r, ∀ D ∈ deprels, getU (d x) = some D → ∀ p, h.parent x = some p → ∀ E ∈ deprels, getU (d p) ≠ some E

/-! ## Proofs -/

/-- The words of `cs`, children of `o`, are attached to a sibling `x` of `o`. -/
theorem attach_siblings {r o x g : Nat} : ∀ (cs : List Nat) (h : Heap), Inv h → IsTree h r → x ∈ h.words r → o ∈ h.words r → x ≠ o →
    cs.Nodup → h.parent x = some g → h.parent o = some g → (∀ c ∈ cs, c ∈ h.words r ∧ h.parent c = some o) →
    ∃ h', forNodes (fun h c => setParent h c (some x)) h cs = (h', none) ∧ Inv h' ∧ IsTree h' r ∧ h'.words = h.words ∧ h'.ord = h.ord ∧
      h'.root = h.root ∧ ∀ z, h'.parent z = if z ∈ cs then some x else h.parent z
  | [], h, hi, hr, _, _, _, _, _, _, _ => ⟨h, rfl, hi, hr, rfl, rfl, rfl, fun z => by simp⟩
  | c :: cs, h, hi, hr, hx, ho, hxo, hn, hpx, hpo, hcs => by
    rw [List.nodup_cons] at hn
    have w := hi r hr
    obtain ⟨hc, hpc⟩ := hcs c (List.mem_cons_self ..)
    have hgo : g ≠ o := fun e => w.anc_irrefl (.inr ho) (.parent (e ▸ hpo))
    have hcx : x ≠ c := by
      rintro rfl
      rw [hpx] at hpc
      exact hgo (Option.some.inj hpc)
    have hanc : ¬ Anc h c x := by
      intro ha
      rcases anc_iff.1 ha with ⟨q, hq, e⟩
      rw [hpx] at hq
      obtain rfl := Option.some.inj hq
      have hcg : Anc h c o := by
        rcases e with rfl | e
        · exact .parent hpo
        · exact .step hpo e
      exact w.anc_irrefl (.inr hc) (.step hpc hcg)
    obtain ⟨h1, e1, i1, t1, w1, r1, o1, p1⟩ := attach_one hi hr hc (.inr hx) hcx hanc
    have hoc : o ≠ c := by
      rintro rfl
      exact w.anc_irrefl (.inr ho) (.parent hpc)
    obtain ⟨h2, e2, i2, t2, w2, o2, r2, p2⟩ := attach_siblings cs h1 i1 t1 (by rw [w1]; exact hx) (by rw [w1]; exact ho) hxo hn.2
      (by rw [p1, upd_ne _ _ hcx, hpx]) (by rw [p1, upd_ne _ _ hoc, hpo]) (fun z hz => by
        have := hcs z (List.mem_cons_of_mem _ hz)
        exact ⟨by rw [w1]; exact this.1, by rw [p1, upd_ne _ _ (fun e : z = c => hn.1 (e ▸ hz)), this.2]⟩)
    refine ⟨h2, ?_, i2, t2, by rw [w2, w1], by rw [o2, o1], by rw [r2, r1], ?_⟩
    · unfold forNodes
      rw [e1]
      exact e2
    · intro z
      rw [p2, p1]
      by_cases hz : z = c
      · subst hz
        rw [if_neg hn.1, upd_same, if_pos (List.mem_cons_self ..)]
      · rw [upd_ne _ _ hz]
        simp [hz]

/-- One step either does nothing, or exchanges `x` and its parent `o`. -/
theorem rightStep_spec {r x : Nat} {D : Str} {h : Heap} {d : Rels} (hi : Inv h) (hr : IsTree h r) (hx : x ∈ h.words r) :
    (rightStep x (h, d) D = ((h, d), none) ∧ ¬ (getU (d x) = some D ∧ ∃ o, h.parent x = some o ∧ h.ord x < h.ord o)) ∨
    ∃ h' o g, rightStep x (h, d) D = ((h', upd (upd d o (d x)) x (d o)), none) ∧ getU (d x) = some D ∧ h.parent x = some o ∧
      o ∈ h.words r ∧ h.parent o = some g ∧ h.ord x < h.ord o ∧ Inv h' ∧ IsTree h' r ∧ h'.words = h.words ∧ h'.ord = h.ord ∧ h'.root = h.root ∧
      h'.parent x = some g ∧ h'.parent o = some x ∧
      (∀ z ∈ h.words r, z ≠ x → h.parent z = some o → h'.parent z = if D ≠ rConj then some x else some o) ∧
      (∀ z, z ≠ x → z ≠ o → (z ∉ h.words r ∨ h.parent z ≠ some o) → h'.parent z = h.parent z) := by
  have w := hi r hr
  obtain ⟨o, ho, hoin⟩ := w.parentIn x hx
  by_cases hD : getU (d x) = some D
  · by_cases hlt : h.ord x < h.ord o
    · right
      have hor : o ≠ r := by
        rintro rfl
        rw [w.rootOrd] at hlt
        omega
      have how : o ∈ h.words r := hoin.resolve_left hor
      obtain ⟨g, hg, hgin, hgx, hga⟩ := lift_target w hx ho hor
      have hxo : x ≠ o := by
        rintro rfl
        omega
      have hgo : g ≠ o := fun e => w.anc_irrefl (.inr how) (.parent (e ▸ hg))
      obtain ⟨h1, e1, i1, t1, w1, r1, o1, p1⟩ := attach_one hi hr hx hgin hgx hga
      have wf1 := i1 r t1
      have how1 : o ∈ h1.words r := by rw [w1]; exact how
      have hch : ∀ c, c ∈ h1.children o ↔ c ∈ h.words r ∧ c ≠ x ∧ h.parent c = some o := by
        intro c
        rw [wf1.childIff o (.inr how1), w1, p1]
        by_cases hc : c = x
        · subst hc
          rw [upd_same]
          constructor
          · rintro ⟨_, h2⟩; exact absurd (Option.some.inj h2) hgo
          · rintro ⟨_, h2, _⟩; exact absurd rfl h2
        · rw [upd_ne _ _ hc]
          simp [hc]
      have hmid : ∃ h2, (if D ≠ rConj then forNodes (fun h c => setParent h c (some x)) h1 (h1.children o) else (h1, none)) = (h2, none) ∧
          Inv h2 ∧ IsTree h2 r ∧ h2.words = h1.words ∧ h2.ord = h1.ord ∧ h2.root = h1.root ∧
          ∀ z, h2.parent z = if D ≠ rConj ∧ z ∈ h1.children o then some x else h1.parent z := by
        by_cases hcj : D = rConj
        · refine ⟨h1, by rw [if_neg (fun h => h hcj)], i1, t1, rfl, rfl, rfl, fun z => by simp [hcj]⟩
        · rw [if_pos hcj]
          obtain ⟨h2, e2, i2, t2, w2, o2, r2, p2⟩ := attach_siblings (x := x) (o := o) (g := g) (h1.children o) h1 i1 t1
            (by rw [w1]; exact hx) how1 hxo (wf1.children_nodup (.inr how1)) (by rw [p1, upd_same])
            (by rw [p1, upd_ne _ _ (Ne.symm hxo), hg]) (fun c hc => (wf1.childIff o (.inr how1) c).1 hc)
          exact ⟨h2, e2, i2, t2, w2, o2, r2, fun z => by rw [p2]; simp [hcj]⟩
      obtain ⟨h2, e2, i2, t2, w2, o2, r2, p2⟩ := hmid
      have wf2 := i2 r t2
      have hpx2 : h2.parent x = some g := by
        rw [p2, if_neg (fun hc => ((hch x).1 hc.2).2.1 rfl), p1, upd_same]
      have hpo2 : h2.parent o = some g := by
        rw [p2, if_neg (fun hc => ?_), p1, upd_ne _ _ (Ne.symm hxo), hg]
        exact w.anc_irrefl (.inr how) (.parent ((hch o).1 hc.2).2.2)
      have hanc : ¬ Anc h2 o x := by
        intro ha
        rcases anc_iff.1 ha with ⟨q, hq, e⟩
        rw [hpx2] at hq
        obtain rfl := Option.some.inj hq
        rcases e with e | e
        · exact hgo e
        · exact wf2.anc_irrefl (.inr (by rw [w2, w1]; exact how)) (.step hpo2 e)
      obtain ⟨h3, e3, i3, t3, w3, r3, o3, p3⟩ := attach_one i2 t2 (x := o) (p := x) (by rw [w2, w1]; exact how)
        (.inr (by rw [w2, w1]; exact hx)) hxo hanc
      refine ⟨h3, o, g, ?_, hD, ho, how, hg, hlt, i3, t3, by rw [w3, w2, w1], by rw [o3, o2, o1], by rw [r3, r2, r1], ?_, ?_, ?_, ?_⟩
      · unfold rightStep
        simp only
        rw [if_pos hD, ho]
        simp only
        rw [if_pos hlt, hg, e1]
        simp only
        rw [e2]
        simp only
        rw [e3]
      · rw [p3, upd_ne _ _ hxo, hpx2]
      · rw [p3, upd_same]
      · intro z hz hzx hzo
        have hzo' : z ≠ o := by
          rintro rfl
          exact w.anc_irrefl (.inr hz) (.parent hzo)
        rw [p3, upd_ne _ _ hzo', p2]
        by_cases hcj : D = rConj
        · rw [if_neg (fun h => h.1 hcj), p1, upd_ne _ _ hzx, hzo, if_neg (fun h => h hcj)]
        · rw [if_pos ⟨hcj, (hch z).2 ⟨hz, hzx, hzo⟩⟩, if_pos hcj]
      · intro z hzx hzo hz
        rw [p3, upd_ne _ _ hzo, p2, if_neg, p1, upd_ne _ _ hzx]
        rintro ⟨_, hc⟩
        have := (hch z).1 hc
        rcases hz with h | h
        · exact h this.1
        · exact h this.2.2
    · left
      refine ⟨?_, ?_⟩
      · unfold rightStep
        simp only
        rw [if_pos hD, ho]
        simp only
        rw [if_neg hlt]
      · rintro ⟨_, o', ho', hlt'⟩
        rw [ho] at ho'
        obtain rfl := Option.some.inj ho'
        exact hlt hlt'
  · left
    refine ⟨?_, fun h => hD h.1⟩
    unfold rightStep
    simp only
    rw [if_neg hD]

/-- The whole block, for an invariant `P` of single steps. -/
theorem right_run {h : Heap} {r : Nat} (hi : Inv h) (hr : IsTree h r) (deprels : List Str) (d : Rels) (P : Heap → Rels → Prop) (l : List Nat)
    (hl : ∀ x ∈ l, x ∈ h.words r) (h0 : P h d)
    (hP : ∀ x ∈ l, ∀ D ∈ deprels, ∀ (k : Heap) (c : Rels), Inv k → IsTree k r → k.words = h.words → k.ord = h.ord → P k c →
      ∀ k' c', rightStep x (k, c) D = ((k', c'), none) → P k' c') :
    ∃ h' d', forNodes (fun s x => forNodes (rightStep x) s deprels) (h, d) l = ((h', d'), none) ∧ Inv h' ∧ IsTree h' r ∧ h'.words = h.words ∧
      h'.ord = h.ord ∧ h'.root = h.root ∧ P h' d' := by
  obtain ⟨⟨h', d'⟩, e, i', t', w', o', r', p'⟩ := forNodes_inv (fun s x => forNodes (rightStep x) s deprels)
    (fun _ (s : Heap × Rels) => Inv s.1 ∧ IsTree s.1 r ∧ s.1.words = h.words ∧ s.1.ord = h.ord ∧ s.1.root = h.root ∧ P s.1 s.2)
    l (by
      intro done x rest s hl' hs
      have hxl : x ∈ l := by rw [hl']; simp
      have hx := hl x hxl
      exact forNodes_inv (rightStep x)
        (fun _ (s : Heap × Rels) => Inv s.1 ∧ IsTree s.1 r ∧ s.1.words = h.words ∧ s.1.ord = h.ord ∧ s.1.root = h.root ∧ P s.1 s.2)
        deprels (by
          intro done D rest s hl' ⟨i1, t1, w1, o1, r1, p1⟩
          have hD : D ∈ deprels := by rw [hl']; simp
          rcases rightStep_spec (D := D) (d := s.2) i1 t1 (by rw [w1]; exact hx) with ⟨e1, _⟩ |
            ⟨k', o, g, e1, _, _, _, _, _, i2, t2, w2, o2, r2, _⟩
          · exact ⟨(s.1, s.2), e1, i1, t1, w1, o1, r1, hP x hxl D hD s.1 s.2 i1 t1 w1 o1 p1 _ _ e1⟩
          · exact ⟨_, e1, i2, t2, by rw [w2, w1], by rw [o2, o1], by rw [r2, r1], hP x hxl D hD s.1 s.2 i1 t1 w1 o1 p1 _ _ e1⟩)
        s hs)
    (h, d) ⟨hi, hr, rfl, rfl, rfl, h0⟩
  exact ⟨h', d', e, i', t', w', o', r', p'⟩

/-- C93, the part that holds for every tree: ud.FixRightheaded keeps the words and their order and leaves a well-formed tree.
What is missing: that no head follows its dependent (see below). -/
theorem C93_wf_partial {h : Heap} {r : Nat} (hi : Inv h) (hr : IsTree h r) (deprels : List Str) (d : Rels) :
    ∃ h' d', fixRightheaded deprels h d r = ((h', d'), none) ∧ Inv h' ∧ IsTree h' r ∧ h'.words = h.words ∧ h'.ord = h.ord ∧
      h'.root = h.root := by
  obtain ⟨h', d', e, i', t', w', o', r', _⟩ := right_run hi hr deprels d (fun _ _ => True) (h.words r) (fun _ h => h) trivial
    (fun _ _ _ _ _ _ _ _ _ _ _ _ _ _ => trivial)
  exact ⟨h', d', e, i', t', w', o', r'⟩

/-- C93 for trees without chains and for relations other than `conj`: after the block no word with one of the relations precedes its
parent. -/
theorem C93_head_initial_partial {h : Heap} {r : Nat} (hi : Inv h) (hr : IsTree h r) (deprels : List Str) (hcj : rConj ∉ deprels) (d : Rels)
    (hch : NoChain deprels h d r) :
    ∃ h' d', fixRightheaded deprels h d r = ((h', d'), none) ∧ ∀ x ∈ h.words r, ¬ HeadRight deprels h' d' x := by
  have w := hi r hr
  obtain ⟨⟨h', d'⟩, e, _, _, _, _, _, p'⟩ := forNodes_inv (fun s x => forNodes (rightStep x) s deprels)
    (fun done (s : Heap × Rels) => Inv s.1 ∧ IsTree s.1 r ∧ s.1.words = h.words ∧ s.1.ord = h.ord ∧ NoChain deprels s.1 s.2 r ∧
      ∀ z ∈ done, ¬ HeadRight deprels s.1 s.2 z)
    (h.words r) (by
      intro done x rest s hl hs
      have hx : x ∈ h.words r := by rw [hl]; simp
      have hsorted := aligned_pairwise w.aligned
      rw [hl, List.pairwise_append] at hsorted
      have hdone : ∀ z ∈ done, h.ord z < h.ord x := fun z hz => hsorted.2.2 z hz x (List.mem_cons_self ..)
      have hdw : ∀ z ∈ done, z ∈ h.words r := fun z hz => by rw [hl]; exact List.mem_append_left _ hz
      obtain ⟨s', e', i', t', w', o', c', a', b'⟩ := forNodes_inv (rightStep x)
        (fun Ds (s : Heap × Rels) => Inv s.1 ∧ IsTree s.1 r ∧ s.1.words = h.words ∧ s.1.ord = h.ord ∧ NoChain deprels s.1 s.2 r ∧
          (∀ z ∈ done, ¬ HeadRight deprels s.1 s.2 z) ∧
          ∀ D ∈ Ds, ¬ (getU (s.2 x) = some D ∧ ∃ o, s.1.parent x = some o ∧ s.1.ord x < s.1.ord o))
        deprels (by
          intro Ds D more ⟨k, c⟩ hl' ⟨i1, t1, w1, o1, c1, a1, b1⟩
          simp only at i1 t1 w1 o1 c1 a1 b1
          have hD : D ∈ deprels := by rw [hl']; simp
          have wk := i1 r t1
          rcases rightStep_spec (D := D) (d := c) i1 t1 (by rw [w1]; exact hx) with ⟨e1, hno⟩ |
            ⟨k', o, g, e1, hDx, hpo, how, hpg, hlt, i2, t2, w2, o2, _, px, po, pc, pn⟩
          · refine ⟨_, e1, i1, t1, w1, o1, c1, a1, ?_⟩
            intro E hE
            rcases List.mem_append.1 hE with hE | hE
            · exact b1 E hE
            · rw [List.mem_singleton] at hE
              rw [hE]
              exact hno
          · have hxo : x ≠ o := by
              rintro rfl
              omega
            have hxk : x ∈ k.words r := by rw [w1]; exact hx
            have hcx : ∀ E ∈ deprels, getU (c o) ≠ some E := c1 x hxk D hD hDx o hpo
            have hdo : upd (upd c o (c x)) x (c o) o = c x := by rw [upd_ne _ _ (Ne.symm hxo), upd_same]
            have hdx : upd (upd c o (c x)) x (c o) x = c o := upd_same ..
            have hdz : ∀ z, z ≠ x → z ≠ o → upd (upd c o (c x)) x (c o) z = c z := fun z h1 h2 => by rw [upd_ne _ _ h1, upd_ne _ _ h2]
            have hDc : D ≠ rConj := fun e => hcj (e ▸ hD)
            refine ⟨_, e1, i2, t2, by rw [w2, w1], by rw [o2, o1], ?_, ?_, ?_⟩
            · intro z hz E hE hEz p hp F hF
              simp only at hEz hp ⊢
              rw [w2] at hz
              by_cases hzx : z = x
              · subst hzx
                rw [hdx] at hEz
                exact absurd hEz (hcx E hE)
              · by_cases hzo : z = o
                · subst hzo
                  rw [po] at hp
                  obtain rfl := Option.some.inj hp
                  rw [hdx]
                  exact hcx F hF
                · rw [hdz z hzx hzo] at hEz
                  by_cases hzp : k.parent z = some o
                  · rw [pc z hz hzx hzp, if_pos hDc] at hp
                    obtain rfl := Option.some.inj hp
                    rw [hdx]
                    exact hcx F hF
                  · rw [pn z hzx hzo (.inr hzp)] at hp
                    by_cases hpx : p = x
                    · subst hpx
                      rw [hdx]
                      exact hcx F hF
                    · have hpo' : p ≠ o := fun e => hzp (e ▸ hp)
                      rw [hdz p hpx hpo']
                      exact c1 z hz E hE hEz p hp F hF
            · intro z hz ⟨E, hE, hEz, p, hp, hlt'⟩
              simp only at hEz hp hlt'
              rw [o2] at hlt'
              have hzw : z ∈ k.words r := by rw [w1]; exact hdw z hz
              have hzx : z ≠ x := by
                rintro rfl
                exact absurd (hdone z hz) (Nat.lt_irrefl _)
              have hzo : z ≠ o := by
                rintro rfl
                have := hdone z hz
                rw [o1] at hlt
                omega
              rw [hdz z hzx hzo] at hEz
              by_cases hzp : k.parent z = some o
              · refine a1 z hz ⟨E, hE, hEz, o, hzp, ?_⟩
                have := hdone z hz
                rw [o1] at hlt ⊢
                omega
              · rw [pn z hzx hzo (.inr hzp)] at hp
                exact a1 z hz ⟨E, hE, hEz, p, hp, hlt'⟩
            · intro E hE hc
              have hEd : E ∈ deprels := by
                rw [hl']
                rcases List.mem_append.1 hE with h | h
                · exact List.mem_append_left _ h
                · rw [List.mem_singleton] at h
                  rw [h]
                  simp
              simp only at hc
              rw [hdx] at hc
              exact hcx E hEd hc.1)
        s ⟨hs.1, hs.2.1, hs.2.2.1, hs.2.2.2.1, hs.2.2.2.2.1, hs.2.2.2.2.2, fun D hD => absurd hD List.not_mem_nil⟩
      refine ⟨s', e', i', t', w', o', c', ?_⟩
      intro z hz ⟨D, hD, hDz, p, hp, hlt⟩
      rw [List.mem_append, List.mem_singleton] at hz
      rcases hz with hz | rfl
      · exact a' z hz ⟨D, hD, hDz, p, hp, hlt⟩
      · exact b' D hD ⟨hDz, p, hp, hlt⟩)
    (h, d) ⟨hi, hr, rfl, rfl, hch, fun x hx => absurd hx List.not_mem_nil⟩
  exact ⟨h', d', e, p'⟩

/-- What the exchange of `x` and its parent `o` does. -/
def Exchanged (h : Heap) (d : Rels) (r x o : Nat) (s : Heap × Rels) : Prop :=
  s.1.parent x = h.parent o ∧ s.1.parent o = some x ∧
  (∀ z ∈ h.words r, z ≠ x → h.parent z = some o → s.1.parent z = if getU (d x) ≠ some rConj then some x else some o) ∧
  (∀ z, z ≠ x → z ≠ o → (z ∉ h.words r ∨ h.parent z ≠ some o) → s.1.parent z = h.parent z) ∧
  s.2 x = d o ∧ s.2 o = d x ∧ ∀ z, z ≠ x → z ≠ o → s.2 z = d z

/-- C93 for one word: if `x` is the only word that precedes its parent `o` and has one of the relations, and `o` has none of them, then
`x` takes the place and the relation of `o`, and `o` depends on `x` with the former relation of `x`. The other dependents of `o` move to
`x`, but stay if the relation is `conj`. Nothing else changes. -/
theorem C93_exchange_partial {h : Heap} {r : Nat} (hi : Inv h) (hr : IsTree h r) (deprels : List Str) (d : Rels) {x o : Nat} (hx : x ∈ h.words r)
    (hpo : h.parent x = some o) (hright : HeadRight deprels h d x) (honly : ∀ z ∈ h.words r, HeadRight deprels h d z → z = x)
    (hdo : ∀ D ∈ deprels, getU (d o) ≠ some D) :
    ∃ s, fixRightheaded deprels h d r = (s, none) ∧ Exchanged h d r x o s := by
  have w := hi r hr
  obtain ⟨D, hD, hDx, o', ho', hlt⟩ := hright
  rw [hpo] at ho'
  obtain rfl := Option.some.inj ho'
  obtain ⟨s, e, _, _, hs⟩ := forNodes_inv (fun s y => forNodes (rightStep y) s deprels)
    (fun done (s : Heap × Rels) => Inv s.1 ∧ IsTree s.1 r ∧ (x ∉ done → s = (h, d)) ∧
      (x ∈ done → Exchanged h d r x o s ∧ s.1.words = h.words ∧ s.1.ord = h.ord))
    (h.words r) (by
      intro done y rest s hl ⟨is, ts, hbefore, hafter⟩
      have hy : y ∈ h.words r := by rw [hl]; simp
      -- a word that is no candidate changes nothing
      have noop : ∀ (k : Heap) (c : Rels) (l : List Str), Inv k → IsTree k r → y ∈ k.words r → (∀ E ∈ l, E ∈ deprels) →
          ¬ HeadRight deprels k c y → forNodes (rightStep y) (k, c) l = ((k, c), none) := by
        intro k c l ik tk hyk
        induction l with
        | nil => exact fun _ _ => rfl
        | cons E l ih =>
          intro hsub hno
          unfold forNodes
          rcases rightStep_spec (D := E) (d := c) ik tk hyk with ⟨e1, _⟩ | ⟨k', o', g, e1, hE, hp, _, _, hlt', _⟩
          · rw [e1]
            exact ih (fun F hF => hsub F (List.mem_cons_of_mem _ hF)) hno
          · exact absurd ⟨E, hsub E (List.mem_cons_self ..), hE, o', hp, hlt'⟩ hno
      by_cases hyx : y = x
      · subst hyx
        have hnd := w.nodup
        rw [hl, List.nodup_append] at hnd
        have hyd : y ∉ done := fun hm => hnd.2.2 y hm y (List.mem_cons_self ..) rfl
        obtain rfl := hbefore hyd
        obtain ⟨s', e', i', t', b', a'⟩ := forNodes_inv (rightStep y)
          (fun Ds (s : Heap × Rels) => Inv s.1 ∧ IsTree s.1 r ∧ (D ∉ Ds → s = (h, d)) ∧
            (D ∈ Ds → Exchanged h d r y o s ∧ s.1.words = h.words ∧ s.1.ord = h.ord))
          deprels (by
            intro Ds E more ⟨k, c⟩ hl' ⟨i1, t1, b1, a1⟩
            by_cases hDs : D ∈ Ds
            · obtain ⟨hex, hw, ho⟩ := a1 hDs
              have hno : ¬ (getU (c y) = some E ∧ ∃ o', k.parent y = some o' ∧ k.ord y < k.ord o') := by
                rintro ⟨h1, _⟩
                rw [show c y = d o from hex.2.2.2.2.1] at h1
                exact hdo E (by rw [hl']; simp) h1
              rcases rightStep_spec (D := E) (d := c) i1 t1 (show y ∈ k.words r by rw [hw]; exact hx) with ⟨e1, _⟩ |
                ⟨k', o', g, e1, hE, hp, _, _, hlt', _⟩
              · exact ⟨_, e1, i1, t1, fun hn => absurd (List.mem_append_left _ hDs) hn, fun _ => ⟨hex, hw, ho⟩⟩
              · exact absurd ⟨hE, o', hp, hlt'⟩ hno
            · obtain ⟨rfl, rfl⟩ := Prod.mk.inj (b1 hDs)
              rcases rightStep_spec (D := E) (d := c) i1 t1 hx with ⟨e1, hno⟩ |
                ⟨k', o', g, e1, hE, hp, how, hg, hlt', i2, t2, w2, o2, r2, px, po, pc, pn⟩
              · refine ⟨_, e1, i1, t1, fun _ => rfl, fun hm => ?_⟩
                rcases List.mem_append.1 hm with h | h
                · exact absurd h hDs
                · rw [List.mem_singleton] at h
                  subst h
                  exact absurd ⟨hDx, o, hpo, hlt⟩ hno
              · have hED : D = E := by
                  rw [hDx] at hE
                  exact Option.some.inj hE
                subst hED
                have : o = o' := by
                  rw [show k.parent y = some o from hpo] at hp
                  exact Option.some.inj hp
                subst this
                have hyo : y ≠ o := by
                  rintro rfl
                  exact Nat.lt_irrefl _ hlt
                refine ⟨_, e1, i2, t2, fun hn => absurd (by simp) hn, fun _ => ⟨⟨by rw [px, hg], po, ?_, pn, ?_, ?_, ?_⟩, w2, o2⟩⟩
                · intro z hz hzy hzo
                  rw [pc z hz hzy hzo, hDx]
                  simp
                · exact upd_same ..
                · simp only
                  rw [upd_ne _ _ (Ne.symm hyo), upd_same]
                · intro z h1 h2
                  simp only
                  rw [upd_ne _ _ h1, upd_ne _ _ h2])
          (h, d) ⟨is, ts, fun _ => rfl, fun hm => absurd hm List.not_mem_nil⟩
        exact ⟨s', e', i', t', fun hn => absurd (by simp) hn, fun _ => a' hD⟩
      · have hmem : x ∈ done ++ [y] ↔ x ∈ done := by simp [Ne.symm hyx]
        simp only [hmem]
        refine ⟨s, ?_, is, ts, hbefore, hafter⟩
        by_cases hxd : x ∈ done
        · obtain ⟨⟨px, po, pc, pn, dx, do', dz⟩, hw, ho⟩ := hafter hxd
          refine noop s.1 s.2 deprels is ts (by rw [hw]; exact hy) (fun _ h => h) ?_
          rintro ⟨E, hE, hEy, p, hp, hlt'⟩
          rw [ho] at hlt'
          by_cases hyo : y = o
          · subst hyo
            rw [po] at hp
            obtain rfl := Option.some.inj hp
            omega
          · rw [dz y hyx hyo] at hEy
            by_cases hyp : h.parent y = some o
            · refine hyx (honly y hy ⟨E, hE, hEy, o, hyp, ?_⟩)
              rw [pc y hy hyx hyp] at hp
              split at hp
              · obtain rfl := Option.some.inj hp
                omega
              · obtain rfl := Option.some.inj hp
                exact hlt'
            · rw [pn y hyx hyo (.inr hyp)] at hp
              exact hyx (honly y hy ⟨E, hE, hEy, p, hp, hlt'⟩)
        · obtain rfl := hbefore hxd
          exact noop h d deprels is ts hy (fun _ h => h) (fun hh => hyx (honly y hy hh)))
    (h, d) ⟨hi, hr, fun _ => rfl, fun hm => absurd hm List.not_mem_nil⟩
  exact ⟨s, e, (hs.2 hx).1⟩

/-- C93 does not hold for chains: if the first word of a tree depends on a word with the same universal relation, one of `deprels`,
which depends on a word, then the first word still precedes its parent after the block and has this relation. -/
theorem C93_chain_violated {h : Heap} {r : Nat} (hi : Inv h) (hr : IsTree h r) (deprels : List Str) (hnd : deprels.Nodup) (d : Rels)
    {x p g : Nat} {rest : List Nat} {D : Str} (hw : h.words r = x :: rest) (hxp : h.parent x = some p) (hpg : h.parent p = some g)
    (hg : g ∈ h.words r) (hD : D ∈ deprels) (hx : getU (d x) = some D) (hp : getU (d p) = some D) :
    ∃ h' d', fixRightheaded deprels h d r = ((h', d'), none) ∧ HeadRight deprels h' d' x := by
  have w := hi r hr
  have hxw : x ∈ h.words r := by rw [hw]; exact List.mem_cons_self ..
  have hsorted := aligned_pairwise w.aligned
  rw [hw, List.pairwise_cons] at hsorted
  have hfirst : ∀ z ∈ h.words r, z ≠ x → h.ord x < h.ord z := by
    intro z hz hzx
    rw [hw] at hz
    exact hsorted.1 z ((List.mem_cons.1 hz).resolve_left hzx)
  have hpw : p ∈ h.words r := by
    refine (w.parent_in hxw hxp).resolve_left ?_
    rintro rfl
    rw [w.rootParent] at hpg
    exact absurd hpg (by simp)
  have hpx : p ≠ x := fun e => w.anc_irrefl (.inr hxw) (.parent (e ▸ hxp))
  have hgx : g ≠ x := by
    rintro rfl
    exact w.anc_irrefl (.inr hxw) (.step hxp (.parent hpg))
  obtain ⟨⟨h1, d1⟩, e1, i1, t1, w1, o1, n1, q1⟩ := forNodes_inv (rightStep x)
    (fun Ds (s : Heap × Rels) => Inv s.1 ∧ IsTree s.1 r ∧ s.1.words = h.words ∧ s.1.ord = h.ord ∧ (D ∉ Ds → s = (h, d)) ∧
      (D ∈ Ds → getU (s.2 x) = some D ∧ s.1.parent x = some g))
    deprels (by
      intro Ds E more ⟨k, c⟩ hl ⟨i1, t1, w1, o1, n1, q1⟩
      simp only at i1 t1 w1 o1 n1 q1
      have hc : getU (c x) = some D := by
        by_cases hm : D ∈ Ds
        · exact (q1 hm).1
        · have := n1 hm
          rw [Prod.mk.injEq] at this
          rw [this.2]
          exact hx
      by_cases hED : E = D
      · subst hED
        have hEn : E ∉ Ds := by
          rw [hl, List.nodup_append] at hnd
          intro hm
          exact hnd.2.2 E hm E (List.mem_cons_self ..) rfl
        have hkc := n1 hEn
        rw [Prod.mk.injEq] at hkc
        obtain ⟨rfl, rfl⟩ := hkc
        rcases rightStep_spec (D := E) (d := c) i1 t1 hxw with ⟨_, hno⟩ |
          ⟨k', o, g', e1, _, hpo, _, hpg', _, i2, t2, w2, o2, _, px, _, _, _⟩
        · exact absurd ⟨hc, p, hxp, hfirst p hpw hpx⟩ hno
        · rw [hxp] at hpo
          obtain rfl := Option.some.inj hpo
          rw [hpg] at hpg'
          obtain rfl := Option.some.inj hpg'
          refine ⟨_, e1, i2, t2, w2, o2, fun hn => absurd (by simp) hn, fun _ => ⟨?_, px⟩⟩
          simp only
          rw [upd_same]
          exact hp
      · have he : rightStep x (k, c) E = ((k, c), none) := by
          unfold rightStep
          simp only
          rw [if_neg]
          rw [hc]
          exact fun e => hED (Option.some.inj e).symm
        refine ⟨_, he, i1, t1, w1, o1, fun hn => n1 (fun hm => hn (List.mem_append_left _ hm)), fun hm => ?_⟩
        rw [List.mem_append, List.mem_singleton] at hm
        exact q1 (hm.resolve_right (Ne.symm hED)))
    (h, d) ⟨hi, hr, rfl, rfl, fun _ => rfl, fun hm => absurd hm List.not_mem_nil⟩
  simp only at i1 t1 w1 o1 q1
  obtain ⟨hx1, hp1⟩ := q1 hD
  have hrest : ∀ y ∈ rest, y ∈ h1.words r := fun y hy => by rw [w1, hw]; exact List.mem_cons_of_mem _ hy
  obtain ⟨h2, d2, e2, _, _, w2, o2, _, hx2, q, hq, hp2, hlt2⟩ := right_run i1 t1 deprels d1
    (fun k c => getU (c x) = some D ∧ ∃ q ∈ h.words r, k.parent x = some q ∧ h.ord x < h.ord q) rest hrest
    ⟨hx1, g, hg, hp1, hfirst g hg hgx⟩ (by
      intro y hy E hE k c ik tk wk ok ⟨hcx, q, hq, hpq, hlt⟩ k' c' he
      have hyw : y ∈ k.words r := by rw [wk]; exact hrest y hy
      have hxy : h.ord x < h.ord y := hsorted.1 y hy
      have hxy' : x ≠ y := by
        rintro rfl
        omega
      have wfk := ik r tk
      have hxk : x ∈ k.words r := by rw [wk, w1]; exact hxw
      rcases rightStep_spec (D := E) (d := c) ik tk hyw with ⟨e1, _⟩ |
        ⟨k2, o, g', e1, _, hpo, how, hpg', hlt', i2, t2, w2, o2, _, py, po, pc, pn⟩
      · rw [e1] at he
        simp only [Prod.mk.injEq, and_true] at he
        obtain ⟨rfl, rfl⟩ := he
        exact ⟨hcx, q, hq, hpq, hlt⟩
      · rw [e1] at he
        simp only [Prod.mk.injEq, and_true] at he
        obtain ⟨rfl, rfl⟩ := he
        have hxo : x ≠ o := by
          rintro rfl
          rw [ok, o1] at hlt'
          omega
        refine ⟨by rw [upd_ne _ _ hxy', upd_ne _ _ hxo]; exact hcx, ?_⟩
        by_cases hxo2 : k.parent x = some o
        · rw [pc x hxk hxy' hxo2]
          by_cases hE2 : E = rConj
          · rw [if_neg (fun h => h hE2)]
            rw [hpq] at hxo2
            obtain rfl := Option.some.inj hxo2
            exact ⟨q, hq, rfl, hlt⟩
          · rw [if_pos hE2]
            exact ⟨y, by rw [hw]; exact List.mem_cons_of_mem _ hy, rfl, hxy⟩
        · rw [pn x hxy' hxo (.inr hxo2)]
          exact ⟨q, hq, hpq, hlt⟩)
  refine ⟨h2, d2, ?_, D, hD, hx2, q, hp2, by rw [o2, o1]; exact hlt2⟩
  unfold fixRightheaded
  rw [hw]
  unfold forNodes
  rw [e1]
  exact e2

def rFlat : Str := ['f', 'l', 'a', 't']

/-- Words 1 and 2 depend on 3, which depends on the root. -/
def exRight : Heap := (setParent (setParent (createChild (createChild (createChild (newTree Heap.init) 0) 0) 0) 1 (some 3)).1 2 (some 3)).1

def exRightRels : Rels := fun x => if x = 1 ∨ x = 2 then some rFlat else some dRoot

example : (fixRightheaded [rFlat] exRight exRightRels 0).1.1.children 1 = [2, 3] ∧ (fixRightheaded [rFlat] exRight exRightRels 0).1.2 1 = some dRoot ∧
    (fixRightheaded [rFlat] exRight exRightRels 0).1.2 3 = some rFlat := by decide +kernel

/-- Word 1 depends on 2, which depends on 3. -/
def exRightChain : Heap := (setParent (setParent (createChild (createChild (createChild (newTree Heap.init) 0) 0) 0) 2 (some 3)).1 1 (some 2)).1

example : (fixRightheaded [rFlat] exRightChain exRightRels 0).1.1.parent 1 = some 3 ∧
    (fixRightheaded [rFlat] exRightChain exRightRels 0).1.2 1 = some rFlat ∧ exRightChain.ord 1 < exRightChain.ord 3 := by decide +kernel

end Verif.Blocks
