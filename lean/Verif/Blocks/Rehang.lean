import Verif.Blocks.Basic
import Verif.Tree.Props

/-!
# Property C144: demo.RehangPrepositions (udapi/block/demo/rehangprepositions.py)

Enhanced dependencies are left out.
-/

namespace Verif.Blocks.Rehang
open Verif.Py Verif.Tree Verif.Blocks

def pAdp : Str := ['A', 'D', 'P']

/-- `process_node(node)` (rehangprepositions.py:8-12) -/
def rehangStep (upos : Nat → Option Str) (h : Heap) (x : Nat) : Heap × Option Err :=
  if upos x = some pAdp then
    match h.parent x with
    | none => (h, some .attributeError)
    | some p =>
      match setParent h x (h.parent p) with
      | (h1, some e) => (h1, some e)
      | (h1, none) => setParent h1 p (some x)
  else (h, none)

/-- The block on one tree. -/
def rehang (upos : Nat → Option Str) (h : Heap) (r : Nat) : Heap × Option Err := forNodes (rehangStep upos) h (h.words r)

/-! ## Proofs -/

section Lemmas
variable {upos : Nat → Option Str} {h : Heap} {r : Nat}

/-- One preposition `y` below the word `p`. -/
theorem step_ok (hi : Inv h) (hr : IsTree h r) {y p : Nat} (hu : upos y = some pAdp) (hy : y ∈ h.words r) (hp : h.parent y = some p) (hpw : p ∈ h.words r) :
    ∃ h' q, h.parent p = some q ∧ rehangStep upos h y = (h', none) ∧ Inv h' ∧ IsTree h' r ∧ h'.words = h.words ∧ h'.ord = h.ord ∧
      h'.parent = upd (upd h.parent y (some q)) p (some y) ∧ q ≠ y ∧ q ≠ p ∧ p ≠ y := by
  have w := hi r hr
  obtain ⟨q, hq, hqin⟩ := w.parentIn p hpw
  have hpy : p ≠ y := fun e => w.anc_irrefl (.inr hy) (.parent (by rw [hp, e]))
  have hqy : q ≠ y := fun e => w.anc_irrefl (.inr hy) (.step hp (.parent (by rw [hq, e])))
  have hqp : q ≠ p := fun e => w.anc_irrefl (.inr hpw) (.parent (by rw [hq, e]))
  have hnanc : ¬ Anc h y q := fun ha => w.anc_irrefl (.inr hy) (.step hp (.step hq ha))
  obtain ⟨h1, e1, i1, t1, w1, r1, o1, p1⟩ := attach_one hi hr hy hqin hqy hnanc
  have hback : ∀ {a b}, Anc h1 a b → (b ≠ y → ¬ Anc h y b → Anc h a b) := by
    intro a b hab
    induction hab with
    | @parent b hb =>
      intro hby _
      rw [p1, upd_ne _ _ hby] at hb
      exact .parent hb
    | @step b c hb _ ih =>
      intro hby hn
      rw [p1, upd_ne _ _ hby] at hb
      exact .step hb (ih (fun e => hn (.parent (e ▸ hb))) (fun ha => hn (.step hb ha)))
  have hnanc1 : ¬ Anc h1 p y := by
    intro ha
    cases ha with
    | parent hb =>
      rw [p1, upd_same] at hb
      exact hqp (Option.some.inj hb)
    | step hb hc =>
      rw [p1, upd_same] at hb
      have := Option.some.inj hb
      subst this
      exact w.anc_irrefl (.inr hpw) (.step hq (hback hc hqy hnanc))
  obtain ⟨h2, e2, i2, t2, w2, r2, o2, p2⟩ := attach_one i1 t1 (x := p) (p := y) (by rw [w1]; exact hpw) (.inr (by rw [w1]; exact hy)) (Ne.symm hpy) hnanc1
  refine ⟨h2, q, hq, ?_, i2, t2, by rw [w2, w1], by rw [o2, o1], by rw [p2, p1], hqy, hqp, hpy⟩
  unfold rehangStep
  rw [if_pos hu, hp]
  simp only
  rw [hq, e1]
  exact e2

/-- What one step changes, for a preposition without children. -/
theorem step_anc (w : WF h r) {h' : Heap} {y p q : Nat} (hpw : p ∈ h.words r) (hp : h.parent y = some p) (hq : h.parent p = some q)
    (hpar : h'.parent = upd (upd h.parent y (some q)) p (some y)) (hqy : q ≠ y) (hpy : p ≠ y) (hleaf : ∀ z, h.parent z ≠ some y) :
    (∀ a b, a ≠ y → b ≠ y → (Anc h' a b ↔ Anc h a b)) ∧
    (∀ b, b ≠ y → (Anc h' y b ↔ b = p ∨ Anc h p b)) ∧
    (∀ a, a ≠ y → (Anc h' a y ↔ Anc h a p)) := by
  have hpy' : h'.parent p = some y := by rw [hpar, upd_same]
  have hyq : h'.parent y = some q := by rw [hpar, upd_ne _ _ (Ne.symm hpy), upd_same]
  have hot : ∀ z, z ≠ p → z ≠ y → h'.parent z = h.parent z := fun z h1 h2 => by rw [hpar, upd_ne _ _ h1, upd_ne _ _ h2]
  have down : ∀ {a b}, Anc h' a b → a ≠ y → (b ≠ y → Anc h a b) ∧ (b = y → Anc h a p) := by
    intro a b hab hay
    induction hab with
    | @parent b hb =>
      by_cases hbp : b = p
      · rw [hbp, hpy'] at hb
        exact absurd (Option.some.inj hb).symm hay
      · constructor
        · intro hby
          rw [hot b hbp hby] at hb
          exact .parent hb
        · rintro rfl
          rw [hyq] at hb
          exact .parent (hq.trans hb)
    | @step b c hb _ ih =>
      by_cases hbp : b = p
      · rw [hbp, hpy'] at hb
        have hc := (Option.some.inj hb).symm
        rw [hbp]
        exact ⟨fun _ => ih.2 hc, fun e => absurd e hpy⟩
      · constructor
        · intro hby
          rw [hot b hbp hby] at hb
          exact .step hb (ih.1 (fun e => hleaf b (e ▸ hb)))
        · rintro rfl
          rw [hyq] at hb
          have hc := (Option.some.inj hb).symm
          subst hc
          exact .step hq (ih.1 hqy)
  have up : ∀ {a b}, Anc h a b → a ≠ y → b ≠ y → Anc h' a b := by
    intro a b hab hay
    induction hab with
    | @parent b hb =>
      intro hby
      by_cases hbp : b = p
      · rw [hbp, hq] at hb
        rw [hbp]
        exact .step hpy' (.parent (hyq.trans hb))
      · exact .parent (by rw [hot b hbp hby]; exact hb)
    | @step b c hb _ ih =>
      intro hby
      have hcy : c ≠ y := fun e => hleaf b (e ▸ hb)
      by_cases hbp : b = p
      · rw [hbp, hq] at hb
        have hc := Option.some.inj hb
        subst hc
        rw [hbp]
        exact .step hpy' (.step hyq (ih hcy))
      · exact .step (by rw [hot b hbp hby]; exact hb) (ih hcy)
  refine ⟨fun a b hay hby => ⟨fun hx => (down hx hay).1 hby, fun hx => up hx hay hby⟩, fun b hby => ⟨?_, ?_⟩,
    fun a hay => ⟨fun hx => (down hx hay).2 rfl, ?_⟩⟩
  · have key : ∀ {b}, Anc h' y b → b ≠ y → b = p ∨ Anc h p b := by
      intro b hb
      induction hb with
      | @parent b hb =>
        intro hby
        by_cases hbp : b = p
        · exact .inl hbp
        · rw [hot b hbp hby] at hb
          exact absurd hb (hleaf b)
      | @step b c hb _ ih =>
        intro hby
        by_cases hbp : b = p
        · exact .inl hbp
        · rw [hot b hbp hby] at hb
          rcases ih (fun e => hleaf b (e ▸ hb)) with e | e
          · exact .inr (.parent (e ▸ hb))
          · exact .inr (.step hb e)
    exact fun hx => key hx hby
  · have key : ∀ {b}, Anc h p b → b ≠ y → Anc h' y b := by
      intro b hb
      induction hb with
      | @parent b hb =>
        intro hby
        by_cases hbp : b = p
        · exact absurd (.parent (hbp ▸ hb)) (w.anc_irrefl (.inr hpw))
        · exact .step (by rw [hot b hbp hby]; exact hb) (.parent hpy')
      | @step b c hb hc ih =>
        intro hby
        by_cases hbp : b = p
        · exact absurd (.step (hbp ▸ hb) hc) (w.anc_irrefl (.inr hpw))
        · exact .step (by rw [hot b hbp hby]; exact hb) (ih (fun e => hleaf b (e ▸ hb)))
    rintro (rfl | hx)
    · exact .parent hpy'
    · exact key hx hby
  · intro hx
    cases hx with
    | parent hb => exact .parent (hyq.trans (hq.symm.trans hb))
    | step hb hc =>
      have e : q = _ := Option.some.inj (hq.symm.trans hb)
      subst e
      exact .step hyq (up hc hay hqy)

/-- If no preposition depends directly on the technical root, no exception is raised, the words and their order stay, and the tree is well
formed again. Words that neither are prepositions nor have prepositions as dependents keep their parents. -/
theorem C144_tree_partial (hh : Inv h) (hr : IsTree h r) (htop : ∀ x ∈ h.words r, upos x = some pAdp → h.parent x ≠ some r) :
    ∃ h', rehang upos h r = (h', none) ∧ WF h' r ∧ h'.words = h.words ∧ h'.ord = h.ord ∧
      ∀ z ∈ h.words r, upos z ≠ some pAdp → (∀ x ∈ h.words r, upos x = some pAdp → h.parent x ≠ some z) → h'.parent z = h.parent z := by
  have hnd := (hh r hr).nodup
  obtain ⟨h', e, i, t, w', o', htop', hkeep, -⟩ := forNodes_inv (rehangStep upos) (fun done s => Inv s ∧ IsTree s r ∧ s.words = h.words ∧ s.ord = h.ord ∧
      (∀ x ∈ h.words r, x ∉ done → upos x = some pAdp → s.parent x ≠ some r) ∧
      (∀ z ∈ h.words r, upos z ≠ some pAdp → (∀ x ∈ h.words r, upos x = some pAdp → h.parent x ≠ some z) → s.parent z = h.parent z) ∧
      (∀ z ∈ h.words r, upos z ≠ some pAdp → (∀ x ∈ h.words r, upos x = some pAdp → h.parent x ≠ some z) →
        ∀ x ∈ h.words r, x ∉ done → upos x = some pAdp → s.parent x ≠ some z)) (h.words r) (by
    intro done y rest s hl ⟨i, t, w', o', htop', hkeep, hno⟩
    have hy : y ∈ h.words r := by rw [hl]; simp
    have hydone : y ∉ done := by
      rw [hl] at hnd
      intro hc
      exact (List.nodup_append.1 hnd).2.2 y hc y (by simp) rfl
    by_cases hu : upos y = some pAdp
    · obtain ⟨p, hp, hpin⟩ := (i r t).parentIn y (by rw [w']; exact hy)
      have hpw : p ∈ s.words r := by
        rcases hpin with e | e
        · exact absurd (e ▸ hp) (htop' y hy hydone hu)
        · exact e
      obtain ⟨s', q, hq, e, i', t', w'', o'', p'', hqy, hqp, hpy⟩ := step_ok i t hu (by rw [w']; exact hy) hp hpw
      have hpar : ∀ z, z ≠ y → (z = p ∧ s'.parent z = some y) ∨ s'.parent z = s.parent z := by
        intro z hzy
        by_cases hzp : z = p
        · exact .inl ⟨hzp, by rw [p'', hzp, upd_same]⟩
        · exact .inr (by rw [p'', upd_ne _ _ hzp, upd_ne _ _ hzy])
      refine ⟨s', e, i', t', by rw [w'', w'], by rw [o'', o'], ?_, ?_, ?_⟩
      · intro x hx hxd hxu hc
        rcases hpar x (fun e => hxd (by simp [e])) with ⟨_, h2⟩ | h2
        · rw [h2] at hc
          have := Option.some.inj hc
          exact (hh r hr).root_not_mem (this ▸ hy)
        · exact htop' x hx (fun hc' => hxd (by simp [hc'])) hxu (h2 ▸ hc)
      · intro z hz hzu hzn
        have hzy : z ≠ y := fun e => hzu (e ▸ hu)
        rcases hpar z hzy with ⟨h1, _⟩ | h2
        · exact absurd (h1 ▸ hp) (hno z hz hzu hzn y hy hydone hu)
        · rw [h2]
          exact hkeep z hz hzu hzn
      · intro z hz hzu hzn x hx hxd hxu hc
        rcases hpar x (fun e => hxd (by simp [e])) with ⟨_, h2⟩ | h2
        · rw [h2] at hc
          exact hzu (Option.some.inj hc ▸ hu)
        · exact hno z hz hzu hzn x hx (fun hc' => hxd (by simp [hc'])) hxu (h2 ▸ hc)
    · refine ⟨s, by unfold rehangStep; rw [if_neg hu], i, t, w', o', ?_, hkeep, ?_⟩
      · exact fun x hx hxd => htop' x hx (fun hc => hxd (by simp [hc]))
      · exact fun z hz hzu hzn x hx hxd => hno z hz hzu hzn x hx (fun hc => hxd (by simp [hc]))) h
    ⟨hh, hr, rfl, rfl, fun x hx _ => htop x hx, fun _ _ _ _ => rfl, fun z _ _ hzn x hx _ => hzn x hx⟩
  exact ⟨h', e, i r t, w', o', hkeep⟩

/-- If moreover the prepositions have no dependents: every preposition ends up above its parent, between the words that were above the parent
and those that were below it, and the dominance among the other words is the same as before. -/
theorem C144_place_partial (hh : Inv h) (hr : IsTree h r) (htop : ∀ x ∈ h.words r, upos x = some pAdp → h.parent x ≠ some r)
    (hleaf : ∀ x ∈ h.words r, upos x = some pAdp → ∀ z, h.parent z ≠ some x) :
    ∃ h', rehang upos h r = (h', none) ∧ WF h' r ∧
      (∀ a ∈ h.words r, ∀ b ∈ h.words r, upos a ≠ some pAdp → upos b ≠ some pAdp → (Anc h' a b ↔ Anc h a b)) ∧
      (∀ x ∈ h.words r, upos x = some pAdp → ∀ p, h.parent x = some p →
        ∀ b ∈ h.words r, upos b ≠ some pAdp → (Anc h' x b ↔ b = p ∨ Anc h p b) ∧ (Anc h' b x ↔ Anc h b p)) := by
  have hnd := (hh r hr).nodup
  have w0 := hh r hr
  obtain ⟨h', e, i, t, w', -, h1, h2, h3⟩ := forNodes_inv (rehangStep upos) (fun done s => Inv s ∧ IsTree s r ∧ s.words = h.words ∧
      (∀ x ∈ h.words r, upos x = some pAdp → x ∉ done → s.parent x = h.parent x ∧ ∀ z, s.parent z ≠ some x) ∧
      (∀ a ∈ h.words r, ∀ b ∈ h.words r, (upos a = some pAdp → a ∉ done) → (upos b = some pAdp → b ∉ done) → (Anc s a b ↔ Anc h a b)) ∧
      (∀ x ∈ h.words r, upos x = some pAdp → x ∈ done → ∀ p, h.parent x = some p → ∀ b ∈ h.words r, (upos b = some pAdp → b ∉ done) →
        (Anc s x b ↔ b = p ∨ Anc h p b)) ∧
      (∀ x ∈ h.words r, upos x = some pAdp → x ∈ done → ∀ p, h.parent x = some p → ∀ b ∈ h.words r, (upos b = some pAdp → b ∉ done) →
        (Anc s b x ↔ Anc h b p))) (h.words r) (by
    intro done y rest s hl ⟨i, t, w', hun, h1, h2, h3⟩
    have hy : y ∈ h.words r := by rw [hl]; simp
    have hydone : y ∉ done := by
      rw [hl] at hnd
      intro hc
      exact (List.nodup_append.1 hnd).2.2 y hc y (by simp) rfl
    by_cases hu : upos y = some pAdp
    · obtain ⟨hpar0, hlf⟩ := hun y hy hu hydone
      obtain ⟨p, hp0, hpin⟩ := w0.parentIn y hy
      have hpw : p ∈ h.words r := by
        rcases hpin with e | e
        · exact absurd (e ▸ hp0) (htop y hy hu)
        · exact e
      have hpu : upos p ≠ some pAdp := fun hc => hleaf p hpw hc y hp0
      have hp : s.parent y = some p := hpar0.trans hp0
      obtain ⟨s', q, hq, e, i', t', w'', -, p'', hqy, hqp, hpy⟩ := step_ok i t hu (by rw [w']; exact hy) hp (by rw [w']; exact hpw)
      obtain ⟨k1, k2, k3⟩ := step_anc (i r t) (by rw [w']; exact hpw) hp hq p'' hqy hpy hlf
      have hsub : ∀ {x : Nat}, (upos x = some pAdp → x ∉ done ++ [y]) → (upos x = some pAdp → x ∉ done) ∧ x ≠ y := by
        intro x hx
        exact ⟨fun hc hd => hx hc (by simp [hd]), fun e => hx (e ▸ hu) (by simp [e])⟩
      refine ⟨s', e, i', t', by rw [w'', w'], ?_, ?_, ?_, ?_⟩
      · intro x hx hxu hxd
        obtain ⟨j1, j2⟩ := hsub (fun _ => hxd)
        obtain ⟨l1, l2⟩ := hun x hx hxu (j1 hxu)
        have hxp : x ≠ p := fun e => hpu (e ▸ hxu)
        refine ⟨by rw [p'', upd_ne _ _ hxp, upd_ne _ _ j2]; exact l1, fun z hz => ?_⟩
        rw [p''] at hz
        by_cases hzp : z = p
        · rw [hzp, upd_same] at hz
          exact j2 (Option.some.inj hz).symm
        · rw [upd_ne _ _ hzp] at hz
          by_cases hzy : z = y
          · rw [hzy, upd_same] at hz
            exact l2 p (hq.trans hz)
          · rw [upd_ne _ _ hzy] at hz
            exact l2 z hz
      · intro a ha b hb hau hbu
        rw [k1 a b (hsub hau).2 (hsub hbu).2]
        exact h1 a ha b hb (hsub hau).1 (hsub hbu).1
      · intro x hx hxu hxd p' hp' b hb hbu
        rcases List.mem_append.1 hxd with hxd | hxd
        · rw [k1 x b (fun e => hydone (e ▸ hxd)) (hsub hbu).2]
          exact h2 x hx hxu hxd p' hp' b hb (hsub hbu).1
        · rw [List.mem_singleton] at hxd
          subst hxd
          have := Option.some.inj (hp0.symm.trans hp')
          subst this
          rw [k2 b (hsub hbu).2, h1 p hpw b hb (fun hc => absurd hc hpu) (hsub hbu).1]
      · intro x hx hxu hxd p' hp' b hb hbu
        rcases List.mem_append.1 hxd with hxd | hxd
        · rw [k1 b x (hsub hbu).2 (fun e => hydone (e ▸ hxd))]
          exact h3 x hx hxu hxd p' hp' b hb (hsub hbu).1
        · rw [List.mem_singleton] at hxd
          subst hxd
          have := Option.some.inj (hp0.symm.trans hp')
          subst this
          rw [k3 b (hsub hbu).2, h1 b hb p hpw (hsub hbu).1 (fun hc => absurd hc hpu)]
    · have hsub : ∀ {x : Nat}, (upos x = some pAdp → x ∉ done ++ [y]) → (upos x = some pAdp → x ∉ done) :=
        fun hx hc hd => hx hc (by simp [hd])
      have hin : ∀ x, upos x = some pAdp → x ∈ done ++ [y] → x ∈ done := by
        intro x hxu hx
        rcases List.mem_append.1 hx with hx | hx
        · exact hx
        · rw [List.mem_singleton] at hx
          exact absurd (hx ▸ hxu) hu
      refine ⟨s, by unfold rehangStep; rw [if_neg hu], i, t, w', ?_, ?_, ?_, ?_⟩
      · exact fun x hx hxu hxd => hun x hx hxu (fun hc => hxd (by simp [hc]))
      · exact fun a ha b hb hau hbu => h1 a ha b hb (hsub hau) (hsub hbu)
      · exact fun x hx hxu hxd p hp b hb hbu => h2 x hx hxu (hin x hxu hxd) p hp b hb (hsub hbu)
      · exact fun x hx hxu hxd p hp b hb hbu => h3 x hx hxu (hin x hxu hxd) p hp b hb (hsub hbu)) h
    ⟨hh, hr, rfl, fun x hx hxu _ => ⟨rfl, hleaf x hx hxu⟩, fun _ _ _ _ _ _ => Iff.rfl, fun x _ _ hd => absurd hd (by simp), fun x _ _ hd => absurd hd (by simp)⟩
  refine ⟨h', e, i r t, ?_, ?_⟩
  · exact fun a ha b hb hau hbu => h1 a ha b hb (fun hc => absurd hc hau) (fun hc => absurd hc hbu)
  · exact fun x hx hxu p hp b hb hbu => ⟨h2 x hx hxu hx p hp b hb (fun hc => absurd hc hbu), h3 x hx hxu hx p hp b hb (fun hc => absurd hc hbu)⟩

/-- The parents after a successful assignment. -/
theorem parent_of_setParent {h h' : Heap} {x p : Nat} (e : setParent h x (some p) = (h', none)) : h'.parent = upd h.parent x (some p) := by
  unfold setParent at e
  split at e
  · cases e
  · split at e
    · rename_i heq
      cases e
      funext y
      unfold upd
      split
      · rename_i hy
        rw [hy, heq]
      · rfl
    · simp only at e
      split at e
      · cases e
      · split at e
        · cases e
        · cases e
        · split at e
          · cases e
            rfl
          · split at e
            · cases e
            · split at e
              · cases e
              · cases e
                rfl

/-- A preposition that depends on the technical root and has no preposition as a dependent always makes the block fail. -/
theorem C144_root_violated (hh : Inv h) (hr : IsTree h r) {x : Nat} (hx : x ∈ h.words r) (hu : upos x = some pAdp) (hp : h.parent x = some r)
    (hno : ∀ z ∈ h.words r, upos z = some pAdp → h.parent z ≠ some x) : (rehang upos h r).2 ≠ none := by
  have w := hh r hr
  have hrp : h.parent r = none := w.rootParent
  have hxr : x ≠ r := fun e => w.root_not_mem (e ▸ hx)
  have key : ∀ (l : List Nat) (s : Heap), x ∈ l → (∀ z ∈ l, z ≠ r) → s.parent r = none → s.parent x = some r →
      (∀ z ∈ l, upos z = some pAdp → s.parent z ≠ some x) → l.Nodup → isRoot s x = false → (forNodes (rehangStep upos) s l).2 ≠ none := by
    intro l
    induction l with
    | nil => intro s hc; cases hc
    | cons y l ih =>
      intro s hxl hlr hsr hsx hsno hnd hroot
      rw [List.nodup_cons] at hnd
      unfold forNodes
      by_cases hyx : y = x
      · subst hyx
        have : rehangStep upos s y = (s, some .valueError) := by
          unfold rehangStep
          rw [if_pos hu, hsx]
          simp only
          rw [hsr]
          have : setParent s y none = (s, some .valueError) := by simp [setParent, hroot, hsx]
          rw [this]
        rw [this]
        exact fun hc => (by cases hc)
      · have hxl' : x ∈ l := (List.mem_cons.1 hxl).resolve_left (Ne.symm hyx)
        cases hs : rehangStep upos s y with
        | mk s' o =>
          cases o with
          | some e => exact fun hc => (by cases hc)
          | none =>
            simp only
            have hlr' : ∀ z ∈ l, z ≠ r := fun z hz => hlr z (List.mem_cons_of_mem _ hz)
            by_cases huy : upos y = some pAdp
            · unfold rehangStep at hs
              rw [if_pos huy] at hs
              cases hpy : s.parent y with
              | none => rw [hpy] at hs; cases hs
              | some p =>
                rw [hpy] at hs
                simp only at hs
                cases hq : s.parent p with
                | none =>
                  rw [hq] at hs
                  have : ∃ e, (setParent s y none) = (s, some e) := by
                    unfold setParent
                    split
                    · exact ⟨_, rfl⟩
                    · rw [if_neg (by rw [hpy]; exact fun hc => (by cases hc))]
                      exact ⟨_, rfl⟩
                  obtain ⟨e, he⟩ := this
                  rw [he] at hs
                  cases hs
                | some q =>
                  rw [hq] at hs
                  cases hs1 : setParent s y (some q) with
                  | mk s1 o1 =>
                    rw [hs1] at hs
                    cases o1 with
                    | some e => cases hs
                    | none =>
                      simp only at hs
                      have e1 := parent_of_setParent hs1
                      have e2 := parent_of_setParent hs
                      have hroots : ∀ (h1 h2 : Heap) (a b : Nat), setParent h1 a (some b) = (h2, none) → h2.root = h1.root := by
                        intro h1 h2 a b e
                        unfold setParent at e
                        split at e
                        · cases e
                        · split at e
                          · cases e; rfl
                          · simp only at e
                            split at e
                            · cases e
                            · split at e
                              · cases e
                              · cases e
                              · split at e
                                · cases e; rfl
                                · split at e
                                  · cases e
                                  · split at e
                                    · cases e
                                    · cases e; rfl
                      have hpx : p ≠ x := fun e => hsno y (List.mem_cons_self ..) huy (e ▸ hpy)
                      have hpr : p ≠ r := fun e => by rw [e, hsr] at hq; cases hq
                      have hyr := hlr y (List.mem_cons_self ..)
                      refine ih s' hxl' hlr' ?_ ?_ ?_ hnd.2 ?_
                      · rw [e2, e1, upd_ne _ _ (Ne.symm hpr), upd_ne _ _ (Ne.symm hyr)]
                        exact hsr
                      · rw [e2, e1, upd_ne _ _ (Ne.symm hpx), upd_ne _ _ (Ne.symm hyx)]
                        exact hsx
                      · intro z hz hzu hc
                        rw [e2, e1] at hc
                        by_cases hzp : z = p
                        · rw [hzp, upd_same] at hc
                          exact hyx (Option.some.inj hc)
                        · have hzy : z ≠ y := fun e => hnd.1 (e ▸ hz)
                          rw [upd_ne _ _ hzp, upd_ne _ _ hzy] at hc
                          exact hsno z (List.mem_cons_of_mem _ hz) hzu hc
                      · unfold isRoot at hroot ⊢
                        rw [hroots _ _ _ _ hs, hroots _ _ _ _ hs1]
                        exact hroot
            · unfold rehangStep at hs
              rw [if_neg huy] at hs
              cases hs
              exact ih s hxl' hlr' hsr hsx (fun z hz => hsno z (List.mem_cons_of_mem _ hz)) hnd.2 hroot
  exact key (h.words r) h hx (fun z hz e => w.root_not_mem (e ▸ hz)) hrp hp hno w.nodup (by simpa using w.not_root hx)

/-- Items for which the step does nothing can be left out. -/
theorem forNodes_filter (f : Nat → Bool) (hf : ∀ x, f x = false → upos x ≠ some pAdp) : ∀ (l : List Nat) (s : Heap),
    forNodes (rehangStep upos) s l = forNodes (rehangStep upos) s (l.filter f)
  | [], _ => rfl
  | a :: l, s => by
    cases ha : f a with
    | true =>
      rw [List.filter_cons_of_pos ha]
      unfold forNodes
      cases rehangStep upos s a with
      | mk s' o =>
        cases o with
        | some e => rfl
        | none => exact forNodes_filter f hf l s'
    | false =>
      rw [List.filter_cons_of_neg (by simp [ha])]
      have : rehangStep upos s a = (s, none) := by unfold rehangStep; rw [if_neg (hf a ha)]
      rw [forNodes, this]
      exact forNodes_filter f hf l s

/-- A preposition `x` that has a preposition `y` before it as a dependent: if these are the only ones, nothing changes, `x` is not above its
parent. -/
theorem C144_nested_violated (hh : Inv h) (hr : IsTree h r) {x y p : Nat} (hx : x ∈ h.words r) (hy : y ∈ h.words r) (hord : h.ord y < h.ord x)
    (hyx : h.parent y = some x) (hxp : h.parent x = some p) (hp : p ≠ r) (hu : ∀ z, upos z = some pAdp ↔ z = x ∨ z = y) :
    ∃ h', rehang upos h r = (h', none) ∧ h'.parent = h.parent := by
  have w := hh r hr
  have hpw : p ∈ h.words r := (w.parent_in hx hxp).resolve_left hp
  have hxy : x ≠ y := fun e => by rw [e] at hord; exact Nat.lt_irrefl _ hord
  have hlist : (h.words r).filter (fun z => z = x ∨ z = y) = [y, x] := by
    refine sorted_ext (ord := h.ord) ((aligned_pairwise w.aligned).filter _) (by simpa using hord) (fun z => ?_)
    rw [List.mem_filter]
    simp only [decide_eq_true_eq, List.mem_cons, List.not_mem_nil, or_false]
    constructor
    · rintro ⟨_, h1 | h1⟩
      · exact .inr h1
      · exact .inl h1
    · rintro (rfl | rfl)
      · exact ⟨hy, .inr rfl⟩
      · exact ⟨hx, .inl rfl⟩
  unfold rehang
  rw [forNodes_filter (fun z => decide (z = x ∨ z = y)) (fun z hz => by rw [Ne, hu]; simpa using hz), hlist]
  obtain ⟨h1, q, hq, e1, i1, t1, w1, o1, p1, -, -, -⟩ := step_ok (upos := upos) hh hr ((hu y).2 (.inr rfl)) hy hyx hx
  have hqp : q = p := Option.some.inj (hq.symm.trans hxp)
  subst hqp
  have hxy1 : h1.parent x = some y := by rw [p1, upd_same]
  have hyq1 : h1.parent y = some q := by rw [p1, upd_ne _ _ (Ne.symm hxy), upd_same]
  obtain ⟨h2, q2, hq2, e2, i2, t2, w2, o2, p2, -, -, -⟩ := step_ok (upos := upos) i1 t1 ((hu x).2 (.inl rfl)) (by rw [w1]; exact hx) hxy1 (by rw [w1]; exact hy)
  have hq2q : q2 = q := Option.some.inj (hq2.symm.trans hyq1)
  subst hq2q
  refine ⟨h2, ?_, ?_⟩
  · unfold forNodes
    rw [e1]
    simp only
    unfold forNodes
    rw [e2]
    rfl
  · rw [p2, p1]
    funext z
    unfold upd
    by_cases hzy : z = y
    · rw [if_pos hzy, hzy, hyx]
    · rw [if_neg hzy]
      by_cases hzx : z = x
      · rw [if_pos hzx, hzx, hxp]
      · rw [if_neg hzx, if_neg hzx, if_neg hzy]

end Lemmas

/-- In the tree `ex` (2 and 4 depend on 1, 3 on 4): the preposition 3 is put above 4; with 2 as a preposition, it takes the place of 1. -/
example : ((rehang (fun x => if x = 3 then some pAdp else none) ex 0).1.parent 3 = some 1 ∧
    (rehang (fun x => if x = 3 then some pAdp else none) ex 0).1.parent 4 = some 3) ∧
    (List.range 5).map ((rehang (fun x => if x = 2 then some pAdp else none) ex 0).1.parent) = [none, some 2, some 0, some 4, some 1] ∧
    (rehang (fun x => if x = 1 then some pAdp else none) ex 0).2 = some .valueError := by decide

end Verif.Blocks.Rehang
