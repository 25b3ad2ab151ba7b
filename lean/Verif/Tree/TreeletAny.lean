import Verif.Tree.Attrs

/-!
# C21: `find_minimal_common_treelet` for any nodes

The nodes may have different depths, and a node may be given twice. The function always returns, and if the top it finds is one of the given
nodes, no given node is higher (although it need not govern the others).
-/

namespace Verif.Tree.TreeletAny
open Verif.Py Verif.Tree

variable {h : Heap} {r : Nat}

/-- Invariant of the climbing loop: `D` is the depth, `m` the smallest depth of the given nodes, `g v` the number of steps to `v` on the way on
which it was reached first. -/
structure JInv (h : Heap) (r : Nat) (D : Nat → Nat) (I : List Nat) (m : Nat) (g : Nat → Nat) (s : TL) : Prop where
  qv : ∀ v ∈ s.queue, Vis h r s v
  via : ∀ v c, InTree h r v → s.mark (h.ord v) = some (.via c) →
    Vis h r s c ∧ h.parent c = some v ∧ g v = g c + 1 ∧ v ∈ s.new.map (·.2)
  inp : ∀ i ∈ I, Vis h r s i ∧ g i = 0
  low : ∀ v, Vis h r s v → m ≤ D v + g v
  srt : s.queue.Pairwise (fun a b => g a ≤ g b)
  near : ∀ a ∈ s.queue, ∀ b ∈ s.queue, g b ≤ g a + 1
  old : ∀ v, Vis h r s v → v ∉ s.queue → ∀ a ∈ s.queue, g v ≤ g a
  up : s.highest = none → ∀ v, Vis h r s v → v ∉ s.queue → ∃ p, h.parent v = some p ∧ Vis h r s p ∧ g p ≤ g v + 1
  top : ∀ t, s.highest = some t → t = r ∧ Vis h r s r ∧ g r = m
  newIn : ∀ e ∈ s.new, e.1 = h.ord e.2 ∧ Vis h r s e.2
  newNd : (s.new.map (·.2)).Nodup

/-- A function that gives the depths. -/
structure Depths (h : Heap) (r : Nat) (D : Nat → Nat) : Prop where
  root : D r = 0
  child : ∀ x p, InTree h r x → h.parent x = some p → D x = D p + 1

theorem parent_inTree (w : WF h r) {x p : Nat} (hx : InTree h r x) (hp : h.parent x = some p) : InTree h r p := by
  rcases hx with rfl | hx
  · rw [w.rootParent] at hp
    cases hp
  · exact w.parent_in hx hp

theorem eq_root (w : WF h r) {x : Nat} (hx : InTree h r x) (hp : h.parent x = none) : x = r := by
  rcases hx with e | hx
  · exact e
  · obtain ⟨p, e, _⟩ := w.parentIn x hx
    rw [hp] at e
    cases e

theorem jInv_init (w : WF h r) {D : Nat → Nat} {I : List Nat} {m : Nat} (hin : ∀ i ∈ I, InTree h r i) (hm : ∀ i ∈ I, m ≤ D i) :
    JInv h r D I m (fun _ => 0) ⟨I, tlMarks h I, [], none⟩ := by
  have hv : ∀ v, InTree h r v → (tlMarks h I (h.ord v)).isSome → v ∈ I := by
    intro v hv hs
    unfold tlMarks at hs
    split at hs
    · rename_i hany
      obtain ⟨i, hi, e⟩ := List.any_eq_true.1 hany
      have : i = v := w.ord_inj (hin i hi) hv (by simpa using e)
      exact this ▸ hi
    · cases hs
  have hI : ∀ i ∈ I, (tlMarks h I (h.ord i)).isSome := by
    intro i hi
    unfold tlMarks
    rw [if_pos (List.any_eq_true.2 ⟨i, hi, by simp⟩)]
    rfl
  refine ⟨fun v hvq => ⟨hin v hvq, hI v hvq⟩, ?_, fun i hi => ⟨⟨hin i hi, hI i hi⟩, rfl⟩, ?_, ?_, ?_, ?_, ?_, ?_, ?_, ?_⟩
  · intro v c _ hc
    simp only [tlMarks] at hc
    split at hc <;> cases hc
  · intro v hv'
    have := hm v (hv v hv'.1 hv'.2)
    omega
  · exact List.pairwise_iff_forall_sublist.2 (fun _ => Nat.le_refl _)
  · intro a _ b _
    omega
  · intro v hv' hn
    exact absurd (hv v hv'.1 hv'.2) hn
  · intro _ v hv' hn
    exact absurd (hv v hv'.1 hv'.2) hn
  · intro t ht
    cases ht
  · intro e he
    cases he
  · exact List.nodup_nil

/-- As long as the technical root was not taken from the queue, above every marked node there is one in the queue. -/
theorem climb {D : Nat → Nat} (hD : Depths h r D) {I : List Nat} {m : Nat} {g : Nat → Nat} {s : TL} (j : JInv h r D I m g s) (hh : s.highest = none) :
    ∀ (n v : Nat), D v = n → Vis h r s v → ∃ t ∈ s.queue, D t + g t ≤ D v + g v := by
  intro n
  induction n with
  | zero =>
    intro v hn hv
    by_cases hq : v ∈ s.queue
    · exact ⟨v, hq, Nat.le_refl _⟩
    · obtain ⟨p, hp, _⟩ := j.up hh v hv hq
      have := hD.child v p hv.1 hp
      omega
  | succ n ih =>
    intro v hn hv
    by_cases hq : v ∈ s.queue
    · exact ⟨v, hq, Nat.le_refl _⟩
    · obtain ⟨p, hp, hpv, hg⟩ := j.up hh v hv hq
      have hd := hD.child v p hv.1 hp
      obtain ⟨t, ht, hle⟩ := ih p (by omega) hpv
      exact ⟨t, ht, by omega⟩

theorem lt_next (w : WF h r) (hr : r < h.next) {x : Nat} (hx : InTree h r x) : x < h.next := by
  rcases hx with rfl | hx
  · exact hr
  · exact w.alloc x hx

theorem jInv_step (w : WF h r) (hr : r < h.next) {D : Nat → Nat} (hD : Depths h r D) {I : List Nat} {m : Nat} (hm : ∃ i ∈ I, D i = m) {g : Nat → Nat}
    {s : TL} (j : JInv h r D I m g s) {a b : Nat} {q : List Nat} (hq : s.queue = a :: b :: q) :
    (∃ g', JInv h r D I m g' (tlStep h s a (b :: q))) ∧
      (tlStep h s a (b :: q)).queue.length + (h.next - (tlStep h s a (b :: q)).new.length) < s.queue.length + (h.next - s.new.length) ∧
      (tlStep h s a (b :: q)).queue ≠ [] := by
  have hsrt := j.srt
  rw [hq, List.pairwise_cons] at hsrt
  obtain ⟨hfront, hsrt⟩ := hsrt
  have haq : a ∈ s.queue := by rw [hq]; exact List.mem_cons_self ..
  have hsub : ∀ v ∈ b :: q, v ∈ s.queue := fun v hv => by rw [hq]; exact List.mem_cons_of_mem _ hv
  have hav := j.qv a haq
  have hout : ∀ v, v ∉ b :: q → v = a ∨ v ∉ s.queue := by
    intro v hv
    by_cases e : v = a
    · exact Or.inl e
    · right
      rw [hq]
      simp only [List.mem_cons, not_or] at hv ⊢
      exact ⟨e, hv⟩
  have hold : ∀ v, Vis h r s v → v ∉ b :: q → ∀ x ∈ b :: q, g v ≤ g x := by
    intro v hv hn x hx
    rcases hout v hn with rfl | hn
    · exact hfront x hx
    · exact j.old v hv hn x (hsub x hx)
  cases hp : h.parent a with
  | none =>
    have har := eq_root w hav.1 hp
    have hst : tlStep h s a (b :: q) = { s with queue := b :: q, highest := some a } := by
      unfold tlStep
      rw [hp]
    rw [hst]
    refine ⟨⟨g, fun v hv => j.qv v (hsub v hv), j.via, j.inp, j.low, hsrt, fun x hx y hy => j.near x (hsub x hx) y (hsub y hy), hold,
      fun hc => (by cases hc), ?_, j.newIn, j.newNd⟩, ?_, by simp⟩
    · intro t ht
      have : t = a := by injection ht with ht; exact ht.symm
      subst this
      refine ⟨har, har ▸ hav, ?_⟩
      cases hh : s.highest with
      | some t' => exact (j.top t' hh).2.2
      | none =>
        obtain ⟨i, hi, e⟩ := hm
        obtain ⟨hiv, hi0⟩ := j.inp i hi
        obtain ⟨u, hu, hle⟩ := climb hD j hh _ i rfl hiv
        have h1 : g t ≤ g u := by
          rw [hq] at hu
          rcases List.mem_cons.1 hu with rfl | hu
          · exact Nat.le_refl _
          · exact hfront u hu
        have h2 := j.low t hav
        rw [har] at h1 h2
        rw [hD.root] at h2
        omega
    · rw [hq]
      simp only [List.length_cons]
      omega
  | some p =>
    have hpin := parent_inTree w hav.1 hp
    have hda := hD.child a p hav.1 hp
    by_cases hpm : (s.mark (h.ord p)).isSome
    · have hst : tlStep h s a (b :: q) = { s with queue := b :: q, mark := upd s.mark (h.ord p) (some .sure) } := by
        unfold tlStep
        rw [hp]
        simp only [hpm, if_true]
      rw [hst]
      have hpv : Vis h r s p := ⟨hpin, hpm⟩
      have hvis : ∀ v, Vis h r { s with queue := b :: q, mark := upd s.mark (h.ord p) (some .sure) } v ↔ Vis h r s v := by
        intro v
        unfold Vis upd
        simp only
        by_cases e : h.ord v = h.ord p
        · rw [if_pos e, e]
          simp [hpm]
        · rw [if_neg e]
      refine ⟨⟨g, fun v hv => (hvis v).2 (j.qv v (hsub v hv)), ?_, fun i hi => ⟨(hvis i).2 (j.inp i hi).1, (j.inp i hi).2⟩,
        fun v hv => j.low v ((hvis v).1 hv), hsrt, fun x hx y hy => j.near x (hsub x hx) y (hsub y hy),
        fun v hv => hold v ((hvis v).1 hv), ?_, ?_, fun e he => ⟨(j.newIn e he).1, (hvis _).2 (j.newIn e he).2⟩, j.newNd⟩, ?_, by simp⟩
      · intro v c hv hc
        simp only [upd] at hc
        split at hc
        · cases hc
        · obtain ⟨h1, h2⟩ := j.via v c hv hc
          exact ⟨(hvis c).2 h1, h2⟩
      · intro hh v hv hn
        rcases hout v hn with rfl | hn
        · refine ⟨p, hp, (hvis p).2 hpv, ?_⟩
          by_cases hpq : p ∈ s.queue
          · exact j.near v haq p hpq
          · have := j.old p hpv hpq v haq
            omega
        · obtain ⟨p', h1, h2, h3⟩ := j.up hh v ((hvis v).1 hv) hn
          exact ⟨p', h1, (hvis p').2 h2, h3⟩
      · intro t ht
        obtain ⟨h1, h2, h3⟩ := j.top t ht
        exact ⟨h1, (hvis r).2 h2, h3⟩
      · rw [hq]
        simp only [List.length_cons]
        omega
    · have hpnv : ¬ Vis h r s p := fun hv => hpm hv.2
      have hdict : dictSet s.new (h.ord p) p = s.new ++ [(h.ord p, p)] := by
        unfold dictSet
        rw [if_neg]
        intro hany
        obtain ⟨e, he, hk⟩ := List.any_eq_true.1 hany
        obtain ⟨h1, h2⟩ := j.newIn e he
        have : e.2 = p := w.ord_inj h2.1 hpin (by rw [← h1]; simpa using hk)
        exact hpnv (this ▸ h2)
      have hst : tlStep h s a (b :: q) =
          { s with queue := b :: q ++ [p], mark := upd s.mark (h.ord p) (some (.via a)), new := s.new ++ [(h.ord p, p)] } := by
        unfold tlStep
        rw [hp]
        simp only [hpm, hdict]
        rfl
      rw [hst]
      have hvis : ∀ v, Vis h r { s with queue := b :: q ++ [p], mark := upd s.mark (h.ord p) (some (.via a)), new := s.new ++ [(h.ord p, p)] } v ↔
          Vis h r s v ∨ v = p := by
        intro v
        unfold Vis upd
        simp only
        by_cases e : h.ord v = h.ord p
        · rw [if_pos e]
          constructor
          · rintro ⟨h1, _⟩
            exact Or.inr (w.ord_inj h1 hpin e)
          · rintro (h1 | rfl)
            · exact ⟨h1.1, rfl⟩
            · exact ⟨hpin, rfl⟩
        · rw [if_neg e]
          constructor
          · exact Or.inl
          · rintro (h1 | rfl)
            · exact h1
            · exact absurd rfl e
      have hne : ∀ v, Vis h r s v → v ≠ p := fun v hv e => hpnv (e ▸ hv)
      have hg : ∀ v, Vis h r s v → upd g p (g a + 1) v = g v := fun v hv => by unfold upd; rw [if_neg (hne v hv)]
      have hgp : upd g p (g a + 1) p = g a + 1 := by unfold upd; rw [if_pos rfl]
      have hq' : ∀ v ∈ b :: q ++ [p], v ∈ b :: q ∨ v = p := fun v hv => by simpa [or_assoc] using hv
      have hvq : ∀ v ∈ b :: q, Vis h r s v := fun v hv => j.qv v (hsub v hv)
      refine ⟨⟨upd g p (g a + 1), ?_, ?_, ?_, ?_, ?_, ?_, ?_, ?_, ?_, ?_, ?_⟩, ?_, by simp⟩
      · intro v hv
        rcases hq' v hv with hv | hv
        · exact (hvis v).2 (Or.inl (hvq v hv))
        · exact (hvis v).2 (Or.inr hv)
      · intro v c hv hc
        simp only [upd] at hc
        split at hc
        · rename_i e
          have hvp : v = p := w.ord_inj hv hpin e
          have hca : c = a := by injection hc with hc; injection hc with hc; exact hc.symm
          subst hvp hca
          exact ⟨(hvis _).2 (Or.inl hav), hp, by rw [hgp, hg _ hav], by simp⟩
        · obtain ⟨h1, h2, h3, h4⟩ := j.via v c hv hc
          obtain ⟨e, he, rfl⟩ := List.mem_map.1 h4
          refine ⟨(hvis c).2 (Or.inl h1), h2, ?_, ?_⟩
          · rw [hg c h1, hg _ (j.newIn e he).2, h3]
          · rw [List.map_append]
            exact List.mem_append_left _ h4
      · intro i hi
        obtain ⟨h1, h2⟩ := j.inp i hi
        exact ⟨(hvis i).2 (Or.inl h1), by rw [hg i h1, h2]⟩
      · intro v hv
        rcases (hvis v).1 hv with hv | rfl
        · rw [hg v hv]
          exact j.low v hv
        · rw [hgp]
          have := j.low a hav
          omega
      · rw [List.pairwise_append]
        refine ⟨hsrt.imp_of_mem ?_, List.pairwise_singleton _ _, ?_⟩
        · intro x y hx hy hxy
          rw [hg x (hvq x hx), hg y (hvq y hy)]
          exact hxy
        · intro x hx y hy
          rw [List.mem_singleton.1 hy, hgp, hg x (hvq x hx)]
          exact j.near a haq x (hsub x hx)
      · intro x hx y hy
        rcases hq' x hx with hx | rfl
        · have hgx := hfront x hx
          rw [hg x (hvq x hx)]
          rcases hq' y hy with hy | rfl
          · rw [hg y (hvq y hy)]
            exact j.near x (hsub x hx) y (hsub y hy)
          · rw [hgp]
            omega
        · rw [hgp]
          rcases hq' y hy with hy | rfl
          · rw [hg y (hvq y hy)]
            have := j.near a haq y (hsub y hy)
            omega
          · rw [hgp]
            omega
      · intro v hvv hn x hx
        rcases (hvis v).1 hvv with hv | rfl
        · rw [hg v hv]
          have hn' : v ∉ b :: q := fun hc => hn (List.mem_append_left _ hc)
          rcases hq' x hx with hx | rfl
          · rw [hg x (hvq x hx)]
            exact hold v hv hn' x hx
          · rw [hgp]
            rcases hout v hn' with e | hn'
            · rw [e]; omega
            · have := j.old v hv hn' a haq
              omega
        · exact absurd (by simp) hn
      · intro hh v hv hn
        rcases (hvis v).1 hv with hv | rfl
        · have hn' : v ∉ b :: q := fun hc => hn (List.mem_append_left _ hc)
          rw [hg v hv]
          rcases hout v hn' with rfl | hn'
          · exact ⟨p, hp, (hvis p).2 (Or.inr rfl), by rw [hgp]; exact Nat.le_refl _⟩
          · obtain ⟨p', h1, h2, h3⟩ := j.up hh v hv hn'
            exact ⟨p', h1, (hvis p').2 (Or.inl h2), by rw [hg p' h2]; exact h3⟩
        · exact absurd (by simp) hn
      · intro t ht
        obtain ⟨h1, h2, h3⟩ := j.top t ht
        exact ⟨h1, (hvis r).2 (Or.inl h2), by rw [hg r h2, h3]⟩
      · intro e he
        rcases List.mem_append.1 he with he | he
        · exact ⟨(j.newIn e he).1, (hvis _).2 (Or.inl (j.newIn e he).2)⟩
        · rw [List.mem_singleton.1 he]
          exact ⟨rfl, (hvis _).2 (Or.inr rfl)⟩
      · rw [List.map_append, List.nodup_append]
        refine ⟨j.newNd, by simp, ?_⟩
        intro x hx y hy e
        obtain ⟨e', he, rfl⟩ := List.mem_map.1 hx
        have : y = p := by simpa using hy
        exact hpnv (by rw [← this, ← e]; exact (j.newIn e' he).2)
      · have hlen : s.new.length + 1 ≤ h.next := by
          have hnd : (p :: s.new.map (·.2)).Nodup := by
            rw [List.nodup_cons]
            refine ⟨fun hx => ?_, j.newNd⟩
            obtain ⟨e', he, e⟩ := List.mem_map.1 hx
            exact hpnv (e ▸ (j.newIn e' he).2)
          have := length_le_of_nodup_subset (l := p :: s.new.map (·.2)) (m := List.range h.next) hnd (fun x hx => by
            rw [List.mem_range]
            rcases List.mem_cons.1 hx with rfl | hx
            · exact lt_next w hr hpin
            · obtain ⟨e', he, rfl⟩ := List.mem_map.1 hx
              exact lt_next w hr (j.newIn e' he).2.1)
          simpa using this
        rw [hq]
        simp only [List.length_cons, List.length_append, List.length_nil]
        omega

theorem loop (w : WF h r) (hr : r < h.next) {D : Nat → Nat} (hD : Depths h r D) {I : List Nat} {m : Nat} (hm : ∃ i ∈ I, D i = m) :
    ∀ (f : Nat) (g : Nat → Nat) (s : TL), JInv h r D I m g s → s.queue ≠ [] → s.queue.length + (h.next - s.new.length) ≤ f →
      ∃ s' g', tlLoop h f s = some s' ∧ JInv h r D I m g' s' ∧ ∃ t, s'.queue = [t] := by
  intro f
  induction f with
  | zero =>
    intro g s j hne hf
    cases hq : s.queue with
    | nil => exact absurd hq hne
    | cons a q => rw [hq] at hf; simp at hf
  | succ f ih =>
    intro g s j hne hf
    unfold tlLoop
    split
    · rename_i a b q hq
      obtain ⟨⟨g', j'⟩, hlt, hne'⟩ := jInv_step w hr hD hm j hq
      exact ih g' _ j' hne' (by omega)
    · rename_i hno
      refine ⟨s, g, rfl, j, ?_⟩
      cases hq : s.queue with
      | nil => exact absurd hq hne
      | cons a q =>
        cases q with
        | nil => exact ⟨a, rfl⟩
        | cons b q => exact absurd hq (hno a b q)

theorem down (w : WF h r) {D : Nat → Nat} (hD : Depths h r D) {I : List Nat} {m : Nat} {g : Nat → Nat} {s : TL} (j : JInv h r D I m g s) :
    ∀ (f : Nat) (new : List (Nat × Nat)) (t : Nat), Vis h r s t → D t + g t = m → g t < f →
      (∀ v c, InTree h r v → s.mark (h.ord v) = some (.via c) → g v ≤ g t → ∃ e ∈ new, e.1 = h.ord v) →
      ∃ top new', tlDown h s.mark f new t = some (top, new') ∧ Vis h r s top ∧ D top + g top = m := by
  intro f
  induction f with
  | zero => intro new t _ _ hf; omega
  | succ f ih =>
    intro new t ht hd hf hnew
    unfold tlDown
    cases hmk : s.mark (h.ord t) with
    | none => have := ht.2; rw [hmk] at this; cases this
    | some mk =>
      cases mk with
      | sure => exact ⟨t, new, rfl, ht, hd⟩
      | via c =>
        obtain ⟨h1, h2, h3, _⟩ := j.via t c ht.1 hmk
        have hdc := hD.child c t h1.1 h2
        simp only
        rw [if_pos]
        · refine ih _ c h1 (by omega) (by omega) ?_
          intro v c' hv hc' hg
          obtain ⟨e, he, hk⟩ := hnew v c' hv hc' (by omega)
          refine ⟨e, List.mem_filter.2 ⟨he, ?_⟩, hk⟩
          simp only [decide_eq_true_eq]
          rw [hk]
          intro ho
          have : v = t := w.ord_inj hv ht.1 ho
          subst this
          omega
        · obtain ⟨e, he, hk⟩ := hnew t c ht.1 hmk (Nat.le_refl _)
          exact List.any_eq_true.2 ⟨e, he, by simpa using hk⟩

/-- The depths. -/
def D (h : Heap) (x : Nat) : Nat := (Attrs.depthLoop h (h.next + 2) (some x) 0).getD 0

theorem depth_D (w : WF h r) (hr : IsTree h r) {x : Nat} (hx : InTree h r x) : DepthIs h x (D h x) := by
  obtain ⟨n, h1, h2⟩ := Attrs.exists_depth w hx
  have := Attrs.words_le_next w
  unfold D
  rw [Attrs.depthLoop_eq w hr h1 hx (h.next + 2) 0 (by omega)]
  simpa using h1

theorem depths (w : WF h r) (hr : IsTree h r) : Depths h r (D h) := by
  refine ⟨depth_unique (depth_D w hr (Or.inl rfl)) (.root w.rootParent), fun x p hx hp => ?_⟩
  exact depth_unique (depth_D w hr hx) (.child hp (depth_D w hr (parent_inTree w hx hp)))

theorem D_le (w : WF h r) (hr : IsTree h r) {x : Nat} (hx : InTree h r x) : D h x ≤ h.next := by
  obtain ⟨n, h1, h2⟩ := Attrs.exists_depth w hx
  have := Attrs.words_le_next w
  have := depth_unique (depth_D w hr hx) h1
  omega

theorem exists_min (D : Nat → Nat) : ∀ {I : List Nat}, I ≠ [] → ∃ i ∈ I, ∀ k ∈ I, D i ≤ D k := by
  intro I
  induction I with
  | nil => intro hne; exact absurd rfl hne
  | cons a I ih =>
    intro _
    by_cases hI : I = []
    · subst hI
      exact ⟨a, List.mem_cons_self .., fun k hk => by rw [List.mem_singleton.1 hk]; exact Nat.le_refl _⟩
    · obtain ⟨i, hi, hle⟩ := ih hI
      by_cases hai : D a ≤ D i
      · refine ⟨a, List.mem_cons_self .., fun k hk => ?_⟩
        rcases List.mem_cons.1 hk with rfl | hk
        · exact Nat.le_refl _
        · have := hle k hk
          omega
      · refine ⟨i, List.mem_cons_of_mem _ hi, fun k hk => ?_⟩
        rcases List.mem_cons.1 hk with rfl | hk
        · omega
        · exact hle k hk

/-- C21 (partial): for any non-empty list of nodes, in any order, even if a node occurs twice, `find_minimal_common_treelet` ends without an
exception. The top it returns is a node of the tree; it is not deeper than any of the given nodes, and if it is one of them, its depth is the
smallest of their depths. (It need not govern the others: `C21_treelet_violated`.) -/
theorem C21_any_partial (hh : Reachable h) (hr : IsTree h r) {I : List Nat} (hne : I ≠ []) (hin : ∀ i ∈ I, InTree h r i) :
    ∃ top added, treelet h I = some (top, added) ∧ InTree h r top ∧
      ∃ d, DepthIs h top d ∧ ∀ i ∈ I, ∀ n, DepthIs h i n → d ≤ n := by
  have w := inv_reachable hh r hr
  have hD := depths w hr
  obtain ⟨i, hi, hmin⟩ := exists_min (D h) hne
  obtain ⟨s, g, hs, j, t, hq⟩ := loop w hr.1 hD ⟨i, hi, rfl⟩ (I.length + h.next) _ _ (jInv_init w hin hmin) hne (by simp)
  -- the node from which the second loop starts
  have hstart : ∃ u, (s.highest = some u ∨ (s.highest = none ∧ s.queue.head? = some u)) ∧ Vis h r s u ∧ D h u + g u = D h i := by
    cases hhi : s.highest with
    | some u =>
      obtain ⟨rfl, h2, h3⟩ := j.top u hhi
      exact ⟨u, Or.inl rfl, h2, by rw [hD.root, h3]; omega⟩
    | none =>
      obtain ⟨h1, h2⟩ := j.inp i hi
      obtain ⟨u, hu, hle⟩ := climb hD j hhi _ i rfl h1
      rw [hq, List.mem_singleton] at hu
      subst hu
      have hv := j.qv u (by rw [hq]; exact List.mem_singleton.2 rfl)
      have := j.low u hv
      exact ⟨u, Or.inr ⟨rfl, by rw [hq]; rfl⟩, hv, by omega⟩
  obtain ⟨u, hu, huv, hud⟩ := hstart
  have hle := D_le w hr (hin i hi)
  obtain ⟨top, new, hdown, htv, htd⟩ := down w hD j (h.next + 1) s.new u huv hud (by omega) (by
    intro v c hv hc _
    obtain ⟨-, -, -, h4⟩ := j.via v c hv hc
    obtain ⟨e, he, rfl⟩ := List.mem_map.1 h4
    exact ⟨e, he, (j.newIn e he).1⟩)
  refine ⟨top, new.map (·.2), ?_, htv.1, D h top, depth_D w hr htv.1, ?_⟩
  · unfold treelet tlClimb
    rw [hs]
    rcases hu with e | ⟨e, e'⟩
    · simp only [e, hdown, Option.map_some]
    · simp only [e, e', hdown, Option.map_some]
  · intro k hk n hn
    have h1 := depth_unique hn (depth_D w hr (hin k hk))
    have h2 := hmin k hk
    omega

/-- The nodes of `C21_treelet_violated`, and the same node twice: the parent is returned. -/
example : treelet exTl [4, 1] = some (1, [3, 2]) ∧ treelet exTl [3, 3] = some (2, [2]) := by decide

end Verif.Tree.TreeletAny
