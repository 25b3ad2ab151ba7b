import Verif.Tree.Nonproj

/-!
# Property C21: the minimal common treelet
-/

namespace Verif.Tree

section
variable {h : Heap} {r : Nat}

/-- The specification of `find_minimal_common_treelet(*I)`: `top` governs (or is) every given node, it is
the lowest such node, and `added` are exactly the nodes on the paths from the given nodes up to `top` that
were not given, each once. -/
structure IsTreelet (h : Heap) (r : Nat) (I : List Nat) (top : Nat) (added : List Nat) : Prop where
  inTree : InTree h r top
  common : ∀ i ∈ I, InSubtree h top i
  lowest : ∀ a, InTree h r a → (∀ i ∈ I, InSubtree h a i) → InSubtree h a top
  nodup : added.Nodup
  added : ∀ v, v ∈ added ↔ InTree h r v ∧ v ∉ I ∧ InSubtree h top v ∧ ∃ i ∈ I, InSubtree h v i

/-- `DepthIs h x n`: the path from `x` to the technical root has `n` edges. -/
inductive DepthIs (h : Heap) : Nat → Nat → Prop
  | root {x : Nat} : h.parent x = none → DepthIs h x 0
  | child {x p n : Nat} : h.parent x = some p → DepthIs h p n → DepthIs h x (n + 1)

theorem InSubtree.trans {a b c : Nat} (h1 : InSubtree h a b) (h2 : InSubtree h b c) :
    InSubtree h a c := by
  rcases h1 with rfl | h1
  · exact h2
  · rcases h2 with rfl | h2
    · exact Or.inr h1
    · exact Or.inr (h1.trans h2)

/-- Marked nodes. -/
def Vis (h : Heap) (r : Nat) (s : TL) (v : Nat) : Prop := InTree h r v ∧ (s.mark (h.ord v)).isSome

/-- Invariant of the climbing loop. -/
structure TInv (h : Heap) (r : Nat) (I : List Nat) (s : TL) : Prop where
  qnd : s.queue.Nodup
  qvis : ∀ v ∈ s.queue, Vis h r s v
  up : ∀ v, Vis h r s v → v ∉ s.queue → ∃ p, h.parent v = some p ∧ Vis h r s p
  low : ∀ v, Vis h r s v → ∃ i ∈ I, InSubtree h v i
  inp : ∀ i ∈ I, s.mark (h.ord i) = some .sure
  via : ∀ v c, InTree h r v → s.mark (h.ord v) = some (.via c) →
    v ∉ I ∧ Vis h r s c ∧ c ∉ s.queue ∧ h.parent c = some v ∧
      ∀ d, Vis h r s d → d ∉ s.queue → h.parent d = some v → d = c
  sure : ∀ v, InTree h r v → s.mark (h.ord v) = some .sure →
    v ∈ I ∨ ∃ c d, c ≠ d ∧ Vis h r s c ∧ Vis h r s d ∧ h.parent c = some v ∧ h.parent d = some v
  newKey : ∀ e ∈ s.new, e.1 = h.ord e.2
  newNd : (s.new.map (·.2)).Nodup
  newIff : ∀ v, v ∈ s.new.map (·.2) ↔ Vis h r s v ∧ v ∉ I

theorem tInv_init (w : WF h r) {I : List Nat} (hn : I.Nodup) (hin : ∀ i ∈ I, InTree h r i) :
    TInv h r I ⟨I, tlMarks h I, [], none⟩ := by
  have hm : ∀ v, InTree h r v → (tlMarks h I (h.ord v)).isSome → v ∈ I := by
    intro v hv hs
    unfold tlMarks at hs
    split at hs
    · rename_i hany
      rw [List.any_eq_true] at hany
      obtain ⟨i, hi, he⟩ := hany
      have := w.ord_inj (hin i hi) hv (by simpa using he)
      exact this ▸ hi
    · simp at hs
  have hs : ∀ i ∈ I, tlMarks h I (h.ord i) = some .sure := by
    intro i hi
    unfold tlMarks
    rw [if_pos (List.any_eq_true.2 ⟨i, hi, by simp⟩)]
  constructor
  · exact hn
  · intro v hv; exact ⟨hin v hv, by simp only [hs v hv]; rfl⟩
  · intro v hv hq; exact absurd (hm v hv.1 hv.2) hq
  · intro v hv; exact ⟨v, hm v hv.1 hv.2, Or.inl rfl⟩
  · exact hs
  · intro v c hv he
    have := hs v (hm v hv (by rw [show tlMarks h I (h.ord v) = _ from he]; rfl))
    rw [show tlMarks h I (h.ord v) = _ from he] at this
    simp at this
  · intro v hv he
    exact Or.inl (hm v hv (by rw [show tlMarks h I (h.ord v) = _ from he]; rfl))
  · simp
  · simp
  · intro v
    simp only [List.map_nil, List.not_mem_nil, false_iff]
    rintro ⟨hv, hn⟩
    exact hn (hm v hv.1 hv.2)

/-- One round that does not pop the technical root keeps the invariant. -/
theorem tInv_step (w : WF h r) (hr : r < h.next) {I : List Nat} {s : TL} {a : Nat} {q : List Nat}
    (hin : ∀ i ∈ I, InTree h r i)
    (t : TInv h r I s) (hq : s.queue = a :: q) {p : Nat} (hp : h.parent a = some p) :
    TInv h r I (tlStep h s a q) ∧
      (tlStep h s a q).queue.length + (h.next - (tlStep h s a q).new.length) <
        s.queue.length + (h.next - s.new.length) := by
  have hnd := t.qnd
  rw [hq, List.nodup_cons] at hnd
  have haV : Vis h r s a := t.qvis a (by rw [hq]; exact List.mem_cons_self)
  have haq : a ∈ s.queue := by rw [hq]; exact List.mem_cons_self
  have haw : a ∈ h.words r := by
    rcases haV.1 with rfl | haw
    · rw [w.rootParent] at hp; simp at hp
    · exact haw
  have hpin := w.parent_in haw hp
  have hpa : p ≠ a := by
    intro e; subst e; exact w.anc_irrefl haV.1 (.parent hp)
  have hqq : ∀ v, v ∈ q → v ∈ s.queue := by intro v hv; rw [hq]; exact List.mem_cons_of_mem _ hv
  have hnq : ∀ v, v ∉ q → v ≠ a → v ∉ s.queue := by
    intro v h1 h2 h3
    rw [hq] at h3
    rcases List.mem_cons.1 h3 with e | h3
    · exact h2 e
    · exact h1 h3
  have hordp : ∀ v, InTree h r v → v ≠ p → h.ord v ≠ h.ord p := by
    intro v hv hne e
    exact hne (w.ord_inj hv hpin e)
  unfold tlStep
  rw [hp]
  simp only
  by_cases hs : (s.mark (h.ord p)).isSome
  · rw [if_pos hs]
    have hV : ∀ v, Vis h r { s with queue := q, mark := upd s.mark (h.ord p) (some .sure) } v ↔
        Vis h r s v := by
      intro v
      show InTree h r v ∧ (upd s.mark (h.ord p) (some .sure) (h.ord v)).isSome = true ↔
        InTree h r v ∧ (s.mark (h.ord v)).isSome = true
      constructor
      · rintro ⟨h1, h2⟩
        refine ⟨h1, ?_⟩
        by_cases e : v = p
        · subst e; exact hs
        · rw [upd_ne _ _ (hordp v h1 e)] at h2; exact h2
      · rintro ⟨h1, h2⟩
        refine ⟨h1, ?_⟩
        by_cases e : v = p
        · subst e; rw [upd_same]; rfl
        · rw [upd_ne _ _ (hordp v h1 e)]; exact h2
    refine ⟨?_, by simp [hq]⟩
    constructor
    · exact hnd.2
    · intro v hv; exact (hV v).2 (t.qvis v (hqq v hv))
    · intro v hv hvq
      by_cases e : v = a
      · subst e; exact ⟨p, hp, (hV p).2 ⟨hpin, hs⟩⟩
      · obtain ⟨p', h1, h2⟩ := t.up v ((hV v).1 hv) (hnq v hvq e)
        exact ⟨p', h1, (hV p').2 h2⟩
    · intro v hv; exact t.low v ((hV v).1 hv)
    · intro i hi
      show upd s.mark _ _ _ = _
      by_cases e : i = p
      · subst e; exact upd_same ..
      · rw [upd_ne _ _ (hordp i (hin i hi) e)]; exact t.inp i hi
    · intro v c hv hm
      have hm' : upd s.mark (h.ord p) (some .sure) (h.ord v) = some (.via c) := hm
      have hvp : v ≠ p := by
        intro e; subst e; rw [upd_same] at hm'; simp at hm'
      rw [upd_ne _ _ (hordp v hv hvp)] at hm'
      obtain ⟨h1, h2, h3, h4, h5⟩ := t.via v c hv hm'
      refine ⟨h1, (hV c).2 h2, fun hc => h3 (hqq c hc), h4, ?_⟩
      intro d hd hdq hdv
      by_cases e : d = a
      · subst e; rw [hp] at hdv; cases hdv; exact absurd rfl hvp
      · exact h5 d ((hV d).1 hd) (hnq d hdq e) hdv
    · intro v hv hm
      have hm' : upd s.mark (h.ord p) (some .sure) (h.ord v) = some .sure := hm
      by_cases hvp : v = p
      · subst hvp
        cases hc : s.mark (h.ord v) with
        | none => rw [hc] at hs; simp at hs
        | some m =>
          cases m with
          | sure =>
            rcases t.sure v hv hc with h1 | ⟨c, d, h1, h2, h3, h4, h5⟩
            · exact Or.inl h1
            · exact Or.inr ⟨c, d, h1, (hV c).2 h2, (hV d).2 h3, h4, h5⟩
          | via c =>
            obtain ⟨_, h2, h3, h4, _⟩ := t.via v c hv hc
            exact Or.inr ⟨c, a, fun e => h3 (e ▸ haq), (hV c).2 h2, (hV a).2 haV, h4, hp⟩
      · rw [upd_ne _ _ (hordp v hv hvp)] at hm'
        rcases t.sure v hv hm' with h1 | ⟨c, d, h1, h2, h3, h4, h5⟩
        · exact Or.inl h1
        · exact Or.inr ⟨c, d, h1, (hV c).2 h2, (hV d).2 h3, h4, h5⟩
    · exact t.newKey
    · exact t.newNd
    · intro v; exact (t.newIff v).trans (by rw [hV])
  · rw [if_neg hs]
    have hpn : ¬ Vis h r s p := fun hv => hs hv.2
    have hpI : p ∉ I := fun hi => hs (by rw [t.inp p hi]; rfl)
    have hdict : dictSet s.new (h.ord p) p = s.new ++ [(h.ord p, p)] := by
      unfold dictSet
      rw [if_neg]
      intro hany
      rw [List.any_eq_true] at hany
      obtain ⟨e, he, hk⟩ := hany
      have hk' : e.1 = h.ord p := by simpa using hk
      have := (t.newIff e.2).1 (List.mem_map_of_mem he)
      rw [t.newKey e he] at hk'
      exact hpn (w.ord_inj this.1.1 hpin hk' ▸ this.1)
    have hV : ∀ v, Vis h r { s with queue := q ++ [p], mark := upd s.mark (h.ord p) (some (.via a)), new := dictSet s.new (h.ord p) p } v ↔ Vis h r s v ∨ v = p := by
      intro v
      show InTree h r v ∧ (upd s.mark (h.ord p) (some (.via a)) (h.ord v)).isSome = true ↔
        (InTree h r v ∧ (s.mark (h.ord v)).isSome = true) ∨ v = p
      constructor
      · rintro ⟨h1, h2⟩
        by_cases e : v = p
        · exact Or.inr e
        · rw [upd_ne _ _ (hordp v h1 e)] at h2; exact Or.inl ⟨h1, h2⟩
      · rintro (⟨h1, h2⟩ | rfl)
        · refine ⟨h1, ?_⟩
          by_cases e : v = p
          · subst e; rw [upd_same]; rfl
          · rw [upd_ne _ _ (hordp v h1 e)]; exact h2
        · exact ⟨hpin, by rw [upd_same]; rfl⟩
    have hpq : p ∉ q := fun hm => hpn (t.qvis p (hqq p hm))
    have hnew : (s.new.map (·.2)).Nodup ∧ ∀ v ∈ s.new.map (·.2), InTree h r v :=
      ⟨t.newNd, fun v hv => ((t.newIff v).1 hv).1.1⟩
    constructor
    · constructor
      · show (q ++ [p]).Nodup
        rw [List.nodup_append]
        refine ⟨hnd.2, by simp, ?_⟩
        intro x hx y hy e
        rw [List.mem_singleton] at hy
        subst hy e
        exact hpq hx
      · intro v hv
        rcases List.mem_append.1 (show v ∈ q ++ [p] from hv) with hv | hv
        · exact (hV v).2 (Or.inl (t.qvis v (hqq v hv)))
        · exact (hV v).2 (Or.inr (List.mem_singleton.1 hv))
      · intro v hv hvq
        have hvq' : v ∉ q ++ [p] := hvq
        rw [List.mem_append, List.mem_singleton, not_or] at hvq'
        rcases (hV v).1 hv with hv | rfl
        · by_cases e : v = a
          · subst e; exact ⟨p, hp, (hV p).2 (Or.inr rfl)⟩
          · obtain ⟨p', h1, h2⟩ := t.up v hv (hnq v hvq'.1 e)
            exact ⟨p', h1, (hV p').2 (Or.inl h2)⟩
        · exact absurd rfl hvq'.2
      · intro v hv
        rcases (hV v).1 hv with hv | rfl
        · exact t.low v hv
        · obtain ⟨i, hi, hs⟩ := t.low a haV
          exact ⟨i, hi, InSubtree.trans (Or.inr (.parent hp)) hs⟩
      · intro i hi
        show upd s.mark _ _ _ = _
        rw [upd_ne _ _ (hordp i (hin i hi) (fun e => hpI (e ▸ hi)))]; exact t.inp i hi
      · intro v c hv hm
        have hm' : upd s.mark (h.ord p) (some (.via a)) (h.ord v) = some (.via c) := hm
        show _ ∧ _ ∧ c ∉ q ++ [p] ∧ _ ∧ _
        by_cases hvp : v = p
        · subst hvp
          rw [upd_same] at hm'
          cases hm'
          refine ⟨hpI, (hV a).2 (Or.inl haV), ?_, hp, ?_⟩
          · rw [List.mem_append, List.mem_singleton, not_or]
            exact ⟨hnd.1, fun e => hpa e.symm⟩
          · intro d hd hdq hdv
            have hdq' : d ∉ q ++ [v] := hdq
            rw [List.mem_append, List.mem_singleton, not_or] at hdq'
            rcases (hV d).1 hd with hd | rfl
            · apply Classical.byContradiction
              intro e
              obtain ⟨p', h1, h2⟩ := t.up d hd (hnq d hdq'.1 e)
              rw [hdv] at h1; cases h1
              exact hpn h2
            · exact absurd rfl hdq'.2
        · rw [upd_ne _ _ (hordp v hv hvp)] at hm'
          obtain ⟨h1, h2, h3, h4, h5⟩ := t.via v c hv hm'
          refine ⟨h1, (hV c).2 (Or.inl h2), ?_, h4, ?_⟩
          · rw [List.mem_append, List.mem_singleton, not_or]
            refine ⟨fun hc => h3 (hqq c hc), ?_⟩
            intro e; subst e; exact hpn h2
          · intro d hd hdq hdv
            have hdq' : d ∉ q ++ [p] := hdq
            rw [List.mem_append, List.mem_singleton, not_or] at hdq'
            by_cases e : d = a
            · subst e; rw [hp] at hdv; cases hdv; exact absurd rfl hvp
            · rcases (hV d).1 hd with hd | rfl
              · exact h5 d hd (hnq d hdq'.1 e) hdv
              · exact absurd rfl hdq'.2
      · intro v hv hm
        have hm' : upd s.mark (h.ord p) (some (.via a)) (h.ord v) = some .sure := hm
        by_cases hvp : v = p
        · subst hvp; rw [upd_same] at hm'; simp at hm'
        · rw [upd_ne _ _ (hordp v hv hvp)] at hm'
          rcases t.sure v hv hm' with h1 | ⟨c, d, h1, h2, h3, h4, h5⟩
          · exact Or.inl h1
          · exact Or.inr ⟨c, d, h1, (hV c).2 (Or.inl h2), (hV d).2 (Or.inl h3), h4, h5⟩
      · intro e he
        rw [show ({ s with queue := q ++ [p], mark := upd s.mark (h.ord p) (some (.via a)), new := dictSet s.new (h.ord p) p } : TL).new = _ from hdict] at he
        rcases List.mem_append.1 he with he | he
        · exact t.newKey e he
        · rw [List.mem_singleton.1 he]
      · show ((dictSet s.new (h.ord p) p).map (·.2)).Nodup
        rw [hdict, List.map_append, List.nodup_append]
        refine ⟨t.newNd, by simp, ?_⟩
        intro x hx y hy e
        simp only [List.map_cons, List.map_nil, List.mem_singleton] at hy
        subst hy e
        exact hpn ((t.newIff _).1 hx).1
      · intro v
        rw [hV]
        show v ∈ (dictSet s.new (h.ord p) p).map (·.2) ↔ _
        rw [hdict, List.map_append, List.mem_append, t.newIff]
        simp only [List.map_cons, List.map_nil, List.mem_singleton]
        constructor
        · rintro (⟨h1, h2⟩ | rfl)
          · exact ⟨Or.inl h1, h2⟩
          · exact ⟨Or.inr rfl, hpI⟩
        · rintro ⟨h1 | h1, h2⟩
          · exact Or.inl ⟨h1, h2⟩
          · exact Or.inr h1
    · show (q ++ [p]).length + (h.next - (dictSet s.new (h.ord p) p).length) < _
      rw [hdict, hq]
      simp only [List.length_append, List.length_cons, List.length_nil]
      have := w.length_le_next hr (l := p :: s.new.map (·.2))
        (List.nodup_cons.2 ⟨fun hm => hpn ((t.newIff p).1 hm).1, hnew.1⟩) (by
          intro x hx
          rcases List.mem_cons.1 hx with rfl | hx
          · exact hpin
          · exact hnew.2 x hx)
      simp only [List.length_cons, List.length_map] at this
      omega

/-- `highest` is never reset. -/
theorem tlStep_highest {s : TL} {a : Nat} {q : List Nat} (hs : s.highest ≠ none) :
    (tlStep h s a q).highest ≠ none := by
  unfold tlStep
  split
  · simp
  · split <;> exact hs

theorem tlLoop_highest : ∀ (f : Nat) {s s' : TL}, s.highest ≠ none → tlLoop h f s = some s' →
    s'.highest ≠ none := by
  intro f
  induction f with
  | zero =>
    intro s s' hs he
    unfold tlLoop at he
    split at he
    · simp at he
    · cases he; exact hs
  | succ f ih =>
    intro s s' hs he
    unfold tlLoop at he
    split at he
    · exact ih (tlStep_highest hs) he
    · cases he; exact hs

theorem tlLoop_inv (w : WF h r) (hr : r < h.next) {I : List Nat} (hin : ∀ i ∈ I, InTree h r i) :
    ∀ (f : Nat) {s s' : TL}, TInv h r I s → s.queue ≠ [] → tlLoop h f s = some s' →
      s'.highest = none → TInv h r I s' ∧ ∃ t, s'.queue = [t] := by
  intro f
  have done : ∀ {s s' : TL}, TInv h r I s → s.queue ≠ [] → (∀ a b q, s.queue ≠ a :: b :: q) →
      s = s' → TInv h r I s' ∧ ∃ t, s'.queue = [t] := by
    intro s s' t hne hno e
    subst e
    refine ⟨t, ?_⟩
    cases hq : s.queue with
    | nil => exact absurd hq hne
    | cons a q =>
      cases q with
      | nil => exact ⟨a, rfl⟩
      | cons b q => exact absurd hq (hno a b q)
  induction f with
  | zero =>
    intro s s' t hne he hh
    unfold tlLoop at he
    split at he
    · simp at he
    · rename_i hno
      exact done t hne (fun a b q hq => hno a b q hq) (Option.some.inj he)
  | succ f ih =>
    intro s s' t hne he hh
    unfold tlLoop at he
    split at he
    · rename_i a b q hq
      cases hp : h.parent a with
      | none =>
        exfalso
        refine tlLoop_highest f ?_ he hh
        simp [tlStep, hp]
      | some p =>
        refine ih (tInv_step w hr hin t hq hp).1 ?_ he hh
        unfold tlStep
        rw [hp]
        simp only
        split <;> simp
    · rename_i hno
      exact done t hne (fun a b q hq => hno a b q hq) (Option.some.inj he)

/-- Walking up from a marked node to a node that is not below the front of the queue. -/
theorem vis_up {I : List Nat} {s : TL} (t : TInv h r I s) {v i : Nat} (ha : Anc h v i) :
    (∀ q ∈ s.queue, ¬ Anc h v q) → Vis h r s i →
      Vis h r s v ∧ ∃ d, Vis h r s d ∧ d ∉ s.queue ∧ h.parent d = some v ∧ InSubtree h d i := by
  induction ha with
  | parent hp =>
    rename_i i
    intro hq hi
    have hiq : i ∉ s.queue := fun hm => hq i hm (.parent hp)
    obtain ⟨p, h1, h2⟩ := t.up i hi hiq
    rw [hp] at h1; cases h1
    exact ⟨h2, i, hi, hiq, hp, Or.inl rfl⟩
  | step hp ha ih =>
    rename_i i p
    intro hq hi
    have hiq : i ∉ s.queue := fun hm => hq i hm (.step hp ha)
    obtain ⟨p', h1, h2⟩ := t.up i hi hiq
    rw [hp] at h1; cases h1
    obtain ⟨h3, d, h4, h5, h6, h7⟩ := ih hq h2
    exact ⟨h3, d, h4, h5, h6, h7.trans (Or.inr (.parent hp))⟩

/-- The descent: from a node governing all given nodes to the lowest one. -/
theorem tlDown_spec (w : WF h r) {I : List Nat} (hin : ∀ i ∈ I, InTree h r i)
    {s : TL} (t : TInv h r I s) : ∀ (f : Nat) (new : List (Nat × Nat)) (top : Nat), new.length < f →
      Vis h r s top → (∀ q ∈ s.queue, ¬ Anc h top q) → (∀ v, Vis h r s v → v ∈ s.queue → InSubtree h v top) →
      (∀ i ∈ I, InSubtree h top i) →
      (∀ e ∈ new, e.1 = h.ord e.2) → (new.map (·.2)).Nodup →
      (∀ v, v ∈ new.map (·.2) ↔ Vis h r s v ∧ v ∉ I ∧ InSubtree h top v) →
      ∃ res, tlDown h s.mark f new top = some res ∧ IsTreelet h r I res.1 (res.2.map (·.2)) := by
  intro f
  induction f with
  | zero => intro new top hf; omega
  | succ f ih =>
    intro new top hf hV hnq hqt hcom hkey hnd hnew
    have hIvis : ∀ i ∈ I, Vis h r s i := fun i hi => ⟨hin i hi, by rw [t.inp i hi]; rfl⟩
    unfold tlDown
    cases hm : s.mark (h.ord top) with
    | none => have := hV.2; rw [hm] at this; simp at this
    | some m =>
      cases m with
      | sure =>
        refine ⟨(top, new), rfl, hV.1, hcom, ?_, hnd, ?_⟩
        · intro a ha hca
          rcases t.sure top hV.1 hm with h1 | ⟨c, d, hcd, hc, hd, hcp, hdp⟩
          · exact hca top h1
          · obtain ⟨i, hi, hci⟩ := t.low c hc
            obtain ⟨j, hj, hdj⟩ := t.low d hd
            -- `a` and `top` are on the path from `i` to the root
            apply Classical.byContradiction
            intro hna
            have hlin : ∀ c i, i ∈ I → h.parent c = some top → InSubtree h c i → InSubtree h c a := by
              intro c i hi hcp hci
              have hai := hca i hi
              rcases hai with rfl | hai
              · rcases hci with rfl | hci
                · exact Or.inl rfl
                · exact Or.inr hci
              · rcases hci with rfl | hci
                · exfalso
                  obtain ⟨p, hp, hor⟩ := anc_iff.1 hai
                  rw [hcp] at hp; cases hp
                  rcases hor with rfl | hor
                  · exact hna (Or.inl rfl)
                  · exact hna (Or.inr hor)
                · rcases anc_linear hai hci with rfl | h1 | h1
                  · exact Or.inl rfl
                  · exfalso
                    obtain ⟨p, hp, hor⟩ := anc_iff.1 h1
                    rw [hcp] at hp; cases hp
                    rcases hor with rfl | hor
                    · exact hna (Or.inl rfl)
                    · exact hna (Or.inr hor)
                  · exact Or.inr h1
            have h1 := hlin c i hi hcp hci
            have h2 := hlin d j hj hdp hdj
            have hnot : ∀ c d, c ≠ d → InTree h r c → h.parent c = some top → h.parent d = some top →
                ¬ Anc h c d := by
              intro c d _ hcin hcp hdp hcd'
              obtain ⟨p, hp, hor⟩ := anc_iff.1 hcd'
              rw [hdp] at hp; cases hp
              rcases hor with rfl | hor
              · exact w.anc_irrefl hcin (.parent hcp)
              · exact w.anc_irrefl hcin (.step hcp hor)
            rcases h1 with rfl | h1 <;> rcases h2 with h2 | h2
            · exact hcd h2
            · exact hnot d a (fun e => hcd e.symm) hd.1 hdp hcp h2
            · subst h2; exact hnot c a hcd hc.1 hcp hdp h1
            · rcases anc_linear h1 h2 with e | e | e
              · exact hcd e
              · exact hnot c d hcd hc.1 hcp hdp e
              · exact hnot d c (fun e => hcd e.symm) hd.1 hdp hcp e
        · intro v
          rw [hnew]
          constructor
          · rintro ⟨h1, h2, h3⟩
            exact ⟨h1.1, h2, h3, t.low v h1⟩
          · rintro ⟨h1, h2, h3, i, hi, h4⟩
            refine ⟨?_, h2, h3⟩
            rcases h4 with rfl | h4
            · exact absurd hi h2
            · refine (vis_up t h4 ?_ (hIvis i hi)).1
              intro q hq hvq
              have := hqt q (t.qvis q hq) hq
              rcases h3 with rfl | h3
              · exact hnq q hq hvq
              · exact hnq q hq (h3.trans hvq)
      | via c =>
        obtain ⟨hcI, hcV, hcq, hcp, huniq⟩ := t.via top c hV.1 hm
        have hmem : top ∈ new.map (·.2) := (hnew top).2 ⟨hV, hcI, Or.inl rfl⟩
        obtain ⟨e, he, hee⟩ := List.mem_map.1 hmem
        have hany : new.any (fun e => e.1 = h.ord top) = true := by
          rw [List.any_eq_true]
          exact ⟨e, he, by simp [hkey e he, hee]⟩
        simp only
        rw [if_pos hany]
        have hbelow : ∀ v, Vis h r s v → InSubtree h top v → v ≠ top → InSubtree h c v := by
          intro v hv hs hne
          rcases hs with e | hs
          · exact absurd e hne
          · obtain ⟨_, d, hd, hdq, hdp, hdv⟩ := vis_up t hs hnq hv
            rw [← huniq d hd hdq hdp]; exact hdv
        have hfl : (new.filter (fun e => e.1 ≠ h.ord top)).length < new.length := by
          rcases Nat.lt_or_ge (new.filter (fun e => decide (e.1 ≠ h.ord top))).length new.length with h1 | h1
          · exact h1
          · have h2 := List.filter_sublist (l := new) (p := fun e => decide (e.1 ≠ h.ord top))
            have h3 := h2.eq_of_length_le h1
            rw [← h3] at he
            have := (List.mem_filter.1 he).2
            simp [hkey e (h3 ▸ he), hee] at this
        apply ih
        · omega
        · exact hcV
        · intro q hq hcq'
          exact hnq q hq ((Anc.parent hcp).trans hcq')
        · intro v hv hvq
          exact (hqt v hv hvq).trans (Or.inr (.parent hcp))
        · intro i hi
          refine hbelow i (hIvis i hi) (hcom i hi) ?_
          intro e; subst e; exact hcI hi
        · intro e he'
          exact hkey e (List.mem_filter.1 he').1
        · exact hnd.sublist (List.filter_sublist.map _)
        · intro v
          constructor
          · intro hv
            obtain ⟨e', he', hee'⟩ := List.mem_map.1 hv
            rw [List.mem_filter] at he'
            have h1 := (hnew v).1 (List.mem_map.2 ⟨e', he'.1, hee'⟩)
            refine ⟨h1.1, h1.2.1, hbelow v h1.1 h1.2.2 ?_⟩
            intro e
            have := he'.2
            rw [hkey e' he'.1, hee', e] at this
            simp at this
          · rintro ⟨h1, h2, h3⟩
            have h4 : v ∈ new.map (·.2) := (hnew v).2 ⟨h1, h2, InSubtree.trans (Or.inr (.parent hcp)) h3⟩
            obtain ⟨e', he', hee'⟩ := List.mem_map.1 h4
            refine List.mem_map.2 ⟨e', List.mem_filter.2 ⟨he', ?_⟩, hee'⟩
            rw [hkey e' he', hee']
            simp only [decide_eq_true_eq]
            intro e
            have := w.ord_inj h1.1 hV.1 e
            subst this
            rcases h3 with e | h3
            · subst e; exact w.anc_irrefl h1.1 (.parent hcp)
            · exact w.anc_irrefl h1.1 ((Anc.parent hcp).trans h3)

/-- If the technical root is not popped while other components are left, the result is right. -/
theorem treelet_of_climb (w : WF h r) (hr : r < h.next) {I : List Nat} (hn : I.Nodup) (hne : I ≠ [])
    (hin : ∀ i ∈ I, InTree h r i) {s : TL} (hs : tlClimb h I = some s) (hh : s.highest = none) :
    ∃ res, treelet h I = some res ∧ IsTreelet h r I res.1 res.2 := by
  obtain ⟨t, q, hq⟩ := tlLoop_inv w hr hin _ (tInv_init w hn hin) hne hs hh
  have hqV : Vis h r s q := t.qvis q (by rw [hq]; simp)
  have hall : ∀ v, InTree h r v → Vis h r s v → InSubtree h q v := by
    refine w.induct (fun v => Vis h r s v → InSubtree h q v) ?_ ?_
    · intro hv
      by_cases e : r = q
      · exact Or.inl e
      · obtain ⟨p, hp, _⟩ := t.up r hv (by rw [hq]; simpa using e)
        rw [w.rootParent] at hp; simp at hp
    · intro x p hx hp hpin ih hv
      by_cases e : x = q
      · exact Or.inl e
      · obtain ⟨p', hp', hv'⟩ := t.up x hv (by rw [hq]; simpa using e)
        rw [hp] at hp'; cases hp'
        exact (ih hv').trans (Or.inr (.parent hp))
  have hlen := w.length_le_next hr t.newNd (fun v hv => ((t.newIff v).1 hv).1.1)
  rw [List.length_map] at hlen
  obtain ⟨res, h1, h2⟩ := tlDown_spec w hin t (h.next + 1) s.new q (by omega) hqV
    (by intro q' hq'; rw [hq, List.mem_singleton] at hq'; subst hq'; exact w.anc_irrefl hqV.1)
    (by intro v _ hv; rw [hq, List.mem_singleton] at hv; exact Or.inl hv.symm)
    (fun i hi => hall i (hin i hi) ⟨hin i hi, by rw [t.inp i hi]; rfl⟩)
    t.newKey t.newNd
    (fun v => (t.newIff v).trans ⟨fun ⟨a, b⟩ => ⟨a, b, hall v a.1 a⟩, fun ⟨a, b, _⟩ => ⟨a, b⟩⟩)
  refine ⟨(res.1, res.2.map (·.2)), ?_, h2⟩
  unfold treelet
  rw [hs]
  simp only [hh, hq, List.head?_cons, h1, Option.map_some]

theorem depth_unique {x n m : Nat} (h1 : DepthIs h x n) (h2 : DepthIs h x m) : n = m := by
  induction h1 generalizing m with
  | root hp =>
    cases h2 with
    | root _ => rfl
    | child hp' _ => rw [hp] at hp'; simp at hp'
  | child hp _ ih =>
    cases h2 with
    | root hp' => rw [hp] at hp'; simp at hp'
    | child hp' hd => rw [hp] at hp'; cases hp'; rw [ih hd]

/-- Given nodes of equal depth: the queue is `q1` at depth `d + 1` followed by `q2` at depth `d`, or only
one node is left. -/
theorem tlLoop_levels (w : WF h r) (hr : r < h.next) {I : List Nat} (hin : ∀ i ∈ I, InTree h r i) :
    ∀ (f : Nat) (s : TL), TInv h r I s → s.highest = none →
      s.queue.length + (h.next - s.new.length) ≤ f →
      (∃ d q1 q2, s.queue = q1 ++ q2 ∧ (∀ v ∈ q1, DepthIs h v (d + 1)) ∧ (∀ v ∈ q2, DepthIs h v d)) →
      ∃ s', tlLoop h f s = some s' ∧ s'.highest = none := by
  intro f
  induction f with
  | zero =>
    intro s t hh hf _
    unfold tlLoop
    split
    · rename_i a b q hq
      rw [hq] at hf; simp at hf
    · exact ⟨s, rfl, hh⟩
  | succ f ih =>
    intro s t hh hf hlev
    unfold tlLoop
    split
    · rename_i a b q hq
      obtain ⟨d, q1, q2, hqq, h1, h2⟩ := hlev
      have hnd := t.qnd
      -- the popped node has depth `d + 1`, after moving to the next level if `q1` is empty
      have hlev' : ∃ d q1 q2, b :: q = q1 ++ q2 ∧ DepthIs h a (d + 1) ∧ (∀ v ∈ q1, DepthIs h v (d + 1)) ∧
          (∀ v ∈ q2, DepthIs h v d) := by
        cases q1 with
        | cons a' q1 =>
          rw [hq] at hqq
          simp only [List.cons_append, List.cons.injEq] at hqq
          obtain ⟨rfl, hqq⟩ := hqq
          exact ⟨d, q1, q2, hqq, h1 a List.mem_cons_self,
            fun v hv => h1 v (List.mem_cons_of_mem _ hv), h2⟩
        | nil =>
          rw [hq] at hqq
          simp only [List.nil_append] at hqq
          subst hqq
          cases d with
          | succ d =>
            exact ⟨d, b :: q, [], by simp, h2 a List.mem_cons_self,
              fun v hv => h2 v (List.mem_cons_of_mem _ hv), by simp⟩
          | zero =>
            -- two different nodes without a parent
            exfalso
            have hz : ∀ v, v ∈ a :: b :: q → v = r := by
              intro v hv
              have hd := h2 v hv
              have hvin := (t.qvis v (by rw [hq]; exact hv)).1
              rcases hvin with e | hvw
              · exact e
              · obtain ⟨p, hp, _⟩ := w.parentIn v hvw
                cases hd with
                | root hp' => rw [hp] at hp'; simp at hp'
            rw [hq] at hnd
            have e1 := hz a (by simp)
            have e2 := hz b (by simp)
            rw [e1, e2] at hnd
            simp at hnd
      obtain ⟨d, q1, q2, hqq, ha, h1, h2⟩ := hlev'
      cases ha with
      | child hp hpd =>
        rename_i p
        obtain ⟨t', hlt⟩ := tInv_step w hr hin t hq hp
        apply ih _ t'
        · unfold tlStep; rw [hp]; simp only; split <;> exact hh
        · omega
        · refine ⟨d, q1, (if (s.mark (h.ord p)).isSome then q2 else q2 ++ [p]), ?_, h1, ?_⟩
          · unfold tlStep
            rw [hp]
            simp only
            split
            · exact hqq
            · show b :: q ++ [p] = _
              rw [hqq, List.append_assoc]
          · split
            · exact h2
            · intro v hv
              rcases List.mem_append.1 hv with hv | hv
              · exact h2 v hv
              · rw [List.mem_singleton.1 hv]; exact hpd
    · exact ⟨s, rfl, hh⟩

/-- C21 (partial): for any non-empty list of different nodes of the same depth,
`find_minimal_common_treelet` returns their minimal treelet. Missing: nodes of different depths, where it
is false. -/
theorem C21_treelet_partial (hh : Reachable h) (hr : IsTree h r) {I : List Nat} (hn : I.Nodup)
    (hne : I ≠ []) (hin : ∀ i ∈ I, InTree h r i) {d : Nat} (hd : ∀ i ∈ I, DepthIs h i d) :
    ∃ top added, treelet h I = some (top, added) ∧ IsTreelet h r I top added := by
  have w := inv_reachable hh r hr
  obtain ⟨s', h1, h2⟩ := tlLoop_levels w hr.1 hin (I.length + h.next) _ (tInv_init w hn hin) rfl
    (by simp) ⟨d, [], I, by simp, by simp, hd⟩
  obtain ⟨res, h3, h4⟩ := treelet_of_climb w hr.1 hn hne hin h1 h2
  exact ⟨res.1, res.2, h3, h4⟩

/-- C21 (partial), for nodes of any depths: the result is the minimal treelet whenever the climb does not
arrive at the technical root before all components have met. -/
theorem C21_treelet_meet_partial (hh : Reachable h) (hr : IsTree h r) {I : List Nat} (hn : I.Nodup)
    (hne : I ≠ []) (hin : ∀ i ∈ I, InTree h r i) {s : TL} (hs : tlClimb h I = some s)
    (hhi : s.highest = none) : ∃ top added, treelet h I = some (top, added) ∧ IsTreelet h r I top added := by
  obtain ⟨res, h3, h4⟩ := treelet_of_climb (inv_reachable hh r hr) hr.1 hn hne hin hs hhi
  exact ⟨res.1, res.2, h3, h4⟩

/-- The tree of the next theorem: 1 and 2 under the root, 3 under 2, 4 under 3. -/
def exTl : Heap := runOps Heap.init [.newTree, .createChild 0, .createChild 0, .createChild 2, .createChild 3]

theorem exTl_reachable : Reachable exTl := by
  unfold exTl runOps
  simp only [List.foldl]
  refine .step (.createChild 3) (.step (.createChild 2) (.step (.createChild 0) (.step (.createChild 0)
    (.step .newTree .init trivial) ?_) ?_) ?_) ?_
  · exact ⟨0, ⟨by decide, by decide⟩, Or.inl rfl⟩
  · exact ⟨0, ⟨by decide, by decide⟩, Or.inl rfl⟩
  · exact ⟨0, ⟨by decide, by decide⟩, Or.inr (by decide)⟩
  · exact ⟨0, ⟨by decide, by decide⟩, Or.inr (by decide)⟩

/-- C21 is violated: with 1 and 2 under the root, 3 under 2 and 4 under 3, the call for the nodes 1 and 4
returns node 1 as the top of the treelet, which is not an ancestor of 4. -/
theorem C21_treelet_violated :
    Reachable exTl ∧ IsTree exTl 0 ∧ 1 ∈ exTl.words 0 ∧ 4 ∈ exTl.words 0 ∧
      (∃ added, treelet exTl [1, 4] = some (1, added)) ∧ ¬ InSubtree exTl 1 4 := by
  have htree : IsTree exTl 0 := ⟨by decide, by decide⟩
  refine ⟨exTl_reachable, htree, by decide, by decide, ⟨[3], by decide⟩, ?_⟩
  rintro (e | e)
  · simp at e
  · obtain ⟨b, hb, hbi⟩ := (inv_reachable exTl_reachable 0 htree).isDescendantOf_eq htree (x := 4) (a := 1)
      (Or.inr (by decide)) (Or.inr (by decide))
    have : isDescendantOf exTl 4 1 = some false := by decide
    rw [this] at hb
    cases hb
    exact absurd (hbi.2 e) (by simp)

/-- Words of equal depth (2 and 4 in `ex`, both under 1), and an example with different depths. -/
example : (∀ i ∈ [2, 4], DepthIs ex i 2) ∧ treelet ex [2, 4] = some (1, [1]) ∧
    treelet ex [3, 2] = some (1, [4, 1]) := by
  refine ⟨?_, by decide, by decide⟩
  intro i hi
  have h1 : DepthIs ex 1 1 := .child (p := 0) (by decide) (.root (by decide))
  rcases List.mem_cons.1 hi with rfl | hi
  · exact .child (p := 1) (by decide) h1
  · rw [List.mem_singleton.1 hi]; exact .child (p := 1) (by decide) h1

end
end Verif.Tree
