import Verif.Write.DrawProps

/-!
# Property C121: write.TextModeTrees._compute_gaps counts the nodes in the span of a node that are not its descendants
-/

namespace Verif.Write.Draw
open Verif.Py

/-- `x` is `v` or its descendant. -/
inductive Sub (t : T) (v : Nat) : Nat → Prop where
  | refl : Sub t v v
  | step {x y : Nat} : x < t.n → t.par x = some y → Sub t v y → Sub t v x

theorem Sub.head {t : T} {v c x : Nat} (hc : c < t.n) (e : t.par c = some v) (h : Sub t c x) : Sub t v x := by
  induction h with
  | refl => exact .step hc e .refl
  | step h1 h2 _ ih => exact .step h1 h2 ih

theorem sub_iff {t : T} {v x : Nat} : Sub t v x ↔ x = v ∨ ∃ c ∈ kids t v, Sub t c x := by
  constructor
  · intro h
    induction h with
    | refl => exact .inl rfl
    | step h1 h2 _ ih =>
      right
      rcases ih with rfl | ⟨c, hc, hs⟩
      · exact ⟨_, mem_kids.2 ⟨h1, h2⟩, .refl⟩
      · exact ⟨c, hc, .step h1 h2 hs⟩
  · rintro (rfl | ⟨c, hc, hs⟩)
    · exact .refl
    · exact hs.head (mem_kids.1 hc).1 (mem_kids.1 hc).2

theorem sub_depth {t : T} {depth : Nat → Nat} (up : ∀ c v, c < t.n → t.par c = some v → depth v < depth c) {v x : Nat}
    (h : Sub t v x) : depth v ≤ depth x := by
  induction h with
  | refl => exact Nat.le_refl _
  | step h1 h2 _ ih => exact Nat.le_of_lt (Nat.lt_of_le_of_lt ih (up _ _ h1 h2))

theorem sub_comparable {t : T} {c d x : Nat} (h1 : Sub t c x) (h2 : Sub t d x) : Sub t c d ∨ Sub t d c := by
  induction h1 with
  | refl => exact .inr h2
  | step a b h ih =>
    cases h2 with
    | refl => exact .inl (.step a b h)
    | step a' b' h' =>
      rw [b] at b'
      exact ih (Option.some.inj b' ▸ h')

theorem sub_disjoint {t : T} {depth : Nat → Nat} (up : ∀ c v, c < t.n → t.par c = some v → depth v < depth c) {v c d x : Nat}
    (hc : c ∈ kids t v) (hd : d ∈ kids t v) (h1 : Sub t c x) (h2 : Sub t d x) : c = d := by
  have key : ∀ c d, c ∈ kids t v → d ∈ kids t v → Sub t c d → c = d := by
    intro c d hc hd h
    cases h with
    | refl => rfl
    | step a b h =>
      have := sub_depth up h
      rw [(mem_kids.1 hd).2] at b
      have e := Option.some.inj b
      have := up c v (mem_kids.1 hc).1 (mem_kids.1 hc).2
      rw [e] at this
      omega
  rcases sub_comparable h1 h2 with h | h
  · exact key c d hc hd h
  · exact (key d c hd hc h).symm

theorem length_filter_split (f : Nat → Bool) : ∀ (l : List Nat), l.length = (l.filter f).length + (l.filter (fun x => !f x)).length
  | [] => rfl
  | x :: l => by
    have := length_filter_split f l
    cases h : f x <;> simp [h] <;> omega

theorem length_filter_le {f g : Nat → Bool} (h : ∀ x, f x = true → g x = true) : ∀ (l : List Nat),
    (l.filter f).length ≤ (l.filter g).length
  | [] => Nat.le_refl _
  | x :: l => by
    have := length_filter_le h l
    cases hf : f x
    · cases hg : g x <;> simp [hf, hg] <;> omega
    · simp [hf, h x hf]; omega

theorem length_filter_lt {f g : Nat → Bool} (h : ∀ x, f x = true → g x = true) {v : Nat} (hf : f v = false) (hg : g v = true) :
    ∀ (l : List Nat), v ∈ l → (l.filter f).length < (l.filter g).length
  | [], hv => absurd hv List.not_mem_nil
  | x :: l, hv => by
    have hle := length_filter_le h l
    rcases List.mem_cons.1 hv with e | hv
    · simp [← e, hf, hg]; omega
    · have := length_filter_lt h hf hg l hv
      cases hx : f x
      · cases hy : g x <;> simp [hx, hy] <;> omega
      · simp [hx, h x hx]; omega

/-- The depth can be measured by numbers below `n`. -/
theorem Good.rank {t : T} (g : Good t) : ∃ depth : Nat → Nat, (∀ c v, c < t.n → t.par c = some v → depth v < depth c) ∧
    ∀ c, c < t.n → depth c < t.n := by
  obtain ⟨depth, up⟩ := g.up
  refine ⟨fun c => ((List.range t.n).filter (fun x => decide (depth x < depth c))).length, ?_, ?_⟩
  · intro c v hc e
    obtain ⟨hv, _, hd⟩ := up c v hc e
    refine length_filter_lt ?_ (v := v) (by simp) (by simpa using hd) _ (List.mem_range.2 hv)
    intro x hx
    have := of_decide_eq_true hx
    exact decide_eq_true (by omega)
  · intro c hc
    have h1 := length_filter_lt (f := fun x => decide (depth x < depth c)) (g := fun _ => true) (fun _ _ => rfl) (v := c)
      (by simp) rfl (List.range t.n) (List.mem_range.2 hc)
    have h2 : ((List.range t.n).filter (fun _ => true)).length ≤ t.n := by
      have := (List.filter_sublist (p := fun _ => true) (l := List.range t.n)).length_le
      rwa [List.length_range] at this
    exact Nat.lt_of_lt_of_le h1 h2

/-- The number of rows in the span of the subtree of `v` that are not in the subtree. -/
def Gap (t : T) (v : Nat) (z : Int) : Prop :=
  ∃ a b, Sub t v a ∧ Sub t v b ∧ (∀ x, Sub t v x → a ≤ x ∧ x ≤ b) ∧
    ∃ out : List Nat, out.Nodup ∧ (∀ x, x ∈ out ↔ a ≤ x ∧ x ≤ b ∧ ¬ Sub t v x) ∧ z = out.length

/-- The leftmost and the rightmost row and the number of the rows of a set. -/
def Ext (s : Nat → Prop) (q : Nat × Nat × Nat) (extra : Nat) : Prop :=
  ∃ l : List Nat, l.Nodup ∧ (∀ x, x ∈ l ↔ s x) ∧ q.1 ∈ l ∧ q.2.1 ∈ l ∧ (∀ x ∈ l, q.1 ≤ x ∧ x ≤ q.2.1) ∧ q.2.2 + extra = l.length

theorem Ext.gap {t : T} {v a b k : Nat} (h : Ext (Sub t v) (a, b, k) 1) : Gap t v ((b : Int) - a - k) := by
  obtain ⟨l, h1, h2, h3, h4, h5, h6⟩ := h
  simp only at h3 h4 h5 h6
  refine ⟨a, b, (h2 a).1 h3, (h2 b).1 h4, fun x hx => h5 x ((h2 x).2 hx),
    (List.range' a (b + 1 - a)).filter (fun x => !decide (x ∈ l)), ?_, ?_, ?_⟩
  · exact (List.nodup_range').sublist List.filter_sublist
  · intro x
    have := h2 x
    simp only [List.mem_filter, List.mem_range'_1, Bool.not_eq_true', decide_eq_false_iff_not, this]
    constructor
    · rintro ⟨h, h'⟩; exact ⟨h.1, by omega, h'⟩
    · rintro ⟨h, h', h''⟩; exact ⟨⟨h, by omega⟩, h''⟩
  · have hab := h5 a h3
    have hsum := length_filter_split (fun x => decide (x ∈ l)) (List.range' a (b + 1 - a))
    have hperm : ((List.range' a (b + 1 - a)).filter (fun x => decide (x ∈ l))).Perm l := by
      rw [List.perm_ext_iff_of_nodup ((List.nodup_range').sublist List.filter_sublist) h1]
      intro x
      simp only [List.mem_filter, List.mem_range'_1, decide_eq_true_eq]
      constructor
      · exact fun h => h.2
      · intro h
        have := h5 x h
        exact ⟨by omega, h⟩
    have := hperm.length_eq
    rw [List.length_range'] at hsum
    omega

theorem computeGaps_spec {t : T} {depth : Nat → Nat} (up : ∀ c v, c < t.n → t.par c = some v → depth v < depth c) :
    ∀ (fuel v : Nat) (g : Nat → Int), (∀ c, Sub t v c → depth c < depth v + fuel) →
    Ext (Sub t v) (computeGaps t fuel v g).1 0 ∧ (∀ x, Sub t v x → Gap t x ((computeGaps t fuel v g).2 x)) ∧
    (∀ x, ¬ Sub t v x → (computeGaps t fuel v g).2 x = g x)
  | 0, v, g, hf => absurd (hf v .refl) (by omega)
  | fuel + 1, v, g, hf => by
    let step := fun (s : (Nat × Nat × Nat) × (Nat → Int)) c =>
      let q := computeGaps t fuel c s.2
      ((min q.1.1 s.1.1, max q.1.2.1 s.1.2.1, s.1.2.2 + q.1.2.2), q.2)
    have loop : ∀ (cs done : List Nat), (done ++ cs).Nodup → (∀ c ∈ done ++ cs, c ∈ kids t v) →
        ∀ (s : (Nat × Nat × Nat) × (Nat → Int)),
        Ext (fun x => x = v ∨ ∃ c ∈ done, Sub t c x) s.1 1 → (∀ x, (∃ c ∈ done, Sub t c x) → Gap t x (s.2 x)) →
        (∀ x, (¬ ∃ c ∈ done, Sub t c x) → s.2 x = g x) →
        Ext (fun x => x = v ∨ ∃ c ∈ done ++ cs, Sub t c x) (cs.foldl step s).1 1 ∧
        (∀ x, (∃ c ∈ done ++ cs, Sub t c x) → Gap t x ((cs.foldl step s).2 x)) ∧
        (∀ x, (¬ ∃ c ∈ done ++ cs, Sub t c x) → (cs.foldl step s).2 x = g x) := by
      intro cs
      induction cs with
      | nil =>
        intro done _ _ s h1 h2 h3
        rw [List.append_nil]
        exact ⟨h1, h2, h3⟩
      | cons c cs ih =>
        intro done hn hk s h1 h2 h3
        rw [List.foldl_cons]
        have hck : c ∈ kids t v := hk c (by simp)
        have hcd : depth v < depth c := up c v (mem_kids.1 hck).1 (mem_kids.1 hck).2
        obtain ⟨e1, e2, e3⟩ := computeGaps_spec up fuel c s.2 (fun x hx => by
          have := hf x (hx.head (mem_kids.1 hck).1 (mem_kids.1 hck).2)
          omega)
        have hnd : c ∉ done := by
          intro h
          rw [List.nodup_append] at hn
          exact hn.2.2 c h c (by simp) rfl
        have hdis : ∀ x, Sub t c x → ¬ (x = v ∨ ∃ d ∈ done, Sub t d x) := by
          rintro x hx (rfl | ⟨d, hd, hs⟩)
          · have := sub_depth up hx
            omega
          · exact hnd (sub_disjoint up hck (hk d (by simp [hd])) hx hs ▸ hd)
        have key := ih (done ++ [c]) (by simpa using hn) (by simpa using hk) (step s c) ?_ ?_ ?_
        · simpa using key
        · -- the extent
          obtain ⟨l, a1, a2, a3, a4, a5, a6⟩ := h1
          obtain ⟨m, b1, b2, b3, b4, b5, b6⟩ := e1
          refine ⟨l ++ m, ?_, ?_, ?_, ?_, ?_, ?_⟩
          · rw [List.nodup_append]
            refine ⟨a1, b1, ?_⟩
            rintro x hx y hy rfl
            exact hdis x ((b2 x).1 hy) ((a2 x).1 hx)
          · intro x
            rw [List.mem_append, a2, b2]
            constructor
            · rintro ((h | ⟨d, hd, hs⟩) | h)
              · exact .inl h
              · exact .inr ⟨d, by simp [hd], hs⟩
              · exact .inr ⟨c, by simp, h⟩
            · rintro (h | ⟨d, hd, hs⟩)
              · exact .inl (.inl h)
              · rcases List.mem_append.1 hd with hd | hd
                · exact .inl (.inr ⟨d, hd, hs⟩)
                · rw [List.mem_singleton] at hd
                  exact .inr (hd ▸ hs)
          · show min _ _ ∈ _
            rw [List.mem_append]
            rcases Nat.le_total (computeGaps t fuel c s.2).1.1 s.1.1 with h | h
            · rw [Nat.min_eq_left h]; exact .inr b3
            · rw [Nat.min_eq_right h]; exact .inl a3
          · show max _ _ ∈ _
            rw [List.mem_append]
            rcases Nat.le_total (computeGaps t fuel c s.2).1.2.1 s.1.2.1 with h | h
            · rw [Nat.max_eq_right h]; exact .inl a4
            · rw [Nat.max_eq_left h]; exact .inr b4
          · intro x hx
            show min _ _ ≤ x ∧ x ≤ max _ _
            rcases List.mem_append.1 hx with hx | hx
            · have := a5 x hx
              omega
            · have := b5 x hx
              omega
          · show s.1.2.2 + (computeGaps t fuel c s.2).1.2.2 + 1 = _
            rw [List.length_append]
            omega
        · rintro x ⟨d, hd, hs⟩
          show Gap t x ((computeGaps t fuel c s.2).2 x)
          rcases List.mem_append.1 hd with hd | hd
          · rw [e3 x (fun h => hdis x h (.inr ⟨d, hd, hs⟩))]
            exact h2 x ⟨d, hd, hs⟩
          · rw [List.mem_singleton] at hd
            exact e2 x (hd ▸ hs)
        · intro x hx
          show (computeGaps t fuel c s.2).2 x = g x
          rw [e3 x (fun h => hx ⟨c, by simp, h⟩)]
          exact h3 x (fun ⟨d, hd, hs⟩ => hx ⟨d, by simp [hd], hs⟩)
    have hkn : (kids t v).Nodup := List.nodup_range.sublist List.filter_sublist
    obtain ⟨r1, r2, r3⟩ := loop (kids t v) [] (by simpa using hkn) (fun c hc => by simpa using hc) ((v, v, 0), g)
      ⟨[v], by simp, by simp, by simp, by simp, by simp, by simp⟩ (by simp) (by simp)
    simp only [List.nil_append] at r1 r2 r3
    have hr : computeGaps t (fuel + 1) v g = ((((kids t v).foldl step ((v, v, 0), g)).1.1, ((kids t v).foldl step ((v, v, 0), g)).1.2.1,
      ((kids t v).foldl step ((v, v, 0), g)).1.2.2 + 1), fun x => if x = v then
        (((kids t v).foldl step ((v, v, 0), g)).1.2.1 : Int) - ((kids t v).foldl step ((v, v, 0), g)).1.1 -
          ((kids t v).foldl step ((v, v, 0), g)).1.2.2 else ((kids t v).foldl step ((v, v, 0), g)).2 x) := rfl
    rw [hr]
    have hset : (fun x => x = v ∨ ∃ c ∈ kids t v, Sub t c x) = Sub t v := funext fun x => propext sub_iff.symm
    rw [hset] at r1
    refine ⟨?_, ?_, ?_⟩
    · obtain ⟨l, a1, a2, a3, a4, a5, a6⟩ := r1
      exact ⟨l, a1, a2, a3, a4, a5, a6⟩
    · intro x hx
      show Gap t x (if x = v then _ else _)
      by_cases hxv : x = v
      · rw [if_pos hxv, hxv]
        exact Ext.gap r1
      · rw [if_neg hxv]
        exact r2 x ((sub_iff.1 hx).resolve_left hxv)
    · intro x hx
      show (if x = v then _ else _) = g x
      rw [if_neg (fun e : x = v => hx (by rw [e]; exact .refl))]
      exact r3 x (fun h => hx (sub_iff.2 (.inr h)))

/-- C121: after `_compute_gaps(root)` the value kept for a node is the number of printed rows between the leftmost and the
rightmost row of its subtree that are not in the subtree. -/
theorem C121_gaps {t : T} (g : Good t) (g0 : Nat → Int) (v : Nat) (hv : v = t.root ∨ (v < t.n ∧ t.par v ≠ none)) : Gap t v ((computeGaps t t.n t.root g0).2 v) := by
  obtain ⟨depth, up, h0⟩ := g.rank
  refine (computeGaps_spec up t.n t.root g0 (fun c hc => ?_)).2.1 v ?_
  · cases hc with
    | refl => have := h0 _ g.rootLt; omega
    | step a _ _ => have := h0 c a; omega
  obtain ⟨_, up'⟩ := g.up
  have : ∀ (d v : Nat), depth v ≤ d → (v = t.root ∨ (v < t.n ∧ t.par v ≠ none)) → Sub t t.root v := by
    intro d
    induction d with
    | zero =>
      rintro v hd (rfl | ⟨hv, hp⟩)
      · exact .refl
      · obtain ⟨u, hu⟩ := Option.ne_none_iff_exists'.1 hp
        have := up v u hv hu
        omega
    | succ d ih =>
      rintro v hd (rfl | ⟨hv, hp⟩)
      · exact .refl
      · obtain ⟨u, hu⟩ := Option.ne_none_iff_exists'.1 hp
        have := up v u hv hu
        obtain ⟨h1, h2, _⟩ := up' v u hv hu
        exact .step hv hu (ih u (by omega) (h2.imp id (fun h => ⟨h1, h⟩)))
  exact this _ v (Nat.le_refl _) hv

/-- In the crossing tree, row 3 (the subtree of row 3 is 1, 3) has one gap: row 2. -/
example : (List.range 5).map (computeGaps bridge 5 0 (fun _ => 0)).2 = [0, 0, 1, 1, 0] := by decide +kernel

end Verif.Write.Draw
