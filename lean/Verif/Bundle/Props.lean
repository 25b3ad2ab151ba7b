import Verif.Bundle.Model

/-!
# Properties C32, C33, C34 and C61: bundles, zones and addresses
-/

namespace Verif.Bundle
open Verif.Py

@[simp] theorem upd_same (f : Nat → α) (x : Nat) (v : α) : upd f x v x = v := by simp [upd]
theorem upd_ne {f : Nat → α} {x y : Nat} {v : α} (h : y ≠ x) : upd f x v y = f y := by simp [upd, h]

/-! ## Zones -/

/-- The documented form of a zone: lower-case letters and dashes, optionally followed by an underscore and
at least one letter, digit or dash; not `all`. -/
def ValidZone (z : Str) : Prop :=
  z ≠ ['a', 'l', 'l'] ∧ ∃ a b : Str, (∀ c ∈ a, lowerDash c = true) ∧ (∀ c ∈ b, alnumDash c = true) ∧
    (z = a ∨ b ≠ [] ∧ z = a ++ '_' :: b)

theorem dropWhile_append_stop {p : Char → Bool} {a : Str} (ha : ∀ c ∈ a, p c = true) {c : Char} {r : Str}
    (hc : p c = false) : (a ++ c :: r).dropWhile p = c :: r ∧ (a ++ c :: r).takeWhile p = a := by
  induction a with
  | nil => simp [hc]
  | cons x a ih =>
    have := ih (fun c hc => ha c (List.mem_cons_of_mem _ hc))
    simp [ha x List.mem_cons_self, this]

theorem dropWhile_all {p : Char → Bool} {a : Str} (ha : ∀ c ∈ a, p c = true) :
    a.dropWhile p = [] ∧ a.takeWhile p = a := by
  induction a with
  | nil => simp
  | cons x a ih =>
    have := ih (fun c hc => ha c (List.mem_cons_of_mem _ hc))
    simp [ha x List.mem_cons_self, this]

/-- The form of a zone without the exception for `all`. -/
def ZoneForm (z : Str) : Prop :=
  ∃ a b : Str, (∀ c ∈ a, lowerDash c = true) ∧ (∀ c ∈ b, alnumDash c = true) ∧
    (z = a ∨ b ≠ [] ∧ z = a ++ '_' :: b)

/-- The regular expression accepts the documented form and the documented form followed by a newline. -/
theorem zoneMatch_iff (z : Str) : zoneMatch z = true ↔ ZoneForm z ∨ ∃ z', z = z' ++ ['\n'] ∧ ZoneForm z' := by
  constructor
  · intro h
    unfold zoneMatch at h
    have hz := List.takeWhile_append_dropWhile (p := lowerDash) (l := z)
    have hall : ∀ c ∈ z.takeWhile lowerDash, lowerDash c = true := by
      intro c hc; exact List.all_eq_true.1 List.all_takeWhile c hc
    split at h
    · rename_i r hr
      rw [hr] at hz
      simp only [Bool.and_eq_true] at h
      have hall2 : ∀ c ∈ r.takeWhile alnumDash, alnumDash c = true := by
        intro c hc; exact List.all_eq_true.1 List.all_takeWhile c hc
      have hne : r.takeWhile alnumDash ≠ [] := by simpa using h.1
      have hr2 := List.takeWhile_append_dropWhile (p := alnumDash) (l := r)
      have hend : r.dropWhile alnumDash = [] ∨ r.dropWhile alnumDash = ['\n'] := by
        have := h.2; simp only [atEnd, Bool.or_eq_true, beq_iff_eq] at this; exact this
      rcases hend with he | he
      · rw [he, List.append_nil] at hr2
        left
        exact ⟨z.takeWhile lowerDash, r.takeWhile alnumDash, hall, hall2, Or.inr ⟨hne, by rw [hr2]; exact hz.symm⟩⟩
      · rw [he] at hr2
        right
        refine ⟨z.takeWhile lowerDash ++ '_' :: r.takeWhile alnumDash, ?_, z.takeWhile lowerDash,
          r.takeWhile alnumDash, hall, hall2, Or.inr ⟨hne, rfl⟩⟩
        rw [List.append_assoc, List.cons_append, hr2]; exact hz.symm
    · have hend : z.dropWhile lowerDash = [] ∨ z.dropWhile lowerDash = ['\n'] := by
        simp only [atEnd, Bool.or_eq_true, beq_iff_eq] at h; exact h
      rcases hend with he | he
      · rw [he, List.append_nil] at hz
        left
        exact ⟨z.takeWhile lowerDash, [], hall, by simp, Or.inl hz.symm⟩
      · rw [he] at hz
        right
        exact ⟨z.takeWhile lowerDash, hz.symm, z.takeWhile lowerDash, [], hall, by simp, Or.inl rfl⟩
  · rintro (⟨a, b, ha, hb, rfl | ⟨hbne, rfl⟩⟩ | ⟨z', rfl, a, b, ha, hb, rfl | ⟨hbne, rfl⟩⟩)
    · unfold zoneMatch
      rw [(dropWhile_all ha).1]; rfl
    · unfold zoneMatch
      rw [(dropWhile_append_stop ha (by decide)).1]
      simp only
      rw [(dropWhile_all hb).1, (dropWhile_all hb).2]
      simp [atEnd, hbne]
    · unfold zoneMatch
      rw [(dropWhile_append_stop ha (by decide)).1]; rfl
    · unfold zoneMatch
      rw [List.append_assoc, List.cons_append, (dropWhile_append_stop ha (by decide)).1]
      simp only
      rw [(dropWhile_append_stop hb (by decide)).1, (dropWhile_append_stop hb (by decide)).2]
      simp [atEnd, hbne]

/-- What the code accepts as a zone. -/
def Accepted (z : Str) : Prop := zoneMatch z = true ∧ z ≠ ['a', 'l', 'l']

theorem accepted_valid {z : Str} (h : Accepted z) : ValidZone z ∨ ∃ z', z = z' ++ ['\n'] ∧ ZoneForm z' := by
  rcases (zoneMatch_iff z).1 h.1 with h1 | h1
  · exact Or.inl ⟨h.2, h1⟩
  · exact Or.inr h1

theorem checkZone_none {s : St} {b : Nat} {z : Str} (h : checkZone s b z = none) :
    Accepted z ∧ ∀ t ∈ s.trees b, s.zone t ≠ some z := by
  unfold checkZone at h
  split at h
  · cases h
  · split at h
    · cases h
    · split at h
      · cases h
      · rename_i h1 h2 h3
        refine ⟨⟨by simpa using h1, h2⟩, ?_⟩
        intro t ht e
        exact h3 (List.mem_map.2 ⟨t, ht, e⟩)

/-- The invariant. -/
structure Inv (s : St) : Prop where
  home : ∀ b t, t ∈ s.trees b → s.bundleOf t = some b ∧ t < s.next
  zones : ∀ b, ((s.trees b).map s.zone).Nodup
  ok : ∀ b t, t ∈ s.trees b → ∃ z, s.zone t = some z ∧ Accepted z

/-- Changing `sentId` and `bid` does not matter. -/
theorem Inv.same {s s' : St} (h : Inv s) (h1 : s'.trees = s.trees) (h2 : s'.zone = s.zone)
    (h3 : s'.bundleOf = s.bundleOf) (h4 : s'.next = s.next) : Inv s' := by
  obtain ⟨a, b, c⟩ := h
  constructor <;> simp only [h1, h2, h3, h4] <;> assumption

theorem map_upd_of_not_mem {f : Nat → α} {x : Nat} {v : α} {l : List Nat} (h : x ∉ l) :
    l.map (upd f x v) = l.map f := by
  apply List.map_congr_left
  intro a ha
  exact upd_ne (fun e => h (e ▸ ha))

theorem inv_new {s : St} (h : Inv s) (z : Option Str) :
    Inv { s with zone := upd s.zone s.next z, bundleOf := upd s.bundleOf s.next none,
                 sentId := upd s.sentId s.next none, next := s.next + 1 } := by
  have hne : ∀ b t, t ∈ s.trees b → t ≠ s.next := fun b t ht e => by
    have := (h.home b t ht).2; omega
  refine ⟨?_, ?_, ?_⟩
  · intro b t ht
    have := h.home b t ht
    refine ⟨?_, by show t < s.next + 1; omega⟩
    show upd s.bundleOf s.next none t = some b
    rw [upd_ne (hne b t ht)]; exact this.1
  · intro b
    show ((s.trees b).map (upd s.zone s.next z)).Nodup
    rw [map_upd_of_not_mem (fun hm => hne b _ hm rfl)]; exact h.zones b
  · intro b t ht
    show ∃ z', upd s.zone s.next z t = some z' ∧ _
    rw [upd_ne (hne b t ht)]; exact h.ok b t ht

/-- `add_tree(t)` to bundle `b`, for a tree that is in no other bundle. -/
theorem addTree_spec {s : St} (h : Inv s) {b t : Nat} (ht : t < s.next) (hfree : ∀ b', t ∈ s.trees b' → b' = b) :
    Inv (addTree s b t).1 ∧
    ((addTree s b t).2 = none → (addTree s b t).1.trees = upd s.trees b (s.trees b ++ [t]) ∧ t ∉ s.trees b ∧
      (∀ u, u ≠ t → (addTree s b t).1.zone u = s.zone u) ∧
      (addTree s b t).1.zone t = some ((s.zone t).getD [])) ∧
    ((addTree s b t).2 ≠ none → (addTree s b t).1.trees = s.trees ∧ (addTree s b t).1.bid = s.bid ∧
      ∀ b' u, u ∈ s.trees b' → (addTree s b t).1.zone u = s.zone u) := by
  -- the state after `if root.zone is None: root._zone = ''`
  have hz1 : ∃ s1 : St, (if s.zone t = none then { s with zone := upd s.zone t (some []) } else s) = s1 ∧
      s1.zone t = some ((s.zone t).getD []) ∧ (∀ u, u ≠ t → s1.zone u = s.zone u) ∧ s1.trees = s.trees ∧
      s1.bundleOf = s.bundleOf ∧ s1.next = s.next ∧ s1.bid = s.bid ∧ s1.sentId = s.sentId ∧
      (∀ b' u, u ∈ s.trees b' → s1.zone u = s.zone u) := by
    by_cases hn : s.zone t = none
    · rw [if_pos hn]
      refine ⟨_, rfl, by simp [hn], fun u hu => upd_ne hu, rfl, rfl, rfl, rfl, rfl, ?_⟩
      intro b' u hu
      have : u ≠ t := by
        intro e
        obtain ⟨z, hz, _⟩ := h.ok b' u hu
        rw [e, hn] at hz; cases hz
      exact upd_ne this
    · rw [if_neg hn]
      refine ⟨s, rfl, ?_, fun _ _ => rfl, rfl, rfl, rfl, rfl, rfl, fun _ _ _ => rfl⟩
      cases hc : s.zone t with
      | none => exact absurd hc hn
      | some z => rfl
  obtain ⟨s1, he, hzt, hzu, htr, hbo, hnx, hbid, hsid, hzin⟩ := hz1
  have hinv1 : Inv s1 := by
    refine ⟨?_, ?_, ?_⟩
    · rw [htr, hbo, hnx]; exact h.home
    · intro b'
      rw [htr, List.map_congr_left (fun u hu => hzin b' u hu)]; exact h.zones b'
    · intro b' u hu
      rw [htr] at hu
      rw [hzin b' u hu]; exact h.ok b' u hu
  unfold addTree
  simp only
  rw [he]
  cases hc : checkZone s1 b ((s1.zone t).getD []) with
  | some e =>
    simp only
    refine ⟨hinv1, by simp, fun _ => ⟨htr, hbid, hzin⟩⟩
  | none =>
    simp only
    obtain ⟨hacc, hfresh⟩ := checkZone_none hc
    have hz' : (s1.zone t).getD [] = (s.zone t).getD [] := by rw [hzt]; rfl
    rw [hz'] at hacc hfresh
    have hnin : t ∉ s.trees b := by
      intro hm
      rw [htr] at hfresh
      exact hfresh t hm hzt
    have hnall : ∀ b', t ∉ s.trees b' := by
      intro b' hm
      have := hfree b' hm
      subst this
      exact hnin hm
    -- the state after setting `_sent_id`
    have hs2 : ∀ s2 : St, s2.trees = s1.trees → s2.zone = s1.zone → s2.bundleOf = s1.bundleOf →
        s2.next = s1.next →
        Inv { s2 with bundleOf := upd s2.bundleOf t (some b), trees := upd s2.trees b (s2.trees b ++ [t]) } := by
      intro s2 e1 e2 e3 e4
      refine ⟨?_, ?_, ?_⟩
      · intro b' u hu
        change u ∈ upd s2.trees b (s2.trees b ++ [t]) b' at hu
        show upd s2.bundleOf t (some b) u = some b' ∧ u < s2.next
        rw [e4, hnx, e3, hbo]
        rw [e1, htr] at hu
        by_cases hb : b' = b
        · subst hb
          rw [upd_same, List.mem_append] at hu
          rcases hu with hu | hu
          · have hut : u ≠ t := fun e => hnin (e ▸ hu)
            rw [upd_ne hut]; exact h.home b' u hu
          · simp at hu; subst hu; simp [ht]
        · rw [upd_ne hb] at hu
          have hut : u ≠ t := fun e => hnall b' (e ▸ hu)
          rw [upd_ne hut]; exact h.home b' u hu
      · intro b'
        show ((upd s2.trees b (s2.trees b ++ [t]) b').map s2.zone).Nodup
        rw [e1, htr, e2]
        by_cases hb : b' = b
        · subst hb
          rw [upd_same, List.map_append, List.nodup_append]
          refine ⟨by have := hinv1.zones b'; rw [htr] at this; exact this, by simp, ?_⟩
          intro x hx y hy e
          rw [List.mem_map] at hx
          obtain ⟨u, hu, rfl⟩ := hx
          simp at hy
          subst hy
          rw [htr] at hfresh
          exact hfresh u hu (by rw [e, hzt])
        · rw [upd_ne hb]
          have := hinv1.zones b'; rw [htr] at this; exact this
      · intro b' u hu
        change u ∈ upd s2.trees b (s2.trees b ++ [t]) b' at hu
        show ∃ z, s2.zone u = some z ∧ _
        rw [e1, htr] at hu
        rw [e2]
        by_cases hb : b' = b
        · subst hb
          rw [upd_same, List.mem_append] at hu
          rcases hu with hu | hu
          · have := hinv1.ok b' u; rw [htr] at this; exact this hu
          · simp at hu; subst hu; exact ⟨_, hzt, hacc⟩
        · rw [upd_ne hb] at hu
          have := hinv1.ok b' u; rw [htr] at this; exact this hu
    split
    · refine ⟨hs2 _ rfl rfl rfl rfl, fun _ => ⟨?_, hnin, fun u hu => hzu u hu, hzt⟩, by simp⟩
      show upd s1.trees b (s1.trees b ++ [t]) = _
      rw [htr]
    · refine ⟨hs2 _ rfl rfl rfl rfl, fun _ => ⟨?_, hnin, fun u hu => hzu u hu, hzt⟩, by simp⟩
      show upd s1.trees b (s1.trees b ++ [t]) = _
      rw [htr]

theorem inv_remove {s : St} (h : Inv s) (t : Nat) : Inv (removeTree s t).1 := by
  unfold removeTree
  split
  · exact h
  · rename_i b hb
    have hsub : ∀ b', List.Sublist (upd s.trees b ((s.trees b).filter (fun u => u ≠ t)) b') (s.trees b') := by
      intro b'
      by_cases hbb : b' = b
      · subst hbb; rw [upd_same]; exact List.filter_sublist
      · rw [upd_ne hbb]; exact List.Sublist.refl _
    refine ⟨fun b' u hu => h.home b' u ((hsub b').subset hu), ?_, fun b' u hu => h.ok b' u ((hsub b').subset hu)⟩
    intro b'
    exact (h.zones b').sublist ((hsub b').map _)

theorem nodup_map_upd {f : Nat → Option Str} {x : Nat} {v : Option Str} {l : List Nat} (hn : l.Nodup)
    (hm : (l.map f).Nodup) (hv : ∀ t ∈ l, f t ≠ v) : (l.map (upd f x v)).Nodup := by
  rw [List.Nodup, List.pairwise_map] at hm ⊢
  refine (List.pairwise_and_iff.2 ⟨hn, hm⟩).imp_of_mem ?_
  rintro a b ha hb ⟨hab, hne⟩
  unfold upd
  by_cases h1 : a = x
  · by_cases h2 : b = x
    · exact absurd (h1.trans h2.symm) hab
    · rw [if_pos h1, if_neg h2]; exact fun e => hv b hb e.symm
  · by_cases h2 : b = x
    · rw [if_neg h1, if_pos h2]; exact hv a ha
    · rw [if_neg h1, if_neg h2]; exact hne

theorem Inv.nodup {s : St} (h : Inv s) (b : Nat) : (s.trees b).Nodup :=
  List.Pairwise.of_map s.zone (fun a b h e => h (by rw [e])) (h.zones b)

theorem inv_setZone {s : St} (h : Inv s) (t : Nat) (z : Str) :
    Inv (setZone s t z).1 ∧ ((setZone s t z).2 ≠ none → (setZone s t z).1 = s) ∧
    (setZone s t z).1.trees = s.trees ∧ (setZone s t z).1.bundleOf = s.bundleOf := by
  unfold setZone
  split
  · rename_i b hb
    cases hc : checkZone s b z with
    | some e => exact ⟨h, fun _ => rfl, rfl, rfl⟩
    | none =>
      refine ⟨?_, by simp, rfl, rfl⟩
      obtain ⟨hacc, hfresh⟩ := checkZone_none hc
      have hmem : ∀ b', t ∈ s.trees b' → b' = b := by
        intro b' hm
        have := (h.home b' t hm).1
        rw [hb] at this
        exact (Option.some.inj this).symm
      refine ⟨h.home, ?_, ?_⟩
      · intro b'
        show ((s.trees b').map (upd s.zone t (some z))).Nodup
        by_cases hbb : b' = b
        · subst hbb
          exact nodup_map_upd (h.nodup b') (h.zones b') hfresh
        · rw [map_upd_of_not_mem (fun hm => hbb (hmem b' hm))]; exact h.zones b'
      · intro b' u hu
        show ∃ z', upd s.zone t (some z) u = some z' ∧ _
        by_cases hut : u = t
        · subst hut; exact ⟨z, by simp, hacc⟩
        · rw [upd_ne hut]; exact h.ok b' u hu
  · rename_i hb
    refine ⟨?_, by simp, rfl, rfl⟩
    have hmem : ∀ b', t ∉ s.trees b' := by
      intro b' hm
      have := (h.home b' t hm).1
      rw [hb] at this; cases this
    refine ⟨h.home, ?_, ?_⟩
    · intro b'
      show ((s.trees b').map (upd s.zone t (some z))).Nodup
      rw [map_upd_of_not_mem (hmem b')]; exact h.zones b'
    · intro b' u hu
      show ∃ z', upd s.zone t (some z) u = some z' ∧ _
      rw [upd_ne (fun e : u = t => hmem b' (by rw [← e]; exact hu))]; exact h.ok b' u hu

theorem inv_setBundleId {s : St} (h : Inv s) (b : Nat) (i : Str) : Inv (setBundleId s b i) :=
  h.same rfl rfl rfl rfl

theorem inv_setSentId {s : St} (h : Inv s) (t : Nat) (i : Str) : Inv (setSentId s t i).1 := by
  unfold setSentId
  split
  · exact h.same rfl rfl rfl rfl
  · rename_i b hb
    simp only
    split
    · exact (inv_setBundleId h b (splitOnce '/' i).1).same rfl rfl rfl rfl
    · rename_i z hz
      have := (inv_setZone (inv_setBundleId h b (splitOnce '/' i).1) t z).1
      cases hs : setZone (setBundleId s b (splitOnce '/' i).1) t z with
      | mk s2 e =>
        rw [hs] at this
        cases e with
        | some e => exact this
        | none => exact this.same rfl rfl rfl rfl

theorem inv_getSentId {s : St} (h : Inv s) (t : Nat) : Inv (getSentId s t).1 := by
  unfold getSentId
  split
  · exact h
  · simp only
    split
    · exact h.same rfl rfl rfl rfl
    · exact h

/-- A document with bundles and no trees; `bid` gives the ids of the bundles. -/
def St.init (bid : Nat → Option Str) : St := ⟨fun _ => [], bid, fun _ => none, fun _ => none, fun _ => none, 0⟩

/-- A tree is added only while it is in no other bundle. -/
def Allowed (s : St) : Op → Prop
  | .add b t => t < s.next ∧ ∀ b', t ∈ s.trees b' → b' = b
  | _ => True

/-- The states after any sequence of calls. -/
inductive Reach : St → Prop where
  | init (bid) : Reach (St.init bid)
  | step {s op} : Reach s → Allowed s op → Reach (step s op).1

theorem Reach.inv {s : St} (h : Reach s) : Inv s := by
  induction h with
  | init => refine ⟨?_, ?_, ?_⟩ <;> simp [St.init]
  | @step s op _ ha ih =>
    cases op with
    | newTree z => exact inv_new ih z
    | create b z =>
      refine (addTree_spec (inv_new ih z) (b := b) (t := s.next) (Nat.lt_succ_self _) ?_).1
      intro b' hm
      have := (ih.home b' _ hm).2
      omega
    | add b t => exact (addTree_spec ih ha.1 ha.2).1
    | remove t => exact inv_remove ih t
    | setZone t z => exact (inv_setZone ih t z).1
    | setBundleId b i => exact inv_setBundleId ih b i
    | setSentId t i => exact inv_setSentId ih t i
    | getSentId t => exact inv_getSentId ih t

theorem filter_unique {f : Nat → Option Str} {l : List Nat} {t : Nat} {z : Str} (hm : (l.map f).Nodup)
    (ht : t ∈ l) (hz : f t = some z) : l.filter (fun u => decide (f u = some z)) = [t] := by
  induction l with
  | nil => cases ht
  | cons a l ih =>
    rw [List.map_cons, List.nodup_cons] at hm
    rcases List.mem_cons.1 ht with rfl | ht
    · rw [List.filter_cons_of_pos (by simp [hz])]
      congr 1
      rw [List.filter_eq_nil_iff]
      intro u hu e
      apply hm.1
      rw [List.mem_map]
      exact ⟨u, hu, by rw [hz]; simpa using e⟩
    · rw [List.filter_cons_of_neg, ih hm.2 ht]
      intro e
      apply hm.1
      rw [List.mem_map]
      exact ⟨t, ht, by rw [hz]; exact (by simpa using e : f a = some z).symm⟩

/-- C32 (partial): after any sequence of calls, two trees of a bundle have different zones, every zone is
of the documented form (or that followed by a newline), and `get_tree(zone)` and `has_tree(zone)` find exactly
the tree with this zone. Missing: adding a tree that is already in another bundle, and the newline. -/
theorem C32_zones_unique_partial {s : St} (h : Reach s) (b : Nat) :
    (∀ t ∈ s.trees b, ∀ u ∈ s.trees b, s.zone t = s.zone u → t = u) ∧
    (∀ t ∈ s.trees b, ∃ z, s.zone t = some z ∧ (ValidZone z ∨ ∃ z', z = z' ++ ['\n'] ∧ ZoneForm z')) ∧
    (∀ z t, getTree s b z = .ok t ↔ t ∈ s.trees b ∧ s.zone t = some z) ∧
    (∀ z, hasTree s b z = true ↔ ∃ t ∈ s.trees b, s.zone t = some z) := by
  have hi := h.inv
  refine ⟨?_, ?_, ?_, ?_⟩
  · intro t ht u hu e
    obtain ⟨z, hz, _⟩ := hi.ok b t ht
    have h1 := filter_unique (hi.zones b) ht hz
    have h2 := filter_unique (hi.zones b) hu (e ▸ hz)
    rw [h1] at h2
    simpa using h2
  · intro t ht
    obtain ⟨z, hz, ha⟩ := hi.ok b t ht
    exact ⟨z, hz, accepted_valid ha⟩
  · intro z t
    constructor
    · intro hg
      unfold getTree at hg
      split at hg
      · rename_i t' hf
        cases hg
        have : t ∈ (s.trees b).filter (fun u => decide (s.zone u = some z)) := by rw [hf]; simp
        rw [List.mem_filter] at this
        exact ⟨this.1, by simpa using this.2⟩
      · cases hg
    · rintro ⟨ht, hz⟩
      unfold getTree
      rw [filter_unique (hi.zones b) ht hz]
  · intro z
    simp [hasTree]

/-- C32: a call of `add_tree`, `create_tree` or the `zone` setter that raises leaves the bundles and the
zones of the trees in them unchanged. -/
theorem C32_rejected_unchanged {s : St} (h : Reach s) :
    (∀ b t, t < s.next → (∀ b', t ∈ s.trees b' → b' = b) → (addTree s b t).2 ≠ none →
      (addTree s b t).1.trees = s.trees ∧ (addTree s b t).1.bid = s.bid ∧
      ∀ b' u, u ∈ s.trees b' → (addTree s b t).1.zone u = s.zone u) ∧
    (∀ b z, (createTree s b z).2 ≠ none → (createTree s b z).1.trees = s.trees ∧
      (createTree s b z).1.bid = s.bid ∧ ∀ b' u, u ∈ s.trees b' → (createTree s b z).1.zone u = s.zone u) ∧
    (∀ t z, (setZone s t z).2 ≠ none → (setZone s t z).1 = s) := by
  have hi := h.inv
  refine ⟨fun b t ht hf he => (addTree_spec hi ht hf).2.2 he, ?_, fun t z => (inv_setZone hi t z).2.1⟩
  intro b z he
  have := (addTree_spec (inv_new hi z) (b := b) (t := s.next) (Nat.lt_succ_self _) (by
      intro b' hm
      have := (hi.home b' _ hm).2
      omega)).2.2 he
  refine ⟨this.1, this.2.1, ?_⟩
  intro b' u hu
  refine (this.2.2 b' u hu).trans ?_
  show upd s.zone s.next z u = s.zone u
  have := (hi.home b' u hu).2
  exact upd_ne (by omega)

/-- C32: accepted calls do what they say. -/
theorem C32_accepted {s : St} (h : Reach s) :
    (∀ b t, t < s.next → (∀ b', t ∈ s.trees b' → b' = b) → (addTree s b t).2 = none →
      (addTree s b t).1.trees = upd s.trees b (s.trees b ++ [t]) ∧
      (addTree s b t).1.zone t = some ((s.zone t).getD [])) ∧
    (∀ t z, (setZone s t z).2 = none → (setZone s t z).1.zone t = some z) := by
  refine ⟨fun b t ht hf he => ?_, ?_⟩
  · have := (addTree_spec h.inv ht hf).2.1 he
    exact ⟨this.1, this.2.2.2⟩
  · intro t z he
    unfold setZone at he ⊢
    split
    · rename_i b hb
      simp only [hb] at he
      cases hc : checkZone s b z with
      | some e => rw [hc] at he; cases he
      | none => simp
    · simp

/-- C32: every zone of the documented form that no tree of the bundle has is accepted. -/
theorem C32_valid_accepted {s : St} {b : Nat} {z : Str} (hv : ValidZone z)
    (hfree : ∀ t ∈ s.trees b, s.zone t ≠ some z) :
    (∀ t, s.bundleOf t = some b → (setZone s t z).2 = none) ∧
    (∀ t, s.zone t = some z → (addTree s b t).2 = none) := by
  have hc : ∀ s' : St, s'.trees = s.trees → s'.zone = s.zone → checkZone s' b z = none := by
    intro s' e1 e2
    unfold checkZone
    rw [if_neg (by simpa using (zoneMatch_iff z).2 (Or.inl hv.2)), if_neg hv.1, if_neg]
    rw [e1, e2, List.mem_map]
    rintro ⟨t, ht, e⟩
    exact hfree t ht e
  constructor
  · intro t hb
    unfold setZone
    rw [hb]
    simp only [hc s rfl rfl]
  · intro t hz
    unfold addTree
    simp only [hz, reduceCtorEq, if_false, Option.getD_some, hc s rfl rfl]

/-- C32: `root.remove()` takes exactly this tree out of its bundle. -/
theorem C32_remove_tree {s : St} (h : Reach s) {b t : Nat} (ht : t ∈ s.trees b) :
    (removeTree s t).2 = none ∧ ∀ b', (removeTree s t).1.trees b' = (s.trees b').erase t := by
  have hi := h.inv
  unfold removeTree
  rw [(hi.home b t ht).1]
  refine ⟨rfl, ?_⟩
  intro b'
  show upd s.trees b _ b' = _
  by_cases hb : b' = b
  · subst hb
    rw [upd_same, (hi.nodup b').erase_eq_filter]
    apply List.filter_congr
    intro u _
    by_cases e : u = t <;> simp [e]
  · rw [upd_ne hb, List.erase_of_not_mem]
    intro hm
    have h1 := (hi.home b' t hm).1
    rw [(hi.home b t ht).1] at h1
    exact hb (Option.some.inj h1).symm

/-- Two bundles with ids `a` and `b`; zones `en` and the empty zone in the first one, `cs_x` in the second. -/
def exRun : List Op :=
  [.create 0 (some ['e', 'n']), .create 0 none, .create 1 (some ['c', 's', '_', 'x']), .setZone 2 ['c', 's']]

def run (s : St) : List Op → St
  | [] => s
  | op :: ops => run (step s op).1 ops

def exSt : St := run (St.init (fun b => if b = 0 then some ['a'] else some ['b'])) exRun

theorem exSt_reach : Reach exSt :=
  .step (op := .setZone 2 ['c', 's']) (.step (op := .create 1 (some ['c', 's', '_', 'x']))
    (.step (op := .create 0 none) (.step (op := .create 0 (some ['e', 'n'])) (.init _) trivial) trivial) trivial) trivial

example : exSt.trees 0 = [0, 1] ∧ exSt.trees 1 = [2] ∧ exSt.zone 0 = some ['e', 'n'] ∧ exSt.zone 1 = some [] ∧
    exSt.zone 2 = some ['c', 's'] ∧ (addTree exSt 1 2).2 = some .exception ∧
    (setZone exSt 1 ['a', 'l', 'l']).2 = some .valueError ∧ (setZone exSt 1 ['e', 'n']).2 = some .exception := by
  decide

/-- C32 is violated by a zone that ends with a newline, which is accepted. -/
theorem C32_newline_violated : (setZone exSt 1 ['d', 'e', '\n']).2 = none ∧
    (setZone exSt 1 ['d', 'e', '\n']).1.zone 1 = some ['d', 'e', '\n'] ∧ ¬ ValidZone ['d', 'e', '\n'] := by
  refine ⟨by decide, by decide, ?_⟩
  have hchar : ∀ c ∈ (['d', 'e', '\n'] : Str), c ≠ '_' := by decide
  rintro ⟨_, a, b, ha, hb, h | ⟨_, h⟩⟩
  · exact absurd (ha '\n' (by rw [← h]; decide)) (by decide)
  · exact hchar '_' (by rw [h]; simp) rfl

/-- C32 is violated by adding a tree to a second bundle while it is in a first one: it stays in both, and
its zone is checked against the second one only. Here two trees of bundle 0 get the zone `fr`. -/
theorem C32_two_bundles_violated :
    let s := run exSt [.add 1 1, .setZone 0 ['f', 'r'], .setZone 1 ['f', 'r']]
    s.trees 0 = [0, 1] ∧ s.zone 0 = some ['f', 'r'] ∧ s.zone 1 = some ['f', 'r'] := by decide

/-- C32 is violated by a rejected `sent_id`: the zone `en` is taken, the call raises, and the id of the
bundle and the addresses of all its trees have changed. -/
theorem C32_rejected_sent_id_violated :
    let r := setSentId exSt 1 ['x', '/', 'e', 'n']
    r.2 = some .exception ∧ exSt.bid 0 = some ['a'] ∧ r.1.bid 0 = some ['x'] ∧
      exSt.sentId 0 = some ['a', '/', 'e', 'n'] ∧ r.1.sentId 0 = some ['x', '/', 'e', 'n'] := by decide

/-! ## C33: addresses -/

/-- The documented address: the id of the bundle, and the zone after a slash unless it is empty. -/
def addr (i z : Str) : Str := if z = [] then i else i ++ ['/'] ++ z

theorem addr_inj {i z z' : Str} (h : addr i z = addr i z') : z = z' := by
  unfold addr at h
  by_cases h1 : z = [] <;> by_cases h2 : z' = []
  · rw [h1, h2]
  · rw [if_pos h1, if_neg h2] at h
    have := congrArg List.length h; simp at this
  · rw [if_neg h1, if_pos h2] at h
    have := congrArg List.length h; simp at this
  · rw [if_neg h1, if_neg h2] at h
    exact List.append_cancel_left h

theorem getSentId_some {s : St} {t : Nat} {i : Str} (h : s.sentId t = some i) : (getSentId s t).2 = i := by
  unfold getSentId; rw [h]

theorem setBundleId_sentId {s : St} {b t : Nat} {z : Str} (ht : t ∈ s.trees b) (hz : s.zone t = some z) (i : Str) :
    (setBundleId s b i).sentId t = some (if s.trees b = [t] ∧ z = [] then i else i ++ '/' :: z) := by
  unfold setBundleId
  simp only
  split
  · rename_i u hu
    have htu : t = u := by rw [hu] at ht; simpa using ht
    subst htu
    by_cases hzz : z = []
    · subst hzz; rw [if_pos hz, if_pos ⟨hu, rfl⟩]; simp
    · rw [if_neg (by rw [hz]; simpa using hzz), if_neg (fun h => hzz h.2)]; simp [hz]
  · rename_i hno
    show (if t ∈ s.trees b then some (i ++ '/' :: (s.zone t).getD []) else s.sentId t) = _
    rw [if_pos ht, if_neg (fun h => hno t h.1)]
    simp [hz]

/-- C33 (partial): after `bundle_id = i`, the address of each tree is the id and its zone, if the tree is
alone or its zone is not empty. Missing: a tree with the empty zone among others (false). -/
theorem C33_set_bundle_id_partial {s : St} (h : Reach s) {b t : Nat} (ht : t ∈ s.trees b) (i : Str)
    (hz : s.trees b = [t] ∨ s.zone t ≠ some []) :
    ∃ z, s.zone t = some z ∧ (getSentId (setBundleId s b i) t).2 = addr i z := by
  obtain ⟨z, hzz, _⟩ := h.inv.ok b t ht
  refine ⟨z, hzz, getSentId_some ?_⟩
  rw [setBundleId_sentId ht hzz]
  unfold addr
  by_cases hz0 : z = []
  · subst hz0
    rcases hz with hz | hz
    · rw [if_pos ⟨hz, rfl⟩]; simp
    · exact absurd hzz hz
  · rw [if_neg (fun hh => hz0 hh.2), if_neg hz0]; simp

/-- C33: after `bundle_id = i`, different trees of the bundle have different addresses. -/
theorem C33_addresses_distinct {s : St} (h : Reach s) {b t u : Nat} (ht : t ∈ s.trees b) (hu : u ∈ s.trees b)
    (hne : t ≠ u) (i : Str) : (getSentId (setBundleId s b i) t).2 ≠ (getSentId (setBundleId s b i) u).2 := by
  obtain ⟨z, hz, _⟩ := h.inv.ok b t ht
  obtain ⟨z', hz', _⟩ := h.inv.ok b u hu
  rw [getSentId_some (setBundleId_sentId ht hz i), getSentId_some (setBundleId_sentId hu hz' i)]
  have h1 : ¬ (s.trees b = [t] ∧ z = []) := by
    rintro ⟨e, _⟩; rw [e] at hu; exact hne (by simpa using hu : u = t).symm
  have h2 : ¬ (s.trees b = [u] ∧ z' = []) := by
    rintro ⟨e, _⟩; rw [e] at ht; exact hne (by simpa using ht)
  rw [if_neg h1, if_neg h2]
  intro e
  have e2 := List.append_cancel_left e
  simp only [List.cons.injEq, true_and] at e2
  exact hne ((C32_zones_unique_partial h b).1 t ht u hu (by rw [hz, hz', e2]))

/-- C33, adding a tree to a bundle with an id gives it the documented address. -/
theorem C33_add_tree {s : St} (b t : Nat) {c : Char} {i : Str} (hb : s.bid b = some (c :: i))
    (hok : (addTree s b t).2 = none) :
    ∃ z, (addTree s b t).1.zone t = some z ∧ (getSentId (addTree s b t).1 t).2 = addr (c :: i) z := by
  have key : ∀ s1 : St, s1.bid = s.bid → (∃ z, s1.zone t = some z) →
      checkZone s1 b ((s1.zone t).getD []) = none →
      ∃ z, s1.zone t = some z ∧ (if (s1.zone t).getD [] ≠ [] then (c :: i) ++ '/' :: (s1.zone t).getD [] else c :: i) =
        addr (c :: i) z := by
    rintro s1 _ ⟨z, hz⟩ _
    refine ⟨z, hz, ?_⟩
    rw [hz]
    unfold addr
    by_cases h : z = [] <;> simp [h]
  by_cases hn : s.zone t = none
  · have e : (if s.zone t = none then { s with zone := upd s.zone t (some []) } else s) =
        { s with zone := upd s.zone t (some []) } := if_pos hn
    unfold addTree at hok ⊢
    simp only at hok ⊢
    rw [e] at hok ⊢
    cases hc : checkZone { s with zone := upd s.zone t (some []) } b
        ((upd s.zone t (some []) t).getD []) with
    | some er => simp only [hc] at hok; cases hok
    | none =>
      simp only [hb]
      obtain ⟨z, hz, he⟩ := key { s with zone := upd s.zone t (some []) } rfl ⟨[], upd_same _ _ _⟩ hc
      refine ⟨z, hz, getSentId_some ?_⟩
      simp only [upd_same]
      rw [← he]
      simp
  · have e : (if s.zone t = none then { s with zone := upd s.zone t (some []) } else s) = s := if_neg hn
    unfold addTree at hok ⊢
    simp only at hok ⊢
    rw [e] at hok ⊢
    cases hc : checkZone s b ((s.zone t).getD []) with
    | some er => simp only [hc] at hok; cases hok
    | none =>
      simp only [hb]
      have hsome : ∃ z, s.zone t = some z := by
        cases hz : s.zone t with
        | none => exact absurd hz hn
        | some z => exact ⟨z, rfl⟩
      obtain ⟨z, hz, he⟩ := key s rfl hsome hc
      refine ⟨z, hz, getSentId_some ?_⟩
      simp only [upd_same]
      rw [he]

/-- C33 is violated in every bundle with several trees, one of them with the empty zone: setting the id of
the bundle gives this tree the address `id/`. -/
theorem C33_empty_zone_violated {s : St} {b t u : Nat} (ht : t ∈ s.trees b) (hu : u ∈ s.trees b) (hne : t ≠ u)
    (hz : s.zone t = some []) (i : Str) :
    (getSentId (setBundleId s b i) t).2 = i ++ ['/'] ∧ (getSentId (setBundleId s b i) t).2 ≠ addr i [] := by
  have h1 : (setBundleId s b i).sentId t = some (i ++ ['/']) := by
    rw [setBundleId_sentId ht hz, if_neg]
    rintro ⟨e, _⟩
    rw [e] at hu
    exact hne (by simpa using hu : u = t).symm
  rw [getSentId_some h1]
  refine ⟨rfl, ?_⟩
  intro e
  have := congrArg List.length e
  simp [addr] at this

/-- C33 is violated by every tree with a non-empty zone: assigning its own address back raises. -/
theorem C33_own_sent_id_violated {s : St} (h : Reach s) {b t : Nat} (ht : t ∈ s.trees b) {z : Str}
    (hz : s.zone t = some z) (hzne : z ≠ []) {i : Str} (hi : '/' ∉ i) :
    (setSentId s t (addr i z)).2 = some .exception := by
  have hb := (h.inv.home b t ht).1
  obtain ⟨z', hz', hacc⟩ := h.inv.ok b t ht
  rw [hz] at hz'
  cases hz'
  have hsp : splitOnce '/' (addr i z) = (i, some z) := by
    unfold addr
    rw [if_neg hzne, List.append_assoc, List.singleton_append, splitOnce_append hi]
  unfold setSentId
  rw [hb]
  simp only
  rw [hsp]
  have hset : setZone (setBundleId s b i) t z = (setBundleId s b i, some .exception) := by
    unfold setZone
    have hb' : (setBundleId s b i).bundleOf t = some b := hb
    rw [hb']
    simp only
    have hc : checkZone (setBundleId s b i) b z = some .exception := by
      unfold checkZone
      rw [if_neg (by simp [hacc.1]), if_neg hacc.2, if_pos]
      exact List.mem_map.2 ⟨t, ht, hz⟩
    rw [hc]
  simp only
  rw [hset]

/-- C33 (partial): a tree with the empty zone that is alone in its bundle can be assigned its own address;
nothing changes. -/
theorem C33_own_sent_id_partial {s : St} (h : Reach s) {b t : Nat} (ht : s.trees b = [t])
    (hz : s.zone t = some []) {i : Str} (hi : '/' ∉ i) (hid : s.bid b = some i) (hs : s.sentId t = some i) :
    setSentId s t i = (s, none) := by
  have hm : t ∈ s.trees b := by rw [ht]; simp
  have hb := (h.inv.home b t hm).1
  unfold setSentId
  rw [hb]
  simp only
  rw [splitOnce_of_not_mem hi]
  have h1 : upd s.sentId t (some i) = s.sentId := by
    funext x; unfold upd; split
    · rename_i e; rw [e, hs]
    · rfl
  have h2 : upd s.bid b (some i) = s.bid := by
    funext x; unfold upd; split
    · rename_i e; rw [e, hid]
    · rfl
  unfold setBundleId
  simp [ht, hz, h1, h2]

/-- In `exSt`, tree 0 has zone `en`, tree 1 the empty zone, in the bundle `a`. -/
example : (getSentId exSt 0).2 = ['a', '/', 'e', 'n'] ∧ (getSentId exSt 1).2 = ['a'] ∧
    (getSentId (setBundleId exSt 0 ['q']) 1).2 = ['q', '/'] ∧ 0 ∈ exSt.trees 0 ∧ 1 ∈ exSt.trees 0 ∧
    (setSentId exSt 0 ['a', '/', 'e', 'n']).2 = some .exception := by decide

/-! ## C34: numbers -/

/-- Documents after any sequence of `create_bundle` and `bundle.remove()`. -/
inductive DocReach : Doc → Prop where
  | init : DocReach Doc.init
  | step {d op} : DocReach d → DocReach (docStep d op)

theorem enumerate_get : ∀ (bs : List Nat) (i : Nat) (f : Nat → Nat), bs.Nodup →
    (∀ x, x ∉ bs → enumerate i bs f x = f x) ∧ ∀ (k x : Nat), bs[k]? = some x → enumerate i bs f x = i + k := by
  intro bs
  induction bs with
  | nil => intro i f _; simp [enumerate]
  | cons b bs ih =>
    intro i f hn
    rw [List.nodup_cons] at hn
    obtain ⟨h1, h2⟩ := ih (i + 1) (upd f b i) hn.2
    simp only [enumerate]
    constructor
    · intro x hx
      rw [List.mem_cons, not_or] at hx
      rw [h1 x hx.2, upd_ne hx.1]
    · intro k x hk
      cases k with
      | zero => simp at hk; subst hk; rw [h1 _ hn.1]; simp
      | succ k => simp at hk; rw [h2 k x hk]; omega

/-- Numbers strictly increase along the document and do not exceed its length. -/
structure DocInv (d : Doc) : Prop where
  sorted : d.bundles.Pairwise (fun a b => d.number a < d.number b)
  le : ∀ b ∈ d.bundles, d.number b ≤ d.bundles.length
  lt : ∀ b ∈ d.bundles, b < d.next

theorem DocInv.nodup {d : Doc} (h : DocInv d) : d.bundles.Nodup := by
  refine h.sorted.imp ?_
  intro a b hab e
  rw [e] at hab
  omega

theorem pairwise_of_index {l : List Nat} {R : Nat → Nat → Prop}
    (h : ∀ (i j x y : Nat), i < j → l[i]? = some x → l[j]? = some y → R x y) : l.Pairwise R := by
  rw [List.pairwise_iff_getElem]
  intro i j hi hj hij
  exact h i j _ _ hij (List.getElem?_eq_getElem hi) (List.getElem?_eq_getElem hj)

theorem DocReach.inv {d : Doc} (h : DocReach d) : DocInv d := by
  induction h with
  | init => exact ⟨.nil, by simp [Doc.init], by simp [Doc.init]⟩
  | @step d op _ ih =>
    cases op with
    | create =>
      have hne : ∀ b ∈ d.bundles, b ≠ d.next := fun b hb e => by have := ih.lt b hb; omega
      show DocInv (createBundle d)
      refine ⟨?_, ?_, ?_⟩
      · show (d.bundles ++ [d.next]).Pairwise
          (fun a b => upd d.number d.next (d.bundles ++ [d.next]).length a < upd d.number d.next (d.bundles ++ [d.next]).length b)
        rw [List.pairwise_append]
        refine ⟨ih.sorted.imp_of_mem ?_, by simp, ?_⟩
        · intro a b ha hb hab
          rw [upd_ne (hne a ha), upd_ne (hne b hb)]; exact hab
        · intro a ha b hb
          simp at hb
          subst hb
          rw [upd_ne (hne a ha), upd_same]
          have := ih.le a ha
          simp; omega
      · intro b hb
        change b ∈ d.bundles ++ [d.next] at hb
        show upd d.number d.next (d.bundles ++ [d.next]).length b ≤ (d.bundles ++ [d.next]).length
        rw [List.mem_append] at hb
        rcases hb with hb | hb
        · rw [upd_ne (hne b hb)]; have := ih.le b hb; simp; omega
        · simp at hb; subst hb; rw [upd_same]; exact Nat.le_refl _
      · intro b hb
        change b ∈ d.bundles ++ [d.next] at hb
        show b < d.next + 1
        rw [List.mem_append] at hb
        rcases hb with hb | hb
        · have := ih.lt b hb; omega
        · simp at hb; omega
    | remove b =>
      show DocInv (removeBundle d b)
      have hnd : (d.bundles.filter (fun x => decide (x ≠ b))).Nodup := ih.nodup.filter _
      obtain ⟨_, h2⟩ := enumerate_get _ 0 d.number hnd
      refine ⟨?_, ?_, ?_⟩
      · apply pairwise_of_index
        intro i j x y hij hx hy
        show enumerate 0 _ d.number x < enumerate 0 _ d.number y
        rw [h2 i x hx, h2 j y hy]
        omega
      · intro x hx
        obtain ⟨k, hk, rfl⟩ := List.mem_iff_getElem.1 hx
        show enumerate 0 _ d.number _ ≤ _
        rw [h2 k _ (List.getElem?_eq_getElem hk)]
        omega
      · intro x hx
        exact ih.lt x (List.mem_filter.1 hx).1
    | setId b i => exact ⟨ih.sorted, ih.le, ih.lt⟩

/-- `node.precedes(other)` for nodes of different trees of one document and zone compares the numbers of
their bundles (node.py:759). -/
def precedesBundle (d : Doc) (a b : Nat) : Bool := d.number a < d.number b

/-- C34: after any sequence of `create_bundle` and `remove`, a bundle precedes another one, as
`node.precedes` sees it, exactly if it is earlier in the document. -/
theorem C34_numbers_follow_order {d : Doc} (h : DocReach d) {i j a b : Nat} (ha : d.bundles[i]? = some a)
    (hb : d.bundles[j]? = some b) : precedesBundle d a b = true ↔ i < j := by
  have hi := h.inv
  have key : ∀ {i j a b : Nat}, d.bundles[i]? = some a → d.bundles[j]? = some b → i < j → d.number a < d.number b := by
    intro i j a b ha hb hij
    obtain ⟨h1, rfl⟩ := List.getElem?_eq_some_iff.1 ha
    obtain ⟨h2, rfl⟩ := List.getElem?_eq_some_iff.1 hb
    exact List.pairwise_iff_getElem.1 hi.sorted i j h1 h2 hij
  unfold precedesBundle
  simp only [decide_eq_true_eq]
  constructor
  · intro hlt
    by_cases hij : i < j
    · exact hij
    · by_cases he : i = j
      · subst he; rw [ha] at hb; cases hb; omega
      · have := key hb ha (by omega); omega
  · exact key ha hb

/-- C34: creating a bundle puts it at the end, removing one takes exactly it out; the order of the others
is kept. -/
theorem C34_create_remove {d : Doc} (h : DocReach d) (b : Nat) :
    (createBundle d).bundles = d.bundles ++ [d.next] ∧ d.next ∉ d.bundles ∧
    (removeBundle d b).bundles = d.bundles.erase b := by
  refine ⟨rfl, fun hm => by have := h.inv.lt _ hm; omega, ?_⟩
  rw [h.inv.nodup.erase_eq_filter]
  apply List.filter_congr
  intro u _
  by_cases e : u = b <;> simp [e]

/-- Three bundles, the first one removed, another one created: the bundles 1, 2, 3 have numbers 0, 1, 3. -/
def exDoc : Doc := docStep (docStep (docStep (docStep (docStep Doc.init .create) .create) .create) (.remove 0)) .create

example : DocReach exDoc ∧ exDoc.bundles = [1, 2, 3] ∧ exDoc.bundles.map exDoc.number = [0, 1, 3] :=
  ⟨.step (.step (.step (.step (.step .init)))), by decide, by decide⟩

/-! ## C61: ids given by create_bundle -/

/-- Documents whose bundle ids were all given by `create_bundle`. -/
inductive AutoReach : Doc → Prop where
  | init : AutoReach Doc.init
  | create {d} : AutoReach d → AutoReach (createBundle d)
  | remove {d b} : AutoReach d → AutoReach (removeBundle d b)

theorem AutoReach.ids {d : Doc} (h : AutoReach d) :
    (∀ b ∈ d.bundles, b < d.next) ∧ (∀ b, b < d.next → ∃ k, d.id b = natStr k ∧ 1 ≤ k ∧ k ≤ d.highest) ∧
    ∀ a b, a < d.next → b < d.next → d.id a = d.id b → a = b := by
  induction h with
  | init => simp [Doc.init]
  | @create d _ ih =>
    obtain ⟨h1, h2, h3⟩ := ih
    refine ⟨?_, ?_, ?_⟩
    · intro b hb
      change b ∈ d.bundles ++ [d.next] at hb
      show b < d.next + 1
      rw [List.mem_append] at hb
      rcases hb with hb | hb
      · have := h1 b hb; omega
      · simp at hb; omega
    · intro b hb
      change b < d.next + 1 at hb
      show ∃ k, upd d.id d.next (natStr (d.highest + 1)) b = natStr k ∧ 1 ≤ k ∧ k ≤ d.highest + 1
      by_cases he : b = d.next
      · subst he; exact ⟨d.highest + 1, by simp, by omega, by omega⟩
      · obtain ⟨k, e, hk1, hk2⟩ := h2 b (by omega)
        exact ⟨k, by rw [upd_ne he, e], hk1, by omega⟩
    · intro a b ha hb
      change a < d.next + 1 at ha
      change b < d.next + 1 at hb
      show upd d.id d.next (natStr (d.highest + 1)) a = upd d.id d.next (natStr (d.highest + 1)) b → a = b
      by_cases hea : a = d.next <;> by_cases heb : b = d.next
      · intro _; rw [hea, heb]
      · subst hea
        rw [upd_same, upd_ne heb]
        intro e
        obtain ⟨k, e', hk1, hk2⟩ := h2 b (by omega)
        rw [e'] at e
        have := natStr_inj e
        omega
      · subst heb
        rw [upd_same, upd_ne hea]
        intro e
        obtain ⟨k, e', hk1, hk2⟩ := h2 a (by omega)
        rw [e'] at e
        have := natStr_inj e
        omega
      · rw [upd_ne hea, upd_ne heb]
        exact h3 a b (by omega) (by omega)
  | @remove d b _ ih =>
    obtain ⟨h1, h2, h3⟩ := ih
    exact ⟨fun x hx => h1 x (List.mem_filter.1 hx).1, h2, h3⟩

/-- C61 (partial): if no id was set by hand, different bundles of a document have different ids, also after
removals. Missing: ids set by hand or read from a file (false). -/
theorem C61_ids_distinct_partial {d : Doc} (h : AutoReach d) {a b : Nat} (ha : a ∈ d.bundles)
    (hb : b ∈ d.bundles) (hne : a ≠ b) : d.id a ≠ d.id b :=
  fun e => hne (h.ids.2.2 a b (h.ids.1 a ha) (h.ids.1 b hb) e)

example : AutoReach (createBundle (removeBundle (createBundle (createBundle Doc.init)) 0)) ∧
    (createBundle (removeBundle (createBundle (createBundle Doc.init)) 0)).bundles = [1, 2] :=
  ⟨.create (.remove (.create (.create .init))), by decide⟩

/-- C61 is violated: the first bundle is given the id `2`, the next one created gets the same id. -/
theorem C61_ids_violated :
    let d := docStep (docStep (docStep Doc.init .create) (.setId 0 ['2'])) .create
    DocReach d ∧ d.bundles = [0, 1] ∧ d.id 0 = d.id 1 := by
  refine ⟨.step (.step (.step .init)), by decide, ?_⟩
  have h2 : natStr 2 = ['2'] := by rw [natStr]; decide
  show ['2'] = natStr 2
  rw [h2]

end Verif.Bundle
