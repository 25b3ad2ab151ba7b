import Verif.Tree.LemmasLoops

/-! # `_shift_before_ord` computes `moved` -/

namespace Verif.Tree
open Verif.Py

theorem filter_keep {S A : List Nat} (h : ∀ y ∈ A, y ∉ S) : A.filter (fun y => y ∉ S) = A := by
  rw [List.filter_eq_self]
  intro y hy
  simpa using h y hy

theorem filter_drop {S A : List Nat} (h : ∀ y ∈ A, y ∈ S) : A.filter (fun y => y ∉ S) = [] := by
  rw [List.filter_eq_nil_iff]
  intro y hy
  simpa using h y hy

/-- The result of one of the branches. -/
def ShiftOk (W : List Nat) (o : Nat → Nat) (S : List Nat) (ref : Nat) (res : Option WO) : Prop :=
  ∃ o', res = some ⟨moved W S ref, o'⟩ ∧ Aligned o' 1 (moved W S ref) ∧ ∀ y, y ∉ W → o' y = o y

theorem moved_split {A B S : List Nat} {ref : Nat} (hA : A.length + 1 = ref) :
    moved (A ++ B) S ref = A.filter (fun y => y ∉ S) ++ S ++ B.filter (fun y => y ∉ S) := by
  unfold moved
  have : ref - 1 = A.length := by omega
  rw [this, List.take_left, List.drop_left]

theorem renum_aligned_other {o o' : Nat → Nat} {k j : Nat} {l m : List Nat} (hr : Renum o o' k l)
    (hd : ∀ y ∈ m, y ∉ l) (ha : Aligned o j m) : Aligned o' j m :=
  (aligned_congr (fun y hy => hr.2 y (hd y hy))).2 ha

section
variable {o : Nat → Nat}

/-- Block `S` between `A` and `C` moved to the left, in front of `A2`. -/
theorem block_left_case {A1 A2 S C : List Nat} (ha : Aligned o 1 (A1 ++ A2 ++ S ++ C)) :
    ∀ o1 o2, Renum o o1 (A1.length + S.length + 1) A2 → Renum o1 o2 (A1.length + 1) S →
    Aligned o2 1 (A1 ++ S ++ (A2 ++ C)) ∧ ∀ y, y ∉ A1 ++ A2 ++ S ++ C → o2 y = o y := by
  intro o1 o2 h1 h2
  have hn := aligned_nodup ha
  have hd : (∀ y ∈ A1, y ∉ A2 ∧ y ∉ S) ∧ (∀ y ∈ A2, y ∉ S) ∧ (∀ y ∈ C, y ∉ A2 ∧ y ∉ S) := by
    simp only [List.nodup_append, List.mem_append] at hn
    grind
  obtain ⟨⟨⟨hA1, hA2⟩, hS⟩, hC⟩ : ((Aligned o 1 A1 ∧ _) ∧ _) ∧ Aligned o _ C := by
    simpa only [aligned_append] using ha
  refine ⟨?_, ?_⟩
  · simp only [aligned_append, List.length_append]
    refine ⟨⟨?_, ?_⟩, ?_, ?_⟩
    · exact renum_aligned_other h2 (fun y hy => (hd.1 y hy).2)
        (renum_aligned_other h1 (fun y hy => (hd.1 y hy).1) hA1)
    · rw [Nat.add_comm]; exact h2.1
    · rw [show 1 + (A1.length + S.length) = A1.length + S.length + 1 by omega]
      exact renum_aligned_other h2 (fun y hy => hd.2.1 y hy) h1.1
    · have := renum_aligned_other h2 (fun y hy => (hd.2.2 y hy).2)
        (renum_aligned_other h1 (fun y hy => (hd.2.2 y hy).1) hC)
      simp only [List.length_append] at this
      rw [show 1 + (A1.length + S.length) + A2.length = 1 + (A1.length + A2.length + S.length) by omega]
      exact this
  · intro y hy
    simp only [List.mem_append, not_or] at hy
    rw [h2.2 y hy.1.2, h1.2 y hy.1.1.2]

/-- Block `S` moved to the right, behind `C1`. -/
theorem block_right_case {A S C1 C2 : List Nat} (ha : Aligned o 1 (A ++ S ++ (C1 ++ C2))) :
    ∀ o1 o2, Renum o o1 (A.length + 1) C1 → Renum o1 o2 (A.length + C1.length + 1) S →
    Aligned o2 1 (A ++ C1 ++ S ++ C2) ∧ ∀ y, y ∉ A ++ S ++ (C1 ++ C2) → o2 y = o y := by
  intro o1 o2 h1 h2
  have hn := aligned_nodup ha
  have hd : (∀ y ∈ A, y ∉ C1 ∧ y ∉ S) ∧ (∀ y ∈ C1, y ∉ S) ∧ (∀ y ∈ C2, y ∉ C1 ∧ y ∉ S) := by
    simp only [List.nodup_append, List.mem_append] at hn
    grind
  obtain ⟨⟨hA, hS⟩, hC1, hC2⟩ : (Aligned o 1 A ∧ _) ∧ Aligned o _ C1 ∧ Aligned o _ C2 := by
    simpa only [aligned_append] using ha
  refine ⟨?_, ?_⟩
  · simp only [aligned_append, List.length_append]
    refine ⟨⟨⟨?_, ?_⟩, ?_⟩, ?_⟩
    · exact renum_aligned_other h2 (fun y hy => (hd.1 y hy).2)
        (renum_aligned_other h1 (fun y hy => (hd.1 y hy).1) hA)
    · rw [Nat.add_comm]
      exact renum_aligned_other h2 (fun y hy => hd.2.1 y hy) h1.1
    · rw [show 1 + (A.length + C1.length) = A.length + C1.length + 1 by omega]; exact h2.1
    · have := renum_aligned_other h2 (fun y hy => (hd.2.2 y hy).2)
        (renum_aligned_other h1 (fun y hy => (hd.2.2 y hy).1) hC2)
      simp only [List.length_append] at this
      rw [show 1 + (A.length + C1.length + S.length) = 1 + (A.length + S.length) + C1.length by omega]
      exact this
  · intro y hy
    simp only [List.mem_append, not_or] at hy
    rw [h2.2 y hy.1.2, h1.2 y hy.2.1]

end

/-- `moved` for a contiguous block. -/
theorem moved_block {A S C : List Nat} (hn : (A ++ S ++ C).Nodup) {ref : Nat} (h1 : 1 ≤ ref) :
    moved (A ++ S ++ C) S ref =
      if ref ≤ A.length + 1 then A.take (ref - 1) ++ S ++ (A.drop (ref - 1) ++ C)
      else A ++ C.take (ref - 1 - (A.length + S.length)) ++ S ++
        C.drop (ref - 1 - (A.length + S.length)) := by
  have hA : ∀ y ∈ A, y ∉ S := by
    simp only [List.nodup_append, List.mem_append] at hn; grind
  have hC : ∀ y ∈ C, y ∉ S := by
    simp only [List.nodup_append, List.mem_append] at hn; grind
  have fS : ∀ l : List Nat, (∀ y ∈ l, y ∈ S) → l.filter (fun y => y ∉ S) = [] :=
    fun l hl => filter_drop hl
  split
  · rename_i hle
    have e : A ++ S ++ C = A.take (ref - 1) ++ (A.drop (ref - 1) ++ (S ++ C)) := by
      rw [← List.append_assoc, List.take_append_drop, List.append_assoc]
    have hlen : (A.take (ref - 1)).length + 1 = ref := by simp; omega
    rw [e, moved_split hlen, List.filter_append, List.filter_append, fS S (fun y hy => hy),
      filter_keep (fun y hy => hA y (List.mem_of_mem_take hy)),
      filter_keep (fun y hy => hA y (List.mem_of_mem_drop hy)), filter_keep hC]
    simp
  · rename_i hgt
    by_cases hin : ref ≤ A.length + S.length + 1
    · have e : A ++ S ++ C = (A ++ S.take (ref - 1 - A.length)) ++ (S.drop (ref - 1 - A.length) ++ C) := by
        rw [List.append_assoc, List.append_assoc, ← List.append_assoc (S.take _),
          List.take_append_drop]
      have hlen : (A ++ S.take (ref - 1 - A.length)).length + 1 = ref := by simp; omega
      have hz : ref - 1 - (A.length + S.length) = 0 := by omega
      rw [e, moved_split hlen, List.filter_append, List.filter_append,
        fS _ (fun y hy => List.mem_of_mem_take hy), fS _ (fun y hy => List.mem_of_mem_drop hy),
        filter_keep hA, filter_keep hC, hz]
      simp
    · have e : A ++ S ++ C = (A ++ S ++ C.take (ref - 1 - (A.length + S.length))) ++
          C.drop (ref - 1 - (A.length + S.length)) := by
        simp
      by_cases hlen' : ref - 1 - (A.length + S.length) ≤ C.length
      · have hlen : (A ++ S ++ C.take (ref - 1 - (A.length + S.length))).length + 1 = ref := by
          simp; omega
        conv => lhs; rw [e]
        rw [moved_split hlen, List.filter_append, List.filter_append, fS S (fun y hy => hy),
          filter_keep hA, filter_keep (fun y hy => hC y (List.mem_of_mem_take hy)),
          filter_keep (fun y hy => hC y (List.mem_of_mem_drop hy))]
        simp
      · -- beyond the end
        unfold moved
        rw [List.take_of_length_le (by simp; omega), List.drop_of_length_le (by simp; omega),
          List.take_of_length_le (by omega), List.drop_of_length_le (by omega)]
        rw [List.filter_append, List.filter_append, fS S (fun y hy => hy), filter_keep hA,
          filter_keep hC]
        simp

/-- The branch without gaps. -/
theorem shiftBlock_spec {A S C : List Nat} {o : Nat → Nat} (ha : Aligned o 1 (A ++ S ++ C))
    (hS : S ≠ []) {ref : Nat} (h1 : 1 ≤ ref) (h2 : ref ≤ (A ++ S ++ C).length + 1) :
    ShiftOk (A ++ S ++ C) o S ref
      (shiftBlock ⟨A ++ S ++ C, o⟩ S (A.length + 1) (A.length + S.length) ref) := by
  have hn := aligned_nodup ha
  have hnS : S.Nodup := by simp only [List.nodup_append] at hn; exact hn.1.2.1
  have hSpos : 0 < S.length := List.length_pos_iff.2 hS
  unfold ShiftOk
  rw [moved_block hn h1]
  by_cases hle : ref ≤ A.length + 1
  · rw [if_pos hle]
    -- to the left
    obtain ⟨A1, A2, rfl, hA1⟩ : ∃ A1 A2, A = A1 ++ A2 ∧ A1.length = ref - 1 :=
      ⟨A.take (ref - 1), A.drop (ref - 1), by simp, by simp; omega⟩
    have hnA2 : A2.Nodup := by simp only [List.nodup_append] at hn; exact hn.1.1.2.1
    obtain ⟨o1, X, hX, he, hr⟩ := blockRight_spec A2 A1 S C o hS hnA2
    obtain ⟨o2, he2, hr2⟩ := putAll_spec S A1 X (A2 ++ C) o1 hX hnS
    have hfin := block_left_case ha o1 o2 hr hr2
    refine ⟨o2, ?_, ?_, hfin.2⟩
    · have hr1 : A1.length + 1 = ref := by omega
      have hsrc : (A1 ++ A2).length + 1 - 1 = A1.length + A2.length := by simp
      have hl : (A1 ++ A2).length + S.length = A1.length + A2.length + S.length := by simp
      have hz : ref - ((A1 ++ A2).length + S.length + 1) = 0 := by
        simp only [List.length_append] at hle ⊢; omega
      have ht : (if ref < (A1 ++ A2).length + 1 then ref else (A1 ++ A2).length + 1) = ref := by
        simp only [List.length_append] at hle ⊢; split <;> omega
      simp only [shiftBlock]
      rw [hsrc, hl, ← hr1, show A1 ++ A2 ++ S ++ C = A1 ++ A2 ++ (S ++ C) by simp, he]
      simp only
      rw [hr1, ← hl, hz]
      simp only [blockLeft]
      rw [ht, ← hr1, he2]
      simp
    · have : (A1 ++ A2).take (ref - 1) = A1 := by rw [← hA1]; simp
      have hd : (A1 ++ A2).drop (ref - 1) = A2 := by rw [← hA1]; simp
      rw [this, hd]; exact hfin.1
  · rw [if_neg hle]
    have hskip : blockRight ⟨A ++ S ++ C, o⟩ ref (A.length + S.length) (A.length + 1 - 1) =
        some ⟨A ++ S ++ C, o⟩ := blockRight_skip (by omega)
    simp only [shiftBlock, hskip]
    by_cases hmid : ref ≤ A.length + S.length + 1
    · have hz : ref - (A.length + S.length + 1) = 0 := by omega
      have hz' : ref - 1 - (A.length + S.length) = 0 := by omega
      have ht : (if ref < A.length + 1 then ref else A.length + 1) = A.length + 1 := by
        rw [if_neg]; omega
      obtain ⟨o2, he2, hr2⟩ := putAll_spec S A S C o rfl hnS
      rw [hz, hz']
      simp only [blockLeft]
      rw [ht, he2]
      have hfin := block_right_case (C1 := []) (C2 := C) (by simpa using ha) o o2 (renum_nil _ _)
        (by simpa using hr2)
      exact ⟨o2, by simp, by simpa using hfin.1, by simpa using hfin.2⟩
    · obtain ⟨C1, C2, rfl, hC1⟩ : ∃ C1 C2, C = C1 ++ C2 ∧
          C1.length = ref - (A.length + S.length + 1) :=
        ⟨C.take (ref - (A.length + S.length + 1)), C.drop (ref - (A.length + S.length + 1)), by simp,
          by simp only [List.length_append] at h2; simp; omega⟩
      have hnC1 : C1.Nodup := by simp only [List.nodup_append] at hn; exact hn.2.1.1
      obtain ⟨o1, X, hX, he, hr⟩ := blockLeft_spec C1 A S C2 o hS hnC1
      obtain ⟨o2, he2, hr2⟩ := putAll_spec S (A ++ C1) X C2 o1 hX hnS
      have hfin := block_right_case ha o1 o2 hr (by simpa using hr2)
      rw [← hC1, he]
      simp only
      have ht : (if ref < A.length + 1 then ref else A.length + 1 + C1.length) =
          (A ++ C1).length + 1 := by
        rw [if_neg (by omega)]; simp; omega
      have hk : ref - 1 - (A.length + S.length) = C1.length := by omega
      rw [ht, hk, ← List.append_assoc, he2]
      refine ⟨o2, by simp, by simpa using hfin.1, hfin.2⟩

/-- The branch for a single word. -/
theorem shiftSingle_spec {A C : List Nat} {x : Nat} {o : Nat → Nat} (ha : Aligned o 1 (A ++ [x] ++ C))
    {ref : Nat} (h1 : 1 ≤ ref) (h2 : ref ≤ (A ++ [x] ++ C).length + 1) :
    ShiftOk (A ++ [x] ++ C) o [x] ref (shiftSingle ⟨A ++ [x] ++ C, o⟩ x ref) := by
  have hox : o x = A.length + 1 := by
    have := aligned_append.1 (aligned_append.1 ha).1
    have := (aligned_cons.1 this.2).1
    omega
  have hn := aligned_nodup ha
  unfold ShiftOk
  rw [moved_block hn h1]
  simp only [shiftSingle, hox]
  by_cases hgt : A.length + 1 + 1 < ref
  · rw [if_pos hgt, if_neg (by omega)]
    obtain ⟨C1, C2, rfl, hC1⟩ : ∃ C1 C2, C = C1 ++ C2 ∧ C1.length = ref - 1 - (A.length + 1) :=
      ⟨C.take (ref - 1 - (A.length + 1)), C.drop (ref - 1 - (A.length + 1)), by simp,
        by simp only [List.length_append, List.length_singleton] at h2; simp; omega⟩
    have hnC1 : C1.Nodup := by simp only [List.nodup_append] at hn; exact hn.2.1.1
    obtain ⟨o1, X, hX, he, hr⟩ := blockLeft_spec C1 A [x] C2 o (by simp) hnC1
    obtain ⟨o2, he2, hr2⟩ := putAll_spec [x] (A ++ C1) X C2 o1 hX (by simp)
    have hfin := block_right_case ha o1 o2 hr (by simpa using hr2)
    rw [singleRight_eq, ← hC1]
    simp only [List.length_singleton] at he
    rw [he]
    simp only [Option.map_some]
    have hk : ref - 1 - (A.length + [x].length) = C1.length := by simp; omega
    have ht : ref - 1 = (A ++ C1).length + 1 := by simp; omega
    rw [hk, ht, ← List.append_assoc]
    refine ⟨o2, ?_, by simpa using hfin.1, hfin.2⟩
    simp only [putAll] at he2
    cases hp : WO.put ⟨A ++ C1 ++ X ++ C2, o1⟩ ((A ++ C1).length + 1) x with
    | none => rw [hp] at he2; simp at he2
    | some s => rw [hp] at he2; simp only at he2; rw [he2]; simp
  · rw [if_neg hgt]
    by_cases hlt : ref < A.length + 1
    · rw [if_pos hlt, if_pos (by omega)]
      obtain ⟨A1, A2, rfl, hA1⟩ : ∃ A1 A2, A = A1 ++ A2 ∧ A1.length = ref - 1 :=
        ⟨A.take (ref - 1), A.drop (ref - 1), by simp, by simp; omega⟩
      have hnA2 : A2.Nodup := by simp only [List.nodup_append] at hn; exact hn.1.1.2.1
      obtain ⟨o1, X, hX, he, hr⟩ := blockRight_spec A2 A1 [x] C o (by simp) hnA2
      obtain ⟨o2, he2, hr2⟩ := putAll_spec [x] A1 X (A2 ++ C) o1 hX (by simp)
      have hfin := block_left_case ha o1 o2 hr hr2
      rw [singleLeft_eq _ _ _ (by omega)]
      have e1 : (A1 ++ A2).length + 1 - ((A1 ++ A2).length + 1 - ref) = A1.length + 1 := by
        simp only [List.length_append] at hlt ⊢; omega
      have e2 : (A1 ++ A2).length + 1 = A1.length + A2.length + [x].length := by simp
      have e3 : (A1 ++ A2).length + 1 - 1 = A1.length + A2.length := by simp
      rw [e1, e3, e2, show A1 ++ A2 ++ [x] ++ C = A1 ++ A2 ++ ([x] ++ C) by simp, he]
      simp only
      have e4 : ref = A1.length + 1 := by omega
      have e5 : (A1 ++ A2).take (ref - 1) = A1 := by rw [← hA1]; simp
      have e6 : (A1 ++ A2).drop (ref - 1) = A2 := by rw [← hA1]; simp
      rw [e5, e6, e4]
      refine ⟨o2, ?_, hfin.1, by simpa using hfin.2⟩
      simp only [putAll] at he2
      cases hp : WO.put ⟨A1 ++ X ++ (A2 ++ C), o1⟩ (A1.length + 1) x with
      | none => rw [hp] at he2; simp at he2
      | some s => rw [hp] at he2; simp only at he2; rw [he2]
    · rw [if_neg hlt]
      refine ⟨o, ?_, ?_, fun _ _ => rfl⟩
      · split
        · rw [List.take_of_length_le (by omega), List.drop_of_length_le (by omega)]; simp
        · have : ref - 1 - (A.length + [x].length) = 0 := by simp; omega
          rw [this]; simp
      · split
        · rw [List.take_of_length_le (by omega), List.drop_of_length_le (by omega)]; simpa using ha
        · have : ref - 1 - (A.length + [x].length) = 0 := by simp; omega
          rw [this]; simpa using ha

theorem moved_nodup {W S : List Nat} (hW : W.Nodup) (hS : S.Nodup) (ref : Nat) :
    (moved W S ref).Nodup := by
  have hW' := hW
  rw [← List.take_append_drop (ref - 1) W] at hW'
  rw [List.nodup_append] at hW'
  unfold moved
  simp only [List.nodup_append, List.mem_append, List.mem_filter]
  refine ⟨⟨hW'.1.filter _, hS, ?_⟩, hW'.2.1.filter _, ?_⟩
  · intro a ha b hb hab
    subst hab
    simp [hb] at ha
  · intro a ha b hb hab
    subst hab
    rcases ha with ha | ha
    · exact hW'.2.2 a ha.1 a hb.1 rfl
    · simp [ha] at hb

theorem assemble {o o1 o2 o3 : Nat → Nat} {P F2 S F1 Q : List Nat}
    (hn : (P ++ F2 ++ S ++ (F1 ++ Q)).Nodup) (hP : Aligned o 1 P)
    (hQ : Aligned o (1 + (P.length + F2.length + S.length) + F1.length) Q)
    (h1 : Renum o o1 (1 + (P.length + F2.length + S.length)) F1)
    (h2 : Renum o1 o2 (1 + P.length) F2) (h3 : Renum o2 o3 (1 + (P.length + F2.length)) S) :
    Aligned o3 1 (P ++ F2 ++ S ++ (F1 ++ Q)) ∧
      ∀ y, y ∉ F1 → y ∉ F2 → y ∉ S → o3 y = o y := by
  have hu : ∀ y, y ∉ F1 → y ∉ F2 → y ∉ S → o3 y = o y := fun y a b c => by
    rw [h3.2 y c, h2.2 y b, h1.2 y a]
  have hd : (∀ y ∈ P, y ∉ F1 ∧ y ∉ F2 ∧ y ∉ S) ∧ (∀ y ∈ Q, y ∉ F1 ∧ y ∉ F2 ∧ y ∉ S) ∧
      (∀ y ∈ F2, y ∉ S) ∧ (∀ y ∈ F1, y ∉ F2 ∧ y ∉ S) := by
    simp only [List.nodup_append, List.mem_append] at hn
    refine ⟨?_, ?_, ?_, ?_⟩ <;> grind
  refine ⟨?_, hu⟩
  simp only [aligned_append, List.length_append]
  refine ⟨⟨⟨?_, ?_⟩, h3.1⟩, ?_, ?_⟩
  · exact (aligned_congr (fun y hy => hu y (hd.1 y hy).1 (hd.1 y hy).2.1 (hd.1 y hy).2.2)).2 hP
  · exact renum_aligned_other h3 hd.2.2.1 h2.1
  · exact renum_aligned_other h3 (fun y hy => (hd.2.2.2 y hy).2)
      (renum_aligned_other h2 (fun y hy => (hd.2.2.2 y hy).1) h1.1)
  · exact (aligned_congr (fun y hy => hu y (hd.2.1 y hy).1 (hd.2.1 y hy).2.1 (hd.2.1 y hy).2.2)).2 hQ

/-- The branch with gaps. -/
theorem shiftGaps_spec {A mid C : List Nat} {f l : Nat} {o : Nat → Nat} (S : List Nat)
    (ha : Aligned o 1 (A ++ (f :: mid) ++ (l :: C)))
    (hA : ∀ y ∈ A, y ∉ S) (hC : ∀ y ∈ C, y ∉ S)
    (hS : S = f :: mid.filter (fun y => y ∈ S) ++ [l])
    {ref : Nat} (h1 : 1 ≤ ref) (h2 : ref ≤ (A ++ (f :: mid) ++ (l :: C)).length + 1) :
    ShiftOk (A ++ (f :: mid) ++ (l :: C)) o S ref
      (shiftGaps ⟨A ++ (f :: mid) ++ (l :: C), o⟩ S (A.length + 1) (A.length + mid.length + 2) ref) := by
  have hn := aligned_nodup ha
  generalize hinS : (fun y => decide (y ∈ S)) = inS at hS
  have hin : ∀ y, inS y = true ↔ y ∈ S := fun y => by rw [← hinS]; simp
  have hnot : (fun y => decide (y ∉ S)) = fun y => !inS y := by
    funext y; rw [← hinS]; simp
  have hfin : inS f = true := (hin f).2 (by rw [hS]; simp)
  have hlin : inS l = true := (hin l).2 (by rw [hS]; simp)
  have hAi : ∀ A' : List Nat, (∀ y ∈ A', y ∉ S) → A'.filter inS = [] ∧ A'.filter (fun y => !inS y) = A' := by
    intro A' hA'
    constructor
    · rw [List.filter_eq_nil_iff]; intro y hy; rw [hin]; exact hA' y hy
    · rw [List.filter_eq_self]; intro y hy
      have := hA' y hy
      rw [← hin] at this
      simpa using this
  have hSn : S.Nodup := by
    have hsub : S.Sublist (A ++ (f :: mid) ++ (l :: C)) := by
      rw [hS]
      have e : A ++ (f :: mid) ++ (l :: C) = [] ++ A ++ ((f :: mid) ++ ([l] ++ C)) := by simp
      rw [e, show f :: List.filter inS mid ++ [l] = [] ++ ((f :: List.filter inS mid) ++ ([l] ++ [])) by simp]
      exact List.Sublist.append (List.nil_sublist _) (List.Sublist.append
        (List.Sublist.cons_cons _ List.filter_sublist)
        (List.Sublist.append (List.Sublist.refl _) (List.nil_sublist _)))
    exact hsub.nodup hn
  have hSne : S ≠ [] := by rw [hS]; simp
  have hSlen : S.length = (mid.filter inS).length + 2 := by
    have := congrArg List.length hS
    simp only [List.length_cons, List.length_append, List.length_nil] at this
    omega
  have hmn := moved_nodup hn hSn ref
  have hlens : ∀ l : List Nat, (l.filter inS).length + (l.filter (fun y => !inS y)).length = l.length :=
    fun l => by
      induction l with
      | nil => rfl
      | cons a l ih => cases h : inS a <;> simp [h] <;> omega
  obtain ⟨⟨haA, hafm⟩, halC⟩ := aligned_append.1 ha |>.imp_left aligned_append.1
  have haC := (aligned_cons.1 halC).2
  have hfmn : (f :: mid).Nodup := by simp only [List.nodup_append] at hn; exact hn.1.2.1
  have hmidn : mid.Nodup := (List.nodup_cons.1 hfmn).2
  unfold ShiftOk
  rcases Nat.lt_or_ge (A.length + 1) ref with hr1 | hr1
  · rcases Nat.lt_or_ge (A.length + mid.length + 2) ref with hr2 | hr2
    · -- to the right
      obtain ⟨C1, C2, rfl, hC1⟩ : ∃ C1 C2, C = C1 ++ C2 ∧
          C1.length = ref - 1 - (A.length + mid.length + 2) :=
        ⟨C.take (ref - 1 - (A.length + mid.length + 2)), C.drop (ref - 1 - (A.length + mid.length + 2)),
          by simp, by simp only [List.length_append, List.length_cons] at h2; simp; omega⟩
      have hC1' := hAi C1 (fun y hy => hC y (by simp [hy]))
      have hC2' := hAi C2 (fun y hy => hC y (by simp [hy]))
      have hA' := hAi A hA
      have hGn : (mid ++ l :: C1).Nodup := by
        have : (mid ++ l :: C1).Sublist (A ++ (f :: mid) ++ (l :: (C1 ++ C2))) := by
          rw [show A ++ (f :: mid) ++ (l :: (C1 ++ C2)) = (A ++ [f]) ++ ((mid ++ l :: C1) ++ C2) by simp]
          exact (List.sublist_append_left _ _).trans (List.sublist_append_right _ _)
        exact this.nodup hn
      have hGf : (mid ++ l :: C1).filter inS = mid.filter inS ++ [l] := by
        simp [List.filter_append, hlin, hC1'.1]
      have hGf' : (mid ++ l :: C1).filter (fun y => !inS y) = mid.filter (fun y => !inS y) ++ C1 := by
        rw [List.filter_append, List.filter_cons, hlin, hC1'.2]; simp
      obtain ⟨o2, X, hX, he, hr⟩ := gapLeft_spec S inS hin (mid ++ l :: C1) A [f] C2 [f] [] o (by simp)
        hGn (by rw [hGf]; simpa using hS)
      rw [hGf'] at hX he hr
      have hXl : X.length = S.length := by
        have := hlens mid
        simp only [List.length_append, List.length_cons, List.length_nil] at hX
        omega
      obtain ⟨o3, he3, hr3⟩ := putAll_spec S (A ++ (mid.filter (fun y => !inS y) ++ C1)) X C2 o2 hXl hSn
      have hm : moved (A ++ f :: mid ++ l :: (C1 ++ C2)) S ref =
          A ++ (mid.filter (fun y => !inS y) ++ C1) ++ S ++ ([] ++ C2) := by
        rw [show A ++ f :: mid ++ l :: (C1 ++ C2) = (A ++ f :: mid ++ l :: C1) ++ C2 by simp,
          moved_split (by simp; omega), hnot]
        simp only [List.filter_append, List.filter_cons, hfin, hlin, hA'.2, hC1'.2, hC2'.2]
        simp
      rw [hm] at hmn ⊢
      have := assemble (o := o) (o1 := o) hmn haA (by
        have hc := (aligned_append.1 haC).2
        simp only [List.length_append, List.length_cons, List.length_nil] at hc ⊢
        have := hlens mid
        have e : 1 + (A.length + ((mid.filter (fun y => !inS y)).length + C1.length) + S.length) + 0 =
          1 + (A.length + (mid.length + 1)) + 1 + C1.length := by omega
        rw [e]; exact hc) (renum_nil _ _) (by rw [Nat.add_comm]; exact hr)
        (by simpa [Nat.add_comm] using hr3)
      refine ⟨o3, ?_, this.1, ?_⟩
      · unfold shiftGaps
        rw [gapRight_skip (by omega)]
        simp only
        rw [show A ++ f :: mid ++ l :: (C1 ++ C2) = A ++ [f] ++ (mid ++ l :: C1 ++ C2) by simp,
          show ref - (A.length + 1 + 1) = (mid ++ l :: C1).length by simp; omega,
          (show gapLeft _ S (A.length + 1) (A.length + 1 + 1) 1 _ = _ from he)]
        simp only
        rw [if_neg (by simp; omega)]
        simp only [List.append_assoc, List.length_append] at he3 ⊢
        rw [show A.length + 1 + ((mid.filter (fun y => !inS y)).length + C1.length) =
          A.length + ((mid.filter (fun y => !inS y)).length + C1.length) + 1 by omega, he3]
        simp
      · intro y hy
        apply this.2 y
        · simp
        · intro hc; apply hy
          simp only [List.mem_append, List.mem_filter, List.mem_cons] at hc ⊢
          grind
        · intro hc; apply hy
          rw [hS] at hc
          simp only [List.mem_append, List.mem_filter, List.mem_cons] at hc ⊢
          grind
    · -- inside
      obtain ⟨m1, m2, rfl, hm1⟩ : ∃ m1 m2, mid = m1 ++ m2 ∧ m1.length = ref - (A.length + 2) :=
        ⟨mid.take (ref - (A.length + 2)), mid.drop (ref - (A.length + 2)), by simp, by simp; omega⟩
      have hA' := hAi A hA
      have hC' := hAi C hC
      rw [List.nodup_append] at hmidn
      have hl1 := hlens m1
      have hl2 := hlens m2
      simp only [List.filter_append, List.length_append] at hSlen hr2 hS
      obtain ⟨o1, X1, hX1, he1, hren1⟩ := gapRight_spec S inS hin hSne m2 (A ++ f :: m1) [l] C
        (f :: m1.filter inS) [l] o (by simp) hmidn.2.1 (by simpa using hS)
      obtain ⟨o2, X2, hX2, he2, hren2⟩ := gapLeft_spec S inS hin m1 A [f]
        (X1 ++ (m2.filter (fun y => !inS y) ++ C)) [f] (m2.filter inS ++ [l]) o1 (by simp) hmidn.1
        (by simpa using hS)
      have hXl : (X2 ++ X1).length = S.length := by
        simp only [List.length_append, List.length_cons, List.length_nil] at hX1 hX2 ⊢
        omega
      obtain ⟨o3, he3, hr3⟩ := putAll_spec S (A ++ m1.filter (fun y => !inS y)) (X2 ++ X1)
        (m2.filter (fun y => !inS y) ++ C) o2 hXl hSn
      have hm : moved (A ++ f :: (m1 ++ m2) ++ l :: C) S ref =
          A ++ m1.filter (fun y => !inS y) ++ S ++ (m2.filter (fun y => !inS y) ++ C) := by
        rw [show A ++ f :: (m1 ++ m2) ++ l :: C = (A ++ f :: m1) ++ (m2 ++ l :: C) by simp,
          moved_split (by simp; omega), hnot]
        simp only [List.filter_append, List.filter_cons, hfin, hlin, hA'.2, hC'.2]
        simp
      rw [hm] at hmn ⊢
      have e1 : (A ++ f :: m1).length + X1.length + 1 =
          1 + (A.length + (m1.filter (fun y => !inS y)).length + S.length) := by
        simp only [List.length_append, List.length_cons, List.length_nil] at hX1 ⊢
        omega
      rw [e1] at hren1
      have := assemble (o := o) hmn haA (by
        simp only [List.length_append, List.length_cons] at haC ⊢
        have e : 1 + (A.length + (m1.filter (fun y => !inS y)).length + S.length) +
            (m2.filter (fun y => !inS y)).length = 1 + (A.length + (m1.length + m2.length + 1)) + 1 := by
          omega
        rw [e]; exact haC) hren1 (by rw [Nat.add_comm]; exact hren2)
        (by simpa [Nat.add_comm] using hr3)
      refine ⟨o3, ?_, this.1, ?_⟩
      · unfold shiftGaps
        have a1 : A.length + (m1 ++ m2).length + 2 = (A ++ f :: m1).length + m2.length + [l].length := by
          simp only [List.length_append, List.length_cons, List.length_nil]; omega
        have a2 : A.length + (m1 ++ m2).length + 2 - 1 = (A ++ f :: m1).length + m2.length := by
          simp only [List.length_append, List.length_cons]; omega
        have a3 : (A ++ f :: m1).length + 1 = ref := by
          simp only [List.length_append, List.length_cons]; omega
        have a4 : ((S.length : Int) - 2) =
            (((f :: m1.filter inS).length + (m2.filter inS).length : Nat) : Int) - 1 := by
          rw [hSlen]; simp only [List.length_cons]; omega
        rw [a2, a1, a4, ← a3,
          show A ++ f :: (m1 ++ m2) ++ l :: C = A ++ f :: m1 ++ m2 ++ ([l] ++ C) by simp, he1]
        simp only
        rw [a3, show A ++ f :: m1 ++ X1 ++ (m2.filter (fun y => !inS y) ++ C) =
            A ++ [f] ++ (m1 ++ (X1 ++ (m2.filter (fun y => !inS y) ++ C))) by simp,
          show ref - (A.length + 1 + 1) = m1.length by omega,
          (show gapLeft _ S (A.length + 1) (A.length + 1 + 1) 1 _ = _ from he2)]
        simp only
        rw [if_neg (by simp; omega)]
        simp only [List.append_assoc, List.length_append] at he3 ⊢
        rw [show A.length + 1 + (m1.filter (fun y => !inS y)).length =
          A.length + (m1.filter (fun y => !inS y)).length + 1 by omega, he3]
      · intro y hy
        have hyS : y ∉ S := by
          intro hc; apply hy
          rw [hS] at hc
          simp only [List.mem_append, List.mem_filter, List.mem_cons] at hc ⊢
          grind
        apply this.2 y _ _ hyS <;>
        · intro hc; apply hy
          simp only [List.mem_append, List.mem_filter, List.mem_cons] at hc ⊢
          grind
  · -- to the left
    obtain ⟨A1, A2, rfl, hA1⟩ : ∃ A1 A2, A = A1 ++ A2 ∧ A1.length = ref - 1 :=
      ⟨A.take (ref - 1), A.drop (ref - 1), by simp, by simp; omega⟩
    have hA1' := hAi A1 (fun y hy => hA y (by simp [hy]))
    have hA2' := hAi A2 (fun y hy => hA y (by simp [hy]))
    have hC' := hAi C hC
    have hlm := hlens mid
    have hGn : (A2 ++ f :: mid).Nodup := by
      have : (A2 ++ f :: mid).Sublist (A1 ++ A2 ++ (f :: mid) ++ (l :: C)) := by
        rw [show A1 ++ A2 ++ (f :: mid) ++ (l :: C) = A1 ++ ((A2 ++ f :: mid) ++ (l :: C)) by simp]
        exact (List.sublist_append_left _ _).trans (List.sublist_append_right _ _)
      exact this.nodup hn
    have hGf : (A2 ++ f :: mid).filter inS = f :: mid.filter inS := by
      simp [List.filter_append, hfin, hA2'.1]
    have hGf' : (A2 ++ f :: mid).filter (fun y => !inS y) = A2 ++ mid.filter (fun y => !inS y) := by
      rw [List.filter_append, List.filter_cons, hfin, hA2'.2]; simp
    obtain ⟨o1, X, hX, he, hr⟩ := gapRight_spec S inS hin hSne (A2 ++ f :: mid) A1 [l] C [] [l] o
      (by simp) hGn (by rw [hGf]; simpa using hS)
    rw [hGf'] at hX he hr
    have hXl : X.length = S.length := by
      simp only [List.length_append, List.length_cons, List.length_nil] at hX
      omega
    obtain ⟨o3, he3, hr3⟩ := putAll_spec S A1 X (A2 ++ mid.filter (fun y => !inS y) ++ C) o1 hXl hSn
    have hm : moved (A1 ++ A2 ++ f :: mid ++ l :: C) S ref =
        A1 ++ [] ++ S ++ ((A2 ++ mid.filter (fun y => !inS y)) ++ C) := by
      rw [show A1 ++ A2 ++ f :: mid ++ l :: C = A1 ++ (A2 ++ f :: mid ++ l :: C) by simp,
        moved_split (by omega), hnot]
      simp only [List.filter_append, List.filter_cons, hfin, hlin, hA1'.2, hA2'.2, hC'.2]
      simp
    rw [hm] at hmn ⊢
    have := assemble (o := o) hmn (aligned_append.1 haA).1 (by
      simp only [List.length_append, List.length_cons, List.length_nil] at haC ⊢
      have e : 1 + (A1.length + 0 + S.length) + (A2.length + (mid.filter (fun y => !inS y)).length) =
        1 + (A1.length + A2.length + (mid.length + 1)) + 1 := by omega
      rw [e]; exact haC)
      (by rw [show 1 + (A1.length + ([] : List Nat).length + S.length) = A1.length + X.length + 1 by
            simp; omega]
          exact hr) (renum_nil _ _) (by simpa [Nat.add_comm] using hr3)
    refine ⟨o3, ?_, this.1, ?_⟩
    · unfold shiftGaps
      have a1 : (A1 ++ A2).length + mid.length + 2 = A1.length + (A2 ++ f :: mid).length + [l].length := by
        simp only [List.length_append, List.length_cons, List.length_nil]; omega
      have a2 : (A1 ++ A2).length + mid.length + 2 - 1 = A1.length + (A2 ++ f :: mid).length := by
        simp only [List.length_append, List.length_cons]; omega
      have a4 : ((S.length : Int) - 2) =
          (((([] : List Nat).length + ((A2 ++ f :: mid).filter inS).length : Nat)) : Int) - 1 := by
        rw [hSlen, hGf]; simp only [List.length_cons, List.length_nil]; omega
      have a3 : A1.length + 1 = ref := by omega
      rw [a2, a1, a4, ← a3,
        show A1 ++ A2 ++ f :: mid ++ l :: C = A1 ++ (A2 ++ f :: mid) ++ ([l] ++ C) by simp, he]
      simp only
      rw [show A1.length + 1 - ((A1 ++ A2).length + 1 + 1) = 0 by simp; omega]
      simp only [gapLeft]
      have ht : (if A1.length + 1 < (A1 ++ A2).length + 1 then A1.length + 1 else
          (A1 ++ A2).length + 1) = A1.length + 1 := by
        simp only [List.length_append] at hr1 ⊢; split <;> omega
      rw [ht, he3]
      simp
    · intro y hy
      have hyS : y ∉ S := by
        intro hc; apply hy
        rw [hS] at hc
        simp only [List.mem_append, List.mem_filter, List.mem_cons] at hc ⊢
        grind
      apply this.2 y _ (by simp) hyS
      intro hc; apply hy
      simp only [List.mem_append, List.mem_filter, List.mem_cons] at hc ⊢
      grind

end Verif.Tree
