import Verif.Tree.LemmasRemove

/-! # The in-place loops of `_shift_before_ord`

Each lemma describes the list before a loop as `P ++ ... ++ Q` and the list after it. -/

namespace Verif.Tree
open Verif.Py

/-- `o'` numbers `l` from `k` and agrees with `o` elsewhere. -/
def Renum (o o' : Nat → Nat) (k : Nat) (l : List Nat) : Prop :=
  Aligned o' k l ∧ ∀ y, y ∉ l → o' y = o y

theorem renum_nil (o : Nat → Nat) (k : Nat) : Renum o o k [] := ⟨aligned_nil _ _, fun _ _ => rfl⟩

theorem renum_cons {o o' : Nat → Nat} {k x : Nat} {l : List Nat} (hx : x ∉ l)
    (h : Renum (upd o x k) o' (k + 1) l) : Renum o o' k (x :: l) := by
  refine ⟨aligned_cons.2 ⟨?_, h.1⟩, ?_⟩
  · rw [h.2 x hx]; simp
  · intro y hy
    simp only [List.mem_cons, not_or] at hy
    rw [h.2 y hy.2, upd_ne _ _ hy.1]

theorem renum_concat {o o' : Nat → Nat} {k x : Nat} {l : List Nat} (hx : x ∉ l)
    (h : Renum (upd o x (k + l.length)) o' k l) : Renum o o' k (l ++ [x]) := by
  refine ⟨aligned_append.2 ⟨h.1, aligned_cons.2 ⟨?_, aligned_nil _ _⟩⟩, ?_⟩
  · rw [h.2 x hx]; simp
  · intro y hy
    simp only [List.mem_append, List.mem_singleton, not_or] at hy
    rw [h.2 y hy.1, upd_ne _ _ hy.2]

theorem put_spec (P Q : List Nat) (m x : Nat) (o : Nat → Nat) :
    WO.put ⟨P ++ m :: Q, o⟩ (P.length + 1) x = some ⟨P ++ x :: Q, upd o x (P.length + 1)⟩ := by
  simp [WO.put]

theorem move_left_spec (P M R : List Nat) (m g : Nat) (o : Nat → Nat) :
    WO.move ⟨P ++ (m :: M) ++ g :: R, o⟩ (P.length + 1) (P.length + (m :: M).length + 1) =
      some ⟨P ++ g :: (M ++ g :: R), upd o g (P.length + 1)⟩ := by
  have h1 : (P ++ (m :: M) ++ g :: R)[P.length + (m :: M).length + 1 - 1]? = some g := by
    rw [Nat.add_sub_cancel, ← List.length_append, List.getElem?_append_right (Nat.le_refl _)]
    simp
  simp only [WO.move, h1]
  rw [show P ++ (m :: M) ++ g :: R = P ++ m :: (M ++ g :: R) by simp]
  exact put_spec ..

theorem move_right_spec (P M R : List Nat) (m g : Nat) (o : Nat → Nat) :
    WO.move ⟨P ++ g :: M ++ m :: R, o⟩ (P.length + M.length + 1 + 1) (P.length + 1) =
      some ⟨P ++ g :: M ++ g :: R, upd o g (P.length + M.length + 1 + 1)⟩ := by
  have h1 : (P ++ g :: M ++ m :: R)[P.length + 1 - 1]? = some g := by simp
  simp only [WO.move, h1]
  have := put_spec (P ++ g :: M) R m g o
  simp only [List.length_append, List.length_cons] at this
  rw [show P.length + M.length + 1 = P.length + (M.length + 1) by omega]
  exact this

/-- `for node in nodes_to_move: ...` -/
theorem putAll_spec (S : List Nat) : ∀ (P X Q : List Nat) (o : Nat → Nat), X.length = S.length →
    S.Nodup → ∃ o', putAll ⟨P ++ X ++ Q, o⟩ (P.length + 1) S = some ⟨P ++ S ++ Q, o'⟩ ∧
      Renum o o' (P.length + 1) S := by
  induction S with
  | nil =>
    intro P X Q o hX _
    have : X = [] := by simpa using hX
    subst this
    exact ⟨o, rfl, renum_nil _ _⟩
  | cons a S ih =>
    intro P X Q o hX hn
    cases X with
    | nil => simp at hX
    | cons b X =>
      rw [List.nodup_cons] at hn
      have hX' : X.length = S.length := by simpa using hX
      obtain ⟨o', he, hr⟩ := ih (P ++ [a]) X Q (upd o a (P.length + 1)) hX' hn.2
      refine ⟨o', ?_, renum_cons hn.1 (by simpa using hr)⟩
      have hp := put_spec P (X ++ Q) b a o
      rw [show P ++ b :: X ++ Q = P ++ b :: (X ++ Q) by simp]
      simp only [putAll, hp]
      rw [show P ++ a :: (X ++ Q) = P ++ [a] ++ X ++ Q by simp,
        show P.length + 1 + 1 = (P ++ [a]).length + 1 by simp, he]
      simp

/-- `while src_ord < reference_ord` without gaps: `G` moves left over `M`. -/
theorem blockLeft_spec (G : List Nat) : ∀ (P M Q : List Nat) (o : Nat → Nat), M ≠ [] → G.Nodup →
    ∃ o' X, X.length = M.length ∧
      blockLeft ⟨P ++ M ++ (G ++ Q), o⟩ (P.length + 1) (P.length + M.length + 1) G.length =
        some (⟨P ++ G ++ (X ++ Q), o'⟩, P.length + 1 + G.length) ∧
      Renum o o' (P.length + 1) G := by
  induction G with
  | nil =>
    intro P M Q o _ _
    exact ⟨o, M, rfl, by simp [blockLeft], renum_nil _ _⟩
  | cons g G ih =>
    intro P M Q o hM hn
    rw [List.nodup_cons] at hn
    cases M with
    | nil => exact absurd rfl hM
    | cons m M =>
      obtain ⟨o', X, hX, he, hr⟩ := ih (P ++ [g]) (M ++ [g]) Q (upd o g (P.length + 1)) (by simp) hn.2
      refine ⟨o', X, by simpa using hX, ?_, renum_cons hn.1 (by simpa using hr)⟩
      have hm := move_left_spec P M (G ++ Q) m g o
      rw [show P ++ m :: M ++ (g :: G ++ Q) = P ++ (m :: M) ++ g :: (G ++ Q) by simp]
      simp only [List.length_cons, blockLeft]
      simp only [List.length_cons] at hm
      rw [hm]
      simp only
      rw [show P ++ g :: (M ++ g :: (G ++ Q)) = P ++ [g] ++ (M ++ [g]) ++ (G ++ Q) by simp,
        show P.length + 1 + 1 = (P ++ [g]).length + 1 by simp,
        show P.length + (M.length + 1) + 1 + 1 = (P ++ [g]).length + (M ++ [g]).length + 1 by
          simp; omega, he]
      simp
      omega

theorem rev_ind {motive : List Nat → Prop} (l : List Nat) (nil : motive [])
    (concat : ∀ l a, motive l → motive (l ++ [a])) : motive l := by
  rw [← List.reverse_reverse l]
  induction l.reverse with
  | nil => exact nil
  | cons a l ih => rw [List.reverse_cons]; exact concat _ _ ih

theorem blockRight_skip {s : WO} {ref trg src : Nat} (h : src < ref) :
    blockRight s ref trg src = some s := by
  cases src with
  | zero => simp [blockRight]; omega
  | succ n => rw [blockRight, if_neg (by omega)]

theorem gapRight_skip {s : WO} {S : List Nat} {ref trg src : Nat} {mov : Int} (h : src < ref) :
    gapRight s S ref trg mov src = some s := by
  cases src with
  | zero => simp [gapRight]; omega
  | succ n => rw [gapRight, if_neg (by omega)]

/-- `while src_ord >= reference_ord` without gaps: `G` moves right over `M`. -/
theorem blockRight_spec (G : List Nat) : ∀ (P M Q : List Nat) (o : Nat → Nat), M ≠ [] → G.Nodup →
    ∃ o' X, X.length = M.length ∧
      blockRight ⟨P ++ G ++ (M ++ Q), o⟩ (P.length + 1) (P.length + G.length + M.length)
          (P.length + G.length) = some ⟨P ++ X ++ (G ++ Q), o'⟩ ∧
      Renum o o' (P.length + M.length + 1) G := by
  induction G using rev_ind with
  | nil =>
    intro P M Q o _ _
    refine ⟨o, M, rfl, ?_, renum_nil _ _⟩
    simp only [List.length_nil, Nat.add_zero]
    rw [blockRight_skip (by omega)]
    simp
  | concat G g ih =>
    intro P M Q o hM hn
    have hg : g ∉ G := by
      rw [List.nodup_append] at hn
      intro hm
      exact hn.2.2 g hm g (by simp) rfl
    have hn' : G.Nodup := (List.nodup_append.1 hn).1
    rcases List.eq_nil_or_concat M with rfl | ⟨M, m, rfl⟩
    · exact absurd rfl hM
    · simp only [List.concat_eq_append]
      obtain ⟨o', X, hX, he, hr⟩ := ih P (g :: M) (g :: Q)
        (upd o g (P.length + (M ++ [m]).length + 1 + G.length)) (by simp) hn'
      refine ⟨o', X, by simpa using hX, ?_, renum_concat hg ?_⟩
      · have hm := move_right_spec (P ++ G) M Q m g o
        simp only [List.length_append, List.length_singleton, ← Nat.add_assoc]
        rw [blockRight, if_pos (by omega)]
        rw [show P ++ (G ++ [g]) ++ (M ++ [m] ++ Q) = P ++ G ++ g :: M ++ m :: Q by simp,
          show P.length + G.length + 1 + M.length + 1 = (P ++ G).length + M.length + 1 + 1 by
            simp; omega,
          show P.length + G.length + 1 = (P ++ G).length + 1 by simp, hm]
        simp only
        rw [show P ++ G ++ g :: M ++ g :: Q = P ++ G ++ (g :: M ++ g :: Q) by simp,
          show upd o g ((P ++ G).length + M.length + 1 + 1) =
            upd o g (P.length + (M ++ [m]).length + 1 + G.length) by
              congr 1; simp; omega,
          show (P ++ G).length + M.length + 1 + 1 - 1 = P.length + G.length + (g :: M).length by
            simp; omega]
        simp only [List.length_append] at he ⊢
        rw [he]
        simp
      · simpa using hr

theorem singleRight_eq (s : WO) (i n : Nat) :
    singleRight s i n = (blockLeft s i (i + 1) n).map (·.1) := by
  induction n generalizing s i with
  | zero => rfl
  | succ n ih =>
    simp only [singleRight, blockLeft]
    cases s.move i (i + 1) with
    | none => rfl
    | some s => exact ih s (i + 1)

theorem singleLeft_eq (s : WO) (i n : Nat) (h : n < i) :
    singleLeft s i n = blockRight s (i - n) i (i - 1) := by
  induction n generalizing s i with
  | zero =>
    rw [blockRight_skip (by omega)]; rfl
  | succ n ih =>
    obtain ⟨j, rfl⟩ : ∃ j, i = j + 2 := ⟨i - 2, by omega⟩
    rw [singleLeft, show j + 2 - 1 = j + 1 from rfl, blockRight, if_pos (by omega)]
    cases s.move (j + 2) (j + 1) with
    | none => rfl
    | some s =>
      simp only
      rw [ih s (j + 1) (by omega)]
      rw [show j + 2 - (n + 1) = j + 1 - n by omega]
      rfl

theorem pyIndex_some {S : List Nat} {i : Int} (h1 : -1 ≤ i) (h2 : i < S.length) (h3 : S ≠ []) :
    ∃ z ∈ S, pyIndex S i = some z := by
  have hpos : 0 < S.length := List.length_pos_iff.2 h3
  unfold pyIndex
  by_cases hi : 0 ≤ i
  · rw [if_pos hi]
    have : i.toNat < S.length := by omega
    exact ⟨S[i.toNat], List.getElem_mem .., List.getElem?_eq_getElem this⟩
  · rw [if_neg hi, if_pos (by omega)]
    have : ((S.length : Int) + i).toNat < S.length := by omega
    exact ⟨_, List.getElem_mem .., List.getElem?_eq_getElem this⟩

/-- The first loop with gaps: the words of `G` that are not in `S` move right over `M`. `S0` are the
members of `S` before `G`. -/
theorem gapRight_spec (S : List Nat) (inS : Nat → Bool) (hin : ∀ y, inS y = true ↔ y ∈ S)
    (hS : S ≠ []) (G : List Nat) :
    ∀ (P M Q S0 S3 : List Nat) (o : Nat → Nat), M ≠ [] → G.Nodup →
    S = S0 ++ G.filter inS ++ S3 →
    ∃ o' X, X.length + (G.filter (fun y => !inS y)).length = M.length + G.length ∧
      gapRight ⟨P ++ G ++ (M ++ Q), o⟩ S (P.length + 1) (P.length + G.length + M.length)
          ((S0.length + (G.filter inS).length : Nat) - 1) (P.length + G.length) =
        some ⟨P ++ X ++ (G.filter (fun y => !inS y) ++ Q), o'⟩ ∧
      Renum o o' (P.length + X.length + 1) (G.filter (fun y => !inS y)) := by
  induction G using rev_ind with
  | nil =>
    intro P M Q S0 S3 o _ _ _
    refine ⟨o, M, by simp, ?_, renum_nil _ _⟩
    rw [gapRight_skip (by simp)]
    simp
  | concat G g ih =>
    intro P M Q S0 S3 o hM hn hSeq
    have hg : g ∉ G := by
      rw [List.nodup_append] at hn
      intro hm
      exact hn.2.2 g hm g (by simp) rfl
    have hn' : G.Nodup := (List.nodup_append.1 hn).1
    have hread : (P ++ (G ++ [g]) ++ (M ++ Q))[P.length + G.length]? = some g := by
      rw [show P ++ (G ++ [g]) ++ (M ++ Q) = (P ++ G) ++ g :: (M ++ Q) by simp,
        ← List.length_append, List.getElem?_append_right (Nat.le_refl _)]
      simp
    by_cases hgS : inS g = true
    · -- a moving word: skip it
      have hf : (G ++ [g]).filter inS = G.filter inS ++ [g] := by
        simp [List.filter_append, hgS]
      have hf' : (G ++ [g]).filter (fun y => !inS y) = G.filter (fun y => !inS y) := by
        simp [List.filter_append, hgS]
      rw [hf] at hSeq
      obtain ⟨o', X, hX, he, hr⟩ := ih P (g :: M) Q S0 (g :: S3) o (by simp) hn' (by
        rw [hSeq]; simp)
      refine ⟨o', X, ?_, ?_, ?_⟩
      · rw [hf']; simp at hX ⊢; omega
      · rw [hf, hf']
        simp only [List.length_append, List.length_singleton, ← Nat.add_assoc]
        rw [gapRight, if_pos (by omega), hread]
        have hidx : pyIndex S ((S0.length + (G.filter inS).length + 1 : Nat) - 1) = some g := by
          have : ((S0.length + (G.filter inS).length + 1 : Nat) : Int) - 1 =
              ((S0.length + (G.filter inS).length : Nat) : Int) := by omega
          rw [this]
          simp only [pyIndex]
          rw [if_pos (by omega)]
          have h2 : S[(((S0.length + (G.filter inS).length : Nat) : Int)).toNat]? = some g := by
            rw [Int.toNat_natCast, hSeq]
            simp
          exact h2
        rw [hidx]
        simp only [if_true]
        rw [show P ++ (G ++ [g]) ++ (M ++ Q) = P ++ G ++ (g :: M ++ Q) by simp,
          show P.length + G.length + 1 + M.length = P.length + G.length + (g :: M).length by
            simp; omega,
          show ((S0.length + (G.filter inS).length + 1 : Nat) : Int) - 1 - 1 =
            ((S0.length + (G.filter inS).length : Nat) : Int) - 1 by omega, he]
      · rw [hf']; exact hr
    · have hf : (G ++ [g]).filter inS = G.filter inS := by
        simp [List.filter_append, hgS]
      have hf' : (G ++ [g]).filter (fun y => !inS y) = G.filter (fun y => !inS y) ++ [g] := by
        simp [List.filter_append, hgS]
      rw [hf] at hSeq
      rcases List.eq_nil_or_concat M with rfl | ⟨M, m, rfl⟩
      · exact absurd rfl hM
      · simp only [List.concat_eq_append] at hread ⊢
        obtain ⟨o', X, hX, he, hr⟩ := ih P (g :: M) (g :: Q) S0 S3
          (upd o g (P.length + G.length + M.length + 1 + 1)) (by simp) hn' hSeq
        simp only [List.length_cons] at hX
        refine ⟨o', X, ?_, ?_, ?_⟩
        · rw [hf']; simp; omega
        · rw [hf, hf']
          simp only [List.length_append, List.length_singleton, ← Nat.add_assoc]
          rw [gapRight, if_pos (by omega), hread]
          obtain ⟨z, hz, hidx⟩ := pyIndex_some (S := S)
            (i := ((S0.length + (G.filter inS).length : Nat) : Int) - 1) (by omega) (by
              have : S.length = (S0 ++ G.filter inS ++ S3).length := congrArg _ hSeq
              simp only [List.length_append] at this
              omega) hS
          rw [hidx]
          have hgz : ¬ g = z := fun e => hgS ((hin g).2 (e ▸ hz))
          simp only [hgz, if_false]
          have hm := move_right_spec (P ++ G) M Q m g o
          rw [show P ++ (G ++ [g]) ++ (M ++ [m] ++ Q) = P ++ G ++ g :: M ++ m :: Q by simp,
            show P.length + G.length + 1 + M.length + 1 = (P ++ G).length + M.length + 1 + 1 by
              simp; omega,
            show P.length + G.length + 1 = (P ++ G).length + 1 by simp, hm]
          simp only
          rw [show P ++ G ++ g :: M ++ g :: Q = P ++ G ++ (g :: M ++ g :: Q) by simp,
            show (P ++ G).length + M.length + 1 + 1 - 1 = P.length + G.length + (g :: M).length by
              simp; omega]
          simp only [List.length_append] at he ⊢
          rw [he]
          simp
        · rw [hf']
          have hgG : g ∉ G.filter (fun y => !inS y) := fun hm => hg (List.mem_filter.1 hm).1
          apply renum_concat hgG
          rw [show P.length + X.length + 1 + (G.filter (fun y => !inS y)).length =
            P.length + G.length + M.length + 1 + 1 by omega]
          exact hr

/-- The second loop with gaps: the words of `G` that are not in `S` move left over `M`. `S1` are the
members of `S` before `G`. -/
theorem gapLeft_spec (S : List Nat) (inS : Nat → Bool) (hin : ∀ y, inS y = true ↔ y ∈ S)
    (G : List Nat) :
    ∀ (P M Q S1 S3 : List Nat) (o : Nat → Nat), M ≠ [] → G.Nodup →
    S = S1 ++ G.filter inS ++ S3 →
    ∃ o' X, X.length + (G.filter (fun y => !inS y)).length = M.length + G.length ∧
      gapLeft ⟨P ++ M ++ (G ++ Q), o⟩ S (P.length + 1) (P.length + M.length + 1) S1.length G.length =
        some (⟨P ++ G.filter (fun y => !inS y) ++ (X ++ Q), o'⟩,
          P.length + 1 + (G.filter (fun y => !inS y)).length) ∧
      Renum o o' (P.length + 1) (G.filter (fun y => !inS y)) := by
  induction G with
  | nil =>
    intro P M Q S1 S3 o _ _ _
    exact ⟨o, M, by simp, by simp [gapLeft], renum_nil _ _⟩
  | cons g G ih =>
    intro P M Q S1 S3 o hM hn hSeq
    rw [List.nodup_cons] at hn
    have hread : (P ++ M ++ (g :: G ++ Q))[P.length + M.length + 1 - 1]? = some g := by
      rw [Nat.add_sub_cancel, ← List.length_append, List.getElem?_append_right (Nat.le_refl _)]
      simp
    by_cases hgS : inS g = true
    · have hf : (g :: G).filter inS = g :: G.filter inS := by simp [hgS]
      have hf' : (g :: G).filter (fun y => !inS y) = G.filter (fun y => !inS y) := by simp [hgS]
      rw [hf] at hSeq
      obtain ⟨o', X, hX, he, hr⟩ := ih P (M ++ [g]) Q (S1 ++ [g]) S3 o (by simp) hn.2 (by
        rw [hSeq]; simp)
      refine ⟨o', X, ?_, ?_, ?_⟩
      · rw [hf']; simp at hX ⊢; omega
      · rw [hf']
        have hidx : S[S1.length]? = some g := by
          rw [hSeq]; simp
        simp only [List.length_cons, gapLeft]
        rw [hread]
        simp only [hidx, if_true]
        rw [show P ++ M ++ (g :: G ++ Q) = P ++ (M ++ [g]) ++ (G ++ Q) by simp,
          show P.length + M.length + 1 + 1 = P.length + (M ++ [g]).length + 1 by simp; omega,
          show S1.length + 1 = (S1 ++ [g]).length by simp, he]
      · rw [hf']; exact hr
    · have hf : (g :: G).filter inS = G.filter inS := by simp [hgS]
      have hf' : (g :: G).filter (fun y => !inS y) = g :: G.filter (fun y => !inS y) := by simp [hgS]
      rw [hf] at hSeq
      cases M with
      | nil => exact absurd rfl hM
      | cons m M =>
        obtain ⟨o', X, hX, he, hr⟩ := ih (P ++ [g]) (M ++ [g]) Q S1 S3 (upd o g (P.length + 1))
          (by simp) hn.2 hSeq
        refine ⟨o', X, ?_, ?_, ?_⟩
        · rw [hf']; simp at hX ⊢; omega
        · rw [hf']
          have hidx : S[S1.length]? ≠ some g := by
            intro e
            exact hgS ((hin g).2 (List.mem_of_getElem? e))
          simp only [List.length_cons, gapLeft]
          simp only [List.length_cons] at hread
          rw [hread]
          simp only [hidx, if_false]
          have hm := move_left_spec P M (G ++ Q) m g o
          simp only [List.length_cons] at hm
          rw [show P ++ m :: M ++ (g :: G ++ Q) = P ++ (m :: M) ++ g :: (G ++ Q) by simp, hm]
          simp only
          rw [show P ++ g :: (M ++ g :: (G ++ Q)) = P ++ [g] ++ (M ++ [g]) ++ (G ++ Q) by simp,
            show P.length + 1 + 1 = (P ++ [g]).length + 1 by simp,
            show P.length + (M.length + 1) + 1 + 1 = (P ++ [g]).length + (M ++ [g]).length + 1 by
              simp; omega, he]
          simp
          omega
        · rw [hf']
          apply renum_cons
          · intro hm; exact hn.1 (List.mem_filter.1 hm).1
          · simpa using hr

end Verif.Tree
