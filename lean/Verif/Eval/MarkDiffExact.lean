import Verif.Eval.MarkDiffProps

/-!
# Property C116: exactly which words are marked
-/

namespace Verif.Eval
namespace MarkDiff
open Verif.Py Diff Conll

/-- Word `i` of the predicted tree and word `j` of the gold tree are the same in an unchanged part and (unless parents are
ignored) their parents correspond. -/
def Same (ign : Bool) (pred gold : List Node) (i j : Nat) : Prop :=
  (i, j) ∈ aligned (diffs pred gold) ∧
    (ign = true ∨ mapGet (pairs (diffs pred gold)) (nodeAt pred i).parent = some (nodeAt gold j).parent)

/-- The filter of `opMarks`. -/
def badPair (ign : Bool) (pred gold : List Node) (al : List (Nat × Nat)) (x : Nat × Nat) : Bool :=
  !ign && decide (mapGet al (nodeAt pred x.1).parent ≠ some (nodeAt gold x.2).parent)

theorem badPair_false {ign : Bool} {pred gold : List Node} {al : List (Nat × Nat)} {x : Nat × Nat} :
    badPair ign pred gold al x = false ↔ (ign = true ∨ mapGet al (nodeAt pred x.1).parent = some (nodeAt gold x.2).parent) := by
  unfold badPair
  cases ign <;> simp

theorem aligned_cons (o : Op) (ops : List Op) : aligned (o :: ops) =
    (if o.tag = .equal then (List.range' o.i1 (o.i2 - o.i1)).zip (List.range' o.j1 (o.j2 - o.j1)) else []) ++ aligned ops := by
  simp [aligned]

theorem opMarks_equal {ign : Bool} {pred gold : List Node} {al : List (Nat × Nat)} {o : Op} (h : o.tag = .equal)
    (hn : o.i2 - o.i1 = o.j2 - o.j1) :
    (∀ i, i ∈ (opMarks ign pred gold al o).1 ↔
      ∃ t, t < o.i2 - o.i1 ∧ i = o.i1 + t ∧ badPair ign pred gold al (o.i1 + t, o.j1 + t) = true) ∧
    ∀ j, j ∈ (opMarks ign pred gold al o).2 ↔
      ∃ t, t < o.i2 - o.i1 ∧ j = o.j1 + t ∧ badPair ign pred gold al (o.i1 + t, o.j1 + t) = true := by
  unfold opMarks
  rw [if_pos h, ← hn]
  constructor
  · intro i
    rw [List.mem_map]
    constructor
    · rintro ⟨⟨x, y⟩, hx, rfl⟩
      rw [List.mem_filter] at hx
      obtain ⟨t, ht, rfl, rfl⟩ := mem_zip_range'.1 hx.1
      exact ⟨t, ht, rfl, hx.2⟩
    · rintro ⟨t, ht, rfl, hb⟩
      exact ⟨(o.i1 + t, o.j1 + t), List.mem_filter.2 ⟨mem_zip_range'.2 ⟨t, ht, rfl, rfl⟩, hb⟩, rfl⟩
  · intro i
    rw [List.mem_map]
    constructor
    · rintro ⟨⟨x, y⟩, hx, rfl⟩
      rw [List.mem_filter] at hx
      obtain ⟨t, ht, rfl, rfl⟩ := mem_zip_range'.1 hx.1
      exact ⟨t, ht, rfl, hx.2⟩
    · rintro ⟨t, ht, rfl, hb⟩
      exact ⟨(o.i1 + t, o.j1 + t), List.mem_filter.2 ⟨mem_zip_range'.2 ⟨t, ht, rfl, rfl⟩, hb⟩, rfl⟩

theorem opMarks_other {ign : Bool} {pred gold : List Node} {al : List (Nat × Nat)} {o : Op} (h : o.tag ≠ .equal) :
    (∀ i, i ∈ (opMarks ign pred gold al o).1 ↔ o.i1 ≤ i ∧ i < o.i1 + (o.i2 - o.i1)) ∧
    ∀ j, j ∈ (opMarks ign pred gold al o).2 ↔ o.j1 ≤ j ∧ j < o.j1 + (o.j2 - o.j1) := by
  unfold opMarks
  rw [if_neg h]
  exact ⟨fun i => List.mem_range'_1, fun j => List.mem_range'_1⟩

theorem opMarks_bounds {ign : Bool} {pred gold : List Node} {al : List (Nat × Nat)} {o : Op}
    (hn : o.tag = .equal → o.i2 - o.i1 = o.j2 - o.j1) :
    (∀ i ∈ (opMarks ign pred gold al o).1, o.i1 ≤ i ∧ i < o.i1 + (o.i2 - o.i1)) ∧
    ∀ j ∈ (opMarks ign pred gold al o).2, o.j1 ≤ j ∧ j < o.j1 + (o.j2 - o.j1) := by
  by_cases h : o.tag = .equal
  · have hn := hn h
    constructor
    · intro i hi
      obtain ⟨t, ht, rfl, -⟩ := ((opMarks_equal h hn).1 i).1 hi
      omega
    · intro j hj
      obtain ⟨t, ht, rfl, -⟩ := ((opMarks_equal h hn).2 j).1 hj
      omega
  · exact ⟨fun i hi => ((opMarks_other h).1 i).1 hi, fun j hj => ((opMarks_other h).2 j).1 hj⟩

theorem fold_marks_bounds {α : Type} {ign : Bool} {pred gold : List Node} {al : List (Nat × Nat)} {a b : List α} :
    ∀ {ops : List Op} {i0 j0 : Nat}, Ops a b i0 j0 ops →
    (∀ i ∈ ops.flatMap (fun o => (opMarks ign pred gold al o).1), i0 ≤ i) ∧
    ∀ j ∈ ops.flatMap (fun o => (opMarks ign pred gold al o).2), j0 ≤ j
  | [], _, _, _ => ⟨fun i hi => absurd hi (by simp), fun j hj => absurd hj (by simp)⟩
  | o :: ops, i0, j0, ⟨⟨h1, h2, h3, h4, h5⟩, h⟩ => by
    obtain ⟨r1, r2⟩ := fold_marks_bounds (ign := ign) (pred := pred) (gold := gold) (al := al) h
    have hb := opMarks_bounds (ign := ign) (pred := pred) (gold := gold) (al := al) (o := o)
      (fun ht => by rw [ht] at h5; have := h5.1; omega)
    constructor
    · intro i hi
      rw [List.flatMap_cons, List.mem_append] at hi
      rcases hi with hi | hi
      · have := hb.1 i hi; omega
      · have := r1 i hi; omega
    · intro j hj
      rw [List.flatMap_cons, List.mem_append] at hj
      rcases hj with hj | hj
      · have := hb.2 j hj; omega
      · have := r2 j hj; omega

/-- The marked words are those without a partner that is the same. -/
theorem fold_marks {α : Type} {ign : Bool} {pred gold : List Node} {al : List (Nat × Nat)} {a b : List α} :
    ∀ {ops : List Op} {i0 j0 : Nat}, Ops a b i0 j0 ops →
    (∀ i, i0 ≤ i → i < a.length → (i ∈ ops.flatMap (fun o => (opMarks ign pred gold al o).1) ↔
      ¬ ∃ j, (i, j) ∈ aligned ops ∧ badPair ign pred gold al (i, j) = false)) ∧
    ∀ j, j0 ≤ j → j < b.length → (j ∈ ops.flatMap (fun o => (opMarks ign pred gold al o).2) ↔
      ¬ ∃ i, (i, j) ∈ aligned ops ∧ badPair ign pred gold al (i, j) = false)
  | [], i0, j0, h => ⟨fun i h1 h2 => absurd h2 (by have := h.1; omega), fun j h1 h2 => absurd h2 (by have := h.2; omega)⟩
  | o :: ops, i0, j0, ⟨⟨h1, h2, h3, h4, h5⟩, h⟩ => by
    obtain ⟨r1, r2⟩ := fold_marks (ign := ign) (pred := pred) (gold := gold) (al := al) h
    have hn : o.tag = .equal → o.i2 - o.i1 = o.j2 - o.j1 := fun ht => by rw [ht] at h5; have := h5.1; omega
    have hb := opMarks_bounds (ign := ign) (pred := pred) (gold := gold) (al := al) (o := o) hn
    have fb := fold_marks_bounds (ign := ign) (pred := pred) (gold := gold) (al := al) h
    obtain ⟨_, _, _, ab⟩ := aligned_of_ops h
    constructor
    · intro i hi hl
      rw [List.flatMap_cons, List.mem_append, aligned_cons]
      by_cases hlt : i < o.i2
      · have no1 : ¬ i ∈ ops.flatMap (fun o => (opMarks ign pred gold al o).1) := fun hm => by
          have := fb.1 i hm; omega
        have no2 : ∀ j, (i, j) ∉ aligned ops := fun j hm => by have := (ab _ hm).1.1; simp only at this; omega
        simp only [no1, or_false, List.mem_append, no2]
        by_cases ht : o.tag = .equal
        · rw [if_pos ht, (opMarks_equal ht (hn ht)).1]
          rw [← hn ht]
          constructor
          · rintro ⟨t, ht, rfl, hbad⟩ ⟨j, hj, hg⟩
            obtain ⟨t', ht', e1, rfl⟩ := mem_zip_range'.1 hj
            have : t' = t := by omega
            subst this
            rw [hbad] at hg
            cases hg
          · intro hno
            refine ⟨i - o.i1, by omega, by omega, ?_⟩
            rw [show o.i1 + (i - o.i1) = i by omega]
            refine Classical.byContradiction (fun hg => hno ⟨o.j1 + (i - o.i1), ?_, by simpa using hg⟩)
            exact mem_zip_range'.2 ⟨i - o.i1, by omega, by omega, rfl⟩
        · rw [if_neg ht, (opMarks_other ht).1]
          exact ⟨fun _ => fun ⟨j, hj, _⟩ => absurd hj List.not_mem_nil, fun _ => by omega⟩
      · have no1 : ¬ i ∈ (opMarks ign pred gold al o).1 := fun hm => by have := hb.1 i hm; omega
        have no2 : ∀ j, (i, j) ∉ (if o.tag = .equal then
            (List.range' o.i1 (o.i2 - o.i1)).zip (List.range' o.j1 (o.j2 - o.j1)) else []) := by
          intro j hj
          split at hj
          · have := List.mem_range'_1.1 (List.of_mem_zip hj).1
            omega
          · exact absurd hj List.not_mem_nil
        simp only [no1, false_or, List.mem_append, no2]
        exact r1 i (by omega) hl
    · intro j hj hl
      rw [List.flatMap_cons, List.mem_append, aligned_cons]
      by_cases hlt : j < o.j2
      · have no1 : ¬ j ∈ ops.flatMap (fun o => (opMarks ign pred gold al o).2) := fun hm => by
          have := fb.2 j hm; omega
        have no2 : ∀ i, (i, j) ∉ aligned ops := fun i hm => by have := (ab _ hm).1.2; simp only at this; omega
        simp only [no1, or_false, List.mem_append, no2]
        by_cases ht : o.tag = .equal
        · rw [if_pos ht, (opMarks_equal ht (hn ht)).2]
          have hn := hn ht
          rw [← hn]
          constructor
          · rintro ⟨t, ht, rfl, hbad⟩ ⟨i, hi, hg⟩
            obtain ⟨t', ht', rfl, e1⟩ := mem_zip_range'.1 hi
            have : t' = t := by omega
            subst this
            rw [hbad] at hg
            cases hg
          · intro hno
            refine ⟨j - o.j1, by omega, by omega, ?_⟩
            rw [show o.j1 + (j - o.j1) = j by omega]
            refine Classical.byContradiction (fun hg => hno ⟨o.i1 + (j - o.j1), ?_, by simpa using hg⟩)
            exact mem_zip_range'.2 ⟨j - o.j1, by omega, rfl, by omega⟩
        · rw [if_neg ht, (opMarks_other ht).2]
          exact ⟨fun _ => fun ⟨i, hi, _⟩ => absurd hi List.not_mem_nil, fun _ => by omega⟩
      · have no1 : ¬ j ∈ (opMarks ign pred gold al o).2 := fun hm => by have := hb.2 j hm; omega
        have no2 : ∀ i, (i, j) ∉ (if o.tag = .equal then
            (List.range' o.i1 (o.i2 - o.i1)).zip (List.range' o.j1 (o.j2 - o.j1)) else []) := by
          intro i hj
          split at hj
          · next ht =>
            have := List.mem_range'_1.1 (List.of_mem_zip hj).2
            omega
          · exact absurd hj List.not_mem_nil
        simp only [no1, false_or, List.mem_append, no2]
        exact r2 j (by omega) hl

theorem marks_iff (ign : Bool) (pred gold : List Node) :
    (∀ i, i < pred.length → (i ∈ (marks ign pred gold).1 ↔ ¬ ∃ j, Same ign pred gold i j)) ∧
    ∀ j, j < gold.length → (j ∈ (marks ign pred gold).2 ↔ ¬ ∃ i, Same ign pred gold i j) := by
  obtain ⟨h1, h2⟩ := fold_marks (ign := ign) (pred := pred) (gold := gold) (al := pairs (diffs pred gold))
    (opcodes_ops (pred.map token) (gold.map token))
  constructor
  · intro i hi
    have := h1 i (Nat.zero_le _) (by simpa using hi)
    simp only [badPair_false] at this
    exact this
  · intro j hj
    have := h2 j (Nat.zero_le _) (by simpa using hj)
    simp only [badPair_false] at this
    exact this

theorem nodeAt_mark {ns : List Node} {i : Nat} : (ns.map (·.mark))[i]? = if i < ns.length then some (nodeAt ns i).mark else none := by
  split
  · next h => simp [nodeAt, List.getD, h]
  · next h => simp [Nat.le_of_not_lt h]

theorem setMarks_at {p : Params} {ps : List Nat} {ns : List Node} {i : Nat} (h : i < ns.length) :
    (nodeAt (setMarks p ps ns) i).mark = if p.markAttr = true ∧ i ∈ ps then some p.mark else (nodeAt ns i).mark := by
  unfold nodeAt setMarks
  rw [List.getD_eq_getElem?_getD, List.getElem?_mapIdx, List.getD_eq_getElem?_getD, List.getElem?_eq_getElem h]
  simp only [Option.map_some, Option.getD_some, Bool.and_eq_true, List.contains_iff_mem]
  split <;> rfl

theorem mark_at_of_map {xs ys : List Node} (e : xs.map (·.mark) = ys.map (·.mark)) (i : Nat) :
    (nodeAt xs i).mark = (nodeAt ys i).mark ∧ xs.length = ys.length := by
  have hl : xs.length = ys.length := by simpa using congrArg List.length e
  refine ⟨?_, hl⟩
  have := congrArg (fun l => l[i]?) e
  simp only [nodeAt_mark, hl] at this
  split at this
  · exact Option.some.inj this
  · next h => simp [nodeAt, List.getD, h, hl]

theorem same_clear (p : Params) (ign : Bool) (pred gold : List Node) (i j : Nat) :
    Same ign (pred.map (clear p)) (gold.map (clear p)) i j ↔ Same ign pred gold i j := by
  have e : diffs (pred.map (clear p)) (gold.map (clear p)) = diffs pred gold := by
    unfold diffs
    rw [map_clear_token, map_clear_token]
  unfold Same
  rw [e]
  constructor
  · rintro ⟨h1, h2⟩
    obtain ⟨_, hb⟩ := aligned_spec (pred.map token) (gold.map token)
    have hb := hb _ h1
    simp only [List.length_map] at hb
    rw [nodeAt_map hb.1, nodeAt_map hb.2.1, clear_parent, clear_parent] at h2
    exact ⟨h1, h2⟩
  · rintro ⟨h1, h2⟩
    obtain ⟨_, hb⟩ := aligned_spec (pred.map token) (gold.map token)
    have hb := hb _ h1
    simp only [List.length_map] at hb
    refine ⟨h1, ?_⟩
    rw [nodeAt_map hb.1, nodeAt_map hb.2.1, clear_parent, clear_parent]
    exact h2

/-- What a word has in Mark before the marking. -/
def before (p : Params) (n : Node) : Option Str := if p.add = true ∨ p.markAttr = false then n.mark else none

theorem clear_mark (p : Params) (n : Node) : (clear p n).mark = before p n := by
  unfold clear before
  cases p.add <;> cases p.markAttr <;> simp

/-- C116: with a `mark_attr`, a word of one tree is marked exactly when no word of the other tree is the same in an unchanged
part and has a corresponding parent; the other words have what they had with `add=1` and nothing with `add=0`. -/
theorem C116_exact (p : Params) (hm : p.markAttr = true) (pred gold P G : List Node) (c : Bool)
    (h : processTree p pred gold = some (P, G, c)) :
    (∀ i, i < pred.length →
      ((¬ ∃ j, Same p.ignoreParent pred gold i j) → (nodeAt P i).mark = some p.mark) ∧
      ((∃ j, Same p.ignoreParent pred gold i j) → (nodeAt P i).mark = before p (nodeAt pred i))) ∧
    ∀ j, j < gold.length →
      ((¬ ∃ i, Same p.ignoreParent pred gold i j) → (nodeAt G j).mark = some p.mark) ∧
      ((∃ i, Same p.ignoreParent pred gold i j) → (nodeAt G j).mark = before p (nodeAt gold j)) := by
  unfold processTree at h
  simp only at h
  split at h
  · cases h
  · next g hg =>
    simp only [Option.some.injEq, Prod.mk.injEq] at h
    obtain ⟨rfl, rfl, -⟩ := h
    obtain ⟨m1, m2⟩ := marks_iff p.ignoreParent (pred.map (clear p)) (gold.map (clear p))
    have q1 := mark_at_of_map (alignPred_map (·.mark) (fun _ _ => rfl) p
        (pairs (diffs (pred.map (clear p)) (gold.map (clear p)))) (pred.map (clear p)))
    have q2 := mark_at_of_map (alignGold_map (·.mark) (fun _ _ => rfl) hg)
    simp only [same_clear, List.length_map] at m1 m2 q1 q2
    constructor
    · intro i hi
      rw [setMarks_at (by rw [(q1 i).2]; exact hi), (q1 i).1, nodeAt_map hi, clear_mark]
      constructor
      · intro hno
        rw [if_pos ⟨hm, (m1 i hi).2 hno⟩]
      · intro hyes
        rw [if_neg (fun hb => (m1 i hi).1 hb.2 hyes)]
    · intro j hj
      rw [setMarks_at (by rw [(q2 j).2]; exact hj), (q2 j).1, nodeAt_map hj, clear_mark]
      constructor
      · intro hno
        rw [if_pos ⟨hm, (m2 j hj).2 hno⟩]
      · intro hyes
        rw [if_neg (fun hb => (m2 j hj).1 hb.2 hyes)]

/-- C116: with `mark_attr=0` no attribute Mark is changed. -/
theorem C116_no_mark (p : Params) (hm : p.markAttr = false) (pred gold P G : List Node) (c : Bool)
    (h : processTree p pred gold = some (P, G, c)) :
    P.map (·.mark) = pred.map (·.mark) ∧ G.map (·.mark) = gold.map (·.mark) ∧ c = false := by
  unfold processTree at h
  simp only at h
  split at h
  · cases h
  · next g hg =>
    simp only [Option.some.injEq, Prod.mk.injEq] at h
    obtain ⟨rfl, rfl, rfl⟩ := h
    have s : ∀ ps ns, setMarks p ps ns = ns := by
      intro ps ns
      unfold setMarks
      rw [hm]
      simp only [Bool.false_and, Bool.false_eq_true, if_false]
      apply List.ext_getElem?
      intro i
      rw [List.getElem?_mapIdx]
      cases ns[i]? <;> rfl
    have cl : ∀ ns : List Node, (ns.map (clear p)).map (·.mark) = ns.map (·.mark) := by
      intro ns
      rw [List.map_map]
      exact List.map_congr_left (fun n _ => by simp [clear_mark, before, hm])
    rw [s, s]
    refine ⟨?_, ?_, by simp [hm]⟩
    · rw [alignPred_map (·.mark) (fun _ _ => rfl), cl]
    · rw [alignGold_map (·.mark) (fun _ _ => rfl) hg, cl]

example : Same false exMoved exGold 1 1 ∧ ¬ Same false exMoved exGold 2 2 := by
  unfold Same
  exact ⟨by decide +kernel, by decide +kernel⟩

example : ∃ P G, processTree { add := true } [{ word 'a' 0 with mark := some ['o'] }, word 'b' 1] [word 'a' 0, word 'c' 1] =
    some (P, G, false) ∧ P.map (·.mark) = [some ['o'], some ['1']] ∧ G.map (·.mark) = [none, some ['1']] := by
  refine ⟨_, _, rfl, ?_⟩
  decide +kernel

example : ∃ P G, processTree { markAttr := false, align := sBoth } exGold exPred = some (P, G, false) ∧
    P.map (·.align) = [some 1, some 3, some 4] := by
  refine ⟨_, _, rfl, ?_⟩
  decide +kernel

end MarkDiff
end Verif.Eval
