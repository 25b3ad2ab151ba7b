import Verif.Eval.MarkDiff

/-!
# Property C116: what `util.MarkDiff` marks
-/

namespace Verif.Eval
namespace MarkDiff
open Verif.Py Diff Conll

/-! ## The operations -/

theorem ops_bounds {α : Type} {a b : List α} : ∀ {ops : List Op} {i j : Nat}, Ops a b i j ops →
    (i ≤ a.length ∧ j ≤ b.length) ∧
    ∀ o ∈ ops, (i ≤ o.i1 ∧ o.i1 ≤ o.i2 ∧ o.i2 ≤ a.length) ∧ (j ≤ o.j1 ∧ o.j1 ≤ o.j2 ∧ o.j2 ≤ b.length)
  | [], _, _, h => ⟨⟨Nat.le_of_eq h.1, Nat.le_of_eq h.2⟩, fun o ho => absurd ho List.not_mem_nil⟩
  | o :: ops, i, j, ⟨⟨h1, h2, h3, h4, _⟩, h⟩ => by
    obtain ⟨⟨r1, r2⟩, r3⟩ := ops_bounds h
    refine ⟨⟨by omega, by omega⟩, ?_⟩
    intro q hq
    rcases List.mem_cons.1 hq with rfl | hq'
    · omega
    · have := r3 q hq'
      omega

theorem ops_all_equal {α : Type} {a b : List α} : ∀ {ops : List Op} {i j : Nat}, Ops a b i j ops →
    (∀ o ∈ ops, o.tag = .equal) → ∀ t, a[i + t]? = b[j + t]?
  | [], i, j, ⟨h1, h2⟩, _, t => by
    rw [List.getElem?_eq_none (by omega), List.getElem?_eq_none (by omega)]
  | o :: ops, i, j, ⟨⟨h1, h2, h3, h4, h5⟩, h⟩, he, t => by
    rw [he o (by simp)] at h5
    obtain ⟨e1, e2, e3⟩ := h5
    by_cases ht : t < o.i2 - i
    · exact e3 t ht
    · have := ops_all_equal h (fun q hq => he q (by simp [hq])) (t - (o.i2 - i))
      rw [show o.i2 + (t - (o.i2 - i)) = i + t by omega, show o.j2 + (t - (o.i2 - i)) = j + t by omega] at this
      exact this

theorem nonempty_of_other {α : Type} {a b : List α} : ∀ {ops : List Op} {i j : Nat}, Ops a b i j ops →
    ∀ o ∈ ops, o.tag ≠ .equal → o.i1 < o.i2 ∨ o.j1 < o.j2
  | [], _, _, _, o, ho, _ => absurd ho List.not_mem_nil
  | q :: ops, i, j, ⟨⟨h1, h2, h3, h4, h5⟩, h⟩, o, ho, ht => by
    rcases List.mem_cons.1 ho with rfl | ho'
    · cases hq : o.tag with
      | equal => exact absurd hq ht
      | replace => rw [hq] at h5; exact Or.inl (by omega)
      | delete => rw [hq] at h5; exact Or.inl (by omega)
      | insert => rw [hq] at h5; exact Or.inr (by omega)
    · exact nonempty_of_other h o ho' ht

theorem map_diag : ∀ l : List Nat, l.map (fun i => (i, i - 0 + 0)) = l.zip l
  | [] => rfl
  | x :: l => by rw [List.map_cons, List.zip_cons_cons, map_diag l]; rfl

theorem pairs_self {α : Type} [DecidableEq α] (a : List α) :
    pairs (opcodes a a) = (List.range' 0 a.length).zip (List.range' 0 a.length) := by
  cases a with
  | nil => rfl
  | cons x xs =>
    rw [opcodes_self _ (by simp)]
    simp only [pairs, Tag.aligns, if_true, List.flatMap_cons, List.flatMap_nil, List.append_nil, Nat.sub_zero]
    exact map_diag _

/-! ## Which positions are marked -/

/-- The parents are nodes of the tree. -/
def Valid (ns : List Node) : Prop := ∀ i, i < ns.length → (nodeAt ns i).parent ≤ ns.length

theorem pairwise_diag (n : Nat) :
    ((List.range' 0 n).zip (List.range' 0 n)).Pairwise (fun p q => p.1 < q.1 ∧ p.2 < q.2) := pairwise_zip_range' n 0 0

/-- Nothing is marked exactly when the tokens and the parents are the same. -/
theorem marks_nil {ign : Bool} {pred gold : List Node} (hv : Valid pred) :
    ((∀ i, i ∉ (marks ign pred gold).1) ∧ ∀ i, i ∉ (marks ign pred gold).2) ↔
    (pred.map token = gold.map token ∧
      (ign = true ∨ ∀ i, i < gold.length → (nodeAt pred i).parent = (nodeAt gold i).parent)) := by
  have same : pred.map token = gold.map token →
      (((∀ i, i ∉ (marks ign pred gold).1) ∧ ∀ i, i ∉ (marks ign pred gold).2) ↔
        (ign = true ∨ ∀ i, i < gold.length → (nodeAt pred i).parent = (nodeAt gold i).parent)) := by
    intro e
    have hl : pred.length = gold.length := by simpa using congrArg List.length e
    have hd : diffs pred gold = opcodes (gold.map token) (gold.map token) := by unfold diffs; rw [e]
    by_cases hn : gold = []
    · subst hn
      have hp : pred = [] := List.eq_nil_of_length_eq_zero (by simpa using hl)
      subst hp
      constructor
      · intro _; right; intro i hi; exact absurd hi (Nat.not_lt_zero _)
      · intro _
        have : marks ign [] [] = ([], []) := rfl
        rw [this]
        exact ⟨fun i => List.not_mem_nil, fun i => List.not_mem_nil⟩
    · have hp : pairs (diffs pred gold) = (List.range' 0 gold.length).zip (List.range' 0 gold.length) := by
        rw [hd, pairs_self]; simp
      have ho : diffs pred gold = [⟨.equal, 0, gold.length, 0, gold.length⟩] := by
        rw [hd, opcodes_self _ (by simpa using hn)]; simp
      have mg : ∀ x, x < gold.length → ((!ign && decide (mapGet (pairs (diffs pred gold)) (nodeAt pred x).parent ≠
          some (nodeAt gold x).parent)) = true ↔ (ign = false ∧ (nodeAt pred x).parent ≠ (nodeAt gold x).parent)) := by
        intro x hx
        have hb := hv x (by omega)
        rw [hp, Bool.and_eq_true, Bool.not_eq_true', decide_eq_true_iff, Ne, mapGet_iff (pairwise_diag _),
          corr_id (by omega)]
      have m1 : ∀ i, i ∈ (marks ign pred gold).1 ↔
          i < gold.length ∧ ign = false ∧ (nodeAt pred i).parent ≠ (nodeAt gold i).parent := by
        intro i
        unfold marks
        simp only [ho, List.flatMap_cons, List.flatMap_nil, List.append_nil, opMarks, if_true, Nat.sub_zero]
        rw [← ho, List.mem_map]
        constructor
        · rintro ⟨⟨x, y⟩, hx, rfl⟩
          rw [List.mem_filter] at hx
          obtain ⟨t, ht, hx1, hx2⟩ := mem_zip_range'.1 hx.1
          have ex : x = t := by omega
          have ey : y = x := by omega
          subst ey
          exact ⟨by omega, (mg _ (by omega)).1 hx.2⟩
        · rintro ⟨hi, h⟩
          refine ⟨(i, i), ?_, rfl⟩
          rw [List.mem_filter]
          exact ⟨mem_zip_range'.2 ⟨i, hi, by omega, by omega⟩, (mg i hi).2 h⟩
      have m2 : ∀ i, i ∈ (marks ign pred gold).2 ↔
          i < gold.length ∧ ign = false ∧ (nodeAt pred i).parent ≠ (nodeAt gold i).parent := by
        intro i
        unfold marks
        simp only [ho, List.flatMap_cons, List.flatMap_nil, List.append_nil, opMarks, if_true, Nat.sub_zero]
        rw [← ho, List.mem_map]
        constructor
        · rintro ⟨⟨x, y⟩, hx, rfl⟩
          rw [List.mem_filter] at hx
          obtain ⟨t, ht, hx1, hx2⟩ := mem_zip_range'.1 hx.1
          have ex : x = t := by omega
          have ey : y = x := by omega
          subst ey
          exact ⟨by simp only; omega, (mg _ (by omega)).1 hx.2⟩
        · rintro ⟨hi, h⟩
          refine ⟨(i, i), ?_, rfl⟩
          rw [List.mem_filter]
          exact ⟨mem_zip_range'.2 ⟨i, hi, by omega, by omega⟩, (mg i hi).2 h⟩
      simp only [m1, m2]
      constructor
      · rintro ⟨h, _⟩
        cases ign with
        | true => exact Or.inl rfl
        | false =>
          right
          intro i hi
          exact Classical.byContradiction (fun hne => h i ⟨hi, rfl, hne⟩)
      · rintro (h | h)
        · exact ⟨fun i hi => by rw [h] at hi; exact absurd hi.2.1 (by simp),
            fun i hi => by rw [h] at hi; exact absurd hi.2.1 (by simp)⟩
        · exact ⟨fun i hi => hi.2.2 (h i hi.1), fun i hi => hi.2.2 (h i hi.1)⟩
  constructor
  · intro h
    have e : pred.map token = gold.map token := by
      have hops := opcodes_ops (pred.map token) (gold.map token)
      apply List.ext_getElem?
      intro t
      have := ops_all_equal hops (by
        intro o ho
        refine Classical.byContradiction (fun hne => ?_)
        rcases nonempty_of_other hops o ho hne with hlt | hlt
        · refine h.1 o.i1 (List.mem_flatMap.2 ⟨o, ho, ?_⟩)
          unfold opMarks
          rw [if_neg hne]
          exact List.mem_range'_1.2 ⟨Nat.le_refl _, by omega⟩
        · refine h.2 o.j1 (List.mem_flatMap.2 ⟨o, ho, ?_⟩)
          unfold opMarks
          rw [if_neg hne]
          exact List.mem_range'_1.2 ⟨Nat.le_refl _, by omega⟩) t
      simpa using this
    exact ⟨e, (same e).1 h⟩
  · rintro ⟨e, h⟩
    exact (same e).2 h

theorem marks_lt {ign : Bool} {pred gold : List Node} :
    (∀ i ∈ (marks ign pred gold).1, i < pred.length) ∧ ∀ i ∈ (marks ign pred gold).2, i < gold.length := by
  obtain ⟨_, hb⟩ := ops_bounds (opcodes_ops (pred.map token) (gold.map token))
  simp only [List.length_map] at hb
  constructor
  · intro i hi
    obtain ⟨o, ho, hi⟩ := List.mem_flatMap.1 hi
    have hb := hb o ho
    unfold opMarks at hi
    split at hi
    · obtain ⟨⟨x, y⟩, hx, rfl⟩ := List.mem_map.1 hi
      have := List.of_mem_zip (List.mem_filter.1 hx).1
      have := List.mem_range'_1.1 this.1
      simp only; omega
    · have := List.mem_range'_1.1 hi
      omega
  · intro i hi
    obtain ⟨o, ho, hi⟩ := List.mem_flatMap.1 hi
    have hb := hb o ho
    unfold opMarks at hi
    split at hi
    · obtain ⟨⟨x, y⟩, hx, rfl⟩ := List.mem_map.1 hi
      have := List.of_mem_zip (List.mem_filter.1 hx).1
      have := List.mem_range'_1.1 this.2
      simp only; omega
    · have := List.mem_range'_1.1 hi
      omega

/-! ## The trees afterwards -/

/-- No node has the attribute `Mark`. -/
def Unmarked (ns : List Node) : Prop := ∀ n ∈ ns, n.mark = none

theorem map_modify {β : Type} (h : Node → β) (f : Node → Node) (hf : ∀ n, h (f n) = h n) (i : Nat) (ns : List Node) :
    (ns.modify i f).map h = ns.map h := by
  apply List.ext_getElem?
  intro k
  rw [List.getElem?_map, List.getElem?_map, List.getElem?_modify]
  cases ns[k]? with
  | none => rfl
  | some n => by_cases e : i = k <;> simp [e, hf]

theorem fold_modify {β : Type} (h : Node → β) (hf : ∀ (n : Node) (k : Option Nat), h { n with align := k } = h n)
    (g : Nat × Nat → Nat) (v : Nat × Nat → Nat) : ∀ (al : List (Nat × Nat)) (ns : List Node),
    (al.foldl (fun ns x => ns.modify (g x) (fun n => { n with align := some (v x) })) ns).map h = ns.map h
  | [], _ => rfl
  | x :: al, ns => by
    rw [List.foldl_cons, fold_modify h hf g v al, map_modify h _ (fun n => hf n _)]

theorem alignPred_map {β : Type} (h : Node → β) (hf : ∀ (n : Node) (k : Option Nat), h { n with align := k } = h n)
    (p : Params) (al : List (Nat × Nat)) (ns : List Node) : (alignPred p al ns).map h = ns.map h := by
  unfold alignPred
  split
  · exact fold_modify h hf _ _ al ns
  · rfl

theorem alignGold_map {β : Type} (h : Node → β) (hf : ∀ (n : Node) (k : Option Nat), h { n with align := k } = h n)
    {p : Params} {al : List (Nat × Nat)} {ns g : List Node} (e : alignGold p al ns = some g) : g.map h = ns.map h := by
  unfold alignGold at e
  split at e
  · split at e
    · rw [← Option.some.inj e]
      exact fold_modify h hf _ _ al ns
    · cases e
  · rw [← Option.some.inj e]

theorem setMarks_unmarked {p : Params} {ps : List Nat} {ns : List Node} (hm : p.markAttr = true) (h : Unmarked ns) :
    Unmarked (setMarks p ps ns) ↔ ∀ i, i < ns.length → i ∉ ps := by
  unfold setMarks Unmarked
  rw [hm]
  constructor
  · intro e i hi hp
    have := e _ (List.mem_mapIdx.2 ⟨i, hi, rfl⟩)
    simp [hp] at this
  · intro e n hn
    obtain ⟨i, hi, rfl⟩ := List.mem_mapIdx.1 hn
    have : ps.contains i = false := by simpa using e i hi
    have hb : (true && ps.contains i) = false := by rw [this]; rfl
    simp only [hb, Bool.false_eq_true, if_false]
    exact h _ (List.getElem_mem hi)

theorem setMarks_map {β : Type} (h : Node → β) (hf : ∀ (n : Node) (m : Option Str), h { n with mark := m } = h n)
    (p : Params) (ps : List Nat) (ns : List Node) : (setMarks p ps ns).map h = ns.map h := by
  apply List.ext_getElem?
  intro i
  unfold setMarks
  rw [List.getElem?_map, List.getElem?_mapIdx, List.getElem?_map]
  cases ns[i]? with
  | none => rfl
  | some n =>
    simp only [Option.map_some]
    split
    · rw [hf]
    · rfl

theorem unmarked_iff (ns : List Node) : Unmarked ns ↔ ∀ m ∈ ns.map (·.mark), m = none := by
  simp [Unmarked]

theorem clear_token (p : Params) (n : Node) : token (clear p n) = token n := by
  unfold clear; split <;> rfl

theorem clear_parent (p : Params) (n : Node) : (clear p n).parent = n.parent := by
  unfold clear; split <;> rfl

theorem nodeAt_map {ns : List Node} {f : Node → Node} {i : Nat} (h : i < ns.length) :
    nodeAt (ns.map f) i = f (nodeAt ns i) := by
  simp [nodeAt, List.getD, h]

theorem map_clear_token (p : Params) (ns : List Node) : (ns.map (clear p)).map token = ns.map token := by
  rw [List.map_map]
  exact List.map_congr_left (fun n _ => clear_token p n)

/-- C116: with `add=0`, no node of the two trees is marked afterwards exactly when the compared strings and (unless
`ignore_parent`) the parents of all words are the same. -/
theorem C116_unmarked (p : Params) (hm : p.markAttr = true) (ha : p.add = false) (pred gold P G : List Node) (c : Bool)
    (hv : Valid pred) (h : processTree p pred gold = some (P, G, c)) :
    (Unmarked P ∧ Unmarked G) ↔
    (pred.map token = gold.map token ∧
      (p.ignoreParent = true ∨ ∀ i, i < gold.length → (nodeAt pred i).parent = (nodeAt gold i).parent)) := by
  unfold processTree at h
  simp only at h
  split at h
  · cases h
  · next g hg =>
    simp only [Option.some.injEq, Prod.mk.injEq] at h
    obtain ⟨rfl, rfl, -⟩ := h
    have cl : ∀ ns : List Node, Unmarked (ns.map (clear p)) := by
      intro ns n hn
      obtain ⟨m, _, rfl⟩ := List.mem_map.1 hn
      simp [clear, ha, hm]
    have u1 : Unmarked (alignPred p (pairs (diffs (pred.map (clear p)) (gold.map (clear p)))) (pred.map (clear p))) := by
      rw [unmarked_iff, alignPred_map (·.mark) (fun _ _ => rfl), ← unmarked_iff]
      exact cl pred
    have u2 : Unmarked g := by
      rw [unmarked_iff, alignGold_map (·.mark) (fun _ _ => rfl) hg, ← unmarked_iff]
      exact cl gold
    have l1 : (alignPred p (pairs (diffs (pred.map (clear p)) (gold.map (clear p)))) (pred.map (clear p))).length =
        (pred.map (clear p)).length := by
      have := congrArg List.length (alignPred_map (·.mark) (fun _ _ => rfl) p
        (pairs (diffs (pred.map (clear p)) (gold.map (clear p)))) (pred.map (clear p)))
      simpa using this
    have l2 : g.length = (gold.map (clear p)).length := by
      have := congrArg List.length (alignGold_map (·.mark) (fun _ _ => rfl) hg)
      simpa using this
    rw [setMarks_unmarked hm u1, setMarks_unmarked hm u2, l1, l2]
    have hv' : Valid (pred.map (clear p)) := by
      intro i hi
      simp only [List.length_map] at hi ⊢
      rw [nodeAt_map hi, clear_parent]
      exact hv i hi
    have key := marks_nil (ign := p.ignoreParent) (gold := gold.map (clear p)) hv'
    rw [map_clear_token, map_clear_token] at key
    have par : ∀ i, i < gold.length → pred.map token = gold.map token →
        ((nodeAt (pred.map (clear p)) i).parent = (nodeAt (gold.map (clear p)) i).parent ↔
          (nodeAt pred i).parent = (nodeAt gold i).parent) := by
      intro i hi e
      have hl : pred.length = gold.length := by simpa using congrArg List.length e
      rw [nodeAt_map (by omega), nodeAt_map hi, clear_parent, clear_parent]
    have lt := marks_lt (ign := p.ignoreParent) (pred := pred.map (clear p)) (gold := gold.map (clear p))
    constructor
    · rintro ⟨h1, h2⟩
      obtain ⟨e, h⟩ := key.1 ⟨fun i hi => h1 i (lt.1 i hi) hi, fun i hi => h2 i (lt.2 i hi) hi⟩
      refine ⟨e, h.imp_right (fun h i hi => (par i hi e).1 (h i (by simpa using hi)))⟩
    · rintro ⟨e, h⟩
      obtain ⟨h1, h2⟩ := key.2 ⟨e, h.imp_right (fun h i hi => (par i (by simpa using hi) e).2 (h i (by simpa using hi)))⟩
      exact ⟨fun i _ => h1 i, fun i _ => h2 i⟩

/-! ## Strings and values -/

/-- The value is present and without an underscore. -/
def Plain (v : Option Str) : Prop := ∃ s, v = some s ∧ '_' ∉ s

/-- C116: nodes without underscores and empty values in the compared attributes have the same string exactly when they have
the same values. Other nodes may not (`C116_conflate_violated`, `C116_undefined_violated`). -/
theorem C116_token_partial (m n : Node) (h1 : ∀ v ∈ m.vals, Plain v) (h2 : ∀ v ∈ n.vals, Plain v) (hl : m.vals ≠ [])
    (hk : n.vals ≠ []) : token m = token n ↔ m.vals = n.vals := by
  constructor
  · intro e
    have ok : ∀ k : Node, (∀ v ∈ k.vals, Plain v) → ∀ s ∈ k.vals.map (fun v => v.getD ['_']), '_' ∉ s := by
      intro k hk s hs
      obtain ⟨v, hv, rfl⟩ := List.mem_map.1 hs
      obtain ⟨s, rfl, h⟩ := hk v hv
      exact h
    have e' := congrArg (split '_') e
    unfold token at e'
    rw [split_join (by simpa using hl) (ok m h1), split_join (by simpa using hk) (ok n h2)] at e'
    have back : ∀ k : Node, (∀ v ∈ k.vals, Plain v) → (k.vals.map (fun v => v.getD ['_'])).map some = k.vals := by
      intro k hk
      rw [List.map_map]
      conv => rhs; rw [← List.map_id k.vals]
      apply List.map_congr_left
      intro v hv
      obtain ⟨s, rfl, _⟩ := hk v hv
      rfl
    rw [← back m h1, ← back n h2, e']
  · intro e
    unfold token
    rw [e]

/-- Two nodes with different values in both attributes. -/
def conflated (a b c : Str) : Node × Node :=
  ({ vals := [some (a ++ '_' :: b), some c] }, { vals := [some a, some (b ++ '_' :: c)] })

/-- C116: words whose form and lemma both differ, such as `a_b`, `c` and `a`, `b_c`, are not marked. -/
theorem C116_conflate_violated (a b c : Str) :
    (conflated a b c).1.vals ≠ (conflated a b c).2.vals ∧
    ∃ P G, processTree {} [(conflated a b c).1] [(conflated a b c).2] = some (P, G, false) ∧ Unmarked P ∧ Unmarked G := by
  constructor
  · intro e
    simp only [conflated, List.cons.injEq, Option.some.injEq] at e
    have := congrArg List.length e.1
    simp at this
  · have hs : ∃ P G, processTree {} [(conflated a b c).1] [(conflated a b c).2] = some (P, G, false) := by
      simp [processTree, alignGold, sBoth, sFromGold]
    obtain ⟨P, G, h⟩ := hs
    refine ⟨P, G, h, ?_⟩
    refine (C116_unmarked {} rfl rfl _ _ P G false ?_ h).2 ⟨?_, ?_⟩
    · intro i hi
      have : i = 0 := by simpa using hi
      subst this
      exact Nat.zero_le _
    · simp [conflated, token, join]
    · right
      intro i hi
      have : i = 0 := by simpa using hi
      subst this
      rfl

/-- C116: a missing value is not told from an underscore. -/
theorem C116_undefined_violated : token { vals := [none] } = token { vals := [some ['_']] } := rfl

/-! ## The comment -/

/-- C116: the comment is added to both trees exactly when the numbers of words differ. -/
theorem C116_comment (p : Params) (hm : p.markAttr = true) (pred gold P G : List Node) (c : Bool)
    (h : processTree p pred gold = some (P, G, c)) : c = true ↔ pred.length ≠ gold.length := by
  unfold processTree at h
  simp only at h
  split at h
  · cases h
  · simp only [Option.some.injEq, Prod.mk.injEq] at h
    rw [← h.2.2, hm]
    simp

/-! ## The alignment -/

/-- Every replaced part of the predicted tree is at most as long as what it is replaced by. -/
def Fits (pred gold : List Node) : Prop := ∀ o ∈ diffs pred gold, o.tag = .replace → o.i2 - o.i1 ≤ o.j2 - o.j1

theorem mem_diag {o : Op} {x : Nat × Nat} (h : x ∈ (List.range' o.i1 (o.i2 - o.i1)).map (fun i => (i, i - o.i1 + o.j1))) :
    ∃ t, t < o.i2 - o.i1 ∧ x.1 = o.i1 + t ∧ x.2 = o.j1 + t := by
  obtain ⟨i, hi, rfl⟩ := List.mem_map.1 h
  have := List.mem_range'_1.1 hi
  exact ⟨i - o.i1, by omega, by simp only; omega, by simp only; omega⟩

theorem pairs_cons (o : Op) (ops : List Op) : pairs (o :: ops) =
    (if Tag.aligns o.tag then (List.range' o.i1 (o.i2 - o.i1)).map (fun i => (i, i - o.i1 + o.j1)) else []) ++ pairs ops := by
  simp [pairs]

theorem pairs_inc {α : Type} {a b : List α} : ∀ {ops : List Op} {i j : Nat}, Ops a b i j ops →
    (∀ o ∈ ops, o.tag = .replace → o.i2 - o.i1 ≤ o.j2 - o.j1) →
    (pairs ops).Pairwise (fun p q => p.1 < q.1 ∧ p.2 < q.2) ∧
    ∀ x ∈ pairs ops, (i ≤ x.1 ∧ x.1 < a.length) ∧ j ≤ x.2 ∧ x.2 < b.length
  | [], _, _, _, _ => ⟨by simp [pairs], by simp [pairs]⟩
  | o :: ops, i, j, ⟨⟨h1, h2, h3, h4, h5⟩, h⟩, hf => by
    obtain ⟨r1, r2⟩ := pairs_inc h (fun q hq => hf q (by simp [hq]))
    obtain ⟨⟨b1, b2⟩, -⟩ := ops_bounds h
    have hlen : Tag.aligns o.tag = true → o.i2 - o.i1 ≤ o.j2 - o.j1 := by
      intro ht
      cases hq : o.tag with
      | equal => rw [hq] at h5; omega
      | replace => exact hf o (by simp) hq
      | delete => rw [hq] at ht; simp [Tag.aligns] at ht
      | insert => rw [hq] at ht; simp [Tag.aligns] at ht
    rw [pairs_cons]
    split
    · next ht =>
      have hlen := hlen ht
      constructor
      · rw [List.pairwise_append]
        refine ⟨?_, r1, ?_⟩
        · rw [List.pairwise_map]
          refine List.Pairwise.imp_of_mem ?_ (List.pairwise_lt_range' (s := o.i1) (n := o.i2 - o.i1))
          intro x y hx hy hxy
          have hx := List.mem_range'_1.1 hx
          simp only
          omega
        · intro x hx y hy
          obtain ⟨t, ht, e1, e2⟩ := mem_diag hx
          have := r2 y hy
          omega
      · intro x hx
        rcases List.mem_append.1 hx with hx | hx
        · obtain ⟨t, ht, e1, e2⟩ := mem_diag hx
          omega
        · have := r2 x hx
          omega
    · refine ⟨by simpa using r1, ?_⟩
      intro x hx
      have := r2 x (by simpa using hx)
      omega

/-- C116: if no replaced part is longer than its replacement, the alignment is one-to-one, monotone and between words of the
two trees, and the block does not fail. Otherwise see `C116_index_violated` and `C116_one_to_one_violated`. -/
theorem C116_align_partial (p : Params) (pred gold : List Node) (h : Fits pred gold) :
    (pairs (diffs pred gold)).Pairwise (fun x y => x.1 < y.1 ∧ x.2 < y.2) ∧
    (∀ x ∈ pairs (diffs pred gold), x.1 < pred.length ∧ x.2 < gold.length) ∧ (processTree p pred gold).isSome = true := by
  obtain ⟨h1, h2⟩ := pairs_inc (opcodes_ops (pred.map token) (gold.map token)) h
  have h2' : ∀ x ∈ pairs (diffs pred gold), x.1 < pred.length ∧ x.2 < gold.length := by
    intro x hx
    have := h2 x hx
    simp only [List.length_map] at this
    omega
  refine ⟨h1, h2', ?_⟩
  have e : diffs (pred.map (clear p)) (gold.map (clear p)) = diffs pred gold := by
    unfold diffs
    rw [map_clear_token, map_clear_token]
  have : (alignGold p (pairs (diffs (pred.map (clear p)) (gold.map (clear p)))) (gold.map (clear p))).isSome = true := by
    rw [e]
    unfold alignGold
    split
    · rw [if_pos]
      · rfl
      · rw [List.all_eq_true]
        intro x hx
        simpa using (h2' x hx).2
    · rfl
  unfold processTree
  simp only
  cases hg : alignGold p (pairs (diffs (pred.map (clear p)) (gold.map (clear p)))) (gold.map (clear p)) with
  | none => rw [hg] at this; cases this
  | some g => rfl

theorem ops_disjoint {α : Type} [DecidableEq α] {a b : List α} (ha : a ≠ []) (hb : b ≠ []) (h : ∀ x ∈ a, x ∉ b) :
    opcodes a b = [⟨.replace, 0, a.length, 0, b.length⟩] := by
  have hl : ∀ i j, i < a.length → j < b.length → a[i]? ≠ b[j]? := by
    intro i j hi hj e
    rw [List.getElem?_eq_getElem hi, List.getElem?_eq_getElem hj] at e
    exact h a[i] (List.getElem_mem hi) (by rw [Option.some.inj e]; exact List.getElem_mem hj)
  have hlo : (longest a b 0 a.length 0 b.length).2.2 = 0 := by
    generalize hr : longest a b 0 a.length 0 b.length = r
    obtain ⟨i, j, k⟩ := r
    obtain ⟨⟨-, g2, -, g4, g5⟩, -⟩ := longest_spec (Nat.zero_le _) (Nat.zero_le _) hr
    by_cases hk : k = 0
    · exact hk
    · exact absurd (g5 0 (by omega)) (hl (i + 0) (j + 0) (by omega) (by omega))
  have hm : matching a b = [] := by
    unfold matching blocks
    generalize hr : longest a b 0 a.length 0 b.length = r at hlo
    obtain ⟨i, j, k⟩ := r
    simp only at hlo
    simp [hlo, collapse]
  have h1 : 0 < a.length := List.length_pos_iff.2 ha
  have h2 : 0 < b.length := List.length_pos_iff.2 hb
  unfold opcodes
  rw [hm]
  simp [opsFrom, gap, h1, h2]

/-- C116: if nothing is the same and the predicted tree has more words than the gold one, `align=both` and `align=from-gold`
raise IndexError. -/
theorem C116_index_violated (p : Params) (hp : p.align = sBoth ∨ p.align = sFromGold) (pred gold : List Node)
    (hd : ∀ m ∈ pred, ∀ n ∈ gold, token m ≠ token n) (hg : gold ≠ []) (hl : gold.length < pred.length) :
    processTree p pred gold = none := by
  have hpn : pred ≠ [] := by rintro rfl; simp at hl
  have e : diffs (pred.map (clear p)) (gold.map (clear p)) = [⟨.replace, 0, pred.length, 0, gold.length⟩] := by
    unfold diffs
    rw [map_clear_token, map_clear_token, ops_disjoint (by simpa using hpn) (by simpa using hg)]
    · simp
    · intro x hx hy
      obtain ⟨m, hm, rfl⟩ := List.mem_map.1 hx
      obtain ⟨n, hn, e⟩ := List.mem_map.1 hy
      exact hd m hm n hn e.symm
  have bad : (gold.length, gold.length) ∈ pairs [⟨.replace, 0, pred.length, 0, gold.length⟩] := by
    rw [pairs_cons]
    simp only [Tag.aligns, if_true]
    refine List.mem_append_left _ (List.mem_map.2 ⟨gold.length, ?_, by simp⟩)
    exact List.mem_range'_1.2 ⟨Nat.zero_le _, by omega⟩
  have : alignGold p (pairs (diffs (pred.map (clear p)) (gold.map (clear p)))) (gold.map (clear p)) = none := by
    rw [e]
    unfold alignGold
    rw [if_pos hp, if_neg]
    rw [List.all_eq_true]
    intro h
    have := h _ bad
    simp at this
  unfold processTree
  simp only
  rw [this]

/-- C116: the documentation (markdiff.py:35) recommends `align=1`, but then no alignment is stored, whatever the trees. -/
theorem C116_align1_violated (p : Params) (hp : p.align = ['1']) (pred gold : List Node) :
    ∃ P G c, processTree p pred gold = some (P, G, c) ∧ P.map (·.align) = pred.map (·.align) ∧
      G.map (·.align) = gold.map (·.align) := by
  have h1 : ∀ al ns, alignGold p al ns = some ns := by
    intro al ns; unfold alignGold; rw [if_neg (by rw [hp]; decide)]
  have h2 : ∀ al ns, alignPred p al ns = ns := by
    intro al ns; unfold alignPred; rw [if_neg (by rw [hp]; decide)]
  have h3 : ∀ ps (ns : List Node), (setMarks p ps (ns.map (clear p))).map (·.align) = ns.map (·.align) := by
    intro ps ns
    rw [setMarks_map (·.align) (fun _ _ => rfl), List.map_map]
    exact List.map_congr_left (fun n _ => by simp only [Function.comp, clear]; split <;> rfl)
  have e : processTree p pred gold = some
      (setMarks p (marks p.ignoreParent (pred.map (clear p)) (gold.map (clear p))).1 (pred.map (clear p)),
       setMarks p (marks p.ignoreParent (pred.map (clear p)) (gold.map (clear p))).2 (gold.map (clear p)),
       decide ((pred.map (clear p)).length ≠ (gold.map (clear p)).length) && p.markAttr) := by
    unfold processTree
    simp only [h1, h2]
  exact ⟨_, _, _, e, h3 _ _, h3 _ _⟩

/-! ## Concrete trees -/

/-- A word with one compared attribute. -/
def word (c : Char) (parent : Nat) : Node := { vals := [some [c]], parent := parent }

/-- `x y a b`: `b` depends on `y`. -/
def exPred : List Node := [word 'x' 0, word 'y' 1, word 'a' 1, word 'b' 2]
/-- `z a b`: `b` depends on `a`. -/
def exGold : List Node := [word 'z' 0, word 'a' 1, word 'b' 2]

/-- C116: two predicted words are aligned with the same gold word, although "only one-to-one alignment is supported". -/
theorem C116_one_to_one_violated : ∃ P G, processTree { align := sFromPred } exPred exGold = some (P, G, true) ∧
    P.map (·.align) = [some 1, some 2, some 2, some 3] := by
  refine ⟨_, _, rfl, ?_⟩
  decide +kernel

/-- C116: the parent of `b` is the deleted `y` in the predicted tree and `a` in the gold tree, but `b` is marked in neither
of them. -/
theorem C116_parent_violated : ∃ P G, processTree {} exPred exGold = some (P, G, true) ∧
    (nodeAt P 3).mark = none ∧ (nodeAt G 2).mark = none ∧
    (nodeAt P ((nodeAt P 3).parent - 1)).vals = [some ['y']] ∧ (nodeAt G ((nodeAt G 2).parent - 1)).vals = [some ['a']] := by
  refine ⟨_, _, rfl, ?_⟩
  decide +kernel

/-- The words of the gold tree stay the same. -/
theorem gold_kept {p : Params} {pred gold P G : List Node} {c : Bool} (h : processTree p pred gold = some (P, G, c)) :
    G.map token = gold.map token ∧ G.map (·.parent) = gold.map (·.parent) := by
  unfold processTree at h
  simp only at h
  split at h
  · cases h
  · next g hg =>
    simp only [Option.some.injEq, Prod.mk.injEq] at h
    obtain ⟨-, rfl, -⟩ := h
    constructor
    · rw [setMarks_map token (fun _ _ => rfl), alignGold_map token (fun _ _ => rfl) hg, map_clear_token]
    · rw [setMarks_map (·.parent) (fun _ _ => rfl), alignGold_map (·.parent) (fun _ _ => rfl) hg, List.map_map]
      exact List.map_congr_left (fun n _ => clear_parent p n)

/-- C116: with a second predicted tree that equals the gold tree, the marks of the gold tree from the comparison with the
first one are lost. -/
theorem C116_zones_violated (p : Params) (hm : p.markAttr = true) (ha : p.add = false) (first gold P G : List Node) (c : Bool)
    (hv : Valid gold) (h : processTree p first gold = some (P, G, c)) (P' G' : List Node) (c' : Bool)
    (h' : processTree p gold G = some (P', G', c')) : Unmarked G' := by
  obtain ⟨hG, hpar⟩ := gold_kept h
  refine ((C116_unmarked p hm ha gold G P' G' c' hv h').2 ⟨hG.symm, Or.inr ?_⟩).2
  intro i hi
  have hl : G.length = gold.length := by simpa using congrArg List.length hpar
  have := congrArg (fun l => l[i]?) hpar
  simp only [List.getElem?_map] at this
  rw [List.getElem?_eq_getElem hi, List.getElem?_eq_getElem (by omega)] at this
  simp only [Option.map_some, Option.some.injEq] at this
  simp [nodeAt, List.getD, hi, show i < gold.length by omega, this]

/-! ## Statistics -/

/-- C116: the numbers of added and deleted words explain the difference of the lengths. -/
theorem C116_stats (ign : Bool) (pred gold : List Node) :
    pred.length + (stats ign pred gold).addWord = gold.length + (stats ign pred gold).deleteWord := by
  have key : ∀ (al : List (Nat × Nat)) (ops : List Op) (i j : Nat) (s : Stats),
      Ops (pred.map token) (gold.map token) i j ops →
      (pred.length - i) + (ops.foldl (opStats ign pred gold al) s).addWord + s.deleteWord =
        (gold.length - j) + (ops.foldl (opStats ign pred gold al) s).deleteWord + s.addWord := by
    intro al ops
    induction ops with
    | nil =>
      intro i j s h
      obtain ⟨h1, h2⟩ := h
      simp only [List.length_map] at h1 h2
      simp only [List.foldl_nil]
      omega
    | cons o ops ih =>
      intro i j s h
      have b := (ops_bounds h).2 o (by simp)
      obtain ⟨⟨h1, h2, h3, h4, h5⟩, h⟩ := h
      simp only [List.length_map] at b
      have := ih o.i2 o.j2 (opStats ign pred gold al s o) h
      rw [List.foldl_cons]
      cases ht : o.tag with
      | equal =>
        rw [ht] at h5
        have e1 : (opStats ign pred gold al s o).addWord = s.addWord := by unfold opStats; rw [ht]
        have e2 : (opStats ign pred gold al s o).deleteWord = s.deleteWord := by unfold opStats; rw [ht]
        omega
      | replace =>
        have e1 : (opStats ign pred gold al s o).addWord =
          s.addWord + (o.j2 - (o.j1 + min (o.i2 - o.i1) (o.j2 - o.j1))) := by unfold opStats; rw [ht]
        have e2 : (opStats ign pred gold al s o).deleteWord =
          s.deleteWord + (o.i2 - (o.i1 + min (o.i2 - o.i1) (o.j2 - o.j1))) := by unfold opStats; rw [ht]
        omega
      | delete =>
        have e1 : (opStats ign pred gold al s o).addWord = s.addWord + (o.j2 - o.j1) := by unfold opStats; rw [ht]
        have e2 : (opStats ign pred gold al s o).deleteWord = s.deleteWord + (o.i2 - o.i1) := by unfold opStats; rw [ht]
        omega
      | insert =>
        have e1 : (opStats ign pred gold al s o).addWord = s.addWord + (o.j2 - o.j1) := by unfold opStats; rw [ht]
        have e2 : (opStats ign pred gold al s o).deleteWord = s.deleteWord + (o.i2 - o.i1) := by unfold opStats; rw [ht]
        omega
  have := key (pairs (diffs pred gold)) (diffs pred gold) 0 0 {} (opcodes_ops _ _)
  unfold stats
  simp only [Nat.sub_zero, Nat.add_zero] at this
  exact this

/-- `z a b` with `b` attached elsewhere. -/
def exMoved : List Node := [word 'z' 0, word 'a' 1, word 'b' 1]

example : Valid exPred ∧ Valid exGold ∧ Valid exMoved := by
  refine ⟨?_, ?_, ?_⟩ <;> intro i hi <;> have : i < 4 := Nat.lt_of_lt_of_le hi (by decide) <;>
    match i, this with
    | 0, _ => decide
    | 1, _ => decide
    | 2, _ => decide
    | 3, _ => decide

example : ∃ P G, processTree {} exMoved exGold = some (P, G, false) ∧
    P.map (·.mark) = [none, none, some ['1']] ∧ G.map (·.mark) = [none, none, some ['1']] := by
  refine ⟨_, _, rfl, ?_⟩
  decide +kernel

example : ∃ P G, processTree { ignoreParent := true } exMoved exGold = some (P, G, false) ∧ Unmarked P ∧ Unmarked G := by
  refine ⟨_, _, rfl, ?_⟩
  rw [C116_unmarked { ignoreParent := true } rfl rfl exMoved exGold _ _ false ?_ rfl]
  · exact ⟨by decide, Or.inl rfl⟩
  · intro i hi
    have : i < 3 := hi
    match i, this with
    | 0, _ => decide
    | 1, _ => decide
    | 2, _ => decide

example : Plain (some ['a']) := ⟨_, rfl, by decide⟩

example : pairs (diffs exGold exPred) = [(0, 0), (1, 2), (2, 3)] := by decide +kernel

example : Fits exGold exPred := by
  have : diffs exGold exPred = [⟨.replace, 0, 1, 0, 2⟩, ⟨.equal, 1, 3, 2, 4⟩] := by decide +kernel
  intro o ho ht
  rw [this] at ho
  simp only [List.mem_cons, List.not_mem_nil, or_false] at ho
  rcases ho with rfl | rfl
  · decide
  · cases ht

example : processTree { align := sBoth } [word 'a' 0, word 'b' 1] [word 'c' 0] = none :=
  C116_index_violated _ (Or.inl rfl) _ _ (by decide) (by decide) (by decide)

example : (stats false exPred exGold).deleteWord = 1 ∧ (stats false exPred exGold).addWord = 0 := by decide +kernel

example : ∃ P G, processTree { align := ['1'] } exPred exGold = some (P, G, true) ∧
    P.map (·.align) = [none, none, none, none] := by
  refine ⟨_, _, rfl, ?_⟩
  decide +kernel

example : ∃ P G P' G', processTree {} exMoved exGold = some (P, G, false) ∧ processTree {} exGold G = some (P', G', false) ∧
    ¬ Unmarked G ∧ Unmarked G' := by
  refine ⟨_, _, _, _, rfl, rfl, ?_, ?_⟩
  · intro h
    exact absurd (h _ (List.getElem_mem (n := 2) (by decide +kernel))) (by decide +kernel)
  · unfold Unmarked
    decide +kernel

end MarkDiff
end Verif.Eval
