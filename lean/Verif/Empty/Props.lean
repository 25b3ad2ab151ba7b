import Verif.Empty.Model
import Verif.Tree.Lemmas
import Verif.Tree.Spec

/-!
# Properties C24, C25, C27 and C59: empty nodes
-/

namespace Verif.Empty
open Verif.Py

/-- The ords of the empty nodes increase and are between words: none is a whole number, and none is
beyond the last of the `n` words plus 0.9. -/
structure Ok (n : Nat) (E : List Nat) : Prop where
  sorted : E.Pairwise (· < ·)
  frac : ∀ e ∈ E, e % 10 ≠ 0
  bound : ∀ e ∈ E, e / 10 ≤ n

/-! ## C24 -/

theorem createLoop_spec (base : Nat) : ∀ (E : List Nat) (new : Nat), E.Pairwise (· < ·) → base < new →
    new ≤ base + 9 →
    match createLoop base new E with
    | some r => new ≤ r ∧ r ≤ base + 9 ∧ r ∉ E ∧ ∀ j, new ≤ j → j < r → j ∈ E
    | none => ∀ j, new ≤ j → j ≤ base + 9 → j ∈ E := by
  intro E
  induction E with
  | nil => intro new _ h1 h2; simp only [createLoop]; exact ⟨Nat.le_refl _, h2, by simp, by omega⟩
  | cons e E ih =>
    intro new hs h1 h2
    rw [List.pairwise_cons] at hs
    unfold createLoop
    by_cases hgt : e > new
    · rw [if_pos hgt]
      refine ⟨Nat.le_refl _, h2, ?_, by omega⟩
      intro hm
      rcases List.mem_cons.1 hm with rfl | hm
      · omega
      · have := hs.1 new hm; omega
    · rw [if_neg hgt]
      by_cases heq : e = new
      · rw [if_pos heq]
        by_cases h9 : new = base + 9
        · rw [if_pos h9]
          intro j ha hb
          have : j = e := by omega
          rw [this]; exact List.mem_cons_self
        · rw [if_neg h9]
          have := ih (new + 1) hs.2 (by omega) (by omega)
          cases hc : createLoop base (new + 1) E with
          | none =>
            rw [hc] at this
            intro j ha hb
            by_cases hj : j = e
            · rw [hj]; exact List.mem_cons_self
            · exact List.mem_cons_of_mem _ (this j (by omega) hb)
          | some r =>
            rw [hc] at this
            obtain ⟨a, b, c, d⟩ := this
            refine ⟨by omega, b, ?_, ?_⟩
            · intro hm
              rcases List.mem_cons.1 hm with rfl | hm
              · omega
              · exact c hm
            · intro j ha hb
              by_cases hj : j = e
              · rw [hj]; exact List.mem_cons_self
              · exact List.mem_cons_of_mem _ (d j (by omega) hb)
      · rw [if_neg heq]
        have := ih new hs.2 h1 h2
        cases hc : createLoop base new E with
        | none =>
          rw [hc] at this
          intro j ha hb
          exact List.mem_cons_of_mem _ (this j ha hb)
        | some r =>
          rw [hc] at this
          obtain ⟨a, b, c, d⟩ := this
          refine ⟨a, b, ?_, fun j ha hb => List.mem_cons_of_mem _ (d j ha hb)⟩
          intro hm
          rcases List.mem_cons.1 hm with rfl | hm
          · omega
          · exact c hm

theorem sortOrds_sorted {l : List Nat} (hn : l.Nodup) : (sortOrds l).Pairwise (· < ·) := by
  have h1 := pySort_pairwise (le := fun a b : Nat => decide (a ≤ b))
    (by intro a b c h1 h2; simp at *; omega) (by intro a b; simp; omega) l
  have h2 : (sortOrds l).Nodup := (pySort_perm _ l).nodup_iff.2 hn
  refine (List.pairwise_and_iff.2 ⟨h1, h2⟩).imp ?_
  rintro a b ⟨ha, hb⟩
  have : a ≤ b := by simpa using ha
  omega

/-- The interval of ords in which `word.create_empty_child(after)` puts the new node. -/
def place (k : Nat) (after : Bool) : Nat := if after then k else k - 1

/-- C24 (partial): for a word `k`, if one of the nine ords between the word and the next one (or the
previous one, for `after=False`) is free, `create_empty_child` takes the smallest free one: the new ord is
strictly between the two words and different from all others, and the list of empty nodes stays sorted.
If all nine are taken, the call raises. Missing: a tenth empty node at the same place, and children of
empty nodes. -/
theorem C24_create_empty_child_partial {E : List Nat} (hE : E.Pairwise (· < ·)) {k : Nat} (hk : 1 ≤ k)
    (after : Bool) :
    ((∃ j, 10 * place k after < j ∧ j < 10 * place k after + 10 ∧ j ∉ E) →
      ∃ new E', createEmptyChild E (10 * k) after = some (new, E') ∧
        10 * place k after < new ∧ new < 10 * (place k after + 1) ∧ new ∉ E ∧
        (∀ j, 10 * place k after < j → j < new → j ∈ E) ∧ E'.Pairwise (· < ·) ∧ E'.Perm (new :: E)) ∧
    ((∀ j, 10 * place k after < j → j < 10 * place k after + 10 → j ∈ E) →
      createEmptyChild E (10 * k) after = none) := by
  have hb : (if after then 10 * k else 10 * k - 10) = 10 * place k after := by
    unfold place; cases after <;> simp; omega
  unfold createEmptyChild
  simp only
  rw [hb]
  have hs := createLoop_spec (10 * place k after) E (10 * place k after + 1) hE (by omega) (by omega)
  constructor
  · rintro ⟨j, h1, h2, h3⟩
    cases hc : createLoop (10 * place k after) (10 * place k after + 1) E with
    | none => rw [hc] at hs; exact absurd (hs j (by omega) (by omega)) h3
    | some new =>
      rw [hc] at hs
      obtain ⟨a, b, c, d⟩ := hs
      have hnd : (E ++ [new]).Nodup := by
        rw [List.nodup_append]
        refine ⟨hE.imp (fun h => by omega), by simp, ?_⟩
        intro x hx y hy e
        rw [List.mem_singleton] at hy
        subst hy e
        exact c hx
      have hperm : (E ++ [new]).Perm (new :: E) := List.perm_append_comm
      simp only
      have hfin : ∀ E' : List Nat, E'.Pairwise (· < ·) → E'.Perm (E ++ [new]) → ∃ new' E'',
          some (new, E') = some (new', E'') ∧ 10 * place k after < new' ∧ new' < 10 * (place k after + 1) ∧
          new' ∉ E ∧ (∀ j, 10 * place k after < j → j < new' → j ∈ E) ∧ E''.Pairwise (· < ·) ∧
          E''.Perm (new' :: E) := by
        intro E' hs' hp
        exact ⟨new, E', rfl, by omega, by omega, c, fun j ha hb => d j (by omega) hb, hs', hp.trans hperm⟩
      split
      · rename_i hl
        have : E = [] := List.getLast?_eq_none_iff.1 hl
        subst this
        exact hfin _ (by simp) (List.Perm.refl _)
      · rename_i l hl
        split
        · rename_i hgt
          apply hfin _ _ (List.Perm.refl _)
          rw [List.pairwise_append]
          refine ⟨hE, by simp, ?_⟩
          intro x hx y hy
          rw [List.mem_singleton] at hy
          subst hy
          obtain ⟨ini, hini⟩ : ∃ ini, E = ini ++ [l] := by
            have hne : E ≠ [] := by intro e; rw [e] at hl; simp at hl
            refine ⟨E.dropLast, ?_⟩
            rw [List.getLast?_eq_some_getLast hne] at hl
            have := List.dropLast_concat_getLast hne
            rw [Option.some.inj hl] at this
            exact this.symm
          rw [hini] at hx hE
          rcases List.mem_append.1 hx with hx | hx
          · have := (List.pairwise_append.1 hE).2.2 x hx l (by simp); omega
          · rw [List.mem_singleton] at hx; omega
        · exact hfin _ (sortOrds_sorted hnd) (pySort_perm _ _)
  · intro hall
    cases hc : createLoop (10 * place k after) (10 * place k after + 1) E with
    | none => rfl
    | some new =>
      rw [hc] at hs
      obtain ⟨a, b, c, _⟩ := hs
      exact absurd (hall new (by omega) (by omega)) c

example : createEmptyChild [11, 12, 14, 21] 10 true = some (13, [11, 12, 13, 14, 21]) ∧
    createEmptyChild [11, 21] 10 false = some (1, [1, 11, 21]) := by decide

/-- C24 is violated: the tenth empty node at one place raises `TypeError`. -/
theorem C24_tenth_violated : createEmptyChild [11, 12, 13, 14, 15, 16, 17, 18, 19] 10 true = none := by decide

/-- C24 is violated: a child of the empty node 1.9 gets ord 2.0, the ord of word 2. -/
theorem C24_child_of_empty_violated :
    createEmptyChild [11, 12, 13, 14, 15, 16, 17, 18, 19] 19 true =
      some (10 * 2, [11, 12, 13, 14, 15, 16, 17, 18, 19, 20]) := by decide

/-! ## C25: removal -/

theorem newOrd_succ (removed : Nat → Bool) (k : Nat) :
    newOrd removed (k + 1) = newOrd removed k + (if removed (k + 1) then 0 else 1) := by
  unfold newOrd
  rw [List.range'_1_concat, List.filter_append, List.length_append, Nat.add_comm 1 k]
  congr 1
  cases h : removed (k + 1) <;> simp [h]

theorem newOrd_mono (removed : Nat → Bool) {k m : Nat} (h : k ≤ m) : newOrd removed k ≤ newOrd removed m := by
  induction m with
  | zero => have : k = 0 := by omega
            rw [this]; exact Nat.le_refl _
  | succ m ih =>
    by_cases he : k = m + 1
    · rw [he]; exact Nat.le_refl _
    · have := ih (by omega)
      rw [newOrd_succ]; omega

theorem newOrd_const (removed : Nat → Bool) {k m : Nat} (h : k ≤ m) (hr : ∀ j, k < j → j ≤ m → removed j = true) :
    newOrd removed m = newOrd removed k := by
  induction m with
  | zero => have : k = 0 := by omega
            rw [this]
  | succ m ih =>
    by_cases he : k = m + 1
    · rw [he]
    · rw [newOrd_succ, hr (m + 1) (by omega) (Nat.le_refl _), ih (by omega) (fun j a b => hr j a (by omega))]
      simp

/-- The empty nodes among the items. -/
def emptiesOf (L : List Item) : List Nat := (L.filter (fun i => i.2.isNone)).map (·.1)

theorem followsLoop_spec (removed : Nat → Bool) (n : Nat) : ∀ (L : List Item) (m prev : Nat),
    L.Pairwise (fun a b => a.1 < b.1) → (∀ k, (10 * k, some k) ∈ L ↔ m < k ∧ k ≤ n) →
    (∀ o k, (o, some k) ∈ L → o = 10 * k) →
    (∀ e, (e, none) ∈ L → e % 10 ≠ 0 ∧ 10 * m < e ∧ e / 10 ≤ n) →
    newOrd removed prev = newOrd removed m →
    (followsLoop removed prev L).map (·.1) = emptiesOf L ∧
    ∀ x ∈ followsLoop removed prev L, newOrd removed x.2 = newOrd removed (x.1 / 10) := by
  intro L
  induction L with
  | nil => intro m prev _ _ _ _ _; simp [followsLoop, emptiesOf]
  | cons i L ih =>
    intro m prev hs hw hk he hp
    rw [List.pairwise_cons] at hs
    obtain ⟨o, w⟩ := i
    cases w with
    | none =>
      obtain ⟨h1, h2, h3⟩ := he o List.mem_cons_self
      have hdiv : o / 10 = m := by
        by_cases hlt : m < o / 10
        · have hin := (hw (m + 1)).2 ⟨by omega, by omega⟩
          rcases List.mem_cons.1 hin with e | hin
          · simp at e
          · have := hs.1 _ hin
            simp only at this
            omega
        · omega
      have hrec := ih m prev hs.2
        (fun k => by
          rw [← hw k]
          constructor
          · exact List.mem_cons_of_mem _
          · intro hm
            rcases List.mem_cons.1 hm with e | hm
            · simp at e
            · exact hm)
        (fun o' k hm => hk o' k (List.mem_cons_of_mem _ hm))
        (fun e hm => he e (List.mem_cons_of_mem _ hm)) hp
      simp only [followsLoop, List.map_cons, emptiesOf]
      constructor
      · rw [List.filter_cons_of_pos (by rfl), List.map_cons, hrec.1]; rfl
      · intro x hx
        rcases List.mem_cons.1 hx with rfl | hx
        · simp only; rw [hp, hdiv]
        · exact hrec.2 x hx
    | some k =>
      have ho := hk o k List.mem_cons_self
      subst ho
      have hkm := (hw k).1 List.mem_cons_self
      have hkm1 : k = m + 1 := by
        by_cases hlt : m + 1 < k
        · have hin := (hw (m + 1)).2 ⟨by omega, by omega⟩
          rcases List.mem_cons.1 hin with e | hin
          · simp at e; omega
          · have := hs.1 _ hin
            simp only at this
            omega
        · omega
      subst hkm1
      have hrec := ih (m + 1) (if removed (m + 1) then prev else m + 1) hs.2
        (fun k => by
          constructor
          · intro hm
            have h1 := (hw k).1 (List.mem_cons_of_mem _ hm)
            have h2 := hs.1 _ hm
            simp only at h2
            exact ⟨by omega, h1.2⟩
          · rintro ⟨h1, h2⟩
            rcases List.mem_cons.1 ((hw k).2 ⟨by omega, h2⟩) with e | hm
            · simp at e; omega
            · exact hm)
        (fun o' k hm => hk o' k (List.mem_cons_of_mem _ hm))
        (fun e hm => by
          have h1 := he e (List.mem_cons_of_mem _ hm)
          have h2 := hs.1 _ hm
          simp only at h2
          exact ⟨h1.1, by omega, h1.2.2⟩)
        (by
          rw [newOrd_succ]
          cases hr : removed (m + 1) with
          | true => simp [hp]
          | false => simp [newOrd_succ, hr])
      simp only [followsLoop, emptiesOf]
      rw [List.filter_cons_of_neg (by simp)]
      exact hrec

theorem items_spec {n : Nat} {E : List Nat} (hE : Ok n E) :
    (items n E).Pairwise (fun a b => a.1 < b.1) ∧ emptiesOf (items n E) = E := by
  have hmem : ∀ i, i ∈ items n E ↔ (∃ k, (1 ≤ k ∧ k < 1 + n) ∧ (10 * k, some k) = i) ∨ ∃ e ∈ E, (e, none) = i := by
    intro i
    unfold items
    rw [mem_pySort, List.mem_append, List.mem_map, List.mem_map]
    simp only [List.mem_range'_1]
  have hsort : (items n E).Pairwise (fun a b => a.1 ≤ b.1) := by
    have := pySort_pairwise (le := fun a b : Item => decide (a.1 ≤ b.1))
      (by intro a b c h1 h2; simp at *; omega) (by intro a b; simp; omega)
      ((List.range' 1 n).map (fun k => (10 * k, some k)) ++ E.map (fun e => (e, none)))
    exact this.imp (fun h => by simpa using h)
  have hnd : (items n E).Nodup := by
    unfold items
    rw [(pySort_perm _ _).nodup_iff, List.nodup_append]
    refine ⟨?_, ?_, ?_⟩
    · rw [List.Nodup, List.pairwise_map]
      exact List.Pairwise.imp (fun h e => h (by simpa using congrArg Prod.snd e)) (List.nodup_range' (s := 1) (n := n))
    · rw [List.Nodup, List.pairwise_map]
      exact hE.sorted.imp (fun h e => by have := congrArg Prod.fst e; simp at this; omega)
    · intro a ha b hb e
      rw [List.mem_map] at ha hb
      obtain ⟨k, _, rfl⟩ := ha
      obtain ⟨e', _, rfl⟩ := hb
      simp at e
  have hstrict : (items n E).Pairwise (fun a b => a.1 < b.1) := by
    refine (List.pairwise_and_iff.2 ⟨hsort, hnd⟩ |>.imp_of_mem ?_)
    rintro a b ha hb ⟨hle, hne⟩
    rcases (hmem a).1 ha with ⟨k, _, rfl⟩ | ⟨e, he, rfl⟩ <;>
      rcases (hmem b).1 hb with ⟨k', _, rfl⟩ | ⟨e', he', rfl⟩
    · simp only at hle ⊢
      have : k ≠ k' := by rintro rfl; exact hne rfl
      omega
    · have := hE.frac e' he'; simp only at hle ⊢; omega
    · have := hE.frac e he; simp only at hle ⊢; omega
    · simp only at hle ⊢
      have : e ≠ e' := by rintro rfl; exact hne rfl
      omega
  refine ⟨hstrict, ?_⟩
  refine Verif.Tree.sorted_ext (ord := id) ?_ hE.sorted ?_
  · unfold emptiesOf
    rw [List.pairwise_map]
    exact (hstrict.filter _)
  · intro e
    unfold emptiesOf
    rw [List.mem_map]
    constructor
    · rintro ⟨i, hi, rfl⟩
      rw [List.mem_filter] at hi
      rcases (hmem i).1 hi.1 with ⟨k, _, rfl⟩ | ⟨e, he, rfl⟩
      · simp at hi
      · exact he
    · intro he
      exact ⟨(e, none), List.mem_filter.2 ⟨(hmem _).2 (Or.inr ⟨e, he, rfl⟩), rfl⟩, rfl⟩

/-- The renumbering of empty nodes on a list of ords, the target place of each given by `q`. -/
def renumberTo (q : Nat → Nat) : Nat → List Nat → List Nat
  | _, [] => []
  | last, e :: E => bump last (10 * q e + e % 10) :: renumberTo q (bump last (10 * q e + e % 10)) E

theorem subtreeLoop_eq (removed : Nat → Bool) : ∀ (L : List (Nat × Nat)) (last : Nat),
    (∀ x ∈ L, newOrd removed x.2 = newOrd removed (x.1 / 10)) →
    subtreeLoop removed last L = renumberTo (fun e => newOrd removed (e / 10)) last (L.map (·.1)) := by
  intro L
  induction L with
  | nil => intro _ _; rfl
  | cons x L ih =>
    intro last h
    obtain ⟨e, prev⟩ := x
    simp only [subtreeLoop, renumberTo, List.map_cons]
    have := h (e, prev) List.mem_cons_self
    simp only at this
    rw [this, ih _ (fun x hx => h x (List.mem_cons_of_mem _ hx))]

theorem subtreeRemove_eq {n : Nat} {E : List Nat} (hE : Ok n E) (removed : Nat → Bool) :
    subtreeRemove n removed E = renumberTo (fun e => newOrd removed (e / 10)) 0 E := by
  obtain ⟨h1, h2⟩ := items_spec hE
  have hmem : ∀ i, i ∈ items n E ↔ (∃ k, (1 ≤ k ∧ k < 1 + n) ∧ (10 * k, some k) = i) ∨ ∃ e ∈ E, (e, none) = i := by
    intro i
    unfold items
    rw [mem_pySort, List.mem_append, List.mem_map, List.mem_map]
    simp only [List.mem_range'_1]
  obtain ⟨h3, h4⟩ := followsLoop_spec removed n (items n E) 0 0 h1
    (fun k => by
      rw [hmem]
      constructor
      · rintro (⟨k', hk, e⟩ | ⟨e, _, h⟩)
        · simp at e; omega
        · simp at h
      · intro hk; exact Or.inl ⟨k, by omega, rfl⟩)
    (fun o k hm => by
      rcases (hmem _).1 hm with ⟨k', hk, e⟩ | ⟨e, _, h⟩
      · simp at e; omega
      · simp at h)
    (fun e hm => by
      rcases (hmem _).1 hm with ⟨k', hk, h⟩ | ⟨e', he', h⟩
      · simp at h
      · simp at h; subst h
        have := hE.frac e' he'
        exact ⟨this, by omega, hE.bound e' he'⟩)
    rfl
  unfold subtreeRemove
  rw [subtreeLoop_eq removed _ 0 h4, h3, h2]

theorem leafLoop_eq {n o : Nat} (ho : 1 ≤ o) : ∀ (E : List Nat) (last : Nat), Ok n E →
    (∀ e ∈ E, e < 10 * o → last < e) →
    leafLoop o last E = renumberTo (fun e => newOrd (fun j => j == o) (e / 10)) last E := by
  have hlt : ∀ k, k < o → newOrd (fun j => j == o) k = k := by
    intro k
    induction k with
    | zero => intro _; rfl
    | succ k ih =>
      intro hk
      rw [newOrd_succ, ih (by omega)]
      have : (k + 1 == o) = false := by simp; omega
      rw [this]; rfl
  have hge : ∀ k, o ≤ k → newOrd (fun j => j == o) k = k - 1 := by
    intro k
    induction k with
    | zero => intro h; omega
    | succ k ih =>
      intro hk
      rw [newOrd_succ]
      by_cases he : k + 1 = o
      · have : (k + 1 == o) = true := by simpa using he
        rw [this, hlt k (by omega)]; simp
      · have : (k + 1 == o) = false := by simpa using he
        rw [this, ih (by omega)]
        simp; omega
  intro E
  induction E with
  | nil => intro _ _ _; rfl
  | cons e E ih =>
    intro last hE hl
    have hfr := hE.frac e List.mem_cons_self
    have hs := hE.sorted
    rw [List.pairwise_cons] at hs
    have hE' : Ok n E := ⟨hs.2, fun x hx => hE.frac x (List.mem_cons_of_mem _ hx),
      fun x hx => hE.bound x (List.mem_cons_of_mem _ hx)⟩
    have hhead : (if e > 10 * o then (if e - 10 ≤ last then last + 1 else e - 10) else e) =
        bump last (10 * newOrd (fun j => j == o) (e / 10) + e % 10) := by
      unfold bump
      by_cases hgt : e > 10 * o
      · rw [if_pos hgt, hge (e / 10) (by omega)]
        have : 10 * (e / 10 - 1) + e % 10 = e - 10 := by omega
        rw [this]
      · have hlt' : e < 10 * o := by omega
        rw [if_neg hgt, hlt (e / 10) (by omega)]
        have h1 : 10 * (e / 10) + e % 10 = e := by omega
        have h2 := hl e List.mem_cons_self hlt'
        rw [h1, if_neg (by omega)]
    simp only [leafLoop, renumberTo]
    rw [hhead, ih _ hE']
    intro x hx hxo
    have hex := hs.1 x hx
    rw [← hhead, if_neg (by omega)]
    exact hex

/-- There is room for the empty nodes at their new places: for every empty node, its decimal digit plus
the number of later empty nodes with the same new place is at most 9. -/
def Room (q : Nat → Nat) (E : List Nat) : Prop :=
  ∀ e ∈ E, e % 10 + (E.filter (fun e' => e < e' ∧ q e' = q e)).length ≤ 9

theorem renumberTo_sorted (q : Nat → Nat) : ∀ (E : List Nat) (last : Nat),
    (renumberTo q last E).Pairwise (· < ·) ∧ (∀ c ∈ renumberTo q last E, last < c) ∧
    (renumberTo q last E).length = E.length := by
  intro E
  induction E with
  | nil => intro last; simp [renumberTo]
  | cons e E ih =>
    intro last
    have hb : last < bump last (10 * q e + e % 10) := by unfold bump; split <;> omega
    obtain ⟨h1, h2, h3⟩ := ih (bump last (10 * q e + e % 10))
    simp only [renumberTo, List.pairwise_cons, List.mem_cons, List.length_cons]
    refine ⟨⟨h2, h1⟩, ?_, by omega⟩
    rintro c (rfl | hc)
    · exact hb
    · have := h2 c hc; omega

/-- All empty nodes go to the place given by `q`. -/
def Placed (q : Nat → Nat) : List Nat → List Nat → Prop
  | [], [] => True
  | e :: E, c :: C => c / 10 = q e ∧ c % 10 ≠ 0 ∧ Placed q E C
  | _, _ => False

theorem group_le {q : Nat → Nat} {E : List Nat} (hr : Room q E) (hf : ∀ e ∈ E, e % 10 ≠ 0) {S : List Nat}
    (hs : S.Pairwise (· < ·)) (hsub : S.Sublist E) (v : Nat) : (S.filter (fun e => q e = v)).length ≤ 9 := by
  cases hg : S.filter (fun e => q e = v) with
  | nil => simp
  | cons f R =>
    have hfm : f ∈ S.filter (fun e => q e = v) := by rw [hg]; exact List.mem_cons_self
    rw [List.mem_filter] at hfm
    have hfE := hsub.subset hfm.1
    have h1 := hr f hfE
    have h2 := hf f hfE
    have hsg : (f :: R).Pairwise (· < ·) := by rw [← hg]; exact hs.filter _
    rw [List.pairwise_cons] at hsg
    have h3 : R.Sublist (E.filter (fun e' => f < e' ∧ q e' = q f)) := by
      have hRE : R.Sublist E :=
        ((List.sublist_cons_self f R).trans (hg ▸ List.filter_sublist)).trans hsub
      have : R.filter (fun e' => decide (f < e' ∧ q e' = q f)) = R := by
        rw [List.filter_eq_self]
        intro x hx
        have hx2 : x ∈ S.filter (fun e => q e = v) := by rw [hg]; exact List.mem_cons_of_mem _ hx
        rw [List.mem_filter] at hx2
        have e1 : q x = v := by simpa using hx2.2
        have e2 : q f = v := by simpa using hfm.2
        simp [hsg.1 x hx, e1, e2]
      rw [← this]
      exact hRE.filter _
    have := h3.length_le
    simp only [List.length_cons]
    omega

theorem renumberTo_placed {q : Nat → Nat} {E : List Nat} (hr : Room q E) (hf : ∀ e ∈ E, e % 10 ≠ 0)
    (hq : ∀ a b : Nat, a ≤ b → q a ≤ q b) : ∀ (S : List Nat) (last : Nat), S.Pairwise (· < ·) → S.Sublist E →
    (∀ e ∈ S, last + (S.filter (fun e' => q e' = q e)).length ≤ 10 * q e + 9) →
    Placed q S (renumberTo q last S) := by
  intro S
  induction S with
  | nil => intro _ _ _ _; trivial
  | cons e S ih =>
    intro last hs hsub hinv
    have hsub' : S.Sublist E := (List.sublist_cons_self e S).trans hsub
    rw [List.pairwise_cons] at hs
    have heE := hsub.subset (List.mem_cons_self (a := e) (l := S))
    have hroom := hr e heE
    have hfr := hf e heE
    have hhead := hinv e List.mem_cons_self
    rw [List.filter_cons_of_pos (by simp)] at hhead
    simp only [List.length_cons] at hhead
    -- later nodes of the same place
    have hlater : (S.filter (fun e' => q e' = q e)).length ≤
        (E.filter (fun e' => e < e' ∧ q e' = q e)).length := by
      have h1 : S.filter (fun e' => decide (q e' = q e)) =
          S.filter (fun e' => decide (e < e' ∧ q e' = q e)) := by
        apply List.filter_congr
        intro x hx
        have := hs.1 x hx
        simp [this]
      rw [h1]
      exact (hsub'.filter _).length_le
    have hmod : e % 10 < 10 := Nat.mod_lt _ (by omega)
    simp only [renumberTo, Placed]
    have hb : bump last (10 * q e + e % 10) ≤ 10 * q e + 9 ∧
        10 * q e + e % 10 ≤ bump last (10 * q e + e % 10) ∧
        bump last (10 * q e + e % 10) + (S.filter (fun e' => q e' = q e)).length ≤ 10 * q e + 9 := by
      unfold bump
      split <;> omega
    refine ⟨by omega, by omega, ih _ hs.2 hsub' ?_⟩
    intro e' he'
    have hle := hq e e' (Nat.le_of_lt (hs.1 e' he'))
    by_cases heq : q e' = q e
    · rw [heq]; exact hb.2.2
    · have := group_le hr hf hs.2 hsub' (q e')
      omega

theorem renumber_placed {q : Nat → Nat} {n : Nat} {E : List Nat} (hE : Ok n E) (hr : Room q E)
    (hq : ∀ a b : Nat, a ≤ b → q a ≤ q b) : Placed q E (renumberTo q 0 E) := by
  refine renumberTo_placed hr hE.frac hq E 0 hE.sorted (List.Sublist.refl _) ?_
  intro e _
  have := group_le hr hE.frac hE.sorted (List.Sublist.refl _) (q e)
  omega

theorem placed_get {q : Nat → Nat} : ∀ {E C : List Nat}, Placed q E C → ∀ (i e c : Nat), E[i]? = some e →
    C[i]? = some c → c / 10 = q e ∧ c % 10 ≠ 0
  | [], [], _, i, e, c, h, _ => by simp at h
  | x :: E, y :: C, hp, 0, e, c, h1, h2 => by
    simp at h1 h2; subst h1 h2; exact ⟨hp.1, hp.2.1⟩
  | x :: E, y :: C, hp, i + 1, e, c, h1, h2 => by
    simp at h1 h2; exact placed_get hp.2.2 i e c h1 h2

/-- The technical root (0) and the words that stay, in order: the word at place `newOrd k` is the nearest
word not after `k` that stays. -/
theorem kept_at (removed : Nat → Bool) (n : Nat) : ∀ k, k ≤ n → ∃ j,
    (0 :: (List.range' 1 n).filter (fun j => !removed j))[newOrd removed k]? = some j ∧ j ≤ k ∧
      (j = 0 ∨ removed j = false) ∧ ∀ j', j < j' → j' ≤ k → removed j' = true := by
  intro k hk
  induction k with
  | zero => exact ⟨0, by simp [newOrd], Nat.le_refl _, Or.inl rfl, fun j' a b => by omega⟩
  | succ k ih =>
    obtain ⟨j, h1, h2, h3, h4⟩ := ih (by omega)
    cases hr : removed (k + 1) with
    | true =>
      refine ⟨j, by rw [newOrd_succ, hr]; exact h1, by omega, h3, ?_⟩
      intro j' a b
      by_cases he : j' = k + 1
      · rw [he]; exact hr
      · exact h4 j' a (by omega)
    | false =>
      refine ⟨k + 1, ?_, Nat.le_refl _, Or.inr hr, fun j' a b => by omega⟩
      rw [newOrd_succ, hr]
      simp only [Bool.false_eq_true, if_false, List.getElem?_cons_succ]
      have hsplit : List.range' 1 n = List.range' 1 k ++ (k + 1) :: List.range' (k + 2) (n - k - 1) := by
        have h1 : n = k + (n - k) := by omega
        have h2 : n - k = (n - k - 1) + 1 := by omega
        rw [h1, ← List.range'_append_1, h2, List.range'_succ]
        have e1 : k + (n - k - 1 + 1) - k - 1 = n - k - 1 := by omega
        rw [e1, Nat.add_comm 1 k]
      rw [hsplit, List.filter_append, List.filter_cons_of_pos (by simp [hr])]
      rw [List.getElem?_append_right (by exact Nat.le_refl _)]
      simp [newOrd]

/-- What C25 asks for: as many empty nodes as before, with increasing ords that are not whole numbers, and
the `i`-th one follows the nearest preceding word that stays of the words it followed before. -/
def KeptInPlace (n : Nat) (removed : Nat → Bool) (E E' : List Nat) : Prop :=
  E'.length = E.length ∧ E'.Pairwise (· < ·) ∧ (∀ c ∈ E', c % 10 ≠ 0) ∧
  ∀ (i e c : Nat), E[i]? = some e → E'[i]? = some c → ∃ j,
    (0 :: (List.range' 1 n).filter (fun j => !removed j))[c / 10]? = some j ∧ j ≤ e / 10 ∧
      (j = 0 ∨ removed j = false) ∧ ∀ j', j < j' → j' ≤ e / 10 → removed j' = true

theorem keptInPlace {n : Nat} {E : List Nat} (hE : Ok n E) (removed : Nat → Bool)
    (hroom : Room (fun e => newOrd removed (e / 10)) E) :
    KeptInPlace n removed E (renumberTo (fun e => newOrd removed (e / 10)) 0 E) := by
  obtain ⟨h1, _, h3⟩ := renumberTo_sorted (fun e => newOrd removed (e / 10)) E 0
  have hp := renumber_placed hE hroom (fun a b hab => newOrd_mono removed (Nat.div_le_div_right hab))
  refine ⟨h3, h1, ?_, ?_⟩
  · intro c hc
    obtain ⟨i, hi, rfl⟩ := List.mem_iff_getElem.1 hc
    exact (placed_get hp i (E[i]'(by omega)) _ (List.getElem?_eq_getElem _) (List.getElem?_eq_getElem hi)).2
  · intro i e c he hc
    have := (placed_get hp i e c he hc).1
    rw [this]
    exact kept_at removed n (e / 10) (hE.bound e (List.mem_of_getElem? he))

/-- C25 (partial), removing a word and its subtree (`removed`): if there is room, the empty nodes stay in
place. Missing: more empty nodes at one place than the nine ords there, where it is false. -/
theorem C25_remove_subtree_partial {n : Nat} {E : List Nat} (hE : Ok n E) (removed : Nat → Bool)
    (hroom : Room (fun e => newOrd removed (e / 10)) E) :
    KeptInPlace n removed E (subtreeRemove n removed E) := by
  rw [subtreeRemove_eq hE]
  exact keptInPlace hE removed hroom

/-- C25 (partial), removing the single word `o`. -/
theorem C25_remove_word_partial {n o : Nat} {E : List Nat} (hE : Ok n E) (ho : 1 ≤ o)
    (hroom : Room (fun e => newOrd (fun j => j == o) (e / 10)) E) :
    KeptInPlace n (fun j => j == o) E (leafLoop o 0 E) := by
  rw [leafLoop_eq ho E 0 hE (fun e he _ => by have := hE.frac e he; omega)]
  exact keptInPlace hE _ hroom

/-- C25 for every removal, with or without room: the empty nodes keep their relative order and their ords
are pairwise different. -/
theorem C25_remove_order {n o : Nat} {E : List Nat} (hE : Ok n E) (ho : 1 ≤ o) (removed : Nat → Bool) :
    (subtreeRemove n removed E).Pairwise (· < ·) ∧ (leafLoop o 0 E).Pairwise (· < ·) ∧
    (subtreeRemove n removed E).length = E.length ∧ (leafLoop o 0 E).length = E.length := by
  rw [subtreeRemove_eq hE, leafLoop_eq ho E 0 hE (fun e he _ => by have := hE.frac e he; omega)]
  exact ⟨(renumberTo_sorted _ E 0).1, (renumberTo_sorted _ E 0).1, (renumberTo_sorted _ E 0).2.2,
    (renumberTo_sorted _ E 0).2.2⟩

/-- Words 1 2 3 with empty nodes 1.1, 1.2, 2.1 and 3.1; word 2 is removed: 1.1, 1.2, 1.3, 2.1. -/
example : Ok 3 [11, 12, 21, 31] ∧ Room (fun e => newOrd (fun j => j == 2) (e / 10)) [11, 12, 21, 31] ∧
    leafLoop 2 0 [11, 12, 21, 31] = [11, 12, 13, 21] ∧
    subtreeRemove 3 (fun j => j == 2) [11, 12, 21, 31] = [11, 12, 13, 21] := by
  refine ⟨⟨by decide, by decide, by decide⟩, ?_, by decide, by decide⟩
  unfold Room
  decide

/-- C25 is violated by removals without room: with five empty nodes after word 1 and five after word 2,
removing word 2 gives an empty node the ord 2.0, which is the ord of the next word. -/
theorem C25_remove_overflow_violated :
    Ok 3 [11, 12, 13, 14, 15, 21, 22, 23, 24, 25] ∧
    leafLoop 2 0 [11, 12, 13, 14, 15, 21, 22, 23, 24, 25] = [11, 12, 13, 14, 15, 16, 17, 18, 19, 20] ∧
    ¬ KeptInPlace 3 (fun j => j == 2) [11, 12, 13, 14, 15, 21, 22, 23, 24, 25]
      (leafLoop 2 0 [11, 12, 13, 14, 15, 21, 22, 23, 24, 25]) := by
  refine ⟨⟨by decide, by decide, by decide⟩, by decide, ?_⟩
  rintro ⟨_, _, h, _⟩
  exact h 20 (by decide) (by decide)

/-! ## C25: shifts -/

/-- What C25 asks for after a shift of the words `S` before place `ref`: the ords increase, and the `i`-th
empty node follows the same word as before. -/
def FollowsSame (n : Nat) (S : List Nat) (ref : Nat) (E E' : List Nat) : Prop :=
  E'.length = E.length ∧ E'.Pairwise (· < ·) ∧
  ∀ (i e c : Nat), E[i]? = some e → E'[i]? = some c →
    (0 :: Verif.Tree.moved (List.range' 1 n) S ref)[c / 10]? = (0 :: List.range' 1 n)[e / 10]?

theorem get_range (a m i : Nat) : (List.range' a m)[i]? = if i < m then some (a + i) else none := by
  split
  · rename_i h; rw [List.getElem?_range' h]; simp
  · rename_i h; rw [List.getElem?_eq_none]; simp; omega

theorem take_range (a m k : Nat) (h : k ≤ m) : (List.range' a m).take k = List.range' a k := by
  apply List.ext_getElem?
  intro i
  rw [List.getElem?_take, get_range, get_range]
  split
  · rw [if_pos (by omega)]
  · rfl

theorem drop_range (a m k : Nat) : (List.range' a m).drop k = List.range' (a + k) (m - k) := by
  apply List.ext_getElem?
  intro i
  rw [List.getElem?_drop, get_range, get_range]
  by_cases h : k + i < m
  · rw [if_pos h, if_pos (by omega)]; congr 1; omega
  · rw [if_neg h, if_neg (by omega)]

theorem filter_ne_range (a m my : Nat) :
    (List.range' a m).filter (fun y => y ∉ [my]) =
      if a ≤ my ∧ my < a + m then List.range' a (my - a) ++ List.range' (my + 1) (a + m - my - 1)
      else List.range' a m := by
  split
  · rename_i h
    refine Verif.Tree.sorted_ext (ord := id) (List.Pairwise.filter _ List.pairwise_lt_range') ?_ ?_
    · rw [List.pairwise_append]
      refine ⟨List.pairwise_lt_range', List.pairwise_lt_range', ?_⟩
      intro x hx y hy
      rw [List.mem_range'_1] at hx hy
      simp only [id]; omega
    · intro x
      simp only [List.mem_filter, List.mem_append, List.mem_range'_1, List.mem_singleton, decide_eq_true_eq]
      omega
  · rename_i h
    rw [List.filter_eq_self]
    intro x hx
    rw [List.mem_range'_1] at hx
    simp only [List.mem_singleton, decide_eq_true_eq]
    omega

theorem moved_range {n my ref : Nat} (h1 : 1 ≤ my) (h2 : my ≤ n) (h3 : 1 ≤ ref) (h4 : ref ≤ n + 1) :
    Verif.Tree.moved (List.range' 1 n) [my] ref =
      if my < ref then
        List.range' 1 (my - 1) ++ List.range' (my + 1) (ref - 1 - my) ++ [my] ++ List.range' ref (n + 1 - ref)
      else List.range' 1 (ref - 1) ++ [my] ++ List.range' ref (my - ref) ++ List.range' (my + 1) (n - my) := by
  unfold Verif.Tree.moved
  have ht : (List.range' 1 n).take (ref - 1) = List.range' 1 (ref - 1) := by
    exact take_range _ _ _ (by omega)
  have hd : (List.range' 1 n).drop (ref - 1) = List.range' ref (n + 1 - ref) := by
    rw [drop_range]; congr 1 <;> omega
  rw [ht, hd, filter_ne_range, filter_ne_range]
  by_cases h : my < ref
  · rw [if_pos (by omega), if_neg (by omega), if_pos h]
    congr 4
    omega
  · rw [if_neg (by omega), if_pos (by omega), if_neg h]
    simp only [List.append_assoc]
    congr 4
    omega

/-- The word at place `p` after shifting the word `my` before place `ref`. -/
def wordAt (my ref p : Nat) : Nat :=
  if my < ref then
    if p < my then p else if p < ref - 1 then p + 1 else if p = ref - 1 then my else p
  else if p < ref then p else if p = ref then my else if p ≤ my then p - 1 else p

theorem moved_get {n my ref p : Nat} (h1 : 1 ≤ my) (h2 : my ≤ n) (h3 : 1 ≤ ref) (h4 : ref ≤ n + 1) (hp : p ≤ n) :
    (0 :: Verif.Tree.moved (List.range' 1 n) [my] ref)[p]? = some (if p = 0 then 0 else wordAt my ref p) := by
  rw [moved_range h1 h2 h3 h4]
  cases p with
  | zero => rfl
  | succ p =>
    rw [List.getElem?_cons_succ, if_neg (show ¬ p + 1 = 0 by omega)]
    unfold wordAt
    by_cases hlt : my < ref
    · simp only [hlt, if_true, List.getElem?_append, List.length_append, List.length_range',
        List.length_singleton, get_range, List.getElem?_singleton]
      grind
    · simp only [hlt, if_false, List.getElem?_append, List.length_append, List.length_range',
        List.length_singleton, get_range, List.getElem?_singleton]
      grind

theorem range_get {n p : Nat} (hp : p ≤ n) : (0 :: List.range' 1 n)[p]? = some p := by
  cases p with
  | zero => rfl
  | succ p => rw [List.getElem?_cons_succ, get_range, if_pos (by omega), Nat.add_comm]

/-- The new ord of an empty node in `shiftEmpties`. -/
def shiftOne (my ref e : Nat) : Nat :=
  if ref > my + 1 then (if e > 10 * my ∧ e < 10 * ref then e - 10 else e)
  else if ref < my then (if e < 10 * my ∧ e > 10 * ref then e + 10 else e)
  else e

theorem shiftEmpties_eq (my ref : Nat) (E : List Nat) : shiftEmpties my ref E = E.map (shiftOne my ref) := by
  unfold shiftEmpties shiftOne
  split
  · rfl
  · split
    · rfl
    · simp

/-- C25, shifting a single word `my` before place `ref`, where it is not already: the empty nodes stay
in place exactly if none of them follows the moved word. So the property fails whenever the moved word is
followed by an empty node. -/
theorem C25_shift_word_partial {n my ref : Nat} {E : List Nat} (hE : Ok n E) (h1 : 1 ≤ my) (h2 : my ≤ n)
    (h3 : 1 ≤ ref) (h4 : ref ≤ n + 1) (hmove : ref < my ∨ my + 1 < ref) :
    FollowsSame n [my] ref E (shiftEmpties my ref E) ↔ ∀ e ∈ E, e / 10 ≠ my := by
  rw [shiftEmpties_eq]
  constructor
  · rintro ⟨_, _, h⟩ e he hem
    obtain ⟨i, hi, hie⟩ := List.mem_iff_getElem.1 he
    have hfr := hE.frac e he
    have h5 := h i e (shiftOne my ref e) (by rw [List.getElem?_eq_getElem hi, hie])
      (by rw [List.getElem?_map, List.getElem?_eq_getElem hi, hie]; rfl)
    have hb : shiftOne my ref e / 10 ≤ n := by unfold shiftOne; grind
    rw [moved_get h1 h2 h3 h4 hb, range_get (hE.bound e he)] at h5
    have h6 := Option.some.inj h5
    unfold shiftOne wordAt at h6
    grind
  · intro hno
    refine ⟨by simp, ?_, ?_⟩
    · rw [List.pairwise_map]
      refine hE.sorted.imp_of_mem ?_
      intro a b ha hb hab
      have := hno a ha; have := hno b hb; have := hE.frac a ha; have := hE.frac b hb
      unfold shiftOne
      grind
    · intro i e c hi hc
      rw [List.getElem?_map, hi] at hc
      have hc' := Option.some.inj hc
      have he := List.mem_of_getElem? hi
      have := hno e he; have := hE.frac e he; have hbe := hE.bound e he
      have hb : c / 10 ≤ n := by rw [← hc']; unfold shiftOne; grind
      rw [moved_get h1 h2 h3 h4 hb, range_get hbe]
      congr 1
      rw [← hc']
      unfold shiftOne wordAt
      grind

/-- Words 1 2 3 4; word 2 moves to the end; the empty nodes 1.1, 3.1 and 4.1 stay with their words. -/
example : Ok 4 [11, 31, 41] ∧ shiftEmpties 2 5 [11, 31, 41] = [11, 21, 31] ∧
    Verif.Tree.moved (List.range' 1 4) [2] 5 = [1, 3, 4, 2] :=
  ⟨⟨by decide, by decide, by decide⟩, by decide, by decide⟩

/-- C25 is violated by shifts: word 1 with the empty node 1.1 moves after word 2; the empty node 1.1 gets
the ord 0.1, which another empty node has. -/
theorem C25_shift_word_violated :
    Ok 2 [1, 11] ∧ shiftEmpties 1 3 [1, 11] = [1, 1] ∧ ¬ FollowsSame 2 [1] 3 [1, 11] (shiftEmpties 1 3 [1, 11]) := by
  refine ⟨⟨by decide, by decide, by decide⟩, by decide, ?_⟩
  rintro ⟨_, h, _⟩
  exact absurd h (by decide)

/-- C25 is violated by shifts of subtrees, which leave the ords of empty nodes as they are: words 1 and 2
move after word 3, and the empty node 3.1 ends up after word 2. -/
theorem C25_shift_subtree_violated : Ok 3 [31] ∧ ¬ FollowsSame 3 [1, 2] 4 [31] [31] := by
  refine ⟨⟨by decide, by decide, by decide⟩, ?_⟩
  rintro ⟨_, _, h⟩
  exact absurd (h 0 31 31 rfl rfl) (by decide)

/-! ## C59: removing an empty node -/

/-- C59 (partial): removing the empty node `x` renumbers the rest so that each stays after the same word
and the order stays the same, if the empty nodes after the next word do not have a smaller decimal digit than
`x`. Missing: the other case, where it is false. -/
theorem C59_remove_empty_partial {n x : Nat} {E : List Nat} (hE : Ok n E) (hx : x ∈ E)
    (hnext : ∀ e ∈ E, e / 10 = x / 10 + 1 → x % 10 ≤ e % 10) :
    Ok n (removeEmpty x E) ∧ (removeEmpty x E).length + 1 = E.length ∧
    (removeEmpty x E).map (· / 10) = (E.filter (fun e => e ≠ x)).map (· / 10) := by
  have hnd : E.Nodup := hE.sorted.imp (fun h => by omega)
  have hfx := hE.frac x hx
  have hm : ∀ e, e ∈ E.filter (fun e => decide (e ≠ x)) → e ∈ E ∧ e ≠ x := by
    intro e he; rw [List.mem_filter] at he; exact ⟨he.1, by simpa using he.2⟩
  unfold removeEmpty
  refine ⟨⟨?_, ?_, ?_⟩, ?_, ?_⟩
  · rw [List.pairwise_map]
    refine (hE.sorted.filter _).imp_of_mem ?_
    intro a b ha hb hab
    have := hm a ha; have := hm b hb
    grind
  · intro c hc
    obtain ⟨e, he, rfl⟩ := List.mem_map.1 hc
    obtain ⟨h1, h2⟩ := hm e he
    have := hnext e h1; have := hE.frac e h1
    split <;> omega
  · intro c hc
    obtain ⟨e, he, rfl⟩ := List.mem_map.1 hc
    have := hE.bound e (hm e he).1
    split <;> omega
  · rw [List.length_map, show E.filter (fun e => decide (e ≠ x)) = E.erase x from ?_, List.length_erase_of_mem hx]
    · have : 0 < E.length := List.length_pos_of_mem hx
      omega
    · rw [hnd.erase_eq_filter]
      apply List.filter_congr
      intro a _
      by_cases h : a = x <;> simp [h]
  · rw [List.map_map]
    apply List.map_congr_left
    intro e he
    obtain ⟨h1, h2⟩ := hm e he
    have := hnext e h1; have := hE.frac e h1
    simp only [Function.comp]
    split <;> omega

example : Ok 3 [11, 12, 13, 22, 31] ∧ removeEmpty 12 [11, 12, 13, 22, 31] = [11, 12, 22, 31] :=
  ⟨⟨by decide, by decide, by decide⟩, by decide⟩

/-- C59 is violated: with empty nodes 1.1, 1.2 and 2.1, removing 1.2 gives 2.1 the ord 2.0, which is the
ord of word 2. -/
theorem C59_remove_empty_violated : Ok 2 [11, 12, 21] ∧ removeEmpty 12 [11, 12, 21] = [11, 20] :=
  ⟨⟨by decide, by decide, by decide⟩, by decide⟩

/-! ## C27 -/

/-- The enhanced dependencies without those from `x`: what C27 asks for. -/
def withoutParent (x : Nat) (l : List (Nat × List Char)) : List (Nat × List Char) := l.filter (fun d => d.1 ≠ x)

/-- C27 is violated for every node whose enhanced dependencies were read or assigned and are not empty:
after any empty node is removed they are not the list without its edges. -/
theorem C27_deps_lost_violated (x : Nat) (l : List (Nat × List Char)) (h : l ≠ []) :
    cleanDeps (some (.list l)) = some .keyNames ∧ cleanDeps (some (.list l)) ≠ some (.list (withoutParent x l)) := by
  cases l with
  | nil => exact absurd rfl h
  | cons d l => simp [cleanDeps]

/-- C27 (partial): nodes with no enhanced dependencies keep none, and those that were not parsed stay
unparsed. Missing: everything else, where it is false. -/
theorem C27_no_deps_partial (x : Nat) :
    cleanDeps (some (.list [])) = some (.list (withoutParent x [])) ∧ cleanDeps none = none := by
  simp [cleanDeps, withoutParent]

example : cleanDeps (some (.list [(3, ['o', 'b', 'j'])])) = some .keyNames := by decide

end Verif.Empty
