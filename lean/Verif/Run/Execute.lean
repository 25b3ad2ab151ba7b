/-!
# Running a scenario (udapi/core/run.py:171-208 and udapi/core/block.py:71-79)
-/

namespace Verif.Run

/-- The blocks of the scenario by position, and the reader that is added if there is no reader. -/
inductive BlockId
  | user (i : Nat)
  | default
  deriving DecidableEq

/-- The calls of a block's methods; documents are numbered by rounds. -/
inductive Call
  | start (b : BlockId)
  | before (doc : Nat) (b : BlockId)
  | process (doc : Nat) (b : BlockId)
  | after (doc : Nat) (b : BlockId)
  | finish (b : BlockId)
  deriving DecidableEq

/-- `apply_on_document` (block.py:76-79). -/
def applyOn (doc : Nat) (b : BlockId) : List Call := [.before doc b, .process doc b, .after doc b]

/-- The `while not finished` loop (run.py:190-201). `answers r b` is `b.finished` at the end of round `r`; `none` means
that the loop takes more than the given number of rounds. -/
def rounds (answers : Nat → BlockId → Bool) (blocks readers : List BlockId) : Nat → Nat → Option (List Call)
  | 0, _ => none
  | fuel + 1, r =>
    let calls := blocks.flatMap (applyOn r)
    if readers.foldl (fun f b => f && answers r b) true then some calls
    else
      match rounds answers blocks readers fuel (r + 1) with
      | some rest => some (calls ++ rest)
      | none => none

/-- `run_blocks` (run.py:171-208) for `n` blocks; a block is a reader if it has the attribute `finished`.
Simplified: no call raises an exception; the set of readers is fixed. -/
def runBlocks (n : Nat) (isReader : Nat → Bool) (answers : Nat → BlockId → Bool) (fuel : Nat) : Option (List Call) :=
  let blocks := (List.range n).map BlockId.user
  let starts := blocks.map Call.start
  let readers := ((List.range n).filter isReader).map BlockId.user
  let (blocks, readers) := if readers.isEmpty then (.default :: blocks, [.default]) else (blocks, readers)
  match rounds answers blocks readers fuel 0 with
  | some calls => some (starts ++ calls ++ blocks.map Call.finish)
  | none => none

theorem foldl_and (l : List BlockId) (g : BlockId → Bool) (b : Bool) :
    l.foldl (fun f x => f && g x) b = (b && l.all g) := by
  induction l generalizing b with
  | nil => simp
  | cons x l ih => simp [ih, Bool.and_assoc]

theorem rounds_spec (answers : Nat → BlockId → Bool) (blocks readers : List BlockId) (last : Nat)
    (hl : ∀ b ∈ readers, answers last b = true) (hn : ∀ r, r < last → ∃ b ∈ readers, answers r b = false) :
    ∀ (k r : Nat), r + k = last → ∀ fuel, k < fuel →
      rounds answers blocks readers fuel r =
        some ((List.range' r (k + 1)).flatMap (fun d => blocks.flatMap (applyOn d))) := by
  intro k
  induction k with
  | zero =>
    intro r hr fuel hf
    obtain ⟨fuel, rfl⟩ : ∃ f, fuel = f + 1 := ⟨fuel - 1, by omega⟩
    have : r = last := by omega
    subst this
    unfold rounds
    simp only
    rw [foldl_and, if_pos (by simpa using hl)]
    simp [List.range'_succ]
  | succ k ih =>
    intro r hr fuel hf
    obtain ⟨fuel, rfl⟩ : ∃ f, fuel = f + 1 := ⟨fuel - 1, by omega⟩
    obtain ⟨b, hb, hb'⟩ := hn r (by omega)
    unfold rounds
    simp only
    rw [foldl_and, if_neg (by simp; exact ⟨b, hb, hb'⟩), ih (r + 1) (by omega) fuel (by omega)]
    rw [List.range'_succ (n := k + 1), List.flatMap_cons]

theorem rounds_endless (answers : Nat → BlockId → Bool) (blocks readers : List BlockId)
    (hn : ∀ r, ∃ b ∈ readers, answers r b = false) : ∀ fuel r, rounds answers blocks readers fuel r = none := by
  intro fuel
  induction fuel with
  | zero => intro r; rfl
  | succ fuel ih =>
    intro r
    obtain ⟨b, hb, hb'⟩ := hn r
    unfold rounds
    simp only
    rw [foldl_and, if_neg (by simp; exact ⟨b, hb, hb'⟩), ih]

theorem readers_ne {n : Nat} {isReader : Nat → Bool} (h : ∃ i, i < n ∧ isReader i = true) :
    (((List.range n).filter isReader).map BlockId.user).isEmpty = false := by
  obtain ⟨i, hi, hr⟩ := h
  rw [Bool.eq_false_iff]
  intro he
  have : i ∈ (List.range n).filter isReader := List.mem_filter.2 ⟨List.mem_range.2 hi, hr⟩
  rw [List.isEmpty_iff, List.map_eq_nil_iff] at he
  rw [he] at this
  cases this

/-- C43 (scenarios with a reader): let `last` be the first round after which all readers say that they have finished.
Then every block is started once, in order, before anything else; then each of the documents `0 .. last` passes through
all blocks in order; and in the end every block is finished once, in order. -/
theorem C43_order_partial (n : Nat) (isReader : Nat → Bool) (answers : Nat → BlockId → Bool) (last : Nat)
    (h : ∃ i, i < n ∧ isReader i = true)
    (hl : ∀ i, i < n → isReader i = true → answers last (.user i) = true)
    (hn : ∀ r, r < last → ∃ i, i < n ∧ isReader i = true ∧ answers r (.user i) = false) (fuel : Nat) (hf : last < fuel) :
    runBlocks n isReader answers fuel = some (
      (List.range n).map (fun i => Call.start (.user i)) ++
      (List.range (last + 1)).flatMap (fun d => (List.range n).flatMap (fun i =>
        [Call.before d (.user i), Call.process d (.user i), Call.after d (.user i)])) ++
      (List.range n).map (fun i => Call.finish (.user i))) := by
  unfold runBlocks
  simp only [readers_ne h]
  rw [if_neg (by simp)]
  simp only
  rw [rounds_spec answers _ _ last (by
      intro b hb
      obtain ⟨i, hi, rfl⟩ := List.mem_map.1 hb
      have := List.mem_filter.1 hi
      exact hl i (List.mem_range.1 this.1) this.2) (by
      intro r hr
      obtain ⟨i, h1, h2, h3⟩ := hn r hr
      exact ⟨_, List.mem_map.2 ⟨i, List.mem_filter.2 ⟨List.mem_range.2 h1, h2⟩, rfl⟩, h3⟩) last 0 (by omega) fuel hf]
  simp only [List.map_map, List.range_eq_range']
  congr 3
  · congr 1
    funext d
    rw [List.flatMap_map]
    rfl

/-- C43: the scenario never ends if and only if after each round some reader has not finished. -/
theorem C43_endless (n : Nat) (isReader : Nat → Bool) (answers : Nat → BlockId → Bool)
    (h : ∃ i, i < n ∧ isReader i = true) :
    (∀ fuel, runBlocks n isReader answers fuel = none) ↔
      ∀ r, ∃ i, i < n ∧ isReader i = true ∧ answers r (.user i) = false := by
  constructor
  · intro hn r
    apply Classical.byContradiction
    intro hc
    -- the first round after which all readers have finished
    have hall : ∃ m, m ≤ r ∧ (∀ i, i < n → isReader i = true → answers m (.user i) = true) ∧
        ∀ k, k < m → ∃ i, i < n ∧ isReader i = true ∧ answers k (.user i) = false := by
      have h0 : ∀ i, i < n → isReader i = true → answers r (.user i) = true := by
        intro i h1 h2
        cases h3 : answers r (.user i) with
        | true => rfl
        | false => exact absurd ⟨i, h1, h2, h3⟩ hc
      clear hc
      induction r using Nat.strongRecOn with
      | ind r ih =>
        by_cases hk : ∀ k, k < r → ∃ i, i < n ∧ isReader i = true ∧ answers k (.user i) = false
        · exact ⟨r, Nat.le_refl _, h0, hk⟩
        · obtain ⟨k, hk⟩ := Classical.not_forall.1 hk
          obtain ⟨hkr, hk⟩ := Classical.not_imp.1 hk
          obtain ⟨m, h1, h2⟩ := ih k hkr (by
            intro i h1 h2
            cases h3 : answers k (.user i) with
            | true => rfl
            | false => exact absurd ⟨i, h1, h2, h3⟩ hk)
          exact ⟨m, by omega, h2⟩
    obtain ⟨m, _, h1, h2⟩ := hall
    have := hn (m + 1)
    rw [C43_order_partial n isReader answers m h h1 h2 (m + 1) (by omega)] at this
    cases this
  · intro hr fuel
    unfold runBlocks
    simp only [readers_ne h]
    rw [if_neg (by simp)]
    simp only
    rw [rounds_endless answers _ _ (by
      intro r
      obtain ⟨i, h1, h2, h3⟩ := hr r
      exact ⟨_, List.mem_map.2 ⟨i, List.mem_filter.2 ⟨List.mem_range.2 h1, h2⟩, rfl⟩, h3⟩)]

/-- C43 is violated for every scenario without a reader: the reader that is added by itself processes documents and is
finished, but never started. -/
theorem C43_default_reader_violated (n : Nat) (isReader : Nat → Bool) (answers : Nat → BlockId → Bool) (fuel : Nat)
    (h : ∀ i, i < n → isReader i = false) (calls : List Call) (hc : runBlocks n isReader answers fuel = some calls) :
    Call.process 0 .default ∈ calls ∧ Call.finish .default ∈ calls ∧ Call.start .default ∉ calls := by
  have he : ((List.range n).filter isReader).map BlockId.user = [] := by
    rw [List.map_eq_nil_iff, List.filter_eq_nil_iff]
    intro i hi
    rw [h i (List.mem_range.1 hi)]
    simp
  unfold runBlocks at hc
  simp only [he] at hc
  rw [if_pos (by rfl)] at hc
  simp only at hc
  cases hr : rounds answers (.default :: (List.range n).map BlockId.user) [.default] fuel 0 with
  | none => rw [hr] at hc; cases hc
  | some l =>
    rw [hr] at hc
    have hc := Option.some.inj hc
    subst hc
    have key : ∀ (fuel r : Nat) (l : List Call),
        rounds answers (.default :: (List.range n).map BlockId.user) [.default] fuel r = some l →
        Call.process r .default ∈ l ∧ Call.start .default ∉ l := by
      intro fuel
      induction fuel with
      | zero => intro r l h; cases h
      | succ fuel ih =>
        intro r l h
        have hno : Call.start .default ∉ (BlockId.default :: (List.range n).map BlockId.user).flatMap (applyOn r) := by
          intro hm
          obtain ⟨b, _, hb⟩ := List.mem_flatMap.1 hm
          simp [applyOn] at hb
        have hyes : Call.process r .default ∈ (BlockId.default :: (List.range n).map BlockId.user).flatMap (applyOn r) :=
          List.mem_flatMap.2 ⟨_, List.mem_cons_self .., by simp [applyOn]⟩
        unfold rounds at h
        simp only at h
        split at h
        · have h := Option.some.inj h
          subst h
          exact ⟨hyes, hno⟩
        · cases hr : rounds answers (.default :: (List.range n).map BlockId.user) [.default] fuel (r + 1) with
          | none => rw [hr] at h; cases h
          | some l' =>
            rw [hr] at h
            have h := Option.some.inj h
            subst h
            refine ⟨List.mem_append_left _ hyes, ?_⟩
            intro hm
            rcases List.mem_append.1 hm with hm | hm
            · exact hno hm
            · exact (ih _ _ hr).2 hm
    obtain ⟨k1, k2⟩ := key fuel 0 l hr
    refine ⟨by simp [k1], by simp, ?_⟩
    intro hm
    simp at hm
    exact k2 hm

/-- A reader with two documents and a writer. -/
example : runBlocks 2 (fun i => i == 0) (fun r _ => r == 1) 5 = some [.start (.user 0), .start (.user 1),
    .before 0 (.user 0), .process 0 (.user 0), .after 0 (.user 0), .before 0 (.user 1), .process 0 (.user 1), .after 0 (.user 1),
    .before 1 (.user 0), .process 1 (.user 0), .after 1 (.user 0), .before 1 (.user 1), .process 1 (.user 1), .after 1 (.user 1),
    .finish (.user 0), .finish (.user 1)] := by decide

/-- A writer only. -/
example : runBlocks 1 (fun _ => false) (fun _ _ => true) 1 = some [.start (.user 0),
    .before 0 .default, .process 0 .default, .after 0 .default, .before 0 (.user 0), .process 0 (.user 0), .after 0 (.user 0),
    .finish .default, .finish (.user 0)] := by decide

end Verif.Run
