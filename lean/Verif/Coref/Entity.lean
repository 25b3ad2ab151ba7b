import Verif.Py.Str
import Verif.Py.Num

/-!
# Ids of coreference entities (udapi/core/document.py:158-169, udapi/core/coref.py:296-337)
-/

namespace Verif.Coref
open Verif.Py

/-- `document._eid_to_entity`: the keys and the `eid` of the entities, in insertion order. An entity is named by its
position. -/
abbrev Entities := List (Str × Str)

inductive EErr
  | valueError
  deriving DecidableEq

/-- `any(x in new_eid for x in CHARS_FORBIDDEN_IN_ID)` (coref.py:296 and 335) -/
def forbidden (eid : Str) : Bool := eid.any (fun c => ['-', '=', '|', ' ', '\t', '(', ')'].contains c)

/-- `f'e{counter}'` -/
def autoId (k : Nat) : Str := 'e' :: natStr k

/-- The search loop (document.py:161-163); `none`: more than `fuel` rounds. -/
def search (d : Entities) : Nat → Nat → Option Str
  | 0, _ => none
  | fuel + 1, counter =>
    if autoId counter ∈ d.map (·.1) then search d fuel (counter + 1) else some (autoId counter)

/-- `document.create_coref_entity(eid)` (document.py:158-169): the new dict. The dict has at most `d.length` of the ids
tried, so that `d.length + 1` rounds are enough; `C35_fresh` shows that the loop ends. -/
def create (d : Entities) (eid : Option Str) : Option (Except EErr Entities) :=
  let name := match eid with
    | none => search d (d.length + 1) 1
    | some [] => search d (d.length + 1) 1
    | some e => some e
  match name with
  | none => none
  | some e =>
    if eid ≠ none ∧ eid ≠ some [] ∧ e ∈ d.map (·.1) then some (.error .valueError)
    else if forbidden e then some (.error .valueError)
    else some (.ok (d ++ [(e, e)]))

/-- `entity.eid = new_eid` (coref.py:333-337) for the entity at position `i`. -/
def rename (d : Entities) (i : Nat) (new : Str) : Except EErr Entities :=
  if forbidden new then .error .valueError
  else .ok (d.mapIdx (fun j p => if j = i then (p.1, new) else p))

/-! ## Proofs -/

theorem length_le_of_subset {α : Type} [DecidableEq α] : ∀ {l m : List α}, l.Nodup → (∀ x ∈ l, x ∈ m) → l.length ≤ m.length := by
  intro l
  induction l with
  | nil => intro m _ _; simp
  | cons a l ih =>
    intro m hn hs
    have ha : a ∈ m := hs a (List.mem_cons_self ..)
    rw [List.nodup_cons] at hn
    have h := ih (m := m.erase a) hn.2 (fun x hx => by
      have hne : x ≠ a := fun e => hn.1 (e ▸ hx)
      exact (List.mem_erase_of_ne hne).2 (hs x (List.mem_cons_of_mem _ hx)))
    rw [List.length_erase_of_mem ha] at h
    have hpos : 0 < m.length := List.length_pos_of_mem ha
    simp only [List.length_cons]
    omega

theorem autoId_inj {j k : Nat} (h : autoId j = autoId k) : j = k := by
  unfold autoId at h
  exact natStr_inj (List.cons.inj h).2

/-- The search ends with the first free id. -/
theorem search_spec (d : Entities) : ∀ (fuel k : Nat), (∀ j, 1 ≤ j → j < k → autoId j ∈ d.map (·.1)) →
    1 ≤ k → d.length + 1 < k + fuel → ∃ n, k ≤ n ∧ search d fuel k = some (autoId n) ∧ autoId n ∉ d.map (·.1) ∧
      ∀ j, 1 ≤ j → j < n → autoId j ∈ d.map (·.1) := by
  intro fuel
  induction fuel with
  | zero =>
    intro k h hk hf
    have h1 : ((List.range' 1 (k - 1)).map autoId).length ≤ (d.map (·.1)).length := by
      apply length_le_of_subset
      · rw [List.nodup_iff_pairwise_ne, List.pairwise_map]
        refine List.Pairwise.imp ?_ (List.nodup_range' (s := 1) (n := k - 1))
        intro a b hab e
        exact hab (autoId_inj e)
      · intro x hx
        obtain ⟨j, hj, rfl⟩ := List.mem_map.1 hx
        rw [List.mem_range'_1] at hj
        exact h j hj.1 (by omega)
    simp at h1
    omega
  | succ fuel ih =>
    intro k h hk hf
    unfold search
    by_cases hm : autoId k ∈ d.map (·.1)
    · rw [if_pos hm]
      obtain ⟨n, h1, h2⟩ := ih (k + 1) (fun j h1 h2 => by
        by_cases e : j = k
        · rw [e]; exact hm
        · exact h j h1 (by omega)) (by omega) (by omega)
      exact ⟨n, by omega, h2⟩
    · rw [if_neg hm]
      exact ⟨k, Nat.le_refl _, rfl, hm, h⟩

theorem autoId_allowed (k : Nat) : forbidden (autoId k) = false := by
  unfold forbidden autoId
  rw [List.any_eq_false]
  intro c hc
  rcases List.mem_cons.1 hc with rfl | hc
  · decide
  · have := natStr_digits k c hc
    intro h
    simp only [List.contains_eq_mem, List.mem_cons, List.not_mem_nil, or_false, decide_eq_true_eq] at h
    rcases h with rfl | rfl | rfl | rfl | rfl | rfl | rfl <;> revert this <;> decide

/-- C35: creating an entity without giving an id always succeeds, for every document, and the key of the new entity is
`e1`, `e2`, ..., whichever is the first that is not among the keys. -/
theorem C35_fresh (d : Entities) (eid : Option Str) (he : eid = none ∨ eid = some []) :
    ∃ n, 1 ≤ n ∧ create d eid = some (.ok (d ++ [('e' :: natStr n, 'e' :: natStr n)])) ∧
      ('e' :: natStr n) ∉ d.map (·.1) ∧ ∀ j, 1 ≤ j → j < n → ('e' :: natStr j) ∈ d.map (·.1) := by
  obtain ⟨n, h1, h2, h3, h4⟩ := search_spec d (d.length + 1) 1 (fun j a b => by omega) (Nat.le_refl _) (by omega)
  refine ⟨n, h1, ?_, h3, h4⟩
  unfold create
  rcases he with rfl | rfl
  · simp [h2, autoId_allowed]; rfl
  · simp [h2, autoId_allowed]; rfl

example : search [(['e', '1'], ['e', '1']), (['e', '3'], ['e', '3'])] 3 1 = some ['e', '2'] := by
  decide +kernel

/-- C35: an id that is given is refused exactly if it is a key already or contains a forbidden character. -/
theorem C35_given (d : Entities) (e : Str) (hne : e ≠ []) :
    (create d (some e) = some (.ok (d ++ [(e, e)])) ∧ e ∉ d.map (·.1) ∧
      ∀ c ∈ e, c ∉ ['-', '=', '|', ' ', '\t', '(', ')']) ∨
    (create d (some e) = some (.error .valueError) ∧
      (e ∈ d.map (·.1) ∨ ∃ c ∈ e, c ∈ ['-', '=', '|', ' ', '\t', '(', ')'])) := by
  have hname : (match some e with
    | none => search d (d.length + 1) 1
    | some [] => search d (d.length + 1) 1
    | some e => some e) = some e := by
    cases e with
    | nil => exact absurd rfl hne
    | cons c cs => rfl
  unfold create
  rw [hname]
  simp only
  by_cases hm : e ∈ d.map (·.1)
  · rw [if_pos ⟨by simp, by simpa using hne, hm⟩]
    exact Or.inr ⟨rfl, Or.inl hm⟩
  · rw [if_neg (fun h => hm h.2.2)]
    by_cases hf : forbidden e = true
    · rw [if_pos hf]
      refine Or.inr ⟨rfl, Or.inr ?_⟩
      unfold forbidden at hf
      obtain ⟨c, h1, h2⟩ := List.any_eq_true.1 hf
      exact ⟨c, h1, by simpa using h2⟩
    · rw [if_neg hf]
      refine Or.inl ⟨rfl, hm, ?_⟩
      intro c hc hin
      apply hf
      unfold forbidden
      exact List.any_eq_true.2 ⟨c, hc, by simpa using hin⟩

/-- The operations on a document. -/
inductive EOp
  | create (eid : Option Str)
  | rename (i : Nat) (new : Str)

/-- A failed operation changes nothing. -/
def EOp.run (d : Entities) : EOp → Entities
  | .create eid => match Coref.create d eid with
    | some (.ok d') => d'
    | _ => d
  | .rename i new => match Coref.rename d i new with
    | .ok d' => d'
    | .error _ => d

/-- Keys and ids agree and no two entities have the same id. -/
structure EOk (d : Entities) : Prop where
  same : ∀ p ∈ d, p.2 = p.1
  nodup : (d.map (·.1)).Nodup

theorem create_ok (d : Entities) (h : EOk d) (eid : Option Str) : EOk ((EOp.create eid).run d) := by
  have add : ∀ e : Str, e ∉ d.map (·.1) → EOk (d ++ [(e, e)]) := by
    intro e he
    refine ⟨?_, ?_⟩
    · intro p hp
      rcases List.mem_append.1 hp with hp | hp
      · exact h.same p hp
      · rw [List.mem_singleton] at hp; rw [hp]
    · rw [List.map_append, List.nodup_append]
      refine ⟨h.nodup, by simp, ?_⟩
      intro a ha b hb
      simp only [List.map_cons, List.map_nil, List.mem_singleton] at hb
      intro e'
      exact he (by rw [← hb, ← e']; exact ha)
  simp only [EOp.run]
  by_cases he : eid = none ∨ eid = some []
  · obtain ⟨n, _, h2, h3, _⟩ := C35_fresh d eid he
    rw [h2]
    exact add _ h3
  · match eid, he with
    | none, he => exact absurd (Or.inl rfl) he
    | some e, he =>
      have hne : e ≠ [] := fun e' => he (Or.inr (by rw [e']))
      rcases C35_given d e hne with ⟨h1, h2, _⟩ | ⟨h1, _⟩
      · rw [h1]; exact add e h2
      · rw [h1]; exact h

/-- C35 (partial): after any sequence of creations with and without ids, successful or not, no two entities of the document
have the same id. Missing: entities that are renamed in between (`C35_rename_violated`). -/
theorem C35_unique_partial (ids : List (Option Str)) (d : Entities)
    (hd : d = (ids.map EOp.create).foldl EOp.run []) : (d.map (·.2)).Nodup := by
  have main : ∀ (ids : List (Option Str)) (d : Entities), EOk d → EOk ((ids.map EOp.create).foldl EOp.run d) := by
    intro ids
    induction ids with
    | nil => intro d h; exact h
    | cons a ids ih => intro d h; exact ih _ (create_ok d h a)
  have h := main ids [] ⟨by simp, by simp⟩
  rw [← hd] at h
  have : d.map (·.2) = d.map (·.1) := by
    apply List.map_congr_left
    exact h.same
  rw [this]
  exact h.nodup

example : ([none, some ['x'], none, some ['x']].map EOp.create).foldl EOp.run [] =
    [(['e', '1'], ['e', '1']), (['x'], ['x']), (['e', '2'], ['e', '2'])] := by
  decide +kernel

/-- C35 is violated: in every document, whichever entity is renamed to the id that comes next, the entity created after
that gets the same id. -/
theorem C35_rename_violated (d : Entities) (i : Nat) (hi : i < d.length) :
    ∃ e d' d'', rename d i e = .ok d' ∧ create d' none = some (.ok d'') ∧ d''.length = d.length + 1 ∧
      (d''[i]?).map (·.2) = some e ∧ (d''[d.length]?).map (·.2) = some e := by
  obtain ⟨n, _, h2, h3, h4⟩ := C35_fresh d none (Or.inl rfl)
  have hal := autoId_allowed n
  let d' : Entities := d.mapIdx (fun j p => if j = i then (p.1, autoId n) else p)
  have hk : d'.map (·.1) = d.map (·.1) := by
    apply List.ext_getElem?
    intro k
    simp only [d', List.getElem?_map, List.getElem?_mapIdx, Option.map_map]
    cases d[k]? with
    | none => rfl
    | some p => simp only [Option.map_some, Function.comp]; split <;> rfl
  have hl : d'.length = d.length := by simp [d']
  have hs : create d' none = some (.ok (d' ++ [(autoId n, autoId n)])) := by
    obtain ⟨m, a1, a2, a3, a4⟩ := C35_fresh d' none (Or.inl rfl)
    rw [hk] at a3 a4
    have : m = n := by
      rcases Nat.lt_trichotomy m n with h | h | h
      · exact absurd (h4 m a1 h) a3
      · exact h
      · exact absurd (a4 n (by omega) h) h3
    rw [a2, this]
    rfl
  refine ⟨autoId n, d', d' ++ [(autoId n, autoId n)], ?_, hs, by simp [hl], ?_, ?_⟩
  · unfold rename
    rw [hal]
    rfl
  · rw [List.getElem?_append_left (by omega)]
    simp [d', List.getElem?_mapIdx, List.getElem?_eq_getElem hi]
  · rw [List.getElem?_append_right (by omega)]
    simp [hl]

/-- C35 is violated: an entity may be renamed to the id of another one. -/
theorem C35_rename_to_used_violated (d : Entities) (i j : Nat) (hi : i < d.length) (p : Str × Str) (hj : d[j]? = some p)
    (_ : i ≠ j) (hp : forbidden p.2 = false) :
    ∃ d', rename d i p.2 = .ok d' ∧ (d'[i]?).map (·.2) = some p.2 ∧ (d'[j]?).map (·.2) = some p.2 := by
  refine ⟨_, by unfold rename; rw [hp]; rfl, ?_, ?_⟩
  · simp [List.getElem?_mapIdx, List.getElem?_eq_getElem hi]
  · simp [List.getElem?_mapIdx, hj]

example : rename [(['e', '1'], ['e', '1']), (['e', '2'], ['e', '2'])] 0 ['e', '2'] =
    .ok [(['e', '1'], ['e', '2']), (['e', '2'], ['e', '2'])] := by
  rfl

end Verif.Coref
