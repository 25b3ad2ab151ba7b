import Verif.Coref.Entity
import Verif.Coref.Mentions
import Verif.Coref.Order

/-!
# Properties C108 and C109: corefud.IndexClusters (udapi/block/corefud/indexclusters.py:21-35) and
corefud.RemoveNoCorefEntities (udapi/block/corefud/removenocorefentities.py:17-21)

Entities are named by numbers. Simplified: `start` is not negative (on the command line it cannot be).
-/

namespace Verif.Coref.Index
open Verif.Py
open Verif.Coref (forbidden)

/-- `doc._eid_to_entity` in insertion order. -/
abbrev Dict := List (Str × Nat)

/-- `d[k] = v` -/
def assign (d : Dict) (k : Str) (v : Nat) : Dict :=
  if k ∈ d.map (·.1) then d.map (fun p => if p.1 = k then (k, v) else p) else d ++ [(k, v)]

def upd (f : Nat → Str) (k : Nat) (v : Str) : Nat → Str := fun x => if x = k then v else f x

/-- The loop over the entities (indexclusters.py:30-33). `none`: `entity.eid = ...` raises ValueError. -/
def loop (pre : Str) : Nat → List Nat → Dict → (Nat → Str) → Option (Dict × (Nat → Str) × Nat)
  | i, [], new, eid => some (new, eid, i)
  | i, x :: xs, new, eid =>
    let e := pre ++ natStr i
    if forbidden e then none else loop pre (i + 1) xs (assign new e x) (upd eid x e)

/-- `process_document` (indexclusters.py:25-35): the dict of the document, the ids of all entities and `self.start` afterwards. -/
def index (pre : Str) (start : Nat) (d : Dict) (eid : Nat → Str) : Option (Dict × (Nat → Str) × Nat) :=
  if d.map (·.2) = [] then some (d, eid, start) else loop pre start (d.map (·.2)) [] eid

/-- The block on the documents one after another. -/
def indexAll (pre : Str) : Nat → List Dict → (Nat → Str) → Option (List Dict × (Nat → Str))
  | _, [], eid => some ([], eid)
  | i, d :: ds, eid =>
    match index pre i d eid with
    | none => none
    | some (d', eid', i') => (indexAll pre i' ds eid').map (fun r => (d' :: r.1, r.2))

/-- The entities of documents, in order. -/
def entities (ds : List Dict) : List Nat := (ds.map (fun d => d.map (·.2))).flatten

/-! ## Proofs -/

theorem forbidden_append (a b : Str) : forbidden (a ++ b) = (forbidden a || forbidden b) := by
  unfold forbidden
  exact List.any_append ..

theorem forbidden_natStr (n : Nat) : forbidden (natStr n) = false := by
  unfold forbidden
  rw [List.any_eq_false]
  intro c hc
  have := natStr_digits n c hc
  simp only [List.contains_eq_mem, decide_eq_true_eq, List.mem_cons, List.not_mem_nil, or_false, not_or]
  refine ⟨?_, ?_, ?_, ?_, ?_, ?_, ?_⟩ <;> (rintro rfl; revert this; decide)

theorem loop_spec (pre : Str) (hp : forbidden pre = false) : ∀ (xs : List Nat) (i : Nat) (new : Dict) (eid : Nat → Str), xs.Nodup →
    (∀ k ∈ new.map (·.1), ∃ j < i, k = pre ++ natStr j) →
    ∃ d' eid', loop pre i xs new eid = some (d', eid', i + xs.length) ∧
      d' = new ++ xs.zipIdx.map (fun p => (pre ++ natStr (i + p.2), p.1)) ∧
      (∀ x, x ∉ xs → eid' x = eid x) ∧ (∀ x j, xs[j]? = some x → eid' x = pre ++ natStr (i + j))
  | [], i, new, eid, _, _ => ⟨new, eid, rfl, by simp, fun _ _ => rfl, by simp⟩
  | x :: xs, i, new, eid, hn, hk => by
    rw [List.nodup_cons] at hn
    have hf : forbidden (pre ++ natStr i) = false := by rw [forbidden_append, hp, forbidden_natStr]; rfl
    have hnot : pre ++ natStr i ∉ new.map (·.1) := by
      intro h
      obtain ⟨j, hj, e⟩ := hk _ h
      have := natStr_inj (List.append_cancel_left e)
      omega
    have hass : assign new (pre ++ natStr i) x = new ++ [(pre ++ natStr i, x)] := by unfold assign; rw [if_neg hnot]
    obtain ⟨d', eid', e1, e2, e3, e4⟩ := loop_spec pre hp xs (i + 1) (new ++ [(pre ++ natStr i, x)]) (upd eid x (pre ++ natStr i)) hn.2
      (by
        intro k h
        rw [List.map_append, List.mem_append] at h
        rcases h with h | h
        · obtain ⟨j, hj, e⟩ := hk k h
          exact ⟨j, by omega, e⟩
        · simp only [List.map_cons, List.map_nil, List.mem_singleton] at h
          exact ⟨i, by omega, h⟩)
    refine ⟨d', eid', ?_, ?_, ?_, ?_⟩
    · unfold loop
      simp only [hf, Bool.false_eq_true, if_false, hass]
      rw [e1, List.length_cons]
      congr 3
      omega
    · rw [e2, List.append_assoc, List.zipIdx_cons, List.map_cons, List.singleton_append]
      congr 2
      rw [Nat.zero_add, List.zipIdx_succ, List.map_map]
      apply List.map_congr_left
      intro p _
      simp only [Function.comp]
      congr 3
      omega
    · intro y hy
      rw [List.mem_cons, not_or] at hy
      rw [e3 y hy.2]
      unfold upd
      rw [if_neg hy.1]
    · intro y j hj
      cases j with
      | zero =>
        simp only [List.getElem?_cons_zero, Option.some.injEq] at hj
        subst hj
        rw [e3 x hn.1]
        unfold upd
        rw [if_pos rfl, Nat.add_zero]
      | succ j =>
        rw [List.getElem?_cons_succ] at hj
        rw [e4 y j hj]
        congr 2
        omega

theorem index_spec (pre : Str) (hp : forbidden pre = false) (i : Nat) (d : Dict) (eid : Nat → Str) (hn : (d.map (·.2)).Nodup) :
    ∃ d' eid', index pre i d eid = some (d', eid', i + d.length) ∧ d'.map (·.2) = d.map (·.2) ∧
      (∀ p ∈ d', p.1 = eid' p.2) ∧
      (∀ x, x ∉ d.map (·.2) → eid' x = eid x) ∧ (∀ x j, (d.map (·.2))[j]? = some x → eid' x = pre ++ natStr (i + j)) := by
  unfold index
  split
  · rename_i h
    have : d = [] := List.map_eq_nil_iff.1 h
    subst this
    exact ⟨[], eid, rfl, rfl, by simp, fun _ _ => rfl, by simp⟩
  · obtain ⟨d', eid', e1, e2, e3, e4⟩ := loop_spec pre hp (d.map (·.2)) i [] eid hn (by simp)
    refine ⟨d', eid', by rw [e1, List.length_map], ?_, ?_, e3, e4⟩
    · rw [e2, List.nil_append, List.map_map]
      exact List.zipIdx_map_fst ..
    · intro p hpm
      rw [e2, List.nil_append, List.mem_map] at hpm
      obtain ⟨q, hq, rfl⟩ := hpm
      have := List.mem_zipIdx_iff_getElem?.1 hq
      exact (e4 q.1 q.2 this).symm

/-- C108: the entities of all documents, in the order of the dicts, get the prefix and consecutive numbers from `start`. So the ids are unique
across the documents. They stay in their order and the keys of the dicts are the ids of the entities; other entities are not touched, nothing is raised. -/
theorem C108_index (pre : Str) (hp : forbidden pre = false) (start : Nat) (ds : List Dict) (eid : Nat → Str) (hn : (entities ds).Nodup) :
    ∃ ds' eid', indexAll pre start ds eid = some (ds', eid') ∧ ds'.map (fun d => d.map (·.2)) = ds.map (fun d => d.map (·.2)) ∧
      (∀ d ∈ ds', ∀ p ∈ d, p.1 = eid' p.2) ∧ (∀ x j, (entities ds)[j]? = some x → eid' x = pre ++ natStr (start + j)) ∧
      (∀ x, x ∉ entities ds → eid' x = eid x) ∧
      (∀ x ∈ entities ds, ∀ y ∈ entities ds, eid' x = eid' y → x = y) := by
  have main : ∀ (ds : List Dict) (i : Nat) (eid : Nat → Str), (entities ds).Nodup → ∃ ds' eid', indexAll pre i ds eid = some (ds', eid') ∧
      ds'.map (fun d => d.map (·.2)) = ds.map (fun d => d.map (·.2)) ∧
      (∀ d ∈ ds', ∀ p ∈ d, p.1 = eid' p.2) ∧ (∀ x j, (entities ds)[j]? = some x → eid' x = pre ++ natStr (i + j)) ∧
      (∀ x, x ∉ entities ds → eid' x = eid x) := by
    intro ds
    induction ds with
    | nil =>
      intro i eid _
      exact ⟨[], eid, rfl, rfl, by simp, by simp [entities], fun _ _ => rfl⟩
    | cons d ds ih =>
      intro i eid hn
      have hen : entities (d :: ds) = d.map (·.2) ++ entities ds := by simp [entities]
      rw [hen, List.nodup_append] at hn
      obtain ⟨d', eid1, a1, a2, a3, a4, a5⟩ := index_spec pre hp i d eid hn.1
      obtain ⟨ds', eid2, b1, b2, b3, b4, b5⟩ := ih (i + d.length) eid1 hn.2.1
      have hout : ∀ x ∈ d.map (·.2), x ∉ entities ds := fun x hx hx' => hn.2.2 x hx x hx' rfl
      refine ⟨d' :: ds', eid2, ?_, ?_, ?_, ?_, ?_⟩
      · unfold indexAll
        rw [a1]
        simp only [b1, Option.map_some]
      · rw [List.map_cons, List.map_cons, a2, b2]
      · intro e he p hp'
        rcases List.mem_cons.1 he with rfl | he
        · have : p.2 ∈ d.map (·.2) := by
            rw [← a2]
            exact List.mem_map.2 ⟨p, hp', rfl⟩
          rw [b5 _ (hout _ this)]
          exact a3 p hp'
        · exact b3 e he p hp'
      · intro x j hj
        rw [hen] at hj
        by_cases hlt : j < (d.map (·.2)).length
        · rw [List.getElem?_append_left hlt] at hj
          rw [b5 x (hout x (List.mem_of_getElem? hj)), a5 x j hj]
        · rw [List.getElem?_append_right (by omega)] at hj
          rw [b4 x _ hj]
          rw [List.length_map] at hlt ⊢
          congr 2
          omega
      · intro x hx
        rw [hen, List.mem_append, not_or] at hx
        rw [b5 x hx.2, a4 x hx.1]
  obtain ⟨ds', eid', h1, h2, h3, h4, h5⟩ := main ds start eid hn
  refine ⟨ds', eid', h1, h2, h3, h4, h5, ?_⟩
  intro x hx y hy e
  obtain ⟨i, hi⟩ := List.mem_iff_getElem?.1 hx
  obtain ⟨j, hj⟩ := List.mem_iff_getElem?.1 hy
  rw [h4 x i hi, h4 y j hj] at e
  have := natStr_inj (List.append_cancel_left e)
  have hij : i = j := by omega
  rw [hij, hj] at hi
  exact (Option.some.inj hi).symm

/-- C108, a prefix with a forbidden character: ValueError unless there is no entity at all. -/
theorem C108_prefix (pre : Str) (hp : forbidden pre = true) (start : Nat) (ds : List Dict) (eid : Nat → Str) :
    indexAll pre start ds eid = none ↔ entities ds ≠ [] := by
  induction ds generalizing start eid with
  | nil => simp [indexAll, entities]
  | cons d ds ih =>
    have hen : entities (d :: ds) = d.map (·.2) ++ entities ds := by simp [entities]
    rw [hen]
    unfold indexAll index
    cases d with
    | nil => simpa using ih start eid
    | cons p d => simp [loop, forbidden_append, hp]

/-- C108, the order of entities: `CorefEntity.__lt__` recommends the block for "entity IDs in accordance with this entity ordering". The block takes the order of the
dict, which is this order after loading, but not if an entity was created later: here the entity of word 1 was created after that of
word 2 and gets the larger number. -/
theorem C108_order_violated : ∃ (m : Nat → List Mention) (d : Dict) (eid : Nat → Str) (d' : Dict) (eid' : Nat → Str),
    indexAll ['e'] 1 [d] eid = some ([d'], eid') ∧ (d.map (·.2)) = [0, 1] ∧ (∀ x ∈ [0, 1], exWorld.HasE (eid x, m x)) ∧
    entityLt exWorld (eid 1, m 1) (eid 0, m 0) = some true ∧ entityLt exWorld (eid' 1, m 1) (eid' 0, m 0) = some true ∧
    eid' 0 = ['e', '1'] ∧ eid' 1 = ['e', '2'] := by
  refine ⟨fun x => if x = 0 then [⟨[2], 2, ['a']⟩] else [⟨[1], 1, ['b']⟩], [(['a'], 0), (['b'], 1)], fun x => if x = 0 then ['a'] else ['b'],
    [(['e', '1'], 0), (['e', '2'], 1)], upd (upd (fun x => if x = 0 then ['a'] else ['b']) 0 ['e', '1']) 1 ['e', '2'], ?_⟩
  have n1 : natStr 1 = ['1'] := by decide +kernel
  have n2 : natStr 2 = ['2'] := by decide +kernel
  refine ⟨?_, rfl, ?_, by decide, by decide, rfl, rfl⟩
  · have f1 : forbidden ['e', '1'] = false := by decide
    have f2 : forbidden ['e', '2'] = false := by decide
    simp [indexAll, index, loop, assign, n1, n2, f1, f2]
  · unfold World.HasE World.Has exWorld
    decide

example : (indexAll ['e'] 9 [[(['x'], 5), (['y'], 3)], [], [(['z'], 4)]] (fun _ => [])).map (·.1) =
    some [[(['e', '9'], 5), (['e', '1', '0'], 3)], [], [(['e', '1', '1'], 4)]] := by decide +kernel

/-! ## C109: corefud.RemoveNoCorefEntities -/

/-- `re.match(r'^NOCOREF', eid)` -/
def noCoref (eid : Str) : Bool := ['N', 'O', 'C', 'O', 'R', 'E', 'F'].isPrefixOf eid

/-- `process_document` (removenocorefentities.py:17-21) -/
def removeNo (eid : Nat → Str) (d : Dict) : Dict :=
  if d.map (·.2) = [] then d
  else ((d.map (·.2)).filter (fun x => !noCoref (eid x))).foldl (fun new x => assign new (eid x) x) []

theorem foldl_assign (eid : Nat → Str) : ∀ (xs : List Nat) (new : Dict), (xs.map eid).Nodup → (∀ x ∈ xs, eid x ∉ new.map (·.1)) →
    xs.foldl (fun new x => assign new (eid x) x) new = new ++ xs.map (fun x => (eid x, x))
  | [], new, _, _ => by simp
  | x :: xs, new, hn, h => by
    rw [List.map_cons, List.nodup_cons] at hn
    rw [List.foldl_cons]
    have : assign new (eid x) x = new ++ [(eid x, x)] := by unfold assign; rw [if_neg (h x (List.mem_cons_self ..))]
    rw [this, foldl_assign eid xs _ hn.2, List.map_cons, List.append_assoc, List.singleton_append]
    intro y hy
    rw [List.map_append, List.mem_append, not_or]
    refine ⟨h y (List.mem_cons_of_mem _ hy), ?_⟩
    simp only [List.map_cons, List.map_nil, List.mem_singleton]
    intro e
    exact hn.1 (by rw [← e]; exact List.mem_map.2 ⟨y, hy, rfl⟩)

/-- C109, the document: if the ids are different, exactly the entities whose id does not start with NOCOREF stay, in their order, under their ids. -/
theorem C109_entities_partial (eid : Nat → Str) (d : Dict) (hn : (d.map (fun p => eid p.2)).Nodup) :
    (removeNo eid d).map (·.2) = (d.map (·.2)).filter (fun x => !noCoref (eid x)) ∧ ∀ p ∈ removeNo eid d, p.1 = eid p.2 := by
  unfold removeNo
  split
  · rename_i h
    rw [List.map_eq_nil_iff.1 h]
    simp
  · have hs : (((d.map (·.2)).filter (fun x => !noCoref (eid x))).map eid).Nodup := by
      refine (List.Sublist.map eid List.filter_sublist).nodup ?_
      rw [List.map_map]
      exact hn
    rw [foldl_assign eid _ [] hs (by simp), List.nil_append]
    refine ⟨by rw [List.map_map]; exact List.map_id .., ?_⟩
    intro p hp
    obtain ⟨x, _, rfl⟩ := List.mem_map.1 hp
    rfl

/-- C109, two entities with one id (after assigning `eid`, C35): the earlier one is lost, whatever its id. -/
theorem C109_same_id_violated : ∃ (eid : Nat → Str) (d : Dict), noCoref (eid 0) = false ∧ 0 ∈ d.map (·.2) ∧ 0 ∉ (removeNo eid d).map (·.2) :=
  ⟨fun _ => ['e'], [(['e'], 0), (['f'], 1)], by decide, by decide, by decide⟩

/-- C109, the words: the block does not touch mentions, so that every word of a mention of a removed entity still lists it (`node.coref_mentions`,
`node.coref_entities`), although the document does not have the entity. The state of the mentions is not an argument of the block. -/
theorem C109_words_violated {c : M.Cmp} {s : M.St} (h : M.Reach c s) (eid : Nat → Str) (d : Dict)
    (hn : (d.map (fun p => eid p.2)).Nodup) {m : Nat} (hm : s.Live m) (hno : noCoref (eid (s.entOf m)) = true) :
    s.entOf m ∉ (removeNo eid d).map (·.2) ∧ ∃ x, m ∈ s.back x := by
  constructor
  · rw [(C109_entities_partial eid d hn).1, List.mem_filter]
    simp [hno]
  · have := (M.reach_inv h).back m (s.head m)
    exact ⟨_, this.2 ⟨hm, M.C82_head_partial h m hm⟩⟩

/-- `store_coref_to_misc` (coref.py:771-773): returns if there are no entities. `rest` is everything that follows (C38). -/
def storeMisc {μ : Type} (rest : Dict → μ → μ) (d : Dict) (misc : μ) : μ := if d = [] then misc else rest d misc

/-- C109, the file: if all entities are removed, the writer leaves MISC as it was read, so that the file still has all their mentions. -/
theorem C109_file_violated {μ : Type} (rest : Dict → μ → μ) (eid : Nat → Str) (d : Dict) (h : ∀ p ∈ d, noCoref (eid p.2) = true) (misc : μ) :
    storeMisc rest (removeNo eid d) misc = misc := by
  have : removeNo eid d = [] := by
    unfold removeNo
    split
    · rename_i k
      exact List.map_eq_nil_iff.1 k
    · have : (d.map (·.2)).filter (fun x => !noCoref (eid x)) = [] := by
        rw [List.filter_eq_nil_iff]
        intro x hx
        obtain ⟨p, hp, rfl⟩ := List.mem_map.1 hx
        simp [h p hp]
      rw [this]
      rfl
  unfold storeMisc
  rw [this, if_pos rfl]

example : let eid := fun x => if x = 1 then ['N', 'O', 'C', 'O', 'R', 'E', 'F', 'o'] else ['e', digitChar x]
    removeNo eid [(['e', '0'], 0), (eid 1, 1), (['e', '2'], 2)] = [(['e', '0'], 0), (['e', '2'], 2)] := by decide

end Verif.Coref.Index
