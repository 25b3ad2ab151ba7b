import Verif.Coref.Entity
import Verif.Py.Sort

/-!
# Property C110: corefud.Link2Cluster (udapi/block/corefud/link2cluster.py:42-118)

Nodes are named by their position in the document, entities by numbers in the order of their creation. No node is in a mention before the block,
so that a node has at most one mention, which is named by the node; the mentions of an entity are sorted by their nodes.
Left out: `other` of the mentions, bridging (lines 120-137), warnings, deletion of the attributes.
-/

namespace Verif.Coref.Links
open Verif.Py
open Verif.Coref (Entities EErr autoId)

inductive Err
  | valueError | assertion
  deriving DecidableEq

/-- The entity of the mention of a node, the mentions of an entity, the dict of entities and `self.eid_counter`. -/
structure St where
  entOf : Nat → Option Nat
  mem : Nat → List Nat
  n : Nat
  dict : Entities
  counter : Nat

def upd {α : Type} (f : Nat → α) (k : Nat) (v : α) : Nat → α := fun x => if x = k then v else f x

def sort (l : List Nat) : List Nat := pySort (fun a b => decide (a ≤ b)) l

/-- `_new_entity` (link2cluster.py:42-47): the entity and the new state. -/
def newEntity (s : St) : Except Err (Nat × St) :=
  match Coref.create s.dict (if s.counter = 0 then none else some (autoId s.counter)) with
  | some (.ok d) => .ok (s.n, { s with n := s.n + 1, dict := d, counter := if s.counter = 0 then 0 else s.counter + 1, mem := upd s.mem s.n [] })
  | _ => .error .valueError

/-- `_new_mention` (link2cluster.py:49-51) -/
def newMention (s : St) (e x : Nat) : St := { s with entOf := upd s.entOf x (some e), mem := upd s.mem e (sort (s.mem e ++ [x])) }

/-- The loop body for one link with a known antecedent (link2cluster.py:93-118): `ante` is the antecedent of `this`. -/
def step (s : St) (ante this : Nat) : Except Err St :=
  match s.entOf this, s.entOf ante with
  | none, none =>
    match newEntity s with
    | .error e => .error e
    | .ok (e, s') => .ok (newMention (newMention s' e ante) e this)
  | some e1, some e2 =>
    if e1 = e2 then .error .assertion
    else .ok { s with entOf := fun x => if x ∈ s.mem e1 then some e2 else s.entOf x,
                      mem := upd (upd s.mem e2 (sort (s.mem e2 ++ s.mem e1))) e1 [] }
  | none, some e => .ok (newMention s e this)
  | some e, none => .ok (newMention s e ante)

def run : St → List (Nat × Nat) → Except Err St
  | s, [] => .ok s
  | s, p :: ps =>
    match step s p.1 p.2 with
    | .error e => .error e
    | .ok s' => run s' ps

/-- A node of the document with the ids of itself and of its antecedent; missing attributes are empty. -/
structure Nd where
  node : Nat
  id : Str
  ante : Str
  deriving DecidableEq

/-- `id2node[i]`; a later node with the same id replaces an earlier one (link2cluster.py:69). -/
def lookup (ns : List Nd) (i : Str) : Option Nat := (ns.reverse.find? (fun d => decide (d.id ≠ [] ∧ d.id = i))).map (·.node)

/-- `links` with the ids replaced by nodes, without unknown antecedents (link2cluster.py:66-75 and 89-93). -/
def links (ns : List Nd) : List (Nat × Nat) :=
  ns.filterMap (fun d =>
    if d.id ≠ [] ∧ d.ante ≠ [] ∧ d.ante ≠ d.id then
      match lookup ns d.ante, lookup ns d.id with
      | some a, some t => some (a, t)
      | _, _ => none
    else none)

/-- `process_document` (link2cluster.py:62-118) on a document with the given entities. -/
def process (dict : Entities) (counter : Nat) (ns : List Nd) : Except Err St :=
  run ⟨fun _ => none, fun _ => [], 0, dict, counter⟩ (links ns)

/-! ## Specification -/

/-- Connected by links: the least symmetric and transitive relation with all links. -/
inductive Conn (L : List (Nat × Nat)) : Nat → Nat → Prop
  | link {a t : Nat} : (a, t) ∈ L → Conn L a t
  | symm {x y : Nat} : Conn L x y → Conn L y x
  | trans {x y z : Nat} : Conn L x y → Conn L y z → Conn L x z

/-- From a node to its antecedents. -/
inductive Star (L : List (Nat × Nat)) : Nat → Nat → Prop
  | refl (x : Nat) : Star L x x
  | step {t a z : Nat} : (a, t) ∈ L → Star L a z → Star L t z

/-- A node is reached from itself along antecedents. -/
def Cycle (L : List (Nat × Nat)) : Prop := ∃ a t, (a, t) ∈ L ∧ Star L a t

/-- No entity of the document has an id the block would give to a new one. -/
def IdsFree (dict : Entities) (counter : Nat) : Prop := counter = 0 ∨ ∀ k ≥ counter, autoId k ∉ dict.map (·.1)

/-! ## Proofs -/

theorem Conn.mono {L L' : List (Nat × Nat)} (h : ∀ p ∈ L, p ∈ L') {x y : Nat} (c : Conn L x y) : Conn L' x y := by
  induction c with
  | link h' => exact .link (h _ h')
  | symm _ ih => exact ih.symm
  | trans _ _ i j => exact i.trans j

theorem sort_perm (l : List Nat) : (sort l).Perm l := pySort_perm _ _

theorem sort_sorted {l : List Nat} (h : l.Nodup) : (sort l).Pairwise (· < ·) := by
  have h1 : (sort l).Pairwise (fun a b => decide (a ≤ b) = true) :=
    pySort_pairwise (by intro a b c; simp only [decide_eq_true_eq]; omega) (by intro a b; simp only [decide_eq_true_eq]; omega) l
  have h2 : (sort l).Nodup := (sort_perm l).nodup_iff.2 h
  refine (List.pairwise_and_iff.2 ⟨h1, h2⟩).imp ?_
  intro a b ⟨x, y⟩
  simp only [decide_eq_true_eq] at x
  omega

/-- What holds after the links `L`. -/
structure Inv (L : List (Nat × Nat)) (s : St) : Prop where
  mem : ∀ e x, x ∈ s.mem e ↔ s.entOf x = some e
  sorted : ∀ e, (s.mem e).Pairwise (· < ·)
  bound : ∀ x e, s.entOf x = some e → e < s.n
  conn : ∀ x y, Conn L x y ↔ ∃ e, s.entOf x = some e ∧ s.entOf y = some e
  ids : IdsFree s.dict s.counter

theorem nodup_of_lt {l : List Nat} (h : l.Pairwise (· < ·)) : l.Nodup := h.imp (fun h => Nat.ne_of_lt h)

theorem autoId_inj {a b : Nat} (h : autoId a = autoId b) : a = b := natStr_inj (List.cons.inj h).2

theorem newEntity_ok {s : St} (h : IdsFree s.dict s.counter) :
    ∃ d c, newEntity s = .ok (s.n, { s with n := s.n + 1, dict := d, counter := c, mem := upd s.mem s.n [] }) ∧ IdsFree d c := by
  unfold newEntity
  by_cases hc : s.counter = 0
  · simp only [hc, if_true]
    obtain ⟨k, _, he, _, _⟩ := C35_fresh s.dict none (Or.inl rfl)
    rw [he]
    exact ⟨_, _, rfl, Or.inl rfl⟩
  · simp only [hc, if_false]
    have hfree : autoId s.counter ∉ s.dict.map (·.1) := by
      rcases h with h | h
      · exact absurd h hc
      · exact h _ (Nat.le_refl _)
    have this : Coref.create s.dict (some (autoId s.counter)) = some (.ok (s.dict ++ [(autoId s.counter, autoId s.counter)])) := by
      rcases C35_given s.dict (autoId s.counter) (by unfold autoId; simp) with h' | ⟨_, h' | ⟨c, h1, h2⟩⟩
      · exact h'.1
      · exact absurd h' hfree
      · have hf := autoId_allowed s.counter
        unfold forbidden at hf
        rw [List.any_eq_false] at hf
        exact absurd (by simpa using h2) (hf c h1)
    rw [this]
    refine ⟨_, _, rfl, Or.inr ?_⟩
    intro k hk hm
    rw [List.map_append, List.mem_append] at hm
    rcases hm with hm | hm
    · rcases h with h | h
      · exact hc h
      · exact h k (by omega) hm
    · simp only [List.map_cons, List.map_nil, List.mem_singleton] at hm
      have := autoId_inj hm
      omega

theorem newMention_mem {s : St} {e x : Nat} (h1 : ∀ e y, y ∈ s.mem e ↔ s.entOf y = some e) (h2 : ∀ e, (s.mem e).Pairwise (· < ·))
    (hx : s.entOf x = none) :
    (∀ e' y, y ∈ (newMention s e x).mem e' ↔ (newMention s e x).entOf y = some e') ∧ (∀ e', ((newMention s e x).mem e').Pairwise (· < ·)) := by
  have hnx : ∀ e, x ∉ s.mem e := by
    intro e k
    rw [h1, hx] at k
    cases k
  constructor
  · intro e' y
    unfold newMention upd
    simp only
    by_cases he : e' = e
    · subst he
      rw [if_pos rfl, (sort_perm _).mem_iff, List.mem_append, List.mem_singleton, h1]
      by_cases hy : y = x
      · simp [hy]
      · simp [hy]
    · rw [if_neg he, h1]
      by_cases hy : y = x
      · subst hy
        rw [hx, if_pos rfl]
        constructor
        · intro k
          cases k
        · intro k
          exact absurd (Option.some.inj k).symm he
      · rw [if_neg hy]
  · intro e'
    unfold newMention upd
    simp only
    by_cases he : e' = e
    · subst he
      rw [if_pos rfl]
      refine sort_sorted (List.nodup_append.2 ⟨nodup_of_lt (h2 _), by simp, ?_⟩)
      intro u hu v hv
      rw [List.mem_singleton.1 hv]
      rintro rfl
      exact hnx _ hu
    · rw [if_neg he]
      exact h2 e'

/-- Adding a link, given that the entities only get coarser, the ends of the link come together, and nothing else does. -/
theorem conn_add {L : List (Nat × Nat)} {s : St} {f : Nat → Option Nat} {a t : Nat} (h : Inv L s)
    (h1 : ∀ x y e, s.entOf x = some e → s.entOf y = some e → ∃ e', f x = some e' ∧ f y = some e')
    (h2 : ∃ e, f a = some e ∧ f t = some e)
    (h3 : (∀ x y, Conn L x y → Conn (L ++ [(a, t)]) x y) → Conn (L ++ [(a, t)]) a t → ∀ x y e, f x = some e → f y = some e →
      Conn (L ++ [(a, t)]) x y) :
    ∀ x y, Conn (L ++ [(a, t)]) x y ↔ ∃ e, f x = some e ∧ f y = some e := by
  intro x y
  constructor
  · intro c
    induction c with
    | link hm =>
      rcases List.mem_append.1 hm with hm | hm
      · obtain ⟨e, q1, q2⟩ := (h.conn _ _).1 (.link hm)
        exact h1 _ _ e q1 q2
      · rw [List.mem_singleton] at hm
        injection hm with q1 q2
        rw [q1, q2]
        exact h2
    | symm _ ih =>
      obtain ⟨e, q1, q2⟩ := ih
      exact ⟨e, q2, q1⟩
    | trans _ _ i j =>
      obtain ⟨e, q1, q2⟩ := i
      obtain ⟨e', q3, q4⟩ := j
      rw [q2] at q3
      exact ⟨e, q1, by rw [q4, Option.some.inj q3]⟩
  · rintro ⟨e, q1, q2⟩
    exact h3 (fun x y c => c.mono (fun p hp => List.mem_append_left _ hp)) (.link (by simp)) x y e q1 q2

theorem step_spec {L : List (Nat × Nat)} {s : St} (h : Inv L s) {a t : Nat} (hne : a ≠ t) :
    (step s a t = .error .assertion ∧ Conn L a t) ∨ (¬ Conn L a t ∧ ∃ s', step s a t = .ok s' ∧ Inv (L ++ [(a, t)]) s') := by
  unfold step
  cases ht : s.entOf t with
  | none =>
    have hnc : ¬ Conn L a t := by
      intro c
      obtain ⟨e, _, q⟩ := (h.conn _ _).1 c
      rw [ht] at q
      cases q
    refine Or.inr ⟨hnc, ?_⟩
    cases ha : s.entOf a with
    | none =>
      obtain ⟨d, c, e1, hid⟩ := newEntity_ok h.ids
      simp only [e1]
      refine ⟨_, rfl, ?_⟩
      have hb : ∀ x, s.entOf x ≠ some s.n := fun x k => Nat.lt_irrefl _ (h.bound x _ k)
      have m0 : ∀ e y, y ∈ upd s.mem s.n [] e ↔ s.entOf y = some e := by
        intro e y
        unfold upd
        by_cases he : e = s.n
        · rw [if_pos he, he]
          exact ⟨fun k => absurd k List.not_mem_nil, fun k => absurd k (hb y)⟩
        · rw [if_neg he]
          exact h.mem e y
      have s0 : ∀ e, (upd s.mem s.n [] e).Pairwise (· < ·) := by
        intro e
        unfold upd
        split
        · exact List.Pairwise.nil
        · exact h.sorted e
      obtain ⟨m1, s1⟩ := newMention_mem (s := { s with n := s.n + 1, dict := d, counter := c, mem := upd s.mem s.n [] }) (e := s.n) m0 s0 ha
      obtain ⟨m2, s2⟩ := newMention_mem (e := s.n) (x := t) m1 s1 (by
        show upd s.entOf a (some s.n) t = none
        unfold upd
        rw [if_neg (Ne.symm hne)]
        exact ht)
      have hf : ∀ x, (newMention (newMention { s with n := s.n + 1, dict := d, counter := c, mem := upd s.mem s.n [] } s.n a) s.n t).entOf x =
          if x = t then some s.n else if x = a then some s.n else s.entOf x := fun x => rfl
      refine ⟨m2, s2, ?_, conn_add h ?_ ⟨s.n, ?_, ?_⟩ ?_, hid⟩
      · intro x e k
        rw [hf] at k
        show e < s.n + 1
        split at k
        · cases k; omega
        · split at k
          · cases k; omega
          · have := h.bound x e k; omega
      · intro x y e q1 q2
        rw [hf, hf]
        have nx : ∀ z, s.entOf z = some e → z ≠ t ∧ z ≠ a := by
          intro z k
          constructor
          · rintro rfl; rw [ht] at k; cases k
          · rintro rfl; rw [ha] at k; cases k
        rw [if_neg (nx x q1).1, if_neg (nx x q1).2, if_neg (nx y q2).1, if_neg (nx y q2).2]
        exact ⟨e, q1, q2⟩
      · rw [hf]; simp
      · rw [hf]; simp
      · intro old new x y e q1 q2
        rw [hf] at q1 q2
        have key : ∀ z, (if z = t then some s.n else if z = a then some s.n else s.entOf z) = some e → (e = s.n ∧ (z = t ∨ z = a)) ∨ s.entOf z = some e := by
          intro z k
          split at k
          · rename_i g; exact Or.inl ⟨(Option.some.inj k).symm, Or.inl g⟩
          · split at k
            · rename_i g; exact Or.inl ⟨(Option.some.inj k).symm, Or.inr g⟩
            · exact Or.inr k
        rcases key x q1 with ⟨k1, k2⟩ | k1 <;> rcases key y q2 with ⟨k3, k4⟩ | k3
        · rcases k2 with rfl | rfl <;> rcases k4 with rfl | rfl
          · exact new.symm.trans new
          · exact new.symm
          · exact new
          · exact new.trans new.symm
        · rw [k1] at k3; exact absurd k3 (hb y)
        · rw [k3] at k1; exact absurd k1 (hb x)
        · exact old _ _ ((h.conn _ _).2 ⟨e, k1, k3⟩)
    | some e0 =>
      simp only
      refine ⟨_, rfl, ?_⟩
      obtain ⟨m1, s1⟩ := newMention_mem (e := e0) h.mem h.sorted ht
      have hf : ∀ x, (newMention s e0 t).entOf x = if x = t then some e0 else s.entOf x := fun x => rfl
      refine ⟨m1, s1, ?_, conn_add h ?_ ⟨e0, ?_, ?_⟩ ?_, h.ids⟩
      · intro x e k
        rw [hf] at k
        show e < s.n
        split at k
        · rw [← Option.some.inj k]; exact h.bound a e0 ha
        · exact h.bound x e k
      · intro x y e q1 q2
        have nx : ∀ z, s.entOf z = some e → z ≠ t := by
          rintro z k rfl
          rw [ht] at k; cases k
        rw [hf, hf, if_neg (nx x q1), if_neg (nx y q2)]
        exact ⟨e, q1, q2⟩
      · rw [hf, if_neg hne, ha]
      · rw [hf, if_pos rfl]
      · intro old new x y e q1 q2
        rw [hf] at q1 q2
        have key : ∀ z, (if z = t then some e0 else s.entOf z) = some e → (e = e0 ∧ z = t) ∨ s.entOf z = some e := by
          intro z k
          split at k
          · rename_i g; exact Or.inl ⟨(Option.some.inj k).symm, g⟩
          · exact Or.inr k
        rcases key x q1 with ⟨k1, k2⟩ | k1 <;> rcases key y q2 with ⟨k3, k4⟩ | k3
        · rw [k2, k4]; exact new.symm.trans new
        · rw [k2]
          exact new.symm.trans (old _ _ ((h.conn _ _).2 ⟨e, by rw [ha, k1], k3⟩))
        · rw [k4]
          exact (old _ _ ((h.conn _ _).2 ⟨e, k1, by rw [ha, k3]⟩)).trans new
        · exact old _ _ ((h.conn _ _).2 ⟨e, k1, k3⟩)
  | some e1 =>
    cases ha : s.entOf a with
    | none =>
      have hnc : ¬ Conn L a t := by
        intro c
        obtain ⟨e, q, _⟩ := (h.conn _ _).1 c
        rw [ha] at q
        cases q
      refine Or.inr ⟨hnc, ?_⟩
      simp only
      refine ⟨_, rfl, ?_⟩
      obtain ⟨m1, s1⟩ := newMention_mem (e := e1) h.mem h.sorted ha
      have hf : ∀ x, (newMention s e1 a).entOf x = if x = a then some e1 else s.entOf x := fun x => rfl
      refine ⟨m1, s1, ?_, conn_add h ?_ ⟨e1, ?_, ?_⟩ ?_, h.ids⟩
      · intro x e k
        rw [hf] at k
        show e < s.n
        split at k
        · rw [← Option.some.inj k]; exact h.bound t e1 ht
        · exact h.bound x e k
      · intro x y e q1 q2
        have nx : ∀ z, s.entOf z = some e → z ≠ a := by
          rintro z k rfl
          rw [ha] at k; cases k
        rw [hf, hf, if_neg (nx x q1), if_neg (nx y q2)]
        exact ⟨e, q1, q2⟩
      · rw [hf, if_pos rfl]
      · rw [hf, if_neg (Ne.symm hne), ht]
      · intro old new x y e q1 q2
        rw [hf] at q1 q2
        have key : ∀ z, (if z = a then some e1 else s.entOf z) = some e → (e = e1 ∧ z = a) ∨ s.entOf z = some e := by
          intro z k
          split at k
          · rename_i g; exact Or.inl ⟨(Option.some.inj k).symm, g⟩
          · exact Or.inr k
        rcases key x q1 with ⟨k1, k2⟩ | k1 <;> rcases key y q2 with ⟨k3, k4⟩ | k3
        · rw [k2, k4]; exact new.trans new.symm
        · rw [k2]
          exact new.trans (old _ _ ((h.conn _ _).2 ⟨e, by rw [ht, k1], k3⟩))
        · rw [k4]
          exact (old _ _ ((h.conn _ _).2 ⟨e, k1, by rw [ht, k3]⟩)).trans new.symm
        · exact old _ _ ((h.conn _ _).2 ⟨e, k1, k3⟩)
    | some e2 =>
      simp only
      by_cases he : e1 = e2
      · rw [if_pos he]
        exact Or.inl ⟨rfl, (h.conn _ _).2 ⟨e2, ha, by rw [ht, he]⟩⟩
      · rw [if_neg he]
        have hnc : ¬ Conn L a t := by
          intro c
          obtain ⟨e, q1, q2⟩ := (h.conn _ _).1 c
          rw [ha] at q1
          rw [ht] at q2
          exact he ((Option.some.inj q2).trans (Option.some.inj q1).symm)
        refine Or.inr ⟨hnc, _, rfl, ?_⟩
        have hf : ∀ x, (if x ∈ s.mem e1 then some e2 else s.entOf x) = if s.entOf x = some e1 then some e2 else s.entOf x := by
          intro x
          simp only [h.mem]
        refine ⟨?_, ?_, ?_, conn_add h ?_ ⟨e2, ?_, ?_⟩ ?_, h.ids⟩
        · intro e x
          show x ∈ upd (upd s.mem e2 (sort (s.mem e2 ++ s.mem e1))) e1 [] e ↔ (if x ∈ s.mem e1 then some e2 else s.entOf x) = some e
          rw [hf]
          unfold upd
          by_cases q1 : e = e1
          · rw [if_pos q1]
            refine ⟨fun k => absurd k List.not_mem_nil, fun k => ?_⟩
            split at k
            · exact absurd (q1.symm.trans (Option.some.inj k).symm) he
            · rename_i g
              exact absurd (by rw [k, q1]) g
          · rw [if_neg q1]
            by_cases q2 : e = e2
            · rw [if_pos q2, (sort_perm _).mem_iff, List.mem_append, h.mem, h.mem, q2]
              by_cases q3 : s.entOf x = some e1
              · simp [q3]
              · simp [q3]
            · rw [if_neg q2, h.mem]
              by_cases q3 : s.entOf x = some e1
              · rw [if_pos q3, q3]
                simp only [Option.some.injEq]
                exact ⟨fun k => absurd k.symm q1, fun k => absurd k.symm q2⟩
              · rw [if_neg q3]
        · intro e
          show (upd (upd s.mem e2 (sort (s.mem e2 ++ s.mem e1))) e1 [] e).Pairwise (· < ·)
          unfold upd
          split
          · exact List.Pairwise.nil
          · split
            · refine sort_sorted (List.nodup_append.2 ⟨nodup_of_lt (h.sorted _), nodup_of_lt (h.sorted _), ?_⟩)
              rintro u hu v hv rfl
              rw [h.mem] at hu hv
              rw [hu] at hv
              exact he (Option.some.inj hv).symm
            · exact h.sorted e
        · intro x e k
          change (if x ∈ s.mem e1 then some e2 else s.entOf x) = some e at k
          rw [hf] at k
          show e < s.n
          split at k
          · rw [← Option.some.inj k]; exact h.bound a e2 ha
          · exact h.bound x e k
        · intro x y e q1 q2
          show ∃ e', (if x ∈ s.mem e1 then some e2 else s.entOf x) = some e' ∧ (if y ∈ s.mem e1 then some e2 else s.entOf y) = some e'
          rw [hf, hf, q1, q2]
          split
          · exact ⟨e2, rfl, rfl⟩
          · exact ⟨e, rfl, rfl⟩
        · show (if a ∈ s.mem e1 then some e2 else s.entOf a) = some e2
          rw [hf, ha]
          split <;> rfl
        · show (if t ∈ s.mem e1 then some e2 else s.entOf t) = some e2
          rw [hf, if_pos ht]
        · intro old new x y e q1 q2
          change (if x ∈ s.mem e1 then some e2 else s.entOf x) = some e at q1
          change (if y ∈ s.mem e1 then some e2 else s.entOf y) = some e at q2
          rw [hf] at q1 q2
          have key : ∀ z, (if s.entOf z = some e1 then some e2 else s.entOf z) = some e → (e = e2 ∧ s.entOf z = some e1) ∨ s.entOf z = some e := by
            intro z k
            split at k
            · rename_i g; exact Or.inl ⟨(Option.some.inj k).symm, g⟩
            · exact Or.inr k
          rcases key x q1 with ⟨k1, k2⟩ | k1 <;> rcases key y q2 with ⟨k3, k4⟩ | k3
          · exact old _ _ ((h.conn _ _).2 ⟨e1, k2, k4⟩)
          · have c1 := old x t ((h.conn _ _).2 ⟨e1, k2, ht⟩)
            have c2 := old a y ((h.conn _ _).2 ⟨e, by rw [ha, k1], k3⟩)
            exact c1.trans (new.symm.trans c2)
          · have c1 := old x a ((h.conn _ _).2 ⟨e, k1, by rw [ha, k3]⟩)
            have c2 := old t y ((h.conn _ _).2 ⟨e1, ht, k4⟩)
            exact c1.trans (new.trans c2)
          · exact old _ _ ((h.conn _ _).2 ⟨e, k1, k3⟩)

theorem run_spec : ∀ (ps L : List (Nat × Nat)) (s : St), Inv L s → (∀ p ∈ ps, p.1 ≠ p.2) →
    ((∃ s', run s ps = .ok s' ∧ Inv (L ++ ps) s') ∧ ∀ p a t q, ps = p ++ (a, t) :: q → ¬ Conn (L ++ p) a t) ∨
    (run s ps = .error .assertion ∧ ∃ p a t q, ps = p ++ (a, t) :: q ∧ Conn (L ++ p) a t)
  | [], L, s, h, _ => Or.inl ⟨⟨s, rfl, by rw [List.append_nil]; exact h⟩, by intro p a t q k; simp at k⟩
  | (a, t) :: ps, L, s, h, hne => by
    unfold run
    rcases step_spec h (hne _ (List.mem_cons_self ..)) with ⟨e, c⟩ | ⟨hn, s', e, h'⟩
    · right
      simp only at e ⊢
      rw [e]
      exact ⟨rfl, [], a, t, ps, rfl, by rw [List.append_nil]; exact c⟩
    · simp only at e ⊢
      rw [e]
      rcases run_spec ps _ s' h' (fun p hp => hne p (List.mem_cons_of_mem _ hp)) with ⟨⟨s2, e2, i2⟩, k2⟩ | ⟨e2, p, x, y, q, e3, c3⟩
      · left
        refine ⟨⟨s2, e2, by simpa using i2⟩, ?_⟩
        intro p x y q k
        cases p with
        | nil =>
          simp only [List.nil_append, List.cons.injEq, Prod.mk.injEq] at k
          rw [List.append_nil, ← k.1.1, ← k.1.2]
          exact hn
        | cons z p =>
          simp only [List.cons_append, List.cons.injEq] at k
          have := k2 p x y q k.2
          rw [← k.1]
          simpa using this
      · right
        exact ⟨e2, (a, t) :: p, x, y, q, by rw [e3]; rfl, by simpa using c3⟩

theorem init_inv {dict : Entities} {counter : Nat} (h : IdsFree dict counter) : Inv [] ⟨fun _ => none, fun _ => [], 0, dict, counter⟩ := by
  refine ⟨by simp, by simp, by simp, ?_, h⟩
  intro x y
  constructor
  · intro c
    induction c with
    | link h => exact absurd h List.not_mem_nil
    | symm _ ih => obtain ⟨e, q, _⟩ := ih; cases q
    | trans _ _ i _ => obtain ⟨e, q, _⟩ := i; cases q
  · rintro ⟨e, q, _⟩
    cases q

/-! ### Cycles of antecedents -/

theorem Star.trans {L : List (Nat × Nat)} {x y z : Nat} (h : Star L x y) (k : Star L y z) : Star L x z := by
  induction h with
  | refl => exact k
  | step h _ ih => exact .step h (ih k)

theorem Star.mono {L L' : List (Nat × Nat)} (h : ∀ p ∈ L, p ∈ L') {x y : Nat} (c : Star L x y) : Star L' x y := by
  induction c with
  | refl => exact .refl _
  | step q _ ih => exact .step (h _ q) ih

theorem Star.conn {L : List (Nat × Nat)} {x y : Nat} (h : Star L x y) : x = y ∨ Conn L x y := by
  induction h with
  | refl => exact Or.inl rfl
  | step q _ ih =>
    rcases ih with ih | ih
    · rw [← ih]; exact Or.inr (Conn.link q).symm
    · exact Or.inr ((Conn.link q).symm.trans ih)

/-- Every node has at most one antecedent. -/
def Det (L : List (Nat × Nat)) : Prop := ∀ a b t, (a, t) ∈ L → (b, t) ∈ L → a = b

theorem star_comparable {L : List (Nat × Nat)} (hd : Det L) {x y z : Nat} (h : Star L x y) : Star L x z → Star L y z ∨ Star L z y := by
  induction h with
  | refl => exact Or.inl
  | step q r ih =>
    intro k
    cases k with
    | refl => exact Or.inr (.step q r)
    | step q' r' =>
      rw [hd _ _ _ q' q] at r'
      exact ih r'

theorem conn_meet {L : List (Nat × Nat)} (hd : Det L) {x y : Nat} (c : Conn L x y) : ∃ z, Star L x z ∧ Star L y z := by
  induction c with
  | link h => exact ⟨_, .refl _, .step h (.refl _)⟩
  | symm _ ih => obtain ⟨z, a, b⟩ := ih; exact ⟨z, b, a⟩
  | trans _ _ i j =>
    obtain ⟨z, a, b⟩ := i
    obtain ⟨w, c, d⟩ := j
    rcases star_comparable hd b c with h | h
    · exact ⟨w, a.trans h, d⟩
    · exact ⟨z, a, d.trans h⟩

/-- A path to `t` need not use the link of `t`. -/
theorem star_init' {L : List (Nat × Nat)} {a t x y : Nat} (h : Star (L ++ [(a, t)]) x y) : y = t → Star L x y := by
  induction h with
  | refl => exact fun _ => .refl _
  | @step u b z q r ih =>
    intro hy
    rcases List.mem_append.1 q with q | q
    · exact .step q (ih hy)
    · rw [List.mem_singleton] at q
      injection q with q1 q2
      rw [q2, hy]
      exact .refl _

theorem star_init {L : List (Nat × Nat)} {a t x : Nat} (h : Star (L ++ [(a, t)]) x t) : Star L x t := star_init' h rfl

theorem cycle_split {L : List (Nat × Nat)} {a t : Nat} (h : Cycle (L ++ [(a, t)])) : Cycle L ∨ Star L a t := by
  obtain ⟨b, u, hm, hs⟩ := h
  have key : ∀ {x y : Nat}, Star (L ++ [(a, t)]) x y → Star L x y ∨ (Star (L ++ [(a, t)]) x t ∧ Star (L ++ [(a, t)]) a y) := by
    intro x y k
    induction k with
    | refl => exact Or.inl (.refl _)
    | @step u b z q r ih =>
      rcases List.mem_append.1 q with q' | q'
      · rcases ih with ih | ⟨i1, i2⟩
        · exact Or.inl (.step q' ih)
        · exact Or.inr ⟨.step q i1, i2⟩
      · rw [List.mem_singleton] at q'
        injection q' with q1 q2
        rw [q2]
        rw [q1] at r
        exact Or.inr ⟨.refl _, r⟩
  rcases List.mem_append.1 hm with hm' | hm'
  · rcases key hs with k | ⟨k1, k2⟩
    · exact Or.inl ⟨b, u, hm', k⟩
    · exact Or.inr (star_init (k2.trans (.step hm k1)))
  · rw [List.mem_singleton] at hm'
    injection hm' with q1 q2
    rw [q1, q2] at hs
    exact Or.inr (star_init hs)

/-- If every node has at most one link, a link whose ends are already connected means a cycle of antecedents. -/
theorem cycle_iff {L : List (Nat × Nat)} (hs : (L.map (·.2)).Nodup) (hne : ∀ p ∈ L, p.1 ≠ p.2) :
    (∃ p a t q, L = p ++ (a, t) :: q ∧ Conn p a t) ↔ Cycle L := by
  constructor
  · rintro ⟨p, a, t, q, rfl, c⟩
    rw [List.map_append, List.map_cons, List.nodup_append] at hs
    have hd : Det p := by
      intro x y z h1 h2
      have : ∀ (l : List (Nat × Nat)), (l.map (·.2)).Nodup → (x, z) ∈ l → (y, z) ∈ l → x = y := by
        intro l
        induction l with
        | nil => intro _ h _; exact absurd h List.not_mem_nil
        | cons w l ih =>
          intro hn h1 h2
          rw [List.map_cons, List.nodup_cons] at hn
          rcases List.mem_cons.1 h1 with e1 | h1 <;> rcases List.mem_cons.1 h2 with e2 | h2
          · rw [← e1] at e2
            exact (Prod.mk.inj e2).1.symm
          · rw [← e1] at hn
            exact absurd (List.mem_map.2 ⟨_, h2, rfl⟩) hn.1
          · rw [← e2] at hn
            exact absurd (List.mem_map.2 ⟨_, h1, rfl⟩) hn.1
          · exact ih hn.2 h1 h2
      exact this p hs.1 h1 h2
    obtain ⟨z, s1, s2⟩ := conn_meet hd c
    have : z = t := by
      cases s2 with
      | refl => rfl
      | step h _ => exact absurd rfl (hs.2.2 t (List.mem_map.2 ⟨_, h, rfl⟩) t (List.mem_cons_self ..))
    rw [this] at s1
    exact ⟨a, t, by simp, s1.mono (fun x hx => List.mem_append_left _ hx)⟩
  · have : ∀ n (L : List (Nat × Nat)), L.length = n → (∀ p ∈ L, p.1 ≠ p.2) → Cycle L → ∃ p a t q, L = p ++ (a, t) :: q ∧ Conn p a t := by
      intro n
      induction n with
      | zero =>
        rintro L hL _ ⟨a, t, h, _⟩
        rw [List.length_eq_zero_iff.1 hL] at h
        exact absurd h List.not_mem_nil
      | succ n ih =>
        intro L hL hne hc
        rcases List.eq_nil_or_concat L with e | ⟨L', ⟨a, t⟩, e⟩
        · rw [e] at hL; simp at hL
        · rw [List.concat_eq_append] at e
          subst e
          rcases cycle_split hc with h | h
          · obtain ⟨p, x, y, q, e, c⟩ := ih L' (by simpa using hL) (fun p hp => hne p (List.mem_append_left _ hp)) h
            exact ⟨p, x, y, q ++ [(a, t)], by rw [e]; simp, c⟩
          · rcases h.conn with h | h
            · exact absurd h (hne (a, t) (by simp))
            · exact ⟨L', a, t, [], rfl, h⟩
    exact this _ L rfl hne

/-! ### Documents -/

/-- Different nodes, and no id is used twice. -/
structure Unique (ns : List Nd) : Prop where
  nodes : (ns.map (·.node)).Nodup
  ids : ∀ d ∈ ns, ∀ d' ∈ ns, d.id ≠ [] → d.id = d'.id → d = d'

/-- The attribute of `t` names `a` as its antecedent. -/
def Ante (ns : List Nd) (t a : Nat) : Prop :=
  ∃ d ∈ ns, ∃ d' ∈ ns, d.node = t ∧ d'.node = a ∧ d.id ≠ [] ∧ d'.id ≠ [] ∧ d.ante = d'.id ∧ d ≠ d'

theorem lookup_some {ns : List Nd} {i : Str} {n : Nat} (h : lookup ns i = some n) : ∃ d ∈ ns, d.id ≠ [] ∧ d.id = i ∧ d.node = n := by
  unfold lookup at h
  rw [Option.map_eq_some_iff] at h
  obtain ⟨d, h1, h2⟩ := h
  have h3 := List.find?_some h1
  simp only [decide_eq_true_eq] at h3
  exact ⟨d, List.mem_reverse.1 (List.mem_of_find?_eq_some h1), h3.1, h3.2, h2⟩

theorem lookup_eq {ns : List Nd} (hu : Unique ns) {d : Nd} (h : d ∈ ns) (hi : d.id ≠ []) : lookup ns d.id = some d.node := by
  cases hl : lookup ns d.id with
  | none =>
    unfold lookup at hl
    rw [Option.map_eq_none_iff, List.find?_eq_none] at hl
    exact absurd (by simp [hi]) (hl d (List.mem_reverse.2 h))
  | some n =>
    obtain ⟨d', h1, h2, h3, h4⟩ := lookup_some hl
    have := hu.ids d' h1 d h h2 h3
    rw [← h4, this]

theorem node_inj {ns : List Nd} (hu : Unique ns) {d d' : Nd} (h : d ∈ ns) (h' : d' ∈ ns) (e : d.node = d'.node) : d = d' := by
  have := hu.nodes
  clear hu
  induction ns with
  | nil => exact absurd h List.not_mem_nil
  | cons x ns ih =>
    rw [List.map_cons, List.nodup_cons] at this
    rcases List.mem_cons.1 h with e1 | h <;> rcases List.mem_cons.1 h' with e2 | h'
    · rw [e1, e2]
    · exact absurd (List.mem_map.2 ⟨d', h', by rw [← e, e1]⟩) this.1
    · exact absurd (List.mem_map.2 ⟨d, h, by rw [e, e2]⟩) this.1
    · exact ih h h' this.2

theorem mem_links {ns : List Nd} (hu : Unique ns) {a t : Nat} : (a, t) ∈ links ns ↔ Ante ns t a := by
  unfold links
  rw [List.mem_filterMap]
  constructor
  · rintro ⟨d, hd, h⟩
    split at h
    · rename_i hc
      rw [lookup_eq hu hd hc.1] at h
      cases hl : lookup ns d.ante with
      | none => rw [hl] at h; cases h
      | some n =>
        rw [hl] at h
        simp only [Option.some.injEq, Prod.mk.injEq] at h
        obtain ⟨d', h1, h2, h3, h4⟩ := lookup_some hl
        exact ⟨d, hd, d', h1, h.2, by rw [h4]; exact h.1, hc.1, h2, h3.symm, fun e => hc.2.2 (by rw [← h3, e])⟩
    · cases h
  · rintro ⟨d, hd, d', hd', h1, h2, h3, h4, h5, h6⟩
    refine ⟨d, hd, ?_⟩
    rw [if_pos ⟨h3, by rw [h5]; exact h4, fun e => h6 (hu.ids d hd d' hd' h3 (by rw [← h5]; exact e.symm))⟩, h5, lookup_eq hu hd' h4, lookup_eq hu hd h3, h1, h2]

theorem links_nodup {ns : List Nd} (hu : Unique ns) : ((links ns).map (·.2)).Nodup := by
  have key : ∀ (f : Nd → Option (Nat × Nat)) (l : List Nd), (∀ d ∈ l, ∀ p, f d = some p → p.2 = d.node) →
      ((l.filterMap f).map (·.2)).Sublist (l.map (·.node)) := by
    intro f l
    induction l with
    | nil => intro _; exact List.Sublist.refl _
    | cons d l ih =>
      intro h
      have := ih (fun x hx => h x (List.mem_cons_of_mem _ hx))
      cases hf : f d with
      | none =>
        rw [List.filterMap_cons_none hf, List.map_cons]
        exact this.cons _
      | some p =>
        rw [List.filterMap_cons_some hf, List.map_cons, List.map_cons, h d (List.mem_cons_self ..) p hf]
        exact this.cons_cons _
  refine (key _ ns ?_).nodup hu.nodes
  intro d hd p hp
  split at hp
  · rename_i hc
    rw [lookup_eq hu hd hc.1] at hp
    cases hl : lookup ns d.ante with
    | none => rw [hl] at hp; cases hp
    | some n =>
      rw [hl] at hp
      simp only [Option.some.injEq] at hp
      rw [← hp]
  · cases hp

/-- C110: if no id is used twice and the ids of new entities are free, then the block raises AssertionError exactly if some node is reached from itself along its
antecedents; otherwise two nodes are in one entity exactly if they are connected by links, every node is in at most one entity, and the mentions of an entity are in the order of the nodes.
`L` is the set of links, in any order. -/
theorem C110_entities_partial {dict : Entities} {counter : Nat} (hf : IdsFree dict counter) {ns : List Nd} (hu : Unique ns) {L : List (Nat × Nat)}
    (hL : ∀ a t, (a, t) ∈ L ↔ Ante ns t a) :
    (Cycle L ∧ process dict counter ns = .error .assertion) ∨
    (¬ Cycle L ∧ ∃ s, process dict counter ns = .ok s ∧ (∀ x y, Conn L x y ↔ ∃ e, x ∈ s.mem e ∧ y ∈ s.mem e) ∧
      (∀ e e' x, x ∈ s.mem e → x ∈ s.mem e' → e = e') ∧ ∀ e, (s.mem e).Pairwise (· < ·)) := by
  have hm : ∀ p, p ∈ links ns ↔ p ∈ L := fun p => (mem_links hu).trans (hL p.1 p.2).symm
  have hne : ∀ p ∈ links ns, p.1 ≠ p.2 := by
    intro p hp e
    obtain ⟨d, h1, d', h2, h3, h4, _, _, _, h5⟩ := (mem_links hu).1 hp
    exact h5 (node_inj hu h1 h2 (by rw [h3, h4, e]))
  have hc : Cycle (links ns) ↔ Cycle L :=
    ⟨fun ⟨a, t, h1, h2⟩ => ⟨a, t, (hm _).1 h1, h2.mono (fun p hp => (hm p).1 hp)⟩,
     fun ⟨a, t, h1, h2⟩ => ⟨a, t, (hm _).2 h1, h2.mono (fun p hp => (hm p).2 hp)⟩⟩
  have hcy := cycle_iff (links_nodup hu) hne
  rcases run_spec (links ns) [] _ (init_inv hf) hne with ⟨⟨s, e, i⟩, k⟩ | ⟨e, p, a, t, q, e1, c⟩
  · right
    rw [List.nil_append] at i
    refine ⟨fun g => ?_, s, e, ?_, ?_, i.sorted⟩
    · obtain ⟨p, a, t, q, e1, c⟩ := hcy.2 (hc.2 g)
      exact k p a t q e1 (by rw [List.nil_append]; exact c)
    · intro x y
      simp only [i.mem]
      rw [← i.conn]
      exact ⟨fun g => g.mono (fun p hp => (hm p).2 hp), fun g => g.mono (fun p hp => (hm p).1 hp)⟩
    · intro e1 e2 x h1 h2
      rw [i.mem] at h1 h2
      rw [h1] at h2
      exact Option.some.inj h2
  · left
    rw [List.nil_append] at c
    exact ⟨hc.1 (hcy.1 ⟨p, a, t, q, e1, c⟩), e⟩

/-- C110, a document that has an entity with the id `e1` (or whatever `eid_counter` says): ValueError at the first link. -/
theorem C110_used_id_violated (dict : Entities) (counter : Nat) (hc : counter ≠ 0) (hd : autoId counter ∈ dict.map (·.1)) (ns : List Nd)
    (hl : links ns ≠ []) : process dict counter ns = .error .valueError := by
  unfold process
  cases h : links ns with
  | nil => exact absurd h hl
  | cons p ps =>
    unfold run step newEntity
    have : Coref.create dict (some (autoId counter)) = some (.error .valueError) := by
      rcases C35_given dict (autoId counter) (by unfold autoId; simp) with h' | h'
      · exact absurd hd h'.2.1
      · exact h'.1
    simp only [if_neg hc, this]

/-- C110, an id used twice, without any cycle: the second node with the id 2 replaces the first one in the dict, its link is then there twice, and AssertionError is raised. -/
theorem C110_duplicate_violated : ¬ Cycle (links [⟨1, ['1'], []⟩, ⟨2, ['2'], ['1']⟩, ⟨3, ['2'], ['1']⟩]) ∧
    ∃ e, process [] 1 [⟨1, ['1'], []⟩, ⟨2, ['2'], ['1']⟩, ⟨3, ['2'], ['1']⟩] = .error e ∧ e = .assertion := by
  have hl : links [⟨1, ['1'], []⟩, ⟨2, ['2'], ['1']⟩, ⟨3, ['2'], ['1']⟩] = [(1, 3), (1, 3)] := by decide
  constructor
  · rw [hl]
    rintro ⟨a, t, h, s⟩
    have e : a = 1 ∧ t = 3 := by simpa using h
    rw [e.1, e.2] at s
    cases s with
    | step h _ => simp at h
  · refine ⟨_, ?_, rfl⟩
    have n1 : natStr 1 = ['1'] := by decide +kernel
    simp [process, hl, run, step, newEntity, Coref.create, autoId, n1, newMention, upd, forbidden]

/-- Nodes 1-4; node 2 has the antecedent 1, node 3 the (later) antecedent 4, node 4 the antecedent 1. -/
def exNs : List Nd := [⟨1, ['1'], []⟩, ⟨2, ['2'], ['1']⟩, ⟨3, ['4'], ['3']⟩, ⟨4, ['3'], ['1']⟩]

/-- C110, merged entities: the third link joins the two entities of the first two. The entity whose mentions are taken over stays in the document without mentions. -/
theorem C110_empty_entity_violated : Unique exNs ∧ IdsFree [] 1 ∧ links exNs = [(1, 2), (4, 3), (1, 4)] ∧ ¬ Cycle (links exNs) ∧
    (process [] 1 exNs).toOption.map (fun s => (s.mem 0, s.mem 1, s.dict.map (·.1))) = some ([1, 2, 3, 4], [], [['e', '1'], ['e', '2']]) := by
  have hl : links exNs = [(1, 2), (4, 3), (1, 4)] := by decide
  have hu : Unique exNs := by
    refine ⟨by decide, ?_⟩
    intro d hd d' hd' _ e
    simp only [exNs, List.mem_cons, List.not_mem_nil, or_false] at hd hd'
    rcases hd with rfl | rfl | rfl | rfl <;> rcases hd' with rfl | rfl | rfl | rfl <;> first | rfl | (revert e; decide)
  refine ⟨hu, Or.inr (by simp), hl, ?_, by decide +kernel⟩
  rw [hl]
  rintro ⟨a, t, h, s⟩
  have down : ∀ x y, Star [(1, 2), (4, 3), (1, 4)] x y → x = y ∨ y = 1 ∨ (x = 3 ∧ y = 4) := by
    intro x y k
    induction k with
    | refl => exact Or.inl rfl
    | step q _ ih =>
      simp only [List.mem_cons, Prod.mk.injEq, List.not_mem_nil, or_false] at q
      omega
  have := down a t s
  simp only [List.mem_cons, Prod.mk.injEq, List.not_mem_nil, or_false] at h
  omega

end Verif.Coref.Links
