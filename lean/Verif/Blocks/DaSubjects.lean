/-!
# Property C210: ud.da.FixMultiSubject

Source: `udapi/block/ud/da/fixmultisubject.py`. One node with its children: the position of each, its relation without subtype, whether it has a copula and how many subjects it has
itself. `commas` are the positions of the commas of the tree. All children of a node are at different positions. The `ToDo` mark is not modelled.
-/

namespace Verif.Blocks.DaSubjects

inductive Rel
  | subj | xcomp | advcl | amodObl | other
deriving DecidableEq

structure C where
  ord : Nat
  rel : Rel
  cop : Bool
  subjs : Nat
deriving DecidableEq

/-- `dist` (lines 106-123) -/
def dist (commas : List Nat) (x y : Nat) : Nat :=
  let a := if x < y then x else y
  let b := if x < y then y else x
  b - a + (commas.filter fun i => decide (i > a) && decide (i < b)).length * 10

/-- Lines 36/50, 68/74 and 85/96: the subject to be moved to `t`, if any; `le` is `<=` or `<`. -/
def choose (le : Nat → Nat → Bool) (commas : List Nat) (n : Nat) (s0 s1 t : C) : Option C :=
  let d := dist commas
  if le (d t.ord s0.ord) (d n s0.ord) && le (d n s1.ord) (d t.ord s1.ord) then some s0
  else if le (d t.ord s1.ord) (d n s1.ord) && le (d n s0.ord) (d t.ord s0.ord) then some s1
  else none

/-- The loop over the possible new parents: the first that fits, with the subject. -/
def find (le : Nat → Nat → Bool) (commas : List Nat) (n : Nat) (s0 s1 : C) : List C → Option (C × C)
  | [] => none
  | t :: ts => match choose le commas n s0 s1 t with
    | some s => some (t, s)
    | none => find le commas n s0 s1 ts

/-- The other children that move along (lines 40-42, 90-92). -/
def along (commas : List Nat) (n : Nat) (t : C) (c : C) : Bool := c.ord != t.ord && decide (dist commas t.ord c.ord < dist commas n c.ord)

/-- What a fix does: the new parent (as it was), the children that move to it, those that stay. -/
structure Fix where
  target : C
  moved : List C
  left : List C
deriving DecidableEq

def apply (others : Bool) (commas : List Nat) (n : Nat) (cs : List C) (t s : C) : Fix :=
  ⟨t, cs.filter fun c => c.ord == s.ord || (others && along commas n t c), cs.filter fun c => !(c.ord == s.ord || (others && along commas n t c))⟩

/-- Lines 16 and 21-29 -/
def subjects (cs : List C) : List C := cs.filter fun c => c.rel == .subj

def named (r : Rel) (cs : List C) : List C := cs.filter fun c => c.rel == r

/-- `process_node` (lines 15-104). `none`: nothing is changed. -/
def fix (commas : List Nat) (n : Nat) (cs : List C) : Option Fix :=
  match subjects cs with
  | [s0, s1] =>
    if named .xcomp cs ≠ [] then
      (find (fun a b => decide (a ≤ b)) commas n s0 s1 (named .xcomp cs)).map fun r => apply true commas n cs r.1 r.2
    else if named .advcl cs ≠ [] then
      (find (fun a b => decide (a < b)) commas n s0 s1 (named .advcl cs)).map fun r => apply false commas n cs r.1 r.2
    else
      (find (fun a b => decide (a < b)) commas n s0 s1 ((named .amodObl cs).filter (·.cop))).map fun r => apply true commas n cs r.1 r.2
  | _ => none

theorem find_some {le : Nat → Nat → Bool} {commas : List Nat} {n : Nat} {s0 s1 : C} : ∀ {ts : List C} {r : C × C},
    find le commas n s0 s1 ts = some r → r.1 ∈ ts ∧ choose le commas n s0 s1 r.1 = some r.2
  | [], _, h => by cases h
  | t :: ts, r, h => by
    rw [find] at h
    split at h
    · rename_i s hs
      injection h with h; subst h
      exact ⟨List.mem_cons_self .., hs⟩
    · obtain ⟨h1, h2⟩ := find_some h
      exact ⟨List.mem_cons_of_mem _ h1, h2⟩

/-- The subject moved is not farther from the new parent, the other one not farther from the old. -/
theorem choose_some {le : Nat → Nat → Bool} (hle : ∀ a b, le a b = true → a ≤ b) {commas : List Nat} {n : Nat} {s0 s1 t s : C}
    (h : choose le commas n s0 s1 t = some s) : ∃ o, ((s = s0 ∧ o = s1) ∨ (s = s1 ∧ o = s0)) ∧
      dist commas t.ord s.ord ≤ dist commas n s.ord ∧ dist commas n o.ord ≤ dist commas t.ord o.ord := by
  unfold choose at h
  simp only [] at h
  split at h
  · rename_i hc
    rw [Bool.and_eq_true] at hc
    injection h with h; subst h
    exact ⟨s1, Or.inl ⟨rfl, rfl⟩, hle _ _ hc.1, hle _ _ hc.2⟩
  · split at h
    · rename_i hc
      rw [Bool.and_eq_true] at hc
      injection h with h; subst h
      exact ⟨s0, Or.inr ⟨rfl, rfl⟩, hle _ _ hc.1, hle _ _ hc.2⟩
    · cases h

/-- Everything a fix is made of. -/
theorem fix_some {commas : List Nat} {n : Nat} {cs : List C} {f : Fix} (h : fix commas n cs = some f) :
    ∃ (s0 s1 s o : C) (others : Bool), subjects cs = [s0, s1] ∧ ((s = s0 ∧ o = s1) ∨ (s = s1 ∧ o = s0)) ∧ f = apply others commas n cs f.target s ∧
      f.target ∈ cs ∧ f.target.rel ≠ .subj ∧ dist commas f.target.ord s.ord ≤ dist commas n s.ord ∧
      dist commas n o.ord ≤ dist commas f.target.ord o.ord := by
  unfold fix at h
  split at h
  · rename_i s0 s1 hs
    have key : ∀ (le : Nat → Nat → Bool) (others : Bool) (ts : List C), (∀ a b, le a b = true → a ≤ b) → (∀ t ∈ ts, t ∈ cs ∧ t.rel ≠ .subj) →
        (find le commas n s0 s1 ts).map (fun r => apply others commas n cs r.1 r.2) = some f →
        ∃ (s0' s1' s o : C) (others : Bool), [s0, s1] = [s0', s1'] ∧ ((s = s0' ∧ o = s1') ∨ (s = s1' ∧ o = s0')) ∧ f = apply others commas n cs f.target s ∧
          f.target ∈ cs ∧ f.target.rel ≠ .subj ∧ dist commas f.target.ord s.ord ≤ dist commas n s.ord ∧
          dist commas n o.ord ≤ dist commas f.target.ord o.ord := by
      intro le others ts hle hts hf
      rw [Option.map_eq_some_iff] at hf
      obtain ⟨r, hr, rfl⟩ := hf
      obtain ⟨h1, h2⟩ := find_some hr
      obtain ⟨o, g1, g2, g3⟩ := choose_some hle h2
      exact ⟨s0, s1, r.2, o, others, rfl, g1, rfl, (hts _ h1).1, (hts _ h1).2, g2, g3⟩
    rw [hs]
    split at h
    · refine key _ true _ (by simp) ?_ h
      intro t ht; simp only [named, List.mem_filter, beq_iff_eq] at ht
      exact ⟨ht.1, by rw [ht.2]; decide⟩
    · split at h
      · refine key _ false _ (fun a b g => Nat.le_of_lt (by simpa using g)) ?_ h
        intro t ht; simp only [named, List.mem_filter, beq_iff_eq] at ht
        exact ⟨ht.1, by rw [ht.2]; decide⟩
      · refine key _ true _ (fun a b g => Nat.le_of_lt (by simpa using g)) ?_ h
        intro t ht; simp only [named, List.mem_filter, beq_iff_eq] at ht
        exact ⟨ht.1.1, by rw [ht.1.2]; decide⟩
  · cases h

/-! ## C210 -/

/-- `dist` does not depend on the order, is 0 only from a node to itself, and each comma in between counts ten. -/
theorem C210_dist (commas : List Nat) (x y : Nat) : dist commas x y = dist commas y x ∧ (dist commas x y = 0 ↔ x = y) ∧
    (x ≤ y → dist commas x y = y - x + 10 * commas.countP fun i => decide (x < i ∧ i < y)) := by
  have hcount : ∀ a b, (commas.filter fun i => decide (i > a) && decide (i < b)).length = commas.countP fun i => decide (a < i ∧ i < b) := by
    intro a b
    rw [List.countP_eq_length_filter]
    congr 1
    refine List.filter_congr ?_
    intro i _
    simp
  have empty : ∀ a, (commas.countP fun i => decide (a < i ∧ i < a)) = 0 := by
    intro a
    rw [List.countP_eq_zero]
    intro i _ h
    simp at h; omega
  have hle : ∀ a b, a ≤ b → dist commas a b = b - a + 10 * commas.countP fun i => decide (a < i ∧ i < b) := by
    intro a b hab
    unfold dist
    by_cases h : a < b
    · simp only [if_pos h]; rw [hcount]; omega
    · have : a = b := by omega
      subst this
      simp only [if_neg h]; rw [hcount]; omega
  have hge : ∀ a b, a ≤ b → dist commas b a = b - a + 10 * commas.countP fun i => decide (a < i ∧ i < b) := by
    intro a b hab
    unfold dist
    have h : ¬ b < a := by omega
    simp only [if_neg h]; rw [hcount]; omega
  refine ⟨?_, ?_, hle x y⟩
  · rcases Nat.le_total x y with h | h
    · rw [hle _ _ h, hge _ _ h]
    · rw [hle _ _ h, hge _ _ h]
  · constructor
    · intro h0
      rcases Nat.le_total x y with h | h
      · rw [hle _ _ h] at h0; omega
      · rw [hge _ _ h] at h0; omega
    · rintro rfl
      rw [hle _ _ (Nat.le_refl _), empty]; omega

/-- The full claim: afterwards the node has at most one subject. -/
def OneSubject (commas : List Nat) (n : Nat) (cs : List C) : Prop :=
  (subjects (match fix commas n cs with | some f => f.left | none => cs)).length ≤ 1

/-- When the block changes something at a node, the node had two subjects and keeps exactly one of them; the other is among the children that move. -/
theorem C210_one_partial (commas : List Nat) (n : Nat) (cs : List C) (f : Fix) (nd : (cs.map (·.ord)).Nodup) (h : fix commas n cs = some f) :
    ∃ (s o : C), s ≠ o ∧ (subjects cs = [s, o] ∨ subjects cs = [o, s]) ∧ subjects f.left = [o] ∧ subjects f.moved = [s] ∧ OneSubject commas n cs := by
  obtain ⟨s0, s1, s, o, others, hs, hso, hf, _, _, _, hd⟩ := fix_some h
  have hsub : (subjects cs).map (·.ord) |>.Nodup := by
    have : ((subjects cs).map (·.ord)).Sublist (cs.map (·.ord)) := (List.filter_sublist ..).map _
    exact this.nodup nd
  rw [hs] at hsub
  have hne : s0.ord ≠ s1.ord := by simpa using hsub
  have hoff : along commas n f.target o = false := by
    unfold along
    rw [Bool.and_eq_false_iff]
    right
    simp only [decide_eq_false_iff_not]; omega
  have hl : f.left = cs.filter fun c => !(c.ord == s.ord || (others && along commas n f.target c)) := by rw [hf]; rfl
  have hm : f.moved = cs.filter fun c => c.ord == s.ord || (others && along commas n f.target c) := by rw [hf]; rfl
  have comm : ∀ p : C → Bool, subjects (cs.filter p) = [s0, s1].filter p := by
    intro p
    rw [← hs]; unfold subjects
    rw [List.filter_filter, List.filter_filter]
    refine List.filter_congr ?_
    intro c _; exact Bool.and_comm ..
  have res : s ≠ o ∧ (subjects cs = [s, o] ∨ subjects cs = [o, s]) ∧ subjects f.left = [o] ∧ subjects f.moved = [s] := by
    rw [hl, hm, comm, comm, hs]
    rcases hso with ⟨rfl, rfl⟩ | ⟨rfl, rfl⟩
    · refine ⟨fun e => hne (by rw [e]), Or.inl rfl, ?_, ?_⟩
      · simp [hoff, hne.symm]
      · simp [hoff, hne.symm]
    · refine ⟨fun e => hne (by rw [e]), Or.inr rfl, ?_, ?_⟩
      · simp [hoff, hne]
      · simp [hoff, hne]
  refine ⟨s, o, res.1, res.2.1, res.2.2.1, res.2.2.2, ?_⟩
  unfold OneSubject
  rw [h]
  simp [res.2.2.1]

/-- No child is lost and none is doubled; the new parent is a child that stays, and it is no subject. -/
theorem C210_children (commas : List Nat) (n : Nat) (cs : List C) (f : Fix) (nd : (cs.map (·.ord)).Nodup) (h : fix commas n cs = some f) :
    (f.moved ++ f.left).Perm cs ∧ f.target ∈ f.left ∧ f.target.rel ≠ .subj := by
  obtain ⟨s0, s1, s, o, others, hs, hso, hf, ht, hr, _, _⟩ := fix_some h
  refine ⟨?_, ?_, hr⟩
  · rw [hf]
    exact List.filter_append_perm _ cs
  · rw [hf]
    simp only [apply, List.mem_filter]
    refine ⟨ht, ?_⟩
    have hsc : s ∈ subjects cs := by rw [hs]; rcases hso with ⟨rfl, _⟩ | ⟨rfl, _⟩ <;> simp
    simp only [subjects, List.mem_filter, beq_iff_eq] at hsc
    have hne : f.target.ord ≠ s.ord := by
      intro e
      have : f.target = s := by
        have inj : ∀ (l : List C), (l.map (·.ord)).Nodup → ∀ a ∈ l, ∀ b ∈ l, a.ord = b.ord → a = b := by
          intro l
          induction l with
          | nil => intro _ a ha; cases ha
          | cons x l ih =>
            intro hn a ha b hb hab
            rw [List.map_cons, List.nodup_cons] at hn
            rcases List.mem_cons.mp ha with ha' | ha' <;> rcases List.mem_cons.mp hb with hb' | hb'
            · rw [ha', hb']
            · exact absurd (List.mem_map.mpr ⟨b, hb', by rw [← hab, ha']⟩) hn.1
            · exact absurd (List.mem_map.mpr ⟨a, ha', by rw [hab, hb']⟩) hn.1
            · exact ih hn.2 a ha' b hb' hab
        exact inj cs nd _ ht _ hsc.1 e
      exact hr (this ▸ hsc.2)
    simp [along, hne]

/-- The subject that moves is not farther from its new parent than from the old one; every other child that moves is nearer to the new parent. -/
theorem C210_nearer (commas : List Nat) (n : Nat) (cs : List C) (f : Fix) (h : fix commas n cs = some f) :
    ∀ c ∈ f.moved, dist commas f.target.ord c.ord ≤ dist commas n c.ord := by
  obtain ⟨s0, s1, s, o, others, hs, hso, hf, ht, hr, hd, _⟩ := fix_some h
  intro c hc
  rw [hf] at hc
  simp only [apply, List.mem_filter, Bool.or_eq_true, beq_iff_eq, Bool.and_eq_true, along, decide_eq_true_eq] at hc
  rcases hc.2 with e | ⟨_, _, e⟩
  · rw [e]; exact hd
  · exact Nat.le_of_lt e

/-- The new parent gets exactly one subject more, so a new parent that has a subject of its own has two afterwards. -/
theorem C210_target_violated (commas : List Nat) (n : Nat) (cs : List C) (f : Fix) (nd : (cs.map (·.ord)).Nodup) (h : fix commas n cs = some f)
    (hs : 1 ≤ f.target.subjs) : 2 ≤ f.target.subjs + (subjects f.moved).length := by
  obtain ⟨s, o, _, _, _, hm, _⟩ := C210_one_partial commas n cs f nd h
  rw [hm]; simp; omega

/-- A node with three or more subjects keeps all of them. -/
theorem C210_three_violated (commas : List Nat) (n : Nat) (cs : List C) (h : 3 ≤ (subjects cs).length) : fix commas n cs = none ∧ ¬ OneSubject commas n cs := by
  have hn : fix commas n cs = none := by
    unfold fix
    split
    · rename_i hs; rw [hs] at h; simp at h
    · rfl
  refine ⟨hn, ?_⟩
  unfold OneSubject
  rw [hn]
  simp only []
  omega

/-- A node with two subjects but no child that could take one keeps both; so does one with an `xcomp` child for which neither subject fits, whatever other children it has. -/
theorem C210_none_violated (commas : List Nat) (n : Nat) (cs : List C) (s0 s1 : C) (hs : subjects cs = [s0, s1])
    (h : (named .xcomp cs ≠ [] ∧ ∀ t ∈ named .xcomp cs, choose (fun a b => decide (a ≤ b)) commas n s0 s1 t = none) ∨
      (named .xcomp cs = [] ∧ named .advcl cs = [] ∧ ∀ t ∈ named .amodObl cs, t.cop = false)) : fix commas n cs = none ∧ ¬ OneSubject commas n cs := by
  have fnone : ∀ (le : Nat → Nat → Bool) (ts : List C), (∀ t ∈ ts, choose le commas n s0 s1 t = none) → find le commas n s0 s1 ts = none := by
    intro le ts
    induction ts with
    | nil => intro _; rfl
    | cons t ts ih => intro g; rw [find, g t (List.mem_cons_self ..)]; exact ih fun t ht => g t (List.mem_cons_of_mem _ ht)
  have hn : fix commas n cs = none := by
    unfold fix
    simp only [hs]
    rcases h with ⟨h1, h2⟩ | ⟨h1, h2, h3⟩
    · rw [if_pos h1, fnone _ _ h2]; rfl
    · have : (named .amodObl cs).filter (·.cop) = [] := List.filter_eq_nil_iff.mpr fun t ht => by simp [h3 t ht]
      rw [if_neg (by simp [h1]), if_neg (by simp [h2]), this]; rfl
  refine ⟨hn, ?_⟩
  unfold OneSubject
  rw [hn]
  simp [hs]

/-- The node at 2 with subjects at 1 and 5, an `xcomp` at 6 with a subject of its own and a further child at 7. With a comma at 4 only the distances grow. -/
def exCs : List C := [⟨1, .subj, false, 0⟩, ⟨5, .subj, false, 0⟩, ⟨6, .xcomp, false, 1⟩, ⟨7, .other, false, 0⟩]
example : (fix [4] 2 exCs).map (fun f => (f.target.ord, f.moved.map (·.ord), f.left.map (·.ord))) = some (6, [5, 7], [1, 6]) ∧ dist [4] 2 5 = 13 := by decide
example : fix [] 2 (⟨9, .subj, false, 0⟩ :: exCs) = none := by decide

end Verif.Blocks.DaSubjects
