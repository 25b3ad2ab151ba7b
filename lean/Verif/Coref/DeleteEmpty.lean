import Verif.Coref.Entity
import Verif.Coref.Order
import Verif.Py.Sort

/-!
# Property C111: deleting empty nodes with corefud.Delete (udapi/block/corefud/delete.py:20-83)

Enhanced dependencies of one tree. Nodes are named by numbers, words by their ord, the technical root by 0; a dependency is a parent and a
relation. The loops over a stack have fuel; the theorems say that they end. `dot x` says that there is a full stop in `raw_deps` of the word.
Left out: `Functor` in MISC (lines 81-82); deleting coreference and MISC (lines 85-93).
-/

namespace Verif.Coref.DeleteEmpty
open Verif.Py
open Verif.Coref (strLt)

abbrev Dep := Nat × Str

/-- `('parent': node.root, 'deprel': 'root')` -/
def rootDep : Dep := (0, ['r', 'o', 'o', 't'])

/-- The items pushed on the stack; the last one is on top. -/
def push (ds : List Dep) (path : List Nat) (st : List (Nat × List Nat)) : List (Nat × List Nat) := (ds.map (fun d => (d.1, path))).reverse ++ st

/-- `is_root_reachable_by_deps` (delete.py:20-40) from a stack; `none`: the fuel is used up. -/
def reachLoop (deps : Nat → List Dep) (ign : List Nat) : Nat → List (Nat × List Nat) → Option Bool
  | 0, _ => none
  | _ + 1, [] => some false
  | f + 1, (n, path) :: st =>
    if n = 0 then some true
    else if n ∈ path then reachLoop deps ign f st
    else reachLoop deps ign f (push ((deps n).filter (fun d => decide (d.1 ∉ ign))) (path ++ [n]) st)

/-- `_deps_ignore_nodes` (delete.py:42-60) from a stack. -/
def ignLoop (deps : Nat → List Dep) (ign : List Nat) : Nat → List (Nat × List Nat) → List Dep → Option (List Dep)
  | 0, _, _ => none
  | _ + 1, [], acc => some acc
  | f + 1, (n, sk) :: st, acc =>
    if n ∈ sk then ignLoop deps ign f st (acc ++ [rootDep])
    else ignLoop deps ign f (push ((deps n).filter (fun d => decide (d.1 ∈ ign))) (sk ++ [n]) st) (acc ++ (deps n).filter (fun d => decide (d.1 ∉ ign)))

/-- `set(...)` -/
def uniq : List Dep → List Dep
  | [] => []
  | x :: xs => if x ∈ xs then uniq xs else x :: uniq xs

/-- The order of pairs. -/
def depLe (a b : Dep) : Bool := decide (a.1 < b.1) || (a.1 == b.1 && !strLt b.2 a.2)

def upd (f : Nat → List Dep) (k : Nat) (v : List Dep) : Nat → List Dep := fun x => if x = k then v else f x

/-- The loop body for one word (delete.py:70-79). -/
def word (fuel : Nat) (dot : Nat → Bool) (emp : List Nat) (deps : Nat → List Dep) (x : Nat) : Option (Nat → List Dep) :=
  if dot x = false then some deps
  else
    match reachLoop deps emp fuel [(x, [])] with
    | none => none
    | some true => some (upd deps x ((deps x).filter (fun d => decide (d.1 ∉ emp))))
    | some false => (ignLoop deps emp fuel [(x, [])] []).map (fun new => upd deps x (pySort depLe (uniq new)))

/-- The loop over the words of a tree (delete.py:68-79). -/
def tree (fuel : Nat) (dot : Nat → Bool) (emp : List Nat) : (Nat → List Dep) → List Nat → Option (Nat → List Dep)
  | deps, [] => some deps
  | deps, x :: xs => (word fuel dot emp deps x).bind (fun d => tree fuel dot emp d xs)

/-! ## Specification -/

/-- A walk of the given length from a node to the technical root, along parents that are not in `ign`, through nodes not in `avoid`. -/
inductive Walk (deps : Nat → List Dep) (ign avoid : List Nat) : Nat → Nat → Prop
  | root : 0 ∉ avoid → Walk deps ign avoid 0 0
  | step {k n : Nat} {d : Dep} : n ≠ 0 → n ∉ avoid → d ∈ deps n → d.1 ∉ ign → Walk deps ign avoid k d.1 → Walk deps ign avoid (k + 1) n

/-- The root can be reached from the node without the nodes in `ign`. -/
def Reaches (deps : Nat → List Dep) (ign : List Nat) (n : Nat) : Prop := ∃ k, Walk deps ign [] k n

/-- From a node through ignored parents. -/
inductive Thru (deps : Nat → List Dep) (ign : List Nat) : Nat → Nat → Prop
  | refl (n : Nat) : Thru deps ign n n
  | step {n u : Nat} {d : Dep} : d ∈ deps n → d.1 ∈ ign → Thru deps ign d.1 u → Thru deps ign n u

/-- The node is on a cycle of ignored nodes. -/
def Loop (deps : Nat → List Dep) (ign : List Nat) (u : Nat) : Prop := ∃ d ∈ deps u, d.1 ∈ ign ∧ Thru deps ign d.1 u

/-- The nodes of the graph; it is finite. -/
structure Graph (deps : Nat → List Dep) (N : List Nat) : Prop where
  closed : ∀ n ∈ N, ∀ d ∈ deps n, d.1 ∈ N

/-! ## Proofs -/

theorem walk_not_avoid {deps : Nat → List Dep} {ign avoid : List Nat} {k n : Nat} (h : Walk deps ign avoid k n) : n ∉ avoid := by
  cases h with
  | root h => exact h
  | step _ h _ _ _ => exact h

theorem walk_split {deps : Nat → List Dep} {ign avoid : List Nat} (m : Nat) {k n : Nat} (h : Walk deps ign avoid k n) :
    Walk deps ign (avoid ++ [m]) k n ∨ ∃ k' ≤ k, Walk deps ign avoid k' m := by
  induction h with
  | root h =>
    by_cases hm : m = 0
    · exact Or.inr ⟨0, Nat.le_refl _, by rw [hm]; exact .root h⟩
    · refine Or.inl (.root ?_)
      rw [List.mem_append, List.mem_singleton]
      rintro (k | k)
      · exact h k
      · exact hm k.symm
  | @step k n d h1 h2 h3 h4 h5 ih =>
    by_cases hm : m = n
    · exact Or.inr ⟨k + 1, Nat.le_refl _, by rw [hm]; exact .step h1 h2 h3 h4 h5⟩
    · rcases ih with ih | ⟨k', h, w⟩
      · refine Or.inl (.step h1 ?_ h3 h4 ih)
        rw [List.mem_append, List.mem_singleton]
        rintro (k | k)
        · exact h2 k
        · exact hm k.symm
      · exact Or.inr ⟨k', by omega, w⟩

theorem walk_weaken {deps : Nat → List Dep} {ign avoid avoid' : List Nat} (ha : ∀ x ∈ avoid', x ∈ avoid) {k n : Nat} (h : Walk deps ign avoid k n) :
    Walk deps ign avoid' k n := by
  induction h with
  | root h => exact .root (fun k => h (ha _ k))
  | step h1 h2 h3 h4 _ ih => exact .step h1 (fun k => h2 (ha _ k)) h3 h4 ih

/-- A walk without repeated nodes goes on from some parent without coming back. -/
theorem walk_next {deps : Nat → List Dep} {ign avoid : List Nat} {n : Nat} (hn : n ≠ 0) :
    (∃ k, Walk deps ign avoid k n) ↔ n ∉ avoid ∧ ∃ d ∈ (deps n).filter (fun d => decide (d.1 ∉ ign)), ∃ k, Walk deps ign (avoid ++ [n]) k d.1 := by
  constructor
  · rintro ⟨k, h⟩
    induction k using Nat.strongRecOn with
    | ind k ih =>
      cases h with
      | root => exact absurd rfl hn
      | @step k _ d h1 h2 h3 h4 h5 =>
        rcases walk_split n h5 with w | ⟨k', hk, w⟩
        · exact ⟨h2, d, List.mem_filter.2 ⟨h3, by simpa using h4⟩, k, w⟩
        · exact ih k' (by omega) w
  · rintro ⟨h2, d, hd, k, w⟩
    rw [List.mem_filter] at hd
    exact ⟨k + 1, .step hn h2 hd.1 (by simpa using hd.2) (walk_weaken (fun x hx => List.mem_append_left _ hx) w)⟩

/-- The path of an item of the stack. -/
structure PathOk (N : List Nat) (n : Nat) (path : List Nat) : Prop where
  node : n ∈ N
  sub : ∀ x ∈ path, x ∈ N
  nodup : path.Nodup

theorem PathOk.length {N : List Nat} {n : Nat} {path : List Nat} (h : PathOk N n path) : path.length ≤ N.length :=
  length_le_of_subset h.nodup h.sub

theorem PathOk.next {deps : Nat → List Dep} {N : List Nat} (hg : Graph deps N) {n : Nat} {path : List Nat} (h : PathOk N n path) (hn : n ∉ path)
    {d : Dep} (hd : d ∈ deps n) : PathOk N d.1 (path ++ [n]) := by
  refine ⟨hg.closed n h.node d hd, ?_, ?_⟩
  · intro x hx
    rcases List.mem_append.1 hx with hx | hx
    · exact h.sub x hx
    · rw [List.mem_singleton.1 hx]; exact h.node
  · rw [List.nodup_append]
    refine ⟨h.nodup, by simp, ?_⟩
    intro a ha b hb
    rw [List.mem_singleton.1 hb]
    rintro rfl
    exact hn ha

theorem PathOk.lt {N : List Nat} {n : Nat} {path : List Nat} (h : PathOk N n path) (hn : n ∉ path) : path.length < N.length := by
  have : (n :: path).length ≤ N.length := length_le_of_subset (List.nodup_cons.2 ⟨hn, h.nodup⟩) (by
    intro x hx
    rcases List.mem_cons.1 hx with rfl | hx
    · exact h.node
    · exact h.sub x hx)
  exact this

theorem reach_item {deps : Nat → List Dep} {N ign : List Nat} (hg : Graph deps N) :
    ∀ (k n : Nat) (path : List Nat), PathOk N n path → 0 ∉ path → N.length ≤ path.length + k → ∀ st, ∃ c, ∀ f,
      ((∃ j, Walk deps ign path j n) → reachLoop deps ign (f + c) ((n, path) :: st) = some true) ∧
      ((¬ ∃ j, Walk deps ign path j n) → reachLoop deps ign (f + c) ((n, path) :: st) = reachLoop deps ign f st) := by
  intro k
  induction k with
  | zero =>
    intro n path hp h0 hk st
    have hin : n ∈ path := Decidable.byContradiction (fun hn => by have := hp.lt hn; omega)
    have hn0 : n ≠ 0 := fun e => h0 (by rw [← e]; exact hin)
    refine ⟨1, fun f => ⟨fun ⟨j, w⟩ => absurd hin (walk_not_avoid w), fun _ => ?_⟩⟩
    show (if n = 0 then some true else if n ∈ path then _ else _) = _
    rw [if_neg hn0, if_pos hin]
  | succ k ih =>
    intro n path hp h0 hk st
    by_cases hn0 : n = 0
    · refine ⟨1, fun f => ⟨fun _ => ?_, fun h => absurd ⟨0, by rw [hn0]; exact .root h0⟩ h⟩⟩
      show (if n = 0 then some true else _) = _
      rw [if_pos hn0]
    · by_cases hin : n ∈ path
      · refine ⟨1, fun f => ⟨fun ⟨j, w⟩ => absurd hin (walk_not_avoid w), fun _ => ?_⟩⟩
        show (if n = 0 then some true else if n ∈ path then _ else _) = _
        rw [if_neg hn0, if_pos hin]
      · have h0' : 0 ∉ path ++ [n] := by
          rw [List.mem_append, List.mem_singleton]
          rintro (k | k)
          · exact h0 k
          · exact hn0 k.symm
        have items : ∀ (ds : List Dep), (∀ d ∈ ds, d ∈ deps n) → ∃ c, ∀ f,
            ((∃ d ∈ ds, ∃ j, Walk deps ign (path ++ [n]) j d.1) → reachLoop deps ign (f + c) ((ds.map (fun d => (d.1, path ++ [n]))) ++ st) = some true) ∧
            ((¬ ∃ d ∈ ds, ∃ j, Walk deps ign (path ++ [n]) j d.1) →
              reachLoop deps ign (f + c) ((ds.map (fun d => (d.1, path ++ [n]))) ++ st) = reachLoop deps ign f st) := by
          intro ds
          induction ds with
          | nil => intro _; exact ⟨0, fun f => ⟨fun ⟨d, h, _⟩ => absurd h List.not_mem_nil, fun _ => rfl⟩⟩
          | cons d ds ihd =>
            intro hds
            obtain ⟨c1, h1⟩ := ihd (fun x hx => hds x (List.mem_cons_of_mem _ hx))
            obtain ⟨c2, h2⟩ := ih d.1 (path ++ [n]) (hp.next hg hin (hds d (List.mem_cons_self ..))) h0'
              (by rw [List.length_append, List.length_singleton]; omega) ((ds.map (fun d => (d.1, path ++ [n]))) ++ st)
            refine ⟨c1 + c2, fun f => ?_⟩
            have e : f + (c1 + c2) = (f + c1) + c2 := by omega
            rw [e, List.map_cons, List.cons_append]
            by_cases hw : ∃ j, Walk deps ign (path ++ [n]) j d.1
            · exact ⟨fun _ => (h2 (f + c1)).1 hw, fun h => absurd ⟨d, List.mem_cons_self .., hw⟩ h⟩
            · refine ⟨fun ⟨x, hx, w⟩ => ?_, fun h => ?_⟩
              · rw [(h2 (f + c1)).2 hw]
                rcases List.mem_cons.1 hx with rfl | hx
                · exact absurd w hw
                · exact (h1 f).1 ⟨x, hx, w⟩
              · rw [(h2 (f + c1)).2 hw]
                exact (h1 f).2 (fun ⟨x, hx, w⟩ => h ⟨x, List.mem_cons_of_mem _ hx, w⟩)
        obtain ⟨c, hc⟩ := items ((deps n).filter (fun d => decide (d.1 ∉ ign))).reverse
          (fun d hd => (List.mem_filter.1 (List.mem_reverse.1 hd)).1)
        refine ⟨c + 1, fun f => ?_⟩
        have hstep : reachLoop deps ign (f + (c + 1)) ((n, path) :: st) =
            reachLoop deps ign (f + c) (((deps n).filter (fun d => decide (d.1 ∉ ign))).reverse.map (fun d => (d.1, path ++ [n])) ++ st) := by
          show (if n = 0 then some true else if n ∈ path then _ else reachLoop deps ign (f + c) (push _ _ st)) = _
          rw [if_neg hn0, if_neg hin]
          unfold push
          rw [List.map_reverse]
        rw [hstep]
        have hiff : (∃ j, Walk deps ign path j n) ↔ ∃ d ∈ ((deps n).filter (fun d => decide (d.1 ∉ ign))).reverse, ∃ j, Walk deps ign (path ++ [n]) j d.1 := by
          rw [walk_next hn0]
          simp only [List.mem_reverse]
          exact ⟨fun h => h.2, fun h => ⟨hin, h⟩⟩
        exact ⟨fun h => (hc f).1 (hiff.1 h), fun h => (hc f).2 (fun k => h (hiff.2 k))⟩

/-- C111, reachability: in every finite graph the loop ends and tells whether the root can be reached from the node without the ignored nodes. -/
theorem C111_reachable {deps : Nat → List Dep} {N : List Nat} (hg : Graph deps N) (ign : List Nat) {x : Nat} (hx : x ∈ N) :
    ∃ f0, ∀ f ≥ f0, ∃ b, reachLoop deps ign f [(x, [])] = some b ∧ (b = true ↔ Reaches deps ign x) := by
  obtain ⟨c, hc⟩ := reach_item (ign := ign) hg N.length x [] ⟨hx, by simp, by simp⟩ (by simp) (by simp) []
  refine ⟨c + 1, fun f hf => ?_⟩
  obtain ⟨f', rfl⟩ : ∃ f', f = (f' + 1) + c := ⟨f - c - 1, by omega⟩
  by_cases h : ∃ j, Walk deps ign [] j x
  · exact ⟨true, (hc _).1 h, by simp [Reaches, h]⟩
  · exact ⟨false, (hc _).2 h, by simp [Reaches, h]⟩

/-- What the loop collects from an item of the stack. -/
inductive Out (deps : Nat → List Dep) (ign : List Nat) : List Nat → Nat → Dep → Prop
  | cycle {sk : List Nat} {n : Nat} : n ∈ sk → Out deps ign sk n rootDep
  | out {sk : List Nat} {n : Nat} {d : Dep} : n ∉ sk → d ∈ deps n → d.1 ∉ ign → Out deps ign sk n d
  | step {sk : List Nat} {n : Nat} {e d : Dep} : n ∉ sk → e ∈ deps n → e.1 ∈ ign → Out deps ign (sk ++ [n]) e.1 d → Out deps ign sk n d

theorem ign_item {deps : Nat → List Dep} {N ign : List Nat} (hg : Graph deps N) :
    ∀ (k n : Nat) (sk : List Nat), PathOk N n sk → N.length ≤ sk.length + k → ∃ c res, (∀ d, d ∈ res ↔ Out deps ign sk n d) ∧
      ∀ f st acc, ignLoop deps ign (f + c) ((n, sk) :: st) acc = ignLoop deps ign f st (acc ++ res) := by
  have base : ∀ (n : Nat) (sk : List Nat), n ∈ sk → ∃ c res, (∀ d, d ∈ res ↔ Out deps ign sk n d) ∧
      ∀ f st acc, ignLoop deps ign (f + c) ((n, sk) :: st) acc = ignLoop deps ign f st (acc ++ res) := by
    intro n sk hin
    refine ⟨1, [rootDep], fun d => ⟨fun h => ?_, fun h => ?_⟩, fun f st acc => ?_⟩
    · rw [List.mem_singleton.1 h]
      exact .cycle hin
    · cases h with
      | cycle _ => exact List.mem_singleton.2 rfl
      | out h => exact absurd hin h
      | step h => exact absurd hin h
    · show (if n ∈ sk then _ else _) = _
      rw [if_pos hin]
  intro k
  induction k with
  | zero =>
    intro n sk hp hk
    exact base n sk (Decidable.byContradiction (fun hn => by have := hp.lt hn; omega))
  | succ k ih =>
    intro n sk hp hk
    by_cases hin : n ∈ sk
    · exact base n sk hin
    · have items : ∀ (ds : List Dep), (∀ d ∈ ds, d ∈ deps n) → ∃ c res, (∀ d, d ∈ res ↔ ∃ e ∈ ds, Out deps ign (sk ++ [n]) e.1 d) ∧
          ∀ f st acc, ignLoop deps ign (f + c) ((ds.map (fun d => (d.1, sk ++ [n]))) ++ st) acc = ignLoop deps ign f st (acc ++ res) := by
        intro ds
        induction ds with
        | nil => intro _; exact ⟨0, [], by simp, fun f st acc => by simp⟩
        | cons d ds ihd =>
          intro hds
          obtain ⟨c1, r1, m1, h1⟩ := ihd (fun x hx => hds x (List.mem_cons_of_mem _ hx))
          obtain ⟨c2, r2, m2, h2⟩ := ih d.1 (sk ++ [n]) (hp.next hg hin (hds d (List.mem_cons_self ..)))
            (by rw [List.length_append, List.length_singleton]; omega)
          refine ⟨c1 + c2, r2 ++ r1, ?_, ?_⟩
          · intro x
            rw [List.mem_append, m1, m2]
            constructor
            · rintro (h | ⟨e, he, h⟩)
              · exact ⟨d, List.mem_cons_self .., h⟩
              · exact ⟨e, List.mem_cons_of_mem _ he, h⟩
            · rintro ⟨e, he, h⟩
              rcases List.mem_cons.1 he with rfl | he
              · exact Or.inl h
              · exact Or.inr ⟨e, he, h⟩
          · intro f st acc
            have e : f + (c1 + c2) = (f + c1) + c2 := by omega
            rw [e, List.map_cons, List.cons_append, h2, h1, List.append_assoc]
      obtain ⟨c, res, hm, hc⟩ := items ((deps n).filter (fun d => decide (d.1 ∈ ign))).reverse
        (fun d hd => (List.mem_filter.1 (List.mem_reverse.1 hd)).1)
      refine ⟨c + 1, (deps n).filter (fun d => decide (d.1 ∉ ign)) ++ res, ?_, ?_⟩
      · intro d
        rw [List.mem_append, hm, List.mem_filter, decide_eq_true_eq]
        constructor
        · rintro (⟨h1, h2⟩ | ⟨e, he, h⟩)
          · exact .out hin h1 h2
          · rw [List.mem_reverse, List.mem_filter, decide_eq_true_eq] at he
            exact .step hin he.1 he.2 h
        · intro h
          cases h with
          | cycle h => exact absurd h hin
          | out _ h1 h2 => exact Or.inl ⟨h1, h2⟩
          | step _ h1 h2 h3 => exact Or.inr ⟨_, by rw [List.mem_reverse, List.mem_filter, decide_eq_true_eq]; exact ⟨h1, h2⟩, h3⟩
      · intro f st acc
        show (if n ∈ sk then _ else ignLoop deps ign (f + c) (push _ _ st) _) = _
        rw [if_neg hin]
        unfold push
        rw [← List.map_reverse, hc, List.append_assoc]

theorem Thru.trans {deps : Nat → List Dep} {ign : List Nat} {a b c : Nat} (h : Thru deps ign a b) (k : Thru deps ign b c) : Thru deps ign a c := by
  induction h with
  | refl => exact k
  | step h1 h2 _ ih => exact .step h1 h2 (ih k)

theorem out_sound {deps : Nat → List Dep} {ign : List Nat} {sk : List Nat} {n : Nat} {d : Dep} (h : Out deps ign sk n d)
    (hs : ∀ s ∈ sk, ∃ e ∈ deps s, e.1 ∈ ign ∧ Thru deps ign e.1 n) :
    (∃ u, Thru deps ign n u ∧ d ∈ deps u ∧ d.1 ∉ ign) ∨ (d = rootDep ∧ ∃ u, Thru deps ign n u ∧ Loop deps ign u) := by
  induction h with
  | cycle h =>
    obtain ⟨e, h1, h2, h3⟩ := hs _ h
    exact Or.inr ⟨rfl, _, .refl _, e, h1, h2, h3⟩
  | out _ h1 h2 => exact Or.inl ⟨_, .refl _, h1, h2⟩
  | @step sk n e d h1 h2 h3 _ ih =>
    have := ih (by
      intro s hs'
      rcases List.mem_append.1 hs' with hs' | hs'
      · obtain ⟨e', q1, q2, q3⟩ := hs s hs'
        exact ⟨e', q1, q2, q3.trans (.step h2 h3 (.refl _))⟩
      · rw [List.mem_singleton.1 hs']
        exact ⟨e, h2, h3, .refl _⟩)
    rcases this with ⟨u, q1, q2, q3⟩ | ⟨q0, u, q1, q2⟩
    · exact Or.inl ⟨u, .step h2 h3 q1, q2, q3⟩
    · exact Or.inr ⟨q0, u, .step h2 h3 q1, q2⟩

/-- A way of the given length through ignored nodes, not through nodes in `avoid`. -/
inductive ThruA (deps : Nat → List Dep) (ign avoid : List Nat) : Nat → Nat → Nat → Prop
  | refl {n : Nat} : n ∉ avoid → ThruA deps ign avoid 0 n n
  | step {k n u : Nat} {d : Dep} : n ∉ avoid → d ∈ deps n → d.1 ∈ ign → ThruA deps ign avoid k d.1 u → ThruA deps ign avoid (k + 1) n u

theorem thruA_split {deps : Nat → List Dep} {ign avoid : List Nat} (m : Nat) {k n u : Nat} (h : ThruA deps ign avoid k n u) :
    ThruA deps ign (avoid ++ [m]) k n u ∨ ∃ k' ≤ k, ThruA deps ign avoid k' m u := by
  induction h with
  | @refl n h =>
    by_cases hm : m = n
    · exact Or.inr ⟨0, Nat.le_refl _, by rw [hm]; exact .refl h⟩
    · refine Or.inl (.refl ?_)
      rw [List.mem_append, List.mem_singleton]
      rintro (k | k)
      · exact h k
      · exact hm k.symm
  | @step k n u d h2 h3 h4 h5 ih =>
    by_cases hm : m = n
    · exact Or.inr ⟨k + 1, Nat.le_refl _, by rw [hm]; exact .step h2 h3 h4 h5⟩
    · rcases ih with ih | ⟨k', h, w⟩
      · refine Or.inl (.step ?_ h3 h4 ih)
        rw [List.mem_append, List.mem_singleton]
        rintro (k | k)
        · exact h2 k
        · exact hm k.symm
      · exact Or.inr ⟨k', by omega, w⟩

theorem out_complete {deps : Nat → List Dep} {ign : List Nat} {u : Nat} {d : Dep} (hd : d ∈ deps u) (hi : d.1 ∉ ign) :
    ∀ (k n : Nat) (sk : List Nat), ThruA deps ign sk k n u → Out deps ign sk n d := by
  intro k
  induction k using Nat.strongRecOn with
  | ind k ih =>
    intro n sk h
    cases h with
    | refl h => exact .out h hd hi
    | @step k _ _ e h1 h2 h3 h4 =>
      rcases thruA_split n h4 with w | ⟨k', hk, w⟩
      · exact .step h1 h2 h3 (ih k (by omega) _ _ w)
      · exact ih k' (by omega) _ _ w

theorem thruA_of {deps : Nat → List Dep} {ign : List Nat} {n u : Nat} (h : Thru deps ign n u) : ∃ k, ThruA deps ign [] k n u := by
  induction h with
  | refl => exact ⟨0, .refl List.not_mem_nil⟩
  | step h1 h2 _ ih =>
    obtain ⟨k, w⟩ := ih
    exact ⟨k + 1, .step List.not_mem_nil h1 h2 w⟩

/-- There is a way of any length from a node on a cycle. -/
theorem long_way {deps : Nat → List Dep} {ign : List Nat} {u : Nat} (hl : Loop deps ign u) (L : Nat) :
    ∀ n, Thru deps ign n u → ∃ v k, L ≤ k ∧ ThruA deps ign [] k n v := by
  induction L with
  | zero =>
    intro n h
    obtain ⟨k, w⟩ := thruA_of h
    exact ⟨u, k, Nat.zero_le _, w⟩
  | succ L ih =>
    intro n h
    cases h with
    | refl =>
      obtain ⟨d, h1, h2, h3⟩ := hl
      obtain ⟨v, k, hk, w⟩ := ih d.1 h3
      exact ⟨v, k + 1, by omega, .step List.not_mem_nil h1 h2 w⟩
    | step h1 h2 h3 =>
      obtain ⟨v, k, hk, w⟩ := ih _ h3
      exact ⟨v, k + 1, by omega, .step List.not_mem_nil h1 h2 w⟩

theorem out_cycle {deps : Nat → List Dep} {N ign : List Nat} (hg : Graph deps N) {v : Nat} : ∀ (k n : Nat) (sk : List Nat), PathOk N n sk →
    N.length < sk.length + k → ThruA deps ign [] k n v → Out deps ign sk n rootDep := by
  intro k
  induction k with
  | zero =>
    intro n sk hp hk _
    have := hp.length
    omega
  | succ k ih =>
    intro n sk hp hk h
    by_cases hin : n ∈ sk
    · exact .cycle hin
    · cases h with
      | step _ h1 h2 h3 =>
        exact .step hin h1 h2 (ih _ _ (hp.next hg hin h1) (by rw [List.length_append, List.length_singleton]; omega) h3)

/-- C111, skipping empty nodes: the loop ends; it collects exactly the dependencies on nodes that are not ignored, of the node itself and of the ignored nodes reached from
it through ignored nodes, and a dependency on the technical root if a cycle of ignored nodes is reached. -/
theorem C111_skip {deps : Nat → List Dep} {N : List Nat} (hg : Graph deps N) (ign : List Nat) {x : Nat} (hx : x ∈ N) :
    ∃ res f0, (∀ f ≥ f0, ignLoop deps ign f [(x, [])] [] = some res) ∧ ∀ d, d ∈ res ↔
      (∃ u, Thru deps ign x u ∧ d ∈ deps u ∧ d.1 ∉ ign) ∨ (d = rootDep ∧ ∃ u, Thru deps ign x u ∧ Loop deps ign u) := by
  have hp : PathOk N x [] := ⟨hx, by simp, by simp⟩
  obtain ⟨c, res, hm, hc⟩ := ign_item (ign := ign) hg N.length x [] hp (by simp)
  refine ⟨res, c + 1, fun f hf => ?_, fun d => ?_⟩
  · obtain ⟨f', rfl⟩ : ∃ f', f = (f' + 1) + c := ⟨f - c - 1, by omega⟩
    rw [hc]
    rfl
  · rw [hm]
    constructor
    · exact fun h => out_sound h (by simp)
    · rintro (⟨u, h1, h2, h3⟩ | ⟨rfl, u, h1, h2⟩)
      · obtain ⟨k, w⟩ := thruA_of h1
        exact out_complete h2 h3 k x [] w
      · obtain ⟨v, k, hk, w⟩ := long_way h2 (N.length + 1) x h1
        exact out_cycle hg k x [] hp (by simp; omega) w

theorem mem_uniq {d : Dep} : ∀ {l : List Dep}, d ∈ uniq l ↔ d ∈ l
  | [] => Iff.rfl
  | x :: xs => by
    unfold uniq
    by_cases h : x ∈ xs
    · rw [if_pos h, mem_uniq, List.mem_cons]
      exact ⟨Or.inr, fun k => k.elim (fun e => e ▸ h) id⟩
    · rw [if_neg h, List.mem_cons, List.mem_cons, mem_uniq]

theorem mem_sorted {d : Dep} {l : List Dep} : d ∈ pySort depLe (uniq l) ↔ d ∈ l := by
  rw [(pySort_perm depLe (uniq l)).mem_iff, mem_uniq]

/-- What the loop body does with the dependencies of one word that has a full stop in `raw_deps`. -/
theorem word_spec {deps : Nat → List Dep} {N : List Nat} (hg : Graph deps N) (dot : Nat → Bool) (emp : List Nat) {x : Nat} (hx : x ∈ N)
    (hd : dot x = true) : ∃ new f0, (∀ f ≥ f0, word f dot emp deps x = some (upd deps x new)) ∧
      (Reaches deps emp x → new = (deps x).filter (fun d => decide (d.1 ∉ emp))) ∧
      (¬ Reaches deps emp x → ∀ d, d ∈ new ↔
        (∃ u, Thru deps emp x u ∧ d ∈ deps u ∧ d.1 ∉ emp) ∨ (d = rootDep ∧ ∃ u, Thru deps emp x u ∧ Loop deps emp u)) := by
  obtain ⟨f1, h1⟩ := C111_reachable hg emp hx
  obtain ⟨res, f2, h2, hr⟩ := C111_skip hg emp hx
  by_cases hreach : Reaches deps emp x
  · refine ⟨_, f1, fun f hf => ?_, fun _ => rfl, fun h => absurd hreach h⟩
    obtain ⟨b, e1, hb⟩ := h1 f hf
    unfold word
    rw [hd, e1, hb.2 hreach]
    rfl
  · refine ⟨pySort depLe (uniq res), f1 + f2, fun f hf => ?_, fun h => absurd h hreach, fun _ d => by rw [mem_sorted, hr]⟩
    obtain ⟨b, e1, hb⟩ := h1 f (by omega)
    have hbf : b = false := by
      cases b with
      | false => rfl
      | true => exact absurd (hb.1 rfl) hreach
    unfold word
    rw [hd, e1, hbf, h2 f (by omega)]
    rfl

theorem upd_graph {deps : Nat → List Dep} {N : List Nat} (hg : Graph deps N) {x : Nat} {new : List Dep} (h : ∀ d ∈ new, d.1 ∈ N) : Graph (upd deps x new) N := by
  refine ⟨fun n hn d hd => ?_⟩
  unfold upd at hd
  split at hd
  · exact h d hd
  · exact hg.closed n hn d hd

theorem thru_mem {deps : Nat → List Dep} {N ign : List Nat} (hg : Graph deps N) {n u : Nat} (h : Thru deps ign n u) (hn : n ∈ N) : u ∈ N := by
  induction h with
  | refl => exact hn
  | step h1 _ _ ih => exact ih (hg.closed _ hn _ h1)

/-- A walk through nodes that are not empty does not need the dependencies on empty nodes. -/
theorem walk_filter {deps : Nat → List Dep} {emp : List Nat} (x : Nat) {k n : Nat} (h : Walk deps emp [] k n) :
    Walk (upd deps x ((deps x).filter (fun d => decide (d.1 ∉ emp)))) emp [] k n := by
  induction h with
  | root h => exact .root h
  | @step k n d h1 h2 h3 h4 _ ih =>
    refine .step (d := d) h1 h2 ?_ h4 ih
    unfold upd
    split
    · rename_i e
      rw [e] at h3
      exact List.mem_filter.2 ⟨h3, by simpa using h4⟩
    · exact h3

theorem walk_ign {deps : Nat → List Dep} {emp : List Nat} {k n : Nat} (h : Walk deps emp [] k n) : Walk deps [] [] k n := by
  induction h with
  | root h => exact .root h
  | step h1 h2 h3 _ _ ih => exact .step h1 h2 h3 List.not_mem_nil ih

/-- The first node on a walk that is not empty. -/
theorem walk_first {deps : Nat → List Dep} {emp : List Nat} (h0 : 0 ∉ emp) : ∀ {k n : Nat}, n ≠ 0 → Walk deps [] [] k n →
    ∃ u d k', Thru deps emp n u ∧ d ∈ deps u ∧ d.1 ∉ emp ∧ k' < k ∧ Walk deps [] [] k' d.1 := by
  intro k
  induction k with
  | zero => intro n hn h; cases h; exact absurd rfl hn
  | succ k ih =>
    intro n hn h
    cases h with
    | @step _ _ d h1 h2 h3 h4 h5 =>
      by_cases hd : d.1 ∈ emp
      · obtain ⟨u, e, k', q1, q2, q3, q4, q5⟩ := ih (fun e => h0 (e ▸ hd)) h5
        exact ⟨u, e, k', .step h3 hd q1, q2, q3, by omega, q5⟩
      · exact ⟨n, d, k, .refl n, h3, hd, by omega, h5⟩

theorem reaches_filter {deps : Nat → List Dep} {emp : List Nat} {x : Nat} (hx : Reaches deps emp x) {n : Nat} (h : Reaches deps [] n) :
    Reaches (upd deps x ((deps x).filter (fun d => decide (d.1 ∉ emp)))) [] n := by
  obtain ⟨kx, wx⟩ := hx
  have wx' := walk_ign (walk_filter x wx)
  obtain ⟨k, w⟩ := h
  induction w with
  | root h => exact ⟨0, .root h⟩
  | @step k n d h1 h2 h3 h4 _ ih =>
    by_cases hn : n = x
    · rw [hn]; exact ⟨kx, wx'⟩
    · obtain ⟨k', w'⟩ := ih
      refine ⟨k' + 1, .step (d := d) h1 h2 ?_ h4 w'⟩
      unfold upd
      rw [if_neg hn]
      exact h3

theorem reaches_skip {deps : Nat → List Dep} {emp : List Nat} (h0 : 0 ∉ emp) {x : Nat} {new : List Dep}
    (hnew : ∀ u d, Thru deps emp x u → d ∈ deps u → d.1 ∉ emp → d ∈ new) : ∀ (k n : Nat), Walk deps [] [] k n → Reaches (upd deps x new) [] n := by
  intro k
  induction k using Nat.strongRecOn with
  | ind k ih =>
    intro n w
    by_cases hn0 : n = 0
    · rw [hn0]; exact ⟨0, .root List.not_mem_nil⟩
    · by_cases hn : n = x
      · obtain ⟨u, d, k', q1, q2, q3, q4, q5⟩ := walk_first h0 hn0 w
        obtain ⟨j, w'⟩ := ih k' q4 d.1 q5
        refine ⟨j + 1, .step (d := d) hn0 List.not_mem_nil ?_ List.not_mem_nil w'⟩
        unfold upd
        rw [if_pos hn]
        exact hnew u d (hn ▸ q1) q2 q3
      · cases w with
        | root => exact absurd rfl hn0
        | @step k _ d h1 h2 h3 h4 h5 =>
          obtain ⟨j, w'⟩ := ih k (by omega) d.1 h5
          refine ⟨j + 1, .step (d := d) hn0 List.not_mem_nil ?_ List.not_mem_nil w'⟩
          unfold upd
          rw [if_neg hn]
          exact h3

/-- One word: nothing is lost, no empty parent is left, and everything can still be reached. -/
theorem word_step {deps : Nat → List Dep} {N : List Nat} (hg : Graph deps N) (dot : Nat → Bool) (emp : List Nat) (h0 : 0 ∉ emp) (hr : 0 ∈ N) {x : Nat}
    (hx : x ∈ N) (hdot : dot x = false → ∀ d ∈ deps x, d.1 ∉ emp) : ∃ new f0, (∀ f ≥ f0, word f dot emp deps x = some (upd deps x new)) ∧
      (∀ d ∈ new, d.1 ∈ N) ∧ (∀ d ∈ new, d.1 ∉ emp) ∧ (dot x = false → new = deps x) ∧ (∀ n, Reaches deps [] n → Reaches (upd deps x new) [] n) := by
  have same : upd deps x (deps x) = deps := by
    funext y
    unfold upd
    split
    · rename_i e; rw [e]
    · rfl
  cases hd : dot x with
  | false =>
    refine ⟨deps x, 0, fun f _ => ?_, hg.closed x hx, hdot hd, fun _ => rfl, fun n h => by rw [same]; exact h⟩
    unfold word
    rw [hd, same]
    rfl
  | true =>
    obtain ⟨new, f0, hf, h1, h2⟩ := word_spec hg dot emp hx hd
    by_cases hreach : Reaches deps emp x
    · have e := h1 hreach
      refine ⟨new, f0, hf, fun d h => ?_, fun d h => ?_, by simp, fun n h => ?_⟩
      · rw [e] at h
        exact hg.closed x hx d (List.mem_filter.1 h).1
      · rw [e, List.mem_filter, decide_eq_true_eq] at h
        exact h.2
      · rw [e]
        exact reaches_filter hreach h
    · have hm := h2 hreach
      refine ⟨new, f0, hf, fun d h => ?_, fun d h => ?_, by simp, fun n ⟨k, w⟩ => ?_⟩
      · rcases (hm d).1 h with ⟨u, q1, q2, _⟩ | ⟨rfl, _⟩
        · exact hg.closed u (thru_mem hg q1 hx) d q2
        · exact hr
      · rcases (hm d).1 h with ⟨u, _, _, q3⟩ | ⟨rfl, _⟩
        · exact q3
        · exact h0
      · exact reaches_skip h0 (fun u d a b c => (hm d).2 (Or.inl ⟨u, a, b, c⟩)) k n w

theorem tree_spec (dot : Nat → Bool) (emp N : List Nat) (h0 : 0 ∉ emp) (hr : 0 ∈ N) : ∀ (ws : List Nat) (deps : Nat → List Dep), Graph deps N → ws.Nodup →
    (∀ x ∈ ws, x ∈ N) → (∀ x ∈ ws, dot x = false → ∀ d ∈ deps x, d.1 ∉ emp) →
    ∃ deps' f0, (∀ f ≥ f0, tree f dot emp deps ws = some deps') ∧ Graph deps' N ∧ (∀ x ∈ ws, ∀ d ∈ deps' x, d.1 ∉ emp) ∧
      (∀ x, x ∉ ws ∨ dot x = false → deps' x = deps x) ∧ (∀ n, Reaches deps [] n → Reaches deps' [] n) := by
  intro ws
  induction ws with
  | nil => intro deps hg _ _ _; exact ⟨deps, 0, fun f _ => rfl, hg, by simp, fun _ _ => rfl, fun _ h => h⟩
  | cons x ws ih =>
    intro deps hg hnd hN hdot
    have hnx := (List.nodup_cons.1 hnd).1
    have hx := hN x (List.mem_cons_self ..)
    obtain ⟨new, f1, hf1, hnewN, hnewE, hsame, hreach⟩ := word_step hg dot emp h0 hr hx (hdot x (List.mem_cons_self ..))
    obtain ⟨deps', f0, e, qg, q1, q2, q3⟩ := ih (upd deps x new) (upd_graph hg hnewN) (List.nodup_cons.1 hnd).2
      (fun y hy => hN y (List.mem_cons_of_mem _ hy)) (by
        intro y hy hdy d hyd
        unfold upd at hyd
        rw [if_neg (by rintro rfl; exact hnx hy)] at hyd
        exact hdot y (List.mem_cons_of_mem _ hy) hdy d hyd)
    refine ⟨deps', f1 + f0, fun f hf => ?_, qg, ?_, ?_, fun n h => q3 n (hreach n h)⟩
    · unfold tree
      rw [hf1 f (by omega)]
      exact e f (by omega)
    · intro y hy d hyd
      rcases List.mem_cons.1 hy with rfl | hy
      · rw [q2 y (Or.inl hnx)] at hyd
        unfold upd at hyd
        rw [if_pos rfl] at hyd
        exact hnewE d hyd
      · exact q1 y hy d hyd
    · intro y hy
      rw [q2 y (hy.imp (fun h k => h (List.mem_cons_of_mem _ k)) id)]
      unfold upd
      split
      · rename_i e
        rcases hy with hy | hy
        · exact absurd (e ▸ List.mem_cons_self ..) hy
        · rw [e] at hy ⊢
          exact hsame hy
      · rfl

theorem walk_words {deps : Nat → List Dep} {emp ws : List Nat} (hg : Graph deps (0 :: ws ++ emp)) (he : ∀ x ∈ ws, ∀ d ∈ deps x, d.1 ∉ emp)
    {k n : Nat} (h : Walk deps [] [] k n) (hn : n = 0 ∨ n ∈ ws) : Walk deps emp [] k n := by
  induction h with
  | root h => exact .root h
  | @step k n d h1 h2 h3 _ _ ih =>
    have hw : n ∈ ws := hn.resolve_left h1
    have hd := he n hw d h3
    have := hg.closed n (by simp [hw]) d h3
    refine .step (d := d) h1 h2 h3 hd (ih ?_)
    simp only [List.cons_append, List.mem_cons, List.mem_append] at this
    rcases this with e | e | e
    · exact Or.inl e
    · exact Or.inr e
    · exact absurd e hd

/-- C111, the whole tree: the loop ends; no word depends on an empty node any more; the words without a full stop keep their dependencies; and if the root could be
reached from every word, it can be reached from every word through words only. -/
theorem C111_tree (dot : Nat → Bool) (emp ws : List Nat) (deps : Nat → List Dep) (hnd : ws.Nodup) (h0 : 0 ∉ emp)
    (hg : Graph deps (0 :: ws ++ emp)) (hdot : ∀ x ∈ ws, (∃ d ∈ deps x, d.1 ∈ emp) → dot x = true) :
    ∃ deps' f0, (∀ f ≥ f0, tree f dot emp deps ws = some deps') ∧ (∀ x ∈ ws, ∀ d ∈ deps' x, d.1 ∉ emp) ∧
      (∀ x ∈ ws, dot x = false → deps' x = deps x) ∧ ((∀ x ∈ ws, Reaches deps [] x) → ∀ x ∈ ws, Reaches deps' emp x) := by
  obtain ⟨deps', f0, e, qg, q1, q2, q3⟩ := tree_spec dot emp (0 :: ws ++ emp) h0 (by simp) ws deps hg hnd (fun x hx => by simp [hx]) (by
    intro x hx hd d hyd hin
    rw [hdot x hx ⟨d, hyd, hin⟩] at hd
    exact absurd hd (by simp))
  refine ⟨deps', f0, e, q1, fun x _ hd => q2 x (Or.inr hd), fun hall x hx => ?_⟩
  obtain ⟨k, w⟩ := q3 x (hall x hx)
  exact ⟨k, walk_words qg q1 w (Or.inr hx)⟩

theorem tree_append (f : Nat) (dot : Nat → Bool) (emp : List Nat) : ∀ (a b : List Nat) (deps : Nat → List Dep),
    tree f dot emp deps (a ++ b) = (tree f dot emp deps a).bind (fun d => tree f dot emp d b)
  | [], _, _ => rfl
  | x :: a, b, deps => by
    show (word f dot emp deps x).bind _ = ((word f dot emp deps x).bind _).bind _
    cases word f dot emp deps x with
    | none => rfl
    | some d => exact tree_append f dot emp a b d

/-- The dependencies of a word all of whose parents are empty nodes, after the whole loop. -/
theorem tree_word (dot : Nat → Bool) (emp ws : List Nat) (deps : Nat → List Dep) (hnd : ws.Nodup) (h0 : 0 ∉ emp)
    (hws : ∀ y ∈ ws, y ≠ 0 ∧ y ∉ emp) (hg : Graph deps (0 :: ws ++ emp)) (hdot : ∀ y ∈ ws, (∃ d ∈ deps y, d.1 ∈ emp) → dot y = true) {x : Nat} (hx : x ∈ ws)
    (hd : dot x = true) (hall : ∀ d ∈ deps x, d.1 ∈ emp) :
    ∃ deps' f0, (∀ f ≥ f0, tree f dot emp deps ws = some deps') ∧ ∀ d, d ∈ deps' x ↔
        (∃ u, Thru deps emp x u ∧ d ∈ deps u ∧ d.1 ∉ emp) ∨ (d = rootDep ∧ ∃ u, Thru deps emp x u ∧ Loop deps emp u) := by
  obtain ⟨a, b, rfl⟩ := List.append_of_mem hx
  have hnd' := hnd
  rw [List.nodup_append] at hnd'
  obtain ⟨na, nb, nab⟩ := hnd'
  have hxa : x ∉ a := fun h => nab x h x (List.mem_cons_self ..) rfl
  have hxb : x ∉ b := (List.nodup_cons.1 nb).1
  have hno : ∀ y ∈ a ++ x :: b, dot y = false → ∀ d ∈ deps y, d.1 ∉ emp := by
    intro y hy hdy d hyd hin
    rw [hdot y hy ⟨d, hyd, hin⟩] at hdy
    exact absurd hdy (by simp)
  obtain ⟨d1, f1, e1, g1, _, s1, _⟩ := tree_spec dot emp (0 :: (a ++ x :: b) ++ emp) h0 (by simp) a deps hg na
    (fun y hy => by simp [hy]) (fun y hy => hno y (List.mem_append_left _ hy))
  have hsub : ∀ y, y = x ∨ y ∈ emp → d1 y = deps y := by
    intro y hy
    refine s1 y (Or.inl ?_)
    rcases hy with rfl | hy
    · exact hxa
    · exact fun h => (hws y (List.mem_append_left _ h)).2 hy
  have hnr : ¬ Reaches d1 emp x := by
    rintro ⟨k, w⟩
    cases w with
    | root => exact absurd rfl (hws 0 hx).1
    | step _ _ h3 h4 _ =>
      rw [hsub x (Or.inl rfl)] at h3
      exact h4 (hall _ h3)
  obtain ⟨new, f2, e2, _, hm⟩ := word_spec g1 dot emp (x := x) (by simp) hd
  have hm := hm hnr
  have hnewN : ∀ d ∈ new, d.1 ∈ 0 :: (a ++ x :: b) ++ emp := by
    intro d h
    rcases (hm d).1 h with ⟨u, q1, q2, _⟩ | ⟨rfl, _⟩
    · exact g1.closed u (thru_mem g1 q1 (by simp)) d q2
    · exact List.mem_cons_self ..
  obtain ⟨d2, f3, e3, _, _, s3, _⟩ := tree_spec dot emp (0 :: (a ++ x :: b) ++ emp) h0 (by simp) b (upd d1 x new) (upd_graph g1 hnewN)
    (List.nodup_cons.1 nb).2 (fun y hy => by simp [hy]) (by
      intro y hy hdy d hyd
      have hyx : y ≠ x := by rintro rfl; exact hxb hy
      have hya : y ∉ a := fun h => nab y h y (List.mem_cons_of_mem _ hy) rfl
      unfold upd at hyd
      rw [if_neg hyx, s1 y (Or.inl hya)] at hyd
      exact hno y (by simp [hy]) hdy d hyd)
  have thru_same : ∀ n u, (n = x ∨ n ∈ emp) → (Thru d1 emp n u ↔ Thru deps emp n u) := by
    intro n u hn
    constructor
    · intro h
      induction h with
      | refl => exact .refl _
      | step q1 q2 _ ih => exact .step (by rw [← hsub _ hn]; exact q1) q2 (ih (Or.inr q2))
    · intro h
      induction h with
      | refl => exact .refl _
      | step q1 q2 _ ih => exact .step (by rw [hsub _ hn]; exact q1) q2 (ih (Or.inr q2))
  have thru_end : ∀ n u, (n = x ∨ n ∈ emp) → Thru deps emp n u → u = x ∨ u ∈ emp := by
    intro n u hn h
    induction h with
    | refl => exact hn
    | step _ q2 _ ih => exact ih (Or.inr q2)
  refine ⟨d2, f1 + f2 + f3, fun f hf => ?_, fun d => ?_⟩
  · rw [tree_append, e1 f (by omega)]
    show (word f dot emp d1 x).bind _ = _
    rw [e2 f (by omega)]
    exact e3 f (by omega)
  · rw [s3 x (Or.inl hxb)]
    unfold upd
    rw [if_pos rfl, hm]
    constructor
    · rintro (⟨u, q1, q2, q3⟩ | ⟨q0, u, q1, e, q2, q3, q4⟩)
      · have q1' := (thru_same x u (Or.inl rfl)).1 q1
        rw [hsub u (thru_end x u (Or.inl rfl) q1')] at q2
        exact Or.inl ⟨u, q1', q2, q3⟩
      · have q1' := (thru_same x u (Or.inl rfl)).1 q1
        rw [hsub u (thru_end x u (Or.inl rfl) q1')] at q2
        exact Or.inr ⟨q0, u, q1', e, q2, q3, (thru_same _ u (Or.inr q3)).1 q4⟩
    · rintro (⟨u, q1, q2, q3⟩ | ⟨q0, u, q1, e, q2, q3, q4⟩)
      · have q1' := (thru_same x u (Or.inl rfl)).2 q1
        rw [← hsub u (thru_end x u (Or.inl rfl) q1)] at q2
        exact Or.inl ⟨u, q1', q2, q3⟩
      · have q1' := (thru_same x u (Or.inl rfl)).2 q1
        rw [← hsub u (thru_end x u (Or.inl rfl) q1)] at q2
        exact Or.inr ⟨q0, u, q1', e, q2, q3, (thru_same _ u (Or.inr q3)).2 q4⟩

/-- C111, violated: a word that depends on empty nodes only, one of which depends on the word, ends as its own enhanced parent, in every tree. -/
theorem C111_own_parent_violated (dot : Nat → Bool) (emp ws : List Nat) (deps : Nat → List Dep) (hnd : ws.Nodup) (h0 : 0 ∉ emp)
    (hws : ∀ y ∈ ws, y ≠ 0 ∧ y ∉ emp) (hg : Graph deps (0 :: ws ++ emp)) (hdot : ∀ y ∈ ws, (∃ d ∈ deps y, d.1 ∈ emp) → dot y = true) {x : Nat} (hx : x ∈ ws)
    (hall : ∀ d ∈ deps x, d.1 ∈ emp) {e : Dep} (he : e ∈ deps x) {rel : Str} (hback : (x, rel) ∈ deps e.1) :
    ∃ deps' f0, (∀ f ≥ f0, tree f dot emp deps ws = some deps') ∧ (x, rel) ∈ deps' x := by
  obtain ⟨deps', f0, h, hm⟩ := tree_word dot emp ws deps hnd h0 hws hg hdot hx (hdot x hx ⟨e, he, hall e he⟩) hall
  exact ⟨deps', f0, h, (hm _).2 (Or.inl ⟨e.1, .step he (hall e he) (.refl _), hback, (hws x hx).2⟩)⟩

/-- C111, violated: a word that depends on empty nodes only, which have no enhanced parents themselves, is left with no enhanced parent: its `raw_deps` is the empty
string instead of `_`. -/
theorem C111_no_parent_violated (dot : Nat → Bool) (emp ws : List Nat) (deps : Nat → List Dep) (hnd : ws.Nodup) (h0 : 0 ∉ emp)
    (hws : ∀ y ∈ ws, y ≠ 0 ∧ y ∉ emp) (hg : Graph deps (0 :: ws ++ emp)) (hdot : ∀ y ∈ ws, (∃ d ∈ deps y, d.1 ∈ emp) → dot y = true) {x : Nat} (hx : x ∈ ws)
    (hd : dot x = true) (hall : ∀ d ∈ deps x, d.1 ∈ emp ∧ deps d.1 = []) :
    ∃ deps' f0, (∀ f ≥ f0, tree f dot emp deps ws = some deps') ∧ deps' x = [] := by
  obtain ⟨deps', f0, h, hm⟩ := tree_word dot emp ws deps hnd h0 hws hg hdot hx hd (fun d h => (hall d h).1)
  refine ⟨deps', f0, h, List.eq_nil_iff_forall_not_mem.2 (fun d hd' => ?_)⟩
  have hend : ∀ u, Thru deps emp x u → u = x ∨ deps u = [] := by
    intro u q
    cases q with
    | refl => exact Or.inl rfl
    | step q1 q2 q3 =>
      have e1 := (hall _ q1).2
      cases q3 with
      | refl => exact Or.inr e1
      | step q4 _ _ => rw [e1] at q4; exact absurd q4 List.not_mem_nil
  rcases (hm d).1 hd' with ⟨u, q1, q2, q3⟩ | ⟨_, u, q1, e, q2, q3, q4⟩
  · rcases hend u q1 with rfl | h
    · exact q3 (hall d q2).1
    · rw [h] at q2; exact absurd q2 List.not_mem_nil
  · rcases hend u q1 with rfl | h
    · cases q4 with
      | refl => exact absurd q3 (hws _ hx).2
      | step q5 _ _ => rw [(hall e q2).2] at q5; exact absurd q5 List.not_mem_nil
    · rw [h] at q2; exact absurd q2 List.not_mem_nil

/-! ## Examples: word 1 under the root, word 2 under the empty node 10, which is under 1 and under 2; word 3 under 1 and under the empty node 11, which is under 11 -/

def exDeps : Nat → List Dep
  | 1 => [(0, ['r'])]
  | 2 => [(10, ['a'])]
  | 3 => [(1, ['b']), (11, ['c'])]
  | 4 => [(11, ['d'])]
  | 10 => [(1, ['e']), (2, ['f'])]
  | 11 => [(11, ['g'])]
  | _ => []

def exDot : Nat → Bool := fun x => x != 1

example : ((tree 20 exDot [10, 11] exDeps [1, 2, 3, 4]).map (fun d => [1, 2, 3, 4].map d)) =
    some [[(0, ['r'])], [(1, ['e']), (2, ['f'])], [(1, ['b'])], [rootDep]] := by decide

example : reachLoop exDeps [10, 11] 9 [(3, [])] = some true ∧ reachLoop exDeps [10, 11] 9 [(2, [])] = some false := by decide

example : Reaches exDeps [10, 11] 3 := ⟨2, .step (d := (1, ['b'])) (by decide) (by simp) (by decide) (by decide)
  (.step (d := (0, ['r'])) (by decide) (by simp) (by decide) (by decide) (.root (by simp)))⟩

/-- The words 1, 2 with the empty node 10 satisfy the assumptions; the root can be reached from both. -/
example : Graph exDeps (0 :: [1, 2] ++ [10]) ∧ (∀ x ∈ [1, 2], Reaches exDeps [] x) := by
  have w1 : Walk exDeps [] [] 1 1 := .step (d := (0, ['r'])) (by decide) (by simp) (by decide) (by decide) (.root (by simp))
  refine ⟨⟨by decide⟩, ?_⟩
  intro x hx
  rcases List.mem_cons.1 hx with rfl | hx
  · exact ⟨1, w1⟩
  · rw [List.mem_singleton.1 hx]
    exact ⟨3, .step (d := (10, ['a'])) (by decide) (by simp) (by decide) (by decide) (.step (d := (1, ['e'])) (by decide) (by simp) (by decide) (by decide) w1)⟩

/-- The assumptions of `C111_own_parent_violated` and `C111_no_parent_violated`. -/
example : (∀ d ∈ exDeps 2, d.1 ∈ [10]) ∧ ((10, ['a']) : Dep) ∈ exDeps 2 ∧ ((2, ['f']) : Dep) ∈ exDeps 10 := by decide

example : ((tree 9 (fun _ => true) [10] (fun n => if n = 1 then [(10, ['a'])] else []) [1]).map (fun d => d 1)) = some [] := by decide

end Verif.Coref.DeleteEmpty
