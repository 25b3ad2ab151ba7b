import Verif.Py.Str

/-!
# Property C209: changing a relation in the basic tree and in the enhanced graph at once

Sources: `udapi/block/ud/es/fixtenerque.py` (`reattach` and `process_node`), `udapi/block/ud/ru/fixtoest.py` (`set_basic_and_enhanced`) and `udapi/block/ud/ca/elque.py`
(`attach`). Relations are one-line strings; `re.sub(r':.*', '', deprel)` and `udeprel` are both the part before the first colon. Nodes are numbers; the cycle check of the
`parent` setter is not modelled (C136 has the same head swap on the tree model).
-/

namespace Verif.Deps.Reattach
open Verif.Py

/-- The part of a relation before the first colon: `re.sub(r':.*', '', x)` and `Node.udeprel`. -/
def u (d : Str) : Str := d.takeWhile (· != ':')

/-- A node: basic parent and relation, and the enhanced relations. -/
structure N where
  parent : Nat
  deprel : Str
  deps : List (Nat × Str)
deriving DecidableEq

/-- `FixTenerQue.reattach` (fixtenerque.py:34-47) -/
def reattach (n : N) (p : Nat) (d : Str) : N :=
  let kept := n.deps.filter fun x => x.1 != n.parent || u x.2 != u n.deprel
  ⟨p, d, if n.deps ≠ [] then (if kept.length < n.deps.length then kept ++ [(p, d)] else kept) else n.deps⟩

/-- `FixToEst.set_basic_and_enhanced` (fixtoest.py:19-35) -/
def setBoth (n : N) (p : Nat) (d e : Str) : N := ⟨p, d, (n.deps.filter fun x => x.1 != n.parent) ++ [(p, e)]⟩

/-- `attach` of ca.ElQue (elque.py:102-115) -/
def attach (n : N) (p : Nat) (d : Option Str) : N :=
  ⟨p, d.getD n.deprel, match n.deps with
    | [x] => [(p, d.getD x.2)]
    | l => l⟩

/-- The enhanced graph contains the basic relation, up to what follows the colon. -/
def Sync (n : N) : Prop := ∃ x ∈ n.deps, x.1 = n.parent ∧ u x.2 = u n.deprel

/-- An enhanced relation that stands for the basic one. -/
def Basic (n : N) (x : Nat × Str) : Prop := x.1 = n.parent ∧ u x.2 = u n.deprel

theorem kept_iff (n : N) (x : Nat × Str) : (x.1 != n.parent || u x.2 != u n.deprel) = true ↔ ¬ Basic n x := by
  simp only [Basic, Bool.or_eq_true, bne_iff_ne, ne_eq]
  constructor
  · rintro (h | h) ⟨h1, h2⟩
    · exact h h1
    · exact h h2
  · intro h
    by_cases h1 : x.1 = n.parent
    · exact Or.inr fun h2 => h ⟨h1, h2⟩
    · exact Or.inl h1

theorem kept_lt (n : N) : (n.deps.filter fun x => x.1 != n.parent || u x.2 != u n.deprel).length < n.deps.length ↔ Sync n := by
  rw [List.length_filter_lt_length_iff_exists]
  constructor
  · rintro ⟨x, hx, h⟩
    rw [kept_iff, Classical.not_not] at h
    exact ⟨x, hx, h⟩
  · rintro ⟨x, hx, h⟩
    exact ⟨x, hx, by rw [kept_iff]; exact fun g => g h⟩

/-- The enhanced relations after `reattach`. -/
theorem reattach_deps (n : N) (p : Nat) (d : Str) (x : Nat × Str) :
    x ∈ (reattach n p d).deps ↔ (x ∈ n.deps ∧ ¬ Basic n x) ∨ (Sync n ∧ x = (p, d)) := by
  unfold reattach
  by_cases h0 : n.deps = []
  · have hs : ¬ Sync n := by rintro ⟨y, hy, _⟩; rw [h0] at hy; cases hy
    simp [h0, hs]
  · simp only [if_pos h0]
    split
    · rename_i h
      have hs := (kept_lt n).mp h
      rw [List.mem_append, List.mem_filter, kept_iff]
      simp [hs]
    · rename_i h
      have hs : ¬ Sync n := fun g => h ((kept_lt n).mpr g)
      rw [List.mem_filter, kept_iff]
      simp [hs]

/-! ## C209 -/

/-- `reattach` makes the same change in the basic tree and in the enhanced graph: the basic relation becomes the new one; every enhanced relation other than the basic one stays; if the
basic relation was among the enhanced ones, the new one is now, and the old one is gone unless it is the new one. -/
theorem C209_reattach (n : N) (p : Nat) (d : Str) :
    (reattach n p d).parent = p ∧ (reattach n p d).deprel = d ∧
    (∀ x, ¬ Basic n x → x ≠ (p, d) → (x ∈ (reattach n p d).deps ↔ x ∈ n.deps)) ∧
    (Sync n → (p, d) ∈ (reattach n p d).deps) ∧
    (∀ x, Basic n x → x ∈ (reattach n p d).deps → x = (p, d)) := by
  refine ⟨rfl, rfl, ?_, ?_, ?_⟩
  · intro x hb hx
    rw [reattach_deps]
    simp [hb, hx]
  · intro hs; rw [reattach_deps]; exact Or.inr ⟨hs, rfl⟩
  · intro x hb hx
    rw [reattach_deps] at hx
    rcases hx with ⟨_, h⟩ | ⟨_, h⟩
    · exact absurd hb h
    · exact h

/-- When the basic relation is not among the enhanced ones, `reattach` leaves the enhanced relations alone, in their order. -/
theorem C209_not_there (n : N) (p : Nat) (d : Str) (h : ¬ Sync n) : (reattach n p d).deps = n.deps := by
  unfold reattach
  by_cases h0 : n.deps = []
  · simp [h0]
  · simp only [if_pos h0]
    rw [if_neg (fun g => h ((kept_lt n).mp g))]
    refine List.filter_eq_self.mpr ?_
    intro x hx
    rw [kept_iff]
    exact fun g => h ⟨x, hx, g⟩

/-- `set_basic_and_enhanced` always adds the new relation; of the old ones exactly those to the former parent go. -/
theorem C209_set (n : N) (p : Nat) (d e : Str) :
    (setBoth n p d e).parent = p ∧ (setBoth n p d e).deprel = d ∧
    ∀ x, x ∈ (setBoth n p d e).deps ↔ (x ∈ n.deps ∧ x.1 ≠ n.parent) ∨ x = (p, e) := by
  refine ⟨rfl, rfl, fun x => ?_⟩
  simp [setBoth]

/-- The full claim for `attach`: a node whose enhanced relations contain the basic one still is such a node. -/
def KeepsSync (n : N) (p : Nat) (d : Option Str) : Prop := Sync n → Sync (attach n p d)

/-- `attach` keeps the two in step for a node with one enhanced relation. -/
theorem C209_attach_partial (n : N) (p : Nat) (d : Option Str) (h : n.deps.length = 1) : KeepsSync n p d := by
  obtain ⟨np, nd, deps⟩ := n
  match deps, h with
  | [x], _ =>
    rintro ⟨y, hy, h1, h2⟩
    simp only [List.mem_singleton] at hy
    subst hy
    refine ⟨(p, d.getD y.2), by simp [attach], rfl, ?_⟩
    cases d with
    | none => exact h2
    | some d => rfl

/-- For every node with two or more enhanced relations, none of them to the new parent: `attach` leaves the enhanced relations as they were, and the new basic relation is not among
them. -/
theorem C209_attach_violated (n : N) (p : Nat) (d : Option Str) (h : 2 ≤ n.deps.length) (hp : ∀ x ∈ n.deps, x.1 ≠ p) :
    (attach n p d).deps = n.deps ∧ ¬ Sync (attach n p d) := by
  have e : (attach n p d).deps = n.deps := by
    obtain ⟨np, nd, deps⟩ := n
    match deps, h with
    | _ :: _ :: _, _ => rfl
  refine ⟨e, ?_⟩
  rintro ⟨x, hx, h1, _⟩
  rw [e] at hx
  exact hp x hx h1

/-- For every node whose single enhanced relation is not the basic one: `attach` overwrites it all the same. -/
theorem C209_overwrites_violated (n : N) (p : Nat) (d : Str) (x : Nat × Str) (h : n.deps = [x]) (hx : x ≠ (p, d)) :
    x ∉ (attach n p (some d)).deps := by
  simp [attach, h]
  exact hx

/-! ## The whole of es.FixTenerQue -/

abbrev S := Nat → N

def upd (s : S) (x : Nat) (n : N) : S := fun y => if y = x then n else s y

def move (s : S) (x p : Nat) (d : Str) : S := upd s x (reattach (s x) p d)

/-- `node.children`: the nodes of `ns` (in word order) with that parent. -/
def children (ns : List Nat) (s : S) (p : Nat) : List Nat := ns.filter fun c => (s c).parent == p

/-- fixtenerque.py:26-28; `stay` is the regular expression on the relation. -/
def liftLoop (stay : Str → Bool) (node : Nat) : List Nat → S → S
  | [], s => s
  | c :: cs, s => liftLoop stay node cs (if stay (u (s c).deprel) then s else move s c node (s c).deprel)

/-- fixtenerque.py:30-32; `que c` says that the form is "que" or "a" and that `c` is between `node` and `main`. -/
def queLoop (que : Nat → Bool) (main : Nat) (mark : Str) : List Nat → S → S
  | [], s => s
  | c :: cs, s => queLoop que main mark cs (if que c then move s c main mark else s)

/-- fixtenerque.py:21-32 for an auxiliary `node` attached as `aux` to a word. -/
def tener (stay : Str → Bool) (que : Nat → Bool) (xcomp mark : Str) (ns : List Nat) (s : S) (node : Nat) : S :=
  let main := (s node).parent
  let s1 := move s node (s main).parent (s main).deprel
  let s2 := move s1 main node xcomp
  let s3 := liftLoop stay node (children ns s2 main) s2
  queLoop que main mark (children ns s3 node) s3

theorem sync_reattach (n : N) (p : Nat) (d : Str) (h : Sync n) : Sync (reattach n p d) :=
  ⟨(p, d), (C209_reattach n p d).2.2.2.1 h, rfl, rfl⟩

theorem sync_move {s : S} (x p : Nat) (d : Str) (y : Nat) (h : Sync (s y)) : Sync (move s x p d y) := by
  unfold move upd
  split
  · rename_i e; subst e; exact sync_reattach _ _ _ h
  · exact h

theorem sync_lift (stay : Str → Bool) (node y : Nat) : ∀ (cs : List Nat) (s : S), Sync (s y) → Sync (liftLoop stay node cs s y)
  | [], _, h => h
  | c :: cs, s, h => by
    rw [liftLoop]
    refine sync_lift stay node y cs _ ?_
    split
    · exact h
    · exact sync_move _ _ _ _ h

theorem sync_que (que : Nat → Bool) (main : Nat) (mark : Str) (y : Nat) : ∀ (cs : List Nat) (s : S), Sync (s y) → Sync (queLoop que main mark cs s y)
  | [], _, h => h
  | c :: cs, s, h => by
    rw [queLoop]
    refine sync_que que main mark y cs _ ?_
    split
    · exact sync_move _ _ _ _ h
    · exact h

/-- es.FixTenerQue keeps the enhanced graph in step: a node whose basic relation is among its enhanced ones still is one afterwards. -/
theorem C209_tener (stay : Str → Bool) (que : Nat → Bool) (xcomp mark : Str) (ns : List Nat) (s : S) (node y : Nat) (h : Sync (s y)) :
    Sync (tener stay que xcomp mark ns s node y) := by
  unfold tener
  exact sync_que _ _ _ _ _ _ (sync_lift _ _ _ _ _ (sync_move _ _ _ _ (sync_move _ _ _ _ h)))

theorem move_self (s : S) (x p : Nat) (d : Str) : move s x p d x = reattach (s x) p d := by simp [move, upd]
theorem move_other (s : S) {x y : Nat} (p : Nat) (d : Str) (h : y ≠ x) : move s x p d y = s y := by simp [move, upd, h]

theorem lift_other (stay : Str → Bool) (node y : Nat) : ∀ (cs : List Nat) (s : S), y ∉ cs → liftLoop stay node cs s y = s y
  | [], _, _ => rfl
  | c :: cs, s, h => by
    rw [liftLoop, lift_other stay node y cs _ (fun g => h (List.mem_cons_of_mem _ g))]
    split
    · rfl
    · exact move_other _ _ _ (fun e => h (e ▸ List.mem_cons_self ..))

theorem lift_mem (stay : Str → Bool) (node y : Nat) : ∀ (cs : List Nat) (s : S), cs.Nodup → y ∈ cs →
    liftLoop stay node cs s y = if stay (u (s y).deprel) then s y else reattach (s y) node (s y).deprel
  | [], _, _, h => by cases h
  | c :: cs, s, nd, h => by
    rw [List.nodup_cons] at nd
    rw [liftLoop]
    rcases List.mem_cons.mp h with rfl | h
    · rw [lift_other stay node y cs _ nd.1]
      split
      · rfl
      · exact move_self ..
    · have hne : y ≠ c := fun e => nd.1 (e ▸ h)
      rw [lift_mem stay node y cs _ nd.2 h]
      have : (if stay (u (s c).deprel) then s else move s c node (s c).deprel) y = s y := by
        split
        · rfl
        · exact move_other _ _ _ hne
      rw [this]

theorem que_other (que : Nat → Bool) (main : Nat) (mark : Str) (y : Nat) : ∀ (cs : List Nat) (s : S), y ∉ cs ∨ que y = false →
    queLoop que main mark cs s y = s y
  | [], _, _ => rfl
  | c :: cs, s, h => by
    rw [queLoop, que_other que main mark y cs _ (h.imp (fun h g => h (List.mem_cons_of_mem _ g)) id)]
    split
    · rename_i hq
      refine move_other _ _ _ ?_
      rintro rfl
      rcases h with h | h
      · exact h (List.mem_cons_self ..)
      · rw [h] at hq; cases hq
    · rfl

theorem que_mem (que : Nat → Bool) (main : Nat) (mark : Str) (y : Nat) (hq : que y = true) : ∀ (cs : List Nat) (s : S), cs.Nodup → y ∈ cs →
    queLoop que main mark cs s y = reattach (s y) main mark
  | [], _, _, h => by cases h
  | c :: cs, s, nd, h => by
    rw [List.nodup_cons] at nd
    rw [queLoop]
    rcases List.mem_cons.mp h with rfl | h
    · rw [que_other que main mark y cs _ (Or.inl nd.1), if_pos hq]
      exact move_self ..
    · have hne : y ≠ c := fun e => nd.1 (e ▸ h)
      rw [que_mem que main mark y hq cs _ nd.2 h]
      have : (if que c then move s c main mark else s) y = s y := by
        split
        · exact move_other _ _ _ hne
        · rfl
      rw [this]

/-- What es.FixTenerQue does to the tree: the auxiliary takes the place of the main verb, which hangs on it as `xcomp`; a word that hung on neither keeps its place. A word that hung on the
main verb stays there if its relation says so and otherwise moves to the auxiliary, keeping its relation; "que" and "a" between the two that hang on the auxiliary then are marks of the
main verb. -/
theorem C209_places (stay : Str → Bool) (que : Nat → Bool) (xcomp mark : Str) (ns : List Nat) (s : S) (node main : Nat) (nd : ns.Nodup)
    (hm : (s node).parent = main) (h1 : node ≠ main) (h2 : (s main).parent ≠ main) (h3 : (s main).parent ≠ node) (qn : que node = false) (qm : que main = false) :
    let t := tener stay que xcomp mark ns s node
    ((t node).parent = (s main).parent ∧ (t node).deprel = (s main).deprel) ∧ ((t main).parent = node ∧ (t main).deprel = xcomp) ∧
    (∀ c, c ≠ node → c ≠ main → (s c).parent ≠ main → (s c).parent ≠ node → t c = s c) ∧
    (∀ c ∈ ns, c ≠ node → c ≠ main → (s c).parent = main →
      ((t c).parent, (t c).deprel) = if stay (u (s c).deprel) then (main, (s c).deprel) else if que c then (main, mark) else (node, (s c).deprel)) ∧
    (∀ c ∈ ns, c ≠ node → c ≠ main → (s c).parent = node →
      ((t c).parent, (t c).deprel) = if que c then (main, mark) else (node, (s c).deprel)) := by
  subst hm
  generalize hmain : (s node).parent = main at *
  generalize e2 : move (move s node (s main).parent (s main).deprel) main node xcomp = s2
  have s2node : s2 node = reattach (s node) (s main).parent (s main).deprel := by rw [← e2, move_other _ _ _ h1, move_self]
  have s2main : (s2 main).parent = node ∧ (s2 main).deprel = xcomp := by rw [← e2, move_self]; exact ⟨rfl, rfl⟩
  have s2oth : ∀ c, c ≠ node → c ≠ main → s2 c = s c := by intro c g1 g2; rw [← e2, move_other _ _ _ g2, move_other _ _ _ g1]
  generalize e3 : liftLoop stay node (children ns s2 main) s2 = s3
  have ndc : ∀ (z : S) (p : Nat), (children ns z p).Nodup := fun z p => nd.filter _
  have memc : ∀ (z : S) (p c : Nat), c ∈ children ns z p ↔ c ∈ ns ∧ (z c).parent = p := by intro z p c; simp [children]
  have s3node : s3 node = s2 node := by
    rw [← e3]; refine lift_other _ _ _ _ _ ?_
    rw [memc, s2node]; exact fun g => h2 g.2
  have s3main : s3 main = s2 main := by
    rw [← e3]; refine lift_other _ _ _ _ _ ?_
    rw [memc, s2main.1]; exact fun g => h1 g.2
  have et : tener stay que xcomp mark ns s node = queLoop que main mark (children ns s3 node) s3 := by
    unfold tener; simp only [hmain]; rw [e2, e3]
  simp only [et]
  refine ⟨?_, ?_, ?_, ?_, ?_⟩
  · rw [que_other _ _ _ _ _ _ (Or.inr qn), s3node, s2node]; exact ⟨rfl, rfl⟩
  · rw [que_other _ _ _ _ _ _ (Or.inr qm), s3main]; exact s2main
  · intro c g1 g2 g3 g4
    have a3 : s3 c = s c := by
      rw [← e3, lift_other _ _ _ _ _ (by rw [memc, s2oth c g1 g2]; exact fun g => g3 g.2), s2oth c g1 g2]
    rw [que_other _ _ _ _ _ _ (Or.inl (by rw [memc, a3]; exact fun g => g4 g.2)), a3]
  · intro c gn g1 g2 g3
    have a3 := lift_mem stay node c (children ns s2 main) s2 (ndc _ _) ((memc _ _ _).mpr ⟨gn, by rw [s2oth c g1 g2]; exact g3⟩)
    rw [e3, s2oth c g1 g2] at a3
    by_cases hs : stay (u (s c).deprel) = true
    · rw [if_pos hs] at a3 ⊢
      rw [que_other _ _ _ _ _ _ (Or.inl (by rw [memc, a3, g3]; exact fun g => h1 g.2.symm)), a3, g3]
    · rw [if_neg hs] at a3 ⊢
      have hc : c ∈ children ns s3 node := (memc _ _ _).mpr ⟨gn, by rw [a3]; rfl⟩
      by_cases hq : que c = true
      · rw [if_pos hq, que_mem _ _ _ _ hq _ _ (ndc _ _) hc]; rfl
      · rw [if_neg hq, que_other _ _ _ _ _ _ (Or.inr (by simpa using hq)), a3]; rfl
  · intro c gn g1 g2 g3
    have a3 : s3 c = s c := by
      rw [← e3, lift_other _ _ _ _ _ (by rw [memc, s2oth c g1 g2, g3]; exact fun g => h1 g.2), s2oth c g1 g2]
    have hc : c ∈ children ns s3 node := (memc _ _ _).mpr ⟨gn, by rw [a3]; exact g3⟩
    by_cases hq : que c = true
    · rw [if_pos hq, que_mem _ _ _ _ hq _ _ (ndc _ _) hc]; rfl
    · rw [if_neg hq, que_other _ _ _ _ _ _ (Or.inr (by simpa using hq)), a3, g3]

/-- "tengo que comer pan": 1 tengo, 2 que, 3 comer (root), 4 pan; every basic relation is an enhanced one and 3 has one more. -/
def exS : S := fun x =>
  if x = 1 then ⟨3, ['a', 'u', 'x'], [(3, ['a', 'u', 'x'])]⟩
  else if x = 2 then ⟨1, ['f', 'i', 'x'], [(1, ['f', 'i', 'x'])]⟩
  else if x = 3 then ⟨0, ['r'], [(0, ['r']), (9, ['e'])]⟩
  else ⟨3, ['o', 'b', 'j'], [(3, ['o', 'b', 'j', ':', 'x'])]⟩

def exT : S := tener (fun d => d == ['o', 'b', 'j']) (fun c => c == 2) ['x'] ['m'] [1, 2, 3, 4] exS 1

example : exT 1 = ⟨0, ['r'], [(0, ['r'])]⟩ ∧ exT 2 = ⟨3, ['m'], [(3, ['m'])]⟩ ∧
    exT 3 = ⟨1, ['x'], [(9, ['e']), (1, ['x'])]⟩ ∧ exT 4 = exS 4 := by decide

end Verif.Deps.Reattach
