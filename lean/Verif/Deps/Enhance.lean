import Verif.Deps.Props
import Verif.Tree.Spec

/-!
# Property C138: `ud.Basic2Enhanced`

Source: `udapi/block/ud/basic2enhanced.py`. `S x` are the slots `_raw_deps` and `_deps` of the node `x`, `parent` and `deprel` its
attributes; `parent` of an empty node is None (node.py:1036-1038).
-/

namespace Verif.Deps.Enhance
open Verif.Py Verif.Deps Verif.Tree

abbrev Slots := Nat → St

def set (S : Slots) (x : Nat) (s : St) : Slots := fun y => if y = x then s else S y

/-- `f"{deprel}"` -/
def relStr : Option Str → Str
  | some d => d
  | none => ['N', 'o', 'n', 'e']

/-- The body of the loop (basic2enhanced.py:22-24). -/
def step (env : Env) (parent : Nat → Option Nat) (deprel : Nat → Option Str) (S : Slots) (x : Nat) : Except Err Slots :=
  let g := getRaw env (S x)
  let S1 := set S x g.1
  if g.2 = some ['_'] then
    match parent x with
    | none => .error .attributeError
    | some p => .ok (set S1 x (setRaw ((env.ord p).str ++ ':' :: relStr (deprel x)) g.1))
  else .ok S1

/-- `process_tree` (basic2enhanced.py:20-23); `l` is `tree.descendants_and_empty`. -/
def run (env : Env) (parent : Nat → Option Nat) (deprel : Nat → Option Str) : Slots → List Nat → Except Err Slots
  | S, [] => .ok S
  | S, x :: l =>
    match step env parent deprel S x with
    | .error e => .error e
    | .ok S' => run env parent deprel S' l

/-! ## What it should do -/

/-- The node has nothing in its column DEPS. -/
def Missing (env : Env) (S : Slots) (x : Nat) : Prop := (getRaw env (S x)).2 = some ['_']

instance (env : Env) (S : Slots) (x : Nat) : Decidable (Missing env S x) := inferInstanceAs (Decidable (_ = _))

/-- `(p, d)` is one of the enhanced dependencies of `x`. -/
def Edge (env : Env) (S : Slots) (x p : Nat) : Prop := ∃ l d, (getDeps env (S x)).2 = .ok l ∧ (p, d) ∈ l

/-- `x` can be reached from the technical root `r` in the enhanced graph. -/
inductive Reach (env : Env) (S : Slots) (r : Nat) : Nat → Prop
  | root {x} : Edge env S x r → Reach env S r x
  | step {x p} : Edge env S x p → Reach env S r p → Reach env S r x

/-! ## Proofs -/

theorem set_same (S : Slots) (x : Nat) (s : St) : set S x s x = s := if_pos rfl
theorem set_ne (S : Slots) {x y : Nat} (s : St) (h : y ≠ x) : set S x s y = S y := if_neg h

theorem getRaw_twice (env : Env) (s : St) : getRaw env (getRaw env s).1 = getRaw env s := by
  unfold getRaw
  cases h : s.deps with
  | none => simp [h]
  | some l =>
    cases l with
    | nil => simp [h]
    | cons d l => simp

theorem getDeps_getRaw (env : Env) (s : St) : (getDeps env (getRaw env s).1).2 = (getDeps env s).2 := by
  unfold getRaw getDeps
  cases h : s.deps with
  | none => simp [h]
  | some l =>
    cases l with
    | nil => simp [h]
    | cons d l => simp

/-- The new slots of a node. -/
def after (env : Env) (parent : Nat → Option Nat) (deprel : Nat → Option Str) (s : St) (x : Nat) : St :=
  if (getRaw env s).2 = some ['_'] then
    match parent x with
    | none => s
    | some p => ⟨some ((env.ord p).str ++ ':' :: relStr (deprel x)), none⟩
  else (getRaw env s).1

theorem step_ok {env : Env} {parent : Nat → Option Nat} {deprel : Nat → Option Str} {S : Slots} {x : Nat}
    (h : Missing env S x → parent x ≠ none) : step env parent deprel S x = .ok (set S x (after env parent deprel (S x) x)) := by
  unfold step after
  by_cases hm : (getRaw env (S x)).2 = some ['_']
  · simp only [if_pos hm]
    cases hp : parent x with
    | none => exact absurd hp (h hm)
    | some p =>
      simp only [setRaw]
      congr 1
      funext y
      unfold set
      split <;> rfl
  · simp only [if_neg hm]

theorem run_ok {env : Env} {parent : Nat → Option Nat} {deprel : Nat → Option Str} : ∀ {l : List Nat} {S : Slots}, l.Nodup →
    (∀ x ∈ l, Missing env S x → parent x ≠ none) →
    ∃ S', run env parent deprel S l = .ok S' ∧ ∀ y, S' y = if y ∈ l then after env parent deprel (S y) y else S y := by
  intro l
  induction l with
  | nil => exact fun _ _ => ⟨_, rfl, fun y => by simp⟩
  | cons a l ih =>
    intro S hn h
    rw [List.nodup_cons] at hn
    rw [run, step_ok (h a (List.mem_cons_self ..))]
    have hrest : ∀ x ∈ l, Missing env (set S a (after env parent deprel (S a) a)) x → parent x ≠ none := by
      intro x hx hm
      refine h x (List.mem_cons_of_mem _ hx) ?_
      unfold Missing at hm ⊢
      have hxa : x ≠ a := fun e => hn.1 (e ▸ hx)
      rwa [set_ne _ _ hxa] at hm
    obtain ⟨S', h1, h2⟩ := ih hn.2 hrest
    refine ⟨S', h1, fun y => ?_⟩
    rw [h2 y]
    by_cases hya : y = a
    · subst hya
      rw [if_neg hn.1, set_same, if_pos (List.mem_cons_self ..)]
    · rw [set_ne _ _ hya]
      simp [hya]

section Props
variable {env : Env} {parent : Nat → Option Nat} {deprel : Nat → Option Str} {S : Slots}

theorem after_has (env : Env) {s : St} {x p : Nat} (hm : (getRaw env s).2 = some ['_']) (hp : parent x = some p) :
    after env parent deprel s x = ⟨some ((env.ord p).str ++ ':' :: relStr (deprel x)), none⟩ := by
  unfold after
  rw [if_pos hm, hp]

theorem after_not (env : Env) {s : St} {x : Nat} (hm : (getRaw env s).2 ≠ some ['_']) :
    after env parent deprel s x = (getRaw env s).1 := by
  unfold after
  rw [if_neg hm]

theorem colon_ne (a b : Str) : a ++ ':' :: b ≠ ['_'] := by
  intro e
  have : ':' ∈ (['_'] : Str) := by rw [← e]; simp
  exact absurd this (by decide)

/-- If every node without DEPS has a (basic) parent, the block runs through. No node is without DEPS afterwards. A word that had none has
one enhanced dependency, its basic one; it is read like this and written like this. The other nodes keep their column and their
dependencies. (The relation must not contain `|`.) -/
theorem C138_filled_partial (hok : env.Ok) {l : List Nat} (hn : l.Nodup) (hp : ∀ x ∈ l, Missing env S x → ∃ p, parent x = some p ∧ env.Has p) :
    ∃ S', run env parent deprel S l = .ok S' ∧ (∀ x ∈ l, ¬ Missing env S' x) ∧
      (∀ x ∈ l, Missing env S x → ∀ p d, parent x = some p → deprel x = some d → '|' ∉ d →
        (getDeps env (S' x)).2 = .ok [(p, d)] ∧ (getRaw env (S' x)).2 = some (conllu env [(p, d)])) ∧
      (∀ x, x ∉ l ∨ ¬ Missing env S x → (getRaw env (S' x)).2 = (getRaw env (S x)).2 ∧ (getDeps env (S' x)).2 = (getDeps env (S x)).2) := by
  obtain ⟨S', h1, h2⟩ := run_ok (parent := parent) (deprel := deprel) hn (fun x hx hm => by obtain ⟨p, e, _⟩ := hp x hx hm; rw [e]; exact fun h => (by cases h))
  refine ⟨S', h1, ?_, ?_, ?_⟩
  · intro x hx hm'
    unfold Missing at hm'
    rw [h2 x, if_pos hx] at hm'
    by_cases hm : (getRaw env (S x)).2 = some ['_']
    · obtain ⟨p, e, _⟩ := hp x hx hm
      rw [after_has env hm e] at hm'
      exact colon_ne _ _ (Option.some.inj hm')
    · rw [after_not env hm, getRaw_twice] at hm'
      exact hm hm'
  · intro x hx hm p d hpx hd hb
    obtain ⟨p', e, hh⟩ := hp x hx hm
    have : p' = p := Option.some.inj (e.symm.trans hpx)
    subst this
    rw [h2 x, if_pos hx, after_has env hm hpx, hd]
    have hc : (env.ord p').str ++ ':' :: relStr (some d) = conllu env [(p', d)] := by
      simp [conllu, relStr, join]
    rw [hc]
    have hg := getDeps_conllu hok (l := [(p', d)]) (by simpa using hh) (by simpa using hb)
    rw [hg]
    exact ⟨rfl, rfl⟩
  · intro x hx
    rw [h2 x]
    by_cases hxl : x ∈ l
    · rw [if_pos hxl]
      have hm : (getRaw env (S x)).2 ≠ some ['_'] := by
        rcases hx with hx | hx
        · exact absurd hxl hx
        · exact hx
      rw [after_not env hm]
      exact ⟨by rw [getRaw_twice], getDeps_getRaw env (S x)⟩
    · rw [if_neg hxl]
      exact ⟨rfl, rfl⟩

/-- After the block every word can be reached from the technical root in the enhanced graph if this is so for the words that had their
own DEPS. In particular, it is so if no word had DEPS. -/
theorem C138_reach_partial {h : Heap} {r : Nat} (w : WF h r) (hok : env.Ok) (hnodes : env.nodes = r :: h.words r)
    {l : List Nat} (hl : l.Nodup) (hw : ∀ x ∈ h.words r, x ∈ l) (hdep : ∀ x ∈ h.words r, ∃ d, deprel x = some d ∧ '|' ∉ d)
    (hempty : ∀ x ∈ l, Missing env S x → x ∈ h.words r) :
    ∃ S', run env h.parent deprel S l = .ok S' ∧
      ((∀ x ∈ h.words r, ¬ Missing env S x → Reach env S' r x) → ∀ x ∈ h.words r, Reach env S' r x) := by
  have hp : ∀ x ∈ l, Missing env S x → ∃ p, h.parent x = some p ∧ env.Has p := by
    intro x hx hm
    obtain ⟨p, e, hin⟩ := w.parentIn x (hempty x hx hm)
    refine ⟨p, e, Or.inl ?_⟩
    rw [hnodes]
    rcases hin with e | e
    · exact e ▸ List.mem_cons_self ..
    · exact List.mem_cons_of_mem _ e
  obtain ⟨S', h1, _, h3, _⟩ := C138_filled_partial (deprel := deprel) hok hl hp
  refine ⟨S', h1, fun hown x hx => ?_⟩
  have key : ∀ x, Anc h r x → x ∈ h.words r → Reach env S' r x := by
    intro x ha
    induction ha with
    | @parent x e =>
      intro hx
      by_cases hm : Missing env S x
      · obtain ⟨d, hd, hb⟩ := hdep x hx
        exact .root ⟨_, d, (h3 x (hw x hx) hm r d e hd hb).1, by simp⟩
      · exact hown x hx hm
    | @step x p e _ ih =>
      intro hx
      by_cases hm : Missing env S x
      · obtain ⟨d, hd, hb⟩ := hdep x hx
        have hedge : Edge env S' x p := ⟨_, d, (h3 x (hw x hx) hm p d e hd hb).1, by simp⟩
        obtain ⟨q, e', hin⟩ := w.parentIn x hx
        have : q = p := Option.some.inj (e'.symm.trans e)
        subst this
        rcases hin with e' | e'
        · exact .root (e' ▸ hedge)
        · exact .step hedge (ih e')
      · exact hown x hx hm
  exact key x (w.reach x hx) hx

/-- An empty node without DEPS makes the block fail: an empty node has no basic parent. -/
theorem C138_empty_violated {l : List Nat} (hn : l.Nodup) {x : Nat} (hx : x ∈ l) (hp : parent x = none) (hm : Missing env S x) :
    run env parent deprel S l = .error .attributeError := by
  induction l generalizing S with
  | nil => cases hx
  | cons a l ih =>
    rw [List.nodup_cons] at hn
    rw [run]
    by_cases hbad : Missing env S a ∧ parent a = none
    · have : step env parent deprel S a = .error .attributeError := by
        unfold step
        simp only [if_pos (show (getRaw env (S a)).2 = some ['_'] from hbad.1), hbad.2]
      rw [this]
    · have hxa : x ≠ a := fun e => hbad ⟨e ▸ hm, e ▸ hp⟩
      rw [step_ok (fun hm' hp' => hbad ⟨hm', hp'⟩)]
      refine ih hn.2 ((List.mem_cons.1 hx).resolve_left hxa) ?_
      unfold Missing
      rw [set_ne _ _ hxa]
      exact hm

/-- A node whose list of dependencies was set to the empty list is not filled: `raw_deps` of such a node is None. -/
theorem C138_cleared_violated {l : List Nat} (hn : l.Nodup) (hp : ∀ x ∈ l, Missing env S x → parent x ≠ none) {x : Nat}
    (t : St) (hS : S x = setDeps [] t) :
    ∃ S', run env parent deprel S l = .ok S' ∧ (getDeps env (S' x)).2 = .ok [] ∧ (getRaw env (S' x)).2 = none := by
  obtain ⟨S', h1, h2⟩ := run_ok (deprel := deprel) hn hp
  refine ⟨S', h1, ?_⟩
  rw [h2 x, hS]
  have : after env parent deprel (setDeps [] t) x = setDeps [] t := by
    rw [after_not env (by simp [getRaw, setDeps])]
    rfl
  rw [this]
  simp only [ite_self]
  exact ⟨rfl, rfl⟩

end Props

/-- The technical root 100, words 101 and 102, an empty node 200 = "1.1" with its own DEPS; 101 hangs on 102. -/
def exParent : Nat → Option Nat := fun x => if x = 101 then some 102 else if x = 102 then some 100 else none

def exEnv : Env := ⟨[100, 101, 102], [200], fun x => if x = 200 then .empty 11 else if x = 100 then .word 0 else if x = 101 then .word 1 else .word 2⟩

def exSlots : Slots := fun x => if x = 200 then ⟨some ['2', ':', 'd', 'e', 'p'], none⟩ else .init

example : (run exEnv exParent (fun _ => some ['x']) exSlots [101, 200, 102]).toOption.map
    (fun S => [(S 101).raw, (S 200).raw, (S 102).raw]) =
      some [some ['2', ':', 'x'], some ['2', ':', 'd', 'e', 'p'], some ['0', ':', 'x']] := by decide +kernel

example : (run exEnv exParent (fun _ => some ['x']) (fun _ => .init) [101, 200, 102]).toOption.isNone = true := by decide +kernel

end Verif.Deps.Enhance
