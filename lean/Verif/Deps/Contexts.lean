import Verif.Py.Str

/-!
# Property C225: zellig_harris extracts contexts

Sources: `udapi/block/zellig_harris/baseline.py:4-26` (`_merge_deprel`), `28-61` (constructor), `115-165` (`process_node`), `udapi/block/zellig_harris/configurations.py:9-41` (constructor),
`43-73` (`apply_query`), and `Block.__init__`, `_should_process_tree` (core/block.py:19-30, 145-166). The strings printed for words (`get_word`) are not modelled; a context is a word
and the name of a relation. Relations are abstract but for those named in `_merge_deprel`.
-/

namespace Verif.Deps.Contexts
open Verif.Py

inductive Rel
  | dobj | iobj | obj | nsubj | nsubjpass | subj | xcomp | ccomp | comp | advcl | advmod | adv | conj | prep | case | other (n : Nat)
deriving DecidableEq

/-- `_merge_deprel` -/
def merge : Rel → Rel
  | .dobj | .iobj => .obj
  | .nsubj | .nsubjpass => .subj
  | .xcomp | .ccomp => .comp
  | .advcl | .advmod => .adv
  | r => r

/-- The name of a relation as printed: `inv` is the suffix "I". -/
structure Name where
  rel : Rel
  inv : Bool
deriving DecidableEq

structure Child where
  word : Nat
  rel : Rel
  caseBelow : Bool    -- some child of it has the relation case
deriving DecidableEq

/-- Lines 128-139: the contexts from the parent. -/
def up (pool : List Rel) (parent : Nat) (r : Rel) : List (Nat × Name) :=
  (if r ∈ pool then [(parent, ⟨r, false⟩)] else []) ++
  (if r ≠ merge r ∧ merge r ∈ pool then [(parent, ⟨merge r, true⟩)] else []) ++
  (if r ∈ pool ∧ r = .conj then [(parent, ⟨merge r, false⟩)] else [])

/-- Lines 143-165: the contexts from one child. -/
def down (pool : List Rel) (c : Child) : List (Nat × Name) :=
  (if c.rel ∈ pool then [(c.word, ⟨c.rel, false⟩)] else []) ++
  (if c.rel ≠ merge c.rel ∧ merge c.rel ∈ pool then [(c.word, ⟨merge c.rel, false⟩)] else []) ++
  (if .prep ∈ pool ∧ c.caseBelow = true then [(c.word, ⟨.prep, false⟩)] else [])

/-- `Baseline.process_node`; `tag` says that the UPOS is in `pos`. -/
def contexts (tag : Bool) (pool : List Rel) (parent : Nat) (r : Rel) (cs : List Child) : List (Nat × Name) :=
  if tag then up pool parent r ++ cs.flatMap (down pool) else []

/-- Exactly these contexts are printed: a neighbour with a relation that is in the pool itself or after merging (with "I" if it is the parent), and children with a preposition. -/
theorem C225_contexts (pool : List Rel) (parent : Nat) (r : Rel) (cs : List Child) (w : Nat) (n : Name) :
    ((w, n) ∈ contexts true pool parent r cs ↔
      (w = parent ∧ ((n = ⟨r, false⟩ ∧ r ∈ pool) ∨ (n = ⟨merge r, true⟩ ∧ merge r ≠ r ∧ merge r ∈ pool))) ∨
      ∃ c ∈ cs, w = c.word ∧ ((n = ⟨c.rel, false⟩ ∧ c.rel ∈ pool) ∨ (n = ⟨merge c.rel, false⟩ ∧ merge c.rel ∈ pool) ∨ (n = ⟨.prep, false⟩ ∧ .prep ∈ pool ∧ c.caseBelow = true))) ∧
    contexts false pool parent r cs = [] := by
  refine ⟨?_, rfl⟩
  simp only [contexts, if_true, List.mem_append, List.mem_flatMap]
  constructor
  · rintro (h | ⟨c, hc, h⟩)
    · left
      simp only [up, List.mem_append] at h
      rcases h with (h | h) | h
      · split at h
        · rename_i g; simp at h; exact ⟨h.1, Or.inl ⟨h.2, g⟩⟩
        · cases h
      · split at h
        · rename_i g; simp at h; exact ⟨h.1, Or.inr ⟨h.2, Ne.symm g.1, g.2⟩⟩
        · cases h
      · split at h
        · rename_i g
          simp at h
          obtain ⟨g1, g2⟩ := g
          subst g2
          exact ⟨h.1, Or.inl ⟨h.2, g1⟩⟩
        · cases h
    · right
      refine ⟨c, hc, ?_⟩
      simp only [down, List.mem_append] at h
      rcases h with (h | h) | h
      · split at h
        · rename_i g; simp at h; exact ⟨h.1, Or.inl ⟨h.2, g⟩⟩
        · cases h
      · split at h
        · rename_i g; simp at h; exact ⟨h.1, Or.inr (Or.inl ⟨h.2, g.2⟩)⟩
        · cases h
      · split at h
        · rename_i g; simp at h; exact ⟨h.1, Or.inr (Or.inr ⟨h.2, g.1, g.2⟩)⟩
        · cases h
  · rintro (⟨rfl, h⟩ | ⟨c, hc, rfl, h⟩)
    · left
      simp only [up, List.mem_append]
      rcases h with ⟨rfl, g⟩ | ⟨rfl, g1, g2⟩
      · exact Or.inl (Or.inl (by simp [g]))
      · exact Or.inl (Or.inr (by simp [Ne.symm g1, g2]))
    · right
      refine ⟨c, hc, ?_⟩
      simp only [down, List.mem_append]
      rcases h with ⟨rfl, g⟩ | ⟨rfl, g⟩ | ⟨rfl, g1, g2⟩
      · exact Or.inl (Or.inl (by simp [g]))
      · by_cases k : c.rel = merge c.rel
        · rw [← k] at g ⊢
          exact Or.inl (Or.inl (by simp [g]))
        · exact Or.inl (Or.inr (by simp [k, g]))
      · exact Or.inr (by simp [g1, g2])

/-- Merging twice is merging once, and the merged relations are those the pool names. -/
theorem C225_merge (r : Rel) : merge (merge r) = merge r ∧ (merge r ≠ r ↔ r ∈ [.dobj, .iobj, .nsubj, .nsubjpass, .xcomp, .ccomp, .advcl, .advmod]) := by
  cases r <;> simp [merge]

/-- The context of the parent of a conjunct is printed twice. -/
theorem C225_conj_violated (pool : List Rel) (parent : Nat) (h : .conj ∈ pool) : up pool parent .conj = [(parent, ⟨.conj, false⟩), (parent, ⟨.conj, false⟩)] := by
  simp [up, h, merge]

/-- For every other relation each context of the parent is printed once. -/
theorem C225_once_partial (pool : List Rel) (parent : Nat) (r : Rel) (h : r ≠ .conj) : (up pool parent r).Nodup := by
  unfold up
  rw [if_neg (c := r ∈ pool ∧ r = .conj) (fun k => h k.2), List.append_nil]
  split <;> split <;> simp

/-! ## The constructors -/

/-- What a block has as `zones`: with the parameter `args` in the place of `zones`, anything `args` can be. `key` says which names `args` has, with their values. -/
inductive Val
  | none
  | str (s : Str)
  | dict (d : List (Str × Str))
deriving DecidableEq

inductive Out (α : Type)
  | ok (a : α)
  | attributeError
  | typeError

def all : Str := ['a', 'l', 'l']

/-- `_should_process_tree` (lines 160-166) -/
def should (zones : Val) (zone : Str) : Out Bool :=
  match zones with
  | .str s => if s = all then .ok true else if s = [] ∧ zone = [] then .ok true else .ok (decide (zone ∈ split ',' s))
  | _ => .attributeError    -- None and dict have no split

/-- Parameters from a scenario are passed by name: the constructors know only `args`, which is then a string. -/
def fromScenario (ps : List (Str × Str)) : Out Val :=
  match ps with
  | [] => .ok .none
  | [(k, v)] => if k = ['a', 'r', 'g', 's'] then .ok (.str v) else .typeError
  | _ => .typeError

/-- `Configurations(args).zones` (lines 17-21): no `args` are an empty dict. -/
def confZones : Val → Val
  | .none => .dict []
  | v => v

/-- `Baseline(args).zones` (line 41) -/
def baseZones (v : Val) : Val := v

/-- Whatever `args` are as documented (nothing or a dict), the first tree raises an exception. -/
theorem C225_zones_violated (v : Val) (zone : Str) (hv : ∀ s, v ≠ .str s) : should (confZones v) zone = .attributeError ∧ should (baseZones v) zone = .attributeError := by
  cases v with
  | none => exact ⟨rfl, rfl⟩
  | str s => exact absurd rfl (hv s)
  | dict d => exact ⟨rfl, rfl⟩

/-- From a scenario, no parameter other than `args` can be given, and without one the first tree raises an exception. -/
theorem C225_scenario_violated (ps : List (Str × Str)) (zone : Str) (h : ∀ v, ps ≠ [(['a', 'r', 'g', 's'], v)]) :
    fromScenario ps = .typeError ∨ ∃ v, fromScenario ps = .ok v ∧ should (confZones v) zone = .attributeError ∧ should (baseZones v) zone = .attributeError := by
  unfold fromScenario
  split
  · exact Or.inr ⟨.none, rfl, rfl, rfl⟩
  · rename_i k v
    split
    · rename_i g; subst g; exact absurd rfl (h v)
    · exact Or.inl rfl
  · exact Or.inl rfl

/-- `apply_query` (lines 53-58): `globals().get(query_id)` gives None for an unknown query, so the first `try` never fails and the call raises TypeError instead of RuntimeError. -/
def applyQuery {α : Type} (queries : List (Str × α)) (q : Str) : Out α :=
  match queries.find? (fun p => p.1 == q) with
  | some p => .ok p.2
  | none => .typeError

/-- An unknown query is not reported as the code intends. -/
theorem C225_query_violated {α : Type} (queries : List (Str × α)) (q : Str) (h : ∀ p ∈ queries, p.1 ≠ q) : applyQuery queries q = .typeError := by
  unfold applyQuery
  have : queries.find? (fun p => p.1 == q) = none := by
    rw [List.find?_eq_none]
    intro p hp
    simp [h p hp]
  rw [this]

def exPool : List Rel := [.prep, .obj, .comp, .adv, .conj]
example : contexts true exPool 9 .xcomp [⟨1, .nsubj, false⟩, ⟨2, .dobj, false⟩, ⟨3, .other 0, true⟩] = [(9, ⟨.comp, true⟩), (2, ⟨.obj, false⟩), (3, ⟨.prep, false⟩)] := by decide
example : should (confZones (.dict [(['p', 'o', 's'], ['V'])])) [] = .attributeError := rfl

end Verif.Deps.Contexts
