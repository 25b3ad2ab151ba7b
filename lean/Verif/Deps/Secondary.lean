import Verif.Py.Str

/-!
# Properties C201 and C202: secondary dependencies and effective children

Source: `udapi/block/zellig_harris/enhancedeps.py`, `queries.py`. Nodes are natural numbers and 0 is the technical root. `D x` is the list `x.deps` as
(parent, deprel), which `node.deps` returns itself and not a copy (node.py:268-298).
-/

namespace Verif.Deps.Secondary
open Verif.Py

abbrev DepsOf := Nat → List (Nat × Str)

def conj : Str := ['c', 'o', 'n', 'j']
def dobj : Str := ['d', 'o', 'b', 'j']

/-- enhancedeps.py:34 and 103 -/
def targets : List Str :=
  [['s', 'u', 'b', 'j'], ['s', 'u', 'b', 'j', 'p', 'a', 's', 's'], dobj, ['i', 'o', 'b', 'j'], ['c', 'o', 'm', 'p', 'l']]

/-- `enhance_deps` (enhancedeps.py:55-69) -/
def enhance (D : DepsOf) (x : Nat) (d : Nat × Str) : DepsOf :=
  if (D x).any fun e => e.1 == d.1 && e.2 == d.2 then D else fun y => if y = x then D x ++ [d] else D y

section
variable (parent : Nat → Nat) (deprel : Nat → Str) (kids : Nat → List Nat)

/-- The loop with `no_such_deprel` (enhancedeps.py:44-48 and 110-114) -/
def noSuch (r : Str) : List Nat → Bool
  | [] => true
  | k :: ks => if deprel k = r then false else noSuch r ks

/-- Rule (2) on one candidate (enhancedeps.py:104-118) -/
def candidate (a : Nat) (D : DepsOf) (c : Nat) : DepsOf :=
  if targets.contains (deprel c) = false then D else
    if noSuch deprel (deprel c) (kids a) then enhance D c (a, deprel c) else D

/-- `process_node` (enhancedeps.py:80-118) -/
def processNode (D : DepsOf) (a : Nat) : DepsOf :=
  if deprel a ≠ conj then D else
    if parent a = 0 then D else
      (kids (parent a)).foldl (candidate deprel kids a) (enhance D a (parent (parent a), deprel (parent a)))

/-- The block on a tree -/
def process (words : List Nat) (D : DepsOf) : DepsOf := words.foldl (processNode parent deprel kids) D

/-- `eparent` (enhancedeps.py:6-20); the parent of the technical root is None -/
def eparent (a : Nat) : Option Nat :=
  if deprel a = conj then (if parent a = 0 then none else some (parent (parent a))) else some (parent a)

/-- `echildren` (enhancedeps.py:23-52); None has no attribute `children` -/
def echildren (a : Nat) : Option (List Nat) :=
  (eparent parent deprel a).map fun p =>
    kids a ++ (kids p).filter fun c => targets.contains (deprel c) && noSuch deprel (deprel c) (kids a)

/-- `en_verb_mydobj` (queries.py:4-26); the triples of words, `part` says that the word is a past participle of a verb -/
def mydobj (part : Nat → Bool) (a : Nat) : Option (List (Nat × Nat)) :=
  if part a = false then some [] else
    (echildren parent deprel kids a).map fun l => (l.filter fun c => deprel c == dobj && decide (a < c)).map fun c => (a, c)

/-! ## What it should do -/

/-- The two rules of the documentation (enhancedeps.py:82-87) -/
inductive New (words : List Nat) : Nat → Nat × Str → Prop where
  | head (a : Nat) : a ∈ words → deprel a = conj → parent a ≠ 0 → New words a (parent (parent a), deprel (parent a))
  | child (a c : Nat) : a ∈ words → deprel a = conj → parent a ≠ 0 → c ∈ kids (parent a) → deprel c ∈ targets →
      (∀ k ∈ kids a, deprel k ≠ deprel c) → New words c (a, deprel c)

end

variable {parent : Nat → Nat} {deprel : Nat → Str} {kids : Nat → List Nat}

theorem noSuch_iff (r : Str) (ks : List Nat) : noSuch deprel r ks = true ↔ ∀ k ∈ ks, deprel k ≠ r := by
  induction ks with
  | nil => simp [noSuch]
  | cons k ks ih =>
    rw [noSuch]
    by_cases h : deprel k = r
    · simp [h]
    · rw [if_neg h, ih]; simp [h]

/-- `E` is `D` with the relations `R` added once each, after the old ones. -/
def Adds (R : Nat → Nat × Str → Prop) (D E : DepsOf) : Prop :=
  ∀ x, ∃ new, E x = D x ++ new ∧ new.Nodup ∧ (∀ d ∈ new, d ∉ D x) ∧ ∀ d, d ∈ E x ↔ d ∈ D x ∨ R x d

theorem Adds.refl (D : DepsOf) : Adds (fun _ _ => False) D D := fun x => ⟨[], by simp⟩

theorem Adds.trans {R S : Nat → Nat × Str → Prop} {D E F : DepsOf} (h1 : Adds R D E) (h2 : Adds S E F) :
    Adds (fun x d => R x d ∨ S x d) D F := by
  intro x
  obtain ⟨n1, a1, a2, a3, a4⟩ := h1 x
  obtain ⟨n2, b1, b2, b3, b4⟩ := h2 x
  refine ⟨n1 ++ n2, by rw [b1, a1, List.append_assoc], ?_, ?_, ?_⟩
  · rw [List.nodup_append]
    refine ⟨a2, b2, fun u hu v hv he => ?_⟩
    exact b3 v hv (by rw [a1, ← he]; exact List.mem_append_right _ hu)
  · intro d hd
    rcases List.mem_append.mp hd with hd | hd
    · exact a3 d hd
    · exact fun hD => b3 d hd (by rw [a1]; exact List.mem_append_left _ hD)
  · intro d
    rw [b4, a4, or_assoc]

theorem Adds.congr {R S : Nat → Nat × Str → Prop} {D E : DepsOf} (h : Adds R D E) (hi : ∀ x d, R x d ↔ S x d) : Adds S D E := by
  intro x
  obtain ⟨n, a1, a2, a3, a4⟩ := h x
  exact ⟨n, a1, a2, a3, fun d => by rw [a4, hi]⟩

theorem enhance_adds (D : DepsOf) (y : Nat) (e : Nat × Str) : Adds (fun x d => x = y ∧ d = e) D (enhance D y e) := by
  intro x
  have hany : ((D y).any fun f => f.1 == e.1 && f.2 == e.2) = true ↔ e ∈ D y := by
    rw [List.any_eq_true]
    constructor
    · rintro ⟨f, hf, h⟩
      simp only [Bool.and_eq_true, beq_iff_eq] at h
      have : f = e := Prod.ext h.1 h.2
      exact this ▸ hf
    · exact fun h => ⟨e, h, by simp⟩
  by_cases h : e ∈ D y
  · refine ⟨[], ?_, by simp, by simp, ?_⟩
    · rw [enhance, if_pos (hany.mpr h), List.append_nil]
    · intro d
      rw [enhance, if_pos (hany.mpr h)]
      constructor
      · exact Or.inl
      · rintro (hd | ⟨hx, hd⟩)
        · exact hd
        · rw [hx, hd]; exact h
  · have hn : ¬ ((D y).any fun f => f.1 == e.1 && f.2 == e.2) = true := fun hc => h (hany.mp hc)
    by_cases hx : x = y
    · refine ⟨[e], ?_, by simp, ?_, ?_⟩
      · rw [enhance, if_neg hn, hx]; simp
      · intro d hd
        rw [List.mem_singleton.mp hd, hx]; exact h
      · intro d
        rw [enhance, if_neg hn]
        simp [hx]
    · refine ⟨[], ?_, by simp, by simp, ?_⟩
      · rw [enhance, if_neg hn]; simp [hx]
      · intro d
        rw [enhance, if_neg hn]; simp [hx]

theorem candidates_adds (a : Nat) (cs : List Nat) (D : DepsOf) :
    Adds (fun x d => x ∈ cs ∧ deprel x ∈ targets ∧ (∀ k ∈ kids a, deprel k ≠ deprel x) ∧ d = (a, deprel x))
      D (cs.foldl (candidate deprel kids a) D) := by
  induction cs generalizing D with
  | nil => exact (Adds.refl D).congr (by simp)
  | cons c cs ih =>
    rw [List.foldl_cons]
    have h1 : Adds (fun x d => x = c ∧ deprel x ∈ targets ∧ (∀ k ∈ kids a, deprel k ≠ deprel x) ∧ d = (a, deprel x))
        D (candidate deprel kids a D c) := by
      rw [candidate]
      by_cases ht : deprel c ∈ targets
      · rw [if_neg (by simp [ht])]
        by_cases hn : noSuch deprel (deprel c) (kids a) = true
        · rw [if_pos hn]
          refine (enhance_adds D c (a, deprel c)).congr fun x d => ?_
          constructor
          · rintro ⟨hx, hd⟩
            refine ⟨hx, hx ▸ ht, ?_, hx ▸ hd⟩
            rw [hx]; exact (noSuch_iff _ _).mp hn
          · rintro ⟨hx, _, _, hd⟩
            exact ⟨hx, by rw [hd, hx]⟩
        · rw [if_neg hn]
          refine (Adds.refl D).congr fun x d => ?_
          constructor
          · exact False.elim
          · rintro ⟨hx, _, h, _⟩
            rw [hx] at h
            exact hn ((noSuch_iff _ _).mpr h)
      · rw [if_pos (by simpa using ht)]
        refine (Adds.refl D).congr fun x d => ?_
        constructor
        · exact False.elim
        · rintro ⟨hx, h, _⟩
          rw [hx] at h
          exact ht h
    refine (h1.trans (ih _)).congr fun x d => ?_
    rw [List.mem_cons]
    constructor
    · rintro (⟨h, r⟩ | ⟨h, r⟩)
      · exact ⟨Or.inl h, r⟩
      · exact ⟨Or.inr h, r⟩
    · rintro ⟨h | h, r⟩
      · exact Or.inl ⟨h, r⟩
      · exact Or.inr ⟨h, r⟩

theorem node_adds (a : Nat) (D : DepsOf) : Adds (New parent deprel kids [a]) D (processNode parent deprel kids D a) := by
  rw [processNode]
  by_cases hc : deprel a = conj
  · rw [if_neg (not_not_intro hc)]
    by_cases hp : parent a = 0
    · rw [if_pos hp]
      refine (Adds.refl D).congr fun x d => ⟨False.elim, ?_⟩
      rintro (⟨b, hb, _, h⟩ | ⟨b, c, hb, _, h⟩) <;> exact h (List.mem_singleton.mp hb ▸ hp)
    · rw [if_neg hp]
      refine ((enhance_adds D a _).trans (candidates_adds a (kids (parent a)) _)).congr fun x d => ?_
      constructor
      · rintro (⟨hx, hd⟩ | ⟨h1, h2, h3, hd⟩)
        · subst hx hd
          exact .head _ (by simp) hc hp
        · subst hd
          exact .child _ _ (by simp) hc hp h1 h2 h3
      · rintro (⟨b, hb, h1, h2⟩ | ⟨b, c, hb, h1, h2, h3, h4, h5⟩)
        · rw [List.mem_singleton.mp hb]
          exact Or.inl ⟨rfl, rfl⟩
        · rw [List.mem_singleton.mp hb] at h3 h5 ⊢
          exact Or.inr ⟨h3, h4, h5, rfl⟩
  · rw [if_pos hc]
    refine (Adds.refl D).congr fun x d => ⟨False.elim, ?_⟩
    rintro (⟨b, hb, h, _⟩ | ⟨b, c, hb, h, _⟩) <;> exact hc (List.mem_singleton.mp hb ▸ h)

theorem New.mono {u v : List Nat} (h : ∀ a ∈ u, a ∈ v) {x : Nat} {d : Nat × Str} (hn : New parent deprel kids u x d) :
    New parent deprel kids v x d := by
  rcases hn with ⟨b, hb, h1, h2⟩ | ⟨b, c, hb, h1, h2, h3, h4, h5⟩
  · exact .head _ (h _ hb) h1 h2
  · exact .child _ _ (h _ hb) h1 h2 h3 h4 h5

/-- C201: what the block adds to the enhanced dependencies is exactly what the two rules say, each relation once, after the old relations, which stay. -/
theorem C201_deps (words : List Nat) (D : DepsOf) (x : Nat) :
    ∃ new, process parent deprel kids words D x = D x ++ new ∧ new.Nodup ∧ (∀ d ∈ new, d ∉ D x) ∧
      ∀ d, d ∈ process parent deprel kids words D x ↔ d ∈ D x ∨ New parent deprel kids words x d := by
  suffices h : Adds (New parent deprel kids words) D (process parent deprel kids words D) from h x
  induction words generalizing D with
  | nil =>
    refine (Adds.refl D).congr fun x d => ⟨False.elim, ?_⟩
    rintro (⟨_, hb, _⟩ | ⟨_, _, hb, _⟩) <;> cases hb
  | cons a ws ih =>
    rw [process, List.foldl_cons]
    refine ((node_adds a D).trans (ih _)).congr fun x d => ?_
    constructor
    · rintro (h | h)
      · exact h.mono (by simp)
      · exact h.mono (fun b hb => List.mem_cons_of_mem _ hb)
    · rintro (⟨b, hb, h1, h2⟩ | ⟨b, c, hb, h1, h2, h3, h4, h5⟩)
      · rcases List.mem_cons.mp hb with hb | hb
        · exact Or.inl (.head _ (by simp [hb]) h1 h2)
        · exact Or.inr (.head _ hb h1 h2)
      · rcases List.mem_cons.mp hb with hb | hb
        · exact Or.inl (.child _ _ (by simp [hb]) h1 h2 h3 h4 h5)
        · exact Or.inr (.child _ _ hb h1 h2 h3 h4 h5)

/-- C201: a second run of the block changes nothing. -/
theorem C201_idempotent (words : List Nat) (D : DepsOf) :
    process parent deprel kids words (process parent deprel kids words D) = process parent deprel kids words D := by
  funext x
  obtain ⟨_, _, _, _, h0⟩ := C201_deps (parent := parent) (deprel := deprel) (kids := kids) words D x
  obtain ⟨new, h1, _, h3, h4⟩ :=
    C201_deps (parent := parent) (deprel := deprel) (kids := kids) words (process parent deprel kids words D) x
  have : new = [] := by
    apply List.eq_nil_iff_forall_not_mem.mpr
    intro d hd
    have hm : d ∈ process parent deprel kids words (process parent deprel kids words D) x := by
      rw [h1]; exact List.mem_append_right _ hd
    rcases (h4 d).mp hm with h | h
    · exact h3 d hd h
    · exact h3 d hd ((h0 d).mpr (Or.inr h))
  rw [h1, this, List.append_nil]

/-- C201: words outside coordinations and their dependents keep their lists. -/
theorem C201_others (words : List Nat) (D : DepsOf) (x : Nat) (hx : x ∉ words ∨ deprel x ≠ conj)
    (hd : deprel x ∉ targets) : process parent deprel kids words D x = D x := by
  obtain ⟨new, h1, _, h3, h4⟩ := C201_deps (parent := parent) (deprel := deprel) (kids := kids) words D x
  have : new = [] := by
    apply List.eq_nil_iff_forall_not_mem.mpr
    intro d hn
    rcases (h4 d).mp (by rw [h1]; exact List.mem_append_right _ hn) with h | h
    · exact h3 d hn h
    · rcases h with ⟨_, hb, h1, _⟩ | ⟨_, _, _, _, _, _, h4, _⟩
      · exact hx.elim (fun h => h hb) (fun h => h h1)
      · exact hd h4
  rw [h1, this, List.append_nil]

/-! ## Effective children -/

/-- C202: what `echildren` returns: the children of the word, and the children of its effective parent with one of the five relations which no child of the word
has. -/
theorem C202_echildren (a : Nat) (l : List Nat) (h : echildren parent deprel kids a = some l) :
    ∃ p, eparent parent deprel a = some p ∧ (∃ more, l = kids a ++ more) ∧
      ∀ c, c ∈ l ↔ c ∈ kids a ∨ (c ∈ kids p ∧ deprel c ∈ targets ∧ ∀ k ∈ kids a, deprel k ≠ deprel c) := by
  rw [echildren, Option.map_eq_some_iff] at h
  obtain ⟨p, hp, hl⟩ := h
  refine ⟨p, hp, ⟨_, hl.symm⟩, fun c => ?_⟩
  rw [← hl, List.mem_append, List.mem_filter, Bool.and_eq_true, noSuch_iff]
  simp

/-- C202 is violated: a conjunct does not get the dependents of the first conjunct (as C201 gives them), but those of its parent: where `C` depends on the first
conjunct `B` with one of the five relations and conjunct `A` has no such child, `A` gets the dependency in C201 but `C` is not among its effective children
(unless it depends on the parent of `B` too, which it cannot). -/
theorem C202_conjunct_violated (words : List Nat) (D : DepsOf) (a c : Nat) (l : List Nat) (ha : a ∈ words) (hc : deprel a = conj)
    (hk : c ∈ kids (parent a)) (ht : deprel c ∈ targets) (hn : ∀ k ∈ kids a, deprel k ≠ deprel c) (hp : parent a ≠ 0)
    (hone : c ∉ kids (parent (parent a))) (h : echildren parent deprel kids a = some l) :
    (a, deprel c) ∈ process parent deprel kids words D c ∧ c ∉ l := by
  obtain ⟨_, _, _, _, h4⟩ := C201_deps (parent := parent) (deprel := deprel) (kids := kids) words D c
  refine ⟨(h4 _).mpr (Or.inr (.child a c ha hc hp hk ht hn)), ?_⟩
  obtain ⟨p, hp', _, hm⟩ := C202_echildren a l h
  rw [eparent, if_pos hc, if_neg hp] at hp'
  rw [hm]
  rintro (hk' | ⟨hk', _⟩)
  · exact hn c hk' rfl
  · exact hone (Option.some.inj hp' ▸ hk')

/-- C202 is violated: every word with one of the five relations which none of its children has is its own effective child. -/
theorem C202_self_violated (a : Nat) (ht : deprel a ∈ targets) (hk : a ∈ kids (parent a)) (hn : ∀ k ∈ kids a, deprel k ≠ deprel a) :
    ∃ l, echildren parent deprel kids a = some l ∧ a ∈ l := by
  have hc : deprel a ≠ conj := by
    intro h
    rw [h] at ht
    exact absurd ht (by decide)
  have he : echildren parent deprel kids a = some (kids a ++ (kids (parent a)).filter fun c =>
      targets.contains (deprel c) && noSuch deprel (deprel c) (kids a)) := by
    rw [echildren, eparent, if_neg hc]; rfl
  refine ⟨_, he, ?_⟩
  apply List.mem_append_right
  rw [List.mem_filter, Bool.and_eq_true, noSuch_iff]
  exact ⟨hk, by simpa using ht, hn⟩

/-- C202 is violated: a conjunct attached to the technical root has no effective children but an exception. -/
theorem C202_root_violated (a : Nat) (hc : deprel a = conj) (hp : parent a = 0) : echildren parent deprel kids a = none := by
  rw [echildren, eparent, if_pos hc, if_pos hp]; rfl

/-- C202: for a participle outside coordinations whose parent has no object, the triples are the pairs with its own objects on the right. -/
theorem C202_mydobj_partial (part : Nat → Bool) (a : Nat) (hp : part a = true) (hc : deprel a ≠ conj)
    (ho : ∀ c ∈ kids (parent a), deprel c ≠ dobj) :
    mydobj parent deprel kids part a = some (((kids a).filter fun c => deprel c == dobj && decide (a < c)).map fun c => (a, c)) := by
  have h : ((kids (parent a)).filter fun c => targets.contains (deprel c) && noSuch deprel (deprel c) (kids a)).filter
      (fun c => deprel c == dobj && decide (a < c)) = [] := by
    rw [List.filter_eq_nil_iff]
    intro c hcm
    have := ho c (List.mem_filter.mp hcm).1
    simp [this]
  rw [mydobj, if_neg (by simp [hp]), echildren, eparent, if_neg hc]
  simp only [Option.map_some, List.filter_append, h, List.append_nil]

/-- C202 is violated: an object of the parent which follows the participle is taken for an object of the participle. -/
theorem C202_mydobj_violated (part : Nat → Bool) (a c : Nat) (hp : part a = true) (hc : deprel a ≠ conj)
    (hk : c ∈ kids (parent a)) (hd : deprel c = dobj) (hac : a < c) (hn : ∀ k ∈ kids a, deprel k ≠ dobj) :
    ∃ l, mydobj parent deprel kids part a = some l ∧ (a, c) ∈ l := by
  have he : echildren parent deprel kids a = some (kids a ++ (kids (parent a)).filter fun c =>
      targets.contains (deprel c) && noSuch deprel (deprel c) (kids a)) := by
    rw [echildren, eparent, if_neg hc]; rfl
  refine ⟨_, by rw [mydobj, if_neg (by simp [hp]), he]; rfl, ?_⟩
  apply List.mem_map.mpr
  refine ⟨c, List.mem_filter.mpr ⟨?_, by simp [hd, hac]⟩, rfl⟩
  apply List.mem_append_right
  rw [List.mem_filter, Bool.and_eq_true, noSuch_iff, hd]
  exact ⟨hk, by decide, hn⟩

/-! ## Examples -/

/-- She(1) cut(2) and(3) ate(4) apples(5): 4 is a conjunct of 2, which has a subject and an object. -/
def exParent (x : Nat) : Nat := if x = 2 then 0 else if x = 3 then 4 else 2
def exDeprel (x : Nat) : Str :=
  if x = 1 then ['s', 'u', 'b', 'j'] else if x = 2 then ['r', 'o', 'o', 't'] else if x = 3 then ['c', 'c'] else if x = 4 then conj else dobj
def exKids (x : Nat) : List Nat := if x = 0 then [2] else if x = 2 then [1, 4, 5] else if x = 4 then [3] else []

example : (List.range 6).map (process exParent exDeprel exKids [1, 2, 3, 4, 5] fun _ => []) =
    [[], [(4, ['s', 'u', 'b', 'j'])], [], [], [(0, ['r', 'o', 'o', 't'])], [(4, dobj)]] := by decide

/-- The subject 1 is its own effective child, 4 has only its conjunction. -/
example : echildren exParent exDeprel exKids 1 = some [1, 5] ∧ echildren exParent exDeprel exKids 4 = some [3] ∧
    mydobj exParent exDeprel exKids (fun _ => true) 2 = some [(2, 5)] ∧
    mydobj exParent exDeprel exKids (fun x => x = 1) 1 = some [(1, 5)] := by decide

end Verif.Deps.Secondary
