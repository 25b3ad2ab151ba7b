import Verif.Py.Str
import Verif.Py.Sort

/-!
# corefud.PrintEntities

Model of `udapi/block/corefud/printentities.py` (lines 25-57): the mentions of an entity grouped by their
forms, and their ranges printed with a common prefix.  `os.path.commonprefix` of the standard library is
modelled as it is implemented (the common prefix of the least and the greatest string).

A mention is given by the words as printed (with `**` around the head) and its range (`address:span`).
-/

namespace Verif.Coref.PrintEnt
open Verif.Py

/-- `counter[forms] += 1; ranges[forms].append(r)` (lines 40-42) on dictionaries ordered by insertion; the
count of a form is the number of its ranges. -/
def add (d : List (Str × List Str)) (m : Str × Str) : List (Str × List Str) :=
  match d with
  | [] => [(m.1, [m.2])]
  | (f, rs) :: d => if f = m.1 then (f, rs ++ [m.2]) :: d else (f, rs) :: add d m

/-- `counter.most_common()` (line 43): by falling counts, those with the same count as they were inserted. -/
def mostCommon (d : List (Str × List Str)) : List (Str × List Str) :=
  pySort (fun a b => decide (b.2.length ≤ a.2.length)) d

/-- The groups of mentions in the order of printing. -/
def groups (ms : List (Str × Str)) : List (Str × List Str) := mostCommon (ms.foldl add [])

/-- Comparison of strings by code points. -/
def strLe : Str → Str → Bool
  | [], _ => true
  | _ :: _, [] => false
  | a :: s, b :: t => decide (a.toNat < b.toNat) || (a == b && strLe s t)

def strMin : Str → List Str → Str
  | m, [] => m
  | m, x :: l => strMin (if strLe m x then m else x) l

def strMax : Str → List Str → Str
  | m, [] => m
  | m, x :: l => strMax (if strLe x m then m else x) l

/-- The common prefix of two strings. -/
def lcp : Str → Str → Str
  | a :: s, b :: t => if a = b then a :: lcp s t else []
  | _, _ => []

/-- `os.path.commonprefix`. -/
def commonPrefix : List Str → Str
  | [] => []
  | x :: l => lcp (strMin x l) (strMax x l)

/-- Lines 45-50: the line with the ranges of a form. -/
def rangesLine (rs : List Str) : Str :=
  match rs with
  | [r] => List.replicate 8 ' ' ++ r
  | _ =>
    let p := commonPrefix rs
    List.replicate 8 ' ' ++ p ++ [' ', '('] ++ join [' '] (rs.map fun r => r.drop p.length) ++ [')']

/-- Lines 30-33: is the entity printed? -/
def printed (matchesEid : Option Bool) (minMentions n : Nat) : Bool :=
  (match matchesEid with | some b => b | none => true) && !decide (n < minMentions)

/-! ## Groups -/

theorem add_keys (d : List (Str × List Str)) (m : Str × Str) :
    (add d m).map (·.1) = if m.1 ∈ d.map (·.1) then d.map (·.1) else d.map (·.1) ++ [m.1] := by
  induction d with
  | nil => rfl
  | cons x d ih =>
    obtain ⟨f, rs⟩ := x
    rw [add]
    by_cases h : f = m.1
    · rw [if_pos h, if_pos (by simp [h])]
      rfl
    · rw [if_neg h, List.map_cons, ih]
      have h' : ¬ m.1 = f := fun he => h he.symm
      by_cases hm : m.1 ∈ d.map (·.1)
      · rw [if_pos hm, if_pos (by simp only [List.map_cons]; exact List.mem_cons_of_mem _ hm)]
        rfl
      · rw [if_neg hm, if_neg (by simp only [List.map_cons, List.mem_cons, not_or]; exact ⟨h', hm⟩)]
        rfl

theorem add_lookup (d : List (Str × List Str)) (m : Str × Str) (f : Str) :
    ((add d m).lookup f).getD [] = (d.lookup f).getD [] ++ (if m.1 = f then [m.2] else []) := by
  induction d with
  | nil =>
    simp only [add, List.lookup_cons, List.lookup_nil]
    by_cases h : m.1 = f
    · simp [h]
    · have : (f == m.1) = false := by simpa using fun he : f = m.1 => h he.symm
      simp [this, h]
  | cons x d ih =>
    obtain ⟨g, rs⟩ := x
    rw [add]
    by_cases h : g = m.1
    · rw [if_pos h, List.lookup_cons, List.lookup_cons]
      by_cases hf : f = g
      · have : m.1 = f := by rw [hf, h]
        simp [hf, h]
      · have h1 : (f == g) = false := by simpa using hf
        have h2 : ¬ m.1 = f := fun he => hf (by rw [← he, h])
        simp [h1, h2]
    · rw [if_neg h, List.lookup_cons, List.lookup_cons]
      by_cases hf : f = g
      · have h2 : ¬ m.1 = g := fun he => h he.symm
        simp [hf, h2]
      · have h1 : (f == g) = false := by simpa using hf
        simp only [h1]
        exact ih

theorem foldl_add (ms : List (Str × Str)) : ∀ (d : List (Str × List Str)), (d.map (·.1)).Nodup →
    ((ms.foldl add d).map (·.1)).Nodup ∧
    (∀ f, f ∈ (ms.foldl add d).map (·.1) ↔ f ∈ d.map (·.1) ∨ f ∈ ms.map (·.1)) ∧
    (∀ f, ((ms.foldl add d).lookup f).getD [] =
      (d.lookup f).getD [] ++ (ms.filter fun m => decide (m.1 = f)).map (·.2)) := by
  induction ms with
  | nil => intro d hd; simp [hd]
  | cons m ms ih =>
    intro d hd
    have hk := add_keys d m
    have hd' : ((add d m).map (·.1)).Nodup := by
      rw [hk]
      split
      · exact hd
      · rename_i h
        rw [List.nodup_append]
        refine ⟨hd, by simp, ?_⟩
        intro a ha b hb
        rw [List.mem_singleton.mp hb]
        exact fun he => h (he ▸ ha)
    obtain ⟨i1, i2, i3⟩ := ih (add d m) hd'
    refine ⟨i1, ?_, ?_⟩
    · intro f
      rw [List.foldl_cons, i2, hk]
      split
      · rename_i h
        rw [List.map_cons, List.mem_cons]
        constructor
        · rintro (h1 | h1)
          · exact Or.inl h1
          · exact Or.inr (Or.inr h1)
        · rintro (h1 | rfl | h1)
          · exact Or.inl h1
          · exact Or.inl h
          · exact Or.inr h1
      · rw [List.map_cons, List.mem_cons, List.mem_append, List.mem_singleton, or_assoc]
    · intro f
      rw [List.foldl_cons, i3, add_lookup, List.append_assoc, List.filter_cons]
      congr 1
      by_cases h : m.1 = f <;> simp [h]

theorem lookup_of_mem {d : List (Str × List Str)} (hn : (d.map (·.1)).Nodup) {f : Str} {rs : List Str}
    (h : (f, rs) ∈ d) : d.lookup f = some rs := by
  induction d with
  | nil => cases h
  | cons x d ih =>
    obtain ⟨g, qs⟩ := x
    rw [List.map_cons, List.nodup_cons] at hn
    rw [List.lookup_cons]
    rcases List.mem_cons.mp h with h' | h'
    · injection h' with h1 h2
      simp [h1, h2]
    · have : f ≠ g := by
        rintro rfl
        exact hn.1 (List.mem_map_of_mem (f := (·.1)) h')
      have h1 : (f == g) = false := by simpa using this
      simp only [h1]
      exact ih hn.2 h'

/-- Each form of mentions is printed once, with the ranges of its mentions in their order (so the count is
their number), and no other form is printed. -/
theorem C199_groups (ms : List (Str × Str)) :
    ((groups ms).map (·.1)).Nodup ∧ (∀ f, f ∈ (groups ms).map (·.1) ↔ f ∈ ms.map (·.1)) ∧
    ∀ g ∈ groups ms, g.2 = (ms.filter fun m => decide (m.1 = g.1)).map (·.2) := by
  obtain ⟨h1, h2, h3⟩ := foldl_add ms [] (by simp)
  have hp : (groups ms).Perm (ms.foldl add []) := pySort_perm _ _
  refine ⟨(hp.map _).nodup_iff.mpr h1, ?_, ?_⟩
  · intro f
    rw [(hp.map _).mem_iff, h2]
    simp
  · intro g hg
    have := h3 g.1
    rw [lookup_of_mem (f := g.1) (rs := g.2) h1 (hp.mem_iff.mp hg)] at this
    simpa using this

theorem perm_sum {a b : List Nat} (h : a.Perm b) : a.sum = b.sum := by
  induction h with
  | nil => rfl
  | cons x _ ih => simp [ih]
  | swap x y l => simp only [List.sum_cons]; omega
  | trans _ _ i1 i2 => exact i1.trans i2

/-- The counts sum up to the number of mentions of the entity. -/
theorem C199_counts (ms : List (Str × Str)) : ((groups ms).map fun g => g.2.length).sum = ms.length := by
  have hp : (groups ms).Perm (ms.foldl add []) := pySort_perm _ _
  rw [perm_sum (hp.map _)]
  have hadd : ∀ d m, ((add d m).map fun g => g.2.length).sum = (d.map fun g => g.2.length).sum + 1 := by
    intro d m
    induction d with
    | nil => rfl
    | cons x d ih =>
      obtain ⟨f, rs⟩ := x
      rw [add]
      split
      · simp; omega
      · simp only [List.map_cons, List.sum_cons, ih]; omega
  have hfold : ∀ (ms : List (Str × Str)) (d : List (Str × List Str)),
      ((ms.foldl add d).map fun g => g.2.length).sum = (d.map fun g => g.2.length).sum + ms.length := by
    intro ms
    induction ms with
    | nil => intro d; rfl
    | cons m ms ih =>
      intro d
      rw [List.foldl_cons, ih, hadd, List.length_cons]
      omega
  simpa using hfold ms []

/-- The forms are printed by falling counts; those with equal counts in the order of their first
mentions. -/
theorem C199_order (ms : List (Str × Str)) :
    (groups ms).Pairwise (fun a b => b.2.length ≤ a.2.length) ∧
    ∀ n, ((groups ms).filter fun g => decide (g.2.length = n)) =
      (ms.foldl add []).filter fun g => decide (g.2.length = n) := by
  constructor
  · have := pySort_pairwise (le := fun a b : Str × List Str => decide (b.2.length ≤ a.2.length))
      (fun a b c h1 h2 => by simp only [decide_eq_true_eq] at *; omega)
      (fun a b => by simp only [decide_eq_true_eq]; omega) (ms.foldl add [])
    exact this.imp fun h => by simpa using h
  · intro n
    apply pySort_stable
    intro a b ha hb
    simp only [decide_eq_true_eq] at *
    omega

/-! ## Ranges -/

theorem strLe_refl : ∀ s, strLe s s = true
  | [] => rfl
  | a :: s => by simp [strLe, strLe_refl s]

theorem char_eq {a b : Char} (h : a.toNat = b.toNat) : a = b := Char.toNat_inj.mp h

theorem strLe_total : ∀ s t, strLe s t = true ∨ strLe t s = true
  | [], _ => Or.inl rfl
  | _ :: _, [] => Or.inr rfl
  | a :: s, b :: t => by
    simp only [strLe, Bool.or_eq_true, decide_eq_true_eq, Bool.and_eq_true, beq_iff_eq]
    rcases Nat.lt_trichotomy a.toNat b.toNat with h | h | h
    · exact Or.inl (Or.inl h)
    · have := char_eq h
      subst this
      rcases strLe_total s t with h' | h'
      · exact Or.inl (Or.inr ⟨rfl, h'⟩)
      · exact Or.inr (Or.inr ⟨rfl, h'⟩)
    · exact Or.inr (Or.inl h)

theorem strLe_trans : ∀ {s t u}, strLe s t = true → strLe t u = true → strLe s u = true
  | [], _, _, _, _ => rfl
  | _ :: _, [], _, h, _ => by cases h
  | _ :: _, _ :: _, [], _, h => by cases h
  | a :: s, b :: t, c :: u, h1, h2 => by
    simp only [strLe, Bool.or_eq_true, decide_eq_true_eq, Bool.and_eq_true, beq_iff_eq] at *
    rcases h1 with h1 | ⟨rfl, h1⟩
    · rcases h2 with h2 | ⟨rfl, _⟩
      · exact Or.inl (by omega)
      · exact Or.inl h1
    · rcases h2 with h2 | ⟨rfl, h2⟩
      · exact Or.inl h2
      · exact Or.inr ⟨rfl, strLe_trans h1 h2⟩

theorem strMin_spec : ∀ (l : List Str) (m : Str), (strMin m l = m ∨ strMin m l ∈ l) ∧
    strLe (strMin m l) m = true ∧ ∀ x ∈ l, strLe (strMin m l) x = true
  | [], m => ⟨Or.inl rfl, strLe_refl m, by simp⟩
  | x :: l, m => by
    rw [strMin]
    obtain ⟨h1, h2, h3⟩ := strMin_spec l (if strLe m x then m else x)
    by_cases h : strLe m x = true
    · rw [if_pos h] at h1 h2 h3 ⊢
      refine ⟨?_, h2, ?_⟩
      · rcases h1 with h1 | h1
        · exact Or.inl h1
        · exact Or.inr (List.mem_cons_of_mem _ h1)
      · intro y hy
        rcases List.mem_cons.mp hy with rfl | hy
        · exact strLe_trans h2 h
        · exact h3 y hy
    · rw [if_neg h] at h1 h2 h3 ⊢
      have hx : strLe x m = true := (strLe_total m x).resolve_left h
      refine ⟨?_, strLe_trans h2 hx, ?_⟩
      · rcases h1 with h1 | h1
        · exact Or.inr (by rw [h1]; exact List.mem_cons_self)
        · exact Or.inr (List.mem_cons_of_mem _ h1)
      · intro y hy
        rcases List.mem_cons.mp hy with rfl | hy
        · exact h2
        · exact h3 y hy

theorem strMax_spec : ∀ (l : List Str) (m : Str), (strMax m l = m ∨ strMax m l ∈ l) ∧
    strLe m (strMax m l) = true ∧ ∀ x ∈ l, strLe x (strMax m l) = true
  | [], m => ⟨Or.inl rfl, strLe_refl m, by simp⟩
  | x :: l, m => by
    rw [strMax]
    obtain ⟨h1, h2, h3⟩ := strMax_spec l (if strLe x m then m else x)
    by_cases h : strLe x m = true
    · rw [if_pos h] at h1 h2 h3 ⊢
      refine ⟨?_, h2, ?_⟩
      · rcases h1 with h1 | h1
        · exact Or.inl h1
        · exact Or.inr (List.mem_cons_of_mem _ h1)
      · intro y hy
        rcases List.mem_cons.mp hy with rfl | hy
        · exact strLe_trans h h2
        · exact h3 y hy
    · rw [if_neg h] at h1 h2 h3 ⊢
      have hx : strLe m x = true := (strLe_total x m).resolve_left h
      refine ⟨?_, strLe_trans hx h2, ?_⟩
      · rcases h1 with h1 | h1
        · exact Or.inr (by rw [h1]; exact List.mem_cons_self)
        · exact Or.inr (List.mem_cons_of_mem _ h1)
      · intro y hy
        rcases List.mem_cons.mp hy with rfl | hy
        · exact h2
        · exact h3 y hy

theorem lcp_between : ∀ {a b x : Str}, strLe a x = true → strLe x b = true → lcp a b <+: x
  | [], _, _, _, _ => by simp [lcp]
  | _ :: _, [], _, _, _ => by simp [lcp]
  | _ :: _, _ :: _, [], h, _ => by cases h
  | a :: s, b :: t, c :: u, h1, h2 => by
    rw [lcp]
    split
    · rename_i h
      subst h
      simp only [strLe, Bool.or_eq_true, decide_eq_true_eq, Bool.and_eq_true, beq_iff_eq] at *
      rcases h1 with h1 | ⟨rfl, h1⟩
      · rcases h2 with h2 | ⟨h2, _⟩
        · omega
        · subst h2; omega
      · rcases h2 with h2 | ⟨_, h2⟩
        · omega
        · exact List.prefix_cons_inj a |>.mpr (lcp_between h1 h2)
    · exact List.nil_prefix

theorem prefix_lcp : ∀ {p a b : Str}, p <+: a → p <+: b → p <+: lcp a b
  | [], _, _, _, _ => List.nil_prefix
  | c :: p, a, b, h1, h2 => by
    obtain ⟨a', ha⟩ := h1
    obtain ⟨b', hb⟩ := h2
    subst ha hb
    rw [List.cons_append, List.cons_append, lcp, if_pos rfl]
    exact List.prefix_cons_inj c |>.mpr (prefix_lcp ⟨a', rfl⟩ ⟨b', rfl⟩)

/-- The printed prefix is the longest common prefix of the ranges, and the ranges are the prefix followed
by what is printed in parentheses. -/
theorem C199_prefix (rs : List Str) :
    (∀ r ∈ rs, commonPrefix rs ++ r.drop (commonPrefix rs).length = r) ∧
    (rs ≠ [] → ∀ p, (∀ r ∈ rs, p <+: r) → p <+: commonPrefix rs) := by
  cases rs with
  | nil => simp
  | cons x l =>
    obtain ⟨a1, a2, a3⟩ := strMin_spec l x
    obtain ⟨b1, b2, b3⟩ := strMax_spec l x
    constructor
    · intro r hr
      have : commonPrefix (x :: l) <+: r := by
        rcases List.mem_cons.mp hr with rfl | hr
        · exact lcp_between a2 b2
        · exact lcp_between (a3 r hr) (b3 r hr)
      obtain ⟨t, ht⟩ := this
      rw [← ht]
      simp
    · intro _ p hp
      apply prefix_lcp
      · rcases a1 with h | h
        · rw [h]; exact hp x List.mem_cons_self
        · exact hp _ (List.mem_cons_of_mem _ h)
      · rcases b1 with h | h
        · rw [h]; exact hp x List.mem_cons_self
        · exact hp _ (List.mem_cons_of_mem _ h)

/-- The ranges are read back from the printed line: the prefix before the parenthesis with each of the
parts in it, for more than one range without spaces and parentheses. -/
theorem C199_line {rs : List Str} (hlen : 2 ≤ rs.length) (hs : ∀ r ∈ rs, ' ' ∉ r ∧ ')' ∉ r) :
    ∃ p parts, rangesLine rs = List.replicate 8 ' ' ++ p ++ [' ', '('] ++ join [' '] parts ++ [')'] ∧
      ' ' ∉ p ∧ split ' ' (join [' '] parts) = parts ∧ parts.map (p ++ ·) = rs := by
  obtain ⟨h1, _⟩ := C199_prefix rs
  refine ⟨commonPrefix rs, rs.map fun r => r.drop (commonPrefix rs).length, ?_, ?_, ?_, ?_⟩
  · unfold rangesLine
    match rs, hlen with
    | a :: b :: l, _ => rfl
  · match rs, hlen with
    | a :: l, _ =>
      have := h1 a List.mem_cons_self
      intro hm
      have ha := (hs a List.mem_cons_self).1
      apply ha
      rw [← this]
      exact List.mem_append_left _ hm
  · apply split_join
    · match rs, hlen with
      | a :: l, _ => simp
    · intro q hq
      obtain ⟨r, hr, rfl⟩ := List.mem_map.mp hq
      exact fun hm => (hs r hr).1 (List.mem_of_mem_drop hm)
  · rw [List.map_map]
    conv => rhs; rw [← List.map_id rs]
    apply List.map_congr_left
    intro r hr
    exact h1 r hr

/-- An entity is printed iff its id matches (if a regular expression is given) and it has enough mentions. -/
theorem C199_entities (m : Option Bool) (k n : Nat) :
    printed m k n = true ↔ m ≠ some false ∧ k ≤ n := by
  unfold printed
  rcases m with _ | _ | _ <;> simp

example : groups [(['a'], ['s', '1', ':', '1']), (['b'], ['s', '1', ':', '2']), (['b'], ['s', '2', ':', '1'])] =
    [(['b'], [['s', '1', ':', '2'], ['s', '2', ':', '1']]), (['a'], [['s', '1', ':', '1']])] := by decide

example : rangesLine [['s', '1', ':', '2'], ['s', '2', ':', '1']] =
    List.replicate 8 ' ' ++ ['s', ' ', '(', '1', ':', '2', ' ', '2', ':', '1', ')'] := by decide

end Verif.Coref.PrintEnt
