import Verif.Py.Str

/-!
# Property C232: case-enhanced relations (udapi/block/ud/lt/fixedeprels.py, with the loops shared by the blocks for cs and ru)

`fix` is one round of the loop over `node.deps` in the Lithuanian block. A relation is a list of characters without line breaks. The regular expressions try the longer prefix `obl:arg` before `obl`;
that they could fall back to the shorter one makes no difference, because no key of the tables is `arg` or `relcl`. `adp l` is the lower-case `Case` of the first child with lemma `l`, if there is one
and it is not empty (`copy_case_from_adposition`, lt/fixedeprels.py:56-68). The block for ar tests its outermost markers in another way; it and the other rules of the blocks for cs and ru
are not modelled.
-/

namespace Verif.Deps.Edeprels

abbrev Str := List Char

/-- What follows the prefix -/
def strip : Str → Str → Option Str
  | [], s => some s
  | _ :: _, [] => none
  | a :: p, b :: s => if a = b then strip p s else none

/-- `x([_:].+)?$` with a group that is not empty -/
def caught (x t : Str) : Bool :=
  match strip x t with
  | some (c :: _ :: _) => c == '_' || c == ':'
  | _ => false

def cases : List Str := [['n', 'o', 'm'], ['g', 'e', 'n'], ['d', 'a', 't'], ['a', 'c', 'c'], ['v', 'o', 'c'], ['l', 'o', 'c'], ['i', 'n', 's']]

/-- `x(?::(?:nom|gen|...))?$` -/
def isKey (x t : Str) : Bool := t == x || cases.any fun c => t == x ++ ':' :: c

/-- The two loops over `outermost` and `unambiguous` (lt/fixedeprels.py:89-106, cs/fixedeprels.py:341-358, ru/fixedeprels.py:173-190), on what follows the relation -/
def loops (outer : List (Str × List Str)) (unamb : List (Str × Str)) (t : Str) : Option Str :=
  match outer.find? fun e => caught e.1 t && !e.2.contains t with
  | some e => some e.1
  | none => (unamb.find? fun e => isKey e.1 t).map (·.2)

/-- lt/fixedeprels.py:14-20 -/
def ltOuter : List (Str × List Str) :=
  [(['k', 'a', 'i', 'p'], []),
   (['l', 'y', 'g'], []),
   (['n', 'e', 'g', 'u'], []),
   (['n', 'e', 'i'], []),
   (['n', 'e', 's'], [])]

/-- lt/fixedeprels.py:27-54 -/
def ltUnamb : List (Str × Str) :=
  [(['a', 'p', 'i', 'e'], ['a', 'p', 'i', 'e', ':', 'a', 'c', 'c']),
   (['d', 'ė', 'l'], ['d', 'ė', 'l', ':', 'g', 'e', 'n']),
   (['i', 'k', 'i'], ['i', 'k', 'i', ':', 'g', 'e', 'n']),
   (['i', 'š'], ['i', 'š', ':', 'g', 'e', 'n']),
   (['į'], ['į', ':', 'a', 'c', 'c']),
   (['j', 'e', 'i'], ['j', 'e', 'i']),
   (['j', 'e', 'i', 'g', 'u'], ['j', 'e', 'i', 'g', 'u']),
   (['j', 'o', 'g'], ['j', 'o', 'g']),
   (['k', 'a', 'd', 'a', 'n', 'g', 'i'], ['k', 'a', 'd', 'a', 'n', 'g', 'i']),
   (['k', 'a', 'i'], ['k', 'a', 'i']),
   (['k', 'a', 'i', 'p'], ['k', 'a', 'i', 'p']),
   (['l', 'y', 'g'], ['l', 'y', 'g']),
   (['n', 'e', 'g', 'u'], ['n', 'e', 'g', 'u']),
   (['n', 'e', 'i'], ['n', 'e', 'i']),
   (['n', 'e', 's'], ['n', 'e', 's']),
   (['n', 'o', 'r', 's'], ['n', 'o', 'r', 's']),
   (['n', 'u', 'o'], ['n', 'u', 'o', ':', 'g', 'e', 'n']),
   (['p', 'a', 'g', 'a', 'l'], ['p', 'a', 'g', 'a', 'l', ':', 'a', 'c', 'c']),
   (['p', 'a', 'g', 'a', 'l', '_', 'd', 'ė', 'l'], ['p', 'a', 'g', 'a', 'l', ':', 'a', 'c', 'c']),
   (['p', 'e', 'r'], ['p', 'e', 'r', ':', 'a', 'c', 'c']),
   (['p', 'r', 'i', 'e'], ['p', 'r', 'i', 'e', ':', 'g', 'e', 'n']),
   (['p', 'r', 'i', 'e', 'š'], ['p', 'r', 'i', 'e', 'š', ':', 'a', 'c', 'c']),
   (['s', 'u'], ['s', 'u', ':', 'i', 'n', 's']),
   (['t', 'a', 'r', 'p'], ['t', 'a', 'r', 'p', ':', 'g', 'e', 'n']),
   (['t', 'a', 'r', 's', 'i'], ['t', 'a', 'r', 's', 'i']),
   (['v', 'i', 'r', 'š'], ['v', 'i', 'r', 'š', ':', 'g', 'e', 'n'])]

/-- cs/fixedeprels.py:13-33 -/
def csOuter : List (Str × List Str) :=
  [(['a', 'b', 'y'], []),
   (['a', 'č'], []),
   (['a', 'č', 'k', 'o', 'l', 'i'], []),
   (['a', 'č', 'k', 'o', 'l', 'i', 'v'], []),
   (['a', 'ť'], []),
   (['b', 'y', 'ť'], []),
   (['i', '_', 'k', 'd', 'y', 'ž'], []),
   (['j', 'a', 'k'], []),
   (['j', 'a', 'k', 'k', 'o', 'l', 'i'], []),
   (['j', 'a', 'k', 'o'], []),
   (['j', 'a', 'k', 'o', 'b', 'y'], [['j', 'a', 'k', 'o', 'b', 'y', '_', 'p', 'o', 'd', ':', 'i', 'n', 's']]),
   (['k', 'd', 'y', 'ž'], []),
   (['n', 'e', 'ž'], [['n', 'e', 'ž', '_', 'a', 'b', 'y']]),
   (['n', 'e', 'ž', 'l', 'i'], []),
   (['p', 'o', 'k', 'u', 'd'], []),
   (['p', 'r', 'o', 't', 'o', 'ž', 'e'], []),
   (['t', 'a', 'k', 'ž', 'e'], []),
   (['t', 'ř', 'e', 'b', 'a', 'ž', 'e'], []),
   (['ž', 'e'], [])]

inductive Rel | oblArg | obl | nmod | advcl | aclRelcl | acl
deriving DecidableEq

def relStr : Rel → Str
  | .oblArg => ['o', 'b', 'l', ':', 'a', 'r', 'g']
  | .obl => ['o', 'b', 'l']
  | .nmod => ['n', 'm', 'o', 'd']
  | .advcl => ['a', 'd', 'v', 'c', 'l']
  | .aclRelcl => ['a', 'c', 'l', ':', 'r', 'e', 'l', 'c', 'l']
  | .acl => ['a', 'c', 'l']

def pre (r : Rel) : Str := relStr r ++ [':']

/-- `^(obl(?::arg)?|nmod|advcl|acl(?::relcl)?):` -/
def parse (s : Str) : Option (Rel × Str) :=
  [Rel.oblArg, .obl, .nmod, .advcl, .aclRelcl, .acl].findSome? fun r => (strip (pre r) s).map fun t => (r, t)

def nominal : Rel → Bool
  | .oblArg | .obl | .nmod => true
  | _ => false

/-- `(po|už)(?::(?:nom|voc))?$` for one of the two -/
def isAdp (x t : Str) : Bool := t == x || t == x ++ ':' :: ['n', 'o', 'm'] || t == x ++ ':' :: ['v', 'o', 'c']

/-- The case of the adposition, or the accusative (lt/fixedeprels.py:111-125) -/
def adpCase (adp : Str → Option Str) (x : Str) : Str :=
  match adp x with
  | some c => if c = ['n', 'o', 'm'] ∨ c = ['v', 'o', 'c'] then ['a', 'c', 'c'] else c
  | none => ['a', 'c', 'c']

/-- lt/fixedeprels.py:89-125, on what follows the relation -/
def fixT (adp : Str → Option Str) (r : Rel) (t : Str) : Str :=
  match loops ltOuter ltUnamb t with
  | some v => v
  | none =>
    if nominal r && isAdp ['p', 'o'] t then ['p', 'o'] ++ ':' :: adpCase adp ['p', 'o']
    else if nominal r && isAdp ['u', 'ž'] t then ['u', 'ž'] ++ ':' :: adpCase adp ['u', 'ž']
    else t

/-- One round of the loop of lt/fixedeprels.py:75-125 -/
def fix (adp : Str → Option Str) (s : Str) : Str :=
  match parse s with
  | none => s
  | some (r, t) =>
    if r = .advcl ∧ (t = ['d', 'o'] ∨ t = ['d', 'o', ':', 'g', 'e', 'n']) then pre .obl ++ fixT adp .obl ['d', 'o', ':', 'g', 'e', 'n']
    else if r = .acl ∧ (t = ['k'] ∨ t = ['k', ':', 'd', 'a', 't']) then relStr .acl
    else pre r ++ fixT adp r t

/-! ## Lemmas -/

theorem strip_append : ∀ p t : Str, strip p (p ++ t) = some t
  | [], _ => rfl
  | a :: p, t => by simp [strip, strip_append p t]

theorem strip_some : ∀ {p s t : Str}, strip p s = some t → s = p ++ t
  | [], s, t, h => by simpa [strip] using h
  | _ :: _, [], _, h => by simp [strip] at h
  | a :: p, b :: s, t, h => by
    simp only [strip] at h
    split at h
    · next e => rw [strip_some h, e]; rfl
    · cases h

/-- A relation that can stand before `t` without being read as a longer one -/
def Reads (r : Rel) (t : Str) : Prop := (r = .obl → strip ['a', 'r', 'g', ':'] t = none) ∧ (r = .acl → strip ['r', 'e', 'l', 'c', 'l', ':'] t = none)

theorem parse_pre {r : Rel} {t : Str} (h : Reads r t) : parse (pre r ++ t) = some (r, t) := by
  cases r
  · simp [parse, pre, relStr, strip]
  · have := h.1 rfl
    simp [parse, pre, relStr, strip, this]
  · simp [parse, pre, relStr, strip]
  · simp [parse, pre, relStr, strip]
  · simp [parse, pre, relStr, strip]
  · have := h.2 rfl
    simp [parse, pre, relStr, strip, this]

theorem parse_some {s : Str} {r : Rel} {t : Str} (h : parse s = some (r, t)) : s = pre r ++ t ∧ Reads r t := by
  simp only [parse, List.findSome?_cons, List.findSome?_nil] at h
  have key : ∀ {q : Rel}, (strip (pre q) s).map (fun t => (q, t)) = some (r, t) → q = r ∧ s = pre r ++ t := by
    intro q hq
    rw [Option.map_eq_some_iff] at hq
    obtain ⟨u, hu, e⟩ := hq
    cases e
    exact ⟨rfl, strip_some hu⟩
  have no : ∀ {q : Rel}, (strip (pre q) s).map (fun t => (q, t)) = none → strip (pre q) s = none := by
    intro q hq
    simpa using hq
  split at h
  · next b hb =>
    cases h
    obtain ⟨e, e'⟩ := key hb
    subst e
    exact ⟨e', (nomatch ·), (nomatch ·)⟩
  · next h1 =>
    split at h
    · next b hb =>
      cases h
      obtain ⟨e, e'⟩ := key hb
      subst e
      refine ⟨e', fun _ => ?_, (nomatch ·)⟩
      have := no h1
      rw [e'] at this
      simpa [pre, relStr, strip] using this
    · split at h
      · next b hb =>
        cases h
        obtain ⟨e, e'⟩ := key hb
        subst e
        exact ⟨e', (nomatch ·), (nomatch ·)⟩
      · split at h
        · next b hb =>
          cases h
          obtain ⟨e, e'⟩ := key hb
          subst e
          exact ⟨e', (nomatch ·), (nomatch ·)⟩
        · split at h
          · next b hb =>
            cases h
            obtain ⟨e, e'⟩ := key hb
            subst e
            exact ⟨e', (nomatch ·), (nomatch ·)⟩
          · next h5 =>
            split at h
            · next b hb =>
              cases h
              obtain ⟨e, e'⟩ := key hb
              subst e
              refine ⟨e', (nomatch ·), fun _ => ?_⟩
              have := no h5
              rw [e'] at this
              simpa [pre, relStr, strip] using this
            · cases h

/-- What the tables yield -/
def results : List Str := ltOuter.map (·.1) ++ ltUnamb.map (·.2)

theorem loops_mem {t v : Str} (h : loops ltOuter ltUnamb t = some v) : v ∈ results := by
  unfold loops at h
  split at h
  · next e he =>
    cases h
    exact List.mem_append_left _ (List.mem_map.2 ⟨e, List.mem_of_find?_eq_some he, rfl⟩)
  · rw [Option.map_eq_some_iff] at h
    obtain ⟨e, he, rfl⟩ := h
    exact List.mem_append_right _ (List.mem_map.2 ⟨e, List.mem_of_find?_eq_some he, rfl⟩)

theorem results_fixed : ∀ v ∈ results, loops ltOuter ltUnamb v = some v ∧ strip ['a', 'r', 'g', ':'] v = none ∧ strip ['r', 'e', 'l', 'c', 'l', ':'] v = none := by decide

theorem loops_po (c : Str) : loops ltOuter ltUnamb (['p', 'o'] ++ ':' :: c) = none := by
  simp [loops, ltOuter, ltUnamb, caught, strip, isKey, cases]

theorem loops_uz (c : Str) : loops ltOuter ltUnamb (['u', 'ž'] ++ ':' :: c) = none := by
  simp [loops, ltOuter, ltUnamb, caught, strip, isKey, cases]

theorem adpCase_ne (adp : Str → Option Str) (x : Str) : adpCase adp x ≠ ['n', 'o', 'm'] ∧ adpCase adp x ≠ ['v', 'o', 'c'] := by
  unfold adpCase
  split
  · split
    · exact ⟨by decide, by decide⟩
    · next h => exact ⟨fun e => h (.inl e), fun e => h (.inr e)⟩
  · exact ⟨by decide, by decide⟩

theorem fixT_reads (adp : Str → Option Str) {r : Rel} {t : Str} (h : Reads r t) : Reads r (fixT adp r t) := by
  unfold fixT
  split
  · next v hv =>
    have := results_fixed v (loops_mem hv)
    exact ⟨fun _ => this.2.1, fun _ => this.2.2⟩
  · split
    · exact ⟨fun _ => by simp [strip], fun _ => by simp [strip]⟩
    · split
      · exact ⟨fun _ => by simp [strip], fun _ => by simp [strip]⟩
      · exact h

theorem fixT_twice (adp : Str → Option Str) (r : Rel) (t : Str) : fixT adp r (fixT adp r t) = fixT adp r t := by
  cases hl : loops ltOuter ltUnamb t with
  | some v =>
    have e : fixT adp r t = v := by simp only [fixT, hl]
    rw [e]
    simp only [fixT, (results_fixed v (loops_mem hl)).1]
  | none =>
    by_cases hp : (nominal r && isAdp ['p', 'o'] t) = true
    · have e : fixT adp r t = ['p', 'o'] ++ ':' :: adpCase adp ['p', 'o'] := by simp only [fixT, hl, if_pos hp]
      rw [e]
      have hn := adpCase_ne adp ['p', 'o']
      have hl' : loops ltOuter ltUnamb ('p' :: 'o' :: ':' :: adpCase adp ['p', 'o']) = none := loops_po _
      simp [fixT, hl', isAdp, hn]
    · by_cases hu : (nominal r && isAdp ['u', 'ž'] t) = true
      · have e : fixT adp r t = ['u', 'ž'] ++ ':' :: adpCase adp ['u', 'ž'] := by simp only [fixT, hl, if_neg hp, if_pos hu]
        rw [e]
        have hn := adpCase_ne adp ['u', 'ž']
        have hl' : loops ltOuter ltUnamb ('u' :: 'ž' :: ':' :: adpCase adp ['u', 'ž']) = none := loops_uz _
        simp [fixT, hl', isAdp, hn]
      · have e : fixT adp r t = t := by simp only [fixT, hl, if_neg hp, if_neg hu]
        rw [e, e]

theorem fix_pre (adp : Str → Option Str) {r : Rel} {t : Str} (h : Reads r t) (h1 : r = .advcl → t ≠ ['d', 'o'] ∧ t ≠ ['d', 'o', ':', 'g', 'e', 'n']) (h2 : r = .acl → t ≠ ['k'] ∧ t ≠ ['k', ':', 'd', 'a', 't']) :
    fix adp (pre r ++ t) = pre r ++ fixT adp r t := by
  simp only [fix, parse_pre h]
  rw [if_neg (fun g => g.2.elim (h1 g.1).1 (h1 g.1).2), if_neg (fun g => g.2.elim (h2 g.1).1 (h2 g.1).2)]

/-- No result is corrected early in the next round. -/
theorem fixT_early (adp : Str → Option Str) {r : Rel} {t x : Str} (hx : x ∈ ([['d', 'o'], ['d', 'o', ':', 'g', 'e', 'n'], ['k'], ['k', ':', 'd', 'a', 't']] : List Str)) (h : fixT adp r t = x) : t = x := by
  cases hl : loops ltOuter ltUnamb t with
  | some v =>
    have e : fixT adp r t = v := by simp only [fixT, hl]
    rw [e] at h
    exfalso
    have := loops_mem hl
    rw [h] at this
    revert this hx
    have key : ∀ y ∈ ([['d', 'o'], ['d', 'o', ':', 'g', 'e', 'n'], ['k'], ['k', ':', 'd', 'a', 't']] : List Str), y ∉ results := by decide
    intro hx
    exact key x hx
  | none =>
    by_cases hp : (nominal r && isAdp ['p', 'o'] t) = true
    · have e : fixT adp r t = ['p', 'o'] ++ ':' :: adpCase adp ['p', 'o'] := by simp only [fixT, hl, if_pos hp]
      rw [e] at h
      simp only [List.mem_cons, List.not_mem_nil, or_false] at hx
      rcases hx with rfl | rfl | rfl | rfl <;> simp at h
    · by_cases hu : (nominal r && isAdp ['u', 'ž'] t) = true
      · have e : fixT adp r t = ['u', 'ž'] ++ ':' :: adpCase adp ['u', 'ž'] := by simp only [fixT, hl, if_neg hp, if_pos hu]
        rw [e] at h
        simp only [List.mem_cons, List.not_mem_nil, or_false] at hx
        rcases hx with rfl | rfl | rfl | rfl <;> simp at h
      · have e : fixT adp r t = t := by simp only [fixT, hl, if_neg hp, if_neg hu]
        rw [← e]; exact h

/-! ## Theorems -/

/-- A second run of the Lithuanian block changes no relation. -/
theorem C232_twice (adp : Str → Option Str) (s : Str) : fix adp (fix adp s) = fix adp s := by
  cases hp : parse s with
  | none =>
    have e : fix adp s = s := by simp only [fix, hp]
    rw [e, e]
  | some rt =>
    obtain ⟨r, t⟩ := rt
    obtain ⟨_, hr⟩ := parse_some hp
    by_cases h1 : r = .advcl ∧ (t = ['d', 'o'] ∨ t = ['d', 'o', ':', 'g', 'e', 'n'])
    · have e : fix adp s = pre .obl ++ fixT adp .obl ['d', 'o', ':', 'g', 'e', 'n'] := by simp only [fix, hp, if_pos h1]
      have hd : Reads .obl ['d', 'o', ':', 'g', 'e', 'n'] := ⟨fun _ => by decide, (nomatch ·)⟩
      rw [e, fix_pre adp (fixT_reads adp hd) (nomatch ·) (nomatch ·), fixT_twice]
    · by_cases h2 : r = .acl ∧ (t = ['k'] ∨ t = ['k', ':', 'd', 'a', 't'])
      · have e : fix adp s = relStr .acl := by simp only [fix, hp, if_neg h1, if_pos h2]
        rw [e]
        have : parse (relStr .acl) = none := by decide
        simp only [fix, this]
      · have e : fix adp s = pre r ++ fixT adp r t := by simp only [fix, hp, if_neg h1, if_neg h2]
        rw [e, fix_pre adp (fixT_reads adp hr), fixT_twice]
        · intro hr
          constructor
          · intro g
            exact h1 ⟨hr, .inl (fixT_early adp (by simp) g)⟩
          · intro g
            exact h1 ⟨hr, .inr (fixT_early adp (by simp) g)⟩
        · intro hr
          constructor
          · intro g
            exact h2 ⟨hr, .inl (fixT_early adp (by simp) g)⟩
          · intro g
            exact h2 ⟨hr, .inr (fixT_early adp (by simp) g)⟩

/-- Relations other than the six, or without anything after them, stay; the two corrections aside, the relation before the marker stays. -/
theorem C232_relation (adp : Str → Option Str) (s : Str) :
    ((∀ r t, s ≠ relStr r ++ ':' :: t) → fix adp s = s) ∧
    (∀ r t, s = relStr r ++ ':' :: t → s ∉ ([['a', 'd', 'v', 'c', 'l', ':', 'd', 'o'], ['a', 'd', 'v', 'c', 'l', ':', 'd', 'o', ':', 'g', 'e', 'n'], ['a', 'c', 'l', ':', 'k'], ['a', 'c', 'l', ':', 'k', ':', 'd', 'a', 't']] : List Str) → ∃ t', fix adp s = relStr r ++ ':' :: t') := by
  have ep : ∀ r t, pre r ++ t = relStr r ++ ':' :: t := by intro r t; simp [pre]
  constructor
  · intro h
    cases hp : parse s with
    | none => simp only [fix, hp]
    | some rt => exact absurd ((parse_some (r := rt.1) (t := rt.2) hp).1.trans (ep _ _)) (h rt.1 rt.2)
  · intro r t hs hn
    cases hp : parse s with
    | none => exact ⟨t, by simp only [fix, hp]; exact hs⟩
    | some qu =>
      obtain ⟨q, u⟩ := qu
      obtain ⟨es, hr⟩ := parse_some hp
      have h1 : q = .advcl → u ≠ ['d', 'o'] ∧ u ≠ ['d', 'o', ':', 'g', 'e', 'n'] := by
        intro e
        constructor <;> (intro g; apply hn; rw [es, e, g]; simp [pre, relStr])
      have h2 : q = .acl → u ≠ ['k'] ∧ u ≠ ['k', ':', 'd', 'a', 't'] := by
        intro e
        constructor <;> (intro g; apply hn; rw [es, e, g]; simp [pre, relStr])
      rw [es, fix_pre adp hr h1 h2]
      -- the relation read is `r` or the longer one that starts as `r` does
      by_cases hq : q = r
      · subst hq
        exact ⟨_, ep q _⟩
      · have hs' : pre q ++ u = pre r ++ t := by rw [← es, hs, ep]
        cases q <;> cases r <;> first | exact absurd rfl hq | (simp [pre, relStr] at hs'; done) | skip
        · exact ⟨['a', 'r', 'g', ':'] ++ fixT adp .oblArg u, by simp [pre, relStr]⟩
        · exfalso
          have := hr.1 rfl
          have hu : u = ['a', 'r', 'g', ':'] ++ t := by simpa [pre, relStr] using hs'
          rw [hu, strip_append] at this
          cases this
        · exact ⟨['r', 'e', 'l', 'c', 'l', ':'] ++ fixT adp .aclRelcl u, by simp [pre, relStr]⟩
        · exfalso
          have := hr.2 rfl
          have hu : u = ['r', 'e', 'l', 'c', 'l', ':'] ++ t := by simpa [pre, relStr] using hs'
          rw [hu, strip_append] at this
          cases this

/-- Every preposition or conjunction of the table gets the case of the table, whatever case is there, after each of the six relations. -/
theorem C232_table (adp : Str → Option Str) (r : Rel) {x v t : Str} (h : (x, v) ∈ ltUnamb) (ht : t = x ∨ ∃ c ∈ cases, t = x ++ ':' :: c) :
    fix adp (relStr r ++ ':' :: t) = relStr r ++ ':' :: v := by
  have key : ∀ e ∈ ltUnamb, ∀ t ∈ e.1 :: cases.map (fun c => e.1 ++ ':' :: c),
      loops ltOuter ltUnamb t = some e.2 ∧ strip ['a', 'r', 'g', ':'] t = none ∧ strip ['r', 'e', 'l', 'c', 'l', ':'] t = none ∧ t ≠ ['d', 'o'] ∧ t ≠ ['d', 'o', ':', 'g', 'e', 'n'] ∧ t ≠ ['k'] ∧ t ≠ ['k', ':', 'd', 'a', 't'] := by decide
  have hm : t ∈ x :: cases.map (fun c => x ++ ':' :: c) := by
    rcases ht with e | ⟨c, hc, e⟩
    · rw [e]; exact List.mem_cons_self ..
    · rw [e]; exact List.mem_cons_of_mem _ (List.mem_map.2 ⟨c, hc, rfl⟩)
  obtain ⟨k1, k2, k3, k4, k5, k6, k7⟩ := key (x, v) h t hm
  have ep : ∀ t, relStr r ++ ':' :: t = pre r ++ t := by intro t; simp [pre]
  rw [ep, ep, fix_pre adp ⟨fun _ => k2, fun _ => k3⟩ (fun _ => ⟨k4, k5⟩) (fun _ => ⟨k6, k7⟩)]
  simp only [fixT, k1]

/-- After an outermost marker everything is dropped. -/
theorem C232_outer (adp : Str → Option Str) (r : Rel) {x : Str} (hx : x ∈ ltOuter.map (·.1)) {c : Char} (hc : c = '_' ∨ c = ':') {u : Str} (hu : u ≠ []) :
    fix adp (relStr r ++ ':' :: (x ++ c :: u)) = relStr r ++ ':' :: x := by
  have ep : ∀ t, relStr r ++ ':' :: t = pre r ++ t := by intro t; simp [pre]
  obtain ⟨d, w, rfl⟩ : ∃ d w, u = d :: w := by cases u with
    | nil => exact absurd rfl hu
    | cons d w => exact ⟨d, w, rfl⟩
  have hcc : (c == '_' || c == ':') = true := by simpa using hc
  have hl : loops ltOuter ltUnamb (x ++ c :: d :: w) = some x ∧ strip ['a', 'r', 'g', ':'] (x ++ c :: d :: w) = none ∧ strip ['r', 'e', 'l', 'c', 'l', ':'] (x ++ c :: d :: w) = none ∧
      (∀ y ∈ ([['d', 'o'], ['d', 'o', ':', 'g', 'e', 'n'], ['k'], ['k', ':', 'd', 'a', 't']] : List Str), x ++ c :: d :: w ≠ y) := by
    simp only [ltOuter, List.map_cons, List.map_nil, List.mem_cons, List.not_mem_nil, or_false] at hx
    have hne : c ≠ 'k' := by rcases hc with e | e <;> (rw [e]; decide)
    rcases hx with rfl | rfl | rfl | rfl | rfl <;> simp [loops, ltOuter, caught, strip, hcc]
  rw [ep, ep, fix_pre adp ⟨fun _ => hl.2.1, fun _ => hl.2.2.1⟩ (fun _ => ⟨hl.2.2.2 _ (by simp), hl.2.2.2 _ (by simp)⟩) (fun _ => ⟨hl.2.2.2 _ (by simp), hl.2.2.2 _ (by simp)⟩)]
  simp only [fixT, hl.1]

/-- The two prepositions with more than one case: never nominative or vocative, the case of the preposition if that is neither, else the accusative. -/
theorem C232_adposition (adp : Str → Option Str) (r : Rel) {x : Str} (hx : x = ['p', 'o'] ∨ x = ['u', 'ž']) (hr : r = .obl ∨ r = .oblArg ∨ r = .nmod) :
    ∃ c, (∀ t ∈ [x, x ++ ':' :: ['n', 'o', 'm'], x ++ ':' :: ['v', 'o', 'c']], fix adp (relStr r ++ ':' :: t) = relStr r ++ ':' :: (x ++ ':' :: c)) ∧ c ≠ ['n', 'o', 'm'] ∧ c ≠ ['v', 'o', 'c'] ∧ (∀ d, adp x = some d → d ≠ ['n', 'o', 'm'] → d ≠ ['v', 'o', 'c'] → c = d) ∧
      ((∀ d, adp x = some d → d = ['n', 'o', 'm'] ∨ d = ['v', 'o', 'c']) → c = ['a', 'c', 'c']) := by
  refine ⟨adpCase adp x, ?_, (adpCase_ne adp x).1, (adpCase_ne adp x).2, ?_, ?_⟩
  · intro t ht
    have ep : ∀ t, relStr r ++ ':' :: t = pre r ++ t := by intro t; simp [pre]
    have hn : nominal r = true := by rcases hr with e | e | e <;> (rw [e]; rfl)
    have ha : r ≠ .advcl ∧ r ≠ .acl := by rcases hr with e | e | e <;> (rw [e]; exact ⟨by decide, by decide⟩)
    have h0 : Reads r t := by
      refine ⟨fun _ => ?_, fun e => absurd e ha.2⟩
      simp only [List.mem_cons, List.not_mem_nil, or_false] at ht
      rcases hx with rfl | rfl <;> rcases ht with rfl | rfl | rfl <;> decide
    rw [ep, ep, fix_pre adp h0 (fun e => absurd e ha.1) (fun e => absurd e ha.2)]
    congr 1
    simp only [List.mem_cons, List.not_mem_nil, or_false] at ht
    rcases hx with rfl | rfl
    · have hl : loops ltOuter ltUnamb t = none ∧ isAdp ['p', 'o'] t = true := by rcases ht with rfl | rfl | rfl <;> decide
      simp only [fixT, hl.1, hl.2, hn, Bool.and_self, if_true]
    · have hl : loops ltOuter ltUnamb t = none ∧ isAdp ['p', 'o'] t = false ∧ isAdp ['u', 'ž'] t = true := by rcases ht with rfl | rfl | rfl <;> decide
      simp only [fixT, hl.1, hl.2.1, hl.2.2, hn, Bool.and_self, Bool.and_false, if_true, Bool.false_eq_true, if_false]
  · intro d hd h1 h2
    simp only [adpCase, hd]
    rw [if_neg (by rintro (g | g); exact h1 g; exact h2 g)]
  · intro h
    unfold adpCase
    split
    · next c hc => rw [if_pos (h c hc)]
    · rfl

/-- After clauses, and with any other case, the two prepositions stay as they are. -/
theorem C232_stay (adp : Str → Option Str) (r : Rel) {x : Str} (hx : x = ['p', 'o'] ∨ x = ['u', 'ž']) (c : Str) (h : (r ≠ .obl ∧ r ≠ .oblArg ∧ r ≠ .nmod) ∨ (c ≠ ['n', 'o', 'm'] ∧ c ≠ ['v', 'o', 'c'])) :
    fix adp (relStr r ++ ':' :: (x ++ ':' :: c)) = relStr r ++ ':' :: (x ++ ':' :: c) := by
  have ep : ∀ t, relStr r ++ ':' :: t = pre r ++ t := by intro t; simp [pre]
  have hb : nominal r = false ∨ (c ≠ ['n', 'o', 'm'] ∧ c ≠ ['v', 'o', 'c']) := by
    rcases h with g | g
    · left
      cases r
      · exact absurd rfl g.2.1
      · exact absurd rfl g.1
      · exact absurd rfl g.2.2
      · rfl
      · rfl
      · rfl
    · exact .inr g
  have h0 : Reads r (x ++ ':' :: c) := by
    rcases hx with rfl | rfl <;> exact ⟨fun _ => by simp [strip], fun _ => by simp [strip]⟩
  have hl : loops ltOuter ltUnamb (x ++ ':' :: c) = none := by
    rcases hx with rfl | rfl
    · exact loops_po c
    · exact loops_uz c
  rw [ep, fix_pre adp h0 (fun _ => by rcases hx with rfl | rfl <;> simp) (fun _ => by rcases hx with rfl | rfl <;> simp)]
  congr 1
  simp only [fixT, hl]
  rcases hx with rfl | rfl <;> rcases hb with g | g <;> simp [g, isAdp]

/-- The two early corrections -/
theorem C232_early (adp : Str → Option Str) : fix adp ['a', 'd', 'v', 'c', 'l', ':', 'd', 'o'] = ['o', 'b', 'l', ':', 'd', 'o', ':', 'g', 'e', 'n'] ∧ fix adp ['a', 'd', 'v', 'c', 'l', ':', 'd', 'o', ':', 'g', 'e', 'n'] = ['o', 'b', 'l', ':', 'd', 'o', ':', 'g', 'e', 'n'] ∧ fix adp ['a', 'c', 'l', ':', 'k'] = ['a', 'c', 'l'] ∧ fix adp ['a', 'c', 'l', ':', 'k', ':', 'd', 'a', 't'] = ['a', 'c', 'l'] := by
  have hp : parse ['a', 'd', 'v', 'c', 'l', ':', 'd', 'o'] = some (.advcl, ['d', 'o']) ∧ parse ['a', 'd', 'v', 'c', 'l', ':', 'd', 'o', ':', 'g', 'e', 'n'] = some (.advcl, ['d', 'o', ':', 'g', 'e', 'n']) ∧ parse ['a', 'c', 'l', ':', 'k'] = some (.acl, ['k']) ∧ parse ['a', 'c', 'l', ':', 'k', ':', 'd', 'a', 't'] = some (.acl, ['k', ':', 'd', 'a', 't']) := by decide
  have hd : fixT adp .obl ['d', 'o', ':', 'g', 'e', 'n'] = ['d', 'o', ':', 'g', 'e', 'n'] := by
    have : loops ltOuter ltUnamb ['d', 'o', ':', 'g', 'e', 'n'] = none := by decide
    simp only [fixT, this]
    rfl
  obtain ⟨h1, h2, h3, h4⟩ := hp
  refine ⟨?_, ?_, ?_, ?_⟩
  · simp [fix, h1, hd, pre, relStr]
  · simp [fix, h2, hd, pre, relStr]
  · simp [fix, h3, relStr]
  · simp [fix, h4, relStr]

/-- Czech: the two exceptions are left to the second table. -/
theorem C232_cs_exceptions (unamb : List (Str × Str)) : ∀ t ∈ ([['n', 'e', 'ž', '_', 'a', 'b', 'y'], ['j', 'a', 'k', 'o', 'b', 'y', '_', 'p', 'o', 'd', ':', 'i', 'n', 's']] : List Str), loops csOuter unamb t = (unamb.find? fun e => isKey e.1 t).map (·.2) := by
  have key : ∀ t ∈ ([['n', 'e', 'ž', '_', 'a', 'b', 'y'], ['j', 'a', 'k', 'o', 'b', 'y', '_', 'p', 'o', 'd', ':', 'i', 'n', 's']] : List Str), csOuter.find? (fun e => caught e.1 t && !e.2.contains t) = none := by decide
  intro t ht
  simp only [loops, key t ht]

/-- Czech: entries of `unambiguous` that start with an outermost marker are never reached. The table says `na:loc` for `aby_na`, the result is `aby`. -/
theorem C232_cs_table_violated (unamb : List (Str × Str)) {u : Str} (hu : u ≠ []) : loops csOuter unamb (['a', 'b', 'y', '_'] ++ u) = some ['a', 'b', 'y'] := by
  obtain ⟨d, w, rfl⟩ : ∃ d w, u = d :: w := by cases u with
    | nil => exact absurd rfl hu
    | cons d w => exact ⟨d, w, rfl⟩
  simp [loops, csOuter, caught, strip]

/-- Czech: with a preposition after it `ačkoliv` becomes `ačkoliv` in the first run and `ačkoli` only in the second, for every table that says `ačkoli` for `ačkoliv`. -/
theorem C232_cs_twice_violated {unamb : List (Str × Str)} (h : unamb.find? (fun e => isKey e.1 ['a', 'č', 'k', 'o', 'l', 'i', 'v']) = some (['a', 'č', 'k', 'o', 'l', 'i', 'v'], ['a', 'č', 'k', 'o', 'l', 'i'])) {u : Str} (hu : u ≠ []) :
    loops csOuter unamb (['a', 'č', 'k', 'o', 'l', 'i', 'v', '_'] ++ u) = some ['a', 'č', 'k', 'o', 'l', 'i', 'v'] ∧ loops csOuter unamb ['a', 'č', 'k', 'o', 'l', 'i', 'v'] = some ['a', 'č', 'k', 'o', 'l', 'i'] := by
  obtain ⟨d, w, rfl⟩ : ∃ d w, u = d :: w := by cases u with
    | nil => exact absurd rfl hu
    | cons d w => exact ⟨d, w, rfl⟩
  constructor
  · simp [loops, csOuter, caught, strip]
  · have : csOuter.find? (fun e => caught e.1 ['a', 'č', 'k', 'o', 'l', 'i', 'v'] && !e.2.contains ['a', 'č', 'k', 'o', 'l', 'i', 'v']) = none := by decide
    simp only [loops, this, h, Option.map_some]

/-! ## Examples -/

example : fix (fun _ => none) ['o', 'b', 'l', ':', 'i', 'š', ':', 'd', 'a', 't'] = ['o', 'b', 'l', ':', 'i', 'š', ':', 'g', 'e', 'n'] := by decide
example : fix (fun _ => none) ['n', 'm', 'o', 'd', ':', 'k', 'a', 'i', 'p', '_', 'i', 'š', ':', 'g', 'e', 'n'] = ['n', 'm', 'o', 'd', ':', 'k', 'a', 'i', 'p'] := by decide
example : fix (fun _ => some ['i', 'n', 's']) ['o', 'b', 'l', ':', 'a', 'r', 'g', ':', 'p', 'o'] = ['o', 'b', 'l', ':', 'a', 'r', 'g', ':', 'p', 'o', ':', 'i', 'n', 's'] := by decide
example : fix (fun _ => some ['n', 'o', 'm']) ['o', 'b', 'l', ':', 'u', 'ž', ':', 'v', 'o', 'c'] = ['o', 'b', 'l', ':', 'u', 'ž', ':', 'a', 'c', 'c'] := by decide
example : fix (fun _ => none) ['a', 'd', 'v', 'c', 'l', ':', 'd', 'o'] = ['o', 'b', 'l', ':', 'd', 'o', ':', 'g', 'e', 'n'] ∧ fix (fun _ => none) ['a', 'c', 'l', ':', 'k', ':', 'd', 'a', 't'] = ['a', 'c', 'l'] ∧ fix (fun _ => none) ['n', 's', 'u', 'b', 'j', ':', 'p', 'o'] = ['n', 's', 'u', 'b', 'j', ':', 'p', 'o'] := by decide
example : loops csOuter [(['a', 'b', 'y', '_', 'n', 'a'], ['n', 'a', ':', 'l', 'o', 'c'])] ['a', 'b', 'y', '_', 'n', 'a'] = some ['a', 'b', 'y'] := by decide
example : ([(['a', 'b', 'i'], ['a', 'b', 'y']), (['a', 'č', 'k', 'o', 'l', 'i', 'v'], ['a', 'č', 'k', 'o', 'l', 'i'])] : List (Str × Str)).find? (fun e => isKey e.1 ['a', 'č', 'k', 'o', 'l', 'i', 'v']) = some (['a', 'č', 'k', 'o', 'l', 'i', 'v'], ['a', 'č', 'k', 'o', 'l', 'i']) := by decide

end Verif.Deps.Edeprels
