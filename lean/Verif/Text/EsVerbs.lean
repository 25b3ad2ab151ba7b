import Verif.Py.Str

/-!
# Property C234: es.FixVerbFeats (udapi/block/ud/es/fixverbfeats.py)

`low` is the lower case of a letter, any function; `re.IGNORECASE` compares lower-case letters. FEATS are a list of names and values. Whether the word is a verb or an auxiliary is a flag.
-/

namespace Verif.Text.EsVerbs

abbrev Str := List Char

structure Word where
  verb : Bool
  form : Str
  lemma : Str
  feats : List (Str × Str)
deriving DecidableEq

def get (fs : List (Str × Str)) (k : Str) : Str := ((fs.find? fun e => e.1 == k).map (·.2)).getD []

/-- `[aei]r$` -/
def isInf (l : Str) : Bool :=
  match l.reverse with
  | 'r' :: v :: _ => v == 'a' || v == 'e' || v == 'i'
  | _ => false

/-- `ndo$` -/
def isNdo (l : Str) : Bool := l.reverse.take 3 == ['o', 'd', 'n']

/-- `[oa]s?$`: what is before, the vowel and whether there is an `s`; reversed -/
def ending (r : Str) : Option (Str × Char × Bool) :=
  match r with
  | 's' :: v :: r => if v = 'o' ∨ v = 'a' then some (r, v, true) else none
  | v :: r => if v = 'o' ∨ v = 'a' then some (r, v, false) else none
  | [] => none

/-- `[ai]d|biert|dich|fech|hech|muert|puest|vist`, reversed -/
def stems : List Str := [['d', 'a'], ['d', 'i'], ['t', 'r', 'e', 'i', 'b'], ['h', 'c', 'i', 'd'], ['h', 'c', 'e', 'f'], ['h', 'c', 'e', 'h'], ['t', 'r', 'e', 'u', 'm'], ['t', 's', 'e', 'u', 'p'], ['t', 's', 'i', 'v']]

/-- `([ai]d|biert|dich|fech|hech|muert|puest|vist)[oa]s?$` -/
def isPart (l : Str) : Option (Str × Char × Bool) := (ending l.reverse).bind fun e => if stems.any (fun s => s.isPrefixOf e.1) then some e else none

def orElse (a b : Str) : Str := if a = [] then b else a

/-- `d[oa]s?$` replaced by `r` after `a`; `r` is the form without the ending, reversed (lines 36-37) -/
def lemOf (r old : Str) : Str :=
  match r with
  | 'd' :: 'a' :: q => q.reverse ++ ['a', 'r']
  | _ => old

theorem lemOf_twice (r old : Str) : lemOf r (lemOf r old) = lemOf r old := by
  by_cases h : ∃ q, r = 'd' :: 'a' :: q
  · obtain ⟨q, rfl⟩ := h
    rfl
  · have : ∀ o, lemOf r o = o := by
      intro o
      unfold lemOf
      split
      · exact absurd ⟨_, rfl⟩ h
      · rfl
    rw [this, this]

/-- `process_node` (fixverbfeats.py:8-37) -/
def fix (low : Char → Char) (w : Word) : Word :=
  let l := w.form.map low
  if w.verb then
    if isInf l then { w with feats := [(['V', 'e', 'r', 'b', 'F', 'o', 'r', 'm'], ['I', 'n', 'f'])], lemma := l }
    else if isNdo l then
      if l = ['e', 'n', 't', 'i', 'e', 'n', 'd', 'o'] then w else { w with feats := [(['V', 'e', 'r', 'b', 'F', 'o', 'r', 'm'], ['G', 'e', 'r'])] }
    else match isPart l with
      | none => w
      | some (r, v, s) =>
        { w with
          feats := [(['V', 'e', 'r', 'b', 'F', 'o', 'r', 'm'], ['P', 'a', 'r', 't']), (['T', 'e', 'n', 's', 'e'], ['P', 'a', 's', 't']), (['G', 'e', 'n', 'd', 'e', 'r'], orElse (get w.feats ['G', 'e', 'n', 'd', 'e', 'r']) (if v = 'o' then ['M', 'a', 's', 'c'] else ['F', 'e', 'm'])),
            (['N', 'u', 'm', 'b', 'e', 'r'], orElse (get w.feats ['N', 'u', 'm', 'b', 'e', 'r']) (if s then ['P', 'l', 'u', 'r'] else ['S', 'i', 'n', 'g']))]
          lemma := lemOf r w.lemma }
  else w

/-! ## Lemmas -/

theorem get_none {fs : List (Str × Str)} {k : Str} (h : k ∉ fs.map (·.1)) : get fs k = [] := by
  have : fs.find? (fun e => e.1 == k) = none := by
    rw [List.find?_eq_none]
    intro e he g
    exact h (List.mem_map.2 ⟨e, he, by simpa using g⟩)
  simp [get, this]

theorem isInf_iff (l : Str) : isInf l = true ↔ ∃ p v, l = p ++ [v, 'r'] ∧ (v = 'a' ∨ v = 'e' ∨ v = 'i') := by
  constructor
  · intro h
    unfold isInf at h
    split at h
    · next v q e =>
      refine ⟨q.reverse, v, ?_, by simpa [or_assoc] using h⟩
      have := congrArg List.reverse e
      simpa using this
    · cases h
  · rintro ⟨p, v, rfl, h⟩
    simp only [isInf, List.reverse_append, List.reverse_cons, List.reverse_nil, List.nil_append, List.cons_append]
    rcases h with rfl | rfl | rfl <;> rfl

theorem isNdo_iff (l : Str) : isNdo l = true ↔ ∃ p, l = p ++ ['n', 'd', 'o'] := by
  constructor
  · intro h
    simp only [isNdo, beq_iff_eq] at h
    refine ⟨(l.reverse.drop 3).reverse, ?_⟩
    have e := List.take_append_drop 3 l.reverse
    rw [h] at e
    have := congrArg List.reverse e
    rw [List.reverse_reverse, List.reverse_append] at this
    exact this.symm
  · rintro ⟨p, rfl⟩
    simp [isNdo]

theorem ending_some {x r : Str} {v : Char} {s : Bool} (h : ending x = some (r, v, s)) : x = (if s then ['s'] else []) ++ v :: r ∧ (v = 'o' ∨ v = 'a') := by
  unfold ending at h
  split at h
  · split at h
    · next hv => cases h; exact ⟨rfl, hv⟩
    · cases h
  · split at h
    · next hv => cases h; exact ⟨rfl, hv⟩
    · cases h
  · cases h

theorem isPart_some {l r : Str} {v : Char} {s : Bool} (h : isPart l = some (r, v, s)) :
    l = r.reverse ++ [v] ++ (if s then ['s'] else []) ∧ (v = 'o' ∨ v = 'a') ∧ ∃ t ∈ stems, ∃ q, r = t ++ q := by
  unfold isPart at h
  rw [Option.bind_eq_some_iff] at h
  obtain ⟨e, he, h⟩ := h
  split at h
  · next hs =>
    cases h
    obtain ⟨e1, e2⟩ := ending_some he
    refine ⟨?_, e2, ?_⟩
    · have := congrArg List.reverse e1
      rw [List.reverse_reverse] at this
      rw [this]
      cases s <;> simp
    · rw [List.any_eq_true] at hs
      obtain ⟨t, ht, hp⟩ := hs
      obtain ⟨q, hq⟩ := List.isPrefixOf_iff_prefix.1 hp
      exact ⟨t, ht, q, hq.symm⟩
  · cases h

theorem isPart_of {p t : Str} {v : Char} (s : Bool) (hv : v = 'o' ∨ v = 'a') (ht : t ∈ stems) : isPart (p ++ t.reverse ++ [v] ++ (if s then ['s'] else [])) = some (t ++ p.reverse, v, s) := by
  have he : ending (p ++ t.reverse ++ [v] ++ (if s then ['s'] else [])).reverse = some (t ++ p.reverse, v, s) := by
    cases s with
    | true => simp [ending, hv]
    | false =>
      rcases hv with rfl | rfl <;> simp [ending]
  unfold isPart
  rw [he]
  have : stems.any (fun s => s.isPrefixOf (t ++ p.reverse)) = true := List.any_eq_true.2 ⟨t, ht, List.isPrefixOf_iff_prefix.2 ⟨_, rfl⟩⟩
  simp only [Option.bind_some, this, if_true]

theorem last_part {p t : Str} {v : Char} {s : Bool} (hv : v = 'o' ∨ v = 'a') (ht : t ∈ stems) :
    isInf (p ++ t.reverse ++ [v] ++ (if s then ['s'] else [])) = false ∧ isNdo (p ++ t.reverse ++ [v] ++ (if s then ['s'] else [])) = false := by
  simp only [stems, List.mem_cons, List.not_mem_nil, or_false] at ht
  cases s <;> rcases hv with rfl | rfl <;> rcases ht with rfl | rfl | rfl | rfl | rfl | rfl | rfl | rfl | rfl <;> exact ⟨by simp [isInf], by simp [isNdo]⟩

/-! ## Theorems -/

/-- Infinitives have no other feature and are their own lemmas; gerunds have no other feature and keep the lemma. -/
theorem C234_infinitive (low : Char → Char) {w : Word} (hv : w.verb = true) (p : Str) :
    (∀ v, v = 'a' ∨ v = 'e' ∨ v = 'i' → w.form.map low = p ++ [v, 'r'] → fix low w = { w with feats := [(['V', 'e', 'r', 'b', 'F', 'o', 'r', 'm'], ['I', 'n', 'f'])], lemma := p ++ [v, 'r'] }) ∧
    (w.form.map low = p ++ ['n', 'd', 'o'] → p ≠ ['e', 'n', 't', 'i', 'e'] → fix low w = { w with feats := [(['V', 'e', 'r', 'b', 'F', 'o', 'r', 'm'], ['G', 'e', 'r'])] }) := by
  constructor
  · intro v hv' e
    have : isInf (p ++ [v, 'r']) = true := (isInf_iff _).2 ⟨p, v, rfl, hv'⟩
    simp only [fix, hv, e, this, if_true]
  · intro e hp
    have h1 : isInf (p ++ ['n', 'd', 'o']) = false := by simp [isInf]
    have h2 : isNdo (p ++ ['n', 'd', 'o']) = true := (isNdo_iff _).2 ⟨p, rfl⟩
    have h3 : p ++ ['n', 'd', 'o'] ≠ ['e', 'n', 't', 'i', 'e', 'n', 'd', 'o'] := by
      intro g
      exact hp (List.append_cancel_right (bs := ['n', 'd', 'o']) g)
    simp only [fix, hv, e, h1, h2, h3, if_true, Bool.false_eq_true, if_false]

/-- Participles have four features. Gender and number stay if they were there, else they come from the ending; the lemma of those in `-ad-` is the infinitive, the others keep it. -/
theorem C234_participle (low : Char → Char) {w : Word} (hv : w.verb = true) {p t : Str} {v : Char} {s : Bool} (hv' : v = 'o' ∨ v = 'a') (ht : t ∈ stems)
    (e : w.form.map low = p ++ t.reverse ++ [v] ++ (if s then ['s'] else [])) :
    (fix low w).form = w.form ∧ (fix low w).verb = true ∧ (fix low w).feats.map (·.1) = [['V', 'e', 'r', 'b', 'F', 'o', 'r', 'm'], ['T', 'e', 'n', 's', 'e'], ['G', 'e', 'n', 'd', 'e', 'r'], ['N', 'u', 'm', 'b', 'e', 'r']] ∧ get (fix low w).feats ['V', 'e', 'r', 'b', 'F', 'o', 'r', 'm'] = ['P', 'a', 'r', 't'] ∧ get (fix low w).feats ['T', 'e', 'n', 's', 'e'] = ['P', 'a', 's', 't'] ∧
    (get w.feats ['G', 'e', 'n', 'd', 'e', 'r'] ≠ [] → get (fix low w).feats ['G', 'e', 'n', 'd', 'e', 'r'] = get w.feats ['G', 'e', 'n', 'd', 'e', 'r']) ∧ (get w.feats ['G', 'e', 'n', 'd', 'e', 'r'] = [] → get (fix low w).feats ['G', 'e', 'n', 'd', 'e', 'r'] = if v = 'o' then ['M', 'a', 's', 'c'] else ['F', 'e', 'm']) ∧
    (get w.feats ['N', 'u', 'm', 'b', 'e', 'r'] ≠ [] → get (fix low w).feats ['N', 'u', 'm', 'b', 'e', 'r'] = get w.feats ['N', 'u', 'm', 'b', 'e', 'r']) ∧ (get w.feats ['N', 'u', 'm', 'b', 'e', 'r'] = [] → get (fix low w).feats ['N', 'u', 'm', 'b', 'e', 'r'] = if s then ['P', 'l', 'u', 'r'] else ['S', 'i', 'n', 'g']) ∧
    (t = ['d', 'a'] → (fix low w).lemma = p ++ ['a', 'r']) ∧ (t ≠ ['d', 'a'] → (fix low w).lemma = w.lemma) := by
  obtain ⟨h1, h2⟩ := last_part (p := p) (s := s) hv' ht
  have h3 := isPart_of (p := p) s hv' ht
  have hf : fix low w = { w with
      feats := [(['V', 'e', 'r', 'b', 'F', 'o', 'r', 'm'], ['P', 'a', 'r', 't']), (['T', 'e', 'n', 's', 'e'], ['P', 'a', 's', 't']), (['G', 'e', 'n', 'd', 'e', 'r'], orElse (get w.feats ['G', 'e', 'n', 'd', 'e', 'r']) (if v = 'o' then ['M', 'a', 's', 'c'] else ['F', 'e', 'm'])),
        (['N', 'u', 'm', 'b', 'e', 'r'], orElse (get w.feats ['N', 'u', 'm', 'b', 'e', 'r']) (if s then ['P', 'l', 'u', 'r'] else ['S', 'i', 'n', 'g']))]
      lemma := lemOf (t ++ p.reverse) w.lemma } := by
    simp only [fix, hv, e, h1, h2, h3, if_true, Bool.false_eq_true, if_false]
  rw [hf]
  refine ⟨rfl, hv, rfl, rfl, rfl, ?_, ?_, ?_, ?_, ?_, ?_⟩
  · intro h
    exact if_neg h
  · intro h
    show get [_, _, _, _] _ = _
    rw [h]
    simp [get, orElse]
  · intro h
    exact if_neg h
  · intro h
    show get [_, _, _, _] _ = _
    rw [h]
    simp [get, orElse]
  · rintro rfl
    simp [lemOf]
  · intro hne
    simp only [stems, List.mem_cons, List.not_mem_nil, or_false] at ht
    rcases ht with rfl | rfl | rfl | rfl | rfl | rfl | rfl | rfl | rfl
    · exact absurd rfl hne
    all_goals simp [lemOf]

/-- All other words stay, and `entiendo` does. -/
theorem C234_other (low : Char → Char) {w : Word}
    (h : w.verb = false ∨ w.form.map low = ['e', 'n', 't', 'i', 'e', 'n', 'd', 'o'] ∨
      ((∀ p v, v = 'a' ∨ v = 'e' ∨ v = 'i' → w.form.map low ≠ p ++ [v, 'r']) ∧ (∀ p, w.form.map low ≠ p ++ ['n', 'd', 'o']) ∧
        ∀ p, ∀ t ∈ stems, ∀ v, v = 'o' ∨ v = 'a' → ∀ s : Bool, w.form.map low ≠ p ++ t.reverse ++ [v] ++ (if s then ['s'] else []))) : fix low w = w := by
  rcases h with h | h | ⟨h1, h2, h3⟩
  · simp only [fix, h, Bool.false_eq_true, if_false]
  · have k1 : isInf ['e', 'n', 't', 'i', 'e', 'n', 'd', 'o'] = false := by decide
    have k2 : isNdo ['e', 'n', 't', 'i', 'e', 'n', 'd', 'o'] = true := by decide
    cases hv : w.verb with
    | false => simp only [fix, hv, Bool.false_eq_true, if_false]
    | true => simp only [fix, hv, h, k1, k2, if_true, Bool.false_eq_true, if_false]
  · have k1 : isInf (w.form.map low) = false := by
      cases hq : isInf (w.form.map low) with
      | false => rfl
      | true =>
        obtain ⟨p, v, e, hv⟩ := (isInf_iff _).1 hq
        exact absurd e (h1 p v hv)
    have k2 : isNdo (w.form.map low) = false := by
      cases hq : isNdo (w.form.map low) with
      | false => rfl
      | true =>
        obtain ⟨p, e⟩ := (isNdo_iff _).1 hq
        exact absurd e (h2 p)
    have k3 : isPart (w.form.map low) = none := by
      cases hq : isPart (w.form.map low) with
      | none => rfl
      | some e =>
        obtain ⟨r, v, s⟩ := e
        obtain ⟨e1, e2, t, ht, q, e3⟩ := isPart_some hq
        refine absurd ?_ (h3 q.reverse t ht v e2 s)
        rw [e1, e3]
        simp
    cases hv : w.verb with
    | false => simp only [fix, hv, Bool.false_eq_true, if_false]
    | true => simp only [fix, hv, k1, k2, k3, if_true, Bool.false_eq_true, if_false]

/-- A second run changes nothing. -/
theorem C234_twice (low : Char → Char) (w : Word) : fix low (fix low w) = fix low w := by
  cases hv : w.verb with
  | false =>
    have e : fix low w = w := by simp only [fix, hv, Bool.false_eq_true, if_false]
    rw [e, e]
  | true =>
    cases h1 : isInf (w.form.map low) with
    | true =>
      have e : fix low w = { w with feats := [(['V', 'e', 'r', 'b', 'F', 'o', 'r', 'm'], ['I', 'n', 'f'])], lemma := w.form.map low } := by simp only [fix, hv, h1, if_true]
      rw [e]
      simp only [fix, hv, h1, if_true]
    | false =>
      cases h2 : isNdo (w.form.map low) with
      | true =>
        by_cases h3 : w.form.map low = ['e', 'n', 't', 'i', 'e', 'n', 'd', 'o']
        · have e : fix low w = w := by simp only [fix, hv, h1, h2, if_pos h3, if_true, Bool.false_eq_true, if_false]
          rw [e, e]
        · have e : fix low w = { w with feats := [(['V', 'e', 'r', 'b', 'F', 'o', 'r', 'm'], ['G', 'e', 'r'])] } := by simp only [fix, hv, h1, h2, if_neg h3, if_true, Bool.false_eq_true, if_false]
          rw [e]
          simp only [fix, hv, h1, h2, if_neg h3, if_true, Bool.false_eq_true, if_false]
      | false =>
        cases h3 : isPart (w.form.map low) with
        | none =>
          have e : fix low w = w := by simp only [fix, hv, h1, h2, h3, if_true, Bool.false_eq_true, if_false]
          rw [e, e]
        | some x =>
          obtain ⟨r, v, s⟩ := x
          obtain ⟨e1, e2, t, ht, q, e3⟩ := isPart_some h3
          have hform : w.form.map low = q.reverse ++ t.reverse ++ [v] ++ (if s then ['s'] else []) := by rw [e1, e3]; simp
          have ne : ∀ (g : Str) (b : Bool) (x y : Str), x ≠ [] → y ≠ [] → orElse (orElse g (if b then x else y)) (if b then x else y) = orElse g (if b then x else y) := by
            intro g b x y hx hy
            unfold orElse
            by_cases hg : g = []
            · simp only [if_pos hg]
              cases b
              · simp only [Bool.false_eq_true, if_false, if_neg hy]
              · simp only [if_true, if_neg hx]
            · simp only [if_neg hg]
          have hg := ne (get w.feats ['G', 'e', 'n', 'd', 'e', 'r']) (decide (v = 'o')) ['M', 'a', 's', 'c'] ['F', 'e', 'm'] (by decide) (by decide)
          have hn := ne (get w.feats ['N', 'u', 'm', 'b', 'e', 'r']) s ['P', 'l', 'u', 'r'] ['S', 'i', 'n', 'g'] (by decide) (by decide)
          simp only [decide_eq_true_eq] at hg
          let f : List (Str × Str) := [(['V', 'e', 'r', 'b', 'F', 'o', 'r', 'm'], ['P', 'a', 'r', 't']), (['T', 'e', 'n', 's', 'e'], ['P', 'a', 's', 't']), (['G', 'e', 'n', 'd', 'e', 'r'], orElse (get w.feats ['G', 'e', 'n', 'd', 'e', 'r']) (if v = 'o' then ['M', 'a', 's', 'c'] else ['F', 'e', 'm'])),
            (['N', 'u', 'm', 'b', 'e', 'r'], orElse (get w.feats ['N', 'u', 'm', 'b', 'e', 'r']) (if s then ['P', 'l', 'u', 'r'] else ['S', 'i', 'n', 'g']))]
          have g1 : get f ['G', 'e', 'n', 'd', 'e', 'r'] = orElse (get w.feats ['G', 'e', 'n', 'd', 'e', 'r']) (if v = 'o' then ['M', 'a', 's', 'c'] else ['F', 'e', 'm']) := by simp [f, get]
          have g2 : get f ['N', 'u', 'm', 'b', 'e', 'r'] = orElse (get w.feats ['N', 'u', 'm', 'b', 'e', 'r']) (if s then ['P', 'l', 'u', 'r'] else ['S', 'i', 'n', 'g']) := by simp [f, get]
          have e : ∀ u : Word, u.verb = true → u.form = w.form → fix low u = { u with
              feats := [(['V', 'e', 'r', 'b', 'F', 'o', 'r', 'm'], ['P', 'a', 'r', 't']), (['T', 'e', 'n', 's', 'e'], ['P', 'a', 's', 't']), (['G', 'e', 'n', 'd', 'e', 'r'], orElse (get u.feats ['G', 'e', 'n', 'd', 'e', 'r']) (if v = 'o' then ['M', 'a', 's', 'c'] else ['F', 'e', 'm'])),
                (['N', 'u', 'm', 'b', 'e', 'r'], orElse (get u.feats ['N', 'u', 'm', 'b', 'e', 'r']) (if s then ['P', 'l', 'u', 'r'] else ['S', 'i', 'n', 'g']))]
              lemma := lemOf r u.lemma } := by
            intro u hu hf
            simp only [fix, hu, hf, h1, h2, h3, if_true, Bool.false_eq_true, if_false]
          rw [e w hv rfl]
          refine (e ⟨w.verb, w.form, lemOf r w.lemma, f⟩ hv rfl).trans ?_
          show Word.mk _ _ _ _ = Word.mk _ _ _ _
          congr 1
          · exact lemOf_twice r w.lemma
          · show [_, _, (['G', 'e', 'n', 'd', 'e', 'r'], orElse (get f ['G', 'e', 'n', 'd', 'e', 'r']) _), (['N', 'u', 'm', 'b', 'e', 'r'], orElse (get f ['N', 'u', 'm', 'b', 'e', 'r']) _)] = _
            rw [g1, g2, hg, hn]

/-- Finite forms are not told from participles and gerunds: a form as `cuida` or `vendo` loses its mood and person, though `entiendo` is kept. -/
theorem C234_finite_violated (low : Char → Char) {w : Word} (hv : w.verb = true) {p : Str} (k : Str)
    (e : w.form.map low = p ++ ['i', 'd', 'a'] ∨ (w.form.map low = p ++ ['n', 'd', 'o'] ∧ p ≠ ['e', 'n', 't', 'i', 'e'])) (hk : k ∉ ([['V', 'e', 'r', 'b', 'F', 'o', 'r', 'm'], ['T', 'e', 'n', 's', 'e'], ['G', 'e', 'n', 'd', 'e', 'r'], ['N', 'u', 'm', 'b', 'e', 'r']] : List Str)) : get (fix low w).feats k = [] := by
  simp only [List.mem_cons, List.not_mem_nil, or_false, not_or] at hk
  obtain ⟨k1, k2, k3, k4⟩ := hk
  rcases e with e | ⟨e, hp⟩
  · have e' : w.form.map low = p ++ (['d', 'i'] : Str).reverse ++ ['a'] ++ (if false then ['s'] else []) := by rw [e]; simp
    have := (C234_participle low hv (s := false) (.inr rfl) (by decide) e').2.2.1
    apply get_none
    rw [this]
    simp [k1, k2, k3, k4]
  · rw [(C234_infinitive low hv p).2 e hp]
    simp [get, Ne.symm k1]

/-- Infinitives with an accent as `oír` are not recognised. -/
theorem C234_accent_violated (low : Char → Char) {w : Word} {p : Str} (e : w.form.map low = p ++ ['í', 'r']) : fix low w = w := by
  apply C234_other
  right; right
  rw [e]
  have last : ∀ {a b x y : Str}, a ++ x = b ++ y → x.length = y.length → x = y := by
    intro a b x y h hl
    exact (List.append_inj_right' h hl)
  have lastc : ∀ {a b x y : Str} {c d : Char}, a ++ x ++ [c] = b ++ y ++ [d] → c = d := by
    intro a b x y c d h
    have := last (x := [c]) (y := [d]) h rfl
    simpa using this
  refine ⟨?_, ?_, ?_⟩
  · intro q v hv h
    have := last h rfl
    simp only [List.cons.injEq, and_true] at this
    rcases hv with rfl | rfl | rfl <;> exact absurd this (by decide)
  · intro q h
    have h' : p ++ ['í'] ++ ['r'] = q ++ ['n', 'd'] ++ ['o'] := by simpa using h
    exact absurd (lastc h') (by decide)
  · intro q t _ v hv s h
    cases s with
    | true =>
      have h' : p ++ ['í'] ++ ['r'] = q ++ (t.reverse ++ [v]) ++ ['s'] := by simpa using h
      exact absurd (lastc h') (by decide)
    | false =>
      have h' : p ++ ['í'] ++ ['r'] = q ++ t.reverse ++ [v] := by simpa using h
      have := lastc h'
      rcases hv with rfl | rfl <;> exact absurd this (by decide)

/-! ## Examples -/

example : fix id ⟨true, ['h', 'a', 'b', 'l', 'a', 'r'], [], [(['V', 'e', 'r', 'b', 'F', 'o', 'r', 'm'], ['F', 'i', 'n'])]⟩ = ⟨true, ['h', 'a', 'b', 'l', 'a', 'r'], ['h', 'a', 'b', 'l', 'a', 'r'], [(['V', 'e', 'r', 'b', 'F', 'o', 'r', 'm'], ['I', 'n', 'f'])]⟩ := by decide
example : fix id ⟨true, ['h', 'a', 'b', 'l', 'a', 'd', 'a', 's'], [], []⟩ = ⟨true, ['h', 'a', 'b', 'l', 'a', 'd', 'a', 's'], ['h', 'a', 'b', 'l', 'a', 'r'], [(['V', 'e', 'r', 'b', 'F', 'o', 'r', 'm'], ['P', 'a', 'r', 't']), (['T', 'e', 'n', 's', 'e'], ['P', 'a', 's', 't']), (['G', 'e', 'n', 'd', 'e', 'r'], ['F', 'e', 'm']), (['N', 'u', 'm', 'b', 'e', 'r'], ['P', 'l', 'u', 'r'])]⟩ := by decide
example : fix id ⟨true, ['p', 'u', 'e', 's', 't', 'o'], ['p', 'o', 'n', 'e', 'r'], [(['G', 'e', 'n', 'd', 'e', 'r'], ['F', 'e', 'm'])]⟩ = ⟨true, ['p', 'u', 'e', 's', 't', 'o'], ['p', 'o', 'n', 'e', 'r'], [(['V', 'e', 'r', 'b', 'F', 'o', 'r', 'm'], ['P', 'a', 'r', 't']), (['T', 'e', 'n', 's', 'e'], ['P', 'a', 's', 't']), (['G', 'e', 'n', 'd', 'e', 'r'], ['F', 'e', 'm']), (['N', 'u', 'm', 'b', 'e', 'r'], ['S', 'i', 'n', 'g'])]⟩ := by decide
example : fix id ⟨true, ['e', 'n', 't', 'i', 'e', 'n', 'd', 'o'], ['e', 'n', 't', 'e', 'n', 'd', 'e', 'r'], [(['P', 'e', 'r', 's', 'o', 'n'], ['1'])]⟩ = ⟨true, ['e', 'n', 't', 'i', 'e', 'n', 'd', 'o'], ['e', 'n', 't', 'e', 'n', 'd', 'e', 'r'], [(['P', 'e', 'r', 's', 'o', 'n'], ['1'])]⟩ := by decide
example : get (fix id ⟨true, ['v', 'e', 'n', 'd', 'o'], ['v', 'e', 'n', 'd', 'e', 'r'], [(['P', 'e', 'r', 's', 'o', 'n'], ['1'])]⟩).feats ['P', 'e', 'r', 's', 'o', 'n'] = [] := by decide
example : fix id ⟨true, ['o', 'í', 'r'], ['o', 'í', 'r'], [(['V', 'e', 'r', 'b', 'F', 'o', 'r', 'm'], ['F', 'i', 'n'])]⟩ = ⟨true, ['o', 'í', 'r'], ['o', 'í', 'r'], [(['V', 'e', 'r', 'b', 'F', 'o', 'r', 'm'], ['F', 'i', 'n'])]⟩ := by decide

end Verif.Text.EsVerbs
