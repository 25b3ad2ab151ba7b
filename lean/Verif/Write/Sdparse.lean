import Verif.Py.Num

/-!
# Property C168: the format of Stanford dependencies (udapi/block/write/sdparse.py)

A tree is the list of its words; the number of the parent is 0 for the technical root, otherwise the `ord` of a word. The output is the list of printed lines.
-/

namespace Verif.Write.Sdparse
open Verif.Py

structure W where
  form : Str
  upos : Str
  /-- `str(node.feats)` -/
  feats : Str
  deprel : Str
  parent : Nat
deriving DecidableEq

structure Opts where
  printUpos : Bool
  printFeats : Bool
  alwaysOrd : Bool

/-- `string.replace` of one character -/
def replace (c : Char) (r s : Str) : Str := s.flatMap (fun x => if x = c then r else [x])

/-- `_escape` (sdparse.py:79-81) -/
def esc (s : Str) : Str := replace '/' ['\\', '/'] (replace '\\' ['\\', '\\'] s)

/-- `_form` (sdparse.py:83-86) for the word number `i` from 0 -/
def label (o : Opts) (ws : List W) (i : Nat) : Str :=
  match ws[i]? with
  | none => []
  | some w => if o.alwaysOrd || decide (ws.countP (fun v => decide (v.form = w.form)) > 1) then esc (w.form ++ '-' :: natStr (i + 1)) else esc w.form

/-- `_node` (sdparse.py:88-98) -/
def item (o : Opts) (w : W) : Str :=
  esc w.form ++ (if o.printUpos then '/' :: w.upos else []) ++
    (if o.printFeats && decide (w.feats ≠ ['_']) then (if o.printUpos then [] else ['/']) ++ '[' :: w.feats ++ [']'] else [])

/-- One dependency (sdparse.py:70-74) -/
def line (o : Opts) (ws : List W) (i : Nat) : Option Str :=
  match ws[i]? with
  | none => none
  | some w => if w.parent = 0 then none else some (w.deprel ++ '(' :: (label o ws (w.parent - 1) ++ ',' :: ' ' :: (label o ws i ++ [')'])))

/-- `process_tree` (sdparse.py:58-77) -/
def out (o : Opts) (ws : List W) : List Str :=
  ['~', '~', '~', ' ', 's', 'd', 'p', 'a', 'r', 's', 'e'] :: join [' '] (ws.map (item o)) :: ((List.range ws.length).filterMap (line o ws) ++ [['~', '~', '~'], []])

/-! ## Lemmas -/

def esc1 (x : Char) : Str := if x = '\\' then ['\\', '\\'] else if x = '/' then ['\\', '/'] else [x]

theorem esc_eq (s : Str) : esc s = s.flatMap esc1 := by
  unfold esc replace
  induction s with
  | nil => rfl
  | cons x s ih =>
    rw [List.flatMap_cons, List.flatMap_append, ih, List.flatMap_cons]
    congr 1
    unfold esc1
    by_cases h : x = '\\'
    · subst h; rfl
    · rw [if_neg h, if_neg h]
      by_cases h2 : x = '/'
      · subst h2; rfl
      · rw [if_neg h2]; simp [h2]

theorem esc_nil : esc [] = [] := rfl

theorem esc_cons (x : Char) (s : Str) : esc (x :: s) = esc1 x ++ esc s := by rw [esc_eq, esc_eq, List.flatMap_cons]

theorem esc_append (a b : Str) : esc (a ++ b) = esc a ++ esc b := by rw [esc_eq, esc_eq, esc_eq, List.flatMap_append]

theorem esc1_ne (x : Char) : esc1 x ≠ [] := by
  unfold esc1; split
  · simp
  · split <;> simp

theorem esc_ne {s : Str} (h : s ≠ []) : esc s ≠ [] := by
  cases s with
  | nil => exact absurd rfl h
  | cons x s =>
    rw [esc_cons]
    intro e
    exact esc1_ne x (List.append_eq_nil_iff.1 e).1

/-- What follows an escaped text: nothing, or a slash that is not escaped -/
def Tail (r : Str) : Prop := r = [] ∨ ∃ q, r = '/' :: q

theorem esc_inj : ∀ {a b r s : Str}, Tail r → Tail s → esc a ++ r = esc b ++ s → a = b ∧ r = s := by
  have notail : ∀ (x : Char) (b s r : Str), Tail r → esc (x :: b) ++ s ≠ r := by
    intro x b s r hr e
    rw [esc_cons] at e
    rcases hr with rfl | ⟨q, rfl⟩
    · exact esc1_ne x (List.append_eq_nil_iff.1 (List.append_eq_nil_iff.1 e).1).1
    · unfold esc1 at e
      by_cases h1 : x = '\\'
      · rw [if_pos h1] at e
        have := (List.cons.inj e).1
        exact absurd this (by decide)
      · rw [if_neg h1] at e
        by_cases h2 : x = '/'
        · rw [if_pos h2] at e
          have := (List.cons.inj e).1
          exact absurd this (by decide)
        · rw [if_neg h2] at e
          exact h2 (List.cons.inj e).1
  intro a
  induction a with
  | nil =>
    intro b r s hr hs h
    cases b with
    | nil => exact ⟨rfl, h⟩
    | cons x b => exact absurd h.symm (notail x b s _ (by simpa [esc_nil] using hr))
  | cons x a ih =>
    intro b r s hr hs h
    cases b with
    | nil => exact absurd h (notail x a r _ (by simpa [esc_nil] using hs))
    | cons y b =>
      rw [esc_cons, esc_cons, List.append_assoc, List.append_assoc] at h
      have key : ∃ z, x = z ∧ y = z ∧ esc a ++ r = esc b ++ s := by
        unfold esc1 at h
        by_cases x1 : x = '\\'
        · rw [if_pos x1] at h
          by_cases y1 : y = '\\'
          · rw [if_pos y1] at h
            exact ⟨_, x1, y1, (List.cons.inj (List.cons.inj h).2).2⟩
          · rw [if_neg y1] at h
            by_cases y2 : y = '/'
            · rw [if_pos y2] at h
              exact absurd (List.cons.inj (List.cons.inj h).2).1 (by decide)
            · rw [if_neg y2] at h
              exact absurd (List.cons.inj h).1.symm y1
        · rw [if_neg x1] at h
          by_cases x2 : x = '/'
          · rw [if_pos x2] at h
            by_cases y1 : y = '\\'
            · rw [if_pos y1] at h
              exact absurd (List.cons.inj (List.cons.inj h).2).1 (by decide)
            · rw [if_neg y1] at h
              by_cases y2 : y = '/'
              · rw [if_pos y2] at h
                exact ⟨_, x2, y2, (List.cons.inj (List.cons.inj h).2).2⟩
              · rw [if_neg y2] at h
                exact absurd (List.cons.inj h).1.symm y1
          · rw [if_neg x2] at h
            by_cases y1 : y = '\\'
            · rw [if_pos y1] at h
              exact absurd (List.cons.inj h).1 x1
            · rw [if_neg y1] at h
              by_cases y2 : y = '/'
              · rw [if_pos y2] at h
                exact absurd (List.cons.inj h).1 x1
              · rw [if_neg y2] at h
                exact ⟨x, rfl, (List.cons.inj h).1.symm, (List.cons.inj h).2⟩
      obtain ⟨z, rfl, rfl, h'⟩ := key
      obtain ⟨rfl, rfl⟩ := ih hr hs h'
      exact ⟨rfl, rfl⟩

theorem esc_inj' {a b : Str} (h : esc a = esc b) : a = b :=
  (esc_inj (r := []) (s := []) (.inl rfl) (.inl rfl) (by rw [List.append_nil, List.append_nil, h])).1

theorem esc_not_mem {c : Char} (h1 : c ≠ '\\') {s : Str} (h : c ∉ s) : c ∉ esc s := by
  rw [esc_eq, List.mem_flatMap]
  rintro ⟨x, hx, hc⟩
  unfold esc1 at hc
  by_cases x1 : x = '\\'
  · rw [if_pos x1] at hc; simp at hc; exact h1 hc
  · rw [if_neg x1] at hc
    by_cases x2 : x = '/'
    · rw [if_pos x2] at hc
      rcases List.mem_cons.1 hc with e | hc
      · exact h1 e
      · rw [List.mem_singleton.1 hc] at h; rw [x2] at hx; exact h hx
    · rw [if_neg x2, List.mem_singleton] at hc
      rw [hc] at h; exact h hx

/-- Equal texts with a separator that is not in the first parts -/
theorem sep_left {c : Char} {a b r s : Str} (ha : c ∉ a) (hb : c ∉ b) (h : a ++ c :: r = b ++ c :: s) : a = b ∧ r = s := by
  have := congrArg (splitOnce c) h
  rw [splitOnce_append ha, splitOnce_append hb] at this
  exact ⟨(Prod.mk.inj this).1, Option.some.inj (Prod.mk.inj this).2⟩

/-- The same with the separator not in the last parts -/
theorem sep_right {c : Char} {a b r s : Str} (hr : c ∉ r) (hs : c ∉ s) (h : a ++ c :: r = b ++ c :: s) : a = b ∧ r = s := by
  have h' := congrArg List.reverse h
  rw [List.reverse_append, List.reverse_append, List.reverse_cons, List.reverse_cons, List.append_assoc, List.append_assoc] at h'
  obtain ⟨h1, h2⟩ := sep_left (by simpa using hr) (by simpa using hs) h'
  exact ⟨List.reverse_inj.1 h2, List.reverse_inj.1 h1⟩

theorem natStr_no (c : Char) (hc : ¬ (48 ≤ c.toNat ∧ c.toNat ≤ 57)) (n : Nat) : c ∉ natStr n := fun h => hc (natStr_digits n c h)

/-! ## The properties -/

/-- The words fit the format: forms are not empty, no spaces, no brackets in tags. -/
structure Fits (ws : List W) : Prop where
  form : ∀ w ∈ ws, w.form ≠ [] ∧ ' ' ∉ w.form
  upos : ∀ w ∈ ws, ' ' ∉ w.upos ∧ '[' ∉ w.upos
  feats : ∀ w ∈ ws, ' ' ∉ w.feats
  deprel : ∀ w ∈ ws, '(' ∉ w.deprel
  parent : ∀ w ∈ ws, w.parent ≤ ws.length

/-- Different words have different names in the dependencies. -/
def Clear (o : Opts) (ws : List W) : Prop := ∀ i j, i < ws.length → j < ws.length → label o ws i = label o ws j → i = j

theorem item_no {o : Opts} {ws : List W} (h : Fits ws) : ∀ p ∈ ws.map (item o), ' ' ∉ p := by
  intro p hp
  obtain ⟨w, hw, rfl⟩ := List.mem_map.1 hp
  unfold item
  intro hm
  rcases List.mem_append.1 hm with hm | hm
  · rcases List.mem_append.1 hm with hm | hm
    · exact esc_not_mem (by decide) (h.form w hw).2 hm
    · split at hm
      · rcases List.mem_cons.1 hm with e | hm
        · exact absurd e (by decide)
        · exact (h.upos w hw).1 hm
      · cases hm
  · split at hm
    · rcases List.mem_append.1 hm with hm | hm
      · rcases List.mem_append.1 hm with hm | hm
        · split at hm
          · cases hm
          · exact absurd (List.mem_singleton.1 hm) (by decide)
        · rcases List.mem_cons.1 hm with e | hm
          · exact absurd e (by decide)
          · exact h.feats w hw hm
      · exact absurd (List.mem_singleton.1 hm) (by decide)
    · cases hm

theorem item_ne {o : Opts} {w : W} (h : w.form ≠ []) : item o w ≠ [] := by
  unfold item
  intro e
  exact esc_ne h (List.append_eq_nil_iff.1 (List.append_eq_nil_iff.1 e).1).1

theorem join_inj {a b : List Str} (ha : ∀ p ∈ a, ' ' ∉ p) (hb : ∀ p ∈ b, ' ' ∉ p) (ha' : ∀ p ∈ a, p ≠ []) (hb' : ∀ p ∈ b, p ≠ []) (h : join [' '] a = join [' '] b) : a = b := by
  by_cases h1 : a = []
  · subst h1
    rcases join_eq_nil (by simp) h.symm with e | e
    · exact e.symm
    · rw [e] at hb'; exact absurd rfl (hb' [] (by simp))
  · by_cases h2 : b = []
    · subst h2
      rcases join_eq_nil (by simp) h with e | e
      · exact e
      · rw [e] at ha'; exact absurd rfl (ha' [] (by simp))
    · rw [← split_join h1 ha, ← split_join h2 hb, h]

theorem item_inj {o : Opts} {v w : W} (hv : '[' ∉ v.upos) (hw : '[' ∉ w.upos) (h : item o v = item o w) :
    v.form = w.form ∧ (o.printUpos = true → v.upos = w.upos) ∧ (o.printFeats = true → v.feats = w.feats) := by
  obtain ⟨u, f, a⟩ := o
  have hi : ∀ x : W, item ⟨u, f, a⟩ x = esc x.form ++ ((if u then '/' :: x.upos else []) ++ (if f && decide (x.feats ≠ ['_']) then (if u then [] else ['/']) ++ '[' :: x.feats ++ [']'] else [])) := by
    intro x; unfold item; rw [List.append_assoc]
  rw [hi, hi] at h
  have ht : ∀ x : W, Tail ((if u then '/' :: x.upos else []) ++ (if f && decide (x.feats ≠ ['_']) then (if u then [] else ['/']) ++ '[' :: x.feats ++ [']'] else [])) := by
    intro x
    cases u
    · cases f
      · exact .inl rfl
      · by_cases hx : x.feats ≠ ['_']
        · right; refine ⟨'[' :: x.feats ++ [']'], ?_⟩; simp [hx]
        · left; simp [hx]
    · right; exact ⟨_, rfl⟩
  obtain ⟨h1, h2⟩ := esc_inj (ht v) (ht w) h
  refine ⟨h1, ?_⟩
  dsimp only
  cases f
  · refine ⟨fun hu => ?_, fun e => by cases e⟩
    subst hu
    simpa using h2
  · have hb : ∀ x y : Str, x ++ [']'] = y ++ [']'] → x = y := fun x y e => List.append_cancel_right e
    have hbr : ∀ (p q : Str), '[' ∉ p → p = q ++ '[' :: v.feats ++ [']'] → False := by
      intro p q hp e; rw [e] at hp; simp at hp
    have hbr' : ∀ (p q : Str), '[' ∉ p → p = q ++ '[' :: w.feats ++ [']'] → False := by
      intro p q hp e; rw [e] at hp; simp at hp
    cases u
    · refine ⟨fun e => (by cases e), fun _ => ?_⟩
      by_cases x1 : v.feats = ['_'] <;> by_cases x2 : w.feats = ['_'] <;> simp [x1, x2] at h2 ⊢
      exact h2
    · by_cases x1 : v.feats = ['_'] <;> by_cases x2 : w.feats = ['_'] <;> simp [x1, x2] at h2 ⊢
      · exact h2
      · exact (hbr' v.upos w.upos hv (by rw [h2]; simp)).elim
      · exact (hbr w.upos v.upos hw (by rw [← h2]; simp)).elim
      · obtain ⟨e1, e2⟩ := sep_left hv hw h2
        exact ⟨e1, hb _ _ e2⟩

theorem label_forms {o : Opts} {ws vs : List W} (h : ws.map (·.form) = vs.map (·.form)) (i : Nat) : label o ws i = label o vs i := by
  have hi := congrArg (fun l => l[i]?) h
  simp only [List.getElem?_map] at hi
  have hc : ∀ f : Str, ws.countP (fun v => decide (v.form = f)) = vs.countP (fun v => decide (v.form = f)) := by
    intro f
    have e : ∀ l : List W, l.countP (fun v => decide (v.form = f)) = (l.map (·.form)).countP (fun s => decide (s = f)) := by
      intro l; rw [List.countP_map]; rfl
    rw [e, e, h]
  unfold label
  cases h1 : ws[i]? with
  | none =>
    rw [h1] at hi
    cases h2 : vs[i]? with
    | none => rfl
    | some w => rw [h2] at hi; cases hi
  | some w =>
    rw [h1] at hi
    cases h2 : vs[i]? with
    | none => rw [h2] at hi; cases hi
    | some v =>
      rw [h2] at hi
      have : w.form = v.form := Option.some.inj hi
      dsimp only
      rw [this, hc]

theorem label_no {o : Opts} {ws : List W} (h : ∀ w ∈ ws, ' ' ∉ w.form) (i : Nat) : ' ' ∉ label o ws i := by
  unfold label
  cases h1 : ws[i]? with
  | none => simp
  | some w =>
    have hw := h w (List.mem_of_getElem? h1)
    dsimp only
    split
    · refine esc_not_mem (by decide) ?_
      intro hm
      rcases List.mem_append.1 hm with hm | hm
      · exact hw hm
      · rcases List.mem_cons.1 hm with e | hm
        · exact absurd e (by decide)
        · exact natStr_no ' ' (by decide) _ hm
    · exact esc_not_mem (by decide) hw

theorem line_eq {o : Opts} {ws : List W} {i : Nat} {w : W} (h : ws[i]? = some w) (h0 : w.parent ≠ 0) :
    line o ws i = some (w.deprel ++ '(' :: (label o ws (w.parent - 1) ++ ',' :: ' ' :: (label o ws i ++ [')']))) := by
  unfold line; rw [h]; dsimp only; rw [if_neg h0]

theorem mem_lines {o : Opts} {ws : List W} {s : Str} (h : s ∈ (List.range ws.length).filterMap (line o ws)) : ∃ i w, ws[i]? = some w ∧ w.parent ≠ 0 ∧
    s = w.deprel ++ '(' :: (label o ws (w.parent - 1) ++ ',' :: ' ' :: (label o ws i ++ [')'])) := by
  obtain ⟨i, _, hi⟩ := List.mem_filterMap.1 h
  cases h1 : ws[i]? with
  | none => unfold line at hi; rw [h1] at hi; cases hi
  | some w =>
    by_cases h0 : w.parent = 0
    · unfold line at hi; rw [h1] at hi; dsimp only at hi; rw [if_pos h0] at hi; cases hi
    · rw [line_eq h1 h0] at hi
      exact ⟨i, w, h1, h0, (Option.some.inj hi).symm⟩

theorem lines_mem {o : Opts} {ws : List W} {i : Nat} {w : W} (h : ws[i]? = some w) (h0 : w.parent ≠ 0) :
    w.deprel ++ '(' :: (label o ws (w.parent - 1) ++ ',' :: ' ' :: (label o ws i ++ [')'])) ∈ (List.range ws.length).filterMap (line o ws) :=
  List.mem_filterMap.2 ⟨i, List.mem_range.2 (List.getElem?_eq_some_iff.1 h).1, line_eq h h0⟩

theorem half {o : Opts} {ws vs : List W} (hw : Fits ws) (hv : Fits vs) (hc : Clear o ws) (hf : ws.map (·.form) = vs.map (·.form))
    (h : (List.range ws.length).filterMap (line o ws) = (List.range vs.length).filterMap (line o vs)) {i : Nat} {w v : W} (h1 : ws[i]? = some w) (h2 : vs[i]? = some v)
    (h0 : w.parent ≠ 0) : v.parent = w.parent ∧ v.deprel = w.deprel := by
  have hm := lines_mem (o := o) h1 h0
  rw [h] at hm
  obtain ⟨j, u, hu, hu0, he⟩ := mem_lines hm
  have hl : ws.length = vs.length := by simpa using congrArg List.length hf
  have hi := (List.getElem?_eq_some_iff.1 h1).1
  have hj := (List.getElem?_eq_some_iff.1 hu).1
  obtain ⟨e1, e2⟩ := sep_left (hw.deprel w (List.mem_of_getElem? h1)) (hv.deprel u (List.mem_of_getElem? hu)) he
  have no : ∀ (l : Str), ' ' ∉ l → ' ' ∉ l ++ [','] := by
    intro l hl hm
    rcases List.mem_append.1 hm with hm | hm
    · exact hl hm
    · exact absurd (List.mem_singleton.1 hm) (by decide)
  have e2' : (label o ws (w.parent - 1) ++ [',']) ++ ' ' :: (label o ws i ++ [')']) = (label o vs (u.parent - 1) ++ [',']) ++ ' ' :: (label o vs j ++ [')']) := by
    rw [List.append_assoc, List.append_assoc]; exact e2
  obtain ⟨e3, e4⟩ := sep_left (no _ (label_no (fun x hx => (hw.form x hx).2) _)) (no _ (label_no (fun x hx => (hv.form x hx).2) _)) e2'
  have e3 := List.append_cancel_right e3
  have e4 := List.append_cancel_right e4
  rw [← label_forms hf] at e3 e4
  have hij : i = j := hc i j hi (by omega) e4
  subst hij
  rw [h2] at hu
  cases hu
  have p1 := hw.parent w (List.mem_of_getElem? h1)
  have p2 := hv.parent v (List.mem_of_getElem? h2)
  have := hc (w.parent - 1) (v.parent - 1) (by omega) (by omega) e3
  exact ⟨by omega, e1.symm⟩

/-- **C168 (nothing is lost)** Two trees that fit the format and whose words have different names give the same output only if they have the same words, with the same tags and features if these are
printed, the same parents, and the same relations to parents other than the root. -/
theorem C168_same {o : Opts} {ws vs : List W} (hw : Fits ws) (hv : Fits vs) (hc : Clear o ws) (h : out o ws = out o vs) :
    ws.length = vs.length ∧ ∀ (i : Nat) (w v : W), ws[i]? = some w → vs[i]? = some v → w.form = v.form ∧ (o.printUpos = true → w.upos = v.upos) ∧ (o.printFeats = true → w.feats = v.feats) ∧
      w.parent = v.parent ∧ (w.parent ≠ 0 → w.deprel = v.deprel) := by
  unfold out at h
  have h1 := (List.cons.inj (List.cons.inj h).2).1
  have h2 := List.append_cancel_right (List.cons.inj (List.cons.inj h).2).2
  have hne : ∀ {us : List W}, Fits us → ∀ p ∈ us.map (item o), p ≠ [] := by
    intro us hu p hp
    obtain ⟨x, hx, rfl⟩ := List.mem_map.1 hp
    exact item_ne (hu.form x hx).1
  have h3 := join_inj (item_no hw) (item_no hv) (hne hw) (hne hv) h1
  have hl : ws.length = vs.length := by simpa using congrArg List.length h3
  have hit : ∀ (i : Nat) (w v : W), ws[i]? = some w → vs[i]? = some v → w.form = v.form ∧ (o.printUpos = true → w.upos = v.upos) ∧ (o.printFeats = true → w.feats = v.feats) := by
    intro i w v hw' hv'
    have := congrArg (fun l => l[i]?) h3
    simp only [List.getElem?_map, hw', hv', Option.map_some] at this
    exact item_inj (hw.upos w (List.mem_of_getElem? hw')).2 (hv.upos v (List.mem_of_getElem? hv')).2 (Option.some.inj this)
  have hf : ws.map (·.form) = vs.map (·.form) := by
    apply List.ext_getElem?
    intro i
    rw [List.getElem?_map, List.getElem?_map]
    cases a : ws[i]? with
    | none =>
      rw [List.getElem?_eq_none_iff] at a
      rw [List.getElem?_eq_none_iff.2 (by omega : vs.length ≤ i)]
    | some w =>
      obtain ⟨ha, _⟩ := List.getElem?_eq_some_iff.1 a
      have b : vs[i]? = some vs[i] := List.getElem?_eq_getElem (by omega)
      rw [b]
      exact congrArg some (hit i w _ a b).1
  have hc' : Clear o vs := by
    intro i j hi hj e
    rw [← label_forms hf, ← label_forms hf] at e
    exact hc i j (by omega) (by omega) e
  refine ⟨hl, fun i w v a b => ?_⟩
  obtain ⟨x, y, z⟩ := hit i w v a b
  refine ⟨x, y, z, ?_⟩
  by_cases h0 : w.parent = 0
  · by_cases g0 : v.parent = 0
    · exact ⟨by omega, fun e => absurd h0 e⟩
    · have := (half hv hw hc' hf.symm h2.symm b a g0).1
      exact ⟨this, fun e => absurd h0 e⟩
  · have := half hw hv hc hf h2 a b h0
    exact ⟨this.1.symm, fun _ => this.2.symm⟩

/-- **C168 (names of words)** With `always_ord`, different words have different names. -/
theorem C168_names {o : Opts} (ho : o.alwaysOrd = true) (ws : List W) : Clear o ws := by
  intro i j hi hj h
  unfold label at h
  rw [List.getElem?_eq_getElem hi, List.getElem?_eq_getElem hj] at h
  dsimp only at h
  rw [ho] at h
  simp only [Bool.true_or, if_true] at h
  have := (sep_right (natStr_no '-' (by decide) _) (natStr_no '-' (by decide) _) (esc_inj' h)).2
  have := natStr_inj this
  omega

/-- **C168 (names of words, partial)** Without `always_ord`, different words have different names if no form is another form with its number.
Missing: such forms, for which it is false (`C168_names_violated`). -/
theorem C168_names_partial {o : Opts} {ws : List W} (hn : ∀ (i j : Nat) (w v : W), ws[i]? = some w → ws[j]? = some v → w.form ≠ v.form ++ '-' :: natStr (j + 1)) : Clear o ws := by
  intro i j hi hj h
  have a := List.getElem?_eq_getElem hi
  have b := List.getElem?_eq_getElem hj
  unfold label at h
  rw [a, b] at h
  dsimp only at h
  split at h
  · split at h
    · have := (sep_right (natStr_no '-' (by decide) _) (natStr_no '-' (by decide) _) (esc_inj' h)).2
      have := natStr_inj this
      omega
    · exact absurd (esc_inj' h).symm (hn j i _ _ b a)
  · split at h
    · exact absurd (esc_inj' h) (hn i j _ _ a b)
    · rename_i g _
      have e := esc_inj' h
      apply Classical.byContradiction
      intro hij
      apply g
      rw [Bool.or_eq_true, decide_eq_true_iff]
      right
      have two : ∀ (p q : Nat) (l : List W) (hp : p < l.length) (hq : q < l.length), p < q → l[p].form = l[q].form → l.countP (fun v => decide (v.form = l[p].form)) > 1 := by
        intro p q l hp hq hpq e
        rw [List.countP_eq_length_filter]
        have hs : [l[p], l[q]].Sublist l := by
          have h1 : l = l.take (p + 1) ++ l.drop (p + 1) := (List.take_append_drop _ _).symm
          have h2 : l[q] ∈ l.drop (p + 1) := by
            rw [List.mem_drop_iff_getElem]
            exact ⟨q - (p + 1), by omega, by congr 1; omega⟩
          have h3 : l[p] ∈ l.take (p + 1) := by
            rw [List.mem_take_iff_getElem]
            exact ⟨p, by omega, rfl⟩
          have := (List.singleton_sublist.2 h3).append (List.singleton_sublist.2 h2)
          rw [← h1] at this
          exact this
        have := (hs.filter (fun v => decide (v.form = l[p].form))).length_le
        simp [← e] at this
        omega
      rcases Nat.lt_or_ge i j with hlt | hge
      · exact two i j ws hi hj hlt e
      · have := two j i ws hj hi (by omega) e.symm
        rw [e]
        exact this

/-- **C168 (names of words, violated)** For every form there are two different trees with the same output: a word with a form that occurs twice and a word that looks like the first with its number have
the same name, so a word below the one or the other gives the same line. -/
theorem C168_names_violated {o : Opts} (ho : o.alwaysOrd = false) (f u s d x : Str) :
    let a : W := ⟨f, u, s, d, 0⟩
    let c : W := ⟨f ++ '-' :: natStr 1, u, s, d, 0⟩
    x ≠ c.form → out o [a, a, c, ⟨x, u, s, d, 1⟩] = out o [a, a, c, ⟨x, u, s, d, 3⟩] := by
  intro a c hxc
  have hn : f ++ '-' :: natStr 1 ≠ f := by
    intro e
    have := congrArg List.length e
    simp at this
  have hl : label o [a, a, c, ⟨x, u, s, d, 1⟩] 0 = label o [a, a, c, ⟨x, u, s, d, 3⟩] 2 := by
    have h1 : ¬ (f = f ++ '-' :: natStr 1) := fun e => hn e.symm
    have h2 : ¬ (f ++ '-' :: natStr 1 = f) := hn
    have h3 : ¬ (x = f ++ '-' :: natStr 1) := hxc
    simp [label, ho, a, c, List.countP_cons, h2, h3]
  have hs : ∀ i, label o [a, a, c, ⟨x, u, s, d, 1⟩] i = label o [a, a, c, ⟨x, u, s, d, 3⟩] i := label_forms rfl
  have hl' := hl
  rw [hs] at hl'
  unfold out
  simp only [List.map_cons, List.map_nil, List.length_cons, List.length_nil, List.range_succ, List.range_zero, List.nil_append, List.cons_append, List.filterMap_cons, List.filterMap_nil]
  have hd : ∀ p, label o [a, a, c, ⟨x, u, s, d, p⟩] 3 = label o [a, a, c, ⟨x, u, s, d, 3⟩] 3 := fun p => label_forms rfl 3
  simp [line, hd 1, item, a, c]
  exact hl

/-- **C168 (relations to the root, violated)** The relations of words below the root are not in the output. -/
theorem C168_root_violated (o : Opts) (ws : List W) (d : W → Str) : out o (ws.map (fun w => if w.parent = 0 then { w with deprel := d w } else w)) = out o ws := by
  generalize hg : (fun w : W => if w.parent = 0 then { w with deprel := d w } else w) = g
  have g1 : ∀ w, (g w).form = w.form := by intro w; rw [← hg]; dsimp only; split <;> rfl
  have g2 : ∀ w, item o (g w) = item o w := by intro w; rw [← hg]; dsimp only; split <;> rfl
  have g3 : ∀ w, (g w).parent = w.parent := by intro w; rw [← hg]; dsimp only; split <;> rfl
  have g4 : ∀ w, w.parent ≠ 0 → (g w).deprel = w.deprel := by intro w h; rw [← hg]; dsimp only; rw [if_neg h]
  have hf : (ws.map g).map (·.form) = ws.map (·.form) := by rw [List.map_map]; exact List.map_congr_left (fun w _ => g1 w)
  have hi : (ws.map g).map (item o) = ws.map (item o) := by rw [List.map_map]; exact List.map_congr_left (fun w _ => g2 w)
  unfold out
  rw [hi, List.length_map]
  congr 3
  have : line o (ws.map g) = line o ws := by
    funext i
    unfold line
    rw [List.getElem?_map]
    cases ws[i]? with
    | none => rfl
    | some w =>
      dsimp only [Option.map_some]
      rw [g3, label_forms hf, label_forms hf]
      by_cases h : w.parent = 0
      · rw [if_pos h, if_pos h]
      · rw [if_neg h, if_neg h, g4 w h]
  rw [this]

/-- **C168 (spaces, violated)** A form with a space is not distinguished from two words. -/
theorem C168_space_violated (o : Opts) (hu : o.printUpos = false) (hf : o.printFeats = false) (a b u s d : Str) :
    out o [⟨a ++ ' ' :: b, u, s, d, 0⟩] = out o [⟨a, u, s, d, 0⟩, ⟨b, u, s, d, 0⟩] := by
  have he : esc (a ++ ' ' :: b) = esc a ++ ' ' :: esc b := by rw [esc_append, esc_cons]; rfl
  unfold out
  simp [List.range_succ, line, item, hu, hf, he, join]

/-! ## Examples -/

def exWs : List W := [⟨['p', 'a'], ['N'], ['_'], ['n'], 0⟩, ⟨['1', '/', '2'], ['X'], ['A', '=', 'B'], ['m'], 1⟩, ⟨['p', 'a'], ['N'], ['_'], ['o'], 2⟩]

example : (out ⟨true, true, false⟩ exWs).map String.ofList = ["~~~ sdparse", "pa/N 1\\/2/X[A=B] pa/N", "m(pa-1, 1\\/2)", "o(1\\/2, pa-3)", "~~~", ""] := by decide +kernel
example : Fits exWs := ⟨by decide, by decide, by decide, by decide, by decide⟩

end Verif.Write.Sdparse
