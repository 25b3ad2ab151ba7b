import Verif.Text.AddMwtProps

/-!
# Property C128: the words of the multi-word tokens of ud.AddMwt
-/

namespace Verif.Text.AddMwt
open Verif.Py Verif.DualDict
open Verif.DualDict.Spec (Map)

/-- The value of an attribute of the word number `i`, as documented in `multiword_analysis` (addmwt.py:93-106): the value of the
analysis, `*` means the original value; if the analysis has no values, the original node keeps its value and the new ones have none. -/
def given (o : Option Str) (main i : Nat) : Option (List Str) → Option Str
  | none => if i = main then o else none
  | some vs => if vs[i]? = some ['*'] then o else vs[i]?

/-- The form of the word number `i`. -/
def caseOf (c : Case) (orig : Str) (i : Nat) (f : Str) : Str :=
  if c.isUpper orig then c.upper f else if i = 0 ∧ c.isUpper (orig.take 1) then c.title f else f

/-- FEATS of the word number `i`: `*` for all or for one feature means the original value. -/
def GivenFeats (o : Map) (main i : Nat) (feats : Map) : Option (List Str) → Prop
  | none => feats = if i = main then o else fun _ => none
  | some vs => ∃ x, vs[i]? = some x ∧ (x = ['*'] → feats = o) ∧
      (x ≠ ['*'] → ∀ k, (ofStr x k = some (.str ['*']) → feats k = if truthy (o k) then o k else none) ∧
        (ofStr x k ≠ some (.str ['*']) → feats k = ofStr x k))

/-- MISC of the word number `i`, before `Entity` is moved. -/
def GivenMisc (o : Map) (i : Nat) (m : Map) : Option (List Str) → Prop
  | none => m = fun _ => none
  | some vs => ∃ x, vs[i]? = some x ∧ (x ≠ ['*'] → m = ofStr x) ∧
      (x = ['*'] → (∀ j, j < i → vs[j]? ≠ some ['*']) → ∀ k, m k = if k ∈ spaces ∧ truthy (o k) then none else o k)

/-- The word number `i` with the form `f` in the analysis `a` of the node `o`. -/
structure IsWord (c : Case) (s : Sent) (o : Wd) (a : An) (i : Nat) (f : Str) (w : Wd) : Prop where
  main : i = a.main → w.id = o.id ∧ w.parent = o.parent
  new : i ≠ a.main → s.next ≤ w.id ∧ w.parent = if a.subtree then o.id else o.parent
  form : w.form = caseOf c o.form i f
  lemma : w.lemma = given o.lemma a.main i a.lemma
  upos : w.upos = given o.upos a.main i a.upos
  xpos : w.xpos = given o.xpos a.main i a.xpos
  deprel : w.deprel = given o.deprel a.main i a.deprel
  feats : GivenFeats o.feats a.main i w.feats a.feats
  misc : ∃ m, GivenMisc o.misc i m a.misc ∧ w.misc = if i = 0 ∧ truthy (o.misc ent) then put m ent (o.misc ent) else m

/-! ## Proofs -/

theorem mem_join {sep : Str} {c : Char} : ∀ {ps : List Str} {p : Str}, p ∈ ps → c ∈ p → c ∈ join sep ps
  | [], _, h, _ => by cases h
  | [q], p, h, hc => by cases List.mem_singleton.1 h; exact hc
  | q :: r :: ps, p, h, hc => by
    show c ∈ q ++ sep ++ join sep (r :: ps)
    cases h with
    | head => simp [hc]
    | tail _ h => exact List.mem_append_right _ (mem_join h hc)

theorem star_mem {v k : Str} (h : ofStr v k = some (.str ['*'])) : '*' ∈ v := by
  unfold ofStr Spec.ofText at h
  split at h
  · cases h
  · unfold Spec.ofPairs at h
    cases hf : List.find? (fun p => decide (p.1 = k)) ((split Spec.ud.itemSep (Spec.ud.storeStr v)).map (Spec.itemOf Spec.ud)).reverse with
    | none => rw [hf] at h; cases h
    | some p =>
      rw [hf] at h
      have hm := List.mem_reverse.1 (List.mem_of_find?_eq_some hf)
      obtain ⟨item, hi, e⟩ := List.mem_map.1 hm
      have h2 : p.2 = .str ['*'] := by simpa using h
      rw [← e] at h2
      unfold Spec.itemOf at h2
      simp only at h2
      have hs : (splitOnce Spec.ud.kvSep item).2 = some ['*'] := by
        cases hq : (splitOnce Spec.ud.kvSep item).2 with
        | none => rw [hq] at h2; cases h2
        | some x => rw [hq] at h2; cases h2; rfl
      have hitem : '*' ∈ item := by
        rw [← splitOnce_eq Spec.ud.kvSep item, hs]
        simp [tailOf]
      have := mem_join (sep := [Spec.ud.itemSep]) hi hitem
      rw [join_split] at this
      have hst : Spec.ud.storeStr v = if v = [] then ['_'] else v := rfl
      rw [hst] at this
      split at this
      · simp at this
      · exact this

theorem fill_get {f : Wd → Str → Wd} : ∀ {g : List Wd} {vs : List Str} {g' : List Wd}, fill f g vs = some g' →
    g'.length = g.length ∧ ∀ (i : Nat) w, g[i]? = some w → ∃ x, vs[i]? = some x ∧ g'[i]? = some (f w x)
  | [], _, _, h => by cases h; exact ⟨rfl, fun i w h => by simp at h⟩
  | _ :: _, [], _, h => by cases h
  | w :: ws, v :: vs, g', h => by
    unfold fill at h
    cases hr : fill f ws vs with
    | none => rw [hr] at h; cases h
    | some r =>
      rw [hr] at h
      cases h
      obtain ⟨h1, h2⟩ := fill_get hr
      refine ⟨by simp [h1], ?_⟩
      intro i w' hi
      cases i with
      | zero =>
        cases hi
        exact ⟨v, rfl, rfl⟩
      | succ i => exact h2 i w' hi

theorem fillIf_get {f : Wd → Str → Wd} {g g' : List Wd} {o : Option (List Str)} (h : fillIf f g o = some g') :
    g'.length = g.length ∧ ∀ (i : Nat) w, g[i]? = some w →
      match o with
      | none => g'[i]? = some w
      | some vs => ∃ x, vs[i]? = some x ∧ g'[i]? = some (f w x) := by
  cases o with
  | none => cases h; exact ⟨rfl, fun i w h => h⟩
  | some vs => exact fill_get h

theorem fillMisc_get : ∀ {om : Map} {g : List Wd} {vs : List Str} {g' : List Wd}, fillMisc om g vs = some g' →
    g'.length = g.length ∧ ∀ (i : Nat) w, g[i]? = some w →
      ∃ m, GivenMisc om i m (some vs) ∧ g'[i]? = some { w with misc := m }
  | _, [], _, _, h => by unfold fillMisc at h; cases h; exact ⟨rfl, fun i w h => by simp at h⟩
  | _, _ :: _, [], _, h => by unfold fillMisc at h; cases h
  | om, w :: ws, v :: vs, g', h => by
    unfold fillMisc at h
    split at h
    · rename_i hv
      cases hr : fillMisc (fun k => if k ∈ spaces ∧ truthy (om k) then om k else none) ws vs with
      | none => rw [hr] at h; cases h
      | some r =>
        rw [hr] at h
        cases h
        obtain ⟨h1, h2⟩ := fillMisc_get hr
        refine ⟨by simp [h1], ?_⟩
        intro i w' hi
        cases i with
        | zero =>
          cases hi
          exact ⟨_, ⟨v, rfl, fun h => absurd hv h, fun _ _ k => rfl⟩, rfl⟩
        | succ i =>
          obtain ⟨m, ⟨x, hx, h3, _⟩, h5⟩ := h2 i w' hi
          exact ⟨m, ⟨x, hx, h3, fun _ hj => absurd (by rw [hv]; rfl) (hj 0 (Nat.succ_pos i))⟩, h5⟩
    · rename_i hv
      cases hr : fillMisc om ws vs with
      | none => rw [hr] at h; cases h
      | some r =>
        rw [hr] at h
        cases h
        obtain ⟨h1, h2⟩ := fillMisc_get hr
        refine ⟨by simp [h1], ?_⟩
        intro i w' hi
        cases i with
        | zero =>
          cases hi
          exact ⟨_, ⟨v, rfl, fun _ => rfl, fun h => absurd h hv⟩, rfl⟩
        | succ i =>
          obtain ⟨m, ⟨x, hx, h3, h4⟩, h5⟩ := h2 i w' hi
          exact ⟨m, ⟨x, hx, h3, fun e hj => h4 e (fun j hl => by
            have := hj (j + 1) (by omega)
            rwa [List.getElem?_cons_succ] at this)⟩, h5⟩

theorem given_fill {o : Option Str} {main i : Nat} {vs : Option (List Str)} {old new : Option Str}
    (hold : old = if i = main then o else none)
    (h : match (generalizing := false) vs with | none => new = old | some vs => ∃ x, vs[i]? = some x ∧ new = pick o x) :
    new = given o main i vs := by
  cases vs with
  | none => rw [h, hold]; rfl
  | some vs =>
    obtain ⟨x, h1, h2⟩ := h
    unfold given
    simp only
    rw [h1, h2]
    unfold pick
    by_cases hx : x = ['*']
    · rw [if_pos hx, if_pos (by rw [hx])]
    · rw [if_neg hx, if_neg (fun e => hx (Option.some.inj e))]

/-- The words before the attributes are set. -/
theorem build_get {o : Wd} {n : Nat} {a : An} {g : List Wd} (h : build o n a = some g) :
    g.length = a.form.length ∧ ∀ (i : Nat) f, a.form[i]? = some f →
      g[i]? = some (if i = a.main then { o with form := f } else newWd (n + if i < a.main then i else i - 1) (parOf o a) f) := by
  obtain ⟨f0, hf0, rfl⟩ := build_spec h
  obtain ⟨hl, hf0'⟩ := List.getElem?_eq_some_iff.1 hf0
  refine ⟨by simp; omega, ?_⟩
  intro i f hf
  have hi := (List.getElem?_eq_some_iff.1 hf).1
  rw [List.getElem?_append]
  simp only [List.length_mapIdx, List.length_take, Nat.min_eq_left (Nat.le_of_lt hl)]
  by_cases h1 : i < a.main
  · rw [if_pos h1, if_neg (by omega), if_pos h1, List.getElem?_mapIdx, List.getElem?_take, if_pos h1, hf]
    rfl
  · rw [if_neg h1]
    by_cases h2 : i = a.main
    · subst h2
      rw [if_pos rfl, Nat.sub_self]
      rw [hf] at hf0
      cases hf0
      rfl
    · rw [if_neg h2, if_neg h1]
      obtain ⟨k, hk⟩ : ∃ k, i - a.main = k + 1 := ⟨i - a.main - 1, by omega⟩
      rw [hk, List.getElem?_cons_succ, List.getElem?_mapIdx, List.getElem?_drop]
      have : a.main + 1 + k = i := by omega
      rw [this, hf]
      simp only [Option.map_some]
      congr 2
      omega

theorem recase_get {c : Case} {o : Wd} {g g' : List Wd} (h : recase c o g = some g') :
    g'.length = g.length ∧ ∀ (i : Nat) w, g[i]? = some w → g'[i]? = some { w with form := caseOf c o.form i w.form } := by
  unfold recase at h
  unfold caseOf
  split at h
  · rename_i hu
    cases h
    refine ⟨by simp, ?_⟩
    intro i w hi
    rw [List.getElem?_map, hi, if_pos hu]
    rfl
  · rename_i hu
    split at h
    · cases h
    · rename_i ch r heq
      cases h
      have ht : o.form.take 1 = [ch] := by rw [heq]; rfl
      rw [ht]
      by_cases hc : c.isUpper [ch] = true
      · rw [if_pos hc]
        cases g with
        | nil => exact ⟨rfl, fun i w h => by simp at h⟩
        | cons x g =>
          refine ⟨rfl, ?_⟩
          intro i w hi
          rw [if_neg hu]
          cases i with
          | zero =>
            cases hi
            rw [if_pos ⟨rfl, hc⟩]
            rfl
          | succ i =>
            rw [if_neg (fun hh => absurd hh.1 (Nat.succ_ne_zero i))]
            exact hi
      · rw [if_neg hc]
        refine ⟨rfl, ?_⟩
        intro i w hi
        rw [if_neg hu, if_neg (fun hh => hc hh.2)]
        exact hi

theorem fillIf_step {f : Wd → Str → Wd} {g g' : List Wd} {vs : Option (List Str)} (h : fillIf f g vs = some g') {i : Nat} {w : Wd}
    (hi : g[i]? = some w) :
    ∃ w', g'[i]? = some w' ∧ match (generalizing := false) vs with | none => w' = w | some vs => ∃ x, vs[i]? = some x ∧ w' = f w x := by
  have := (fillIf_get h).2 i w hi
  cases vs with
  | none => exact ⟨w, this, rfl⟩
  | some vs =>
    obtain ⟨x, h1, h2⟩ := this
    exact ⟨_, h2, x, h1, rfl⟩

/-- What is known about the words while the attributes are set. -/
theorem attrs_get {o : Wd} {a : An} {g g' : List Wd} (h : attrs o a g = some g') {i : Nat} {w : Wd} (hi : g[i]? = some w)
    (hmain : if i = a.main then w.id = o.id ∧ w.lemma = o.lemma ∧ w.upos = o.upos ∧ w.xpos = o.xpos ∧ w.deprel = o.deprel ∧
        w.feats = o.feats
      else w.id ≠ o.id ∧ w.lemma = none ∧ w.upos = none ∧ w.xpos = none ∧ w.deprel = none ∧ w.feats = (fun _ => none) ∧
        w.misc = fun _ => none) :
    ∃ w', g'[i]? = some w' ∧ w'.id = w.id ∧ w'.parent = w.parent ∧ w'.form = w.form ∧ w'.lemma = given o.lemma a.main i a.lemma ∧
      w'.upos = given o.upos a.main i a.upos ∧ w'.xpos = given o.xpos a.main i a.xpos ∧
      w'.deprel = given o.deprel a.main i a.deprel ∧ GivenFeats o.feats a.main i w'.feats a.feats ∧
      GivenMisc o.misc i w'.misc a.misc := by
  unfold attrs at h
  simp only [Option.bind_eq_some_iff] at h
  obtain ⟨g1, h1, g2, h2, g3, h3, g4, h4, g5, h5, h⟩ := h
  have hm : ∃ w0 : Wd, (g.map (fun w => if w.id = o.id then { w with misc := fun _ => none } else w))[i]? = some w0 ∧
      w0 = { w with misc := fun _ => none } := by
    refine ⟨_, by rw [List.getElem?_map, hi]; rfl, ?_⟩
    show (if w.id = o.id then { w with misc := fun _ => none } else w) = _
    by_cases hid : w.id = o.id
    · rw [if_pos hid]
    · rw [if_neg hid]
      by_cases hj : i = a.main
      · rw [if_pos hj] at hmain; exact absurd hmain.1 hid
      · rw [if_neg hj] at hmain
        have := hmain.2.2.2.2.2.2
        cases w
        simp only at this
        rw [this]
  obtain ⟨w0, i0, e0⟩ := hm
  obtain ⟨w1, i1, e1⟩ := fillIf_step h1 i0
  obtain ⟨w2, i2, e2⟩ := fillIf_step h2 i1
  obtain ⟨w3, i3, e3⟩ := fillIf_step h3 i2
  obtain ⟨w4, i4, e4⟩ := fillIf_step h4 i3
  obtain ⟨w5, i5, e5⟩ := fillIf_step h5 i4
  have f0 : w0.lemma = (if i = a.main then o.lemma else none) ∧ w0.upos = (if i = a.main then o.upos else none) ∧
      w0.xpos = (if i = a.main then o.xpos else none) ∧ w0.deprel = (if i = a.main then o.deprel else none) ∧
      w0.feats = (if i = a.main then o.feats else fun _ => none) := by
    rw [e0]
    by_cases hj : i = a.main
    · rw [if_pos hj] at hmain
      simp only [if_pos hj]
      exact ⟨hmain.2.1, hmain.2.2.1, hmain.2.2.2.1, hmain.2.2.2.2.1, hmain.2.2.2.2.2⟩
    · rw [if_neg hj] at hmain
      simp only [if_neg hj]
      exact ⟨hmain.2.1, hmain.2.2.1, hmain.2.2.2.1, hmain.2.2.2.2.1, hmain.2.2.2.2.2.1⟩
  have k1 : w1 = { w0 with lemma := w1.lemma } ∧ w1.lemma = given o.lemma a.main i a.lemma := by
    refine ⟨?_, given_fill f0.1 ?_⟩
    · cases hl : a.lemma with
      | none => rw [hl] at e1; rw [e1]
      | some vs => rw [hl] at e1; obtain ⟨x, _, e⟩ := e1; rw [e]
    · cases hl : a.lemma with
      | none => rw [hl] at e1; rw [e1]
      | some vs => rw [hl] at e1; obtain ⟨x, hx, e⟩ := e1; exact ⟨x, hx, by rw [e]⟩
  have k2 : w2 = { w1 with upos := w2.upos } ∧ w2.upos = given o.upos a.main i a.upos := by
    refine ⟨?_, given_fill (old := w1.upos) (by rw [k1.1]; exact f0.2.1) ?_⟩
    · cases hl : a.upos with
      | none => rw [hl] at e2; rw [e2]
      | some vs => rw [hl] at e2; obtain ⟨x, _, e⟩ := e2; rw [e]
    · cases hl : a.upos with
      | none => rw [hl] at e2; rw [e2]
      | some vs => rw [hl] at e2; obtain ⟨x, hx, e⟩ := e2; exact ⟨x, hx, by rw [e]⟩
  have k3 : w3 = { w2 with xpos := w3.xpos } ∧ w3.xpos = given o.xpos a.main i a.xpos := by
    refine ⟨?_, given_fill (old := w2.xpos) (by rw [k2.1, k1.1]; exact f0.2.2.1) ?_⟩
    · cases hl : a.xpos with
      | none => rw [hl] at e3; rw [e3]
      | some vs => rw [hl] at e3; obtain ⟨x, _, e⟩ := e3; rw [e]
    · cases hl : a.xpos with
      | none => rw [hl] at e3; rw [e3]
      | some vs => rw [hl] at e3; obtain ⟨x, hx, e⟩ := e3; exact ⟨x, hx, by rw [e]⟩
  have k4 : w4 = { w3 with feats := w4.feats } ∧ GivenFeats o.feats a.main i w4.feats a.feats := by
    refine ⟨?_, ?_⟩
    · cases hl : a.feats with
      | none => rw [hl] at e4; rw [e4]
      | some vs => rw [hl] at e4; obtain ⟨x, _, e⟩ := e4; rw [e]
    · cases hl : a.feats with
      | none =>
        rw [hl] at e4
        rw [e4, k3.1, k2.1, k1.1]
        exact f0.2.2.2.2
      | some vs =>
        rw [hl] at e4
        obtain ⟨x, hx, e⟩ := e4
        have ef : w4.feats = pickFeats o.feats x := by rw [e]
        rw [ef]
        refine ⟨x, hx, fun hs => by unfold pickFeats; rw [if_pos hs], fun hs k => ⟨fun hk => ?_, fun hk => ?_⟩⟩
        · unfold pickFeats
          rw [if_neg hs, if_pos (star_mem hk)]
          show (if ofStr x k = _ then _ else _) = _
          rw [if_pos hk]
        · unfold pickFeats
          rw [if_neg hs]
          split
          · show (if ofStr x k = _ then _ else _) = _
            rw [if_neg hk]
          · rfl
  have k5 : w5 = { w4 with deprel := w5.deprel } ∧ w5.deprel = given o.deprel a.main i a.deprel := by
    refine ⟨?_, given_fill (old := w4.deprel) (by rw [k4.1, k3.1, k2.1, k1.1]; exact f0.2.2.2.1) ?_⟩
    · cases hl : a.deprel with
      | none => rw [hl] at e5; rw [e5]
      | some vs => rw [hl] at e5; obtain ⟨x, _, e⟩ := e5; rw [e]
    · cases hl : a.deprel with
      | none => rw [hl] at e5; rw [e5]
      | some vs => rw [hl] at e5; obtain ⟨x, hx, e⟩ := e5; exact ⟨x, hx, by rw [e]⟩
  have k6 : ∃ m, g'[i]? = some { w5 with misc := m } ∧ GivenMisc o.misc i m a.misc := by
    cases hl : a.misc with
    | none =>
      rw [hl] at h
      cases h
      refine ⟨w5.misc, i5, ?_⟩
      show w5.misc = _
      rw [k5.1, k4.1, k3.1, k2.1, k1.1, e0]
    | some vs =>
      rw [hl] at h
      obtain ⟨m, h1, h2⟩ := (fillMisc_get h).2 i w5 i5
      exact ⟨m, h2, h1⟩
  obtain ⟨m, i6, k6⟩ := k6
  refine ⟨_, i6, ?_, ?_, ?_, ?_, ?_, ?_, ?_, ?_, k6⟩
  · rw [k5.1, k4.1, k3.1, k2.1, k1.1, e0]
  · rw [k5.1, k4.1, k3.1, k2.1, k1.1, e0]
  · rw [k5.1, k4.1, k3.1, k2.1, k1.1, e0]
  · rw [← k1.2, k5.1, k4.1, k3.1, k2.1]
  · rw [← k2.2, k5.1, k4.1, k3.1]
  · rw [← k3.2, k5.1, k4.1]
  · exact k5.2
  · have : w5.feats = w4.feats := by rw [k5.1]
    show GivenFeats _ _ _ w5.feats _
    rw [this]; exact k4.2

/-- A word that is the same except perhaps for `SpaceAfter`. -/
def Near (w w' : Wd) : Prop := ∃ m, w' = { w with misc := m } ∧ ∀ k, k ≠ sa → m k = w.misc k

theorem near_unspace (l : List Nat) (w : Wd) : Near w (unspace l w) := by
  unfold unspace
  split
  · exact ⟨_, rfl, fun k hk => put_other hk⟩
  · exact ⟨w.misc, rfl, fun _ _ => rfl⟩

/-- The group of words of an analysed node. -/
theorem group_words {c : Case} {s : Sent} {a : An} {o : Wd} {g0 g1 g2 g : List Wd} (ho : o.id < s.next)
    (h0 : build o s.next a = some g0) (h1 : recase c o g0 = some g1) (h2 : attrs o a g1 = some g2)
    (h3 : g = (if truthy (o.misc ent) then entFirst (o.misc ent) g2 else g2)) :
    ∀ (i : Nat) f, a.form[i]? = some f → ∃ w, g[i]? = some w ∧ IsWord c s o a i f w := by
  intro i f hf
  have i0 := (build_get h0).2 i f hf
  have i1 := (recase_get h1).2 i _ i0
  obtain ⟨w2, i2, e1, e2, e3, e4, e5, e6, e7, e8, e9⟩ := attrs_get h2 i1 (by
    by_cases hj : i = a.main
    · simp only [if_pos hj]
      exact ⟨trivial, trivial, trivial, trivial, trivial, trivial⟩
    · simp only [if_neg hj]
      refine ⟨?_, rfl, rfl, rfl, rfl, rfl, rfl⟩
      show s.next + _ ≠ o.id
      omega)
  have i3 : g[i]? = some { w2 with misc := if i = 0 ∧ truthy (o.misc ent) then put w2.misc ent (o.misc ent) else w2.misc } := by
    rw [h3]
    by_cases ht : truthy (o.misc ent) = true
    · rw [if_pos ht]
      cases g2 with
      | nil => simp at i2
      | cons x g2 =>
        cases i with
        | zero =>
          cases i2
          rw [if_pos ⟨rfl, ht⟩]
          rfl
        | succ i =>
          rw [if_neg (fun hh => absurd hh.1 (Nat.succ_ne_zero i))]
          exact i2
    · rw [if_neg ht, if_neg (fun hh => ht hh.2)]
      exact i2
  have hfm : w2.form = caseOf c o.form i f := by
    rw [e3]
    by_cases hj : i = a.main
    · simp only [if_pos hj]
    · simp only [if_neg hj]; rfl
  refine ⟨_, i3, ?_, ?_, hfm, e4, e5, e6, e7, e8, w2.misc, e9, rfl⟩
  · intro hj
    exact ⟨by show w2.id = _; rw [e1]; simp only [if_pos hj], by show w2.parent = _; rw [e2]; simp only [if_pos hj]⟩
  · intro hj
    refine ⟨?_, ?_⟩
    · show s.next ≤ w2.id
      rw [e1]; simp only [if_neg hj]
      exact Nat.le_add_right _ _
    · show w2.parent = _
      rw [e2]; simp only [if_neg hj]; rfl

/-- C128: for every tree, every node and every analysis: if no exception is raised, the words of the analysis stand in the place of
the node, in the order of the analysis, each with the values documented for it. All other words are the same, except that
words of a multi-word token lose `SpaceAfter`. One token is new; it has exactly these words, or it replaces the token of the node
and has these words in the place of the node. -/
theorem C128_words {c : Case} {s s' : Sent} {v : Nat} {a : An} (hw : Wf s) (h : splitNode c s v a = some s') :
    ∃ pre o post g, s.ws = pre ++ o :: post ∧ o.id = v ∧ g.length = a.form.length ∧
      (∀ (i : Nat) f, a.form[i]? = some f → ∃ w, g[i]? = some w ∧ IsWord c s o a i f w) ∧
      s'.ws.length = (pre ++ g ++ post).length ∧
      (∀ (i : Nat) w, (pre ++ g ++ post)[i]? = some w → ∃ w', s'.ws[i]? = some w' ∧ Near w w') ∧
      ((∀ t ∈ s.mwts, v ∉ t.words) → ∃ t, s'.mwts = s.mwts ++ [t] ∧ t.words = g.map (·.id) ∧ t.form = o.form) ∧
      (∀ t A B, t ∈ s.mwts → (∀ t' ∈ s.mwts, v ∈ t'.words → t' = t) → t.words = A ++ v :: B → v ∉ A →
        ∃ t', s'.mwts = s.mwts.filter (fun t => v ∉ t.words) ++ [t'] ∧ t'.words = A ++ g.map (·.id) ++ B ∧ t'.form = t.form) := by
  obtain ⟨pre, o, post, g0, g1, g2, g, misc, e, hv, h0, h1, h2, h3, hm, hn, h⟩ := splitNode_spec h
  have ho : o.id < s.next := hw.fresh o (by rw [e]; simp)
  have hk : g.map key = g0.map key := by
    have hk : g.map key = g2.map key := by
      rw [h3]; split
      · exact entFirst_key _ _
      · rfl
    rw [hk, attrs_key h2, recase_key h1]
  have hl : g.length = a.form.length := by
    have := congrArg List.length hk
    simp only [List.length_map] at this
    rw [this, (build_get h0).1]
  have hws : ∃ l, s'.ws = (pre ++ g ++ post).map (unspace l) := by
    cases hmw : mwtOf s.mwts v with
    | none => rw [hmw] at h; exact ⟨_, congrArg Prod.fst h⟩
    | some t => rw [hmw] at h; exact ⟨_, congrArg Prod.fst h⟩
  obtain ⟨l, hws⟩ := hws
  refine ⟨pre, o, post, g, e, hv, hl, group_words ho h0 h1 h2 h3, by rw [hws, List.length_map], ?_, ?_, ?_⟩
  · intro i w hi
    exact ⟨unspace l w, by rw [hws, List.getElem?_map, hi]; rfl, near_unspace l w⟩
  · intro hno
    have hmw : mwtOf s.mwts v = none := List.find?_eq_none.2 (fun t ht => by simpa using hno t ht)
    rw [hmw] at h
    exact ⟨_, congrArg Prod.snd h, rfl, rfl⟩
  · intro t A B ht hu hAB hA
    have hvt : v ∈ t.words := by rw [hAB]; simp
    have hmw : mwtOf s.mwts v = some t := by
      cases hmw : mwtOf s.mwts v with
      | none => exact absurd hvt (mwtOf_none hmw t ht)
      | some t' =>
        have := mwtOf_some hmw
        rw [hu t' this.1 this.2]
    rw [hmw] at h
    refine ⟨_, congrArg Prod.snd h, ?_, rfl⟩
    show subst v _ t.words = _
    rw [hAB, subst_mem hA]

theorem same_word {ws pre post : List Wd} {o o' : Wd} (hn : (ws.map (·.id)).Nodup) (e : ws = pre ++ o' :: post) (ho : o ∈ ws)
    (hid : o.id = o'.id) : o' = o := by
  rw [e] at ho
  rw [e, List.map_append, List.map_cons, List.nodup_append, List.nodup_cons] at hn
  simp only [List.mem_append, List.mem_cons] at ho
  rcases ho with ho | ho | ho
  · exact absurd hid (hn.2.2 o.id (List.mem_map.2 ⟨o, ho, rfl⟩) o'.id (List.mem_cons_self ..))
  · exact ho.symm
  · exact absurd (List.mem_map.2 ⟨o, ho, hid⟩) hn.2.1.1

/-- C128 is violated by every tree, node and analysis in which MISC of a word is `*`: "No MISC attribute should be duplicated on the
word level and token level, so if copying MISC to a new_node, delete mwt_misc" (addmwt.py:55-56), but the code clears
`orig_attr['misc']` instead of `mwt_misc`: every attribute of the node is then at the word and at the token. -/
theorem C128_misc_violated {c : Case} {s s' : Sent} {v : Nat} {a : An} {vs : List Str} {i : Nat} {o : Wd} {k : Str} {x : Val} (hw : Wf s)
    (h : splitNode c s v a = some s') (ha : a.misc = some vs) (hi : i < a.form.length) (hv : vs[i]? = some ['*'])
    (hfirst : ∀ j, j < i → vs[j]? ≠ some ['*']) (ho : o ∈ s.ws) (hid : o.id = v) (hno : ∀ t ∈ s.mwts, v ∉ t.words)
    (hk : k ∉ spaces) (hke : k ≠ ent) (hx : o.misc k = some x) :
    ∃ t ∈ s'.mwts, t.misc k = some x ∧ ∃ w ∈ s'.ws, w.id ∈ t.words ∧ w.misc k = some x := by
  obtain ⟨pre, o', post, g0, g1, g2, g, misc, e, hv', h0, h1, h2, h3, hm, hn, h⟩ := splitNode_spec h
  have hoo := same_word hw.nodup e ho (hid.trans hv'.symm)
  subst hoo
  have hlt : o'.id < s.next := hw.fresh o' (by rw [e]; simp)
  obtain ⟨w, hg, hword⟩ := group_words (c := c) hlt h0 h1 h2 h3 i a.form[i] (List.getElem?_eq_getElem hi)
  have hwg : w ∈ g := List.mem_of_getElem? hg
  have hwk : w.misc k = some x := by
    obtain ⟨m, hm1, hm2⟩ := hword.misc
    rw [ha] at hm1
    obtain ⟨y, hy, _, hy2⟩ := hm1
    rw [hv] at hy
    have := hy2 (Option.some.inj hy).symm hfirst k
    rw [if_neg (fun hh => hk hh.1), hx] at this
    rw [hm2]
    split
    · rw [put_other hke]; exact this
    · exact this
  have hks : k ≠ sa := fun hh => hk (by rw [hh]; decide)
  have hmw : mwtOf s.mwts v = none := List.find?_eq_none.2 (fun t ht => by simpa using hno t ht)
  rw [hmw] at h
  have e1 : s'.ws = (pre ++ g ++ post).map (unspace (g.map (·.id))) := congrArg Prod.fst h
  have e2 := congrArg Prod.snd h
  simp only [create] at e2
  refine ⟨_, by rw [e2]; exact List.mem_append_right _ (List.mem_singleton.2 rfl), ?_, unspace (g.map (·.id)) w, ?_, ?_, ?_⟩
  · have : misc k = some x := by
      rw [hm]; split
      · rw [put_other hke]; exact hx
      · exact hx
    show (if _ then _ else misc) k = _
    split
    · rw [put_other hks]; exact this
    · exact this
  · rw [e1]
    exact List.mem_map.2 ⟨w, by simp [hwg], rfl⟩
  · rw [unspace_id]
    exact List.mem_map.2 ⟨w, hwg, rfl⟩
  · obtain ⟨m, em, hm'⟩ := near_unspace (g.map (·.id)) w
    rw [em]
    show m k = _
    rw [hm' k hks]; exact hwk

/-- The attribute has a value for each of `n` words. -/
def Enough (n : Nat) (o : Option (List Str)) : Prop := ∀ vs, o = some vs → n ≤ vs.length

theorem fill_ex {f : Wd → Str → Wd} : ∀ {g : List Wd} {vs : List Str}, (∃ g', fill f g vs = some g') ↔ g.length ≤ vs.length
  | [], vs => ⟨fun _ => Nat.zero_le _, fun _ => ⟨[], rfl⟩⟩
  | _ :: _, [] => ⟨fun ⟨_, h⟩ => (by cases h), fun h => absurd h (by simp)⟩
  | w :: ws, v :: vs => by
    have ih := fill_ex (f := f) (g := ws) (vs := vs)
    simp only [List.length_cons, Nat.add_le_add_iff_right, ← ih]
    constructor
    · rintro ⟨g', h⟩
      unfold fill at h
      cases hr : fill f ws vs with
      | none => rw [hr] at h; cases h
      | some r => exact ⟨r, rfl⟩
    · rintro ⟨g', h⟩
      exact ⟨_, by unfold fill; rw [h]; rfl⟩

theorem fillMisc_ex : ∀ {om : Map} {g : List Wd} {vs : List Str}, (∃ g', fillMisc om g vs = some g') ↔ g.length ≤ vs.length
  | _, [], vs => ⟨fun _ => Nat.zero_le _, fun _ => ⟨[], by unfold fillMisc; rfl⟩⟩
  | _, _ :: _, [] => ⟨fun ⟨_, h⟩ => (by unfold fillMisc at h; cases h), fun h => absurd h (by simp)⟩
  | om, w :: ws, v :: vs => by
    simp only [List.length_cons, Nat.add_le_add_iff_right]
    unfold fillMisc
    split
    · rw [← fillMisc_ex (om := fun k => if k ∈ spaces ∧ truthy (om k) then om k else none) (g := ws) (vs := vs)]
      constructor
      · rintro ⟨g', h⟩
        cases hr : fillMisc (fun k => if k ∈ spaces ∧ truthy (om k) then om k else none) ws vs with
        | none => rw [hr] at h; cases h
        | some r => exact ⟨r, rfl⟩
      · rintro ⟨g', h⟩
        exact ⟨_, by rw [h]; rfl⟩
    · rw [← fillMisc_ex (om := om) (g := ws) (vs := vs)]
      constructor
      · rintro ⟨g', h⟩
        cases hr : fillMisc om ws vs with
        | none => rw [hr] at h; cases h
        | some r => exact ⟨r, rfl⟩
      · rintro ⟨g', h⟩
        exact ⟨_, by rw [h]; rfl⟩

theorem fillIf_ex {f : Wd → Str → Wd} {g : List Wd} {o : Option (List Str)} : (∃ g', fillIf f g o = some g') ↔ Enough g.length o := by
  cases o with
  | none => exact ⟨fun _ vs h => (by cases h), fun _ => ⟨g, rfl⟩⟩
  | some vs =>
    show (∃ g', fill f g vs = some g') ↔ _
    rw [fill_ex]
    exact ⟨fun h vs' e => (by cases e; exact h), fun h => h vs rfl⟩

theorem attrs_ex {o : Wd} {a : An} {g : List Wd} : (∃ g', attrs o a g = some g') ↔
    Enough g.length a.lemma ∧ Enough g.length a.upos ∧ Enough g.length a.xpos ∧ Enough g.length a.feats ∧ Enough g.length a.deprel ∧
      Enough g.length a.misc := by
  have hlast : ∀ g5 : List Wd, (∃ g', (match a.misc with | none => some g5 | some vs => fillMisc o.misc g5 vs) = some g') ↔
      Enough g5.length a.misc := by
    intro g5
    cases a.misc with
    | none => exact ⟨fun _ vs h => (by cases h), fun _ => ⟨g5, rfl⟩⟩
    | some vs =>
      show (∃ g', fillMisc o.misc g5 vs = some g') ↔ _
      rw [fillMisc_ex]
      exact ⟨fun h vs' e => (by cases e; exact h), fun h => h vs rfl⟩
  unfold attrs
  simp only [Option.bind_eq_some_iff]
  constructor
  · rintro ⟨g', g1, h1, g2, h2, g3, h3, g4, h4, g5, h5, h⟩
    have l1 := (fillIf_get h1).1
    rw [List.length_map] at l1
    have l2 := (fillIf_get h2).1.trans l1
    have l3 := (fillIf_get h3).1.trans l2
    have l4 := (fillIf_get h4).1.trans l3
    have l5 := (fillIf_get h5).1.trans l4
    have k1 := fillIf_ex.1 ⟨_, h1⟩
    have k2 := fillIf_ex.1 ⟨_, h2⟩
    have k3 := fillIf_ex.1 ⟨_, h3⟩
    have k4 := fillIf_ex.1 ⟨_, h4⟩
    have k5 := fillIf_ex.1 ⟨_, h5⟩
    have k6 := (hlast g5).1 ⟨_, h⟩
    rw [List.length_map] at k1
    rw [l1] at k2
    rw [l2] at k3
    rw [l3] at k4
    rw [l4] at k5
    rw [l5] at k6
    exact ⟨k1, k2, k3, k4, k5, k6⟩
  · rintro ⟨k1, k2, k3, k4, k5, k6⟩
    obtain ⟨g1, h1⟩ := fillIf_ex (f := fun w v => { w with lemma := pick o.lemma v })
      (g := g.map (fun w => if w.id = o.id then { w with misc := fun _ => none } else w)) (o := a.lemma) |>.2
      (by rw [List.length_map]; exact k1)
    have l1 := (fillIf_get h1).1
    rw [List.length_map] at l1
    obtain ⟨g2, h2⟩ := fillIf_ex (f := fun w v => { w with upos := pick o.upos v }) (g := g1) (o := a.upos) |>.2 (by rw [l1]; exact k2)
    have l2 := (fillIf_get h2).1.trans l1
    obtain ⟨g3, h3⟩ := fillIf_ex (f := fun w v => { w with xpos := pick o.xpos v }) (g := g2) (o := a.xpos) |>.2 (by rw [l2]; exact k3)
    have l3 := (fillIf_get h3).1.trans l2
    obtain ⟨g4, h4⟩ := fillIf_ex (f := fun w v => { w with feats := pickFeats o.feats v }) (g := g3) (o := a.feats) |>.2 (by rw [l3]; exact k4)
    have l4 := (fillIf_get h4).1.trans l3
    obtain ⟨g5, h5⟩ := fillIf_ex (f := fun w v => { w with deprel := pick o.deprel v }) (g := g4) (o := a.deprel) |>.2 (by rw [l4]; exact k5)
    have l5 := (fillIf_get h5).1.trans l4
    obtain ⟨g6, h6⟩ := (hlast g5).2 (by rw [l5]; exact k6)
    exact ⟨g6, g1, h1, g2, h2, g3, h3, g4, h4, g5, h5, h6⟩

theorem locate_ex {v : Nat} : ∀ {ws : List Wd}, (∃ w ∈ ws, w.id = v) → ∃ r, locate v ws = some r
  | [], ⟨_, h, _⟩ => by cases h
  | w :: ws, ⟨o, ho, e⟩ => by
    unfold locate
    by_cases hw : w.id = v
    · exact ⟨_, by rw [if_pos hw]⟩
    · rw [if_neg hw]
      cases ho with
      | head => exact absurd e hw
      | tail _ ho =>
        obtain ⟨r, hr⟩ := locate_ex ⟨o, ho, e⟩
        exact ⟨_, by rw [hr]; rfl⟩

theorem recase_ex {c : Case} {o : Wd} {g : List Wd} (hu : c.isUpper [] = false) : (∃ g', recase c o g = some g') ↔ o.form ≠ [] := by
  unfold recase
  split
  · rename_i h
    exact ⟨fun _ e => (by rw [e, hu] at h; cases h), fun _ => ⟨_, rfl⟩⟩
  · split
    · rename_i h; exact ⟨fun ⟨_, h⟩ => (by cases h), fun hh => absurd h hh⟩
    · rename_i h; exact ⟨fun _ e => (by rw [e] at h; cases h), fun _ => ⟨_, rfl⟩⟩

theorem splitNode_ex {c : Case} {s : Sent} {v : Nat} {a : An} {o : Wd} (ho : o ∈ s.ws) (hn : (s.ws.map (·.id)).Nodup) (hid : o.id = v)
    (hu : c.isUpper [] = false) :
    (∃ s', splitNode c s v a = some s') ↔ a.main < a.form.length ∧ o.form ≠ [] ∧ Enough a.form.length a.lemma ∧
      Enough a.form.length a.upos ∧ Enough a.form.length a.xpos ∧ Enough a.form.length a.feats ∧ Enough a.form.length a.deprel ∧
      Enough a.form.length a.misc := by
  constructor
  · rintro ⟨s', h⟩
    obtain ⟨pre, o', post, g0, g1, g2, g, misc, e, hv', h0, h1, h2, _⟩ := splitNode_spec h
    have := same_word hn e ho (hid.trans hv'.symm)
    subst this
    have k := attrs_ex.1 ⟨_, h2⟩
    rw [(recase_get h1).1, (build_get h0).1] at k
    exact ⟨(build_ids h0).2, (recase_ex hu).1 ⟨_, h1⟩, k⟩
  · rintro ⟨h1, h2, h3⟩
    obtain ⟨⟨pre, o', post⟩, hr⟩ := locate_ex ⟨o, ho, hid⟩
    obtain ⟨e, hv'⟩ := locate_spec hr
    have := same_word hn e ho (hid.trans hv'.symm)
    subst this
    have h0 : ∃ g0, build o' s.next a = some g0 := by
      unfold build
      simp only
      rw [List.getElem?_eq_getElem h1]
      exact ⟨_, rfl⟩
    obtain ⟨g0, h0⟩ := h0
    obtain ⟨g1, h1'⟩ := (recase_ex (c := c) (g := g0) hu).2 h2
    obtain ⟨g2, h2'⟩ := (attrs_ex (o := o') (a := a) (g := g1)).2 (by rw [(recase_get h1').1, (build_get h0).1]; exact h3)
    unfold splitNode
    rw [hr]
    simp only [Option.bind_some, h0, h1', h2']
    exact ⟨_, rfl⟩

/-- C128: for a node in a tree, an exception is raised exactly if `main` is not the number of a word, or the form of the node is
empty, or the analysis has fewer values of an attribute than words. -/
theorem C128_errors {c : Case} {s : Sent} {v : Nat} {a : An} {o : Wd} (ho : o ∈ s.ws) (hn : (s.ws.map (·.id)).Nodup) (hid : o.id = v)
    (hu : c.isUpper [] = false) :
    splitNode c s v a = none ↔ a.form.length ≤ a.main ∨ o.form = [] ∨
      ∃ vs, (a.lemma = some vs ∨ a.upos = some vs ∨ a.xpos = some vs ∨ a.feats = some vs ∨ a.deprel = some vs ∨ a.misc = some vs) ∧
        vs.length < a.form.length := by
  have key : splitNode c s v a = none ↔ ¬ ∃ s', splitNode c s v a = some s' := by
    cases splitNode c s v a with
    | none => exact ⟨fun _ ⟨_, h⟩ => (by cases h), fun _ => rfl⟩
    | some x => exact ⟨fun h => (by cases h), fun h => absurd ⟨x, rfl⟩ h⟩
  rw [key, splitNode_ex ho hn hid hu]
  constructor
  · intro h
    refine Classical.byContradiction fun hc => h ⟨?_, ?_, ?_, ?_, ?_, ?_, ?_, ?_⟩
    · exact Nat.lt_of_not_le fun hh => hc (.inl hh)
    · exact fun hh => hc (.inr (.inl hh))
    all_goals
      intro vs hvs
      refine Nat.le_of_not_lt fun hh => hc (.inr (.inr ⟨vs, ?_, hh⟩))
      simp only [hvs, true_or, or_true]
  · rintro (h | h | ⟨vs, h, hl⟩) ⟨h1, h2, k1, k2, k3, k4, k5, k6⟩
    · omega
    · exact h2 h
    · have : a.form.length ≤ vs.length := by
        rcases h with h | h | h | h | h | h
        · exact k1 vs h
        · exact k2 vs h
        · exact k3 vs h
        · exact k4 vs h
        · exact k5 vs h
        · exact k6 vs h
      omega

/-! ## Examples -/

section Examples

/-- Upper case of the letters a-z. -/
def exCase : Case where
  isUpper := fun s => s.any Char.isUpper && !s.any Char.isLower
  upper := fun s => s.map Char.toUpper
  title := fun s => match s with | [] => [] | c :: s => c.toUpper :: s.map Char.toLower

/-- `Im Haus!` with `SpaceAfter=No` and two more attributes -/
def exSent : Sent where
  ws := [{ id := 1, parent := 2, form := ['I', 'm'], upos := some ['A', 'D', 'P'], deprel := some ['c', 'a', 's', 'e'],
            feats := ofStr ['G', '=', 'M'], misc := ofStr ['X', '=', '1'] },
         { id := 2, parent := 0, form := ['H', 'a', 'u', 's'], misc := fun k => if k = sa then some (.str ['N', 'o']) else none },
         { id := 3, parent := 2, form := ['!'] }]
  mwts := []
  next := 4

/-- `im` is `in dem`, as in ud.de.AddMwt -/
def exAn : An where
  form := [['i', 'n'], ['d', 'e', 'm']]
  upos := some [['A', 'D', 'P'], ['D', 'E', 'T']]
  feats := some [['_'], ['*']]
  deprel := some [['*'], ['d', 'e', 't']]

def exF (_ : Sent) (v : Nat) : Option An := if v = 1 then some exAn else none

theorem exTiles : Tiles exSent.mwts exSent.ws [(['I', 'm'], false), (['H', 'a', 'u', 's'], true), (['!'], false)] :=
  .word (fun _ h => (by cases h)) (.word (fun _ h => (by cases h)) (.word (fun _ h => (by cases h)) .nil))

theorem exWf : Wf exSent where
  nodup := by decide
  fresh := by
    intro w hw
    simp only [exSent, List.mem_cons, List.not_mem_nil, or_false] at hw ⊢
    rcases hw with rfl | rfl | rfl <;> decide
  words := fun t ht => (by cases ht)

example : Spaced exF := by
  intro s v a h
  unfold exF at h
  split at h
  · cases h; intro vs hv; cases hv
  · cases h

example : (run exCase exF exSent).map (fun s => (s.ws.map (fun w => (w.id, w.parent, w.form)), s.mwts.map (fun t => (t.words, t.form)))) =
    some ([(1, 2, ['I', 'n']), (4, 2, ['d', 'e', 'm']), (2, 0, ['H', 'a', 'u', 's']), (3, 2, ['!'])], [([1, 4], ['I', 'm'])]) := by
  decide +kernel

example : (run exCase exF exSent).map (fun s => computeText true s.toTree) = some ['I', 'm', ' ', 'H', 'a', 'u', 's', '!'] := by
  decide +kernel

example : (run exCase exF exSent).map (fun s => s.ws.map (fun w => (w.upos, w.deprel))) =
    some [(some ['A', 'D', 'P'], some ['c', 'a', 's', 'e']), (some ['D', 'E', 'T'], some ['d', 'e', 't']), (none, none), (none, none)] := by
  decide +kernel

example : (run exCase exF exSent).map (fun s => s.ws.map (fun w => (w.feats ['G'], w.misc ['X']))) =
    some [(none, none), (some (.str ['M']), none), (none, none), (none, none)] := by
  decide +kernel

/-- A second token for a part of the first one: the words 1 and 4 are in one token, word 4 is split again. -/
example : ((run exCase exF exSent).bind (fun s => splitNode exCase s 4 { form := [['d'], ['e', 'm']], main := 1, subtree := true })).map
    (fun s => (s.ws.map (fun w => (w.id, w.parent, w.form)), s.mwts.map (fun t => (t.words, t.form)))) =
    some ([(1, 2, ['I', 'n']), (5, 4, ['d']), (4, 2, ['e', 'm']), (2, 0, ['H', 'a', 'u', 's']), (3, 2, ['!'])], [([1, 5, 4], ['I', 'm'])]) := by
  decide +kernel

/-- MISC `*`: the attribute `X` is at the word and at the token. -/
example : (splitNode exCase exSent 1 { exAn with misc := some [['*'], ['_']] }).map
    (fun s => (s.ws.map (fun w => w.misc ['X']), s.mwts.map (fun t => t.misc ['X']))) =
    some ([some (.str ['1']), none, none, none], [some (.str ['1'])]) := by
  decide +kernel

/-- Too few values. -/
example : (splitNode exCase exSent 1 { exAn with deprel := some [['*']] }).isNone = true := by decide +kernel

end Examples

end Verif.Text.AddMwt
