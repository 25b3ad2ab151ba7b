import Verif.Conllu.RoundTrip

/-!
# `SpaceAfter=No` when multi-word tokens are created and removed
-/

namespace Verif.Conllu
open Verif.Py
open Verif.Tree (upd)

/-- Is the word written without a space after it? For a word of a multi-word token the token decides. -/
def glued (t : Tree) (x : Nat) : Bool :=
  match t.mwt.mwtOf x with
  | some m => noSpaceAfter (t.mwtMisc m)
  | none => noSpaceAfter (t.attrs x).misc

theorem noSpace_deleted {m : Option DualDict.State} (h : SlotOk m) : noSpaceAfter (setSpaceAfter m []) = false :=
  noSpace_of_none (by rw [dictGet_delete h, if_pos rfl])

theorem noSpace_set (m : Option DualDict.State) : noSpaceAfter (setSpaceAfter m "No".toList) = true := by
  have h1 : dictGet (setSpaceAfter m "No".toList) spaceAfter = some (.str "No".toList) := by
    show DualDict.lookup (DualDict.abs DualDict.dd (DualDict.setItem DualDict.dd _ _ _).1) spaceAfter = _
    rw [DualDict.abs_setItem]
    have : DualDict.Spec.deletes (some (.str "No".toList)) = false := by decide
    rw [this]
    show DualDict.lookup (DualDict.insert _ spaceAfter (.str "No".toList)) spaceAfter = _
    rw [DualDict.lookup_insert, if_pos rfl]
  unfold noSpaceAfter DualDict.read
  unfold dictGet at h1
  rw [h1]
  decide

/-- What `create_multiword_token` does to the slots. -/
theorem createMwt_fields {t t' : Tree} {ws : List Nat} {form : Option Str} {misc : Str} (hi : Mwt.Inv t.mwt)
    (h : createMwt t ws form misc = .ok t') :
    ws ≠ [] ∧ t'.mwt = (Mwt.create t.mwt ws).1 ∧ t'.mwtForm t.mwt.next = form ∧
    t'.mwtMisc t.mwt.next = (if noSpaceAfter ((ws.getLast?.map (fun x => (t.attrs x).misc)).getD none) then
      setSpaceAfter (mkDict misc) "No".toList else mkDict misc) ∧
    (∀ x ∈ ws, t'.attrs x = { t.attrs x with misc := setSpaceAfter (t.attrs x).misc [] }) ∧
    (∀ x, x ∉ ws → t'.attrs x = t.attrs x) ∧ ∀ m, m ≠ t.mwt.next → t'.mwtMisc m = t.mwtMisc m := by
  have hne : ws ≠ [] := by
    rintro rfl
    simp [createMwt, Mwt.create, Mwt.removeOld] at h
  have c1 := (Mwt.create_spec hi ws hne).1
  unfold createMwt at h
  cases hc : Mwt.create t.mwt ws with
  | mk s e =>
    rw [hc] at c1 h
    simp only at c1
    subst c1
    have e := Except.ok.inj h
    subst e
    refine ⟨hne, rfl, by show upd _ _ _ _ = _; simp [upd], by show upd _ _ _ _ = _; simp [upd], ?_, ?_, ?_⟩
    · intro x hx; show (if x ∈ ws then _ else _) = _; rw [if_pos hx]
    · intro x hx; show (if x ∈ ws then _ else _) = _; rw [if_neg hx]
    · intro m hm; show upd _ _ _ _ = _; simp [upd, hm]

theorem create_mwtOf {s : Mwt.St} (h : Mwt.Inv s) {ws : List Nat} {x : Nat} (hx : x ∈ ws) :
    (Mwt.create s ws).1.mwtOf x = some s.next := by
  obtain ⟨s', h1, _, _, h4, _⟩ := Mwt.removeOld_spec ws h
  unfold Mwt.create
  rw [h1]
  show Mwt.setMwt s'.mwtOf (some s'.next) ws x = _
  rw [Mwt.setMwt_eq, if_pos hx, h4]

/-- C70 (partial): creating a multi-word token of words that belong to no token keeps the space (or no space) after its
last word; an explicit `SpaceAfter=No` in the MISC of the token is kept as well. No word inside the token has
`SpaceAfter`, and the words outside keep theirs. Missing: words that belonged to another token
(`C70_replaced_violated`), and removing tokens (`C70_removed_violated`), where the space is not kept. -/
theorem C70_created_partial {t t' : Tree} {ws : List Nat} {form : Option Str} {misc : Str} (hi : Mwt.Inv t.mwt)
    (hs : ∀ x, SlotOk (t.attrs x).misc) (hfree : ∀ x ∈ ws, t.mwt.mwtOf x = none)
    (h : createMwt t ws form misc = .ok t') (last : Nat) (hl : ws.getLast? = some last) :
    glued t' last = (glued t last || noSpaceAfter (mkDict misc)) ∧
    (∀ x ∈ ws, noSpaceAfter (t'.attrs x).misc = false) ∧
    (∀ x, x ∉ ws → (t'.attrs x).misc = (t.attrs x).misc) := by
  obtain ⟨_, h1, _, h2, h3, h4, _⟩ := createMwt_fields hi h
  have hlm : last ∈ ws := List.mem_of_getLast? hl
  refine ⟨?_, ?_, ?_⟩
  · unfold glued
    rw [h1, create_mwtOf hi hlm, hfree last hlm]
    show noSpaceAfter (t'.mwtMisc t.mwt.next) = _
    rw [h2, hl]
    show noSpaceAfter (if noSpaceAfter (t.attrs last).misc = true then _ else _) = _
    by_cases hn : noSpaceAfter (t.attrs last).misc = true
    · rw [if_pos hn, noSpace_set, hn]; rfl
    · rw [if_neg hn]; simp [hn]
  · intro x hx
    rw [h3 x hx]
    exact noSpace_deleted (hs x)
  · intro x hx
    rw [h4 x hx]

/-- C70 is violated for every tree: after a token was created, creating another one from the same words forgets that no
space follows. -/
theorem C70_replaced_violated {t t' t'' : Tree} {ws : List Nat} {f f' : Option Str} {misc : Str} (hi : Mwt.Inv t.mwt)
    (hs : ∀ x, SlotOk (t.attrs x).misc) (h : createMwt t ws f misc = .ok t')
    (h' : createMwt t' ws f' ['_'] = .ok t'') (last : Nat) (hl : ws.getLast? = some last) :
    glued t'' last = false := by
  obtain ⟨hne, h1, _, _, h3, _⟩ := createMwt_fields hi h
  have hi' : Mwt.Inv t'.mwt := by rw [h1]; exact (Mwt.create_spec hi ws hne).2.1
  obtain ⟨_, k1, _, k2, _⟩ := createMwt_fields hi' h'
  have hlm : last ∈ ws := List.mem_of_getLast? hl
  unfold glued
  rw [k1, create_mwtOf hi' hlm]
  show noSpaceAfter (t''.mwtMisc t'.mwt.next) = _
  rw [k2, hl]
  show noSpaceAfter (if noSpaceAfter (t'.attrs last).misc = true then _ else _) = _
  have : noSpaceAfter (t'.attrs last).misc = false := by rw [h3 last hlm]; exact noSpace_deleted (hs last)
  rw [this]
  decide

/-- C70 is violated for every tree: after a token was created and removed again (`MWT.remove`), a space follows its
last word, whatever was there before. -/
theorem C70_removed_violated {t t' : Tree} {ws : List Nat} {f : Option Str} {misc : Str} (hi : Mwt.Inv t.mwt)
    (hs : ∀ x, SlotOk (t.attrs x).misc) (h : createMwt t ws f misc = .ok t') (last : Nat) (hl : ws.getLast? = some last) :
    glued { t' with mwt := (Mwt.removeMwt t'.mwt t.mwt.next).1 } last = false := by
  obtain ⟨hne, h1, _, _, h3, _⟩ := createMwt_fields hi h
  have hlm : last ∈ ws := List.mem_of_getLast? hl
  have hw : t'.mwt.words t.mwt.next = ws := by rw [h1]; exact (Mwt.create_spec hi ws hne).2.2.2.1
  have hm : (Mwt.removeMwt t'.mwt t.mwt.next).1.mwtOf last = none := by
    unfold Mwt.removeMwt
    simp only
    have : Mwt.setMwt t'.mwt.mwtOf none (t'.mwt.words t.mwt.next) last = none := by
      rw [Mwt.setMwt_eq, hw, if_pos hlm]
    split <;> exact this
  unfold glued
  show (match (Mwt.removeMwt t'.mwt t.mwt.next).1.mwtOf last with
    | some m => _
    | none => noSpaceAfter (t'.attrs last).misc) = false
  rw [hm]
  show noSpaceAfter (t'.attrs last).misc = false
  rw [h3 last hlm]
  exact noSpace_deleted (hs last)

/-- Two words, the second without a space after it. -/
def gluedDemo : Tree where
  heap := startHeap [1, 2]
  attrs := fun x => ⟨none, none, none, none, none, none, none, mkDict (if x = 2 then "SpaceAfter=No".toList else ['_'])⟩
  empties := []
  mwt := Mwt.St.init
  mwtForm := fun _ => none
  mwtMisc := fun _ => none

def okGlued (r : Except Err Tree) (x : Nat) : Option Bool :=
  match r with
  | .ok t => some (glued t x)
  | .error _ => none

example : glued gluedDemo 2 = true ∧ okGlued (createMwt gluedDemo [1, 2] (some ['a']) ['_']) 2 = some true := by decide

/-- Created and removed again: the space is back although it was not there at first. -/
example : (match createMwt gluedDemo [1, 2] (some ['a']) ['_'] with
    | .ok t => some (glued { t with mwt := (Mwt.removeMwt t.mwt 0).1 } 2)
    | .error _ => none) = some false := by decide

example : Mwt.Inv gluedDemo.mwt := by
  show Mwt.Inv Mwt.St.init
  exact ⟨by simp [Mwt.St.init], by simp [Mwt.St.init], by simp [Mwt.St.init]⟩

end Verif.Conllu
