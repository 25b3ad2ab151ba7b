import Verif.Text.AddMwt

/-!
# Properties C127 and C128: ud.AddMwt keeps the text and the other words
-/

namespace Verif.Text.AddMwt
open Verif.Py Verif.DualDict
open Verif.DualDict.Spec (Map)

theorem locate_spec {v : Nat} : ∀ {ws : List Wd} {p : List Wd} {o : Wd} {q : List Wd}, locate v ws = some (p, o, q) →
    ws = p ++ o :: q ∧ o.id = v
  | [], _, _, _, h => by cases h
  | w :: ws, p, o, q, h => by
    unfold locate at h
    by_cases hw : w.id = v
    · rw [if_pos hw] at h
      cases h
      exact ⟨rfl, hw⟩
    · rw [if_neg hw] at h
      cases hl : locate v ws with
      | none => rw [hl] at h; cases h
      | some r =>
        obtain ⟨p', o', q'⟩ := r
        rw [hl] at h
        cases h
        obtain ⟨h1, h2⟩ := locate_spec hl
        exact ⟨by rw [h1]; rfl, h2⟩

/-- The node and its parent. -/
def key (w : Wd) : Nat × Nat := (w.id, w.parent)

theorem key_titleFirst (c : Case) (g : List Wd) : (titleFirst c g).map key = g.map key := by
  cases g <;> rfl

theorem recase_key {c : Case} {o : Wd} {g g' : List Wd} (h : recase c o g = some g') : g'.map key = g.map key := by
  unfold recase at h
  split at h
  · cases h
    rw [List.map_map]
    rfl
  · split at h
    · cases h
    · cases h
      split
      · exact key_titleFirst c g
      · rfl

theorem fill_key {f : Wd → Str → Wd} (hf : ∀ w v, key (f w v) = key w) : ∀ {g : List Wd} {vs : List Str} {g' : List Wd},
    fill f g vs = some g' → g'.map key = g.map key
  | [], _, _, h => by cases h; rfl
  | _ :: _, [], _, h => by cases h
  | w :: ws, v :: vs, g', h => by
    unfold fill at h
    cases hr : fill f ws vs with
    | none => rw [hr] at h; cases h
    | some r =>
      rw [hr] at h
      cases h
      simp only [List.map_cons, hf, fill_key hf hr]

theorem fillIf_key {f : Wd → Str → Wd} {g g' : List Wd} {o : Option (List Str)}
    (h : fillIf f g o = some g') (hf : ∀ w v, key (f w v) = key w) : g'.map key = g.map key := by
  cases o with
  | none => cases h; rfl
  | some vs => exact fill_key hf h

theorem fillMisc_key : ∀ {om : Map} {g : List Wd} {vs : List Str} {g' : List Wd},
    fillMisc om g vs = some g' → g'.map key = g.map key
  | _, [], _, _, h => by unfold fillMisc at h; cases h; rfl
  | _, _ :: _, [], _, h => by unfold fillMisc at h; cases h
  | om, w :: ws, v :: vs, g', h => by
    unfold fillMisc at h
    split at h
    all_goals
      cases hr : fillMisc _ ws vs with
      | none => rw [hr] at h; cases h
      | some r =>
        rw [hr] at h
        cases h
        simp only [List.map_cons, fillMisc_key hr]
        rfl

theorem attrs_key {o : Wd} {a : An} {g g' : List Wd} (h : attrs o a g = some g') : g'.map key = g.map key := by
  unfold attrs at h
  simp only [Option.bind_eq_some_iff] at h
  obtain ⟨g1, h1, g2, h2, g3, h3, g4, h4, g5, h5, h⟩ := h
  have e1 := fillIf_key h1 (fun _ _ => rfl)
  have e2 := fillIf_key h2 (fun _ _ => rfl)
  have e3 := fillIf_key h3 (fun _ _ => rfl)
  have e4 := fillIf_key h4 (fun _ _ => rfl)
  have e5 := fillIf_key h5 (fun _ _ => rfl)
  have e6 : g'.map key = g5.map key := by
    cases hm : a.misc with
    | none => rw [hm] at h; cases h; rfl
    | some vs => rw [hm] at h; exact fillMisc_key h
  rw [e6, e5, e4, e3, e2, e1, List.map_map]
  apply List.map_congr_left
  intro w _
  show key (if _ then _ else _) = _
  split <;> rfl

theorem entFirst_key (v : Option Val) (g : List Wd) : (entFirst v g).map key = g.map key := by
  cases g <;> rfl

/-! ### `SpaceAfter` of the new words -/

/-- The analysis gives no word `SpaceAfter=No`. -/
def An.Spaced (a : An) : Prop := ∀ vs, a.misc = some vs → ∀ v ∈ vs, v ≠ ['*'] → noSpace (ofStr v) = false

def AllSp (g : List Wd) : Prop := ∀ w ∈ g, noSpace w.misc = false

theorem fill_misc {f : Wd → Str → Wd} (hf : ∀ w v, (f w v).misc = w.misc) : ∀ {g : List Wd} {vs : List Str} {g' : List Wd},
    fill f g vs = some g' → g'.map (·.misc) = g.map (·.misc)
  | [], _, _, h => by cases h; rfl
  | _ :: _, [], _, h => by cases h
  | w :: ws, v :: vs, g', h => by
    unfold fill at h
    cases hr : fill f ws vs with
    | none => rw [hr] at h; cases h
    | some r =>
      rw [hr] at h
      cases h
      simp only [List.map_cons, hf, fill_misc hf hr]

theorem fillIf_misc {f : Wd → Str → Wd} {g g' : List Wd} {o : Option (List Str)}
    (h : fillIf f g o = some g') (hf : ∀ w v, (f w v).misc = w.misc) : g'.map (·.misc) = g.map (·.misc) := by
  cases o with
  | none => cases h; rfl
  | some vs => exact fill_misc hf h

theorem allSp_of_misc {g g' : List Wd} (h : g'.map (·.misc) = g.map (·.misc)) (hs : AllSp g) : AllSp g' := by
  intro w hw
  have : w.misc ∈ g'.map (·.misc) := List.mem_map.2 ⟨w, hw, rfl⟩
  rw [h] at this
  obtain ⟨w', hw', e⟩ := List.mem_map.1 this
  rw [← e]
  exact hs w' hw'

theorem noSpace_star (om : Map) : noSpace (fun k => if k ∈ spaces ∧ truthy (om k) then none else om k) = false := by
  show ((if sa ∈ spaces ∧ truthy (om sa) = true then none else om sa) == some (Val.str ['N', 'o'])) = false
  by_cases h : truthy (om sa) = true
  · rw [if_pos ⟨by decide, h⟩]; rfl
  · rw [if_neg (fun hh => h hh.2)]
    cases ho : om sa with
    | none => rfl
    | some v =>
      rw [ho] at h
      have : v = .str [] := by simpa [truthy] using h
      rw [this]; decide

theorem fillMisc_sp : ∀ {om : Map} {g : List Wd} {vs : List Str} {g' : List Wd}, fillMisc om g vs = some g' →
    (∀ v ∈ vs, v ≠ ['*'] → noSpace (ofStr v) = false) → AllSp g'
  | _, [], _, _, h, _ => by unfold fillMisc at h; cases h; intro w hw; cases hw
  | _, _ :: _, [], _, h, _ => by unfold fillMisc at h; cases h
  | om, w :: ws, v :: vs, g', h, hv => by
    unfold fillMisc at h
    have hv' : ∀ v ∈ vs, v ≠ ['*'] → noSpace (ofStr v) = false := fun x hx => hv x (List.mem_cons_of_mem _ hx)
    split at h
    · cases hr : fillMisc (fun k => if k ∈ spaces ∧ truthy (om k) then om k else none) ws vs with
      | none => rw [hr] at h; cases h
      | some r =>
        rw [hr] at h
        cases h
        intro x hx
        cases hx with
        | head => exact noSpace_star om
        | tail _ hx => exact fillMisc_sp hr hv' x hx
    · rename_i hn
      cases hr : fillMisc om ws vs with
      | none => rw [hr] at h; cases h
      | some r =>
        rw [hr] at h
        cases h
        intro x hx
        cases hx with
        | head => exact hv v (List.mem_cons_self ..) hn
        | tail _ hx => exact fillMisc_sp hr hv' x hx

/-- The words after addmwt.py:73 have no `SpaceAfter=No`. -/
theorem attrs_sp {o : Wd} {a : An} {g g' : List Wd} (ha : a.Spaced) (hg : ∀ w ∈ g, w.id = o.id ∨ w.misc = fun _ => none)
    (h : attrs o a g = some g') : AllSp g' := by
  unfold attrs at h
  simp only [Option.bind_eq_some_iff] at h
  obtain ⟨g1, h1, g2, h2, g3, h3, g4, h4, g5, h5, h⟩ := h
  cases hm : a.misc with
  | some vs => rw [hm] at h; exact fillMisc_sp h (ha vs hm)
  | none =>
    rw [hm] at h
    cases h
    refine allSp_of_misc (fillIf_misc h5 (fun _ _ => rfl)) (allSp_of_misc (fillIf_misc h4 (fun _ _ => rfl))
      (allSp_of_misc (fillIf_misc h3 (fun _ _ => rfl)) (allSp_of_misc (fillIf_misc h2 (fun _ _ => rfl))
      (allSp_of_misc (fillIf_misc h1 (fun _ _ => rfl)) ?_))))
    intro w hw
    obtain ⟨w', hw', e⟩ := List.mem_map.1 hw
    rw [← e]
    by_cases hi : w'.id = o.id
    · rw [if_pos hi]; rfl
    · rw [if_neg hi]
      cases hg w' hw' with
      | inl h => exact absurd h hi
      | inr h => rw [h]; rfl

theorem put_other {m : Map} {k k' : Str} {v : Option Val} (h : k' ≠ k) : put m k v k' = m k' := by
  unfold put; rw [if_neg h]

theorem noSpace_put_ent (m : Map) (v : Option Val) : noSpace (put m ent v) = noSpace m := by
  unfold noSpace; rw [put_other (by decide)]

theorem noSpace_put_sa (m : Map) : noSpace (put m sa none) = false := by
  unfold noSpace put; rw [if_pos rfl]; rfl

theorem entFirst_sp {v : Option Val} {g : List Wd} (h : AllSp g) : AllSp (entFirst v g) := by
  cases g with
  | nil => exact h
  | cons w ws =>
    intro x hx
    cases hx with
    | head => show noSpace (put w.misc ent v) = false; rw [noSpace_put_ent]; exact h w (List.mem_cons_self ..)
    | tail _ hx => exact h x (List.mem_cons_of_mem _ hx)

theorem noSpace_merge {a b : Map} (h : noSpace a = false) : noSpace (merge a b) = noSpace b := by
  unfold noSpace at *
  unfold merge
  cases hb : b sa with
  | none => simp only; rw [h]; rfl
  | some v =>
    simp only
    by_cases hv : v = .str []
    · rw [if_pos hv, hv]; decide
    · rw [if_neg hv]

theorem unspace_id (l : List Nat) (w : Wd) : (unspace l w).id = w.id := by
  unfold unspace; split <;> rfl

theorem unspace_form (l : List Nat) (w : Wd) : (unspace l w).form = w.form := by
  unfold unspace; split <;> rfl

theorem unspace_other {l : List Nat} {w : Wd} (h : w.id ∉ l) : unspace l w = w := by
  unfold unspace; rw [if_neg h]

theorem map_unspace_id (l : List Nat) (ws : List Wd) : (ws.map (unspace l)).map (·.id) = ws.map (·.id) := by
  rw [List.map_map]
  exact List.map_congr_left (fun w _ => unspace_id l w)

theorem map_unspace_other {l : List Nat} {ws : List Wd} (h : ∀ w ∈ ws, w.id ∉ l) : ws.map (unspace l) = ws := by
  conv => rhs; rw [← List.map_id ws]
  exact List.map_congr_left (fun w hw => unspace_other (h w hw))

/-! ### Tiles -/

theorem Tiles.mono {m m' : List Tk} {ws : List Wd} {l : List (Str × Bool)} (h : Tiles m ws l)
    (h1 : ∀ t ∈ m, (∃ w ∈ ws, w.id ∈ t.words) → t ∈ m')
    (h2 : ∀ t ∈ m', (∃ w ∈ ws, w.id ∈ t.words) → t ∈ m) : Tiles m' ws l := by
  induction h with
  | nil => exact .nil
  | @word w ws l hw _ ih =>
    refine .word ?_ (ih (fun t ht hx => h1 t ht (hx.imp fun x hx => ⟨List.mem_cons_of_mem _ hx.1, hx.2⟩))
      (fun t ht hx => h2 t ht (hx.imp fun x hx => ⟨List.mem_cons_of_mem _ hx.1, hx.2⟩)))
    intro t ht hi
    exact hw t (h2 t ht ⟨w, List.mem_cons_self .., hi⟩) hi
  | @mwt t g ws l ht hg hne hu _ ih =>
    have hmem : ∀ x ∈ t.words, ∃ w ∈ g ++ ws, w.id = x := by
      intro x hx
      rw [← hg] at hx
      obtain ⟨w, hw, e⟩ := List.mem_map.1 hx
      exact ⟨w, List.mem_append_left _ hw, e⟩
    refine .mwt (t := t) ?_ hg hne ?_ (ih (fun t ht hx => h1 t ht (hx.imp fun x hx => ⟨List.mem_append_right _ hx.1, hx.2⟩))
      (fun t ht hx => h2 t ht (hx.imp fun x hx => ⟨List.mem_append_right _ hx.1, hx.2⟩)))
    · obtain ⟨w, hw⟩ := List.exists_mem_of_ne_nil g hne
      exact h1 t ht ⟨w, List.mem_append_left _ hw, by rw [← hg]; exact List.mem_map.2 ⟨w, hw, rfl⟩⟩
    · intro t' ht' x hx hx'
      obtain ⟨w, hw, e⟩ := hmem x hx
      exact hu t' (h2 t' ht' ⟨w, hw, by rw [e]; exact hx'⟩) x hx hx'

theorem Tiles.append {m : List Tk} {a b : List Wd} {l k : List (Str × Bool)} (h : Tiles m a l) (h' : Tiles m b k) :
    Tiles m (a ++ b) (l ++ k) := by
  induction h with
  | nil => exact h'
  | word hw _ ih => exact .word hw ih
  | mwt ht hg hne hu _ ih => rw [List.append_assoc]; exact .mwt ht hg hne hu ih

/-- The tokens before and after a word that belongs to no multi-word token. -/
theorem Tiles.at_word {m : List Tk} {ws : List Wd} {l : List (Str × Bool)} (h : Tiles m ws l) :
    ∀ {pre post : List Wd} {o : Wd}, ws = pre ++ o :: post → (∀ t ∈ m, o.id ∉ t.words) →
    ∃ l1 l2, l = l1 ++ (o.form, noSpace o.misc) :: l2 ∧ Tiles m pre l1 ∧ Tiles m post l2 := by
  induction h with
  | nil => intro pre post o e _; cases pre <;> cases e
  | @word w ws l hw hr ih =>
    intro pre post o e ho
    cases pre with
    | nil =>
      cases e
      exact ⟨[], _, rfl, .nil, hr⟩
    | cons x pre =>
      cases e
      obtain ⟨l1, l2, e, h1, h2⟩ := ih rfl ho
      exact ⟨_ :: l1, l2, by rw [e]; rfl, .word hw h1, h2⟩
  | @mwt t g ws l ht hg hne hu hr ih =>
    intro pre post o e ho
    have hog : o ∉ g := fun hg' => ho t ht (by rw [← hg]; exact List.mem_map.2 ⟨o, hg', rfl⟩)
    rcases List.append_eq_append_iff.1 e with ⟨c, h1, h2⟩ | ⟨c, h1, h2⟩
    · obtain ⟨l1, l2, e, k1, k2⟩ := ih h2 ho
      exact ⟨_ :: l1, l2, by rw [e]; rfl, by rw [h1]; exact .mwt ht hg hne hu k1, k2⟩
    · cases c with
      | nil =>
        obtain ⟨l1, l2, e', k1, k2⟩ := ih (pre := []) h2.symm ho
        rw [List.append_nil] at h1
        subst h1
        refine ⟨_ :: l1, l2, by rw [e']; rfl, ?_, k2⟩
        rw [← List.append_nil g]
        exact .mwt ht hg hne hu k1
      | cons x c =>
        cases h2
        exact absurd (by rw [h1]; exact List.mem_append_right _ (List.mem_cons_self ..)) hog

/-- The tokens before and after the multi-word token of a word. -/
theorem Tiles.at_mwt {m : List Tk} {ws : List Wd} {l : List (Str × Bool)} (h : Tiles m ws l) :
    ∀ {pre post : List Wd} {o : Wd} {t : Tk}, ws = pre ++ o :: post → t ∈ m → o.id ∈ t.words →
    ∃ p1 g1 g2 p2 l1 l2, pre = p1 ++ g1 ∧ post = g2 ++ p2 ∧ (g1 ++ o :: g2).map (·.id) = t.words ∧
      (∀ t' ∈ m, ∀ x ∈ t.words, x ∈ t'.words → t' = t) ∧
      l = l1 ++ (t.form, noSpace t.misc) :: l2 ∧ Tiles m p1 l1 ∧ Tiles m p2 l2 := by
  induction h with
  | nil => intro pre post o t e _; cases pre <;> cases e
  | @word w ws l hw hr ih =>
    intro pre post o t e ht ho
    cases pre with
    | nil =>
      cases e
      exact absurd ho (hw t ht)
    | cons x pre =>
      cases e
      obtain ⟨p1, g1, g2, p2, l1, l2, e1, e2, e3, e4, e5, k1, k2⟩ := ih rfl ht ho
      exact ⟨_ :: p1, g1, g2, p2, _ :: l1, l2, by rw [e1]; rfl, e2, e3, e4, by rw [e5]; rfl, .word hw k1, k2⟩
  | @mwt t' g ws l ht' hg hne hu hr ih =>
    intro pre post o t e ht ho
    have rest : ∀ c, pre = g ++ c → ws = c ++ o :: post →
        ∃ p1 g1 g2 p2 l1 l2, pre = p1 ++ g1 ∧ post = g2 ++ p2 ∧ (g1 ++ o :: g2).map (·.id) = t.words ∧
      (∀ t' ∈ m, ∀ x ∈ t.words, x ∈ t'.words → t' = t) ∧
      (t'.form, noSpace t'.misc) :: l = l1 ++ (t.form, noSpace t.misc) :: l2 ∧ Tiles m p1 l1 ∧ Tiles m p2 l2 := by
      intro c h1 h2
      obtain ⟨p1, g1, g2, p2, l1, l2, e1, e2, e3, e4, e5, k1, k2⟩ := ih h2 ht ho
      exact ⟨g ++ p1, g1, g2, p2, _ :: l1, l2, by rw [h1, e1, List.append_assoc], e2, e3, e4, by rw [e5]; rfl,
        .mwt ht' hg hne hu k1, k2⟩
    rcases List.append_eq_append_iff.1 e with ⟨c, h1, h2⟩ | ⟨c, h1, h2⟩
    · exact rest c h1 h2
    · cases c with
      | nil => exact rest [] (by rw [h1]; simp) h2.symm
      | cons x c =>
        cases h2
        have ho' : o.id ∈ t'.words := by rw [← hg, h1]; simp
        have : t = t' := hu t ht o.id ho' ho
        subst this
        exact ⟨[], pre, c, ws, [], l, rfl, rfl, by rw [← h1]; exact hg, hu, rfl, .nil, hr⟩

theorem Tiles.mwts_nil {m : List Tk} {ws : List Wd} {l : List (Str × Bool)} (h : Tiles m ws l) {t : Tk} (ht : t ∈ m)
    {w : Wd} (hw : w ∈ ws) (hi : w.id ∈ t.words) : ∀ t' ∈ m, ∀ x ∈ t.words, x ∈ t'.words → t' = t := by
  obtain ⟨pre, post, e⟩ := List.append_of_mem hw
  obtain ⟨_, _, _, _, _, _, _, _, _, h, _⟩ := h.at_mwt e ht hi
  exact h

/-! ### The group of words -/

/-- The parent of the new nodes. -/
def parOf (o : Wd) (a : An) : Nat := if a.subtree then o.id else o.parent

theorem build_spec {o : Wd} {n : Nat} {a : An} {g : List Wd} (h : build o n a = some g) :
    ∃ f, a.form[a.main]? = some f ∧
    g = (a.form.take a.main).mapIdx (fun i x => newWd (n + i) (parOf o a) x) ++ { o with form := f } ::
      (a.form.drop (a.main + 1)).mapIdx (fun i x => newWd (n + a.main + i) (parOf o a) x) := by
  unfold build at h
  simp only at h
  cases hf : a.form[a.main]? with
  | none => rw [hf] at h; cases h
  | some f =>
    rw [hf] at h
    cases h
    exact ⟨f, rfl, rfl⟩

theorem mapIdx_mem {α β : Type} {f : Nat → α → β} {l : List α} {y : β} (h : y ∈ l.mapIdx f) : ∃ i x, i < l.length ∧ y = f i x := by
  obtain ⟨i, hi, e⟩ := List.mem_iff_getElem.1 h
  rw [List.getElem_mapIdx] at e
  exact ⟨i, _, by simpa using hi, e.symm⟩

theorem build_misc {o : Wd} {n : Nat} {a : An} {g : List Wd} (h : build o n a = some g) :
    ∀ w ∈ g, w.id = o.id ∨ w.misc = fun _ => none := by
  obtain ⟨f, _, rfl⟩ := build_spec h
  intro w hw
  rcases List.mem_append.1 hw with hw | hw
  · obtain ⟨i, x, _, rfl⟩ := mapIdx_mem hw
    exact .inr rfl
  · cases hw with
    | head => exact .inl rfl
    | tail _ hw =>
      obtain ⟨i, x, _, rfl⟩ := mapIdx_mem hw
      exact .inr rfl

/-- The ids of the words of the group: the new ones are `n`, `n + 1`, ... -/
theorem build_ids {o : Wd} {n : Nat} {a : An} {g : List Wd} (h : build o n a = some g) :
    g.map (·.id) = List.range' n a.main ++ o.id :: List.range' (n + a.main) (a.form.length - 1 - a.main) ∧
      a.main < a.form.length := by
  obtain ⟨f, hf, rfl⟩ := build_spec h
  have hl : a.main < a.form.length := by
    rw [List.getElem?_eq_some_iff] at hf
    exact hf.1
  refine ⟨?_, hl⟩
  rw [List.map_append, List.map_cons]
  congr 1
  · apply List.ext_getElem
    · simp; omega
    · intro i h1 h2
      simp [newWd]
  · congr 1
    apply List.ext_getElem
    · simp; omega
    · intro i h1 h2
      simp [newWd]

theorem subst_mem {v : Nat} {l : List Nat} : ∀ {xs ys : List Nat}, v ∉ xs → subst v l (xs ++ v :: ys) = xs ++ l ++ ys
  | [], ys, _ => by simp [subst]
  | x :: xs, ys, h => by
    have hx : x ≠ v := fun e => h (by rw [e]; exact List.mem_cons_self ..)
    show subst v l (x :: (xs ++ v :: ys)) = _
    unfold subst
    rw [if_neg hx, subst_mem (fun hh => h (List.mem_cons_of_mem _ hh))]
    rfl

/-- No word of a multi-word token has `SpaceAfter=No`: the space after it is an attribute of the token. -/
def Clean (s : Sent) : Prop := ∀ t ∈ s.mwts, ∀ w ∈ s.ws, w.id ∈ t.words → noSpace w.misc = false

/-- What `splitNode` does, with the words of the group. -/
theorem splitNode_spec {c : Case} {s s' : Sent} {v : Nat} {a : An} (h : splitNode c s v a = some s') :
    ∃ pre o post g0 g1 g2 g misc, s.ws = pre ++ o :: post ∧ o.id = v ∧ build o s.next a = some g0 ∧ recase c o g0 = some g1 ∧
      attrs o a g1 = some g2 ∧ g = (if truthy (o.misc ent) then entFirst (o.misc ent) g2 else g2) ∧
      misc = (if truthy (o.misc ent) then put o.misc ent none else o.misc) ∧ s'.next = s.next + (a.form.length - 1) ∧
      (s'.ws, s'.mwts) = (match mwtOf s.mwts v with
        | none => create (pre ++ g ++ post) s.mwts (g.map (·.id)) o.form misc
        | some t => create (pre ++ g ++ post) (s.mwts.filter (fun t => v ∉ t.words)) (subst v (g.map (·.id)) t.words) t.form
            (merge misc t.misc)) := by
  unfold splitNode at h
  simp only [Option.bind_eq_some_iff] at h
  obtain ⟨⟨pre, o, post⟩, h1, g0, h2, g1, h3, g2, h4, h⟩ := h
  cases h
  obtain ⟨e1, e2⟩ := locate_spec h1
  refine ⟨pre, o, post, g0, g1, g2, _, _, e1, e2, h2, h3, h4, rfl, rfl, rfl, ?_⟩
  cases mwtOf s.mwts v <;> rfl

theorem ids_of_key {g g' : List Wd} (h : g'.map key = g.map key) : g'.map (·.id) = g.map (·.id) := by
  have := congrArg (List.map Prod.fst) h
  simpa [key, Function.comp_def] using this

/-- The ids of the group and `SpaceAfter`. -/
theorem group_facts {c : Case} {a : An} {o : Wd} {n : Nat} {g0 g1 g2 g : List Wd} (ha : a.Spaced)
    (h0 : build o n a = some g0) (h1 : recase c o g0 = some g1) (h2 : attrs o a g1 = some g2)
    (h3 : g = (if truthy (o.misc ent) then entFirst (o.misc ent) g2 else g2)) :
    g.map key = g0.map key ∧ AllSp g := by
  have hk : g.map key = g2.map key := by
    rw [h3]; split
    · exact entFirst_key _ _
    · rfl
  refine ⟨by rw [hk, attrs_key h2, recase_key h1], ?_⟩
  have hm : ∀ w ∈ g1, w.id = o.id ∨ w.misc = fun _ => none := by
    have hb := build_misc h0
    unfold recase at h1
    split at h1
    · cases h1
      intro w hw
      obtain ⟨w', hw', e⟩ := List.mem_map.1 hw
      rw [← e]
      exact hb w' hw'
    · split at h1
      · cases h1
      · cases h1
        split
        · cases g0 with
          | nil => exact hb
          | cons x g0 =>
            intro w hw
            cases hw with
            | head => exact hb x (List.mem_cons_self ..)
            | tail _ hw => exact hb w (List.mem_cons_of_mem _ hw)
        · exact hb
  have h2' := attrs_sp ha hm h2
  rw [h3]; split
  · exact entFirst_sp h2'
  · exact h2'

theorem find_last {ws : List Wd} {x : Nat} (h : ∀ w ∈ ws, w.id = x → noSpace w.misc = false) :
    ((ws.find? (fun w => some w.id = some x)).map (fun w => noSpace w.misc)).getD false = false := by
  cases hf : ws.find? (fun w => decide (some w.id = some x)) with
  | none => rfl
  | some w =>
    have h1 := List.mem_of_find?_eq_some hf
    have h2 := List.find?_some hf
    simp only [decide_eq_true_eq, Option.some.injEq] at h2
    show noSpace w.misc = false
    exact h w h1 h2

/-- `create` for words without `SpaceAfter=No` -/
theorem create_sp {ws : List Wd} {mwts : List Tk} {l : List Nat} {form : Str} {misc : Map}
    (h : ∀ w ∈ ws, w.id ∈ l → noSpace w.misc = false) :
    create ws mwts l form misc = (ws.map (unspace l), mwts ++ [{ words := l, form := form, misc := misc }]) := by
  have : ((ws.find? (fun w => some w.id = l.getLast?)).map (fun w => noSpace w.misc)).getD false = false := by
    cases hl : l.getLast? with
    | none =>
      have : ws.find? (fun w => decide (some w.id = none)) = none := List.find?_eq_none.2 (fun w _ => by simp)
      rw [this]; rfl
    | some x =>
      exact find_last (fun w hw e => h w hw (by rw [e]; exact List.mem_of_getLast? hl))
  unfold create
  simp only [this]
  rfl

theorem mwtOf_none {m : List Tk} {x : Nat} (h : mwtOf m x = none) : ∀ t ∈ m, x ∉ t.words := by
  intro t ht hx
  have := List.find?_eq_none.1 h t ht
  simp at this
  exact this hx

theorem mwtOf_some {m : List Tk} {x : Nat} {t : Tk} (h : mwtOf m x = some t) : t ∈ m ∧ x ∈ t.words :=
  ⟨List.mem_of_find?_eq_some h, by simpa using List.find?_some h⟩

/-- A group of words that became one multi-word token. -/
theorem tiles_group {m : List Tk} {t : Tk} {p g q : List Wd} {l1 l2 : List (Str × Bool)}
    (hp : Tiles m p l1) (hq : Tiles m q l2) (hg : g.map (·.id) = t.words) (hne : g ≠ [])
    (hd : ∀ w ∈ p ++ q, w.id ∉ t.words) (hm : ∀ t' ∈ m, ∀ x ∈ t.words, x ∉ t'.words) :
    Tiles (m ++ [t]) (p ++ (g ++ q)) (l1 ++ (t.form, noSpace t.misc) :: l2) := by
  have mono : ∀ {ws l}, Tiles m ws l → (∀ w ∈ ws, w.id ∉ t.words) → Tiles (m ++ [t]) ws l := by
    intro ws l h hw
    refine h.mono (fun t' ht' _ => List.mem_append_left _ ht') ?_
    intro t' ht' ⟨w, h1, h2⟩
    rcases List.mem_append.1 ht' with h | h
    · exact h
    · cases List.mem_singleton.1 h
      exact absurd h2 (hw w h1)
  refine (mono hp (fun w hw => hd w (List.mem_append_left _ hw))).append (.mwt ?_ hg hne ?_
    (mono hq (fun w hw => hd w (List.mem_append_right _ hw))))
  · exact List.mem_append_right _ (List.mem_singleton.2 rfl)
  · intro t' ht' x hx hx'
    rcases List.mem_append.1 ht' with h | h
    · exact absurd hx' (hm t' h x hx)
    · exact List.mem_singleton.1 h

theorem nodup_new {P Q : List Nat} {v n k j : Nat} (hn : (P ++ v :: Q).Nodup) (hf : ∀ x ∈ P ++ v :: Q, x < n) :
    (P ++ (List.range' n k ++ v :: List.range' (n + k) j) ++ Q).Nodup := by
  have hp : (P ++ (List.range' n k ++ v :: List.range' (n + k) j) ++ Q).Perm (List.range' n (k + j) ++ (P ++ v :: Q)) := by
    rw [← List.range'_append_1, List.perm_iff_count]
    intro x
    simp only [List.count_append, List.count_cons]
    omega
  rw [hp.nodup_iff, List.nodup_append]
  refine ⟨List.nodup_range', hn, ?_⟩
  intro x hx y hy e
  subst e
  have h1 := hf x hy
  have h2 := (List.mem_range'_1.1 hx).1
  omega

theorem split_ids {s s' : Sent} {a : An} (hw : Wf s) {pre post g : List Wd} {o : Wd} {l : List Nat}
    (e : s.ws = pre ++ o :: post)
    (hg : g.map (·.id) = List.range' s.next a.main ++ o.id :: List.range' (s.next + a.main) (a.form.length - 1 - a.main))
    (hlt : a.main < a.form.length) (h1 : s'.ws = (pre ++ g ++ post).map (unspace l)) (h2 : s'.next = s.next + (a.form.length - 1)) :
    (s'.ws.map (·.id)).Nodup ∧ (∀ w ∈ s'.ws, w.id < s'.next) ∧
      s'.ws.map (·.id) = pre.map (·.id) ++ g.map (·.id) ++ post.map (·.id) := by
  have hn := hw.nodup
  rw [e, List.map_append, List.map_cons] at hn
  have hf : ∀ x ∈ pre.map (·.id) ++ o.id :: post.map (·.id), x < s.next := by
    intro x hx
    have hx' : x ∈ s.ws.map (·.id) := by rw [e, List.map_append, List.map_cons]; exact hx
    obtain ⟨w, hw', rfl⟩ := List.mem_map.1 hx'
    exact hw.fresh w hw'
  have hi : s'.ws.map (·.id) = pre.map (·.id) ++ g.map (·.id) ++ post.map (·.id) := by
    rw [h1, map_unspace_id, List.map_append, List.map_append]
  refine ⟨by rw [hi, hg]; exact nodup_new hn hf, ?_, hi⟩
  intro w hw'
  have : w.id ∈ s'.ws.map (·.id) := List.mem_map.2 ⟨w, hw', rfl⟩
  rw [hi, hg] at this
  rw [h2]
  simp only [List.mem_append, List.mem_cons, List.mem_range'_1] at this
  have hb : ∀ x, x ∈ pre.map (·.id) ∨ x = o.id ∨ x ∈ post.map (·.id) → x < s.next := fun x hx => hf x (by simpa using hx)
  rcases this with (h | h | h | h) | h
  · have := hb _ (.inl h); omega
  · omega
  · have := hb _ (.inr (.inl h)); omega
  · omega
  · have := hb _ (.inr (.inr h)); omega

theorem split_ok {c : Case} {s s' : Sent} {v : Nat} {a : An} {l : List (Str × Bool)} (hw : Wf s) (hc : Clean s)
    (ht : Tiles s.mwts s.ws l) (ha : a.Spaced) (h : splitNode c s v a = some s') :
    Wf s' ∧ Clean s' ∧ Tiles s'.mwts s'.ws l := by
  obtain ⟨pre, o, post, g0, g1, g2, g, misc, e, hv, h0, h1, h2, h3, hm, hn, h⟩ := splitNode_spec h
  obtain ⟨hk, hsp⟩ := group_facts ha h0 h1 h2 h3
  obtain ⟨hids, hlt⟩ := build_ids h0
  rw [← ids_of_key hk] at hids
  have hgne : g ≠ [] := by
    intro hh
    rw [hh] at hids
    simp at hids
  have hvg : v ∈ g.map (·.id) := by rw [hids, ← hv]; simp
  have hnd := hw.nodup
  rw [e, List.map_append, List.map_cons] at hnd
  have hfr : ∀ w ∈ s.ws, w.id ∈ g.map (·.id) → w.id = v := by
    intro w hw' hi
    have := hw.fresh w hw'
    rw [hids] at hi
    simp only [List.mem_append, List.mem_cons, List.mem_range'_1] at hi
    rcases hi with hi | hi | hi
    · omega
    · rw [hi, hv]
    · omega
  have hpre : ∀ w ∈ pre, w.id ≠ v := by
    intro w hw' hi
    rw [List.nodup_append] at hnd
    exact hnd.2.2 w.id (List.mem_map.2 ⟨w, hw', rfl⟩) o.id (List.mem_cons_self ..) (by rw [hi, hv])
  have hpost : ∀ w ∈ post, w.id ≠ v := by
    intro w hw' hi
    rw [List.nodup_append, List.nodup_cons] at hnd
    exact hnd.2.1.1 (by rw [hv, ← hi]; exact List.mem_map.2 ⟨w, hw', rfl⟩)
  have hmisc : noSpace misc = noSpace o.misc := by
    rw [hm]; split
    · exact noSpace_put_ent _ _
    · rfl
  have hin : ∀ w ∈ pre ++ post, w ∈ s.ws := by
    intro w hw'
    rw [e]
    simp only [List.mem_append, List.mem_cons] at hw' ⊢
    exact hw'.imp id .inr
  have hout : ∀ w ∈ pre ++ post, w.id ∉ g.map (·.id) := by
    intro w hw' hi
    have := hfr w (hin w hw') hi
    rcases List.mem_append.1 hw' with h | h
    · exact hpre w h this
    · exact hpost w h this
  have ho : o ∈ s.ws := by rw [e]; simp
  cases hmw : mwtOf s.mwts v with
  | none =>
    have hno := mwtOf_none hmw
    rw [hmw] at h
    simp only at h
    rw [create_sp (by
      intro w hw' hi
      rw [List.append_assoc] at hw'
      rcases List.mem_append.1 hw' with hp | hp
      · exact absurd hi (hout w (List.mem_append_left _ hp))
      · rcases List.mem_append.1 hp with hp | hp
        · exact hsp w hp
        · exact absurd hi (hout w (List.mem_append_right _ hp)))] at h
    have e1 : s'.ws = (pre ++ g ++ post).map (unspace (g.map (·.id))) := congrArg Prod.fst h
    have e2 : s'.mwts = s.mwts ++ [{ words := g.map (·.id), form := o.form, misc := misc }] := congrArg Prod.snd h
    obtain ⟨k1, k2, k3⟩ := split_ids hw e hids hlt e1 hn
    have ews : s'.ws = pre ++ (g.map (unspace (g.map (·.id))) ++ post) := by
      rw [e1, List.map_append, List.map_append, map_unspace_other (fun w hw' => hout w (List.mem_append_left _ hw')),
        map_unspace_other (fun w hw' => hout w (List.mem_append_right _ hw')), List.append_assoc]
    refine ⟨⟨k1, k2, ?_⟩, ?_, ?_⟩
    · intro t ht' x hx
      rw [e2] at ht'
      rw [k3]
      rcases List.mem_append.1 ht' with h' | h'
      · have := hw.words t h' x hx
        rw [e, List.map_append, List.map_cons] at this
        simp only [List.mem_append, List.mem_cons] at this ⊢
        rcases this with hh | hh | hh
        · exact .inl (.inl hh)
        · exact .inl (.inr (by rw [hh, hv]; exact hvg))
        · exact .inr hh
      · cases List.mem_singleton.1 h'
        exact List.mem_append_left _ (List.mem_append_right _ hx)
    · intro t ht' w hw' hi
      rw [e2] at ht'
      rw [e1] at hw'
      obtain ⟨w0, hw0, rfl⟩ := List.mem_map.1 hw'
      rw [unspace_id] at hi
      by_cases hin' : w0.id ∈ g.map (·.id)
      · unfold unspace
        rw [if_pos hin']
        exact noSpace_put_sa _
      · rw [unspace_other hin']
        rcases List.mem_append.1 ht' with h' | h'
        · refine hc t h' w0 (hin w0 ?_) hi
          rw [List.append_assoc] at hw0
          simp only [List.mem_append] at hw0 ⊢
          rcases hw0 with hh | hh | hh
          · exact .inl hh
          · exact absurd (List.mem_map.2 ⟨w0, hh, rfl⟩) hin'
          · exact .inr hh
        · cases List.mem_singleton.1 h'
          exact absurd hi hin'
    · obtain ⟨l1, l2, el, t1, t2⟩ := ht.at_word e (by rw [hv]; exact hno)
      rw [e2, ews, el, ← hmisc]
      refine tiles_group (t := { words := g.map (·.id), form := o.form, misc := misc }) t1 t2 ?_ ?_ hout ?_
      · exact map_unspace_id _ _
      · intro hh; exact hgne (List.map_eq_nil_iff.1 hh)
      · intro t' ht' x hx hx'
        have hx2 := hw.words t' ht' x hx'
        obtain ⟨w, hw', rfl⟩ := List.mem_map.1 hx2
        exact hno t' ht' (by rw [← hfr w hw' hx]; exact hx')
  | some t =>
    obtain ⟨htm, hvt⟩ := mwtOf_some hmw
    obtain ⟨p1, q1, q2, p2, l1, l2, ep, eq, et, hu, el, t1, t2⟩ := ht.at_mwt e htm (by rw [hv]; exact hvt)
    have hosp : noSpace o.misc = false := hc t htm o ho (by rw [hv]; exact hvt)
    have hsub : subst v (g.map (·.id)) t.words = (q1 ++ g ++ q2).map (·.id) := by
      rw [← et, List.map_append, List.map_cons, hv, subst_mem, List.map_append, List.map_append]
      intro hh
      obtain ⟨w, hw', ew⟩ := List.mem_map.1 hh
      exact hpre w (by rw [ep]; exact List.mem_append_right _ hw') ew
    rw [hmw] at h
    simp only at h
    rw [hsub] at h
    have hq : ∀ w ∈ q1 ++ q2, w ∈ s.ws ∧ w.id ∈ t.words := by
      intro w hw'
      refine ⟨hin w ?_, ?_⟩
      · rw [ep, eq]
        simp only [List.mem_append] at hw' ⊢
        exact hw'.elim (fun h => .inl (.inr h)) (fun h => .inr (.inl h))
      · rw [← et]
        apply List.mem_map.2 ⟨w, ?_, rfl⟩
        simp only [List.mem_append, List.mem_cons] at hw' ⊢
        exact hw'.imp id .inr
    have hqsp : AllSp (q1 ++ g ++ q2) := by
      intro w hw'
      simp only [List.mem_append] at hw'
      rcases hw' with (h | h) | h
      · have := hq w (List.mem_append_left _ h); exact hc t htm w this.1 this.2
      · exact hsp w h
      · have := hq w (List.mem_append_right _ h); exact hc t htm w this.1 this.2
    -- words outside of the token
    have hdis : ∀ w ∈ p1 ++ p2, w.id ∉ t.words := by
      intro w hw' hi
      have hn2 : ((p1 ++ p2).map (·.id) ++ (q1 ++ o :: q2).map (·.id)).Nodup := by
        refine (List.Perm.nodup_iff ?_).1 hw.nodup
        rw [e, ep, eq, ← List.map_append]
        refine List.Perm.map _ ?_
        rw [List.append_assoc, List.append_assoc]
        refine List.Perm.append_left _ ?_
        have : (q1 ++ o :: (q2 ++ p2)) = (q1 ++ o :: q2) ++ p2 := by simp
        rw [this]
        exact List.perm_append_comm
      rw [List.nodup_append] at hn2
      exact hn2.2.2 w.id (List.mem_map.2 ⟨w, hw', rfl⟩) w.id (by rw [et]; exact hi) rfl
    have hpin : ∀ w ∈ p1 ++ p2, w ∈ pre ++ post := by
      intro w hw'
      rw [ep, eq]
      simp only [List.mem_append] at hw' ⊢
      exact hw'.elim (fun h => .inl (.inl h)) (fun h => .inr (.inr h))
    have hout2 : ∀ w ∈ p1 ++ p2, w.id ∉ (q1 ++ g ++ q2).map (·.id) := by
      intro w hw' hi
      rw [List.map_append, List.map_append] at hi
      simp only [List.mem_append] at hi
      rcases hi with (hi | hi) | hi
      · exact hdis w hw' (by rw [← et]; simp only [List.map_append, List.mem_append]; exact .inl hi)
      · exact hout w (hpin w hw') hi
      · exact hdis w hw' (by rw [← et]; simp only [List.map_append, List.mem_append, List.map_cons, List.mem_cons]; exact .inr (.inr hi))
    have hsplit : pre ++ g ++ post = p1 ++ ((q1 ++ g ++ q2) ++ p2) := by
      rw [ep, eq]; simp only [List.append_assoc]
    rw [create_sp (by
      intro w hw' hi
      rw [hsplit] at hw'
      simp only [List.mem_append (s := p1), List.mem_append (t := p2)] at hw'
      rcases hw' with hp | hp | hp
      · exact absurd hi (hout2 w (List.mem_append_left _ hp))
      · exact hqsp w hp
      · exact absurd hi (hout2 w (List.mem_append_right _ hp)))] at h
    have e1 : s'.ws = (pre ++ g ++ post).map (unspace ((q1 ++ g ++ q2).map (·.id))) := congrArg Prod.fst h
    have e2 : s'.mwts = s.mwts.filter (fun t => v ∉ t.words) ++
      [{ words := (q1 ++ g ++ q2).map (·.id), form := t.form, misc := merge misc t.misc }] := congrArg Prod.snd h
    obtain ⟨k1, k2, k3⟩ := split_ids hw e hids hlt e1 hn
    have ews : s'.ws = p1 ++ ((q1 ++ g ++ q2).map (unspace ((q1 ++ g ++ q2).map (·.id))) ++ p2) := by
      rw [e1, hsplit, List.map_append, List.map_append (l₂ := p2), map_unspace_other (fun w hw' => hout2 w (List.mem_append_left _ hw')),
        map_unspace_other (fun w hw' => hout2 w (List.mem_append_right _ hw'))]
    have hfil : ∀ t' ∈ s.mwts.filter (fun t => v ∉ t.words), t' ∈ s.mwts ∧ v ∉ t'.words := by
      intro t' ht'
      have := List.mem_filter.1 ht'
      exact ⟨this.1, by simpa using this.2⟩
    have hmono : ∀ {ws k}, Tiles s.mwts ws k → (∀ w ∈ ws, w.id ∉ t.words) →
        Tiles (s.mwts.filter (fun t => v ∉ t.words)) ws k := by
      intro ws k hk hx
      refine hk.mono ?_ (fun t' ht' _ => (hfil t' ht').1)
      intro t' ht' ⟨w, hw', hi⟩
      refine List.mem_filter.2 ⟨ht', ?_⟩
      simp only [decide_eq_true_eq]
      intro hv'
      have := hu t' ht' v hvt hv'
      rw [this] at hi
      exact hx w hw' hi
    refine ⟨⟨k1, k2, ?_⟩, ?_, ?_⟩
    · intro t' ht' x hx
      rw [e2] at ht'
      rw [k3]
      rcases List.mem_append.1 ht' with h' | h'
      · have := hw.words t' (hfil t' h').1 x hx
        rw [e, List.map_append, List.map_cons] at this
        simp only [List.mem_append, List.mem_cons] at this ⊢
        rcases this with hh | hh | hh
        · exact .inl (.inl hh)
        · exact .inl (.inr (by rw [hh, hv]; exact hvg))
        · exact .inr hh
      · cases List.mem_singleton.1 h'
        rw [ep, eq]
        simp only [List.map_append, List.mem_append] at hx ⊢
        rcases hx with (hx | hx) | hx
        · exact .inl (.inl (.inr hx))
        · exact .inl (.inr hx)
        · exact .inr (.inl hx)
    · intro t' ht' w hw' hi
      rw [e2] at ht'
      rw [e1] at hw'
      obtain ⟨w0, hw0, rfl⟩ := List.mem_map.1 hw'
      rw [unspace_id] at hi
      by_cases hin' : w0.id ∈ (q1 ++ g ++ q2).map (·.id)
      · unfold unspace
        rw [if_pos hin']
        exact noSpace_put_sa _
      · rw [unspace_other hin']
        rcases List.mem_append.1 ht' with h' | h'
        · refine hc t' (hfil t' h').1 w0 (hin w0 (hpin w0 ?_)) hi
          rw [hsplit] at hw0
          simp only [List.mem_append (s := p1), List.mem_append (t := p2)] at hw0 ⊢
          rcases hw0 with hh | hh | hh
          · exact .inl hh
          · exact absurd (List.mem_map.2 ⟨w0, hh, rfl⟩) hin'
          · exact .inr hh
        · cases List.mem_singleton.1 h'
          exact absurd hi hin'
    · have hns : noSpace t.misc = noSpace (merge misc t.misc) := by
        rw [noSpace_merge]; rw [hmisc, hosp]
      rw [e2, ews, el, hns]
      refine tiles_group (t := { words := (q1 ++ g ++ q2).map (·.id), form := t.form, misc := merge misc t.misc })
        (hmono t1 (fun w hw' => hdis w (List.mem_append_left _ hw'))) (hmono t2 (fun w hw' => hdis w (List.mem_append_right _ hw')))
        (map_unspace_id _ _) ?_ hout2 ?_
      · intro hh
        have := List.map_eq_nil_iff.1 hh
        simp only [List.append_eq_nil_iff] at this
        exact hgne this.1.2
      · intro t' ht' x hx hx'
        obtain ⟨hm1, hm2⟩ := hfil t' ht'
        have hx2 := hw.words t' hm1 x hx'
        obtain ⟨w, hw', rfl⟩ := List.mem_map.1 hx2
        have hnt : w.id ∉ t.words := by
          intro hh
          have := hu t' hm1 w.id hh hx'
          exact hm2 (by rw [this]; exact hvt)
        simp only [List.map_append, List.mem_append] at hx
        rcases hx with (hx | hx) | hx
        · exact hnt (by rw [← et]; simp only [List.map_append, List.mem_append]; exact .inl hx)
        · exact hm2 (by rw [← hfr w hw' hx]; exact hx')
        · exact hnt (by rw [← et]; simp only [List.map_append, List.mem_append, List.map_cons, List.mem_cons]; exact .inr (.inr hx))

/-! ### The text -/

/-- A word as `compute_text` sees it. -/
def cw (s : Sent) (w : Wd) : Word := { form := w.form, no := noSpace w.misc, mwt := s.mwts.findIdx? (fun t => w.id ∈ t.words) }

/-- A multi-word token as `compute_text` sees it. -/
def ct (s : Sent) (t : Tk) : Mwt :=
  { form := t.form, no := noSpace t.misc, last := (s.ws.map (·.id)).idxOf (t.words.getLastD 0) + 1 }

theorem toTree_words (s : Sent) : s.toTree.words = s.ws.map (cw s) := rfl
theorem toTree_mwts (s : Sent) : s.toTree.mwts = s.mwts.map (ct s) := rfl

theorem cw_mwt {s : Sent} {t : Tk} {w : Wd} (ht : t ∈ s.mwts) (hw : w.id ∈ t.words)
    (hu : ∀ t' ∈ s.mwts, ∀ x ∈ t.words, x ∈ t'.words → t' = t) :
    ∃ j, (cw s w).mwt = some j ∧ s.toTree.mwts[j]? = some (ct s t) := by
  show ∃ j, s.mwts.findIdx? _ = some j ∧ _
  cases hf : s.mwts.findIdx? (fun t => decide (w.id ∈ t.words)) with
  | none =>
    rw [List.findIdx?_eq_none_iff] at hf
    have := hf t ht
    simp only [decide_eq_false_iff_not] at this
    exact absurd hw this
  | some j =>
    refine ⟨j, rfl, ?_⟩
    rw [List.findIdx?_eq_some_iff_getElem] at hf
    obtain ⟨hj, h1, _⟩ := hf
    simp only [decide_eq_true_eq] at h1
    have := hu s.mwts[j] (List.getElem_mem hj) w.id hw h1
    rw [toTree_mwts, List.getElem?_map, List.getElem?_eq_getElem hj, this]
    rfl

theorem cw_none {s : Sent} {w : Wd} (h : ∀ t ∈ s.mwts, w.id ∉ t.words) : (cw s w).mwt = none := by
  show s.mwts.findIdx? _ = none
  rw [List.findIdx?_eq_none_iff]
  intro t ht
  simp only [decide_eq_false_iff_not]
  exact h t ht

theorem skip {s : Sent} {t : Tk} (ht : t ∈ s.mwts) (hu : ∀ t' ∈ s.mwts, ∀ x ∈ t.words, x ∈ t'.words → t' = t) {last : Nat}
    {rest : List Word} : ∀ (g : List Wd) (k : Nat), (∀ w ∈ g, w.id ∈ t.words) → k + g.length = last →
    tokenLoop s.toTree.mwts last k (g.map (cw s) ++ rest) = tokenLoop s.toTree.mwts last (k + g.length) rest
  | [], _, _, _ => rfl
  | w :: g, k, hg, hl => by
    obtain ⟨j, h1, h2⟩ := cw_mwt ht (hg w (List.mem_cons_self ..)) hu
    rw [List.length_cons] at hl
    rw [List.map_cons, List.cons_append]
    conv => lhs; unfold tokenLoop
    simp only [h1, Option.bind_some, h2, Option.map_some]
    rw [if_neg (by omega), skip ht hu g (k + 1) (fun x hx => hg x (List.mem_cons_of_mem _ hx)) (by omega), List.length_cons]
    congr 1
    omega

theorem idxOf_last {P G Q : List Nat} (hn : (P ++ (G ++ Q)).Nodup) (hg : G ≠ []) :
    (P ++ (G ++ Q)).idxOf (G.getLastD 0) + 1 = P.length + G.length := by
  obtain ⟨G', x, rfl⟩ : ∃ G' x, G = G' ++ [x] := ⟨G.dropLast, G.getLast hg, (List.dropLast_concat_getLast hg).symm⟩
  have : (G' ++ [x]).getLastD 0 = x := by simp
  rw [this, ← List.append_assoc, ← List.append_assoc, List.append_assoc _ [x] Q]
  have hx : x ∉ P ++ G' := by
    have e : P ++ (G' ++ [x] ++ Q) = (P ++ G') ++ (x :: Q) := by simp
    rw [e, List.nodup_append] at hn
    intro h
    exact hn.2.2 x h x (List.mem_cons_self ..) rfl
  rw [List.idxOf_append, if_neg hx]
  simp
  omega

theorem tiles_loop {s : Sent} (hn : (s.ws.map (·.id)).Nodup) {ws : List Wd} {l : List (Str × Bool)} (h : Tiles s.mwts ws l) :
    ∀ (pre : List Wd) (last : Nat), s.ws = pre ++ ws → last ≤ pre.length →
    (tokenLoop s.toTree.mwts last pre.length (ws.map (cw s))).map s.toTree.get = l := by
  induction h with
  | nil => intro _ _ _ _; rfl
  | @word w ws l hw _ ih =>
    intro pre last e hl
    rw [List.map_cons]
    unfold tokenLoop
    rw [cw_none hw]
    simp only [Option.bind_none, List.map_cons]
    have hg : s.toTree.get (.word pre.length) = (w.form, noSpace w.misc) := by
      unfold Tree.get
      have : s.toTree.words[pre.length]? = some (cw s w) := by rw [toTree_words, e]; simp
      simp only [this]; rfl
    rw [hg]
    have := ih (pre ++ [w]) last (by rw [e]; simp) (by simp; omega)
    rw [List.length_append] at this
    rw [show pre.length + 1 = pre.length + [w].length from rfl, this]
  | @mwt t g ws l ht hg hne hu _ ih =>
    intro pre last e hl
    cases g with
    | nil => exact absurd rfl hne
    | cons w g =>
      have hgt : ∀ x ∈ w :: g, x.id ∈ t.words := by
        intro x hx
        rw [← hg]; exact List.mem_map.2 ⟨x, hx, rfl⟩
      obtain ⟨j, h1, h2⟩ := cw_mwt ht (hgt w (List.mem_cons_self ..)) hu
      rw [List.cons_append, List.map_cons]
      unfold tokenLoop
      simp only [h1, Option.bind_some, h2, Option.map_some]
      rw [if_pos (by omega)]
      have hlast : (ct s t).last = pre.length + (w :: g).length := by
        show (s.ws.map (·.id)).idxOf (t.words.getLastD 0) + 1 = _
        have e' : s.ws.map (·.id) = pre.map (·.id) ++ ((w :: g).map (·.id) ++ ws.map (·.id)) := by rw [e]; simp
        rw [e'] at hn ⊢
        rw [← hg, idxOf_last hn (by simp)]
        simp
      rw [List.map_append, skip ht hu g (pre.length + 1) (fun x hx => hgt x (List.mem_cons_of_mem _ hx))
        (by rw [hlast, List.length_cons]; omega)]
      rw [List.map_cons]
      have hget : s.toTree.get (.mwt j) = (t.form, noSpace t.misc) := by
        unfold Tree.get
        simp only [h2]; rfl
      rw [hget]
      have := ih (pre ++ w :: g) (ct s t).last (by rw [e]; simp) (by rw [hlast]; simp)
      rw [List.length_append, List.length_cons] at this
      rw [show pre.length + 1 + g.length = pre.length + (g.length + 1) by omega, this]

/-- The tokens that `token_descendants` returns. -/
theorem tiles_tokens {s : Sent} {l : List (Str × Bool)} (hn : (s.ws.map (·.id)).Nodup) (h : Tiles s.mwts s.ws l) :
    (tokens s.toTree).map s.toTree.get = l := by
  have := tiles_loop hn h [] 0 rfl (Nat.le_refl _)
  exact this

/-- The analyses of the block give no word `SpaceAfter=No`. -/
def Spaced (f : Sent → Nat → Option An) : Prop := ∀ s v a, f s v = some a → a.Spaced

theorem foldlM_ok {c : Case} {f : Sent → Nat → Option An} (hf : Spaced f) {l : List (Str × Bool)} : ∀ (ids : List Nat) {s s' : Sent},
    Wf s → Clean s → Tiles s.mwts s.ws l → ids.foldlM (step c f) s = some s' → Wf s' ∧ Clean s' ∧ Tiles s'.mwts s'.ws l
  | [], s, s', h1, h2, h3, h => by cases h; exact ⟨h1, h2, h3⟩
  | v :: ids, s, s', h1, h2, h3, h => by
    rw [List.foldlM_cons] at h
    obtain ⟨s1, hs, h⟩ := Option.bind_eq_some_iff.1 h
    have : Wf s1 ∧ Clean s1 ∧ Tiles s1.mwts s1.ws l := by
      unfold step at hs
      cases ha : f s v with
      | none => rw [ha] at hs; cases hs; exact ⟨h1, h2, h3⟩
      | some a => rw [ha] at hs; exact split_ok h1 h2 h3 (hf s v a ha) hs
    exact foldlM_ok hf ids this.1 this.2.1 this.2.2 h

/-- C127: for every tree whose words are those of its tokens, every analysis of its nodes and every rule for upper and lower case:
if no exception is raised, the tokens of the tree are the same afterwards, with the same forms and the same spaces, and so is
the text. -/
theorem C127_text {c : Case} {f : Sent → Nat → Option An} {s s' : Sent} {l : List (Str × Bool)} (hf : Spaced f) (hw : Wf s)
    (hc : Clean s) (ht : Tiles s.mwts s.ws l) (h : run c f s = some s') :
    (tokens s.toTree).map s.toTree.get = l ∧ (tokens s'.toTree).map s'.toTree.get = l ∧
      computeText true s'.toTree = computeText true s.toTree := by
  obtain ⟨h1, h2, h3⟩ := foldlM_ok hf _ hw hc ht h
  have e1 := tiles_tokens hw.nodup ht
  have e2 := tiles_tokens h1.nodup h3
  refine ⟨e1, e2, ?_⟩
  rw [C84_text, C84_text, e1, e2]

/-- C127: afterwards, the words are again those of the tokens, no word belongs to two tokens, all nodes are different, and only
tokens have `SpaceAfter=No`. -/
theorem C127_tokens {c : Case} {f : Sent → Nat → Option An} {s s' : Sent} {l : List (Str × Bool)} (hf : Spaced f) (hw : Wf s)
    (hc : Clean s) (ht : Tiles s.mwts s.ws l) (h : run c f s = some s') : Wf s' ∧ Clean s' ∧ Tiles s'.mwts s'.ws l :=
  foldlM_ok hf _ hw hc ht h

end Verif.Text.AddMwt
