import Verif.Text.Comply

/-!
# Forms laid out in a text (for ud.ComplyWithText)
-/

namespace Verif.Text.Comply
open Verif.Py
open Verif.Run (wsSplit)

/-- The text is the forms in their order with white space before, between and after them. -/
def Lay : List Str → Str → Prop
  | [], s => ∀ c ∈ s, isWs c = true
  | f :: fs, s => ∃ w r, s = w ++ (f ++ r) ∧ (∀ c ∈ w, isWs c = true) ∧ Lay fs r

theorem Lay.append : ∀ {fs gs : List Str} {a b : Str}, Lay fs a → Lay gs b → Lay (fs ++ gs) (a ++ b)
  | [], [], a, b, h1, h2 => by
    intro c hc
    rcases List.mem_append.1 hc with hc | hc
    · exact h1 c hc
    · exact h2 c hc
  | [], g :: gs, a, b, h1, ⟨w, r, e, hw, h⟩ => by
    refine ⟨a ++ w, r, by rw [e, List.append_assoc], ?_, h⟩
    intro c hc
    rcases List.mem_append.1 hc with hc | hc
    · exact h1 c hc
    · exact hw c hc
  | f :: fs, gs, a, b, ⟨w, r, e, hw, h⟩, h2 => ⟨w, r ++ b, by rw [e]; simp, hw, h.append h2⟩

theorem Lay.left {fs : List Str} {w s : Str} (h : Lay fs s) (hw : ∀ c ∈ w, isWs c = true) : Lay fs (w ++ s) :=
  Lay.append (fs := []) hw h

theorem Lay.right {fs : List Str} {w s : Str} (h : Lay fs s) (hw : ∀ c ∈ w, isWs c = true) : Lay fs (s ++ w) := by
  have := Lay.append (gs := []) h hw
  rwa [List.append_nil] at this

theorem lay_nil : Lay [] [] := fun _ hc => absurd hc List.not_mem_nil

theorem lay_one (f : Str) : Lay [f] f := ⟨[], [], by simp, fun _ hc => absurd hc List.not_mem_nil, lay_nil⟩

theorem Lay.cons {fs : List Str} {s : Str} (f : Str) (h : Lay fs s) : Lay (f :: fs) (f ++ s) := Lay.append (lay_one f) h

theorem lay_flatten : ∀ fs : List Str, Lay fs fs.flatten
  | [] => lay_nil
  | f :: fs => (lay_flatten fs).cons f

/-- Forms that neither are empty nor end with white space. -/
def Closed (f : Str) : Prop := ∃ c, f.getLast? = some c ∧ isWs c = false

theorem Closed.ne {f : Str} (h : Closed f) : f ≠ [] := by
  rintro rfl
  obtain ⟨c, e, _⟩ := h
  cases e

theorem lay_ws {fs : List Str} {w : Str} (h : Lay fs w) (hw : ∀ c ∈ w, isWs c = true) (hf : ∀ f ∈ fs, Closed f) : fs = [] := by
  cases fs with
  | nil => rfl
  | cons f fs =>
    exfalso
    obtain ⟨v, r, e, _, _⟩ := h
    obtain ⟨c, e1, e2⟩ := hf f (List.mem_cons_self ..)
    have : c ∈ w := by rw [e]; exact List.mem_append_right _ (List.mem_append_left _ (List.mem_of_getLast? e1))
    rw [hw c this] at e2
    cases e2

theorem Lay.trim : ∀ {fs : List Str} {s w : Str}, Lay fs (s ++ w) → (∀ c ∈ w, isWs c = true) → (∀ f ∈ fs, Closed f) → Lay fs s
  | [], s, w, h, _, _ => fun c hc => h c (List.mem_append_left _ hc)
  | f :: fs, s, w, ⟨v, r, e, hv, h⟩, hw, hf => by
    have hf' : ∀ g ∈ fs, Closed g := fun g hg => hf g (List.mem_cons_of_mem _ hg)
    rw [← List.append_assoc] at e
    rcases List.append_eq_append_iff.1 e with ⟨a, e1, e2⟩ | ⟨a, e1, e2⟩
    · -- the form reaches into the white space
      cases ha : a.getLast? with
      | none =>
        have ha : a = [] := List.getLast?_eq_none_iff.1 ha
        subst ha
        simp only [List.append_nil, List.nil_append] at e1 e2
        subst e2
        have : fs = [] := lay_ws h hw hf'
        subst this
        exact ⟨v, [], by rw [List.append_nil]; exact e1.symm, hv, lay_nil⟩
      | some x =>
        exfalso
        obtain ⟨c, g1, g2⟩ := hf f (List.mem_cons_self ..)
        have hl : (v ++ f).getLast? = some c := by rw [List.getLast?_append, g1]; rfl
        rw [e1, List.getLast?_append, ha] at hl
        have : x = c := by simpa using hl
        subst this
        have hx : x ∈ w := by rw [e2]; exact List.mem_append_left _ (List.mem_of_getLast? ha)
        rw [hw x hx] at g2
        cases g2
    · exact ⟨v, a, by rw [e1, List.append_assoc], hv, Lay.trim (e2 ▸ h) hw hf'⟩

theorem strip_split (s : Str) : ∃ v w, s = v ++ (strip s ++ w) ∧ (∀ c ∈ v, isWs c = true) ∧ ∀ c ∈ w, isWs c = true := by
  obtain ⟨w, h1, h2⟩ := rstrip_split (lstrip s)
  refine ⟨s.takeWhile isWs, w, ?_, fun c hc => mem_takeWhile_ws hc, h2⟩
  unfold strip
  rw [← h1]
  exact lstrip_split s

theorem Lay.strip {fs : List Str} {s : Str} (h : Lay fs (strip s)) : Lay fs s := by
  obtain ⟨v, w, e, hv, hw⟩ := strip_split s
  rw [e]
  exact (h.right hw).left hv

theorem lay_cover {fs : List Str} {s : Str} (h : Cover fs s) : Lay fs s := by
  induction h with
  | nil => exact lay_nil
  | cons _ _ h3 _ _ ih => exact (ih.left h3).cons _

theorem wsSplit_forms (s : Str) : ∀ f ∈ wsSplit s, f ≠ [] ∧ ∀ c ∈ f, isWs c = false := by
  rw [← sameWords_lstrip s]
  exact cover_forms (cover_split _ _ (Nat.le_refl _) (startsWs_lstrip s))

theorem lay_wsSplit (s : Str) : Lay (wsSplit s) s := by
  have := lay_cover (cover_split _ _ (Nat.le_refl _) (startsWs_lstrip s))
  rw [sameWords_lstrip] at this
  rw [lstrip_split s, ← lstrip_split s]
  conv => rhs; rw [lstrip_split s]
  exact this.left (fun c hc => mem_takeWhile_ws hc)

/-! ## `SpaceAfter=No` -/

theorem Lay.tail : ∀ {fs : List Str} {c : Char} {s : Str}, Lay fs (c :: s) → isWs c = true → (∀ f ∈ fs, startsWs f = false) → Lay fs s
  | [], c, s, h, _, _ => fun x hx => h x (List.mem_cons_of_mem _ hx)
  | f :: fs, c, s, ⟨w, r, e, hw, h⟩, hc, hf => by
    cases w with
    | cons x w =>
      injection e with _ e
      exact ⟨w, r, e, fun y hy => hw y (List.mem_cons_of_mem _ hy), h⟩
    | nil =>
      cases f with
      | nil =>
        rw [List.nil_append, List.nil_append] at e
        subst e
        exact ⟨[], s, rfl, hw, Lay.tail h hc (fun g hg => hf g (List.mem_cons_of_mem _ hg))⟩
      | cons x f =>
        injection e with e1 _
        subst e1
        have := hf (c :: f) (List.mem_cons_self ..)
        rw [show startsWs (c :: f) = isWs c from rfl, hc] at this
        cases this

theorem lay_head {f : Str} {fs : List Str} {s : Str} (h : Lay (f :: fs) s) (h0 : startsWs s = false) : ∃ r, s = f ++ r ∧ Lay fs r := by
  obtain ⟨w, r, e, hw, h⟩ := h
  cases w with
  | nil => exact ⟨r, e, h⟩
  | cons x w =>
    rw [e] at h0
    have : isWs x = false := h0
    rw [hw x (List.mem_cons_self ..)] at this
    cases this

/-- The tokens whose forms are laid out in the text comply with it after `SpaceAfter=No` is filled in. -/
theorem fillNo_spec : ∀ (ts : List Tk) (text : Str), Lay (ts.map Tk.form) text → (∀ t ∈ ts, startsWs t.form = false) → Single text →
    startsWs text = false → ∃ w, detok ((fillNo text ts).map (fun t => (t.form, t.no))) = text ++ w ∧ ∀ c ∈ w, isWs c = true
  | [], text, h, _, _, h0 => by
    cases text with
    | nil => exact ⟨[], rfl, fun c hc => absurd hc List.not_mem_nil⟩
    | cons c s =>
      have hc : isWs c = true := h c (List.mem_cons_self ..)
      rw [show startsWs (c :: s) = isWs c from rfl, hc] at h0
      cases h0
  | t :: ts, text, h, hf, hs, h0 => by
    obtain ⟨r, rfl, hlay⟩ := lay_head h h0
    have hp : t.form.isPrefixOf (t.form ++ r) = true := List.isPrefixOf_iff_prefix.2 ⟨r, rfl⟩
    have hd : (t.form ++ r).drop t.form.length = r := by simp
    have hf' : ∀ u ∈ ts, startsWs u.form = false := fun u hu => hf u (List.mem_cons_of_mem _ hu)
    unfold fillNo
    rw [if_pos hp, hd]
    simp only
    by_cases hr : r = [] ∨ startsWs r = true
    · rw [if_pos hr]
      cases r with
      | nil =>
        obtain ⟨w, e, hw⟩ := fillNo_spec ts (lstrip []) hlay hf' single_nil rfl
        refine ⟨' ' :: w, ?_, ?_⟩
        · show (t.form ++ [' ']) ++ detok _ = _
          rw [e]; simp [lstrip]
        · intro c hc
          rcases List.mem_cons.1 hc with rfl | hc
          · exact isWs_space
          · exact hw c hc
      | cons c s =>
        have hc : isWs c = true := by rcases hr with hr | hr; cases hr; exact hr
        obtain ⟨rfl, x, b, rfl, hx⟩ := hs t.form c s rfl hc
        have hl : lstrip (' ' :: x :: b) = x :: b := by
          unfold lstrip
          rw [List.dropWhile_cons_of_pos hc, List.dropWhile_cons_of_neg (by rw [hx]; decide)]
        rw [hl]
        have hs' : Single (x :: b) := by
          have : t.form ++ ' ' :: x :: b = (t.form ++ [' ']) ++ (x :: b) := by simp
          rw [this] at hs
          exact hs.suffix
        obtain ⟨w, e, hw⟩ := fillNo_spec ts (x :: b) (hlay.tail hc (fun f hfm => by
          obtain ⟨u, hu, rfl⟩ := List.mem_map.1 hfm
          exact hf' u hu)) hf' hs' hx
        refine ⟨w, ?_, hw⟩
        show (t.form ++ [' ']) ++ detok _ = _
        rw [e]; simp
    · rw [if_neg hr]
      obtain ⟨w, e, hw⟩ := fillNo_spec ts r hlay hf' hs.suffix (by
        cases hx : startsWs r with
        | false => rfl
        | true => exact absurd (.inr hx) hr)
      refine ⟨w, ?_, hw⟩
      show t.form ++ detok _ = _
      rw [e]; simp

/-! ## The normalised text -/

theorem single_join : ∀ ps : List Str, (∀ f ∈ ps, f ≠ [] ∧ ∀ c ∈ f, isWs c = false) →
    Single (join [' '] ps) ∧ startsWs (join [' '] ps) = false ∧ (ps ≠ [] → join [' '] ps ≠ [])
  | [], _ => ⟨single_nil, rfl, fun h => absurd rfl h⟩
  | [f], h => by
    obtain ⟨h1, h2⟩ := h f (List.mem_cons_self ..)
    have := startsWs_form (s := []) h1 h2
    rw [List.append_nil] at this
    refine ⟨?_, this.1, fun _ => h1⟩
    have := Single.form h2 single_nil
    rwa [List.append_nil] at this
  | f :: g :: fs, h => by
    obtain ⟨h1, h2⟩ := h f (List.mem_cons_self ..)
    obtain ⟨k1, k2, k3⟩ := single_join (g :: fs) (fun x hx => h x (List.mem_cons_of_mem _ hx))
    have e : join [' '] (f :: g :: fs) = f ++ (' ' :: join [' '] (g :: fs)) := by simp [join]
    rw [e]
    exact ⟨Single.form h2 (k1.space (k3 (by simp)) k2), (startsWs_form h1 h2).1, fun _ => (startsWs_form h1 h2).2⟩

theorem single_normal (t : Str) : Single (normal t) ∧ startsWs (normal t) = false :=
  ⟨(single_join _ (wsSplit_forms t)).1, (single_join _ (wsSplit_forms t)).2.1⟩

theorem single_last {s : Str} (h : Single s) : ∀ c, s.getLast? = some c → isWs c = false := by
  intro c hc
  obtain ⟨a, rfl⟩ := List.getLast?_eq_some_iff.1 hc
  cases hw : isWs c with
  | false => rfl
  | true =>
    obtain ⟨_, d, b, e, _⟩ := h a c [] rfl hw
    cases e

theorem single_mem {s : Str} (h : Single s) {c : Char} (hc : c ∈ s) (hw : isWs c = true) : c = ' ' := by
  obtain ⟨a, b, rfl⟩ := List.append_of_mem hc
  exact (h a c b rfl hw).1

end Verif.Text.Comply
