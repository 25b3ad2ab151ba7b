import Verif.Text.AddMwtProps
import Verif.Text.SpaceAfter

/-!
# Property C137: ud.FixMwtSpace (udapi/block/ud/fixmwtspace.py)

The trees of `Verif.Text.AddMwt`; the words of a multi-word token are in word order (`mwt.words[0]` is the first one).
-/

namespace Verif.Text.MwtSpace
open Verif.Py Verif.DualDict Verif.Text.AddMwt
open Verif.DualDict.Spec (Map)

/-- `[x.form for x in mwt.words]` (fixmwtspace.py:19) -/
def formsOf (ws : List Wd) (ids : List Nat) : List Str := ids.filterMap (fun i => (ws.find? (fun w => w.id = i)).map (·.form))

/-- The conditions on the multi-word token (fixmwtspace.py:17-20). -/
def removable (ws : List Wd) (t : Tk) : Bool := decide (' ' ∈ t.form) && decide (join [' '] (formsOf ws t.words) = t.form)

/-- `process_node(node)` (fixmwtspace.py:15-22) with `mwt.remove()` (mwt.py:40-44) -/
def fixNode (s : Sent) (v : Nat) : Sent :=
  match mwtOf s.mwts v with
  | none => s
  | some t =>
    if t.words.head? = some v ∧ removable s.ws t = true then { s with mwts := s.mwts.filter (fun t => v ∉ t.words) } else s

/-- The block on one tree. -/
def run (s : Sent) : Sent := (s.ws.map (·.id)).foldl fixNode s

/-! ## Proofs -/

theorem tiles_disj {m : List Tk} {ws : List Wd} {l : List (Str × Bool)} (h : Tiles m ws l) :
    ∀ w ∈ ws, ∀ t ∈ m, ∀ t' ∈ m, w.id ∈ t.words → w.id ∈ t'.words → t' = t := by
  induction h with
  | nil => intro w hw; cases hw
  | @word w ws l hw _ ih =>
    intro x hx t ht t' ht' h1 h2
    rcases List.mem_cons.1 hx with rfl | hx
    · exact absurd h1 (hw t ht)
    · exact ih x hx t ht t' ht' h1 h2
  | @mwt t0 g ws l ht0 hg _ hu _ ih =>
    intro x hx t ht t' ht' h1 h2
    rcases List.mem_append.1 hx with hx | hx
    · have : x.id ∈ t0.words := by rw [← hg]; exact List.mem_map.2 ⟨x, hx, rfl⟩
      rw [hu t ht _ this h1, hu t' ht' _ this h2]
    · exact ih x hx t ht t' ht' h1 h2

/-- No word belongs to two tokens. -/
def Disj (m : List Tk) : Prop := ∀ x, ∀ t ∈ m, ∀ t' ∈ m, x ∈ t.words → x ∈ t'.words → t' = t

theorem mwtOf_some {m : List Tk} {v : Nat} {t : Tk} (h : mwtOf m v = some t) : t ∈ m ∧ v ∈ t.words := by
  unfold mwtOf at h
  exact ⟨List.mem_of_find?_eq_some h, by simpa using List.find?_some h⟩

theorem mwtOf_no {m : List Tk} {v : Nat} (h : mwtOf m v = none) : ∀ t ∈ m, v ∉ t.words := by
  unfold mwtOf at h
  rw [List.find?_eq_none] at h
  intro t ht
  simpa using h t ht

theorem fold_spec {s : Sent} (hd : Disj s.mwts) : ∀ (todo done : List Nat),
    todo.foldl fixNode { s with mwts := s.mwts.filter (fun t => !(removable s.ws t && t.words.head?.any (fun x => x ∈ done))) } =
      { s with mwts := s.mwts.filter (fun t => !(removable s.ws t && t.words.head?.any (fun x => x ∈ done ++ todo))) }
  | [], done => by simp
  | v :: todo, done => by
    rw [List.foldl_cons]
    have hstep : fixNode { s with mwts := s.mwts.filter (fun t => !(removable s.ws t && t.words.head?.any (fun x => x ∈ done))) } v =
        { s with mwts := s.mwts.filter (fun t => !(removable s.ws t && t.words.head?.any (fun x => x ∈ done ++ [v]))) } := by
      have hhead : ∀ (t : Tk), t.words.head? = some v → v ∈ t.words := fun t ht => List.mem_of_mem_head? (by rw [ht]; rfl)
      have hcond : ∀ (t : Tk), (t.words.head?.any (fun x => x ∈ done ++ [v])) =
          (t.words.head?.any (fun x => x ∈ done) || decide (t.words.head? = some v)) := by
        intro t
        cases t.words.head? with
        | none => simp
        | some x => simp
      unfold fixNode
      simp only
      cases hm : mwtOf (s.mwts.filter (fun t => !(removable s.ws t && t.words.head?.any (fun x => x ∈ done)))) v with
      | none =>
        simp only
        congr 1
        refine List.filter_congr ?_
        intro t ht
        rw [hcond]
        by_cases hv : t.words.head? = some v
        · have hno := mwtOf_no hm t
          rw [List.mem_filter] at hno
          have : ¬ (!(removable s.ws t && t.words.head?.any (fun x => decide (x ∈ done)))) = true := fun e => hno ⟨ht, e⟩ (hhead t hv)
          cases hr : removable s.ws t
          · rw [hr] at this; simp at this
          · rw [hr] at this
            simp only [Bool.true_and, Bool.not_eq_true', Bool.not_eq_false] at this ⊢
            rw [this]
            rfl
        · simp [hv]
      | some t =>
        simp only
        obtain ⟨t1, t2⟩ := mwtOf_some hm
        rw [List.mem_filter] at t1
        by_cases hc : t.words.head? = some v ∧ removable s.ws t = true
        · rw [if_pos hc]
          congr 1
          rw [List.filter_filter]
          refine List.filter_congr ?_
          intro t' ht'
          rw [hcond]
          by_cases hv : v ∈ t'.words
          · rw [hd v t t1.1 t' ht' t2 hv, hc.1, hc.2]
            simp [t2]
          · have : t'.words.head? ≠ some v := fun e => hv (hhead t' e)
            simp [hv, this]
        · rw [if_neg hc]
          congr 1
          refine List.filter_congr ?_
          intro t' ht'
          rw [hcond]
          by_cases hv : t'.words.head? = some v
          · have e := hd v t t1.1 t' ht' t2 (hhead t' hv)
            rw [e] at hv ⊢
            have : removable s.ws t = false := by
              cases hr : removable s.ws t with
              | false => rfl
              | true => exact absurd ⟨hv, hr⟩ hc
            rw [this]
            rfl
          · simp [hv]
    rw [hstep, fold_spec hd todo (done ++ [v])]
    simp

theorem run_eq {s : Sent} {l : List (Str × Bool)} (hw : Wf s) (ht : Tiles s.mwts s.ws l) :
    run s = { s with mwts := s.mwts.filter (fun t => !removable s.ws t) } := by
  have hd : Disj s.mwts := by
    intro x t h1 t' h2 h3 h4
    obtain ⟨w, hw1, rfl⟩ := List.mem_map.1 (hw.words t h1 x h3)
    exact tiles_disj ht w hw1 t h1 t' h2 h3 h4
  have := fold_spec hd (s.ws.map (·.id)) []
  have h0 : s.mwts.filter (fun t => !(removable s.ws t && t.words.head?.any (fun x => x ∈ ([] : List Nat)))) = s.mwts := by
    rw [List.filter_eq_self]
    intro t _
    cases t.words.head? <;> simp
  rw [h0] at this
  unfold run
  rw [show (s.ws.map (·.id)).foldl fixNode s = (s.ws.map (·.id)).foldl fixNode { s with mwts := s.mwts } from rfl, this]
  congr 1
  refine List.filter_congr ?_
  intro t ht'
  cases hh : t.words.head? with
  | none =>
    have : t.words = [] := List.head?_eq_none_iff.1 hh
    have hr : removable s.ws t = false := by
      cases hr : removable s.ws t with
      | false => rfl
      | true =>
        unfold removable at hr
        rw [Bool.and_eq_true, decide_eq_true_eq, decide_eq_true_eq, this] at hr
        rw [← hr.2] at hr
        exact absurd hr.1 (by simp [formsOf, join])
    rw [hr]
    rfl
  | some x =>
    have := hw.words t ht' x (List.mem_of_mem_head? (by rw [hh]; rfl))
    simp only [List.nil_append, Option.any_some]
    rw [decide_eq_true this, Bool.and_true]

theorem find_id {ws : List Wd} (hn : (ws.map (·.id)).Nodup) {w : Wd} (hw : w ∈ ws) : ws.find? (fun x => x.id = w.id) = some w := by
  induction ws with
  | nil => cases hw
  | cons y ws ih =>
    rw [List.map_cons, List.nodup_cons] at hn
    by_cases hy : y.id = w.id
    · rw [List.find?_cons_of_pos (by simp [hy])]
      rcases List.mem_cons.1 hw with e | e
      · rw [e]
      · exact absurd (List.mem_map.2 ⟨w, e, hy.symm⟩) hn.1
    · rw [List.find?_cons_of_neg (by simp [hy])]
      rcases List.mem_cons.1 hw with e | e
      · exact absurd (by rw [e]) hy
      · exact ih hn.2 e

theorem formsOf_words {ws g : List Wd} (hn : (ws.map (·.id)).Nodup) (hg : ∀ w ∈ g, w ∈ ws) : formsOf ws (g.map (·.id)) = g.map (·.form) := by
  unfold formsOf
  induction g with
  | nil => rfl
  | cons w g ih =>
    rw [List.map_cons, List.map_cons, List.filterMap_cons, find_id hn (hg w (List.mem_cons_self ..))]
    simp only [Option.map_some]
    rw [ih (fun x hx => hg x (List.mem_cons_of_mem _ hx))]

theorem detok_words : ∀ (g : List Wd), g ≠ [] → (∀ w ∈ g, noSpace w.misc = false) →
    detok (g.map (fun w => (w.form, noSpace w.misc))) = join [' '] (g.map (·.form)) ++ [' ']
  | [], h, _ => absurd rfl h
  | [w], _, hs => by
    simp [detok, join, hs w (List.mem_singleton.2 rfl)]
  | w :: x :: g, _, hs => by
    have := detok_words (x :: g) (by simp) (fun y hy => hs y (List.mem_cons_of_mem _ hy))
    rw [List.map_cons, detok, List.flatMap_cons]
    rw [detok] at this
    rw [this]
    simp [join, hs w (List.mem_cons_self ..)]

theorem detok_append (a b : List (Str × Bool)) : detok (a ++ b) = detok a ++ detok b := by simp [detok]

theorem tiles_words {m : List Tk} {ws : List Wd} {l : List (Str × Bool)} : ∀ (g : List Wd), (∀ w ∈ g, ∀ t ∈ m, w.id ∉ t.words) → Tiles m ws l →
    Tiles m (g ++ ws) (g.map (fun w => (w.form, noSpace w.misc)) ++ l)
  | [], _, h => h
  | w :: g, hg, h => .word (hg w (List.mem_cons_self ..)) (tiles_words g (fun x hx => hg x (List.mem_cons_of_mem _ hx)) h)

/-- Neither the token nor its words have `SpaceAfter=No`. -/
def Plain (ws : List Wd) (t : Tk) : Prop := noSpace t.misc = false ∧ ∀ w ∈ ws, w.id ∈ t.words → noSpace w.misc = false

/-- Removing plain tokens keeps the text. -/
theorem tiles_expand {W : List Wd} (hn : (W.map (·.id)).Nodup) {m : List Tk} {ws : List Wd} {l : List (Str × Bool)} (h : Tiles m ws l) :
    (∀ w ∈ ws, w ∈ W) → (∀ t ∈ m, (∃ w ∈ ws, w.id ∈ t.words) → removable W t = true → Plain W t) →
    ∃ l', Tiles (m.filter (fun t => !removable W t)) ws l' ∧ detok l' = detok l := by
  induction h with
  | nil => intro _ _; exact ⟨[], .nil, rfl⟩
  | @word w ws l hw _ ih =>
    intro hW hP
    obtain ⟨l', h1, h2⟩ := ih (fun x hx => hW x (List.mem_cons_of_mem _ hx))
      (fun t ht hx => hP t ht (hx.imp fun x hx => ⟨List.mem_cons_of_mem _ hx.1, hx.2⟩))
    refine ⟨_, .word (fun t ht => hw t (List.mem_filter.1 ht).1) h1, ?_⟩
    rw [detok, detok, List.flatMap_cons, List.flatMap_cons]
    rw [detok, detok] at h2
    rw [h2]
  | @mwt t g ws l ht hg hne hu hr ih =>
    intro hW hP
    obtain ⟨l', h1, h2⟩ := ih (fun x hx => hW x (List.mem_append_right _ hx))
      (fun t ht hx => hP t ht (hx.imp fun x hx => ⟨List.mem_append_right _ hx.1, hx.2⟩))
    have hgW : ∀ w ∈ g, w ∈ W := fun w hw => hW w (List.mem_append_left _ hw)
    have hgt : ∀ w ∈ g, w.id ∈ t.words := fun w hw => by rw [← hg]; exact List.mem_map.2 ⟨w, hw, rfl⟩
    cases hrem : removable W t with
    | false =>
      refine ⟨_, .mwt (List.mem_filter.2 ⟨ht, by rw [hrem]; rfl⟩) hg hne (fun t' ht' => hu t' (List.mem_filter.1 ht').1) h1, ?_⟩
      rw [detok, detok, List.flatMap_cons, List.flatMap_cons]
      rw [detok, detok] at h2
      rw [h2]
    | true =>
      obtain ⟨w0, hw0⟩ := List.exists_mem_of_ne_nil g hne
      obtain ⟨p1, p2⟩ := hP t ht ⟨w0, List.mem_append_left _ hw0, hgt w0 hw0⟩ hrem
      refine ⟨_, tiles_words g ?_ h1, ?_⟩
      · intro w hw t' ht' hwt
        obtain ⟨a, b⟩ := List.mem_filter.1 ht'
        rw [hu t' a w.id (hgt w hw) hwt, hrem] at b
        cases b
      · rw [detok_append, h2, detok_words g hne (fun w hw => p2 w (hgW w hw) (hgt w hw))]
        have hf : join [' '] (g.map (·.form)) = t.form := by
          unfold removable at hrem
          rw [Bool.and_eq_true, decide_eq_true_eq, decide_eq_true_eq, ← hg, formsOf_words hn hgW] at hrem
          exact hrem.2
        rw [hf, detok, detok, List.flatMap_cons]
        simp only [p1]
        simp

section Props
variable {s : Sent} {l : List (Str × Bool)}

/-- The block removes exactly the multi-word tokens whose form has a space and consists of the forms of the words with spaces between
them; words and other tokens stay. -/
theorem C137_tokens (hw : Wf s) (ht : Tiles s.mwts s.ws l) :
    (run s).ws = s.ws ∧ (run s).mwts.Sublist s.mwts ∧ ∀ t ∈ s.mwts, t ∈ (run s).mwts ↔
      ∀ g : List Wd, (∀ w ∈ g, w ∈ s.ws) → g.map (·.id) = t.words → ¬ (' ' ∈ t.form ∧ join [' '] (g.map (·.form)) = t.form) := by
  rw [run_eq hw ht]
  refine ⟨rfl, List.filter_sublist, ?_⟩
  intro t htm
  show t ∈ s.mwts.filter _ ↔ _
  rw [List.mem_filter, Bool.not_eq_true']
  constructor
  · rintro ⟨_, hr⟩ g hg e hc
    rw [show removable s.ws t = true from ?_] at hr
    · cases hr
    · unfold removable
      rw [← e, formsOf_words hw.nodup hg, Bool.and_eq_true, decide_eq_true_eq, decide_eq_true_eq]
      exact hc
  · intro hno
    refine ⟨htm, ?_⟩
    cases hr : removable s.ws t with
    | false => rfl
    | true =>
      exfalso
      have hex : ∃ g : List Wd, (∀ w ∈ g, w ∈ s.ws) ∧ g.map (·.id) = t.words := by
        have : ∀ ids : List Nat, (∀ x ∈ ids, x ∈ s.ws.map (·.id)) → ∃ g : List Wd, (∀ w ∈ g, w ∈ s.ws) ∧ g.map (·.id) = ids := by
          intro ids
          induction ids with
          | nil => intro _; exact ⟨[], by simp, rfl⟩
          | cons x ids ih =>
            intro h
            obtain ⟨g, h1, h2⟩ := ih (fun y hy => h y (List.mem_cons_of_mem _ hy))
            obtain ⟨w, hw1, hw2⟩ := List.mem_map.1 (h x (List.mem_cons_self ..))
            exact ⟨w :: g, by simp [hw1]; exact h1, by simp [hw2, h2]⟩
        exact this t.words (hw.words t htm)
      obtain ⟨g, h1, h2⟩ := hex
      unfold removable at hr
      rw [Bool.and_eq_true, decide_eq_true_eq, decide_eq_true_eq, ← h2, formsOf_words hw.nodup h1] at hr
      exact hno g h1 h2 hr

/-- If neither the removed tokens nor their words have `SpaceAfter=No`, the text stays. What is missing: tokens with `SpaceAfter=No`, see
below. -/
theorem C137_text_partial (hw : Wf s) (ht : Tiles s.mwts s.ws l) (hp : ∀ t ∈ s.mwts, removable s.ws t = true → Plain s.ws t) :
    computeText true (run s).toTree = computeText true s.toTree ∧ ∃ l', Tiles (run s).mwts (run s).ws l' := by
  obtain ⟨l', h1, h2⟩ := tiles_expand hw.nodup ht (fun _ h => h) (fun t ht _ => hp t ht)
  rw [run_eq hw ht]
  refine ⟨?_, l', h1⟩
  rw [C84_text, C84_text, tiles_tokens (s := { s with mwts := s.mwts.filter (fun t => !removable s.ws t) }) hw.nodup h1,
    tiles_tokens hw.nodup ht, h2]

theorem rstrip_head {c : Char} (hc : isWs c = false) (b : Str) : rstrip (c :: b) ≠ [] := by
  obtain ⟨w, h1, h2⟩ := rstrip_split (c :: b)
  intro h
  rw [h, List.nil_append] at h1
  have := h2 c (by rw [← h1]; exact List.mem_cons_self ..)
  rw [hc] at this
  cases this

/-- If a removed token has `SpaceAfter=No`, this is lost: a space appears in the text before the next token. -/
theorem C137_space_violated (hw : Wf s) {p g q : List Wd} {t : Tk} {l1 l2 : List (Str × Bool)} {c : Char} {b : Str} (hs : s.ws = p ++ (g ++ q))
    (h1 : Tiles s.mwts p l1) (ht : t ∈ s.mwts) (hg : g.map (·.id) = t.words) (hne : g ≠ [])
    (hu : ∀ t' ∈ s.mwts, ∀ x ∈ t.words, x ∈ t'.words → t' = t) (h2 : Tiles s.mwts q l2)
    (hrem : removable s.ws t = true) (hno : noSpace t.misc = true) (hws : ∀ w ∈ g, noSpace w.misc = false)
    (hp : ∀ t' ∈ s.mwts, t' ≠ t → removable s.ws t' = true → Plain s.ws t') (hc : detok l2 = c :: b) (hcw : isWs c = false) :
    computeText true (run s).toTree ≠ computeText true s.toTree := by
  have hT : Tiles s.mwts s.ws (l1 ++ ((t.form, noSpace t.misc) :: l2)) := by
    rw [hs]
    exact h1.append (.mwt ht hg hne hu h2)
  have hgt : ∀ w ∈ g, w.id ∈ t.words := fun w hw => by rw [← hg]; exact List.mem_map.2 ⟨w, hw, rfl⟩
  have hnd := hw.nodup
  have hids : (p.map (·.id) ++ (g.map (·.id) ++ q.map (·.id))).Nodup := by
    rw [hs] at hnd
    simpa using hnd
  rw [List.nodup_append] at hids
  have hids2 := hids.2.1
  rw [List.nodup_append] at hids2
  have hsub : ∀ w ∈ p ++ q, w.id ∉ t.words := by
    intro w hwp hwt
    rw [← hg] at hwt
    rcases List.mem_append.1 hwp with h | h
    · exact hids.2.2 w.id (List.mem_map.2 ⟨w, h, rfl⟩) w.id (List.mem_append_left _ hwt) rfl
    · exact hids2.2.2 w.id hwt w.id (List.mem_map.2 ⟨w, h, rfl⟩) rfl
  obtain ⟨l1', e1, d1⟩ := tiles_expand hnd h1 (fun w h => by rw [hs]; exact List.mem_append_left _ h) (by
    rintro t' ht' ⟨w, h3, h4⟩ hr
    exact hp t' ht' (fun e => hsub w (List.mem_append_left _ h3) (e ▸ h4)) hr)
  obtain ⟨l2', e2, d2⟩ := tiles_expand hnd h2 (fun w h => by rw [hs]; exact List.mem_append_right _ (List.mem_append_right _ h)) (by
    rintro t' ht' ⟨w, h3, h4⟩ hr
    exact hp t' ht' (fun e => hsub w (List.mem_append_right _ h3) (e ▸ h4)) hr)
  have hT' : Tiles (s.mwts.filter (fun t => !removable s.ws t)) s.ws (l1' ++ (g.map (fun w => (w.form, noSpace w.misc)) ++ l2')) := by
    rw [hs] at e1 e2 hrem ⊢
    refine e1.append (tiles_words g ?_ e2)
    intro w hwg t' ht' hwt
    obtain ⟨a, b⟩ := List.mem_filter.1 ht'
    rw [hu t' a w.id (hgt w hwg) hwt, hrem] at b
    cases b
  have hf : join [' '] (g.map (·.form)) = t.form := by
    unfold removable at hrem
    rw [Bool.and_eq_true, decide_eq_true_eq, decide_eq_true_eq, ← hg,
      formsOf_words hnd (fun w h => by rw [hs]; exact List.mem_append_right _ (List.mem_append_left _ h))] at hrem
    exact hrem.2
  rw [run_eq hw hT, C84_text, C84_text, tiles_tokens (s := { s with mwts := s.mwts.filter (fun t => !removable s.ws t) }) hnd hT',
    tiles_tokens hnd hT, detok_append, detok_append, detok_append, d1, d2, detok_words g hne hws, hf, hc]
  have hd : detok ((t.form, noSpace t.misc) :: l2) = t.form ++ c :: b := by
    rw [detok, List.flatMap_cons]
    rw [detok] at hc
    rw [hc, hno]
    rfl
  rw [hd]
  intro he
  have hr1 : ∀ X : Str, rstrip (X ++ c :: b) = X ++ rstrip (c :: b) := fun X => by rw [rstrip_append, if_neg (rstrip_head hcw b)]
  rw [show detok l1 ++ (t.form ++ [' '] ++ c :: b) = (detok l1 ++ t.form ++ [' ']) ++ c :: b by simp,
    show detok l1 ++ (t.form ++ c :: b) = (detok l1 ++ t.form) ++ c :: b by simp, hr1, hr1] at he
  have := congrArg List.length he
  simp at this

end Props

def exA : Wd := { id := 1, parent := 0, form := ['a'] }
def exB : Wd := { id := 2, parent := 0, form := ['b'] }
def exC : Wd := { id := 3, parent := 0, form := ['.'] }
def exSent : Sent where
  ws := [exA, exB, exC]
  mwts := [⟨[1, 2], ['a', ' ', 'b'], put (fun _ => none) sa (some (.str ['N', 'o']))⟩]
  next := 4

example : (run exSent).mwts.length = 0 ∧ computeText true exSent.toTree = ['a', ' ', 'b', '.'] ∧
    computeText true (run exSent).toTree = ['a', ' ', 'b', ' ', '.'] := by decide +kernel

end Verif.Text.MwtSpace
