import Verif.Blocks.Basic
import Verif.Deprel.Props

/-!
# Property C91: ud.FixMultiSubjects (udapi/block/ud/fixmultisubjects.py)

Regular expressions are Boolean functions on strings. `$` matches at the end and before a newline at the end.
-/

namespace Verif.Blocks
open Verif.Py Verif.Tree Verif.Deprel

def sNsubj : Str := ['n', 's', 'u', 'b', 'j']
def sCsubj : Str := ['c', 's', 'u', 'b', 'j']
def sColonOuter : Str := [':', 'o', 'u', 't', 'e', 'r']
def sObl : Str := ['o', 'b', 'l']
def sAdvcl : Str := ['a', 'd', 'v', 'c', 'l']

/-- `(:|$)` at the beginning of a string. -/
def colonOrEnd : Str → Bool
  | [] => true
  | c :: t => c = ':' || (c = '\n' && t = [])

/-- `re.match(r"^[nc]subj(:|$)", s)` -/
def matchSubj (s : Str) : Bool := (s.take 5 = sNsubj || s.take 5 = sCsubj) && colonOrEnd (s.drop 5)

/-- `re.search(r":outer$", s)` -/
def matchOuter (s : Str) : Bool := sColonOuter.isSuffixOf s || (sColonOuter ++ ['\n']).isSuffixOf s

/-- `[x for x in node.children if re.match(...) and not re.search(...)]` (fixmultisubjects.py:15). `none`: `TypeError`, a relation is
`None`. -/
def subjects (d : Rels) : List Nat → Option (List Nat)
  | [] => some []
  | c :: cs =>
    match d c with
    | none => none
    | some s => (subjects d cs).map (fun l => if matchSubj s && !matchOuter s then c :: l else l)

/-- `for s in subjects: ...` (fixmultisubjects.py:19-23) -/
def demoteAll : List Nat → Rels → Rels
  | [], d => d
  | x :: xs, d => demoteAll xs (upd d x (if (d x).bind List.head? = some 'n' then some sObl else some sAdvcl))

/-- `FixMultiSubjects.process_node` (fixmultisubjects.py:14-23) -/
def subjStep (h : Heap) (d : Rels) (x : Nat) : Rels × Option Err :=
  match subjects d (h.children x) with
  | none => (d, some .typeError)
  | some l => (demoteAll l.tail d, none)

/-- `ud.FixMultiSubjects` on one tree. -/
def fixMultiSubjects (h : Heap) (d : Rels) (r : Nat) : Rels × Option Err := forNodes (subjStep h) d (h.words r)

/-! ## Specification vocabulary -/

/-- A subject that is not marked as outer: the universal part is `nsubj` or `csubj`, and the last subtype is not `outer`. -/
def Subject (o : Option Str) : Prop :=
  (getU o = some sNsubj ∨ getU o = some sCsubj) ∧ ¬ ∃ t, o = some (t ++ sColonOuter)

/-- `x` has an earlier sibling that is a subject. -/
def AfterSubject (h : Heap) (d : Rels) (x : Nat) : Prop :=
  ∃ y p, h.parent x = some p ∧ y ∈ h.children p ∧ h.ord y < h.ord x ∧ Subject (d y)

/-! ## Proofs -/

theorem getU_eq_iff {u : Str} (hu : ':' ∉ u) (s : Str) : getU (some s) = some u ↔ s = u ∨ ∃ t, s = u ++ ':' :: t := by
  rw [getU_some, Option.some.injEq]
  have he := splitOnce_eq ':' s
  constructor
  · intro h
    rcases hs : splitOnce ':' s with ⟨a, b⟩
    rw [hs] at h he
    simp only at h he
    subst h
    cases b with
    | none => exact .inl (by simpa [tailOf] using he.symm)
    | some t => exact .inr ⟨t, by simpa [tailOf] using he.symm⟩
  · rintro (rfl | ⟨t, rfl⟩)
    · rw [splitOnce_of_not_mem hu]
    · rw [splitOnce_append hu]

theorem subj_iff {s : Str} (hn : '\n' ∉ s) : (matchSubj s && !matchOuter s) = true ↔ Subject (some s) := by
  have hm : matchSubj s = true ↔ getU (some s) = some sNsubj ∨ getU (some s) = some sCsubj := by
    have key : ∀ u : Str, u.length = 5 → ':' ∉ u → ((s.take 5 = u ∧ colonOrEnd (s.drop 5) = true) ↔ getU (some s) = some u) := by
      intro u hl hu
      rw [getU_eq_iff hu]
      constructor
      · rintro ⟨h1, h2⟩
        have hs := List.take_append_drop 5 s
        rw [h1] at hs
        cases hd : s.drop 5 with
        | nil => rw [hd] at hs; exact .inl (by simpa using hs.symm)
        | cons c t =>
          rw [hd] at h2 hs
          simp only [colonOrEnd, Bool.or_eq_true, decide_eq_true_eq, Bool.and_eq_true] at h2
          rcases h2 with rfl | ⟨rfl, _⟩
          · exact .inr ⟨t, hs.symm⟩
          · exact absurd (by rw [← hs]; simp) hn
      · rintro (rfl | ⟨t, rfl⟩)
        · rw [List.take_of_length_le (by omega), List.drop_of_length_le (by omega)]
          exact ⟨rfl, rfl⟩
        · rw [List.take_append_of_le_length (by omega), List.take_of_length_le (by omega), List.drop_append_of_le_length (by omega),
            List.drop_of_length_le (by omega)]
          exact ⟨rfl, by simp [colonOrEnd]⟩
    rw [← key sNsubj rfl (by decide), ← key sCsubj rfl (by decide)]
    unfold matchSubj
    simp only [Bool.and_eq_true, Bool.or_eq_true, decide_eq_true_eq]
    constructor
    · rintro ⟨h1 | h1, h2⟩
      · exact .inl ⟨h1, h2⟩
      · exact .inr ⟨h1, h2⟩
    · rintro (⟨h1, h2⟩ | ⟨h1, h2⟩)
      · exact ⟨.inl h1, h2⟩
      · exact ⟨.inr h1, h2⟩
  have ho : matchOuter s = true ↔ ∃ t, some s = some (t ++ sColonOuter) := by
    unfold matchOuter
    simp only [Bool.or_eq_true, List.isSuffixOf_iff_suffix, Option.some.injEq]
    constructor
    · rintro (⟨t, ht⟩ | ⟨t, ht⟩)
      · exact ⟨t, ht.symm⟩
      · exact absurd (by rw [← ht]; simp) hn
    · rintro ⟨t, ht⟩
      exact .inl ⟨t, ht.symm⟩
  unfold Subject
  rw [Bool.and_eq_true, hm, Bool.not_eq_true', ← Bool.not_eq_true, ho]

/-- No relation is missing and none contains a newline. -/
def Clean (d : Rels) (l : List Nat) : Prop := ∀ x ∈ l, ∃ s, d x = some s ∧ '\n' ∉ s

theorem subjects_spec {d : Rels} {l : List Nat} (hc : Clean d l) : ∃ m, subjects d l = some m ∧ m.Sublist l ∧
    ∀ x ∈ l, x ∈ m ↔ Subject (d x) := by
  induction l with
  | nil => exact ⟨[], rfl, List.Sublist.refl _, fun x hx => absurd hx List.not_mem_nil⟩
  | cons c l ih =>
    obtain ⟨m, hm, hs, hi⟩ := ih (fun x hx => hc x (List.mem_cons_of_mem _ hx))
    obtain ⟨s, hs1, hs2⟩ := hc c (List.mem_cons_self ..)
    have hb := subj_iff hs2
    unfold subjects
    rw [hs1, hm]
    refine ⟨_, rfl, ?_⟩
    simp only
    by_cases h : (matchSubj s && !matchOuter s) = true
    · rw [if_pos h]
      refine ⟨hs.cons_cons c, ?_⟩
      intro x hx
      by_cases hxc : x = c
      · subst hxc
        rw [hs1]
        simp [hb.1 h]
      · have hxl := (List.mem_cons.1 hx).resolve_left hxc
        rw [List.mem_cons]
        simp [hxc, hi x hxl]
    · rw [if_neg h]
      refine ⟨hs.cons c, ?_⟩
      intro x hx
      by_cases hxl : x ∈ l
      · exact hi x hxl
      · have hxc : x = c := (List.mem_cons.1 hx).resolve_right hxl
        subst hxc
        rw [hs1]
        constructor
        · intro hm; exact absurd (hs.subset hm) hxl
        · intro hb'; exact absurd (hb.2 hb') h

theorem demoteAll_spec : ∀ (l : List Nat) (d : Rels), l.Nodup → ∀ x,
    demoteAll l d x = if x ∈ l then (if (d x).bind List.head? = some 'n' then some sObl else some sAdvcl) else d x
  | [], d, _, x => by simp [demoteAll]
  | y :: l, d, hn, x => by
    rw [List.nodup_cons] at hn
    unfold demoteAll
    rw [demoteAll_spec l _ hn.2]
    by_cases hx : x = y
    · subst hx
      rw [if_neg hn.1, upd_same, if_pos (List.mem_cons_self ..)]
    · rw [upd_ne _ _ hx]
      simp [hx]

/-- One word of the loop. -/
theorem subjStep_spec {h : Heap} {r x : Nat} {d : Rels} (w : WF h r) (hx : InTree h r x) (hc : Clean d (h.children x)) :
    ∃ d', subjStep h d x = (d', none) ∧ (∀ y, h.parent y ≠ some x → d' y = d y) ∧ (∀ y, y ∉ h.words r → d' y = d y) ∧
      ∀ y ∈ h.children x, (Subject (d y) ∧ (∃ z ∈ h.children x, h.ord z < h.ord y ∧ Subject (d z)) →
          d' y = some (if getU (d y) = some sNsubj then sObl else sAdvcl)) ∧
        (¬ (Subject (d y) ∧ (∃ z ∈ h.children x, h.ord z < h.ord y ∧ Subject (d z))) → d' y = d y) := by
  obtain ⟨m, hm, hsub, hiff⟩ := subjects_spec hc
  have hnd := w.children_nodup hx
  have hso := (w.childSorted x hx).sublist hsub
  have hmn : m.Nodup := hnd.sublist hsub
  have htn : m.tail.Nodup := hmn.sublist (List.tail_sublist m)
  have htail : ∀ y ∈ h.children x, y ∈ m.tail ↔ (Subject (d y) ∧ ∃ z ∈ h.children x, h.ord z < h.ord y ∧ Subject (d z)) := by
    intro y hy
    cases m with
    | nil =>
      constructor
      · intro h; exact absurd h List.not_mem_nil
      · rintro ⟨h1, _⟩
        exact absurd ((hiff y hy).2 h1) List.not_mem_nil
    | cons a m =>
      rw [List.pairwise_cons] at hso
      rw [List.nodup_cons] at hmn
      have hax : a ∈ h.children x := hsub.subset (List.mem_cons_self ..)
      constructor
      · intro hyt
        exact ⟨(hiff y hy).1 (List.mem_cons_of_mem _ hyt), a, hax, hso.1 y hyt, (hiff a hax).1 (List.mem_cons_self ..)⟩
      · rintro ⟨h1, z, hz, hlt, hzs⟩
        rcases List.mem_cons.1 ((hiff y hy).2 h1) with rfl | hyt
        · rcases List.mem_cons.1 ((hiff z hz).2 hzs) with rfl | hzt
          · omega
          · have := hso.1 z hzt
            omega
        · exact hyt
  have hsubset : ∀ y, y ∈ m.tail → y ∈ h.children x := fun y hy => hsub.subset (List.mem_of_mem_tail hy)
  refine ⟨demoteAll m.tail d, by unfold subjStep; rw [hm], ?_, ?_, ?_⟩
  · intro y hy
    rw [demoteAll_spec _ _ htn, if_neg (fun hm => hy (w.child_parent hx (hsubset y hm)))]
  · intro y hy
    rw [demoteAll_spec _ _ htn, if_neg (fun hm => hy (w.child_mem hx (hsubset y hm)))]
  · intro y hy
    constructor
    · intro hcond
      rw [demoteAll_spec _ _ htn, if_pos ((htail y hy).2 hcond)]
      rcases hcond.1.1 with hn | hn
      · rw [if_pos hn]
        rw [if_pos ?_]
        cases hdy : d y with
        | none => rw [hdy] at hn; simp [getU] at hn
        | some s =>
          rw [hdy] at hn
          rcases (getU_eq_iff (by decide) s).1 hn with rfl | ⟨t, rfl⟩ <;> rfl
      · have h1 : getU (d y) ≠ some sNsubj := by rw [hn]; decide
        rw [if_neg h1, if_neg ?_]
        cases hdy : d y with
        | none => rw [hdy] at hn; simp [getU] at hn
        | some s =>
          rw [hdy] at hn
          rcases (getU_eq_iff (by decide) s).1 hn with rfl | ⟨t, rfl⟩
          · decide
          · simp [sCsubj]
    · intro hcond
      rw [demoteAll_spec _ _ htn, if_neg (fun hm => hcond ((htail y hy).1 hm))]

/-- C91, the part that holds: if all relations are strings without newlines, ud.FixMultiSubjects accepts the tree. A subject below a
word that has an earlier sibling that is a subject becomes `obl` or `advcl`, and no other relation changes.
What is missing: children of the root, and relations that are `None`. -/
theorem C91_changed_partial {h : Heap} {r : Nat} (hi : Inv h) (hr : IsTree h r) (d : Rels) (hc : Clean d (h.words r)) :
    ∃ d', fixMultiSubjects h d r = (d', none) ∧ (∀ x, x ∉ h.words r → d' x = d x) ∧ (∀ x, h.parent x = some r → d' x = d x) ∧
      ∀ x ∈ h.words r, h.parent x ≠ some r →
        (Subject (d x) ∧ AfterSubject h d x → d' x = some (if getU (d x) = some sNsubj then sObl else sAdvcl)) ∧
        (¬ (Subject (d x) ∧ AfterSubject h d x) → d' x = d x) := by
  have w := hi r hr
  obtain ⟨d', e, hout, hun, hdone⟩ := forNodes_inv (subjStep h)
    (fun done k => (∀ x, x ∉ h.words r → k x = d x) ∧ (∀ x p, h.parent x = some p → p ∉ done → k x = d x) ∧
      ∀ x ∈ h.words r, ∀ p, h.parent x = some p → p ∈ done →
        (Subject (d x) ∧ AfterSubject h d x → k x = some (if getU (d x) = some sNsubj then sObl else sAdvcl)) ∧
        (¬ (Subject (d x) ∧ AfterSubject h d x) → k x = d x))
    (h.words r) (by
      intro done p rest k hl ⟨hout, hun, hdone⟩
      have hp : p ∈ h.words r := by rw [hl]; simp
      have hpd : p ∉ done := by
        have := w.nodup
        rw [hl, List.nodup_append] at this
        intro hm
        exact this.2.2 p hm p (List.mem_cons_self ..) rfl
      have hsame : ∀ y ∈ h.children p, k y = d y := fun y hy => hun y p (w.child_parent (.inr hp) hy) hpd
      obtain ⟨k', ek, ho1, ho2, hch⟩ := subjStep_spec (d := k) w (.inr hp) (fun y hy => by
        rw [hsame y hy]
        exact hc y (w.child_mem (.inr hp) hy))
      refine ⟨k', ek, ?_, ?_, ?_⟩
      · intro x hx
        rw [ho2 x hx, hout x hx]
      · intro x q hq hqd
        have hqp : q ≠ p := fun e => hqd (by rw [e]; simp)
        rw [ho1 x (by rw [hq]; exact fun e => hqp (Option.some.inj e)), hun x q hq (fun e => hqd (List.mem_append_left _ e))]
      · intro x hx q hq hqd
        by_cases hqp : q = p
        · subst hqp
          have hxc := w.mem_children hx hq
          have hiff : (Subject (k x) ∧ ∃ z ∈ h.children q, h.ord z < h.ord x ∧ Subject (k z)) ↔
              (Subject (d x) ∧ AfterSubject h d x) := by
            rw [hsame x hxc]
            constructor
            · rintro ⟨h1, z, hz, hlt, hzs⟩
              exact ⟨h1, z, q, hq, hz, hlt, by rw [← hsame z hz]; exact hzs⟩
            · rintro ⟨h1, z, q', hq', hz, hlt, hzs⟩
              rw [hq] at hq'
              obtain rfl := Option.some.inj hq'
              exact ⟨h1, z, hz, hlt, by rw [hsame z hz]; exact hzs⟩
          have := hch x hxc
          rw [hiff, hsame x hxc] at this
          exact this
        · rw [ho1 x (by rw [hq]; exact fun e => hqp (Option.some.inj e))]
          rw [List.mem_append, List.mem_singleton] at hqd
          exact hdone x hx q hq (hqd.resolve_right hqp))
    d ⟨fun _ _ => rfl, fun _ _ _ _ => rfl, fun _ _ p _ hp => absurd hp List.not_mem_nil⟩
  refine ⟨d', e, hout, fun x hx => hun x r hx w.root_not_mem, ?_⟩
  intro x hx hpr
  obtain ⟨p, hp, hpin⟩ := w.parentIn x hx
  rcases hpin with rfl | hpw
  · exact absurd hp hpr
  · exact hdone x hx p hp hpw

/-- C91 for words: after the block, a word has at most one child that is a subject. -/
theorem C91_one_subject_partial {h : Heap} {r : Nat} (hi : Inv h) (hr : IsTree h r) (d : Rels) (hc : Clean d (h.words r)) :
    ∃ d', fixMultiSubjects h d r = (d', none) ∧ ∀ p ∈ h.words r, ∀ x ∈ h.children p, ∀ y ∈ h.children p,
      Subject (d' x) → Subject (d' y) → x = y := by
  have w := hi r hr
  obtain ⟨d', e, _, _, hch⟩ := C91_changed_partial hi hr d hc
  refine ⟨d', e, ?_⟩
  have key : ∀ p ∈ h.words r, ∀ x ∈ h.children p, ∀ y ∈ h.children p, Subject (d' x) → Subject (d' y) → ¬ h.ord x < h.ord y := by
    intro p hp x hx y hy hsx hsy hlt
    have hpx := w.child_parent (.inr hp) hx
    have hpy := w.child_parent (.inr hp) hy
    have hpr : p ≠ r := fun e => w.root_not_mem (e ▸ hp)
    have hkeep : ∀ z ∈ h.children p, Subject (d' z) → d' z = d z := by
      intro z hz hsz
      have hpz := w.child_parent (.inr hp) hz
      have := hch z (w.child_mem (.inr hp) hz) (by rw [hpz]; exact fun e => hpr (Option.some.inj e))
      by_cases hcond : Subject (d z) ∧ AfterSubject h d z
      · rw [this.1 hcond] at hsz
        exfalso
        split at hsz
        · rcases hsz.1 with h | h <;> exact absurd h (by decide)
        · rcases hsz.1 with h | h <;> exact absurd h (by decide)
      · exact this.2 hcond
    have hx' := hkeep x hx hsx
    have hy' := hkeep y hy hsy
    have hcond : Subject (d y) ∧ AfterSubject h d y := ⟨hy' ▸ hsy, x, p, hpy, hx, hlt, hx' ▸ hsx⟩
    have := (hch y (w.child_mem (.inr hp) hy) (by rw [hpy]; exact fun e => hpr (Option.some.inj e))).1 hcond
    rw [this] at hsy
    split at hsy
    · rcases hsy.1 with h | h <;> exact absurd h (by decide)
    · rcases hsy.1 with h | h <;> exact absurd h (by decide)
  intro p hp x hx y hy hsx hsy
  have h1 := key p hp x hx y hy hsx hsy
  have h2 := key p hp y hy x hx hsy hsx
  exact w.ord_inj (.inr (w.child_mem (.inr hp) hx)) (.inr (w.child_mem (.inr hp) hy)) (by omega)

/-- C91 does not hold for the root: its children keep their relations, so several subjects stay. -/
theorem C91_root_violated {h : Heap} {r : Nat} (hi : Inv h) (hr : IsTree h r) (d : Rels) (hc : Clean d (h.words r)) {x y : Nat}
    (hx : h.parent x = some r) (hy : h.parent y = some r) (hxy : x ≠ y) (hsx : Subject (d x)) (hsy : Subject (d y)) :
    ∃ d', fixMultiSubjects h d r = (d', none) ∧ x ≠ y ∧ Subject (d' x) ∧ Subject (d' y) := by
  obtain ⟨d', e, _, hroot, _⟩ := C91_changed_partial hi hr d hc
  exact ⟨d', e, hxy, by rw [hroot x hx]; exact hsx, by rw [hroot y hy]; exact hsy⟩

theorem subjects_none {d : Rels} {x : Nat} : ∀ l : List Nat, x ∈ l → d x = none → subjects d l = none
  | [], h, _ => absurd h List.not_mem_nil
  | c :: l, h, hd => by
    unfold subjects
    by_cases hc : x = c
    · rw [← hc, hd]
    · rw [subjects_none l ((List.mem_cons.1 h).resolve_left hc) hd]
      cases d c <;> rfl

/-- C91 does not hold if the relation of a child of a word is `None`: the block raises. -/
theorem C91_none_violated {h : Heap} {r : Nat} (hi : Inv h) (hr : IsTree h r) (d : Rels) {x p : Nat} (hp : p ∈ h.words r)
    (hxp : h.parent x = some p) (hx : x ∈ h.words r) (hd : d x = none) : (fixMultiSubjects h d r).2 = some .typeError := by
  have w := hi r hr
  have hxc := w.mem_children hx hxp
  have hstep : ∀ (k : Rels) (y : Nat), (subjStep h k y).2 = some .typeError ∨ (subjStep h k y).2 = none := by
    intro k y
    unfold subjStep
    split
    · exact .inl rfl
    · exact .inr rfl
  have hsub : ∀ (k : Rels) (l m : List Nat), subjects k l = some m → ∀ y ∈ m, k y ≠ none := by
    intro k l
    induction l with
    | nil =>
      intro m hm y hy
      simp only [subjects, Option.some.injEq] at hm
      subst hm
      exact absurd hy List.not_mem_nil
    | cons c l ih =>
      intro m hm y hy
      unfold subjects at hm
      split at hm
      · exact absurd hm (by simp)
      · rename_i s hs
        cases hsl : subjects k l with
        | none => rw [hsl] at hm; exact absurd hm (by simp)
        | some m' =>
          rw [hsl, Option.map_some, Option.some.injEq] at hm
          subst hm
          split at hy
          · rcases List.mem_cons.1 hy with rfl | hy
            · rw [hs]; simp
            · exact ih m' hsl y hy
          · exact ih m' hsl y hy
  have hdem : ∀ (l : List Nat) (k : Rels), (∀ y ∈ l, k y ≠ none) → k x = none → demoteAll l k x = none := by
    intro l
    induction l with
    | nil => intro k _ hk; exact hk
    | cons y l ih =>
      intro k hl hk
      unfold demoteAll
      have hyx : x ≠ y := fun e => hl y (List.mem_cons_self ..) (e ▸ hk)
      apply ih
      · intro z hz
        by_cases hzy : z = y
        · subst hzy; rw [upd_same]; split <;> simp
        · rw [upd_ne _ _ hzy]; exact hl z (List.mem_cons_of_mem _ hz)
      · rw [upd_ne _ _ hyx, hk]
  have hkeep : ∀ (k : Rels) (y : Nat), k x = none → (subjStep h k y).1 x = none := by
    intro k y hk
    unfold subjStep
    split
    · exact hk
    · rename_i m hm
      exact hdem _ _ (fun z hz => hsub k _ m hm z (List.mem_of_mem_tail hz)) hk
  have main : ∀ (l : List Nat) (k : Rels), p ∈ l → k x = none → (forNodes (subjStep h) k l).2 = some .typeError := by
    intro l
    induction l with
    | nil => intro k hm _; exact absurd hm List.not_mem_nil
    | cons y l ih =>
      intro k hm hk
      unfold forNodes
      have h1 := hstep k y
      have h2 := hkeep k y hk
      cases hs : subjStep h k y with
      | mk k' o =>
        rw [hs] at h1 h2
        simp only at h1 h2
        cases o with
        | some e =>
          rcases h1 with h1 | h1
          · exact h1
          · exact absurd h1 (by simp)
        | none =>
          simp only
          by_cases hy : p = y
          · subst hy
            have : subjStep h k p = (k, some .typeError) := by
              unfold subjStep
              rw [subjects_none _ hxc hk]
            rw [this] at hs
            exact absurd (congrArg Prod.snd hs) (by simp)
          · exact ih k' ((List.mem_cons.1 hm).resolve_left hy) h2
  exact main (h.words r) d hp hd

/-- A word with three children. -/
def exThree : Heap := createChild (createChild (createChild (createChild (newTree Heap.init) 0) 1) 1) 1

def exThreeRels : Rels := fun x => if x = 1 then some dRoot else if x = 2 then some (sNsubj ++ sColonOuter) else if x = 3 then some sCsubj
  else some (sNsubj ++ [':', 'p', 'a', 's', 's'])

example : (fixMultiSubjects exThree exThreeRels 0).2 = none ∧ (fixMultiSubjects exThree exThreeRels 0).1 2 = some (sNsubj ++ sColonOuter) ∧
    (fixMultiSubjects exThree exThreeRels 0).1 3 = some sCsubj ∧ (fixMultiSubjects exThree exThreeRels 0).1 4 = some sObl ∧
    (fixMultiSubjects exThree (upd exThreeRels 4 none) 0).2 = some .typeError := by decide +kernel

end Verif.Blocks
