import Verif.Text.Comply

/-!
# Property C123: the differences of ud.ComplyWithText start at tokens and cover the tree and the text
-/

namespace Verif.Text.Comply
open Verif.Py
open Verif.Eval.Diff (Op Tag opcodes Ops opcodes_ops)

/-- There are only spaces from `a` to `b`. -/
def Sp (s : Str) (a b : Nat) : Prop := ∀ k, a ≤ k → k < b → s[k]? = some ' '

theorem sp_empty (s : Str) (a : Nat) : Sp s a a := fun k h1 h2 => by omega

theorem Sp.mono {s : Str} {a b a' b' : Nat} (h : Sp s a b) (h1 : a ≤ a') (h2 : b' ≤ b) : Sp s a' b' :=
  fun k h3 h4 => h k (by omega) (by omega)

theorem Sp.trans {s : Str} {a b c d : Nat} (h : Sp s a b) (h' : Sp s c d) (h1 : c ≤ b) : Sp s a d := fun k h3 h4 => by
  by_cases hk : k < b
  · exact h k h3 hk
  · exact h' k (by omega) h4

theorem slice_get (s : Str) (lo hi t : Nat) : (slice s lo hi)[t]? = if lo + t < hi then s[lo + t]? else none := by
  unfold slice
  rw [List.getElem?_drop, List.getElem?_take]

theorem slice_length (s : Str) (lo hi : Nat) : (slice s lo hi).length = min hi s.length - lo := by
  simp [slice]

theorem slice_nil {s : Str} {lo hi : Nat} (h : hi ≤ s.length) : slice s lo hi = [] ↔ hi ≤ lo := by
  rw [List.eq_nil_iff_length_eq_zero, slice_length]
  omega

theorem slice_eq {s t : Str} {a b c d : Nat} (h1 : b - a = d - c) (h : ∀ k, k < b - a → s[a + k]? = t[c + k]?) :
    slice s a b = slice t c d := by
  apply List.ext_getElem?
  intro k
  rw [slice_get, slice_get]
  by_cases hk : a + k < b
  · rw [if_pos hk, if_pos (by omega), h k (by omega)]
  · rw [if_neg hk, if_neg (by omega)]

theorem slice_get_of_eq {s t : Str} {a b c d : Nat} (h : slice s a b = slice t c d) (hb : b ≤ s.length) (hd : d ≤ t.length) :
    b - a = d - c ∧ ∀ k, k < b - a → s[a + k]? = t[c + k]? := by
  have hl := congrArg List.length h
  rw [slice_length, slice_length] at hl
  refine ⟨by omega, fun k hk => ?_⟩
  have := congrArg (fun l => l[k]?) h
  simp only [slice_get] at this
  rwa [if_pos (by omega), if_pos (by omega)] at this

/-! ## `unspace_diffs` -/

theorem isSp_ok {s : Str} {k : Nat} {b : Bool} (h : isSp s k = .ok b) : b = true ↔ s[k]? = some ' ' := by
  unfold isSp at h
  split at h
  · next c e =>
    injection h with h
    rw [← h, e]
    simp
  · cases h

theorem isSpBefore_ok {s : Str} {k : Nat} {b : Bool} (h : isSpBefore s k = .ok b) :
    (0 < k → (b = true ↔ s[k - 1]? = some ' ')) ∧ (k = 0 → b = true → s.getLast? = some ' ') := by
  unfold isSpBefore at h
  split at h
  · next hk =>
    refine ⟨fun h0 => by omega, fun _ hb => ?_⟩
    split at h
    · next c e =>
      injection h with h
      rw [hb] at h
      rw [e]
      simpa using h
    · cases h
  · next hk => exact ⟨fun _ => isSp_ok h, fun h0 => absurd h0 hk⟩

/-- What `unspace_diffs` makes of a diff: the range without spaces at its ends. -/
structure Un (tree text : Str) (o d : Op) : Prop where
  i1 : o.i1 ≤ d.i1
  si1 : Sp tree o.i1 d.i1
  i2 : d.i2 ≤ o.i2
  si2 : Sp tree d.i2 o.i2
  ge : o.i1 ≤ d.i2
  j1 : o.j1 ≤ d.j1
  sj1 : Sp text o.j1 d.j1
  j2 : d.j2 ≤ o.j2
  sj2 : Sp text d.j2 o.j2
  ins : d.tag = .insert → d.i2 ≤ d.i1
  non : d.tag ≠ .insert → d.i1 < d.i2
  eq : d.tag = .equal → d.i2 - d.i1 = d.j2 - d.j1 ∧ d.j1 < d.j2 ∧ ∀ t, t < d.i2 - d.i1 → tree[d.i1 + t]? = text[d.j1 + t]?
  del : d.tag = .delete → d.j2 ≤ d.j1
  same : o.tag = .insert → d = o

theorem unspace1_spec {tree text : Str} {i j : Nat} {o : Op} {rest : List Op} (ho : Ops tree text i j (o :: rest))
    (hi : o.i2 ≤ tree.length) (hj : o.j2 ≤ text.length) (hl : text.getLast? ≠ some ' ') {r : Option Op}
    (h : unspace1 tree text o = .ok r) :
    (r = none → Sp tree o.i1 o.i2 ∧ Sp text o.j1 o.j2) ∧ ∀ d, r = some d → Un tree text o d := by
  obtain ⟨⟨e1, e2, h1, h2, hm⟩, _⟩ := ho
  subst e1 e2
  by_cases hins : o.tag = .insert
  · have hm : o.i2 = o.i1 ∧ o.j1 < o.j2 := by rw [hins] at hm; exact hm
    have hold : slice tree o.i1 o.i2 = [] := (slice_nil hi).2 (by omega)
    have hnew : slice text o.j1 o.j2 ≠ [] := fun e => by have := (slice_nil hj).1 e; omega
    have : unspace1 tree text o = .ok (some o) := by
      unfold unspace1
      rw [if_pos hins]
      simp only [bind, Except.bind, hold]
      rw [if_neg (fun hx => hnew hx.2), if_neg (fun hx => hnew hx.symm), if_pos trivial]
      rw [← hins]
    rw [this] at h
    injection h with h
    subst h
    refine ⟨fun e => (by cases e), ?_⟩
    intro d hd
    have hd := Option.some.inj hd
    subst hd
    exact { i1 := Nat.le_refl _, si1 := sp_empty _ _, i2 := Nat.le_refl _, si2 := sp_empty _ _, ge := by omega, j1 := Nat.le_refl _,
            sj1 := sp_empty _ _, j2 := Nat.le_refl _, sj2 := sp_empty _ _, ins := fun _ => by omega, non := fun hx => absurd hins hx,
            eq := fun hx => (by rw [hins] at hx; cases hx), del := fun hx => (by rw [hins] at hx; cases hx), same := fun _ => rfl }
  · have hlt : o.i1 < o.i2 := by
      cases ht : o.tag <;> rw [ht] at hm hins
      · exact hm.2.1
      · exact hm.1
      · exact hm.1
      · exact absurd rfl hins
    unfold unspace1 at h
    rw [if_neg hins] at h
    cases ha : isSp tree o.i1 with
    | error e => rw [ha] at h; cases h
    | ok a =>
    cases hb : isSpBefore tree o.i2 with
    | error e => rw [ha, hb] at h; cases h
    | ok b =>
    cases hc : isSp text o.j1 with
    | error e => rw [ha, hb, hc] at h; cases h
    | ok c =>
    cases hd : isSpBefore text o.j2 with
    | error e => rw [ha, hb, hc, hd] at h; cases h
    | ok d =>
    rw [ha, hb, hc, hd] at h
    simp only [bind, Except.bind] at h
    have ha := isSp_ok ha
    have hb := (isSpBefore_ok hb).1 (by omega)
    have hc := isSp_ok hc
    have hd0 := (isSpBefore_ok hd).2
    have hd := (isSpBefore_ok hd).1
    -- the new ranges
    generalize hilo : (if a = true then o.i1 + 1 else o.i1) = ilo at h
    generalize hihi : (if b = true then o.i2 - 1 else o.i2) = ihi at h
    generalize hjlo : (if c = true then o.j1 + 1 else o.j1) = jlo at h
    generalize hjhi : (if d = true then o.j2 - 1 else o.j2) = jhi at h
    have A : o.i1 ≤ ilo ∧ Sp tree o.i1 ilo ∧ ilo ≤ o.i1 + 1 := by
      subst hilo
      cases a with
      | false => exact ⟨Nat.le_refl _, sp_empty _ _, by simp⟩
      | true =>
        refine ⟨by simp, ?_, by simp⟩
        intro k h1 h2
        have : k = o.i1 := by simp at h2; omega
        rw [this]; exact ha.1 rfl
    have B : ihi ≤ o.i2 ∧ Sp tree ihi o.i2 ∧ o.i2 ≤ ihi + 1 := by
      subst hihi
      cases b with
      | false => exact ⟨Nat.le_refl _, sp_empty _ _, by simp⟩
      | true =>
        refine ⟨by simp, ?_, by simp; omega⟩
        intro k h1 h2
        have : k = o.i2 - 1 := by simp at h1; omega
        rw [this]; exact hb.1 rfl
    have C : o.j1 ≤ jlo ∧ Sp text o.j1 jlo ∧ jlo ≤ o.j1 + 1 := by
      subst hjlo
      cases c with
      | false => exact ⟨Nat.le_refl _, sp_empty _ _, by simp⟩
      | true =>
        refine ⟨by simp, ?_, by simp⟩
        intro k h1 h2
        have : k = o.j1 := by simp at h2; omega
        rw [this]; exact hc.1 rfl
    have D : jhi ≤ o.j2 ∧ Sp text jhi o.j2 ∧ o.j2 ≤ jhi + 1 := by
      subst hjhi
      cases d with
      | false => exact ⟨Nat.le_refl _, sp_empty _ _, by simp⟩
      | true =>
        by_cases hz : o.j2 = 0
        · exact absurd (hd0 hz rfl) hl
        · refine ⟨by simp, ?_, by simp; omega⟩
          intro k h1 h2
          have : k = o.j2 - 1 := by simp at h1; omega
          rw [this]; exact (hd (by omega)).1 rfl
    have hold := slice_nil (s := tree) (lo := ilo) (hi := ihi) (by omega)
    have hnew := slice_nil (s := text) (lo := jlo) (hi := jhi) (by omega)
    by_cases hnil : slice tree ilo ihi = [] ∧ slice text jlo jhi = []
    · rw [if_pos hnil] at h
      injection h with h
      subst h
      refine ⟨fun _ => ⟨?_, ?_⟩, fun d hd => by cases hd⟩
      · exact A.2.1.trans B.2.1 (hold.1 hnil.1)
      · exact C.2.1.trans D.2.1 (hnew.1 hnil.2)
    · rw [if_neg hnil] at h
      injection h with h
      subst h
      refine ⟨fun e => (by cases e), ?_⟩
      intro d' hd'
      have hd' := Option.some.inj hd'
      -- an `equal` diff stays equal
      have heq : o.tag = .equal → slice tree ilo ihi = slice text jlo jhi := by
        intro ht
        rw [ht] at hm
        have hm : o.i2 - o.i1 = o.j2 - o.j1 ∧ o.i1 < o.i2 ∧ ∀ t, t < o.i2 - o.i1 → tree[o.i1 + t]? = text[o.j1 + t]? := hm
        have hac : a = c := by
          have h0 := hm.2.2 0 (by omega)
          simp only [Nat.add_zero] at h0
          rw [h0] at ha
          exact Bool.eq_iff_iff.2 (ha.trans hc.symm)
        have hbd : b = d := by
          have h0 := hm.2.2 (o.i2 - o.i1 - 1) (by omega)
          rw [show o.i1 + (o.i2 - o.i1 - 1) = o.i2 - 1 by omega, show o.j1 + (o.i2 - o.i1 - 1) = o.j2 - 1 by omega] at h0
          rw [h0] at hb
          exact Bool.eq_iff_iff.2 (hb.trans (hd (by omega)).symm)
        subst hac hbd
        apply slice_eq
        · subst hilo hihi hjlo hjhi
          cases a <;> cases b <;> simp <;> omega
        · intro k hk
          subst hilo hihi hjlo hjhi
          cases a with
          | false => exact hm.2.2 k (by simp at hk; omega)
          | true =>
            have := hm.2.2 (k + 1) (by simp at hk; omega)
            simp only [if_true]
            rw [show o.i1 + 1 + k = o.i1 + (k + 1) by omega, show o.j1 + 1 + k = o.j1 + (k + 1) by omega]
            exact this
      have key : ∀ tag : Tag, (tag = .insert → slice tree ilo ihi = []) → (tag ≠ .insert → slice tree ilo ihi ≠ []) →
          (tag = .equal → slice tree ilo ihi = slice text jlo jhi) → (tag = .delete → jhi ≤ jlo) →
          Un tree text o ⟨tag, ilo, ihi, jlo, jhi⟩ := by
        intro tag k1 k2 k3 k4
        refine { i1 := A.1, si1 := A.2.1, i2 := B.1, si2 := B.2.1, ge := by show o.i1 ≤ ihi; omega, j1 := C.1, sj1 := C.2.1, j2 := D.1,
                 sj2 := D.2.1, ins := fun hx => hold.1 (k1 hx), non := ?_, eq := ?_, del := k4, same := fun hx => absurd hx hins }
        · intro hx
          exact Nat.lt_of_not_le (fun hx' => k2 hx (hold.2 hx'))
        · intro hx
          have e := k3 hx
          obtain ⟨g1, g2⟩ := slice_get_of_eq e (by omega) (by omega)
          refine ⟨g1, ?_, g2⟩
          have hx2 : tag ≠ .insert := by have : tag = .equal := hx; rw [this]; decide
          have : slice text jlo jhi ≠ [] := by rw [← e]; exact k2 hx2
          exact Nat.lt_of_not_le (fun hx' => this (hnew.2 hx'))
      subst hd'
      by_cases h3 : slice tree ilo ihi = slice text jlo jhi
      · rw [if_pos h3]
        refine key .equal (fun hx => (by cases hx)) (fun _ hx => hnil ⟨hx, h3 ▸ hx⟩) (fun _ => h3) (fun hx => (by cases hx))
      · rw [if_neg h3]
        by_cases h4 : slice tree ilo ihi = []
        · rw [if_pos h4]
          exact key .insert (fun _ => h4) (fun hx => absurd rfl hx) (fun hx => (by cases hx)) (fun hx => (by cases hx))
        · rw [if_neg h4]
          refine key o.tag (fun hx => absurd hx hins) (fun _ => h4) (fun hx => absurd (heq hx) h3) ?_
          intro hx
          rw [hx] at hm
          have := hm.2
          omega

/-! ## `merge_diffs` -/

/-- What is known about `char_nodes`. -/
structure Cells (cn : List (Option Nat)) (tree : Str) : Prop where
  len : cn.length = tree.length
  start : ∀ k, start cn k = true → tree[k]? ≠ some ' '
  zero : tree ≠ [] → Comply.start cn 0 = true

/-- A merged diff between `(i0, j0)` and `(i, j)`. -/
structure Fits (cn : List (Option Nat)) (tree text : Str) (d : Op) (i0 j0 i j : Nat) : Prop where
  a1 : i0 ≤ d.i1
  s1 : Sp tree i0 d.i1
  le : d.i1 ≤ d.i2
  a2 : d.i2 ≤ i
  s2 : Sp tree d.i2 i
  b1 : j0 ≤ d.j1
  t1 : Sp text j0 d.j1
  b2 : d.j2 ≤ j
  t2 : Sp text d.j2 j
  mono : j0 ≤ j
  ins : d.tag = .insert → i0 = 0 ∧ j0 = 0 ∧ d.i1 = 0 ∧ d.i2 = 0 ∧ d.j1 = 0
  start : d.tag ≠ .insert → start cn d.i1 = true ∨ cn = []
  eq : d.tag = .equal → d.i2 - d.i1 = d.j2 - d.j1 ∧ d.j1 ≤ d.j2 ∧ ∀ t, t < d.i2 - d.i1 → tree[d.i1 + t]? = text[d.j1 + t]?
  del : d.tag = .delete → d.j2 ≤ d.j1

/-- The merged diffs (from the last one) cover the tree up to `i` and the text up to `j`, except for spaces. -/
def Cov (cn : List (Option Nat)) (tree text : Str) : List Op → Nat → Nat → Prop
  | [], i, j => i = 0 ∧ j = 0
  | d :: ds, i, j => ∃ i0 j0, Cov cn tree text ds i0 j0 ∧ (d.tag = .insert → ds = []) ∧ Fits cn tree text d i0 j0 i j

theorem skip_spec (cn : List (Option Nat)) : ∀ (n i : Nat), skip cn i n ≤ n ∧ (skip cn i n < n → start cn (i + skip cn i n) = true) ∧
    ∀ k, k < skip cn i n → start cn (i + k) = false
  | 0, i => ⟨Nat.le_refl _, fun h => by simp [skip] at h, fun k hk => by simp [skip] at hk⟩
  | n + 1, i => by
    unfold skip
    by_cases h : start cn i = true
    · rw [if_pos h]
      exact ⟨by omega, fun _ => h, fun k hk => by omega⟩
    · rw [if_neg h]
      obtain ⟨h1, h2, h3⟩ := skip_spec cn n (i + 1)
      refine ⟨by omega, ?_, ?_⟩
      · intro hk
        have := h2 (by omega)
        rwa [show i + 1 + skip cn (i + 1) n = i + (skip cn (i + 1) n + 1) by omega] at this
      · intro k hk
        cases k with
        | zero => simpa using h
        | succ k =>
          have := h3 k (by omega)
          rwa [show i + 1 + k = i + (k + 1) by omega] at this

theorem back_spec (cn : List (Option Nat)) {i1 j1 : Nat} (hs : start cn i1 = true) : ∀ (p pt : Nat), i1 ≤ p → p - i1 = pt - j1 → j1 ≤ pt →
    ∃ q qt, back cn i1 j1 p pt = .ok (q, qt) ∧ i1 ≤ q ∧ q ≤ p ∧ start cn q = true ∧ q - i1 = qt - j1 ∧ j1 ≤ qt ∧ qt ≤ pt
  | 0, pt, h1, h2, h3 => by
    have : i1 = 0 := by omega
    subst this
    unfold back
    rw [if_pos hs]
    exact ⟨0, pt, rfl, Nat.le_refl _, Nat.le_refl _, hs, h2, h3, Nat.le_refl _⟩
  | p + 1, pt, h1, h2, h3 => by
    unfold back
    by_cases h : start cn (p + 1) = true
    · rw [if_pos h]
      exact ⟨p + 1, pt, rfl, h1, Nat.le_refl _, h, h2, h3, Nat.le_refl _⟩
    · rw [if_neg h]
      have hne : i1 ≠ p + 1 := fun e => h (e ▸ hs)
      have h0 : ¬ (p < i1 ∨ pt < j1 + 1) := by omega
      rw [if_neg h0]
      obtain ⟨q, qt, k1, k2, k3, k4, k5, k6, k7⟩ := back_spec cn (j1 := j1) hs p (pt - 1) (by omega) (by omega) (by omega)
      exact ⟨q, qt, k1, k2, by omega, k4, k5, k6, by omega⟩

theorem ops_bounds {a b : Str} : ∀ {os : List Op} {i j : Nat}, Ops a b i j os → i ≤ a.length ∧ j ≤ b.length
  | [], _, _, h => ⟨Nat.le_of_eq h.1, Nat.le_of_eq h.2⟩
  | o :: os, i, j, ⟨⟨_, _, h1, h2, _⟩, h⟩ => by
    have := ops_bounds h
    omega

theorem unspace_cons {tree text : Str} {o : Op} {os ds : List Op} (h : unspace tree text (o :: os) = .ok ds) :
    ∃ r ds', unspace1 tree text o = .ok r ∧ unspace tree text os = .ok ds' ∧ ds = r.toList ++ ds' := by
  unfold unspace at h
  cases h1 : unspace1 tree text o with
  | error e => rw [h1] at h; cases h
  | ok r =>
    cases h2 : unspace tree text os with
    | error e => rw [h1, h2] at h; cases h
    | ok ds' =>
      rw [h1, h2] at h
      injection h with h
      exact ⟨r, ds', rfl, rfl, h.symm⟩

/-- `merge_diffs` does not fail, and its result covers the tree and the text. -/
theorem merge_cov {cn : List (Option Nat)} {tree text : Str} (hc : Cells cn tree) (hl : text.getLast? ≠ some ' ')
    (hf : text.head? ≠ some ' ') :
    ∀ (os : List Op) (i j : Nat) (ds acc : List Op), Ops tree text i j os → unspace tree text os = .ok ds → Cov cn tree text acc i j →
    (∀ l ∈ acc.head?, l.tag = .equal → l.i1 < l.i2) →
    ∃ m, merge cn acc ds = .ok m ∧ Cov cn tree text m tree.length text.length
  | [], i, j, ds, acc, ho, hu, hcov, _ => by
    unfold unspace at hu
    injection hu with hu
    subst hu
    obtain ⟨rfl, rfl⟩ := ho
    exact ⟨acc, rfl, hcov⟩
  | o :: os, i, j, ds, acc, ho, hu, hcov, htop => by
    obtain ⟨r, ds', h1, h2, rfl⟩ := unspace_cons hu
    have ho' : Ops tree text o.i2 o.j2 os := ho.2
    have hb := ops_bounds ho'
    obtain ⟨hnone, hsome⟩ := unspace1_spec ho hb.1 hb.2 hl h1
    have e1 : o.i1 = i := ho.1.1
    have e2 : o.j1 = j := ho.1.2.1
    have hle1 : o.i1 ≤ o.i2 := by have := ho.1.2.2.1; omega
    have hle2 : o.j1 ≤ o.j2 := by have := ho.1.2.2.2.1; omega
    have nonempty : o.i1 < o.i2 ∨ o.j1 < o.j2 := by
      have hm := ho.1.2.2.2.2
      cases ht : o.tag <;> rw [ht] at hm
      · have := hm.2.1; omega
      · have := hm.1; omega
      · have := hm.1; omega
      · have := hm.2; omega
    have tree0 : tree[0]? ≠ some ' ' := by
      intro e
      have hne : tree ≠ [] := by rintro rfl; cases e
      exact hc.start 0 (hc.zero hne) e
    have text0 : text[0]? ≠ some ' ' := by rw [← List.head?_eq_getElem?]; exact hf
    cases r with
    | none =>
      obtain ⟨g1, g2⟩ := hnone rfl
      refine merge_cov hc hl hf os o.i2 o.j2 ds' acc ho' h2 ?_ htop
      cases acc with
      | nil =>
        exfalso
        obtain ⟨rfl, rfl⟩ := hcov
        rcases nonempty with hn | hn
        · exact tree0 (g1 0 (by omega) (by omega))
        · exact text0 (g2 0 (by omega) (by omega))
      | cons l acc =>
        obtain ⟨i0, j0, k1, k2, k3⟩ := hcov
        refine ⟨i0, j0, k1, k2, ?_⟩
        have := k3.a2
        have := k3.b2
        have := k3.mono
        exact { k3 with a2 := by omega, s2 := k3.s2.trans g1 (by omega), b2 := by omega, t2 := k3.t2.trans g2 (by omega),
                        mono := by omega }
    | some d =>
      have u := hsome d rfl
      show ∃ m, merge cn acc (d :: ds') = .ok m ∧ _
      unfold merge
      have := hc.len
      have hi2 := u.i2
      have hge := u.ge
      have hi1 := u.i1
      have hj1 := u.j1
      have hj2 := u.j2
      have h00 : ¬ (d.tag ≠ .insert ∧ cn.length ≤ d.i1) := by
        rintro ⟨hx, hy⟩
        have := u.non hx
        omega
      rw [if_neg h00]
      by_cases ha : d.tag ≠ .insert ∧ start cn d.i1 = true
      · -- the diff starts at a token
        rw [if_pos ha]
        have hlt := u.non ha.1
        refine merge_cov hc hl hf os o.i2 o.j2 ds' (d :: acc) ho' h2 ⟨i, j, hcov, fun hx => absurd hx ha.1, ?_⟩ ?_
        · exact { a1 := by omega, s1 := e1 ▸ u.si1, le := by omega, a2 := hi2, s2 := u.si2, b1 := by omega, t1 := e2 ▸ u.sj1,
                  b2 := hj2, t2 := u.sj2, mono := by omega, ins := fun hx => absurd hx ha.1, start := fun _ => .inl ha.2,
                  eq := fun hx => ⟨(u.eq hx).1, Nat.le_of_lt (u.eq hx).2.1, (u.eq hx).2.2⟩, del := u.del }
        · intro l hl' _
          have : l = d := by simpa using hl'.symm
          rw [this]; exact hlt
      · rw [if_neg ha]
        by_cases hb' : d.tag = .equal
        · rw [if_pos hb']
          have hins : d.tag ≠ .insert := by rw [hb']; decide
          have hns : ¬ start cn d.i1 = true := fun hx => ha ⟨hins, hx⟩
          have hlt := u.non hins
          obtain ⟨q1, q2, q3⟩ := u.eq hb'
          cases acc with
          | nil =>
            exfalso
            obtain ⟨rfl, rfl⟩ := hcov
            have hne : tree ≠ [] := by rintro rfl; simp at hb; omega
            have hz : d.i1 = 0 := by
              refine Classical.byContradiction (fun hne => ?_)
              exact tree0 (u.si1 0 (by omega) (by omega))
            rw [hz] at hns
            exact hns (hc.zero hne)
          | cons l acc =>
            obtain ⟨i0, j0, k1, k2, k3⟩ := hcov
            simp only
            obtain ⟨s1, s2, _⟩ := skip_spec cn (d.i2 - d.i1) d.i1
            generalize skip cn d.i1 (d.i2 - d.i1) = t at s1 s2
            have m1 := k3.a1
            have m2 := k3.le
            have m3 := k3.a2
            have m4 := k3.b1
            have m5 := k3.mono
            have hstart : start cn l.i1 = true ∨ cn = [] := by
              by_cases hx : l.tag = .insert
              · left
                rw [(k3.ins hx).2.2.1]
                apply hc.zero
                rintro rfl
                simp at hb
                omega
              · exact k3.start hx
            by_cases hrem : d.i1 + t < d.i2
            · rw [if_pos hrem]
              refine merge_cov hc hl hf os o.i2 o.j2 ds' _ ho' h2 ⟨d.i1 + t, d.j1 + t, ⟨i0, j0, k1, fun hx => (by cases hx), ?_⟩,
                fun hx => (by cases hx), ?_⟩ ?_
              · exact { a1 := m1, s1 := k3.s1, le := by show l.i1 ≤ d.i1 + t; omega, a2 := Nat.le_refl _, s2 := sp_empty _ _, b1 := m4,
                        t1 := k3.t1, b2 := Nat.le_refl _, t2 := sp_empty _ _, mono := by omega, ins := fun hx => (by cases hx),
                        start := fun _ => hstart, eq := fun hx => (by cases hx), del := fun hx => (by cases hx) }
              · refine { a1 := Nat.le_refl _, s1 := sp_empty _ _, le := by show d.i1 + t ≤ d.i2; omega, a2 := hi2, s2 := u.si2, b1 := Nat.le_refl _,
                         t1 := sp_empty _ _, b2 := hj2, t2 := u.sj2, mono := by omega, ins := fun hx => (by cases hx),
                         start := fun _ => .inl (s2 (by omega)), eq := fun _ => ⟨by show d.i2 - (d.i1 + t) = d.j2 - (d.j1 + t); omega,
                           by show d.j1 + t ≤ d.j2; omega, ?_⟩, del := fun hx => (by cases hx) }
                intro k hk
                have hk : k < d.i2 - (d.i1 + t) := hk
                have := q3 (t + k) (by omega)
                show tree[d.i1 + t + k]? = text[d.j1 + t + k]?
                rw [Nat.add_assoc, Nat.add_assoc]
                exact this
              · intro l' hl' _
                have : l' = ⟨.equal, d.i1 + t, d.i2, d.j1 + t, d.j2⟩ := by simpa using hl'.symm
                rw [this]; exact hrem
            · rw [if_neg hrem]
              have ht1 : d.i1 + t = d.i2 := by omega
              have ht2 : d.j1 + t = d.j2 := by omega
              refine merge_cov hc hl hf os o.i2 o.j2 ds' _ ho' h2 ⟨i0, j0, k1, fun hx => (by cases hx), ?_⟩ ?_
              · exact { a1 := m1, s1 := k3.s1, le := by show l.i1 ≤ d.i1 + t; omega, a2 := by show d.i1 + t ≤ o.i2; omega,
                        s2 := by show Sp tree (d.i1 + t) o.i2; rw [ht1]; exact u.si2, b1 := m4, t1 := k3.t1,
                        b2 := by show d.j1 + t ≤ o.j2; omega, t2 := by show Sp text (d.j1 + t) o.j2; rw [ht2]; exact u.sj2,
                        mono := by omega, ins := fun hx => (by cases hx), start := fun _ => hstart, eq := fun hx => (by cases hx),
                        del := fun hx => (by cases hx) }
              · intro l' hl' hx
                have : l' = ⟨.replace, l.i1, d.i1 + t, l.j1, d.j1 + t⟩ := by simpa using hl'.symm
                rw [this] at hx
                cases hx
        · rw [if_neg hb']
          cases acc with
          | nil =>
            obtain ⟨rfl, rfl⟩ := hcov
            have hins : d.tag = .insert := by
              refine Classical.byContradiction (fun hins => ?_)
              have hlt := u.non hins
              have hne : tree ≠ [] := by rintro rfl; simp at hb; omega
              have hz : d.i1 = 0 := by
                refine Classical.byContradiction (fun hne => ?_)
                exact tree0 (u.si1 0 (by omega) (by omega))
              exact ha ⟨hins, by rw [hz]; exact hc.zero hne⟩
            have hoi : o.i1 = o.i2 := by
              refine Classical.byContradiction (fun hne => ?_)
              have := u.ins hins
              exact tree0 ((u.si1.trans u.si2 this) 0 (by omega) (by omega))
            have hot : o.tag = .insert := by
              have hm := ho.1.2.2.2.2
              cases ht : o.tag <;> rw [ht] at hm
              · have := hm.2.1; omega
              · have := hm.1; omega
              · have := hm.1; omega
            have hdo := u.same hot
            subst hdo
            refine merge_cov hc hl hf os d.i2 d.j2 ds' [d] ho' h2 ⟨0, 0, ⟨rfl, rfl⟩, fun _ => rfl, ?_⟩ ?_
            · exact { a1 := by omega, s1 := by rw [e1]; exact sp_empty _ _, le := by omega, a2 := Nat.le_refl _, s2 := sp_empty _ _, b1 := by omega,
                      t1 := by rw [e2]; exact sp_empty _ _, b2 := Nat.le_refl _, t2 := sp_empty _ _, mono := by omega,
                      ins := fun _ => ⟨rfl, rfl, e1, by omega, e2⟩, start := fun hx => absurd hins hx,
                      eq := fun hx => absurd hx hb', del := fun hx => (by rw [hins] at hx; cases hx) }
            · intro l' hl' hx
              have : l' = d := by simpa using hl'.symm
              rw [this] at hx
              exact absurd hx hb'
          | cons l acc =>
            obtain ⟨i0, j0, k1, k2, k3⟩ := hcov
            simp only
            have m1 := k3.a1
            have m2 := k3.le
            have m3 := k3.a2
            have m4 := k3.b1
            have m5 := k3.mono
            have m6 := k3.b2
            by_cases hleq : l.tag ≠ .equal
            · rw [if_pos hleq]
              have hstart : start cn l.i1 = true ∨ cn = [] := by
                by_cases hx : l.tag = .insert
                · by_cases hn : tree = []
                  · right
                    rw [hn] at this
                    exact List.length_eq_zero_iff.1 (by simpa using this)
                  · left
                    rw [(k3.ins hx).2.2.1]
                    exact hc.zero hn
                · exact k3.start hx
              refine merge_cov hc hl hf os o.i2 o.j2 ds' _ ho' h2 ⟨i0, j0, k1, fun hx => (by cases hx), ?_⟩ ?_
              · exact { a1 := m1, s1 := k3.s1, le := by show l.i1 ≤ d.i2; omega, a2 := hi2, s2 := u.si2, b1 := m4, t1 := k3.t1, b2 := hj2,
                        t2 := u.sj2, mono := by omega, ins := fun hx => (by cases hx), start := fun _ => hstart, eq := fun hx => (by cases hx),
                        del := fun hx => (by cases hx) }
              · intro l' hl' hx
                have : l' = ⟨.replace, l.i1, d.i2, l.j1, d.j2⟩ := by simpa using hl'.symm
                rw [this] at hx
                cases hx
            · rw [if_neg hleq]
              have hleq : l.tag = .equal := Classical.not_not.1 hleq
              have hlt := htop l (by simp) hleq
              obtain ⟨q1, q2, q3⟩ := k3.eq hleq
              have hls : start cn l.i1 = true := by
                rcases k3.start (by rw [hleq]; decide) with hx | hx
                · exact hx
                · rw [hx] at this
                  simp at this
                  omega
              obtain ⟨p, pt, b1, b2, b3, b4, b5, b6, b7⟩ := back_spec cn (j1 := l.j1) hls (l.i2 - 1) (l.j2 - 1) (by omega) (by omega) (by omega)
              rw [b1]
              simp only
              refine merge_cov hc hl hf os o.i2 o.j2 ds' _ ho' h2 ⟨p, pt, ⟨i0, j0, k1, fun hx => (by cases hx), ?_⟩, fun hx => (by cases hx), ?_⟩ ?_
              · refine { a1 := m1, s1 := k3.s1, le := b2, a2 := Nat.le_refl _, s2 := sp_empty _ _, b1 := m4, t1 := k3.t1, b2 := Nat.le_refl _,
                         t2 := sp_empty _ _, mono := by omega, ins := fun hx => (by cases hx), start := fun _ => .inl hls,
                         eq := fun _ => ⟨b5, b6, ?_⟩, del := fun hx => (by cases hx) }
                intro t ht
                have ht : t < p - l.i1 := ht
                exact q3 t (by omega)
              · exact { a1 := Nat.le_refl _, s1 := sp_empty _ _, le := by show p ≤ d.i2; omega, a2 := hi2, s2 := u.si2, b1 := Nat.le_refl _,
                        t1 := sp_empty _ _, b2 := hj2, t2 := u.sj2, mono := by omega, ins := fun hx => (by cases hx), start := fun _ => .inl b4,
                        eq := fun hx => (by cases hx), del := fun hx => (by cases hx) }
              · intro l' hl' hx
                have : l' = ⟨.replace, p, d.i2, pt, d.j2⟩ := by simpa using hl'.symm
                rw [this] at hx
                cases hx

end Verif.Text.Comply
