import Verif.Mwt.Model

/-!
# Properties C22, C23 and C54: multi-word tokens
-/

namespace Verif.Mwt

/-! ## Specification -/

/-- Histories of calls on one tree: tokens are created with non-empty word lists, and `remove` is called
on tokens that are in the tree at that time. -/
inductive Reach : St → Prop
  | init : Reach St.init
  | create {s : St} (ws : List Nat) : Reach s → ws ≠ [] → Reach (create s ws).1
  | remove {s : St} (m : Nat) : Reach s → m ∈ s.mwts → Reach (removeMwt s m).1

/-- The bookkeeping is consistent: the list of tokens has no repetition, and `word.multiword_token` names
precisely the token of the list whose words contain the word. -/
structure Inv (s : St) : Prop where
  nodup : s.mwts.Nodup
  names : ∀ w m, s.mwtOf w = some m ↔ m ∈ s.mwts ∧ w ∈ s.words m
  alloc : ∀ m ∈ s.mwts, m < s.next

/-! ## Lemmas -/

theorem setMwt_eq (v : Option Nat) (ws : List Nat) : ∀ (f : Nat → Option Nat) (x : Nat),
    setMwt f v ws x = if x ∈ ws then v else f x := by
  induction ws with
  | nil => intro f x; simp [setMwt]
  | cons w ws ih =>
    intro f x
    simp only [setMwt, ih, List.mem_cons]
    by_cases h1 : x ∈ ws
    · simp [h1]
    · by_cases h2 : x = w <;> simp [h1, h2]

theorem removeMwt_live {s : St} {m : Nat} (hm : m ∈ s.mwts) : removeMwt s m =
    ({ s with mwtOf := setMwt s.mwtOf none (s.words m), mwts := s.mwts.erase m }, none) := by
  simp [removeMwt, hm]

theorem inv_remove {s : St} {m : Nat} (h : Inv s) (hm : m ∈ s.mwts) : Inv (removeMwt s m).1 := by
  rw [removeMwt_live hm]
  refine ⟨h.nodup.erase m, ?_, ?_⟩
  · intro w m'
    show setMwt s.mwtOf none (s.words m) w = some m' ↔ m' ∈ s.mwts.erase m ∧ w ∈ s.words m'
    rw [setMwt_eq, h.nodup.mem_erase_iff]
    by_cases hw : w ∈ s.words m
    · simp only [hw, if_true]
      constructor
      · intro e; simp at e
      · rintro ⟨⟨hne, hm'⟩, hw'⟩
        have h1 := (h.names w m).2 ⟨hm, hw⟩
        have h2 := (h.names w m').2 ⟨hm', hw'⟩
        rw [h1] at h2
        exact absurd (Option.some.inj h2).symm hne
    · simp only [hw, if_false, h.names]
      constructor
      · rintro ⟨a, b⟩; exact ⟨⟨fun e => hw (e ▸ b), a⟩, b⟩
      · rintro ⟨⟨_, a⟩, b⟩; exact ⟨a, b⟩
  · intro m' hm'
    exact h.alloc m' (List.mem_of_mem_erase hm')

/-- The tokens left after removing those that contain one of the given words. -/
theorem removeOld_spec (ws : List Nat) : ∀ {s : St}, Inv s → ∃ s', removeOld s ws = (s', none) ∧ Inv s' ∧
    s'.words = s.words ∧ s'.next = s.next ∧ (∀ w ∈ ws, s'.mwtOf w = none) ∧
    (∀ w, s.mwtOf w = none → s'.mwtOf w = none) ∧
    s'.mwts = s.mwts.filter (fun m => ws.all (fun w => w ∉ s.words m)) := by
  induction ws with
  | nil =>
    intro s h
    refine ⟨s, rfl, h, rfl, rfl, by simp, fun _ h => h, ?_⟩
    exact (List.filter_eq_self.2 (by simp)).symm
  | cons w ws ih =>
    intro s h
    unfold removeOld
    cases hw : s.mwtOf w with
    | none =>
      obtain ⟨s', h1, h2, h3, h4, h5, h6, h7⟩ := ih h
      refine ⟨s', h1, h2, h3, h4, ?_, h6, ?_⟩
      · intro x hx
        rcases List.mem_cons.1 hx with rfl | hx
        · exact h6 x hw
        · exact h5 x hx
      · rw [h7]
        apply List.filter_congr
        intro m hm
        have : w ∉ s.words m := fun hmem => by
          have := (h.names w m).2 ⟨hm, hmem⟩
          rw [hw] at this; simp at this
        simp [this]
    | some m =>
      obtain ⟨hm, hmem⟩ := (h.names w m).1 hw
      have hi := inv_remove h hm
      simp only
      rw [removeMwt_live hm] at hi ⊢
      obtain ⟨s', h1, h2, h3, h4, h5, h6, h7⟩ := ih hi
      refine ⟨s', h1, h2, h3, h4, ?_, ?_, ?_⟩
      · intro x hx
        rcases List.mem_cons.1 hx with rfl | hx
        · apply h6
          show setMwt _ _ _ _ = none
          rw [setMwt_eq]; simp [hmem]
        · exact h5 x hx
      · intro x hx
        apply h6
        show setMwt _ _ _ _ = none
        rw [setMwt_eq, hx]; simp
      · rw [h7]
        show (s.mwts.erase m).filter _ = _
        rw [h.nodup.erase_eq_filter, List.filter_filter]
        apply List.filter_congr
        intro m' hm'
        by_cases e : m' = m
        · subst e; simp [hmem]
        · have : w ∉ s.words m' := fun hmem' => by
            have := (h.names w m').2 ⟨hm', hmem'⟩
            rw [hw] at this
            exact e (Option.some.inj this).symm
          simp [this, e]

theorem create_spec {s : St} (h : Inv s) (ws : List Nat) (hne : ws ≠ []) :
    (create s ws).2 = none ∧ Inv (create s ws).1 ∧
    (create s ws).1.mwts = s.mwts.filter (fun m => ws.all (fun w => w ∉ s.words m)) ++ [s.next] ∧
    (create s ws).1.words s.next = ws ∧ (∀ m ∈ s.mwts, (create s ws).1.words m = s.words m) := by
  obtain ⟨s', h1, h2, h3, h4, h5, h6, h7⟩ := removeOld_spec ws h
  have hnew : s'.next ∉ s'.mwts := fun hm => Nat.lt_irrefl _ (h2.alloc _ hm)
  unfold create
  rw [h1]
  simp only [hne, if_false]
  refine ⟨trivial, ⟨?_, ?_, ?_⟩, by rw [h7, h4], by rw [h4]; simp, ?_⟩
  · rw [List.nodup_append]
    refine ⟨h2.nodup, by simp, ?_⟩
    intro a ha b hb e
    rw [List.mem_singleton] at hb
    subst hb e
    exact hnew ha
  · intro w m
    simp only [setMwt_eq, List.mem_append, List.mem_singleton]
    by_cases hw : w ∈ ws
    · simp only [hw, if_true, Option.some.injEq]
      constructor
      · rintro rfl; simp [hw]
      · rintro ⟨hm | hm, hmem⟩
        · have e : m ≠ s'.next := fun e => hnew (e ▸ hm)
          rw [if_neg e] at hmem
          have := (h2.names w m).2 ⟨hm, hmem⟩
          rw [h5 w hw] at this; simp at this
        · exact hm.symm
    · simp only [hw, if_false, h2.names]
      constructor
      · rintro ⟨hm, hmem⟩
        have e : m ≠ s'.next := fun e => hnew (e ▸ hm)
        rw [if_neg e]
        exact ⟨Or.inl hm, hmem⟩
      · rintro ⟨hm | hm, hmem⟩
        · have e : m ≠ s'.next := fun e => hnew (e ▸ hm)
          rw [if_neg e] at hmem
          exact ⟨hm, hmem⟩
        · subst hm; rw [if_pos rfl] at hmem; exact absurd hmem hw
  · intro m hm
    show m < s'.next + 1
    rcases List.mem_append.1 hm with hm | hm
    · have := h2.alloc m hm; omega
    · rw [List.mem_singleton] at hm; omega
  · intro m hm
    have := h.alloc m hm
    have e : m ≠ s'.next := by omega
    rw [if_neg e, h3]

theorem inv_reach {s : St} (h : Reach s) : Inv s := by
  induction h with
  | init => exact ⟨by simp [St.init], by simp [St.init], by simp [St.init]⟩
  | create ws _ hne ih => exact (create_spec ih ws hne).2.1
  | remove m _ hm ih => exact inv_remove ih hm

/-! ## C22 -/

/-- C22 (partial): after any history of `create_multiword_token` and `remove` calls on tokens of the tree,
the list of tokens has no repetition, no word is in two of them, and `word.multiword_token` is `m` exactly
if `m` is one of the tokens of the tree and contains the word. Missing: `remove` on a token that is not in
the tree any more, where this is false. -/
theorem C22_mwt_consistent_partial {s : St} (h : Reach s) :
    s.mwts.Nodup ∧
    (∀ w m, s.mwtOf w = some m ↔ m ∈ s.mwts ∧ w ∈ s.words m) ∧
    (∀ w, ∀ m ∈ s.mwts, ∀ m' ∈ s.mwts, w ∈ s.words m → w ∈ s.words m' → m = m') := by
  have i := inv_reach h
  refine ⟨i.nodup, i.names, ?_⟩
  intro w m hm m' hm' h1 h2
  have a := (i.names w m).2 ⟨hm, h1⟩
  have b := (i.names w m').2 ⟨hm', h2⟩
  rw [a] at b
  exact Option.some.inj b

/-- C22, the effect of one call: `create_multiword_token(ws)` never raises, it keeps exactly the tokens
without any of the words, in order, and appends one token with the words `ws`; `remove` takes away exactly
the token. -/
theorem C22_mwt_calls {s : St} (h : Reach s) :
    (∀ ws, ws ≠ [] → (create s ws).2 = none ∧
      (create s ws).1.mwts = s.mwts.filter (fun m => ws.all (fun w => w ∉ s.words m)) ++ [s.next] ∧
      (create s ws).1.words s.next = ws ∧ ∀ m ∈ s.mwts, (create s ws).1.words m = s.words m) ∧
    (∀ m ∈ s.mwts, (removeMwt s m).2 = none ∧ (removeMwt s m).1.mwts = s.mwts.filter (· ≠ m) ∧
      (removeMwt s m).1.words = s.words) := by
  have i := inv_reach h
  constructor
  · intro ws hne
    obtain ⟨a, _, b, c, d⟩ := create_spec i ws hne
    exact ⟨a, b, c, d⟩
  · intro m hm
    rw [removeMwt_live hm]
    refine ⟨rfl, ?_, rfl⟩
    show s.mwts.erase m = _
    rw [i.nodup.erase_eq_filter]
    apply List.filter_congr
    intro a _
    by_cases e : a = m <;> simp [e]

/-- A history: tokens 0 = [1, 2], 1 = [4, 5], 2 = [2, 3]; the last one replaces token 0. -/
def exMwt : St := (create (create (create St.init [1, 2]).1 [4, 5]).1 [2, 3]).1

example : Reach exMwt ∧ exMwt.mwts = [1, 2] ∧ exMwt.mwtOf 1 = none ∧ exMwt.mwtOf 2 = some 2 :=
  ⟨.create _ (.create _ (.create _ .init (by simp)) (by simp)) (by simp), by decide, by decide, by decide⟩

/-- C22 is violated: `t = create([1, 2]); t.remove(); u = create([1, 2]); t.remove()`. The second
`t.remove()` raises `ValueError`, but the words 1 and 2 have lost the token `u`, which is still in the
tree and still contains them. -/
theorem C22_stale_remove_violated :
    let s1 := (create St.init [1, 2]).1
    let s2 := (removeMwt s1 0).1
    let s3 := (create s2 [1, 2]).1
    let s4 := (removeMwt s3 0).1
    Reach s3 ∧ (removeMwt s3 0).2 = some .valueError ∧
      1 ∈ s4.mwts ∧ 1 ∈ s4.words 1 ∧ s4.mwtOf 1 = none := by
  refine ⟨.create _ (.remove 0 (.create _ .init (by simp)) (by decide)) (by simp), ?_⟩
  decide

/-! ## C23 -/

/-- The multi-word tokens cover disjoint contiguous ranges of the words `ds`: the words of the token of a
word are a contiguous part of `ds` containing the word, and they all have this token. -/
def Ranges (words : Nat → List Nat) (mwtOf : Nat → Option Nat) (ds : List Nat) : Prop :=
  ∀ w ∈ ds, ∀ m, mwtOf w = some m →
    w ∈ words m ∧ (∀ x ∈ words m, mwtOf x = some m) ∧ ∃ A B, ds = A ++ words m ++ B

theorem tokenLoop_skip {words : Nat → List Nat} {mwtOf : Nat → Option Nat} {ord : Nat → Nat} {last : Nat}
    (l rest : List Nat) (h : ∀ x ∈ l, (∃ m, mwtOf x = some m) ∧ ord x ≤ last) :
    tokenLoop words mwtOf ord last (l ++ rest) = tokenLoop words mwtOf ord last rest := by
  induction l with
  | nil => rfl
  | cons x l ih =>
    obtain ⟨⟨m, hm⟩, ho⟩ := h x List.mem_cons_self
    rw [List.cons_append]
    simp only [tokenLoop, hm]
    rw [if_neg (by omega)]
    exact ih (fun y hy => h y (List.mem_cons_of_mem _ hy))

theorem tokenLoop_spec {words : Nat → List Nat} {mwtOf : Nat → Option Nat} {ord : Nat → Nat}
    {ds : List Nat} (hord : ds.map ord = List.range' 1 ds.length) (hr : Ranges words mwtOf ds) :
    ∀ (n : Nat) (A S : List Nat) (last : Nat), S.length ≤ n → ds = A ++ S → last ≤ A.length →
      (∀ w ∈ S, ∀ m, mwtOf w = some m → ∀ x ∈ words m, x ∈ S) →
      ∃ ts, tokenLoop words mwtOf ord last S = some ts ∧ ts.flatMap (Token.words words) = S ∧
        ∀ t ∈ ts, t.words words ≠ [] := by
  have hord' : ∀ (A : List Nat) (x : Nat) (B : List Nat), ds = A ++ x :: B → ord x = A.length + 1 := by
    intro A x B e
    have h1 : (ds.map ord)[A.length]? = some (ord x) := by rw [e]; simp
    rw [hord, List.getElem?_range' (by rw [e]; simp)] at h1
    simp at h1; omega
  have hnd : ds.Nodup := by
    have : (ds.map ord).Nodup := by rw [hord]; exact List.nodup_range'
    exact List.Pairwise.of_map ord (fun a b h e => h (by rw [e])) this
  intro n
  induction n with
  | zero =>
    intro A S last hn _ _ _
    have : S = [] := List.length_eq_zero_iff.1 (by omega)
    subst this
    exact ⟨[], rfl, rfl, by simp⟩
  | succ n ih =>
    intro A S last hn he hl hb
    cases S with
    | nil => exact ⟨[], rfl, rfl, by simp⟩
    | cons w S =>
      have how := hord' A w S he
      simp only [tokenLoop]
      cases hm : mwtOf w with
      | none =>
        simp only
        obtain ⟨ts, h1, h2, h0⟩ := ih (A ++ [w]) S last (by simp at hn; omega) (by rw [he]; simp) (by simp; omega)
          (by
            intro x hx m hmx y hy
            rcases List.mem_cons.1 (hb x (List.mem_cons_of_mem _ hx) m hmx y hy) with rfl | h
            · have := (hr x (by rw [he]; simp [hx]) m hmx).2.1 y hy
              rw [hm] at this; simp at this
            · exact h)
        rw [h1]
        refine ⟨_, rfl, by simp [Token.words, h2], ?_⟩
        intro t ht
        rcases List.mem_cons.1 ht with rfl | ht
        · simp [Token.words]
        · exact h0 t ht
      | some m =>
        simp only
        rw [if_pos (by omega)]
        obtain ⟨hwm, hall, A', B', he'⟩ := hr w (by rw [he]; simp) m hm
        -- the token starts at `w`
        have hstart : ∃ S', w :: S = words m ++ S' := by
          cases hws : words m with
          | nil => rw [hws] at hwm; simp at hwm
          | cons x l =>
            rw [hws] at he' hwm
            have hxS : x ∈ w :: S := hb w List.mem_cons_self m hm x (by rw [hws]; exact List.mem_cons_self)
            have hox := hord' A' x (l ++ B') (by rw [he']; simp)
            obtain ⟨C, D, hCD⟩ := List.append_of_mem hxS
            have hox2 := hord' (A ++ C) x D (by rw [he, hCD]; simp)
            obtain ⟨E, F, hEF⟩ := List.append_of_mem hwm
            have how2 := hord' (A' ++ E) w (F ++ B') (by rw [he', hEF]; simp)
            simp only [List.length_append] at hox2 how2
            have hAA : A.length = A'.length := by omega
            have hA : A = A' := by
              have h1 : A <+: ds := ⟨w :: S, he.symm⟩
              have h2 : A' <+: ds := ⟨x :: l ++ B', by rw [he']; simp⟩
              exact (List.prefix_of_prefix_length_le h1 h2 (by omega)).eq_of_length hAA
            rw [he, hA, List.append_assoc] at he'
            exact ⟨B', List.append_cancel_left he'⟩
        obtain ⟨S', hS'⟩ := hstart
        obtain ⟨l, hlast⟩ : ∃ l, (words m).getLast? = some l := by
          cases hws : words m with
          | nil => rw [hws] at hwm; simp at hwm
          | cons x l => exact ⟨_, List.getLast?_eq_some_getLast (by simp)⟩
        rw [hlast]
        simp only
        obtain ⟨ini, hini⟩ : ∃ ini, words m = ini ++ [l] := by
          refine ⟨(words m).dropLast, ?_⟩
          have hne : words m ≠ [] := by intro e; rw [e] at hlast; simp at hlast
          rw [List.getLast?_eq_some_getLast hne] at hlast
          have := List.dropLast_concat_getLast hne
          rw [Option.some.inj hlast] at this
          exact this.symm
        have hol : ord l = A.length + (words m).length := by
          have := hord' (A ++ ini) l S' (by rw [he, hS', hini]; simp)
          rw [this, hini]; simp; omega
        -- skip the rest of the token
        obtain ⟨l', hl'⟩ : ∃ l', words m = w :: l' := by
          cases hws : words m with
          | nil => rw [hws] at hwm; simp at hwm
          | cons x l' => rw [hws] at hS'; cases hS'; exact ⟨l', rfl⟩
        have hS2 : S = l' ++ S' := by rw [hl'] at hS'; simpa using hS'
        rw [hS2, tokenLoop_skip]
        · obtain ⟨ts, h1, h2, h0⟩ := ih (A ++ words m) S' (ord l)
            (by rw [hS2] at hn; simp at hn; omega) (by rw [he, hS']; simp) (by rw [hol]; simp)
            (by
              intro x hx m' hmx y hy
              have hyS := hb x (by rw [hS']; simp [hx]) m' hmx y hy
              rw [hS'] at hyS
              rcases List.mem_append.1 hyS with hy' | hy'
              · exfalso
                have h3 := hall y hy'
                have h4 := (hr x (by rw [he, hS']; simp [hx]) m' hmx).2.1 y hy
                rw [h3] at h4
                cases h4
                have h5 := (hr x (by rw [he, hS']; simp [hx]) m hmx).1
                rw [he, hS', List.nodup_append] at hnd
                have h6 := (List.nodup_append.1 hnd.2.1).2.2 x h5 x hx
                exact h6 rfl
              · exact hy')
          rw [h1]
          refine ⟨_, rfl, ?_, ?_⟩
          · rw [List.flatMap_cons, h2]
            show words m ++ S' = _
            rw [hl']; rfl
          · intro t ht
            rcases List.mem_cons.1 ht with rfl | ht
            · show words m ≠ []
              rw [hl']; simp
            · exact h0 t ht
        · intro x hx
          have hxm : x ∈ words m := by rw [hl']; exact List.mem_cons_of_mem _ hx
          refine ⟨⟨m, hall x hxm⟩, ?_⟩
          obtain ⟨C, D, hCD⟩ := List.append_of_mem hxm
          have h7 := hord' (A ++ C) x (D ++ S') (by rw [he, hS', hCD]; simp)
          have h8 : (words m).length = C.length + D.length + 1 := by rw [hCD]; simp; omega
          rw [h7, hol]; simp; omega

theorem nodup_of_flatMap (f : Token → List Nat) (l : List Token) (h : (l.flatMap f).Nodup)
    (hne : ∀ t ∈ l, f t ≠ []) : l.Nodup := by
  induction l with
  | nil => simp
  | cons t l ih =>
    rw [List.flatMap_cons, List.nodup_append] at h
    refine List.nodup_cons.2 ⟨?_, ih h.2.1 (fun t ht => hne t (List.mem_cons_of_mem _ ht))⟩
    intro hm
    obtain ⟨x, hx⟩ := List.exists_mem_of_ne_nil _ (hne t List.mem_cons_self)
    exact h.2.2 x hx x (List.mem_flatMap.2 ⟨t, hm, hx⟩) rfl

/-- C23: if the multi-word tokens cover disjoint contiguous ranges of words, the words of
`root.token_descendants`, concatenated, are `root.descendants`. `ds` is any list of words numbered 1..n. -/
theorem C23_token_descendants {words : Nat → List Nat} {mwtOf : Nat → Option Nat} {ord : Nat → Nat}
    {ds : List Nat} (hord : ds.map ord = List.range' 1 ds.length) (hr : Ranges words mwtOf ds) :
    ∃ ts, tokenDescendants words mwtOf ord ds = some ts ∧ ts.flatMap (Token.words words) = ds ∧
      ts.Nodup := by
  obtain ⟨ts, h1, h2, h0⟩ := tokenLoop_spec hord hr ds.length [] ds 0 (Nat.le_refl _) rfl (Nat.zero_le _)
    (by
      intro w hw m hm x hx
      obtain ⟨_, _, A, B, e⟩ := hr w hw m hm
      rw [e]; simp [hx])
  refine ⟨ts, h1, h2, ?_⟩
  have hnd : ds.Nodup := by
    have : (ds.map ord).Nodup := by rw [hord]; exact List.nodup_range'
    exact List.Pairwise.of_map ord (fun a b h e => h (by rw [e])) this
  exact nodup_of_flatMap _ ts (h2 ▸ hnd) h0

example : tokenDescendants (fun m => if m = 0 then [1, 2] else [3, 4])
    (fun w => if w ≤ 2 then some 0 else if w ≤ 4 then some 1 else none) id [1, 2, 3, 4, 5] =
      some [.mwt 0, .mwt 1, .word 5] := by decide

example : Ranges (fun m => if m = 0 then [1, 2] else [3, 4])
    (fun w => if w ≤ 2 then some 0 else if w ≤ 4 then some 1 else none) [1, 2, 3, 4, 5] := by
  intro w hw m hm
  have hw' : w = 1 ∨ w = 2 ∨ w = 3 ∨ w = 4 ∨ w = 5 := by simpa using hw
  rcases hw' with rfl | rfl | rfl | rfl | rfl
  · obtain rfl : 0 = m := by simpa using hm
    exact ⟨by decide, by decide, [], [3, 4, 5], by decide⟩
  · obtain rfl : 0 = m := by simpa using hm
    exact ⟨by decide, by decide, [], [3, 4, 5], by decide⟩
  · obtain rfl : 1 = m := by simpa using hm
    exact ⟨by decide, by decide, [1, 2], [5], by decide⟩
  · obtain rfl : 1 = m := by simpa using hm
    exact ⟨by decide, by decide, [1, 2], [5], by decide⟩
  · simp at hm

/-! ## C54 -/

/-- Every second element, starting with the second. -/
def everySecond : List Nat → List Nat
  | _ :: y :: l => y :: everySecond l
  | _ => []

theorem removeLoop_eq : ∀ (n : Nat) (fuel : Nat) (A l : List Nat), l.length ≤ n → l.length < fuel →
    (A ++ l).Nodup → removeLoop fuel A.length (A ++ l) = A ++ everySecond l := by
  intro n
  induction n using Nat.strongRecOn with
  | ind n ih =>
    intro fuel A l hn hf hnd
    match l, fuel with
    | _, 0 => omega
    | [], f + 1 => simp [removeLoop, everySecond]
    | [x], f + 1 =>
      have hx : x ∉ A := by
        intro hm
        exact (List.nodup_append.1 hnd).2.2 x hm x (by simp) rfl
      unfold removeLoop
      rw [List.getElem?_append_right (Nat.le_refl _)]
      simp only [Nat.sub_self, List.getElem?_cons_zero]
      rw [List.erase_append_right _ hx]
      cases f <;> simp [removeLoop, everySecond]
    | x :: y :: l, f + 1 =>
      have hx : x ∉ A := by
        intro hm
        exact (List.nodup_append.1 hnd).2.2 x hm x (by simp) rfl
      unfold removeLoop
      rw [List.getElem?_append_right (Nat.le_refl _)]
      simp only [Nat.sub_self, List.getElem?_cons_zero]
      rw [List.erase_append_right _ hx, List.erase_cons_head]
      have h1 : A ++ y :: l = (A ++ [y]) ++ l := by simp
      have h2 : A.length + 1 = (A ++ [y]).length := by simp
      rw [h1, h2, ih l.length (by simp at hn; omega) f (A ++ [y]) l (Nat.le_refl _) (by simp at hf; omega)]
      · simp [everySecond]
      · rw [← h1]
        exact hnd.sublist (List.Sublist.append_left (List.sublist_cons_self _ _) A)

/-- C54 is violated: in every tree, `ud.RemoveMwt` removes only the first, third, fifth, ... multi-word
token, because it iterates over the list it shortens; the others stay. -/
theorem C54_every_second_stays_violated (mwts : List Nat) (h : mwts.Nodup) :
    removeMwtBlock mwts = everySecond mwts ∧ (removeMwtBlock mwts).length = mwts.length / 2 := by
  have h1 : removeMwtBlock mwts = everySecond mwts := by
    have := removeLoop_eq mwts.length (mwts.length + 1) [] mwts (Nat.le_refl _) (Nat.lt_succ_self _) (by simpa)
    simpa [removeMwtBlock] using this
  refine ⟨h1, ?_⟩
  rw [h1]
  have : ∀ (n : Nat) (l : List Nat), l.length ≤ n → (everySecond l).length = l.length / 2 := by
    intro n
    induction n using Nat.strongRecOn with
    | ind n ih =>
      intro l hl
      match l with
      | [] => rfl
      | [_] => simp [everySecond]
      | _ :: _ :: l =>
        simp only [everySecond, List.length_cons]
        rw [ih l.length (by simp at hl; omega) l (Nat.le_refl _)]
        omega
  exact this mwts.length mwts (Nat.le_refl _)

/-- C54 (partial): a tree with at most one multi-word token has none afterwards. Missing: two or more. -/
theorem C54_at_most_one_partial (mwts : List Nat) (h : mwts.length ≤ 1) : removeMwtBlock mwts = [] := by
  match mwts with
  | [] => rfl
  | [m] => simp [removeMwtBlock, removeLoop]
  | _ :: _ :: _ => simp at h

example : removeMwtBlock [7, 8, 9] = [8] := by decide

end Verif.Mwt
