import Verif.Text.ComplySolve

/-!
# Properties C122 and C123: ud.ComplyWithText
-/

namespace Verif.Text.Comply
open Verif.Py
open Verif.Run (wsSplit)
open Verif.Eval.Diff (Op Tag opcodes Ops opcodes_ops)

/-! ## Pieces of the text and of the tree -/

theorem slice_append {s : Str} {a b c : Nat} (h1 : a ≤ b) (h2 : b ≤ c) : slice s a c = slice s a b ++ slice s b c := by
  unfold slice
  have e : s.take c = s.take b ++ (s.take c).drop b := by
    conv => lhs; rw [← List.take_append_drop b (s.take c)]
    rw [List.take_take, Nat.min_eq_left h2]
  by_cases hb : b ≤ s.length
  · conv => lhs; rw [e]
    rw [List.drop_append_of_le_length (by simp; omega)]
  · have hc : s.take c = s.take b := by rw [List.take_of_length_le (by omega), List.take_of_length_le (by omega)]
    have hd : (s.take c).drop b = [] := List.drop_eq_nil_of_le (by simp; omega)
    rw [hd, List.append_nil, hc]

theorem take_slice {s : Str} {a b : Nat} (h : a ≤ b) : s.take b = s.take a ++ slice s a b := by
  have := slice_append (s := s) (Nat.zero_le a) h
  simpa [slice] using this

theorem mem_slice {s : Str} {a b : Nat} {c : Char} (h : c ∈ slice s a b) : ∃ k, a ≤ k ∧ k < b ∧ s[k]? = some c := by
  obtain ⟨t, ht⟩ := List.mem_iff_getElem?.1 h
  rw [slice_get] at ht
  split at ht
  · exact ⟨a + t, by omega, by assumption, ht⟩
  · cases ht

theorem slice_sp {s : Str} {a b : Nat} (h : Sp s a b) : ∀ c ∈ slice s a b, isWs c = true := by
  intro c hc
  obtain ⟨k, h1, h2, h3⟩ := mem_slice hc
  rw [h k h1 h2] at h3
  injection h3 with h3
  rw [← h3]
  exact isWs_space

theorem slice_mem {s : Str} {a b : Nat} {c : Char} (h : c ∈ slice s a b) : c ∈ s := by
  obtain ⟨k, _, _, h3⟩ := mem_slice h
  exact List.mem_of_getElem? h3

/-- What is laid out in the middle is laid out with the spaces around. -/
theorem lay_around {fs : List Str} {s : Str} {j0 a b j : Nat} (h : Lay fs (slice s a b)) (h1 : j0 ≤ a) (s1 : Sp s j0 a) (h2 : b ≤ j)
    (s2 : Sp s b j) : Lay fs (slice s j0 j) := by
  by_cases hab : a ≤ b
  · rw [slice_append h1 (by omega : a ≤ j), slice_append hab h2]
    exact (h.right (slice_sp s2)).left (slice_sp s1)
  · have e : slice s a b = [] := by
      unfold slice
      exact List.drop_eq_nil_of_le (by simp; omega)
    rw [e] at h
    have := h.left (slice_sp (s1.trans s2 (by omega)))
    rwa [List.append_nil] at this

theorem pos_inj {ps : List Str} {n m : Nat} (hs : ∀ s ∈ ps, s ≠ []) (hn : n ≤ ps.length) (h : pos ps n ≤ pos ps m) : n ≤ m := by
  refine Classical.byContradiction (fun hx => ?_)
  have := pos_lt ps m n hs (by omega) hn
  omega

theorem flatten_slice : ∀ (ps : List Str) (n m : Nat), n ≤ m → slice ps.flatten (pos ps n) (pos ps m) = ((ps.take m).drop n).flatten
  | [], n, m, _ => by simp [slice]
  | s :: ps, 0, m, _ => by
    rw [pos_zero, List.drop_zero]
    unfold slice pos
    rw [List.drop_zero]
    conv => lhs; rw [← List.take_append_drop m (s :: ps), List.flatten_append]
    rw [List.take_left']
    simp
  | s :: ps, n + 1, 0, h => by omega
  | s :: ps, n + 1, m + 1, h => by
    have ih := flatten_slice ps n m (by omega)
    rw [pos_cons, pos_cons, List.take_succ_cons, List.drop_succ_cons, ← ih]
    unfold slice
    rw [List.flatten_cons, List.take_length_add_append, List.drop_length_add_append]

/-! ## One difference -/

theorem slice_ids {toks : List Tk} (hg : Good toks) {n m i2 : Nat} (hn : n ≤ m) (hm : m ≤ toks.length)
    (h1 : pos ((close toks).map spaced) n ≤ i2) (h2 : i2 ≤ pos ((close toks).map spaced) m)
    (hsp : Sp (chars toks) i2 (pos ((close toks).map spaced) m)) :
    (((nodes toks).take i2).drop (pos ((close toks).map spaced) n)).filterMap id = List.range' n (m - n) := by
  have hne : ∀ s ∈ (close toks).map spaced, s ≠ [] := fun s hs => (spaced_good (good_close hg) s hs).1
  have hlen : ((close toks).map spaced).length = toks.length := by rw [List.length_map, close_length]
  have hcells := cells_good hg
  have e1 : ((nodes toks).take (pos ((close toks).map spaced) m)).drop (pos ((close toks).map spaced) n) =
      starts n ((((close toks).map spaced).take m).drop n) := by
    unfold nodes
    rw [starts_take 0 _ m hne]
    have hp : pos ((close toks).map spaced) n = pos (((close toks).map spaced).take m) n := by
      unfold pos
      rw [List.take_take, Nat.min_eq_left hn]
    rw [hp, starts_drop 0 _ n (by rw [List.length_take]; omega) (fun s hs => hne s (List.mem_of_mem_take hs)), Nat.zero_add]
  have e2 : (((nodes toks).take (pos ((close toks).map spaced) m)).drop i2).filterMap id = [] := by
    rw [List.filterMap_eq_nil_iff]
    intro x hx
    obtain ⟨t, ht⟩ := List.mem_iff_getElem?.1 hx
    rw [List.getElem?_drop, List.getElem?_take] at ht
    split at ht
    · next hlt =>
      cases x with
      | none => rfl
      | some v =>
        exfalso
        refine hcells.start (i2 + t) ?_ (hsp (i2 + t) (by omega) hlt)
        unfold start
        rw [ht]
    · cases ht
  have e3 : (((nodes toks).take i2).drop (pos ((close toks).map spaced) n)).filterMap id =
      (((nodes toks).take (pos ((close toks).map spaced) m)).drop (pos ((close toks).map spaced) n)).filterMap id := by
    have : (nodes toks).take (pos ((close toks).map spaced) m) = (nodes toks).take i2 ++ ((nodes toks).take (pos ((close toks).map spaced) m)).drop i2 := by
      conv => lhs; rw [← List.take_append_drop i2 ((nodes toks).take (pos ((close toks).map spaced) m))]
      rw [List.take_take, Nat.min_eq_left h2]
    have hl := hcells.len
    have hpl := pos_le ((close toks).map spaced) m
    have hcl : (chars toks).length = ((close toks).map spaced).flatten.length := rfl
    rw [this, List.drop_append_of_le_length (by simp; omega), List.filterMap_append, e2, List.append_nil]
  rw [e3, e1, starts_ids, List.length_drop, List.length_take, hlen, Nat.min_eq_left hm]

/-- The tokens so far: those before position `n` are solved; if there was no warning, they are laid out in the text. -/
structure Inv (p : Par) (toks : List Tk) (text : Str) (j : Nat) (n : Nat) (res : List Tk) (done : List Tk) (w : Bool) : Prop where
  res : res = done ++ num n (toks.drop n)
  part : Part p 0 (toks.take n) w (text.take j) done
  len : n ≤ toks.length

theorem Inv.old {p : Par} {toks : List Tk} {text : Str} {j n : Nat} {res done : List Tk} {w : Bool} (h : Inv p toks text j n res done w) :
    Old n done := by
  have := h.part.old
  rw [List.length_take, Nat.min_eq_left h.len, Nat.zero_add] at this
  exact this

theorem Kept.mono {p : Par} {a b : List Tk} {t : Tk} (h : Kept p a t) (hs : ∀ u ∈ a, u ∈ b) : Kept p b t := by
  rcases h with ⟨u, h1, h2⟩ | h | ⟨h0, u, h1, h2⟩
  · exact .inl ⟨u, hs u h1, h2⟩
  · exact .inr (.inl h)
  · exact .inr (.inr ⟨h0, u, hs u h1, h2⟩)

theorem NewOk.mono {p : Par} {a b : List Tk} {u : Tk} (h : NewOk p a u) (hs : ∀ t ∈ a, t ∈ b) : NewOk p b u := by
  intro hu
  rcases h hu with h | h | ⟨h0, t, ht, h⟩
  · exact .inl h
  · exact .inr (.inl h)
  · exact .inr (.inr ⟨h0, t, hs t ht, h⟩)

theorem Part.append {p : Par} {n : Nat} {b b' : List Tk} {w w' : Bool} {s s' : Str} {new new' : List Tk} (h : Part p n b w s new)
    (h' : Part p (n + b.length) b' w' s' new') : Part p n (b ++ b') (w || w') (s ++ s') (new ++ new') where
  sub := by
    rw [List.flatMap_append, List.length_append, ← List.range'_append_1]
    exact h.sub.append h'.sub
  ok := fun u hu => by
    rcases List.mem_append.1 hu with hu | hu
    · exact (h.ok u hu).mono (fun t ht => List.mem_append_left _ ht)
    · exact (h'.ok u hu).mono (fun t ht => List.mem_append_right _ ht)
  kept := fun t ht => by
    rw [num_append] at ht
    rcases List.mem_append.1 ht with ht | ht
    · exact (h.kept t ht).mono (fun u hu => List.mem_append_left _ hu)
    · exact (h'.kept t ht).mono (fun u hu => List.mem_append_right _ hu)
  head := fun u hu => by
    rcases List.mem_append.1 hu with hu | hu
    · exact h.head u hu
    · exact h'.head u hu
  lay := fun hw => by
    rw [Bool.or_eq_false_iff] at hw
    rw [List.map_append]
    exact (h.lay hw.1).append (h'.lay hw.2)

theorem drop_split {toks : List Tk} {n m : Nat} (h1 : n ≤ m) (h2 : m ≤ toks.length) :
    toks.drop n = (toks.take m).drop n ++ toks.drop m ∧ ((toks.take m).drop n).length = m - n := by
  constructor
  · conv => lhs; rw [← List.take_append_drop m toks]
    rw [List.drop_append_of_le_length (by simp; omega)]
  · simp; omega

theorem solve1_step {p : Par} {toks : List Tk} (hg : Good toks) {text : Str} (hs : Single text) {d : Op} {i0 j0 j n m e : Nat}
    {res res' done : List Tk} {i : Nat} (hd : Fits (nodes toks) (chars toks) text d i0 j0 i j) (hi : i ≤ e) (hsp : Sp (chars toks) i e)
    (hins : d.tag ≠ .insert) (hn : n ≤ m) (hm : m ≤ toks.length) (en : d.i1 = pos ((close toks).map spaced) n)
    (em : e = pos ((close toks).map spaced) m) {w w' : Bool} (inv : Inv p toks text j0 n res done w)
    (h : solve1 p (nodes toks) text res d = .ok (res', w')) : ∃ done', Inv p toks text j m res' done' (w || w') := by
  obtain ⟨d1, d2⟩ := drop_split hn hm
  have hb : Good ((toks.take m).drop n) := fun t ht => hg t (List.mem_of_mem_take (List.mem_of_mem_drop ht))
  have hle := hd.le
  have ha2 := hd.a2
  have hsp' : Sp (chars toks) d.i2 e := hd.s2.trans hsp (Nat.le_refl _)
  have hids := slice_ids hg hn hm (by omega) (by omega) (em ▸ hsp') (i2 := d.i2)
  rw [← en] at hids
  have hmid : n + ((toks.take m).drop n).length = m := by rw [d2]; omega
  have hres : res = done ++ (num n ((toks.take m).drop n) ++ num m (toks.drop m)) := by
    rw [inv.res, d1, num_append, hmid]
  have close' : ∀ new : List Tk, res' = done ++ (new ++ num m (toks.drop m)) → Part p n ((toks.take m).drop n) w' (slice text j0 j) new →
      ∃ done', Inv p toks text j m res' done' (w || w') := by
    intro new h1 h2
    refine ⟨done ++ new, ?_, ?_, hm⟩
    · rw [h1, List.append_assoc]
    · have hl : 0 + (toks.take n).length = n := by rw [List.length_take]; omega
      have h2' : Part p (0 + (toks.take n).length) ((toks.take m).drop n) w' (slice text j0 j) new := by rw [hl]; exact h2
      have := inv.part.append h2'
      rw [← take_slice hd.mono] at this
      have e : toks.take n ++ (toks.take m).drop n = toks.take m := by
        conv => rhs; rw [← List.take_append_drop n (toks.take m)]
        rw [List.take_take, Nat.min_eq_left hn]
      rw [e] at this
      exact this
  unfold solve1 at h
  cases ht : d.tag with
  | insert => exact absurd ht hins
  | equal =>
    rw [ht] at h
    simp only at h
    injection h with h
    injection h with h _
    refine close' (num n ((toks.take m).drop n)) (h ▸ hres) (part_same p hb (fun _ => ?_))
    obtain ⟨q1, q2, q3⟩ := hd.eq ht
    refine lay_around ?_ hd.b1 hd.t1 hd.b2 hd.t2
    rw [← slice_eq q1 q3]
    have hl := lay_spaced (((close toks).take m).drop n)
    have e1 : ((((close toks).take m).drop n).map spaced).flatten = slice (chars toks) d.i1 e := by
      have := flatten_slice ((close toks).map spaced) n m hn
      rw [en, em]
      unfold chars
      rw [this, List.map_drop, List.map_take]
    have e2 : (((close toks).take m).drop n).map Tk.form = ((toks.take m).drop n).map Tk.form := by
      rw [List.map_drop, List.map_take, close_forms, List.map_drop, List.map_take]
    rw [e1, e2, slice_append hle (by omega : d.i2 ≤ e)] at hl
    refine hl.trim (slice_sp hsp') ?_
    intro f hf
    obtain ⟨t, ht, rfl⟩ := List.mem_map.1 hf
    exact (hb t ht).2
  | delete =>
    rw [ht] at h
    simp only at h
    rw [hids] at h
    have hdel : Lay [] (slice text j0 j) := by
      refine lay_around (a := d.j1) (b := d.j2) ?_ hd.b1 hd.t1 hd.b2 hd.t2
      have : slice text d.j1 d.j2 = [] := by
        have := hd.del ht
        unfold slice
        exact List.drop_eq_nil_of_le (by simp; omega)
      rw [this]
      exact lay_nil
    have hfa : (List.range' n (m - n)).filterMap (find res) = num n ((toks.take m).drop n) := by
      rw [hres, ← d2]
      exact find_all inv.old
    rw [hfa] at h
    have hsame : .ok (res, true) = (.ok (res', w') : Except Err (List Tk × Bool)) → ∃ done', Inv p toks text j m res' done' (w || w') := by
      intro hx
      injection hx with hx
      injection hx with hx hx'
      subst hx'
      exact close' _ (hx ▸ hres) (part_same p hb (fun hx => by cases hx))
    split at h
    · next hall =>
      split at h
      · next hdp =>
        split at h
        · cases h
        · next hany =>
          injection h with h
          injection h with h _
          refine close' [] ?_ ⟨List.nil_sublist _, fun u hu => absurd hu List.not_mem_nil, ?_, fun u hu => absurd hu List.not_mem_nil, fun _ => hdel⟩
          rotate_left
          · intro u hu
            refine .inr (.inl ⟨hdp, ?_, punct_spec (List.all_eq_true.1 hall u hu)⟩)
            have := List.any_eq_false.1 (Bool.eq_false_iff.2 hany) u hu
            simpa using this
          rw [← h, hres]
          unfold removeAll
          rw [edit_mid inv.old (fun k hk => (List.mem_range'_1.1 hk).1) (fun k hk => by have := (List.mem_range'_1.1 hk).2; omega), edit_all]
          · congr 2
            rw [List.flatMap_eq_nil_iff]
            intros; rfl
          · intro i h1 h2
            rw [List.mem_range'_1]
            omega
      · exact hsame h
    · exact hsame h
  | replace =>
    rw [ht] at h
    simp only at h
    rw [hids, ← d2, hres] at h
    rw [← hmid] at h
    have hmem : ∀ x ∈ strip (slice text d.j1 d.j2), isWs x = true → x = ' ' := fun x hx hw => single_mem hs (slice_mem (strip_mem hx)) hw
    rw [hmid] at h
    have h' : solveDiff p (done ++ (num n ((toks.take m).drop n) ++ num (n + ((toks.take m).drop n).length) (toks.drop m)))
        (List.range' n ((toks.take m).drop n).length) (strip (slice text d.j1 d.j2)) = .ok (res', w') := by rw [hmid]; exact h
    obtain ⟨new, k1, k2⟩ := solveDiff_step inv.old hb hmem (startsWs_strip _) h'
    rw [hmid] at k1
    exact close' new k1 { k2 with lay := fun hw => lay_around (k2.lay hw).strip hd.b1 hd.t1 hd.b2 hd.t2 }

theorem solve_snoc {p : Par} {cn : List (Option Nat)} {text : Str} {d : Op} : ∀ {ds : List Op} {toks res : List Tk} {w : Bool},
    solve p cn text toks (ds ++ [d]) = .ok (res, w) →
    ∃ mid w1 w2, solve p cn text toks ds = .ok (mid, w1) ∧ solve1 p cn text mid d = .ok (res, w2) ∧ w = (w1 || w2)
  | [], toks, res, w, h => by
    unfold solve at h
    cases h1 : solve1 p cn text toks d with
    | error e => simp only [List.nil_append, h1, bind, Except.bind] at h; cases h
    | ok r =>
      obtain ⟨r, w'⟩ := r
      simp only [List.nil_append, h1, bind, Except.bind, solve] at h
      injection h with h
      injection h with h h'
      rw [Bool.or_false] at h'
      subst h h'
      exact ⟨toks, false, w', rfl, h1, rfl⟩
  | c :: ds, toks, res, w, h => by
    rw [List.cons_append] at h
    unfold solve at h
    cases h1 : solve1 p cn text toks c with
    | error e => simp only [h1, bind, Except.bind] at h; cases h
    | ok r =>
      obtain ⟨r, w1⟩ := r
      simp only [h1, bind, Except.bind] at h
      cases h2 : solve p cn text r (ds ++ [d]) with
      | error e => rw [h2] at h; cases h
      | ok r2 =>
        obtain ⟨r2, w2⟩ := r2
        rw [h2] at h
        simp only at h
        injection h with h
        injection h with h h'
        subst h h'
        obtain ⟨mid, v1, v2, k1, k2, rfl⟩ := solve_snoc h2
        refine ⟨mid, w1 || v1, v2, ?_, k2, by rw [Bool.or_assoc]⟩
        unfold solve
        simp only [h1, bind, Except.bind, k1]

/-- The parts of a split string consist of its characters. -/
theorem mem_split {c x : Char} {s q : Str} (h : q ∈ split c s) (hx : x ∈ q) : x ∈ s := by
  have : ∀ {ps : List Str}, q ∈ ps → x ∈ join [c] ps := by
    intro ps hq
    induction ps with
    | nil => cases hq
    | cons a ps ih =>
      cases ps with
      | nil =>
        rw [List.mem_singleton.1 hq] at hx
        simpa [join] using hx
      | cons b ps =>
        rcases List.mem_cons.1 hq with rfl | hq
        · simp [join, hx]
        · have := ih hq
          simp only [join, List.mem_append]
          exact .inr this
  have h2 := this h
  rwa [join_split] at h2

/-- New nodes before a node, from the last one. -/
theorem foldl_before {m : Nat} {c : List Tk} (hm : 0 < m) {t : Tk} (ht : t.orig = some 0) : ∀ (fs : List Str) (l : List Tk),
    (∀ u ∈ l, u.orig = none) → ∃ l', fs.foldl (before 0) (l ++ (t :: num m c)) = (l ++ l') ++ (t :: num m c) ∧
      l'.map Tk.form = fs ∧ (∀ u ∈ l', u.orig = none) ∧ l'.flatMap Tk.olds = []
  | [], l, _ => ⟨[], by simp, rfl, fun u hu => absurd hu List.not_mem_nil, rfl⟩
  | f :: fs, l, hl => by
    have e : before 0 (l ++ (t :: num m c)) f = (l ++ [{ form := f }]) ++ (t :: num m c) := by
      unfold before
      rw [show l ++ (t :: num m c) = l ++ ([t] ++ num m c) from rfl,
        edit_mid (n := 0) (old_new hl) (by simp) (by simp; omega), edit_one _ ht (fun u hu => absurd hu List.not_mem_nil)]
      simp
    rw [List.foldl_cons, e]
    obtain ⟨l', h1, h2, h3, h4⟩ := foldl_before (c := c) hm ht fs (l ++ [{ form := f }]) (fun u hu => by
      rcases List.mem_append.1 hu with hu | hu
      · exact hl u hu
      · rw [List.mem_singleton.1 hu])
    refine ⟨{ form := f } :: l', ?_, by simp [h2], ?_, by rw [List.flatMap_cons, h4]; rfl⟩
    · rw [h1]; simp
    · intro u hu
      rcases List.mem_cons.1 hu with rfl | hu
      · rfl
      · exact h3 u hu

theorem solve_inv {p : Par} {toks : List Tk} (hg : Good toks) {text : Str} (hs : Single text) :
    ∀ (l : List Op) (i j e : Nat) (res : List Tk) (w : Bool), Cov (nodes toks) (chars toks) text l i j → i ≤ e → Sp (chars toks) i e →
    start (nodes toks) e = true ∨ e = (chars toks).length →
    solve p (nodes toks) text (num 0 toks) l.reverse = .ok (res, w) →
    ∃ n done w', e = pos ((close toks).map spaced) n ∧ Inv p toks text j n res done w' ∧
      ((∀ d ∈ l, d.tag = .insert → ' ' ∉ slice text d.j1 d.j2) → w = false → w' = false) := by
  have hne : ∀ s ∈ (close toks).map spaced, s ≠ [] := fun s hs => (spaced_good (good_close hg) s hs).1
  have hlen : ((close toks).map spaced).length = toks.length := by rw [List.length_map, close_length]
  have hcells := cells_good hg
  have tree0 : (chars toks)[0]? ≠ some ' ' := by
    intro e
    have hne : chars toks ≠ [] := by intro hx; rw [hx] at e; cases e
    exact hcells.start 0 (hcells.zero hne) e
  have zero : ∀ e, Sp (chars toks) 0 e → e = 0 := fun e h => by
    refine Classical.byContradiction (fun hx => ?_)
    exact tree0 (h 0 (Nat.le_refl _) (by omega))
  have nothing : ∀ s : Str, Part p 0 (toks.take 0) true s [] := fun s =>
    ⟨List.nil_sublist _, fun u hu => absurd hu List.not_mem_nil, fun u hu => absurd hu List.not_mem_nil,
      fun u hu => absurd hu List.not_mem_nil, fun hx => by cases hx⟩
  intro l
  induction l with
  | nil =>
    intro i j e res w hcov hi hsp he h
    obtain ⟨rfl, rfl⟩ := hcov
    have := zero e hsp
    subst this
    injection h with h
    injection h with h _
    subst h
    refine ⟨0, [], false, (pos_zero _).symm, ⟨rfl, { nothing (text.take 0) with lay := fun _ => ?_ }, Nat.zero_le _⟩, fun _ _ => rfl⟩
    rw [List.take_zero]
    exact lay_nil
  | cons d l ih =>
    intro i j e res w hcov hi hsp he h
    obtain ⟨i0, j0, hcov, honly, hd⟩ := hcov
    rw [List.reverse_cons] at h
    obtain ⟨mid, w1, w2, h1, h2, rfl⟩ := solve_snoc h
    by_cases hins : d.tag = .insert
    · have hl := honly hins
      subst hl
      injection h1 with h1
      injection h1 with h1 h1'
      subst h1 h1'
      obtain ⟨z1, z2, z3, z4, z5⟩ := hd.ins hins
      have s2 := hd.s2
      rw [z4] at s2
      have := zero i s2
      subst this
      have := zero e hsp
      subst this
      unfold solve1 at h2
      rw [hins] at h2
      simp only at h2
      rw [z3] at h2
      split at h2
      · next hforms =>
        cases toks with
        | nil => cases h2
        | cons t ts =>
          have hc0 : (nodes (t :: ts))[0]? = some (some 0) := by
            unfold nodes
            cases ts <;> rfl
          rw [hc0] at h2
          simp only at h2
          have hf0 : find (num 0 (t :: ts)) 0 = some { t with orig := some 0, words := [] } := rfl
          rw [hf0] at h2
          simp only at h2
          split at h2
          · cases h2
          · injection h2 with h2
            injection h2 with h2 _
            obtain ⟨l', k1, k2, k3, k4⟩ := foldl_before (m := 1) (c := ts) (by omega) (t := { t with orig := some 0, words := [] }) rfl
              (split ' ' (slice text d.j1 d.j2)).reverse [] (fun u hu => absurd hu List.not_mem_nil)
            rw [List.nil_append, List.nil_append] at k1
            have hres : res = l' ++ num 0 ((t :: ts).drop 0) := by rw [← h2]; exact k1
            have hpu : ∀ u ∈ l', u.form ≠ [] ∧ ∀ c ∈ u.form, p.isP c = true := by
              intro u hu
              have : u.form ∈ (split ' ' (slice text d.j1 d.j2)).reverse := k2 ▸ List.mem_map_of_mem hu
              exact punct_spec (List.all_eq_true.1 hforms.1 _ (List.mem_reverse.1 this))
            have hhead : ∀ u ∈ l', startsWs u.form = false := by
              intro u hu
              have hm : u.form ∈ (split ' ' (slice text d.j1 d.j2)).reverse := k2 ▸ List.mem_map_of_mem hu
              refine startsWs_no_space (fun x hx hw => single_mem hs ?_ hw) ?_
              · exact slice_mem (mem_split (List.mem_reverse.1 hm) hx)
              · exact not_mem_split _ _ _ (List.mem_reverse.1 hm)
            have hpart : ∀ (v : Bool), (v = false → Lay (l'.map Tk.form) (text.take j)) →
                Part p 0 ((t :: ts).take 0) v (text.take j) l' := by
              intro v hv
              refine ⟨?_, fun u hu _ => .inr (.inl ⟨hforms.2, hpu u hu⟩), fun u hu => absurd hu List.not_mem_nil, hhead, hv⟩
              rw [k4]
              exact List.nil_sublist _
            by_cases hnosp : ' ' ∉ slice text d.j1 d.j2
            · refine ⟨0, l', false, (pos_zero _).symm, ⟨hres, hpart _ (fun _ => ?_), Nat.zero_le _⟩, fun _ _ => rfl⟩
              rw [k2, split_of_not_mem hnosp]
              have hl := lay_around (j0 := 0) (lay_one (slice text d.j1 d.j2)) (by omega) (z2 ▸ hd.t1) hd.b2 hd.t2
              simpa [slice] using hl
            · refine ⟨0, l', true, (pos_zero _).symm, ⟨hres, hpart _ (fun hx => by cases hx), Nat.zero_le _⟩, fun hx => ?_⟩
              exact absurd (hx d (List.mem_cons_self ..) hins) hnosp
      · injection h2 with h2
        injection h2 with h2 h2'
        subst h2 h2'
        exact ⟨0, [], true, (pos_zero _).symm, ⟨rfl, nothing _, Nat.zero_le _⟩, fun _ hx => by cases hx⟩
    · -- the previous differences end where this one starts
      have hle := hd.le
      have ha1 := hd.a1
      have ha2 := hd.a2
      have hstart : start (nodes toks) d.i1 = true ∨ d.i1 = (chars toks).length := by
        rcases hd.start hins with hx | hx
        · exact .inl hx
        · right
          have hl := hcells.len
          rw [hx] at hl
          have hel : e = 0 := by
            rcases he with he | he
            · rw [hx] at he; cases he
            · rw [he, ← hl]; rfl
          rw [← hl]
          show d.i1 = 0
          omega
      obtain ⟨n, done, w', en, inv, hw⟩ := ih i0 j0 d.i1 mid w1 hcov ha1 hd.s1 hstart h1
      have hn := inv.len
      obtain ⟨m, hm, em, _⟩ := start_pos 0 ((close toks).map spaced) e hne he
      rw [hlen] at hm
      have hnm : n ≤ m := pos_inj hne (by omega) (by omega)
      obtain ⟨done', inv'⟩ := solve1_step hg hs hd hi hsp hins hnm hm en em inv h2
      refine ⟨m, done', w' || w2, em, inv', fun hx hf => ?_⟩
      rw [Bool.or_eq_false_iff] at hf ⊢
      exact ⟨hw (fun y hy => hx y (List.mem_cons_of_mem _ hy)) hf.1, hf.2⟩

/-! ## When the differences are computed -/

theorem isSp_total {s : Str} {k : Nat} (h : k < s.length) : ∃ b, isSp s k = .ok b := by
  unfold isSp
  rw [List.getElem?_eq_getElem h]
  exact ⟨_, rfl⟩

theorem isSpBefore_total {s : Str} {k : Nat} (h : k ≤ s.length) (hs : s ≠ []) : ∃ b, isSpBefore s k = .ok b := by
  unfold isSpBefore
  split
  · cases hl : s.getLast? with
    | none => exact absurd (List.getLast?_eq_none_iff.1 hl) hs
    | some c => exact ⟨_, rfl⟩
  · exact isSp_total (by omega)

theorem unspace1_total {tree text : Str} {i j : Nat} {o : Op} {rest : List Op} (ho : Ops tree text i j (o :: rest)) :
    (¬ (o.tag = .delete ∧ o.j1 = text.length) → ∃ r, unspace1 tree text o = .ok r) ∧
    (o.tag = .delete ∧ o.j1 = text.length → unspace1 tree text o = .error .index) := by
  have hb := ops_bounds ho.2
  obtain ⟨⟨rfl, rfl, h1, h2, hm⟩, _⟩ := ho
  constructor
  · intro hnot
    by_cases hins : o.tag = .insert
    · unfold unspace1
      rw [if_pos hins]
      simp only [bind, Except.bind]
      split
      · exact ⟨_, rfl⟩
      · exact ⟨_, rfl⟩
    · have hi : o.i1 < o.i2 ∧ o.j1 < text.length := by
        cases ht : o.tag <;> rw [ht] at hm hins hnot
        · have := hm.2.1; have := hm.1; omega
        · have := hm.1; have := hm.2.1; omega
        · have := hm.1; simp at hnot; omega
        · exact absurd rfl hins
      have hte : text ≠ [] := by rintro rfl; simp at hi
      have htr : tree ≠ [] := by rintro rfl; simp at hb; omega
      obtain ⟨a, ha⟩ := isSp_total (s := tree) (k := o.i1) (by omega)
      obtain ⟨b, hb'⟩ := isSpBefore_total (s := tree) (k := o.i2) (by omega) htr
      obtain ⟨c, hc⟩ := isSp_total (s := text) (k := o.j1) hi.2
      obtain ⟨d, hd⟩ := isSpBefore_total (s := text) (k := o.j2) (by omega) hte
      unfold unspace1
      rw [if_neg hins, ha, hb', hc, hd]
      simp only [bind, Except.bind]
      generalize (if a = true then o.i1 + 1 else o.i1) = ilo
      generalize (if b = true then o.i2 - 1 else o.i2) = ihi
      generalize (if c = true then o.j1 + 1 else o.j1) = jlo
      generalize (if d = true then o.j2 - 1 else o.j2) = jhi
      by_cases hx : slice tree ilo ihi = [] ∧ slice text jlo jhi = []
      · rw [if_pos hx]; exact ⟨_, rfl⟩
      · rw [if_neg hx]; exact ⟨_, rfl⟩
  · rintro ⟨ht, hj⟩
    have hi : o.i1 < o.i2 := by rw [ht] at hm; exact hm.1
    have htr : tree ≠ [] := by rintro rfl; simp at hb; omega
    obtain ⟨a, ha⟩ := isSp_total (s := tree) (k := o.i1) (by omega)
    obtain ⟨b, hb'⟩ := isSpBefore_total (s := tree) (k := o.i2) (by omega) htr
    have hc : isSp text o.j1 = .error .index := by
      unfold isSp
      rw [hj, List.getElem?_eq_none (Nat.le_refl _)]
    unfold unspace1
    rw [if_neg (by rw [ht]; decide), ha, hb', hc]
    rfl

theorem unspace_total {tree text : Str} : ∀ {os : List Op} {i j : Nat}, Ops tree text i j os →
    ((∀ o ∈ os, ¬ (o.tag = .delete ∧ o.j1 = text.length)) → ∃ ds, unspace tree text os = .ok ds) ∧
    ((∃ o ∈ os, o.tag = .delete ∧ o.j1 = text.length) → unspace tree text os = .error .index)
  | [], _, _, _ => ⟨fun _ => ⟨[], rfl⟩, fun ⟨o, ho, _⟩ => absurd ho List.not_mem_nil⟩
  | o :: os, i, j, h => by
    obtain ⟨k1, k2⟩ := unspace1_total h
    obtain ⟨k3, k4⟩ := unspace_total h.2
    constructor
    · intro hall
      obtain ⟨r, hr⟩ := k1 (hall o (List.mem_cons_self ..))
      obtain ⟨ds, hds⟩ := k3 (fun x hx => hall x (List.mem_cons_of_mem _ hx))
      unfold unspace
      rw [hr, hds]
      exact ⟨_, rfl⟩
    · rintro ⟨x, hx, hbad⟩
      unfold unspace
      by_cases ho : o.tag = .delete ∧ o.j1 = text.length
      · rw [k2 ho]; rfl
      · obtain ⟨r, hr⟩ := k1 ho
        have : x ∈ os := by
          rcases List.mem_cons.1 hx with rfl | hx
          · exact absurd hbad ho
          · exact hx
        rw [hr, k4 ⟨x, this, hbad⟩]
        rfl

theorem Cov.mem {cn : List (Option Nat)} {tree text : Str} : ∀ {l : List Op} {i j : Nat}, Cov cn tree text l i j → ∀ d ∈ l,
    ∃ i0 j0 i' j', Fits cn tree text d i0 j0 i' j'
  | [], _, _, _, d, h => absurd h List.not_mem_nil
  | x :: l, _, _, ⟨i0, j0, h1, _, h3⟩, d, h => by
    rcases List.mem_cons.1 h with rfl | h
    · exact ⟨_, _, _, _, h3⟩
    · exact Cov.mem h1 d h

theorem text_ends {t : Str} : (normal t).getLast? ≠ some ' ' ∧ (normal t).head? ≠ some ' ' := by
  obtain ⟨h1, h2⟩ := single_normal t
  constructor
  · intro h
    have := single_last h1 ' ' h
    rw [isWs_space] at this
    cases this
  · intro h
    cases hn : normal t with
    | nil => rw [hn] at h; cases h
    | cons c s =>
      rw [hn] at h h2
      have hc : c = ' ' := by simpa using h
      rw [hc] at h2
      have h2 : isWs ' ' = false := h2
      rw [isWs_space] at h2
      cases h2

/-- The differences that are solved, if there are any. -/
theorem diffs_cov {toks : List Tk} (hg : Good toks) (t : Str) {ds : List Op} (h : diffs toks (normal t) = .ok ds) :
    Cov (nodes toks) (chars toks) (normal t) ds.reverse (chars toks).length (normal t).length := by
  unfold diffs at h
  cases hu : unspace (chars toks) (normal t) (opcodes (chars toks) (normal t)) with
  | error e => rw [hu] at h; cases h
  | ok us =>
    obtain ⟨m, h1, h2⟩ := merge_cov (cells_good hg) (text_ends (t := t)).1 text_ends.2 _ 0 0 us [] (opcodes_ops _ _) hu ⟨rfl, rfl⟩
      (fun l hl => by cases hl)
    rw [hu] at h
    simp only [bind, Except.bind, h1] at h
    injection h with h
    rw [← h, List.reverse_reverse]
    exact h2

/-- C123: the differences between the forms and the text are computed unless the last one found by `difflib` is a deletion, for
which `IndexError` is raised. -/
theorem C123_computed {toks : List Tk} (hg : Good toks) (t : Str) :
    ((∀ o ∈ opcodes (chars toks) (normal t), ¬ (o.tag = .delete ∧ o.j1 = (normal t).length)) → ∃ ds, diffs toks (normal t) = .ok ds) ∧
    ((∃ o ∈ opcodes (chars toks) (normal t), o.tag = .delete ∧ o.j1 = (normal t).length) → diffs toks (normal t) = .error .index) := by
  obtain ⟨h1, h2⟩ := unspace_total (opcodes_ops (chars toks) (normal t))
  unfold diffs
  constructor
  · intro h
    obtain ⟨us, hu⟩ := h1 h
    obtain ⟨m, hm, _⟩ := merge_cov (cells_good hg) (text_ends (t := t)).1 text_ends.2 _ 0 0 us [] (opcodes_ops _ _) hu ⟨rfl, rfl⟩
      (fun l hl => by cases hl)
    rw [hu]
    simp only [bind, Except.bind, hm]
    exact ⟨_, rfl⟩
  · intro h
    rw [h2 h]
    rfl

/-- C123: every difference that is solved starts with the first character of a token, except for one insertion at the beginning;
an `equal` one has the same characters on both sides. -/
theorem C123_boundaries {toks : List Tk} (hg : Good toks) (t : Str) {ds : List Op} (h : diffs toks (normal t) = .ok ds) :
    (∀ d ∈ ds, d.tag = .insert → d.i1 = 0 ∧ d.i2 = 0 ∧ d.j1 = 0 ∧ ds.head? = some d) ∧
    (∀ d ∈ ds, d.tag ≠ .insert → toks ≠ [] → ∃ n, n < toks.length ∧ d.i1 = (((close toks).take n).map spaced).flatten.length) ∧
    ∀ d ∈ ds, d.tag = .equal → slice (chars toks) d.i1 d.i2 = slice (normal t) d.j1 d.j2 := by
  have hcov := diffs_cov hg t h
  have hne : ∀ s ∈ (close toks).map spaced, s ≠ [] := fun s hs => (spaced_good (good_close hg) s hs).1
  have hlen : ((close toks).map spaced).length = toks.length := by rw [List.length_map, close_length]
  refine ⟨?_, ?_, ?_⟩
  · intro d hd hins
    obtain ⟨i0, j0, i', j', hf⟩ := hcov.mem d (List.mem_reverse.2 hd)
    obtain ⟨_, _, z1, z2, z3⟩ := hf.ins hins
    refine ⟨z1, z2, z3, ?_⟩
    have key : ∀ (l : List Op) (i j : Nat), Cov (nodes toks) (chars toks) (normal t) l i j → d ∈ l → l.getLast? = some d := by
      intro l
      induction l with
      | nil => intro _ _ _ hx; exact absurd hx List.not_mem_nil
      | cons x l ih =>
        rintro i j ⟨a, b, c1, c2, c3⟩ hx
        rcases List.mem_cons.1 hx with rfl | hx
        · rw [c2 hins]; rfl
        · have := ih a b c1 hx
          rw [List.getLast?_cons, this]
          rfl
    have := key _ _ _ hcov (List.mem_reverse.2 hd)
    rwa [List.getLast?_reverse] at this
  · intro d hd hins htok
    obtain ⟨i0, j0, i', j', hf⟩ := hcov.mem d (List.mem_reverse.2 hd)
    rcases hf.start hins with hx | hx
    · obtain ⟨n, h1, h2, h3⟩ := start_pos 0 _ d.i1 hne (.inl hx)
      refine ⟨n, hlen ▸ h3 hx, ?_⟩
      rw [h2]
      unfold pos
      rw [List.map_take]
    · exfalso
      have hl := (cells_good hg).len
      rw [hx] at hl
      have hp := pos_lt _ 0 ((close toks).map spaced).length hne (by
        rw [hlen]; exact List.length_pos_iff.2 htok) (Nat.le_refl _)
      have hp' := pos_le ((close toks).map spaced) ((close toks).map spaced).length
      have : (chars toks).length = 0 := hl.symm
      unfold chars at this
      omega
  · intro d hd heq
    obtain ⟨i0, j0, i', j', hf⟩ := hcov.mem d (List.mem_reverse.2 hd)
    obtain ⟨q1, _, q3⟩ := hf.eq heq
    exact slice_eq q1 q3

/-- The result of `solve_diffs` -/
theorem solve_part {p : Par} {toks : List Tk} (hg : Good toks) {text : Str} (hs : Single text) {ds : List Op} {res : List Tk} {w : Bool}
    (hcov : Cov (nodes toks) (chars toks) text ds.reverse (chars toks).length text.length)
    (h : solve p (nodes toks) text (num 0 toks) ds = .ok (res, w)) :
    ∃ w', Part p 0 toks w' text res ∧ ((∀ d ∈ ds, d.tag = .insert → ' ' ∉ slice text d.j1 d.j2) → w = false → w' = false) := by
  obtain ⟨n, done, w', en, inv, hw⟩ := solve_inv hg hs ds.reverse _ _ (chars toks).length res w hcov (Nat.le_refl _) (sp_empty _ _) (.inr rfl)
    (by rw [List.reverse_reverse]; exact h)
  have hne : ∀ s ∈ (close toks).map spaced, s ≠ [] := fun s hs => (spaced_good (good_close hg) s hs).1
  have hlen : ((close toks).map spaced).length = toks.length := by rw [List.length_map, close_length]
  have hnl : n = toks.length := by
    refine Nat.le_antisymm inv.len ?_
    have h1 : pos ((close toks).map spaced) toks.length = (chars toks).length := by
      unfold pos chars
      rw [← hlen, List.take_length]
    exact pos_inj hne (by omega) (by omega)
  have hdone : res = done := by
    have := inv.res
    rw [hnl, List.drop_length] at this
    rw [this]
    simp [num]
  have hpart := inv.part
  rw [hnl, List.take_length, List.take_length, ← hdone] at hpart
  exact ⟨w', hpart, fun hx => hw (fun d hd => hx d (List.mem_reverse.1 hd))⟩

/-! ## The text -/

theorem process_cases {p : Par} {r r' : Doc} (h : process p r = .ok r') :
    (normal r.text = compute r.toks ∧ r' = (if r.text ≠ normal r.text ∧ p.fixText then
      { r with comments := comment p r.text r.comments, text := normal r.text } else r)) ∨
    (normal r.text ≠ compute r.toks ∧ ∃ ds toks w, diffs r.toks (normal r.text) = .ok ds ∧
      solve p (nodes r.toks) (normal r.text) (number r.toks) ds = .ok (toks, w) ∧
      r' = (if p.fixText ∧ normal r.text ≠ compute (fillNo (normal r.text) toks) then
        { text := compute (fillNo (normal r.text) toks), toks := fillNo (normal r.text) toks, warned := w,
          comments := comment p (if r.text ≠ normal r.text ∧ p.fixText then normal r.text else r.text)
            (if r.text ≠ normal r.text ∧ p.fixText then comment p r.text r.comments else r.comments) }
      else
        { text := if r.text ≠ normal r.text ∧ p.fixText then normal r.text else r.text, toks := fillNo (normal r.text) toks, warned := w,
          comments := if r.text ≠ normal r.text ∧ p.fixText then comment p r.text r.comments else r.comments })) := by
  unfold process at h
  by_cases hn : r.text ≠ normal r.text ∧ p.fixText
  · simp only [if_pos hn] at h ⊢
    by_cases hc : normal r.text = compute r.toks
    · rw [if_pos hc] at h
      injection h with h
      exact .inl ⟨hc, h.symm⟩
    · rw [if_neg hc] at h
      right
      refine ⟨hc, ?_⟩
      cases hd : diffs r.toks (normal r.text) with
      | error e => rw [hd] at h; cases h
      | ok ds =>
        rw [hd] at h
        simp only [bind, Except.bind] at h
        cases hs : solve p (nodes r.toks) (normal r.text) (number r.toks) ds with
        | error e => rw [hs] at h; cases h
        | ok x =>
          obtain ⟨toks, w⟩ := x
          rw [hs] at h
          simp only at h
          refine ⟨ds, toks, w, rfl, hs, ?_⟩
          split at h
          · next hx => rw [if_pos hx]; injection h with h; exact h.symm
          · next hx => rw [if_neg hx]; injection h with h; exact h.symm
  · simp only [if_neg hn] at h ⊢
    by_cases hc : normal r.text = compute r.toks
    · rw [if_pos hc] at h
      injection h with h
      exact .inl ⟨hc, h.symm⟩
    · rw [if_neg hc] at h
      right
      refine ⟨hc, ?_⟩
      cases hd : diffs r.toks (normal r.text) with
      | error e => rw [hd] at h; cases h
      | ok ds =>
        rw [hd] at h
        simp only [bind, Except.bind] at h
        cases hs : solve p (nodes r.toks) (normal r.text) (number r.toks) ds with
        | error e => rw [hs] at h; cases h
        | ok x =>
          obtain ⟨toks, w⟩ := x
          rw [hs] at h
          simp only at h
          refine ⟨ds, toks, w, rfl, hs, ?_⟩
          split at h
          · next hx => rw [if_pos hx]; injection h with h; exact h.symm
          · next hx => rw [if_neg hx]; injection h with h; exact h.symm

/-- C122: with `fix_text` the text of the result is the text of its tokens; if it is another one than before, the text before is kept
in a comment. Without `fix_text` neither the text nor the comments are changed. -/
theorem C122_text {p : Par} {r r' : Doc} (h : process p r = .ok r') :
    (p.fixText = true → r'.text = compute r'.toks ∧
      (r'.text ≠ r.text → p.textLabel ≠ [] → p.textLabel ++ [' ', '=', ' '] ++ r.text ∈ r'.comments)) ∧
    (p.fixText = false → r'.text = r.text ∧ r'.comments = r.comments) ∧ r.comments <+: r'.comments := by
  have hcom : ∀ t cs, cs <+: comment p t cs := by
    intro t cs
    unfold comment
    split
    · exact List.prefix_rfl
    · exact List.prefix_append ..
  have hmem : p.textLabel ≠ [] → ∀ t cs, p.textLabel ++ [' ', '=', ' '] ++ t ∈ comment p t cs := by
    intro hl t cs
    unfold comment
    rw [if_neg hl]
    exact List.mem_append_right _ (List.mem_singleton.2 rfl)
  rcases process_cases h with ⟨hc, rfl⟩ | ⟨hc, ds, toks, w, _, _, rfl⟩
  · by_cases hn : r.text ≠ normal r.text ∧ p.fixText
    · rw [if_pos hn]
      exact ⟨fun _ => ⟨hc, fun _ hl => hmem hl _ _⟩, fun hf => (by rw [hf] at hn; cases hn.2), hcom _ _⟩
    · rw [if_neg hn]
      refine ⟨fun hf => ⟨?_, fun hx => absurd rfl hx⟩, fun _ => ⟨rfl, rfl⟩, List.prefix_rfl⟩
      have : r.text = normal r.text := by
        refine Classical.byContradiction (fun hx => hn ⟨hx, hf⟩)
      rw [this]
      exact hc
  · by_cases hn : r.text ≠ normal r.text ∧ p.fixText
    · simp only [if_pos hn]
      split
      · next hx => exact ⟨fun _ => ⟨rfl, fun _ hl => (hcom _ _).subset (hmem hl _ _)⟩, fun hf => (by rw [hf] at hn; cases hn.2), (hcom _ _).trans (hcom _ _)⟩
      · next hx =>
        refine ⟨fun hf => ⟨?_, fun _ hl => hmem hl _ _⟩, fun hf => (by rw [hf] at hn; cases hn.2), hcom _ _⟩
        exact Classical.byContradiction (fun he => hx ⟨hf, he⟩)
    · simp only [if_neg hn]
      split
      · next hx => exact ⟨fun _ => ⟨rfl, fun _ hl => hmem hl _ _⟩, fun hf => (by rw [hf] at hx; cases hx.1), hcom _ _⟩
      · next hx =>
        refine ⟨fun hf => ⟨?_, fun hy => absurd rfl hy⟩, fun _ => ⟨rfl, rfl⟩, List.prefix_rfl⟩
        have e : r.text = normal r.text := Classical.byContradiction (fun he => hn ⟨he, hf⟩)
        show r.text = _
        refine Classical.byContradiction (fun he => hx ⟨hf, ?_⟩)
        exact fun he' => he (e.trans he')

/-- C122: if no warning was logged, the tokens comply with the text (with its white space normalised): their forms and `SpaceAfter`
give this text, and `fix_text` does not change it. Required: the forms have no white space at their ends and are not empty, and the
punctuation inserted at the beginning (if any) has no space in it (see `C122_order_violated`). -/
theorem C122_complies_partial {p : Par} {r r' : Doc} (hg : Good r.toks) (h : process p r = .ok r') (hw : r'.warned = false)
    (hin : ∀ ds, diffs r.toks (normal r.text) = .ok ds → ∀ d ∈ ds, d.tag = .insert → ' ' ∉ slice (normal r.text) d.j1 d.j2) :
    compute r'.toks = normal r.text ∧ (p.fixText = true → r'.text = normal r.text) := by
  rcases process_cases h with ⟨hc, rfl⟩ | ⟨hc, ds, toks, w, hd, hs, rfl⟩
  · split
    · exact ⟨hc.symm, fun _ => rfl⟩
    · next hn =>
      refine ⟨hc.symm, fun hf => ?_⟩
      exact Classical.byContradiction (fun hx => hn ⟨hx, hf⟩)
  · have hwf : w = false := by
      split at hw
      · exact hw
      · exact hw
    subst hwf
    rw [number_num] at hs
    have hcov := diffs_cov hg r.text hd
    obtain ⟨hsing, hst⟩ := single_normal r.text
    obtain ⟨w', part, hw'⟩ := solve_part hg hsing hcov hs
    have hlay := part.lay (hw' (hin ds hd) rfl)
    obtain ⟨v, e, hv⟩ := fillNo_spec toks (normal r.text) hlay part.head hsing hst
    have hcomp : compute (fillNo (normal r.text) toks) = normal r.text := by
      unfold compute
      rw [e, rstrip_single hsing hv]
    rw [if_neg (fun hx => hx.2 hcomp.symm)]
    refine ⟨hcomp, fun hf => ?_⟩
    show (if _ then _ else _) = _
    split
    · rfl
    · next hn => exact Classical.byContradiction (fun hx => hn ⟨hx, hf⟩)

/-! ## What happens to the tokens -/

/-- `fillNo` changes only `SpaceAfter`. -/
theorem fillNo_keeps {α : Type} (f : Tk → α) (hf : ∀ (t : Tk) (v : Bool), f { t with no := v } = f t) : ∀ (toks : List Tk) (text : Str),
    (fillNo text toks).map f = toks.map f
  | [], _ => rfl
  | t :: ts, text => by
    unfold fillNo
    split
    · simp only
      split
      · rw [List.map_cons, List.map_cons, fillNo_keeps f hf ts, hf]
      · rw [List.map_cons, List.map_cons, fillNo_keeps f hf ts, hf]
    · rfl

theorem num_mem : ∀ {n k : Nat} {b : List Tk} {t : Tk}, b[k]? = some t → ({ t with orig := some (n + k), words := [] } : Tk) ∈ num n b
  | n, 0, u :: b, t, h => by
    injection h with h
    subst h
    exact List.mem_cons_self ..
  | n, k + 1, u :: b, t, h => by
    have := num_mem (n := n + 1) (b := b) (k := k) (t := t) (by simpa using h)
    rw [show n + 1 + k = n + (k + 1) by omega] at this
    exact List.mem_cons_of_mem _ this
  | _, _, [], _, h => by simp at h

/-- C124: what happens to the tokens, whatever the text is and also with warnings. (1) The old tokens, with the words of the new
multi-word tokens, stay in their order and none is doubled. (2) An old token stays a token of the same kind, or it is a word of a new
multi-word token, or it was punctuation and `allow_delete_punct` is on. (3) A new token is a multi-word token over 2 to
`max_mwt_length` neighbouring old words, or punctuation with `allow_add_punct`, or (with `allow_goeswith`) its form is a part of the
form of an old token. -/
theorem C124_tokens {p : Par} {r r' : Doc} (hg : Good r.toks) (h : process p r = .ok r') : r'.toks = r.toks ∨
    ((r'.toks.flatMap (fun u => u.orig.toList ++ u.words)).Sublist (List.range r.toks.length) ∧
      (∀ k t, r.toks[k]? = some t → (∃ u ∈ r'.toks, u.orig = some k ∧ u.mwt = t.mwt) ∨
        (t.mwt = false ∧ ∃ u ∈ r'.toks, u.mwt = true ∧ u.orig = none ∧ k ∈ u.words) ∨
        (p.deletePunct = true ∧ t.mwt = false ∧ t.form ≠ [] ∧ ∀ c ∈ t.form, p.isP c = true)) ∧
      ∀ u ∈ r'.toks, u.orig = none →
        (u.mwt = true ∧ 2 ≤ u.words.length ∧ u.words.length ≤ p.maxMwt ∧ ∃ a, u.words = List.range' a u.words.length) ∨
        (p.addPunct = true ∧ u.form ≠ [] ∧ ∀ c ∈ u.form, p.isP c = true) ∨
        (p.goeswith = true ∧ ∃ t ∈ r.toks, u.form <:+: t.form ∨ (p.hyphen = true ∧ u.form <:+: t.form.filter (· != '-')))) := by
  rcases process_cases h with ⟨_, rfl⟩ | ⟨_, ds, toks, w, hd, hs, rfl⟩
  · left
    split <;> rfl
  · right
    rw [number_num] at hs
    obtain ⟨w', part, _⟩ := solve_part hg (single_normal r.text).1 (diffs_cov hg r.text hd) hs
    have htoks : ∀ (c : Prop) [Decidable c] (a b : Doc), a.toks = fillNo (normal r.text) toks → b.toks = fillNo (normal r.text) toks →
        (if c then a else b).toks = fillNo (normal r.text) toks := by
      intro c _ a b ha hb
      split
      · exact ha
      · exact hb
    rw [htoks _ _ _ rfl rfl]
    -- a token of the result without its space
    have mem : ∀ u ∈ toks, ∃ v ∈ fillNo (normal r.text) toks, v.orig = u.orig ∧ v.mwt = u.mwt ∧ v.words = u.words ∧ v.form = u.form := by
      intro u hu
      have e := fillNo_keeps (fun t => (t.orig, t.mwt, t.words, t.form)) (fun _ _ => rfl) toks (normal r.text)
      have : (u.orig, u.mwt, u.words, u.form) ∈ toks.map (fun t => (t.orig, t.mwt, t.words, t.form)) := List.mem_map_of_mem hu
      rw [← e] at this
      obtain ⟨v, hv, ev⟩ := List.mem_map.1 this
      simp only [Prod.mk.injEq] at ev
      exact ⟨v, hv, ev⟩
    have mem' : ∀ u ∈ fillNo (normal r.text) toks, ∃ v ∈ toks, v.orig = u.orig ∧ v.mwt = u.mwt ∧ v.words = u.words ∧ v.form = u.form := by
      intro u hu
      have e := fillNo_keeps (fun t => (t.orig, t.mwt, t.words, t.form)) (fun _ _ => rfl) toks (normal r.text)
      have : (u.orig, u.mwt, u.words, u.form) ∈ (fillNo (normal r.text) toks).map (fun t => (t.orig, t.mwt, t.words, t.form)) :=
        List.mem_map_of_mem hu
      rw [e] at this
      obtain ⟨v, hv, ev⟩ := List.mem_map.1 this
      simp only [Prod.mk.injEq] at ev
      exact ⟨v, hv, ev⟩
    refine ⟨?_, ?_, ?_⟩
    · have e := fillNo_keeps Tk.olds (fun _ _ => rfl) toks (normal r.text)
      have hsub := part.sub
      rw [List.flatMap_def, ← e, ← List.flatMap_def] at hsub
      rw [List.range_eq_range']
      exact hsub
    · intro k t hk
      have := part.kept _ (num_mem (n := 0) hk)
      rw [Nat.zero_add] at this
      rcases this with ⟨u, hu, e1, e2⟩ | h | ⟨h0, u, hu, e1, e2, k', hk', e3⟩
      · obtain ⟨v, hv, f1, f2, _⟩ := mem u hu
        exact .inl ⟨v, hv, f1.trans e1, f2.trans e2⟩
      · exact .inr (.inr h)
      · obtain ⟨v, hv, f1, f2, f3, _⟩ := mem u hu
        injection e3 with e3
        subst e3
        exact .inr (.inl ⟨h0, v, hv, f2.trans e1, f1.trans e2, f3 ▸ hk'⟩)
    · intro u hu hn
      obtain ⟨v, hv, f1, f2, f3, f4⟩ := mem' u hu
      have := part.ok v hv (f1.trans hn)
      rw [f2, f3, f4] at this
      exact this

/-! ## Tokens that are missing at the end of the text -/

theorem longest_prefix (x : Char) (xs y : Str) : Verif.Eval.Diff.longest (x :: xs ++ y) (x :: xs) 0 (x :: xs ++ y).length 0 (x :: xs).length =
    (0, 0, (x :: xs).length) := by
  have hm : Verif.Eval.Diff.matchLen (x :: xs ++ y) (x :: xs) (x :: xs ++ y).length (x :: xs).length 0 0 = (x :: xs).length := by
    apply Nat.le_antisymm
    · have := (Verif.Eval.Diff.matchLen_le (a := x :: xs ++ y) (b := x :: xs) (Nat.zero_le (x :: xs ++ y).length)
        (Nat.zero_le (x :: xs).length)).2
      omega
    · apply Verif.Eval.Diff.matchLen_max (Nat.le_refl _) (Nat.le_refl _) (by simp) (by omega)
      intro t ht
      rw [Nat.zero_add, List.getElem?_append_left ht]
  have hp : Verif.Eval.Diff.positions 0 (x :: xs ++ y).length 0 (x :: xs).length =
      (0, 0) :: (Verif.Eval.Diff.positions 0 (x :: xs ++ y).length 0 (x :: xs).length).tail := by
    simp [Verif.Eval.Diff.positions, List.range'_succ]
  unfold Verif.Eval.Diff.longest
  rw [hp]
  unfold Verif.Eval.Diff.pick
  rw [hm, if_pos (by simp)]
  apply Verif.Eval.Diff.pick_stays
  intro p hp'
  have hp'' : (p.1, p.2) ∈ Verif.Eval.Diff.positions 0 (x :: xs ++ y).length 0 (x :: xs).length := List.mem_of_mem_tail hp'
  obtain ⟨h1, h2⟩ := Verif.Eval.Diff.mem_positions.1 hp''
  have := Verif.Eval.Diff.matchLen_le (a := x :: xs ++ y) (b := x :: xs) (Nat.le_of_lt h1.2) (Nat.le_of_lt h2.2)
  simp only at this ⊢
  omega

theorem blocks_right (a b : Str) (fuel n k m : Nat) : Verif.Eval.Diff.blocks a b fuel n k m m = [] := by
  cases fuel with
  | zero => rfl
  | succ fuel =>
    have : Verif.Eval.Diff.positions n k m m = [] := by simp [Verif.Eval.Diff.positions]
    simp [Verif.Eval.Diff.blocks, Verif.Eval.Diff.longest, this, Verif.Eval.Diff.pick]

theorem opcodes_prefix (x y : Str) (hy : y ≠ []) : ∃ o ∈ opcodes (x ++ y) x, o.tag = .delete ∧ o.j1 = x.length := by
  have hl := List.length_pos_iff.2 hy
  cases x with
  | nil =>
    refine ⟨⟨.delete, 0, y.length, 0, 0⟩, ?_, rfl, rfl⟩
    unfold opcodes Verif.Eval.Diff.matching
    rw [List.length_nil, blocks_right]
    simp [Verif.Eval.Diff.collapse, Verif.Eval.Diff.opsFrom, Verif.Eval.Diff.gap, hl]
  | cons x xs =>
    refine ⟨⟨.delete, (x :: xs).length, (x :: xs ++ y).length, (x :: xs).length, (x :: xs).length⟩, ?_, rfl, rfl⟩
    have hmat : Verif.Eval.Diff.matching (x :: xs ++ y) (x :: xs) = [(0, 0, (x :: xs).length)] := by
      unfold Verif.Eval.Diff.matching Verif.Eval.Diff.blocks
      rw [longest_prefix]
      simp only
      rw [if_neg (by simp), Nat.zero_add, blocks_right, blocks_right]
      simp [Verif.Eval.Diff.collapse]
    unfold opcodes
    rw [hmat]
    simp [Verif.Eval.Diff.opsFrom, Verif.Eval.Diff.gap, hl]

theorem detok_spaced (toks : List Tk) : detok (toks.map (fun t => (t.form, t.no))) = (toks.map spaced).flatten := by
  unfold detok
  rw [List.flatMap_map, List.flatMap_def]
  rfl

theorem good_rstrip {t : Tk} (h : Closed t.form) : rstrip (spaced t) = t.form := by
  obtain ⟨c, e, hc⟩ := h
  have hr : rstrip t.form = t.form := rstrip_of_last (fun x hx => by rw [e] at hx; injection hx with hx; rw [← hx]; exact hc)
  unfold spaced
  split
  · exact hr
  · rw [rstrip_append, if_pos (rstrip_ws (fun x hx => by rw [List.mem_singleton.1 hx]; exact isWs_space)), hr]

/-- Without the space after the last token, the characters of the tree are the text of the tokens. -/
theorem compute_chars : ∀ {toks : List Tk}, Good toks → compute toks = chars toks
  | [], _ => rfl
  | [t], h => by
    unfold compute
    rw [detok_spaced]
    show rstrip (spaced t ++ []) = ({ t with no := true } : Tk).form ++ []
    rw [List.append_nil, good_rstrip (h t (List.mem_cons_self ..)).2, List.append_nil]
  | t :: u :: ts, h => by
    have ih : compute (u :: ts) = chars (u :: ts) := compute_chars (fun x hx => h x (List.mem_cons_of_mem _ hx))
    have hne : compute (u :: ts) ≠ [] := by
      rw [ih]
      have hg : Good (close (u :: ts)) := good_close (fun x hx => h x (List.mem_cons_of_mem _ hx))
      intro hx
      unfold chars at hx
      cases hc : close (u :: ts) with
      | nil => have := close_length (u :: ts); rw [hc] at this; simp at this
      | cons v vs =>
        rw [hc] at hx hg
        have : spaced v = [] := by
          rw [List.map_cons, List.flatten_cons, List.append_eq_nil_iff] at hx
          exact hx.1
        exact (spaced_good hg (spaced v) (by simp)).1 this
    unfold compute at ih hne ⊢
    rw [detok_spaced] at ih hne ⊢
    rw [List.map_cons, List.flatten_cons, rstrip_append, if_neg hne, ih]
    rfl

theorem chars_append : ∀ (a : List Tk) {b : List Tk}, b ≠ [] → chars (a ++ b) = (a.map spaced).flatten ++ chars b
  | [], b, _ => rfl
  | [t], b, hb => by
    cases b with
    | nil => exact absurd rfl hb
    | cons u us => simp [chars, close]
  | t :: u :: ts, b, hb => by
    have ih := chars_append (u :: ts) hb
    unfold chars at ih ⊢
    simp only [List.cons_append, close, List.map_cons, List.flatten_cons, List.append_assoc] at ih ⊢
    rw [ih]

/-- C122: whenever tokens at the end of the sentence are missing in the text (for example the final period), the block raises
`IndexError` instead of deleting them. -/
theorem C122_end_violated (p : Par) {a b : List Tk} (hg : Good (a ++ b)) (hb : b ≠ []) (text : Str) (ht : normal text = compute a)
    (cs : List Str) : process p { text := text, comments := cs, toks := a ++ b } = .error .index := by
  obtain ⟨w, e, _⟩ := rstrip_split (detok (a.map (fun t => (t.form, t.no))))
  have hchars : chars (a ++ b) = compute a ++ (w ++ chars b) := by
    rw [chars_append a hb, ← detok_spaced, e, List.append_assoc]
    rfl
  have hbne : chars b ≠ [] := by
    intro hx
    have hgb : Good (close b) := good_close (fun t h => hg t (List.mem_append_right _ h))
    cases hc : close b with
    | nil => have := close_length b; rw [hc] at this; exact hb (List.length_eq_zero_iff.1 this.symm)
    | cons v vs =>
      unfold chars at hx
      rw [hc] at hx hgb
      have : spaced v = [] := by
        rw [List.map_cons, List.flatten_cons, List.append_eq_nil_iff] at hx
        exact hx.1
      exact (spaced_good hgb (spaced v) (by simp)).1 this
  have hne : normal text ≠ compute (a ++ b) := by
    rw [compute_chars hg, hchars, ht]
    intro hx
    have := congrArg List.length hx
    have hl := List.length_pos_iff.2 hbne
    simp only [List.length_append] at this
    omega
  have hd : diffs (a ++ b) (normal text) = .error .index := by
    refine (C123_computed hg text).2 ?_
    rw [hchars, ht]
    exact opcodes_prefix _ _ (fun hx => hbne (List.append_eq_nil_iff.1 hx).2)
  unfold process
  by_cases hn : text ≠ normal text ∧ p.fixText
  · simp only [if_pos hn, if_neg hne, hd]
    rfl
  · simp only [if_neg hn, if_neg hne, hd]
    rfl

/-! ## Examples -/

def exPar : Par := { isP := fun c => ['.', ',', '(', '[', '-'].contains c }
def tk (form : Str) (no : Bool := false) : Tk := { form := form, no := no }

/-- "Hi,  man y." for the tokens "Hi", "many", ".": a comma is inserted and "many" is divided. -/
def exDoc : Doc := { text := ['H', 'i', ',', ' ', ' ', 'm', 'a', 'n', ' ', 'y', '.'], comments := [],
                     toks := [tk ['H', 'i'], tk ['m', 'a', 'n', 'y'], tk ['.']] }

def exResult : Doc :=
  { text := ['H', 'i', ',', ' ', 'm', 'a', 'n', ' ', 'y', '.'],
    comments := [['O', 'r', 'i', 'g', 'T', 'e', 'x', 't', ' ', '=', ' ', 'H', 'i', ',', ' ', ' ', 'm', 'a', 'n', ' ', 'y', '.']],
    toks := [{ orig := some 0, form := ['H', 'i'], no := true }, tk [','], { orig := some 1, form := ['m', 'a', 'n'] },
             tk ['y'] true, { orig := some 2, form := ['.'] }] }

example : process exPar exDoc = .ok exResult ∧ Good exDoc.toks := by
  constructor
  · rfl
  · intro t ht
    rcases List.mem_cons.1 ht with rfl | ht
    · exact ⟨rfl, 'i', rfl, rfl⟩
    rcases List.mem_cons.1 ht with rfl | ht
    · exact ⟨rfl, 'y', rfl, rfl⟩
    rw [List.mem_singleton.1 ht]
    exact ⟨rfl, '.', rfl, rfl⟩

/-- C122: two pieces of punctuation inserted at the beginning come in the wrong order; no warning is logged by `solve_diffs`, and the
text is changed. -/
theorem C122_order_violated : ∃ r', process exPar { text := ['(', ' ', '[', 'H', 'i'], comments := [], toks := [tk ['H', 'i']] } = .ok r' ∧
    r'.warned = false ∧ r'.text = ['[', ' ', '(', ' ', 'H', 'i'] := ⟨_, rfl, rfl, rfl⟩

/-- C122: `prefer_mwt` (the default) is not respected: "3pm" for the tokens "3" and "pm" gives `SpaceAfter=No` and no multi-word
token. -/
theorem C122_mwt_violated : exPar.preferMwt = true ∧
    ∃ r', process exPar { text := ['3', 'p', 'm'], comments := [], toks := [tk ['3'], tk ['p', 'm']] } = .ok r' ∧
      r'.toks.map Tk.form = [['3'], ['p', 'm']] ∧ r'.toks.map Tk.mwt = [false, false] := ⟨rfl, _, rfl, rfl, rfl⟩

/-- C122: a multi-word token with another form in the text: `AttributeError`. -/
theorem C122_attribute_violated :
    process exPar { text := ['d', 'e', 's', ' ', 'x'], comments := [], toks := [{ form := ['d', 'u', 's'], mwt := true }, tk ['x']] } =
      .error .attr := rfl

example : process exPar { text := ['H', 'i'], comments := [], toks := [tk ['H', 'i']] ++ [tk ['.']] } = .error .index :=
  C122_end_violated exPar (by
    intro t ht
    rcases List.mem_cons.1 ht with rfl | ht
    · exact ⟨rfl, 'i', rfl, rfl⟩
    rw [List.mem_singleton.1 ht]
    exact ⟨rfl, '.', rfl, rfl⟩) (by simp) _ rfl []

/-- "du a": the words "de", "le" and the comma become a multi-word token (C124). -/
example : ∃ r', process exPar { text := ['d', 'u', ' ', 'a'], comments := [], toks := [tk ['d', 'e'], tk ['l', 'e'], tk [','], tk ['a']] } = .ok r' ∧
    r'.toks.map Tk.form = [['d', 'u'], ['a']] ∧ r'.toks.map Tk.words = [[0, 1, 2], []] ∧ r'.toks.map Tk.orig = [none, some 3] :=
  ⟨_, rfl, rfl, rfl, rfl⟩

/-- "Hi a": the comma is deleted (C124). -/
example : ∃ r', process exPar { text := ['H', 'i', ' ', 'a'], comments := [], toks := [tk ['H', 'i'], tk [','], tk ['a']] } = .ok r' ∧
    r'.toks.map Tk.orig = [some 0, some 2] := ⟨_, rfl, rfl⟩

example : diffs exDoc.toks (normal exDoc.text) =
    .ok [⟨.equal, 0, 0, 0, 0⟩, ⟨.replace, 0, 2, 0, 3⟩, ⟨.equal, 3, 3, 4, 4⟩, ⟨.replace, 3, 7, 4, 9⟩, ⟨.equal, 8, 9, 9, 10⟩] := rfl

end Verif.Text.Comply
