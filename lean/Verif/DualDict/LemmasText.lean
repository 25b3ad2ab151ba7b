import Verif.DualDict.Lemmas

/-! # Helper facts about the text form of the `DualDict` model -/

namespace Verif.DualDict
open Verif.Py

theorem mem_of_lookup {d : Dict} {k : Str} {v : Val} (h : lookup d k = some v) : (k, v) ∈ d := by
  induction d with
  | nil => simp [lookup] at h
  | cons p r ih =>
    obtain ⟨k₀, v₀⟩ := p
    simp only [lookup] at h
    split at h
    · rename_i hk; simp at h; simp [hk, h]
    · exact List.mem_cons_of_mem _ (ih h)

theorem lookup_of_mem {d : Dict} (hn : NodupKeys d) {k : Str} {v : Val} (h : (k, v) ∈ d) :
    lookup d k = some v := by
  induction d with
  | nil => simp at h
  | cons p r ih =>
    obtain ⟨k₀, v₀⟩ := p
    simp only [NodupKeys, List.map_cons, List.nodup_cons] at hn
    simp only [lookup]
    rcases List.mem_cons.1 h with h | h
    · simp only [Prod.mk.injEq] at h; simp [h]
    · have : k ∈ r.map (·.1) := List.mem_map.2 ⟨(k, v), h, rfl⟩
      have hne : ¬ k₀ = k := fun e => hn.1 (e ▸ this)
      simp [hne, ih hn.2 h]

theorem mem_iff_lookup {d : Dict} (hn : NodupKeys d) (k : Str) (v : Val) :
    (k, v) ∈ d ↔ lookup d k = some v := ⟨lookup_of_mem hn, mem_of_lookup⟩

theorem NodupKeys.perm {d e : Dict} (h : NodupKeys d) (p : d.Perm e) : NodupKeys e :=
  (p.map _).nodup_iff.1 h

theorem NodupKeys.nodup {d : Dict} (h : NodupKeys d) : d.Nodup := by
  unfold NodupKeys List.Nodup at h
  rw [List.pairwise_map] at h
  exact h.imp (fun hab e => hab (by rw [e]))

theorem ofPairs_of_nodup {d : Dict} (hn : NodupKeys d) (k : Str) : Spec.ofPairs d k = lookup d k := by
  unfold Spec.ofPairs
  have hn' : NodupKeys d.reverse := hn.perm (List.reverse_perm d).symm
  cases h : d.reverse.find? (fun p => p.1 = k) with
  | none =>
    rw [List.find?_eq_none] at h
    symm
    rw [Option.map_none, lookup_none_iff]
    intro hm
    obtain ⟨p, hp, hpk⟩ := List.mem_map.1 hm
    have := h p (List.mem_reverse.2 hp)
    simp [hpk] at this
  | some p =>
    have hp := List.mem_of_find?_eq_some h
    have hk := List.find?_some h
    simp only [decide_eq_true_eq] at hk
    obtain ⟨k', v⟩ := p
    simp only at hk
    subst hk
    rw [lookup_of_mem hn (List.mem_reverse.1 hp)]
    rfl

/-- A mapping whose text form determines it. -/
structure Representable (d : Dict) : Prop where
  names : ∀ k v, lookup d k = some v → Spec.okName dd k
  vals : ∀ k v, lookup d k = some v → Spec.okVal dd v
  notNil : lookup d ≠ Spec.flag []
  notUnderscore : lookup d ≠ Spec.flag ['_']

theorem showItem_eq (cfg : Cfg) (p : Str × Val) : showItem cfg p = Spec.written cfg p := by
  obtain ⟨k, v⟩ := p
  cases v <;> simp [showItem, Spec.written]

theorem itemOf_written {k : Str} {v : Val} (hk : Spec.okName dd k) (hv : Spec.okVal dd v) :
    Spec.itemOf dd (showItem dd (k, v)) = (k, v) := by
  have hk2 : '=' ∉ k := hk.2
  cases v with
  | tru =>
    simp only [showItem, Spec.itemOf, dd]
    rw [splitOnce_of_not_mem hk2]
  | str v =>
    simp only [showItem, Spec.itemOf, dd]
    rw [splitOnce_append hk2]
  | obj t => exact absurd hv (by simp [Spec.okVal])

theorem not_mem_showItem {k : Str} {v : Val} (hk : Spec.okName dd k) (hv : Spec.okVal dd v) :
    '|' ∉ showItem dd (k, v) := by
  have hk1 : '|' ∉ k := hk.1
  cases v with
  | tru => exact hk1
  | str v =>
    have hv' : '|' ∉ v := hv
    simp [showItem, dd, hk1, hv']
  | obj t => exact absurd hv (by simp [Spec.okVal])

theorem flag_of_singleton (k : Str) : lookup [(k, Val.tru)] = Spec.flag k := by
  funext k'
  simp only [lookup, Spec.flag]
  by_cases h : k = k'
  · simp [h]
  · have : ¬ k' = k := fun e => h e.symm
    simp [h, this]

theorem showItem_eq_flag {p : Str × Val} {t : Str} (ht : '=' ∉ t) (h : showItem dd p = t) :
    p = (t, .tru) := by
  obtain ⟨k, v⟩ := p
  cases v with
  | tru => simp only [showItem] at h; rw [h]
  | str v => exfalso; apply ht; rw [← h]; simp [showItem, dd]
  | obj v => exfalso; apply ht; rw [← h]; simp [showItem, dd]

/-- The text of a representable dictionary is neither empty nor `_` and reads back as the
dictionary. -/
theorem serialize_roundtrip (lower : Str → Str) {d : Dict} (hn : NodupKeys d) (hd : d ≠ [])
    (hr : Representable d) :
    serialize dd lower d ≠ [] ∧ serialize dd lower d ≠ ['_'] ∧
      Spec.ofText dd (serialize dd lower d) = lookup d := by
  have hp := pySort_perm (itemLe lower) d
  generalize hl : pySort (itemLe lower) d = l at hp
  have hnl : NodupKeys l := hn.perm hp.symm
  have hle : l ≠ [] := by
    intro h; rw [h] at hp; exact hd (hp.symm.eq_nil)
  have hs : serialize dd lower d = join ['|'] (l.map (showItem dd)) := by
    simp [serialize, hd, hl, dd]
  have hlook : lookup l = lookup d := by
    funext k
    cases h : lookup d k with
    | some v => exact lookup_of_mem hnl (hp.mem_iff.2 (mem_of_lookup h))
    | none =>
      rw [lookup_none_iff] at h ⊢
      intro hm; exact h ((hp.map _).mem_iff.1 hm)
  have hok : ∀ k v, (k, v) ∈ l → Spec.okName dd k ∧ Spec.okVal dd v := by
    intro k v h
    have := lookup_of_mem hnl h
    rw [hlook] at this
    exact ⟨hr.names k v this, hr.vals k v this⟩
  have hfree : ∀ p ∈ l.map (showItem dd), '|' ∉ p := by
    intro p h
    obtain ⟨⟨k, v⟩, hm, rfl⟩ := List.mem_map.1 h
    exact not_mem_showItem (hok k v hm).1 (hok k v hm).2
  have hsplit := split_join (c := '|') (ps := l.map (showItem dd)) (by simpa using hle) hfree
  -- a text without '|' has a single item
  have hsingle : ∀ t : Str, '|' ∉ t → '=' ∉ t → join ['|'] (l.map (showItem dd)) = t →
      lookup d = Spec.flag t := by
    intro t h1 h2 h
    rw [h, split_of_not_mem h1] at hsplit
    cases l with
    | nil => exact absurd rfl hle
    | cons p r =>
      simp only [List.map_cons, List.cons.injEq] at hsplit
      have hr' : r = [] := by
        have := hsplit.2.symm; simpa using this
      have hp' := showItem_eq_flag h2 hsplit.1.symm
      rw [← hlook, hr', hp']
      exact flag_of_singleton t
  rw [hs]
  refine ⟨?_, ?_, ?_⟩
  · intro h; exact hr.notNil (hsingle [] (by simp) (by simp) h)
  · intro h; exact hr.notUnderscore (hsingle ['_'] (by decide) (by decide) h)
  · have hne : join ['|'] (l.map (showItem dd)) ≠ ['_'] :=
      fun h => hr.notUnderscore (hsingle ['_'] (by decide) (by decide) h)
    unfold Spec.ofText
    have hs2 : split dd.itemSep (join ['|'] (l.map (showItem dd))) = l.map (showItem dd) := hsplit
    rw [if_neg (by exact hne), hs2, List.map_map]
    have : l.map (Spec.itemOf dd ∘ showItem dd) = l := by
      conv => rhs; rw [← List.map_id l]
      apply List.map_congr_left
      intro p hm
      exact itemOf_written (hok p.1 p.2 hm).1 (hok p.1 p.2 hm).2
    rw [this]
    funext k
    rw [ofPairs_of_nodup hnl, hlook]

/-- The cached text agrees with the cached dictionary whenever the latter is representable. -/
def TextInv (s : State) : Prop :=
  ∀ t, s.string = some t →
    (s.dict ≠ [] → Representable s.dict → t ≠ [] ∧ Spec.ofText dd t = lookup s.dict) ∧
    (s.dict = [] → t ≠ [])

theorem textInv_deserialize {s : State} (h : TextInv s) : TextInv (deserialize dd s) := by
  obtain ⟨st, d⟩ := s
  cases d with
  | cons p r => exact h
  | nil =>
    cases st with
    | none => intro t ht; simp [deserialize] at ht
    | some u =>
      by_cases hu : u = dd.emptyStr
      · have : deserialize dd ⟨some u, []⟩ = ⟨some u, []⟩ := by simp [deserialize, hu]
        rw [this]; exact h
      · have he : deserialize dd ⟨some u, []⟩ = ⟨some u, parse dd u⟩ := by simp [deserialize, hu]
        rw [he]
        intro t ht
        simp only [Option.some.injEq] at ht
        subst ht
        have hu' := (h u rfl).2 rfl
        refine ⟨fun _ _ => ⟨hu', ?_⟩, fun hnil => absurd hnil (parse_ne_nil _ _)⟩
        funext k
        rw [← ofText_lookup, abs, he]

theorem textInv_none (d : Dict) : TextInv ⟨none, d⟩ := by intro t h; simp at h

theorem textInv_delItem {s : State} (h : TextInv s) (k : Str) : TextInv (delItem dd s k) := by
  have hd := textInv_deserialize h
  simp only [delItem]
  split
  · exact textInv_none _
  · exact hd

theorem textInv_step (lower : Str → Str) {s : State} (hn : NodupKeys s.dict) (h : TextInv s)
    (o : Op) : TextInv (step dd lower s o).1 := by
  have hd := textInv_deserialize h
  cases o with
  | set k v =>
    simp only [step, setItem]
    cases v with
    | none => exact textInv_delItem (textInv_none _) k
    | some v =>
      by_cases hv : v = .str []
      · simp only [hv, if_true]; exact textInv_delItem (textInv_none _) k
      · simp only [hv, if_false, dd]; exact textInv_none _
  | del k => exact textInv_delItem h k
  | pop k => exact textInv_delItem hd k
  | clear => intro t ht; simp [step, clear, dd] at ht; subst ht; simp [step, clear]
  | setNone => intro t ht; simp [step, clear, dd] at ht; subst ht; simp [step, clear]
  | setStr u =>
    intro t ht
    simp only [step, dd, Option.some.injEq] at ht
    refine ⟨fun hne => absurd rfl hne, fun _ => ?_⟩
    subst ht; split <;> simp_all
  | setDict m => exact textInv_none _
  | setOther => exact h
  | get k | getDefault k _ | setdefault k _ | contains k | iter | len => exact hd
  | str =>
    obtain ⟨st, d⟩ := s
    cases st with
    | some t => exact h
    | none =>
      intro t ht
      simp only [step, Option.some.injEq] at ht
      subst ht
      refine ⟨fun hne hr => ?_, fun hnil => ?_⟩
      · have := serialize_roundtrip lower hn hne hr
        exact ⟨this.1, this.2.2⟩
      · simp only [step] at hnil; rw [hnil]; simp [serialize, dd]

theorem textInv_run (lower : Str → Str) {s : State} (hn : NodupKeys s.dict) (h : TextInv s)
    (ops : List Op) : TextInv (run dd lower s ops) := by
  induction ops generalizing s with
  | nil => exact h
  | cons o ops ih => exact ih (nodup_step dd lower s o hn) (textInv_step lower hn h o)

theorem shown_eq_str (cfg : Cfg) (lower : Str → Str) (s : State) :
    (step cfg lower s .str).2 = .text (shown cfg lower s) := by
  obtain ⟨st, d⟩ := s
  cases st <;> rfl

/-- Reading back the printed text of a reachable representable state gives the same mapping. -/
theorem shown_roundtrip (lower : Str → Str) {s : State} (hn : NodupKeys s.dict) (h : TextInv s)
    (hr : Representable (abs dd s)) :
    Spec.ofText dd (dd.storeStr (shown dd lower s)) = lookup (abs dd s) := by
  obtain ⟨st, d⟩ := s
  have hstore : ∀ t : Str, t ≠ [] → dd.storeStr t = t := by intro t ht; simp [dd, ht]
  cases st with
  | none =>
    rw [abs_of_string_none] at hr ⊢
    simp only [shown]
    cases d with
    | nil =>
      have : serialize dd lower [] = ['_'] := rfl
      rw [this, hstore _ (by simp)]
      funext k; simp [Spec.ofText, dd, lookup, Spec.empty]
    | cons p r =>
      have := serialize_roundtrip lower hn (by simp) hr
      rw [hstore _ this.1, this.2.2]
  | some t =>
    have ht := h t rfl
    simp only [shown]
    cases d with
    | nil =>
      rw [hstore t (ht.2 rfl)]
      funext k; exact (ofText_lookup dd t k).symm
    | cons p r =>
      have := ht.1 (by simp) hr
      rw [hstore t this.1, this.2]; rfl

theorem itemLe_trans (lower : Str → Str) (a b c : Str × Val) :
    itemLe lower a b = true → itemLe lower b c = true → itemLe lower a c = true := by
  simp only [itemLe, decide_eq_true_eq]
  exact List.le_trans

theorem itemLe_total (lower : Str → Str) (a b : Str × Val) :
    itemLe lower a b = true ∨ itemLe lower b a = true := by
  simp only [itemLe, decide_eq_true_eq]
  exact List.le_total _ _

theorem string_none_of_rewrites (lower : Str → Str) (s : State) (o : Op)
    (h : Spec.rewrites o = true) : (step dd lower s o).1.string = none := by
  have hdel : ∀ d k, (delItem dd ⟨none, d⟩ k).string = none := by
    intro d k
    unfold delItem
    have : deserialize dd ⟨none, d⟩ = ⟨none, d⟩ := by cases d <;> rfl
    simp only [this]
    split <;> rfl
  cases o with
  | set k v =>
    simp only [step, setItem]
    cases v with
    | none => exact hdel _ _
    | some v =>
      by_cases hv : v = .str []
      · simp only [hv, if_true]; exact hdel _ _
      · simp only [hv, if_false, dd]
  | setDict m => rfl
  | del | pop | clear | setNone | setStr | setOther | get | getDefault | setdefault | contains
  | iter | len | str => simp [Spec.rewrites] at h

/-- Dictionaries with equal contents are permutations of each other. -/
theorem perm_of_lookup_eq {d e : Dict} (hd : NodupKeys d) (he : NodupKeys e)
    (h : lookup d = lookup e) : d.Perm e := by
  rw [List.perm_iff_count]
  intro p
  obtain ⟨k, v⟩ := p
  have h1 := List.nodup_iff_count.1 hd.nodup (k, v)
  have h2 := List.nodup_iff_count.1 he.nodup (k, v)
  have : (k, v) ∈ d ↔ (k, v) ∈ e := by
    rw [mem_iff_lookup hd, mem_iff_lookup he, h]
  rw [← List.count_pos_iff, ← List.count_pos_iff] at this
  omega

theorem serialize_perm (lower : Str → Str) {d e : Dict} (hd : NodupKeys d) (he : NodupKeys e)
    (h : lookup d = lookup e)
    (hinj : ∀ k k', (lookup d k).isSome → (lookup d k').isSome → lower k = lower k' → k = k') :
    serialize dd lower d = serialize dd lower e := by
  have hp := perm_of_lookup_eq hd he h
  unfold serialize
  by_cases hnil : d = []
  · have : e = [] := by rw [hnil] at hp; exact hp.symm.eq_nil
    simp [hnil, this]
  · have hnil' : e ≠ [] := fun hc => hnil (by rw [hc] at hp; exact hp.eq_nil)
    simp only [hnil, hnil', if_false]
    congr 2
    apply List.Perm.eq_of_pairwise (le := fun a b => itemLe lower a b = true)
    · intro a b ha hb hab hba
      simp only [itemLe, decide_eq_true_eq] at hab hba
      have hl : lower a.1 = lower b.1 := List.le_antisymm hab hba
      obtain ⟨ka, va⟩ := a
      obtain ⟨kb, vb⟩ := b
      have h1 := lookup_of_mem hd (mem_pySort.1 ha)
      have h2 := lookup_of_mem he (mem_pySort.1 hb)
      rw [← h] at h2
      have hk : ka = kb := hinj ka kb (by rw [h1]; rfl) (by rw [h2]; rfl) hl
      subst hk
      rw [h1] at h2
      simp only [Option.some.injEq] at h2
      rw [h2]
    · exact pySort_pairwise (itemLe_trans lower) (itemLe_total lower) d
    · exact pySort_pairwise (itemLe_trans lower) (itemLe_total lower) e
    · exact (pySort_perm _ d).trans (hp.trans (pySort_perm _ e).symm)

end Verif.DualDict
