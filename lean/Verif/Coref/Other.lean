import Verif.DualDict.LemmasText
import Verif.Coref.Store

/-!
# Property C83: the extra attributes of mentions in the MISC attribute Entity (udapi/core/coref.py:650-675, 771-787, 843-860)

`mention.other` is an `OtherDualDict` (model in `Verif.DualDict`). `global.Entity` is the default `eid-etype-head-other`.
-/

namespace Verif.Coref.Other
open Verif.Py Verif.DualDict
open Verif.Coref.Store (SM load store)

/-- `other_fields` (coref.py:787): the condition compares each field with a tuple that has one element, a list, so that all
fields are kept. -/
def otherFields : List Str := [['e', 'i', 'd'], ['e', 't', 'y', 'p', 'e'], ['h', 'e', 'a', 'd'], ['o', 't', 'h', 'e', 'r']]

/-- The text of the field `other` of a mention whose `_other` is in the state `s` (coref.py:843-852): empty, or that of a copy
without the items named as a field. -/
def otherText (lower : Str → Str) (s : State) : Str :=
  let d := (deserialize odd s).dict
  if d = [] then []
  else serialize odd lower (otherFields.foldl erase d)

/-- `OtherDualDict(value)` (coref.py:671, 998-1004, 1079-1081) -/
def loaded (t : Str) : State := ⟨some t, []⟩

/-! ## Proofs -/

theorem itemOf_written {k : Str} {v : Val} (hk : Spec.okName odd k) (hv : Spec.okVal odd v) :
    Spec.itemOf odd (showItem odd (k, v)) = (k, v) := by
  have hk2 : ':' ∉ k := hk.2
  cases v with
  | tru =>
    simp only [showItem, Spec.itemOf, odd]
    rw [splitOnce_of_not_mem hk2]
  | str v =>
    simp only [showItem, Spec.itemOf, odd]
    rw [splitOnce_append hk2]
  | obj t => exact absurd hv (by simp [Spec.okVal])

theorem not_mem_showItem {k : Str} {v : Val} (hk : Spec.okName odd k) (hv : Spec.okVal odd v) :
    ',' ∉ showItem odd (k, v) := by
  have hk1 : ',' ∉ k := hk.1
  cases v with
  | tru => exact hk1
  | str v =>
    have hv' : ',' ∉ v := hv
    simp [showItem, odd, hk1, hv']
  | obj t => exact absurd hv (by simp [Spec.okVal])

theorem serialize_roundtrip (lower : Str → Str) {d : Dict} (hn : NodupKeys d)
    (hok : ∀ k v, lookup d k = some v → Spec.okName odd k ∧ Spec.okVal odd v) (hf : lookup d ≠ Spec.flag []) :
    Spec.ofText odd (serialize odd lower d) = lookup d := by
  by_cases hd : d = []
  · subst hd; rfl
  have hp := pySort_perm (itemLe lower) d
  generalize hl : pySort (itemLe lower) d = l at hp
  have hnl : NodupKeys l := hn.perm hp.symm
  have hle : l ≠ [] := by
    intro h; rw [h] at hp; exact hd (hp.symm.eq_nil)
  have hs : serialize odd lower d = join [','] (l.map (showItem odd)) := by
    simp [serialize, hd, hl, odd]
  have hlook : lookup l = lookup d := by
    funext k
    cases h : lookup d k with
    | some v => exact lookup_of_mem hnl (hp.mem_iff.2 (mem_of_lookup h))
    | none =>
      rw [lookup_none_iff] at h ⊢
      intro hm; exact h ((hp.map _).mem_iff.1 hm)
  have hok' : ∀ k v, (k, v) ∈ l → Spec.okName odd k ∧ Spec.okVal odd v := by
    intro k v h
    have := lookup_of_mem hnl h
    rw [hlook] at this
    exact hok k v this
  have hsplit := split_join (c := ',') (ps := l.map (showItem odd)) (by simpa using hle) (by
    intro p h
    obtain ⟨⟨k, v⟩, hm, rfl⟩ := List.mem_map.1 h
    exact not_mem_showItem (hok' k v hm).1 (hok' k v hm).2)
  have hne : join [','] (l.map (showItem odd)) ≠ [] := by
    intro h
    rw [h, split_of_not_mem (by simp)] at hsplit
    cases l with
    | nil => exact absurd rfl hle
    | cons p r =>
      simp only [List.map_cons, List.cons.injEq] at hsplit
      have hr' : r = [] := by have := hsplit.2.symm; simpa using this
      obtain ⟨k, v⟩ := p
      have hp' : k = [] ∧ v = .tru := by
        have := hsplit.1
        cases v with
        | tru => exact ⟨this.symm, rfl⟩
        | str v => exfalso; simp [showItem, odd] at this
        | obj v => exfalso; simp [showItem, odd] at this
      apply hf
      rw [← hlook, hr', hp'.1, hp'.2]
      exact flag_of_singleton []
  rw [hs]
  unfold Spec.ofText
  have hs2 : split odd.itemSep (join [','] (l.map (showItem odd))) = l.map (showItem odd) := hsplit
  rw [if_neg (by exact hne), hs2, List.map_map]
  have : l.map (Spec.itemOf odd ∘ showItem odd) = l := by
    conv => rhs; rw [← List.map_id l]
    apply List.map_congr_left
    intro p hm
    exact itemOf_written (hok' p.1 p.2 hm).1 (hok' p.1 p.2 hm).2
  rw [this]
  funext k
  rw [ofPairs_of_nodup hnl, hlook]

theorem foldl_erase {d : Dict} (h : NodupKeys d) (ks : List Str) :
    NodupKeys (ks.foldl erase d) ∧ ∀ k, lookup (ks.foldl erase d) k = if k ∈ ks then none else lookup d k := by
  induction ks generalizing d with
  | nil => exact ⟨h, by simp⟩
  | cons a ks ih =>
    obtain ⟨h1, h2⟩ := ih (nodup_erase h a)
    refine ⟨h1, fun k => ?_⟩
    rw [List.foldl_cons, h2, lookup_erase h]
    by_cases hk : k = a <;> by_cases hm : k ∈ ks <;> simp [hk, hm]

/-- The mapping that a reader of the written text sees: that of the mention without the names of the fields. -/
theorem loaded_lookup (lower : Str → Str) {s : State} (hn : NodupKeys s.dict)
    (hok : ∀ k v, lookup (abs odd s) k = some v → Spec.okName odd k ∧ Spec.okVal odd v)
    (hf : (fun k => if k ∈ otherFields then none else lookup (abs odd s) k) ≠ Spec.flag []) (k : Str) :
    lookup (abs odd (loaded (otherText lower s))) k = if k ∈ otherFields then none else lookup (abs odd s) k := by
  have hn' := abs_nodup_aux odd hn
  obtain ⟨h1, h2⟩ := foldl_erase hn' otherFields
  unfold loaded
  rw [ofText_lookup]
  unfold otherText
  simp only
  rw [show (deserialize odd s).dict = abs odd s from rfl]
  by_cases hd : abs odd s = []
  · rw [if_pos hd, hd]; simp [lookup, Spec.ofText, odd, Spec.empty]
  · rw [if_neg hd, serialize_roundtrip lower h1 (by
      intro k v hk
      rw [h2] at hk
      split at hk
      · cases hk
      · exact hok k v hk) (by rw [show lookup (otherFields.foldl erase (abs odd s)) = _ from funext h2]; exact hf), h2]

private theorem nodup_init : NodupKeys init.dict := by simp [NodupKeys, init]

theorem lookup_some {lower : Str → Str} {s : State} {k : Str} {v : Val} (h : lookup (abs odd s) k = some v) :
    (step odd lower s (.contains k)).2 = .bool true ∧ (step odd lower s (.get k)).2 = .val v := by
  simp only [step, DualDict.read, abs_deserialize_dict, h]
  exact ⟨rfl, rfl⟩

theorem lookup_absent {lower : Str → Str} {s : State} {k : Str} (h : (step odd lower s (.contains k)).2 = .bool false) :
    lookup (abs odd s) k = none := by
  simp only [step, abs_deserialize_dict, Out.bool.injEq] at h
  simpa using h

/-- C83 (partial): the extra attributes of a mention, after any calls on `mention.other`, are the same after the text of the
field `other` is read, if their names and values can be written and no name is empty or that of a field. Missing: names of
fields, hyphens and brackets, for which the claim is false. -/
theorem C83_kept_partial (lower : Str → Str) (ops : List Op) (s : State) (hs : s = run odd lower init ops)
    (hok : ∀ k v, (step odd lower s (.contains k)).2 = .bool true → (step odd lower s (.get k)).2 = .val v →
      Spec.okName odd k ∧ Spec.okVal odd v)
    (hf : ∀ k ∈ [] :: otherFields, (step odd lower s (.contains k)).2 = .bool false) (k : Str) :
    (step odd lower (loaded (otherText lower s)) (.get k)).2 = (step odd lower s (.get k)).2 ∧
    (step odd lower (loaded (otherText lower s)) (.contains k)).2 = (step odd lower s (.contains k)).2 := by
  have hn : NodupKeys s.dict := by rw [hs]; exact nodup_run odd lower init ops nodup_init
  have hm : (fun k => if k ∈ otherFields then none else lookup (abs odd s) k) = lookup (abs odd s) := by
    funext k
    split
    · rename_i hk
      exact (lookup_absent (hf k (List.mem_cons_of_mem _ hk))).symm
    · rfl
  have hl := loaded_lookup lower hn (fun k v h => hok k v (lookup_some h).1 (lookup_some h).2) (by
    rw [hm]
    intro h
    have := congrFun h []
    rw [lookup_absent (hf [] (List.mem_cons_self ..))] at this
    simp [Spec.flag] at this) k
  have hl' : lookup (abs odd (loaded (otherText lower s))) k = lookup (abs odd s) k := hl.trans (congrFun hm k)
  simp only [step, DualDict.read, abs_deserialize_dict, hl', and_self]

/-- C83: the text of the field has only commas, colons and characters of the names and values, so that a mention whose names and
values have no hyphen and no bracket satisfies the condition of C38. -/
theorem C83_text (lower : Str → Str) (ops : List Op) (s : State) (hs : s = run odd lower init ops)
    (hok : ∀ k v, (step odd lower s (.contains k)).2 = .bool true → (step odd lower s (.get k)).2 = .val v →
      (∀ c ∈ k, c ≠ '-' ∧ c ≠ '(' ∧ c ≠ ')') ∧ ∀ t, v = .str t ∨ v = .obj t → ∀ c ∈ t, c ≠ '-' ∧ c ≠ '(' ∧ c ≠ ')') :
    ∀ c ∈ otherText lower s, c ≠ '-' ∧ c ≠ '(' ∧ c ≠ ')' := by
  have hn : NodupKeys s.dict := by rw [hs]; exact nodup_run odd lower init ops nodup_init
  obtain ⟨h1, h2⟩ := foldl_erase (abs_nodup_aux odd hn) otherFields
  intro c hc
  unfold otherText at hc
  simp only at hc
  rw [show (deserialize odd s).dict = abs odd s from rfl] at hc
  split at hc
  · cases hc
  · unfold serialize at hc
    split at hc
    · cases hc
    · rcases Store.mem_join hc with h | ⟨p, hp, h⟩
      · rw [show odd.itemSep = ',' from rfl, List.mem_singleton] at h
        subst h; decide
      · obtain ⟨⟨k, v⟩, hm, rfl⟩ := List.mem_map.1 hp
        have hl := lookup_of_mem h1 ((pySort_perm _ _).mem_iff.1 hm)
        rw [h2] at hl
        split at hl
        · cases hl
        · have hkv := hok k v (lookup_some hl).1 (lookup_some hl).2
          cases v with
          | tru => exact hkv.1 c h
          | str t =>
            simp only [showItem, List.mem_append, List.mem_cons] at h
            rcases h with h | rfl | h
            · exact hkv.1 c h
            · decide
            · exact hkv.2 t (Or.inl rfl) c h
          | obj t =>
            simp only [showItem, List.mem_append, List.mem_cons] at h
            rcases h with h | rfl | h
            · exact hkv.1 c h
            · decide
            · exact hkv.2 t (Or.inr rfl) c h

example : let s := run odd id init [.set ['b'] (some (.str ['x', ',', 'y'])), .setStr "b:1,a".toList, .set ['c'] (some (.str ['z']))]
    otherText id s = "a,b:1,c:z".toList ∧ (step odd id (loaded (otherText id s)) (.get ['c'])).2 = .val (.str ['z']) := by decide

/-- C83, violated: an attribute named as one of the fields is never written. -/
theorem C83_field_names_violated (lower : Str → Str) (ops : List Op) (s : State) (hs : s = run odd lower init ops)
    (hok : ∀ k v, (step odd lower s (.contains k)).2 = .bool true → (step odd lower s (.get k)).2 = .val v →
      Spec.okName odd k ∧ Spec.okVal odd v)
    (hflag : (step odd lower s (.contains [])).2 = .bool false) :
    ∀ k ∈ [['e', 'i', 'd'], ['e', 't', 'y', 'p', 'e'], ['h', 'e', 'a', 'd'], ['o', 't', 'h', 'e', 'r']],
      (step odd lower (loaded (otherText lower s)) (.contains k)).2 = .bool false := by
  intro k hk
  have hn : NodupKeys s.dict := by rw [hs]; exact nodup_run odd lower init ops nodup_init
  have hl := loaded_lookup lower hn (fun k v h => hok k v (lookup_some h).1 (lookup_some h).2) (by
    intro h
    have := congrFun h []
    simp [lookup_absent hflag, otherFields, Spec.flag] at this) k
  rw [if_pos (show k ∈ otherFields from hk)] at hl
  simp only [step, abs_deserialize_dict, hl, Option.isSome_none]

example : (step odd id (run odd id init [.set ['h', 'e', 'a', 'd'] (some (.str ['1']))]) (.contains ['h', 'e', 'a', 'd'])).2 =
      .bool true ∧
    otherText id (run odd id init [.set ['h', 'e', 'a', 'd'] (some (.str ['1']))]) = [] := by decide

/-- C83, violated: a text with a hyphen is cut at it, for every mention of one word. -/
theorem C83_hyphen_violated {tree : Nat → Nat} {n : Nat} {m : SM} {x y : Str}
    (hm : (⟨m.lo, m.hi, m.eid, m.etype, m.head, x⟩ : SM).Ok tree n)
    (hs : m.lo = m.hi) (ho : m.other = x ++ '-' :: y) (hy : ∀ c ∈ y, c ≠ '(' ∧ c ≠ ')') :
    load tree (store [m]) n = some [⟨m.lo, m.hi, m.eid, m.etype, m.head, x⟩] := by
  open Store in
  have hpar : ∀ c ∈ m.other, isParen c = false := by
    intro c hc
    rw [ho] at hc
    rcases List.mem_append.1 hc with hc | hc
    · exact isParen_false (hm.other c hc).2.1 (hm.other c hc).2.2
    · rcases List.mem_cons.1 hc with rfl | hc
      · rfl
      · exact isParen_false (hy c hc).1 (hy c hc).2
  have hone : m.other ≠ [] := by rw [ho]; simp
  have hlab : m.label = join ['-'] [m.eid, m.etype, natStr m.head, m.other] := by
    unfold SM.label
    rw [trimEnd_label (natStr_ne_nil _), if_neg hone]
  have hlab2 : m.label = join ['-'] [m.eid, m.etype, natStr m.head, x] ++ '-' :: y := by
    rw [hlab, ho]; simp [join]
  have hsplit : split '-' m.label = [m.eid, m.etype, natStr m.head, x] ++ split '-' y := by
    rw [hlab2, show join ['-'] [m.eid, m.etype, natStr m.head, x] ++ '-' :: y =
        m.eid ++ '-' :: (m.etype ++ '-' :: (natStr m.head ++ '-' :: (x ++ '-' :: y))) by simp [join],
      split_append (fun h => (hm.eid _ h).1 rfl), split_append (fun h => (hm.etype _ h).1 rfl), split_append (natStr_no_dash _),
      split_append (fun h => (hm.other _ h).1 rfl)]
    rfl
  have hparse : parseLabel m.label = some (m.eid, m.etype, some (Int.ofNat m.head), x) := by
    unfold parseLabel
    rw [hsplit]
    simp [pyInt_natStr]
  have htxt : Txt m.label := by
    refine ⟨by rw [hlab2]; simp, ?_⟩
    intro c hc
    rw [hlab] at hc
    rcases mem_join hc with h' | ⟨p, hp, h'⟩
    · rw [List.mem_singleton.1 h']; rfl
    · simp only [List.mem_cons, List.not_mem_nil, or_false] at hp
      rcases hp with rfl | rfl | rfl | rfl
      · exact isParen_false (hm.eid c h').2.1 (hm.eid c h').2.2
      · exact isParen_false (hm.etype c h').2.1 (hm.etype c h').2.2
      · have := natStr_digits _ c h'
        apply isParen_false <;> (rintro rfl; revert this; decide)
      · exact hpar c h'
  have hst : store [m] = M.upd (fun _ => []) m.lo (Ch.sg m).str := by
    unfold store
    have : pySort leSM [m] = [m] := by simp [pySort, insertBy]
    rw [this]
    simp only [List.foldl_cons, List.foldl_nil]
    unfold storeOne
    rw [if_pos hs]
    simp only
    rw [if_pos (Or.inl trivial)]
    rfl
  have hbound : m.lo < n := by have := hm.bound; simp only at this; omega
  unfold load
  rw [show loadWords tree (store [m]) 0 n = loadWords tree (store [m]) 0 (n - 0) from rfl,
    loadWords_to tree (store [m]) (Nat.zero_le m.lo) hbound (show (Ch.sg m).Txt from htxt) (by rw [hst, M.upd_same])
      (fun r _ hr => by rw [hst, M.upd_other _ _ (by omega)])]
  have hch : loadChunk tree m.lo ⟨fun _ => [], []⟩ (Ch.sg m).str =
      some ⟨fun _ => [], [⟨m.lo, m.hi, m.eid, m.etype, m.head, x⟩]⟩ := by
    have hst' : stripParens ('(' :: (m.label ++ [')'])) = m.label := by simpa using strip_txt htxt true true
    have hl' : (('(' :: (m.label ++ [')'])).getLast? == some ')') = true := by
      rw [← List.cons_append, List.getLast?_append]; simp
    unfold loadChunk
    simp only [Ch.str, List.cons_append, List.head?_cons, hst', hl', hparse]
    have hx : ¬ (m.eid = [] ∨ m.eid.getLast? = some ']') := by
      rintro (h' | h')
      · exact hm.ne h'
      · exact hm.last h'
    have hhd : m.head = 1 := by have := hm.head; simp only at this; omega
    simp only [if_neg hx, BEq.rfl, Bool.not_true, Bool.false_and, Bool.false_eq_true, if_false, if_true, List.nil_append,
      hhd, ← hs]
  rw [hch, Option.bind_some, loadWords_skip tree (store [m]) _ _ _ (fun q h1 _ => by rw [hst, M.upd_other _ _ (by omega)])]
  rfl

example : load (fun _ => 0) (store [⟨1, 1, ['e', '1'], [], 1, "k:a-b,l:c".toList⟩]) 3 =
    some [⟨1, 1, ['e', '1'], [], 1, "k:a".toList⟩] := by decide +kernel

end Verif.Coref.Other
